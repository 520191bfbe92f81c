import Verif.Props.VprnmRomReturns

/-! # A run of the VPRNM reduced order model, and the limits of its amplitude -/

namespace TMD

open Spec Finset

noncomputable section

/-- VPRNM backbone with harmonics 1 and 3: amplitudes 1 and 6 of harmonic 1, amplitude 1 of harmonic 3, frequency 1, force 2. -/
def exV : ℕ → ℕ → ℝ := fun k i =>
  if i = 0 then (if k = 0 then 1 else 6) else if i = 2 then 1 else if i = 4 then 1 else if i = 5 then 2 else 0

/-- Superharmonic backbone: one row with frequency 3, damping and amplitude 1. -/
def exR : ℕ → ℕ → ℝ := fun _ i => if i = 0 then 1 else if i = 2 then 3 else if i = 3 then 9 / 5 else 0

theorem ex_first (U : ℕ → ℝ) (h : U 1 = 0) (h0 : 0 ≤ U 0) : ‖pointHarmonic [1] 1 (fun _ => 1) U 1‖ = U 0 := by
  have : pointHarmonic [1] 1 (fun _ => 1) U 1 = ((U 0 : ℝ) : ℂ) := by
    rw [pointHarmonic_first, Finset.sum_range_one]
    apply Complex.ext <;> simp [firstHarmonic, coefOf, h]
  rw [this, Complex.norm_real, Real.norm_of_nonneg h0]

theorem exF_amp (k : ℕ) : rowAmp [1] 1 (fun _ => 1) romBB k = if k = 0 then 1 else 6 := by
  have e3 : (10 : ℝ) ^ Real.logb 10 3 = 3 := Real.rpow_logb (by norm_num) (by norm_num) (by norm_num)
  unfold rowAmp
  rw [ex_first _ (by simp [romBB]) (by unfold romBB; split_ifs <;> norm_num)]
  unfold romBB
  split_ifs <;> simp_all [numCoeff]
  norm_num

theorem exR_amp (k : ℕ) : rowAmp [1] 1 (fun _ => 1) exR k = 1 := by
  unfold rowAmp
  rw [ex_first _ (by simp [exR]) (by simp [exR])]
  simp [exR, numCoeff]

theorem exV_first (U : ℕ → ℝ) (h : U 1 = 0) (h0 : 0 ≤ U 0) : ‖pointHarmonic [1, 3] 1 (fun _ => 1) U 1‖ = U 0 := by
  have : pointHarmonic [1, 3] 1 (fun _ => 1) U 1 = ((U 0 : ℝ) : ℂ) := by
    rw [pointHarmonic_first, Finset.sum_range_one]
    apply Complex.ext <;> simp [firstHarmonic, coefOf, h]
  rw [this, Complex.norm_real, Real.norm_of_nonneg h0]

theorem exV_third (U : ℕ → ℝ) (h : U 3 = 0) (h0 : 0 ≤ U 2) : ‖pointHarmonic [1, 3] 1 (fun _ => 1) U 3‖ = U 2 := by
  have : pointHarmonic [1, 3] 1 (fun _ => 1) U 3 = ((U 2 : ℝ) : ℂ) := by
    unfold pointHarmonic
    rw [Finset.sum_range_one]
    apply Complex.ext <;> simp [coefOf, h]
  rw [this, Complex.norm_real, Real.norm_of_nonneg h0]

theorem exV_amp (k : ℕ) : ‖pointHarmonic [1, 3] 1 (fun _ => 1) (exV k) 1‖ = if k = 0 then 1 else 6 := by
  rw [exV_first _ (by simp [exV]) (by unfold exV; split_ifs <;> norm_num)]
  simp [exV]

theorem ex_input : H1Input 1 [1] [1] [1, 3] 3 1 exR 2 6 exV where
  fs := by simp
  rs := by simp
  vs := by simp
  f1 := ⟨[], .inl rfl⟩
  r1 := ⟨[], .inl rfl⟩
  v1 := ⟨[3], .inl rfl⟩
  one_le := by norm_num
  mem := by simp
  rpos := by intro k _; simp [exR, numCoeff]
  vpos := by intro k _; simp [exV]

theorem ex_increasing : H1Increasing 1 2 romBB [1] 1 exR [1] 2 exV [1, 3] (fun _ => 1) (fun _ => 1) where
  vpos := by norm_num
  fpos := by norm_num
  rpos := by norm_num
  vprnm := by
    intro k hk
    have : k = 0 := by omega
    subst this
    rw [exV_amp, exV_amp]; norm_num
  fund := by
    intro k hk
    have : k = 0 := by omega
    subst this
    rw [exF_amp, exF_amp]; norm_num
  super := by intro k hk; omega

/-- The model returns for every amplitude between 1 and 6. -/
theorem ex_returns {amp : ℝ} (h0 : 1 ≤ amp) (h1 : amp ≤ 6) (Fl : ℕ → ℝ) (correct : Bool) :
    ∃ out, constantH1 1 2 romBB [1] 1 exR [1] 6 2 exV [1, 3] 3 (fun _ => 1) amp (fun _ => 1) Fl none correct = .ok out := by
  obtain ⟨o, -, h2⟩ := C60_linear (M := 2) (N := 5) (X := exV) ex_increasing.vprnm (by norm_num) le_rfl [amp]
  cases h2 with
  | cons ha h2 =>
  cases h2
  rename_i r
  obtain ⟨pV, rfl, hp⟩ := ha.segment 0 (by norm_num) (by rw [exV_amp]; simpa using h0) (by rw [exV_amp]; simpa using h1)
  have hV2 : pV 2 = 1 := by
    have := hp 2
    rw [exV_amp, exV_amp] at this
    simp [exV] at this
    linarith
  have hV3 : pV 3 = 0 := by
    have := hp 3
    rw [exV_amp, exV_amp] at this
    simp [exV] at this
    rcases this with h | h
    · norm_num at h
    · exact h
  have hA : ‖pointHarmonic [1, 3] 1 (fun _ => 1) pV 3‖ = 1 := by
    rw [exV_third _ hV3 (by rw [hV2]; norm_num), hV2]
  have hR : LinearAt 1 (rowAmp [1] 1 (fun _ => 1) exR) (ampTable (numCoeff [1] * 1) exR)
      ‖pointHarmonic [1, 3] 1 (fun _ => 1) pV 3‖ (some (ampTable (numCoeff [1] * 1) exR 0)) := by
    rw [hA]
    refine ⟨fun h => ?_, fun h => ?_, fun k hk _ => ?_, fun k hk => by omega⟩
    · rw [exR_amp] at h; exact absurd h (lt_irrefl _)
    · rw [exR_amp] at h; exact absurd h (lt_irrefl _)
    · have : k = 0 := by omega
      subst this
      rfl
  refine C97_returns ex_input (.inr (by simp [numCoeff])) ex_increasing ha hR ?_
  intro shape w z q hrow hlt
  exfalso
  rcases hrow with h | ⟨k, hk, -, -, -, hq, -⟩
  · rw [h.2.2.2] at hlt
    exact lt_irrefl _ hlt
  · have : k = 0 := by omega
    subst this
    rw [hq] at hlt
    unfold ampTable at hlt
    rw [if_pos rfl] at hlt
    exact lt_irrefl _ hlt

/-- C94 and C95 on this run: there is a row at the VPRNM frequency 1 with the VPRNM force 2, if no other row has frequency 1. -/
example : ∃ out, constantH1 1 2 romBB [1] 1 exR [1] 6 2 exV [1, 3] 3 (fun _ => 1) (7 / 2) (fun _ => 1) (fun _ => 1) none true = .ok out ∧
    ∃ j < out.Om.length, out.Om.getD j 0 = 1 ∧ (out.Om.Nodup → out.force.getD j none = some 2) := by
  obtain ⟨out, ho⟩ := ex_returns (amp := 7 / 2) (by norm_num) (by norm_num) (fun _ => 1) true
  refine ⟨out, ho, ?_⟩
  obtain ⟨pV, pF, pR, hP, j, hj, hOm, V, -, -, -, -, hf⟩ := C95_resonance ex_input (by norm_num) (by simp)
    (by rw [exF_amp]; norm_num) (by rw [exF_amp]; norm_num) ho
  obtain ⟨row, e, hp⟩ := hP.vprnm.segment 0 (by norm_num) (by rw [exV_amp]; norm_num) (by rw [exV_amp]; norm_num)
  cases e
  have h4 := hp 4
  have h5 := hp 5
  rw [exV_amp, exV_amp] at h4 h5
  simp [exV] at h4 h5
  have e4 : pV 4 = 1 := by linarith
  have e5 : pV 5 = 2 := by linarith
  refine ⟨j, hj, by rw [hOm]; exact e4, fun hn => ?_⟩
  rw [((hf hn).2 rfl).1 (by simp [numCoeff])]
  exact congrArg some e5

/-- C96 does not hold in general: between the rows of the fundamental backbone the result can have another first harmonic
amplitude than requested, here 3 in place of 7/2. -/
theorem C96_violated : ∃ out,
    constantH1 1 2 romBB [1] 1 exR [1] 6 2 exV [1, 3] 3 (fun _ => 1) (7 / 2) (fun _ => 1) (fun _ => 1) none true = .ok out ∧
    0 < out.Om.length ∧ ∀ j < out.Om.length, ∃ V : ℕ → ℝ, (∀ i, out.U.getD j (fun _ => none) i = some (V i)) ∧
      ‖pointHarmonic out.h 1 (fun _ => 1) V 1‖ = 3 := by
  obtain ⟨out, ho⟩ := ex_returns (amp := 7 / 2) (by norm_num) (by norm_num) (fun _ => 1) true
  obtain ⟨_, _, _, _, j, hj, _⟩ := C95_resonance ex_input (by norm_num) (by simp)
    (by rw [exF_amp]; norm_num) (by rw [exF_amp]; norm_num) ho
  obtain ⟨pV, pF, pR, hP, h⟩ := C95_first_harmonic ex_input (by norm_num)
    (by rw [exF_amp]; norm_num) (by rw [exF_amp]; norm_num) ho
  refine ⟨out, ho, by omega, fun j hj => ?_⟩
  obtain ⟨V, v1, -, v3⟩ := h j hj
  refine ⟨V, v1, v3.trans ?_⟩
  obtain ⟨row, e, hp⟩ := hP.fund.segment 0 (by norm_num) (by rw [exF_amp]; norm_num) (by rw [exF_amp]; norm_num)
  cases e
  have e3 : (10 : ℝ) ^ Real.logb 10 3 = 3 := Real.rpow_logb (by norm_num) (by norm_num) (by norm_num)
  have a0 := hp 0
  have a1 := hp 1
  have a4 := hp 4
  rw [exF_amp, exF_amp] at a0 a1 a4
  simp [ampTable, romBB, numCoeff, e3] at a0 a1 a4
  have b0 : pF 0 = 3/2 := by linarith
  have b1 : pF 1 = 0 := by rcases a1 with a1 | a1; exacts [absurd a1 (by norm_num), a1]
  have b4 : pF 4 = 2 := by linarith
  rw [ex_first _ b1 (by rw [b0]; norm_num), b0, show pF (numCoeff [1] * 1 + 2) = pF 4 from rfl, b4]
  norm_num

/-- At a row of the backbone the amplitude is the requested one. -/
example : ∃ out,
    constantH1 1 2 romBB [1] 1 exR [1] 6 2 exV [1, 3] 3 (fun _ => 1) 6 (fun _ => 1) (fun _ => 1) none true = .ok out ∧
    ∀ j < out.Om.length, ∃ V : ℕ → ℝ, (∀ i, out.U.getD j (fun _ => none) i = some (V i)) ∧
      ‖pointHarmonic out.h 1 (fun _ => 1) V 1‖ = 6 := by
  obtain ⟨out, ho⟩ := ex_returns (amp := 6) (by norm_num) (by norm_num) (fun _ => 1) true
  exact ⟨out, ho, C96_amplitude_partial ex_input (by norm_num) (by rw [exF_amp]; norm_num) (by rw [exF_amp]; norm_num)
    (.inl ⟨1, by norm_num, by rw [exF_amp]; norm_num⟩) ho⟩

/-- An amplitude above the VPRNM backbone is an error. -/
example : constantH1 1 2 romBB [1] 1 exR [1] 6 2 exV [1, 3] 3 (fun _ => 1) 7 (fun _ => 1) (fun _ => 1) none true = .error .value :=
  C97_vprnm_range ex_input (.inr (by simp [numCoeff])) ex_increasing (.inr (by rw [exV_amp]; norm_num))

end

end TMD
