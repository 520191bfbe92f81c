import Verif.Props.EpmcRom
import Mathlib.Tactic.Positivity

/-! # Properties of the EPMC reduced order model for constant displacement -/

namespace TMD

open TMD.Spec

variable {M Ndof : ℕ} {h : List ℕ} {bb : ℕ → ℕ → ℝ}

/-- Amplitude of the control point for the displacements `U` at harmonic 1 and modal amplitude `q`. -/
noncomputable def controlAmp (h : List ℕ) (Ndof : ℕ) (ctrl U : ℕ → ℝ) (q : ℝ) : ℝ :=
  ‖(q : ℂ) * ∑ d ∈ Finset.range Ndof, (ctrl d : ℂ) * firstHarmonic h Ndof U d‖

theorem controlAmp_eq (H : FirstIsOne h) (ctrl U : ℕ → ℝ) {q : ℝ} (hq : 0 ≤ q) : controlAmp h Ndof ctrl U q =
    Real.sqrt ((∑ d ∈ Finset.range Ndof, U (zi h * Ndof + d) * ctrl d) ^ 2 +
      (∑ d ∈ Finset.range Ndof, U ((zi h + 1) * Ndof + d) * ctrl d) ^ 2) * q := by
  have e : ∑ d ∈ Finset.range Ndof, (ctrl d : ℂ) * firstHarmonic h Ndof U d =
      ⟨∑ d ∈ Finset.range Ndof, U (zi h * Ndof + d) * ctrl d,
        -∑ d ∈ Finset.range Ndof, U ((zi h + 1) * Ndof + d) * ctrl d⟩ := by
    apply Complex.ext
    · rw [Complex.re_sum]
      refine Finset.sum_congr rfl fun d _ => ?_
      rw [firstHarmonic_eq H]; simp [mul_comm]
    · rw [Complex.im_sum, ← Finset.sum_neg_distrib]
      refine Finset.sum_congr rfl fun d _ => ?_
      rw [firstHarmonic_eq H, add_comm 1 (zi h)]; simp [mul_comm]
  unfold controlAmp
  rw [norm_mul, e, Complex.norm_real, Real.norm_of_nonneg hq, mul_comm]
  congr 1
  rw [Complex.norm_def, Complex.normSq_mk]
  congr 1; ring

/-- The backbone with its linear amplitude and the given frequencies and damping ratios. -/
structure RomData (bb : ℕ → ℕ → ℝ) (n : ℕ) (w zeta : Option (ℕ → ℝ)) (B : ℕ → ℕ → ℝ) : Prop where
  shape : ∀ k, ∀ i < n, B k i = bb k i
  freq : ∀ k, B k n = romFreq bb n w k
  damp : ∀ k, B k (n + 1) = match zeta with | some z => romFreq bb n w k * 2 * z k | none => bb k (n + 1)
  amp : ∀ k, B k (n + 2) = (10 : ℝ) ^ bb k (n + 2)

theorem romTable_data (bb : ℕ → ℕ → ℝ) (n : ℕ) (w zeta : Option (ℕ → ℝ)) : RomData bb n w zeta (romTable n bb w zeta) := by
  unfold romTable
  constructor
  · intro k i hi
    cases w <;> cases zeta <;> simp [show i ≠ n + 2 by omega, show i ≠ n + 1 by omega, show i ≠ n by omega]
  · intro k
    cases w <;> cases zeta <;> simp [romFreq]
  · intro k
    cases w <;> cases zeta <;> simp [romFreq]
  · intro k
    cases w <;> cases zeta <;> simp

/-- What a successful call gives. -/
theorem constantDisplacement_ok {n : ℕ} {Flcos ctrl : ℕ → ℝ} {amp : ℝ} {w zeta : Option (ℕ → ℝ)} {f : ℝ → ℝ}
    {pt : ℕ → ℝ} (hr : constantDisplacement M Ndof n h bb Flcos ctrl amp w zeta = .ok (some (f, pt))) :
    ∃ p0 : ℕ → ℝ, 0 < M ∧
      (∀ k, k + 1 < M → romAmp Ndof n (zi h) ctrl (romTable n bb w zeta) k <
        romAmp Ndof n (zi h) ctrl (romTable n bb w zeta) (k + 1)) ∧
      LinearAt M (romAmp Ndof n (zi h) ctrl (romTable n bb w zeta)) (romTable n bb w zeta) amp (some p0) ∧
      (∀ i, pt i = if i = n + 2 then Real.logb 10 (p0 i) else p0 i) ∧
      ∀ Om, f Om = p0 (n + 2) * Real.sqrt (Om ^ 4 - 2 * Om ^ 2 * (p0 n ^ 2 - 2 * (p0 n * (p0 (n + 1) / (2 * p0 n))) ^ 2)
        + p0 n ^ 4) / Real.sqrt ((∑ d ∈ Finset.range Ndof, p0 (zi h * Ndof + d) * Flcos d) ^ 2 +
          (-∑ d ∈ Finset.range Ndof, p0 ((zi h + 1) * Ndof + d) * Flcos d) ^ 2) := by
  unfold constantDisplacement at hr
  split at hr
  · cases hr
  · simp only at hr
    by_cases hinc : ∀ k, k + 1 < M → romAmp Ndof n (zi h) ctrl (romTable n bb w zeta) k <
        romAmp Ndof n (zi h) ctrl (romTable n bb w zeta) (k + 1)
    · rcases Nat.eq_zero_or_pos M with rfl | hM
      · have : linearInterp 0 (n + 2) (romTable n bb w zeta) [amp]
            (some (0, romAmp Ndof n (zi h) ctrl (romTable n bb w zeta))) = .error .value := by
          unfold linearInterp
          have hd : diffPos 0 (romAmp Ndof n (zi h) ctrl (romTable n bb w zeta)) := fun k hk => by omega
          simp [hd]
        rw [this] at hr
        cases hr
      · obtain ⟨out, h1, h2⟩ := C60_linear (M := M) (N := n + 2) (X := romTable n bb w zeta) hinc hM le_rfl [amp]
        rw [h1] at hr
        cases h2 with
        | cons ha h2 =>
          cases h2
          rename_i r
          cases r with
          | none => cases hr
          | some p0 =>
            simp only [Except.ok.injEq, Option.some.injEq, Prod.mk.injEq] at hr
            exact ⟨p0, hM, hinc, ha, fun i => by rw [← hr.2], fun Om => by rw [← hr.1]⟩
    · push Not at hinc
      rw [C60_rejected hinc] at hr
      cases hr

/-- Interpolation of positive entries is positive. -/
theorem LinearAt.pos {n : ℕ} {ref : ℕ → ℝ} {X : ℕ → ℕ → ℝ} {v : ℝ} {row : ℕ → ℝ} (hn : 0 < n)
    (hinc : ∀ k, k + 1 < n → ref k < ref (k + 1)) (h : LinearAt n ref X v (some row)) {c : ℕ} (hX : ∀ k < n, 0 < X k c) :
    0 < row c := by
  have h0 : ref 0 ≤ v := by
    by_contra hlt
    have := h.left (not_le.1 hlt); cases this
  have h1 : v ≤ ref (n - 1) := by
    by_contra hlt
    have := h.right (not_le.1 hlt); cases this
  obtain ⟨j, hj, hj1, hj2⟩ := exists_bracket hn h0
  by_cases hl : j + 1 < n
  · obtain ⟨row', e, hrow⟩ := h.segment j hl hj1 (hj2 hl).le
    cases e
    have hd := hinc j hl
    have e := hrow c
    have a := mul_pos (sub_pos.2 (hj2 hl)) (hX j hj)
    have b := mul_nonneg (sub_nonneg.2 hj1) (hX (j + 1) hl).le
    by_contra hneg
    have := mul_nonpos_of_nonneg_of_nonpos (sub_pos.2 hd).le (not_lt.1 hneg)
    linarith
  · have : j = n - 1 := by omega
    subst this
    have := h.node (n - 1) hj (le_antisymm h1 hj1)
    cases this
    exact hX _ hj

/-- The force vector with cosine part `F` at harmonic 1. -/
def cosForce (h : List ℕ) (Ndof : ℕ) (F : ℕ → ℝ) : ℕ → ℝ := fun i =>
  if zi h * Ndof ≤ i ∧ i < (1 + zi h) * Ndof then F (i - zi h * Ndof) else 0

theorem modalForce_cos (H : FirstIsOne h) (phi F : ℕ → ℝ) (g : ℝ) :
    modalForce h Ndof phi (cosForce h Ndof fun d => g * F d) =
      ⟨g * ∑ d ∈ Finset.range Ndof, phi (zi h * Ndof + d) * F d,
        g * ∑ d ∈ Finset.range Ndof, phi ((zi h + 1) * Ndof + d) * F d⟩ := by
  have e1 : ∀ d ∈ Finset.range Ndof, cosForce h Ndof (fun d => g * F d) (zi h * Ndof + d) = g * F d := by
    intro d hd
    have hd := Finset.mem_range.1 hd
    unfold cosForce
    rw [if_pos ⟨by omega, by rw [add_mul]; omega⟩, Nat.add_sub_cancel_left]
  have e2 : ∀ d ∈ Finset.range Ndof, cosForce h Ndof (fun d => g * F d) ((1 + zi h) * Ndof + d) = 0 := by
    intro d hd
    unfold cosForce
    rw [if_neg (by omega)]
  rw [modalForce_eq H]
  unfold modalForceRe modalForceIm
  apply Complex.ext
  · simp only
    rw [Finset.sum_congr rfl fun d hd => by rw [e1 d hd], Finset.sum_congr (s₁ := Finset.range Ndof)
      (f := fun d => cosForce h Ndof (fun d => g * F d) ((1 + zi h) * Ndof + d) * phi ((1 + zi h) * Ndof + d)) rfl
      fun d hd => by rw [e2 d hd]]
    simp only [zero_mul, Finset.sum_const_zero, add_zero]
    rw [Finset.mul_sum]
    exact Finset.sum_congr rfl fun d _ => by ring
  · simp only
    rw [Finset.sum_congr rfl fun d hd => by rw [e1 d hd], Finset.sum_congr (s₁ := Finset.range Ndof)
      (f := fun d => cosForce h Ndof (fun d => g * F d) ((1 + zi h) * Ndof + d) * phi (zi h * Ndof + d)) rfl
      fun d hd => by rw [e2 d hd]]
    simp only [zero_mul, Finset.sum_const_zero, sub_zero]
    rw [Finset.mul_sum, add_comm 1 (zi h)]
    exact Finset.sum_congr rfl fun d _ => by ring

/-- C64: the returned force magnitude is the one for which the returned point satisfies the modal equation at that
frequency: amplitude times the magnitude of the modal stiffness is the magnitude of the modal force. -/
theorem C64_force (H : FirstIsOne h) {Flcos ctrl : ℕ → ℝ} {amp : ℝ} {w zeta : Option (ℕ → ℝ)}
    {f : ℝ → ℝ} {pt : ℕ → ℝ}
    (hr : constantDisplacement M Ndof (numCoeff h * Ndof) h bb Flcos ctrl amp w zeta = .ok (some (f, pt)))
    (hP : modalForce h Ndof pt (cosForce h Ndof Flcos) ≠ 0) (hw : pt (numCoeff h * Ndof) ≠ 0) (Om : ℝ) :
    0 ≤ f Om ∧ ((10 : ℝ) ^ pt (numCoeff h * Ndof + 2)) ^ 2 * ((pt (numCoeff h * Ndof) ^ 2 - Om ^ 2) ^ 2 +
      (2 * (pt (numCoeff h * Ndof + 1) / (2 * pt (numCoeff h * Ndof))) * pt (numCoeff h * Ndof) * Om) ^ 2) =
      Complex.normSq (modalForce h Ndof pt (cosForce h Ndof fun d => f Om * Flcos d)) := by
  set n := numCoeff h * Ndof with hn
  obtain ⟨p0, hM, hinc, hl, hpt, hf⟩ := constantDisplacement_ok hr
  have hq : 0 < p0 (n + 2) := hl.pos hM hinc fun k _ => by
    rw [(romTable_data bb n w zeta).amp]; exact Real.rpow_pos_of_pos (by norm_num) _
  have e2 : (10 : ℝ) ^ pt (n + 2) = p0 (n + 2) := by
    rw [hpt, if_pos rfl, Real.rpow_logb (by norm_num) (by norm_num) hq]
  have e0 : pt n = p0 n := by rw [hpt, if_neg (by omega)]
  have e1 : pt (n + 1) = p0 (n + 1) := by rw [hpt, if_neg (by omega)]
  have hlow : ∀ i < n, pt i = p0 i := fun i hi => by rw [hpt, if_neg (by omega)]
  have hnum : zi h + 2 ≤ numCoeff h := by
    obtain ⟨t, rfl | rfl⟩ := H
    · simp [zi, numCoeff]
    · simp [zi, numCoeff]; omega
  have hc : ∀ r, r < numCoeff h → ∀ d ∈ Finset.range Ndof, pt (r * Ndof + d) = p0 (r * Ndof + d) := by
    intro r hr d hd
    have hd := Finset.mem_range.1 hd
    apply hlow
    have : (r + 1) * Ndof ≤ numCoeff h * Ndof := Nat.mul_le_mul_right _ hr
    rw [hn]; linarith
  set a := ∑ d ∈ Finset.range Ndof, p0 (zi h * Ndof + d) * Flcos d with ha
  set b := ∑ d ∈ Finset.range Ndof, p0 ((zi h + 1) * Ndof + d) * Flcos d with hb
  have ea : ∑ d ∈ Finset.range Ndof, pt (zi h * Ndof + d) * Flcos d = a :=
    Finset.sum_congr rfl fun d hd => by rw [hc _ (by omega) d hd]
  have eb : ∑ d ∈ Finset.range Ndof, pt ((zi h + 1) * Ndof + d) * Flcos d = b :=
    Finset.sum_congr rfl fun d hd => by rw [hc _ (by omega) d hd]
  have hab : 0 < a ^ 2 + b ^ 2 := by
    have h1 := modalForce_cos (Ndof := Ndof) H pt Flcos 1
    simp only [one_mul] at h1
    rw [ea, eb] at h1
    rcases (add_nonneg (sq_nonneg a) (sq_nonneg b)).lt_or_eq with h2 | h2
    · exact h2
    · exfalso
      have ha0 : a = 0 := by nlinarith [sq_nonneg a, sq_nonneg b]
      have hb0 : b = 0 := by nlinarith [sq_nonneg a, sq_nonneg b]
      apply hP
      rw [h1, ha0, hb0]; rfl
  set W := p0 n with hW
  rw [e0] at hw
  set X := p0 (n + 1) with hX
  have harg : Om ^ 4 - 2 * Om ^ 2 * (W ^ 2 - 2 * (W * (X / (2 * W))) ^ 2) + W ^ 4 =
      (W ^ 2 - Om ^ 2) ^ 2 + (2 * (X / (2 * W)) * W * Om) ^ 2 := by ring
  have hnn : 0 ≤ (W ^ 2 - Om ^ 2) ^ 2 + (2 * (X / (2 * W)) * W * Om) ^ 2 := by positivity
  have hfO := hf Om
  rw [harg, neg_sq] at hfO
  constructor
  · rw [hfO]; positivity
  · rw [e2, e0, e1, modalForce_cos H, ea, eb, Complex.normSq_mk]
    have : f Om * a * (f Om * a) + f Om * b * (f Om * b) = f Om ^ 2 * (a ^ 2 + b ^ 2) := by ring
    rw [this, hfO, div_pow, mul_pow (p0 (n + 2)) (Real.sqrt _) 2, Real.sq_sqrt hnn, Real.sq_sqrt hab.le,
      div_mul_cancel₀ _ hab.ne']

/-- C64: it is the inverse of the constant force model: with this force the constant force model of the returned
point contains the frequency `Om`. -/
theorem C64_inverse (hA : Admissible h) (H : FirstIsOne h) {Flcos ctrl : ℕ → ℝ} {amp : ℝ} {w zeta : Option (ℕ → ℝ)}
    {f : ℝ → ℝ} {pt : ℕ → ℝ}
    (hr : constantDisplacement M Ndof (numCoeff h * Ndof) h bb Flcos ctrl amp w zeta = .ok (some (f, pt)))
    (hP : modalForce h Ndof pt (cosForce h Ndof Flcos) ≠ 0) (hw : pt (numCoeff h * Ndof) ≠ 0) {Om : ℝ} (hO : 0 < Om) :
    ∃ out, constantForce 1 Ndof h (fun _ => pt) (some (cosForce h Ndof fun d => f Om * Flcos d)) none none none none =
        .ok out ∧
      ∃ x ∈ out, x.1 (numCoeff h * Ndof) = Om ∧ x.2.1 = (10 : ℝ) ^ pt (numCoeff h * Ndof + 2) := by
  rw [C63_projection hA H]
  refine C63_complete (bb := fun _ => pt) hA none none _ _ (k := 0) one_pos hO ?_
  have := (C64_force H hr hP hw Om).2
  rw [Complex.normSq_apply] at this
  simp only [romFreq, romDamp]
  rw [this]; ring

/-- C64: a control amplitude out of the range of the backbone gives NaN; a backbone whose control amplitude does not
increase is rejected. -/
theorem C64_domain {n : ℕ} {Flcos ctrl : ℕ → ℝ} {amp : ℝ} {w zeta : Option (ℕ → ℝ)} (hne : h ≠ []) (hM : 0 < M) :
    ((∃ k, k + 1 < M ∧ romAmp Ndof n (zi h) ctrl (romTable n bb w zeta) (k + 1) ≤
        romAmp Ndof n (zi h) ctrl (romTable n bb w zeta) k) →
      constantDisplacement M Ndof n h bb Flcos ctrl amp w zeta = .error .assertion) ∧
    ((∀ k, k + 1 < M → romAmp Ndof n (zi h) ctrl (romTable n bb w zeta) k <
        romAmp Ndof n (zi h) ctrl (romTable n bb w zeta) (k + 1)) →
      (amp < romAmp Ndof n (zi h) ctrl (romTable n bb w zeta) 0 ∨
        romAmp Ndof n (zi h) ctrl (romTable n bb w zeta) (M - 1) < amp) →
      constantDisplacement M Ndof n h bb Flcos ctrl amp w zeta = .ok none) := by
  constructor
  · intro hbad
    unfold constantDisplacement
    rw [if_neg hne]
    simp only
    rw [C60_rejected hbad]
  · intro hinc hout
    unfold constantDisplacement
    rw [if_neg hne]
    simp only
    obtain ⟨out, h1, h2⟩ := C60_linear (M := M) (N := n + 2) (X := romTable n bb w zeta) hinc hM le_rfl [amp]
    rw [h1]
    cases h2 with
    | cons ha h2 =>
      cases h2
      rename_i r
      have : r = none := by rcases hout with q | q; exacts [ha.left q, ha.right q]
      subst this
      rfl

/-- C64: otherwise it returns a point of the interpolated backbone. -/
theorem C64_returns {n : ℕ} {Flcos ctrl : ℕ → ℝ} {amp : ℝ} {w zeta : Option (ℕ → ℝ)} (hne : h ≠ []) (hM : 0 < M)
    (hinc : ∀ k, k + 1 < M → romAmp Ndof n (zi h) ctrl (romTable n bb w zeta) k <
        romAmp Ndof n (zi h) ctrl (romTable n bb w zeta) (k + 1))
    (h0 : romAmp Ndof n (zi h) ctrl (romTable n bb w zeta) 0 ≤ amp)
    (h1 : amp ≤ romAmp Ndof n (zi h) ctrl (romTable n bb w zeta) (M - 1)) :
    ∃ f pt, constantDisplacement M Ndof n h bb Flcos ctrl amp w zeta = .ok (some (f, pt)) := by
  unfold constantDisplacement
  rw [if_neg hne]
  simp only
  obtain ⟨out, e1, h2⟩ := C60_linear (M := M) (N := n + 2) (X := romTable n bb w zeta) hinc hM le_rfl [amp]
  rw [e1]
  cases h2 with
  | cons ha h2 =>
    cases h2
    obtain ⟨j, hj, hj1, hj2⟩ := exists_bracket hM h0
    rename_i r
    have : ∃ p0, r = some p0 := by
      by_cases hl : j + 1 < M
      · obtain ⟨row, e, -⟩ := ha.segment j hl hj1 (hj2 hl).le
        exact ⟨row, e⟩
      · have hj' : j = M - 1 := by omega
        exact ⟨_, ha.node j hj (le_antisymm (hj' ▸ h1) hj1)⟩
    obtain ⟨p0, rfl⟩ := this
    exact ⟨_, _, rfl⟩

/-- C79: when neighbouring rows have the same first harmonic mode shape, the returned point has the requested
control amplitude. Missing: rows with different mode shapes, see `C79_violated`. -/
theorem C79_control_amplitude_partial (H : FirstIsOne h) {Flcos ctrl : ℕ → ℝ} {amp : ℝ} {w zeta : Option (ℕ → ℝ)}
    {f : ℝ → ℝ} {pt : ℕ → ℝ}
    (hr : constantDisplacement M Ndof (numCoeff h * Ndof) h bb Flcos ctrl amp w zeta = .ok (some (f, pt)))
    (hshape : ∀ k, k + 1 < M → ∀ d < Ndof, firstHarmonic h Ndof (bb k) d = firstHarmonic h Ndof (bb (k + 1)) d) :
    controlAmp h Ndof ctrl pt ((10 : ℝ) ^ pt (numCoeff h * Ndof + 2)) = amp := by
  set n := numCoeff h * Ndof with hn
  obtain ⟨p0, hM, hinc, hl, hpt, -⟩ := constantDisplacement_ok hr
  have hB := romTable_data bb n w zeta
  set B := romTable n bb w zeta with hBd
  have hq : 0 < p0 (n + 2) := hl.pos hM hinc fun k _ => by
    rw [hB.amp]; exact Real.rpow_pos_of_pos (by norm_num) _
  have e2 : (10 : ℝ) ^ pt (n + 2) = p0 (n + 2) := by
    rw [hpt, if_pos rfl, Real.rpow_logb (by norm_num) (by norm_num) hq]
  have hnum : zi h + 2 ≤ numCoeff h := by
    obtain ⟨t, rfl | rfl⟩ := H
    · simp [zi, numCoeff]
    · simp [zi, numCoeff]; omega
  have hidx : ∀ r, r < numCoeff h → ∀ d ∈ Finset.range Ndof, r * Ndof + d < n := by
    intro r hr d hd
    have hd := Finset.mem_range.1 hd
    have : (r + 1) * Ndof ≤ numCoeff h * Ndof := Nat.mul_le_mul_right _ hr
    rw [hn]; linarith
  have hc : ∀ r, r < numCoeff h → ∀ d ∈ Finset.range Ndof, pt (r * Ndof + d) = p0 (r * Ndof + d) := by
    intro r hr d hd
    have := hidx r hr d hd
    rw [hpt, if_neg (by omega)]
  rw [e2, controlAmp_eq H ctrl pt hq.le, Finset.sum_congr rfl fun d hd => by rw [hc _ (by omega) d hd],
    Finset.sum_congr (s₁ := Finset.range Ndof) (f := fun d => pt ((zi h + 1) * Ndof + d) * ctrl d) rfl
      fun d hd => by rw [hc _ (by omega) d hd]]
  have h0 : romAmp Ndof n (zi h) ctrl B 0 ≤ amp := by
    by_contra hlt
    have := hl.left (not_le.1 hlt); cases this
  have h1 : amp ≤ romAmp Ndof n (zi h) ctrl B (M - 1) := by
    by_contra hlt
    have := hl.right (not_le.1 hlt); cases this
  obtain ⟨j, hj, hj1, hj2⟩ := exists_bracket hM h0
  by_cases hl2 : j + 1 < M
  · obtain ⟨row, e, hrow⟩ := hl.segment j hl2 hj1 (hj2 hl2).le
    cases e
    have hd := sub_pos.2 (hinc j hl2)
    have hs : ∀ d ∈ Finset.range Ndof, B j (zi h * Ndof + d) = B (j + 1) (zi h * Ndof + d) ∧
        B j ((zi h + 1) * Ndof + d) = B (j + 1) ((zi h + 1) * Ndof + d) := by
      intro d hd
      have e := hshape j hl2 d (Finset.mem_range.1 hd)
      rw [firstHarmonic_eq H, firstHarmonic_eq H, Complex.mk.injEq, neg_inj, add_comm 1 (zi h)] at e
      rw [hB.shape _ _ (hidx _ (by omega) d hd), hB.shape _ _ (hidx _ (by omega) d hd),
        hB.shape _ _ (hidx _ (by omega) d hd), hB.shape _ _ (hidx _ (by omega) d hd)]
      exact e
    have hp : ∀ c, B j c = B (j + 1) c → p0 c = B j c := by
      intro c hc
      have := hrow c
      rw [← hc] at this
      exact mul_left_cancel₀ hd.ne' (by linear_combination this)
    rw [Finset.sum_congr rfl fun d hd => by rw [hp _ (hs d hd).1],
      Finset.sum_congr (s₁ := Finset.range Ndof) (f := fun d => p0 ((zi h + 1) * Ndof + d) * ctrl d) rfl
        fun d hd => by rw [hp _ (hs d hd).2]]
    have ej : romAmp Ndof n (zi h) ctrl B (j + 1) = Real.sqrt ((∑ d ∈ Finset.range Ndof, B j (zi h * Ndof + d) * ctrl d) ^ 2 +
        (∑ d ∈ Finset.range Ndof, B j ((zi h + 1) * Ndof + d) * ctrl d) ^ 2) * B (j + 1) (n + 2) := by
      unfold romAmp
      rw [Finset.sum_congr rfl fun d hd => by rw [← (hs d hd).1],
        Finset.sum_congr (s₁ := Finset.range Ndof) (f := fun d => B (j + 1) ((zi h + 1) * Ndof + d) * ctrl d) rfl
          fun d hd => by rw [← (hs d hd).2]]
    have ej0 : romAmp Ndof n (zi h) ctrl B j = Real.sqrt ((∑ d ∈ Finset.range Ndof, B j (zi h * Ndof + d) * ctrl d) ^ 2 +
        (∑ d ∈ Finset.range Ndof, B j ((zi h + 1) * Ndof + d) * ctrl d) ^ 2) * B j (n + 2) := rfl
    set s := Real.sqrt ((∑ d ∈ Finset.range Ndof, B j (zi h * Ndof + d) * ctrl d) ^ 2 +
        (∑ d ∈ Finset.range Ndof, B j ((zi h + 1) * Ndof + d) * ctrl d) ^ 2)
    have e3 := hrow (n + 2)
    set r0 := romAmp Ndof n (zi h) ctrl B j
    set r1 := romAmp Ndof n (zi h) ctrl B (j + 1)
    refine mul_left_cancel₀ hd.ne' ?_
    linear_combination s * e3 - (r1 - amp) * ej0 - (amp - r0) * ej
  · have hj' : j = M - 1 := by omega
    have e := hl.node j hj (le_antisymm (hj' ▸ h1) hj1)
    cases e
    exact le_antisymm hj1 (hj' ▸ h1)

/-- Two rows with mode shapes 1 and 2 and amplitudes 1 and 3. -/
noncomputable def romBB : ℕ → ℕ → ℝ := fun k i =>
  if i = 0 then (if k = 0 then 1 else 2) else if i = 2 then 1 else if i = 4 then (if k = 0 then 0 else Real.logb 10 3) else 0

theorem romBB_amp (k : ℕ) : romAmp 1 2 (zi [1]) (fun _ => 1) (romTable 2 romBB none none) k = if k = 0 then 1 else 6 := by
  have e3 : (10 : ℝ) ^ Real.logb 10 3 = 3 := Real.rpow_logb (by norm_num) (by norm_num) (by norm_num)
  unfold romAmp romTable romBB
  split <;> simp_all [zi] <;> norm_num

/-- C79 does not hold in general: between two rows the mode shape and the amplitude are interpolated one by one, and
the returned point has another amplitude at the control point than the requested one. -/
theorem C79_violated : ∃ f pt, constantDisplacement 2 1 (numCoeff [1] * 1) [1] romBB (fun _ => 1) (fun _ => 1) (7/2)
      none none = .ok (some (f, pt)) ∧
    controlAmp [1] 1 (fun _ => 1) pt ((10 : ℝ) ^ pt (numCoeff [1] * 1 + 2)) = 3 := by
  have hn : numCoeff [1] * 1 = 2 := by simp [numCoeff]
  rw [hn]
  have hinc : ∀ k, k + 1 < 2 → romAmp 1 2 (zi [1]) (fun _ => 1) (romTable 2 romBB none none) k <
        romAmp 1 2 (zi [1]) (fun _ => 1) (romTable 2 romBB none none) (k + 1) := by
    intro k hk
    have : k = 0 := by omega
    subst this
    rw [romBB_amp, romBB_amp]; norm_num
  obtain ⟨f, pt, hr⟩ := C64_returns (M := 2) (Ndof := 1) (n := 2) (h := [1]) (bb := romBB) (Flcos := fun _ => 1)
    (ctrl := fun _ => 1) (amp := 7/2) (w := none) (zeta := none) (by simp) (by norm_num) hinc
    (by rw [romBB_amp]; norm_num) (by rw [romBB_amp]; norm_num)
  refine ⟨f, pt, hr, ?_⟩
  obtain ⟨p0, -, -, hl, hpt, -⟩ := constantDisplacement_ok hr
  obtain ⟨row, e, hrow⟩ := hl.segment 0 (by norm_num) (by rw [romBB_amp]; norm_num) (by rw [romBB_amp]; norm_num)
  cases e
  have e3 : (10 : ℝ) ^ Real.logb 10 3 = 3 := Real.rpow_logb (by norm_num) (by norm_num) (by norm_num)
  have a0 := hrow 0
  have a1 := hrow 1
  have a4 := hrow 4
  rw [romBB_amp, romBB_amp] at a0 a1 a4
  simp [romTable, romBB, e3] at a0 a1 a4
  have b0 : p0 0 = 3/2 := by linarith
  have b1 : p0 1 = 0 := by rcases a1 with a1 | a1; exacts [absurd a1 (by norm_num), a1]
  have b4 : p0 4 = 2 := by linarith
  have hq : (10 : ℝ) ^ pt (2 + 2) = 2 := by
    rw [hpt, if_pos rfl, b4, Real.rpow_logb (by norm_num) (by norm_num) (by norm_num)]
  rw [hq, controlAmp_eq ⟨[], .inl rfl⟩ _ _ (by norm_num)]
  have c0 : pt 0 = 3/2 := by rw [hpt, if_neg (by norm_num), b0]
  have c1 : pt 1 = 0 := by rw [hpt, if_neg (by norm_num), b1]
  simp [zi, c0, c1]
  rw [Real.sqrt_sq (by norm_num)]
  norm_num

/-- The force for a single row: mode shape 1, frequency 1, no damping, amplitude 2 needs force `6` at frequency 2. -/
example : ∃ f pt, constantDisplacement 1 1 2 [1]
      (fun _ i => if i = 0 ∨ i = 2 then 1 else if i = 4 then Real.logb 10 2 else 0) (fun _ => 1) (fun _ => 1) 2 none none =
      .ok (some (f, pt)) ∧ f 2 = 6 := by
  have e2 : (10 : ℝ) ^ Real.logb 10 2 = 2 := Real.rpow_logb (by norm_num) (by norm_num) (by norm_num)
  have hr0 : romAmp 1 2 (zi [1]) (fun _ => 1) (romTable 2
      (fun _ i => if i = 0 ∨ i = 2 then 1 else if i = 4 then Real.logb 10 2 else 0) none none) 0 = 2 := by
    unfold romAmp romTable
    simp [zi, e2]
  obtain ⟨f, pt, hr⟩ := C64_returns (M := 1) (Ndof := 1) (n := 2) (h := [1])
    (bb := fun _ i => if i = 0 ∨ i = 2 then 1 else if i = 4 then Real.logb 10 2 else 0) (Flcos := fun _ => 1)
    (ctrl := fun _ => 1) (amp := 2) (w := none) (zeta := none) (by simp) (by norm_num) (by omega) hr0.le hr0.ge
  refine ⟨f, pt, hr, ?_⟩
  obtain ⟨p0, -, -, hl, -, hf⟩ := constantDisplacement_ok hr
  have := hl.node 0 (by norm_num) hr0.symm
  cases this
  rw [hf]
  simp [romTable, e2, zi]
  rw [show (2 : ℝ) ^ 4 - 2 * 2 ^ 2 + 1 = 3 ^ 2 by norm_num, Real.sqrt_sq (by norm_num)]
  norm_num

end TMD
