import Verif.Lemmas.VprnmRomOk

/-! # Properties of the VPRNM reduced order model -/

namespace TMD

open Spec Finset

noncomputable section

/-- Assumptions on the input: increasing lists of harmonics that start with harmonic 1 (after the mean), the superharmonic
is part of the VPRNM solution, and the frequencies are positive. -/
structure H1Input (N : ℕ) (hF hR hV : List ℕ) (rhi Mr : ℕ) (bbR : ℕ → ℕ → ℝ) (Mv ncol : ℕ) (bbV : ℕ → ℕ → ℝ) : Prop where
  fs : hF.Pairwise (· < ·)
  rs : hR.Pairwise (· < ·)
  vs : hV.Pairwise (· < ·)
  f1 : FirstIsOne hF
  r1 : FirstIsOne hR
  v1 : FirstIsOne hV
  one_le : 1 ≤ rhi
  mem : rhi ∈ hV
  rpos : ∀ k < Mr, 0 < bbR k (numCoeff hR * N)
  vpos : ∀ k < Mv, 0 < bbV k (ncol - 2)

/-- The three points behind a reconstruction: VPRNM at first harmonic amplitude `amp`, fundamental at the same amplitude,
superharmonic mode at the amplitude of harmonic `rhi` of the VPRNM point. -/
structure H1Points (N Mf : ℕ) (bbF : ℕ → ℕ → ℝ) (hF : List ℕ) (Mr : ℕ) (bbR : ℕ → ℕ → ℝ) (hR : List ℕ) (Mv : ℕ)
    (bbV : ℕ → ℕ → ℝ) (hV : List ℕ) (rhi : ℕ) (c1 : ℕ → ℝ) (amp : ℝ) (cr : ℕ → ℝ) (pV pF pR : ℕ → ℝ) : Prop where
  vprnm : LinearAt Mv (fun k => ‖pointHarmonic hV N c1 (bbV k) 1‖) bbV amp (some pV)
  fund : LinearAt Mf (rowAmp hF N c1 bbF) (ampTable (numCoeff hF * N) bbF) amp (some pF)
  super : LinearAt Mr (rowAmp hR N cr bbR) (ampTable (numCoeff hR * N) bbR) ‖pointHarmonic hV N cr pV rhi‖ (some pR)

variable {N Mf : ℕ} {bbF : ℕ → ℕ → ℝ} {hF : List ℕ} {Mr : ℕ} {bbR : ℕ → ℕ → ℝ} {hR : List ℕ} {ncol Mv : ℕ}
  {bbV : ℕ → ℕ → ℝ} {hV : List ℕ} {rhi : ℕ} {c1 : ℕ → ℝ} {amp : ℝ} {cr Fl : ℕ → ℝ} {correct : Bool}

theorem sorted_admissible {h : List ℕ} (hs : h.Pairwise (· < ·)) (H : FirstIsOne h) : Admissible h :=
  ⟨H.ne, hs.imp fun h => Nat.ne_of_lt h, sorted_tail hs⟩

theorem rsp_last {h : List ℕ} (hA : Admissible h) (U : ℕ → ℝ) (φ : ℝ) {i : ℕ} (hi : numCoeff h * N ≤ i) :
    rsp U N h φ 1 i = U i := by
  obtain ⟨V, v1, -, v3⟩ := C11_rotation_is_time_shift h hA N U φ 1
  rw [rsp_ok _ _ hA.ne] at v1
  cases v1
  exact v3 i hi

theorem romAmp_rowAmp (H : FirstIsOne hF) (k : ℕ) :
    romAmp N (numCoeff hF * N) (zi hF) c1 (romTable (numCoeff hF * N) bbF none none) k = rowAmp hF N c1 bbF k := by
  have hB := romTable_data bbF (numCoeff hF * N) none none
  have h1 := controlAmp_eq (Ndof := N) H c1 (bbF k) (q := (10 : ℝ) ^ bbF k (numCoeff hF * N + 2))
    (Real.rpow_pos_of_pos (by norm_num) _).le
  unfold rowAmp
  rw [pointHarmonic_first]
  unfold controlAmp at h1
  rw [norm_mul, Complex.norm_real, Real.norm_of_nonneg (Real.rpow_pos_of_pos (by norm_num) _).le, mul_comm] at h1
  rw [h1]
  have hnum : zi hF + 2 ≤ numCoeff hF := by
    obtain ⟨t, rfl | rfl⟩ := H
    · simp [zi, numCoeff]
    · simp [zi, numCoeff]; omega
  have hle : ∀ r, r < numCoeff hF → ∀ d < N, r * N + d < numCoeff hF * N := by
    intro r hr d hd
    have : (r + 1) * N ≤ numCoeff hF * N := Nat.mul_le_mul_right _ hr
    rw [Nat.succ_mul] at this
    omega
  unfold romAmp
  rw [hB.amp]
  congr 3
  · congr 1
    exact Finset.sum_congr rfl fun d hd => by rw [hB.shape k _ (hle _ (by omega) d (Finset.mem_range.1 hd))]
  · congr 1
    exact Finset.sum_congr rfl fun d hd => by rw [hB.shape k _ (hle _ (by omega) d (Finset.mem_range.1 hd))]

theorem harmAmp_rowAmp (hs : hR.Pairwise (· < ·)) (H : FirstIsOne hR) (k : ℕ) :
    harmAmp N (numCoeff (hR.filter fun j => j < 1)) cr ((10 : ℝ) ^ bbR k (numCoeff hR * N + 2)) (bbR k)
      = rowAmp hR N cr bbR k :=
  harmAmp_point hs H.mem le_rfl _ _ _ _

/-- `constant_displacement` returns only for increasing amplitudes. -/
theorem displacement_increasing (H : FirstIsOne hF) {r : Option ((ℝ → ℝ) × (ℕ → ℝ))}
    (h : constantDisplacement Mf N (numCoeff hF * N) hF bbF Fl c1 amp none none = .ok r) :
    0 < Mf ∧ ∀ k, k + 1 < Mf → rowAmp hF N c1 bbF k < rowAmp hF N c1 bbF (k + 1) := by
  set ref := romAmp N (numCoeff hF * N) (zi hF) c1 (romTable (numCoeff hF * N) bbF none none) with href
  unfold constantDisplacement at h
  rw [if_neg H.ne] at h
  simp only [← href] at h
  by_cases hinc : ∀ k, k + 1 < Mf → ref k < ref (k + 1)
  · refine ⟨Nat.pos_of_ne_zero ?_, fun k hk => ?_⟩
    · rintro rfl
      have : linearInterp 0 (numCoeff hF * N + 2) (romTable (numCoeff hF * N) bbF none none) [amp] (some (0, ref))
          = .error .value := by
        unfold linearInterp
        have hd : diffPos 0 ref := fun k hk => by omega
        simp [hd]
      rw [this] at h
      cases h
    · rw [← romAmp_rowAmp H, ← romAmp_rowAmp H]
      exact hinc k hk
  · push Not at hinc
    rw [C60_rejected hinc] at h
    cases h

/-- The parts of a result without extra frequencies. -/
theorem h1_parts (hI : H1Input N hF hR hV rhi Mr bbR Mv ncol bbV) {out : VprnmRom}
    (hr0 : rowAmp hF N c1 bbF 0 ≤ amp) (hr1 : amp ≤ rowAmp hF N c1 bbF (Mf - 1))
    (ho : constantH1 N Mf bbF hF Mr bbR hR ncol Mv bbV hV rhi c1 amp cr Fl none correct = .ok out) :
    ∃ pV pF pR f frc i p1 φF φS, H1Points N Mf bbF hF Mr bbR hR Mv bbV hV rhi c1 amp cr pV pF pR ∧
      0 < pV (ncol - 2) ∧ 0 < pR (numCoeff hR * N) ∧ 0 < pR (numCoeff hR * N + 2) ∧ 0 < pF (numCoeff hF * N + 2) ∧
      (∀ r < numCoeff hF, ∀ d < N, p1 (r * N + d) = if r < zi hF then pF (r * N + d)
        else pF (numCoeff hF * N + 2) * pF (r * N + d)) ∧
      φF = harmPhase N (numCoeff (hV.filter fun k => k < 1)) c1 pV - harmPhase N (zi hF) c1 p1 ∧
      φS = harmPhase N (numCoeff (hV.filter fun k => k < rhi)) cr pV - harmPhase N (zi hR) cr
        (frc.getD i (fun _ => 0, 0, 0)).1 ∧
      superFrc N (numCoeff hR * N) Mr bbR hR pR (rhi * pV (ncol - 2)) = .ok frc ∧
      npArgmin (frc.map fun x => |x.1 (numCoeff hR * N) - rhi * pV (ncol - 2)|) = some i ∧
      |(frc.getD i (fun _ => 0, 0, 0)).2.1 - pR (numCoeff hR * N + 2)| ≤ 1 / 10 ^ 12 ∧
      (∃ pt, constantDisplacement Mf N (numCoeff hF * N) hF bbF Fl c1 amp none none = .ok (some (f, pt))) ∧
      out = ⟨frc.map fun x => assembleRow N hV hF hR (outHarmonics hV hF hR rhi) rhi pV (some (rsp p1 N hF φF 1))
          (some (rsp x.1 N hR φS 1)),
        frc.map fun x => x.1 (numCoeff hR * N) / (rhi : ℝ),
        forceOut correct (vprnmForce ncol (numCoeff hV * N) pV) (some f)
          (frc.map fun x => x.1 (numCoeff hR * N) / (rhi : ℝ)) (frc.map fun x => x.2.1) i,
        outHarmonics hV hF hR rhi⟩ := by
  have hFA := sorted_admissible hI.fs hI.f1
  have hRA := sorted_admissible hI.rs hI.r1
  have hVA := sorted_admissible hI.vs hI.v1
  obtain ⟨pV, s, fund, -, e1, e2, rfl⟩ := constantH1_ok hVA.nodup hFA.nodup ho
  obtain ⟨pR, frc, i, ⟨v1, v2, v3⟩, ⟨s1, s2, s3⟩, e3, e4, e5, e6⟩ := vprnmSuper_ok hRA hVA.nodup e1
  have es : s = ⟨frc.map fun x => x.1 (numCoeff hR * N), frc.map fun x => some (rsp x.1 N hR
      (harmPhase N (numCoeff (hV.filter fun k => k < rhi)) cr pV - harmPhase N (zi hR) cr
        (frc.getD i (fun _ => 0, 0, 0)).1) 1), frc.map fun x => x.2.1, i⟩ := by
    unfold superExtra at e6
    simp only [Except.ok.injEq] at e6
    rw [← e6]
    simp only [List.map_map]
    congr 1
    exact List.map_congr_left fun x _ => rsp_last hRA _ _ le_rfl
  subst es
  have hpos : 0 < pV (ncol - 2) := v3.pos v1 v2 hI.vpos
  have hRn : 0 < pR (numCoeff hR * N) := s3.pos s1 s2 fun k hk => by
    unfold linQ; rw [if_neg (by omega)]; exact hI.rpos k hk
  have hRq : 0 < pR (numCoeff hR * N + 2) := s3.pos s1 s2 fun k hk => by
    unfold linQ; rw [if_pos rfl]; exact Real.rpow_pos_of_pos (by norm_num) _
  rcases fundPart_ok hFA.ne e2 with ⟨-, hnone⟩ | ⟨f, pt, hcd, rfl⟩
  · exfalso
    have hok := displacement_increasing hI.f1 hnone
    obtain ⟨f, pt, hcd⟩ := C64_returns (M := Mf) (Ndof := N) (n := numCoeff hF * N) (h := hF) (bb := bbF) (Flcos := Fl)
      (ctrl := c1) (amp := amp) (w := none) (zeta := none) hFA.ne hok.1
      (fun k hk => by rw [romAmp_rowAmp hI.f1, romAmp_rowAmp hI.f1]; exact hok.2 k hk)
      (by rw [romAmp_rowAmp hI.f1]; exact hr0) (by rw [romAmp_rowAmp hI.f1]; exact hr1)
    rw [hcd] at hnone
    cases hnone
  obtain ⟨p0, m1, m2, m3, m4, -⟩ := constantDisplacement_ok hcd
  have hq : 0 < p0 (numCoeff hF * N + 2) := m3.pos m1 m2 fun k _ => by
    rw [(romTable_data bbF _ none none).amp]; exact Real.rpow_pos_of_pos (by norm_num) _
  refine ⟨pV, p0, pR, f, frc, i,
    fun i => if zi hF * N ≤ i ∧ i < numCoeff hF * N then pt i * (10 : ℝ) ^ pt (numCoeff hF * N + 2) else pt i, _, _, ⟨v3.congr v1 fun k _ => ?_, ?_, ?_⟩, hpos, hRn, hRq, hq, ?_, rfl, rfl, e3, e4, e5,
    ⟨pt, hcd⟩, ?_⟩
  · rw [harmAmp_point hI.vs hI.v1.mem le_rfl, mul_one]
  · exact m3.congr m1 fun k _ => romAmp_rowAmp hI.f1 k
  · rw [harmAmp_point hI.vs hI.mem hI.one_le, mul_one] at s3
    exact s3.congr s1 fun k _ => harmAmp_rowAmp hI.rs hI.r1 k
  · intro r hr d hd
    have h1 : r * N + d < numCoeff hF * N := by
      have : (r + 1) * N ≤ numCoeff hF * N := Nat.mul_le_mul_right _ hr
      rw [Nat.succ_mul] at this
      omega
    have e : (10 : ℝ) ^ pt (numCoeff hF * N + 2) = p0 (numCoeff hF * N + 2) := by
      rw [m4, if_pos rfl, rpow_logb_ten hq]
    have e' : pt (r * N + d) = p0 (r * N + d) := by rw [m4, if_neg (by omega)]
    beta_reduce
    by_cases hz : r < zi hF
    · have : (r + 1) * N ≤ zi hF * N := Nat.mul_le_mul_right _ hz
      rw [Nat.succ_mul] at this
      rw [if_neg (by omega), if_pos hz, e']
    · have : zi hF * N ≤ r * N := Nat.mul_le_mul_right _ (by omega)
      rw [if_pos (by omega), if_neg hz, e, e', mul_comm]
  · rw [numCoeff_below_one hI.vs hI.v1]
    simp only [List.map_map, Option.map_some]
    rfl

theorem h1_fund_increasing (hI : H1Input N hF hR hV rhi Mr bbR Mv ncol bbV) {out : VprnmRom}
    (hr0 : rowAmp hF N c1 bbF 0 ≤ amp) (hr1 : amp ≤ rowAmp hF N c1 bbF (Mf - 1))
    (ho : constantH1 N Mf bbF hF Mr bbR hR ncol Mv bbV hV rhi c1 amp cr Fl none correct = .ok out) :
    0 < Mf ∧ ∀ k, k + 1 < Mf → rowAmp hF N c1 bbF k < rowAmp hF N c1 bbF (k + 1) := by
  obtain ⟨_, _, _, _, _, _, _, _, _, _, _, _, _, _, _, _, _, _, _, _, ⟨pt, h⟩, _⟩ := h1_parts hI hr0 hr1 ho
  exact displacement_increasing hI.f1 h

/-- Oscillation of the fundamental. -/
theorem fund_oscillation (hFA : Admissible hF) {p1 pF : ℕ → ℝ} {q : ℝ}
    (hp : ∀ r < numCoeff hF, ∀ d < N, p1 (r * N + d) = if r < zi hF then pF (r * N + d) else q * pF (r * N + d))
    {d : ℕ} (hd : d < N) (φ τ : ℝ) :
    oscillation hF (fun r => rsp p1 N hF φ 1 (r * N + d)) τ = q * oscillation hF (fun r => pF (r * N + d)) (τ - φ) := by
  rw [oscillation_rsp hFA hd]
  refine oscillation_scaled hFA.zero_first q _ _ (fun r h1 h2 => ?_) _
  rw [hp r h2 d hd, if_neg (by omega)]

/-- C94: without extra frequencies and with the amplitude on the backbone of the fundamental, every row of the result is
the superposition of the static part of the VPRNM point, of the fundamental at that amplitude, and of a mode of the
superharmonic response running `rhi` times as fast. That mode satisfies its modal equation of motion at `rhi` times the
forcing frequency of the row, under the modal force of the VPRNM point, with the modal amplitude of that row. -/
theorem C94_composition (hI : H1Input N hF hR hV rhi Mr bbR Mv ncol bbV) {out : VprnmRom}
    (hr0 : rowAmp hF N c1 bbF 0 ≤ amp) (hr1 : amp ≤ rowAmp hF N c1 bbF (Mf - 1))
    (ho : constantH1 N Mf bbF hF Mr bbR hR ncol Mv bbV hV rhi c1 amp cr Fl none correct = .ok out) :
    ∃ pV pF pR φF φS, H1Points N Mf bbF hF Mr bbR hR Mv bbV hV rhi c1 amp cr pV pF pR ∧
      out.U.length = out.Om.length ∧ out.force.length = out.Om.length ∧
      ∀ j < out.Om.length, ∃ (V shape : ℕ → ℝ) (w z q θ : ℝ), (∀ i, out.U.getD j (fun _ => none) i = some (V i)) ∧ 0 < out.Om.getD j 0 ∧
        SuperRow (numCoeff hR * N) Mr bbR pR (rhi * pV (ncol - 2)) shape w z q ∧
        modalStiffness w z (rhi * out.Om.getD j 0) * (q * Complex.exp (-(θ : ℂ) * Complex.I))
          = (2 * pR (numCoeff hR * N + 2) * (rhi * pV (ncol - 2)) ^ 2 *
              (pR (numCoeff hR * N + 1) / (2 * pR (numCoeff hR * N))) : ℝ) ∧
        ∀ d < N, ∀ τ : ℝ, series out.h (fun r => V (r * N + d)) τ = (if 0 ∈ hV then pV d else 0)
          + pF (numCoeff hF * N + 2) * oscillation hF (fun r => pF (r * N + d)) (τ - φF)
          + q * oscillation hR (fun r => shape (r * N + d)) (rhi * τ - φS - θ) := by
  have hFA := sorted_admissible hI.fs hI.f1
  have hRA := sorted_admissible hI.rs hI.r1
  obtain ⟨pV, pF, pR, f, frc, i, p1, φF, φS, hP, hV0, hR0, hRq, hFq, hp1, hφF, hφS, hfrc, hi, -, -, rfl⟩ :=
    h1_parts hI hr0 hr1 ho
  have hrpos : (0 : ℝ) < rhi := by exact_mod_cast hI.one_le
  refine ⟨pV, pF, pR, φF, φS, hP, by simp, ?_, fun j hj => ?_⟩
  · unfold forceOut
    cases correct <;> simp
  · simp only [List.length_map] at hj
    obtain ⟨shape, w, z, hrow, hpos, hmod, U, hU, hUs⟩ := superFrc_mem hRA hRq hfrc (List.getElem_mem hj)
    obtain ⟨V, hV1, hV2⟩ := assemble_coef (N := N) (hV := hV) hI.fs hI.rs hI.one_le pV (rsp p1 N hF φF 1)
      (rsp frc[j].1 N hR φS 1)
    have hO : ∀ j (hj : j < frc.length), (frc.map fun x => x.1 (numCoeff hR * N) / (rhi : ℝ)).getD j 0
        = frc[j].1 (numCoeff hR * N) / rhi := by
      intro j hj
      rw [List.getD_eq_getElem _ _ (by simpa using hj), List.getElem_map]
    refine ⟨V, shape, w, z, frc[j].2.1, frc[j].2.2, ?_, ?_, hrow, ?_, ?_⟩
    · intro i
      rw [List.getD_eq_getElem _ _ (by simpa using hj), List.getElem_map]
      exact hV1 i
    · simp only
      rw [hO j hj]
      exact div_pos hpos hrpos
    · simp only
      rw [hO j hj, mul_div_cancel₀ _ hrpos.ne']
      exact hmod
    · intro d hd τ
      obtain ⟨k1, k2⟩ := hV2 d hd
      simp only
      rw [assemble_series hI.fs hI.rs hI.one_le k1 k2, fund_oscillation hFA hp1 hd]
      congr 1
      · congr 1
        have : zi hV = 1 ↔ 0 ∈ hV := by
          have hv1 := hI.v1
          have hvs := hI.vs
          obtain ⟨t, rfl | rfl⟩ := hv1
          · rw [List.pairwise_cons] at hvs
            have : (0:ℕ) ∉ t := fun h => by have := hvs.1 0 h; omega
            simp [zi, this]
          · simp [zi]
        by_cases hz : 0 ∈ hV
        · rw [if_pos hz, if_pos (this.2 hz)]
        · rw [if_neg hz, if_neg (fun h => hz (this.1 h))]
      · rw [oscillation_rsp hRA hd]
        conv_lhs => rw [hU]
        rw [oscillation_rsp hRA hd]
        exact oscillation_scaled hRA.zero_first _ _ _ (fun r h1 h2 => hUs r h1 h2 d hd) _

end

end TMD
