import Verif.Props.VprnmRom

/-! # The resonance point of the VPRNM reduced order model -/

namespace TMD

open Spec Finset

noncomputable section

variable {N Mf : ℕ} {bbF : ℕ → ℕ → ℝ} {hF : List ℕ} {Mr : ℕ} {bbR : ℕ → ℕ → ℝ} {hR : List ℕ} {ncol Mv : ℕ}
  {bbV : ℕ → ℕ → ℝ} {hV : List ℕ} {rhi : ℕ} {c1 : ℕ → ℝ} {amp : ℝ} {cr Fl : ℕ → ℝ} {correct : Bool}

/-- Interpolation is at a node or a convex combination of neighbours. -/
theorem LinearAt.convex {n : ℕ} {ref : ℕ → ℝ} {X : ℕ → ℕ → ℝ} {v : ℝ} {row : ℕ → ℝ} (hn : 0 < n)
    (hinc : ∀ k, k + 1 < n → ref k < ref (k + 1)) (h : LinearAt n ref X v (some row)) :
    (∃ k < n, v = ref k ∧ row = X k) ∨
      ∃ k, k + 1 < n ∧ ∃ t, v = (1 - t) * ref k + t * ref (k + 1) ∧ ∀ c, row c = (1 - t) * X k c + t * X (k + 1) c := by
  obtain ⟨h0, h1⟩ := h.range
  obtain ⟨j, hj, hj1, hj2⟩ := exists_bracket hn h0
  by_cases hl : j + 1 < n
  · right
    obtain ⟨row', e, hrow⟩ := h.segment j hl hj1 (hj2 hl).le
    cases e
    have hd : ref (j + 1) - ref j ≠ 0 := (sub_pos.2 (hinc j hl)).ne'
    refine ⟨j, hl, (v - ref j) / (ref (j + 1) - ref j), ?_, fun c => ?_⟩
    · field_simp
      ring
    · have := hrow c
      field_simp
      linarith
  · left
    have : j = n - 1 := by omega
    subst this
    have hv : v = ref (n - 1) := le_antisymm h1 hj1
    have := h.node (n - 1) hj hv
    cases this
    exact ⟨n - 1, hj, hv, rfl⟩

theorem pointHarmonic_scaled (H : FirstIsOne hF) {p1 pF : ℕ → ℝ} {q : ℝ} (c : ℕ → ℝ)
    (hp : ∀ r, zi hF ≤ r → r < numCoeff hF → ∀ d < N, p1 (r * N + d) = q * pF (r * N + d)) :
    pointHarmonic hF N c p1 1 = q * pointHarmonic hF N c pF 1 := by
  have hnum : zi hF + 2 ≤ numCoeff hF := by
    obtain ⟨t, rfl | rfl⟩ := H
    · simp [zi, numCoeff]
    · simp [zi, numCoeff]; omega
  rw [pointHarmonic_first, pointHarmonic_first, Finset.mul_sum]
  refine Finset.sum_congr rfl fun d hd => ?_
  have hd := Finset.mem_range.1 hd
  rw [firstHarmonic_eq H, firstHarmonic_eq H, hp _ le_rfl (by omega) d hd, hp _ (by omega) (by omega) d hd]
  apply Complex.ext <;> simp <;> ring

theorem pointHarmonic_assembled {h1 h2 h3 : List ℕ} {V p u : ℕ → ℝ} {k m : ℕ} {b : Prop} [Decidable b] (c : ℕ → ℝ)
    (hc : ∀ d < N, coefOf h1 (fun r => V (r * N + d)) k = coefOf h2 (fun r => p (r * N + d)) k
      + if b then coefOf h3 (fun r => u (r * N + d)) m else 0) :
    pointHarmonic h1 N c V k = pointHarmonic h2 N c p k + if b then pointHarmonic h3 N c u m else 0 := by
  unfold pointHarmonic
  by_cases hb : b
  · simp only [if_pos hb] at hc ⊢
    rw [← Finset.sum_add_distrib]
    refine Finset.sum_congr rfl fun d hd => ?_
    rw [hc d (Finset.mem_range.1 hd)]
    apply Complex.ext <;> simp <;> ring
  · simp only [if_neg hb, add_zero] at hc ⊢
    refine Finset.sum_congr rfl fun d hd => ?_
    rw [hc d (Finset.mem_range.1 hd)]

theorem pointHarmonic_absent {h : List ℕ} {k : ℕ} (hk : k ∉ h) (c U : ℕ → ℝ) : pointHarmonic h N c U k = 0 := by
  unfold pointHarmonic
  refine Finset.sum_eq_zero fun d _ => ?_
  rw [coefOf_notMem hk]
  apply Complex.ext <;> simp

theorem norm_rot (φ : ℝ) (z : ℂ) : ‖Complex.exp (-(φ : ℂ) * Complex.I) * z‖ = ‖z‖ := by
  rw [norm_mul, ← Complex.ofReal_neg, Complex.norm_exp_ofReal_mul_I, one_mul]

/-- Harmonic 1 of the control point is the same in all rows. -/
theorem first_harmonic_rows (hI : H1Input N hF hR hV rhi Mr bbR Mv ncol bbV) (h2 : 2 ≤ rhi) {pF p1 : ℕ → ℝ} {q : ℝ} (hq : 0 < q)
    (hp1 : ∀ r < numCoeff hF, ∀ d < N, p1 (r * N + d) = if r < zi hF then pF (r * N + d) else q * pF (r * N + d))
    {pV uS V : ℕ → ℝ} {φF : ℝ}
    (hφF : φF = harmPhase N (numCoeff (hV.filter fun k => k < 1)) c1 pV - harmPhase N (zi hF) c1 p1)
    (hc : ∀ d < N, ∀ k, 1 ≤ k → coefOf (outHarmonics hV hF hR rhi) (fun r => V (r * N + d)) k
          = coefOf hF (fun r => rsp p1 N hF φF 1 (r * N + d)) k
            + if rhi ∣ k then coefOf hR (fun r => uS (r * N + d)) (k / rhi) else 0) :
    InPhase (pointHarmonic (outHarmonics hV hF hR rhi) N c1 V 1) (pointHarmonic hV N c1 pV 1) ∧
      ‖pointHarmonic (outHarmonics hV hF hR rhi) N c1 V 1‖ = q * ‖pointHarmonic hF N c1 pF 1‖ := by
  have e : pointHarmonic (outHarmonics hV hF hR rhi) N c1 V 1 = pointHarmonic hF N c1 (rsp p1 N hF φF 1) 1 := by
    rw [pointHarmonic_assembled c1 fun d hd => hc d hd 1 le_rfl, if_neg, add_zero]
    intro hdvd
    have := Nat.le_of_dvd one_pos hdvd
    omega
  constructor
  · rw [e, hφF]
    exact rotate_aligns hI.f1 hI.fs hI.vs hI.v1.mem le_rfl N c1 p1 pV
  · rw [e, pointHarmonic_rsp hI.f1, norm_rot, pointHarmonic_scaled (q := q) (pF := pF) hI.f1 c1, norm_mul, Complex.norm_real,
      Real.norm_of_nonneg hq.le]
    intro r h1 h2 d hd
    rw [hp1 r h2 d hd, if_neg (by omega)]

/-- C95: in every row harmonic 1 of the control point has the phase of the VPRNM point and one amplitude, the one of the
interpolated fundamental. -/
theorem C95_first_harmonic (hI : H1Input N hF hR hV rhi Mr bbR Mv ncol bbV) (h2 : 2 ≤ rhi) {out : VprnmRom}
    (hr0 : rowAmp hF N c1 bbF 0 ≤ amp) (hr1 : amp ≤ rowAmp hF N c1 bbF (Mf - 1))
    (ho : constantH1 N Mf bbF hF Mr bbR hR ncol Mv bbV hV rhi c1 amp cr Fl none correct = .ok out) :
    ∃ pV pF pR, H1Points N Mf bbF hF Mr bbR hR Mv bbV hV rhi c1 amp cr pV pF pR ∧
      ∀ j < out.Om.length, ∃ V : ℕ → ℝ, (∀ i, out.U.getD j (fun _ => none) i = some (V i)) ∧
        InPhase (pointHarmonic out.h N c1 V 1) (pointHarmonic hV N c1 pV 1) ∧
        ‖pointHarmonic out.h N c1 V 1‖ = pF (numCoeff hF * N + 2) * ‖pointHarmonic hF N c1 pF 1‖ := by
  obtain ⟨pV, pF, pR, f, frc, i, p1, φF, φS, hP, hV0, hR0, hRq, hFq, hp1, hφF, hφS, hfrc, hi, -, -, rfl⟩ :=
    h1_parts hI hr0 hr1 ho
  refine ⟨pV, pF, pR, hP, fun j hj => ?_⟩
  simp only [List.length_map] at hj
  obtain ⟨V, hV1, hV2⟩ := assemble_coef (N := N) (hV := hV) hI.fs hI.rs hI.one_le pV (rsp p1 N hF φF 1)
    (rsp frc[j].1 N hR φS 1)
  refine ⟨V, ?_, first_harmonic_rows hI h2 hFq hp1 hφF fun d hd => (hV2 d hd).1⟩
  intro i
  rw [List.getD_eq_getElem _ _ (by simpa using hj), List.getElem_map]
  exact hV1 i

/-- C95: the result contains the resonance: a row at the frequency of the VPRNM point with its phases of harmonics 1 and
`rhi` at the control points and its static displacement. If no other row has this frequency, then the corrected force of this
row is the force of the VPRNM point, and harmonic `rhi` has the amplitude of the interpolated superharmonic mode. -/
theorem C95_resonance (hI : H1Input N hF hR hV rhi Mr bbR Mv ncol bbV) (h2 : 2 ≤ rhi) (hrF : rhi ∉ hF) {out : VprnmRom}
    (hr0 : rowAmp hF N c1 bbF 0 ≤ amp) (hr1 : amp ≤ rowAmp hF N c1 bbF (Mf - 1))
    (ho : constantH1 N Mf bbF hF Mr bbR hR ncol Mv bbV hV rhi c1 amp cr Fl none correct = .ok out) :
    ∃ pV pF pR, H1Points N Mf bbF hF Mr bbR hR Mv bbV hV rhi c1 amp cr pV pF pR ∧
      ∃ j < out.Om.length, out.Om.getD j 0 = pV (ncol - 2) ∧
      ∃ V : ℕ → ℝ, (∀ i, out.U.getD j (fun _ => none) i = some (V i)) ∧
        InPhase (pointHarmonic out.h N c1 V 1) (pointHarmonic hV N c1 pV 1) ∧
        InPhase (pointHarmonic out.h N cr V rhi) (pointHarmonic hV N cr pV rhi) ∧
        (0 ∈ hV → ∀ d < N, (coefOf out.h (fun r => V (r * N + d)) 0).1 = (coefOf hV (fun r => pV (r * N + d)) 0).1) ∧
        (out.Om.Nodup →
          ‖pointHarmonic out.h N cr V rhi‖ = pR (numCoeff hR * N + 2) * ‖pointHarmonic hR N cr pR 1‖ ∧
          (correct = true →
            (ncol = numCoeff hV * N + 2 → out.force.getD j none = some (pV (numCoeff hV * N + 1))) ∧
            (ncol = numCoeff hV * N + 4 → out.force.getD j none
              = some ‖(⟨pV (numCoeff hV * N), pV (numCoeff hV * N + 1)⟩ : ℂ)‖))) := by
  have hRA := sorted_admissible hI.rs hI.r1
  have hVA := sorted_admissible hI.vs hI.v1
  obtain ⟨pV, pF, pR, f, frc, i, p1, φF, φS, hP, hV0, hR0, hRq, hFq, hp1, hφF, hφS, hfrc, hi, hqi, -, rfl⟩ :=
    h1_parts hI hr0 hr1 ho
  have hrpos : (0 : ℝ) < rhi := by exact_mod_cast hI.one_le
  have hw : 0 < (rhi : ℝ) * pV (ncol - 2) := mul_pos hrpos hV0
  obtain ⟨hil, hmin⟩ := npArgmin_some hi
  rw [List.length_map] at hil
  obtain ⟨x, hx, hxw, hxq⟩ := superFrc_peak hRA hRq hw hfrc
  obtain ⟨m, hm, hxm⟩ := List.getElem_of_mem hx
  have hiw : frc[i].1 (numCoeff hR * N) = rhi * pV (ncol - 2) := by
    have h1 := hmin m (by simpa using hm)
    rw [List.getD_eq_getElem _ _ (by simpa using hil), List.getD_eq_getElem _ _ (by simpa using hm), List.getElem_map,
      List.getElem_map, hxm, hxw, sub_self, abs_zero] at h1
    exact sub_eq_zero.1 (abs_eq_zero.1 (le_antisymm h1 (abs_nonneg _)))
  have hget : frc.getD i (fun _ => 0, 0, 0) = frc[i] := List.getD_eq_getElem _ _ hil
  have hO : ∀ j (hj : j < frc.length), (frc.map fun x => x.1 (numCoeff hR * N) / (rhi : ℝ)).getD j 0
      = frc[j].1 (numCoeff hR * N) / rhi := by
    intro j hj
    rw [List.getD_eq_getElem _ _ (by simpa using hj), List.getElem_map]
  obtain ⟨V, hV1, hV2⟩ := assemble_coef (N := N) (hV := hV) hI.fs hI.rs hI.one_le pV (rsp p1 N hF φF 1)
    (rsp frc[i].1 N hR φS 1)
  have eS : pointHarmonic (outHarmonics hV hF hR rhi) N cr V rhi = pointHarmonic hR N cr (rsp frc[i].1 N hR φS 1) 1 := by
    rw [pointHarmonic_assembled cr fun d hd => (hV2 d hd).1 rhi hI.one_le, if_pos dvd_rfl, Nat.div_self hI.one_le,
      pointHarmonic_absent hrF, zero_add]
  refine ⟨pV, pF, pR, hP, i, by simpa using hil, ?_, V, ?_, ?_, ?_, ?_, ?_⟩
  · simp only
    rw [hO i hil, hiw, mul_div_cancel_left₀ _ hrpos.ne']
  · intro i'
    rw [List.getD_eq_getElem _ _ (by simpa using hil), List.getElem_map]
    exact hV1 i'
  · exact (first_harmonic_rows hI h2 hFq hp1 hφF fun d hd => (hV2 d hd).1).1
  · simp only
    rw [eS, hφS, hget]
    exact rotate_aligns hI.r1 hI.rs hI.vs hI.mem hI.one_le N cr frc[i].1 pV
  · intro h0 d hd
    simp only
    rw [(hV2 d hd).2, coefOf_zero hVA.zero_first]
    have : zi hV = 1 := by
      have hv1 := hI.v1
      have hvs := hI.vs
      obtain ⟨t, rfl | rfl⟩ := hv1
      · rw [List.pairwise_cons] at hvs
        rw [List.mem_cons] at h0
        rcases h0 with h0 | h0
        · omega
        · have := hvs.1 0 h0
          omega
      · simp [zi]
    rw [if_pos this]
    unfold meanCoef
    simp [this]
  · intro hnd
    have him : i = m := by
      have h1 : (frc.map fun x => x.1 (numCoeff hR * N) / (rhi : ℝ))[i]'(by simpa using hil)
          = (frc.map fun x => x.1 (numCoeff hR * N) / (rhi : ℝ))[m]'(by simpa using hm) := by
        rw [List.getElem_map, List.getElem_map, hiw, hxm, hxw]
      exact (List.Nodup.getElem_inj_iff hnd).1 h1
    subst him
    have hq : frc[i].2.1 = pR (numCoeff hR * N + 2) := by rw [hxm, hxq]
    constructor
    · obtain ⟨shape, w, z, hrow, hpos, hmod, U, hU, hUs⟩ := superFrc_mem hRA hRq hfrc hx
      have hshape : shape = pR := by
        rcases hrow with h | ⟨k, -, -, -, -, -, h⟩
        · exact h.1
        · rw [hxq] at h
          exact absurd h (lt_irrefl _)
      simp only
      rw [eS, pointHarmonic_rsp hI.r1, norm_rot, hxm, hU, pointHarmonic_rsp hI.r1, norm_rot,
        pointHarmonic_scaled (q := x.2.1) (pF := pR) hI.r1 cr, norm_mul, Complex.norm_real, hxq, Real.norm_of_nonneg hRq.le]
      intro r h1 h2 d hd
      rw [hUs r h1 h2 d hd, hshape]
    · intro hc
      subst hc
      have hmax : npMax (frc.map fun x => x.2.1) = pR (numCoeff hR * N + 2) := by
        refine npMax_eq (List.mem_map.2 ⟨x, hx, hxq⟩) fun y hy => ?_
        obtain ⟨x', hx', rfl⟩ := List.mem_map.1 hy
        obtain ⟨shape, w, z, hrow, -⟩ := superFrc_mem hRA hRq hfrc hx'
        exact superRow_le hrow
      have hforce : (forceOut true (vprnmForce ncol (numCoeff hV * N) pV) (some f)
          (frc.map fun x => x.1 (numCoeff hR * N) / (rhi : ℝ)) (frc.map fun x => x.2.1) i).getD i none
          = some (vprnmForce ncol (numCoeff hV * N) pV) := by
        unfold forceOut
        simp only [if_true]
        rw [hmax, hO i hil, List.getD_eq_getElem _ _ (by simpa using hil), List.getElem_zipWith, List.getElem_map,
          List.getElem_map, hq, mul_div_assoc, div_self hRq.ne', mul_one, add_sub_cancel]
      simp only
      rw [hforce]
      unfold vprnmForce
      constructor
      · intro hn
        rw [if_neg (by omega), hn]
        rfl
      · intro hn
        rw [if_pos hn, hn, Complex.norm_def, Complex.normSq_mk]
        congr 2
        rw [show numCoeff hV * N + 4 - 4 = numCoeff hV * N by omega, show numCoeff hV * N + 4 - 3 = numCoeff hV * N + 1 by omega]
        ring

/-- Interpolated amplitude: exact at the rows of the backbone, and between them where the mode shape does not change. -/
theorem interp_amp {h : List ℕ} (H : FirstIsOne h) {M : ℕ} {bb : ℕ → ℕ → ℝ} {c p : ℕ → ℝ} {v : ℝ} (hM : 0 < M)
    (hinc : ∀ k, k + 1 < M → rowAmp h N c bb k < rowAmp h N c bb (k + 1))
    (hl : LinearAt M (rowAmp h N c bb) (ampTable (numCoeff h * N) bb) v (some p))
    (hs : (∃ k < M, v = rowAmp h N c bb k) ∨
      ∀ k, k + 1 < M → ∀ d < N, firstHarmonic h N (bb k) d = firstHarmonic h N (bb (k + 1)) d) :
    p (numCoeff h * N + 2) * ‖pointHarmonic h N c p 1‖ = v := by
  have hnum : zi h + 2 ≤ numCoeff h := by
    obtain ⟨t, rfl | rfl⟩ := H
    · simp [zi, numCoeff]
    · simp [zi, numCoeff]; omega
  have hle : ∀ r, r < numCoeff h → ∀ d < N, r * N + d ≠ numCoeff h * N + 2 := by
    intro r hr d hd
    have : (r + 1) * N ≤ numCoeff h * N := Nat.mul_le_mul_right _ hr
    rw [Nat.succ_mul] at this
    omega
  have htab : ∀ k, pointHarmonic h N c (ampTable (numCoeff h * N) bb k) 1 = pointHarmonic h N c (bb k) 1 := by
    intro k
    rw [pointHarmonic_scaled (q := 1) (pF := bb k) H c, Complex.ofReal_one, one_mul]
    intro r _ hr d hd
    unfold ampTable
    rw [if_neg (hle r hr d hd), one_mul]
  have hnode : ∀ k < M, v = rowAmp h N c bb k → p (numCoeff h * N + 2) * ‖pointHarmonic h N c p 1‖ = v := by
    intro k hk hv
    have := hl.node k hk hv
    cases this
    rw [htab, hv]
    unfold ampTable rowAmp
    rw [if_pos rfl, mul_comm]
  rcases hs with ⟨k, hk, hv⟩ | hs
  · exact hnode k hk hv
  · rcases hl.convex hM hinc with ⟨k, hk, hv, -⟩ | ⟨k, hk, t, hv, hp⟩
    · exact hnode k hk hv
    · have hconst : ∀ d < N, firstHarmonic h N p d = firstHarmonic h N (bb k) d := by
        intro d hd
        have e1 : firstHarmonic h N p d = ((1 - t : ℝ) : ℂ) * firstHarmonic h N (bb k) d
            + (t : ℂ) * firstHarmonic h N (bb (k + 1)) d := by
          rw [firstHarmonic_eq H, firstHarmonic_eq H, firstHarmonic_eq H, hp, hp]
          unfold ampTable
          rw [if_neg (hle _ (by omega) d hd), if_neg (hle _ (by omega) d hd), if_neg (hle _ (by omega) d hd),
            if_neg (hle _ (by omega) d hd)]
          apply Complex.ext <;> simp <;> ring
        rw [e1, ← hs k hk d hd]
        push_cast
        ring
      have e1 : pointHarmonic h N c p 1 = pointHarmonic h N c (bb k) 1 := by
        rw [pointHarmonic_first, pointHarmonic_first]
        exact Finset.sum_congr rfl fun d hd => by rw [hconst d (Finset.mem_range.1 hd)]
      have e2 : pointHarmonic h N c (bb (k + 1)) 1 = pointHarmonic h N c (bb k) 1 := by
        rw [pointHarmonic_first, pointHarmonic_first]
        exact Finset.sum_congr rfl fun d hd => by rw [hs k hk d (Finset.mem_range.1 hd)]
      rw [e1, hp, hv]
      unfold rowAmp ampTable
      rw [if_pos rfl, if_pos rfl, e2]
      ring

/-- C96: where the requested amplitude is that of a row of the fundamental backbone, or the mode shape does not change, every
row has the requested first harmonic amplitude. Missing: other amplitudes, see `C96_violated`. -/
theorem C96_amplitude_partial (hI : H1Input N hF hR hV rhi Mr bbR Mv ncol bbV) (h2 : 2 ≤ rhi) {out : VprnmRom}
    (hr0 : rowAmp hF N c1 bbF 0 ≤ amp) (hr1 : amp ≤ rowAmp hF N c1 bbF (Mf - 1))
    (hs : (∃ k < Mf, amp = rowAmp hF N c1 bbF k) ∨
      ∀ k, k + 1 < Mf → ∀ d < N, firstHarmonic hF N (bbF k) d = firstHarmonic hF N (bbF (k + 1)) d)
    (ho : constantH1 N Mf bbF hF Mr bbR hR ncol Mv bbV hV rhi c1 amp cr Fl none correct = .ok out) :
    ∀ j < out.Om.length, ∃ V : ℕ → ℝ, (∀ i, out.U.getD j (fun _ => none) i = some (V i)) ∧
        ‖pointHarmonic out.h N c1 V 1‖ = amp := by
  obtain ⟨pV, pF, pR, hP, h⟩ := C95_first_harmonic hI h2 hr0 hr1 ho
  obtain ⟨hM, hinc⟩ := h1_fund_increasing hI hr0 hr1 ho
  intro j hj
  obtain ⟨V, v1, -, v3⟩ := h j hj
  exact ⟨V, v1, v3.trans (interp_amp hI.f1 hM hinc hP.fund hs)⟩

end

end TMD
