import Verif.Lemmas.VprnmRom

/-! # The stages of the VPRNM reduced order model -/

namespace TMD

open Spec Finset

noncomputable section

theorem oscillation_congr {h : List ℕ} {c c' : ℕ → ℝ} (h0 : 0 ∉ h.tail) (hc : ∀ i < numCoeff h, c i = c' i) (τ : ℝ) :
    oscillation h c τ = oscillation h c' τ := by
  unfold oscillation
  rw [series_congr hc, coefOf_zero h0, coefOf_zero h0]
  congr 2
  unfold meanCoef
  split_ifs with hz
  · refine congrArg (fun x => (x, (0:ℝ))) (hc 0 ?_)
    rw [numCoeff_eq h0]
    have := zi_le_length (h := h)
    omega
  · rfl

/-- A rotation is a delay, also without the mean. -/
theorem oscillation_rsp {h : List ℕ} (hA : Admissible h) {N d : ℕ} (hd : d < N) (U : ℕ → ℝ) (φ τ : ℝ) :
    oscillation h (fun r => rsp U N h φ 1 (r * N + d)) τ = oscillation h (fun r => U (r * N + d)) (τ - φ) := by
  obtain ⟨V, v1, v2, -⟩ := C11_rotation_is_time_shift h hA N U φ 1
  rw [rsp_ok U N hA.ne φ 1] at v1
  cases v1
  unfold oscillation
  rw [v2 d hd τ, Nat.cast_one, div_one, coefOf_zero hA.zero_first, coefOf_zero hA.zero_first]
  congr 1
  have : meanCoef h (fun r => rsp U N h φ 1 (r * N + d)) = meanCoef h (fun r => U (r * N + d)) := by
    unfold meanCoef
    split_ifs with hz
    · exact rsp_rest (by omega) hd
    · rfl
  exact this

/-- The factor `q` on all harmonics but the mean. -/
theorem oscillation_scaled {h : List ℕ} (h0 : 0 ∉ h.tail) (q : ℝ) (c c' : ℕ → ℝ)
    (hc : ∀ r, zi h ≤ r → r < numCoeff h → c' r = q * c r) (τ : ℝ) :
    oscillation h c' τ = q * oscillation h c τ := by
  unfold oscillation
  rw [coefOf_zero h0, coefOf_zero h0, series_eq h0, series_eq h0, add_sub_cancel_left, add_sub_cancel_left,
    Finset.mul_sum]
  refine Finset.sum_congr rfl fun i hi => ?_
  rw [Finset.mem_Ico] at hi
  have hz := zi_le_one h
  have hn := numCoeff_eq h0
  rw [hc _ (by omega) (by omega), hc _ (by omega) (by omega)]
  ring

variable {M N : ℕ} {h : List ℕ} {bb : ℕ → ℕ → ℝ}

/-- Every point of `constant_force` in explicit form. -/
theorem constantForce_mem (hA : Admissible h) {w zeta : Option (ℕ → ℝ)} {PR PI : ℕ → ℝ} {out : List RomPoint}
    (ho : constantForce M N h bb none w zeta (some PR) (some PI) = .ok out) {x : RomPoint} (hx : x ∈ out) :
    ∃ k < M, ∃ Om > 0, ∃ θ : ℝ,
      x = (rsp (romShape (numCoeff h * N) N h bb (fun k => (10 : ℝ) ^ bb k (numCoeff h * N + 2)) k Om) N h θ 1,
        (10 : ℝ) ^ bb k (numCoeff h * N + 2), θ) ∧ x.1 (numCoeff h * N) = Om ∧
      modalStiffness (romFreq bb (numCoeff h * N) w k) (romDamp bb (numCoeff h * N) w zeta k) Om *
        (((10 : ℝ) ^ bb k (numCoeff h * N + 2) : ℝ) * Complex.exp (-(θ : ℂ) * Complex.I)) = ⟨PR k, PI k⟩ := by
  set n := numCoeff h * N with hn
  have hp := constantForce_projected (M := M) (Ndof := N) (bb := bb) hA w zeta PR PI
  simp only at hp
  rw [hp] at ho
  cases ho
  rw [List.mem_reverse, List.mem_map] at hx
  obtain ⟨⟨k, y⟩, hc, rfl⟩ := hx
  have hq : ∀ k, 0 < (10 : ℝ) ^ bb k (n + 2) := fun k => Real.rpow_pos_of_pos (by norm_num) _
  obtain ⟨hk, hy, he⟩ := (mem_romCandidates hq).1 hc
  refine ⟨k, hk, Real.sqrt y, Real.sqrt_pos.2 hy, _, rfl, ?_, ?_⟩
  · obtain ⟨V, v1, -, v3⟩ := C11_rotation_is_time_shift h hA N
      (romShape n N h bb (fun k => (10 : ℝ) ^ bb k (n + 2)) k (Real.sqrt y))
      (Complex.arg ((starRingEnd ℂ) ⟨PR k, PI k⟩ * modalStiffness (romFreq bb n w k) (romDamp bb n w zeta k) (Real.sqrt y))) 1
    rw [rsp_ok _ _ hA.ne] at v1
    cases v1
    exact (v3 n le_rfl).trans (by unfold romShape; simp)
  · refine phase_solves (hq k) ?_
    rw [normSq_modalStiffness, Real.sq_sqrt hy.le, he, Complex.normSq_mk]
    ring

theorem romShape_block {q : ℕ → ℝ} {k r d : ℕ} {Om : ℝ} (hr : r < numCoeff h) (hd : d < N) :
    romShape (numCoeff h * N) N h bb q k Om (r * N + d) = if r < zi h then bb k (r * N + d) else q k * bb k (r * N + d) := by
  have h1 : r * N + d < numCoeff h * N := by
    have : (r + 1) * N ≤ numCoeff h * N := Nat.mul_le_mul_right _ hr
    rw [Nat.succ_mul] at this
    omega
  unfold romShape
  rw [if_pos h1]
  by_cases hz : r < zi h
  · have : (r + 1) * N ≤ zi h * N := Nat.mul_le_mul_right _ hz
    rw [Nat.succ_mul] at this
    rw [if_neg (by omega), if_pos hz]
  · have : zi h * N ≤ r * N := Nat.mul_le_mul_right _ (by omega)
    rw [if_pos (by omega), if_neg hz, mul_comm]

theorem rpow_logb_ten {x : ℝ} (hx : 0 < x) : (10 : ℝ) ^ Real.logb 10 x = x :=
  Real.rpow_logb (by norm_num) (by norm_num) hx

/-- Mode shape of row `j` of the abbreviated backbone. -/
def superShape (bbR : ℕ → ℕ → ℝ) (kept : List ℕ) (pR : ℕ → ℝ) (j : ℕ) : ℕ → ℝ :=
  if j < kept.length then bbR (kept.getD j 0) else pR

theorem superBB_low {n : ℕ} {bbR : ℕ → ℕ → ℝ} {kept : List ℕ} {pR : ℕ → ℝ} {j i : ℕ} (hi : i ≠ n + 2) :
    superBB n bbR kept pR j i = superShape bbR kept pR j i := by
  simp only [superBB, superShape, if_neg hi]
  split_ifs
  · simp only [linQ, if_neg hi]
  · rfl

theorem super_row {n Mr : ℕ} {bbR : ℕ → ℕ → ℝ} {pR : ℕ → ℝ} (wv : ℝ) (hq : 0 < pR (n + 2)) (j : ℕ) :
    SuperRow n Mr bbR pR wv (superShape bbR (superKept n Mr bbR (pR (n + 2))) pR j)
      (superW n bbR (superKept n Mr bbR (pR (n + 2))) pR wv j)
      (superBB n bbR (superKept n Mr bbR (pR (n + 2))) pR j (n + 1)
        / (2 * superBB n bbR (superKept n Mr bbR (pR (n + 2))) pR j n))
      ((10 : ℝ) ^ superBB n bbR (superKept n Mr bbR (pR (n + 2))) pR j (n + 2)) := by
  set kept := superKept n Mr bbR (pR (n + 2)) with hkept
  by_cases hj : j < kept.length
  · right
    have hmem : kept.getD j 0 ∈ kept := by
      rw [List.getD_eq_getElem _ _ hj]
      exact List.getElem_mem _
    have hmem' := hmem
    rw [hkept, superKept, List.mem_filter, List.mem_range, decide_eq_true_eq] at hmem'
    have hq' : (10 : ℝ) ^ superBB n bbR kept pR j (n + 2) = (10 : ℝ) ^ bbR (kept.getD j 0) (n + 2) := by
      simp only [superBB, if_pos hj, if_true, linQ]
      exact rpow_logb_ten (Real.rpow_pos_of_pos (by norm_num) _)
    refine ⟨kept.getD j 0, hmem'.1, ?_, ?_, ?_, hq', hq' ▸ hmem'.2⟩
    · rw [superShape, if_pos hj]
    · simp only [superW, if_pos hj, linQ]
      rw [if_neg (by omega), mul_div_assoc]
    · rw [superBB_low (by omega), superBB_low (by omega), superShape, if_pos hj]
  · left
    refine ⟨by rw [superShape, if_neg hj], by rw [superW, if_neg hj], ?_, ?_⟩
    · rw [superBB_low (by omega), superBB_low (by omega), superShape, if_neg hj]
    · simp only [superBB, if_neg hj, if_true]
      exact rpow_logb_ten hq

/-- The points of the superharmonic response. -/
theorem superFrc_mem (hA : Admissible h) {Mr : ℕ} {bbR : ℕ → ℕ → ℝ} {pR : ℕ → ℝ} {wv : ℝ} {out : List RomPoint}
    (hq : 0 < pR (numCoeff h * N + 2)) (ho : superFrc N (numCoeff h * N) Mr bbR h pR wv = .ok out) {x : RomPoint} (hx : x ∈ out) :
    ∃ shape w z, SuperRow (numCoeff h * N) Mr bbR pR wv shape w z x.2.1 ∧ 0 < x.1 (numCoeff h * N) ∧
      modalStiffness w z (x.1 (numCoeff h * N)) * (x.2.1 * Complex.exp (-(x.2.2 : ℂ) * Complex.I))
        = (2 * pR (numCoeff h * N + 2) * wv ^ 2 * (pR (numCoeff h * N + 1) / (2 * pR (numCoeff h * N))) : ℝ) ∧
      ∃ U, x.1 = rsp U N h x.2.2 1 ∧ ∀ r, zi h ≤ r → r < numCoeff h → ∀ d < N,
        U (r * N + d) = x.2.1 * shape (r * N + d) := by
  set n := numCoeff h * N with hn
  obtain ⟨j, -, Om, hOm, θ, hxe, hxn, hmod⟩ := constantForce_mem hA ho hx
  refine ⟨superShape bbR (superKept n Mr bbR (pR (n + 2))) pR j, superW n bbR (superKept n Mr bbR (pR (n + 2))) pR wv j,
    superBB n bbR (superKept n Mr bbR (pR (n + 2))) pR j (n + 1)
        / (2 * superBB n bbR (superKept n Mr bbR (pR (n + 2))) pR j n), ?_, hxn ▸ hOm, ?_,
    romShape n N h (superBB n bbR (superKept n Mr bbR (pR (n + 2))) pR)
      (fun k => (10 : ℝ) ^ superBB n bbR (superKept n Mr bbR (pR (n + 2))) pR k (n + 2)) j Om, ?_, ?_⟩
  · rw [hxe]
    exact super_row wv hq j
  · rw [hxn, hxe]
    exact hmod
  · rw [hxe]
  · intro r h1 h2 d hd
    rw [romShape_block h2 hd, if_neg (by omega), hxe]
    have : r * N + d < n := by
      have : (r + 1) * N ≤ numCoeff h * N := Nat.mul_le_mul_right _ h2
      rw [Nat.succ_mul] at this
      omega
    rw [superBB_low (n := n) (i := r * N + d) (by omega)]

/-- The resonance is among them. -/
theorem superFrc_peak (hA : Admissible h) {Mr : ℕ} {bbR : ℕ → ℕ → ℝ} {pR : ℕ → ℝ} {wv : ℝ} {out : List RomPoint}
    (hq : 0 < pR (numCoeff h * N + 2)) (hw : 0 < wv) (ho : superFrc N (numCoeff h * N) Mr bbR h pR wv = .ok out) :
    ∃ x ∈ out, x.1 (numCoeff h * N) = wv ∧ x.2.1 = pR (numCoeff h * N + 2) := by
  set n := numCoeff h * N with hn
  set kept := superKept n Mr bbR (pR (n + 2)) with hkept
  set bb := superBB n bbR kept pR with hbb
  have hlast : ¬ kept.length < kept.length := lt_irrefl _
  have hql : (10 : ℝ) ^ bb kept.length (n + 2) = pR (n + 2) := by
    simp only [hbb, superBB, if_neg hlast, if_true]
    exact rpow_logb_ten hq
  obtain ⟨out', e, x, hx, h1, h2⟩ := C63_complete (M := kept.length + 1) (Ndof := N) (bb := bb) hA
    (some (superW n bbR kept pR wv)) (some fun j => bb j (n + 1) / (2 * bb j n))
    (fun _ => 2 * pR (n + 2) * wv ^ 2 * (pR (n + 1) / (2 * pR n))) (fun _ => 0) (Nat.lt_succ_self _) hw (by
      rw [← hn, hql]
      simp only [romFreq, romDamp, superW, if_neg hlast]
      rw [hbb, superBB_low (by omega), superBB_low (by omega), superShape, if_neg hlast]
      ring)
  have : out' = out := by
    have := e.symm.trans ho
    cases this
    rfl
  subst this
  exact ⟨x, hx, h1, h2.trans hql⟩

theorem superRow_le {n Mr : ℕ} {bbR : ℕ → ℕ → ℝ} {pR : ℕ → ℝ} {wv : ℝ} {shape : ℕ → ℝ} {w z q : ℝ}
    (h : SuperRow n Mr bbR pR wv shape w z q) : q ≤ pR (n + 2) := by
  rcases h with h | ⟨k, -, -, -, -, -, h⟩
  · exact h.2.2.2.le
  · exact h.le

end

end TMD
