import Verif.Lemmas.JaxGradAft
import Mathlib.Tactic.IntervalCases

/-!
# Derivatives that JAX finds for a slider at rest whose limit is zero
-/

namespace TMD

open Spec Finset Filter Topology

noncomputable section

/-- Tangents of a slider at rest with limit zero: each of `minimum` and `maximum` passes on one half. -/
def restTangent (kt : ℝ) (a : ℕ → ℝ) (ap f : ℝ) : ℕ → ℝ
  | 0 => (kt * (a 0 - ap) + f) / 4
  | i + 1 => (kt * (a (i + 1) - a i) + restTangent kt a ap f i) / 4

theorem dual_clip_rest (x hi lo : Dual) (hx : x.v = 0) (hh : hi.v = 0) (hl : lo.v = 0) (k : ℕ) (hh' : hi.d k = 0)
    (hl' : lo.d k = 0) : (dualNum.max (dualNum.min x hi) lo).v = 0 ∧
      (dualNum.max (dualNum.min x hi) lo).d k = x.d k / 4 := by
  simp only [dualNum, balanced, hx, hh, hl, hh', hl']
  norm_num
  ring

theorem gSlider_rest (kt : ℝ) {hi lo u : ℕ → Dual} {up fp : Dual} (k : ℕ) (h1 : ∀ i, (hi i).v = 0 ∧ (hi i).d k = 0)
    (h2 : ∀ i, (lo i).v = 0 ∧ (lo i).d k = 0) (h3 : ∀ i, (u i).v = 0) (h4 : up.v = 0) (h5 : fp.v = 0) (n : ℕ) :
    (gSlider dualNum kt hi lo u up fp n).v = 0 ∧
      (gSlider dualNum kt hi lo u up fp n).d k = restTangent kt (fun i => (u i).d k) (up.d k) (fp.d k) n := by
  induction n with
  | zero =>
    obtain ⟨e1, e2⟩ := dual_clip_rest (dualNum.add (dualNum.mul (dualNum.const kt) (dualNum.sub (u 0) up)) fp) (hi 0) (lo 0)
      (by simp [dualNum, h3, h4, h5]) (h1 0).1 (h2 0).1 k (h1 0).2 (h2 0).2
    refine ⟨e1, ?_⟩
    rw [gSlider, e2, restTangent]
    simp [dualNum]
  | succ n ih =>
    obtain ⟨e1, e2⟩ := dual_clip_rest (dualNum.add (dualNum.mul (dualNum.const kt) (dualNum.sub (u (n+1)) (u n)))
      (gSlider dualNum kt hi lo u up fp n)) (hi (n+1)) (lo (n+1))
      (by have := ih.1; simp only [dualNum] at this ⊢; rw [this]; simp [h3]) (h1 (n+1)).1 (h2 (n+1)).1 k (h1 (n+1)).2 (h2 (n+1)).2
    refine ⟨e1, ?_⟩
    rw [gSlider, e2, restTangent, ← ih.2]
    simp [dualNum]

/-- The numbers of the witness: `cos` with four samples, starting at rest. -/
theorem restTangent_cos (kt : ℝ) (a : ℕ → ℝ) (ha : ∀ j : ℕ, a j = Real.cos (2 * Real.pi * ((j % 4 : ℕ) : ℝ) / 4)) :
    (restTangent kt a 0 0 4 - restTangent kt a 0 0 6) / 2 = 9635 / 32768 * kt := by
  obtain ⟨c0, c1, c2, c3⟩ := cos_quarter
  simp only [restTangent, ha]
  norm_num only [Nat.reduceMod, c0, c1, c2, c3]
  push_cast at c0 c1 c2 c3
  simp only [c0, c1, c2, c3]
  ring

theorem quarter_weights {W : ℕ → ℕ → ℝ} (hW : ∀ x : ℕ → ℕ → ℝ, ∃ v, getFourierCoeff [0, 1] ⟨4, x⟩ = .ok v ∧
      (∀ r < numCoeff [0, 1], ∀ d, v r d = ∑ j ∈ range 4, W r j * x j d)) (x : ℕ → ℝ) :
    ∑ j ∈ range 4, W 1 j * x j = (x 0 - x 2) / 2 := by
  obtain ⟨v, v1, v2⟩ := hW fun j _ => x j
  obtain ⟨v', v1', v2'⟩ := getFourierCoeff_ok (h := [0, 1]) ⟨by simp, by decide, by decide⟩
    (⟨4, fun j _ => x j⟩ : TS ℕ) (by simp)
  rw [v1] at v1'
  obtain rfl := Except.ok.inj v1'
  have h := v2' 1 (by simp) 0
  rw [dftCoef_eq_dft] at h
  have h' := congrArg Prod.fst h
  obtain ⟨c0, c1, c2, c3⟩ := cos_quarter
  simp only [coefOf, dft, sum_range_succ, sum_range_zero] at h'
  have e : v 1 0 = (x 0 - x 2) / 2 := by
    norm_num at h' c0 c1 c2 c3
    rw [h', c1, c2, c3]
    ring
  rw [← e, v2 1 (by decide)]

theorem quarter_samples {cst : TS ℕ} (hc : ∀ N Q (U : ℕ → ℝ) d j, localMotion N Q [0, 1] U d (2 * Real.pi * (j : ℕ) / (4 : ℕ))
      = ∑ r ∈ range (numCoeff [0, 1]), cst.val j r * unlOf N Q U r d) (j : ℕ) :
    cst.val j 1 = Real.cos (2 * Real.pi * j / 4) := by
  have h := hc 1 (fun _ _ => 1) (fun r => if r = 1 then 1 else 0) 0 j
  simp [localMotion, series, numCoeff, unlOf, matMul, -sum_boole] at h
  exact h.symm

/-- A function constant nearby has no other gradient than zero. -/
theorem not_hasGrad_of_const {n : ℕ} {f : (ℕ → ℝ) → ℝ} {g X : ℕ → ℝ} {i : ℕ} (hi : i < n) (hg : g i ≠ 0)
    (hf : ∀ᶠ v in 𝓝 (0 : Fin n → ℝ), f (fun i => X i + ext v i) = 0) : ¬ HasGrad n f g X := by
  intro h
  have h0 : HasFDerivAt (fun v : Fin n → ℝ => f (fun i => X i + ext v i)) (0 : (Fin n → ℝ) →L[ℝ] ℝ) 0 :=
    (hasFDerivAt_const (0 : ℝ) (0 : Fin n → ℝ)).congr_of_eventuallyEq hf
  have e := congrArg (fun L : (Fin n → ℝ) →L[ℝ] ℝ => L (Pi.single ⟨i, hi⟩ 1)) (h.unique h0)
  simp [row, Pi.single_apply] at e
  exact hg e

/-- The program on pairs for harmonics 0 and 1, four samples and identity matrices. -/
theorem quarter_grad (m : ℕ) (hm : 0 < m) (hist : ℕ → (ℕ → ℕ → Dual) → (ℕ → Dual) → ℕ → ℕ → Dual) :
    ∃ (out : (ℕ → ℝ) → AftOut) (smp : (ℕ → ℝ) → ℕ → ℕ → Dual), (∀ U, jaxAftGrad m m eye eye hist U [0, 1] 4 = .ok (out U)) ∧
      (∀ U j d, (smp U j d).v = localMotion m eye [0, 1] U d (2 * Real.pi * j / (4 : ℕ))) ∧
      (∀ U j, (smp U j 0).d m = Real.cos (2 * Real.pi * j / 4)) ∧
      ∀ U ft, ft = hist 4 (smp U) (dualStart m m eye U) →
        ((∀ j < 4, ∀ d < m, (ft j d).v = 0) → ∀ p < 3 * m, (out U).F p = 0) ∧
        (out U).dU m m = ((ft 0 0).d m - (ft 2 0).d m) / 2 := by
  obtain ⟨cst, W, c1, c2, c3, H⟩ := jaxGrad_ok (h := [0, 1]) ⟨by simp, by decide, by decide⟩ (Nt := 4) (by decide) ⟨2, rfl⟩
    (by decide)
  choose out J Fh o1 o2 using H m m eye eye hist
  refine ⟨out, dualSamples m m eye [0, 1] 4 cst, o1, fun U j d => rfl, fun U j => ?_, fun U ft hft => ?_⟩
  · rw [← quarter_samples c3 j]
    have e0 : seed m m 0 0 = 0 := by simp [seed]; omega
    have e1 : seed m m 1 0 = 1 := by simp [seed]
    have e2 : seed m m 2 0 = 0 := by simp [seed]; omega
    simp [dualSamples, numCoeff, sum_range_succ, e0, e1, e2]
  · obtain ⟨f1, f2, f3, f4, -⟩ := o2 U ft hft
    constructor
    · intro h0 p hp
      obtain ⟨v, v1, v2⟩ := c2 fun j d => (ft j d).v
      rw [f1] at v1
      obtain rfl := Except.ok.inj v1
      rw [f2]
      unfold toGlobal matMul
      refine sum_eq_zero fun d hd => ?_
      have hp' : p / m < numCoeff [0, 1] := by
        rw [show numCoeff [0, 1] = 3 by decide]
        exact (Nat.div_lt_iff_lt_mul hm).2 hp
      beta_reduce
      rw [v2 _ hp' d, sum_eq_zero, mul_zero]
      intro j hj
      rw [h0 j (mem_range.1 hj) d (mem_range.1 hd), mul_zero]
    · have hlt : m < numCoeff [0, 1] * m := by
        rw [show numCoeff [0, 1] = 3 by decide]; omega
      rw [f3, matMul_kronEye_right _ _ _ _ _ _ hlt]
      simp only [Nat.div_self hm, Nat.mod_self, one_mul]
      rw [sum_eq_single_of_mem 0 (mem_range.2 hm)]
      · rw [matMul_kronEye_left _ _ _ _ _ hlt]
        simp only [Nat.div_self hm, Nat.mod_self, one_mul]
        rw [sum_eq_single_of_mem 0 (mem_range.2 hm)]
        · have := f4 1 (by decide) 0 hm m
          rw [one_mul, add_zero] at this
          simp only [add_zero, this, eye, if_true, one_mul, mul_one]
          exact quarter_weights c2 fun j => (ft j 0).d m
        · intro d hd hd0
          simp [eye, Ne.symm hd0]
      · intro d hd hd0
        simp [eye, hd0]

theorem gStart_rest {m : ℕ} (hm : 0 < m) {u0 : EdfU0} (hu0 : u0 = .none ∨ u0 = .scalar 0) :
    (gStart dualNum u0 (dualStart m m eye (fun _ => 0)) 0).v = 0 ∧
      (gStart dualNum u0 (dualStart m m eye (fun _ => 0)) 0).d m = 0 := by
  rcases hu0 with rfl | rfl
  · refine ⟨by simp [gStart, dualStart, unlOf, matMul], ?_⟩
    simp [gStart, dualStart, seed]
    omega
  · exact ⟨rfl, rfl⟩

theorem not_joint_of_zero {out : (ℕ → ℝ) → AftOut} {L i : ℕ} (hi : i < L) (hd : (out fun _ => 0).dU i i ≠ 0) {r : ℝ}
    (hr : 0 < r) (h0 : ∀ U, (∀ j < L, |U j| < r) → (out U).F i = 0) : ¬ JointTrue (fun U _ => out U) L (fun _ => 0) := by
  intro h
  have h1 := h i hi
  refine not_hasGrad_of_const (i := i) (by omega) ?_ ?_ h1
  · rw [if_pos hi]
    have : sl 0 L (fun _ => 0) = fun _ => (0 : ℝ) := by funext j; simp [sl]
    rw [this]
    exact hd
  · filter_upwards [Metric.ball_mem_nhds (0 : Fin (L + 1) → ℝ) hr] with v hv
    refine h0 _ fun j hj => ?_
    rw [mem_ball_zero_iff] at hv
    have : sl 0 L (fun i => (0 : ℝ) + ext v i) j = v ⟨j, by omega⟩ := by
      have h2 : j < L + 1 := by omega
      simp [sl, hj, Spec.ext, h2]
    rw [this]
    exact lt_of_le_of_lt (norm_le_pi_norm v _) hv

end

end TMD
