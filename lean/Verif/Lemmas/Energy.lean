import Verif.Lemmas.System
import Mathlib.Analysis.SpecialFunctions.Integrals.Basic

/-! Lemmas on energy over one period: orthogonality of a series and its derivative, balance for symmetric matrices. -/

namespace TMD

open Spec Finset

noncomputable section

theorem integral_cos_int (m : ℤ) : ∫ x in (0:ℝ)..2 * Real.pi, Real.cos (m * x) = if m = 0 then 2 * Real.pi else 0 := by
  by_cases hm : m = 0
  · simp [hm]
  · have h : (m : ℝ) ≠ 0 := by exact_mod_cast hm
    rw [intervalIntegral.integral_comp_mul_left (fun x => Real.cos x) h, integral_cos, if_neg hm]
    have : Real.sin (m * (2 * Real.pi)) = 0 := by
      have := Real.sin_int_mul_pi (2 * m)
      rw [← this]; congr 1; push_cast; ring
    simp [this]

theorem integral_sin_int (m : ℤ) : ∫ x in (0:ℝ)..2 * Real.pi, Real.sin (m * x) = 0 := by
  by_cases hm : m = 0
  · simp [hm]
  · have h : (m : ℝ) ≠ 0 := by exact_mod_cast hm
    rw [intervalIntegral.integral_comp_mul_left (fun x => Real.sin x) h, integral_sin]
    simp [Real.cos_int_mul_two_pi]

theorem int_cc (j k : ℕ) : ∫ x in (0:ℝ)..2 * Real.pi, Real.cos ((j + 1 : ℕ) * x) * Real.cos ((k + 1 : ℕ) * x)
    = if j = k then Real.pi else 0 := by
  have e : ∀ x : ℝ, Real.cos ((j + 1 : ℕ) * x) * Real.cos ((k + 1 : ℕ) * x)
      = (1/2) * (Real.cos (((j : ℤ) - k : ℤ) * x) + Real.cos (((j : ℤ) + k + 2 : ℤ) * x)) := by
    intro x
    rw [show (((j : ℤ) - k : ℤ) : ℝ) * x = (j + 1 : ℕ) * x - (k + 1 : ℕ) * x by push_cast; ring,
      show (((j : ℤ) + k + 2 : ℤ) : ℝ) * x = (j + 1 : ℕ) * x + (k + 1 : ℕ) * x by push_cast; ring,
      Real.cos_sub, Real.cos_add]
    ring
  simp only [e]
  rw [intervalIntegral.integral_const_mul, intervalIntegral.integral_add (Continuous.intervalIntegrable (by fun_prop) _ _)
    (Continuous.intervalIntegrable (by fun_prop) _ _), integral_cos_int, integral_cos_int,
    if_neg (show ¬ ((j : ℤ) + k + 2 = 0) by omega)]
  by_cases h : j = k
  · simp [h]
  · rw [if_neg (show ¬ ((j : ℤ) - k = 0) by omega), if_neg h]; ring

theorem int_ss (j k : ℕ) : ∫ x in (0:ℝ)..2 * Real.pi, Real.sin ((j + 1 : ℕ) * x) * Real.sin ((k + 1 : ℕ) * x)
    = if j = k then Real.pi else 0 := by
  have e : ∀ x : ℝ, Real.sin ((j + 1 : ℕ) * x) * Real.sin ((k + 1 : ℕ) * x)
      = (1/2) * (Real.cos (((j : ℤ) - k : ℤ) * x) - Real.cos (((j : ℤ) + k + 2 : ℤ) * x)) := by
    intro x
    rw [show (((j : ℤ) - k : ℤ) : ℝ) * x = (j + 1 : ℕ) * x - (k + 1 : ℕ) * x by push_cast; ring,
      show (((j : ℤ) + k + 2 : ℤ) : ℝ) * x = (j + 1 : ℕ) * x + (k + 1 : ℕ) * x by push_cast; ring,
      Real.cos_sub, Real.cos_add]
    ring
  simp only [e]
  rw [intervalIntegral.integral_const_mul, intervalIntegral.integral_sub (Continuous.intervalIntegrable (by fun_prop) _ _)
    (Continuous.intervalIntegrable (by fun_prop) _ _), integral_cos_int, integral_cos_int,
    if_neg (show ¬ ((j : ℤ) + k + 2 = 0) by omega)]
  by_cases h : j = k
  · simp [h]
  · rw [if_neg (show ¬ ((j : ℤ) - k = 0) by omega), if_neg h]; ring

theorem int_sc (j k : ℕ) : ∫ x in (0:ℝ)..2 * Real.pi, Real.sin ((j + 1 : ℕ) * x) * Real.cos ((k + 1 : ℕ) * x) = 0 := by
  have e : ∀ x : ℝ, Real.sin ((j + 1 : ℕ) * x) * Real.cos ((k + 1 : ℕ) * x)
      = (1/2) * (Real.sin (((j : ℤ) - k : ℤ) * x) + Real.sin (((j : ℤ) + k + 2 : ℤ) * x)) := by
    intro x
    rw [show (((j : ℤ) - k : ℤ) : ℝ) * x = (j + 1 : ℕ) * x - (k + 1 : ℕ) * x by push_cast; ring,
      show (((j : ℤ) + k + 2 : ℤ) : ℝ) * x = (j + 1 : ℕ) * x + (k + 1 : ℕ) * x by push_cast; ring,
      Real.sin_sub, Real.sin_add]
    ring
  simp only [e]
  rw [intervalIntegral.integral_const_mul, intervalIntegral.integral_add (Continuous.intervalIntegrable (by fun_prop) _ _)
    (Continuous.intervalIntegrable (by fun_prop) _ _), integral_sin_int, integral_sin_int]
  ring

/-- Trigonometric polynomial. -/
def trig (n : ℕ) (m : ℝ) (a b : ℕ → ℝ) (x : ℝ) : ℝ :=
  m + ∑ k ∈ range n, (a k * Real.cos ((k + 1 : ℕ) * x) + b k * Real.sin ((k + 1 : ℕ) * x))

theorem continuous_trig (n : ℕ) (m : ℝ) (a b : ℕ → ℝ) : Continuous (trig n m a b) := by
  unfold trig; fun_prop

theorem int_trig_cos (n : ℕ) (m : ℝ) (a b : ℕ → ℝ) {k : ℕ} (hk : k < n) :
    ∫ x in (0:ℝ)..2 * Real.pi, trig n m a b x * Real.cos ((k + 1 : ℕ) * x) = Real.pi * a k := by
  have e : ∀ x : ℝ, trig n m a b x * Real.cos ((k + 1 : ℕ) * x) = m * Real.cos (((k + 1 : ℕ) : ℤ) * x)
      + ∑ j ∈ range n, (a j * (Real.cos ((j + 1 : ℕ) * x) * Real.cos ((k + 1 : ℕ) * x))
        + b j * (Real.sin ((j + 1 : ℕ) * x) * Real.cos ((k + 1 : ℕ) * x))) := by
    intro x
    rw [trig, add_mul, sum_mul, Int.cast_natCast]
    congr 1
    exact sum_congr rfl fun j _ => by ring
  simp only [e]
  rw [intervalIntegral.integral_add (Continuous.intervalIntegrable (by fun_prop) _ _)
    (Continuous.intervalIntegrable (by fun_prop) _ _), intervalIntegral.integral_const_mul, integral_cos_int,
    intervalIntegral.integral_finsetSum (fun j _ => Continuous.intervalIntegrable (by fun_prop) _ _)]
  have e2 : ∀ j ∈ range n, (∫ x in (0:ℝ)..2 * Real.pi, (a j * (Real.cos ((j + 1 : ℕ) * x) * Real.cos ((k + 1 : ℕ) * x))
        + b j * (Real.sin ((j + 1 : ℕ) * x) * Real.cos ((k + 1 : ℕ) * x)))) = if j = k then Real.pi * a k else 0 := by
    intro j _
    rw [intervalIntegral.integral_add (Continuous.intervalIntegrable (by fun_prop) _ _)
      (Continuous.intervalIntegrable (by fun_prop) _ _), intervalIntegral.integral_const_mul,
      intervalIntegral.integral_const_mul, int_cc, int_sc]
    by_cases h : j = k
    · simp [h, mul_comm]
    · simp [h]
  rw [sum_congr rfl e2, sum_ite_eq' (range n) k, if_pos (mem_range.2 hk), if_neg (by positivity)]
  ring

theorem int_trig_sin (n : ℕ) (m : ℝ) (a b : ℕ → ℝ) {k : ℕ} (hk : k < n) :
    ∫ x in (0:ℝ)..2 * Real.pi, trig n m a b x * Real.sin ((k + 1 : ℕ) * x) = Real.pi * b k := by
  have e : ∀ x : ℝ, trig n m a b x * Real.sin ((k + 1 : ℕ) * x) = m * Real.sin (((k + 1 : ℕ) : ℤ) * x)
      + ∑ j ∈ range n, (a j * (Real.sin ((k + 1 : ℕ) * x) * Real.cos ((j + 1 : ℕ) * x))
        + b j * (Real.sin ((j + 1 : ℕ) * x) * Real.sin ((k + 1 : ℕ) * x))) := by
    intro x
    rw [trig, add_mul, sum_mul, Int.cast_natCast]
    congr 1
    exact sum_congr rfl fun j _ => by ring
  simp only [e]
  rw [intervalIntegral.integral_add (Continuous.intervalIntegrable (by fun_prop) _ _)
    (Continuous.intervalIntegrable (by fun_prop) _ _), intervalIntegral.integral_const_mul, integral_sin_int,
    intervalIntegral.integral_finsetSum (fun j _ => Continuous.intervalIntegrable (by fun_prop) _ _)]
  have e2 : ∀ j ∈ range n, (∫ x in (0:ℝ)..2 * Real.pi, (a j * (Real.sin ((k + 1 : ℕ) * x) * Real.cos ((j + 1 : ℕ) * x))
        + b j * (Real.sin ((j + 1 : ℕ) * x) * Real.sin ((k + 1 : ℕ) * x)))) = if j = k then Real.pi * b k else 0 := by
    intro j _
    rw [intervalIntegral.integral_add (Continuous.intervalIntegrable (by fun_prop) _ _)
      (Continuous.intervalIntegrable (by fun_prop) _ _), intervalIntegral.integral_const_mul,
      intervalIntegral.integral_const_mul, int_ss, int_sc]
    by_cases h : j = k
    · simp [h, mul_comm]
    · simp [h]
  rw [sum_congr rfl e2, sum_ite_eq' (range n) k, if_pos (mem_range.2 hk)]
  ring

theorem int_trig_mul (n : ℕ) (m : ℝ) (a b a' b' : ℕ → ℝ) :
    ∫ x in (0:ℝ)..2 * Real.pi, trig n m a b x * trig n 0 a' b' x = Real.pi * ∑ k ∈ range n, (a k * a' k + b k * b' k) := by
  have e : ∀ x : ℝ, trig n m a b x * trig n 0 a' b' x = ∑ k ∈ range n, (a' k * (trig n m a b x * Real.cos ((k + 1 : ℕ) * x))
      + b' k * (trig n m a b x * Real.sin ((k + 1 : ℕ) * x))) := by
    intro x
    conv_lhs => rw [trig.eq_1 n 0]
    rw [zero_add, mul_sum]
    exact sum_congr rfl fun j _ => by ring
  have hc := continuous_trig n m a b
  simp only [e]
  rw [intervalIntegral.integral_finsetSum (fun j _ => Continuous.intervalIntegrable (by fun_prop) _ _), mul_sum]
  refine sum_congr rfl fun k hk => ?_
  rw [intervalIntegral.integral_add (Continuous.intervalIntegrable (by fun_prop) _ _)
    (Continuous.intervalIntegrable (by fun_prop) _ _), intervalIntegral.integral_const_mul,
    intervalIntegral.integral_const_mul, int_trig_cos n m a b (mem_range.1 hk), int_trig_sin n m a b (mem_range.1 hk)]
  ring

/-- One period in time. -/
theorem int_period (f : ℝ → ℝ) {w : ℝ} (hw : w ≠ 0) :
    ∫ t in (0:ℝ)..2 * Real.pi / w, f (w * t) = w⁻¹ * ∫ x in (0:ℝ)..2 * Real.pi, f x := by
  rw [intervalIntegral.integral_comp_mul_left f hw, mul_zero, mul_div_cancel₀ _ hw, smul_eq_mul]

/-- Energy balance of a periodic motion with symmetric mass and stiffness. -/
theorem energy_balance (nd : ℕ) (M C K : ℕ → ℕ → ℝ) (hM : ∀ d < nd, ∀ e < nd, M d e = M e d)
    (hK : ∀ d < nd, ∀ e < nd, K d e = K e d) (x v a f p : ℕ → ℝ → ℝ) {T : ℝ}
    (hx : ∀ e t, HasDerivAt (x e) (v e t) t) (hv : ∀ e t, HasDerivAt (v e) (a e t) t)
    (hf : ∀ d, Continuous (f d)) (hp : ∀ d, Continuous (p d))
    (hxT : ∀ e, x e T = x e 0) (hvT : ∀ e, v e T = v e 0)
    (eq : ∀ d < nd, ∀ t, ∑ e ∈ range nd, (M d e * a e t + C d e * v e t + K d e * x e t) + f d t = p d t) :
    ∫ t in (0:ℝ)..T, ∑ d ∈ range nd, v d t * (∑ e ∈ range nd, C d e * v e t + f d t)
      = ∫ t in (0:ℝ)..T, ∑ d ∈ range nd, v d t * p d t := by
  have cv : ∀ e, Continuous (v e) := fun e => continuous_iff_continuousAt.2 fun t => (hv e t).continuousAt
  let E : ℝ → ℝ := fun t => ∑ d ∈ range nd, ∑ e ∈ range nd, (M d e * (v d t * v e t) + K d e * (x d t * x e t))
  let G : ℝ → ℝ := fun t => ∑ d ∈ range nd, v d t * p d t
    - ∑ d ∈ range nd, v d t * (∑ e ∈ range nd, C d e * v e t + f d t)
  have hE : ∀ t, HasDerivAt E (2 * G t) t := by
    intro t
    have h1 : HasDerivAt E (∑ d ∈ range nd, ∑ e ∈ range nd, (M d e * (a d t * v e t + v d t * a e t)
        + K d e * (v d t * x e t + x d t * v e t))) t :=
      HasDerivAt.fun_sum fun d _ => HasDerivAt.fun_sum fun e _ =>
        (((hv d t).mul (hv e t)).const_mul _).add (((hx d t).mul (hx e t)).const_mul _)
    refine h1.congr_deriv ?_
    have h2 : ∑ d ∈ range nd, ∑ e ∈ range nd, (M d e * (a d t * v e t) + K d e * (x d t * v e t))
        = ∑ d ∈ range nd, ∑ e ∈ range nd, (M d e * (v d t * a e t) + K d e * (v d t * x e t)) := by
      rw [sum_comm]
      refine sum_congr rfl fun d hd => sum_congr rfl fun e he => ?_
      rw [hM e (mem_range.1 he) d (mem_range.1 hd), hK e (mem_range.1 he) d (mem_range.1 hd)]
      ring
    have h3 : ∑ d ∈ range nd, ∑ e ∈ range nd, (M d e * (v d t * a e t) + K d e * (v d t * x e t)) = G t := by
      simp only [G]
      rw [← sum_sub_distrib]
      refine sum_congr rfl fun d hd => ?_
      rw [← eq d (mem_range.1 hd) t]
      simp only [sum_add_distrib, mul_add, mul_sum]
      have e1 : ∀ (A y : ℕ → ℝ), ∑ e ∈ range nd, A e * (v d t * y e) = ∑ e ∈ range nd, v d t * (A e * y e) :=
        fun A y => sum_congr rfl fun e _ => by ring
      rw [e1 (M d) (fun e => a e t), e1 (K d) (fun e => x e t)]
      ring
    have h4 : ∑ d ∈ range nd, ∑ e ∈ range nd, (M d e * (a d t * v e t + v d t * a e t)
        + K d e * (v d t * x e t + x d t * v e t))
        = ∑ d ∈ range nd, ∑ e ∈ range nd, (M d e * (a d t * v e t) + K d e * (x d t * v e t))
          + ∑ d ∈ range nd, ∑ e ∈ range nd, (M d e * (v d t * a e t) + K d e * (v d t * x e t)) := by
      rw [← sum_add_distrib]
      refine sum_congr rfl fun d _ => ?_
      rw [← sum_add_distrib]
      exact sum_congr rfl fun e _ => by ring
    rw [h4, h2, h3]; ring
  have cG : Continuous G := by fun_prop
  have h5 := intervalIntegral.integral_eq_sub_of_hasDerivAt (a := 0) (b := T) (fun t _ => hE t)
    (Continuous.intervalIntegrable (by fun_prop) _ _)
  have h6 : E T - E 0 = 0 := by simp only [E, hxT, hvT, sub_self]
  rw [h6, intervalIntegral.integral_const_mul] at h5
  have h7 : ∫ t in (0:ℝ)..T, G t = 0 := by linarith
  have h8 : ∫ t in (0:ℝ)..T, G t = (∫ t in (0:ℝ)..T, ∑ d ∈ range nd, v d t * p d t)
      - ∫ t in (0:ℝ)..T, ∑ d ∈ range nd, v d t * (∑ e ∈ range nd, C d e * v e t + f d t) :=
    intervalIntegral.integral_sub (Continuous.intervalIntegrable (by fun_prop) _ _)
      (Continuous.intervalIntegrable (by fun_prop) _ _)
  linarith

theorem trig_deriv (n : ℕ) (m : ℝ) (a b : ℕ → ℝ) (w t : ℝ) : HasDerivAt (fun t => trig n m a b (w * t))
    (trig n 0 (fun k => (k + 1 : ℕ) * w * b k) (fun k => -((k + 1 : ℕ) * w * a k)) (w * t)) t := by
  unfold trig
  rw [zero_add]
  refine HasDerivAt.const_add _ (HasDerivAt.fun_sum fun k _ => ?_)
  have hl : HasDerivAt (fun t => ((k + 1 : ℕ) : ℝ) * (w * t)) (((k + 1 : ℕ) : ℝ) * w) t := by
    simpa using ((hasDerivAt_id t).const_mul w).const_mul ((k + 1 : ℕ) : ℝ)
  exact ((hl.cos.const_mul (a k)).add (hl.sin.const_mul (b k))).congr_deriv (by ring)

theorem trig_two_pi (n : ℕ) (m : ℝ) (a b : ℕ → ℝ) : trig n m a b (2 * Real.pi) = trig n m a b 0 := by
  unfold trig
  congr 1
  refine sum_congr rfl fun k _ => ?_
  have e1 : Real.cos (((k + 1 : ℕ) : ℝ) * (2 * Real.pi)) = 1 := Real.cos_nat_mul_two_pi (k + 1)
  have e2 : Real.sin (((k + 1 : ℕ) : ℝ) * (2 * Real.pi)) = 0 := by
    have := Real.sin_nat_mul_pi (2 * (k + 1))
    rw [← this]; congr 1; push_cast; ring
  simp only [e1, e2, mul_zero, Real.cos_zero, Real.sin_zero]

theorem series_trig {h : List ℕ} (hn : h.Nodup) {n : ℕ} (hle : ∀ k ∈ h, k ≤ n) (c : ℕ → ℝ) :
    series h c = trig n (coefOf h c 0).1 (fun k => (coefOf h c (k + 1)).1) (fun k => (coefOf h c (k + 1)).2) :=
  funext fun x => series_eq_coefOf hn c x hle

theorem exists_bound (h : List ℕ) : ∃ n, ∀ k ∈ h, k ≤ n := by
  induction h with
  | nil => exact ⟨0, by simp⟩
  | cons k h ih =>
    obtain ⟨n, hn⟩ := ih
    refine ⟨max k n, fun j hj => ?_⟩
    rcases List.mem_cons.1 hj with rfl | hj
    · exact le_max_left _ _
    · exact (hn j hj).trans (le_max_right _ _)

end

end TMD
