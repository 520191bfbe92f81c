import Verif.Props.LinearSweep
import Verif.Props.DampingSign

/-!
# Energy estimate of a damped system with velocity dependent forces
-/

namespace TMD

open Spec Finset

noncomputable section

/-- Size of the oscillating part of a motion: the squares of its coefficients, weighted with the square of their harmonic. -/
def oscSize (nd n : ℕ) (h : List ℕ) (U : ℕ → ℝ) : ℝ :=
  ∑ k ∈ range n, ((k + 1 : ℕ) : ℝ) ^ 2 * ∑ d ∈ range nd,
    ((coefOf h (fun r => U (r * nd + d)) (k + 1)).1 ^ 2 + (coefOf h (fun r => U (r * nd + d)) (k + 1)).2 ^ 2)

theorem oscSize_nonneg (nd n : ℕ) (h : List ℕ) (U : ℕ → ℝ) : 0 ≤ oscSize nd n h U := by unfold oscSize; positivity

theorem coefOf_sq (h : List ℕ) (c : ℕ → ℝ) (m : ℕ) : (coefOf h c m).1 ^ 2 + (coefOf h c m).2 ^ 2 ≤ ∑ r ∈ range (numCoeff h), c r ^ 2 := by
  induction h generalizing c with
  | nil => simp [coefOf, numCoeff]
  | cons k hs ih =>
    by_cases hk : k = 0
    · simp only [coefOf, numCoeff, hk, if_true]
      rw [add_comm 1, sum_range_succ']
      split_ifs
      · have : 0 ≤ ∑ r ∈ range (numCoeff hs), c (r + 1) ^ 2 := by positivity
        simpa using this
      · have := ih fun i => c (i + 1)
        nlinarith [sq_nonneg (c 0)]
    · simp only [coefOf, numCoeff, hk, if_false]
      rw [add_comm 2, sum_range_succ', sum_range_succ']
      split_ifs
      · have : 0 ≤ ∑ r ∈ range (numCoeff hs), c (r + 1 + 1) ^ 2 := by positivity
        simp only [zero_add]
        linarith
      · have := ih fun i => c (i + 2)
        nlinarith [sq_nonneg (c 0), sq_nonneg (c (0 + 1))]

/-- Work of the force with the coefficients `X` along the motion `U`. -/
theorem work_coef {h : List ℕ} (hh : Admissible h) {n : ℕ} (hn : ∀ k ∈ h, k ≤ n) (nd : ℕ) (U X : ℕ → ℝ) {w : ℝ} (hw : w ≠ 0) :
    periodWork nd w (velocityOf nd h U w) (periodicOf nd h X w)
      = Real.pi * ∑ k ∈ range n, ((k + 1 : ℕ) : ℝ) * ∑ d ∈ range nd,
        ((coefOf h (fun r => U (r * nd + d)) (k + 1)).2 * (coefOf h (fun r => X (r * nd + d)) (k + 1)).1
          - (coefOf h (fun r => U (r * nd + d)) (k + 1)).1 * (coefOf h (fun r => X (r * nd + d)) (k + 1)).2) := by
  let a : ℕ → ℕ → ℝ := fun d k => (k + 1 : ℕ) * w * (coefOf h (fun r => U (r * nd + d)) (k + 1)).2
  let b : ℕ → ℕ → ℝ := fun d k => -((k + 1 : ℕ) * w * (coefOf h (fun r => U (r * nd + d)) (k + 1)).1)
  have hv : ∀ d t, velocityOf nd h U w d t = trig n 0 (a d) (b d) (w * t) :=
    fun d t => congrFun (velocityOf_trig hh.nodup hn nd U w d) t
  have eF : ∀ d t, periodicOf nd h X w d t = trig n (coefOf h (fun r => X (r * nd + d)) 0).1
      (fun k => (coefOf h (fun r => X (r * nd + d)) (k + 1)).1) (fun k => (coefOf h (fun r => X (r * nd + d)) (k + 1)).2)
      (w * t) := fun d t => congrFun (periodicOf_trig hh.nodup hn nd X w d) t
  have ct := fun m a b => continuous_trig n m a b
  unfold periodWork
  simp only [hv, eF]
  rw [int_period (fun x => ∑ d ∈ range nd, trig n 0 (a d) (b d) x * trig n (coefOf h (fun r => X (r * nd + d)) 0).1
      (fun k => (coefOf h (fun r => X (r * nd + d)) (k + 1)).1) (fun k => (coefOf h (fun r => X (r * nd + d)) (k + 1)).2) x) hw,
    intervalIntegral.integral_finsetSum (fun d _ => Continuous.intervalIntegrable (by fun_prop) _ _)]
  simp only [mul_comm (trig n 0 (a _) (b _) _), int_trig_mul]
  simp only [mul_sum, sum_comm (s := range n)]
  refine sum_congr rfl fun d _ => sum_congr rfl fun k _ => ?_
  simp only [a, b]
  field_simp
  ring

/-- The linear part does the work of its damping. -/
theorem work_linear {h : List ℕ} (hh : Admissible h) (nd : ℕ) (M C K : ℕ → ℕ → ℝ) (hM : ∀ d < nd, ∀ e < nd, M d e = M e d)
    (hK : ∀ d < nd, ∀ e < nd, K d e = K e d) (D : ℕ → ℝ) {w : ℝ} (hw : w ≠ 0) :
    periodWork nd w (velocityOf nd h D w) (onVelocity nd C (velocityOf nd h D w))
      = periodWork nd w (velocityOf nd h D w) (periodicOf nd h (matVec (numCoeff h * nd) (hsE nd M C K w h false) D) w) := by
  have P := fun d => periodic_facts hh.nodup nd D hw d
  have := energy_balance nd M C K hM hK (periodicOf nd h D w) (velocityOf nd h D w) (fun d => deriv (velocityOf nd h D w d)) (fun _ _ => 0)
    (periodicOf nd h (matVec (numCoeff h * nd) (hsE nd M C K w h false) D) w)
    (fun d => (P d).1) (fun d => (P d).2.1) (fun _ => continuous_const) (fun d => continuous_periodicOf _ _ _ _ d)
    (fun d => (P d).2.2.1) (fun d => (P d).2.2.2) (fun d hd t => by
      have h2 := stiffness_series hh.zero_first nd M C K w D false hd t
      simp only [Bool.false_eq_true, if_false] at h2
      rw [add_zero]
      exact h2.symm)
  simp only [add_zero] at this
  exact this

theorem definite_lower (nd : ℕ) (C : ℕ → ℕ → ℝ)
    (hC : ∀ v : ℕ → ℝ, (∃ d < nd, v d ≠ 0) → 0 < ∑ d ∈ range nd, ∑ e ∈ range nd, v d * C d e * v e) :
    ∃ c > 0, ∀ v : ℕ → ℝ, c * ∑ d ∈ range nd, v d ^ 2 ≤ ∑ d ∈ range nd, ∑ e ∈ range nd, v d * C d e * v e := by
  let q : (Fin nd → ℝ) → ℝ := fun v => ∑ d ∈ range nd, ∑ e ∈ range nd, Spec.ext v d * C d e * Spec.ext v e
  have hx : ∀ d, Continuous fun v : Fin nd → ℝ => Spec.ext v d := fun d => by
    simp only [Spec.ext]
    split_ifs <;> fun_prop
  have hq : Continuous q := continuous_finsetSum _ fun d _ => continuous_finsetSum _ fun e _ => ((hx d).mul continuous_const).mul (hx e)
  let s : (Fin nd → ℝ) → ℝ := fun v => ∑ d ∈ range nd, Spec.ext v d ^ 2
  have hs : Continuous s := continuous_finsetSum _ fun d _ => (hx d).pow 2
  have hK : IsCompact {v : Fin nd → ℝ | s v = 1} := by
    refine Metric.isCompact_of_isClosed_isBounded (isClosed_eq hs continuous_const) ((Metric.isBounded_iff_subset_closedBall 0).2 ⟨1, fun v hv => ?_⟩)
    rw [mem_closedBall_zero_iff, pi_norm_le_iff_of_nonneg zero_le_one]
    intro i
    have h1 : Spec.ext v i ^ 2 ≤ s v := single_le_sum (f := fun d => Spec.ext v d ^ 2) (fun d _ => sq_nonneg _) (mem_range.2 i.2)
    rw [show s v = 1 from hv] at h1
    have h2 : Spec.ext v i = v i := by simp [Spec.ext]
    rw [h2] at h1
    rw [Real.norm_eq_abs]
    exact abs_le_one_iff_mul_self_le_one.2 (by nlinarith)
  have hcongr : ∀ v : ℕ → ℝ, q (fun i => v i) = ∑ d ∈ range nd, ∑ e ∈ range nd, v d * C d e * v e := fun v =>
    sum_congr rfl fun d hd => sum_congr rfl fun e he => by simp [Spec.ext, mem_range.1 hd, mem_range.1 he]
  have scongr : ∀ v : ℕ → ℝ, s (fun i => v i) = ∑ d ∈ range nd, v d ^ 2 := fun v =>
    sum_congr rfl fun d hd => by simp [Spec.ext, mem_range.1 hd]
  have hpos : ∀ v ∈ {v : Fin nd → ℝ | s v = 1}, 0 < q v := fun v hv => by
    refine hC (Spec.ext v) ?_
    by_contra hc
    push Not at hc
    have : s v = 0 := sum_eq_zero fun d hd => by rw [hc d (mem_range.1 hd)]; ring
    rw [show s v = 1 from hv] at this
    exact one_ne_zero this
  obtain ⟨c, hc, hmin⟩ : ∃ c > 0, ∀ v, s v = 1 → c ≤ q v := by
    rcases Set.eq_empty_or_nonempty {v : Fin nd → ℝ | s v = 1} with he | hne
    · exact ⟨1, one_pos, fun v hv => absurd (show v ∈ {v : Fin nd → ℝ | s v = 1} from hv) (by rw [he]; exact Set.notMem_empty v)⟩
    · obtain ⟨v0, hv0, hm⟩ := hK.exists_isMinOn hne hq.continuousOn
      exact ⟨q v0, hpos v0 hv0, fun v hv => hm hv⟩
  refine ⟨c, hc, fun v => ?_⟩
  rcases (sum_nonneg fun d _ => sq_nonneg (v d) : 0 ≤ ∑ d ∈ range nd, v d ^ 2).eq_or_lt with h0 | h0
  · have hz : ∀ d ∈ range nd, v d = 0 := fun d hd => by
      have := (sum_eq_zero_iff_of_nonneg fun d _ => sq_nonneg (v d)).1 h0.symm d hd
      exact pow_eq_zero_iff two_ne_zero |>.1 this
    rw [← h0, mul_zero]
    exact (sum_eq_zero fun d hd => sum_eq_zero fun e _ => by rw [hz d hd]; ring).ge
  · set t := ∑ d ∈ range nd, v d ^ 2 with ht
    have h1 : s (fun i : Fin nd => (fun d => v d / Real.sqrt t) i) = 1 := by
      rw [scongr fun d => v d / Real.sqrt t]
      simp only [div_pow, Real.sq_sqrt h0.le]
      rw [← sum_div, ← ht, div_self h0.ne']
    have h2 := hmin _ h1
    rw [hcongr fun d => v d / Real.sqrt t] at h2
    have h3 : ∑ d ∈ range nd, ∑ e ∈ range nd, v d / Real.sqrt t * C d e * (v e / Real.sqrt t) = (∑ d ∈ range nd, ∑ e ∈ range nd, v d * C d e * v e) / t := by
      rw [sum_div]
      refine sum_congr rfl fun d _ => ?_
      rw [sum_div]
      refine sum_congr rfl fun e _ => ?_
      calc _ = v d * C d e * v e / (Real.sqrt t * Real.sqrt t) := by ring
        _ = _ := by rw [Real.mul_self_sqrt h0.le]
    rw [h3, le_div_iff₀ h0] at h2
    exact h2

theorem mass_lower {nd : ℕ} {C : ℕ → ℕ → ℝ} {c : ℝ}
    (hc : ∀ v : ℕ → ℝ, c * ∑ d ∈ range nd, v d ^ 2 ≤ ∑ d ∈ range nd, ∑ e ∈ range nd, v d * C d e * v e) (h : List ℕ) (U : ℕ → ℝ) (k : ℕ) :
    c * ∑ d ∈ range nd, ((coefOf h (fun r => U (r * nd + d)) k).1 ^ 2 + (coefOf h (fun r => U (r * nd + d)) k).2 ^ 2) ≤ harmonicMass nd C h U k := by
  have h1 := hc fun d => (coefOf h (fun r => U (r * nd + d)) k).1
  have h2 := hc fun d => (coefOf h (fun r => U (r * nd + d)) k).2
  rw [sum_add_distrib, mul_add]
  refine (add_le_add h1 h2).trans_eq ?_
  unfold harmonicMass
  simp only [← sum_add_distrib]
  exact sum_congr rfl fun d _ => sum_congr rfl fun e _ => by ring

/-- The energy estimate: the oscillating part of `D` is bounded by the force that does at least the work of the damping. -/
theorem osc_bound_exact {h : List ℕ} (hh : Admissible h) {n : ℕ} (hn : ∀ k ∈ h, k ≤ n) {nd : ℕ} {C : ℕ → ℕ → ℝ} {c : ℝ} (hc0 : 0 < c)
    (hc : ∀ v : ℕ → ℝ, c * ∑ d ∈ range nd, v d ^ 2 ≤ ∑ d ∈ range nd, ∑ e ∈ range nd, v d * C d e * v e) (D X : ℕ → ℝ) {w : ℝ} (hw : 0 < w)
    (H : periodWork nd w (velocityOf nd h D w) (onVelocity nd C (velocityOf nd h D w)) ≤ periodWork nd w (velocityOf nd h D w) (periodicOf nd h X w)) :
    (w * c) ^ 2 * oscSize nd n h D ≤ ∑ k ∈ range n, ∑ d ∈ range nd,
      ((coefOf h (fun r => X (r * nd + d)) (k + 1)).1 ^ 2 + (coefOf h (fun r => X (r * nd + d)) (k + 1)).2 ^ 2) := by
  rw [kinetic hh hn nd C D hw.ne', work_coef hh hn nd D X hw.ne', mul_assoc] at H
  have H := le_of_mul_le_mul_left H Real.pi_pos
  set a : ℕ → ℕ → ℝ := fun d k => (coefOf h (fun r => D (r * nd + d)) (k + 1)).1 with ha
  set b : ℕ → ℕ → ℝ := fun d k => (coefOf h (fun r => D (r * nd + d)) (k + 1)).2 with hb
  set x : ℕ → ℕ → ℝ := fun d k => (coefOf h (fun r => X (r * nd + d)) (k + 1)).1 with hx
  set y : ℕ → ℕ → ℝ := fun d k => (coefOf h (fun r => X (r * nd + d)) (k + 1)).2 with hy
  have h1 : w * c * oscSize nd n h D ≤ w * ∑ k ∈ range n, ((k + 1 : ℕ) : ℝ) ^ 2 * harmonicMass nd C h D (k + 1) := by
    rw [mul_assoc]
    refine mul_le_mul_of_nonneg_left ?_ hw.le
    unfold oscSize
    rw [mul_sum]
    refine sum_le_sum fun k _ => ?_
    rw [mul_left_comm]
    exact mul_le_mul_of_nonneg_left (mass_lower hc h D (k + 1)) (by positivity)
  have h2 : w * c * ∑ k ∈ range n, ((k + 1 : ℕ) : ℝ) * ∑ d ∈ range nd, (b d k * x d k - a d k * y d k)
      ≤ (w * c) ^ 2 / 2 * oscSize nd n h D + 1 / 2 * ∑ k ∈ range n, ∑ d ∈ range nd, (x d k ^ 2 + y d k ^ 2) := by
    unfold oscSize
    rw [mul_sum, mul_sum, mul_sum, ← sum_add_distrib]
    refine sum_le_sum fun k _ => ?_
    rw [mul_sum, mul_sum, mul_sum, mul_sum, mul_sum, ← sum_add_distrib]
    refine sum_le_sum fun d _ => ?_
    have e1 := sq_nonneg (w * c * ((k + 1 : ℕ) : ℝ) * b d k - x d k)
    have e2 := sq_nonneg (w * c * ((k + 1 : ℕ) : ℝ) * a d k + y d k)
    simp only [ha, hb, hx, hy] at e1 e2 ⊢
    nlinarith
  have h4 := mul_le_mul_of_nonneg_left (h1.trans H) (mul_pos hw hc0).le
  simp only [ha, hb, hx, hy] at h2 h4
  nlinarith

/-- The same with the size of all coefficients of the force. -/
theorem osc_bound {h : List ℕ} (hh : Admissible h) {n : ℕ} (hn : ∀ k ∈ h, k ≤ n) {nd : ℕ} {C : ℕ → ℕ → ℝ} {c : ℝ} (hc0 : 0 < c)
    (hc : ∀ v : ℕ → ℝ, c * ∑ d ∈ range nd, v d ^ 2 ≤ ∑ d ∈ range nd, ∑ e ∈ range nd, v d * C d e * v e) (D X : ℕ → ℝ) {w : ℝ} (hw : 0 < w)
    (H : periodWork nd w (velocityOf nd h D w) (onVelocity nd C (velocityOf nd h D w)) ≤ periodWork nd w (velocityOf nd h D w) (periodicOf nd h X w)) :
    (w * c) ^ 2 * oscSize nd n h D ≤ n * ∑ d ∈ range nd, ∑ r ∈ range (numCoeff h), X (r * nd + d) ^ 2 := by
  refine (osc_bound_exact hh hn hc0 hc D X hw H).trans ?_
  have : ∀ k ∈ range n, ∑ d ∈ range nd, ((coefOf h (fun r => X (r * nd + d)) (k + 1)).1 ^ 2 + (coefOf h (fun r => X (r * nd + d)) (k + 1)).2 ^ 2)
      ≤ ∑ d ∈ range nd, ∑ r ∈ range (numCoeff h), X (r * nd + d) ^ 2 := fun k _ => sum_le_sum fun d _ => coefOf_sq h _ _
  have := sum_le_card_nsmul _ _ _ this
  rwa [card_range, nsmul_eq_mul] at this

end

end TMD
