import Mathlib.Analysis.Calculus.MeanValue
import Mathlib.Analysis.Normed.Module.FiniteDimension
import Mathlib.Analysis.Normed.Module.Ball.Pointwise
import Mathlib.Analysis.Calculus.InverseFunctionTheorem.ApproximatesLinearOn

/-!
# Newton's method near a regular point

A Newton step brings every point near a regular point closer to every solution nearby, with the same
constants for all right-hand sides.
-/

namespace TMD

variable {E : Type*} [NormedAddCommGroup E] [NormedSpace ℝ E] [FiniteDimensional ℝ E]

/-- An injective linear map in finite dimension stretches every vector by at least some factor. -/
theorem linear_below (L : E →L[ℝ] E) (hL : Function.Injective L) : ∃ c > 0, ∀ v, c * ‖v‖ ≤ ‖L v‖ := by
  obtain ⟨K, hK, h⟩ := (L : E →ₗ[ℝ] E).exists_antilipschitzWith (LinearMap.ker_eq_bot.2 hL)
  refine ⟨(K : ℝ)⁻¹, by positivity, fun v => ?_⟩
  have := h.le_mul_dist v 0
  simp only [dist_zero_right, map_zero] at this
  rw [inv_mul_le_iff₀ (by positivity)]
  simpa using this

/-- Near a regular point the derivative is injective and a Newton step for any right-hand side `F y` with `y` nearby reduces the
distance to `y` by any wanted factor. -/
theorem newton_contract (F : E → E) (F' : E → E →L[ℝ] E) (x0 : E) {q : ℝ} (hq : 0 < q)
    (hF : ∀ᶠ x in nhds x0, HasFDerivAt F (F' x) x)
    (hc : ContinuousAt F' x0) (hi : Function.Injective (F' x0)) :
    ∃ δ > 0, ∀ x ∈ Metric.ball x0 δ, (∀ v, F' x v = 0 → v = 0) ∧ ∀ y ∈ Metric.ball x0 δ, ∀ s, F' x s = F x - F y →
      ‖x - s - y‖ ≤ q * ‖x - y‖ := by
  obtain ⟨c, hc0, hb⟩ := linear_below (F' x0) hi
  set ε : ℝ := min (c / 2) (q * c / 4) with hε
  have hε0 : 0 < ε := by rw [hε]; positivity
  have h1 : ∀ᶠ x in nhds x0, ‖F' x - F' x0‖ < ε := by
    have := Metric.continuousAt_iff'.1 hc ε hε0
    simpa only [dist_eq_norm] using this
  obtain ⟨δ, hδ, hball⟩ := Metric.eventually_nhds_iff_ball.1 (hF.and h1)
  have hlow : ∀ x ∈ Metric.ball x0 δ, ∀ v, c / 2 * ‖v‖ ≤ ‖F' x v‖ := by
    intro x hx v
    have a1 := (F' x - F' x0).le_opNorm v
    have a2 : ‖(F' x - F' x0) v‖ ≤ c / 2 * ‖v‖ :=
      a1.trans (mul_le_mul_of_nonneg_right ((hball x hx).2.le.trans (min_le_left _ _)) (norm_nonneg _))
    have a3 := hb v
    have a4 : F' x0 v = F' x v - (F' x - F' x0) v := by simp
    have a5 := norm_sub_le (F' x v) ((F' x - F' x0) v)
    rw [← a4] at a5
    linarith
  refine ⟨δ, hδ, fun x hx => ⟨fun v hv => ?_, fun y hy s hs => ?_⟩⟩
  · have := hlow x hx v
    rw [hv, norm_zero] at this
    have h2 : ‖v‖ ≤ 0 := by
      by_contra h3
      push Not at h3
      nlinarith
    exact norm_le_zero_iff.1 h2
  · have hm := (convex_ball x0 δ).norm_image_sub_le_of_norm_hasFDerivWithin_le' (f := F) (f' := F') (φ := F' x) (C := 2 * ε)
      (fun z hz => (hball z hz).1.hasFDerivWithinAt) (fun z hz => ?_) hy hx
    · have b1 : F' x (x - s - y) = -(F x - F y - F' x (x - y)) := by
        rw [show x - s - y = (x - y) - s by abel, map_sub, hs]
        abel
      have b2 := hlow x hx (x - s - y)
      rw [b1, norm_neg] at b2
      have b3 : 2 * ε ≤ q * c / 2 := by linarith [min_le_right (c / 2) (q * c / 4)]
      have b4 : c / 2 * ‖x - s - y‖ ≤ q * c / 2 * ‖x - y‖ :=
        b2.trans (hm.trans (mul_le_mul_of_nonneg_right b3 (norm_nonneg _)))
      have b5 : c / 2 * ‖x - s - y‖ ≤ c / 2 * (q * ‖x - y‖) := by linarith
      exact le_of_mul_le_mul_left b5 (by positivity)
    · have a1 := (hball z hz).2
      have a2 := (hball x hx).2
      have a3 := norm_sub_le (F' z - F' x0) (F' x - F' x0)
      rw [sub_sub_sub_cancel_right] at a3
      linarith

/-- With a Lipschitz derivative the error of a Newton step is quadratic. -/
theorem newton_quadratic (F : E → E) (F' : E → E →L[ℝ] E) (x0 : E) {K r : ℝ} (hr : 0 < r)
    (hF : ∀ x ∈ Metric.ball x0 r, HasFDerivAt F (F' x) x)
    (hK : ∀ x ∈ Metric.ball x0 r, ∀ y ∈ Metric.ball x0 r, ‖F' x - F' y‖ ≤ K * ‖x - y‖) (hi : Function.Injective (F' x0)) :
    ∃ δ > 0, ∃ C > 0, ∀ x ∈ Metric.ball x0 δ, (∀ v, F' x v = 0 → v = 0) ∧ ∀ y ∈ Metric.ball x0 δ, ∀ s, F' x s = F x - F y →
      ‖x - s - y‖ ≤ C * ‖x - y‖ ^ 2 := by
  obtain ⟨c, hc0, hb⟩ := linear_below (F' x0) hi
  set K' : ℝ := max K 1 with hK'
  have hK0 : 0 < K' := by rw [hK']; positivity
  set δ : ℝ := min r (c / (2 * K')) with hδ
  have hδ0 : 0 < δ := by rw [hδ]; positivity
  have hsub : ∀ x ∈ Metric.ball x0 δ, x ∈ Metric.ball x0 r := fun x hx => Metric.ball_subset_ball (min_le_left _ _) hx
  have hKK : ∀ x ∈ Metric.ball x0 r, ∀ y ∈ Metric.ball x0 r, ‖F' x - F' y‖ ≤ K' * ‖x - y‖ := fun x hx y hy =>
    (hK x hx y hy).trans (mul_le_mul_of_nonneg_right (le_max_left _ _) (norm_nonneg _))
  have hlow : ∀ x ∈ Metric.ball x0 δ, ∀ v, c / 2 * ‖v‖ ≤ ‖F' x v‖ := by
    intro x hx v
    have a1 := (F' x - F' x0).le_opNorm v
    have a0 : ‖F' x - F' x0‖ ≤ c / 2 := by
      refine (hKK x (hsub x hx) x0 (Metric.mem_ball_self hr)).trans ?_
      have b1 : ‖x - x0‖ ≤ c / (2 * K') := (mem_ball_iff_norm.1 hx).le.trans (min_le_right _ _)
      calc K' * ‖x - x0‖ ≤ K' * (c / (2 * K')) := mul_le_mul_of_nonneg_left b1 hK0.le
        _ = c / 2 := by field_simp
    have a2 : ‖(F' x - F' x0) v‖ ≤ c / 2 * ‖v‖ := a1.trans (mul_le_mul_of_nonneg_right a0 (norm_nonneg _))
    have a3 := hb v
    have a4 : F' x0 v = F' x v - (F' x - F' x0) v := by simp
    have a5 := norm_sub_le (F' x v) ((F' x - F' x0) v)
    rw [← a4] at a5
    linarith
  refine ⟨δ, hδ0, 2 * K' / c, by positivity, fun x hx => ⟨fun v hv => ?_, fun y hy s hs => ?_⟩⟩
  · have := hlow x hx v
    rw [hv, norm_zero] at this
    have h2 : ‖v‖ ≤ 0 := by
      by_contra h3
      push Not at h3
      nlinarith
    exact norm_le_zero_iff.1 h2
  · have hseg : segment ℝ y x ⊆ Metric.ball x0 δ := (convex_ball x0 δ).segment_subset hy hx
    have hm := (convex_segment y x).norm_image_sub_le_of_norm_hasFDerivWithin_le' (f := F) (f' := F') (φ := F' x)
      (C := K' * ‖x - y‖) (fun z hz => (hF z (hsub z (hseg hz))).hasFDerivWithinAt) (fun z hz => ?_)
      (left_mem_segment ℝ y x) (right_mem_segment ℝ y x)
    · have b1 : F' x (x - s - y) = -(F x - F y - F' x (x - y)) := by
        rw [show x - s - y = (x - y) - s by abel, map_sub, hs]
        abel
      have b2 := hlow x hx (x - s - y)
      rw [b1, norm_neg] at b2
      have b4 := b2.trans hm
      rw [div_mul_eq_mul_div, le_div_iff₀ hc0]
      nlinarith [b4]
    · refine (hKK z (hsub z (hseg hz)) x (hsub x hx)).trans (mul_le_mul_of_nonneg_left ?_ hK0.le)
      obtain ⟨a, b, ha, hb, hab, rfl⟩ := hz
      have : a • y + b • x - x = a • (y - x) := by
        rw [smul_sub, show b = 1 - a by linarith, sub_smul, one_smul]
        abel
      rw [this, norm_smul, Real.norm_eq_abs, abs_of_nonneg ha, norm_sub_rev]
      nlinarith [norm_nonneg (x - y)]

/-- Existence of a solution and convergence of Newton's method from one estimate: the derivative is close to a regular map on a ball
and the residual at its centre is small. The constant depends on the map only. -/
theorem newton_kantorovich (L : E →L[ℝ] E) (hL : Function.Injective L) : ∃ ε > 0, ∀ (F : E → E) (F' : E → E →L[ℝ] E) (z0 : E) (δ : ℝ),
    0 < δ → (∀ z ∈ Metric.closedBall z0 δ, HasFDerivAt F (F' z) z) → (∀ z ∈ Metric.closedBall z0 δ, ‖F' z - L‖ ≤ ε) → ‖F z0‖ ≤ ε * δ →
      ∃ y, ‖y - z0‖ ≤ δ / 4 ∧ F y = 0 ∧ ∀ z, ‖z - z0‖ ≤ δ → (∀ v, F' z v = 0 → v = 0) ∧
        ∀ s, F' z s = F z → ‖z - s - y‖ ≤ 1 / 2 * ‖z - y‖ := by
  obtain ⟨c, hc0, hb⟩ := linear_below L hL
  let e : E ≃L[ℝ] E := (LinearEquiv.ofInjectiveEndo (L : E →ₗ[ℝ] E) hL).toContinuousLinearEquiv
  have he : ∀ v, e v = L v := fun v => rfl
  let R : L.NonlinearRightInverse :=
    { toFun := e.symm
      nnnorm := max ‖(e.symm : E →L[ℝ] E)‖₊ 1
      bound' := fun v => ((e.symm : E →L[ℝ] E).le_opNorm v).trans
        (mul_le_mul_of_nonneg_right (by simp) (norm_nonneg _))
      right_inv' := fun v => by rw [← he]; exact e.apply_symm_apply v }
  have hR0 : (0 : ℝ) < (R.nnnorm : ℝ)⁻¹ := by
    have : (1 : ℝ) ≤ R.nnnorm := by show (1 : ℝ) ≤ ((max ‖(e.symm : E →L[ℝ] E)‖₊ 1 : NNReal) : ℝ); simp
    positivity
  set ε : ℝ := min (c / 8) ((R.nnnorm : ℝ)⁻¹ / 8) with hε
  have hε0 : 0 < ε := by rw [hε]; positivity
  refine ⟨ε, hε0, fun F F' z0 δ hδ hF hF' h0 => ?_⟩
  have hm : ∀ x ∈ Metric.closedBall z0 δ, ∀ y ∈ Metric.closedBall z0 δ, ‖F x - F y - L (x - y)‖ ≤ ε * ‖x - y‖ := fun x hx y hy =>
    (convex_closedBall z0 δ).norm_image_sub_le_of_norm_hasFDerivWithin_le' (f := F) (f' := F') (φ := L) (C := ε)
      (fun z hz => (hF z hz).hasFDerivWithinAt) hF' hy hx
  have happ : ApproximatesLinearOn F L (Metric.closedBall z0 δ) ε.toNNReal := by
    rw [ApproximatesLinearOn]
    intro x hx y hy
    rw [Real.coe_toNNReal _ hε0.le]
    exact hm x hx y hy
  have hsur := happ.surjOn_closedBall_of_nonlinearRightInverse R (ε := δ / 4) (b := z0) (by positivity)
    (Metric.closedBall_subset_closedBall (by linarith))
  obtain ⟨y, hy, hy0⟩ := hsur (show (0 : E) ∈ _ by
    rw [mem_closedBall_iff_norm, zero_sub, norm_neg, Real.coe_toNNReal _ hε0.le]
    refine h0.trans ?_
    have : ε ≤ (R.nnnorm : ℝ)⁻¹ / 8 := min_le_right _ _
    nlinarith)
  have hyδ : y ∈ Metric.closedBall z0 δ := Metric.closedBall_subset_closedBall (by linarith) hy
  have hlow : ∀ x ∈ Metric.closedBall z0 δ, ∀ v, c / 2 * ‖v‖ ≤ ‖F' x v‖ := by
    intro x hx v
    have a1 := (F' x - L).le_opNorm v
    have a0 : ‖F' x - L‖ ≤ c / 2 := (hF' x hx).trans ((min_le_left _ _).trans (by linarith))
    have a2 : ‖(F' x - L) v‖ ≤ c / 2 * ‖v‖ := a1.trans (mul_le_mul_of_nonneg_right a0 (norm_nonneg _))
    have a3 := hb v
    have a4 : L v = F' x v - (F' x - L) v := by simp
    have a5 := norm_sub_le (F' x v) ((F' x - L) v)
    rw [← a4] at a5
    linarith
  refine ⟨y, mem_closedBall_iff_norm.1 hy, hy0, fun z hz => ?_⟩
  have hz' : z ∈ Metric.closedBall z0 δ := mem_closedBall_iff_norm.2 hz
  refine ⟨fun v hv => ?_, fun s hs => ?_⟩
  · have := hlow z hz' v
    rw [hv, norm_zero] at this
    have h2 : ‖v‖ ≤ 0 := by
      by_contra h3
      push Not at h3
      nlinarith
    exact norm_le_zero_iff.1 h2
  · have b1 : F' z (z - s - y) = (F' z - L) (z - y) - (F z - F y - L (z - y)) := by
      rw [show z - s - y = (z - y) - s by abel, map_sub, hs, hy0]
      simp only [sub_apply]
      abel
    have b2 := hlow z hz' (z - s - y)
    rw [b1] at b2
    have b3 := norm_sub_le ((F' z - L) (z - y)) (F z - F y - L (z - y))
    have b4 := hm z hz' y hyδ
    have b5 : ‖(F' z - L) (z - y)‖ ≤ ε * ‖z - y‖ :=
      ((F' z - L).le_opNorm _).trans (mul_le_mul_of_nonneg_right (hF' z hz') (norm_nonneg _))
    have b6 : ε ≤ c / 8 := min_le_left _ _
    have b7 : c / 2 * ‖z - s - y‖ ≤ c / 2 * (1 / 2 * ‖z - y‖) := by nlinarith [norm_nonneg (z - y)]
    exact le_of_mul_le_mul_left b7 (by positivity)

end TMD
