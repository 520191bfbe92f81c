import Mathlib.Analysis.ODE.Gronwall
import Mathlib.Analysis.Calculus.MeanValue

/-!
# Dependence of solutions of ordinary differential equations on the initial value

The derivative of the end point with respect to the initial value is the solution of the variational equation.
The right-hand side only has to be differentiable near one solution, uniformly along it.
-/

namespace TMD

open Set Filter Topology

noncomputable section

variable {E : Type*} [NormedAddCommGroup E] [NormedSpace ℝ E]

theorem right_deriv {f : ℝ → E} {f' : E} {s : ℝ} (hs : s ∈ Ico (0:ℝ) 1) (h : HasDerivWithinAt f f' (Icc 0 1) s) :
    HasDerivWithinAt f f' (Ici s) s :=
  (h.mono (Icc_subset_Icc_left hs.1)).mono_of_mem_nhdsWithin (Icc_mem_nhdsGE hs.2)

/-- Differentiability of `F s` at `y0 s`, uniform along the curve. -/
def UnifDiff (F : ℝ → E → E) (y0 : ℝ → E) (A : ℝ → E →L[ℝ] E) : Prop :=
  ∀ ε > 0, ∃ δ > 0, ∀ s ∈ Icc (0:ℝ) 1, ∀ y, ‖y - y0 s‖ ≤ δ →
    ‖F s y - F s (y0 s) - A s (y - y0 s)‖ ≤ ε * ‖y - y0 s‖

variable {F : ℝ → E → E} {y0 : ℝ → E} {A : ℝ → E →L[ℝ] E} {K : ℝ}

/-- A second solution that starts close to the first one stays close to it. -/
theorem sens_close (hK : 0 ≤ K) (hA : ∀ s ∈ Icc (0:ℝ) 1, ‖A s‖ ≤ K)
    (hy0 : ∀ s ∈ Icc (0:ℝ) 1, HasDerivWithinAt y0 (F s (y0 s)) (Icc 0 1) s)
    {δ : ℝ} (hδ : ∀ s ∈ Icc (0:ℝ) 1, ∀ y, ‖y - y0 s‖ ≤ δ →
      ‖F s y - F s (y0 s) - A s (y - y0 s)‖ ≤ 1 * ‖y - y0 s‖)
    {y : ℝ → E} (hy : ∀ s ∈ Icc (0:ℝ) 1, HasDerivWithinAt y (F s (y s)) (Icc 0 1) s)
    (h0 : ‖y 0 - y0 0‖ * Real.exp (K + 2) < δ) :
    ∀ s ∈ Icc (0:ℝ) 1, ‖y s - y0 s‖ ≤ ‖y 0 - y0 0‖ * Real.exp (K + 2) := by
  have hd : ∀ s ∈ Icc (0:ℝ) 1, HasDerivWithinAt (fun s => y s - y0 s) (F s (y s) - F s (y0 s)) (Icc 0 1) s :=
    fun s hs => (hy s hs).sub (hy0 s hs)
  have hcont : ContinuousOn (fun s => y s - y0 s) (Icc 0 1) := fun s hs => (hd s hs).continuousWithinAt
  have key : ∀ η : ℝ, ‖y 0 - y0 0‖ ≤ η → 0 < η → η * Real.exp (K + 2) < δ →
      ∀ s ∈ Icc (0:ℝ) 1, ‖y s - y0 s‖ ≤ η * Real.exp (K + 2) := by
    intro η h1 h2 h3 s hs
    have hB : ∀ x, HasDerivAt (fun x => η * Real.exp ((K + 2) * x)) (η * (Real.exp ((K + 2) * x) * (K + 2))) x := by
      intro x
      have := ((hasDerivAt_id x).const_mul (K + 2)).exp.const_mul η
      simpa using this
    have hexp : ∀ x ∈ Icc (0:ℝ) 1, Real.exp ((K + 2) * x) ≤ Real.exp (K + 2) := by
      intro x hx
      apply Real.exp_le_exp.2
      nlinarith [hx.2]
    have := image_norm_le_of_norm_deriv_right_lt_deriv_boundary hcont
      (fun x hx => right_deriv hx (hd x (Ico_subset_Icc_self hx))) (B := fun x => η * Real.exp ((K + 2) * x))
      (B' := fun x => η * (Real.exp ((K + 2) * x) * (K + 2))) (by simpa using h1) hB ?_ hs
    · exact this.trans (mul_le_mul_of_nonneg_left (hexp s hs) h2.le)
    · intro x hx he
      have hx' := Ico_subset_Icc_self hx
      have hpos : 0 < ‖y x - y0 x‖ := by
        rw [he]; exact mul_pos h2 (Real.exp_pos _)
      have hle : ‖y x - y0 x‖ ≤ δ := by
        rw [he]; exact (mul_le_mul_of_nonneg_left (hexp x hx') h2.le).trans h3.le
      have e1 := hδ x hx' (y x) hle
      have e2 : ‖A x (y x - y0 x)‖ ≤ K * ‖y x - y0 x‖ :=
        (ContinuousLinearMap.le_opNorm _ _).trans (mul_le_mul_of_nonneg_right (hA x hx') (norm_nonneg _))
      have e3 : ‖F x (y x) - F x (y0 x)‖ ≤ ‖F x (y x) - F x (y0 x) - A x (y x - y0 x)‖ + ‖A x (y x - y0 x)‖ := by
        have := norm_add_le (F x (y x) - F x (y0 x) - A x (y x - y0 x)) (A x (y x - y0 x))
        rwa [sub_add_cancel] at this
      have e4 : η * (Real.exp ((K + 2) * x) * (K + 2)) = (K + 2) * ‖y x - y0 x‖ := by
        rw [he]; ring
      rw [e4]
      nlinarith
  intro s hs
  have hE := Real.exp_pos (K + 2)
  refine le_of_forall_pos_lt_add fun ε hε => ?_
  -- a slightly larger start
  set m := min (ε / 2) ((δ - ‖y 0 - y0 0‖ * Real.exp (K + 2)) / 2) with hm
  have hm0 : 0 < m := lt_min (by linarith) (by linarith)
  have := key (‖y 0 - y0 0‖ + m / Real.exp (K + 2)) (by have := div_pos hm0 hE; linarith)
    (add_pos_of_nonneg_of_pos (norm_nonneg _) (div_pos hm0 hE))
    (by rw [add_mul, div_mul_cancel₀ _ hE.ne']; have := min_le_right (ε / 2) ((δ - ‖y 0 - y0 0‖ * Real.exp (K + 2)) / 2)
        rw [← hm] at this; linarith) s hs
  rw [add_mul, div_mul_cancel₀ _ hE.ne'] at this
  have h2 := min_le_left (ε / 2) ((δ - ‖y 0 - y0 0‖ * Real.exp (K + 2)) / 2)
  rw [← hm] at h2
  linarith

/-- The derivative of the end point with respect to the initial value. -/
theorem ode_sens (hK : 0 < K) (hA : ∀ s ∈ Icc (0:ℝ) 1, ‖A s‖ ≤ K) (hF : UnifDiff F y0 A)
    (hy0 : ∀ s ∈ Icc (0:ℝ) 1, HasDerivWithinAt y0 (F s (y0 s)) (Icc 0 1) s)
    (Φ : ℝ → E →L[ℝ] E) (hΦ0 : ∀ h, Φ 0 h = h)
    (hΦ : ∀ h, ∀ s ∈ Icc (0:ℝ) 1, HasDerivWithinAt (fun s => Φ s h) (A s (Φ s h)) (Icc 0 1) s)
    (Y : E → ℝ → E)
    (hY : ∀ᶠ h in 𝓝 0, Y h 0 = y0 0 + h ∧ ∀ s ∈ Icc (0:ℝ) 1, HasDerivWithinAt (Y h) (F s (Y h s)) (Icc 0 1) s) :
    HasFDerivAt (fun h => Y h 1) (Φ 1) 0 := by
  obtain ⟨δ1, hδ1, hc1⟩ := hF 1 one_pos
  set L := Real.exp (K + 2)
  have hL : 0 < L := Real.exp_pos _
  -- main estimate
  have main : ∀ ε > 0, ∀ᶠ h in 𝓝 (0 : E), ‖Y h 1 - y0 1 - Φ 1 h‖ ≤ ε * (L / K * (Real.exp K - 1)) * ‖h‖ := by
    intro ε hε
    obtain ⟨δ, hδ, hc⟩ := hF ε hε
    have hsmall : ∀ᶠ h in 𝓝 (0 : E), ‖h‖ * L < min δ1 δ := by
      have : Tendsto (fun h : E => ‖h‖ * L) (𝓝 0) (𝓝 (‖(0:E)‖ * L)) := (continuous_norm.mul continuous_const).tendsto 0
      rw [norm_zero, zero_mul] at this
      exact this.eventually (gt_mem_nhds (lt_min hδ1 hδ))
    filter_upwards [hY, hsmall] with h ⟨h0, hy⟩ hs
    have hh : ‖Y h 0 - y0 0‖ = ‖h‖ := by rw [h0, add_sub_cancel_left]
    have hclose := sens_close hK.le hA hy0 (fun s hs y hy => hc1 s hs y hy) hy
      (by rw [hh]; exact hs.trans_le (min_le_left _ _))
    rw [hh] at hclose
    have hr : ∀ s ∈ Icc (0:ℝ) 1, HasDerivWithinAt (fun s => Y h s - y0 s - Φ s h)
        (F s (Y h s) - F s (y0 s) - A s (Φ s h)) (Icc 0 1) s :=
      fun s hs => ((hy s hs).sub (hy0 s hs)).sub (hΦ h s hs)
    have := norm_le_gronwallBound_of_norm_deriv_right_le (f := fun s => Y h s - y0 s - Φ s h)
      (f' := fun s => F s (Y h s) - F s (y0 s) - A s (Φ s h)) (δ := 0) (K := K) (ε := ε * (‖h‖ * L)) (a := 0) (b := 1)
      (fun s hs => (hr s hs).continuousWithinAt) (fun s hs => right_deriv hs (hr s (Ico_subset_Icc_self hs)))
      (by rw [h0, hΦ0]; simp) ?_ 1 ⟨zero_le_one, le_rfl⟩
    · rw [gronwallBound_of_K_ne_0 hK.ne'] at this
      simp only [sub_zero, mul_one, zero_mul, zero_add] at this
      refine this.trans (le_of_eq ?_)
      ring
    · intro s hs'
      have hs1 := Ico_subset_Icc_self hs'
      have e1 := hc s hs1 (Y h s) ((hclose s hs1).trans (hs.le.trans (min_le_right _ _)))
      have e2 : ‖A s (Y h s - y0 s - Φ s h)‖ ≤ K * ‖Y h s - y0 s - Φ s h‖ :=
        (ContinuousLinearMap.le_opNorm _ _).trans (mul_le_mul_of_nonneg_right (hA s hs1) (norm_nonneg _))
      have e3 : F s (Y h s) - F s (y0 s) - A s (Φ s h)
          = A s (Y h s - y0 s - Φ s h) + (F s (Y h s) - F s (y0 s) - A s (Y h s - y0 s)) := by
        rw [map_sub]; abel
      rw [e3]
      refine (norm_add_le _ _).trans (add_le_add e2 (e1.trans ?_))
      exact mul_le_mul_of_nonneg_left (hclose s hs1) hε.le
  -- the family starts at the given solution
  have hC : 0 < L / K * (Real.exp K - 1) :=
    mul_pos (div_pos hL hK) (by linarith [Real.one_lt_exp_iff.2 hK])
  have h01 : Y 0 1 = y0 1 := by
    have := (main 1 one_pos).self_of_nhds
    rw [norm_zero, mul_zero, map_zero, sub_zero] at this
    exact sub_eq_zero.1 (norm_le_zero_iff.1 this)
  rw [hasFDerivAt_iff_isLittleO_nhds_zero, Asymptotics.isLittleO_iff]
  intro c hc
  filter_upwards [main (c / (L / K * (Real.exp K - 1))) (div_pos hc hC)] with h hh
  rw [div_mul_cancel₀ _ hC.ne'] at hh
  simpa [h01] using hh

/-- A jointly continuous derivative gives uniform differentiability along a curve. -/
theorem unifDiff_of_continuous {G : ℝ → E → E →L[ℝ] E} {V : Set E} (hV : IsOpen V)
    (hcont : ContinuousOn y0 (Icc 0 1)) (hmem : ∀ s ∈ Icc (0:ℝ) 1, y0 s ∈ V)
    (hG : ∀ s, ∀ y ∈ V, ContinuousAt (fun p : ℝ × E => G p.1 p.2) (s, y))
    (hd : ∀ s, ∀ y ∈ V, HasFDerivAt (F s) (G s y) y) : UnifDiff F y0 (fun s => G s (y0 s)) := by
  intro ε hε
  set S : Set (ℝ × E) := (fun s => (s, y0 s)) '' Icc 0 1
  have hS : IsCompact S := isCompact_Icc.image_of_continuousOn (continuousOn_id.prodMk hcont)
  have hU := hS.uniformContinuousAt_of_continuousAt (fun p : ℝ × E => G p.1 p.2)
    (by rintro _ ⟨s, hs, rfl⟩; exact hG s _ (hmem s hs)) (Metric.dist_mem_uniformity hε)
  obtain ⟨δ, hδ, hsub⟩ := Metric.mem_uniformity_dist.1 hU
  -- a tube inside `V`
  obtain ⟨δ', hδ', htube⟩ : ∃ δ' > 0, Metric.thickening δ' (y0 '' Icc 0 1) ⊆ V :=
    (isCompact_Icc.image_of_continuousOn hcont).exists_thickening_subset_open hV
      (by rintro _ ⟨s, hs, rfl⟩; exact hmem s hs)
  refine ⟨min δ δ' / 2, by positivity, fun s hs y hy => ?_⟩
  have hlt : ∀ z ∈ segment ℝ (y0 s) y, ‖z - y0 s‖ < min δ δ' := by
    intro z hz
    have := norm_sub_le_of_mem_segment hz
    have hp : 0 < min δ δ' := lt_min hδ hδ'
    rw [norm_sub_rev] at this
    have h2 : ‖z - y0 s‖ ≤ ‖y - y0 s‖ := by
      rw [segment_eq_image'] at hz
      obtain ⟨θ, hθ, rfl⟩ := hz
      rw [add_sub_cancel_left, norm_smul, Real.norm_of_nonneg hθ.1]
      exact mul_le_of_le_one_left (norm_nonneg _) hθ.2
    linarith
  have hmemV : ∀ z ∈ segment ℝ (y0 s) y, z ∈ V := fun z hz =>
    htube (Metric.mem_thickening_iff.2 ⟨y0 s, ⟨s, hs, rfl⟩, by
      rw [dist_eq_norm]; exact (hlt z hz).trans_le (min_le_right _ _)⟩)
  have hb : ∀ z ∈ segment ℝ (y0 s) y, ‖G s z - G s (y0 s)‖ ≤ ε := by
    intro z hz
    have := hsub (a := (s, y0 s)) (b := (s, z)) (by
      rw [dist_comm, Prod.dist_eq, dist_self, dist_eq_norm]
      exact max_lt hδ ((hlt z hz).trans_le (min_le_left _ _))) ⟨s, hs, rfl⟩
    rw [← dist_eq_norm, dist_comm]
    exact le_of_lt this
  exact (convex_segment _ _).norm_image_sub_le_of_norm_hasFDerivWithin_le' 
    (fun z hz => (hd s z (hmemV z hz)).hasFDerivWithinAt) hb (left_mem_segment ℝ _ _) (right_mem_segment ℝ _ _)

end

end TMD
