import Mathlib.Analysis.ODE.ExistUnique
import Mathlib.Analysis.Calculus.MeanValue
import Mathlib.Analysis.SpecialFunctions.ExpDeriv
import Mathlib.Topology.Order.ProjIcc

/-!
# Solutions near a solution

A differential equation that has a solution over one forcing period has one for all nearby initial states and frequencies.
Nothing here refers to the program.
-/

namespace TMD

open Set Metric NNReal

noncomputable section

/-- A bounded Lipschitz field has solutions on the whole interval. -/
theorem bounded_ode {E : Type*} [NormedAddCommGroup E] [NormedSpace ℝ E] [CompleteSpace E] {G : ℝ → E → E} {T B : ℝ} {K : ℝ≥0} (hT : 0 ≤ T)
    (hL : ∀ t, LipschitzWith K (G t)) (hc : ∀ x, Continuous fun t => G t x) (hB : ∀ t ∈ Icc 0 T, ∀ x, ‖G t x‖ ≤ B) (x0 : E) :
    ∃ y, y 0 = x0 ∧ ∀ t ∈ Icc 0 T, HasDerivWithinAt y (G t (y t)) (Icc 0 T) t := by
  have hB0 : 0 ≤ B := (norm_nonneg _).trans (hB 0 ⟨le_rfl, hT⟩ 0)
  have hpl : IsPicardLindelof G (tmin := 0) (tmax := T) ⟨0, le_rfl, hT⟩ x0 (B * T).toNNReal 0 B.toNNReal K := by
    refine ⟨fun t _ => (hL t).lipschitzOnWith, fun x _ => (hc x).continuousOn, fun t ht x _ => ?_, ?_⟩
    · rw [Real.coe_toNNReal _ hB0]
      exact hB t ht x
    · rw [Real.coe_toNNReal _ hB0, Real.coe_toNNReal _ (by positivity)]
      simp [hT]
  obtain ⟨y, h1, h2⟩ := hpl.exists_eq_forall_mem_Icc_hasDerivWithinAt₀
  exact ⟨y, h1, h2⟩

variable {n : ℕ}

/-- Entries limited to `[-R, R]`. -/
def clampTo (R : ℝ) (x : Fin n → ℝ) : Fin n → ℝ := fun i => max (-R) (min R (x i))

theorem clampTo_mem {R : ℝ} (hR : 0 ≤ R) (x : Fin n → ℝ) : clampTo R x ∈ closedBall (0 : Fin n → ℝ) R := by
  rw [mem_closedBall_zero_iff, pi_norm_le_iff_of_nonneg hR]
  intro i
  rw [Real.norm_eq_abs, abs_le]
  exact ⟨le_max_left _ _, max_le (by linarith) (min_le_left _ _)⟩

theorem clampTo_eq {R : ℝ} {x : Fin n → ℝ} (hx : ‖x‖ ≤ R) : clampTo R x = x := by
  funext i
  have := (norm_le_pi_norm x i).trans hx
  rw [Real.norm_eq_abs, abs_le] at this
  simp [clampTo, this.1, this.2]

theorem clampTo_lipschitz (R : ℝ) : LipschitzWith 1 (clampTo R : (Fin n → ℝ) → Fin n → ℝ) := by
  refine LipschitzWith.of_dist_le_mul fun x y => ?_
  rw [NNReal.coe_one, one_mul, dist_pi_le_iff dist_nonneg]
  intro i
  refine le_trans ?_ (dist_le_pi_dist x y i)
  simp only [clampTo]
  have h1 : LipschitzWith 1 fun t : ℝ => max (-R) (min R t) := by
    have := (LipschitzWith.id (α := ℝ)).const_min R |>.const_max (-R)
    exact this
  simpa using h1.dist_le_mul (x i) (y i)

/-- Solutions from nearby initial states at nearby frequencies exist and stay close, compared at the same phase. -/
theorem flow_near {a : (Fin n → ℝ) → Fin n → ℝ} {a' : (Fin n → ℝ) → (Fin n → ℝ) →L[ℝ] (Fin n → ℝ)} (ha : ∀ z, HasFDerivAt a (a' z) z) (hac : Continuous a')
    {b : ℝ → Fin n → ℝ} (hb : Continuous b) {w P : ℝ} (hw : 0 < w) (hP : 0 ≤ P) {z : ℝ → Fin n → ℝ}
    (hz : ∀ t ∈ Icc 0 (P / w), HasDerivWithinAt z (a (z t) + b (w * t)) (Icc 0 (P / w)) t) {ε : ℝ} (hε : 0 < ε) (hε1 : ε ≤ 1) :
    ∃ δ > 0, ∀ x0 w', ‖x0 - z 0‖ ≤ δ → |w' - w| ≤ δ → 0 < w' ∧
      ∃ y, y 0 = x0 ∧ (∀ t ∈ Icc 0 (P / w'), HasDerivWithinAt y (a (y t) + b (w' * t)) (Icc 0 (P / w')) t) ∧
        ∀ t ∈ Icc 0 (P / w'), ‖y t - z (w' * t / w)‖ ≤ ε := by
  have hzc : ContinuousOn z (Icc 0 (P / w)) := fun t ht => (hz t ht).continuousWithinAt
  obtain ⟨R0, hR0⟩ := isCompact_Icc.exists_bound_of_continuousOn hzc
  have hR0' : 0 ≤ R0 := (norm_nonneg _).trans (hR0 0 ⟨le_rfl, by positivity⟩)
  set R := R0 + 1 with hR
  have hRn : 0 ≤ R := by positivity
  have hcomp : IsCompact (closedBall (0 : Fin n → ℝ) R) := isCompact_closedBall _ _
  have haC : Continuous a := continuous_iff_continuousAt.2 fun z => (ha z).continuousAt
  obtain ⟨Ka, hKa⟩ := hcomp.exists_bound_of_continuousOn hac.continuousOn
  obtain ⟨Ba, hBa⟩ := hcomp.exists_bound_of_continuousOn haC.continuousOn
  obtain ⟨Bb, hBb⟩ := (isCompact_Icc (a := (0:ℝ)) (b := P)).exists_bound_of_continuousOn hb.continuousOn
  have h0R : (0 : Fin n → ℝ) ∈ closedBall (0 : Fin n → ℝ) R := mem_closedBall_self hRn
  have hKa0 : 0 ≤ Ka := (norm_nonneg _).trans (hKa 0 h0R)
  have hBa0 : 0 ≤ Ba := (norm_nonneg _).trans (hBa 0 h0R)
  have hBb0 : 0 ≤ Bb := (norm_nonneg _).trans (hBb 0 ⟨le_rfl, hP⟩)
  have hlip : LipschitzWith Ka.toNNReal fun x => a (clampTo R x) := by
    have h1 : LipschitzOnWith Ka.toNNReal a (closedBall 0 R) :=
      (convex_closedBall (0 : Fin n → ℝ) R).lipschitzOnWith_of_nnnorm_hasFDerivWithin_le (fun x _ => (ha x).hasFDerivWithinAt) fun x hx => by
        rw [← NNReal.coe_le_coe, coe_nnnorm, Real.coe_toNNReal _ hKa0]
        exact hKa x hx
    refine LipschitzWith.of_dist_le_mul fun x y => ?_
    refine (h1.dist_le_mul _ (clampTo_mem hRn x) _ (clampTo_mem hRn y)).trans ?_
    have := (clampTo_lipschitz (n := n) R).dist_le_mul x y
    rw [NNReal.coe_one, one_mul] at this
    exact mul_le_mul_of_nonneg_left this (NNReal.coe_nonneg _)
  set B := Ba + Bb with hBd
  have hB : ∀ θ ∈ Icc 0 P, ∀ x, ‖a (clampTo R x) + b θ‖ ≤ B := fun θ hθ x =>
    (norm_add_le _ _).trans (add_le_add (hBa _ (clampTo_mem hRn x)) (hBb θ hθ))
  set k := 2 / w * Ka + 1 with hk
  have hk0 : 0 < k := by positivity
  set e := Real.exp (k * P) with he
  have he0 : 0 < e := Real.exp_pos _
  refine ⟨min (w / 2) (min (ε / (2 * e)) (ε * k * w ^ 2 / (4 * (B + 1) * e))), by positivity, fun x0 w' hx0 hw' => ?_⟩
  have d1 := hw'.trans (min_le_left _ _)
  have d2 := hx0.trans ((min_le_right _ _).trans (min_le_left _ _))
  have d3 := hw'.trans ((min_le_right _ _).trans (min_le_right _ _))
  have hw2 : w / 2 ≤ w' := by linarith [(abs_le.1 d1).1]
  have hw0 : 0 < w' := by linarith
  refine ⟨hw0, ?_⟩
  have hcw : 1 / w' ≤ 2 / w := by
    rw [div_le_div_iff₀ hw0 hw]; linarith
  set v : ℝ → (Fin n → ℝ) → Fin n → ℝ := fun θ x => (1 / w') • (a (clampTo R x) + b θ) with hv
  have hvL : ∀ θ, LipschitzWith k.toNNReal (v θ) := fun θ => by
    refine LipschitzWith.of_dist_le_mul fun x y => ?_
    simp only [hv]
    rw [dist_smul₀, dist_add_right, Real.norm_of_nonneg (by positivity), Real.coe_toNNReal _ hk0.le]
    have := hlip.dist_le_mul x y
    rw [Real.coe_toNNReal _ hKa0] at this
    calc 1 / w' * dist (a (clampTo R x)) (a (clampTo R y)) ≤ 2 / w * (Ka * dist x y) := mul_le_mul hcw this dist_nonneg (by positivity)
      _ ≤ k * dist x y := by rw [hk]; nlinarith [dist_nonneg (x := x) (y := y)]
  obtain ⟨y, y0, hy⟩ := bounded_ode hP hvL (fun x => by
    simp only [hv]
    exact (continuous_const.add hb).const_smul (1 / w')) (B := 1 / w' * B) (fun θ hθ x => by
    rw [hv, norm_smul, Real.norm_of_nonneg (by positivity)]
    exact mul_le_mul_of_nonneg_left (hB θ hθ x) (by positivity)) x0
  -- the given solution over the phase
  set x : ℝ → Fin n → ℝ := fun θ => z (θ / w) with hx
  have hxm : ∀ θ ∈ Icc 0 P, θ / w ∈ Icc 0 (P / w) := fun θ hθ => ⟨by have := hθ.1; positivity, by gcongr; exact hθ.2⟩
  have hxd : ∀ θ ∈ Icc 0 P, HasDerivWithinAt x ((1 / w) • (a (x θ) + b θ)) (Icc 0 P) θ := fun θ hθ => by
    have h1 : HasDerivWithinAt (fun θ => θ / w) (1 / w) (Icc 0 P) θ := ((hasDerivAt_id θ).div_const w).hasDerivWithinAt
    have h2 := (hz (θ / w) (hxm θ hθ)).scomp θ h1 hxm
    rw [mul_div_cancel₀ _ hw.ne'] at h2
    exact h2
  have hici : ∀ {g : ℝ → Fin n → ℝ} {g' : Fin n → ℝ}, ∀ θ ∈ Ico 0 P, HasDerivWithinAt g g' (Icc 0 P) θ → HasDerivWithinAt g g' (Ici θ) θ := fun θ hθ h =>
    h.mono_of_mem_nhdsWithin (Filter.mem_of_superset (Icc_mem_nhdsGE hθ.2) (Icc_subset_Icc_left hθ.1))
  have hclose := dist_le_of_approx_trajectories_ODE (f := x) (g := y) (δ := ε / (2 * e)) (εf := |w' - w| * (2 * B / w ^ 2)) (εg := 0) (a := 0) (b := P) hvL
    (fun θ hθ => (hxd θ hθ).continuousWithinAt) (fun θ hθ => hici θ hθ (hxd θ (Ico_subset_Icc_self hθ))) (fun θ hθ => by
      have hxR : ‖x θ‖ ≤ R := (hR0 _ (hxm θ (Ico_subset_Icc_self hθ))).trans (by rw [hR]; linarith)
      have hbd := hB θ (Ico_subset_Icc_self hθ) (x θ)
      rw [clampTo_eq hxR] at hbd
      simp only [hv, clampTo_eq hxR]
      rw [dist_eq_norm, ← sub_smul, norm_smul, Real.norm_eq_abs]
      have e1 : 1 / w - 1 / w' = (w' - w) * (1 / (w * w')) := by field_simp
      rw [e1, abs_mul, abs_of_pos (by positivity : 0 < 1 / (w * w')), mul_assoc]
      refine mul_le_mul_of_nonneg_left ?_ (abs_nonneg _)
      have e2 : 1 / (w * w') ≤ 2 / w ^ 2 := by
        rw [div_le_div_iff₀ (by positivity) (by positivity)]
        nlinarith
      calc 1 / (w * w') * ‖a (x θ) + b θ‖ ≤ 2 / w ^ 2 * B := mul_le_mul e2 hbd (norm_nonneg _) (by positivity)
        _ = 2 * B / w ^ 2 := by ring)
    (fun θ hθ => (hy θ hθ).continuousWithinAt) (fun θ hθ => hici θ hθ (hy θ (Ico_subset_Icc_self hθ))) (fun θ _ => by simp)
    (by simpa [hx, y0, dist_eq_norm, norm_sub_rev] using d2)
  have hyx : ∀ θ ∈ Icc 0 P, ‖y θ - x θ‖ ≤ ε := fun θ hθ => by
    have h1 := hclose θ hθ
    rw [Real.coe_toNNReal _ hk0.le, gronwallBound_of_K_ne_0 hk0.ne', sub_zero, add_zero] at h1
    have hex : Real.exp (k * θ) ≤ e := Real.exp_le_exp.2 (mul_le_mul_of_nonneg_left hθ.2 hk0.le)
    have h2 : ε / (2 * e) * Real.exp (k * θ) ≤ ε / 2 := by
      calc ε / (2 * e) * Real.exp (k * θ) ≤ ε / (2 * e) * e := mul_le_mul_of_nonneg_left hex (by positivity)
        _ = ε / 2 := by field_simp
    have h3 : |w' - w| * (2 * B / w ^ 2) / k * (Real.exp (k * θ) - 1) ≤ ε / 2 := by
      calc |w' - w| * (2 * B / w ^ 2) / k * (Real.exp (k * θ) - 1) ≤ (ε * k * w ^ 2 / (4 * (B + 1) * e)) * (2 * B / w ^ 2) / k * e := by
            refine mul_le_mul (by gcongr) (by linarith) ?_ (by positivity)
            rw [sub_nonneg, Real.one_le_exp_iff]
            exact mul_nonneg hk0.le hθ.1
        _ = B / (B + 1) * (ε / 2) := by field_simp; ring
        _ ≤ 1 * (ε / 2) := by
          gcongr
          rw [div_le_one (by positivity)]; linarith
        _ = ε / 2 := one_mul _
    rw [dist_eq_norm, norm_sub_rev] at h1
    linarith
  have hyR : ∀ θ ∈ Icc 0 P, ‖y θ‖ ≤ R := fun θ hθ => by
    have h4 : ‖y θ‖ ≤ ‖x θ‖ + ‖y θ - x θ‖ := by simpa using norm_add_le (x θ) (y θ - x θ)
    linarith [hR0 _ (hxm θ hθ), hyx θ hθ]
  have hm : ∀ t ∈ Icc 0 (P / w'), w' * t ∈ Icc 0 P := fun t ht => ⟨mul_nonneg hw0.le ht.1, by
    have := mul_le_mul_of_nonneg_left ht.2 hw0.le
    rwa [mul_div_cancel₀ _ hw0.ne'] at this⟩
  refine ⟨fun t => y (w' * t), by simp [y0], fun t ht => ?_, fun t ht => ?_⟩
  · have h1 : HasDerivWithinAt (fun t => w' * t) w' (Icc 0 (P / w')) t := by
      simpa using ((hasDerivAt_id t).const_mul w').hasDerivWithinAt (s := Icc 0 (P / w'))
    have h2 := (hy (w' * t) (hm t ht)).scomp t h1 hm
    simp only [hv, clampTo_eq (hyR _ (hm t ht))] at h2
    rw [smul_smul, mul_one_div_cancel hw0.ne', one_smul] at h2
    exact h2
  · exact hyx _ (hm t ht)

theorem flow_open {a : (Fin n → ℝ) → Fin n → ℝ} {a' : (Fin n → ℝ) → (Fin n → ℝ) →L[ℝ] (Fin n → ℝ)} (ha : ∀ z, HasFDerivAt a (a' z) z) (hac : Continuous a')
    {b : ℝ → Fin n → ℝ} (hb : Continuous b) {w P : ℝ} (hw : 0 < w) (hP : 0 ≤ P) {z : ℝ → Fin n → ℝ}
    (hz : ∀ t ∈ Icc 0 (P / w), HasDerivWithinAt z (a (z t) + b (w * t)) (Icc 0 (P / w)) t) :
    ∃ δ > 0, ∀ x0 w', ‖x0 - z 0‖ ≤ δ → |w' - w| ≤ δ → 0 < w' ∧
      ∃ y, y 0 = x0 ∧ ∀ t ∈ Icc 0 (P / w'), HasDerivWithinAt y (a (y t) + b (w' * t)) (Icc 0 (P / w')) t := by
  obtain ⟨δ, hδ, h⟩ := flow_near ha hac hb hw hP hz one_pos le_rfl
  refine ⟨δ, hδ, fun x0 w' h1 h2 => ?_⟩
  obtain ⟨h3, y, h4, h5, -⟩ := h x0 w' h1 h2
  exact ⟨h3, y, h4, h5⟩

/-- Linear equations with close coefficients have close solutions. -/
theorem lin_near {E : Type*} [NormedAddCommGroup E] [NormedSpace ℝ E] {A A' : ℝ → E →L[ℝ] E} {c c' : ℝ → E} {p p' : ℝ → E} {k η M : ℝ} (hk : 0 < k) (hη : 0 ≤ η)
    (hp : ∀ s ∈ Icc (0:ℝ) 1, HasDerivWithinAt p (A s (p s) + c s) (Icc 0 1) s) (hp' : ∀ s ∈ Icc (0:ℝ) 1, HasDerivWithinAt p' (A' s (p' s) + c' s) (Icc 0 1) s)
    (h0 : p' 0 = p 0) (hA : ∀ s ∈ Icc (0:ℝ) 1, ‖A' s‖ ≤ k) (hAA : ∀ s ∈ Icc (0:ℝ) 1, ‖A' s - A s‖ ≤ η) (hcc : ∀ s ∈ Icc (0:ℝ) 1, ‖c' s - c s‖ ≤ η)
    (hM : ∀ s ∈ Icc (0:ℝ) 1, ‖p s‖ ≤ M) : ‖p' 1 - p 1‖ ≤ η * (M + 1) / k * (Real.exp k - 1) := by
  have hici : ∀ {g : ℝ → E} {g' : E}, ∀ θ ∈ Ico (0:ℝ) 1, HasDerivWithinAt g g' (Icc 0 1) θ → HasDerivWithinAt g g' (Ici θ) θ := fun θ hθ h =>
    h.mono_of_mem_nhdsWithin (Filter.mem_of_superset (Icc_mem_nhdsGE hθ.2) (Icc_subset_Icc_left hθ.1))
  have h1 := dist_le_of_approx_trajectories_ODE_of_mem (v := fun s x => A' s x + c' s) (s := fun _ => univ) (K := k.toNNReal) (f := p) (g := p') (a := 0) (b := 1) (δ := 0) (εf := η * (M + 1)) (εg := 0)
    (fun s hs => by
      refine LipschitzOnWith.of_dist_le_mul fun x _ y _ => ?_
      rw [dist_add_right, dist_eq_norm, ← map_sub, Real.coe_toNNReal _ hk.le, dist_eq_norm]
      exact ((A' s).le_opNorm _).trans (mul_le_mul_of_nonneg_right (hA s (Ico_subset_Icc_self hs)) (norm_nonneg _)))
    (fun s hs => (hp s hs).continuousWithinAt) (fun s hs => hici s hs (hp s (Ico_subset_Icc_self hs))) (fun s hs => by
      have hs' := Ico_subset_Icc_self hs
      rw [dist_eq_norm, norm_sub_rev, show A' s (p s) + c' s - (A s (p s) + c s) = (A' s - A s) (p s) + (c' s - c s) by
        simp only [sub_apply]; abel]
      refine (norm_add_le _ _).trans ?_
      rw [mul_add, mul_one]
      refine add_le_add (((A' s - A s).le_opNorm _).trans (mul_le_mul (hAA s hs') (hM s hs') (norm_nonneg _) hη)) (hcc s hs')) (fun _ _ => trivial)
    (fun s hs => (hp' s hs).continuousWithinAt) (fun s hs => hici s hs (hp' s (Ico_subset_Icc_self hs))) (fun s _ => by simp) (fun _ _ => trivial)
    (by simp [h0]) 1 ⟨zero_le_one, le_rfl⟩
  rw [Real.coe_toNNReal _ hk.le, gronwallBound_of_K_ne_0 hk.ne', dist_eq_norm, norm_sub_rev] at h1
  simpa using h1

end

end TMD
