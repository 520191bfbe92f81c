import Verif.Lemmas.OdeSens
import Mathlib.Analysis.SpecialFunctions.Trigonometric.Basic
import Mathlib.Analysis.Calculus.FDeriv.Prod
import Mathlib.Analysis.Calculus.FDeriv.Mul
import Mathlib.Analysis.Calculus.Deriv.Inv
import Mathlib.Analysis.Calculus.Deriv.Prod

/-!
# Dependence of the end point of one forcing period on the initial state and the frequency

`z' = a z + b (w t)` over the period `2π/w`.
-/

namespace TMD

open Set Filter Topology

noncomputable section

variable {E : Type*} [NormedAddCommGroup E] [NormedSpace ℝ E]

theorem rescale {z : ℝ → E} {f : ℝ → E} {T : ℝ} (hT : 0 < T)
    (h : ∀ t ∈ Icc 0 T, HasDerivWithinAt z (f t) (Icc 0 T) t) :
    ∀ s ∈ Icc (0:ℝ) 1, HasDerivWithinAt (fun s => z (T * s)) (T • f (T * s)) (Icc 0 1) s := by
  intro s hs
  have hm : MapsTo (fun s => T * s) (Icc (0:ℝ) 1) (Icc 0 T) := fun x hx =>
    ⟨mul_nonneg hT.le hx.1, by nlinarith [hx.2]⟩
  have h1 : HasDerivWithinAt (fun s => T * s) T (Icc 0 1) s := by
    simpa using ((hasDerivWithinAt_id s (Icc 0 1)).const_mul T)
  exact (h (T * s) (hm hs)).scomp s h1 hm

variable {a : E → E} {a' : E → E →L[ℝ] E} {b b' : ℝ → E}

/-- The right-hand side in scaled time with the frequency as a state. -/
def scaledField (a : E → E) (b : ℝ → E) (s : ℝ) (p : E × ℝ) : E × ℝ :=
  ((2 * Real.pi * p.2⁻¹) • (a p.1 + b (2 * Real.pi * s)), 0)

/-- Its derivative. -/
def scaledDeriv (a : E → E) (a' : E → E →L[ℝ] E) (b : ℝ → E) (s : ℝ) (p : E × ℝ) : E × ℝ →L[ℝ] E × ℝ :=
  (ContinuousLinearMap.inl ℝ E ℝ).comp ((2 * Real.pi * p.2⁻¹) • (a' p.1).comp (ContinuousLinearMap.fst ℝ E ℝ) +
    ((-(2 * Real.pi * (p.2 ^ 2)⁻¹)) • ContinuousLinearMap.snd ℝ E ℝ).smulRight (a p.1 + b (2 * Real.pi * s)))

theorem scaledField_hasFDerivAt (ha : ∀ z, HasFDerivAt a (a' z) z) (s : ℝ) (p : E × ℝ) (hp : 0 < p.2) :
    HasFDerivAt (scaledField a b s) (scaledDeriv a a' b s p) p := by
  have h1 : HasFDerivAt (fun p : E × ℝ => a p.1 + b (2 * Real.pi * s)) ((a' p.1).comp (ContinuousLinearMap.fst ℝ E ℝ)) p :=
    ((ha p.1).comp p (hasFDerivAt_fst (𝕜 := ℝ) (p := p))).add_const _
  have h2 : HasFDerivAt (fun p : E × ℝ => 2 * Real.pi * p.2⁻¹)
      ((-(2 * Real.pi * (p.2 ^ 2)⁻¹)) • ContinuousLinearMap.snd ℝ E ℝ) p := by
    have := ((hasDerivAt_inv hp.ne').const_mul (2 * Real.pi)).comp_hasFDerivAt p (hasFDerivAt_snd (𝕜 := ℝ) (p := p))
    refine this.congr_fderiv ?_
    rw [mul_neg]
  exact (ContinuousLinearMap.inl ℝ E ℝ).hasFDerivAt.comp p (h2.smul h1)

theorem scaledDeriv_continuousAt (ha : ∀ z, HasFDerivAt a (a' z) z) (hac : Continuous a') (hb : Continuous b)
    (s : ℝ) (p : E × ℝ) (hp : 0 < p.2) :
    ContinuousAt (fun q : ℝ × (E × ℝ) => scaledDeriv a a' b q.1 q.2) (s, p) := by
  have hac0 : Continuous a := continuous_iff_continuousAt.2 fun z => (ha z).continuousAt
  have c1 : ContinuousAt (fun q : ℝ × (E × ℝ) => q.2.2) (s, p) := by fun_prop
  have c2 : ContinuousAt (fun q : ℝ × (E × ℝ) => q.2.2⁻¹) (s, p) := c1.inv₀ hp.ne'
  have c3 : ContinuousAt (fun q : ℝ × (E × ℝ) => (q.2.2 ^ 2)⁻¹) (s, p) := (c1.pow 2).inv₀ (pow_ne_zero _ hp.ne')
  have c4 : ContinuousAt (fun q : ℝ × (E × ℝ) => a q.2.1 + b (2 * Real.pi * q.1)) (s, p) := by fun_prop
  have c5 : ContinuousAt (fun q : ℝ × (E × ℝ) => (a' q.2.1).comp (ContinuousLinearMap.fst ℝ E ℝ)) (s, p) := by fun_prop
  unfold scaledDeriv
  have c6 : ContinuousAt (fun q : ℝ × (E × ℝ) =>
      ((-(2 * Real.pi * (q.2.2 ^ 2)⁻¹)) • ContinuousLinearMap.snd ℝ E ℝ).smulRight (a q.2.1 + b (2 * Real.pi * q.1)))
      (s, p) := by
    have : ∀ q : ℝ × (E × ℝ), ((-(2 * Real.pi * (q.2.2 ^ 2)⁻¹)) • ContinuousLinearMap.snd ℝ E ℝ).smulRight
        (a q.2.1 + b (2 * Real.pi * q.1)) = (-(2 * Real.pi * (q.2.2 ^ 2)⁻¹)) •
          ContinuousLinearMap.smulRightL ℝ (E × ℝ) E (ContinuousLinearMap.snd ℝ E ℝ) (a q.2.1 + b (2 * Real.pi * q.1)) := by
      intro q
      ext x <;> simp [mul_comm, add_comm]
    simp only [this]
    exact ((continuousAt_const.mul c3).neg).smul
      ((ContinuousLinearMap.smulRightL ℝ (E × ℝ) E (ContinuousLinearMap.snd ℝ E ℝ)).continuous.continuousAt.comp c4)
  have c7 := ((continuousAt_const (y := 2 * Real.pi)).mul c2).smul c5
  have c8 := c7.add c6
  exact continuousAt_const.clm_comp c8

/-- The derivative of the end point of one period with respect to initial state and frequency. `Φ` solves the
variational equation, `ζ` is the sensitivity to the frequency at fixed time. -/
theorem shoot_sens (ha : ∀ z, HasFDerivAt a (a' z) z) (hac : Continuous a') (hb : ∀ θ, HasDerivAt b (b' θ) θ)
    {w : ℝ} (hw : 0 < w) {z ζ : ℝ → E} {Φ : ℝ → E →L[ℝ] E}
    (hz : ∀ t ∈ Icc 0 (2 * Real.pi / w), HasDerivWithinAt z (a (z t) + b (w * t)) (Icc 0 (2 * Real.pi / w)) t)
    (hΦ0 : ∀ h, Φ 0 h = h)
    (hΦ : ∀ h, ∀ t ∈ Icc 0 (2 * Real.pi / w),
      HasDerivWithinAt (fun t => Φ t h) (a' (z t) (Φ t h)) (Icc 0 (2 * Real.pi / w)) t)
    (hζ0 : ζ 0 = 0)
    (hζ : ∀ t ∈ Icc 0 (2 * Real.pi / w),
      HasDerivWithinAt ζ (t • b' (w * t) + a' (z t) (ζ t)) (Icc 0 (2 * Real.pi / w)) t)
    (Z : E × ℝ → ℝ → E)
    (hZ : ∀ᶠ p in 𝓝 0, Z p 0 = z 0 + p.1 ∧ ∀ t ∈ Icc 0 (2 * Real.pi / (w + p.2)),
      HasDerivWithinAt (Z p) (a (Z p t) + b ((w + p.2) * t)) (Icc 0 (2 * Real.pi / (w + p.2))) t) :
    HasFDerivAt (fun p : E × ℝ => Z p (2 * Real.pi / (w + p.2)))
      ((Φ (2 * Real.pi / w)).comp (ContinuousLinearMap.fst ℝ E ℝ) + (ContinuousLinearMap.snd ℝ E ℝ).smulRight
        (ζ (2 * Real.pi / w) - (2 * Real.pi / w ^ 2) • (a (z (2 * Real.pi / w)) + b (2 * Real.pi)))) 0 := by
  have hpi := Real.pi_pos
  set T := 2 * Real.pi / w with hT
  have hT0 : 0 < T := by positivity
  have hwT : ∀ s, w * (T * s) = 2 * Real.pi * s := by intro s; rw [hT]; field_simp
  have hTw : 2 * Real.pi * w⁻¹ = T := by rw [hT, div_eq_mul_inv]
  have hac0 : Continuous a := continuous_iff_continuousAt.2 fun z => (ha z).continuousAt
  have hbc : Continuous b := continuous_iff_continuousAt.2 fun z => (hb z).continuousAt
  -- base solution in scaled time
  have hz1 := rescale hT0 hz
  set y0 : ℝ → E × ℝ := fun s => (z (T * s), w) with hy0def
  have hy0 : ∀ s ∈ Icc (0:ℝ) 1, HasDerivWithinAt y0 (scaledField a b s (y0 s)) (Icc 0 1) s := by
    intro s hs
    have h1 := (hz1 s hs).prodMk (hasDerivWithinAt_const s (Icc 0 1) w)
    have : scaledField a b s (y0 s) = (T • (a (z (T * s)) + b (w * (T * s))), 0) := by
      simp only [scaledField, y0, hwT, hTw]
    rw [this]
    exact h1
  have hcont : ContinuousOn y0 (Icc 0 1) := fun s hs => (hy0 s hs).continuousWithinAt
  have hV : IsOpen {p : E × ℝ | 0 < p.2} := isOpen_lt continuous_const continuous_snd
  have hmem : ∀ s ∈ Icc (0:ℝ) 1, y0 s ∈ {p : E × ℝ | 0 < p.2} := fun s _ => hw
  have hF := unifDiff_of_continuous (F := scaledField a b) (G := scaledDeriv a a' b) hV hcont hmem
    (fun s p hp => scaledDeriv_continuousAt ha hac hbc s p hp) (fun s p hp => scaledField_hasFDerivAt ha s p hp)
  -- bound of the derivative along the solution
  obtain ⟨K, hK, hA⟩ : ∃ K > 0, ∀ s ∈ Icc (0:ℝ) 1, ‖scaledDeriv a a' b s (y0 s)‖ ≤ K := by
    have hc : ContinuousOn (fun s => scaledDeriv a a' b s (y0 s)) (Icc 0 1) := by
      intro s hs
      exact ContinuousAt.comp_continuousWithinAt (f := fun s => (s, y0 s))
        (g := fun q : ℝ × (E × ℝ) => scaledDeriv a a' b q.1 q.2)
        (scaledDeriv_continuousAt ha hac hbc s (y0 s) (hmem s hs))
        (continuousWithinAt_id.prodMk (hcont s hs))
    obtain ⟨K, hK⟩ := isCompact_Icc.exists_bound_of_continuousOn hc
    exact ⟨max K 1, by positivity, fun s hs => (hK s hs).trans (le_max_left _ _)⟩
  -- the fundamental solution
  set η : ℝ → E := fun t => ζ t - (t / w) • (a (z t) + b (w * t)) with hη
  have hη' : ∀ t ∈ Icc 0 T, HasDerivWithinAt η (a' (z t) (η t) - w⁻¹ • (a (z t) + b (w * t))) (Icc 0 T) t := by
    intro t ht
    have d1 : HasDerivWithinAt (fun t => a (z t)) (a' (z t) (a (z t) + b (w * t))) (Icc 0 T) t :=
      (ha (z t)).comp_hasDerivWithinAt t (hz t ht)
    have d2 : HasDerivWithinAt (fun t => b (w * t)) (w • b' (w * t)) (Icc 0 T) t := by
      have h1 : HasDerivAt (fun t => w * t) w t := by simpa using (hasDerivAt_id t).const_mul w
      exact ((hb (w * t)).scomp t h1).hasDerivWithinAt
    have d3 : HasDerivWithinAt (fun t => t / w) (w⁻¹) (Icc 0 T) t := by
      simpa using ((hasDerivAt_id t).div_const w).hasDerivWithinAt
    refine ((hζ t ht).sub (d3.smul (d1.add d2))).congr_deriv ?_
    have : t / w * w = t := by field_simp
    simp only [hη, Pi.add_apply, map_sub, map_add, ContinuousLinearMap.map_smul, smul_add, smul_smul, this]
    abel
  have hη1 := rescale hT0 hη'
  set Ψ : ℝ → E × ℝ →L[ℝ] E × ℝ := fun s =>
    ((Φ (T * s)).comp (ContinuousLinearMap.fst ℝ E ℝ) + (ContinuousLinearMap.snd ℝ E ℝ).smulRight (η (T * s))).prod
      (ContinuousLinearMap.snd ℝ E ℝ) with hΨ
  have hΨ0 : ∀ h, Ψ 0 h = h := by
    intro h
    refine Prod.ext ?_ rfl
    simp [hΨ, hη, hΦ0, hζ0]
  have hΨ' : ∀ h, ∀ s ∈ Icc (0:ℝ) 1,
      HasDerivWithinAt (fun s => Ψ s h) (scaledDeriv a a' b s (y0 s) (Ψ s h)) (Icc 0 1) s := by
    intro h s hs
    have e1 := rescale hT0 (hΦ h.1) s hs
    have e2 := ((e1.add ((hη1 s hs).const_smul h.2)).prodMk (hasDerivWithinAt_const s (Icc 0 1) h.2))
    refine e2.congr_deriv ?_
    refine Prod.ext ?_ (by simp [scaledDeriv])
    simp only [scaledDeriv, y0, hΨ, hwT, hTw, ContinuousLinearMap.comp_apply, ContinuousLinearMap.inl_apply,
      add_apply, smul_apply, ContinuousLinearMap.prod_apply,
      ContinuousLinearMap.coe_fst', ContinuousLinearMap.coe_snd', ContinuousLinearMap.smulRight_apply,
      map_add, map_smul, smul_add, smul_sub, smul_smul, smul_eq_mul, Prod.fst_add, Prod.smul_fst]
    have : 2 * Real.pi * (w ^ 2)⁻¹ = T * w⁻¹ := by rw [hT]; field_simp
    rw [neg_mul, this, neg_smul, neg_smul, show h.2 * (T * w⁻¹) = T * w⁻¹ * h.2 by ring, mul_comm h.2 T]
    abel
  -- the family of solutions
  set Y : E × ℝ → ℝ → E × ℝ := fun p s => (Z p (2 * Real.pi / (w + p.2) * s), w + p.2) with hY
  have hYsol : ∀ᶠ p in 𝓝 (0 : E × ℝ), Y p 0 = y0 0 + p ∧
      ∀ s ∈ Icc (0:ℝ) 1, HasDerivWithinAt (Y p) (scaledField a b s (Y p s)) (Icc 0 1) s := by
    have hpos : ∀ᶠ p in 𝓝 (0 : E × ℝ), 0 < w + p.2 := by
      have : Tendsto (fun p : E × ℝ => w + p.2) (𝓝 0) (𝓝 (w + 0)) :=
        (continuous_const.add continuous_snd).tendsto (0 : E × ℝ)
      rw [add_zero] at this
      exact this.eventually (lt_mem_nhds hw)
    filter_upwards [hZ, hpos] with p ⟨h0, hs⟩ hp
    constructor
    · refine Prod.ext ?_ rfl
      simp [hY, y0, h0]
    · intro s hs'
      have e1 := (rescale (T := 2 * Real.pi / (w + p.2)) (by positivity) hs s hs').prodMk
        (hasDerivWithinAt_const s (Icc 0 1) (w + p.2))
      refine e1.congr_deriv ?_
      have : (w + p.2) * (2 * Real.pi / (w + p.2) * s) = 2 * Real.pi * s := by field_simp
      simp only [scaledField, hY, this]
      rw [div_eq_mul_inv]
  have key := ode_sens hK hA hF hy0 Ψ hΨ0 hΨ' Y hYsol
  have := (hasFDerivAt_fst (𝕜 := ℝ) (p := Y 0 1)).comp (0 : E × ℝ) key
  have e : (fun p : E × ℝ => Z p (2 * Real.pi / (w + p.2))) = Prod.fst ∘ fun h => Y h 1 := by
    funext p; simp [hY]
  rw [e]
  refine this.congr_fderiv ?_
  ext x
  · simp [hΨ]
  · have : T * w⁻¹ = 2 * Real.pi / w ^ 2 := by rw [hT]; field_simp
    have h2 : w * T = 2 * Real.pi := by rw [hT]; field_simp
    simp [hΨ, hη, h2, div_eq_mul_inv, this]

/-- Two solutions with the same initial value agree. -/
theorem shoot_unique (ha : ∀ z, HasFDerivAt a (a' z) z) (hac : Continuous a') (b : ℝ → E)
    {T : ℝ} (hT : 0 < T) {z y : ℝ → E}
    (hz : ∀ t ∈ Icc 0 T, HasDerivWithinAt z (a (z t) + b t) (Icc 0 T) t)
    (hy : ∀ t ∈ Icc 0 T, HasDerivWithinAt y (a (y t) + b t) (Icc 0 T) t)
    (h0 : y 0 = z 0) : ∀ t ∈ Icc 0 T, y t = z t := by
  set F : ℝ → E → E := fun s x => T • (a x + b (T * s))
  set G : ℝ → E → E →L[ℝ] E := fun _ x => T • a' x
  have hz1 := rescale hT hz
  have hy1 := rescale hT hy
  have hcont : ContinuousOn (fun s => z (T * s)) (Icc 0 1) := fun s hs => (hz1 s hs).continuousWithinAt
  have hF := unifDiff_of_continuous (F := F) (G := G) (V := univ) isOpen_univ hcont (fun _ _ => mem_univ _)
    (fun s x _ => by fun_prop) (fun s x _ => ((ha x).add_const _).const_smul T)
  obtain ⟨K, hK⟩ := isCompact_Icc.exists_bound_of_continuousOn (f := fun s => T • a' (z (T * s))) (s := Icc (0:ℝ) 1)
    ((hac.comp_continuousOn hcont).const_smul T)
  have hK0 : 0 ≤ K := (norm_nonneg _).trans (hK 0 ⟨le_rfl, zero_le_one⟩)
  obtain ⟨δ, hδ, hc⟩ := hF 1 one_pos
  have := sens_close (F := F) (y0 := fun s => z (T * s)) (A := fun s => G s (z (T * s))) hK0 hK hz1 hc
    (y := fun s => y (T * s)) hy1 (by simp only [mul_zero, h0, sub_self, norm_zero, zero_mul]; exact hδ)
  intro t ht
  have h1 := this (t / T) ⟨div_nonneg ht.1 hT.le, (div_le_one hT).2 ht.2⟩
  simp only [mul_zero, h0, sub_self, norm_zero, zero_mul] at h1
  rw [mul_div_cancel₀ _ hT.ne'] at h1
  exact sub_eq_zero.1 (norm_le_zero_iff.1 h1)

end

end TMD
