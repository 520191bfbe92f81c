import Verif.Props.SolverConverges
import Verif.Props.SolverOMP
import Mathlib.Analysis.Calculus.MeanValue
import Mathlib.Topology.MetricSpace.Thickening
import Mathlib.Topology.MetricSpace.ProperSpace.Real
import Mathlib.Analysis.Normed.Group.Pointwise

/-! # Newton's method along a compact set of regular points -/

namespace TMD

open Metric Set

variable {n : ℕ} {F : Type*} [NormedAddCommGroup F] [NormedSpace ℝ F]

/-- On a compact set where the kernels of `A z` are lines, the map bordered by a kernel vector is bounded below uniformly, also when the
inner product has weights. -/
theorem uniform_bound {T : Set (Fin n → ℝ)} (hT : IsCompact T) {A : (Fin n → ℝ) → ((Fin n → ℝ) →L[ℝ] F)} (hA : ContinuousOn A T)
    (hker : ∀ z ∈ T, ∀ u v, A z u = 0 → A z v = 0 → u ≠ 0 → ∃ s : ℝ, v = s • u) {q1 q2 : ℝ} (hq : 0 < q1) :
    ∃ m > 0, ∀ z ∈ T, ∀ q : Fin n → ℝ, (∀ j, q1 ≤ q j ∧ q j ≤ q2) → ∀ d, A z d = 0 → ∀ v,
      m * ‖d‖ * ‖v‖ ≤ ‖d‖ * ‖A z v‖ + |∑ j, q j * (d j * v j)| := by
  let P : Set ((Fin n → ℝ) × (Fin n → ℝ) × (Fin n → ℝ) × (Fin n → ℝ)) := T ×ˢ (Icc (fun _ => q1) (fun _ => q2)) ×ˢ (sphere 0 1) ×ˢ (sphere 0 1)
  have hP : IsCompact P := hT.prod (isCompact_Icc.prod ((isCompact_sphere _ _).prod (isCompact_sphere _ _)))
  have hAP : ContinuousOn (fun p : (Fin n → ℝ) × (Fin n → ℝ) × (Fin n → ℝ) × (Fin n → ℝ) => A p.1) P :=
    hA.comp continuousOn_fst fun p hp => hp.1
  have hd : ContinuousOn (fun p : (Fin n → ℝ) × (Fin n → ℝ) × (Fin n → ℝ) × (Fin n → ℝ) => A p.1 p.2.2.1) P :=
    hAP.clm_apply (by fun_prop)
  have hv : ContinuousOn (fun p : (Fin n → ℝ) × (Fin n → ℝ) × (Fin n → ℝ) × (Fin n → ℝ) => A p.1 p.2.2.2) P :=
    hAP.clm_apply (by fun_prop)
  have hS : IsCompact (P ∩ (fun p : (Fin n → ℝ) × (Fin n → ℝ) × (Fin n → ℝ) × (Fin n → ℝ) => A p.1 p.2.2.1) ⁻¹' {0}) :=
    hP.of_isClosed_subset (hd.preimage_isClosed_of_isClosed hP.isClosed isClosed_singleton) inter_subset_left
  have hφ : ContinuousOn (fun p : (Fin n → ℝ) × (Fin n → ℝ) × (Fin n → ℝ) × (Fin n → ℝ) =>
      ‖A p.1 p.2.2.2‖ + |∑ j, p.2.1 j * (p.2.2.1 j * p.2.2.2 j)|) P :=
    hv.norm.add (Continuous.continuousOn (by fun_prop))
  have key : ∃ m > 0, ∀ z ∈ T, ∀ q : Fin n → ℝ, (∀ j, q1 ≤ q j ∧ q j ≤ q2) → ∀ d, A z d = 0 → ‖d‖ = 1 → ∀ v, ‖v‖ = 1 →
      m ≤ ‖A z v‖ + |∑ j, q j * (d j * v j)| := by
    rcases (P ∩ (fun p : (Fin n → ℝ) × (Fin n → ℝ) × (Fin n → ℝ) × (Fin n → ℝ) => A p.1 p.2.2.1) ⁻¹' {0}).eq_empty_or_nonempty with he | hne
    · refine ⟨1, one_pos, fun z hz q hq d hd hd1 v hv1 => ?_⟩
      have : ((z, q, d, v) : (Fin n → ℝ) × (Fin n → ℝ) × (Fin n → ℝ) × (Fin n → ℝ)) ∈ (∅ : Set _) := by
        rw [← he]
        exact ⟨⟨hz, ⟨fun j => (hq j).1, fun j => (hq j).2⟩, by simpa using hd1, by simpa using hv1⟩, hd⟩
      exact absurd this (notMem_empty _)
    · obtain ⟨⟨z0, q0, d0, v0⟩, ⟨⟨h1, h2, h3, h4⟩, h5⟩, hmin⟩ := hS.exists_isMinOn hne (hφ.mono inter_subset_left)
      refine ⟨‖A z0 v0‖ + |∑ j, q0 j * (d0 j * v0 j)|, ?_, fun z hz q hq d hd hd1 v hv1 => ?_⟩
      · have h3' : ‖d0‖ = 1 := by simpa using h3
        have h4' : ‖v0‖ = 1 := by simpa using h4
        have h5' : A z0 d0 = 0 := h5
        rcases (add_nonneg (norm_nonneg (A z0 v0)) (abs_nonneg (∑ j, q0 j * (d0 j * v0 j)))).lt_or_eq with h | h
        · exact h
        · have a1 : ‖A z0 v0‖ = 0 := by linarith [norm_nonneg (A z0 v0), abs_nonneg (∑ j, q0 j * (d0 j * v0 j))]
          have a2 : ∑ j, q0 j * (d0 j * v0 j) = 0 := abs_eq_zero.1 (by linarith [norm_nonneg (A z0 v0), abs_nonneg (∑ j, q0 j * (d0 j * v0 j))])
          obtain ⟨s, hs⟩ := hker z0 h1 d0 v0 h5' (norm_eq_zero.1 a1) (fun h0 => by rw [h0, norm_zero] at h3'; exact zero_ne_one h3')
          have hqpos : ∀ j, 0 < q0 j := fun j => hq.trans_le (h2.1 j)
          have a3 : ∑ j, q0 j * (d0 j * v0 j) = s * ∑ j, q0 j * d0 j ^ 2 := by
            rw [Finset.mul_sum]
            exact Finset.sum_congr rfl fun j _ => by rw [hs]; simp only [Pi.smul_apply, smul_eq_mul]; ring
          have hs0 : s ≠ 0 := fun h0 => by rw [hs, h0, zero_smul, norm_zero] at h4'; exact zero_ne_one h4'
          have a4 : ∑ j, q0 j * d0 j ^ 2 = 0 := (mul_eq_zero.1 (a3 ▸ a2)).resolve_left hs0
          have a5 : d0 = 0 := funext fun j => by
            have := (Finset.sum_eq_zero_iff_of_nonneg fun j _ => mul_nonneg (hqpos j).le (sq_nonneg (d0 j))).1 a4 j (Finset.mem_univ j)
            simpa [(hqpos j).ne'] using this
          rw [a5, norm_zero] at h3'
          exact absurd h3' zero_ne_one
      · exact hmin (a := (z, q, d, v)) ⟨⟨hz, ⟨fun j => (hq j).1, fun j => (hq j).2⟩, by simpa using hd1, by simpa using hv1⟩, hd⟩
  obtain ⟨m, hm, H⟩ := key
  refine ⟨m, hm, fun z hz q hq d hd v => ?_⟩
  rcases eq_or_ne d 0 with rfl | hd0
  · simp
  rcases eq_or_ne v 0 with rfl | hv0
  · simp
  have hdn := norm_pos_iff.2 hd0
  have hvn := norm_pos_iff.2 hv0
  have := H z hz q hq (‖d‖⁻¹ • d) (by rw [map_smul, hd, smul_zero]) (by rw [norm_smul, norm_inv, norm_norm, inv_mul_cancel₀ hdn.ne'])
    (‖v‖⁻¹ • v) (by rw [norm_smul, norm_inv, norm_norm, inv_mul_cancel₀ hvn.ne'])
  rw [map_smul, norm_smul, norm_inv, norm_norm, show ∑ j, q j * ((‖d‖⁻¹ • d) j * (‖v‖⁻¹ • v) j) = (‖d‖⁻¹ * ‖v‖⁻¹) * ∑ j, q j * (d j * v j) by
    rw [Finset.mul_sum]; exact Finset.sum_congr rfl fun j _ => by simp only [Pi.smul_apply, smul_eq_mul]; ring, abs_mul,
    abs_of_pos (by positivity : (0 : ℝ) < ‖d‖⁻¹ * ‖v‖⁻¹)] at this
  have h2 := mul_le_mul_of_nonneg_left this (mul_pos hdn hvn).le
  rw [show ‖d‖ * ‖v‖ * (‖v‖⁻¹ * ‖A z v‖ + ‖d‖⁻¹ * ‖v‖⁻¹ * |∑ j, q j * (d j * v j)|)
    = ‖d‖ * ‖A z v‖ + |∑ j, q j * (d j * v j)| by field_simp] at h2
  linarith

/-- Uniform continuity near a compact set. -/
theorem uniform_near {T O : Set (Fin n → ℝ)} (hT : IsCompact T) (hO : IsOpen O) (hTO : T ⊆ O) {A : (Fin n → ℝ) → ((Fin n → ℝ) →L[ℝ] F)}
    (hA : ContinuousOn A O) {ω : ℝ} (hω : 0 < ω) : ∃ ρ > 0, ∀ z ∈ T, ∀ y, ‖y - z‖ ≤ ρ → y ∈ O ∧ ‖A y - A z‖ ≤ ω := by
  obtain ⟨δ, hδ, hsub⟩ := hT.exists_cthickening_subset_open hO hTO
  have h := hT.uniformContinuousAt_of_continuousAt A (fun a ha => hA.continuousAt (hO.mem_nhds (hTO ha))) (dist_mem_uniformity hω)
  obtain ⟨ε, hε, hsub2⟩ := mem_uniformity_dist.1 h
  refine ⟨min δ (ε / 2), lt_min hδ (by linarith), fun z hz y hy => ⟨hsub ?_, ?_⟩⟩
  · exact mem_cthickening_of_dist_le y z δ T hz (by rw [dist_eq_norm]; exact hy.trans (min_le_left _ _))
  · have := hsub2 (a := z) (b := y) (by rw [dist_comm, dist_eq_norm]; exact (hy.trans (min_le_right _ _)).trans_lt (by linarith)) hz
    have h3 : dist (A z) (A y) < ω := this
    rw [dist_comm, dist_eq_norm] at h3
    exact h3.le

/-- The remainder of the linear approximation in a ball where the derivative varies little. -/
theorem remainder_le {g : (Fin n → ℝ) → F} {A : (Fin n → ℝ) → ((Fin n → ℝ) →L[ℝ] F)} {x0 : Fin n → ℝ} {ρ ω : ℝ}
    (hg : ∀ y, ‖y - x0‖ ≤ ρ → HasFDerivAt g (A y) y) (hA : ∀ y, ‖y - x0‖ ≤ ρ → ‖A y - A x0‖ ≤ ω) {x y : Fin n → ℝ}
    (hx : ‖x - x0‖ ≤ ρ) (hy : ‖y - x0‖ ≤ ρ) :
    ‖g y - g x - A x0 (y - x)‖ ≤ ω * ‖y - x‖ ∧ ‖g y - g x - A x (y - x)‖ ≤ 2 * ω * ‖y - x‖ := by
  have h := Convex.norm_image_sub_le_of_norm_hasFDerivWithin_le' (s := closedBall x0 ρ) (f := g) (f' := A) (φ := A x0) (C := ω)
    (fun z hz => (hg z (mem_closedBall_iff_norm.1 hz)).hasFDerivWithinAt) (fun z hz => hA z (mem_closedBall_iff_norm.1 hz)) (convex_closedBall _ _)
    (mem_closedBall_iff_norm.2 hx) (mem_closedBall_iff_norm.2 hy)
  refine ⟨h, ?_⟩
  have h2 : ‖(A x - A x0) (y - x)‖ ≤ ω * ‖y - x‖ := ((A x - A x0).le_opNorm _).trans (mul_le_mul_of_nonneg_right (hA x hx) (norm_nonneg _))
  have e : g y - g x - A x (y - x) = (g y - g x - A x0 (y - x)) - (A x - A x0) (y - x) := by
    simp only [sub_apply]; abel
  rw [e]
  exact (norm_sub_le _ _).trans (by linarith)

omit [NormedSpace ℝ F] in
/-- Points of a neighbourhood with a small value of `g` are close to the zeros. -/
theorem small_near_zero {g : (Fin n → ℝ) → F} {K T B : Set (Fin n → ℝ)} (hT : IsCompact T) (hg : ContinuousOn g T) (hB : IsClosed B)
    (hK : ∀ z ∈ T, z ∈ B → g z = 0 → z ∈ K) {ε : ℝ} (hε : 0 < ε) : ∃ γ > 0, ∀ z ∈ T, z ∈ B → ‖g z‖ < γ → z ∈ thickening ε K := by
  have hS : IsCompact ((T ∩ B) \ thickening ε K) := (hT.inter_right hB).diff isOpen_thickening
  rcases ((T ∩ B) \ thickening ε K).eq_empty_or_nonempty with he | hne
  · exact ⟨1, one_pos, fun z h1 h2 _ => by_contra fun h3 => by
      have : z ∈ (T ∩ B) \ thickening ε K := ⟨⟨h1, h2⟩, h3⟩
      rw [he] at this; exact this⟩
  · obtain ⟨z0, hz0, hmin⟩ := hS.exists_isMinOn hne (hg.mono fun z hz => hz.1.1).norm
    refine ⟨‖g z0‖, norm_pos_iff.2 fun h0 => hz0.2 (self_subset_thickening hε _ (hK z0 hz0.1.1 hz0.1.2 h0)), fun z h1 h2 h3 => ?_⟩
    by_contra h4
    exact absurd (hmin (a := z) ⟨⟨h1, h2⟩, h4⟩) (not_le.2 h3)

variable {L : Type} {inf : ℝ} {fac : Matrix (Fin n) (Fin n) ℝ → L} {sol : L → (Fin n → ℝ) → (Fin n → ℝ)}
  {c : OmpConfig ℝ} {f : SolveFun (Fin n → ℝ) (Matrix (Fin n) (Fin n) ℝ)} {t : ℝ}

/-- The loop, when every step at least halves a bound `σ` of the next one. -/
theorem solveLoop_halving {I : (Fin n → ℝ) → ℝ → Prop} (hc : PlainNewton c) (ht : c.tol .xtol = some t)
    (hstep : ∀ X σ, I X σ → ∃ R D, f X true = .ok (R, D) ∧ ‖sol (fac D) R‖ ≤ σ ∧ I (X - sol (fac D) R) (σ / 2)) :
    ∀ (k i : ℕ) (st : OmpSt ℝ (Fin n → ℝ) (Matrix (Fin n) (Fin n) ℝ) L) (σ : ℝ), st.bfgsInd = 0 → I st.X σ → (∃ j < k, Real.sqrt n * (1 / 2) ^ j * σ < t) →
      ∃ st', solveLoop (realArith n inf fac sol) c f k i st = .ok (st', .converged) ∧ st'.R.isSome ∧ st'.jac.isSome ∧
        ∃ X τ R D, I X τ ∧ f X true = .ok (R, D) ∧ st'.X = X - sol (fac D) R ∧ ‖sol (fac D) R‖ < t := by
  intro k
  induction k with
  | zero => rintro i st σ - - ⟨j, hj, -⟩; exact absurd hj (by omega)
  | succ k ih =>
    rintro i st σ hb hI ⟨j, hj, hjt⟩
    obtain ⟨R, D, hf, hs, hI'⟩ := hstep st.X σ hI
    have e : ∀ x : Fin n → ℝ, x + -sol (fac D) R = x - sol (fac D) R := fun x => (sub_eq_add_neg _ _).symm
    obtain ⟨st1, a1, a2, a3, a4, -, -, -, ⟨hlt, a5⟩ | ⟨hlt, b5⟩⟩ := solveLoop_step (inf := inf) hc ht k i st hb hf rfl
    · refine ⟨st1, a5, by simp [a3], by simp [a4], st.X, σ, R, D, hI, hf, by rw [a2, e], ?_⟩
      have := (norm_le_euclid (-sol (fac D) R)).trans_lt hlt
      rwa [norm_neg] at this
    · rcases j with _ | j
      · exfalso
        refine hlt (lt_of_le_of_lt (euclid_le_norm _) (lt_of_le_of_lt ?_ hjt))
        rw [norm_neg, pow_zero, mul_one]
        exact mul_le_mul_of_nonneg_left hs (Real.sqrt_nonneg _)
      · obtain ⟨st', c1, c2, c3, c4⟩ := ih (i + 1) st1 (σ / 2) a1 (by rw [a2, e]; exact hI')
          ⟨j, by omega, by rw [pow_succ] at hjt; linarith⟩
        exact ⟨st', by rw [b5, c1], c2, c3, c4⟩

/-- The call, when every step at least halves a bound of the next one. -/
theorem nsolve_halving {I : (Fin n → ℝ) → ℝ → Prop} (hc : PlainNewton c) {X0 : Fin n → ℝ} {σ : ℝ}
    (hstep : ∀ X σ, I X σ → ∃ R D, f X true = .ok (R, D) ∧ ‖sol (fac D) R‖ ≤ σ ∧ I (X - sol (fac D) R) (σ / 2)) (hX : I X0 σ)
    {K : ℕ} (hK : Real.sqrt n * (1 / 2) ^ K * σ < t) (hm : K < c.maxSteps) :
    ∃ res, nsolveOMP (realArith n inf fac sol) c f X0 (some t) = (.ok res, c) ∧ res.success = true ∧ 0 < res.nfev ∧
      ∃ X τ R D, I X τ ∧ f X true = .ok (R, D) ∧ res.X = X - sol (fac D) R ∧ ‖sol (fac D) R‖ < t := by
  have hc' : PlainNewton (c.withXtol (some t)) := ⟨hc.reform, hc.line, hc.stop⟩
  have ht' : (c.withXtol (some t)).tol .xtol = some t := by simp [OmpConfig.withXtol]
  obtain ⟨st', h1, h2, h3, h4⟩ := solveLoop_halving (inf := inf) hc' ht' hstep c.maxSteps 0
    (startSt (realArith n inf fac sol) X0) σ rfl hX ⟨K, hm, hK⟩
  obtain ⟨res, a1, a2, a3, -⟩ := nsolve_converged (xtol := some t) (t := t) rfl h2 h3 h1
  obtain ⟨-, it, k, -, -, -, -, -, -, -, -, hrep⟩ := C15_report _ _ _ _ _ _ _ a1
  obtain ⟨b1, b2, -⟩ := hrep a2
  exact ⟨res, a1, a2, by omega, by rw [a3]; exact h4⟩

/-- One corrector solve of the linear arc equation `w · (X - p) = 0` near a point `x0` where the derivative of `g`, bordered by `w`, is bounded
below by `m` and varies by at most `m / 8` within `ρ`. The solver gets the residual and its matrix with any scaling of the rows. -/
theorem tube_solve {g : (Fin n → ℝ) → F} {A : (Fin n → ℝ) → ((Fin n → ℝ) →L[ℝ] F)} {x0 p w : Fin n → ℝ} {ρ m σ : ℝ} (hm : 0 < m)
    (hsol : ExactSolve fac sol) (hg : ∀ y, ‖y - x0‖ ≤ ρ → HasFDerivAt g (A y) y) (hA : ∀ y, ‖y - x0‖ ≤ ρ → ‖A y - A x0‖ ≤ m / 8)
    (hlow : ∀ v, ∑ j, w j * v j = 0 → m * ‖v‖ ≤ ‖A x0 v‖) (hp : ‖p - x0‖ + 2 * σ ≤ ρ) (hgp : ‖g p‖ ≤ m / 2 * σ)
    (hf : ∀ X, ‖X - x0‖ ≤ ρ → ∃ R D, f X true = .ok (R, D) ∧
      (∀ v, D.mulVec v = R ↔ A X v = g X ∧ ∑ j, w j * v j = ∑ j, w j * (X j - p j)) ∧
      (∀ v, D.mulVec v = 0 → A X v = 0 ∧ ∑ j, w j * v j = 0))
    (hc : PlainNewton c) {K : ℕ} (hK : Real.sqrt n * (1 / 2) ^ K * σ < t) (hM : K < c.maxSteps) :
    ∃ res, nsolveOMP (realArith n inf fac sol) c f p (some t) = (.ok res, c) ∧ res.success = true ∧ 0 < res.nfev ∧
      ‖res.X - p‖ ≤ 2 * σ ∧ ‖g res.X‖ ≤ m / 4 * t ∧ ∑ j, w j * (res.X j - p j) = 0 := by
  have hs0 : 0 ≤ σ := by
    have := (norm_nonneg _).trans hgp
    by_contra h
    nlinarith
  -- the step from a point
  have step : ∀ X σ', 0 ≤ σ' → ‖X - x0‖ + 2 * σ' ≤ ρ → ∑ j, w j * (X j - p j) = 0 → ‖g X‖ ≤ m / 2 * σ' →
      ∃ R D, f X true = .ok (R, D) ∧ ‖sol (fac D) R‖ ≤ σ' ∧ ∑ j, w j * ((X - sol (fac D) R) j - p j) = 0 ∧
        ‖g (X - sol (fac D) R)‖ ≤ m / 4 * ‖sol (fac D) R‖ := by
    intro X σ' hσ' hX hw hgX
    have hXρ : ‖X - x0‖ ≤ ρ := by linarith
    obtain ⟨R, D, h1, h2, h3⟩ := hf X hXρ
    have hlow' : ∀ v, ∑ j, w j * v j = 0 → 7 / 8 * m * ‖v‖ ≤ ‖A X v‖ := fun v hv => by
      have a := hlow v hv
      have b : ‖(A X - A x0) v‖ ≤ m / 8 * ‖v‖ := ((A X - A x0).le_opNorm _).trans (mul_le_mul_of_nonneg_right (hA X hXρ) (norm_nonneg _))
      have e : A x0 v = A X v - (A X - A x0) v := by simp only [sub_apply]; abel
      have d := norm_sub_le (A X v) ((A X - A x0) v)
      rw [← e] at d
      linarith
    have hdet : IsUnit D.det := by
      rw [isUnit_iff_ne_zero]
      intro hz
      obtain ⟨v, hv, hv0⟩ := Matrix.exists_mulVec_eq_zero_iff.2 hz
      obtain ⟨b1, b2⟩ := h3 v hv0
      have := hlow' v b2
      rw [b1, norm_zero] at this
      have hvn := norm_pos_iff.2 hv
      nlinarith
    obtain ⟨b1, b2⟩ := (h2 _).1 (hsol D R hdet)
    rw [hw] at b2
    have hn : ‖sol (fac D) R‖ ≤ σ' := by
      have := hlow' _ b2
      rw [b1] at this
      have h5 : 7 / 8 * ‖sol (fac D) R‖ ≤ σ' / 2 := by
        by_contra h
        nlinarith
      linarith [norm_nonneg (sol (fac D) R)]
    refine ⟨R, D, h1, hn, ?_, ?_⟩
    · rw [show ∑ j, w j * ((X - sol (fac D) R) j - p j) = ∑ j, w j * (X j - p j) - ∑ j, w j * sol (fac D) R j by
        rw [← Finset.sum_sub_distrib]; exact Finset.sum_congr rfl fun j _ => by simp only [Pi.sub_apply]; ring, hw, b2, sub_zero]
    · have hy : ‖X - sol (fac D) R - x0‖ ≤ ρ := by
        rw [show X - sol (fac D) R - x0 = (X - x0) - sol (fac D) R by abel]
        exact (norm_sub_le _ _).trans (by linarith)
      have := (remainder_le hg hA hXρ hy).2
      rw [show X - sol (fac D) R - X = -sol (fac D) R by abel, map_neg, b1, sub_neg_eq_add, sub_add_cancel, norm_neg] at this
      linarith
  obtain ⟨res, h1, h2, h3, X, τ, R, D, ⟨i1, i2, i3, i4, i5⟩, h4, h5, h6⟩ := nsolve_halving (inf := inf) (fac := fac) (sol := sol) (f := f) (t := t)
    (I := fun X σ' => 0 ≤ σ' ∧ ‖X - x0‖ + 2 * σ' ≤ ρ ∧ ∑ j, w j * (X j - p j) = 0 ∧ ‖g X‖ ≤ m / 2 * σ' ∧ ‖X - p‖ + 2 * σ' ≤ 2 * σ) hc (X0 := p) (σ := σ)
    (fun X σ' ⟨i1, i2, i3, i4, i5⟩ => by
      obtain ⟨R, D, h1, h2, h3, h4⟩ := step X σ' i1 i2 i3 i4
      refine ⟨R, D, h1, h2, by linarith, ?_, h3, ?_, ?_⟩
      · rw [show X - sol (fac D) R - x0 = (X - x0) - sol (fac D) R by abel]
        have := norm_sub_le (X - x0) (sol (fac D) R)
        linarith
      · refine h4.trans ?_
        rw [show m / 2 * (σ' / 2) = m / 4 * σ' by ring]
        exact mul_le_mul_of_nonneg_left h2 (by positivity)
      · rw [show X - sol (fac D) R - p = (X - p) - sol (fac D) R by abel]
        have := norm_sub_le (X - p) (sol (fac D) R)
        linarith) ⟨hs0, hp, by simp, hgp, by simp⟩ hK hM
  obtain ⟨R', D', g1, g2, g3, g4⟩ := step X τ i1 i2 i3 i4
  rw [h4] at g1
  obtain ⟨rfl, rfl⟩ := Prod.mk.inj (Except.ok.inj g1)
  refine ⟨res, h1, h2, h3, ?_, ?_, by rw [h5]; exact g3⟩
  · rw [h5, show X - sol (fac D) R - p = (X - p) - sol (fac D) R by abel]
    exact (norm_sub_le _ _).trans (by linarith)
  · rw [h5]
    exact g4.trans (mul_le_mul_of_nonneg_left h6.le (by positivity))

end TMD
