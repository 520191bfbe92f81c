import Verif.Model.ContinuationOMP
import Verif.Props.SolverConverges
import Verif.Props.Folds
import Verif.Props.Continuation

/-!
# C131: at a regular point the continuation finds the next point
-/

namespace TMD

open Spec Finset Metric

noncomputable section

variable {N : ℕ}

/-- The physical point with offset `v` from `X0`. -/
def offPt (X0 : ℕ → ℝ) (v : Fin (N + 1) → ℝ) : ℕ → ℝ := fun i => X0 i + Spec.ext v i

/-- The gradient with respect to unknowns and parameter. -/
def fullJac (J : (ℕ → ℝ) → ℕ → ℕ → ℝ) (D : (ℕ → ℝ) → ℕ → ℝ) (X : ℕ → ℝ) (i j : ℕ) : ℝ := if j < N then J X i j else D X i

/-- The user's function near the point `X0` of the solution set: it returns numbers everywhere, depends on the first `N + 1` entries,
has the returned derivatives near `X0`, and these are continuous in `X0`. -/
structure SmoothNear (N : ℕ) (f : ContFun) (R : (ℕ → ℝ) → ℕ → ℝ) (J : (ℕ → ℝ) → ℕ → ℕ → ℝ) (D : (ℕ → ℝ) → ℕ → ℝ) (X0 : ℕ → ℝ) : Prop where
  value : ∀ X, f X true = .ok ⟨R X, J X, D X⟩
  local' : ∀ X Y, (∀ k < N + 1, X k = Y k) → f X true = f Y true
  deriv : ∀ᶠ v in nhds (0 : Fin (N + 1) → ℝ), HasJac N (N + 1) R (fullJac (N := N) J D (offPt X0 v)) (offPt X0 v)
  cont : ∀ i < N, ∀ j < N + 1, ContinuousAt (fun v : Fin (N + 1) → ℝ => fullJac (N := N) J D (offPt X0 v) i j) 0
  zero : ∀ i < N, R X0 i = 0

variable {f : ContFun} {R : (ℕ → ℝ) → ℕ → ℝ} {J : (ℕ → ℝ) → ℕ → ℕ → ℝ} {D : (ℕ → ℝ) → ℕ → ℝ} {X0 C d : ℕ → ℝ} {b c r : ℝ}

/-- Weights of the arc length. -/
def arcWt (N : ℕ) (b c : ℝ) (j : ℕ) : ℝ := if j < N then c else b

/-- Multiplication with the conditioning. -/
def condMap (N : ℕ) (C : ℕ → ℝ) (z : Fin (N + 1) → ℝ) : Fin (N + 1) → ℝ := fun j => C j * z j

/-- The corrector equations for the step `s`, in units of the step. -/
def blowup (N : ℕ) (pseudo : Bool) (R : (ℕ → ℝ) → ℕ → ℝ) (X0 C d : ℕ → ℝ) (b c r s : ℝ) (z : Fin (N + 1) → ℝ) : Fin (N + 1) → ℝ := fun i =>
  if (i : ℕ) < N then r * R (offPt X0 (s • condMap N C z)) i / s
  else if pseudo then (∑ j : Fin (N + 1), arcWt N b c j * z j ^ 2) - 1
  else ∑ j : Fin (N + 1), arcWt N b c j * ((z j - d j) * d j)

/-- Their Jacobian. -/
def blowupJac (N : ℕ) (pseudo : Bool) (J : (ℕ → ℝ) → ℕ → ℕ → ℝ) (D : (ℕ → ℝ) → ℕ → ℝ) (X0 C d : ℕ → ℝ) (b c r s : ℝ) (z : Fin (N + 1) → ℝ) :
    Matrix (Fin (N + 1)) (Fin (N + 1)) ℝ := fun i j =>
  if (i : ℕ) < N then r * (fullJac (N := N) J D (offPt X0 (s • condMap N C z)) i j * C j)
  else if pseudo then 2 * (arcWt N b c j * z j) else arcWt N b c j * d j

theorem offPt_shift (v u : Fin (N + 1) → ℝ) : (fun k => offPt X0 v k + Spec.ext u k) = offPt X0 (v + u) := by
  funext k
  simp only [offPt, Spec.ext, add_assoc]
  split_ifs <;> simp

theorem offPt_deriv {i : ℕ} {g : ℕ → ℝ} {v : Fin (N + 1) → ℝ} (h : HasGrad (N + 1) (fun X => R X i) g (offPt X0 v)) :
    HasFDerivAt (fun u : Fin (N + 1) → ℝ => R (offPt X0 u) i) (row (N + 1) g) v := by
  unfold HasGrad at h
  simp only [offPt_shift] at h
  have h2 : HasFDerivAt (fun u : Fin (N + 1) → ℝ => u - v) (ContinuousLinearMap.id ℝ (Fin (N + 1) → ℝ)) v := (hasFDerivAt_id v).sub_const v
  have h1 : HasFDerivAt (fun u : Fin (N + 1) → ℝ => R (offPt X0 (v + u)) i) (row (N + 1) g) ((fun u : Fin (N + 1) → ℝ => u - v) v) := by
    simpa using h
  have h3 := HasFDerivAt.comp (f := fun u : Fin (N + 1) → ℝ => u - v) v h1 h2
  simp only [ContinuousLinearMap.comp_id] at h3
  refine h3.congr_of_eventuallyEq (Filter.Eventually.of_forall fun u => ?_)
  simp [Function.comp]

/-- The conditioning as a linear map. -/
def condCLM (N : ℕ) (C : ℕ → ℝ) : (Fin (N + 1) → ℝ) →L[ℝ] (Fin (N + 1) → ℝ) := jacMap (Matrix.diagonal fun j : Fin (N + 1) => C j)

theorem condCLM_apply (C : ℕ → ℝ) (z : Fin (N + 1) → ℝ) : condCLM N C z = condMap N C z := by
  funext j
  simp [condCLM, jacMap_apply, Matrix.mulVec_diagonal, condMap]

theorem blowup_deriv (pseudo : Bool) {s : ℝ} (hs0 : s ≠ 0) {z : Fin (N + 1) → ℝ}
    (hz : HasJac N (N + 1) R (fullJac (N := N) J D (offPt X0 (s • condMap N C z))) (offPt X0 (s • condMap N C z))) :
    HasFDerivAt (blowup N pseudo R X0 C d b c r s) (jacMap (blowupJac N pseudo J D X0 C d b c r s z)) z := by
  rw [hasFDerivAt_pi']
  intro i
  by_cases hi : (i : ℕ) < N
  · have h1 : HasFDerivAt (fun z => s • condCLM N C z) (s • condCLM N C) z := (condCLM N C).hasFDerivAt.const_smul s
    have h2 := offPt_deriv (hz i hi)
    have h3 : HasFDerivAt (fun u : Fin (N + 1) → ℝ => R (offPt X0 u) i) (row (N + 1) (fullJac (N := N) J D (offPt X0 (s • condMap N C z)) i))
      ((fun z => s • condCLM N C z) z) := by
      show HasFDerivAt _ _ (s • condCLM N C z)
      rw [condCLM_apply]; exact h2
    have h4 := (HasFDerivAt.comp (f := fun z => s • condCLM N C z) z h3 h1).const_mul (r / s)
    refine (h4.congr_of_eventuallyEq (Filter.Eventually.of_forall fun u => ?_)).congr_fderiv ?_
    · simp only [blowup, hi, if_true, Function.comp, condCLM_apply]
      ring
    · ext1 v
      simp only [smul_apply, ContinuousLinearMap.comp_apply, smul_eq_mul, condCLM_apply, map_smul, row_apply, jacMap_apply,
        ContinuousLinearMap.proj_apply, Matrix.mulVec, dotProduct, blowupJac, hi, if_true, condMap]
      rw [← mul_assoc, div_mul_cancel₀ _ hs0, mul_sum]
      exact sum_congr rfl fun j _ => by ring
  · have hp : ∀ j : Fin (N + 1), HasFDerivAt (fun z : Fin (N + 1) → ℝ => z j)
        (ContinuousLinearMap.proj (R := ℝ) (φ := fun _ : Fin (N + 1) => ℝ) j) z := fun j => hasFDerivAt_apply j z
    cases pseudo with
    | true =>
      have h1 := (HasFDerivAt.fun_sum (u := univ) fun j _ => ((hp j).pow 2).const_mul (arcWt N b c j)).sub_const 1
      refine (h1.congr_of_eventuallyEq (Filter.Eventually.of_forall fun u => ?_)).congr_fderiv ?_
      · simp only [blowup, hi, if_false, if_true]
      · ext1 v
        simp only [_root_.sum_apply, smul_apply, ContinuousLinearMap.proj_apply, smul_eq_mul, ContinuousLinearMap.comp_apply,
          jacMap_apply, Matrix.mulVec, dotProduct, blowupJac, hi, if_false, if_true]
        exact sum_congr rfl fun j _ => by simp; ring
    | false =>
      have h1 := HasFDerivAt.fun_sum (u := univ) fun j _ => (((hp j).sub_const (d j)).mul_const (d j)).const_mul (arcWt N b c j)
      refine (h1.congr_of_eventuallyEq (Filter.Eventually.of_forall fun u => ?_)).congr_fderiv ?_
      · simp only [blowup, hi, if_false, Bool.false_eq_true]
      · ext1 v
        simp only [_root_.sum_apply, smul_apply, ContinuousLinearMap.proj_apply, smul_eq_mul, ContinuousLinearMap.comp_apply,
          jacMap_apply, Matrix.mulVec, dotProduct, blowupJac, hi, if_false, Bool.false_eq_true]
        exact sum_congr rfl fun j _ => by ring

/-- Continuity of the Jacobian in step and point. -/
theorem blowupJac_cont (hs : SmoothNear N f R J D X0) (pseudo : Bool) (z0 : Fin (N + 1) → ℝ) :
    ContinuousAt (fun p : ℝ × (Fin (N + 1) → ℝ) => jacMap (blowupJac N pseudo J D X0 C d b c r p.1 p.2)) (0, z0) := by
  refine ContinuousAt.comp (g := jacMap) jacMap_continuous.continuousAt ?_
  refine continuousAt_pi.2 fun i => continuousAt_pi.2 fun j => ?_
  by_cases hi : (i : ℕ) < N
  · simp only [blowupJac, hi, if_true]
    refine continuousAt_const.mul (ContinuousAt.mul ?_ continuousAt_const)
    have h1 : ContinuousAt (fun p : ℝ × (Fin (N + 1) → ℝ) => p.1 • condMap N C p.2) (0, z0) := by
      have : Continuous fun p : ℝ × (Fin (N + 1) → ℝ) => p.1 • condMap N C p.2 := by
        simp only [← condCLM_apply]
        fun_prop
      exact this.continuousAt
    refine ContinuousAt.comp (f := fun p : ℝ × (Fin (N + 1) → ℝ) => p.1 • condMap N C p.2)
      (g := fun v => fullJac (N := N) J D (offPt X0 v) i j) ?_ h1
    rw [zero_smul]
    exact hs.cont i hi j j.2
  · simp only [blowupJac, hi, if_false]
    cases pseudo
    · simp only [Bool.false_eq_true, if_false]; exact continuousAt_const
    · simp only [if_true]; fun_prop

/-- The residual at the direction of the predictor vanishes in the limit of small steps. -/
theorem blowup_small (hs : SmoothNear N f R J D X0) (pseudo : Bool) (hn : ∑ j : Fin (N + 1), arcWt N b c j * d j ^ 2 = 1)
    (ht : ∀ i < N, ∑ j : Fin (N + 1), fullJac (N := N) J D X0 i j * (C j * d j) = 0) :
    Filter.Tendsto (fun s => blowup N pseudo R X0 C d b c r s fun j => d j) (nhdsWithin 0 {0}ᶜ) (nhds 0) := by
  rw [tendsto_pi_nhds]
  intro i
  by_cases hi : (i : ℕ) < N
  · have hoff : offPt X0 (0 : Fin (N + 1) → ℝ) = X0 := by
      funext k
      simp [offPt, Spec.ext]
    have h1 := offPt_deriv (hs.deriv.self_of_nhds i hi)
    have h2 : HasDerivAt (fun s : ℝ => s • condMap N C fun j => d j) (condMap N C fun j => d j) 0 := by
      simpa using (hasDerivAt_id (0 : ℝ)).smul_const (condMap N C fun j => d j)
    have h3 : HasFDerivAt (fun u : Fin (N + 1) → ℝ => R (offPt X0 u) i) (row (N + 1) (fullJac (N := N) J D (offPt X0 (0 : Fin (N + 1) → ℝ)) i))
      ((fun s : ℝ => s • condMap N C fun j => d j) 0) := by
      show HasFDerivAt _ _ ((0 : ℝ) • condMap N C fun j : Fin (N + 1) => d j)
      rw [zero_smul]; exact h1
    have h4 := h3.comp_hasDerivAt (0 : ℝ) h2
    have h5 : row (N + 1) (fullJac (N := N) J D (offPt X0 (0 : Fin (N + 1) → ℝ)) i) (condMap N C fun j => d j) = 0 := by
      rw [row_apply, hoff]
      exact ht i hi
    rw [h5] at h4
    have h6 := (hasDerivAt_iff_tendsto_slope.1 h4).const_mul r
    rw [mul_zero] at h6
    refine h6.congr fun s => ?_
    simp only [slope, vsub_eq_sub, sub_zero, smul_eq_mul, Function.comp, blowup, hi, if_true, zero_smul, hoff, hs.zero i hi]
    ring
  · refine tendsto_const_nhds.congr fun s => ?_
    simp only [blowup, hi, if_false, Pi.zero_apply]
    cases pseudo
    · simp
    · simp only [if_true, hn, sub_self]

/-- For small steps the corrector equations have a solution near the predictor, and Newton steps halve the distance to it. -/
theorem corrector_local (hs : SmoothNear N f R J D X0) (pseudo : Bool) (hn : ∑ j : Fin (N + 1), arcWt N b c j * d j ^ 2 = 1)
    (ht : ∀ i < N, ∑ j : Fin (N + 1), fullJac (N := N) J D X0 i j * (C j * d j) = 0)
    (hreg : Function.Injective (jacMap (blowupJac N pseudo J D X0 C d b c r 0 fun j => d j))) {η0 : ℝ} (hη0 : 0 < η0) :
    ∃ δ > 0, δ ≤ η0 ∧ ∃ s0 > 0, ∀ s, 0 < s → s ≤ s0 → ∃ y : Fin (N + 1) → ℝ, ‖y - fun j : Fin (N + 1) => d j‖ ≤ δ / 4 ∧ blowup N pseudo R X0 C d b c r s y = 0 ∧
      ∀ z, ‖z - fun j : Fin (N + 1) => d j‖ ≤ δ → (∀ v, (blowupJac N pseudo J D X0 C d b c r s z).mulVec v = 0 → v = 0) ∧
        ∀ q, (blowupJac N pseudo J D X0 C d b c r s z).mulVec q = blowup N pseudo R X0 C d b c r s z → ‖z - q - y‖ ≤ 1 / 2 * ‖z - y‖ := by
  obtain ⟨ε, hε, H⟩ := newton_kantorovich _ hreg
  set d' : Fin (N + 1) → ℝ := fun j => d j with hd'
  have h1 : ∀ᶠ p : ℝ × (Fin (N + 1) → ℝ) in nhds (0, d'), ‖jacMap (blowupJac N pseudo J D X0 C d b c r p.1 p.2)
      - jacMap (blowupJac N pseudo J D X0 C d b c r 0 d')‖ < ε := by
    have := Metric.continuousAt_iff'.1 (blowupJac_cont (C := C) (d := d) (b := b) (c := c) (r := r) hs pseudo d') ε hε
    simpa only [dist_eq_norm] using this
  have h2 : ∀ᶠ p : ℝ × (Fin (N + 1) → ℝ) in nhds (0, d'),
      HasJac N (N + 1) R (fullJac (N := N) J D (offPt X0 (p.1 • condMap N C p.2))) (offPt X0 (p.1 • condMap N C p.2)) := by
    have hc : ContinuousAt (fun p : ℝ × (Fin (N + 1) → ℝ) => p.1 • condMap N C p.2) (0, d') := by
      have : Continuous fun p : ℝ × (Fin (N + 1) → ℝ) => p.1 • condMap N C p.2 := by
        simp only [← condCLM_apply]
        fun_prop
      exact this.continuousAt
    have h3 : Filter.Tendsto (fun p : ℝ × (Fin (N + 1) → ℝ) => p.1 • condMap N C p.2) (nhds (0, d')) (nhds 0) := by
      simpa using hc.tendsto
    exact h3.eventually hs.deriv
  obtain ⟨η', hη', hball'⟩ := Metric.eventually_nhds_iff_ball.1 (h1.and h2)
  obtain ⟨η, hη, hηη, hball⟩ : ∃ η > 0, η ≤ η0 ∧ ∀ p ∈ ball ((0, d') : ℝ × (Fin (N + 1) → ℝ)) η,
      ‖jacMap (blowupJac N pseudo J D X0 C d b c r p.1 p.2) - jacMap (blowupJac N pseudo J D X0 C d b c r 0 d')‖ < ε ∧
      HasJac N (N + 1) R (fullJac (N := N) J D (offPt X0 (p.1 • condMap N C p.2))) (offPt X0 (p.1 • condMap N C p.2)) :=
    ⟨min η' η0, lt_min hη' hη0, min_le_right _ _, fun p hp => hball' p (ball_subset_ball (min_le_left _ _) hp)⟩
  have h4 : ∀ᶠ s in nhdsWithin (0 : ℝ) {0}ᶜ, ‖blowup N pseudo R X0 C d b c r s d'‖ < ε * (η / 2) := by
    have := (blowup_small (r := r) hs pseudo hn ht).norm
    rw [norm_zero] at this
    exact this.eventually_lt_const (by positivity)
  rw [eventually_nhdsWithin_iff] at h4
  obtain ⟨η2, hη2, hball2⟩ := Metric.eventually_nhds_iff_ball.1 h4
  refine ⟨η / 2, by positivity, by linarith, min (η / 2) (η2 / 2), by positivity, fun s hs0 hs1 => ?_⟩
  have hin : ∀ z ∈ closedBall d' (η / 2), ((s, z) : ℝ × (Fin (N + 1) → ℝ)) ∈ ball (0, d') η := fun z hz => by
    rw [mem_ball, Prod.dist_eq, max_lt_iff]
    refine ⟨?_, lt_of_le_of_lt (mem_closedBall.1 hz) (by linarith)⟩
    simp only [Real.dist_eq, sub_zero, abs_of_pos hs0]
    linarith [hs1.trans (min_le_left _ _)]
  obtain ⟨y, y1, y2, y3⟩ := H (blowup N pseudo R X0 C d b c r s) (fun z => jacMap (blowupJac N pseudo J D X0 C d b c r s z)) d' (η / 2)
    (by positivity) (fun z hz => blowup_deriv pseudo hs0.ne' (hball _ (hin z hz)).2) (fun z hz => (hball _ (hin z hz)).1.le)
    (hball2 s (by
      rw [mem_ball, Real.dist_eq, sub_zero, abs_of_pos hs0]
      linarith [hs1.trans (min_le_right _ _)]) (by simpa using hs0.ne')).le
  exact ⟨y, y1, y2, y3⟩

theorem sum_arcWt (N : ℕ) (b c : ℝ) (g : ℕ → ℝ) : ∑ j : Fin (N + 1), arcWt N b c j * g j = c * (∑ i ∈ range N, g i) + b * g N := by
  rw [Fin.sum_univ_castSucc, Finset.sum_range, mul_sum]
  simp [arcWt]

theorem ext_fin {n : ℕ} (z : Fin n → ℝ) (j : Fin n) : Spec.ext z j = z j := by simp [Spec.ext]

/-- The Jacobian at the predictor is regular where the solution set is a curve. -/
theorem blowup_injective (pseudo : Bool) (hC : ∀ i ≤ N, 0 < C i) (hr : r ≠ 0) (hcurve : IsCurve N ⟨R X0, J X0, D X0⟩)
    (hd : Tangent N ⟨R X0, J X0, D X0⟩ fun j => C j * d j) (hn : wdot N b c d d = 1) :
    Function.Injective (jacMap (blowupJac N pseudo J D X0 C d b c r 0 fun j => d j)) := by
  rw [injective_iff_map_eq_zero]
  intro v hv
  rw [jacMap_apply] at hv
  have hoff : offPt X0 ((0 : ℝ) • condMap N C fun j : Fin (N + 1) => d j) = X0 := by
    funext k
    simp [offPt, Spec.ext]
  have hrow : Tangent N ⟨R X0, J X0, D X0⟩ fun j => C j * Spec.ext v j := fun i hi => by
    have h := congrFun hv ⟨i, by omega⟩
    simp only [Matrix.mulVec, dotProduct, blowupJac, hi, if_true, hoff, Pi.zero_apply, mul_assoc] at h
    rw [← mul_sum] at h
    have h' := (mul_eq_zero.1 h).resolve_left hr
    rw [Fin.sum_univ_castSucc] at h'
    simp only [Finset.sum_range]
    convert h' using 2
    · exact sum_congr rfl fun j _ => by simp [fullJac, Spec.ext, show (j : ℕ) < N + 1 by omega]; ring_nf; simp [Fin.castSucc, Fin.castAdd, Fin.castLE]
    · simp [fullJac, Spec.ext, Fin.last]
  have hne : ∃ i ≤ N, C i * d i ≠ 0 := by
    by_contra hcon
    push Not at hcon
    have hz : ∀ i ≤ N, d i = 0 := fun i hi => (mul_eq_zero.1 (hcon i hi)).resolve_left (hC i hi).ne'
    have : wdot N b c d d = 0 := by
      simp only [wdot, hz N le_rfl, mul_zero, add_zero]
      rw [sum_eq_zero fun i hi => by rw [hz i (mem_range.1 hi).le, mul_zero], mul_zero]
    rw [this] at hn
    exact zero_ne_one hn
  obtain ⟨s, hs⟩ := hcurve _ _ hd hrow hne
  have hvs : ∀ j : Fin (N + 1), v j = s * d j := fun j => by
    have h := hs j (by omega)
    simp only [ext_fin] at h
    exact mul_left_cancel₀ (hC j (by omega)).ne' (by linarith)
  have hlast := congrFun hv (Fin.last N)
  have hw : ∑ j : Fin (N + 1), arcWt N b c j * (d j * d j) = 1 := by
    rw [sum_arcWt N b c fun j => d j * d j]; exact hn
  have hs0 : s = 0 := by
    simp only [Matrix.mulVec, dotProduct, blowupJac, Fin.val_last, lt_irrefl, if_false, Pi.zero_apply, hvs] at hlast
    cases pseudo with
    | true =>
      simp only [if_true] at hlast
      rw [show ∑ j : Fin (N + 1), 2 * (arcWt N b c j * d j) * (s * d j) = 2 * s * ∑ j : Fin (N + 1), arcWt N b c j * (d j * d j) by
        rw [mul_sum]; exact sum_congr rfl fun j _ => by ring, hw] at hlast
      linarith
    | false =>
      simp only [Bool.false_eq_true, if_false] at hlast
      rw [show ∑ j : Fin (N + 1), arcWt N b c j * d j * (s * d j) = s * ∑ j : Fin (N + 1), arcWt N b c j * (d j * d j) by
        rw [mul_sum]; exact sum_congr rfl fun j _ => by ring, hw] at hlast
      linarith
  funext j
  rw [hvs j, hs0, zero_mul, Pi.zero_apply]

/-- Residual and matrix of the corrector at the conditioned point `X0 / C + s z`. -/
theorem correct_blowup (hs : SmoothNear N f R J D X0) (pseudo : Bool) {obj : ContObj} (hr : obj.RPtoC = .scalar r) (hC : ∀ i ≤ N, 0 < obj.CtoP i)
    (hc : arcWeight N obj.fracLam (fun i => X0 i / obj.CtoP i) = c) {s : ℝ} (hs0 : 0 < s) (z : Fin (N + 1) → ℝ) :
    augSolve (N + 1) (fun XlamC g => correctRes N (if pseudo then .pseudo else .ortho) obj f XlamC (fun i => X0 i / obj.CtoP i) s (some d) g)
      (fun i => X0 i / obj.CtoP i + s * z i) true
      = .ok (fun i => (if (i : ℕ) < N then s else 1) * blowup N pseudo R X0 obj.CtoP d obj.fracLam c r s z i,
          fun i j => (if (i : ℕ) < N then 1 else 1 / s) * blowupJac N pseudo J D X0 obj.CtoP d obj.fracLam c r s z i j) := by
  have hpt : f (fun i => Spec.ext (fun i : Fin (N + 1) => X0 i / obj.CtoP i + s * z i) i * obj.CtoP i) true
      = .ok ⟨R (offPt X0 (s • condMap N obj.CtoP z)), J (offPt X0 (s • condMap N obj.CtoP z)), D (offPt X0 (s • condMap N obj.CtoP z))⟩ := by
    rw [← hs.value]
    refine hs.local' _ _ fun k hk => ?_
    have := (hC k (by omega)).ne'
    simp only [Spec.ext, hk, dif_pos, offPt, Pi.smul_apply, condMap, smul_eq_mul]
    field_simp
  have hx : ∀ i, i < N + 1 → Spec.ext (fun i : Fin (N + 1) => X0 i / obj.CtoP i + s * z i) i - X0 i / obj.CtoP i = s * Spec.ext z i := fun i hi => by
    simp only [Spec.ext, hi, dif_pos]; ring
  have hsq : (∑ j : Fin (N + 1), arcWt N obj.fracLam c j * z j ^ 2) = c * (∑ i ∈ range N, Spec.ext z i ^ 2) + obj.fracLam * Spec.ext z N ^ 2 := by
    rw [← sum_arcWt N obj.fracLam c fun i => Spec.ext z i ^ 2]
    exact sum_congr rfl fun j _ => by rw [ext_fin]
  have hor : (∑ j : Fin (N + 1), arcWt N obj.fracLam c j * ((z j - d j) * d j))
      = c * (∑ i ∈ range N, (Spec.ext z i - d i) * d i) + obj.fracLam * ((Spec.ext z N - d N) * d N) := by
    rw [← sum_arcWt N obj.fracLam c fun i => (Spec.ext z i - d i) * d i]
    exact sum_congr rfl fun j _ => by rw [ext_fin]
  have hs1 := hs0.ne'
  have hjac : ∀ i j : Fin (N + 1), (i : ℕ) < N → r * (if (j : ℕ) < N then J (offPt X0 (s • condMap N obj.CtoP z)) i j * obj.CtoP j
      else D (offPt X0 (s • condMap N obj.CtoP z)) i * obj.CtoP N)
      = 1 * (r * (fullJac (N := N) J D (offPt X0 (s • condMap N obj.CtoP z)) i j * obj.CtoP j)) := fun i j _ => by
    by_cases hj : (j : ℕ) < N
    · simp only [fullJac, hj, if_true, one_mul]
    · simp only [fullJac, hj, if_false, one_mul]
      rw [show (j : ℕ) = N by omega]
  have hres : ∀ i : Fin (N + 1), (i : ℕ) < N → r * R (offPt X0 (s • condMap N obj.CtoP z)) i
      = s * (r * R (offPt X0 (s • condMap N obj.CtoP z)) i / s) := fun i _ => by field_simp
  cases pseudo with
  | true =>
    simp only [augSolve, correctRes, hc, hpt, if_true, hr]
    congr 1
    refine Prod.ext (funext fun i => ?_) (funext fun i => funext fun j => ?_)
    · by_cases hi : (i : ℕ) < N
      · simp only [hi, if_true, blowup]; exact hres i hi
      · simp only [hi, if_false, blowup, if_true, pseudoArcRes, normSq, one_mul, hsq]
        rw [sum_congr rfl fun k hk => by rw [hx k (by have := mem_range.1 hk; omega), mul_pow], ← mul_sum, hx N (by omega)]
        field_simp
    · by_cases hi : (i : ℕ) < N
      · simp only [hi, if_true, blowupJac]; exact hjac i j hi
      · simp only [hi, if_false, blowupJac, if_true, pseudoArcRes]
        by_cases hj : (j : ℕ) < N
        · simp only [hj, if_true, arcWt, ext_fin]
          field_simp
          ring
        · obtain rfl : j = Fin.last N := Fin.ext (by rw [Fin.val_last]; omega)
          simp only [Fin.val_last, lt_irrefl, if_false, arcWt]
          rw [hx N (by omega), show Spec.ext z N = z (Fin.last N) from ext_fin z (Fin.last N)]
          field_simp
  | false =>
    simp only [augSolve, correctRes, hc, hpt, if_true, if_false, Bool.false_eq_true, hr]
    congr 1
    refine Prod.ext (funext fun i => ?_) (funext fun i => funext fun j => ?_)
    · by_cases hi : (i : ℕ) < N
      · simp only [hi, if_true, blowup]; exact hres i hi
      · simp only [hi, if_false, blowup, Bool.false_eq_true, orthogonalArcRes, one_mul, hor]
        have hx' : ∀ i, i < N + 1 → Spec.ext (fun i : Fin (N + 1) => X0 i / obj.CtoP i + s * z i) i - (X0 i / obj.CtoP i + d i * s)
            = s * (Spec.ext z i - d i) := fun i hi => by
          rw [← sub_sub, hx i hi]; ring
        rw [sum_congr rfl fun k hk => by rw [hx' k (by have := mem_range.1 hk; omega), mul_assoc], ← mul_sum, hx' N (by omega)]
        field_simp
    · by_cases hi : (i : ℕ) < N
      · simp only [hi, if_true, blowupJac]; exact hjac i j hi
      · simp only [hi, if_false, blowupJac, Bool.false_eq_true, orthogonalArcRes]
        by_cases hj : (j : ℕ) < N
        · simp only [hj, if_true, arcWt]
          field_simp
        · obtain rfl : j = Fin.last N := Fin.ext (by rw [Fin.val_last]; omega)
          simp only [Fin.val_last, lt_irrefl, if_false, arcWt]
          field_simp

variable {L : ℕ → Type} {inf : ℝ} {fac : (n : ℕ) → Matrix (Fin n) (Fin n) ℝ → L n} {sol : (n : ℕ) → L n → (Fin n → ℝ) → (Fin n → ℝ)}

/-- One corrector solve with the parallel solver for a small step. -/
theorem corrector_solve (hs : SmoothNear N f R J D X0) (pseudo : Bool) {obj : ContObj} (hr : obj.RPtoC = .scalar r) (hr0 : r ≠ 0)
    (hC : ∀ i ≤ N, 0 < obj.CtoP i) (hc : arcWeight N obj.fracLam (fun i => X0 i / obj.CtoP i) = c)
    (hcurve : IsCurve N ⟨R X0, J X0, D X0⟩) (hd : Tangent N ⟨R X0, J X0, D X0⟩ fun j => obj.CtoP j * d j)
    (hn : wdot N obj.fracLam c d d = 1) (hsol : ∀ n, ExactSolve (fac n) (sol n)) {η : ℝ} (hη : 0 < η) :
    ∃ s0 > 0, ∀ t > 0, ∃ K, ∀ om, PlainNewton om → K ≤ om.maxSteps → ∀ s, 0 < s → s ≤ s0 →
      ∃ res Y, nsolveOMP (realArith (N + 1) inf (fac (N + 1)) (sol (N + 1))) om
          (augSolve (N + 1) fun XlamC g => correctRes N (if pseudo then .pseudo else .ortho) obj f XlamC (fun i => X0 i / obj.CtoP i) s (some d) g)
          (fun i => X0 i / obj.CtoP i + d i * s) (some t) = (.ok res, om) ∧ res.success = true ∧
        (∀ i < N, R Y i = 0) ∧ arcEquation N pseudo obj.fracLam c s (fun i => X0 i / obj.CtoP i) d (fun i => Y i / obj.CtoP i) = 0 ∧
        (∀ i ≤ N, |Y i / obj.CtoP i - (X0 i / obj.CtoP i + d i * s)| ≤ η * s) ∧
        ∀ i : Fin (N + 1), |res.X i - Y i / obj.CtoP i| < t := by
  have hn' : ∑ j : Fin (N + 1), arcWt N obj.fracLam c j * d j ^ 2 = 1 := by
    rw [sum_arcWt N obj.fracLam c fun j => d j ^ 2]
    simpa only [wdot, sq] using hn
  have ht' : ∀ i < N, ∑ j : Fin (N + 1), fullJac (N := N) J D X0 i j * (obj.CtoP j * d j) = 0 := fun i hi => by
    have h := hd i hi
    rw [Finset.sum_range] at h
    rw [Fin.sum_univ_castSucc]
    simpa [fullJac] using h
  obtain ⟨δ, hδ, hδη, s0, hs0, H⟩ := corrector_local (r := r) hs pseudo hn' ht' (blowup_injective pseudo hC hr0 hcurve hd hn) hη
  refine ⟨s0, hs0, fun t ht => ?_⟩
  obtain ⟨K, hK⟩ := exists_pow_lt_of_lt_one (show 0 < t / (Real.sqrt (N + 1 : ℕ) * 2 * (s0 * (δ / 2)) + 1) by positivity) (by norm_num : (1 / 2 : ℝ) < 1)
  refine ⟨K + 1, fun om hom hm s hsp hss => ?_⟩
  obtain ⟨y, y1, y2, y3⟩ := H s hsp hss
  have hs1 := hsp.ne'
  set x : Fin (N + 1) → ℝ := fun i => X0 i / obj.CtoP i + s * y i with hx
  have hstep : ∀ X, ‖X - x‖ < s * (δ / 2) → ∃ Rv Dv, augSolve (N + 1) (fun XlamC g => correctRes N (if pseudo then .pseudo else .ortho) obj f
      XlamC (fun i => X0 i / obj.CtoP i) s (some d) g) X true = .ok (Rv, Dv) ∧ ‖X - sol (N + 1) (fac (N + 1) Dv) Rv - x‖ ≤ 1 / 2 * ‖X - x‖ := by
    intro X hX
    obtain ⟨z, hz⟩ : ∃ z : Fin (N + 1) → ℝ, X = fun i : Fin (N + 1) => X0 i / obj.CtoP i + s * z i :=
      ⟨fun i => (X i - X0 i / obj.CtoP i) / s, funext fun i => by
        rw [mul_div_cancel₀ _ hs1]; ring⟩
    have hXx : X - x = s • (z - y) := by
      funext i
      simp only [hz, hx, Pi.sub_apply, Pi.smul_apply, smul_eq_mul]
      ring
    have hzy : ‖z - y‖ < δ / 2 := by
      rw [hXx, norm_smul, Real.norm_eq_abs, abs_of_pos hsp] at hX
      exact lt_of_mul_lt_mul_left hX hsp.le
    have hzd : ‖z - fun j : Fin (N + 1) => d j‖ ≤ δ := by
      have := norm_add_le (z - y) (y - fun j : Fin (N + 1) => d j)
      rw [sub_add_sub_cancel] at this
      linarith
    obtain ⟨z1, z2⟩ := y3 z hzd
    refine ⟨_, _, by rw [hz]; exact correct_blowup (d := d) hs pseudo hr hC hc hsp z, ?_⟩
    set Jb := blowupJac N pseudo J D X0 obj.CtoP d obj.fracLam c r s z
    set Fb := blowup N pseudo R X0 obj.CtoP d obj.fracLam c r s z
    set Dv : Matrix (Fin (N + 1)) (Fin (N + 1)) ℝ := fun i j => (if (i : ℕ) < N then 1 else 1 / s) * Jb i j with hDv
    set Rv : Fin (N + 1) → ℝ := fun i => (if (i : ℕ) < N then s else 1) * Fb i with hRv
    have hmul : ∀ v i, Dv.mulVec v i = (if (i : ℕ) < N then 1 else 1 / s) * Jb.mulVec v i := fun v i => by
      simp only [Matrix.mulVec, dotProduct, hDv, mul_assoc, ← mul_sum]
    have hdet : IsUnit Dv.det := by
      rw [isUnit_iff_ne_zero]
      intro h0
      obtain ⟨v, v0, hv⟩ := Matrix.exists_mulVec_eq_zero_iff.2 h0
      refine v0 (z1 v (funext fun i => ?_))
      have := congrFun hv i
      rw [hmul] at this
      refine (mul_eq_zero.1 this).resolve_left ?_
      split_ifs <;> positivity
    have hq := hsol (N + 1) Dv Rv hdet
    set q := sol (N + 1) (fac (N + 1) Dv) Rv
    have hq' : Jb.mulVec ((1 / s) • q) = Fb := by
      funext i
      have h := congrFun hq i
      rw [hmul] at h
      rw [Matrix.mulVec_smul, Pi.smul_apply, smul_eq_mul]
      simp only [hRv] at h
      split_ifs at h with hi
      · rw [one_mul] at h
        rw [h]; field_simp
      · rw [h, one_mul]
    have h2 := z2 _ hq'
    have e : X - q - x = s • (z - (1 / s) • q - y) := by
      rw [sub_right_comm, hXx]
      funext i
      simp only [Pi.sub_apply, Pi.smul_apply, smul_eq_mul]
      field_simp
      ring
    rw [e, hXx, norm_smul, norm_smul, mul_left_comm]
    exact mul_le_mul_of_nonneg_left h2 (norm_nonneg _)
  have hstart : ‖(fun i : Fin (N + 1) => X0 i / obj.CtoP i + d i * s) - x‖ < s * (δ / 2) := by
    have e : (fun i : Fin (N + 1) => X0 i / obj.CtoP i + d i * s) - x = s • ((fun j : Fin (N + 1) => d j) - y) := by
      funext i
      simp only [hx, Pi.sub_apply, Pi.smul_apply, smul_eq_mul]
      ring
    rw [e, norm_smul, Real.norm_eq_abs, abs_of_pos hsp, norm_sub_rev]
    exact mul_lt_mul_of_pos_left (by linarith) hsp
  have hKt : Real.sqrt (N + 1 : ℕ) * 2 * (1 / 2) ^ K * (s * (δ / 2)) < t := by
    have h1 : Real.sqrt (N + 1 : ℕ) * 2 * (1 / 2) ^ K * (s * (δ / 2)) ≤ (1 / 2) ^ K * (Real.sqrt (N + 1 : ℕ) * 2 * (s0 * (δ / 2)) + 1) := by
      have : s * (δ / 2) ≤ s0 * (δ / 2) := by gcongr
      have h2 : (0 : ℝ) < (1 / 2) ^ K := by positivity
      have h3 : 0 ≤ Real.sqrt (N + 1 : ℕ) * 2 := by positivity
      nlinarith [mul_le_mul_of_nonneg_left this h3, mul_le_mul_of_nonneg_left (mul_le_mul_of_nonneg_left this h3) h2.le]
    exact h1.trans_lt ((lt_div_iff₀ (by positivity)).1 hK)
  obtain ⟨res, r1, r2, r3⟩ := nsolve_newton (inf := inf) (fac := fac (N + 1)) (sol := sol (N + 1)) hom (xtol := some t) rfl hstep hstart hKt (by omega)
  have hYx : ∀ i : Fin (N + 1), offPt X0 (s • condMap N obj.CtoP y) i / obj.CtoP i = x i := fun i => by
    have := (hC i (by omega)).ne'
    simp only [offPt, ext_fin, Pi.smul_apply, condMap, smul_eq_mul, hx]
    field_simp
  refine ⟨res, offPt X0 (s • condMap N obj.CtoP y), r1, r2, fun i hi => ?_, ?_, fun i hi => ?_, fun i => ?_⟩
  · have h := congrFun y2 ⟨i, by omega⟩
    simp only [blowup, hi, if_true, Pi.zero_apply, div_eq_zero_iff, hs1, or_false] at h
    exact (mul_eq_zero.1 h).resolve_left hr0
  · have h := congrFun y2 (Fin.last N)
    simp only [blowup, Fin.val_last, lt_irrefl, if_false, Pi.zero_apply] at h
    have hY : ∀ i, i < N + 1 → offPt X0 (s • condMap N obj.CtoP y) i / obj.CtoP i - X0 i / obj.CtoP i = s * Spec.ext y i := fun i hi => by
      have := hYx ⟨i, hi⟩
      simp only at this
      rw [this]
      simp only [hx, Spec.ext, hi, dif_pos]
      ring
    cases pseudo with
    | true =>
      simp only [if_true] at h
      have h' : c * (∑ i ∈ range N, Spec.ext y i ^ 2) + obj.fracLam * Spec.ext y N ^ 2 = 1 := by
        rw [← sum_arcWt N obj.fracLam c fun i => Spec.ext y i ^ 2, ← sub_eq_zero, ← h]
        congr 1
        exact sum_congr rfl fun j _ => by rw [ext_fin]
      simp only [arcEquation, if_true, wdot]
      rw [sum_congr rfl fun k hk => by rw [hY k (by have := mem_range.1 hk; omega)], hY N (by omega),
        show ∑ k ∈ range N, s * Spec.ext y k * (s * Spec.ext y k) = s ^ 2 * ∑ k ∈ range N, Spec.ext y k ^ 2 by
          rw [mul_sum]; exact sum_congr rfl fun k _ => by ring, div_eq_zero_iff]
      left
      linear_combination s ^ 2 * h'
    | false =>
      simp only [Bool.false_eq_true, if_false] at h
      have h' : c * (∑ i ∈ range N, (Spec.ext y i - d i) * d i) + obj.fracLam * ((Spec.ext y N - d N) * d N) = 0 := by
        rw [← sum_arcWt N obj.fracLam c fun i => (Spec.ext y i - d i) * d i, ← h]
        exact sum_congr rfl fun j _ => by rw [ext_fin]
      have hY' : ∀ i, i < N + 1 → offPt X0 (s • condMap N obj.CtoP y) i / obj.CtoP i - (X0 i / obj.CtoP i + d i * s)
          = s * (Spec.ext y i - d i) := fun i hi => by
        rw [← sub_sub, hY i hi]; ring
      simp only [arcEquation, Bool.false_eq_true, if_false, wdot]
      rw [sum_congr rfl fun k hk => by rw [hY' k (by have := mem_range.1 hk; omega)], hY' N (by omega),
        show ∑ k ∈ range N, s * (Spec.ext y k - d k) * d k = s * ∑ k ∈ range N, (Spec.ext y k - d k) * d k by
          rw [mul_sum]; exact sum_congr rfl fun k _ => by ring, div_eq_zero_iff]
      left
      linear_combination s * h'
  · have h1 := hYx ⟨i, by omega⟩
    simp only at h1
    rw [h1]
    simp only [hx]
    have h2 := norm_le_pi_norm (y - fun j : Fin (N + 1) => d j) ⟨i, by omega⟩
    rw [Real.norm_eq_abs, Pi.sub_apply] at h2
    rw [show X0 i / obj.CtoP i + s * y ⟨i, by omega⟩ - (X0 i / obj.CtoP i + d i * s) = s * (y ⟨i, by omega⟩ - d i) by ring, abs_mul, abs_of_pos hsp,
      mul_comm]
    exact mul_le_mul_of_nonneg_right (by simp only at h2; linarith) hsp.le
  · rw [hYx]
    have h2 := norm_le_pi_norm (res.X - x) i
    rw [Real.norm_eq_abs, Pi.sub_apply] at h2
    exact h2.trans_lt r3

/-- The solution set: the next point of the curve, at arc length `s` from `X0` in direction `d`, and `x` (conditioned) closer to it than `t`. -/
def NextPoint (N : ℕ) (R : (ℕ → ℝ) → ℕ → ℝ) (pseudo : Bool) (C : ℕ → ℝ) (b : ℝ) (X0 d : ℕ → ℝ) (s η t : ℝ) (x : ℕ → ℝ) : Prop :=
  ∃ Y, (∀ i < N, R Y i = 0) ∧
    arcEquation N pseudo b ((1 - b) / ∑ i ∈ range N, (X0 i / C i) ^ 2) s (fun i => X0 i / C i) d (fun i => Y i / C i) = 0 ∧
    (∀ i ≤ N, |Y i / C i - (X0 i / C i + d i * s)| ≤ η * s) ∧ ∀ i ≤ N, |x i - Y i / C i| < t

variable {sv : ContSolver}

/-- C131: at a point of the solution set where it is a curve, the corrector solve with the parallel solver succeeds for all small steps and
every tolerance, and returns the next point of the curve up to the tolerance. The exact next point is as close to the predicted one as wanted,
relative to the step. -/
theorem C131_step (hs : SmoothNear N f R J D X0) (hcurve : IsCurve N ⟨R X0, J X0, D X0⟩) (hsv : Solves sv) {dynamic pseudo : Bool}
    {obj obj' : ContObj} {Xprev dp : ℕ → ℝ} (hb : 0 < obj.fracLam) (hb1 : obj.fracLam < 1) (hC : ∀ i ≤ N, 0 < obj.CtoP i)
    (hX : ∃ i < N, X0 i ≠ 0) (h : predict sv N dynamic obj f X0 Xprev dp = .ok (d, obj')) (hr : obj'.RPtoC ≠ .scalar 0)
    (hsol : ∀ n, ExactSolve (fac n) (sol n)) {η : ℝ} (hη : 0 < η) :
    ∃ s0 > 0, ∀ t > 0, ∃ K, ∀ om, PlainNewton om → K ≤ om.maxSteps → ∀ (cfg : ContCfg) (st : ContSt),
      cfg.corrector = (if pseudo then .pseudo else .ortho) → st.X0 = X0 → st.dirC = d → st.obj = obj' → 0 < st.ds → st.ds ≤ s0 →
      ∃ out, solveStep (ompContSolver sv.linSolve inf fac sol om (some t)) N cfg f st
          = .ok ({ st with calls := st.calls + 1, log := (st.step, st.ds) :: st.log }, out) ∧
        out.success = true ∧ NextPoint N R pseudo obj.CtoP obj.fracLam X0 d st.ds η t out.X := by
  obtain ⟨t1, t2, -⟩ := C58_direction hsv (hs.value X0) hb hb1 hC hX h
  obtain ⟨o, dir, ho, hd, -, hpe⟩ := predict_ok h
  obtain ⟨r, hr'⟩ : ∃ r, obj'.RPtoC = .scalar r := by
    rw [(Prod.mk.inj hpe).2]
    simp only [predictScale]
    cases dynamic <;> simp
  have hr0 : r ≠ 0 := fun h0 => hr (by rw [hr', h0])
  have hC' : obj'.CtoP = obj.CtoP := by rw [(Prod.mk.inj hpe).2]
  have hb' : obj'.fracLam = obj.fracLam := by rw [(Prod.mk.inj hpe).2]
  obtain ⟨s0, hs0, H⟩ := corrector_solve (inf := inf) (c := (1 - obj.fracLam) / ∑ i ∈ range N, (X0 i / obj.CtoP i) ^ 2) (d := d) hs pseudo hr' hr0
    (by rw [hC']; exact hC) (by rw [hC', hb']; rfl) hcurve (by rw [hC']; exact t1) (by rw [hb']; exact t2) hsol hη
  refine ⟨s0, hs0, fun t ht => ?_⟩
  obtain ⟨K, hK⟩ := H t ht
  refine ⟨K, fun om hom hm cfg st hcor e1 e2 e3 hds hds' => ?_⟩
  obtain ⟨res, Y, r1, r2, r3, r4, r5, r6⟩ := hK om hom hm st.ds hds hds'
  refine ⟨⟨Spec.ext res.X, res.success, res.nfev⟩, ?_, r2, Y, r3, by rw [hC', hb'] at r4; exact r4, by rw [hC'] at r5; exact r5, fun i hi => ?_⟩
  · simp only [solveStep, ompContSolver, e1, e2, e3, hcor, r1]
  · have := r6 ⟨i, by omega⟩
    rw [hC'] at this
    simpa only [Spec.ext, show i < N + 1 by omega, dif_pos] using this

/-- The corrector solve raises nothing when the user's function raises nothing. -/
theorem solveStep_total {om : OmpConfig ℝ} (hom : PlainNewton om) (hacc : om.acceptingTol = []) (hm : 0 < om.maxSteps) {xtol : Option ℝ}
    {lin : ℕ → (ℕ → ℕ → ℝ) → (ℕ → ℝ) → Except Err (ℕ → ℝ)} (hf : ∀ X, ∃ o, f X true = .ok o) {cfg : ContCfg} {pseudo : Bool}
    (hcor : cfg.corrector = (if pseudo then .pseudo else .ortho)) {st : ContSt} {r : ℝ} (hr : st.obj.RPtoC = .scalar r) :
    ∃ out, solveStep (ompContSolver lin inf fac sol om xtol) N cfg f st
      = .ok ({ st with calls := st.calls + 1, log := (st.step, st.ds) :: st.log }, out) := by
  obtain ⟨res, hres⟩ := nsolve_total (inf := inf) (fac := fac (N + 1)) (sol := sol (N + 1)) hom hacc hm
    (fun i : Fin (N + 1) => st.X0 i / st.obj.CtoP i + st.dirC i * st.ds) xtol (f := augSolve (N + 1) fun XlamC g =>
      correctRes N cfg.corrector st.obj f XlamC (fun i => st.X0 i / st.obj.CtoP i) st.ds (some st.dirC) g) (fun X => by
        obtain ⟨o, ho⟩ := hf fun i => Spec.ext X i * st.obj.CtoP i
        cases pseudo
        · exact ⟨_, _, by simp only [augSolve, correctRes, hcor, Bool.false_eq_true, if_false, if_true, ho, hr]; rfl⟩
        · exact ⟨_, _, by simp only [augSolve, correctRes, hcor, if_true, ho, hr]; rfl⟩)
  exact ⟨⟨Spec.ext res.X, res.success, res.nfev⟩, by simp only [solveStep, ompContSolver, hres]⟩

/-- The retries end with success if all small steps succeed. -/
theorem retry_succeeds {cfg : ContCfg} {s0 : ℝ} (hmin : 0 < cfg.dsmin) (hmin0 : cfg.dsmin ≤ s0) {X0 d : ℕ → ℝ} {obj : ContObj} (P : ℝ → SolOut → Prop)
    (hgood : ∀ st : ContSt, st.X0 = X0 → st.dirC = d → st.obj = obj → 0 < st.ds → st.ds ≤ s0 →
      ∃ out, solveStep sv N cfg f st = .ok ({ st with calls := st.calls + 1, log := (st.step, st.ds) :: st.log }, out) ∧ out.success = true ∧ P st.ds out)
    (htot : ∀ st : ContSt, st.X0 = X0 → st.dirC = d → st.obj = obj →
      ∃ out, solveStep sv N cfg f st = .ok ({ st with calls := st.calls + 1, log := (st.step, st.ds) :: st.log }, out)) (n : ℕ) :
    ∀ (st : ContSt) (s : SolOut), st.X0 = X0 → st.dirC = d → st.obj = obj → 0 < st.ds → st.ds ≤ cfg.dsmin * 2 ^ n → (st.ds ≤ s0 → s.success = true ∧ P st.ds s) →
      ∃ st' s', retryLoop sv N cfg f (n + 1) st s = .ok (st', s') ∧ s'.success = true ∧ st'.X0 = X0 ∧ st'.dirC = d ∧ st'.obj = obj ∧
        0 < st'.ds ∧ st'.ds ≤ st.ds ∧ (st'.ds ≤ s0 → P st'.ds s') := by
  induction n with
  | zero =>
    intro st s e1 e2 e3 hp hle hor
    rw [pow_zero, mul_one] at hle
    obtain ⟨h1, h2⟩ := hor (hle.trans hmin0)
    exact ⟨st, s, by simp [retryLoop, h1], h1, e1, e2, e3, hp, le_rfl, fun _ => h2⟩
  | succ n ih =>
    intro st s e1 e2 e3 hp hle hor
    by_cases hsuc : s.success = true
    · exact ⟨st, s, by simp [retryLoop, hsuc], hsuc, e1, e2, e3, hp, le_rfl, fun h => (hor h).2⟩
    · have hbig : s0 < st.ds := by
        by_contra hcon
        exact hsuc (hor (not_lt.1 hcon)).1
      have hcond : s.success = false ∧ cfg.dsmin < st.ds := ⟨by simpa using hsuc, hmin0.trans_lt hbig⟩
      have hnew : max (st.ds / 2) cfg.dsmin ≤ cfg.dsmin * 2 ^ n := by
        refine max_le ?_ (le_mul_of_one_le_right hmin.le (one_le_pow₀ one_le_two))
        rw [pow_succ] at hle
        linarith
      have hpos : 0 < max (st.ds / 2) cfg.dsmin := lt_max_of_lt_right hmin
      have hless : max (st.ds / 2) cfg.dsmin ≤ st.ds := max_le (by linarith) hcond.2.le
      obtain ⟨out, ho⟩ := htot { st with ds := max (st.ds / 2) cfg.dsmin } e1 e2 e3
      have hout : max (st.ds / 2) cfg.dsmin ≤ s0 → out.success = true ∧ P (max (st.ds / 2) cfg.dsmin) out := fun hsm => by
        obtain ⟨out', ho', h1, h2⟩ := hgood { st with ds := max (st.ds / 2) cfg.dsmin } e1 e2 e3 hpos hsm
        rw [ho] at ho'
        obtain rfl := (Prod.mk.inj (Except.ok.inj ho')).2
        exact ⟨h1, h2⟩
      obtain ⟨st', s', h1, h2, h3, h4, h5, h6, h7, h8⟩ := ih { st with ds := max (st.ds / 2) cfg.dsmin, calls := st.calls + 1, log := (st.step, max (st.ds / 2) cfg.dsmin) :: st.log } out
        e1 e2 e3 hpos hnew hout
      refine ⟨st', s', ?_, h2, h3, h4, h5, h6, h7.trans hless, h8⟩
      rw [retryLoop, if_pos hcond, ho]
      exact h1

/-- C131 for a pass of the loop over `FracLamList` with its retries: at a point where the solution set is a curve, it ends with success
whenever the smallest step is small enough, whatever the step it begins with. -/
theorem C131_retry (hs : SmoothNear N f R J D X0) (hcurve : IsCurve N ⟨R X0, J X0, D X0⟩) (hsv : Solves sv) {dynamic pseudo : Bool}
    {obj obj' : ContObj} {Xprev dp : ℕ → ℝ} {b : ℝ} (hb : 0 < b) (hb1 : b < 1) (hC : ∀ i ≤ N, 0 < obj.CtoP i) (hX : ∃ i < N, X0 i ≠ 0)
    (h : predict sv N dynamic { obj with fracLam := b } f X0 Xprev dp = .ok (d, obj')) (hr : obj'.RPtoC ≠ .scalar 0)
    (hsol : ∀ n, ExactSolve (fac n) (sol n)) {η : ℝ} (hη : 0 < η) :
    ∃ s0 > 0, ∀ t > 0, ∃ K, ∀ om, PlainNewton om → om.acceptingTol = [] → K ≤ om.maxSteps → ∀ cfg : ContCfg,
      cfg.corrector = (if pseudo then .pseudo else .ortho) → cfg.dynamicCtoP = dynamic → 0 < cfg.dsmin → cfg.dsmin ≤ s0 → ∀ (st : ContSt) (rest : List ℝ) (fuel : ℕ),
      st.X0 = X0 → st.Xprev = Xprev → st.dirC = dp → st.obj = obj → 0 < st.ds → st.ds ≤ cfg.dsmin * 2 ^ fuel →
      ∃ st' out, fracLoop (ompContSolver sv.linSolve inf fac sol om (some t)) N cfg f (fuel + 1) (b :: rest) st = .ok (st', out) ∧
        out.success = true ∧ st'.X0 = X0 ∧ st'.dirC = d ∧ 0 < st'.ds ∧ st'.ds ≤ st.ds ∧
        (st'.ds ≤ s0 → NextPoint N R pseudo obj.CtoP b X0 d st'.ds η t out.X) := by
  obtain ⟨s0, hs0, H⟩ := C131_step (inf := inf) (pseudo := pseudo) hs hcurve hsv (obj := { obj with fracLam := b }) hb hb1 hC hX h hr hsol hη
  refine ⟨s0, hs0, fun t ht => ?_⟩
  obtain ⟨K, hK⟩ := H t ht
  refine ⟨K + 1, fun om hom hacc hm cfg hcor hdyn hmin hmin0 st rest fuel e1 e2 e3 e4 hds hfuel => ?_⟩
  obtain ⟨r, hr'⟩ : ∃ r, obj'.RPtoC = .scalar r := by
    obtain ⟨o, dir, ho, hd, -, hpe⟩ := predict_ok h
    rw [(Prod.mk.inj hpe).2]
    simp only [predictScale]
    cases dynamic <;> simp
  have hgood : ∀ st : ContSt, st.X0 = X0 → st.dirC = d → st.obj = obj' → 0 < st.ds → st.ds ≤ s0 →
      ∃ out, solveStep (ompContSolver sv.linSolve inf fac sol om (some t)) N cfg f st
        = .ok ({ st with calls := st.calls + 1, log := (st.step, st.ds) :: st.log }, out) ∧ out.success = true ∧
        NextPoint N R pseudo obj.CtoP b X0 d st.ds η t out.X := fun st a1 a2 a3 a4 a5 => hK om hom (by omega) cfg st hcor a1 a2 a3 a4 a5
  have htot : ∀ st : ContSt, st.X0 = X0 → st.dirC = d → st.obj = obj' →
      ∃ out, solveStep (ompContSolver sv.linSolve inf fac sol om (some t)) N cfg f st
        = .ok ({ st with calls := st.calls + 1, log := (st.step, st.ds) :: st.log }, out) := fun st _ _ a3 =>
    solveStep_total hom hacc (by omega) (fun X => ⟨_, hs.value X⟩) hcor (r := r) (by rw [a3]; exact hr')
  obtain ⟨out, ho⟩ := htot { st with dirC := d, obj := obj' } e1 rfl rfl
  have hout : st.ds ≤ s0 → out.success = true ∧ NextPoint N R pseudo obj.CtoP b X0 d st.ds η t out.X := fun hsm => by
    obtain ⟨out', ho', h1, h2⟩ := hgood { st with dirC := d, obj := obj' } e1 rfl rfl hds hsm
    rw [ho] at ho'
    obtain rfl := (Prod.mk.inj (Except.ok.inj ho')).2
    exact ⟨h1, h2⟩
  obtain ⟨st', s', h1, h2, h3, h4, h5, h6, h7, h8⟩ := retry_succeeds (sv := ompContSolver sv.linSolve inf fac sol om (some t)) (f := f) hmin hmin0
    (fun s out => NextPoint N R pseudo obj.CtoP b X0 d s η t out.X) hgood htot fuel
    { st with dirC := d, obj := obj', calls := st.calls + 1, log := (st.step, st.ds) :: st.log } out e1 rfl rfl hds hfuel hout
  refine ⟨st', s', ?_, h2, h3, h4, h6, h7, h8⟩
  have hp : predict (ompContSolver sv.linSolve inf fac sol om (some t)) N cfg.dynamicCtoP { st.obj with fracLam := b } f st.X0 st.Xprev st.dirC = .ok (d, obj') := by
    rw [e1, e2, e3, e4, hdyn]
    exact h
  have htry : tryFrac (ompContSolver sv.linSolve inf fac sol om (some t)) N cfg f (fuel + 1) b st = .ok (st', s') := by
    unfold tryFrac
    rw [hp]
    simp only [ho]
    exact h1
  rw [fracLoop, htry]
  simp only [h2, if_true]

/-- The circle of radius 1 around `(1, 0)`. -/
def circleFun : ContFun := fun X _ => .ok ⟨fun _ => (X 0 - 1) ^ 2 + X 1 ^ 2 - 1, fun _ _ => 2 * (X 0 - 1), fun _ => 2 * X 1⟩

theorem circle_smooth : SmoothNear 1 circleFun (fun X _ => (X 0 - 1) ^ 2 + X 1 ^ 2 - 1) (fun X _ _ => 2 * (X 0 - 1)) (fun X _ => 2 * X 1) fun _ => 1 where
  value _ := rfl
  local' X Y h := by simp only [circleFun, h 0 (by omega), h 1 (by omega)]
  deriv := Filter.Eventually.of_forall fun v i _ => by
    unfold HasGrad
    have h0 : HasFDerivAt (fun u : Fin (1 + 1) → ℝ => u 0) (ContinuousLinearMap.proj (R := ℝ) (φ := fun _ : Fin (1 + 1) => ℝ) 0) 0 := hasFDerivAt_apply _ _
    have h1 : HasFDerivAt (fun u : Fin (1 + 1) → ℝ => u 1) (ContinuousLinearMap.proj (R := ℝ) (φ := fun _ : Fin (1 + 1) => ℝ) 1) 0 := hasFDerivAt_apply _ _
    have h := ((((h0.const_add (offPt (fun _ => 1) v 0)).sub_const 1).pow 2).add ((h1.const_add (offPt (fun _ => 1) v 1)).pow 2)).sub_const 1
    refine (h.congr_of_eventuallyEq (Filter.Eventually.of_forall fun u => ?_)).congr_fderiv ?_
    · simp [Spec.ext]
    · ext1 u
      simp [row_apply, Fin.sum_univ_two, fullJac]
  cont i hi j hj := by
    have hc : ∀ k, Continuous fun v : Fin (1 + 1) → ℝ => offPt (fun _ => 1) v k := fun k => by
      simp only [offPt, Spec.ext]
      split_ifs <;> fun_prop
    have : Continuous fun v : Fin (1 + 1) → ℝ => fullJac (N := 1) (fun X _ _ => 2 * (X 0 - 1)) (fun X _ => 2 * X 1) (offPt (fun _ => 1) v) i j := by
      simp only [fullJac]
      split_ifs
      · exact continuous_const.mul ((hc 0).sub continuous_const)
      · exact continuous_const.mul (hc 1)
    exact this.continuousAt
  zero i _ := by norm_num

/-- C131 at the turning point `(1, 1)` of the circle, where the derivative with respect to the unknown vanishes: if the smallest step is small
enough, the pass ends with success, whatever the first step. -/
example : ∃ s0 > 0, ∀ t > 0, ∃ K, ∀ om, PlainNewton om → om.acceptingTol = [] → K ≤ om.maxSteps → ∀ cfg : ContCfg, cfg.corrector = .pseudo →
    cfg.dynamicCtoP = false → 0 < cfg.dsmin → cfg.dsmin ≤ s0 → ∀ (st : ContSt) (fuel : ℕ), st.X0 = (fun _ => 1) → st.Xprev = (fun _ => 0) → st.dirC = (fun _ => 1) →
      st.obj = ⟨fun _ => 1, .scalar 1, true, true, 1 / 2, 0⟩ → 0 < st.ds → st.ds ≤ cfg.dsmin * 2 ^ fuel →
      ∃ st' out, fracLoop (ompContSolver (checkSolver fun _ _ => 0).linSolve 0 (fun _ => id) (fun _ D v => D⁻¹.mulVec v) om (some t)) 1 cfg circleFun (fuel + 1)
        [1 / 2] st = .ok (st', out) ∧ out.success = true := by
  obtain ⟨⟨d, obj'⟩, hp⟩ : ∃ p, predict (checkSolver fun _ _ => 0) 1 false { (⟨fun _ => 1, .scalar 1, true, true, 1 / 2, 0⟩ : ContObj) with fracLam := 1 / 2 }
      circleFun (fun _ => 1) (fun _ => 0) (fun _ => 1) = .ok p := by
    simp [predict, circleFun, checkSolver, predictMat]
  have hr : obj'.RPtoC ≠ .scalar 0 := by
    obtain ⟨o, dir, ho, hd, -, hpe⟩ := predict_ok hp
    rw [(Prod.mk.inj hpe).2]
    simp [predictScale, RScale.mean]
  have hcurve : IsCurve 1 ⟨fun _ => (1 - 1) ^ 2 + 1 ^ 2 - 1, fun _ _ => 2 * (1 - 1), fun _ => 2 * 1⟩ := by
    intro u v hu hv hn
    have h1 := hu 0 (by omega)
    have h2 := hv 0 (by omega)
    norm_num at h1 h2
    have h3 : u 0 ≠ 0 := by
      obtain ⟨i, hi, hne⟩ := hn
      interval_cases i
      · exact hne
      · exact absurd h1 hne
    refine ⟨v 0 / u 0, fun i hi => ?_⟩
    interval_cases i
    · field_simp
    · rw [h1, h2, mul_zero]
  obtain ⟨s0, hs0, H⟩ := C131_retry (inf := 0) (fac := fun _ => id) (sol := fun _ D v => D⁻¹.mulVec v) (pseudo := true) circle_smooth hcurve
    (checkSolver_solves _) (b := 1 / 2) (by norm_num) (by norm_num) (by intro i _; norm_num) ⟨0, by norm_num, one_ne_zero⟩ hp hr (fun _ => exactSolve_inv) one_pos
  refine ⟨s0, hs0, fun t ht => ?_⟩
  obtain ⟨K, hK⟩ := H t ht
  refine ⟨K, fun om h1 h2 h3 cfg h4 h5 h6 h7 st fuel e1 e2 e3 e4 h8 h9 => ?_⟩
  obtain ⟨st', out, a, b, -⟩ := hK om h1 h2 h3 cfg h4 h5 h6 h7 st [] fuel e1 e2 e3 e4 h8 h9
  exact ⟨st', out, a, b⟩

end

end TMD
