import Verif.Model.SolverOMP
import Verif.Lemmas.Newton
import Mathlib.LinearAlgebra.Matrix.NonsingularInverse
import Mathlib.LinearAlgebra.Matrix.ToLin
import Mathlib.Analysis.Matrix.Normed
import Mathlib.Analysis.SpecificLimits.Basic
import Mathlib.Topology.Algebra.Module.FiniteDimension

/-!
# C130: the parallel solver finds the solutions

Newton's method as coded (`reform_freq = 1`, no line search, stopping on the step) in exact arithmetic.
-/

namespace TMD

open Metric

variable {n : ℕ} {L : Type} {inf : ℝ} {fac : Matrix (Fin n) (Fin n) ℝ → L} {sol : L → (Fin n → ℝ) → (Fin n → ℝ)}
  {c : OmpConfig ℝ} {f : SolveFun (Fin n → ℝ) (Matrix (Fin n) (Fin n) ℝ)} {x : Fin n → ℝ} {t : ℝ}

/-- The settings of the theorem: full Newton without line search, stopping on the step size. -/
structure PlainNewton (c : OmpConfig ℝ) : Prop where
  reform : c.reformFreq = 1
  line : c.lsIters = 0
  stop : c.stoppingTol = [.xtol]

/-- Sup norm and Euclidean norm. -/
theorem norm_le_euclid (v : Fin n → ℝ) : ‖v‖ ≤ Real.sqrt (v ⬝ᵥ v) := by
  refine (pi_norm_le_iff_of_nonneg (Real.sqrt_nonneg _)).2 fun i => ?_
  refine Real.le_sqrt_of_sq_le ?_
  rw [Real.norm_eq_abs, sq_abs, sq]
  exact Finset.single_le_sum (f := fun i => v i * v i) (fun i _ => mul_self_nonneg _) (Finset.mem_univ i)

theorem euclid_le_norm (v : Fin n → ℝ) : Real.sqrt (v ⬝ᵥ v) ≤ Real.sqrt n * ‖v‖ := by
  refine Real.sqrt_le_iff.2 ⟨by positivity, ?_⟩
  rw [mul_pow, Real.sq_sqrt (Nat.cast_nonneg _)]
  calc v ⬝ᵥ v ≤ ∑ _i : Fin n, ‖v‖ ^ 2 := Finset.sum_le_sum fun i _ => by
        have h := norm_le_pi_norm v i
        rw [Real.norm_eq_abs] at h
        nlinarith [abs_nonneg (v i), abs_mul_abs_self (v i)]
    _ = n * ‖v‖ ^ 2 := by simp

/-- One iteration of the loop in these settings: a full Newton step, and a stop if it is shorter than the tolerance. -/
theorem solveLoop_step (hc : PlainNewton c) (ht : c.tol .xtol = some t) (k i : ℕ)
    (st : OmpSt ℝ (Fin n → ℝ) (Matrix (Fin n) (Fin n) ℝ) L) (hb : st.bfgsInd = 0) {R : Fin n → ℝ} {D : Matrix (Fin n) (Fin n) ℝ}
    (hf : f st.X true = .ok (R, D)) {s : Fin n → ℝ} (hs : s = -sol (fac D) R) :
    ∃ st1 : OmpSt ℝ (Fin n → ℝ) (Matrix (Fin n) (Fin n) ℝ) L, st1.bfgsInd = 0 ∧ st1.X = st.X + s ∧ st1.R = some R ∧ st1.jac = some D ∧
      st1.trace = st.trace ++ [⟨st.X, R, s, s, true⟩] ∧ st1.first.isSome ∧ st1.last.isSome ∧
      ((Real.sqrt (s ⬝ᵥ s) < t ∧ solveLoop (realArith n inf fac sol) c f (k + 1) i st = .ok (st1, .converged)) ∨
      (¬ Real.sqrt (s ⬝ᵥ s) < t ∧
        solveLoop (realArith n inf fac sol) c f (k + 1) i st = solveLoop (realArith n inf fac sol) c f k (i + 1) st1)) := by
  have habs : |Real.sqrt (s ⬝ᵥ s)| = Real.sqrt (s ⬝ᵥ s) := abs_of_nonneg (Real.sqrt_nonneg _)
  let e : ℝ := if i = 0 then inf else R ⬝ᵥ st.dXm1
  let st1 : OmpSt ℝ (Fin n → ℝ) (Matrix (Fin n) (Fin n) ℝ) L :=
    { st with
      bfgsInd := 0, nfev := st.nfev + 1, njev := st.njev + 1, R := some R, jac := some D, fac := some (fac D)
      s := fun _ => 0, y := fun _ => 0, p := fun _ => 0, X := st.X + s
      first := some (firstVals (realArith n inf fac sol) i st.first (Real.sqrt (R ⬝ᵥ R)) e (Real.sqrt (s ⬝ᵥ s)))
      last := some (Real.sqrt (R ⬝ᵥ R), e, Real.sqrt (s ⬝ᵥ s))
      trace := st.trace ++ [⟨st.X, R, s, s, true⟩] }
  by_cases hlt : Real.sqrt (s ⬝ᵥ s) < t
  · refine ⟨st1, rfl, rfl, rfl, rfl, rfl, rfl, rfl, Or.inl ⟨hlt, ?_⟩⟩
    simp only [solveLoop, direction, hb, if_true, hf, hc.reform, hc.line, hc.stop, checkConvg, checkLoop, errorDict, ht, realArith,
        errsOf, ← hs, habs, hlt, lt_irrefl, if_false, decide_true, one_ne_zero, Bool.false_eq_true, st1, e]
  · refine ⟨{ st1 with Rm1 := R, dXm1 := s }, rfl, rfl, rfl, rfl, rfl, rfl, rfl, Or.inr ⟨hlt, ?_⟩⟩
    rw [solveLoop]
    simp only [direction, hb, if_true, hf, hc.reform, hc.line, hc.stop, checkConvg, checkLoop, errorDict, ht, realArith,
        errsOf, ← hs, habs, hlt, lt_irrefl, if_false, decide_true, decide_false, one_ne_zero, Bool.false_eq_true, st1, e, Nat.mod_one]

/-- The loop, when one Newton step at every point of a ball around `x` at least halves the distance to `x`. -/
theorem solveLoop_newton {r : ℝ} (hc : PlainNewton c) (ht : c.tol .xtol = some t)
    (hstep : ∀ X, ‖X - x‖ < r → ∃ R D, f X true = .ok (R, D) ∧ ‖X - sol (fac D) R - x‖ ≤ 1 / 2 * ‖X - x‖) :
    ∀ (k i : ℕ) (st : OmpSt ℝ (Fin n → ℝ) (Matrix (Fin n) (Fin n) ℝ) L), st.bfgsInd = 0 → ‖st.X - x‖ < r →
      (0 < i → st.R.isSome ∧ st.jac.isSome) → (0 < k ∨ 0 < i) → ∃ st' w, solveLoop (realArith n inf fac sol) c f k i st = .ok (st', w) ∧
        ‖st'.X - x‖ ≤ ‖st.X - x‖ ∧ w ≠ .nan ∧ st'.R.isSome ∧ st'.jac.isSome ∧
        (w = .converged → ‖st'.X - x‖ < t) ∧
        (w = .exhausted → ∀ j < k, t ≤ Real.sqrt n * 2 * (1 / 2) ^ j * ‖st.X - x‖) := by
  intro k
  induction k with
  | zero =>
    intro i st _ _ h1 h2
    obtain ⟨a, b⟩ := h1 (h2.resolve_left (lt_irrefl _))
    exact ⟨st, .exhausted, rfl, le_rfl, by simp, a, b, by simp, by simp⟩
  | succ k ih =>
    intro i st hb hX _ _
    obtain ⟨R, D, hf, hs⟩ := hstep st.X hX
    set s : Fin n → ℝ := -sol (fac D) R with hsd
    have hs' : ‖st.X + s - x‖ ≤ 1 / 2 * ‖st.X - x‖ := by
      have : st.X + s - x = st.X - sol (fac D) R - x := by rw [hsd]; abel
      rw [this]; exact hs
    have hs2 : ‖s‖ ≤ 2 * ‖st.X - x‖ := by
      have a := norm_sub_le (st.X + s - x) (st.X - x)
      rw [show st.X + s - x - (st.X - x) = s by abel] at a
      linarith [norm_nonneg (st.X - x)]
    have hs3 : ‖st.X + s - x‖ ≤ ‖s‖ := by
      have a := norm_sub_le (st.X + s - x) s
      rw [show st.X + s - x - s = st.X - x by abel] at a
      linarith [norm_nonneg (st.X - x)]
    have hs4 : ‖st.X + s - x‖ ≤ ‖st.X - x‖ := by linarith [norm_nonneg (st.X - x)]
    obtain ⟨st1, a1, a2, a3, a4, -, -, -, ⟨hlt, a5⟩ | ⟨hlt, b5⟩⟩ := solveLoop_step (inf := inf) hc ht k i st hb hf hsd
    · refine ⟨st1, _, a5, by rw [a2]; exact hs4, by simp, by simp [a3], by simp [a4], fun _ => ?_, by simp⟩
      rw [a2]
      exact (hs3.trans (norm_le_euclid s)).trans_lt hlt
    · obtain ⟨st', w, c1, c2, c3, c4, c5, c6, c7⟩ := ih (i + 1) st1 a1 (by rw [a2]; exact hs4.trans_lt hX)
        (fun _ => by simp [a3, a4]) (Or.inr (Nat.succ_pos _))
      rw [a2] at c2 c7
      refine ⟨st', w, by rw [b5, c1], c2.trans hs4, c3, c4, c5, c6, fun hw j hj => ?_⟩
      rcases j with _ | j
      · have := (not_lt.1 hlt).trans ((euclid_le_norm s).trans (mul_le_mul_of_nonneg_left hs2 (Real.sqrt_nonneg _)))
        rw [pow_zero]; linarith
      · refine (c7 hw j (by omega)).trans ?_
        rw [pow_succ, mul_assoc _ ((1 / 2 : ℝ) ^ j * (1 / 2)), mul_assoc ((1 / 2 : ℝ) ^ j), ← mul_assoc _ ((1 / 2 : ℝ) ^ j)]
        exact mul_le_mul_of_nonneg_left hs' (by positivity)

/-- A loop that ends converged makes `nsolve` report success and restore the settings. -/
theorem nsolve_converged {X0 : Fin n → ℝ} {xtol : Option ℝ} (ht : effectiveXtol (realArith n inf fac sol) c X0 xtol = t)
    {st : OmpSt ℝ (Fin n → ℝ) (Matrix (Fin n) (Fin n) ℝ) L} (hR : st.R.isSome) (hD : st.jac.isSome)
    (h : solveLoop (realArith n inf fac sol) (c.withXtol (some t)) f c.maxSteps 0 (startSt (realArith n inf fac sol) X0)
      = .ok (st, .converged)) :
    ∃ res, nsolveOMP (realArith n inf fac sol) c f X0 xtol = (.ok res, c) ∧ res.success = true ∧ res.X = st.X ∧ res.trace = st.trace := by
  obtain ⟨R, hR⟩ := Option.isSome_iff_exists.1 hR
  obtain ⟨D, hD⟩ := Option.isSome_iff_exists.1 hD
  have hback : ((c.withXtol (some t)).withXtol (c.tol .xtol)) = c := by
    simp only [OmpConfig.withXtol]
    congr 1
    funext k
    by_cases hk : k = .xtol <;> simp [hk]
  have hmax : (c.withXtol (some t)).maxSteps = c.maxSteps := rfl
  refine ⟨⟨st.X, R, D, true, st.nfev, st.njev, st.trace, .converged⟩, ?_, rfl, rfl, rfl⟩
  simp only [nsolveOMP, ht, hmax, h, finish, hR, hD, hback]

/-- The call, when one Newton step at every point of a ball around `x` at least halves the distance to `x`. -/
theorem nsolve_newton {r : ℝ} (hc : PlainNewton c) {X0 : Fin n → ℝ} {xtol : Option ℝ}
    (ht : effectiveXtol (realArith n inf fac sol) c X0 xtol = t)
    (hstep : ∀ X, ‖X - x‖ < r → ∃ R D, f X true = .ok (R, D) ∧ ‖X - sol (fac D) R - x‖ ≤ 1 / 2 * ‖X - x‖) (hX : ‖X0 - x‖ < r)
    {K : ℕ} (hK : Real.sqrt n * 2 * (1 / 2) ^ K * r < t) (hm : K < c.maxSteps) :
    ∃ res, nsolveOMP (realArith n inf fac sol) c f X0 xtol = (.ok res, c) ∧ res.success = true ∧ ‖res.X - x‖ < t := by
  have hc' : PlainNewton (c.withXtol (some t)) := ⟨hc.reform, hc.line, hc.stop⟩
  have ht' : (c.withXtol (some t)).tol .xtol = some t := by simp [OmpConfig.withXtol]
  obtain ⟨st', w, h1, h2, h3, h4, h5, h6, h7⟩ := solveLoop_newton (inf := inf) hc' ht' hstep c.maxSteps 0
    (startSt (realArith n inf fac sol) X0) rfl hX (by simp) (Or.inl (by omega))
  have hw : w = .converged := by
    cases w with
    | nan => exact absurd rfl h3
    | converged => rfl
    | exhausted =>
      have a := h7 rfl K hm
      have b : Real.sqrt n * 2 * (1 / 2) ^ K * ‖X0 - x‖ ≤ Real.sqrt n * 2 * (1 / 2) ^ K * r :=
        mul_le_mul_of_nonneg_left hX.le (by positivity)
      exact absurd (a.trans b) (not_le.2 hK)
  subst hw
  obtain ⟨res, a1, a2, a3, -⟩ := nsolve_converged ht h4 h5 h1
  exact ⟨res, a1, a2, by rw [a3]; exact h6 rfl⟩

/-- In these settings, without accepting tolerances, a function that never raises makes a call that never raises. -/
theorem nsolve_total (hc : PlainNewton c) (hacc : c.acceptingTol = []) (hm : 0 < c.maxSteps) (X0 : Fin n → ℝ) (xtol : Option ℝ)
    (hf : ∀ X, ∃ R D, f X true = .ok (R, D)) : ∃ res, nsolveOMP (realArith n inf fac sol) c f X0 xtol = (.ok res, c) := by
  have key : ∀ (k i : ℕ) (st : OmpSt ℝ (Fin n → ℝ) (Matrix (Fin n) (Fin n) ℝ) L), st.bfgsInd = 0 →
      (0 < i → st.R.isSome ∧ st.jac.isSome ∧ st.first.isSome ∧ st.last.isSome) → (0 < k ∨ 0 < i) →
      ∃ st' w, solveLoop (realArith n inf fac sol) (c.withXtol (some (effectiveXtol (realArith n inf fac sol) c X0 xtol))) f k i st
        = .ok (st', w) ∧ st'.R.isSome ∧ st'.jac.isSome ∧ st'.first.isSome ∧ st'.last.isSome ∧ w ≠ .nan := by
    intro k
    induction k with
    | zero =>
      intro i st _ h1 h2
      obtain ⟨a, b, d, e⟩ := h1 (h2.resolve_left (lt_irrefl _))
      exact ⟨st, .exhausted, rfl, a, b, d, e, by simp⟩
    | succ k ih =>
      intro i st hb _ _
      obtain ⟨R, D, hfX⟩ := hf st.X
      obtain ⟨st1, a1, a2, a3, a4, -, a6, a7, ⟨hlt, b5⟩ | ⟨hlt, b5⟩⟩ := solveLoop_step (inf := inf) (fac := fac) (sol := sol)
        (c := c.withXtol (some (effectiveXtol (realArith n inf fac sol) c X0 xtol))) ⟨hc.reform, hc.line, hc.stop⟩ rfl k i st hb hfX rfl
      · exact ⟨st1, _, b5, by simp [a3], by simp [a4], a6, a7, by simp⟩
      · rw [b5]
        exact ih (i + 1) st1 a1 (fun _ => ⟨by simp [a3], by simp [a4], a6, a7⟩) (Or.inr (Nat.succ_pos _))
  obtain ⟨st, w, h1, h2, h3, h4, h5, h6⟩ := key c.maxSteps 0 (startSt (realArith n inf fac sol) X0) rfl (by simp) (Or.inl hm)
  cases w with
  | nan => exact absurd rfl h6
  | converged =>
    obtain ⟨res, r, -⟩ := nsolve_converged rfl h2 h3 h1
    exact ⟨res, r⟩
  | exhausted =>
    obtain ⟨R, hR⟩ := Option.isSome_iff_exists.1 h2
    obtain ⟨D, hD⟩ := Option.isSome_iff_exists.1 h3
    obtain ⟨g, hg⟩ := Option.isSome_iff_exists.1 h4
    obtain ⟨l, hl⟩ := Option.isSome_iff_exists.1 h5
    have hback : ((c.withXtol (some (effectiveXtol (realArith n inf fac sol) c X0 xtol))).withXtol (c.tol .xtol)) = c := by
      simp only [OmpConfig.withXtol]
      congr 1
      funext k
      by_cases hk : k = .xtol <;> simp [hk]
    have hmax : (c.withXtol (some (effectiveXtol (realArith n inf fac sol) c X0 xtol))).maxSteps = c.maxSteps := rfl
    have hacc' : (c.withXtol (some (effectiveXtol (realArith n inf fac sol) c X0 xtol))).acceptingTol = [] := hacc
    refine ⟨⟨st.X, R, D, false, st.nfev, st.njev, st.trace, .exhausted⟩, ?_⟩
    simp only [nsolveOMP, hmax, h1, finish, hR, hD, hg, hl, hacc', checkConvg, checkLoop, hback]

/-- The linear map of a matrix. -/
noncomputable def jacMap (D : Matrix (Fin n) (Fin n) ℝ) : (Fin n → ℝ) →L[ℝ] (Fin n → ℝ) := LinearMap.toContinuousLinearMap D.mulVecLin

theorem jacMap_apply (D : Matrix (Fin n) (Fin n) ℝ) (v : Fin n → ℝ) : jacMap D v = D.mulVec v := rfl

theorem jacMap_continuous : Continuous (jacMap (n := n)) := by
  let l : Matrix (Fin n) (Fin n) ℝ →ₗ[ℝ] ((Fin n → ℝ) →L[ℝ] (Fin n → ℝ)) :=
    { toFun := jacMap
      map_add' := fun A B => by ext1 v; simp [jacMap_apply, Matrix.add_mulVec]
      map_smul' := fun a B => by ext1 v; simp [jacMap_apply, Matrix.smul_mulVec] }
  exact l.continuous_of_finiteDimensional

/-- A linear solver without error. -/
def ExactSolve (fac : Matrix (Fin n) (Fin n) ℝ → L) (sol : L → (Fin n → ℝ) → (Fin n → ℝ)) : Prop :=
  ∀ (D : Matrix (Fin n) (Fin n) ℝ) (v : Fin n → ℝ), IsUnit D.det → D.mulVec (sol (fac D) v) = v

/-- C130: near a regular solution the solver succeeds for every tolerance, with a number of iterations that depends only on the
tolerance, and the returned point is closer to the solution than the tolerance. -/
theorem C130_converges {F : (Fin n → ℝ) → (Fin n → ℝ)} {J : (Fin n → ℝ) → Matrix (Fin n) (Fin n) ℝ} (hsol : ExactSolve fac sol)
    (hf : ∀ᶠ X in nhds x, f X true = .ok (F X, J X)) (hder : ∀ᶠ X in nhds x, HasFDerivAt F (jacMap (J X)) X) (hJ : ContinuousAt J x)
    (h0 : F x = 0) (hdet : IsUnit (J x).det) :
    ∃ r > 0, ∀ t > 0, ∃ K, ∀ c, PlainNewton c → K ≤ c.maxSteps → ∀ X0, ‖X0 - x‖ < r → ∀ xtol,
      effectiveXtol (realArith n inf fac sol) c X0 xtol = t →
        ∃ res, nsolveOMP (realArith n inf fac sol) c f X0 xtol = (.ok res, c) ∧ res.success = true ∧ ‖res.X - x‖ < t := by
  have hinj : Function.Injective (jacMap (J x)) := fun a b h => by
    have : (J x)⁻¹.mulVec ((J x).mulVec a) = (J x)⁻¹.mulVec ((J x).mulVec b) := congrArg _ h
    simpa [Matrix.mulVec_mulVec, Matrix.nonsing_inv_mul _ hdet] using this
  obtain ⟨δ, hδ, hcon⟩ := newton_contract F (fun X => jacMap (J X)) x (q := 1 / 2) (by norm_num) hder
    (jacMap_continuous.continuousAt.comp hJ) hinj
  obtain ⟨r1, hr1, hball⟩ := eventually_nhds_iff_ball.1 hf
  refine ⟨min δ r1, lt_min hδ hr1, fun t ht => ?_⟩
  obtain ⟨K, hK⟩ := exists_pow_lt_of_lt_one (show 0 < t / (Real.sqrt n * 2 * min δ r1 + 1) by positivity) (by norm_num : (1 / 2 : ℝ) < 1)
  refine ⟨K + 1, fun c hc hm X0 hX xtol hx => nsolve_newton hc hx (fun X hXr => ?_) hX (K := K) ?_ (by omega)⟩
  · have hXb : X ∈ ball x δ := mem_ball_iff_norm.2 (hXr.trans_le (min_le_left _ _))
    have hXf := hball X (mem_ball_iff_norm.2 (hXr.trans_le (min_le_right _ _)))
    obtain ⟨a1, a2⟩ := hcon X hXb
    have hd : IsUnit (J X).det := by
      rw [isUnit_iff_ne_zero]
      intro hz
      obtain ⟨v, hv, hv0⟩ := Matrix.exists_mulVec_eq_zero_iff.2 hz
      exact hv (a1 v hv0)
    refine ⟨_, _, hXf, a2 x (mem_ball_self hδ) _ ?_⟩
    rw [jacMap_apply, hsol _ _ hd, h0, sub_zero]
  · rw [lt_div_iff₀ (by positivity)] at hK
    have : (0 : ℝ) < (1 / 2) ^ K := by positivity
    nlinarith

/-- The loop when the error of a Newton step is quadratic. -/
theorem solveLoop_quadratic {r C : ℝ} (hc : PlainNewton c) (ht : c.tol .xtol = some t) (hC : 0 < C) (hr : C * r ≤ 1)
    (hstep : ∀ X, ‖X - x‖ < r → ∃ R D, f X true = .ok (R, D) ∧ ‖X - sol (fac D) R - x‖ ≤ C * ‖X - x‖ ^ 2) :
    ∀ (k i : ℕ) (st st' : OmpSt ℝ (Fin n → ℝ) (Matrix (Fin n) (Fin n) ℝ) L) (w : LoopEnd), st.bfgsInd = 0 → ‖st.X - x‖ < r →
      solveLoop (realArith n inf fac sol) c f k i st = .ok (st', w) →
        ∃ m, st'.trace.length = st.trace.length + m ∧ C * ‖st'.X - x‖ ≤ (C * ‖st.X - x‖) ^ 2 ^ m := by
  intro k
  induction k with
  | zero =>
    intro i st st' w _ _ h
    simp only [solveLoop, Except.ok.injEq, Prod.mk.injEq] at h
    obtain ⟨rfl, -⟩ := h
    exact ⟨0, by simp, by simp⟩
  | succ k ih =>
    intro i st st' w hb hX h
    obtain ⟨R, D, hf, hs⟩ := hstep st.X hX
    set s : Fin n → ℝ := -sol (fac D) R with hsd
    have hn := norm_nonneg (st.X - x)
    have hs' : ‖st.X + s - x‖ ≤ C * ‖st.X - x‖ ^ 2 := by
      have : st.X + s - x = st.X - sol (fac D) R - x := by rw [hsd]; abel
      rw [this]; exact hs
    have hC1 : C * ‖st.X - x‖ ≤ 1 := (mul_le_mul_of_nonneg_left hX.le hC.le).trans hr
    have hsq : C * ‖st.X + s - x‖ ≤ (C * ‖st.X - x‖) ^ 2 := by
      rw [mul_pow, pow_two C, mul_assoc]
      exact mul_le_mul_of_nonneg_left hs' hC.le
    have hs4 : ‖st.X + s - x‖ < r := by
      refine lt_of_le_of_lt (hs'.trans ?_) hX
      rw [pow_two, ← mul_assoc]
      nlinarith
    obtain ⟨st1, a1, a2, a3, a4, a5, -, -, ⟨hlt, b5⟩ | ⟨hlt, b5⟩⟩ := solveLoop_step (inf := inf) hc ht k i st hb hf hsd
    · rw [b5] at h
      simp only [Except.ok.injEq, Prod.mk.injEq] at h
      obtain ⟨rfl, -⟩ := h
      exact ⟨1, by rw [a5]; simp, by rw [a2, pow_one]; exact hsq⟩
    · rw [b5] at h
      obtain ⟨m, c1, c2⟩ := ih (i + 1) st1 st' w a1 (by rw [a2]; exact hs4) h
      refine ⟨m + 1, by rw [c1, a5]; simp; omega, c2.trans ?_⟩
      rw [a2, pow_succ' 2 m, pow_mul]
      exact pow_le_pow_left₀ (by positivity) hsq _

/-- What `nsolve` returns is what the loop ended with. -/
theorem nsolve_loop {X0 : Fin n → ℝ} {xtol : Option ℝ} {res : SolveRes (Fin n → ℝ) (Matrix (Fin n) (Fin n) ℝ)} {c' : OmpConfig ℝ}
    (h : nsolveOMP (realArith n inf fac sol) c f X0 xtol = (.ok res, c')) :
    ∃ st w, solveLoop (realArith n inf fac sol) (c.withXtol (some (effectiveXtol (realArith n inf fac sol) c X0 xtol))) f c.maxSteps 0
      (startSt (realArith n inf fac sol) X0) = .ok (st, w) ∧ res.X = st.X ∧ res.trace = st.trace := by
  simp only [nsolveOMP] at h
  have hmax : ∀ o, (c.withXtol o).maxSteps = c.maxSteps := fun _ => rfl
  rw [hmax] at h
  cases hl : solveLoop (realArith n inf fac sol) (c.withXtol (some (effectiveXtol (realArith n inf fac sol) c X0 xtol))) f c.maxSteps 0
      (startSt (realArith n inf fac sol) X0) with
  | error e => rw [hl] at h; simp at h
  | ok p =>
    obtain ⟨st, w⟩ := p
    rw [hl] at h
    refine ⟨st, w, rfl, ?_⟩
    simp only at h
    cases hfi : finish (realArith n inf fac sol) (c.withXtol (some (effectiveXtol (realArith n inf fac sol) c X0 xtol))) st w with
    | error e => rw [hfi] at h; simp at h
    | ok q =>
      rw [hfi] at h
      simp only [Prod.mk.injEq, Except.ok.injEq] at h
      obtain ⟨rfl, -⟩ := h
      cases w <;> simp only [finish] at hfi
      · split at hfi
        · simp only [Except.ok.injEq] at hfi; subst hfi; exact ⟨rfl, rfl⟩
        · simp at hfi
      · split at hfi
        · simp only [Except.ok.injEq] at hfi; subst hfi; exact ⟨rfl, rfl⟩
        · simp at hfi
      · split at hfi
        · split at hfi
          · simp at hfi
          · split at hfi
            · simp only [Except.ok.injEq] at hfi; subst hfi; exact ⟨rfl, rfl⟩
            · simp at hfi
        · simp at hfi

/-- C130: with a Lipschitz Jacobian the convergence is quadratic: after `m` iterations the scaled error is at most the scaled error of
the start to the power `2^m`. -/
theorem C130_quadratic {F : (Fin n → ℝ) → (Fin n → ℝ)} {J : (Fin n → ℝ) → Matrix (Fin n) (Fin n) ℝ} (hsol : ExactSolve fac sol)
    {ρ K : ℝ} (hρ : 0 < ρ) (hf : ∀ X ∈ ball x ρ, f X true = .ok (F X, J X)) (hder : ∀ X ∈ ball x ρ, HasFDerivAt F (jacMap (J X)) X)
    (hJ : ∀ X ∈ ball x ρ, ∀ Y ∈ ball x ρ, ∀ v, ‖(J X).mulVec v - (J Y).mulVec v‖ ≤ K * ‖X - Y‖ * ‖v‖) (hK : 0 ≤ K)
    (h0 : F x = 0) (hdet : IsUnit (J x).det) :
    ∃ r > 0, ∃ C > 0, C * r ≤ 1 / 2 ∧ ∀ c, PlainNewton c → ∀ X0, ‖X0 - x‖ < r → ∀ xtol res c',
      nsolveOMP (realArith n inf fac sol) c f X0 xtol = (.ok res, c') → C * ‖res.X - x‖ ≤ (C * ‖X0 - x‖) ^ 2 ^ res.trace.length := by
  have hinj : Function.Injective (jacMap (J x)) := fun a b h => by
    have : (J x)⁻¹.mulVec ((J x).mulVec a) = (J x)⁻¹.mulVec ((J x).mulVec b) := congrArg _ h
    simpa [Matrix.mulVec_mulVec, Matrix.nonsing_inv_mul _ hdet] using this
  obtain ⟨δ, hδ, C, hC, hcon⟩ := newton_quadratic F (fun X => jacMap (J X)) x hρ hder (K := K) (fun X hX Y hY =>
    ContinuousLinearMap.opNorm_le_bound _ (by positivity) fun v => hJ X hX Y hY v) hinj
  refine ⟨min (min δ ρ) (1 / (2 * C)), by positivity, C, hC, ?_, fun c hc X0 hX xtol res c' h => ?_⟩
  · calc C * min (min δ ρ) (1 / (2 * C)) ≤ C * (1 / (2 * C)) := mul_le_mul_of_nonneg_left (min_le_right _ _) hC.le
      _ = 1 / 2 := by field_simp
  obtain ⟨st, w, h1, h2, h3⟩ := nsolve_loop h
  have hr1 : C * min (min δ ρ) (1 / (2 * C)) ≤ 1 := by
    calc C * min (min δ ρ) (1 / (2 * C)) ≤ C * (1 / (2 * C)) := mul_le_mul_of_nonneg_left (min_le_right _ _) hC.le
      _ = 1 / 2 := by field_simp
      _ ≤ 1 := by norm_num
  have hst : ∀ X, ‖X - x‖ < min (min δ ρ) (1 / (2 * C)) → ∃ R D, f X true = .ok (R, D) ∧
      ‖X - sol (fac D) R - x‖ ≤ C * ‖X - x‖ ^ 2 := fun X hXr => by
    have hXb : X ∈ ball x δ := mem_ball_iff_norm.2 (hXr.trans_le ((min_le_left _ _).trans (min_le_left _ _)))
    have hXf := hf X (mem_ball_iff_norm.2 (hXr.trans_le ((min_le_left _ _).trans (min_le_right _ _))))
    obtain ⟨a1, a2⟩ := hcon X hXb
    have hd : IsUnit (J X).det := by
      rw [isUnit_iff_ne_zero]
      intro hz
      obtain ⟨v, hv, hv0⟩ := Matrix.exists_mulVec_eq_zero_iff.2 hz
      exact hv (a1 v hv0)
    refine ⟨_, _, hXf, a2 x (mem_ball_self hδ) _ ?_⟩
    rw [jacMap_apply, hsol _ _ hd, h0, sub_zero]
  obtain ⟨m, a1, a2⟩ := solveLoop_quadratic (inf := inf) (fac := fac) (sol := sol) (f := f)
    (c := c.withXtol (some (effectiveXtol (realArith n inf fac sol) c X0 xtol)))
    (t := effectiveXtol (realArith n inf fac sol) c X0 xtol) (x := x) (r := min (min δ ρ) (1 / (2 * C))) (C := C)
    ⟨hc.reform, hc.line, hc.stop⟩ rfl hC hr1 hst _ 0 _ st w rfl hX h1
  have h4 : (startSt (L := L) (realArith n inf fac sol) X0).trace.length = 0 := rfl
  rw [h4, zero_add] at a1
  rw [h2, h3, a1]
  exact a2

/-- C130: an affine problem is solved exactly from every start in at most two iterations. -/
theorem C130_affine {A : Matrix (Fin n) (Fin n) ℝ} {b : Fin n → ℝ} (hsol : ExactSolve fac sol) (hA : IsUnit A.det)
    (hf : ∀ X, f X true = .ok (A.mulVec X - b, A)) (hc : PlainNewton c) (hm : 2 ≤ c.maxSteps) (X0 : Fin n → ℝ) (xtol : Option ℝ)
    (ht : 0 < effectiveXtol (realArith n inf fac sol) c X0 xtol) :
    ∃ res, nsolveOMP (realArith n inf fac sol) c f X0 xtol = (.ok res, c) ∧ res.success = true ∧ A.mulVec res.X = b ∧
      res.trace.length ≤ 2 := by
  set t := effectiveXtol (realArith n inf fac sol) c X0 xtol with htd
  have hc' : PlainNewton (c.withXtol (some t)) := ⟨hc.reform, hc.line, hc.stop⟩
  have ht' : (c.withXtol (some t)).tol .xtol = some t := rfl
  have hstep : ∀ X, A.mulVec (X + -sol (fac A) (A.mulVec X - b)) = b := fun X => by
    rw [Matrix.mulVec_add, Matrix.mulVec_neg, hsol _ _ hA]; abel
  obtain ⟨k, hk⟩ : ∃ k, c.maxSteps = k + 1 + 1 := ⟨c.maxSteps - 2, by omega⟩
  obtain ⟨st1, a1, a2, a3, a4, a5, -, -, ⟨hlt, b5⟩ | ⟨hlt, b5⟩⟩ := solveLoop_step (inf := inf) (fac := fac) (sol := sol) hc' ht' (k + 1) 0
    (startSt (realArith n inf fac sol) X0) rfl (hf _) rfl
  · rw [← hk] at b5
    obtain ⟨res, r1, r2, r3, r4⟩ := nsolve_converged htd.symm (by simp [a3]) (by simp [a4]) b5
    exact ⟨res, r1, r2, by rw [r3, a2]; exact hstep _, by rw [r4, a5]; simp [startSt]⟩
  · obtain ⟨st2, d1, d2, d3, d4, d5, -, -, e⟩ := solveLoop_step (inf := inf) (fac := fac) (sol := sol) hc' ht' k 1 st1 a1 (hf _) rfl
    have hz : -sol (fac A) (A.mulVec st1.X - b) = 0 := by
      have h1 : A.mulVec st1.X - b = 0 := by rw [a2]; exact sub_eq_zero.2 (hstep _)
      have h2 := hsol A (A.mulVec st1.X - b) hA
      have h3 : A⁻¹.mulVec (A.mulVec (sol (fac A) (A.mulVec st1.X - b))) = A⁻¹.mulVec (A.mulVec st1.X - b) := by rw [h2]
      rw [Matrix.mulVec_mulVec, Matrix.nonsing_inv_mul _ hA, Matrix.one_mulVec] at h3
      rw [h3, h1, Matrix.mulVec_zero, neg_zero]
    rw [hz] at e
    simp only [dotProduct_zero, Real.sqrt_zero, ht, not_true_eq_false, false_and, or_false, true_and] at e
    rw [← b5, ← hk] at e
    obtain ⟨res, r1, r2, r3, r4⟩ := nsolve_converged htd.symm (by simp [d3]) (by simp [d4]) e
    exact ⟨res, r1, r2, by rw [r3, d2]; exact hstep _, by rw [r4, d5, a5]; simp [startSt]⟩

/-! ## Examples -/

/-- The linear solver by the inverse matrix has no error. -/
theorem exactSolve_inv : ExactSolve (n := n) id fun D v => D⁻¹.mulVec v := fun D v hD => by
  rw [Matrix.mulVec_mulVec, id, Matrix.mul_nonsing_inv _ hD, Matrix.one_mulVec]

/-- C130 on `2 X = 4` from the start 100: the solver returns 2. -/
example : ∃ res, nsolveOMP (realArith 1 0 id fun D v => D⁻¹.mulVec v) { lsTol := 0 }
    (fun X _ => .ok ((!![2] : Matrix (Fin 1) (Fin 1) ℝ).mulVec X - fun _ => 4, !![2])) (fun _ => 100) none = (.ok res, { lsTol := 0 }) ∧
      res.success = true ∧ res.X 0 = 2 := by
  have h2 : (!![2] : Matrix (Fin 1) (Fin 1) ℝ).det = 2 := by simp
  obtain ⟨res, h1, hs, h3, -⟩ := C130_affine (n := 1) (inf := 0) (A := !![2]) (b := fun _ => 4) (c := { lsTol := 0 })
    (f := fun X _ => .ok ((!![2] : Matrix (Fin 1) (Fin 1) ℝ).mulVec X - fun _ => 4, !![2])) exactSolve_inv
    (by rw [h2]; norm_num) (fun _ => rfl) ⟨rfl, rfl, rfl⟩ (by decide) (fun _ => 100) none
    (by simp [effectiveXtol, realArith])
  refine ⟨res, h1, hs, ?_⟩
  have h4 := congrFun h3 0
  simp [Matrix.mulVec, dotProduct] at h4
  linarith

/-- C130 on `X² = 2`: from every start near `√2` the solver with a tolerance `1/1000` returns a point closer than that. -/
example : ∃ r > 0, ∃ K, ∀ X0 : Fin 1 → ℝ, ‖X0 - fun _ => Real.sqrt 2‖ < r →
    ∃ res c, nsolveOMP (realArith 1 0 id fun D v => D⁻¹.mulVec v) { lsTol := 0, maxSteps := K }
      (fun X _ => .ok (fun i => X i ^ 2 - 2, Matrix.diagonal fun i => 2 * X i)) X0 (some (1 / 1000)) = (.ok res, c) ∧
        res.success = true ∧ ‖res.X - fun _ => Real.sqrt 2‖ < 1 / 1000 := by
  obtain ⟨r, hr, H⟩ := C130_converges (n := 1) (inf := 0) (x := fun _ => Real.sqrt 2)
    (f := fun X _ => .ok (fun i => X i ^ 2 - 2, Matrix.diagonal fun i => 2 * X i)) (F := fun X i => X i ^ 2 - 2)
    (J := fun X => Matrix.diagonal fun i => 2 * X i) exactSolve_inv (Filter.Eventually.of_forall fun _ => rfl)
    (Filter.Eventually.of_forall fun X => by
      rw [hasFDerivAt_pi']
      intro i
      have h1 : HasFDerivAt (fun X : Fin 1 → ℝ => X i) (ContinuousLinearMap.proj (R := ℝ) (φ := fun _ : Fin 1 => ℝ) i) X :=
        hasFDerivAt_apply i X
      refine ((h1.pow 2).sub_const 2).congr_fderiv ?_
      ext v
      simp [jacMap_apply, Matrix.mulVec_diagonal])
    ((Continuous.matrix_diagonal (by fun_prop)).continuousAt) (by funext i; simp) (by
      rw [Matrix.det_diagonal]
      simp)
  obtain ⟨K, hK⟩ := H (1 / 1000) (by norm_num)
  refine ⟨r, hr, K, fun X0 hX => ?_⟩
  obtain ⟨res, h1, h2, h3⟩ := hK { lsTol := 0, maxSteps := K } ⟨rfl, rfl, rfl⟩ le_rfl X0 hX (some (1 / 1000)) rfl
  exact ⟨res, _, h1, h2, h3⟩

end TMD
