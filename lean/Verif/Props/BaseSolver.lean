import Verif.Props.Solvers

/-!
# C118: what `NonlinearSolver.nsolve` returns

`nsolve` (solvers.py:114-170) hands the problem to `scipy.optimize.root` and evaluates the residual function once more at the
point it gets back. SciPy is a parameter here and may return any point: the reports of `nsolve` are true in any case.
-/

namespace TMD

open Spec Matrix

noncomputable section

/-- C118: residual and matrix returned by `nsolve` are those of the function at the returned point, whatever SciPy did;
point and report are those of SciPy for the tolerance given, or for `1e-6` times the number of unknowns. -/
theorem C118_reports {n : ℕ} {Sol : Type} (root : ResFun n → (Fin n → ℝ) → ℝ → (Fin n → ℝ) × Sol) (f : ResFun n) (X0 : Fin n → ℝ)
    (xtol : Option ℝ) :
    ∃ X s, baseNsolve root f X0 xtol = (X, (f X true).1, (f X true).2, s) ∧
      (∀ t, xtol = some t → (X, s) = root f X0 t) ∧ (xtol = none → (X, s) = root f X0 (n / 1000000)) := by
  cases xtol with
  | none =>
    refine ⟨_, _, rfl, by simp, fun _ => ?_⟩
    show _ = root f X0 (n / 1000000)
    simp only [show (1:ℝ) / 10 ^ 6 * (n:ℝ) = n / 1000000 by ring]
  | some t => exact ⟨_, _, rfl, fun t' ht => by cases ht; rfl, by simp⟩

/-- C118: for a function with exact Jacobians, the returned residual vanishes exactly when the returned point is a solution,
the returned matrix is the Jacobian there, and a full Newton step from there is known: if the matrix has an inverse `W` and
the function is affine, the point minus `W` times the residual is a solution. -/
theorem C118_solution {n : ℕ} {Sol : Type} (root : ResFun n → (Fin n → ℝ) → ℝ → (Fin n → ℝ) × Sol) (R : (Fin n → ℝ) → Fin n → ℝ)
    (J : (Fin n → ℝ) → Matrix (Fin n) (Fin n) ℝ) (hJ : ∀ X, IsJacobian R (J X) X) (X0 : Fin n → ℝ) (xtol : Option ℝ) :
    let out := baseNsolve root (fun X _ => (R X, J X)) X0 xtol
    (out.2.1 = 0 ↔ R out.1 = 0) ∧ IsJacobian R out.2.2.1 out.1 ∧
      ((∀ X, R X = R 0 + (J 0).mulVec X) → ∀ W, out.2.2.1 * W = 1 → R (out.1 - W.mulVec out.2.1) = 0) := by
  obtain ⟨X, s, h1, -⟩ := C118_reports root (fun X _ => (R X, J X)) X0 xtol
  intro out
  have h2 : out = (X, R X, J X, s) := h1
  rw [h2]
  refine ⟨Iff.rfl, hJ X, fun haff W hW => ?_⟩
  simp only at hW ⊢
  have hc : J X = J 0 := by
    refine IsJacobian.unique (hJ X) ?_
    unfold IsJacobian
    have e : R = fun Y => R 0 + (LinearMap.toContinuousLinearMap (J 0).mulVecLin) Y := by
      funext Y; rw [haff Y]; rfl
    rw [e]
    exact (ContinuousLinearMap.hasFDerivAt _).const_add _
  rw [haff, Matrix.mulVec_sub, Matrix.mulVec_mulVec, ← hc, hW, Matrix.one_mulVec, hc]
  have := haff X
  rw [this]
  abel

/-- C118: solving in conditioned coordinates and scaling the returned point back: the returned residual vanishes exactly when
the physical point is a solution of the physical problem. -/
theorem C118_conditioned {n : ℕ} {Sol : Type} (root : ResFun n → (Fin n → ℝ) → ℝ → (Fin n → ℝ) × Sol) (f : ResFun n)
    (CtoP : Fin n → ℝ) (RPtoC : Scale n) (hR : RPtoC.NonZero) (X0 : Fin n → ℝ) (xtol : Option ℝ) :
    let g : ResFun n := fun X b => ((conditioningWrapper f CtoP RPtoC X b).1, ((conditioningWrapper f CtoP RPtoC X b).2).getD 0)
    let out := baseNsolve root g X0 xtol
    (out.2.1 = 0 ↔ (f (fun i => CtoP i * out.1 i) true).1 = 0) ∧
      ∀ r, RPtoC = .scalar r → IsJacobian (fun X => (f X true).1) (f (fun i => out.1 i * CtoP i) true).2 (fun i => out.1 i * CtoP i) →
        IsJacobian (fun X => (g X true).1) out.2.2.1 out.1 := by
  intro g out
  obtain ⟨X, s, h1, -⟩ := C118_reports root g X0 xtol
  have h2 : out = (X, (g X true).1, (g X true).2, s) := h1
  rw [h2]
  refine ⟨C12_roots f CtoP RPtoC hR X true, fun r hr hf => ?_⟩
  subst hr
  obtain ⟨J, hJ, hJ'⟩ := C12_jacobian_partial f CtoP r X hf
  show IsJacobian _ (((conditioningWrapper f CtoP (.scalar r) X true).2).getD 0) X
  rw [hJ]
  exact hJ'

/-- C118: a factor that was never made (`stored_factor` is `()` at first) is an error for every right-hand side, and of a
factor only the first entry is used. -/
theorem C118_factor {A V : Type} (npSolve : A → V → Except Err V) (b : V) :
    linFactoredSolve npSolve [] b = .error .index ∧
      ∀ (a : A) (rest : List A), linFactoredSolve npSolve (a :: rest) b = linSolve npSolve a b :=
  ⟨rfl, fun _ _ => rfl⟩

/-- A root finder that gives up at its start: `nsolve` reports the residual `-2` of `x² - 3` at `1`, not success. -/
example : ∃ s : Bool, baseNsolve (n := 1) (fun _ X0 _ => (X0, false)) (fun X _ => (fun i => X i ^ 2 - 3, fun i _ => 2 * X i)) (fun _ => 1) none
    = (fun _ => 1, fun _ => -2, fun _ _ => 2, s) := by
  refine ⟨false, ?_⟩
  obtain ⟨X, s, h1, -, h2⟩ := C118_reports (n := 1) (fun _ X0 _ => (X0, false)) (fun X _ => (fun i => X i ^ 2 - 3, fun i _ => 2 * X i)) (fun _ => 1) none
  have h3 := h2 rfl
  obtain ⟨rfl, rfl⟩ := Prod.ext_iff.1 h3
  rw [h1]
  norm_num
  rfl

end

end TMD
