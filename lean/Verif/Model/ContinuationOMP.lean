import Verif.Model.SolverOMP
import Verif.Model.Continuation
import Verif.Spec.Gradient

/-!
# The parallel solver inside a continuation

`Continuation` gets a solver object; here it is `NonlinearSolverOMP` (`jax/solvers.py`) with its `nsolve` called by
`continuation.py:748-751, 810-813, 826-829` as `self.solver.nsolve(fun, X0, xtol=self.config['xtol'], verbose=…)`.
-/

namespace TMD

open Spec

noncomputable section

/-- A function of a continuation as the function of the solver: arrays with `n` entries; with gradients asked for, the code unpacks a
pair `R, dRdX`. Without gradients the second entry is never read. -/
def augSolve (n : ℕ) (F : AugFun) : SolveFun (Fin n → ℝ) (Matrix (Fin n) (Fin n) ℝ) := fun X g =>
  match F (ext X) g with
  | .error e => .error e
  | .ok (R, some J) => .ok (fun i => R i, fun i j => J i j)
  | .ok (R, none) => if g then .error .value else .ok (fun i => R i, 0)

/-- `NonlinearSolverOMP` as the solver of a continuation: `lin` is its `lin_solve`, `fac n`, `sol n` the factored solve, `c` its
settings, `xtol` the setting of the continuation. The number of the call has no influence. -/
def ompContSolver {L : ℕ → Type} (lin : ℕ → (ℕ → ℕ → ℝ) → (ℕ → ℝ) → Except Err (ℕ → ℝ)) (inf : ℝ)
    (fac : (n : ℕ) → Matrix (Fin n) (Fin n) ℝ → L n) (sol : (n : ℕ) → L n → (Fin n → ℝ) → (Fin n → ℝ)) (c : OmpConfig ℝ)
    (xtol : Option ℝ) : ContSolver :=
  { linSolve := lin
    nsolve := fun n _ F x =>
      match (nsolveOMP (realArith n inf (fac n) (sol n)) c (augSolve n F) (fun i => x i) xtol).1 with
      | .error e => .error e
      | .ok res => .ok ⟨ext res.X, res.success, res.nfev⟩ }

end

end TMD
