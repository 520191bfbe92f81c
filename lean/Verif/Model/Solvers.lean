import Verif.Model.Basic
import Mathlib.Data.Matrix.Mul

/-!
# Model of `tmdsimpy/solvers.py` (class `NonlinearSolver`)

The linear and eigenvalue routines of NumPy/SciPy are parameters. Numbers are real.
-/

namespace TMD

noncomputable section

/-! ## Conditioning, `solvers.py:215-298` -/

/-- A scaling as accepted by NumPy broadcasting: a number or a vector. -/
inductive Scale (n : ℕ) where
  | scalar (r : ℝ)
  | vector (v : Fin n → ℝ)

/-- `s * R` for a vector `R`. -/
def Scale.mulVec {n : ℕ} : Scale n → (Fin n → ℝ) → (Fin n → ℝ)
  | .scalar r, R => fun i => r * R i
  | .vector v, R => fun i => v i * R i

/-- `s * D` for a matrix `D`: a vector is broadcast along the last axis, that is over the columns. -/
def Scale.mulMat {n : ℕ} : Scale n → Matrix (Fin n) (Fin n) ℝ → Matrix (Fin n) (Fin n) ℝ
  | .scalar r, D => fun i j => r * D i j
  | .vector v, D => fun i j => v j * D i j

/-- What a residual function returns when called as `fun(X)`/`fun(X, calc_grad=False)`; the second
component is read only when gradients are requested. -/
abbrev ResFun (n : ℕ) := (Fin n → ℝ) → Bool → (Fin n → ℝ) × Matrix (Fin n) (Fin n) ℝ

/-- `_conditioned_fun`, `solvers.py:282-298`; `none` in place of the Jacobian when it is not
calculated. -/
def conditionedFun {n : ℕ} (Xc CtoP : Fin n → ℝ) (RPtoC : Scale n) (calcGrad : Bool) (f : ResFun n) :
    (Fin n → ℝ) × Option (Matrix (Fin n) (Fin n) ℝ) :=
  let Xp := fun i => Xc i * CtoP i
  if calcGrad then
    let r := f Xp true
    (RPtoC.mulVec r.1, some fun i j => RPtoC.mulMat r.2 i j * CtoP j)
  else
    (RPtoC.mulVec (f Xp false).1, none)

/-- `NonlinearSolver.conditioning_wrapper`, `solvers.py:215-249`. -/
def conditioningWrapper {n : ℕ} (f : ResFun n) (CtoP : Fin n → ℝ) (RPtoC : Scale n) :
    (Fin n → ℝ) → Bool → (Fin n → ℝ) × Option (Matrix (Fin n) (Fin n) ℝ) :=
  fun Xc calcGrad => conditionedFun Xc CtoP RPtoC calcGrad f

/-! ## Linear solves, `solvers.py:33-112` -/

/-- `NonlinearSolver.lin_solve`, `solvers.py:33-53`; `npSolve` is `numpy.linalg.solve`. -/
def linSolve {A V : Type} (npSolve : A → V → Except Err V) (a : A) (b : V) : Except Err V := npSolve a b

/-- `NonlinearSolver.lin_factor`, `solvers.py:55-80`: the one-element tuple `(A,)`. -/
def linFactor {A : Type} (a : A) : List A := [a]

/-- `NonlinearSolver.lin_factored_solve`, `solvers.py:82-112`: `factor_res[0]` raises `IndexError` on an
empty tuple. -/
def linFactoredSolve {A V : Type} (npSolve : A → V → Except Err V) (factorRes : List A) (b : V) : Except Err V :=
  match factorRes with
  | [] => .error .index
  | a :: _ => npSolve a b

/-! ## Eigenvalue analysis, `solvers.py:172-213` -/

/-- A Python list of two integers, `subset_by_index`. -/
structure Subset where
  lo : ℤ
  hi : ℤ
  deriving DecidableEq

/-- The lists alive in the interpreter, by address. Address `0` is the default argument object
`[0, 2]`, created once when the method is defined (`solvers.py:172`). -/
abbrev Lists := ℕ → Subset

/-- The heap after the class statement: the default object is `[0, 2]`, all others are as the caller
made them. -/
def Lists.initial (caller : Lists) : Lists := fun a => if a = 0 then ⟨0, 2⟩ else caller a

/-- `NonlinearSolver.eigs`, `solvers.py:208-213`: entry 1 of the list object at address `a` is
overwritten, then SciPy is called. `n` is `K.shape[0]`, `eigh` is `scipy.linalg.eigh` for the given
matrices. Returns the result and the new heap. -/
def eigs {Sys Res : Type} (shape : Sys → ℕ) (eigh : Sys → Subset → Res) (H : Lists) (a : ℕ) (K : Sys) :
    Res × Lists :=
  let s : Subset := ⟨(H a).lo, min (H a).hi ((shape K : ℤ) - 1)⟩
  (eigh K s, fun b => if b = a then s else H b)

/-- A sequence of calls (list address, system); the heap after it. -/
def eigsCalls {Sys Res : Type} (shape : Sys → ℕ) (eigh : Sys → Subset → Res) (H : Lists) :
    List (ℕ × Sys) → Lists
  | [] => H
  | (a, K) :: rest => eigsCalls shape eigh (eigs shape eigh H a K).2 rest

/-! ## `NonlinearSolver.nsolve`, `solvers.py:114-170` -/

/-- `NonlinearSolver.nsolve`: `root` is `scipy.optimize.root(..., method='hybr', jac=True)` as a function
of the residual function, the start and the tolerance; it returns the point and its report. -/
def baseNsolve {n : ℕ} {Sol : Type} (root : ResFun n → (Fin n → ℝ) → ℝ → (Fin n → ℝ) × Sol) (f : ResFun n)
    (X0 : Fin n → ℝ) (xtol : Option ℝ) :
    (Fin n → ℝ) × (Fin n → ℝ) × Matrix (Fin n) (Fin n) ℝ × Sol :=
  let xtol := match xtol with | none => 1 / 10 ^ 6 * (n : ℝ) | some x => x
  let sol := root f X0 xtol
  let r := f sol.1 true
  (sol.1, r.1, r.2, sol.2)

end

end TMD
