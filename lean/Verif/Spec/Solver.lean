import Verif.Model.SolverOMP

/-!
# What a run of the nonlinear solver is

Independent description of a run as a sequence `it 0, …, it (n-1)` of iterations (point, residual, full
step, step taken).
-/

namespace TMD.Spec

variable {F V M L : Type}

/-- The point after `n` iterations. -/
def after (A : Arith F V M L) (X0 : V) (it : ℕ → Iter V) : ℕ → V
  | 0 => X0
  | n + 1 => A.vadd (it n).X (it n).step

/-- Residual norm, energy and step norm of iteration `j` (the step norm is that of the full step; the
energy is the product of the new residual with the previous step, infinite at the start), and their
values relative to the first available ones. -/
def measures (A : Arith F V M L) (it : ℕ → Iter V) (j : ℕ) : Errs F :=
  let r := fun j => A.sqrt (A.dot (it j).R (it j).R)
  let u := fun j => A.sqrt (A.dot (it j).full (it j).full)
  let e := if j = 0 then A.inf else A.dot (it j).R (it (j-1)).step
  { r := r j, e := e, u := u j, rRel := A.div (r j) (r 0), uRel := A.div (u j) (u 0),
    eRel := A.div e (if j = 0 then A.inf else A.abs (A.dot (it 1).R (it 0).step)) }

/-- The measure a tolerance name stands for in the documentation (`jax/solvers.py:41-61`). -/
def named (x : Errs F) : TolName → Option F
  | .xtol => some x.u
  | .rtol => some x.r
  | .etol => some x.e
  | .xtolRel => some x.uRel
  | .rtolRel => some x.rRel
  | .etolRel => some x.eRel
  | .other => none

/-- The quasi-Newton operator after `m` BFGS updates of the factored Jacobian `fac` of iteration `base`:
`H⁺ v = (1 - ρ s yᵀ) H (1 - ρ y sᵀ) v + ρ s sᵀ v` with `s` the step taken, `y` the change of the residual
and `ρ = 1/(s·y)` (Nocedal & Wright, eq. 7.16). -/
def quasi (A : Arith F V M L) (fac : L) (it : ℕ → Iter V) (base : ℕ) : ℕ → V → V
  | 0, v => A.fsolve fac v
  | m + 1, v =>
    let s := (it (base + m)).step
    let y := A.vsub (it (base + m + 1)).R (it (base + m)).R
    let ρ := A.div A.one (A.dot s y)
    let a := A.mul ρ (A.dot s v)
    let w := quasi A fac it base m (A.vsub v (A.smul a y))
    A.vadd w (A.smul (A.sub a (A.mul ρ (A.dot y w))) s)

/-- A run of `n` iterations from `X0`. -/
structure Run (A : Arith F V M L) (c : OmpConfig F) (f : SolveFun V M) (X0 : V) (it : ℕ → Iter V) (n : ℕ) :
    Prop where
  /-- every iteration starts where the previous one ended -/
  chain : ∀ j < n, (it j).X = after A X0 it j
  /-- the residual is the function value there -/
  residual : ∀ j < n, ∃ D, f (it j).X (it j).newton = .ok ((it j).R, D) ∧
    ((it j).newton = true → A.mIsNaN D = false ∧ (it j).full = A.vneg (A.fsolve (A.factor D) (it j).R))
  /-- between these, the step is the quasi-Newton operator applied to minus the residual -/
  quasi : ∀ j < n, (it j).newton = false →
    ∃ D, f (it (j - j % c.reformFreq)).X true = .ok ((it (j - j % c.reformFreq)).R, D) ∧
      (it j).full = quasi A (A.factor D) it (j - j % c.reformFreq) (j % c.reformFreq) (A.vneg (it j).R)
  /-- the Jacobian is recalculated every `reformFreq` iterations -/
  newton : ∀ j < n, (it j).newton = decide (j % c.reformFreq = 0)
  /-- no NaN was produced -/
  notNaN : ∀ j < n, A.vIsNaN (it j).R = false ∧ A.vIsNaN (it j).full = false
  /-- the step taken is the full step, scaled by the line search when enabled -/
  step : ∀ j < n, (c.lsIters = 0 → (it j).step = (it j).full) ∧ (0 < c.lsIters →
    ∃ ls, lineSearch A c f (it j).X (it j).R (it j).full = .ok ls ∧ (it j).step = A.smul ls.alpha (it j).full)

end TMD.Spec
