import Verif.Model.Basic
import Mathlib.Analysis.SpecialFunctions.Sqrt
import Mathlib.Data.Matrix.Mul

/-!
# Model of `tmdsimpy/jax/solvers.py` (class `NonlinearSolverOMP`)

The arithmetic is a parameter (`Arith`), so the theorems about control flow hold for floating point
with NaN and infinities as well as for the reals (`realArith`).
Not modelled: the text printed when `verbose`, and the convergence rates computed only for printing.
-/

namespace TMD

/-- The number and array operations used by the solver. `F` are scalars, `V` vectors, `M` matrices,
`L` factored matrices. -/
structure Arith (F V M L : Type) where
  /-- Python `a < b` on scalars. -/
  lt : F → F → Bool
  abs : F → F
  sqrt : F → F
  add : F → F → F
  sub : F → F → F
  mul : F → F → F
  div : F → F → F
  zero : F
  one : F
  half : F
  /-- `np.inf` -/
  inf : F
  /-- `a == 0.0` -/
  isZero : F → Bool
  /-- `v @ w` -/
  dot : V → V → F
  vadd : V → V → V
  vsub : V → V → V
  vneg : V → V
  /-- `a * v` -/
  smul : F → V → V
  /-- `np.nan * np.zeros_like(X)` and `np.zeros_like(X)` -/
  vnan : V
  vzero : V
  /-- `np.isnan(np.sum(v))` -/
  vIsNaN : V → Bool
  mIsNaN : M → Bool
  /-- `lin_factor` -/
  factor : M → L
  /-- `lin_factored_solve` -/
  fsolve : L → V → V
  /-- `1e-6 * X.shape[0]` -/
  defaultXtol : V → F

/-- The tolerance names of the documentation (`jax/solvers.py:62-67`); any other string is `other`. -/
inductive TolName where
  | xtol | rtol | etol | xtolRel | rtolRel | etolRel | other
  deriving DecidableEq

/-- `self.config`, `jax/solvers.py:111-125`. A tolerance is `none` when its value is Python `None`. -/
structure OmpConfig (F : Type) where
  maxSteps : ℕ := 20
  reformFreq : ℕ := 1
  tol : TolName → Option F := fun _ => none
  stoppingTol : List TolName := [.xtol]
  acceptingTol : List TolName := []
  lsIters : ℕ := 0
  lsTol : F
  lsSameSign : Bool := true

/-- Current error measures `r, e, u` and the relative ones. -/
structure Errs (F : Type) where
  r : F
  e : F
  u : F
  rRel : F
  eRel : F
  uRel : F

/-- `error_dict[key]`, `jax/solvers.py:787-794`, as written (note the entries of `xtol_rel` and
`etol_rel`); `none` for a `KeyError`. -/
def errorDict {F : Type} (x : Errs F) : TolName → Option F
  | .xtol => some x.u
  | .rtol => some x.r
  | .etol => some x.e
  | .xtolRel => some x.eRel
  | .rtolRel => some x.rRel
  | .etolRel => some x.uRel
  | .other => none

/-- The loop of `_check_convg`, `jax/solvers.py:796-797`. `converged or (...)` short-circuits, so after the
first satisfied tolerance nothing is looked up. A missing key is a `KeyError`, a comparison with `None`
a `TypeError`. -/
def checkLoop {F V M L : Type} (A : Arith F V M L) (tol : TolName → Option F) (x : Errs F) :
    Bool → List TolName → Except Err Bool
  | converged, [] => .ok converged
  | true, _ :: ks => checkLoop A tol x true ks
  | false, k :: ks =>
    match errorDict x k with
    | none => .error .key
    | some v =>
      match tol k with
      | none => .error .type
      | some t => checkLoop A tol x (A.lt (A.abs v) t) ks

/-- `_check_convg`, `jax/solvers.py:753-799`. -/
def checkConvg {F V M L : Type} (A : Arith F V M L) (checkList : List TolName) (tol : TolName → Option F)
    (x : Errs F) : Except Err Bool :=
  checkLoop A tol x false checkList

/-! ## Line search, `jax/solvers.py:243-429` -/

/-- Residual function: `f X true` is `fun(X)`/`fun(X, True)`, `f X false` is `fun(X, calc_grad=False)`; it
may raise. -/
abbrev SolveFun (V M : Type) := V → Bool → Except Err (V × M)

/-- Bracket data `alpha_bracket, Galpha_bracket, R_bracket`. -/
structure Bracket (F V : Type) where
  a0 : F
  a1 : F
  g0 : F
  g1 : F
  r0 : V
  r1 : V

/-- Result of `line_search`: `alpha`, `sol['R(alpha)']`, `sol['nfev']`, the bracket, and whether the final
`alpha == 0.0` replacement took place. -/
structure LineRes (F V : Type) where
  alpha : F
  R : V
  nfev : ℕ
  forced : Bool
  br : Bracket F V

/-- The bisection loop, `jax/solvers.py:355-393`; the first argument is the number of iterations left,
`nfev` the number of function evaluations so far. -/
def lineLoop {F V M L : Type} (A : Arith F V M L) (c : OmpConfig F) (f : SolveFun V M) (X deltaX : V) (G0 : F) :
    ℕ → Bracket F V → ℕ → Except Err (Bracket F V × ℕ)
  | 0, b, nfev => .ok (b, nfev)
  | k + 1, b, nfev =>
    let alpha := A.mul A.half (A.add b.a0 b.a1)
    match f (A.vadd X (A.smul alpha deltaX)) false with
    | .error e => .error e
    | .ok (Rmid, _) =>
      let Gmid := A.dot deltaX Rmid
      let b' := if A.lt (A.mul Gmid b.g0) A.zero then { b with a1 := alpha, g1 := Gmid, r1 := Rmid }
        else { b with a0 := alpha, g0 := Gmid, r0 := Rmid }
      if c.lsSameSign && A.lt (A.abs b'.g0) (A.mul c.lsTol (A.abs G0)) then .ok (b', nfev + 1)
      else if !c.lsSameSign && A.lt (A.abs Gmid) (A.mul c.lsTol (A.abs G0)) then .ok (b', nfev + 1)
      else lineLoop A c f X deltaX G0 k b' (nfev + 1)

/-- `NonlinearSolverOMP.line_search`, `jax/solvers.py:305-429`. With `verbose` and no iterations the code
would print an undefined `ind`; printing is not modelled. -/
def lineSearch {F V M L : Type} (A : Arith F V M L) (c : OmpConfig F) (f : SolveFun V M) (X Rx deltaX : V) :
    Except Err (LineRes F V) :=
  let G0 := A.dot deltaX Rx
  match f (A.vadd X deltaX) false with
  | .error e => .error e
  | .ok (R1, _) =>
    let G1 := A.dot deltaX R1
    let b : Bracket F V := ⟨A.zero, A.one, G0, G1, Rx, R1⟩
    if A.lt A.zero (A.mul G1 G0) then .ok ⟨A.one, R1, 1, false, b⟩
    else if !c.lsSameSign && A.lt (A.abs G1) (A.mul c.lsTol (A.abs G0)) then .ok ⟨A.one, R1, 1, false, b⟩
    else
      match lineLoop A c f X deltaX G0 c.lsIters b 1 with
      | .error e => .error e
      | .ok (b, nfev) =>
        let lower := c.lsSameSign || A.lt (A.abs b.g0) (A.abs b.g1)
        let alpha := if lower then b.a0 else b.a1
        let R := if lower then b.r0 else b.r1
        if A.isZero alpha then .ok ⟨b.a1, b.r1, nfev, true, b⟩
        else .ok ⟨alpha, R, nfev, false, b⟩

/-! ## BFGS direction, `jax/solvers.py:611-639` -/

/-- First loop of the two-loop recursion, `kk = m-1, …, 0` (`jax/solvers.py:627-629`). -/
def bfgsLoop1 {F V M L : Type} (A : Arith F V M L) (s y : ℕ → V) (p : ℕ → F) :
    ℕ → V → (ℕ → F) → V × (ℕ → F)
  | 0, d, alpha => (d, alpha)
  | m + 1, d, alpha =>
    let a := A.mul (p m) (A.dot (s m) d)
    bfgsLoop1 A s y p m (A.vsub d (A.smul a (y m))) (fun j => if j = m then a else alpha j)

/-- Second loop, `kk = 0, …, m-1` (`jax/solvers.py:633-635`). -/
def bfgsLoop2 {F V M L : Type} (A : Arith F V M L) (s y : ℕ → V) (p : ℕ → F) (alpha : ℕ → F) : ℕ → V → V
  | 0, d => d
  | m + 1, d =>
    let d := bfgsLoop2 A s y p alpha m d
    let beta := A.mul (p m) (A.dot (y m) d)
    A.vadd d (A.smul (A.sub (alpha m) beta) (s m))

/-- The quasi-Newton step for `m` stored pairs, applied to a start vector `d` (the code starts from
`-R`). -/
def bfgsStep {F V M L : Type} (A : Arith F V M L) (fac : L) (s y : ℕ → V) (p : ℕ → F) (m : ℕ) (d : V) : V :=
  let r := bfgsLoop1 A s y p m d (fun _ => A.zero)
  bfgsLoop2 A s y p r.2 m (A.fsolve fac r.1)

/-! ## The iteration, `jax/solvers.py:431-750` -/

/-- One completed iteration: the point, its residual, the full step and the step taken after line
search, and whether the Jacobian was recalculated. Recorded for the statements only. -/
structure Iter (V : Type) where
  X : V
  R : V
  full : V
  step : V
  newton : Bool

/-- Values carried through the loop. `last` holds `r_curr, e_curr, u_curr`, `first` holds `r0, e0, u0`
(unbound before the first completed iteration). -/
structure OmpSt (F V M L : Type) where
  X : V
  dXm1 : V
  Rm1 : V
  bfgsInd : ℕ
  fac : Option L
  jac : Option M
  R : Option V
  s : ℕ → V
  y : ℕ → V
  p : ℕ → F
  first : Option (F × F × F)
  last : Option (F × F × F)
  nfev : ℕ
  njev : ℕ
  trace : List (Iter V)

/-- How the loop ended. -/
inductive LoopEnd where
  | nan | converged | exhausted
  deriving DecidableEq

/-- The direction part of an iteration, `jax/solvers.py:582-641`: `.ok none` is a stop on NaN.
With `reform_freq = 0` the allocation `np.zeros((N, -1))` raises `ValueError`. -/
def direction {F V M L : Type} (A : Arith F V M L) (reformFreq : ℕ) (f : SolveFun V M) (st : OmpSt F V M L) :
    Except Err (OmpSt F V M L × Option (V × V)) :=
  if st.bfgsInd = 0 then
    match f st.X true with
    | .error e => .error e
    | .ok (R, D) =>
      let st := { st with nfev := st.nfev + 1, njev := st.njev + 1, R := some R, jac := some D }
      if A.vIsNaN R then .ok (st, none)
      else if A.mIsNaN D then .ok (st, none)
      else if reformFreq = 0 then .error .value
      else
        let fac := A.factor D
        let st := { st with fac := some fac, s := fun _ => A.vzero, y := fun _ => A.vzero, p := fun _ => A.zero }
        .ok (st, some (R, A.vneg (A.fsolve fac R)))
  else
    match f st.X false with
    | .error e => .error e
    | .ok (R, _) =>
      let st := { st with nfev := st.nfev + 1, R := some R }
      if A.vIsNaN R then .ok (st, none)
      else
        match st.fac with
        | none => .error .name
        | some fac =>
          let k := st.bfgsInd - 1
          let sk := st.dXm1
          let yk := A.vsub R st.Rm1
          let st := { st with
            s := setRow st.s k sk
            y := setRow st.y k yk
            p := setRow st.p k (A.div A.one (A.dot sk yk)) }
          .ok (st, some (R, bfgsStep A fac st.s st.y st.p st.bfgsInd (A.vneg R)))

/-- The error measures handed to `_check_convg`. -/
def errsOf {F V M L : Type} (A : Arith F V M L) (first last : F × F × F) : Errs F :=
  ⟨last.1, last.2.1, last.2.2, A.div last.1 first.1, A.div last.2.1 first.2.1, A.div last.2.2 first.2.2⟩

/-- `r0, e0, u0` as set in iteration `i`, `jax/solvers.py:663-674`. (They are bound whenever `i > 0`.) -/
def firstVals {F V M L : Type} (A : Arith F V M L) (i : ℕ) (old : Option (F × F × F)) (r e u : F) : F × F × F :=
  if i = 0 then (r, A.inf, u)
  else
    match old with
    | none => (r, e, u)
    | some g => if i = 1 then (g.1, A.abs e, g.2.2) else g

/-- The loop `for i in range(max_iter)`, `jax/solvers.py:580-722`; the first argument is the number of
iterations left, `i` the iteration index. -/
def solveLoop {F V M L : Type} (A : Arith F V M L) (c : OmpConfig F) (f : SolveFun V M) :
    ℕ → ℕ → OmpSt F V M L → Except Err (OmpSt F V M L × LoopEnd)
  | 0, _, st => .ok (st, .exhausted)
  | k + 1, i, st =>
    match direction A c.reformFreq f st with
    | .error e => .error e
    | .ok (st, none) => .ok (st, .nan)
    | .ok (st, some (R, full)) =>
      if A.vIsNaN full then .ok (st, .nan)
      else
        let u := A.sqrt (A.dot full full)
        let e := A.dot R st.dXm1
        let r := A.sqrt (A.dot R R)
        match (if 0 < c.lsIters then
            match lineSearch A c f st.X R full with
            | .error e => .error e
            | .ok ls => .ok (A.smul ls.alpha full)
          else .ok full : Except Err V) with
        | .error e => .error e
        | .ok step =>
          let newton := decide (st.bfgsInd = 0)
          let X := st.X
          let e := if i = 0 then A.inf else e
          let first := firstVals A i st.first r e u
          let st := { st with X := A.vadd X step, first := some first, last := some (r, e, u),
                              trace := st.trace ++ [⟨X, R, full, step, newton⟩] }
          match checkConvg A c.stoppingTol c.tol (errsOf A first (r, e, u)) with
          | .error e => .error e
          | .ok true => .ok (st, .converged)
          | .ok false =>
            solveLoop A c f k (i + 1)
              { st with bfgsInd := (st.bfgsInd + 1) % c.reformFreq, Rm1 := R, dXm1 := step }

/-- What `nsolve` returns: `X`, `R`, `dRdX` and the report. -/
structure SolveRes (V M : Type) where
  X : V
  R : V
  dRdX : M
  success : Bool
  nfev : ℕ
  njev : ℕ
  trace : List (Iter V)
  stopped : LoopEnd

/-- The state before the loop, `jax/solvers.py:554-579`. -/
def startSt {F V M L : Type} (A : Arith F V M L) (X0 : V) : OmpSt F V M L :=
  { X := X0, dXm1 := A.vnan, Rm1 := A.vzero, bfgsInd := 0, fac := none, jac := none, R := none,
    s := fun _ => A.vzero, y := fun _ => A.vzero, p := fun _ => A.zero, first := none, last := none,
    nfev := 0, njev := 0, trace := [] }

/-- After the loop, `jax/solvers.py:727-750`. Unbound names raise. -/
def finish {F V M L : Type} (A : Arith F V M L) (c : OmpConfig F) (st : OmpSt F V M L) (w : LoopEnd) :
    Except Err (SolveRes V M) :=
  let report (success : Bool) : Except Err (SolveRes V M) :=
    match st.R, st.jac with
    | some R, some D => .ok ⟨st.X, R, D, success, st.nfev, st.njev, st.trace, w⟩
    | _, _ => .error .name
  match w with
  | .nan => report false
  | .converged => report true
  | .exhausted =>
    match st.first, st.last with
    | some g, some l =>
      match checkConvg A c.acceptingTol c.tol (errsOf A g l) with
      | .error e => .error e
      | .ok b => report b
    | _, _ => .error .name

/-- The `xtol` used for one call, `jax/solvers.py:527-532`. -/
def effectiveXtol {F V M L : Type} (A : Arith F V M L) (c : OmpConfig F) (X0 : V) (xtol : Option F) : F :=
  match xtol with
  | some x => x
  | none =>
    match c.tol .xtol with
    | some x => x
    | none => A.defaultXtol X0

/-- The configuration with another `xtol`. -/
def OmpConfig.withXtol {F : Type} (c : OmpConfig F) (x : Option F) : OmpConfig F :=
  { c with tol := fun k => if k = .xtol then x else c.tol k }

/-- `NonlinearSolverOMP.nsolve`, `jax/solvers.py:431-750`. Returns the result (or the exception) together
with the configuration left in the object: it is overwritten at line 540 and restored at line 748,
which an exception skips. -/
def nsolveOMP {F V M L : Type} (A : Arith F V M L) (c : OmpConfig F) (f : SolveFun V M) (X0 : V)
    (xtol : Option F) : Except Err (SolveRes V M) × OmpConfig F :=
  let setting := c.tol .xtol
  let c' := c.withXtol (some (effectiveXtol A c X0 xtol))
  match solveLoop A c' f c'.maxSteps 0 (startSt A X0) with
  | .error e => (.error e, c')
  | .ok (st, w) =>
    match finish A c' st w with
    | .error e => (.error e, c')
    | .ok res => (.ok res, c'.withXtol setting)

/-! ## Real arithmetic -/

/-- The solver arithmetic over the reals: no NaN; `inf` is an arbitrary given number (it is used only for
the energy of the first iteration). -/
noncomputable def realArith (n : ℕ) (inf : ℝ) {L : Type} (factor : Matrix (Fin n) (Fin n) ℝ → L)
    (fsolve : L → (Fin n → ℝ) → (Fin n → ℝ)) : Arith ℝ (Fin n → ℝ) (Matrix (Fin n) (Fin n) ℝ) L :=
  { lt := fun a b => decide (a < b)
    abs := fun a => |a|
    sqrt := Real.sqrt
    add := (· + ·), sub := (· - ·), mul := (· * ·), div := (· / ·), zero := 0, one := 1, half := 1 / 2, inf := inf
    isZero := fun a => decide (a = 0)
    dot := fun v w => v ⬝ᵥ w
    vadd := (· + ·), vsub := (· - ·), vneg := fun v => -v, smul := fun a v => a • v
    vnan := 0, vzero := 0
    vIsNaN := fun _ => false
    mIsNaN := fun _ => false
    factor := factor
    fsolve := fsolve
    defaultXtol := fun _ => 1 / 10 ^ 6 * (n : ℝ) }

end TMD
