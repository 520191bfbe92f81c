import Verif.Model.Basic
import Mathlib.Data.Finset.Fold
import Mathlib.Analysis.Real.Sqrt
import Mathlib.Data.Sign.Basic

/-!
# Model of `tmdsimpy/continuation.py`

Vectors of unknowns `XlamP` have `N+1` entries: entries `0..N-1` are `X`, entry `N` is `lam`. Numbers
are real. The user's residual function, `numpy.linalg.solve` (through `solver.lin_solve`) and
`solver.nsolve` are parameters. `nsolve` gets the number of earlier calls as an extra argument, so that a
solver whose answers depend on its history is covered. Printing is not modelled.

Divisions: `c = (1-b)/norm(XC0)**2` and `1/max(abs(diag))` are `inf` in NumPy when the divisor is zero, and
`0` here; the theorems that need these values exclude the case.
-/

namespace TMD

noncomputable section

/-- Return value of the user's function, `(R, dRdX, dRdlam)`. -/
structure ContOut where
  R : ℕ → ℝ
  J : ℕ → ℕ → ℝ
  d : ℕ → ℝ

/-- The user's function `fun(XlamP, calc_grad)`; only `R` is read when the flag is false. -/
abbrev ContFun := (ℕ → ℝ) → Bool → Except Err ContOut

/-- A function given to the nonlinear solver: residual, and Jacobian when asked for. -/
abbrev AugFun := (ℕ → ℝ) → Bool → Except Err ((ℕ → ℝ) × Option (ℕ → ℕ → ℝ))

/-- What `continuation` reads from `nsolve`: `XlamC`, `sol['success']`, `sol['nfev']`. -/
structure SolOut where
  X : ℕ → ℝ
  success : Bool
  nfev : ℕ

/-- The solver object. The number of unknowns is passed first. -/
structure ContSolver where
  linSolve : ℕ → (ℕ → ℕ → ℝ) → (ℕ → ℝ) → Except Err (ℕ → ℝ)
  nsolve : ℕ → ℕ → AugFun → (ℕ → ℝ) → Except Err SolOut

/-- `RPtoC`: a number or a vector with `N+1` entries. -/
inductive RScale where
  | scalar (r : ℝ)
  | vector (v : ℕ → ℝ)

/-- Entry `i` after broadcasting. -/
def RScale.at : RScale → ℕ → ℝ
  | .scalar r, _ => r
  | .vector v, i => v i

/-- `np.mean(RPtoC)` for `n` entries. -/
def RScale.mean (n : ℕ) : RScale → ℝ
  | .scalar r => r
  | .vector v => (∑ i ∈ Finset.range n, v i) / n

/-- The `corrector` setting after `.upper()`. -/
inductive Corrector where
  | pseudo
  | ortho
  | other
  deriving DecidableEq

/-- The part of `self.config` that is never written by `continuation`, `continuation.py:186-214`. The
default of `backtrackStop` is infinity, here `none`. -/
structure ContCfg where
  ds0 : ℝ
  dsmax : ℝ
  dsmin : ℝ
  maxSteps : ℕ
  targetNfev : ℝ
  dynamicCtoP : Bool
  corrector : Corrector
  fracLamList : List ℝ
  backtrackStop : Option ℝ
  maxIncrease : ℝ
  callback : Bool

/-- The part of the `Continuation` object that `continuation` and `predict` write. -/
structure ContObj where
  CtoP : ℕ → ℝ
  RPtoC : RScale
  setCtoPto1 : Bool
  setRPtoCto1 : Bool
  fracLam : ℝ
  verbose : ℤ

/-! ## Constructor, `continuation.py:163-214` -/

/-- `Continuation.__init__`, lines 167-184, 191-214. `CtoP`, `RPtoC` are the arguments, `none` for `None`;
`user` is the caller's `FracLamList` object when the key is present, `frac` and `verbose` the settings.
Returns the `FracLamList` of the object, the state of the caller's list after the call (the same list
object is edited in place by `insert(0, ...)`) and the object. -/
def contInit (CtoP : Option (ℕ → ℝ)) (RPtoC : Option RScale) (frac : ℝ) (verbose : ℤ)
    (user : Option (List ℝ)) : List ℝ × Option (List ℝ) × ContObj :=
  let l := user.getD []
  let l' := match l with
    | [] => [frac]
    | a :: _ => if a = frac then l else frac :: l
  (l', user.map (fun _ => l'),
   { CtoP := match CtoP with | none => fun _ => 0 | some C => fun i => |C i|
     RPtoC := match RPtoC with | none => .scalar 1 | some r => r
     setCtoPto1 := CtoP.isNone
     setRPtoCto1 := RPtoC.isNone
     fracLam := frac
     verbose := verbose })

/-! ## Predictor, `continuation.py:217-346` -/

/-- `np.linalg.norm(x[:n])**2`. -/
def normSq (n : ℕ) (x : ℕ → ℝ) : ℝ := ∑ i ∈ Finset.range n, x i ^ 2

/-- `np.max(np.abs(x[:n]))` for `n ≥ 1`. -/
def maxAbs (n : ℕ) (x : ℕ → ℝ) : ℝ := (Finset.range n).fold max 0 fun i => |x i|

/-- The weight `c`, lines 312-316 and 502-507: `(1-b)/norm(X)**2`. -/
def arcWeight (N : ℕ) (b : ℝ) (XC0 : ℕ → ℝ) : ℝ := (1 - b) / normSq N XC0

/-- `np.sign`. -/
def signOf (x : ℝ) : ℝ := if 0 < x then 1 else if x < 0 then -1 else 0

/-- The augmented matrix of lines 295-297: residual gradient in conditioned space and the previous
direction as last row. -/
def predictMat (N : ℕ) (CtoP : ℕ → ℝ) (o : ContOut) (dirPrev : ℕ → ℝ) : ℕ → ℕ → ℝ := fun i j =>
  if i < N then (if j < N then o.J i j * CtoP j else o.d i * CtoP N) else dirPrev j

/-- The right-hand side, lines 300-304. -/
def predictRhs (N : ℕ) : ℕ → ℝ := fun i => if i < N then 0 else if i = N then 1 else 0

/-- Scaling and sign of the solution of the linear system, lines 310-335. -/
def scaleDir (N : ℕ) (CtoP : ℕ → ℝ) (b : ℝ) (X0 Xprev dir : ℕ → ℝ) : ℕ → ℝ :=
  let c := arcWeight N b (fun i => X0 i / CtoP i)
  let stepSq := c * normSq N dir + b * dir N ^ 2
  let dir1 := fun i => dir i / Real.sqrt stepSq
  let dprev := fun i => (X0 i - Xprev i) / CtoP i
  let signarg := c * (∑ i ∈ Finset.range N, dir1 i * dprev i) + b * dir1 N * dprev N
  let sign := signOf signarg
  let sign := if sign = 0 then 1 else sign
  fun i => dir1 i * sign

/-- The residual scaling chosen by the predictor, lines 337-344. -/
def predictScale (N : ℕ) (dynamic : Bool) (CtoP : ℕ → ℝ) (o : ContOut) (old : RScale) : RScale :=
  if dynamic then .scalar (1 / maxAbs N fun i => o.J i i * CtoP i) else .scalar (old.mean (N + 1))

/-- `Continuation.predict`: the direction and the object with its new `RPtoC`. -/
def predict (sv : ContSolver) (N : ℕ) (dynamic : Bool) (obj : ContObj) (f : ContFun)
    (X0 Xprev dirPrev : ℕ → ℝ) : Except Err ((ℕ → ℝ) × ContObj) :=
  match f X0 true with
  | .error e => .error e
  | .ok o =>
    match sv.linSolve (N + 1) (predictMat N obj.CtoP o dirPrev) (predictRhs N) with
    | .error e => .error e
    | .ok dir =>
      if dynamic = true ∧ N = 0 then .error .value
      else .ok (scaleDir N obj.CtoP obj.fracLam X0 Xprev dir,
        { obj with RPtoC := predictScale N dynamic obj.CtoP o obj.RPtoC })

/-! ## Corrector, `continuation.py:348-536` -/

/-- `pseudo_arc_res`, lines 388-402. -/
def pseudoArcRes (N : ℕ) (XlamC XlamC0 : ℕ → ℝ) (ds b c : ℝ) : ℝ × (ℕ → ℝ) :=
  let dlamC := XlamC N - XlamC0 N
  let dXC := fun i => XlamC i - XlamC0 i
  let stepSq := c * normSq N dXC + b * dlamC ^ 2
  ((stepSq - ds ^ 2) / ds ^ 2,
   fun j => (if j < N then 2 * c * dXC j else 2 * b * dlamC) / ds ^ 2)

/-- `orthogonal_arc_res`, lines 442-456. -/
def orthogonalArcRes (N : ℕ) (XlamC XlamC0 dirC : ℕ → ℝ) (ds b c : ℝ) : ℝ × (ℕ → ℝ) :=
  let dXlamC := fun i => XlamC i - (XlamC0 i + dirC i * ds)
  ((c * (∑ i ∈ Finset.range N, dXlamC i * dirC i) + b * dXlamC N * dirC N) / ds,
   fun j => (if j < N then c * dirC j else b * dirC N) / ds)

/-- `correct_res`, lines 490-536. `dirC` is `none` for `None`. `self.RPtoC` is a number whenever
`continuation` calls this (line 344); a vector would be broadcast over the columns of the Jacobian and
fails for `N` rows, so only the scalar case is modelled and a vector is a `ValueError`. -/
def correctRes (N : ℕ) (corr : Corrector) (obj : ContObj) (f : ContFun) (XlamC XlamC0 : ℕ → ℝ) (ds : ℝ)
    (dirC : Option (ℕ → ℝ)) (calcGrad : Bool) : Except Err ((ℕ → ℝ) × Option (ℕ → ℕ → ℝ)) :=
  let XlamP := fun i => XlamC i * obj.CtoP i
  match f XlamP calcGrad with
  | .error e => .error e
  | .ok o =>
    let dRdXlamC : ℕ → ℕ → ℝ := fun i j => if j < N then o.J i j * obj.CtoP j else o.d i * obj.CtoP N
    let b := obj.fracLam
    let c := arcWeight N b XlamC0
    let arc : Except Err (ℝ × (ℕ → ℝ)) := match corr with
      | .pseudo => .ok (pseudoArcRes N XlamC XlamC0 ds b c)
      | .ortho => match dirC with
        | none => .error .assertion
        | some dir => .ok (orthogonalArcRes N XlamC XlamC0 dir ds b c)
      | .other => .error .assertion
    match arc with
    | .error e => .error e
    | .ok a =>
      match obj.RPtoC with
      | .vector _ => .error .value
      | .scalar r =>
        .ok (fun i => if i < N then r * o.R i else a.1,
          if calcGrad then some fun i j => if i < N then r * dRdXlamC i j else a.2 j else none)

/-! ## Initial point, `continuation.py:893-921` and `solvers.py:282-298` -/

/-- `np.hstack((X, lam))`. -/
def snocLam (N : ℕ) (X : ℕ → ℝ) (lam : ℝ) : ℕ → ℝ := fun i => if i < N then X i else lam

/-- `conditioning_wrapper` applied to `_initial_wrapper_fun`, with the vectors `CtoP[:-1]` and
`RPtoC[:-1]`. The Jacobian scaling multiplies column `j` by `RPtoC[j]`, as NumPy broadcasting does. -/
def initialFun (N : ℕ) (f : ContFun) (lam0 : ℝ) (CtoP : ℕ → ℝ) (RPtoC : RScale) : AugFun := fun Xc g =>
  match f (snocLam N (fun i => Xc i * CtoP i) lam0) g with
  | .error e => .error e
  | .ok o => .ok (fun i => RPtoC.at i * o.R i,
      if g then some fun i j => RPtoC.at j * o.J i j * CtoP j else none)

/-! ## Continuation, `continuation.py:538-890` -/

/-- A call of the callback: `none` stands for a vector of NaN. -/
structure CbCall where
  X : Option (ℕ → ℝ)
  dir : Option (ℕ → ℝ)

/-- The end of a run that returns nothing. `fuel` means the model was not given enough loop iterations;
it has no counterpart in the code. -/
inductive Fail where
  | raised (e : Err)
  | fuel

/-- Local variables of `continuation`. `calls` counts the calls of `nsolve`; `log` is a ghost variable: the
value of `step` and `ds` at every corrector solve, latest first. -/
structure ContSt where
  obj : ContObj
  step : ℕ
  rows : ℕ → ℕ → ℝ
  X0 : ℕ → ℝ
  Xprev : ℕ → ℝ
  dirC : ℕ → ℝ
  ds : ℝ
  ok : Bool
  calls : ℕ
  cb : List CbCall
  log : List (ℕ × ℝ)

/-- One corrector solve, lines 806-814 and 825-829: the corrector function with the current `ds`, started
at the predictor. -/
def solveStep (sv : ContSolver) (N : ℕ) (cfg : ContCfg) (f : ContFun) (st : ContSt) :
    Except Fail (ContSt × SolOut) :=
  let C0 := fun i => st.X0 i / st.obj.CtoP i
  match sv.nsolve (N + 1) st.calls
      (fun XlamC g => correctRes N cfg.corrector st.obj f XlamC C0 st.ds (some st.dirC) g)
      (fun i => C0 i + st.dirC i * st.ds) with
  | .error e => .error (.raised e)
  | .ok s => .ok ({ st with calls := st.calls + 1, log := (st.step, st.ds) :: st.log }, s)

/-- The retry loop, lines 816-829. -/
def retryLoop (sv : ContSolver) (N : ℕ) (cfg : ContCfg) (f : ContFun) :
    ℕ → ContSt → SolOut → Except Fail (ContSt × SolOut)
  | 0, _, _ => .error .fuel
  | fuel + 1, st, s =>
    if s.success = false ∧ cfg.dsmin < st.ds then
      match solveStep sv N cfg f { st with ds := max (st.ds / 2) cfg.dsmin } with
      | .error e => .error e
      | .ok r => retryLoop sv N cfg f fuel r.1 r.2
    else .ok (st, s)

/-- One pass of the loop over `FracLamList`, lines 799-829. -/
def tryFrac (sv : ContSolver) (N : ℕ) (cfg : ContCfg) (f : ContFun) (fuel : ℕ) (b : ℝ) (st : ContSt) :
    Except Fail (ContSt × SolOut) :=
  match predict sv N cfg.dynamicCtoP { st.obj with fracLam := b } f st.X0 st.Xprev st.dirC with
  | .error e => .error (.raised e)
  | .ok p =>
    match solveStep sv N cfg f { st with dirC := p.1, obj := p.2 } with
    | .error e => .error e
    | .ok r => retryLoop sv N cfg f fuel r.1 r.2

/-- The loop over `FracLamList`, lines 796-838. With an empty list `XlamC` is not defined. -/
def fracLoop (sv : ContSolver) (N : ℕ) (cfg : ContCfg) (f : ContFun) (fuel : ℕ) :
    List ℝ → ContSt → Except Fail (ContSt × SolOut)
  | [], _ => .error (.raised .name)
  | b :: rest, st =>
    match tryFrac sv N cfg f fuel b st with
    | .error e => .error e
    | .ok r =>
      if r.2.success then .ok r
      else match rest with
        | [] => .ok r
        | b' :: rest' => fracLoop sv N cfg f fuel (b' :: rest') r.1

/-- The condition of the main loop, lines 787-789. -/
def contCond (N : ℕ) (cfg : ContCfg) (lam0 lam1 : ℝ) (st : ContSt) : Prop :=
  let direct := signOf (lam1 - lam0)
  let lam := st.rows (st.step - 1) N
  st.step < cfg.maxSteps ∧ direct * lam < direct * lam1 ∧
    match cfg.backtrackStop with
    | none => True
    | some s => direct * (lam0 - direct * s) < direct * lam

/-- Conditioning at the start of a step, lines 792-794. -/
def recondition (cfg : ContCfg) (CtoP0 : ℕ → ℝ) (st : ContSt) : ContSt :=
  if cfg.dynamicCtoP then
    { st with obj := { st.obj with CtoP := fun i => max |st.rows (st.step - 1) i| (CtoP0 i) } }
  else st

/-- Storing a step, lines 844-864, for `sol['nfev'] > 0`. -/
def storeStep (cfg : ContCfg) (st : ContSt) (s : SolOut) : ContSt :=
  let row := fun i => st.obj.CtoP i * s.X i
  let ds := st.ds * min (cfg.targetNfev / s.nfev) cfg.maxIncrease
  let ds := min (max ds cfg.dsmin) cfg.dsmax
  { st with
    rows := fun k => if k = st.step then row else st.rows k
    ds := ds
    cb := if cfg.callback then
      st.cb ++ [⟨some row, some fun i => st.dirC i * st.obj.CtoP i⟩] else st.cb
    Xprev := st.X0
    X0 := row
    ok := s.success
    step := st.step + 1 }

open Classical in
/-- The main loop, lines 787-866. -/
def contLoop (sv : ContSolver) (N : ℕ) (cfg : ContCfg) (f : ContFun) (silent : Bool) (lam0 lam1 : ℝ)
    (CtoP0 : ℕ → ℝ) (fuel' : ℕ) : ℕ → ContSt → Except Fail ContSt
  | 0, _ => .error .fuel
  | fuel + 1, st =>
    if contCond N cfg lam0 lam1 st then
      match fracLoop sv N cfg f fuel' cfg.fracLamList (recondition cfg CtoP0 st) with
      | .error e => .error e
      | .ok r =>
        if r.2.success = false ∧ silent = false then .ok { r.1 with ok := false }
        else if r.2.nfev = 0 then .error (.raised .zeroDiv)
        else contLoop sv N cfg f silent lam0 lam1 CtoP0 fuel' fuel (storeStep cfg r.1 r.2)
    else .ok st

/-- Result of `continuation`: the returned array with its number of rows, the callback calls in order,
the object afterwards; ghost data: success of the last solve and the log of corrector solves. -/
structure ContRes where
  rows : ℕ → ℕ → ℝ
  n : ℕ
  cb : List CbCall
  obj : ContObj
  ok : Bool
  log : List (ℕ × ℝ)

/-- The final callback, lines 870-881, and the return value. -/
def contFinish (sv : ContSolver) (N : ℕ) (cfg : ContCfg) (f : ContFun) (st : ContSt) : Except Fail ContRes :=
  if cfg.callback then
    if st.ok = false then
      .ok ⟨st.rows, st.step, st.cb ++ [⟨none, some fun i => st.dirC i * st.obj.CtoP i⟩], st.obj, st.ok, st.log⟩
    else
      match predict sv N cfg.dynamicCtoP st.obj f st.X0 st.Xprev st.dirC with
      | .error e => .error (.raised e)
      | .ok p => .ok ⟨st.rows, st.step, st.cb ++ [⟨none, some fun i => p.1 i * p.2.CtoP i⟩], p.2, st.ok, st.log⟩
  else .ok ⟨st.rows, st.step, st.cb, st.obj, st.ok, st.log⟩

/-- The object at the initial solve, lines 716-737. -/
def contPrepare (obj : ContObj) : ContObj :=
  { obj with
    verbose := if obj.verbose < 0 then 0 else obj.verbose
    CtoP := if obj.setCtoPto1 then fun _ => 1 else obj.CtoP
    RPtoC := if obj.setRPtoCto1 then .vector fun _ => 1 else
      match obj.RPtoC with | .scalar r => .vector fun _ => r | .vector v => .vector v }

/-- The state when the main loop is entered, lines 755-785; `s` is the result of the initial solve. -/
def contStart (N : ℕ) (cfg : ContCfg) (lam0 lam1 : ℝ) (obj : ContObj) (s : SolOut) : ContSt :=
  let row := snocLam N (fun i => s.X i * obj.CtoP i) lam0
  let direct := signOf (lam1 - lam0)
  let prev := snocLam N (fun i => s.X i * obj.CtoP i) (lam0 - direct)
  { obj := obj, step := 1, rows := fun k => if k = 0 then row else fun _ => 0, X0 := row, Xprev := prev,
    dirC := fun i => row i - prev i, ds := cfg.ds0, ok := s.success, calls := 1,
    cb := if cfg.callback then [⟨some row, none⟩] else [], log := [] }

/-- `Continuation.continuation` with `return_grad=False`. `XlamP0` is the initial guess. -/
def continuation (sv : ContSolver) (N : ℕ) (cfg : ContCfg) (obj : ContObj) (f : ContFun) (XlamP0 : ℕ → ℝ)
    (lam0 lam1 : ℝ) (fuel : ℕ) : Except Fail ContRes :=
  let silent := decide (obj.verbose < 0)
  let obj := contPrepare obj
  match sv.nsolve N 0 (initialFun N f lam0 obj.CtoP obj.RPtoC) (fun i => XlamP0 i / obj.CtoP i) with
  | .error e => .error (.raised e)
  | .ok s =>
    if s.success = false then .error (.raised .assertion)
    else if cfg.maxSteps = 0 then .error (.raised .index)
    else
      match contLoop sv N cfg f silent lam0 lam1 obj.CtoP fuel fuel (contStart N cfg lam0 lam1 obj s) with
      | .error e => .error e
      | .ok st => contFinish sv N cfg f st

end

end TMD
