import Verif.Model.Basic
import Mathlib.Data.Sign.Defs
import Mathlib.Data.Real.Sign

/-!
# Jenkins slider, the generic hysteretic history loop, vectorised and JAX variants

Only one local nonlinear DOF (`Nnl = 1`) is modelled: the documented scope of the classes
(`nlforces/jenkins_element.py:33-37`).
-/

namespace TMD

noncomputable section

open Classical

/-! ## `JenkinsForce` (`nlforces/jenkins_element.py`) -/

/-- Result of one slider evaluation: force and derivatives with respect to the current
displacement, the previous displacement and the previous force. -/
structure SliderOut where
  f : ℝ
  dfdu : ℝ
  dfdup : ℝ
  dfdfp : ℝ

/-- Local law shared by `JenkinsForce.force` (`jenkins_element.py:161-175`) and
`JenkinsForce.instant_force` (`jenkins_element.py:217-229`): stuck force, then slip if
`|fnl| > Fs`. -/
def jenkinsLocal (kt Fs up fp unl : ℝ) : SliderOut :=
  let fnl := kt * (unl - up) + fp
  if |fnl| > Fs then ⟨Real.sign fnl * Fs, 0, 0, 0⟩ else ⟨fnl, kt, -kt, 1⟩

/-- A `JenkinsForce` object. `hist = none` before `init_history` (the attributes `up`, `fp` do
not exist then). `Q` (one row) and `T` (one column) have `n` entries.
`jenkins_element.py:40-47`. -/
structure Jenkins where
  n : ℕ
  Q : ℕ → ℝ
  T : ℕ → ℝ
  kt : ℝ
  Fs : ℝ
  prestressFs : ℝ
  realFs : ℝ
  hist : Option (ℝ × ℝ)

/-- `JenkinsForce.__init__`, `jenkins_element.py:40-47`. -/
def Jenkins.new (n : ℕ) (Q T : ℕ → ℝ) (kt Fs : ℝ) : Jenkins :=
  { n := n, Q := Q, T := T, kt := kt, Fs := Fs, prestressFs := 0, realFs := Fs, hist := none }

/-- `set_prestress_mu`, `jenkins_element.py:50-60`. -/
def Jenkins.setPrestressMu (j : Jenkins) : Jenkins := { j with Fs := j.prestressFs }

/-- `reset_real_mu`, `jenkins_element.py:62-72`. -/
def Jenkins.resetRealMu (j : Jenkins) : Jenkins := { j with Fs := j.realFs }

/-- `init_history`, `jenkins_element.py:74-88`. -/
def Jenkins.initHistory (j : Jenkins) : Jenkins := { j with hist := some (0, 0) }

/-- Value part of `init_history_harmonic`, `jenkins_element.py:109-110`. -/
def Jenkins.initHistoryHarmonic (j : Jenkins) (unlth0 : ℝ) : Jenkins :=
  { j with hist := some (unlth0, 0) }

/-- `update_history(unl, fnl)`, `jenkins_element.py:119-138`. -/
def Jenkins.updateHistory (j : Jenkins) (unl fnl : ℝ) : Jenkins :=
  { j with hist := some (unl, fnl) }

/-- `JenkinsForce.force(X, update_hist)`, `jenkins_element.py:161-181`: global force
`F = T * fnl`, Jacobian `dFdX = T dfdu Q`, and the new object state. Before `init_history` the
attribute access fails. -/
def Jenkins.force (j : Jenkins) (X : ℕ → ℝ) (updateHist : Bool) :
    Except Err (((ℕ → ℝ) × (ℕ → ℕ → ℝ)) × Jenkins) :=
  match j.hist with
  | none => .error .attribute
  | some (up, fp) =>
    let unl := vdot j.n j.Q X
    let o := jenkinsLocal j.kt j.Fs up fp unl
    let j' := if updateHist then j.updateHistory unl o.f else j
    .ok ((fun i => j.T i * o.f, fun i k => j.T i * o.dfdu * j.Q k), j')

/-- `JenkinsForce.instant_force(unl, unldot, update_prev)`, `jenkins_element.py:217-235`. -/
def Jenkins.instantForce (j : Jenkins) (unl : ℝ) (updatePrev : Bool) :
    Except Err (SliderOut × Jenkins) :=
  match j.hist with
  | none => .error .attribute
  | some (up, fp) =>
    let o := jenkinsLocal j.kt j.Fs up fp unl
    .ok (o, if updatePrev then { j with hist := some (unl, o.f) } else j)

/-! ### Call sequences on one object -/

/-- Public calls on a `JenkinsForce` object. -/
inductive JOp where
  | setPrestressMu
  | resetRealMu
  | initHistory
  | initHistoryHarmonic (unlth0 : ℝ)
  | updateHistory (unl fnl : ℝ)
  | force (X : ℕ → ℝ) (updateHist : Bool)
  | instantForce (unl : ℝ) (updatePrev : Bool)

/-- What a call returns. -/
inductive JOut where
  | unit
  | glob (F : ℕ → ℝ) (dFdX : ℕ → ℕ → ℝ)
  | loc (o : SliderOut)

/-- Effect of one call. -/
def Jenkins.step (j : Jenkins) : JOp → Except Err (JOut × Jenkins)
  | .setPrestressMu => .ok (.unit, j.setPrestressMu)
  | .resetRealMu => .ok (.unit, j.resetRealMu)
  | .initHistory => .ok (.unit, j.initHistory)
  | .initHistoryHarmonic u => .ok (.unit, j.initHistoryHarmonic u)
  | .updateHistory u f => .ok (.unit, j.updateHistory u f)
  | .force X b =>
    match j.force X b with
    | .error e => .error e
    | .ok (o, j') => .ok (.glob o.1 o.2, j')
  | .instantForce u b =>
    match j.instantForce u b with
    | .error e => .error e
    | .ok (o, j') => .ok (.loc o, j')

/-- A sequence of calls; the first exception ends it. Returns the calls with their results. -/
def Jenkins.run (j : Jenkins) : List JOp → Except Err (List (JOp × JOut) × Jenkins)
  | [] => .ok ([], j)
  | op :: ops =>
    match j.step op with
    | .error e => .error e
    | .ok (o, j') =>
      match j'.run ops with
      | .error e => .error e
      | .ok (os, j'') => .ok ((op, o) :: os, j'')

/-! ## `HystereticForce.local_force_history` -/

/-- What `local_force_history` uses of a hysteretic model with one nonlinear DOF: the state after
`init_history_harmonic`, the attribute `fp`, and `instant_force_harmonic(.., update_prev=True)`
returning force and derivatives with respect to the harmonic coefficients (`ι`). -/
structure HystOps (σ ι : Type) where
  init : ℝ → σ
  fp : σ → ℝ
  step : σ → ℝ → (ι → ℝ) → σ × ℝ × (ι → ℝ)

/-- The time loop `for ti in range(Nt)` of `local_force_history`
(`nlforces/nonlinear_force.py:520-530`): one cycle over the rows `(unlt[ti], cst[ti])`. -/
def onePass {σ ι : Type} (m : HystOps σ ι) : σ → List (ℝ × (ι → ℝ)) → σ × List (ℝ × (ι → ℝ))
  | s, [] => (s, [])
  | s, (u, c) :: rest =>
    let r := m.step s u c
    let q := onePass m r.1 rest
    (q.1, (r.2.1, r.2.2) :: q.2)

/-- Object state after `n` cycles. -/
def cycleState {σ ι : Type} (m : HystOps σ ι) (rows : List (ℝ × (ι → ℝ))) : ℕ → σ → σ
  | 0, s => s
  | n + 1, s => (onePass m (cycleState m rows n s) rows).1

/-- Rows (force, derivative) produced in cycle number `n` (the first cycle is number 0). -/
def cycleRows {σ ι : Type} (m : HystOps σ ι) (rows : List (ℝ × (ι → ℝ))) (n : ℕ) (s : σ) :
    List (ℝ × (ι → ℝ)) := (onePass m (cycleState m rows n s) rows).2

/-- The variable `fp` of `local_force_history`: first a number (`nonlinear_force.py:514`), later
the *view* `ft[ti, :]` of the force array (`nonlinear_force.py:537`), whose value follows every
later change of the array. -/
inductive FpRef where
  | val (x : ℝ)
  | viewLast

/-- Last force of the array (`ft[ti, :]` after the time loop). -/
def lastForce {ι : Type} (ft : List (ℝ × (ι → ℝ))) : ℝ := (ft.getLast?.map Prod.fst).getD 0

/-- Current value of the variable `fp`. -/
def FpRef.get {ι : Type} (r : FpRef) (ft : List (ℝ × (ι → ℝ))) : ℝ :=
  match r with
  | .val x => x
  | .viewLast => lastForce ft

/-- Truth of `np.abs(a / d) > rtol` in NumPy for finite numbers: a division by zero gives `inf`
(larger than any `rtol`) when `a ≠ 0` and `nan` (comparison false) when `a = 0`. -/
def npRelGt (a d rtol : ℝ) : Prop := if d = 0 then a ≠ 0 else |a / d| > rtol

/-- Loop variables of `local_force_history`. -/
structure LoopSt (σ ι : Type) where
  its : ℕ
  obj : σ
  ft : List (ℝ × (ι → ℝ))
  fp : FpRef
  /-- `acheck > atol` -/
  aGt : Prop
  /-- `rcheck > rtol` -/
  rGt : Prop

/-- Body of the `while` loop, `nonlinear_force.py:519-537`. -/
def loopBody {σ ι : Type} (m : HystOps σ ι) (rows : List (ℝ × (ι → ℝ))) (atol rtol eps : ℝ)
    (s : LoopSt σ ι) : LoopSt σ ι :=
  let q := onePass m s.obj rows
  let last := lastForce q.2
  let acheck := |last - s.fp.get q.2|
  { its := s.its + 1, obj := q.1, ft := q.2, fp := .viewLast,
    aGt := acheck > atol, rGt := npRelGt acheck (last + eps) rtol }

/-- The `while` loop, `nonlinear_force.py:516-537`:
`while its == 0 or (acheck > atol and rcheck > rtol and its < max_repeats)`. -/
def hystLoop {σ ι : Type} (m : HystOps σ ι) (rows : List (ℝ × (ι → ℝ))) (maxRepeats : ℕ)
    (atol rtol eps : ℝ) (s : LoopSt σ ι) : LoopSt σ ι :=
  if s.its = 0 ∨ (s.aGt ∧ s.rGt ∧ s.its < maxRepeats) then
    hystLoop m rows maxRepeats atol rtol eps (loopBody m rows atol rtol eps s)
  else s
termination_by (maxRepeats - s.its) + (if s.its = 0 then 1 else 0)
decreasing_by
  rename_i h
  have e : (loopBody m rows atol rtol eps s).its = s.its + 1 := rfl
  rw [e]
  rcases h with h | ⟨_, _, h⟩
  · simp only [h, Nat.sub_zero, Nat.zero_add, Nat.one_ne_zero, if_false, if_true]; omega
  · have : ¬ (s.its + 1 = 0) := by omega
    rw [if_neg this]; split <;> omega

/-- `HystereticForce.local_force_history`, `nlforces/nonlinear_force.py:497-539`, returning the
rows `(ft, dfduh)` and the number of cycles run. `eps = numpy.finfo(float).eps`. With no time
instants the loop variable `ti` is unbound. -/
def localForceHistory {σ ι : Type} (m : HystOps σ ι) (rows : List (ℝ × (ι → ℝ)))
    (unlth0 : ℝ) (maxRepeats : ℕ) (atol rtol eps : ℝ) :
    Except Err (List (ℝ × (ι → ℝ)) × ℕ) :=
  match rows with
  | [] => .error .name
  | _ :: _ =>
    let s := hystLoop m rows maxRepeats atol rtol eps
      { its := 0, obj := m.init unlth0, ft := [], fp := .val (m.fp (m.init unlth0)),
        aGt := False, rGt := False }
    .ok (s.ft, s.its)

/-! ## Jenkins as a hysteretic model for AFT -/

/-- History attributes of `JenkinsForce` used in AFT: `up, fp, dupduh, dfpduh`. -/
structure JHist (ι : Type) where
  up : ℝ
  fp : ℝ
  dup : ι → ℝ
  dfp : ι → ℝ

/-- `JenkinsForce.instant_force_harmonic` with `update_prev=True`,
`nlforces/jenkins_element.py:283-303`. -/
def jenkinsStep {ι : Type} (kt Fs : ℝ) (s : JHist ι) (unl : ℝ) (cst : ι → ℝ) :
    JHist ι × ℝ × (ι → ℝ) :=
  let o := jenkinsLocal kt Fs s.up s.fp unl
  let dfduh := fun k => o.dfdu * cst k + o.dfdup * s.dup k + o.dfdfp * s.dfp k
  (⟨unl, o.f, cst, dfduh⟩, o.f, dfduh)

/-- `JenkinsForce` seen by `local_force_history`; `init` is `init_history_harmonic`
(`jenkins_element.py:109-117`): `e0` is the array `dupduh` with entry 0 set to one. -/
def jenkinsOps {ι : Type} (kt Fs : ℝ) (e0 : ι → ℝ) : HystOps (JHist ι) ι :=
  { init := fun unlth0 => ⟨unlth0, 0, e0, fun _ => 0⟩
    fp := fun s => s.fp
    step := jenkinsStep kt Fs }

/-! ## `VectorJenkins.local_force_history` (`nlforces/vector_jenkins.py:119-187`) -/

/-- Complement of `vector_set` (`vector_jenkins.py:129-134`): index 0, or the signs of the
displacement increments before and after index `i` (cyclic, `np.roll`) differ. -/
def isCrit (Nt : ℕ) (u : ℕ → ℝ) (i : ℕ) : Prop :=
  i = 0 ∨ SignType.sign (u i - u ((i + Nt - 1) % Nt)) ≠ SignType.sign (u ((i + 1) % Nt) - u i)

/-- `crit_inds` before the wrap-around entry is appended, `vector_jenkins.py:153`. -/
def critInds (Nt : ℕ) (u : ℕ → ℝ) : List ℕ := (List.range Nt).filter (fun i => decide (isCrit Nt u i))

/-- Masked assignment `ft[not vector_set] = ft_crit`, `vector_jenkins.py:147-148`. -/
def scatterCrit {α : Type} : List ℕ → List α → (ℕ → α) → (ℕ → α)
  | i :: is, x :: xs, ft => scatterCrit is xs (setRow ft i x)
  | _, _, ft => ft

/-- One entry of the vectorised fill, `vector_jenkins.py:170-187`, from the critical instant
`start - 1` with row `prev` to instant `i`. -/
def fillEntry {ι : Type} (kt Fs : ℝ) (u : ℕ → ℝ) (cst : ℕ → ι → ℝ) (start : ℕ)
    (prev : ℝ × (ι → ℝ)) (i : ℕ) : ℝ × (ι → ℝ) :=
  let f := kt * (u i - u (start - 1)) + prev.1
  if |f| > Fs then (Fs * Real.sign f, fun _ => 0)
  else (f, fun k => kt * (cst i k - cst (start - 1) k) + prev.2 k)

/-- The loop over critical points, `vector_jenkins.py:161-187`, on the list `crit_inds` including
the appended wrap-around entry. -/
def fillLoop {ι : Type} (kt Fs : ℝ) (Nt : ℕ) (u : ℕ → ℝ) (cst : ℕ → ι → ℝ) :
    List ℕ → (ℕ → ℝ × (ι → ℝ)) → (ℕ → ℝ × (ι → ℝ))
  | a :: b :: rest, ft =>
    let start := a + 1
    let stop := b + Nt * (if b = 0 then 1 else 0)
    let ft' := if stop > start then
        fun i => if start ≤ i ∧ i < stop then
            fillEntry kt Fs u cst start (ft (start - 1)) i else ft i
      else ft
    fillLoop kt Fs Nt u cst (b :: rest) ft'
  | _, ft => ft

/-- `VectorJenkins.local_force_history`, `vector_jenkins.py:119-193`: rows `(ft, dfduh)` and the
number of cycles run on the critical points. -/
def vectorJenkinsHistory {ι : Type} (kt Fs : ℝ) (e0 : ι → ℝ) (Nt : ℕ) (u : ℕ → ℝ)
    (cst : ℕ → ι → ℝ) (unlth0 eps : ℝ) : Except Err ((ℕ → ℝ × (ι → ℝ)) × ℕ) :=
  let crit := critInds Nt u
  match localForceHistory (jenkinsOps kt Fs e0) (crit.map fun i => (u i, cst i)) unlth0 2
      (1 / 10 ^ 10) (1 / 10 ^ 10) eps with
  | .error e => .error e
  | .ok (ftCrit, its) =>
    let ft := scatterCrit crit ftCrit (fun _ => (0, fun _ => 0))
    .ok (fillLoop kt Fs Nt u cst (crit ++ [crit.headD 0]) ft, its)

/-! ## JAX Jenkins (`jax/nlforces/jenkins_element.py`) -/

/-- Index `ind - 1` of an array of length `Nt` with Python wrap-around of `-1`. -/
def prevIdx (Nt ind : ℕ) : ℕ := if ind = 0 then Nt - 1 else ind - 1

/-- `_local_jenkins_loop_body`, `jax/nlforces/jenkins_element.py:239-243`. -/
def jaxJenkinsBody (Nt : ℕ) (u : ℕ → ℝ) (kt Fs : ℝ) (ft : ℕ → ℝ) (ind : ℕ) : ℕ → ℝ :=
  let fcurr := min (kt * (u ind - u (prevIdx Nt ind)) + ft (prevIdx Nt ind)) Fs
  setRow ft ind (max fcurr (-Fs))

/-- `jax.lax.fori_loop(0, Nt, body, ft)`. -/
def foriLoop {α : Type} (body : α → ℕ → α) (n : ℕ) (x : α) : α := (List.range n).foldl body x

/-- Force time series of `_local_aft_jenkins`, `jax/nlforces/jenkins_element.py:308-341`: the last
entry is set by a linear spring from `u0`, then exactly two loops are done. -/
def jaxJenkinsHistory (Nt : ℕ) (u : ℕ → ℝ) (kt Fs u0 : ℝ) : ℕ → ℝ :=
  let ft := setRow (fun _ => (0 : ℝ)) (Nt - 1) (kt * (u (Nt - 1) - u0))
  let ft := foriLoop (jaxJenkinsBody Nt u kt Fs) Nt ft
  foriLoop (jaxJenkinsBody Nt u kt Fs) Nt ft

end

end TMD
