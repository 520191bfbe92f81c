import Verif.Model.Jenkins
import Verif.Model.Iwan
import Verif.Model.ElasticDryFriction
import Verif.Model.RoughContact

/-!
# Force objects held by `VibrationSystem` and the methods that loop over them

`VibrationSystem.init_force_history`, `update_force_history`, `set_prestress_mu`, `reset_real_mu`,
`set_aft_initialize`, the forces of `static_res`, and the effect of `total_aft` on the objects. Objects in the list are
distinct (no object is added twice). Warnings and derivatives are not modelled. A call that raises leaves the objects
before the failing one changed, so each call returns an optional error together with the objects.
-/

namespace TMD

noncomputable section

open Classical

/-- Attributes `Q` (`nl × n`) and `T` (`n × nl`). -/
structure Maps where
  n : ℕ
  nl : ℕ
  Q : ℕ → ℕ → ℝ
  T : ℕ → ℕ → ℝ

/-- `Q @ X`. -/
def Maps.loc (q : Maps) (X : ℕ → ℝ) : ℕ → ℝ := fun i => vdot q.n (q.Q i) X

/-- `T @ f` for values that may be NaN. -/
def Maps.glob (q : Maps) (f : ℕ → Flt) : ℕ → Flt := fun i => weighted (q.T i) f q.nl

/-- 3D elastic dry friction object; same attributes as in 2D, elastic_dry_fric_3d.py:80-117. -/
structure Edf3 where
  kt : ℝ
  kn : ℝ
  mu : ℝ
  realMu : ℝ
  prestressMu : ℝ
  gap : ℝ
  up : ℕ → ℝ
  fp : ℕ → ℝ

/-- Constructor, elastic_dry_fric_3d.py:80-117. -/
def Edf3.new (kt kn mu gap : ℝ) : Edf3 :=
  { kt := kt, kn := kn, mu := mu, realMu := mu, prestressMu := 0, gap := gap, up := fun _ => 0, fp := fun _ => 0 }

/-- Local part of `force(X, update_hist)`, elastic_dry_fric_3d.py:244-266; `unl[self.ti]` are the tangential entries. -/
def Edf3.force (o : Edf3) (unl : ℕ → ℝ) (updateHist : Bool) : (ℕ → ℝ) × Edf3 :=
  let f := edf3Static unl o.up o.fp o.kt o.kn o.mu o.gap
  (f, if updateHist then
    { o with up := fun j => unl (3 * (j / 2) + j % 2), fp := fun j => f (3 * (j / 2) + j % 2) } else o)

/-- `JenkinsForce` of `jax/nlforces`, jenkins_element.py:66-75. -/
structure JaxJenkins where
  kt : ℝ
  Fs : ℝ
  prestressFs : ℝ
  realFs : ℝ

/-- Constructor, jax/nlforces/jenkins_element.py:66-75. -/
def JaxJenkins.new (kt Fs : ℝ) : JaxJenkins := ⟨kt, Fs, 0, Fs⟩

/-- A force object in `self.nonlinear_forces`. -/
inductive FObj where
  /-- Subclasses of `InstantaneousForce`: `force` has no state. -/
  | inst (f : (ℕ → ℝ) → ℕ → ℝ)
  /-- `JenkinsForce`, `VectorJenkins` (NumPy). -/
  | jenkins (j : Jenkins)
  /-- `Iwan4Force`, `VectorIwan4`: maps, parameters, state `(up, fpsliders)`. -/
  | iwan (q : Maps) (w : Iwan) (s : ℝ × (ℕ → ℝ))
  /-- JAX `JenkinsForce`. -/
  | jaxJenkins (j : JaxJenkins)
  /-- JAX `VectorJenkins`. -/
  | jaxVector (kt Fs : ℝ)
  | edf2 (q : Maps) (o : Edf2) (u0 : EdfU0)
  | edf3 (q : Maps) (o : Edf3) (u0 : EdfU0)
  /-- `RoughContactFriction`; `u0` is always an array (rough_contact.py:195-212). -/
  | rough (q : Maps) (m : Mat) (g : Asperities) (o : RoughObj) (u0 : ℕ → ℝ)

/-- `nl_force_type()`. The base class returns 0 (nonlinear_force.py:36); JAX `VectorJenkins` does not override it. -/
def FObj.forceType : FObj → ℕ
  | .inst _ => 0
  | .jaxVector _ _ => 0
  | _ => 1

/-- `init_history()`; JAX `JenkinsForce` has no such method. -/
def FObj.initHistory : FObj → Except Err FObj
  | .inst f => .ok (.inst f)
  | .jenkins j => .ok (.jenkins j.initHistory)
  | .iwan q w _ => .ok (.iwan q w (0, fun _ => 0))
  | .jaxJenkins _ => .error .attribute
  | .jaxVector _ _ => .error .attribute
  | .edf2 q o u0 => .ok (.edf2 q { o with up := fun _ => 0, fp := fun _ => 0 } u0)
  | .edf3 q o u0 => .ok (.edf3 q { o with up := fun _ => 0, fp := fun _ => 0 } u0)
  | .rough q m g o u0 => .ok (.rough q m g o.initHistory u0)

/-- `force(X)` and `force(X, update_hist=True)`: global force and the object afterwards. The base class `force`
(nonlinear_force.py:38-61), used by the JAX Jenkins elements, returns zeros and does not accept `update_hist`. -/
def FObj.force (o : FObj) (X : ℕ → ℝ) (upd : Bool) : Except Err ((ℕ → Flt) × FObj) :=
  match o with
  | .inst f => if upd then .error .type else .ok (fun i => some (f X i), .inst f)
  | .jenkins j =>
    match j.force X upd with
    | .error e => .error e
    | .ok (F, j') => .ok (fun i => some (F.1 i), .jenkins j')
  | .iwan q w s =>
    let r := iwanInstant w s.1 s.2 (q.loc X 0)
    .ok (q.glob (fun _ => some r.1), .iwan q w (if upd then (q.loc X 0, r.2.2) else s))
  | .jaxJenkins j => if upd then .error .type else .ok (fun _ => some 0, .jaxJenkins j)
  | .jaxVector a b => if upd then .error .type else .ok (fun _ => some 0, .jaxVector a b)
  | .edf2 q o u0 =>
    let r := o.force (q.loc X) upd
    .ok (q.glob (fun i => some (r.1 i)), .edf2 q r.2 u0)
  | .edf3 q o u0 =>
    let r := o.force (q.loc X) upd
    .ok (q.glob (fun i => some (r.1 i)), .edf3 q r.2 u0)
  | .rough q m g o u0 =>
    let r := o.force m g (q.loc X) upd
    .ok (q.glob r.1, .rough q m g r.2 u0)

/-- `set_prestress_mu()` if the object has it; the Iwan element asserts False (iwan4_element.py:150). -/
def FObj.setPrestressMu : FObj → Except Err FObj
  | .inst f => .ok (.inst f)
  | .jenkins j => .ok (.jenkins j.setPrestressMu)
  | .iwan _ _ _ => .error .assertion
  | .jaxJenkins j => .ok (.jaxJenkins { j with Fs := j.prestressFs })
  | .jaxVector a b => .ok (.jaxVector a b)
  | .edf2 q o u0 => .ok (.edf2 q o.setPrestressMu u0)
  | .edf3 q o u0 => .ok (.edf3 q { o with mu := o.prestressMu } u0)
  | .rough q m g o u0 => .ok (.rough q m g o.setPrestressMu u0)

/-- `reset_real_mu()` if the object has it; the Iwan element has not. -/
def FObj.resetRealMu : FObj → FObj
  | .inst f => .inst f
  | .jenkins j => .jenkins j.resetRealMu
  | .iwan q w s => .iwan q w s
  | .jaxJenkins j => .jaxJenkins { j with Fs := j.realFs }
  | .jaxVector a b => .jaxVector a b
  | .edf2 q o u0 => .edf2 q o.resetRealMu u0
  | .edf3 q o u0 => .edf3 q { o with mu := o.realMu } u0
  | .rough q m g o u0 => .rough q m g o.resetRealMu u0

/-- `set_aft_initialize(U)` if the object has it: elastic_dry_fric_2d.py:185, elastic_dry_fric_3d.py:199,
rough_contact.py:354. Otherwise at most a warning. -/
def FObj.setAftInitialize (U : ℕ → ℝ) : FObj → FObj
  | .edf2 q o _ => .edf2 q o (.array (q.loc U))
  | .edf3 q o _ => .edf3 q o (.array (q.loc U))
  | .rough q m g o _ => .rough q m g o (q.loc U)
  | o => o

/-- Settings of `local_force_history`: `max_repeats`, `atol`, `rtol`, `eps`. -/
structure AftPars where
  maxRepeats : ℕ
  atol : ℝ
  rtol : ℝ
  eps : ℝ

/-- Effect of `aft` on the object. `Ut` are the global displacements at the time instants, `U0` the zeroth harmonic.
`local_force_history` of the NumPy Jenkins and Iwan elements works on the attributes `up`, `fp`, `fpsliders`
(nonlinear_force.py:497-539); the JAX elements use local arrays. -/
def FObj.aft (p : AftPars) (Ut : List (ℕ → ℝ)) (U0 : ℕ → ℝ) : FObj → Except Err FObj
  | .jenkins j =>
    match Ut with
    | [] => .error .name
    | _ :: _ =>
      let m : HystOps (JHist Empty) Empty := jenkinsOps j.kt j.Fs (fun _ => 0)
      let s := hystLoop m (Ut.map fun X => (vdot j.n j.Q X, fun _ => 0)) p.maxRepeats p.atol p.rtol p.eps
        { its := 0, obj := m.init (vdot j.n j.Q U0), ft := [], fp := .val (m.fp (m.init (vdot j.n j.Q U0))),
          aGt := False, rGt := False }
      .ok (.jenkins { j with hist := some (s.obj.up, s.obj.fp) })
  | .iwan q w _ =>
    match Ut with
    | [] => .error .name
    | _ :: _ =>
      let m : HystOps (IHist Empty) Empty := iwanOps w (fun _ => 0)
      let s := hystLoop m (Ut.map fun X => (q.loc X 0, fun _ => 0)) p.maxRepeats p.atol p.rtol p.eps
        { its := 0, obj := m.init (q.loc U0 0), ft := [], fp := .val (m.fp (m.init (q.loc U0 0))),
          aGt := False, rGt := False }
      .ok (.iwan q w (s.obj.up, s.obj.fps))
  | o => .ok o

/-! ## The loops over the list -/

/-- `for nlforce in self.nonlinear_forces: ...`; the first exception ends the loop. -/
def forAll (f : FObj → Except Err FObj) : List FObj → Option Err × List FObj
  | [] => (none, [])
  | o :: os =>
    match f o with
    | .error e => (some e, o :: os)
    | .ok o' => ((forAll f os).1, o' :: (forAll f os).2)

/-- Calls on a system. -/
inductive SysOp where
  | initForceHistory
  | updateForceHistory (U : ℕ → ℝ)
  | setPrestressMu
  | resetRealMu
  | setAftInitialize (U : ℕ → ℝ)
  | staticRes (U : ℕ → ℝ)
  | totalAft (Ut : List (ℕ → ℝ)) (U0 : ℕ → ℝ)

/-- Effect of a call on the force objects: vibration_system.py:80-92, 94-116, 118-148, 151-181, 184-222, 311-315,
379-384. -/
def sysCall (p : AftPars) (op : SysOp) (os : List FObj) : Option Err × List FObj :=
  match op with
  | .initForceHistory => forAll (fun o => if o.forceType = 1 then o.initHistory else .ok o) os
  | .updateForceHistory U => forAll (fun o => if o.forceType = 1 then
      (match o.force U true with | .error e => .error e | .ok (_, o') => .ok o') else .ok o) os
  | .setPrestressMu => forAll FObj.setPrestressMu os
  | .resetRealMu => forAll (fun o => .ok o.resetRealMu) os
  | .setAftInitialize U => forAll (fun o => .ok (o.setAftInitialize U)) os
  | .staticRes U => forAll (fun o => match o.force U false with | .error e => .error e | .ok (_, o') => .ok o') os
  | .totalAft Ut U0 => forAll (FObj.aft p Ut U0) os

/-- Objects after a sequence of calls; a caller may go on after an exception. -/
def sysRun (p : AftPars) (os : List FObj) : List SysOp → List FObj
  | [] => os
  | op :: ops => sysRun p (sysCall p op os).2 ops

/-- The nonlinear forces of `static_res`, vibration_system.py:308-315, in the order of the list. -/
def staticForces (os : List FObj) (U : ℕ → ℝ) : Except Err (List (ℕ → Flt)) :=
  match os with
  | [] => .ok []
  | o :: os =>
    match o.force U false with
    | .error e => .error e
    | .ok (F, _) =>
      match staticForces os U with
      | .error e => .error e
      | .ok Fs => .ok (F :: Fs)

end

end TMD
