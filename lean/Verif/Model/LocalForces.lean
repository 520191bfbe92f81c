import Verif.Model.AFT
import Verif.Model.SystemForces
import Verif.Model.System
import Verif.Model.MifContact

/-!
# Post-processing of local forces (`postprocess/harmonic.py`)

The function reads from every force object the maps `Q`, `T`, the force type, the attribute `u0` and the method
`local_force_history`. The harmonic force of `aft` of the same class is kept next to it for comparison. Gradients are
not modelled here. `jax/harmonic_utils.py` repeats `utils/harmonic.py`, so the same functions are used for both.
-/

namespace TMD

noncomputable section

/-- A value passed as `unlth0`: `None`, a float or an array. -/
abbrev U0Arg := EdfU0

/-- What `local_harmonic_forces` uses of a force object. `lfh0` is `local_force_history(ut, utdot)[0]`, `lfh1` is
`local_force_history(ut, utdot, h, cst, unlth0, atol=atol)[0]`. `u0` is the attribute, `none` if there is none.
`aftF` is the first value returned by `aft(U, w, h, Nt, tol)`. -/
structure PForce where
  m : ℕ
  Q : ℕ → ℕ → ℝ
  T : ℕ → ℕ → ℝ
  ftype : ℕ
  u0 : Option U0Arg
  lfh0 : (ℕ → ℕ → ℝ) → (ℕ → ℕ → ℝ) → Except Err (ℕ → ℕ → ℝ)
  lfh1 : TS ℕ → (ℕ → ℕ → ℝ) → TS ℕ → U0Arg → ℝ → Except Err (ℕ → ℕ → ℝ)
  aftF : (ℕ → ℝ) → ℝ → List ℕ → ℕ → Except Err (ℕ → ℝ)

/-- One entry of the returned list, harmonic.py:101. -/
structure LocalOut where
  Uh : ℕ → ℕ → ℝ
  ut : TS ℕ
  Fh : ℕ → ℕ → ℝ
  ft : ℕ → ℕ → ℝ

/-- Lines 79-97: the new value of the variable `ft`; for a force type other than 0 and 1 it keeps its value. -/
def postFt (f : PForce) (Uh : ℕ → ℕ → ℝ) (ut : TS ℕ) (utdot : ℕ → ℕ → ℝ) (cst : TS ℕ) (tol : ℝ)
    (prev : Option (ℕ → ℕ → ℝ)) : Except Err (ℕ → ℕ → ℝ) :=
  if f.ftype = 0 then f.lfh0 ut.val utdot
  else if f.ftype = 1 then
    f.lfh1 ut utdot cst (match f.u0 with
      | some a => a
      | none => .array (Uh 0)) tol
  else match prev with
    | some ft => .ok ft
    | none => .error .name

/-- Body of the loop for one force, harmonic.py:69-101; `N` is the number of global DOFs. -/
def postOne (N : ℕ) (f : PForce) (U : ℕ → ℝ) (w : ℝ) (h : List ℕ) (Nt : ℕ) (tol : ℝ)
    (prev : Option (ℕ → ℕ → ℝ)) : Except Err LocalOut :=
  let Uh := unlOf N f.Q U
  match timeSeriesDeriv Nt h Uh 0, timeSeriesDeriv Nt h Uh 1, timeSeriesDeriv Nt h eye 0 with
  | .ok ut, .ok v1, .ok cst =>
    match postFt f Uh ut (fun j d => w * v1.val j d) cst tol prev with
    | .error e => .error e
    | .ok ft =>
      match getFourierCoeff h ⟨ut.rows, ft⟩ with
      | .error e => .error e
      | .ok Fh => .ok ⟨Uh, ut, Fh, ft⟩
  | .error e, _, _ => .error e
  | _, .error e, _ => .error e
  | _, _, .error e => .error e

/-- The loop, harmonic.py:69-101; the variable `ft` survives from one force to the next. -/
def postLoop (N : ℕ) (U : ℕ → ℝ) (w : ℝ) (h : List ℕ) (Nt : ℕ) (tol : ℝ) :
    Option (ℕ → ℕ → ℝ) → List PForce → Except Err (List LocalOut)
  | _, [] => .ok []
  | prev, f :: fs =>
    match postOne N f U w h Nt tol prev with
    | .error e => .error e
    | .ok o =>
      match postLoop N U w h Nt tol (some o.ft) fs with
      | .error e => .error e
      | .ok os => .ok (o :: os)

/-- `local_harmonic_forces`, harmonic.py:62-103. -/
def localHarmonicForces (N : ℕ) (fs : List PForce) (U : ℕ → ℝ) (w : ℝ) (h : List ℕ) (Nt : ℕ) (tol : ℝ) :
    Except Err (List LocalOut) :=
  match Nhc h with
  | .error e => .error e
  | .ok _ => postLoop N U w h Nt tol none fs

/-! ## The force classes -/

/-- First component of a result. -/
def fstOk {α β : Type} : Except Err (α × β) → Except Err α
  | .ok p => .ok p.1
  | .error e => .error e

/-- `Fnl` of an `aft` result. -/
def aftForce : Except Err AftOut → Except Err (ℕ → ℝ)
  | .ok o => .ok o.F
  | .error e => .error e

/-- Subclasses of `InstantaneousForce` that act elementwise. -/
def PForce.inst (N m : ℕ) (Q T : ℕ → ℕ → ℝ) (loc : ℕ → ℝ → ℝ → Loc) : PForce :=
  { m := m, Q := Q, T := T, ftype := 0, u0 := none
    lfh0 := fun u v => .ok (elemLfh loc u v).ft
    lfh1 := fun _ _ _ _ _ => .error .type
    aftF := fun U w h Nt => aftForce (instAft N m Q T (elemLfh loc) U w h Nt) }

/-- `GenPolyForce`. -/
def PForce.poly (N m cnl : ℕ) (Q T E : ℕ → ℕ → ℝ) (qq : ℕ → ℕ → ℕ) : PForce :=
  { m := m, Q := Q, T := T, ftype := 0, u0 := none
    lfh0 := fun u v => .ok (fun j => (genPolyLoc m cnl E qq (u j) (v j)).1)
    lfh1 := fun _ _ _ _ _ => .error .type
    aftF := fun U w h Nt => aftForce (genPolyAft N m cnl Q T E qq U w h Nt) }

/-- Subclasses of `HystereticForce`, which have no attribute `u0`. `lfh atol` is `local_force_history` with `max_repeats`
and `rtol` at their defaults; `aft` passes its own default `atol=1e-10` (nonlinear_force.py:546, 633-636), whatever
`tol` the system hands over. -/
def PForce.hyst (N m : ℕ) (Q T : ℕ → ℕ → ℝ)
    (lfh : ℝ → TS ℕ → (ℕ → ℕ → ℝ) → TS ℕ → (ℕ → ℝ) → Except Err ((ℕ → ℕ → ℝ) × (ℕ → ℕ → ℕ → ℕ → ℝ))) : PForce :=
  { m := m, Q := Q, T := T, ftype := 1, u0 := none
    lfh0 := fun _ _ => .error .type
    lfh1 := fun u v c a tol => match a with
      | .array z => fstOk (lfh tol u v c z)
      | _ => .error .type
    aftF := fun U w h Nt => aftForce (hystAft N m Q T (lfh (1 / 10 ^ 10)) U w h Nt) }

/-- `local_force_history` of an element with one local DOF run by the loop of `HystereticForce`
(nonlinear_force.py:497-539), as arrays. -/
def serialLfh {σ : Type} (ops : HystOps σ ℕ) (eps atol : ℝ) (u : TS ℕ) (_ : ℕ → ℕ → ℝ) (c : TS ℕ) (z : ℕ → ℝ) :
    Except Err ((ℕ → ℕ → ℝ) × (ℕ → ℕ → ℕ → ℕ → ℝ)) :=
  match localForceHistory ops ((List.range u.rows).map fun j => (u.val j 0, c.val j)) (z 0) 2 atol (1 / 10 ^ 10) eps with
  | .error e => .error e
  | .ok (ft, _) => .ok (fun j _ => (ft.getD j (0, fun _ => 0)).1, fun j _ _ k => (ft.getD j (0, fun _ => 0)).2 k)

/-- `dupduh` after `init_history_harmonic`: entry 0 is one (jenkins_element.py:109-117, iwan4_element.py:193-203). -/
def unit0 : ℕ → ℝ := fun k => if k = 0 then 1 else 0

/-- NumPy `JenkinsForce`. -/
def PForce.jenkins (N : ℕ) (Q T : ℕ → ℕ → ℝ) (kt Fs eps : ℝ) : PForce :=
  .hyst N 1 Q T (serialLfh (jenkinsOps kt Fs unit0) eps)

/-- `Iwan4Force`. -/
def PForce.iwan (N : ℕ) (Q T : ℕ → ℕ → ℝ) (iw : Iwan) (eps : ℝ) : PForce :=
  .hyst N 1 Q T (serialLfh (iwanOps iw unit0) eps)

/-- `local_force_history` of the vectorised classes as arrays; the arguments `max_repeats`, `atol`, `rtol` are accepted
and not used (vector_jenkins.py:142-146, vector_iwan4.py:283-287). -/
def vectorLfh (hist : ℕ → (ℕ → ℝ) → (ℕ → ℕ → ℝ) → ℝ → Except Err ((ℕ → ℝ × (ℕ → ℝ)) × ℕ)) (_ : ℝ) (u : TS ℕ)
    (_ : ℕ → ℕ → ℝ) (c : TS ℕ) (z : ℕ → ℝ) : Except Err ((ℕ → ℕ → ℝ) × (ℕ → ℕ → ℕ → ℕ → ℝ)) :=
  match hist u.rows (fun j => u.val j 0) c.val (z 0) with
  | .error e => .error e
  | .ok (ft, _) => .ok (fun j _ => (ft j).1, fun j _ _ k => (ft j).2 k)

/-- NumPy `VectorJenkins`. -/
def PForce.vectorJenkins (N : ℕ) (Q T : ℕ → ℕ → ℝ) (kt Fs eps : ℝ) : PForce :=
  .hyst N 1 Q T (vectorLfh fun n u c z => vectorJenkinsHistory kt Fs unit0 n u c z eps)

/-- `VectorIwan4`. -/
def PForce.vectorIwan (N : ℕ) (Q T : ℕ → ℕ → ℝ) (iw : Iwan) (eps : ℝ) : PForce :=
  .hyst N 1 Q T (vectorLfh fun n u c z => vectorIwanHistory iw unit0 n u c z eps)

/-- Force of `aft` of the JAX classes (elastic_dry_fric_2d.py:300-370, 643-686; elastic_dry_fric_3d.py, rough_contact.py
and jenkins_element.py likewise): sample the local motion, evaluate the history, transform, map with `T`. `hist` gets
the zeroth row of the local coefficients. The number of local DOFs is computed from the length of `Uwlocal`, which has the
frequency as an additional entry (elastic_dry_fric_2d.py:647, 655); the reshape fails when that number is wrong. -/
def jaxAft (N m : ℕ) (Q T : ℕ → ℕ → ℝ) (hist : TS ℕ → (ℕ → ℝ) → ℕ → ℕ → ℝ) (U : ℕ → ℝ) (h : List ℕ) (Nt : ℕ) :
    Except Err (ℕ → ℝ) :=
  let Ul := unlOf N Q U
  if (nhcRaw h * m + 1) / nhcRaw h ≠ m then .error .type else
  match timeSeriesDeriv Nt h Ul 0 with
  | .error e => .error e
  | .ok ut =>
    match getFourierCoeff h ⟨ut.rows, hist ut (Ul 0)⟩ with
    | .error e => .error e
    | .ok F => .ok (toGlobal N m T F)

/-- `ElasticDryFriction2D`; `local_force_history` (elastic_dry_fric_2d.py:436-463) with the argument `a`, whose
`np.ones_like(unlth0[0])` needs an array. -/
def PForce.edf2 (N m : ℕ) (Q T : ℕ → ℕ → ℝ) (kt kn mu gap : ℝ) (u0 : EdfU0) : PForce :=
  { m := m, Q := Q, T := T, ftype := 1, u0 := some u0
    lfh0 := fun _ _ => .error .type
    lfh1 := fun u _ _ a _ => match u0, a with
      | .none, .array z => .ok (edf2History u.rows u.val kt kn mu gap (fun e => z (2 * e)))
      | .array v, .array _ => .ok (edf2History u.rows u.val kt kn mu gap (fun e => v (2 * e)))
      | .scalar _, .array _ => .error .index
      | _, _ => .error .type
    aftF := fun U _ h Nt =>
      jaxAft N m Q T (fun u z => edf2History u.rows u.val kt kn mu gap (edf2AftU0 u0 z)) U h Nt }

/-- `ElasticDryFriction3D`; `local_force_history` in elastic_dry_fric_3d.py:446-474. -/
def PForce.edf3 (N m : ℕ) (Q T : ℕ → ℕ → ℝ) (kt kn mu gap : ℝ) (u0 : EdfU0) : PForce :=
  { m := m, Q := Q, T := T, ftype := 1, u0 := some u0
    lfh0 := fun _ _ => .error .type
    lfh1 := fun u _ _ a _ => match u0, a with
      | .none, .array z => .ok (edf3History u.rows u.val kt kn mu gap (fun j => z (3 * (j / 2) + j % 2)))
      | .array v, .array _ => .ok (edf3History u.rows u.val kt kn mu gap (fun j => v (3 * (j / 2) + j % 2)))
      | .scalar _, .array _ => .error .index
      | _, _ => .error .type
    aftF := fun U _ h Nt =>
      jaxAft N m Q T (fun u z => edf3History u.rows u.val kt kn mu gap (edf3AftU0 u0 z)) U h Nt }

/-- `RoughContactFriction` with the tangential model `TAN`; `local_force_history` in rough_contact.py:510-520 gets the
attribute `u0`, which `aft` uses as well (rough_contact.py:607-626). The history is finite (property C80); the value 0
stands for an entry that is not. -/
def PForce.rough (N : ℕ) (Q T : ℕ → ℕ → ℝ) (mt : Mat) (g : Asperities) (mu : ℝ) (u0 : ℕ → ℝ) : PForce :=
  let hist : TS ℕ → (ℕ → ℝ) → ℕ → ℕ → ℝ := fun u z t d => (roughHistory mt g u.rows u.val z mu 2 t d).getD 0
  { m := 3, Q := Q, T := T, ftype := 1, u0 := some (.array u0)
    lfh0 := fun _ _ => .error .type
    lfh1 := fun u _ _ a _ => match a with
      | .array z => .ok (hist u z)
      | _ => .error .type
    aftF := fun U _ h Nt => jaxAft N 3 Q T (fun u _ => hist u u0) U h Nt }

/-- `RoughContactFriction` with the tangential model `MIF` and `Nr` radii; the methods are the same. -/
def PForce.mif (N : ℕ) (Q T : ℕ → ℕ → ℝ) (mt : Mat) (g : Asperities) (Nr : ℕ) (mu : ℝ) (u0 : ℕ → ℝ) : PForce :=
  let hist : TS ℕ → (ℕ → ℝ) → ℕ → ℕ → ℝ := fun u z t d => (mifHistory mt g Nr u.rows u.val z mu 2 t d).getD 0
  { m := 3, Q := Q, T := T, ftype := 1, u0 := some (.array u0)
    lfh0 := fun _ _ => .error .type
    lfh1 := fun u _ _ a _ => match a with
      | .array z => .ok (hist u z)
      | _ => .error .type
    aftF := fun U _ h Nt => jaxAft N 3 Q T (fun u _ => hist u u0) U h Nt }

/-- Start position of the JAX Jenkins classes: the zeroth coefficient for `u0 = None`, otherwise `u0`
(jax/nlforces/jenkins_element.py:176-183, jax/nlforces/vector_jenkins.py:138-146). -/
def jaxStart : EdfU0 → (ℕ → ℝ) → ℝ
  | .none, z => z 0
  | .scalar x, _ => x
  | .array v, _ => v 0

/-- JAX `JenkinsForce` (jax/nlforces/jenkins_element.py): it has `u0` and force type 1 and no method
`local_force_history`. -/
def PForce.jaxJenkins (N : ℕ) (Q T : ℕ → ℕ → ℝ) (kt Fs : ℝ) (u0 : EdfU0) : PForce :=
  { m := 1, Q := Q, T := T, ftype := 1, u0 := some u0
    lfh0 := fun _ _ => .error .attribute
    lfh1 := fun _ _ _ _ _ => .error .attribute
    aftF := fun U _ h Nt => jaxAft N 1 Q T (fun u z j _ => jaxJenkinsHistory u.rows (fun j => u.val j 0) kt Fs
      (jaxStart u0 z) j) U h Nt }

end

end TMD
