import Verif.Model.LocalForces

/-!
# Model of the Jacobians of the JAX elements (`jax.jacfwd`)

`jacfwd` evaluates the program on pairs of a value and a tangent per entry of the differentiated argument. The programs
are written once over the operations they use (`JNum`); on real numbers they are the models used elsewhere, on pairs
(`Dual`) they are what `jacfwd` evaluates. The rules for the pairs are JAX's own definitions: sum and product rule,
`where` takes the tangents of the chosen branch, and `minimum` and `maximum` divide the tangent equally between two equal
arguments (`_balanced_eq` in `jax/_src/lax/lax.py`). JAX itself is not part of the project, so these rules are trusted.
-/

namespace TMD

noncomputable section

/-- A value and its tangents. -/
@[ext] structure Dual where
  v : ℝ
  d : ℕ → ℝ

/-- The operations of the programs below; `sel x y a b` is `where(x < y, a, b)`. -/
structure JNum (α : Type) where
  const : ℝ → α
  add : α → α → α
  sub : α → α → α
  mul : α → α → α
  min : α → α → α
  max : α → α → α
  sel : α → α → α → α → α

open Classical in
/-- Evaluation on numbers. -/
def realNum : JNum ℝ :=
  ⟨id, (· + ·), (· - ·), (· * ·), Min.min, Max.max, fun x y a b => if x < y then a else b⟩

open Classical in
/-- `_balanced_eq(x, z, y)`: weight of the tangent of `x` in `z = min(x, y)` or `z = max(x, y)`. -/
def balanced (x z y : ℝ) : ℝ := (if x = z then 1 else 0) / (if y = z then 2 else 1)

open Classical in
/-- Evaluation on pairs. -/
def dualNum : JNum Dual where
  const c := ⟨c, fun _ => 0⟩
  add x y := ⟨x.v + y.v, fun k => x.d k + y.d k⟩
  sub x y := ⟨x.v - y.v, fun k => x.d k - y.d k⟩
  mul x y := ⟨x.v * y.v, fun k => x.d k * y.v + x.v * y.d k⟩
  min x y := let z := Min.min x.v y.v
    ⟨z, fun k => x.d k * balanced x.v z y.v + y.d k * balanced y.v z x.v⟩
  max x y := let z := Max.max x.v y.v
    ⟨z, fun k => x.d k * balanced x.v z y.v + y.d k * balanced y.v z x.v⟩
  sel x y a b := if x.v < y.v then a else b

section programs

variable {α : Type} (J : JNum α)

/-- `_local_jenkins_loop_body`, jax/nlforces/jenkins_element.py:239-243, for the one local DOF. -/
def gJenkinsBody (Nt : ℕ) (u : ℕ → α) (kt Fs : ℝ) (ft : ℕ → α) (ind : ℕ) : ℕ → α :=
  let fcurr := J.min (J.add (J.mul (J.const kt) (J.sub (u ind) (u (prevIdx Nt ind)))) (ft (prevIdx Nt ind))) (J.const Fs)
  setRow ft ind (J.max fcurr (J.const (-Fs)))

/-- Force history of `_local_aft_jenkins`, jax/nlforces/jenkins_element.py:315-341. -/
def gJenkinsHistory (Nt : ℕ) (u : ℕ → α) (kt Fs : ℝ) (u0 : α) : ℕ → α :=
  let ft := setRow (fun _ => J.const 0) (Nt - 1) (J.mul (J.const kt) (J.sub (u (Nt - 1)) u0))
  let ft := foriLoop (gJenkinsBody J Nt u kt Fs) Nt ft
  foriLoop (gJenkinsBody J Nt u kt Fs) Nt ft

/-- Normal force, elastic_dry_fric_2d.py:776, elastic_dry_fric_3d.py:801. -/
def gNormal (kn gap : ℝ) (u : α) : α := J.max (J.mul (J.sub u (J.const gap)) (J.const kn)) (J.const 0)

/-- `_local_eldry_loop_body`, elastic_dry_fric_2d.py:594-599 and elastic_dry_fric_3d.py:610-619, with the tangential
columns `tan` and the normal column `nrm d` of each. -/
def gEdfBody (tan : ℕ → Prop) [DecidablePred tan] (nrm : ℕ → ℕ) (Nt : ℕ) (u : ℕ → ℕ → α) (kt mu : ℝ)
    (ft : ℕ → ℕ → α) (ind : ℕ) : ℕ → ℕ → α :=
  setRow ft ind fun d => if tan d then J.max (J.min
      (J.add (J.mul (J.const kt) (J.sub (u ind d) (u (prevIdx Nt ind) d))) (ft (prevIdx Nt ind) d))
      (J.mul (J.const mu) (ft ind (nrm d)))) (J.mul (J.const (-mu)) (ft ind (nrm d)))
    else ft ind d

/-- `_local_force_history`, elastic_dry_fric_2d.py:762-798 and elastic_dry_fric_3d.py:790-825; `u0 (pos d)` is the start
of column `d`. -/
def gEdfHistory (tan : ℕ → Prop) [DecidablePred tan] (nrm pos : ℕ → ℕ) (Nt : ℕ) (u : ℕ → ℕ → α) (kt kn mu gap : ℝ)
    (u0 : ℕ → α) : ℕ → ℕ → α :=
  let ft : ℕ → ℕ → α := fun t d => if tan d then
      (if t = Nt - 1 then J.mul (J.const kt) (J.sub (u t d) (u0 (pos d))) else J.const 0)
    else gNormal J kn gap (u t d)
  let ft := foriLoop (gEdfBody J tan nrm Nt u kt mu) Nt ft
  foriLoop (gEdfBody J tan nrm Nt u kt mu) Nt ft

/-- `_local_eldy_force`, elastic_dry_fric_2d.py:496-516 and elastic_dry_fric_3d.py:509-531, for positions `up`; `a > b`
in the second `where` is `b < a`. -/
def gEdfStatic (tan : ℕ → Prop) [DecidablePred tan] (nrm pos : ℕ → ℕ) (unl : ℕ → α) (up : ℕ → ℝ) (kt kn mu gap : ℝ) :
    ℕ → α := fun d =>
  if tan d then
    let N := gNormal J kn gap (unl (nrm d))
    let fpred := J.mul (J.const kt) (J.sub (unl d) (J.const (up (pos d))))
    let fcurr := J.sel fpred (J.mul (J.const mu) N) fpred (J.mul (J.const mu) N)
    J.sel (J.mul (J.const (-mu)) N) fcurr fcurr (J.mul (J.const (-mu)) N)
  else gNormal J kn gap (unl d)

/-- Start positions: from the traced zeroth row of the coefficients for `u0 = None`, else constants
(jax/nlforces/jenkins_element.py:177-183, 327; elastic_dry_fric_2d.py:326-334, 668-676; elastic_dry_fric_3d.py:695-703). -/
def gStart (u0 : EdfU0) (z : ℕ → α) : ℕ → α :=
  match u0 with
  | .none => z
  | .scalar x => fun _ => J.const x
  | .array v => fun d => J.const (v d)

end programs

open Classical in
/-- Tangent `k` of entry `(r, d)` of `Ulocal = reshape(Uwlocal[:-1], (m, Nhc), 'F').T` with respect to entry `k` of
`Uwlocal`; the frequency is the entry `k = Nhc*m`. -/
def seed (m k r d : ℕ) : ℝ := if k = r * m + d then 1 else 0

/-- `aft` of the JAX classes with `jacfwd` (jax/nlforces/jenkins_element.py:167-215, 286-349, 376-379;
elastic_dry_fric_2d.py:300-370, 643-686; elastic_dry_fric_3d.py likewise). `time_series_deriv` and `get_fourier_coeff` are
linear, so they act on the tangents as on the values. `hist` gets the number of samples, the sampled displacements and the
zeroth row of the coefficients. The last column, the derivative by frequency, is reshaped in C order. -/
def jaxAftGrad (N m : ℕ) (Q T : ℕ → ℕ → ℝ) (hist : ℕ → (ℕ → ℕ → Dual) → (ℕ → Dual) → ℕ → ℕ → Dual) (U : ℕ → ℝ)
    (h : List ℕ) (Nt : ℕ) : Except Err AftOut :=
  let n := nhcRaw h
  let Ul := unlOf N Q U
  if (n * m + 1) / n ≠ m then .error .type else
  match timeSeriesDeriv Nt h Ul 0, timeSeriesDeriv Nt h (fun r (p : ℕ × ℕ) => seed m p.1 r p.2) 0 with
  | .ok ut, .ok dt =>
    let ft := hist ut.rows (fun j d => ⟨ut.val j d, fun k => dt.val j (k, d)⟩) (fun d => ⟨Ul 0 d, fun k => seed m k 0 d⟩)
    match getFourierCoeff h ⟨ut.rows, fun j d => (ft j d).v⟩,
        getFourierCoeff h (⟨ut.rows, fun j p => (ft j p.2).d p.1⟩ : TS (ℕ × ℕ)) with
    | .ok F, .ok G =>
      let J : ℕ → ℕ → ℝ := fun p k => G (p / m) (k, p % m)
      .ok ⟨toGlobal N m T F, matMul (n * m) (matMul (n * m) (kronEye N m T) J) (kronEye m N Q),
        fun p => ∑ d ∈ Finset.range m, T (p % N) d * J (d * n + p / N) (n * m)⟩
    | .error e, _ => .error e
    | _, .error e => .error e
  | .error e, _ => .error e
  | _, .error e => .error e

/-- `aft` of the JAX `JenkinsForce`. -/
def jaxJenkinsAft (N : ℕ) (Q T : ℕ → ℕ → ℝ) (kt Fs : ℝ) (u0 : EdfU0) : (ℕ → ℝ) → List ℕ → ℕ → Except Err AftOut :=
  jaxAftGrad N 1 Q T fun Nt u z j _ => gJenkinsHistory dualNum Nt (fun j => u j 0) kt Fs (gStart dualNum u0 z 0) j

/-- `aft` of `ElasticDryFriction2D`. -/
def edf2AftGrad (N m : ℕ) (Q T : ℕ → ℕ → ℝ) (kt kn mu gap : ℝ) (u0 : EdfU0) :
    (ℕ → ℝ) → List ℕ → ℕ → Except Err AftOut :=
  jaxAftGrad N m Q T fun Nt u z =>
    gEdfHistory dualNum (fun d => d % 2 = 0) (fun d => d + 1) id Nt u kt kn mu gap (gStart dualNum u0 z)

/-- `aft` of `ElasticDryFriction3D`. -/
def edf3AftGrad (N m : ℕ) (Q T : ℕ → ℕ → ℝ) (kt kn mu gap : ℝ) (u0 : EdfU0) :
    (ℕ → ℝ) → List ℕ → ℕ → Except Err AftOut :=
  jaxAftGrad N m Q T fun Nt u z =>
    gEdfHistory dualNum (fun d => d % 3 ≠ 2) edf3Normal id Nt u kt kn mu gap (gStart dualNum u0 z)

/-- Local forces and their derivatives (`_local_eldy_force_grad`) in `force`, mapped to global coordinates:
elastic_dry_fric_2d.py:234-249, elastic_dry_fric_3d.py:246-262. -/
def edfForceGrad (tan : ℕ → Prop) [DecidablePred tan] (nrm pos : ℕ → ℕ) (N m : ℕ) (Q T : ℕ → ℕ → ℝ) (up : ℕ → ℝ)
    (kt kn mu gap : ℝ) (X : ℕ → ℝ) : (ℕ → ℝ) × (ℕ → ℕ → ℝ) :=
  let f := gEdfStatic dualNum tan nrm pos (fun d => ⟨matVec N Q X d, fun k => eye k d⟩) up kt kn mu gap
  (matVec m T fun d => (f d).v, matMul m (matMul m T fun d k => (f d).d k) Q)

/-- `force` of `ElasticDryFriction2D`. -/
def edf2ForceGrad := edfForceGrad (fun d => d % 2 = 0) (fun d => d + 1) (fun d => d / 2)

/-- `force` of `ElasticDryFriction3D`. -/
def edf3ForceGrad := edfForceGrad (fun d => d % 3 ≠ 2) edf3Normal (fun d => 2 * (d / 3) + d % 3)

end

end TMD
