import Verif.Model.Jenkins

/-!
# Elastic dry friction (`jax/nlforces/elastic_dry_fric_2d.py`, `elastic_dry_fric_3d.py`)

Arrays over time and local DOF are functions `ℕ → ℕ → ℝ`. In 2D, DOFs `0::2` are tangential and
`1::2` normal; in 3D, `0::3` and `1::3` are tangential and `2::3` normal. `kt`, `kn`, `mu`,
`meso_gap` are scalars (arrays are documented as untested).
-/

namespace TMD

noncomputable section

open Classical

/-! ## 2D -/

/-- Normal force with gap: `jnp.maximum((u - meso_gap)*kn, 0.0)`,
`elastic_dry_fric_2d.py:504` and `:776`. -/
def edfNormal (kn gap u : ℝ) : ℝ := max ((u - gap) * kn) 0

/-- `_local_eldry_loop_body`, `elastic_dry_fric_2d.py:594-599`. -/
def edf2Body (Nt : ℕ) (u : ℕ → ℕ → ℝ) (kt mu : ℝ) (ft : ℕ → ℕ → ℝ) (ind : ℕ) : ℕ → ℕ → ℝ :=
  setRow ft ind (fun d => if d % 2 = 0 then
      max (min (kt * (u ind d - u (prevIdx Nt ind) d) + ft (prevIdx Nt ind) d) (mu * ft ind (d + 1)))
        (-mu * ft ind (d + 1))
    else ft ind d)

/-- State of `ft` before the two loops in `_local_force_history`,
`elastic_dry_fric_2d.py:773-788`: normal forces, zero tangential forces, last row from a linear
spring starting at `u0` (indexed by element). -/
def edf2Start (Nt : ℕ) (u : ℕ → ℕ → ℝ) (kt kn gap : ℝ) (u0 : ℕ → ℝ) : ℕ → ℕ → ℝ :=
  fun t d => if d % 2 = 0 then (if t = Nt - 1 then kt * (u t d - u0 (d / 2)) else 0)
    else edfNormal kn gap (u t d)

/-- `_local_force_history`, `elastic_dry_fric_2d.py:762-798`. -/
def edf2History (Nt : ℕ) (u : ℕ → ℕ → ℝ) (kt kn mu gap : ℝ) (u0 : ℕ → ℝ) : ℕ → ℕ → ℝ :=
  foriLoop (edf2Body Nt u kt mu) Nt (foriLoop (edf2Body Nt u kt mu) Nt (edf2Start Nt u kt kn gap u0))

/-- The value of the attribute `u0`: `None`, a float, or an array over the local DOFs
(`elastic_dry_fric_2d.py:40-48`, `:185`). -/
inductive EdfU0 where
  | none
  | scalar (x : ℝ)
  | array (v : ℕ → ℝ)

/-- Starting positions used by `aft`, `elastic_dry_fric_2d.py:326-334` and `:668-676`; `ulocal0` is
the zeroth row of the local harmonic coefficients. -/
def edf2AftU0 (u0 : EdfU0) (ulocal0 : ℕ → ℝ) : ℕ → ℝ :=
  match u0 with
  | .none => fun e => ulocal0 (2 * e)
  | .scalar x => fun _ => x
  | .array v => fun e => v (2 * e)

/-- Public `local_force_history`, `elastic_dry_fric_2d.py:436-463`: with a float `u0`, the product
`self.u0*np.ones_like(unlth0[0])` is a scalar and `u0[::2]` raises `IndexError`. -/
def edf2LocalForceHistory (Nt : ℕ) (u : ℕ → ℕ → ℝ) (kt kn mu gap : ℝ) (u0 : EdfU0) (unlth0 : ℕ → ℝ) :
    Except Err (ℕ → ℕ → ℝ) :=
  match u0 with
  | .none => .ok (edf2History Nt u kt kn mu gap (fun e => unlth0 (2 * e)))
  | .scalar _ => .error .index
  | .array v => .ok (edf2History Nt u kt kn mu gap (fun e => v (2 * e)))

/-- Time series of forces used inside `aft` (`elastic_dry_fric_2d.py:668-678`). -/
def edf2AftHistory (Nt : ℕ) (u : ℕ → ℕ → ℝ) (kt kn mu gap : ℝ) (u0 : EdfU0) (ulocal0 : ℕ → ℝ) :
    ℕ → ℕ → ℝ := edf2History Nt u kt kn mu gap (edf2AftU0 u0 ulocal0)

/-- What `postprocess.harmonic.local_harmonic_forces` computes for this element
(`postprocess/harmonic.py:87-97`): it passes the attribute `u0` itself as `unlth0`. `None[::2]` and
`float[0]` raise `TypeError`. -/
def edf2PostHistory (Nt : ℕ) (u : ℕ → ℕ → ℝ) (kt kn mu gap : ℝ) (u0 : EdfU0) : Except Err (ℕ → ℕ → ℝ) :=
  match u0 with
  | .none => .error .type
  | .scalar _ => .error .type
  | .array v => edf2LocalForceHistory Nt u kt kn mu gap (.array v) v

/-- `_local_eldy_force`, `elastic_dry_fric_2d.py:496-516`. The argument `fp` is accepted and not
used. -/
def edf2Static (unl : ℕ → ℝ) (up _fp : ℕ → ℝ) (kt kn mu gap : ℝ) : ℕ → ℝ := fun d =>
  if d % 2 = 0 then
    let N := edfNormal kn gap (unl (d + 1))
    let fpred := kt * (unl d - up (d / 2))
    let fcurr := if fpred < mu * N then fpred else mu * N
    if fcurr > -mu * N then fcurr else -mu * N
  else edfNormal kn gap (unl d)

/-- A 2D elastic dry friction object in static use, local coordinates. -/
structure Edf2 where
  kt : ℝ
  kn : ℝ
  mu : ℝ
  realMu : ℝ
  prestressMu : ℝ
  gap : ℝ
  up : ℕ → ℝ
  fp : ℕ → ℝ

/-- Constructor, `elastic_dry_fric_2d.py:78-104`. -/
def Edf2.new (kt kn mu gap : ℝ) : Edf2 :=
  { kt := kt, kn := kn, mu := mu, realMu := mu, prestressMu := 0, gap := gap, up := fun _ => 0, fp := fun _ => 0 }

/-- `set_prestress_mu`, `elastic_dry_fric_2d.py:127`. -/
def Edf2.setPrestressMu (o : Edf2) : Edf2 := { o with mu := o.prestressMu }

/-- `reset_real_mu`, `elastic_dry_fric_2d.py:138`. -/
def Edf2.resetRealMu (o : Edf2) : Edf2 := { o with mu := o.realMu }

/-- Local part of `force(X, update_hist)`, `elastic_dry_fric_2d.py:235-254`. -/
def Edf2.force (o : Edf2) (unl : ℕ → ℝ) (updateHist : Bool) : (ℕ → ℝ) × Edf2 :=
  let f := edf2Static unl o.up o.fp o.kt o.kn o.mu o.gap
  (f, if updateHist then { o with up := fun e => unl (2 * e), fp := fun e => f (2 * e) } else o)

/-! ## 3D -/

/-- Normal DOF belonging to a tangential DOF in 3D. -/
def edf3Normal (d : ℕ) : ℕ := if d % 3 = 0 then d + 2 else d + 1

/-- `_local_eldry_loop_body`, `elastic_dry_fric_3d.py:610-619`. -/
def edf3Body (Nt : ℕ) (u : ℕ → ℕ → ℝ) (kt mu : ℝ) (ft : ℕ → ℕ → ℝ) (ind : ℕ) : ℕ → ℕ → ℝ :=
  setRow ft ind (fun d => if d % 3 ≠ 2 then
      max (min (kt * (u ind d - u (prevIdx Nt ind) d) + ft (prevIdx Nt ind) d) (mu * ft ind (edf3Normal d)))
        (-mu * ft ind (edf3Normal d))
    else ft ind d)

/-- Start of `_local_force_history`, `elastic_dry_fric_3d.py:798-814`; `u0` is indexed by the
tangential DOFs only (`2*e` and `2*e+1` for element `e`). -/
def edf3Start (Nt : ℕ) (u : ℕ → ℕ → ℝ) (kt kn gap : ℝ) (u0 : ℕ → ℝ) : ℕ → ℕ → ℝ :=
  fun t d => if d % 3 ≠ 2 then
      (if t = Nt - 1 then kt * (u t d - u0 (2 * (d / 3) + d % 3)) else 0)
    else edfNormal kn gap (u t d)

/-- `_local_force_history`, `elastic_dry_fric_3d.py:790-825`. -/
def edf3History (Nt : ℕ) (u : ℕ → ℕ → ℝ) (kt kn mu gap : ℝ) (u0 : ℕ → ℝ) : ℕ → ℕ → ℝ :=
  foriLoop (edf3Body Nt u kt mu) Nt (foriLoop (edf3Body Nt u kt mu) Nt (edf3Start Nt u kt kn gap u0))

/-- Starting positions used by `aft` in 3D (`elastic_dry_fric_3d.py:695-703`), indexed by the
tangential DOFs. -/
def edf3AftU0 (u0 : EdfU0) (ulocal0 : ℕ → ℝ) : ℕ → ℝ :=
  match u0 with
  | .none => fun j => ulocal0 (3 * (j / 2) + j % 2)
  | .scalar x => fun _ => x
  | .array v => fun j => v (3 * (j / 2) + j % 2)

/-- `_local_eldy_force`, `elastic_dry_fric_3d.py:509-531`, `fp` unused. -/
def edf3Static (unl : ℕ → ℝ) (up _fp : ℕ → ℝ) (kt kn mu gap : ℝ) : ℕ → ℝ := fun d =>
  if d % 3 ≠ 2 then
    let N := edfNormal kn gap (unl (edf3Normal d))
    let fpred := kt * (unl d - up (2 * (d / 3) + d % 3))
    let fcurr := if fpred < mu * N then fpred else mu * N
    if fcurr > -mu * N then fcurr else -mu * N
  else edfNormal kn gap (unl d)

end

end TMD
