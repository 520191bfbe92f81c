import Verif.Model.RoughContact

/-!
# Model of the Mindlin-Iwan fit of `tmdsimpy/jax/nlforces/roughcontact`

`tangent_model = 'MIF'` with `N_radial_quad = Nr ≥ 2` radii. Numbers are real. An asperity whose radii or tractions are
not finite has `none` for all of them. `jnp.interp` is the JAX function for sorted sample points; the gradients are in
Model/MifGrad.
-/

namespace TMD

noncomputable section

/-- `quad_radii`, rough_contact.py:186: `np.linspace(0, 1, Nr)`. -/
def mifRadius (Nr j : ℕ) : ℝ := (j : ℝ) / ((Nr - 1 : ℕ) : ℝ)

/-- `weight_radii` before the division, rough_contact.py:188-190. -/
def mifRaw (Nr j : ℕ) : ℝ := if j = 0 ∨ j = Nr - 1 then 1 else 2

/-- `weight_radii`, rough_contact.py:191. -/
def mifWeight (Nr j : ℕ) : ℝ := mifRaw Nr j / ∑ i ∈ Finset.range Nr, mifRaw Nr i

open Classical in
/-- `jnp.interp(x, xp, fp, left=0, right=0)` for one `x` and `n ≥ 2` sorted sample points: `i` is `searchsorted` from the
right, clipped to `1 … n-1`; intervals shorter than `np.spacing(eps)` take the left value. -/
def jnpInterp (n : ℕ) (xp fp : ℕ → ℝ) (x : ℝ) : ℝ :=
  let i := max 1 (min (n - 1) ((List.range n).filter fun k => decide (xp k ≤ x)).length)
  let dx := xp i - xp (i - 1)
  let f := if |dx| ≤ 1 / 2 ^ 104 then fp (i - 1) else fp (i - 1) + (x - xp (i - 1)) / dx * (fp i - fp (i - 1))
  if xp (n - 1) < x then 0 else if x < xp 0 then 0 else f

/-- `kt_tilde`, _asperity_functions.py:390-397; not finite at radius 1. -/
def mifKt (r : ℝ) : ℝ :=
  if r ^ 2 < 1 then 0.8709 + (1 - 0.8709) / Real.sqrt (1 - r ^ 2) + 0.0629 * r - 0.8915 * r ^ 2 + 0.6998 * r ^ 3 else 0

/-- One entry of `txy`, _asperity_functions.py:376-420, for tractions `t0` at radii `r0` before and contact radius `a`. A
normal force that is NaN is not positive. -/
def mifTraction (Nr : ℕ) (x x0 : ℝ) (t0 r0 : ℕ → ℝ) (fn : Flt) (a Gstar mu : ℝ) (j : ℕ) : ℝ :=
  let f := fn.getD 0
  let r := mifRadius Nr j
  let old := jnpInterp Nr r0 t0 (a * r)
  let kt := if 0 < f then 8*Gstar*a/a^2/Real.pi * mifKt r else 0
  let tn := if 0 < f then 3*f/(2*Real.pi*a^2) * Real.sqrt (1 - r^2) else 0
  max (min (kt*(x - x0) + old) (mu*tn)) (-(mu*tn))

/-- `asp_fxy` in one direction, _asperity_functions.py:424-427. -/
def mifForce (Nr : ℕ) (a : ℝ) (t : ℕ → ℝ) : ℝ :=
  2*Real.pi*a^2 * ∑ j ∈ Finset.range Nr, t j * mifRadius Nr j * mifWeight Nr j

/-- Tractions (radius, direction) and radii of an asperity. -/
structure MifAsp where
  t : ℕ → ℕ → ℝ
  r : ℕ → ℝ

/-- `_tangential_asperity_mif` for one asperity, _asperity_functions.py:329-429: forces, tractions and radii. Pressed in
with radius zero, stiffness and pressure are not finite. -/
def mifAsperity (Nr : ℕ) (u u0 : ℕ → ℝ) (s : Option MifAsp) (fn a : Flt) (Gstar mu : ℝ) :
    Option ((ℕ → ℝ) × MifAsp) :=
  match s, a with
  | some s, some a =>
    if 0 < fn.getD 0 ∧ a = 0 then none
    else
      let t : ℕ → ℕ → ℝ := fun j d => mifTraction Nr (u d) (u0 d) (fun i => s.t i d) s.r fn a Gstar mu j
      some (fun d => mifForce Nr a fun j => t j d, ⟨t, fun j => a * mifRadius Nr j⟩)
  | _, _ => none

/-- The changing entries of `history`. -/
structure MifHist where
  ft : ℕ → ℕ → Flt
  uxyn0 : ℕ → ℝ
  asp : ℕ → Option MifAsp

/-- `_local_loop_body` with `'MIF'`, rough_contact.py:852-887. -/
def mifBody (m : Mat) (g : Asperities) (Nr : ℕ) (u : ℕ → ℕ → ℝ) (mu : ℝ) (deltam : ℕ → ℝ) (Fm : ℕ → Flt)
    (H : MifHist) (ind : ℕ) : MifHist :=
  let o := fun k => unloading (u ind 2 - g.meso - g.gaps k) (deltam k) (Fm k) m.Re m.Estar
  let z := fun k => mifAsperity Nr (u ind) H.uxyn0 (H.asp k) (o k).fn (o k).a m.Gstar mu
  ⟨setRow H.ft ind (fun d => if d < 2 then weighted g.weights (fun k => (z k).map fun z => z.1 d) g.nasp
      else weighted g.weights (fun k => (o k).fn) g.nasp), u ind, fun k => (z k).map fun z => z.2⟩

/-- `_local_force_history` with `'MIF'`, rough_contact.py:928-983: before the first cycle the tractions are zero at the
normalised radii. -/
def mifHistory (m : Mat) (g : Asperities) (Nr Nt : ℕ) (u : ℕ → ℕ → ℝ) (u0 : ℕ → ℝ) (mu : ℝ) (repeats : ℕ) :
    ℕ → ℕ → Flt :=
  ((List.range repeats).foldl
    (fun H _ => foriLoop (mifBody m g Nr u mu (cycleMax Nt g u) (cycleFm m Nt g u)) Nt H)
    ⟨fun _ _ => some 0, u0, fun _ => some ⟨fun _ _ => 0, mifRadius Nr⟩⟩).ft

/-! ## Static evaluation -/

/-- The attributes `unmax`, `Fm_prev`, `uxyn0`, `fxy0` with `quad_radii0`, and `mu`. -/
structure MifObj where
  unmax : ℝ
  Fm : ℕ → Flt
  uxyn0 : ℕ → ℝ
  asp : ℕ → Option MifAsp
  mu : ℝ

/-- The object after `__init__`, rough_contact.py:254-270. -/
def MifObj.new (mu : ℝ) : MifObj := ⟨0, fun _ => some 0, fun _ => 0, fun _ => some ⟨fun _ _ => 0, fun _ => 0⟩, mu⟩

/-- Local part of `force` with `'MIF'`, rough_contact.py:300-304, 414-441 and `_static_force`, 664-763. -/
def MifObj.force (m : Mat) (g : Asperities) (Nr : ℕ) (o : MifObj) (u : ℕ → ℝ) (updateHist : Bool) :
    (ℕ → Flt) × MifObj :=
  let a := fun k => general m (u 2 - g.meso - g.gaps k) (o.unmax - g.meso - g.gaps k) (o.Fm k)
  let z := fun k => mifAsperity Nr u o.uxyn0 (o.asp k) (a k).fn (a k).a m.Gstar o.mu
  (fun d => if d < 2 then weighted g.weights (fun k => (z k).map fun z => z.1 d) g.nasp
      else weighted g.weights (fun k => (a k).fn) g.nasp,
   if updateHist then
    { o with unmax := max (u 2) o.unmax, Fm := fun k => maxF (a k).fn (o.Fm k), asp := fun k => (z k).map fun z => z.2,
             uxyn0 := u } else o)

end

end TMD
