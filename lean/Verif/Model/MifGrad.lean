import Verif.Model.RoughGrad
import Verif.Model.MifContact

/-!
# Model of the automatic derivatives of the Mindlin-Iwan fit of `tmdsimpy/jax/nlforces/roughcontact`

The programs of Model/MifContact over the operations of Model/RoughGrad. `jnp.interp` is JAX code: the index of the interval
is an integer and passes no tangents. Squares are written as products, which have the same tangents. The stiffness and the
pressure that are divided by a zero radius are dropped by `where`.
-/

namespace TMD

noncomputable section

/-- `x <= y` for two values, false for NaN. -/
def leFF (x y : Flt) : Prop := ∃ a b, x = some a ∧ y = some b ∧ a ≤ b

/-- `abs(x) <= y`, false for NaN. -/
def absLeF (x : Flt) (y : ℝ) : Prop := ∃ a, x = some a ∧ |a| ≤ y

section programs

variable {α : Type} (J : FNum α)

open Classical in
/-- `searchsorted` from the right, clipped to `1 … n-1`, in `jnp.interp`. -/
def gIndex (n : ℕ) (xp : ℕ → α) (x : α) : ℕ :=
  max 1 (min (n - 1) ((List.range n).filter fun k => decide (leFF (J.val (xp k)) (J.val x))).length)

/-- The rest of `jnp.interp` with `left=0` and `right=0`, once the interval is known. -/
def gInterpAt (n i : ℕ) (xp fp : ℕ → α) (x : α) : α :=
  let dx := J.sub (xp i) (xp (i - 1))
  let small := absLeF (J.val dx) (1 / 2 ^ 104)
  let f := J.sel small (fp (i - 1))
    (J.add (fp (i - 1)) (J.mul (J.div (J.sub x (xp (i - 1))) (J.sel small (J.const 1) dx)) (J.sub (fp i) (fp (i - 1)))))
  J.sel (gtFF (J.val x) (J.val (xp (n - 1)))) (J.const 0) (J.sel (gtFF (J.val (xp 0)) (J.val x)) (J.const 0) f)

/-- `jnp.interp(x, xp, fp, left=0, right=0)` as used in `_interp_hist_loop_body`, _asperity_functions.py:310-324. -/
def gInterp (n : ℕ) (xp fp : ℕ → α) (x : α) : α := gInterpAt J n (gIndex J n xp x) xp fp x

/-- `kt_local`, _asperity_functions.py:387-402. -/
def gMifStiff (Nr : ℕ) (Gstar : ℝ) (fn a : α) (j : ℕ) : α :=
  J.sel (gtF (J.val fn) 0) (J.mul (J.div (J.div (J.mul (J.const (8*Gstar)) a) (J.mul a a)) (J.const Real.pi))
    (J.const (mifKt (mifRadius Nr j)))) (J.const 0)

/-- `tn`, _asperity_functions.py:405-408. -/
def gMifPressure (Nr : ℕ) (fn a : α) (j : ℕ) : α :=
  J.sel (gtF (J.val fn) 0) (J.mul (J.div (J.mul (J.const 3) fn) (J.mul (J.const (2*Real.pi)) (J.mul a a)))
    (J.const (Real.sqrt (1 - mifRadius Nr j ^ 2)))) (J.const 0)

/-- One entry of `txy` from the interpolated history `old`, _asperity_functions.py:413-420. -/
def gMifClip (Nr : ℕ) (Gstar mu : ℝ) (u u0 fn a old : α) (j : ℕ) : α :=
  let tn := gMifPressure J Nr fn a j
  let t := J.add (J.mul (gMifStiff J Nr Gstar fn a j) (J.sub u u0)) old
  J.max (J.min t (J.mul (J.const mu) tn)) (J.mul (J.const (-mu)) tn)

/-- Tractions (radius, direction) and radii of an asperity. -/
structure GMifAsp (α : Type) where
  t : ℕ → ℕ → α
  r : ℕ → α

/-- The tractions and radii that `_tangential_asperity_mif` returns for one asperity, _asperity_functions.py:374-420. -/
def gMifNext (Nr : ℕ) (Gstar mu : ℝ) (u u0 : ℕ → α) (s : GMifAsp α) (fn a : α) : GMifAsp α where
  t j d := gMifClip J Nr Gstar mu (u d) (u0 d) fn a
    (gInterp J Nr s.r (fun i => s.t i d) (J.mul a (J.const (mifRadius Nr j)))) j
  r j := J.mul a (J.const (mifRadius Nr j))

/-- `asp_fxy` of one asperity in direction `d`, _asperity_functions.py:424-427. -/
def gMifForce (Nr : ℕ) (a : α) (s : GMifAsp α) (d : ℕ) : α :=
  J.mul (J.mul (J.const (2*Real.pi)) (J.mul a a))
    (gWeighted J (fun j => mifRadius Nr j * mifWeight Nr j) (fun j => s.t j d) Nr)

/-- The force of `_static_force` with `'MIF'`, rough_contact.py:722-763; `uxyn` is traced, the history is constant. -/
def gStaticMif (m : Mat) (g : Asperities) (Nr : ℕ) (unmax : α) (Fm : ℕ → α) (uxyn0 : ℕ → α) (asp : ℕ → GMifAsp α) (mu : ℝ)
    (u : ℕ → α) (d : ℕ) : α :=
  let o := fun k => gGeneral J m (gGap J g (u 2) k) (gGap J g unmax k) (Fm k)
  if d < 2 then
    gWeighted J g.weights (fun k => gMifForce J Nr (o k).2 (gMifNext J Nr m.Gstar mu u uxyn0 (asp k) (o k).1 (o k).2) d) g.nasp
  else gWeighted J g.weights (fun k => (o k).1) g.nasp

/-- The changing entries of `history`. -/
structure GMifHist (α : Type) where
  ft : ℕ → ℕ → α
  uxyn0 : ℕ → α
  asp : ℕ → GMifAsp α

/-- `_local_loop_body` with `'MIF'`, rough_contact.py:848-887. -/
def gMifBody (m : Mat) (g : Asperities) (Nr : ℕ) (u : ℕ → ℕ → α) (mu : ℝ) (deltam Fm : ℕ → α) (H : GMifHist α) (ind : ℕ) :
    GMifHist α :=
  let o := fun k => gUnl J m.Re m.Estar (gGap J g (u ind 2) k) (deltam k) (Fm k)
  let z := fun k => gMifNext J Nr m.Gstar mu (u ind) H.uxyn0 (H.asp k) (o k).1 (o k).2
  ⟨setRow H.ft ind (fun d => if d < 2 then gWeighted J g.weights (fun k => gMifForce J Nr (o k).2 (z k) d) g.nasp
      else gWeighted J g.weights (fun k => (o k).1) g.nasp), u ind, z⟩

/-- `_local_force_history` with `'MIF'`, rough_contact.py:936-983, from the maximum `unmax` on. -/
def gMifFrom (m : Mat) (g : Asperities) (Nr Nt : ℕ) (u : ℕ → ℕ → α) (unmax : α) (u0 : ℕ → α) (mu : ℝ) (repeats : ℕ) :
    ℕ → ℕ → α :=
  let deltam := gGap J g unmax
  let Fm := fun k => (gGeneral J m (deltam k) (J.const (0 - g.meso - g.gaps k)) (J.const 0)).1
  ((List.range repeats).foldl (fun H _ => foriLoop (gMifBody J m g Nr u mu deltam Fm) Nt H)
    ⟨fun _ _ => J.const 0, u0, fun _ => ⟨fun _ _ => J.const 0, fun j => J.const (mifRadius Nr j)⟩⟩).ft

/-- `_local_force_history` with `'MIF'`, rough_contact.py:928-983. -/
def gMifHistory (m : Mat) (g : Asperities) (Nr Nt : ℕ) (u : ℕ → ℕ → α) (u0 : ℕ → α) (mu : ℝ) (repeats : ℕ) : ℕ → ℕ → α :=
  gMifFrom J m g Nr Nt u (J.maxOf Nt fun t => u t 2) u0 mu repeats

end programs

/-- History of `_local_aft` with `'MIF'`, rough_contact.py:1023-1032, on pairs. -/
def mifHistGrad (m : Mat) (g : Asperities) (Nr : ℕ) (mu : ℝ) (u0 : ℕ → ℝ) (Nt : ℕ) (u : ℕ → ℕ → Dual) (t d : ℕ) : FDual :=
  gMifHistory fdualNum m g Nr Nt (fun j d => FDual.of (u j d)) (fun d => FDual.const (some (u0 d))) mu 2 t d

/-- `aft` of `RoughContactFriction` with `'MIF'` and derivatives, rough_contact.py:583-664, 990-1056. -/
def mifAftGrad (N : ℕ) (Q T : ℕ → ℕ → ℝ) (m : Mat) (g : Asperities) (Nr : ℕ) (mu : ℝ) (u0 : ℕ → ℝ) :
    (ℕ → ℝ) → List ℕ → ℕ → Except Err AftOut :=
  jaxAftGrad N 3 Q T fun Nt u _ t d => (mifHistGrad m g Nr mu u0 Nt u t d).real

/-- Constant history of an asperity. -/
def MifAsp.dual (s : Option MifAsp) : GMifAsp FDual :=
  ⟨fun j d => FDual.const (s.map fun s => s.t j d), fun j => FDual.const (s.map fun s => s.r j)⟩

/-- Local forces of `force` with `'MIF'` and their derivatives (`_static_force_grad`), rough_contact.py:404-417, 766-792. -/
def mifForceLocal (m : Mat) (g : Asperities) (Nr : ℕ) (o : MifObj) (u : ℕ → ℝ) (d : ℕ) : FDual :=
  gStaticMif fdualNum m g Nr (FDual.const (some o.unmax)) (fun k => FDual.const (o.Fm k))
    (fun d => FDual.const (some (o.uxyn0 d))) (fun k => MifAsp.dual (o.asp k)) o.mu
    (fun d => ⟨some (u d), fun k => some (eye k d)⟩) d

/-- `T @ dfnldunl @ Q` in `force`, rough_contact.py:424-426, for finite derivatives. -/
def mifForceGrad (N : ℕ) (Q T : ℕ → ℕ → ℝ) (m : Mat) (g : Asperities) (Nr : ℕ) (o : MifObj) (X : ℕ → ℝ) :
    (ℕ → ℝ) × (ℕ → ℕ → ℝ) :=
  let f := fun d => (mifForceLocal m g Nr o (matVec N Q X) d).real
  (matVec 3 T fun d => (f d).v, matMul 3 (matMul 3 T fun d k => (f d).d k) Q)

end

end TMD
