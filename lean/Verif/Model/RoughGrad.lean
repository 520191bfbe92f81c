import Verif.Model.JaxGrad
import Verif.Model.RoughContact

/-!
# Model of the automatic derivatives of `tmdsimpy/jax/nlforces/roughcontact` (tangential model `TAN`)

As in Model/JaxGrad the programs are written once over the operations they use, here with values that may be NaN
(`FNum`). On numbers they are the functions of Model/RoughContact, on pairs of value and tangents they are what
`jax.jacfwd` evaluates. The rules are JAX's: quotient, `sqrt`, `exp`, `cos`, power with constant exponent, power with
constant base, `minimum` and `maximum` as before, and the maximum of an array, whose tangent is the mean of the tangents
of the entries that are equal to it. `where` takes values and tangents of the chosen branch only, so that NaN in the other
one is dropped. A value or tangent that is not finite is `none`. Constants have zero tangents here; JAX does not compute
tangents that are known to be zero, so a tangent can be NaN in the model where it is zero in JAX, but not the other way.
The values `deltabar` and `Rebar` that the functions also return are not used by the forces and left out.
-/

namespace TMD

noncomputable section

/-- Operations with a result that may be NaN; NaN is passed on. -/
def lift1 (f : ℝ → Flt) (x : Flt) : Flt := x.bind f

def lift2 (f : ℝ → ℝ → Flt) (x y : Flt) : Flt := x.bind fun a => y.bind (f a)

def addF : Flt → Flt → Flt := lift2 fun a b => some (a + b)

def subF : Flt → Flt → Flt := lift2 fun a b => some (a - b)

def mulF : Flt → Flt → Flt := lift2 fun a b => some (a * b)

open Classical in
def divF : Flt → Flt → Flt := lift2 fun a b => if b = 0 then none else some (a / b)

open Classical in
def sqrtF : Flt → Flt := lift1 fun a => if a < 0 then none else some (Real.sqrt a)

def expF : Flt → Flt := lift1 fun a => some (Real.exp a)

def cosF : Flt → Flt := lift1 fun a => some (Real.cos a)

def sinF : Flt → Flt := lift1 fun a => some (Real.sin a)

open Classical in
/-- Power with a constant exponent. -/
def powF (c : ℝ) : Flt → Flt := lift1 fun a => if a < 0 ∨ a = 0 ∧ c < 0 then none else some (a ^ c)

/-- Power of a constant base, which is positive. -/
def cpowF (b : ℝ) : Flt → Flt := lift1 fun a => some (b ^ a)

def minF : Flt → Flt → Flt := lift2 fun a b => some (min a b)

/-- `x > y`, false for NaN. -/
def gtF (x : Flt) (y : ℝ) : Prop := ∃ a, x = some a ∧ y < a

/-- `x >= 0`, false for NaN. -/
def geF (x : Flt) : Prop := ∃ a, x = some a ∧ 0 ≤ a

/-- `x < y`, false for NaN. -/
def ltF (x : Flt) (y : ℝ) : Prop := ∃ a, x = some a ∧ a < y

/-- `x > y` for two values, false for NaN. -/
def gtFF (x y : Flt) : Prop := ∃ a b, x = some a ∧ y = some b ∧ b < a

/-- The operations of the programs; `maxOf n f` is the maximum of `n ≥ 1` entries, `sel` is `where`. -/
structure FNum (α : Type) where
  val : α → Flt
  const : ℝ → α
  add : α → α → α
  sub : α → α → α
  mul : α → α → α
  div : α → α → α
  sqrt : α → α
  exp : α → α
  cos : α → α
  pow : ℝ → α → α
  cpow : ℝ → α → α
  min : α → α → α
  max : α → α → α
  sel : Prop → α → α → α
  maxOf : ℕ → (ℕ → α) → α

/-- Maximum of `n` entries, the first of which is compared twice. -/
def maxOfF (n : ℕ) (f : ℕ → Flt) : Flt := (List.range n).foldl (fun x t => maxF x (f t)) (f 0)

open Classical in
/-- Evaluation on numbers. -/
def fltNum : FNum Flt where
  val := id
  const := some
  add := addF
  sub := subF
  mul := mulF
  div := divF
  sqrt := sqrtF
  exp := expF
  cos := cosF
  pow := powF
  cpow := cpowF
  min := minF
  max := maxF
  sel c x y := if c then x else y
  maxOf := maxOfF

/-- A value and its tangents, any of which may be NaN. -/
@[ext] structure FDual where
  v : Flt
  d : ℕ → Flt

/-- `_balanced_eq` as in Model/JaxGrad. -/
def balF (x z y : Flt) : Flt := x.bind fun a => z.bind fun c => y.bind fun b => some (balanced a c b)

open Classical in
/-- `_reduce_chooser_jvp_rule` in `jax/_src/lax/lax.py`: mean of the tangents at the places of the maximum `z`. -/
def chooserF (n : ℕ) (f : ℕ → FDual) (z : Flt) (k : ℕ) : Flt :=
  divF ((List.range n).foldl (fun s t => addF s (mulF ((f t).d k) (some (if (f t).v = z then 1 else 0)))) (some 0))
    (some (∑ t ∈ Finset.range n, if (f t).v = z then 1 else 0))

open Classical in
/-- Evaluation on pairs. -/
def fdualNum : FNum FDual where
  val := FDual.v
  const c := ⟨some c, fun _ => some 0⟩
  add x y := ⟨addF x.v y.v, fun k => addF (x.d k) (y.d k)⟩
  sub x y := ⟨subF x.v y.v, fun k => subF (x.d k) (y.d k)⟩
  mul x y := ⟨mulF x.v y.v, fun k => addF (mulF (x.d k) y.v) (mulF x.v (y.d k))⟩
  div x y := ⟨divF x.v y.v, fun k =>
    addF (divF (x.d k) y.v) (mulF (mulF (mulF (some (-1)) (y.d k)) x.v) (divF (some 1) (mulF y.v y.v)))⟩
  sqrt x := ⟨sqrtF x.v, fun k => mulF (x.d k) (divF (some (1/2)) (sqrtF x.v))⟩
  exp x := ⟨expF x.v, fun k => mulF (x.d k) (expF x.v)⟩
  cos x := ⟨cosF x.v, fun k => mulF (some (-1)) (mulF (x.d k) (sinF x.v))⟩
  pow c x := ⟨powF c x.v, fun k => mulF (x.d k) (mulF (some c) (powF (c - 1) x.v))⟩
  cpow b x := ⟨cpowF b x.v, fun k => mulF (x.d k) (mulF (some (Real.log b)) (cpowF b x.v))⟩
  min x y := let z := minF x.v y.v
    ⟨z, fun k => addF (mulF (x.d k) (balF x.v z y.v)) (mulF (y.d k) (balF y.v z x.v))⟩
  max x y := let z := maxF x.v y.v
    ⟨z, fun k => addF (mulF (x.d k) (balF x.v z y.v)) (mulF (y.d k) (balF y.v z x.v))⟩
  sel c x y := if c then x else y
  maxOf n f := let z := maxOfF n fun t => (f t).v
    ⟨z, chooserF n f z⟩

section programs

variable {α : Type} (J : FNum α)

/-- `jnp.where(x >= 0, x, 0)`. -/
def gPos (x : α) : α := J.sel (geF (J.val x)) x (J.const 0)

/-- `_normal_el_asperity_loading`, _asperity_functions.py:45-57: `fn` and `a`. -/
def gEl (Re Estar : ℝ) (un : α) : α × α :=
  let pos := gPos J un
  let a := J.sqrt (J.mul (J.const (2*Re)) (J.div pos (J.const 2)))
  let a := J.sel (gtF (J.val un) 0) a (J.const 0)
  (J.mul (J.const (4*(2*Estar)*Real.sqrt (2*Re)/3)) (J.pow 1.5 (J.div pos (J.const 2))), a)

open Classical in
/-- Contact radius of plastic loading, _asperity_functions.py:94-126. -/
def gPlRadius (m : Mat) (un : α) : α :=
  let pos := gPos J un
  let ae := J.sqrt (J.mul (J.const (2*m.Re)) (J.div pos (J.const 2)))
  let B := 0.14*Real.exp (23*m.Sys/(2*m.Estar))
  let x := J.div pos (J.const m.dy)
  let ap := J.mul (J.const ((2*m.Re)*(Real.pi*m.C*m.Sys/(2*2*m.Estar))))
    (J.sqrt (J.mul x (J.pow B (J.div x (J.const 1.9)))))
  let Upsilon := if m.Etan / m.Emod < 1/2^52 then J.const 0 else
    J.div (J.mul (J.const (-2*Real.sqrt (m.Emod/m.Sys))) (J.cpow (m.Etan/m.Emod)
        (J.sub (J.const 1) (J.div (J.div (J.sub pos (J.const m.dy)) (J.const 2)) (J.const (m.Re*2))))))
      (J.const ((4 - 3*Real.exp (-2*Real.sqrt (m.Emod/m.Sys)*m.Etan/m.Emod))*(1 - m.Etan/m.Emod)))
  J.add ae (J.mul (J.sub ap ae) (J.exp Upsilon))

/-- `_normal_pl_asperity_loading`, _asperity_functions.py:92-151: `fn` and `a`. -/
def gPl (m : Mat) (un : α) : α × α :=
  let pos := gPos J un
  let a := gPlRadius J m un
  let HSys := J.sub (J.const 2.84) (J.mul (J.const 0.92)
    (J.sub (J.const 1) (J.cos (J.div (J.mul (J.const Real.pi) a) (J.const (2*m.Re))))))
  let Fc := 4/3*(2*m.Re/(2*m.Estar))^2*(m.C*Real.pi*m.Sys/2)^3
  let Fe := J.mul (J.const (4*(2*m.Estar)*Real.sqrt (2*m.Re)/3)) (J.pow 1.5 (J.div un (J.const 2)))
  let x := J.div pos (J.const m.dy)
  let Fp := J.mul (J.const Fc) (J.add
    (J.mul (J.exp (J.mul (J.const (-0.25)) (J.pow (5/12) x))) (J.pow 1.5 x))
    (J.mul (J.mul (J.div (J.mul (J.const 4) HSys) (J.const m.C))
      (J.sub (J.const 1) (J.exp (J.mul (J.const (-1/25)) (J.pow (5/9) x))))) x))
  (J.add Fp (J.mul (J.sub Fe Fp) (J.const (1 - Real.exp (-3.3*m.Etan/m.Emod)))), a)

/-- `_normal_asperity_unloading`, _asperity_functions.py:177-196: `fn` and `a`. -/
def gUnl (Re Estar : ℝ) (un deltam Fm : α) : α × α :=
  let deltabar := J.mul deltam (J.sub (J.const 1)
    (J.div Fm (J.mul (J.const (4/3*Estar*Real.sqrt Re)) (J.pow 1.5 deltam))))
  let pos := gPos J (J.sub un deltabar)
  let posm := gPos J (J.sub deltam deltabar)
  let Rebar := J.div (J.mul Fm Fm) (J.mul (J.const ((4/3*Estar)^2)) (J.mul (J.mul posm posm) posm))
  let a := J.sel (gtF (J.val pos) 0) (J.sqrt (J.mul Rebar pos)) (J.const 0)
  let fn := J.sel (gtF (J.val pos) 0)
    (J.mul (J.mul (J.const (4/3*Estar)) (J.sqrt Rebar)) (J.pow 1.5 pos)) (J.const 0)
  (fn, a)

/-- `_normal_asperity_general`, _asperity_functions.py:228-260: `fn` and `a`. -/
def gGeneral (m : Mat) (un deltam Fm : α) : α × α :=
  let el := gEl J m.Re m.Estar un
  let pl := gPl J m un
  let pu := gUnl J m.Re m.Estar un deltam Fm
  let elastic := ltF (J.val un) (1.9*m.dy) ∧ ltF (J.val deltam) (1.9*m.dy)
  let yielding := gtFF (J.val un) (J.val deltam) ∧ gtF (J.val un) (1.9*m.dy)
  (J.sel yielding pl.1 (J.sel elastic el.1 pu.1), J.sel yielding pl.2 (J.sel elastic el.2 pu.2))

/-- One entry of `_tangential_asperity`, _asperity_functions.py:286-299. -/
def gTan (Gstar mu : ℝ) (u u0 f0 fn a : α) : α :=
  let kt := J.mul (J.const (8*Gstar)) a
  let fxy := J.add (J.mul kt (J.sub u u0)) f0
  let fs := J.mul (J.const mu) fn
  J.max (J.min fxy fs) (J.mul (J.const (-1)) fs)

/-- `gap_weights @ f`. -/
def gWeighted (weights : ℕ → ℝ) (f : ℕ → α) : ℕ → α
  | 0 => J.const 0
  | n + 1 => J.add (gWeighted weights f n) (J.mul (J.const (weights n)) (f n))

/-- Interference of an asperity: `u - meso_gap - gaps`. -/
def gGap (g : Asperities) (u : α) (k : ℕ) : α := J.sub (J.sub u (J.const g.meso)) (J.const (g.gaps k))

/-- The force of `_static_force`, rough_contact.py:722-763; `uxyn` is traced, the history is constant. -/
def gStaticRough (m : Mat) (g : Asperities) (unmax : α) (Fm : ℕ → α) (uxyn0 : ℕ → α) (fxy0 : ℕ → ℕ → α) (mu : ℝ)
    (u : ℕ → α) (d : ℕ) : α :=
  let o := fun k => gGeneral J m (gGap J g (u 2) k) (gGap J g unmax k) (Fm k)
  if d < 2 then gWeighted J g.weights (fun k => gTan J m.Gstar mu (u d) (uxyn0 d) (fxy0 k d) (o k).1 (o k).2) g.nasp
  else gWeighted J g.weights (fun k => (o k).1) g.nasp

/-- The changing entries of `history`. -/
structure GHist (α : Type) where
  ft : ℕ → ℕ → α
  uxyn0 : ℕ → α
  fxy0 : ℕ → ℕ → α

/-- `_local_loop_body`, rough_contact.py:848-887. -/
def gRoughBody (m : Mat) (g : Asperities) (u : ℕ → ℕ → α) (mu : ℝ) (deltam Fm : ℕ → α) (H : GHist α) (ind : ℕ) :
    GHist α :=
  let o := fun k => gUnl J m.Re m.Estar (gGap J g (u ind 2) k) (deltam k) (Fm k)
  let fxy := fun k d => gTan J m.Gstar mu (u ind d) (H.uxyn0 d) (H.fxy0 k d) (o k).1 (o k).2
  ⟨setRow H.ft ind (fun d => if d < 2 then gWeighted J g.weights (fun k => fxy k d) g.nasp
      else gWeighted J g.weights (fun k => (o k).1) g.nasp), u ind, fxy⟩

/-- `_local_force_history`, rough_contact.py:936-983, from the maximum `unmax` on. -/
def gRoughFrom (m : Mat) (g : Asperities) (Nt : ℕ) (u : ℕ → ℕ → α) (unmax : α) (u0 : ℕ → α) (mu : ℝ) (repeats : ℕ) :
    ℕ → ℕ → α :=
  let deltam := gGap J g unmax
  let Fm := fun k => (gGeneral J m (deltam k) (J.const (0 - g.meso - g.gaps k)) (J.const 0)).1
  ((List.range repeats).foldl (fun H _ => foriLoop (gRoughBody J m g u mu deltam Fm) Nt H)
    ⟨fun _ _ => J.const 0, u0, fun _ _ => J.const 0⟩).ft

/-- `_local_force_history`, rough_contact.py:930-983. -/
def gRoughHistory (m : Mat) (g : Asperities) (Nt : ℕ) (u : ℕ → ℕ → α) (u0 : ℕ → α) (mu : ℝ) (repeats : ℕ) :
    ℕ → ℕ → α :=
  gRoughFrom J m g Nt u (J.maxOf Nt fun t => u t 2) u0 mu repeats

end programs

/-- A pair of numbers as a pair that is not NaN. -/
def FDual.of (x : Dual) : FDual := ⟨some x.v, fun k => some (x.d k)⟩

/-- Back again; 0 stands for NaN, as in `PForce.rough`. -/
def FDual.real (x : FDual) : Dual := ⟨x.v.getD 0, fun k => (x.d k).getD 0⟩

/-- Pairs with constants. -/
def FDual.const (x : Flt) : FDual := ⟨x, fun _ => some 0⟩

/-- History of `_local_aft`, rough_contact.py:1023-1032, on pairs; `u0` is an attribute, not traced. -/
def roughHistGrad (m : Mat) (g : Asperities) (mu : ℝ) (u0 : ℕ → ℝ) (Nt : ℕ) (u : ℕ → ℕ → Dual) (t d : ℕ) : FDual :=
  gRoughHistory fdualNum m g Nt (fun j d => FDual.of (u j d)) (fun d => FDual.const (some (u0 d))) mu 2 t d

/-- `aft` of `RoughContactFriction` with derivatives, rough_contact.py:583-664, 990-1056. -/
def roughAftGrad (N : ℕ) (Q T : ℕ → ℕ → ℝ) (m : Mat) (g : Asperities) (mu : ℝ) (u0 : ℕ → ℝ) :
    (ℕ → ℝ) → List ℕ → ℕ → Except Err AftOut :=
  jaxAftGrad N 3 Q T fun Nt u _ t d => (roughHistGrad m g mu u0 Nt u t d).real

/-- Local forces of `force` and their derivatives (`_static_force_grad`), rough_contact.py:404-417, 766-792. -/
def roughForceLocal (m : Mat) (g : Asperities) (o : RoughObj) (u : ℕ → ℝ) (d : ℕ) : FDual :=
  gStaticRough fdualNum m g (FDual.const (some o.unmax)) (fun k => FDual.const (o.Fm k))
    (fun d => FDual.const (some (o.uxyn0 d))) (fun k d => FDual.const (o.fxy0 k d)) o.mu
    (fun d => ⟨some (u d), fun k => some (eye k d)⟩) d

/-- `T @ dfnldunl @ Q` in `force`, rough_contact.py:424-426, for finite derivatives. -/
def roughForceGrad (N : ℕ) (Q T : ℕ → ℕ → ℝ) (m : Mat) (g : Asperities) (o : RoughObj) (X : ℕ → ℝ) :
    (ℕ → ℝ) × (ℕ → ℕ → ℝ) :=
  let f := fun d => (roughForceLocal m g o (matVec N Q X) d).real
  (matVec 3 T fun d => (f d).v, matMul 3 (matMul 3 T fun d k => (f d).d k) Q)

end

end TMD
