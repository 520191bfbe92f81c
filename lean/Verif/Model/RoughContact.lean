import Verif.Model.Jenkins
import Mathlib.Analysis.SpecialFunctions.Pow.Real
import Mathlib.Analysis.SpecialFunctions.Trigonometric.Basic

/-!
# Model of `tmdsimpy/jax/nlforces/roughcontact`

The tangential model is `'TAN'`; the Mindlin-Iwan fit `'MIF'` is not modelled, nor are the gradients, which
JAX derives. Numbers are real, with `none` for a value that is not finite (NaN): it appears in
`_normal_asperity_unloading` for an asperity that was never in contact, where the code relies on comparisons
with NaN being false.
-/

namespace TMD

noncomputable section

/-- A floating-point value; `none` is NaN. -/
abbrev Flt := Option ℝ

/-- What the normal contact functions return: `fn`, `a`, `deltabar`, `Rebar`. -/
structure AspOut where
  fn : Flt
  a : Flt
  deltabar : Flt
  Rebar : Flt

/-- `jnp.where(x >= 0, x, 0)`. -/
def posPart (x : ℝ) : ℝ := if 0 ≤ x then x else 0

/-- `jnp.where(x >= 0, x, 0)` when `x` may be NaN. -/
def posPartF : Flt → ℝ
  | some x => posPart x
  | none => 0

/-- `_normal_el_asperity_loading`, _asperity_functions.py:45-57. -/
def elLoading (un Re Estar : ℝ) : AspOut :=
  let pos := posPart un
  let a := Real.sqrt ((2*Re) * (pos/2))
  let a := if 0 < un then a else 0
  ⟨some (4*(2*Estar)*Real.sqrt (2*Re)/3*(pos/2)^(1.5 : ℝ)), some a, some 0, some Re⟩

/-- Material data: `Re`, `Possion`, `Estar`, `Emod`, `Etan`, `delta_y`, `Sys`, `Gstar`. -/
structure Mat where
  Re : ℝ
  nu : ℝ
  Estar : ℝ
  Emod : ℝ
  Etan : ℝ
  dy : ℝ
  Sys : ℝ
  Gstar : ℝ

/-- `C`, _asperity_functions.py:92. -/
def Mat.C (m : Mat) : ℝ := 1.295 * Real.exp (0.736 * m.nu)

/-- `RoughContactFriction.__init__`, rough_contact.py:141-162: the derived constants. -/
def Mat.new (E nu R Et S : ℝ) : Mat :=
  let Estar := E / 2 / (1 - nu^2)
  let shear := E / 2 / (1 + nu)
  let C := 1.295 * Real.exp (0.736 * nu)
  let dy1 := (Real.pi*C*S/(2*(2*Estar)))^2*(2*R)
  { Re := R, nu := nu, Estar := Estar, Emod := E, Etan := Et, dy := dy1*2, Sys := S
    Gstar := shear / 2 / (2 - nu) }

/-- Contact radius of plastic loading, _asperity_functions.py:94-126; `np.finfo(float).eps` is `2^(-52)`. For
`Etan = Emod` the code divides by zero (giving `-inf`, radius `ae`), the model does not. -/
def Mat.plRadius (m : Mat) (un : ℝ) : ℝ :=
  let pos := posPart un
  let ae := Real.sqrt ((2*m.Re)*(pos/2))
  let B := 0.14*Real.exp (23*m.Sys/(2*m.Estar))
  let ap := (2*m.Re)*(Real.pi*m.C*m.Sys/(2*2*m.Estar))*Real.sqrt (pos/m.dy * ((pos/m.dy)/1.9)^B)
  let Upsilon := if m.Etan / m.Emod < 1/2^52 then 0 else
    -2*Real.sqrt (m.Emod/m.Sys)*(m.Etan/m.Emod)^(1 - ((pos-m.dy)/2)/(m.Re*2))
      / ((4 - 3*Real.exp (-2*Real.sqrt (m.Emod/m.Sys)*m.Etan/m.Emod))*(1 - m.Etan/m.Emod))
  ae + (ap - ae)*Real.exp Upsilon

/-- `_normal_pl_asperity_loading`, _asperity_functions.py:92-151. For `un < 0` the power in `Fe` is NaN. -/
def plLoading (m : Mat) (un : ℝ) : AspOut :=
  let pos := posPart un
  let a := m.plRadius un
  let HSys := 2.84 - 0.92*(1 - Real.cos (Real.pi*a/(2*m.Re)))
  let Fc := 4/3*(2*m.Re/(2*m.Estar))^2*(m.C*Real.pi*m.Sys/2)^3
  let Fe := 4*(2*m.Estar)*Real.sqrt (2*m.Re)/3*(un/2)^(1.5 : ℝ)
  let Fp := Fc*(Real.exp (-0.25*(pos/m.dy)^(5/12 : ℝ))*(pos/m.dy)^(1.5 : ℝ)
    + 4*HSys/m.C*(1-Real.exp (-1/25*(pos/m.dy)^(5/9 : ℝ)))*(pos/m.dy))
  let fn := Fp + (Fe - Fp)*(1 - Real.exp (-3.3*m.Etan/m.Emod))
  ⟨if un < 0 then none else some fn, some a, some 0, some m.Re⟩

/-- `_normal_asperity_unloading`, _asperity_functions.py:177-196. For `deltam < 0` the power is NaN, for
`deltam = 0` the value is `0*(1 - Fm/0)`, NaN as well. `Rebar` is not finite when `deltam - deltabar` is not
positive. -/
def unloading (un deltam : ℝ) (Fm : Flt) (Re Estar : ℝ) : AspOut :=
  let deltabar : Flt := match Fm with
    | none => none
    | some F => if 0 < deltam then some (deltam*(1 - F/(4/3*Estar*Real.sqrt Re*deltam^(1.5 : ℝ)))) else none
  let pos := posPartF (deltabar.map fun d => un - d)
  let posm := posPartF (deltabar.map fun d => deltam - d)
  let Rebar : Flt := match Fm with
    | none => none
    | some F => if posm = 0 then none else some (F^2/((4/3*Estar)^2 * posm^3))
  let a := if 0 < pos then Rebar.map fun R => Real.sqrt (R*pos) else some 0
  let fn := if 0 < pos then Rebar.map fun R => 4/3*Estar*Real.sqrt R*pos^(1.5 : ℝ) else some 0
  ⟨fn, a, deltabar, Rebar⟩

open Classical in
/-- `_normal_asperity_general`, _asperity_functions.py:228-260. -/
def general (m : Mat) (un deltam : ℝ) (Fm : Flt) : AspOut :=
  let elastic := un < 1.9*m.dy ∧ deltam < 1.9*m.dy
  let o := if elastic then elLoading un m.Re m.Estar else unloading un deltam Fm m.Re m.Estar
  let yielding := deltam < un ∧ 1.9*m.dy < un
  if yielding then plLoading m un else o

/-- One entry of `_tangential_asperity`, _asperity_functions.py:286-299. -/
def tangentialAsp (u u0 : ℝ) (f0 fn a : Flt) (Gstar mu : ℝ) : Flt :=
  match f0, fn, a with
  | some f0, some fn, some a =>
    let fxy := 8*Gstar*a*(u - u0) + f0
    let fs := mu*fn
    let fxy := min fxy fs
    some (max fxy (-fs))
  | _, _, _ => none

/-- `gap_weights @ f` over the asperities: NaN if any entry is. -/
def weighted (weights : ℕ → ℝ) (f : ℕ → Flt) : ℕ → Flt
  | 0 => some 0
  | n + 1 =>
    match weighted weights f n, f n with
    | some s, some x => some (s + weights n * x)
    | _, _ => none

/-- Geometry of the interface: `meso_gap`, number of asperities, `gaps`, `gap_weights`. -/
structure Asperities where
  meso : ℝ
  nasp : ℕ
  gaps : ℕ → ℝ
  weights : ℕ → ℝ

/-- The changing entries of the tuple `history`: total forces `fxyn_t[t, d]`, previous displacement and previous
tangential forces of each asperity. -/
structure RoughHist where
  ft : ℕ → ℕ → Flt
  uxyn0 : ℕ → ℝ
  fxy0 : ℕ → ℕ → Flt

/-- `_local_loop_body`, rough_contact.py:848-887; `deltam` and `Fm` are the constant entries of `history`. -/
def roughBody (m : Mat) (g : Asperities) (u : ℕ → ℕ → ℝ) (mu : ℝ) (deltam : ℕ → ℝ) (Fm : ℕ → Flt)
    (H : RoughHist) (ind : ℕ) : RoughHist :=
  let o := fun k => unloading (u ind 2 - g.meso - g.gaps k) (deltam k) (Fm k) m.Re m.Estar
  let fxy := fun k d => tangentialAsp (u ind d) (H.uxyn0 d) (H.fxy0 k d) (o k).fn (o k).a m.Gstar mu
  ⟨setRow H.ft ind (fun d => if d < 2 then weighted g.weights (fun k => fxy k d) g.nasp
      else weighted g.weights (fun k => (o k).fn) g.nasp), u ind, fxy⟩

/-- `unlt[:, -1].max()` for `Nt ≥ 1` rows. -/
def unMax (Nt : ℕ) (u : ℕ → ℕ → ℝ) : ℝ := (List.range Nt).foldl (fun x t => max x (u t 2)) (u 0 2)

/-- `deltam` of each asperity in the cycle, rough_contact.py:934-943. -/
def cycleMax (Nt : ℕ) (g : Asperities) (u : ℕ → ℕ → ℝ) (k : ℕ) : ℝ := unMax Nt u - g.meso - g.gaps k

/-- Force at the maximum, rough_contact.py:936-946: loading from zero displacement and zero force. -/
def cycleFm (m : Mat) (Nt : ℕ) (g : Asperities) (u : ℕ → ℕ → ℝ) (k : ℕ) : Flt :=
  (general m (cycleMax Nt g u k) (0 - g.meso - g.gaps k) (some 0)).fn

/-- `_local_force_history`, rough_contact.py:930-983: total force history after `repeats` cycles. -/
def roughHistory (m : Mat) (g : Asperities) (Nt : ℕ) (u : ℕ → ℕ → ℝ) (u0 : ℕ → ℝ) (mu : ℝ) (repeats : ℕ) :
    ℕ → ℕ → Flt :=
  ((List.range repeats).foldl
    (fun H _ => foriLoop (roughBody m g u mu (cycleMax Nt g u) (cycleFm m Nt g u)) Nt H)
    ⟨fun _ _ => some 0, u0, fun _ _ => some 0⟩).ft

/-! ## Static evaluation -/

/-- The attributes `unmax`, `Fm_prev`, `uxyn0`, `fxy0`, `mu`, `real_mu`, `prestress_mu`. -/
structure RoughObj where
  unmax : ℝ
  Fm : ℕ → Flt
  uxyn0 : ℕ → ℝ
  fxy0 : ℕ → ℕ → Flt
  mu : ℝ
  realMu : ℝ
  prestressMu : ℝ

/-- `init_history`, rough_contact.py:253-260. -/
def RoughObj.initHistory (o : RoughObj) : RoughObj :=
  { o with unmax := 0, Fm := fun _ => some 0, uxyn0 := fun _ => 0, fxy0 := fun _ _ => some 0 }

/-- The object after `__init__`, rough_contact.py:145-147 and 215. -/
def RoughObj.new (mu : ℝ) : RoughObj := RoughObj.initHistory ⟨0, fun _ => some 0, fun _ => 0, fun _ _ => some 0, mu, mu, 0⟩

/-- `set_prestress_mu`, rough_contact.py:317. -/
def RoughObj.setPrestressMu (o : RoughObj) : RoughObj := { o with mu := o.prestressMu }

/-- `reset_real_mu`, rough_contact.py:330. -/
def RoughObj.resetRealMu (o : RoughObj) : RoughObj := { o with mu := o.realMu }

/-- `jnp.maximum`. -/
def maxF : Flt → Flt → Flt
  | some x, some y => some (max x y)
  | _, _ => none

/-- Output of `_static_force` read by `force`: `fxyn`, `Fm_prev`, `fxy_curr`. -/
structure RoughStatic where
  fxyn : ℕ → Flt
  Fm : ℕ → Flt
  fxy : ℕ → ℕ → Flt

/-- `_static_force`, rough_contact.py:722-763. -/
def staticRough (m : Mat) (g : Asperities) (o : RoughObj) (u : ℕ → ℝ) : RoughStatic :=
  let a := fun k => general m (u 2 - g.meso - g.gaps k) (o.unmax - g.meso - g.gaps k) (o.Fm k)
  let fxy := fun k d => tangentialAsp (u d) (o.uxyn0 d) (o.fxy0 k d) (a k).fn (a k).a m.Gstar o.mu
  ⟨fun d => if d < 2 then weighted g.weights (fun k => fxy k d) g.nasp
      else weighted g.weights (fun k => (a k).fn) g.nasp,
   fun k => maxF (a k).fn (o.Fm k), fxy⟩

/-- Local part of `force` with `update_history`, rough_contact.py:300-304, 404-437: local forces and the object. -/
def RoughObj.force (m : Mat) (g : Asperities) (o : RoughObj) (u : ℕ → ℝ) (updateHist : Bool) :
    (ℕ → Flt) × RoughObj :=
  let s := staticRough m g o u
  (s.fxyn, if updateHist then
    { o with unmax := max (u 2) o.unmax, Fm := s.Fm, fxy0 := s.fxy, uxyn0 := u } else o)

end

end TMD
