import Verif.Model.Harmonic
import Verif.Model.Interp
import Mathlib.Analysis.SpecialFunctions.Complex.Arg
import Mathlib.Analysis.SpecialFunctions.Log.Base
import Mathlib.Analysis.SpecialFunctions.Pow.Real

/-!
# Model of `tmdsimpy/roms/epmc.py`

`bb k i` is entry `i` of row `k` of `epmc_bb`, which has `M` rows and `Nhc*Ndof + 3` columns. Optional numbers or
vectors are functions of the row (after broadcasting), `none` for `None`. Numbers are real; `np.arctan2(y, x)` is
`Complex.arg (x + i y)`.
-/

namespace TMD

noncomputable section

/-- A loop over rows. -/
def mapE {α β : Type} (f : α → Except Err β) : List α → Except Err (List β)
  | [] => .ok []
  | a :: l =>
    match f a with
    | .error e => .error e
    | .ok b =>
      match mapE f l with
      | .error e => .error e
      | .ok bs => .ok (b :: bs)

/-- Real part of the modal force, epmc.py:220, for one row `phi` of the backbone. -/
def modalForceRe (Ndof h0 : ℕ) (phi Fl : ℕ → ℝ) : ℝ :=
  (∑ d ∈ Finset.range Ndof, Fl (h0*Ndof + d) * phi (h0*Ndof + d)) +
    ∑ d ∈ Finset.range Ndof, Fl ((1+h0)*Ndof + d) * phi ((1+h0)*Ndof + d)

/-- Imaginary part, epmc.py:222. -/
def modalForceIm (Ndof h0 : ℕ) (phi Fl : ℕ → ℝ) : ℝ :=
  (∑ d ∈ Finset.range Ndof, Fl (h0*Ndof + d) * phi ((1+h0)*Ndof + d)) -
    ∑ d ∈ Finset.range Ndof, Fl ((1+h0)*Ndof + d) * phi (h0*Ndof + d)

/-- One point of the response before the flip: the row of `FRC_reconstruct`, modal amplitude, modal phase. -/
abbrev RomPoint := (ℕ → ℝ) × ℝ × ℝ

/-- The point for row `k` at forcing frequency `Om`, epmc.py:259-300. `n = Nhc*Ndof`. -/
def romPoint (n Ndof : ℕ) (h : List ℕ) (bb : ℕ → ℕ → ℝ) (w zeta PR PI q : ℕ → ℝ) (x : ℕ × ℝ) :
    Except Err RomPoint :=
  let k := x.1
  let Om := Real.sqrt x.2
  let re := PR k * (w k ^ 2 - Om ^ 2) + PI k * (2 * Om * w k * zeta k)
  let im := PR k * (2 * Om * w k * zeta k) - PI k * (w k ^ 2 - Om ^ 2)
  let phase := Complex.arg ⟨re, im⟩
  let U : ℕ → ℝ := fun i => if i < n then (if zi h * Ndof ≤ i then bb k i * q k else bb k i)
    else if i = n then Om else 0
  match rotateSubtractPhase U Ndof h phase 1 with
  | .error e => .error e
  | .ok V => .ok (V, q k, phase)

open Classical in
/-- The candidates `(row, Omega_sq)` that pass the mask, in order, epmc.py:232-257. -/
def romCandidates (M : ℕ) (w zeta PR PI q : ℕ → ℝ) : List (ℕ × ℝ) :=
  let phiF := fun k => Real.sqrt (PR k ^ 2 + PI k ^ 2)
  let p2 := fun k => w k ^ 2 - 2 * (zeta k * w k) ^ 2
  let arg := fun k => p2 k ^ 2 - w k ^ 4 + phiF k ^ 2 / q k ^ 2
  let root := fun k => Real.sqrt (if 0 ≤ arg k then arg k else 0)
  let all := (List.range M).map (fun k => (k, p2 k + root k)) ++
    (List.range M).reverse.map (fun k => (k, p2 k - root k))
  all.filter fun x => decide (0 < x.2 ∧ 0 ≤ arg x.1)

/-- `constant_force`, epmc.py:181-309. -/
def constantForce (M Ndof : ℕ) (h : List ℕ) (bb : ℕ → ℕ → ℝ) (Fl : Option (ℕ → ℝ))
    (w zeta PR PI : Option (ℕ → ℝ)) : Except Err (List RomPoint) :=
  match Nhc h with
  | .error e => .error e
  | .ok nhc =>
    if h = [] then .error .index
    else
      let n := nhc * Ndof
      let w' := w.getD fun k => bb k n
      let zeta' := zeta.getD fun k => bb k (n + 1) / (2 * w' k)
      let q := fun k => (10 : ℝ) ^ bb k (n + 2)
      if PR.isNone ≠ PI.isNone then .error .assertion
      else if PR.isNone = Fl.isNone then .error .assertion
      else
        let PR' := match Fl with
          | some F => fun k => modalForceRe Ndof (zi h) (bb k) F
          | none => PR.getD fun _ => 0
        let PI' := match Fl with
          | some F => fun k => modalForceIm Ndof (zi h) (bb k) F
          | none => PI.getD fun _ => 0
        match mapE (romPoint n Ndof h bb w' zeta' PR' PI' q) (romCandidates M w' zeta' PR' PI' q) with
        | .error e => .error e
        | .ok l => .ok l.reverse

/-- The copy of the backbone with linear amplitude and optional replacements, epmc.py:408-418. -/
def romTable (n : ℕ) (bb : ℕ → ℕ → ℝ) (w zeta : Option (ℕ → ℝ)) : ℕ → ℕ → ℝ :=
  let bb1 : ℕ → ℕ → ℝ := fun k i => if i = n + 2 then (10 : ℝ) ^ bb k i else bb k i
  let bb2 : ℕ → ℕ → ℝ := match w with
    | none => bb1
    | some w => fun k i => if i = n then w k else bb1 k i
  match zeta with
    | none => bb2
    | some z => fun k i => if i = n + 1 then bb2 k n * 2 * z k else bb2 k i

/-- `epmc_amp`, epmc.py:422-427: amplitude of the control point for row `k`. -/
def romAmp (Ndof n h0 : ℕ) (ctrl : ℕ → ℝ) (B : ℕ → ℕ → ℝ) (k : ℕ) : ℝ :=
  Real.sqrt ((∑ d ∈ Finset.range Ndof, B k (h0*Ndof + d) * ctrl d) ^ 2 +
    (∑ d ∈ Finset.range Ndof, B k ((h0+1)*Ndof + d) * ctrl d) ^ 2) * B k (n + 2)

/-- `constant_displacement`, epmc.py:404-466, with `Ndof` the length of `control_point`. The result is the force
magnitude as a function of `Omega` and the interpolated point; `none` for NaN. -/
def constantDisplacement (M Ndof n : ℕ) (h : List ℕ) (bb : ℕ → ℕ → ℝ) (Flcos ctrl : ℕ → ℝ) (amp : ℝ)
    (w zeta : Option (ℕ → ℝ)) : Except Err (Option ((ℝ → ℝ) × (ℕ → ℝ))) :=
  if h = [] then .error .index
  else
    let h0 := zi h
    let B := romTable n bb w zeta
    match linearInterp M (n + 2) B [amp] (some (M, romAmp Ndof n h0 ctrl B)) with
    | .error e => .error e
    | .ok [some pt] =>
      let q := pt (n + 2)
      let w := pt n
      let z := pt (n + 1) / (2 * w)
      let re := ∑ d ∈ Finset.range Ndof, pt (h0*Ndof + d) * Flcos d
      let im := -∑ d ∈ Finset.range Ndof, pt ((h0+1)*Ndof + d) * Flcos d
      let abs := Real.sqrt (re ^ 2 + im ^ 2)
      let p2 := w ^ 2 - 2 * (w * z) ^ 2
      .ok (some (fun Om => q * Real.sqrt (Om ^ 4 - 2 * Om ^ 2 * p2 + w ^ 4) / abs,
        fun i => if i = n + 2 then Real.logb 10 (pt i) else pt i))
    | .ok _ => .ok none

end

end TMD
