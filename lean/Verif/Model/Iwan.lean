import Verif.Model.Jenkins
import Mathlib.Analysis.SpecialFunctions.Pow.Real

/-!
# `Iwan4Force` (`nlforces/iwan4_element.py`)

One local nonlinear DOF (asserted by the constructor, line 126).
-/

namespace TMD

noncomputable section

open Classical

/-- Attributes of an `Iwan4Force` object that do not change after construction. Sliders have indices
`0 … nSliders` (the last one is the single slider of strength `phimax`). -/
structure Iwan where
  kt : ℝ
  Fs : ℝ
  chi : ℝ
  beta : ℝ
  nSliders : ℕ
  phimax : ℝ
  R : ℝ
  S : ℝ
  phi : ℕ → ℝ
  weight : ℕ → ℝ

/-- `self.phimax`, `iwan4_element.py:92-93`. -/
def iwanPhimax (kt Fs chi beta : ℝ) : ℝ :=
  Fs * (1 + beta) / kt / (beta + (chi + 1) / (chi + 2))

/-- `R`, `iwan4_element.py:95-96` and `115-116` (the same value). -/
def iwanR (kt Fs chi beta : ℝ) : ℝ :=
  Fs * (chi + 1) / ((iwanPhimax kt Fs chi beta) ^ (chi + 2) * (beta + (chi + 1) / (chi + 2)))

/-- `S`, `iwan4_element.py:98-99` and `119-120` (the same value). -/
def iwanS (kt Fs chi beta : ℝ) : ℝ :=
  Fs * beta / ((iwanPhimax kt Fs chi beta) * (beta + (chi + 1) / (chi + 2)))

/-- `deltaphi1`, `iwan4_element.py:103-106`. -/
def iwanDelta1 (phimax : ℝ) (nSliders : ℕ) (alpha : ℝ) : ℝ :=
  if alpha > 1 then phimax * (alpha - 1) / (alpha ^ nSliders - 1) else phimax / nSliders

/-- `delta_phis[k] = deltaphi1 * alphasliders**k`, `iwan4_element.py:108`. -/
def iwanDelta (phimax : ℝ) (nSliders : ℕ) (alpha : ℝ) (k : ℕ) : ℝ :=
  iwanDelta1 phimax nSliders alpha * alpha ^ k

/-- `phisliders`, `iwan4_element.py:110-111`: midpoints `cumsum(delta) - delta/2`, then `phimax`. -/
def iwanPhi (phimax : ℝ) (nSliders : ℕ) (alpha : ℝ) (k : ℕ) : ℝ :=
  if k < nSliders then
    (∑ j ∈ Finset.range (k + 1), iwanDelta phimax nSliders alpha j) - iwanDelta phimax nSliders alpha k * 0.5
  else phimax

/-- `sliderweights`, `iwan4_element.py:122-124`. -/
def iwanWeight (kt Fs chi beta : ℝ) (nSliders : ℕ) (alpha : ℝ) (k : ℕ) : ℝ :=
  if k < nSliders then
    iwanR kt Fs chi beta * (iwanPhi (iwanPhimax kt Fs chi beta) nSliders alpha k) ^ chi
      * iwanDelta (iwanPhimax kt Fs chi beta) nSliders alpha k
  else iwanS kt Fs chi beta

/-- `Iwan4Force.__init__`, `iwan4_element.py:82-128`. -/
def Iwan.new (kt Fs chi beta : ℝ) (nSliders : ℕ) (alpha : ℝ) : Iwan :=
  { kt := kt, Fs := Fs, chi := chi, beta := beta, nSliders := nSliders
    phimax := iwanPhimax kt Fs chi beta
    R := iwanR kt Fs chi beta
    S := iwanS kt Fs chi beta
    phi := iwanPhi (iwanPhimax kt Fs chi beta) nSliders alpha
    weight := iwanWeight kt Fs chi beta nSliders alpha }

/-- One slider of `instant_force`, `iwan4_element.py:272-280`: stuck value, or the strength with the
sign of the stuck value when `|stuck| <= phi` fails. -/
def iwanSlider (phi x : ℝ) : ℝ := if |x| ≤ phi then x else phi * Real.sign x

/-- `dfnlsliders_dunl`, `iwan4_element.py:275`. -/
def iwanStuck (phi x : ℝ) : ℝ := if |x| ≤ phi then 1 else 0

/-- History attributes: `up`, `fp`, `fpsliders`, `dupduh`, `dfpslidersduh`. -/
structure IHist (ι : Type) where
  up : ℝ
  fp : ℝ
  fps : ℕ → ℝ
  dup : ι → ℝ
  dfps : ℕ → ι → ℝ

/-- `Iwan4Force.instant_force`, `iwan4_element.py:272-296`: total force, its derivative, slider
forces. -/
def iwanInstant (w : Iwan) (up : ℝ) (fps : ℕ → ℝ) (unl : ℝ) : ℝ × ℝ × (ℕ → ℝ) :=
  let fs := fun k => iwanSlider (w.phi k) (unl - up + fps k)
  (∑ k ∈ Finset.range (w.nSliders + 1), fs k * w.weight k,
   ∑ k ∈ Finset.range (w.nSliders + 1), iwanStuck (w.phi k) (unl - up + fps k) * w.weight k,
   fs)

/-- `Iwan4Force.instant_force_harmonic` with `update_prev=True`, `iwan4_element.py:343-367`. -/
def iwanStep {ι : Type} (w : Iwan) (s : IHist ι) (unl : ℝ) (cst : ι → ℝ) : IHist ι × ℝ × (ι → ℝ) :=
  let o := iwanInstant w s.up s.fps unl
  let dfs := fun k i => iwanStuck (w.phi k) (unl - s.up + s.fps k) * (cst i - s.dup i)
    + iwanStuck (w.phi k) (unl - s.up + s.fps k) * s.dfps k i
  let dfduh := fun i => ∑ k ∈ Finset.range (w.nSliders + 1), dfs k i * w.weight k
  (⟨unl, o.1, o.2.2, cst, dfs⟩, o.1, dfduh)

/-- `Iwan4Force` seen by `local_force_history`; `init` is `init_history_harmonic`,
`iwan4_element.py:193-203`. -/
def iwanOps {ι : Type} (w : Iwan) (e0 : ι → ℝ) : HystOps (IHist ι) ι :=
  { init := fun unlth0 => ⟨unlth0, 0, fun _ => 0, e0, fun _ _ => 0⟩
    fp := fun s => s.fp
    step := iwanStep w }

/-- Static use of the element: state `(up, fpsliders)` after `init_history`
(`iwan4_element.py:168-171`) and the displacements passed to `force(X, update_hist)`
(`iwan4_element.py:226-240`) with their update flags; returns the local forces. -/
def iwanRun (w : Iwan) : ℝ × (ℕ → ℝ) → List (ℝ × Bool) → List ℝ × (ℝ × (ℕ → ℝ))
  | s, [] => ([], s)
  | s, (u, upd) :: rest =>
    let o := iwanInstant w s.1 s.2 u
    let q := iwanRun w (if upd then (u, o.2.2) else s) rest
    (o.1 :: q.1, q.2)

/-! ## `VectorIwan4.local_force_history` (`nlforces/vector_iwan4.py`) -/

/-- `Iwan4Force` seen by `VectorIwan4.local_force_history_crit` (`vector_iwan4.py:149-196`), a copy of
`local_force_history` that also stores, per instant, the slider forces `fsliders` and their
derivatives `dfslidersduh`. The extra outputs are extra columns of the row: `inl i` is `dfduh`,
`inr (inl k)` is `fsliders[k]`, `inr (inr (k, i))` is `dfslidersduh[k, i]`. -/
def iwanCritOps {ι : Type} (w : Iwan) (e0 : ι → ℝ) : HystOps (IHist ι) (ι ⊕ ℕ ⊕ (ℕ × ι)) :=
  { init := fun unlth0 => ⟨unlth0, 0, fun _ => 0, e0, fun _ _ => 0⟩
    fp := fun s => s.fp
    step := fun s u c =>
      let r := iwanStep w s u (fun i => c (.inl i))
      (r.1, r.2.1, Sum.elim r.2.2 (Sum.elim r.1.fps (fun p => r.1.dfps p.1 p.2))) }

/-- One filled instant, `vector_iwan4.py:331-360`: all sliders evaluated from the stored slider state
`prev` of the critical instant `start - 1`. -/
def iwanFillEntry {ι : Type} (w : Iwan) (u : ℕ → ℝ) (cst : ℕ → ι → ℝ) (start : ℕ)
    (prev : ℝ × (ι ⊕ ℕ ⊕ (ℕ × ι) → ℝ)) (i : ℕ) : ℝ × (ι → ℝ) :=
  let x := fun k => (u i - u (start - 1)) + prev.2 (.inr (.inl k))
  (∑ k ∈ Finset.range (w.nSliders + 1), iwanSlider (w.phi k) (x k) * w.weight k,
   fun j => ∑ k ∈ Finset.range (w.nSliders + 1),
     (iwanStuck (w.phi k) (x k) * (cst i j - cst (start - 1) j)
       + iwanStuck (w.phi k) (x k) * prev.2 (.inr (.inr (k, j)))) * w.weight k)

/-- The loop over critical points, `vector_iwan4.py:315-360`; the rows of the critical instants are
taken by position (`fsliders_crit[i, :]`). -/
def iwanFillLoop {ι : Type} (w : Iwan) (Nt : ℕ) (u : ℕ → ℝ) (cst : ℕ → ι → ℝ) :
    List ℕ → List (ℝ × (ι ⊕ ℕ ⊕ (ℕ × ι) → ℝ)) → (ℕ → ℝ × (ι → ℝ)) → (ℕ → ℝ × (ι → ℝ))
  | a :: b :: rest, r :: rs, ft =>
    let start := a + 1
    let stop := b + Nt * (if b = 0 then 1 else 0)
    let ft' := if stop > start then
        fun i => if start ≤ i ∧ i < stop then iwanFillEntry w u cst start r i else ft i
      else ft
    iwanFillLoop w Nt u cst (b :: rest) rs ft'
  | _, _, ft => ft

/-- `VectorIwan4.local_force_history`, `vector_iwan4.py:270-362`. -/
def vectorIwanHistory {ι : Type} (w : Iwan) (e0 : ι → ℝ) (Nt : ℕ) (u : ℕ → ℝ)
    (cst : ℕ → ι → ℝ) (unlth0 eps : ℝ) : Except Err ((ℕ → ℝ × (ι → ℝ)) × ℕ) :=
  let crit := critInds Nt u
  match localForceHistory (iwanCritOps w e0) (crit.map fun i => (u i, Sum.elim (cst i) fun _ => 0)) unlth0 2
      (1 / 10 ^ 10) (1 / 10 ^ 10) eps with
  | .error e => .error e
  | .ok (rows, its) =>
    let ft := scatterCrit crit (rows.map fun r => (r.1, fun i => r.2 (.inl i))) (fun _ => (0, fun _ => 0))
    .ok (iwanFillLoop w Nt u cst (crit ++ [crit.headD 0]) rows ft, its)

end

end TMD
