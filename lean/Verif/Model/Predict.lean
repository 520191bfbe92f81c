import Verif.Model.System
import Mathlib.Analysis.SpecialFunctions.Complex.Arg

/-!
# Model of `predict_harmonic_solution` (tmdsimpy/utils/harmonic.py)

The residuals of `Model/System` take vectors in the layout that this function returns. `none` stands for a result with
infinite or NaN entries (division by a zero amplitude). The eigenvalue routine of the solver is a parameter, as in
`linearFrf`. NumPy shape errors for an `h` without a nonzero harmonic are not modelled.
-/

namespace TMD

noncomputable section

/-- `equation.upper()`. -/
inductive PredEq
  | hbm | hbmAmp | hbmAmpPhase | vprnmAmpPhase | other
  deriving DecidableEq

/-- The optional arguments, harmonic.py:398-405; `none` for `None`. -/
structure PredArgs where
  Xstat : Option (ℕ → ℝ) := none
  fmag : Option ℝ := none
  amp : Option ℝ := none
  recov : Option (ℕ → ℝ) := none
  order : Option ℕ := none
  rhi : Option ℕ := none
  neigs : ℕ := 3
  nl : Option VibSys := none
  calcGrad : Bool := true

/-- `predict_harmonic_solution` for `'HBM'` without a static displacement, which is also the inner call of lines 645-648:
lines 533-560. -/
def predictHbm (S : VibSys) (w : ℝ) (Fl : ℕ → ℝ) (h : List ℕ) (nhc : ℕ) (eigs : ℕ → (ℕ → ℝ) × (ℕ → ℕ → ℝ)) (fmag : ℝ)
    (neigs : ℕ) : Except Err (ℕ → ℝ) :=
  let nd := S.nd
  let h0 := zi h
  match linearFrf S w (fun i => fmag * sl (h0 * nd) ((1 + h0) * nd) Fl i) eigs neigs
      (some fun i => fmag * sl ((h0 + 1) * nd) ((2 + h0) * nd) Fl i) with
  | .error e => .error e
  | .ok X => .ok (setRow (setSlice (fun _ => 0) (h0 * nd) ((2 + h0) * nd) X) (nhc * nd) w)

/-- `predict_harmonic_solution`, harmonic.py:527-652. `Nt` and `tol` are the defaults of `total_aft`. -/
def predictHarmonic (S : VibSys) (w : ℝ) (Fl : ℕ → ℝ) (h : List ℕ) (eigs : ℕ → (ℕ → ℝ) × (ℕ → ℕ → ℝ)) (eqn : PredEq)
    (p : PredArgs) (Nt : ℕ := 128) (tol : ℝ := 1e-7) : Except Err (Option (ℕ → ℝ)) :=
  match Nhc h with
  | .error e => .error e
  | .ok nhc =>
    if h = [] then .error .index else
    let nd := S.nd
    let n := nhc * nd
    let h0 := zi h
    let setStat := fun (U : ℕ → ℝ) => match p.Xstat with
      | some X => if h0 = 1 then setSlice U 0 nd X else U
      | none => U
    match eqn with
    | .hbm =>
      match p.fmag with
      | none => .error .type
      | some fmag =>
        match predictHbm S w Fl h nhc eigs fmag p.neigs with
        | .error e => .error e
        | .ok U => .ok (some (setStat U))
    | .other =>
      match predictHbm S w Fl h nhc eigs 1 p.neigs with
      | .error e => .error e
      | .ok _ => .error .name
    | _ =>
      open Classical in
      if eqn ≠ .hbmAmp ∧ ∑ d ∈ Finset.range nd, |Fl ((h0 + 1) * nd + d)| ≠ 0 then .error .assertion
      else
        match linearFrf S w (fun i => 1 * sl (h0 * nd) ((1 + h0) * nd) Fl i) eigs p.neigs
            (some fun i => 1 * sl ((h0 + 1) * nd) ((2 + h0) * nd) Fl i) with
        | .error e => .error e
        | .ok X =>
          match p.recov, p.order, p.amp with
          | some recov, some order, some amp =>
            let ampCos := vdot nd recov X
            let ampSin := vdot nd recov (fun d => X (nd + d))
            let linAmp := Real.sqrt (ampCos ^ 2 + ampSin ^ 2) * w ^ order
            if linAmp = 0 then .ok none
            else
              let f0 := amp / linAmp
              let X := fun i => X i * f0
              let phase := Complex.arg ⟨ampCos, ampSin⟩
              let Xrot : ℕ → ℝ := fun i => if i < nd then Real.cos phase * X i + Real.sin phase * X (nd + i)
                else -Real.sin phase * X (i - nd) + Real.cos phase * X i
              let Fc := Real.cos phase * f0
              let Fs := -Real.sin phase * f0
              let U0 : ℕ → ℝ := fun _ => 0
              match eqn with
              | .hbmAmp =>
                let U := setSlice U0 (h0 * nd) ((2 + h0) * nd) X
                .ok (some (setStat (setRow (setRow U n f0) (n + 1) w)))
              | .hbmAmpPhase =>
                let U := setSlice U0 (h0 * nd) ((2 + h0) * nd) Xrot
                .ok (some (setStat (setRow (setRow (setRow U n Fc) (n + 1) Fs) (n + 2) w)))
              | _ =>
                let U := setSlice U0 (h0 * nd) ((2 + h0) * nd) Xrot
                let U := setStat (setRow (setRow (setRow (setRow U n Fc) (n + 1) Fs) (n + 2) w) (n + 3) amp)
                match p.nl with
                | none => .error .attribute
                | some N =>
                  match totalAft N (sl 0 n U) w h Nt tol p.calcGrad with
                  | .error e => .error e
                  | .ok F =>
                    match p.rhi with
                    | none => .error .type
                    | some rhi =>
                      match Nhc (h.filter fun k => k < rhi) with
                      | .error e => .error e
                      | .ok ri =>
                        let Fr := fun i => -sl (nd * ri) (nd * (ri + 2)) F.R i
                        match predictHbm S (rhi * w) Fr [1] 2 eigs 1 p.neigs with
                        | .error e => .error e
                        | .ok V => .ok (some (setSlice U (nd * ri) (nd * (ri + 2)) V))
          | _, _, _ => .error .type

end

end TMD
