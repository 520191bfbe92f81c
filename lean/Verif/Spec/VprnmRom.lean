import Verif.Spec.EpmcRom
import Mathlib.Analysis.SpecialFunctions.Pow.Real

/-! # Specification of the reduced order model of a superharmonic resonance -/

namespace TMD.Spec

noncomputable section

/-- The signal without its mean. -/
def oscillation (h : List ℕ) (c : ℕ → ℝ) (τ : ℝ) : ℝ := series h c τ - (coefOf h c 0).1

/-- Complex amplitude `c - i s` of harmonic `k` of the displacement `ctrl · U`. -/
def pointHarmonic (h : List ℕ) (Ndof : ℕ) (ctrl U : ℕ → ℝ) (k : ℕ) : ℂ :=
  ∑ d ∈ Finset.range Ndof, (ctrl d : ℂ) *
    ⟨(coefOf h (fun r => U (r * Ndof + d)) k).1, -(coefOf h (fun r => U (r * Ndof + d)) k).2⟩

/-- Two harmonics have the same phase. -/
def InPhase (z v : ℂ) : Prop := (‖v‖ : ℂ) * z = (‖z‖ : ℂ) * v

/-- The backbone with linear instead of logarithmic amplitudes (column `n + 2`). -/
def ampTable (n : ℕ) (bb : ℕ → ℕ → ℝ) : ℕ → ℕ → ℝ := fun k i => if i = n + 2 then (10 : ℝ) ^ bb k i else bb k i

/-- Amplitude of the control point at harmonic 1 of row `k` of a backbone. -/
def rowAmp (h : List ℕ) (Ndof : ℕ) (ctrl : ℕ → ℝ) (bb : ℕ → ℕ → ℝ) (k : ℕ) : ℝ :=
  ‖pointHarmonic h Ndof ctrl (bb k) 1‖ * (10 : ℝ) ^ bb k (numCoeff h * Ndof + 2)

/-- The modes of the superharmonic response: mode shape, frequency, damping ratio, amplitude. They are the interpolated
point `pR` and the rows of the backbone with smaller amplitude. Frequencies are scaled so that the interpolated mode has
frequency `wv`. -/
def SuperRow (n Mr : ℕ) (bbR : ℕ → ℕ → ℝ) (pR : ℕ → ℝ) (wv : ℝ) (shape : ℕ → ℝ) (w z q : ℝ) : Prop :=
  (shape = pR ∧ w = wv ∧ z = pR (n + 1) / (2 * pR n) ∧ q = pR (n + 2)) ∨
    ∃ k < Mr, shape = bbR k ∧ w = bbR k n * (wv / pR n) ∧ z = bbR k (n + 1) / (2 * bbR k n) ∧
      q = (10 : ℝ) ^ bbR k (n + 2) ∧ q < pR (n + 2)

end

end TMD.Spec
