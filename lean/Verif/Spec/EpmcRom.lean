import Verif.Spec.Fourier
import Mathlib.Analysis.SpecialFunctions.Complex.Arg

/-! # Specification of the single nonlinear mode model

Harmonic 1 of a real signal `c cos τ + s sin τ` has the complex amplitude `c - i s`. -/

namespace TMD.Spec

noncomputable section

/-- Complex amplitude of harmonic 1 in degree of freedom `d`. -/
def firstHarmonic (h : List ℕ) (Ndof : ℕ) (U : ℕ → ℝ) (d : ℕ) : ℂ :=
  ⟨(coefOf h (fun r => U (r * Ndof + d)) 1).1, -(coefOf h (fun r => U (r * Ndof + d)) 1).2⟩

/-- The modal force: Hermitian product of mode shape and force at harmonic 1. -/
def modalForce (h : List ℕ) (Ndof : ℕ) (phi F : ℕ → ℝ) : ℂ :=
  ∑ d ∈ Finset.range Ndof, (starRingEnd ℂ) (firstHarmonic h Ndof phi d) * firstHarmonic h Ndof F d

/-- Dynamic stiffness of a mode with frequency `w` and damping ratio `z` at forcing frequency `Om`. -/
def modalStiffness (w z Om : ℝ) : ℂ := ((w ^ 2 - Om ^ 2 : ℝ) : ℂ) + ((2 * z * w * Om : ℝ) : ℂ) * Complex.I

end

end TMD.Spec
