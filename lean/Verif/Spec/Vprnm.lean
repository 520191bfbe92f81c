import Verif.Spec.Fourier
import Mathlib.Analysis.SpecialFunctions.Sqrt
import Mathlib.Algebra.BigOperators.Group.Finset.Basic

/-! # Specification: phase between superharmonic response and excitation -/

namespace TMD.Spec

open Finset

noncomputable section

/-- Cosine of the angle between two vectors of length `m`. -/
def cosAngle (m : ℕ) (F X : ℕ → ℝ) : ℝ :=
  (∑ i ∈ range m, F i * X i) / (Real.sqrt (∑ i ∈ range m, X i * X i) * Real.sqrt (∑ i ∈ range m, F i * F i))

/-- Cosine coefficients of harmonic `m` of all `nd` degrees of freedom, then the sine coefficients. -/
def superPart (nd : ℕ) (h : List ℕ) (m : ℕ) (V : ℕ → ℝ) (i : ℕ) : ℝ :=
  if i < nd then (coefOf h (fun r => V (r * nd + i)) m).1 else (coefOf h (fun r => V (r * nd + (i - nd))) m).2

/-- Cosine and sine parts multiplied by a filter matrix of `nf` rows (no change without filter). -/
def modalPart (nd : ℕ) (filt : Option (ℕ × (ℕ → ℕ → ℝ))) (v : ℕ → ℝ) (i : ℕ) : ℝ :=
  match filt with
  | none => v i
  | some (nf, Φ) => if i < nf then ∑ e ∈ range nd, Φ i e * v e else ∑ e ∈ range nd, Φ (i - nf) e * v (nd + e)

/-- Number of entries after filtering. -/
def modalRows (nd : ℕ) (filt : Option (ℕ × (ℕ → ℕ → ℝ))) : ℕ :=
  match filt with
  | none => 2 * nd
  | some (nf, _) => 2 * nf

/-- The coefficients of the motion without the harmonics `m` and above (`h` increasing). -/
def lowMotion (nd : ℕ) (h : List ℕ) (m : ℕ) (U : ℕ → ℝ) (k : ℕ) : ℝ :=
  if k < numCoeff (h.filter (fun j => j < m)) * nd then U k else 0

end

end TMD.Spec
