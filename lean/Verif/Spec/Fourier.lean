import Mathlib.Analysis.SpecialFunctions.Trigonometric.Basic
import Mathlib.Analysis.SpecialFunctions.Trigonometric.Deriv
import Mathlib.Analysis.Calculus.IteratedDeriv.Defs

/-!
# Specification: truncated Fourier series

The mathematical meaning of a list of harmonic coefficients, independent of the index
arithmetic of the program.
-/

namespace TMD.Spec

noncomputable section

/-- `series h c τ`: the trigonometric polynomial with harmonics `h` and coefficients
`c 0, c 1, …` consumed from the left: one (mean) coefficient for harmonic 0, a cosine and a
sine coefficient for every other harmonic. -/
def series : List ℕ → (ℕ → ℝ) → ℝ → ℝ
  | [], _, _ => 0
  | k :: hs, c, τ =>
    if k = 0 then c 0 + series hs (fun i => c (i + 1)) τ
    else c 0 * Real.cos (k * τ) + c 1 * Real.sin (k * τ) + series hs (fun i => c (i + 2)) τ

/-- Number of coefficients of a list of harmonics. -/
def numCoeff : List ℕ → ℕ
  | [] => 0
  | k :: hs => (if k = 0 then 1 else 2) + numCoeff hs

/-- The (cosine, sine) coefficients that the coefficient sequence `c` over the list of harmonics
`h` gives to harmonic `m`; `(mean, 0)` for `m = 0`; `(0, 0)` if `m` is not listed. -/
def coefOf : List ℕ → (ℕ → ℝ) → ℕ → ℝ × ℝ
  | [], _, _ => (0, 0)
  | k :: hs, c, m =>
    if k = m then (if k = 0 then (c 0, 0) else (c 0, c 1))
    else coefOf hs (fun i => c (i + (if k = 0 then 1 else 2))) m

/-- Discrete Fourier coefficients (cosine, sine) of harmonic `k` of `N` samples `x`; `(mean, 0)` for
harmonic 0. -/
def dft (N : ℕ) (x : ℕ → ℝ) (k : ℕ) : ℝ × ℝ :=
  if k = 0 then ((∑ j ∈ Finset.range N, x j) / N, 0)
  else (2 / N * ∑ j ∈ Finset.range N, x j * Real.cos (k * (2 * Real.pi * j / N)),
        2 / N * ∑ j ∈ Finset.range N, x j * Real.sin (k * (2 * Real.pi * j / N)))

/-- `h` is an admissible list of harmonics: not empty, no repeats, harmonic 0 (if present)
first. -/
structure Admissible (h : List ℕ) : Prop where
  ne : h ≠ []
  nodup : h.Nodup
  zero_first : 0 ∉ h.tail

end

end TMD.Spec
