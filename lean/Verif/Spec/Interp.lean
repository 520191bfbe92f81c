import Mathlib.Analysis.Calculus.Deriv.Basic

/-! # Specification of interpolation of sampled curves -/

namespace TMD

/-- `r` is the piecewise linear interpolation at `v` of the rows `X 0, ..., X (n-1)` at `ref 0, ..., ref (n-1)`:
undefined outside of the range, the row itself at a reference value, and on the segment between neighbours
otherwise. -/
structure LinearAt (n : ℕ) (ref : ℕ → ℝ) (X : ℕ → ℕ → ℝ) (v : ℝ) (r : Option (ℕ → ℝ)) : Prop where
  left : v < ref 0 → r = none
  right : ref (n - 1) < v → r = none
  node : ∀ k < n, v = ref k → r = some (X k)
  segment : ∀ k, k + 1 < n → ref k ≤ v → v ≤ ref (k + 1) → ∃ row, r = some row ∧
    ∀ c, (ref (k + 1) - ref k) * row c = (ref (k + 1) - v) * X k c + (v - ref k) * X (k + 1) c

/-- `p` is a polynomial of degree at most three. -/
def IsCubic (p : ℝ → ℝ) : Prop := ∃ a b c e : ℝ, ∀ v, p v = a * v ^ 3 + b * v ^ 2 + c * v + e

end TMD
