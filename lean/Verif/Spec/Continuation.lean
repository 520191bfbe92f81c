import Mathlib.Data.Real.Basic
import Mathlib.Algebra.BigOperators.Group.Finset.Basic

/-! # Notions of path following

Points are `(X, lam)` with `N+1` entries, `lam` last. -/

namespace TMD.Spec

/-- Weighted inner product of the arc length: weight `c` on the first `N` entries, `b` on the last. -/
def wdot (N : ℕ) (b c : ℝ) (x y : ℕ → ℝ) : ℝ :=
  c * (∑ i ∈ Finset.range N, x i * y i) + b * (x N * y N)

/-- `lam` has not yet reached `lam1`, travelling from `lam0`. -/
def Ahead (lam0 lam1 lam : ℝ) : Prop := (lam0 < lam1 ∧ lam < lam1) ∨ (lam1 < lam0 ∧ lam1 < lam)

/-- `lam` is less than `s` behind the start, travelling from `lam0` to `lam1`; no limit for `none`. -/
def NotBehind (lam0 lam1 : ℝ) (s : Option ℝ) (lam : ℝ) : Prop :=
  ∀ x ∈ s, (lam0 < lam1 ∧ lam0 - x < lam) ∨ (lam1 < lam0 ∧ lam < lam0 + x)

end TMD.Spec
