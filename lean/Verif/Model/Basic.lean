import Mathlib.Data.Real.Basic
import Mathlib.Algebra.BigOperators.Group.Finset.Basic

/-!
# Common conventions of the model

* NumPy arrays are total functions from natural-number indices (the shape is tracked
  separately, by an explicit size wherever the code depends on it).
* Python exceptions are values of `Except Err`.
-/

namespace TMD

/-- Python exceptions raised by the modelled code. -/
inductive Err where
  /-- `assert` failed -/
  | assertion
  /-- `IndexError` -/
  | index
  /-- `TypeError` -/
  | type
  /-- `ValueError` -/
  | value
  /-- `NameError` / `UnboundLocalError` -/
  | name
  /-- `AttributeError` -/
  | attribute
  /-- `KeyError` -/
  | key
  /-- `ZeroDivisionError` -/
  | zeroDiv
  deriving DecidableEq, Repr

/-- NumPy slice assignment `E[r0:r1, c0:c1] = B` on a matrix stored as a function. -/
def setBlock (E : ℕ → ℕ → ℝ) (r0 r1 c0 c1 : ℕ) (B : ℕ → ℕ → ℝ) : ℕ → ℕ → ℝ :=
  fun i j => if (r0 ≤ i ∧ i < r1) ∧ (c0 ≤ j ∧ j < c1) then B (i - r0) (j - c0) else E i j

/-- NumPy slice assignment `x[a:b] = v` on a vector. -/
def setSlice {α : Type} (x : ℕ → α) (a b : ℕ) (v : ℕ → α) : ℕ → α :=
  fun i => if a ≤ i ∧ i < b then v (i - a) else x i

/-- NumPy row assignment `x[r] = v`. -/
def setRow {α : Type} (x : ℕ → α) (r : ℕ) (v : α) : ℕ → α :=
  fun i => if i = r then v else x i

/-- NumPy `A @ B` for a left factor with `n` columns. -/
def matMul {ι : Type} (n : ℕ) (A : ℕ → ℕ → ℝ) (B : ℕ → ι → ℝ) : ℕ → ι → ℝ :=
  fun i j => ∑ k ∈ Finset.range n, A i k * B k j

/-- NumPy `A @ v` for `A` with `n` columns. -/
def matVec (n : ℕ) (A : ℕ → ℕ → ℝ) (v : ℕ → ℝ) : ℕ → ℝ :=
  fun i => ∑ k ∈ Finset.range n, A i k * v k

/-- NumPy `v @ w` for vectors of length `n`. -/
def vdot (n : ℕ) (v w : ℕ → ℝ) : ℝ := ∑ k ∈ Finset.range n, v k * w k

/-- `numpy.linalg.matrix_power(A, p)` for an `n × n` matrix (mathematical definition). -/
def matPow (n : ℕ) (A : ℕ → ℕ → ℝ) : ℕ → ℕ → ℕ → ℝ
  | 0 => fun i j => if i = j then 1 else 0
  | p + 1 => matMul n A (matPow n A p)

end TMD
