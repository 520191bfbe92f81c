import Mathlib.Analysis.Calculus.FDeriv.Basic
import Mathlib.Topology.Algebra.Module.FiniteDimension
import Mathlib.Analysis.Normed.Group.Constructions

/-! # True gradients and Jacobians of functions of arrays

Arrays are functions `ℕ → ℝ`; the first `n` entries are the unknowns. -/

namespace TMD.Spec

noncomputable section

/-- A perturbation of the first `n` entries. -/
def ext {n : ℕ} (v : Fin n → ℝ) : ℕ → ℝ := fun i => if h : i < n then v ⟨i, h⟩ else 0

/-- The row vector `g 0, …, g (n-1)` as a linear functional. -/
def row (n : ℕ) (g : ℕ → ℝ) : (Fin n → ℝ) →L[ℝ] ℝ :=
  ∑ j : Fin n, g j • ContinuousLinearMap.proj (R := ℝ) (φ := fun _ : Fin n => ℝ) j

/-- `g` is the gradient of `f` at `x` with respect to the first `n` entries (Fréchet derivative). -/
def HasGrad (n : ℕ) (f : (ℕ → ℝ) → ℝ) (g : ℕ → ℝ) (x : ℕ → ℝ) : Prop :=
  HasFDerivAt (fun v : Fin n → ℝ => f (fun i => x i + ext v i)) (row n g) 0

/-- `J` (rows `< m`, columns `< n`) is the Jacobian of `F` at `x` with respect to the first `n`
entries: every component of `F` has the corresponding row of `J` as its gradient. -/
def HasJac (m n : ℕ) (F : (ℕ → ℝ) → ℕ → ℝ) (J : ℕ → ℕ → ℝ) (x : ℕ → ℝ) : Prop :=
  ∀ i < m, HasGrad n (fun X => F X i) (J i) x

end

end TMD.Spec
