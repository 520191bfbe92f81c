import Mathlib.Analysis.Calculus.FDeriv.Basic
import Mathlib.Topology.Algebra.Module.FiniteDimension
import Mathlib.LinearAlgebra.Matrix.ToLin

/-! # Jacobian matrices as true derivatives -/

namespace TMD.Spec

/-- `J` is the Jacobian matrix of `g` at `x`: the Fréchet derivative of `g` at `x` is `v ↦ J v`. -/
def IsJacobian {n m : ℕ} (g : (Fin n → ℝ) → (Fin m → ℝ)) (J : Matrix (Fin m) (Fin n) ℝ) (x : Fin n → ℝ) : Prop :=
  HasFDerivAt g (LinearMap.toContinuousLinearMap J.mulVecLin) x

end TMD.Spec
