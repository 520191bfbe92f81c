import Verif.Spec.Gradient
import Mathlib.Analysis.Calculus.Deriv.Basic
import Mathlib.Analysis.Complex.Basic
import Mathlib.Analysis.SpecialFunctions.Trigonometric.Basic

/-! # Periodic motions of a forced mechanical system -/

namespace TMD.Spec

open Set Finset

noncomputable section

/-- `u` (with velocity `v`) satisfies `M u'' + C u' + K u + f(u) = Fc cos(w t) + Fs sin(w t)` for all times, has the
period `2π/w` of the forcing, and starts in the state `(U, V)`. `Fl` holds `Fc` and then `Fs`. -/
structure PeriodicMotion (N : ℕ) (M C K : ℕ → ℕ → ℝ) (f : (ℕ → ℝ) → ℕ → ℝ) (Fl : ℕ → ℝ) (w : ℝ) (U V : ℕ → ℝ)
    (u v : ℝ → ℕ → ℝ) : Prop where
  velocity : ∀ t, ∀ i < N, HasDerivAt (fun t => u t i) (v t i) t
  motion : ∀ t, ∃ acc : ℕ → ℝ, (∀ i < N, HasDerivAt (fun t => v t i) (acc i) t) ∧
    ∀ i < N, ∑ j ∈ range N, (M i j * acc j + C i j * v t j + K i j * u t j) + f (u t) i
      = Fl i * Real.cos (w * t) + Fl (N + i) * Real.sin (w * t)
  period : ∀ t, ∀ i < N, u (t + 2 * Real.pi / w) i = u t i ∧ v (t + 2 * Real.pi / w) i = v t i
  start : ∀ i < N, u 0 i = U i ∧ v 0 i = V i

/-- `f` is a continuously differentiable function of the first `n` entries with the Jacobian `J`. -/
structure SmoothLaw (n : ℕ) (f : (ℕ → ℝ) → ℕ → ℝ) (J : (ℕ → ℝ) → ℕ → ℕ → ℝ) : Prop where
  local_f : ∀ a b : ℕ → ℝ, (∀ i < n, a i = b i) → f a = f b
  local_J : ∀ a b : ℕ → ℝ, (∀ i < n, a i = b i) → J a = J b
  jac : ∀ x, HasJac n n f (J x) x
  cont : ∀ i < n, ∀ j < n, Continuous fun v : Fin n → ℝ => J (ext v) i j

/-- `u` (with velocity `v`) satisfies the forced equation of motion on the time interval `s`. -/
structure Motion (N : ℕ) (M C K : ℕ → ℕ → ℝ) (f : (ℕ → ℝ) → ℕ → ℝ) (Fl : ℕ → ℝ) (w : ℝ) (s : Set ℝ)
    (u v : ℝ → ℕ → ℝ) : Prop where
  velocity : ∀ t ∈ s, ∀ i < N, HasDerivWithinAt (fun t => u t i) (v t i) s t
  motion : ∀ t ∈ s, ∃ acc : ℕ → ℝ, (∀ i < N, HasDerivWithinAt (fun t => v t i) (acc i) s t) ∧
    ∀ i < N, ∑ j ∈ range N, (M i j * acc j + C i j * v t j + K i j * u t j) + f (u t) i
      = Fl i * Real.cos (w * t) + Fl (N + i) * Real.sin (w * t)

/-- Motions that start within `δ` of the state `(U, V)` approach it geometrically, seen once per period. -/
def Attracting (N : ℕ) (M C K : ℕ → ℕ → ℝ) (f : (ℕ → ℝ) → ℕ → ℝ) (Fl : ℕ → ℝ) (w : ℝ) (U V : ℕ → ℝ) : Prop :=
  ∃ B ρ δ : ℝ, 0 < δ ∧ 0 ≤ ρ ∧ ρ < 1 ∧ ∀ u v, Motion N M C K f Fl w (Ici 0) u v → ∀ e, 0 ≤ e → e < δ →
    (∀ i < N, |u 0 i - U i| ≤ e ∧ |v 0 i - V i| ≤ e) → ∀ n : ℕ, ∀ i < N,
      |u (n * (2 * Real.pi / w)) i - U i| ≤ B * ρ ^ n * e ∧ |v (n * (2 * Real.pi / w)) i - V i| ≤ B * ρ ^ n * e

/-- `l` is an eigenvalue of the leading `n × n` part of the real matrix `A`. -/
def Eigen (n : ℕ) (A : ℕ → ℕ → ℝ) (l : ℂ) : Prop :=
  ∃ v : ℕ → ℂ, (∃ i < n, v i ≠ 0) ∧ ∀ i < n, ∑ j ∈ range n, (A i j : ℂ) * v j = l * v i

/-- Contract of `np.abs(np.linalg.eigvals(A))`. -/
def EigAbs (eigAbs : ℕ → (ℕ → ℕ → ℝ) → ℕ → ℝ) : Prop :=
  ∀ n A, (∀ i < n, ∃ l, Eigen n A l ∧ ‖l‖ = eigAbs n A i) ∧ ∀ l, Eigen n A l → ∃ i < n, ‖l‖ = eigAbs n A i

end

end TMD.Spec
