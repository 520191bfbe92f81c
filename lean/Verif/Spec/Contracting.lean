import Verif.Spec.Motion

/-! # Exponential attraction -/

namespace TMD.Spec

open Finset Set

noncomputable section

/-- Every state within `δ` of `(U, V)` starts a motion that lasts for any number of periods, and after each of them the
distance from `(U, V)` has fallen geometrically. -/
def Contracting (N : ℕ) (M C K : ℕ → ℕ → ℝ) (f : (ℕ → ℝ) → ℕ → ℝ) (Fl : ℕ → ℝ) (w : ℝ) (U V : ℕ → ℝ) : Prop :=
  ∃ B ρ δ : ℝ, 0 < δ ∧ 0 ≤ ρ ∧ ρ < 1 ∧ ∀ U' V' : ℕ → ℝ, ∀ e, 0 ≤ e → e < δ → (∀ i < N, |U' i - U i| ≤ e ∧ |V' i - V i| ≤ e) →
    ∀ n : ℕ, ∃ u v, Motion N M C K f Fl w (Set.Icc 0 (n * (2 * Real.pi / w))) u v ∧ (∀ i < N, u 0 i = U' i ∧ v 0 i = V' i) ∧
      ∀ i < N, |u (n * (2 * Real.pi / w)) i - U i| ≤ B * ρ ^ n * e ∧ |v (n * (2 * Real.pi / w)) i - V i| ≤ B * ρ ^ n * e

end

end TMD.Spec
