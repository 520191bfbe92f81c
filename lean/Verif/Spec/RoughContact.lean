import Verif.Spec.Slider
import Mathlib.Analysis.SpecialFunctions.Pow.Real
import Mathlib.Algebra.BigOperators.Group.Finset.Basic

/-!
# Specification of contact of a single asperity

Independent of the code: Hertzian contact of a sphere, and a Coulomb slider whose stiffness and friction limit
change in time.
-/

namespace TMD.Spec

noncomputable section

/-- Hertzian force of a sphere of radius `R` and modulus `E` at penetration `x`. -/
def hertz (R E x : ℝ) : ℝ := if 0 < x then 4 / 3 * E * Real.sqrt R * x ^ (3 / 2 : ℝ) else 0

/-- Force history of a slider with stiffness `k i` and friction limit `L i` at instant `i`, driven by `u 0, u 1, …`
from the state (`up`, `fp`). -/
def vslider (k L u : ℕ → ℝ) (up fp : ℝ) : ℕ → ℝ
  | 0 => clip (L 0) (k 0 * (u 0 - up) + fp)
  | i + 1 => clip (L (i + 1)) (k (i + 1) * (u (i + 1) - u i) + vslider k L u up fp i)

/-- Force of the slider at instant `i` before the limit is applied. -/
def vtrial (k L u : ℕ → ℝ) (up fp : ℝ) : ℕ → ℝ
  | 0 => k 0 * (u 0 - up) + fp
  | i + 1 => k (i + 1) * (u (i + 1) - u i) + vslider k L u up fp i

/-- Force change over one period of `N` samples if the slider stays stuck. -/
def cycleDrift (N : ℕ) (k u : ℕ → ℝ) : ℝ := ∑ i ∈ Finset.range N, k i * (u i - u ((i + N - 1) % N))

end

end TMD.Spec
