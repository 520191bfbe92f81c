import Mathlib.Data.Real.Basic

/-!
# Specification: an elastic spring in series with a Coulomb slider

Independent of the code: the force is the elastic prediction, limited to `[-L, L]`.
-/

namespace TMD.Spec

noncomputable section

/-- Limit a value to `[-L, L]`. -/
def clip (L x : ℝ) : ℝ := max (-L) (min x L)

/-- Force history of a slider with stiffness `kt` and friction limits `L i`, driven by
displacements `u 0, u 1, …` from the state (`up`, `fp`). -/
def slider (kt : ℝ) (L : ℕ → ℝ) (u : ℕ → ℝ) (up fp : ℝ) : ℕ → ℝ
  | 0 => clip (L 0) (kt * (u 0 - up) + fp)
  | i + 1 => clip (L (i + 1)) (kt * (u (i + 1) - u i) + slider kt L u up fp i)

/-- Elastic prediction of the slider before it is limited. -/
def sliderTrial (kt : ℝ) (L : ℕ → ℝ) (u : ℕ → ℝ) (up fp : ℝ) : ℕ → ℝ
  | 0 => kt * (u 0 - up) + fp
  | i + 1 => kt * (u (i + 1) - u i) + slider kt L u up fp i

/-- State (displacement, force) of a slider after a list of displacements. -/
def sliderAfter (kt L : ℝ) (s : ℝ × ℝ) (us : List ℝ) : ℝ × ℝ :=
  us.foldl (fun s u => (u, clip L (kt * (u - s.1) + s.2))) s

/-- A periodic signal given by one period of `N` samples. -/
def periodic {α : Type} (N : ℕ) (u : ℕ → α) : ℕ → α := fun i => u (i % N)

/-- One period `f 0 … f (N-1)` is a steady state: every sample follows from the previous one,
the first one from the last. -/
def SteadyState (N : ℕ) (kt : ℝ) (L : ℕ → ℝ) (u : ℕ → ℝ) (f : ℕ → ℝ) : Prop :=
  ∀ i < N, f i = clip (L i) (kt * (u i - u ((i + N - 1) % N)) + f ((i + N - 1) % N))

end

end TMD.Spec
