import Verif.Model.System
import Verif.Spec.Gradient

/-! # Specification: when the derivatives of a harmonic force are the true ones -/

namespace TMD.Spec

/-- `A U w` returns its true derivatives at `Z = (U, w)`: for every `i < L` the row `(dU i, dw i)` is the
gradient of `F i` with respect to the `L + 1` entries of `Z` (joint Fréchet derivative). -/
def JointTrue (A : (ℕ → ℝ) → ℝ → AftOut) (L : ℕ) (Z : ℕ → ℝ) : Prop :=
  ∀ i < L, HasGrad (L + 1) (fun Z => (A (sl 0 L Z) (Z L)).F i)
    (fun j => if j < L then (A (sl 0 L Z) (Z L)).dU i j else (A (sl 0 L Z) (Z L)).dw i) Z

/-- `A` is the amplitude (largest absolute value over all times) of `f`. -/
def IsAmplitude (f : ℝ → ℝ) (A : ℝ) : Prop := (∀ t, |f t| ≤ A) ∧ ∃ t, |f t| = A

/-- Forcing in which every harmonic except the static one is multiplied by `a`. -/
def scaledForcing (nd : ℕ) (h : List ℕ) (Fl : ℕ → ℝ) (a : ℝ) (i : ℕ) : ℝ :=
  if 0 ∈ h ∧ i < nd then Fl i else a * Fl i

/-- Forcing with the static part of `Fl`, first-harmonic cosine part `a f₁` and sine part `b f₁` with `f₁` the
cosine coefficients of the first nonzero harmonic in `Fl`; nothing on other harmonics. -/
def phaseForcing (nd : ℕ) (h : List ℕ) (Fl : ℕ → ℝ) (a b : ℝ) (i : ℕ) : ℝ :=
  let s := if 0 ∈ h then nd else 0
  if i < s then Fl i else if i < s + nd then a * Fl i else if i < s + 2 * nd then b * Fl (i - nd) else 0

/-- `R Z` returns its true derivatives at `Z`: the `m` rows `(J i, d i)` with `J` of `n` columns form the
Jacobian of the residual with respect to all `n + 1` entries of `Z`. -/
def ResTrue (R : (ℕ → ℝ) → ResOut) (m n : ℕ) (Z : ℕ → ℝ) : Prop :=
  ∃ J d, (R Z).grad = some (J, d) ∧
    HasJac m (n + 1) (fun Z => (R Z).R) (fun i j => if j < n then J i j else d i) Z

end TMD.Spec
