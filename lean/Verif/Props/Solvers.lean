import Verif.Model.Solvers
import Verif.Spec.Calculus
import Mathlib.Analysis.Calculus.FDeriv.Comp
import Mathlib.Analysis.Calculus.FDeriv.Add
import Mathlib.Analysis.Calculus.FDeriv.Linear
import Mathlib.LinearAlgebra.Matrix.NonsingularInverse
import Mathlib.Tactic.FinCases
import Mathlib.Tactic.NormNum
import Mathlib.Tactic.Ring
import Mathlib.Tactic.FieldSimp

/-!
# Properties C12–C14: conditioning, eigenvalue analysis, factored solves
-/

namespace TMD

open Spec

noncomputable section

/-! ## C12 -/

/-- All entries of a scaling are non-zero. -/
def Scale.NonZero {n : ℕ} : Scale n → Prop
  | .scalar r => r ≠ 0
  | .vector v => ∀ i, v i ≠ 0

/-- C12: roots of the conditioned residual are exactly the scaled roots of the physical one (non-zero
scalings, gradients requested or not). -/
theorem C12_roots {n : ℕ} (f : ResFun n) (CtoP : Fin n → ℝ) (RPtoC : Scale n) (hR : RPtoC.NonZero)
    (Xc : Fin n → ℝ) (g : Bool) :
    (conditioningWrapper f CtoP RPtoC Xc g).1 = 0 ↔ (f (fun i => CtoP i * Xc i) g).1 = 0 := by
  have hx : (fun i => Xc i * CtoP i) = fun i => CtoP i * Xc i := by funext i; ring
  have hm : ∀ R : Fin n → ℝ, RPtoC.mulVec R = 0 ↔ R = 0 := by
    intro R
    constructor
    · intro h
      funext i
      have := congrFun h i
      cases RPtoC with
      | scalar r => simpa [Scale.mulVec, show r ≠ 0 from hR] using this
      | vector v => simpa [Scale.mulVec, show v i ≠ 0 from hR i] using this
    · rintro rfl
      funext i
      cases RPtoC <;> simp [Scale.mulVec]
  cases g <;> simp [conditioningWrapper, conditionedFun, hx, hm]

/-- C12: with non-zero unknown scaling every physical point has a conditioned one. -/
theorem C12_onto {n : ℕ} (CtoP : Fin n → ℝ) (hC : ∀ i, CtoP i ≠ 0) (Xp : Fin n → ℝ) :
    ∃! Xc : Fin n → ℝ, (fun i => CtoP i * Xc i) = Xp := by
  refine ⟨fun i => Xp i / CtoP i, ?_, ?_⟩
  · funext i; have := hC i; field_simp
  · rintro Xc rfl
    funext i; have := hC i; field_simp

/-- Derivative of the conditioned residual for a per-equation scaling `v`. -/
theorem conditioned_deriv {n : ℕ} (R : (Fin n → ℝ) → (Fin n → ℝ)) (J : Matrix (Fin n) (Fin n) ℝ) (CtoP v Xc : Fin n → ℝ)
    (hJ : IsJacobian R J (fun i => Xc i * CtoP i)) :
    IsJacobian (fun X i => v i * R (fun i => X i * CtoP i) i) (fun i j => v i * J i j * CtoP j) Xc := by
  have h1 : IsJacobian (fun X : Fin n → ℝ => fun i => X i * CtoP i) (Matrix.diagonal CtoP) Xc := by
    unfold IsJacobian
    have e : (fun X : Fin n → ℝ => fun i => X i * CtoP i)
        = ⇑(LinearMap.toContinuousLinearMap (Matrix.diagonal CtoP).mulVecLin) := by
      funext X i
      simp [Matrix.mulVec_diagonal, mul_comm]
    rw [e]
    exact ContinuousLinearMap.hasFDerivAt _
  have h2 : ∀ y : Fin n → ℝ, IsJacobian (fun Y : Fin n → ℝ => fun i => v i * Y i) (Matrix.diagonal v) y := by
    intro y
    unfold IsJacobian
    have e : (fun Y : Fin n → ℝ => fun i => v i * Y i)
        = ⇑(LinearMap.toContinuousLinearMap (Matrix.diagonal v).mulVecLin) := by
      funext X i
      simp [Matrix.mulVec_diagonal]
    rw [e]
    exact ContinuousLinearMap.hasFDerivAt _
  unfold IsJacobian at hJ h1 h2
  have h12 := HasFDerivAt.comp (g := R) (f := fun X i => X i * CtoP i) Xc hJ h1
  have h3 := HasFDerivAt.comp (g := fun Y : Fin n → ℝ => fun i => v i * Y i) Xc (h2 _) h12
  unfold IsJacobian
  have e : (LinearMap.toContinuousLinearMap (Matrix.mulVecLin (fun i j => v i * J i j * CtoP j)))
      = (LinearMap.toContinuousLinearMap (Matrix.diagonal v).mulVecLin).comp
        ((LinearMap.toContinuousLinearMap J.mulVecLin).comp
          (LinearMap.toContinuousLinearMap (Matrix.diagonal CtoP).mulVecLin)) := by
    apply ContinuousLinearMap.ext
    intro x
    funext i
    show ∑ j, v i * J i j * CtoP j * x j
      = (Matrix.diagonal v).mulVec (J.mulVec ((Matrix.diagonal CtoP).mulVec x)) i
    rw [Matrix.mulVec_diagonal]
    show _ = v i * ∑ j, J i j * ((Matrix.diagonal CtoP).mulVec x) j
    rw [Finset.mul_sum]
    exact Finset.sum_congr rfl fun j _ => by rw [Matrix.mulVec_diagonal]; ring
  rw [e]
  exact h3

/-- Jacobian matrices are unique. -/
theorem IsJacobian.unique {n m : ℕ} {g : (Fin n → ℝ) → (Fin m → ℝ)} {J J' : Matrix (Fin m) (Fin n) ℝ} {x : Fin n → ℝ}
    (h : IsJacobian g J x) (h' : IsJacobian g J' x) : J = J' := by
  have e := HasFDerivAt.unique h h'
  ext i j
  have := congrFun (congrArg (fun l : (Fin n → ℝ) →L[ℝ] (Fin m → ℝ) => l (Pi.single j 1)) e) i
  simpa using this

/-- C12 (partial): for a scalar residual scaling the matrix handed to the solver is the true Jacobian of the
conditioned residual whenever the function returns its own. Missing: vector residual scalings
(`C12_jacobian_vector_iff`, `C12_violated`), which `Continuation` passes for its first solve. -/
theorem C12_jacobian_partial {n : ℕ} (f : ResFun n) (CtoP : Fin n → ℝ) (r : ℝ) (Xc : Fin n → ℝ)
    (hf : IsJacobian (fun X => (f X true).1) (f (fun i => Xc i * CtoP i) true).2 (fun i => Xc i * CtoP i)) :
    ∃ J, (conditioningWrapper f CtoP (.scalar r) Xc true).2 = some J ∧
      IsJacobian (fun X => (conditioningWrapper f CtoP (.scalar r) X true).1) J Xc :=
  ⟨_, rfl, conditioned_deriv (fun X => (f X true).1) _ CtoP (fun _ => r) Xc hf⟩

/-- C12: for a vector residual scaling (and non-zero unknown scaling) the returned matrix is the Jacobian
exactly when entries coupling equations and unknowns of different scaling vanish. -/
theorem C12_jacobian_vector_iff {n : ℕ} (f : ResFun n) (CtoP v : Fin n → ℝ) (hC : ∀ i, CtoP i ≠ 0) (Xc : Fin n → ℝ)
    (hf : IsJacobian (fun X => (f X true).1) (f (fun i => Xc i * CtoP i) true).2 (fun i => Xc i * CtoP i)) :
    (∃ J, (conditioningWrapper f CtoP (.vector v) Xc true).2 = some J ∧
      IsJacobian (fun X => (conditioningWrapper f CtoP (.vector v) X true).1) J Xc) ↔
    ∀ i j, (v i - v j) * (f (fun i => Xc i * CtoP i) true).2 i j = 0 := by
  have h := conditioned_deriv (fun X => (f X true).1) _ CtoP v Xc hf
  constructor
  · rintro ⟨J, hJ, hd⟩ i j
    have e : J = fun i j => v j * (f (fun i => Xc i * CtoP i) true).2 i j * CtoP j := (Option.some.inj hJ).symm
    have hu := IsJacobian.unique hd h
    rw [e] at hu
    have : v j * (f (fun i => Xc i * CtoP i) true).2 i j * CtoP j
      = v i * (f (fun i => Xc i * CtoP i) true).2 i j * CtoP j := congrFun (congrFun hu i) j
    have := mul_right_cancel₀ (hC j) this
    linear_combination -this
  · intro hz
    refine ⟨_, rfl, ?_⟩
    have e : (fun i j => v j * (f (fun i => Xc i * CtoP i) true).2 i j * CtoP j)
        = fun i j => v i * (f (fun i => Xc i * CtoP i) true).2 i j * CtoP j := by
      funext i j
      have := hz i j
      have h2 : v j * (f (fun i => Xc i * CtoP i) true).2 i j = v i * (f (fun i => Xc i * CtoP i) true).2 i j := by
        linear_combination -this
      rw [h2]
    have h' := h
    rw [← e] at h'
    exact h'

/-- C12 is false for vector scalings: for the linear residual `(x₀ + x₁, x₀ + x₁)` with scaling `(1, 2)` the
function returns its exact Jacobian but the wrapper does not. -/
theorem C12_violated : ∃ (f : ResFun 2) (v : Fin 2 → ℝ) (Xc : Fin 2 → ℝ),
    (∀ X, IsJacobian (fun X => (f X true).1) (f X true).2 X) ∧ (Scale.vector v).NonZero ∧
    ¬ ∃ J, (conditioningWrapper f (fun _ => 1) (.vector v) Xc true).2 = some J ∧
      IsJacobian (fun X => (conditioningWrapper f (fun _ => 1) (.vector v) X true).1) J Xc := by
  set f : ResFun 2 := fun X _ => ((Matrix.of fun _ _ => (1:ℝ)).mulVec X, Matrix.of fun _ _ => 1) with hf
  have hfd : ∀ X, IsJacobian (fun X => (f X true).1) (f X true).2 X := by
    intro X
    unfold IsJacobian
    have e : (fun X => (f X true).1)
        = ⇑(LinearMap.toContinuousLinearMap (Matrix.of fun _ _ => (1:ℝ) : Matrix (Fin 2) (Fin 2) ℝ).mulVecLin) := by
      funext X; simp [hf]
    rw [e]
    exact ContinuousLinearMap.hasFDerivAt _
  refine ⟨f, ![1, 2], 0, hfd, ?_, ?_⟩
  · intro i; fin_cases i <;> simp
  · rw [C12_jacobian_vector_iff f (fun _ => 1) ![1, 2] (by simp) 0 (hfd _)]
    intro h
    have := h 0 1
    simp [hf] at this
    norm_num at this

/-- Non-vacuity of `C12_jacobian_partial`: a diagonal linear residual. -/
example : ∃ J, (conditioningWrapper (fun X _ => ((Matrix.of fun _ _ => (3:ℝ) : Matrix (Fin 1) (Fin 1) ℝ).mulVec X,
    Matrix.of fun _ _ => 3)) (fun _ => 5) (.scalar 7) 0 true).2 = some J ∧ J 0 0 = 105 := by
  refine ⟨_, rfl, ?_⟩
  simp [Scale.mulMat]; norm_num

/-! ## C13 -/

variable {Sys Res : Type}

/-- C13: the list object after any sequence of calls: its upper entry has been lowered to the smallest matrix
size seen through that object. -/
theorem C13_after_calls (shape : Sys → ℕ) (eigh : Sys → Subset → Res) (H : Lists) (calls : List (ℕ × Sys)) (a : ℕ) :
    eigsCalls shape eigh H calls a =
      ⟨(H a).lo, ((calls.filter fun x => x.1 = a).map fun x => (shape x.2 : ℤ) - 1).foldl min (H a).hi⟩ := by
  induction calls generalizing H with
  | nil => rfl
  | cons x rest ih =>
    obtain ⟨b, K⟩ := x
    rw [eigsCalls, ih]
    by_cases hb : b = a
    · subst hb
      simp [eigs]
    · simp [eigs, hb, Ne.symm hb]

theorem foldl_min_eq (l : List ℤ) (m : ℤ) (h : ∀ x ∈ l, m ≤ x) : l.foldl min m = m := by
  induction l with
  | nil => rfl
  | cons x l ih =>
    simp only [List.foldl_cons]
    rw [min_eq_left (h x (by simp))]
    exact ih fun y hy => h y (by simp [hy])

/-- C13 (partial): if every earlier call through the same list object had a matrix large enough for the
requested range, the result does not depend on those calls. Missing: smaller matrices (`C13_violated`). -/
theorem C13_history_independent_partial (shape : Sys → ℕ) (eigh : Sys → Subset → Res) (H : Lists)
    (calls : List (ℕ × Sys)) (a : ℕ) (h : ∀ x ∈ calls, x.1 = a → (H a).hi < shape x.2) (K : Sys) :
    (eigs shape eigh (eigsCalls shape eigh H calls) a K).1 = (eigs shape eigh H a K).1 := by
  have : eigsCalls shape eigh H calls a = H a := by
    rw [C13_after_calls, foldl_min_eq]
    intro x hx
    simp only [List.mem_map, List.mem_filter, decide_eq_true_eq] at hx
    obtain ⟨y, ⟨h1, h2⟩, rfl⟩ := hx
    have := h y h1 h2
    omega
  simp only [eigs, this]

/-- C13: calls with a list object of their own do not disturb the default one. -/
theorem C13_own_list (shape : Sys → ℕ) (eigh : Sys → Subset → Res) (H : Lists) (calls : List (ℕ × Sys))
    (h : ∀ x ∈ calls, x.1 ≠ 0) (K : Sys) :
    (eigs shape eigh (eigsCalls shape eigh H calls) 0 K).1 = (eigs shape eigh H 0 K).1 :=
  C13_history_independent_partial shape eigh H calls 0 (fun x hx h0 => absurd h0 (h x hx)) K

/-- C13 is false: after analysing a two-dimensional system with the default argument, a five-dimensional
system gets the range `[0, 1]` (two eigenpairs) instead of `[0, 2]` (three). -/
theorem C13_violated : ∃ calls : List (ℕ × ℕ),
    (eigs id (fun _ s => s) (Lists.initial fun _ => ⟨0, 0⟩) 0 5).1 = ⟨0, 2⟩ ∧
    (eigs id (fun _ s => s) (eigsCalls id (fun _ s => s) (Lists.initial fun _ => ⟨0, 0⟩) calls) 0 5).1 = ⟨0, 1⟩ :=
  ⟨[(0, 2)], by decide, by decide⟩

/-- Non-vacuity of the partial theorem: earlier calls with sizes 3 and 10. -/
example (K : ℕ) : (eigs id (fun _ s => s) (eigsCalls id (fun _ s => s) (Lists.initial fun _ => ⟨0, 0⟩) [(0, 3), (0, 10)]) 0 K).1
    = (eigs id (fun _ s => s) (Lists.initial fun _ => ⟨0, 0⟩) 0 K).1 :=
  C13_history_independent_partial _ _ _ _ _ (by decide) K

/-! ## C14 -/

/-- C14: solving with the factored data is the direct solve, including when NumPy raises. -/
theorem C14_factored_equals_direct {A V : Type} (npSolve : A → V → Except Err V) (a : A) (b : V) :
    linFactoredSolve npSolve (linFactor a) b = linSolve npSolve a b := rfl

/-- C14: two linear solvers that meet the contract `A x = b` on a non-singular matrix agree; so the LU solve
of the parallel solver (`jax.scipy.linalg.lu_factor` / `lu_solve`, with their contract) returns the same vector
as the direct solve. -/
theorem C14_solvers_agree {n : ℕ} {L : Type} (A : Matrix (Fin n) (Fin n) ℝ) (hA : IsUnit A.det)
    (direct : Matrix (Fin n) (Fin n) ℝ → (Fin n → ℝ) → (Fin n → ℝ)) (luFactor : Matrix (Fin n) (Fin n) ℝ → L)
    (luSolve : L → (Fin n → ℝ) → (Fin n → ℝ)) (b : Fin n → ℝ) (h1 : A.mulVec (direct A b) = b)
    (h2 : A.mulVec (luSolve (luFactor A) b) = b) : luSolve (luFactor A) b = direct A b := by
  have key : ∀ x : Fin n → ℝ, A⁻¹.mulVec (A.mulVec x) = x := by
    intro x
    rw [Matrix.mulVec_mulVec, Matrix.nonsing_inv_mul A hA, Matrix.one_mulVec]
  rw [← key (luSolve (luFactor A) b), h2, ← h1, key]
  rw [h1]

/-- C14: without non-singularity they need not. -/
example : ∃ x y : Fin 1 → ℝ, (0 : Matrix (Fin 1) (Fin 1) ℝ).mulVec x = 0 ∧
    (0 : Matrix (Fin 1) (Fin 1) ℝ).mulVec y = 0 ∧ x ≠ y :=
  ⟨0, fun _ => 1, by simp, by simp, fun h => by simpa using congrFun h 0⟩

end

end TMD
