import Verif.Props.LinearFrf

/-!
# Property C50: setting a new damping matrix
-/

namespace TMD

open Spec Finset

noncomputable section

/-- A sequence of `set_new_C(C, ab)` calls. -/
def setMany (S : VibSys) (calls : List (Option (ℕ → ℕ → ℝ) × Option (ℝ × ℝ))) : VibSys :=
  calls.foldl (fun S c => S.setNewC c.1 c.2) S

/-- Documented meaning of the arguments: `ab` wins over `C`. `none`: nothing given. -/
def requestedC (M K : ℕ → ℕ → ℝ) : Option (ℕ → ℕ → ℝ) × Option (ℝ × ℝ) → Option (ℕ → ℕ → ℝ)
  | (_, some ab) => some (fun i j => ab.1 * M i j + ab.2 * K i j)
  | (some C, none) => some C
  | (none, none) => none

/-- C50: the constructor stores the requested damping, a zero matrix if nothing is requested. -/
theorem C50_init (nd : ℕ) (M K : ℕ → ℕ → ℝ) (c : Option (ℕ → ℕ → ℝ) × Option (ℝ × ℝ)) :
    (VibSys.init nd M K c.1 c.2).C = (requestedC M K c).getD (fun _ _ => 0) ∧
    (VibSys.init nd M K c.1 c.2).ab = c.2 := by
  rcases c with ⟨_ | C, _ | ab⟩ <;> simp [VibSys.init, requestedC]

theorem setMany_frame (S : VibSys) (calls : List (Option (ℕ → ℕ → ℝ) × Option (ℝ × ℝ))) :
    (setMany S calls).nd = S.nd ∧ (setMany S calls).M = S.M ∧ (setMany S calls).K = S.K ∧
      (setMany S calls).forces = S.forces := by
  induction calls generalizing S with
  | nil => simp [setMany]
  | cons c cs ih =>
    have := ih (S.setNewC c.1 c.2)
    rcases c with ⟨_ | C, _ | ab⟩ <;> simpa [setMany, VibSys.setNewC] using this

/-- C50, partial: every sequence of calls leaves mass, stiffness and forces alone; if the last call gives a
matrix or coefficients, exactly the requested damping is stored whatever happened before, and if it gives
coefficients they are stored too. (Not covered: a call without arguments, see `C50_violated_noop`.) -/
theorem C50_last_call_partial (S : VibSys) (calls : List (Option (ℕ → ℕ → ℝ) × Option (ℝ × ℝ)))
    (c : Option (ℕ → ℕ → ℝ) × Option (ℝ × ℝ)) (C : ℕ → ℕ → ℝ) (hc : requestedC S.M S.K c = some C) :
    (setMany S (calls ++ [c])).C = C ∧
    (setMany S (calls ++ [c])).M = S.M ∧ (setMany S (calls ++ [c])).K = S.K ∧
    (setMany S (calls ++ [c])).forces = S.forces ∧
    (∀ ab, c.2 = some ab → (setMany S (calls ++ [c])).ab = some ab) := by
  obtain ⟨-, h2, h3, h4⟩ := setMany_frame S (calls ++ [c])
  obtain ⟨-, g2, g3, -⟩ := setMany_frame S calls
  refine ⟨?_, h2, h3, h4, ?_⟩
  · have e : setMany S (calls ++ [c]) = (setMany S calls).setNewC c.1 c.2 := by simp [setMany, List.foldl_append]
    rw [e]
    generalize setMany S calls = T at *
    rcases c with ⟨_ | D, _ | ab⟩ <;> simp [requestedC] at hc <;> simp [VibSys.setNewC, hc, g2, g3]
  · intro ab hab
    have e : setMany S (calls ++ [c]) = (setMany S calls).setNewC c.1 c.2 := by simp [setMany, List.foldl_append]
    rw [e]
    generalize setMany S calls = T at *
    rcases c with ⟨_ | D, _ | ab'⟩ <;> simp at hab <;> simp [VibSys.setNewC, hab]

/-- C50, partial: if the last call gave proportional coefficients, `linear_frf` uses the stored damping: its
result solves the equations of motion with the stored `C`. -/
theorem C50_frf_partial (S : VibSys) (calls : List (Option (ℕ → ℕ → ℝ) × Option (ℝ × ℝ)))
    (C₀ : Option (ℕ → ℕ → ℝ)) (a b w : ℝ)
    (eigs : ℕ → (ℕ → ℝ) × (ℕ → ℕ → ℝ)) (hV : ModalBasis S.nd S.M S.K (eigs S.nd).1 (eigs S.nd).2)
    (Fl Fs : ℕ → ℝ) (hD : ∀ j < S.nd, ((eigs S.nd).1 j - w^2)^2 + (w * (a + b * (eigs S.nd).1 j))^2 ≠ 0) :
    let S' := setMany S (calls ++ [(C₀, some (a, b))])
    ∃ X, linearFrf S' w Fl eigs S.nd (some Fs) = .ok X ∧ ∀ d < S.nd,
      ∑ e ∈ range S.nd, ((S.K d e - w^2 * S.M d e) * X e + w * S'.C d e * X (S.nd + e)) = Fl d ∧
      ∑ e ∈ range S.nd, ((S.K d e - w^2 * S.M d e) * X (S.nd + e) - w * S'.C d e * X e) = Fs d := by
  intro S'
  obtain ⟨e1, e2, e3, -, e5⟩ := C50_last_call_partial S calls (C₀, some (a, b)) _ rfl
  obtain ⟨e0, -⟩ := setMany_frame S (calls ++ [(C₀, some (a, b))])
  obtain ⟨X, h1, -, h3⟩ := C47_solves S' a b w (e5 _ rfl)
    (fun d _ e _ => by simp only [S', e1, e2, e3]) eigs (by simpa only [S', e0, e2, e3] using hV) S.nd
    (by simp only [S', e0]; exact le_rfl) Fl Fs (by simpa only [S', e0] using hD)
  simp only [S', e0, e2, e3] at h1 h3
  exact ⟨X, h1, h3⟩

/-- C50, violated: the documentation says a call without arguments changes nothing; it erases the damping
(and leaves the stored proportional coefficients). -/
theorem C50_violated_noop : (∀ S : VibSys, (S.setNewC none none).C = fun _ _ => 0) ∧
    ∃ S : VibSys, S = VibSys.init 1 (fun _ _ => 1) (fun _ _ => 4) none (some (1/2, 0)) ∧
      (S.setNewC none none).C 0 0 ≠ S.C 0 0 ∧ (S.setNewC none none).ab = some (1/2, 0) := by
  refine ⟨fun S => rfl, _, rfl, ?_, rfl⟩
  simp [VibSys.setNewC, VibSys.init]

/-- C50, violated: after passing a matrix, `linear_frf` still uses the old proportional coefficients: its
result does not satisfy the equations of motion with the stored damping. -/
theorem C50_violated_stale : ∃ (S : VibSys) (X : ℕ → ℝ),
    S = (VibSys.init 1 (fun _ _ => 1) (fun _ _ => 4) none (some (1/2, 0))).setNewC (some (fun _ _ => 1)) none ∧
    ModalBasis 1 S.M S.K (fun _ => 4) (fun _ _ => 1) ∧ S.C 0 0 = 1 ∧
    linearFrf S 2 (fun _ => 1) (fun _ => (fun _ => 4, fun _ _ => 1)) 1 (some (fun _ => 0)) = .ok X ∧
    (S.K 0 0 - 2^2 * S.M 0 0) * X 0 + 2 * S.C 0 0 * X 1 ≠ 1 := by
  have h4 : Real.sqrt 4 = 2 := by
    rw [show (4:ℝ) = 2^2 by norm_num]; exact Real.sqrt_sq (by norm_num)
  refine ⟨_, ?X, rfl, ?_, rfl, ?h1, ?h2⟩
  case h1 =>
    unfold linearFrf
    simp only [VibSys.setNewC, VibSys.init]
    rfl
  case h2 =>
    simp [hcat, matVec, VibSys.setNewC, VibSys.init, h4]
    norm_num
  · constructor
    · intro i hi j hj; simp [VibSys.setNewC, VibSys.init]
    · intro i hi j hj
      have : i = j := by omega
      simp [VibSys.setNewC, VibSys.init, this]
    · intro j hj; norm_num

end

end TMD
