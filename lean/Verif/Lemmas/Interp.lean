import Verif.Model.Interp
import Mathlib.Tactic.Linarith

/-! # Lemmas on sample points and bracketing -/

namespace TMD

theorem diffPos_lt {n : ℕ} {x : ℕ → ℝ} (h : diffPos n x) {i j : ℕ} (hij : i < j) (hj : j < n) : x i < x j := by
  induction j with
  | zero => omega
  | succ j ih =>
    have h1 := h j hj
    rcases Nat.lt_succ_iff_lt_or_eq.1 hij with h2 | h2
    · have := ih h2 (by omega); linarith
    · subst h2; linarith

theorem diffPos_le {n : ℕ} {x : ℕ → ℝ} (h : diffPos n x) {i j : ℕ} (hij : i ≤ j) (hj : j < n) : x i ≤ x j := by
  rcases Nat.lt_or_eq_of_le hij with h1 | h1
  · exact (diffPos_lt h h1 hj).le
  · rw [h1]

theorem lastLe_eq {x : ℕ → ℝ} {v : ℝ} {j m : ℕ} (hj : j ≤ m) (h1 : x j ≤ v)
    (h2 : ∀ i, j < i → i ≤ m → v < x i) : lastLe x v m = j := by
  induction m with
  | zero => simp only [lastLe]; omega
  | succ m ih =>
    unfold lastLe
    rcases Nat.lt_or_eq_of_le hj with h | h
    · rw [if_neg (not_le.2 (h2 (m + 1) h le_rfl))]
      exact ih (by omega) fun i hi hm => h2 i hi (by omega)
    · subst h; rw [if_pos h1]

theorem lastLe_bracket {n : ℕ} {x : ℕ → ℝ} (h : diffPos n x) {v : ℝ} {j : ℕ} (hj : j < n) (h1 : x j ≤ v)
    (h2 : j + 1 < n → v < x (j + 1)) : lastLe x v (n - 1) = j := by
  refine lastLe_eq (by omega) h1 fun i hi hm => ?_
  exact lt_of_lt_of_le (h2 (by omega)) (diffPos_le h hi (by omega))

theorem exists_bracket {n : ℕ} {x : ℕ → ℝ} (hn : 0 < n) {v : ℝ} (h0 : x 0 ≤ v) :
    ∃ j < n, x j ≤ v ∧ (j + 1 < n → v < x (j + 1)) := by
  induction n with
  | zero => omega
  | succ n ih =>
    rcases Nat.eq_zero_or_pos n with rfl | hp
    · exact ⟨0, by omega, h0, by omega⟩
    · obtain ⟨j, hj, h1, h2⟩ := ih hp
      by_cases hc : j + 1 < n
      · exact ⟨j, by omega, h1, fun _ => h2 hc⟩
      · have : j + 1 = n := by omega
        by_cases hv : v < x n
        · exact ⟨j, by omega, h1, fun _ => by rw [this]; exact hv⟩
        · exact ⟨n, by omega, not_lt.1 hv, by omega⟩

/-- `numpy.interp` on a half-open interval. -/
theorem npInterp_bracket {n : ℕ} {x fp : ℕ → ℝ} (h : diffPos n x) {l r : Option ℝ} {v : ℝ} {j : ℕ} (hj : j + 1 < n)
    (h1 : x j ≤ v) (h2 : v < x (j + 1)) :
    npInterp n x fp l r v = some (fp j + (v - x j) / (x (j + 1) - x j) * (fp (j + 1) - fp j)) := by
  have e := lastLe_bracket h (by omega : j < n) h1 fun _ => h2
  have a := diffPos_le h (Nat.zero_le j) (by omega)
  have b := diffPos_le h (by omega : j + 1 ≤ n - 1) (by omega)
  unfold npInterp
  rw [if_neg (by linarith), if_neg (by linarith)]
  simp only [e]
  rw [if_neg (by omega)]
  split
  · rename_i hx; rw [hx]; simp
  · congr 1; ring

/-- `numpy.interp` at the last point. -/
theorem npInterp_last {n : ℕ} {x fp : ℕ → ℝ} (h : diffPos n x) (hn : 0 < n) {l r : Option ℝ} :
    npInterp n x fp l r (x (n - 1)) = some (fp (n - 1)) := by
  have e := lastLe_bracket h (by omega : n - 1 < n) le_rfl (by omega)
  unfold npInterp
  rw [if_neg (not_lt.2 (diffPos_le h (Nat.zero_le _) (by omega))), if_neg (lt_irrefl _)]
  simp only [e, if_true]

theorem npInterp_node {n : ℕ} {x fp : ℕ → ℝ} (h : diffPos n x) {l r : Option ℝ} {k : ℕ} (hk : k < n) :
    npInterp n x fp l r (x k) = some (fp k) := by
  by_cases hl : k = n - 1
  · subst hl; exact npInterp_last h (by omega)
  · rw [npInterp_bracket h (by omega : k + 1 < n) le_rfl (diffPos_lt h (by omega) (by omega))]
    simp

end TMD
