import Verif.Spec.Fourier
import Verif.Model.Harmonic
import Mathlib.Algebra.BigOperators.Intervals
import Mathlib.Tactic.Ring
import Mathlib.Tactic.Linarith
import Mathlib.Tactic.FieldSimp

/-! Helper lemmas: the recursive series in terms of positions. -/

namespace TMD

open Spec Finset

noncomputable section

/-- Position of the cosine coefficient of the `i`-th listed harmonic. -/
def pos (h : List ℕ) (i : ℕ) : ℕ := i * 2 - zi h

theorem series_congr {h : List ℕ} {c c' : ℕ → ℝ} (hc : ∀ i < numCoeff h, c i = c' i) (τ : ℝ) :
    series h c τ = series h c' τ := by
  induction h generalizing c c' with
  | nil => rfl
  | cons k hs ih =>
    simp only [series]
    by_cases hk : k = 0
    · simp only [hk, if_true]
      rw [hc 0 (by simp [numCoeff, hk]), ih]
      intro i hi
      exact hc _ (by simp [numCoeff, hk]; omega)
    · simp only [hk, if_false]
      rw [hc 0 (by simp [numCoeff, hk]), hc 1 (by simp [numCoeff, hk]; omega), ih]
      intro i hi
      exact hc _ (by simp [numCoeff, hk]; omega)

theorem numCoeff_nonzero {h : List ℕ} (h0 : 0 ∉ h) : numCoeff h = 2 * h.length := by
  induction h with
  | nil => rfl
  | cons k hs ih =>
    have hk : k ≠ 0 := by rintro rfl; simp at h0
    have := ih (by intro hh; exact h0 (List.mem_cons_of_mem _ hh))
    simp [numCoeff, hk, this]; ring

theorem series_nonzero {h : List ℕ} (h0 : 0 ∉ h) (c : ℕ → ℝ) (τ : ℝ) :
    series h c τ = ∑ i ∈ range h.length,
      (c (2*i) * Real.cos (h.getD i 0 * τ) + c (2*i+1) * Real.sin (h.getD i 0 * τ)) := by
  induction h generalizing c with
  | nil => simp [series]
  | cons k hs ih =>
    have hk : k ≠ 0 := by rintro rfl; simp at h0
    have hs0 : 0 ∉ hs := fun hh => h0 (List.mem_cons_of_mem _ hh)
    simp only [series, hk, if_false, List.length_cons]
    rw [sum_range_succ', ih hs0]
    simp only [List.getD_cons_succ, List.getD_cons_zero]
    rw [add_comm]
    congr 1

theorem zi_cons (k : ℕ) (hs : List ℕ) : zi (k :: hs) = if k = 0 then 1 else 0 := by
  simp [zi]

theorem zi_le_one (h : List ℕ) : zi h ≤ 1 := by
  unfold zi; split <;> omega

theorem zi_le_length {h : List ℕ} : zi h ≤ h.length := by
  cases h with
  | nil => simp [zi]
  | cons k hs => rw [zi_cons]; split <;> simp

theorem numCoeff_eq {h : List ℕ} (h0 : 0 ∉ h.tail) : numCoeff h = 2 * h.length - zi h := by
  cases h with
  | nil => simp [numCoeff, zi]
  | cons k hs =>
    simp only [List.tail_cons] at h0
    rw [numCoeff, numCoeff_nonzero h0, zi_cons, List.length_cons]
    split <;> omega

/-- Mean value coefficient. -/
def meanCoef (h : List ℕ) (c : ℕ → ℝ) : ℝ := if zi h = 1 then c 0 else 0

theorem series_eq {h : List ℕ} (h0 : 0 ∉ h.tail) (c : ℕ → ℝ) (τ : ℝ) :
    series h c τ = meanCoef h c + ∑ i ∈ Ico (zi h) h.length,
      (c (i*2 - zi h) * Real.cos (h.getD i 0 * τ)
        + c (i*2 - zi h + 1) * Real.sin (h.getD i 0 * τ)) := by
  cases h with
  | nil => simp [series, meanCoef, zi]
  | cons k hs =>
    by_cases hk : k = 0
    · subst hk
      have hz : zi (0 :: hs) = 1 := by simp [zi_cons]
      simp only [List.tail_cons] at h0
      simp only [series, if_true]
      rw [meanCoef, hz, if_pos rfl, series_nonzero h0, List.length_cons,
        Finset.sum_Ico_eq_sum_range]
      congr 1
      apply sum_congr
      · simp
      · intro i _
        have e1 : (1 + i) * 2 - 1 = 2 * i + 1 := by omega
        rw [e1, show 1 + i = i + 1 by omega, List.getD_cons_succ]
    · have hz : zi (k :: hs) = 0 := by simp [zi_cons, hk]
      have h0' : 0 ∉ k :: hs := by
        simp only [List.tail_cons] at h0
        simp only [List.mem_cons, not_or]
        exact ⟨fun e => hk e.symm, h0⟩
      rw [series_nonzero h0', meanCoef, hz]
      simp [mul_comm]

theorem Nhc_ok {h : List ℕ} (hn : h.Nodup) : Nhc h = .ok (numCoeff h) := by
  unfold Nhc
  rw [hn.dedup]
  simp only [ne_eq, not_true_eq_false, if_false, Except.ok.injEq]
  clear hn
  induction h with
  | nil => rfl
  | cons k hs ih =>
    by_cases hk : k = 0
    · simp [numCoeff, hk, ← ih]; ring
    · simp [numCoeff, hk, ← ih]; ring

theorem getD_eq_getElem' {h : List ℕ} {i : ℕ} (hi : i < h.length) : h.getD i 0 = h[i] := by
  simp [List.getD, hi]

theorem getD_ne_zero {h : List ℕ} (h0 : 0 ∉ h.tail) {i : ℕ} (hi : i ∈ Ico (zi h) h.length) :
    h.getD i 0 ≠ 0 := by
  rw [mem_Ico] at hi
  rw [getD_eq_getElem' hi.2]
  cases h with
  | nil => simp at hi
  | cons k hs =>
    cases i with
    | zero =>
      intro e
      simp at e
      simp [zi_cons, e] at hi
    | succ i =>
      simp only [List.getElem_cons_succ]
      intro e
      apply h0
      simp only [List.tail_cons]
      rw [← e]
      exact List.getElem_mem _

end

end TMD
