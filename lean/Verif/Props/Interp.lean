import Verif.Lemmas.Interp
import Verif.Spec.Interp
import Mathlib.Tactic.Linarith
import Mathlib.Tactic.FieldSimp
import Mathlib.Tactic.NormNum

/-! # Properties of interpolation of continuation results -/

namespace TMD

theorem linearRow_spec {M n : ℕ} {X : ℕ → ℕ → ℝ} {ref : ℕ → ℝ} (h : diffPos n ref) (hn : 0 < n) (hM : n ≤ M) (v : ℝ) :
    ∃ r, linearRow M X n ref v = .ok r ∧ LinearAt n ref X v r := by
  have hmin : min (0 + 1) (n - 1) < M := lt_of_le_of_lt (min_le_right _ _) (by omega)
  by_cases h0 : v < ref 0
  · refine ⟨none, ?_, fun _ => rfl, fun _ => rfl, fun k hk e => ?_, fun k hk e _ => ?_⟩
    · unfold linearRow npInterp
      simp only [if_pos h0, Option.getD_none, Nat.floor_zero, Option.isNone_none, if_true]
      rw [if_pos ⟨by omega, hmin⟩]
    · have := diffPos_le h (Nat.zero_le k) hk; linarith
    · have := diffPos_le h (Nat.zero_le k) (by omega); linarith
  · by_cases h1 : ref (n - 1) < v
    · refine ⟨none, ?_, fun _ => rfl, fun _ => rfl, fun k hk e => ?_, fun k hk _ e => ?_⟩
      · unfold linearRow npInterp
        simp only [if_neg h0, if_pos h1, Option.getD_none, Nat.floor_zero, Option.isNone_none, if_true]
        rw [if_pos ⟨by omega, hmin⟩]
      · have := diffPos_le h (by omega : k ≤ n - 1) (by omega); linarith
      · have := diffPos_le h (by omega : k + 1 ≤ n - 1) (by omega); linarith
    · push Not at h0 h1
      obtain ⟨j, hj, hj1, hj2⟩ := exists_bracket hn h0
      by_cases hl : j + 1 < n
      · have hv := hj2 hl
        have hd : 0 < ref (j + 1) - ref j := h j hl
        set t := (v - ref j) / (ref (j + 1) - ref j) with ht
        have t0 : 0 ≤ t := div_nonneg (by linarith) hd.le
        have t1 : t < 1 := (div_lt_one hd).2 (by linarith)
        have tm : t * (ref (j + 1) - ref j) = v - ref j := div_mul_cancel₀ _ hd.ne'
        have hi : npInterp n ref (fun i => (i : ℝ)) none none v = some (j + t) := by
          rw [npInterp_bracket h hl hj1 hv]; push_cast; rw [← ht]; congr 1; ring
        have hf : ⌊(j : ℝ) + t⌋₊ = j := by
          rw [Nat.floor_eq_iff (by positivity)]; constructor <;> linarith
        have hnx : min (j + 1) (n - 1) = j + 1 := by omega
        refine ⟨some fun c => X j c + t * (X (j + 1) c - X j c), ?_, fun e => absurd e (not_lt.2 h0),
          fun e => absurd e (not_lt.2 h1), fun k hk e => ?_, fun k hk e1 e2 => ?_⟩
        · unfold linearRow
          simp only [hi, Option.getD_some, hf, hnx, Option.isNone_some]
          rw [if_pos ⟨by omega, by omega⟩]
          simp
        · have hkj : k = j := by
            rcases lt_trichotomy k j with q | q | q
            · have := diffPos_lt h q hj; linarith
            · exact q
            · have := diffPos_le h (by omega : j + 1 ≤ k) hk; linarith
          subst hkj
          have : t = 0 := by rw [ht, e]; simp
          rw [this]; simp
        · refine ⟨_, rfl, fun c => ?_⟩
          have hkj : k = j ∨ k + 1 = j := by
            rcases lt_trichotomy k j with q | q | q
            · refine Or.inr (le_antisymm q ?_)
              by_contra q2
              have := diffPos_lt h (by omega : k + 1 < j) hj; linarith
            · exact Or.inl q
            · have := diffPos_le h (by omega : j + 1 ≤ k) (by omega); linarith
          rcases hkj with rfl | rfl
          · linear_combination (X (k + 1) c - X k c) * tm
          · have hv' : v = ref (k + 1) := le_antisymm e2 hj1
            have : t = 0 := by rw [ht, hv']; simp
            rw [this, hv']; ring
      · have hje : j = n - 1 := by omega
        have hv : v = ref (n - 1) := le_antisymm h1 (hje ▸ hj1)
        have hi : npInterp n ref (fun i => (i : ℝ)) none none v = some ((n - 1 : ℕ) : ℝ) := by
          rw [hv, npInterp_last h hn]
        refine ⟨some (X (n - 1)), ?_, fun e => absurd e (not_lt.2 h0), fun e => absurd e (not_lt.2 h1),
          fun k hk e => ?_, fun k hk e1 e2 => ⟨_, rfl, fun c => ?_⟩⟩
        · unfold linearRow
          simp only [hi, Option.getD_some, Nat.floor_natCast, Option.isNone_some, sub_self, zero_mul, add_zero]
          rw [if_pos ⟨by omega, lt_of_le_of_lt (min_le_right _ _) (by omega)⟩]
          simp
        · have : k = n - 1 := by
            by_contra q
            have := diffPos_lt h (by omega : k < n - 1) (by omega); linarith
          rw [this]
        · have : k + 1 = n - 1 := by
            by_contra q
            have := diffPos_lt h (by omega : k + 1 < n - 1) (by omega); linarith
          rw [← this, hv, ← this]; ring

/-- C60: for increasing reference values, one per row at most, there is one output row per request, in order, and
it is the piecewise linear interpolation of the data rows. -/
theorem C60_linear {M N n : ℕ} {X : ℕ → ℕ → ℝ} {ref : ℕ → ℝ} (h : ∀ k, k + 1 < n → ref k < ref (k + 1)) (hn : 0 < n)
    (hM : n ≤ M) (new : List ℝ) :
    ∃ out, linearInterp M N X new (some (n, ref)) = .ok out ∧ List.Forall₂ (LinearAt n ref X) new out := by
  have hd : diffPos n ref := fun k hk => by linarith [h k hk]
  unfold linearInterp
  simp only [hd, not_true_eq_false, if_false, hn.ne']
  induction new with
  | nil => exact ⟨[], rfl, .nil⟩
  | cons v new ih =>
    obtain ⟨out, h1, h2⟩ := ih
    obtain ⟨r, h3, h4⟩ := linearRow_spec (X := X) hd hn hM v
    refine ⟨r :: out, ?_, .cons h4 h2⟩
    unfold linearRows
    simp only [h3, h1]

/-- C60: without reference values the last column is the reference. -/
theorem C60_default {M N : ℕ} {X : ℕ → ℕ → ℝ} (new : List ℝ) :
    linearInterp M N X new none = linearInterp M N X new (some (M, fun k => X k N)) := rfl

/-- C60: then the last column of the result is the requested value, when it is within the range. -/
theorem C60_last_column {M N : ℕ} {X : ℕ → ℕ → ℝ} (h : ∀ k, k + 1 < M → X k N < X (k + 1) N) (hn : 0 < M) (new : List ℝ) :
    ∃ out, linearInterp M N X new none = .ok out ∧ List.Forall₂
      (fun v r => X 0 N ≤ v → v ≤ X (M - 1) N → ∃ row, r = some row ∧ row N = v) new out := by
  obtain ⟨out, h1, h2⟩ := C60_linear (N := N) (X := X) (ref := fun k => X k N) h hn le_rfl new
  refine ⟨out, h1, h2.imp fun v r hr a b => ?_⟩
  obtain ⟨j, hj, hj1, hj2⟩ := exists_bracket (x := fun k => X k N) hn a
  by_cases hl : j + 1 < M
  · obtain ⟨row, e1, e2⟩ := hr.segment j hl hj1 (hj2 hl).le
    refine ⟨row, e1, ?_⟩
    have e3 := e2 N
    have e4 := h j hl
    have e5 : (X (j + 1) N - X j N) * (row N - v) = 0 := by linear_combination e3
    rcases mul_eq_zero.1 e5 with e6 | e6 <;> linarith
  · have : j = M - 1 := by omega
    subst this
    have hv : v = X (M - 1) N := le_antisymm b hj1
    exact ⟨_, hr.node (M - 1) hj hv, hv.symm⟩

/-- C60: reference values that do not increase are rejected. -/
theorem C60_rejected {M N n : ℕ} {X : ℕ → ℕ → ℝ} {ref : ℕ → ℝ} (h : ∃ k, k + 1 < n ∧ ref (k + 1) ≤ ref k)
    (new : List ℝ) : linearInterp M N X new (some (n, ref)) = .error .assertion := by
  obtain ⟨k, hk, h⟩ := h
  unfold linearInterp
  rw [if_pos]
  intro hd
  have := hd k hk
  change 0 < ref (k + 1) - ref k at this
  linarith

/-- Rows `(0, 1)` and `(10, 3)`: at `2` the result is `(5, 2)`, at `4` it is undefined. -/
example : ∃ a b, linearInterp 2 1 (fun k c => if c = 0 then 10 * k else 1 + 2 * k) [2, 4] none = .ok [some a, b] ∧
    a 0 = 5 ∧ a 1 = 2 ∧ b = none := by
  obtain ⟨out, h1, h2⟩ := C60_linear (M := 2) (N := 1) (n := 2) (X := fun k c => if c = 0 then 10 * k else 1 + 2 * k)
    (ref := fun k => 1 + 2 * (k : ℝ)) (fun k _ => by push_cast; linarith) (by norm_num) le_rfl [2, 4]
  cases h2 with
  | cons ha h2 => cases h2 with
    | cons hb h2 =>
      cases h2
      obtain ⟨a, e, ea⟩ := ha.segment 0 (by norm_num) (by norm_num) (by norm_num)
      have hb' := hb.right (by norm_num)
      subst e
      refine ⟨a, _, h1, ?_, ?_, hb'⟩
      · have := ea 0; norm_num at this; linarith
      · have := ea 1; norm_num at this; linarith

end TMD
