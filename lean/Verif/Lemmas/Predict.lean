import Verif.Model.Predict
import Verif.Props.LinearFrf
import Verif.Props.Vprnm
import Verif.Lemmas.EpmcRom

/-! # Lemmas about the rows of the harmonic balance equations at a predicted point -/

namespace TMD

open Spec Finset

noncomputable section

/-- Every row belongs to a harmonic or to the mean. -/
theorem entry_cases {h : List ℕ} (hh : Admissible h) {nd i : ℕ} (hi : i < numCoeff h * nd) :
    (zi h = 1 ∧ i < nd) ∨ ∃ j ∈ Ico (zi h) h.length, ∃ d < nd,
      i = nd * (j * 2 - zi h) + d ∨ i = nd * (j * 2 - zi h + 1) + d := by
  obtain ⟨a, b⟩ := div_lt_block hi
  have e : i = nd * (i / nd) + i % nd := (Nat.div_add_mod i nd).symm
  rcases row_cases hh.zero_first a with ⟨c, d⟩ | ⟨j, hj, d⟩
  · refine Or.inl ⟨c, ?_⟩
    rw [e, d]; omega
  · exact Or.inr ⟨j, hj, i % nd, b, d.imp (fun t => by rw [← t]; exact e) (fun t => by rw [← t]; exact e)⟩

/-- The rows of the linear equations of harmonic `k` (rows `p`, `p+1`), with forcing `F`, hold. -/
def HarmonicBalanced (S : VibSys) (k w : ℝ) (p : ℕ) (U F : ℕ → ℝ) : Prop :=
  ∀ d < S.nd,
    ∑ e ∈ range S.nd, ((S.K d e - (k * w) ^ 2 * S.M d e) * U (S.nd * p + e) + k * w * S.C d e * U (S.nd * (p + 1) + e))
      = F (S.nd * p + d) ∧
    ∑ e ∈ range S.nd, ((S.K d e - (k * w) ^ 2 * S.M d e) * U (S.nd * (p + 1) + e) - k * w * S.C d e * U (S.nd * p + e))
      = F (S.nd * (p + 1) + d)

theorem HarmonicBalanced.congr {S : VibSys} {k w : ℝ} {p q : ℕ} {U U' F F' : ℕ → ℝ} (H : HarmonicBalanced S k w p U F)
    (hU : ∀ e < S.nd, U' (S.nd * q + e) = U (S.nd * p + e) ∧ U' (S.nd * (q + 1) + e) = U (S.nd * (p + 1) + e))
    (hF : ∀ e < S.nd, F' (S.nd * q + e) = F (S.nd * p + e) ∧ F' (S.nd * (q + 1) + e) = F (S.nd * (p + 1) + e)) :
    HarmonicBalanced S k w q U' F' := by
  intro d hd
  obtain ⟨a, b⟩ := H d hd
  rw [(hF d hd).1, (hF d hd).2, ← a, ← b]
  constructor <;> refine sum_congr rfl fun e he => ?_ <;>
    rw [(hU e (mem_range.1 he)).1, (hU e (mem_range.1 he)).2]

theorem HarmonicBalanced.zero {S : VibSys} {k w : ℝ} {p : ℕ} {U F : ℕ → ℝ}
    (hU : ∀ e < S.nd, U (S.nd * p + e) = 0 ∧ U (S.nd * (p + 1) + e) = 0)
    (hF : ∀ e < S.nd, F (S.nd * p + e) = 0 ∧ F (S.nd * (p + 1) + e) = 0) : HarmonicBalanced S k w p U F := by
  intro d hd
  rw [(hF d hd).1, (hF d hd).2]
  constructor <;> refine sum_eq_zero fun e he => ?_ <;>
    rw [(hU e (mem_range.1 he)).1, (hU e (mem_range.1 he)).2] <;> ring

theorem HarmonicBalanced.smul {S : VibSys} {k w : ℝ} {p : ℕ} {U F : ℕ → ℝ} (H : HarmonicBalanced S k w p U F) (a : ℝ) :
    HarmonicBalanced S k w p (fun i => U i * a) (fun i => F i * a) := by
  intro d hd
  obtain ⟨u, v⟩ := H d hd
  beta_reduce
  rw [← u, ← v, sum_mul, sum_mul]
  constructor <;> refine sum_congr rfl fun e _ => ?_ <;> ring

/-- All rows, from the balance of each harmonic. -/
theorem linear_rows (S : VibSys) {h : List ℕ} (hh : Admissible h) (w : ℝ) {U F : ℕ → ℝ}
    (h0 : zi h = 1 → ∀ d < S.nd, ∑ e ∈ range S.nd, S.K d e * U e = F d)
    (hj : ∀ j ∈ Ico (zi h) h.length, HarmonicBalanced S (h.getD j 0 : ℕ) w (j * 2 - zi h) U F) {i : ℕ}
    (hi : i < numCoeff h * S.nd) :
    matVec (numCoeff h * S.nd) (hsE S.nd S.M S.C S.K w h false) U i = F i := by
  rcases entry_cases hh hi with ⟨z, hi'⟩ | ⟨j, hjm, d, hd, rfl | rfl⟩
  · have := hsE_mulVec_zero S.M S.C S.K w z hi' U false
    simp only [Nat.mul_zero, Nat.zero_add, Bool.false_eq_true, if_false] at this
    rw [this, h0 z i hi']
  · rw [hsE_mulVec_cos S.M S.C S.K w hh.zero_first hjm hd U false, ← (hj j hjm d hd).1]
    refine sum_congr rfl fun e _ => ?_
    simp only [Bool.false_eq_true, if_false]; ring
  · rw [hsE_mulVec_sin S.M S.C S.K w hh.zero_first hjm hd U false, ← (hj j hjm d hd).2]
    refine sum_congr rfl fun e _ => ?_
    simp only [Bool.false_eq_true, if_false]; ring

/-- First coefficient of a harmonic in a sorted list. -/
theorem numCoeff_filter_getD {h : List ℕ} (hs : h.Pairwise (· < ·)) {j : ℕ} (hj : j < h.length) (h1 : 1 ≤ h.getD j 0) :
    numCoeff (h.filter fun k => k < h.getD j 0) = j * 2 - zi h := by
  have hf : ∀ {h : List ℕ}, h.Pairwise (· < ·) → ∀ {j : ℕ}, j < h.length →
      h.filter (fun k => k < h.getD j 0) = h.take j := by
    intro h hs
    induction hs with
    | nil => intro j hj; simp at hj
    | @cons a l ha _ ih =>
      intro j hj
      cases j with
      | zero =>
        simp only [List.getD_cons_zero, List.take_zero, List.filter_eq_nil_iff]
        intro k hk
        rcases List.mem_cons.1 hk with rfl | hk
        · simp
        · have := ha k hk
          simp; omega
      | succ j =>
        have hj' : j < l.length := by simpa using hj
        have hlt : a < l.getD j 0 := by
          rw [List.getD_eq_getElem _ _ hj']
          exact ha _ (List.getElem_mem hj')
        simp only [List.getD_cons_succ, List.take_succ_cons]
        rw [List.filter_cons_of_pos (by simpa using hlt), ih hj']
  rw [hf hs hj]
  rcases h with _ | ⟨a, l⟩
  · simp at hj
  · have ht : 0 ∉ l := fun h0 => absurd ((List.pairwise_cons.mp hs).1 0 h0) (Nat.not_lt_zero _)
    cases j with
    | zero =>
      simp at h1
      simp [numCoeff]
    | succ j =>
      have h2 : 0 ∉ (List.take (j + 1) (a :: l)).tail := by
        simp only [List.take_succ_cons, List.tail_cons]
        exact fun hm => ht (List.mem_of_mem_take hm)
      have h3 : j < l.length := by simpa using hj
      rw [numCoeff_eq h2]
      simp only [List.take_succ_cons, zi_cons, List.length_cons, List.length_take]
      split <;> omega

/-- The rows for a point with a mean and a first harmonic `Y` when each of the other harmonics is
balanced. -/
theorem packed_rows (S : VibSys) {h : List ℕ} (hh : Admissible h) (H : FirstIsOne h) (w : ℝ) {U F Xs Y G : ℕ → ℝ}
    (h0 : zi h = 1 → ∀ d < S.nd, ∑ e ∈ range S.nd, S.K d e * Xs e = F d)
    (hU0 : zi h = 1 → ∀ d < S.nd, U d = Xs d)
    (hY : HarmonicBalanced S 1 w 0 Y G)
    (hU1 : ∀ k < 2 * S.nd, U (zi h * S.nd + k) = Y k) (hF1 : ∀ k < 2 * S.nd, F (zi h * S.nd + k) = G k)
    (hj : ∀ j ∈ Ico (zi h + 1) h.length, HarmonicBalanced S (h.getD j 0 : ℕ) w (j * 2 - zi h) U F) {i : ℕ}
    (hi : i < numCoeff h * S.nd) :
    matVec (numCoeff h * S.nd) (hsE S.nd S.M S.C S.K w h false) (sl 0 (numCoeff h * S.nd) U) i = F i := by
  rw [matVec_congr (v' := U) (fun k hk => sl_zero hk U) i]
  refine linear_rows S hh w (fun z d hd => ?_) (fun j hjm => ?_) hi
  · rw [← h0 z d hd]
    exact sum_congr rfl fun e he => by rw [hU0 z e (mem_range.1 he)]
  · by_cases c : j = zi h
    · subst c
      rw [H.get.1, show zi h * 2 - zi h = zi h by omega]
      rw [Nat.cast_one]
      refine hY.congr (fun e he => ?_) (fun e he => ?_)
      · constructor
        · rw [Nat.mul_comm, hU1 e (by omega)]; simp
        · rw [show S.nd * (zi h + 1) + e = zi h * S.nd + (S.nd + e) by ring, hU1 _ (by omega)]; simp
      · constructor
        · rw [Nat.mul_comm, hF1 e (by omega)]; simp
        · rw [show S.nd * (zi h + 1) + e = zi h * S.nd + (S.nd + e) by ring, hF1 _ (by omega)]; simp
    · rw [mem_Ico] at hjm
      exact hj j (mem_Ico.2 (by omega))

end

end TMD
