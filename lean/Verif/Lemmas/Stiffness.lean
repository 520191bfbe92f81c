import Verif.Lemmas.Series
import Mathlib.Analysis.Calculus.Deriv.Add

/-! Helper lemmas about `harmonic_stiffness`. -/

namespace TMD

open Spec Finset

noncomputable section

theorem block_idx {nd P R d : ℕ} (hd : d < nd) :
    (nd * P ≤ nd * R + d ∧ nd * R + d < nd * (P + 1)) ↔ R = P := by
  constructor
  · rintro ⟨h1, h2⟩
    have hpos : 0 < nd := by omega
    have a : P < R + 1 := by
      by_contra hcon
      have : nd * (R + 1) ≤ nd * P := Nat.mul_le_mul_left _ (by omega)
      rw [Nat.mul_succ] at this; omega
    have b : R < P + 1 := by
      by_contra hcon
      have : nd * (P + 1) ≤ nd * R := Nat.mul_le_mul_left _ (by omega)
      omega
    omega
  · rintro rfl
    rw [Nat.mul_succ]; omega

theorem setBlock_block {nd P Q R S d e : ℕ} (hd : d < nd) (he : e < nd)
    (E B : ℕ → ℕ → ℝ) :
    setBlock E (nd * P) (nd * (P + 1)) (nd * Q) (nd * (Q + 1)) B (nd * R + d) (nd * S + e)
      = if R = P ∧ S = Q then B d e else E (nd * R + d) (nd * S + e) := by
  unfold setBlock
  simp only [block_idx hd, block_idx he]
  by_cases hRS : R = P ∧ S = Q
  · rw [if_pos hRS, if_pos hRS, hRS.1, hRS.2]; congr 1 <;> omega
  · rw [if_neg hRS, if_neg hRS]

theorem sum_range_blocks (n nd : ℕ) (f : ℕ → ℝ) :
    ∑ j ∈ range (n * nd), f j = ∑ S ∈ range n, ∑ e ∈ range nd, f (nd * S + e) := by
  induction n with
  | zero => simp
  | succ n ih =>
    rw [Nat.succ_mul, sum_range_add, ih, sum_range_succ, Nat.mul_comm n nd]

/-- One pass of the stiffness loop, seen blockwise. -/
theorem hsBody_block {nd R S d e : ℕ} (hd : d < nd) (he : e < nd) (M C K : ℕ → ℕ → ℝ) (w : ℝ)
    (h : List ℕ) (onlyC : Bool) (E : ℕ → ℕ → ℝ) (i : ℕ) :
    hsBody nd M C K w h onlyC E i (nd * R + d) (nd * S + e) =
      if R = i*2 - zi h ∧ S = i*2 - zi h + 1 then ((h.getD i 0 : ℕ) : ℝ) * w * C d e
      else if R = i*2 - zi h + 1 ∧ S = i*2 - zi h then -(((h.getD i 0 : ℕ) : ℝ) * w * C d e)
      else if R = S ∧ (R = i*2 - zi h ∨ R = i*2 - zi h + 1) ∧ onlyC = false then
        K d e - (((h.getD i 0 : ℕ) : ℝ) * w)^2 * M d e
      else E (nd * R + d) (nd * S + e) := by
  unfold hsBody
  simp only
  generalize i*2 - zi h = p
  cases onlyC
  · simp only [Bool.false_eq_true, if_false]
    rw [setBlock_block hd he, setBlock_block hd he, setBlock_block hd he, setBlock_block hd he]
    by_cases h1 : R = p ∧ S = p + 1
    · obtain ⟨rfl, rfl⟩ := h1; norm_num
    by_cases h2 : R = p + 1 ∧ S = p
    · obtain ⟨rfl, rfl⟩ := h2; norm_num
    by_cases h3 : R = p + 1 ∧ S = p + 1
    · obtain ⟨rfl, rfl⟩ := h3; norm_num; ring
    by_cases h4 : R = p ∧ S = p
    · obtain ⟨rfl, rfl⟩ := h4; norm_num; ring
    · rw [if_neg h3, if_neg h4, if_neg h2, if_neg h1, if_neg h1, if_neg h2, if_neg]
      rintro ⟨rfl, h5 | h5, -⟩ <;> omega
  · simp only [if_true]
    rw [setBlock_block hd he, setBlock_block hd he]
    by_cases h1 : R = p ∧ S = p + 1
    · obtain ⟨rfl, rfl⟩ := h1; norm_num
    by_cases h2 : R = p + 1 ∧ S = p
    · obtain ⟨rfl, rfl⟩ := h2; norm_num
    · rw [if_neg h2, if_neg h1, if_neg h1, if_neg h2, if_neg]; simp

theorem hsGradBody_block {nd R S d e : ℕ} (hd : d < nd) (he : e < nd) (M C : ℕ → ℕ → ℝ) (w : ℝ)
    (h : List ℕ) (onlyC : Bool) (E : ℕ → ℕ → ℝ) (i : ℕ) :
    hsGradBody nd M C w h onlyC E i (nd * R + d) (nd * S + e) =
      if R = i*2 - zi h ∧ S = i*2 - zi h + 1 then ((h.getD i 0 : ℕ) : ℝ) * C d e
      else if R = i*2 - zi h + 1 ∧ S = i*2 - zi h then -(((h.getD i 0 : ℕ) : ℝ) * C d e)
      else if R = S ∧ (R = i*2 - zi h ∨ R = i*2 - zi h + 1) ∧ onlyC = false then
        - 2 * w * ((h.getD i 0 : ℕ) : ℝ)^2 * M d e
      else E (nd * R + d) (nd * S + e) := by
  unfold hsGradBody
  simp only
  generalize i*2 - zi h = p
  cases onlyC
  · simp only [Bool.false_eq_true, if_false]
    rw [setBlock_block hd he, setBlock_block hd he, setBlock_block hd he, setBlock_block hd he]
    by_cases h1 : R = p ∧ S = p + 1
    · obtain ⟨rfl, rfl⟩ := h1; norm_num
    by_cases h2 : R = p + 1 ∧ S = p
    · obtain ⟨rfl, rfl⟩ := h2; norm_num
    by_cases h3 : R = p + 1 ∧ S = p + 1
    · obtain ⟨rfl, rfl⟩ := h3; norm_num
    by_cases h4 : R = p ∧ S = p
    · obtain ⟨rfl, rfl⟩ := h4; norm_num
    · rw [if_neg h3, if_neg h4, if_neg h2, if_neg h1, if_neg h1, if_neg h2, if_neg]
      rintro ⟨rfl, h5 | h5, -⟩ <;> omega
  · simp only [if_true]
    rw [setBlock_block hd he, setBlock_block hd he]
    by_cases h1 : R = p ∧ S = p + 1
    · obtain ⟨rfl, rfl⟩ := h1; norm_num
    by_cases h2 : R = p + 1 ∧ S = p
    · obtain ⟨rfl, rfl⟩ := h2; norm_num
    · rw [if_neg h2, if_neg h1, if_neg h1, if_neg h2, if_neg]; simp

/-- A fold whose `i`-th step only writes block rows `p i` and `p i + 1` with
`p i = 2 i - z`, `i ≥ z`, leaves the other block rows alone. -/
theorem fold_untouched {nd d : ℕ} {z : ℕ}
    (body : (ℕ → ℕ → ℝ) → ℕ → ℕ → ℕ → ℝ) {R : ℕ} {e S : ℕ}
    (hb : ∀ E i, R ≠ i*2 - z → R ≠ i*2 - z + 1 →
      body E i (nd * R + d) (nd * S + e) = E (nd * R + d) (nd * S + e))
    (l : List ℕ) (hl : ∀ i ∈ l, R ≠ i*2 - z ∧ R ≠ i*2 - z + 1) (E : ℕ → ℕ → ℝ) :
    l.foldl body E (nd * R + d) (nd * S + e) = E (nd * R + d) (nd * S + e) := by
  induction l generalizing E with
  | nil => rfl
  | cons a l ih =>
    rw [List.foldl_cons, ih (fun i hi => hl i (List.mem_cons_of_mem _ hi)),
      hb _ _ (hl a List.mem_cons_self).1 (hl a List.mem_cons_self).2]

theorem fold_hit {nd d : ℕ} {z : ℕ} (hz : z ≤ 1)
    (body : (ℕ → ℕ → ℝ) → ℕ → ℕ → ℕ → ℝ) {R e S : ℕ} {v : ℕ → ℝ → ℝ}
    (hb : ∀ E i, R ≠ i*2 - z → R ≠ i*2 - z + 1 →
      body E i (nd * R + d) (nd * S + e) = E (nd * R + d) (nd * S + e))
    (hv : ∀ E i, body E i (nd * R + d) (nd * S + e) = v i (E (nd * R + d) (nd * S + e)))
    (l : List ℕ) (hn : l.Nodup) (hlz : ∀ i ∈ l, z ≤ i) {i : ℕ} (hi : i ∈ l)
    (hR : R = i*2 - z ∨ R = i*2 - z + 1) (E : ℕ → ℕ → ℝ) :
    l.foldl body E (nd * R + d) (nd * S + e) = v i (E (nd * R + d) (nd * S + e)) := by
  induction l generalizing E with
  | nil => simp at hi
  | cons a l ih =>
    rw [List.foldl_cons]
    have hn' := List.nodup_cons.mp hn
    rcases List.mem_cons.mp hi with rfl | hi'
    · rw [fold_untouched body hb, hv]
      intro j hj
      have hne : j ≠ i := by rintro rfl; exact hn'.1 hj
      have := hlz j (List.mem_cons_of_mem _ hj)
      have := hlz i List.mem_cons_self
      omega
    · rw [ih hn'.2 (fun j hj => hlz j (List.mem_cons_of_mem _ hj)) hi']
      congr 1
      have hne : a ≠ i := by rintro rfl; exact hn'.1 hi'
      have := hlz i (List.mem_cons_of_mem _ hi')
      have := hlz a List.mem_cons_self
      exact hb _ _ (by omega) (by omega)

theorem mem_hsRange {h : List ℕ} {i : ℕ} : i ∈ hsRange h ↔ i ∈ Ico (zi h) h.length := by
  have := zi_le_length (h := h)
  simp [hsRange, List.mem_range', mem_Ico]
  constructor
  · rintro ⟨j, hj, rfl⟩; omega
  · rintro ⟨h1, h2⟩; exact ⟨i - zi h, by omega, by omega⟩

theorem nodup_hsRange (h : List ℕ) : (hsRange h).Nodup := List.nodup_range'

/-- The assembled `E`. -/
def hsE (nd : ℕ) (M C K : ℕ → ℕ → ℝ) (w : ℝ) (h : List ℕ) (onlyC : Bool) : ℕ → ℕ → ℝ :=
  (hsRange h).foldl (hsBody nd M C K w h onlyC)
    (if zi h = 1 ∧ onlyC = false then setBlock (fun _ _ => 0) 0 nd 0 nd K else fun _ _ => 0)

/-- The assembled `dEdw`. -/
def hsDE (nd : ℕ) (M C : ℕ → ℕ → ℝ) (w : ℝ) (h : List ℕ) (onlyC : Bool) : ℕ → ℕ → ℝ :=
  (hsRange h).foldl (hsGradBody nd M C w h onlyC) (fun _ _ => 0)

theorem harmonicStiffness_ok {h : List ℕ} (hA : Admissible h) (nd : ℕ) (M C K : ℕ → ℕ → ℝ)
    (w : ℝ) (g onlyC : Bool) :
    harmonicStiffness nd M C K w h g onlyC = .ok ⟨numCoeff h * nd, hsE nd M C K w h onlyC,
      if g then some (hsDE nd M C w h onlyC) else none⟩ := by
  unfold harmonicStiffness
  rw [Nhc_ok hA.nodup]
  simp only [hA.ne, if_false]
  cases g <;> rfl

theorem hsE_row {nd : ℕ} (M C K : ℕ → ℕ → ℝ) (w : ℝ) {h : List ℕ} (onlyC : Bool) {i : ℕ}
    (hi : i ∈ Ico (zi h) h.length) {R : ℕ} (hR : R = i*2 - zi h ∨ R = i*2 - zi h + 1)
    {S d e : ℕ} (hd : d < nd) (he : e < nd) :
    hsE nd M C K w h onlyC (nd * R + d) (nd * S + e) =
      if R = i*2 - zi h ∧ S = i*2 - zi h + 1 then ((h.getD i 0 : ℕ) : ℝ) * w * C d e
      else if R = i*2 - zi h + 1 ∧ S = i*2 - zi h then -(((h.getD i 0 : ℕ) : ℝ) * w * C d e)
      else if R = S ∧ onlyC = false then
        K d e - (((h.getD i 0 : ℕ) : ℝ) * w)^2 * M d e
      else 0 := by
  unfold hsE
  rw [fold_hit (zi_le_one h) (hsBody nd M C K w h onlyC)
    (v := fun i x => if R = i*2 - zi h ∧ S = i*2 - zi h + 1 then ((h.getD i 0 : ℕ) : ℝ) * w * C d e
      else if R = i*2 - zi h + 1 ∧ S = i*2 - zi h then -(((h.getD i 0 : ℕ) : ℝ) * w * C d e)
      else if R = S ∧ (R = i*2 - zi h ∨ R = i*2 - zi h + 1) ∧ onlyC = false then
        K d e - (((h.getD i 0 : ℕ) : ℝ) * w)^2 * M d e
      else x) ?_ (fun E i => hsBody_block hd he M C K w h onlyC E i) _ (nodup_hsRange h)
      (fun j hj => (mem_Ico.mp (mem_hsRange.mp hj)).1) (mem_hsRange.mpr hi) hR]
  · simp only [hR, true_and]
    have hz : (if zi h = 1 ∧ onlyC = false then setBlock (fun _ _ => 0) 0 nd 0 nd K
        else fun _ _ => 0) (nd * R + d) (nd * S + e) = 0 := by
      split
      · rename_i hz
        have h1 := (mem_Ico.mp hi).1
        have hb := setBlock_block (P := 0) (Q := 0) (R := R) (S := S) hd he (fun _ _ => 0) K
        simp only [Nat.mul_zero, zero_add, Nat.mul_one] at hb
        rw [hb, if_neg]
        rintro ⟨hR0, -⟩
        have := hz.1
        omega
      · rfl
    rw [hz]
  · intro E j h1 h2
    rw [hsBody_block hd he, if_neg (fun hh => h1 hh.1), if_neg (fun hh => h2 hh.1), if_neg]
    rintro ⟨-, h5 | h5, -⟩
    · exact h1 h5
    · exact h2 h5

theorem hsE_zero {nd : ℕ} (M C K : ℕ → ℕ → ℝ) (w : ℝ) {h : List ℕ} (onlyC : Bool)
    (hz : zi h = 1) {S d e : ℕ} (hd : d < nd) (he : e < nd) :
    hsE nd M C K w h onlyC (nd * 0 + d) (nd * S + e) =
      if S = 0 ∧ onlyC = false then K d e else 0 := by
  unfold hsE
  rw [fold_untouched (z := zi h)]
  · split
    · rename_i hzz
      have hb := setBlock_block (P := 0) (Q := 0) (R := 0) (S := S) hd he (fun _ _ => 0) K
      simp only [Nat.mul_zero, zero_add, Nat.mul_one] at hb
      rw [Nat.mul_zero, Nat.zero_add, hb]
      simp [hzz.2]
    · rename_i hzz
      rw [if_neg]
      rintro ⟨-, h2⟩; exact hzz ⟨hz, h2⟩
  · intro E j h1 h2
    rw [hsBody_block hd he, if_neg (fun hh => h1 hh.1), if_neg (fun hh => h2 hh.1), if_neg]
    rintro ⟨-, h5 | h5, -⟩
    · exact h1 h5
    · exact h2 h5
  · intro j hj
    have := (mem_Ico.mp (mem_hsRange.mp hj)).1
    omega

theorem hsDE_row {nd : ℕ} (M C : ℕ → ℕ → ℝ) (w : ℝ) {h : List ℕ} (onlyC : Bool) {i : ℕ}
    (hi : i ∈ Ico (zi h) h.length) {R : ℕ} (hR : R = i*2 - zi h ∨ R = i*2 - zi h + 1)
    {S d e : ℕ} (hd : d < nd) (he : e < nd) :
    hsDE nd M C w h onlyC (nd * R + d) (nd * S + e) =
      if R = i*2 - zi h ∧ S = i*2 - zi h + 1 then ((h.getD i 0 : ℕ) : ℝ) * C d e
      else if R = i*2 - zi h + 1 ∧ S = i*2 - zi h then -(((h.getD i 0 : ℕ) : ℝ) * C d e)
      else if R = S ∧ onlyC = false then
        - 2 * w * ((h.getD i 0 : ℕ) : ℝ)^2 * M d e
      else 0 := by
  unfold hsDE
  rw [fold_hit (zi_le_one h) (hsGradBody nd M C w h onlyC)
    (v := fun i x => if R = i*2 - zi h ∧ S = i*2 - zi h + 1 then ((h.getD i 0 : ℕ) : ℝ) * C d e
      else if R = i*2 - zi h + 1 ∧ S = i*2 - zi h then -(((h.getD i 0 : ℕ) : ℝ) * C d e)
      else if R = S ∧ (R = i*2 - zi h ∨ R = i*2 - zi h + 1) ∧ onlyC = false then
        - 2 * w * ((h.getD i 0 : ℕ) : ℝ)^2 * M d e
      else x) ?_ (fun E i => hsGradBody_block hd he M C w h onlyC E i) _ (nodup_hsRange h)
      (fun j hj => (mem_Ico.mp (mem_hsRange.mp hj)).1) (mem_hsRange.mpr hi) hR]
  · simp only [hR, true_and]
  · intro E j h1 h2
    rw [hsGradBody_block hd he, if_neg (fun hh => h1 hh.1), if_neg (fun hh => h2 hh.1), if_neg]
    rintro ⟨-, h5 | h5, -⟩
    · exact h1 h5
    · exact h2 h5

theorem hsDE_zero {nd : ℕ} (M C : ℕ → ℕ → ℝ) (w : ℝ) {h : List ℕ} (onlyC : Bool)
    (hz : zi h = 1) {S d e : ℕ} (hd : d < nd) (he : e < nd) :
    hsDE nd M C w h onlyC (nd * 0 + d) (nd * S + e) = 0 := by
  unfold hsDE
  rw [fold_untouched (z := zi h)]
  · intro E j h1 h2
    rw [hsGradBody_block hd he, if_neg (fun hh => h1 hh.1), if_neg (fun hh => h2 hh.1), if_neg]
    rintro ⟨-, h5 | h5, -⟩
    · exact h1 h5
    · exact h2 h5
  · intro j hj
    have := (mem_Ico.mp (mem_hsRange.mp hj)).1
    omega

/-- Every block row index below `numCoeff h` is the mean or a cosine/sine position. -/
theorem row_cases {h : List ℕ} (h0 : 0 ∉ h.tail) {R : ℕ} (hR : R < numCoeff h) :
    (zi h = 1 ∧ R = 0) ∨ ∃ i ∈ Ico (zi h) h.length, R = i*2 - zi h ∨ R = i*2 - zi h + 1 := by
  rw [numCoeff_eq h0] at hR
  have := zi_le_one h
  by_cases h1 : zi h = 1 ∧ R = 0
  · exact Or.inl h1
  · right
    refine ⟨(R + zi h)/2, ?_, ?_⟩
    · rw [mem_Ico]; omega
    · omega

theorem pos_lt {h : List ℕ} (h0 : 0 ∉ h.tail) {i : ℕ} (hi : i ∈ Ico (zi h) h.length) :
    i*2 - zi h + 1 < numCoeff h := by
  rw [numCoeff_eq h0]
  rw [mem_Ico] at hi
  have := zi_le_one h
  omega

/-- Rows of `E @ U`. -/
theorem hsE_mulVec_cos {nd : ℕ} (M C K : ℕ → ℕ → ℝ) (w : ℝ) {h : List ℕ} (h0 : 0 ∉ h.tail)
    {i : ℕ} (hi : i ∈ Ico (zi h) h.length) {d : ℕ} (hd : d < nd) (U : ℕ → ℝ) (onlyC : Bool) :
    matVec (numCoeff h * nd) (hsE nd M C K w h onlyC) U (nd * (i*2 - zi h) + d) =
      ∑ e ∈ range nd, (((h.getD i 0 : ℕ) : ℝ) * w * C d e * U (nd * (i*2 - zi h + 1) + e)
        + (if onlyC then 0 else (K d e - (((h.getD i 0 : ℕ) : ℝ) * w)^2 * M d e))
            * U (nd * (i*2 - zi h) + e)) := by
  have hp := pos_lt h0 hi
  have hrow := fun S e (he : e < nd) =>
    hsE_row (S := S) M C K w onlyC hi (R := i*2 - zi h) (Or.inl rfl) hd he
  generalize i*2 - zi h = p at *
  unfold matVec
  rw [sum_range_blocks, sum_eq_add_of_mem (p+1) p (by simpa using hp)
    (by simp; omega) (by omega), ← sum_add_distrib]
  · apply sum_congr rfl
    intro e he
    rw [mem_range] at he
    rw [hrow _ _ he, hrow _ _ he]
    cases onlyC <;> simp
  · intro S _ hS
    apply sum_eq_zero
    intro e he
    rw [mem_range] at he
    rw [hrow _ _ he, if_neg (fun hh => hS.1 hh.2), if_neg (by omega),
      if_neg (fun hh => hS.2 hh.1.symm), zero_mul]

theorem hsE_mulVec_sin {nd : ℕ} (M C K : ℕ → ℕ → ℝ) (w : ℝ) {h : List ℕ} (h0 : 0 ∉ h.tail)
    {i : ℕ} (hi : i ∈ Ico (zi h) h.length) {d : ℕ} (hd : d < nd) (U : ℕ → ℝ) (onlyC : Bool) :
    matVec (numCoeff h * nd) (hsE nd M C K w h onlyC) U (nd * (i*2 - zi h + 1) + d) =
      ∑ e ∈ range nd, (-(((h.getD i 0 : ℕ) : ℝ) * w * C d e * U (nd * (i*2 - zi h) + e))
        + (if onlyC then 0 else (K d e - (((h.getD i 0 : ℕ) : ℝ) * w)^2 * M d e))
            * U (nd * (i*2 - zi h + 1) + e)) := by
  have hp := pos_lt h0 hi
  have hrow := fun S e (he : e < nd) =>
    hsE_row (S := S) M C K w onlyC hi (R := i*2 - zi h + 1) (Or.inr rfl) hd he
  generalize i*2 - zi h = p at *
  unfold matVec
  rw [sum_range_blocks, sum_eq_add_of_mem p (p+1) (by simp; omega)
    (by simpa using hp) (by omega), ← sum_add_distrib]
  · apply sum_congr rfl
    intro e he
    rw [mem_range] at he
    rw [hrow _ _ he, hrow _ _ he]
    cases onlyC <;> simp
  · intro S _ hS
    apply sum_eq_zero
    intro e he
    rw [mem_range] at he
    rw [hrow _ _ he, if_neg (by omega), if_neg (fun hh => hS.1 hh.2),
      if_neg (fun hh => hS.2 hh.1.symm), zero_mul]

theorem numCoeff_pos_of_zi {h : List ℕ} (hz : zi h = 1) : 0 < numCoeff h := by
  cases h with
  | nil => simp [zi] at hz
  | cons k hs => simp only [numCoeff]; split <;> omega

theorem hsE_mulVec_zero {nd : ℕ} (M C K : ℕ → ℕ → ℝ) (w : ℝ) {h : List ℕ}
    (hz : zi h = 1) {d : ℕ} (hd : d < nd) (U : ℕ → ℝ) (onlyC : Bool) :
    matVec (numCoeff h * nd) (hsE nd M C K w h onlyC) U (nd * 0 + d) =
      ∑ e ∈ range nd, (if onlyC then 0 else K d e) * U (nd * 0 + e) := by
  unfold matVec
  rw [sum_range_blocks, sum_eq_single_of_mem 0 (by simpa using numCoeff_pos_of_zi hz)]
  · apply sum_congr rfl
    intro e he
    rw [hsE_zero M C K w onlyC hz hd (mem_range.mp he)]
    cases onlyC <;> simp
  · intro S _ hS
    apply sum_eq_zero
    intro e he
    rw [hsE_zero M C K w onlyC hz hd (mem_range.mp he), if_neg (fun hh => hS hh.1), zero_mul]

/-- First time derivative of a series with fundamental frequency `w`. -/
theorem series_hasDerivAt {h : List ℕ} (h0 : 0 ∉ h.tail) (c : ℕ → ℝ) (w t : ℝ) :
    HasDerivAt (fun t => series h c (w * t))
      (∑ i ∈ Ico (zi h) h.length, ((h.getD i 0 : ℕ) : ℝ) * w *
        (c (i*2 - zi h + 1) * Real.cos (h.getD i 0 * (w * t))
          - c (i*2 - zi h) * Real.sin (h.getD i 0 * (w * t)))) t := by
  have heq : (fun t => series h c (w * t)) = fun t => meanCoef h c +
      ∑ i ∈ Ico (zi h) h.length, (c (i*2 - zi h) * Real.cos (h.getD i 0 * (w * t))
        + c (i*2 - zi h + 1) * Real.sin (h.getD i 0 * (w * t))) := by
    funext t; exact series_eq h0 c _
  rw [heq]
  apply HasDerivAt.const_add
  apply HasDerivAt.fun_sum
  intro i _
  have hlin : HasDerivAt (fun t => ((h.getD i 0 : ℕ) : ℝ) * (w * t)) (((h.getD i 0 : ℕ) : ℝ) * w) t := by
    have := ((hasDerivAt_id t).const_mul w).const_mul ((h.getD i 0 : ℕ) : ℝ)
    simpa using this
  have h1 := (hlin.cos.const_mul (c (i*2 - zi h))).add (hlin.sin.const_mul (c (i*2 - zi h + 1)))
  exact h1.congr_deriv (by ring)

theorem series_deriv_hasDerivAt {h : List ℕ} (h0 : 0 ∉ h.tail) (c : ℕ → ℝ) (w t : ℝ) :
    HasDerivAt (deriv (fun t => series h c (w * t)))
      (∑ i ∈ Ico (zi h) h.length, -(((h.getD i 0 : ℕ) : ℝ) * w)^2 *
        (c (i*2 - zi h) * Real.cos (h.getD i 0 * (w * t))
          + c (i*2 - zi h + 1) * Real.sin (h.getD i 0 * (w * t)))) t := by
  have heq : deriv (fun t => series h c (w * t)) = fun t =>
      ∑ i ∈ Ico (zi h) h.length, ((h.getD i 0 : ℕ) : ℝ) * w *
        (c (i*2 - zi h + 1) * Real.cos (h.getD i 0 * (w * t))
          - c (i*2 - zi h) * Real.sin (h.getD i 0 * (w * t))) := by
    funext t; exact (series_hasDerivAt h0 c w t).deriv
  rw [heq]
  apply HasDerivAt.fun_sum
  intro i _
  have hlin : HasDerivAt (fun t => ((h.getD i 0 : ℕ) : ℝ) * (w * t)) (((h.getD i 0 : ℕ) : ℝ) * w) t := by
    have := ((hasDerivAt_id t).const_mul w).const_mul ((h.getD i 0 : ℕ) : ℝ)
    simpa using this
  have h1 := ((hlin.cos.const_mul (c (i*2 - zi h + 1))).sub
    (hlin.sin.const_mul (c (i*2 - zi h)))).const_mul (((h.getD i 0 : ℕ) : ℝ) * w)
  exact h1.congr_deriv (by ring)

/-- The dynamic equation, time domain. -/
theorem stiffness_series {h : List ℕ} (h0 : 0 ∉ h.tail) (nd : ℕ) (M C K : ℕ → ℕ → ℝ) (w : ℝ)
    (U : ℕ → ℝ) (onlyC : Bool) {d : ℕ} (hd : d < nd) (t : ℝ) :
    series h (fun r => matVec (numCoeff h * nd) (hsE nd M C K w h onlyC) U (r * nd + d)) (w * t) =
      ∑ e ∈ range nd,
        ((if onlyC then 0 else M d e) * deriv (deriv (fun t => series h (fun r => U (r * nd + e)) (w * t))) t
        + C d e * deriv (fun t => series h (fun r => U (r * nd + e)) (w * t)) t
        + (if onlyC then 0 else K d e) * series h (fun r => U (r * nd + e)) (w * t)) := by
  have hR : ∀ e, ((if onlyC then 0 else M d e) * deriv (deriv (fun t => series h (fun r => U (r * nd + e)) (w * t))) t
        + C d e * deriv (fun t => series h (fun r => U (r * nd + e)) (w * t)) t
        + (if onlyC then 0 else K d e) * series h (fun r => U (r * nd + e)) (w * t))
      = (if onlyC then 0 else K d e) * meanCoef h (fun r => U (r * nd + e)) +
        ∑ i ∈ Ico (zi h) h.length,
        ((((h.getD i 0 : ℕ) : ℝ) * w * C d e * U (nd * (i*2 - zi h + 1) + e)
        + (if onlyC then 0 else (K d e - (((h.getD i 0 : ℕ) : ℝ) * w)^2 * M d e))
            * U (nd * (i*2 - zi h) + e)) * Real.cos (h.getD i 0 * (w * t))
        + (-(((h.getD i 0 : ℕ) : ℝ) * w * C d e * U (nd * (i*2 - zi h) + e))
        + (if onlyC then 0 else (K d e - (((h.getD i 0 : ℕ) : ℝ) * w)^2 * M d e))
            * U (nd * (i*2 - zi h + 1) + e)) * Real.sin (h.getD i 0 * (w * t))) := by
    intro e
    rw [(series_hasDerivAt h0 _ w t).deriv, (series_deriv_hasDerivAt h0 _ w t).deriv,
      series_eq h0, mul_add, mul_sum, mul_sum, mul_sum]
    rw [add_left_comm, ← sum_add_distrib, ← sum_add_distrib]
    congr 1
    apply sum_congr rfl
    intro i _
    rw [Nat.mul_comm nd, Nat.mul_comm nd]
    cases onlyC
    · simp only [Bool.false_eq_true, if_false]; ring
    · simp only [if_true]; ring
  rw [sum_congr rfl (fun e _ => hR e), sum_add_distrib, sum_comm, series_eq h0]
  congr 1
  · unfold meanCoef
    by_cases hz : zi h = 1
    · simp only [hz, if_true]
      have := hsE_mulVec_zero M C K w hz hd U onlyC
      simp only [Nat.mul_zero] at this
      rw [Nat.zero_mul, this]
    · simp [hz]
  · apply sum_congr rfl
    intro i hi
    rw [Nat.mul_comm (i*2 - zi h) nd, Nat.mul_comm (i*2 - zi h + 1) nd, hsE_mulVec_cos M C K w h0 hi hd U onlyC,
      hsE_mulVec_sin M C K w h0 hi hd U onlyC, sum_mul, sum_mul, ← sum_add_distrib]

/-- `dEdw` is the derivative of `E`. -/
theorem hsE_hasDerivAt {h : List ℕ} (hA : Admissible h) (nd : ℕ) (M C K : ℕ → ℕ → ℝ) (onlyC : Bool) (w : ℝ) :
    ∀ i < numCoeff h * nd, ∀ j < numCoeff h * nd,
      HasDerivAt (fun w => hsE nd M C K w h onlyC i j) (hsDE nd M C w h onlyC i j) w := by
  intro i hi j hj
  have hnd : 0 < nd := by
    by_contra hh
    have : nd = 0 := by omega
    subst this; simp at hi
  obtain ⟨R, d, hd, rfl, hR⟩ : ∃ R d, d < nd ∧ i = nd * R + d ∧ R < numCoeff h :=
    ⟨i / nd, i % nd, Nat.mod_lt _ hnd, (Nat.div_add_mod _ _).symm,
      (Nat.div_lt_iff_lt_mul hnd).mpr hi⟩
  obtain ⟨S, e, he, rfl⟩ : ∃ S e, e < nd ∧ j = nd * S + e :=
    ⟨j / nd, j % nd, Nat.mod_lt _ hnd, (Nat.div_add_mod _ _).symm⟩
  rcases row_cases hA.zero_first hR with ⟨hz, rfl⟩ | ⟨p, hp, hRp⟩
  · rw [hsDE_zero M C w onlyC hz hd he]
    have : (fun w => hsE nd M C K w h onlyC (nd * 0 + d) (nd * S + e))
        = fun _ => if S = 0 ∧ onlyC = false then K d e else 0 := by
      funext w; rw [hsE_zero M C K w onlyC hz hd he]
    rw [this]
    exact hasDerivAt_const _ _
  · rw [hsDE_row M C w onlyC hp hRp hd he]
    have : (fun w => hsE nd M C K w h onlyC (nd * R + d) (nd * S + e)) = fun w =>
      if R = p*2 - zi h ∧ S = p*2 - zi h + 1 then ((h.getD p 0 : ℕ) : ℝ) * w * C d e
      else if R = p*2 - zi h + 1 ∧ S = p*2 - zi h then -(((h.getD p 0 : ℕ) : ℝ) * w * C d e)
      else if R = S ∧ onlyC = false then
        K d e - (((h.getD p 0 : ℕ) : ℝ) * w)^2 * M d e
      else 0 := by
      funext w; rw [hsE_row M C K w onlyC hp hRp hd he]
    rw [this]
    generalize ((h.getD p 0 : ℕ) : ℝ) = k
    have hlin : HasDerivAt (fun w : ℝ => k * w) k w := by
      simpa using (hasDerivAt_id w).const_mul k
    split_ifs
    · exact hlin.mul_const (C d e)
    · exact (hlin.mul_const (C d e)).neg
    · have := ((hlin.pow 2).mul_const (M d e)).const_sub (K d e)
      refine this.congr_deriv ?_
      simp only [Nat.cast_ofNat, Nat.add_one_sub_one, pow_one]
      ring
    · exact hasDerivAt_const _ _

end

end TMD
