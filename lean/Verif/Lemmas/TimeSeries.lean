import Verif.Lemmas.Series
import Mathlib.Algebra.BigOperators.Ring.Finset

/-! Helper lemmas about `time_series_deriv`. -/

namespace TMD

open Spec Finset

noncomputable section

/-- Series over *all* harmonics `1 .. n` with rows laid out as in `X0full`. -/
def fullSeries (n : ℕ) (X : ℕ → ℝ) (τ : ℝ) : ℝ :=
  X 0 + ∑ k ∈ range n, (X (2*k+1) * Real.cos ((k+1 : ℕ) * τ) + X (2*k+2) * Real.sin ((k+1 : ℕ) * τ))

theorem coefOf_not_mem {h : List ℕ} {c : ℕ → ℝ} {m : ℕ} (hm : m ∉ h) : coefOf h c m = (0, 0) := by
  induction h generalizing c with
  | nil => rfl
  | cons k hs ih =>
    simp only [List.mem_cons, not_or] at hm
    rw [coefOf, if_neg (fun e => hm.1 e.symm), ih hm.2]

theorem le_hmax {h : List ℕ} {k : ℕ} (hk : k ∈ h) : k ≤ hmax h := by
  induction h with
  | nil => simp at hk
  | cons a hs ih =>
    simp only [hmax, List.foldr_cons]
    rcases List.mem_cons.mp hk with rfl | hk
    · exact le_max_left _ _
    · exact le_trans (ih hk) (le_max_right _ _)

theorem hmax_mem {h : List ℕ} (hn : h ≠ []) : hmax h ∈ h := by
  induction h with
  | nil => simp at hn
  | cons a hs ih =>
    simp only [hmax, List.foldr_cons]
    by_cases hs' : hs = []
    · subst hs'; simp
    · rcases le_total a (hmax hs) with h1 | h1
      · rw [show max a (List.foldr max 0 hs) = hmax hs from max_eq_right h1]
        exact List.mem_cons_of_mem _ (ih hs')
      · rw [show max a (List.foldr max 0 hs) = a from max_eq_left h1]
        exact List.mem_cons_self

theorem hmax_le {h : List ℕ} {n : ℕ} : hmax h ≤ n ↔ ∀ k ∈ h, k ≤ n := by
  constructor
  · intro h1 k hk; exact le_trans (le_hmax hk) h1
  · intro h1
    by_cases hn : h = []
    · subst hn; simp [hmax]
    · exact h1 _ (hmax_mem hn)

/-- The series in terms of per-harmonic coefficients. -/
theorem series_eq_coefOf {h : List ℕ} (hn : h.Nodup) (c : ℕ → ℝ) (τ : ℝ) {n : ℕ}
    (hle : ∀ k ∈ h, k ≤ n) :
    series h c τ = (coefOf h c 0).1 + ∑ k ∈ range n,
      ((coefOf h c (k+1)).1 * Real.cos ((k+1 : ℕ) * τ)
        + (coefOf h c (k+1)).2 * Real.sin ((k+1 : ℕ) * τ)) := by
  induction h generalizing c with
  | nil => simp [series, coefOf]
  | cons a hs ih =>
    have hn' := List.nodup_cons.mp hn
    have hle' : ∀ k ∈ hs, k ≤ n := fun k hk => hle k (List.mem_cons_of_mem _ hk)
    by_cases ha : a = 0
    · subst ha
      simp only [series, if_true]
      rw [ih hn'.2 _ hle', coefOf_not_mem hn'.1]
      simp only [coefOf, if_true, zero_add]
      congr 1
    · simp only [series, ha, if_false]
      rw [ih hn'.2 _ hle']
      have e0 : (coefOf (a :: hs) c 0) = coefOf hs (fun i => c (i+2)) 0 := by
        simp [coefOf, ha]
      rw [e0]
      have hmem : a - 1 ∈ range n := by
        have := hle a List.mem_cons_self
        rw [mem_range]; omega
      have ha1 : a - 1 + 1 = a := by omega
      rw [← add_sum_erase _ _ hmem, ← add_sum_erase _ _ hmem, ha1, coefOf_not_mem hn'.1]
      have e1 : coefOf (a :: hs) c a = (c 0, c 1) := by simp [coefOf, ha]
      rw [e1]
      have e2 : ∀ k ∈ (range n).erase (a-1),
          ((coefOf (a :: hs) c (k+1)).1 * Real.cos ((k+1 : ℕ) * τ)
        + (coefOf (a :: hs) c (k+1)).2 * Real.sin ((k+1 : ℕ) * τ)) =
          ((coefOf hs (fun i => c (i+2)) (k+1)).1 * Real.cos ((k+1 : ℕ) * τ)
        + (coefOf hs (fun i => c (i+2)) (k+1)).2 * Real.sin ((k+1 : ℕ) * τ)) := by
        intro k hk
        rw [mem_erase] at hk
        have : a ≠ k + 1 := by have := hk.1; omega
        simp [coefOf, ha, this]
      rw [sum_congr rfl e2]
      simp only [zero_mul, add_zero, zero_add]
      ring

variable {ι : Type}

theorem scatter_row_untouched (X0 : ℕ → ι → ℝ) (hs : List ℕ) (r : ℕ) (X : ℕ → ι → ℝ) (s : ℕ)
    (hs1 : ∀ k ∈ hs, s ≠ 2*k - 1 ∧ s ≠ 2*k) : scatter X0 hs r X s = X s := by
  induction hs generalizing r X with
  | nil => rfl
  | cons a hs ih =>
    rw [scatter, ih _ _ (fun k hk => hs1 k (List.mem_cons_of_mem _ hk))]
    have := hs1 a List.mem_cons_self
    simp [setRow, this.1, this.2]

theorem scatter_row (X0 : ℕ → ι → ℝ) {hs : List ℕ} (hn : hs.Nodup) (h0 : 0 ∉ hs) (r : ℕ)
    (X : ℕ → ι → ℝ) {m : ℕ} (hm : m ∈ hs) (d : ι) :
    (scatter X0 hs r X (2*m-1) d, scatter X0 hs r X (2*m) d)
      = coefOf hs (fun i => X0 (r + i) d) m := by
  induction hs generalizing r X with
  | nil => simp at hm
  | cons a hs ih =>
    have hn' := List.nodup_cons.mp hn
    have ha : a ≠ 0 := by rintro rfl; simp at h0
    have h0' : 0 ∉ hs := fun hh => h0 (List.mem_cons_of_mem _ hh)
    rw [scatter]
    by_cases hma : a = m
    · subst hma
      have hun : ∀ k ∈ hs, (2*a-1 ≠ 2*k - 1 ∧ 2*a-1 ≠ 2*k) ∧ (2*a ≠ 2*k-1 ∧ 2*a ≠ 2*k) := by
        intro k hk
        have : k ≠ a := by rintro rfl; exact hn'.1 hk
        have : k ≠ 0 := by rintro rfl; exact h0' hk
        omega
      rw [scatter_row_untouched _ _ _ _ _ (fun k hk => (hun k hk).1),
        scatter_row_untouched _ _ _ _ _ (fun k hk => (hun k hk).2)]
      have : 2 * a - 1 ≠ 2 * a := by omega
      simp [coefOf, ha, setRow, this]
    · have hm' : m ∈ hs := by
        rcases List.mem_cons.mp hm with h1 | h1
        · exact absurd h1.symm hma
        · exact h1
      rw [ih hn'.2 h0' _ _ hm', coefOf, if_neg hma]
      simp only [ha, if_false]
      congr 1
      funext i
      congr 1; omega

/-- Rows of `X0full`. -/
theorem x0full_rows {h : List ℕ} (hA : Admissible h) (X0 : ℕ → ι → ℝ) (d : ι) :
    (x0full h X0 0 d = (coefOf h (fun r => X0 r d) 0).1) ∧
    ∀ m, m ≠ 0 → (x0full h X0 (2*m-1) d, x0full h X0 (2*m) d) = coefOf h (fun r => X0 r d) m := by
  obtain ⟨hne, hn, h0⟩ := hA
  cases h with
  | nil => simp at hne
  | cons a hs =>
    have hn' := List.nodup_cons.mp hn
    simp only [List.tail_cons] at h0
    have hun0 : ∀ k ∈ hs, 0 ≠ 2*k-1 ∧ 0 ≠ 2*k := by
      intro k hk
      have : k ≠ 0 := by rintro rfl; exact h0 hk
      omega
    have hunm : ∀ m, m ∉ hs → m ≠ 0 → (∀ k ∈ hs, 2*m-1 ≠ 2*k-1 ∧ 2*m-1 ≠ 2*k) ∧
        (∀ k ∈ hs, 2*m ≠ 2*k-1 ∧ 2*m ≠ 2*k) := by
      intro m hm hm0
      constructor <;> intro k hk <;>
      · have : k ≠ m := by rintro rfl; exact hm hk
        have : k ≠ 0 := by rintro rfl; exact h0 hk
        omega
    by_cases ha : a = 0
    · subst ha
      simp only [x0full, if_true]
      constructor
      · rw [scatter_row_untouched _ _ _ _ _ hun0]; simp [setRow, coefOf]
      · intro m hm
        by_cases hmem : m ∈ hs
        · rw [scatter_row X0 hn'.2 h0 _ _ hmem, coefOf, if_neg (fun e => hm e.symm)]
          simp only [if_true]
          congr 1
          funext i; rw [Nat.add_comm]
        · obtain ⟨q1, q2⟩ := hunm m hmem hm
          rw [scatter_row_untouched _ _ _ _ _ q1, scatter_row_untouched _ _ _ _ _ q2,
            coefOf, if_neg (fun e => hm e.symm), coefOf_not_mem hmem]
          have : 2*m-1 ≠ 0 := by omega
          simp [setRow, this, hm]
    · have h0' : 0 ∉ a :: hs := by
        simp only [List.mem_cons, not_or]; exact ⟨fun e => ha e.symm, h0⟩
      simp only [x0full, ha, if_false]
      constructor
      · rw [coefOf_not_mem h0', scatter_row_untouched]
        intro k hk
        have : k ≠ 0 := by rintro rfl; exact h0' hk
        omega
      · intro m hm
        by_cases hmem : m ∈ a :: hs
        · rw [scatter_row X0 hn h0' _ _ hmem]
          simp
        · rw [coefOf_not_mem hmem, scatter_row_untouched, scatter_row_untouched]
          · intro k hk
            have : k ≠ m := by rintro rfl; exact hmem hk
            have : k ≠ 0 := by rintro rfl; exact h0' hk
            omega
          · intro k hk
            have : k ≠ m := by rintro rfl; exact hmem hk
            have : k ≠ 0 := by rintro rfl; exact h0' hk
            omega

/-- Without differentiation, the full layout is the original series. -/
theorem fullSeries_x0full {h : List ℕ} (hA : Admissible h) (X0 : ℕ → ι → ℝ) (d : ι) (τ : ℝ)
    {n : ℕ} (hle : ∀ k ∈ h, k ≤ n) :
    fullSeries n (fun r => x0full h X0 r d) τ = series h (fun r => X0 r d) τ := by
  rw [series_eq_coefOf hA.nodup _ τ hle, fullSeries, (x0full_rows hA X0 d).1]
  congr 1
  apply sum_congr rfl
  intro k _
  have := (x0full_rows hA X0 d).2 (k+1) (by omega)
  rw [← this]
  simp only
  rw [show 2*(k+1)-1 = 2*k+1 by omega, show 2*(k+1) = 2*k+2 by omega]

/-- Entry pattern of the differentiation matrix. -/
def d1Entry (i j : ℕ) : ℝ :=
  if i % 2 = 1 then (if j = i + 1 then ((i+1)/2 : ℕ) else 0)
  else (if j + 1 = i then -1 * ((i/2 : ℕ) : ℝ) else 0)

theorem d1_eq (h : List ℕ) (i j : ℕ) :
    d1 h i j = if i ≠ 0 ∧ (i+1)/2 ∈ h then d1Entry i j else 0 := by
  unfold d1
  have key : ∀ (l : List ℕ) (S : List ℕ) (D : ℕ → ℕ → ℝ), (∀ k ∈ l, k ≠ 0) → (∀ k ∈ S, k ≠ 0) →
      (∀ i j, D i j = if (i+1)/2 ∈ S then d1Entry i j else 0) →
      ∀ i j, l.foldl (fun (D : ℕ → ℕ → ℝ) (k : ℕ) =>
        setRow (setRow D ((k-1)*2+1) (setRow (D ((k-1)*2+1)) ((k-1)*2+2) (k : ℝ))) ((k-1)*2+2)
          (setRow ((setRow D ((k-1)*2+1) (setRow (D ((k-1)*2+1)) ((k-1)*2+2) (k : ℝ)))
            ((k-1)*2+2)) ((k-1)*2+1) (-1 * (k : ℝ)))) D i j
        = if (i+1)/2 ∈ l ++ S then d1Entry i j else 0 := by
    intro l
    induction l with
    | nil => intro S D _ _ hD i j; simpa using hD i j
    | cons a l ih =>
      intro S D hl hS hD i j
      have ha : a ≠ 0 := hl a List.mem_cons_self
      rw [List.foldl_cons, ih (a :: S) _ (fun k hk => hl k (List.mem_cons_of_mem _ hk))]
      · simp only [List.cons_append, List.mem_cons, List.mem_append]
        apply if_congr _ rfl rfl
        tauto
      · intro k hk
        rcases List.mem_cons.mp hk with rfl | hk
        · exact ha
        · exact hS k hk
      · intro i j
        have hne : (a-1)*2+2 ≠ (a-1)*2+1 := by omega
        by_cases h1 : i = (a-1)*2+2
        · have e1 : (i+1)/2 = a := by omega
          have e2 : i % 2 ≠ 1 := by omega
          have e3 : i / 2 = a := by omega
          simp only [setRow, h1, if_true, hne, if_false]
          rw [← h1, hD, e1]
          simp only [List.mem_cons, true_or, if_true, d1Entry, e2, if_false, e3]
          by_cases hj : j = (a-1)*2+1
          · have : j + 1 = i := by omega
            simp [hj, this]
            intro hh; omega
          · have : ¬ (j + 1 = i) := by omega
            simp [hj, this]
        · by_cases h2 : i = (a-1)*2+1
          · have e1 : (i+1)/2 = a := by omega
            have e2 : i % 2 = 1 := by omega
            have h3 : ¬ ((a-1)*2+1 = (a-1)*2+2) := by omega
            simp only [setRow, h2, h3, if_true, if_false]
            rw [← h2, hD, e1]
            simp only [List.mem_cons, true_or, if_true, d1Entry, e2]
            by_cases hj : j = (a-1)*2+2
            · have : j = i + 1 := by omega
              simp [hj, this, e1]
              intro hh; omega
            · have : ¬ (j = i + 1) := by omega
              simp [hj, this]
          · have e1 : (i+1)/2 ≠ a := by omega
            simp only [setRow, h1, h2, if_false]
            rw [hD]
            simp [e1]
  have := key (h.filter (fun k => k ≠ 0)) [] (fun _ _ => 0) (by simp) (by simp) (by simp) i j
  simp only [List.append_nil] at this
  rw [this]
  apply if_congr _ rfl rfl
  simp only [ne_eq, decide_not, List.mem_filter, Bool.not_eq_eq_eq_not, Bool.not_true,
    decide_eq_false_iff_not]
  constructor
  · rintro ⟨h1, h2⟩; exact ⟨by omega, h1⟩
  · rintro ⟨h1, h2⟩; exact ⟨h2, by omega⟩

/-- One differentiation, in closed form. -/
def dstep (h : List ℕ) (X : ℕ → ι → ℝ) : ℕ → ι → ℝ := fun i d =>
  if i ≠ 0 ∧ (i+1)/2 ∈ h then
    (if i % 2 = 1 then (((i+1)/2 : ℕ) : ℝ) * X (i+1) d else -((i/2 : ℕ) : ℝ) * X (i-1) d)
  else 0

theorem matMul_d1 (h : List ℕ) {Nh : ℕ} (hle : ∀ k ∈ h, k ≤ Nh) (X : ℕ → ι → ℝ) (i : ℕ) (d : ι) :
    matMul (2*Nh+1) (d1 h) X i d = dstep h X i d := by
  unfold matMul dstep
  simp only [d1_eq]
  by_cases hi : i ≠ 0 ∧ (i+1)/2 ∈ h
  · simp only [hi, ne_eq, not_false_eq_true, and_self, if_true, d1Entry]
    have hb := hle _ hi.2
    by_cases hodd : i % 2 = 1
    · simp only [hodd, if_true]
      rw [sum_eq_single_of_mem (i+1) (by rw [mem_range]; omega)]
      · simp
      · intro j _ hj; simp [hj]
    · simp only [hodd, if_false]
      have := hi.1
      rw [sum_eq_single_of_mem (i-1) (by rw [mem_range]; omega)]
      · rw [if_pos (by omega)]; ring
      · intro j _ hj
        rw [if_neg (by omega), zero_mul]
  · simp [hi]

theorem matMul_matPow (h : List ℕ) {Nh : ℕ} (hle : ∀ k ∈ h, k ≤ Nh) (X : ℕ → ι → ℝ) (p : ℕ)
    (i : ℕ) (hi : i < 2*Nh+1) (d : ι) :
    matMul (2*Nh+1) (matPow (2*Nh+1) (d1 h) p) X i d = ((dstep h)^[p] X) i d := by
  induction p generalizing i d with
  | zero =>
    simp only [matPow, Function.iterate_zero, id_eq, matMul]
    rw [sum_eq_single_of_mem i (by simpa using hi)]
    · simp
    · intro j _ hj; simp [Ne.symm hj]
  | succ p ih =>
    rw [Function.iterate_succ_apply', ← matMul_d1 h hle]
    simp only [matPow]
    unfold matMul
    simp only [sum_mul]
    rw [sum_comm]
    apply sum_congr rfl
    intro k hk
    rw [← ih k (mem_range.mp hk)]
    unfold matMul
    rw [mul_sum]
    apply sum_congr rfl
    intro j _
    ring

/-- Rows of unlisted harmonics vanish. -/
def Supp (h : List ℕ) (X : ℕ → ι → ℝ) : Prop := ∀ i d, i ≠ 0 → (i+1)/2 ∉ h → X i d = 0

theorem supp_dstep (h : List ℕ) (X : ℕ → ι → ℝ) : Supp h (dstep h X) := by
  intro i d hi hm
  simp [dstep, hm]

theorem supp_iter (h : List ℕ) {X : ℕ → ι → ℝ} (hX : Supp h X) (p : ℕ) :
    Supp h ((dstep h)^[p] X) := by
  cases p with
  | zero => exact hX
  | succ p => rw [Function.iterate_succ_apply']; exact supp_dstep _ _

theorem supp_x0full {h : List ℕ} (hA : Admissible h) (X0 : ℕ → ι → ℝ) : Supp h (x0full h X0) := by
  intro i d hi hm
  have := (x0full_rows hA X0 d).2 ((i+1)/2) (by omega)
  rw [coefOf_not_mem hm] at this
  rcases Nat.even_or_odd' i with ⟨k, hk | hk⟩
  · have e : 2*((i+1)/2) = i := by omega
    rw [e] at this
    exact (Prod.mk.inj this).2
  · have e : 2*((i+1)/2) - 1 = i := by omega
    rw [e] at this
    exact (Prod.mk.inj this).1

theorem fullSeries_hasDerivAt (n : ℕ) {h : List ℕ} {X : ℕ → ι → ℝ}
    (hX : Supp h X) (d : ι) (τ : ℝ) :
    HasDerivAt (fullSeries n (fun r => X r d)) (fullSeries n (fun r => dstep h X r d) τ) τ := by
  unfold fullSeries
  beta_reduce
  have h0 : dstep h X 0 d = 0 := by simp [dstep]
  rw [h0, zero_add]
  apply HasDerivAt.const_add
  apply HasDerivAt.fun_sum
  intro k _
  have hlin : HasDerivAt (fun τ => ((k+1 : ℕ) : ℝ) * τ) ((k+1 : ℕ) : ℝ) τ := by
    simpa using (hasDerivAt_id τ).const_mul ((k+1 : ℕ) : ℝ)
  have h1 := (hlin.cos.const_mul (X (2*k+1) d)).add (hlin.sin.const_mul (X (2*k+2) d))
  refine h1.congr_deriv ?_
  by_cases hk : k + 1 ∈ h
  · have e1 : dstep h X (2*k+1) d = ((k+1 : ℕ) : ℝ) * X (2*k+2) d := by
      have a1 : (2*k+1+1)/2 = k+1 := by omega
      have a2 : (2*k+1) % 2 = 1 := by omega
      simp only [dstep, a1, a2, hk]
      simp
    have e2 : dstep h X (2*k+2) d = -((k+1 : ℕ) : ℝ) * X (2*k+1) d := by
      have a1 : (2*k+2+1)/2 = k+1 := by omega
      have a2 : (2*k+2) % 2 ≠ 1 := by omega
      have a3 : (2*k+2)/2 = k+1 := by omega
      simp only [dstep, a1, a2, a3, hk]
      simp
    rw [e1, e2]; ring
  · have e1 : dstep h X (2*k+1) d = 0 := supp_dstep h X _ _ (by omega)
      (by rw [show (2*k+1+1)/2 = k+1 by omega]; exact hk)
    have e2 : dstep h X (2*k+2) d = 0 := supp_dstep h X _ _ (by omega)
      (by rw [show (2*k+2+1)/2 = k+1 by omega]; exact hk)
    have e3 : X (2*k+1) d = 0 := hX _ _ (by omega)
      (by rw [show (2*k+1+1)/2 = k+1 by omega]; exact hk)
    have e4 : X (2*k+2) d = 0 := hX _ _ (by omega)
      (by rw [show (2*k+2+1)/2 = k+1 by omega]; exact hk)
    rw [e1, e2, e3, e4]; ring

theorem iteratedDeriv_fullSeries (n : ℕ) {h : List ℕ} {X : ℕ → ι → ℝ}
    (hX : Supp h X) (d : ι) (p : ℕ) :
    iteratedDeriv p (fullSeries n (fun r => X r d))
      = fullSeries n (fun r => (dstep h)^[p] X r d) := by
  induction p with
  | zero => simp
  | succ p ih =>
    rw [iteratedDeriv_succ, ih]
    funext τ
    rw [(fullSeries_hasDerivAt n (supp_iter h hX p) d τ).deriv, Function.iterate_succ_apply']

/-- Angle of sample `j`. -/
def angle (N j : ℕ) : ℝ := 2 * Real.pi * j / N

theorem re_cexp (N j k : ℕ) :
    (Complex.exp (2 * Real.pi * Complex.I * j * k / N)).re = Real.cos (k * angle N j) := by
  have : (2 * Real.pi * Complex.I * j * k / N : ℂ) = ((k * angle N j : ℝ) : ℂ) * Complex.I := by
    unfold angle; push_cast; ring
  rw [this, Complex.exp_ofReal_mul_I_re]

theorem im_cexp (N j k : ℕ) :
    (Complex.exp (2 * Real.pi * Complex.I * j * k / N)).im = Real.sin (k * angle N j) := by
  have : (2 * Real.pi * Complex.I * j * k / N : ℂ) = ((k * angle N j : ℝ) : ℂ) * Complex.I := by
    unfold angle; push_cast; ring
  rw [this, Complex.exp_ofReal_mul_I_im]

theorem cos_reflect {N k : ℕ} (hN : 0 < N) (hk : k ≤ N) (j : ℕ) :
    Real.cos ((N - k : ℕ) * angle N j) = Real.cos (k * angle N j) := by
  have hN' : (N : ℝ) ≠ 0 := by positivity
  have : ((N - k : ℕ) : ℝ) * angle N j = j * (2 * Real.pi) - k * angle N j := by
    unfold angle; rw [Nat.cast_sub hk]; field_simp
  rw [this, Real.cos_nat_mul_two_pi_sub]

theorem sin_reflect {N k : ℕ} (hN : 0 < N) (hk : k ≤ N) (j : ℕ) :
    Real.sin ((N - k : ℕ) * angle N j) = -Real.sin (k * angle N j) := by
  have hN' : (N : ℝ) ≠ 0 := by positivity
  have : ((N - k : ℕ) : ℝ) * angle N j = j * (2 * Real.pi) - k * angle N j := by
    unfold angle; rw [Nat.cast_sub hk]; field_simp
  rw [this, Real.sin_nat_mul_two_pi_sub]

/-- The inverse DFT of the conjugate-symmetric bins is the full series. -/
theorem ifft_bins (Nht : ℕ) (X : ℕ → ι → ℝ) (j : ℕ) (d : ι) :
    (ifft (2*Nht+2) (tsBins Nht X) j d).re
      = fullSeries Nht (fun r => X r d) (angle (2*Nht+2) j) := by
  have hN : 0 < 2*Nht+2 := by omega
  unfold ifft
  have e1 : (1 / ((2*Nht+2 : ℕ) : ℂ)) = ((1 / ((2*Nht+2 : ℕ) : ℝ) : ℝ) : ℂ) := by push_cast; rfl
  rw [e1, Complex.re_ofReal_mul, Complex.re_sum]
  have term : ∀ k, (tsBins Nht X k d * Complex.exp (2 * Real.pi * Complex.I * j * k / (2*Nht+2 : ℕ))).re
      = (((2*Nht+2 : ℕ) : ℝ) / 2) *
        (if k = 0 then 2 * X 0 d
         else if k ≤ Nht then X (2*k-1) d * Real.cos (k * angle (2*Nht+2) j)
            + X (2*k) d * Real.sin (k * angle (2*Nht+2) j)
         else if k = Nht+1 then 0
         else X (2*(2*Nht+2-k)-1) d * Real.cos (k * angle (2*Nht+2) j)
            - X (2*(2*Nht+2-k)) d * Real.sin (k * angle (2*Nht+2) j)) := by
    intro k
    have hc : (((2*Nht+2 : ℕ) : ℂ) / 2) = ((((2*Nht+2 : ℕ) : ℝ) / 2 : ℝ) : ℂ) := by push_cast; rfl
    unfold tsBins
    rw [hc, mul_comm _ ((((2*Nht+2 : ℕ) : ℝ) / 2 : ℝ) : ℂ), mul_assoc, Complex.re_ofReal_mul]
    congr 1
    rw [Complex.mul_re, re_cexp, im_cexp]
    split_ifs with h1 h2 h3
    · subst h1; simp
    · simp
    · simp
    · simp
  rw [sum_congr rfl (fun k _ => term k), ← mul_sum]
  have hsplit : 2*Nht+2 = (1 + Nht) + (1 + Nht) := by ring
  have hcoef : ∀ x : ℝ, 1 / ((2*Nht+2 : ℕ) : ℝ) * (((2*Nht+2 : ℕ) : ℝ) / 2 * x) = x / 2 := by
    intro x
    have : ((2*Nht+2 : ℕ) : ℝ) ≠ 0 := by positivity
    field_simp
  rw [hcoef]
  generalize hg : (fun k => (if k = 0 then 2 * X 0 d
         else if k ≤ Nht then X (2*k-1) d * Real.cos (k * angle (2*Nht+2) j)
            + X (2*k) d * Real.sin (k * angle (2*Nht+2) j)
         else if k = Nht+1 then 0
         else X (2*(2*Nht+2-k)-1) d * Real.cos (k * angle (2*Nht+2) j)
            - X (2*(2*Nht+2-k)) d * Real.sin (k * angle (2*Nht+2) j))) = g
  have hsum : ∑ k ∈ range (2*Nht+2), g k
      = g 0 + (∑ k ∈ range Nht, g (1 + k)) + (g (1 + Nht) + ∑ k ∈ range Nht, g (1 + Nht + (1 + k))) := by
    rw [hsplit, sum_range_add, sum_range_add, sum_range_add]
    simp
  rw [hsum, ← sum_range_reflect (fun k => g (1 + Nht + (1 + k)))]
  have g0 : g 0 = 2 * X 0 d := by rw [← hg]; simp
  have gm : g (1 + Nht) = 0 := by rw [← hg]; simp; intro hh; omega
  have ga : ∀ k ∈ range Nht, g (1 + k) = X (2*k+1) d * Real.cos ((k+1 : ℕ) * angle (2*Nht+2) j)
            + X (2*k+2) d * Real.sin ((k+1 : ℕ) * angle (2*Nht+2) j) := by
    intro k hk
    rw [mem_range] at hk
    rw [← hg]
    simp only
    rw [if_neg (by omega), if_pos (by omega), show 2*(1+k)-1 = 2*k+1 by omega,
      show 2*(1+k) = 2*k+2 by omega, Nat.add_comm 1 k]
  have gb : ∀ k ∈ range Nht, g (1 + Nht + (1 + (Nht - 1 - k)))
      = X (2*k+1) d * Real.cos ((k+1 : ℕ) * angle (2*Nht+2) j)
            + X (2*k+2) d * Real.sin ((k+1 : ℕ) * angle (2*Nht+2) j) := by
    intro k hk
    rw [mem_range] at hk
    have e : 1 + Nht + (1 + (Nht - 1 - k)) = (2*Nht+2) - (k+1) := by omega
    rw [e, ← hg]
    simp only
    rw [if_neg (by omega), if_neg (by omega), if_neg (by omega), cos_reflect hN (by omega),
      sin_reflect hN (by omega), show 2*(2*Nht+2-(2*Nht+2-(k+1)))-1 = 2*k+1 by omega,
      show 2*(2*Nht+2-(2*Nht+2-(k+1))) = 2*k+2 by omega]
    ring
  rw [g0, gm, sum_congr rfl ga, sum_congr rfl gb]
  unfold fullSeries
  ring

theorem fullSeries_extend {n N : ℕ} (hnN : n ≤ N) (X : ℕ → ℝ) (τ : ℝ) :
    fullSeries N (fun r => if r < 2*n+1 then X r else 0) τ = fullSeries n X τ := by
  unfold fullSeries
  obtain ⟨m, rfl⟩ := Nat.exists_eq_add_of_le hnN
  rw [sum_range_add, sum_congr rfl (g := fun k => X (2*k+1) * Real.cos ((k+1 : ℕ) * τ) + X (2*k+2) * Real.sin ((k+1 : ℕ) * τ))]
  · rw [sum_eq_zero (s := range m)]
    · simp
    · intro k _
      beta_reduce
      rw [if_neg (by omega), if_neg (by omega)]; ring
  · intro k hk
    rw [mem_range] at hk
    beta_reduce
    rw [if_pos (by omega), if_pos (by omega)]

theorem zeroFirst_iff {h : List ℕ} (hA : Admissible h) :
    (h.filter (fun k => k = 0)).length = 0 ∨ h.headI = 0 := by
  obtain ⟨hne, _, h0⟩ := hA
  cases h with
  | nil => simp at hne
  | cons a hs =>
    by_cases ha : a = 0
    · right; simpa using ha
    · left
      simp only [List.tail_cons] at h0
      simp [ha]
      intro k hk e; subst e; exact h0 hk

/-- `time_series_deriv` on admissible input. -/
theorem timeSeriesDeriv_ok {h : List ℕ} (hA : Admissible h) {Nt : ℕ}
    (hNt : ∀ k ∈ h, 2*k + 1 < Nt) (X0 : ℕ → ι → ℝ) (order : ℕ) :
    ∃ x, timeSeriesDeriv Nt h X0 order = .ok x ∧ x.rows = 2*(Nt/2 - 1) + 2 ∧
      ∀ j d, x.val j d =
        iteratedDeriv order (series h (fun r => X0 r d)) (angle (2*(Nt/2-1)+2) j) := by
  have hmx : 2 * hmax h + 1 < Nt := hNt _ (hmax_mem hA.ne)
  have hle : ∀ k ∈ h, k ≤ hmax h := fun k hk => le_hmax hk
  unfold timeSeriesDeriv
  rw [if_neg hA.ne, if_neg (not_not.mpr (zeroFirst_iff hA)), if_neg (not_not.mpr hmx)]
  refine ⟨_, rfl, rfl, ?_⟩
  intro j d
  simp only
  rw [ifft_bins, fullSeries_extend (n := hmax h) (by omega)]
  have hs : series h (fun r => X0 r d) = fullSeries (hmax h) (fun r => x0full h X0 r d) := by
    funext τ; rw [fullSeries_x0full hA X0 d τ hle]
  rw [hs, iteratedDeriv_fullSeries _ (supp_x0full hA X0)]
  by_cases ho : order > 0
  · rw [if_pos ho]
    unfold fullSeries
    beta_reduce
    rw [matMul_matPow h hle _ _ _ (by omega)]
    congr 1
    apply sum_congr rfl
    intro k hk
    rw [mem_range] at hk
    rw [matMul_matPow h hle _ _ _ (by omega), matMul_matPow h hle _ _ _ (by omega)]
  · have : order = 0 := by omega
    subst this
    simp

end

end TMD
