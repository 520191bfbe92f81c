import Verif.Lemmas.Slider
import Mathlib.Tactic.Ring
import Mathlib.Tactic.Linarith

/-! # Lemmas for the vectorised Jenkins history: state sequences and monotone segments -/

namespace TMD

open Spec

noncomputable section

/-- States of a hysteretic model along an infinite displacement sequence. -/
def stSeq {σ ι : Type} (m : HystOps σ ι) (u : ℕ → ℝ) (c : ℕ → ι → ℝ) (s0 : σ) : ℕ → σ
  | 0 => (m.step s0 (u 0) (c 0)).1
  | i + 1 => (m.step (stSeq m u c s0 i) (u (i+1)) (c (i+1))).1

/-- Models whose output row is a function of the new state. -/
def RowOf {σ ι : Type} (m : HystOps σ ι) (row : σ → ℝ × (ι → ℝ)) : Prop :=
  ∀ s u c, (m.step s u c).2 = row (m.step s u c).1

theorem onePass_states {σ ι : Type} {m : HystOps σ ι} {row : σ → ℝ × (ι → ℝ)} (hrow : RowOf m row)
    (u : ℕ → ℝ) (c : ℕ → ι → ℝ) (S : ℕ → σ) (l : List ℕ) (s : σ)
    (hhead : ∀ a ∈ l.head?, (m.step s (u a) (c a)).1 = S a)
    (hch : l.IsChain (fun a b => (m.step (S a) (u b) (c b)).1 = S b)) :
    (onePass m s (l.map fun i => (u i, c i))).2 = l.map (fun i => row (S i)) ∧
    ∀ b ∈ l.getLast?, (onePass m s (l.map fun i => (u i, c i))).1 = S b := by
  induction l generalizing s with
  | nil => simp [onePass]
  | cons a l ih =>
    have ha : (m.step s (u a) (c a)).1 = S a := hhead a (by simp)
    obtain ⟨h1, h2⟩ := ih (m.step s (u a) (c a)).1 (by
        intro b hb
        cases l with
        | nil => simp at hb
        | cons b' l =>
          simp only [List.head?_cons, Option.mem_some] at hb
          subst hb
          rw [List.isChain_cons_cons] at hch
          rw [ha]; exact hch.1) (by
        cases l with
        | nil => simp
        | cons b' l => rw [List.isChain_cons_cons] at hch; exact hch.2)
    constructor
    · simp only [List.map_cons, onePass]
      rw [h1, hrow, ha]
    · intro b hb
      cases l with
      | nil =>
        simp only [List.getLast?_singleton, Option.mem_some] at hb
        subst hb
        simp only [List.map_cons, List.map_nil, onePass]
        exact ha
      | cons b' l =>
        rw [List.getLast?_cons_cons] at hb
        exact h2 b hb

/-- Consecutive elements of a filtered range: nothing in between satisfies the predicate. -/
theorem chain_filter_range' {P : ℕ → Prop} [DecidablePred P] {R : ℕ → ℕ → Prop}
    (hR : ∀ a b, a < b → (∀ i, a < i → i < b → ¬ P i) → R a b) (n s a : ℕ) (has : a < s)
    (hno : ∀ i, a < i → i < s → ¬ P i) :
    (a :: (List.range' s n).filter (fun i => decide (P i))).IsChain R := by
  induction n generalizing s a with
  | zero => simp
  | succ n ih =>
    rw [List.range'_succ]
    by_cases hP : P s
    · rw [List.filter_cons_of_pos (by simpa using hP), List.isChain_cons_cons]
      exact ⟨hR a s has hno, ih (s+1) s (Nat.lt_succ_self _) (fun i h1 h2 => by omega)⟩
    · rw [List.filter_cons_of_neg (by simpa using hP)]
      refine ih (s+1) a (by omega) (fun i h1 h2 => ?_)
      rcases Nat.lt_or_ge i s with h | h
      · exact hno i h1 h
      · have : i = s := by omega
        rw [this]; exact hP

theorem chain_filter_range {P : ℕ → Prop} [DecidablePred P] {R : ℕ → ℕ → Prop} (h0 : P 0)
    (hR : ∀ a b, a < b → (∀ i, a < i → i < b → ¬ P i) → R a b) (n : ℕ) :
    ((List.range n).filter (fun i => decide (P i))).IsChain R := by
  cases n with
  | zero => simp
  | succ n =>
    rw [List.range_eq_range', List.range'_succ, List.filter_cons_of_pos (by simpa using h0)]
    exact chain_filter_range' hR n 1 0 (by omega) (fun i h1 h2 => by omega)

theorem filter_range_period {P : ℕ → Prop} [DecidablePred P] (N : ℕ) (hP : ∀ i, P (i + N) ↔ P i) (n : ℕ) :
    (List.range ((n+1) * N)).filter (fun i => decide (P i))
      = (List.range (n * N)).filter (fun i => decide (P i))
        ++ ((List.range N).filter (fun i => decide (P i))).map (fun i => n * N + i) := by
  have hP' : ∀ i, P (n * N + i) ↔ P i := by
    intro i
    induction n with
    | zero => simp
    | succ n ih => rw [show (n+1) * N + i = (n * N + i) + N by ring, hP, ih]
  rw [Nat.succ_mul, List.range_add, List.filter_append]
  congr 1
  rw [List.filter_map]
  congr 1
  apply List.filter_congr
  intro i _
  simp only [Function.comp, hP']

/-- Cycles over the instants of one period selected by a periodic predicate `P`, when every selected
state follows from the previously selected one. -/
theorem cycles_filtered {σ ι : Type} {m : HystOps σ ι} {row : σ → ℝ × (ι → ℝ)} (hrow : RowOf m row)
    (N : ℕ) (hN : 0 < N) (u : ℕ → ℝ) (c : ℕ → ι → ℝ) (s0 : σ) (P : ℕ → Prop) [DecidablePred P]
    (h0 : P 0) (hP : ∀ i, P (i + N) ↔ P i)
    (hR : ∀ a b, a < b → (∀ i, a < i → i < b → ¬ P i) →
      (m.step (stSeq m (periodic N u) (periodic N c) s0 a) (periodic N u b) (periodic N c b)).1
        = stSeq m (periodic N u) (periodic N c) s0 b) (n : ℕ) :
    cycleRows m (((List.range N).filter (fun i => decide (P i))).map fun i => (u i, c i)) n s0
      = ((List.range N).filter (fun i => decide (P i))).map
          (fun i => row (stSeq m (periodic N u) (periodic N c) s0 (n * N + i))) ∧
    (∀ b ∈ ((List.range ((n+1) * N)).filter (fun i => decide (P i))).getLast?,
      cycleState m (((List.range N).filter (fun i => decide (P i))).map fun i => (u i, c i)) (n+1) s0
        = stSeq m (periodic N u) (periodic N c) s0 b) := by
  set crit := (List.range N).filter (fun i => decide (P i)) with hcrit
  set S := stSeq m (periodic N u) (periodic N c) s0 with hS
  have hmap : ∀ n, (crit.map fun i => (u i, c i))
      = (crit.map (fun i => n * N + i)).map (fun i => (periodic N u i, periodic N c i)) := by
    intro n
    rw [List.map_map]
    apply List.map_congr_left
    intro i hi
    have : i < N := by
      rw [hcrit, List.mem_filter, List.mem_range] at hi; exact hi.1
    have e : (n * N + i) % N = i := by
      rw [Nat.mul_comm, Nat.mul_add_mod, Nat.mod_eq_of_lt this]
    simp only [Function.comp, periodic, e]
  have hcritcons : ∃ t, crit = 0 :: t := by
    rw [hcrit]
    obtain ⟨M, rfl⟩ : ∃ M, N = M + 1 := ⟨N - 1, by omega⟩
    rw [List.range_succ_eq_map, List.filter_cons_of_pos (by simpa using h0)]
    exact ⟨_, rfl⟩
  obtain ⟨t, ht⟩ := hcritcons
  have hch : ∀ n, ((List.range (n * N)).filter (fun i => decide (P i))).IsChain
      (fun a b => (m.step (S a) (periodic N u b) (periodic N c b)).1 = S b) :=
    fun n => chain_filter_range h0 hR (n * N)
  have main : ∀ n, (∀ b ∈ ((List.range (n * N)).filter (fun i => decide (P i))).getLast?,
      cycleState m (crit.map fun i => (u i, c i)) n s0 = S b) →
      cycleRows m (crit.map fun i => (u i, c i)) n s0 = crit.map (fun i => row (S (n * N + i))) ∧
      (∀ b ∈ ((List.range ((n+1) * N)).filter (fun i => decide (P i))).getLast?,
        cycleState m (crit.map fun i => (u i, c i)) (n+1) s0 = S b) := by
    intro n ih
    have hc := hch (n+1)
    rw [filter_range_period N hP n, ← hcrit, List.isChain_append] at hc
    obtain ⟨_, hcB, hlink⟩ := hc
    have hh : ∀ a ∈ (crit.map (fun i => n * N + i)).head?,
        (m.step (cycleState m (crit.map fun i => (u i, c i)) n s0) (periodic N u a) (periodic N c a)).1 = S a := by
      intro a ha
      cases hl : ((List.range (n * N)).filter (fun i => decide (P i))).getLast? with
      | some b =>
        rw [ih b (by rw [hl]; rfl)]
        exact hlink b (by rw [hl]; rfl) a ha
      | none =>
        rw [List.getLast?_eq_none_iff] at hl
        have hn : n = 0 := by
          by_contra hne
          have hpos : 0 < n * N := Nat.mul_pos (Nat.pos_of_ne_zero hne) hN
          have : 0 ∈ (List.range (n * N)).filter (fun i => decide (P i)) := by
            rw [List.mem_filter, List.mem_range]; exact ⟨hpos, by simpa using h0⟩
          rw [hl] at this; simp at this
        subst hn
        rw [ht] at ha
        simp only [List.map_cons, List.head?_cons, Option.mem_some, Nat.zero_mul, Nat.add_zero] at ha
        subst ha
        rfl
    obtain ⟨h1, h2⟩ := onePass_states hrow (periodic N u) (periodic N c) S (crit.map (fun i => n * N + i))
      (cycleState m (crit.map fun i => (u i, c i)) n s0) hh hcB
    rw [← hmap n] at h1 h2
    constructor
    · unfold cycleRows
      rw [h1, List.map_map]; rfl
    · intro b hb
      apply h2
      rw [filter_range_period N hP n, ← hcrit, List.getLast?_append] at hb
      cases hg : (crit.map (fun i => n * N + i)).getLast? with
      | none =>
        rw [List.getLast?_eq_none_iff, ht] at hg; simp at hg
      | some x => rw [hg] at hb; simpa using hb
  induction n with
  | zero => exact main 0 (by simp)
  | succ n ih => exact main (n+1) ih.2

/-- Cycles over the full series. -/
theorem cycles_full {σ ι : Type} {m : HystOps σ ι} {row : σ → ℝ × (ι → ℝ)} (hrow : RowOf m row)
    (N : ℕ) (hN : 0 < N) (u : ℕ → ℝ) (c : ℕ → ι → ℝ) (s0 : σ) (n : ℕ) :
    cycleRows m ((List.range N).map fun i => (u i, c i)) n s0
      = (List.range N).map (fun i => row (stSeq m (periodic N u) (periodic N c) s0 (n * N + i))) := by
  have := (cycles_filtered hrow N hN u c s0 (fun _ => True) trivial (fun _ => Iff.rfl) (by
    intro a b hab hno
    have : b = a + 1 := by
      by_contra hne
      exact hno (a+1) (by omega) (by omega) trivial
    subst this; rfl) n).1
  simpa using this

/-! ## Jenkins: monotone segments -/

theorem jenkins_rowOf {ι : Type} (kt Fs : ℝ) (e0 : ι → ℝ) :
    RowOf (jenkinsOps kt Fs e0) (fun s => (s.fp, s.dfp)) := fun _ _ _ => rfl

/-- Two evaluations in the same direction equal one direct evaluation. -/
theorem jenkins_two_step {ι : Type} {kt Fs : ℝ} (hk : 0 ≤ kt) (hF : 0 ≤ Fs) (s : JHist ι)
    (hs : |s.fp| ≤ Fs) (u1 u2 : ℝ) (c1 c2 : ι → ℝ)
    (hsg : SignType.sign (u1 - s.up) = SignType.sign (u2 - u1)) :
    (jenkinsStep kt Fs (jenkinsStep kt Fs s u1 c1).1 u2 c2) = jenkinsStep kt Fs s u2 c2 := by
  obtain ⟨l1, l2⟩ := abs_le.1 hs
  by_cases h1 : |kt * (u1 - s.up) + s.fp| > Fs
  · -- slip in the first step
    rcases lt_abs.1 h1 with hp | hp
    · have hpos : 0 < kt * (u1 - s.up) := by linarith
      have hkp : 0 < kt := by
        rcases hk.lt_or_eq with h | h
        · exact h
        · rw [← h] at hpos; simp at hpos
      have hu : 0 < u1 - s.up := by
        by_contra hcon
        nlinarith
      rw [sign_pos hu, eq_comm, sign_eq_one_iff] at hsg
      have hpd : 0 < kt * (u2 - u1) := mul_pos hkp hsg
      have e1 : (jenkinsLocal kt Fs s.up s.fp u1) = ⟨Fs, 0, 0, 0⟩ := by
        unfold jenkinsLocal
        simp only
        rw [if_pos h1, Real.sign_of_pos (by linarith), one_mul]
      have e2 : (jenkinsLocal kt Fs u1 Fs u2) = ⟨Fs, 0, 0, 0⟩ := by
        unfold jenkinsLocal
        simp only
        rw [if_pos (by rw [abs_of_pos (by linarith)]; linarith), Real.sign_of_pos (by linarith), one_mul]
      have e3 : (jenkinsLocal kt Fs s.up s.fp u2) = ⟨Fs, 0, 0, 0⟩ := by
        unfold jenkinsLocal
        have : kt * (u2 - s.up) + s.fp = kt * (u2 - u1) + (kt * (u1 - s.up) + s.fp) := by ring
        simp only [this]
        rw [if_pos (by rw [abs_of_pos (by linarith)]; linarith), Real.sign_of_pos (by linarith), one_mul]
      simp only [jenkinsStep, e1, e2, e3, zero_mul, add_zero]
    · have hpos : kt * (u1 - s.up) < 0 := by linarith
      have hkp : 0 < kt := by
        rcases hk.lt_or_eq with h | h
        · exact h
        · rw [← h] at hpos; simp at hpos
      have hu : u1 - s.up < 0 := by
        by_contra hcon
        nlinarith
      rw [sign_neg hu, eq_comm, sign_eq_neg_one_iff] at hsg
      have hpd : kt * (u2 - u1) < 0 := mul_neg_of_pos_of_neg hkp hsg
      have e1 : (jenkinsLocal kt Fs s.up s.fp u1) = ⟨-Fs, 0, 0, 0⟩ := by
        unfold jenkinsLocal
        simp only
        rw [if_pos h1, Real.sign_of_neg (by linarith), neg_one_mul]
      have e2 : (jenkinsLocal kt Fs u1 (-Fs) u2) = ⟨-Fs, 0, 0, 0⟩ := by
        unfold jenkinsLocal
        simp only
        rw [if_pos (by rw [abs_of_neg (by linarith)]; linarith), Real.sign_of_neg (by linarith), neg_one_mul]
      have e3 : (jenkinsLocal kt Fs s.up s.fp u2) = ⟨-Fs, 0, 0, 0⟩ := by
        unfold jenkinsLocal
        have : kt * (u2 - s.up) + s.fp = kt * (u2 - u1) + (kt * (u1 - s.up) + s.fp) := by ring
        simp only [this]
        rw [if_pos (by rw [abs_of_neg (by linarith)]; linarith), Real.sign_of_neg (by linarith), neg_one_mul]
      simp only [jenkinsStep, e1, e2, e3, zero_mul, add_zero]
  · -- stuck in the first step
    have e1 : (jenkinsLocal kt Fs s.up s.fp u1) = ⟨kt * (u1 - s.up) + s.fp, kt, -kt, 1⟩ := by
      unfold jenkinsLocal
      simp only
      rw [if_neg h1]
    have e2 : (jenkinsLocal kt Fs u1 (kt * (u1 - s.up) + s.fp) u2) = jenkinsLocal kt Fs s.up s.fp u2 := by
      unfold jenkinsLocal
      have : kt * (u2 - u1) + (kt * (u1 - s.up) + s.fp) = kt * (u2 - s.up) + s.fp := by ring
      simp only [this]
    simp only [jenkinsStep, e1, e2]
    by_cases h2 : |kt * (u2 - s.up) + s.fp| > Fs
    · have e3 : jenkinsLocal kt Fs s.up s.fp u2 = ⟨Real.sign (kt * (u2 - s.up) + s.fp) * Fs, 0, 0, 0⟩ := by
        unfold jenkinsLocal
        simp only
        rw [if_pos h2]
      simp only [e3, zero_mul, add_zero]
    · have e3 : jenkinsLocal kt Fs s.up s.fp u2 = ⟨kt * (u2 - s.up) + s.fp, kt, -kt, 1⟩ := by
        unfold jenkinsLocal
        simp only
        rw [if_neg h2]
      simp only [e3]
      have : (fun k => kt * c2 k + -kt * c1 k + 1 * (kt * c1 k + -kt * s.dup k + 1 * s.dfp k))
          = (fun k => kt * c2 k + -kt * s.dup k + 1 * s.dfp k) := by
        funext k; ring
      rw [this]

theorem sign_add_same {a b : ℝ} (h : SignType.sign a = SignType.sign b) :
    SignType.sign (a + b) = SignType.sign b := by
  rcases lt_trichotomy b 0 with hb | hb | hb
  · rw [sign_neg hb, sign_eq_neg_one_iff] at h
    rw [sign_neg hb, sign_neg (by linarith)]
  · subst hb; rw [add_zero]; exact h
  · rw [sign_pos hb, sign_eq_one_iff] at h
    rw [sign_pos hb, sign_pos (by linarith)]

theorem stSeq_up {ι : Type} (kt Fs : ℝ) (e0 : ι → ℝ) (u : ℕ → ℝ) (c : ℕ → ι → ℝ) (s0 : JHist ι) (i : ℕ) :
    (stSeq (jenkinsOps kt Fs e0) u c s0 i).up = u i ∧ (stSeq (jenkinsOps kt Fs e0) u c s0 i).dup = c i := by
  cases i <;> exact ⟨rfl, rfl⟩

theorem stSeq_fp {ι : Type} {kt Fs : ℝ} (hF : 0 ≤ Fs) (e0 : ι → ℝ) (u : ℕ → ℝ) (c : ℕ → ι → ℝ)
    (s0 : JHist ι) (i : ℕ) : |(stSeq (jenkinsOps kt Fs e0) u c s0 i).fp| ≤ Fs := by
  cases i <;> (simp only [stSeq, jenkinsOps, jenkinsStep]; rw [jenkinsLocal_f hF]; exact clip_abs hF _)

/-- In a segment without reversal the state follows directly from the state at its start. -/
theorem jenkins_segment {ι : Type} {kt Fs : ℝ} (hk : 0 ≤ kt) (hF : 0 ≤ Fs) (e0 : ι → ℝ) (u : ℕ → ℝ)
    (c : ℕ → ι → ℝ) (s0 : JHist ι) (a b : ℕ) (hab : a < b)
    (hseg : ∀ i, a < i → i < b → SignType.sign (u i - u (i-1)) = SignType.sign (u (i+1) - u i)) :
    ((jenkinsOps kt Fs e0).step (stSeq (jenkinsOps kt Fs e0) u c s0 a) (u b) (c b)).1
      = stSeq (jenkinsOps kt Fs e0) u c s0 b ∧
    SignType.sign (u b - u a) = SignType.sign (u b - u (b-1)) := by
  obtain ⟨d, rfl⟩ : ∃ d, b = a + 1 + d := ⟨b - a - 1, by omega⟩
  induction d with
  | zero => exact ⟨rfl, rfl⟩
  | succ d ih =>
    obtain ⟨ih1, ih2⟩ := ih (by omega) (fun i h1 h2 => hseg i h1 (by omega))
    have hs := hseg (a + 1 + d) (by omega) (by omega)
    have hsg : SignType.sign (u (a + 1 + d) - u a) = SignType.sign (u (a + 1 + d + 1) - u (a + 1 + d)) := by
      rw [ih2, hs]
    constructor
    · rw [← Nat.add_assoc]
      have := jenkins_two_step hk hF (stSeq (jenkinsOps kt Fs e0) u c s0 a) (stSeq_fp hF e0 u c s0 a)
        (u (a + 1 + d)) (u (a + 1 + d + 1)) (c (a + 1 + d)) (c (a + 1 + d + 1)) (by
          rw [(stSeq_up kt Fs e0 u c s0 a).1]; exact hsg)
      show (jenkinsStep kt Fs _ _ _).1 = (jenkinsStep kt Fs (stSeq (jenkinsOps kt Fs e0) u c s0 (a + 1 + d)) _ _).1
      rw [← this, ← ih1]
      rfl
    · rw [← Nat.add_assoc, show a + 1 + d + 1 - 1 = a + 1 + d by omega]
      have := sign_add_same hsg
      rw [← this]
      congr 1; ring

/-! ## Reversal points -/

/-- Periodic version of the reversal criterion. -/
def critP (N : ℕ) (u : ℕ → ℝ) (i : ℕ) : Prop := isCrit N u (i % N)

theorem critP_zero (N : ℕ) (u : ℕ → ℝ) : critP N u 0 := by
  unfold critP isCrit; left; exact Nat.zero_mod _

theorem critP_period (N : ℕ) (u : ℕ → ℝ) (i : ℕ) : critP N u (i + N) ↔ critP N u i := by
  unfold critP; rw [Nat.add_mod_right]

theorem critP_lt {N : ℕ} (u : ℕ → ℝ) {i : ℕ} (hi : i < N) : critP N u i ↔ isCrit N u i := by
  unfold critP; rw [Nat.mod_eq_of_lt hi]

open Classical in
theorem critInds_eq (N : ℕ) (u : ℕ → ℝ) :
    critInds N u = (List.range N).filter (fun i => decide (critP N u i)) := by
  unfold critInds
  apply List.filter_congr
  intro i hi
  simp only [critP_lt u (List.mem_range.1 hi)]

theorem not_crit_sign {N : ℕ} (hN : 0 < N) {u : ℕ → ℝ} {i : ℕ} (h : ¬ critP N u i) :
    SignType.sign (periodic N u i - periodic N u (i-1))
      = SignType.sign (periodic N u (i+1) - periodic N u i) := by
  unfold critP isCrit at h
  rw [not_or, not_not] at h
  obtain ⟨h0, h⟩ := h
  have hi : 1 ≤ i := by
    by_contra hc
    have : i = 0 := by omega
    subst this; exact h0 (Nat.zero_mod _)
  have e1 : (i % N + N - 1) % N = (i - 1) % N := by
    have hlt := Nat.mod_lt i hN
    have h1 : i % N + N - 1 = (i % N - 1) + N := by omega
    rw [h1, Nat.add_mod_right]
    have h2 : i - 1 = (i % N - 1) + N * (i / N) := by
      have := Nat.mod_add_div i N
      omega
    rw [h2, Nat.add_mul_mod_self_left]
  have e2 : (i % N + 1) % N = (i + 1) % N := by rw [Nat.mod_add_mod]
  unfold periodic
  rw [e1, e2] at h
  exact h

theorem vector_chain {ι : Type} {kt Fs : ℝ} (hk : 0 ≤ kt) (hF : 0 ≤ Fs) (e0 : ι → ℝ) (N : ℕ) (hN : 0 < N)
    (u : ℕ → ℝ) (c : ℕ → ι → ℝ) (s0 : JHist ι) (a b : ℕ) (hab : a < b)
    (hno : ∀ i, a < i → i < b → ¬ critP N u i) :
    ((jenkinsOps kt Fs e0).step (stSeq (jenkinsOps kt Fs e0) (periodic N u) (periodic N c) s0 a)
        (periodic N u b) (periodic N c b)).1
      = stSeq (jenkinsOps kt Fs e0) (periodic N u) (periodic N c) s0 b :=
  (jenkins_segment hk hF e0 (periodic N u) (periodic N c) s0 a b hab
    (fun i h1 h2 => not_crit_sign hN (hno i h1 h2))).1

/-! ## Scatter and fill -/

theorem scatterCrit_not_mem {α : Type} (is : List ℕ) (xs : List α) (ft : ℕ → α) (i : ℕ) (hi : i ∉ is) :
    scatterCrit is xs ft i = ft i := by
  induction is generalizing xs ft with
  | nil => rfl
  | cons a is ih =>
    cases xs with
    | nil => rfl
    | cons x xs =>
      simp only [List.mem_cons, not_or] at hi
      simp only [scatterCrit]
      rw [ih xs _ hi.2]
      simp [setRow, hi.1]

theorem scatterCrit_map {α : Type} (is : List ℕ) (hnd : is.Nodup) (g : ℕ → α) (ft : ℕ → α) (i : ℕ) (hi : i ∈ is) :
    scatterCrit is (is.map g) ft i = g i := by
  induction is generalizing ft with
  | nil => simp at hi
  | cons a is ih =>
    simp only [List.map_cons, scatterCrit]
    rw [List.nodup_cons] at hnd
    by_cases h : i ∈ is
    · exact ih hnd.2 _ h
    · rw [scatterCrit_not_mem _ _ _ _ h]
      have : i = a := by
        rcases List.mem_cons.1 hi with h' | h'
        · exact h'
        · exact absurd h' h
      subst this
      simp [setRow]

/-- The fill loop: if every filled entry equals the target `g` when computed from a correct critical
entry, all entries from the first critical index to the wrap-around are `g`. -/
theorem fillLoop_spec {ι : Type} (kt Fs : ℝ) (Nt : ℕ) (u : ℕ → ℝ) (c : ℕ → ι → ℝ)
    (g : ℕ → ℝ × (ι → ℝ)) (rest : List ℕ) (a : ℕ) (ft : ℕ → ℝ × (ι → ℝ))
    (hch : (a :: (rest ++ [Nt])).IsChain (fun x y => x < y ∧ ∀ i, x < i → i < y →
      fillEntry kt Fs u c (x+1) (g x) i = g i))
    (hcrit : ∀ x ∈ a :: rest, ft x = g x) (i : ℕ) :
    (a ≤ i → i < Nt → fillLoop kt Fs Nt u c (a :: rest ++ [0]) ft i = g i) ∧
    (i < a → fillLoop kt Fs Nt u c (a :: rest ++ [0]) ft i = ft i) := by
  induction rest generalizing a ft with
  | nil =>
    simp only [List.nil_append, List.isChain_cons_cons, List.isChain_singleton, and_true] at hch
    have hm : a + 1 ≤ Nt := hch.1
    simp only [List.cons_append, List.nil_append, fillLoop, if_true, Nat.mul_one, Nat.zero_add, Nat.add_sub_cancel]
    constructor
    · intro h1 h2
      rcases Nat.eq_or_lt_of_le h1 with h | h
      · subst h
        split
        · beta_reduce; rw [if_neg (by omega)]; exact hcrit a (by simp)
        · exact hcrit a (by simp)
      · rw [if_pos (by omega), if_pos ⟨h, h2⟩, hcrit a (by simp)]
        exact hch.2 i h h2
    · intro h1
      split
      · beta_reduce; rw [if_neg (by omega)]
      · rfl
  | cons b rest ih =>
    simp only [List.cons_append, List.isChain_cons_cons] at hch
    obtain ⟨⟨hab, hfill⟩, hch⟩ := hch
    have hb0 : b ≠ 0 := by omega
    have hsorted : ∀ x ∈ b :: rest, b ≤ x := by
      have h2 : (b :: (rest ++ [Nt])).IsChain (· < ·) := by
        apply hch.imp
        intro x y h; exact h.1
      have h3 := List.isChain_iff_pairwise.1 h2
      intro x hx
      rcases List.mem_cons.1 hx with h | h
      · exact h.ge
      · exact le_of_lt ((List.pairwise_cons.1 h3).1 x (by simp [h]))
    set ft' : ℕ → ℝ × (ι → ℝ) := if b + Nt * (if b = 0 then 1 else 0) > a + 1 then
        fun i => if a + 1 ≤ i ∧ i < b + Nt * (if b = 0 then 1 else 0) then
            fillEntry kt Fs u c (a+1) (ft (a + 1 - 1)) i else ft i
      else ft with hft'
    have hft'eq : ∀ i, ft' i = if a + 1 ≤ i ∧ i < b then fillEntry kt Fs u c (a+1) (ft a) i else ft i := by
      intro i
      rw [hft']
      simp only [hb0, if_false, Nat.mul_zero, Nat.add_zero, Nat.add_sub_cancel]
      by_cases hgt : b > a + 1
      · rw [if_pos hgt]
      · rw [if_neg hgt, if_neg (by omega)]
    have step : fillLoop kt Fs Nt u c (a :: (b :: rest) ++ [0]) ft
        = fillLoop kt Fs Nt u c (b :: rest ++ [0]) ft' := rfl
    obtain ⟨ih1, ih2⟩ := ih b ft' hch (by
      intro x hx
      rw [hft'eq, if_neg (by have := hsorted x hx; omega)]
      exact hcrit x (by simp only [List.mem_cons] at hx ⊢; tauto))
    rw [step]
    constructor
    · intro h1 h2
      rcases Nat.lt_or_ge i b with h | h
      · rw [ih2 h, hft'eq]
        by_cases hia : a + 1 ≤ i
        · rw [if_pos ⟨hia, h⟩, hcrit a (by simp)]
          exact hfill i hia h
        · rw [if_neg (by omega)]
          have : i = a := by omega
          subst this
          exact hcrit i (by simp)
      · exact ih1 h h2
    · intro h
      rw [ih2 (by omega), hft'eq, if_neg (by omega)]

theorem fillEntry_eq {ι : Type} (kt Fs : ℝ) (e0 : ι → ℝ) (u : ℕ → ℝ) (c : ℕ → ι → ℝ) (s : JHist ι) (x i : ℕ)
    (hu : s.up = u x) (hd : s.dup = c x) :
    fillEntry kt Fs u c (x+1) (s.fp, s.dfp) i
      = (((jenkinsOps kt Fs e0).step s (u i) (c i)).1.fp, ((jenkinsOps kt Fs e0).step s (u i) (c i)).1.dfp) := by
  simp only [fillEntry, jenkinsOps, jenkinsStep, jenkinsLocal, Nat.add_sub_cancel, hu, hd]
  split
  · simp only [zero_mul, add_zero]
    rw [mul_comm]
  · simp only
    congr 1
    funext k; ring

end

end TMD
