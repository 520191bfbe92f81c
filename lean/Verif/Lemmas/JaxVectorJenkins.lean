import Verif.Model.JaxVectorJenkins
import Verif.Lemmas.VectorJenkins
import Verif.Props.Hysteresis
import Mathlib.Data.List.Sort
import Mathlib.Algebra.Polynomial.Roots
import Mathlib.Analysis.SpecialFunctions.Trigonometric.Basic
import Mathlib.Analysis.SpecialFunctions.Complex.Circle
import Mathlib.Topology.Order.IntermediateValue
import Verif.Spec.Fourier

/-! # Lemmas for the JAX vectorised Jenkins history -/

namespace TMD

open Spec Finset

noncomputable section

open Classical

/-! ## The index list -/

theorem topK_nodup (Nt : ℕ) (p : ℕ → Prop) (K : ℕ) : (topK Nt p K).Nodup := by
  unfold topK
  refine List.Nodup.sublist (List.take_sublist _ _) ?_
  refine List.Nodup.append (List.nodup_range.filter _) (List.nodup_range.filter _) ?_
  intro a h1 h2
  rw [List.mem_filter] at h1 h2
  have a1 := of_decide_eq_true h1.2
  have a2 := of_decide_eq_true h2.2
  exact a2 a1

theorem topK_lt {Nt : ℕ} {p : ℕ → Prop} {K i : ℕ} (h : i ∈ topK Nt p K) : i < Nt := by
  unfold topK at h
  have := List.mem_of_mem_take h
  rw [List.mem_append, List.mem_filter, List.mem_filter, List.mem_range] at this
  rcases this with h | h
  · exact h.1
  · exact h.1

theorem topK_length {Nt : ℕ} (p : ℕ → Prop) {K : ℕ} (hK : K ≤ Nt) : (topK Nt p K).length = K := by
  unfold topK
  rw [List.length_take, List.length_append]
  have h1 : ((List.range Nt).filter (fun i => decide (¬ p i))).length
      = ((List.range Nt).filter (fun i => !decide (p i))).length := by
    congr 2
    funext i
    simp
  have h2 := List.length_eq_length_filter_add (l := List.range Nt) (fun i => decide (p i))
  rw [List.length_range] at h2
  rw [h1]
  omega

theorem topK_all {Nt : ℕ} {p : ℕ → Prop} {K : ℕ} (hc : ((List.range Nt).filter (fun i => decide (p i))).length ≤ K)
    {i : ℕ} (hi : i < Nt) (hp : p i) : i ∈ topK Nt p K := by
  unfold topK
  rw [List.take_append, List.take_of_length_le hc]
  exact List.mem_append_left _ (List.mem_filter.2 ⟨List.mem_range.2 hi, decide_eq_true hp⟩)

theorem jaxInds_eq (Nt : ℕ) (u : ℕ → ℝ) (K : ℕ) :
    jaxInds Nt u K = (List.range Nt).filter (fun i => decide (i ∈ topK Nt (isCrit Nt u) K)) := by
  unfold jaxInds
  refine List.Perm.eq_of_pairwise' (r := (· ≤ ·)) ?_ ?_ ?_
  · exact List.pairwise_mergeSort' (r := (· ≤ ·)) _
  · exact (List.pairwise_le_range).filter _
  · refine (List.mergeSort_perm _ _).trans ?_
    rw [List.perm_ext_iff_of_nodup (topK_nodup _ _ _) (List.nodup_range.filter _)]
    intro a
    rw [List.mem_filter, List.mem_range, decide_eq_true_iff]
    exact ⟨fun h => ⟨topK_lt h, h⟩, fun h => h.2⟩

theorem jaxInds_length {Nt : ℕ} (u : ℕ → ℝ) {K : ℕ} (hK : K ≤ Nt) : (jaxInds Nt u K).length = K := by
  unfold jaxInds
  rw [List.length_mergeSort, topK_length _ hK]

theorem jaxInds_nodup (Nt : ℕ) (u : ℕ → ℝ) (K : ℕ) : (jaxInds Nt u K).Nodup := by
  rw [jaxInds_eq]
  exact List.nodup_range.filter _

/-! ## The loop over the reversal points is the serial loop on the sub-series -/

theorem critLoop_sub (inds : List ℕ) (hnd : inds.Nodup) (u : ℕ → ℝ) (kt Fs : ℝ) (n : ℕ) (hn : n ≤ inds.length)
    (ft : ℕ → ℝ) (g : ℕ → ℝ) (hg : ∀ i < inds.length, ft (inds.getD i 0) = g i) :
    ∀ i < inds.length, foriLoop (jaxCritBody inds u kt Fs) n ft (inds.getD i 0)
      = foriLoop (jaxJenkinsBody inds.length (fun i => u (inds.getD i 0)) kt Fs) n g i := by
  induction n with
  | zero => exact hg
  | succ n ih =>
    have ih' := ih (by omega)
    intro i hi
    unfold foriLoop at ih' ⊢
    rw [List.range_succ, List.foldl_append, List.foldl_append]
    simp only [List.foldl_cons, List.foldl_nil, jaxJenkinsBody, jaxCritBody, setRow]
    have hp : prevIdx inds.length n < inds.length := by unfold prevIdx; split_ifs <;> omega
    have hinj : inds.getD i 0 = inds.getD n 0 ↔ i = n := by
      rw [List.getD_eq_getElem _ _ hi, List.getD_eq_getElem _ _ (by omega : n < inds.length)]
      exact hnd.getElem_inj_iff
    rw [ih' i hi, ih' _ hp]
    by_cases h : i = n
    · rw [if_pos h, if_pos (hinj.2 h)]
    · rw [if_neg h, if_neg (fun hc => h (hinj.1 hc))]

theorem serialLoop_from_one {Nt : ℕ} (u : ℕ → ℝ) (kt Fs : ℝ) (ft f : ℕ → ℝ) (h0 : ft 0 = f 0)
    (hf : ∀ i, i + 1 < Nt → f (i + 1) = clip Fs (kt * (u (i + 1) - u i) + f i)) (n : ℕ) (hn : n + 1 ≤ Nt) :
    ∀ i < n + 1, (List.range' 1 n).foldl (jaxJenkinsBody Nt u kt Fs) ft i = f i := by
  induction n with
  | zero =>
    intro i hi
    obtain rfl : i = 0 := by omega
    exact h0
  | succ n ih =>
    have ih' := ih (by omega)
    intro i hi
    rw [List.range'_concat, List.foldl_append]
    simp only [List.foldl_cons, List.foldl_nil, jaxJenkinsBody, setRow, one_mul]
    have hp : prevIdx Nt (1 + n) = n := by unfold prevIdx; rw [if_neg (by omega)]; omega
    by_cases h : i = 1 + n
    · rw [if_pos h, hp, ih' n (by omega), h, Nat.add_comm 1 n, hf n (by omega), clip, max_comm]
    · rw [if_neg h]
      exact ih' i (by omega)

/-! ## Reversals of a trigonometric polynomial -/

/-- `series h c` times `e^{inτ}` is a polynomial of degree `2n` in `e^{iτ}`. -/
theorem series_poly (n : ℕ) (h : List ℕ) (hh : ∀ k ∈ h, k ≤ n) (c : ℕ → ℝ) :
    ∃ P : Polynomial ℂ, P.natDegree ≤ 2 * n ∧ ∀ τ : ℝ,
      ((series h c τ : ℝ) : ℂ) * Complex.exp (τ * Complex.I) ^ n = P.eval (Complex.exp (τ * Complex.I)) := by
  induction h generalizing c with
  | nil => exact ⟨0, by simp, fun τ => by simp [series]⟩
  | cons k h ih =>
    have hk : k ≤ n := hh k (by simp)
    by_cases h0 : k = 0
    · obtain ⟨P, h1, h2⟩ := ih (fun j hj => hh j (by simp [hj])) (fun i => c (i + 1))
      refine ⟨Polynomial.C (c 0 : ℂ) * Polynomial.X ^ n + P, ?_, fun τ => ?_⟩
      · refine (Polynomial.natDegree_add_le _ _).trans (max_le ?_ h1)
        exact (Polynomial.natDegree_C_mul_X_pow_le _ _).trans (by omega)
      · simp only [series, if_pos h0, Polynomial.eval_add, Polynomial.eval_mul, Polynomial.eval_C, Polynomial.eval_pow,
          Polynomial.eval_X, ← h2]
        push_cast
        ring
    · obtain ⟨P, h1, h2⟩ := ih (fun j hj => hh j (by simp [hj])) (fun i => c (i + 2))
      refine ⟨Polynomial.C (((c 0 : ℂ) - c 1 * Complex.I) / 2) * Polynomial.X ^ (n + k)
        + Polynomial.C (((c 0 : ℂ) + c 1 * Complex.I) / 2) * Polynomial.X ^ (n - k) + P, ?_, fun τ => ?_⟩
      · refine (Polynomial.natDegree_add_le _ _).trans (max_le ?_ h1)
        refine (Polynomial.natDegree_add_le _ _).trans (max_le ?_ ?_)
        · exact (Polynomial.natDegree_C_mul_X_pow_le _ _).trans (by omega)
        · exact (Polynomial.natDegree_C_mul_X_pow_le _ _).trans (by omega)
      · simp only [series, if_neg h0, Polynomial.eval_add, Polynomial.eval_mul, Polynomial.eval_C, Polynomial.eval_pow,
          Polynomial.eval_X, ← h2]
        set z := Complex.exp (τ * Complex.I) with hz
        have hz0 : z ≠ 0 := Complex.exp_ne_zero _
        have e1 : Complex.cos (k * τ) = (z ^ k + (z ^ k)⁻¹) / 2 := by
          rw [Complex.cos, hz, ← Complex.exp_nat_mul, ← Complex.exp_neg]
          congr 3 <;> ring_nf
        have e2 : Complex.sin (k * τ) = ((z ^ k)⁻¹ - z ^ k) * Complex.I / 2 := by
          rw [Complex.sin, hz, ← Complex.exp_nat_mul, ← Complex.exp_neg]
          congr 4 <;> ring_nf
        have e3 : z ^ n = z ^ k * z ^ (n - k) := by rw [← pow_add]; congr 1; omega
        have e4 : (z ^ k)⁻¹ * z ^ n = z ^ (n - k) := by rw [e3]; field_simp
        have hI : Complex.I * Complex.I = -1 := Complex.I_mul_I
        push_cast
        rw [e1, e2, pow_add]
        linear_combination ((c 0 : ℂ) + c 1 * Complex.I) / 2 * e4

/-- A function of this form with more than `2n` zeros in `[0, 2π)` vanishes. -/
theorem trig_zeros (n : ℕ) (P : Polynomial ℂ) (hP : P.natDegree ≤ 2 * n) (d : ℝ → ℝ)
    (hd : ∀ τ : ℝ, ((d τ : ℝ) : ℂ) * Complex.exp (τ * Complex.I) ^ n = P.eval (Complex.exp (τ * Complex.I)))
    (Z : Finset ℝ) (hZ : ∀ τ ∈ Z, 0 ≤ τ ∧ τ < 2 * Real.pi ∧ d τ = 0) (hcard : 2 * n < Z.card) (τ : ℝ) : d τ = 0 := by
  have hinj : Set.InjOn (fun τ : ℝ => Complex.exp (τ * Complex.I)) Z := by
    intro a ha b hb hab
    obtain ⟨a1, a2, -⟩ := hZ a ha
    obtain ⟨b1, b2, -⟩ := hZ b hb
    obtain ⟨m, hm⟩ := Complex.exp_eq_exp_iff_exists_int.1 hab
    have h1 : (a : ℂ) = b + m * (2 * Real.pi) := by
      have : ((a : ℂ) - (b + m * (2 * Real.pi))) * Complex.I = 0 := by linear_combination hm
      rcases mul_eq_zero.1 this with h | h
      · linear_combination h
      · exact absurd h Complex.I_ne_zero
    have h2 : a = b + m * (2 * Real.pi) := by exact_mod_cast h1
    have hp := Real.pi_pos
    have hm0 : m = 0 := by
      by_contra hne
      rcases lt_or_gt_of_ne hne with h | h
      · have : (m : ℝ) ≤ -1 := by exact_mod_cast (by omega : m ≤ -1)
        nlinarith
      · have : (1 : ℝ) ≤ m := by exact_mod_cast h
        nlinarith
    rw [h2, hm0]
    simp
  have hP0 : P = 0 := by
    by_contra hne
    have hsub : Z.image (fun τ : ℝ => Complex.exp (τ * Complex.I)) ⊆ P.roots.toFinset := by
      intro z hz
      obtain ⟨a, ha, rfl⟩ := Finset.mem_image.1 hz
      rw [Multiset.mem_toFinset, Polynomial.mem_roots hne, Polynomial.IsRoot, ← hd, (hZ a ha).2.2]
      simp
    have h1 := Finset.card_le_card hsub
    rw [Finset.card_image_of_injOn hinj] at h1
    have h2 := (Multiset.toFinset_card_le P.roots).trans (Polynomial.card_roots' P)
    omega
  have := hd τ
  rw [hP0, Polynomial.eval_zero] at this
  rcases mul_eq_zero.1 this with h | h
  · exact_mod_cast h
  · exact absurd h (pow_ne_zero _ (Complex.exp_ne_zero _))

theorem series_cont (h : List ℕ) (c : ℕ → ℝ) : Continuous (series h c) := by
  induction h generalizing c with
  | nil => exact continuous_const
  | cons k h ih =>
    by_cases h0 : k = 0
    · have : series (k :: h) c = fun τ => c 0 + series h (fun i => c (i + 1)) τ := by
        funext τ
        simp only [series, if_pos h0]
      rw [this]
      exact continuous_const.add (ih _)
    · have : series (k :: h) c = fun τ => c 0 * Real.cos (k * τ) + c 1 * Real.sin (k * τ)
          + series h (fun i => c (i + 2)) τ := by
        funext τ
        simp only [series, if_neg h0]
      rw [this]
      have := ih (fun i => c (i + 2))
      fun_prop

theorem series_period (h : List ℕ) (c : ℕ → ℝ) (τ : ℝ) : series h c (τ + 2 * Real.pi) = series h c τ := by
  induction h generalizing c with
  | nil => rfl
  | cons k h ih =>
    have e : (k:ℝ) * (τ + 2 * Real.pi) = k * τ + k * (2 * Real.pi) := by ring
    simp only [series, ih, e, Real.cos_add_nat_mul_two_pi, Real.sin_add_nat_mul_two_pi]

/-- Equidistant samples of a trigonometric polynomial of degree `n` without equal neighbours have at most `2n`
reversals. -/
theorem reversals_le (n : ℕ) (h : List ℕ) (hh : ∀ k ∈ h, k ≤ n) (c : ℕ → ℝ) (Nt : ℕ) (hNt : 0 < Nt) (u : ℕ → ℝ)
    (hu : ∀ j, u j = series h c (2 * Real.pi * j / Nt)) (hne : ∀ i < Nt, u i ≠ u ((i + 1) % Nt)) :
    (critInds Nt u).length ≤ 2 * n + 1 := by
  obtain ⟨P, hP1, hP2⟩ := series_poly n h hh c
  have hN : (0:ℝ) < Nt := by exact_mod_cast hNt
  have hpi := Real.pi_pos
  set Δ : ℝ := 2 * Real.pi / Nt with hΔ
  have hΔ0 : 0 < Δ := by positivity
  set d : ℝ → ℝ := fun τ => series h c (τ + Δ) - series h c τ with hd
  have hdc : Continuous d := by
    have := series_cont h c
    fun_prop
  have hu' : ∀ j, u j = series h c (j * Δ) := fun j => by rw [hu, hΔ]; congr 1; ring
  have hper : ∀ j, j < Nt → u ((j + 1) % Nt) = u (j + 1) := by
    intro j hj
    rcases Nat.lt_or_ge (j + 1) Nt with h1 | h1
    · rw [Nat.mod_eq_of_lt h1]
    · have : j + 1 = Nt := by omega
      rw [this, Nat.mod_self, hu', hu', hΔ]
      have : (Nt:ℝ) * (2 * Real.pi / Nt) = 0 + 2 * Real.pi := by field_simp; ring
      rw [this, series_period]
      congr 1
      simp
  have hdj : ∀ j : ℕ, d (j * Δ) = u (j + 1) - u j := by
    intro j
    rw [hd, hu', hu']
    beta_reduce
    congr 2
    push_cast
    ring
  -- the polynomial of `d`
  set a := Complex.exp (Δ * Complex.I) with ha
  have ha0 : a ≠ 0 := Complex.exp_ne_zero _
  have hD : ∀ τ : ℝ, ((d τ : ℝ) : ℂ) * Complex.exp (τ * Complex.I) ^ n
      = (Polynomial.C ((a ^ n)⁻¹) * P.comp (Polynomial.C a * Polynomial.X) - P).eval (Complex.exp (τ * Complex.I)) := by
    intro τ
    rw [Polynomial.eval_sub, Polynomial.eval_mul, Polynomial.eval_C, Polynomial.eval_comp, Polynomial.eval_mul,
      Polynomial.eval_C, Polynomial.eval_X, ← hP2]
    have e : a * Complex.exp (τ * Complex.I) = Complex.exp (((τ + Δ : ℝ) : ℂ) * Complex.I) := by
      rw [ha, ← Complex.exp_add]
      congr 1
      push_cast
      ring
    rw [e, ← hP2, ← e, mul_pow, hd]
    push_cast
    field_simp
  have hDdeg : (Polynomial.C ((a ^ n)⁻¹) * P.comp (Polynomial.C a * Polynomial.X) - P).natDegree ≤ 2 * n := by
    refine (Polynomial.natDegree_sub_le _ _).trans (max_le ?_ hP1)
    refine (Polynomial.natDegree_C_mul_le _ _).trans ?_
    rw [Polynomial.natDegree_comp]
    refine (Nat.mul_le_mul hP1 (Polynomial.natDegree_C_mul_le _ _)).trans ?_
    simp
  by_contra hcon
  -- one zero for every reversal after the first sample
  have hz : ∀ i, 0 < i → i < Nt → isCrit Nt u i → ∃ ξ, ((i - 1 : ℕ) : ℝ) * Δ < ξ ∧ ξ < i * Δ ∧ d ξ = 0 := by
    intro i hi0 hi hc
    rcases hc with hc | hc
    · omega
    have e1 : (i + Nt - 1) % Nt = i - 1 := by
      rw [show i + Nt - 1 = (i - 1) + Nt by omega, Nat.add_mod_right, Nat.mod_eq_of_lt (by omega)]
    rw [e1, hper i hi] at hc
    have d1 : d ((i - 1 : ℕ) * Δ) = u i - u (i - 1) := by
      rw [hdj, show i - 1 + 1 = i by omega]
    have d2 : d (i * Δ) = u (i + 1) - u i := hdj i
    rw [← d1, ← d2] at hc
    have n1 : d ((i - 1 : ℕ) * Δ) ≠ 0 := by
      rw [d1]
      have := hne (i - 1) (by omega)
      rw [hper _ (by omega), show i - 1 + 1 = i by omega] at this
      exact sub_ne_zero.2 this.symm
    have n2 : d (i * Δ) ≠ 0 := by
      rw [d2]
      have := hne i hi
      rw [hper _ hi] at this
      exact sub_ne_zero.2 this.symm
    have hlt : ((i - 1 : ℕ) : ℝ) * Δ < i * Δ := by
      have : ((i - 1 : ℕ) : ℝ) < i := by exact_mod_cast (by omega : i - 1 < i)
      nlinarith
    rcases lt_or_gt_of_ne n1 with s1 | s1 <;> rcases lt_or_gt_of_ne n2 with s2 | s2
    · exact absurd (by rw [sign_neg s1, sign_neg s2]) hc
    · obtain ⟨ξ, ⟨x1, x2⟩, x3⟩ := intermediate_value_Ioo hlt.le hdc.continuousOn ⟨s1, s2⟩
      exact ⟨ξ, x1, x2, x3⟩
    · obtain ⟨ξ, ⟨x1, x2⟩, x3⟩ := intermediate_value_Ioo' hlt.le hdc.continuousOn ⟨s2, s1⟩
      exact ⟨ξ, x1, x2, x3⟩
    · exact absurd (by rw [sign_pos s1, sign_pos s2]) hc
  choose! ξ x1 x2 x3 using hz
  set C := ((Finset.range Nt).filter (fun i => isCrit Nt u i)).erase 0 with hC
  have hCm : ∀ i ∈ C, 0 < i ∧ i < Nt ∧ isCrit Nt u i := by
    intro i hi
    rw [hC, Finset.mem_erase, Finset.mem_filter, Finset.mem_range] at hi
    exact ⟨Nat.pos_of_ne_zero hi.1, hi.2.1, hi.2.2⟩
  have hCcard : 2 * n < C.card := by
    have h1 : (critInds Nt u).length = ((Finset.range Nt).filter (fun i => isCrit Nt u i)).card := by
      have : (Finset.range Nt).filter (fun i => isCrit Nt u i) = (critInds Nt u).toFinset := by
        ext i
        simp [critInds]
      rw [this, List.toFinset_card_of_nodup]
      unfold critInds
      exact List.nodup_range.filter _
    have h2 := Finset.pred_card_le_card_erase (s := (Finset.range Nt).filter (fun i => isCrit Nt u i)) (a := 0)
    rw [← hC] at h2
    omega
  have hmono : ∀ i ∈ C, ∀ j ∈ C, i < j → ξ i < ξ j := by
    intro i hi j hj hij
    obtain ⟨a1, a2, a3⟩ := hCm i hi
    obtain ⟨b1, b2, b3⟩ := hCm j hj
    have h1 := x2 i a1 a2 a3
    have h2 := x1 j b1 b2 b3
    have h3 : (i:ℝ) * Δ ≤ ((j - 1 : ℕ) : ℝ) * Δ := by
      have : (i:ℝ) ≤ ((j - 1 : ℕ) : ℝ) := by exact_mod_cast (by omega : i ≤ j - 1)
      nlinarith
    linarith
  have hinj : Set.InjOn ξ C := by
    intro i hi j hj hij
    by_contra hne'
    rcases lt_or_gt_of_ne hne' with h1 | h1
    · have := hmono i hi j hj h1
      linarith
    · have := hmono j hj i hi h1
      linarith
  have hall := trig_zeros n _ hDdeg d hD (C.image ξ) (by
    intro τ hτ
    obtain ⟨i, hi, rfl⟩ := Finset.mem_image.1 hτ
    obtain ⟨a1, a2, a3⟩ := hCm i hi
    refine ⟨?_, ?_, x3 i a1 a2 a3⟩
    · have h1 := x1 i a1 a2 a3
      have : 0 ≤ ((i - 1 : ℕ) : ℝ) * Δ := by positivity
      linarith
    · have h1 := x2 i a1 a2 a3
      have h2 : (i:ℝ) * Δ ≤ Nt * Δ := by
        have : (i:ℝ) ≤ Nt := by exact_mod_cast a2.le
        nlinarith
      have h3 : (Nt:ℝ) * Δ = 2 * Real.pi := by rw [hΔ]; field_simp
      linarith) (by rw [Finset.card_image_of_injOn hinj]; exact hCcard)
  have h0 := hall ((0:ℕ) * Δ)
  rw [hdj] at h0
  have := hne 0 hNt
  rw [hper 0 hNt] at this
  exact this (by linarith)

end

end TMD
