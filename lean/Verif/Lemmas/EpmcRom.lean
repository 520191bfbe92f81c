import Verif.Model.EpmcRom
import Verif.Spec.EpmcRom
import Verif.Lemmas.HarmonicMisc
import Verif.Lemmas.Series
import Mathlib.Tactic.LinearCombination
import Mathlib.Tactic.FieldSimp

/-! # Lemmas on the EPMC reduced order model -/

namespace TMD

open TMD.Spec

/-- Harmonic 1 is listed first, after harmonic 0 if that is present. -/
def FirstIsOne (h : List ℕ) : Prop := ∃ t, h = 1 :: t ∨ h = 0 :: 1 :: t

theorem FirstIsOne.ne {h : List ℕ} (H : FirstIsOne h) : h ≠ [] := by
  obtain ⟨t, rfl | rfl⟩ := H <;> simp

theorem FirstIsOne.get {h : List ℕ} (H : FirstIsOne h) : h.getD (zi h) 0 = 1 ∧ zi h < h.length := by
  obtain ⟨t, rfl | rfl⟩ := H <;> simp [zi]

theorem coefOf_firstIsOne {h : List ℕ} (H : FirstIsOne h) (c : ℕ → ℝ) : coefOf h c 1 = (c (zi h), c (1 + zi h)) := by
  obtain ⟨t, rfl | rfl⟩ := H <;> simp [zi, coefOf]

theorem firstHarmonic_eq {h : List ℕ} (H : FirstIsOne h) (Ndof : ℕ) (U : ℕ → ℝ) (d : ℕ) :
    firstHarmonic h Ndof U d = ⟨U (zi h * Ndof + d), -U ((1 + zi h) * Ndof + d)⟩ := by
  unfold firstHarmonic
  rw [coefOf_firstIsOne H]

theorem modalForce_eq {h : List ℕ} (H : FirstIsOne h) (Ndof : ℕ) (phi F : ℕ → ℝ) :
    modalForce h Ndof phi F = ⟨modalForceRe Ndof (zi h) phi F, modalForceIm Ndof (zi h) phi F⟩ := by
  unfold modalForce modalForceRe modalForceIm
  apply Complex.ext
  · rw [Complex.re_sum, ← Finset.sum_add_distrib]
    refine Finset.sum_congr rfl fun d _ => ?_
    rw [firstHarmonic_eq H, firstHarmonic_eq H]
    simp only [Complex.mul_re, Complex.conj_re, Complex.conj_im]
    ring
  · rw [Complex.im_sum, ← Finset.sum_sub_distrib]
    refine Finset.sum_congr rfl fun d _ => ?_
    rw [firstHarmonic_eq H, firstHarmonic_eq H]
    simp only [Complex.mul_im, Complex.conj_re, Complex.conj_im]
    ring

/-- A rotation multiplies the complex amplitude by `exp(-i phase)`. -/
theorem firstHarmonic_rsp {h : List ℕ} (H : FirstIsOne h) {Ndof d : ℕ} (hd : d < Ndof) (U : ℕ → ℝ) (phase : ℝ) :
    firstHarmonic h Ndof (rsp U Ndof h phase 1) d =
      Complex.exp (-(phase : ℂ) * Complex.I) * firstHarmonic h Ndof U d := by
  obtain ⟨h1, h2⟩ := H.get
  have hz := zi_le_one h
  have c := rsp_cos (U := U) (phase := phase) (hRot := 1) (Finset.mem_Ico.2 ⟨le_rfl, h2⟩) hd
  have s := rsp_sin (U := U) (phase := phase) (hRot := 1) (Finset.mem_Ico.2 ⟨le_rfl, h2⟩) hd
  rw [show zi h * 2 - zi h = zi h by omega, h1] at c s
  rw [show zi h + 1 = 1 + zi h by omega] at c s
  simp only [Nat.cast_one, one_mul, div_one] at c s
  rw [firstHarmonic_eq H, firstHarmonic_eq H, c, s, Complex.exp_mul_I, Complex.cos_neg, Complex.sin_neg,
    ← Complex.ofReal_cos, ← Complex.ofReal_sin]
  apply Complex.ext <;> simp only [Complex.add_re, Complex.add_im, Complex.mul_re, Complex.mul_im, Complex.neg_re,
    Complex.neg_im, Complex.ofReal_re, Complex.ofReal_im, Complex.I_re, Complex.I_im] <;> ring

/-- The phase solves the complex equation when the magnitudes agree. -/
theorem phase_solves {P D : ℂ} {q : ℝ} (hq : 0 < q) (h : q ^ 2 * Complex.normSq D = Complex.normSq P) :
    D * (q * Complex.exp (-(Complex.arg ((starRingEnd ℂ) P * D) : ℂ) * Complex.I)) = P := by
  by_cases hD : D = 0
  · subst hD
    rw [map_zero, mul_zero] at h
    rw [Complex.normSq_eq_zero.1 h.symm, zero_mul]
  · have hP : P ≠ 0 := by
      rintro rfl
      rw [map_zero] at h
      rcases mul_eq_zero.1 h with h1 | h1
      · exact (pow_pos hq 2).ne' h1
      · exact hD (Complex.normSq_eq_zero.1 h1)
    have hn : ‖P‖ = q * ‖D‖ := by
      rw [Complex.normSq_eq_norm_sq, Complex.normSq_eq_norm_sq, ← mul_pow] at h
      exact ((pow_left_inj₀ (by positivity) (by positivity) two_ne_zero).1 h).symm
    set z := (starRingEnd ℂ) P * D with hz
    have e1 : (‖z‖ : ℂ) * Complex.exp (Complex.arg z * Complex.I) = z := Complex.norm_mul_exp_arg_mul_I z
    have e2 : ‖z‖ = ‖P‖ * ‖D‖ := by rw [hz, norm_mul, Complex.norm_conj]
    have e3 : Complex.exp (Complex.arg z * Complex.I) * Complex.exp (-(Complex.arg z : ℂ) * Complex.I) = 1 := by
      rw [← Complex.exp_add]; simp
    have e4 : z * Complex.exp (-(Complex.arg z : ℂ) * Complex.I) = (‖P‖ * ‖D‖ : ℂ) := by
      rw [← e1, mul_assoc, e1, e3, mul_one, e2]; push_cast; rfl
    have e5 : P * (starRingEnd ℂ) P = (‖P‖ : ℂ) ^ 2 := Complex.mul_conj' P
    have hPn : (‖P‖ : ℂ) ≠ 0 := by simpa using hP
    have hn' : (‖P‖ : ℂ) = q * ‖D‖ := by rw [hn]; push_cast; rfl
    have e6 : (‖P‖ : ℂ) ^ 2 * (D * Complex.exp (-(Complex.arg z : ℂ) * Complex.I)) = P * (‖P‖ * ‖D‖) := by
      rw [← e5, ← e4, hz]; ring
    have e7 : (‖P‖ : ℂ) ^ 2 * (D * (q * Complex.exp (-(Complex.arg z : ℂ) * Complex.I))) = (‖P‖ : ℂ) ^ 2 * P := by
      have : (‖P‖ : ℂ) ^ 2 * (D * (q * Complex.exp (-(Complex.arg z : ℂ) * Complex.I))) =
        q * ((‖P‖ : ℂ) ^ 2 * (D * Complex.exp (-(Complex.arg z : ℂ) * Complex.I))) := by ring
      rw [this, e6]
      linear_combination (-P * ‖P‖) * hn'
    exact mul_left_cancel₀ (pow_ne_zero 2 hPn) e7

theorem mapE_ok {α β : Type} {f : α → Except Err β} {g : α → β} (h : ∀ a, f a = .ok (g a)) (l : List α) :
    mapE f l = .ok (l.map g) := by
  induction l with
  | nil => rfl
  | cons a l ih => unfold mapE; simp only [h, ih, List.map_cons]

/-- The squares of the frequencies that solve the modal equation are the candidates. -/
theorem mem_romCandidates {M : ℕ} {w zeta PR PI q : ℕ → ℝ} (hq : ∀ k, 0 < q k) {k : ℕ} {y : ℝ} :
    (k, y) ∈ romCandidates M w zeta PR PI q ↔ k < M ∧ 0 < y ∧
      q k ^ 2 * ((w k ^ 2 - y) ^ 2 + (2 * zeta k * w k) ^ 2 * y) = PR k ^ 2 + PI k ^ 2 := by
  unfold romCandidates
  have hq' := (pow_pos (hq k) 2).ne'
  have hF : Real.sqrt (PR k ^ 2 + PI k ^ 2) ^ 2 = PR k ^ 2 + PI k ^ 2 := Real.sq_sqrt (by positivity)
  set p2 := w k ^ 2 - 2 * (zeta k * w k) ^ 2 with hp2
  have key : ∀ y : ℝ, q k ^ 2 * ((w k ^ 2 - y) ^ 2 + (2 * zeta k * w k) ^ 2 * y) = PR k ^ 2 + PI k ^ 2 ↔
      (y - p2) ^ 2 = p2 ^ 2 - w k ^ 4 + Real.sqrt (PR k ^ 2 + PI k ^ 2) ^ 2 / q k ^ 2 := by
    intro y
    rw [hF]
    constructor
    · intro h; rw [← h, hp2, mul_div_cancel_left₀ _ hq']; ring
    · intro h
      have h2 := congrArg (fun t => q k ^ 2 * t) h
      simp only [mul_add, mul_div_cancel₀ _ hq'] at h2
      rw [hp2] at h2
      linear_combination h2
  rw [key]
  simp only [List.mem_filter, List.mem_append, List.mem_map, List.mem_reverse, List.mem_range, Prod.mk.injEq,
    decide_eq_true_eq]
  constructor
  · rintro ⟨⟨a, ha, rfl, rfl⟩ | ⟨a, ha, rfl, rfl⟩, hy, harg⟩
    all_goals
      refine ⟨ha, hy, ?_⟩
      rw [if_pos harg]
      have hs := Real.sq_sqrt harg
      rw [hp2]
      linear_combination hs
  · rintro ⟨hk, hy, he⟩
    have harg : 0 ≤ p2 ^ 2 - w k ^ 4 + Real.sqrt (PR k ^ 2 + PI k ^ 2) ^ 2 / q k ^ 2 := he ▸ sq_nonneg _
    refine ⟨?_, hy, harg⟩
    rcases le_total 0 (y - p2) with h0 | h0
    · refine .inl ⟨k, hk, rfl, ?_⟩
      rw [if_pos harg, ← he, Real.sqrt_sq h0]; ring
    · refine .inr ⟨k, hk, rfl, ?_⟩
      rw [if_pos harg, ← he, Real.sqrt_sq_eq_abs, abs_of_nonpos h0]; ring

end TMD
