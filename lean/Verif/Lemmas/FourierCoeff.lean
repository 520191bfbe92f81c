import Verif.Lemmas.TimeSeries
import Mathlib.Analysis.SpecialFunctions.Complex.Circle
import Mathlib.Algebra.Ring.GeomSum
import Mathlib.Algebra.BigOperators.Field

/-! Helper lemmas about `get_fourier_coeff`: discrete orthogonality. -/

namespace TMD

open Spec Finset

noncomputable section

theorem cexp_sum {N : ℕ} (hN : 0 < N) (m : ℤ) :
    ∑ j ∈ range N, Complex.exp (((m : ℝ) * angle N j : ℝ) * Complex.I)
      = if (N : ℤ) ∣ m then (N : ℂ) else 0 := by
  have hN' : (N : ℂ) ≠ 0 := by exact_mod_cast hN.ne'
  set z : ℂ := Complex.exp (2 * Real.pi * Complex.I * m / N) with hz
  have hterm : ∀ j : ℕ, Complex.exp (((m : ℝ) * angle N j : ℝ) * Complex.I) = z ^ j := by
    intro j
    rw [hz, ← Complex.exp_nat_mul]
    congr 1
    unfold angle; push_cast; ring
  rw [sum_congr rfl (fun j _ => hterm j)]
  have hzN : z ^ N = 1 := by
    rw [hz, ← Complex.exp_nat_mul, Complex.exp_eq_one_iff]
    exact ⟨m, by field_simp⟩
  by_cases hd : (N : ℤ) ∣ m
  · rw [if_pos hd]
    obtain ⟨q, hq⟩ := hd
    have : z = 1 := by
      rw [hz, Complex.exp_eq_one_iff]
      exact ⟨q, by rw [hq]; push_cast; field_simp⟩
    rw [this]; simp
  · rw [if_neg hd]
    have hz1 : z ≠ 1 := by
      intro h1
      rw [hz, Complex.exp_eq_one_iff] at h1
      obtain ⟨q, hq⟩ := h1
      apply hd
      refine ⟨q, ?_⟩
      have hpi : (2 * Real.pi * Complex.I : ℂ) ≠ 0 := Complex.two_pi_I_ne_zero
      have : (m : ℂ) = N * q := by
        have h2 : (2 * Real.pi * Complex.I : ℂ) * m = (2 * Real.pi * Complex.I) * (N * q) := by
          field_simp at hq
          linear_combination (2 * Real.pi * Complex.I : ℂ) * hq
        exact mul_left_cancel₀ hpi h2
      exact_mod_cast this
    have := mul_neg_geom_sum z N
    rw [hzN, sub_self] at this
    rcases mul_eq_zero.mp this with h1 | h1
    · exact absurd (sub_eq_zero.mp h1).symm hz1
    · exact h1

theorem cos_sum {N : ℕ} (hN : 0 < N) (m : ℤ) :
    ∑ j ∈ range N, Real.cos ((m : ℝ) * angle N j) = if (N : ℤ) ∣ m then (N : ℝ) else 0 := by
  have := congrArg Complex.re (cexp_sum hN m)
  rw [Complex.re_sum] at this
  simp only [Complex.exp_ofReal_mul_I_re] at this
  rw [this]; split <;> simp

theorem sin_sum {N : ℕ} (hN : 0 < N) (m : ℤ) :
    ∑ j ∈ range N, Real.sin ((m : ℝ) * angle N j) = 0 := by
  have := congrArg Complex.im (cexp_sum hN m)
  rw [Complex.im_sum] at this
  simp only [Complex.exp_ofReal_mul_I_im] at this
  rw [this]; split <;> simp

theorem dvd_add_iff {N m k : ℕ} (hm : 2*m < N) (hk : 2*k < N) :
    ((N : ℤ) ∣ (m : ℤ) + k) ↔ m = 0 ∧ k = 0 := by
  constructor
  · intro h
    have h' : N ∣ m + k := by exact_mod_cast h
    have := Nat.eq_zero_of_dvd_of_lt h' (by omega)
    omega
  · rintro ⟨rfl, rfl⟩; simp

theorem dvd_sub_iff {N m k : ℕ} (hm : 2*m < N) (hk : 2*k < N) :
    ((N : ℤ) ∣ (m : ℤ) - k) ↔ m = k := by
  constructor
  · intro h
    have := Int.eq_zero_of_abs_lt_dvd h (by rw [abs_lt]; constructor <;> omega)
    omega
  · rintro rfl; simp

theorem cos_cos_sum {N m k : ℕ} (hm : 2*m < N) (hk : 2*k < N) :
    ∑ j ∈ range N, Real.cos (m * angle N j) * Real.cos (k * angle N j)
      = if m = k then (if m = 0 then (N : ℝ) else N / 2) else 0 := by
  have hN : 0 < N := by omega
  have e : ∀ j, Real.cos (m * angle N j) * Real.cos (k * angle N j)
      = (Real.cos ((((m:ℤ) - k : ℤ) : ℝ) * angle N j) + Real.cos ((((m:ℤ) + k : ℤ) : ℝ) * angle N j)) / 2 := by
    intro j
    push_cast
    rw [sub_mul, add_mul, Real.cos_sub, Real.cos_add]; ring
  rw [sum_congr rfl (fun j _ => e j), ← sum_div, sum_add_distrib, cos_sum hN, cos_sum hN]
  simp only [dvd_add_iff hm hk, dvd_sub_iff hm hk]
  by_cases h1 : m = k
  · subst h1
    by_cases h2 : m = 0
    · simp [h2]
    · simp [h2]
  · have h2 : ¬ (m = 0 ∧ k = 0) := by rintro ⟨rfl, rfl⟩; exact h1 rfl
    simp [h1, h2]

theorem sin_sin_sum {N m k : ℕ} (hm : 2*m < N) (hk : 2*k < N) :
    ∑ j ∈ range N, Real.sin (m * angle N j) * Real.sin (k * angle N j)
      = if m = k then (if m = 0 then 0 else (N : ℝ) / 2) else 0 := by
  have hN : 0 < N := by omega
  have e : ∀ j, Real.sin (m * angle N j) * Real.sin (k * angle N j)
      = (Real.cos ((((m:ℤ) - k : ℤ) : ℝ) * angle N j) - Real.cos ((((m:ℤ) + k : ℤ) : ℝ) * angle N j)) / 2 := by
    intro j
    push_cast
    rw [sub_mul, add_mul, Real.cos_sub, Real.cos_add]; ring
  rw [sum_congr rfl (fun j _ => e j), ← sum_div, sum_sub_distrib, cos_sum hN, cos_sum hN]
  simp only [dvd_add_iff hm hk, dvd_sub_iff hm hk]
  by_cases h1 : m = k
  · subst h1
    by_cases h2 : m = 0
    · simp [h2]
    · simp [h2]
  · have h2 : ¬ (m = 0 ∧ k = 0) := by rintro ⟨rfl, rfl⟩; exact h1 rfl
    simp [h1, h2]

theorem sin_cos_sum {N : ℕ} (hN : 0 < N) (m k : ℕ) :
    ∑ j ∈ range N, Real.sin (m * angle N j) * Real.cos (k * angle N j) = 0 := by
  have e : ∀ j, Real.sin (m * angle N j) * Real.cos (k * angle N j)
      = (Real.sin ((((m:ℤ) - k : ℤ) : ℝ) * angle N j) + Real.sin ((((m:ℤ) + k : ℤ) : ℝ) * angle N j)) / 2 := by
    intro j
    push_cast
    rw [sub_mul, add_mul, Real.sin_sub, Real.sin_add]; ring
  rw [sum_congr rfl (fun j _ => e j), ← sum_div, sum_add_distrib, sin_sum hN, sin_sum hN]
  simp

/-- Projection of a sampled series on a cosine. -/
theorem series_cos_proj {g : List ℕ} {N k : ℕ} (hg : ∀ m ∈ g, 2*m < N) (hk : 2*k < N)
    (hn : g.Nodup) (c : ℕ → ℝ) :
    ∑ j ∈ range N, series g c (angle N j) * Real.cos (k * angle N j)
      = (coefOf g c k).1 * (if k = 0 then (N : ℝ) else N / 2) := by
  induction g generalizing c with
  | nil => simp [series, coefOf]
  | cons a gs ih =>
    have hn' := List.nodup_cons.mp hn
    have ih' := fun c => ih (fun m hm => hg m (List.mem_cons_of_mem _ hm)) hn'.2 c
    have ha := hg a List.mem_cons_self
    by_cases ha0 : a = 0
    · subst ha0
      simp only [series, if_true, add_mul, sum_add_distrib, ← mul_sum]
      rw [ih']
      have h1 := cos_cos_sum (N := N) (m := 0) (k := k) ha hk
      simp only [Nat.cast_zero, zero_mul, Real.cos_zero, one_mul] at h1
      rw [h1]
      by_cases hk0 : k = 0
      · subst hk0
        simp [coefOf, coefOf_not_mem hn'.1]
      · have hk0' : ¬ (0 = k) := fun e => hk0 e.symm
        simp [coefOf, hk0, hk0']
    · simp only [series, ha0, if_false, add_mul, sum_add_distrib]
      rw [ih']
      simp only [mul_assoc, ← mul_sum]
      rw [cos_cos_sum ha hk, sin_cos_sum (by omega)]
      by_cases hka : a = k
      · subst hka
        simp [coefOf, coefOf_not_mem hn'.1, ha0]
      · simp [coefOf, hka, ha0]

theorem series_sin_proj {g : List ℕ} {N k : ℕ} (hg : ∀ m ∈ g, 2*m < N) (hk : 2*k < N)
    (hk0 : k ≠ 0) (hn : g.Nodup) (c : ℕ → ℝ) :
    ∑ j ∈ range N, series g c (angle N j) * Real.sin (k * angle N j)
      = (coefOf g c k).2 * (N / 2) := by
  have hN : 0 < N := by omega
  induction g generalizing c with
  | nil => simp [series, coefOf]
  | cons a gs ih =>
    have hn' := List.nodup_cons.mp hn
    have ih' := fun c => ih (fun m hm => hg m (List.mem_cons_of_mem _ hm)) hn'.2 c
    have ha := hg a List.mem_cons_self
    by_cases ha0 : a = 0
    · subst ha0
      have hk0' : ¬ (0 = k) := fun e => hk0 e.symm
      simp only [series, if_true, add_mul, sum_add_distrib, ← mul_sum]
      rw [ih']
      have h1 := sin_sum hN (k : ℤ)
      simp only [Int.cast_natCast] at h1
      rw [h1]
      simp [coefOf, hk0']
    · simp only [series, ha0, if_false, add_mul, sum_add_distrib]
      rw [ih']
      simp only [mul_assoc, ← mul_sum]
      have h1 := sin_cos_sum hN k a
      simp only [mul_comm (Real.sin _) (Real.cos _)] at h1
      rw [sin_sin_sum ha hk, h1]
      by_cases hka : a = k
      · subst hka
        simp [coefOf, coefOf_not_mem hn'.1, ha0]
      · simp [coefOf, hka, ha0]

variable {ι : Type}

theorem fft_re (N : ℕ) (x : ℕ → ι → ℝ) (k : ℕ) (d : ι) :
    (fft N x k d).re = ∑ j ∈ range N, x j d * Real.cos (k * angle N j) := by
  unfold fft
  rw [Complex.re_sum]
  apply sum_congr rfl
  intro j _
  rw [Complex.re_ofReal_mul]
  congr 1
  have : (-(2 * Real.pi * Complex.I * j * k / N) : ℂ) = ((-(k * angle N j) : ℝ) : ℂ) * Complex.I := by
    unfold angle; push_cast; ring
  rw [this, Complex.exp_ofReal_mul_I_re, Real.cos_neg]

theorem fft_im (N : ℕ) (x : ℕ → ι → ℝ) (k : ℕ) (d : ι) :
    (fft N x k d).im = -∑ j ∈ range N, x j d * Real.sin (k * angle N j) := by
  unfold fft
  rw [Complex.im_sum, ← sum_neg_distrib]
  apply sum_congr rfl
  intro j _
  rw [Complex.im_ofReal_mul]
  have : (-(2 * Real.pi * Complex.I * j * k / N) : ℂ) = ((-(k * angle N j) : ℝ) : ℂ) * Complex.I := by
    unfold angle; push_cast; ring
  rw [this, Complex.exp_ofReal_mul_I_im, Real.sin_neg]; ring

/-- The per-harmonic value computed by `get_fourier_coeff`. -/
def dftCoef (N : ℕ) (x : ℕ → ℝ) (k : ℕ) : ℝ × ℝ :=
  if k = 0 then ((∑ j ∈ range N, x j) / N, 0)
  else ((∑ j ∈ range N, x j * Real.cos (k * angle N j)) / ((N : ℝ)/2),
        (∑ j ∈ range N, x j * Real.sin (k * angle N j)) / ((N : ℝ)/2))

theorem gfcLoop_spec (N : ℕ) (x : ℕ → ι → ℝ) (hs : List ℕ) (hN : ∀ k ∈ hs, k < N)
    (h0 : 0 ∉ hs) (r : ℕ) (v : ℕ → ι → ℝ) :
    ∃ v', gfcLoop N x hs r v = .ok v' ∧ (∀ s < r, v' s = v s) ∧
      ∀ i (hi : i < hs.length) d, (v' (r + 2*i) d, v' (r + 2*i + 1) d)
        = dftCoef N (fun j => x j d) hs[i] := by
  induction hs generalizing r v with
  | nil => exact ⟨v, rfl, fun _ _ => rfl, by simp⟩
  | cons a hs ih =>
    have ha : a ≠ 0 := by rintro rfl; simp at h0
    have haN := hN a List.mem_cons_self
    rw [gfcLoop, if_neg (by omega)]
    obtain ⟨v', h1, h2, h3⟩ := ih (fun k hk => hN k (List.mem_cons_of_mem _ hk))
      (fun hh => h0 (List.mem_cons_of_mem _ hh)) (r+2)
      (setRow (setRow v r (fun d => (fft N x a d).re / ((N : ℝ)/2))) (r+1)
        (fun d => -(fft N x a d).im / ((N : ℝ)/2)))
    refine ⟨v', h1, ?_, ?_⟩
    · intro s hs
      rw [h2 s (by omega)]
      have : s ≠ r + 1 := by omega
      have : s ≠ r := by omega
      simp [setRow, *]
    · intro i hi d
      cases i with
      | zero =>
        rw [h2 _ (by omega), h2 _ (by omega)]
        simp [setRow, dftCoef, ha, fft_re, fft_im]
      | succ i =>
        have := h3 i (by simpa using hi) d
        rw [show r + 2*(i+1) = r + 2 + 2*i by ring, this]
        simp

theorem coefOf_of_rows {h : List ℕ} (hn : h.Nodup) (h0 : 0 ∉ h) (v : ℕ → ℝ) (f : ℕ → ℝ × ℝ)
    (hv : ∀ i (hi : i < h.length), (v (2*i), v (2*i+1)) = f h[i]) {m : ℕ} (hm : m ∈ h) :
    coefOf h v m = f m := by
  induction h generalizing v with
  | nil => simp at hm
  | cons a hs ih =>
    have hn' := List.nodup_cons.mp hn
    have ha : a ≠ 0 := by rintro rfl; simp at h0
    by_cases hma : a = m
    · subst hma
      have := hv 0 (by simp)
      simp only [List.getElem_cons_zero] at this
      simp [coefOf, ha, ← this]
    · have hm' : m ∈ hs := by
        rcases List.mem_cons.mp hm with h1 | h1
        · exact absurd h1.symm hma
        · exact h1
      simp only [coefOf, hma, ha, if_false]
      apply ih hn'.2 (fun hh => h0 (List.mem_cons_of_mem _ hh)) _ _ hm'
      intro i hi
      have := hv (i+1) (by simpa using hi)
      simp only [List.getElem_cons_succ] at this
      rw [← this]
      rfl

/-- `get_fourier_coeff` computes the discrete Fourier coefficient of each listed harmonic. -/
theorem getFourierCoeff_ok {h : List ℕ} (hA : Admissible h) (x : TS ι)
    (hN : ∀ k ∈ h, k < x.rows) :
    ∃ v, getFourierCoeff h x = .ok v ∧ ∀ m ∈ h, ∀ d,
      coefOf h (fun r => v r d) m = dftCoef x.rows (fun j => x.val j d) m := by
  unfold getFourierCoeff
  have hr : x.rows ≠ 0 := by
    have := hN _ (hmax_mem hA.ne); omega
  rw [if_neg hA.ne, if_neg (not_not.mpr (zeroFirst_iff hA)), if_neg hr]
  obtain ⟨hne, hn, h0⟩ := hA
  cases h with
  | nil => simp at hne
  | cons a hs =>
    have hn' := List.nodup_cons.mp hn
    simp only [List.tail_cons] at h0
    by_cases ha : a = 0
    · subst ha
      simp only [List.headI_cons, if_true, List.tail_cons]
      obtain ⟨v', h1, h2, h3⟩ := gfcLoop_spec x.rows x.val hs
        (fun k hk => hN k (List.mem_cons_of_mem _ hk)) h0 1
        (setRow (fun _ _ => 0) 0 (fun d => (fft x.rows x.val 0 d).re / (x.rows : ℝ)))
      refine ⟨v', h1, ?_⟩
      intro m hm d
      by_cases hm0 : m = 0
      · subst hm0
        simp [coefOf, dftCoef, h2 0 (by omega), setRow, fft_re]
      · have hm' : m ∈ hs := by
          rcases List.mem_cons.mp hm with h4 | h4
          · exact absurd h4 hm0
          · exact h4
        have hm0' : ¬ (0 = m) := fun e => hm0 e.symm
        simp only [coefOf, hm0', if_false, if_true]
        apply coefOf_of_rows hn'.2 h0 _ (dftCoef x.rows (fun j => x.val j d)) _ hm'
        intro i hi
        rw [← h3 i hi d]
        rw [show 1 + 2*i = 2*i+1 by ring]
    · have h0' : 0 ∉ a :: hs := by
        simp only [List.mem_cons, not_or]; exact ⟨fun e => ha e.symm, h0⟩
      simp only [List.headI_cons, ha, if_false]
      obtain ⟨v', h1, h2, h3⟩ := gfcLoop_spec x.rows x.val (a :: hs) hN h0' 0 (fun _ _ => 0)
      refine ⟨v', h1, ?_⟩
      intro m hm d
      apply coefOf_of_rows hn h0' _ (dftCoef x.rows (fun j => x.val j d)) _ hm
      intro i hi
      rw [← h3 i hi d, Nat.zero_add]

/-- Projection of a band-limited signal. -/
theorem dftCoef_series {g : List ℕ} {N k : ℕ} (hg : ∀ m ∈ g, 2*m < N) (hk : 2*k < N)
    (hn : g.Nodup) (c : ℕ → ℝ) :
    dftCoef N (fun j => series g c (angle N j)) k = coefOf g c k := by
  have hN : (N : ℝ) ≠ 0 := by
    have : 0 < N := by omega
    positivity
  unfold dftCoef
  by_cases hk0 : k = 0
  · subst hk0
    rw [if_pos rfl]
    have h1 := series_cos_proj hg hk hn c
    simp only [Nat.cast_zero, zero_mul, Real.cos_zero, mul_one, if_true] at h1
    rw [h1]
    have h2 : (coefOf g c 0).2 = 0 := by
      clear h1 hn hg
      induction g generalizing c with
      | nil => rfl
      | cons a gs ih =>
        by_cases ha : a = 0
        · simp [coefOf, ha]
        · simp only [coefOf, ha, if_false]; exact ih _
    ext
    · simp only; field_simp
    · exact h2.symm
  · rw [if_neg hk0, series_cos_proj hg hk hn c, series_sin_proj hg hk hk0 hn c, if_neg hk0]
    ext <;> (simp only; field_simp)

/-- Equal per-harmonic coefficients means equal coefficient vectors. -/
theorem rows_of_coefOf {h : List ℕ} (hn : h.Nodup) {v c : ℕ → ℝ}
    (hm : ∀ m ∈ h, coefOf h v m = coefOf h c m) : ∀ r < numCoeff h, v r = c r := by
  induction h generalizing v c with
  | nil => intro r hr; simp [numCoeff] at hr
  | cons a hs ih =>
    have hn' := List.nodup_cons.mp hn
    have hhead := hm a List.mem_cons_self
    have htail := ih hn'.2 (v := fun i => v (i + (if a = 0 then 1 else 2)))
      (c := fun i => c (i + (if a = 0 then 1 else 2))) (by
        intro m hmm
        have hne : a ≠ m := by rintro rfl; exact hn'.1 hmm
        have := hm m (List.mem_cons_of_mem _ hmm)
        simpa [coefOf, hne] using this)
    intro r hr
    by_cases ha : a = 0
    · simp only [coefOf, ha, if_true, Prod.mk.injEq, and_true] at hhead
      simp only [numCoeff, ha, if_true] at hr htail
      cases r with
      | zero => exact hhead
      | succ r => exact htail r (by omega)
    · simp only [coefOf, ha, if_true, if_false, Prod.mk.injEq] at hhead
      simp only [numCoeff, ha, if_false] at hr htail
      match r, hr with
      | 0, _ => exact hhead.1
      | 1, _ => exact hhead.2
      | r+2, hr => exact htail r (by omega)

end

end TMD
