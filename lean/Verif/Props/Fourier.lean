import Verif.Lemmas.Stiffness
import Verif.Lemmas.FourierCoeff

/-!
# Properties C01 - C07: harmonic bookkeeping, linear dynamics, Fourier transforms
-/

namespace TMD

open Spec Finset

noncomputable section

/-! ## C01 -/

/-- C01 (accepting part): a list without repeats is counted as two components per harmonic,
one for harmonic 0. -/
theorem C01_Nhc_count (h : List ℕ) (hn : h.Nodup) :
    Nhc h = .ok (if 0 ∈ h then 2 * h.length - 1 else 2 * h.length) := by
  rw [Nhc_ok hn]
  congr 1
  induction h with
  | nil => rfl
  | cons k hs ih =>
    have hn' := List.nodup_cons.mp hn
    rw [numCoeff, ih hn'.2, List.length_cons]
    by_cases hk : k = 0
    · subst hk
      have : 0 ∉ hs := hn'.1
      simp [this]; omega
    · have : ¬ (0 = k) := fun e => hk e.symm
      by_cases h0 : 0 ∈ hs
      · have : 0 < hs.length := List.length_pos_of_mem h0
        simp [hk, h0]; omega
      · simp [hk, this, h0]; omega

/-- C01 (rejecting part): a list with a repeat raises. -/
theorem C01_Nhc_rejects (h : List ℕ) (hn : ¬ h.Nodup) : Nhc h = .error .assertion := by
  unfold Nhc
  rw [if_pos]
  intro hl
  apply hn
  have : h.dedup = h := (List.dedup_sublist h).eq_of_length hl
  rw [← this]
  exact List.nodup_dedup h

example : ([0, 1, 3] : List ℕ).Nodup ∧ Nhc [0, 1, 3] = .ok 5 := by
  refine ⟨by decide, ?_⟩
  rw [C01_Nhc_count _ (by decide)]; rfl

example : ¬ ([1, 2, 1] : List ℕ).Nodup := by decide

/-! ## C02 -/

/-- C02: the harmonic stiffness matrix applied to harmonic coefficients gives the harmonic
coefficients of `M x'' + C x' + K x` (of `C x'` alone with `only_C`), at every time. -/
theorem C02_stiffness_is_dynamics (h : List ℕ) (hA : Admissible h) (nd : ℕ)
    (M C K : ℕ → ℕ → ℝ) (w : ℝ) (calcGrad onlyC : Bool) :
    ∃ out, harmonicStiffness nd M C K w h calcGrad onlyC = .ok out ∧
      out.size = numCoeff h * nd ∧
      ∀ (U : ℕ → ℝ) (d : ℕ), d < nd → ∀ t : ℝ,
        let x : ℕ → ℝ → ℝ := fun e t => series h (fun r => U (r * nd + e)) (w * t)
        series h (fun r => matVec out.size out.E U (r * nd + d)) (w * t) =
          if onlyC then ∑ e ∈ range nd, C d e * deriv (x e) t
          else ∑ e ∈ range nd, (M d e * deriv (deriv (x e)) t + C d e * deriv (x e) t
            + K d e * x e t) := by
  refine ⟨_, harmonicStiffness_ok hA nd M C K w calcGrad onlyC, rfl, ?_⟩
  intro U d hd t x
  have := stiffness_series hA.zero_first nd M C K w U onlyC hd t
  simp only
  rw [this]
  cases onlyC
  · simp [x]
  · simp [x]

/-- C02 (no spurious coupling): the mean row of the matrix and the rows of every listed harmonic
only have entries in the columns of the same harmonic. -/
theorem C02_no_coupling (h : List ℕ) (hA : Admissible h) (nd : ℕ)
    (M C K : ℕ → ℕ → ℝ) (w : ℝ) (calcGrad onlyC : Bool) (p q : ℕ)
    (hp : p < h.length) (_hq : q < h.length) (hpq : p ≠ q) :
    ∃ out, harmonicStiffness nd M C K w h calcGrad onlyC = .ok out ∧
      ∀ R S d e, numCoeff (h.take p) ≤ R → R < numCoeff (h.take (p+1)) →
        numCoeff (h.take q) ≤ S → S < numCoeff (h.take (q+1)) → d < nd → e < nd →
        out.E (nd * R + d) (nd * S + e) = 0 := by
  refine ⟨_, harmonicStiffness_ok hA nd M C K w calcGrad onlyC, ?_⟩
  have hcount : ∀ n ≤ h.length, numCoeff (h.take n) = 2 * n - (if n = 0 then 0 else zi h) := by
    intro n hn
    have h0 : 0 ∉ (h.take n).tail := by
      intro hh; apply hA.zero_first
      cases h with
      | nil => simp at hh
      | cons a hs =>
        cases n with
        | zero => simp at hh
        | succ n => simp only [List.take_succ_cons, List.tail_cons] at hh ⊢; exact List.mem_of_mem_take hh
    rw [numCoeff_eq h0, List.length_take, min_eq_left hn]
    cases n with
    | zero => simp
    | succ n =>
      cases h with
      | nil => simp at hn
      | cons a hs => simp [zi_cons]
  intro R S d e h1 h2 h3 h4 hd he
  have hz := zi_le_one h
  rw [hcount p (by omega)] at h1
  rw [hcount (p+1) (by omega)] at h2
  rw [hcount q (by omega)] at h3
  rw [hcount (q+1) (by omega)] at h4
  rw [if_neg (by omega)] at h2 h4
  by_cases hzz : zi h = 1 ∧ R = 0
  · have hp0 : p = 0 := by
      by_contra hne; rw [if_neg hne] at h1; omega
    have hq0 : q ≠ 0 := by omega
    rw [if_neg hq0] at h3
    simp only [hzz.2]
    rw [hsE_zero M C K w onlyC hzz.1 hd he, if_neg]
    rintro ⟨hS, -⟩
    omega
  · have hi : p ∈ Ico (zi h) h.length := by
      rw [mem_Ico]
      refine ⟨?_, hp⟩
      by_contra hlt
      have : p = 0 := by omega
      subst this
      have hz1 : zi h = 1 := by omega
      apply hzz
      refine ⟨hz1, by omega⟩
    have hR : R = p*2 - zi h ∨ R = p*2 - zi h + 1 := by
      rw [mem_Ico] at hi
      split at h1 <;> omega
    simp only
    rw [hsE_row M C K w onlyC hi hR hd he]
    rw [mem_Ico] at hi
    have hS : S ≠ p*2 - zi h ∧ S ≠ p*2 - zi h + 1 := by
      split at h3 <;> omega
    rw [if_neg (fun hh => hS.2 hh.2), if_neg (fun hh => hS.1 hh.2), if_neg]
    rintro ⟨rfl, -⟩
    omega

example : Admissible [0, 1, 2] := ⟨by simp, by decide, by decide⟩

/-! ## C03 -/

/-- C03: `dEdw` is the derivative of every entry of `E`; skipping the gradient returns the same
`E`. -/
theorem C03_stiffness_gradient (h : List ℕ) (hA : Admissible h) (nd : ℕ)
    (M C K : ℕ → ℕ → ℝ) (onlyC : Bool) :
    ∃ E dE : ℝ → ℕ → ℕ → ℝ,
      (∀ w, harmonicStiffness nd M C K w h true onlyC
        = .ok ⟨numCoeff h * nd, E w, some (dE w)⟩) ∧
      (∀ w, harmonicStiffness nd M C K w h false onlyC
        = .ok ⟨numCoeff h * nd, E w, none⟩) ∧
      ∀ w, ∀ i < numCoeff h * nd, ∀ j < numCoeff h * nd,
        HasDerivAt (fun w => E w i j) (dE w i j) w := by
  refine ⟨fun w => hsE nd M C K w h onlyC, fun w => hsDE nd M C w h onlyC,
    fun w => harmonicStiffness_ok hA nd M C K w true onlyC,
    fun w => harmonicStiffness_ok hA nd M C K w false onlyC, ?_⟩
  exact fun w i hi j hj => hsE_hasDerivAt hA nd M C K onlyC w i hi j hj

/-! ## C04 and C05 -/

/-- C04: for an even number of samples, row `j` of the time series is the requested derivative
(with respect to normalised time `τ ∈ [0, 2π)`) of the Fourier series at `τ = 2 π j / Nt`. -/
theorem C04_time_series_samples (ι : Type) (h : List ℕ) (hA : Admissible h) (Nt : ℕ)
    (hNt : ∀ k ∈ h, 2*k + 1 < Nt) (heven : Even Nt) (X0 : ℕ → ι → ℝ) (order : ℕ) :
    ∃ x, timeSeriesDeriv Nt h X0 order = .ok x ∧ x.rows = Nt ∧
      ∀ j d, x.val j d = iteratedDeriv order (series h (fun r => X0 r d)) (2 * Real.pi * j / Nt) := by
  obtain ⟨x, h1, h2, h3⟩ := timeSeriesDeriv_ok hA hNt X0 order
  have hmx := hNt _ (hmax_mem hA.ne)
  obtain ⟨n, rfl⟩ := heven
  have e : 2*((n+n)/2 - 1) + 2 = n + n := by omega
  rw [e] at h2 h3
  exact ⟨x, h1, h2, h3⟩

/-- C04 (rejections): harmonic 0 listed but not first, or too few samples, is an assertion
error. -/
theorem C04_time_series_rejects (ι : Type) (h : List ℕ) (hne : h ≠ []) (Nt : ℕ)
    (X0 : ℕ → ι → ℝ) (order : ℕ)
    (hbad : (0 ∈ h ∧ h.head hne ≠ 0) ∨ ∃ k ∈ h, Nt ≤ 2*k + 1) :
    timeSeriesDeriv Nt h X0 order = .error .assertion := by
  unfold timeSeriesDeriv
  rw [if_neg hne]
  by_cases hz : (h.filter (fun k => k = 0)).length = 0 ∨ h.headI = 0
  · rw [if_neg (not_not.mpr hz)]
    rcases hbad with ⟨h0, h1⟩ | ⟨k, hk, hk1⟩
    · exfalso
      rcases hz with hz | hz
      · rw [List.length_eq_zero_iff, List.filter_eq_nil_iff] at hz
        exact hz 0 h0 (by simp)
      · cases h with
        | nil => exact hne rfl
        | cons a hs => exact h1 (by simpa using hz)
    · have := le_hmax hk
      simp only
      rw [if_pos (by omega)]
  · rw [if_pos hz]

/-- Non-vacuity of C04: two harmonics and a mean with 8 samples. -/
example : Admissible [0, 1, 3] ∧ (∀ k ∈ [0, 1, 3], 2*k + 1 < 8) ∧ Even 8 :=
  ⟨⟨by simp, by decide, by decide⟩, by decide, by decide⟩

/-- C05 is violated: with `h = [1]` and `Nt = 5` (accepted) only four rows come back. -/
theorem C05_violated :
    ¬ ∀ (h : List ℕ) (Nt : ℕ) (X0 : ℕ → Unit → ℝ) (order : ℕ) (x : TS Unit),
      timeSeriesDeriv Nt h X0 order = .ok x → x.rows = Nt := by
  intro hall
  obtain ⟨x, h1, h2, -⟩ := timeSeriesDeriv_ok (ι := Unit) (h := [1])
    ⟨by simp, by decide, by decide⟩ (Nt := 5) (by decide) (fun _ _ => 0) 0
  have := hall [1] 5 (fun _ _ => 0) 0 x h1
  rw [h2] at this
  omega

/-- C05, the part that holds: accepted even sample counts are respected; odd ones lose exactly
one row. -/
theorem C05_sample_count_partial (ι : Type) (h : List ℕ) (Nt : ℕ) (X0 : ℕ → ι → ℝ) (order : ℕ)
    (x : TS ι) (hx : timeSeriesDeriv Nt h X0 order = .ok x) :
    x.rows = if Even Nt then Nt else Nt - 1 := by
  unfold timeSeriesDeriv at hx
  split at hx
  · cases hx
  · split at hx
    · cases hx
    · simp only at hx
      split at hx
      · cases hx
      · rename_i hN
        simp only [Except.ok.injEq] at hx
        rw [← hx]
        simp only
        split
        · rename_i he; obtain ⟨n, rfl⟩ := he; omega
        · rename_i he
          rw [Nat.not_even_iff_odd] at he
          obtain ⟨n, rfl⟩ := he; omega

/-! ## C06 and C07 -/

/-- C07: coefficients of a band-limited signal. If the samples are those of a series with
harmonics `g`, all below half the sample rate, the coefficient returned for every requested
harmonic is the one the signal has (zero if the signal does not contain it). -/
theorem C07_fourier_projection (ι : Type) (h g : List ℕ) (hA : Admissible h) (hg : g.Nodup)
    (N : ℕ) (hh : ∀ k ∈ h, 2*k < N) (hgN : ∀ k ∈ g, 2*k < N) (c : ι → ℕ → ℝ) :
    ∃ v, getFourierCoeff h ⟨N, fun j d => series g (c d) (2 * Real.pi * j / N)⟩ = .ok v ∧
      ∀ m ∈ h, ∀ d, coefOf h (fun r => v r d) m = coefOf g (c d) m := by
  obtain ⟨v, h1, h2⟩ := getFourierCoeff_ok hA
    (⟨N, fun j d => series g (c d) (2 * Real.pi * j / N)⟩ : TS ι)
    (fun k hk => by have := hh k hk; simp only; omega)
  refine ⟨v, h1, ?_⟩
  intro m hm d
  rw [h2 m hm d]
  exact dftCoef_series hgN (hh m hm) hg (c d)

/-- C07 (linearity): the coefficients are a linear function of the samples. -/
theorem C07_fourier_linear (ι : Type) (h : List ℕ) (hA : Admissible h) (N : ℕ)
    (hh : ∀ k ∈ h, k < N) (x y : ℕ → ι → ℝ) (a b : ℝ) :
    ∃ vx vy v, getFourierCoeff h ⟨N, x⟩ = .ok vx ∧ getFourierCoeff h ⟨N, y⟩ = .ok vy ∧
      getFourierCoeff h ⟨N, fun j d => a * x j d + b * y j d⟩ = .ok v ∧
      ∀ r < numCoeff h, ∀ d, v r d = a * vx r d + b * vy r d := by
  obtain ⟨vx, hx1, hx2⟩ := getFourierCoeff_ok hA (⟨N, x⟩ : TS ι) hh
  obtain ⟨vy, hy1, hy2⟩ := getFourierCoeff_ok hA (⟨N, y⟩ : TS ι) hh
  obtain ⟨v, h1, h2⟩ := getFourierCoeff_ok hA (⟨N, fun j d => a * x j d + b * y j d⟩ : TS ι) hh
  refine ⟨vx, vy, v, hx1, hy1, h1, ?_⟩
  intro r hr d
  have hlin : ∀ (h : List ℕ) (c c' : ℕ → ℝ) (m : ℕ),
      coefOf h (fun r => a * c r + b * c' r) m
        = (a * (coefOf h c m).1 + b * (coefOf h c' m).1, a * (coefOf h c m).2 + b * (coefOf h c' m).2) := by
    intro h
    induction h with
    | nil => intro c c' m; simp [coefOf]
    | cons k hs ih =>
      intro c c' m
      by_cases hk : k = m
      · subst hk
        by_cases hk0 : k = 0 <;> simp [coefOf, hk0]
      · simp only [coefOf, hk, if_false]
        exact ih _ _ m
  refine rows_of_coefOf hA.nodup (v := fun r => v r d) (c := fun r => a * vx r d + b * vy r d) ?_ r hr
  intro m hm
  rw [h2 m hm d, hlin h (fun r => vx r d) (fun r => vy r d) m, hx2 m hm d, hy2 m hm d]
  simp only [dftCoef]
  by_cases hm0 : m = 0
  · simp only [hm0, if_true, Prod.mk.injEq]
    refine ⟨?_, by ring⟩
    rw [sum_add_distrib, ← mul_sum, ← mul_sum]; ring
  · simp only [hm0, if_false, add_mul, sum_add_distrib, mul_assoc, ← mul_sum, Prod.mk.injEq]
    constructor <;> ring

/-- C06: coefficients → time → coefficients is the identity. -/
theorem C06_fourier_round_trip (ι : Type) (h : List ℕ) (hA : Admissible h) (Nt : ℕ)
    (hNt : ∀ k ∈ h, 2*k + 1 < Nt) (X : ℕ → ι → ℝ) :
    ∃ x v, timeSeriesDeriv Nt h X 0 = .ok x ∧ getFourierCoeff h x = .ok v ∧
      ∀ r < numCoeff h, ∀ d, v r d = X r d := by
  obtain ⟨x, h1, h2, h3⟩ := timeSeriesDeriv_ok hA hNt X 0
  have hmx := hNt _ (hmax_mem hA.ne)
  have hb : ∀ k ∈ h, 2*k < 2*(Nt/2-1)+2 := by
    intro k hk; have := hNt k hk; omega
  obtain ⟨v, hv1, hv2⟩ := C07_fourier_projection ι h h hA hA.nodup _ hb hb (fun d r => X r d)
  have hx : x = ⟨2*(Nt/2-1)+2, fun j d => series h (fun r => X r d)
      (2 * Real.pi * j / (2*(Nt/2-1)+2 : ℕ))⟩ := by
    cases x with
    | mk rows val =>
      simp only at h2 h3
      subst h2
      congr 1
      funext j d
      rw [h3 j d]; rfl
  refine ⟨x, v, h1, by rw [hx]; exact hv1, ?_⟩
  intro r hr d
  exact rows_of_coefOf hA.nodup (fun m hm => hv2 m hm d) r hr

end

end TMD
