import Verif.Lemmas.Shift
import Verif.Lemmas.Alias
import Mathlib.Analysis.Fourier.AddCircle
import Mathlib.MeasureTheory.Integral.IntervalIntegral.IntegrationByParts
import Mathlib.Topology.UniformSpace.HeineCantor
import Mathlib.Analysis.SpecialFunctions.Trigonometric.Deriv

/-! # Fourier coefficients as limits of discrete ones, and functions determined by them -/

namespace TMD.Spec

/-- Fourier coefficients (cosine, sine) of harmonic `k` of a function on `[0, 2π]`; `(mean, 0)` for harmonic 0. -/
noncomputable def fourierCS (g : ℝ → ℝ) (k : ℕ) : ℝ × ℝ :=
  if k = 0 then ((∫ τ in (0:ℝ)..2 * Real.pi, g τ) / (2 * Real.pi), 0)
  else ((∫ τ in (0:ℝ)..2 * Real.pi, g τ * Real.cos (k * τ)) / Real.pi,
        (∫ τ in (0:ℝ)..2 * Real.pi, g τ * Real.sin (k * τ)) / Real.pi)

end TMD.Spec

namespace TMD

open Spec Filter Topology

/-- Left sums over the period of functions that converge uniformly tend to the integral of the limit. -/
theorem left_sums_tendsto {g : ℝ → ℝ} (hg : Continuous g) {G : ℕ → ℝ → ℝ} (hG : TendstoUniformly G g atTop) {N : ℕ → ℕ}
    (hN : Tendsto N atTop atTop) :
    Tendsto (fun n => (∑ j ∈ Finset.range (N n), G n (2 * Real.pi * j / N n)) / N n) atTop
      (𝓝 ((∫ τ in (0:ℝ)..2 * Real.pi, g τ) / (2 * Real.pi))) := by
  have hpi := Real.pi_pos
  rw [Metric.tendsto_atTop]
  intro ε hε
  have huc := (isCompact_Icc (a := (0:ℝ)) (b := 2 * Real.pi)).uniformContinuousOn_of_continuous hg.continuousOn
  rw [Metric.uniformContinuousOn_iff] at huc
  obtain ⟨δ, hδ, H⟩ := huc (ε / 4) (by positivity)
  rw [Metric.tendstoUniformly_iff] at hG
  have h1 := hG (ε / 4) (by positivity)
  have h2 := hN.eventually_gt_atTop (Nat.ceil (2 * Real.pi / δ))
  obtain ⟨n0, hn0⟩ := (h1.and h2).exists_forall_of_atTop
  refine ⟨n0, fun n hn => ?_⟩
  obtain ⟨a1, a2⟩ := hn0 n hn
  set M := N n with hM
  have hMpos : (0:ℝ) < M := by exact_mod_cast (by omega : 0 < M)
  have hstep : 2 * Real.pi / M < δ := by
    have : 2 * Real.pi / δ < M := (Nat.le_ceil _).trans_lt (by exact_mod_cast a2)
    rw [div_lt_iff₀ hδ] at this
    rw [div_lt_iff₀ hMpos]
    linarith
  have hs : ∫ τ in (0:ℝ)..2 * Real.pi, g τ
      = ∑ j ∈ Finset.range M, ∫ τ in (2 * Real.pi * j / M)..(2 * Real.pi * (j + 1 : ℕ) / M), g τ := by
    rw [intervalIntegral.sum_integral_adjacent_intervals (a := fun j : ℕ => 2 * Real.pi * j / M)
      (fun k _ => hg.intervalIntegrable _ _)]
    congr 1
    · simp
    · field_simp
  have hc : ∀ j ∈ Finset.range M, |G n (2 * Real.pi * j / M) * (2 * Real.pi / M)
      - ∫ τ in (2 * Real.pi * j / M)..(2 * Real.pi * (j + 1 : ℕ) / M), g τ| ≤ ε / 2 * (2 * Real.pi / M) := by
    intro j hj
    have hj : (j:ℝ) + 1 ≤ M := by exact_mod_cast Finset.mem_range.1 hj
    have hw : 2 * Real.pi * (j + 1 : ℕ) / M - 2 * Real.pi * j / M = 2 * Real.pi / M := by
      push_cast; ring
    have hpos : 0 < 2 * Real.pi / M := by positivity
    have e : G n (2 * Real.pi * j / M) * (2 * Real.pi / M)
        - ∫ τ in (2 * Real.pi * j / M)..(2 * Real.pi * (j + 1 : ℕ) / M), g τ
        = ∫ τ in (2 * Real.pi * j / M)..(2 * Real.pi * (j + 1 : ℕ) / M), (G n (2 * Real.pi * j / M) - g τ) := by
      rw [intervalIntegral.integral_sub intervalIntegrable_const (hg.intervalIntegrable _ _),
        intervalIntegral.integral_const, smul_eq_mul, hw]
      ring
    rw [e, ← Real.norm_eq_abs]
    have := intervalIntegral.norm_integral_le_of_norm_le_const (a := 2 * Real.pi * j / M)
      (b := 2 * Real.pi * (j + 1 : ℕ) / M) (f := fun τ => G n (2 * Real.pi * j / M) - g τ) (C := ε / 2) (fun τ ht => by
        rw [Set.uIoc_of_le (by linarith)] at ht
        have b0 : 0 ≤ 2 * Real.pi * j / M := by positivity
        have b1 : 2 * Real.pi * (j + 1 : ℕ) / M ≤ 2 * Real.pi := by
          rw [div_le_iff₀ hMpos]; push_cast; nlinarith
        have d := H (2 * Real.pi * j / M) ⟨b0, by linarith⟩ τ ⟨by linarith [ht.1], by linarith [ht.2]⟩ (by
            rw [Real.dist_eq, abs_lt]
            constructor <;> linarith [ht.1, ht.2])
        have d2 := a1 (2 * Real.pi * j / M)
        rw [Real.dist_eq] at d d2
        rw [Real.norm_eq_abs]
        have t := abs_sub_le (G n (2 * Real.pi * j / M)) (g (2 * Real.pi * j / M)) (g τ)
        rw [abs_sub_comm] at d2
        linarith)
    rwa [hw, abs_of_pos hpos] at this
  have hsum : |(∑ j ∈ Finset.range M, G n (2 * Real.pi * j / M)) * (2 * Real.pi / M) - ∫ τ in (0:ℝ)..2 * Real.pi, g τ|
      ≤ ε / 2 * (2 * Real.pi) := by
    rw [hs, Finset.sum_mul, ← Finset.sum_sub_distrib]
    refine (Finset.abs_sum_le_sum_abs _ _).trans ((Finset.sum_le_sum hc).trans (le_of_eq ?_))
    rw [Finset.sum_const, Finset.card_range, nsmul_eq_mul]
    field_simp
  rw [Real.dist_eq]
  have e : (∑ j ∈ Finset.range M, G n (2 * Real.pi * j / M)) / M - (∫ τ in (0:ℝ)..2 * Real.pi, g τ) / (2 * Real.pi)
      = ((∑ j ∈ Finset.range M, G n (2 * Real.pi * j / M)) * (2 * Real.pi / M) - ∫ τ in (0:ℝ)..2 * Real.pi, g τ)
        / (2 * Real.pi) := by
    field_simp
  rw [e, abs_div, abs_of_pos (by positivity : 0 < 2 * Real.pi), div_lt_iff₀ (by positivity)]
  nlinarith

/-- Uniform convergence is kept by a bounded factor. -/
theorem uniform_mul_bounded {g b : ℝ → ℝ} {G : ℕ → ℝ → ℝ} (hG : TendstoUniformly G g atTop) (hb : ∀ τ, |b τ| ≤ 1) :
    TendstoUniformly (fun n τ => G n τ * b τ) (fun τ => g τ * b τ) atTop := by
  rw [Metric.tendstoUniformly_iff] at hG ⊢
  intro ε hε
  filter_upwards [hG ε hε] with n hn τ
  have := hn τ
  rw [Real.dist_eq] at this ⊢
  rw [← sub_mul, abs_mul]
  nlinarith [hb τ, abs_nonneg (g τ - G n τ), abs_nonneg (b τ)]

/-- Discrete Fourier coefficients of uniformly converging functions tend to those of the limit. -/
theorem dft_tendsto {g : ℝ → ℝ} (hg : Continuous g) {G : ℕ → ℝ → ℝ} (hG : TendstoUniformly G g atTop) {N : ℕ → ℕ}
    (hN : Tendsto N atTop atTop) (k : ℕ) :
    Tendsto (fun n => dft (N n) (fun j => G n (2 * Real.pi * j / N n)) k) atTop (𝓝 (fourierCS g k)) := by
  unfold dft fourierCS
  by_cases hk : k = 0
  · simp only [hk, if_true]
    exact (left_sums_tendsto hg hG hN).prodMk_nhds tendsto_const_nhds
  · simp only [hk, if_false]
    have key : ∀ b : ℝ → ℝ, Continuous b → (∀ τ, |b τ| ≤ 1) →
        Tendsto (fun n => 2 / (N n : ℝ) * ∑ j ∈ Finset.range (N n), G n (2 * Real.pi * j / N n)
          * b (2 * Real.pi * j / N n)) atTop (𝓝 ((∫ τ in (0:ℝ)..2 * Real.pi, g τ * b τ) / Real.pi)) := by
      intro b hb hb1
      have := (left_sums_tendsto (hg.mul hb) (uniform_mul_bounded hG hb1) hN).const_mul 2
      have e : 2 * ((∫ τ in (0:ℝ)..2 * Real.pi, g τ * b τ) / (2 * Real.pi))
          = (∫ τ in (0:ℝ)..2 * Real.pi, g τ * b τ) / Real.pi := by
        have := Real.pi_pos
        field_simp
      simp only [Pi.mul_apply] at this
      rw [e] at this
      refine this.congr fun n => ?_
      ring
    exact (key (fun τ => Real.cos (k * τ)) (by fun_prop) (fun τ => Real.abs_cos_le_one _)).prodMk_nhds
      (key (fun τ => Real.sin (k * τ)) (by fun_prop) (fun τ => Real.abs_sin_le_one _))

theorem series_isTrig (h : List ℕ) (c : ℕ → ℝ) : Trig h.sum (series h c) :=
  Trig.series (fun m hm => List.single_le_sum (by simp) m hm) _

/-- The coefficients of a Fourier series are its Fourier coefficients. -/
theorem fourierCS_series {h : List ℕ} (hh : Admissible h) (c : ℕ → ℝ) {k : ℕ} (hk : k ∈ h) :
    fourierCS (series h c) k = coefOf h c k := by
  have h1 := dft_tendsto (series_isTrig h c).continuous (G := fun _ => series h c)
    (tendstoUniformly_iff_seq_tendstoUniformly.2 fun u _ => by
      rw [Metric.tendstoUniformly_iff]
      exact fun ε hε => Eventually.of_forall fun n τ => by simpa using hε) (N := fun n => n) tendsto_id k
  refine tendsto_nhds_unique h1 (tendsto_const_nhds.congr' ?_)
  filter_upwards [eventually_gt_atTop (2 * h.sum)] with n hn
  exact coefOf_dft hh (fun m hm => by have := List.single_le_sum (by simp) m hm; omega) c hk

/-- Fourier coefficients of uniformly converging functions. -/
theorem fourierCS_tendsto {g : ℝ → ℝ} {G : ℕ → ℝ → ℝ} (hGc : ∀ n, Continuous (G n)) (hG : TendstoUniformly G g atTop) (k : ℕ) :
    Tendsto (fun n => fourierCS (G n) k) atTop (𝓝 (fourierCS g k)) := by
  have hgc : Continuous g := hG.continuous (Eventually.of_forall hGc).frequently
  have key : ∀ b : ℝ → ℝ, Continuous b → (∀ τ, |b τ| ≤ 1) →
      Tendsto (fun n => ∫ τ in (0:ℝ)..2 * Real.pi, G n τ * b τ) atTop (𝓝 (∫ τ in (0:ℝ)..2 * Real.pi, g τ * b τ)) := by
    intro b hb hb1
    have hu := uniform_mul_bounded hG hb1
    have hpi := Real.pi_pos
    rw [Metric.tendsto_atTop]
    intro ε hε
    rw [Metric.tendstoUniformly_iff] at hu
    obtain ⟨n0, hn0⟩ := (hu (ε / (4 * Real.pi)) (by positivity)).exists_forall_of_atTop
    refine ⟨n0, fun n hn => ?_⟩
    have i1 : IntervalIntegrable (fun τ => G n τ * b τ) MeasureTheory.volume 0 (2 * Real.pi) := ((hGc n).mul hb).intervalIntegrable _ _
    have i2 : IntervalIntegrable (fun τ => g τ * b τ) MeasureTheory.volume 0 (2 * Real.pi) := (hgc.mul hb).intervalIntegrable _ _
    rw [Real.dist_eq, ← intervalIntegral.integral_sub i1 i2, ← Real.norm_eq_abs]
    have := intervalIntegral.norm_integral_le_of_norm_le_const (a := 0) (b := 2 * Real.pi)
      (f := fun τ => G n τ * b τ - g τ * b τ) (C := ε / (4 * Real.pi)) (fun τ _ => by
        have := hn0 n hn τ
        rw [dist_comm, Real.dist_eq] at this
        rw [Real.norm_eq_abs]
        exact this.le)
    refine this.trans_lt ?_
    rw [sub_zero, abs_of_pos (by positivity)]
    field_simp
    linarith
  unfold fourierCS
  by_cases hk : k = 0
  · simp only [hk, if_true]
    have := key (fun _ => 1) continuous_const (by simp)
    simp only [mul_one] at this
    exact (this.div_const _).prodMk_nhds tendsto_const_nhds
  · simp only [hk, if_false]
    exact ((key (fun τ => Real.cos (k * τ)) (by fun_prop) (fun τ => Real.abs_cos_le_one _)).div_const _).prodMk_nhds
      ((key (fun τ => Real.sin (k * τ)) (by fun_prop) (fun τ => Real.abs_sin_le_one _)).div_const _)

theorem fourierCS_add {f g : ℝ → ℝ} (hf : Continuous f) (hg : Continuous g) (k : ℕ) :
    fourierCS (fun τ => f τ + g τ) k = fourierCS f k + fourierCS g k := by
  have ii : ∀ a b : ℝ → ℝ, Continuous a → Continuous b →
      IntervalIntegrable (fun τ => a τ * b τ) MeasureTheory.volume 0 (2 * Real.pi) :=
    fun a b ha hb => (ha.mul hb).intervalIntegrable _ _
  have hc : Continuous fun x : ℝ => Real.cos (k * x) := by fun_prop
  have hs : Continuous fun x : ℝ => Real.sin (k * x) := by fun_prop
  unfold fourierCS
  by_cases hk : k = 0
  · simp only [hk, if_true]
    rw [intervalIntegral.integral_add (hf.intervalIntegrable _ _) (hg.intervalIntegrable _ _), add_div]
    simp
  · simp only [hk, if_false, add_mul]
    rw [intervalIntegral.integral_add (ii f _ hf hc) (ii g _ hg hc), intervalIntegral.integral_add (ii f _ hf hs) (ii g _ hg hs),
      add_div, add_div]
    rfl

theorem fourierCS_smul (c : ℝ) (f : ℝ → ℝ) (k : ℕ) : fourierCS (fun τ => c * f τ) k = c • fourierCS f k := by
  unfold fourierCS
  by_cases hk : k = 0
  · simp only [hk, if_true, intervalIntegral.integral_const_mul, mul_div_assoc]
    simp
  · simp only [hk, if_false, mul_assoc, intervalIntegral.integral_const_mul, mul_div_assoc]
    simp

theorem fourierCS_list {α : Type} (l : List α) (f : α → ℝ → ℝ) (hf : ∀ a ∈ l, Continuous (f a)) (k : ℕ) :
    fourierCS (fun τ => (l.map fun a => f a τ).sum) k = (l.map fun a => fourierCS (f a) k).sum := by
  have hz : fourierCS (fun _ => 0) k = 0 := by
    have := fourierCS_smul 0 (fun _ => 0) k
    simpa using this
  induction l with
  | nil => simpa using hz
  | cons a l ih =>
    have hc : Continuous fun τ => (l.map fun a => f a τ).sum :=
      continuous_list_sum l fun a ha => hf a (List.mem_cons_of_mem _ ha)
    simp only [List.map_cons, List.sum_cons]
    rw [fourierCS_add (hf a List.mem_cons_self) hc, ih fun a ha => hf a (List.mem_cons_of_mem _ ha)]

/-- Continuous functions keep uniform convergence to a bounded function. -/
theorem uniform_comp {E : Type} [MetricSpace E] [ProperSpace E] {Ψ : E → ℝ} (hΨ : Continuous Ψ) {Y : ℕ → ℝ → E} {y : ℝ → E}
    (hY : TendstoUniformly Y y atTop) (hb : Bornology.IsBounded (Set.range y)) :
    TendstoUniformly (fun n τ => Ψ (Y n τ)) (fun τ => Ψ (y τ)) atTop := by
  have hK : IsCompact (Metric.cthickening 1 (Set.range y)) :=
    Metric.isCompact_of_isClosed_isBounded Metric.isClosed_cthickening hb.cthickening
  have huc := hK.uniformContinuousOn_of_continuous hΨ.continuousOn
  rw [Metric.uniformContinuousOn_iff] at huc
  rw [Metric.tendstoUniformly_iff] at hY ⊢
  intro ε hε
  obtain ⟨δ, hδ, H⟩ := huc ε hε
  filter_upwards [hY (min δ 1) (lt_min hδ one_pos)] with n hn τ
  have h1 := hn τ
  refine H _ (Metric.self_subset_cthickening _ ⟨τ, rfl⟩) _ ?_ (h1.trans_le (min_le_left _ _))
  refine Metric.mem_cthickening_of_dist_le _ (y τ) _ _ ⟨τ, rfl⟩ ?_
  rw [dist_comm]
  exact (h1.trans_le (min_le_right _ _)).le

theorem fourierCS_sub {f g : ℝ → ℝ} (hf : Continuous f) (hg : Continuous g) (k : ℕ) :
    fourierCS (fun τ => f τ - g τ) k = fourierCS f k - fourierCS g k := by
  have := fourierCS_add (g := fun τ => (-1) * g τ) hf (continuous_const.mul hg) k
  rw [fourierCS_smul] at this
  simpa [sub_eq_add_neg] using this

/-- A continuous periodic function without Fourier coefficients of harmonics 1, 2, … is constant. -/
theorem constant_of_fourierCS {D : ℝ → ℝ} (hD : Continuous D) (hp : ∀ τ, D (τ + 2 * Real.pi) = D τ)
    (h0 : ∀ k, 1 ≤ k → fourierCS D k = (0, 0)) (τ : ℝ) : D τ = D 0 := by
  have hpi := Real.pi_pos
  have : Fact (0 < 2 * Real.pi) := ⟨by positivity⟩
  have hper : Function.Periodic (fun τ => (D τ : ℂ)) (2 * Real.pi) := fun τ => by simp only [hp]
  let f : C(AddCircle (2 * Real.pi), ℂ) := ⟨hper.lift, by
    have : Continuous (fun τ => (D τ : ℂ)) := Complex.continuous_ofReal.comp hD
    exact continuous_coinduced_dom.2 (by exact this)⟩
  have hf : ∀ x : ℝ, f (x : AddCircle (2 * Real.pi)) = D x := fun x => rfl
  have hint : ∀ k : ℕ, 1 ≤ k → (∫ τ in (0:ℝ)..2 * Real.pi, D τ * Real.cos (k * τ)) = 0 ∧
      (∫ τ in (0:ℝ)..2 * Real.pi, D τ * Real.sin (k * τ)) = 0 := by
    intro k hk
    have := h0 k hk
    unfold fourierCS at this
    rw [if_neg (by omega), Prod.mk.injEq, div_eq_zero_iff, div_eq_zero_iff] at this
    exact ⟨this.1.resolve_right hpi.ne', this.2.resolve_right hpi.ne'⟩
  have hcoef : ∀ n : ℤ, n ≠ 0 → fourierCoeff f n = 0 := by
    intro n hn
    rw [fourierCoeff_eq_intervalIntegral f n 0, zero_add]
    have e : ∀ x : ℝ, @fourier (2 * Real.pi) (-n) (x : AddCircle (2 * Real.pi)) • f (x : AddCircle (2 * Real.pi))
        = ((D x * Real.cos ((n.natAbs : ℝ) * x) : ℝ) : ℂ)
          - (n.sign : ℂ) * Complex.I * ((D x * Real.sin ((n.natAbs : ℝ) * x) : ℝ) : ℂ) := by
      intro x
      rw [fourier_coe_apply, hf, smul_eq_mul]
      have e1 : 2 * (Real.pi:ℂ) * Complex.I * ((-n : ℤ) : ℂ) * x / ((2 * Real.pi : ℝ) : ℂ)
          = ((-(n * x) : ℝ) : ℂ) * Complex.I := by
        have : (Real.pi : ℂ) ≠ 0 := by exact_mod_cast hpi.ne'
        push_cast
        field_simp
      rw [e1, Complex.exp_mul_I, ← Complex.ofReal_cos, ← Complex.ofReal_sin, Real.cos_neg, Real.sin_neg]
      rcases lt_trichotomy n 0 with h | h | h
      · have a : (n.natAbs : ℝ) = -(n:ℝ) := by
          rw [Nat.cast_natAbs, abs_of_neg h]; push_cast; ring
        rw [a, Int.sign_eq_neg_one_of_neg h, neg_mul, Real.cos_neg, Real.sin_neg]
        push_cast
        ring
      · exact absurd h hn
      · have a : (n.natAbs : ℝ) = (n:ℝ) := by
          rw [Nat.cast_natAbs, abs_of_pos h]
        rw [a, Int.sign_eq_one_of_pos h]
        push_cast
        ring
    have hk : 1 ≤ n.natAbs := by omega
    obtain ⟨i1, i2⟩ := hint _ hk
    simp_rw [e]
    rw [intervalIntegral.integral_sub, intervalIntegral.integral_const_mul, intervalIntegral.integral_ofReal,
      intervalIntegral.integral_ofReal, i1, i2]
    · simp
    · exact (Complex.continuous_ofReal.comp (hD.mul (by fun_prop))).intervalIntegrable _ _
    · exact (continuous_const.mul (Complex.continuous_ofReal.comp (hD.mul (by fun_prop)))).intervalIntegrable _ _
  have hsum : Summable (fourierCoeff f) := summable_of_ne_finset_zero (s := {0}) fun n hn => hcoef n (by simpa using hn)
  have hval : ∀ x : AddCircle (2 * Real.pi), f x = fourierCoeff f 0 := by
    intro x
    have := has_pointwise_sum_fourier_series_of_summable hsum x
    refine this.unique ?_
    have h1 := hasSum_single (f := fun i => fourierCoeff f i • fourier i x) 0 (fun n hn => by simp only [hcoef n hn, zero_smul])
    simpa using h1
  have := (hf τ).symm.trans ((hval _).trans ((hval ((0:ℝ) : AddCircle (2 * Real.pi))).symm.trans (hf 0)))
  exact_mod_cast this

/-- Weak and strong form: `m` has the derivative `q` exactly if their Fourier coefficients are related accordingly. -/
theorem derivative_iff_fourierCS {m q : ℝ → ℝ} (hm : Continuous m) (hq : Continuous q) (hmp : ∀ τ, m (τ + 2 * Real.pi) = m τ)
    (hqp : ∀ τ, q (τ + 2 * Real.pi) = q τ) :
    (∀ τ, HasDerivAt m (q τ) τ) ↔
      ∀ k : ℕ, (k * (fourierCS m k).2, -(k * (fourierCS m k).1)) = fourierCS q k := by
  have hpi := Real.pi_pos
  -- integration by parts over the period
  have parts : ∀ A : ℝ → ℝ, Continuous A → (∀ τ, HasDerivAt A (q τ) τ) → (∀ τ, A (τ + 2 * Real.pi) = A τ) → ∀ k : ℕ,
      (k * (fourierCS A k).2, -(k * (fourierCS A k).1)) = fourierCS q k := by
    intro A hAc hA hAp k
    have a0 : A (2 * Real.pi) = A 0 := by simpa using hAp 0
    unfold fourierCS
    by_cases hk : k = 0
    · simp only [hk, if_true]
      rw [intervalIntegral.integral_eq_sub_of_hasDerivAt (fun x _ => hA x) (hq.intervalIntegrable _ _), a0]
      simp
    · simp only [hk, if_false]
      have hlin : ∀ x, HasDerivAt (fun x : ℝ => (k:ℝ) * x) k x := fun x => by simpa using (hasDerivAt_id x).const_mul (k:ℝ)
      have d1 : ∀ x, HasDerivAt (fun x : ℝ => Real.cos (k * x)) (-Real.sin (k * x) * k) x := fun x => (hlin x).cos
      have d2 : ∀ x, HasDerivAt (fun x : ℝ => Real.sin (k * x)) (Real.cos (k * x) * k) x := fun x => (hlin x).sin
      have c1 := intervalIntegral.integral_mul_deriv_eq_deriv_mul (a := 0) (b := 2 * Real.pi) (fun x _ => hA x) (fun x _ => d1 x)
        (hq.intervalIntegrable _ _) (Continuous.intervalIntegrable (by fun_prop) _ _)
      have c2 := intervalIntegral.integral_mul_deriv_eq_deriv_mul (a := 0) (b := 2 * Real.pi) (fun x _ => hA x) (fun x _ => d2 x)
        (hq.intervalIntegrable _ _) (Continuous.intervalIntegrable (by fun_prop) _ _)
      have k2 : Real.cos (k * (2 * Real.pi)) = 1 := by
        have := Real.cos_nat_mul_two_pi k; exact this
      have s2 : Real.sin (k * (2 * Real.pi)) = 0 := by
        have := Real.sin_nat_mul_pi (2 * k)
        rw [← this]; congr 1; push_cast; ring
      rw [a0, k2, mul_zero, Real.cos_zero] at c1
      rw [s2, mul_zero, mul_zero, Real.sin_zero] at c2
      have e1 : ∫ x in (0:ℝ)..2 * Real.pi, A x * (-Real.sin (k * x) * k)
          = -(k * ∫ x in (0:ℝ)..2 * Real.pi, A x * Real.sin (k * x)) := by
        rw [← intervalIntegral.integral_const_mul, ← intervalIntegral.integral_neg]
        congr 1; funext x; ring
      have e2 : ∫ x in (0:ℝ)..2 * Real.pi, A x * (Real.cos (k * x) * k)
          = k * ∫ x in (0:ℝ)..2 * Real.pi, A x * Real.cos (k * x) := by
        rw [← intervalIntegral.integral_const_mul]
        congr 1; funext x; ring
      rw [e1] at c1
      rw [e2] at c2
      rw [Prod.mk.injEq, ← mul_div_assoc, ← mul_div_assoc, ← neg_div]
      constructor
      · congr 1; linarith
      · congr 1; linarith
  constructor
  · exact fun h k => parts m hm h hmp k
  · intro h
    let A : ℝ → ℝ := fun τ => ∫ s in (0:ℝ)..τ, q s
    have hA : ∀ τ, HasDerivAt A (q τ) τ := fun τ =>
      intervalIntegral.integral_hasDerivAt_right (hq.intervalIntegrable _ _) (hq.stronglyMeasurableAtFilter _ _) hq.continuousAt
    have hAc : Continuous A := continuous_iff_continuousAt.2 fun τ => (hA τ).continuousAt
    have hz : ∫ s in (0:ℝ)..2 * Real.pi, q s = 0 := by
      have := h 0
      unfold fourierCS at this
      simp only [if_true, Prod.mk.injEq] at this
      have := this.1
      rw [Nat.cast_zero, zero_mul, eq_comm, div_eq_zero_iff] at this
      exact this.resolve_right (by positivity)
    have hAp : ∀ τ, A (τ + 2 * Real.pi) = A τ := by
      intro τ
      have e := intervalIntegral.integral_add_adjacent_intervals (hq.intervalIntegrable (μ := MeasureTheory.volume) 0 τ)
        (hq.intervalIntegrable τ (τ + 2 * Real.pi))
      have e2 : ∫ s in τ..τ + 2 * Real.pi, q s = ∫ s in (0:ℝ)..0 + 2 * Real.pi, q s :=
        (show Function.Periodic q (2 * Real.pi) from hqp).intervalIntegral_add_eq τ 0
      rw [zero_add] at e2
      show (∫ s in (0:ℝ)..τ + 2 * Real.pi, q s) = ∫ s in (0:ℝ)..τ, q s
      rw [← e, e2, hz, add_zero]
    have hpA := parts A hAc hA hAp
    have hconst := constant_of_fourierCS (D := fun τ => m τ - A τ) (hm.sub hAc) (fun τ => by simp only [hmp, hAp]) (by
      intro k hk
      have hk0 : (k:ℝ) ≠ 0 := by exact_mod_cast (by omega : k ≠ 0)
      have e := (h k).trans (hpA k).symm
      rw [Prod.mk.injEq] at e
      have e1 : (fourierCS m k).2 = (fourierCS A k).2 := mul_left_cancel₀ hk0 e.1
      have e2 : (fourierCS m k).1 = (fourierCS A k).1 := mul_left_cancel₀ hk0 (neg_inj.1 e.2)
      unfold fourierCS at e1 e2 ⊢
      simp only [show k ≠ 0 by omega, if_false, Prod.mk.injEq] at e1 e2 ⊢
      have hc : Continuous fun x : ℝ => Real.cos (k * x) := by fun_prop
      have hs : Continuous fun x : ℝ => Real.sin (k * x) := by fun_prop
      simp_rw [sub_mul]
      have ii : ∀ a b : ℝ → ℝ, Continuous a → Continuous b →
          IntervalIntegrable (fun τ => a τ * b τ) MeasureTheory.volume 0 (2 * Real.pi) :=
        fun a b ha hb => (ha.mul hb).intervalIntegrable _ _
      rw [intervalIntegral.integral_sub (ii m _ hm hc) (ii A _ hAc hc), intervalIntegral.integral_sub (ii m _ hm hs) (ii A _ hAc hs),
        sub_div, sub_div, e1, e2, sub_self, sub_self]
      exact ⟨rfl, rfl⟩)
    intro τ
    have e : m = fun τ => A τ + (m 0 - A 0) := by
      funext τ
      have : m τ - A τ = m 0 - A 0 := hconst τ
      linarith
    rw [e]
    exact (hA τ).add_const _

end TMD
