import Verif.Props.FrictionPower
import Verif.Props.DampingSign
import Mathlib.Analysis.SpecialFunctions.Trigonometric.Bounds

/-!
# C143: with finer sampling friction and contact damp in harmonic balance

C136 and C139 show that a friction element or a gap can put energy into a motion, because the force is sampled. Here that energy is bounded: it
falls with the square of the number of samples for sliders with constant limit, any harmonics, and with the number of samples for elastic dry
friction and springs whose force does not fall.
-/

namespace TMD

open Spec Finset

noncomputable section

/-! ## Specification -/

/-- Sum of the amplitudes `|a_k| + |b_k|` of a Fourier series, weighted with `k ^ p`: a bound of the `p`-th derivative. -/
def bend (p : ℕ) : List ℕ → (ℕ → ℝ) → ℝ
  | [], _ => 0
  | k :: hs, c => if k = 0 then (0 : ℝ) ^ p * |c 0| + bend p hs (fun i => c (i + 1))
      else (k : ℝ) ^ p * (|c 0| + |c 1|) + bend p hs (fun i => c (i + 2))

/-! ## Differences and derivatives -/

theorem bend_nonneg (p : ℕ) : ∀ (h : List ℕ) (c : ℕ → ℝ), 0 ≤ bend p h c
  | [], _ => le_rfl
  | k :: hs, c => by
    unfold bend
    split
    · exact add_nonneg (by positivity) (bend_nonneg p hs _)
    · exact add_nonneg (by positivity) (bend_nonneg p hs _)

theorem series_abs : ∀ (h : List ℕ) (c : ℕ → ℝ) (τ : ℝ), |series h c τ| ≤ bend 0 h c
  | [], _, _ => by simp [series, bend]
  | k :: hs, c, τ => by
    unfold series bend
    split
    · refine (abs_add_le _ _).trans (add_le_add ?_ (series_abs hs _ τ))
      simp
    · refine (abs_add_le _ _).trans (add_le_add ?_ (series_abs hs _ τ))
      rw [pow_zero, one_mul]
      refine (abs_add_le _ _).trans (add_le_add ?_ ?_)
      · rw [abs_mul]
        exact mul_le_of_le_one_right (abs_nonneg _) (Real.abs_cos_le_one _)
      · rw [abs_mul]
        exact mul_le_of_le_one_right (abs_nonneg _) (Real.abs_sin_le_one _)

theorem abs_cs (a b θ : ℝ) : |a * Real.cos θ + b * Real.sin θ| ≤ |a| + |b| ∧ |b * Real.cos θ - a * Real.sin θ| ≤ |a| + |b| := by
  have h1 := Real.abs_cos_le_one θ
  have h2 := Real.abs_sin_le_one θ
  constructor
  · refine (abs_add_le _ _).trans (add_le_add ?_ ?_) <;> rw [abs_mul] <;> exact mul_le_of_le_one_right (abs_nonneg _) (by assumption)
  · refine (abs_sub _ _).trans ?_
    rw [abs_mul, abs_mul, add_comm]
    exact add_le_add (mul_le_of_le_one_right (abs_nonneg _) h2) (mul_le_of_le_one_right (abs_nonneg _) h1)

theorem sub_sin_abs {x : ℝ} (hx : 0 ≤ x) : |x - Real.sin x| ≤ x ^ 3 / 6 ∧ |x - Real.sin x| ≤ x ^ 2 / 2 := by
  have h1 := Real.sin_le hx
  have h2 := Real.sin_ge_sub_cube hx
  rw [abs_of_nonneg (by linarith)]
  refine ⟨by linarith, ?_⟩
  rcases le_total x 3 with h | h
  · nlinarith [sq_nonneg x]
  · have := Real.neg_one_le_sin x
    nlinarith

theorem tone_series (k : ℕ) (hs : List ℕ) (hk : k ≠ 0) (c : ℕ → ℝ) :
    series (k :: hs) c = fun τ => tone k 0 (c 0) (c 1) τ + series hs (fun i => c (i + 2)) τ := by
  funext τ
  simp only [series, if_neg hk, tone]
  ring

theorem zero_series (hs : List ℕ) (c : ℕ → ℝ) : series (0 :: hs) c = fun τ => c 0 + series hs (fun i => c (i + 1)) τ := by
  funext τ
  simp only [series, if_true]

/-- The difference of the neighbours of a sample and the derivative. -/
theorem centred_error (N : ℕ) (hN : 0 < N) (j : ℕ) : ∀ (h : List ℕ) (c : ℕ → ℝ),
    |2 * (2 * Real.pi / N) * deriv (series h c) (2 * Real.pi * j / N) - (series h c (2 * Real.pi * (((j + 1) % N : ℕ) : ℝ) / N)
      - series h c (2 * Real.pi * (((j + N - 1) % N : ℕ) : ℝ) / N))| ≤ (2 * Real.pi / N) ^ 3 / 3 * bend 3 h c
  | [], c => by
    have : series [] c = fun _ => 0 := rfl
    simp [this, bend]
  | k :: hs, c => by
    by_cases hk : k = 0
    · subst hk
      have ih := centred_error N hN j hs fun i => c (i + 1)
      rw [zero_series]
      have e : deriv (fun τ => c 0 + series hs (fun i => c (i + 1)) τ) (2 * Real.pi * j / N) = deriv (series hs fun i => c (i + 1)) (2 * Real.pi * j / N) :=
        deriv_const_add _
      rw [e, add_sub_add_left_eq_sub]
      simpa [bend] using ih
    · have ih := centred_error N hN j hs fun i => c (i + 2)
      rw [tone_series k hs hk]
      have e : deriv (fun τ => tone k 0 (c 0) (c 1) τ + series hs (fun i => c (i + 2)) τ) (2 * Real.pi * j / N)
          = k * (c 1 * Real.cos (k * (2 * Real.pi * j / N)) - c 0 * Real.sin (k * (2 * Real.pi * j / N)))
            + deriv (series hs fun i => c (i + 2)) (2 * Real.pi * j / N) :=
        ((tone_deriv k 0 (c 0) (c 1) _).add ((differentiable_series hs _) _).hasDerivAt).deriv
      have t := tone_centred k 0 (c 0) (c 1) N hN j
      set θ := (k : ℝ) * (2 * Real.pi * j / N)
      have hV := (abs_cs (c 0) (c 1) θ).2
      have hx : (0 : ℝ) ≤ k * (2 * Real.pi / N) := by positivity
      have hs1 := (sub_sin_abs hx).1
      have e2 : 2 * (2 * Real.pi / N) * deriv (fun τ => tone k 0 (c 0) (c 1) τ + series hs (fun i => c (i + 2)) τ) (2 * Real.pi * j / N)
          - ((tone k 0 (c 0) (c 1) (2 * Real.pi * (((j + 1) % N : ℕ) : ℝ) / N) + series hs (fun i => c (i + 2)) (2 * Real.pi * (((j + 1) % N : ℕ) : ℝ) / N))
            - (tone k 0 (c 0) (c 1) (2 * Real.pi * (((j + N - 1) % N : ℕ) : ℝ) / N) + series hs (fun i => c (i + 2)) (2 * Real.pi * (((j + N - 1) % N : ℕ) : ℝ) / N)))
          = 2 * (k * (2 * Real.pi / N) - Real.sin (k * (2 * Real.pi / N))) * (c 1 * Real.cos θ - c 0 * Real.sin θ)
            + (2 * (2 * Real.pi / N) * deriv (series hs fun i => c (i + 2)) (2 * Real.pi * j / N)
              - (series hs (fun i => c (i + 2)) (2 * Real.pi * (((j + 1) % N : ℕ) : ℝ) / N) - series hs (fun i => c (i + 2)) (2 * Real.pi * (((j + N - 1) % N : ℕ) : ℝ) / N))) := by
        rw [e]
        linear_combination t
      beta_reduce
      rw [e2]
      refine (abs_add_le _ _).trans ?_
      have e3 : (2 * Real.pi / N) ^ 3 / 3 * bend 3 (k :: hs) c
          = 2 * ((k * (2 * Real.pi / N)) ^ 3 / 6) * (|c 0| + |c 1|) + (2 * Real.pi / N) ^ 3 / 3 * bend 3 hs (fun i => c (i + 2)) := by
        simp only [bend, if_neg hk]
        ring
      rw [e3]
      refine add_le_add ?_ ih
      rw [abs_mul, abs_mul, abs_two]
      exact mul_le_mul (mul_le_mul_of_nonneg_left hs1 (by norm_num)) hV (abs_nonneg _) (by positivity)

/-- The difference from the sample before and the derivative. -/
theorem backward_error (N : ℕ) (hN : 0 < N) (j : ℕ) : ∀ (h : List ℕ) (c : ℕ → ℝ),
    |2 * Real.pi / N * deriv (series h c) (2 * Real.pi * j / N) - (series h c (2 * Real.pi * j / N)
      - series h c (2 * Real.pi * (((j + N - 1) % N : ℕ) : ℝ) / N))| ≤ (2 * Real.pi / N) ^ 2 * bend 2 h c
  | [], c => by
    have : series [] c = fun _ => 0 := rfl
    simp [this, bend]
  | k :: hs, c => by
    by_cases hk : k = 0
    · subst hk
      have ih := backward_error N hN j hs fun i => c (i + 1)
      rw [zero_series]
      have e : deriv (fun τ => c 0 + series hs (fun i => c (i + 1)) τ) (2 * Real.pi * j / N) = deriv (series hs fun i => c (i + 1)) (2 * Real.pi * j / N) :=
        deriv_const_add _
      rw [e, add_sub_add_left_eq_sub]
      simpa [bend] using ih
    · have ih := backward_error N hN j hs fun i => c (i + 2)
      rw [tone_series k hs hk]
      have e : deriv (fun τ => tone k 0 (c 0) (c 1) τ + series hs (fun i => c (i + 2)) τ) (2 * Real.pi * j / N)
          = k * (c 1 * Real.cos (k * (2 * Real.pi * j / N)) - c 0 * Real.sin (k * (2 * Real.pi * j / N)))
            + deriv (series hs fun i => c (i + 2)) (2 * Real.pi * j / N) :=
        ((tone_deriv k 0 (c 0) (c 1) _).add ((differentiable_series hs _) _).hasDerivAt).deriv
      have hN' : (N : ℝ) ≠ 0 := by positivity
      set x := (k : ℝ) * (2 * Real.pi / N) with hxd
      have t : tone k 0 (c 0) (c 1) (2 * Real.pi * j / N) - tone k 0 (c 0) (c 1) (2 * Real.pi * (((j + N - 1) % N : ℕ) : ℝ) / N)
          = (1 - Real.cos x) * (c 0 * Real.cos (k * (2 * Real.pi * j / N)) + c 1 * Real.sin (k * (2 * Real.pi * j / N)))
            + Real.sin x * (c 1 * Real.cos (k * (2 * Real.pi * j / N)) - c 0 * Real.sin (k * (2 * Real.pi * j / N))) := by
        rw [tone_periodic k 0 (c 0) (c 1) N hN (j + N - 1)]
        have e1 : (k : ℝ) * (2 * Real.pi * ((j + N - 1 : ℕ) : ℝ) / N) = (k * (2 * Real.pi * j / N) - x) + (k : ℕ) * (2 * Real.pi) := by
          rw [Nat.cast_sub (by omega), hxd]
          push_cast
          field_simp
          ring
        unfold tone
        rw [e1, Real.cos_add_nat_mul_two_pi, Real.sin_add_nat_mul_two_pi, Real.cos_sub, Real.sin_sub]
        ring
      set θ := (k : ℝ) * (2 * Real.pi * j / N)
      obtain ⟨hW, hV⟩ := abs_cs (c 0) (c 1) θ
      have hx : 0 ≤ x := by positivity
      have hs1 := (sub_sin_abs hx).2
      have hc1 : |1 - Real.cos x| ≤ x ^ 2 / 2 := by
        rw [abs_of_nonneg (by have := Real.cos_le_one x; linarith)]
        have := Real.one_sub_sq_div_two_le_cos (x := x)
        linarith
      have e2 : 2 * Real.pi / N * deriv (fun τ => tone k 0 (c 0) (c 1) τ + series hs (fun i => c (i + 2)) τ) (2 * Real.pi * j / N)
          - ((tone k 0 (c 0) (c 1) (2 * Real.pi * j / N) + series hs (fun i => c (i + 2)) (2 * Real.pi * j / N))
            - (tone k 0 (c 0) (c 1) (2 * Real.pi * (((j + N - 1) % N : ℕ) : ℝ) / N) + series hs (fun i => c (i + 2)) (2 * Real.pi * (((j + N - 1) % N : ℕ) : ℝ) / N)))
          = ((x - Real.sin x) * (c 1 * Real.cos θ - c 0 * Real.sin θ) - (1 - Real.cos x) * (c 0 * Real.cos θ + c 1 * Real.sin θ))
            + (2 * Real.pi / N * deriv (series hs fun i => c (i + 2)) (2 * Real.pi * j / N)
              - (series hs (fun i => c (i + 2)) (2 * Real.pi * j / N) - series hs (fun i => c (i + 2)) (2 * Real.pi * (((j + N - 1) % N : ℕ) : ℝ) / N))) := by
        rw [e]
        linear_combination -t
      beta_reduce
      rw [e2]
      refine (abs_add_le _ _).trans ?_
      have e3 : (2 * Real.pi / N) ^ 2 * bend 2 (k :: hs) c
          = (x ^ 2 / 2 * (|c 0| + |c 1|) + x ^ 2 / 2 * (|c 0| + |c 1|)) + (2 * Real.pi / N) ^ 2 * bend 2 hs (fun i => c (i + 2)) := by
        simp only [bend, if_neg hk, hxd]
        ring
      rw [e3]
      refine add_le_add ((abs_sub _ _).trans (add_le_add ?_ ?_)) ih
      · rw [abs_mul]
        exact mul_le_mul hs1 hV (abs_nonneg _) (by positivity)
      · rw [abs_mul]
        exact mul_le_mul hc1 hW (abs_nonneg _) (by positivity)

/-! ## Energy of sampled forces -/

/-- Coefficients of the local displacement `e`. -/
def localCoeffs (N : ℕ) (Q : ℕ → ℕ → ℝ) (U : ℕ → ℝ) (e : ℕ) : ℕ → ℝ := fun r => ∑ d ∈ range N, Q e d * U (r * N + d)

theorem localMotion_coeffs (N : ℕ) (Q : ℕ → ℕ → ℝ) (h : List ℕ) (U : ℕ → ℝ) (e : ℕ) : localMotion N Q h U e = series h (localCoeffs N Q U e) :=
  (localMotion_eq N Q h U e).symm

theorem sum_lower {n : ℕ} {x y : ℕ → ℝ} {B : ℝ} (h : ∀ j < n, |x j - y j| ≤ B) : ∑ j ∈ range n, y j - n * B ≤ ∑ j ∈ range n, x j := by
  have : ∑ j ∈ range n, (y j - B) ≤ ∑ j ∈ range n, x j := sum_le_sum fun j hj => by
    have := (abs_le.1 (h j (mem_range.1 hj))).1
    linarith
  rwa [sum_sub_distrib, sum_const, card_range, nsmul_eq_mul] at this

/-- Samples bounded by `G` that take energy by the trapezoidal rule. -/
theorem trapz_power {Nt : ℕ} (hN : 0 < Nt) (h : List ℕ) (c f : ℕ → ℝ) {G : ℝ} (hG : ∀ j < Nt, |f j| ≤ G)
    (hw : 0 ≤ cycleTrapz Nt (fun j => series h c (2 * Real.pi * j / Nt)) f) :
    -(G * bend 3 h c * (2 * Real.pi) ^ 3 / (6 * Nt ^ 2)) ≤ 2 * Real.pi / Nt * ∑ j ∈ range Nt, f j * deriv (series h c) (2 * Real.pi * j / Nt) := by
  have hN' : (Nt : ℝ) ≠ 0 := by positivity
  have hG0 : 0 ≤ G := (abs_nonneg _).trans (hG 0 hN)
  have t := trapz_centred Nt (fun j => series h c (2 * Real.pi * j / Nt)) f
  beta_reduce at t
  have s := sum_lower (n := Nt) (x := fun j => f j * (2 * (2 * Real.pi / Nt) * deriv (series h c) (2 * Real.pi * j / Nt)))
    (y := fun j => f j * (series h c (2 * Real.pi * (((j + 1) % Nt : ℕ) : ℝ) / Nt) - series h c (2 * Real.pi * (((j + Nt - 1) % Nt : ℕ) : ℝ) / Nt)))
    (B := G * ((2 * Real.pi / Nt) ^ 3 / 3 * bend 3 h c)) fun j hj => by
      rw [← mul_sub, abs_mul]
      exact mul_le_mul (hG j hj) (centred_error Nt hN j h c) (abs_nonneg _) hG0
  rw [t] at s
  have e : ∑ j ∈ range Nt, f j * (2 * (2 * Real.pi / Nt) * deriv (series h c) (2 * Real.pi * j / Nt))
      = 2 * (2 * Real.pi / Nt * ∑ j ∈ range Nt, f j * deriv (series h c) (2 * Real.pi * j / Nt)) := by
    rw [mul_sum, mul_sum]
    exact sum_congr rfl fun j _ => by ring
  rw [e] at s
  have e2 : (Nt : ℝ) * (G * ((2 * Real.pi / Nt) ^ 3 / 3 * bend 3 h c)) = 2 * (G * bend 3 h c * (2 * Real.pi) ^ 3 / (6 * Nt ^ 2)) := by
    field_simp
    ring
  rw [e2] at s
  linarith

/-- Samples bounded by `G` that take energy by the rule of the end of the increments. -/
theorem cycle_power {Nt : ℕ} (hN : 0 < Nt) (h : List ℕ) (c f : ℕ → ℝ) {G : ℝ} (hG : ∀ j < Nt, |f j| ≤ G)
    (hw : 0 ≤ cycleWork Nt (fun j => series h c (2 * Real.pi * j / Nt)) f) :
    -(G * bend 2 h c * (2 * Real.pi) ^ 2 / Nt) ≤ 2 * Real.pi / Nt * ∑ j ∈ range Nt, f j * deriv (series h c) (2 * Real.pi * j / Nt) := by
  have hN' : (Nt : ℝ) ≠ 0 := by positivity
  have hG0 : 0 ≤ G := (abs_nonneg _).trans (hG 0 hN)
  unfold cycleWork at hw
  have s := sum_lower (n := Nt) (x := fun j => f j * (2 * Real.pi / Nt * deriv (series h c) (2 * Real.pi * j / Nt)))
    (y := fun j => f j * (series h c (2 * Real.pi * j / Nt) - series h c (2 * Real.pi * (((j + Nt - 1) % Nt : ℕ) : ℝ) / Nt)))
    (B := G * ((2 * Real.pi / Nt) ^ 2 * bend 2 h c)) fun j hj => by
      rw [← mul_sub, abs_mul]
      exact mul_le_mul (hG j hj) (backward_error Nt hN j h c) (abs_nonneg _) hG0
  have e : ∑ j ∈ range Nt, f j * (2 * Real.pi / Nt * deriv (series h c) (2 * Real.pi * j / Nt))
      = 2 * Real.pi / Nt * ∑ j ∈ range Nt, f j * deriv (series h c) (2 * Real.pi * j / Nt) := by
    rw [mul_sum]
    exact sum_congr rfl fun j _ => by ring
  rw [e] at s
  have e2 : (Nt : ℝ) * (G * ((2 * Real.pi / Nt) ^ 2 * bend 2 h c)) = G * bend 2 h c * (2 * Real.pi) ^ 2 / Nt := by
    field_simp
  rw [e2] at s
  linarith

/-- A force that does not fall with the displacement takes energy over any closed cycle by the rule of the end of the increments. -/
theorem mono_cycle {φ : ℝ → ℝ} (hφ : Monotone φ) (hc : Continuous φ) (N : ℕ) (u : ℕ → ℝ) : 0 ≤ cycleWork N u fun t => φ (u t) := by
  have key : ∀ x y : ℝ, (∫ s in (0:ℝ)..x, φ s) - (∫ s in (0:ℝ)..y, φ s) ≤ φ x * (x - y) := by
    intro x y
    have hi : ∀ a b, IntervalIntegrable φ MeasureTheory.volume a b := fun a b => hc.intervalIntegrable a b
    rw [intervalIntegral.integral_interval_sub_left (hi 0 x) (hi 0 y)]
    rcases le_total y x with h | h
    · have := intervalIntegral.integral_mono_on h (hi y x) (continuous_const (y := φ x) |>.intervalIntegrable _ _) fun s hs => hφ hs.2
      rw [intervalIntegral.integral_const, smul_eq_mul] at this
      linarith
    · have := intervalIntegral.integral_mono_on h (continuous_const (y := φ x) |>.intervalIntegrable _ _) (hi x y) fun s hs => hφ hs.1
      rw [intervalIntegral.integral_const, smul_eq_mul] at this
      rw [intervalIntegral.integral_symm]
      linarith
  have s := sum_le_sum fun t (_ : t ∈ range N) => key (u t) (u ((t + N - 1) % N))
  rw [cycle_cancel N (fun t => ∫ s in (0:ℝ)..u t, φ s)] at s
  exact s

/-- The same force by the rule of the start of the increments. -/
theorem mono_forward {φ : ℝ → ℝ} (hφ : Monotone φ) (hc : Continuous φ) (N : ℕ) (hN : 0 < N) (u : ℕ → ℝ) :
    ∑ t ∈ range N, φ (u t) * (u ((t + 1) % N) - u t) ≤ 0 := by
  have key : ∀ x y : ℝ, φ x * (y - x) ≤ (∫ s in (0:ℝ)..y, φ s) - (∫ s in (0:ℝ)..x, φ s) := by
    intro x y
    have hi : ∀ a b, IntervalIntegrable φ MeasureTheory.volume a b := fun a b => hc.intervalIntegrable a b
    rw [intervalIntegral.integral_interval_sub_left (hi 0 y) (hi 0 x)]
    rcases le_total x y with h | h
    · have := intervalIntegral.integral_mono_on h (continuous_const (y := φ x) |>.intervalIntegrable _ _) (hi x y) fun s hs => hφ hs.1
      rw [intervalIntegral.integral_const, smul_eq_mul] at this
      linarith
    · have := intervalIntegral.integral_mono_on h (hi y x) (continuous_const (y := φ x) |>.intervalIntegrable _ _) fun s hs => hφ hs.2
      rw [intervalIntegral.integral_const, smul_eq_mul] at this
      rw [intervalIntegral.integral_symm]
      linarith
  have s := sum_le_sum fun t (_ : t ∈ range N) => key (u t) (u ((t + 1) % N))
  refine s.trans (le_of_eq ?_)
  obtain ⟨n, rfl⟩ : ∃ n, N = n + 1 := ⟨N - 1, by omega⟩
  rw [sum_range_succ, Nat.mod_self]
  have e : ∀ t ∈ range n, ((∫ s in (0:ℝ)..u ((t + 1) % (n + 1)), φ s) - ∫ s in (0:ℝ)..u t, φ s)
      = (∫ s in (0:ℝ)..u (t + 1), φ s) - ∫ s in (0:ℝ)..u t, φ s := fun t ht => by
    rw [Nat.mod_eq_of_lt (by have := mem_range.1 ht; omega)]
  rw [sum_congr rfl e, sum_range_sub fun t => ∫ s in (0:ℝ)..u t, φ s]
  ring

/-! ## C143 -/

/-- C143 (general): local forces that are bounded and take energy from the sampled motion put at most a multiple of `1 / Nt` into the motion of
the harmonic balance. -/
theorem C143_general {h : List ℕ} (hA : Admissible h) {Nt : ℕ} (hN : 0 < Nt) (N m : ℕ) (Q T : ℕ → ℕ → ℝ) (hT : ∀ i e, T i e = Q e i)
    (U F : ℕ → ℝ) {w : ℝ} (hw : w ≠ 0) (f : ℕ → ℕ → ℝ) (hF : IsForceDFT N m T h Nt f F) (G : ℕ → ℝ) (hG : ∀ e < m, ∀ j < Nt, |f j e| ≤ G e)
    (hc : ∀ e < m, 0 ≤ cycleWork Nt (fun j => localMotion N Q h U e (2 * Real.pi * j / Nt)) fun j => f j e) :
    -((2 * Real.pi) ^ 2 / Nt * ∑ e ∈ range m, G e * bend 2 h (localCoeffs N Q U e))
      ≤ periodWork N w (velocityOf N h U w) (periodicOf N h F w) := by
  rw [work_local hA N m Q T hT U F hw f hF, sum_comm, mul_sum, mul_sum, ← sum_neg_distrib]
  refine sum_le_sum fun e he => ?_
  have := cycle_power hN h (localCoeffs N Q U e) (fun j => f j e) (hG e (mem_range.1 he)) (by
    rw [← localMotion_coeffs]; exact hc e (mem_range.1 he))
  rw [← localMotion_coeffs] at this
  refine le_trans (le_of_eq ?_) this
  ring

/-- Superpositions of steady sliders with constant limits. -/
theorem sliders_power {h : List ℕ} (hA : Admissible h) {Nt : ℕ} (hN : 0 < Nt) (N : ℕ) (Q T : ℕ → ℕ → ℝ) (hT : ∀ i e, T i e = Q e i)
    (U F : ℕ → ℝ) {w : ℝ} (hw : w ≠ 0) (f : ℕ → ℕ → ℝ) (hF : IsForceDFT N 1 T h Nt f F) (n : ℕ) (wt kt L : ℕ → ℝ) (g : ℕ → ℕ → ℝ)
    (hwt : ∀ i < n, 0 ≤ wt i) (hkt : ∀ i < n, 0 < kt i) (hL : ∀ i < n, 0 ≤ L i) (hf : ∀ j < Nt, f j 0 = ∑ i ∈ range n, wt i * g i j)
    (hg : ∀ i < n, SteadyState Nt (kt i) (fun _ => L i) (fun j => localMotion N Q h U 0 (2 * Real.pi * j / Nt)) (g i)) :
    -((∑ i ∈ range n, wt i * L i) * bend 3 h (localCoeffs N Q U 0) * (2 * Real.pi) ^ 3 / (6 * Nt ^ 2))
      ≤ periodWork N w (velocityOf N h U w) (periodicOf N h F w) := by
  rw [work_local hA N 1 Q T hT U F hw f hF]
  have e2 : ∀ j ∈ range Nt, ∑ d ∈ range 1, f j d * deriv (localMotion N Q h U d) (2 * Real.pi * j / Nt)
      = ∑ i ∈ range n, wt i * (g i j * deriv (localMotion N Q h U 0) (2 * Real.pi * j / Nt)) := by
    intro j hj
    rw [sum_range_one, hf j (mem_range.1 hj), sum_mul]
    exact sum_congr rfl fun i _ => by ring
  rw [sum_congr rfl e2, sum_comm, sum_mul, sum_mul, sum_div, ← sum_neg_distrib, mul_sum]
  refine sum_le_sum fun i hi => ?_
  have hi := mem_range.1 hi
  have hb : ∀ j < Nt, |g i j| ≤ L i := fun j hj => by
    rw [hg i hi j hj]
    exact clip_abs (hL i hi) _
  have ht := steady_trapz (hkt i hi) (hL i hi) (hg i hi)
  rw [localMotion_coeffs] at ht
  have := trapz_power hN h (localCoeffs N Q U 0) (g i) hb ht
  rw [← localMotion_coeffs] at this
  rw [← mul_sum, mul_left_comm]
  refine le_trans (le_of_eq ?_) (mul_le_mul_of_nonneg_left this (hwt i hi))
  ring

/-- C143 (JAX Jenkins): for any harmonics, the energy the element can put into the motion falls with the square of the number of samples. -/
theorem C143_jax_jenkins {h : List ℕ} (hA : Admissible h) (hh : 1 < numCoeff h) (Nt : ℕ) (hNt : ∀ k ∈ h, 2 * k + 1 < Nt) (heven : Even Nt)
    (N : ℕ) (Q T : ℕ → ℕ → ℝ) (hT : ∀ i e, T i e = Q e i) {kt Fs : ℝ} (hk : 0 < kt) (hF : 0 ≤ Fs) (u0 : EdfU0) (U : ℕ → ℝ)
    {w : ℝ} (hw : w ≠ 0) :
    ∃ F, (PForce.jaxJenkins N Q T kt Fs u0).aftF U w h Nt = .ok F ∧
      -(Fs * bend 3 h (localCoeffs N Q U 0) * (2 * Real.pi) ^ 3 / (6 * Nt ^ 2)) ≤ periodWork N w (velocityOf N h U w) (periodicOf N h F w) := by
  have hN : 0 < Nt := by
    obtain ⟨k, hk⟩ := List.exists_mem_of_ne_nil h hA.ne
    have := hNt k hk
    omega
  obtain ⟨W, ww⟩ := gfc_linear hA (fun k hk => by have := hNt k hk; omega : ∀ k ∈ h, k < Nt)
  set hist : TS ℕ → (ℕ → ℝ) → ℕ → ℕ → ℝ :=
    fun u z j _ => jaxJenkinsHistory u.rows (fun j => u.val j 0) kt Fs (jaxStart u0 z) j with hhist
  set f := hist (sampledDisp N Q h U Nt) (unlOf N Q U 0) with hf
  obtain ⟨x, x1, -, x2⟩ := ww f
  refine ⟨_, jaxAft_F hA hNt heven hh N 1 Q T hist U x1, ?_⟩
  have := sliders_power hA hN N Q T hT U _ hw f (isForceDFT_of N 1 T h Nt f x x2) 1 (fun _ => 1) (fun _ => kt)
    (fun _ => Fs) (fun _ j => f j 0) (fun _ _ => zero_le_one) (fun _ _ => hk) (fun _ _ => hF) (fun j _ => by simp)
    fun i _ => C35_jax_steady kt Fs hF Nt hN (fun j => localMotion N Q h U 0 (2 * Real.pi * j / Nt)) _
  simpa using this

/-- Bound of the normal force of elastic dry friction on local displacement `e`. -/
def normalBound (kn gap : ℝ) (h : List ℕ) (N : ℕ) (Q : ℕ → ℕ → ℝ) (U : ℕ → ℝ) (e : ℕ) : ℝ := kn * (bend 0 h (localCoeffs N Q U e) + |gap|)

theorem normal_le {kn : ℝ} (hkn : 0 ≤ kn) (gap : ℝ) (h : List ℕ) (N : ℕ) (Q : ℕ → ℕ → ℝ) (U : ℕ → ℝ) (e : ℕ) (τ : ℝ) :
    edfNormal kn gap (localMotion N Q h U e τ) ≤ normalBound kn gap h N Q U e := by
  unfold edfNormal normalBound
  have h1 := series_abs h (localCoeffs N Q U e) τ
  rw [← localMotion_coeffs] at h1
  have h2 := le_abs_self (localMotion N Q h U e τ)
  have h3 := neg_abs_le gap
  have h4 := abs_nonneg gap
  have h5 := bend_nonneg 0 h (localCoeffs N Q U e)
  refine max_le ?_ (mul_nonneg hkn (by linarith))
  rw [mul_comm]
  exact mul_le_mul_of_nonneg_left (by linarith) hkn

theorem normal_mono {kn : ℝ} (hkn : 0 ≤ kn) (gap : ℝ) : Monotone (edfNormal kn gap) ∧ Continuous (edfNormal kn gap) := by
  constructor
  · intro a b hab
    exact max_le_max (mul_le_mul_of_nonneg_right (by linarith) hkn) le_rfl
  · unfold edfNormal
    fun_prop

/-- C143 (2D elastic dry friction): the energy falls with the number of samples, for any harmonics and any course of the normal displacement,
lift-off included. -/
theorem C143_friction_2d {h : List ℕ} (hA : Admissible h) (hh : 1 < numCoeff h) (Nt : ℕ) (hNt : ∀ k ∈ h, 2 * k + 1 < Nt) (heven : Even Nt)
    (N n : ℕ) (Q T : ℕ → ℕ → ℝ) (hT : ∀ i e, T i e = Q e i) {kt kn mu : ℝ} (hkt : 0 < kt) (hkn : 0 ≤ kn) (hmu : 0 ≤ mu) (gap : ℝ) (u0 : EdfU0)
    (U : ℕ → ℝ) {w : ℝ} (hw : w ≠ 0) :
    ∃ F, (PForce.edf2 N (2 * n) Q T kt kn mu gap u0).aftF U w h Nt = .ok F ∧
      -((2 * Real.pi) ^ 2 / Nt * ∑ e ∈ range n, normalBound kn gap h N Q U (2 * e + 1)
          * (mu * bend 2 h (localCoeffs N Q U (2 * e)) + bend 2 h (localCoeffs N Q U (2 * e + 1))))
        ≤ periodWork N w (velocityOf N h U w) (periodicOf N h F w) := by
  have hN : 0 < Nt := by
    obtain ⟨k, hk⟩ := List.exists_mem_of_ne_nil h hA.ne
    have := hNt k hk
    omega
  obtain ⟨W, ww⟩ := gfc_linear hA (fun k hk => by have := hNt k hk; omega : ∀ k ∈ h, k < Nt)
  set hist : TS ℕ → (ℕ → ℝ) → ℕ → ℕ → ℝ :=
    fun u z => edf2History u.rows u.val kt kn mu gap (edf2AftU0 u0 z) with hhist
  set f := hist (sampledDisp N Q h U Nt) (unlOf N Q U 0) with hf
  obtain ⟨x, x1, -, x2⟩ := ww f
  refine ⟨_, jaxAft_F hA hNt heven hh N (2 * n) Q T hist U x1, ?_⟩
  have hfe : f = edf2History Nt (sampledDisp N Q h U Nt).val kt kn mu gap (edf2AftU0 u0 (unlOf N Q U 0)) := rfl
  have hu : ∀ t d, (sampledDisp N Q h U Nt).val t d = localMotion N Q h U d (2 * Real.pi * t / Nt) := fun _ _ => rfl
  have hn : ∀ t < Nt, ∀ e, f t (2 * e + 1) = edfNormal kn gap (localMotion N Q h U (2 * e + 1) (2 * Real.pi * t / Nt)) := by
    intro t ht e
    obtain ⟨-, a, b, -⟩ := C39_coulomb_2d Nt (sampledDisp N Q h U Nt).val kt kn mu gap (edf2AftU0 u0 (unlOf N Q U 0)) hmu hkn t e ht
    rw [hfe, ← hu]
    unfold edfNormal
    rcases le_total ((sampledDisp N Q h U Nt).val t (2 * e + 1)) gap with hle | hle
    · rw [a hle, max_eq_right (mul_nonpos_of_nonpos_of_nonneg (by linarith) hkn)]
    · rw [b hle, max_eq_left (mul_nonneg (by linarith) hkn), mul_comm]
  have hn0 : ∀ t < Nt, ∀ e, 0 ≤ f t (2 * e + 1) := fun t ht e => by rw [hn t ht e]; exact le_max_right _ _
  have hnb : ∀ t < Nt, ∀ e, f t (2 * e + 1) ≤ normalBound kn gap h N Q U (2 * e + 1) := fun t ht e => by rw [hn t ht e]; exact normal_le hkn gap h N Q U _ _
  have hft : ∀ t < Nt, ∀ e, |f t (2 * e)| ≤ mu * normalBound kn gap h N Q U (2 * e + 1) := fun t ht e => by
    obtain ⟨-, -, -, b⟩ := C39_coulomb_2d Nt (sampledDisp N Q h U Nt).val kt kn mu gap (edf2AftU0 u0 (unlOf N Q U 0)) hmu hkn t e ht
    exact b.trans (mul_le_mul_of_nonneg_left (hnb t ht e) hmu)
  have g := C143_general hA hN N (2 * n) Q T hT U _ hw f (isForceDFT_of N (2 * n) T h Nt f x x2)
    (fun d => if d % 2 = 0 then mu * normalBound kn gap h N Q U (d + 1) else normalBound kn gap h N Q U d) (fun d _ j hj => ?_) fun d _ => ?_
  · refine le_trans (le_of_eq ?_) g
    congr 2
    clear g x2 x1 hft hnb hn0 hn hfe
    induction n with
    | zero => simp
    | succ n ih =>
      rw [sum_range_succ, ih, show 2 * (n + 1) = 2 * n + 1 + 1 by ring, sum_range_succ _ (2 * n + 1), sum_range_succ _ (2 * n)]
      simp only [show 2 * n % 2 = 0 by omega, show ¬ (2 * n + 1) % 2 = 0 by omega, if_true, if_false]
      ring
  · rcases Nat.even_or_odd' d with ⟨e, rfl | rfl⟩
    · simpa using hft j hj e
    · simp only [show ¬ (2 * e + 1) % 2 = 0 by omega, if_false]
      rw [abs_of_nonneg (hn0 j hj e)]
      exact hnb j hj e
  · rcases Nat.even_or_odd' d with ⟨e, rfl | rfl⟩
    · exact C135_edf2_partial Nt hN (sampledDisp N Q h U Nt).val hkt kn hmu gap (edf2AftU0 u0 (unlOf N Q U 0)) e
    · have := mono_cycle (normal_mono hkn gap).1 (normal_mono hkn gap).2 Nt fun j => localMotion N Q h U (2 * e + 1) (2 * Real.pi * j / Nt)
      refine le_trans this (le_of_eq ?_)
      unfold cycleWork
      exact sum_congr rfl fun t ht => by beta_reduce; rw [hn t (mem_range.1 ht) e]

/-- C143 (3D elastic dry friction). -/
theorem C143_friction_3d {h : List ℕ} (hA : Admissible h) (hh : 1 < numCoeff h) (Nt : ℕ) (hNt : ∀ k ∈ h, 2 * k + 1 < Nt) (heven : Even Nt)
    (N n : ℕ) (Q T : ℕ → ℕ → ℝ) (hT : ∀ i e, T i e = Q e i) {kt kn mu : ℝ} (hkt : 0 < kt) (hkn : 0 ≤ kn) (hmu : 0 ≤ mu) (gap : ℝ) (u0 : EdfU0)
    (U : ℕ → ℝ) {w : ℝ} (hw : w ≠ 0) :
    ∃ F, (PForce.edf3 N (3 * n) Q T kt kn mu gap u0).aftF U w h Nt = .ok F ∧
      -((2 * Real.pi) ^ 2 / Nt * ∑ e ∈ range n, normalBound kn gap h N Q U (3 * e + 2)
          * (mu * (bend 2 h (localCoeffs N Q U (3 * e)) + bend 2 h (localCoeffs N Q U (3 * e + 1))) + bend 2 h (localCoeffs N Q U (3 * e + 2))))
        ≤ periodWork N w (velocityOf N h U w) (periodicOf N h F w) := by
  have hN : 0 < Nt := by
    obtain ⟨k, hk⟩ := List.exists_mem_of_ne_nil h hA.ne
    have := hNt k hk
    omega
  obtain ⟨W, ww⟩ := gfc_linear hA (fun k hk => by have := hNt k hk; omega : ∀ k ∈ h, k < Nt)
  set hist : TS ℕ → (ℕ → ℝ) → ℕ → ℕ → ℝ :=
    fun u z => edf3History u.rows u.val kt kn mu gap (edf3AftU0 u0 z) with hhist
  set f := hist (sampledDisp N Q h U Nt) (unlOf N Q U 0) with hf
  obtain ⟨x, x1, -, x2⟩ := ww f
  refine ⟨_, jaxAft_F hA hNt heven hh N (3 * n) Q T hist U x1, ?_⟩
  have hfe : f = edf3History Nt (sampledDisp N Q h U Nt).val kt kn mu gap (edf3AftU0 u0 (unlOf N Q U 0)) := rfl
  have hu : ∀ t d, (sampledDisp N Q h U Nt).val t d = localMotion N Q h U d (2 * Real.pi * t / Nt) := fun _ _ => rfl
  have hn : ∀ t < Nt, ∀ e, f t (3 * e + 2) = edfNormal kn gap (localMotion N Q h U (3 * e + 2) (2 * Real.pi * t / Nt)) := by
    intro t ht e
    obtain ⟨-, a, b, -⟩ := C39_coulomb_3d Nt (sampledDisp N Q h U Nt).val kt kn mu gap (edf3AftU0 u0 (unlOf N Q U 0)) hmu hkn t e ht
    rw [hfe, ← hu]
    unfold edfNormal
    rcases le_total ((sampledDisp N Q h U Nt).val t (3 * e + 2)) gap with hle | hle
    · rw [a hle, max_eq_right (mul_nonpos_of_nonpos_of_nonneg (by linarith) hkn)]
    · rw [b hle, max_eq_left (mul_nonneg (by linarith) hkn), mul_comm]
  have hn0 : ∀ t < Nt, ∀ e, 0 ≤ f t (3 * e + 2) := fun t ht e => by rw [hn t ht e]; exact le_max_right _ _
  have hnb : ∀ t < Nt, ∀ e, f t (3 * e + 2) ≤ normalBound kn gap h N Q U (3 * e + 2) := fun t ht e => by rw [hn t ht e]; exact normal_le hkn gap h N Q U _ _
  have hft : ∀ t < Nt, ∀ e, ∀ i < 2, |f t (3 * e + i)| ≤ mu * normalBound kn gap h N Q U (3 * e + 2) := fun t ht e i hi => by
    obtain ⟨-, -, -, b, c⟩ := C39_coulomb_3d Nt (sampledDisp N Q h U Nt).val kt kn mu gap (edf3AftU0 u0 (unlOf N Q U 0)) hmu hkn t e ht
    interval_cases i
    · exact b.trans (mul_le_mul_of_nonneg_left (hnb t ht e) hmu)
    · exact c.trans (mul_le_mul_of_nonneg_left (hnb t ht e) hmu)
  have three : ∀ d : ℕ, (∃ e i, i < 2 ∧ d = 3 * e + i) ∨ ∃ e, d = 3 * e + 2 := fun d => by
    rcases (by omega : d % 3 < 2 ∨ d % 3 = 2) with h | h
    · exact .inl ⟨d / 3, d % 3, h, by omega⟩
    · exact .inr ⟨d / 3, by omega⟩
  have g := C143_general hA hN N (3 * n) Q T hT U _ hw f (isForceDFT_of N (3 * n) T h Nt f x x2)
    (fun d => if d % 3 = 2 then normalBound kn gap h N Q U d else mu * normalBound kn gap h N Q U (3 * (d / 3) + 2)) (fun d _ j hj => ?_) fun d _ => ?_
  · refine le_trans (le_of_eq ?_) g
    congr 2
    clear g x2 x1 hft hnb hn0 hn hfe
    induction n with
    | zero => simp
    | succ n ih =>
      rw [sum_range_succ, ih, show 3 * (n + 1) = 3 * n + 1 + 1 + 1 by ring, sum_range_succ _ (3 * n + 1 + 1), sum_range_succ _ (3 * n + 1), sum_range_succ _ (3 * n)]
      simp only [show ¬ 3 * n % 3 = 2 by omega, show ¬ (3 * n + 1) % 3 = 2 by omega, show (3 * n + 1 + 1) % 3 = 2 by omega,
        show 3 * n / 3 = n by omega, show (3 * n + 1) / 3 = n by omega, if_true, if_false]
      ring
  · rcases three d with ⟨e, i, hi, rfl⟩ | ⟨e, rfl⟩
    · simp only [show ¬ (3 * e + i) % 3 = 2 by omega, if_false, show (3 * e + i) / 3 = e by omega]
      exact hft j hj e i hi
    · simp only [show (3 * e + 2) % 3 = 2 by omega, if_true]
      rw [abs_of_nonneg (hn0 j hj e)]
      exact hnb j hj e
  · rcases three d with ⟨e, i, hi, rfl⟩ | ⟨e, rfl⟩
    · exact C135_edf3_partial Nt hN (sampledDisp N Q h U Nt).val hkt kn hmu gap (edf3AftU0 u0 (unlOf N Q U 0)) e i hi
    · have := mono_cycle (normal_mono hkn gap).1 (normal_mono hkn gap).2 Nt fun j => localMotion N Q h U (3 * e + 2) (2 * Real.pi * j / Nt)
      refine le_trans this (le_of_eq ?_)
      unfold cycleWork
      exact sum_congr rfl fun t ht => by beta_reduce; rw [hn t (mem_range.1 ht) e]

/-- Elements evaluated by the loop of cycles, when it runs two of them. -/
theorem serial_power {σ : Type} (ops : HystOps σ ℕ) (n : ℕ) (wt kt L : ℕ → ℝ) (hwt : ∀ i < n, 0 ≤ wt i)
    (hkt : ∀ i < n, 0 < kt i) (hL : ∀ i < n, 0 ≤ L i)
    (hops : ∀ (N : ℕ) (u : ℕ → ℝ) (c : ℕ → ℕ → ℝ) (z atol rtol eps : ℝ) (ft : List (ℝ × (ℕ → ℝ))) (its : ℕ),
      localForceHistory ops ((List.range N).map fun i => (u i, c i)) z 2 atol rtol eps = .ok (ft, its) → 2 ≤ its →
      ∃ g : ℕ → ℕ → ℝ, (∀ j < N, (ft.getD j (0, fun _ => 0)).1 = ∑ i ∈ range n, wt i * g i j) ∧
        ∀ i < n, SteadyState N (kt i) (fun _ => L i) u (g i))
    {h : List ℕ} (hA : Admissible h) (Nt : ℕ) (hNt : ∀ k ∈ h, 2 * k + 1 < Nt) (heven : Even Nt)
    (N : ℕ) (Q T : ℕ → ℕ → ℝ) (hT : ∀ i e, T i e = Q e i) (eps : ℝ) (U : ℕ → ℝ) {w : ℝ} (hw : w ≠ 0) :
    ∃ (cst : TS ℕ) (ft : List (ℝ × (ℕ → ℝ))) (its : ℕ) (F : ℕ → ℝ), timeSeriesDeriv Nt h eye 0 = .ok cst ∧
      localForceHistory ops ((List.range Nt).map fun j : ℕ => (localMotion N Q h U 0 (2 * Real.pi * j / Nt), cst.val j))
        (∑ e ∈ range N, Q 0 e * U e) 2 (1 / 10 ^ 10) (1 / 10 ^ 10) eps = .ok (ft, its) ∧
      (PForce.hyst N 1 Q T (serialLfh ops eps)).aftF U w h Nt = .ok F ∧
      (2 ≤ its → -((∑ i ∈ range n, wt i * L i) * bend 3 h (localCoeffs N Q U 0) * (2 * Real.pi) ^ 3 / (6 * Nt ^ 2))
        ≤ periodWork N w (velocityOf N h U w) (periodicOf N h F w)) := by
  have hN : 0 < Nt := by
    obtain ⟨k, hk⟩ := List.exists_mem_of_ne_nil h hA.ne
    have := hNt k hk
    omega
  obtain ⟨cst, c1, H⟩ := C24_hysteretic_is_dft h hA Nt hNt heven N 1 Q T (serialLfh ops eps (1 / 10 ^ 10)) U w
  have hr : ((List.range Nt).map fun j : ℕ => (localMotion N Q h U 0 (2 * Real.pi * j / Nt), cst.val j)) ≠ [] := by
    simp; omega
  obtain ⟨ft, its, e, -⟩ := C32_cycle_count ops _ hr (∑ e ∈ range N, Q 0 e * U e) 2 (1 / 10 ^ 10) (1 / 10 ^ 10) eps
  have el : serialLfh ops eps (1 / 10 ^ 10) ⟨Nt, fun j d => localMotion N Q h U d (2 * Real.pi * j / Nt)⟩
      (fun j d => w * deriv (localMotion N Q h U d) (2 * Real.pi * j / Nt)) cst (fun d => ∑ e ∈ range N, Q d e * U e)
      = .ok (fun j _ => (ft.getD j (0, fun _ => 0)).1, fun j _ _ k => (ft.getD j (0, fun _ => 0)).2 k) := by
    unfold serialLfh
    simp only [e]
  rw [el] at H
  obtain ⟨out, o1, o2⟩ := H
  refine ⟨cst, ft, its, out.F, c1, e, ?_, fun h2 => ?_⟩
  · show aftForce (hystAft N 1 Q T (serialLfh ops eps (1 / 10 ^ 10)) U w h Nt) = _
    rw [o1]
    rfl
  · obtain ⟨g, g1, g2⟩ := hops Nt (fun j => localMotion N Q h U 0 (2 * Real.pi * j / Nt)) cst.val _ _ _ _ ft its e h2
    exact sliders_power hA hN N Q T hT U _ hw _ o2 n wt kt L g hwt hkt hL g1 g2

/-- C143 (NumPy Jenkins): if the loop runs a second cycle (C31). -/
theorem C143_jenkins {h : List ℕ} (hA : Admissible h) (Nt : ℕ) (hNt : ∀ k ∈ h, 2 * k + 1 < Nt) (heven : Even Nt)
    (N : ℕ) (Q T : ℕ → ℕ → ℝ) (hT : ∀ i e, T i e = Q e i) {kt Fs : ℝ} (hk : 0 < kt) (hF : 0 ≤ Fs) (eps : ℝ) (U : ℕ → ℝ)
    {w : ℝ} (hw : w ≠ 0) :
    ∃ (cst : TS ℕ) (ft : List (ℝ × (ℕ → ℝ))) (its : ℕ) (F : ℕ → ℝ), timeSeriesDeriv Nt h eye 0 = .ok cst ∧
      localForceHistory (jenkinsOps kt Fs unit0)
        ((List.range Nt).map fun j : ℕ => (localMotion N Q h U 0 (2 * Real.pi * j / Nt), cst.val j))
        (∑ e ∈ range N, Q 0 e * U e) 2 (1 / 10 ^ 10) (1 / 10 ^ 10) eps = .ok (ft, its) ∧
      (PForce.jenkins N Q T kt Fs eps).aftF U w h Nt = .ok F ∧
      (2 ≤ its → -(Fs * bend 3 h (localCoeffs N Q U 0) * (2 * Real.pi) ^ 3 / (6 * Nt ^ 2))
        ≤ periodWork N w (velocityOf N h U w) (periodicOf N h F w)) := by
  have := serial_power (jenkinsOps kt Fs unit0) 1 (fun _ => 1) (fun _ => kt) (fun _ => Fs) (fun _ _ => zero_le_one)
    (fun _ _ => hk) (fun _ _ => hF) ?_ hA Nt hNt heven N Q T hT eps U hw
  · rw [sum_range_one, one_mul] at this
    exact this
  intro N u c z atol rtol eps ft its e h2
  have hs := C31_two_cycle_result_partial kt Fs hF unit0 N u c z 2 atol rtol eps ft its e h2
  refine ⟨fun _ i => (ft.map Prod.fst).getD i 0, fun j _ => ?_, fun _ _ => hs⟩
  rw [sum_range_one, one_mul]
  beta_reduce
  rw [List.getD_eq_getElem?_getD, List.getD_eq_getElem?_getD, List.getElem?_map]
  cases ft[j]? <;> rfl

/-- C143 (Iwan). -/
theorem C143_iwan {h : List ℕ} (hA : Admissible h) (Nt : ℕ) (hNt : ∀ k ∈ h, 2 * k + 1 < Nt) (heven : Even Nt)
    (N : ℕ) (Q T : ℕ → ℕ → ℝ) (hT : ∀ i e, T i e = Q e i) (iw : Iwan) (hphi : ∀ k ≤ iw.nSliders, 0 ≤ iw.phi k)
    (hwt : ∀ k ≤ iw.nSliders, 0 ≤ iw.weight k) (eps : ℝ) (U : ℕ → ℝ) {w : ℝ} (hw : w ≠ 0) :
    ∃ (cst : TS ℕ) (ft : List (ℝ × (ℕ → ℝ))) (its : ℕ) (F : ℕ → ℝ), timeSeriesDeriv Nt h eye 0 = .ok cst ∧
      localForceHistory (iwanOps iw unit0)
        ((List.range Nt).map fun j : ℕ => (localMotion N Q h U 0 (2 * Real.pi * j / Nt), cst.val j))
        (∑ e ∈ range N, Q 0 e * U e) 2 (1 / 10 ^ 10) (1 / 10 ^ 10) eps = .ok (ft, its) ∧
      (PForce.iwan N Q T iw eps).aftF U w h Nt = .ok F ∧
      (2 ≤ its → -((∑ i ∈ range (iw.nSliders + 1), iw.weight i * iw.phi i) * bend 3 h (localCoeffs N Q U 0) * (2 * Real.pi) ^ 3 / (6 * Nt ^ 2))
        ≤ periodWork N w (velocityOf N h U w) (periodicOf N h F w)) := by
  refine serial_power (iwanOps iw unit0) (iw.nSliders + 1) iw.weight (fun _ => 1) iw.phi (fun i hi => hwt i (by omega))
    (fun _ _ => one_pos) (fun i hi => hphi i (by omega)) ?_ hA Nt hNt heven N Q T hT eps U hw
  intro N u c z atol rtol eps ft its e h2
  rcases Nat.eq_zero_or_pos N with rfl | hN
  · exact ⟨fun _ _ => 0, fun j hj => absurd hj (Nat.not_lt_zero _), fun _ _ i hi => absurd hi (Nat.not_lt_zero _)⟩
  have hr : ((List.range N).map fun i => (u i, c i)) ≠ [] := by simp; omega
  obtain ⟨ft', its', e', -, -, e2⟩ := C32_cycle_count (iwanOps iw unit0) _ hr z 2 atol rtol eps
  rw [e] at e'
  simp only [Except.ok.injEq, Prod.mk.injEq] at e'
  rw [← e'.1, ← e'.2] at e2
  obtain ⟨n, hn⟩ : ∃ n, its - 1 = n + 1 := ⟨its - 2, by omega⟩
  have e3 : ft.map Prod.fst = (cycleRows (iwanOps iw unit0) ((List.range N).map fun i => (u i, c i)) 1
      ((iwanOps iw unit0).init z)).map Prod.fst := by
    rw [e2, hn, C38_two_cycles iw hphi unit0 N hN u c]
  obtain ⟨g, g1, g2⟩ := C38_second_cycle_steady iw hphi unit0 N hN u c ((iwanOps iw unit0).init z)
  refine ⟨g, fun j hj => ?_, fun i hi => g1 i (by omega)⟩
  have e4 : (ft.getD j (0, fun _ => 0)).1 = (ft.map Prod.fst).getD j 0 := by
    rw [List.getD_eq_getElem?_getD, List.getD_eq_getElem?_getD, List.getElem?_map]
    cases ft[j]? <;> rfl
  rw [e4, e3, g2, List.getD_eq_getElem?_getD, List.getElem?_map, List.getElem?_range hj]
  rfl

/-- C143 (springs): the work of springs with continuous forces that do not fall, which the exact motion would cancel, falls with the number of
samples. -/
theorem C143_springs {h : List ℕ} (hA : Admissible h) (Nt : ℕ) (hNt : ∀ k ∈ h, 2 * k + 1 < Nt) (heven : Even Nt)
    (N m : ℕ) (Q T : ℕ → ℕ → ℝ) (hT : ∀ i e, T i e = Q e i) (loc : ℕ → ℝ → ℝ → Loc) (φ : ℕ → ℝ → ℝ) (hl : ∀ d u v, (loc d u v).f = φ d u)
    (hφ : ∀ d, Monotone (φ d)) (hc : ∀ d, Continuous (φ d)) (force : (ℕ → ℝ) → (ℕ → ℝ) × (ℕ → ℕ → ℝ)) (tol : ℝ) (U : ℕ → ℝ) {w : ℝ} (hw : w ≠ 0) :
    ∃ o, (instForce N m Q T loc force).aft U w h Nt tol = .ok o ∧
      |periodWork N w (velocityOf N h U w) (periodicOf N h o.F w)|
        ≤ ∑ e ∈ range m, max |φ e (-bend 0 h (localCoeffs N Q U e))| |φ e (bend 0 h (localCoeffs N Q U e))|
          * ((2 * Real.pi) ^ 2 / Nt * bend 2 h (localCoeffs N Q U e) + (2 * Real.pi) ^ 3 / (3 * Nt ^ 2) * bend 3 h (localCoeffs N Q U e)) := by
  have hN : 0 < Nt := by
    obtain ⟨k, hk⟩ := List.exists_mem_of_ne_nil h hA.ne
    have := hNt k hk
    omega
  have hN' : (Nt : ℝ) ≠ 0 := by positivity
  obtain ⟨o, h1, h2⟩ := C24_is_dft h hA Nt hNt heven N m Q T loc U w
  refine ⟨o, h1, ?_⟩
  rw [work_local hA N m Q T hT U _ hw _ h2, sum_comm, mul_sum]
  refine (abs_sum_le_sum_abs _ _).trans (sum_le_sum fun e _ => ?_)
  simp only [hl]
  rw [localMotion_coeffs]
  set c := localCoeffs N Q U e
  set G := max |φ e (-bend 0 h c)| |φ e (bend 0 h c)| with hGd
  have hG : ∀ j < Nt, |φ e (series h c (2 * Real.pi * j / Nt))| ≤ G := fun j _ => by
    obtain ⟨l, r⟩ := abs_le.1 (series_abs h c (2 * Real.pi * j / Nt))
    have a := hφ e l
    have b := hφ e r
    rw [abs_le]
    exact ⟨by have := neg_abs_le (φ e (-bend 0 h c)); have := le_max_left |φ e (-bend 0 h c)| |φ e (bend 0 h c)|; linarith,
      by have := le_abs_self (φ e (bend 0 h c)); have := le_max_right |φ e (-bend 0 h c)| |φ e (bend 0 h c)|; linarith⟩
  have hG0 : 0 ≤ G := (abs_nonneg _).trans (le_max_left _ _)
  have lower := cycle_power hN h c (fun j => φ e (series h c (2 * Real.pi * j / Nt))) hG
    (mono_cycle (hφ e) (hc e) Nt fun j => series h c (2 * Real.pi * j / Nt))
  have upper := sum_lower (n := Nt) (x := fun j => -(φ e (series h c (2 * Real.pi * j / Nt)) * (2 * Real.pi / Nt * deriv (series h c) (2 * Real.pi * j / Nt))))
    (y := fun j => -(φ e (series h c (2 * Real.pi * j / Nt)) * (series h c (2 * Real.pi * (((j + 1) % Nt : ℕ) : ℝ) / Nt) - series h c (2 * Real.pi * j / Nt))))
    (B := G * ((2 * Real.pi / Nt) ^ 2 * bend 2 h c + (2 * Real.pi / Nt) ^ 3 / 3 * bend 3 h c)) fun j hj => by
      have b1 := backward_error Nt hN j h c
      have b2 := centred_error Nt hN j h c
      rw [neg_sub_neg, ← mul_sub, abs_mul]
      refine mul_le_mul (hG j hj) ?_ (abs_nonneg _) hG0
      rw [abs_le] at b1 b2 ⊢
      constructor <;> linarith [b1.1, b1.2, b2.1, b2.2]
  have fwd := mono_forward (hφ e) (hc e) Nt hN fun j => series h c (2 * Real.pi * j / Nt)
  beta_reduce at fwd
  rw [sum_neg_distrib, sum_neg_distrib] at upper
  have e1 : ∑ j ∈ range Nt, φ e (series h c (2 * Real.pi * j / Nt)) * (2 * Real.pi / Nt * deriv (series h c) (2 * Real.pi * j / Nt))
      = 2 * Real.pi / Nt * ∑ j ∈ range Nt, φ e (series h c (2 * Real.pi * j / Nt)) * deriv (series h c) (2 * Real.pi * j / Nt) := by
    rw [mul_sum]
    exact sum_congr rfl fun j _ => by ring
  rw [e1] at upper
  have e2 : (Nt : ℝ) * (G * ((2 * Real.pi / Nt) ^ 2 * bend 2 h c + (2 * Real.pi / Nt) ^ 3 / 3 * bend 3 h c))
      = G * ((2 * Real.pi) ^ 2 / Nt * bend 2 h c + (2 * Real.pi) ^ 3 / (3 * Nt ^ 2) * bend 3 h c) := by
    field_simp
  rw [e2] at upper
  have b3 : 0 ≤ G * ((2 * Real.pi) ^ 3 / (3 * Nt ^ 2) * bend 3 h c) := mul_nonneg hG0 (mul_nonneg (by positivity) (bend_nonneg _ _ _))
  have e3 : G * bend 2 h c * (2 * Real.pi) ^ 2 / Nt = G * ((2 * Real.pi) ^ 2 / Nt * bend 2 h c) := by ring
  rw [e3] at lower
  rw [abs_le]
  constructor
  · linarith [lower, b3]
  · linarith [upper, fwd]

/-- C143 (gaps): the unilateral spring of C139 is such a spring. -/
theorem C143_unilateral (k Npre delta : ℕ → ℝ) (hk : ∀ d, 0 ≤ k d) (d : ℕ) :
    (∀ u v, (unilateralLoc k Npre delta d u v).f = max (k d * (u - delta d) - Npre d) (-Npre d)) ∧
      Monotone (fun u => max (k d * (u - delta d) - Npre d) (-Npre d)) ∧ Continuous fun u => max (k d * (u - delta d) - Npre d) (-Npre d) := by
  refine ⟨fun _ _ => rfl, fun a b hab => max_le_max ?_ le_rfl, by fun_prop⟩
  have := mul_le_mul_of_nonneg_left hab (hk d)
  linarith

theorem limit_of {C : ℝ} (hC : 0 ≤ C) {ε : ℝ} (hε : 0 < ε) : ∃ N0 : ℕ, 0 < N0 ∧ ∀ Nt, N0 ≤ Nt → C / (Nt : ℝ) ≤ ε := by
  obtain ⟨n, hn⟩ := exists_nat_gt (C / ε)
  refine ⟨n + 1, by omega, fun Nt hNt => ?_⟩
  have hN : (n : ℝ) + 1 ≤ Nt := by exact_mod_cast hNt
  rw [div_lt_iff₀ hε] at hn
  have hn0 : (0 : ℝ) ≤ n := n.cast_nonneg
  rw [div_le_iff₀ (by linarith)]
  nlinarith

/-- C143 (finer sampling): for a given motion and any `ε > 0`, from some number of samples on JAX Jenkins and 2D elastic dry friction put less than
`ε` into it per cycle. -/
theorem C143_limit {h : List ℕ} (hA : Admissible h) (hh : 1 < numCoeff h) (N n : ℕ) (Q T : ℕ → ℕ → ℝ) (hT : ∀ i e, T i e = Q e i)
    {kt Fs kn mu : ℝ} (hkt : 0 < kt) (hF : 0 ≤ Fs) (hkn : 0 ≤ kn) (hmu : 0 ≤ mu) (gap : ℝ) (u0 : EdfU0)
    (U : ℕ → ℝ) {w : ℝ} (hw : w ≠ 0) {ε : ℝ} (hε : 0 < ε) :
    ∃ N0, ∀ Nt, N0 ≤ Nt → Even Nt →
      (∃ F, (PForce.jaxJenkins N Q T kt Fs u0).aftF U w h Nt = .ok F ∧ -ε ≤ periodWork N w (velocityOf N h U w) (periodicOf N h F w)) ∧
      ∃ F, (PForce.edf2 N (2 * n) Q T kt kn mu gap u0).aftF U w h Nt = .ok F ∧
        -ε ≤ periodWork N w (velocityOf N h U w) (periodicOf N h F w) := by
  obtain ⟨H, hH⟩ := exists_bound h
  have b3 := bend_nonneg 3 h (localCoeffs N Q U 0)
  set S := ∑ e ∈ range n, normalBound kn gap h N Q U (2 * e + 1)
          * (mu * bend 2 h (localCoeffs N Q U (2 * e)) + bend 2 h (localCoeffs N Q U (2 * e + 1))) with hS
  have hS0 : 0 ≤ S := sum_nonneg fun e _ => mul_nonneg (mul_nonneg hkn (add_nonneg (bend_nonneg _ _ _) (abs_nonneg _)))
    (add_nonneg (mul_nonneg hmu (bend_nonneg _ _ _)) (bend_nonneg _ _ _))
  obtain ⟨N1, hN1, l1⟩ := limit_of (C := Fs * bend 3 h (localCoeffs N Q U 0) * (2 * Real.pi) ^ 3 / 6) (by positivity) hε
  obtain ⟨N2, -, l2⟩ := limit_of (C := (2 * Real.pi) ^ 2 * S) (by positivity) hε
  refine ⟨max (max N1 N2) (2 * H + 2), fun Nt hNt heven => ?_⟩
  have hb : ∀ k ∈ h, 2 * k + 1 < Nt := fun k hk => by
    have := hH k hk
    have := (le_max_right (max N1 N2) (2 * H + 2)).trans hNt
    omega
  have a1 := ((le_max_left N1 N2).trans (le_max_left _ _)).trans hNt
  have a2 := ((le_max_right N1 N2).trans (le_max_left _ _)).trans hNt
  have hN0 : (1 : ℝ) ≤ Nt := by exact_mod_cast hN1.trans_le a1
  constructor
  · obtain ⟨F, f1, f2⟩ := C143_jax_jenkins hA hh Nt hb heven N Q T hT hkt hF u0 U hw
    refine ⟨F, f1, le_trans (neg_le_neg (le_trans ?_ (l1 Nt a1))) f2⟩
    rw [div_div]
    exact div_le_div_of_nonneg_left (by positivity) (by positivity) (by nlinarith)
  · obtain ⟨F, f1, f2⟩ := C143_friction_2d hA hh Nt hb heven N n Q T hT hkt hkn hmu gap u0 U hw
    refine ⟨F, f1, le_trans (neg_le_neg (le_trans (le_of_eq ?_) (l2 Nt a2))) f2⟩
    ring

/-- Not vacuous: the bound for one slider of limit 1 with the motion `cos τ + cos 3τ`, where C136 shows that the work can be negative. -/
example (Nt : ℕ) (hNt : 7 < Nt) (heven : Even Nt) (u0 : EdfU0) :
    ∃ F, (PForce.jaxJenkins 1 eye eye 1 1 u0).aftF (fun i => if i = 0 ∨ i = 2 then 1 else 0) 1 [1, 3] Nt = .ok F ∧
      -(28 * (2 * Real.pi) ^ 3 / (6 * Nt ^ 2)) ≤ periodWork 1 1
        (velocityOf 1 [1, 3] (fun i => if i = 0 ∨ i = 2 then 1 else 0) 1) (periodicOf 1 [1, 3] F 1) := by
  have hA : Admissible [1, 3] := ⟨by simp, by simp, by simp⟩
  have := C143_jax_jenkins hA (by decide) Nt (by simp; omega) heven 1 eye eye (fun i e => by unfold eye; simp [eq_comm]) one_pos zero_le_one u0
    (fun i => if i = 0 ∨ i = 2 then (1:ℝ) else 0) one_ne_zero
  have e : bend 3 [1, 3] (localCoeffs 1 eye (fun i => if i = 0 ∨ i = 2 then (1:ℝ) else 0) 0) = 28 := by
    simp [bend, localCoeffs, eye]
    norm_num
  rw [e, one_mul] at this
  exact this

/-- C143 (EPMC): force objects that put at most `E` into the motion leave a damping coefficient of at least `-E / (π ω q²)`, where `q` is the modal
amplitude of the scaled motion. -/
theorem C143_epmc (S : VibSys) (hM : ∀ d < S.nd, ∀ e < S.nd, S.M d e = S.M e d) (hK : ∀ d < S.nd, ∀ e < S.nd, S.K d e = S.K e d)
    (hMp : ∀ v : ℕ → ℝ, 0 ≤ ∑ d ∈ range S.nd, v d * ∑ e ∈ range S.nd, S.M d e * v e)
    (hC : ∀ v : ℕ → ℝ, 0 ≤ ∑ d ∈ range S.nd, v d * ∑ e ∈ range S.nd, S.C d e * v e)
    (h : List ℕ) (hh : Admissible h) (h1 : ∃ hs, h = 1 :: hs ∨ h = 0 :: 1 :: hs) (Nt : ℕ) (tol : ℝ)
    (hok : ∀ f ∈ S.forces, ∀ U w, ∃ o, f.aft U w h Nt tol = .ok o)
    (X Fl R : ℕ → ℝ) (g : Option ((ℕ → ℕ → ℝ) × (ℕ → ℝ))) (hw : 0 < X (numCoeff h * S.nd))
    (hR : epmcRes S X Fl h Nt tol true = .ok ⟨R, g⟩) (h0 : ∀ i < numCoeff h * S.nd + 2, R i = 0) (E : NLForce → ℝ) (hE : ∀ f ∈ S.forces, 0 ≤ E f) :
    let L := numCoeff h * S.nd
    let U := sl 0 L (scaledForcing S.nd h X ((10:ℝ) ^ X (L + 2)))
    (∀ f ∈ S.forces, ∀ o, f.aft U (X L) h Nt tol = .ok o → -E f ≤ periodWork S.nd (X L) (velocityOf S.nd h U (X L)) (periodicOf S.nd h o.F (X L))) →
    -((S.forces.map E).sum / (Real.pi * X L * ((10:ℝ) ^ X (L + 2)) ^ 2)) ≤ X (L + 1) := by
  intro L U hf
  obtain ⟨n, hn⟩ := exists_bound h
  have hA : ∀ f ∈ S.forces, ∀ U w, f.aft U w h Nt tol = .ok (aftVal h Nt tol f U w) := by
    intro f hf U w
    obtain ⟨o, e⟩ := hok f hf U w
    simp only [aftVal, e]
  have key := C91_dissipation S hM hK h hh h1 n (fun k hk => (hn k hk).trans (by omega)) Nt tol _ hA X Fl R g hw.ne' hR h0
  simp only at key
  rw [work_list hh S.nd _ hw.ne'] at key
  have hm : 0 ≤ ∑ k ∈ range n, ((k + 2 : ℕ) : ℝ) ^ 2 * harmonicMass S.nd S.M h X (k + 2) :=
    sum_nonneg fun k _ => mul_nonneg (by positivity) (harmonicMass_nonneg _ _ hMp _ _ _)
  have hp : (0:ℝ) < (10:ℝ) ^ X (L + 2) := Real.rpow_pos_of_pos (by norm_num) _
  have hbase : 0 < Real.pi * X L * ((10:ℝ) ^ X (L + 2)) ^ 2 := mul_pos (mul_pos Real.pi_pos hw) (by positivity)
  have hc := matrix_work (h := h) S.nd U hw S.C hC
  have hs : -(S.forces.map E).sum ≤ (S.forces.map fun f =>
      periodWork S.nd (X L) (velocityOf S.nd h U (X L)) (periodicOf S.nd h (aftVal h Nt tol f U (X L)).F (X L))).sum := by
    have : (S.forces.map fun f => -E f).sum = -(S.forces.map E).sum := by
      induction S.forces with
      | nil => simp
      | cons a l ih => rw [List.map_cons, List.sum_cons, ih, List.map_cons, List.sum_cons, neg_add]
    rw [← this]
    exact List.sum_le_sum fun f hf' => hf f hf' _ (hA f hf' _ _)
  have hE0 : 0 ≤ (S.forces.map E).sum := List.sum_nonneg fun x hx => by
    obtain ⟨f, hf, rfl⟩ := List.mem_map.1 hx
    exact hE f hf
  rw [← neg_div, div_le_iff₀ hbase]
  rcases le_total 0 (X (L + 1)) with hx | hx
  · exact le_trans (neg_nonpos.2 hE0) (mul_nonneg hx hbase.le)
  · have : X (L + 1) * (Real.pi * X L * ((10:ℝ) ^ X (L + 2)) ^ 2 * (1 + ∑ k ∈ range n, ((k + 2 : ℕ) : ℝ) ^ 2 * harmonicMass S.nd S.M h X (k + 2)))
        ≤ X (L + 1) * (Real.pi * X L * ((10:ℝ) ^ X (L + 2)) ^ 2) :=
      mul_le_mul_of_nonpos_left (le_mul_of_one_le_right hbase.le (by linarith)) hx
    linarith [key]

end

end TMD
