import Verif.Lemmas.Shift
import Mathlib.Analysis.SpecialFunctions.Integrals.Basic
import Mathlib.MeasureTheory.Integral.IntervalIntegral.Periodic
import Mathlib.Algebra.MvPolynomial.Degrees

/-!
# Lemmas on trigonometric polynomials and their exact sampling

Used for property C114.
-/

namespace TMD

open Spec Finset

noncomputable section

/-- Trigonometric polynomials of degree at most `D`. -/
inductive Trig (D : ℕ) : (ℝ → ℝ) → Prop
  | cos (m : ℕ) (hm : m ≤ D) : Trig D (fun τ => Real.cos (m * τ))
  | sin (m : ℕ) (hm : m ≤ D) : Trig D (fun τ => Real.sin (m * τ))
  | add {f g : ℝ → ℝ} (hf : Trig D f) (hg : Trig D g) : Trig D (fun τ => f τ + g τ)
  | smul (c : ℝ) {f : ℝ → ℝ} (hf : Trig D f) : Trig D (fun τ => c * f τ)

theorem Trig.const (D : ℕ) (c : ℝ) : Trig D (fun _ => c) := by
  have := (Trig.cos 0 (Nat.zero_le D)).smul c
  simpa using this

theorem Trig.mono {D E : ℕ} (h : D ≤ E) {f : ℝ → ℝ} (hf : Trig D f) : Trig E f := by
  induction hf with
  | cos m hm => exact .cos m (hm.trans h)
  | sin m hm => exact .sin m (hm.trans h)
  | add _ _ h1 h2 => exact h1.add h2
  | smul c _ h1 => exact h1.smul c

theorem Trig.sum {D : ℕ} {α : Type} (s : Finset α) {f : α → ℝ → ℝ} (hf : ∀ i ∈ s, Trig D (f i)) :
    Trig D (fun τ => ∑ i ∈ s, f i τ) := by
  classical
  induction s using Finset.induction_on with
  | empty => simpa using Trig.const D 0
  | insert a s ha ih =>
    simp only [sum_insert ha]
    exact (hf a (mem_insert_self a s)).add (ih fun i hi => hf i (mem_insert_of_mem hi))

theorem Trig.mul_cos {D : ℕ} {f : ℝ → ℝ} (hf : Trig D f) (k : ℕ) : Trig (D + k) (fun τ => f τ * Real.cos (k * τ)) := by
  induction hf with
  | cos m hm =>
    have e : (fun τ : ℝ => Real.cos (m * τ) * Real.cos (k * τ))
        = fun τ => 1/2 * Real.cos ((m + k : ℕ) * τ) + 1/2 * Real.cos ((max m k - min m k : ℕ) * τ) := by
      funext τ
      rw [Nat.cast_sub (min_le_max), Nat.cast_add, add_mul, Real.cos_add]
      rcases le_total m k with h | h
      · rw [max_eq_right h, min_eq_left h, sub_mul, Real.cos_sub]; ring
      · rw [max_eq_left h, min_eq_right h, sub_mul, Real.cos_sub]; ring
    rw [e]
    exact ((Trig.cos _ (by omega)).smul _).add ((Trig.cos _ (by omega)).smul _)
  | sin m hm =>
    rcases le_total k m with h | h
    · have e : (fun τ : ℝ => Real.sin (m * τ) * Real.cos (k * τ))
        = fun τ => 1/2 * Real.sin ((m + k : ℕ) * τ) + 1/2 * Real.sin ((m - k : ℕ) * τ) := by
        funext τ
        rw [Nat.cast_sub h, Nat.cast_add, add_mul, Real.sin_add, sub_mul, Real.sin_sub]; ring
      rw [e]
      exact ((Trig.sin _ (by omega)).smul _).add ((Trig.sin _ (by omega)).smul _)
    · have e : (fun τ : ℝ => Real.sin (m * τ) * Real.cos (k * τ))
        = fun τ => 1/2 * Real.sin ((m + k : ℕ) * τ) + (-1/2) * Real.sin ((k - m : ℕ) * τ) := by
        funext τ
        rw [Nat.cast_sub h, Nat.cast_add, add_mul, Real.sin_add, sub_mul, Real.sin_sub]; ring
      rw [e]
      exact ((Trig.sin _ (by omega)).smul _).add ((Trig.sin _ (by omega)).smul _)
  | add _ _ h1 h2 => simp only [add_mul]; exact h1.add h2
  | smul c _ h1 => simp only [mul_assoc]; exact h1.smul c

theorem Trig.mul_sin {D : ℕ} {f : ℝ → ℝ} (hf : Trig D f) (k : ℕ) : Trig (D + k) (fun τ => f τ * Real.sin (k * τ)) := by
  induction hf with
  | cos m hm =>
    have := (Trig.sin (D := k) k le_rfl).mul_cos m
    simp only [mul_comm (Real.sin _)] at this
    exact this.mono (by omega)
  | sin m hm =>
    have e : (fun τ : ℝ => Real.sin (m * τ) * Real.sin (k * τ))
        = fun τ => (-1/2) * Real.cos ((m + k : ℕ) * τ) + 1/2 * Real.cos ((max m k - min m k : ℕ) * τ) := by
      funext τ
      rw [Nat.cast_sub (min_le_max), Nat.cast_add, add_mul, Real.cos_add]
      rcases le_total m k with h | h
      · rw [max_eq_right h, min_eq_left h, sub_mul, Real.cos_sub]; ring
      · rw [max_eq_left h, min_eq_right h, sub_mul, Real.cos_sub]; ring
    rw [e]
    exact ((Trig.cos _ (by omega)).smul _).add ((Trig.cos _ (by omega)).smul _)
  | add _ _ h1 h2 => simp only [add_mul]; exact h1.add h2
  | smul c _ h1 => simp only [mul_assoc]; exact h1.smul c

theorem Trig.mul {D E : ℕ} {f g : ℝ → ℝ} (hf : Trig D f) (hg : Trig E g) : Trig (D + E) (fun τ => f τ * g τ) := by
  induction hg with
  | cos m hm => exact (hf.mul_cos m).mono (by omega)
  | sin m hm => exact (hf.mul_sin m).mono (by omega)
  | add _ _ h1 h2 => simp only [mul_add]; exact h1.add h2
  | smul c _ h1 => simp only [mul_left_comm]; exact h1.smul c

theorem Trig.pow {D : ℕ} {f : ℝ → ℝ} (hf : Trig D f) (n : ℕ) : Trig (n * D) (fun τ => f τ ^ n) := by
  induction n with
  | zero => simpa using Trig.const 0 1
  | succ n ih =>
    simp only [pow_succ]
    exact (ih.mul hf).mono (by rw [Nat.add_mul]; omega)

theorem Trig.prod {D : ℕ} {α : Type} (s : Finset α) {f : α → ℝ → ℝ} (n : α → ℕ) (hf : ∀ i ∈ s, Trig D (f i)) :
    Trig ((∑ i ∈ s, n i) * D) (fun τ => ∏ i ∈ s, f i τ ^ n i) := by
  classical
  induction s using Finset.induction_on with
  | empty => simpa using Trig.const 0 1
  | insert a s ha ih =>
    simp only [prod_insert ha, sum_insert ha]
    exact (((hf a (mem_insert_self a s)).pow (n a)).mul (ih fun i hi => hf i (mem_insert_of_mem hi))).mono
      (by rw [Nat.add_mul])

theorem Trig.eval {σ : Type} [Fintype σ] {D p : ℕ} (P : MvPolynomial σ ℝ) (hP : P.totalDegree ≤ p) {x : σ → ℝ → ℝ}
    (hx : ∀ i, Trig D (x i)) : Trig (p * D) (fun τ => MvPolynomial.eval (fun i => x i τ) P) := by
  simp only [MvPolynomial.eval_eq']
  refine Trig.sum _ fun d hd => ?_
  refine Trig.smul _ ((Trig.prod Finset.univ (fun i => d i) fun i _ => hx i).mono ?_)
  refine Nat.mul_le_mul_right _ (le_trans ?_ hP)
  have := MvPolynomial.le_totalDegree hd
  rwa [Finsupp.sum_fintype _ _ (fun _ => rfl)] at this

theorem Trig.continuous {D : ℕ} {f : ℝ → ℝ} (hf : Trig D f) : Continuous f := by
  induction hf with
  | cos m hm => fun_prop
  | sin m hm => fun_prop
  | add _ _ h1 h2 => exact h1.add h2
  | smul c _ h1 => exact h1.const_mul c

theorem Trig.periodic {D : ℕ} {f : ℝ → ℝ} (hf : Trig D f) (x : ℝ) : f (x + 2 * Real.pi) = f x := by
  induction hf with
  | cos m hm => exact cos_period m x
  | sin m hm => exact sin_period m x
  | add _ _ h1 h2 => simp only [h1, h2]
  | smul c _ h1 => simp only [h1]

theorem Trig.hasDerivAt {D : ℕ} {f : ℝ → ℝ} (hf : Trig D f) : ∃ g, Trig D g ∧ ∀ x, HasDerivAt f (g x) x := by
  induction hf with
  | cos m hm =>
    refine ⟨_, (Trig.sin m hm).smul (-m), fun x => ?_⟩
    have := (Real.hasDerivAt_cos (m * x)).comp x (h := fun x => m * x) (by simpa using (hasDerivAt_id x).const_mul (m : ℝ))
    refine this.congr_deriv ?_
    ring
  | sin m hm =>
    refine ⟨_, (Trig.cos m hm).smul m, fun x => ?_⟩
    have := (Real.hasDerivAt_sin (m * x)).comp x (h := fun x => m * x) (by simpa using (hasDerivAt_id x).const_mul (m : ℝ))
    refine this.congr_deriv ?_
    ring
  | add _ _ h1 h2 =>
    obtain ⟨g1, t1, d1⟩ := h1
    obtain ⟨g2, t2, d2⟩ := h2
    exact ⟨_, t1.add t2, fun x => (d1 x).add (d2 x)⟩
  | smul c _ h1 =>
    obtain ⟨g1, t1, d1⟩ := h1
    exact ⟨_, t1.smul c, fun x => (d1 x).const_mul c⟩

theorem Trig.deriv {D : ℕ} {f : ℝ → ℝ} (hf : Trig D f) : Trig D (deriv f) := by
  obtain ⟨g, hg, hd⟩ := hf.hasDerivAt
  rwa [show _root_.deriv f = g from funext fun x => (hd x).deriv]

theorem Trig.series {h : List ℕ} {H : ℕ} (hH : ∀ k ∈ h, k ≤ H) (c : ℕ → ℝ) : Trig H (series h c) := by
  induction h generalizing c with
  | nil => exact Trig.const H 0
  | cons k hs ih =>
    have i1 := fun c => ih (fun k hk => hH k (List.mem_cons_of_mem _ hk)) c
    by_cases hk : k = 0
    · have e : Spec.series (k :: hs) c = fun τ => c 0 + Spec.series hs (fun i => c (i + 1)) τ := by
        funext τ; simp [Spec.series, hk]
      rw [e]
      exact (Trig.const H _).add (i1 _)
    · have e : Spec.series (k :: hs) c = fun τ => (c 0 * Real.cos (k * τ) + c 1 * Real.sin (k * τ))
          + Spec.series hs (fun i => c (i + 2)) τ := by
        funext τ; simp [Spec.series, hk]
      rw [e]
      have hk' := hH k List.mem_cons_self
      exact (((Trig.cos k hk').smul _).add ((Trig.sin k hk').smul _)).add (i1 _)

theorem Trig.localMotion {h : List ℕ} {H : ℕ} (hH : ∀ k ∈ h, k ≤ H) (N : ℕ) (Q : ℕ → ℕ → ℝ) (U : ℕ → ℝ) (d : ℕ) :
    Trig H (localMotion N Q h U d) := by
  unfold TMD.localMotion
  exact Trig.sum _ fun e _ => (Trig.series hH _).smul _

/-- The mean of the samples is the mean over the period, for trigonometric polynomials of degree below the number
of samples. -/
theorem Trig.quadrature {D N : ℕ} (hD : D < N) {f : ℝ → ℝ} (hf : Trig D f) :
    (∑ j ∈ range N, f (angle N j)) / N = (∫ τ in (0:ℝ)..(2 * Real.pi), f τ) / (2 * Real.pi) := by
  have hN : 0 < N := by omega
  have hN' : (N : ℝ) ≠ 0 := by positivity
  have hpi : (2 * Real.pi : ℝ) ≠ 0 := by positivity
  induction hf with
  | cos m hm =>
    have h1 := cos_sum hN (m : ℤ)
    simp only [Int.cast_natCast] at h1
    rw [h1]
    rcases Nat.eq_zero_or_pos m with rfl | h0
    · simp [hN', hpi]
    · have hnd : ¬ ((N : ℤ) ∣ (m : ℤ)) := by
        rw [Int.natCast_dvd_natCast]
        intro hc
        have := Nat.le_of_dvd h0 hc
        omega
      have hm0 : (m : ℝ) ≠ 0 := by positivity
      rw [if_neg hnd, intervalIntegral.integral_comp_mul_left (fun x => Real.cos x) hm0]
      have := Real.sin_nat_mul_pi (2 * m)
      push_cast at this
      simp [show (m : ℝ) * (2 * Real.pi) = 2 * m * Real.pi by ring, this]
  | sin m hm =>
    have h1 := sin_sum hN (m : ℤ)
    simp only [Int.cast_natCast] at h1
    rw [h1]
    rcases Nat.eq_zero_or_pos m with rfl | h0
    · simp
    · have hm0 : (m : ℝ) ≠ 0 := by positivity
      rw [intervalIntegral.integral_comp_mul_left (fun x => Real.sin x) hm0]
      have := Real.cos_nat_mul_two_pi m
      simp [this]
  | add h1 h2 e1 e2 =>
    rw [sum_add_distrib, add_div, e1, e2, ← add_div, intervalIntegral.integral_add
      (h1.continuous.intervalIntegrable _ _) (h2.continuous.intervalIntegrable _ _)]
  | smul c h1 e1 =>
    rw [← mul_sum, mul_div_assoc, e1, intervalIntegral.integral_const_mul, mul_div_assoc]

/-- The Fourier coefficients of a function of the phase, by integration over the period. -/
def fourierCoef (f : ℝ → ℝ) (k : ℕ) : ℝ × ℝ :=
  if k = 0 then ((∫ τ in (0:ℝ)..(2 * Real.pi), f τ) / (2 * Real.pi), 0)
  else ((∫ τ in (0:ℝ)..(2 * Real.pi), f τ * Real.cos (k * τ)) / Real.pi,
        (∫ τ in (0:ℝ)..(2 * Real.pi), f τ * Real.sin (k * τ)) / Real.pi)

theorem Trig.dft_eq {D N k : ℕ} (hD : D + k < N) {f : ℝ → ℝ} (hf : Trig D f) :
    dft N (fun j => f (angle N j)) k = fourierCoef f k := by
  unfold dft fourierCoef
  by_cases hk : k = 0
  · rw [if_pos hk, if_pos hk, hf.quadrature (by omega)]
  · rw [if_neg hk, if_neg hk]
    have h1 := (hf.mul_cos k).quadrature hD
    have h2 := (hf.mul_sin k).quadrature hD
    have hpi : (Real.pi : ℝ) ≠ 0 := by positivity
    have hN : (N : ℝ) ≠ 0 := by
      have : 0 < N := by omega
      positivity
    refine Prod.ext ?_ ?_
    · simp only
      rw [show ∀ x : ℝ, 2 / (N:ℝ) * x = 2 * (x / N) from fun x => by ring]
      refine (congrArg (2 * ·) h1).trans ?_
      field_simp
    · simp only
      rw [show ∀ x : ℝ, 2 / (N:ℝ) * x = 2 * (x / N) from fun x => by ring]
      refine (congrArg (2 * ·) h2).trans ?_
      field_simp

theorem Trig.shift {D : ℕ} {f : ℝ → ℝ} (hf : Trig D f) (φ : ℝ) : Trig D (fun τ => f (τ - φ)) := by
  induction hf with
  | cos m hm =>
    simp only [mul_sub, Real.cos_sub]
    simp only [mul_comm _ (Real.cos (m * φ)), mul_comm _ (Real.sin (m * φ))]
    exact ((Trig.cos m hm).smul _).add ((Trig.sin m hm).smul _)
  | sin m hm =>
    simp only [mul_sub, Real.sin_sub]
    have := ((Trig.sin m hm).smul (Real.cos (m * φ))).add ((Trig.cos m hm).smul (- Real.sin (m * φ)))
    refine (congrArg (Trig D) (funext fun τ => ?_)).mp this
    ring
  | add _ _ h1 h2 => exact h1.add h2
  | smul c _ h1 => exact h1.smul c

theorem Trig.fourierCoef_shift {D : ℕ} {f : ℝ → ℝ} (hf : Trig D f) (φ : ℝ) (k : ℕ) :
    fourierCoef (fun τ => f (τ - φ)) k = rotPair k φ (fourierCoef f k) := by
  have shift : ∀ {E : ℕ} {q : ℝ → ℝ}, Trig E q →
      ∫ τ in (0:ℝ)..(2 * Real.pi), q (τ - φ) = ∫ τ in (0:ℝ)..(2 * Real.pi), q τ := by
    intro E q hq
    rw [intervalIntegral.integral_comp_sub_right (fun x => q x) φ]
    have := Function.Periodic.intervalIntegral_add_eq (f := q) (T := 2 * Real.pi) (fun x => hq.periodic x) (0 - φ) 0
    rw [zero_add] at this
    rw [← this]
    congr 1; ring
  unfold fourierCoef rotPair
  by_cases hk : k = 0
  · subst hk
    simp only [if_true, Nat.cast_zero, zero_mul, Real.cos_zero, Real.sin_zero, mul_one, mul_zero, sub_zero, add_zero]
    rw [shift hf]
  · simp only [hk, if_false]
    have hc := (hf.mul_cos k)
    have hs := (hf.mul_sin k)
    have c1 := hc.continuous.intervalIntegrable (μ := MeasureTheory.volume) 0 (2 * Real.pi)
    have s1 := hs.continuous.intervalIntegrable (μ := MeasureTheory.volume) 0 (2 * Real.pi)
    refine Prod.ext ?_ ?_
    · simp only
      have e := shift (((hc.smul (Real.cos (k * φ))).add (hs.smul (- Real.sin (k * φ)))))
      rw [intervalIntegral.integral_add (c1.const_mul _) (s1.const_mul _), intervalIntegral.integral_const_mul,
        intervalIntegral.integral_const_mul] at e
      have e2 : ∀ τ, Real.cos (k * φ) * (f (τ - φ) * Real.cos (k * (τ - φ))) + - Real.sin (k * φ) * (f (τ - φ) * Real.sin (k * (τ - φ)))
          = f (τ - φ) * Real.cos (k * τ) := fun τ => by
        have := Real.cos_add (k * φ) (k * (τ - φ))
        rw [show (k:ℝ) * φ + k * (τ - φ) = k * τ by ring] at this
        rw [this]; ring
      simp only [e2] at e
      rw [e]; ring
    · simp only
      have e := shift (((hc.smul (Real.sin (k * φ))).add (hs.smul (Real.cos (k * φ)))))
      rw [intervalIntegral.integral_add (c1.const_mul _) (s1.const_mul _), intervalIntegral.integral_const_mul,
        intervalIntegral.integral_const_mul] at e
      have e2 : ∀ τ, Real.sin (k * φ) * (f (τ - φ) * Real.cos (k * (τ - φ))) + Real.cos (k * φ) * (f (τ - φ) * Real.sin (k * (τ - φ)))
          = f (τ - φ) * Real.sin (k * τ) := fun τ => by
        have := Real.sin_add (k * φ) (k * (τ - φ))
        rw [show (k:ℝ) * φ + k * (τ - φ) = k * τ by ring] at this
        rw [this]; ring
      simp only [e2] at e
      rw [e]; ring

end

end TMD
