import Verif.Props.FrictionEnergy
import Verif.Props.LocalForces
import Verif.Props.Energy

/-!
# C136: friction damps in harmonic balance

Work over one period of the harmonic forces that `aft` of a friction element returns along the motion it was given.  It
is not negative for Jenkins and Iwan elements moved with one harmonic: the velocity at a sample is then a multiple of
the difference of the two neighbouring displacements, and the sum over the samples is the work of the loop by the
trapezoidal rule.  It can be negative with several harmonics, and for the elastic dry friction element with any number
of samples even with one harmonic, when the contact closes in a single sample.
-/

namespace TMD

open Spec Finset

noncomputable section

theorem cycle_shift (N : ℕ) (q : ℕ → ℝ) : ∑ t ∈ range N, q ((t + N - 1) % N) = ∑ t ∈ range N, q t := by
  have h := cycle_cancel N q
  rw [sum_sub_distrib] at h
  linarith

/-- Twice the trapezoidal work is the sum of force times the difference of the neighbouring displacements. -/
theorem trapz_centred (N : ℕ) (u f : ℕ → ℝ) :
    ∑ t ∈ range N, f t * (u ((t + 1) % N) - u ((t + N - 1) % N)) = 2 * cycleTrapz N u f := by
  have h := cycle_shift N (fun t => f t * (u ((t + 1) % N) - u t))
  have e : ∀ t ∈ range N, f ((t + N - 1) % N) * (u (((t + N - 1) % N + 1) % N) - u ((t + N - 1) % N))
      = f ((t + N - 1) % N) * (u t - u ((t + N - 1) % N)) := by
    intro t ht
    have ht := mem_range.1 ht
    have : ((t + N - 1) % N + 1) % N = t := by
      rw [Nat.mod_add_mod, show t + N - 1 + 1 = t + N by omega, Nat.add_mod_right, Nat.mod_eq_of_lt ht]
    rw [this]
  beta_reduce at h
  rw [sum_congr rfl e] at h
  unfold cycleTrapz
  rw [mul_sum]
  have e2 : ∀ t ∈ range N, f t * (u ((t + 1) % N) - u ((t + N - 1) % N))
      = f t * (u ((t + 1) % N) - u t) + f t * (u t - u ((t + N - 1) % N)) := fun t _ => by ring
  have e3 : ∀ t ∈ range N, 2 * ((f t + f ((t + N - 1) % N)) / 2 * (u t - u ((t + N - 1) % N)))
      = f ((t + N - 1) % N) * (u t - u ((t + N - 1) % N)) + f t * (u t - u ((t + N - 1) % N)) := fun t _ => by ring
  rw [sum_congr rfl e2, sum_congr rfl e3, sum_add_distrib, sum_add_distrib, h]

/-- A steady slider with a constant limit takes energy by the trapezoidal rule too. -/
theorem steady_trapz {N : ℕ} {kt L : ℝ} {u f : ℕ → ℝ} (hk : 0 < kt) (hL : 0 ≤ L)
    (h : SteadyState N kt (fun _ => L) u f) : 0 ≤ cycleTrapz N u f := by
  have key : ∀ t ∈ range N, (f t ^ 2 - f ((t + N - 1) % N) ^ 2) / (2 * kt)
      ≤ (f t + f ((t + N - 1) % N)) / 2 * (u t - u ((t + N - 1) % N)) := by
    intro t ht
    have ht := mem_range.1 ht
    have e := h t ht
    have hb : |f ((t + N - 1) % N)| ≤ L := by
      rw [h _ (Nat.mod_lt _ (by omega))]
      exact clip_abs hL _
    have c := clip_trapz_nonneg (p := kt * (u t - u ((t + N - 1) % N)) + f ((t + N - 1) % N)) hL hb
    beta_reduce at e
    rw [← e] at c
    rw [div_le_iff₀ (by positivity)]
    nlinarith
  have s := sum_le_sum key
  unfold cycleTrapz
  refine le_trans (le_of_eq ?_) s
  rw [← sum_div, cycle_cancel N (fun t => f t ^ 2), zero_div]

/-- Displacement with harmonic `k`. -/
def tone (k : ℕ) (c a b τ : ℝ) : ℝ := c + a * Real.cos (k * τ) + b * Real.sin (k * τ)

theorem tone_deriv (k : ℕ) (c a b τ : ℝ) :
    HasDerivAt (tone k c a b) (k * (b * Real.cos (k * τ) - a * Real.sin (k * τ))) τ := by
  have h1 : HasDerivAt (fun τ : ℝ => (k : ℝ) * τ) k τ := by simpa using (hasDerivAt_id τ).const_mul (k : ℝ)
  have h2 := (h1.cos.const_mul a).add (h1.sin.const_mul b)
  have h3 := h2.const_add c
  have e : tone k c a b = fun τ => c + ((fun y => a * Real.cos (k * y)) + fun y => b * Real.sin (k * y)) τ := by
    funext τ; simp only [tone, Pi.add_apply]; ring
  rw [e]
  exact h3.congr_deriv (by ring)

theorem tone_periodic (k : ℕ) (c a b : ℝ) (N : ℕ) (hN : 0 < N) (i : ℕ) :
    tone k c a b (2 * Real.pi * ((i % N : ℕ) : ℝ) / N) = tone k c a b (2 * Real.pi * i / N) := by
  have hN' : (N : ℝ) ≠ 0 := by positivity
  have e : (k : ℝ) * (2 * Real.pi * i / N)
      = k * (2 * Real.pi * ((i % N : ℕ) : ℝ) / N) + ((k * (i / N) : ℕ) : ℝ) * (2 * Real.pi) := by
    have h : (i : ℝ) = ((i % N : ℕ) : ℝ) + (N : ℝ) * ((i / N : ℕ) : ℝ) := by exact_mod_cast (Nat.mod_add_div i N).symm
    rw [h]
    push_cast
    field_simp
  unfold tone
  rw [e, Real.cos_add_nat_mul_two_pi, Real.sin_add_nat_mul_two_pi]

/-- The velocity of one harmonic is a multiple of the centred difference. -/
theorem tone_centred (k : ℕ) (c a b : ℝ) (N : ℕ) (hN : 0 < N) (j : ℕ) :
    2 * Real.sin (k * (2 * Real.pi / N)) * (b * Real.cos (k * (2 * Real.pi * j / N)) - a * Real.sin (k * (2 * Real.pi * j / N)))
      = tone k c a b (2 * Real.pi * (((j + 1) % N : ℕ) : ℝ) / N) - tone k c a b (2 * Real.pi * (((j + N - 1) % N : ℕ) : ℝ) / N) := by
  have hN' : (N : ℝ) ≠ 0 := by positivity
  have e0 : tone k c a b (2 * Real.pi * ((j : ℝ) - 1) / N) = tone k c a b (2 * Real.pi * ((j + N - 1 : ℕ) : ℝ) / N) := by
    have e : (k : ℝ) * (2 * Real.pi * ((j + N - 1 : ℕ) : ℝ) / N)
        = k * (2 * Real.pi * ((j : ℝ) - 1) / N) + (k : ℕ) * (2 * Real.pi) := by
      rw [Nat.cast_sub (by omega)]
      push_cast
      field_simp
      ring
    unfold tone
    rw [e, Real.cos_add_nat_mul_two_pi, Real.sin_add_nat_mul_two_pi]
  rw [tone_periodic k c a b N hN (j + 1), tone_periodic k c a b N hN (j + N - 1), ← e0]
  unfold tone
  have e1 : (k : ℝ) * (2 * Real.pi * ((j + 1 : ℕ) : ℝ) / N) = k * (2 * Real.pi * j / N) + k * (2 * Real.pi / N) := by
    push_cast; field_simp
  have e2 : (k : ℝ) * (2 * Real.pi * ((j : ℝ) - 1) / N) = k * (2 * Real.pi * j / N) - k * (2 * Real.pi / N) := by
    field_simp
  rw [e1, e2, Real.cos_add, Real.sin_add, Real.cos_sub, Real.sin_sub]
  ring

/-- Forces of steady sliders of constant limits, summed against the velocity of one harmonic. -/
theorem tone_work {k N : ℕ} (hk : 0 < k) (hN : 2 * k < N) (c a b : ℝ) {kt L : ℝ} (hkt : 0 < kt) (hL : 0 ≤ L) {f : ℕ → ℝ}
    (h : SteadyState N kt (fun _ => L) (fun j => tone k c a b (2 * Real.pi * j / N)) f) :
    0 ≤ ∑ j ∈ range N, f j * deriv (tone k c a b) (2 * Real.pi * j / N) := by
  have hN0 : 0 < N := by omega
  have hNr : (0 : ℝ) < N := by positivity
  have hs : 0 < Real.sin (k * (2 * Real.pi / N)) := by
    apply Real.sin_pos_of_pos_of_lt_pi
    · positivity
    · rw [show (k : ℝ) * (2 * Real.pi / N) = 2 * k / N * Real.pi by ring]
      have : (2 * k : ℝ) / N < 1 := by
        rw [div_lt_one hNr]
        exact_mod_cast hN
      have := mul_lt_mul_of_pos_right this Real.pi_pos
      linarith
  have t := steady_trapz hkt hL h
  have c2 := trapz_centred N (fun j => tone k c a b (2 * Real.pi * j / N)) f
  have e : ∀ j ∈ range N, f j * deriv (tone k c a b) (2 * Real.pi * j / N)
      = k / (2 * Real.sin (k * (2 * Real.pi / N))) * (f j * (tone k c a b (2 * Real.pi * (((j + 1) % N : ℕ) : ℝ) / N)
        - tone k c a b (2 * Real.pi * (((j + N - 1) % N : ℕ) : ℝ) / N))) := by
    intro j _
    rw [← tone_centred k c a b N hN0 j, (tone_deriv k c a b _).deriv]
    generalize Real.sin (k * (2 * Real.pi / N)) = S at hs
    generalize b * Real.cos (k * (2 * Real.pi * j / N)) - a * Real.sin (k * (2 * Real.pi * j / N)) = V
    field_simp
  rw [sum_congr rfl e, ← mul_sum, c2]
  positivity

/-- A list with one oscillating harmonic `k`. -/
def OneHarmonic (h : List ℕ) (k : ℕ) : Prop := 0 < k ∧ (h = [k] ∨ h = [0, k])

theorem series_tone {h : List ℕ} {k : ℕ} (h1 : OneHarmonic h k) (v : ℕ → ℝ) : ∃ c a b, series h v = tone k c a b := by
  obtain ⟨hk, rfl | rfl⟩ := h1
  · refine ⟨0, v 0, v 1, ?_⟩
    funext τ
    simp only [series, if_neg hk.ne', tone]
    ring
  · refine ⟨v 0, v 1, v 2, ?_⟩
    funext τ
    simp only [series, if_neg hk.ne', if_true, tone]
    ring

/-- Work of a force given by its samples on the local displacements: sum over the samples of local force and local
velocity. -/
theorem work_local {h : List ℕ} (hA : Admissible h) {Nt : ℕ} (N m : ℕ) (Q T : ℕ → ℕ → ℝ) (hT : ∀ i e, T i e = Q e i)
    (U F : ℕ → ℝ) {w : ℝ} (hw : w ≠ 0) (f : ℕ → ℕ → ℝ) (hF : IsForceDFT N m T h Nt f F) :
    periodWork N w (velocityOf N h U w) (periodicOf N h F w)
      = 2 * Real.pi / Nt * ∑ j ∈ range Nt, ∑ e ∈ range m, f j e * deriv (localMotion N Q h U e) (2 * Real.pi * j / Nt) := by
  rw [C91_sampled h hA N Nt U F hw (fun j d => ∑ e ∈ range m, T d e * f j e) hF, mul_sum, mul_sum]
  refine sum_congr rfl fun j _ => ?_
  have hv : ∀ d, velocityOf N h U w d (2 * Real.pi / w * (j / Nt))
      = w * deriv (series h (fun r => U (r * N + d))) (2 * Real.pi * j / Nt) := by
    intro d
    have h1 : HasDerivAt (fun t : ℝ => w * t) w (2 * Real.pi / w * (j / Nt)) := by
      simpa using (hasDerivAt_id (2 * Real.pi / w * ((j : ℝ) / Nt))).const_mul w
    have h2 := ((differentiable_series h (fun r => U (r * N + d))) (w * (2 * Real.pi / w * (j / Nt)))).hasDerivAt
    have h3 := (h2.comp _ h1).deriv
    have e : w * (2 * Real.pi / w * (j / Nt)) = 2 * Real.pi * j / Nt := by field_simp
    rw [e] at h3
    unfold velocityOf
    rw [mul_comm w]
    exact h3
  have hl : ∀ e, deriv (localMotion N Q h U e) (2 * Real.pi * j / Nt)
      = ∑ d ∈ range N, Q e d * deriv (series h (fun r => U (r * N + d))) (2 * Real.pi * j / Nt) := by
    intro e
    refine HasDerivAt.deriv ?_
    have : localMotion N Q h U e = fun τ => ∑ d ∈ range N, Q e d * series h (fun r => U (r * N + d)) τ := rfl
    rw [this]
    exact HasDerivAt.fun_sum fun d _ =>
      ((differentiable_series h (fun r => U (r * N + d))) _).hasDerivAt.const_mul _
  simp only [hv, hl, hT, mul_sum]
  rw [sum_comm]
  refine sum_congr rfl fun e _ => sum_congr rfl fun d _ => ?_
  field_simp

/-- Samples that are a superposition of steady sliders of constant limits take energy from a motion with one harmonic. -/
theorem sliders_work {h : List ℕ} (hA : Admissible h) {k : ℕ} (h1 : OneHarmonic h k) {Nt : ℕ} (hNt : 2 * k < Nt) (N : ℕ)
    (Q T : ℕ → ℕ → ℝ) (hT : ∀ i e, T i e = Q e i) (U F : ℕ → ℝ) {w : ℝ} (hw : w ≠ 0) (f : ℕ → ℕ → ℝ)
    (hF : IsForceDFT N 1 T h Nt f F) (n : ℕ) (wt kt L : ℕ → ℝ) (g : ℕ → ℕ → ℝ) (hwt : ∀ i < n, 0 ≤ wt i)
    (hkt : ∀ i < n, 0 < kt i) (hL : ∀ i < n, 0 ≤ L i) (hf : ∀ j < Nt, f j 0 = ∑ i ∈ range n, wt i * g i j)
    (hg : ∀ i < n, SteadyState Nt (kt i) (fun _ => L i) (fun j => localMotion N Q h U 0 (2 * Real.pi * j / Nt)) (g i)) :
    0 ≤ periodWork N w (velocityOf N h U w) (periodicOf N h F w) := by
  rw [work_local hA N 1 Q T hT U F hw f hF]
  refine mul_nonneg (by positivity) ?_
  obtain ⟨c, a, b, e⟩ := series_tone h1 (fun r => unlOf N Q U r 0)
  rw [localMotion_eq] at e
  simp only [e] at hg ⊢
  have e2 : ∀ j ∈ range Nt, ∑ d ∈ range 1, f j d * deriv (localMotion N Q h U d) (2 * Real.pi * j / Nt)
      = ∑ i ∈ range n, wt i * (g i j * deriv (tone k c a b) (2 * Real.pi * j / Nt)) := by
    intro j hj
    rw [sum_range_one, hf j (mem_range.1 hj), e, sum_mul]
    exact sum_congr rfl fun i _ => by ring
  rw [sum_congr rfl e2, sum_comm]
  refine sum_nonneg fun i hi => ?_
  have hi := mem_range.1 hi
  rw [← mul_sum]
  exact mul_nonneg (hwt i hi) (tone_work h1.1 hNt c a b (hkt i hi) (hL i hi) (hg i hi))

theorem oneHarmonic_admissible {h : List ℕ} {k : ℕ} (h1 : OneHarmonic h k) : Admissible h ∧ 1 < numCoeff h := by
  obtain ⟨hk, rfl | rfl⟩ := h1
  · refine ⟨⟨by simp, by simp, ?_⟩, by simp [numCoeff, hk.ne']⟩
    simp
  · refine ⟨⟨by simp, by simp [hk.ne], ?_⟩, by simp [numCoeff, hk.ne']⟩
    simpa using hk.ne

theorem oneHarmonic_lt {h : List ℕ} {k : ℕ} (h1 : OneHarmonic h k) {Nt : ℕ} (hNt : 2 * k + 1 < Nt) : ∀ j ∈ h, 2 * j + 1 < Nt := by
  obtain ⟨hk, rfl | rfl⟩ := h1
  · simpa using hNt
  · simp only [List.mem_cons, List.not_mem_nil, or_false]
    rintro j (rfl | rfl)
    · omega
    · exact hNt

/-- C136 (JAX Jenkins): a motion with one harmonic and any mean loses energy in the element. -/
theorem C136_jax_jenkins_partial {h : List ℕ} {k : ℕ} (h1 : OneHarmonic h k) (Nt : ℕ) (hNt : 2 * k + 1 < Nt) (heven : Even Nt)
    (N : ℕ) (Q T : ℕ → ℕ → ℝ) (hT : ∀ i e, T i e = Q e i) {kt Fs : ℝ} (hk : 0 < kt) (hF : 0 ≤ Fs) (u0 : EdfU0) (U : ℕ → ℝ)
    {w : ℝ} (hw : w ≠ 0) :
    ∃ F, (PForce.jaxJenkins N Q T kt Fs u0).aftF U w h Nt = .ok F ∧
      0 ≤ periodWork N w (velocityOf N h U w) (periodicOf N h F w) := by
  obtain ⟨hA, hh⟩ := oneHarmonic_admissible h1
  have hall := oneHarmonic_lt h1 hNt
  obtain ⟨W, ww⟩ := gfc_linear hA (fun k hk => by have := hall k hk; omega : ∀ k ∈ h, k < Nt)
  set hist : TS ℕ → (ℕ → ℝ) → ℕ → ℕ → ℝ :=
    fun u z j _ => jaxJenkinsHistory u.rows (fun j => u.val j 0) kt Fs (jaxStart u0 z) j with hhist
  set f := hist (sampledDisp N Q h U Nt) (unlOf N Q U 0) with hf
  obtain ⟨x, x1, -, x2⟩ := ww f
  refine ⟨_, jaxAft_F hA hall heven hh N 1 Q T hist U x1, ?_⟩
  refine sliders_work hA h1 (by omega) N Q T hT U _ hw f (isForceDFT_of N 1 T h Nt f x x2) 1 (fun _ => 1) (fun _ => kt)
    (fun _ => Fs) (fun _ j => f j 0) (fun _ _ => zero_le_one) (fun _ _ => hk) (fun _ _ => hF) (fun j _ => by simp) ?_
  intro i _
  exact C35_jax_steady kt Fs hF Nt (by omega) (fun j => localMotion N Q h U 0 (2 * Real.pi * j / Nt)) _

/-- C136 (NumPy elements run by the loop of `HystereticForce`): if a class keeps its steady state as a superposition of
sliders and the loop runs its two cycles, the element takes energy. -/
theorem serial_work {σ : Type} (ops : HystOps σ ℕ) (n : ℕ) (wt kt L : ℕ → ℝ) (hwt : ∀ i < n, 0 ≤ wt i)
    (hkt : ∀ i < n, 0 < kt i) (hL : ∀ i < n, 0 ≤ L i)
    (hops : ∀ (N : ℕ) (u : ℕ → ℝ) (c : ℕ → ℕ → ℝ) (z atol rtol eps : ℝ) (ft : List (ℝ × (ℕ → ℝ))) (its : ℕ),
      localForceHistory ops ((List.range N).map fun i => (u i, c i)) z 2 atol rtol eps = .ok (ft, its) → 2 ≤ its →
      ∃ g : ℕ → ℕ → ℝ, (∀ j < N, (ft.getD j (0, fun _ => 0)).1 = ∑ i ∈ range n, wt i * g i j) ∧
        ∀ i < n, SteadyState N (kt i) (fun _ => L i) u (g i))
    {h : List ℕ} {k : ℕ} (h1 : OneHarmonic h k) (Nt : ℕ) (hNt : 2 * k + 1 < Nt) (heven : Even Nt)
    (N : ℕ) (Q T : ℕ → ℕ → ℝ) (hT : ∀ i e, T i e = Q e i) (eps : ℝ) (U : ℕ → ℝ) {w : ℝ} (hw : w ≠ 0) :
    ∃ (cst : TS ℕ) (ft : List (ℝ × (ℕ → ℝ))) (its : ℕ) (F : ℕ → ℝ), timeSeriesDeriv Nt h eye 0 = .ok cst ∧
      localForceHistory ops ((List.range Nt).map fun j : ℕ => (localMotion N Q h U 0 (2 * Real.pi * j / Nt), cst.val j))
        (∑ e ∈ range N, Q 0 e * U e) 2 (1 / 10 ^ 10) (1 / 10 ^ 10) eps = .ok (ft, its) ∧
      (PForce.hyst N 1 Q T (serialLfh ops eps)).aftF U w h Nt = .ok F ∧
      (2 ≤ its → 0 ≤ periodWork N w (velocityOf N h U w) (periodicOf N h F w)) := by
  obtain ⟨hA, hh⟩ := oneHarmonic_admissible h1
  have hall := oneHarmonic_lt h1 hNt
  obtain ⟨cst, c1, H⟩ := C24_hysteretic_is_dft h hA Nt hall heven N 1 Q T (serialLfh ops eps (1 / 10 ^ 10)) U w
  have hr : ((List.range Nt).map fun j : ℕ => (localMotion N Q h U 0 (2 * Real.pi * j / Nt), cst.val j)) ≠ [] := by
    simp; omega
  obtain ⟨ft, its, e, -⟩ := C32_cycle_count ops _ hr (∑ e ∈ range N, Q 0 e * U e) 2 (1 / 10 ^ 10) (1 / 10 ^ 10) eps
  have el : serialLfh ops eps (1 / 10 ^ 10) ⟨Nt, fun j d => localMotion N Q h U d (2 * Real.pi * j / Nt)⟩
      (fun j d => w * deriv (localMotion N Q h U d) (2 * Real.pi * j / Nt)) cst (fun d => ∑ e ∈ range N, Q d e * U e)
      = .ok (fun j _ => (ft.getD j (0, fun _ => 0)).1, fun j _ _ k => (ft.getD j (0, fun _ => 0)).2 k) := by
    unfold serialLfh
    simp only [e]
  rw [el] at H
  obtain ⟨out, o1, o2⟩ := H
  refine ⟨cst, ft, its, out.F, c1, e, ?_, fun h2 => ?_⟩
  · show aftForce (hystAft N 1 Q T (serialLfh ops eps (1 / 10 ^ 10)) U w h Nt) = _
    rw [o1]
    rfl
  · obtain ⟨g, g1, g2⟩ := hops Nt (fun j => localMotion N Q h U 0 (2 * Real.pi * j / Nt)) cst.val _ _ _ _ ft its e h2
    exact sliders_work hA h1 (by omega) N Q T hT U _ hw _ o2 n wt kt L g hwt hkt hL g1 g2

/-- C136 (NumPy Jenkins): if the loop runs a second cycle (C31), the element takes energy. -/
theorem C136_jenkins_partial {h : List ℕ} {k : ℕ} (h1 : OneHarmonic h k) (Nt : ℕ) (hNt : 2 * k + 1 < Nt) (heven : Even Nt)
    (N : ℕ) (Q T : ℕ → ℕ → ℝ) (hT : ∀ i e, T i e = Q e i) {kt Fs : ℝ} (hk : 0 < kt) (hF : 0 ≤ Fs) (eps : ℝ) (U : ℕ → ℝ)
    {w : ℝ} (hw : w ≠ 0) :
    ∃ (cst : TS ℕ) (ft : List (ℝ × (ℕ → ℝ))) (its : ℕ) (F : ℕ → ℝ), timeSeriesDeriv Nt h eye 0 = .ok cst ∧
      localForceHistory (jenkinsOps kt Fs unit0)
        ((List.range Nt).map fun j : ℕ => (localMotion N Q h U 0 (2 * Real.pi * j / Nt), cst.val j))
        (∑ e ∈ range N, Q 0 e * U e) 2 (1 / 10 ^ 10) (1 / 10 ^ 10) eps = .ok (ft, its) ∧
      (PForce.jenkins N Q T kt Fs eps).aftF U w h Nt = .ok F ∧
      (2 ≤ its → 0 ≤ periodWork N w (velocityOf N h U w) (periodicOf N h F w)) := by
  refine serial_work (jenkinsOps kt Fs unit0) 1 (fun _ => 1) (fun _ => kt) (fun _ => Fs) (fun _ _ => zero_le_one)
    (fun _ _ => hk) (fun _ _ => hF) ?_ h1 Nt hNt heven N Q T hT eps U hw
  intro N u c z atol rtol eps ft its e h2
  have hs := C31_two_cycle_result_partial kt Fs hF unit0 N u c z 2 atol rtol eps ft its e h2
  refine ⟨fun _ i => (ft.map Prod.fst).getD i 0, fun j _ => ?_, fun _ _ => hs⟩
  rw [sum_range_one, one_mul]
  beta_reduce
  rw [List.getD_eq_getElem?_getD, List.getD_eq_getElem?_getD, List.getElem?_map]
  cases ft[j]? <;> rfl

/-- C136 (Iwan). -/
theorem C136_iwan_partial {h : List ℕ} {k : ℕ} (h1 : OneHarmonic h k) (Nt : ℕ) (hNt : 2 * k + 1 < Nt) (heven : Even Nt)
    (N : ℕ) (Q T : ℕ → ℕ → ℝ) (hT : ∀ i e, T i e = Q e i) (iw : Iwan) (hphi : ∀ k ≤ iw.nSliders, 0 ≤ iw.phi k)
    (hwt : ∀ k ≤ iw.nSliders, 0 ≤ iw.weight k) (eps : ℝ) (U : ℕ → ℝ) {w : ℝ} (hw : w ≠ 0) :
    ∃ (cst : TS ℕ) (ft : List (ℝ × (ℕ → ℝ))) (its : ℕ) (F : ℕ → ℝ), timeSeriesDeriv Nt h eye 0 = .ok cst ∧
      localForceHistory (iwanOps iw unit0)
        ((List.range Nt).map fun j : ℕ => (localMotion N Q h U 0 (2 * Real.pi * j / Nt), cst.val j))
        (∑ e ∈ range N, Q 0 e * U e) 2 (1 / 10 ^ 10) (1 / 10 ^ 10) eps = .ok (ft, its) ∧
      (PForce.iwan N Q T iw eps).aftF U w h Nt = .ok F ∧
      (2 ≤ its → 0 ≤ periodWork N w (velocityOf N h U w) (periodicOf N h F w)) := by
  refine serial_work (iwanOps iw unit0) (iw.nSliders + 1) iw.weight (fun _ => 1) iw.phi (fun i hi => hwt i (by omega))
    (fun _ _ => one_pos) (fun i hi => hphi i (by omega)) ?_ h1 Nt hNt heven N Q T hT eps U hw
  intro N u c z atol rtol eps ft its e h2
  rcases Nat.eq_zero_or_pos N with rfl | hN
  · exact ⟨fun _ _ => 0, fun j hj => absurd hj (Nat.not_lt_zero _), fun _ _ i hi => absurd hi (Nat.not_lt_zero _)⟩
  have hr : ((List.range N).map fun i => (u i, c i)) ≠ [] := by simp; omega
  obtain ⟨ft', its', e', -, -, e2⟩ := C32_cycle_count (iwanOps iw unit0) _ hr z 2 atol rtol eps
  rw [e] at e'
  simp only [Except.ok.injEq, Prod.mk.injEq] at e'
  rw [← e'.1, ← e'.2] at e2
  obtain ⟨n, hn⟩ : ∃ n, its - 1 = n + 1 := ⟨its - 2, by omega⟩
  have e3 : ft.map Prod.fst = (cycleRows (iwanOps iw unit0) ((List.range N).map fun i => (u i, c i)) 1
      ((iwanOps iw unit0).init z)).map Prod.fst := by
    rw [e2, hn, C38_two_cycles iw hphi unit0 N hN u c]
  obtain ⟨g, g1, g2⟩ := C38_second_cycle_steady iw hphi unit0 N hN u c ((iwanOps iw unit0).init z)
  refine ⟨g, fun j hj => ?_, fun i hi => g1 i (by omega)⟩
  have e4 : (ft.getD j (0, fun _ => 0)).1 = (ft.map Prod.fst).getD j 0 := by
    rw [List.getD_eq_getElem?_getD, List.getD_eq_getElem?_getD, List.getElem?_map]
    cases ft[j]? <;> rfl
  rw [e4, e3, g2, List.getD_eq_getElem?_getD, List.getElem?_map, List.getElem?_range hj]
  rfl

/-! ## Elastic dry friction: one closed sample -/

theorem cos_sample_le {N j : ℕ} (hj : 0 < j) (hjN : j < N) : Real.cos (2 * Real.pi * j / N) ≤ Real.cos (2 * Real.pi / N) := by
  have hN : (0 : ℝ) < N := by exact_mod_cast (by omega : 0 < N)
  have hp := Real.pi_pos
  have h1 : (1 : ℝ) ≤ j := by exact_mod_cast hj
  have h2 : (j : ℝ) + 1 ≤ N := by exact_mod_cast hjN
  have key : ∀ x : ℝ, 1 ≤ x → 2 * x ≤ N → Real.cos (2 * Real.pi * x / N) ≤ Real.cos (2 * Real.pi / N) := by
    intro x hx hxN
    apply Real.cos_le_cos_of_nonneg_of_le_pi (by positivity)
    · rw [div_le_iff₀ hN]; nlinarith
    · rw [div_le_div_iff_of_pos_right hN]; nlinarith
  rcases le_or_gt (2 * (j : ℝ)) N with h | h
  · exact key j h1 h
  · have e : 2 * Real.pi * j / N = 2 * Real.pi - 2 * Real.pi * (N - j) / N := by field_simp; ring
    rw [e, Real.cos_two_pi_sub]
    exact key _ (by linarith) (by linarith)

/-- Coefficients of the motion `cos (τ + δ)` in the tangential and `cos τ` in the normal direction. -/
def grazeU (δ : ℝ) : ℕ → ℝ
  | 0 => Real.cos δ
  | 1 => 1
  | 2 => -Real.sin δ
  | _ => 0

theorem graze_motion (δ : ℝ) : localMotion 2 eye [1] (grazeU δ) 0 = tone 1 0 (Real.cos δ) (-Real.sin δ) ∧
    localMotion 2 eye [1] (grazeU δ) 1 = tone 1 0 1 0 := by
  constructor <;> funext τ <;> simp [localMotion, eye, series, grazeU, tone]

/-- C136 is false for elastic dry friction: for all parameters, starting positions and numbers of samples there is a
motion with one harmonic and a gap for which the harmonic forces do work on the structure. -/
theorem C136_friction_violated (Nt : ℕ) (hNt : 3 < Nt) (heven : Even Nt) {kt kn mu : ℝ} (hkt : 0 < kt) (hkn : 0 < kn)
    (hmu : 0 < mu) (u0 : EdfU0) {w : ℝ} (hw : w ≠ 0) :
    ∃ (gap : ℝ) (U F : ℕ → ℝ), (PForce.edf2 2 2 eye eye kt kn mu gap u0).aftF U w [1] Nt = .ok F ∧
      periodWork 2 w (velocityOf 2 [1] U w) (periodicOf 2 [1] F w) < 0 := by
  obtain ⟨hA, hh⟩ := oneHarmonic_admissible (h := [1]) (k := 1) ⟨one_pos, Or.inl rfl⟩
  have hall := oneHarmonic_lt (h := [1]) (k := 1) ⟨one_pos, Or.inl rfl⟩ hNt
  have hN : 0 < Nt := by omega
  have hNr : (0 : ℝ) < Nt := by exact_mod_cast hN
  have hN4 : (4 : ℝ) ≤ Nt := by exact_mod_cast hNt
  have hp := Real.pi_pos
  set Δ : ℝ := 2 * Real.pi / Nt with hΔ
  have hΔ0 : 0 < Δ := by positivity
  have hΔ1 : Δ ≤ Real.pi / 2 := by rw [hΔ, div_le_div_iff₀ hNr two_pos]; nlinarith
  set gap := Real.cos Δ with hgap
  have hg1 : gap < 1 := by
    have := Real.cos_lt_cos_of_nonneg_of_le_pi le_rfl (by linarith : Δ ≤ Real.pi) hΔ0
    rwa [Real.cos_zero] at this
  set U := grazeU (Δ / 4) with hU
  obtain ⟨m0, m1⟩ := graze_motion (Δ / 4)
  obtain ⟨W, ww⟩ := gfc_linear hA (fun k hk => by have := hall k hk; omega : ∀ k ∈ [1], k < Nt)
  set hist : TS ℕ → (ℕ → ℝ) → ℕ → ℕ → ℝ :=
    fun u z => edf2History u.rows u.val kt kn mu gap (edf2AftU0 u0 z) with hhist
  set f := hist (sampledDisp 2 eye [1] U Nt) (unlOf 2 eye U 0) with hf
  obtain ⟨x, x1, -, x2⟩ := ww f
  refine ⟨gap, U, _, jaxAft_F hA hall heven hh 2 2 eye eye hist U x1, ?_⟩
  rw [work_local hA 2 2 eye eye (fun i e => by simp [eye, eq_comm]) U _ hw f (isForceDFT_of 2 2 eye [1] Nt f x x2)]
  have hu : ∀ t d, (sampledDisp 2 eye [1] U Nt).val t d = localMotion 2 eye [1] U d (2 * Real.pi * t / Nt) := fun _ _ => rfl
  have hu1 : ∀ t, (sampledDisp 2 eye [1] U Nt).val t 1 = Real.cos (2 * Real.pi * t / Nt) := by
    intro t; rw [hu, m1]; simp [tone]
  have hu0 : ∀ t, (sampledDisp 2 eye [1] U Nt).val t 0 = Real.cos (2 * Real.pi * t / Nt + Δ / 4) := by
    intro t; rw [hu, m0, Real.cos_add]; simp only [tone, Nat.cast_one, one_mul]; ring
  have hfe : f = edf2History Nt (sampledDisp 2 eye [1] U Nt).val kt kn mu gap (edf2AftU0 u0 (unlOf 2 eye U 0)) := rfl
  have hopen : ∀ t < Nt, 0 < t → f t 1 = 0 ∧ f t 0 = 0 := by
    intro t ht ht0
    obtain ⟨-, a, -, b⟩ := C39_coulomb_2d Nt (sampledDisp 2 eye [1] U Nt).val kt kn mu gap
      (edf2AftU0 u0 (unlOf 2 eye U 0)) hmu.le hkn.le t 0 ht
    rw [← hfe] at a b
    simp only [mul_zero, zero_add] at a b
    have h0 := a (by rw [hu1]; exact cos_sample_le ht0 ht)
    refine ⟨h0, ?_⟩
    rw [h0, mul_zero] at b
    exact abs_eq_zero.1 (le_antisymm b (abs_nonneg _))
  have hstick : 0 < f 0 0 := by
    have hs := (C40_two_cycles_2d Nt hN (sampledDisp 2 eye [1] U Nt).val kt kn mu gap
      (edf2AftU0 u0 (unlOf 2 eye U 0)) hmu.le).1 0 0 hN
    rw [← hfe] at hs
    simp only [mul_zero, zero_add, hu1, hu0] at hs
    rw [Nat.mod_eq_of_lt (by omega : Nt - 1 < Nt), (hopen (Nt - 1) (by omega) (by omega)).2] at hs
    rw [hs]
    have e0 : 2 * Real.pi * ((0 : ℕ) : ℝ) / Nt = 0 := by simp
    have e1 : Real.cos (2 * Real.pi * ((Nt - 1 : ℕ) : ℝ) / Nt + Δ / 4) = Real.cos (3 * Δ / 4) := by
      rw [Nat.cast_sub hN, ← Real.cos_two_pi_sub]
      congr 1
      rw [hΔ]
      push_cast
      field_simp
      ring
    rw [e0, e1, zero_add, Real.cos_zero, add_zero]
    have hd : 0 < Real.cos (Δ / 4) - Real.cos (3 * Δ / 4) := by
      have := Real.cos_lt_cos_of_nonneg_of_le_pi (by linarith : 0 ≤ Δ / 4) (by linarith : 3 * Δ / 4 ≤ Real.pi) (by linarith)
      linarith
    have hl : 0 < mu * max ((1 - gap) * kn) 0 := mul_pos hmu (lt_max_of_lt_left (mul_pos (by linarith) hkn))
    unfold clip
    exact lt_max_of_lt_right (lt_min (mul_pos hkt hd) hl)
  have hsum : ∑ j ∈ range Nt, ∑ e ∈ range 2, f j e * deriv (localMotion 2 eye [1] U e) (2 * Real.pi * j / Nt)
      = -(f 0 0 * Real.sin (Δ / 4)) := by
    rw [sum_eq_single_of_mem 0 (mem_range.2 hN) fun j hj hj0 => by
      obtain ⟨a, b⟩ := hopen j (mem_range.1 hj) (Nat.pos_of_ne_zero hj0)
      rw [sum_range_succ, sum_range_one, a, b]; ring]
    rw [sum_range_succ, sum_range_one, m0, m1, (tone_deriv _ _ _ _ _).deriv, (tone_deriv _ _ _ _ _).deriv]
    simp
  rw [hsum]
  have hsin : 0 < Real.sin (Δ / 4) := Real.sin_pos_of_pos_of_lt_pi (by linarith) (by linarith)
  have := mul_pos (by positivity : 0 < 2 * Real.pi / Nt) (mul_pos hstick hsin)
  linarith

/-! ## Jenkins element: several harmonics -/

/-- Coefficients of `-cos τ + cos 3τ + 2 sin 3τ`. -/
def jaggedU : ℕ → ℝ
  | 0 => -1
  | 1 => 0
  | 2 => 1
  | 3 => 2
  | _ => 0

theorem jagged_motion (τ : ℝ) : HasDerivAt (localMotion 1 eye [1, 3] jaggedU 0)
    (Real.sin τ - 3 * Real.sin (3 * τ) + 6 * Real.cos (3 * τ)) τ ∧
    localMotion 1 eye [1, 3] jaggedU 0 τ = -Real.cos τ + Real.cos (3 * τ) + 2 * Real.sin (3 * τ) := by
  have e : localMotion 1 eye [1, 3] jaggedU 0 = fun τ => -Real.cos τ + Real.cos (3 * τ) + 2 * Real.sin (3 * τ) := by
    funext τ
    simp [localMotion, eye, series, jaggedU]
    ring
  refine ⟨?_, congrFun e τ⟩
  rw [e]
  have h1 : HasDerivAt (fun τ : ℝ => 3 * τ) 3 τ := by simpa using (hasDerivAt_id τ).const_mul (3 : ℝ)
  have h := ((Real.hasDerivAt_cos τ).neg.add h1.cos).add (h1.sin.const_mul 2)
  exact h.congr_deriv (by ring)

/-- Cosine and sine at the eight samples. -/
def cos8 : ℕ → ℝ
  | 0 => 1 | 1 => √2 / 2 | 2 => 0 | 3 => -(√2 / 2)
  | 4 => -1 | 5 => -(√2 / 2) | 6 => 0 | _ => √2 / 2

theorem trig8 (j : ℕ) (hj : j < 8) : Real.cos (2 * Real.pi * j / (8 : ℕ)) = cos8 j ∧
    Real.sin (2 * Real.pi * j / (8 : ℕ)) = cos8 ((j + 6) % 8) := by
  have q : ∀ j : ℕ, Real.cos (2 * Real.pi * ((j + 2 : ℕ) : ℝ) / (8 : ℕ)) = -Real.sin (2 * Real.pi * j / (8 : ℕ)) ∧
      Real.sin (2 * Real.pi * ((j + 2 : ℕ) : ℝ) / (8 : ℕ)) = Real.cos (2 * Real.pi * j / (8 : ℕ)) := by
    intro j
    have e : 2 * Real.pi * ((j + 2 : ℕ) : ℝ) / (8 : ℕ) = 2 * Real.pi * j / (8 : ℕ) + Real.pi / 2 := by push_cast; ring
    rw [e]
    exact ⟨Real.cos_add_pi_div_two _, Real.sin_add_pi_div_two _⟩
  have z : Real.cos (2 * Real.pi * ((0 : ℕ) : ℝ) / (8 : ℕ)) = 1 ∧ Real.sin (2 * Real.pi * ((0 : ℕ) : ℝ) / (8 : ℕ)) = 0 := by simp
  have o : Real.cos (2 * Real.pi * ((1 : ℕ) : ℝ) / (8 : ℕ)) = √2 / 2 ∧ Real.sin (2 * Real.pi * ((1 : ℕ) : ℝ) / (8 : ℕ)) = √2 / 2 := by
    have e : 2 * Real.pi * ((1 : ℕ) : ℝ) / (8 : ℕ) = Real.pi / 4 := by push_cast; ring
    rw [e]
    exact ⟨Real.cos_pi_div_four, Real.sin_pi_div_four⟩
  have s2 := q 0; have s3 := q 1; have s4 := q 2; have s5 := q 3; have s6 := q 4; have s7 := q 5
  simp only [Nat.zero_add, Nat.reduceAdd] at s2 s3 s4 s5 s6 s7
  rw [z.1, z.2] at s2
  rw [o.1, o.2] at s3
  rw [s2.1, s2.2] at s4
  rw [s3.1, s3.2] at s5
  rw [s4.1, s4.2] at s6
  rw [s5.1, s5.2] at s7
  interval_cases j
  · simp [cos8]
  · simpa [cos8] using o
  · simpa [cos8] using s2
  · simpa [cos8] using s3
  · simpa [cos8] using s4
  · simpa [cos8] using s5
  · simpa [cos8] using s6
  · simpa [cos8] using s7

/-- The motion and its velocity at the samples. -/
def jagged : ℕ → ℝ × ℝ
  | 0 => (0, 6) | 1 => (0, -(4 * √2)) | 2 => (-2, 4) | 3 => (2 * √2, 2 * √2)
  | 4 => (0, -6) | 5 => (0, 4 * √2) | 6 => (2, -4) | _ => (-(2 * √2), -(2 * √2))

theorem jagged_samples (j : ℕ) (hj : j < 8) : localMotion 1 eye [1, 3] jaggedU 0 (2 * Real.pi * j / (8 : ℕ)) = (jagged j).1 ∧
    deriv (localMotion 1 eye [1, 3] jaggedU 0) (2 * Real.pi * j / (8 : ℕ)) = (jagged j).2 := by
  obtain ⟨a, b⟩ := jagged_motion (2 * Real.pi * j / (8 : ℕ))
  rw [a.deriv, b, Real.cos_three_mul, Real.sin_three_mul, (trig8 j hj).1, (trig8 j hj).2]
  have h2 : (√2 : ℝ) ^ 2 = 2 := Real.sq_sqrt (by norm_num)
  have h3 : (√2 : ℝ) ^ 3 = 2 * √2 := by rw [pow_succ, h2]
  interval_cases j <;> simp only [cos8, jagged, Nat.reduceAdd, Nat.reduceMod] <;> constructor <;> ring_nf <;>
    simp only [h3] <;> ring

/-- The forces: the slider slips in every sample that moves. -/
def jaggedF : ℕ → ℝ
  | 0 => 1 | 1 => 1 | 2 => -1 | 3 => 1 | 4 => -1 | 5 => -1 | 6 => 1 | _ => -1

/-- C136 is false for the Jenkins element with harmonics 1 and 3 and eight samples (the smallest number the code
accepts for them). -/
theorem C136_harmonics_violated (u0 : EdfU0) {w : ℝ} (hw : w ≠ 0) :
    ∃ U F : ℕ → ℝ, (PForce.jaxJenkins 1 eye eye 1 1 u0).aftF U w [1, 3] 8 = .ok F ∧
      periodWork 1 w (velocityOf 1 [1, 3] U w) (periodicOf 1 [1, 3] F w) < 0 := by
  have hA : Admissible [1, 3] := ⟨by simp, by simp, by simp⟩
  have hall : ∀ k ∈ [1, 3], 2 * k + 1 < 8 := by simp
  obtain ⟨W, ww⟩ := gfc_linear hA (fun k hk => by have := hall k hk; omega : ∀ k ∈ [1, 3], k < 8)
  set hist : TS ℕ → (ℕ → ℝ) → ℕ → ℕ → ℝ :=
    fun u z j _ => jaxJenkinsHistory u.rows (fun j => u.val j 0) 1 1 (jaxStart u0 z) j with hhist
  set f := hist (sampledDisp 1 eye [1, 3] jaggedU 8) (unlOf 1 eye jaggedU 0) with hf
  obtain ⟨x, x1, -, x2⟩ := ww f
  refine ⟨jaggedU, _, jaxAft_F hA hall (by decide) (by simp [numCoeff]) 1 1 eye eye hist jaggedU x1, ?_⟩
  rw [work_local hA 1 1 eye eye (fun i e => by simp [eye, eq_comm]) jaggedU _ hw f (isForceDFT_of 1 1 eye [1, 3] 8 f x x2)]
  have hs : SteadyState 8 1 (fun _ => 1) (fun j => localMotion 1 eye [1, 3] jaggedU 0 (2 * Real.pi * j / (8 : ℕ)))
      (fun j => f j 0) := C35_jax_steady 1 1 zero_le_one 8 (by norm_num) _ _
  have hr : (1 : ℝ) ≤ √2 := by
    have h2 : (√2 : ℝ) ^ 2 = 2 := Real.sq_sqrt (by norm_num)
    nlinarith [Real.sqrt_nonneg 2]
  have hst : ∀ j < 8, f j 0 = clip 1 ((jagged j).1 - (jagged ((j + 7) % 8)).1 + f ((j + 7) % 8) 0) := by
    intro j hj
    have := hs j hj
    beta_reduce at this
    rw [show j + 8 - 1 = j + 7 by omega, one_mul, (jagged_samples j hj).1,
      (jagged_samples ((j + 7) % 8) (Nat.mod_lt _ (by norm_num))).1] at this
    exact this
  have hb : ∀ j < 8, |f j 0| ≤ 1 := fun j hj => by rw [hst j hj]; exact clip_abs zero_le_one _
  have up : ∀ {p : ℝ}, 1 ≤ p → clip 1 p = 1 := fun h => clip_of_ge zero_le_one h
  have dn : ∀ {p : ℝ}, p ≤ -1 → clip 1 p = -1 := fun h => clip_of_le_neg zero_le_one h
  have b := fun j hj => abs_le.1 (hb j hj)
  have f0 : f 0 0 = 1 := by
    rw [hst 0 (by norm_num)]; apply up; norm_num [jagged]; linarith [(b 7 (by norm_num)).1]
  have f1 : f 1 0 = 1 := by
    rw [hst 1 (by norm_num)]; apply up; norm_num [jagged, f0]
  have f2 : f 2 0 = -1 := by
    rw [hst 2 (by norm_num)]; apply dn; norm_num [jagged, f1]
  have f3 : f 3 0 = 1 := by
    rw [hst 3 (by norm_num)]; apply up; norm_num [jagged, f2]
  have f4 : f 4 0 = -1 := by
    rw [hst 4 (by norm_num)]; apply dn; norm_num [jagged, f3]
  have f5 : f 5 0 = -1 := by
    rw [hst 5 (by norm_num)]; apply dn; norm_num [jagged, f4]
  have f6 : f 6 0 = 1 := by
    rw [hst 6 (by norm_num)]; apply up; norm_num [jagged, f5]
  have f7 : f 7 0 = -1 := by
    rw [hst 7 (by norm_num)]; apply dn; norm_num [jagged, f6]; linarith
  have e : ∀ j ∈ range 8, ∑ e ∈ range 1, f j e * deriv (localMotion 1 eye [1, 3] jaggedU e) (2 * Real.pi * j / (8 : ℕ))
      = f j 0 * (jagged j).2 := by
    intro j hj
    rw [sum_range_one, (jagged_samples j (mem_range.1 hj)).2]
  rw [sum_congr rfl e]
  simp only [sum_range_succ, sum_range_zero, f0, f1, f2, f3, f4, f5, f6, f7, jagged]
  have hp := Real.pi_pos
  have h1 : (1 : ℝ) < √2 := by
    rw [show (1 : ℝ) = √1 by simp]; exact Real.sqrt_lt_sqrt (by norm_num) (by norm_num)
  refine mul_neg_of_pos_of_neg (by positivity) ?_
  linarith

/-- A Jenkins element moved with one harmonic: the conditions of `C136_jax_jenkins_partial` can be met. -/
example : ∃ F, (PForce.jaxJenkins 1 eye eye 1 1 .none).aftF (fun r => if r = 0 then 3 else 0) 2 [1] 8 = .ok F ∧
    0 ≤ periodWork 1 2 (velocityOf 1 [1] (fun r => if r = 0 then 3 else 0) 2) (periodicOf 1 [1] F 2) :=
  C136_jax_jenkins_partial ⟨one_pos, Or.inl rfl⟩ 8 (by norm_num) (by decide) 1 eye eye (fun i e => by simp [eye, eq_comm])
    one_pos zero_le_one .none _ (by norm_num)

end

end TMD
