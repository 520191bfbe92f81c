import Verif.Lemmas.FourierLimit
import Verif.Props.HbmShooting
import Verif.Lemmas.Vprnm
import Mathlib.Analysis.Calculus.UniformLimitsDeriv

/-!
# C138: with more harmonics harmonic balance becomes the equation of motion

Sequences of harmonic balance problems for one system with growing lists of harmonics and numbers of samples. If Fourier series
and their derivatives converge uniformly, the harmonic balance residuals of every harmonic tend to zero exactly if the limit is
a periodic motion of the system. So limits of solutions are motions, and near a motion the residuals are small.
-/

namespace TMD.Spec

open Finset

/-- `φ u v i`, force on degree of freedom `i < N`, is a continuous function of the first `N` displacements and velocities. -/
structure ContLaw (N : ℕ) (φ : (ℕ → ℝ) → (ℕ → ℝ) → ℕ → ℝ) : Prop where
  local_law : ∀ a b a' b' : ℕ → ℝ, (∀ i < N, a i = a' i) → (∀ i < N, b i = b' i) → ∀ i < N, φ a b i = φ a' b' i
  cont : ∀ i < N, Continuous fun p : (Fin N → ℝ) × (Fin N → ℝ) => φ (ext p.1) (ext p.2) i

/-- `u` (with velocity `v`) has the period `2π/w` and satisfies `(M v)' + C v + K u + f(u, v) = p(w t)` for all times. -/
structure SteadyMotion (N : ℕ) (M C K : ℕ → ℕ → ℝ) (f : (ℕ → ℝ) → (ℕ → ℝ) → ℕ → ℝ) (p : ℕ → ℝ → ℝ) (w : ℝ)
    (u v : ℝ → ℕ → ℝ) : Prop where
  velocity : ∀ t, ∀ i < N, HasDerivAt (fun t => u t i) (v t i) t
  motion : ∀ t, ∀ i < N, HasDerivAt (fun t => ∑ j ∈ range N, M i j * v t j)
    (p i (w * t) - ∑ j ∈ range N, (C i j * v t j + K i j * u t j) - f (u t) (v t) i) t
  period : ∀ t, ∀ i < N, u (t + 2 * Real.pi / w) i = u t i ∧ v (t + 2 * Real.pi / w) i = v t i

end TMD.Spec

namespace TMD

open Spec Finset Filter Topology

noncomputable section

/-- The alternating frequency-time method of `f` samples the law `φ` of displacements and velocities. -/
def SamplesMotion (f : NLForce) (N : ℕ) (h : List ℕ) (Nt : ℕ) (tol : ℝ) (φ : (ℕ → ℝ) → (ℕ → ℝ) → ℕ → ℝ) : Prop :=
  ∀ U w, ∃ o, f.aft U w h Nt tol = .ok o ∧ ∀ i < N, ∀ k ∈ h, coefOf h (fun r => o.F (r * N + i)) k
    = dft Nt (fun j => φ (fun e => series h (fun r => U (r * N + e)) (2 * Real.pi * j / Nt))
        (fun e => w * deriv (series h (fun r => U (r * N + e))) (2 * Real.pi * j / Nt)) i) k

/-- Harmonic balance problems of one system with growing lists `h n` of harmonics, `Nt n` samples, forcing `Fl n` with the
coefficients of `p`, and points `Z n` whose Fourier series converge uniformly with their derivatives to `x` and `y`. -/
structure Refines (S : VibSys) (law : NLForce → (ℕ → ℝ) → (ℕ → ℝ) → ℕ → ℝ) (p : ℕ → ℝ → ℝ) (tol : ℝ) (h : ℕ → List ℕ)
    (Nt : ℕ → ℕ) (Z Fl : ℕ → ℕ → ℝ) (w : ℝ) (x y : ℝ → ℕ → ℝ) : Prop where
  admissible : ∀ n, Admissible (h n)
  samples : ∀ n, ∀ k ∈ h n, 2*k + 1 < Nt n
  all : ∀ k, ∀ᶠ n in atTop, k ∈ h n
  laws : ∀ f ∈ S.forces, ContLaw S.nd (law f) ∧ ∀ n, SamplesMotion f S.nd (h n) (Nt n) tol (law f)
  forcing : ∀ d < S.nd, (Continuous (p d) ∧ ∀ τ, p d (τ + 2 * Real.pi) = p d τ) ∧
    ∀ n, ∀ k ∈ h n, coefOf (h n) (fun r => Fl n (r * S.nd + d)) k = fourierCS (p d) k
  freq : Tendsto (fun n => Z n (numCoeff (h n) * S.nd)) atTop (𝓝 w)
  disp : ∀ e < S.nd, TendstoUniformly (fun n τ => series (h n) (fun r => Z n (r * S.nd + e)) τ) (fun τ => x τ e) atTop
  vel : ∀ e < S.nd, TendstoUniformly (fun n τ => deriv (series (h n) (fun r => Z n (r * S.nd + e))) τ) (fun τ => y τ e) atTop

/-- Sum of the laws of all force objects. -/
def totalLaw (S : VibSys) (law : NLForce → (ℕ → ℝ) → (ℕ → ℝ) → ℕ → ℝ) (u v : ℕ → ℝ) (i : ℕ) : ℝ :=
  (S.forces.map fun f => law f u v i).sum

theorem series_deriv (h : List ℕ) (c : ℕ → ℝ) : Trig h.sum (deriv (series h c)) ∧
    ∀ τ, HasDerivAt (series h c) (deriv (series h c) τ) τ := by
  obtain ⟨g, hg, hd⟩ := (series_isTrig h c).hasDerivAt
  have e : deriv (series h c) = g := funext fun τ => (hd τ).deriv
  rw [e]
  exact ⟨hg, hd⟩

theorem coefOf_listSum {α : Type} {h : List ℕ} (hh : Admissible h) (l : List α) (c : α → ℕ → ℝ) {k : ℕ} (hk : k ∈ h) :
    coefOf h (fun r => (l.map fun a => c a r).sum) k = (l.map fun a => coefOf h (c a) k).sum := by
  have e : series h (fun r => (l.map fun a => c a r).sum) = fun τ => (l.map fun a => series h (c a) τ).sum := by
    funext τ
    induction l with
    | nil =>
      have := series_smul h (0:ℝ) (fun _ => 0) τ
      simpa using this
    | cons a l ih => simp only [List.map_cons, List.sum_cons, series_add, ih]
  rw [← fourierCS_series hh _ hk, e, fourierCS_list _ _ fun a _ => (series_isTrig h (c a)).continuous]
  congr 1
  exact List.map_congr_left fun a _ => fourierCS_series hh _ hk

/-- The residual of one listed harmonic in terms of Fourier coefficients of the momentum, of the linear forces, and of the
samples of the laws. -/
theorem hbm_harmonic {S : VibSys} {law : NLForce → (ℕ → ℝ) → (ℕ → ℝ) → ℕ → ℝ} {h : List ℕ} {Nt : ℕ} {tol : ℝ}
    (hh : Admissible h) (hf : ∀ f ∈ S.forces, ContLaw S.nd (law f) ∧ SamplesMotion f S.nd h Nt tol (law f)) (Z Fl : ℕ → ℝ) :
    ∃ R g, hbmRes S Z Fl h Nt tol true = .ok ⟨R, some g⟩ ∧ (Z (numCoeff h * S.nd) ≠ 0 → ∀ d < S.nd, ∀ k ∈ h,
      let w := Z (numCoeff h * S.nd)
      let X : ℕ → ℝ → ℝ := fun e => series h (fun r => Z (r * S.nd + e))
      let m : ℝ → ℝ := fun τ => w * (w * ∑ e ∈ range S.nd, S.M d e * deriv (X e) τ)
      coefOf h (fun r => R (r * S.nd + d)) k = ((k:ℝ) * (fourierCS m k).2, -((k:ℝ) * (fourierCS m k).1))
        + fourierCS (fun τ => ∑ e ∈ range S.nd, (S.C d e * (w * deriv (X e) τ) + S.K d e * X e τ)) k
        + (S.forces.map fun f => dft Nt (fun j => law f (fun e => X e (2 * Real.pi * j / Nt))
            (fun e => w * deriv (X e) (2 * Real.pi * j / Nt)) d) k).sum
        - coefOf h (fun r => Fl (r * S.nd + d)) k) := by
  have hok : ∀ f' ∈ S.forces, ∀ U w, f'.aft U w h Nt tol = .ok (aftVal h Nt tol f' U w) := by
    intro f' hf' U w
    obtain ⟨o, h1, -⟩ := (hf f' hf').2 U w
    simp only [aftVal, h1]
  obtain ⟨R, g, h1, h2⟩ := C45_time_domain S h hh Nt tol _ hok Z Fl
  refine ⟨R, g, h1, ?_⟩
  intro hw d hd k hk w X m
  have hX : ∀ e < S.nd, series h (fun r => sl 0 (numCoeff h * S.nd) Z (r * S.nd + e)) = X e := by
    intro e he
    funext τ
    refine series_congr (fun r hr => ?_) τ
    simp only [sl, Nat.sub_zero, row_lt hr he, if_true, Nat.zero_add]
  have hD := fun e => series_deriv h (fun r => Z (r * S.nd + e))
  have hDD : ∀ e, ∃ g, Trig h.sum g ∧ ∀ τ, HasDerivAt (deriv (X e)) (g τ) τ := fun e => (hD e).1.hasDerivAt
  choose X2 hX2t hX2 using hDD
  have hlin : ∀ t, HasDerivAt (fun t : ℝ => w * t) w t := fun t => by simpa using (hasDerivAt_id t).const_mul w
  -- residual as a function of the phase
  have hres : series h (fun r => R (r * S.nd + d)) = fun τ =>
      (w * (w * ∑ e ∈ range S.nd, S.M d e * X2 e τ)
        + ∑ e ∈ range S.nd, (S.C d e * (w * deriv (X e) τ) + S.K d e * X e τ))
      + (series h (fun r => (S.forces.map (fun f => (aftVal h Nt tol f (sl 0 (numCoeff h * S.nd) Z) w).F (r * S.nd + d))).sum) τ
      - series h (fun r => Fl (r * S.nd + d)) τ) := by
    funext τ
    have h3 := h2 d hd (τ / w)
    simp only at h3
    have ew : Z (numCoeff h * S.nd) * (τ / w) = τ := mul_div_cancel₀ _ hw
    rw [ew] at h3
    rw [h3]
    have hsum : ∀ e ∈ range S.nd, S.M d e * deriv (deriv (fun t => series h
          (fun r => sl 0 (numCoeff h * S.nd) Z (r * S.nd + e)) (Z (numCoeff h * S.nd) * t))) (τ / w)
        + S.C d e * deriv (fun t => series h (fun r => sl 0 (numCoeff h * S.nd) Z (r * S.nd + e)) (Z (numCoeff h * S.nd) * t)) (τ / w)
        + S.K d e * series h (fun r => sl 0 (numCoeff h * S.nd) Z (r * S.nd + e)) τ
        = w * (w * (S.M d e * X2 e τ)) + (S.C d e * (w * deriv (X e) τ) + S.K d e * X e τ) := by
      intro e he
      rw [hX e (mem_range.1 he)]
      have a1 : ∀ t, HasDerivAt (fun t => X e (w * t)) (deriv (X e) (w * t) * w) t := fun t =>
        ((hD e).2 (w * t)).comp t (hlin t)
      have a2 : ∀ t, HasDerivAt (fun t => deriv (X e) (w * t) * w) (X2 e (w * t) * w * w) t := fun t =>
        ((hX2 e (w * t)).comp t (hlin t)).mul_const w
      have b1 : deriv (fun t => X e (Z (numCoeff h * S.nd) * t)) = fun t => deriv (X e) (w * t) * w :=
        funext fun t => (a1 t).deriv
      rw [b1, (a2 _).deriv]
      have ew' : w * (τ / w) = τ := ew
      simp only [ew']
      ring
    rw [sum_congr rfl hsum, sum_add_distrib, ← mul_sum, ← mul_sum]
    simp only [w]
    ring
  rw [← fourierCS_series hh _ hk, hres]
  have cX : ∀ e, Continuous (X e) := fun e => (series_isTrig h _).continuous
  have cX1 : ∀ e, Continuous (deriv (X e)) := fun e => (hD e).1.continuous
  have cX2 : ∀ e, Continuous (X2 e) := fun e => (hX2t e).continuous
  have c1 : Continuous fun τ => w * (w * ∑ e ∈ range S.nd, S.M d e * X2 e τ) := by fun_prop
  have c2 : Continuous fun τ => ∑ e ∈ range S.nd, (S.C d e * (w * deriv (X e) τ) + S.K d e * X e τ) := by fun_prop
  have c3 := (series_isTrig h (fun r => (S.forces.map
    (fun f => (aftVal h Nt tol f (sl 0 (numCoeff h * S.nd) Z) w).F (r * S.nd + d))).sum)).continuous
  have c4 := (series_isTrig h (fun r => Fl (r * S.nd + d))).continuous
  have c12 : Continuous fun τ => w * (w * ∑ e ∈ range S.nd, S.M d e * X2 e τ)
      + ∑ e ∈ range S.nd, (S.C d e * (w * deriv (X e) τ) + S.K d e * X e τ) := c1.add c2
  have c34 : Continuous fun τ => series h (fun r => (S.forces.map
      (fun f => (aftVal h Nt tol f (sl 0 (numCoeff h * S.nd) Z) w).F (r * S.nd + d))).sum) τ
      - series h (fun r => Fl (r * S.nd + d)) τ := c3.sub c4
  rw [fourierCS_add c12 c34, fourierCS_add c1 c2, fourierCS_sub c3 c4, fourierCS_series hh _ hk, fourierCS_series hh _ hk]
  have cm : Continuous m := by
    show Continuous fun τ => w * (w * ∑ e ∈ range S.nd, S.M d e * deriv (X e) τ)
    fun_prop
  have hm := (derivative_iff_fourierCS cm c1 (fun τ => by
      simp only [m]
      congr 2
      exact sum_congr rfl fun e _ => by rw [(hD e).1.periodic])
    (fun τ => by
      congr 2
      exact sum_congr rfl fun e _ => by rw [(hX2t e).periodic])).1 (fun τ =>
        ((HasDerivAt.fun_sum fun e _ => (hX2 e τ).const_mul (S.M d e)).const_mul w).const_mul w) k
  rw [← hm, coefOf_listSum hh _ _ hk, ← add_sub_assoc]
  congr 3
  refine List.map_congr_left fun f hf' => ?_
  obtain ⟨o, g1, g2⟩ := (hf f hf').2 (sl 0 (numCoeff h * S.nd) Z) w
  simp only [aftVal, g1]
  rw [g2 d hd k hk]
  congr 1
  funext j
  exact (hf f hf').1.local_law _ _ _ _ (fun e he => by rw [hX e he]) (fun e he => by rw [hX e he]) d hd

/-- A periodic continuous function is bounded. -/
theorem periodic_bounded {E : Type} [MetricSpace E] {y : ℝ → E} (hc : Continuous y) (hp : ∀ τ, y (τ + 2 * Real.pi) = y τ) :
    Bornology.IsBounded (Set.range y) := by
  have h := (show Function.Periodic y (2 * Real.pi) from hp).image_Icc (by have := Real.pi_pos; positivity) 0
  rw [← h]
  exact (isCompact_Icc.image hc).isBounded

section

variable {S : VibSys} {law : NLForce → (ℕ → ℝ) → (ℕ → ℝ) → ℕ → ℝ} {p : ℕ → ℝ → ℝ} {tol : ℝ} {h : ℕ → List ℕ}
  {Nt : ℕ → ℕ} {Z Fl : ℕ → ℕ → ℝ} {w : ℝ} {x y : ℝ → ℕ → ℝ}

theorem Refines.limit (H : Refines S law p tol h Nt Z Fl w x y) : ∀ e < S.nd, (Continuous fun τ => x τ e) ∧
    (Continuous fun τ => y τ e) ∧ (∀ τ, HasDerivAt (fun τ => x τ e) (y τ e) τ) ∧ (∀ τ, x (τ + 2 * Real.pi) e = x τ e) ∧
    (∀ τ, y (τ + 2 * Real.pi) e = y τ e) := by
  intro e he
  have hS := fun n => series_deriv (h n) (fun r => Z n (r * S.nd + e))
  have t1 : ∀ τ, Tendsto (fun n => series (h n) (fun r => Z n (r * S.nd + e)) τ) atTop (𝓝 (x τ e)) := fun τ =>
    (H.disp e he).tendsto_at τ
  have t2 : ∀ τ, Tendsto (fun n => deriv (series (h n) (fun r => Z n (r * S.nd + e))) τ) atTop (𝓝 (y τ e)) := fun τ =>
    (H.vel e he).tendsto_at τ
  refine ⟨(H.disp e he).continuous (Eventually.of_forall fun n => (series_isTrig _ _).continuous).frequently,
    (H.vel e he).continuous (Eventually.of_forall fun n => (hS n).1.continuous).frequently,
    hasDerivAt_of_tendstoUniformly (H.vel e he) (Eventually.of_forall fun n τ => (hS n).2 τ) t1, fun τ => ?_, fun τ => ?_⟩
  · exact tendsto_nhds_unique (t1 _) ((t1 τ).congr fun n => (series_periodic _ _ _).symm)
  · exact tendsto_nhds_unique (t2 _) ((t2 τ).congr fun n => ((hS n).1.periodic _).symm)

/-- Frequency, displacements and velocities together. -/
def stateOf (N : ℕ) (w : ℝ) (x y : ℕ → ℝ) : ℝ × (Fin N → ℝ) × (Fin N → ℝ) := (w, fun e => x e, fun e => y e)

theorem Refines.state (H : Refines S law p tol h Nt Z Fl w x y) :
    TendstoUniformly (fun n τ => stateOf S.nd (Z n (numCoeff (h n) * S.nd)) (fun e => series (h n) (fun r => Z n (r * S.nd + e)) τ)
      (fun e => deriv (series (h n) (fun r => Z n (r * S.nd + e))) τ)) (fun τ => stateOf S.nd w (x τ) (y τ)) atTop ∧
    (Continuous fun τ => stateOf S.nd w (x τ) (y τ)) ∧
    ∀ τ, stateOf S.nd w (x (τ + 2 * Real.pi)) (y (τ + 2 * Real.pi)) = stateOf S.nd w (x τ) (y τ) := by
  have L := H.limit
  refine ⟨?_, ?_, fun τ => ?_⟩
  · rw [Metric.tendstoUniformly_iff]
    intro ε hε
    have f1 := (Metric.tendsto_nhds.1 H.freq) ε hε
    have f2 : ∀ᶠ n in atTop, ∀ e : Fin S.nd, ∀ τ, dist (x τ e) (series (h n) (fun r => Z n (r * S.nd + e)) τ) < ε :=
      eventually_all.2 fun e => (Metric.tendstoUniformly_iff.1 (H.disp e e.2)) ε hε
    have f3 : ∀ᶠ n in atTop, ∀ e : Fin S.nd, ∀ τ, dist (y τ e) (deriv (series (h n) (fun r => Z n (r * S.nd + e))) τ) < ε :=
      eventually_all.2 fun e => (Metric.tendstoUniformly_iff.1 (H.vel e e.2)) ε hε
    filter_upwards [f1, f2, f3] with n g1 g2 g3 τ
    unfold stateOf
    rw [Prod.dist_eq, Prod.dist_eq, max_lt_iff, max_lt_iff]
    refine ⟨by rw [dist_comm]; exact g1, (dist_pi_lt_iff hε).2 fun e => g2 e τ, (dist_pi_lt_iff hε).2 fun e => g3 e τ⟩
  · unfold stateOf
    exact continuous_const.prodMk ((continuous_pi fun e : Fin S.nd => (L e e.2).1).prodMk
      (continuous_pi fun e : Fin S.nd => (L e e.2).2.1))
  · unfold stateOf
    rw [Prod.mk.injEq, Prod.mk.injEq]
    exact ⟨rfl, funext fun e : Fin S.nd => (L e e.2).2.2.2.1 τ, funext fun e : Fin S.nd => (L e e.2).2.2.2.2 τ⟩

theorem Refines.comp (H : Refines S law p tol h Nt Z Fl w x y) {Ψ : ℝ × (Fin S.nd → ℝ) × (Fin S.nd → ℝ) → ℝ} (hΨ : Continuous Ψ) :
    TendstoUniformly (fun n τ => Ψ (stateOf S.nd (Z n (numCoeff (h n) * S.nd))
      (fun e => series (h n) (fun r => Z n (r * S.nd + e)) τ) (fun e => deriv (series (h n) (fun r => Z n (r * S.nd + e))) τ)))
      (fun τ => Ψ (stateOf S.nd w (x τ) (y τ))) atTop ∧ (Continuous fun τ => Ψ (stateOf S.nd w (x τ) (y τ))) ∧
    ∀ τ, Ψ (stateOf S.nd w (x (τ + 2 * Real.pi)) (y (τ + 2 * Real.pi))) = Ψ (stateOf S.nd w (x τ) (y τ)) := by
  obtain ⟨h1, h2, h3⟩ := H.state
  exact ⟨uniform_comp hΨ h1 (periodic_bounded h2 h3), hΨ.comp h2, fun τ => by rw [h3]⟩

/-- Sums over the degrees of freedom as functions of the state. -/
def momentumOf (S : VibSys) (d : ℕ) (s : ℝ × (Fin S.nd → ℝ) × (Fin S.nd → ℝ)) : ℝ :=
  s.1 * (s.1 * ∑ e : Fin S.nd, S.M d e * s.2.2 e)

def linearOf (S : VibSys) (d : ℕ) (s : ℝ × (Fin S.nd → ℝ) × (Fin S.nd → ℝ)) : ℝ :=
  ∑ e : Fin S.nd, (S.C d e * (s.1 * s.2.2 e) + S.K d e * s.2.1 e)

def lawOf (S : VibSys) (φ : (ℕ → ℝ) → (ℕ → ℝ) → ℕ → ℝ) (d : ℕ) (s : ℝ × (Fin S.nd → ℝ) × (Fin S.nd → ℝ)) : ℝ :=
  φ (Spec.ext s.2.1) (Spec.ext fun e => s.1 * s.2.2 e) d

theorem momentumOf_state (d : ℕ) (w : ℝ) (a b : ℕ → ℝ) :
    momentumOf S d (stateOf S.nd w a b) = w * (w * ∑ e ∈ range S.nd, S.M d e * b e) := by
  unfold momentumOf stateOf
  rw [← Fin.sum_univ_eq_sum_range (fun e => S.M d e * b e)]

theorem linearOf_state (d : ℕ) (w : ℝ) (a b : ℕ → ℝ) :
    linearOf S d (stateOf S.nd w a b) = ∑ e ∈ range S.nd, (S.C d e * (w * b e) + S.K d e * a e) := by
  unfold linearOf stateOf
  rw [← Fin.sum_univ_eq_sum_range (fun e => S.C d e * (w * b e) + S.K d e * a e)]

theorem lawOf_state {φ : (ℕ → ℝ) → (ℕ → ℝ) → ℕ → ℝ} (hφ : ContLaw S.nd φ) {d : ℕ} (hd : d < S.nd) (w : ℝ) (a b : ℕ → ℝ) :
    lawOf S φ d (stateOf S.nd w a b) = φ a (fun e => w * b e) d := by
  unfold lawOf stateOf
  refine hφ.local_law _ _ _ _ (fun i hi => ?_) (fun i hi => ?_) d hd
  · simp [Spec.ext, hi]
  · simp [Spec.ext, hi]

theorem lawOf_continuous {φ : (ℕ → ℝ) → (ℕ → ℝ) → ℕ → ℝ} (hφ : ContLaw S.nd φ) {d : ℕ} (hd : d < S.nd) :
    Continuous (lawOf S φ d) := by
  have : Continuous fun s : ℝ × (Fin S.nd → ℝ) × (Fin S.nd → ℝ) => (s.2.1, fun e => s.1 * s.2.2 e) := by fun_prop
  exact (hφ.cont d hd).comp this

/-- The limit of the residuals of one harmonic. -/
theorem residual_limit (H : Refines S law p tol h Nt Z Fl w x y) (hw : w ≠ 0) :
    ∃ (R : ℕ → ℕ → ℝ) (g : ℕ → (ℕ → ℕ → ℝ) × (ℕ → ℝ)), (∀ n, hbmRes S (Z n) (Fl n) (h n) (Nt n) tol true = .ok ⟨R n, some (g n)⟩) ∧ ∀ d < S.nd, ∀ k : ℕ,
      Tendsto (fun n => coefOf (h n) (fun r => R n (r * S.nd + d)) k) atTop
        (𝓝 (((k:ℝ) * (fourierCS (fun τ => momentumOf S d (stateOf S.nd w (x τ) (y τ))) k).2,
            -((k:ℝ) * (fourierCS (fun τ => momentumOf S d (stateOf S.nd w (x τ) (y τ))) k).1))
          - fourierCS (fun τ => p d τ - (linearOf S d (stateOf S.nd w (x τ) (y τ))
              + totalLaw S law (x τ) (fun e => w * y τ e) d)) k)) := by
  choose R g hR hval using fun n => hbm_harmonic (H.admissible n) (fun f hf => ⟨(H.laws f hf).1, (H.laws f hf).2 n⟩) (Z n) (Fl n)
  refine ⟨R, g, hR, fun d hd k => ?_⟩
  have hNt : Tendsto Nt atTop atTop := tendsto_atTop.2 fun b => by
    filter_upwards [H.all b] with n hn
    have := H.samples n b hn
    omega
  have cM : Continuous (momentumOf S d) := by unfold momentumOf; fun_prop
  have cL : Continuous (linearOf S d) := by unfold linearOf; fun_prop
  obtain ⟨m1, m2, -⟩ := H.comp cM
  obtain ⟨l1, l2, -⟩ := H.comp cL
  have hcont : ∀ n e, Continuous (series (h n) (fun r => Z n (r * S.nd + e))) ∧
      Continuous (deriv (series (h n) (fun r => Z n (r * S.nd + e)))) := fun n e =>
    ⟨(series_isTrig _ _).continuous, (series_deriv _ _).1.continuous⟩
  have hst : ∀ n, Continuous fun τ => stateOf S.nd (Z n (numCoeff (h n) * S.nd))
      (fun e => series (h n) (fun r => Z n (r * S.nd + e)) τ) (fun e => deriv (series (h n) (fun r => Z n (r * S.nd + e))) τ) := by
    intro n
    unfold stateOf
    exact continuous_const.prodMk ((continuous_pi fun e : Fin S.nd => (hcont n e).1).prodMk
      (continuous_pi fun e : Fin S.nd => (hcont n e).2))
  have tm := fourierCS_tendsto (fun n => cM.comp (hst n)) m1 k
  have tl := fourierCS_tendsto (fun n => cL.comp (hst n)) l1 k
  have tf := tendsto_list_sum (f := fun f n => dft (Nt n) (fun j => law f
        (fun e => series (h n) (fun r => Z n (r * S.nd + e)) (2 * Real.pi * j / Nt n))
        (fun e => Z n (numCoeff (h n) * S.nd) * deriv (series (h n) (fun r => Z n (r * S.nd + e))) (2 * Real.pi * j / Nt n)) d) k)
      (a := fun f => fourierCS (fun τ => law f (x τ) (fun e => w * y τ e) d) k) S.forces (fun f hf => by
    have hL := (H.laws f hf).1
    obtain ⟨c1, c2, -⟩ := H.comp (lawOf_continuous hL hd)
    simp only [lawOf_state hL hd] at c1 c2
    exact dft_tendsto c2 c1 hNt k)
  have cf : ∀ f ∈ S.forces, Continuous fun τ => law f (x τ) (fun e => w * y τ e) d := fun f hf => by
    obtain ⟨-, c2, -⟩ := H.comp (lawOf_continuous (H.laws f hf).1 hd)
    simpa only [lawOf_state (H.laws f hf).1 hd] using c2
  rw [← fourierCS_list _ _ cf] at tf
  have cT : Continuous fun τ => totalLaw S law (x τ) (fun e => w * y τ e) d := continuous_list_sum _ cf
  have e : fourierCS (fun τ => p d τ - (linearOf S d (stateOf S.nd w (x τ) (y τ))
      + totalLaw S law (x τ) (fun e => w * y τ e) d)) k
      = fourierCS (p d) k - (fourierCS (fun τ => linearOf S d (stateOf S.nd w (x τ) (y τ))) k
        + fourierCS (fun τ => totalLaw S law (x τ) (fun e => w * y τ e) d) k) := by
    have c12 : Continuous fun τ => linearOf S d (stateOf S.nd w (x τ) (y τ)) + totalLaw S law (x τ) (fun e => w * y τ e) d :=
      l2.add cT
    rw [fourierCS_sub (H.forcing d hd).1.1 c12, fourierCS_add l2 cT]
  rw [e]
  have t1 : Tendsto (fun n => ((k:ℝ) * (fourierCS (fun τ => momentumOf S d (stateOf S.nd (Z n (numCoeff (h n) * S.nd))
      (fun e => series (h n) (fun r => Z n (r * S.nd + e)) τ) (fun e => deriv (series (h n) (fun r => Z n (r * S.nd + e))) τ))) k).2,
      -((k:ℝ) * (fourierCS (fun τ => momentumOf S d (stateOf S.nd (Z n (numCoeff (h n) * S.nd))
      (fun e => series (h n) (fun r => Z n (r * S.nd + e)) τ) (fun e => deriv (series (h n) (fun r => Z n (r * S.nd + e))) τ))) k).1)))
      atTop (𝓝 ((k:ℝ) * (fourierCS (fun τ => momentumOf S d (stateOf S.nd w (x τ) (y τ))) k).2,
            -((k:ℝ) * (fourierCS (fun τ => momentumOf S d (stateOf S.nd w (x τ) (y τ))) k).1))) :=
    (((continuous_snd.tendsto _).comp tm).const_mul _).prodMk_nhds (((continuous_fst.tendsto _).comp tm).const_mul _).neg
  have tall := ((t1.add tl).add tf).sub (tendsto_const_nhds (x := fourierCS (p d) k))
  have e2 : ∀ a b c q : ℝ × ℝ, a + b + c - q = a - (q - (b + c)) := fun a b c q => by abel
  rw [e2] at tall
  refine tall.congr' ?_
  filter_upwards [H.all k, H.freq.eventually_ne hw] with n hn hwn
  rw [hval n hwn d hd k hn, (H.forcing d hd).2 n k hn]
  simp only [Function.comp_def, momentumOf_state, linearOf_state]

/-- C138: along Fourier series that converge uniformly with their derivatives, while the lists of harmonics grow to all
harmonics, the harmonic balance residual of every harmonic tends to zero exactly if the limit is a periodic motion. -/
theorem C138_limit (H : Refines S law p tol h Nt Z Fl w x y) (hw : w ≠ 0) :
    ∃ (R : ℕ → ℕ → ℝ) (g : ℕ → (ℕ → ℕ → ℝ) × (ℕ → ℝ)), (∀ n, hbmRes S (Z n) (Fl n) (h n) (Nt n) tol true = .ok ⟨R n, some (g n)⟩) ∧
      ((∀ d < S.nd, ∀ k : ℕ, Tendsto (fun n => coefOf (h n) (fun r => R n (r * S.nd + d)) k) atTop (𝓝 0)) ↔
        SteadyMotion S.nd S.M S.C S.K (totalLaw S law) p w (fun t => x (w * t)) (fun t e => w * y (w * t) e)) := by
  obtain ⟨R, g, hR, hlim⟩ := residual_limit H hw
  refine ⟨R, g, hR, ?_⟩
  have L := H.limit
  have hlin : ∀ t, HasDerivAt (fun t : ℝ => w * t) w t := fun t => by simpa using (hasDerivAt_id t).const_mul w
  have key : ∀ d < S.nd, (∀ k : ℕ, Tendsto (fun n => coefOf (h n) (fun r => R n (r * S.nd + d)) k) atTop (𝓝 0)) ↔
      ∀ τ, HasDerivAt (fun τ => momentumOf S d (stateOf S.nd w (x τ) (y τ)))
        (p d τ - (linearOf S d (stateOf S.nd w (x τ) (y τ)) + totalLaw S law (x τ) (fun e => w * y τ e) d)) τ := by
    intro d hd
    have cM : Continuous (momentumOf S d) := by unfold momentumOf; fun_prop
    have cL : Continuous (linearOf S d) := by unfold linearOf; fun_prop
    obtain ⟨-, m2, m3⟩ := H.comp cM
    obtain ⟨-, l2, l3⟩ := H.comp cL
    have cf : ∀ f ∈ S.forces, (Continuous fun τ => law f (x τ) (fun e => w * y τ e) d) ∧
        ∀ τ, law f (x (τ + 2 * Real.pi)) (fun e => w * y (τ + 2 * Real.pi) e) d = law f (x τ) (fun e => w * y τ e) d := fun f hf => by
      obtain ⟨-, c2, c3⟩ := H.comp (lawOf_continuous (H.laws f hf).1 hd)
      simp only [lawOf_state (H.laws f hf).1 hd] at c2 c3
      exact ⟨c2, c3⟩
    have cT : Continuous fun τ => totalLaw S law (x τ) (fun e => w * y τ e) d := continuous_list_sum _ fun f hf => (cf f hf).1
    have c12 : Continuous fun τ => p d τ - (linearOf S d (stateOf S.nd w (x τ) (y τ))
        + totalLaw S law (x τ) (fun e => w * y τ e) d) := (H.forcing d hd).1.1.sub (l2.add cT)
    rw [derivative_iff_fourierCS m2 c12 m3 (fun τ => by
      have e : totalLaw S law (x (τ + 2 * Real.pi)) (fun e => w * y (τ + 2 * Real.pi) e) d
          = totalLaw S law (x τ) (fun e => w * y τ e) d := by
        unfold totalLaw
        exact congrArg List.sum (List.map_congr_left fun f hf => (cf f hf).2 τ)
      rw [(H.forcing d hd).1.2, l3, e])]
    refine forall_congr' fun k => ⟨fun ht => ?_, fun he => ?_⟩
    · exact sub_eq_zero.1 (tendsto_nhds_unique (hlim d hd k) ht)
    · have := hlim d hd k
      rwa [sub_eq_zero.2 he] at this
  constructor
  · intro h0
    refine ⟨fun t i hi => ?_, fun t i hi => ?_, fun t i hi => ?_⟩
    · have := ((L i hi).2.2.1 (w * t)).comp t (hlin t)
      rw [mul_comm] at this
      exact this
    · have h1 := ((key i hi).1 (h0 i hi) (w * t)).comp t (hlin t)
      have h2 := h1.const_mul w⁻¹
      have e1 : (fun t => w⁻¹ * ((fun τ => momentumOf S i (stateOf S.nd w (x τ) (y τ))) ∘ fun t => w * t) t)
          = fun t => ∑ j ∈ range S.nd, S.M i j * (w * y (w * t) j) := by
        funext t
        simp only [Function.comp, momentumOf_state]
        rw [inv_mul_cancel_left₀ hw, mul_sum]
        exact sum_congr rfl fun j _ => by ring
      rw [e1] at h2
      refine h2.congr_deriv ?_
      rw [mul_comm _ w, inv_mul_cancel_left₀ hw, linearOf_state]
      ring
    · have e : w * (t + 2 * Real.pi / w) = w * t + 2 * Real.pi := by field_simp
      simp only [e, (L i hi).2.2.2.1, (L i hi).2.2.2.2, and_self]
  · intro hm d hd
    refine (key d hd).2 fun τ => ?_
    have h1 := hm.motion (τ / w) d hd
    have hdiv : HasDerivAt (fun τ : ℝ => τ / w) (1 / w) τ := (hasDerivAt_id τ).div_const w
    have h2 := (h1.comp τ hdiv).const_mul w
    have e0 : ∀ τ : ℝ, w * (τ / w) = τ := fun τ => mul_div_cancel₀ _ hw
    have e1 : (fun τ' => w * ((fun t => ∑ j ∈ range S.nd, S.M d j * (w * y (w * t) j)) ∘ fun τ : ℝ => τ / w) τ')
        = fun τ => momentumOf S d (stateOf S.nd w (x τ) (y τ)) := by
      funext τ
      simp only [Function.comp, momentumOf_state, e0, mul_sum]
      exact sum_congr rfl fun j _ => by ring
    rw [e1] at h2
    refine h2.congr_deriv ?_
    simp only [e0, linearOf_state]
    rw [mul_one_div, mul_div_cancel₀ _ hw]
    ring

/-- C138: the limit of solutions of the harmonic balance equations is a periodic motion; with a regular mass matrix it is
twice differentiable and satisfies the equation of motion. -/
theorem C138_solutions (H : Refines S law p tol h Nt Z Fl w x y) (hw : w ≠ 0)
    (h0 : ∀ n, ∃ o, hbmRes S (Z n) (Fl n) (h n) (Nt n) tol true = .ok o ∧ ∀ i < numCoeff (h n) * S.nd, o.R i = 0) :
    SteadyMotion S.nd S.M S.C S.K (totalLaw S law) p w (fun t => x (w * t)) (fun t e => w * y (w * t) e) ∧
    ∀ Minv, IsInv S.nd Minv S.M → ∀ t, ∃ acc : ℕ → ℝ, (∀ i < S.nd, HasDerivAt (fun t => w * y (w * t) i) (acc i) t) ∧
      ∀ i < S.nd, ∑ j ∈ range S.nd, (S.M i j * acc j + S.C i j * (w * y (w * t) j) + S.K i j * x (w * t) j)
        + totalLaw S law (x (w * t)) (fun e => w * y (w * t) e) i = p i (w * t) := by
  obtain ⟨R, g, hR, hiff⟩ := C138_limit H hw
  have hm := hiff.1 (fun d hd k => by
    have hz : ∀ n, coefOf (h n) (fun r => R n (r * S.nd + d)) k = 0 := by
      intro n
      obtain ⟨o, h1, h2⟩ := h0 n
      rw [hR n] at h1
      cases h1
      by_cases hk : k ∈ h n
      · rw [← fourierCS_series (H.admissible n) _ hk]
        have e : series (h n) (fun r => R n (r * S.nd + d)) = fun τ => 0 * (0:ℝ) := by
          funext τ
          rw [series_congr (c' := fun _ => 0) (fun r hr => h2 _ (row_lt hr hd))]
          have := series_smul (h n) (0:ℝ) (fun _ => 0) τ
          simpa using this
        rw [e, fourierCS_smul 0 (fun _ => (0:ℝ)), zero_smul]
      · rw [coefOf_not_mem hk]
        rfl
    simp only [hz]
    exact tendsto_const_nhds)
  refine ⟨hm, fun Minv hI t => ?_⟩
  let q : ℕ → ℝ := fun i => p i (w * t) - ∑ j ∈ range S.nd, (S.C i j * (w * y (w * t) j) + S.K i j * x (w * t) j)
    - totalLaw S law (x (w * t)) (fun e => w * y (w * t) e) i
  have hacc : ∀ i < S.nd, HasDerivAt (fun t => w * y (w * t) i) (∑ l ∈ range S.nd, Minv i l * q l) t := by
    intro i hi
    have h1 : HasDerivAt (fun t => ∑ l ∈ range S.nd, Minv i l * ∑ j ∈ range S.nd, S.M l j * (w * y (w * t) j))
        (∑ l ∈ range S.nd, Minv i l * q l) t :=
      HasDerivAt.fun_sum fun l hl => (hm.motion t l (mem_range.1 hl)).const_mul (Minv i l)
    have e : (fun t => ∑ l ∈ range S.nd, Minv i l * ∑ j ∈ range S.nd, S.M l j * (w * y (w * t) j)) = fun t => w * y (w * t) i := by
      funext t
      simp only [mul_sum]
      rw [sum_comm]
      have : ∀ j ∈ range S.nd, ∑ l ∈ range S.nd, Minv i l * (S.M l j * (w * y (w * t) j))
          = if i = j then w * y (w * t) j else 0 := by
        intro j hj
        have := hI i hi j (mem_range.1 hj)
        rw [← sum_congr rfl fun l _ => mul_assoc (Minv i l) (S.M l j) (w * y (w * t) j), ← sum_mul, this]
        split <;> simp
      rw [sum_congr rfl this, sum_ite_eq, if_pos (mem_range.2 hi)]
    rwa [e] at h1
  refine ⟨_, hacc, fun i hi => ?_⟩
  have h1 : HasDerivAt (fun t => ∑ j ∈ range S.nd, S.M i j * (w * y (w * t) j))
      (∑ j ∈ range S.nd, S.M i j * ∑ l ∈ range S.nd, Minv j l * q l) t :=
    HasDerivAt.fun_sum fun j hj => (hacc j (mem_range.1 hj)).const_mul (S.M i j)
  have h2 := h1.unique (hm.motion t i hi)
  have : ∀ a b c : ℕ → ℝ, ∑ j ∈ range S.nd, (a j + b j + c j) = ∑ j ∈ range S.nd, a j + ∑ j ∈ range S.nd, (b j + c j) := by
    intro a b c
    rw [← sum_add_distrib]
    exact sum_congr rfl fun j _ => by ring
  rw [this, h2]
  ring

end

/-! ## The force objects -/

/-- Law of an instantaneous force object. -/
def instLaw (N m : ℕ) (Q T : ℕ → ℕ → ℝ) (loc : ℕ → ℝ → ℝ → Loc) (u v : ℕ → ℝ) (i : ℕ) : ℝ :=
  ∑ d ∈ range m, T i d * (loc d (∑ e ∈ range N, Q d e * u e) (∑ e ∈ range N, Q d e * v e)).f

/-- C138: the hypotheses on the laws hold for every instantaneous force object with continuous local forces. -/
theorem C138_instantaneous {h : List ℕ} {Nt : ℕ} (hh : Admissible h) (hNt : ∀ k ∈ h, 2*k + 1 < Nt) (heven : Even Nt) (tol : ℝ)
    (N m : ℕ) (Q T : ℕ → ℕ → ℝ) (loc : ℕ → ℝ → ℝ → Loc) (hl : ∀ d, Continuous fun p : ℝ × ℝ => (loc d p.1 p.2).f)
    (force : (ℕ → ℝ) → (ℕ → ℝ) × (ℕ → ℕ → ℝ)) :
    ContLaw N (instLaw N m Q T loc) ∧ SamplesMotion (instForce N m Q T loc force) N h Nt tol (instLaw N m Q T loc) := by
  refine ⟨⟨fun a b a' b' ha hb i _ => ?_, fun i _ => ?_⟩, fun U w => ?_⟩
  · unfold instLaw
    refine sum_congr rfl fun d _ => ?_
    have e1 : ∑ e ∈ range N, Q d e * a e = ∑ e ∈ range N, Q d e * a' e := sum_congr rfl fun e he => by rw [ha e (mem_range.1 he)]
    have e2 : ∑ e ∈ range N, Q d e * b e = ∑ e ∈ range N, Q d e * b' e := sum_congr rfl fun e he => by rw [hb e (mem_range.1 he)]
    rw [e1, e2]
  · unfold instLaw
    refine continuous_finsetSum _ fun d _ => continuous_const.mul ?_
    have he : ∀ e, Continuous fun v : Fin N → ℝ => Spec.ext v e := by
      intro e
      unfold Spec.ext
      by_cases c : e < N
      · simp only [c, dif_pos]
        exact continuous_apply _
      · simp only [c, dif_neg, not_false_iff]
        exact continuous_const
    have h2 : Continuous fun p : (Fin N → ℝ) × (Fin N → ℝ) =>
        (∑ e ∈ range N, Q d e * Spec.ext p.1 e, ∑ e ∈ range N, Q d e * Spec.ext p.2 e) :=
      (continuous_finsetSum _ fun e _ => continuous_const.mul ((he e).comp continuous_fst)).prodMk
        (continuous_finsetSum _ fun e _ => continuous_const.mul ((he e).comp continuous_snd))
    exact (hl d).comp h2
  · obtain ⟨o, h1, h2⟩ := C24_is_dft h hh Nt hNt heven N m Q T loc U w
    refine ⟨o, h1, fun i hi k hk => ?_⟩
    rw [h2 i hi k hk]
    congr 1
    funext j
    unfold instLaw
    refine sum_congr rfl fun d _ => ?_
    have e : deriv (localMotion N Q h U d) (2 * Real.pi * j / Nt)
        = ∑ e ∈ range N, Q d e * deriv (series h (fun r => U (r * N + e))) (2 * Real.pi * j / Nt) := by
      refine HasDerivAt.deriv ?_
      exact HasDerivAt.fun_sum fun e _ => ((series_deriv h (fun r => U (r * N + e))).2 _).const_mul (Q d e)
    beta_reduce
    rw [e, mul_sum]
    congr 3
    exact sum_congr rfl fun e _ => by ring

/-! ## Example: a forced oscillator with a unilateral spring -/

/-- Harmonics `0, 1, …, n + 1`. -/
def growH (n : ℕ) : List ℕ := 0 :: List.range' 1 (n + 1)

theorem growH_mem (n k : ℕ) : k ∈ growH n ↔ k ≤ n + 1 := by
  simp only [growH, List.mem_cons, List.mem_range'_1]
  omega

theorem growH_admissible (n : ℕ) : Admissible (growH n) := by
  have hs : (growH n).Pairwise (· < ·) := by
    unfold growH
    rw [List.pairwise_cons]
    refine ⟨fun a ha => ?_, List.pairwise_lt_range'⟩
    rw [List.mem_range'_1] at ha
    omega
  refine ⟨by simp [growH], hs.imp fun h => h.ne, ?_⟩
  simp [growH]

theorem coefOf_range (n a : ℕ) (ha : a ≠ 0) (c : ℕ → ℝ) (m : ℕ) (h1 : a ≤ m) (h2 : m < a + n) :
    coefOf (List.range' a n) c m = (c (2 * (m - a)), c (2 * (m - a) + 1)) := by
  induction n generalizing a c with
  | zero => omega
  | succ n ih =>
    rw [List.range'_succ]
    simp only [coefOf, ha, if_false]
    by_cases e : a = m
    · subst e
      simp
    · rw [if_neg e, ih (a + 1) (by omega) _ (by omega) (by omega)]
      have e1 : 2 * (m - (a + 1)) + 2 = 2 * (m - a) := by omega
      have e2 : 2 * (m - (a + 1)) + 1 + 2 = 2 * (m - a) + 1 := by omega
      rw [e1, e2]

theorem numCoeff_growH (n : ℕ) : numCoeff (growH n) = 2 * n + 3 := by
  have : ∀ n a, a ≠ 0 → numCoeff (List.range' a n) = 2 * n := by
    intro n
    induction n with
    | zero => intro a _; rfl
    | succ n ih =>
      intro a ha
      rw [List.range'_succ]
      simp only [numCoeff, ha, if_false]
      rw [ih (a + 1) (by omega)]
      ring
  simp only [growH, numCoeff, if_true]
  rw [this _ _ one_ne_zero]
  ring

/-- Mass 1, stiffness 3, damping 1 and a unilateral spring of stiffness 1. -/
def pushLoc : ℕ → ℝ → ℝ → Loc := unilateralLoc (fun _ => 1) (fun _ => 0) (fun _ => 0)

def pushForce : NLForce := instForce 1 1 (fun _ _ => 1) (fun _ _ => 1) pushLoc
  (unilateralForce 1 1 (fun _ _ => 1) (fun _ _ => 1) (fun _ => 1) (fun _ => 0) (fun _ => 0))

def pushSys : VibSys := ⟨1, fun _ _ => 1, fun _ _ => 3, fun _ _ => 1, none, [pushForce]⟩

def pushLaw (_ : NLForce) : (ℕ → ℝ) → (ℕ → ℝ) → ℕ → ℝ := instLaw 1 1 (fun _ _ => 1) (fun _ _ => 1) pushLoc

/-- The forcing that makes `cos t` a motion. -/
def pushP (_ : ℕ) (τ : ℝ) : ℝ := 2 * Real.cos τ - Real.sin τ + max (Real.cos τ) 0

/-- Its coefficients in the order of `growH`. -/
def pushFl (_ : ℕ) (r : ℕ) : ℝ :=
  if r = 0 then (fourierCS (pushP 0) 0).1 else if r % 2 = 1 then (fourierCS (pushP 0) ((r + 1) / 2)).1 else (fourierCS (pushP 0) (r / 2)).2

/-- Points with a displacement `(1 + 1/(n+1)) cos τ` at the frequency `1 + 1/(n+1)`. -/
def pushZ (n r : ℕ) : ℝ := if r = 1 then 1 + 1 / ((n:ℝ) + 1) else if r = 2 * n + 3 then 1 + 1 / ((n:ℝ) + 1) else 0

theorem pushZ_series (n : ℕ) : series (growH n) (fun r => pushZ n (r * 1 + 0)) = fun τ => (1 + 1 / ((n:ℝ) + 1)) * Real.cos τ := by
  funext τ
  have e : ∀ r < numCoeff (growH n), pushZ n (r * 1 + 0) = (1 + 1 / ((n:ℝ) + 1)) * (if r = 1 then 1 else 0) := by
    intro r hr
    rw [numCoeff_growH] at hr
    unfold pushZ
    have : r ≠ 2 * n + 3 := by omega
    by_cases c : r = 1 <;> simp [c, this]
  rw [series_congr e, series_smul]
  congr 1
  unfold growH
  rw [List.range'_succ]
  simp only [series]
  have z := series_smul (List.range' (1 + 1) n) (0:ℝ) (fun _ => 0) τ
  simp only [mul_zero, zero_mul] at z
  norm_num
  simpa using z

theorem pushP_cont : Continuous (pushP 0) := by
  unfold pushP
  fun_prop

theorem pushLoc_cont (d : ℕ) : Continuous fun p : ℝ × ℝ => (pushLoc d p.1 p.2).f := by
  simp only [pushLoc, unilateralLoc]
  fun_prop

theorem push_refines (tol : ℝ) : Refines pushSys pushLaw pushP tol growH (fun n => 2 * n + 6) pushZ pushFl 1
    (fun τ _ => Real.cos τ) (fun τ _ => -Real.sin τ) := by
  have hs : ∀ n, ∀ k ∈ growH n, 2*k + 1 < 2 * n + 6 := by
    intro n k hk
    rw [growH_mem] at hk
    omega
  have ha : Tendsto (fun n : ℕ => 1 + 1 / ((n:ℝ) + 1)) atTop (𝓝 1) := by
    simpa using tendsto_one_div_add_atTop_nhds_zero_nat.const_add (1:ℝ)
  have hunif : ∀ g : ℝ → ℝ, (∀ τ, |g τ| ≤ 1) → TendstoUniformly (fun (n : ℕ) τ => (1 + 1 / ((n:ℝ) + 1)) * g τ) g atTop := by
    intro g hg
    rw [Metric.tendstoUniformly_iff]
    intro ε hε
    filter_upwards [(Metric.tendsto_nhds.1 ha) ε hε] with n hn τ
    rw [Real.dist_eq] at hn ⊢
    have : g τ - (1 + 1 / ((n:ℝ) + 1)) * g τ = -((1 + 1 / ((n:ℝ) + 1) - 1) * g τ) := by ring
    rw [this, abs_neg, abs_mul]
    calc _ ≤ |1 + 1 / ((n:ℝ) + 1) - 1| * 1 := mul_le_mul_of_nonneg_left (hg τ) (abs_nonneg _)
      _ < ε := by rwa [mul_one]
  refine ⟨growH_admissible, hs, fun k => ?_, fun f hf => ?_, fun d hd => ?_, ?_, fun e he => ?_, fun e he => ?_⟩
  · filter_upwards [eventually_ge_atTop k] with n hn
    rw [growH_mem]
    omega
  · have : f = pushForce := by simpa [pushSys] using hf
    subst this
    have hI := fun n => C138_instantaneous (growH_admissible n) (hs n) (⟨n + 3, by ring⟩) tol 1 1 (fun _ _ => 1) (fun _ _ => 1)
      pushLoc pushLoc_cont (unilateralForce 1 1 (fun _ _ => 1) (fun _ _ => 1) (fun _ => 1) (fun _ => 0) (fun _ => 0))
    exact ⟨(hI 0).1, fun n => (hI n).2⟩
  · have hd0 : d = 0 := by
      change d < 1 at hd
      omega
    subst hd0
    refine ⟨⟨pushP_cont, fun τ => by simp [pushP]⟩, fun n k hk => ?_⟩
    rw [growH_mem] at hk
    by_cases c : k = 0
    · subst c
      simp only [growH, coefOf, if_true, pushSys, pushFl]
      simp [fourierCS]
    · simp only [growH, coefOf, if_neg (Ne.symm c), if_true]
      rw [coefOf_range _ _ one_ne_zero _ k (by omega) (by omega)]
      have e1 : (2 * (k - 1) + 1) * 1 + 0 = 2 * k - 1 := by omega
      have e2 : (2 * (k - 1) + 1 + 1) * 1 + 0 = 2 * k := by omega
      change (pushFl n ((2 * (k - 1) + 1) * 1 + 0), pushFl n ((2 * (k - 1) + 1 + 1) * 1 + 0)) = _
      rw [e1, e2]
      have a1 : 2 * k - 1 ≠ 0 := by omega
      have a2 : (2 * k - 1) % 2 = 1 := by omega
      have a3 : (2 * k - 1 + 1) / 2 = k := by omega
      have a4 : 2 * k ≠ 0 := by omega
      have a5 : ¬ (2 * k) % 2 = 1 := by omega
      have a6 : 2 * k / 2 = k := by omega
      simp only [pushFl, if_neg a1, if_pos a2, a3, if_neg a4, if_neg a5, a6]
  · refine ha.congr fun n => ?_
    have : numCoeff (growH n) * pushSys.nd = 2 * n + 3 := by
      rw [numCoeff_growH]
      exact mul_one _
    rw [this]
    simp [pushZ]
  · have he0 : e = 0 := by
      change e < 1 at he
      omega
    subst he0
    have e1 : (fun n τ => series (growH n) (fun r => pushZ n (r * pushSys.nd + 0)) τ)
        = fun (n : ℕ) τ => (1 + 1 / ((n:ℝ) + 1)) * Real.cos τ := funext fun n => pushZ_series n
    rw [e1]
    exact hunif _ Real.abs_cos_le_one
  · have he0 : e = 0 := by
      change e < 1 at he
      omega
    subst he0
    have e1 : (fun n τ => deriv (series (growH n) (fun r => pushZ n (r * pushSys.nd + 0))) τ)
        = fun (n : ℕ) τ => (1 + 1 / ((n:ℝ) + 1)) * -Real.sin τ := by
      funext n τ
      have := pushZ_series n
      change deriv (series (growH n) (fun r => pushZ n (r * 1 + 0))) τ = _
      rw [this]
      exact ((Real.hasDerivAt_cos τ).const_mul _).deriv
    rw [e1]
    exact hunif (fun τ => -Real.sin τ) fun τ => by rw [abs_neg]; exact Real.abs_sin_le_one τ

/-- Points whose frequency and displacement differ from the motion `cos t` of the forced oscillator with contact by `1/(n+1)`:
the residual of every harmonic tends to zero. -/
example : ∃ (R : ℕ → ℕ → ℝ) (g : ℕ → (ℕ → ℕ → ℝ) × (ℕ → ℝ)),
    (∀ n, hbmRes pushSys (pushZ n) (pushFl n) (growH n) (2 * n + 6) 0 true = .ok ⟨R n, some (g n)⟩) ∧
    ∀ k : ℕ, Tendsto (fun n => coefOf (growH n) (fun r => R n (r * 1 + 0)) k) atTop (𝓝 0) := by
  obtain ⟨R, g, h1, h2⟩ := C138_limit (push_refines 0) one_ne_zero
  refine ⟨R, g, h1, h2.2 ⟨fun t i _ => ?_, fun t i _ => ?_, fun t i _ => ?_⟩ 0 one_pos⟩
  · simp only [one_mul]
    exact Real.hasDerivAt_cos t
  · simp only [one_mul, pushSys, range_one, sum_singleton]
    refine (Real.hasDerivAt_sin t).neg.congr_deriv ?_
    simp only [pushP, totalLaw, pushLaw, instLaw, pushLoc, unilateralLoc, List.map_cons, List.map_nil, List.sum_cons, List.sum_nil,
      range_one, sum_singleton, one_mul, sub_zero, neg_zero]
    ring
  · simp

end

end TMD
