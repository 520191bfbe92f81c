import Verif.Props.FrictionPower
import Verif.Props.FrictionShift
import Verif.Props.Alias
import Verif.Props.Shift
import Mathlib.Topology.Algebra.Polynomial

/-!
# C139: the sign of the modal damping

EPMC reports a damping for every amplitude. If no force object puts energy into the motion, it is not negative. Dampers never
put energy in; polynomial springs do no work when the samples are enough for their degree; sliders take energy. Other springs can
do work because of the samples: an undamped system with a unilateral spring then has a negative damping.
-/

namespace TMD

open Spec Finset

noncomputable section

/-- The harmonic forces of `f` put no energy into the motion `U` of frequency `w`. -/
def Passive (f : NLForce) (nd : ℕ) (h : List ℕ) (Nt : ℕ) (tol : ℝ) (U : ℕ → ℝ) (w : ℝ) : Prop :=
  ∃ o, f.aft U w h Nt tol = .ok o ∧ 0 ≤ periodWork nd w (velocityOf nd h U w) (periodicOf nd h o.F w)

/-- The harmonic forces of `f` do no work along the motion `U` of frequency `w`. -/
def Workless (f : NLForce) (nd : ℕ) (h : List ℕ) (Nt : ℕ) (tol : ℝ) (U : ℕ → ℝ) (w : ℝ) : Prop :=
  ∃ o, f.aft U w h Nt tol = .ok o ∧ periodWork nd w (velocityOf nd h U w) (periodicOf nd h o.F w) = 0

theorem continuous_velocityOf {h : List ℕ} (hh : Admissible h) (nd : ℕ) (U : ℕ → ℝ) {w : ℝ} (hw : w ≠ 0) (d : ℕ) :
    Continuous (velocityOf nd h U w d) :=
  continuous_iff_continuousAt.2 fun t => ((periodic_facts hh.nodup nd U hw d).2.1 t).continuousAt

theorem work_list {α : Type} {h : List ℕ} (hh : Admissible h) (nd : ℕ) (U : ℕ → ℝ) {w : ℝ} (hw : w ≠ 0) (l : List α) (F : α → ℕ → ℝ) :
    periodWork nd w (velocityOf nd h U w) (periodicOf nd h (fun i => (l.map fun f => F f i).sum) w)
      = (l.map fun f => periodWork nd w (velocityOf nd h U w) (periodicOf nd h (F f) w)).sum := by
  induction l with
  | nil =>
    have e : periodicOf nd h (fun i => (([] : List α).map fun f => F f i).sum) w = fun _ _ => 0 := by
      funext d t
      have := series_smul h (0:ℝ) (fun _ => 0) (w * t)
      simpa [periodicOf] using this
    rw [e]
    simp [periodWork]
  | cons a l ih =>
    have e : periodicOf nd h (fun i => ((a :: l).map fun f => F f i).sum) w
        = fun d t => periodicOf nd h (F a) w d t + periodicOf nd h (fun i => (l.map fun f => F f i).sum) w d t := by
      funext d t
      simp only [periodicOf, List.map_cons, List.sum_cons]
      exact series_add h _ _ _
    rw [e, periodWork_add nd w (continuous_velocityOf hh nd U hw) (continuous_periodicOf nd h _ w) (continuous_periodicOf nd h _ w), ih,
      List.map_cons, List.sum_cons]

theorem matrix_work {h : List ℕ} (nd : ℕ) (U : ℕ → ℝ) {w : ℝ} (hw : 0 < w) (B : ℕ → ℕ → ℝ)
    (hB : ∀ v : ℕ → ℝ, 0 ≤ ∑ d ∈ range nd, v d * ∑ e ∈ range nd, B d e * v e) :
    0 ≤ periodWork nd w (velocityOf nd h U w) (onVelocity nd B (velocityOf nd h U w)) :=
  intervalIntegral.integral_nonneg (by positivity) fun t _ => hB fun d => velocityOf nd h U w d t

theorem harmonicMass_nonneg (nd : ℕ) (M : ℕ → ℕ → ℝ) (hM : ∀ v : ℕ → ℝ, 0 ≤ ∑ d ∈ range nd, v d * ∑ e ∈ range nd, M d e * v e)
    (h : List ℕ) (U : ℕ → ℝ) (k : ℕ) : 0 ≤ harmonicMass nd M h U k := by
  have h1 := hM fun d => (coefOf h (fun r => U (r * nd + d)) k).1
  have h2 := hM fun d => (coefOf h (fun r => U (r * nd + d)) k).2
  have e : harmonicMass nd M h U k
      = ∑ d ∈ range nd, (coefOf h (fun r => U (r * nd + d)) k).1 * ∑ e ∈ range nd, M d e * (coefOf h (fun r => U (r * nd + e)) k).1
        + ∑ d ∈ range nd, (coefOf h (fun r => U (r * nd + d)) k).2 * ∑ e ∈ range nd, M d e * (coefOf h (fun r => U (r * nd + e)) k).2 := by
    unfold harmonicMass
    rw [← sum_add_distrib]
    refine sum_congr rfl fun d _ => ?_
    rw [mul_sum, mul_sum, ← sum_add_distrib]
    exact sum_congr rfl fun e _ => by ring
  rw [e]
  exact add_nonneg h1 h2

/-- C139: at a solution of the EPMC equations the damping coefficient `ξ` has the sign of the energy that damping matrix and
force objects take out of the motion: `ξ` times a positive number is their work. -/
theorem C139_sign_partial (S : VibSys) (hM : ∀ d < S.nd, ∀ e < S.nd, S.M d e = S.M e d) (hK : ∀ d < S.nd, ∀ e < S.nd, S.K d e = S.K e d)
    (hMp : ∀ v : ℕ → ℝ, 0 ≤ ∑ d ∈ range S.nd, v d * ∑ e ∈ range S.nd, S.M d e * v e)
    (hC : ∀ v : ℕ → ℝ, 0 ≤ ∑ d ∈ range S.nd, v d * ∑ e ∈ range S.nd, S.C d e * v e)
    (h : List ℕ) (hh : Admissible h) (h1 : ∃ hs, h = 1 :: hs ∨ h = 0 :: 1 :: hs) (Nt : ℕ) (tol : ℝ)
    (hok : ∀ f ∈ S.forces, ∀ U w, ∃ o, f.aft U w h Nt tol = .ok o)
    (X Fl R : ℕ → ℝ) (g : Option ((ℕ → ℕ → ℝ) × (ℕ → ℝ))) (hw : 0 < X (numCoeff h * S.nd))
    (hR : epmcRes S X Fl h Nt tol true = .ok ⟨R, g⟩) (h0 : ∀ i < numCoeff h * S.nd + 2, R i = 0) :
    let L := numCoeff h * S.nd
    let U := sl 0 L (scaledForcing S.nd h X ((10:ℝ) ^ X (L + 2)))
    ((∀ f ∈ S.forces, Passive f S.nd h Nt tol U (X L)) → 0 ≤ X (L + 1)) ∧
    ((∀ f ∈ S.forces, Workless f S.nd h Nt tol U (X L)) → (∀ d < S.nd, ∀ e < S.nd, S.C d e = 0) → X (L + 1) = 0) ∧
    ((∀ f ∈ S.forces, Passive f S.nd h Nt tol U (X L)) → (∃ f ∈ S.forces, ¬ Workless f S.nd h Nt tol U (X L)) → 0 < X (L + 1)) := by
  intro L U
  obtain ⟨n, hn⟩ := exists_bound h
  have hA : ∀ f ∈ S.forces, ∀ U w, f.aft U w h Nt tol = .ok (aftVal h Nt tol f U w) := by
    intro f hf U w
    obtain ⟨o, e⟩ := hok f hf U w
    simp only [aftVal, e]
  have key := C91_dissipation S hM hK h hh h1 n (fun k hk => (hn k hk).trans (by omega)) Nt tol _ hA X Fl R g hw.ne' hR h0
  simp only at key
  rw [work_list hh S.nd _ hw.ne'] at key
  have hpos : 0 < Real.pi * X L * ((10:ℝ) ^ X (L + 2)) ^ 2
      * (1 + ∑ k ∈ range n, ((k + 2 : ℕ) : ℝ) ^ 2 * harmonicMass S.nd S.M h X (k + 2)) := by
    have : 0 ≤ ∑ k ∈ range n, ((k + 2 : ℕ) : ℝ) ^ 2 * harmonicMass S.nd S.M h X (k + 2) :=
      sum_nonneg fun k _ => mul_nonneg (by positivity) (harmonicMass_nonneg _ _ hMp _ _ _)
    have hp : (0:ℝ) < (10:ℝ) ^ X (L + 2) := Real.rpow_pos_of_pos (by norm_num) _
    have := Real.pi_pos
    have hw' : 0 < X L := hw
    positivity
  have hc := matrix_work (h := h) S.nd U hw S.C hC
  have pas : ∀ f ∈ S.forces, Passive f S.nd h Nt tol U (X L) →
      0 ≤ periodWork S.nd (X L) (velocityOf S.nd h U (X L)) (periodicOf S.nd h (aftVal h Nt tol f U (X L)).F (X L)) := by
    rintro f hf ⟨o, e1, e2⟩
    rw [hA f hf] at e1
    cases e1
    exact e2
  have sumnn : (∀ f ∈ S.forces, Passive f S.nd h Nt tol U (X L)) → 0 ≤ (S.forces.map fun f =>
      periodWork S.nd (X L) (velocityOf S.nd h U (X L)) (periodicOf S.nd h (aftVal h Nt tol f U (X L)).F (X L))).sum := by
    intro hp
    refine List.sum_nonneg fun x hx => ?_
    obtain ⟨f, hf, rfl⟩ := List.mem_map.1 hx
    exact pas f hf (hp f hf)
  refine ⟨fun hp => ?_, fun hp hC0 => ?_, fun hp hex => ?_⟩
  · by_contra hneg
    have := mul_neg_of_neg_of_pos (not_le.1 hneg) hpos
    have := sumnn hp
    linarith [key]
  · have z : (S.forces.map fun f =>
        periodWork S.nd (X L) (velocityOf S.nd h U (X L)) (periodicOf S.nd h (aftVal h Nt tol f U (X L)).F (X L))).sum = 0 := by
      refine List.sum_eq_zero fun x hx => ?_
      obtain ⟨f, hf, rfl⟩ := List.mem_map.1 hx
      obtain ⟨o, e1, e2⟩ := hp f hf
      rw [hA f hf] at e1
      cases e1
      exact e2
    have zc : periodWork S.nd (X L) (velocityOf S.nd h U (X L)) (onVelocity S.nd S.C (velocityOf S.nd h U (X L))) = 0 := by
      unfold periodWork onVelocity
      have : ∀ t, ∑ d ∈ range S.nd, velocityOf S.nd h U (X L) d t * ∑ e ∈ range S.nd, S.C d e * velocityOf S.nd h U (X L) e t = 0 := by
        intro t
        refine sum_eq_zero fun d hd => ?_
        rw [sum_eq_zero fun e he => by rw [hC0 d (mem_range.1 hd) e (mem_range.1 he), zero_mul], mul_zero]
      simp only [this, intervalIntegral.integral_zero]
    have k2 : X (L + 1) * (Real.pi * X L * ((10:ℝ) ^ X (L + 2)) ^ 2
      * (1 + ∑ k ∈ range n, ((k + 2 : ℕ) : ℝ) ^ 2 * harmonicMass S.nd S.M h X (k + 2))) = 0 := by
      rw [← key]
      linarith [z, zc]
    exact (mul_eq_zero.1 k2).resolve_right hpos.ne'
  · obtain ⟨f, hf, hne⟩ := hex
    have hlt : 0 < (S.forces.map fun f =>
        periodWork S.nd (X L) (velocityOf S.nd h U (X L)) (periodicOf S.nd h (aftVal h Nt tol f U (X L)).F (X L))).sum := by
      refine lt_of_lt_of_le ?_ (List.single_le_sum (fun x hx => ?_) _ (List.mem_map.2 ⟨f, hf, rfl⟩))
      · refine lt_of_le_of_ne (pas f hf (hp f hf)) fun e => hne ⟨_, hA f hf _ _, e.symm⟩
      · obtain ⟨f, hf, rfl⟩ := List.mem_map.1 hx
        exact pas f hf (hp f hf)
    by_contra hneg
    have := mul_nonpos_of_nonpos_of_nonneg (not_lt.1 hneg) hpos.le
    linarith [key]

/-- C139: with passive force objects the excitation puts energy into every solution of the harmonic balance equations. -/
theorem C139_excitation_partial (S : VibSys) (hM : ∀ d < S.nd, ∀ e < S.nd, S.M d e = S.M e d) (hK : ∀ d < S.nd, ∀ e < S.nd, S.K d e = S.K e d)
    (hC : ∀ v : ℕ → ℝ, 0 ≤ ∑ d ∈ range S.nd, v d * ∑ e ∈ range S.nd, S.C d e * v e)
    (h : List ℕ) (hh : Admissible h) (Nt : ℕ) (tol : ℝ) (hok : ∀ f ∈ S.forces, ∀ U w, ∃ o, f.aft U w h Nt tol = .ok o)
    (Z Fl R : ℕ → ℝ) (g : Option ((ℕ → ℕ → ℝ) × (ℕ → ℝ))) (hw : 0 < Z (numCoeff h * S.nd))
    (hR : hbmRes S Z Fl h Nt tol true = .ok ⟨R, g⟩) (h0 : ∀ i < numCoeff h * S.nd, R i = 0) :
    let w := Z (numCoeff h * S.nd)
    let U := sl 0 (numCoeff h * S.nd) Z
    (∀ f ∈ S.forces, Passive f S.nd h Nt tol U w) → 0 ≤ periodWork S.nd w (velocityOf S.nd h U w) (periodicOf S.nd h Fl w) := by
  intro w U hp
  have hA : ∀ f ∈ S.forces, ∀ U w, f.aft U w h Nt tol = .ok (aftVal h Nt tol f U w) := by
    intro f hf U w
    obtain ⟨o, e⟩ := hok f hf U w
    simp only [aftVal, e]
  have key := C91_hbm S hM hK h hh Nt tol _ hA Z Fl R g hw.ne' hR h0
  simp only at key
  rw [work_list hh S.nd _ hw.ne'] at key
  rw [← key]
  refine add_nonneg (matrix_work S.nd _ hw S.C hC) (List.sum_nonneg fun x hx => ?_)
  obtain ⟨f, hf, rfl⟩ := List.mem_map.1 hx
  obtain ⟨o, e1, e2⟩ := hp f hf
  rw [hA f hf] at e1
  cases e1
  exact e2

/-! ## The force objects -/

section objects

variable {h : List ℕ} (hh : Admissible h) {Nt : ℕ} (hNt : ∀ k ∈ h, 2*k + 1 < Nt) (heven : Even Nt) (tol : ℝ)
  (N m : ℕ) (Q T : ℕ → ℕ → ℝ) (hT : ∀ i e, T i e = Q e i) (loc : ℕ → ℝ → ℝ → Loc) (force : (ℕ → ℝ) → (ℕ → ℝ) × (ℕ → ℕ → ℝ))
  (U : ℕ → ℝ) {w : ℝ} (hw : 0 < w)

include hh hNt heven hT hw

/-- C139: dampers take energy, for all harmonics and numbers of samples, without any error from sampling. -/
theorem C139_dampers_partial (hl : ∀ d u v, 0 ≤ (loc d u v).f * v) : Passive (instForce N m Q T loc force) N h Nt tol U w := by
  obtain ⟨o, h1, h2⟩ := C24_is_dft h hh Nt hNt heven N m Q T loc U w
  refine ⟨o, h1, ?_⟩
  rw [work_local hh N m Q T hT U _ hw.ne' _ h2]
  refine mul_nonneg (by positivity) (sum_nonneg fun j _ => sum_nonneg fun e _ => ?_)
  have := hl e (localMotion N Q h U e (2 * Real.pi * j / Nt)) (w * deriv (localMotion N Q h U e) (2 * Real.pi * j / Nt))
  rw [mul_left_comm] at this
  exact (mul_nonneg_iff_of_pos_left hw).1 this

/-- C139: springs with polynomial forces of degree at most `p` do no work if there are more than `(p + 1) H` samples. -/
theorem C139_springs_partial (H p : ℕ) (hH : ∀ k ∈ h, k ≤ H) (hp : (p + 1) * H < Nt) (P : ℕ → Polynomial ℝ)
    (hP : ∀ d, (P d).natDegree ≤ p) (hl : ∀ d u v, (loc d u v).f = (P d).eval u) : Workless (instForce N m Q T loc force) N h Nt tol U w := by
  obtain ⟨o, h1, h2⟩ := C24_is_dft h hh Nt hNt heven N m Q T loc U w
  refine ⟨o, h1, ?_⟩
  rw [work_local hh N m Q T hT U _ hw.ne' _ h2]
  simp only [hl]
  rw [sum_comm, sum_eq_zero, mul_zero]
  intro e _
  -- `f u'` is the derivative of a trigonometric polynomial
  set u := localMotion N Q h U e with hu
  have tu : Trig H u := Trig.localMotion hH N Q U e
  obtain ⟨u', tu', du⟩ := tu.hasDerivAt
  have eu : deriv u = u' := funext fun x => (du x).deriv
  have tP : Trig (p * H) fun τ => (P e).eval (u τ) := by
    have : (fun τ => (P e).eval (u τ)) = fun τ => ∑ i ∈ range ((P e).natDegree + 1), (P e).coeff i * u τ ^ i :=
      funext fun τ => Polynomial.eval_eq_sum_range (u τ)
    rw [this]
    refine Trig.sum _ fun i hi => Trig.smul _ ((tu.pow i).mono (Nat.mul_le_mul_right _ ?_))
    have := mem_range.1 hi
    have := hP e
    omega
  have tg : Trig ((p + 1) * H) fun τ => (P e).eval (u τ) * u' τ := by
    have := tP.mul tu'
    rwa [show p * H + H = (p + 1) * H by ring] at this
  have hq := tg.quadrature hp
  have hint : ∫ τ in (0:ℝ)..(2 * Real.pi), (P e).eval (u τ) * u' τ = 0 := by
    let V : ℝ → ℝ := fun x => ∫ s in (0:ℝ)..x, (P e).eval s
    have hV : ∀ x, HasDerivAt V ((P e).eval x) x := fun x =>
      ((P e).continuous.integral_hasStrictDerivAt 0 x).hasDerivAt
    have hd : ∀ τ, HasDerivAt (fun τ => V (u τ)) ((P e).eval (u τ) * u' τ) τ := fun τ => (hV (u τ)).comp τ (du τ)
    rw [intervalIntegral.integral_eq_sub_of_hasDerivAt (fun τ _ => hd τ) (tg.continuous.intervalIntegrable _ _)]
    have := tu.periodic 0
    rw [zero_add] at this
    rw [this, sub_self]
  rw [hint, zero_div] at hq
  have hN : (Nt:ℝ) ≠ 0 := by
    have : 0 < Nt := by omega
    positivity
  rw [eu]
  exact (div_eq_zero_iff.1 hq).resolve_right hN

end objects

/-- C139: Jenkins elements (JAX) take energy from motions with one harmonic. -/
theorem C139_jenkins_partial {h : List ℕ} {k : ℕ} (h1 : OneHarmonic h k) (Nt : ℕ) (hNt : 2 * k + 1 < Nt) (heven : Even Nt) (tol : ℝ)
    (N : ℕ) (Q T : ℕ → ℕ → ℝ) (hT : ∀ i e, T i e = Q e i) {kt Fs : ℝ} (hk : 0 < kt) (hF : 0 ≤ Fs) (u0 : EdfU0) (f : NLForce)
    (hf : ∀ U w, aftForce (f.aft U w h Nt tol) = (PForce.jaxJenkins N Q T kt Fs u0).aftF U w h Nt) (U : ℕ → ℝ) {w : ℝ} (hw : 0 < w) :
    Passive f N h Nt tol U w := by
  obtain ⟨F, e1, e2⟩ := C136_jax_jenkins_partial h1 Nt hNt heven N Q T hT hk hF u0 U hw.ne'
  rw [← hf] at e1
  cases e : f.aft U w h Nt tol with
  | error e' => rw [e] at e1; simp [aftForce] at e1
  | ok o =>
    rw [e] at e1
    cases e1
    exact ⟨o, e, e2⟩

/-- C139: a system of polynomial springs, dampers and JAX Jenkins elements on one harmonic, sampled finely enough for the
springs, has EPMC solutions with `ξ ≥ 0` only. -/
theorem C139_system_partial (S : VibSys) (hM : ∀ d < S.nd, ∀ e < S.nd, S.M d e = S.M e d) (hK : ∀ d < S.nd, ∀ e < S.nd, S.K d e = S.K e d)
    (hMp : ∀ v : ℕ → ℝ, 0 ≤ ∑ d ∈ range S.nd, v d * ∑ e ∈ range S.nd, S.M d e * v e)
    (hC : ∀ v : ℕ → ℝ, 0 ≤ ∑ d ∈ range S.nd, v d * ∑ e ∈ range S.nd, S.C d e * v e)
    (h : List ℕ) (h1 : h = [1] ∨ h = [0, 1]) (Nt : ℕ) (hNt : 6 < Nt) (heven : Even Nt) (tol : ℝ)
    (hf : ∀ f ∈ S.forces, ∃ (m : ℕ) (Q T : ℕ → ℕ → ℝ), (∀ i e, T i e = Q e i) ∧
      ((∃ c, (∀ d, 0 ≤ c d) ∧ f = cubicDampingNL S.nd m Q T c) ∨ (∃ c, f = cubicNL S.nd m Q T c) ∨
        (∃ c, f = instForce S.nd m Q T (quinticLoc c) (quinticForce S.nd m Q T c)) ∨
        ∃ kt Fs u0, 0 < kt ∧ 0 ≤ Fs ∧ ∀ U w, aftForce (f.aft U w h Nt tol) = (PForce.jaxJenkins S.nd Q T kt Fs u0).aftF U w h Nt))
    (X Fl R : ℕ → ℝ) (g : Option ((ℕ → ℕ → ℝ) × (ℕ → ℝ))) (hw : 0 < X (numCoeff h * S.nd))
    (hR : epmcRes S X Fl h Nt tol true = .ok ⟨R, g⟩) (h0 : ∀ i < numCoeff h * S.nd + 2, R i = 0) :
    0 ≤ X (numCoeff h * S.nd + 1) := by
  have o1 : OneHarmonic h 1 := ⟨one_pos, h1⟩
  have hA := (oneHarmonic_admissible o1).1
  have hall := oneHarmonic_lt o1 (Nt := Nt) (by omega)
  have hH : ∀ k ∈ h, k ≤ 1 := by rcases h1 with rfl | rfl <;> simp
  have pas : ∀ f ∈ S.forces, ∀ U w, 0 < w → Passive f S.nd h Nt tol U w := by
    intro f hf' U w hw
    obtain ⟨m, Q, T, hT, ⟨c, hc, rfl⟩ | ⟨c, rfl⟩ | ⟨c, rfl⟩ | ⟨kt, Fs, u0, hk, hF, e⟩⟩ := hf f hf'
    · refine C139_dampers_partial hA hall heven tol S.nd m Q T hT _ _ U hw fun d u v => ?_
      simp only [cubicDampingLoc]
      have := mul_nonneg (hc d) (sq_nonneg (v ^ 2))
      nlinarith [this]
    · obtain ⟨o, e1, e2⟩ := C139_springs_partial hA hall heven tol S.nd m Q T hT (cubicLoc c) (cubicForce S.nd m Q T c) U hw 1 3 hH
        (by omega) (fun d => Polynomial.C (c d) * Polynomial.X ^ 3) (fun d => Polynomial.natDegree_C_mul_X_pow_le _ _)
        (fun d u v => by simp [cubicLoc])
      exact ⟨o, e1, e2.ge⟩
    · obtain ⟨o, e1, e2⟩ := C139_springs_partial hA hall heven tol S.nd m Q T hT (quinticLoc c) (quinticForce S.nd m Q T c) U hw 1 5 hH
        (by omega) (fun d => Polynomial.C (c d) * Polynomial.X ^ 5) (fun d => Polynomial.natDegree_C_mul_X_pow_le _ _)
        (fun d u v => by simp [quinticLoc])
      exact ⟨o, e1, e2.ge⟩
    · exact C139_jenkins_partial o1 Nt (by omega) heven tol S.nd Q T hT hk hF u0 f e U hw
  have hok : ∀ f ∈ S.forces, ∀ U w, ∃ o, f.aft U w h Nt tol = .ok o := by
    intro f hf' U w
    obtain ⟨m, Q, T, hT, ⟨c, hc, rfl⟩ | ⟨c, rfl⟩ | ⟨c, rfl⟩ | ⟨kt, Fs, u0, hk, hF, e⟩⟩ := hf f hf'
    · exact (C24_is_dft h hA Nt hall heven S.nd m Q T _ U w).imp fun o ho => ho.1
    · exact (C24_is_dft h hA Nt hall heven S.nd m Q T _ U w).imp fun o ho => ho.1
    · exact (C24_is_dft h hA Nt hall heven S.nd m Q T _ U w).imp fun o ho => ho.1
    · obtain ⟨F, e1⟩ : ∃ F, (PForce.jaxJenkins S.nd Q T kt Fs u0).aftF U w h Nt = .ok F := by
        obtain ⟨F, e1, -⟩ := C136_jax_jenkins_partial o1 Nt (by omega) heven S.nd Q T hT hk hF u0 U one_ne_zero
        exact ⟨F, e1⟩
      rw [← e] at e1
      cases e2 : f.aft U w h Nt tol with
      | error e' => rw [e2] at e1; simp [aftForce] at e1
      | ok o => exact ⟨o, rfl⟩
  exact (C139_sign_partial S hM hK hMp hC h hA ⟨[], h1⟩ Nt tol hok X Fl R g hw hR h0).1 fun f hf => pas f hf _ _ hw

/-- Example: an oscillator with a cubic spring, a quintic spring and a cubic damper, eight samples. No solution of the EPMC
equations at a positive frequency has a negative damping. -/
example (X Fl R : ℕ → ℝ) (g : Option ((ℕ → ℕ → ℝ) × (ℕ → ℝ))) (hw : 0 < X 2) 
    (hR : epmcRes ⟨1, fun _ _ => 1, fun _ _ => 4, fun _ _ => 1 / 10, none, [cubicNL 1 1 eye eye (fun _ => 2),
      instForce 1 1 eye eye (quinticLoc fun _ => 3) (quinticForce 1 1 eye eye fun _ => 3), cubicDampingNL 1 1 eye eye (fun _ => 5)]⟩
      X Fl [1] 8 0 true = .ok ⟨R, g⟩) (h0 : ∀ i < 4, R i = 0) : 0 ≤ X 3 := by
  refine C139_system_partial ⟨1, fun _ _ => 1, fun _ _ => 4, fun _ _ => 1 / 10, none, [cubicNL 1 1 eye eye (fun _ => 2),
      instForce 1 1 eye eye (quinticLoc fun _ => 3) (quinticForce 1 1 eye eye fun _ => 3), cubicDampingNL 1 1 eye eye (fun _ => 5)]⟩
    (by simp) (by simp) (fun v => ?_) (fun v => ?_) [1] (Or.inl rfl) 8 (by norm_num) (by decide) 0 (fun f hf => ?_)
    X Fl R g hw hR h0
  · simp only [range_one, sum_singleton]
    nlinarith [sq_nonneg (v 0)]
  · simp only [range_one, sum_singleton]
    nlinarith [sq_nonneg (v 0)]
  · refine ⟨1, eye, eye, fun i e => by simp [eye, eq_comm], ?_⟩
    simp only [List.mem_cons, List.not_mem_nil, or_false] at hf
    rcases hf with rfl | rfl | rfl
    · exact Or.inr (Or.inl ⟨_, rfl⟩)
    · exact Or.inr (Or.inr (Or.inl ⟨_, rfl⟩))
    · exact Or.inl ⟨_, fun d => by norm_num, rfl⟩

/-! ## A conservative system with negative damping -/

/-- The motion whose largest sample is alone in contact. -/
def touchPhase (Nt : ℕ) : ℝ := Real.pi / (2 * Nt)

theorem touch_cos {Nt : ℕ} (hNt : 3 < Nt) {j : ℕ} (h1 : 1 ≤ j) (h2 : j < Nt) :
    Real.cos (2 * Real.pi * j / Nt + touchPhase Nt) ≤ Real.cos (3 * touchPhase Nt) := by
  have hN : (4:ℝ) ≤ Nt := by exact_mod_cast hNt
  have hN0 : (0:ℝ) < Nt := by linarith
  have hp := Real.pi_pos
  have hj1 : (1:ℝ) ≤ j := by exact_mod_cast h1
  have hj2 : (j:ℝ) + 1 ≤ Nt := by exact_mod_cast h2
  set a := touchPhase Nt with ha
  have ha0 : 0 < a := by rw [ha]; unfold touchPhase; positivity
  have e : 2 * Real.pi * j / Nt = 4 * j * a := by rw [ha]; unfold touchPhase; field_simp; ring
  have eN : 4 * Nt * a = 2 * Real.pi := by rw [ha]; unfold touchPhase; field_simp; ring
  rw [e]
  have l1 : 3 * a ≤ 4 * j * a + a := by nlinarith
  have l2 : 4 * j * a + a ≤ 2 * Real.pi - 3 * a := by rw [← eN]; nlinarith
  rcases le_total (4 * j * a + a) Real.pi with c | c
  · exact Real.cos_le_cos_of_nonneg_of_le_pi (by positivity) c l1
  · rw [← Real.cos_two_pi_sub]
    exact Real.cos_le_cos_of_nonneg_of_le_pi (by positivity) (by linarith) (by linarith)

/-- C139 is violated: for every even number of samples from 4 on there is an undamped oscillator with a unilateral spring, all
parameters positive, for which the EPMC equations have a solution with negative damping. -/
theorem C139_violated (Nt : ℕ) (hNt : 3 < Nt) (heven : Even Nt) :
    ∃ K gap : ℝ, 0 < K ∧ ∃ X Fl R g, 
      epmcRes ⟨1, fun _ _ => 1, fun _ _ => K, fun _ _ => 0, none, [instForce 1 1 (fun _ _ => 1) (fun _ _ => 1)
        (unilateralLoc (fun _ => 1) (fun _ => 0) (fun _ => gap))
        (unilateralForce 1 1 (fun _ _ => 1) (fun _ _ => 1) (fun _ => 1) (fun _ => 0) (fun _ => gap))]⟩ X Fl [1] Nt 0 true
        = .ok ⟨R, some g⟩ ∧ (∀ i < 4, R i = 0) ∧ 0 < X 2 ∧ X 3 < 0 := by
  have hN : (4:ℝ) ≤ Nt := by exact_mod_cast hNt
  have hN0 : (0:ℝ) < Nt := by linarith
  have hp := Real.pi_pos
  set a := touchPhase Nt with ha
  have ha0 : 0 < a := by rw [ha]; unfold touchPhase; positivity
  have ha1 : 8 * a ≤ Real.pi := by
    rw [ha]; unfold touchPhase
    rw [← mul_div_assoc, div_le_iff₀ (by positivity)]
    nlinarith
  set c := Real.cos a with hc
  set s := Real.sin a with hs
  set gap := Real.cos (3 * a) with hgap
  have hs0 : 0 < s := Real.sin_pos_of_pos_of_lt_pi ha0 (by linarith)
  have hgc : gap < c := Real.cos_lt_cos_of_nonneg_of_le_pi ha0.le (by linarith) (by linarith)
  have hg0 : 0 < gap := Real.cos_pos_of_mem_Ioo ⟨by linarith, by linarith⟩
  have hc0 : 0 < c := hg0.trans hgc
  have hc1 : c ≤ 1 := Real.cos_le_one a
  have hcs : c ^ 2 + s ^ 2 = 1 := by rw [hc, hs]; exact Real.cos_sq_add_sin_sq a
  set q := 2 / (Nt:ℝ) * (c - gap) with hq
  have hq0 : 0 < q := mul_pos (by positivity) (by linarith)
  have hq1 : q < 1 := by
    have h2 : 2 / (Nt:ℝ) ≤ 1 / 2 := by rw [div_le_div_iff₀ hN0 two_pos]; linarith
    rw [hq]
    nlinarith
  refine ⟨1 - q * c, gap, by nlinarith, ?_⟩
  set S : VibSys := ⟨1, fun _ _ => 1, fun _ _ => 1 - q * c, fun _ _ => 0, none, [instForce 1 1 (fun _ _ => 1) (fun _ _ => 1)
        (unilateralLoc (fun _ => 1) (fun _ => 0) (fun _ => gap))
        (unilateralForce 1 1 (fun _ _ => 1) (fun _ _ => 1) (fun _ => 1) (fun _ => 0) (fun _ => gap))]⟩ with hS
  -- displacement `cos (t + a)`, frequency 1
  let X : ℕ → ℝ := fun i => if i = 0 then c else if i = 1 then -s else if i = 2 then 1 else if i = 3 then -(q * s) else 0
  let Fl : ℕ → ℝ := fun i => if i = 0 then s else if i = 1 then c else 0
  have hh : Admissible [1] := ⟨by simp, by simp, by simp⟩
  have hall : ∀ k ∈ [1], 2 * k + 1 < Nt := by simpa using hNt
  have hA : ∀ f ∈ S.forces, ∀ U w, f.aft U w [1] Nt 0 = .ok (aftVal [1] Nt 0 f U w) := by
    intro f hf U w
    have : f = _ := List.mem_singleton.1 hf
    subst this
    obtain ⟨o, h1, -⟩ := C24_is_dft [1] hh Nt hall heven 1 1 (fun _ _ => 1) (fun _ _ => 1)
      (unilateralLoc (fun _ => 1) (fun _ => 0) (fun _ => gap)) U w
    simp only [aftVal, instForce, h1]
  obtain ⟨R, g, e1, e2⟩ := C49_motion S [1] hh ⟨[], Or.inl rfl⟩ Nt 0 _ hA X Fl (by simp [S, X, numCoeff])
  refine ⟨X, Fl, R, g, e1, ?_, by simp [X], by simp only [X]; norm_num; positivity⟩
  have hx : (fun t => series [1] (fun r => sl 0 (numCoeff [1] * S.nd) (scaledForcing S.nd [1] X ((10:ℝ) ^ X (numCoeff [1] * S.nd + 2)))
      (r * S.nd + 0)) (X (numCoeff [1] * S.nd) * t)) = fun t => Real.cos (t + a) := by
    funext t
    simp [series, sl, scaledForcing, numCoeff, S, X, Real.cos_add, hc, hs]
    ring
  have d1 : deriv (fun t : ℝ => Real.cos (t + a)) = fun t => -Real.sin (t + a) := by
    funext t
    simp
  have d2 : deriv (fun t : ℝ => -Real.sin (t + a)) = fun t => -Real.cos (t + a) := by
    funext t
    simp
  refine e2.2 ⟨fun d hd t => ?_, ?_, ?_⟩
  · have hd0 : d = 0 := by simp only [S] at hd; omega
    subst hd0
    set U := sl 0 (numCoeff [1] * S.nd) (scaledForcing S.nd [1] X ((10:ℝ) ^ X (numCoeff [1] * S.nd + 2))) with hU
    -- the harmonic forces
    obtain ⟨o, h1, h2⟩ := C24_is_dft [1] hh Nt hall heven 1 1 (fun _ _ => 1) (fun _ _ => 1)
      (unilateralLoc (fun _ => 1) (fun _ => 0) (fun _ => gap)) U 1
    have hm : ∀ τ, localMotion 1 (fun _ _ => 1) [1] U 0 τ = Real.cos (τ + a) := by
      intro τ
      have := congrFun hx τ
      simpa [localMotion, X, S, numCoeff] using this
    have hF := h2 0 one_pos 1 (by simp)
    have hsamp : ∀ j ∈ range Nt, max (1 * (Real.cos (2 * Real.pi * j / Nt + a) - gap) - 0) (-0) = if j = 0 then c - gap else 0 := by
      intro j hj
      by_cases c0 : j = 0
      · subst c0
        simp only [Nat.cast_zero, mul_zero, zero_div, zero_add, if_true, one_mul, sub_zero, neg_zero]
        exact max_eq_left (by linarith)
      · have := touch_cos hNt (Nat.one_le_iff_ne_zero.2 c0) (mem_range.1 hj)
        rw [if_neg c0, one_mul, sub_zero, neg_zero]
        exact max_eq_right (by linarith)
    have hco : o.F 0 = q ∧ o.F 1 = 0 := by
      simp only [coefOf, dft, range_one, sum_singleton, one_mul, unilateralLoc, hm] at hF
      have s1 : ∑ j ∈ range Nt, max (1 * (Real.cos (2 * Real.pi * j / Nt + a) - gap) - 0) (-0) * Real.cos ((1:ℕ) * (2 * Real.pi * j / Nt)) = c - gap := by
        rw [sum_congr rfl fun j hj => by rw [hsamp j hj]]
        rw [sum_eq_single_of_mem 0 (mem_range.2 (by omega)) fun j _ hj => by simp [hj]]
        simp
      have s2 : ∑ j ∈ range Nt, max (1 * (Real.cos (2 * Real.pi * j / Nt + a) - gap) - 0) (-0) * Real.sin ((1:ℕ) * (2 * Real.pi * j / Nt)) = 0 := by
        rw [sum_congr rfl fun j hj => by rw [hsamp j hj]]
        rw [sum_eq_single_of_mem 0 (mem_range.2 (by omega)) fun j _ hj => by simp [hj]]
        simp
      simp only [one_mul] at s1 s2
      rw [s1, s2] at hF
      simpa [hq] using hF
    have hser : series [1] (fun r => (S.forces.map fun f => (aftVal [1] Nt 0 f U (X (numCoeff [1] * S.nd))).F (r * S.nd + 0)).sum)
        (X (numCoeff [1] * S.nd) * t) = q * Real.cos t := by
      have hv : aftVal [1] Nt 0 (instForce 1 1 (fun _ _ => 1) (fun _ _ => 1)
        (unilateralLoc (fun _ => 1) (fun _ => 0) (fun _ => gap))
        (unilateralForce 1 1 (fun _ _ => 1) (fun _ _ => 1) (fun _ => 1) (fun _ => 0) (fun _ => gap))) U 1 = o := by
        simp only [aftVal, instForce, h1]
      have w1 : X (numCoeff [1] * S.nd) = 1 := by simp [X, S, numCoeff]
      rw [w1]
      simp only [hS, List.map_cons, List.map_nil, List.sum_cons, List.sum_nil, add_zero, hv, series]
      simp [hco.1, hco.2]
    rw [hser]
    simp only [S, range_one, sum_singleton] at hx ⊢
    rw [hx, d1, d2]
    have := congrFun hx t
    rw [this]
    have hz : series [1] (fun r => scaledForcing 1 [1] Fl 0 (r * 1 + 0)) (X (numCoeff [1] * 1) * t) = 0 := by
      simp [series, scaledForcing]
    rw [hz]
    have hX3 : X (numCoeff [1] * 1 + 1) = -(q * s) := by simp [X, numCoeff]
    rw [hX3]
    have ct : Real.cos t = Real.cos (t + a) * c + Real.sin (t + a) * s := by
      rw [hc, hs, ← Real.cos_sub]
      congr 1
      ring
    rw [ct]
    ring
  · simp [modalMass, S, X, coefOf]
    nlinarith [hcs]
  · simp [S, X, Fl, numCoeff, sum_range_succ]
    ring

end

end TMD
