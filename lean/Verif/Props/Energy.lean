import Verif.Props.Epmc
import Verif.Lemmas.Energy

/-!
# Property C91: energy balance of periodic solutions
-/

namespace TMD

open Spec Finset

noncomputable section

/-- Work over one period `2π/w` of the forces `f` along velocities `v`. -/
def periodWork (nd : ℕ) (w : ℝ) (v f : ℕ → ℝ → ℝ) : ℝ := ∫ t in (0:ℝ)..2 * Real.pi / w, ∑ d ∈ range nd, v d t * f d t

/-- The periodic motion (or force) of degree of freedom `d` with the coefficients `U`. -/
def periodicOf (nd : ℕ) (h : List ℕ) (U : ℕ → ℝ) (w : ℝ) (d : ℕ) (t : ℝ) : ℝ := series h (fun r => U (r * nd + d)) (w * t)

/-- Velocity of that motion. -/
def velocityOf (nd : ℕ) (h : List ℕ) (U : ℕ → ℝ) (w : ℝ) (d : ℕ) : ℝ → ℝ := deriv (periodicOf nd h U w d)

/-- Matrix times velocities. -/
def onVelocity (nd : ℕ) (B : ℕ → ℕ → ℝ) (v : ℕ → ℝ → ℝ) (d : ℕ) (t : ℝ) : ℝ := ∑ e ∈ range nd, B d e * v e t

theorem periodicOf_trig {h : List ℕ} (hn : h.Nodup) {n : ℕ} (hle : ∀ k ∈ h, k ≤ n) (nd : ℕ) (U : ℕ → ℝ) (w : ℝ) (d : ℕ) :
    periodicOf nd h U w d = fun t => trig n (coefOf h (fun r => U (r * nd + d)) 0).1
      (fun k => (coefOf h (fun r => U (r * nd + d)) (k + 1)).1) (fun k => (coefOf h (fun r => U (r * nd + d)) (k + 1)).2)
      (w * t) :=
  funext fun t => congrFun (series_trig hn hle (fun r => U (r * nd + d))) (w * t)

theorem velocityOf_trig {h : List ℕ} (hn : h.Nodup) {n : ℕ} (hle : ∀ k ∈ h, k ≤ n) (nd : ℕ) (U : ℕ → ℝ) (w : ℝ) (d : ℕ) :
    velocityOf nd h U w d = fun t => trig n 0
      (fun k => (k + 1 : ℕ) * w * (coefOf h (fun r => U (r * nd + d)) (k + 1)).2)
      (fun k => -((k + 1 : ℕ) * w * (coefOf h (fun r => U (r * nd + d)) (k + 1)).1)) (w * t) := by
  funext t
  unfold velocityOf
  rw [periodicOf_trig hn hle]
  exact (trig_deriv n _ _ _ w t).deriv

theorem periodic_facts {h : List ℕ} (hn : h.Nodup) (nd : ℕ) (U : ℕ → ℝ) {w : ℝ} (hw : w ≠ 0) (d : ℕ) :
    (∀ t, HasDerivAt (periodicOf nd h U w d) (velocityOf nd h U w d t) t) ∧
    (∀ t, HasDerivAt (velocityOf nd h U w d) (deriv (velocityOf nd h U w d) t) t) ∧
    periodicOf nd h U w d (2 * Real.pi / w) = periodicOf nd h U w d 0 ∧
    velocityOf nd h U w d (2 * Real.pi / w) = velocityOf nd h U w d 0 := by
  obtain ⟨n, hn'⟩ := exists_bound h
  refine ⟨fun t => ?_, fun t => ?_, ?_, ?_⟩
  · unfold velocityOf
    refine DifferentiableAt.hasDerivAt ?_
    rw [periodicOf_trig hn hn']; exact (trig_deriv n _ _ _ w t).differentiableAt
  · refine DifferentiableAt.hasDerivAt ?_
    rw [velocityOf_trig hn hn']; exact (trig_deriv n _ _ _ w t).differentiableAt
  · rw [periodicOf_trig hn hn']; simp only [mul_div_cancel₀ _ hw, mul_zero, trig_two_pi]
  · rw [velocityOf_trig hn hn']; simp only [mul_div_cancel₀ _ hw, mul_zero, trig_two_pi]

theorem continuous_periodicOf (nd : ℕ) (h : List ℕ) (U : ℕ → ℝ) (w : ℝ) (d : ℕ) : Continuous (periodicOf nd h U w d) :=
  (differentiable_series h _).continuous.comp (continuous_const.mul continuous_id)

theorem periodWork_add (nd : ℕ) (w : ℝ) {v f g : ℕ → ℝ → ℝ} (hv : ∀ d, Continuous (v d)) (hf : ∀ d, Continuous (f d))
    (hg : ∀ d, Continuous (g d)) :
    periodWork nd w v (fun d t => f d t + g d t) = periodWork nd w v f + periodWork nd w v g := by
  unfold periodWork
  rw [← intervalIntegral.integral_add (Continuous.intervalIntegrable (by fun_prop) _ _)
    (Continuous.intervalIntegrable (by fun_prop) _ _)]
  simp only [mul_add, sum_add_distrib]

/-- C91, harmonic balance: for symmetric mass and stiffness matrices, at a zero of `hbm_res` the energy taken out in one
period by the damping matrix and by the nonlinear forces equals the work of the external forces. -/
theorem C91_hbm (S : VibSys) (hM : ∀ d < S.nd, ∀ e < S.nd, S.M d e = S.M e d)
    (hK : ∀ d < S.nd, ∀ e < S.nd, S.K d e = S.K e d) (h : List ℕ) (hh : Admissible h) (Nt : ℕ) (tol : ℝ)
    (A : NLForce → (ℕ → ℝ) → ℝ → AftOut) (hA : ∀ f ∈ S.forces, ∀ U w, f.aft U w h Nt tol = .ok (A f U w))
    (Z Fl R : ℕ → ℝ) (g : Option ((ℕ → ℕ → ℝ) × (ℕ → ℝ))) (hw : Z (numCoeff h * S.nd) ≠ 0)
    (hR : hbmRes S Z Fl h Nt tol true = .ok ⟨R, g⟩) (h0 : ∀ i < numCoeff h * S.nd, R i = 0) :
    let w := Z (numCoeff h * S.nd)
    let U := sl 0 (numCoeff h * S.nd) Z
    let v := velocityOf S.nd h U w
    periodWork S.nd w v (onVelocity S.nd S.C v)
      + periodWork S.nd w v (periodicOf S.nd h (fun i => (S.forces.map fun f => (A f U w).F i).sum) w)
      = periodWork S.nd w v (periodicOf S.nd h Fl w) := by
  intro w U v
  obtain ⟨R', g', e1, e2⟩ := C45_zero_iff S h hh Nt tol A hA Z Fl hw
  rw [hR] at e1
  injection e1 with e1
  injection e1 with e1 _
  subst e1
  have eq := e2.1 h0
  have P := fun d => periodic_facts hh.nodup S.nd U (show w ≠ 0 from hw) d
  have cv : ∀ d, Continuous (v d) := fun d => continuous_iff_continuousAt.2 fun t => ((P d).2.1 t).continuousAt
  have cC : ∀ d, Continuous (onVelocity S.nd S.C v d) := fun d => by unfold onVelocity; fun_prop
  rw [← periodWork_add S.nd w cv cC (fun d => continuous_periodicOf _ _ _ _ d)]
  exact energy_balance S.nd S.M S.C S.K hM hK (periodicOf S.nd h U w) v (fun d => deriv (v d)) _ _
    (fun d => (P d).1) (fun d => (P d).2.1) (fun d => continuous_periodicOf _ _ _ _ d)
    (fun d => continuous_periodicOf _ _ _ _ d) (fun d => (P d).2.2.1) (fun d => (P d).2.2.2) (fun d hd t => eq d hd t)

theorem static_no_work {h : List ℕ} (hh : Admissible h) (nd : ℕ) (U Fl : ℕ → ℝ) {w : ℝ} (hw : w ≠ 0) :
    periodWork nd w (velocityOf nd h U w) (periodicOf nd h (scaledForcing nd h Fl 0) w) = 0 := by
  have P := fun d => periodic_facts hh.nodup nd U hw d
  have hc : ∀ d < nd, ∀ t, periodicOf nd h (scaledForcing nd h Fl 0) w d t
      = meanCoef h (fun r => scaledForcing nd h Fl 0 (r * nd + d)) := by
    intro d hd t
    unfold periodicOf
    rw [series_eq hh.zero_first]
    refine add_eq_left.2 (sum_eq_zero fun i hi => ?_)
    have hi' := (mem_Ico.1 hi).1
    have z : ∀ r, (0 ∈ h → 1 ≤ r) → scaledForcing nd h Fl 0 (r * nd + d) = 0 := by
      intro r hr
      unfold scaledForcing
      rw [if_neg, zero_mul]
      rintro ⟨a, b⟩
      have : nd ≤ r * nd := Nat.le_mul_of_pos_left _ (hr a)
      omega
    have hz : 0 ∈ h → zi h = 1 := by
      intro a
      rcases h with _ | ⟨k, hs⟩
      · simp at a
      · rcases List.mem_cons.1 a with rfl | a
        · simp [zi]
        · exact absurd a hh.zero_first
    rw [z _ (fun a => by have := hz a; omega), z _ (fun a => by omega)]
    ring
  unfold periodWork
  have e : ∀ t, ∑ d ∈ range nd, velocityOf nd h U w d t * periodicOf nd h (scaledForcing nd h Fl 0) w d t
      = ∑ d ∈ range nd, meanCoef h (fun r => scaledForcing nd h Fl 0 (r * nd + d)) * velocityOf nd h U w d t :=
    fun t => sum_congr rfl fun d hd => by rw [hc d (mem_range.1 hd), mul_comm]
  simp only [e]
  have cv : ∀ d, Continuous (velocityOf nd h U w d) :=
    fun d => continuous_iff_continuousAt.2 fun t => ((P d).2.1 t).continuousAt
  rw [intervalIntegral.integral_finsetSum (fun d _ => Continuous.intervalIntegrable (by fun_prop) _ _)]
  refine sum_eq_zero fun d _ => ?_
  rw [intervalIntegral.integral_const_mul, intervalIntegral.integral_eq_sub_of_hasDerivAt (fun t _ => (P d).1 t)
    (Continuous.intervalIntegrable (by fun_prop) _ _), (P d).2.2.1, sub_self, mul_zero]

/-- C91, EPMC: at a zero of `epmc_res` (unknowns `X = (U, w, ξ, la)`) the energy taken out in one period by the damping
matrix and the nonlinear forces equals `ξ ∫ vᵀ M v`, the energy put in by the self excitation. Static loads do no work. -/
theorem C91_epmc (S : VibSys) (hM : ∀ d < S.nd, ∀ e < S.nd, S.M d e = S.M e d)
    (hK : ∀ d < S.nd, ∀ e < S.nd, S.K d e = S.K e d) (h : List ℕ) (hh : Admissible h)
    (h1 : ∃ hs, h = 1 :: hs ∨ h = 0 :: 1 :: hs) (Nt : ℕ) (tol : ℝ)
    (A : NLForce → (ℕ → ℝ) → ℝ → AftOut) (hA : ∀ f ∈ S.forces, ∀ U w, f.aft U w h Nt tol = .ok (A f U w))
    (X Fl R : ℕ → ℝ) (g : Option ((ℕ → ℕ → ℝ) × (ℕ → ℝ))) (hw : X (numCoeff h * S.nd) ≠ 0)
    (hR : epmcRes S X Fl h Nt tol true = .ok ⟨R, g⟩) (h0 : ∀ i < numCoeff h * S.nd + 2, R i = 0) :
    let L := numCoeff h * S.nd
    let w := X L
    let U := sl 0 L (scaledForcing S.nd h X ((10:ℝ) ^ X (L + 2)))
    let v := velocityOf S.nd h U w
    periodWork S.nd w v (onVelocity S.nd S.C v)
      + periodWork S.nd w v (periodicOf S.nd h (fun i => (S.forces.map fun f => (A f U w).F i).sum) w)
      = X (L + 1) * periodWork S.nd w v (onVelocity S.nd S.M v) := by
  intro L w U v
  obtain ⟨R', g', e1, e2⟩ := C49_motion S h hh h1 Nt tol A hA X Fl hw
  rw [hR] at e1
  injection e1 with e1
  injection e1 with e1 _
  subst e1
  have eq := (e2.1 h0).1
  have P := fun d => periodic_facts hh.nodup S.nd U (show w ≠ 0 from hw) d
  have cv : ∀ d, Continuous (v d) := fun d => continuous_iff_continuousAt.2 fun t => ((P d).2.1 t).continuousAt
  have cB : ∀ B d, Continuous (onVelocity S.nd B v d) := fun B d => by unfold onVelocity; fun_prop
  have cF : ∀ F d, Continuous (periodicOf S.nd h F w d) := fun F d => continuous_periodicOf _ _ _ _ d
  have key := energy_balance S.nd S.M (fun i j => S.C i j - X (L + 1) * S.M i j) S.K hM hK (periodicOf S.nd h U w) v
    (fun d => deriv (v d)) (periodicOf S.nd h (fun i => (S.forces.map fun f => (A f U w).F i).sum) w)
    (periodicOf S.nd h (scaledForcing S.nd h Fl 0) w) (fun d => (P d).1) (fun d => (P d).2.1)
    (cF _) (cF _) (fun d => (P d).2.2.1) (fun d => (P d).2.2.2) (fun d hd t => eq d hd t)
  have hs : ∫ t in (0:ℝ)..2 * Real.pi / w, ∑ d ∈ range S.nd, v d t * periodicOf S.nd h (scaledForcing S.nd h Fl 0) w d t = 0 :=
    static_no_work hh S.nd U Fl hw
  rw [hs] at key
  rw [← periodWork_add S.nd w cv (cB _) (cF _)]
  have e3 : ∀ t, ∑ d ∈ range S.nd, v d t * (∑ e ∈ range S.nd, (S.C d e - X (L + 1) * S.M d e) * v e t
      + periodicOf S.nd h (fun i => (S.forces.map fun f => (A f U w).F i).sum) w d t)
      = (∑ d ∈ range S.nd, v d t * (onVelocity S.nd S.C v d t
      + periodicOf S.nd h (fun i => (S.forces.map fun f => (A f U w).F i).sum) w d t))
        - X (L + 1) * ∑ d ∈ range S.nd, v d t * onVelocity S.nd S.M v d t := by
    intro t
    rw [mul_sum, ← sum_sub_distrib]
    refine sum_congr rfl fun d _ => ?_
    have : ∑ e ∈ range S.nd, (S.C d e - X (L + 1) * S.M d e) * v e t
        = onVelocity S.nd S.C v d t - X (L + 1) * onVelocity S.nd S.M v d t := by
      unfold onVelocity
      rw [mul_sum, ← sum_sub_distrib]
      exact sum_congr rfl fun e _ => by ring
    rw [this]; ring
  simp only [e3] at key
  rw [intervalIntegral.integral_sub (Continuous.intervalIntegrable (by fun_prop) _ _)
    (Continuous.intervalIntegrable (by fun_prop) _ _), intervalIntegral.integral_const_mul] at key
  exact sub_eq_zero.1 key

/-- C91, sampled forces: if the coefficients `F` are the discrete Fourier coefficients of the samples `s` (this is what AFT
returns, C24), the work of the truncated force is the mean over the samples of velocity times force, times the period.
No error comes from the truncation, nor from aliasing. -/
theorem C91_sampled (h : List ℕ) (hh : Admissible h) (nd N : ℕ) (U F : ℕ → ℝ) {w : ℝ} (hw : w ≠ 0) (s : ℕ → ℕ → ℝ)
    (hF : ∀ d < nd, ∀ k ∈ h, coefOf h (fun r => F (r * nd + d)) k = dft N (fun j => s j d) k) :
    periodWork nd w (velocityOf nd h U w) (periodicOf nd h F w)
      = 2 * Real.pi / w / N * ∑ j ∈ range N, ∑ d ∈ range nd, velocityOf nd h U w d (2 * Real.pi / w * (j / N)) * s j d := by
  obtain ⟨n, hn⟩ := exists_bound h
  let a : ℕ → ℕ → ℝ := fun d k => (k + 1 : ℕ) * w * (coefOf h (fun r => U (r * nd + d)) (k + 1)).2
  let b : ℕ → ℕ → ℝ := fun d k => -((k + 1 : ℕ) * w * (coefOf h (fun r => U (r * nd + d)) (k + 1)).1)
  have hv : ∀ d t, velocityOf nd h U w d t = trig n 0 (a d) (b d) (w * t) :=
    fun d t => congrFun (velocityOf_trig hh.nodup hn nd U w d) t
  have hz : ∀ d k, k + 1 ∉ h → a d k = 0 ∧ b d k = 0 := fun d k hk => by simp [a, b, coefOf_not_mem hk]
  have eF : ∀ d t, periodicOf nd h F w d t = trig n (coefOf h (fun r => F (r * nd + d)) 0).1
      (fun k => (coefOf h (fun r => F (r * nd + d)) (k + 1)).1) (fun k => (coefOf h (fun r => F (r * nd + d)) (k + 1)).2)
      (w * t) := fun d t => congrFun (periodicOf_trig hh.nodup hn nd F w d) t
  clear_value a b
  have ct := fun m a b => continuous_trig n m a b
  unfold periodWork
  simp only [hv, eF]
  rw [int_period (fun x => ∑ d ∈ range nd, trig n 0 (a d) (b d) x * trig n (coefOf h (fun r => F (r * nd + d)) 0).1
      (fun k => (coefOf h (fun r => F (r * nd + d)) (k + 1)).1) (fun k => (coefOf h (fun r => F (r * nd + d)) (k + 1)).2) x) hw,
    intervalIntegral.integral_finsetSum (fun d _ => Continuous.intervalIntegrable (by fun_prop) _ _), sum_comm, mul_sum,
    mul_sum]
  refine sum_congr rfl fun d hd => ?_
  have hd := mem_range.1 hd
  simp only [mul_comm (trig n 0 (a d) (b d) _)]
  rw [int_trig_mul]
  have ej : ∀ j : ℕ, w * (2 * Real.pi / w * (j / N)) = 2 * Real.pi * j / N := by intro j; field_simp
  simp only [ej]
  have e2 : ∑ j ∈ range N, s j d * trig n 0 (a d) (b d) (2 * Real.pi * j / N)
      = ∑ k ∈ range n, (a d k * ∑ j ∈ range N, s j d * Real.cos ((k + 1 : ℕ) * (2 * Real.pi * j / N))
        + b d k * ∑ j ∈ range N, s j d * Real.sin ((k + 1 : ℕ) * (2 * Real.pi * j / N))) := by
    simp only [mul_sum, ← sum_add_distrib]
    rw [sum_comm]
    refine sum_congr rfl fun j _ => ?_
    unfold trig
    rw [zero_add, mul_sum]
    exact sum_congr rfl fun k _ => by ring
  rw [e2, mul_sum, mul_sum, mul_sum]
  refine sum_congr rfl fun k _ => ?_
  by_cases hk : k + 1 ∈ h
  · rw [hF d hd (k + 1) hk]
    simp only [dft, if_neg (Nat.succ_ne_zero k)]
    field_simp
  · rw [(hz d k hk).1, (hz d k hk).2]; ring

/-- Modal mass of harmonic `k`. -/
def harmonicMass (nd : ℕ) (M : ℕ → ℕ → ℝ) (h : List ℕ) (U : ℕ → ℝ) (k : ℕ) : ℝ :=
  ∑ d ∈ range nd, ∑ e ∈ range nd, M d e *
    ((coefOf h (fun r => U (r * nd + d)) k).1 * (coefOf h (fun r => U (r * nd + e)) k).1
      + (coefOf h (fun r => U (r * nd + d)) k).2 * (coefOf h (fun r => U (r * nd + e)) k).2)

theorem kinetic {h : List ℕ} (hh : Admissible h) {n : ℕ} (hn : ∀ k ∈ h, k ≤ n) (nd : ℕ) (M : ℕ → ℕ → ℝ) (U : ℕ → ℝ)
    {w : ℝ} (hw : w ≠ 0) :
    periodWork nd w (velocityOf nd h U w) (onVelocity nd M (velocityOf nd h U w))
      = Real.pi * w * ∑ k ∈ range n, ((k + 1 : ℕ) : ℝ) ^ 2 * harmonicMass nd M h U (k + 1) := by
  let a : ℕ → ℕ → ℝ := fun d k => (k + 1 : ℕ) * w * (coefOf h (fun r => U (r * nd + d)) (k + 1)).2
  let b : ℕ → ℕ → ℝ := fun d k => -((k + 1 : ℕ) * w * (coefOf h (fun r => U (r * nd + d)) (k + 1)).1)
  have hv : ∀ d t, velocityOf nd h U w d t = trig n 0 (a d) (b d) (w * t) :=
    fun d t => congrFun (velocityOf_trig hh.nodup hn nd U w d) t
  unfold periodWork onVelocity
  simp only [hv]
  rw [int_period (fun x => ∑ d ∈ range nd, trig n 0 (a d) (b d) x * ∑ e ∈ range nd, M d e * trig n 0 (a e) (b e) x) hw]
  have e1 : ∀ x, ∑ d ∈ range nd, trig n 0 (a d) (b d) x * ∑ e ∈ range nd, M d e * trig n 0 (a e) (b e) x
      = ∑ d ∈ range nd, ∑ e ∈ range nd, M d e * (trig n 0 (a d) (b d) x * trig n 0 (a e) (b e) x) := by
    intro x
    refine sum_congr rfl fun d _ => ?_
    rw [mul_sum]
    exact sum_congr rfl fun e _ => by ring
  have ct := fun d => continuous_trig n 0 (a d) (b d)
  simp only [e1]
  rw [intervalIntegral.integral_finsetSum (fun d _ => Continuous.intervalIntegrable (by fun_prop) _ _)]
  have e2 : ∀ d ∈ range nd, (∫ x in (0:ℝ)..2 * Real.pi, ∑ e ∈ range nd, M d e * (trig n 0 (a d) (b d) x * trig n 0 (a e) (b e) x))
      = ∑ e ∈ range nd, M d e * (Real.pi * ∑ k ∈ range n, (a d k * a e k + b d k * b e k)) := by
    intro d _
    rw [intervalIntegral.integral_finsetSum (fun e _ => Continuous.intervalIntegrable (by fun_prop) _ _)]
    exact sum_congr rfl fun e _ => by rw [intervalIntegral.integral_const_mul, int_trig_mul]
  rw [sum_congr rfl e2]
  unfold harmonicMass
  have e3 : ∑ k ∈ range n, ((k + 1 : ℕ) : ℝ) ^ 2 * ∑ d ∈ range nd, ∑ e ∈ range nd, M d e *
    ((coefOf h (fun r => U (r * nd + d)) (k + 1)).1 * (coefOf h (fun r => U (r * nd + e)) (k + 1)).1
      + (coefOf h (fun r => U (r * nd + d)) (k + 1)).2 * (coefOf h (fun r => U (r * nd + e)) (k + 1)).2)
      = ∑ d ∈ range nd, ∑ e ∈ range nd, M d e * ∑ k ∈ range n, ((k + 1 : ℕ) : ℝ) ^ 2 *
    ((coefOf h (fun r => U (r * nd + d)) (k + 1)).1 * (coefOf h (fun r => U (r * nd + e)) (k + 1)).1
      + (coefOf h (fun r => U (r * nd + d)) (k + 1)).2 * (coefOf h (fun r => U (r * nd + e)) (k + 1)).2) := by
    simp only [mul_sum]
    rw [sum_comm]
    refine sum_congr rfl fun d _ => ?_
    rw [sum_comm]
    exact sum_congr rfl fun e _ => sum_congr rfl fun k _ => by ring
  rw [e3, mul_sum, mul_sum]
  refine sum_congr rfl fun d _ => ?_
  rw [mul_sum, mul_sum]
  refine sum_congr rfl fun e _ => ?_
  simp only [mul_sum]
  refine sum_congr rfl fun k _ => ?_
  simp only [a, b]
  field_simp
  ring

theorem coefOf_scaled (h : List ℕ) {a : ℝ} {c c' : ℕ → ℝ} (H : ∀ r < numCoeff h, c r = a * c' r) (m : ℕ) :
    coefOf h c m = (a * (coefOf h c' m).1, a * (coefOf h c' m).2) := by
  induction h generalizing c c' with
  | nil => simp [coefOf]
  | cons k hs ih =>
    by_cases hk : k = 0
    · subst hk
      simp only [coefOf, numCoeff, if_true] at H ⊢
      by_cases hm : 0 = m
      · subst hm; simp [H 0 (by omega)]
      · rw [if_neg hm, if_neg hm]
        exact ih fun r hr => H (r + 1) (by omega)
    · simp only [coefOf, numCoeff, if_neg hk] at H ⊢
      by_cases hm : k = m
      · simp [hm, H 0 (by omega), H 1 (by omega)]
      · rw [if_neg hm, if_neg hm]
        exact ih fun r hr => H (r + 2) (by omega)

theorem coefOf_scaledForcing {h : List ℕ} (hh : Admissible h) (nd : ℕ) (X : ℕ → ℝ) (a : ℝ) {d : ℕ} (hd : d < nd) {m : ℕ}
    (hm : m ≠ 0) : coefOf h (fun r => sl 0 (numCoeff h * nd) (scaledForcing nd h X a) (r * nd + d)) m
      = (a * (coefOf h (fun r => X (r * nd + d)) m).1, a * (coefOf h (fun r => X (r * nd + d)) m).2) := by
  have hb : ∀ r < numCoeff h, r * nd + d < numCoeff h * nd := by
    intro r hr
    have : (r + 1) * nd ≤ numCoeff h * nd := Nat.mul_le_mul_right _ hr
    rw [Nat.add_mul] at this; omega
  rcases h with _ | ⟨k, hs⟩
  · exact absurd rfl hh.ne
  · by_cases hk : k = 0
    · subst hk
      have e : ∀ c, coefOf (0 :: hs) c m = coefOf hs (fun i => c (i + 1)) m := by
        intro c; simp [coefOf, Ne.symm hm]
      rw [e, e]
      refine coefOf_scaled hs (fun r hr => ?_) m
      rw [sl_zero (hb (r + 1) (by simp [numCoeff]; omega)), scaledForcing, if_neg]
      rintro ⟨-, h2⟩
      rw [Nat.add_mul] at h2; omega
    · refine coefOf_scaled (k :: hs) (fun r hr => ?_) m
      rw [sl_zero (hb r hr), scaledForcing, if_neg]
      rintro ⟨h2, -⟩
      rcases List.mem_cons.1 h2 with h2 | h2
      · exact hk h2.symm
      · exact hh.zero_first h2

/-- C91, damping: at a zero of `epmc_res` the energy taken out per period is `ξ π w a² (1 + Σ k² m_k)`, with the amplitude
`a = 10^la` and the modal masses `m_k` of the harmonics `k ≥ 2` of the unknowns. -/
theorem C91_dissipation (S : VibSys) (hM : ∀ d < S.nd, ∀ e < S.nd, S.M d e = S.M e d)
    (hK : ∀ d < S.nd, ∀ e < S.nd, S.K d e = S.K e d) (h : List ℕ) (hh : Admissible h)
    (h1 : ∃ hs, h = 1 :: hs ∨ h = 0 :: 1 :: hs) (n : ℕ) (hn : ∀ k ∈ h, k ≤ n + 1) (Nt : ℕ) (tol : ℝ)
    (A : NLForce → (ℕ → ℝ) → ℝ → AftOut) (hA : ∀ f ∈ S.forces, ∀ U w, f.aft U w h Nt tol = .ok (A f U w))
    (X Fl R : ℕ → ℝ) (g : Option ((ℕ → ℕ → ℝ) × (ℕ → ℝ))) (hw : X (numCoeff h * S.nd) ≠ 0)
    (hR : epmcRes S X Fl h Nt tol true = .ok ⟨R, g⟩) (h0 : ∀ i < numCoeff h * S.nd + 2, R i = 0) :
    let L := numCoeff h * S.nd
    let w := X L
    let a := (10:ℝ) ^ X (L + 2)
    let U := sl 0 L (scaledForcing S.nd h X a)
    let v := velocityOf S.nd h U w
    periodWork S.nd w v (onVelocity S.nd S.C v)
      + periodWork S.nd w v (periodicOf S.nd h (fun i => (S.forces.map fun f => (A f U w).F i).sum) w)
      = X (L + 1) * (Real.pi * w * a ^ 2 * (1 + ∑ k ∈ range n, ((k + 2 : ℕ) : ℝ) ^ 2 * harmonicMass S.nd S.M h X (k + 2))) := by
  intro L w a U v
  have key := C91_epmc S hM hK h hh h1 Nt tol A hA X Fl R g hw hR h0
  obtain ⟨R', g', e1, e2⟩ := C49_motion S h hh h1 Nt tol A hA X Fl hw
  rw [hR] at e1
  injection e1 with e1
  injection e1 with e1 _
  subst e1
  have hm : harmonicMass S.nd S.M h X 1 = 1 := (e2.1 h0).2.1
  have hs : ∀ k, harmonicMass S.nd S.M h U (k + 1) = a ^ 2 * harmonicMass S.nd S.M h X (k + 1) := by
    intro k
    unfold harmonicMass
    rw [mul_sum]
    refine sum_congr rfl fun d hd => ?_
    rw [mul_sum]
    refine sum_congr rfl fun e he => ?_
    rw [coefOf_scaledForcing hh S.nd X a (mem_range.1 hd) (Nat.succ_ne_zero k),
      coefOf_scaledForcing hh S.nd X a (mem_range.1 he) (Nat.succ_ne_zero k)]
    ring
  refine key.trans ?_
  rw [kinetic hh hn S.nd S.M U hw]
  congr 1
  rw [sum_range_succ']
  simp only [hs, hm, zero_add, Nat.cast_one, one_pow, mul_one]
  have e3 : ∑ k ∈ range n, ((k + 1 + 1 : ℕ) : ℝ) ^ 2 * (a ^ 2 * harmonicMass S.nd S.M h X (k + 1 + 1))
      = a ^ 2 * ∑ k ∈ range n, ((k + 2 : ℕ) : ℝ) ^ 2 * harmonicMass S.nd S.M h X (k + 2) := by
    rw [mul_sum]
    exact sum_congr rfl fun k _ => by ring
  rw [e3]
  simp only [one_mul]
  ring

/-- C91, printed damping: for a single harmonic the number `ξ / (2 w)` printed as damping (C90) is the fraction of critical
damping of energy methods: energy lost per period over `4 π` times the largest energy `w² a² / 2` of the mode. -/
theorem C91_damping (S : VibSys) (hM : ∀ d < S.nd, ∀ e < S.nd, S.M d e = S.M e d)
    (hK : ∀ d < S.nd, ∀ e < S.nd, S.K d e = S.K e d) (h : List ℕ) (h1 : h = [1] ∨ h = [0, 1]) (Nt : ℕ) (tol : ℝ)
    (A : NLForce → (ℕ → ℝ) → ℝ → AftOut) (hA : ∀ f ∈ S.forces, ∀ U w, f.aft U w h Nt tol = .ok (A f U w))
    (X Fl R : ℕ → ℝ) (g : Option ((ℕ → ℕ → ℝ) × (ℕ → ℝ))) (hw : X (numCoeff h * S.nd) ≠ 0)
    (hR : epmcRes S X Fl h Nt tol true = .ok ⟨R, g⟩) (h0 : ∀ i < numCoeff h * S.nd + 2, R i = 0) :
    let L := numCoeff h * S.nd
    let w := X L
    let a := (10:ℝ) ^ X (L + 2)
    let U := sl 0 L (scaledForcing S.nd h X a)
    let v := velocityOf S.nd h U w
    X (L + 1) / (2 * w) = (periodWork S.nd w v (onVelocity S.nd S.C v)
      + periodWork S.nd w v (periodicOf S.nd h (fun i => (S.forces.map fun f => (A f U w).F i).sum) w))
        / (4 * Real.pi * (w ^ 2 * a ^ 2 / 2)) := by
  intro L w a U v
  have hh : Admissible h := by
    rcases h1 with rfl | rfl
    · exact ⟨by simp, by simp, by simp⟩
    · exact ⟨by simp, by simp, by simp⟩
  have key := C91_dissipation S hM hK h hh ⟨[], h1⟩ 0 (by rcases h1 with rfl | rfl <;> simp) Nt tol A hA X Fl R g hw hR h0
  rw [key]
  have ha : a ≠ 0 := (Real.rpow_pos_of_pos (by norm_num) _).ne'
  have hw' : w ≠ 0 := hw
  change X (L + 1) / (2 * w) = X (L + 1) * (Real.pi * w * a ^ 2 * _) / _
  rw [range_zero, sum_empty]
  field_simp
  norm_num

/-- An oscillator of mass 1, stiffness 4 and damping 1/5: the point with the mode `sin 2t`, frequency 2, `ξ = 1/5` and
amplitude 1 solves the equations, 2/5 π is lost per period, and the damping is 5 percent. -/
example :
    let S : VibSys := ⟨1, fun _ _ => 1, fun _ _ => 4, fun _ _ => 1/5, none, []⟩
    let X : ℕ → ℝ := fun i => if i = 1 then 1 else if i = 2 then 2 else if i = 3 then 1/5 else 0
    ∃ R g, epmcRes S X (fun i => if i = 0 then 1 else 0) [1] 8 0 true = .ok ⟨R, some g⟩ ∧ (∀ i < 4, R i = 0) ∧
      let v := velocityOf 1 [1] (sl 0 2 (scaledForcing 1 [1] X ((10:ℝ) ^ X 4))) 2
      periodWork 1 2 v (onVelocity 1 (fun _ _ => 1/5) v) = 2 / 5 * Real.pi ∧ X 3 / (2 * X 2) = 5 / 100 := by
  intro S X
  have hh : Admissible [1] := ⟨by simp, by simp, by simp⟩
  obtain ⟨R, g, e1, e2⟩ := C49_motion S [1] hh ⟨[], Or.inl rfl⟩ 8 0 (fun _ _ _ => ⟨fun _ => 0, fun _ _ => 0, fun _ => 0⟩)
    (by simp [S]) X (fun i => if i = 0 then 1 else 0) (by simp [S, X, numCoeff])
  have hx : (fun t => series [1] (fun r => sl 0 (numCoeff [1] * S.nd) (scaledForcing S.nd [1] X ((10:ℝ) ^ X (numCoeff [1] * S.nd + 2)))
      (r * S.nd + 0)) (X (numCoeff [1] * S.nd) * t)) = fun t => Real.sin (2 * t) := by
    funext t
    simp [series, sl, scaledForcing, numCoeff, S, X]
  have d1 : deriv (fun t : ℝ => Real.sin (2 * t)) = fun t => 2 * Real.cos (2 * t) := by
    funext t
    have := (((hasDerivAt_id t).const_mul 2).sin).deriv
    simp only [id, mul_one] at this
    rw [this, mul_comm]
  have d2 : deriv (fun t : ℝ => 2 * Real.cos (2 * t)) = fun t => -4 * Real.sin (2 * t) := by
    funext t
    have := ((((hasDerivAt_id t).const_mul 2).cos).const_mul 2).deriv
    simp only [id, mul_one] at this
    rw [this]; ring
  have h0 : ∀ i < numCoeff [1] * S.nd + 2, R i = 0 := by
    refine e2.2 ⟨fun d hd t => ?_, ?_, ?_⟩
    · have hd0 : d = 0 := by simp only [S] at hd; omega
      subst hd0
      simp only [S, range_one, sum_singleton] at hx ⊢
      rw [hx, d1, d2]
      have := congrFun hx t
      rw [this]
      simp [series, scaledForcing, numCoeff, X]
    · simp [modalMass, S, X, coefOf]
    · simp [S, X, numCoeff, sum_range_succ]
  have key := C91_dissipation S (by simp [S]) (by simp [S]) [1] hh ⟨[], Or.inl rfl⟩ 0 (by simp) 8 0
    (fun _ _ _ => ⟨fun _ => 0, fun _ _ => 0, fun _ => 0⟩) (by simp [S]) X (fun i => if i = 0 then 1 else 0) R (some g)
    (by simp [S, X, numCoeff]) e1 h0
  refine ⟨R, g, e1, h0, ?_, by norm_num [X]⟩
  have hz : ∀ v, periodWork 1 2 v (periodicOf 1 [1] (fun _ => (0:ℝ)) 2) = 0 := by
    intro v; simp [periodWork, periodicOf, series]
  simp only [S, X, numCoeff, List.map_nil, List.sum_nil, range_zero, sum_empty] at key
  norm_num at key
  rw [hz] at key
  norm_num [X]
  linarith [key]

end

end TMD
