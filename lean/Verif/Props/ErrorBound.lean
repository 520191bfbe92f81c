import Verif.Props.DashpotSweep
import Verif.Props.StaticUnique

/-!
# C156: the residual bounds the error
-/

namespace TMD

open Spec Finset

noncomputable section

variable {S : VibSys} {Fl Gl : ℕ → ℝ} {h : List ℕ} {Nt : ℕ} {tol w c : ℝ}

/-- Mean square over the period `2π/w` of the differences of `nd` functions, times the period. -/
def periodSquare (nd : ℕ) (w : ℝ) (f g : ℕ → ℝ → ℝ) : ℝ := ∫ t in (0 : ℝ)..2 * Real.pi / w, ∑ d ∈ range nd, (f d t - g d t) ^ 2

theorem velocity_sub (hh : Admissible h) (hw : w ≠ 0) (nd : ℕ) (U V : ℕ → ℝ) {d : ℕ} (hd : d < nd) (t : ℝ) :
    velocityOf nd h (fun i => sl 0 (numCoeff h * nd) U i - sl 0 (numCoeff h * nd) V i) w d t = velocityOf nd h U w d t - velocityOf nd h V w d t := by
  have h1 := (periodic_facts hh.nodup nd U hw d).1 t
  have h2 := (periodic_facts hh.nodup nd V hw d).1 t
  have h3 : periodicOf nd h (fun i => sl 0 (numCoeff h * nd) U i - sl 0 (numCoeff h * nd) V i) w d = fun t => periodicOf nd h U w d t - periodicOf nd h V w d t := by
    funext t
    unfold periodicOf
    rw [series_sub]
    congr 1 <;> exact series_congr (fun r hr => sl_zero (block_lt hr hd) _) _
  unfold velocityOf at h1 h2 ⊢
  rw [h3]
  exact (h1.sub h2).deriv

theorem force_sub (nd : ℕ) {A B : ℕ → ℝ} {F G : ℕ → ℝ} (hA : ∀ i < numCoeff h * nd, A i = F i) (hB : ∀ i < numCoeff h * nd, B i = G i) {d : ℕ} (hd : d < nd) (t : ℝ) :
    periodicOf nd h (fun i => A i - B i) w d t = periodicOf nd h F w d t - periodicOf nd h G w d t := by
  unfold periodicOf
  rw [series_sub]
  congr 1
  · exact series_congr (fun r hr => hA _ (block_lt hr hd)) _
  · exact series_congr (fun r hr => hB _ (block_lt hr hd)) _

/-- C156: between the responses to two loads the velocities differ, in the mean square over the period, by at most the difference of the loads divided by the
least damping. -/
theorem C156_load (hh : Admissible h) (hNt : ∀ k ∈ h, 2 * k + 1 < Nt) (heven : Even Nt) (hD : Damped S h) (hS : ∀ f ∈ S.forces, IsDashpot S.nd f) (hc : 0 < c)
    (hC : ∀ v : ℕ → ℝ, c * ∑ d ∈ range S.nd, v d ^ 2 ≤ ∑ d ∈ range S.nd, ∑ e ∈ range S.nd, v d * S.C d e * v e) (hw : 0 < w) {U V : ℕ → ℝ}
    (hU : HBMSolution S Fl h Nt tol w U) (hV : HBMSolution S Gl h Nt tol w V) :
    c ^ 2 * periodSquare S.nd w (velocityOf S.nd h U w) (velocityOf S.nd h V w) ≤ periodSquare S.nd w (periodicOf S.nd h Fl w) (periodicOf S.nd h Gl w) := by
  obtain ⟨n, hn⟩ := exists_bound h
  have hR := fun f hf => dashpot_resists (tol := tol) hh hn hNt heven (hS f hf)
  have h1 := (solution_iff hh hR w U).1 hU
  have h2 := (solution_iff hh hR w V).1 hV
  have H := pair_work hh hR hD.massSymm hD.stiffSymm (sl 0 (numCoeff h * S.nd) U) (sl 0 (numCoeff h * S.nd) V) hw
  set D : ℕ → ℝ := fun i => sl 0 (numCoeff h * S.nd) U i - sl 0 (numCoeff h * S.nd) V i with hDd
  have hT : 0 ≤ 2 * Real.pi / w := by positivity
  have cv : ∀ W : ℕ → ℝ, ∀ d, Continuous (velocityOf S.nd h W w d) := fun W d => continuous_iff_continuousAt.2 fun t => ((periodic_facts hh.nodup S.nd W hw.ne' d).2.1 t).continuousAt
  have cp : ∀ W : ℕ → ℝ, ∀ d, Continuous (periodicOf S.nd h W w d) := fun W d => continuous_iff_continuousAt.2 fun t => ((periodic_facts hh.nodup S.nd W hw.ne' d).1 t).continuousAt
  have c1 : Continuous fun t => ∑ d ∈ range S.nd, (velocityOf S.nd h U w d t - velocityOf S.nd h V w d t) ^ 2 := by have := cv U; have := cv V; fun_prop
  have c2 : Continuous fun t => ∑ d ∈ range S.nd, (periodicOf S.nd h Fl w d t - periodicOf S.nd h Gl w d t) ^ 2 := by have := cp Fl; have := cp Gl; fun_prop
  have c4 : Continuous fun t => c ^ 2 / 2 * ∑ d ∈ range S.nd, (velocityOf S.nd h U w d t - velocityOf S.nd h V w d t) ^ 2 := continuous_const.mul c1
  have c5 : Continuous fun t => 1 / 2 * ∑ d ∈ range S.nd, (periodicOf S.nd h Fl w d t - periodicOf S.nd h Gl w d t) ^ 2 := continuous_const.mul c2
  have c3 : Continuous fun t => ∑ d ∈ range S.nd, velocityOf S.nd h D w d t * onVelocity S.nd S.C (velocityOf S.nd h D w) d t := by have := cv D; unfold onVelocity; fun_prop
  have lower : c * periodSquare S.nd w (velocityOf S.nd h U w) (velocityOf S.nd h V w) ≤ periodWork S.nd w (velocityOf S.nd h D w) (onVelocity S.nd S.C (velocityOf S.nd h D w)) := by
    unfold periodSquare periodWork
    rw [← intervalIntegral.integral_const_mul]
    refine intervalIntegral.integral_mono_on hT ((continuous_const.mul c1).intervalIntegrable _ _) (c3.intervalIntegrable _ _) fun t _ => ?_
    have h3 := hC fun d => velocityOf S.nd h D w d t
    rw [sum_congr rfl fun d hd => by rw [velocity_sub hh hw.ne' S.nd U V (mem_range.1 hd) t]] at h3
    refine h3.trans_eq (sum_congr rfl fun d _ => ?_)
    unfold onVelocity
    rw [mul_sum]
    exact sum_congr rfl fun e _ => by ring
  have upper : c * periodWork S.nd w (velocityOf S.nd h D w) (periodicOf S.nd h (fun i => balance S h Nt tol (sl 0 (numCoeff h * S.nd) U) w i - balance S h Nt tol (sl 0 (numCoeff h * S.nd) V) w i) w)
      ≤ c ^ 2 / 2 * periodSquare S.nd w (velocityOf S.nd h U w) (velocityOf S.nd h V w) + 1 / 2 * periodSquare S.nd w (periodicOf S.nd h Fl w) (periodicOf S.nd h Gl w) := by
    unfold periodSquare periodWork
    rw [← intervalIntegral.integral_const_mul, ← intervalIntegral.integral_const_mul, ← intervalIntegral.integral_const_mul,
      ← intervalIntegral.integral_add (c4.intervalIntegrable _ _) (c5.intervalIntegrable _ _)]
    refine intervalIntegral.integral_mono_on hT (Continuous.intervalIntegrable ?_ _ _) (Continuous.intervalIntegrable (c4.add c5) _ _) fun t _ => ?_
    · have := cv D
      have := cp (fun i => balance S h Nt tol (sl 0 (numCoeff h * S.nd) U) w i - balance S h Nt tol (sl 0 (numCoeff h * S.nd) V) w i)
      fun_prop
    · rw [mul_sum, mul_sum, mul_sum, ← sum_add_distrib]
      refine sum_le_sum fun d hd => ?_
      rw [velocity_sub hh hw.ne' S.nd U V (mem_range.1 hd) t, force_sub S.nd h1 h2 (mem_range.1 hd) t]
      nlinarith [sq_nonneg (c * (velocityOf S.nd h U w d t - velocityOf S.nd h V w d t) - (periodicOf S.nd h Fl w d t - periodicOf S.nd h Gl w d t))]
  have := mul_le_mul_of_nonneg_left (lower.trans H) hc.le
  nlinarith

/-- A point with the residual `R` is a solution for the load increased by `R`. -/
theorem solution_of_residual (hh : Admissible h) (hNt : ∀ k ∈ h, 2 * k + 1 < Nt) (heven : Even Nt) (hS : ∀ f ∈ S.forces, IsDashpot S.nd f) {X R : ℕ → ℝ} {g : Option ((ℕ → ℕ → ℝ) × (ℕ → ℝ))}
    (hX : X (numCoeff h * S.nd) = w) (hres : hbmRes S X Fl h Nt tol true = .ok ⟨R, g⟩) : HBMSolution S (fun i => Fl i + R i) h Nt tol w X := by
  obtain ⟨n, hn⟩ := exists_bound h
  have hR := fun f hf => dashpot_resists (tol := tol) hh hn hNt heven (hS f hf)
  rw [solution_iff hh hR]
  rw [hbmRes_ok S hh Nt tol (aftVal h Nt tol) (fun f hf => (hR f hf).ok) X Fl] at hres
  injection hres with hres
  injection hres with hres _
  intro i _
  rw [← hres]
  simp only [hbmG, hX]
  unfold balance sumF
  ring

/-- C156: the residual at a point bounds its distance from the response. -/
theorem C156_residual (hh : Admissible h) (hNt : ∀ k ∈ h, 2 * k + 1 < Nt) (heven : Even Nt) (hD : Damped S h) (hS : ∀ f ∈ S.forces, IsDashpot S.nd f) (hc : 0 < c)
    (hC : ∀ v : ℕ → ℝ, c * ∑ d ∈ range S.nd, v d ^ 2 ≤ ∑ d ∈ range S.nd, ∑ e ∈ range S.nd, v d * S.C d e * v e) (hw : 0 < w) {X R V : ℕ → ℝ}
    {g : Option ((ℕ → ℕ → ℝ) × (ℕ → ℝ))} (hX : X (numCoeff h * S.nd) = w) (hres : hbmRes S X Fl h Nt tol true = .ok ⟨R, g⟩) (hV : HBMSolution S Fl h Nt tol w V) :
    c ^ 2 * periodSquare S.nd w (velocityOf S.nd h X w) (velocityOf S.nd h V w) ≤ periodSquare S.nd w (periodicOf S.nd h R w) (fun _ _ => 0) := by
  refine (C156_load hh hNt heven hD hS hc hC hw (solution_of_residual hh hNt heven hS hX hres) hV).trans_eq ?_
  unfold periodSquare periodicOf
  simp only [series_add, add_sub_cancel_left, sub_zero]

theorem coefOf_congr {h : List ℕ} {a b : ℕ → ℝ} (hab : ∀ r < numCoeff h, a r = b r) (k : ℕ) : coefOf h a k = coefOf h b k := by
  induction h generalizing a b with
  | nil => rfl
  | cons m hs ih =>
    by_cases hm : m = 0
    · have hN : numCoeff (m :: hs) = 1 + numCoeff hs := by simp [numCoeff, hm]
      simp only [coefOf, hm, if_true]
      rw [hab 0 (by omega), ih fun r hr => hab (r + 1) (by omega)]
    · have hN : numCoeff (m :: hs) = 2 + numCoeff hs := by simp [numCoeff, hm]
      simp only [coefOf, hm, if_false]
      rw [hab 0 (by omega), hab 1 (by omega), ih fun r hr => hab (r + 2) (by omega)]

/-- C156: the same harmonic by harmonic: the oscillating coefficients are off by at most the oscillating coefficients of the residual, divided by the frequency and
the least damping. The bound does not grow near resonances. -/
theorem C156_harmonics (hh : Admissible h) (hNt : ∀ k ∈ h, 2 * k + 1 < Nt) (heven : Even Nt) (hD : Damped S h) (hS : ∀ f ∈ S.forces, IsDashpot S.nd f) (hc : 0 < c)
    (hC : ∀ v : ℕ → ℝ, c * ∑ d ∈ range S.nd, v d ^ 2 ≤ ∑ d ∈ range S.nd, ∑ e ∈ range S.nd, v d * S.C d e * v e) (hw : 0 < w) {X R V : ℕ → ℝ}
    {g : Option ((ℕ → ℕ → ℝ) × (ℕ → ℝ))} (hX : X (numCoeff h * S.nd) = w) (hres : hbmRes S X Fl h Nt tol true = .ok ⟨R, g⟩) (hV : HBMSolution S Fl h Nt tol w V)
    {n : ℕ} (hn : ∀ k ∈ h, k ≤ n) :
    (w * c) ^ 2 * ∑ k ∈ range n, ((k + 1 : ℕ) : ℝ) ^ 2 * ∑ d ∈ range S.nd,
        ((coefOf h (fun r => X (r * S.nd + d) - V (r * S.nd + d)) (k + 1)).1 ^ 2 + (coefOf h (fun r => X (r * S.nd + d) - V (r * S.nd + d)) (k + 1)).2 ^ 2)
      ≤ ∑ k ∈ range n, ∑ d ∈ range S.nd, ((coefOf h (fun r => R (r * S.nd + d)) (k + 1)).1 ^ 2 + (coefOf h (fun r => R (r * S.nd + d)) (k + 1)).2 ^ 2) := by
  have hR := fun f hf => dashpot_resists (tol := tol) hh hn hNt heven (hS f hf)
  have h1 := (solution_iff hh hR w X).1 (solution_of_residual hh hNt heven hS hX hres)
  have h2 := (solution_iff hh hR w V).1 hV
  have H := osc_bound_exact hh hn hc hC _ _ hw (pair_work hh hR hD.massSymm hD.stiffSymm (sl 0 (numCoeff h * S.nd) X) (sl 0 (numCoeff h * S.nd) V) hw)
  have e1 : ∀ d < S.nd, ∀ k, coefOf h (fun r => sl 0 (numCoeff h * S.nd) X (r * S.nd + d) - sl 0 (numCoeff h * S.nd) V (r * S.nd + d)) k =
      coefOf h (fun r => X (r * S.nd + d) - V (r * S.nd + d)) k := fun d hd k => coefOf_congr (fun r hr => by rw [sl_zero (block_lt hr hd), sl_zero (block_lt hr hd)]) k
  have e2 : ∀ d < S.nd, ∀ k, coefOf h (fun r => balance S h Nt tol (sl 0 (numCoeff h * S.nd) X) w (r * S.nd + d) - balance S h Nt tol (sl 0 (numCoeff h * S.nd) V) w (r * S.nd + d)) k =
      coefOf h (fun r => R (r * S.nd + d)) k := fun d hd k => coefOf_congr (fun r hr => by rw [h1 _ (block_lt hr hd), h2 _ (block_lt hr hd)]; ring) k
  unfold oscSize at H
  refine le_trans (le_of_eq ?_) (H.trans_eq ?_)
  · congr 1
    exact sum_congr rfl fun k _ => by rw [sum_congr rfl fun d hd => by rw [← e1 d (mem_range.1 hd)]]
  · exact sum_congr rfl fun k _ => sum_congr rfl fun d hd => by rw [e2 d (mem_range.1 hd)]

/-- C156: in statics the residual divided by the least stiffness bounds the distance from the equilibrium. -/
theorem C156_static (hf : ∀ f ∈ S.forces, MonoForce S.nd f) (hc : 0 < c)
    (hK : ∀ v : ℕ → ℝ, c * ∑ d ∈ range S.nd, v d ^ 2 ≤ ∑ d ∈ range S.nd, ∑ e ∈ range S.nd, v d * S.K d e * v e) {F X Y : ℕ → ℝ} {o : (ℕ → ℝ) × (ℕ → ℕ → ℝ)}
    (hres : staticRes S X F = .ok o) (hY : StaticEq S F Y) : c ^ 2 * ∑ i ∈ range S.nd, (X i - Y i) ^ 2 ≤ ∑ i ∈ range S.nd, o.1 i ^ 2 := by
  have hX : StaticEq S (fun i => F i + o.1 i) X := by
    rw [staticEq_iff hf]
    rw [static_val hf] at hres
    obtain rfl := (Except.ok.inj hres).symm
    intro i _
    simp
  have h1 := C142_energy S hf hX hY
  have h2 := (hK fun i => X i - Y i).trans h1
  have h3 : c * ∑ i ∈ range S.nd, (X i - Y i) * (F i + o.1 i - F i) ≤ c ^ 2 / 2 * ∑ i ∈ range S.nd, (X i - Y i) ^ 2 + 1 / 2 * ∑ i ∈ range S.nd, o.1 i ^ 2 := by
    rw [mul_sum, mul_sum, mul_sum, ← sum_add_distrib]
    refine sum_le_sum fun i _ => ?_
    nlinarith [sq_nonneg (c * (X i - Y i) - o.1 i)]
  have := mul_le_mul_of_nonneg_left h2 hc.le
  nlinarith

/-- A mass on a spring with the damping `x' / 10 + x'³` under `2 cos(w t)`: every guess is off by at most ten times its residual divided by the frequency. -/
example {w tol : ℝ} (hw : 0 < w) {X V R : ℕ → ℝ} {g : Option ((ℕ → ℕ → ℝ) × (ℕ → ℝ))} (hX : X 2 = w)
    (hres : hbmRes (cubicDamped (1 / 10) 1) X (fun i => if i = 0 then 2 else 0) [1] 8 tol true = .ok ⟨R, g⟩)
    (hV : HBMSolution (cubicDamped (1 / 10) 1) (fun i => if i = 0 then 2 else 0) [1] 8 tol w V) :
    w ^ 2 * ((X 0 - V 0) ^ 2 + (X 1 - V 1) ^ 2) ≤ 100 * (R 0 ^ 2 + R 1 ^ 2) := by
  have hN : numCoeff [1] * (cubicDamped (1 / 10) 1).nd = 2 := by simp [numCoeff, cubicDamped]
  have := C156_harmonics (S := cubicDamped (1 / 10) 1) (h := [1]) (c := 1 / 10) (n := 1) ⟨by simp, by simp, by simp⟩ (by simp) (by decide) (cubicDamped_damped (by norm_num) 1 [1])
    (by
      intro f hf
      simp only [cubicDamped, List.mem_singleton] at hf
      subst hf
      exact C144_cubic 1 1 _ _ (fun _ _ => rfl) fun _ => zero_le_one)
    (by norm_num) (fun v => by simp [cubicDamped]; nlinarith) hw (by rw [hN]; exact hX) hres hV (by simp)
  simp [cubicDamped, coefOf] at this
  nlinarith

end

end TMD
