import Verif.Props.BaseSweep
import Verif.Props.ErrorBound

/-!
# C158: the residual of `hbm_base_res` bounds the error
-/

namespace TMD

open Spec Finset

noncomputable section

variable {S : VibSys} {base : ℕ → Bool} {Ub : ℕ → ℝ} {h : List ℕ} {Nt : ℕ} {tol w c : ℝ}

/-- C158: if `hbm_base_res` returns the residual `R` at `Uw`, the velocities of `Uw` differ from those of the response, in the mean square over the period, by at most
the residual (at the places of the free unknowns) divided by the least damping of motions with a resting base. -/
theorem C158_residual (hh : Admissible h) (hNt : ∀ k ∈ h, 2 * k + 1 < Nt) (heven : Even Nt) (hM : ∀ d < S.nd, ∀ e < S.nd, S.M d e = S.M e d)
    (hK : ∀ d < S.nd, ∀ e < S.nd, S.K d e = S.K e d) (hS : ∀ f ∈ S.forces, IsDashpot S.nd f) (hc : 0 < c)
    (hC : ∀ v : ℕ → ℝ, (∀ d, base d = true → v d = 0) → c * ∑ d ∈ range S.nd, v d ^ 2 ≤ ∑ d ∈ range S.nd, ∑ e ∈ range S.nd, v d * S.C d e * v e) (hw : 0 < w)
    {Uw Vw R : ℕ → ℝ} {J : ℕ → ℕ → ℝ} {D : ℕ → ℝ} (hUw : Uw (nFree S.nd (numCoeff h * S.nd) base) = w) (hVw : Vw (nFree S.nd (numCoeff h * S.nd) base) = w)
    (hres : hbmBaseRes S Uw Ub base h Nt tol = .ok (R, J, D)) (hV : BaseSolution S Ub base h Nt tol Vw) :
    c ^ 2 * periodSquare S.nd w (velocityOf S.nd h (baseFull S.nd (numCoeff h * S.nd) base Uw Ub) w) (velocityOf S.nd h (baseFull S.nd (numCoeff h * S.nd) base Vw Ub) w)
      ≤ periodSquare S.nd w (periodicOf S.nd h (freeVec S.nd (numCoeff h * S.nd) base R) w) (fun _ _ => 0) := by
  obtain ⟨n, hn⟩ := exists_bound h
  have hR := fun f hf => dashpot_resists (tol := tol) hh hn hNt heven (hS f hf)
  set X := baseFull S.nd (numCoeff h * S.nd) base Uw Ub with hX
  set Y := baseFull S.nd (numCoeff h * S.nd) base Vw Ub with hY
  have hval : ∀ (Z : ℕ → ℝ), Z (nFree S.nd (numCoeff h * S.nd) base) = w → ∀ k, baseR S Ub base h Nt tol Z k =
      balance S h Nt tol (sl 0 (numCoeff h * S.nd) (baseFull S.nd (numCoeff h * S.nd) base Z Ub)) w (freeAt S base h k) := fun Z hZ k => by
    unfold baseR hbmG
    rw [baseFull_last, hZ]
    rfl
  have hRv : R = baseR S Ub base h Nt tol Uw := by
    rw [baseRes_val hh hR] at hres
    exact (congrArg Prod.fst (Except.ok.inj hres)).symm
  have hV0 := (base_solves hh hR Vw).1 hV
  have hdiff : ∀ i < numCoeff h * S.nd, ¬ baseMask S.nd (numCoeff h * S.nd) base i →
      balance S h Nt tol (sl 0 (numCoeff h * S.nd) X) w i - balance S h Nt tol (sl 0 (numCoeff h * S.nd) Y) w i = freeVec S.nd (numCoeff h * S.nd) base R i := fun i hi hm => by
    have hi' : freeAt S base h (Nat.count (fun i => ¬ baseMask S.nd (numCoeff h * S.nd) base i) i) = i := Nat.nth_count (p := fun i => ¬ baseMask S.nd (numCoeff h * S.nd) base i) hm
    have e1 := hval Uw hUw (Nat.count (fun i => ¬ baseMask S.nd (numCoeff h * S.nd) base i) i)
    have e2 := hval Vw hVw (Nat.count (fun i => ¬ baseMask S.nd (numCoeff h * S.nd) base i) i)
    rw [hV0 _ (Nat.count_strict_mono hm hi), hi'] at e2
    rw [hi'] at e1
    rw [← hX] at e1
    rw [← hY] at e2
    rw [← e1, ← e2, sub_zero, freeVec, if_neg hm, hRv]
  have hbase : ∀ d < S.nd, base d = true → ∀ t, velocityOf S.nd h X w d t = velocityOf S.nd h Y w d t := fun d hd hb t => by
    have : periodicOf S.nd h X w d = periodicOf S.nd h Y w d := by
      funext t
      unfold periodicOf
      refine series_congr (fun r hr => ?_) _
      have hm : baseMask S.nd (numCoeff h * S.nd) base (r * S.nd + d) := (mask_block base hr hd).2 hb
      simp only [hX, hY, baseFull, if_pos hm]
    unfold velocityOf
    rw [this]
  have hfree : ∀ d < S.nd, base d = false → ∀ t, periodicOf S.nd h (fun i => balance S h Nt tol (sl 0 (numCoeff h * S.nd) X) w i - balance S h Nt tol (sl 0 (numCoeff h * S.nd) Y) w i) w d t =
      periodicOf S.nd h (freeVec S.nd (numCoeff h * S.nd) base R) w d t := fun d hd hb t => by
    unfold periodicOf
    refine series_congr (fun r hr => hdiff _ (block_lt hr hd) fun hm => ?_) _
    have := (mask_block base hr hd).1 hm
    rw [hb] at this
    exact Bool.noConfusion this
  have H := pair_work hh hR hM hK (sl 0 (numCoeff h * S.nd) X) (sl 0 (numCoeff h * S.nd) Y) hw
  set D : ℕ → ℝ := fun i => sl 0 (numCoeff h * S.nd) X i - sl 0 (numCoeff h * S.nd) Y i with hDd
  have hT : 0 ≤ 2 * Real.pi / w := by positivity
  have cv : ∀ W : ℕ → ℝ, ∀ d, Continuous (velocityOf S.nd h W w d) := fun W d => continuous_iff_continuousAt.2 fun t => ((periodic_facts hh.nodup S.nd W hw.ne' d).2.1 t).continuousAt
  have cp : ∀ W : ℕ → ℝ, ∀ d, Continuous (periodicOf S.nd h W w d) := fun W d => continuous_iff_continuousAt.2 fun t => ((periodic_facts hh.nodup S.nd W hw.ne' d).1 t).continuousAt
  have c1 : Continuous fun t => ∑ d ∈ range S.nd, (velocityOf S.nd h X w d t - velocityOf S.nd h Y w d t) ^ 2 := by have := cv X; have := cv Y; fun_prop
  have c2 : Continuous fun t => ∑ d ∈ range S.nd, (periodicOf S.nd h (freeVec S.nd (numCoeff h * S.nd) base R) w d t - 0) ^ 2 := by
    have := cp (freeVec S.nd (numCoeff h * S.nd) base R)
    fun_prop
  have c4 : Continuous fun t => c ^ 2 / 2 * ∑ d ∈ range S.nd, (velocityOf S.nd h X w d t - velocityOf S.nd h Y w d t) ^ 2 := continuous_const.mul c1
  have c5 : Continuous fun t => 1 / 2 * ∑ d ∈ range S.nd, (periodicOf S.nd h (freeVec S.nd (numCoeff h * S.nd) base R) w d t - 0) ^ 2 := continuous_const.mul c2
  have c3 : Continuous fun t => ∑ d ∈ range S.nd, velocityOf S.nd h D w d t * onVelocity S.nd S.C (velocityOf S.nd h D w) d t := by have := cv D; unfold onVelocity; fun_prop
  have lower : c * periodSquare S.nd w (velocityOf S.nd h X w) (velocityOf S.nd h Y w) ≤ periodWork S.nd w (velocityOf S.nd h D w) (onVelocity S.nd S.C (velocityOf S.nd h D w)) := by
    unfold periodSquare periodWork
    rw [← intervalIntegral.integral_const_mul]
    refine intervalIntegral.integral_mono_on hT ((continuous_const.mul c1).intervalIntegrable _ _) (c3.intervalIntegrable _ _) fun t _ => ?_
    have h3 := hC (fun d => if d < S.nd then velocityOf S.nd h D w d t else 0) fun d hb => by
      split_ifs with hd
      · rw [velocity_sub hh hw.ne' S.nd X Y hd t, hbase d hd hb t, sub_self]
      · rfl
    rw [sum_congr rfl fun d hd => by rw [if_pos (mem_range.1 hd), velocity_sub hh hw.ne' S.nd X Y (mem_range.1 hd) t]] at h3
    refine h3.trans_eq (sum_congr rfl fun d hd => ?_)
    unfold onVelocity
    rw [mul_sum]
    exact sum_congr rfl fun e he => by rw [if_pos (mem_range.1 hd), if_pos (mem_range.1 he)]; ring
  have upper : c * periodWork S.nd w (velocityOf S.nd h D w) (periodicOf S.nd h (fun i => balance S h Nt tol (sl 0 (numCoeff h * S.nd) X) w i - balance S h Nt tol (sl 0 (numCoeff h * S.nd) Y) w i) w)
      ≤ c ^ 2 / 2 * periodSquare S.nd w (velocityOf S.nd h X w) (velocityOf S.nd h Y w)
        + 1 / 2 * periodSquare S.nd w (periodicOf S.nd h (freeVec S.nd (numCoeff h * S.nd) base R) w) (fun _ _ => 0) := by
    unfold periodSquare periodWork
    rw [← intervalIntegral.integral_const_mul, ← intervalIntegral.integral_const_mul, ← intervalIntegral.integral_const_mul,
      ← intervalIntegral.integral_add (c4.intervalIntegrable _ _) (c5.intervalIntegrable _ _)]
    refine intervalIntegral.integral_mono_on hT (Continuous.intervalIntegrable ?_ _ _) (Continuous.intervalIntegrable (c4.add c5) _ _) fun t _ => ?_
    · have := cv D
      have := cp (fun i => balance S h Nt tol (sl 0 (numCoeff h * S.nd) X) w i - balance S h Nt tol (sl 0 (numCoeff h * S.nd) Y) w i)
      fun_prop
    · rw [mul_sum, mul_sum, mul_sum, ← sum_add_distrib]
      refine sum_le_sum fun d hd => ?_
      have hd := mem_range.1 hd
      rw [velocity_sub hh hw.ne' S.nd X Y hd t]
      cases hb : base d
      · rw [hfree d hd hb t]
        nlinarith [sq_nonneg (c * (velocityOf S.nd h X w d t - velocityOf S.nd h Y w d t) - periodicOf S.nd h (freeVec S.nd (numCoeff h * S.nd) base R) w d t)]
      · rw [hbase d hd hb t]
        nlinarith [sq_nonneg (periodicOf S.nd h (freeVec S.nd (numCoeff h * S.nd) base R) w d t)]
  have := mul_le_mul_of_nonneg_left (lower.trans H) hc.le
  nlinarith

/-- Example: for the mass on a spring and a damper on the shaken base a tenth of the velocity error is at most the residual, whatever the motion of the base. -/
example {Ub Uw Vw R : ℕ → ℝ} {J : ℕ → ℕ → ℝ} {D : ℕ → ℝ} {w tol : ℝ} (hw : 0 < w) (hUw : Uw 2 = w) (hVw : Vw 2 = w)
    (hres : hbmBaseRes shaken Uw Ub (fun d => d == 1) [1] 4 tol = .ok (R, J, D)) (hV : BaseSolution shaken Ub (fun d => d == 1) [1] 4 tol Vw) :
    (1 / 10) ^ 2 * periodSquare 2 w (velocityOf 2 [1] (baseFull 2 4 (fun d => d == 1) Uw Ub) w) (velocityOf 2 [1] (baseFull 2 4 (fun d => d == 1) Vw Ub) w)
      ≤ periodSquare 2 w (periodicOf 2 [1] (freeVec 2 4 (fun d => d == 1) R) w) (fun _ _ => 0) := by
  refine C158_residual (S := shaken) (h := [1]) ⟨by simp, by simp, by simp⟩ (by simp) ⟨2, rfl⟩ (shaken_damped [1]).massSymm (shaken_damped [1]).stiffSymm (fun f hf => ?_) (by norm_num)
    (fun v hv => ?_) hw (by rw [shaken_nFree]; exact hUw) (by rw [shaken_nFree]; exact hVw) hres hV
  · obtain rfl : f = _ := List.mem_singleton.1 hf
    exact C144_cubic 2 1 _ _ (fun _ _ => rfl) fun _ => zero_le_one
  · have h1 : v 1 = 0 := hv 1 rfl
    simp [shaken, sum_range_succ, h1]
    nlinarith

end

end TMD
