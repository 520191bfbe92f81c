import Verif.Props.BaseNewton
import Verif.Props.BaseSweepError

/-!
# C160: the error of a response to a moving base that the solver reports as converged
-/

namespace TMD

open Spec Finset

noncomputable section

variable {S : VibSys} {base : ℕ → Bool} {Ub : ℕ → ℝ} {h : List ℕ} {Nt : ℕ} {tol w c : ℝ}

/-- The velocities of two points differ by at most their residuals. -/
theorem base_pair (hh : Admissible h) (hNt : ∀ k ∈ h, 2 * k + 1 < Nt) (heven : Even Nt) (hM : ∀ d < S.nd, ∀ e < S.nd, S.M d e = S.M e d)
    (hK : ∀ d < S.nd, ∀ e < S.nd, S.K d e = S.K e d) (hS : ∀ f ∈ S.forces, IsDashpot S.nd f) (hc : 0 < c)
    (hC : ∀ v : ℕ → ℝ, (∀ d, base d = true → v d = 0) → c * ∑ d ∈ range S.nd, v d ^ 2 ≤ ∑ d ∈ range S.nd, ∑ e ∈ range S.nd, v d * S.C d e * v e) (hw : 0 < w)
    {Uw Vw : ℕ → ℝ} (hUw : Uw (nFree S.nd (numCoeff h * S.nd) base) = w) (hVw : Vw (nFree S.nd (numCoeff h * S.nd) base) = w) :
    c ^ 2 * periodSquare S.nd w (velocityOf S.nd h (baseFull S.nd (numCoeff h * S.nd) base Uw Ub) w) (velocityOf S.nd h (baseFull S.nd (numCoeff h * S.nd) base Vw Ub) w)
      ≤ periodSquare S.nd w (periodicOf S.nd h (freeVec S.nd (numCoeff h * S.nd) base fun k => baseR S Ub base h Nt tol Uw k - baseR S Ub base h Nt tol Vw k) w) (fun _ _ => 0) := by
  obtain ⟨n, hn⟩ := exists_bound h
  have hR := fun f hf => dashpot_resists (tol := tol) hh hn hNt heven (hS f hf)
  set X := baseFull S.nd (numCoeff h * S.nd) base Uw Ub with hX
  set Y := baseFull S.nd (numCoeff h * S.nd) base Vw Ub with hY
  have hval : ∀ (Z : ℕ → ℝ), Z (nFree S.nd (numCoeff h * S.nd) base) = w → ∀ k, baseR S Ub base h Nt tol Z k =
      balance S h Nt tol (sl 0 (numCoeff h * S.nd) (baseFull S.nd (numCoeff h * S.nd) base Z Ub)) w (freeAt S base h k) := fun Z hZ k => by
    unfold baseR hbmG
    rw [baseFull_last, hZ]
    rfl
  set R : ℕ → ℝ := fun k => baseR S Ub base h Nt tol Uw k - baseR S Ub base h Nt tol Vw k with hRd
  have hdiff : ∀ i < numCoeff h * S.nd, ¬ baseMask S.nd (numCoeff h * S.nd) base i →
      balance S h Nt tol (sl 0 (numCoeff h * S.nd) X) w i - balance S h Nt tol (sl 0 (numCoeff h * S.nd) Y) w i = freeVec S.nd (numCoeff h * S.nd) base R i := fun i hi hm => by
    have hi' : freeAt S base h (Nat.count (fun i => ¬ baseMask S.nd (numCoeff h * S.nd) base i) i) = i := Nat.nth_count (p := fun i => ¬ baseMask S.nd (numCoeff h * S.nd) base i) hm
    have e1 := hval Uw hUw (Nat.count (fun i => ¬ baseMask S.nd (numCoeff h * S.nd) base i) i)
    have e2 := hval Vw hVw (Nat.count (fun i => ¬ baseMask S.nd (numCoeff h * S.nd) base i) i)
    rw [hi'] at e1 e2
    rw [← hX] at e1
    rw [← hY] at e2
    rw [← e1, ← e2, freeVec, if_neg hm]
  have hbase : ∀ d < S.nd, base d = true → ∀ t, velocityOf S.nd h X w d t = velocityOf S.nd h Y w d t := fun d hd hb t => by
    have : periodicOf S.nd h X w d = periodicOf S.nd h Y w d := by
      funext t
      unfold periodicOf
      refine series_congr (fun r hr => ?_) _
      have hm : baseMask S.nd (numCoeff h * S.nd) base (r * S.nd + d) := (mask_block base hr hd).2 hb
      simp only [hX, hY, baseFull, if_pos hm]
    unfold velocityOf
    rw [this]
  have hfree : ∀ d < S.nd, base d = false → ∀ t, periodicOf S.nd h (fun i => balance S h Nt tol (sl 0 (numCoeff h * S.nd) X) w i - balance S h Nt tol (sl 0 (numCoeff h * S.nd) Y) w i) w d t =
      periodicOf S.nd h (freeVec S.nd (numCoeff h * S.nd) base R) w d t := fun d hd hb t => by
    unfold periodicOf
    refine series_congr (fun r hr => hdiff _ (block_lt hr hd) fun hm => ?_) _
    have := (mask_block base hr hd).1 hm
    rw [hb] at this
    exact Bool.noConfusion this
  have H := pair_work hh hR hM hK (sl 0 (numCoeff h * S.nd) X) (sl 0 (numCoeff h * S.nd) Y) hw
  set D : ℕ → ℝ := fun i => sl 0 (numCoeff h * S.nd) X i - sl 0 (numCoeff h * S.nd) Y i with hDd
  have hT : 0 ≤ 2 * Real.pi / w := by positivity
  have cv : ∀ W : ℕ → ℝ, ∀ d, Continuous (velocityOf S.nd h W w d) := fun W d => continuous_iff_continuousAt.2 fun t => ((periodic_facts hh.nodup S.nd W hw.ne' d).2.1 t).continuousAt
  have cp : ∀ W : ℕ → ℝ, ∀ d, Continuous (periodicOf S.nd h W w d) := fun W d => continuous_iff_continuousAt.2 fun t => ((periodic_facts hh.nodup S.nd W hw.ne' d).1 t).continuousAt
  have c1 : Continuous fun t => ∑ d ∈ range S.nd, (velocityOf S.nd h X w d t - velocityOf S.nd h Y w d t) ^ 2 := by have := cv X; have := cv Y; fun_prop
  have c2 : Continuous fun t => ∑ d ∈ range S.nd, (periodicOf S.nd h (freeVec S.nd (numCoeff h * S.nd) base R) w d t - 0) ^ 2 := by
    have := cp (freeVec S.nd (numCoeff h * S.nd) base R)
    fun_prop
  have c4 : Continuous fun t => c ^ 2 / 2 * ∑ d ∈ range S.nd, (velocityOf S.nd h X w d t - velocityOf S.nd h Y w d t) ^ 2 := continuous_const.mul c1
  have c5 : Continuous fun t => 1 / 2 * ∑ d ∈ range S.nd, (periodicOf S.nd h (freeVec S.nd (numCoeff h * S.nd) base R) w d t - 0) ^ 2 := continuous_const.mul c2
  have c3 : Continuous fun t => ∑ d ∈ range S.nd, velocityOf S.nd h D w d t * onVelocity S.nd S.C (velocityOf S.nd h D w) d t := by have := cv D; unfold onVelocity; fun_prop
  have lower : c * periodSquare S.nd w (velocityOf S.nd h X w) (velocityOf S.nd h Y w) ≤ periodWork S.nd w (velocityOf S.nd h D w) (onVelocity S.nd S.C (velocityOf S.nd h D w)) := by
    unfold periodSquare periodWork
    rw [← intervalIntegral.integral_const_mul]
    refine intervalIntegral.integral_mono_on hT ((continuous_const.mul c1).intervalIntegrable _ _) (c3.intervalIntegrable _ _) fun t _ => ?_
    have h3 := hC (fun d => if d < S.nd then velocityOf S.nd h D w d t else 0) fun d hb => by
      split_ifs with hd
      · rw [velocity_sub hh hw.ne' S.nd X Y hd t, hbase d hd hb t, sub_self]
      · rfl
    rw [sum_congr rfl fun d hd => by rw [if_pos (mem_range.1 hd), velocity_sub hh hw.ne' S.nd X Y (mem_range.1 hd) t]] at h3
    refine h3.trans_eq (sum_congr rfl fun d hd => ?_)
    unfold onVelocity
    rw [mul_sum]
    exact sum_congr rfl fun e he => by rw [if_pos (mem_range.1 hd), if_pos (mem_range.1 he)]; ring
  have upper : c * periodWork S.nd w (velocityOf S.nd h D w) (periodicOf S.nd h (fun i => balance S h Nt tol (sl 0 (numCoeff h * S.nd) X) w i - balance S h Nt tol (sl 0 (numCoeff h * S.nd) Y) w i) w)
      ≤ c ^ 2 / 2 * periodSquare S.nd w (velocityOf S.nd h X w) (velocityOf S.nd h Y w)
        + 1 / 2 * periodSquare S.nd w (periodicOf S.nd h (freeVec S.nd (numCoeff h * S.nd) base R) w) (fun _ _ => 0) := by
    unfold periodSquare periodWork
    rw [← intervalIntegral.integral_const_mul, ← intervalIntegral.integral_const_mul, ← intervalIntegral.integral_const_mul,
      ← intervalIntegral.integral_add (c4.intervalIntegrable _ _) (c5.intervalIntegrable _ _)]
    refine intervalIntegral.integral_mono_on hT (Continuous.intervalIntegrable ?_ _ _) (Continuous.intervalIntegrable (c4.add c5) _ _) fun t _ => ?_
    · have := cv D
      have := cp (fun i => balance S h Nt tol (sl 0 (numCoeff h * S.nd) X) w i - balance S h Nt tol (sl 0 (numCoeff h * S.nd) Y) w i)
      fun_prop
    · rw [mul_sum, mul_sum, mul_sum, ← sum_add_distrib]
      refine sum_le_sum fun d hd => ?_
      have hd := mem_range.1 hd
      rw [velocity_sub hh hw.ne' S.nd X Y hd t]
      cases hb : base d
      · rw [hfree d hd hb t]
        nlinarith [sq_nonneg (c * (velocityOf S.nd h X w d t - velocityOf S.nd h Y w d t) - periodicOf S.nd h (freeVec S.nd (numCoeff h * S.nd) base R) w d t)]
      · rw [hbase d hd hb t]
        nlinarith [sq_nonneg (periodicOf S.nd h (freeVec S.nd (numCoeff h * S.nd) base R) w d t)]
  have := mul_le_mul_of_nonneg_left (lower.trans H) hc.le
  nlinarith

theorem base_pair_sum (hh : Admissible h) (hNt : ∀ k ∈ h, 2 * k + 1 < Nt) (heven : Even Nt) (hM : ∀ d < S.nd, ∀ e < S.nd, S.M d e = S.M e d)
    (hK : ∀ d < S.nd, ∀ e < S.nd, S.K d e = S.K e d) (hS : ∀ f ∈ S.forces, IsDashpot S.nd f) (hc : 0 < c)
    (hC : ∀ v : ℕ → ℝ, (∀ d, base d = true → v d = 0) → c * ∑ d ∈ range S.nd, v d ^ 2 ≤ ∑ d ∈ range S.nd, ∑ e ∈ range S.nd, v d * S.C d e * v e) (hw : 0 < w)
    {Uw Vw : ℕ → ℝ} (hUw : Uw (nFree S.nd (numCoeff h * S.nd) base) = w) (hVw : Vw (nFree S.nd (numCoeff h * S.nd) base) = w) :
    c ^ 2 * (w / (2 * Real.pi) * periodSquare S.nd w (velocityOf S.nd h (baseFull S.nd (numCoeff h * S.nd) base Uw Ub) w) (velocityOf S.nd h (baseFull S.nd (numCoeff h * S.nd) base Vw Ub) w))
      ≤ ∑ k ∈ range (nFree S.nd (numCoeff h * S.nd) base), (baseR S Ub base h Nt tol Uw k - baseR S Ub base h Nt tol Vw k) ^ 2 := by
  have hb := (base_pair (tol := tol) (Ub := Ub) hh hNt heven hM hK hS hc hC hw hUw hVw).trans (mean_square_le hh S.nd _ hw)
  rw [sum_comm, ← sum_blocks (numCoeff h) S.nd fun i => freeVec S.nd (numCoeff h * S.nd) base (fun k => baseR S Ub base h Nt tol Uw k - baseR S Ub base h Nt tol Vw k) i ^ 2] at hb
  have h5 : ∑ i ∈ range (numCoeff h * S.nd), freeVec S.nd (numCoeff h * S.nd) base (fun k => baseR S Ub base h Nt tol Uw k - baseR S Ub base h Nt tol Vw k) i ^ 2
      = ∑ k ∈ range (nFree S.nd (numCoeff h * S.nd) base), (baseR S Ub base h Nt tol Uw k - baseR S Ub base h Nt tol Vw k) ^ 2 := by
    have h6 := sum_nth (fun i => ¬ baseMask S.nd (numCoeff h * S.nd) base i)
      (fun i => (fun k => (baseR S Ub base h Nt tol Uw k - baseR S Ub base h Nt tol Vw k) ^ 2) (Nat.count (fun i => ¬ baseMask S.nd (numCoeff h * S.nd) base i) i)) (numCoeff h * S.nd)
    have h7 : ∀ l, Nat.count (fun i => ¬ baseMask S.nd (numCoeff h * S.nd) base i) (Nat.nth (fun i => ¬ baseMask S.nd (numCoeff h * S.nd) base i) l) = l := count_freeAt S base h
    simp only [h7] at h6
    refine Eq.trans (sum_congr rfl fun i _ => ?_) h6.symm
    unfold freeVec
    by_cases hm : baseMask S.nd (numCoeff h * S.nd) base i <;> simp [hm]
  rw [h5] at hb
  have hp := Real.pi_pos
  have h8 := mul_le_mul_of_nonneg_left hb (show 0 ≤ w / (2 * Real.pi) by positivity)
  refine le_trans (le_of_eq ?_) (h8.trans_eq ?_)
  · ring
  · field_simp

theorem velocity_line (hh : Admissible h) (hw : w ≠ 0) (X V : ℕ → ℝ) (s : ℝ) {d : ℕ} (hd : d < S.nd) (t : ℝ) :
    velocityOf S.nd h (baseFull S.nd (numCoeff h * S.nd) base (fun k => X k + s * V k) Ub) w d t - velocityOf S.nd h (baseFull S.nd (numCoeff h * S.nd) base X Ub) w d t
      = s * (velocityOf S.nd h (baseFull S.nd (numCoeff h * S.nd) base (fun k => X k + V k) Ub) w d t - velocityOf S.nd h (baseFull S.nd (numCoeff h * S.nd) base X Ub) w d t) := by
  rw [← velocity_sub hh hw _ _ _ hd, ← velocity_sub hh hw _ _ _ hd]
  set D : ℕ → ℝ := fun i => sl 0 (numCoeff h * S.nd) (baseFull S.nd (numCoeff h * S.nd) base (fun k => X k + V k) Ub) i - sl 0 (numCoeff h * S.nd) (baseFull S.nd (numCoeff h * S.nd) base X Ub) i with hD
  have e : (fun i => sl 0 (numCoeff h * S.nd) (baseFull S.nd (numCoeff h * S.nd) base (fun k => X k + s * V k) Ub) i - sl 0 (numCoeff h * S.nd) (baseFull S.nd (numCoeff h * S.nd) base X Ub) i)
      = fun i => s * D i := by
    funext i
    simp only [hD, sl, baseFull]
    split_ifs <;> ring
  rw [e]
  have e2 : periodicOf S.nd h (fun i => s * D i) w d = fun t => s * periodicOf S.nd h D w d t := by
    funext t
    unfold periodicOf
    rw [series_smul]
  unfold velocityOf
  rw [e2]
  exact (((periodic_facts hh.nodup S.nd D hw d).1 t).differentiableAt.hasDerivAt.const_mul s).deriv

theorem square_line (hh : Admissible h) (hw : w ≠ 0) (X V : ℕ → ℝ) (s : ℝ) :
    periodSquare S.nd w (velocityOf S.nd h (baseFull S.nd (numCoeff h * S.nd) base (fun k => X k + s * V k) Ub) w) (velocityOf S.nd h (baseFull S.nd (numCoeff h * S.nd) base X Ub) w)
      = s ^ 2 * periodSquare S.nd w (velocityOf S.nd h (baseFull S.nd (numCoeff h * S.nd) base (fun k => X k + V k) Ub) w) (velocityOf S.nd h (baseFull S.nd (numCoeff h * S.nd) base X Ub) w) := by
  unfold periodSquare
  rw [← intervalIntegral.integral_const_mul]
  congr 1
  funext t
  rw [mul_sum]
  refine sum_congr rfl fun d hd => ?_
  rw [velocity_line hh hw X V s (mem_range.1 hd)]
  ring

theorem square_two (hh : Admissible h) (hw : 0 < w) (nd : ℕ) (A B C : ℕ → ℝ) : periodSquare nd w (velocityOf nd h A w) (velocityOf nd h C w)
    ≤ 2 * periodSquare nd w (velocityOf nd h A w) (velocityOf nd h B w) + 2 * periodSquare nd w (velocityOf nd h B w) (velocityOf nd h C w) := by
  have cv : ∀ W : ℕ → ℝ, ∀ d, Continuous (velocityOf nd h W w d) := fun W d => continuous_iff_continuousAt.2 fun t => ((periodic_facts hh.nodup nd W hw.ne' d).2.1 t).continuousAt
  have c1 : ∀ P Q : ℕ → ℝ, Continuous fun t => ∑ d ∈ range nd, (velocityOf nd h P w d t - velocityOf nd h Q w d t) ^ 2 := fun P Q => by have := cv P; have := cv Q; fun_prop
  have c2 : ∀ P Q : ℕ → ℝ, Continuous fun t => 2 * ∑ d ∈ range nd, (velocityOf nd h P w d t - velocityOf nd h Q w d t) ^ 2 := fun P Q => continuous_const.mul (c1 P Q)
  unfold periodSquare
  rw [← intervalIntegral.integral_const_mul, ← intervalIntegral.integral_const_mul,
    ← intervalIntegral.integral_add ((c2 A B).intervalIntegrable _ _) ((c2 B C).intervalIntegrable _ _)]
  refine intervalIntegral.integral_mono_on (by positivity) ((c1 A C).intervalIntegrable _ _) (Continuous.intervalIntegrable ((c2 A B).add (c2 B C)) _ _) fun t _ => ?_
  rw [mul_sum, mul_sum, ← sum_add_distrib]
  refine sum_le_sum fun d _ => ?_
  nlinarith [sq_nonneg (velocityOf nd h A w d t - 2 * velocityOf nd h B w d t + velocityOf nd h C w d t)]

/-- What a step changes is bounded by what the matrix of derivatives makes of it. -/
theorem base_jac_lower (hh : Admissible h) (hNt : ∀ k ∈ h, 2 * k + 1 < Nt) (heven : Even Nt) (hM : ∀ d < S.nd, ∀ e < S.nd, S.M d e = S.M e d)
    (hK : ∀ d < S.nd, ∀ e < S.nd, S.K d e = S.K e d) (hS : ∀ f ∈ S.forces, IsDashpot S.nd f) (hc : 0 < c)
    (hC : ∀ v : ℕ → ℝ, (∀ d, base d = true → v d = 0) → c * ∑ d ∈ range S.nd, v d ^ 2 ≤ ∑ d ∈ range S.nd, ∑ e ∈ range S.nd, v d * S.C d e * v e) (hw : 0 < w)
    {N : ℕ} (hN : nFree S.nd (numCoeff h * S.nd) base = N) {x : Fin (N + 1) → ℝ} (hx : x (Fin.last N) = w) {V : ℕ → ℝ} (hV : ∀ i, N ≤ i → V i = 0) :
    c ^ 2 * (w / (2 * Real.pi) * periodSquare S.nd w (velocityOf S.nd h (baseFull S.nd (numCoeff h * S.nd) base (fun k => Spec.ext x k + V k) Ub) w)
        (velocityOf S.nd h (baseFull S.nd (numCoeff h * S.nd) base (Spec.ext x) Ub) w))
      ≤ ∑ k ∈ range N, (∑ j ∈ range N, baseJ S Ub base h Nt tol (Spec.ext x) k j * V j) ^ 2 := by
  obtain ⟨n, hn⟩ := exists_bound h
  have hR := fun f hf => dashpot_resists (tol := tol) hh hn hNt heven (hS f hf)
  have hs := base_smooth (Ub := Ub) (base := base) hh hR
  rw [hN] at hs
  have hxN : Spec.ext x N = w := by rw [← hx]; simp [Spec.ext, Fin.last]
  set g : ℕ → ℝ → ℝ := fun k s => baseR S Ub base h Nt tol (fun i => Spec.ext x i + s * V i) k with hg
  have hgd : ∀ k < N, HasDerivAt (g k) (∑ j ∈ range N, baseJ S Ub base h Nt tol (Spec.ext x) k j * V j) 0 := fun k hk => by
    have h1 := (hs.deriv x (by show 0 < x (Fin.last N); rw [hx]; exact hw) k hk).directional V fun i hi => hV i (by omega)
    rw [sum_range_succ, hV N le_rfl, mul_zero, add_zero] at h1
    refine h1.congr_deriv (sum_congr rfl fun j hj => ?_)
    simp only [fullJac, mem_range.1 hj, if_true]
  have hslope : ∀ k < N, Filter.Tendsto (fun s : ℝ => s⁻¹ * (g k s - g k 0)) (nhdsWithin 0 {0}ᶜ) (nhds (∑ j ∈ range N, baseJ S Ub base h Nt tol (Spec.ext x) k j * V j)) := fun k hk => by
    have := hasDerivAt_iff_tendsto_slope_zero.1 (hgd k hk)
    simpa using this
  refine ge_of_tendsto (tendsto_finsetSum (range N) fun k hk => (hslope k (mem_range.1 hk)).pow 2) ?_
  filter_upwards [self_mem_nhdsWithin] with s hs0
  have hs0 : s ≠ 0 := hs0
  have h2 := base_pair_sum (tol := tol) (Ub := Ub) (Uw := fun i => Spec.ext x i + s * V i) (Vw := Spec.ext x) hh hNt heven hM hK hS hc hC hw
    (by rw [hN, hV N le_rfl, mul_zero, add_zero, hxN]) (by rw [hN, hxN])
  rw [square_line hh hw.ne', hN] at h2
  have h0 : ∀ k, g k 0 = baseR S Ub base h Nt tol (Spec.ext x) k := fun k => by simp [hg]
  simp only [h0, mul_pow, ← mul_sum]
  have hs2 : 0 < s ^ 2 := by positivity
  rw [inv_pow, ← div_eq_inv_mul, le_div_iff₀ hs2]
  refine le_trans (le_of_eq ?_) h2
  ring

/-- C160 with a moving base: if Newton's method with a tolerance for the residual alone reports success, the root mean square of the error of the velocities that it returns
is less than twice that tolerance divided by the least damping, whatever the motion of the base. -/
theorem C160_base_solver (hh : Admissible h) (hNt : ∀ k ∈ h, 2 * k + 1 < Nt) (heven : Even Nt) (hD : DampedFree S base h) (hS : ∀ f ∈ S.forces, IsDashpot S.nd f) (hc : 0 < c)
    (hC : ∀ v : ℕ → ℝ, (∀ d, base d = true → v d = 0) → c * ∑ d ∈ range S.nd, v d ^ 2 ≤ ∑ d ∈ range S.nd, ∑ e ∈ range S.nd, v d * S.C d e * v e) (hw : 0 < w)
    {N : ℕ} (hN : nFree S.nd (numCoeff h * S.nd) base = N) {Vw : ℕ → ℝ} (hVw : Vw N = w) (hV : BaseSolution S Ub base h Nt tol Vw)
    {inf ρ : ℝ} {L : Type} {fac : Matrix (Fin N) (Fin N) ℝ → L} {sol : L → (Fin N → ℝ) → Fin N → ℝ} (hsol : ExactSolve fac sol) {cfg : OmpConfig ℝ}
    (hr : cfg.reformFreq = 1) (hl : cfg.lsIters = 0) (hs : cfg.stoppingTol = [.rtol]) (ha : cfg.acceptingTol = []) (ht : cfg.tol .rtol = some ρ)
    {X0 : Fin N → ℝ} {xtol : Option ℝ} {res : SolveRes (Fin N → ℝ) (Matrix (Fin N) (Fin N) ℝ)} {cfg' : OmpConfig ℝ}
    (hrun : nsolveOMP (realArith N inf fac sol) cfg (hbmBaseAt S w Ub base h Nt tol N) X0 xtol = (.ok res, cfg')) (hok : res.success = true) :
    c ^ 2 * (w / (2 * Real.pi) * periodSquare S.nd w (velocityOf S.nd h (baseFull S.nd (numCoeff h * S.nd) base (hcat N (Spec.ext res.X) fun _ => w) Ub) w)
        (velocityOf S.nd h (baseFull S.nd (numCoeff h * S.nd) base Vw Ub) w)) < (2 * ρ) ^ 2 := by
  obtain ⟨n, hn⟩ := exists_bound h
  have hR := fun f hf => dashpot_resists (tol := tol) hh hn hNt heven (hS f hf)
  obtain ⟨_, it, k, hrun', _, _, hX, _, _, _, _, hsucc⟩ := C15_report _ cfg _ X0 xtol res cfg' hrun
  obtain ⟨hk, _, nm, v, tt, e1, e2, e3, e4⟩ := hsucc hok
  rw [hs, ha] at e4
  obtain rfl : nm = .rtol := by simpa using e4
  rw [if_neg (by decide), ht] at e2
  obtain rfl := Option.some.inj e2
  obtain ⟨m, rfl⟩ : ∃ m, k = m + 1 := ⟨k - 1, by omega⟩
  simp only [exchanged, named, Option.some.injEq] at e1
  rw [← e1] at e3
  have e5 : |Real.sqrt ((it m).R ⬝ᵥ (it m).R)| < ρ := by simpa [realArith, measures] using e3
  rw [abs_of_nonneg (Real.sqrt_nonneg _)] at e5
  have hρ : 0 < ρ := (Real.sqrt_nonneg _).trans_lt e5
  rw [Real.sqrt_lt' hρ] at e5
  have hnew : (it m).newton = true := by rw [hrun'.newton m (by omega), hr]; simp [Nat.mod_one]
  obtain ⟨D, hDf, hstep⟩ := hrun'.residual m (by omega)
  have hfull := (hstep hnew).2
  have hstep' := (hrun'.step m (by omega)).1 hl
  have hX' : res.X = (it m).X + (it m).step := hX
  generalize (it m).X = x at hDf hX'
  generalize (it m).R = R at hDf hfull e5
  generalize (it m).step = s at hstep' hX'
  have hfull' : s = -(sol (fac D) R) := hstep'.trans hfull
  have hsm := base_smooth (Ub := Ub) (base := base) hh hR
  rw [hN] at hsm
  have hloc : ∀ X Y : ℕ → ℝ, (∀ k < N + 1, X k = Y k) → baseR S Ub base h Nt tol X = baseR S Ub base h Nt tol Y ∧ baseJ S Ub base h Nt tol X = baseJ S Ub base h Nt tol Y := fun X Y H => by
    have e := hsm.local' X Y H
    rw [hsm.value, hsm.value] at e
    injection e with e
    injection e with e1 e2 _
    exact ⟨e1, e2⟩
  set Z : ℕ → ℝ := hcat N (Spec.ext x) fun _ => w with hZ
  set z : Fin (N + 1) → ℝ := fun i => Z i with hz
  have hzZ : ∀ k < N + 1, Z k = Spec.ext z k := fun k hk => by simp [Spec.ext, hk, hz]
  have hZw : Z N = w := by simp [hZ, hcat]
  obtain ⟨R', J', d', f1, f2⟩ := C157_no_fold (tol := tol) hh hNt heven hD hS Ub Z (by rw [hN, hZw]; exact hw)
  rw [baseRes_val hh hR] at f1
  have f3 := congrArg (fun o => o.2.1) (Except.ok.inj f1)
  simp only at f3
  rw [hN, ← f3] at f2
  simp only [hbmBaseAt, ← hZ, baseRes_val hh hR] at hDf
  obtain ⟨hR1, hD1⟩ := Prod.ext_iff.1 (Except.ok.inj hDf)
  simp only at hR1 hD1
  have hdet : IsUnit D.det := by
    rw [← hD1]
    exact IsUnit.mk0 _ ((regular_iff_det _).1 f2)
  have hDs : D.mulVec s = -R := by rw [hfull', Matrix.mulVec_neg, hsol D R hdet]
  have hb1 := base_pair_sum (tol := tol) (Ub := Ub) (Uw := Spec.ext z) (Vw := Vw) hh hNt heven hD.massSymm hD.stiffSymm hS hc hC hw (by rw [hN, ← hzZ N (by omega), hZw]) (by rw [hN, hVw])
  have hb2 := base_jac_lower (tol := tol) (Ub := Ub) hh hNt heven hD.massSymm hD.stiffSymm hS hc hC hw hN (x := z) (by show Z N = w; exact hZw) (V := Spec.ext s)
    (fun i hi => by simp [Spec.ext, hi])
  rw [← (hloc _ _ hzZ).1, hN] at hb1
  rw [← (hloc _ _ hzZ).2] at hb2
  have hr1 : ∑ k ∈ range N, (baseR S Ub base h Nt tol Z k - baseR S Ub base h Nt tol Vw k) ^ 2 = R ⬝ᵥ R := by
    rw [Finset.sum_range]
    simp only [dotProduct, ← hR1]
    refine sum_congr rfl fun i _ => ?_
    rw [(base_solves hh hR Vw).1 hV i (by rw [hN]; exact i.2)]
    ring
  have hr2 : ∑ k ∈ range N, (∑ j ∈ range N, baseJ S Ub base h Nt tol Z k j * Spec.ext s j) ^ 2 = R ⬝ᵥ R := by
    have : D.mulVec s ⬝ᵥ D.mulVec s = R ⬝ᵥ R := by rw [hDs, neg_dotProduct, dotProduct_neg, neg_neg]
    rw [← this, Finset.sum_range]
    simp only [dotProduct, ← hD1]
    refine sum_congr rfl fun i _ => ?_
    simp [Matrix.mulVec, dotProduct, Finset.sum_range, Spec.ext, sq]
  rw [hr1] at hb1
  rw [hr2] at hb2
  have hsame : ∀ i < numCoeff h * S.nd + 1, baseFull S.nd (numCoeff h * S.nd) base (hcat N (Spec.ext res.X) fun _ => w) Ub i
      = baseFull S.nd (numCoeff h * S.nd) base (fun k => Spec.ext z k + Spec.ext s k) Ub i := fun i hi => by
    refine baseFull_local (fun k hk => ?_) hi
    rw [hN] at hk
    rw [← hzZ k hk, hZ, hX']
    by_cases q : k < N
    · simp [hcat, Spec.ext, q]
    · simp [hcat, Spec.ext, q]
  have hvel : ∀ d < S.nd, velocityOf S.nd h (baseFull S.nd (numCoeff h * S.nd) base (hcat N (Spec.ext res.X) fun _ => w) Ub) w d
      = velocityOf S.nd h (baseFull S.nd (numCoeff h * S.nd) base (fun k => Spec.ext z k + Spec.ext s k) Ub) w d := fun d hd => by
    unfold velocityOf
    rw [periodicOf_same (fun r hr => hsame _ (by have := block_lt hr hd; omega)) w]
  have hps : periodSquare S.nd w (velocityOf S.nd h (baseFull S.nd (numCoeff h * S.nd) base (hcat N (Spec.ext res.X) fun _ => w) Ub) w)
        (velocityOf S.nd h (baseFull S.nd (numCoeff h * S.nd) base Vw Ub) w)
      = periodSquare S.nd w (velocityOf S.nd h (baseFull S.nd (numCoeff h * S.nd) base (fun k => Spec.ext z k + Spec.ext s k) Ub) w)
        (velocityOf S.nd h (baseFull S.nd (numCoeff h * S.nd) base Vw Ub) w) := by
    unfold periodSquare
    congr 1
    funext t
    exact sum_congr rfl fun d hd => by rw [hvel d (mem_range.1 hd)]
  rw [hps]
  have h3 := mul_le_mul_of_nonneg_left (square_two hh hw S.nd (baseFull S.nd (numCoeff h * S.nd) base (fun k => Spec.ext z k + Spec.ext s k) Ub)
    (baseFull S.nd (numCoeff h * S.nd) base (Spec.ext z) Ub) (baseFull S.nd (numCoeff h * S.nd) base Vw Ub)) (show 0 ≤ c ^ 2 * (w / (2 * Real.pi)) by have := Real.pi_pos; positivity)
  nlinarith

/-- Example: the mass on a spring and a damper on a shaken base: when the solver reports success with the tolerance `1e-6` for the residual, the mean square of the error of the
velocities is less than `4e-10`, for every motion of the base and every frequency. -/
example (Ub : ℕ → ℝ) (tol : ℝ) {w : ℝ} (hw : 0 < w) {Vw : ℕ → ℝ} (hVw : Vw 2 = w) (hV : BaseSolution shaken Ub (fun d => d == 1) [1] 4 tol Vw) {X0 : Fin 2 → ℝ}
    {res : SolveRes (Fin 2 → ℝ) (Matrix (Fin 2) (Fin 2) ℝ)} {cfg' : OmpConfig ℝ}
    (hrun : nsolveOMP (realArith 2 0 id fun D v => D⁻¹.mulVec v) { lsTol := 0, stoppingTol := [.rtol], tol := fun k => if k = .rtol then some 1e-6 else none }
      (hbmBaseAt shaken w Ub (fun d => d == 1) [1] 4 tol 2) X0 none = (.ok res, cfg')) (hok : res.success = true) :
    w / (2 * Real.pi) * periodSquare 2 w (velocityOf 2 [1] (baseFull 2 4 (fun d => d == 1) (hcat 2 (Spec.ext res.X) fun _ => w) Ub) w)
      (velocityOf 2 [1] (baseFull 2 4 (fun d => d == 1) Vw Ub) w) < 4e-10 := by
  have := C160_base_solver (S := shaken) (base := fun d => d == 1) (h := [1]) (c := 1 / 10) (ρ := 1e-6) ⟨by simp, by simp, by simp⟩ (by simp) ⟨2, rfl⟩ (shaken_damped [1]) (fun f hf => by
      obtain rfl : f = _ := List.mem_singleton.1 hf
      exact C144_cubic 2 1 _ _ (fun _ _ => rfl) fun _ => zero_le_one) (by norm_num) (fun v hv => by
      have h1 : v 1 = 0 := hv 1 rfl
      simp [shaken, sum_range_succ, h1]
      nlinarith) hw shaken_nFree hVw hV exactSolve_inv rfl rfl rfl rfl (by simp) hrun hok
  change (1 / 10 : ℝ) ^ 2 * (w / (2 * Real.pi) * periodSquare 2 w (velocityOf 2 [1] (baseFull 2 4 (fun d => d == 1) (hcat 2 (Spec.ext res.X) fun _ => w) Ub) w)
      (velocityOf 2 [1] (baseFull 2 4 (fun d => d == 1) Vw Ub) w)) < _ at this
  norm_num at this ⊢
  linarith

end

end TMD
