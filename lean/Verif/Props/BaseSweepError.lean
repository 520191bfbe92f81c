import Verif.Props.BaseResidual
import Verif.Props.SweepError

/-!
# C159, for sweeps with a moving base
-/

namespace TMD

open Spec Finset

noncomputable section

variable {S : VibSys} {base : ℕ → Bool} {Ub : ℕ → ℝ} {h : List ℕ} {Nt : ℕ} {tol w c : ℝ}

theorem int_trig (n : ℕ) (m : ℝ) (a b : ℕ → ℝ) : ∫ x in (0:ℝ)..2 * Real.pi, trig n m a b x = 2 * Real.pi * m := by
  unfold trig
  rw [intervalIntegral.integral_add (Continuous.intervalIntegrable (by fun_prop) _ _) (Continuous.intervalIntegrable (by fun_prop) _ _),
    intervalIntegral.integral_finsetSum (fun j _ => Continuous.intervalIntegrable (by fun_prop) _ _), sum_eq_zero fun k _ => ?_]
  · simp
  · have h1 := int_trig_cos (k + 1) 1 (fun _ => 0) (fun _ => 0) (Nat.lt_succ_self k)
    have h2 := int_trig_sin (k + 1) 1 (fun _ => 0) (fun _ => 0) (Nat.lt_succ_self k)
    simp only [trig, zero_mul, add_zero, sum_const_zero, one_mul, mul_zero] at h1 h2
    rw [intervalIntegral.integral_add (Continuous.intervalIntegrable (by fun_prop) _ _) (Continuous.intervalIntegrable (by fun_prop) _ _),
      intervalIntegral.integral_const_mul, intervalIntegral.integral_const_mul, h1, h2]
    ring

theorem int_trig_sq (n : ℕ) (m : ℝ) (a b : ℕ → ℝ) :
    ∫ x in (0:ℝ)..2 * Real.pi, trig n m a b x ^ 2 = 2 * Real.pi * m ^ 2 + Real.pi * ∑ k ∈ range n, (a k ^ 2 + b k ^ 2) := by
  have e : ∀ x, trig n m a b x ^ 2 = m * trig n m a b x + trig n m a b x * trig n 0 a b x := fun x => by
    have : trig n m a b x = m + trig n 0 a b x := by simp [trig]
    rw [this]
    ring
  have c1 := continuous_trig n m a b
  have c2 := continuous_trig n 0 a b
  simp only [e]
  rw [intervalIntegral.integral_add (Continuous.intervalIntegrable (by fun_prop) _ _) (Continuous.intervalIntegrable (by fun_prop) _ _), intervalIntegral.integral_const_mul,
    int_trig, int_trig_mul]
  simp only [sq]
  ring

theorem coefOf_zero_sq (h : List ℕ) (a : ℕ → ℝ) : ∀ n, (∀ m ∈ h.tail, m ≠ 0) →
    (coefOf h a 0).1 ^ 2 + ∑ k ∈ range n, ((coefOf h a (k + 1)).1 ^ 2 + (coefOf h a (k + 1)).2 ^ 2) ≤ ∑ r ∈ range (numCoeff h), a r ^ 2 := by
  intro n hz
  have hnot : ∀ (l : List ℕ) (b : ℕ → ℝ), (∀ m ∈ l, m ≠ 0) → coefOf l b 0 = (0, 0) := fun l => by
    induction l with
    | nil => intro b _; rfl
    | cons m l ih =>
      intro b hb
      have hm := hb m (by simp)
      simp only [coefOf, hm, if_false]
      exact ih _ fun k hk => hb k (by simp [hk])
  cases h with
  | nil => simp [coefOf, numCoeff]
  | cons m hs =>
    by_cases hm : m = 0
    · subst hm
      have h1 := coefOf_sq_sum hs (fun i => a (i + 1)) n
      have h2 : ∀ k, (0 : ℕ) ≠ k + 1 := fun k => by omega
      simp only [coefOf, numCoeff, if_true, h2, if_false]
      rw [add_comm 1, sum_range_succ']
      linarith
    · rw [hnot (m :: hs) a (by
        intro k hk
        rcases List.mem_cons.1 hk with rfl | hk
        · exact hm
        · exact hz k hk)]
      have := coefOf_sq_sum (m :: hs) a n
      simpa using this

/-- The mean square of a periodic function is at most the sum of the squares of its coefficients. -/
theorem mean_square_le (hh : Admissible h) (nd : ℕ) (X : ℕ → ℝ) (hw : 0 < w) :
    periodSquare nd w (periodicOf nd h X w) (fun _ _ => 0) ≤ 2 * Real.pi / w * ∑ d ∈ range nd, ∑ r ∈ range (numCoeff h), X (r * nd + d) ^ 2 := by
  obtain ⟨n, hn⟩ := exists_bound h
  unfold periodSquare
  simp only [periodicOf_trig hh.nodup hn, sub_zero]
  have ct := fun m a b => continuous_trig n m a b
  rw [int_period (fun x => ∑ d ∈ range nd, trig n (coefOf h (fun r => X (r * nd + d)) 0).1
      (fun k => (coefOf h (fun r => X (r * nd + d)) (k + 1)).1) (fun k => (coefOf h (fun r => X (r * nd + d)) (k + 1)).2) x ^ 2) hw.ne',
    intervalIntegral.integral_finsetSum (fun d _ => Continuous.intervalIntegrable (by fun_prop) _ _)]
  rw [mul_sum, mul_sum]
  refine sum_le_sum fun d _ => ?_
  rw [int_trig_sq, div_mul_eq_mul_div, inv_mul_eq_div]
  refine div_le_div_of_nonneg_right ?_ hw.le
  have h1 := coefOf_zero_sq h (fun r => X (r * nd + d)) n (fun m hm h0 => hh.zero_first (h0 ▸ hm))
  have h2 : 0 ≤ ∑ k ∈ range n, ((coefOf h (fun r => X (r * nd + d)) (k + 1)).1 ^ 2 + (coefOf h (fun r => X (r * nd + d)) (k + 1)).2 ^ 2) := sum_nonneg fun k _ => by positivity
  nlinarith [Real.pi_pos, mul_le_mul_of_nonneg_left h1 Real.two_pi_pos.le, mul_nonneg Real.pi_pos.le h2]

/-- C159 with a moving base: at each row that a continuation with `hbm_base_res` stores at a positive frequency, the mean square of the error of the velocities is at most
the number of unknowns times the square of `ε / (r c)`, whatever the motion of the base. -/
theorem C159_base (hh : Admissible h) (hNt : ∀ k ∈ h, 2 * k + 1 < Nt) (heven : Even Nt) (hM : ∀ d < S.nd, ∀ e < S.nd, S.M d e = S.M e d)
    (hK : ∀ d < S.nd, ∀ e < S.nd, S.K d e = S.K e d) (hS : ∀ f ∈ S.forces, IsDashpot S.nd f) (hc : 0 < c)
    (hC : ∀ v : ℕ → ℝ, (∀ d, base d = true → v d = 0) → c * ∑ d ∈ range S.nd, v d ^ 2 ≤ ∑ d ∈ range S.nd, ∑ e ∈ range S.nd, v d * S.C d e * v e)
    {sv : ContSolver} {ε r : ℝ} (hsv : Accurate sv ε) {obj : ContObj} (hv : 0 ≤ obj.verbose) (hr : (contPrepare obj).RPtoC = .vector fun _ => r) (hr0 : 0 < r)
    {cfg : ContCfg} (hdyn : cfg.dynamicCtoP = false) {X0 : ℕ → ℝ} {lam0 lam1 : ℝ} {out : ContRes}
    (hrun : Returns sv (nFree S.nd (numCoeff h * S.nd) base) cfg obj (baseFun S Ub base h Nt tol) X0 lam0 lam1 out) {k : ℕ} (hk : k < out.n)
    (hkw : out.rows k (nFree S.nd (numCoeff h * S.nd) base) = w) (hw : 0 < w) {Vw : ℕ → ℝ} (hVw : Vw (nFree S.nd (numCoeff h * S.nd) base) = w)
    (hV : BaseSolution S Ub base h Nt tol Vw) :
    w / (2 * Real.pi) * periodSquare S.nd w (velocityOf S.nd h (baseFull S.nd (numCoeff h * S.nd) base (out.rows k) Ub) w)
        (velocityOf S.nd h (baseFull S.nd (numCoeff h * S.nd) base Vw Ub) w)
      ≤ nFree S.nd (numCoeff h * S.nd) base * (ε / (r * c)) ^ 2 := by
  obtain ⟨g, o, s, ho, h1, h2, h3, -⟩ := C53_converged_partial hsv hv hrun k hk
  have hs : ∀ i, s i = r := fun i => by
    rcases Nat.eq_zero_or_pos k with h0 | h0
    · rw [h2 h0 i, hr]
      rfl
    · rw [h3 h0 hdyn i, hr]
      simp only [RScale.mean, sum_const, card_range, nsmul_eq_mul]
      field_simp
  have h4 : ∀ i < nFree S.nd (numCoeff h * S.nd) base, o.R i ^ 2 ≤ (ε / r) ^ 2 := fun i hi => by
    have := h1 i hi
    rw [hs, abs_mul, abs_of_pos hr0] at this
    rw [← sq_abs (o.R i)]
    refine pow_le_pow_left₀ (abs_nonneg _) ?_ 2
    rw [le_div_iff₀ hr0]
    linarith
  cases hres : hbmBaseRes S (out.rows k) Ub base h Nt tol with
  | error e => simp [baseFun, hres] at ho
  | ok q =>
    obtain ⟨R, J, D⟩ := q
    have hoR : o.R = R := by
      simp only [baseFun, hres] at ho
      rw [← Except.ok.inj ho]
    have hb := (C158_residual hh hNt heven hM hK hS hc hC hw hkw hVw hres hV).trans (mean_square_le hh S.nd _ hw)
    rw [sum_comm, ← sum_blocks (numCoeff h) S.nd fun i => freeVec S.nd (numCoeff h * S.nd) base R i ^ 2] at hb
    have h5 : ∑ i ∈ range (numCoeff h * S.nd), freeVec S.nd (numCoeff h * S.nd) base R i ^ 2 ≤ nFree S.nd (numCoeff h * S.nd) base * (ε / r) ^ 2 := by
      have h6 := sum_nth (fun i => ¬ baseMask S.nd (numCoeff h * S.nd) base i) (fun _ => (ε / r) ^ 2) (numCoeff h * S.nd)
      rw [sum_const, card_range, nsmul_eq_mul] at h6
      unfold nFree
      rw [h6]
      refine sum_le_sum fun i hi => ?_
      unfold freeVec
      by_cases hm : baseMask S.nd (numCoeff h * S.nd) base i
      · simp [hm]
      · rw [if_neg hm, if_pos hm, ← hoR]
        exact h4 _ (Nat.count_strict_mono hm (mem_range.1 hi))
    have h7 := hb.trans (mul_le_mul_of_nonneg_left h5 (by positivity))
    have hp := Real.pi_pos
    have h8 := mul_le_mul_of_nonneg_left h7 (show 0 ≤ w / (2 * Real.pi) / c ^ 2 by positivity)
    refine le_trans (le_of_eq ?_) (h8.trans_eq ?_)
    · field_simp
    · field_simp

/-- Example: the mass on a spring and a damper on a shaken base, with residuals below `1e-6`: at every stored row with a positive frequency the mean square of the velocity
error is at most `2e-10`. -/
example (tol : ℝ) {Ub : ℕ → ℝ} {sv : ContSolver} (hsv : Accurate sv 1e-6) {cfg : ContCfg} (hdyn : cfg.dynamicCtoP = false) {X0 : ℕ → ℝ} {lam0 lam1 : ℝ} {out : ContRes}
    (hrun : Returns sv 2 cfg (lineObj 0) (baseFun shaken Ub (fun d => d == 1) [1] 4 tol) X0 lam0 lam1 out) {k : ℕ} (hk : k < out.n) {w : ℝ}
    (hkw : out.rows k 2 = w) (hw : 0 < w) {Vw : ℕ → ℝ} (hVw : Vw 2 = w) (hV : BaseSolution shaken Ub (fun d => d == 1) [1] 4 tol Vw) :
    w / (2 * Real.pi) * periodSquare 2 w (velocityOf 2 [1] (baseFull 2 4 (fun d => d == 1) (out.rows k) Ub) w) (velocityOf 2 [1] (baseFull 2 4 (fun d => d == 1) Vw Ub) w) ≤ 2e-10 := by
  have hN : nFree shaken.nd (numCoeff [1] * shaken.nd) (fun d => d == 1) = 2 := shaken_nFree
  have := C159_base (obj := lineObj 0) (S := shaken) (base := fun d => d == 1) (h := [1]) (c := 1 / 10) (r := 1) ⟨by simp, by simp, by simp⟩ (by simp) ⟨2, rfl⟩ (shaken_damped [1]).massSymm
    (shaken_damped [1]).stiffSymm (fun f hf => by
      obtain rfl : f = _ := List.mem_singleton.1 hf
      exact C144_cubic 2 1 _ _ (fun _ _ => rfl) fun _ => zero_le_one) (by norm_num) (fun v hv => by
      have h1 : v 1 = 0 := hv 1 rfl
      simp [shaken, sum_range_succ, h1]
      nlinarith) hsv le_rfl (by simp [contPrepare, lineObj]) one_pos hdyn (by rw [hN]; exact hrun) hk (by rw [hN]; exact hkw) hw (by rw [hN]; exact hVw) hV
  rw [hN] at this
  refine this.trans ?_
  norm_num

end

end TMD
