import Verif.Lemmas.DashpotExists
import Verif.Props.HarmonicList

/-!
# Force objects that depend on the velocity by a monotone law
-/

namespace TMD

open Spec Finset

noncomputable section

/-- A nonlinear damper: an instantaneous force object whose local force is a nondecreasing function of the local velocity that vanishes at
rest, with continuous derivative as returned, and whose force directions are those of its displacements. -/
def IsDashpot (nd : ℕ) (f : NLForce) : Prop :=
  ∃ (m : ℕ) (Q T : ℕ → ℕ → ℝ) (loc : ℕ → ℝ → ℝ → Loc) (force : (ℕ → ℝ) → (ℕ → ℝ) × (ℕ → ℕ → ℝ)) (p p' : ℕ → ℝ → ℝ),
    f = instForce nd m Q T loc force ∧ (∀ i e, T i e = Q e i) ∧ (∀ d u v, loc d u v = ⟨p d v, 0, p' d v⟩) ∧
    ∀ d, (∀ v, HasDerivAt (p d) (p' d v) v) ∧ Continuous (p' d) ∧ Monotone (p d) ∧ p d 0 = 0

variable {h : List ℕ} {Nt n : ℕ} {tol : ℝ}

theorem deriv_series_coef (hn : h.Nodup) (hle : ∀ k ∈ h, k ≤ n) (c : ℕ → ℝ) (τ : ℝ) : deriv (series h c) τ
    = ∑ k ∈ range n, (((k + 1 : ℕ) : ℝ) * (coefOf h c (k + 1)).2 * Real.cos ((k + 1 : ℕ) * τ) - ((k + 1 : ℕ) : ℝ) * (coefOf h c (k + 1)).1 * Real.sin ((k + 1 : ℕ) * τ)) := by
  have := (trig_deriv n (coefOf h c 0).1 (fun k => (coefOf h c (k + 1)).1) (fun k => (coefOf h c (k + 1)).2) 1 τ).deriv
  simp only [one_mul, mul_one] at this
  rw [series_trig hn hle, this]
  unfold trig
  rw [zero_add]
  exact sum_congr rfl fun k _ => by ring

theorem deriv_local (N : ℕ) (Q : ℕ → ℕ → ℝ) (U : ℕ → ℝ) (e : ℕ) (τ : ℝ) :
    deriv (localMotion N Q h U e) τ = ∑ d ∈ range N, Q e d * deriv (series h fun r => U (r * N + d)) τ := by
  refine HasDerivAt.deriv ?_
  have : localMotion N Q h U e = fun τ => ∑ d ∈ range N, Q e d * series h (fun r => U (r * N + d)) τ := rfl
  rw [this]
  exact HasDerivAt.fun_sum fun d _ => ((differentiable_series h (fun r => U (r * N + d))) _).hasDerivAt.const_mul _

theorem deriv_local_sub (N : ℕ) (Q : ℕ → ℕ → ℝ) (U V : ℕ → ℝ) (e : ℕ) (τ : ℝ) :
    deriv (localMotion N Q h (fun i => U i - V i) e) τ = deriv (localMotion N Q h U e) τ - deriv (localMotion N Q h V e) τ := by
  simp only [deriv_local]
  rw [← sum_sub_distrib]
  refine sum_congr rfl fun d _ => ?_
  rw [← mul_sub]
  congr 1
  have : (series h fun r => U (r * N + d) - V (r * N + d)) = fun τ => series h (fun r => U (r * N + d)) τ - series h (fun r => V (r * N + d)) τ :=
    funext fun τ => series_sub h _ _ τ
  rw [this]
  exact deriv_fun_sub (differentiable_series h _ _) (differentiable_series h _ _)

theorem deriv_series_bound (hn : h.Nodup) (hle : ∀ k ∈ h, k ≤ n) (nd : ℕ) (U : ℕ → ℝ) {d : ℕ} (hd : d < nd) (τ : ℝ) :
    |deriv (series h fun r => U (r * nd + d)) τ| ≤ oscSize nd n h U / 2 + n := by
  rw [deriv_series_coef hn hle]
  set c := fun k => coefOf h (fun r => U (r * nd + d)) (k + 1) with hc
  have h1 : ∀ k ∈ range n, |((k + 1 : ℕ) : ℝ) * (c k).2 * Real.cos ((k + 1 : ℕ) * τ) - ((k + 1 : ℕ) : ℝ) * (c k).1 * Real.sin ((k + 1 : ℕ) * τ)|
      ≤ ((k + 1 : ℕ) : ℝ) ^ 2 * ((c k).1 ^ 2 + (c k).2 ^ 2) / 2 + 1 := fun k _ => by
    have a1 := Real.abs_cos_le_one ((k + 1 : ℕ) * τ)
    have a2 := Real.abs_sin_le_one ((k + 1 : ℕ) * τ)
    set x := ((k + 1 : ℕ) : ℝ) * (c k).2
    set y := ((k + 1 : ℕ) : ℝ) * (c k).1
    have e : ((k + 1 : ℕ) : ℝ) ^ 2 * ((c k).1 ^ 2 + (c k).2 ^ 2) = x ^ 2 + y ^ 2 := by simp only [x, y]; ring
    rw [e]
    refine (abs_sub _ _).trans ?_
    rw [abs_mul x, abs_mul y]
    have b1 := mul_le_mul_of_nonneg_left a1 (abs_nonneg x)
    have b2 := mul_le_mul_of_nonneg_left a2 (abs_nonneg y)
    nlinarith [sq_nonneg (|x| - 1), sq_nonneg (|y| - 1), sq_abs x, sq_abs y]
  refine (abs_sum_le_sum_abs _ _).trans ((sum_le_sum h1).trans ?_)
  rw [sum_add_distrib, ← sum_div, sum_const, card_range, nsmul_eq_mul, mul_one]
  refine add_le_add (div_le_div_of_nonneg_right ?_ two_pos.le) le_rfl
  unfold oscSize
  refine sum_le_sum fun k _ => mul_le_mul_of_nonneg_left ?_ (by positivity)
  exact single_le_sum (f := fun d => (coefOf h (fun r => U (r * nd + d)) (k + 1)).1 ^ 2 + (coefOf h (fun r => U (r * nd + d)) (k + 1)).2 ^ 2)
    (fun _ _ => by positivity) (mem_range.2 hd)

theorem deriv_series_zero (hn : h.Nodup) (hle : ∀ k ∈ h, k ≤ n) (nd : ℕ) (U : ℕ → ℝ) (h0 : oscSize nd n h U = 0) {d : ℕ} (hd : d < nd) (τ : ℝ) :
    deriv (series h fun r => U (r * nd + d)) τ = 0 := by
  rw [deriv_series_coef hn hle]
  refine sum_eq_zero fun k hk => ?_
  unfold oscSize at h0
  have h1 := (sum_eq_zero_iff_of_nonneg fun k _ => by positivity).1 h0 k hk
  have h2 := (mul_eq_zero.1 h1).resolve_left (by positivity)
  have h3 := (sum_eq_zero_iff_of_nonneg fun d _ => by positivity).1 h2 d (mem_range.2 hd)
  have h4 : (coefOf h (fun r => U (r * nd + d)) (k + 1)).1 = 0 := by nlinarith [sq_nonneg (coefOf h (fun r => U (r * nd + d)) (k + 1)).1, sq_nonneg (coefOf h (fun r => U (r * nd + d)) (k + 1)).2]
  have h5 : (coefOf h (fun r => U (r * nd + d)) (k + 1)).2 = 0 := by nlinarith [sq_nonneg (coefOf h (fun r => U (r * nd + d)) (k + 1)).1, sq_nonneg (coefOf h (fun r => U (r * nd + d)) (k + 1)).2]
  rw [h4, h5]
  ring

theorem dft_diff (N : ℕ) (x y : ℕ → ℝ) (k : ℕ) : dft N (fun j => x j - y j) k = dft N x k - dft N y k := by
  unfold dft
  split_ifs
  · ext1
    · simp only [Prod.fst_sub, sum_sub_distrib, sub_div]
    · simp
  · ext1
    · simp only [Prod.fst_sub, sub_mul, sum_sub_distrib, mul_sub]
    · simp only [Prod.snd_sub, sub_mul, sum_sub_distrib, mul_sub]

theorem isForceDFT_sub {N m : ℕ} {T : ℕ → ℕ → ℝ} {f g : ℕ → ℕ → ℝ} {F G : ℕ → ℝ} (hf : IsForceDFT N m T h Nt f F) (hg : IsForceDFT N m T h Nt g G) :
    IsForceDFT N m T h Nt (fun j d => f j d - g j d) (fun i => F i - G i) := fun i hi k hk => by
  have e : (fun j => ∑ d ∈ range m, T i d * (f j d - g j d)) = fun j => (∑ d ∈ range m, T i d * f j d) - ∑ d ∈ range m, T i d * g j d := by
    funext j
    rw [← sum_sub_distrib]
    exact sum_congr rfl fun d _ => by ring
  rw [coefOf_sub, hf i hi k hk, hg i hi k hk, e, dft_diff]

theorem dashpot_resists (hh : Admissible h) (hn : ∀ k ∈ h, k ≤ n) (hNt : ∀ k ∈ h, 2 * k + 1 < Nt) (heven : Even Nt) {nd : ℕ} {f : NLForce}
    (hf : IsDashpot nd f) : Resists nd n h Nt tol f := by
  obtain ⟨m, Q, T, loc, force, p, p', rfl, hT, hloc, hp⟩ := hf
  obtain ⟨W, B0, B1, H⟩ := instAft_ok hh hNt heven nd m Q T
  choose F dFw J u v h1 h2 h3 h4 h5 h6 h7 h8 h9 using fun U w => H (elemLfh loc) U w
  have hA : ∀ U w, aftVal h Nt tol (instForce nd m Q T loc force) U w = ⟨toGlobal nd m T (F U w),
      matMul (numCoeff h*m) (matMul (numCoeff h*m) (kronEye nd m T) (J U w)) (kronEye m nd Q), if w = 0 then fun _ => 0 else toGlobal nd m T (dFw U w)⟩ := fun U w => by
    simp only [aftVal, instForce, h1]
  have hok : ∀ U w, (instForce nd m Q T loc force).aft U w h Nt tol = .ok (aftVal h Nt tol (instForce nd m Q T loc force) U w) := fun U w => by
    rw [hA]; exact h1 U w
  have hv : ∀ U w j d, v U w j d = w * deriv (localMotion nd Q h U d) (2 * Real.pi * j / Nt) := fun U w j d => by rw [h5, localMotion_eq]
  have hF : ∀ U w, ∀ i < numCoeff h * nd, (aftVal h Nt tol (instForce nd m Q T loc force) U w).F i
      = ∑ d ∈ range m, T (i % nd) d * ∑ j ∈ range Nt, W (i / nd) j * p d (v U w j d) := fun U w i hi => by
    rw [hA]
    simp only [toGlobal, matMul]
    refine sum_congr rfl fun d _ => ?_
    rw [h6 U w _ (div_lt_block hi).1]
    simp only [elemLfh, hloc]
  have hdft : ∀ U w, IsForceDFT nd m T h Nt (fun j d => p d (v U w j d)) (aftVal h Nt tol (instForce nd m Q T loc force) U w).F := fun U w => by
    rw [hA]
    refine isForceDFT_of nd m T h Nt _ (F U w) ?_
    have := h7 U w
    simp only [elemLfh, hloc] at this
    exact this
  have hc : ∀ k, Continuous fun x : Fin (numCoeff h * nd + 1) → ℝ => Spec.ext x k := fun k => by
    simp only [Spec.ext]
    split_ifs <;> fun_prop
  have hsl : ∀ k, Continuous fun x : Fin (numCoeff h * nd + 1) → ℝ => sl 0 (numCoeff h * nd) (Spec.ext x) k := fun k => by
    unfold sl
    split_ifs
    · exact hc _
    · exact continuous_const
  have hvc : ∀ j d, Continuous fun x : Fin (numCoeff h * nd + 1) → ℝ => v (sl 0 (numCoeff h * nd) (Spec.ext x)) (Spec.ext x (numCoeff h * nd)) j d := fun j d => by
    simp only [h4, unlOf, matMul]
    exact (hc _).mul (continuous_finsetSum _ fun r _ => continuous_const.mul (continuous_finsetSum _ fun e _ => continuous_const.mul (hsl _)))
  refine ⟨hok, fun Z hZ => ?_, fun i hi j hj => ?_, fun i hi => ?_, fun U V w hw => ?_, fun U V w hw h0 i hi => ?_, fun a ha b B => ?_, fun w hw i hi => ?_⟩
  · obtain ⟨out, o1, o2⟩ := C25_joint h hh Nt hNt heven nd m Q T loc
    have : aftVal h Nt tol (instForce nd m Q T loc force) = out := by
      funext U w
      simp only [aftVal, instForce, o1]
    rw [this]
    refine o2 Z (Or.inl hZ.ne') fun d _ j _ => ?_
    unfold LawDiff
    simp only [hloc]
    have := ((hp d).1 (Z (numCoeff h * nd) * deriv (localMotion nd Q h (sl 0 (numCoeff h * nd) Z) d) (2 * Real.pi * j / Nt))).comp_hasFDerivAt
      (x := (localMotion nd Q h (sl 0 (numCoeff h * nd) Z) d (2 * Real.pi * j / Nt),
        Z (numCoeff h * nd) * deriv (localMotion nd Q h (sl 0 (numCoeff h * nd) Z) d) (2 * Real.pi * j / Nt))) (hasFDerivAt_snd (𝕜 := ℝ))
    rw [zero_smul, zero_add]
    exact this
  · simp only [hA]
    refine Continuous.continuousOn ?_
    simp only [kron_sandwich (numCoeff h) nd m Q T _ hi hj]
    refine continuous_finsetSum _ fun d hd => continuous_finsetSum _ fun e he => ?_
    simp only [h8 _ _ _ (div_lt_block hi).1 _ (div_lt_block hj).1 d (mem_range.1 hd) e (mem_range.1 he), elemLfh, hloc]
    refine (continuous_const.mul (continuous_finsetSum _ fun k _ => continuous_const.mul ?_)).mul continuous_const
    split_ifs
    · exact (continuous_const.mul continuous_const).add (((hp d).2.1.comp (hvc k d)).mul ((hc _).mul continuous_const))
    · exact continuous_const
  · have hcongr : ∀ x ∈ {x : Fin (numCoeff h * nd + 1) → ℝ | 0 < x (Fin.last _)},
        (aftVal h Nt tol (instForce nd m Q T loc force) (sl 0 (numCoeff h * nd) (Spec.ext x)) (Spec.ext x (numCoeff h * nd))).dw i
        = ∑ d ∈ range m, T (i % nd) d * ∑ j ∈ range Nt, W (i / nd) j * (p' d (v (sl 0 (numCoeff h * nd) (Spec.ext x)) (Spec.ext x (numCoeff h * nd)) j d)
          * (v (sl 0 (numCoeff h * nd) (Spec.ext x)) (Spec.ext x (numCoeff h * nd)) j d / Spec.ext x (numCoeff h * nd))) := fun x hx => by
      have hx0 : Spec.ext x (numCoeff h * nd) ≠ 0 := by rw [ext_last]; exact ne_of_gt hx
      rw [hA]
      simp only [if_neg hx0, toGlobal, matMul]
      refine sum_congr rfl fun d _ => ?_
      rw [h9 _ _ _ (div_lt_block hi).1]
      simp only [elemLfh, hloc]
    refine ContinuousOn.congr ?_ hcongr
    refine continuousOn_finsetSum _ fun d _ => continuousOn_const.mul (continuousOn_finsetSum _ fun j _ => continuousOn_const.mul ?_)
    refine ((hp d).2.1.comp (hvc j d)).continuousOn.mul ((hvc j d).continuousOn.div (hc _).continuousOn fun x hx => ?_)
    rw [ext_last]; exact ne_of_gt hx
  · rw [work_local hh nd m Q T hT _ _ hw.ne' _ (isForceDFT_sub (hdft U w) (hdft V w))]
    refine mul_nonneg (by positivity) (sum_nonneg fun j _ => sum_nonneg fun e _ => ?_)
    rw [deriv_local_sub, hv, hv]
    set x := deriv (localMotion nd Q h U e) (2 * Real.pi * j / Nt)
    set y := deriv (localMotion nd Q h V e) (2 * Real.pi * j / Nt)
    rcases le_total x y with hxy | hxy
    · have := (hp e).2.2.1 (mul_le_mul_of_nonneg_left hxy hw.le)
      exact mul_nonneg_of_nonpos_of_nonpos (by linarith) (by linarith)
    · have := (hp e).2.2.1 (mul_le_mul_of_nonneg_left hxy hw.le)
      exact mul_nonneg (by linarith) (by linarith)
  · rw [hF U w i hi, hF V w i hi]
    refine sum_congr rfl fun d _ => ?_
    congr 1
    refine sum_congr rfl fun j _ => ?_
    have : deriv (localMotion nd Q h (fun i => U i - V i) d) (2 * Real.pi * j / Nt) = 0 := by
      rw [deriv_local]
      exact sum_eq_zero fun e he => by rw [deriv_series_zero hh.nodup hn nd _ h0 (mem_range.1 he), mul_zero]
    rw [deriv_local_sub] at this
    rw [hv, hv, sub_eq_zero.1 this]
  · have hbd : ∀ d, ∃ C, 0 ≤ C ∧ ∀ x, |x| ≤ |b * ∑ e ∈ range nd, |Q d e| * (B / 2 + n)| → |p d x| ≤ C := fun d => by
      have hcp : Continuous (p d) := continuous_iff_continuousAt.2 fun x => ((hp d).1 x).continuousAt
      obtain ⟨C, hC⟩ := (isCompact_closedBall (0 : ℝ) |b * ∑ e ∈ range nd, |Q d e| * (B / 2 + n)|).exists_bound_of_continuousOn hcp.continuousOn
      refine ⟨C, (norm_nonneg _).trans (hC 0 (Metric.mem_closedBall_self (abs_nonneg _))), fun x hx => hC x ?_⟩
      rwa [mem_closedBall_zero_iff, Real.norm_eq_abs]
    choose C hC0 hC using hbd
    refine ⟨∑ i ∈ range (numCoeff h * nd), ∑ d ∈ range m, |T (i % nd) d| * ∑ j ∈ range Nt, |W (i / nd) j| * C d, fun w hwa hwb U hU i hi => ?_⟩
    refine le_trans ?_ (single_le_sum (f := fun i => ∑ d ∈ range m, |T (i % nd) d| * ∑ j ∈ range Nt, |W (i / nd) j| * C d)
      (fun i _ => sum_nonneg fun d _ => mul_nonneg (abs_nonneg _) (sum_nonneg fun j _ => mul_nonneg (abs_nonneg _) (hC0 d))) (mem_range.2 hi))
    rw [hF U w i hi]
    refine (abs_sum_le_sum_abs _ _).trans (sum_le_sum fun d _ => ?_)
    rw [abs_mul]
    refine mul_le_mul_of_nonneg_left ((abs_sum_le_sum_abs _ _).trans (sum_le_sum fun j _ => ?_)) (abs_nonneg _)
    rw [abs_mul]
    refine mul_le_mul_of_nonneg_left (hC d _ ?_) (abs_nonneg _)
    have hw : 0 < w := ha.trans_le hwa
    rw [hv, abs_mul, abs_of_pos hw]
    have e1 : |deriv (localMotion nd Q h U d) (2 * Real.pi * j / Nt)| ≤ ∑ e ∈ range nd, |Q d e| * (B / 2 + n) := by
      rw [deriv_local]
      refine (abs_sum_le_sum_abs _ _).trans (sum_le_sum fun e he => ?_)
      rw [abs_mul]
      refine mul_le_mul_of_nonneg_left ((deriv_series_bound hh.nodup hn nd U (mem_range.1 he) _).trans (by linarith)) (abs_nonneg _)
    exact (mul_le_mul hwb e1 (abs_nonneg _) (hw.le.trans hwb)).trans (le_abs_self _)
  · rw [hF _ w i hi]
    refine sum_eq_zero fun d _ => ?_
    refine mul_eq_zero_of_right _ (sum_eq_zero fun j _ => ?_)
    have e : localMotion nd Q h (fun _ => 0) d = fun _ => 0 := by
      funext τ
      unfold localMotion
      have := series_smul h (0:ℝ) (fun _ => 0) τ
      simp only [zero_mul] at this
      exact sum_eq_zero fun e _ => mul_eq_zero_of_right _ this
    rw [hv, e, deriv_const, mul_zero, (hp d).2.2.2, mul_zero]

end

end TMD
