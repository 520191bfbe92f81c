import Verif.Lemmas.DashpotForce

/-!
# Instantaneous force objects with continuously differentiable laws, and what keeps the response of a system bounded
-/

namespace TMD

open Spec Finset

noncomputable section

variable {h : List ℕ} {Nt n : ℕ} {tol : ℝ}

theorem inst_smooth (hh : Admissible h) (hNt : ∀ k ∈ h, 2 * k + 1 < Nt) (heven : Even Nt) (nd m : ℕ) (Q T : ℕ → ℕ → ℝ) (loc : ℕ → ℝ → ℝ → Loc)
    (force : (ℕ → ℝ) → (ℕ → ℝ) × (ℕ → ℕ → ℝ)) (hl : ∀ d u v, LawDiff loc d u v) (hcu : ∀ d, Continuous fun q : ℝ × ℝ => (loc d q.1 q.2).dfdu)
    (hcv : ∀ d, Continuous fun q : ℝ × ℝ => (loc d q.1 q.2).dfdud) : SmoothAft nd h Nt tol (instForce nd m Q T loc force) := by
  obtain ⟨W, B0, B1, H⟩ := instAft_ok hh hNt heven nd m Q T
  choose F dFw J u v h1 h2 h3 h4 h5 h6 h7 h8 h9 using fun U w => H (elemLfh loc) U w
  have hA : ∀ U w, aftVal h Nt tol (instForce nd m Q T loc force) U w = ⟨toGlobal nd m T (F U w),
      matMul (numCoeff h*m) (matMul (numCoeff h*m) (kronEye nd m T) (J U w)) (kronEye m nd Q), if w = 0 then fun _ => 0 else toGlobal nd m T (dFw U w)⟩ := fun U w => by
    simp only [aftVal, instForce, h1]
  have hok : ∀ U w, (instForce nd m Q T loc force).aft U w h Nt tol = .ok (aftVal h Nt tol (instForce nd m Q T loc force) U w) := fun U w => by
    rw [hA]; exact h1 U w
  have hc : ∀ k, Continuous fun x : Fin (numCoeff h * nd + 1) → ℝ => Spec.ext x k := fun k => by
    simp only [Spec.ext]
    split_ifs <;> fun_prop
  have hsl : ∀ k, Continuous fun x : Fin (numCoeff h * nd + 1) → ℝ => sl 0 (numCoeff h * nd) (Spec.ext x) k := fun k => by
    unfold sl
    split_ifs
    · exact hc _
    · exact continuous_const
  have hvc : ∀ j d, Continuous fun x : Fin (numCoeff h * nd + 1) → ℝ => v (sl 0 (numCoeff h * nd) (Spec.ext x)) (Spec.ext x (numCoeff h * nd)) j d := fun j d => by
    simp only [h4, unlOf, matMul]
    exact (hc _).mul (continuous_finsetSum _ fun r _ => continuous_const.mul (continuous_finsetSum _ fun e _ => continuous_const.mul (hsl _)))
  have huc : ∀ j d, Continuous fun x : Fin (numCoeff h * nd + 1) → ℝ => u (sl 0 (numCoeff h * nd) (Spec.ext x)) (Spec.ext x (numCoeff h * nd)) j d := fun j d => by
    simp only [h2, unlOf, matMul]
    exact continuous_finsetSum _ fun r _ => continuous_const.mul (continuous_finsetSum _ fun e _ => continuous_const.mul (hsl _))
  refine ⟨hok, fun Z hZ => ?_, fun i hi j hj => ?_, fun i hi => ?_⟩
  · obtain ⟨out, o1, o2⟩ := C25_joint h hh Nt hNt heven nd m Q T loc
    have : aftVal h Nt tol (instForce nd m Q T loc force) = out := by
      funext U w
      simp only [aftVal, instForce, o1]
    rw [this]
    exact o2 Z (Or.inl hZ.ne') fun d _ j _ => hl _ _ _
  · simp only [hA]
    refine Continuous.continuousOn ?_
    simp only [kron_sandwich (numCoeff h) nd m Q T _ hi hj]
    refine continuous_finsetSum _ fun d hd => continuous_finsetSum _ fun e he => ?_
    simp only [h8 _ _ _ (div_lt_block hi).1 _ (div_lt_block hj).1 d (mem_range.1 hd) e (mem_range.1 he), elemLfh]
    refine (continuous_const.mul (continuous_finsetSum _ fun k _ => continuous_const.mul ?_)).mul continuous_const
    split_ifs
    · exact (((hcu d).comp ((huc k d).prodMk (hvc k d))).mul continuous_const).add (((hcv d).comp ((huc k d).prodMk (hvc k d))).mul ((hc _).mul continuous_const))
    · exact continuous_const
  · have hcongr : ∀ x ∈ {x : Fin (numCoeff h * nd + 1) → ℝ | 0 < x (Fin.last _)},
        (aftVal h Nt tol (instForce nd m Q T loc force) (sl 0 (numCoeff h * nd) (Spec.ext x)) (Spec.ext x (numCoeff h * nd))).dw i
        = ∑ d ∈ range m, T (i % nd) d * ∑ j ∈ range Nt, W (i / nd) j * ((loc d (u (sl 0 (numCoeff h * nd) (Spec.ext x)) (Spec.ext x (numCoeff h * nd)) j d)
            (v (sl 0 (numCoeff h * nd) (Spec.ext x)) (Spec.ext x (numCoeff h * nd)) j d)).dfdud
          * (v (sl 0 (numCoeff h * nd) (Spec.ext x)) (Spec.ext x (numCoeff h * nd)) j d / Spec.ext x (numCoeff h * nd))) := fun x hx => by
      have hx0 : Spec.ext x (numCoeff h * nd) ≠ 0 := by rw [ext_last]; exact ne_of_gt hx
      rw [hA]
      simp only [if_neg hx0, toGlobal, matMul]
      refine sum_congr rfl fun d _ => ?_
      rw [h9 _ _ _ (div_lt_block hi).1]
      simp only [elemLfh]
    refine ContinuousOn.congr ?_ hcongr
    refine continuousOn_finsetSum _ fun d _ => continuousOn_const.mul (continuousOn_finsetSum _ fun j _ => continuousOn_const.mul ?_)
    refine ((hcv d).comp ((huc j d).prodMk (hvc j d))).continuousOn.mul ((hvc j d).continuousOn.div (hc _).continuousOn fun x hx => ?_)
    rw [ext_last]; exact ne_of_gt hx

theorem inst_dft (hh : Admissible h) (hNt : ∀ k ∈ h, 2 * k + 1 < Nt) (heven : Even Nt) (nd m : ℕ) (Q T : ℕ → ℕ → ℝ) (loc : ℕ → ℝ → ℝ → Loc)
    (force : (ℕ → ℝ) → (ℕ → ℝ) × (ℕ → ℕ → ℝ)) (U : ℕ → ℝ) (w : ℝ) :
    IsForceDFT nd m T h Nt (fun j d => (loc d (localMotion nd Q h U d (2 * Real.pi * j / Nt)) (w * deriv (localMotion nd Q h U d) (2 * Real.pi * j / Nt))).f)
      (aftVal h Nt tol (instForce nd m Q T loc force) U w).F := by
  obtain ⟨o, h1, h2⟩ := C24_is_dft h hh Nt hNt heven nd m Q T loc U w
  have : aftVal h Nt tol (instForce nd m Q T loc force) U w = o := by simp only [aftVal, instForce, h1]
  rw [this]
  exact h2

/-- What keeps the response of a system with this force object bounded. -/
structure Tame (nd n : ℕ) (h : List ℕ) (Nt : ℕ) (tol : ℝ) (f : NLForce) : Prop where
  smooth : SmoothAft nd h Nt tol f
  work : ∀ U w, 0 < w → 0 ≤ periodWork nd w (velocityOf nd h U w) (periodicOf nd h (aftVal h Nt tol f U w).F w)
  static : 0 ∈ h → ∀ a > 0, ∀ b B : ℝ, ∃ C, 0 ≤ C ∧ ∀ w, a ≤ w → w ≤ b → ∀ U, oscSize nd n h U ≤ B →
    -(C * (1 + ∑ d ∈ range nd, |U d|)) ≤ ∑ d ∈ range nd, U d * (aftVal h Nt tol f U w).F d
  rest : ∀ w > 0, ∀ i < numCoeff h * nd, (aftVal h Nt tol f (fun _ => 0) w).F i = 0

theorem coefOf_static (hh : Admissible h) (h0 : 0 ∈ h) (c : ℕ → ℝ) : coefOf h c 0 = (c 0, 0) := by
  cases h with
  | nil => simp at h0
  | cons k hs =>
    have : k = 0 := by
      rcases List.mem_cons.1 h0 with e | e
      · exact e.symm
      · exact absurd e hh.zero_first
    subst this
    simp [coefOf]

/-- The mean of a sampled force. -/
theorem static_force (hh : Admissible h) (h0 : 0 ∈ h) {nd m : ℕ} {T : ℕ → ℕ → ℝ} {f : ℕ → ℕ → ℝ} {F : ℕ → ℝ} (hF : IsForceDFT nd m T h Nt f F) {i : ℕ} (hi : i < nd) :
    F i = (∑ j ∈ range Nt, ∑ d ∈ range m, T i d * f j d) / Nt := by
  have := hF i hi 0 h0
  rw [coefOf_static hh h0] at this
  simp only [dft, if_true, zero_mul, zero_add] at this
  exact (Prod.mk.inj this).1

theorem static_work (hh : Admissible h) (h0 : 0 ∈ h) {nd m : ℕ} {Q T : ℕ → ℕ → ℝ} (hT : ∀ i e, T i e = Q e i) {f : ℕ → ℕ → ℝ} {F : ℕ → ℝ} (hF : IsForceDFT nd m T h Nt f F)
    (U : ℕ → ℝ) : ∑ d ∈ range nd, U d * F d = (∑ j ∈ range Nt, ∑ e ∈ range m, f j e * ∑ d ∈ range nd, Q e d * U d) / Nt := by
  rw [sum_congr rfl fun d hd => by rw [static_force hh h0 hF (mem_range.1 hd)]]
  simp only [← mul_div_assoc, ← sum_div, mul_sum]
  congr 1
  rw [sum_comm]
  refine sum_congr rfl fun j _ => ?_
  rw [sum_comm]
  exact sum_congr rfl fun e _ => sum_congr rfl fun d _ => by rw [hT]; ring

theorem series_osc_bound (hh : Admissible h) (hn : ∀ k ∈ h, k ≤ n) (h0 : 0 ∈ h) (nd : ℕ) (U : ℕ → ℝ) {d : ℕ} (hd : d < nd) (τ : ℝ) :
    |series h (fun r => U (r * nd + d)) τ - U d| ≤ oscSize nd n h U / 2 + n := by
  rw [series_trig hh.nodup hn, coefOf_static hh h0]
  set c := fun k => coefOf h (fun r => U (r * nd + d)) (k + 1) with hc
  unfold trig
  simp only [zero_mul, zero_add, add_sub_cancel_left]
  have h1 : ∀ k ∈ range n, |(c k).1 * Real.cos ((k + 1 : ℕ) * τ) + (c k).2 * Real.sin ((k + 1 : ℕ) * τ)|
      ≤ ((k + 1 : ℕ) : ℝ) ^ 2 * ((c k).1 ^ 2 + (c k).2 ^ 2) / 2 + 1 := fun k _ => by
    have a1 := Real.abs_cos_le_one ((k + 1 : ℕ) * τ)
    have a2 := Real.abs_sin_le_one ((k + 1 : ℕ) * τ)
    have a3 : |(c k).1 * Real.cos ((k + 1 : ℕ) * τ) + (c k).2 * Real.sin ((k + 1 : ℕ) * τ)| ≤ |(c k).1| + |(c k).2| := by
      refine (abs_add_le _ _).trans (add_le_add ?_ ?_) <;> rw [abs_mul] <;> exact mul_le_of_le_one_right (abs_nonneg _) (by assumption)
    have a4 : (1 : ℝ) ≤ ((k + 1 : ℕ) : ℝ) ^ 2 := one_le_pow₀ (by push_cast; linarith [Nat.cast_nonneg (α := ℝ) k])
    have a5 : (c k).1 ^ 2 + (c k).2 ^ 2 ≤ ((k + 1 : ℕ) : ℝ) ^ 2 * ((c k).1 ^ 2 + (c k).2 ^ 2) := le_mul_of_one_le_left (by positivity) a4
    have a6 := sq_abs (c k).1
    have a7 := sq_abs (c k).2
    nlinarith [sq_nonneg (|(c k).1| - 1), sq_nonneg (|(c k).2| - 1)]
  refine (abs_sum_le_sum_abs _ _).trans ((sum_le_sum h1).trans ?_)
  rw [sum_add_distrib, sum_const, card_range, nsmul_eq_mul, mul_one, ← sum_div]
  refine add_le_add (div_le_div_of_nonneg_right ?_ zero_le_two) le_rfl
  unfold oscSize
  refine sum_le_sum fun k _ => mul_le_mul_of_nonneg_left ?_ (by positivity)
  exact single_le_sum (f := fun d => (coefOf h (fun r => U (r * nd + d)) (k + 1)).1 ^ 2 + (coefOf h (fun r => U (r * nd + d)) (k + 1)).2 ^ 2)
    (fun _ _ => by positivity) (mem_range.2 hd)

theorem local_osc_bound (hh : Admissible h) (hn : ∀ k ∈ h, k ≤ n) (h0 : 0 ∈ h) (nd : ℕ) (Q : ℕ → ℕ → ℝ) (U : ℕ → ℝ) (e : ℕ) (τ : ℝ) :
    |localMotion nd Q h U e τ - ∑ d ∈ range nd, Q e d * U d| ≤ ∑ d ∈ range nd, |Q e d| * (oscSize nd n h U / 2 + n) := by
  have : localMotion nd Q h U e τ = ∑ d ∈ range nd, Q e d * series h (fun r => U (r * nd + d)) τ := rfl
  rw [this, ← sum_sub_distrib]
  refine (abs_sum_le_sum_abs _ _).trans (sum_le_sum fun d hd => ?_)
  rw [← mul_sub, abs_mul]
  exact mul_le_mul_of_nonneg_left (series_osc_bound hh hn h0 nd U (mem_range.1 hd) τ) (abs_nonneg _)

/-- A spring that always pulls back, deflected by `x` with a limited oscillation around it, does not push away from it much. -/
theorem pull_back {f : ℝ → ℝ} (hf : Continuous f) (hs : ∀ u, 0 ≤ f u * u) (B : ℝ) : ∃ C, 0 ≤ C ∧ ∀ x u, |u - x| ≤ B → -C ≤ f u * x := by
  obtain ⟨C, hC⟩ := (isCompact_closedBall (0 : ℝ) |2 * B|).exists_bound_of_continuousOn hf.continuousOn
  have hC0 : 0 ≤ C := (norm_nonneg _).trans (hC 0 (Metric.mem_closedBall_self (abs_nonneg _)))
  refine ⟨C * |B|, by positivity, fun x u hu => ?_⟩
  have hB : 0 ≤ B := (abs_nonneg _).trans hu
  rcases le_or_gt |x| B with hx | hx
  · have h1 : |f u| ≤ C := hC u (by
      rw [mem_closedBall_zero_iff, Real.norm_eq_abs]
      rw [abs_of_nonneg (by linarith : (0 : ℝ) ≤ 2 * B)]
      calc |u| = |(u - x) + x| := by ring_nf
        _ ≤ |u - x| + |x| := abs_add_le _ _
        _ ≤ _ := by linarith)
    have h2 : |f u * x| ≤ C * |B| := by
      rw [abs_mul]
      exact mul_le_mul h1 (hx.trans (le_abs_self B)) (abs_nonneg _) hC0
    exact (abs_le.1 h2).1
  · have h3 : 0 ≤ f u * x := by
      obtain ⟨a1, a2⟩ := abs_le.1 hu
      have := hs u
      rcases lt_abs.1 hx with hx | hx
      · have hu0 : 0 < u := by linarith
        exact mul_nonneg (nonneg_of_mul_nonneg_left this hu0) (by linarith)
      · have hu0 : u < 0 := by linarith
        exact mul_nonneg_of_nonpos_of_nonpos (by by_contra hc; push Not at hc; nlinarith) (by linarith)
    have : 0 ≤ C * |B| := by positivity
    linarith

end

end TMD
