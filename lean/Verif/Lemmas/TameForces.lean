import Verif.Lemmas.SmoothForces
import Mathlib.Analysis.Calculus.Deriv.Polynomial

/-!
# Polynomial springs and dampers keep the response of a system bounded
-/

namespace TMD

open Spec Finset

noncomputable section

/-- A damper: the local force is a function of the local velocity with the sign of the velocity and a continuous derivative, as returned. -/
def IsDamper (nd : ℕ) (f : NLForce) : Prop :=
  ∃ (m : ℕ) (Q T : ℕ → ℕ → ℝ) (loc : ℕ → ℝ → ℝ → Loc) (force : (ℕ → ℝ) → (ℕ → ℝ) × (ℕ → ℕ → ℝ)) (p p' : ℕ → ℝ → ℝ),
    f = instForce nd m Q T loc force ∧ (∀ i e, T i e = Q e i) ∧ (∀ d u v, loc d u v = ⟨p d v, 0, p' d v⟩) ∧
    ∀ d, (∀ v, HasDerivAt (p d) (p' d v) v) ∧ Continuous (p' d) ∧ (∀ v, 0 ≤ p d v * v) ∧ p d 0 = 0

/-- A spring: the local force is a polynomial of the local displacement, without constant part, of degree at most `p`, and there are more than
`(p + 1) H` samples for harmonics up to `H`. If the static coefficient is retained it always pulls back. -/
def IsSpring (nd : ℕ) (h : List ℕ) (Nt : ℕ) (f : NLForce) : Prop :=
  ∃ (m : ℕ) (Q T : ℕ → ℕ → ℝ) (loc : ℕ → ℝ → ℝ → Loc) (force : (ℕ → ℝ) → (ℕ → ℝ) × (ℕ → ℕ → ℝ)) (P : ℕ → Polynomial ℝ) (p H : ℕ),
    f = instForce nd m Q T loc force ∧ (∀ i e, T i e = Q e i) ∧ (∀ d u v, loc d u v = ⟨(P d).eval u, (P d).derivative.eval u, 0⟩) ∧
    (∀ k ∈ h, k ≤ H) ∧ (p + 1) * H < Nt ∧ ∀ d, (P d).natDegree ≤ p ∧ (P d).eval 0 = 0 ∧ (0 ∈ h → ∀ u, 0 ≤ (P d).eval u * u)

variable {h : List ℕ} {Nt n : ℕ} {tol : ℝ}

theorem aftVal_work {f : NLForce} {nd : ℕ} {U : ℕ → ℝ} {w : ℝ} (hf : Passive f nd h Nt tol U w) :
    0 ≤ periodWork nd w (velocityOf nd h U w) (periodicOf nd h (aftVal h Nt tol f U w).F w) := by
  obtain ⟨o, h1, h2⟩ := hf
  have : aftVal h Nt tol f U w = o := by simp only [aftVal, h1]
  rw [this]
  exact h2

theorem local_zero (nd : ℕ) (Q : ℕ → ℕ → ℝ) (e : ℕ) : localMotion nd Q h (fun _ => 0) e = fun _ => 0 := by
  funext τ
  have h1 : ∀ τ, series h (fun _ => 0) τ = 0 := fun τ => by simpa using series_smul h (0:ℝ) (fun _ => 0) τ
  simp [localMotion, h1]

theorem rest_of_dft (hh : Admissible h) {nd m : ℕ} {T : ℕ → ℕ → ℝ} {f : ℕ → ℕ → ℝ} {F : ℕ → ℝ} (hF : IsForceDFT nd m T h Nt f F) (hf : ∀ j d, f j d = 0) :
    ∀ i < numCoeff h * nd, F i = 0 := fun i hi => by
  have hz : ∀ d < nd, ∀ k ∈ h, coefOf h (fun r => F (r * nd + d)) k = (0, 0) := fun d hd k hk => by
    rw [hF d hd k hk]
    simp only [hf, mul_zero, sum_const_zero]
    unfold dft
    split_ifs <;> simp
  obtain ⟨d, hd, ⟨hz', rfl⟩ | ⟨j, hj, rfl | rfl⟩⟩ := idx_cases hh hi
  · have h0 : 0 ∈ h := by
      by_contra hc
      simp [zi] at hz'
      cases h <;> simp_all
    have := hz d hd 0 h0
    rw [coefOf_static hh h0] at this
    simpa using (Prod.mk.inj this).1
  all_goals
    have hm := mem_Ico.1 hj
    have := hz d hd (h.getD j 0) (by rw [List.getD_eq_getElem _ _ hm.2]; exact List.getElem_mem _)
    rw [coefOf_row hh _ hj] at this
    first
      | exact (Prod.mk.inj this).1
      | exact (Prod.mk.inj this).2

theorem damper_tame (hh : Admissible h) (hn : ∀ k ∈ h, k ≤ n) (hNt : ∀ k ∈ h, 2 * k + 1 < Nt) (heven : Even Nt) {nd : ℕ} {f : NLForce}
    (hf : IsDamper nd f) : Tame nd n h Nt tol f := by
  obtain ⟨m, Q, T, loc, force, p, p', rfl, hT, hloc, hp⟩ := hf
  have hN : 0 < Nt := by
    obtain ⟨k, hk⟩ := List.exists_mem_of_ne_nil h hh.ne
    have := hNt k hk
    omega
  refine ⟨inst_smooth hh hNt heven nd m Q T loc force (fun d u v => ?_) (fun d => ?_) (fun d => ?_), fun U w hw => aftVal_work (C139_dampers_partial hh hNt heven tol nd m Q T hT loc force U hw fun d u v => ?_),
    fun h0 a ha b B => ?_, fun w hw i hi => ?_⟩
  · unfold LawDiff
    simp only [hloc]
    have := ((hp d).1 v).comp_hasFDerivAt (x := (u, v)) (hasFDerivAt_snd (𝕜 := ℝ))
    rw [zero_smul, zero_add]
    exact this
  · simp only [hloc]; exact continuous_const
  · simp only [hloc]; exact (hp d).2.1.comp continuous_snd
  · rw [hloc]; exact (hp d).2.2.1 v
  · have hbd : ∀ d, ∃ C, 0 ≤ C ∧ ∀ x, |x| ≤ |b * ∑ e ∈ range nd, |Q d e| * (B / 2 + n)| → |p d x| ≤ C := fun d => by
      have hcp : Continuous (p d) := continuous_iff_continuousAt.2 fun x => ((hp d).1 x).continuousAt
      obtain ⟨C, hC⟩ := (isCompact_closedBall (0 : ℝ) |b * ∑ e ∈ range nd, |Q d e| * (B / 2 + n)|).exists_bound_of_continuousOn hcp.continuousOn
      refine ⟨C, (norm_nonneg _).trans (hC 0 (Metric.mem_closedBall_self (abs_nonneg _))), fun x hx => hC x ?_⟩
      rwa [mem_closedBall_zero_iff, Real.norm_eq_abs]
    choose C hC0 hC using hbd
    refine ⟨∑ e ∈ range m, C e * ∑ d ∈ range nd, |Q e d|, sum_nonneg fun e _ => mul_nonneg (hC0 e) (sum_nonneg fun d _ => abs_nonneg _), fun w hwa hwb U hU => ?_⟩
    have hw : 0 < w := ha.trans_le hwa
    rw [static_work hh h0 hT (inst_dft hh hNt heven nd m Q T loc force U w), le_div_iff₀ (by exact_mod_cast hN)]
    set s := ∑ d ∈ range nd, |U d| with hs
    have hs0 : 0 ≤ s := sum_nonneg fun d _ => abs_nonneg _
    have hj : ∀ j ∈ range Nt, -((∑ e ∈ range m, C e * ∑ d ∈ range nd, |Q e d|) * (1 + s)) ≤ ∑ e ∈ range m, (loc e (localMotion nd Q h U e (2 * Real.pi * j / Nt))
        (w * deriv (localMotion nd Q h U e) (2 * Real.pi * j / Nt))).f * ∑ d ∈ range nd, Q e d * U d := fun j _ => by
      rw [sum_mul, ← sum_neg_distrib]
      refine sum_le_sum fun e _ => ?_
      simp only [hloc]
      have e1 : |deriv (localMotion nd Q h U e) (2 * Real.pi * j / Nt)| ≤ ∑ d ∈ range nd, |Q e d| * (B / 2 + n) := by
        rw [deriv_local]
        refine (abs_sum_le_sum_abs _ _).trans (sum_le_sum fun d hd => ?_)
        rw [abs_mul]
        refine mul_le_mul_of_nonneg_left ((deriv_series_bound hh.nodup hn nd U (mem_range.1 hd) _).trans (by linarith)) (abs_nonneg _)
      have e2 := hC e (w * deriv (localMotion nd Q h U e) (2 * Real.pi * j / Nt)) (by
        rw [abs_mul, abs_of_pos hw]
        exact (mul_le_mul hwb e1 (abs_nonneg _) (hw.le.trans hwb)).trans (le_abs_self _))
      have e3 : |∑ d ∈ range nd, Q e d * U d| ≤ (∑ d ∈ range nd, |Q e d|) * (1 + s) := by
        rw [sum_mul]
        refine (abs_sum_le_sum_abs _ _).trans (sum_le_sum fun d hd => ?_)
        rw [abs_mul]
        refine mul_le_mul_of_nonneg_left ?_ (abs_nonneg _)
        have := single_le_sum (f := fun d => |U d|) (fun _ _ => abs_nonneg _) hd
        linarith
      have e4 := mul_le_mul e2 e3 (abs_nonneg _) (hC0 e)
      rw [← abs_mul] at e4
      rw [mul_assoc]
      exact (abs_le.1 e4).1
    have := card_nsmul_le_sum _ _ _ hj
    rw [card_range, nsmul_eq_mul] at this
    linarith
  · exact rest_of_dft hh (inst_dft hh hNt heven nd m Q T loc force (fun _ => 0) w) (fun j d => by simp only [hloc, local_zero]; simp [(hp d).2.2.2]) i hi

theorem spring_tame (hh : Admissible h) (hn : ∀ k ∈ h, k ≤ n) (hNt : ∀ k ∈ h, 2 * k + 1 < Nt) (heven : Even Nt) {nd : ℕ} {f : NLForce}
    (hf : IsSpring nd h Nt f) : Tame nd n h Nt tol f := by
  obtain ⟨m, Q, T, loc, force, P, p, H, rfl, hT, hloc, hH, hp, hP⟩ := hf
  have hN : 0 < Nt := by omega
  refine ⟨inst_smooth hh hNt heven nd m Q T loc force (fun d u v => ?_) (fun d => ?_) (fun d => ?_), fun U w hw => ?_, fun h0 a ha b B => ?_, fun w hw i hi => ?_⟩
  · unfold LawDiff
    simp only [hloc]
    have := ((P d).hasDerivAt u).comp_hasFDerivAt (x := (u, v)) (hasFDerivAt_fst (𝕜 := ℝ))
    rw [zero_smul, add_zero]
    exact this
  · simp only [hloc]; exact (P d).derivative.continuous.comp continuous_fst
  · simp only [hloc]; exact continuous_const
  · obtain ⟨o, o1, o2⟩ := C139_springs_partial hh hNt heven tol nd m Q T hT loc force U hw H p hH hp P (fun d => (hP d).1) fun d u v => by rw [hloc]
    exact aftVal_work ⟨o, o1, o2.ge⟩
  · have hpb : ∀ e, ∃ C, 0 ≤ C ∧ ∀ x u, |u - x| ≤ ∑ d ∈ range nd, |Q e d| * (B / 2 + n) → -C ≤ (P e).eval u * x := fun e =>
      pull_back (P e).continuous ((hP e).2.2 h0) _
    choose C hC0 hC using hpb
    refine ⟨∑ e ∈ range m, C e, sum_nonneg fun e _ => hC0 e, fun w hwa hwb U hU => ?_⟩
    rw [static_work hh h0 hT (inst_dft hh hNt heven nd m Q T loc force U w), le_div_iff₀ (by exact_mod_cast hN)]
    set s := ∑ d ∈ range nd, |U d| with hs
    have hs0 : 0 ≤ s := sum_nonneg fun d _ => abs_nonneg _
    have hj : ∀ j ∈ range Nt, -((∑ e ∈ range m, C e) * (1 + s)) ≤ ∑ e ∈ range m, (loc e (localMotion nd Q h U e (2 * Real.pi * j / Nt))
        (w * deriv (localMotion nd Q h U e) (2 * Real.pi * j / Nt))).f * ∑ d ∈ range nd, Q e d * U d := fun j _ => by
      rw [sum_mul, ← sum_neg_distrib]
      refine sum_le_sum fun e _ => ?_
      simp only [hloc]
      refine le_trans ?_ (hC e _ _ ((local_osc_bound hh hn h0 nd Q U e (2 * Real.pi * j / Nt)).trans
        (sum_le_sum fun d _ => mul_le_mul_of_nonneg_left (by linarith) (abs_nonneg _))))
      have := mul_nonneg (hC0 e) hs0
      linarith
    have := card_nsmul_le_sum _ _ _ hj
    rw [card_range, nsmul_eq_mul] at this
    linarith
  · exact rest_of_dft hh (inst_dft hh hNt heven nd m Q T loc force (fun _ => 0) w) (fun j d => by simp only [hloc, local_zero]; exact (hP d).2.1) i hi

end

end TMD
