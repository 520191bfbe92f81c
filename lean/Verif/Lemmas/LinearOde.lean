import Mathlib.Analysis.ODE.ExistUnique
import Mathlib.Analysis.Normed.Operator.BoundedLinearMaps

/-! # Linear differential equations have solutions on the whole interval -/

namespace TMD

open Set Metric NNReal

variable {E : Type*} [NormedAddCommGroup E] [NormedSpace ℝ E]

theorem ode_glue {f : ℝ → E → E} {a c d : ℝ} (hac : a ≤ c) (hcd : c ≤ d) {y1 y2 : ℝ → E}
    (h1 : ∀ t ∈ Icc a c, HasDerivWithinAt y1 (f t (y1 t)) (Icc a c) t)
    (h2 : ∀ t ∈ Icc c d, HasDerivWithinAt y2 (f t (y2 t)) (Icc c d) t) (he : y1 c = y2 c) :
    ∃ y, y a = y1 a ∧ ∀ t ∈ Icc a d, HasDerivWithinAt y (f t (y t)) (Icc a d) t := by
  set y : ℝ → E := fun t => if t ≤ c then y1 t else y2 t with hy
  have e1 : ∀ t ∈ Icc a c, y t = y1 t := fun t ht => if_pos ht.2
  have e2 : ∀ t ∈ Icc c d, y t = y2 t := fun t ht => by
    rcases eq_or_lt_of_le ht.1 with h | h
    · subst h
      rw [hy]
      simp [he]
    · exact if_neg (not_le.2 h)
  refine ⟨y, e1 a ⟨le_rfl, hac⟩, fun t ht => ?_⟩
  rw [← Icc_union_Icc_eq_Icc hac hcd]
  refine HasDerivWithinAt.union ?_ ?_
  · by_cases hc : t ∈ Icc a c
    · rw [e1 t hc]
      exact (h1 t hc).congr e1 (e1 t hc)
    · exact HasFDerivWithinAt.of_notMem_closure (by rwa [isClosed_Icc.closure_eq])
  · by_cases hc : t ∈ Icc c d
    · rw [e2 t hc]
      exact (h2 t hc).congr e2 (e2 t hc)
    · exact HasFDerivWithinAt.of_notMem_closure (by rwa [isClosed_Icc.closure_eq])

variable [CompleteSpace E]

theorem linear_ode_short {A : ℝ → E →L[ℝ] E} {b : ℝ → E} {t0 t1 K B : ℝ} (h01 : t0 ≤ t1) (hA : ContinuousOn A (Icc t0 t1))
    (hb : ContinuousOn b (Icc t0 t1)) (hK : ∀ t ∈ Icc t0 t1, ‖A t‖ ≤ K) (hB : ∀ t ∈ Icc t0 t1, ‖b t‖ ≤ B)
    (hs : K * (t1 - t0) ≤ 1/2) (x0 : E) :
    ∃ y, y t0 = x0 ∧ ∀ t ∈ Icc t0 t1, HasDerivWithinAt y (A t (y t) + b t) (Icc t0 t1) t := by
  have hK0 : 0 ≤ K := (norm_nonneg _).trans (hK t0 ⟨le_rfl, h01⟩)
  have hB0 : 0 ≤ B := (norm_nonneg _).trans (hB t0 ⟨le_rfl, h01⟩)
  have hd : 0 ≤ t1 - t0 := by linarith
  set R : ℝ := ‖x0‖ + 2 * B * (t1 - t0) with hR
  have hR0 : 0 ≤ R := by positivity
  have hpl : IsPicardLindelof (fun t x => A t x + b t) (tmin := t0) (tmax := t1) ⟨t0, le_rfl, h01⟩ x0 R.toNNReal 0
      (K * (‖x0‖ + R) + B).toNNReal K.toNNReal := by
    refine ⟨fun t ht => ?_, fun x _ => ?_, fun t ht x hx => ?_, ?_⟩
    · have h1 : LipschitzWith ‖A t‖₊ (A t) := (A t).lipschitz
      have h2 : LipschitzWith K.toNNReal (fun x => A t x + b t) := by
        refine LipschitzWith.of_dist_le_mul fun x y => ?_
        rw [dist_add_right, dist_eq_norm, ← map_sub, Real.coe_toNNReal K hK0, dist_eq_norm]
        exact ((A t).le_opNorm _).trans (mul_le_mul_of_nonneg_right (hK t ht) (norm_nonneg _))
      exact h2.lipschitzOnWith
    · exact (hA.clm_apply continuousOn_const).add hb
    · rw [Real.coe_toNNReal _ (by positivity)]
      rw [mem_closedBall, dist_eq_norm, Real.coe_toNNReal R hR0] at hx
      have hxn : ‖x‖ ≤ ‖x0‖ + R := by
        have := norm_add_le x0 (x - x0)
        rw [add_sub_cancel] at this
        linarith
      refine (norm_add_le _ _).trans (add_le_add ?_ (hB t ht))
      exact ((A t).le_opNorm _).trans (mul_le_mul (hK t ht) hxn (norm_nonneg _) hK0)
    · rw [Real.coe_toNNReal _ (by positivity), Real.coe_toNNReal R hR0]
      simp only [sub_self, max_eq_left hd, NNReal.coe_zero, sub_zero]
      have : K * (t1 - t0) * (‖x0‖ + R) ≤ 1/2 * (‖x0‖ + R) := mul_le_mul_of_nonneg_right hs (by positivity)
      nlinarith
  obtain ⟨y, h1, h2⟩ := hpl.exists_eq_forall_mem_Icc_hasDerivWithinAt₀
  exact ⟨y, h1, h2⟩

/-- A linear equation with continuous coefficients has a solution on the whole interval. -/
theorem linear_ode {A : ℝ → E →L[ℝ] E} {b : ℝ → E} {T : ℝ} (hT : 0 ≤ T) (hA : ContinuousOn A (Icc 0 T))
    (hb : ContinuousOn b (Icc 0 T)) (x0 : E) :
    ∃ y, y 0 = x0 ∧ ∀ t ∈ Icc 0 T, HasDerivWithinAt y (A t (y t) + b t) (Icc 0 T) t := by
  obtain ⟨K, hK⟩ := isCompact_Icc.exists_bound_of_continuousOn hA
  obtain ⟨B, hB⟩ := isCompact_Icc.exists_bound_of_continuousOn hb
  have hK0 : 0 ≤ K := (norm_nonneg _).trans (hK 0 ⟨le_rfl, hT⟩)
  obtain ⟨n, hn⟩ := exists_nat_gt (2 * K * T)
  have hn0 : (0:ℝ) < n := lt_of_le_of_lt (by positivity) hn
  have key : ∀ k : ℕ, k ≤ n → ∃ y, y 0 = x0 ∧ ∀ t ∈ Icc 0 (k * (T / n)), HasDerivWithinAt y (A t (y t) + b t) (Icc 0 (k * (T / n))) t := by
    intro k
    induction k with
    | zero =>
      intro _
      refine ⟨fun _ => x0, rfl, fun t ht => ?_⟩
      have : Icc (0:ℝ) ((0:ℕ) * (T / n)) = {0} := by simp
      rw [this] at ht ⊢
      exact hasDerivWithinAt_iff_hasFDerivWithinAt.2 (HasFDerivWithinAt.of_finite (Set.finite_singleton 0))
    | succ k ih =>
      intro hk
      obtain ⟨y1, g1, g2⟩ := ih (by omega)
      have hd : 0 ≤ T / n := by positivity
      have hk0 : (0:ℝ) ≤ k * (T / n) := by positivity
      have hk1 : (k:ℝ) * (T / n) ≤ (k + 1 : ℕ) * (T / n) := by push_cast; nlinarith
      have hk2 : ((k + 1 : ℕ) : ℝ) * (T / n) ≤ T := by
        have : ((k + 1 : ℕ) : ℝ) ≤ n := by exact_mod_cast hk
        calc ((k + 1 : ℕ) : ℝ) * (T / n) ≤ n * (T / n) := mul_le_mul_of_nonneg_right this hd
          _ = T := by field_simp
      have hsub : Icc ((k:ℝ) * (T / n)) ((k + 1 : ℕ) * (T / n)) ⊆ Icc 0 T := Icc_subset_Icc hk0 hk2
      obtain ⟨y2, g3, g4⟩ := linear_ode_short hk1 (hA.mono hsub) (hb.mono hsub) (fun t ht => hK t (hsub ht))
        (fun t ht => hB t (hsub ht)) (by
          push_cast
          have : K * ((k + 1) * (T / n) - k * (T / n)) = K * T / n := by ring
          rw [this, div_le_iff₀ hn0]
          linarith) (y1 (k * (T / n)))
      obtain ⟨y, g5, g6⟩ := ode_glue (f := fun t x => A t x + b t) hk0 hk1 g2 g4 g3.symm
      exact ⟨y, g5.trans g1, g6⟩
  obtain ⟨y, h1, h2⟩ := key n le_rfl
  rw [show (n:ℝ) * (T / n) = T by field_simp] at h2
  exact ⟨y, h1, h2⟩

end TMD
