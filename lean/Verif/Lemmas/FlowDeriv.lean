import Verif.Lemmas.FlowOpen
import Verif.Lemmas.ShootSens

/-!
# Continuity of the linearised flow

The solutions of the linearised equation along nearby solutions are close to each other. Nothing here refers to the program.
-/

namespace TMD

open Set Metric NNReal

noncomputable section

variable {n : ℕ}

theorem flow_deriv_near {a : (Fin n → ℝ) → Fin n → ℝ} {a' : (Fin n → ℝ) → (Fin n → ℝ) →L[ℝ] (Fin n → ℝ)} (ha : ∀ z, HasFDerivAt a (a' z) z) (hac : Continuous a')
    {b b' : ℝ → Fin n → ℝ} (hb : Continuous b) (hb' : Continuous b') {w : ℝ} (hw : 0 < w) {z p : ℝ → Fin n → ℝ} {κ : ℝ}
    (hz : ∀ t ∈ Icc 0 (2 * Real.pi / w), HasDerivWithinAt z (a (z t) + b (w * t)) (Icc 0 (2 * Real.pi / w)) t)
    (hp : ∀ t ∈ Icc 0 (2 * Real.pi / w), HasDerivWithinAt p (κ • t • b' (w * t) + a' (z t) (p t)) (Icc 0 (2 * Real.pi / w)) t) {ε : ℝ} (hε : 0 < ε) :
    ∃ δ > 0, ∀ w', 0 < w' → |w' - w| ≤ δ → ∀ y p' : ℝ → Fin n → ℝ, ‖y 0 - z 0‖ ≤ δ → p' 0 = p 0 →
      (∀ t ∈ Icc 0 (2 * Real.pi / w'), HasDerivWithinAt y (a (y t) + b (w' * t)) (Icc 0 (2 * Real.pi / w')) t) →
      (∀ t ∈ Icc 0 (2 * Real.pi / w'), HasDerivWithinAt p' (κ • t • b' (w' * t) + a' (y t) (p' t)) (Icc 0 (2 * Real.pi / w')) t) →
      ‖p' (2 * Real.pi / w') - p (2 * Real.pi / w)‖ ≤ ε ∧ ‖y (2 * Real.pi / w') - z (2 * Real.pi / w)‖ ≤ ε := by
  have hpi := Real.pi_pos
  set T := 2 * Real.pi / w with hT
  have hT0 : 0 < T := by positivity
  have hzc : ContinuousOn z (Icc 0 T) := fun t ht => (hz t ht).continuousWithinAt
  have hpc : ContinuousOn p (Icc 0 T) := fun t ht => (hp t ht).continuousWithinAt
  obtain ⟨R0, hR0⟩ := isCompact_Icc.exists_bound_of_continuousOn hzc
  obtain ⟨M, hM⟩ := isCompact_Icc.exists_bound_of_continuousOn hpc
  have hR0' : 0 ≤ R0 := (norm_nonneg _).trans (hR0 0 ⟨le_rfl, hT0.le⟩)
  have hM0 : 0 ≤ M := (norm_nonneg _).trans (hM 0 ⟨le_rfl, hT0.le⟩)
  have hcomp : IsCompact (closedBall (0 : Fin n → ℝ) (R0 + 1)) := isCompact_closedBall _ _
  obtain ⟨Ka, hKa⟩ := hcomp.exists_bound_of_continuousOn hac.continuousOn
  obtain ⟨Bb, hBb⟩ := (isCompact_Icc (a := (0:ℝ)) (b := 2 * Real.pi)).exists_bound_of_continuousOn hb'.continuousOn
  have hKa0 : 0 ≤ Ka := (norm_nonneg _).trans (hKa 0 (mem_closedBall_self (by positivity)))
  have hBb0 : 0 ≤ Bb := (norm_nonneg _).trans (hBb 0 ⟨le_rfl, by positivity⟩)
  set k := 2 * T * Ka + 1 with hk
  have hk0 : 0 < k := by positivity
  set η := ε * k / ((M + 1) * Real.exp k) with hη
  have hη0 : 0 < η := by have := Real.exp_pos k; positivity
  have huc := Metric.uniformContinuousOn_iff_le.1 (hcomp.uniformContinuousOn_of_continuous hac.continuousOn) (η / (4 * T)) (by positivity)
  obtain ⟨ε1, hε1, huc⟩ := huc
  obtain ⟨δ1, hδ1, hflow⟩ := flow_near ha hac hb hw (by positivity : (0:ℝ) ≤ 2 * Real.pi) hz (ε := min (min ε1 ε) 1) (by positivity) (min_le_right _ _)
  have hTc : ContinuousAt (fun w' : ℝ => 2 * Real.pi / w') w := continuousAt_const.div continuousAt_id hw.ne'
  have e1 : ∀ᶠ w' in nhds w, |2 * Real.pi / w' - T| < min T (η / (2 * (Ka + 1))) := by
    have := hTc.eventually (ball_mem_nhds (2 * Real.pi / w) (lt_min hT0 (by positivity : 0 < η / (2 * (Ka + 1)))))
    filter_upwards [this] with x hx
    rwa [Real.dist_eq] at hx
  have e2 : ∀ᶠ w' in nhds w, |(2 * Real.pi / w') ^ 2 - T ^ 2| < η / (|κ| * Bb + 1) := by
    have hTc2 : ContinuousAt (fun w' : ℝ => (2 * Real.pi / w') ^ 2) w := hTc.pow 2
    have := hTc2.eventually (ball_mem_nhds ((2 * Real.pi / w) ^ 2) (by positivity : 0 < η / (|κ| * Bb + 1)))
    filter_upwards [this] with x hx
    rwa [Real.dist_eq] at hx
  obtain ⟨δ2, hδ2, hev⟩ := Metric.eventually_nhds_iff_ball.1 (e1.and e2)
  refine ⟨min δ1 (δ2 / 2), lt_min hδ1 (by positivity), fun w' hw0 hw' y p' hy0 hp0 hy hp' => ?_⟩
  obtain ⟨f1, f2⟩ := hev w' (by
    rw [mem_ball, Real.dist_eq]
    have := hw'.trans (min_le_right _ _)
    linarith)
  set T' := 2 * Real.pi / w' with hT'
  have hT'0 : 0 < T' := by positivity
  have hT2 : T' ≤ 2 * T := by
    have := (abs_lt.1 (f1.trans_le (min_le_left _ _))).2
    linarith
  have f1' : |T' - T| ≤ η / (2 * (Ka + 1)) := (f1.trans_le (min_le_right _ _)).le
  obtain ⟨-, yy, yy0, hyy, hclose⟩ := hflow (y 0) w' (hy0.trans (min_le_left _ _)) (hw'.trans (min_le_left _ _))
  have heq := shoot_unique ha hac (fun t => b (w' * t)) hT'0 hyy hy yy0.symm
  have hcl : ∀ s ∈ Icc (0:ℝ) 1, ‖y (T' * s) - z (T * s)‖ ≤ min (min ε1 ε) 1 := fun s hs => by
    have hm : T' * s ∈ Icc 0 T' := ⟨mul_nonneg hT'0.le hs.1, mul_le_of_le_one_right hT'0.le hs.2⟩
    rw [heq _ hm]
    have := hclose _ hm
    rwa [show w' * (T' * s) / w = T * s by rw [hT', hT]; field_simp] at this
  constructor
  · have hms : ∀ s ∈ Icc (0:ℝ) 1, T * s ∈ Icc 0 T := fun s hs => ⟨mul_nonneg hT0.le hs.1, mul_le_of_le_one_right hT0.le hs.2⟩
    have hzR : ∀ s ∈ Icc (0:ℝ) 1, z (T * s) ∈ closedBall (0 : Fin n → ℝ) (R0 + 1) := fun s hs => by
      rw [mem_closedBall_zero_iff]
      linarith [hR0 _ (hms s hs)]
    have hyR : ∀ s ∈ Icc (0:ℝ) 1, y (T' * s) ∈ closedBall (0 : Fin n → ℝ) (R0 + 1) := fun s hs => by
      rw [mem_closedBall_zero_iff]
      have h1 := (hcl s hs).trans (min_le_right _ _)
      have h2 : ‖y (T' * s)‖ ≤ ‖z (T * s)‖ + ‖y (T' * s) - z (T * s)‖ := by simpa using norm_add_le (z (T * s)) (y (T' * s) - z (T * s))
      linarith [hR0 _ (hms s hs)]
    have key := lin_near (A := fun s => T • a' (z (T * s))) (A' := fun s => T' • a' (y (T' * s))) (c := fun s => (κ * T ^ 2 * s) • b' (2 * Real.pi * s)) (c' := fun s => (κ * T' ^ 2 * s) • b' (2 * Real.pi * s))
      (p := fun s => p (T * s)) (p' := fun s => p' (T' * s)) (M := M) hk0 hη0.le (fun s hs => by
        have := rescale hT0 hp s hs
        refine this.congr_deriv ?_
        rw [smul_add, add_comm, smul_smul, smul_smul, show w * (T * s) = 2 * Real.pi * s by rw [hT]; field_simp, show T * κ * (T * s) = κ * T ^ 2 * s by ring]
        simp) (fun s hs => by
        have := rescale hT'0 hp' s hs
        refine this.congr_deriv ?_
        rw [smul_add, add_comm, smul_smul, smul_smul, show w' * (T' * s) = 2 * Real.pi * s by rw [hT']; field_simp, show T' * κ * (T' * s) = κ * T' ^ 2 * s by ring]
        simp) (by simpa using hp0) (fun s hs => by
        rw [norm_smul, Real.norm_of_nonneg hT'0.le]
        have := hKa _ (hyR s hs)
        nlinarith [norm_nonneg (a' (y (T' * s)))]) (fun s hs => by
        have e : T' • a' (y (T' * s)) - T • a' (z (T * s)) = T' • (a' (y (T' * s)) - a' (z (T * s))) + (T' - T) • a' (z (T * s)) := by
          ext v i
          simp
          ring
        rw [e]
        refine (norm_add_le _ _).trans ?_
        rw [norm_smul, norm_smul, Real.norm_of_nonneg hT'0.le, Real.norm_eq_abs]
        have g1 := huc _ (hyR s hs) _ (hzR s hs) (by rw [dist_eq_norm]; exact (hcl s hs).trans ((min_le_left _ _).trans (min_le_left _ _)))
        rw [dist_eq_norm] at g1
        have g2 : T' * ‖a' (y (T' * s)) - a' (z (T * s))‖ ≤ η / 2 := by
          calc _ ≤ 2 * T * (η / (4 * T)) := mul_le_mul hT2 g1 (norm_nonneg _) (by positivity)
            _ = η / 2 := by field_simp; ring
        have g3 : |T' - T| * ‖a' (z (T * s))‖ ≤ η / 2 := by
          calc _ ≤ η / (2 * (Ka + 1)) * (Ka + 1) := mul_le_mul f1' (by linarith [hKa _ (hzR s hs)]) (norm_nonneg _) (by positivity)
            _ = η / 2 := by field_simp
        linarith) (fun s hs => by
        rw [← sub_smul, norm_smul, Real.norm_eq_abs, show κ * T' ^ 2 * s - κ * T ^ 2 * s = κ * (T' ^ 2 - T ^ 2) * s by ring, abs_mul, abs_mul, abs_of_nonneg hs.1]
        have g1 := hBb (2 * Real.pi * s) ⟨by have := hs.1; positivity, mul_le_of_le_one_right (by positivity) hs.2⟩
        calc |κ| * |T' ^ 2 - T ^ 2| * s * ‖b' (2 * Real.pi * s)‖ ≤ |κ| * (η / (|κ| * Bb + 1)) * 1 * Bb := by
              have h0 := hs.1
              have h1 := hs.2
              gcongr
          _ = η * (|κ| * Bb / (|κ| * Bb + 1)) := by ring
          _ ≤ η * 1 := by
            gcongr
            rw [div_le_one (by positivity)]; linarith
          _ = η := mul_one η) (fun s hs => hM _ (hms s hs))
    simp only [mul_one] at key
    refine key.trans ?_
    have hex := Real.exp_pos k
    calc η * (M + 1) / k * (Real.exp k - 1) ≤ η * (M + 1) / k * Real.exp k := by gcongr; linarith
      _ = ε := by rw [hη]; field_simp
  · have := hcl 1 ⟨zero_le_one, le_rfl⟩
    rw [mul_one, mul_one] at this
    exact this.trans ((min_le_left _ _).trans (min_le_right _ _))

end

end TMD
