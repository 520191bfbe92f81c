import Verif.Props.Stability
import Verif.Lemmas.LinearOde

/-!
# C75: when the integration is complete

`shooting_res` integrates the motion together with its derivatives with respect to the initial state and the frequency
(vibration_system.py:1117-1136). The derivatives satisfy linear equations and exist as long as the motion does, so the integration
reaches the end of the period exactly if the motion does.
-/

namespace TMD

open Spec Finset

noncomputable section

variable {ivp : SolveIvp} {S : VibSys} {Minv : ℕ → ℕ → ℝ} {Uw Fl : ℕ → ℝ} {Nt : ℕ} {r : ShootRes}
  {A : (ℕ → ℝ) → (ℕ → ℝ) × (ℕ → ℕ → ℝ)} {f : NLForce}

/-- The derivatives of a motion exist as long as the motion. -/
theorem augmented_sol (hS : S.forces = [f]) (hA : ∀ U, f.force U = .ok (A U))
    (hL : SmoothLaw S.nd (fun U => (A U).1) (fun U => (A U).2)) {w T : ℝ} (hT : 0 ≤ T) {z : ℝ → Fin (2 * S.nd) → ℝ}
    (hz0 : ∀ i : Fin (2 * S.nd), z 0 i = Uw i)
    (hz : ∀ t ∈ Set.Icc 0 T, HasDerivWithinAt z (shA S Minv A (z t) + shB S Minv Fl (w * t)) (Set.Icc 0 T) t) :
    ∃ y, IsSol (shootLen S.nd) (shootField S Minv Fl w) T (shootInit S.nd Uw) y := by
  have hzc : ContinuousOn z (Set.Icc 0 T) := fun t ht => (hz t ht).continuousWithinAt
  have hAc : ContinuousOn (fun t => shA' S Minv A (z t)) (Set.Icc 0 T) := (shA'_continuous hL).comp_continuousOn hzc
  have hBc : Continuous (shB' S Minv Fl) := by
    refine continuous_pi fun i => ?_
    unfold shB' hcat
    split
    · exact continuous_const
    · unfold matVec
      fun_prop
  have hbc : ContinuousOn (fun t : ℝ => t • shB' S Minv Fl (w * t)) (Set.Icc 0 T) := by
    refine Continuous.continuousOn ?_
    exact continuous_id.smul (hBc.comp (continuous_const.mul continuous_id))
  choose Φ hΦ0 hΦ using fun j : ℕ => linear_ode hT hAc (continuousOn_const (c := 0)) (fun i : Fin (2 * S.nd) => if (i:ℕ) = j then (1:ℝ) else 0)
  obtain ⟨ζ, hζ0, hζ⟩ := linear_ode hT hAc hbc 0
  have hsub : ∀ (v : Fin (2 * S.nd) → ℝ) (k : ℕ), Spec.ext v k = if h : k < (2 * S.nd) then v ⟨k, h⟩ else 0 := fun _ _ => rfl
  set y : ℝ → ℕ → ℝ := fun t i => hcat (2 * S.nd) (Spec.ext (z t)) (hcat ((2 * S.nd) * (2 * S.nd)) (fun k => Spec.ext (Φ (k % (2 * S.nd)) t) (k / (2 * S.nd))) (Spec.ext (ζ t))) i with hy
  have y1 : ∀ t, ∀ i : Fin (2 * S.nd), y t i = z t i := fun t i => by
    simp only [hy, hcat, i.2, if_true, hsub, dif_pos]
  have y2 : ∀ t, ∀ i < (2 * S.nd), ∀ j < (2 * S.nd), y t ((2 * S.nd) + (i * (2 * S.nd) + j)) = Spec.ext (Φ j t) i := by
    intro t i hi j hj
    have hlt : i * (2 * S.nd) + j < (2 * S.nd) * (2 * S.nd) := by nlinarith
    have hdiv : (i * (2 * S.nd) + j) / (2 * S.nd) = i := by
      rw [mul_comm, Nat.mul_add_div (by omega), Nat.div_eq_of_lt hj, add_zero]
    have hmod : (i * (2 * S.nd) + j) % (2 * S.nd) = j := by
      rw [mul_comm, Nat.mul_add_mod, Nat.mod_eq_of_lt hj]
    simp only [hy]
    unfold hcat
    rw [if_neg (by omega), Nat.add_sub_cancel_left, if_pos hlt]
    beta_reduce
    rw [hdiv, hmod]
  have y3 : ∀ t, ∀ i : Fin (2 * S.nd), y t ((2 * S.nd) + ((2 * S.nd) * (2 * S.nd) + i)) = ζ t i := by
    intro t i
    simp only [hy]
    unfold hcat
    rw [if_neg (by omega), Nat.add_sub_cancel_left, if_neg (by omega), Nat.add_sub_cancel_left, hsub, dif_pos i.2]
  have hcases : ∀ i < shootLen S.nd, (∃ a : Fin (2 * S.nd), i = a) ∨ (∃ a < (2 * S.nd), ∃ b < (2 * S.nd), i = (2 * S.nd) + (a * (2 * S.nd) + b)) ∨ ∃ a : Fin (2 * S.nd), i = (2 * S.nd) + ((2 * S.nd) * (2 * S.nd) + a) := by
    intro i hi
    unfold shootLen at hi
    by_cases c1 : i < (2 * S.nd)
    · exact .inl ⟨⟨i, c1⟩, rfl⟩
    by_cases c2 : i - (2 * S.nd) < (2 * S.nd) * (2 * S.nd)
    · have hn0 : 0 < (2 * S.nd) := by
        rcases Nat.eq_zero_or_pos (2 * S.nd) with h | h
        · rw [h] at c2; simp at c2
        · exact h
      refine .inr (.inl ⟨(i - (2 * S.nd)) / (2 * S.nd), (Nat.div_lt_iff_lt_mul hn0).2 c2, (i - (2 * S.nd)) % (2 * S.nd), Nat.mod_lt _ hn0, ?_⟩)
      have := Nat.div_add_mod (i - (2 * S.nd)) (2 * S.nd)
      rw [mul_comm] at this
      omega
    · exact .inr (.inr ⟨⟨i - (2 * S.nd) - (2 * S.nd) * (2 * S.nd), by omega⟩, by simp only; omega⟩)
  have hr : ∀ t, restr (2 * S.nd) (y t) = z t := fun t => funext fun i => y1 t i
  refine ⟨y, fun i hi => ?_, fun t ht => ?_⟩
  · rcases hcases i hi with ⟨a, rfl⟩ | ⟨a, ha, b, hb, rfl⟩ | ⟨a, rfl⟩
    · rw [y1, hz0]
      unfold shootInit hcat
      rw [if_pos a.2]
    · have hlt : a * (2 * S.nd) + b < (2 * S.nd) * (2 * S.nd) := by nlinarith
      have hdiv : (a * (2 * S.nd) + b) / (2 * S.nd) = a := by
        rw [mul_comm, Nat.mul_add_div (by omega), Nat.div_eq_of_lt hb, add_zero]
      have hmod : (a * (2 * S.nd) + b) % (2 * S.nd) = b := by
        rw [mul_comm, Nat.mul_add_mod, Nat.mod_eq_of_lt hb]
      have e : shootInit S.nd Uw (2 * S.nd + (a * (2 * S.nd) + b)) = if a = b then 1 else 0 := by
        unfold shootInit hcat
        rw [if_neg (by omega), Nat.add_sub_cancel_left, if_pos hlt]
        beta_reduce
        rw [hdiv, hmod]
      rw [e, y2 0 a ha b hb, hΦ0, hsub, dif_pos ha]
    · rw [y3, hζ0]
      unfold shootInit hcat
      rw [if_neg (by omega), Nat.add_sub_cancel_left, if_neg (by omega)]
      rfl
  · obtain ⟨d, h1, h2, h3, h4⟩ := shootField_ok (Minv := Minv) (Fl := Fl) hS hA w t (y t)
    rw [hr] at h2 h3 h4
    refine ⟨d, h1, fun i hi => ?_⟩
    rcases hcases i hi with ⟨a, rfl⟩ | ⟨a, ha, b, hb, rfl⟩ | ⟨a, rfl⟩
    · simp only [y1]
      refine ((hasDerivWithinAt_pi.1 (hz t ht)) a).congr_deriv ?_
      exact (congrFun h2 a).symm
    · simp only [y2 _ a ha b hb, hsub, dif_pos ha]
      refine ((hasDerivWithinAt_pi.1 (hΦ b t ht)) ⟨a, ha⟩).congr_deriv ?_
      rw [h3 a ha b hb, Finset.sum_range]
      simp only [shA', add_zero, ContinuousLinearMap.pi_apply, row_apply]
      refine sum_congr rfl fun k _ => ?_
      rw [y2 t k k.2 b hb, hsub, dif_pos k.2]
    · simp only [y3]
      refine ((hasDerivWithinAt_pi.1 (hζ t ht)) a).congr_deriv ?_
      rw [h4 a, Finset.sum_range]
      simp only [shA', Pi.add_apply, Pi.smul_apply, smul_eq_mul, ContinuousLinearMap.pi_apply, row_apply, y3]
      rw [add_comm]

/-- C75: with an exact integrator the integration reaches the end of the period exactly if the motion from the given state does. -/
theorem C75_complete (hivp : ExactIvp ivp) (hM : IsInv S.nd S.M Minv) (hS : S.forces = [f])
    (hA : ∀ U, f.force U = .ok (A U)) (hL : SmoothLaw S.nd (fun U => (A U).1) (fun U => (A U).2))
    (hw : 0 < Uw (2 * S.nd)) (hNt : 0 < Nt) (h : shootingRes ivp S Minv Uw (2 * S.nd + 1) Fl Nt = .ok r) :
    r.cols = Nt + 1 ↔ ∃ u v, Motion S.nd S.M S.C S.K (fun U => (A U).1) Fl (Uw (2 * S.nd))
      (Set.Icc 0 (2 * Real.pi / Uw (2 * S.nd))) u v ∧ ∀ i < S.nd, u 0 i = Uw i ∧ v 0 i = Uw (S.nd + i) := by
  have hT0 : 0 < 2 * Real.pi / Uw (2 * S.nd) := by have := Real.pi_pos; positivity
  constructor
  · intro hc
    obtain ⟨y, hy, -⟩ := shoot_curve hivp hS hA hw hNt h hc
    obtain ⟨hz0, hz⟩ := curve_parts hS hA hy
    refine ⟨y, fun t i => y t (S.nd + i), ode_motion hM hL hz, fun i hi => ?_⟩
    have a1 := congrFun hz0 ⟨i, by omega⟩
    have a2 := congrFun hz0 ⟨S.nd + i, by omega⟩
    exact ⟨a1, a2⟩
  · rintro ⟨u, v, hm, h0⟩
    obtain ⟨-, o, Yd, h1, -, -, rfl⟩ := shootingRes_ok h
    rw [Nat.add_sub_cancel] at h1
    show o.cols = Nt + 1
    by_contra hne
    have hle := (hivp.sound _ _ _ _ _ _ hT0 hNt h1).1
    obtain ⟨y, hy⟩ := augmented_sol (Uw := Uw) hS hA hL hT0.le (fun i => by
      by_cases c : (i:ℕ) < S.nd
      · simp only [restr, hcat, c, if_true, (h0 i c).1]
      · simp only [restr, hcat, c, if_false, (h0 (i - S.nd) (by omega)).2]
        congr 1
        omega) (motion_ode (Minv := Minv) hM hL hm rfl)
    refine hivp.maximal _ _ _ _ _ _ hT0 hNt h1 (by omega) ⟨y, hy.shorten ?_⟩
    have hN : (0:ℝ) < Nt := by exact_mod_cast hNt
    rw [div_le_iff₀ hN, mul_comm]
    exact mul_le_mul_of_nonneg_left (by exact_mod_cast (by omega : o.cols ≤ Nt)) hT0.le

end

end TMD
