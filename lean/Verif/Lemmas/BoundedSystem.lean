import Verif.Lemmas.TameForces
import Verif.Props.DashpotSweep
import Mathlib.Algebra.Order.Chebyshev

/-!
# The response of a damped system with polynomial springs and dampers is bounded
-/

namespace TMD

open Spec Finset

noncomputable section

variable {S : VibSys} {Fl : ℕ → ℝ} {h : List ℕ} {Nt n : ℕ} {tol : ℝ}

theorem tame_work (hh : Admissible h) (hS : ∀ f ∈ S.forces, Tame S.nd n h Nt tol f) (hM : ∀ d < S.nd, ∀ e < S.nd, S.M d e = S.M e d)
    (hK : ∀ d < S.nd, ∀ e < S.nd, S.K d e = S.K e d) (U : ℕ → ℝ) {w : ℝ} (hw : 0 < w) :
    periodWork S.nd w (velocityOf S.nd h U w) (onVelocity S.nd S.C (velocityOf S.nd h U w))
      ≤ periodWork S.nd w (velocityOf S.nd h U w) (periodicOf S.nd h (balance S h Nt tol U w) w) := by
  rw [work_linear hh S.nd S.M S.C S.K hM hK _ hw.ne']
  have e2 : periodicOf S.nd h (balance S h Nt tol U w) w = fun d t =>
      periodicOf S.nd h (matVec (numCoeff h * S.nd) (hsE S.nd S.M S.C S.K w h false) U) w d t
        + periodicOf S.nd h (fun i => (S.forces.map fun f => (aftVal h Nt tol f U w).F i).sum) w d t := by
    funext d t
    exact series_add h _ _ _
  rw [e2, periodWork_add S.nd w (continuous_velocityOf hh S.nd _ hw.ne') (continuous_periodicOf _ _ _ _) (continuous_periodicOf _ _ _ _),
    work_list hh S.nd _ hw.ne' S.forces fun f i => (aftVal h Nt tol f U w).F i]
  refine le_add_of_nonneg_right (List.sum_nonneg ?_)
  intro x hx
  obtain ⟨f, hf, rfl⟩ := List.mem_map.1 hx
  exact (hS f hf).work U w hw

theorem sq_le_osc (hh : Admissible h) (hn : ∀ k ∈ h, k ≤ n) {nd : ℕ} (U : ℕ → ℝ) {d j : ℕ} (hd : d < nd) (hj : j ∈ Ico (zi h) h.length) :
    U ((j * 2 - zi h) * nd + d) ^ 2 + U ((j * 2 - zi h + 1) * nd + d) ^ 2 ≤ oscSize nd n h U := by
  have hm := mem_Ico.1 hj
  have hmem : h.getD j 0 ∈ h := by rw [List.getD_eq_getElem _ _ hm.2]; exact List.getElem_mem _
  have hpos : h.getD j 0 ≠ 0 := by
    intro h0
    have h0' : h[j] = 0 := by rwa [List.getD_eq_getElem _ _ hm.2] at h0
    cases h with
    | nil => simp at hm
    | cons k hs =>
      cases j with
      | zero => simp at h0'; subst h0'; simp [zi] at hm
      | succ j =>
        simp at h0'
        exact hh.zero_first (by simp only [List.tail_cons]; rw [← h0']; exact List.getElem_mem _)
  obtain ⟨k, hk⟩ := Nat.exists_eq_succ_of_ne_zero hpos
  have hkn : k < n := by have := hn _ hmem; omega
  have h1 := coefOf_row hh (fun r => U (r * nd + d)) hj
  rw [hk] at h1
  have h2 : (coefOf h (fun r => U (r * nd + d)) (k + 1)).1 ^ 2 + (coefOf h (fun r => U (r * nd + d)) (k + 1)).2 ^ 2 ≤ oscSize nd n h U := by
    unfold oscSize
    refine le_trans ?_ (single_le_sum (f := fun k => ((k + 1 : ℕ) : ℝ) ^ 2 * ∑ d ∈ range nd,
      ((coefOf h (fun r => U (r * nd + d)) (k + 1)).1 ^ 2 + (coefOf h (fun r => U (r * nd + d)) (k + 1)).2 ^ 2)) (fun _ _ => by positivity) (mem_range.2 hkn))
    refine le_trans (single_le_sum (f := fun d => (coefOf h (fun r => U (r * nd + d)) (k + 1)).1 ^ 2 + (coefOf h (fun r => U (r * nd + d)) (k + 1)).2 ^ 2)
      (fun _ _ => by positivity) (mem_range.2 hd)) ?_
    refine le_mul_of_one_le_left (by positivity) (one_le_pow₀ (by push_cast; linarith [Nat.cast_nonneg (α := ℝ) k]))
  rw [h1] at h2
  exact h2

theorem linear_beats {κ A s : ℝ} (hκ : 0 < κ) (hA : 0 ≤ A) (H : κ * s ^ 2 ≤ A * (1 + s)) : s ≤ 1 + 2 * A / κ := by
  rcases le_or_gt s 1 with h | h
  · have : 0 ≤ 2 * A / κ := by positivity
    linarith
  · have h1 : κ * s ≤ 2 * A := by
      by_contra hc
      push Not at hc
      nlinarith
    have h2 : s ≤ 2 * A / κ := by rw [le_div_iff₀ hκ]; linarith
    linarith

theorem static_sum (hS : ∀ f ∈ S.forces, Tame S.nd n h Nt tol f) (h0 : 0 ∈ h) {a : ℝ} (ha : 0 < a) (b B : ℝ) :
    ∃ C, 0 ≤ C ∧ ∀ w, a ≤ w → w ≤ b → ∀ U, oscSize S.nd n h U ≤ B →
      -(C * (1 + ∑ d ∈ range S.nd, |U d|)) ≤ ∑ d ∈ range S.nd, U d * sumF S h Nt tol U w d := by
  unfold sumF
  generalize S.forces = l at hS
  induction l with
  | nil => exact ⟨0, le_rfl, fun w _ _ U _ => by simp⟩
  | cons f l ih =>
    obtain ⟨C, hC, H⟩ := ih fun g hg => hS g (List.mem_cons_of_mem _ hg)
    obtain ⟨C', hC', H'⟩ := (hS f List.mem_cons_self).static h0 a ha b B
    refine ⟨C' + C, add_nonneg hC' hC, fun w h1 h2 U hU => ?_⟩
    simp only [List.map_cons, List.sum_cons, mul_add, sum_add_distrib]
    have e1 := H w h1 h2 U hU
    have e2 := H' w h1 h2 U hU
    linarith

theorem tame_bounded (hh : Admissible h) (hn : ∀ k ∈ h, k ≤ n) (hS : ∀ f ∈ S.forces, Tame S.nd n h Nt tol f) (hM : ∀ d < S.nd, ∀ e < S.nd, S.M d e = S.M e d)
    (hK : ∀ d < S.nd, ∀ e < S.nd, S.K d e = S.K e d)
    (hC : ∀ v : ℕ → ℝ, (∃ d < S.nd, v d ≠ 0) → 0 < ∑ d ∈ range S.nd, ∑ e ∈ range S.nd, v d * S.C d e * v e)
    (hK0 : 0 ∈ h → ∀ v : ℕ → ℝ, (∃ d < S.nd, v d ≠ 0) → 0 < ∑ d ∈ range S.nd, ∑ e ∈ range S.nd, v d * S.K d e * v e) {a : ℝ} (ha : 0 < a) (b B : ℝ) :
    ∃ B', ∀ w, a ≤ w → w ≤ b → ∀ U, (∀ i < numCoeff h * S.nd, |balance S h Nt tol U w i| ≤ B) → ∀ i < numCoeff h * S.nd, |U i| ≤ B' := by
  obtain ⟨c, hc, hcd⟩ := definite_lower S.nd S.C hC
  set B1 : ℝ := n * (S.nd * (numCoeff h * B ^ 2)) / (a * c) ^ 2 with hB1
  have hB1' : 0 ≤ B1 := by positivity
  have hosc : ∀ w, a ≤ w → w ≤ b → ∀ U, (∀ i < numCoeff h * S.nd, |balance S h Nt tol U w i| ≤ B) → oscSize S.nd n h U ≤ B1 := fun w hwa hwb U hU => by
    have hw : 0 < w := ha.trans_le hwa
    have h1 := osc_bound hh hn hc hcd U (balance S h Nt tol U w) hw (tame_work hh hS hM hK U hw)
    have h3 : ∑ d ∈ range S.nd, ∑ r ∈ range (numCoeff h), balance S h Nt tol U w (r * S.nd + d) ^ 2 ≤ S.nd * (numCoeff h * B ^ 2) := by
      have h4 : ∀ d ∈ range S.nd, ∑ r ∈ range (numCoeff h), balance S h Nt tol U w (r * S.nd + d) ^ 2 ≤ numCoeff h * B ^ 2 := fun d hd => by
        have h5 : ∀ r ∈ range (numCoeff h), balance S h Nt tol U w (r * S.nd + d) ^ 2 ≤ B ^ 2 := fun r hr => by
          have hlt := block_lt (mem_range.1 hr) (mem_range.1 hd)
          exact sq_le_sq' (by linarith [(abs_le.1 (hU _ hlt)).1]) (abs_le.1 (hU _ hlt)).2
        have := sum_le_card_nsmul _ _ _ h5
        rwa [card_range, nsmul_eq_mul] at this
      have := sum_le_card_nsmul _ _ _ h4
      rwa [card_range, nsmul_eq_mul] at this
    have h6 : (a * c) ^ 2 * oscSize S.nd n h U ≤ (w * c) ^ 2 * oscSize S.nd n h U :=
      mul_le_mul_of_nonneg_right (pow_le_pow_left₀ (by positivity) (mul_le_mul_of_nonneg_right hwa hc.le) 2) (oscSize_nonneg _ _ _ _)
    rw [hB1, le_div_iff₀ (by positivity), mul_comm]
    exact h6.trans (h1.trans (mul_le_mul_of_nonneg_left h3 (Nat.cast_nonneg _)))
  -- the static coefficients
  obtain ⟨B2, hB2, hst⟩ : ∃ B2, 0 ≤ B2 ∧ (zi h = 1 → ∀ w, a ≤ w → w ≤ b → ∀ U, (∀ i < numCoeff h * S.nd, |balance S h Nt tol U w i| ≤ B) →
      ∀ d < S.nd, |U d| ≤ B2) := by
    by_cases h0 : 0 ∈ h
    · obtain ⟨κ, hκ, hkd⟩ := definite_lower S.nd S.K (hK0 h0)
      obtain ⟨C, hC0, hCs⟩ := static_sum hS h0 ha b B1
      refine ⟨1 + 2 * (|B| + C) / (κ / (S.nd + 1)), by positivity, fun hz w hwa hwb U hU d hd => ?_⟩
      set s := ∑ d ∈ range S.nd, |U d| with hs
      have hs0 : 0 ≤ s := sum_nonneg fun d _ => abs_nonneg _
      have hd1 : |U d| ≤ s := single_le_sum (f := fun d => |U d|) (fun _ _ => abs_nonneg _) (mem_range.2 hd)
      refine hd1.trans (linear_beats (by positivity) (by positivity) ?_)
      have hrow : ∀ d < S.nd, ∑ e ∈ range S.nd, S.K d e * U e = balance S h Nt tol U w d - sumF S h Nt tol U w d := fun d hd => by
        have := hsE_mulVec_zero S.M S.C S.K w hz hd U false
        simp only [mul_zero, zero_add, Bool.false_eq_true, if_false] at this
        unfold balance
        rw [this]
        ring
      have h1 := hkd U
      have h2 : ∑ d ∈ range S.nd, ∑ e ∈ range S.nd, U d * S.K d e * U e
          = ∑ d ∈ range S.nd, U d * balance S h Nt tol U w d - ∑ d ∈ range S.nd, U d * sumF S h Nt tol U w d := by
        rw [← sum_sub_distrib]
        refine sum_congr rfl fun d hd => ?_
        rw [← mul_sub, ← hrow d (mem_range.1 hd), mul_sum]
        exact sum_congr rfl fun e _ => by ring
      have h3 := hCs w hwa hwb U (hosc w hwa hwb U hU)
      have hn1 : 1 ≤ numCoeff h := numCoeff_pos_of_zi hz
      have h4 : ∑ d ∈ range S.nd, U d * balance S h Nt tol U w d ≤ |B| * s := by
        rw [hs, mul_sum]
        refine sum_le_sum fun d hd => ?_
        have hlt : d < numCoeff h * S.nd := (mem_range.1 hd).trans_le (Nat.le_mul_of_pos_left _ hn1)
        have := hU d hlt
        calc _ ≤ |U d * balance S h Nt tol U w d| := le_abs_self _
          _ = |balance S h Nt tol U w d| * |U d| := by rw [abs_mul, mul_comm]
          _ ≤ _ := mul_le_mul_of_nonneg_right (this.trans (le_abs_self _)) (abs_nonneg _)
      have h5 : s ^ 2 ≤ S.nd * ∑ d ∈ range S.nd, U d ^ 2 := by
        have := sq_sum_le_card_mul_sum_sq (s := range S.nd) (f := fun d => |U d|)
        simpa [hs] using this
      have h6 : 0 ≤ ∑ d ∈ range S.nd, U d ^ 2 := sum_nonneg fun _ _ => sq_nonneg _
      have h7 : κ / (S.nd + 1) * s ^ 2 ≤ κ * ∑ d ∈ range S.nd, U d ^ 2 := by
        rw [div_mul_eq_mul_div, div_le_iff₀ (by positivity)]
        have := mul_le_mul_of_nonneg_left h5 hκ.le
        nlinarith [mul_nonneg hκ.le h6]
      have := abs_nonneg B
      nlinarith
    · refine ⟨0, le_rfl, fun hz => absurd ?_ h0⟩
      cases h with
      | nil => simp [zi] at hz
      | cons k hs => simp [zi] at hz; simp [hz]
  refine ⟨B1 + 1 + B2, fun w hwa hwb U hU i hi => ?_⟩
  have hsmall : ∀ x : ℝ, x ^ 2 ≤ B1 → |x| ≤ B1 + 1 := fun x hx => by
    have := sq_abs x
    nlinarith [sq_nonneg (|x| - 1), abs_nonneg x]
  obtain ⟨d, hd, ⟨hz', rfl⟩ | ⟨j, hj, rfl | rfl⟩⟩ := idx_cases hh hi
  · have hz : zi h = 1 := by have := zi_le_one h; omega
    have := hst hz w hwa hwb U hU d hd
    simp only [zero_mul, zero_add]
    linarith
  · have h1 := sq_le_osc hh hn U hd hj
    have h2 := hosc w hwa hwb U hU
    have := hsmall (U ((j * 2 - zi h) * S.nd + d)) (by nlinarith [sq_nonneg (U ((j * 2 - zi h + 1) * S.nd + d))])
    linarith
  · have h1 := sq_le_osc hh hn U hd hj
    have h2 := hosc w hwa hwb U hU
    have := hsmall (U ((j * 2 - zi h + 1) * S.nd + d)) (by nlinarith [sq_nonneg (U ((j * 2 - zi h) * S.nd + d))])
    linarith

end

end TMD
