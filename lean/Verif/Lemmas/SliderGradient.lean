import Verif.Lemmas.Gradient
import Verif.Lemmas.VectorJenkins
import Mathlib.Analysis.Calculus.Deriv.Add

/-! # Gradients of clipped histories -/

namespace TMD

open Spec Filter Topology

noncomputable section

theorem clip_hasDerivAt {L x : ℝ} (hL : 0 ≤ L) (h : |x| ≠ L) :
    HasDerivAt (clip L) (if |x| > L then 0 else 1) x := by
  rcases lt_or_gt_of_ne h with h | h
  · rw [if_neg (not_lt.2 h.le)]
    refine (hasDerivAt_id x).congr_of_eventuallyEq ?_
    filter_upwards [(continuous_abs.tendsto x).eventually (gt_mem_nhds h)] with y hy
    exact clip_of_le hy.le
  · rw [if_pos h]
    rcases lt_abs.1 h with hx | hx
    · refine (hasDerivAt_const x L).congr_of_eventuallyEq ?_
      filter_upwards [lt_mem_nhds hx] with y hy
      exact clip_of_ge hL hy.le
    · refine (hasDerivAt_const x (-L)).congr_of_eventuallyEq ?_
      filter_upwards [gt_mem_nhds (show x < -L by linarith)] with y hy
      exact clip_of_le_neg hL (le_of_lt hy)

/-- One evaluation of the slider: gradient from the gradients of displacement, stored displacement and stored force. -/
theorem jenkins_step_grad {n : ℕ} {U : ℕ → ℝ} {kt Fs : ℝ} (hF : 0 ≤ Fs) {v p f : (ℕ → ℝ) → ℝ} {c : ℕ → ℝ}
    (s : JHist ℕ) (hv : HasGrad n v c U) (hp : HasGrad n p s.dup U) (hf : HasGrad n f s.dfp U)
    (ep : s.up = p U) (ef : s.fp = f U) (hne : |kt * (v U - p U) + f U| ≠ Fs) :
    HasGrad n (fun X => clip Fs (kt * (v X - p X) + f X)) (jenkinsStep kt Fs s (v U) c).1.dfp U := by
  have h := (((hv.sub hp).const_mul kt).add hf).comp_deriv (clip_hasDerivAt hF hne)
  refine h.congr fun j _ => ?_
  simp only [jenkinsStep, jenkinsLocal, ep, ef]
  split
  · ring
  · ring

/-- Gradient rows along a displacement sequence. -/
theorem jenkins_seq_grad {n : ℕ} {U : ℕ → ℝ} {kt Fs : ℝ} (hF : 0 ≤ Fs) (e0 : ℕ → ℝ) (v : ℕ → (ℕ → ℝ) → ℝ)
    (c : ℕ → ℕ → ℝ) (u0 : (ℕ → ℝ) → ℝ) (h0 : HasGrad n u0 e0 U) (i : ℕ) (hv : ∀ k ≤ i, HasGrad n (v k) (c k) U)
    (hne : ∀ k ≤ i, |sliderTrial kt (fun _ => Fs) (fun j => v j U) (u0 U) 0 k| ≠ Fs) :
    (stSeq (jenkinsOps kt Fs e0) (fun j => v j U) c ⟨u0 U, 0, e0, fun _ => 0⟩ i).fp
        = slider kt (fun _ => Fs) (fun j => v j U) (u0 U) 0 i ∧
    HasGrad n (fun X => slider kt (fun _ => Fs) (fun j => v j X) (u0 X) 0 i)
      (stSeq (jenkinsOps kt Fs e0) (fun j => v j U) c ⟨u0 U, 0, e0, fun _ => 0⟩ i).dfp U := by
  induction i with
  | zero =>
    refine ⟨jenkinsLocal_f hF, ?_⟩
    exact jenkins_step_grad hF ⟨u0 U, 0, e0, fun _ => 0⟩ (hv 0 le_rfl) h0 (HasGrad.const 0) rfl rfl (hne 0 le_rfl)
  | succ i ih =>
    obtain ⟨i1, i2⟩ := ih (fun k hk => hv k (by omega)) (fun k hk => hne k (by omega))
    have hu := stSeq_up kt Fs e0 (fun j => v j U) c ⟨u0 U, 0, e0, fun _ => 0⟩ i
    constructor
    · show (jenkinsLocal kt Fs _ _ _).f = _
      rw [jenkinsLocal_f hF, hu.1, i1]
      rfl
    · refine jenkins_step_grad hF _ (hv (i+1) le_rfl) ?_ i2 hu.1 i1 (hne (i+1) le_rfl)
      rw [hu.2]
      exact hv i (by omega)

end

end TMD
