import Verif.Model.IwanStatic
import Verif.Lemmas.Iwan
import Verif.Lemmas.Gradient
import Mathlib.Analysis.Calculus.Deriv.Add
import Mathlib.Analysis.Calculus.Deriv.Mul
import Mathlib.Analysis.Calculus.Deriv.Prod

/-!
# Property C152: static tangent stiffness of the slider elements
-/

namespace TMD

open Spec Finset

noncomputable section

/-- A slider away from its limit. -/
theorem slider_deriv {φ x : ℝ} (hφ : 0 ≤ φ) (hx : |x| ≠ φ) : HasDerivAt (iwanSlider φ) (iwanStuck φ x) x := by
  have hc : Continuous fun y : ℝ => |y| := continuous_abs
  rcases lt_or_gt_of_ne hx with h | h
  · have he : iwanSlider φ =ᶠ[nhds x] fun y => y := by
      filter_upwards [hc.continuousAt.eventually_lt continuousAt_const h] with y hy
      exact if_pos hy.le
    rw [iwanStuck, if_pos h.le]
    exact (hasDerivAt_id x).congr_of_eventuallyEq he
  · have hx0 : x ≠ 0 := fun h0 => by rw [h0, abs_zero] at h; linarith
    have hs : ∀ᶠ y in nhds x, Real.sign y = Real.sign x := by
      rcases lt_or_gt_of_ne hx0 with h0 | h0
      · filter_upwards [eventually_lt_nhds h0] with y hy
        rw [Real.sign_of_neg hy, Real.sign_of_neg h0]
      · filter_upwards [eventually_gt_nhds h0] with y hy
        rw [Real.sign_of_pos hy, Real.sign_of_pos h0]
    have he : iwanSlider φ =ᶠ[nhds x] fun _ => φ * Real.sign x := by
      filter_upwards [continuousAt_const.eventually_lt hc.continuousAt h, hs] with y hy hy2
      rw [iwanSlider, if_neg (not_le.2 hy), hy2]
    rw [iwanStuck, if_neg (not_le.2 h)]
    exact (hasDerivAt_const x _).congr_of_eventuallyEq he

theorem jenkins_slider (kt up fp u : ℝ) {Fs : ℝ} : (jenkinsLocal kt Fs up fp u).f = iwanSlider Fs (kt * (u - up) + fp) ∧
    (jenkinsLocal kt Fs up fp u).dfdu = iwanStuck Fs (kt * (u - up) + fp) * kt := by
  unfold jenkinsLocal iwanSlider iwanStuck
  by_cases h : |kt * (u - up) + fp| > Fs
  · have h' := not_le.2 h
    simp [h, h', mul_comm]
  · have h' := not_lt.1 h
    simp [h, h']

theorem hasGrad_vdot (n : ℕ) (Q x : ℕ → ℝ) : HasGrad n (fun X => vdot n Q X) Q x := (HasGrad.linear n Q).congr fun j hj => by simp [hj]

/-- C152: unless a slider is exactly at its limit, the Jacobian returned by the Iwan element is the derivative of the returned force, for every
stored history. -/
theorem C152_iwan {n : ℕ} {Q T X : ℕ → ℝ} {w : Iwan} {s : ℝ × (ℕ → ℝ)} (hφ : ∀ k ≤ w.nSliders, 0 ≤ w.phi k) (m : ℕ) (b : Bool)
    (hx : ∀ k ≤ w.nSliders, |∑ j ∈ range n, Q j * X j - s.1 + s.2 k| ≠ w.phi k) :
    HasJac m n (fun X => (iwanForce n Q T w s X b).1.1) (iwanForce n Q T w s X b).1.2 X := by
  intro i _
  have hd : HasDerivAt (fun u => (iwanInstant w s.1 s.2 u).1) (iwanInstant w s.1 s.2 (vdot n Q X)).2.1 (vdot n Q X) := by
    have := HasDerivAt.fun_sum (u := range (w.nSliders + 1)) (A := fun k u => iwanSlider (w.phi k) (u - s.1 + s.2 k) * w.weight k)
      (A' := fun k => iwanStuck (w.phi k) (vdot n Q X - s.1 + s.2 k) * w.weight k) (x := vdot n Q X) fun k hk => by
        have hk' : k ≤ w.nSliders := by have := mem_range.1 hk; omega
        have h1 : HasDerivAt (fun u => u - s.1 + s.2 k) 1 (vdot n Q X) := ((hasDerivAt_id (vdot n Q X)).sub_const s.1).add_const (s.2 k)
        have h2 := (slider_deriv (hφ k hk') (hx k hk')).comp (vdot n Q X) h1
        rw [mul_one] at h2
        exact h2.mul_const (w.weight k)
    exact this
  refine (((hasGrad_vdot n Q X).comp_deriv (φ := fun u => (iwanInstant w s.1 s.2 u).1) hd).const_mul (T i)).congr fun j _ => ?_
  simp only [iwanForce]
  ring

/-- C152: the same for the Jenkins element. -/
theorem C152_jenkins {j : Jenkins} {up fp : ℝ} (hh : j.hist = some (up, fp)) (hF : 0 ≤ j.Fs) {X : ℕ → ℝ} (hx : |j.kt * (∑ i ∈ range j.n, j.Q i * X i - up) + fp| ≠ j.Fs) (m : ℕ) (b : Bool) :
    ∃ (F : (ℕ → ℝ) → ℕ → ℝ) (J : ℕ → ℕ → ℝ) (j' : Jenkins), (∀ Y, ∃ J' j'', j.force Y b = .ok ((F Y, J'), j'')) ∧ j.force X b = .ok ((F X, J), j') ∧ HasJac m j.n F J X := by
  refine ⟨fun Y i => j.T i * (jenkinsLocal j.kt j.Fs up fp (vdot j.n j.Q Y)).f, fun i k => j.T i * (jenkinsLocal j.kt j.Fs up fp (vdot j.n j.Q X)).dfdu * j.Q k, _,
    fun Y => ⟨_, _, by simp only [Jenkins.force, hh]; rfl⟩, by simp only [Jenkins.force, hh]; rfl, fun i _ => ?_⟩
  have hd : HasDerivAt (fun u => (jenkinsLocal j.kt j.Fs up fp u).f) (jenkinsLocal j.kt j.Fs up fp (vdot j.n j.Q X)).dfdu (vdot j.n j.Q X) := by
    simp only [jenkins_slider]
    have h1 : HasDerivAt (fun u => j.kt * (u - up) + fp) j.kt (vdot j.n j.Q X) := by
      simpa using (((hasDerivAt_id (vdot j.n j.Q X)).sub_const up).const_mul j.kt).add_const fp
    exact (slider_deriv hF hx).comp (vdot j.n j.Q X) h1
  refine (((hasGrad_vdot j.n j.Q X).comp_deriv (φ := fun u => (jenkinsLocal j.kt j.Fs up fp u).f) hd).const_mul (j.T i)).congr fun k _ => ?_
  ring

/-- C152: the tangent stiffness of the Iwan element is not negative and not above the stiffness of all sliders together, so with `T` the transpose of
`Q` the Jacobian is symmetric and positive semidefinite. -/
theorem C152_bounds {n : ℕ} {Q X : ℕ → ℝ} {w : Iwan} {s : ℝ × (ℕ → ℝ)} (hw : ∀ k ≤ w.nSliders, 0 ≤ w.weight k) (b : Bool) (v : ℕ → ℝ) :
    0 ≤ ∑ i ∈ range n, ∑ j ∈ range n, v i * (iwanForce n Q Q w s X b).1.2 i j * v j ∧
      ∑ i ∈ range n, ∑ j ∈ range n, v i * (iwanForce n Q Q w s X b).1.2 i j * v j ≤ (∑ k ∈ range (w.nSliders + 1), w.weight k) * (∑ j ∈ range n, Q j * v j) ^ 2 ∧
      ∀ i j, (iwanForce n Q Q w s X b).1.2 i j = (iwanForce n Q Q w s X b).1.2 j i := by
  set d := (iwanInstant w s.1 s.2 (vdot n Q X)).2.1 with hd
  have hst : ∀ k, 0 ≤ iwanStuck (w.phi k) (vdot n Q X - s.1 + s.2 k) ∧ iwanStuck (w.phi k) (vdot n Q X - s.1 + s.2 k) ≤ 1 := fun k => by
    unfold iwanStuck
    split_ifs <;> simp
  have hd' : d = ∑ k ∈ range (w.nSliders + 1), iwanStuck (w.phi k) (vdot n Q X - s.1 + s.2 k) * w.weight k := rfl
  have h0 : 0 ≤ d := by
    rw [hd']
    exact sum_nonneg fun k hk => mul_nonneg (hst k).1 (hw k (by have := mem_range.1 hk; omega))
  have h1 : d ≤ ∑ k ∈ range (w.nSliders + 1), w.weight k := by
    rw [hd']
    refine sum_le_sum fun k hk => ?_
    have := mul_le_mul_of_nonneg_right (hst k).2 (hw k (by have := mem_range.1 hk; omega))
    rwa [one_mul] at this
  have hJ : ∀ i j, (iwanForce n Q Q w s X b).1.2 i j = Q i * d * Q j := fun _ _ => rfl
  have e : ∑ i ∈ range n, ∑ j ∈ range n, v i * (iwanForce n Q Q w s X b).1.2 i j * v j = d * (∑ j ∈ range n, Q j * v j) ^ 2 := by
    rw [sq, sum_mul_sum, mul_sum]
    refine sum_congr rfl fun i _ => ?_
    rw [mul_sum]
    exact sum_congr rfl fun j _ => by rw [hJ]; ring
  refine ⟨?_, ?_, fun i j => by rw [hJ, hJ]; ring⟩
  · rw [e]; positivity
  · rw [e]; exact mul_le_mul_of_nonneg_right h1 (sq_nonneg _)

/-- C152: with all sliders at their limits the tangent stiffness is zero; right after the history is stored it is the stiffness of all sliders,
whatever the history was, and the force does not jump. -/
theorem C152_states {n : ℕ} {Q T X : ℕ → ℝ} {w : Iwan} {s : ℝ × (ℕ → ℝ)} (hφ : ∀ k ≤ w.nSliders, 0 ≤ w.phi k) (b : Bool) :
    ((∀ k ≤ w.nSliders, w.phi k < |∑ j ∈ range n, Q j * X j - s.1 + s.2 k|) → ∀ i j, (iwanForce n Q T w s X b).1.2 i j = 0) ∧
      (∀ i j, (iwanForce n Q T w (iwanForce n Q T w s X true).2 X b).1.2 i j = T i * (∑ k ∈ range (w.nSliders + 1), w.weight k) * Q j) ∧
      (iwanForce n Q T w (iwanForce n Q T w s X true).2 X b).1.1 = (iwanForce n Q T w s X b).1.1 := by
  have hle : ∀ k ∈ range (w.nSliders + 1), |iwanSlider (w.phi k) (vdot n Q X - s.1 + s.2 k)| ≤ w.phi k := fun k hk => by
    have := hφ k (by have := mem_range.1 hk; omega)
    unfold iwanSlider
    split_ifs with h
    · exact h
    · rw [abs_mul, abs_of_nonneg this]
      have h1 : |Real.sign (vdot n Q X - s.1 + s.2 k)| ≤ 1 := by
        rcases Real.sign_apply_eq (vdot n Q X - s.1 + s.2 k) with e | e | e <;> rw [e] <;> simp
      simpa using mul_le_mul_of_nonneg_left h1 this
  refine ⟨fun h i j => ?_, fun i j => ?_, funext fun i => ?_⟩
  · have : (iwanInstant w s.1 s.2 (vdot n Q X)).2.1 = 0 := by
      refine sum_eq_zero (s := range (w.nSliders + 1)) (f := fun k => iwanStuck (w.phi k) (vdot n Q X - s.1 + s.2 k) * w.weight k) fun k hk => ?_
      show iwanStuck (w.phi k) (∑ j ∈ range n, Q j * X j - s.1 + s.2 k) * w.weight k = 0
      rw [iwanStuck, if_neg (not_le.2 (h k (by have := mem_range.1 hk; omega))), zero_mul]
    simp only [iwanForce, this]
    ring
  · simp only [iwanForce, iwanInstant, if_true, sub_self, zero_add]
    congr 2
    refine sum_congr rfl fun k hk => ?_
    rw [iwanStuck, if_pos (hle k hk), one_mul]
  · simp only [iwanForce, iwanInstant, if_true, sub_self, zero_add]
    congr 1
    refine sum_congr rfl fun k hk => ?_
    conv_lhs => rw [iwanSlider, if_pos (hle k hk)]

/-- Two sliders with limits 1 and 3 and weights 2 and 5, never loaded: at the displacement 2 the first slides, the tangent stiffness is 5; after
storing the history it is 7. -/
example :
    let w : Iwan := ⟨1, 1, 0, 0, 1, 3, 1, 1, fun k => if k = 0 then 1 else 3, fun k => if k = 0 then 2 else 5⟩
    let F := fun s X b => iwanForce 1 (fun _ => 1) (fun _ => 1) w s X b
    HasJac 1 1 (fun X => (F (0, fun _ => 0) X false).1.1) (fun _ _ => 5) (fun _ => 2) ∧ (F (F (0, fun _ => 0) (fun _ => 2) true).2 (fun _ => 2) false).1.2 0 0 = 7 := by
  intro w F
  constructor
  · have := C152_iwan (n := 1) (Q := fun _ => 1) (T := fun _ => 1) (X := fun _ => 2) (w := w) (s := (0, fun _ => 0)) (fun k _ => by simp only [w]; split_ifs <;> norm_num) 1 false (fun k hk => by
      simp only [w]
      split_ifs <;> norm_num)
    convert this using 2
    simp [iwanForce, iwanInstant, iwanStuck, w, sum_range_succ, vdot]
    norm_num
  · rw [(C152_states (n := 1) (Q := fun _ => 1) (T := fun _ => 1) (X := fun _ => 2) (w := w) (s := (0, fun _ => 0)) (fun k _ => by simp only [w]; split_ifs <;> norm_num) false).2.1 0 0]
    simp [w, sum_range_succ]
    norm_num

end

end TMD
