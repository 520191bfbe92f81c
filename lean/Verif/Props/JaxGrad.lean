import Verif.Lemmas.JaxGradRest
import Mathlib.Tactic.IntervalCases

/-!
# Property C105: the automatic derivatives of the JAX friction elements

The JAX elements return, besides the harmonic forces, the Jacobian that `jax.jacfwd` finds. It should be the derivative
of the forces. It is wherever no elastic prediction lies at a friction limit and no contact is just touching. It is not
when the friction limit is zero and the element is at rest there: the force is zero in a whole neighbourhood, but both
`minimum` and `maximum` meet equal arguments and each passes on half of the tangent.
-/

namespace TMD

open Spec Finset Filter Topology

noncomputable section

/-! ## Specification -/

/-- Where the slider of local DOF `d` starts: at the coefficient of the first block for `None`, else at `u0`. -/
def sliderStart (N : ℕ) (Q : ℕ → ℕ → ℝ) (u0 : EdfU0) (U : ℕ → ℝ) (d : ℕ) : ℝ :=
  match u0 with
  | .none => ∑ e ∈ range N, Q d e * U e
  | .scalar x => x
  | .array v => v d

/-- Samples of the local motion. -/
def dofSamples (N : ℕ) (Q : ℕ → ℕ → ℝ) (h : List ℕ) (Nt : ℕ) (U : ℕ → ℝ) (d j : ℕ) : ℝ :=
  localMotion N Q h U d (2 * Real.pi * j / Nt)

/-- Compression of a contact spring. -/
def pressed (kn gap x : ℝ) : ℝ := max (kn * (x - gap)) 0

/-- In two cycles no elastic prediction lies exactly at the friction limit `L`. -/
def OffFriction (kt : ℝ) (L : ℕ → ℝ) (Nt : ℕ) (u : ℕ → ℝ) (z : ℝ) : Prop :=
  ∀ k < 2 * Nt, |sliderTrial kt (periodic Nt L) (periodic Nt u) z 0 k| ≠ L (k % Nt)

/-! ## Lemmas -/

theorem slider_start (kt : ℝ) (L u : ℕ → ℝ) (b z : ℝ) (k : ℕ) :
    slider kt L u b (kt * (b - z)) k = slider kt L u z 0 k :=
  slider_congr kt (fun _ _ => rfl) (fun _ _ => rfl) (by ring)

theorem sliderTrial_start (kt : ℝ) (L u : ℕ → ℝ) (b z : ℝ) (k : ℕ) :
    sliderTrial kt L u b (kt * (b - z)) k = sliderTrial kt L u z 0 k := by
  cases k with
  | zero => simp only [sliderTrial]; ring
  | succ k => simp only [sliderTrial]; rw [slider_start]

theorem gStart_tracks {n N m : ℕ} (Q : ℕ → ℕ → ℝ) (u0 : EdfU0) {d : ℕ} (hd : d < m) (U : ℕ → ℝ) :
    Tracks (n * N) (n * m) (kronEye m N Q) U (fun U => sliderStart N Q u0 U d)
      (gStart dualNum u0 (dualStart N m Q U) d) := by
  cases u0 with
  | none => exact tracks_fun (dualStart_tracks Q hd U) fun U => by simp [sliderStart, unlOf, matMul]
  | scalar x => exact tracks_const x
  | array v => exact tracks_const (v d)

theorem gStart_v (u0 : EdfU0) (z : ℕ → Dual) (d : ℕ) :
    (gStart dualNum u0 z d).v = gStart realNum u0 (fun d => (z d).v) d := by
  cases u0 <;> rfl

theorem gStart_last {N m n : ℕ} (Q : ℕ → ℕ → ℝ) (u0 : EdfU0) (U : ℕ → ℝ) (hn : 0 < n) {d : ℕ} (hd : d < m) :
    (gStart dualNum u0 (dualStart N m Q U) d).d (n * m) = 0 := by
  cases u0 with
  | none => exact seed_last hn hd
  | scalar x => rfl
  | array v => rfl

theorem gStart_real (N : ℕ) (Q : ℕ → ℕ → ℝ) (u0 : EdfU0) (U : ℕ → ℝ) (d : ℕ) :
    gStart realNum u0 (unlOf N Q U 0) d = sliderStart N Q u0 U d := by
  cases u0 <;> simp [gStart, sliderStart, unlOf, matMul, realNum]

section main

variable {h : List ℕ} (hA : Admissible h) {Nt : ℕ} (hNt : ∀ k ∈ h, 2*k + 1 < Nt) (heven : Even Nt)
  (hh : 1 < numCoeff h)

include hA hNt in
theorem samples_pos : 0 < Nt := by
  obtain ⟨k, hk⟩ := List.exists_mem_of_ne_nil h hA.ne
  have := hNt k hk
  omega

include hA hNt heven hh

/-- C105, Jenkins element: `aft` returns the force of the element and, wherever no prediction is at the slip limit, its
true derivatives. -/
theorem C105_jenkins_partial (N : ℕ) (Q T : ℕ → ℕ → ℝ) (kt Fs : ℝ) (hF : 0 ≤ Fs) (u0 : EdfU0) :
    ∃ out : (ℕ → ℝ) → AftOut, (∀ U, jaxJenkinsAft N Q T kt Fs u0 U h Nt = .ok (out U)) ∧
      (∀ U w, (PForce.jaxJenkins N Q T kt Fs u0).aftF U w h Nt = .ok (out U).F) ∧
      ∀ Z U, U = sl 0 (numCoeff h * N) Z →
        OffFriction kt (fun _ => Fs) Nt (dofSamples N Q h Nt U 0) (sliderStart N Q u0 U 0) →
        JointTrue (fun U _ => out U) (numCoeff h * N) Z := by
  have hN := samples_pos hA hNt
  obtain ⟨cst, c3, out, o1, o2, o3⟩ := jaxGrad_joint hA hNt heven hh N 1 Q T
    (fun Nt u z j _ => gJenkinsHistory dualNum Nt (fun j => u j 0) kt Fs (gStart dualNum u0 z 0) j)
    (fun n u z j _ => jaxJenkinsHistory n (fun j => u j 0) kt Fs (gStart realNum u0 z 0) j)
    (fun n u z j d => by rw [gJenkins_v, gStart_v])
  refine ⟨out, o1, fun U w => ?_, fun Z U hU hoff => o3 Z U hU (fun j hj d hd => ?_) (fun j hj d hd => ?_)⟩
  · rw [← o2 U]
    cases u0 <;> rfl
  · rw [gJenkins_slider dualNum Nt hN _ _ _ _ j hj]
    have hs := fun i (_ : i ≤ Nt + j) => dualSamples_tracks (Nt := Nt) (m := 1) Q (j := i % Nt) (d := 0) one_pos
      (fun U => c3 N Q U 0 (i % Nt)) U
    have hl := dualSamples_tracks (Nt := Nt) (m := 1) Q (j := Nt - 1) (d := 0) one_pos
      (fun U => c3 N Q U 0 (Nt - 1)) U
    refine tracks_fun (gSlider_tracks kt (L := fun _ _ => Fs) (Nt + j) (fun _ _ => tracks_const Fs)
      (fun _ _ => tracks_const (-Fs)) (fun _ _ => hF) (fun _ _ _ _ => ⟨rfl, rfl⟩)
      (u := fun i U => dofSamples N Q h Nt U 0 (i % Nt)) hs hl
      (tracks_mul (tracks_const kt) (tracks_sub hl (gStart_tracks Q u0 one_pos U))) ?_) fun U => ?_
    · intro i hi
      rw [sliderTrial_start]
      exact hoff i (by omega)
    · have := gJenkins_slider realNum Nt hN (dofSamples N Q h Nt U 0) kt Fs (gStart realNum u0 (unlOf N Q U 0) 0) j hj
      rw [gStart_real] at this
      rw [gStart_real]
      refine Eq.trans (Eq.trans rfl this) ?_
      exact gSlider_real kt (fun _ => Fs) _ _ _ _
  · rw [gJenkins_slider dualNum Nt hN _ _ _ _ j hj]
    have hs := fun i => dualSamples_last (h := h) (Nt := Nt) (N := N) (m := 1) Q cst U i one_pos
    refine gSlider_zero_tangent kt _ (fun _ => rfl) (fun _ => rfl) (fun i => hs (i % Nt)) (hs _) ?_
    have hg := gStart_last (N := N) (m := 1) Q u0 U (by omega : 0 < numCoeff h) one_pos
    have hs' := hs (Nt - 1)
    simp only [dualNum] at hg ⊢
    rw [hs', hg]
    ring

/-- The elastic dry friction elements with tangential DOFs `tan` and normal DOF `nrm d` of each. -/
theorem edf_joint (tan : ℕ → Prop) [DecidablePred tan] (nrm : ℕ → ℕ) (m : ℕ)
    (hnrm : ∀ d, tan d → ¬ tan (nrm d)) (hm : ∀ d < m, tan d → nrm d < m) (N : ℕ) (Q T : ℕ → ℕ → ℝ)
    (kt kn mu gap : ℝ) (hkn : 0 < kn) (hmu : 0 ≤ mu) (u0 : EdfU0) :
    ∃ out : (ℕ → ℝ) → AftOut, (∀ U, jaxAftGrad N m Q T (fun Nt u z =>
        gEdfHistory dualNum tan nrm id Nt u kt kn mu gap (gStart dualNum u0 z)) U h Nt = .ok (out U)) ∧
      (∀ U, jaxAft N m Q T (fun u z => gEdfHistory realNum tan nrm id u.rows u.val kt kn mu gap (gStart realNum u0 z)) U h Nt
        = .ok (out U).F) ∧
      ∀ Z U, U = sl 0 (numCoeff h * N) Z →
        (∀ d < m, ¬ tan d → ∀ j < Nt, dofSamples N Q h Nt U d j ≠ gap) →
        (∀ d < m, tan d → OffFriction kt (fun j => mu * pressed kn gap (dofSamples N Q h Nt U (nrm d) j)) Nt
          (dofSamples N Q h Nt U d) (sliderStart N Q u0 U d)) →
        JointTrue (fun U _ => out U) (numCoeff h * N) Z := by
  have hN := samples_pos hA hNt
  obtain ⟨cst, c3, out, o1, o2, o3⟩ := jaxGrad_joint hA hNt heven hh N m Q T
    (fun Nt u z => gEdfHistory dualNum tan nrm id Nt u kt kn mu gap (gStart dualNum u0 z))
    (fun Nt u z => gEdfHistory realNum tan nrm id Nt u kt kn mu gap (gStart realNum u0 z))
    (fun n u z j d => by
      rw [gEdf_v]
      congr 1
      funext d
      exact gStart_v u0 z d)
  refine ⟨out, o1, o2, fun Z U hU htouch hoff => o3 Z U hU (fun j hj d hd => ?_) (fun j hj d hd => ?_)⟩
  · have hs : ∀ i, ∀ d < m, _ := fun i d hd => dualSamples_tracks (Nt := Nt) (m := m) Q (j := i) (d := d) hd
      (fun U => c3 N Q U d i) U
    by_cases hd' : tan d
    · have hnd := hm d hd hd'
      have hlt : ∀ i, i % Nt < Nt := fun i => Nat.mod_lt _ hN
      have hn := fun i => gNormal_tracks hkn.ne' (hs (i % Nt) (nrm d) hnd) (htouch _ hnd (hnrm d hd') _ (hlt i))
      have hpr : ∀ x, edfNormal kn gap x = pressed kn gap x := fun x => by unfold edfNormal pressed; rw [mul_comm]
      rw [gEdf_slider dualNum tan nrm id hnrm Nt hN _ _ _ _ _ _ j d hj hd']
      refine tracks_fun (gSlider_tracks kt
        (L := fun i U => mu * edfNormal kn gap (dofSamples N Q h Nt U (nrm d) (i % Nt))) (Nt + j)
        (fun i _ => tracks_mul (tracks_const mu) (hn i))
        (fun i _ => tracks_fun (tracks_mul (tracks_const (-mu)) (hn i)) fun U => (neg_mul _ _).symm)
        (fun i U => mul_nonneg hmu (le_max_right _ _)) (fun i _ h0 c => ?_)
        (u := fun i U => dofSamples N Q h Nt U d (i % Nt)) (fun i _ => hs (i % Nt) d hd) (hs (Nt - 1) d hd)
        (tracks_mul (tracks_const kt) (tracks_sub (hs (Nt - 1) d hd) (gStart_tracks Q u0 hd U))) ?_) fun U => ?_
      · rcases mul_eq_zero.1 h0 with h0 | h0
        · subst h0
          simp [dualNum, periodic]
        · have hlt' : (dofSamples N Q h Nt U (nrm d) (i % Nt) - gap) * kn < 0 := by
            refine lt_of_le_of_ne ?_ ?_
            · rw [← h0]; exact le_max_left _ _
            · exact mul_ne_zero (sub_ne_zero.2 (htouch _ hnd (hnrm d hd') _ (hlt i))) hkn.ne'
          have hz : gNormal dualNum kn gap (dualSamples N m Q h Nt cst U (i % Nt) (nrm d)) = dualNum.const 0 :=
            dual_max_lt hlt'
          simp only [periodic, hz]
          simp [dualNum]
      · intro i hi
        rw [sliderTrial_start]
        simp only [hpr]
        exact hoff d hd hd' i (by omega)
      · have := gEdf_slider realNum tan nrm id hnrm Nt hN (fun j d => dofSamples N Q h Nt U d j) kt kn mu gap
          (gStart realNum u0 (unlOf N Q U 0)) j d hj hd'
        rw [id, gStart_real] at this
        refine Eq.trans (Eq.trans rfl this) ?_
        refine Eq.trans ?_ (gSlider_real kt
          (fun i => mu * edfNormal kn gap (dofSamples N Q h Nt U (nrm d) (i % Nt))) _ _ _ _)
        exact gSlider_congr realNum kt (fun _ _ => rfl) (fun _ _ => neg_mul _ _) (fun _ _ => rfl)
    · rw [gEdf_normal dualNum tan nrm id Nt _ _ _ _ _ _ j d hd']
      refine tracks_fun (gNormal_tracks hkn.ne' (hs j d hd) (htouch d hd hd' j hj)) fun U => ?_
      exact gEdf_normal realNum tan nrm id Nt _ _ _ _ _ _ j d hd'
  · have hs := fun i d (hd : d < m) => dualSamples_last (h := h) (Nt := Nt) (N := N) Q cst U i hd
    by_cases hd' : tan d
    · rw [gEdf_slider dualNum tan nrm id hnrm Nt hN _ _ _ _ _ _ j d hj hd']
      have hg := gStart_last (N := N) Q u0 U (by omega : 0 < numCoeff h) hd
      have hn := fun i => gNormal_zero_tangent kn gap (hs i _ (hm d hd hd'))
      refine gSlider_zero_tangent kt _ (fun i => ?_) (fun i => ?_) (fun i => hs (i % Nt) d hd) (hs _ d hd) ?_
      · have := hn (i % Nt)
        simp only [dualNum, periodic] at this ⊢
        rw [this]
        ring
      · have := hn (i % Nt)
        simp only [dualNum, periodic] at this ⊢
        rw [this]
        ring
      · have := hs (Nt - 1) d hd
        simp only [dualNum, id] at hg ⊢
        rw [this, hg]
        ring
    · rw [gEdf_normal dualNum tan nrm id Nt _ _ _ _ _ _ j d hd']
      exact gNormal_zero_tangent kn gap (hs j d hd)

/-- C105, `ElasticDryFriction2D` with `ne` elements (DOFs `2 e` tangential, `2 e + 1` normal). -/
theorem C105_friction_2d_partial (ne N : ℕ) (Q T : ℕ → ℕ → ℝ) (kt kn mu gap : ℝ) (hkn : 0 < kn) (hmu : 0 ≤ mu)
    (u0 : EdfU0) :
    ∃ out : (ℕ → ℝ) → AftOut, (∀ U, edf2AftGrad N (2 * ne) Q T kt kn mu gap u0 U h Nt = .ok (out U)) ∧
      (∀ U w, (PForce.edf2 N (2 * ne) Q T kt kn mu gap u0).aftF U w h Nt = .ok (out U).F) ∧
      ∀ Z U, U = sl 0 (numCoeff h * N) Z →
        (∀ e < ne, ∀ j < Nt, dofSamples N Q h Nt U (2 * e + 1) j ≠ gap) →
        (∀ e < ne, OffFriction kt (fun j => mu * pressed kn gap (dofSamples N Q h Nt U (2 * e + 1) j)) Nt
          (dofSamples N Q h Nt U (2 * e)) (sliderStart N Q u0 U (2 * e))) →
        JointTrue (fun U _ => out U) (numCoeff h * N) Z := by
  obtain ⟨out, o1, o2, o3⟩ := edf_joint hA hNt heven hh (fun d => d % 2 = 0) (fun d => d + 1) (2 * ne)
    (fun d hd => by omega) (fun d hd hd' => by omega) N Q T kt kn mu gap hkn hmu u0
  refine ⟨out, o1, fun U w => ?_, fun Z U hU h1 h2 => o3 Z U hU (fun d hd hd' j hj => ?_) (fun d hd hd' => ?_)⟩
  · rw [← o2 U]
    simp only [gEdf2_real]
    rfl
  · have := h1 (d / 2) (by omega) j hj
    rwa [show 2 * (d / 2) + 1 = d by omega] at this
  · have := h2 (d / 2) (by omega)
    rwa [show 2 * (d / 2) = d by omega] at this

/-- C105, `ElasticDryFriction3D` with `ne` elements (DOFs `3 e`, `3 e + 1` tangential, `3 e + 2` normal). -/
theorem C105_friction_3d_partial (ne N : ℕ) (Q T : ℕ → ℕ → ℝ) (kt kn mu gap : ℝ) (hkn : 0 < kn) (hmu : 0 ≤ mu)
    (u0 : EdfU0) :
    ∃ out : (ℕ → ℝ) → AftOut, (∀ U, edf3AftGrad N (3 * ne) Q T kt kn mu gap u0 U h Nt = .ok (out U)) ∧
      (∀ U w, (PForce.edf3 N (3 * ne) Q T kt kn mu gap u0).aftF U w h Nt = .ok (out U).F) ∧
      ∀ Z U, U = sl 0 (numCoeff h * N) Z →
        (∀ e < ne, ∀ j < Nt, dofSamples N Q h Nt U (3 * e + 2) j ≠ gap) →
        (∀ e < ne, ∀ s < 2, OffFriction kt (fun j => mu * pressed kn gap (dofSamples N Q h Nt U (3 * e + 2) j)) Nt
          (dofSamples N Q h Nt U (3 * e + s)) (sliderStart N Q u0 U (3 * e + s))) →
        JointTrue (fun U _ => out U) (numCoeff h * N) Z := by
  have hn3 : ∀ d, d % 3 ≠ 2 → edf3Normal d = 3 * (d / 3) + 2 := fun d hd => by
    unfold edf3Normal
    split <;> omega
  obtain ⟨out, o1, o2, o3⟩ := edf_joint hA hNt heven hh (fun d => d % 3 ≠ 2) edf3Normal (3 * ne)
    (fun d hd => by rw [hn3 d hd]; omega) (fun d hd hd' => by rw [hn3 d hd']; omega) N Q T kt kn mu gap hkn hmu u0
  refine ⟨out, o1, fun U w => ?_, fun Z U hU h1 h2 => o3 Z U hU (fun d hd hd' j hj => ?_) (fun d hd hd' => ?_)⟩
  · rw [← o2 U]
    simp only [gEdf3_real]
    rfl
  · have := h1 (d / 3) (by omega) j hj
    rwa [show 3 * (d / 3) + 2 = d by omega] at this
  · have := h2 (d / 3) (by omega) (d % 3) (by omega)
    rw [hn3 d hd']
    rwa [show 3 * (d / 3) + d % 3 = d by omega] at this

end main

/-! ## Static evaluation -/

/-- The two `where` of the static force: true derivatives away from the limits and, unlike for `minimum` and `maximum`,
also where the limit is zero nearby. -/
theorem tracks_where {n K : ℕ} {M : ℕ → ℕ → ℝ} {X : ℕ → ℝ} {P L : (ℕ → ℝ) → ℝ} {p hi lo : Dual}
    (hp : Tracks n K M X P p) (hhi : Tracks n K M X L hi) (hlo : Tracks n K M X (fun X => -L X) lo) (hL : ∀ X, 0 ≤ L X)
    (h : 0 < L X ∧ |P X| ≠ L X ∨ L X = 0 ∧ (∀ k, lo.d k = 0) ∧ ∀ᶠ v in 𝓝 (0 : Fin n → ℝ), L (fun i => X i + ext v i) = 0) :
    Tracks n K M X (fun X => clip (L X) (P X)) (dualNum.sel lo (dualNum.sel p hi p hi) (dualNum.sel p hi p hi) lo) := by
  have hcl : ∀ x : ℝ, clip 0 x = 0 := fun x => by unfold clip; simp
  rcases h with ⟨h0, h1⟩ | ⟨h0, h1, h2⟩
  · have hne : P X ≠ L X := fun e => h1 (by rw [e, abs_of_nonneg (hL X)])
    have hne' : P X ≠ -L X := fun e => h1 (by rw [e, abs_neg, abs_of_nonneg (hL X)])
    have e1 : dualNum.sel p hi p hi = dualNum.min p hi := by
      rcases lt_or_gt_of_ne hne with hlt | hgt
      · have : p.v < hi.v := by rw [← hp.1, ← hhi.1]; exact hlt
        rw [dual_min_lt this]
        simp only [dualNum, if_pos this]
      · have : hi.v < p.v := by rw [← hp.1, ← hhi.1]; exact hgt
        rw [dual_min_gt this]
        simp only [dualNum, if_neg this.not_gt]
    have e2 : ∀ f : Dual, f.v ≠ lo.v → dualNum.sel lo f f lo = dualNum.max f lo := by
      intro f hf
      rcases lt_or_gt_of_ne hf with hlt | hgt
      · rw [dual_max_lt hlt]
        simp only [dualNum, if_neg hlt.not_gt]
      · rw [dual_max_gt hgt]
        simp only [dualNum, if_pos hgt]
    rw [e1, e2]
    · exact tracks_fun (tracks_clip hp hhi hlo hL (fun e => absurd e h0.ne') h1) fun X => by rw [clip, max_comm]
    · rw [← (tracks_min hp hhi hne).1, ← hlo.1]
      beta_reduce
      rcases lt_or_gt_of_ne hne with hlt | hgt
      · rw [min_eq_left hlt.le]; exact hne'
      · rw [min_eq_right hgt.le]; intro h'; linarith
  · have hv : lo.v = 0 := by rw [← hlo.1]; beta_reduce; rw [h0, neg_zero]
    have hv' : hi.v = 0 := by rw [← hhi.1, h0]
    have hsel : dualNum.sel lo (dualNum.sel p hi p hi) (dualNum.sel p hi p hi) lo = lo := by
      by_cases hlt : p.v < 0
      · simp [dualNum, hv, hv', hlt, hlt.not_gt]
      · simp [dualNum, hv, hv', hlt]
    rw [hsel]
    have hc : lo = dualNum.const 0 := by
      ext k
      · exact hv
      · exact h1 k
    rw [hc]
    refine tracks_near (tracks_const 0) ?_ (h2.mono fun v hv => ?_)
    · rw [h0, hcl]
    · rw [hv, hcl]

theorem gEdfStatic_v (tan : ℕ → Prop) [DecidablePred tan] (nrm pos : ℕ → ℕ) (unl : ℕ → Dual) (up : ℕ → ℝ)
    (kt kn mu gap : ℝ) (d : ℕ) : (gEdfStatic dualNum tan nrm pos unl up kt kn mu gap d).v
      = gEdfStatic realNum tan nrm pos (fun d => (unl d).v) up kt kn mu gap d := by
  have hs : ∀ x y a b : Dual, (dualNum.sel x y a b).v = realNum.sel x.v y.v a.v b.v := fun x y a b => by
    simp only [dualNum, realNum]
    split <;> rfl
  unfold gEdfStatic
  split
  · simp only [hs]
    rfl
  · rfl

theorem edf_static (tan : ℕ → Prop) [DecidablePred tan] (nrm pos : ℕ → ℕ) (m : ℕ) (hnrm : ∀ d, tan d → ¬ tan (nrm d))
    (hm : ∀ d < m, tan d → nrm d < m) (N : ℕ) (Q T : ℕ → ℕ → ℝ) (up : ℕ → ℝ) (kt kn mu gap : ℝ) (hkn : 0 < kn)
    (hmu : 0 ≤ mu) (X : ℕ → ℝ) (htouch : ∀ d < m, ¬ tan d → matVec N Q X d ≠ gap)
    (hoff : ∀ d < m, tan d → mu * pressed kn gap (matVec N Q X (nrm d)) = 0 ∨
      |kt * (matVec N Q X d - up (pos d))| ≠ mu * pressed kn gap (matVec N Q X (nrm d))) :
    HasJac N N (fun X => (edfForceGrad tan nrm pos N m Q T up kt kn mu gap X).1)
      (edfForceGrad tan nrm pos N m Q T up kt kn mu gap X).2 X := by
  have hpr : ∀ x, edfNormal kn gap x = pressed kn gap x := fun x => by unfold edfNormal pressed; rw [mul_comm]
  have hu : ∀ d < m, Tracks N m Q X (fun X => matVec N Q X d) ⟨matVec N Q X d, fun k => eye k d⟩ := fun d hd =>
    ⟨rfl, (hasGrad_matVec N Q d X).congr fun q _ => by
      rw [sum_eq_single_of_mem d (mem_range.2 hd)]
      · simp [eye]
      · intro k _ hk
        simp [eye, hk]⟩
  have hf : ∀ d < m, Tracks N m Q X
      (fun X => (gEdfStatic dualNum tan nrm pos (fun d => ⟨matVec N Q X d, fun k => eye k d⟩) up kt kn mu gap d).v)
      (gEdfStatic dualNum tan nrm pos (fun d => ⟨matVec N Q X d, fun k => eye k d⟩) up kt kn mu gap d) := by
    intro d hd
    by_cases hd' : tan d
    · have hnd := hm d hd hd'
      have hto := htouch _ hnd (hnrm d hd')
      have hn := gNormal_tracks hkn.ne' (hu _ hnd) hto
      have hw := tracks_where (tracks_mul (tracks_const kt) (tracks_sub (hu d hd) (tracks_const (up (pos d)))))
        (tracks_mul (tracks_const mu) hn)
        (tracks_fun (G := fun X => -(mu * edfNormal kn gap (matVec N Q X (nrm d))))
          (tracks_mul (tracks_const (-mu)) hn) fun X => (neg_mul _ _).symm)
        (fun X => mul_nonneg hmu (le_max_right _ _)) (by
          by_cases h0 : mu * edfNormal kn gap (matVec N Q X (nrm d)) = 0
          · right
            refine ⟨h0, ?_⟩
            rcases mul_eq_zero.1 h0 with h1 | h1
            · subst h1
              exact ⟨fun k => by simp [dualNum], Eventually.of_forall fun v => zero_mul _⟩
            · have hlt : (matVec N Q X (nrm d) - gap) * kn < 0 := by
                refine lt_of_le_of_ne ?_ (mul_ne_zero (sub_ne_zero.2 hto) hkn.ne')
                rw [← h1]; exact le_max_left _ _
              have hz : gNormal dualNum kn gap ⟨matVec N Q X (nrm d), fun k => eye k (nrm d)⟩ = dualNum.const 0 :=
                dual_max_lt hlt
              refine ⟨fun k => by rw [hz]; simp [dualNum], ?_⟩
              have hlt' : matVec N Q X (nrm d) < gap := by nlinarith
              refine (tracks_lt (hu _ hnd) (tracks_const gap) hlt').mono fun v hv => ?_
              rw [edfNormal, max_eq_right (by nlinarith), mul_zero]
          · left
            refine ⟨lt_of_le_of_ne (mul_nonneg hmu (le_max_right _ _)) (Ne.symm h0), ?_⟩
            have := hoff d hd hd'
            simp only [← hpr] at this
            exact this.resolve_left h0)
      simp only [gEdfStatic, if_pos hd']
      refine tracks_fun hw fun X => ?_
      have := gEdfStatic_v tan nrm pos (fun d => ⟨matVec N Q X d, fun k => eye k d⟩) up kt kn mu gap d
      simp only [gEdfStatic, if_pos hd'] at this
      rw [this, ← where_clip]
      simp only [← neg_mul]
      rfl
    · simp only [gEdfStatic, if_neg hd']
      exact tracks_fun (gNormal_tracks hkn.ne' (hu d hd) (htouch d hd hd')) fun X => rfl
  intro i _
  refine (HasGrad.sum (s := range m) fun d hd => (hf d (mem_range.1 hd)).2.const_mul (T i d)).congr fun j _ => ?_
  simp only [edfForceGrad, matMul, mul_sum, sum_mul]
  rw [sum_comm]
  exact sum_congr rfl fun k _ => sum_congr rfl fun d _ => by ring

/-- C105, static evaluation in 2D: force and true derivative. Elements with limit zero (separated, or without friction)
need no condition on the tangential motion. -/
theorem C105_static_2d (ne N : ℕ) (Q T : ℕ → ℕ → ℝ) (up fp : ℕ → ℝ) (kt kn mu gap : ℝ) (hkn : 0 < kn) (hmu : 0 ≤ mu) :
    (∀ X, (edf2ForceGrad N (2 * ne) Q T up kt kn mu gap X).1
      = matVec (2 * ne) T (edf2Static (matVec N Q X) up fp kt kn mu gap)) ∧
    ∀ X u, u = matVec N Q X → (∀ e < ne, u (2 * e + 1) ≠ gap) →
      (∀ e < ne, mu * pressed kn gap (u (2 * e + 1)) = 0 ∨ |kt * (u (2 * e) - up e)| ≠ mu * pressed kn gap (u (2 * e + 1))) →
      HasJac N N (fun X => (edf2ForceGrad N (2 * ne) Q T up kt kn mu gap X).1)
        (edf2ForceGrad N (2 * ne) Q T up kt kn mu gap X).2 X := by
  refine ⟨fun X => ?_, fun X u hu h1 h2 => edf_static _ _ _ (2 * ne) (fun d hd => by omega) (fun d hd hd' => by omega) N Q T
    up kt kn mu gap hkn hmu X (fun d hd hd' => ?_) (fun d hd hd' => ?_)⟩
  · simp only [edf2ForceGrad, edfForceGrad, gEdfStatic_v]
    exact congrArg (matVec _ T) (gEdf2_static _ up fp kt kn mu gap)
  · subst hu
    have := h1 (d / 2) (by omega)
    rwa [show 2 * (d / 2) + 1 = d by omega] at this
  · subst hu
    have := h2 (d / 2) (by omega)
    rwa [show 2 * (d / 2) = d by omega] at this

/-- C105, static evaluation in 3D. -/
theorem C105_static_3d (ne N : ℕ) (Q T : ℕ → ℕ → ℝ) (up fp : ℕ → ℝ) (kt kn mu gap : ℝ) (hkn : 0 < kn) (hmu : 0 ≤ mu) :
    (∀ X, (edf3ForceGrad N (3 * ne) Q T up kt kn mu gap X).1
      = matVec (3 * ne) T (edf3Static (matVec N Q X) up fp kt kn mu gap)) ∧
    ∀ X u, u = matVec N Q X → (∀ e < ne, u (3 * e + 2) ≠ gap) →
      (∀ e < ne, ∀ s < 2, mu * pressed kn gap (u (3 * e + 2)) = 0 ∨
        |kt * (u (3 * e + s) - up (2 * e + s))| ≠ mu * pressed kn gap (u (3 * e + 2))) →
      HasJac N N (fun X => (edf3ForceGrad N (3 * ne) Q T up kt kn mu gap X).1)
        (edf3ForceGrad N (3 * ne) Q T up kt kn mu gap X).2 X := by
  have hn3 : ∀ d, d % 3 ≠ 2 → edf3Normal d = 3 * (d / 3) + 2 := fun d hd => by
    unfold edf3Normal
    split <;> omega
  refine ⟨fun X => ?_, fun X u hu h1 h2 => edf_static _ _ _ (3 * ne) (fun d hd => by rw [hn3 d hd]; omega)
    (fun d hd hd' => by rw [hn3 d hd']; omega) N Q T up kt kn mu gap hkn hmu X (fun d hd hd' => ?_) (fun d hd hd' => ?_)⟩
  · simp only [edf3ForceGrad, edfForceGrad, gEdfStatic_v]
    exact congrArg (matVec _ T) (gEdf3_static _ up fp kt kn mu gap)
  · subst hu
    have := h1 (d / 3) (by omega)
    rwa [show 3 * (d / 3) + 2 = d by omega] at this
  · subst hu
    have := h2 (d / 3) (by omega) (d % 3) (by omega)
    rw [hn3 d hd']
    rwa [show 3 * (d / 3) + d % 3 = d by omega] at this

/-! ## At rest -/

/-- C105 fails at rest for a Jenkins element with slip limit zero (a friction coefficient of zero, as `set_prestress_mu`
sets it): the force vanishes for all displacements, but the returned derivative is 29 % of the stiffness of the spring. -/
theorem C105_jenkins_violated (kt : ℝ) (hkt : kt ≠ 0) (u0 : EdfU0) (hu0 : u0 = .none ∨ u0 = .scalar 0) :
    ∃ out : (ℕ → ℝ) → AftOut, (∀ U, jaxJenkinsAft 1 eye eye kt 0 u0 U [0, 1] 4 = .ok (out U)) ∧
      (∀ U, ∀ p < 3, (out U).F p = 0) ∧ (out fun _ => 0).dU 1 1 = 9635 / 32768 * kt ∧
      ¬ JointTrue (fun U _ => out U) 3 (fun _ => 0) := by
  obtain ⟨out, smp, o1, o2, o3, o4⟩ := quarter_grad 1 one_pos
    (fun Nt u z j _ => gJenkinsHistory dualNum Nt (fun j => u j 0) kt 0 (gStart dualNum u0 z 0) j)
  have hF : ∀ U, ∀ p < 3, (out U).F p = 0 := by
    intro U
    refine (o4 U _ rfl).1 fun j hj d _ => ?_
    rw [gJenkins_slider dualNum 4 (by omega) _ _ _ _ j hj, gSlider_v]
    simp only [dualNum]
    refine (gSlider_real kt (fun _ => 0) _ _ _ _).trans ?_
    cases h4 : 4 + j with
    | zero => omega
    | succ n => simp [slider_succ, clip]
  have hd : (out fun _ => 0).dU 1 1 = 9635 / 32768 * kt := by
    rw [(o4 _ _ rfl).2]
    obtain ⟨s1, s2⟩ := gStart_rest one_pos hu0
    have hv : ∀ j, (smp (fun _ => 0) j 0).v = 0 := fun j => by simp [o2, localMotion, series]
    have key := fun j (hj : j < 4) => (gJenkins_slider dualNum 4 (by omega) (fun j => smp (fun _ => 0) j 0) kt 0
      (gStart dualNum u0 (dualStart 1 1 eye fun _ => 0) 0) j hj)
    have rest := fun n => (gSlider_rest kt (hi := fun _ => dualNum.const 0) (lo := fun _ => dualNum.const (-0))
      (u := periodic 4 fun j => smp (fun _ => 0) j 0) (up := smp (fun _ => 0) (4 - 1) 0)
      (fp := dualNum.mul (dualNum.const kt) (dualNum.sub (smp (fun _ => 0) (4 - 1) 0)
        (gStart dualNum u0 (dualStart 1 1 eye fun _ => 0) 0))) 1 (fun _ => ⟨rfl, rfl⟩) (fun _ => ⟨neg_zero, rfl⟩)
      (fun i => hv _) (hv _) (by
        have := hv (4 - 1)
        simp only [dualNum] at s1 ⊢
        rw [this, s1]
        ring) n).2
    have c3 : (smp (fun _ => 0) (4 - 1) 0).d 1 = 0 := by
      rw [o3]
      exact cos_quarter.2.2.2
    rw [key 0 (by omega), key 2 (by omega), rest, rest]
    have e : (dualNum.mul (dualNum.const kt) (dualNum.sub (smp (fun _ => 0) (4 - 1) 0)
        (gStart dualNum u0 (dualStart 1 1 eye fun _ => 0) 0))).d 1 = 0 := by
      simp only [dualNum] at s2 ⊢
      rw [c3, s2]
      ring
    rw [e, c3]
    exact restTangent_cos kt _ fun j => by simp only [periodic]; rw [o3]
  refine ⟨out, o1, hF, hd, not_joint_of_zero (i := 1) (by omega) ?_ one_pos fun U _ => hF U 1 (by omega)⟩
  rw [hd]
  exact mul_ne_zero (by norm_num) hkt

/-- C105 fails at rest for an open contact: around zero displacement there is no force at all, but the returned derivative
of the friction force is 29 % of the stiffness of the spring. -/
theorem C105_open_violated (kt kn mu gap : ℝ) (hkt : kt ≠ 0) (hkn : 0 < kn) (hgap : 0 < gap) (u0 : EdfU0)
    (hu0 : u0 = .none ∨ u0 = .scalar 0) :
    ∃ out : (ℕ → ℝ) → AftOut, (∀ U, edf2AftGrad 2 2 eye eye kt kn mu gap u0 U [0, 1] 4 = .ok (out U)) ∧
      (∀ U, (∀ j < 6, |U j| < gap / 3) → ∀ p < 6, (out U).F p = 0) ∧ (out fun _ => 0).dU 2 2 = 9635 / 32768 * kt ∧
      ¬ JointTrue (fun U _ => out U) 6 (fun _ => 0) := by
  obtain ⟨out, smp, o1, o2, o3, o4⟩ := quarter_grad 2 two_pos (fun Nt u z =>
    gEdfHistory dualNum (fun d => d % 2 = 0) (fun d => d + 1) id Nt u kt kn mu gap (gStart dualNum u0 z))
  have hopen : ∀ U : ℕ → ℝ, (∀ j < 6, |U j| < gap / 3) → ∀ j, (smp U j 1).v < gap := by
    intro U hU j
    have h1 := hU 1 (by omega)
    have h3 := hU 3 (by omega)
    have h5 := hU 5 (by omega)
    rw [o2]
    simp only [localMotion, sum_range_succ, sum_range_zero, eye, series]
    norm_num
    have b : ∀ a x : ℝ, |x| ≤ 1 → a * x ≤ |a| := fun a x hx => by
      calc a * x ≤ |a * x| := le_abs_self _
        _ = |a| * |x| := abs_mul _ _
        _ ≤ |a| * 1 := mul_le_mul_of_nonneg_left hx (abs_nonneg _)
        _ = |a| := mul_one _
    have b1 := b (U 3) _ (Real.abs_cos_le_one (2 * Real.pi * j / 4))
    have b2 := b (U 5) _ (Real.abs_sin_le_one (2 * Real.pi * j / 4))
    have b3 := le_abs_self (U 1)
    linarith
  have hzero : ∀ x : Dual, x.v < gap → gNormal dualNum kn gap x = dualNum.const 0 := fun x hx =>
    dual_max_lt (mul_neg_of_neg_of_pos (sub_neg.2 hx) hkn)
  have hnt : ∀ d : ℕ, d % 2 = 0 → ¬ (d + 1) % 2 = 0 := fun d hd => by omega
  have hF : ∀ U, (∀ j < 6, |U j| < gap / 3) → ∀ p < 6, (out U).F p = 0 := by
    intro U hU
    refine (o4 U _ rfl).1 fun j hj d hd => ?_
    have hd' : d = 0 ∨ d = 1 := by omega
    rcases hd' with rfl | rfl
    · rw [gEdf_slider dualNum (fun d => d % 2 = 0) _ _ hnt 4 (by omega) _ _ _ _ _ _ j 0 hj rfl, gSlider_v]
      simp only [periodic, hzero _ (hopen U hU _)]
      simp only [dualNum, mul_zero]
      refine (gSlider_congr realNum kt (fun _ _ => rfl) (fun _ _ => neg_zero.symm) (fun _ _ => rfl)).trans
        ((gSlider_real kt (fun _ => 0) _ _ _ _).trans ?_)
      cases h4 : 4 + j with
      | zero => omega
      | succ n => simp [slider_succ, clip]
    · rw [gEdf_normal dualNum (fun d => d % 2 = 0) _ _ 4 _ _ _ _ _ _ j 1 (by decide), hzero _ (hopen U hU j)]
      rfl
  have hd : (out fun _ => 0).dU 2 2 = 9635 / 32768 * kt := by
    rw [(o4 _ _ rfl).2]
    obtain ⟨s1, s2⟩ := gStart_rest two_pos hu0
    have hv : ∀ j, (smp (fun _ => 0) j 0).v = 0 := fun j => by simp [o2, localMotion, series]
    have hn : ∀ j, gNormal dualNum kn gap (smp (fun _ => 0) j 1) = dualNum.const 0 := fun j =>
      hzero _ (hopen _ (fun j _ => by rw [abs_zero]; linarith) j)
    have key := fun j (hj : j < 4) => (gEdf_slider dualNum (fun d => d % 2 = 0) (fun d => d + 1) id hnt 4 (by omega)
      (smp fun _ => 0) kt kn mu gap (gStart dualNum u0 (dualStart 2 2 eye fun _ => 0)) j 0 hj rfl)
    have rest := fun n => (gSlider_rest kt
      (hi := periodic 4 fun t => dualNum.mul (dualNum.const mu) (gNormal dualNum kn gap (smp (fun _ => 0) t (0 + 1))))
      (lo := periodic 4 fun t => dualNum.mul (dualNum.const (-mu)) (gNormal dualNum kn gap (smp (fun _ => 0) t (0 + 1))))
      (u := periodic 4 fun j => smp (fun _ => 0) j 0) (up := smp (fun _ => 0) (4 - 1) 0)
      (fp := dualNum.mul (dualNum.const kt) (dualNum.sub (smp (fun _ => 0) (4 - 1) 0)
        (gStart dualNum u0 (dualStart 2 2 eye fun _ => 0) (id 0)))) 2
      (fun i => by simp only [periodic, zero_add, hn]; simp [dualNum])
      (fun i => by simp only [periodic, zero_add, hn]; simp [dualNum])
      (fun i => hv _) (hv _) (by
        have := hv (4 - 1)
        simp only [dualNum, id] at s1 ⊢
        rw [this, s1]
        ring) n).2
    have c3 : (smp (fun _ => 0) (4 - 1) 0).d 2 = 0 := by
      rw [o3]
      exact cos_quarter.2.2.2
    rw [key 0 (by omega), key 2 (by omega), rest, rest]
    have e : (dualNum.mul (dualNum.const kt) (dualNum.sub (smp (fun _ => 0) (4 - 1) 0)
        (gStart dualNum u0 (dualStart 2 2 eye fun _ => 0) (id 0)))).d 2 = 0 := by
      simp only [dualNum, id] at s2 ⊢
      rw [c3, s2]
      ring
    rw [e, c3]
    exact restTangent_cos kt _ fun j => by simp only [periodic]; rw [o3]
  refine ⟨out, o1, hF, hd, not_joint_of_zero (i := 2) (r := gap / 3) (by omega) ?_ (by linarith)
    fun U hU => hF U hU 2 (by omega)⟩
  rw [hd]
  exact mul_ne_zero (by norm_num) hkt

/-! ## Examples -/

/-- Example: `u(τ) = 3/2 cos τ` with four samples, spring and slip limit 1. The slider slips twice per cycle. -/
example : ∃ out : (ℕ → ℝ) → AftOut, (∀ U, jaxJenkinsAft 1 (fun _ _ => 1) (fun _ _ => 1) 1 1 .none U [0, 1] 4 = .ok (out U)) ∧
    JointTrue (fun U _ => out U) 3 (fun r => if r = 1 then 3 / 2 else 0) := by
  obtain ⟨out, h1, -, h2⟩ := C105_jenkins_partial (h := [0, 1]) ⟨by simp, by decide, by decide⟩ (Nt := 4) (by decide)
    ⟨2, rfl⟩ (by decide) 1 (fun _ _ => 1) (fun _ _ => 1) 1 1 zero_le_one .none
  refine ⟨out, h1, h2 _ _ rfl ?_⟩
  have e1 : dofSamples 1 (fun _ _ => 1) [0, 1] 4 (sl 0 (numCoeff [0, 1] * 1) fun r => if r = 1 then 3 / 2 else 0) 0
      = fun j : ℕ => 3 / 2 * Real.cos (2 * Real.pi * j / 4) := c103_samples
  have e2 : sliderStart 1 (fun _ _ => 1) .none (sl 0 (numCoeff [0, 1] * 1) fun r => if r = 1 then 3 / 2 else 0) 0 = 0 := by
    simp [sliderStart, numCoeff, sl]
  rw [e1, e2]
  exact c103_off

/-- Example: one 2D element pressed on with the constant force 2, friction coefficient 1/2, tangential motion
`3/2 cos τ`. -/
example : ∃ out : (ℕ → ℝ) → AftOut, (∀ U, edf2AftGrad 2 2 eye eye 1 1 (1 / 2) 0 .none U [0, 1] 4 = .ok (out U)) ∧
    JointTrue (fun U _ => out U) 6 (fun r => if r = 1 then 2 else if r = 2 then 3 / 2 else 0) := by
  obtain ⟨out, h1, -, h2⟩ := C105_friction_2d_partial (h := [0, 1]) ⟨by simp, by decide, by decide⟩ (Nt := 4) (by decide)
    ⟨2, rfl⟩ (by decide) 1 2 eye eye 1 1 (1 / 2) 0 one_pos (by norm_num) .none
  set U : ℕ → ℝ := sl 0 (numCoeff [0, 1] * 2) fun r => if r = 1 then 2 else if r = 2 then 3 / 2 else 0 with hU
  have e0 : dofSamples 2 eye [0, 1] 4 U 0 = fun j : ℕ => 3 / 2 * Real.cos (2 * Real.pi * j / 4) := by
    funext j
    simp [dofSamples, localMotion, series, numCoeff, sl, hU, eye]
  have e1 : dofSamples 2 eye [0, 1] 4 U 1 = fun _ => 2 := by
    funext j
    simp [dofSamples, localMotion, series, numCoeff, sl, hU, eye]
  have e2 : sliderStart 2 eye .none U 0 = 0 := by
    simp [sliderStart, numCoeff, sl, hU, sum_range_succ, eye]
  refine ⟨out, h1, h2 _ _ hU (fun e he j _ => ?_) (fun e he => ?_)⟩
  · obtain rfl : e = 0 := by omega
    simp [e1]
  · obtain rfl : e = 0 := by omega
    simp only [mul_zero, zero_add, e0, e1, e2]
    have : (fun _ : ℕ => (1 / 2 : ℝ) * pressed 1 0 2) = fun _ => 1 := by
      funext _
      norm_num [pressed]
    rw [this]
    exact c103_off

/-- Example: one 2D element, pressed on with the force 2 and slipping: the friction force is `mu N`, so its derivative by the
normal displacement is `mu kn`. -/
example : (edf2ForceGrad 2 2 eye eye (fun _ => 0) 1 1 (1 / 2) 0 (fun d => if d = 0 then 3 else 2)).2 0 1 = 1 / 2 ∧
    HasJac 2 2 (fun X => (edf2ForceGrad 2 2 eye eye (fun _ => 0) 1 1 (1 / 2) 0 X).1)
      (edf2ForceGrad 2 2 eye eye (fun _ => 0) 1 1 (1 / 2) 0 (fun d => if d = 0 then 3 else 2)).2
      (fun d => if d = 0 then 3 else 2) := by
  constructor
  · simp [edf2ForceGrad, edfForceGrad, gEdfStatic, gNormal, dualNum, matMul, matVec, sum_range_succ, eye, balanced]
  · refine (C105_static_2d 1 2 eye eye (fun _ => 0) (fun _ => 0) 1 1 (1 / 2) 0 one_pos (by norm_num)).2 _ _ rfl
      (fun e he => ?_) (fun e he => Or.inr ?_)
    · obtain rfl : e = 0 := by omega
      simp [matVec, sum_range_succ, eye]
    · obtain rfl : e = 0 := by omega
      simp [matVec, sum_range_succ, eye, pressed]

end

end TMD
