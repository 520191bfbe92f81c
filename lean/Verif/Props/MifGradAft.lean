import Verif.Lemmas.MifGradAft
import Verif.Props.MifGrad
import Verif.Props.RoughGradAft

/-!
# C111: automatic derivatives of the harmonic forces of the Mindlin-Iwan fit
-/

namespace TMD

open Spec Finset Filter Topology

noncomputable section

/-- C111, finite: whatever the samples of a cycle, all forces and all derivatives are numbers. The pairs have finitely many tangents:
entry `K` is not used. -/
theorem C111_finite (m : Mat) (h : m.Fine) (g : Asperities) (hg : ∀ k < g.nasp, 0 ≤ g.meso + g.gaps k) {Nr : ℕ} (hNr : 2 ≤ Nr)
    (mu : ℝ) (u0 : ℕ → ℝ) (Nt K : ℕ) (x : ℕ → ℕ → Dual) (hK : ∀ t < Nt, ∀ d < 3, (x t d).d K = 0) (t d : ℕ) (ht : t < Nt) (hd : d < 3) :
    ∃ (f : ℝ) (J : ℕ → ℝ), mifHistGrad m g Nr mu u0 Nt x t d = ⟨some f, fun k => some (J k)⟩ ∧
      mifHistory m g Nr Nt (fun j d => (x j d).v) u0 mu 2 t d = some f := by
  obtain ⟨f, J, e⟩ := (gMifSteps_fin (g := g) h hNr (by omega : 0 < Nt) x hK hg mu u0 (2 * Nt)).1 t d hd
  have e' : mifHistGrad m g Nr mu u0 Nt x t d = ⟨some f, fun k => some (J k)⟩ := by
    unfold mifHistGrad gMifHistory
    rw [gMifFrom_steps]
    exact e
  refine ⟨f, J, e', ?_⟩
  have hv : (mifHistGrad m g Nr mu u0 Nt x t d).v = _ :=
    gMifHistory_v m g Nr Nt (fun j d => FDual.of (x j d)) (fun d => FDual.const (some (u0 d))) mu 2 t d
  rw [e'] at hv
  rw [← gMifHistory_flt h g hNr]
  exact hv.symm

section main

variable {h : List ℕ} (hA : Admissible h) {Nt : ℕ} (hNt : ∀ k ∈ h, 2*k + 1 < Nt) (heven : Even Nt)
  (hh : 1 < numCoeff h)

include hA hNt heven hh

/-- C111 (partial): `aft` returns the forces of the element and, at cycles without kinks (`SmoothMifCycle`), their true
derivatives. Missing: equal radii at two successive instants, see `C111_violated`. -/
theorem C111_aft_partial (m : Mat) (hm : m.Fine) (g : Asperities) (hg : ∀ k < g.nasp, 0 ≤ g.meso + g.gaps k) {Nr : ℕ} (hNr : 2 ≤ Nr)
    (mu : ℝ) (hmu : 0 ≤ mu) (u0 : ℕ → ℝ) (N : ℕ) (Q T : ℕ → ℕ → ℝ) :
    ∃ out : (ℕ → ℝ) → AftOut, (∀ U, mifAftGrad N Q T m g Nr mu u0 U h Nt = .ok (out U)) ∧
      (∀ U w, (PForce.mif N Q T m g Nr mu u0).aftF U w h Nt = .ok (out U).F) ∧
      ∀ Z U, U = sl 0 (numCoeff h * N) Z →
        SmoothMifCycle m g Nr Nt (fun j d => dofSamples N Q h Nt U d j) u0 mu →
        JointTrue (fun U _ => out U) (numCoeff h * N) Z := by
  have hN := samples_pos hA hNt
  obtain ⟨cst, c3, out, o1, o2, o3⟩ := jaxGrad_joint hA hNt heven hh N 3 Q T
    (fun Nt u _ t d => (mifHistGrad m g Nr mu u0 Nt u t d).real)
    (fun n u _ j d => (mifHistory m g Nr n u u0 mu 2 j d).getD 0)
    (fun n u z j d => by
      show (mifHistGrad m g Nr mu u0 n u j d).v.getD 0 = _
      rw [← gMifHistory_flt hm g hNr]
      exact congrArg (fun z : Flt => z.getD 0) (gMifHistory_v m g Nr n (fun j d => FDual.of (u j d)) (fun d => FDual.const (some (u0 d))) mu 2 j d))
  refine ⟨out, o1, fun U w => o2 U, fun Z U hU hs => o3 Z U hU (fun j hj d hd => ?_) (fun j hj d hd => ?_)⟩
  all_goals
    have key := mifHist_tracks (n := numCoeff h * N) (K := numCoeff h * 3) (M := kronEye 3 N Q) (X := U) (g := g) hm hNr hN
      (x := dualSamples N 3 Q h Nt cst U) (f := fun j d U => dofSamples N Q h Nt U d j)
      (fun t _ d hd => dualSamples_tracks (Nt := Nt) (m := 3) Q hd (fun U => c3 N Q U d t) U)
      (fun t _ d hd => dualSamples_last Q cst U t hd) hg hmu hs (t := j) hd
  · exact key.real.1
  · exact key.real.2

end main

/-! ## Equal radii at two successive instants -/

section elastic

variable {m : Mat} {g : Asperities} {Nt : ℕ} {u : ℕ → ℕ → ℝ}

/-- Contact in the elastic range. -/
theorem asp_elastic (h : m.Fine) {k : ℕ} (hg : 0 ≤ g.meso + g.gaps k) (h0 : 0 < cycleMax Nt g u k) (h1 : cycleMax Nt g u k < 1.9*m.dy) (t : ℕ) :
    aspN m g Nt u k t = hertz m.Re m.Estar (u t 2 - g.meso - g.gaps k) ∧
    aspA m g Nt u k t = if 0 < u t 2 - g.meso - g.gaps k then Real.sqrt (m.Re * (u t 2 - g.meso - g.gaps k)) else 0 := by
  have hF := cycleFm_el (Nt := Nt) (u := u) (k := k) h.toGood hg h1
  unfold aspN aspA
  rw [hF]
  obtain ⟨u1, u2, -⟩ := unloading_hertz (un := u t 2 - g.meso - g.gaps k) h.Re h.Estar h0
  rw [u1, u2]
  exact ⟨rfl, rfl⟩

end elastic

/-- Open contacts keep no tractions. -/
theorem mifTraction_open (Nr : ℕ) (x x0 : ℝ) (t0 r0 : ℕ → ℝ) (a G mu : ℝ) (j : ℕ) : mifTraction Nr x x0 t0 r0 (some 0) a G mu j = 0 := by
  rw [mifTraction_clip]
  unfold mifPressure clip
  simp

/-- Mean of the force of a cycle of four samples. -/
theorem mean_four {m : Mat} {g : Asperities} {Nr : ℕ} {mu : ℝ} {u0 U F : ℕ → ℝ} {w : ℝ}
    (h : (PForce.mif 3 eye eye m g Nr mu u0).aftF U w [0, 1] 4 = .ok F) :
    F 0 = (∑ t ∈ range 4, (mifHistory m g Nr 4 (fun j d => localMotion 3 eye [0, 1] U d (2 * Real.pi * j / (4 : ℕ))) u0 mu 2 t 0).getD 0) / 4 := by
  have hA : Admissible [0, 1] := ⟨by simp, by decide, by decide⟩
  obtain ⟨-, -, -, c4⟩ := ts_sampled hA (Nt := 4) (by decide) ⟨2, rfl⟩
  have c5 := (c4 3 eye U).1
  obtain ⟨W, hW⟩ := gfc_linear hA (Nt := 4) (by decide)
  obtain ⟨v, g1, -, g3⟩ := hW (fun t d => (mifHistory m g Nr 4 (fun j d => localMotion 3 eye [0, 1] U d (2 * Real.pi * j / (4 : ℕ))) u0 mu 2 t d).getD 0)
  have hrow : (sampledDisp 3 eye [0, 1] U 4).rows = 4 := rfl
  have hcol : (sampledDisp 3 eye [0, 1] U 4).val = fun (j : ℕ) d => localMotion 3 eye [0, 1] U d (2 * Real.pi * j / (4 : ℕ)) := rfl
  simp only [PForce.mif] at h
  unfold jaxAft at h
  rw [if_neg (not_not.2 (jax_dofs (by decide) 3))] at h
  simp only [c5, hrow, hcol, g1] at h
  rw [← Except.ok.inj h]
  clear h g1 hW c4 c5 hrow hcol
  have hm := congrArg Prod.fst (g3 0 (by simp) 0)
  simp only [coefOf, dft, if_true] at hm
  unfold toGlobal matMul
  rw [sum_eq_single_of_mem 0 (by simp)]
  · rw [show eye (0 % 3) 0 = 1 from rfl, one_mul]
    exact hm.trans (by norm_num)
  · intro d hd hd0
    simp [eye, Ne.symm hd0]

/-- Harmonic coefficients of `cos + sin` in both directions; the sine of the normal motion is `s ^ 2`. -/
def kinkU (s : ℝ) : ℕ → ℝ := fun i => if i = 3 ∨ i = 6 then 1 / 2 else if i = 5 then 1 else if i = 8 then s ^ 2 else 0

theorem hertz_sq {s : ℝ} (hs : 0 < s) : hertz 1 (3/4) (s ^ 2) = s ^ 3 := by
  have hp : 0 < s ^ 2 := by positivity
  unfold hertz
  rw [if_pos hp, show (3/2 : ℝ) = 1.5 by norm_num, rpow_three_half hp, Real.sqrt_sq hs.le, Real.sqrt_one]
  norm_num
  ring

theorem kink_samples (s : ℝ) {u : ℕ → ℕ → ℝ} (hu : u = fun (j d : ℕ) => localMotion 3 eye [0, 1] (kinkU s) d (2 * Real.pi * j / (4 : ℕ))) :
    (u 0 0 = 1 / 2 ∧ u 1 0 = 1 / 2 ∧ u 2 0 = -(1 / 2) ∧ u 3 0 = -(1 / 2)) ∧ (∀ j, u j 1 = 0) ∧
    (u 0 2 = 1 ∧ u 1 2 = s ^ 2 ∧ u 2 2 = -1 ∧ u 3 2 = -s ^ 2) := by
  subst hu
  obtain ⟨c0, c1, c2, c3⟩ := cos_quarter
  have s0 : Real.sin (2 * Real.pi * (0 : ℕ) / 4) = 0 := by simp
  have s1 : Real.sin (2 * Real.pi * (1 : ℕ) / 4) = 1 := by
    rw [show 2 * Real.pi * ((1 : ℕ) : ℝ) / 4 = Real.pi / 2 by push_cast; ring, Real.sin_pi_div_two]
  have s2 : Real.sin (2 * Real.pi * (2 : ℕ) / 4) = 0 := by
    rw [show 2 * Real.pi * ((2 : ℕ) : ℝ) / 4 = Real.pi by push_cast; ring, Real.sin_pi]
  have s3 : Real.sin (2 * Real.pi * (3 : ℕ) / 4) = -1 := by
    rw [show 2 * Real.pi * ((3 : ℕ) : ℝ) / 4 = Real.pi / 2 + Real.pi by push_cast; ring, Real.sin_add_pi, Real.sin_pi_div_two]
  have key : ∀ d < 3, ∀ j : ℕ, localMotion 3 eye [0, 1] (kinkU s) d (2 * Real.pi * j / (4 : ℕ))
      = kinkU s (3 + d) * Real.cos (2 * Real.pi * j / 4) + kinkU s (6 + d) * Real.sin (2 * Real.pi * j / 4) := by
    intro d hd j
    interval_cases d <;> simp [localMotion, eye, series, kinkU]
  refine ⟨⟨?_, ?_, ?_, ?_⟩, fun j => ?_, ?_, ?_, ?_, ?_⟩
  all_goals (beta_reduce; rw [key _ (by norm_num)])
  · rw [c0, s0]; simp [kinkU]
  · rw [c1, s1]; simp [kinkU]
  · rw [c2, s2]; simp [kinkU]
  · rw [c3, s3]; simp [kinkU]
  · simp [kinkU]
  · rw [c0, s0]; simp [kinkU]
  · rw [c1, s1]; simp [kinkU]
  · rw [c2, s2]; simp [kinkU]
  · rw [c3, s3]; simp [kinkU]

/-- One elastic asperity: contact of the cycle. -/
theorem kink_contact {s : ℝ} (h1 : 0 < s) (h2 : s < 2) {u : ℕ → ℕ → ℝ} (u0 : u 0 2 = 1) (u1 : u 1 2 = s ^ 2) (u2 : u 2 2 = -1)
    (u3 : u 3 2 = -s ^ 2) :
    (0 < cycleMax 4 oneAsp u 0 ∧ cycleMax 4 oneAsp u 0 < 1.9*driftMat.dy) ∧
    (aspN driftMat oneAsp 4 u 0 0 = 1 ∧ aspA driftMat oneAsp 4 u 0 0 = 1) ∧
    (aspN driftMat oneAsp 4 u 0 1 = s ^ 3 ∧ aspA driftMat oneAsp 4 u 0 1 = s) ∧
    (aspN driftMat oneAsp 4 u 0 2 = 0 ∧ aspA driftMat oneAsp 4 u 0 2 = 0) ∧
    (aspN driftMat oneAsp 4 u 0 3 = 0 ∧ aspA driftMat oneAsp 4 u 0 3 = 0) := by
  have hm : driftMat.Fine := ⟨driftMat_good, by unfold driftMat Mat.new; norm_num⟩
  obtain ⟨d1, d2, d3, d4⟩ := drift_values
  have hs2 : 0 < s ^ 2 := by positivity
  have hc : 0 < cycleMax 4 oneAsp u 0 ∧ cycleMax 4 oneAsp u 0 < 1.9*driftMat.dy := by
    have hb := (unMax_ge 4 u).2 0 (by norm_num)
    obtain ⟨t, ht, e⟩ := unMax_mem 4 (by norm_num) u
    unfold cycleMax
    simp only [oneAsp, sub_zero]
    constructor
    · linarith
    · rw [e]
      refine lt_of_le_of_lt ?_ d4
      interval_cases t
      · rw [u0]; norm_num
      · rw [u1]; nlinarith
      · rw [u2]; norm_num
      · rw [u3]; nlinarith
  have key := fun t => asp_elastic (g := oneAsp) (Nt := 4) (u := u) (k := 0) hm (by simp [oneAsp]) hc.1 hc.2 t
  simp only [d1, d2, oneAsp, sub_zero, one_mul] at key
  have k0 := key 0
  have k1 := key 1
  have k2 := key 2
  have k3 := key 3
  rw [u0, if_pos one_pos, Real.sqrt_one, hertz_examples.1] at k0
  rw [u1, if_pos hs2, Real.sqrt_sq h1.le, hertz_sq h1] at k1
  rw [u2, if_neg (by norm_num)] at k2
  rw [u3, if_neg (by linarith)] at k3
  refine ⟨hc, k0, k1, ⟨k2.1.trans ?_, k2.2⟩, k3.1.trans ?_, k3.2⟩
  · unfold hertz
    rw [if_neg (by norm_num)]
  · unfold hertz
    rw [if_neg (by linarith)]

/-- The forces of the second cycle: only the second sample depends on `s`. -/
theorem kink_forces {s : ℝ} (h1 : 3/5 < s) (h2 : s < 7/5) {u : ℕ → ℕ → ℝ}
    (hu : u = fun (j d : ℕ) => localMotion 3 eye [0, 1] (kinkU s) d (2 * Real.pi * j / (4 : ℕ))) (u0 : ℕ → ℝ) :
    ∃ t : ℕ → ℝ, t 0 = 3 / 2 / Real.pi ∧ t 1 = 3 / 2 / Real.pi * mifKt (1 / 2) ∧ t 2 = 0 ∧
    mifTotal driftMat oneAsp 3 4 u u0 2 4 0 = Real.pi / 2 * t 1 ∧
    mifTotal driftMat oneAsp 3 4 u u0 2 5 0
      = s ^ 2 * (Real.pi / 2) * clip (2 * mifPressure 3 (s ^ 3) s 1) (jnpInterp 3 (fun j => mifRadius 3 j) t (s * (1 / 2))) ∧
    mifTotal driftMat oneAsp 3 4 u u0 2 6 0 = 0 ∧ mifTotal driftMat oneAsp 3 4 u u0 2 7 0 = 0 := by
  obtain ⟨⟨x0, x1, x2, x3⟩, y, z0, z1, z2, z3⟩ := kink_samples s hu
  obtain ⟨-, ⟨n0, a0⟩, ⟨n1, a1⟩, ⟨n2, a2⟩, n3, a3⟩ := kink_contact (by linarith) (by linarith) z0 z1 z2 z3
  have r1 : mifRadius 3 1 = 1 / 2 := by unfold mifRadius; norm_num
  have hopen : ∀ j, (mifSeq driftMat oneAsp 3 4 u u0 2 0 4).t j 0 = 0 := by
    intro j
    show mifTraction 3 _ _ _ _ (some (aspN driftMat oneAsp 4 u 0 (3 % 4))) _ _ _ j = 0
    rw [show 3 % 4 = 3 from rfl, n3, mifTraction_open]
  have hone : ∀ i, mifTotal driftMat oneAsp 3 4 u u0 2 i 0 = mifForce 3 (aspA driftMat oneAsp 4 u 0 (i % 4)) fun j =>
      (mifSeq driftMat oneAsp 3 4 u u0 2 0 (i + 1)).t j 0 := by
    intro i
    unfold mifTotal
    rw [if_pos (by norm_num)]
    simp [oneAsp]
  have h4 : ∀ j, (mifSeq driftMat oneAsp 3 4 u u0 2 0 5).t j 0 = mifTraction 3 (u 0 0) (u 3 0)
      (fun i => (mifSeq driftMat oneAsp 3 4 u u0 2 0 4).t i 0) (mifSeq driftMat oneAsp 3 4 u u0 2 0 4).r (some 1) 1 driftMat.Gstar 2 j := by
    intro j
    have : (mifSeq driftMat oneAsp 3 4 u u0 2 0 5).t j 0 = mifTraction 3 (u 0 0) (u 3 0)
      (fun i => (mifSeq driftMat oneAsp 3 4 u u0 2 0 4).t i 0) (mifSeq driftMat oneAsp 3 4 u u0 2 0 4).r
      (some (aspN driftMat oneAsp 4 u 0 0)) (aspA driftMat oneAsp 4 u 0 0) driftMat.Gstar 2 j := rfl
    rw [n0, a0] at this
    exact this
  have h5 : ∀ j, (mifSeq driftMat oneAsp 3 4 u u0 2 0 6).t j 0 = mifTraction 3 (u 1 0) (u 0 0)
      (fun i => (mifSeq driftMat oneAsp 3 4 u u0 2 0 5).t i 0) (fun j => mifRadius 3 j) (some (s ^ 3)) s driftMat.Gstar 2 j := by
    intro j
    have : (mifSeq driftMat oneAsp 3 4 u u0 2 0 5).r = fun j => mifRadius 3 j := by
      funext j
      show aspA driftMat oneAsp 4 u 0 0 * mifRadius 3 j = _
      rw [a0, one_mul]
    rw [← this, ← n1, ← a1]
    rfl
  obtain ⟨t0, t1, t2⟩ := drift_tractions (x := u 0 0) (x0 := u 3 0) (r0 := (mifSeq driftMat oneAsp 3 4 u u0 2 0 4).r)
    (t0 := fun i => (mifSeq driftMat oneAsp 3 4 u u0 2 0 4).t i 0) (by rw [x0, x3]; norm_num) fun i _ => hopen i
  rw [← h4] at t0 t1 t2
  refine ⟨fun i => (mifSeq driftMat oneAsp 3 4 u u0 2 0 5).t i 0, t0, t1, t2, ?_, ?_, ?_, ?_⟩
  · rw [hone, show 4 % 4 = 0 from rfl, a0, mifForce_three' _ _ t2]
    ring
  · rw [hone, show 5 % 4 = 1 from rfl, a1, mifForce_three']
    · rw [h5, mifTraction_clip, x0, x1, sub_self, mul_zero, zero_add, r1]
    · rw [h5, mifTraction_clip, show mifPressure 3 (s ^ 3) s 2 = 0 from mifPressure_last (by norm_num) _ _, mul_zero]
      unfold clip
      simp
  · rw [hone, show 6 % 4 = 2 from rfl, a2]
    simp [mifForce]
  · rw [hone, show 7 % 4 = 3 from rfl, a3]
    simp [mifForce]

/-- C111 does not hold where two successive samples have the same normal displacement: the harmonic forces have no derivative there,
as the tractions of the previous sample are interpolated piecewise linearly. -/
theorem C111_violated : driftMat.Fine ∧
    ∃ out : (ℕ → ℝ) → AftOut, (∀ U, mifAftGrad 3 eye eye driftMat oneAsp 3 2 (fun _ => 0) U [0, 1] 4 = .ok (out U)) ∧
      ∀ J, ¬ HasGrad 9 (fun U => (out U).F 0) J (kinkU 1) := by
  have hm : driftMat.Fine := ⟨driftMat_good, by unfold driftMat Mat.new; norm_num⟩
  refine ⟨hm, ?_⟩
  obtain ⟨out, o1, o2, -⟩ := C111_aft_partial (h := [0, 1]) ⟨by simp, by decide, by decide⟩ (Nt := 4) (by decide) ⟨2, rfl⟩ (by decide)
    driftMat hm oneAsp (fun k _ => by simp [oneAsp]) (Nr := 3) (by norm_num) 2 (by norm_num) (fun _ => 0) 3 eye eye
  refine ⟨out, o1, fun J hJ => ?_⟩
  obtain ⟨q1, q2⟩ := mifKt_half
  have hp := Real.pi_pos
  set c : ℝ := 3 / 2 / Real.pi with hc
  have hc0 : 0 < c := by positivity
  have hF : ∀ s, 3/5 < s → s < 7/5 → ∃ t : ℕ → ℝ, t 0 = c ∧ t 1 = c * mifKt (1 / 2) ∧ t 2 = 0 ∧
      4 * (out (kinkU s)).F 0 - Real.pi / 2 * (c * mifKt (1 / 2))
      = s ^ 2 * (Real.pi / 2) * clip (2 * mifPressure 3 (s ^ 3) s 1) (jnpInterp 3 (fun j => mifRadius 3 j) t (s * (1 / 2))) := by
    intro s hs hs'
    obtain ⟨t, t0, t1, t2, f4, f5, f6, f7⟩ := kink_forces hs hs' rfl fun _ => 0
    refine ⟨t, t0, t1, t2, ?_⟩
    have he := mean_four (o2 (kinkU s) 0)
    have hk : ∀ i < 4, (mifHistory driftMat oneAsp 3 4 (fun j d => localMotion 3 eye [0, 1] (kinkU s) d (2 * Real.pi * j / (4 : ℕ)))
        (fun _ => 0) 2 2 i 0).getD 0 = mifTotal driftMat oneAsp 3 4 (fun j d => localMotion 3 eye [0, 1] (kinkU s) d (2 * Real.pi * j / (4 : ℕ)))
        (fun _ => 0) 2 (4 + i) 0 := by
      intro i hi
      rw [mifHistory_eq driftMat oneAsp 3 4 _ hm.Estar.le _ 2 1 i 0 hi, one_mul]
      rfl
    rw [sum_range_succ, sum_range_succ, sum_range_succ, sum_range_one, hk 0 (by norm_num), hk 1 (by norm_num), hk 2 (by norm_num),
      hk 3 (by norm_num), f4, f5, f6, f7, t1] at he
    rw [he]
    ring
  have hg := hJ.directional (fun i => if i = 8 then 1 else 0) (fun i hi => by rw [if_neg (by omega)])
  set D := ∑ j ∈ range 9, J j * (if j = 8 then (1 : ℝ) else 0)
  have hd : HasDerivAt (fun s : ℝ => 4 * (out (kinkU s)).F 0 - Real.pi / 2 * (c * mifKt (1 / 2))) (4 * (D * 2)) 1 := by
    have h2 : HasDerivAt (fun s : ℝ => s ^ 2 - 1) 2 1 := by
      have := (hasDerivAt_pow 2 (1 : ℝ)).sub_const 1
      simpa using this
    have hg' : HasDerivAt (fun t : ℝ => (out fun i => kinkU 1 i + t * (if i = 8 then 1 else 0)).F 0) D ((1 : ℝ) ^ 2 - 1) := by
      rw [show (1 : ℝ) ^ 2 - 1 = 0 by norm_num]
      exact hg
    refine (((HasDerivAt.comp (h := fun s : ℝ => s ^ 2 - 1) (1 : ℝ) hg' h2).const_mul 4).sub_const
      (Real.pi / 2 * (c * mifKt (1 / 2)))).congr_of_eventuallyEq (Eventually.of_forall fun s => ?_)
    have e1 : (fun i => kinkU 1 i + (s ^ 2 - 1) * (if i = 8 then (1 : ℝ) else 0)) = kinkU s := by
      funext i
      unfold kinkU
      by_cases hi : i = 8
      · subst hi
        norm_num
      · simp [hi]
    simp only [Function.comp]
    rw [e1]
  refine kink_no_deriv (c := Real.pi / 2 * c) (q := mifKt (1 / 2)) (by positivity) q1 (fun s h h' => ?_) (fun s h h' => ?_) hd
  · obtain ⟨t, t0, t1, t2, e⟩ := hF s h (by linarith)
    rw [e, (drift_curve hc t0 t1 t2).1 s h h']
  · obtain ⟨t, t0, t1, t2, e⟩ := hF s (by linarith) h'
    rw [e, (drift_curve hc t0 t1 t2).2 s h h']

/-! ## Example -/

/-- Both tangential directions move. -/
def liftU : ℕ → ℝ := fun i => if i = 3 ∨ i = 4 ∨ i = 6 ∨ i = 7 then 1 / 2 else if i = 5 then 1 else if i = 8 then (6/5) ^ 2 else 0

theorem lift_samples {u : ℕ → ℕ → ℝ} (hu : u = fun (j d : ℕ) => localMotion 3 eye [0, 1] liftU d (2 * Real.pi * j / (4 : ℕ))) :
    (∀ d < 2, u 0 d = 1 / 2 ∧ u 1 d = 1 / 2 ∧ u 2 d = -(1 / 2) ∧ u 3 d = -(1 / 2)) ∧
    (u 0 2 = 1 ∧ u 1 2 = (6/5) ^ 2 ∧ u 2 2 = -1 ∧ u 3 2 = -(6/5) ^ 2) := by
  obtain ⟨⟨x0, x1, x2, x3⟩, -, z0, z1, z2, z3⟩ := kink_samples (6/5) rfl
  have key : ∀ d < 3, ∀ j : ℕ, u j d = localMotion 3 eye [0, 1] (kinkU (6/5)) (if d = 1 then 0 else d) (2 * Real.pi * j / (4 : ℕ)) := by
    intro d hd j
    subst hu
    interval_cases d <;> simp [localMotion, eye, series, kinkU, liftU]
  refine ⟨fun d hd => ?_, ?_⟩
  · simp only [key d (by omega)]
    rw [show (if d = 1 then 0 else d) = 0 by split <;> omega]
    exact ⟨x0, x1, x2, x3⟩
  · simp only [key 2 (by omega)]
    exact ⟨z0, z1, z2, z3⟩

theorem drift_pressure {c : ℝ} (hc : c = 3 / 2 / Real.pi) :
    (mifPressure 3 1 1 0 = c ∧ mifPressure 3 1 1 1 = c * Real.sqrt (1 - (1 / 2) ^ 2)) ∧
    (mifPressure 3 ((6/5) ^ 3) (6/5) 0 = c * (6/5) ∧ mifPressure 3 ((6/5) ^ 3) (6/5) 1 = c * (6/5) * Real.sqrt (1 - (1 / 2) ^ 2)) ∧
    mifStiff 3 driftMat.Gstar 1 1 0 = c ∧ mifStiff 3 driftMat.Gstar 1 1 1 = c * mifKt (1 / 2) := by
  obtain ⟨-, -, d3, -⟩ := drift_values
  have hp := Real.pi_pos
  have r0 : mifRadius 3 0 = 0 := mifRadius_zero _
  have r1 : mifRadius 3 1 = 1 / 2 := by unfold mifRadius; norm_num
  have k0 : mifKt 0 = 1 := by unfold mifKt; norm_num
  have hP : ∀ s : ℝ, 0 < s → mifPressure 3 (s ^ 3) s 0 = c * s ∧ mifPressure 3 (s ^ 3) s 1 = c * s * Real.sqrt (1 - (1 / 2) ^ 2) := by
    intro s hs
    have e : 3 * s ^ 3 / (2 * Real.pi * s ^ 2) = c * s := by rw [hc]; field_simp
    unfold mifPressure
    rw [if_pos (by positivity), if_pos (by positivity), r0, r1, e]
    constructor
    · norm_num
    · rfl
  obtain ⟨P0, P1⟩ := hP 1 one_pos
  rw [one_pow, mul_one] at P0 P1
  have K : mifStiff 3 driftMat.Gstar 1 1 0 = c ∧ mifStiff 3 driftMat.Gstar 1 1 1 = c * mifKt (1 / 2) := by
    unfold mifStiff
    rw [if_pos one_pos, if_pos one_pos, r0, r1, k0, d3, hc]
    constructor <;> norm_num
  exact ⟨⟨P0, P1⟩, hP (6/5) (by norm_num), K⟩

/-- The states of both cycles. -/
theorem lift_states {c : ℝ} (hc : c = 3 / 2 / Real.pi) {u : ℕ → ℕ → ℝ}
    (hx : ∀ d < 2, u 0 d = 1 / 2 ∧ u 1 d = 1 / 2 ∧ u 2 d = -(1 / 2) ∧ u 3 d = -(1 / 2))
    (n0 : aspN driftMat oneAsp 4 u 0 0 = 1) (a0 : aspA driftMat oneAsp 4 u 0 0 = 1)
    (n1 : aspN driftMat oneAsp 4 u 0 1 = (6/5) ^ 3) (a1 : aspA driftMat oneAsp 4 u 0 1 = 6/5) (n3 : aspN driftMat oneAsp 4 u 0 3 = 0) :
    ∀ b < 2, ∀ d < 2, (∀ j, (mifSeq driftMat oneAsp 3 4 u (fun _ => -(1/2)) 2 0 (4*b)).t j d = 0) ∧
      mifPrev 4 u (fun _ => -(1/2)) (4*b) d = -(1/2) ∧
      (mifSeq driftMat oneAsp 3 4 u (fun _ => -(1/2)) 2 0 (4*b + 1)).t 0 d = c ∧
      (mifSeq driftMat oneAsp 3 4 u (fun _ => -(1/2)) 2 0 (4*b + 1)).t 1 d = c * mifKt (1/2) ∧
      (mifSeq driftMat oneAsp 3 4 u (fun _ => -(1/2)) 2 0 (4*b + 1)).t 2 d = 0 ∧
      (mifSeq driftMat oneAsp 3 4 u (fun _ => -(1/2)) 2 0 (4*b + 2)).t 0 d = c := by
  intro b hb d hd
  have hc0 : 0 < c := by rw [hc]; have := Real.pi_pos; positivity
  have r0 : mifRadius 3 0 = 0 := mifRadius_zero _
  obtain ⟨-, ⟨Q0, -⟩, -⟩ := drift_pressure hc
  obtain ⟨x0, x1, x2, x3⟩ := hx d hd
  have A : ∀ j, (mifSeq driftMat oneAsp 3 4 u (fun _ => -(1/2)) 2 0 (4*b)).t j d = 0 := by
    intro j
    rcases Nat.lt_succ_iff_lt_or_eq.1 hb with hb | rfl
    · obtain rfl : b = 0 := by omega
      rfl
    · show mifTraction 3 _ _ _ _ (some (aspN driftMat oneAsp 4 u 0 3)) _ _ _ j = 0
      rw [n3, mifTraction_open]
  have B : mifPrev 4 u (fun _ => -(1/2)) (4*b) d = -(1/2) := by
    rcases Nat.lt_succ_iff_lt_or_eq.1 hb with hb | rfl
    · obtain rfl : b = 0 := by omega
      rfl
    · exact x3
  have m0 : (4*b) % 4 = 0 := by omega
  have m1 : (4*b + 1) % 4 = 1 := by omega
  have e1 : ∀ j, (mifSeq driftMat oneAsp 3 4 u (fun _ => -(1/2)) 2 0 (4*b + 1)).t j d = mifTraction 3 (u ((4*b) % 4) d)
      (mifPrev 4 u (fun _ => -(1/2)) (4*b) d) (fun i => (mifSeq driftMat oneAsp 3 4 u (fun _ => -(1/2)) 2 0 (4*b)).t i d)
      (mifSeq driftMat oneAsp 3 4 u (fun _ => -(1/2)) 2 0 (4*b)).r (some (aspN driftMat oneAsp 4 u 0 ((4*b) % 4)))
      (aspA driftMat oneAsp 4 u 0 ((4*b) % 4)) driftMat.Gstar 2 j := fun j => rfl
  have e2 : ∀ j, (mifSeq driftMat oneAsp 3 4 u (fun _ => -(1/2)) 2 0 (4*b + 2)).t j d = mifTraction 3 (u ((4*b + 1) % 4) d)
      (u ((4*b) % 4) d) (fun i => (mifSeq driftMat oneAsp 3 4 u (fun _ => -(1/2)) 2 0 (4*b + 1)).t i d)
      (fun j => aspA driftMat oneAsp 4 u 0 ((4*b) % 4) * mifRadius 3 j) (some (aspN driftMat oneAsp 4 u 0 ((4*b + 1) % 4)))
      (aspA driftMat oneAsp 4 u 0 ((4*b + 1) % 4)) driftMat.Gstar 2 j := fun j => rfl
  simp only [m0, m1, n0, a0, n1, a1, B, x0, x1] at e1 e2
  obtain ⟨t0, t1, t2⟩ := drift_tractions (x := 1/2) (x0 := -(1/2)) (r0 := (mifSeq driftMat oneAsp 3 4 u (fun _ => -(1/2)) 2 0 (4*b)).r)
    (t0 := fun i => (mifSeq driftMat oneAsp 3 4 u (fun _ => -(1/2)) 2 0 (4*b)).t i d) (by norm_num) fun i _ => A i
  rw [← e1, ← hc] at t0 t1
  rw [← e1] at t2
  refine ⟨A, B, t0, t1, t2, ?_⟩
  rw [e2, mifTraction_clip, sub_self, mul_zero, zero_add, Q0]
  have := jnpInterp_node (n := 3) (j := 0) (fun j => 1 * mifRadius 3 j)
    (fun i => (mifSeq driftMat oneAsp 3 4 u (fun _ => -(1/2)) 2 0 (4*b + 1)).t i d) (by norm_num)
    fun i k hik => by rw [one_mul, one_mul]; exact mifRadius_lt (by norm_num) hik
  beta_reduce at this
  rw [r0, mul_zero] at this ⊢
  rw [this, t0, clip_inside] <;> nlinarith

/-- The first step in contact is below the friction limit, except at the rim. -/
theorem lift_first {c : ℝ} (hc : c = 3 / 2 / Real.pi) {t : ℕ → ℝ} (ht : ∀ j, t j = 0) (a0 : ℝ) {j : ℕ} (hj : j < 2) :
    |mifTrial 3 driftMat.Gstar 1 1 (1 / 2 - -(1 / 2)) a0 t j| ≠ 2 * mifPressure 3 1 1 j := by
  obtain ⟨q1, q2⟩ := mifKt_half
  have hc0 : 0 < c := by rw [hc]; have := Real.pi_pos; positivity
  have hsq : (43/50 : ℝ) ≤ Real.sqrt (1 - (1 / 2) ^ 2) := Real.le_sqrt_of_sq_le (by norm_num)
  obtain ⟨⟨P0, P1⟩, -, K0, K1⟩ := drift_pressure hc
  unfold mifTrial
  rw [jnpInterp_zero 3 _ _ (fun i _ => ht i) (by norm_num), show (1 / 2 - -(1 / 2) : ℝ) = 1 by norm_num, mul_one, add_zero]
  interval_cases j
  · rw [K0, P0, abs_of_pos hc0]
    linarith
  · rw [K1, P1, abs_of_pos (mul_pos hc0 (by linarith))]
    have : c * mifKt (1 / 2) ≤ c * 1 := mul_le_mul_of_nonneg_left q2.le hc0.le
    have : c * (43/50) ≤ c * Real.sqrt (1 - (1 / 2) ^ 2) := mul_le_mul_of_nonneg_left hsq hc0.le
    exact ne_of_lt (by linarith)

/-- So is the second, at the larger radius. -/
theorem lift_second {c : ℝ} (hc : c = 3 / 2 / Real.pi) {t : ℕ → ℝ} (t0 : t 0 = c) (t1 : t 1 = c * mifKt (1 / 2)) (t2 : t 2 = 0) {j : ℕ} (hj : j < 2) :
    |mifTrial 3 driftMat.Gstar ((6/5) ^ 3) (6/5) (1 / 2 - 1 / 2) 1 t j| ≠ 2 * mifPressure 3 ((6/5) ^ 3) (6/5) j := by
  obtain ⟨q1, q2⟩ := mifKt_half
  have hc0 : 0 < c := by rw [hc]; have := Real.pi_pos; positivity
  have hsq : (43/50 : ℝ) ≤ Real.sqrt (1 - (1 / 2) ^ 2) := Real.le_sqrt_of_sq_le (by norm_num)
  obtain ⟨-, ⟨Q0, Q1⟩, -⟩ := drift_pressure hc
  have r0 : mifRadius 3 0 = 0 := mifRadius_zero _
  have r1 : mifRadius 3 1 = 1 / 2 := by unfold mifRadius; norm_num
  have r2 : mifRadius 3 2 = 1 := by unfold mifRadius; norm_num
  unfold mifTrial
  simp only [sub_self, mul_zero, zero_add, one_mul]
  interval_cases j
  · have := jnpInterp_node (n := 3) (j := 0) (fun j => mifRadius 3 j) t (by norm_num) fun i k hik => mifRadius_lt (by norm_num) hik
    beta_reduce at this
    rw [r0] at this
    rw [r0, mul_zero, this, t0, Q0, abs_of_pos hc0]
    exact ne_of_lt (by linarith)
  · have : c * mifKt (1 / 2) ≤ c * 1 := mul_le_mul_of_nonneg_left q2.le hc0.le
    have : c * (43/50) ≤ c * Real.sqrt (1 - (1 / 2) ^ 2) := mul_le_mul_of_nonneg_left hsq hc0.le
    have h0 : 0 < c * mifKt (1 / 2) := mul_pos hc0 (by linarith)
    rw [r1, interp_three_mid _ _ _ (by rw [r0, r1]; norm_num) (by rw [r1]; norm_num) (by rw [r2]; norm_num)
      (by rw [r1, r2]; norm_num), t1, t2, r1, r2, Q1, abs_of_nonneg (by linarith)]
    exact ne_of_lt (by linarith)

/-- The cycle is smooth. -/
theorem lift_smooth {u : ℕ → ℕ → ℝ} (hx : ∀ d < 2, u 0 d = 1 / 2 ∧ u 1 d = 1 / 2 ∧ u 2 d = -(1 / 2) ∧ u 3 d = -(1 / 2))
    (z0 : u 0 2 = 1) (z1 : u 1 2 = (6/5) ^ 2) (z2 : u 2 2 = -1) (z3 : u 3 2 = -(6/5) ^ 2) :
    SmoothMifCycle driftMat oneAsp 3 4 u (fun _ => -(1/2)) 2 := by
  obtain ⟨hmax, ⟨n0, a0⟩, ⟨n1, a1⟩, ⟨n2, a2⟩, n3, a3⟩ := kink_contact (by norm_num) (by norm_num) z0 z1 z2 z3
  obtain ⟨c, hc⟩ : ∃ c : ℝ, c = 3 / 2 / Real.pi := ⟨_, rfl⟩
  have hc0 : 0 < c := by rw [hc]; have := Real.pi_pos; positivity
  have hst := lift_states hc hx n0 a0 n1 a1 n3
  have r0 : mifRadius 3 0 = 0 := mifRadius_zero _
  have r1 : mifRadius 3 1 = 1 / 2 := by unfold mifRadius; norm_num
  have r2 : mifRadius 3 2 = 1 := by unfold mifRadius; norm_num
  have m0 : ∀ b, (4*b) % 4 = 0 := fun b => by omega
  have m1 : ∀ b, (4*b + 1) % 4 = 1 := fun b => by omega
  have m2 : ∀ b, (4*b + 2) % 4 = 2 := fun b => by omega
  have m3 : ∀ b, (4*b + 3) % 4 = 3 := fun b => by omega
  have f0 : ∀ b < 2, MifFresh driftMat oneAsp 4 u 0 (4*b) := by
    intro b hb
    rcases Nat.lt_succ_iff_lt_or_eq.1 hb with hb | rfl
    · left
      omega
    · right
      exact n3
  have f3 : ∀ b, MifFresh driftMat oneAsp 4 u 0 (4*b + 3) := by
    intro b
    right
    rw [Nat.add_sub_assoc (by norm_num), m2, n2]
  have g1 : ∀ b, mifOld driftMat oneAsp 4 u 0 (4*b + 1) = 1 := by
    intro b
    show aspA driftMat oneAsp 4 u 0 ((4*b) % 4) = 1
    rw [m0, a0]
  have g2 : ∀ b, mifOld driftMat oneAsp 4 u 0 (4*b + 2) = 6/5 := by
    intro b
    show aspA driftMat oneAsp 4 u 0 ((4*b + 1) % 4) = 6/5
    rw [m1, a1]
  have hk0 : ∀ k, k < oneAsp.nasp → k = 0 := fun k hk => Nat.lt_one_iff.1 hk
  refine ⟨fun k hk => ?_, fun k hk => ?_, fun k hk _ F _ t ht => ?_, Or.inr fun k hk => ?_, fun k hk s hs => ?_, fun k hk s hs d hd j hj => ?_⟩
  all_goals obtain rfl := hk0 k hk
  · exact hmax.1.ne'
  · exact hmax.2.ne
  · unfold releasePoint
    rw [if_pos hmax.2]
    simp only [oneAsp, sub_zero]
    interval_cases t
    · rw [z0]; norm_num
    · rw [z1]; norm_num
    · rw [z2]; norm_num
    · rw [z3]; norm_num
  · exact hmax.2
  · obtain ⟨b, i, hb, hi, rfl⟩ : ∃ b i, b < 2 ∧ i < 4 ∧ s = 4*b + i := ⟨s/4, s%4, by omega, by omega, by omega⟩
    interval_cases i
    · exact Or.inl (f0 b hb)
    · right
      rw [m1, n1, a1, g1]
      refine ⟨by rw [r1]; norm_num, Or.inr fun j hj hj0 i hi => ?_⟩
      interval_cases j <;> interval_cases i <;> simp only [r0, r1, r2] <;> norm_num
    · right
      rw [m2, n2, g2]
      exact ⟨by rw [r1]; norm_num, Or.inl rfl⟩
    · exact Or.inl (f3 b)
  · obtain ⟨b, i, hb, hi, rfl⟩ : ∃ b i, b < 2 ∧ i < 4 ∧ s = 4*b + i := ⟨s/4, s%4, by omega, by omega, by omega⟩
    obtain ⟨A, B, t0, t1, t2, t3⟩ := hst b hb d hd
    obtain ⟨x0, x1, x2, x3⟩ := hx d hd
    interval_cases i
    · rw [Nat.add_zero, m0, n0, a0, x0, B]
      rcases Nat.lt_succ_iff_lt_or_eq.1 hj with hj | rfl
      · exact Or.inl (lift_first hc A _ hj)
      · exact Or.inr ⟨Or.inr rfl, Or.inl (f0 b hb)⟩
    · have hprev : mifPrev 4 u (fun _ => -(1/2)) (4*b + 1) d = 1/2 := by
        show u ((4*b) % 4) d = 1/2
        rw [m0, x0]
      rw [m1, n1, a1, g1, x1, hprev]
      rcases Nat.lt_succ_iff_lt_or_eq.1 hj with hj | rfl
      · exact Or.inl (lift_second (t := fun i => (mifSeq driftMat oneAsp 3 4 u (fun _ => -(1/2)) 2 0 (4*b + 1)).t i d) hc t0 t1 t2 hj)
      · exact Or.inr ⟨Or.inr rfl, Or.inr (by norm_num)⟩
    · left
      rw [m2, n2, a2, g2]
      unfold mifTrial mifStiff mifPressure
      simp only [lt_irrefl, if_false, zero_mul, zero_add, mul_zero]
      have := jnpInterp_node (n := 3) (j := 0) (fun j => 6/5 * mifRadius 3 j)
        (fun i => (mifSeq driftMat oneAsp 3 4 u (fun _ => -(1/2)) 2 0 (4*b + 2)).t i d) (by norm_num)
        fun i k hik => mul_lt_mul_of_pos_left (mifRadius_lt (by norm_num) hik) (by norm_num)
      beta_reduce at this
      rw [r0, mul_zero] at this
      rw [this, t3]
      exact (abs_pos.2 hc0.ne').ne'
    · rw [m3, n3]
      exact Or.inr ⟨Or.inl rfl, Or.inl (f3 b)⟩

/-- Opening in every cycle, with stuck tractions at changing radii, the returned derivatives are those of the harmonic forces. -/
example : ∃ out : (ℕ → ℝ) → AftOut, (∀ U, mifAftGrad 3 eye eye driftMat oneAsp 3 2 (fun _ => -(1/2)) U [0, 1] 4 = .ok (out U)) ∧
    JointTrue (fun U _ => out U) (numCoeff [0, 1] * 3) liftU := by
  have hm : driftMat.Fine := ⟨driftMat_good, by unfold driftMat Mat.new; norm_num⟩
  obtain ⟨d1, d2, d3, d4⟩ := drift_values
  obtain ⟨out, o1, -, o3⟩ := C111_aft_partial (h := [0, 1]) ⟨by simp, by decide, by decide⟩ (Nt := 4) (by decide) ⟨2, rfl⟩ (by decide)
    driftMat hm oneAsp (fun k _ => by simp [oneAsp]) (Nr := 3) (by norm_num) 2 (by norm_num) (fun _ => -(1/2)) 3 eye eye
  refine ⟨out, o1, o3 _ _ rfl ?_⟩
  have hsl : sl 0 (numCoeff [0, 1] * 3) liftU = liftU := by
    funext i
    by_cases hi : i < 9
    · simp [sl, numCoeff, hi]
    · have h3 : i ≠ 3 ∧ i ≠ 4 ∧ i ≠ 6 ∧ i ≠ 7 ∧ i ≠ 5 ∧ i ≠ 8 := by omega
      simp [sl, numCoeff, hi, liftU, h3]
  rw [hsl]
  generalize hu : (fun (j d : ℕ) => dofSamples 3 eye [0, 1] 4 liftU d j) = u
  obtain ⟨hx, z0, z1, z2, z3⟩ := lift_samples hu.symm
  exact lift_smooth hx z0 z1 z2 z3

end

end TMD
