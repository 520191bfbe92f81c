import Verif.Lemmas.RoughGradAft
import Verif.Props.JaxGrad
import Verif.Props.RoughGrad
import Verif.Model.LocalForces

/-!
# C108: automatic derivatives of the harmonic forces of rough contact
-/

namespace TMD

open Spec Finset Filter Topology

noncomputable section

/-- C108, finite: whatever the samples of a cycle, all forces and all derivatives are numbers: also for asperities that are never
in contact, that just touch, that just yield or that are just released. The pairs have finitely many tangents: entry `K` is not used. -/
theorem C108_finite (m : Mat) (h : m.Fine) (g : Asperities) (hg : ∀ k < g.nasp, 0 ≤ g.meso + g.gaps k) (mu : ℝ) (u0 : ℕ → ℝ)
    (Nt K : ℕ) (x : ℕ → ℕ → Dual) (hK : ∀ t < Nt, ∀ d < 3, (x t d).d K = 0) (t d : ℕ) (ht : t < Nt) (hd : d < 3) :
    ∃ (f : ℝ) (J : ℕ → ℝ), roughHistGrad m g mu u0 Nt x t d = ⟨some f, fun k => some (J k)⟩ ∧
      roughHistory m g Nt (fun j d => (x j d).v) u0 mu 2 t d = some f := by
  obtain ⟨f, J, e⟩ := (gSteps_fin (g := g) h (by omega : 0 < Nt) x hK hg mu u0 (2 * Nt)).1 t d hd
  have e' : roughHistGrad m g mu u0 Nt x t d = ⟨some f, fun k => some (J k)⟩ := by
    unfold roughHistGrad gRoughHistory
    rw [gRoughFrom_steps]
    exact e
  refine ⟨f, J, e', ?_⟩
  have hv : (roughHistGrad m g mu u0 Nt x t d).v = _ := gRoughHistory_v m g Nt (fun j d => FDual.of (x j d)) (fun d => FDual.const (some (u0 d))) mu 2 t d
  rw [e'] at hv
  rw [← gRoughHistory_flt h]
  exact hv.symm

section main

variable {h : List ℕ} (hA : Admissible h) {Nt : ℕ} (hNt : ∀ k ∈ h, 2*k + 1 < Nt) (heven : Even Nt)
  (hh : 1 < numCoeff h)

include hA hNt heven hh

/-- C108 (partial): `aft` returns the forces of the element and, at cycles where no asperity just touches, just yields, is just
released or is exactly at its friction limit, and where the largest penetration is unique or no asperity yields, their true
derivatives. Missing: the friction limit zero of closed asperities at rest, see `C108_violated`. -/
theorem C108_aft_partial (m : Mat) (hm : m.Fine) (g : Asperities) (hg : ∀ k < g.nasp, 0 ≤ g.meso + g.gaps k) (mu : ℝ) (hmu : 0 ≤ mu)
    (u0 : ℕ → ℝ) (N : ℕ) (Q T : ℕ → ℕ → ℝ) :
    ∃ out : (ℕ → ℝ) → AftOut, (∀ U, roughAftGrad N Q T m g mu u0 U h Nt = .ok (out U)) ∧
      (∀ U w, (PForce.rough N Q T m g mu u0).aftF U w h Nt = .ok (out U).F) ∧
      ∀ Z U, U = sl 0 (numCoeff h * N) Z →
        SmoothCycle m g Nt (fun j d => dofSamples N Q h Nt U d j) u0 mu →
        JointTrue (fun U _ => out U) (numCoeff h * N) Z := by
  have hN := samples_pos hA hNt
  obtain ⟨cst, c3, out, o1, o2, o3⟩ := jaxGrad_joint hA hNt heven hh N 3 Q T
    (fun Nt u _ t d => (roughHistGrad m g mu u0 Nt u t d).real)
    (fun n u _ j d => (roughHistory m g n u u0 mu 2 j d).getD 0)
    (fun n u z j d => by
      show (roughHistGrad m g mu u0 n u j d).v.getD 0 = _
      rw [← gRoughHistory_flt hm]
      exact congrArg (fun z : Flt => z.getD 0) (gRoughHistory_v m g n (fun j d => FDual.of (u j d)) (fun d => FDual.const (some (u0 d))) mu 2 j d))
  refine ⟨out, o1, fun U w => o2 U, fun Z U hU hs => o3 Z U hU (fun j hj d hd => ?_) (fun j hj d hd => ?_)⟩
  all_goals
    have key := roughHist_tracks (n := numCoeff h * N) (K := numCoeff h * 3) (M := kronEye 3 N Q) (X := U) (g := g) hm hN
      (x := dualSamples N 3 Q h Nt cst U) (f := fun j d U => dofSamples N Q h Nt U d j)
      (fun t _ d hd => dualSamples_tracks (Nt := Nt) (m := 3) Q hd (fun U => c3 N Q U d t) U)
      (fun t _ d hd => dualSamples_last Q cst U t hd) hg hmu hs (t := j) hd
  · exact key.real.1
  · exact key.real.2

end main

/-! ## Constant normal displacement -/

section stuck

variable {m : Mat} {g : Asperities} {Nt : ℕ} {u : ℕ → ℕ → ℝ} {z : ℝ}

theorem unMax_const (hN : 0 < Nt) (hz : ∀ t < Nt, u t 2 = z) : unMax Nt u = z := by
  obtain ⟨t, ht, e⟩ := unMax_mem Nt hN u
  rw [e, hz t ht]

theorem asp_const (h : m.Fine) (hN : 0 < Nt) (hz : ∀ t < Nt, u t 2 = z) {k : ℕ} (hg : 0 ≤ g.meso + g.gaps k)
    (h1 : z - g.meso - g.gaps k < 1.9*m.dy) {t : ℕ} (ht : t < Nt) :
    aspN m g Nt u k t = hertz m.Re m.Estar (z - g.meso - g.gaps k) ∧
    aspA m g Nt u k t = if 0 < z - g.meso - g.gaps k then Real.sqrt (m.Re * (z - g.meso - g.gaps k)) else 0 := by
  have hm : cycleMax Nt g u k = z - g.meso - g.gaps k := by
    unfold cycleMax
    rw [unMax_const hN hz]
  have hF := cycleFm_el (Nt := Nt) (u := u) (k := k) h.toGood hg (by rw [hm]; exact h1)
  unfold aspN aspA
  rw [hF, hm, hz t ht]
  rcases le_or_gt (z - g.meso - g.gaps k) 0 with h0 | h0
  · obtain ⟨u1, u2⟩ := unloading_never (un := z - g.meso - g.gaps k) (R := m.Re) (E := m.Estar)
      (Fm := some (hertz m.Re m.Estar (z - g.meso - g.gaps k))) h0
    rw [u1, u2, if_neg (not_lt.2 h0)]
    unfold hertz
    rw [if_neg (not_lt.2 h0)]
    exact ⟨rfl, rfl⟩
  · obtain ⟨u1, u2, -⟩ := unloading_hertz (un := z - g.meso - g.gaps k) h.Re h.Estar h0
    rw [u1, u2]
    exact ⟨rfl, rfl⟩

/-- A slider of constant stiffness that never reaches its limit. -/
theorem vslider_stuck {k L w : ℕ → ℝ} {up c b : ℝ} (hk : ∀ i, k i = c) (hL : ∀ i, L i = b) (hw : ∀ i, |c * (w i - up)| < b) (i : ℕ) :
    vslider k L w up 0 i = c * (w i - up) ∧ vtrial k L w up 0 i = c * (w i - up) := by
  have hclip : ∀ i, clip b (c * (w i - up)) = c * (w i - up) := fun i => by
    obtain ⟨h1, h2⟩ := abs_lt.1 (hw i)
    unfold clip
    rw [min_eq_left h2.le, max_eq_right h1.le]
  induction i with
  | zero =>
    simp only [vslider, vtrial, hk, hL, add_zero]
    exact ⟨hclip 0, trivial⟩
  | succ i ih =>
    have e : c * (w (i + 1) - w i) + c * (w i - up) = c * (w (i + 1) - up) := by ring
    simp only [vslider, vtrial, hk, hL, ih.1, e]
    exact ⟨hclip _, trivial⟩

/-- Cycles with constant normal displacement in the elastic range and tangential motion below the friction limit of all closed
asperities have no kinks. -/
theorem smooth_stuck (h : m.Fine) (hN : 0 < Nt) (hg : ∀ k < g.nasp, 0 ≤ g.meso + g.gaps k) {u0 : ℕ → ℝ} {mu : ℝ}
    (hz : ∀ t < Nt, u t 2 = z) (h0 : ∀ k < g.nasp, z - g.meso - g.gaps k ≠ 0) (h1 : ∀ k < g.nasp, z - g.meso - g.gaps k < 1.9*m.dy)
    (hst : ∀ k < g.nasp, 0 < z - g.meso - g.gaps k → ∀ d < 2, ∀ t < Nt,
      |8*m.Gstar*Real.sqrt (m.Re * (z - g.meso - g.gaps k)) * (u t d - u0 d)| < mu * hertz m.Re m.Estar (z - g.meso - g.gaps k)) :
    SmoothCycle m g Nt u u0 mu := by
  have hm : ∀ k, cycleMax Nt g u k = z - g.meso - g.gaps k := fun k => by
    unfold cycleMax
    rw [unMax_const hN hz]
  refine ⟨fun k hk => by rw [hm]; exact h0 k hk, fun k hk => by rw [hm]; exact (h1 k hk).ne, fun k hk hp F e t ht => ?_, fun k hk d hd s hs => ?_,
    Or.inr fun k hk => by rw [hm]; exact h1 k hk⟩
  · unfold releasePoint
    rw [hm, if_pos (h1 k hk), hz t ht]
    exact h0 k hk
  · have ht : ∀ s, s % Nt < Nt := fun s => Nat.mod_lt _ hN
    have hN' := fun s => (asp_const h hN hz (hg k hk) (h1 k hk) (ht s)).1
    have hA' := fun s => (asp_const h hN hz (hg k hk) (h1 k hk) (ht s)).2
    rcases lt_or_gt_of_ne (h0 k hk) with hl | hl
    · right
      have e : hertz m.Re m.Estar (z - g.meso - g.gaps k) = 0 := by
        unfold hertz
        rw [if_neg (not_lt.2 hl.le)]
      rw [hN', hN', e]
      exact ⟨rfl, Or.inr rfl⟩
    · left
      rw [(vslider_stuck (k := periodic Nt fun t => 8 * m.Gstar * aspA m g Nt u k t) (L := periodic Nt fun t => mu * aspN m g Nt u k t)
        (w := periodic Nt fun t => u t d) (c := 8*m.Gstar*Real.sqrt (m.Re * (z - g.meso - g.gaps k)))
        (b := mu * hertz m.Re m.Estar (z - g.meso - g.gaps k)) (fun i => by simp only [periodic, hA', if_pos hl])
        (fun i => by simp only [periodic, hN']) (fun i => hst k hk hl d hd _ (ht i)) s).2, hN']
      exact (hst k hk hl d hd _ (ht s)).ne

end stuck

/-! ## No friction -/

/-- The program on pairs for harmonics 0 and 1, four samples and identity matrices. -/
theorem quarter_rough (hist : ℕ → (ℕ → ℕ → Dual) → (ℕ → Dual) → ℕ → ℕ → Dual) :
    ∃ (out : (ℕ → ℝ) → AftOut) (smp : (ℕ → ℝ) → ℕ → ℕ → Dual), (∀ U, jaxAftGrad 3 3 eye eye hist U [0, 1] 4 = .ok (out U)) ∧
      (∀ U j d, (smp U j d).v = localMotion 3 eye [0, 1] U d (2 * Real.pi * j / (4 : ℕ))) ∧
      (∀ U j, (smp U j 0).d 3 = Real.cos (2 * Real.pi * j / 4)) ∧ (∀ U j, ∀ d < 3, (smp U j d).d 9 = 0) ∧
      ∀ U ft, ft = hist 4 (smp U) (dualStart 3 3 eye U) →
        ((∀ j < 4, (ft j 0).v = 0) → (out U).F 3 = 0) ∧ (out U).dU 3 3 = ((ft 0 0).d 3 - (ft 2 0).d 3) / 2 := by
  obtain ⟨cst, W, c1, c2, c3, H⟩ := jaxGrad_ok (h := [0, 1]) ⟨by simp, by decide, by decide⟩ (Nt := 4) (by decide) ⟨2, rfl⟩
    (by decide)
  choose out J Fh o1 o2 using H 3 3 eye eye hist
  refine ⟨out, dualSamples 3 3 eye [0, 1] 4 cst, o1, fun U j d => rfl, fun U j => ?_, fun U j d hd => dualSamples_last eye cst U j hd,
    fun U ft hft => ?_⟩
  · rw [← quarter_samples c3 j]
    have e0 : seed 3 3 0 0 = 0 := by simp [seed]
    have e1 : seed 3 3 1 0 = 1 := by simp [seed]
    have e2 : seed 3 3 2 0 = 0 := by simp [seed]
    simp [dualSamples, numCoeff, sum_range_succ, e0, e1, e2]
  · obtain ⟨f1, f2, f3, f4, -⟩ := o2 U ft hft
    constructor
    · intro h0
      obtain ⟨v, v1, v2⟩ := c2 fun j d => (ft j d).v
      rw [f1] at v1
      obtain rfl := Except.ok.inj v1
      rw [f2]
      unfold toGlobal matMul
      refine sum_eq_zero fun d hd => ?_
      by_cases hd0 : d = 0
      · beta_reduce
        rw [v2 _ (by decide) d, sum_eq_zero, mul_zero]
        intro j hj
        rw [hd0, h0 j (mem_range.1 hj), mul_zero]
      · simp [eye, Ne.symm hd0]
    · have hlt : 3 < numCoeff [0, 1] * 3 := by decide
      rw [f3, matMul_kronEye_right _ _ _ _ _ _ hlt]
      simp only [Nat.div_self, Nat.mod_self, one_mul, zero_lt_three]
      rw [sum_eq_single_of_mem 0 (mem_range.2 zero_lt_three)]
      · rw [matMul_kronEye_left _ _ _ _ _ hlt]
        simp only [Nat.div_self, Nat.mod_self, one_mul, zero_lt_three]
        rw [sum_eq_single_of_mem 0 (mem_range.2 zero_lt_three)]
        · have := f4 1 (by decide) 0 zero_lt_three 3
          rw [one_mul, add_zero] at this
          simp only [add_zero, this, eye, if_true, one_mul, mul_one]
          exact quarter_weights c2 fun j => (ft j 0).d 3
        · intro d hd hd0
          simp [eye, Ne.symm hd0]
      · intro d hd hd0
        simp [eye, hd0]

/-- Friction limit zero at rest. -/
theorem gTan_rest (G fn a : ℝ) (g g' g'' g1 g2 : ℕ → ℝ) :
    gTan fdualNum G 0 ⟨some 0, fun k => some (g k)⟩ ⟨some 0, fun k => some (g' k)⟩ ⟨some 0, fun k => some (g'' k)⟩
      ⟨some fn, fun k => some (g1 k)⟩ ⟨some a, fun k => some (g2 k)⟩
      = ⟨some 0, fun k => some ((8*G*a*(g k - g' k) + g'' k) / 4)⟩ := by
  unfold gTan
  simp only [fdual_const_some, fdual_mul_some, fdual_sub_some, fdual_add_some, fdual_min_some, fdual_max_some]
  congr 1
  · norm_num
  · funext k
    norm_num [balanced]
    ring

theorem not_joint_of_const {out : (ℕ → ℝ) → AftOut} {L i : ℕ} {Z : ℕ → ℝ} (hi : i < L) (hd : (out (sl 0 L Z)).dU i i ≠ 0)
    (h0 : ∀ U, (out U).F i = 0) : ¬ JointTrue (fun U _ => out U) L Z := by
  intro h
  refine not_hasGrad_of_const (i := i) (by omega) ?_ (Eventually.of_forall fun v => h0 _) (h i hi)
  rw [if_pos hi]
  exact hd

theorem FFin.pair {x : FDual} (h : FFin x) {a : ℝ} (hv : x.v = some a) : ∃ g : ℕ → ℝ, x = ⟨some a, fun k => some (g k)⟩ := by
  obtain ⟨b, g, rfl⟩ := h
  obtain rfl := Option.some.inj hv
  exact ⟨g, rfl⟩

/-- The previous entry, 0 at first. -/
def stepBefore (f : ℕ → ℝ) : ℕ → ℝ
  | 0 => 0
  | s + 1 => f s

theorem aspT_zero (m : Mat) (g : Asperities) (Nt : ℕ) (u : ℕ → ℕ → ℝ) (u0 : ℕ → ℝ) (k d s : ℕ) : aspT m g Nt u u0 0 k d s = 0 := by
  unfold aspT
  cases s <;> simp [vslider, periodic, clip]

/-- One elastic asperity without friction that is pressed and does not move: tangents of its friction force. -/
theorem rest_steps {m : Mat} (h : m.Fine) {z : ℝ} (hz : 0 < z) (hzy : z < 1.9*m.dy) (x : ℕ → ℕ → Dual) (h2 : ∀ j, (x j 2).v = z)
    (h0 : ∀ j, (x j 0).v = 0) (hK : ∀ t < 4, ∀ d < 3, (x t d).d 9 = 0) (k s : ℕ) (S : GHist FDual)
    (hS : S = gSteps fdualNum m oneAsp 4 (fun j d => FDual.of (x j d)) (fdualNum.maxOf 4 fun t => FDual.of (x t 2))
      (fun d => FDual.const (some ((fun _ => 0 : ℕ → ℝ) d))) 0 s) :
    (S.uxyn0 0).d k = some (stepBefore (fun i => (x (i % 4) 0).d k) s) ∧
    (S.fxy0 0 0).d k = some (stepBefore (restTangent (8*m.Gstar*Real.sqrt (m.Re*z)) (fun i => (x (i % 4) 0).d k) 0 0) s) ∧
    ∀ s' < s, s ≤ s' + 4 → (S.ft (s' % 4) 0).d k
      = some (restTangent (8*m.Gstar*Real.sqrt (m.Re*z)) (fun i => (x (i % 4) 0).d k) 0 0 s') := by
  induction s generalizing S with
  | zero =>
    subst hS
    exact ⟨rfl, rfl, fun s' h => absurd h (Nat.not_lt_zero _)⟩
  | succ s ih =>
    obtain ⟨i1, i2, i3⟩ := ih _ rfl
    have hg : ∀ k < oneAsp.nasp, 0 ≤ oneAsp.meso + oneAsp.gaps k := fun k _ => by simp [oneAsp]
    have hfin := gSteps_fin (g := oneAsp) h (by norm_num : 0 < 4) x hK hg 0 (fun _ => 0) s
    have hmax : (fdualNum.maxOf 4 fun t => FDual.of (x t 2)).v = some (unMax 4 fun j d => (x j d).v) := by
      rw [fdual_maxOf]
      exact maxOfF_some 4 fun j d => (x j d).v
    have hval := gSteps_values (g := oneAsp) h (by norm_num : 0 < 4) x rfl hmax (fun _ => 0) 0 s
    have hum : (unMax 4 fun j d => (x j d).v) = z := unMax_const (by norm_num) fun t _ => h2 t
    obtain ⟨c, -, -, -, hxu⟩ := maxOf_tracks (n := 0) (K := 9) (M := fun _ _ => 0) (X := fun _ => 0) 4 (by norm_num)
      (f := fun t d _ => (x t d).v) (fun t _ => tracks_trivial (x t 2)) (fun t ht => hK t ht 2 (by omega))
    have ht : s % 4 < 4 := Nat.mod_lt _ (by norm_num)
    have hx2 : FT 0 9 (fun _ _ => 0) (fun _ => 0) (fun _ => some (x (s % 4) 2).v) (FDual.of (x (s % 4) 2)) (x (s % 4) 2).v :=
      ⟨ftracks_of (tracks_trivial _) (hK _ ht 2 (by omega)), rfl⟩
    obtain ⟨hf1, hf2⟩ := gUnl_cycle_fin (g := oneAsp) (k := 0) (t := s % 4) (u := fun j d => (x j d).v) h hxu ht hx2 (hg 0 (by simp [oneAsp]))
    generalize hp1 : (gUnl fdualNum m.Re m.Estar (gGap fdualNum oneAsp (FDual.of (x (s % 4) 2)) 0)
      (gGap fdualNum oneAsp (fdualNum.maxOf 4 fun t => FDual.of (x t 2)) 0)
      (gFmax fdualNum m oneAsp (fdualNum.maxOf 4 fun t => FDual.of (x t 2)) 0)) = p at hf1 hf2
    have hpv : p.2.v = some (Real.sqrt (m.Re*z)) := by
      have e : (gFmax fdualNum m oneAsp (fdualNum.maxOf 4 fun t => FDual.of (x t 2)) 0).v = gFmax fltNum m oneAsp (some z) 0 := by
        unfold gFmax
        rw [(gGeneral_v _ _ _ _).1, gGap_v, hmax, hum]
        rfl
      have e' : (gGap fdualNum oneAsp (FDual.of (x (s % 4) 2)) 0).v = some z := by
        rw [gGap_v]
        show gGap fltNum oneAsp (some (x (s % 4) 2).v) 0 = _
        rw [h2, gGap_flt]
        simp [oneAsp]
      rw [← hp1, (gUnl_v _ _ _ _ _).2, e, e', gGap_v, hmax, hum,
        gUnl_elastic h (hg 0 (by simp [oneAsp])) z (by simp [oneAsp]; exact hz) (by simp [oneAsp]; linarith), if_pos hz]
    obtain ⟨fn, g1, q1⟩ := hf1
    obtain ⟨g2, q2⟩ := hf2.pair hpv
    obtain ⟨v1, v2⟩ := hval
    have w1 : ∀ S0 : GHist FDual, S0 = gSteps fdualNum m oneAsp 4 (fun j d => FDual.of (x j d)) (fdualNum.maxOf 4 fun t => FDual.of (x t 2))
      (fun d => FDual.const (some ((fun _ => 0 : ℕ → ℝ) d))) 0 s → (S0.uxyn0 0).v = some 0 ∧ (S0.fxy0 0 0).v = some 0 := by
      rintro S0 rfl
      rw [v1, v2]
      cases s with
      | zero => exact ⟨rfl, rfl⟩
      | succ s =>
        simp only [aspT_zero, h0]
        exact ⟨trivial, trivial⟩
    generalize hS0 : gSteps fdualNum m oneAsp 4 (fun j d => FDual.of (x j d)) (fdualNum.maxOf 4 fun t => FDual.of (x t 2))
      (fun d => FDual.const (some ((fun _ => 0 : ℕ → ℝ) d))) 0 s = S0 at hfin i1 i2 i3
    obtain ⟨w1, w2⟩ := w1 S0 hS0.symm
    obtain ⟨ga, qa⟩ := (hfin.2.1 0 (by norm_num)).pair w1
    obtain ⟨gb, qb⟩ := (hfin.2.2 0 (by simp [oneAsp]) 0 (by norm_num)).pair w2
    have hrest : stepBefore (restTangent (8*m.Gstar*Real.sqrt (m.Re*z)) (fun i => (x (i % 4) 0).d k) 0 0) (s + 1)
        = (8*m.Gstar*Real.sqrt (m.Re*z)*((x (s % 4) 0).d k - ga k) + gb k) / 4 := by
      rw [qa] at i1
      rw [qb] at i2
      rw [Option.some.inj i1, Option.some.inj i2]
      cases s <;> rfl
    have hT : gTan fdualNum m.Gstar 0 (FDual.of (x (s % 4) 0)) (S0.uxyn0 0) (S0.fxy0 0 0) p.1 p.2
        = ⟨some 0, fun k => some ((8*m.Gstar*Real.sqrt (m.Re*z)*((x (s % 4) 0).d k - ga k) + gb k) / 4)⟩ := by
      have e : FDual.of (x (s % 4) 0) = ⟨some 0, fun k => some ((x (s % 4) 0).d k)⟩ := by
        unfold FDual.of
        rw [h0]
      rw [e, qa, qb, q1, q2, gTan_rest]
    rw [gSteps_succ, hS0] at hS
    subst hS
    refine ⟨rfl, ?_, fun s' hs' hle => ?_⟩
    · rw [hrest]
      show (gTan fdualNum m.Gstar 0 (FDual.of (x (s % 4) 0)) (S0.uxyn0 0) (S0.fxy0 0 0) _ _).d k = _
      beta_reduce
      rw [hp1, hT]
    · rcases Nat.lt_succ_iff_lt_or_eq.1 hs' with hlt | rfl
      · rw [← i3 s' hlt (by omega)]
        unfold gRoughBody setRow
        simp only
        rw [if_neg (by omega)]
      · unfold gRoughBody setRow
        simp only
        rw [if_pos trivial, if_pos (by norm_num)]
        show (fdualNum.add (fdualNum.const 0) (fdualNum.mul (fdualNum.const 1) (gTan fdualNum m.Gstar 0 (FDual.of (x (s' % 4) 0)) (S0.uxyn0 0)
          (S0.fxy0 0 0) _ _))).d k = _
        rw [hp1, hT]
        simp only [fdual_const_some, fdual_mul_some, fdual_add_some]
        have := hrest
        simp only [stepBefore] at this
        rw [this]
        ring_nf

/-- Constant normal displacement as harmonic coefficients. -/
def pressedU (z : ℝ) : ℕ → ℝ := fun i => if i = 2 then z else 0

theorem pressedU_motion (z : ℝ) {d : ℕ} (hd : d < 3) (t : ℝ) :
    localMotion 3 eye [0, 1] (pressedU z) d t = if d = 2 then z else 0 := by
  interval_cases d <;> simp [localMotion, eye, series, pressedU]

/-- C108 fails without friction, which is what `set_prestress_mu` sets: there is no tangential force, whatever the displacements,
but for one asperity pressed into the elastic range that does not move the returned derivative is 29 % of its stiffness. -/
theorem C108_violated (m : Mat) (h : m.Fine) (hG : m.Gstar ≠ 0) {z : ℝ} (hz : 0 < z) (hzy : z < 1.9*m.dy) :
    ∃ out : (ℕ → ℝ) → AftOut, (∀ U, roughAftGrad 3 eye eye m oneAsp 0 (fun _ => 0) U [0, 1] 4 = .ok (out U)) ∧
      (∀ U, (out U).F 3 = 0) ∧
      (out (pressedU z)).dU 3 3 = 9635 / 32768 * (8*m.Gstar*Real.sqrt (m.Re*z)) ∧
      ¬ JointTrue (fun U _ => out U) 9 (pressedU z) := by
  obtain ⟨out, smp, o1, o2, o3, o3', o4⟩ := quarter_rough
    (fun Nt u _ t d => (roughHistGrad m oneAsp 0 (fun _ => 0) Nt u t d).real)
  have hF : ∀ U, (out U).F 3 = 0 := by
    intro U
    refine (o4 U _ rfl).1 fun j hj => ?_
    show (roughHistGrad m oneAsp 0 (fun _ => 0) 4 (smp U) j 0).v.getD 0 = 0
    have hv : (roughHistGrad m oneAsp 0 (fun _ => 0) 4 (smp U) j 0).v = _ :=
      gRoughHistory_v m oneAsp 4 (fun j d => FDual.of (smp U j d)) (fun d => FDual.const (some ((fun _ => 0 : ℕ → ℝ) d))) 0 2 j 0
    rw [hv]
    have e := gRoughHistory_flt h oneAsp 4 (fun j d => (smp U j d).v) (fun _ => 0) 0 2
    have e' := congrFun (congrFun e j) 0
    refine Eq.trans (congrArg (fun z : Flt => z.getD 0) e') ?_
    have := roughHistory_eq m oneAsp 4 (fun j d => (smp U j d).v) h.Estar.le (fun _ => 0) 0 1 j 0 hj
    rw [show (2 : ℕ) = 1 + 1 from rfl, this]
    show roughTotal _ _ _ _ _ _ _ _ = 0
    unfold roughTotal
    rw [if_pos (by norm_num)]
    exact sum_eq_zero fun k _ => by rw [aspT_zero, mul_zero]
  have hd : (out (pressedU z)).dU 3 3 = 9635 / 32768 * (8*m.Gstar*Real.sqrt (m.Re*z)) := by
    rw [(o4 _ _ rfl).2]
    have key := rest_steps h hz hzy (smp (pressedU z)) (fun j => by rw [o2, pressedU_motion z (by norm_num), if_pos rfl])
      (fun j => by rw [o2, pressedU_motion z (by norm_num), if_neg (by norm_num)]) (fun t _ d hd => o3' _ t d hd) 3 8 _ rfl
    have e : ∀ s' < 8, 8 ≤ s' + 4 → (roughHistGrad m oneAsp 0 (fun _ => 0) 4 (smp (pressedU z)) (s' % 4) 0).real.d 3
        = restTangent (8*m.Gstar*Real.sqrt (m.Re*z)) (fun i => (smp (pressedU z) (i % 4) 0).d 3) 0 0 s' := by
      intro s' h1 h2
      have := key.2.2 s' h1 h2
      unfold roughHistGrad gRoughHistory
      rw [gRoughFrom_steps]
      show (FDual.d _ 3).getD 0 = _
      rw [this]
      rfl
    have e0 := e 4 (by norm_num) (by norm_num)
    have e2 := e 6 (by norm_num) (by norm_num)
    rw [show (4 % 4 : ℕ) = 0 from rfl] at e0
    rw [show (6 % 4 : ℕ) = 2 from rfl] at e2
    rw [e0, e2]
    exact restTangent_cos _ _ fun j => o3 _ _
  refine ⟨out, o1, hF, hd, not_joint_of_const (i := 3) (by norm_num) ?_ hF⟩
  have e : sl 0 9 (pressedU z) = pressedU z := by
    funext i
    simp [sl, pressedU]
    omega
  rw [e, hd]
  have := Real.sqrt_pos.2 (mul_pos h.Re hz)
  exact mul_ne_zero (by norm_num) (mul_ne_zero (mul_ne_zero (by norm_num) hG) this.ne')

/-! ## Examples -/

/-- One asperity at constant pressure that is driven below its friction limit. -/
example : ∃ out : (ℕ → ℝ) → AftOut, (∀ U, roughAftGrad 3 eye eye driftMat oneAsp 1 (fun _ => 0) U [0, 1] 4 = .ok (out U)) ∧
    JointTrue (fun U _ => out U) (numCoeff [0, 1] * 3) (fun i => if i = 2 then 1 else if i = 3 then 1/2 else 0) := by
  have hm : driftMat.Fine := ⟨driftMat_good, by unfold driftMat Mat.new; norm_num⟩
  obtain ⟨d1, d2, d3, d4⟩ := drift_values
  obtain ⟨out, o1, -, o3⟩ := C108_aft_partial (h := [0, 1]) ⟨by simp, by decide, by decide⟩ (Nt := 4) (by decide) ⟨2, rfl⟩ (by decide)
    driftMat hm oneAsp (fun k _ => by simp [oneAsp]) 1 zero_le_one (fun _ => 0) 3 eye eye
  refine ⟨out, o1, o3 _ _ rfl ?_⟩
  have hs : ∀ d < 3, ∀ j, dofSamples 3 eye [0, 1] 4 (sl 0 (numCoeff [0, 1] * 3) fun i => if i = 2 then 1 else if i = 3 then 1/2 else 0) d j
      = if d = 2 then 1 else if d = 0 then 1/2 * Real.cos (2 * Real.pi * j / 4) else 0 := by
    intro d hd j
    unfold dofSamples
    interval_cases d <;> simp [localMotion, eye, series, sl, numCoeff]
  refine smooth_stuck (z := 1) hm (by norm_num) (fun k _ => by simp [oneAsp]) (fun t _ => by rw [hs 2 (by norm_num), if_pos rfl])
    (fun k _ => by simp [oneAsp]) (fun k _ => by simp [oneAsp]; linarith) fun k _ _ d hd t _ => ?_
  rw [hs d (by omega)]
  simp only [d1, d2, d3, oneAsp, sub_zero, hertz_examples.1, mul_one, Real.sqrt_one]
  rw [if_neg (by omega)]
  by_cases h0 : d = 0
  · rw [if_pos h0, abs_mul, abs_mul]
    have := Real.abs_cos_le_one (2 * Real.pi * t / 4)
    norm_num
    linarith
  · rw [if_neg h0]
    norm_num

end

end TMD
