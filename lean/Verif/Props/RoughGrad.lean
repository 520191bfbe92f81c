import Verif.Lemmas.RoughGradStatic
import Verif.Props.RoughStatic
import Verif.Lemmas.JaxGradRest

/-!
# C107: automatic derivatives of the static force of rough contact
-/

namespace TMD

open Spec Finset Filter Topology

noncomputable section

/-- Objects that the public functions produce; static updates never at exactly the yield limit of an asperity (`C81_violated`). -/
inductive RoughReach (m : Mat) (g : Asperities) : RoughObj → Prop
  | new {mu : ℝ} : 0 ≤ mu → RoughReach m g (RoughObj.new mu)
  | init {o : RoughObj} : RoughReach m g o → RoughReach m g o.initHistory
  | prestress {o : RoughObj} : RoughReach m g o → RoughReach m g o.setPrestressMu
  | real {o : RoughObj} : RoughReach m g o → RoughReach m g o.resetRealMu
  | force {o : RoughObj} {u : ℕ → ℝ} (upd : Bool) : RoughReach m g o → (∀ k < g.nasp, u 2 - g.meso - g.gaps k ≠ 1.9*m.dy) →
      RoughReach m g (o.force m g u upd).2

/-- What holds for all of them. -/
structure RoughReady (m : Mat) (g : Asperities) (o : RoughObj) : Prop where
  mu : 0 ≤ o.mu
  realMu : 0 ≤ o.realMu
  prestressMu : 0 ≤ o.prestressMu
  state : ∀ k < g.nasp, AspState m (o.unmax - g.meso - g.gaps k) (o.Fm k)
  fxy0 : ∀ k < g.nasp, ∀ d, ∃ f, o.fxy0 k d = some f

theorem RoughReach.ready {m : Mat} (h : m.Good) {g : Asperities} (hg : ∀ k < g.nasp, 0 ≤ g.meso + g.gaps k) {o : RoughObj}
    (ho : RoughReach m g o) : RoughReady m g o := by
  have hinit : ∀ k < g.nasp, AspState m (0 - g.meso - g.gaps k) (some 0) := fun k hk =>
    ⟨0, rfl, le_rfl, fun hp => by linarith [hg k hk]⟩
  induction ho with
  | new hmu => exact ⟨hmu, hmu, le_rfl, hinit, fun _ _ _ => ⟨0, rfl⟩⟩
  | init _ ih => exact ⟨ih.mu, ih.realMu, ih.prestressMu, hinit, fun _ _ _ => ⟨0, rfl⟩⟩
  | prestress _ ih => exact ⟨ih.prestressMu, ih.realMu, ih.prestressMu, ih.state, ih.fxy0⟩
  | real _ ih => exact ⟨ih.realMu, ih.realMu, ih.prestressMu, ih.state, ih.fxy0⟩
  | @force o u upd _ hne ih =>
    cases upd with
    | false => exact ih
    | true =>
      refine ⟨ih.mu, ih.realMu, ih.prestressMu, fun k hk => ?_, fun k hk d => ?_⟩
      · show AspState m (max (u 2) o.unmax - g.meso - g.gaps k) _
        have e : max (u 2) o.unmax - g.meso - g.gaps k
            = max (u 2 - g.meso - g.gaps k) (o.unmax - g.meso - g.gaps k) := by
          rw [max_sub_sub_right, max_sub_sub_right]
        rw [e]
        exact ((ih.state k hk).general h (hne k hk)).2
      · obtain ⟨⟨f, a, h1, h2, -⟩, -⟩ := (ih.state k hk).general h (hne k hk)
        obtain ⟨f0, hf0⟩ := ih.fxy0 k hk d
        refine ⟨max (-(o.mu*f)) (min (8*m.Gstar*a*(u d - o.uxyn0 d) + f0) (o.mu*f)), ?_⟩
        show tangentialAsp _ _ (o.fxy0 k d) (general m _ _ _).fn (general m _ _ _).a _ _ = _
        rw [hf0, h1, h2, tangentialAsp_clip]

/-- Values as numbers. -/
theorem RoughReady.values {m : Mat} {g : Asperities} {o : RoughObj} (ho : RoughReady m g o) :
    ∃ (Fm : ℕ → ℝ) (f0 : ℕ → ℕ → ℝ), (∀ k < g.nasp, o.Fm k = some (Fm k)) ∧ (∀ k < g.nasp, ∀ d < 2, o.fxy0 k d = some (f0 k d)) ∧
      ∀ k < g.nasp, 0 < o.unmax - g.meso - g.gaps k → 0 < Fm k := by
  refine ⟨fun k => (o.Fm k).getD 0, fun k d => (o.fxy0 k d).getD 0, fun k hk => ?_, fun k hk d _ => ?_, fun k hk hp => ?_⟩
  · obtain ⟨f, e, -⟩ := (ho.state k hk).ok
    simp [e]
  · obtain ⟨f, e⟩ := ho.fxy0 k hk d
    simp [e]
  · obtain ⟨f, e, -, hf⟩ := (ho.state k hk).ok
    beta_reduce
    rw [e]
    exact hf hp

/-- C107, finite: whatever the displacement, force and derivatives are numbers, also for asperities that were never in contact,
that just touch, that yield or that are just released. -/
theorem C107_finite (m : Mat) (h : m.Fine) (g : Asperities) (hg : ∀ k < g.nasp, 0 ≤ g.meso + g.gaps k) (o : RoughObj)
    (ho : RoughReach m g o) (N : ℕ) (Q : ℕ → ℕ → ℝ) (X : ℕ → ℝ) (d : ℕ) (hd : d < 3) :
    ∃ (f : ℝ) (J : ℕ → ℝ), roughForceLocal m g o (matVec N Q X) d = ⟨some f, fun k => some (J k)⟩ ∧
      (o.force m g (matVec N Q X) false).1 d = some f := by
  obtain ⟨Fm, f0, h1, h2, h3⟩ := (ho.ready h.toGood hg).values
  obtain ⟨f, J, e⟩ := static_fin h g o N Q X h1 h2 h3 hd
  refine ⟨f, J, e, ?_⟩
  have := gStaticRough_v m g (FDual.const (some o.unmax)) (fun k => FDual.const (o.Fm k)) (fun d => FDual.const (some (o.uxyn0 d)))
    (fun k d => FDual.const (o.fxy0 k d)) o.mu (fun d => ⟨some (matVec N Q X d), fun k => some (eye k d)⟩) d
  change (roughForceLocal m g o (matVec N Q X) d).v = _ at this
  rw [e] at this
  exact ((gStaticRough_flt h g o (matVec N Q X) d).symm.trans this.symm)

/-- C107 (partial): the returned derivative is that of the force, at displacements where no asperity is at the point of release
or the onset of yielding, and none is exactly at its friction limit unless it is open without a previous force. Missing: the
friction limit zero of closed asperities that do not move, see `C107_violated`. -/
theorem C107_static_partial (m : Mat) (h : m.Fine) (g : Asperities) (hg : ∀ k < g.nasp, 0 ≤ g.meso + g.gaps k) (o : RoughObj)
    (ho : RoughReach m g o) (N : ℕ) (Q T : ℕ → ℕ → ℝ) (X u : ℕ → ℝ) (hu : u = matVec N Q X)
    (hsm : ∀ k < g.nasp, ∀ F, o.Fm k = some F → SmoothAsp m (u 2 - g.meso - g.gaps k) (o.unmax - g.meso - g.gaps k) F)
    (ht : ∀ k < g.nasp, ∀ d < 2, ∀ f0 fn a, o.fxy0 k d = some f0 →
      (general m (u 2 - g.meso - g.gaps k) (o.unmax - g.meso - g.gaps k) (o.Fm k)).fn = some fn →
      (general m (u 2 - g.meso - g.gaps k) (o.unmax - g.meso - g.gaps k) (o.Fm k)).a = some a →
      |8*m.Gstar*a*(u d - o.uxyn0 d) + f0| ≠ o.mu*fn ∨ fn = 0 ∧ f0 = 0) :
    (roughForceGrad N Q T m g o X).1 = matVec 3 T (fun d => ((o.force m g u false).1 d).getD 0) ∧
    HasJac N N (fun X => matVec 3 T fun d => ((o.force m g (matVec N Q X) false).1 d).getD 0) (roughForceGrad N Q T m g o X).2 X := by
  subst hu
  have hr := ho.ready h.toGood hg
  obtain ⟨Fm, f0, h1, h2, h3⟩ := hr.values
  have htr : ∀ d < 3, FTracks N 3 Q X (fun U => (staticRough m g o (matVec N Q U)).fxyn d) (roughForceLocal m g o (matVec N Q X) d) :=
    fun d hd => static_tracks h g o hr.mu N Q X h1 h2 h3 (fun k hk => hsm k hk _ (h1 k hk))
      (fun k hk d hd fn ca => ht k hk d hd (f0 k d) fn ca (h2 k hk d hd)) hd
  constructor
  · funext i
    show ∑ d ∈ range 3, T i d * ((roughForceLocal m g o (matVec N Q X) d).v).getD 0
      = ∑ d ∈ range 3, T i d * ((staticRough m g o (matVec N Q X)).fxyn d).getD 0
    refine sum_congr rfl fun d hd => ?_
    have := (htr d (mem_range.1 hd)).val
    beta_reduce at this
    rw [this]
  · intro i _
    have hsum : HasGrad N (fun U => ∑ d ∈ range 3, T i d * ((staticRough m g o (matVec N Q U)).fxyn d).getD 0)
        (fun q => ∑ d ∈ range 3, T i d * ∑ k ∈ range 3, (roughForceLocal m g o (matVec N Q X) d).real.d k * Q k q) X :=
      HasGrad.sum fun d hd => HasGrad.const_mul _ (htr d (mem_range.1 hd)).real.1.2
    refine hsum.congr fun q _ => ?_
    unfold roughForceGrad matMul
    simp only [sum_mul, mul_sum]
    rw [sum_comm]
    exact sum_congr rfl fun k _ => sum_congr rfl fun d _ => by ring

/-! ## One elastic asperity -/

/-- Displacement by `x` in the first and `z` in the normal direction. -/
def pushed (x z : ℝ) : ℕ → ℝ := fun d => if d = 0 then x else if d = 2 then z else 0

/-- First pressing of one asperity. -/
theorem one_local {m : Mat} (h : m.Fine) {o : RoughObj} (h1 : o.unmax = 0) (h2 : o.Fm 0 = some 0) (h3 : o.uxyn0 0 = 0)
    (h4 : o.fxy0 0 0 = some 0) (x : ℝ) {z : ℝ} (hz : 0 < z) (hzy : z < 1.9*m.dy) :
    ∃ g1 g2 : ℕ → ℝ, roughForceLocal m oneAsp o (pushed x z) 0
      = fdualNum.add (fdualNum.const 0) (fdualNum.mul (fdualNum.const 1) (gTan fdualNum m.Gstar o.mu
          ⟨some x, fun k => some (eye k 0)⟩ (fdualNum.const 0) (fdualNum.const 0) ⟨some (hertz m.Re m.Estar z), fun k => some (g1 k)⟩
          ⟨some (Real.sqrt (m.Re*z)), fun k => some (g2 k)⟩)) := by
  have hdy := h.dy
  have hx : FT 3 3 eye (pushed x z) (fun U => gGap fltNum oneAsp (some (matVec 3 eye U 2)) 0)
      (gGap fdualNum oneAsp ⟨some (matVec 3 eye (pushed x z) 2), fun k => some (eye k 2)⟩ 0)
      (matVec 3 eye (pushed x z) 2 - 0 - 0) := gGap_ft oneAsp (matVec_ft 3 3 eye (pushed x z) (by norm_num)) 0
  have e2 : matVec 3 eye (pushed x z) 2 = z := by simp [matVec, sum_range_succ, eye, pushed]
  rw [e2] at hx
  simp only [sub_zero] at hx
  obtain ⟨a, b⟩ := gEl_tracks h.Re m.Estar hx hz
  obtain ⟨f1, g1, n1, q1, -⟩ := a
  obtain ⟨f2, g2, n2, q2, -⟩ := b
  have v1 := n1.self
  have v2 := n2.self
  beta_reduce at v1 v2
  rw [gGap_flt, e2] at v1 v2
  rw [(gEl_flt h.Re _ _).1, elLoading_fn] at v1
  rw [(gEl_flt h.Re _ _).2, elLoading_a] at v2
  simp only [oneAsp, sub_zero, if_pos hz] at v1 v2
  refine ⟨g1, g2, ?_⟩
  rw [Option.some.inj v1, Option.some.inj v2, ← q1, ← q2]
  unfold roughForceLocal gStaticRough
  simp only [gGap_const, h1, h3]
  rw [if_pos (by norm_num)]
  have hel : ∀ F, gGeneral fdualNum m (gGap fdualNum oneAsp ⟨some (pushed x z 2), fun k => some (eye k 2)⟩ 0)
      (fdualNum.const (0 - oneAsp.meso - oneAsp.gaps 0)) F
      = gEl fdualNum m.Re m.Estar (gGap fdualNum oneAsp ⟨some z, fun k => some (eye k 2)⟩ 0) := fun F => by
    refine gGeneral_el_dual ((ltF_some _ _).2 ?_) ((ltF_some _ _).2 ?_)
    · simp [pushed, oneAsp]
      linarith
    · simp [oneAsp]
      linarith
  show fdualNum.add (fdualNum.const 0) (fdualNum.mul (fdualNum.const 1) _) = _
  simp only [hel, h4, h2]
  rfl

theorem pushed_matVec (x z : ℝ) : matVec 3 eye (pushed x z) = pushed x z := by
  funext d
  by_cases h0 : d = 0
  · simp [matVec, sum_range_succ, eye, pushed, h0]
  · by_cases h2 : d = 2
    · simp [matVec, sum_range_succ, eye, pushed, h2]
    · simp [matVec, sum_range_succ, eye, pushed, h0, h2]

theorem forceGrad_eye (m : Mat) (g : Asperities) (o : RoughObj) (x z : ℝ) :
    (roughForceGrad 3 eye eye m g o (pushed x z)).2 0 0 = (roughForceLocal m g o (pushed x z) 0).real.d 0 := by
  unfold roughForceGrad
  rw [pushed_matVec]
  simp [matMul, eye]

/-- C107 fails without friction, which is what `set_prestress_mu` sets: there is no tangential force, whatever the
displacement, but at zero displacement the returned stiffness is a quarter of that of the asperity. -/
theorem C107_violated (m : Mat) (h : m.Fine) (hG : m.Gstar ≠ 0) (mu : ℝ) {z : ℝ} (hz : 0 < z) (hzy : z < 1.9*m.dy) :
    let o := (RoughObj.new mu).setPrestressMu
    (∀ u : ℕ → ℝ, u 2 < 1.9*m.dy → (o.force m oneAsp u false).1 0 = some 0) ∧
    (roughForceGrad 3 eye eye m oneAsp o (pushed 0 z)).2 0 0 = 1/4 * (8*m.Gstar*Real.sqrt (m.Re*z)) ∧
    ¬ HasJac 3 3 (fun X => matVec 3 eye fun d => ((o.force m oneAsp (matVec 3 eye X) false).1 d).getD 0)
      (roughForceGrad 3 eye eye m oneAsp o (pushed 0 z)).2 (pushed 0 z) := by
  intro o
  have hdy := h.dy
  have hzero : ∀ u : ℕ → ℝ, u 2 < 1.9*m.dy → (o.force m oneAsp u false).1 0 = some 0 := by
    intro u hu
    show (staticRough m oneAsp o u).fxyn 0 = some 0
    unfold staticRough
    simp only
    rw [if_pos (by norm_num)]
    have hel : general m (u 2 - oneAsp.meso - oneAsp.gaps 0) (o.unmax - oneAsp.meso - oneAsp.gaps 0) (o.Fm 0)
        = elLoading (u 2) m.Re m.Estar := by
      rw [general_elastic]
      · simp [oneAsp]
      · simpa [oneAsp] using hu
      · simp [oneAsp, o, RoughObj.new, RoughObj.initHistory, RoughObj.setPrestressMu]
        linarith
    show weighted _ _ 1 = some 0
    simp only [weighted]
    rw [hel, elLoading_fn, elLoading_a]
    rw [show o.fxy0 0 0 = some 0 from rfl, show o.mu = 0 from rfl, tangentialAsp_clip]
    simp [oneAsp]
  have hst : (roughForceGrad 3 eye eye m oneAsp o (pushed 0 z)).2 0 0 = 1/4 * (8*m.Gstar*Real.sqrt (m.Re*z)) := by
    obtain ⟨g1, g2, e⟩ := one_local h (o := o) rfl rfl rfl rfl 0 hz hzy
    have he : (roughForceLocal m oneAsp o (pushed 0 z) 0).real.d 0 = 1/4 * (8*m.Gstar*Real.sqrt (m.Re*z)) := by
      rw [e, show o.mu = 0 from rfl]
      unfold gTan
      simp only [fdual_const_some, fdual_sub_some, fdual_mul_some, fdual_add_some, fdual_min_some, fdual_max_some]
      simp [FDual.real, balanced, eye]
      ring
    rw [forceGrad_eye, he]
  refine ⟨hzero, hst, fun hJ => ?_⟩
  refine not_hasGrad_of_const (i := 0) (by norm_num) ?_ ?_ (hJ 0 (by norm_num))
  · rw [hst]
    have := Real.sqrt_pos.2 (mul_pos h.Re hz)
    positivity
  · have hn : Near 3 (pushed 0 z) fun U => matVec 3 eye U 2 < 1.9*m.dy :=
      near_lt (hasGrad_matVec 3 eye 2 (pushed 0 z)) (by rw [pushed_matVec]; simpa [pushed] using hzy)
    refine Eventually.mono hn fun v hv => ?_
    have e : ∀ Y : ℕ → ℝ, matVec 3 eye Y 0 = Y 0 := fun Y => by simp [matVec, eye]
    beta_reduce at hv ⊢
    rw [e, hzero _ hv]
    rfl

/-- Pressed and stuck: the tangential stiffness `8 G a`. -/
example : ∃ J, (roughForceGrad 3 eye eye driftMat oneAsp (RoughObj.new 1) (pushed 0 1)).2 = J ∧ J 0 0 = 3/2 ∧
    HasJac 3 3 (fun X => matVec 3 eye fun d => (((RoughObj.new 1).force driftMat oneAsp (matVec 3 eye X) false).1 d).getD 0) J
      (pushed 0 1) := by
  obtain ⟨hR, hE, hG, hdy⟩ := drift_values
  have hf : driftMat.Fine := ⟨driftMat_good, by unfold driftMat Mat.new; norm_num⟩
  have h19 : (1 : ℝ) < 1.9*driftMat.dy := by linarith
  refine ⟨_, rfl, ?_, ?_⟩
  · obtain ⟨g1, g2, e⟩ := one_local hf (o := RoughObj.new 1) rfl rfl rfl rfl 0 one_pos h19
    rw [forceGrad_eye, e, show (RoughObj.new 1).mu = 1 from rfl, hR, hE, hertz_examples.1, hG]
    unfold gTan
    simp only [fdual_const_some, fdual_sub_some, fdual_mul_some, fdual_add_some, fdual_min_some, fdual_max_some]
    simp [FDual.real, balanced, eye]
    norm_num
  · refine (C107_static_partial driftMat hf oneAsp (fun k _ => by simp [oneAsp]) (RoughObj.new 1) (.new zero_le_one) 3 eye eye
      (pushed 0 1) (pushed 0 1) (pushed_matVec 0 1).symm (fun k _ F hF => ?_) (fun k _ d hd f0 fn a q1 q2 q3 => Or.inl ?_)).2
    · obtain rfl : 0 = F := Option.some.inj hF
      have e : (pushed 0 1 2 - oneAsp.meso - oneAsp.gaps k : ℝ) = 1 ∧ (RoughObj.new 1).unmax - oneAsp.meso - oneAsp.gaps k = 0 := by
        simp [pushed, oneAsp, RoughObj.new, RoughObj.initHistory]
      rw [e.1, e.2]
      constructor
      · unfold releasePoint
        rw [if_pos (by linarith)]
        exact one_ne_zero
      · rw [max_eq_right (by linarith)]
        exact h19.ne
    · have e : (pushed 0 1 2 - oneAsp.meso - oneAsp.gaps k : ℝ) = 1 ∧ (RoughObj.new 1).unmax - oneAsp.meso - oneAsp.gaps k = 0 := by
        simp [pushed, oneAsp, RoughObj.new, RoughObj.initHistory]
      rw [e.1, e.2, general_elastic h19 (by linarith), elLoading_fn, hR, hE, hertz_examples.1] at q2
      obtain rfl := Option.some.inj q2
      obtain rfl : 0 = f0 := Option.some.inj q1
      have hp : pushed 0 1 d = 0 := by
        unfold pushed
        split
        · rfl
        · rw [if_neg (by omega)]
      rw [hp, show (RoughObj.new 1).uxyn0 d = 0 from rfl, show (RoughObj.new 1).mu = 1 from rfl]
      norm_num

/-- Just touching: forces and derivatives are not NaN. -/
example : ∃ (f : ℝ) (J : ℕ → ℝ), roughForceLocal driftMat oneAsp (RoughObj.new 1) (matVec 3 eye (pushed 1 0)) 2
    = ⟨some f, fun k => some (J k)⟩ ∧ ((RoughObj.new 1).force driftMat oneAsp (matVec 3 eye (pushed 1 0)) false).1 2 = some f :=
  C107_finite driftMat ⟨driftMat_good, by unfold driftMat Mat.new; norm_num⟩ oneAsp (fun k _ => by simp [oneAsp]) _ (.new zero_le_one) 3 eye _ 2
    (by norm_num)

end

end TMD
