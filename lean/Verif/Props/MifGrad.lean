import Verif.Lemmas.MifGradStatic
import Verif.Props.RoughGrad

/-!
# C110: automatic derivatives of the static force of the Mindlin-Iwan fit
-/

namespace TMD

open Spec Finset Filter Topology

noncomputable section

/-- Objects that the public functions produce; `set_prestress_mu` and `reset_real_mu` change the friction coefficient, `init_history`
gives a new object. Static updates are never at exactly the yield limit of an asperity (`C81_violated`). -/
inductive MifReach (m : Mat) (g : Asperities) (Nr : ℕ) : MifObj → Prop
  | new {mu : ℝ} : 0 ≤ mu → MifReach m g Nr (MifObj.new mu)
  | friction {o : MifObj} {mu : ℝ} : 0 ≤ mu → MifReach m g Nr o → MifReach m g Nr { o with mu := mu }
  | force {o : MifObj} {u : ℕ → ℝ} (upd : Bool) : MifReach m g Nr o → (∀ k < g.nasp, u 2 - g.meso - g.gaps k ≠ 1.9*m.dy) →
      MifReach m g Nr (o.force m g Nr u upd).2

variable {m : Mat} {g : Asperities} {Nr : ℕ} {o : MifObj}

theorem MifReach.ready (h : m.Good) (hEt : m.Etan < m.Emod) (hg : ∀ k < g.nasp, 0 ≤ g.meso + g.gaps k) (ho : MifReach m g Nr o) :
    MifReady m g Nr o := by
  induction ho with
  | new hmu =>
    refine ⟨hmu, fun k hk => ⟨0, rfl, le_rfl, fun hp => ?_⟩, fun k _ => ⟨_, 0, rfl, le_rfl, ?_⟩⟩
    · change 0 < 0 - g.meso - g.gaps k at hp
      linarith [hg k hk]
    · funext j
      simp
  | friction hmu _ ih => exact ⟨hmu, ih.state, ih.asp⟩
  | @force o u upd _ hne ih =>
    cases upd with
    | false => exact ih
    | true =>
      refine ⟨ih.mu, fun k hk => ?_, fun k hk => ?_⟩
      · show AspState m (max (u 2) o.unmax - g.meso - g.gaps k) _
        have e : max (u 2) o.unmax - g.meso - g.gaps k
            = max (u 2 - g.meso - g.gaps k) (o.unmax - g.meso - g.gaps k) := by
          rw [max_sub_sub_right, max_sub_sub_right]
        rw [e]
        exact ((ih.state k hk).general h (hne k hk)).2
      · obtain ⟨⟨f, a, h1, h2, -⟩, -⟩ := (ih.state k hk).general h (hne k hk)
        obtain ⟨s, a0, e, -⟩ := ih.asp k hk
        have hz := mifAsperity_force (Nr := Nr) (u := u) (u0 := o.uxyn0) (s := s) (G := m.Gstar) (mu := o.mu)
          fun hp => (general_radius h hEt (hne k hk) h1 h2 hp).ne'
        rw [← h1, ← h2, ← e] at hz
        exact ⟨_, a, congrArg (Option.map Prod.snd) hz, (general_nonneg h hEt h1 h2).2, rfl⟩

theorem gStaticMif_v (um : FDual) (Fm u0 : ℕ → FDual) (s : ℕ → GMifAsp FDual) (mu : ℝ) (u : ℕ → FDual) (d : ℕ) :
    (gStaticMif fdualNum m g Nr um Fm u0 s mu u d).v
      = gStaticMif fltNum m g Nr um.v (fun k => (Fm k).v) (fun d => (u0 d).v) (fun k => (s k).v) mu (fun d => (u d).v) d := by
  unfold gStaticMif
  simp only
  split <;> simp only [gWeighted_v, gMifForce_v, gMifNext_v, (gGeneral_v _ _ _ _).1, (gGeneral_v _ _ _ _).2, gGap_v]

/-- Values as numbers. -/
theorem MifReady.values (ho : MifReady m g Nr o) : ∃ (Fm : ℕ → ℝ) (s : ℕ → MifAsp) (a0 : ℕ → ℝ), (∀ k < g.nasp, o.Fm k = some (Fm k)) ∧
    (∀ k < g.nasp, o.asp k = some (s k) ∧ 0 ≤ a0 k ∧ (s k).r = fun j => a0 k * mifRadius Nr j) ∧
      ∀ k < g.nasp, 0 < o.unmax - g.meso - g.gaps k → 0 < Fm k := by
  choose! F e1 e2 e3 using fun k (hk : k < g.nasp) => (ho.state k hk).ok
  have : Nonempty MifAsp := ⟨⟨fun _ _ => 0, fun _ => 0⟩⟩
  choose! s a0 q1 q2 q3 using ho.asp
  exact ⟨F, s, a0, e1, fun k hk => ⟨q1 k hk, q2 k hk, q3 k hk⟩, e3⟩

/-- Normal force and radius at a point are numbers. -/
theorem static_contact_fin (h : m.Fine) (hEt : m.Etan < m.Emod) (ho : MifReady m g Nr o) (N : ℕ) (Q : ℕ → ℕ → ℝ) (X : ℕ → ℝ) {k : ℕ}
    (hk : k < g.nasp) : ∃ p : FDual × FDual, p = gGeneral fdualNum m (gGap fdualNum g ⟨some (matVec N Q X 2), fun j => some (eye j 2)⟩ k)
          (gGap fdualNum g (FDual.const (some o.unmax)) k) (FDual.const (o.Fm k)) ∧ FFin p.1 ∧ FFin p.2 ∧ ∃ f b,
      p.1.v = some f ∧ p.2.v = some b ∧ (0 < f → 0 < b) ∧
      (general m (matVec N Q X 2 - g.meso - g.gaps k) (o.unmax - g.meso - g.gaps k) (o.Fm k)).fn = some f ∧
      (general m (matVec N Q X 2 - g.meso - g.gaps k) (o.unmax - g.meso - g.gaps k) (o.Fm k)).a = some b := by
  obtain ⟨Fm, s, a0, h1, h2, h3⟩ := ho.values
  have hfin := gGeneral_fin h (gGap_ft g (matVec_ft N 3 Q X (d := 2) (by norm_num)) k) (ft_const (Fm k)) (h3 k hk)
  refine ⟨_, rfl, ?_⟩
  have hv := gGeneral_v m (gGap fdualNum g ⟨some (matVec N Q X 2), fun j => some (eye j 2)⟩ k)
          (gGap fdualNum g (FDual.const (some o.unmax)) k) (FDual.const (o.Fm k))
  simp only [gGap_v] at hv
  have hw := gGeneral_flt h (matVec N Q X 2 - g.meso - g.gaps k) (o.unmax - g.meso - g.gaps k) (o.Fm k)
  have e1 := hv.1.trans hw.1
  have e2 := hv.2.trans hw.2
  have ec : fdualNum.const (Fm k) = FDual.const (o.Fm k) := by rw [h1 k hk]; rfl
  rw [ec, ← gGap_const] at hfin
  refine ⟨hfin.1, hfin.2, ?_⟩
  obtain ⟨f, gf, ef⟩ := hfin.1
  obtain ⟨b, gb, eb⟩ := hfin.2
  have q1 := e1.symm.trans (congrArg FDual.v ef)
  have q2 := e2.symm.trans (congrArg FDual.v eb)
  exact ⟨f, b, congrArg FDual.v ef, congrArg FDual.v eb, general_radius_all h.toGood hEt (ho.state k hk) q1 q2, q1, q2⟩

/-- C110, finite: whatever the displacement, forces and derivatives are numbers, also for asperities that were never in contact,
that just touch or that are just released, and for radii that agree with earlier ones. -/
theorem C110_finite (m : Mat) (h : m.Fine) (hEt : m.Etan < m.Emod) (g : Asperities) (hg : ∀ k < g.nasp, 0 ≤ g.meso + g.gaps k)
    {Nr : ℕ} (hNr : 2 ≤ Nr) (o : MifObj) (ho : MifReach m g Nr o) (N : ℕ) (Q : ℕ → ℕ → ℝ) (X : ℕ → ℝ) (d : ℕ) (hd : d < 3) :
    ∃ (f : ℝ) (J : ℕ → ℝ), mifForceLocal m g Nr o (matVec N Q X) d = ⟨some f, fun k => some (J k)⟩ ∧
      (o.force m g Nr (matVec N Q X) false).1 d = some f := by
  have hr := ho.ready h.toGood hEt hg
  obtain ⟨Fm, s, a0, h1, h2, h3⟩ := hr.values
  have hfin : FFin (mifForceLocal m g Nr o (matVec N Q X) d) := by
    unfold mifForceLocal gStaticMif
    simp only
    by_cases hd2 : d < 2
    · simp only [hd2, if_true]
      refine ffin_weighted _ _ _ fun k hk => ?_
      obtain ⟨p, hp, p1, p2, f, b, v1, v2, hfb, -, -⟩ := static_contact_fin h hEt hr N Q X hk
      rw [← hp, (h2 k hk).1]
      refine gMifForce_fin p2 fun i _ => gMifNext_fin hNr _ _ (matVec_ft N 3 Q X hd).1.fin (ffin_const _) (fun i _ => ffin_const _)
        (fun i _ => ffin_const _) p1 p2 (fun f' b' e1 e2 hf => ?_) i
      obtain rfl := Option.some.inj (v1.symm.trans e1)
      obtain rfl := Option.some.inj (v2.symm.trans e2)
      exact (hfb hf).ne'
    · simp only [hd2, if_false]
      refine ffin_weighted _ _ _ fun k hk => ?_
      obtain ⟨p, hp, p1, -⟩ := static_contact_fin h hEt hr N Q X hk
      rw [← hp]
      exact p1
  obtain ⟨f, J, e⟩ := hfin
  refine ⟨f, J, e, ?_⟩
  have hv : (mifForceLocal m g Nr o (matVec N Q X) d).v = _ := gStaticMif_v _ _ _ _ _ _ d
  rw [e] at hv
  refine Eq.trans ?_ hv.symm
  refine (gStaticMif_flt h hNr (fun k hk => (h2 k hk).1) (fun k hk => ?_) d).symm
  obtain ⟨p, -, -, -, f, b, -, -, hfb, q1, q2⟩ := static_contact_fin h hEt hr N Q X hk
  exact ⟨f, b, q1, q2, fun hf => (hfb hf).ne'⟩

/-- The tractions of an asperity with the stored tractions and radii `s`, normal force `fn`, contact radius `a` and displacement
`du` are smooth: the new radii are not among the stored ones and no radius is at its friction limit, except where nothing is
transmitted (open, or at the rim) and nothing was. -/
structure MifSmooth (Nr : ℕ) (G mu fn a : ℝ) (s : MifAsp) (du : ℕ → ℝ) : Prop where
  nodes : ∀ d < 2, (∀ i < Nr, s.t i d = 0) ∨
    s.r 1 ≠ 1 / 2 ^ 104 ∧ (fn = 0 ∨ ∀ j < Nr, 0 < j → ∀ i < Nr, s.r i ≠ a * mifRadius Nr j)
  limit : ∀ d < 2, ∀ j < Nr,
    |mifStiff Nr G fn a j * du d + jnpInterp Nr s.r (fun i => s.t i d) (a * mifRadius Nr j)| ≠ mu * mifPressure Nr fn a j ∨
    (fn = 0 ∨ j = Nr - 1) ∧ ((∀ i < Nr, s.t i d = 0) ∨ s.r (Nr - 1) < a)

/-- Stored tractions are constants. -/
theorem mifTr_const {n K : ℕ} {M : ℕ → ℕ → ℝ} {X : ℕ → ℝ} {s : MifAsp} {a0 : ℝ} (h0 : 0 ≤ a0) (hr : s.r = fun j => a0 * mifRadius Nr j) :
    MifTr n K M X Nr (fun _ => ⟨fun j d => (some s).map fun s => s.t j d, fun j => (some s).map fun s => s.r j⟩) (MifAsp.dual (some s)) a0 s.t := by
  have e : ∀ j, s.r j = a0 * mifRadius Nr j := fun j => by rw [hr]
  refine ⟨h0, fun i _ => ?_, ?_, fun hz i _ => ?_, fun i _ d _ => ft_const _⟩
  · rw [← e]
    exact ft_const _
  · have : s.r 0 = 0 := by rw [e, mifRadius_zero, mul_zero]
    show FZero n X (fun _ => some (s.r 0)) (FDual.const (some (s.r 0)))
    rw [this]
    exact fzero_const
  · have : s.r i = 0 := by rw [e, hz, zero_mul]
    show FZero n X (fun _ => some (s.r i)) (FDual.const (some (s.r i)))
    rw [this]
    exact fzero_const

theorem noTr_const {n : ℕ} {X : ℕ → ℝ} {s : MifAsp} {d : ℕ} (h : ∀ i < Nr, s.t i d = 0) :
    NoTr n X Nr (fun _ => ⟨fun j d => (some s).map fun s => s.t j d, fun j => (some s).map fun s => s.r j⟩) (MifAsp.dual (some s)) d := by
  intro i hi
  show FZero n X (fun _ => some (s.t i d)) (FDual.const (some (s.t i d)))
  rw [h i hi]
  exact fzero_const

/-- C110 (partial): the returned derivative is that of the force, at displacements where no asperity is at the point of release
or the onset of yielding and the tractions of all asperities are smooth. Missing: radii that agree with stored ones, see
`C110_violated`. -/
theorem C110_static_partial (m : Mat) (h : m.Fine) (hEt : m.Etan < m.Emod) (g : Asperities) (hg : ∀ k < g.nasp, 0 ≤ g.meso + g.gaps k)
    {Nr : ℕ} (hNr : 2 ≤ Nr) (o : MifObj) (ho : MifReach m g Nr o) (N : ℕ) (Q T : ℕ → ℕ → ℝ) (X u : ℕ → ℝ) (hu : u = matVec N Q X)
    (hsm : ∀ k < g.nasp, ∀ F, o.Fm k = some F → SmoothAsp m (u 2 - g.meso - g.gaps k) (o.unmax - g.meso - g.gaps k) F)
    (ht : ∀ k < g.nasp, ∀ s fn a, o.asp k = some s →
      (general m (u 2 - g.meso - g.gaps k) (o.unmax - g.meso - g.gaps k) (o.Fm k)).fn = some fn →
      (general m (u 2 - g.meso - g.gaps k) (o.unmax - g.meso - g.gaps k) (o.Fm k)).a = some a →
      MifSmooth Nr m.Gstar o.mu fn a s fun d => u d - o.uxyn0 d) :
    (mifForceGrad N Q T m g Nr o X).1 = matVec 3 T (fun d => ((o.force m g Nr u false).1 d).getD 0) ∧
    HasJac N N (fun X => matVec 3 T fun d => ((o.force m g Nr (matVec N Q X) false).1 d).getD 0) (mifForceGrad N Q T m g Nr o X).2 X := by
  subst hu
  have hr := ho.ready h.toGood hEt hg
  obtain ⟨Fm, s, a0, h1, h2, h3⟩ := hr.values
  choose! f b hcon q1 q2 using fun k (hk : k < g.nasp) => show ∃ f b, ContactFT N 3 Q X
        (fun U => gGeneral fltNum m (gGap fltNum g (some (matVec N Q U 2)) k) (gGap fltNum g (some o.unmax) k) (o.Fm k))
        (gGeneral fdualNum m (gGap fdualNum g ⟨some (matVec N Q X 2), fun j => some (eye j 2)⟩ k)
          (gGap fdualNum g (FDual.const (some o.unmax)) k) (FDual.const (o.Fm k))) f b ∧
        (general m (matVec N Q X 2 - g.meso - g.gaps k) (o.unmax - g.meso - g.gaps k) (o.Fm k)).fn = some f ∧
        (general m (matVec N Q X 2 - g.meso - g.gaps k) (o.unmax - g.meso - g.gaps k) (o.Fm k)).a = some b by
    obtain ⟨p, hp, -, -, f, b, v1, v2, hfb, q1, q2⟩ := static_contact_fin h hEt hr N Q X hk
    rw [hp] at v1 v2
    refine ⟨f, b, AspTracks.contact ?_ v1 v2 hfb, q1, q2⟩
    rw [gGap_const, h1 k hk]
    obtain ⟨s1, s2⟩ := hsm k hk _ (h1 k hk)
    refine gGeneral_asp h (gGap_ft g (matVec_ft N 3 Q X (by norm_num)) k) (ft_const (Fm k)) (h3 k hk) s2 (fun hl => ?_) fun hl => ?_
    · unfold releasePoint at s1
      rwa [if_pos hl] at s1
    · unfold releasePoint at s1
      have := h.dy
      rwa [if_neg (not_lt.2 hl), hertz_expand (by linarith)] at s1
  have htr : ∀ d < 3, FTracks N 3 Q X (fun U => (o.force m g Nr (matVec N Q U) false).1 d) (mifForceLocal m g Nr o (matVec N Q X) d) := by
    intro d hd
    have key : FTracks N 3 Q X (fun U => gStaticMif fltNum m g Nr (some o.unmax) o.Fm (fun d => some (o.uxyn0 d))
        (fun k => ⟨fun j d => (o.asp k).map fun s => s.t j d, fun j => (o.asp k).map fun s => s.r j⟩) o.mu
        (fun d => some (matVec N Q U d)) d) (mifForceLocal m g Nr o (matVec N Q X) d) := by
      unfold mifForceLocal gStaticMif
      simp only
      by_cases hd2 : d < 2
      · simp only [hd2, if_true]
        refine ftracks_weighted _ _ fun k hk => ?_
        have hC := hcon k hk
        obtain ⟨e1, e2, e3⟩ := h2 k hk
        have hsm := ht k hk (s k) (f k) (b k) e1 (q1 k hk) (q2 k hk)
        have er : ∀ j, (s k).r j = a0 k * mifRadius Nr j := fun j => by rw [e3]
        rw [e1]
        refine gMifForce_ft hC (gMifNext_tr (Fu := fun d U => some (matVec N Q U d)) (Fu0 := fun d _ => some (o.uxyn0 d))
          (u := fun d => matVec N Q X d) (u0 := o.uxyn0) hNr hC (mifTr_const e2 e3) hr.mu
          (fun d hd => matVec_ft N 3 Q X (by omega)) (fun d _ => ft_const _) (fun d hd => ?_) (fun d hd j hj => ?_)).1 hd2
        · rcases hsm.nodes d hd with hn | ⟨hn1, hn2⟩
          · exact Or.inl (noTr_const hn)
          · right
            simp only [er] at hn1 hn2
            exact ⟨hn1, hn2⟩
        · rcases hsm.limit d hd j hj with hn | ⟨hn1, hn2⟩
          · left
            rw [e3] at hn
            exact hn
          · refine Or.inr ⟨hn1, hn2.imp noTr_const fun hn2 => ?_⟩
            rwa [er, mifRadius_last hNr, mul_one] at hn2
      · simp only [hd2, if_false]
        exact ftracks_weighted _ _ fun k hk => (hcon k hk).force.1
    refine key.near ((near_all fun k hk => (hcon k hk).near).mono fun U hU => ?_)
    refine (gStaticMif_flt h hNr (fun k hk => (h2 k hk).1) (fun k hk => ?_) d).symm
    obtain ⟨f, b, r1, r2, r3⟩ := hU k hk
    rw [gGap_flt, gGap_flt] at r1 r2
    have hw := gGeneral_flt h (matVec N Q U 2 - g.meso - g.gaps k) (o.unmax - g.meso - g.gaps k) (o.Fm k)
    exact ⟨f, b, hw.1.symm.trans r1, hw.2.symm.trans r2, r3⟩
  constructor
  · funext i
    show ∑ d ∈ range 3, T i d * ((mifForceLocal m g Nr o (matVec N Q X) d).v).getD 0
      = ∑ d ∈ range 3, T i d * ((o.force m g Nr (matVec N Q X) false).1 d).getD 0
    refine sum_congr rfl fun d hd => ?_
    have := (htr d (mem_range.1 hd)).val
    beta_reduce at this
    rw [this]
  · intro i _
    have hsum : HasGrad N (fun U => ∑ d ∈ range 3, T i d * ((o.force m g Nr (matVec N Q U) false).1 d).getD 0)
        (fun q => ∑ d ∈ range 3, T i d * ∑ k ∈ range 3, (mifForceLocal m g Nr o (matVec N Q X) d).real.d k * Q k q) X :=
      HasGrad.sum fun d hd => HasGrad.const_mul _ (htr d (mem_range.1 hd)).real.1.2
    refine hsum.congr fun q _ => ?_
    unfold mifForceGrad matMul
    simp only [sum_mul, mul_sum]
    rw [sum_comm]
    exact sum_congr rfl fun k _ => sum_congr rfl fun d _ => by ring


/-! ## One elastic asperity -/

/-- One asperity of `driftMat`, pressed in by `s ^ 2`, whatever the elastic history. -/
theorem drift_sq {o : MifObj} (h1 : o.unmax ≤ 1) {s : ℝ} (hs : 0 < s) (hs2 : s < 2) (F : Flt) :
    (general driftMat (s ^ 2) o.unmax F).fn = some (s ^ 3) ∧ (general driftMat (s ^ 2) o.unmax F).a = some s := by
  obtain ⟨hR, hE, -, hdy⟩ := drift_values
  have hp : 0 < s ^ 2 := by positivity
  rw [general_elastic (by nlinarith) (by linarith), elLoading_fn, elLoading_a, hR, hE, if_pos hp, one_mul, Real.sqrt_sq hs.le]
  refine ⟨?_, rfl⟩
  unfold hertz
  rw [if_pos hp, show (3/2 : ℝ) = 1.5 by norm_num, rpow_three_half hp, Real.sqrt_sq hs.le, Real.sqrt_one]
  norm_num
  ring

theorem mifKt_half : 1 / 2 < mifKt (1 / 2) ∧ mifKt (1 / 2) < 1 := by
  unfold mifKt
  rw [if_pos (by norm_num)]
  have h1 : (0.86 : ℝ) ≤ Real.sqrt (1 - (1 / 2) ^ 2) := Real.le_sqrt_of_sq_le (by norm_num)
  have h2 : (1 - 0.8709) / Real.sqrt (1 - (1 / 2) ^ 2) ≤ (1 - 0.8709) / 0.86 :=
    div_le_div_of_nonneg_left (by norm_num) (by norm_num) h1
  have h3 : 0 ≤ (1 - 0.8709) / Real.sqrt (1 - (1 / 2) ^ 2) := div_nonneg (by norm_num) (Real.sqrt_nonneg _)
  norm_num at h2 h3 ⊢
  constructor <;> linarith

theorem interp_three_mid (xp fp : ℕ → ℝ) (x : ℝ) (h0 : xp 0 < xp 1) (h1 : xp 1 ≤ x) (h2 : x < xp 2) (hd : 1 / 2 ^ 104 < xp 2 - xp 1) :
    jnpInterp 3 xp fp x = fp 1 + (x - xp 1) / (xp 2 - xp 1) * (fp 2 - fp 1) := by
  unfold jnpInterp
  have hc : ((List.range 3).filter fun k => decide (xp k ≤ x)).length = 2 := by
    rw [show List.range 3 = [0, 1, 2] from rfl]
    simp [h1, h0.le.trans h1, not_le.2 h2]
  simp only [hc]
  rw [if_neg (by norm_num; linarith), if_neg (not_lt.2 (h0.le.trans h1))]
  norm_num
  intro h
  rw [abs_of_pos (by linarith [h1])] at h
  norm_num at hd
  linarith

/-- Tractions after one unit of displacement at radius 1, from nothing. -/
theorem drift_tractions {x x0 : ℝ} {t0 r0 : ℕ → ℝ} (hx : x - x0 = 1) (ht : ∀ i < 3, t0 i = 0) :
    mifTraction 3 x x0 t0 r0 (some 1) 1 driftMat.Gstar 2 0 = 3 / 2 / Real.pi ∧
    mifTraction 3 x x0 t0 r0 (some 1) 1 driftMat.Gstar 2 1 = 3 / 2 / Real.pi * mifKt (1 / 2) ∧
    mifTraction 3 x x0 t0 r0 (some 1) 1 driftMat.Gstar 2 2 = 0 := by
  obtain ⟨hR, hE, hG, hdy⟩ := drift_values
  have hp := Real.pi_pos
  have hc0 : 0 < 3 / 2 / Real.pi := by positivity
  obtain ⟨q1, q2⟩ := mifKt_half
  have r0 : mifRadius 3 0 = 0 := mifRadius_zero _
  have r1 : mifRadius 3 1 = 1 / 2 := by unfold mifRadius; norm_num
  have k0 : mifKt 0 = 1 := by unfold mifKt; norm_num
  have hs : (0.86 : ℝ) ≤ Real.sqrt (1 - (1 / 2) ^ 2) := Real.le_sqrt_of_sq_le (by norm_num)
  have K0 : mifStiff 3 driftMat.Gstar 1 1 0 = 3 / 2 / Real.pi := by
    unfold mifStiff
    rw [if_pos one_pos, r0, k0, hG]
    norm_num
  have K1 : mifStiff 3 driftMat.Gstar 1 1 1 = 3 / 2 / Real.pi * mifKt (1 / 2) := by
    unfold mifStiff
    rw [if_pos one_pos, r1, hG]
    norm_num
  have P0 : mifPressure 3 1 1 0 = 3 / 2 / Real.pi := by
    unfold mifPressure
    rw [if_pos one_pos, r0]
    norm_num
    field_simp
  have P1 : mifPressure 3 1 1 1 = 3 / 2 / Real.pi * Real.sqrt (1 - (1 / 2) ^ 2) := by
    unfold mifPressure
    rw [if_pos one_pos, r1]
    congr 1
    field_simp
  refine ⟨?_, ?_, ?_⟩
  · rw [mifTraction_clip, jnpInterp_zero 3 _ _ ht (by norm_num), K0, P0, hx, mul_one, add_zero, clip_inside] <;> linarith
  · rw [mifTraction_clip, jnpInterp_zero 3 _ _ ht (by norm_num), K1, P1, hx, mul_one, add_zero, clip_inside] <;> nlinarith
  · rw [mifTraction_clip, show mifPressure 3 1 1 2 = 0 from mifPressure_last (by norm_num) 1 1, mul_zero]
    unfold clip
    simp

/-- The stored tractions after one update with one unit in both directions. -/
theorem drift_stored : ∃ c : ℝ, c = 3 / 2 / Real.pi ∧ ∃ s : MifAsp,
    (((MifObj.new 2).force driftMat oneAsp 3 (pushed 1 1) true).2.asp 0) = some s ∧ s.r = (fun j => mifRadius 3 j) ∧
    s.t 0 0 = c ∧ s.t 1 0 = c * mifKt (1 / 2) ∧ s.t 2 0 = 0 ∧ ∀ j, s.t j 1 = 0 := by
  obtain ⟨h1, h2⟩ := drift_one
  have hz : ((MifObj.new 2).force driftMat oneAsp 3 (pushed 1 1) true).2.asp 0 = some
      ⟨fun j d => mifTraction 3 (pushed 1 1 d) 0 (fun _ => 0) (fun _ => 0) (some 1) 1 driftMat.Gstar 2 j, fun j => 1 * mifRadius 3 j⟩ := by
    have e : (pushed 1 1 2 - oneAsp.meso - oneAsp.gaps 0 : ℝ) = 1 ∧ (MifObj.new 2).unmax - oneAsp.meso - oneAsp.gaps 0 = 0 := by
      simp [pushed, oneAsp, MifObj.new]
    show (mifAsperity 3 (pushed 1 1) (fun _ => 0) (some ⟨fun _ _ => 0, fun _ => 0⟩)
      (general driftMat (pushed 1 1 2 - oneAsp.meso - oneAsp.gaps 0) ((MifObj.new 2).unmax - oneAsp.meso - oneAsp.gaps 0) (some 0)).fn
      (general driftMat (pushed 1 1 2 - oneAsp.meso - oneAsp.gaps 0) ((MifObj.new 2).unmax - oneAsp.meso - oneAsp.gaps 0) (some 0)).a
      driftMat.Gstar 2).map _ = _
    rw [e.1, e.2, h1, h2, mifAsperity_force fun _ => one_ne_zero]
    rfl
  obtain ⟨k0, k1, k2⟩ := drift_tractions (x := pushed 1 1 0) (x0 := 0) (t0 := fun _ => 0) (r0 := fun _ => 0) (by simp [pushed]) fun _ _ => rfl
  refine ⟨_, rfl, _, hz, ?_, k0, k1, k2, fun j => ?_⟩
  · funext j
    simp
  · show mifTraction 3 (pushed 1 1 1) 0 (fun _ => 0) (fun _ => 0) (some 1) 1 driftMat.Gstar 2 j = 0
    rw [mifTraction_clip, jnpInterp_zero 3 _ _ (fun _ _ => rfl) (by norm_num), show pushed 1 1 1 = 0 from rfl, sub_zero, mul_zero,
      add_zero, clip_inside]
    · linarith [mifPressure_nonneg 3 1 1 j]
    · linarith [mifPressure_nonneg 3 1 1 j]

/-- The force from tractions like the stored ones when the radius changes to `s`. -/
theorem drift_curve {t : ℕ → ℝ} {c : ℝ} (hc : c = 3 / 2 / Real.pi) (t0 : t 0 = c) (t1 : t 1 = c * mifKt (1 / 2)) (t2 : t 2 = 0) :
    (∀ s, 3/5 < s → s ≤ 1 →
      s ^ 2 * (Real.pi / 2) * clip (2 * mifPressure 3 (s ^ 3) s 1) (jnpInterp 3 (fun j => mifRadius 3 j) t (s * (1 / 2)))
        = Real.pi / 2 * c * (s ^ 2 * (1 + s * (mifKt (1 / 2) - 1)))) ∧
    ∀ s, 1 ≤ s → s < 7/5 →
      s ^ 2 * (Real.pi / 2) * clip (2 * mifPressure 3 (s ^ 3) s 1) (jnpInterp 3 (fun j => mifRadius 3 j) t (s * (1 / 2)))
        = Real.pi / 2 * c * (s ^ 2 * (mifKt (1 / 2) * (2 - s))) := by
  obtain ⟨q1, q2⟩ := mifKt_half
  have hp := Real.pi_pos
  have hc0 : 0 < c := by rw [hc]; positivity
  have r0 : mifRadius 3 0 = 0 := mifRadius_zero _
  have r1 : mifRadius 3 1 = 1 / 2 := by unfold mifRadius; norm_num
  have r2 : mifRadius 3 2 = 1 := by unfold mifRadius; norm_num
  have hsq : (0.86 : ℝ) ≤ Real.sqrt (1 - (1 / 2) ^ 2) := Real.le_sqrt_of_sq_le (by norm_num)
  have hP : ∀ s, 3/5 < s → c ≤ 2 * mifPressure 3 (s ^ 3) s 1 := by
    intro s hs
    unfold mifPressure
    rw [if_pos (by positivity), r1, hc]
    have e : 3 * s ^ 3 / (2 * Real.pi * s ^ 2) = 3 / 2 / Real.pi * s := by field_simp
    rw [e]
    have : 0 < 3 / 2 / Real.pi := by positivity
    nlinarith [mul_pos this (show 0 < s by linarith)]
  constructor
  · intro s hs hs'
    have hi : jnpInterp 3 (fun j => mifRadius 3 j) t (s * (1 / 2)) = c * (1 + s * (mifKt (1 / 2) - 1)) := by
      rcases hs'.lt_or_eq with hl | rfl
      · rw [interp_three _ _ _ (by rw [r0]; linarith) (by rw [r1]; linarith) (by rw [r1, r2]; norm_num) (by rw [r0, r1]; norm_num), t0, t1, r0, r1]
        ring
      · rw [interp_three_mid _ _ _ (by rw [r0, r1]; norm_num) (by rw [r1]; norm_num) (by rw [r2]; norm_num) (by rw [r1, r2]; norm_num), t1, t2, r1, r2]
        ring
    have := hP s hs
    rw [hi, clip_inside (by nlinarith [mul_pos hc0 (show 0 < s by linarith)]) (by nlinarith [mul_pos hc0 (show 0 < s by linarith)])]
    ring
  · intro s hs hs'
    have hi : jnpInterp 3 (fun j => mifRadius 3 j) t (s * (1 / 2)) = c * (mifKt (1 / 2) * (2 - s)) := by
      rw [interp_three_mid _ _ _ (by rw [r0, r1]; norm_num) (by rw [r1]; linarith) (by rw [r2]; linarith) (by rw [r1, r2]; norm_num), t1, t2, r1, r2]
      ring
    have := hP s (by linarith)
    have h1 : 0 ≤ mifKt (1 / 2) * (2 - s) := mul_nonneg (by linarith) (by linarith)
    have h2 : mifKt (1 / 2) * (2 - s) ≤ 1 := by nlinarith
    rw [hi, clip_inside (by nlinarith) (by nlinarith)]
    ring

/-- The force in the first direction when only the normal displacement changes afterwards. -/
theorem drift_normal : ∃ c q : ℝ, 0 < c ∧ 1 / 2 < q ∧
    let o := ((MifObj.new 2).force driftMat oneAsp 3 (pushed 1 1) true).2
    (∀ s, 3/5 < s → s ≤ 1 → (o.force driftMat oneAsp 3 (pushed 1 (s ^ 2)) false).1 0 = some (c * (s ^ 2 * (1 + s * (q - 1))))) ∧
    ∀ s, 1 ≤ s → s < 7/5 → (o.force driftMat oneAsp 3 (pushed 1 (s ^ 2)) false).1 0 = some (c * (s ^ 2 * (q * (2 - s)))) := by
  obtain ⟨c, hc, S, hS, hSr, t0, t1, t2, -⟩ := drift_stored
  obtain ⟨q1, q2⟩ := mifKt_half
  have hp := Real.pi_pos
  have hc0 : 0 < c := by rw [hc]; positivity
  have r1 : mifRadius 3 1 = 1 / 2 := by unfold mifRadius; norm_num
  refine ⟨Real.pi / 2 * c, mifKt (1 / 2), by positivity, q1, ?_⟩
  intro o
  have ho : o.unmax = 1 ∧ o.uxyn0 = pushed 1 1 ∧ o.mu = 2 := by
    refine ⟨?_, rfl, rfl⟩
    show max (pushed 1 1 2) 0 = 1
    simp [pushed]
  have hfc : ∀ s, 3/5 < s → s < 7/5 → (o.force driftMat oneAsp 3 (pushed 1 (s ^ 2)) false).1 0
      = some (s ^ 2 * (Real.pi / 2) * clip (2 * mifPressure 3 (s ^ 3) s 1) (jnpInterp 3 (fun j => mifRadius 3 j) (fun i => S.t i 0) (s * (1 / 2)))) := by
    intro s hs hs'
    obtain ⟨g1, g2⟩ := drift_sq ho.1.le (show 0 < s by linarith) (by linarith) (o.Fm 0)
    have e : (pushed 1 (s ^ 2) 2 - oneAsp.meso - oneAsp.gaps 0 : ℝ) = s ^ 2 ∧ o.unmax - oneAsp.meso - oneAsp.gaps 0 = o.unmax := by
      simp [pushed, oneAsp]
    have hz := mifAsperity_force (Nr := 3) (u := pushed 1 (s ^ 2)) (u0 := o.uxyn0) (s := S) (f := s ^ 3) (a := s)
      (G := driftMat.Gstar) (mu := o.mu) (fun _ => by linarith)
    rw [← g1, ← g2, ← hS] at hz
    unfold MifObj.force
    simp only
    rw [if_pos (by norm_num)]
    show weighted _ _ 1 = _
    simp only [weighted]
    rw [e.1, e.2, g1, g2, show o.asp 0 = some S from hS, mifAsperity_force fun _ => by linarith]
    simp only [Option.map_some]
    rw [mifForce_three']
    · rw [mifTraction_clip, ho.2.1, ho.2.2, hSr, r1, show pushed 1 (s ^ 2) 0 = 1 from rfl, show pushed 1 1 0 = 1 from rfl, sub_self,
        mul_zero, zero_add]
      simp [oneAsp]
    · rw [mifTraction_clip, show mifPressure 3 (s ^ 3) s 2 = 0 from mifPressure_last (by norm_num) _ _, mul_zero]
      unfold clip
      simp
  obtain ⟨k1, k2⟩ := drift_curve (t := fun i => S.t i 0) hc t0 t1 t2
  exact ⟨fun s hs hs' => by rw [hfc s hs (by linarith), k1 s hs hs'], fun s hs hs' => by rw [hfc s (by linarith) hs', k2 s hs hs']⟩

/-- A function with different one-sided derivatives at 1. -/
theorem kink_no_deriv {f : ℝ → ℝ} {c q D : ℝ} (hc : 0 < c) (hq : 1 / 2 < q)
    (H1 : ∀ s, 3/5 < s → s ≤ 1 → f s = c * (s ^ 2 * (1 + s * (q - 1)))) (H2 : ∀ s, 1 ≤ s → s < 7/5 → f s = c * (s ^ 2 * (q * (2 - s))))
    (hd : HasDerivAt f D 1) : False := by
  have hr : HasDerivAt (fun s : ℝ => c * (s ^ 2 * (q * (2 - s)))) (c * q) 1 := by
    have := ((hasDerivAt_pow 2 (1 : ℝ)).mul (((hasDerivAt_id (1 : ℝ)).const_sub 2).const_mul q)).const_mul c
    refine this.congr_deriv ?_
    simp only [id_eq, Nat.cast_ofNat, one_pow]
    ring
  have hl : HasDerivAt (fun s : ℝ => c * (s ^ 2 * (1 + s * (q - 1)))) (c * (3 * q - 1)) 1 := by
    have := ((hasDerivAt_pow 2 (1 : ℝ)).mul (((hasDerivAt_id (1 : ℝ)).mul_const (q - 1)).const_add 1)).const_mul c
    refine this.congr_deriv ?_
    simp only [id_eq, Nat.cast_ofNat, one_pow]
    ring
  have er : D = c * q := by
    refine (uniqueDiffWithinAt_Ici (1 : ℝ)).eq_deriv _ hd.hasDerivWithinAt ?_
    refine hr.hasDerivWithinAt.congr_of_eventuallyEq ?_ ?_
    · have : Set.Iio (7/5 : ℝ) ∈ 𝓝[Set.Ici 1] (1 : ℝ) := mem_nhdsWithin_of_mem_nhds (Iio_mem_nhds (by norm_num))
      filter_upwards [this, self_mem_nhdsWithin] with s hs hs'
      exact H2 s hs' hs
    · exact H2 1 le_rfl (by norm_num)
  have el : D = c * (3 * q - 1) := by
    refine (uniqueDiffWithinAt_Iic (1 : ℝ)).eq_deriv _ hd.hasDerivWithinAt ?_
    refine hl.hasDerivWithinAt.congr_of_eventuallyEq ?_ ?_
    · have : Set.Ioi (3/5 : ℝ) ∈ 𝓝[Set.Iic 1] (1 : ℝ) := mem_nhdsWithin_of_mem_nhds (Ioi_mem_nhds (by norm_num))
      filter_upwards [this, self_mem_nhdsWithin] with s hs hs'
      exact H1 s hs hs'
    · exact H1 1 (by norm_num) le_rfl
  nlinarith

/-- C110 does not hold where the history was stored: pushed by one unit in both directions and evaluated again there, the friction
force has no derivative, as the stored tractions are interpolated piecewise linearly. -/
theorem C110_violated : driftMat.Fine ∧ driftMat.Etan < driftMat.Emod ∧
    let o := ((MifObj.new 2).force driftMat oneAsp 3 (pushed 1 1) true).2
    MifReach driftMat oneAsp 3 o ∧
    ∀ J, ¬ HasJac 3 3 (fun X => matVec 3 eye fun d => ((o.force driftMat oneAsp 3 (matVec 3 eye X) false).1 d).getD 0) J (pushed 1 1) := by
  obtain ⟨hR, hE, hG, hdy⟩ := drift_values
  have hEt : driftMat.Etan < driftMat.Emod := by unfold driftMat Mat.new; norm_num
  refine ⟨⟨driftMat_good, hEt.ne⟩, hEt, ?_⟩
  intro o
  obtain ⟨c, q, hc, hq, H1, H2⟩ := drift_normal
  refine ⟨.force true (.new (by norm_num)) fun k _ => ?_, fun J hJ => ?_⟩
  · simp only [pushed, oneAsp]
    norm_num at hdy ⊢
    linarith
  have hg := (hJ 0 (by norm_num)).directional (fun i => if i = 2 then 1 else 0) (fun i hi => by rw [if_neg (by omega)])
  set D := ∑ j ∈ range 3, J 0 j * (if j = 2 then (1 : ℝ) else 0)
  have e0 : ∀ Y : ℕ → ℝ, matVec 3 eye Y 0 = Y 0 := fun Y => by simp [matVec, eye]
  have hd : HasDerivAt (fun s : ℝ => ((o.force driftMat oneAsp 3 (pushed 1 (s ^ 2)) false).1 0).getD 0) (D * 2) 1 := by
    have h2 : HasDerivAt (fun s : ℝ => s ^ 2 - 1) 2 1 := by
      have := (hasDerivAt_pow 2 (1 : ℝ)).sub_const 1
      simpa using this
    have hg' : HasDerivAt (fun t : ℝ => matVec 3 eye (fun d => ((o.force driftMat oneAsp 3 (matVec 3 eye
        fun i => pushed 1 1 i + t * (if i = 2 then 1 else 0)) false).1 d).getD 0) 0) D ((1 : ℝ) ^ 2 - 1) := by
      rw [show (1 : ℝ) ^ 2 - 1 = 0 by norm_num]
      exact hg
    refine (HasDerivAt.comp (h := fun s : ℝ => s ^ 2 - 1) (1 : ℝ) hg' h2).congr_of_eventuallyEq (Eventually.of_forall fun s => ?_)
    have e1 : (fun i => pushed 1 1 i + (s ^ 2 - 1) * (if i = 2 then (1 : ℝ) else 0)) = pushed 1 (s ^ 2) := by
      funext i
      unfold pushed
      by_cases hi : i = 0
      · simp [hi]
      · by_cases hi2 : i = 2
        · simp [hi2]
        · simp [hi, hi2]
    simp only [Function.comp]
    rw [e0, e1, pushed_matVec]
  exact kink_no_deriv hc hq (fun s h h' => by rw [H1 s h h']; rfl) (fun s h h' => by rw [H2 s h h']; rfl) hd

/-- Pressed in further than before, stuck tractions at all radii: the returned derivative is that of the force. -/
example : let o := ((MifObj.new 2).force driftMat oneAsp 3 (pushed 1 1) true).2
    HasJac 3 3 (fun X => matVec 3 eye fun d => ((o.force driftMat oneAsp 3 (matVec 3 eye X) false).1 d).getD 0)
      (mifForceGrad 3 eye eye driftMat oneAsp 3 o (pushed 1 ((3/2) ^ 2))).2 (pushed 1 ((3/2) ^ 2)) := by
  intro o
  obtain ⟨hf, hEt, hreach, -⟩ := C110_violated
  obtain ⟨hR, hE, hG, hdy⟩ := drift_values
  obtain ⟨c, hc, S, hS, hSr, t0, t1, t2, t3⟩ := drift_stored
  obtain ⟨q1, q2⟩ := mifKt_half
  have hp := Real.pi_pos
  have hc0 : 0 < c := by rw [hc]; positivity
  have r0 : mifRadius 3 0 = 0 := mifRadius_zero _
  have r1 : mifRadius 3 1 = 1 / 2 := by unfold mifRadius; norm_num
  have r2 : mifRadius 3 2 = 1 := by unfold mifRadius; norm_num
  have hsq : (0.86 : ℝ) ≤ Real.sqrt (1 - (1 / 2) ^ 2) := Real.le_sqrt_of_sq_le (by norm_num)
  have ho : o.unmax = 1 ∧ o.uxyn0 = pushed 1 1 ∧ o.mu = 2 := by
    refine ⟨?_, rfl, rfl⟩
    show max (pushed 1 1 2) 0 = 1
    simp [pushed]
  have hP : ∀ j, mifPressure 3 ((3/2) ^ 3) (3/2) j = c * (3/2) * Real.sqrt (1 - mifRadius 3 j ^ 2) := by
    intro j
    unfold mifPressure
    rw [if_pos (by norm_num), hc]
    congr 1
    field_simp
  refine (C110_static_partial driftMat hf hEt oneAsp (fun k _ => by simp [oneAsp]) (by norm_num) o hreach 3 eye eye _ _ (pushed_matVec _ _).symm
    (fun k hk F _ => ?_) (fun k hk s fn a e1 e2 e3 => ?_)).2
  · have e : (pushed 1 ((3/2) ^ 2) 2 - oneAsp.meso - oneAsp.gaps k : ℝ) = 9/4 ∧ o.unmax - oneAsp.meso - oneAsp.gaps k = 1 := by
      rw [ho.1]
      simp [pushed, oneAsp]
      norm_num
    rw [e.1, e.2]
    constructor
    · unfold releasePoint
      rw [if_pos (by linarith)]
      norm_num
    · rw [max_eq_right (by linarith)]
      linarith
  · obtain rfl : k = 0 := by
      have : k < 1 := hk
      omega
    have e : (pushed 1 ((3/2) ^ 2) 2 - oneAsp.meso - oneAsp.gaps 0 : ℝ) = (3/2) ^ 2 ∧ o.unmax - oneAsp.meso - oneAsp.gaps 0 = o.unmax := by
      simp [pushed, oneAsp]
    rw [e.1, e.2] at e2 e3
    obtain ⟨g1, g2⟩ := drift_sq ho.1.le (show (0 : ℝ) < 3/2 by norm_num) (by norm_num) (o.Fm 0)
    obtain rfl := Option.some.inj (g1.symm.trans e2)
    obtain rfl := Option.some.inj (g2.symm.trans e3)
    obtain rfl := Option.some.inj (hS.symm.trans e1)
    rw [ho.2.1, ho.2.2]
    constructor
    · intro d hd
      right
      rw [hSr]
      refine ⟨by beta_reduce; rw [r1]; norm_num, Or.inr fun j hj hj0 i hi => ?_⟩
      interval_cases j <;> interval_cases i <;> simp only [r0, r1, r2] <;> norm_num
    · intro d hd j hj
      interval_cases d
      · rw [show pushed 1 ((3/2) ^ 2) 0 - pushed 1 1 0 = 0 from sub_self (1 : ℝ), mul_zero, zero_add, hSr]
        interval_cases j
        · left
          rw [r0, mul_zero, hP, r0, interp_three _ _ _ (by rw [r0]) (by rw [r1]; norm_num) (by rw [r1, r2]; norm_num) (by rw [r0, r1]; norm_num),
            t0, r0, sub_self, zero_div, zero_mul, add_zero, abs_of_pos hc0]
          norm_num
          linarith
        · left
          rw [hP, r1, interp_three_mid _ _ _ (by rw [r0, r1]; norm_num) (by rw [r1]; norm_num) (by rw [r2]; norm_num)
            (by rw [r1, r2]; norm_num), t1, t2, r1, r2]
          refine ne_of_lt ?_
          rw [show c * mifKt (1 / 2) + (3 / 2 * (1 / 2) - 1 / 2) / (1 - 1 / 2) * (0 - c * mifKt (1 / 2)) = c * (mifKt (1 / 2) / 2) by ring,
            abs_of_pos (by positivity)]
          nlinarith
        · refine Or.inr ⟨Or.inr rfl, Or.inr ?_⟩
          beta_reduce
          rw [r2]
          norm_num
      · have hz : pushed 1 ((3/2) ^ 2) 1 - pushed 1 1 1 = 0 := sub_self (0 : ℝ)
        rw [hz, mul_zero, zero_add, jnpInterp_zero 3 _ _ (fun i _ => t3 i) (by norm_num), abs_zero]
        interval_cases j
        · left
          rw [hP, r0]
          norm_num
          linarith
        · left
          rw [hP, r1]
          have : 0 < c * (3/2) * Real.sqrt (1 - (1 / 2) ^ 2) := by positivity
          linarith
        · exact Or.inr ⟨Or.inr rfl, Or.inl fun i _ => t3 i⟩

/-- At the point of the update: the derivatives are numbers. -/
example : ∃ (f : ℝ) (J : ℕ → ℝ), mifForceLocal driftMat oneAsp 3 ((MifObj.new 2).force driftMat oneAsp 3 (pushed 1 1) true).2
      (matVec 3 eye (pushed 1 1)) 0 = ⟨some f, fun k => some (J k)⟩ ∧
    (((MifObj.new 2).force driftMat oneAsp 3 (pushed 1 1) true).2.force driftMat oneAsp 3 (matVec 3 eye (pushed 1 1)) false).1 0 = some f :=
  C110_finite driftMat C110_violated.1 C110_violated.2.1 oneAsp (fun k _ => by simp [oneAsp]) (by norm_num) _ C110_violated.2.2.1 3 eye _ 0
    (by norm_num)

end

end TMD
