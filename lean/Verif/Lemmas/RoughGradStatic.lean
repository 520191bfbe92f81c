import Verif.Lemmas.RoughGradAsp

/-!
# Derivatives of the static force of rough contact
-/

namespace TMD

open Spec Finset Filter Topology

noncomputable section

section branches

variable {m : Mat}

theorem gGeneral_el_flt {un dm F : Flt} (h1 : ltF un (1.9*m.dy)) (h2 : ltF dm (1.9*m.dy)) :
    gGeneral fltNum m un dm F = gEl fltNum m.Re m.Estar un := by
  have hn : ¬ (gtFF un dm ∧ gtF un (1.9*m.dy)) := fun h => ltF_not_gtF h1 le_rfl h.2
  have he : ltF un (1.9*m.dy) ∧ ltF dm (1.9*m.dy) := ⟨h1, h2⟩
  unfold gGeneral
  simp only [flt_val]
  rw [flt_sel_neg hn, flt_sel_neg hn, flt_sel_pos he, flt_sel_pos he]

theorem gGeneral_el_dual {un dm F : FDual} (h1 : ltF un.v (1.9*m.dy)) (h2 : ltF dm.v (1.9*m.dy)) :
    gGeneral fdualNum m un dm F = gEl fdualNum m.Re m.Estar un := by
  have hn : ¬ (gtFF un.v dm.v ∧ gtF un.v (1.9*m.dy)) := fun h => ltF_not_gtF h1 le_rfl h.2
  have he : ltF un.v (1.9*m.dy) ∧ ltF dm.v (1.9*m.dy) := ⟨h1, h2⟩
  unfold gGeneral
  simp only [fdual_val]
  rw [fdual_sel_neg hn, fdual_sel_neg hn, fdual_sel_pos he, fdual_sel_pos he]

theorem gGeneral_pl_flt {un dm F : Flt} (h1 : gtFF un dm) (h2 : gtF un (1.9*m.dy)) :
    gGeneral fltNum m un dm F = gPl fltNum m un := by
  unfold gGeneral
  simp only [flt_val]
  rw [flt_sel_pos ⟨h1, h2⟩, flt_sel_pos ⟨h1, h2⟩]

theorem gGeneral_pl_dual {un dm F : FDual} (h1 : gtFF un.v dm.v) (h2 : gtF un.v (1.9*m.dy)) :
    gGeneral fdualNum m un dm F = gPl fdualNum m un := by
  unfold gGeneral
  simp only [fdual_val]
  rw [fdual_sel_pos ⟨h1, h2⟩, fdual_sel_pos ⟨h1, h2⟩]

theorem gGeneral_unl_flt {un dm F : Flt} (h1 : ¬ (gtFF un dm ∧ gtF un (1.9*m.dy)))
    (h2 : ¬ (ltF un (1.9*m.dy) ∧ ltF dm (1.9*m.dy))) :
    gGeneral fltNum m un dm F = gUnl fltNum m.Re m.Estar un dm F := by
  unfold gGeneral
  simp only [flt_val]
  rw [flt_sel_neg h1, flt_sel_neg h1, flt_sel_neg h2, flt_sel_neg h2]

theorem gGeneral_unl_dual {un dm F : FDual} (h1 : ¬ (gtFF un.v dm.v ∧ gtF un.v (1.9*m.dy)))
    (h2 : ¬ (ltF un.v (1.9*m.dy) ∧ ltF dm.v (1.9*m.dy))) :
    gGeneral fdualNum m un dm F = gUnl fdualNum m.Re m.Estar un dm F := by
  unfold gGeneral
  simp only [fdual_val]
  rw [fdual_sel_neg h1, fdual_sel_neg h1, fdual_sel_neg h2, fdual_sel_neg h2]

end branches

section

variable {n K : ℕ} {M : ℕ → ℕ → ℝ} {X : ℕ → ℝ} {F Ff : (ℕ → ℝ) → Flt} {x xf : FDual} {m : Mat} {un dm f : ℝ}

theorem FZero.near (h : FZero n X F x) {F' : (ℕ → ℝ) → Flt} (h' : Near n X fun U => F' U = F U) : FZero n X F' x :=
  ⟨(h.1.and h').mono fun _ hU => hU.2.trans hU.1, h.2⟩

theorem FT.near {a : ℝ} (h : FT n K M X F x a) {F' : (ℕ → ℝ) → Flt} (h' : Near n X fun U => F' U = F U) : FT n K M X F' x a :=
  ⟨h.1.near h', h.2⟩

/-- Out of contact nearby, or pressed and with true derivatives. -/
def AspTracks (n K : ℕ) (M : ℕ → ℕ → ℝ) (X : ℕ → ℝ) (P : (ℕ → ℝ) → Flt × Flt) (p : FDual × FDual) : Prop :=
  (FZero n X (fun U => (P U).1) p.1 ∧ FZero n X (fun U => (P U).2) p.2) ∨
  ∃ fn ca, 0 < fn ∧ FT n K M X (fun U => (P U).1) p.1 fn ∧ FT n K M X (fun U => (P U).2) p.2 ca

theorem AspTracks.near {P P' : (ℕ → ℝ) → Flt × Flt} {p : FDual × FDual} (h : AspTracks n K M X P p)
    (h' : Near n X fun U => P' U = P U) : AspTracks n K M X P' p := by
  have h1 : Near n X fun U => (P' U).1 = (P U).1 := h'.mono fun U hU => by rw [hU]
  have h2 : Near n X fun U => (P' U).2 = (P U).2 := h'.mono fun U hU => by rw [hU]
  rcases h with ⟨a, b⟩ | ⟨fn, ca, h0, a, b⟩
  · exact Or.inl ⟨a.near h1, b.near h2⟩
  · exact Or.inr ⟨fn, ca, h0, a.near h1, b.near h2⟩

theorem AspTracks.fn {P : (ℕ → ℝ) → Flt × Flt} {p : FDual × FDual} (h : AspTracks n K M X P p) :
    FTracks n K M X (fun U => (P U).1) p.1 := by
  rcases h with ⟨a, -⟩ | ⟨_, _, -, a, -⟩
  · exact a.ft.1
  · exact a.1

/-- Contact points of the three branches. -/
theorem gEl_asp (h : m.Good) (hx : FT n K M X F x un) (h0 : un ≠ 0) :
    AspTracks n K M X (fun U => gEl fltNum m.Re m.Estar (F U)) (gEl fdualNum m.Re m.Estar x) := by
  rcases lt_or_gt_of_ne h0 with hl | hl
  · exact Or.inl (gEl_open h.Re m.Estar hx hl)
  · obtain ⟨a, b⟩ := gEl_tracks h.Re m.Estar hx hl
    obtain ⟨ca, hca⟩ := b.ft
    refine Or.inr ⟨hertz m.Re m.Estar un, ca, hertz_pos h.Re h.Estar hl, ⟨a, ?_⟩, hca⟩
    rw [(gEl_v _ _ _).1, hx.2, (gEl_flt h.Re _ _).1, elLoading_fn]

theorem gPl_asp (h : m.Fine) (hx : FT n K M X F x un) (h0 : 0 < un) :
    AspTracks n K M X (fun U => gPl fltNum m (F U)) (gPl fdualNum m x) := by
  obtain ⟨a, b⟩ := gPl_tracks h hx h0
  obtain ⟨ca, hca⟩ := b.ft
  obtain ⟨fn, -, h1, -, h2⟩ := plLoading_pos h.toGood h0
  refine Or.inr ⟨fn, ca, h2, ⟨a, ?_⟩, hca⟩
  rw [(gPl_v _ _).1, hx.2, (gPl_flt h _).1, h1]

theorem gUnl_asp {R E : ℝ} (hR : 0 < R) (hE : 0 < E) {Fd : (ℕ → ℝ) → Flt} {xd : FDual} (hx : FT n K M X F x un)
    (hd : FT n K M X Fd xd dm) (hf : FT n K M X Ff xf f) (hdm : 0 < dm) (hf0 : 0 < f)
    (hne : un ≠ dm*(1 - f/(4/3*E*Real.sqrt R*dm^(1.5 : ℝ)))) :
    AspTracks n K M X (fun U => gUnl fltNum R E (F U) (Fd U) (Ff U)) (gUnl fdualNum R E x xd xf) := by
  rcases lt_or_gt_of_ne hne with hl | hl
  · exact Or.inl (gUnl_released hR hE hx hd hf hdm hl)
  · obtain ⟨a, b⟩ := gUnl_contact hR hE hx hd hf hdm hf0 hl
    obtain ⟨ca, hca⟩ := b.ft
    obtain ⟨fn, hfn⟩ := a.ft
    refine Or.inr ⟨fn, ca, ?_, hfn, hca⟩
    have e := hfn.2
    rw [(gUnl_v _ _ _ _ _).1, hx.2, hd.2, hf.2, (gUnl_flt hR hE _ _ _).1] at e
    have hs := Real.sqrt_pos.2 hR
    have hp : 0 < dm^(1.5 : ℝ) := Real.rpow_pos_of_pos hdm _
    have hb : dm*(1 - f/(4/3*E*Real.sqrt R*dm^(1.5 : ℝ))) < dm := by
      have : 0 < dm*(f/(4/3*E*Real.sqrt R*dm^(1.5 : ℝ))) := by positivity
      linarith
    rw [((unloading_pos (un := un) (F := f) (R := R) (E := E) hdm).2 hl hb).1] at e
    rw [← Option.some.inj e]
    have h1 : 0 < dm - dm*(1 - f/(4/3*E*Real.sqrt R*dm^(1.5 : ℝ))) := by linarith
    have h2 : 0 < un - dm*(1 - f/(4/3*E*Real.sqrt R*dm^(1.5 : ℝ))) := by linarith
    positivity

/-- One asperity: the largest interference `dm` is a constant. -/
theorem gGeneral_asp (h : m.Fine) (hx : FT n K M X F x un) (hf : FT n K M X Ff xf f) (hs : 0 < dm → 0 < f)
    (h1 : un ≠ max dm (1.9*m.dy)) (h2 : dm < 1.9*m.dy → un ≠ 0)
    (h3 : 1.9*m.dy ≤ dm → un ≠ dm*(1 - f/(4/3*m.Estar*Real.sqrt m.Re*dm^(1.5 : ℝ)))) :
    AspTracks n K M X (fun U => gGeneral fltNum m (F U) (fltNum.const dm) (Ff U)) (gGeneral fdualNum m x (fdualNum.const dm) xf) := by
  have hdy := h.dy
  have hdv : (fdualNum.const dm).v = some dm := rfl
  have hcd : fltNum.const dm = some dm := rfl
  rcases lt_or_gt_of_ne h1 with hl | hl
  · rcases lt_or_ge dm (1.9*m.dy) with hd | hd
    · rw [max_eq_right hd.le] at hl
      rw [gGeneral_el_dual (by rw [hx.2]; exact (ltF_some _ _).2 hl) (by rw [hdv]; exact (ltF_some _ _).2 hd)]
      exact (gEl_asp h.toGood hx (h2 hd)).near ((hx.lt hl).mono fun U hU => gGeneral_el_flt hU ((ltF_some _ _).2 hd))
    · rw [max_eq_left hd] at hl
      have n1 : ∀ z : Flt, ltF z dm → ¬ (gtFF z (some dm) ∧ gtF z (1.9*m.dy)) := by
        rintro z ⟨b, rfl, hb⟩ ⟨h, -⟩
        rw [gtFF_some] at h
        linarith
      have n2 : ∀ z : Flt, ¬ (ltF z (1.9*m.dy) ∧ ltF (some dm) (1.9*m.dy)) := fun z h => by
        have := (ltF_some _ _).1 h.2
        linarith
      have hdm : 0 < dm := by linarith
      rw [gGeneral_unl_dual (by rw [hx.2, hdv]; exact n1 _ ((ltF_some _ _).2 hl)) (by rw [hdv]; exact n2 _)]
      exact (gUnl_asp h.Re h.Estar hx (ft_const dm) hf hdm (hs hdm) (h3 hd)).near
        ((hx.lt hl).mono fun U hU => gGeneral_unl_flt (n1 _ hU) (n2 _))
  · obtain ⟨ha, hb⟩ := max_lt_iff.1 hl
    rw [gGeneral_pl_dual (by rw [hx.2, hdv]; exact (gtFF_some _ _).2 ha) (by rw [hx.2]; exact (gtF_some _ _).2 hb)]
    refine (gPl_asp h hx (by linarith)).near (((hx.gt ha).and (hx.gt hb)).mono fun U hU => gGeneral_pl_flt ?_ hU.2)
    obtain ⟨b, e, hb⟩ := hU.1
    exact ⟨b, dm, e, rfl, hb⟩

/-- Friction of one asperity: not at the limit, or open with no force before. -/
theorem gTan_asp {Fu Fu0 Ff0 : (ℕ → ℝ) → Flt} {xu xu0 xf0 : FDual} {P : (ℕ → ℝ) → Flt × Flt} {p : FDual × FDual}
    {u u0 f0 G mu : ℝ} (hmu : 0 ≤ mu) (hP : AspTracks n K M X P p) (hu : FT n K M X Fu xu u) (hu0 : FT n K M X Fu0 xu0 u0)
    (hf0 : FT n K M X Ff0 xf0 f0)
    (hc : (∀ fn ca, p.1.v = some fn → p.2.v = some ca → |8*G*ca*(u - u0) + f0| ≠ mu*fn) ∨
      p.1.v = some 0 ∧ FZero n X Ff0 xf0) :
    FTracks n K M X (fun U => gTan fltNum G mu (Fu U) (Fu0 U) (Ff0 U) (P U).1 (P U).2) (gTan fdualNum G mu xu xu0 xf0 p.1 p.2) ∧
    (p.1.v = some 0 → FZero n X (fun U => gTan fltNum G mu (Fu U) (Fu0 U) (Ff0 U) (P U).1 (P U).2)
      (gTan fdualNum G mu xu xu0 xf0 p.1 p.2)) := by
  rcases hP with ⟨a, b⟩ | ⟨fn, ca, h0, a, b⟩
  · have : FZero n X (fun U => gTan fltNum G mu (Fu U) (Fu0 U) (Ff0 U) (P U).1 (P U).2) (gTan fdualNum G mu xu xu0 xf0 p.1 p.2) := by
      rcases hc with hc | ⟨-, hc⟩
      · have hne := hc 0 0 (by rw [a.2]) (by rw [b.2])
        refine gTan_limit (ft_add (ft_mul (ft_mul (ft_const (8*G)) b.ft) (ft_sub hu hu0)) hf0) ?_ (fun e => hne (by rw [e]; simp))
        obtain ⟨a1, a2⟩ := a
        refine ⟨a1.mono fun U hU => by beta_reduce at hU ⊢; rw [hU, flt_const, flt_mul, mul_zero], ?_⟩
        rw [a2]
        simp only [fdual_const_some, fdual_mul_some, mul_zero, add_zero]
      · exact gTan_off G mu hu hu0 hc a b
    exact ⟨this.ft.1, fun _ => this⟩
  · have hv : p.1.v ≠ some 0 := fun e => h0.ne' (Option.some.inj (a.2.symm.trans e))
    rcases hc with hc | ⟨hc, -⟩
    · exact ⟨gTan_tracks hmu h0.le hu hu0 hf0 a b (fun e => absurd e h0.ne') (hc fn ca a.2 b.2), fun e => absurd e hv⟩
    · exact absurd hc hv

theorem gGap_ft (g : Asperities) {u : ℝ} (hx : FT n K M X F x u) (k : ℕ) :
    FT n K M X (fun U => gGap fltNum g (F U) k) (gGap fdualNum g x k) (u - g.meso - g.gaps k) :=
  ft_sub (ft_sub hx (ft_const _)) (ft_const _)

theorem gGap_const (g : Asperities) (c : ℝ) (k : ℕ) :
    gGap fdualNum g (FDual.const (some c)) k = fdualNum.const (c - g.meso - g.gaps k) := by
  unfold gGap FDual.const
  rw [fdual_const_some, fdual_const_some, fdual_sub_some, fdual_sub_some, fdual_const_some]
  simp only [sub_zero]

end

/-- The displacements and their tangents. -/
theorem matVec_ft (N m : ℕ) (Q : ℕ → ℕ → ℝ) (X : ℕ → ℝ) {d : ℕ} (hd : d < m) :
    FT N m Q X (fun U => some (matVec N Q U d)) ⟨some (matVec N Q X d), fun k => some (eye k d)⟩ (matVec N Q X d) := by
  refine ⟨⟨fun U => matVec N Q U d, fun k => eye k d, Near.of_all fun _ => rfl, rfl, ?_, ?_⟩, rfl⟩
  · simp [eye, hd.ne']
  · refine (hasGrad_matVec N Q d X).congr fun q _ => ?_
    rw [sum_eq_single_of_mem d (mem_range.2 hd)]
    · simp [eye]
    · intro k _ hk
      simp [eye, hk]

/-- Interference at which an asperity that was pressed to `dm` with force `F` is released. -/
def releasePoint (m : Mat) (dm F : ℝ) : ℝ := if dm < 1.9*m.dy then 0 else dm*(1 - F/hertz m.Re m.Estar dm)

/-- The asperity is neither at the point of release nor at the onset of yielding. -/
def SmoothAsp (m : Mat) (un dm F : ℝ) : Prop := un ≠ releasePoint m dm F ∧ un ≠ max dm (1.9*m.dy)

theorem hertz_expand {R E x : ℝ} (hx : 0 < x) : hertz R E x = 4/3*E*Real.sqrt R*x^(1.5 : ℝ) := by
  unfold hertz
  rw [if_pos hx]
  norm_num

theorem static_tracks {m : Mat} (h : m.Fine) (g : Asperities) (o : RoughObj) (hmu : 0 ≤ o.mu) (N : ℕ) (Q : ℕ → ℕ → ℝ)
    (X : ℕ → ℝ) {Fm : ℕ → ℝ} {f0 : ℕ → ℕ → ℝ} (hF : ∀ k < g.nasp, o.Fm k = some (Fm k)) (hf0 : ∀ k < g.nasp, ∀ d < 2, o.fxy0 k d = some (f0 k d))
    (hs : ∀ k < g.nasp, 0 < o.unmax - g.meso - g.gaps k → 0 < Fm k)
    (hsm : ∀ k < g.nasp, SmoothAsp m (matVec N Q X 2 - g.meso - g.gaps k) (o.unmax - g.meso - g.gaps k) (Fm k))
    (ht : ∀ k < g.nasp, ∀ d < 2, ∀ fn ca,
      (general m (matVec N Q X 2 - g.meso - g.gaps k) (o.unmax - g.meso - g.gaps k) (o.Fm k)).fn = some fn →
      (general m (matVec N Q X 2 - g.meso - g.gaps k) (o.unmax - g.meso - g.gaps k) (o.Fm k)).a = some ca →
      |8*m.Gstar*ca*(matVec N Q X d - o.uxyn0 d) + f0 k d| ≠ o.mu*fn ∨ fn = 0 ∧ f0 k d = 0) {d : ℕ} (hd : d < 3) :
    FTracks N 3 Q X (fun U => (staticRough m g o (matVec N Q U)).fxyn d) (roughForceLocal m g o (matVec N Q X) d) := by
  have key : FTracks N 3 Q X (fun U => gStaticRough fltNum m g (some o.unmax) o.Fm (fun d => some (o.uxyn0 d)) o.fxy0 o.mu
      (fun d => some (matVec N Q U d)) d) (roughForceLocal m g o (matVec N Q X) d) := by
    have hasp : ∀ k < g.nasp, AspTracks N 3 Q X
        (fun U => gGeneral fltNum m (gGap fltNum g (some (matVec N Q U 2)) k) (gGap fltNum g (some o.unmax) k) (o.Fm k))
        (gGeneral fdualNum m (gGap fdualNum g ⟨some (matVec N Q X 2), fun j => some (eye j 2)⟩ k)
          (gGap fdualNum g (FDual.const (some o.unmax)) k) (FDual.const (o.Fm k))) := by
      intro k hk
      rw [gGap_const, hF k hk]
      obtain ⟨s1, s2⟩ := hsm k hk
      refine gGeneral_asp h (gGap_ft g (matVec_ft N 3 Q X (by omega)) k) (ft_const (Fm k)) (hs k hk) s2 (fun hl => ?_) fun hl => ?_
      · unfold releasePoint at s1
        rwa [if_pos hl] at s1
      · unfold releasePoint at s1
        have := h.dy
        rwa [if_neg (not_lt.2 hl), hertz_expand (by linarith)] at s1
    unfold gStaticRough roughForceLocal gStaticRough
    simp only
    by_cases hd2 : d < 2
    · simp only [hd2, if_true]
      refine ftracks_weighted _ _ fun k hk => ?_
      have hA := hasp k hk
      have e := hf0 k hk d hd2
      rw [e]
      refine (gTan_asp hmu hA (matVec_ft N 3 Q X hd) (ft_const (o.uxyn0 d)) (ft_const (f0 k d)) ?_).1
      rw [(gGeneral_v _ _ _ _).1, (gGeneral_v _ _ _ _).2]
      simp only [gGap_v]
      have e1 := (gGeneral_flt h (matVec N Q X 2 - g.meso - g.gaps k) (o.unmax - g.meso - g.gaps k) (o.Fm k)).1
      have e2 := (gGeneral_flt h (matVec N Q X 2 - g.meso - g.gaps k) (o.unmax - g.meso - g.gaps k) (o.Fm k)).2
      by_cases hz : f0 k d = 0 ∧ (general m (matVec N Q X 2 - g.meso - g.gaps k) (o.unmax - g.meso - g.gaps k) (o.Fm k)).fn = some 0
      · right
        refine ⟨e1.trans hz.2, ?_⟩
        rw [hz.1]
        exact fzero_const
      · left
        intro fn ca q1 q2
        have q1' := e1.symm.trans q1
        rcases ht k hk d hd2 fn ca q1' (e2.symm.trans q2) with h' | h'
        · exact h'
        · exact absurd ⟨h'.2, by rw [← h'.1]; exact q1'⟩ hz
    · simp only [hd2, if_false]
      exact ftracks_weighted _ _ fun k hk => (hasp k hk).fn
  exact key.near (Near.of_all fun U => (gStaticRough_flt h g o _ d).symm)

/-! ## Finite derivatives -/

/-- Value and tangents are finite. -/
def FFin (x : FDual) : Prop := ∃ (a : ℝ) (g : ℕ → ℝ), x = ⟨some a, fun k => some (g k)⟩

section finite

variable {x y : FDual}

theorem FTracks.fin {n K : ℕ} {M : ℕ → ℕ → ℝ} {X : ℕ → ℝ} {F : (ℕ → ℝ) → Flt} (h : FTracks n K M X F x) : FFin x := by
  obtain ⟨f, g, -, h, -⟩ := h
  exact ⟨f X, g, h⟩

theorem ffin_const (c : ℝ) : FFin (fdualNum.const c) := ⟨c, fun _ => 0, rfl⟩

theorem ffin_add (hx : FFin x) (hy : FFin y) : FFin (fdualNum.add x y) := by
  obtain ⟨a, g, rfl⟩ := hx
  obtain ⟨b, g', rfl⟩ := hy
  exact ⟨_, _, fdual_add_some a b g g'⟩

theorem ffin_sub (hx : FFin x) (hy : FFin y) : FFin (fdualNum.sub x y) := by
  obtain ⟨a, g, rfl⟩ := hx
  obtain ⟨b, g', rfl⟩ := hy
  exact ⟨_, _, fdual_sub_some a b g g'⟩

theorem ffin_mul (hx : FFin x) (hy : FFin y) : FFin (fdualNum.mul x y) := by
  obtain ⟨a, g, rfl⟩ := hx
  obtain ⟨b, g', rfl⟩ := hy
  exact ⟨_, _, fdual_mul_some a b g g'⟩

theorem fdual_min_some (a b : ℝ) (g g' : ℕ → ℝ) : fdualNum.min ⟨some a, fun k => some (g k)⟩ ⟨some b, fun k => some (g' k)⟩
    = ⟨some (min a b), fun k => some (g k * balanced a (min a b) b + g' k * balanced b (min a b) a)⟩ := rfl

theorem fdual_max_some (a b : ℝ) (g g' : ℕ → ℝ) : fdualNum.max ⟨some a, fun k => some (g k)⟩ ⟨some b, fun k => some (g' k)⟩
    = ⟨some (max a b), fun k => some (g k * balanced a (max a b) b + g' k * balanced b (max a b) a)⟩ := rfl

theorem ffin_min (hx : FFin x) (hy : FFin y) : FFin (fdualNum.min x y) := by
  obtain ⟨a, g, rfl⟩ := hx
  obtain ⟨b, g', rfl⟩ := hy
  exact ⟨_, _, fdual_min_some a b g g'⟩

theorem ffin_max (hx : FFin x) (hy : FFin y) : FFin (fdualNum.max x y) := by
  obtain ⟨a, g, rfl⟩ := hx
  obtain ⟨b, g', rfl⟩ := hy
  exact ⟨_, _, fdual_max_some a b g g'⟩

theorem ffin_tan {G mu : ℝ} {u u0 f0 fn a : FDual} (hu : FFin u) (hu0 : FFin u0) (hf0 : FFin f0) (hfn : FFin fn) (ha : FFin a) :
    FFin (gTan fdualNum G mu u u0 f0 fn a) :=
  ffin_max (ffin_min (ffin_add (ffin_mul (ffin_mul (ffin_const _) ha) (ffin_sub hu hu0)) hf0) (ffin_mul (ffin_const _) hfn))
    (ffin_mul (ffin_const _) (ffin_mul (ffin_const _) hfn))

theorem ffin_weighted (w : ℕ → ℝ) (f : ℕ → FDual) (n : ℕ) (h : ∀ k < n, FFin (f k)) : FFin (gWeighted fdualNum w f n) := by
  induction n with
  | zero => exact ffin_const 0
  | succ n ih => exact ffin_add (ih fun k hk => h k (by omega)) (ffin_mul (ffin_const _) (h n (by omega)))

theorem ffin_zero : FFin ⟨some 0, fun _ => some 0⟩ := ffin_const 0

variable {n K : ℕ} {M : ℕ → ℕ → ℝ} {X : ℕ → ℝ} {F Fd Ff : (ℕ → ℝ) → Flt} {xd xf : FDual} {un dm f : ℝ}

theorem AspTracks.fin {P : (ℕ → ℝ) → Flt × Flt} {p : FDual × FDual} (h : AspTracks n K M X P p) : FFin p.1 ∧ FFin p.2 := by
  rcases h with ⟨a, b⟩ | ⟨_, _, -, a, b⟩
  · exact ⟨a.ft (K := K) (M := M) |>.1.fin, b.ft (K := K) (M := M) |>.1.fin⟩
  · exact ⟨a.1.fin, b.1.fin⟩

theorem gUnl_fin {R E : ℝ} (hR : 0 < R) (hE : 0 < E) (hx : FT n K M X F x un) (hd : FT n K M X Fd xd dm)
    (hf : FT n K M X Ff xf f) (hs : 0 < dm → 0 < f) :
    FFin (gUnl fdualNum R E x xd xf).1 ∧ FFin (gUnl fdualNum R E x xd xf).2 := by
  rcases le_or_gt dm 0 with h | h
  · obtain ⟨a, g, e⟩ := hd.1.fin
    have ha : a = dm := by
      have := hd.2
      rw [e] at this
      exact Option.some.inj this
    rw [e, gUnl_never_dual x g xf (by rw [ha]; exact h)]
    exact ⟨ffin_zero, ffin_zero⟩
  · by_cases hne : un = dm*(1 - f/(4/3*E*Real.sqrt R*dm^(1.5 : ℝ)))
    · rw [gUnl_off_dual x xd xf]
      · exact ⟨ffin_zero, ffin_zero⟩
      · rw [gPos_v]
        refine gPos_off fun c hc => ?_
        rw [(ft_sub hx (ft_deltabar hR hE hd hf h)).2] at hc
        rw [← Option.some.inj hc, hne, sub_self]
    · exact (gUnl_asp hR hE hx hd hf h (hs h) hne).fin

theorem gGeneral_fin {m : Mat} (h : m.Fine) (hx : FT n K M X F x un) (hf : FT n K M X Ff xf f) (hs : 0 < dm → 0 < f) :
    FFin (gGeneral fdualNum m x (fdualNum.const dm) xf).1 ∧ FFin (gGeneral fdualNum m x (fdualNum.const dm) xf).2 := by
  have hdy := h.dy
  have hdv : (fdualNum.const dm).v = some dm := rfl
  by_cases hy : dm < un ∧ 1.9*m.dy < un
  · rw [gGeneral_pl_dual (by rw [hx.2, hdv]; exact (gtFF_some _ _).2 hy.1) (by rw [hx.2]; exact (gtF_some _ _).2 hy.2)]
    exact (gPl_asp h hx (by linarith [hy.2])).fin
  · by_cases he : un < 1.9*m.dy ∧ dm < 1.9*m.dy
    · rw [gGeneral_el_dual (by rw [hx.2]; exact (ltF_some _ _).2 he.1) (by rw [hdv]; exact (ltF_some _ _).2 he.2)]
      by_cases h0 : un = 0
      · obtain ⟨a, g, e⟩ := hx.1.fin
        have ha : a = un := by
          have := hx.2
          rw [e] at this
          exact Option.some.inj this
        rw [e, gEl_zero _ _ g (by rw [ha, h0])]
        exact ⟨ffin_zero, ffin_zero⟩
      · exact (gEl_asp h.toGood hx h0).fin
    · rw [gGeneral_unl_dual (by rw [hx.2, hdv, gtFF_some, gtF_some]; exact hy) (by rw [hx.2, hdv, ltF_some, ltF_some]; exact he)]
      exact gUnl_fin h.Re h.Estar hx (ft_const dm) hf hs

theorem static_fin {m : Mat} (h : m.Fine) (g : Asperities) (o : RoughObj) (N : ℕ) (Q : ℕ → ℕ → ℝ)
    (X : ℕ → ℝ) {Fm : ℕ → ℝ} {f0 : ℕ → ℕ → ℝ} (hF : ∀ k < g.nasp, o.Fm k = some (Fm k))
    (hf0 : ∀ k < g.nasp, ∀ d < 2, o.fxy0 k d = some (f0 k d))
    (hs : ∀ k < g.nasp, 0 < o.unmax - g.meso - g.gaps k → 0 < Fm k) {d : ℕ} (hd : d < 3) :
    FFin (roughForceLocal m g o (matVec N Q X) d) := by
  have hasp : ∀ k < g.nasp, FFin (gGeneral fdualNum m (gGap fdualNum g ⟨some (matVec N Q X 2), fun j => some (eye j 2)⟩ k)
          (gGap fdualNum g (FDual.const (some o.unmax)) k) (FDual.const (o.Fm k))).1 ∧
        FFin (gGeneral fdualNum m (gGap fdualNum g ⟨some (matVec N Q X 2), fun j => some (eye j 2)⟩ k)
          (gGap fdualNum g (FDual.const (some o.unmax)) k) (FDual.const (o.Fm k))).2 := by
    intro k hk
    rw [gGap_const, hF k hk]
    exact gGeneral_fin h (gGap_ft g (matVec_ft N 3 Q X (by omega)) k) (ft_const (Fm k)) (hs k hk)
  unfold roughForceLocal gStaticRough
  simp only
  by_cases hd2 : d < 2
  · simp only [hd2, if_true]
    refine ffin_weighted _ _ _ fun k hk => ?_
    rw [hf0 k hk d hd2]
    exact ffin_tan (matVec_ft N 3 Q X hd).1.fin (ffin_const _) (ffin_const _) (hasp k hk).1 (hasp k hk).2
  · simp only [hd2, if_false]
    exact ffin_weighted _ _ _ fun k hk => (hasp k hk).1

end finite

end

end TMD
