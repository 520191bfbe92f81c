import Verif.Lemmas.MifGradStep
import Verif.Lemmas.RoughGradAft
import Verif.Props.MifStatic

/-!
# Derivatives of the static force of the Mindlin-Iwan fit
-/

namespace TMD

open Spec Finset Filter Topology

noncomputable section

/-! ## Values -/

/-- Values only. -/
def GMifAsp.v (s : GMifAsp FDual) : GMifAsp Flt := ⟨fun j d => (s.t j d).v, fun j => (s.r j).v⟩

theorem gMifNext_v (Nr : ℕ) (G mu : ℝ) (u u0 : ℕ → FDual) (s : GMifAsp FDual) (fn a : FDual) :
    (gMifNext fdualNum Nr G mu u u0 s fn a).v
      = gMifNext fltNum Nr G mu (fun d => (u d).v) (fun d => (u0 d).v) s.v fn.v a.v := by
  unfold gMifNext gMifClip gMifStiff gMifPressure GMifAsp.v
  simp only [fdual_sel, fdual_const, fdual_mul, fdual_div, fdual_sub, fdual_add, fdual_min, fdual_max, fdual_val, flt_val, gInterp_v]

theorem gMifForce_v (Nr : ℕ) (a : FDual) (s : GMifAsp FDual) (d : ℕ) :
    (gMifForce fdualNum Nr a s d).v = gMifForce fltNum Nr a.v s.v d := by
  unfold gMifForce GMifAsp.v
  simp only [fdual_mul, fdual_const, gWeighted_v]

theorem gMifClip_flt (Nr : ℕ) (G mu u u0 old : ℝ) {f a : ℝ} (ha : 0 < f → a ≠ 0) (j : ℕ) :
    gMifClip fltNum Nr G mu (some u) (some u0) (some f) (some a) (some old) j
      = some (max (min (mifStiff Nr G f a j * (u - u0) + old) (mu * mifPressure Nr f a j)) (-mu * mifPressure Nr f a j)) := by
  unfold gMifClip gMifStiff gMifPressure mifStiff mifPressure
  simp only [flt_val]
  by_cases h : 0 < f
  · have h0 := ha h
    rw [flt_sel_pos ((gtF_some _ _).2 h), flt_sel_pos ((gtF_some _ _).2 h), if_pos h, if_pos h]
    have h1 : a * a ≠ 0 := mul_ne_zero h0 h0
    have h2 : 2*Real.pi*(a*a) ≠ 0 := mul_ne_zero (by positivity) h1
    simp only [flt_const, flt_mul, flt_sub, flt_div _ h1, flt_div _ h2, flt_div _ Real.pi_ne_zero, flt_add, flt_min, flt_max]
    rw [← pow_two]
  · rw [flt_sel_neg (fun c => h ((gtF_some _ _).1 c)), flt_sel_neg (fun c => h ((gtF_some _ _).1 c)), if_neg h, if_neg h]
    simp only [flt_const, flt_mul, flt_sub, flt_add, flt_min, flt_max]

theorem clip_mifTraction (Nr : ℕ) (x x0 : ℝ) (t0 r0 : ℕ → ℝ) (f a G mu : ℝ) (j : ℕ) :
    max (min (mifStiff Nr G f a j * (x - x0) + jnpInterp Nr r0 t0 (a * mifRadius Nr j)) (mu * mifPressure Nr f a j)) (-mu * mifPressure Nr f a j)
      = mifTraction Nr x x0 t0 r0 (some f) a G mu j := by
  unfold mifTraction mifStiff mifPressure
  simp only [Option.getD_some, neg_mul]

/-- Finite history. -/
theorem gMifNext_flt {Nr : ℕ} (hNr : 2 ≤ Nr) (G mu : ℝ) {u u0 : ℕ → Flt} {uv u0v : ℕ → ℝ} {d : ℕ} (hu : u d = some (uv d))
    (hu0 : u0 d = some (u0v d)) {s : GMifAsp Flt} {r0 : ℕ → ℝ} {t0 : ℕ → ℝ} (hr : ∀ i < Nr, s.r i = some (r0 i))
    (ht : ∀ i < Nr, s.t i d = some (t0 i)) {f a : ℝ} (ha : 0 < f → a ≠ 0) (j : ℕ) :
    (gMifNext fltNum Nr G mu u u0 s (some f) (some a)).t j d
      = some (mifTraction Nr (uv d) (u0v d) t0 r0 (some f) a G mu j) := by
  show gMifClip fltNum Nr G mu (u d) (u0 d) (some f) (some a)
    (gInterp fltNum Nr s.r (fun i => s.t i d) (fltNum.mul (some a) (fltNum.const (mifRadius Nr j)))) j = _
  rw [hu, hu0, flt_const, flt_mul, gInterp_congr fltNum hNr (xp' := fun k => some (r0 k)) (fp' := fun k => some (t0 k)) hr ht,
    gInterp_flt, gMifClip_flt Nr G mu _ _ _ ha j, clip_mifTraction]

theorem gMifForce_flt (Nr : ℕ) (a : ℝ) {s : GMifAsp Flt} {t : ℕ → ℝ} {d : ℕ} (ht : ∀ j < Nr, s.t j d = some (t j)) :
    gMifForce fltNum Nr (some a) s d = some (mifForce Nr a t) := by
  unfold gMifForce mifForce
  have e : ∀ L ≤ Nr, gWeighted fltNum (fun j => mifRadius Nr j * mifWeight Nr j) (fun j => s.t j d) L
      = some (∑ j ∈ range L, t j * mifRadius Nr j * mifWeight Nr j) := by
    intro L
    induction L with
    | zero => intro _; simp [gWeighted, flt_const]
    | succ L ih =>
      intro hL
      show fltNum.add (gWeighted fltNum _ _ L) (fltNum.mul (fltNum.const _) (s.t L d)) = _
      rw [ih (by omega), ht L (by omega), flt_const, flt_mul, flt_add, sum_range_succ]
      congr 2
      ring
  rw [e Nr le_rfl, flt_const, flt_mul, flt_mul, flt_mul, pow_two]

section

variable {n K : ℕ} {M : ℕ → ℕ → ℝ} {X : ℕ → ℝ} {P : (ℕ → ℝ) → Flt × Flt} {p : FDual × FDual} {fn a : ℝ} {Nr : ℕ}
  {S : (ℕ → ℝ) → GMifAsp Flt} {s : GMifAsp FDual} {a0 : ℝ} {t0 : ℕ → ℕ → ℝ}

/-- One step: tractions and radii. -/
theorem gMifNext_tr (hNr : 2 ≤ Nr) (h : ContactFT n K M X P p fn a) (hs : MifTr n K M X Nr S s a0 t0) {G mu : ℝ} (hmu : 0 ≤ mu)
    {Fu Fu0 : ℕ → (ℕ → ℝ) → Flt} {xu xu0 : ℕ → FDual} {u u0 : ℕ → ℝ} (hu : ∀ d < 2, FT n K M X (Fu d) (xu d) (u d))
    (hu0 : ∀ d < 2, FT n K M X (Fu0 d) (xu0 d) (u0 d)) (hc : ∀ d < 2, NoTr n X Nr S s d ∨ OffNodes Nr fn a a0)
    (hl : ∀ d < 2, ∀ j < Nr, MifOffLimit n X Nr S s G mu fn a (u d - u0 d) a0 t0 d j) :
    MifTr n K M X Nr (fun U => gMifNext fltNum Nr G mu (fun d => Fu d U) (fun d => Fu0 d U) (S U) (P U).1 (P U).2)
      (gMifNext fdualNum Nr G mu xu xu0 s p.1 p.2) a
      (fun j d => mifTraction Nr (u d) (u0 d) (fun i => t0 i d) (fun i => a0 * mifRadius Nr i) (some fn) a G mu j) ∧
    (fn = 0 → ∀ d < 2, NoTr n X Nr (fun U => gMifNext fltNum Nr G mu (fun d => Fu d U) (fun d => Fu0 d U) (S U) (P U).1 (P U).2)
      (gMifNext fdualNum Nr G mu xu xu0 s p.1 p.2) d) := by
  refine ⟨⟨h.a_nonneg, fun i _ => h.rad Nr i, h.rad_zero Nr (Or.inr rfl), fun h0 i _ => h.rad_zero Nr (Or.inl ?_), fun j hj d hd => ?_⟩,
    fun h0 d hd j hj => (gMifClip_ft hNr h hs hd hmu (hu d hd) (hu0 d hd) (hc d hd) hj (hl d hd j hj)).2 h0⟩
  · by_contra hne
    exact (h.closed (lt_of_le_of_ne h.nonneg (Ne.symm hne))).ne' h0
  · refine ⟨(gMifClip_ft hNr h hs hd hmu (hu d hd) (hu0 d hd) (hc d hd) hj (hl d hd j hj)).1, ?_⟩
    have := congrArg (fun z => z.t j d) (gMifNext_v Nr G mu xu xu0 s p.1 p.2)
    refine this.trans ?_
    rw [h.force.2, h.radius.2]
    exact gMifNext_flt (uv := u) (u0v := u0) (r0 := fun i => a0 * mifRadius Nr i) (t0 := fun i => t0 i d) hNr G mu
      (hu d hd).2 (hu0 d hd).2 (fun i hi => (hs.rad i hi).2) (fun i hi => (hs.tr i hi d hd).2) (fun hp => (h.closed hp).ne') j

theorem gMifForce_ft (h : ContactFT n K M X P p fn a) (hs : MifTr n K M X Nr S s a0 t0) {d : ℕ} (hd : d < 2) :
    FTracks n K M X (fun U => gMifForce fltNum Nr (P U).2 (S U) d) (gMifForce fdualNum Nr p.2 s d) := by
  unfold gMifForce
  exact ftracks_mul (ft_mul (ft_const _) (ft_mul h.radius h.radius)).1
    (ftracks_weighted _ _ fun j hj => (hs.tr j hj d hd).1)

/-- Force and radius are numbers nearby. -/
theorem ContactFT.near (h : ContactFT n K M X P p fn a) :
    Near n X fun U => ∃ f b, (P U).1 = some f ∧ (P U).2 = some b ∧ (0 < f → b ≠ 0) := by
  rcases h.nonneg.lt_or_eq with h0 | h0
  · obtain ⟨f, g, h1, -⟩ := h.force.1
    refine (h1.and (h.radius.gt (h.closed h0))).mono fun U hU => ?_
    obtain ⟨e1, b, e2, hb⟩ := hU
    exact ⟨_, b, e1, e2, fun _ => hb.ne'⟩
  · obtain ⟨z1, z2⟩ := h.opened h0.symm
    exact (z1.1.and z2.1).mono fun U hU => ⟨0, 0, hU.1, hU.2, fun h => absurd h (lt_irrefl _)⟩

end

/-! ## Finite derivatives -/

theorem gMifNext_fin {Nr : ℕ} (hNr : 2 ≤ Nr) (G mu : ℝ) {u u0 : ℕ → FDual} {s : GMifAsp FDual} {fn a : FDual} {d : ℕ} (hu : FFin (u d))
    (hu0 : FFin (u0 d)) (hr : ∀ i < Nr, FFin (s.r i)) (ht : ∀ i < Nr, FFin (s.t i d)) (hf : FFin fn) (ha : FFin a)
    (hp : ∀ f b, fn.v = some f → a.v = some b → 0 < f → b ≠ 0) (j : ℕ) :
    FFin ((gMifNext fdualNum Nr G mu u u0 s fn a).t j d) := by
  have hx : FFin (fdualNum.mul a (fdualNum.const (mifRadius Nr j))) := ffin_mul ha (ffin_const _)
  have hi := gInterp_fin hNr hr hx ht
  obtain ⟨f, gf, rfl⟩ := hf
  obtain ⟨b, gb, rfl⟩ := ha
  have hp' := hp f b rfl rfl
  have hpr : FFin (gMifPressure fdualNum Nr ⟨some f, fun k => some (gf k)⟩ ⟨some b, fun k => some (gb k)⟩ j) ∧
      FFin (gMifStiff fdualNum Nr G ⟨some f, fun k => some (gf k)⟩ ⟨some b, fun k => some (gb k)⟩ j) := by
    unfold gMifPressure gMifStiff
    simp only [fdual_val]
    by_cases h : 0 < f
    · rw [fdual_sel_pos ((gtF_some _ _).2 h), fdual_sel_pos ((gtF_some _ _).2 h)]
      have h1 : b * b ≠ 0 := mul_ne_zero (hp' h) (hp' h)
      have h2 : 2*Real.pi*(b*b) ≠ 0 := mul_ne_zero (by positivity) h1
      simp only [fdual_const_some, fdual_mul_some, fdual_div_some h1, fdual_div_some h2, fdual_div_some Real.pi_ne_zero]
      exact ⟨⟨_, _, rfl⟩, ⟨_, _, rfl⟩⟩
    · rw [fdual_sel_neg (fun c => h ((gtF_some _ _).1 c)), fdual_sel_neg (fun c => h ((gtF_some _ _).1 c))]
      exact ⟨ffin_const 0, ffin_const 0⟩
  exact ffin_max (ffin_min (ffin_add (ffin_mul hpr.2 (ffin_sub hu hu0)) hi) (ffin_mul (ffin_const _) hpr.1)) (ffin_mul (ffin_const _) hpr.1)

theorem gMifForce_fin {Nr : ℕ} {a : FDual} {s : GMifAsp FDual} {d : ℕ} (ha : FFin a) (ht : ∀ i < Nr, FFin (s.t i d)) :
    FFin (gMifForce fdualNum Nr a s d) :=
  ffin_mul (ffin_mul (ffin_const _) (ffin_mul ha ha)) (ffin_weighted _ _ _ ht)

/-! ## Objects -/

/-- Pressed in, also exactly at the yield limit, the radius is positive. -/
theorem general_radius_all {m : Mat} (h : m.Good) (hEt : m.Etan < m.Emod) {un dm : ℝ} {F : Flt} (hs : AspState m dm F) {f a : ℝ}
    (hf : (general m un dm F).fn = some f) (ha : (general m un dm F).a = some a) (hpos : 0 < f) : 0 < a := by
  by_cases hne : un = 1.9*m.dy
  · have hdy := h.dy
    have hy : ¬ (dm < un ∧ 1.9*m.dy < un) := fun hc => hne.not_gt hc.2
    have he : ¬ (un < 1.9*m.dy ∧ dm < 1.9*m.dy) := fun hc => hne.not_lt hc.1
    rw [general_unload hy he] at hf ha
    obtain ⟨F0, rfl, h0, h0'⟩ := hs.ok
    rcases le_or_gt dm 0 with hd | hd
    · rw [(unloading_never hd).1, Option.some.injEq] at hf
      rw [← hf] at hpos
      exact absurd hpos (lt_irrefl _)
    · obtain ⟨p1, p2⟩ := unloading_pos (un := un) (F := F0) (R := m.Re) (E := m.Estar) hd
      rcases le_or_gt un (dm*(1 - F0/(4/3*m.Estar*Real.sqrt m.Re*dm^(1.5 : ℝ)))) with hb | hb
      · rw [(p1 hb).1, Option.some.injEq] at hf
        rw [← hf] at hpos
        exact absurd hpos (lt_irrefl _)
      · have hq : 0 < F0/(4/3*m.Estar*Real.sqrt m.Re*dm^(1.5 : ℝ)) := by
          have := h0' hd
          have := h.Re
          have := h.Estar
          positivity
        obtain ⟨h3, h4⟩ := p2 hb (by nlinarith)
        rw [h3, Option.some.injEq] at hf
        rw [h4, Option.some.injEq] at ha
        rw [← hf] at hpos
        rw [← ha]
        refine Real.sqrt_pos.2 (mul_pos ?_ (by linarith))
        by_contra hc
        rw [Real.sqrt_eq_zero_of_nonpos (not_lt.1 hc)] at hpos
        simp at hpos
  · exact general_radius h hEt hne hf ha hpos

/-- The state of the object: all asperities are finite, their radii are those of a contact. -/
structure MifReady (m : Mat) (g : Asperities) (Nr : ℕ) (o : MifObj) : Prop where
  mu : 0 ≤ o.mu
  state : ∀ k < g.nasp, AspState m (o.unmax - g.meso - g.gaps k) (o.Fm k)
  asp : ∀ k < g.nasp, ∃ s a0, o.asp k = some s ∧ 0 ≤ a0 ∧ s.r = fun j => a0 * mifRadius Nr j

variable {m : Mat} {g : Asperities} {Nr : ℕ} {o : MifObj}

/-- Forces of one asperity. -/
theorem mifAsperity_force {u u0 : ℕ → ℝ} {s : MifAsp} {f a G mu : ℝ} (ha : 0 < f → a ≠ 0) :
    mifAsperity Nr u u0 (some s) (some f) (some a) G mu = some (fun d => mifForce Nr a fun j =>
        mifTraction Nr (u d) (u0 d) (fun i => s.t i d) s.r (some f) a G mu j,
      ⟨fun j d => mifTraction Nr (u d) (u0 d) (fun i => s.t i d) s.r (some f) a G mu j, fun j => a * mifRadius Nr j⟩) := by
  unfold mifAsperity
  simp only [Option.getD_some]
  rw [if_neg fun hc => ha hc.1 hc.2]

theorem gWeighted_flt' (w : ℕ → ℝ) {f f' : ℕ → Flt} (n : ℕ) (h : ∀ k < n, f k = f' k) :
    gWeighted fltNum w f n = weighted w f' n := by
  rw [gWeighted_congr fltNum w n h, gWeighted_flt]

/-- The program on numbers is that of Model/MifContact. -/
theorem gStaticMif_flt (h : m.Fine) (hNr : 2 ≤ Nr) {s : ℕ → MifAsp} (ha : ∀ k < g.nasp, o.asp k = some (s k)) {u : ℕ → ℝ}
    (hc : ∀ k < g.nasp, ∃ f b, (general m (u 2 - g.meso - g.gaps k) (o.unmax - g.meso - g.gaps k) (o.Fm k)).fn = some f ∧
      (general m (u 2 - g.meso - g.gaps k) (o.unmax - g.meso - g.gaps k) (o.Fm k)).a = some b ∧ (0 < f → b ≠ 0)) (d : ℕ) :
    gStaticMif fltNum m g Nr (some o.unmax) o.Fm (fun d => some (o.uxyn0 d))
      (fun k => ⟨fun j d => (o.asp k).map fun s => s.t j d, fun j => (o.asp k).map fun s => s.r j⟩) o.mu (fun d => some (u d)) d
      = (o.force m g Nr u false).1 d := by
  have e1 := fun k => (gGeneral_flt h (u 2 - g.meso - g.gaps k) (o.unmax - g.meso - g.gaps k) (o.Fm k)).1
  have e2 := fun k => (gGeneral_flt h (u 2 - g.meso - g.gaps k) (o.unmax - g.meso - g.gaps k) (o.Fm k)).2
  unfold gStaticMif MifObj.force
  simp only [gGap_flt]
  by_cases hd : d < 2
  · simp only [hd, if_true]
    refine gWeighted_flt' _ _ fun k hk => ?_
    obtain ⟨f, b, q1, q2, q3⟩ := hc k hk
    rw [e1, e2, q1, q2, ha k hk, mifAsperity_force q3]
    exact gMifForce_flt Nr b fun j _ => gMifNext_flt (uv := u) (u0v := o.uxyn0) hNr m.Gstar o.mu rfl rfl (fun i _ => rfl) (fun i _ => rfl) q3 j
  · simp only [hd, if_false]
    exact gWeighted_flt' _ _ fun k _ => e1 k

end

end TMD
