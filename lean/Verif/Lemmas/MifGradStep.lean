import Verif.Lemmas.MifGrad

/-!
# Derivatives of the tractions of the Mindlin-Iwan fit
-/

namespace TMD

open Spec Finset Filter Topology

noncomputable section

section

variable {n K : ℕ} {M : ℕ → ℕ → ℝ} {X : ℕ → ℝ}

/-! ## The friction limit -/

theorem clip_ft {P L : (ℕ → ℝ) → Flt} {p l : FDual} {pv lv mu : ℝ} (hmu : 0 ≤ mu) (hl0 : 0 ≤ lv) (hp : FT n K M X P p pv)
    (hl : FT n K M X L l lv) (hz : lv = 0 → FZero n X L l) (hne : |pv| ≠ mu * lv) :
    FTracks n K M X (fun U => fltNum.max (fltNum.min (P U) (fltNum.mul (fltNum.const mu) (L U))) (fltNum.mul (fltNum.const (-mu)) (L U)))
      (fdualNum.max (fdualNum.min p (fdualNum.mul (fdualNum.const mu) l)) (fdualNum.mul (fdualNum.const (-mu)) l)) ∧
    (lv = 0 → FZero n X
      (fun U => fltNum.max (fltNum.min (P U) (fltNum.mul (fltNum.const mu) (L U))) (fltNum.mul (fltNum.const (-mu)) (L U)))
      (fdualNum.max (fdualNum.min p (fdualNum.mul (fdualNum.const mu) l)) (fdualNum.mul (fdualNum.const (-mu)) l))) := by
  have hL := ft_mul (ft_const mu) hl
  have hL' := ft_mul (ft_const (-mu)) hl
  have hlim : ∀ h0 : mu = 0 ∨ lv = 0, FZero n X
      (fun U => fltNum.max (fltNum.min (P U) (fltNum.mul (fltNum.const mu) (L U))) (fltNum.mul (fltNum.const (-mu)) (L U)))
      (fdualNum.max (fdualNum.min p (fdualNum.mul (fdualNum.const mu) l)) (fdualNum.mul (fdualNum.const (-mu)) l)) := by
    intro h0
    have hp0 : pv ≠ 0 := by
      intro e
      apply hne
      rw [e, abs_zero]
      rcases h0 with h | h <;> rw [h] <;> simp
    have z1 : FZero n X (fun U => fltNum.mul (fltNum.const mu) (L U)) (fdualNum.mul (fdualNum.const mu) l) := by
      rcases h0 with h | h
      · rw [h]
        exact fzero_mul_left fzero_const hl
      · exact fzero_mul_right (ft_const (K := K) (M := M) mu) (hz h)
    have z2 : FZero n X (fun U => fltNum.mul (fltNum.const (-mu)) (L U)) (fdualNum.mul (fdualNum.const (-mu)) l) := by
      rcases h0 with h | h
      · rw [h, neg_zero]
        exact fzero_mul_left fzero_const hl
      · exact fzero_mul_right (ft_const (K := K) (M := M) (-mu)) (hz h)
    obtain ⟨⟨f, g, h1, rfl, -⟩, hv⟩ := hp
    obtain rfl := Option.some.inj hv
    refine ⟨?_, ?_⟩
    · refine ((h1.and z1.1).and z2.1).mono fun U hU => ?_
      obtain ⟨⟨e1, e2⟩, e3⟩ := hU
      beta_reduce at e2 e3 ⊢
      rw [e1, e2, e3, flt_min, flt_max, max_eq_right (min_le_right _ _)]
    · rw [z1.2, z2.2]
      rcases lt_or_gt_of_ne hp0 with hl | hl
      · rw [fdual_min_left g (fun _ => 0) hl, fdual_max_right g (fun _ => 0) hl]
      · rw [fdual_min_right g (fun _ => 0) hl]
        simp only [fdualNum, maxF, mulF, addF, balF, lift2_some, Option.bind_some, max_self, zero_mul, add_zero]
  refine ⟨?_, fun h => hlim (Or.inr h)⟩
  by_cases h0 : mu = 0 ∨ lv = 0
  · exact (hlim h0).ft.1
  · push Not at h0
    have hlt : 0 < mu * lv := mul_pos (lt_of_le_of_ne hmu h0.1.symm) (lt_of_le_of_ne hl0 h0.2.symm)
    have hne1 : pv ≠ mu * lv := fun e => hne (by rw [e, abs_of_pos hlt])
    have hne2 : pv ≠ -(mu * lv) := fun e => hne (by rw [e, abs_neg, abs_of_pos hlt])
    have hmin := ftracks_min hp.1 hL.1 (by rw [hp.2, hL.2]; exact fun e => hne1 (Option.some.inj e))
    refine ftracks_max hmin hL'.1 ?_
    rw [fdual_min, hp.2, hL.2, hL'.2, flt_min]
    intro e
    have e' := Option.some.inj e
    rcases min_choice pv (mu * lv) with h | h
    · rw [h] at e'; exact hne2 (by linarith)
    · rw [h] at e'; linarith

theorem clip_zero {P L : (ℕ → ℝ) → Flt} {p l : FDual} (mu : ℝ) (hp : FZero n X P p) (hl : FZero n X L l) : FZero n X
    (fun U => fltNum.max (fltNum.min (P U) (fltNum.mul (fltNum.const mu) (L U))) (fltNum.mul (fltNum.const (-mu)) (L U)))
    (fdualNum.max (fdualNum.min p (fdualNum.mul (fdualNum.const mu) l)) (fdualNum.mul (fdualNum.const (-mu)) l)) := by
  have z1 := fzero_mul_right (ft_const (n := n) (K := 0) (M := fun _ _ => 0) (X := X) mu) hl
  have z2 := fzero_mul_right (ft_const (n := n) (K := 0) (M := fun _ _ => 0) (X := X) (-mu)) hl
  refine ⟨((hp.1.and z1.1).and z2.1).mono fun U hU => ?_, ?_⟩
  · obtain ⟨⟨e1, e2⟩, e3⟩ := hU
    beta_reduce at e2 e3 ⊢
    rw [e1, e2, e3, flt_min, flt_max, min_self, max_self]
  · rw [z1.2, z2.2, hp.2]
    simp only [fdualNum, minF, maxF, mulF, addF, balF, lift2_some, Option.bind_some, min_self, max_self, zero_mul, add_zero]

/-! ## Stiffness and pressure -/

/-- Normal force and contact radius: out of contact nearby, or pressed with a positive radius. -/
structure ContactFT (n K : ℕ) (M : ℕ → ℕ → ℝ) (X : ℕ → ℝ) (P : (ℕ → ℝ) → Flt × Flt) (p : FDual × FDual) (fn a : ℝ) : Prop where
  force : FT n K M X (fun U => (P U).1) p.1 fn
  radius : FT n K M X (fun U => (P U).2) p.2 a
  nonneg : 0 ≤ fn
  closed : 0 < fn → 0 < a
  opened : fn = 0 → FZero n X (fun U => (P U).1) p.1 ∧ FZero n X (fun U => (P U).2) p.2

theorem AspTracks.contact {P : (ℕ → ℝ) → Flt × Flt} {p : FDual × FDual} {fn a : ℝ} (h : AspTracks n K M X P p) (h1 : p.1.v = some fn)
    (h2 : p.2.v = some a) (ha : 0 < fn → 0 < a) : ContactFT n K M X P p fn a := by
  rcases h with ⟨z1, z2⟩ | ⟨f, b, h0, t1, t2⟩
  · have e1 : fn = 0 := by
      rw [z1.2] at h1
      exact (Option.some.inj h1).symm
    have e2 : a = 0 := by
      rw [z2.2] at h2
      exact (Option.some.inj h2).symm
    exact ⟨by rw [e1]; exact z1.ft, by rw [e2]; exact z2.ft, e1.ge, ha, fun _ => ⟨z1, z2⟩⟩
  · have e1 : fn = f := Option.some.inj (h1.symm.trans t1.2)
    have e2 : a = b := Option.some.inj (h2.symm.trans t2.2)
    subst e1 e2
    exact ⟨t1, t2, h0.le, ha, fun e => absurd e h0.ne'⟩

variable {P : (ℕ → ℝ) → Flt × Flt} {p : FDual × FDual} {fn a : ℝ}

theorem ContactFT.a_zero (h : ContactFT n K M X P p fn a) (h0 : fn = 0) : a = 0 := by
  have e := h.radius.2
  rw [(h.opened h0).2.2] at e
  exact (Option.some.inj e).symm

theorem ContactFT.a_nonneg (h : ContactFT n K M X P p fn a) : 0 ≤ a := by
  rcases h.nonneg.lt_or_eq with h0 | h0
  · exact (h.closed h0).le
  · rw [h.a_zero h0.symm]

/-- Nothing is transmitted: open, or at the rim. -/
def Idle (Nr : ℕ) (fn : ℝ) (j : ℕ) : Prop := fn = 0 ∨ j = Nr - 1

theorem not_gtF_zero : ¬ gtF (some 0) 0 := by simp [gtF]

theorem gMifPressure_ft {Nr : ℕ} (hNr : 2 ≤ Nr) (h : ContactFT n K M X P p fn a) (j : ℕ) :
    FT n K M X (fun U => gMifPressure fltNum Nr (P U).1 (P U).2 j) (gMifPressure fdualNum Nr p.1 p.2 j) (mifPressure Nr fn a j) ∧
    (Idle Nr fn j → FZero n X (fun U => gMifPressure fltNum Nr (P U).1 (P U).2 j) (gMifPressure fdualNum Nr p.1 p.2 j)) := by
  unfold gMifPressure mifPressure
  simp only [fdual_val, flt_val]
  rcases h.nonneg.lt_or_eq with h0 | h0
  · have ha := h.closed h0
    have hc : gtF p.1.v 0 := by rw [h.force.2]; exact (gtF_some _ _).2 h0
    have hden := ft_mul (ft_const (n := n) (K := K) (M := M) (X := X) (2*Real.pi)) (ft_mul h.radius h.radius)
    have hd0 : 2*Real.pi*(a*a) ≠ 0 := by have := Real.pi_pos; positivity
    have hq := ft_div (ft_mul (ft_const 3) h.force) hden hd0
    rw [if_pos h0, show 2*Real.pi*a^2 = 2*Real.pi*(a*a) by ring]
    refine ⟨ft_sel_true hc (h.force.gt h0) (ft_mul hq (ft_const _)), fun hi => ?_⟩
    rw [fdual_sel_pos hc]
    have hr : Real.sqrt (1 - mifRadius Nr j ^ 2) = 0 := by
      rcases hi with hi | hi
      · exact absurd hi h0.ne'
      · rw [hi, mifRadius_last hNr]
        simp
    rw [hr]
    exact (fzero_mul_right hq fzero_const).near ((h.force.gt h0).mono fun U hU => flt_sel_pos hU _ _)
  · obtain ⟨z1, z2⟩ := h.opened h0.symm
    have hc : ¬ gtF p.1.v 0 := by rw [z1.2]; exact not_gtF_zero
    have hz : FZero n X (fun U => fltNum.sel (gtF (P U).1 0) (fltNum.mul (fltNum.div (fltNum.mul (fltNum.const 3) (P U).1)
        (fltNum.mul (fltNum.const (2*Real.pi)) (fltNum.mul (P U).2 (P U).2))) (fltNum.const (Real.sqrt (1 - mifRadius Nr j ^ 2)))) (fltNum.const 0))
        (fdualNum.sel (gtF p.1.v 0) (fdualNum.mul (fdualNum.div (fdualNum.mul (fdualNum.const 3) p.1)
          (fdualNum.mul (fdualNum.const (2*Real.pi)) (fdualNum.mul p.2 p.2))) (fdualNum.const (Real.sqrt (1 - mifRadius Nr j ^ 2)))) (fdualNum.const 0)) := by
      rw [fdual_sel_neg hc]
      exact fzero_const.near (z1.1.mono fun U hU => by beta_reduce at hU ⊢; rw [hU]; exact flt_sel_neg not_gtF_zero _ _)
    rw [← h0, if_neg (lt_irrefl _)]
    exact ⟨hz.ft, fun _ => hz⟩

theorem gMifStiff_ft {Nr : ℕ} (hNr : 2 ≤ Nr) (G : ℝ) (h : ContactFT n K M X P p fn a) (j : ℕ) :
    FT n K M X (fun U => gMifStiff fltNum Nr G (P U).1 (P U).2 j) (gMifStiff fdualNum Nr G p.1 p.2 j) (mifStiff Nr G fn a j) ∧
    (Idle Nr fn j → FZero n X (fun U => gMifStiff fltNum Nr G (P U).1 (P U).2 j) (gMifStiff fdualNum Nr G p.1 p.2 j)) := by
  unfold gMifStiff mifStiff
  simp only [fdual_val, flt_val]
  rcases h.nonneg.lt_or_eq with h0 | h0
  · have ha := h.closed h0
    have hc : gtF p.1.v 0 := by rw [h.force.2]; exact (gtF_some _ _).2 h0
    have hq := ft_div (ft_div (ft_mul (ft_const (8*G)) h.radius) (ft_mul h.radius h.radius) (by positivity)) (ft_const Real.pi) Real.pi_ne_zero
    rw [if_pos h0, show 8*G*a/a^2 = 8*G*a/(a*a) by ring]
    refine ⟨ft_sel_true hc (h.force.gt h0) (ft_mul hq (ft_const _)), fun hi => ?_⟩
    rw [fdual_sel_pos hc]
    have hr : mifKt (mifRadius Nr j) = 0 := by
      rcases hi with hi | hi
      · exact absurd hi h0.ne'
      · rw [hi, mifRadius_last hNr]
        unfold mifKt
        rw [if_neg (by norm_num)]
    rw [hr]
    exact (fzero_mul_right hq fzero_const).near ((h.force.gt h0).mono fun U hU => flt_sel_pos hU _ _)
  · obtain ⟨z1, z2⟩ := h.opened h0.symm
    have hc : ¬ gtF p.1.v 0 := by rw [z1.2]; exact not_gtF_zero
    have hz : FZero n X (fun U => fltNum.sel (gtF (P U).1 0) (fltNum.mul (fltNum.div (fltNum.div (fltNum.mul (fltNum.const (8*G)) (P U).2)
        (fltNum.mul (P U).2 (P U).2)) (fltNum.const Real.pi)) (fltNum.const (mifKt (mifRadius Nr j)))) (fltNum.const 0))
        (fdualNum.sel (gtF p.1.v 0) (fdualNum.mul (fdualNum.div (fdualNum.div (fdualNum.mul (fdualNum.const (8*G)) p.2)
        (fdualNum.mul p.2 p.2)) (fdualNum.const Real.pi)) (fdualNum.const (mifKt (mifRadius Nr j)))) (fdualNum.const 0)) := by
      rw [fdual_sel_neg hc]
      exact fzero_const.near (z1.1.mono fun U hU => by beta_reduce at hU ⊢; rw [hU]; exact flt_sel_neg not_gtF_zero _ _)
    rw [← h0, if_neg (lt_irrefl _)]
    exact ⟨hz.ft, fun _ => hz⟩

theorem mifPressure_idle {Nr : ℕ} (hNr : 2 ≤ Nr) {j : ℕ} (hj : j < Nr) (hf : 0 ≤ fn) (ha : 0 < fn → 0 < a) (h : mifPressure Nr fn a j = 0) :
    Idle Nr fn j := by
  by_contra hc
  unfold Idle at hc
  push Not at hc
  have h0 := lt_of_le_of_ne hf hc.1.symm
  have ha := ha h0
  have hr : mifRadius Nr j < 1 := by
    rw [← mifRadius_last hNr]
    exact mifRadius_lt hNr (by omega)
  have hr0 := mifRadius_nonneg Nr j
  unfold mifPressure at h
  rw [if_pos h0] at h
  have hs : 0 < Real.sqrt (1 - mifRadius Nr j ^ 2) := Real.sqrt_pos.2 (by nlinarith)
  have := Real.pi_pos
  have : 0 < 3*fn/(2*Real.pi*a^2) * Real.sqrt (1 - mifRadius Nr j ^ 2) := by positivity
  linarith

/-! ## One asperity -/

/-- The state of an asperity and its derivatives: contact radius `a0` and tractions `t0`. -/
structure MifTr (n K : ℕ) (M : ℕ → ℕ → ℝ) (X : ℕ → ℝ) (Nr : ℕ) (S : (ℕ → ℝ) → GMifAsp Flt) (s : GMifAsp FDual) (a0 : ℝ)
    (t0 : ℕ → ℕ → ℝ) : Prop where
  nonneg : 0 ≤ a0
  rad : ∀ i < Nr, FT n K M X (fun U => (S U).r i) (s.r i) (a0 * mifRadius Nr i)
  centre : FZero n X (fun U => (S U).r 0) (s.r 0)
  flat : a0 = 0 → ∀ i < Nr, FZero n X (fun U => (S U).r i) (s.r i)
  tr : ∀ i < Nr, ∀ d < 2, FT n K M X (fun U => (S U).t i d) (s.t i d) (t0 i d)

/-- No tractions in direction `d`. -/
def NoTr (n : ℕ) (X : ℕ → ℝ) (Nr : ℕ) (S : (ℕ → ℝ) → GMifAsp Flt) (s : GMifAsp FDual) (d : ℕ) : Prop :=
  ∀ i < Nr, FZero n X (fun U => (S U).t i d) (s.t i d)

/-- The new radii are not among the old ones, and the distance of these is not the one at which `jnp.interp` changes its branch. -/
def OffNodes (Nr : ℕ) (fn a a0 : ℝ) : Prop :=
  a0 * mifRadius Nr 1 ≠ 1 / 2 ^ 104 ∧ (fn = 0 ∨ ∀ j < Nr, 0 < j → ∀ i < Nr, a0 * mifRadius Nr i ≠ a * mifRadius Nr j)

/-- Traction before the friction limit. -/
def mifTrial (Nr : ℕ) (G fn a du a0 : ℝ) (t0 : ℕ → ℝ) (j : ℕ) : ℝ :=
  mifStiff Nr G fn a j * du + jnpInterp Nr (fun i => a0 * mifRadius Nr i) t0 (a * mifRadius Nr j)

variable {Nr : ℕ} {S : (ℕ → ℝ) → GMifAsp Flt} {s : GMifAsp FDual} {a0 : ℝ} {t0 : ℕ → ℕ → ℝ}

theorem ContactFT.rad (h : ContactFT n K M X P p fn a) (Nr j : ℕ) :
    FT n K M X (fun U => fltNum.mul (P U).2 (fltNum.const (mifRadius Nr j))) (fdualNum.mul p.2 (fdualNum.const (mifRadius Nr j)))
      (a * mifRadius Nr j) := ft_mul h.radius (ft_const _)

theorem ContactFT.rad_zero (h : ContactFT n K M X P p fn a) (Nr : ℕ) {j : ℕ} (hj : fn = 0 ∨ j = 0) :
    FZero n X (fun U => fltNum.mul (P U).2 (fltNum.const (mifRadius Nr j))) (fdualNum.mul p.2 (fdualNum.const (mifRadius Nr j))) := by
  rcases hj with hj | rfl
  · exact fzero_mul_left (h.opened hj).2 (ft_const (K := K) (M := M) _)
  · rw [mifRadius_zero]
    exact fzero_mul_right h.radius fzero_const

theorem mifRadius_step {Nr : ℕ} (i : ℕ) : mifRadius Nr (i + 1) - mifRadius Nr i = mifRadius Nr 1 := by
  unfold mifRadius
  push_cast
  ring

/-- The interpolated history. -/
theorem old_ft (hNr : 2 ≤ Nr) (h : ContactFT n K M X P p fn a) (hs : MifTr n K M X Nr S s a0 t0) {d : ℕ} (hd : d < 2)
    (hc : NoTr n X Nr S s d ∨ OffNodes Nr fn a a0) {j : ℕ} (hj : j < Nr) :
    FT n K M X (fun U => gInterp fltNum Nr (S U).r (fun i => (S U).t i d) (fltNum.mul (P U).2 (fltNum.const (mifRadius Nr j))))
      (gInterp fdualNum Nr s.r (fun i => s.t i d) (fdualNum.mul p.2 (fdualNum.const (mifRadius Nr j))))
      (jnpInterp Nr (fun i => a0 * mifRadius Nr i) (fun i => t0 i d) (a * mifRadius Nr j)) := by
  have hx := h.rad Nr j
  have hv := gInterp_val hNr hs.rad hx fun i hi => hs.tr i hi d hd
  rcases hc with hc | ⟨hc1, hc2⟩
  · exact ⟨((gInterp_none hNr hs.rad hx hc).ft (K := K) (M := M)).1, hv⟩
  · refine gInterp_ft hNr hs.rad hx (fun i hi => hs.tr i hi d hd) (fun k hk => ?_) fun i hi => ?_
    · by_cases h0 : fn = 0 ∨ j = 0
      · have hz := h.rad_zero Nr h0
        have hz0 : a * mifRadius Nr j = 0 := by
          rcases h0 with h0 | h0
          · rw [h.a_zero h0, zero_mul]
          · rw [h0, mifRadius_zero, mul_zero]
        rcases hs.nonneg.lt_or_eq with ha | ha
        · rcases Nat.eq_zero_or_pos k with rfl | hk0
          · exact Or.inr ⟨hs.centre, hz⟩
          · left
            rw [hz0]
            have := mifRadius_lt hNr hk0
            rw [mifRadius_zero] at this
            positivity
        · exact Or.inr ⟨hs.flat ha.symm k hk, hz⟩
      · push Not at h0
        rcases hc2 with hc2 | hc2
        · exact absurd hc2 h0.1
        · exact Or.inl (hc2 j hj (by omega) k hk)
    · rw [← mul_sub, mifRadius_step, abs_of_nonneg (mul_nonneg hs.nonneg (mifRadius_nonneg _ _))]
      exact hc1

/-- Inactive interpolated history. -/
theorem old_zero (hNr : 2 ≤ Nr) (h : ContactFT n K M X P p fn a) (hs : MifTr n K M X Nr S s a0 t0) {d : ℕ} {j : ℕ}
    (hi : Idle Nr fn j) (hc : NoTr n X Nr S s d ∨ a0 < a) :
    FZero n X (fun U => gInterp fltNum Nr (S U).r (fun i => (S U).t i d) (fltNum.mul (P U).2 (fltNum.const (mifRadius Nr j))))
      (gInterp fdualNum Nr s.r (fun i => s.t i d) (fdualNum.mul p.2 (fdualNum.const (mifRadius Nr j)))) := by
  have hx := h.rad Nr j
  rcases hc with hc | hc
  · exact gInterp_none hNr hs.rad hx hc
  · have hj : j = Nr - 1 := by
      rcases hi with hi | hi
      · rw [h.a_zero hi] at hc
        have := hs.nonneg
        linarith
      · exact hi
    refine gInterp_beyond hNr hs.rad hx _ _ ?_
    rw [hj, mifRadius_last hNr]
    linarith

/-- Off the friction limit, or nothing is transmitted and nothing was. -/
def MifOffLimit (n : ℕ) (X : ℕ → ℝ) (Nr : ℕ) (S : (ℕ → ℝ) → GMifAsp Flt) (s : GMifAsp FDual) (G mu fn a du a0 : ℝ) (t0 : ℕ → ℕ → ℝ)
    (d j : ℕ) : Prop :=
  |mifTrial Nr G fn a du a0 (fun i => t0 i d) j| ≠ mu * mifPressure Nr fn a j ∨ Idle Nr fn j ∧ (NoTr n X Nr S s d ∨ a0 < a)

/-- The traction at one radius. -/
theorem gMifClip_ft (hNr : 2 ≤ Nr) (h : ContactFT n K M X P p fn a) (hs : MifTr n K M X Nr S s a0 t0) {d : ℕ} (hd : d < 2)
    {G mu : ℝ} (hmu : 0 ≤ mu) {Fu Fu0 : (ℕ → ℝ) → Flt} {xu xu0 : FDual} {u u0 : ℝ} (hu : FT n K M X Fu xu u) (hu0 : FT n K M X Fu0 xu0 u0)
    (hc : NoTr n X Nr S s d ∨ OffNodes Nr fn a a0) {j : ℕ} (hj : j < Nr) (hl : MifOffLimit n X Nr S s G mu fn a (u - u0) a0 t0 d j) :
    FTracks n K M X (fun U => gMifClip fltNum Nr G mu (Fu U) (Fu0 U) (P U).1 (P U).2
        (gInterp fltNum Nr (S U).r (fun i => (S U).t i d) (fltNum.mul (P U).2 (fltNum.const (mifRadius Nr j)))) j)
      (gMifClip fdualNum Nr G mu xu xu0 p.1 p.2
        (gInterp fdualNum Nr s.r (fun i => s.t i d) (fdualNum.mul p.2 (fdualNum.const (mifRadius Nr j)))) j) ∧
    (fn = 0 → FZero n X (fun U => gMifClip fltNum Nr G mu (Fu U) (Fu0 U) (P U).1 (P U).2
        (gInterp fltNum Nr (S U).r (fun i => (S U).t i d) (fltNum.mul (P U).2 (fltNum.const (mifRadius Nr j)))) j)
      (gMifClip fdualNum Nr G mu xu xu0 p.1 p.2
        (gInterp fdualNum Nr s.r (fun i => s.t i d) (fdualNum.mul p.2 (fdualNum.const (mifRadius Nr j)))) j)) := by
  obtain ⟨hp, hpz⟩ := gMifPressure_ft hNr h j
  obtain ⟨hk, hkz⟩ := gMifStiff_ft hNr G h j
  unfold gMifClip
  simp only
  rcases hl with hl | ⟨hi, hl⟩
  · have ht := ft_add (ft_mul hk (ft_sub hu hu0)) (old_ft hNr h hs hd hc hj)
    obtain ⟨c1, c2⟩ := clip_ft hmu (mifPressure_nonneg _ _ _ _) ht hp (fun e => hpz (mifPressure_idle hNr hj h.nonneg h.closed e)) hl
    refine ⟨c1, fun e => c2 ?_⟩
    unfold mifPressure
    rw [e, if_neg (lt_irrefl _)]
  · have := clip_zero mu (fzero_add (fzero_mul_left (hkz hi) (ft_sub hu hu0)) (old_zero hNr h hs hi hl)) (hpz hi)
    exact ⟨(this.ft (K := K) (M := M)).1, fun _ => this⟩

end

end

end TMD
