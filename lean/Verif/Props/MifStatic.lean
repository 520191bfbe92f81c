import Verif.Props.MifContact

/-!
# Property C102: repeated static evaluation of the Mindlin-Iwan fit
-/

namespace TMD

open Spec Finset

noncomputable section

/-- The object after static evaluations with update at the given displacements. -/
def MifObj.loaded (m : Mat) (g : Asperities) (Nr : ℕ) (o : MifObj) (us : List (ℕ → ℝ)) : MifObj :=
  us.foldl (fun o u => (o.force m g Nr u true).2) o

/-- Not yielding, an evaluation at the same place again is the same. -/
theorem general_same {m : Mat} (h : m.Good) {un dm : ℝ} {F : Flt} (hs : AspState m dm F) (hne : un ≠ 1.9*m.dy)
    (hy : ¬ (dm < un ∧ 1.9*m.dy < un)) :
    general m un (max un dm) (maxF (general m un dm F).fn F) = general m un dm F := by
  obtain ⟨f0, rfl, h0, h0'⟩ := hs.ok
  have hdy := h.dy
  by_cases he : un < 1.9*m.dy ∧ dm < 1.9*m.dy
  · rw [general_elastic he.1 he.2, general_elastic he.1 (max_lt he.1 he.2)]
  · have hle : un ≤ dm := by
      by_contra hc
      push Not at hc
      rcases lt_or_gt_of_ne hne with hl | hl
      · exact he ⟨hl, by linarith⟩
      · exact hy ⟨hc, hl⟩
    have hd : 0 < dm := by
      by_contra hc
      push Not at hc
      exact he ⟨by linarith, by linarith⟩
    rw [general_unload hy he, max_eq_right hle]
    obtain ⟨f, a, h1, h2, h3, -⟩ := unloading_ok (R := m.Re) h.Estar.le (some f0) hle
    have hf : f ≤ f0 := C42_monotone h.Re h.Estar hd (h0' hd) hle h1 (C42_start h.Re h.Estar hd (h0' hd))
    have hm : maxF (unloading un dm (some f0) m.Re m.Estar).fn (some f0) = some f0 := by
      rw [h1]; show some (max f f0) = some f0; rw [max_eq_right hf]
    rw [hm, general_unload hy he]

theorem plRadius_pos {m : Mat} (h : m.Good) (hEt : m.Etan < m.Emod) {un : ℝ} (hu : 0 < un) : 0 < m.plRadius un := by
  unfold Mat.plRadius
  simp only
  rw [posPart_of_pos hu]
  set Y : ℝ := if m.Etan / m.Emod < 1/2^52 then 0 else
    -2*Real.sqrt (m.Emod/m.Sys)*(m.Etan/m.Emod)^(1 - ((un-m.dy)/2)/(m.Re*2))
    / ((4 - 3*Real.exp (-2*Real.sqrt (m.Emod/m.Sys)*m.Etan/m.Emod))*(1 - m.Etan/m.Emod)) with hY
  have hY0 : Y ≤ 0 := by
    rw [hY]
    split_ifs
    · exact le_rfl
    · have hr : 0 ≤ m.Etan/m.Emod := div_nonneg h.Etan h.Emod.le
      have hr1 : 0 ≤ 1 - m.Etan/m.Emod := sub_nonneg.2 ((div_le_one h.Emod).2 hEt.le)
      have he : Real.exp (-2*Real.sqrt (m.Emod/m.Sys)*m.Etan/m.Emod) ≤ 1 := by
        refine Real.exp_le_one_iff.2 ?_
        rw [mul_div_assoc]
        have : 0 ≤ Real.sqrt (m.Emod/m.Sys) * (m.Etan/m.Emod) := mul_nonneg (Real.sqrt_nonneg _) hr
        nlinarith
      refine div_nonpos_of_nonpos_of_nonneg ?_ (mul_nonneg (by linarith) hr1)
      have : 0 ≤ Real.sqrt (m.Emod/m.Sys)*(m.Etan/m.Emod)^(1 - ((un-m.dy)/2)/(m.Re*2)) :=
        mul_nonneg (Real.sqrt_nonneg _) (Real.rpow_nonneg hr _)
      nlinarith
  have hY1 : Real.exp Y ≤ 1 := Real.exp_le_one_iff.2 hY0
  have hY2 := Real.exp_pos Y
  generalize Real.exp Y = y at hY1 hY2
  have := Real.pi_pos
  have := m.C_pos
  have := h.Re
  have := h.Sys
  have := h.Estar
  have := h.dy
  have h1 : 0 < √(2 * m.Re * (un / 2)) := by positivity
  have h2 : 0 < 2 * m.Re * (Real.pi * m.C * m.Sys / (2 * 2 * m.Estar)) * √(un / m.dy * (un / m.dy / 1.9) ^ (0.14 * Real.exp (23 * m.Sys / (2 * m.Estar)))) := by
    positivity
  generalize √(2 * m.Re * (un / 2)) = x1 at *
  generalize 2 * m.Re * (Real.pi * m.C * m.Sys / (2 * 2 * m.Estar)) * √(un / m.dy * (un / m.dy / 1.9) ^ (0.14 * Real.exp (23 * m.Sys / (2 * m.Estar)))) = x2 at *
  rcases hY1.lt_or_eq with hl | rfl
  · nlinarith
  · linarith

theorem unloading_radius {un dm f a R E : ℝ} {F : Flt} (hle : un ≤ dm) (h1 : (unloading un dm F R E).fn = some f)
    (h2 : (unloading un dm F R E).a = some a) (h : 0 < f) : 0 < a := by
  cases F with
  | none =>
    rw [unloading_nan.1, Option.some.injEq] at h1
    rw [← h1] at h
    exact absurd h (lt_irrefl _)
  | some F =>
    rcases le_or_gt dm 0 with hd | hd
    · rw [(unloading_never hd).1, Option.some.injEq] at h1
      rw [← h1] at h
      exact absurd h (lt_irrefl _)
    · obtain ⟨p1, p2⟩ := unloading_pos (un := un) (F := F) (R := R) (E := E) hd
      rcases le_or_gt un (dm*(1 - F/(4/3*E*Real.sqrt R*dm^(1.5 : ℝ)))) with hb | hb
      · rw [(p1 hb).1, Option.some.injEq] at h1
        rw [← h1] at h
        exact absurd h (lt_irrefl _)
      · obtain ⟨h3, h4⟩ := p2 hb (lt_of_lt_of_le hb hle)
        rw [h3, Option.some.injEq] at h1
        rw [h4, Option.some.injEq] at h2
        rw [← h1] at h
        rw [← h2]
        refine Real.sqrt_pos.2 (mul_pos ?_ (by linarith))
        by_contra hc
        rw [Real.sqrt_eq_zero_of_nonpos (not_lt.1 hc)] at h
        simp at h

/-- A loaded asperity has a positive contact radius. -/
theorem general_radius {m : Mat} (h : m.Good) (hEt : m.Etan < m.Emod) {un dm : ℝ} {F : Flt}
    (hne : un ≠ 1.9*m.dy) {f a : ℝ} (hf : (general m un dm F).fn = some f) (ha : (general m un dm F).a = some a)
    (hpos : 0 < f) : 0 < a := by
  have hdy := h.dy
  by_cases hy : dm < un ∧ 1.9*m.dy < un
  · rw [general_yield hy.1 hy.2] at ha
    have : a = m.plRadius un := by
      unfold plLoading at ha
      simpa using ha.symm
    rw [this]
    exact plRadius_pos h hEt (by linarith [hy.2])
  · by_cases he : un < 1.9*m.dy ∧ dm < 1.9*m.dy
    · rw [general_elastic he.1 he.2] at hf ha
      rw [elLoading_fn, Option.some.injEq] at hf
      rw [elLoading_a, Option.some.injEq] at ha
      have hu : 0 < un := by
        by_contra hc
        unfold hertz at hf
        rw [if_neg hc] at hf
        linarith
      rw [← ha, if_pos hu]
      exact Real.sqrt_pos.2 (mul_pos h.Re hu)
    · have hle : un ≤ dm := by
        by_contra hc
        push Not at hc
        rcases lt_or_gt_of_ne hne with hl | hl
        · exact he ⟨hl, by linarith⟩
        · exact hy ⟨hc, hl⟩
      rw [general_unload hy he] at hf ha
      exact unloading_radius hle hf ha hpos

theorem mif_loaded (m : Mat) (h : m.Good) (hEt : m.Etan < m.Emod) (g : Asperities) (Nr : ℕ)
    (hg : ∀ k < g.nasp, 0 ≤ g.meso + g.gaps k) (mu : ℝ)
    (us : List (ℕ → ℝ)) (hne : ∀ u ∈ us, ∀ k < g.nasp, u 2 - g.meso - g.gaps k ≠ 1.9*m.dy) :
    let o := (MifObj.new mu).loaded m g Nr us
    o.mu = mu ∧ ∀ k < g.nasp, AspState m (o.unmax - g.meso - g.gaps k) (o.Fm k) ∧ ∃ s, o.asp k = some s := by
  have gen : ∀ (us : List (ℕ → ℝ)), (∀ u ∈ us, ∀ k < g.nasp, u 2 - g.meso - g.gaps k ≠ 1.9*m.dy) → ∀ o : MifObj,
      (o.mu = mu ∧ ∀ k < g.nasp, AspState m (o.unmax - g.meso - g.gaps k) (o.Fm k) ∧ ∃ s, o.asp k = some s) →
      ((o.loaded m g Nr us).mu = mu ∧ ∀ k < g.nasp,
        AspState m ((o.loaded m g Nr us).unmax - g.meso - g.gaps k) ((o.loaded m g Nr us).Fm k) ∧
          ∃ s, (o.loaded m g Nr us).asp k = some s) := by
    intro us
    induction us with
    | nil => exact fun _ o ho => ho
    | cons u us ih =>
      intro hne o ho
      refine ih (fun v hv => hne v (List.mem_cons_of_mem _ hv)) _ ⟨ho.1, fun k hk => ?_⟩
      obtain ⟨hs, s, hf⟩ := ho.2 k hk
      have hne' := hne u (List.mem_cons_self ..) k hk
      obtain ⟨⟨f, a, h1, h2, -⟩, h3⟩ := hs.general h hne'
      constructor
      · show AspState m (max (u 2) o.unmax - g.meso - g.gaps k) _
        have e : max (u 2) o.unmax - g.meso - g.gaps k
            = max (u 2 - g.meso - g.gaps k) (o.unmax - g.meso - g.gaps k) := by
          rw [max_sub_sub_right, max_sub_sub_right]
        rw [e]
        exact h3
      · show ∃ s, (mifAsperity Nr u o.uxyn0 (o.asp k) (general m _ _ _).fn (general m _ _ _).a m.Gstar o.mu).map _ = some s
        rw [hf, h1, h2]
        unfold mifAsperity
        simp only [Option.getD_some]
        rw [if_neg fun hc => (general_radius h hEt hne' h1 h2 hc.1).ne' hc.2]
        exact ⟨_, rfl⟩
  refine gen us hne _ ⟨rfl, fun k hk => ⟨⟨⟨0, rfl, le_rfl, fun hp => ?_⟩⟩, ⟨_, rfl⟩⟩⟩
  change 0 < 0 - g.meso - g.gaps k at hp
  linarith [hg k hk]

/-- The tractions of one asperity again. -/
theorem mifTraction_again {Nr : ℕ} (hNr : 2 ≤ Nr) {f a G mu : ℝ} (hfa : 0 < f → 0 < a) (t : ℕ → ℝ)
    (ht : ∀ j < Nr, |t j| ≤ mu * mifPressure Nr f a j) (x : ℝ) {j : ℕ} (hj : j < Nr) :
    mifTraction Nr x x t (fun i => a * mifRadius Nr i) (some f) a G mu j = t j := by
  have hin := abs_le.1 (ht j hj)
  by_cases hp : mifPressure Nr f a j = 0
  · rw [hp, mul_zero, neg_zero] at hin
    rw [mifTraction_clip, hp, le_antisymm hin.2 hin.1]
    unfold clip
    simp
  · have hj' : j + 1 < Nr := by
      by_contra hcon
      have : j = Nr - 1 := by omega
      subst this
      exact hp (mifPressure_last hNr _ _)
    have hpos : 0 < f := by
      by_contra hcon
      unfold mifPressure at hp
      rw [if_neg hcon] at hp
      exact hp rfl
    have ha := hfa hpos
    rw [mifTraction_clip, sub_self, mul_zero, zero_add, jnpInterp_node (fun i => a * mifRadius Nr i) t hj'
        fun i l hil => mul_lt_mul_of_pos_left (mifRadius_lt hNr hil) ha, clip_inside hin.1 hin.2]

/-- C102 (partial): after any sequence of static updates of a fresh object, evaluating the force again at the displacement of
the last update gives the same force, in each direction, when no asperity yields further at that displacement. -/
theorem C102_repeat_partial (m : Mat) (h : m.Good) (hEt : m.Etan < m.Emod) (g : Asperities) {Nr : ℕ} (hNr : 2 ≤ Nr)
    (hg : ∀ k < g.nasp, 0 ≤ g.meso + g.gaps k) {mu : ℝ} (hmu : 0 ≤ mu) (us : List (ℕ → ℝ)) (u : ℕ → ℝ)
    (hne : ∀ v ∈ u :: us, ∀ k < g.nasp, v 2 - g.meso - g.gaps k ≠ 1.9*m.dy)
    (hy : u 2 ≤ ((MifObj.new mu).loaded m g Nr us).unmax ∨ ∀ k < g.nasp, u 2 - g.meso - g.gaps k < 1.9*m.dy)
    (upd : Bool) (d : ℕ) :
    let o := (MifObj.new mu).loaded m g Nr us
    (∃ F, (o.force m g Nr u true).1 d = some F) ∧
    ((o.force m g Nr u true).2.force m g Nr u upd).1 d = (o.force m g Nr u true).1 d := by
  intro o
  obtain ⟨hm, hst⟩ : o.mu = mu ∧ ∀ k < g.nasp, AspState m (o.unmax - g.meso - g.gaps k) (o.Fm k) ∧
      ∃ s, o.asp k = some s :=
    mif_loaded m h hEt g Nr hg mu us fun v hv => hne v (List.mem_cons_of_mem _ hv)
  have hy : u 2 ≤ o.unmax ∨ ∀ k < g.nasp, u 2 - g.meso - g.gaps k < 1.9*m.dy := hy
  clear_value o
  have hu := hne u (List.mem_cons_self ..)
  have key : ∀ k < g.nasp,
      general m (u 2 - g.meso - g.gaps k) (max (u 2) o.unmax - g.meso - g.gaps k)
        (maxF (general m (u 2 - g.meso - g.gaps k) (o.unmax - g.meso - g.gaps k) (o.Fm k)).fn (o.Fm k))
        = general m (u 2 - g.meso - g.gaps k) (o.unmax - g.meso - g.gaps k) (o.Fm k) := by
    intro k hk
    have e : max (u 2) o.unmax - g.meso - g.gaps k
        = max (u 2 - g.meso - g.gaps k) (o.unmax - g.meso - g.gaps k) := by
      rw [max_sub_sub_right, max_sub_sub_right]
    rw [e]
    refine general_same h (hst k hk).1 (hu k hk) fun hc => ?_
    rcases hy with hy | hy
    · linarith [hc.1]
    · linarith [hc.2, hy k hk]
  have hz : ∀ k < g.nasp, ∃ z, mifAsperity Nr u o.uxyn0 (o.asp k)
        (general m (u 2 - g.meso - g.gaps k) (o.unmax - g.meso - g.gaps k) (o.Fm k)).fn
        (general m (u 2 - g.meso - g.gaps k) (o.unmax - g.meso - g.gaps k) (o.Fm k)).a m.Gstar o.mu = some z ∧
      ∃ z', mifAsperity Nr u u (some z.2)
        (general m (u 2 - g.meso - g.gaps k) (o.unmax - g.meso - g.gaps k) (o.Fm k)).fn
        (general m (u 2 - g.meso - g.gaps k) (o.unmax - g.meso - g.gaps k) (o.Fm k)).a m.Gstar o.mu = some z' ∧
        z'.1 = z.1 := by
    intro k hk
    obtain ⟨hs, s, hsk⟩ := hst k hk
    obtain ⟨⟨f, a, h1, h2, h3⟩, -⟩ := hs.general h (hu k hk)
    have hpos : 0 < f → 0 < a := general_radius h hEt (hu k hk) h1 h2
    rw [hsk, h1, h2]
    unfold mifAsperity
    simp only [Option.getD_some]
    rw [if_neg fun hc => (hpos hc.1).ne' hc.2]
    refine ⟨_, rfl, _, if_neg (fun hc => (hpos hc.1).ne' hc.2), ?_⟩
    funext d
    refine mifForce_congr fun j hj => ?_
    refine mifTraction_again hNr hpos _ (fun i _ => ?_) _ hj
    show |mifTraction _ _ _ _ _ _ _ _ _ _| ≤ _
    rw [mifTraction_clip]
    exact clip_abs (mul_nonneg (by rw [hm]; exact hmu) (mifPressure_nonneg _ _ _ _)) _
  have : Nonempty MifAsp := ⟨⟨fun _ _ => 0, fun _ => 0⟩⟩
  choose! z hz using hz
  unfold MifObj.force
  simp only [if_true]
  split
  · constructor
    · exact ⟨_, weighted_some _ _ (fun k => (z k).1 d) _ fun k hk => by rw [(hz k hk).1]; rfl⟩
    · refine weighted_congr _ _ _ _ fun k hk => ?_
      obtain ⟨h1, z', h2, h3⟩ := hz k hk
      rw [key k hk, h1]
      simp only [Option.map_some]
      rw [h2, Option.map_some, h3]
  · constructor
    · have : ∀ k < g.nasp, ∃ f, (general m (u 2 - g.meso - g.gaps k) (o.unmax - g.meso - g.gaps k) (o.Fm k)).fn = some f :=
        fun k hk => by
          obtain ⟨⟨f, a, h1, -⟩, -⟩ := (hst k hk).1.general h (hu k hk)
          exact ⟨f, h1⟩
      choose! f hf using this
      exact ⟨_, weighted_some _ _ f _ fun k hk => hf k hk⟩
    · exact weighted_congr _ _ _ _ fun k hk => by rw [key k hk]

/-! ### Yielding changes the contact radius -/

/-- At the start of unloading the contact radius is that of an elastic contact. -/
theorem unloading_start_radius {dm F R E : ℝ} (hR : 0 < R) (hE : 0 < E) (hd : 0 < dm) (hF : 0 < F) :
    (unloading dm dm (some F) R E).a = some (Real.sqrt (R * dm)) := by
  obtain ⟨-, h⟩ := unloading_pos (un := dm) (F := F) (R := R) (E := E) hd
  have hs : 0 < Real.sqrt R := Real.sqrt_pos.2 hR
  have hp : dm^(1.5 : ℝ) = dm * Real.sqrt dm := rpow_three_half hd
  have hsd : 0 < Real.sqrt dm := Real.sqrt_pos.2 hd
  have e : dm - dm*(1 - F/(4/3*E*Real.sqrt R*dm^(1.5 : ℝ))) = F / (4/3*E*Real.sqrt R*Real.sqrt dm) := by
    rw [hp]
    field_simp
    ring
  have hb : 0 < dm - dm*(1 - F/(4/3*E*Real.sqrt R*dm^(1.5 : ℝ))) := by rw [e]; positivity
  rw [(h (by linarith) (by linarith)).2, e, Option.some.injEq]
  congr 1
  have h1 : Real.sqrt R ^ 2 = R := Real.sq_sqrt hR.le
  have h2 : Real.sqrt dm ^ 2 = dm := Real.sq_sqrt hd.le
  field_simp
  rw [h1, h2]

/-- Yielding without hardening, at twice the limit. -/
theorem drift_plastic : let z := 2 * (1.9 * driftMat.dy)
    0 < z ∧ ∃ f a, (plLoading driftMat z).fn = some f ∧ (plLoading driftMat z).a = some a ∧ 0 < f ∧ 0 < a ∧ 2 * z ≤ a ^ 2 := by
  intro z
  have h := driftMat_good
  obtain ⟨hR, hE, -, hdy⟩ := drift_values
  have hz : 0 < z := by have := h.dy; positivity
  obtain ⟨f, a, h1, h2, h3⟩ := plLoading_pos h hz
  have hEt : driftMat.Etan < driftMat.Emod := by show (0 : ℝ) < 3/2; norm_num
  have ha : a = driftMat.plRadius z := by
    unfold plLoading at h2
    simpa using h2.symm
  refine ⟨hz, f, a, h1, h2, h3, by rw [ha]; exact plRadius_pos h hEt hz, ?_⟩
  have hr : z / driftMat.dy = 3.8 := by
    show 2 * (1.9 * driftMat.dy) / driftMat.dy = 3.8
    have := h.dy.ne'
    field_simp
    norm_num
  rw [ha]
  unfold Mat.plRadius
  simp only
  rw [posPart_of_pos hz, if_pos (by show (0 : ℝ) / (3/2) < _; norm_num), Real.exp_zero, mul_one, add_sub_cancel, hr, hR, hE]
  have hB : 1 ≤ 0.14 * Real.exp (23 * driftMat.Sys / (2 * (3/4))) := by
    have : driftMat.Sys = 10 := rfl
    rw [this]
    have := Real.add_one_le_exp ((23 : ℝ) * 10 / (2 * (3/4)))
    norm_num at this ⊢
    linarith
  have hpow : (2 : ℝ) ≤ (3.8 / 1.9) ^ (0.14 * Real.exp (23 * driftMat.Sys / (2 * (3/4)))) := by
    rw [show (3.8 : ℝ) / 1.9 = 2 by norm_num]
    calc (2 : ℝ) = 2 ^ (1 : ℝ) := (Real.rpow_one 2).symm
      _ ≤ _ := Real.rpow_le_rpow_of_exponent_le (by norm_num) hB
  generalize (3.8 / 1.9 : ℝ) ^ (0.14 * Real.exp (23 * driftMat.Sys / (2 * (3/4)))) = q at hpow
  rw [mul_pow, Real.sq_sqrt (by positivity)]
  have hdy' : driftMat.dy = (2 * 1 * (Real.pi * driftMat.C * driftMat.Sys / (2 * 2 * (3/4)))) ^ 2 := by
    unfold driftMat Mat.new Mat.C
    norm_num
    ring
  rw [← hdy']
  show 2 * (2 * (1.9 * driftMat.dy)) ≤ driftMat.dy * (3.8 * q)
  have := h.dy
  nlinarith

theorem mifForce_three' (a : ℝ) (t : ℕ → ℝ) (h : t 2 = 0) : mifForce 3 a t = a ^ 2 * (Real.pi / 2) * t 1 := by
  have r1 : mifRadius 3 1 = 1 / 2 := by unfold mifRadius; norm_num
  have w1 : mifWeight 3 1 = 1 / 2 := by unfold mifWeight mifRaw; norm_num [sum_range_succ]
  unfold mifForce
  rw [sum_range_succ, sum_range_succ, sum_range_one, h, mifRadius_zero, r1, w1]
  ring

theorem clip_le {L x : ℝ} (hL : 0 ≤ L) (hx : 0 ≤ x) : clip L x ≤ x := by
  unfold clip
  exact max_le (by linarith) (min_le_left _ _)

/-- Two evaluations of one asperity with contact radius `a` and then a smaller `b`. -/
theorem mif_shrink {f a b G mu : ℝ} (hf : 0 < f) (hb : 0 < b) (hba : b < a) (ha : 1 < a) (hG : 0 < G)
    (hmu : ∀ j < 2, mifStiff 3 G f a j ≤ mu * mifPressure 3 f a j) (t t' : ℕ → ℝ)
    (ht : ∀ j, t j = mifTraction 3 1 0 (fun _ => 0) (fun _ => 0) (some f) a G mu j)
    (ht' : ∀ j, t' j = mifTraction 3 1 1 t (fun i => a * mifRadius 3 i) (some f) b G mu j) :
    mifForce 3 b t' < mifForce 3 a t := by
  have hp := Real.pi_pos
  have r0 : mifRadius 3 0 = 0 := mifRadius_zero _
  have r1 : mifRadius 3 1 = 1 / 2 := by unfold mifRadius; norm_num
  have r2 : mifRadius 3 2 = 1 := by unfold mifRadius; norm_num
  have k0 : mifKt 0 = 1 := by unfold mifKt; norm_num
  obtain ⟨q, hq, hq2⟩ : ∃ q : ℝ, q = mifKt (1 / 2) ∧ 1 / 2 < q := by
    refine ⟨_, rfl, ?_⟩
    unfold mifKt
    rw [if_pos (by norm_num)]
    have : 0 ≤ (1 - 0.8709) / Real.sqrt (1 - (1 / 2) ^ 2) := div_nonneg (by norm_num) (Real.sqrt_nonneg _)
    norm_num at this ⊢
    linarith
  obtain ⟨c, hc, hc0⟩ : ∃ c : ℝ, c = 8*G*a/a^2/Real.pi ∧ 0 < c := ⟨_, rfl, by positivity⟩
  have K0 : mifStiff 3 G f a 0 = c := by unfold mifStiff; rw [if_pos hf, r0, k0, hc]; ring
  have K1 : mifStiff 3 G f a 1 = c * q := by unfold mifStiff; rw [if_pos hf, r1, ← hq, hc]
  have L2 : ∀ f a, mifPressure 3 f a 2 = 0 := fun f a => mifPressure_last (by norm_num) f a
  have clip0 : ∀ x, clip 0 x = 0 := fun x => by unfold clip; simp
  have h0 := hmu 0 (by norm_num)
  have h1 := hmu 1 (by norm_num)
  rw [K0] at h0
  rw [K1] at h1
  have cq : 0 < c * q := mul_pos hc0 (by linarith)
  have e0 : t 0 = c := by
    rw [ht, mifTraction_clip, jnpInterp_zero 3 _ _ (fun _ _ => rfl) (by norm_num), K0, sub_zero, mul_one, add_zero, clip_inside]
    · linarith
    · exact h0
  have e1 : t 1 = c * q := by
    rw [ht, mifTraction_clip, jnpInterp_zero 3 _ _ (fun _ _ => rfl) (by norm_num), K1, sub_zero, mul_one, add_zero, clip_inside]
    · linarith
    · exact h1
  have e2 : t 2 = 0 := by rw [ht, mifTraction_clip, L2, mul_zero, clip0]
  have e2' : t' 2 = 0 := by rw [ht', mifTraction_clip, L2, mul_zero, clip0]
  obtain ⟨ρ, hρ, hρ0, hρ1⟩ : ∃ ρ, ρ = b / a ∧ 0 < ρ ∧ ρ < 1 := ⟨_, rfl, by positivity, (div_lt_one (by linarith)).2 hba⟩
  have hmu0 : 0 ≤ mu := by
    by_contra hcon
    push Not at hcon
    have := mul_nonpos_of_nonpos_of_nonneg hcon.le (mifPressure_nonneg 3 f a 0)
    linarith
  have hx : 0 ≤ c + ρ * (c * q - c) := by
    have : c + ρ * (c * q - c) = c * (1 - ρ) + ρ * (c * q) := by ring
    rw [this]
    have := mul_pos hc0 (sub_pos.2 hρ1)
    have := mul_pos hρ0 cq
    linarith
  have e1' : t' 1 ≤ c + ρ * (c * q - c) := by
    rw [ht', mifTraction_clip, sub_self, mul_zero, zero_add,
      interp_three _ _ _ (by rw [r0, r1]; linarith) (by rw [r1]; linarith) (by rw [r1, r2]; linarith)
      (by rw [r0, r1]; norm_num; linarith), e0, e1, r0, r1]
    have e : (b * (1/2) - a * 0) / (a * (1/2) - a * 0) = ρ := by
      rw [hρ]
      have : a ≠ 0 := by linarith
      field_simp
      ring
    rw [e]
    exact clip_le (mul_nonneg hmu0 (mifPressure_nonneg _ _ _ _)) hx
  rw [mifForce_three' _ _ e2, mifForce_three' _ _ e2', e1]
  have hba2 : b = ρ * a := by rw [hρ, div_mul_cancel₀]; linarith
  have h2 : b ^ 2 * (Real.pi / 2) * t' 1 ≤ b ^ 2 * (Real.pi / 2) * (c + ρ * (c * q - c)) :=
    mul_le_mul_of_nonneg_left e1' (by positivity)
  refine lt_of_le_of_lt h2 ?_
  rw [hba2]
  have h3 : 0 < a ^ 2 * (Real.pi / 2) * c := by positivity
  have h4 : ρ ^ 2 * (1 + ρ * (q - 1)) < q := by
    have hr2 : 0 < ρ ^ 2 := by positivity
    have : (1 - ρ) * (1 + ρ - ρ ^ 2) ≥ 0 := mul_nonneg (by linarith) (by nlinarith)
    have : ρ ^ 2 * (1 - ρ) < (1 - ρ ^ 3) * q := by
      have h5 : (1 - ρ ^ 3) = (1 - ρ) * (1 + ρ + ρ ^ 2) := by ring
      have h6 : 2 * ρ ^ 2 < 1 + ρ + ρ ^ 2 := by nlinarith
      have h7 := mul_lt_mul_of_pos_left h6 (sub_pos.2 hρ1)
      have h8 : 0 < (1 - ρ) * (1 + ρ + ρ ^ 2) := by have : 0 < 1 - ρ := sub_pos.2 hρ1; positivity
      have h9 := mul_lt_mul_of_pos_left hq2 h8
      rw [h5]
      linarith
    linarith
  have h5 := mul_lt_mul_of_pos_left h4 h3
  calc (ρ * a) ^ 2 * (Real.pi / 2) * (c + ρ * (c * q - c)) = a ^ 2 * (Real.pi / 2) * c * (ρ ^ 2 * (1 + ρ * (q - 1))) := by ring
    _ < _ := h5
    _ = _ := by ring

/-- C102 is false in general: when an asperity yields, the contact radius at the start of unloading is smaller than the one
of loading, so the stored tractions give another friction force at the same displacement. -/
theorem C102_violated : ∃ (m : Mat) (g : Asperities) (mu : ℝ) (u : ℕ → ℝ), m.Good ∧ m.Etan < m.Emod ∧ 0 < m.Gstar ∧ 0 < mu ∧
    ∃ T T', ((MifObj.new mu).force m g 3 u true).1 0 = some T ∧
      (((MifObj.new mu).force m g 3 u true).2.force m g 3 u false).1 0 = some T' ∧ T' < T := by
  obtain ⟨hR, hE, hG, hdy⟩ := drift_values
  obtain ⟨hz, f, a, h1, h2, hf, ha, hza⟩ := drift_plastic
  set z := 2 * (1.9 * driftMat.dy) with hzd
  have hG0 : 0 < driftMat.Gstar := by rw [hG]; norm_num
  have hp := Real.pi_pos
  have ha1 : 1 < a := by nlinarith
  obtain ⟨b, hb⟩ : ∃ b, b = Real.sqrt z := ⟨_, rfl⟩
  have hb0 : 0 < b := by rw [hb]; exact Real.sqrt_pos.2 hz
  have hb2 : b ^ 2 = z := by rw [hb]; exact Real.sq_sqrt hz.le
  have hba : b < a := by nlinarith
  have hP : ∀ j < 2, 0 < mifPressure 3 f a j := by
    intro j hj
    unfold mifPressure
    rw [if_pos hf]
    have : mifRadius 3 j ≤ 1 / 2 := by unfold mifRadius; interval_cases j <;> norm_num
    have h0 := mifRadius_nonneg 3 j
    have : 0 < Real.sqrt (1 - mifRadius 3 j ^ 2) := Real.sqrt_pos.2 (by nlinarith)
    positivity
  have hK : ∀ j < 2, 0 < mifStiff 3 driftMat.Gstar f a j := by
    intro j hj
    unfold mifStiff
    rw [if_pos hf]
    have : mifRadius 3 j ≤ 1 / 2 := by unfold mifRadius; interval_cases j <;> norm_num
    have := mifKt_pos (mifRadius_nonneg 3 j) (by linarith)
    positivity
  obtain ⟨mu, hmu0, hmu⟩ : ∃ mu : ℝ, 0 < mu ∧ ∀ j < 2, mifStiff 3 driftMat.Gstar f a j ≤ mu * mifPressure 3 f a j := by
    have p0 := hP 0 (by norm_num)
    have p1 := hP 1 (by norm_num)
    have k0 := hK 0 (by norm_num)
    have k1 := hK 1 (by norm_num)
    refine ⟨mifStiff 3 driftMat.Gstar f a 0 / mifPressure 3 f a 0 + mifStiff 3 driftMat.Gstar f a 1 / mifPressure 3 f a 1,
      by positivity, fun j hj => ?_⟩
    have d0 := div_pos k0 p0
    have d1 := div_pos k1 p1
    have hj' : j = 0 ∨ j = 1 := by omega
    rcases hj' with rfl | rfl
    · calc _ = mifStiff 3 driftMat.Gstar f a 0 / mifPressure 3 f a 0 * mifPressure 3 f a 0 := (div_mul_cancel₀ _ p0.ne').symm
        _ ≤ _ := mul_le_mul_of_nonneg_right (by linarith) p0.le
    · calc _ = mifStiff 3 driftMat.Gstar f a 1 / mifPressure 3 f a 1 * mifPressure 3 f a 1 := (div_mul_cancel₀ _ p1.ne').symm
        _ ≤ _ := mul_le_mul_of_nonneg_right (by linarith) p1.le
  let u : ℕ → ℝ := fun d => if d = 2 then z else if d = 0 then 1 else 0
  have u0 : u 0 = 1 := rfl
  have u2 : u 2 = z := rfl
  have hz19 : 1.9 * driftMat.dy < z := by rw [hzd]; linarith
  let t : ℕ → ℕ → ℝ := fun j d => mifTraction 3 (u d) 0 (fun _ => 0) (fun _ => 0) (some f) a driftMat.Gstar mu j
  let t' : ℕ → ℕ → ℝ := fun j d => mifTraction 3 (u d) (u d) (fun i => t i d) (fun i => a * mifRadius 3 i) (some f) b driftMat.Gstar mu j
  have g1 : general driftMat (u 2 - oneAsp.meso - oneAsp.gaps 0) ((MifObj.new mu).unmax - oneAsp.meso - oneAsp.gaps 0)
      ((MifObj.new mu).Fm 0) = plLoading driftMat z := by
    show general driftMat (z - 0 - 0) (0 - 0 - 0) (some 0) = _
    rw [sub_zero, sub_zero, sub_zero, sub_zero]
    exact general_yield hz hz19
  have m1 : mifAsperity 3 u (MifObj.new mu).uxyn0 ((MifObj.new mu).asp 0) (plLoading driftMat z).fn (plLoading driftMat z).a
      driftMat.Gstar mu = some (fun d => mifForce 3 a fun j => t j d, ⟨t, fun j => a * mifRadius 3 j⟩) := by
    rw [h1, h2]
    show (if 0 < f ∧ a = 0 then none else some _) = _
    rw [if_neg fun h => ha.ne' h.2]
    rfl
  have w1 : ∀ x : ℕ → Flt, ∀ y, x 0 = some y → weighted oneAsp.weights x oneAsp.nasp = some y := by
    intro x y hx
    have := weighted_some oneAsp.weights x (fun _ => y) oneAsp.nasp fun k hk => by
      have : k = 0 := by have : k < 1 := hk; omega
      rw [this, hx]
    rw [this, show oneAsp.nasp = 1 from rfl, sum_range_one, show oneAsp.weights 0 = 1 from rfl, one_mul]
  refine ⟨driftMat, oneAsp, mu, u, driftMat_good, by show (0 : ℝ) < 3/2; norm_num, hG0, hmu0,
    mifForce 3 a (fun j => t j 0), mifForce 3 b (fun j => t' j 0), ?_, ?_, ?_⟩
  · refine w1 _ _ ?_
    show Option.map _ (mifAsperity 3 u _ _ (general _ _ _ _).fn (general _ _ _ _).a _ _) = _
    rw [g1]
    exact congrArg (Option.map _) m1
  · refine w1 _ _ ?_
    set o := ((MifObj.new mu).force driftMat oneAsp 3 u true).2 with ho
    have o1 : o.unmax = z := max_eq_left hz.le
    have o2 : o.Fm 0 = some f := by
      show maxF (general driftMat _ _ _).fn (some 0) = _
      rw [g1, h1]
      show some (max f 0) = _
      rw [max_eq_left hf.le]
    have o3 : o.asp 0 = some ⟨t, fun j => a * mifRadius 3 j⟩ := by
      show Option.map _ (mifAsperity 3 u _ _ (general _ _ _ _).fn (general _ _ _ _).a _ _) = _
      rw [g1]
      exact congrArg (Option.map _) m1
    have g2 : general driftMat (u 2 - oneAsp.meso - oneAsp.gaps 0) (o.unmax - oneAsp.meso - oneAsp.gaps 0) (o.Fm 0)
        = unloading z z (some f) driftMat.Re driftMat.Estar := by
      rw [o1, o2]
      show general driftMat (z - 0 - 0) (z - 0 - 0) _ = _
      rw [sub_zero, sub_zero]
      exact general_unload (fun h => lt_irrefl _ h.1) (fun h => by linarith [h.1])
    have hRp : 0 < driftMat.Re := by rw [hR]; norm_num
    have hEp : 0 < driftMat.Estar := by rw [hE]; norm_num
    show Option.map _ (mifAsperity 3 u o.uxyn0 (o.asp 0) (general _ _ _ _).fn (general _ _ _ _).a _ _) = _
    rw [g2, C42_start hRp hEp hz hf, unloading_start_radius hRp hEp hz hf, hR, one_mul, ← hb, o3]
    show Option.map _ (if 0 < f ∧ b = 0 then none else some _) = _
    rw [if_neg fun h => hb0.ne' h.2]
    rfl
  · exact mif_shrink hf hb0 hba ha1 hG0 hmu _ _ (fun j => rfl) (fun j => rfl)

/-- C102 at work: an elastic asperity, pressed in and dragged, evaluated twice. -/
example (upd : Bool) : let u : ℕ → ℝ := fun d => if d = 2 then 1 else 5
    let o := (MifObj.new 1).force driftMat oneAsp 100 u true
    (o.2.force driftMat oneAsp 100 u upd).1 0 = o.1 0 := by
  obtain ⟨-, -, -, hdy⟩ := drift_values
  refine (C102_repeat_partial driftMat driftMat_good (by show (0 : ℝ) < 3/2; norm_num) oneAsp (by norm_num)
    (fun k _ => by simp [oneAsp]) zero_le_one [] _ ?_ (Or.inr ?_) upd 0).2
  · intro v hv k _
    rw [List.mem_singleton.1 hv]
    simp only [if_true, oneAsp, sub_zero]
    intro h
    linarith
  · intro k _
    simp only [if_true, oneAsp, sub_zero]
    linarith

end

end TMD
