import Verif.Lemmas.RoughContact
import Mathlib.Analysis.SpecialFunctions.Exp
import Mathlib.Analysis.Complex.Trigonometric

/-! # Lemmas on the static force of rough contact -/

namespace TMD

open Spec

noncomputable section

theorem hertz_pos {R E x : ℝ} (hR : 0 < R) (hE : 0 < E) (hx : 0 < x) : 0 < hertz R E x := by
  unfold hertz
  rw [if_pos hx]
  have := Real.sqrt_pos.2 hR
  positivity

theorem hertz_nonneg {R E x : ℝ} (hR : 0 < R) (hE : 0 < E) : 0 ≤ hertz R E x := by
  rcases le_or_gt x 0 with h | h
  · unfold hertz; rw [if_neg (not_lt.2 h)]
  · exact (hertz_pos hR hE h).le

/-- Data for which the formulas make sense. -/
structure Mat.Good (m : Mat) : Prop where
  Re : 0 < m.Re
  Estar : 0 < m.Estar
  Emod : 0 < m.Emod
  Etan : 0 ≤ m.Etan
  dy : 0 < m.dy
  Sys : 0 < m.Sys

theorem Mat.C_pos (m : Mat) : 0 < m.C := by unfold Mat.C; positivity

/-- Plastic loading carries a positive force. -/
theorem plLoading_pos {m : Mat} (h : m.Good) {un : ℝ} (hu : 0 < un) :
    ∃ f a, (plLoading m un).fn = some f ∧ (plLoading m un).a = some a ∧ 0 < f := by
  unfold plLoading
  simp only [if_neg (not_lt.2 hu.le), Option.some.injEq]
  refine ⟨_, _, rfl, rfl, ?_⟩
  have hp : posPart un = un := posPart_of_pos hu
  rw [hp]
  have h1 := h.Re; have h2 := h.Estar; have h3 := h.Emod; have h4 := h.dy; have h5 := h.Sys; have h6 := m.C_pos
  have hpi := Real.pi_pos
  have hx : 0 < un / m.dy := by positivity
  have hc : 0 < 2.84 - 0.92*(1 - Real.cos (Real.pi*m.plRadius un/(2*m.Re))) := by
    have := Real.neg_one_le_cos (Real.pi*m.plRadius un/(2*m.Re))
    norm_num at *
    linarith
  generalize 2.84 - 0.92*(1 - Real.cos (Real.pi*m.plRadius un/(2*m.Re))) = H at hc ⊢
  have he : 0 < 1 - Real.exp (-1/25*(un/m.dy)^(5/9 : ℝ)) := by
    have : -1/25*(un/m.dy)^(5/9 : ℝ) < 0 := by
      have : 0 < (un/m.dy)^(5/9 : ℝ) := Real.rpow_pos_of_pos hx _
      linarith
    linarith [Real.exp_lt_one_iff.2 this]
  generalize 1 - Real.exp (-1/25*(un/m.dy)^(5/9 : ℝ)) = e1 at he ⊢
  have hx15 : 0 < (un/m.dy)^(1.5 : ℝ) := Real.rpow_pos_of_pos hx _
  have hFp : 0 < 4/3*(2*m.Re/(2*m.Estar))^2*(m.C*Real.pi*m.Sys/2)^3 *
      (Real.exp (-0.25*(un/m.dy)^(5/12 : ℝ))*(un/m.dy)^(1.5 : ℝ) + 4*H/m.C*e1*(un/m.dy)) := by
    have := Real.exp_pos (-0.25*(un/m.dy)^(5/12 : ℝ))
    positivity
  have hFe : 0 < 4*(2*m.Estar)*Real.sqrt (2*m.Re)/3*(un/2)^(1.5 : ℝ) := by
    have : 0 < (un/2)^(1.5 : ℝ) := Real.rpow_pos_of_pos (by linarith) _
    have := Real.sqrt_pos.2 (show 0 < 2*m.Re by linarith)
    positivity
  generalize 4/3*(2*m.Re/(2*m.Estar))^2*(m.C*Real.pi*m.Sys/2)^3 *
      (Real.exp (-0.25*(un/m.dy)^(5/12 : ℝ))*(un/m.dy)^(1.5 : ℝ) + 4*H/m.C*e1*(un/m.dy)) = Fp at hFp ⊢
  generalize 4*(2*m.Estar)*Real.sqrt (2*m.Re)/3*(un/2)^(1.5 : ℝ) = Fe at hFe ⊢
  have ht : Real.exp (-3.3*m.Etan/m.Emod) ≤ 1 := by
    rw [Real.exp_le_one_iff]
    have : 0 ≤ 3.3*m.Etan/m.Emod := div_nonneg (mul_nonneg (by norm_num) h.Etan) h3.le
    rw [show -3.3*m.Etan/m.Emod = -(3.3*m.Etan/m.Emod) by ring]
    linarith
  have ht' := Real.exp_pos (-3.3*m.Etan/m.Emod)
  generalize Real.exp (-3.3*m.Etan/m.Emod) = t at ht ht' ⊢
  rw [show Fp + (Fe - Fp)*(1 - t) = Fp*t + Fe*(1 - t) by ring]
  have h7 : 0 < Fp * t := mul_pos hFp ht'
  have h8 : 0 ≤ Fe*(1-t) := mul_nonneg hFe.le (by linarith)
  linarith

/-! ## The branches of `_normal_asperity_general` -/

theorem general_elastic {m : Mat} {un dm : ℝ} {F : Flt} (h1 : un < 1.9*m.dy) (h2 : dm < 1.9*m.dy) :
    general m un dm F = elLoading un m.Re m.Estar := by
  unfold general
  simp only
  rw [if_neg (fun h => absurd h.2 (by linarith)), if_pos ⟨h1, h2⟩]

theorem general_yield {m : Mat} {un dm : ℝ} {F : Flt} (h1 : dm < un) (h2 : 1.9*m.dy < un) :
    general m un dm F = plLoading m un := by
  unfold general
  simp only
  rw [if_pos ⟨h1, h2⟩]

theorem general_unload {m : Mat} {un dm : ℝ} {F : Flt} (h1 : ¬ (dm < un ∧ 1.9*m.dy < un))
    (h2 : ¬ (un < 1.9*m.dy ∧ dm < 1.9*m.dy)) : general m un dm F = unloading un dm F m.Re m.Estar := by
  unfold general
  simp only
  rw [if_neg h1, if_neg h2]

/-- Loading from a state out of contact. -/
theorem general_virgin {m : Mat} (h : m.Good) {un dm : ℝ} {F : Flt} (hd : dm ≤ 0) (hu : 0 < un)
    (hne : un ≠ 1.9*m.dy) : ∃ f, (general m un dm F).fn = some f ∧ 0 < f := by
  have := h.dy
  rcases lt_or_gt_of_ne hne with hl | hl
  · rw [general_elastic hl (by nlinarith), elLoading_fn]
    exact ⟨_, rfl, hertz_pos h.Re h.Estar hu⟩
  · rw [general_yield (by linarith) hl]
    obtain ⟨f, a, h1, -, h2⟩ := plLoading_pos h hu
    exact ⟨f, h1, h2⟩

theorem general_open {m : Mat} (h : m.Good) {un dm : ℝ} {F : Flt} (hd : dm ≤ 0) (hu : un ≤ 0) :
    (general m un dm F).fn = some 0 := by
  have := h.dy
  rw [general_elastic (by nlinarith) (by nlinarith), elLoading_fn]
  unfold hertz
  rw [if_neg (not_lt.2 hu)]

/-- The state of one asperity after loading: maximum `dm` and force `F` there. -/
structure AspState (m : Mat) (dm : ℝ) (F : Flt) : Prop where
  ok : ∃ f, F = some f ∧ 0 ≤ f ∧ (0 < dm → 0 < f)

theorem AspState.general {m : Mat} (h : m.Good) {un dm : ℝ} {F : Flt} (hs : AspState m dm F) (hne : un ≠ 1.9*m.dy) :
    (∃ f a, (general m un dm F).fn = some f ∧ (general m un dm F).a = some a ∧ 0 ≤ f) ∧
    AspState m (max un dm) (maxF (TMD.general m un dm F).fn F) := by
  have hdy := h.dy
  obtain ⟨f0, rfl, h0, h0'⟩ := hs.ok
  by_cases hy : dm < un ∧ 1.9*m.dy < un
  · rw [general_yield hy.1 hy.2]
    obtain ⟨f, a, h1, h2, h3⟩ := plLoading_pos h (show 0 < un by linarith [hy.2])
    refine ⟨⟨f, a, h1, h2, h3.le⟩, ⟨max f f0, by rw [h1]; rfl, le_max_of_le_right h0, fun _ => lt_max_of_lt_left h3⟩⟩
  · by_cases he : un < 1.9*m.dy ∧ dm < 1.9*m.dy
    · rw [general_elastic he.1 he.2, elLoading_fn, elLoading_a]
      refine ⟨⟨_, _, rfl, rfl, hertz_nonneg h.Re h.Estar⟩, ⟨_, rfl, le_max_of_le_right h0, fun hp => ?_⟩⟩
      rcases lt_max_iff.1 hp with hp | hp
      · exact lt_max_of_lt_left (hertz_pos h.Re h.Estar hp)
      · exact lt_max_of_lt_right (h0' hp)
    · rw [general_unload hy he]
      have hle : un ≤ dm := by
        by_contra hc
        push Not at hc
        rcases lt_or_gt_of_ne hne with hl | hl
        · exact he ⟨hl, by linarith⟩
        · exact hy ⟨hc, hl⟩
      have hd : 0 < dm := by
        by_contra hc
        push Not at hc
        exact he ⟨by linarith, by linarith⟩
      obtain ⟨f, a, h1, h2, h3, -⟩ := unloading_ok (R := m.Re) h.Estar.le (some f0) hle
      exact ⟨⟨f, a, h1, h2, h3⟩, ⟨max f f0, by rw [h1]; rfl, le_max_of_le_right h0,
        fun _ => lt_max_of_lt_right (h0' hd)⟩⟩

end

end TMD
