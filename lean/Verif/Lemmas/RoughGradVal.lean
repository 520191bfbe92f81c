import Verif.Lemmas.RoughGrad
import Verif.Lemmas.RoughStatic

/-!
# Values of the rough contact programs on pairs
-/

namespace TMD

open Spec

noncomputable section

/-! ## Values of pairs -/

theorem fdual_sel (c : Prop) (x y : FDual) : (fdualNum.sel c x y).v = fltNum.sel c x.v y.v := by
  by_cases h : c
  · rw [show fdualNum.sel c x y = x from if_pos h, show fltNum.sel c x.v y.v = x.v from if_pos h]
  · rw [show fdualNum.sel c x y = y from if_neg h, show fltNum.sel c x.v y.v = y.v from if_neg h]

theorem fdual_const (c : ℝ) : (fdualNum.const c).v = fltNum.const c := rfl
theorem fdual_add (x y : FDual) : (fdualNum.add x y).v = fltNum.add x.v y.v := rfl
theorem fdual_sub (x y : FDual) : (fdualNum.sub x y).v = fltNum.sub x.v y.v := rfl
theorem fdual_mul (x y : FDual) : (fdualNum.mul x y).v = fltNum.mul x.v y.v := rfl
theorem fdual_div (x y : FDual) : (fdualNum.div x y).v = fltNum.div x.v y.v := rfl
theorem fdual_sqrt (x : FDual) : (fdualNum.sqrt x).v = fltNum.sqrt x.v := rfl
theorem fdual_exp (x : FDual) : (fdualNum.exp x).v = fltNum.exp x.v := rfl
theorem fdual_cos (x : FDual) : (fdualNum.cos x).v = fltNum.cos x.v := rfl
theorem fdual_pow (c : ℝ) (x : FDual) : (fdualNum.pow c x).v = fltNum.pow c x.v := rfl
theorem fdual_cpow (c : ℝ) (x : FDual) : (fdualNum.cpow c x).v = fltNum.cpow c x.v := rfl
theorem fdual_min (x y : FDual) : (fdualNum.min x y).v = fltNum.min x.v y.v := rfl
theorem fdual_max (x y : FDual) : (fdualNum.max x y).v = fltNum.max x.v y.v := rfl
theorem fdual_maxOf (n : ℕ) (f : ℕ → FDual) : (fdualNum.maxOf n f).v = fltNum.maxOf n fun t => (f t).v := rfl
theorem fdual_val (x : FDual) : fdualNum.val x = x.v := rfl
theorem flt_val (x : Flt) : fltNum.val x = x := rfl

theorem gPos_v (x : FDual) : (gPos fdualNum x).v = gPos fltNum x.v := fdual_sel _ _ _

theorem gEl_v (R E : ℝ) (x : FDual) :
    (gEl fdualNum R E x).1.v = (gEl fltNum R E x.v).1 ∧ (gEl fdualNum R E x).2.v = (gEl fltNum R E x.v).2 := by
  unfold gEl
  simp only [fdual_sel, fdual_const, fdual_mul, fdual_div, fdual_sqrt, fdual_pow, fdual_val, flt_val, gPos_v, and_self]

theorem gPlRadius_v (m : Mat) (x : FDual) : (gPlRadius fdualNum m x).v = gPlRadius fltNum m x.v := by
  unfold gPlRadius
  simp only [fdual_add, fdual_const, fdual_mul, fdual_div, fdual_sqrt, fdual_pow, fdual_sub, fdual_exp, gPos_v]
  split <;> simp only [fdual_const, fdual_mul, fdual_div, fdual_cpow, fdual_sub, gPos_v]

theorem gPl_v (m : Mat) (x : FDual) :
    (gPl fdualNum m x).1.v = (gPl fltNum m x.v).1 ∧ (gPl fdualNum m x).2.v = (gPl fltNum m x.v).2 := by
  unfold gPl
  simp only [fdual_add, fdual_const, fdual_mul, fdual_div, fdual_cos, fdual_pow, fdual_sub, fdual_exp, gPos_v, gPlRadius_v,
    and_self]

theorem gUnl_v (R E : ℝ) (x dm F : FDual) :
    (gUnl fdualNum R E x dm F).1.v = (gUnl fltNum R E x.v dm.v F.v).1 ∧
    (gUnl fdualNum R E x dm F).2.v = (gUnl fltNum R E x.v dm.v F.v).2 := by
  unfold gUnl
  simp only [fdual_sel, fdual_const, fdual_mul, fdual_div, fdual_sqrt, fdual_pow, fdual_sub, fdual_val, flt_val, gPos_v, and_self]

theorem gGeneral_v (m : Mat) (x dm F : FDual) :
    (gGeneral fdualNum m x dm F).1.v = (gGeneral fltNum m x.v dm.v F.v).1 ∧
    (gGeneral fdualNum m x dm F).2.v = (gGeneral fltNum m x.v dm.v F.v).2 := by
  unfold gGeneral
  simp only [fdual_sel, fdual_val, flt_val, (gUnl_v _ _ _ _ _).1, (gUnl_v _ _ _ _ _).2, (gEl_v _ _ _).1, (gEl_v _ _ _).2,
    (gPl_v _ _).1, (gPl_v _ _).2, and_self]

theorem gTan_v (G mu : ℝ) (u u0 f0 fn a : FDual) :
    (gTan fdualNum G mu u u0 f0 fn a).v = gTan fltNum G mu u.v u0.v f0.v fn.v a.v := rfl

theorem gWeighted_v (w : ℕ → ℝ) (f : ℕ → FDual) (n : ℕ) :
    (gWeighted fdualNum w f n).v = gWeighted fltNum w (fun k => (f k).v) n := by
  induction n with
  | zero => rfl
  | succ n ih =>
    simp only [gWeighted]
    rw [fdual_add, ih]
    rfl

theorem gGap_v (g : Asperities) (u : FDual) (k : ℕ) : (gGap fdualNum g u k).v = gGap fltNum g u.v k := rfl

/-- The history with values only. -/
def GHist.v (H : GHist FDual) : GHist Flt := ⟨fun t d => (H.ft t d).v, fun d => (H.uxyn0 d).v, fun k d => (H.fxy0 k d).v⟩

theorem gRoughBody_v (m : Mat) (g : Asperities) (u : ℕ → ℕ → FDual) (mu : ℝ) (dm Fm : ℕ → FDual) (H : GHist FDual) (ind : ℕ) :
    (gRoughBody fdualNum m g u mu dm Fm H ind).v
      = gRoughBody fltNum m g (fun j d => (u j d).v) mu (fun k => (dm k).v) (fun k => (Fm k).v) H.v ind := by
  unfold gRoughBody GHist.v
  simp only [gTan_v, (gUnl_v _ _ _ _ _).1, (gUnl_v _ _ _ _ _).2, gGap_v]
  congr 1
  funext t d
  unfold setRow
  split
  · beta_reduce
    split <;> simp only [gWeighted_v, gTan_v, (gUnl_v _ _ _ _ _).1, (gUnl_v _ _ _ _ _).2, gGap_v]
  · rfl

theorem gStaticRough_v (m : Mat) (g : Asperities) (um : FDual) (Fm u0 : ℕ → FDual) (f0 : ℕ → ℕ → FDual) (mu : ℝ) (u : ℕ → FDual)
    (d : ℕ) : (gStaticRough fdualNum m g um Fm u0 f0 mu u d).v
      = gStaticRough fltNum m g um.v (fun k => (Fm k).v) (fun d => (u0 d).v) (fun k d => (f0 k d).v) mu (fun d => (u d).v) d := by
  unfold gStaticRough
  simp only
  split <;> simp only [gWeighted_v, gTan_v, (gGeneral_v _ _ _ _).1, (gGeneral_v _ _ _ _).2, gGap_v]

/-! ## The programs on numbers are those of Model/RoughContact -/

/-- Material data for which all formulas are finite. -/
structure Mat.Fine (m : Mat) : Prop extends m.Good where
  hard : m.Etan ≠ m.Emod

theorem geF_some (a : ℝ) : geF (some a) ↔ 0 ≤ a := by simp [geF]
theorem gtF_some (a b : ℝ) : gtF (some a) b ↔ b < a := by simp [gtF]
theorem ltF_some (a b : ℝ) : ltF (some a) b ↔ a < b := by simp [ltF]
theorem gtFF_some (a b : ℝ) : gtFF (some a) (some b) ↔ b < a := by simp [gtFF]
theorem not_geF_none : ¬ geF none := by simp [geF]
theorem not_gtF_none (b : ℝ) : ¬ gtF none b := by simp [gtF]

theorem flt_const (c : ℝ) : fltNum.const c = some c := rfl
theorem flt_add (a b : ℝ) : fltNum.add (some a) (some b) = some (a + b) := rfl
theorem flt_sub (a b : ℝ) : fltNum.sub (some a) (some b) = some (a - b) := rfl
theorem flt_mul (a b : ℝ) : fltNum.mul (some a) (some b) = some (a * b) := rfl
theorem flt_exp (a : ℝ) : fltNum.exp (some a) = some (Real.exp a) := rfl
theorem flt_cos (a : ℝ) : fltNum.cos (some a) = some (Real.cos a) := rfl
theorem flt_cpow (b a : ℝ) : fltNum.cpow b (some a) = some (b ^ a) := rfl
theorem flt_min (a b : ℝ) : fltNum.min (some a) (some b) = some (min a b) := rfl
theorem flt_max (a b : ℝ) : fltNum.max (some a) (some b) = some (max a b) := rfl
theorem flt_div {b : ℝ} (a : ℝ) (hb : b ≠ 0) : fltNum.div (some a) (some b) = some (a / b) := if_neg hb
theorem flt_sqrt {a : ℝ} (ha : 0 ≤ a) : fltNum.sqrt (some a) = some (Real.sqrt a) := if_neg (not_lt.2 ha)
theorem flt_pow {a c : ℝ} (ha : 0 ≤ a) (hc : 0 ≤ c) : fltNum.pow c (some a) = some (a ^ c) :=
  if_neg fun h => h.elim (fun h => absurd h (not_lt.2 ha)) fun h => absurd h.2 (not_lt.2 hc)
theorem flt_sel_pos {c : Prop} (h : c) (x y : Flt) : fltNum.sel c x y = x := if_pos h
theorem flt_sel_neg {c : Prop} (h : ¬ c) (x y : Flt) : fltNum.sel c x y = y := if_neg h

theorem gPos_some (a : ℝ) : gPos fltNum (some a) = some (posPart a) := by
  unfold gPos posPart
  split
  · rename_i h
    exact flt_sel_pos ((geF_some a).2 h) _ _
  · rename_i h
    exact flt_sel_neg (fun h' => h ((geF_some a).1 h')) _ _

theorem gPos_none : gPos fltNum none = some 0 := flt_sel_neg not_geF_none _ _

theorem gEl_flt {R : ℝ} (hR : 0 < R) (E un : ℝ) :
    (gEl fltNum R E (some un)).1 = (elLoading un R E).fn ∧ (gEl fltNum R E (some un)).2 = (elLoading un R E).a := by
  have hp := posPart_nonneg un
  unfold gEl elLoading
  simp only [gPos_some, flt_const, flt_val]
  rw [flt_div _ two_ne_zero, flt_mul, flt_sqrt (by positivity), flt_pow (by positivity) (by norm_num), flt_mul]
  refine ⟨rfl, ?_⟩
  split
  · rename_i h
    exact flt_sel_pos ((gtF_some _ _).2 h) _ _
  · rename_i h
    exact flt_sel_neg (fun h' => h ((gtF_some _ _).1 h')) _ _

theorem upsilon_den {m : Mat} (h : m.Fine) :
    (4 - 3*Real.exp (-2*Real.sqrt (m.Emod/m.Sys)*m.Etan/m.Emod))*(1 - m.Etan/m.Emod) ≠ 0 := by
  have h1 := h.Emod; have h2 := h.Etan; have h3 := h.Sys
  refine mul_ne_zero ?_ ?_
  · have : Real.exp (-2*Real.sqrt (m.Emod/m.Sys)*m.Etan/m.Emod) ≤ 1 := by
      rw [Real.exp_le_one_iff]
      have : 0 ≤ 2*Real.sqrt (m.Emod/m.Sys)*m.Etan/m.Emod := by positivity
      have e : -2*Real.sqrt (m.Emod/m.Sys)*m.Etan/m.Emod = -(2*Real.sqrt (m.Emod/m.Sys)*m.Etan/m.Emod) := by ring
      linarith
    linarith
  · intro h0
    exact h.hard ((div_eq_one_iff_eq h1.ne').1 (by linarith))

theorem gPlRadius_flt {m : Mat} (h : m.Fine) (un : ℝ) : gPlRadius fltNum m (some un) = some (m.plRadius un) := by
  have hp := posPart_nonneg un
  have h1 := h.Re; have h2 := h.dy
  have hB : (0 : ℝ) ≤ 0.14*Real.exp (23*m.Sys/(2*m.Estar)) := by positivity
  have hx : 0 ≤ posPart un / m.dy := by positivity
  have h19 : (0 : ℝ) ≤ posPart un / m.dy / 1.9 := by positivity
  unfold gPlRadius Mat.plRadius
  simp only [gPos_some, flt_const]
  rw [flt_div _ two_ne_zero, flt_mul, flt_sqrt (by positivity), flt_div _ h2.ne', flt_div _ (by norm_num : (1.9 : ℝ) ≠ 0),
    flt_pow h19 hB, flt_mul, flt_sqrt (mul_nonneg hx (Real.rpow_nonneg h19 _)), flt_mul, flt_sub]
  split
  · rw [flt_exp, flt_mul, flt_add]
  · rw [flt_sub, flt_div _ two_ne_zero, flt_div _ (by positivity), flt_sub, flt_cpow, flt_mul, flt_div _ (upsilon_den h), flt_exp,
      flt_mul, flt_add]

theorem gPl_flt {m : Mat} (h : m.Fine) (un : ℝ) :
    (gPl fltNum m (some un)).1 = (plLoading m un).fn ∧ (gPl fltNum m (some un)).2 = (plLoading m un).a := by
  have hp := posPart_nonneg un
  have h1 := h.Re; have h2 := h.dy
  have hx : 0 ≤ posPart un / m.dy := by positivity
  unfold gPl plLoading
  simp only [gPos_some, flt_const, gPlRadius_flt h]
  refine ⟨?_, trivial⟩
  rw [flt_div _ two_ne_zero, flt_div _ h2.ne', flt_mul Real.pi, flt_div _ (by positivity), flt_cos, flt_sub, flt_mul, flt_sub, flt_mul,
    flt_div _ m.C_pos.ne', flt_pow hx (by norm_num : (0 : ℝ) ≤ 5/12), flt_pow hx (by norm_num : (0 : ℝ) ≤ 5/9),
    flt_pow hx (by norm_num : (0 : ℝ) ≤ 1.5), flt_mul, flt_mul, flt_exp, flt_exp, flt_sub, flt_mul, flt_mul, flt_mul, flt_add,
    flt_mul]
  split
  · rename_i hu
    rw [show fltNum.pow 1.5 (some (un / 2)) = none from if_pos (Or.inl (by linarith))]
    rfl
  · rename_i hu
    rw [flt_pow (by linarith) (by norm_num : (0 : ℝ) ≤ 1.5), flt_mul, flt_sub, flt_mul, flt_add]

theorem gUnl_flt {R E : ℝ} (hR : 0 < R) (hE : 0 < E) (un dm : ℝ) (Fm : Flt) :
    (gUnl fltNum R E (some un) (some dm) Fm).1 = (unloading un dm Fm R E).fn ∧
    (gUnl fltNum R E (some un) (some dm) Fm).2 = (unloading un dm Fm R E).a := by
  have hk : 0 < 4/3*E*Real.sqrt R := by have := Real.sqrt_pos.2 hR; positivity
  have hb : fltNum.mul (some dm) (fltNum.sub (fltNum.const 1) (fltNum.div Fm (fltNum.mul (fltNum.const (4/3*E*Real.sqrt R))
      (fltNum.pow 1.5 (some dm))))) = (unloading un dm Fm R E).deltabar := by
    unfold unloading
    cases Fm with
    | none => rfl
    | some F =>
      simp only
      split
      · rename_i hd
        rw [flt_pow hd.le (by norm_num), flt_const, flt_const, flt_mul, flt_div _ (by positivity), flt_sub, flt_mul]
      · rename_i hd
        rcases lt_or_eq_of_le (not_lt.1 hd) with h0 | h0
        · rw [show fltNum.pow 1.5 (some dm) = none from if_pos (Or.inl h0)]
          rfl
        · subst h0
          rw [flt_pow le_rfl (by norm_num), Real.zero_rpow (by norm_num), flt_const, flt_const, flt_mul, mul_zero]
          have : fltNum.div (some F) (some 0) = none := if_pos rfl
          rw [this]
          rfl
  have key : ∀ b : Flt, (unloading un dm Fm R E).deltabar = b →
      (gUnl fltNum R E (some un) (some dm) Fm).1 = (unloading un dm Fm R E).fn ∧
      (gUnl fltNum R E (some un) (some dm) Fm).2 = (unloading un dm Fm R E).a := by
    intro b hb'
    rw [hb'] at hb
    unfold gUnl
    unfold unloading at hb' ⊢
    simp only at hb' ⊢
    rw [hb, hb']
    cases b with
    | none =>
      have : ∀ a : ℝ, fltNum.sub (some a) none = none := fun a => rfl
      simp only [this, gPos_none, Option.map_none, posPartF, flt_val]
      rw [flt_sel_neg (fun h => lt_irrefl 0 ((gtF_some 0 0).1 h)), flt_sel_neg (fun h => lt_irrefl 0 ((gtF_some 0 0).1 h))]
      simp [flt_const]
    | some b =>
      simp only [flt_sub, gPos_some, Option.map_some, posPartF, flt_val, gtF_some]
      cases Fm with
      | none => cases hb'
      | some F =>
        have hp := posPart_nonneg (un - b)
        by_cases h0 : 0 < posPart (un - b)
        · rw [flt_sel_pos h0, flt_sel_pos h0]
          simp only [flt_mul, flt_const, h0, if_true]
          by_cases hm : posPart (dm - b) = 0
          · simp only [hm, if_true]
            have : fltNum.div (some (F * F)) (some ((4/3*E)^2 * (0*0*0))) = none := if_pos (by ring)
            rw [this]
            exact ⟨rfl, rfl⟩
          · have hm' : 0 < posPart (dm - b) := lt_of_le_of_ne (posPart_nonneg _) (Ne.symm hm)
            simp only [hm, if_false]
            rw [flt_div _ (by positivity), flt_sqrt (div_nonneg (mul_self_nonneg F) (by positivity)), flt_mul, flt_mul,
              flt_pow hp (by norm_num), flt_mul, flt_sqrt (mul_nonneg (div_nonneg (mul_self_nonneg F) (by positivity)) hp)]
            have e : F * F / ((4/3*E)^2 * (posPart (dm - b) * posPart (dm - b) * posPart (dm - b)))
                = F^2 / ((4/3*E)^2 * posPart (dm - b)^3) := by ring
            rw [e]
            exact ⟨rfl, rfl⟩
        · rw [flt_sel_neg h0, flt_sel_neg h0]
          simp only [h0, if_false]
          exact ⟨rfl, rfl⟩
  exact key _ rfl

theorem gGeneral_flt {m : Mat} (h : m.Fine) (un dm : ℝ) (Fm : Flt) :
    (gGeneral fltNum m (some un) (some dm) Fm).1 = (general m un dm Fm).fn ∧
    (gGeneral fltNum m (some un) (some dm) Fm).2 = (general m un dm Fm).a := by
  unfold gGeneral general
  simp only [flt_val, gtFF_some, gtF_some, ltF_some]
  obtain ⟨u1, u2⟩ := gUnl_flt h.Re h.Estar un dm Fm
  obtain ⟨e1, e2⟩ := gEl_flt h.Re m.Estar un
  obtain ⟨p1, p2⟩ := gPl_flt h un
  by_cases hy : dm < un ∧ 1.9*m.dy < un
  · rw [flt_sel_pos hy, flt_sel_pos hy, if_pos hy]
    exact ⟨p1, p2⟩
  · rw [flt_sel_neg hy, flt_sel_neg hy, if_neg hy]
    by_cases he : un < 1.9*m.dy ∧ dm < 1.9*m.dy
    · rw [flt_sel_pos he, flt_sel_pos he, if_pos he]
      exact ⟨e1, e2⟩
    · rw [flt_sel_neg he, flt_sel_neg he, if_neg he]
      exact ⟨u1, u2⟩

theorem gTan_flt (G mu u u0 : ℝ) (f0 fn a : Flt) :
    gTan fltNum G mu (some u) (some u0) f0 fn a = tangentialAsp u u0 f0 fn a G mu := by
  unfold tangentialAsp
  cases f0 with
  | none => cases fn <;> cases a <;> rfl
  | some f0 =>
    cases fn with
    | none => cases a <;> rfl
    | some fn =>
      cases a with
      | none => rfl
      | some a =>
        unfold gTan
        simp only [flt_const, flt_mul, flt_sub, flt_add, flt_min, flt_max, neg_one_mul]

theorem gWeighted_flt (w : ℕ → ℝ) (f : ℕ → Flt) (n : ℕ) : gWeighted fltNum w f n = weighted w f n := by
  induction n with
  | zero => rfl
  | succ n ih =>
    simp only [gWeighted, weighted, ih]
    cases weighted w f n <;> cases f n <;> rfl

theorem gGap_flt (g : Asperities) (u : ℝ) (k : ℕ) : gGap fltNum g (some u) k = some (u - g.meso - g.gaps k) := rfl

theorem maxOfF_some (n : ℕ) (u : ℕ → ℕ → ℝ) : maxOfF n (fun t => some (u t 2)) = some (unMax n u) := by
  unfold maxOfF unMax
  beta_reduce
  generalize u 0 2 = x
  induction n with
  | zero => rfl
  | succ n ih =>
    rw [List.range_succ, List.foldl_append, List.foldl_append, ih]
    rfl

/-- Static force. -/
theorem gStaticRough_flt {m : Mat} (h : m.Fine) (g : Asperities) (o : RoughObj) (u : ℕ → ℝ) (d : ℕ) :
    gStaticRough fltNum m g (some o.unmax) o.Fm (fun d => some (o.uxyn0 d)) o.fxy0 o.mu (fun d => some (u d)) d
      = (staticRough m g o u).fxyn d := by
  unfold gStaticRough staticRough
  simp only [gGap_flt, (gGeneral_flt h _ _ _).1, (gGeneral_flt h _ _ _).2, gTan_flt, gWeighted_flt]

/-- A history of numbers as one of values that may be NaN. -/
def RoughHist.flt (H : RoughHist) : GHist Flt := ⟨H.ft, fun d => some (H.uxyn0 d), H.fxy0⟩

theorem gRoughBody_flt {m : Mat} (h : m.Fine) (g : Asperities) (u : ℕ → ℕ → ℝ) (mu : ℝ) (dm : ℕ → ℝ) (Fm : ℕ → Flt)
    (H : RoughHist) (ind : ℕ) :
    gRoughBody fltNum m g (fun j d => some (u j d)) mu (fun k => some (dm k)) Fm H.flt ind
      = (roughBody m g u mu dm Fm H ind).flt := by
  unfold gRoughBody roughBody RoughHist.flt
  simp only [gGap_flt, (gUnl_flt h.Re h.Estar _ _ _).1, (gUnl_flt h.Re h.Estar _ _ _).2, gWeighted_flt, gTan_flt]

/-- Force at the maximum. -/
def gFmax {α : Type} (J : FNum α) (m : Mat) (g : Asperities) (unmax : α) (k : ℕ) : α :=
  (gGeneral J m (gGap J g unmax k) (J.const (0 - g.meso - g.gaps k)) (J.const 0)).1

/-- The loop after `s` steps. -/
def gSteps {α : Type} (J : FNum α) (m : Mat) (g : Asperities) (Nt : ℕ) (u : ℕ → ℕ → α) (unmax : α) (u0 : ℕ → α) (mu : ℝ)
    (s : ℕ) : GHist α :=
  (List.range s).foldl (fun H s => gRoughBody J m g u mu (gGap J g unmax) (gFmax J m g unmax) H (s % Nt))
    ⟨fun _ _ => J.const 0, u0, fun _ _ => J.const 0⟩

theorem gSteps_succ {α : Type} (J : FNum α) (m : Mat) (g : Asperities) (Nt : ℕ) (u : ℕ → ℕ → α) (unmax : α) (u0 : ℕ → α)
    (mu : ℝ) (s : ℕ) : gSteps J m g Nt u unmax u0 mu (s + 1)
      = gRoughBody J m g u mu (gGap J g unmax) (gFmax J m g unmax) (gSteps J m g Nt u unmax u0 mu s) (s % Nt) := by
  unfold gSteps
  rw [List.range_succ, List.foldl_append]
  rfl

theorem gRoughFrom_steps {α : Type} (J : FNum α) (m : Mat) (g : Asperities) (Nt : ℕ) (u : ℕ → ℕ → α) (unmax : α) (u0 : ℕ → α)
    (mu : ℝ) (r : ℕ) : gRoughFrom J m g Nt u unmax u0 mu r = (gSteps J m g Nt u unmax u0 mu (r * Nt)).ft := by
  unfold gRoughFrom
  simp only
  rw [repeats_flat]
  rfl

theorem gSteps_flt {m : Mat} (h : m.Fine) (g : Asperities) (Nt : ℕ) (u : ℕ → ℕ → ℝ) (u0 : ℕ → ℝ) (mu : ℝ) (s : ℕ) :
    gSteps fltNum m g Nt (fun j d => some (u j d)) (some (unMax Nt u)) (fun d => some (u0 d)) mu s
      = ((List.range s).foldl (fun H s => roughBody m g u mu (cycleMax Nt g u) (cycleFm m Nt g u) H (s % Nt))
          ⟨fun _ _ => some 0, u0, fun _ _ => some 0⟩).flt := by
  have e1 : gGap fltNum g (some (unMax Nt u)) = fun k => some (cycleMax Nt g u k) := rfl
  have e2 : gFmax fltNum m g (some (unMax Nt u)) = cycleFm m Nt g u := by
    funext k
    exact (gGeneral_flt h _ _ _).1
  induction s with
  | zero => rfl
  | succ s ih =>
    rw [gSteps_succ, ih, e1, e2, gRoughBody_flt h, List.range_succ, List.foldl_append]
    rfl

/-- History of a cycle. -/
theorem gRoughHistory_flt {m : Mat} (h : m.Fine) (g : Asperities) (Nt : ℕ) (u : ℕ → ℕ → ℝ) (u0 : ℕ → ℝ) (mu : ℝ) (r : ℕ) :
    gRoughHistory fltNum m g Nt (fun j d => some (u j d)) (fun d => some (u0 d)) mu r = roughHistory m g Nt u u0 mu r := by
  have hm : fltNum.maxOf Nt (fun t => some (u t 2)) = some (unMax Nt u) := maxOfF_some Nt u
  unfold gRoughHistory roughHistory
  rw [hm, gRoughFrom_steps, gSteps_flt h, repeats_flat]
  rfl

theorem gSteps_v (m : Mat) (g : Asperities) (Nt : ℕ) (u : ℕ → ℕ → FDual) (um : FDual) (u0 : ℕ → FDual) (mu : ℝ) (s : ℕ) :
    (gSteps fdualNum m g Nt u um u0 mu s).v
      = gSteps fltNum m g Nt (fun j d => (u j d).v) um.v (fun d => (u0 d).v) mu s := by
  induction s with
  | zero => rfl
  | succ s ih =>
    rw [gSteps_succ, gSteps_succ, gRoughBody_v, ih]
    congr 1
    funext k
    exact (gGeneral_v _ _ _ _).1

theorem gRoughHistory_v (m : Mat) (g : Asperities) (Nt : ℕ) (u : ℕ → ℕ → FDual) (u0 : ℕ → FDual) (mu : ℝ) (r t d : ℕ) :
    (gRoughHistory fdualNum m g Nt u u0 mu r t d).v
      = gRoughHistory fltNum m g Nt (fun j d => (u j d).v) (fun d => (u0 d).v) mu r t d := by
  unfold gRoughHistory
  rw [gRoughFrom_steps, gRoughFrom_steps]
  exact congrArg (fun H => GHist.ft H t d) (gSteps_v m g Nt u _ u0 mu (r * Nt))

end

end TMD
