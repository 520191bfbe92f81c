import Verif.Props.Units

/-!
# C128: rough contact

Radius, gaps and displacements are lengths; moduli and yield stress are forces per area.
-/

namespace TMD

open Spec Finset

noncomputable section

/-- Material data in new units. -/
def Mat.units (a b : ℝ) (m : Mat) : Mat :=
  { Re := a * m.Re, nu := m.nu, Estar := b / a ^ 2 * m.Estar, Emod := b / a ^ 2 * m.Emod, Etan := b / a ^ 2 * m.Etan, dy := a * m.dy
    Sys := b / a ^ 2 * m.Sys, Gstar := b / a ^ 2 * m.Gstar }

/-- Geometry in new units. -/
def Asperities.units (a : ℝ) (g : Asperities) : Asperities := { g with meso := a * g.meso, gaps := fun k => a * g.gaps k }

/-- Result of the contact functions in new units. -/
def AspOut.units (a b : ℝ) (o : AspOut) : AspOut :=
  ⟨o.fn.map (b * ·), o.a.map (a * ·), o.deltabar.map (a * ·), o.Rebar.map (a * ·)⟩

variable {a b : ℝ} (ha : 0 < a) (hb : 0 < b)
include ha hb

/-- C128: the derived constants of the constructor are converted by their dimension. -/
theorem C128_material (E nu R Et S : ℝ) :
    Mat.new (b / a ^ 2 * E) nu (a * R) (b / a ^ 2 * Et) (b / a ^ 2 * S) = (Mat.new E nu R Et S).units a b := by
  unfold Mat.new Mat.units
  simp only [Mat.mk.injEq, true_and]
  have hs : b / a ^ 2 ≠ 0 := by positivity
  generalize b / a ^ 2 = s at hs
  refine ⟨by ring, ?_, by ring⟩
  have e : Real.pi * (1.295 * Real.exp (0.736 * nu)) * (s * S) / (2 * (2 * (s * E / 2 / (1 - nu ^ 2))))
      = Real.pi * (1.295 * Real.exp (0.736 * nu)) * S / (2 * (2 * (E / 2 / (1 - nu ^ 2)))) := by
    rw [show Real.pi * (1.295 * Real.exp (0.736 * nu)) * (s * S) = s * (Real.pi * (1.295 * Real.exp (0.736 * nu)) * S) by ring,
      show 2 * (2 * (s * E / 2 / (1 - nu ^ 2))) = s * (2 * (2 * (E / 2 / (1 - nu ^ 2)))) by ring, mul_div_mul_left _ _ hs]
  rw [e]
  ring

omit hb in
theorem posPart_units (x : ℝ) : posPart (a * x) = a * posPart x := by
  unfold posPart
  by_cases hx : 0 ≤ x
  · rw [if_pos hx, if_pos (mul_nonneg ha.le hx)]
  · rw [if_neg hx, if_neg (not_le.2 (mul_neg_of_pos_of_neg ha (not_le.1 hx))), mul_zero]

omit hb in
theorem posPartF_units (x : Flt) : posPartF (x.map (a * ·)) = a * posPartF x := by
  cases x with
  | none => simp [posPartF]
  | some x => exact posPart_units ha x

omit ha hb in
theorem posPartF_nonneg (x : Flt) : 0 ≤ posPartF x := by
  cases x with
  | none => exact le_rfl
  | some x =>
    show 0 ≤ posPart x
    unfold posPart
    split <;> [assumption; exact le_rfl]

/-- The Hertz force: modulus, square root of a radius, displacement to the power 3/2. -/
theorem hertz_units (k R : ℝ) {x : ℝ} (hx : 0 ≤ x) :
    b / a ^ 2 * k * Real.sqrt (a * R) * (a * x) ^ (1.5 : ℝ) = b * (k * Real.sqrt R * x ^ (1.5 : ℝ)) := by
  have e : a ^ (1.5 : ℝ) = a * Real.sqrt a := by
    rw [show (1.5 : ℝ) = 1 + 1 / 2 by norm_num, Real.rpow_add ha, Real.rpow_one, Real.sqrt_eq_rpow]
  rw [Real.mul_rpow ha.le hx, Real.sqrt_mul ha.le, e]
  have q : Real.sqrt a * Real.sqrt a = a := Real.mul_self_sqrt ha.le
  calc b / a ^ 2 * k * (Real.sqrt a * Real.sqrt R) * (a * Real.sqrt a * x ^ (1.5 : ℝ))
      = b / a ^ 2 * (Real.sqrt a * Real.sqrt a) * a * (k * Real.sqrt R * x ^ (1.5 : ℝ)) := by ring
    _ = b * (k * Real.sqrt R * x ^ (1.5 : ℝ)) := by rw [q]; field_simp

omit hb in
theorem sqrt_units (x y : ℝ) : Real.sqrt ((a * x) * (a * y)) = a * Real.sqrt (x * y) := by
  rw [show (a * x) * (a * y) = a ^ 2 * (x * y) by ring, Real.sqrt_mul (by positivity), Real.sqrt_sq ha.le]

theorem elLoading_units (un Re Es : ℝ) : elLoading (a * un) (a * Re) (b / a ^ 2 * Es) = (elLoading un Re Es).units a b := by
  unfold elLoading AspOut.units
  simp only [AspOut.mk.injEq, Option.map_some, posPart_units ha, mul_zero, mul_pos_iff_of_pos_left ha, and_true, Option.some.injEq]
  constructor
  · have := hertz_units ha hb (4 * (2 * Es) / 3) (2 * Re) (x := posPart un / 2) (by have := posPart_nonneg un; positivity)
    rw [show 2 * (a * Re) = a * (2 * Re) by ring, show a * posPart un / 2 = a * (posPart un / 2) by ring]
    calc _ = b / a ^ 2 * (4 * (2 * Es) / 3) * Real.sqrt (a * (2 * Re)) * (a * (posPart un / 2)) ^ (1.5 : ℝ) := by ring
      _ = _ := by rw [this]; ring
  · rw [show 2 * (a * Re) = a * (2 * Re) by ring, show a * posPart un / 2 = a * (posPart un / 2) by ring, sqrt_units ha]
    split <;> simp

theorem plRadius_units (m : Mat) (un : ℝ) : (m.units a b).plRadius (a * un) = a * m.plRadius un := by
  have hs : b / a ^ 2 ≠ 0 := by positivity
  unfold Mat.plRadius Mat.units Mat.C
  simp only [posPart_units ha]
  generalize b / a ^ 2 = s at hs
  have c1 : ∀ x y : ℝ, (s * x) / (s * y) = x / y := fun x y => mul_div_mul_left _ _ hs
  have c2 : ∀ x y : ℝ, (a * x) / (a * y) = x / y := fun x y => mul_div_mul_left _ _ ha.ne'
  have e1 : Real.sqrt (2 * (a * m.Re) * (a * posPart un / 2)) = a * Real.sqrt (2 * m.Re * (posPart un / 2)) := by
    rw [show 2 * (a * m.Re) = a * (2 * m.Re) by ring, show a * posPart un / 2 = a * (posPart un / 2) by ring, sqrt_units ha]
  have e2 : 23 * (s * m.Sys) / (2 * (s * m.Estar)) = 23 * m.Sys / (2 * m.Estar) := by
    rw [show 23 * (s * m.Sys) = s * (23 * m.Sys) by ring, show 2 * (s * m.Estar) = s * (2 * m.Estar) by ring, c1]
  have e3 : Real.pi * (1.295 * Real.exp (0.736 * m.nu)) * (s * m.Sys) / (2 * 2 * (s * m.Estar))
      = Real.pi * (1.295 * Real.exp (0.736 * m.nu)) * m.Sys / (2 * 2 * m.Estar) := by
    rw [show Real.pi * (1.295 * Real.exp (0.736 * m.nu)) * (s * m.Sys) = s * (Real.pi * (1.295 * Real.exp (0.736 * m.nu)) * m.Sys) by ring,
      show 2 * 2 * (s * m.Estar) = s * (2 * 2 * m.Estar) by ring, c1]
  have e4 : (a * posPart un - a * m.dy) / 2 / (a * m.Re * 2) = (posPart un - m.dy) / 2 / (m.Re * 2) := by
    rw [show (a * posPart un - a * m.dy) / 2 = a * ((posPart un - m.dy) / 2) by ring, show a * m.Re * 2 = a * (m.Re * 2) by ring, c2]
  have e5 : ∀ x, x * (s * m.Etan) / (s * m.Emod) = x * m.Etan / m.Emod := fun x => by
    rw [show x * (s * m.Etan) = s * (x * m.Etan) by ring, c1]
  rw [e1, e2, e3, c2, c1, c1, e4, e5]
  ring

theorem plLoading_units (m : Mat) (un : ℝ) : plLoading (m.units a b) (a * un) = (plLoading m un).units a b := by
  have hs : b / a ^ 2 ≠ 0 := by positivity
  have c1 : ∀ x y : ℝ, (b / a ^ 2 * x) / (b / a ^ 2 * y) = x / y := fun x y => mul_div_mul_left _ _ hs
  have c2 : ∀ x y : ℝ, (a * x) / (a * y) = x / y := fun x y => mul_div_mul_left _ _ ha.ne'
  unfold plLoading AspOut.units
  simp only [plRadius_units ha hb, posPart_units ha, AspOut.mk.injEq, Option.map_some, mul_zero]
  have eR : (m.units a b).Re = a * m.Re := rfl
  have eE : (m.units a b).Estar = b / a ^ 2 * m.Estar := rfl
  have eS : (m.units a b).Sys = b / a ^ 2 * m.Sys := rfl
  have eD : (m.units a b).dy = a * m.dy := rfl
  have eC : (m.units a b).C = m.C := rfl
  have eT : (m.units a b).Etan = b / a ^ 2 * m.Etan := rfl
  have eM : (m.units a b).Emod = b / a ^ 2 * m.Emod := rfl
  refine ⟨?_, trivial, trivial, by rw [eR]⟩
  have hneg : a * un < 0 ↔ un < 0 := by
    constructor
    · exact fun h => by_contra fun hx => absurd (mul_nonneg ha.le (not_lt.1 hx)) (not_le.2 h)
    · exact fun h => mul_neg_of_pos_of_neg ha h
  by_cases hu : un < 0
  · rw [if_pos (hneg.2 hu), if_pos hu]; rfl
  · rw [if_neg (fun h => hu (hneg.1 h)), if_neg hu]
    show some _ = some _
    congr 1
    rw [eR, eE, eS, eD, eC, eT, eM, c2]
    have f1 : Real.pi * (a * m.plRadius un) / (2 * (a * m.Re)) = Real.pi * m.plRadius un / (2 * m.Re) := by
      rw [show Real.pi * (a * m.plRadius un) = a * (Real.pi * m.plRadius un) by ring, show 2 * (a * m.Re) = a * (2 * m.Re) by ring, c2]
    have f2 : -3.3 * (b / a ^ 2 * m.Etan) / (b / a ^ 2 * m.Emod) = -3.3 * m.Etan / m.Emod := by
      rw [show -3.3 * (b / a ^ 2 * m.Etan) = b / a ^ 2 * (-3.3 * m.Etan) by ring, c1]
    have f3 : 4 / 3 * (2 * (a * m.Re) / (2 * (b / a ^ 2 * m.Estar))) ^ 2 * (m.C * Real.pi * (b / a ^ 2 * m.Sys) / 2) ^ 3
        = b * (4 / 3 * (2 * m.Re / (2 * m.Estar)) ^ 2 * (m.C * Real.pi * m.Sys / 2) ^ 3) := by
      rcases eq_or_ne m.Estar 0 with e0 | e0
      · rw [e0]; simp
      · field_simp
    have f4 : 4 * (2 * (b / a ^ 2 * m.Estar)) * Real.sqrt (2 * (a * m.Re)) / 3 * (a * un / 2) ^ (1.5 : ℝ)
        = b * (4 * (2 * m.Estar) * Real.sqrt (2 * m.Re) / 3 * (un / 2) ^ (1.5 : ℝ)) := by
      have := hertz_units ha hb (4 * (2 * m.Estar) / 3) (2 * m.Re) (x := un / 2) (by linarith)
      rw [show 2 * (a * m.Re) = a * (2 * m.Re) by ring, show a * un / 2 = a * (un / 2) by ring]
      calc _ = b / a ^ 2 * (4 * (2 * m.Estar) / 3) * Real.sqrt (a * (2 * m.Re)) * (a * (un / 2)) ^ (1.5 : ℝ) := by ring
        _ = _ := by rw [this]; ring
    rw [f1, f2, f3, f4]
    ring

theorem unloading_units (un dm Re Es : ℝ) (Fm : Flt) :
    unloading (a * un) (a * dm) (Fm.map (b * ·)) (a * Re) (b / a ^ 2 * Es) = (unloading un dm Fm Re Es).units a b := by
  have key : ∀ db : Flt, (db.map (a * ·)).map (fun d => a * un - d) = (db.map fun d => un - d).map (a * ·) := fun db => by
    cases db with
    | none => rfl
    | some d => show some _ = some _; congr 1; ring
  have key2 : ∀ db : Flt, (db.map (a * ·)).map (fun d => a * dm - d) = (db.map fun d => dm - d).map (a * ·) := fun db => by
    cases db with
    | none => rfl
    | some d => show some _ = some _; congr 1; ring
  cases Fm with
  | none =>
    unfold unloading AspOut.units
    simp only [Option.map_none, posPartF, lt_irrefl, if_false, Option.map_some, mul_zero]
  | some F =>
    have hdb : (if 0 < a * dm then some (a * dm * (1 - b * F / (4 / 3 * (b / a ^ 2 * Es) * Real.sqrt (a * Re) * (a * dm) ^ (1.5 : ℝ)))) else none)
        = (if 0 < dm then some (dm * (1 - F / (4 / 3 * Es * Real.sqrt Re * dm ^ (1.5 : ℝ)))) else none : Flt).map (a * ·) := by
      simp only [mul_pos_iff_of_pos_left ha]
      by_cases hd : 0 < dm
      · rw [if_pos hd, if_pos hd]
        show some _ = some _
        congr 1
        have := hertz_units ha hb (4 / 3 * Es) Re (x := dm) hd.le
        rw [show 4 / 3 * (b / a ^ 2 * Es) = b / a ^ 2 * (4 / 3 * Es) by ring, this, mul_div_mul_left _ _ hb.ne']
        ring
      · rw [if_neg hd, if_neg hd]; rfl
    unfold unloading AspOut.units
    simp only [Option.map_some, hdb, key, key2, posPartF_units ha]
    generalize (if 0 < dm then some (dm * (1 - F / (4 / 3 * Es * Real.sqrt Re * dm ^ (1.5 : ℝ)))) else none : Flt) = db
    have hp := posPartF_nonneg (db.map fun d => un - d)
    generalize posPartF (db.map fun d => un - d) = p at hp
    generalize posPartF (db.map fun d => dm - d) = q
    have hR : (if a * q = 0 then none else some ((b * F) ^ 2 / ((4 / 3 * (b / a ^ 2 * Es)) ^ 2 * (a * q) ^ 3)) : Flt)
        = (if q = 0 then none else some (F ^ 2 / ((4 / 3 * Es) ^ 2 * q ^ 3)) : Flt).map (a * ·) := by
      simp only [mul_eq_zero, ha.ne', false_or]
      by_cases hq : q = 0
      · rw [if_pos hq, if_pos hq]; rfl
      · rw [if_neg hq, if_neg hq]
        show some _ = some _
        congr 1
        rcases eq_or_ne Es 0 with e0 | e0
        · rw [e0]; simp
        · field_simp
    rw [hR]
    generalize (if q = 0 then none else some (F ^ 2 / ((4 / 3 * Es) ^ 2 * q ^ 3)) : Flt) = Rb
    simp only [mul_pos_iff_of_pos_left ha, AspOut.mk.injEq, and_true]
    by_cases hp0 : 0 < p
    · simp only [hp0, if_true]
      cases Rb with
      | none => simp
      | some R =>
        simp only [Option.map_some, Option.some.injEq]
        refine ⟨?_, sqrt_units ha R p⟩
        rw [show 4 / 3 * (b / a ^ 2 * Es) = b / a ^ 2 * (4 / 3 * Es) by ring, hertz_units ha hb (4 / 3 * Es) R hp]
    · simp [hp0]

/-- C128: one asperity: normal force and contact radius are converted. -/
theorem C128_asperity (m : Mat) (un dm : ℝ) (Fm : Flt) :
    general (m.units a b) (a * un) (a * dm) (Fm.map (b * ·)) = (general m un dm Fm).units a b := by
  have lt : ∀ x y : ℝ, a * x < a * y ↔ x < y := fun x y => mul_lt_mul_iff_right₀ ha
  have e : ∀ x : ℝ, 1.9 * (m.units a b).dy = a * (1.9 * m.dy) := fun _ => by
    show 1.9 * (a * m.dy) = _
    ring
  unfold general
  simp only [e 0, lt]
  by_cases hy : dm < un ∧ 1.9 * m.dy < un
  · rw [if_pos hy, if_pos hy]
    exact plLoading_units ha hb m un
  · rw [if_neg hy, if_neg hy]
    by_cases he : un < 1.9 * m.dy ∧ dm < 1.9 * m.dy
    · rw [if_pos he, if_pos he]
      exact elLoading_units ha hb un m.Re m.Estar
    · rw [if_neg he, if_neg he]
      exact unloading_units ha hb un dm m.Re m.Estar Fm

theorem tangentialAsp_units (u u0 : ℝ) (f0 fn r : Flt) (G mu : ℝ) :
    tangentialAsp (a * u) (a * u0) (f0.map (b * ·)) (fn.map (b * ·)) (r.map (a * ·)) (b / a ^ 2 * G) mu
      = (tangentialAsp u u0 f0 fn r G mu).map (b * ·) := by
  cases f0 <;> cases fn <;> cases r <;> try rfl
  rename_i f0 fn r
  show some _ = some _
  congr 1
  rw [show 8 * (b / a ^ 2 * G) * (a * r) * (a * u - a * u0) + b * f0 = b * (8 * G * r * (u - u0) + f0) by field_simp,
    show mu * (b * fn) = b * (mu * fn) by ring, show -(b * (mu * fn)) = b * (-(mu * fn)) by ring, min_units hb, max_units hb]

omit ha hb in
theorem weighted_units (w : ℕ → ℝ) (f : ℕ → Flt) (n : ℕ) : weighted w (fun k => (f k).map (b * ·)) n = (weighted w f n).map (b * ·) := by
  induction n with
  | zero => simp [weighted]
  | succ n ih =>
    simp only [weighted, ih]
    cases weighted w f n <;> cases f n <;> simp
    ring

omit hb in
theorem unMax_units (Nt : ℕ) (u : ℕ → ℕ → ℝ) : unMax Nt (fun t d => a * u t d) = a * unMax Nt u := by
  unfold unMax
  generalize List.range Nt = l
  beta_reduce
  generalize u 0 2 = x
  induction l generalizing x with
  | nil => rfl
  | cons i l ih => rw [List.foldl_cons, List.foldl_cons, max_units ha, ih]

theorem rough_units (m : Mat) (g : Asperities) (Nt : ℕ) (u : ℕ → ℕ → ℝ) (u0 : ℕ → ℝ) (mu : ℝ) (reps : ℕ) :
    roughHistory (m.units a b) (g.units a) Nt (fun t d => a * u t d) (fun d => a * u0 d) mu reps
      = fun t d => (roughHistory m g Nt u u0 mu reps t d).map (b * ·) := by
  have hmax : ∀ k, cycleMax Nt (g.units a) (fun t d => a * u t d) k = a * cycleMax Nt g u k := fun k => by
    unfold cycleMax
    rw [unMax_units ha]
    show a * unMax Nt u - a * g.meso - a * g.gaps k = _
    ring
  have hFm : ∀ k, cycleFm (m.units a b) Nt (g.units a) (fun t d => a * u t d) k = (cycleFm m Nt g u k).map (b * ·) := fun k => by
    unfold cycleFm
    rw [hmax, show 0 - (g.units a).meso - (g.units a).gaps k = a * (0 - g.meso - g.gaps k) by
      show 0 - a * g.meso - a * g.gaps k = _
      ring, show (some 0 : Flt) = (some (0:ℝ)).map (b * ·) by simp, C128_asperity ha hb]
    simp [AspOut.units]
  let Rel : RoughHist → RoughHist → Prop := fun x y =>
    y = ⟨fun t d => (x.ft t d).map (b * ·), fun d => a * x.uxyn0 d, fun k d => (x.fxy0 k d).map (b * ·)⟩
  have step : ∀ x y i, i < Nt → Rel x y → Rel (roughBody m g u mu (cycleMax Nt g u) (cycleFm m Nt g u) x i)
      (roughBody (m.units a b) (g.units a) (fun t d => a * u t d) mu (cycleMax Nt (g.units a) (fun t d => a * u t d))
        (cycleFm (m.units a b) Nt (g.units a) (fun t d => a * u t d)) y i) := by
    rintro x _ i - rfl
    show roughBody _ _ _ _ _ _ _ _ = _
    have ho : ∀ k, unloading (a * u i 2 - (g.units a).meso - (g.units a).gaps k) (cycleMax Nt (g.units a) (fun t d => a * u t d) k)
        (cycleFm (m.units a b) Nt (g.units a) (fun t d => a * u t d) k) (m.units a b).Re (m.units a b).Estar
        = (unloading (u i 2 - g.meso - g.gaps k) (cycleMax Nt g u k) (cycleFm m Nt g u k) m.Re m.Estar).units a b := fun k => by
      rw [hmax, hFm, show a * u i 2 - (g.units a).meso - (g.units a).gaps k = a * (u i 2 - g.meso - g.gaps k) by
        show a * u i 2 - a * g.meso - a * g.gaps k = _
        ring]
      exact unloading_units ha hb _ _ _ _ _
    have ht : ∀ k d, tangentialAsp (a * u i d) (a * x.uxyn0 d) ((x.fxy0 k d).map (b * ·))
        ((unloading (u i 2 - g.meso - g.gaps k) (cycleMax Nt g u k) (cycleFm m Nt g u k) m.Re m.Estar).units a b).fn
        ((unloading (u i 2 - g.meso - g.gaps k) (cycleMax Nt g u k) (cycleFm m Nt g u k) m.Re m.Estar).units a b).a (m.units a b).Gstar mu
        = (tangentialAsp (u i d) (x.uxyn0 d) (x.fxy0 k d)
          (unloading (u i 2 - g.meso - g.gaps k) (cycleMax Nt g u k) (cycleFm m Nt g u k) m.Re m.Estar).fn
          (unloading (u i 2 - g.meso - g.gaps k) (cycleMax Nt g u k) (cycleFm m Nt g u k) m.Re m.Estar).a m.Gstar mu).map (b * ·) :=
      fun k d => tangentialAsp_units ha hb _ _ _ _ _ _ _
    unfold roughBody
    simp only [ho, ht]
    congr 1
    funext t d
    unfold setRow
    by_cases htt : t = i
    · simp only [htt, if_true]
      by_cases hd : d < 2
      · simp only [hd, if_true]
        exact weighted_units g.weights _ g.nasp
      · simp only [hd, if_false]
        exact weighted_units g.weights _ g.nasp
    · simp only [htt, if_false]
  have all : ∀ (l : List ℕ) x y, Rel x y →
      Rel (l.foldl (fun H _ => foriLoop (roughBody m g u mu (cycleMax Nt g u) (cycleFm m Nt g u)) Nt H) x)
        (l.foldl (fun H _ => foriLoop (roughBody (m.units a b) (g.units a) (fun t d => a * u t d) mu (cycleMax Nt (g.units a) (fun t d => a * u t d))
        (cycleFm (m.units a b) Nt (g.units a) (fun t d => a * u t d))) Nt H) y) := by
    intro l
    induction l with
    | nil => exact fun x y h => h
    | cons i l ih => exact fun x y h => ih _ _ (foriLoop_rel Rel _ _ Nt step h)
  unfold roughHistory
  have := all (List.range reps) ⟨fun _ _ => some 0, u0, fun _ _ => some 0⟩ ⟨fun _ _ => some 0, fun d => a * u0 d, fun _ _ => some 0⟩ (by
    show RoughHist.mk _ _ _ = _
    simp)
  exact congrArg RoughHist.ft this

/-- C128: rough contact with the tangential model `TAN`. -/
theorem C128_rough (h : List ℕ) (hA : Admissible h) (Nt : ℕ) (hNt : ∀ k ∈ h, 2*k + 1 < Nt) (heven : Even Nt) (c : ℝ) (hh : 1 < numCoeff h)
    (N : ℕ) (Q T : ℕ → ℕ → ℝ) (mt : Mat) (g : Asperities) (mu : ℝ) (u0 : ℕ → ℝ) :
    SameForce (.rough N Q T mt g mu u0) (.rough N Q T (mt.units a b) (g.units a) mu fun d => a * u0 d) N a b c h Nt := by
  refine sameForce_jax h hA Nt hNt heven a b c hh N 3 Q T (fun u _ t d => (roughHistory mt g u.rows u.val u0 mu 2 t d).getD 0)
    (fun u _ t d => (roughHistory (mt.units a b) (g.units a) u.rows u.val (fun d => a * u0 d) mu 2 t d).getD 0)
    (fun u z j _ d => ?_) _ _ (fun _ _ => rfl) (fun _ _ => rfl)
  have := congrFun (congrFun (rough_units ha hb mt g Nt u u0 mu 2) j) d
  show (roughHistory _ _ Nt (fun t d => a * u t d) _ mu 2 j d).getD 0 = b * (roughHistory mt g Nt u u0 mu 2 j d).getD 0
  rw [this]
  cases roughHistory mt g Nt u u0 mu 2 j d <;> simp

end

end TMD
