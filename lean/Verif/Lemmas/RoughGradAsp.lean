import Verif.Lemmas.RoughGradVal

/-!
# Derivatives of the asperity functions
-/

namespace TMD

open Spec Finset Filter Topology

noncomputable section

/-- `FTracks` with the value. -/
def FT (n K : ℕ) (M : ℕ → ℕ → ℝ) (X : ℕ → ℝ) (F : (ℕ → ℝ) → Flt) (x : FDual) (a : ℝ) : Prop :=
  FTracks n K M X F x ∧ x.v = some a

section

variable {n K : ℕ} {M : ℕ → ℕ → ℝ} {X : ℕ → ℝ} {F G : (ℕ → ℝ) → Flt} {x y : FDual} {a b : ℝ}

theorem FTracks.ft (h : FTracks n K M X F x) : ∃ a, FT n K M X F x a := by
  have h' := h
  obtain ⟨f, g, -, rfl, -⟩ := h'
  exact ⟨_, h, rfl⟩

theorem ft_const (c : ℝ) : FT n K M X (fun _ => fltNum.const c) (fdualNum.const c) c := ⟨ftracks_const c, rfl⟩

theorem ft_add (hx : FT n K M X F x a) (hy : FT n K M X G y b) :
    FT n K M X (fun U => fltNum.add (F U) (G U)) (fdualNum.add x y) (a + b) :=
  ⟨ftracks_add hx.1 hy.1, by rw [fdual_add, hx.2, hy.2, flt_add]⟩

theorem ft_sub (hx : FT n K M X F x a) (hy : FT n K M X G y b) :
    FT n K M X (fun U => fltNum.sub (F U) (G U)) (fdualNum.sub x y) (a - b) :=
  ⟨ftracks_sub hx.1 hy.1, by rw [fdual_sub, hx.2, hy.2, flt_sub]⟩

theorem ft_mul (hx : FT n K M X F x a) (hy : FT n K M X G y b) :
    FT n K M X (fun U => fltNum.mul (F U) (G U)) (fdualNum.mul x y) (a * b) :=
  ⟨ftracks_mul hx.1 hy.1, by rw [fdual_mul, hx.2, hy.2, flt_mul]⟩

theorem ft_div (hx : FT n K M X F x a) (hy : FT n K M X G y b) (hb : b ≠ 0) :
    FT n K M X (fun U => fltNum.div (F U) (G U)) (fdualNum.div x y) (a / b) :=
  ⟨ftracks_div hx.1 hy.1 hy.2 hb, by rw [fdual_div, hx.2, hy.2, flt_div _ hb]⟩

theorem ft_sqrt (hx : FT n K M X F x a) (ha : 0 < a) :
    FT n K M X (fun U => fltNum.sqrt (F U)) (fdualNum.sqrt x) (Real.sqrt a) :=
  ⟨ftracks_sqrt hx.1 hx.2 ha, by rw [fdual_sqrt, hx.2, flt_sqrt ha.le]⟩

theorem ft_exp (hx : FT n K M X F x a) : FT n K M X (fun U => fltNum.exp (F U)) (fdualNum.exp x) (Real.exp a) :=
  ⟨ftracks_exp hx.1, by rw [fdual_exp, hx.2, flt_exp]⟩

theorem ft_cos (hx : FT n K M X F x a) : FT n K M X (fun U => fltNum.cos (F U)) (fdualNum.cos x) (Real.cos a) :=
  ⟨ftracks_cos hx.1, by rw [fdual_cos, hx.2, flt_cos]⟩

theorem ft_pow {c : ℝ} (hx : FT n K M X F x a) (ha : 0 < a) (hc : 0 ≤ c) :
    FT n K M X (fun U => fltNum.pow c (F U)) (fdualNum.pow c x) (a ^ c) :=
  ⟨ftracks_pow c hx.1 hx.2 ha, by rw [fdual_pow, hx.2, flt_pow ha.le hc]⟩

theorem ft_cpow {c : ℝ} (hc : 0 < c) (hx : FT n K M X F x a) :
    FT n K M X (fun U => fltNum.cpow c (F U)) (fdualNum.cpow c x) (c ^ a) :=
  ⟨ftracks_cpow hc hx.1, by rw [fdual_cpow, hx.2, flt_cpow]⟩

theorem ft_sel_true {C : (ℕ → ℝ) → Prop} {c : Prop} (hc : c) (hC : Near n X C) (hx : FT n K M X F x a) :
    FT n K M X (fun U => fltNum.sel (C U) (F U) (G U)) (fdualNum.sel c x y) a :=
  ⟨ftracks_sel_true hc hC hx.1, by rw [fdual_sel, flt_sel_pos hc, hx.2]⟩

theorem ft_sel_false {C : (ℕ → ℝ) → Prop} {c : Prop} (hc : ¬ c) (hC : Near n X fun U => ¬ C U) (hy : FT n K M X G y a) :
    FT n K M X (fun U => fltNum.sel (C U) (F U) (G U)) (fdualNum.sel c x y) a :=
  ⟨ftracks_sel_false hc hC hy.1, by rw [fdual_sel, flt_sel_neg hc, hy.2]⟩

theorem FT.lt (h : FT n K M X F x a) {c : ℝ} (hac : a < c) : Near n X fun U => ltF (F U) c :=
  (h.1.lt h.2 hac).mono fun _ ⟨b, h1, h2⟩ => ⟨b, h1, h2⟩

theorem FT.gt (h : FT n K M X F x a) {c : ℝ} (hac : c < a) : Near n X fun U => gtF (F U) c :=
  (h.1.gt h.2 hac).mono fun _ ⟨b, h1, h2⟩ => ⟨b, h1, h2⟩

theorem ltF_not_gtF {z : Flt} {c d : ℝ} (h : ltF z c) (hcd : c ≤ d) : ¬ gtF z d := by
  rintro ⟨b, rfl, hb⟩
  obtain ⟨b', h1, h2⟩ := h
  obtain rfl := Option.some.inj h1
  linarith

theorem gtF_not_ltF {z : Flt} {c d : ℝ} (h : gtF z c) (hcd : d ≤ c) : ¬ ltF z d := by
  rintro ⟨b, rfl, hb⟩
  obtain ⟨b', h1, h2⟩ := h
  obtain rfl := Option.some.inj h1
  linarith

theorem gtF_geF {z : Flt} (h : gtF z 0) : geF z := by
  obtain ⟨b, h1, h2⟩ := h
  exact ⟨b, h1, h2.le⟩

theorem ltF_not_geF {z : Flt} (h : ltF z 0) : ¬ geF z := by
  rintro ⟨b, rfl, hb⟩
  obtain ⟨b', h1, h2⟩ := h
  obtain rfl := Option.some.inj h1
  linarith

theorem ft_pos (hx : FT n K M X F x a) (ha : 0 < a) : FT n K M X (fun U => gPos fltNum (F U)) (gPos fdualNum x) a :=
  ft_sel_true (by rw [fdual_val, hx.2]; exact (geF_some a).2 ha.le) ((hx.gt ha).mono fun _ h => gtF_geF h) hx

theorem ft_neg (hx : FT n K M X F x a) (ha : a < 0) : FT n K M X (fun U => gPos fltNum (F U)) (gPos fdualNum x) 0 :=
  ft_sel_false (by rw [fdual_val, hx.2, geF_some]; exact not_le.2 ha) ((hx.lt ha).mono fun _ h => ltF_not_geF h) (ft_const 0)

/-- `F` is zero near `X` and so is the pair. -/
def FZero (n : ℕ) (X : ℕ → ℝ) (F : (ℕ → ℝ) → Flt) (x : FDual) : Prop :=
  Near n X (fun U => F U = some 0) ∧ x = ⟨some 0, fun _ => some 0⟩

theorem FZero.ft (h : FZero n X F x) : FT n K M X F x 0 := by
  obtain ⟨h1, rfl⟩ := h
  exact ⟨(ftracks_const 0).near h1, rfl⟩

theorem fzero_const : FZero n X (fun _ => fltNum.const 0) (fdualNum.const 0) := ⟨Near.of_all fun _ => rfl, rfl⟩

/-! ## Elastic loading -/

theorem gEl_tracks {R : ℝ} (hR : 0 < R) (E : ℝ) (hx : FT n K M X F x a) (ha : 0 < a) :
    FTracks n K M X (fun U => (gEl fltNum R E (F U)).1) (gEl fdualNum R E x).1 ∧
    FTracks n K M X (fun U => (gEl fltNum R E (F U)).2) (gEl fdualNum R E x).2 := by
  have hp := ft_pos hx ha
  have hq := ft_div hp (ft_const 2) two_ne_zero
  refine ⟨(ft_mul (ft_const _) (ft_pow hq (by positivity) (by norm_num))).1, ?_⟩
  exact (ft_sel_true (by rw [fdual_val, hx.2]; exact (gtF_some a 0).2 ha) (hx.gt ha)
    (ft_sqrt (ft_mul (ft_const (2*R)) hq) (by positivity))).1

/-- Arithmetic of pairs. -/
theorem fdual_mul_some (a b : ℝ) (g g' : ℕ → ℝ) :
    fdualNum.mul ⟨some a, fun k => some (g k)⟩ ⟨some b, fun k => some (g' k)⟩ = ⟨some (a * b), fun k => some (g k * b + a * g' k)⟩ := rfl

theorem fdual_add_some (a b : ℝ) (g g' : ℕ → ℝ) :
    fdualNum.add ⟨some a, fun k => some (g k)⟩ ⟨some b, fun k => some (g' k)⟩ = ⟨some (a + b), fun k => some (g k + g' k)⟩ := rfl

theorem fdual_sub_some (a b : ℝ) (g g' : ℕ → ℝ) :
    fdualNum.sub ⟨some a, fun k => some (g k)⟩ ⟨some b, fun k => some (g' k)⟩ = ⟨some (a - b), fun k => some (g k - g' k)⟩ := rfl

theorem fdual_div_some {b : ℝ} (hb : b ≠ 0) (a : ℝ) (g g' : ℕ → ℝ) :
    fdualNum.div ⟨some a, fun k => some (g k)⟩ ⟨some b, fun k => some (g' k)⟩
      = ⟨some (a / b), fun k => some (g k / b + -1 * g' k * a * (1 / (b * b)))⟩ := by
  simp only [fdualNum, divF, mulF, addF, lift2_some, if_neg hb, if_neg (mul_ne_zero hb hb)]

theorem fdual_const_some (c : ℝ) : fdualNum.const c = ⟨some c, fun _ => some 0⟩ := rfl

theorem fdual_pow_zero {c : ℝ} (hc : 1 < c) (g : ℕ → ℝ) :
    fdualNum.pow c ⟨some 0, fun k => some (g k)⟩ = ⟨some 0, fun _ => some 0⟩ := by
  have e : ∀ e : ℝ, 0 < e → powF e (some 0) = some 0 := fun e he => by
    refine Eq.trans (flt_pow (c := e) le_rfl he.le) ?_
    rw [Real.zero_rpow he.ne']
  show (⟨powF c (some 0), fun k => mulF (some (g k)) (mulF (some c) (powF (c - 1) (some 0)))⟩ : FDual) = _
  rw [e c (by linarith), e (c - 1) (by linarith)]
  congr 1
  funext k
  show some (g k * (c * 0)) = some 0
  rw [mul_zero, mul_zero]

theorem fdual_sel_pos {c : Prop} (h : c) (x y : FDual) : fdualNum.sel c x y = x := if_pos h
theorem fdual_sel_neg {c : Prop} (h : ¬ c) (x y : FDual) : fdualNum.sel c x y = y := if_neg h

/-- Not in contact there is no force and no derivative, also when just touching. -/
theorem gEl_zero (R E : ℝ) (g : ℕ → ℝ) (ha : a ≤ 0) :
    gEl fdualNum R E ⟨some a, fun k => some (g k)⟩ = (⟨some 0, fun _ => some 0⟩, ⟨some 0, fun _ => some 0⟩) := by
  have hp : ∃ g' : ℕ → ℝ, gPos fdualNum ⟨some a, fun k => some (g k)⟩ = ⟨some 0, fun k => some (g' k)⟩ := by
    rcases lt_or_eq_of_le ha with h | h
    · exact ⟨fun _ => 0, fdual_sel_neg (fun h' => absurd ((geF_some a).1 h') (not_le.2 h)) _ _⟩
    · subst h
      exact ⟨g, fdual_sel_pos ((geF_some 0).2 le_rfl) _ _⟩
  obtain ⟨g', hp⟩ := hp
  unfold gEl
  simp only
  rw [hp, fdual_val, fdual_sel_neg (fun h' => absurd ((gtF_some a 0).1 h') (not_lt.2 ha)), fdual_const_some, fdual_const_some,
    fdual_div_some two_ne_zero, zero_div, fdual_pow_zero (by norm_num), fdual_const_some, fdual_mul_some]
  simp only [mul_zero, add_zero]

theorem gEl_open {R : ℝ} (hR : 0 < R) (E : ℝ) (hx : FT n K M X F x a) (ha : a < 0) :
    FZero n X (fun U => (gEl fltNum R E (F U)).1) (gEl fdualNum R E x).1 ∧
    FZero n X (fun U => (gEl fltNum R E (F U)).2) (gEl fdualNum R E x).2 := by
  have hnear : Near n X fun U => (gEl fltNum R E (F U)).1 = some 0 ∧ (gEl fltNum R E (F U)).2 = some 0 := by
    refine (hx.lt ha).mono fun U hU => ?_
    obtain ⟨z, h1, h2⟩ := hU
    rw [h1, (gEl_flt hR E z).1, (gEl_flt hR E z).2, elLoading_fn, elLoading_a, if_neg (not_lt.2 h2.le)]
    unfold hertz
    rw [if_neg (not_lt.2 h2.le)]
    exact ⟨rfl, rfl⟩
  obtain ⟨⟨f, g, -, rfl, -⟩, hv⟩ := hx
  obtain rfl := Option.some.inj hv
  rw [gEl_zero R E g ha.le]
  exact ⟨⟨hnear.mono fun U hU => hU.1, rfl⟩, ⟨hnear.mono fun U hU => hU.2, rfl⟩⟩

/-! ## Plastic loading -/

theorem gPlRadius_tracks {m : Mat} (h : m.Fine) (hx : FT n K M X F x a) (ha : 0 < a) :
    FTracks n K M X (fun U => gPlRadius fltNum m (F U)) (gPlRadius fdualNum m x) := by
  have h1 := h.Re; have h2 := h.dy; have h3 := h.Emod
  have hp := ft_pos hx ha
  have hae := ft_sqrt (ft_mul (ft_const (n := n) (K := K) (M := M) (X := X) (2*m.Re)) (ft_div hp (ft_const 2) two_ne_zero))
    (by positivity)
  have hq := ft_div hp (ft_const m.dy) h2.ne'
  have hB : (0 : ℝ) ≤ 0.14*Real.exp (23*m.Sys/(2*m.Estar)) := by positivity
  have hpw := ft_pow (c := 0.14*Real.exp (23*m.Sys/(2*m.Estar))) (ft_div hq (ft_const 1.9) (by norm_num)) (by positivity) hB
  have hap := ft_mul (ft_const ((2*m.Re)*(Real.pi*m.C*m.Sys/(2*2*m.Estar)))) (ft_sqrt (ft_mul hq hpw)
    (mul_pos (by positivity) (Real.rpow_pos_of_pos (by positivity) _)))
  unfold gPlRadius
  simp only
  split
  · exact (ft_add hae (ft_mul (ft_sub hap hae) (ft_exp (ft_const 0)))).1
  · rename_i he
    have hb : 0 < m.Etan / m.Emod := lt_of_lt_of_le (by positivity) (not_lt.1 he)
    exact (ft_add hae (ft_mul (ft_sub hap hae) (ft_exp (ft_div (ft_mul (ft_const _) (ft_cpow hb (ft_sub (ft_const 1) (ft_div (ft_div (ft_sub hp (ft_const m.dy)) (ft_const 2)
      two_ne_zero) (ft_const (m.Re*2)) (by positivity))))) (ft_const _) (upsilon_den h))))).1

theorem gPl_tracks {m : Mat} (h : m.Fine) (hx : FT n K M X F x a) (ha : 0 < a) :
    FTracks n K M X (fun U => (gPl fltNum m (F U)).1) (gPl fdualNum m x).1 ∧
    FTracks n K M X (fun U => (gPl fltNum m (F U)).2) (gPl fdualNum m x).2 := by
  have h1 := h.Re; have h2 := h.dy
  obtain ⟨r, hr⟩ := (gPlRadius_tracks h hx ha).ft
  have hp := ft_pos hx ha
  have hq := ft_div hp (ft_const m.dy) h2.ne'
  have hq0 : 0 < a / m.dy := by positivity
  have hH := ft_sub (ft_const 2.84) (ft_mul (ft_const 0.92) (ft_sub (ft_const 1)
    (ft_cos (ft_div (ft_mul (ft_const Real.pi) hr) (ft_const (2*m.Re)) (by positivity)))))
  have hFe := ft_mul (ft_const (4*(2*m.Estar)*Real.sqrt (2*m.Re)/3)) (ft_pow (c := 1.5) (ft_div hx (ft_const 2) two_ne_zero)
    (by positivity) (by norm_num))
  have hFp := ft_mul (ft_const (4/3*(2*m.Re/(2*m.Estar))^2*(m.C*Real.pi*m.Sys/2)^3)) (ft_add
    (ft_mul (ft_exp (ft_mul (ft_const (-0.25)) (ft_pow (c := 5/12) hq hq0 (by norm_num)))) (ft_pow (c := 1.5) hq hq0 (by norm_num)))
    (ft_mul (ft_mul (ft_div (ft_mul (ft_const 4) hH) (ft_const m.C) m.C_pos.ne')
      (ft_sub (ft_const 1) (ft_exp (ft_mul (ft_const (-1/25)) (ft_pow (c := 5/9) hq hq0 (by norm_num)))))) hq))
  exact ⟨(ft_add hFp (ft_mul (ft_sub hFe hFp) (ft_const _))).1, hr.1⟩

/-! ## Unloading -/

section unl

variable {Fd Ff : (ℕ → ℝ) → Flt} {xd xf : FDual} {dm f : ℝ} {R E : ℝ}

/-- Without contact there is neither force nor area. -/
theorem gUnl_off_flt (un d F : Flt) (h : ¬ gtF (gPos fltNum (fltNum.sub un (fltNum.mul d (fltNum.sub (fltNum.const 1)
      (fltNum.div F (fltNum.mul (fltNum.const (4/3*E*Real.sqrt R)) (fltNum.pow 1.5 d))))))) 0) :
    gUnl fltNum R E un d F = (some 0, some 0) := by
  unfold gUnl
  simp only
  rw [flt_val, flt_sel_neg h, flt_sel_neg h, flt_const]

theorem gUnl_off_dual (un d F : FDual) (h : ¬ gtF (gPos fdualNum (fdualNum.sub un (fdualNum.mul d (fdualNum.sub (fdualNum.const 1)
      (fdualNum.div F (fdualNum.mul (fdualNum.const (4/3*E*Real.sqrt R)) (fdualNum.pow 1.5 d))))))).v 0) :
    gUnl fdualNum R E un d F = (⟨some 0, fun _ => some 0⟩, ⟨some 0, fun _ => some 0⟩) := by
  unfold gUnl
  simp only
  rw [fdual_val, fdual_sel_neg h, fdual_sel_neg h, fdual_const_some]

theorem gPos_off {z : Flt} (h : ∀ c, z = some c → c ≤ 0) : ¬ gtF (gPos fltNum z) 0 := by
  cases z with
  | none => rw [gPos_none, gtF_some]; exact lt_irrefl 0
  | some c => rw [gPos_some, gtF_some, posPart_of_nonpos (h c rfl)]; exact lt_irrefl 0

theorem pow_neg_none {c z : ℝ} (h : z < 0) : fltNum.pow c (some z) = none := if_pos (Or.inl h)

theorem deltabar_none {un F : Flt} {z : ℝ} (h : z ≤ 0) : fltNum.sub un (fltNum.mul (some z) (fltNum.sub (fltNum.const 1)
      (fltNum.div F (fltNum.mul (fltNum.const (4/3*E*Real.sqrt R)) (fltNum.pow 1.5 (some z)))))) = none := by
  have e : fltNum.div F (fltNum.mul (fltNum.const (4/3*E*Real.sqrt R)) (fltNum.pow 1.5 (some z))) = none := by
    rcases lt_or_eq_of_le h with h | h
    · rw [pow_neg_none h]
      cases F <;> rfl
    · subst h
      rw [flt_pow le_rfl (by norm_num), Real.zero_rpow (by norm_num), flt_const, flt_mul, mul_zero]
      cases F with
      | none => rfl
      | some F => exact if_pos rfl
  rw [e]
  cases un <;> rfl

/-- An asperity that was never touched. -/
theorem gUnl_never_dual (un : FDual) (g : ℕ → ℝ) (F : FDual) {z : ℝ} (h : z ≤ 0) :
    gUnl fdualNum R E un ⟨some z, fun k => some (g k)⟩ F = (⟨some 0, fun _ => some 0⟩, ⟨some 0, fun _ => some 0⟩) := by
  refine gUnl_off_dual _ _ _ ?_
  rw [gPos_v, fdual_sub, fdual_mul, fdual_sub, fdual_div, fdual_mul, fdual_pow, fdual_const, fdual_const, deltabar_none h]
  exact gPos_off fun c hc => by cases hc

theorem gUnl_never (Fu : (ℕ → ℝ) → Flt) (xu : FDual) (Ff : (ℕ → ℝ) → Flt) (xf : FDual) (hd : FT n K M X Fd xd dm) (h : dm < 0) :
    FZero n X (fun U => (gUnl fltNum R E (Fu U) (Fd U) (Ff U)).1) (gUnl fdualNum R E xu xd xf).1 ∧
    FZero n X (fun U => (gUnl fltNum R E (Fu U) (Fd U) (Ff U)).2) (gUnl fdualNum R E xu xd xf).2 := by
  have hnear : Near n X fun U => gUnl fltNum R E (Fu U) (Fd U) (Ff U) = (some 0, some 0) := by
    refine (hd.lt h).mono fun U hU => ?_
    obtain ⟨z, h1, h2⟩ := hU
    rw [h1]
    refine gUnl_off_flt _ _ _ ?_
    rw [deltabar_none h2.le]
    exact gPos_off fun c hc => by cases hc
  obtain ⟨⟨f, g, -, rfl, -⟩, hv⟩ := hd
  obtain rfl := Option.some.inj hv
  rw [gUnl_never_dual xu g xf h.le]
  exact ⟨⟨hnear.mono fun U hU => by beta_reduce; rw [hU], rfl⟩, ⟨hnear.mono fun U hU => by beta_reduce; rw [hU], rfl⟩⟩

variable (hR : 0 < R) (hE : 0 < E) (hx : FT n K M X F x a) (hd : FT n K M X Fd xd dm) (hf : FT n K M X Ff xf f)
  (hdm : 0 < dm) (hf0 : 0 < f)

include hR hE hd hf hdm in
/-- Distance from the permanent deformation. -/
theorem ft_deltabar : FT n K M X (fun U => fltNum.mul (Fd U) (fltNum.sub (fltNum.const 1) (fltNum.div (Ff U)
      (fltNum.mul (fltNum.const (4/3*E*Real.sqrt R)) (fltNum.pow 1.5 (Fd U))))))
    (fdualNum.mul xd (fdualNum.sub (fdualNum.const 1) (fdualNum.div xf
      (fdualNum.mul (fdualNum.const (4/3*E*Real.sqrt R)) (fdualNum.pow 1.5 xd)))))
    (dm*(1 - f/(4/3*E*Real.sqrt R*dm^(1.5 : ℝ)))) := by
  have hs := Real.sqrt_pos.2 hR
  have hp : 0 < dm^(1.5 : ℝ) := Real.rpow_pos_of_pos hdm _
  exact ft_mul hd (ft_sub (ft_const 1) (ft_div hf (ft_mul (ft_const _) (ft_pow hd hdm (by norm_num))) (by positivity)))

include hR hE hx hd hf hdm in
theorem gUnl_released (hlt : a < dm*(1 - f/(4/3*E*Real.sqrt R*dm^(1.5 : ℝ)))) :
    FZero n X (fun U => (gUnl fltNum R E (F U) (Fd U) (Ff U)).1) (gUnl fdualNum R E x xd xf).1 ∧
    FZero n X (fun U => (gUnl fltNum R E (F U) (Fd U) (Ff U)).2) (gUnl fdualNum R E x xd xf).2 := by
  have hs := ft_sub hx (ft_deltabar hR hE hd hf hdm)
  have hneg : a - dm*(1 - f/(4/3*E*Real.sqrt R*dm^(1.5 : ℝ))) < 0 := by linarith
  have hnear : Near n X fun U => gUnl fltNum R E (F U) (Fd U) (Ff U) = (some 0, some 0) := by
    refine (hs.lt hneg).mono fun U hU => ?_
    obtain ⟨z, h1, h2⟩ := hU
    refine gUnl_off_flt _ _ _ ?_
    rw [h1]
    exact gPos_off fun c hc => by obtain rfl := Option.some.inj hc; exact h2.le
  have hdual : gUnl fdualNum R E x xd xf = (⟨some 0, fun _ => some 0⟩, ⟨some 0, fun _ => some 0⟩) := by
    refine gUnl_off_dual _ _ _ ?_
    rw [gPos_v, hs.2]
    exact gPos_off fun c hc => by obtain rfl := Option.some.inj hc; exact hneg.le
  rw [hdual]
  exact ⟨⟨hnear.mono fun U hU => by beta_reduce; rw [hU], rfl⟩, ⟨hnear.mono fun U hU => by beta_reduce; rw [hU], rfl⟩⟩

include hR hE hx hd hf hdm hf0 in
theorem gUnl_contact (hgt : dm*(1 - f/(4/3*E*Real.sqrt R*dm^(1.5 : ℝ))) < a) :
    FTracks n K M X (fun U => (gUnl fltNum R E (F U) (Fd U) (Ff U)).1) (gUnl fdualNum R E x xd xf).1 ∧
    FTracks n K M X (fun U => (gUnl fltNum R E (F U) (Fd U) (Ff U)).2) (gUnl fdualNum R E x xd xf).2 := by
  have hb := ft_deltabar hR hE hd hf hdm
  have hs := ft_sub hx hb
  have hpos : 0 < a - dm*(1 - f/(4/3*E*Real.sqrt R*dm^(1.5 : ℝ))) := by linarith
  have hm := ft_sub hd hb
  have hmpos : 0 < dm - dm*(1 - f/(4/3*E*Real.sqrt R*dm^(1.5 : ℝ))) := by
    rw [unl_deltabar hR hE hdm]
    have := Real.sqrt_pos.2 hR
    have := Real.sqrt_pos.2 hdm
    positivity
  have hp := ft_pos hs hpos
  have hpm := ft_pos hm hmpos
  have hRb := ft_div (ft_mul hf hf) (ft_mul (ft_const ((4/3*E)^2)) (ft_mul (ft_mul hpm hpm) hpm)) (by positivity)
  have hRpos : 0 < f * f / ((4/3*E)^2 * ((dm - dm*(1 - f/(4/3*E*Real.sqrt R*dm^(1.5 : ℝ)))) *
      (dm - dm*(1 - f/(4/3*E*Real.sqrt R*dm^(1.5 : ℝ)))) * (dm - dm*(1 - f/(4/3*E*Real.sqrt R*dm^(1.5 : ℝ)))))) := by positivity
  have hc : gtF (fdualNum.val (gPos fdualNum (fdualNum.sub x (fdualNum.mul xd (fdualNum.sub (fdualNum.const 1) (fdualNum.div xf
      (fdualNum.mul (fdualNum.const (4/3*E*Real.sqrt R)) (fdualNum.pow 1.5 xd)))))))) 0 := by
    rw [fdual_val, hp.2]
    exact (gtF_some _ _).2 hpos
  exact ⟨(ft_sel_true hc (hp.gt hpos) (ft_mul (ft_mul (ft_const _) (ft_sqrt hRb hRpos)) (ft_pow hp hpos (by norm_num)))).1,
    (ft_sel_true hc (hp.gt hpos) (ft_sqrt (ft_mul hRb hp) (mul_pos hRpos hpos))).1⟩

end unl

/-! ## Friction -/

theorem gTan_off {Fu Fu0 Ff0 Fn Fa : (ℕ → ℝ) → Flt} {xu xu0 xf0 xn xa : FDual} {u u0 : ℝ} (G mu : ℝ) (hu : FT n K M X Fu xu u)
    (hu0 : FT n K M X Fu0 xu0 u0) (hf0 : FZero n X Ff0 xf0) (hn : FZero n X Fn xn) (ha : FZero n X Fa xa) :
    FZero n X (fun U => gTan fltNum G mu (Fu U) (Fu0 U) (Ff0 U) (Fn U) (Fa U)) (gTan fdualNum G mu xu xu0 xf0 xn xa) := by
  obtain ⟨⟨f1, g1, h1, rfl, -⟩, -⟩ := hu
  obtain ⟨⟨f2, g2, h2, rfl, -⟩, -⟩ := hu0
  obtain ⟨k1, rfl⟩ := hf0
  obtain ⟨k2, rfl⟩ := hn
  obtain ⟨k3, rfl⟩ := ha
  constructor
  · refine (((h1.and h2).and (k1.and k2)).and k3).mono fun U hU => ?_
    beta_reduce
    rw [hU.1.1.1, hU.1.1.2, hU.1.2.1, hU.1.2.2, hU.2]
    unfold gTan
    simp only [flt_const, flt_mul, flt_add, flt_sub, flt_min, flt_max, mul_zero, zero_mul, add_zero, min_self, max_self]
  · unfold gTan
    simp only [fdual_const_some, fdual_mul_some, fdual_sub_some, fdual_add_some, mul_zero, zero_mul, add_zero]
    simp only [fdualNum, minF, maxF, mulF, addF, balF, lift2_some, Option.bind_some, min_self, max_self, zero_mul, add_zero]

/-- With the limit zero nearby the force vanishes, if it would not without the limit. -/
theorem gTan_limit {Fu Fu0 Ff0 Fn Fa : (ℕ → ℝ) → Flt} {xu xu0 xf0 xn xa : FDual} {p G mu : ℝ}
    (hp : FT n K M X (fun U => fltNum.add (fltNum.mul (fltNum.mul (fltNum.const (8*G)) (Fa U)) (fltNum.sub (Fu U) (Fu0 U))) (Ff0 U))
      (fdualNum.add (fdualNum.mul (fdualNum.mul (fdualNum.const (8*G)) xa) (fdualNum.sub xu xu0)) xf0) p)
    (hLz : FZero n X (fun U => fltNum.mul (fltNum.const mu) (Fn U)) (fdualNum.mul (fdualNum.const mu) xn)) (hp0 : p ≠ 0) :
    FZero n X (fun U => gTan fltNum G mu (Fu U) (Fu0 U) (Ff0 U) (Fn U) (Fa U)) (gTan fdualNum G mu xu xu0 xf0 xn xa) := by
  obtain ⟨⟨fp, gp, h1, h2, -, h4⟩, hv⟩ := hp
  unfold gTan
  simp only
  rw [hLz.2, h2]
  rw [h2] at hv
  obtain rfl := Option.some.inj hv
  refine ⟨?_, ?_⟩
  · refine (h1.and hLz.1).mono fun U hU => ?_
    obtain ⟨e1, e2⟩ := hU
    beta_reduce at e1 e2 ⊢
    rw [e1, e2, flt_min, flt_const, flt_mul, flt_max]
    congr 1
    rw [mul_zero, max_eq_right (min_le_right _ _)]
  · rw [fdual_const_some, fdual_mul_some]
    simp only [mul_zero, add_zero]
    rcases lt_or_gt_of_ne hp0 with hl | hl
    · rw [fdual_min_left gp (fun _ => 0) hl, fdual_max_right gp (fun _ => 0) hl]
    · rw [fdual_min_right gp (fun _ => 0) hl]
      simp only [fdualNum, maxF, mulF, addF, balF, lift2_some, Option.bind_some, max_self, zero_mul, add_zero]

/-- Away from the friction limit. -/
theorem gTan_tracks {Fu Fu0 Ff0 Fn Fa : (ℕ → ℝ) → Flt} {xu xu0 xf0 xn xa : FDual} {u u0 f0 fn ca : ℝ} {G mu : ℝ}
    (hmu : 0 ≤ mu) (hfn : 0 ≤ fn) (hu : FT n K M X Fu xu u) (hu0 : FT n K M X Fu0 xu0 u0) (hf0 : FT n K M X Ff0 xf0 f0)
    (hn : FT n K M X Fn xn fn) (ha : FT n K M X Fa xa ca) (hz : fn = 0 → FZero n X Fn xn)
    (hne : |8*G*ca*(u - u0) + f0| ≠ mu*fn) :
    FTracks n K M X (fun U => gTan fltNum G mu (Fu U) (Fu0 U) (Ff0 U) (Fn U) (Fa U)) (gTan fdualNum G mu xu xu0 xf0 xn xa) := by
  have hp := ft_add (ft_mul (ft_mul (ft_const (8*G)) ha) (ft_sub hu hu0)) hf0
  have hL := ft_mul (ft_const mu) hn
  have hL' := ft_mul (ft_const (-1)) hL
  generalize 8*G*ca*(u - u0) + f0 = p at hne hp
  have hL0 : 0 ≤ mu * fn := mul_nonneg hmu hfn
  rcases lt_or_eq_of_le hL0 with hlt | heq
  · have hne1 : p ≠ mu * fn := fun e => hne (by rw [e, abs_of_pos hlt])
    have hne2 : p ≠ -(mu * fn) := fun e => hne (by rw [e, abs_neg, abs_of_pos hlt])
    have hmin := ftracks_min hp.1 hL.1 (by rw [hp.2, hL.2]; exact fun e => hne1 (Option.some.inj e))
    refine ftracks_max hmin hL'.1 ?_
    rw [fdual_min, hp.2, hL.2, hL'.2, flt_min]
    intro e
    have e' := Option.some.inj e
    rcases min_choice p (mu * fn) with h | h
    · rw [h] at e'; exact hne2 (by linarith)
    · rw [h] at e'; linarith
  · rw [← heq] at hne
    have hp0 : p ≠ 0 := fun e => hne (by rw [e, abs_zero])
    have hLz : FZero n X (fun U => fltNum.mul (fltNum.const mu) (Fn U)) (fdualNum.mul (fdualNum.const mu) xn) := by
      rcases mul_eq_zero.1 heq.symm with h | h
      · subst h
        obtain ⟨⟨f, g, h1, rfl, -⟩, -⟩ := hn
        refine ⟨h1.mono fun U hU => by beta_reduce; rw [hU, flt_const, flt_mul, zero_mul], ?_⟩
        simp only [fdual_const_some, fdual_mul_some, zero_mul, add_zero]
      · obtain ⟨h1, rfl⟩ := hz h
        refine ⟨h1.mono fun U hU => by beta_reduce; rw [hU, flt_const, flt_mul, mul_zero], ?_⟩
        simp only [fdual_const_some, fdual_mul_some, mul_zero, add_zero]
    exact (gTan_limit hp hLz hp0).ft.1

end

end

end TMD
