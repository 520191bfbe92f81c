import Verif.Model.RoughGrad
import Verif.Lemmas.JaxGrad
import Mathlib.Analysis.SpecialFunctions.Pow.Deriv
import Mathlib.Analysis.SpecialFunctions.Sqrt
import Mathlib.Analysis.SpecialFunctions.Trigonometric.Deriv

/-!
# Derivatives of programs whose values may be NaN
-/

namespace TMD

open Spec Finset Filter Topology

noncomputable section

@[simp] theorem lift1_some (f : ℝ → Flt) (a : ℝ) : lift1 f (some a) = f a := rfl
@[simp] theorem lift1_none (f : ℝ → Flt) : lift1 f none = none := rfl
@[simp] theorem lift2_some (f : ℝ → ℝ → Flt) (a b : ℝ) : lift2 f (some a) (some b) = f a b := rfl
@[simp] theorem lift2_none_left (f : ℝ → ℝ → Flt) (y : Flt) : lift2 f none y = none := rfl
@[simp] theorem lift2_none_right (f : ℝ → ℝ → Flt) (x : Flt) : lift2 f x none = none := by cases x <;> rfl

/-- `P` holds near `X`, when the first `n` entries move. -/
def Near (n : ℕ) (X : ℕ → ℝ) (P : (ℕ → ℝ) → Prop) : Prop := ∀ᶠ v in 𝓝 (0 : Fin n → ℝ), P fun i => X i + ext v i

section near

variable {n : ℕ} {X : ℕ → ℝ} {P P' : (ℕ → ℝ) → Prop}

theorem Near.self (h : Near n X P) : P X := by
  have := h.self_of_nhds
  simpa using this

theorem Near.mono (h : Near n X P) (hP : ∀ U, P U → P' U) : Near n X P' := Eventually.mono h fun _ => hP _

theorem Near.and (h : Near n X P) (h' : Near n X P') : Near n X fun U => P U ∧ P' U := Eventually.and h h'

theorem Near.of_all (h : ∀ U, P U) : Near n X P := Eventually.of_forall fun _ => h _

theorem near_lt {f : (ℕ → ℝ) → ℝ} {g : ℕ → ℝ} (hf : HasGrad n f g X) {c : ℝ} (h : f X < c) : Near n X fun U => f U < c :=
  (hasGrad_tendsto hf).eventually (gt_mem_nhds h)

theorem near_gt {f : (ℕ → ℝ) → ℝ} {g : ℕ → ℝ} (hf : HasGrad n f g X) {c : ℝ} (h : c < f X) : Near n X fun U => c < f U :=
  (hasGrad_tendsto hf).eventually (lt_mem_nhds h)

theorem near_all {m : ℕ} {P : ℕ → (ℕ → ℝ) → Prop} (h : ∀ k < m, Near n X (P k)) : Near n X fun U => ∀ k < m, P k U := by
  induction m with
  | zero => exact Near.of_all fun U k hk => absurd hk (Nat.not_lt_zero k)
  | succ m ih =>
    refine ((ih fun k hk => h k (by omega)).and (h m (by omega))).mono fun U hU k hk => ?_
    rcases Nat.lt_succ_iff_lt_or_eq.1 hk with h1 | h1
    · exact hU.1 k h1
    · exact h1 ▸ hU.2

end near

/-- At `X` the pair `x` holds the value of `F`, which is finite nearby, and after the linear change of variables `M` its
gradient; it does not depend on the entry `K` of the argument. -/
def FTracks (n K : ℕ) (M : ℕ → ℕ → ℝ) (X : ℕ → ℝ) (F : (ℕ → ℝ) → Flt) (x : FDual) : Prop :=
  ∃ (f : (ℕ → ℝ) → ℝ) (g : ℕ → ℝ), Near n X (fun U => F U = some (f U)) ∧ x = ⟨some (f X), fun k => some (g k)⟩ ∧ g K = 0 ∧
    HasGrad n f (fun q => ∑ k ∈ range K, g k * M k q) X

section tracks

variable {n K : ℕ} {M : ℕ → ℕ → ℝ} {X : ℕ → ℝ} {F F' G : (ℕ → ℝ) → Flt} {x y : FDual}

theorem FTracks.val (h : FTracks n K M X F x) : F X = x.v := by
  obtain ⟨f, g, h1, rfl, -⟩ := h
  exact h1.self

theorem FTracks.near (h : FTracks n K M X F x) (h' : Near n X fun U => F' U = F U) : FTracks n K M X F' x := by
  obtain ⟨f, g, h1, h2, h3, h4⟩ := h
  exact ⟨f, g, (h1.and h').mono fun U hU => hU.2.trans hU.1, h2, h3, h4⟩

theorem FTracks.lt (h : FTracks n K M X F x) {a c : ℝ} (hv : x.v = some a) (hac : a < c) :
    Near n X fun U => ∃ b, F U = some b ∧ b < c := by
  obtain ⟨f, g, h1, rfl, -, h4⟩ := h
  obtain rfl := Option.some.inj hv
  exact (h1.and (near_lt h4 hac)).mono fun U hU => ⟨_, hU.1, hU.2⟩

theorem FTracks.gt (h : FTracks n K M X F x) {a c : ℝ} (hv : x.v = some a) (hac : c < a) :
    Near n X fun U => ∃ b, F U = some b ∧ c < b := by
  obtain ⟨f, g, h1, rfl, -, h4⟩ := h
  obtain rfl := Option.some.inj hv
  exact (h1.and (near_gt h4 hac)).mono fun U hU => ⟨_, hU.1, hU.2⟩

theorem ftracks_const (c : ℝ) : FTracks n K M X (fun _ => fltNum.const c) (fdualNum.const c) :=
  ⟨fun _ => c, fun _ => 0, Near.of_all fun _ => rfl, rfl, rfl, (HasGrad.const c).congr fun q _ => by simp⟩

theorem ftracks_of {f : (ℕ → ℝ) → ℝ} {z : Dual} (h : Tracks n K M X f z) (h0 : z.d K = 0) :
    FTracks n K M X (fun U => some (f U)) (FDual.of z) :=
  ⟨f, z.d, Near.of_all fun _ => rfl, by rw [h.1]; rfl, h0, h.2⟩

theorem FTracks.real (h : FTracks n K M X F x) : Tracks n K M X (fun U => (F U).getD 0) x.real ∧ x.real.d K = 0 := by
  obtain ⟨f, g, h1, rfl, h3, h4⟩ := h
  refine ⟨⟨by beta_reduce; rw [h1.self]; rfl, ?_⟩, h3⟩
  refine hasGrad_near h4 (Eventually.mono h1 fun v hv => ?_)
  rw [hv]
  rfl

theorem ftracks_add (hx : FTracks n K M X F x) (hy : FTracks n K M X G y) :
    FTracks n K M X (fun U => fltNum.add (F U) (G U)) (fdualNum.add x y) := by
  obtain ⟨f, g, h1, rfl, h3, h4⟩ := hx
  obtain ⟨f', g', k1, rfl, k3, k4⟩ := hy
  refine ⟨fun U => f U + f' U, fun k => g k + g' k, (h1.and k1).mono fun U hU => by beta_reduce; rw [hU.1, hU.2]; rfl, rfl, by simp [h3, k3],
    (HasGrad.add h4 k4).congr fun q _ => ?_⟩
  rw [← sum_add_distrib]
  exact sum_congr rfl fun k _ => by ring

theorem ftracks_sub (hx : FTracks n K M X F x) (hy : FTracks n K M X G y) :
    FTracks n K M X (fun U => fltNum.sub (F U) (G U)) (fdualNum.sub x y) := by
  obtain ⟨f, g, h1, rfl, h3, h4⟩ := hx
  obtain ⟨f', g', k1, rfl, k3, k4⟩ := hy
  refine ⟨fun U => f U - f' U, fun k => g k - g' k, (h1.and k1).mono fun U hU => by beta_reduce; rw [hU.1, hU.2]; rfl, rfl, by simp [h3, k3],
    (HasGrad.sub h4 k4).congr fun q _ => ?_⟩
  rw [← sum_sub_distrib]
  exact sum_congr rfl fun k _ => by ring

theorem ftracks_mul (hx : FTracks n K M X F x) (hy : FTracks n K M X G y) :
    FTracks n K M X (fun U => fltNum.mul (F U) (G U)) (fdualNum.mul x y) := by
  obtain ⟨f, g, h1, rfl, h3, h4⟩ := hx
  obtain ⟨f', g', k1, rfl, k3, k4⟩ := hy
  refine ⟨fun U => f U * f' U, fun k => g k * f' X + f X * g' k, (h1.and k1).mono fun U hU => by beta_reduce; rw [hU.1, hU.2]; rfl, rfl,
    by simp [h3, k3], (HasGrad.mul h4 k4).congr fun q _ => ?_⟩
  rw [mul_sum, mul_sum, ← sum_add_distrib]
  exact sum_congr rfl fun k _ => by ring

/-- A function of one argument. -/
theorem ftracks_map {φ : ℝ → Flt} {ψ : ℝ → ℝ} {a c : ℝ} (hx : FTracks n K M X F x) (hv : x.v = some a)
    (hφ : ∀ᶠ z in 𝓝 a, φ z = some (ψ z)) (hd : HasDerivAt ψ c a) {x' : FDual}
    (h' : ∀ g : ℕ → ℝ, x = ⟨some a, fun k => some (g k)⟩ → x' = ⟨some (ψ a), fun k => some (g k * c)⟩) :
    FTracks n K M X (fun U => lift1 φ (F U)) x' := by
  obtain ⟨f, g, h1, rfl, h3, h4⟩ := hx
  obtain rfl := Option.some.inj hv
  refine ⟨fun U => ψ (f U), fun k => g k * c, ?_, h' g rfl, by simp [h3], (HasGrad.comp_deriv h4 hd).congr fun q _ => ?_⟩
  · have ht : Near n X fun U => φ (f U) = some (ψ (f U)) := (hasGrad_tendsto h4).eventually hφ
    exact (h1.and ht).mono fun U hU => by beta_reduce; rw [hU.1]; exact hU.2
  · rw [mul_sum]
    exact sum_congr rfl fun k _ => by ring

theorem ftracks_div (hx : FTracks n K M X F x) (hy : FTracks n K M X G y) {b : ℝ} (hv : y.v = some b) (hb : b ≠ 0) :
    FTracks n K M X (fun U => fltNum.div (F U) (G U)) (fdualNum.div x y) := by
  obtain ⟨f, g, h1, rfl, h3, h4⟩ := hx
  obtain ⟨f', g', k1, rfl, k3, k4⟩ := hy
  obtain rfl := Option.some.inj hv
  have hinv := HasGrad.comp_deriv k4 (hasDerivAt_inv hb)
  refine ⟨fun U => f U * (f' U)⁻¹, fun k => g k / f' X + -1 * g' k * f X * (1 / (f' X * f' X)), ?_, ?_, by simp [h3, k3],
    (HasGrad.mul h4 hinv).congr fun q _ => ?_⟩
  · have ht : Near n X fun U => f' U ≠ 0 := (hasGrad_tendsto k4).eventually (isOpen_ne.mem_nhds hb)
    refine ((h1.and k1).and ht).mono fun U hU => ?_
    beta_reduce
    rw [hU.1.1, hU.1.2]
    show (if f' U = 0 then none else some (f U / f' U)) = _
    rw [if_neg hU.2, div_eq_mul_inv]
  · simp only [fdualNum, divF, mulF, addF, lift2_some, if_neg hb, if_neg (mul_ne_zero hb hb), div_eq_mul_inv]
  · rw [mul_sum, mul_sum, mul_sum, ← sum_add_distrib]
    refine sum_congr rfl fun k _ => ?_
    field_simp
    ring

theorem ftracks_sqrt (hx : FTracks n K M X F x) {a : ℝ} (hv : x.v = some a) (ha : 0 < a) :
    FTracks n K M X (fun U => fltNum.sqrt (F U)) (fdualNum.sqrt x) := by
  have hs := Real.sqrt_pos.2 ha
  refine ftracks_map (ψ := Real.sqrt) hx hv ?_ (Real.hasDerivAt_sqrt ha.ne') fun g hg => ?_
  · filter_upwards [lt_mem_nhds ha] with z hz
    rw [if_neg (not_lt.2 hz.le)]
  · subst hg
    simp only [fdualNum, sqrtF, divF, mulF, lift1_some, lift2_some, if_neg (not_lt.2 ha.le), if_neg hs.ne']
    congr 1
    funext k
    congr 2
    field_simp

theorem ftracks_exp (hx : FTracks n K M X F x) : FTracks n K M X (fun U => fltNum.exp (F U)) (fdualNum.exp x) := by
  obtain ⟨a, ha⟩ : ∃ a, x.v = some a := by obtain ⟨f, g, -, rfl, -⟩ := hx; exact ⟨_, rfl⟩
  refine ftracks_map (ψ := Real.exp) hx ha (Eventually.of_forall fun _ => rfl) (Real.hasDerivAt_exp a) fun g hg => ?_
  subst hg
  rfl

theorem ftracks_cos (hx : FTracks n K M X F x) : FTracks n K M X (fun U => fltNum.cos (F U)) (fdualNum.cos x) := by
  obtain ⟨a, ha⟩ : ∃ a, x.v = some a := by obtain ⟨f, g, -, rfl, -⟩ := hx; exact ⟨_, rfl⟩
  refine ftracks_map (ψ := Real.cos) hx ha (Eventually.of_forall fun _ => rfl) (Real.hasDerivAt_cos a) fun g hg => ?_
  subst hg
  simp only [fdualNum, cosF, sinF, mulF, lift1_some, lift2_some]
  congr 1
  funext k
  congr 1
  ring

theorem ftracks_pow (c : ℝ) (hx : FTracks n K M X F x) {a : ℝ} (hv : x.v = some a) (ha : 0 < a) :
    FTracks n K M X (fun U => fltNum.pow c (F U)) (fdualNum.pow c x) := by
  refine ftracks_map (ψ := fun z => z ^ c) hx hv ?_ (Real.hasDerivAt_rpow_const (Or.inl ha.ne')) fun g hg => ?_
  · filter_upwards [lt_mem_nhds ha] with z hz
    rw [if_neg]
    rintro (h | h)
    · exact absurd h (not_lt.2 hz.le)
    · exact hz.ne' h.1
  · subst hg
    have hn : ∀ d : ℝ, ¬ (a < 0 ∨ a = 0 ∧ d < 0) := fun d h => h.elim (fun h => absurd h (not_lt.2 ha.le)) fun h => ha.ne' h.1
    simp only [fdualNum, powF, mulF, lift1_some, lift2_some, if_neg (hn _)]

theorem ftracks_cpow {b : ℝ} (hb : 0 < b) (hx : FTracks n K M X F x) :
    FTracks n K M X (fun U => fltNum.cpow b (F U)) (fdualNum.cpow b x) := by
  obtain ⟨a, ha⟩ : ∃ a, x.v = some a := by obtain ⟨f, g, -, rfl, -⟩ := hx; exact ⟨_, rfl⟩
  refine ftracks_map (ψ := fun z => b ^ z) hx ha (Eventually.of_forall fun _ => rfl)
    ((Real.hasStrictDerivAt_const_rpow hb a).hasDerivAt) fun g hg => ?_
  subst hg
  simp only [fdualNum, cpowF, mulF, lift1_some, lift2_some]
  congr 1
  funext k
  congr 1
  ring

theorem ftracks_sel_true {C : (ℕ → ℝ) → Prop} {c : Prop} (hc : c) (hC : Near n X C) (hx : FTracks n K M X F x) :
    FTracks n K M X (fun U => fltNum.sel (C U) (F U) (G U)) (fdualNum.sel c x y) := by
  have : fdualNum.sel c x y = x := if_pos hc
  rw [this]
  exact hx.near (hC.mono fun U hU => if_pos hU)

theorem ftracks_sel_false {C : (ℕ → ℝ) → Prop} {c : Prop} (hc : ¬ c) (hC : Near n X fun U => ¬ C U) (hy : FTracks n K M X G y) :
    FTracks n K M X (fun U => fltNum.sel (C U) (F U) (G U)) (fdualNum.sel c x y) := by
  have : fdualNum.sel c x y = y := if_neg hc
  rw [this]
  exact hy.near (hC.mono fun U hU => if_neg hU)

theorem balanced_self_ne {a b : ℝ} (h : a ≠ b) : balanced a a b = 1 ∧ balanced b a a = 0 := by
  unfold balanced
  rw [if_pos rfl, if_neg (Ne.symm h), if_neg (Ne.symm h)]
  simp

theorem fdual_min_left {a b : ℝ} (g g' : ℕ → ℝ) (h : a < b) :
    fdualNum.min ⟨some a, fun k => some (g k)⟩ ⟨some b, fun k => some (g' k)⟩ = ⟨some a, fun k => some (g k)⟩ := by
  obtain ⟨h1, h2⟩ := balanced_self_ne h.ne
  simp only [fdualNum, minF, lift2_some, min_eq_left h.le, balF, Option.bind_some, h1, h2, mulF, addF]
  congr 1
  funext k
  simp

theorem fdual_min_right {a b : ℝ} (g g' : ℕ → ℝ) (h : b < a) :
    fdualNum.min ⟨some a, fun k => some (g k)⟩ ⟨some b, fun k => some (g' k)⟩ = ⟨some b, fun k => some (g' k)⟩ := by
  obtain ⟨h1, h2⟩ := balanced_self_ne h.ne
  simp only [fdualNum, minF, lift2_some, min_eq_right h.le, balF, Option.bind_some, h1, h2, mulF, addF]
  congr 1
  funext k
  simp

theorem fdual_max_left {a b : ℝ} (g g' : ℕ → ℝ) (h : b < a) :
    fdualNum.max ⟨some a, fun k => some (g k)⟩ ⟨some b, fun k => some (g' k)⟩ = ⟨some a, fun k => some (g k)⟩ := by
  obtain ⟨h1, h2⟩ := balanced_self_ne h.ne'
  simp only [fdualNum, maxF, max_eq_left h.le, balF, Option.bind_some, h1, h2, mulF, addF, lift2_some]
  congr 1
  funext k
  simp

theorem fdual_max_right {a b : ℝ} (g g' : ℕ → ℝ) (h : a < b) :
    fdualNum.max ⟨some a, fun k => some (g k)⟩ ⟨some b, fun k => some (g' k)⟩ = ⟨some b, fun k => some (g' k)⟩ := by
  obtain ⟨h1, h2⟩ := balanced_self_ne h.ne'
  simp only [fdualNum, maxF, max_eq_right h.le, balF, Option.bind_some, h1, h2, mulF, addF, lift2_some]
  congr 1
  funext k
  simp

theorem ftracks_min (hx : FTracks n K M X F x) (hy : FTracks n K M X G y) (h : x.v ≠ y.v) :
    FTracks n K M X (fun U => fltNum.min (F U) (G U)) (fdualNum.min x y) := by
  obtain ⟨f, g, h1, rfl, h3, h4⟩ := hx
  obtain ⟨f', g', k1, rfl, k3, k4⟩ := hy
  have hne : f X ≠ f' X := fun e => h (congrArg some e)
  have hs := HasGrad.sub h4 k4
  rcases lt_or_gt_of_ne hne with hl | hl
  · rw [fdual_min_left _ _ hl]
    refine ⟨f, g, ((h1.and k1).and (near_lt (c := 0) hs (by linarith))).mono fun U hU => ?_, rfl, h3, h4⟩
    beta_reduce
    rw [hU.1.1, hU.1.2]
    exact congrArg some (min_eq_left (by linarith [hU.2]))
  · rw [fdual_min_right _ _ hl]
    refine ⟨f', g', ((h1.and k1).and (near_gt (c := 0) hs (by linarith))).mono fun U hU => ?_, rfl, k3, k4⟩
    beta_reduce
    rw [hU.1.1, hU.1.2]
    exact congrArg some (min_eq_right (by linarith [hU.2]))

theorem ftracks_max (hx : FTracks n K M X F x) (hy : FTracks n K M X G y) (h : x.v ≠ y.v) :
    FTracks n K M X (fun U => fltNum.max (F U) (G U)) (fdualNum.max x y) := by
  obtain ⟨f, g, h1, rfl, h3, h4⟩ := hx
  obtain ⟨f', g', k1, rfl, k3, k4⟩ := hy
  have hne : f X ≠ f' X := fun e => h (congrArg some e)
  have hs := HasGrad.sub h4 k4
  rcases lt_or_gt_of_ne hne with hl | hl
  · rw [fdual_max_right _ _ hl]
    refine ⟨f', g', ((h1.and k1).and (near_lt (c := 0) hs (by linarith))).mono fun U hU => ?_, rfl, k3, k4⟩
    beta_reduce
    rw [hU.1.1, hU.1.2]
    exact congrArg some (max_eq_right (by linarith [hU.2]))
  · rw [fdual_max_left _ _ hl]
    refine ⟨f, g, ((h1.and k1).and (near_gt (c := 0) hs (by linarith))).mono fun U hU => ?_, rfl, h3, h4⟩
    beta_reduce
    rw [hU.1.1, hU.1.2]
    exact congrArg some (max_eq_left (by linarith [hU.2]))

/-- Weighted sums. -/
theorem ftracks_weighted (w : ℕ → ℝ) {F : ℕ → (ℕ → ℝ) → Flt} {x : ℕ → FDual} (N : ℕ) (h : ∀ k < N, FTracks n K M X (F k) (x k)) :
    FTracks n K M X (fun U => gWeighted fltNum w (fun k => F k U) N) (gWeighted fdualNum w x N) := by
  induction N with
  | zero => exact ftracks_const 0
  | succ N ih => exact ftracks_add (ih fun k hk => h k (by omega)) (ftracks_mul (ftracks_const _) (h N (by omega)))

end tracks

end

end TMD
