import Verif.Lemmas.Equilibrium
import Verif.Spec.Motion
import Mathlib.Analysis.Calculus.Deriv.MeanValue
import Mathlib.Analysis.Matrix.Order
import Mathlib.Analysis.Calculus.MeanValue

/-!
# Free motions of damped linear structures

Their energy falls; a direction in which the stiffness is not positive gives a motion that does not die out. Nothing here refers to the program.
-/

namespace TMD

open Spec Finset

noncomputable section

variable {n : ℕ} {M C K : ℕ → ℕ → ℝ} {u v : ℝ → ℕ → ℝ} {w T : ℝ}

/-- `M u'' + C u' + K u = 0` on `[0, T]`. -/
abbrev FreeMotion (n : ℕ) (M C K : ℕ → ℕ → ℝ) (w T : ℝ) (u v : ℝ → ℕ → ℝ) : Prop :=
  Motion n M C K (fun _ _ => 0) (fun _ => 0) w (Set.Icc 0 T) u v

/-- Symmetric entries. -/
def SymmOn (n : ℕ) (A : ℕ → ℕ → ℝ) : Prop := ∀ i < n, ∀ j < n, A i j = A j i

/-- Positive definite. -/
def PosOn (n : ℕ) (A : ℕ → ℕ → ℝ) : Prop := ∀ x : ℕ → ℝ, (∃ i < n, x i ≠ 0) → 0 < quadForm n A x

theorem PosOn.nonneg {A : ℕ → ℕ → ℝ} (h : PosOn n A) (x : ℕ → ℝ) : 0 ≤ quadForm n A x := by
  by_cases c : ∃ i < n, x i ≠ 0
  · exact (h x c).le
  · push Not at c
    refine le_of_eq (Eq.symm ?_)
    refine sum_eq_zero fun i hi => sum_eq_zero fun j _ => ?_
    rw [c i (mem_range.1 hi)]; ring

theorem PosOn.eq_zero {A : ℕ → ℕ → ℝ} (h : PosOn n A) {x : ℕ → ℝ} (hx : quadForm n A x ≤ 0) : ∀ i < n, x i = 0 := by
  by_contra c
  push Not at c
  linarith [h x c]

/-- Twice the energy. -/
def energy (n : ℕ) (M K : ℕ → ℕ → ℝ) (u v : ℕ → ℝ) : ℝ := quadForm n M v + quadForm n K u

theorem quad_deriv {A : ℕ → ℕ → ℝ} (hs : SymmOn n A) {x : ℝ → ℕ → ℝ} {d : ℕ → ℝ} {s : Set ℝ} {t : ℝ}
    (h : ∀ i < n, HasDerivWithinAt (fun t => x t i) (d i) s t) :
    HasDerivWithinAt (fun t => quadForm n A (x t)) (2 * ∑ i ∈ range n, d i * ∑ j ∈ range n, A i j * x t j) s t := by
  unfold quadForm
  have h1 : ∀ i ∈ range n, ∀ j ∈ range n, HasDerivWithinAt (fun t => x t i * A i j * x t j) (d i * A i j * x t j + x t i * A i j * d j) s t :=
    fun i hi j hj => ((h i (mem_range.1 hi)).mul_const (A i j)).mul (h j (mem_range.1 hj))
  refine (HasDerivWithinAt.fun_sum fun i hi => HasDerivWithinAt.fun_sum fun j hj => h1 i hi j hj).congr_deriv ?_
  have e1 : ∑ i ∈ range n, ∑ j ∈ range n, (d i * A i j * x t j + x t i * A i j * d j) = (∑ i ∈ range n, ∑ j ∈ range n, d i * A i j * x t j) + ∑ i ∈ range n, ∑ j ∈ range n, x t i * A i j * d j := by
    simp only [sum_add_distrib]
  have e2 : ∑ i ∈ range n, ∑ j ∈ range n, x t i * A i j * d j = ∑ i ∈ range n, ∑ j ∈ range n, d i * A i j * x t j := by
    rw [sum_comm]
    refine sum_congr rfl fun i hi => sum_congr rfl fun j hj => ?_
    rw [hs j (mem_range.1 hj) i (mem_range.1 hi)]; ring
  rw [e1, e2, ← two_mul]
  congr 1
  refine sum_congr rfl fun i _ => ?_
  rw [mul_sum]
  exact sum_congr rfl fun j _ => by ring

/-- The damping takes the energy. -/
theorem energy_deriv (hM : SymmOn n M) (hK : SymmOn n K) (h : FreeMotion n M C K w T u v) {t : ℝ} (ht : t ∈ Set.Icc 0 T) :
    HasDerivWithinAt (fun t => energy n M K (u t) (v t)) (-2 * quadForm n C (v t)) (Set.Icc 0 T) t := by
  obtain ⟨acc, ha, he⟩ := h.motion t ht
  refine ((quad_deriv hM ha).add (quad_deriv hK (h.velocity t ht))).congr_deriv ?_
  have e1 : ∑ i ∈ range n, acc i * ∑ j ∈ range n, M i j * v t j = ∑ i ∈ range n, v t i * ∑ j ∈ range n, M i j * acc j := by
    simp only [mul_sum]
    rw [sum_comm]
    refine sum_congr rfl fun i hi => sum_congr rfl fun j hj => ?_
    rw [hM j (mem_range.1 hj) i (mem_range.1 hi)]; ring
  have e2 : ∀ i ∈ range n, v t i * (∑ j ∈ range n, M i j * acc j) + v t i * ∑ j ∈ range n, K i j * u t j = -∑ j ∈ range n, v t i * C i j * v t j := fun i hi => by
    have := he i (mem_range.1 hi)
    simp only [sum_add_distrib, zero_mul, add_zero] at this
    have e : ∑ j ∈ range n, v t i * C i j * v t j = v t i * ∑ j ∈ range n, C i j * v t j := by
      rw [mul_sum]; exact sum_congr rfl fun j _ => by ring
    rw [e]
    linear_combination v t i * this
  rw [e1, ← mul_add, ← sum_add_distrib, sum_congr rfl e2, sum_neg_distrib, quadForm]
  ring

theorem energy_anti (hM : SymmOn n M) (hK : SymmOn n K) (hC : PosOn n C) (h : FreeMotion n M C K w T u v) :
    AntitoneOn (fun t => energy n M K (u t) (v t)) (Set.Icc 0 T) := by
  refine antitoneOn_of_hasDerivWithinAt_nonpos (convex_Icc 0 T) (fun t ht => (energy_deriv hM hK h ht).continuousWithinAt)
    (f' := fun t => -2 * quadForm n C (v t)) (fun t ht => ?_) fun t _ => ?_
  · rw [interior_Icc] at ht ⊢
    exact (energy_deriv hM hK h (Set.Ioo_subset_Icc_self ht)).mono Set.Ioo_subset_Icc_self
  · linarith [hC.nonneg (v t)]

/-- A motion that keeps its energy is at rest, in an equilibrium. -/
theorem energy_rest (hM : SymmOn n M) (hK : SymmOn n K) (hC : PosOn n C) (hT : 0 < T) (h : FreeMotion n M C K w T u v)
    (he : energy n M K (u 0) (v 0) ≤ energy n M K (u T) (v T)) :
    (∀ t ∈ Set.Icc 0 T, ∀ i < n, v t i = 0 ∧ u t i = u 0 i) ∧ ∀ i < n, ∑ j ∈ range n, K i j * u 0 j = 0 := by
  have ha := energy_anti hM hK hC h
  have hconst : ∀ t ∈ Set.Icc 0 T, energy n M K (u t) (v t) = energy n M K (u 0) (v 0) := fun t ht =>
    le_antisymm (ha ⟨le_rfl, hT.le⟩ ht ht.1) (he.trans (ha ht ⟨hT.le, le_rfl⟩ ht.2))
  have hud : UniqueDiffOn ℝ (Set.Icc 0 T) := uniqueDiffOn_Icc hT
  have hv : ∀ t ∈ Set.Icc 0 T, ∀ i < n, v t i = 0 := fun t ht => by
    have h1 := energy_deriv hM hK h ht
    have h2 : HasDerivWithinAt (fun t => energy n M K (u t) (v t)) 0 (Set.Icc 0 T) t :=
      (hasDerivWithinAt_const t (Set.Icc 0 T) (energy n M K (u 0) (v 0))).congr (fun s hs => hconst s hs) (hconst t ht)
    have := (hud t ht).eq_deriv _ h1 h2
    exact hC.eq_zero (by linarith)
  have hu : ∀ t ∈ Set.Icc 0 T, ∀ i < n, u t i = u 0 i := fun t ht i hi => by
    have hd : ∀ s ∈ Set.Icc 0 T, HasDerivWithinAt (fun t => u t i) 0 (Set.Icc 0 T) s := fun s hs => by
      have := h.velocity s hs i hi
      rwa [hv s hs i hi] at this
    have := (convex_Icc 0 T).norm_image_sub_le_of_norm_hasDerivWithin_le (C := 0) hd (fun s _ => by simp) (Set.left_mem_Icc.2 hT.le) ht
    simpa [sub_eq_zero] using this
  refine ⟨fun t ht i hi => ⟨hv t ht i hi, hu t ht i hi⟩, fun i hi => ?_⟩
  have h0 : (0:ℝ) ∈ Set.Icc 0 T := ⟨le_rfl, hT.le⟩
  obtain ⟨acc, hacc, heq⟩ := h.motion 0 h0
  have hz : ∀ j < n, acc j = 0 := fun j hj => by
    have h2 : HasDerivWithinAt (fun t => v t j) 0 (Set.Icc 0 T) 0 :=
      (hasDerivWithinAt_const 0 (Set.Icc 0 T) (0:ℝ)).congr (fun s hs => hv s hs j hj) (hv 0 h0 j hj)
    exact (hud 0 h0).eq_deriv _ (hacc j hj) h2
  have := heq i hi
  simp only [zero_mul, add_zero] at this
  refine Eq.trans ?_ this
  refine sum_congr rfl fun j hj => ?_
  rw [hz j (mem_range.1 hj), hv 0 h0 j (mem_range.1 hj)]
  ring

/-- Energy of two motions that are turned into each other. -/
theorem energy_turn (a b : ℝ) (x1 y1 x2 y2 : ℕ → ℝ) :
    energy n M K (fun i => a * x1 i - b * x2 i) (fun i => a * y1 i - b * y2 i) + energy n M K (fun i => b * x1 i + a * x2 i) (fun i => b * y1 i + a * y2 i)
      = (a ^ 2 + b ^ 2) * (energy n M K x1 y1 + energy n M K x2 y2) := by
  have key : ∀ (A : ℕ → ℕ → ℝ) (p q : ℕ → ℝ), quadForm n A (fun i => a * p i - b * q i) + quadForm n A (fun i => b * p i + a * q i) = (a ^ 2 + b ^ 2) * (quadForm n A p + quadForm n A q) := by
    intro A p q
    simp only [quadForm, ← sum_add_distrib, mul_sum]
    exact sum_congr rfl fun i _ => sum_congr rfl fun j _ => by ring
  have k1 := key M y1 y2
  have k2 := key K x1 x2
  unfold energy
  linear_combination k1 + k2

theorem quadForm_congr {A : ℕ → ℕ → ℝ} {x y : ℕ → ℝ} (h : ∀ i < n, x i = y i) : quadForm n A x = quadForm n A y :=
  sum_congr rfl fun i hi => sum_congr rfl fun j hj => by rw [h i (mem_range.1 hi), h j (mem_range.1 hj)]

variable {u1 v1 u2 v2 : ℝ → ℕ → ℝ}

/-- Two motions, the real and imaginary part of a motion that is multiplied by `a + i b` over the time `T`. -/
structure Turned (n : ℕ) (T a b : ℝ) (u1 v1 u2 v2 : ℝ → ℕ → ℝ) : Prop where
  u1_end : ∀ i < n, u1 T i = a * u1 0 i - b * u2 0 i
  v1_end : ∀ i < n, v1 T i = a * v1 0 i - b * v2 0 i
  u2_end : ∀ i < n, u2 T i = b * u1 0 i + a * u2 0 i
  v2_end : ∀ i < n, v2 T i = b * v1 0 i + a * v2 0 i
  ne : ∃ i < n, u1 0 i ≠ 0 ∨ v1 0 i ≠ 0 ∨ u2 0 i ≠ 0 ∨ v2 0 i ≠ 0

theorem Turned.energy {a b : ℝ} (h : Turned n T a b u1 v1 u2 v2) (M K : ℕ → ℕ → ℝ) :
    energy n M K (u1 T) (v1 T) + TMD.energy n M K (u2 T) (v2 T) = (a ^ 2 + b ^ 2) * (TMD.energy n M K (u1 0) (v1 0) + TMD.energy n M K (u2 0) (v2 0)) := by
  rw [← energy_turn]
  unfold TMD.energy
  rw [quadForm_congr h.u1_end, quadForm_congr h.v1_end, quadForm_congr h.u2_end, quadForm_congr h.v2_end]

/-- With positive definite stiffness the factor is less than one. -/
theorem decay (hM : SymmOn n M) (hK : SymmOn n K) (hMp : PosOn n M) (hC : PosOn n C) (hKp : PosOn n K) (hT : 0 < T)
    (h1 : FreeMotion n M C K w T u1 v1) (h2 : FreeMotion n M C K w T u2 v2) {a b : ℝ} (h : Turned n T a b u1 v1 u2 v2) : a ^ 2 + b ^ 2 < 1 := by
  have hE := h.energy M K
  have a1 := energy_anti hM hK hC h1 ⟨le_rfl, hT.le⟩ ⟨hT.le, le_rfl⟩ hT.le
  have a2 := energy_anti hM hK hC h2 ⟨le_rfl, hT.le⟩ ⟨hT.le, le_rfl⟩ hT.le
  beta_reduce at a1 a2
  have p1 : 0 ≤ TMD.energy n M K (u1 0) (v1 0) := add_nonneg (hMp.nonneg _) (hKp.nonneg _)
  have p2 : 0 ≤ TMD.energy n M K (u2 0) (v2 0) := add_nonneg (hMp.nonneg _) (hKp.nonneg _)
  by_contra hlt
  push Not at hlt
  have q1 : TMD.energy n M K (u1 0) (v1 0) ≤ TMD.energy n M K (u1 T) (v1 T) := by nlinarith
  have q2 : TMD.energy n M K (u2 0) (v2 0) ≤ TMD.energy n M K (u2 T) (v2 T) := by nlinarith
  have key : ∀ {u v : ℝ → ℕ → ℝ}, FreeMotion n M C K w T u v → TMD.energy n M K (u 0) (v 0) ≤ TMD.energy n M K (u T) (v T) → ∀ i < n, u 0 i = 0 ∧ v 0 i = 0 := fun hm hq => by
    obtain ⟨r1, r2⟩ := energy_rest hM hK hC hT hm hq
    have hq0 := hKp.eq_zero (x := _) (le_of_eq (by
      unfold quadForm
      refine sum_eq_zero fun i hi => ?_
      have := r2 i (mem_range.1 hi)
      simp only [mul_assoc, ← mul_sum]
      rw [this, mul_zero]))
    exact fun i hi => ⟨hq0 i hi, (r1 0 ⟨le_rfl, hT.le⟩ i hi).1⟩
  obtain ⟨i, hi, hne⟩ := h.ne
  have k1 := key h1 q1 i hi
  have k2 := key h2 q2 i hi
  simp [k1.1, k1.2, k2.1, k2.2] at hne

/-- With semidefinite stiffness the factor is at most one. -/
theorem no_growth (hM : SymmOn n M) (hK : SymmOn n K) (hMp : PosOn n M) (hC : PosOn n C) (hKp : ∀ x, 0 ≤ quadForm n K x) (hT : 0 < T)
    (h1 : FreeMotion n M C K w T u1 v1) (h2 : FreeMotion n M C K w T u2 v2) {a b : ℝ} (h : Turned n T a b u1 v1 u2 v2) : a ^ 2 + b ^ 2 ≤ 1 := by
  have hE := h.energy M K
  have a1 := energy_anti hM hK hC h1 ⟨le_rfl, hT.le⟩ ⟨hT.le, le_rfl⟩ hT.le
  have a2 := energy_anti hM hK hC h2 ⟨le_rfl, hT.le⟩ ⟨hT.le, le_rfl⟩ hT.le
  beta_reduce at a1 a2
  have pos : ∀ x y, 0 ≤ TMD.energy n M K x y := fun x y => add_nonneg (hMp.nonneg _) (hKp _)
  have p1 := pos (u1 0) (v1 0)
  have p2 := pos (u2 0) (v2 0)
  by_contra hlt
  push Not at hlt
  have q1 : TMD.energy n M K (u1 0) (v1 0) ≤ TMD.energy n M K (u1 T) (v1 T) := by nlinarith
  have q2 : TMD.energy n M K (u2 0) (v2 0) ≤ TMD.energy n M K (u2 T) (v2 T) := by nlinarith
  have r1 := (energy_rest hM hK hC hT h1 q1).1
  have r2 := (energy_rest hM hK hC hT h2 q2).1
  have m0 : (0:ℝ) ∈ Set.Icc 0 T := ⟨le_rfl, hT.le⟩
  have mT : T ∈ Set.Icc 0 T := ⟨hT.le, le_rfl⟩
  obtain ⟨i, hi, hne⟩ := h.ne
  have x1 := (r1 T mT i hi).2
  have x2 := (r2 T mT i hi).2
  rw [(r1 0 m0 i hi).1, (r2 0 m0 i hi).1] at hne
  have e1 := h.u1_end i hi
  have e2 := h.u2_end i hi
  rw [x1] at e1
  rw [x2] at e2
  have hs : u1 0 i ^ 2 + u2 0 i ^ 2 = (a ^ 2 + b ^ 2) * (u1 0 i ^ 2 + u2 0 i ^ 2) := by
    calc u1 0 i ^ 2 + u2 0 i ^ 2 = (a * u1 0 i - b * u2 0 i) ^ 2 + (b * u1 0 i + a * u2 0 i) ^ 2 := by rw [← e1, ← e2]
      _ = _ := by ring
  have : 0 < u1 0 i ^ 2 + u2 0 i ^ 2 := by
    simp only [ne_eq, not_true_eq_false, false_or, or_false] at hne
    rcases hne with h | h <;> positivity
  nlinarith

/-- A direction in which the stiffness is not positive gives a real exponent which is not negative. -/
theorem real_exponent (hM : SymmOn n M) (hCs : SymmOn n C) (hK : SymmOn n K) (hMp : PosOn n M) (hC : PosOn n C) {x0 : ℕ → ℝ} (hx0 : ∃ i < n, x0 i ≠ 0)
    (hneg : quadForm n K x0 ≤ 0) :
    ∃ (l : ℝ) (x : ℕ → ℝ), 0 ≤ l ∧ (∃ i < n, x i ≠ 0) ∧ (∀ i < n, ∑ j ∈ range n, (l ^ 2 * M i j + l * C i j + K i j) * x j = 0) ∧
      ∀ y, quadForm n K y < 0 → 0 < l := by
  set S : ℝ → ℕ → ℕ → ℝ := fun l i j => l ^ 2 * M i j + l * C i j + K i j with hS
  have hq : ∀ l (x : Fin n → ℝ), quadFin n (S l) x = l ^ 2 * quadFin n M x + l * quadFin n C x + quadFin n K x := fun l x => by
    simp only [quadFin, hS, mul_sum, ← sum_add_distrib]
    exact sum_congr rfl fun i _ => sum_congr rfl fun j _ => by ring
  have fin_pos : ∀ {A : ℕ → ℕ → ℝ}, PosOn n A → ∀ x : Fin n → ℝ, x ≠ 0 → 0 < quadFin n A x := fun hA x hx => by
    obtain ⟨i, hi⟩ := Function.ne_iff.1 hx
    have := hA (Spec.ext x) ⟨i, i.2, by simpa [Spec.ext] using hi⟩
    rw [quadForm_fin] at this
    simpa [Spec.ext] using this
  obtain ⟨c, hc, hCl⟩ := quadFin_lower (fin_pos hC)
  have hMn : ∀ x : Fin n → ℝ, 0 ≤ quadFin n M x := fun x => by
    by_cases h : x = 0
    · rw [h]; simp [quadFin]
    · exact (fin_pos hMp x h).le
  have hsc : ∀ (l r : ℝ) (x : Fin n → ℝ), quadFin n (S l) (r • x) = r ^ 2 * quadFin n (S l) x := fun l r x => by
    simp only [quadFin, mul_sum, Pi.smul_apply, smul_eq_mul]
    exact sum_congr rfl fun i _ => sum_congr rfl fun j _ => by ring
  set z : Fin n → ℝ := fun i => x0 i with hz
  have hz0 : z ≠ 0 := by
    obtain ⟨i, hi, h⟩ := hx0
    exact fun h0 => h (congrFun h0 ⟨i, hi⟩)
  have unit : ∀ x : Fin n → ℝ, x ≠ 0 → ‖‖x‖⁻¹ • x‖ = 1 := fun x hx => by
    rw [norm_smul, norm_inv, norm_norm, inv_mul_cancel₀ (norm_ne_zero_iff.2 hx)]
  obtain ⟨m, hm⟩ : ∃ m : ℝ, ∀ x : Fin n → ℝ, ‖x‖ = 1 → m ≤ quadFin n K x := by
    obtain ⟨a, -, hmin⟩ := (isCompact_sphere (0 : Fin n → ℝ) 1).exists_isMinOn ⟨‖z‖⁻¹ • z, by simpa using unit z hz0⟩ (quadFin_continuous n K).continuousOn
    exact ⟨_, fun x hx => isMinOn_iff.1 hmin x (by simpa using hx)⟩
  set L : ℝ := |m| / c + 1 with hL
  have hlarge : ∀ l > L, ∀ x : Fin n → ℝ, ‖x‖ = 1 → 0 < quadFin n (S l) x := fun l hl x hx => by
    rw [hq]
    have h1 := hCl x
    rw [hx] at h1
    have h2 := hm x hx
    have h3 : |m| < l * c := by
      have : |m| / c < l := by linarith
      rwa [div_lt_iff₀ hc] at this
    have h4 : 0 < l := lt_of_le_of_lt (by positivity) hl
    have h5 := hMn x
    have h6 := neg_abs_le m
    nlinarith [mul_nonneg (sq_nonneg l) h5]
  set Z : Set ((Fin n → ℝ) × ℝ) := (Metric.sphere 0 1 ×ˢ Set.Icc 0 L) ∩ {p | quadFin n (S p.2) p.1 ≤ 0} with hZ
  have hZc : IsCompact Z := by
    refine ((isCompact_sphere _ _).prod isCompact_Icc).inter_right (isClosed_le ?_ continuous_const)
    simp only [hq]
    have h1 := (quadFin_continuous n M).comp (continuous_fst (X := Fin n → ℝ) (Y := ℝ))
    have h2 := (quadFin_continuous n C).comp (continuous_fst (X := Fin n → ℝ) (Y := ℝ))
    have h3 := (quadFin_continuous n K).comp (continuous_fst (X := Fin n → ℝ) (Y := ℝ))
    exact (((continuous_snd.pow 2).mul h1).add (continuous_snd.mul h2)).add h3
  have hS0 : ∀ x : Fin n → ℝ, quadFin n (S 0) x = quadFin n K x := fun x => by rw [hq]; ring
  have hZn : Z.Nonempty := by
    refine ⟨(‖z‖⁻¹ • z, 0), ⟨⟨by simpa using unit z hz0, le_rfl, by positivity⟩, ?_⟩⟩
    show quadFin n (S 0) _ ≤ 0
    rw [hsc, hS0]
    rw [quadForm_fin] at hneg
    exact mul_nonpos_of_nonneg_of_nonpos (sq_nonneg _) hneg
  obtain ⟨⟨x, l⟩, ⟨⟨hx1, hl⟩, hxl⟩, hmax⟩ := hZc.exists_isMaxOn hZn continuous_snd.continuousOn
  have hx1 : ‖x‖ = 1 := by simpa using hx1
  have hl0 : 0 ≤ l := hl.1
  have habove : ∀ l' > l, ∀ y : Fin n → ℝ, 0 ≤ quadFin n (S l') y := fun l' hl' y => by
    by_contra hy
    push Not at hy
    have hy0 : y ≠ 0 := fun h => by rw [h] at hy; simp [quadFin] at hy
    have hneg' : quadFin n (S l') (‖y‖⁻¹ • y) ≤ 0 := by
      rw [hsc]
      exact mul_nonpos_of_nonneg_of_nonpos (sq_nonneg _) hy.le
    have hle : l' ≤ L := by
      by_contra h
      linarith [hlarge l' (lt_of_not_ge h) _ (unit y hy0)]
    have := isMaxOn_iff.1 hmax (‖y‖⁻¹ • y, l') ⟨⟨by simpa using unit y hy0, by linarith, hle⟩, hneg'⟩
    simp only at this
    linarith
  have hpsd : ∀ y : Fin n → ℝ, 0 ≤ quadFin n (S l) y := fun y => by
    have hcont : Continuous fun l' => quadFin n (S l') y := by simp only [hq]; fun_prop
    refine ge_of_tendsto (hcont.continuousWithinAt (s := Set.Ioi l) (x := l)) ?_
    filter_upwards [self_mem_nhdsWithin] with l' hl' using habove l' hl' y
  have hx0' : quadFin n (S l) x = 0 := le_antisymm hxl (hpsd x)
  have hdot : ∀ y : Fin n → ℝ, y ⬝ᵥ (Matrix.of fun i j : Fin n => S l i j).mulVec y = quadFin n (S l) y := fun y => by
    simp only [dotProduct, Matrix.mulVec, Matrix.of_apply, quadFin, mul_sum]
    exact sum_congr rfl fun i _ => sum_congr rfl fun j _ => by ring
  have hps : (Matrix.of fun i j : Fin n => S l i j).PosSemidef := by
    refine Matrix.PosSemidef.of_dotProduct_mulVec_nonneg ?_ fun y => ?_
    · ext1 i j
      simp only [Matrix.conjTranspose_apply, Matrix.of_apply, star_trivial, hS]
      rw [hM j j.2 i i.2, hCs j j.2 i i.2, hK j j.2 i i.2]
    · rw [star_trivial, hdot]
      exact hpsd y
  have hnull := (hps.dotProduct_mulVec_zero_iff x).1 (by rw [star_trivial, hdot]; exact hx0')
  refine ⟨l, Spec.ext x, hl0, ?_, fun i hi => ?_, fun y hy => ?_⟩
  · by_contra h
    push Not at h
    have : x = 0 := funext fun i => by simpa [Spec.ext] using h i i.2
    rw [this, norm_zero] at hx1
    norm_num at hx1
  · have := congrFun hnull ⟨i, hi⟩
    simp only [Matrix.mulVec, dotProduct, Matrix.of_apply, Pi.zero_apply] at this
    rw [sum_range]
    simpa [Spec.ext, hS] using this
  · rcases hl0.lt_or_eq with h | h
    · exact h
    · have h1 := hpsd fun i => y i
      rw [← h, hS0, ← quadForm_fin] at h1
      linarith

end

end TMD
