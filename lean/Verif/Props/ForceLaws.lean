import Verif.Lemmas.ForceLaws
import Mathlib.Tactic.NormNum
import Mathlib.Analysis.Calculus.Deriv.Pow
import Mathlib.Analysis.Calculus.Deriv.Abs
import Mathlib.Topology.Order.OrderClosed

/-!
# Properties C19–C23: instantaneous force laws
-/

namespace TMD

open Spec Finset

noncomputable section

/-- `l` holds the two true partial derivatives of the local law `φ` at `(u, ud)`. -/
def TruePartials (φ : ℝ → ℝ → ℝ) (l : Loc) (u ud : ℝ) : Prop :=
  HasDerivAt (fun y => φ y ud) l.dfdu u ∧ HasDerivAt (fun y => φ u y) l.dfdud ud

/-! ## C19 -/

/-- C19: the Jacobian of the cubic spring force is the true derivative (all sizes, all points). -/
theorem C19_cubic (R N m : ℕ) (Q T : ℕ → ℕ → ℝ) (k x : ℕ → ℝ) :
    HasJac R N (fun X => (cubicForce N m Q T k X).1) (cubicForce N m Q T k x).2 x := by
  refine hasJac_elementwise R N m Q T (fun d u => k d * u^3) _ x (fun d _ => ?_)
  exact ((hasDerivAt_pow 3 _).const_mul (k d)).congr_deriv (by push_cast; ring)

/-- C19: the same for the quintic spring. -/
theorem C19_quintic (R N m : ℕ) (Q T : ℕ → ℕ → ℝ) (k x : ℕ → ℝ) :
    HasJac R N (fun X => (quinticForce N m Q T k X).1) (quinticForce N m Q T k x).2 x := by
  refine hasJac_elementwise R N m Q T (fun d u => k d * u^5) _ x (fun d _ => ?_)
  exact ((hasDerivAt_pow 5 _).const_mul (k d)).congr_deriv (by push_cast; ring)

/-- C19: the forces are `T` times `k u³` and `k u⁵` of the local displacement. -/
theorem C19_values (N m : ℕ) (Q T : ℕ → ℕ → ℝ) (k X : ℕ → ℝ) (i : ℕ) :
    (cubicForce N m Q T k X).1 i
      = ∑ d ∈ range m, T i d * (k d * (∑ e ∈ range N, Q d e * X e)^3) ∧
    (quinticForce N m Q T k X).1 i
      = ∑ d ∈ range m, T i d * (k d * (∑ e ∈ range N, Q d e * X e)^5) := ⟨rfl, rfl⟩

/-- C19: the AFT local derivatives are the true ones and agree with `force`. -/
theorem C19_local (k : ℕ → ℝ) (d : ℕ) (u ud : ℝ) :
    TruePartials (fun a b => (cubicLoc k d a b).f) (cubicLoc k d u ud) u ud ∧
    TruePartials (fun a b => (quinticLoc k d a b).f) (quinticLoc k d u ud) u ud ∧
    (∀ (N m : ℕ) (Q T : ℕ → ℕ → ℝ) (X : ℕ → ℝ) (i : ℕ),
      (cubicForce N m Q T k X).1 i = ∑ e ∈ range m, T i e * (cubicLoc k e (matVec N Q X e) ud).f ∧
      (quinticForce N m Q T k X).1 i = ∑ e ∈ range m, T i e * (quinticLoc k e (matVec N Q X e) ud).f) := by
  refine ⟨⟨?_, hasDerivAt_const _ _⟩, ⟨?_, hasDerivAt_const _ _⟩, fun _ _ _ _ _ _ => ⟨rfl, rfl⟩⟩
  · exact ((hasDerivAt_pow 3 _).const_mul (k d)).congr_deriv (by simp only [cubicLoc]; push_cast; ring)
  · exact ((hasDerivAt_pow 5 _).const_mul (k d)).congr_deriv (by simp only [quinticLoc]; push_cast; ring)

/-- Example: `k = 2`, one DOF, `x = 3`: force 54, derivative 54. -/
example : (cubicForce 1 1 (fun _ _ => 1) (fun _ _ => 1) (fun _ => 2) (fun _ => 3)).1 0 = 54 ∧
    (cubicForce 1 1 (fun _ _ => 1) (fun _ _ => 1) (fun _ => 2) (fun _ => 3)).2 0 0 = 54 := by
  constructor <;> simp [cubicForce, matVec, matMul, diag] <;> norm_num

/-! ## C20 -/

/-- C20: the Jacobian of the cubic damping force is the true velocity derivative. -/
theorem C20_jacobian (R N m : ℕ) (Q T : ℕ → ℕ → ℝ) (c v : ℕ → ℝ) :
    HasJac R N (fun V => (cubicDampingForce N m Q T c V).1) (cubicDampingForce N m Q T c v).2 v := by
  refine hasJac_elementwise R N m Q T (fun d u => c d * u^3) _ v (fun d _ => ?_)
  exact ((hasDerivAt_pow 3 _).const_mul (c d)).congr_deriv (by push_cast; ring)

/-- C20: the AFT local derivatives are the true ones; the displacement derivative is zero. -/
theorem C20_local (c : ℕ → ℝ) (d : ℕ) (u ud : ℝ) :
    TruePartials (fun a b => (cubicDampingLoc c d a b).f) (cubicDampingLoc c d u ud) u ud ∧
    (cubicDampingLoc c d u ud).dfdu = 0 := by
  refine ⟨⟨hasDerivAt_const _ _, ?_⟩, rfl⟩
  exact ((hasDerivAt_pow 3 _).const_mul (c d)).congr_deriv (by simp only [cubicDampingLoc]; push_cast; ring)

/-- C20: the power of the local force is non-negative for `c ≥ 0`, and zero only at rest for `c > 0`. -/
theorem C20_local_power (c : ℕ → ℝ) (d : ℕ) (hc : 0 ≤ c d) (u ud : ℝ) :
    0 ≤ (cubicDampingLoc c d u ud).f * ud ∧
    (0 < c d → ((cubicDampingLoc c d u ud).f * ud = 0 ↔ ud = 0)) := by
  have e : (cubicDampingLoc c d u ud).f * ud = c d * (ud^2)^2 := by simp only [cubicDampingLoc]; ring
  rw [e]
  refine ⟨by positivity, fun h => ?_⟩
  constructor
  · intro h0
    rcases mul_eq_zero.mp h0 with h1 | h1
    · linarith
    · simpa using h1
  · rintro rfl; simp

/-- C20: the power of the global force is non-negative when `T = Qᵀ`. -/
theorem C20_global_power (N m : ℕ) (Q : ℕ → ℕ → ℝ) (c V : ℕ → ℝ) (hc : ∀ d < m, 0 ≤ c d) :
    0 ≤ ∑ i ∈ range N, (cubicDampingForce N m Q (fun i d => Q d i) c V).1 i * V i := by
  have e : ∑ i ∈ range N, (cubicDampingForce N m Q (fun i d => Q d i) c V).1 i * V i
      = ∑ d ∈ range m, c d * (matVec N Q V d)^3 * matVec N Q V d := by
    simp only [cubicDampingForce, matVec, sum_mul]
    rw [sum_comm]
    apply sum_congr rfl
    intro d _
    rw [mul_sum]
    exact sum_congr rfl (fun i _ => by ring)
  rw [e]
  apply sum_nonneg
  intro d hd
  have : c d * (matVec N Q V d)^3 * matVec N Q V d = c d * ((matVec N Q V d)^2)^2 := by ring
  rw [this]
  have := hc d (mem_range.mp hd)
  positivity

/-- Example: with `c < 0` the force feeds power into the motion, so the sign hypothesis is needed. -/
example : (cubicDampingLoc (fun _ => -1) 0 0 2).f * 2 < 0 := by norm_num [cubicDampingLoc]

/-! ## C21 -/

/-- Specification from the class docstring: `k (u - δ) - N` in contact (`u > δ`), else `-N`. -/
def springSpec (k N δ u : ℝ) : ℝ := if u > δ then k * (u - δ) - N else -N

/-- C21: the local force is the documented piecewise law for `k ≥ 0`. -/
theorem C21_documented (k N δ : ℕ → ℝ) (d : ℕ) (hk : 0 ≤ k d) (u ud : ℝ) :
    (unilateralLoc k N δ d u ud).f = springSpec (k d) (N d) (δ d) u := by
  simp only [unilateralLoc, springSpec]
  split
  · rename_i h
    exact max_eq_left (by nlinarith [mul_nonneg hk (sub_nonneg.mpr h.le)])
  · rename_i h
    push Not at h
    exact max_eq_right (by nlinarith [mul_nonneg hk (sub_nonneg.mpr h)])

/-- C21: lower bound, exact contact condition and monotonicity. -/
theorem C21_contact (k N δ : ℕ → ℝ) (d : ℕ) (u ud : ℝ) :
    -N d ≤ (unilateralLoc k N δ d u ud).f ∧
    ((unilateralLoc k N δ d u ud).f = -N d ↔ k d * (u - δ d) ≤ 0) ∧
    (0 ≤ k d → Monotone (fun y => (unilateralLoc k N δ d y ud).f)) := by
  simp only [unilateralLoc]
  refine ⟨le_max_right _ _, ?_, ?_⟩
  · rw [max_eq_right_iff]
    constructor <;> intro h <;> linarith
  · intro hk a b hab
    apply max_le_max _ le_rfl
    nlinarith [mul_le_mul_of_nonneg_left hab hk]

theorem unilateral_deriv (k N δ u : ℝ) (h : k * (u - δ) ≠ 0 ∨ k = 0) :
    HasDerivAt (fun y => max (k * (y - δ) - N) (-N)) (k * mask (max (k * (u - δ) - N) (-N) > -N)) u := by
  have hlin : HasDerivAt (fun y => k * (y - δ) - N) k u := by
    have := (((hasDerivAt_id u).sub_const δ).const_mul k).sub_const N
    simpa using this
  have hcont : Continuous (fun y => k * (y - δ)) := by fun_prop
  rcases h with h | h
  · rcases lt_or_gt_of_ne h with h | h
    · have ev : (fun y => max (k * (y - δ) - N) (-N)) =ᶠ[nhds u] fun _ => -N := by
        filter_upwards [hcont.continuousAt.eventually (gt_mem_nhds h)] with y hy
        exact max_eq_right (by linarith)
      have hm : max (k * (u - δ) - N) (-N) = -N := max_eq_right (by linarith)
      rw [hm]
      simp only [mask, gt_iff_lt, lt_self_iff_false, if_false, mul_zero]
      exact (hasDerivAt_const u (-N)).congr_of_eventuallyEq ev
    · have ev : (fun y => max (k * (y - δ) - N) (-N)) =ᶠ[nhds u] fun y => k * (y - δ) - N := by
        filter_upwards [hcont.continuousAt.eventually (lt_mem_nhds h)] with y hy
        exact max_eq_left (by linarith)
      have hm : max (k * (u - δ) - N) (-N) > -N := lt_max_of_lt_left (by linarith)
      rw [mask, if_pos hm, mul_one]
      exact hlin.congr_of_eventuallyEq ev
  · subst h
    simpa using hasDerivAt_const u (-N)

/-- C21: away from the kink the returned local derivatives are the true ones. -/
theorem C21_local_derivative (k N δ : ℕ → ℝ) (d : ℕ) (u ud : ℝ)
    (h : k d * (u - δ d) ≠ 0 ∨ k d = 0) :
    TruePartials (fun a b => (unilateralLoc k N δ d a b).f) (unilateralLoc k N δ d u ud) u ud :=
  ⟨unilateral_deriv _ _ _ _ h, hasDerivAt_const _ _⟩

/-- C21: away from the kinks the Jacobian of `force` is the true one. -/
theorem C21_jacobian (R N m : ℕ) (Q T : ℕ → ℕ → ℝ) (k P δ x : ℕ → ℝ)
    (h : ∀ d < m, k d * (matVec N Q x d - δ d) ≠ 0 ∨ k d = 0) :
    HasJac R N (fun X => (unilateralForce N m Q T k P δ X).1) (unilateralForce N m Q T k P δ x).2 x := by
  refine hasJac_elementwise R N m Q T (fun d u => max (k d * (u - δ d) - P d) (-P d)) _ x (fun d hd => ?_)
  exact (unilateral_deriv _ _ _ _ (h d hd)).congr_deriv (mul_comm _ _)

/-- C21: at the contact point itself there is no derivative, so the hypothesis is sharp. -/
theorem C21_kink_sharp (k N δ : ℝ) (hk : 0 < k) (a : ℝ) :
    ¬ HasDerivAt (fun y => max (k * (y - δ) - N) (-N)) a δ := by
  intro hd
  -- compose with `s ↦ δ + s / k`: `max s 0 - N`
  have h1 : HasDerivAt (fun s : ℝ => δ + s / k) (1 / k) 0 := by
    have := ((hasDerivAt_id (0:ℝ)).div_const k).const_add δ
    simpa using this
  have hd' : HasDerivAt (fun y => max (k * (y - δ) - N) (-N)) a (δ + 0 / k) := by simpa using hd
  have h2 := hd'.comp (0:ℝ) h1
  have h3 : HasDerivAt (fun s : ℝ => 2 * (max (k * ((δ + s / k) - δ) - N) (-N) + N) - s)
      (2 * (a * (1/k)) - 1) 0 := ((h2.add_const N).const_mul 2).sub (hasDerivAt_id 0)
  have e : (fun s : ℝ => 2 * (max (k * ((δ + s / k) - δ) - N) (-N) + N) - s) = fun s => |s| := by
    funext s
    have : k * ((δ + s / k) - δ) = s := by field_simp; ring
    rw [this]
    rcases le_total 0 s with hs | hs
    · rw [max_eq_left (by linarith), abs_of_nonneg hs]; ring
    · rw [max_eq_right (by linarith), abs_of_nonpos hs]; ring
  rw [e] at h3
  exact not_differentiableAt_abs_zero h3.differentiableAt

/-- Example: preload 1, gap 1, stiffness 2: force 3 at `u = 3`, `-1` at `u = 0`. -/
example : (unilateralLoc (fun _ => 2) (fun _ => 1) (fun _ => 1) 0 3 0).f = 3 ∧
    (unilateralLoc (fun _ => 2) (fun _ => 1) (fun _ => 1) 0 0 0).f = -1 := by
  constructor <;> norm_num [unilateralLoc]

/-! ## C22 -/

/-- C22: the local force is the sum of coefficient times product of powers, with zero velocity
derivative, and the displacement derivative `dfdu[t, i, k]` is the true partial derivative. -/
theorem C22_local (m cnl : ℕ) (E : ℕ → ℕ → ℝ) (qq : ℕ → ℕ → ℕ) (u ud : ℕ → ℝ) :
    (∀ d, (genPolyLoc m cnl E qq u ud).1 d
      = ∑ c ∈ range cnl, E d c * ∏ e ∈ range m, (u e)^(qq c e)) ∧
    (∀ R, HasJac R m (fun y => (genPolyLoc m cnl E qq y ud).1) (genPolyLoc m cnl E qq u ud).2.1 u) ∧
    (∀ R, HasJac R m (fun y => (genPolyLoc m cnl E qq u y).1) (genPolyLoc m cnl E qq u ud).2.2 ud) := by
  refine ⟨?_, ?_, ?_⟩
  · intro d
    simp only [genPolyLoc, polyProd]
    exact sum_congr rfl (fun c _ => mul_comm _ _)
  · intro R i _
    simp only [genPolyLoc]
    refine (HasGrad.sum (s := range cnl) (fun c _ => (hasGrad_polyProd m qq c u).mul_const (E i c))).congr ?_
    intro j _
    unfold matMul
    exact sum_congr rfl (fun c _ => mul_comm _ _)
  · intro R i _
    exact HasGrad.const _

theorem polyProd_congr (m : ℕ) (q : ℕ → ℕ) (a b : ℕ → ℝ) (h : ∀ i < m, a i = b i) :
    polyProd m q a = polyProd m q b := by
  unfold polyProd
  exact prod_congr rfl (fun e he => by rw [h e (mem_range.mp he)])

/-- C22: the Jacobian of `force` is the true derivative of the global force. -/
theorem C22_jacobian (R N m cnl : ℕ) (Q T E : ℕ → ℕ → ℝ) (qq : ℕ → ℕ → ℕ) (x : ℕ → ℝ) :
    HasJac R N (fun X => (genPolyForce N m cnl Q T E qq X).1) (genPolyForce N m cnl Q T E qq x).2 x := by
  intro i _
  have h1 : ∀ c, HasGrad N (fun X => polyProd m (qq c) (matVec N Q X))
      (fun j => ∑ k ∈ range m, polyGrad m qq (matVec N Q x) c k * Q k j) x := by
    intro c
    exact HasGrad.comp_vec (Y := fun X => matVec N Q X) (hasGrad_polyProd m qq c (matVec N Q x))
      (polyProd_congr m (qq c)) (fun k _ => hasGrad_matVec N Q k x)
  have h2 := HasGrad.sum (n := N) (x := x) (s := range m)
    (F := fun d X => T i d * ∑ c ∈ range cnl, E d c * polyProd m (qq c) (matVec N Q X))
    (G := fun d j => T i d * ∑ c ∈ range cnl, E d c *
      ∑ k ∈ range m, polyGrad m qq (matVec N Q x) c k * Q k j)
    (fun d _ => HasGrad.const_mul _ (HasGrad.sum (fun c _ => HasGrad.const_mul _ (h1 c))))
  refine h2.congr ?_
  intro j _
  simp only [genPolyForce, matMul, sum_mul, mul_sum]
  -- left: k, c, d ; right: d, c, k
  rw [sum_comm]
  have : ∀ c ∈ range cnl, ∑ k ∈ range m, ∑ d ∈ range m, T i d * E d c * polyGrad m qq (matVec N Q x) c k * Q k j
      = ∑ d ∈ range m, ∑ k ∈ range m, T i d * (E d c * (polyGrad m qq (matVec N Q x) c k * Q k j)) := by
    intro c _
    rw [sum_comm]
    exact sum_congr rfl (fun _ _ => sum_congr rfl (fun _ _ => by ring))
  rw [sum_congr rfl this, sum_comm]

/-- Example: `f = 3 u₀² u₁` at `(2, 5)`: value 60, partials 60 and 12. -/
example : (genPolyLoc 2 1 (fun _ _ => 3) (fun _ e => if e = 0 then 2 else 1)
      (fun e => if e = 0 then 2 else 5) 0).1 0 = 60 ∧
    (genPolyLoc 2 1 (fun _ _ => 3) (fun _ e => if e = 0 then 2 else 1)
      (fun e => if e = 0 then 2 else 5) 0).2.1 0 0 = 60 ∧
    (genPolyLoc 2 1 (fun _ _ => 3) (fun _ e => if e = 0 then 2 else 1)
      (fun e => if e = 0 then 2 else 5) 0).2.1 0 1 = 12 := by
  refine ⟨?_, ?_, ?_⟩ <;>
    norm_num [genPolyLoc, polyGrad, polyProd, polyQd, matMul, prod_range_succ]

/-! ## C23 -/

/-- Documented parameter range of the backbone: `kt, Fs > 0`, `χ > -1`, `β ≥ 0`. -/
structure IwanBB.Valid (p : IwanBB) : Prop where
  kt : 0 < p.kt
  Fs : 0 < p.Fs
  chi : -1 < p.chi
  beta : 0 ≤ p.beta

theorem npSign_mul_self (u : ℝ) : npSign u * u = |u| := by
  unfold npSign
  split
  · rename_i h; rw [abs_of_neg h]; ring
  · split
    · rename_i h; subst h; simp
    · rename_i h1 h2
      rw [abs_of_nonneg (not_lt.mp h1)]; ring

theorem npSign_neg (u : ℝ) : npSign (-u) = -npSign u := by
  unfold npSign
  rcases lt_trichotomy u 0 with h | h | h
  · simp [h, not_lt.mpr h.le, h.ne]
  · subst h; simp
  · simp [h, not_lt.mpr h.le, h.ne']

namespace IwanBB

variable {p : IwanBB}

theorem Valid.frac (h : p.Valid) : 0 < p.beta + (p.chi+1)/(p.chi+2) := by
  have := h.chi; have := h.beta
  have : 0 < (p.chi+1)/(p.chi+2) := div_pos (by linarith) (by linarith)
  linarith

theorem Valid.phi_pos (h : p.Valid) : 0 < p.phiMax := by
  have := h.frac; have := h.kt; have := h.Fs; have := h.beta
  unfold phiMax
  have : 0 < 1 + p.beta := by linarith
  positivity

/-- `coef_E u^(2+χ)` in terms of `u / φmax`. -/
theorem Valid.coef (h : p.Valid) : p.coefE = p.kt * (1/p.phiMax)^(1+p.chi) / ((1+p.beta)*(p.chi+2)) := by
  unfold coefE
  congr 3
  unfold phiMax
  have := h.frac; have := h.kt; have := h.Fs; have := h.beta
  rw [one_div_div]

theorem Valid.micro (h : p.Valid) {u : ℝ} (hu : 0 ≤ u) :
    p.kt * u - p.coefE * u^(2+p.chi)
      = p.kt * p.phiMax * (u/p.phiMax - (u/p.phiMax)^(2+p.chi) / ((1+p.beta)*(p.chi+2))) := by
  have hp := h.phi_pos
  have hc := h.chi; have hb := h.beta
  rw [h.coef]
  have e1 : (u/p.phiMax)^(2+p.chi) = u^(2+p.chi) * (1/p.phiMax)^(1+p.chi) / p.phiMax := by
    rw [Real.div_rpow hu hp.le, Real.div_rpow zero_le_one hp.le, Real.one_rpow,
      show (2 + p.chi) = (1 + p.chi) + 1 by ring, Real.rpow_add_one hp.ne']
    have : p.phiMax^(1+p.chi) ≠ 0 := (Real.rpow_pos_of_pos hp _).ne'
    field_simp
  rw [e1]
  have h1 : (1 + p.beta) ≠ 0 := by linarith
  have h2 : p.chi + 2 ≠ 0 := by linarith
  field_simp

theorem Valid.full (h : p.Valid) :
    p.kt * p.phiMax * (1 - 1 / ((1+p.beta)*(p.chi+2))) = p.Fs := by
  have hc := h.chi; have hb := h.beta; have hf := h.frac; have hk := h.kt
  have h1 : (1 + p.beta) ≠ 0 := by linarith
  have h2 : p.chi + 2 ≠ 0 := by linarith
  have h3 : p.beta*(p.chi+2) + (p.chi+1) ≠ 0 := by nlinarith
  have e : p.beta + (p.chi+1)/(p.chi+2) = (p.beta*(p.chi+2) + (p.chi+1))/(p.chi+2) := by field_simp
  unfold phiMax
  rw [e]
  have hk' := hk.ne'
  field_simp
  ring

end IwanBB

open IwanBB

/-- The local law with the absolute value written out. -/
theorem iwanBB_f (p : IwanBB) (d : ℕ) (u ud : ℝ) :
    (iwanBBLoc p d u ud).f = (if |u| < p.phiMax then p.kt * |u| - p.coefE * |u|^(2+p.chi) else p.Fs)
      * npSign u := by
  simp only [iwanBBLoc, npSign_mul_self, mask, ge_iff_le, ← not_lt]
  split <;> simp

/-- C23: odd and zero at zero. -/
theorem C23_odd (p : IwanBB) (d : ℕ) (u ud : ℝ) :
    (iwanBBLoc p d (-u) ud).f = -(iwanBBLoc p d u ud).f ∧ (iwanBBLoc p d 0 ud).f = 0 := by
  constructor
  · rw [iwanBB_f, iwanBB_f, npSign_neg, abs_neg]; ring
  · rw [iwanBB_f]; simp [npSign]

theorem micro_bounds (p : IwanBB) (h : p.Valid) {u : ℝ} (hu : 0 ≤ u) (hu' : u ≤ p.phiMax) :
    0 ≤ p.kt * u - p.coefE * u^(2+p.chi) ∧ p.kt * u - p.coefE * u^(2+p.chi) ≤ p.Fs := by
  have hp := h.phi_pos
  have hc := h.chi; have hb := h.beta; have hk := h.kt
  rw [h.micro hu]
  set s := u / p.phiMax with hs
  have hs0 : 0 ≤ s := div_nonneg hu hp.le
  have hs1 : s ≤ 1 := (div_le_one hp).mpr hu'
  have hcpos : (1:ℝ) ≤ (1+p.beta)*(p.chi+2) := by nlinarith
  have hkp : 0 < p.kt * p.phiMax := mul_pos hk hp
  have hps : 0 ≤ s^(2+p.chi) := Real.rpow_nonneg hs0 _
  constructor
  · apply mul_nonneg hkp.le
    have h1 : s^(2+p.chi) ≤ s := by
      calc s^(2+p.chi) ≤ s^(1:ℝ) := Real.rpow_le_rpow_of_exponent_ge' hs0 hs1 (by norm_num) (by linarith)
        _ = s := Real.rpow_one s
    have h2 : s^(2+p.chi) / ((1+p.beta)*(p.chi+2)) ≤ s^(2+p.chi) := div_le_self hps hcpos
    linarith
  · rw [← h.full]
    apply mul_le_mul_of_nonneg_left _ hkp.le
    have hbern := one_add_mul_self_le_rpow_one_add (s := s - 1) (by linarith) (p := 2 + p.chi) (by linarith)
    rw [show 1 + (s - 1) = s by ring] at hbern
    have hcp : 0 < (1+p.beta)*(p.chi+2) := by linarith
    rw [sub_le_sub_iff, ← sub_le_iff_le_add', ]
    have : (1 - s^(2+p.chi)) / ((1+p.beta)*(p.chi+2)) ≤ 1 - s := by
      rw [div_le_iff₀ hcp]
      nlinarith [mul_nonneg (mul_nonneg hb (by linarith : 0 ≤ p.chi + 2)) (sub_nonneg.mpr hs1)]
    have e : (1 - s^(2+p.chi)) / ((1+p.beta)*(p.chi+2))
      = 1 / ((1+p.beta)*(p.chi+2)) - s^(2+p.chi) / ((1+p.beta)*(p.chi+2)) := by rw [sub_div]
    linarith

/-- C23: the magnitude never exceeds `Fs`, and beyond the slip displacement it is exactly `±Fs`. -/
theorem C23_bounded (p : IwanBB) (h : p.Valid) (d : ℕ) (u ud : ℝ) :
    |(iwanBBLoc p d u ud).f| ≤ p.Fs ∧
    (p.phiMax ≤ u → (iwanBBLoc p d u ud).f = p.Fs) ∧
    (u ≤ -p.phiMax → (iwanBBLoc p d u ud).f = -p.Fs) := by
  have hp := h.phi_pos
  refine ⟨?_, ?_, ?_⟩
  · have hsgn : |npSign u| ≤ 1 := by unfold npSign; split <;> [simp; (split <;> simp)]
    rw [iwanBB_f, abs_mul]
    have hb : |if |u| < p.phiMax then p.kt * |u| - p.coefE * |u|^(2+p.chi) else p.Fs| ≤ p.Fs := by
      split
      · rename_i hu
        obtain ⟨h1, h2⟩ := micro_bounds p h (abs_nonneg u) hu.le
        rw [abs_of_nonneg h1]; exact h2
      · rw [abs_of_pos h.Fs]
    calc _ ≤ p.Fs * 1 := mul_le_mul hb hsgn (abs_nonneg _) h.Fs.le
      _ = p.Fs := mul_one _
  · intro hu
    have h0 : 0 < u := by linarith
    rw [iwanBB_f, abs_of_pos h0, if_neg (not_lt.mpr hu)]
    simp [npSign, not_lt.mpr h0.le, h0.ne']
  · intro hu
    have h0 : u < 0 := by linarith
    rw [iwanBB_f, abs_of_neg h0, if_neg (by linarith)]
    simp [npSign, h0]

/-- The function of the displacement without the sign. -/
theorem iwanBB_pos (p : IwanBB) (h : p.Valid) (d : ℕ) (u ud : ℝ) (hu : |u| ≤ p.phiMax) :
    (iwanBBLoc p d u ud).f = p.kt * u - p.coefE * (|u|^(1+p.chi) * u) := by
  have hp := h.phi_pos
  have hc := h.chi
  have key : (if |u| < p.phiMax then p.kt * |u| - p.coefE * |u|^(2+p.chi) else p.Fs)
      = p.kt * |u| - p.coefE * |u|^(2+p.chi) := by
    split
    · rfl
    · rename_i hn
      have : |u| = p.phiMax := le_antisymm hu (not_lt.mp hn)
      rw [this, h.micro hp.le, div_self hp.ne', Real.one_rpow, h.full]
  rw [iwanBB_f, key]
  have e : |u|^(2+p.chi) = |u|^(1+p.chi) * |u| := by
    rcases (abs_nonneg u).lt_or_eq with h0 | h0
    · rw [show 2 + p.chi = (1 + p.chi) + 1 by ring, Real.rpow_add_one h0.ne']
    · rw [← h0, Real.zero_rpow (by linarith)]; simp
  rw [e]
  have hs : |u| * npSign u = u := by
    unfold npSign
    split
    · rename_i h0; rw [abs_of_neg h0]; ring
    · split
      · rename_i h0; simp [h0]
      · rename_i h1 h2; rw [abs_of_nonneg (not_lt.mp h1)]; ring
  linear_combination (p.kt - p.coefE * |u|^(1+p.chi)) * hs

/-- C23: the force is continuous everywhere, in particular at the slip displacement. -/
theorem C23_continuous (p : IwanBB) (h : p.Valid) (d : ℕ) (ud : ℝ) :
    Continuous (fun u => (iwanBBLoc p d u ud).f) := by
  have hp := h.phi_pos
  have hc := h.chi
  -- clamp the displacement, then apply the microslip formula
  have e : (fun u => (iwanBBLoc p d u ud).f) = fun u =>
      p.kt * (max (-p.phiMax) (min u p.phiMax))
        - p.coefE * (|max (-p.phiMax) (min u p.phiMax)|^(1+p.chi) * (max (-p.phiMax) (min u p.phiMax))) := by
    funext u
    have hcl : |max (-p.phiMax) (min u p.phiMax)| ≤ p.phiMax := by
      rw [abs_le]
      exact ⟨le_max_left _ _, max_le (by linarith) (min_le_right _ _)⟩
    rw [← iwanBB_pos p h d _ ud hcl]
    by_cases h1 : p.phiMax ≤ u
    · rw [min_eq_right h1, max_eq_right (by linarith), (C23_bounded p h d u ud).2.1 h1,
        (C23_bounded p h d p.phiMax ud).2.1 le_rfl]
    · push Not at h1
      by_cases h2 : u ≤ -p.phiMax
      · rw [min_eq_left h1.le, max_eq_left h2, (C23_bounded p h d u ud).2.2 h2,
          (C23_bounded p h d (-p.phiMax) ud).2.2 le_rfl]
      · push Not at h2
        rw [min_eq_left h1.le, max_eq_right h2.le]
  rw [e]
  have hcl : Continuous fun u : ℝ => max (-p.phiMax) (min u p.phiMax) := by fun_prop
  have hr : Continuous fun u : ℝ => |max (-p.phiMax) (min u p.phiMax)|^(1+p.chi) :=
    hcl.abs.rpow_const (fun _ => Or.inr (by linarith))
  fun_prop

theorem abs_rpow_mul_deriv {q : ℝ} (hq : 0 < q) (u : ℝ) :
    HasDerivAt (fun y : ℝ => |y|^q * y) ((q + 1) * |u|^q) u := by
  rcases lt_trichotomy u 0 with h | h | h
  · have h1 : HasDerivAt (fun y : ℝ => (-y)^q * y) (-1 * q * (-u)^(q-1) * u + (-u)^q * 1) u :=
      ((hasDerivAt_neg u).rpow_const (p := q) (Or.inl (by linarith))).mul (hasDerivAt_id u)
    have ev : (fun y : ℝ => |y|^q * y) =ᶠ[nhds u] fun y => (-y)^q * y := by
      filter_upwards [gt_mem_nhds h] with y hy
      rw [abs_of_neg hy]
    refine (h1.congr_of_eventuallyEq ev).congr_deriv ?_
    rw [abs_of_neg h, Real.rpow_sub_one (by linarith)]
    have hu0 : u ≠ 0 := h.ne
    rw [div_neg]
    field_simp
  · subst h
    have e : (q + 1) * |(0:ℝ)|^q = 0 := by simp [Real.zero_rpow hq.ne']
    rw [e, hasDerivAt_iff_tendsto_slope]
    have hcont : Filter.Tendsto (fun y : ℝ => |y|^q) (nhdsWithin 0 {0}ᶜ) (nhds 0) := by
      have : Continuous fun y : ℝ => |y|^q := continuous_abs.rpow_const (fun _ => Or.inr hq.le)
      have h0 := this.tendsto 0
      simp only [abs_zero, Real.zero_rpow hq.ne'] at h0
      exact h0.mono_left nhdsWithin_le_nhds
    refine hcont.congr' ?_
    filter_upwards [self_mem_nhdsWithin] with y hy
    have hy' : y ≠ 0 := hy
    simp [slope_def_field, hy']
  · have h1 : HasDerivAt (fun y : ℝ => y^q * y) (1 * q * u^(q-1) * u + u^q * 1) u :=
      ((hasDerivAt_id u).rpow_const (p := q) (Or.inl h.ne')).mul (hasDerivAt_id u)
    have ev : (fun y : ℝ => |y|^q * y) =ᶠ[nhds u] fun y => y^q * y := by
      filter_upwards [lt_mem_nhds h] with y hy
      rw [abs_of_pos hy]
    refine (h1.congr_of_eventuallyEq ev).congr_deriv ?_
    rw [abs_of_pos h, Real.rpow_sub_one h.ne']
    field_simp

/-- C23: inside and outside the slip displacement the returned derivative is the true one. -/
theorem C23_derivative (p : IwanBB) (h : p.Valid) (d : ℕ) (u ud : ℝ) (hu : |u| ≠ p.phiMax) :
    TruePartials (fun a b => (iwanBBLoc p d a b).f) (iwanBBLoc p d u ud) u ud := by
  refine ⟨?_, hasDerivAt_const _ _⟩
  have hp := h.phi_pos
  have hd : (iwanBBLoc p d u ud).dfdu
      = if |u| < p.phiMax then p.kt - p.coefE * ((1 + p.chi + 1) * |u|^(1+p.chi)) else 0 := by
    simp only [iwanBBLoc, npSign_mul_self, mask]
    split
    · ring
    · ring
  rw [hd]
  rcases lt_or_gt_of_ne hu with hlt | hgt
  · rw [if_pos hlt]
    have ev : (fun a => (iwanBBLoc p d a ud).f) =ᶠ[nhds u]
        fun a => p.kt * a - p.coefE * (|a|^(1+p.chi) * a) := by
      filter_upwards [continuous_abs.continuousAt.eventually (gt_mem_nhds hlt)] with a ha
      exact iwanBB_pos p h d a ud ha.le
    have h1 := ((hasDerivAt_id u).const_mul p.kt).sub
      ((abs_rpow_mul_deriv (q := 1 + p.chi) (by have := h.chi; linarith) u).const_mul p.coefE)
    refine (h1.congr_of_eventuallyEq ev).congr_deriv (by ring)
  · rw [if_neg (by linarith)]
    rcases lt_abs.mp hgt with h1 | h1
    · have ev : (fun a => (iwanBBLoc p d a ud).f) =ᶠ[nhds u] fun _ => p.Fs := by
        filter_upwards [lt_mem_nhds h1] with a ha
        exact (C23_bounded p h d a ud).2.1 (le_of_lt ha)
      exact (hasDerivAt_const u p.Fs).congr_of_eventuallyEq ev
    · have ev : (fun a => (iwanBBLoc p d a ud).f) =ᶠ[nhds u] fun _ => -p.Fs := by
        filter_upwards [gt_mem_nhds (show u < -p.phiMax by linarith)] with a ha
        exact (C23_bounded p h d a ud).2.2 (le_of_lt ha)
      exact (hasDerivAt_const u (-p.Fs)).congr_of_eventuallyEq ev

/-- C23: the Jacobian of `force` is the true derivative away from the slip displacement. -/
theorem C23_jacobian (R N m : ℕ) (Q T : ℕ → ℕ → ℝ) (p : IwanBB) (h : p.Valid) (x : ℕ → ℝ)
    (hx : ∀ d < m, |matVec N Q x d| ≠ p.phiMax) :
    HasJac R N (fun X => (iwanBBForce N m Q T p X).1) (iwanBBForce N m Q T p x).2 x := by
  refine hasJac_elementwise R N m Q T (fun d u => (iwanBBLoc p d u 0).f) _ x (fun d hd => ?_)
  exact (C23_derivative p h d _ 0 (hx d hd)).1

/-- Example: `χ = 0, β = 0, kt = 1, Fs = 1`: slip displacement 2, force 3/4 at `u = 1`. -/
example : let p : IwanBB := ⟨1, 1, 0, 0⟩
    p.Valid ∧ p.phiMax = 2 ∧ (iwanBBLoc p 0 1 0).f = 3/4 := by
  intro p
  have hv : p.Valid := ⟨by norm_num [p], by norm_num [p], by norm_num [p], by norm_num [p]⟩
  have hphi : p.phiMax = 2 := by norm_num [p, IwanBB.phiMax]
  refine ⟨hv, hphi, ?_⟩
  rw [iwanBB_pos p hv 0 1 0 (by rw [hphi]; norm_num)]
  norm_num [p, IwanBB.coefE]

end

end TMD
