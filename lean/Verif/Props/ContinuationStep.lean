import Verif.Lemmas.Continuation
import Verif.Spec.Continuation
import Verif.Lemmas.Gradient
import Mathlib.Tactic.Ring
import Mathlib.Tactic.FieldSimp

/-! # Properties of the predictor and the corrector -/

namespace TMD

open Spec

variable {sv : ContSolver} {N : ℕ} {f : ContFun}

/-- Contract of `numpy.linalg.solve`: a returned vector solves the system. -/
def Solves (sv : ContSolver) : Prop :=
  ∀ n A b x, sv.linSolve n A b = .ok x → ∀ i < n, ∑ j ∈ Finset.range n, A i j * x j = b i

theorem signOf_mul (x : ℝ) : 0 ≤ x * (if signOf x = 0 then 1 else signOf x) := by
  unfold signOf
  by_cases h : 0 < x
  · rw [if_pos h]; norm_num; exact h.le
  · rw [if_neg h]
    by_cases h2 : x < 0
    · rw [if_pos h2]; norm_num; exact h2.le
    · rw [if_neg h2, if_pos rfl, mul_one]; exact not_lt.1 h2

theorem signOf_sq (x : ℝ) : (if signOf x = 0 then 1 else signOf x) ^ 2 = 1 := by
  unfold signOf
  split_ifs <;> norm_num at *

theorem normSq_smul (n : ℕ) (x : ℕ → ℝ) (t : ℝ) : normSq n (fun i => x i * t) = normSq n x * t ^ 2 := by
  unfold normSq
  rw [Finset.sum_mul]
  exact Finset.sum_congr rfl fun i _ => by ring

theorem normSq_nonneg (n : ℕ) (x : ℕ → ℝ) : 0 ≤ normSq n x := Finset.sum_nonneg fun _ _ => sq_nonneg _

theorem normSq_pos {n : ℕ} {x : ℕ → ℝ} (h : ∃ i < n, x i ≠ 0) : 0 < normSq n x := by
  obtain ⟨i, hi, hx⟩ := h
  exact Finset.sum_pos' (fun _ _ => sq_nonneg _) ⟨i, Finset.mem_range.2 hi, by positivity⟩

theorem wdot_smul_left (N : ℕ) (b c t : ℝ) (x y : ℕ → ℝ) : wdot N b c (fun i => x i * t) y = wdot N b c x y * t := by
  unfold wdot
  rw [show (∑ i ∈ Finset.range N, x i * t * y i) = (∑ i ∈ Finset.range N, x i * y i) * t from by
    rw [Finset.sum_mul]; exact Finset.sum_congr rfl fun i _ => by ring]
  ring

theorem wdot_self (N : ℕ) (b c : ℝ) (x : ℕ → ℝ) : wdot N b c x x = c * normSq N x + b * x N ^ 2 := by
  unfold wdot normSq
  congr 1
  · congr 1; exact Finset.sum_congr rfl fun i _ => by ring
  · ring

/-- The direction as a multiple of the solution of the linear system. -/
theorem scaleDir_eq (N : ℕ) (CtoP : ℕ → ℝ) (b : ℝ) (X0 Xprev dir : ℕ → ℝ) :
    ∃ σ : ℝ, σ ^ 2 = 1 ∧
      scaleDir N CtoP b X0 Xprev dir = (fun i => dir i *
        (σ / Real.sqrt (wdot N b (arcWeight N b fun i => X0 i / CtoP i) dir dir))) ∧
      0 ≤ wdot N b (arcWeight N b fun i => X0 i / CtoP i) (scaleDir N CtoP b X0 Xprev dir)
        (fun i => (X0 i - Xprev i) / CtoP i) := by
  set c := arcWeight N b fun i => X0 i / CtoP i with hc
  set q := Real.sqrt (wdot N b c dir dir) with hq
  set y : ℕ → ℝ := fun i => (X0 i - Xprev i) / CtoP i with hy
  set a : ℝ := wdot N b c (fun i => dir i * (1 / q)) y with ha
  refine ⟨if signOf a = 0 then 1 else signOf a, signOf_sq a, ?_, ?_⟩
  all_goals
    have e : scaleDir N CtoP b X0 Xprev dir = fun i => dir i * (1 / q) * (if signOf a = 0 then 1 else signOf a) := by
      unfold scaleDir
      simp only [← hc]
      have e1 : Real.sqrt (c * normSq N dir + b * dir N ^ 2) = q := by rw [hq, wdot_self]
      rw [e1]
      have e2 : c * (∑ i ∈ Finset.range N, dir i / q * ((X0 i - Xprev i) / CtoP i)) +
          b * (dir N / q) * ((X0 N - Xprev N) / CtoP N) = a := by
        rw [ha]; unfold wdot
        simp only [hy, div_eq_mul_inv, one_mul]
        ring
      rw [e2]
      funext i
      rw [div_eq_mul_one_div]
  · rw [e]; funext i; ring
  · rw [e, wdot_smul_left, ← ha]; exact signOf_mul a

/-- The solution of the linear system: in the kernel of the conditioned Jacobian, and not zero. -/
theorem predictMat_solution (hsv : Solves sv) {C : ℕ → ℝ} {o : ContOut} {dp dir : ℕ → ℝ}
    (h : sv.linSolve (N + 1) (predictMat N C o dp) (predictRhs N) = .ok dir) :
    (∀ i < N, (∑ j ∈ Finset.range N, o.J i j * (C j * dir j)) + o.d i * (C N * dir N) = 0) ∧
    ∑ j ∈ Finset.range (N + 1), dp j * dir j = 1 := by
  have hs := hsv _ _ _ _ h
  constructor
  · intro i hi
    have := hs i (by omega)
    rw [Finset.sum_range_succ] at this
    simp only [predictMat, predictRhs, if_pos hi, lt_irrefl, if_false] at this
    rw [← this]
    congr 1
    · refine Finset.sum_congr rfl fun j hj => ?_
      rw [if_pos (Finset.mem_range.1 hj)]; ring
    · ring
  · have := hs N (by omega)
    simpa only [predictMat, predictRhs, lt_irrefl, if_false, if_true] using this

theorem ne_zero_of_dot {n : ℕ} {x y : ℕ → ℝ} (h : ∑ j ∈ Finset.range n, x j * y j = 1) : ∃ j < n, y j ≠ 0 := by
  by_contra hc
  have : ∀ j < n, y j = 0 := fun j hj => by
    by_contra h2; exact hc ⟨j, hj, h2⟩
  rw [Finset.sum_eq_zero fun j hj => by rw [this j (Finset.mem_range.1 hj), mul_zero]] at h
  exact zero_ne_one h

theorem wdot_pos {b c : ℝ} (hb : 0 < b) (hc : 0 < c) {x : ℕ → ℝ} (h : ∃ j < N + 1, x j ≠ 0) :
    0 < wdot N b c x x := by
  rw [wdot_self]
  obtain ⟨j, hj, hx⟩ := h
  by_cases hjN : j < N
  · have := normSq_pos ⟨j, hjN, hx⟩
    have : 0 < c * normSq N x := mul_pos hc this
    have : 0 ≤ b * x N ^ 2 := by positivity
    linarith
  · have : j = N := by omega
    subst this
    have h1 := normSq_nonneg j x
    have : 0 ≤ c * normSq j x := mul_nonneg hc.le h1
    have : 0 < b * x j ^ 2 := by positivity
    linarith

/-- C58: in physical coordinates the predicted direction is tangent to the solution set, it has unit length
in the arc-length norm of the conditioned space, and its inner product with the step from the previous
point is not negative. `c` is the documented weight `(1-b)/|X|^2`. -/
theorem C58_direction (hsv : Solves sv) {dynamic : Bool} {obj obj' : ContObj} {X0 Xprev dp d : ℕ → ℝ} {o : ContOut}
    (ho : f X0 true = .ok o) (hb : 0 < obj.fracLam) (hb1 : obj.fracLam < 1)
    (hC : ∀ i ≤ N, 0 < obj.CtoP i) (hX : ∃ i < N, X0 i ≠ 0)
    (h : predict sv N dynamic obj f X0 Xprev dp = .ok (d, obj')) :
    let c := (1 - obj.fracLam) / ∑ i ∈ Finset.range N, (X0 i / obj.CtoP i) ^ 2
    (∀ i < N, (∑ j ∈ Finset.range N, o.J i j * (obj.CtoP j * d j)) + o.d i * (obj.CtoP N * d N) = 0) ∧
    wdot N obj.fracLam c d d = 1 ∧
    0 ≤ wdot N obj.fracLam c d (fun i => (X0 i - Xprev i) / obj.CtoP i) := by
  intro c
  obtain ⟨o', dir, ho', hd, -, hpe⟩ := predict_ok h
  have : o' = o := by rw [ho] at ho'; exact (Except.ok.inj ho').symm
  subst this
  have hde : d = scaleDir N obj.CtoP obj.fracLam X0 Xprev dir := (Prod.mk.inj hpe).1
  have hcpos : 0 < c := by
    refine div_pos (by linarith) (normSq_pos (x := fun i => X0 i / obj.CtoP i) ?_)
    obtain ⟨i, hi, hx⟩ := hX
    exact ⟨i, hi, div_ne_zero hx (hC i (by omega)).ne'⟩
  obtain ⟨k1, k2⟩ := predictMat_solution hsv hd
  obtain ⟨σ, hσ, e1, e2⟩ := scaleDir_eq N obj.CtoP obj.fracLam X0 Xprev dir
  have hq := wdot_pos hb hcpos (ne_zero_of_dot k2)
  have ec : arcWeight N obj.fracLam (fun i => X0 i / obj.CtoP i) = c := rfl
  rw [ec] at e1 e2
  rw [hde]
  refine ⟨fun i hi => ?_, ?_, e2⟩
  · rw [e1]
    have := k1 i hi
    set t := σ / Real.sqrt (wdot N obj.fracLam c dir dir)
    calc _ = ((∑ j ∈ Finset.range N, o'.J i j * (obj.CtoP j * dir j)) + o'.d i * (obj.CtoP N * dir N)) * t := by
            rw [add_mul, Finset.sum_mul]
            congr 1
            · exact Finset.sum_congr rfl fun j _ => by ring
            · ring
      _ = 0 := by rw [this, zero_mul]
  · rw [e1, wdot_self, normSq_smul]
    set q := wdot N obj.fracLam c dir dir with hqd
    have hsq : (σ / Real.sqrt q) ^ 2 = 1 / q := by
      rw [div_pow, hσ, Real.sq_sqrt hq.le]
    have := wdot_self N obj.fracLam c dir
    calc _ = (c * normSq N dir + obj.fracLam * dir N ^ 2) * (σ / Real.sqrt q) ^ 2 := by ring
      _ = 1 := by rw [hsq, ← this, ← hqd]; field_simp

/-- C58: the direction does not depend on the previous direction, as documented, when the tangent is
unique (kernel of dimension one) and is not orthogonal to the previous step. -/
theorem C58_independent (hsv : Solves sv) {dynamic : Bool} {obj obj' obj'' : ContObj} {X0 Xprev dp dp' d d' : ℕ → ℝ}
    {o : ContOut} (ho : f X0 true = .ok o) (hb : 0 < obj.fracLam) (hb1 : obj.fracLam < 1)
    (hC : ∀ i ≤ N, 0 < obj.CtoP i) (hX : ∃ i < N, X0 i ≠ 0)
    (hker : ∀ u v : ℕ → ℝ, (∀ i < N, (∑ j ∈ Finset.range N, o.J i j * u j) + o.d i * u N = 0) →
      (∀ i < N, (∑ j ∈ Finset.range N, o.J i j * v j) + o.d i * v N = 0) → (∃ i ≤ N, u i ≠ 0) →
      ∃ t : ℝ, ∀ i ≤ N, v i = t * u i)
    (h : predict sv N dynamic obj f X0 Xprev dp = .ok (d, obj'))
    (h' : predict sv N dynamic obj f X0 Xprev dp' = .ok (d', obj''))
    (hn : wdot N obj.fracLam ((1 - obj.fracLam) / ∑ i ∈ Finset.range N, (X0 i / obj.CtoP i) ^ 2) d
      (fun i => (X0 i - Xprev i) / obj.CtoP i) ≠ 0) :
    ∀ i ≤ N, d' i = d i := by
  obtain ⟨a1, a2, a3⟩ := C58_direction hsv ho hb hb1 hC hX h
  obtain ⟨b1, b2, b3⟩ := C58_direction hsv ho hb hb1 hC hX h'
  set c := (1 - obj.fracLam) / ∑ i ∈ Finset.range N, (X0 i / obj.CtoP i) ^ 2 with hc
  have hnz : ∃ i ≤ N, obj.CtoP i * d i ≠ 0 := by
    by_contra hcon
    have hz : ∀ i ≤ N, d i = 0 := fun i hi => by
      by_contra h2
      exact hcon ⟨i, hi, mul_ne_zero (hC i hi).ne' h2⟩
    have : wdot N obj.fracLam c d d = 0 := by
      unfold wdot
      rw [Finset.sum_eq_zero fun i hi => by rw [hz i (Finset.mem_range.1 hi).le, zero_mul], hz N le_rfl]
      ring
    rw [this] at a2; exact zero_ne_one a2
  obtain ⟨t, ht⟩ := hker (fun i => obj.CtoP i * d i) (fun i => obj.CtoP i * d' i) a1 b1 hnz
  have ht' : ∀ i ≤ N, d' i = d i * t := fun i hi => by
    have := ht i hi
    have hCi := (hC i hi).ne'
    have : obj.CtoP i * d' i = obj.CtoP i * (d i * t) := by rw [this]; ring
    exact mul_left_cancel₀ hCi this
  have hw : ∀ y : ℕ → ℝ, wdot N obj.fracLam c d' y = wdot N obj.fracLam c d y * t := fun y => by
    rw [← wdot_smul_left]
    unfold wdot
    rw [Finset.sum_congr rfl fun i hi => by rw [ht' i (Finset.mem_range.1 hi).le], ht' N le_rfl]
  have hsq : t ^ 2 = 1 := by
    have e1 : wdot N obj.fracLam c d' d' = wdot N obj.fracLam c d d' * t := hw d'
    have hcomm : ∀ x y : ℕ → ℝ, wdot N obj.fracLam c x y = wdot N obj.fracLam c y x := fun x y => by
      unfold wdot
      rw [Finset.sum_congr rfl fun i _ => mul_comm (x i) (y i), mul_comm (x N)]
    rw [hcomm d d', hw d, a2, b2] at e1
    linarith
  have hpos : 0 < wdot N obj.fracLam c d (fun i => (X0 i - Xprev i) / obj.CtoP i) := lt_of_le_of_ne a3 (Ne.symm hn)
  rw [hw] at b3
  have ht1 : t = 1 := by
    rcases mul_eq_zero.1 (show (t - 1) * (t + 1) = 0 by linear_combination hsq) with h1 | h1
    · linarith
    · rw [show t = -1 by linarith] at b3; linarith
  intro i hi
  rw [ht' i hi, ht1, mul_one]

/-- Gradient of the weighted inner product of the displacement from `x0` with itself. -/
theorem hasGrad_wdot_self (N : ℕ) (b c : ℝ) (x0 x : ℕ → ℝ) :
    HasGrad (N + 1) (fun X => wdot N b c (fun i => X i - x0 i) (fun i => X i - x0 i))
      (fun j => if j < N then 2 * c * (x j - x0 j) else 2 * b * (x N - x0 N)) x := by
  have hd : ∀ k, HasGrad (N + 1) (fun X => X k - x0 k) (fun j => if j = k then 1 else 0) x := fun k =>
    ((HasGrad.coord (n := N + 1) (x := x) k).sub (HasGrad.const (x0 k))).congr (fun j _ => by ring)
  have hs := HasGrad.sum (s := Finset.range N) (fun k _ => (hd k).mul (hd k))
  refine ((hs.const_mul c).add (((hd N).mul (hd N)).const_mul b)).congr ?_
  intro j hj
  have e : ∑ k ∈ Finset.range N, ((x k - x0 k) * (if j = k then (1:ℝ) else 0) + (x k - x0 k) * (if j = k then 1 else 0))
      = if j < N then 2 * (x j - x0 j) else 0 := by
    by_cases h : j < N
    · rw [if_pos h, Finset.sum_eq_single_of_mem j (Finset.mem_range.2 h)]
      · simp; ring
      · intro b _ hb; simp [Ne.symm hb]
    · rw [if_neg h]
      refine Finset.sum_eq_zero fun k hk => ?_
      have : j ≠ k := by have := Finset.mem_range.1 hk; omega
      simp [this]
  change _ = c * (∑ k ∈ Finset.range N, _) + b * _
  rw [e]
  by_cases h : j < N
  · rw [if_pos h, if_pos h, if_neg (show j ≠ N by omega)]; ring
  · rw [if_neg h, if_neg h, if_pos (show j = N by omega)]; ring

/-- Gradient of the weighted inner product with a fixed direction. -/
theorem hasGrad_wdot (N : ℕ) (b c : ℝ) (p d x : ℕ → ℝ) :
    HasGrad (N + 1) (fun X => wdot N b c (fun i => X i - p i) d)
      (fun j => if j < N then c * d j else b * d N) x := by
  have hd : ∀ k, HasGrad (N + 1) (fun X => X k - p k) (fun j => if j = k then 1 else 0) x := fun k =>
    ((HasGrad.coord (n := N + 1) (x := x) k).sub (HasGrad.const (p k))).congr (fun j _ => by ring)
  have hs := HasGrad.sum (s := Finset.range N) (fun k _ => (hd k).mul_const (d k))
  refine ((hs.const_mul c).add (((hd N).mul_const (d N)).const_mul b)).congr ?_
  intro j hj
  have e : ∑ k ∈ Finset.range N, (if j = k then (1:ℝ) else 0) * d k = if j < N then d j else 0 := by
    by_cases h : j < N
    · rw [if_pos h, Finset.sum_eq_single_of_mem j (Finset.mem_range.2 h)]
      · simp
      · intro b _ hb; simp [Ne.symm hb]
    · rw [if_neg h]
      refine Finset.sum_eq_zero fun k hk => ?_
      have : j ≠ k := by have := Finset.mem_range.1 hk; omega
      simp [this]
  change _ = c * (∑ k ∈ Finset.range N, _) + b * _
  rw [e]
  by_cases h : j < N
  · rw [if_pos h, if_pos h, if_neg (show j ≠ N by omega)]; ring
  · rw [if_neg h, if_neg h, if_pos (show j = N by omega)]; ring

/-- The scalar equation added by the corrector, for weights `b` and `c`: pseudo arc length, or
orthogonality to the predicted direction. -/
noncomputable def arcEquation (N : ℕ) (pseudo : Bool) (b c ds : ℝ) (x0 d X : ℕ → ℝ) : ℝ :=
  if pseudo then (wdot N b c (fun i => X i - x0 i) (fun i => X i - x0 i) - ds ^ 2) / ds ^ 2
  else wdot N b c (fun i => X i - (x0 i + d i * ds)) d / ds

/-- C59: the corrector evaluates the scaled user residual at the physical point and the arc equation, and
its matrix is the true Jacobian of the whole with respect to the conditioned unknowns, whenever the user's
derivatives are true at that point. -/
theorem C59_jacobian (pseudo : Bool) (obj : ContObj) {r : ℝ} (hr : obj.RPtoC = .scalar r)
    (R : (ℕ → ℝ) → ℕ → ℝ) (J : (ℕ → ℝ) → ℕ → ℕ → ℝ) (D : (ℕ → ℝ) → ℕ → ℝ)
    (hf : ∀ X, f X true = .ok ⟨R X, J X, D X⟩)
    (hdep : ∀ X Y i, (∀ k < N + 1, X k = Y k) → i < N → R X i = R Y i)
    (x x0 d : ℕ → ℝ) (ds : ℝ)
    (hJ : HasJac N (N + 1) R (fun i j => if j < N then J (fun k => x k * obj.CtoP k) i j
      else D (fun k => x k * obj.CtoP k) i) (fun k => x k * obj.CtoP k)) :
    ∃ (G : (ℕ → ℝ) → ℕ → ℝ) (M : (ℕ → ℝ) → ℕ → ℕ → ℝ),
      (∀ X, correctRes N (if pseudo then .pseudo else .ortho) obj f X x0 ds (some d) true = .ok (G X, some (M X))) ∧
      (∀ X, ∀ i < N, G X i = r * R (fun k => X k * obj.CtoP k) i) ∧
      (∀ X, G X N = arcEquation N pseudo obj.fracLam
        ((1 - obj.fracLam) / ∑ i ∈ Finset.range N, x0 i ^ 2) ds x0 d X) ∧
      HasJac (N + 1) (N + 1) G (M x) x := by
  set c := (1 - obj.fracLam) / ∑ i ∈ Finset.range N, x0 i ^ 2 with hc
  set arc : (ℕ → ℝ) → ℝ × (ℕ → ℝ) := fun X => if pseudo then pseudoArcRes N X x0 ds obj.fracLam c
    else orthogonalArcRes N X x0 d ds obj.fracLam c with harc
  have hval : ∀ X, (arc X).1 = arcEquation N pseudo obj.fracLam c ds x0 d X := by
    intro X
    rw [harc]; unfold arcEquation
    cases pseudo with
    | true =>
      simp only [if_true, pseudoArcRes]
      rw [wdot_self]
    | false =>
      simp only [Bool.false_eq_true, if_false, orthogonalArcRes]
      unfold wdot; rw [mul_assoc obj.fracLam]
  have hgrad : HasGrad (N + 1) (fun X => (arc X).1) (arc x).2 x := by
    refine HasGrad.congr_fun ?_ hval
    unfold arcEquation
    rw [harc]
    cases pseudo with
    | true =>
      simp only [if_true, pseudoArcRes]
      refine HasGrad.congr ((((hasGrad_wdot_self N obj.fracLam c x0 x).sub (HasGrad.const (ds ^ 2))).mul_const
        (ds ^ 2)⁻¹).congr_fun (fun y => div_eq_mul_inv _ _)) ?_
      intro j hj
      rw [div_eq_mul_inv, sub_zero]
    | false =>
      simp only [Bool.false_eq_true, if_false, orthogonalArcRes]
      exact HasGrad.congr (((hasGrad_wdot N obj.fracLam c (fun i => x0 i + d i * ds) d x).mul_const
        ds⁻¹).congr_fun (fun y => div_eq_mul_inv _ _)) (fun j hj => by rw [div_eq_mul_inv])
  refine ⟨fun X i => if i < N then r * R (fun k => X k * obj.CtoP k) i else (arc X).1,
    fun X i j => if i < N then r * (if j < N then J (fun k => X k * obj.CtoP k) i j * obj.CtoP j
      else D (fun k => X k * obj.CtoP k) i * obj.CtoP N) else (arc X).2 j, ?_, ?_, ?_, ?_⟩
  · intro X
    unfold correctRes
    simp only [hf, hr]
    cases pseudo with
    | true => simp only [if_true, harc]; rfl
    | false => simp only [Bool.false_eq_true, if_false, if_true, harc]; rfl
  · intro X i hi
    simp only [if_pos hi]
  · intro X
    simp only [lt_irrefl, if_false]; exact hval X
  · intro i hi
    by_cases hiN : i < N
    · simp only [if_pos hiN]
      have hcoord : ∀ k < N + 1, HasGrad (N + 1) (fun X => X k * obj.CtoP k)
          (fun j => (if j = k then 1 else 0) * obj.CtoP k) x := fun k _ =>
        (HasGrad.coord (n := N + 1) (x := x) k).mul_const _
      have h1 := HasGrad.comp_vec (Y := fun X k => X k * obj.CtoP k) (hJ i hiN)
        (fun a b hab => hdep a b i hab hiN) hcoord
      refine (h1.const_mul r).congr ?_
      intro j hj
      congr 1
      rw [Finset.sum_eq_single_of_mem j (Finset.mem_range.2 hj)]
      · by_cases hjN : j < N
        · simp [hjN]
        · have : j = N := by omega
          subst this
          simp
      · intro k _ hk
        simp [Ne.symm hk]
    · simp only [if_neg hiN]
      exact hgrad

/-- C59: without gradients the same residual is returned. -/
theorem C59_no_gradient (corr : Corrector) (obj : ContObj) (x x0 d : ℕ → ℝ) (ds : ℝ) (o o' : ContOut)
    (h1 : f (fun k => x k * obj.CtoP k) true = .ok o) (h2 : f (fun k => x k * obj.CtoP k) false = .ok o')
    (h : o'.R = o.R) {G : ℕ → ℝ} {M : Option (ℕ → ℕ → ℝ)}
    (hG : correctRes N corr obj f x x0 ds (some d) true = .ok (G, M)) :
    correctRes N corr obj f x x0 ds (some d) false = .ok (G, none) := by
  unfold correctRes at hG ⊢
  simp only [h1, h2, h] at hG ⊢
  cases corr with
  | other => cases hG
  | pseudo =>
    simp only at hG ⊢
    cases hR : obj.RPtoC with
    | vector v => rw [hR] at hG; cases hG
    | scalar r =>
      rw [hR] at hG
      simp only [Except.ok.injEq, Prod.mk.injEq] at hG ⊢
      exact ⟨hG.1, by simp⟩
  | ortho =>
    simp only at hG ⊢
    cases hR : obj.RPtoC with
    | vector v => rw [hR] at hG; cases hG
    | scalar r =>
      rw [hR] at hG
      simp only [Except.ok.injEq, Prod.mk.injEq] at hG ⊢
      exact ⟨hG.1, by simp⟩

/-- C59: an unknown corrector name and a missing direction are errors. -/
theorem C59_errors (obj : ContObj) (x x0 : ℕ → ℝ) (ds : ℝ) (g : Bool) (o : ContOut)
    (h1 : f (fun k => x k * obj.CtoP k) g = .ok o) (d : Option (ℕ → ℝ)) :
    correctRes N .other obj f x x0 ds d g = .error .assertion ∧
    correctRes N .ortho obj f x x0 ds none g = .error .assertion := by
  unfold correctRes
  simp only [h1, and_self]

end TMD
