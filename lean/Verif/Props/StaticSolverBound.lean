import Verif.Props.ErrorBound
import Verif.Props.SolverConverges
namespace TMD

open Spec Finset

noncomputable section

/-! # C156, the error of a static solution that the solver reports as converged -/

variable {S : VibSys} {c : ℝ}

/-- The static tangent is at least as stiff as the linear stiffness. -/
theorem static_lower {S : VibSys} (hf : ∀ f ∈ S.forces, MonoForce S.nd f) {X F : ℕ → ℝ} {o : (ℕ → ℝ) × (ℕ → ℕ → ℝ)} (hres : staticRes S X F = .ok o) (v : ℕ → ℝ) :
    ∑ i ∈ range S.nd, ∑ j ∈ range S.nd, v i * S.K i j * v j ≤ ∑ i ∈ range S.nd, ∑ j ∈ range S.nd, v i * o.2 i j * v j := by
  rw [static_val hf] at hres
  obtain rfl := (Except.ok.inj hres).symm
  have h2 : ∀ l : List NLForce, (∀ f ∈ l, MonoForce S.nd f) →
      0 ≤ ∑ i ∈ range S.nd, ∑ j ∈ range S.nd, v i * (l.map fun f => (forceVal f X).2 i j).sum * v j := by
    intro l hl
    induction l with
    | nil => simp
    | cons f l ih =>
      have h3 := ih fun g hg => hl g (by simp [hg])
      have h4 := (hl f (by simp)).quad X v
      refine (add_nonneg h4 h3).trans_eq ?_
      simp only [← sum_add_distrib, List.map_cons, List.sum_cons]
      exact sum_congr rfl fun i _ => sum_congr rfl fun j _ => by ring
  refine (le_add_of_nonneg_right (h2 _ hf)).trans_eq ?_
  simp only [← sum_add_distrib]
  exact sum_congr rfl fun i _ => sum_congr rfl fun j _ => by ring

/-- `static_res` as the function given to the solver, `lambda U : vib_sys.static_res(U, Fs)`. vibration_system.py:271-319 -/
def staticSolve (S : VibSys) (F : ℕ → ℝ) : SolveFun (Fin S.nd → ℝ) (Matrix (Fin S.nd) (Fin S.nd) ℝ) := fun X _ =>
  match staticRes S (Spec.ext X) F with
  | .ok o => .ok (fun i => o.1 i, Matrix.of fun i j => o.2 i j)
  | .error e => .error e

/-- C156: if Newton's method with a tolerance for the residual alone reports success on the static equations, the returned displacements are off by less than twice
that tolerance divided by the least stiffness. -/
theorem C156_solver (hf : ∀ f ∈ S.forces, MonoForce S.nd f) (hc : 0 < c)
    (hK : ∀ v : ℕ → ℝ, c * ∑ d ∈ range S.nd, v d ^ 2 ≤ ∑ d ∈ range S.nd, ∑ e ∈ range S.nd, v d * S.K d e * v e) {F Y : ℕ → ℝ} (hY : StaticEq S F Y)
    {inf ρ : ℝ} {L : Type} {fac : Matrix (Fin S.nd) (Fin S.nd) ℝ → L} {sol : L → (Fin S.nd → ℝ) → Fin S.nd → ℝ} (hsol : ExactSolve fac sol) {cfg : OmpConfig ℝ}
    (hr : cfg.reformFreq = 1) (hl : cfg.lsIters = 0) (hs : cfg.stoppingTol = [.rtol]) (ha : cfg.acceptingTol = []) (ht : cfg.tol .rtol = some ρ)
    {X0 : Fin S.nd → ℝ} {xtol : Option ℝ} {res : SolveRes (Fin S.nd → ℝ) (Matrix (Fin S.nd) (Fin S.nd) ℝ)} {cfg' : OmpConfig ℝ}
    (h : nsolveOMP (realArith S.nd inf fac sol) cfg (staticSolve S F) X0 xtol = (.ok res, cfg')) (hok : res.success = true) :
    c * Real.sqrt (∑ i : Fin S.nd, (res.X i - Y i) ^ 2) < 2 * ρ := by
  obtain ⟨_, it, k, hrun, _, _, hX, _, _, _, _, hsucc⟩ := C15_report _ cfg _ X0 xtol res cfg' h
  obtain ⟨hk, _, nm, v, tt, e1, e2, e3, e4⟩ := hsucc hok
  rw [hs, ha] at e4
  obtain rfl : nm = .rtol := by simpa using e4
  rw [if_neg (by decide), ht] at e2
  obtain rfl := Option.some.inj e2
  obtain ⟨m, rfl⟩ : ∃ m, k = m + 1 := ⟨k - 1, by omega⟩
  simp only [exchanged, named, Option.some.injEq] at e1
  rw [← e1] at e3
  have e5 : |Real.sqrt ((it m).R ⬝ᵥ (it m).R)| < ρ := by simpa [realArith, measures] using e3
  rw [abs_of_nonneg (Real.sqrt_nonneg _)] at e5
  have hρ : 0 < ρ := (Real.sqrt_nonneg _).trans_lt e5
  rw [Real.sqrt_lt' hρ] at e5
  have hnew : (it m).newton = true := by rw [hrun.newton m (by omega), hr]; simp [Nat.mod_one]
  obtain ⟨D, hD, hstep⟩ := hrun.residual m (by omega)
  have hfull := (hstep hnew).2
  have hstep' := (hrun.step m (by omega)).1 hl
  have hX' : res.X = (it m).X + (it m).step := hX
  set x := (it m).X with hx
  set R := (it m).R with hR
  set s := (it m).step with hsd
  have hfull' : s = -(sol (fac D) R) := hstep'.trans hfull
  cases hst : staticRes S (Spec.ext x) F with
  | error e => simp [staticSolve, hst] at hD
  | ok o =>
    simp only [staticSolve, hst] at hD
    injection hD with hD
    obtain ⟨hR1, hD1⟩ := Prod.ext_iff.1 hD
    simp only at hR1 hD1
    have hquad : ∀ v : Fin S.nd → ℝ, c * ∑ i, v i ^ 2 ≤ v ⬝ᵥ D.mulVec v := by
      intro v
      have h1 := (hK (Spec.ext v)).trans (static_lower hf hst (Spec.ext v))
      simp only [Finset.sum_range, Spec.ext, Fin.is_lt, dif_pos, Fin.eta] at h1
      refine h1.trans_eq ?_
      simp only [dotProduct, Matrix.mulVec, mul_sum, ← hD1, Matrix.of_apply]
      exact sum_congr rfl fun i _ => sum_congr rfl fun j _ => by ring
    have hreg : IsUnit D.det := by
      rw [isUnit_iff_ne_zero]
      intro h0
      obtain ⟨v, hv, hv0⟩ := Matrix.exists_mulVec_eq_zero_iff.2 h0
      have h1 := hquad v
      rw [hv0, dotProduct_zero] at h1
      have h2 : ∑ i, v i ^ 2 = 0 := le_antisymm (by nlinarith) (sum_nonneg fun i _ => sq_nonneg _)
      refine hv (funext fun i => ?_)
      have h3 := (sum_eq_zero_iff_of_nonneg fun i _ => sq_nonneg (v i)).1 h2 i (mem_univ i)
      simpa using h3
    have hDs : D.mulVec s = -R := by rw [hfull', Matrix.mulVec_neg, hsol D R hreg]
    have hb1 := C156_static hf hc hK hst hY
    have hR2 : ∑ i ∈ range S.nd, o.1 i ^ 2 = R ⬝ᵥ R := by
      rw [Finset.sum_range]
      simp only [dotProduct, ← hR1, sq]
    have hx2 : ∑ i ∈ range S.nd, (Spec.ext x i - Y i) ^ 2 = ∑ i : Fin S.nd, (x i - Y i) ^ 2 := by
      simp only [Finset.sum_range, Spec.ext, Fin.is_lt, dif_pos, Fin.eta]
    rw [hR2, hx2] at hb1
    have hs1 := hquad s
    rw [hDs, dotProduct_neg] at hs1
    have hs2 : 0 ≤ ∑ i, (c * s i + R i) ^ 2 := sum_nonneg fun i _ => sq_nonneg _
    have hs3 : ∑ i, (c * s i + R i) ^ 2 = c ^ 2 * ∑ i, s i ^ 2 + 2 * c * (s ⬝ᵥ R) + R ⬝ᵥ R := by
      simp only [dotProduct, mul_sum, ← sum_add_distrib]
      exact sum_congr rfl fun i _ => by ring
    have hb2 : c ^ 2 * ∑ i, s i ^ 2 ≤ R ⬝ᵥ R := by nlinarith [mul_le_mul_of_nonneg_left hs1 hc.le]
    have hb3 : ∑ i, (res.X i - Y i) ^ 2 ≤ 2 * ∑ i, (x i - Y i) ^ 2 + 2 * ∑ i, s i ^ 2 := by
      rw [mul_sum, mul_sum, ← sum_add_distrib, hX']
      refine sum_le_sum fun i _ => ?_
      simp only [Pi.add_apply]
      nlinarith [sq_nonneg (x i - Y i - s i)]
    have hb4 : c ^ 2 * ∑ i, (res.X i - Y i) ^ 2 < (2 * ρ) ^ 2 := by nlinarith [mul_le_mul_of_nonneg_left hb3 (sq_nonneg c)]
    rw [← Real.sqrt_lt' (by positivity), Real.sqrt_mul (sq_nonneg c), Real.sqrt_sq hc.le] at hb4
    exact hb4

/-- A unit spring with a unit cubic spring under the load 10, which is in equilibrium at 2: with `rtol = 1e-6` every reported solution is within `2e-6` of 2. -/
example {inf : ℝ} {L : Type} {fac : Matrix (Fin 1) (Fin 1) ℝ → L} {sol : L → (Fin 1 → ℝ) → Fin 1 → ℝ} (hsol : ExactSolve fac sol) {X0 : Fin 1 → ℝ}
    {res : SolveRes (Fin 1 → ℝ) (Matrix (Fin 1) (Fin 1) ℝ)} {cfg' : OmpConfig ℝ}
    (h : nsolveOMP (realArith 1 inf fac sol) { stoppingTol := [.rtol], tol := fun n => if n = .rtol then some 1e-6 else none, lsTol := 1 / 2 }
      (staticSolve ⟨1, fun _ _ => 1, fun _ _ => 1, fun _ _ => 0, none,
        [instForce 1 1 (fun _ _ => 1) (fun _ _ => 1) (cubicLoc fun _ => 1) (cubicForce 1 1 (fun _ _ => 1) (fun _ _ => 1) fun _ => 1)]⟩ fun _ => 10)
      X0 none = (.ok res, cfg')) (hok : res.success = true) : |res.X 0 - 2| < 2e-6 := by
  set S : VibSys := ⟨1, fun _ _ => 1, fun _ _ => 1, fun _ _ => 0, none,
    [instForce 1 1 (fun _ _ => 1) (fun _ _ => 1) (cubicLoc fun _ => 1) (cubicForce 1 1 (fun _ _ => 1) (fun _ _ => 1) fun _ => 1)]⟩ with hS
  have hf : ∀ f ∈ S.forces, MonoForce S.nd f := by
    intro f hf
    simp only [hS, List.mem_singleton] at hf
    subst hf
    exact (C142_classes 1 1 _ _ (fun _ _ _ _ => rfl) (fun _ => 1) (fun _ => zero_le_one) (fun _ => 0) (fun _ => 0) ⟨1, 1, 0, 0⟩
      ⟨by norm_num, by norm_num, by norm_num, by norm_num⟩).1
  have h2 : StaticEq S (fun _ => 10) (fun _ => 2) := by
    rw [staticEq_iff hf]
    intro i hi
    norm_num [hS, totalForce, forceVal, instForce, cubicForce, matVec]
  have := C156_solver (S := S) (c := 1) hf one_pos (fun v => by simp [hS, sq]) h2 hsol rfl rfl rfl rfl (ρ := 1e-6) rfl h hok
  simp [Real.sqrt_sq_eq_abs] at this
  norm_num at this ⊢
  exact this

end

end TMD
