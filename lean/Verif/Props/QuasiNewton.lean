import Verif.Model.SolverIeee
import Verif.Props.SolverLinear

/-!
# C132: quasi-Newton steps and affine systems
-/

namespace TMD

open Spec Finset

noncomputable section

variable {n : ℕ} {L : Type} {fac : Matrix (Fin n) (Fin n) ℝ → L} {sol : L → (Fin n → ℝ) → (Fin n → ℝ)}

/-- A finite array. -/
def finV (x : Fin n → ℝ) : Fin n → Ieee := fun i => .fin (x i)

theorem finite_finV (x : Fin n → ℝ) : Ieee.finite? (finV x) = some x := by
  have h : ∃ y : Fin n → ℝ, finV x = fun i => Ieee.fin (y i) := ⟨x, rfl⟩
  rw [Ieee.finite?, dif_pos h]
  congr 1
  funext i
  have := congrFun h.choose_spec i
  simp only [finV, Ieee.fin.injEq] at this
  exact this.symm

theorem foldl_fin (l : List ℝ) (a : ℝ) : (l.map Ieee.fin).foldl Ieee.add (.fin a) = .fin (a + l.sum) := by
  induction l generalizing a with
  | nil => simp
  | cons b l ih => simp [Ieee.add, ih, add_assoc]

theorem sum_finV (x : Fin n → ℝ) : Ieee.sum (finV x) = .fin (∑ i, x i) := by
  have : List.ofFn (finV x) = (List.ofFn x).map Ieee.fin := by
    rw [List.map_ofFn]; rfl
  rw [Ieee.sum, this, foldl_fin, zero_add, List.sum_ofFn]

theorem foldl_nan (l : List Ieee) : l.foldl Ieee.add .nan = .nan := by
  induction l with
  | nil => rfl
  | cons b l ih => simpa [Ieee.add] using ih

theorem sum_nan (hn : 0 < n) : Ieee.sum (fun _ : Fin n => Ieee.nan) = .nan := by
  obtain ⟨m, rfl⟩ : ∃ m, n = m + 1 := ⟨n - 1, by omega⟩
  rw [Ieee.sum, List.ofFn_succ]
  simpa [Ieee.add] using foldl_nan _

theorem dot_finV (x y : Fin n → ℝ) : (ieeeArith n fac sol).dot (finV x) (finV y) = .fin (x ⬝ᵥ y) := sum_finV fun i => x i * y i

theorem isNan_finV (x : Fin n → ℝ) : (ieeeArith n fac sol).vIsNaN (finV x) = false := by
  show (Ieee.sum (finV x)).isNan = false
  rw [sum_finV]; rfl

theorem fsolve_finV (l : L) (x : Fin n → ℝ) : (ieeeArith n fac sol).fsolve l (finV x) = finV (sol l x) := by
  show (match Ieee.finite? (finV x) with | some x => fun i => Ieee.fin (sol l x i) | none => fun _ => .nan) = _
  rw [finite_finV]; rfl

theorem vneg_finV (x : Fin n → ℝ) : (ieeeArith n fac sol).vneg (finV x) = finV (-x) := rfl

theorem vadd_finV (x y : Fin n → ℝ) : (ieeeArith n fac sol).vadd (finV x) (finV y) = finV (x + y) := rfl

theorem vsub_finV (x y : Fin n → ℝ) : (ieeeArith n fac sol).vsub (finV x) (finV y) = finV (x - y) := by
  funext i
  show Ieee.fin (x i + -y i) = Ieee.fin (x i - y i)
  rw [sub_eq_add_neg]

theorem sqrt_dot (x : Fin n → ℝ) : Ieee.sqrt (.fin (x ⬝ᵥ x)) = .fin (Real.sqrt (x ⬝ᵥ x)) := by
  have : ¬ x ⬝ᵥ x < 0 := not_lt.2 (Finset.sum_nonneg fun i _ => mul_self_nonneg _)
  simp only [Ieee.sqrt, this, if_false]

theorem arith_mul : (ieeeArith n fac sol).mul = Ieee.mul := rfl

theorem arith_div : (ieeeArith n fac sol).div = Ieee.div := rfl

theorem smul_zero_finV (x : Fin n → ℝ) : (ieeeArith n fac sol).smul (.fin 0) (finV x) = finV 0 := by
  have h : (ieeeArith n fac sol).smul (.fin 0) (finV x) = fun i => Ieee.mul (.fin 0) (.fin (x i)) := rfl
  rw [h]
  funext i
  simp [Ieee.mul, finV]

theorem nan_end (d w : Fin n → Ieee) (z : Ieee) :
    (ieeeArith n fac sol).vadd d ((ieeeArith n fac sol).smul ((ieeeArith n fac sol).sub .nan z) w) = fun _ => .nan := by
  have h : (ieeeArith n fac sol).vadd d ((ieeeArith n fac sol).smul ((ieeeArith n fac sol).sub .nan z) w)
    = fun i => (d i).add ((Ieee.add .nan z.neg).mul (w i)) := rfl
  rw [h]
  funext i
  simp only [Ieee.add, Ieee.mul]
  cases d i <;> rfl

/-- The quasi-Newton step after an exact step: zero, or NaN if the error was orthogonal to its residual. -/
theorem bfgs_exact (l : L) (s y : ℕ → Fin n → Ieee) (p : ℕ → Ieee) (e r : Fin n → ℝ) (hs : s 0 = finV (-e)) (hy : y 0 = finV (-r)) (hsol : sol l 0 = 0)
    (hp : p 0 = (ieeeArith n fac sol).div (.fin 1) (.fin (e ⬝ᵥ r))) :
    bfgsStep (ieeeArith n fac sol) l s y p 1 (finV 0) = if e ⬝ᵥ r = 0 then fun _ => .nan else finV 0 := by
  have hp' : p 0 = if e ⬝ᵥ r = 0 then .inf false else .fin (1 / (e ⬝ᵥ r)) := by
    rw [hp, arith_div]
    simp only [Ieee.div, one_ne_zero, if_false]
    split_ifs
    · simp
    · rfl
  have hd0 : (ieeeArith n fac sol).dot (finV (-e)) (finV 0) = .fin 0 := by rw [dot_finV]; simp
  simp only [bfgsStep, bfgsLoop1, bfgsLoop2, hs, hy, hd0, if_true]
  by_cases h : e ⬝ᵥ r = 0
  · simp only [hp', h, if_true]
    have e1 : (ieeeArith n fac sol).mul (.inf false) (.fin 0) = .nan := by rw [arith_mul]; simp [Ieee.mul]
    rw [e1]
    exact nan_end _ _ _
  · simp only [hp', h, if_false]
    have e1 : (ieeeArith n fac sol).mul (.fin (1 / (e ⬝ᵥ r))) (.fin 0) = .fin 0 := by rw [arith_mul]; simp [Ieee.mul]
    have e2 : (ieeeArith n fac sol).smul (.fin 0) (finV (-r)) = finV 0 := smul_zero_finV _
    have e3 : (ieeeArith n fac sol).dot (finV (-r)) (finV 0) = .fin 0 := by rw [dot_finV]; simp
    have e4 : (ieeeArith n fac sol).sub (.fin 0) (.fin 0) = .fin 0 := by
      have h : (ieeeArith n fac sol).sub (.fin 0) (.fin 0) = Ieee.add (.fin 0) (Ieee.neg (.fin 0)) := rfl
      rw [h]; simp [Ieee.add, Ieee.neg]
    have e5 : (ieeeArith n fac sol).smul (.fin 0) (finV (-e)) = finV 0 := smul_zero_finV _
    rw [e1, e2, vsub_finV, sub_zero, fsolve_finV, hsol, e3, e1, e4, e5, vadd_finV, add_zero]

/-- The settings: quasi-Newton steps between full ones, no line search, stopping on the step size. -/
structure QuasiNewton (c : OmpConfig Ieee) : Prop where
  reform : 2 ≤ c.reformFreq
  line : c.lsIters = 0
  stop : c.stoppingTol = [.xtol]

/-- Test of convergence on the step size. -/
theorem check_xtol {A : Arith Ieee (Fin n → Ieee) (Matrix (Fin n) (Fin n) ℝ) L} (hA : A.lt = Ieee.lt) (hA' : A.abs = Ieee.abs) {c : OmpConfig Ieee}
    (hstop : c.stoppingTol = [.xtol]) {t u : ℝ} (ht : c.tol .xtol = some (.fin t)) (hu : 0 ≤ u) {x : Errs Ieee} (hx : x.u = .fin u) :
    checkConvg A c.stoppingTol c.tol x = .ok (decide (u < t)) := by
  simp only [checkConvg, hstop, checkLoop, errorDict, ht, hA, hA', hx, Ieee.abs, Ieee.lt, abs_of_nonneg hu]

/-- C132, the outcome for affine systems: the returned point is the solution, but success is reported only if the first step was shorter
than the tolerance or the first error is not orthogonal to its residual. -/
theorem C132_outcome {D : Matrix (Fin n) (Fin n) ℝ} (hD : IsUnit D.det) {b x0 x : Fin n → ℝ} (hx : D.mulVec x = b) (hsol : ExactSolve fac sol)
    {f : SolveFun (Fin n → Ieee) (Matrix (Fin n) (Fin n) ℝ)} (hf : ∀ v g, ∃ D', f (finV v) g = .ok (finV (D.mulVec v - b), D') ∧ (g = true → D' = D))
    {c : OmpConfig Ieee} (hc : QuasiNewton c) (hm : 2 ≤ c.maxSteps) {xtol : Option Ieee} {t : ℝ} (ht : 0 < t)
    (hxt : effectiveXtol (ieeeArith n fac sol) c (finV x0) xtol = .fin t) :
    ∃ res, nsolveOMP (ieeeArith n fac sol) c f (finV x0) xtol = (.ok res, c) ∧ res.X = finV x ∧
      (res.success = true ↔ Real.sqrt ((x0 - x) ⬝ᵥ (x0 - x)) < t ∨ (x0 - x) ⬝ᵥ D.mulVec (x0 - x) ≠ 0) := by
  set e := x0 - x with he
  have hinj : ∀ u v, D.mulVec u = D.mulVec v → u = v := fun u v h => by
    have : D⁻¹.mulVec (D.mulVec u) = D⁻¹.mulVec (D.mulVec v) := congrArg _ h
    simpa [Matrix.mulVec_mulVec, Matrix.nonsing_inv_mul _ hD] using this
  have hR0 : D.mulVec x0 - b = D.mulVec e := by rw [he, Matrix.mulVec_sub, hx]
  have hR1 : D.mulVec x - b = 0 := by rw [hx, sub_self]
  have hs0 : sol (fac D) (D.mulVec e) = e := hinj _ _ (hsol D _ hD)
  have hsz : sol (fac D) 0 = 0 := hinj _ _ (by rw [hsol D _ hD, Matrix.mulVec_zero])
  have hx1 : x0 + -e = x := by rw [he]; abel
  obtain ⟨D0, f0, g0⟩ := hf x0 true
  obtain rfl := g0 rfl
  obtain ⟨D1, f1, -⟩ := hf x false
  rw [hR0] at f0
  rw [hR1] at f1
  have hback : ((c.withXtol (some (.fin t))).withXtol (c.tol .xtol)) = c := by
    simp only [OmpConfig.withXtol]
    congr 1
    funext k
    by_cases hk : k = .xtol <;> simp [hk]
  have hvneg : (ieeeArith n fac sol).vneg (finV (sol (fac D0) (D0.mulVec e))) = finV (-e) := by rw [vneg_finV, hs0]
  obtain ⟨k, hk⟩ : ∃ k, c.maxSteps = k + 1 + 1 := ⟨c.maxSteps - 2, by omega⟩
  set c' := c.withXtol (some (.fin t)) with hc'
  have ht' : c'.tol .xtol = some (.fin t) := by simp [hc', OmpConfig.withXtol]
  have hstop' : c'.stoppingTol = [.xtol] := hc.stop
  have hline' : ¬ 0 < c'.lsIters := by rw [show c'.lsIters = c.lsIters from rfl, hc.line]; exact lt_irrefl _
  have hu : Real.sqrt (-e ⬝ᵥ -e) = Real.sqrt (e ⬝ᵥ e) := by simp
  have hr0 : c'.reformFreq ≠ 0 := by have := hc.reform; show c.reformFreq ≠ 0; omega
  have hmod : (0 + 1) % c'.reformFreq = 1 := Nat.mod_eq_of_lt (by have := hc.reform; show 0 + 1 < c.reformFreq; omega)
  have hdot : (ieeeArith n fac sol).dot (finV (-e)) (finV (-e)) = .fin (-e ⬝ᵥ -e) := dot_finV _ _
  have hdot0 : (ieeeArith n fac sol).dot (finV 0) (finV 0) = .fin ((0 : Fin n → ℝ) ⬝ᵥ 0) := dot_finV _ _
  have hsq : (ieeeArith n fac sol).sqrt = Ieee.sqrt := rfl
  simp only [nsolveOMP, hxt, ← hc', show c'.maxSteps = k + 1 + 1 from hk]
  rw [solveLoop]
  simp only [direction, startSt, if_true, f0, isNan_finV, Bool.false_eq_true, if_false, show (ieeeArith n fac sol).mIsNaN D0 = false from rfl, hr0,
    fsolve_finV, show (ieeeArith n fac sol).factor D0 = fac D0 from rfl, hvneg, hline', vadd_finV, hx1, hdot, hsq, sqrt_dot, hu]
  rw [check_xtol rfl rfl hstop' ht' (Real.sqrt_nonneg (e ⬝ᵥ e)) rfl]
  by_cases hlt : Real.sqrt (e ⬝ᵥ e) < t
  · simp only [hlt, decide_true, finish, true_or, iff_true]
    exact ⟨_, by rw [hback], rfl, rfl⟩
  · simp only [hlt, decide_false, false_or, hmod]
    have hn : 0 < n := by
      rcases Nat.eq_zero_or_pos n with rfl | h
      · exact absurd (by simpa [dotProduct] using ht) hlt
      · exact h
    have hbf := bfgs_exact (fac := fac) (sol := sol) (fac D0) (setRow (fun _ => (ieeeArith n fac sol).vzero) 0 (finV (-e)))
      (setRow (fun _ => (ieeeArith n fac sol).vzero) 0 (finV (-D0.mulVec e)))
      (setRow (fun _ => (ieeeArith n fac sol).zero) 0 ((ieeeArith n fac sol).div (.fin 1) (.fin (e ⬝ᵥ D0.mulVec e)))) e (D0.mulVec e)
      (by simp [setRow]) (by simp [setRow]) hsz (by simp [setRow])
    have hsub : (ieeeArith n fac sol).vsub (finV 0) (finV (D0.mulVec e)) = finV (-D0.mulVec e) := by rw [vsub_finV, zero_sub]
    have hdsy : (ieeeArith n fac sol).dot (finV (-e)) (finV (-D0.mulVec e)) = .fin (e ⬝ᵥ D0.mulVec e) := by
      rw [dot_finV, neg_dotProduct_neg]
    have hneg0 : (ieeeArith n fac sol).vneg (finV 0) = finV 0 := by rw [vneg_finV, neg_zero]
    rw [solveLoop]
    simp only [direction, one_ne_zero, if_false, f1, isNan_finV, Bool.false_eq_true, hsub, hdsy, Nat.sub_self,
      show (ieeeArith n fac sol).one = .fin 1 from rfl, hneg0, hbf]
    by_cases hq : e ⬝ᵥ D0.mulVec e = 0
    · have hnan : (ieeeArith n fac sol).vIsNaN (fun _ => Ieee.nan) = true := by
        show (Ieee.sum _).isNan = true
        rw [sum_nan hn]; rfl
      simp only [hq, if_true, hnan, finish, ne_eq, not_true, iff_false]
      exact ⟨_, by rw [hback], rfl, by simp⟩
    · simp only [hq, if_false, isNan_finV, Bool.false_eq_true, hline', vadd_finV, add_zero, hdot0, hsq, sqrt_dot]
      rw [check_xtol rfl rfl hstop' ht' (Real.sqrt_nonneg ((0 : Fin n → ℝ) ⬝ᵥ 0)) rfl]
      have h0 : Real.sqrt ((0 : Fin n → ℝ) ⬝ᵥ 0) < t := by simpa using ht
      simp only [h0, decide_true, finish, ne_eq, hq, not_false_eq_true, iff_true]
      exact ⟨_, by rw [hback], rfl, rfl⟩

/-- C132 is violated: if the matrix is skew-symmetric (up to a symmetric part that vanishes), the call reports failure from every start that is
farther from the solution than the tolerance, although the returned point is the solution. -/
theorem C132_skew_fails {D : Matrix (Fin n) (Fin n) ℝ} (hD : IsUnit D.det) (hskew : ∀ v, v ⬝ᵥ D.mulVec v = 0) {b x0 x : Fin n → ℝ} (hx : D.mulVec x = b)
    (hsol : ExactSolve fac sol) {f : SolveFun (Fin n → Ieee) (Matrix (Fin n) (Fin n) ℝ)}
    (hf : ∀ v g, ∃ D', f (finV v) g = .ok (finV (D.mulVec v - b), D') ∧ (g = true → D' = D)) {c : OmpConfig Ieee} (hc : QuasiNewton c)
    (hm : 2 ≤ c.maxSteps) {xtol : Option Ieee} {t : ℝ} (ht : 0 < t) (hxt : effectiveXtol (ieeeArith n fac sol) c (finV x0) xtol = .fin t)
    (hfar : t ≤ Real.sqrt ((x0 - x) ⬝ᵥ (x0 - x))) :
    ∃ res, nsolveOMP (ieeeArith n fac sol) c f (finV x0) xtol = (.ok res, c) ∧ res.X = finV x ∧ res.success = false := by
  obtain ⟨res, h1, h2, h3⟩ := C132_outcome hD hx hsol hf hc hm ht hxt
  refine ⟨res, h1, h2, ?_⟩
  rw [← Bool.not_eq_true, h3, not_or, not_lt]
  exact ⟨hfar, fun h => h (hskew _)⟩

/-- C132 for definite matrices: success from every start, with the solution. -/
theorem C132_definite_partial {D : Matrix (Fin n) (Fin n) ℝ} (hdef : ∀ v, v ≠ 0 → v ⬝ᵥ D.mulVec v ≠ 0) {b x0 x : Fin n → ℝ} (hx : D.mulVec x = b)
    (hsol : ExactSolve fac sol) {f : SolveFun (Fin n → Ieee) (Matrix (Fin n) (Fin n) ℝ)}
    (hf : ∀ v g, ∃ D', f (finV v) g = .ok (finV (D.mulVec v - b), D') ∧ (g = true → D' = D)) {c : OmpConfig Ieee} (hc : QuasiNewton c)
    (hm : 2 ≤ c.maxSteps) {xtol : Option Ieee} {t : ℝ} (ht : 0 < t) (hxt : effectiveXtol (ieeeArith n fac sol) c (finV x0) xtol = .fin t) :
    ∃ res, nsolveOMP (ieeeArith n fac sol) c f (finV x0) xtol = (.ok res, c) ∧ res.X = finV x ∧ res.success = true := by
  have hD : IsUnit D.det := by
    rw [isUnit_iff_ne_zero]
    intro h0
    obtain ⟨v, v0, hv⟩ := Matrix.exists_mulVec_eq_zero_iff.2 h0
    exact hdef v v0 (by rw [hv, dotProduct_zero])
  obtain ⟨res, h1, h2, h3⟩ := C132_outcome hD hx hsol hf hc hm ht hxt
  refine ⟨res, h1, h2, h3.2 ?_⟩
  by_cases h0 : x0 - x = 0
  · left; rw [h0]; simpa using ht
  · exact Or.inr (hdef _ h0)

/-- C132 without quasi-Newton steps: success from every start for every regular matrix, in the same arithmetic. -/
theorem C132_newton {D : Matrix (Fin n) (Fin n) ℝ} (hD : IsUnit D.det) {b x0 x : Fin n → ℝ} (hx : D.mulVec x = b) (hsol : ExactSolve fac sol)
    {f : SolveFun (Fin n → Ieee) (Matrix (Fin n) (Fin n) ℝ)} (hf : ∀ v g, ∃ D', f (finV v) g = .ok (finV (D.mulVec v - b), D') ∧ (g = true → D' = D))
    {c : OmpConfig Ieee} (hr : c.reformFreq = 1) (hl : c.lsIters = 0) (hstop : c.stoppingTol = [.xtol]) (hm : 2 ≤ c.maxSteps) {xtol : Option Ieee} {t : ℝ}
    (ht : 0 < t) (hxt : effectiveXtol (ieeeArith n fac sol) c (finV x0) xtol = .fin t) :
    ∃ res, nsolveOMP (ieeeArith n fac sol) c f (finV x0) xtol = (.ok res, c) ∧ res.X = finV x ∧ res.success = true := by
  set e := x0 - x with he
  have hinj : ∀ u v, D.mulVec u = D.mulVec v → u = v := fun u v h => by
    have : D⁻¹.mulVec (D.mulVec u) = D⁻¹.mulVec (D.mulVec v) := congrArg _ h
    simpa [Matrix.mulVec_mulVec, Matrix.nonsing_inv_mul _ hD] using this
  have hR0 : D.mulVec x0 - b = D.mulVec e := by rw [he, Matrix.mulVec_sub, hx]
  have hR1 : D.mulVec x - b = 0 := by rw [hx, sub_self]
  have hs0 : sol (fac D) (D.mulVec e) = e := hinj _ _ (hsol D _ hD)
  have hsz : sol (fac D) 0 = 0 := hinj _ _ (by rw [hsol D _ hD, Matrix.mulVec_zero])
  have hx1 : x0 + -e = x := by rw [he]; abel
  obtain ⟨D0, f0, g0⟩ := hf x0 true
  obtain rfl := g0 rfl
  obtain ⟨D1, f1, g1⟩ := hf x true
  obtain rfl := g1 rfl
  rw [hR0] at f0
  rw [hR1] at f1
  have hback : ((c.withXtol (some (.fin t))).withXtol (c.tol .xtol)) = c := by
    simp only [OmpConfig.withXtol]
    congr 1
    funext k
    by_cases hk : k = .xtol <;> simp [hk]
  have hvneg : (ieeeArith n fac sol).vneg (finV (sol (fac D1) (D1.mulVec e))) = finV (-e) := by rw [vneg_finV, hs0]
  have hvneg0 : (ieeeArith n fac sol).vneg (finV (sol (fac D1) 0)) = finV 0 := by rw [vneg_finV, hsz, neg_zero]
  obtain ⟨k, hk⟩ : ∃ k, c.maxSteps = k + 1 + 1 := ⟨c.maxSteps - 2, by omega⟩
  set c' := c.withXtol (some (.fin t)) with hc'
  have ht' : c'.tol .xtol = some (.fin t) := by simp [hc', OmpConfig.withXtol]
  have hstop' : c'.stoppingTol = [.xtol] := hstop
  have hline' : ¬ 0 < c'.lsIters := by rw [show c'.lsIters = c.lsIters from rfl, hl]; exact lt_irrefl _
  have hu : Real.sqrt (-e ⬝ᵥ -e) = Real.sqrt (e ⬝ᵥ e) := by simp
  have hr0 : c'.reformFreq ≠ 0 := by rw [show c'.reformFreq = c.reformFreq from rfl, hr]; exact one_ne_zero
  have hmod : (0 + 1) % c'.reformFreq = 0 := by rw [show c'.reformFreq = c.reformFreq from rfl, hr]
  have hdot : (ieeeArith n fac sol).dot (finV (-e)) (finV (-e)) = .fin (-e ⬝ᵥ -e) := dot_finV _ _
  have hdot0 : (ieeeArith n fac sol).dot (finV 0) (finV 0) = .fin ((0 : Fin n → ℝ) ⬝ᵥ 0) := dot_finV _ _
  have hsq : (ieeeArith n fac sol).sqrt = Ieee.sqrt := rfl
  simp only [nsolveOMP, hxt, ← hc', show c'.maxSteps = k + 1 + 1 from hk]
  rw [solveLoop]
  simp only [direction, startSt, if_true, f0, isNan_finV, Bool.false_eq_true, if_false, show (ieeeArith n fac sol).mIsNaN D1 = false from rfl, hr0,
    fsolve_finV, show (ieeeArith n fac sol).factor D1 = fac D1 from rfl, hvneg, hline', vadd_finV, hx1, hdot, hsq, sqrt_dot, hu]
  rw [check_xtol rfl rfl hstop' ht' (Real.sqrt_nonneg (e ⬝ᵥ e)) rfl]
  by_cases hlt : Real.sqrt (e ⬝ᵥ e) < t
  · simp only [hlt, decide_true, finish]
    exact ⟨_, by rw [hback], rfl, rfl⟩
  · simp only [hlt, decide_false, hmod]
    rw [solveLoop]
    simp only [direction, if_true, f1, isNan_finV, Bool.false_eq_true, if_false, show (ieeeArith n fac sol).mIsNaN D1 = false from rfl, hr0,
      fsolve_finV, show (ieeeArith n fac sol).factor D1 = fac D1 from rfl, hvneg0, hline', vadd_finV, add_zero, hdot0, hsq, sqrt_dot]
    rw [check_xtol rfl rfl hstop' ht' (Real.sqrt_nonneg ((0 : Fin n → ℝ) ⬝ᵥ 0)) rfl]
    have h0 : Real.sqrt ((0 : Fin n → ℝ) ⬝ᵥ 0) < t := by simpa using ht
    simp only [h0, decide_true, finish]
    exact ⟨_, by rw [hback], rfl, rfl⟩

/-- Harmonic balance of a linear oscillator with one harmonic is affine, with the matrix of the harmonic stiffness. -/
theorem oscillator_affine (m c k w : ℝ) (Fl : ℕ → ℝ) (Nt : ℕ) (tol : ℝ) (v : Fin 2 → ℝ) (g : Bool) :
    ∃ D', finiteFun (hbmAt ⟨1, fun _ _ => m, fun _ _ => k, fun _ _ => c, none, []⟩ w Fl [1] Nt tol 2) (finV v) g
      = .ok (finV ((!![k - w ^ 2 * m, c * w; -(c * w), k - w ^ 2 * m] : Matrix (Fin 2) (Fin 2) ℝ).mulVec v - fun i : Fin 2 => Fl i), D') ∧
      (g = true → D' = !![k - w ^ 2 * m, c * w; -(c * w), k - w ^ 2 * m]) := by
  have hh : Admissible [1] := ⟨by simp, by decide, by decide⟩
  let S : VibSys := ⟨1, fun _ _ => m, fun _ _ => k, fun _ _ => c, none, []⟩
  let A : NLForce → (ℕ → ℝ) → ℝ → AftOut := fun _ _ _ => ⟨fun _ => 0, fun _ _ => 0, fun _ => 0⟩
  have h1 := hbmRes_ok S hh Nt tol A (by simp [S]) (hcat 2 (Spec.ext v) fun _ => w) Fl
  have h2 := hbmRes_ng S hh Nt tol A (by simp [S]) (hcat 2 (Spec.ext v) fun _ => w) Fl
  have hE : ∀ i j : Fin 2, hsE 1 (fun _ _ => m) (fun _ _ => c) (fun _ _ => k) w [1] false i j
      = (!![k - w ^ 2 * m, c * w; -(c * w), k - w ^ 2 * m] : Matrix (Fin 2) (Fin 2) ℝ) i j := fun i j => by
    have h := hsE_row (nd := 1) (fun _ _ => m) (fun _ _ => c) (fun _ _ => k) w (h := [1]) false (i := 0) (by decide) (R := i) (S := j) (d := 0) (e := 0)
      (by fin_cases i <;> simp [zi]) (by omega) (by omega)
    simp only [one_mul, add_zero] at h
    rw [h]
    fin_cases i <;> fin_cases j <;> simp [zi] <;> ring
  have hnc : numCoeff [1] = 2 := by decide
  have hw : hcat 2 (Spec.ext v) (fun _ => w) 2 = w := by simp [hcat]
  have hU : sl 0 2 (hcat 2 (Spec.ext v) fun _ => w) = Spec.ext v := by
    funext i
    simp only [sl, hcat, Nat.sub_zero, Nat.zero_add]
    split_ifs with hi
    · rfl
    · simp [Spec.ext, hi]
  have hG : ∀ i : Fin 2, hbmG S A [1] (hcat 2 (Spec.ext v) fun _ => w) i
      = (!![k - w ^ 2 * m, c * w; -(c * w), k - w ^ 2 * m] : Matrix (Fin 2) (Fin 2) ℝ).mulVec v i := fun i => by
    simp only [hbmG, hnc, S, mul_one, hw, hU, List.map_nil, List.sum_nil, add_zero, matVec, Matrix.mulVec, dotProduct]
    rw [Finset.sum_range]
    exact sum_congr rfl fun j _ => by rw [hE]; simp [Spec.ext, show (j : ℕ) < 2 from j.2]
  cases g with
  | true =>
    refine ⟨_, ?_, fun _ => rfl⟩
    simp only [finiteFun, finite_finV, hbmAt]
    rw [show hbmRes ⟨1, fun _ _ => m, fun _ _ => k, fun _ _ => c, none, []⟩ _ Fl [1] Nt tol true = _ from h1]
    simp only
    congr 2
    · funext i
      simp only [finV, Pi.sub_apply, hG]
    · funext i j
      simp only [hbmJ, hnc, S, mul_one, hw, List.map_nil, List.sum_nil, add_zero, hE]
  | false =>
    refine ⟨fun _ _ => 0, ?_, fun h => by cases h⟩
    simp only [finiteFun, finite_finV, hbmAt]
    rw [show hbmRes ⟨1, fun _ _ => m, fun _ _ => k, fun _ _ => c, none, []⟩ _ Fl [1] Nt tol false = _ from h2]
    simp only
    congr 2
    funext i
    simp only [finV, Pi.sub_apply, hG]

/-- C132 is violated in harmonic balance: a damped linear oscillator driven at its natural frequency. Whatever the force and the start (farther from the
response than the tolerance), the solver with quasi-Newton steps reaches the response and reports failure. -/
theorem C132_resonance_fails {fac : Matrix (Fin 2) (Fin 2) ℝ → L} {sol : L → (Fin 2 → ℝ) → (Fin 2 → ℝ)} (hsol : ExactSolve fac sol) {m c k w : ℝ}
    (hres : k = w ^ 2 * m) (hcw : c * w ≠ 0) (Fl : ℕ → ℝ) (Nt : ℕ) (tol : ℝ) {om : OmpConfig Ieee} (hom : QuasiNewton om) (hm : 2 ≤ om.maxSteps)
    {x0 : Fin 2 → ℝ} {xtol : Option Ieee} {t : ℝ} (ht : 0 < t) (hxt : effectiveXtol (ieeeArith 2 fac sol) om (finV x0) xtol = .fin t)
    (hfar : t ≤ Real.sqrt ((x0 0 + Fl 1 / (c * w)) ^ 2 + (x0 1 - Fl 0 / (c * w)) ^ 2)) :
    ∃ res, nsolveOMP (ieeeArith 2 fac sol) om (finiteFun (hbmAt ⟨1, fun _ _ => m, fun _ _ => k, fun _ _ => c, none, []⟩ w Fl [1] Nt tol 2)) (finV x0) xtol
        = (.ok res, om) ∧ res.X = finV ![-(Fl 1 / (c * w)), Fl 0 / (c * w)] ∧ res.success = false := by
  have h0 : k - w ^ 2 * m = 0 := by rw [hres, sub_self]
  have hdet : (!![k - w ^ 2 * m, c * w; -(c * w), k - w ^ 2 * m] : Matrix (Fin 2) (Fin 2) ℝ).det = (c * w) ^ 2 := by
    rw [Matrix.det_fin_two_of, h0]; ring
  refine C132_skew_fails (D := !![k - w ^ 2 * m, c * w; -(c * w), k - w ^ 2 * m]) (b := fun i : Fin 2 => Fl i) (by rw [hdet, isUnit_iff_ne_zero]; positivity) (fun v => ?_) ?_ hsol
    (oscillator_affine m c k w Fl Nt tol) hom hm ht hxt ?_
  · rw [h0]
    simp [Matrix.mulVec, dotProduct, Fin.sum_univ_two]
    ring
  · funext i
    have hc0 : c ≠ 0 := left_ne_zero_of_mul hcw
    have hw0 : w ≠ 0 := right_ne_zero_of_mul hcw
    rw [h0]
    fin_cases i
    · simp [Matrix.mulVec, dotProduct, Fin.sum_univ_two]; field_simp
    · simp [Matrix.mulVec, dotProduct, Fin.sum_univ_two]; field_simp
  · refine hfar.trans (Real.sqrt_le_sqrt (le_of_eq ?_))
    simp [dotProduct, Fin.sum_univ_two]
    ring

/-- C132 on `x'' + x' + x = cos t`: from rest, with `reform_freq = 2` and the default settings, the response `sin t` is reached and failure reported. -/
example : ∃ res, nsolveOMP (ieeeArith 2 id fun D v => D⁻¹.mulVec v) { lsTol := .fin (1 / 2), reformFreq := 2 }
    (finiteFun (hbmAt ⟨1, fun _ _ => 1, fun _ _ => 1, fun _ _ => 1, none, []⟩ 1 (fun i => if i = 0 then 1 else 0) [1] 4 0 2)) (finV 0) none
      = (.ok res, { lsTol := .fin (1 / 2), reformFreq := 2 }) ∧ res.X = finV ![0, 1] ∧ res.success = false := by
  have h := C132_resonance_fails (m := 1) (c := 1) (k := 1) (w := 1) exactSolve_inv (by norm_num) (by norm_num) (fun i => if i = 0 then 1 else 0) 4 0
    (om := { lsTol := .fin (1 / 2), reformFreq := 2 }) ⟨by decide, rfl, rfl⟩ (by decide) (x0 := 0) (xtol := none) (t := 1 / 1000000 * (2 : ℕ)) (by norm_num) rfl
    (by norm_num)
  simpa using h

/-- C132 away from resonance, `x'' + 4 x = cos t`: success. -/
example (x0 : Fin 2 → ℝ) : ∃ res, nsolveOMP (ieeeArith 2 id fun D v => D⁻¹.mulVec v) { lsTol := .fin (1 / 2), reformFreq := 2 }
    (finiteFun (hbmAt ⟨1, fun _ _ => 1, fun _ _ => 4, fun _ _ => 0, none, []⟩ 1 (fun i => if i = 0 then 1 else 0) [1] 4 0 2)) (finV x0) none
      = (.ok res, { lsTol := .fin (1 / 2), reformFreq := 2 }) ∧ res.X = finV ![1 / 3, 0] ∧ res.success = true := by
  refine C132_definite_partial (D := !![4 - 1 ^ 2 * 1, 0 * 1; -(0 * 1), 4 - 1 ^ 2 * 1]) (b := fun i : Fin 2 => if (i : ℕ) = 0 then 1 else 0) (fun v hv => ?_) ?_ exactSolve_inv
    (oscillator_affine 1 0 4 1 _ 4 0) ⟨by decide, rfl, rfl⟩ (by decide) (t := 1 / 1000000 * (2 : ℕ)) (by norm_num) rfl
  · intro h
    apply hv
    simp [Matrix.mulVec, dotProduct, Fin.sum_univ_two] at h
    funext i
    fin_cases i
    · simp; nlinarith [mul_self_nonneg (v 0), mul_self_nonneg (v 1)]
    · simp; nlinarith [mul_self_nonneg (v 0), mul_self_nonneg (v 1)]
  · funext i
    fin_cases i <;> norm_num [Matrix.mulVec, dotProduct, Fin.sum_univ_two]

end

end TMD
