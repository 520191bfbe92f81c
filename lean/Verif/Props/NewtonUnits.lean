import Verif.Props.SolverConverges
import Verif.Props.SolverOMP
import Verif.Model.ContinuationOMP

/-!
# C161: units of the equations and of the unknowns in Newton's method
-/

namespace TMD

open Spec

noncomputable section

variable {n : ℕ} {L L' : Type} {inf inf' : ℝ} {fac : Matrix (Fin n) (Fin n) ℝ → L} {sol : L → (Fin n → ℝ) → (Fin n → ℝ)}
  {fac' : Matrix (Fin n) (Fin n) ℝ → L'} {sol' : L' → (Fin n → ℝ) → (Fin n → ℝ)} {A P : Matrix (Fin n) (Fin n) ℝ} {f g : SolveFun (Fin n → ℝ) (Matrix (Fin n) (Fin n) ℝ)}

/-- `g` is `f` with the equations combined by `A` and with unknowns `Y` for which `X = P Y`. -/
def InUnits (A P : Matrix (Fin n) (Fin n) ℝ) (f g : SolveFun (Fin n → ℝ) (Matrix (Fin n) (Fin n) ℝ)) : Prop :=
  ∀ Y R D, f (P.mulVec Y) true = .ok (R, D) → g Y true = .ok (A.mulVec R, A * D * P)

/-- All Jacobians of `f` are regular. -/
def RegularJac (f : SolveFun (Fin n → ℝ) (Matrix (Fin n) (Fin n) ℝ)) : Prop := ∀ X R D, f X true = .ok (R, D) → IsUnit D.det

theorem solve_units (hsol : ExactSolve fac sol) (hsol' : ExactSolve fac' sol') (hA : IsUnit A.det) (hP : IsUnit P.det) {D : Matrix (Fin n) (Fin n) ℝ} (hD : IsUnit D.det)
    (R : Fin n → ℝ) : sol (fac D) R = P.mulVec (sol' (fac' (A * D * P)) (A.mulVec R)) := by
  have h1 := hsol D R hD
  have hu : IsUnit (A * D * P).det := by rw [Matrix.det_mul, Matrix.det_mul]; exact (hA.mul hD).mul hP
  have h2 := hsol' (A * D * P) (A.mulVec R) hu
  have hAD : IsUnit (A * D).det := by rw [Matrix.det_mul]; exact hA.mul hD
  have h3 : (A * D).mulVec (sol (fac D) R) = (A * D).mulVec (P.mulVec (sol' (fac' (A * D * P)) (A.mulVec R))) := by
    rw [Matrix.mulVec_mulVec, h2, ← Matrix.mulVec_mulVec, h1]
  have h4 := congrArg (A * D)⁻¹.mulVec h3
  simpa only [Matrix.mulVec_mulVec, ← Matrix.mul_assoc, Matrix.nonsing_inv_mul _ hAD, Matrix.one_mulVec, Matrix.one_mul] using h4

/-- C161: the iterates of Newton's method for the equations in other units are the iterates in other units, with whatever tolerances and linear solvers the two calls run. -/
theorem C161_iterates (hA : IsUnit A.det) (hP : IsUnit P.det) (hsol : ExactSolve fac sol) (hsol' : ExactSolve fac' sol') (hreg : RegularJac f) (hg : InUnits A P f g)
    {c c' : OmpConfig ℝ} (hr : c.reformFreq = 1) (hl : c.lsIters = 0) (hr' : c'.reformFreq = 1) (hl' : c'.lsIters = 0) {Y0 : Fin n → ℝ} {xtol xtol' : Option ℝ}
    {res res' : SolveRes (Fin n → ℝ) (Matrix (Fin n) (Fin n) ℝ)} {d d' : OmpConfig ℝ} (h : nsolveOMP (realArith n inf fac sol) c f (P.mulVec Y0) xtol = (.ok res, d))
    (h' : nsolveOMP (realArith n inf' fac' sol') c' g Y0 xtol' = (.ok res', d')) {j : ℕ} {a b : Iter (Fin n → ℝ)} (ha : res.trace[j]? = some a) (hb : res'.trace[j]? = some b) :
    a.X = P.mulVec b.X ∧ b.R = A.mulVec a.R ∧ a.step = P.mulVec b.step := by
  obtain ⟨-, it, m, run, -, ht, -⟩ := C15_report _ c f _ xtol res d h
  obtain ⟨-, it', m', run', -, ht', -⟩ := C15_report _ c' g _ xtol' res' d' h'
  have one : ∀ j, j < m → j < m' → (it j).X = P.mulVec (it' j).X → (it' j).R = A.mulVec (it j).R ∧ (it j).step = P.mulVec (it' j).step := by
    intro j h1 h2 hX
    have n1 : (it j).newton = true := by rw [run.newton j h1, hr]; simp [Nat.mod_one]
    have n2 : (it' j).newton = true := by rw [run'.newton j h2, hr']; simp [Nat.mod_one]
    obtain ⟨D, e1, e2⟩ := run.residual j h1
    obtain ⟨D', e1', e2'⟩ := run'.residual j h2
    rw [n1, hX] at e1
    rw [n2, hg _ _ _ e1] at e1'
    obtain ⟨hR, hD⟩ := Prod.ext_iff.1 (Except.ok.inj e1')
    simp only at hR hD
    refine ⟨hR.symm, ?_⟩
    rw [(run.step j h1).1 hl, (e2 n1).2, (run'.step j h2).1 hl', (e2' n2).2, ← hR, ← hD]
    show -(sol (fac D) (it j).R) = P.mulVec (-(sol' (fac' (A * D * P)) (A.mulVec (it j).R)))
    rw [Matrix.mulVec_neg, solve_units hsol hsol' hA hP (hreg _ _ _ e1)]
  have key : ∀ j, j < m → j < m' → (it j).X = P.mulVec (it' j).X := by
    intro j
    induction j with
    | zero =>
      intro h1 h2
      rw [run.chain 0 h1, run'.chain 0 h2]
      rfl
    | succ j ih =>
      intro h1 h2
      have e := ih (by omega) (by omega)
      rw [run.chain _ h1, run'.chain _ h2]
      show (it j).X + (it j).step = P.mulVec ((it' j).X + (it' j).step)
      rw [Matrix.mulVec_add, e, (one j (by omega) (by omega) e).2]
  rw [ht] at ha
  rw [ht'] at hb
  obtain ⟨h1, rfl⟩ : j < m ∧ it j = a := by
    simpa [List.getElem?_map, List.getElem?_range, List.getElem?_eq_some_iff] using ha
  obtain ⟨h2, rfl⟩ : j < m' ∧ it' j = b := by
    simpa [List.getElem?_map, List.getElem?_range, List.getElem?_eq_some_iff] using hb
  exact ⟨key j h1 h2, one j h1 h2 (key j h1 h2)⟩

/-- C161: with `xtol` as the only tolerance, combining the equations by a regular matrix does not change what the solver returns: the same points, the same report. -/
theorem C161_equations (hA : IsUnit A.det) (hsol : ExactSolve fac sol) (hf : ∀ X, ∃ R D, f X true = .ok (R, D)) (hreg : RegularJac f) (hg : InUnits A 1 f g)
    {c : OmpConfig ℝ} (hc : PlainNewton c) (hacc : c.acceptingTol = []) (hm : 0 < c.maxSteps) (X0 : Fin n → ℝ) (xtol : Option ℝ) :
    ∃ res res', nsolveOMP (realArith n inf fac sol) c f X0 xtol = (.ok res, c) ∧ nsolveOMP (realArith n inf fac sol) c g X0 xtol = (.ok res', c) ∧
      res'.X = res.X ∧ res'.success = res.success ∧ res'.trace.map (·.X) = res.trace.map (·.X) ∧ res'.R = A.mulVec res.R := by
  have key : ∀ (k i : ℕ) (st st' : OmpSt ℝ (Fin n → ℝ) (Matrix (Fin n) (Fin n) ℝ) L), st.bfgsInd = 0 → st'.bfgsInd = 0 → st'.X = st.X →
      st'.trace.map (·.X) = st.trace.map (·.X) →
      (0 < i → (∃ R, st.R = some R ∧ st'.R = some (A.mulVec R)) ∧ st.jac.isSome ∧ st'.jac.isSome ∧ st.first.isSome ∧ st'.first.isSome ∧ st.last.isSome ∧ st'.last.isSome) →
      (0 < k ∨ 0 < i) →
      ∃ s s' w, solveLoop (realArith n inf fac sol) (c.withXtol (some (effectiveXtol (realArith n inf fac sol) c X0 xtol))) f k i st = .ok (s, w) ∧
        solveLoop (realArith n inf fac sol) (c.withXtol (some (effectiveXtol (realArith n inf fac sol) c X0 xtol))) g k i st' = .ok (s', w) ∧ s'.X = s.X ∧
        s'.trace.map (·.X) = s.trace.map (·.X) ∧ (∃ R, s.R = some R ∧ s'.R = some (A.mulVec R)) ∧ s.jac.isSome ∧ s'.jac.isSome ∧ s.first.isSome ∧ s'.first.isSome ∧
        s.last.isSome ∧ s'.last.isSome ∧ w ≠ .nan := by
    intro k
    induction k with
    | zero =>
      intro i st st' _ _ hX hT h1 h2
      obtain ⟨a1, a2, a3, a4, a5, a6, a7⟩ := h1 (h2.resolve_left (lt_irrefl _))
      exact ⟨st, st', .exhausted, rfl, rfl, hX, hT, a1, a2, a3, a4, a5, a6, a7, by simp⟩
    | succ k ih =>
      intro i st st' hb hb' hX hT _ _
      obtain ⟨R, D, hfX⟩ := hf st.X
      have hgX : g st'.X true = .ok (A.mulVec R, A * D * 1) := hg _ _ _ (by rw [Matrix.one_mulVec, hX]; exact hfX)
      have hs : -sol (fac D) R = -sol (fac (A * D * 1)) (A.mulVec R) := by
        rw [solve_units (P := 1) hsol hsol hA (by simp) (hreg _ _ _ hfX) R, Matrix.one_mulVec]
      have hc' : PlainNewton (c.withXtol (some (effectiveXtol (realArith n inf fac sol) c X0 xtol))) := ⟨hc.reform, hc.line, hc.stop⟩
      obtain ⟨u, a1, a2, a3, a4, a5, a6, a7, ha⟩ := solveLoop_step (inf := inf) (fac := fac) (sol := sol) hc' rfl k i st hb hfX rfl
      obtain ⟨v, b1, b2, b3, b4, b5, b6, b7, hb8⟩ := solveLoop_step (inf := inf) (fac := fac) (sol := sol) hc' rfl k i st' hb' hgX hs
      have hXv : v.X = u.X := by rw [a2, b2, hX]
      have hTv : v.trace.map (·.X) = u.trace.map (·.X) := by rw [a5, b5, List.map_append, List.map_append, hT]; simp [hX]
      rcases ha with ⟨l1, e1⟩ | ⟨l1, e1⟩
      · rcases hb8 with ⟨l2, e2⟩ | ⟨l2, e2⟩
        · exact ⟨u, v, _, e1, e2, hXv, hTv, ⟨R, a3, b3⟩, by simp [a4], by simp [b4], a6, b6, a7, b7, by simp⟩
        · exact absurd l1 l2
      · rcases hb8 with ⟨l2, e2⟩ | ⟨l2, e2⟩
        · exact absurd l2 l1
        · rw [e1, e2]
          exact ih (i + 1) u v a1 b1 hXv hTv (fun _ => ⟨⟨R, a3, b3⟩, by simp [a4], by simp [b4], a6, b6, a7, b7⟩) (Or.inr (Nat.succ_pos _))
  obtain ⟨s, s', w, e1, e2, hX, hT, ⟨R, hR, hR'⟩, hj, hj', hfi, hfi', hla, hla', hw⟩ :=
    key c.maxSteps 0 (startSt (realArith n inf fac sol) X0) (startSt (realArith n inf fac sol) X0) rfl rfl rfl rfl (by simp) (Or.inl hm)
  obtain ⟨D, hD⟩ := Option.isSome_iff_exists.1 hj
  obtain ⟨D', hD'⟩ := Option.isSome_iff_exists.1 hj'
  obtain ⟨q, hq⟩ := Option.isSome_iff_exists.1 hfi
  obtain ⟨q', hq'⟩ := Option.isSome_iff_exists.1 hfi'
  obtain ⟨l, hl⟩ := Option.isSome_iff_exists.1 hla
  obtain ⟨l', hl'⟩ := Option.isSome_iff_exists.1 hla'
  have hback : ((c.withXtol (some (effectiveXtol (realArith n inf fac sol) c X0 xtol))).withXtol (c.tol .xtol)) = c := by
    simp only [OmpConfig.withXtol]
    congr 1
    funext k
    by_cases hk : k = .xtol <;> simp [hk]
  have hmax : (c.withXtol (some (effectiveXtol (realArith n inf fac sol) c X0 xtol))).maxSteps = c.maxSteps := rfl
  have hacc' : (c.withXtol (some (effectiveXtol (realArith n inf fac sol) c X0 xtol))).acceptingTol = [] := hacc
  cases w with
  | nan => exact absurd rfl hw
  | converged =>
    refine ⟨⟨s.X, R, D, true, s.nfev, s.njev, s.trace, .converged⟩, ⟨s'.X, A.mulVec R, D', true, s'.nfev, s'.njev, s'.trace, .converged⟩, ?_, ?_, hX, rfl, hT, rfl⟩
    · simp only [nsolveOMP, hmax, e1, finish, hR, hD, hback]
    · simp only [nsolveOMP, hmax, e2, finish, hR', hD', hback]
  | exhausted =>
    refine ⟨⟨s.X, R, D, false, s.nfev, s.njev, s.trace, .exhausted⟩, ⟨s'.X, A.mulVec R, D', false, s'.nfev, s'.njev, s'.trace, .exhausted⟩, ?_, ?_, hX, rfl, hT, rfl⟩
    · simp only [nsolveOMP, hmax, e1, finish, hR, hD, hq, hl, hacc', checkConvg, checkLoop, hback]
    · simp only [nsolveOMP, hmax, e2, finish, hR', hD', hq', hl', hacc', checkConvg, checkLoop, hback]

/-- The first solve of a continuation with one scaling of the equations is the unscaled one in other units. -/
theorem initial_inUnits {N : ℕ} (f : ContFun) (lam0 : ℝ) (C : ℕ → ℝ) {r : ℝ} {s : RScale} (hs : ∀ i, s.at i = r) :
    InUnits (Matrix.diagonal fun _ => r) (Matrix.diagonal fun i : Fin N => C i) (augSolve N (initialFun N f lam0 (fun _ => 1) (.scalar 1)))
      (augSolve N (initialFun N f lam0 C s)) := by
  intro Y R D h
  have e : snocLam N (fun i => Spec.ext ((Matrix.diagonal fun i : Fin N => C i).mulVec Y) i * 1) lam0 = snocLam N (fun i => Spec.ext Y i * C i) lam0 := by
    funext i
    by_cases hi : i < N
    · simp only [snocLam, hi, if_true, Spec.ext, dif_pos, Matrix.mulVec_diagonal]; ring
    · simp only [snocLam, hi, if_false]
  simp only [augSolve, initialFun, e, if_true] at h ⊢
  cases hf : f (snocLam N (fun i => Spec.ext Y i * C i) lam0) true with
  | error e => rw [hf] at h; simp at h
  | ok o =>
    rw [hf] at h
    obtain ⟨h1, h2⟩ := Prod.ext_iff.1 (Except.ok.inj h)
    simp only at h1 h2 ⊢
    refine congrArg Except.ok (Prod.ext (funext fun i => ?_) (funext fun i => funext fun j => ?_))
    · show s.at i * o.R i = (Matrix.diagonal fun _ => r).mulVec R i
      rw [Matrix.mulVec_diagonal, ← h1]
      simp only [hs]
      simp only [RScale.at]; ring
    · show s.at j * o.J i j * C j = ((Matrix.diagonal fun _ => r) * D * (Matrix.diagonal fun i : Fin N => C i) : Matrix (Fin N) (Fin N) ℝ) i j
      rw [Matrix.mul_diagonal, Matrix.diagonal_mul, ← h2]
      simp only [hs]
      simp only [RScale.at]; ring

/-- C161: the conditioning of the first solve of a continuation does not change its iterates in physical coordinates. -/
theorem C161_initial {N : ℕ} {L L' : Type} {inf inf' : ℝ} {fac : Matrix (Fin N) (Fin N) ℝ → L} {sol : L → (Fin N → ℝ) → (Fin N → ℝ)}
    {fac' : Matrix (Fin N) (Fin N) ℝ → L'} {sol' : L' → (Fin N → ℝ) → (Fin N → ℝ)} (hsol : ExactSolve fac sol) (hsol' : ExactSolve fac' sol')
    {f : ContFun} {lam0 : ℝ} {C : ℕ → ℝ} {r : ℝ} {s : RScale} (hs : ∀ i, s.at i = r) (hr0 : r ≠ 0) (hC : ∀ i < N, C i ≠ 0)
    (hreg : RegularJac (augSolve N (initialFun N f lam0 (fun _ => 1) (.scalar 1)))) {c c' : OmpConfig ℝ} (hr : c.reformFreq = 1) (hl : c.lsIters = 0)
    (hr' : c'.reformFreq = 1) (hl' : c'.lsIters = 0) {X0 : Fin N → ℝ} {xtol xtol' : Option ℝ} {res res' : SolveRes (Fin N → ℝ) (Matrix (Fin N) (Fin N) ℝ)} {d d' : OmpConfig ℝ}
    (h : nsolveOMP (realArith N inf fac sol) c (augSolve N (initialFun N f lam0 (fun _ => 1) (.scalar 1))) X0 xtol = (.ok res, d))
    (h' : nsolveOMP (realArith N inf' fac' sol') c' (augSolve N (initialFun N f lam0 C s)) (fun i => X0 i / C i) xtol' = (.ok res', d')) {j : ℕ} {a b : Iter (Fin N → ℝ)}
    (ha : res.trace[j]? = some a) (hb : res'.trace[j]? = some b) (i : Fin N) : a.X i = C i * b.X i ∧ b.R i = r * a.R i ∧ a.step i = C i * b.step i := by
  have hX : X0 = (Matrix.diagonal fun i : Fin N => C i).mulVec fun i => X0 i / C i := by
    funext i
    rw [Matrix.mulVec_diagonal, mul_div_cancel₀ _ (hC i i.2)]
  rw [hX] at h
  obtain ⟨e1, e2, e3⟩ := C161_iterates (A := Matrix.diagonal fun _ => r) (by rw [Matrix.det_diagonal]; simp [hr0])
    (by rw [Matrix.det_diagonal]; exact isUnit_iff_ne_zero.2 (Finset.prod_ne_zero_iff.2 fun i _ => hC i i.2)) hsol hsol' hreg (initial_inUnits f lam0 C hs) hr hl hr' hl' h h' ha hb
  rw [e1, e2, e3]
  simp only [Matrix.mulVec_diagonal, and_self]

/-- The equation `X + X³ = 2`. -/
def cubicEq : SolveFun (Fin 1 → ℝ) (Matrix (Fin 1) (Fin 1) ℝ) := fun X _ => .ok (fun i => X i + X i ^ 3 - 2, Matrix.diagonal fun i => 1 + 3 * X i ^ 2)

theorem cubicEq_regular : RegularJac cubicEq := by
  intro X R D h
  obtain ⟨-, h2⟩ := Prod.ext_iff.1 (Except.ok.inj h)
  simp only at h2
  rw [← h2, Matrix.det_diagonal]
  refine isUnit_iff_ne_zero.2 (Finset.prod_ne_zero_iff.2 fun i _ => ?_)
  positivity

/-- C161 on `X + X³ = 2` and `5 X + 5 X³ = 10`: the same points, the same verdict, from every start. -/
example (X0 : Fin 1 → ℝ) (xtol : Option ℝ) : ∃ res res', nsolveOMP (realArith 1 0 id fun D v => D⁻¹.mulVec v) { lsTol := 0 } cubicEq X0 xtol = (.ok res, { lsTol := 0 }) ∧
    nsolveOMP (realArith 1 0 id fun D v => D⁻¹.mulVec v) { lsTol := 0 }
      (fun X _ => .ok (fun i => 5 * X i + 5 * X i ^ 3 - 10, Matrix.diagonal fun i => 5 + 15 * X i ^ 2)) X0 xtol = (.ok res', { lsTol := 0 }) ∧
      res'.X = res.X ∧ res'.success = res.success ∧ res'.R 0 = 5 * res.R 0 := by
  obtain ⟨res, res', h1, h2, h3, h4, -, h5⟩ := C161_equations (n := 1) (inf := 0) (A := Matrix.diagonal fun _ => 5) (f := cubicEq) (c := { lsTol := 0 })
    (g := fun X _ => .ok (fun i => 5 * X i + 5 * X i ^ 3 - 10, Matrix.diagonal fun i => 5 + 15 * X i ^ 2))
    (by rw [Matrix.det_diagonal]; simp) exactSolve_inv (fun X => ⟨_, _, rfl⟩) cubicEq_regular (by
      intro Y R D h
      obtain ⟨e1, e2⟩ := Prod.ext_iff.1 (Except.ok.inj h)
      simp only at e1 e2
      rw [← e1, ← e2, Matrix.mul_one, Matrix.diagonal_mul_diagonal]
      simp only [Matrix.one_mulVec]
      congr 1
      refine Prod.ext (funext fun i => ?_) (congrArg Matrix.diagonal (funext fun i => ?_))
      · simp only [Matrix.mulVec_diagonal]; ring
      · ring) ⟨rfl, rfl, rfl⟩ rfl (by decide) X0 xtol
  exact ⟨res, res', h1, h2, h3, h4, by rw [h5, Matrix.mulVec_diagonal]⟩

/-- C161 on `X + X³ = 2` in metres and in millimetres, `Y = 1000 X`: both calls return, and the points they visit are the same. -/
example (Y0 : Fin 1 → ℝ) : ∃ res res' c, nsolveOMP (realArith 1 0 id fun D v => D⁻¹.mulVec v) c cubicEq (fun i => Y0 i / 1000) none = (.ok res, c) ∧
    nsolveOMP (realArith 1 0 id fun D v => D⁻¹.mulVec v) c
      (fun Y _ => .ok (fun i => Y i / 1000 + (Y i / 1000) ^ 3 - 2, Matrix.diagonal fun i => (1 + 3 * (Y i / 1000) ^ 2) / 1000)) Y0 none = (.ok res', c) ∧
      ∀ (j : ℕ) (a b : Iter (Fin 1 → ℝ)), res.trace[j]? = some a → res'.trace[j]? = some b → b.X 0 = 1000 * a.X 0 ∧ b.R = a.R := by
  obtain ⟨res, h1⟩ := nsolve_total (n := 1) (inf := 0) (fac := id) (sol := fun D v => D⁻¹.mulVec v) (f := cubicEq) (c := { lsTol := 0 }) ⟨rfl, rfl, rfl⟩ rfl (by decide)
    (fun i => Y0 i / 1000) none fun X => ⟨_, _, rfl⟩
  obtain ⟨res', h2⟩ := nsolve_total (n := 1) (inf := 0) (fac := id) (sol := fun D v => D⁻¹.mulVec v) (c := { lsTol := 0 })
    (f := fun Y _ => .ok (fun i => Y i / 1000 + (Y i / 1000) ^ 3 - 2, Matrix.diagonal fun i => (1 + 3 * (Y i / 1000) ^ 2) / 1000)) ⟨rfl, rfl, rfl⟩ rfl (by decide)
    Y0 none fun X => ⟨_, _, rfl⟩
  refine ⟨res, res', _, h1, h2, fun j a b ha hb => ?_⟩
  have hY : (fun i => Y0 i / 1000) = (Matrix.diagonal fun _ : Fin 1 => (1 / 1000 : ℝ)).mulVec Y0 := by
    funext i
    rw [Matrix.mulVec_diagonal]; ring
  rw [hY] at h1
  obtain ⟨e1, e2, -⟩ := C161_iterates (A := 1) (P := Matrix.diagonal fun _ => (1 / 1000 : ℝ)) (by simp) (by rw [Matrix.det_diagonal]; simp) exactSolve_inv exactSolve_inv cubicEq_regular (by
      intro Y R D h
      obtain ⟨e1, e2⟩ := Prod.ext_iff.1 (Except.ok.inj h)
      simp only at e1 e2
      rw [← e1, ← e2, Matrix.one_mul, Matrix.diagonal_mul_diagonal]
      refine congrArg Except.ok (Prod.ext (funext fun i => ?_) (congrArg Matrix.diagonal (funext fun i => ?_)))
      · simp only [Matrix.mulVec_diagonal, Matrix.one_mulVec]; ring
      · simp only [Matrix.mulVec_diagonal]; ring) rfl rfl rfl rfl h1 h2 ha hb
  rw [Matrix.one_mulVec] at e2
  refine ⟨?_, e2⟩
  rw [e1, Matrix.mulVec_diagonal]; ring

end

end TMD
