import Verif.Props.SolverOMP

/-!
# C15: which step tolerance a call uses
-/

namespace TMD

open Spec

noncomputable section

variable {n : ℕ} {inf : ℝ} {L : Type} {fac : Matrix (Fin n) (Fin n) ℝ → L} {sol : L → (Fin n → ℝ) → Fin n → ℝ}

/-- The step tolerance of a call: the argument, without it the setting of the object, without both a millionth for each unknown. -/
def StepTol (n : ℕ) (arg setting : Option ℝ) (t : ℝ) : Prop :=
  arg = some t ∨ (arg = none ∧ setting = some t) ∨ (arg = none ∧ setting = none ∧ t = n / 1000000)

theorem stepTol_eq {c : OmpConfig ℝ} {arg : Option ℝ} {t : ℝ} (ht : StepTol n arg (c.tol .xtol) t) (X0 : Fin n → ℝ) :
    effectiveXtol (realArith n inf fac sol) c X0 arg = t := by
  rcases ht with rfl | ⟨rfl, h⟩ | ⟨rfl, h, rfl⟩
  · rfl
  · simp [effectiveXtol, h]
  · simp only [effectiveXtol, h, realArith]
    ring

/-- C15: a success of a call that tests the step alone means that the last full step was shorter than the tolerance. -/
theorem C15_step {c : OmpConfig ℝ} {f : SolveFun (Fin n → ℝ) (Matrix (Fin n) (Fin n) ℝ)} {X0 : Fin n → ℝ} {arg : Option ℝ} {t : ℝ}
    (ht : StepTol n arg (c.tol .xtol) t) (hs : c.stoppingTol = [.xtol]) (ha : c.acceptingTol = []) {res : SolveRes (Fin n → ℝ) (Matrix (Fin n) (Fin n) ℝ)}
    {c' : OmpConfig ℝ} (h : nsolveOMP (realArith n inf fac sol) c f X0 arg = (.ok res, c')) (hok : res.success = true) :
    ∃ last ∈ res.trace, res.X = last.X + last.step ∧ Real.sqrt (∑ i, last.full i ^ 2) < t := by
  obtain ⟨_, it, k, _, _, htr, hX, _, _, _, _, hsucc⟩ := C15_report _ c f X0 arg res c' h
  obtain ⟨hk, _, nm, v, tt, e1, e2, e3, e4⟩ := hsucc hok
  rw [hs, ha] at e4
  obtain rfl : nm = .xtol := by simpa using e4
  rw [if_pos rfl, stepTol_eq ht] at e2
  obtain ⟨m, rfl⟩ : ∃ m, k = m + 1 := ⟨k - 1, by omega⟩
  refine ⟨it m, by rw [htr]; exact List.mem_map.2 ⟨m, by simp, rfl⟩, hX, ?_⟩
  simp only [exchanged, named, Option.some.injEq] at e1
  rw [← e1, e2] at e3
  have e5 : |Real.sqrt ((it m).full ⬝ᵥ (it m).full)| < t := by simpa [realArith, measures] using e3
  rw [abs_of_nonneg (Real.sqrt_nonneg _)] at e5
  simpa [dotProduct, pow_two] using e5

/-- C15: a call of one iteration that tests the step alone succeeds exactly if the Newton step is shorter than the tolerance. -/
theorem C15_one_step {c : OmpConfig ℝ} {f : SolveFun (Fin n → ℝ) (Matrix (Fin n) (Fin n) ℝ)} {X0 R : Fin n → ℝ} {D : Matrix (Fin n) (Fin n) ℝ} {arg : Option ℝ} {t : ℝ}
    (ht : StepTol n arg (c.tol .xtol) t) (hs : c.stoppingTol = [.xtol]) (ha : c.acceptingTol = []) (hm : c.maxSteps = 1) (hr : 0 < c.reformFreq) (hl : c.lsIters = 0)
    (hf : f X0 true = .ok (R, D)) :
    ∃ res, nsolveOMP (realArith n inf fac sol) c f X0 arg = (.ok res, c) ∧ res.X = X0 - sol (fac D) R ∧
      (res.success = true ↔ Real.sqrt (∑ i, sol (fac D) R i ^ 2) < t) := by
  have hw : (c.withXtol (some t)).withXtol (c.tol .xtol) = c := by
    unfold OmpConfig.withXtol
    congr 1
    funext k
    by_cases hk : k = .xtol <;> simp [hk]
  have hnorm : Real.sqrt ((-(sol (fac D) R)) ⬝ᵥ (-(sol (fac D) R))) = Real.sqrt (∑ i, sol (fac D) R i ^ 2) := by
    simp [dotProduct, pow_two]
  set A := realArith n inf fac sol with hA
  set cc := c.withXtol (some t) with hcc
  have e2 : cc.stoppingTol = [.xtol] := hs
  have e4 : cc.reformFreq ≠ 0 := hr.ne'
  have e5 : cc.lsIters = 0 := hl
  have e6 : cc.tol .xtol = some t := by simp [hcc, OmpConfig.withXtol]
  set full : Fin n → ℝ := -(sol (fac D) R) with hfull
  have e7 : |Real.sqrt (full ⬝ᵥ full)| = Real.sqrt (∑ i, sol (fac D) R i ^ 2) := by rw [hnorm, abs_of_nonneg (Real.sqrt_nonneg _)]
  have e8 : ∀ g r e, checkConvg A [.xtol] cc.tol (errsOf A g (r, e, Real.sqrt (full ⬝ᵥ full))) = .ok (decide (Real.sqrt (∑ i, sol (fac D) R i ^ 2) < t)) := fun g r e => by
    simp only [checkConvg, checkLoop, errorDict, errsOf, e6]
    change Except.ok (decide (|Real.sqrt (full ⬝ᵥ full)| < t)) = _
    rw [e7]
  have hd : direction A cc.reformFreq f (startSt A X0) =
      .ok ({ startSt A X0 with nfev := 1, njev := 1, R := some R, jac := some D, fac := some (fac D), s := fun _ => 0, y := fun _ => 0, p := fun _ => 0 }, some (R, full)) := by
    simp only [direction, startSt, hf, if_pos]
    simp [hA, realArith, e4, hfull]
  have e9 : ∃ st g l, solveLoop A cc f 1 0 (startSt A X0) = .ok (st, if Real.sqrt (∑ i, sol (fac D) R i ^ 2) < t then .converged else .exhausted) ∧
      st.X = X0 - sol (fac D) R ∧ st.R = some R ∧ st.jac = some D ∧ st.first = some g ∧ st.last = some l := by
    unfold solveLoop
    rw [hd]
    simp only [e5, e2, lt_irrefl, if_false, if_true]
    have hv : A.vIsNaN full = false := rfl
    have hq : A.sqrt (A.dot full full) = Real.sqrt (full ⬝ᵥ full) := rfl
    rw [hv, hq, e8]
    by_cases hlt : Real.sqrt (∑ i, sol (fac D) R i ^ 2) < t
    · simp only [hlt, decide_true, if_true]
      exact ⟨_, _, _, rfl, by change X0 + full = _; rw [hfull, sub_eq_add_neg], rfl, rfl, rfl, rfl⟩
    · simp only [hlt, decide_false, if_false]
      exact ⟨_, _, _, rfl, by change X0 + full = _; rw [hfull, sub_eq_add_neg], rfl, rfl, rfl, rfl⟩
  obtain ⟨st, g, l, h1, h2, h3, h4, h5, h6⟩ := e9
  unfold nsolveOMP
  rw [stepTol_eq ht, ← hcc]
  simp only [show cc.maxSteps = 1 from hm, h1]
  by_cases hlt : Real.sqrt (∑ i, sol (fac D) R i ^ 2) < t
  · refine ⟨⟨st.X, R, D, true, st.nfev, st.njev, st.trace, .converged⟩, ?_, h2, by simp [hlt]⟩
    simp only [hlt, if_true, finish, h3, h4]
    rw [hw]
  · refine ⟨⟨st.X, R, D, false, st.nfev, st.njev, st.trace, .exhausted⟩, ?_, h2, by simp [hlt]⟩
    have h7 : checkConvg A cc.acceptingTol cc.tol (errsOf A g l) = .ok false := by
      rw [show cc.acceptingTol = [] from ha]; rfl
    simp only [hlt, if_false, finish, h3, h4, h5, h6, h7]
    rw [hw]

/-- The equation `2 x = 2 / 10^6` in two unknowns from zero: the step of length `√2 / 10^6` is taken with no tolerance given anywhere but would not
be with one millionth. -/
example (c : OmpConfig ℝ) (hx : c.tol .xtol = none) (hs : c.stoppingTol = [.xtol]) (ha : c.acceptingTol = []) (hm : c.maxSteps = 1) (hr : 0 < c.reformFreq) (hl : c.lsIters = 0) :
    (∃ res, nsolveOMP (realArith 2 0 (fun D => D) (fun _ v i => v i / 2)) c (fun X _ => .ok (fun i => 2 * X i - 2 / 1000000, 0)) 0 none = (.ok res, c) ∧ res.success = true) ∧
      ∃ res, nsolveOMP (realArith 2 0 (fun D => D) (fun _ v i => v i / 2)) c (fun X _ => .ok (fun i => 2 * X i - 2 / 1000000, 0)) 0 (some (1 / 1000000)) = (.ok res, c) ∧
        res.success = false := by
  obtain ⟨r1, h1, -, h2⟩ := C15_one_step (n := 2) (inf := 0) (fac := fun D => D) (sol := fun _ v i => v i / 2) (c := c) (f := fun X _ => .ok (fun i => 2 * X i - 2 / 1000000, 0)) (X0 := 0)
    (Or.inr (Or.inr ⟨rfl, hx, rfl⟩)) hs ha hm hr hl rfl
  obtain ⟨r2, h3, -, h4⟩ := C15_one_step (n := 2) (inf := 0) (fac := fun D => D) (sol := fun _ v i => v i / 2) (c := c) (f := fun X _ => .ok (fun i => 2 * X i - 2 / 1000000, 0)) (X0 := 0)
    (arg := some (1 / 1000000)) (Or.inl rfl) hs ha hm hr hl rfl
  refine ⟨⟨r1, h1, h2.2 ?_⟩, r2, h3, ?_⟩
  · rw [Real.sqrt_lt' (by norm_num)]
    norm_num [Fin.sum_univ_two]
  · rw [Bool.eq_false_iff, ne_eq, h4, Real.sqrt_lt' (by norm_num)]
    norm_num [Fin.sum_univ_two]

end

end TMD
