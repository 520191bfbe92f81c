import Verif.Props.QuasiNewton

/-!
# C146: a solve that starts at the solution
-/

namespace TMD

open Spec Finset

noncomputable section

variable {n : ℕ} {L : Type} {fac : Matrix (Fin n) (Fin n) ℝ → L} {sol : L → (Fin n → ℝ) → (Fin n → ℝ)}

/-- The function vanishes at the point, where its derivative is regular. -/
def IsRoot (f : SolveFun (Fin n → Ieee) (Matrix (Fin n) (Fin n) ℝ)) (x : Fin n → ℝ) : Prop :=
  ∃ D : Matrix (Fin n) (Fin n) ℝ, IsUnit D.det ∧ f (finV x) true = .ok (finV 0, D)

/-- A tolerance relative to the first value. -/
def Relative (k : TolName) : Prop := k = .xtolRel ∨ k = .rtolRel ∨ k = .etolRel

theorem withXtol_back (c : OmpConfig Ieee) (x : Option Ieee) : (c.withXtol x).withXtol (c.tol .xtol) = c := by
  simp only [OmpConfig.withXtol]
  congr 1
  funext k
  by_cases hk : k = .xtol <;> simp [hk]

/-- NaN is not below any tolerance. -/
theorem check_nan {A : Arith Ieee (Fin n → Ieee) (Matrix (Fin n) (Fin n) ℝ) L} (hA : A.lt = Ieee.lt) (hA' : A.abs = Ieee.abs) {tol : TolName → Option Ieee} {l : List TolName}
    (hl : ∀ k ∈ l, Relative k) (ht : ∀ k ∈ l, ∃ t, tol k = some t) {x : Errs Ieee} (h1 : x.rRel = .nan) (h2 : x.eRel = .nan) (h3 : x.uRel = .nan) :
    checkConvg A l tol x = .ok false := by
  unfold checkConvg
  induction l with
  | nil => rfl
  | cons k l ih =>
    obtain ⟨t, htk⟩ := ht k (by simp)
    have ih := ih (fun k hk => hl k (by simp [hk])) (fun k hk => ht k (by simp [hk]))
    have hlt : Ieee.lt (Ieee.abs .nan) t = false := by cases t <;> rfl
    rcases hl k (by simp) with rfl | rfl | rfl
    all_goals
      simp only [checkLoop, errorDict, htk, hA, hA', h1, h2, h3, hlt]
      exact ih

/-- The state at the root: nothing has moved. -/
structure AtRoot (x : Fin n → ℝ) (i : ℕ) (st : OmpSt Ieee (Fin n → Ieee) (Matrix (Fin n) (Fin n) ℝ) L) : Prop where
  X : st.X = finV x
  ind : st.bfgsInd = 0
  step : 0 < i → st.dXm1 = finV 0
  first : 0 < i → ∃ e, st.first = some (.fin 0, e, .fin 0) ∧ (1 < i → e = .fin 0)
  bound : 0 < i → ∃ D e0 e, st.R = some (finV 0) ∧ st.jac = some D ∧ st.first = some (.fin 0, e0, .fin 0) ∧ st.last = some (.fin 0, e, .fin 0) ∧ Ieee.div e e0 = .nan

theorem root_loop {f : SolveFun (Fin n → Ieee) (Matrix (Fin n) (Fin n) ℝ)} {x : Fin n → ℝ} (hf : IsRoot f x) (hsol : ExactSolve fac sol) {c : OmpConfig Ieee}
    (hr : c.reformFreq = 1) (hl : c.lsIters = 0) (hs : ∀ k ∈ c.stoppingTol, Relative k) (ht : ∀ k ∈ c.stoppingTol, ∃ t, c.tol k = some t) (m i : ℕ)
    (st : OmpSt Ieee (Fin n → Ieee) (Matrix (Fin n) (Fin n) ℝ) L) (hst : AtRoot x i st) :
    ∃ st', solveLoop (ieeeArith n fac sol) c f m i st = .ok (st', .exhausted) ∧ AtRoot x (i + m) st' := by
  obtain ⟨D, hD, hf⟩ := hf
  have hsz : sol (fac D) 0 = 0 := by
    have h0 := hsol D 0 hD
    have : D⁻¹.mulVec (D.mulVec (sol (fac D) 0)) = D⁻¹.mulVec 0 := congrArg _ h0
    simpa [Matrix.mulVec_mulVec, Matrix.nonsing_inv_mul _ hD] using this
  have hvneg : (ieeeArith n fac sol).vneg (finV (sol (fac D) 0)) = finV 0 := by rw [vneg_finV, hsz, neg_zero]
  have hdot : (ieeeArith n fac sol).dot (finV 0) (finV 0) = .fin 0 := by rw [dot_finV]; simp
  have hsq : (ieeeArith n fac sol).sqrt (.fin 0) = .fin 0 := by
    show Ieee.sqrt (.fin 0) = _
    simp [Ieee.sqrt]
  have hline : ¬ 0 < c.lsIters := by omega
  have hmod : (0 + 1) % c.reformFreq = 0 := by rw [hr]
  have hr0 : c.reformFreq ≠ 0 := by omega
  have hd0 : ∀ a, Ieee.div (.fin 0) (.fin 0) = a → a = .nan := by rintro a rfl; simp [Ieee.div]
  induction m generalizing i st with
  | zero => exact ⟨st, rfl, hst⟩
  | succ m ih =>
    rw [solveLoop]
    simp only [direction, hst.ind, if_true, hst.X, hf, isNan_finV, Bool.false_eq_true, if_false, show (ieeeArith n fac sol).mIsNaN D = false from rfl, hr0, fsolve_finV,
      show (ieeeArith n fac sol).factor D = fac D from rfl, hvneg, hline, vadd_finV, add_zero, hdot, hsq]
    rcases Nat.eq_zero_or_pos i with rfl | hi
    · have hee : Ieee.div (ieeeArith n fac sol).inf (ieeeArith n fac sol).inf = .nan := rfl
      have hck := check_nan (A := ieeeArith n fac sol) rfl rfl hs ht (x := errsOf (ieeeArith n fac sol) (.fin 0, (ieeeArith n fac sol).inf, .fin 0) (.fin 0, (ieeeArith n fac sol).inf, .fin 0))
        (hd0 _ rfl) rfl (hd0 _ rfl)
      simp only [firstVals, if_true, hck, hmod]
      rw [show 0 + (m + 1) = 0 + 1 + m by omega]
      refine ih (0 + 1) _ ?_
      exact ⟨rfl, rfl, fun _ => rfl, fun _ => ⟨_, rfl, fun h => absurd h (lt_irrefl _)⟩, fun _ => ⟨D, _, _, rfl, rfl, rfl, rfl, hee⟩⟩
    · obtain ⟨e, he, he1⟩ := hst.first hi
      have hne : ¬ i = 0 := by omega
      have habs : (ieeeArith n fac sol).abs (.fin 0) = .fin 0 := by show Ieee.abs (.fin 0) = .fin 0; simp [Ieee.abs]
      have hfv : firstVals (ieeeArith n fac sol) i st.first (.fin 0) (.fin 0) (.fin 0) = (.fin 0, .fin 0, .fin 0) := by
        simp only [firstVals, hne, if_false, he]
        split_ifs with h1
        · rw [habs]
        · rw [he1 (by omega)]
      have hck := check_nan (A := ieeeArith n fac sol) rfl rfl hs ht (x := errsOf (ieeeArith n fac sol) (.fin 0, .fin 0, .fin 0) (.fin 0, .fin 0, .fin 0)) (hd0 _ rfl) (hd0 _ rfl) (hd0 _ rfl)
      simp only [hst.step hi, hdot, hne, if_false, hfv, hck, hmod]
      rw [show i + (m + 1) = i + 1 + m by omega]
      refine ih (i + 1) _ ?_
      exact ⟨rfl, rfl, fun _ => rfl, fun _ => ⟨_, rfl, fun _ => rfl⟩, fun _ => ⟨D, _, _, rfl, rfl, rfl, rfl, hd0 _ rfl⟩⟩

/-- C146 is violated: with relative tolerances only, a call that starts at a root never reports success, whatever the tolerances: all its
error measures are 0/0. -/
theorem C146_violated {f : SolveFun (Fin n → Ieee) (Matrix (Fin n) (Fin n) ℝ)} {x : Fin n → ℝ} (hf : IsRoot f x) (hsol : ExactSolve fac sol) {c : OmpConfig Ieee}
    (hr : c.reformFreq = 1) (hl : c.lsIters = 0) (hm : 0 < c.maxSteps) (hs : ∀ k ∈ c.stoppingTol ++ c.acceptingTol, Relative k)
    (ht : ∀ k ∈ c.stoppingTol ++ c.acceptingTol, ∃ t, c.tol k = some t) (xtol : Option Ieee) :
    ∃ res, nsolveOMP (ieeeArith n fac sol) c f (finV x) xtol = (.ok res, c) ∧ res.X = finV x ∧ res.R = finV 0 ∧ res.success = false := by
  set c' := c.withXtol (some (effectiveXtol (ieeeArith n fac sol) c (finV x) xtol)) with hc'
  have ht' : ∀ k ∈ c.stoppingTol ++ c.acceptingTol, ∃ t, c'.tol k = some t := fun k hk => by
    obtain ⟨t, h⟩ := ht k hk
    refine ⟨t, ?_⟩
    have : k ≠ .xtol := by rcases hs k hk with rfl | rfl | rfl <;> simp
    simp [hc', OmpConfig.withXtol, this, h]
  obtain ⟨st', h1, h2⟩ := root_loop hf hsol (c := c') hr hl (fun k hk => hs k (List.mem_append_left _ hk)) (fun k hk => ht' k (List.mem_append_left _ hk)) c'.maxSteps 0
    (startSt (ieeeArith n fac sol) (finV x)) ⟨rfl, rfl, fun h => absurd h (lt_irrefl _), fun h => absurd h (lt_irrefl _), fun h => absurd h (lt_irrefl _)⟩
  have h00 : Ieee.div (.fin 0) (.fin 0) = .nan := by simp [Ieee.div]
  obtain ⟨D, e0, e, hR, hJ, hfi, hla, hde⟩ := h2.bound (by rw [zero_add]; exact hm)
  have hck := check_nan (A := ieeeArith n fac sol) rfl rfl (l := c'.acceptingTol) (tol := c'.tol) (fun k hk => hs k (List.mem_append_right _ hk)) (fun k hk => ht' k (List.mem_append_right _ hk))
    (x := errsOf (ieeeArith n fac sol) (.fin 0, e0, .fin 0) (.fin 0, e, .fin 0)) h00 hde h00
  have hb : c'.withXtol (c.tol .xtol) = c := withXtol_back _ _
  simp only [nsolveOMP, ← hc', h1, finish, hfi, hla, hck, hR, hJ, hb]
  exact ⟨_, rfl, h2.X, rfl, rfl⟩

/-- All listed tolerances are set and known, and one of them is an absolute one on the step or the residual. -/
structure AbsoluteStop (tol : TolName → Option Ieee) (l : List TolName) : Prop where
  known : ∀ k ∈ l, k ≠ .other ∧ ∃ t, tol k = some t
  absolute : ∃ k ∈ l, (k = .xtol ∨ k = .rtol) ∧ ∃ t > 0, tol k = some (.fin t)

theorem checkLoop_done {A : Arith Ieee (Fin n → Ieee) (Matrix (Fin n) (Fin n) ℝ) L} {tol : TolName → Option Ieee} {x : Errs Ieee} (l : List TolName) :
    checkLoop A tol x true l = .ok true := by
  induction l with
  | nil => rfl
  | cons k l ih => exact ih

theorem check_absolute {A : Arith Ieee (Fin n → Ieee) (Matrix (Fin n) (Fin n) ℝ) L} (hA : A.lt = Ieee.lt) (hA' : A.abs = Ieee.abs) {tol : TolName → Option Ieee} {l : List TolName}
    (hl : AbsoluteStop tol l) {x : Errs Ieee} (h1 : x.r = .fin 0) (h2 : x.u = .fin 0) : checkConvg A l tol x = .ok true := by
  obtain ⟨hk, k0, hk0, ha, t0, ht0, htk⟩ := hl
  have key : ∀ l, (∀ k ∈ l, k ≠ .other ∧ ∃ t, tol k = some t) → k0 ∈ l → checkLoop A tol x false l = .ok true := fun l => by
    induction l with
    | nil => intro _ h; simp at h
    | cons k l ih =>
      intro hk hm
      obtain ⟨hno, t, ht⟩ := hk k (by simp)
      obtain ⟨v, hv⟩ : ∃ v, errorDict x k = some v := by
        cases k <;> simp [errorDict] at hno ⊢
      simp only [checkLoop, hv, ht]
      by_cases e : k = k0
      · subst e
        have hv0 : v = .fin 0 := by
          rcases ha with rfl | rfl
          · simp only [errorDict, h2, Option.some.injEq] at hv; exact hv.symm
          · simp only [errorDict, h1, Option.some.injEq] at hv; exact hv.symm
        rw [htk] at ht
        have : A.lt (A.abs v) t = true := by
          rw [hv0, ← Option.some.inj ht, hA, hA']
          simpa [Ieee.abs, Ieee.lt] using ht0
        rw [this]
        exact checkLoop_done l
      · have hm' : k0 ∈ l := by
          rcases List.mem_cons.1 hm with h | h
          · exact absurd h.symm e
          · exact h
        cases hb : A.lt (A.abs v) t
        · exact ih (fun k hk' => hk k (by simp [hk'])) hm'
        · exact checkLoop_done l
  exact key l hk hk0

/-- C146 where an absolute tolerance on the step or the residual is listed: success after one evaluation, without moving. -/
theorem C146_absolute_partial {f : SolveFun (Fin n → Ieee) (Matrix (Fin n) (Fin n) ℝ)} {x : Fin n → ℝ} (hf : IsRoot f x) (hsol : ExactSolve fac sol) {c : OmpConfig Ieee}
    (hr : 0 < c.reformFreq) (hl : c.lsIters = 0) (hm : 0 < c.maxSteps) {xtol : Option Ieee}
    (hs : AbsoluteStop (c.withXtol (some (effectiveXtol (ieeeArith n fac sol) c (finV x) xtol))).tol c.stoppingTol) :
    ∃ res, nsolveOMP (ieeeArith n fac sol) c f (finV x) xtol = (.ok res, c) ∧ res.X = finV x ∧ res.R = finV 0 ∧ res.success = true ∧ res.nfev = 1 := by
  obtain ⟨D, hD, hf⟩ := hf
  set c' := c.withXtol (some (effectiveXtol (ieeeArith n fac sol) c (finV x) xtol)) with hc'
  have hsz : sol (fac D) 0 = 0 := by
    have h0 := hsol D 0 hD
    have : D⁻¹.mulVec (D.mulVec (sol (fac D) 0)) = D⁻¹.mulVec 0 := congrArg _ h0
    simpa [Matrix.mulVec_mulVec, Matrix.nonsing_inv_mul _ hD] using this
  have hvneg : (ieeeArith n fac sol).vneg (finV (sol (fac D) 0)) = finV 0 := by rw [vneg_finV, hsz, neg_zero]
  have hdot : (ieeeArith n fac sol).dot (finV 0) (finV 0) = .fin 0 := by rw [dot_finV]; simp
  have hsq : (ieeeArith n fac sol).sqrt (.fin 0) = .fin 0 := by
    show Ieee.sqrt (.fin 0) = _
    simp [Ieee.sqrt]
  have hline : ¬ 0 < c'.lsIters := by show ¬ 0 < c.lsIters; omega
  have hr0 : c'.reformFreq ≠ 0 := by show c.reformFreq ≠ 0; omega
  obtain ⟨m, hmm⟩ : ∃ m, c'.maxSteps = m + 1 := ⟨c.maxSteps - 1, by show c.maxSteps = _; omega⟩
  simp only [nsolveOMP, ← hc', hmm]
  rw [solveLoop]
  simp only [direction, startSt, if_true, hf, isNan_finV, Bool.false_eq_true, if_false, show (ieeeArith n fac sol).mIsNaN D = false from rfl, hr0, fsolve_finV,
      show (ieeeArith n fac sol).factor D = fac D from rfl, hvneg, hline, vadd_finV, add_zero, hdot, hsq]
  have hs' : AbsoluteStop c'.tol c'.stoppingTol := hs
  have hb : c'.withXtol (c.tol .xtol) = c := withXtol_back _ _
  rw [check_absolute rfl rfl hs' rfl rfl]
  simp only [finish, hb]
  exact ⟨_, rfl, rfl, rfl, rfl, rfl⟩

/-- An oscillator at rest without load, relative residual tolerance 1/10 and up to 20 iterations: failure at the exact solution; with the default
stopping tolerance success. -/
example (m w tol : ℝ) : ∃ r1 r2, (nsolveOMP (ieeeArith 2 id fun (D : Matrix (Fin 2) (Fin 2) ℝ) v => D⁻¹.mulVec v)
      ⟨20, 1, fun k => if k = .rtolRel then some (.fin (1 / 10)) else none, [.rtolRel], [], 0, .fin (1 / 10), true⟩
      (finiteFun (hbmAt ⟨1, fun _ _ => m, fun _ _ => m * w ^ 2 + 1, fun _ _ => 0, none, []⟩ w (fun _ => 0) [1] 8 tol 2)) (finV 0) none).1 = .ok r1 ∧ r1.success = false ∧
    (nsolveOMP (ieeeArith 2 id fun (D : Matrix (Fin 2) (Fin 2) ℝ) v => D⁻¹.mulVec v) ⟨20, 1, fun _ => none, [.xtol], [], 0, .fin (1 / 10), true⟩
      (finiteFun (hbmAt ⟨1, fun _ _ => m, fun _ _ => m * w ^ 2 + 1, fun _ _ => 0, none, []⟩ w (fun _ => 0) [1] 8 tol 2)) (finV 0) none).1 = .ok r2 ∧ r2.success = true := by
  have hroot : IsRoot (finiteFun (hbmAt ⟨1, fun _ _ => m, fun _ _ => m * w ^ 2 + 1, fun _ _ => 0, none, []⟩ w (fun _ => 0) [1] 8 tol 2)) 0 := by
    obtain ⟨D, h1, h2⟩ := oscillator_affine m 0 (m * w ^ 2 + 1) w (fun _ => 0) 8 tol 0 true
    refine ⟨D, ?_, h1.trans ?_⟩
    · rw [h2 rfl, Matrix.det_fin_two_of, isUnit_iff_ne_zero]
      ring_nf
      norm_num
    · congr 3
      simp
      rfl
  obtain ⟨r1, a1, -, -, a2⟩ := C146_violated (fac := id) (sol := fun D v => D⁻¹.mulVec v) (c := ⟨20, 1, fun k => if k = .rtolRel then some (.fin (1 / 10)) else none, [.rtolRel], [], 0, .fin (1 / 10), true⟩)
    hroot exactSolve_inv rfl rfl (by norm_num) (by simp [Relative]) (by simp) none
  obtain ⟨r2, b1, -, -, b2, -⟩ := C146_absolute_partial (fac := id) (sol := fun D v => D⁻¹.mulVec v) (c := ⟨20, 1, fun _ => none, [.xtol], [], 0, .fin (1 / 10), true⟩) (xtol := none)
    hroot exactSolve_inv (by norm_num) rfl (by norm_num) ⟨by simp [OmpConfig.withXtol], .xtol, by simp, Or.inl rfl, 1 / 1000000 * 2, by norm_num, by
      simp [OmpConfig.withXtol, effectiveXtol, ieeeArith]⟩
  exact ⟨r1, r2, by rw [a1], a2, by rw [b1], b2⟩

end

end TMD
