import Verif.Model.ContinuationOMP
import Mathlib.Tactic.SplitIfs

/-!
# Property C153: where the exceptions of the solver and of the continuation come from
-/

namespace TMD

open Spec

section

variable {F V M L : Type} {A : Arith F V M L} {c : OmpConfig F} {f : SolveFun V M}

/-- Settings with which the solver finds everything it looks up: known error measures with a tolerance. `xtol` may be `None`, it is replaced. -/
structure GoodCfg (c : OmpConfig F) : Prop where
  steps : 0 < c.maxSteps
  reform : 0 < c.reformFreq
  stop : ∀ k ∈ c.stoppingTol, k ≠ .other ∧ (k ≠ .xtol → ∃ t, c.tol k = some t)
  accept : ∀ k ∈ c.acceptingTol, k ≠ .other ∧ (k ≠ .xtol → ∃ t, c.tol k = some t)

theorem check_ok {tol : TolName → Option F} {x : Errs F} (ks : List TolName) (h : ∀ k ∈ ks, k ≠ .other ∧ ∃ t, tol k = some t) (b : Bool) :
    ∃ b', checkLoop A tol x b ks = .ok b' := by
  induction ks generalizing b with
  | nil => exact ⟨b, by cases b <;> rfl⟩
  | cons k ks ih =>
    have ih' := fun b => ih (fun k hk => h k (List.mem_cons_of_mem _ hk)) b
    cases b with
    | true => exact ih' true
    | false =>
      obtain ⟨hk, t, ht⟩ := h k List.mem_cons_self
      unfold checkLoop
      cases k <;> simp only [errorDict, ht] <;> first | exact ih' _ | exact absurd rfl hk

theorem lineLoop_error {X d : V} {G0 : F} {e : Err} (k : ℕ) (b : Bracket F V) (n : ℕ) (h : lineLoop A c f X d G0 k b n = .error e) : ∃ Y g, f Y g = .error e := by
  induction k generalizing b n with
  | zero => cases h
  | succ k ih =>
    unfold lineLoop at h
    dsimp only at h
    split at h
    · rename_i e' he
      injection h with h
      exact ⟨_, _, he.trans (by rw [h])⟩
    · split_ifs at h <;> first | cases h | exact ih _ _ h

theorem lineSearch_error {X R d : V} {e : Err} (h : lineSearch A c f X R d = .error e) : ∃ Y g, f Y g = .error e := by
  unfold lineSearch at h
  dsimp only at h
  split at h
  · rename_i e' he
    injection h with h
    exact ⟨_, _, he.trans (by rw [h])⟩
  · split at h
    · cases h
    · split at h
      · cases h
      · split at h
        · rename_i e' he
          injection h with h
          exact lineLoop_error _ _ _ (he.trans (by rw [h]))
        · split_ifs at h

/-- Quasi-Newton steps have a factored matrix. -/
def HasFac (st : OmpSt F V M L) : Prop := st.bfgsInd = 0 ∨ (∃ l, st.fac = some l) ∧ ∃ D, st.jac = some D

theorem direction_error {n : ℕ} (hn : 0 < n) {st : OmpSt F V M L} (hst : HasFac st) {e : Err} (h : direction A n f st = .error e) : ∃ Y g, f Y g = .error e := by
  unfold direction at h
  split at h
  · split at h
    · rename_i e' he
      injection h with h
      exact ⟨_, _, he.trans (by rw [h])⟩
    · dsimp only at h
      split at h
      · cases h
      · split at h
        · cases h
        · rw [if_neg (by omega)] at h
          cases h
  · rename_i hb
    obtain ⟨⟨l, hl⟩, -⟩ := hst.resolve_left hb
    split at h
    · rename_i e' he
      injection h with h
      exact ⟨_, _, he.trans (by rw [h])⟩
    · simp only [hl] at h
      split at h <;> cases h

theorem direction_ok {n : ℕ} {st st' : OmpSt F V M L} (hst : HasFac st) {o : Option (V × V)} (h : direction A n f st = .ok (st', o)) :
    (∃ R, st'.R = some R) ∧ (∃ D, st'.jac = some D) ∧ st'.nfev = st.nfev + 1 ∧ (o ≠ none → ∃ l, st'.fac = some l) := by
  unfold direction at h
  split at h
  · split at h
    · cases h
    · dsimp only at h
      split at h
      · injection h with h
        injection h with h1 h2
        subst h1
        exact ⟨⟨_, rfl⟩, ⟨_, rfl⟩, rfl, fun h => absurd h2.symm h⟩
      · split at h
        · injection h with h
          injection h with h1 h2
          subst h1
          exact ⟨⟨_, rfl⟩, ⟨_, rfl⟩, rfl, fun h => absurd h2.symm h⟩
        · split at h
          · cases h
          · injection h with h
            injection h with h1 h2
            subst h1
            exact ⟨⟨_, rfl⟩, ⟨_, rfl⟩, rfl, fun _ => ⟨_, rfl⟩⟩
  · rename_i hb
    obtain ⟨⟨l, hl⟩, D, hD⟩ := hst.resolve_left hb
    split at h
    · cases h
    · simp only [hl] at h
      split at h
      · injection h with h
        injection h with h1 h2
        subst h1
        exact ⟨⟨_, rfl⟩, ⟨D, hD⟩, rfl, fun h => absurd h2.symm h⟩
      · injection h with h
        injection h with h1 h2
        subst h1
        exact ⟨⟨_, rfl⟩, ⟨D, hD⟩, rfl, fun _ => ⟨l, rfl⟩⟩

/-- What the report after the loop needs. -/
def CanReport (st : OmpSt F V M L) : Prop := (∃ R, st.R = some R) ∧ (∃ D, st.jac = some D) ∧ 0 < st.nfev

def CanAccept (st : OmpSt F V M L) : Prop := (∃ g, st.first = some g) ∧ ∃ l, st.last = some l

theorem loop_cases (hr : 0 < c.reformFreq) (hs : ∀ k ∈ c.stoppingTol, k ≠ .other ∧ ∃ t, c.tol k = some t) (k i : ℕ) (st : OmpSt F V M L) (hst : HasFac st) :
    (∀ e, solveLoop A c f k i st = .error e → ∃ Y g, f Y g = .error e) ∧
      ∀ st' w, solveLoop A c f k i st = .ok (st', w) → (0 < k ∨ CanReport st ∧ CanAccept st) → CanReport st' ∧ (w = .exhausted → CanAccept st') := by
  induction k generalizing i st with
  | zero =>
    refine ⟨fun e h => (by cases h), fun st' w h hk => ?_⟩
    injection h with h
    injection h with h1 h2
    subst h1
    obtain ⟨q1, q2⟩ := hk.resolve_left (by omega)
    exact ⟨q1, fun _ => q2⟩
  | succ k ih =>
    unfold solveLoop
    split
    · rename_i e' he
      refine ⟨fun e h => ?_, fun st' w h => by cases h⟩
      injection h with h
      exact direction_error hr hst (he.trans (by rw [h]))
    · rename_i st1 he
      obtain ⟨d1, d2, d3, -⟩ := direction_ok hst he
      refine ⟨fun e h => (by cases h), fun st' w h _ => ?_⟩
      injection h with h
      injection h with h1 h2
      subst h1 h2
      exact ⟨⟨d1, d2, by omega⟩, fun h => by cases h⟩
    · rename_i st1 R full he
      obtain ⟨d1, d2, d3, d4⟩ := direction_ok hst he
      have hl := d4 (by simp)
      split
      · refine ⟨fun e h => (by cases h), fun st' w h _ => ?_⟩
        injection h with h
        injection h with h1 h2
        subst h1 h2
        exact ⟨⟨d1, d2, by omega⟩, fun h => by cases h⟩
      · dsimp only
        split
        · rename_i e' he'
          refine ⟨fun e h => ?_, fun st' w h => by cases h⟩
          injection h with h
          subst h
          split at he'
          · split at he'
            · rename_i e2 he2
              injection he' with he'
              exact lineSearch_error (he2.trans (by rw [he']))
            · cases he'
          · cases he'
        · rename_i step hstep
          split
          · rename_i e' he'
            obtain ⟨b, hb⟩ := check_ok (A := A) (tol := c.tol) (x := errsOf A (firstVals A i st1.first (A.sqrt (A.dot R R)) (if i = 0 then A.inf else A.dot R st1.dXm1) (A.sqrt (A.dot full full)))
              (A.sqrt (A.dot R R), (if i = 0 then A.inf else A.dot R st1.dXm1), A.sqrt (A.dot full full))) c.stoppingTol hs false
            unfold checkConvg at he'
            rw [hb] at he'
            cases he'
          · refine ⟨fun e h => (by cases h), fun st' w h _ => ?_⟩
            injection h with h
            injection h with h1 h2
            subst h1 h2
            exact ⟨⟨d1, d2, by simp only; omega⟩, fun h => by cases h⟩
          · have hfac : ∀ st2 : OmpSt F V M L, st2.fac = st1.fac → st2.jac = st1.jac → HasFac st2 := fun st2 h1 h2 => Or.inr ⟨by rw [h1]; exact hl, by rw [h2]; exact d2⟩
            refine ⟨fun e h => ?_, fun st' w h _ => ?_⟩
            · have := fun hf => (ih (i + 1) _ hf).1 e h
              exact this (hfac _ rfl rfl)
            · have := fun hf => (ih (i + 1) _ hf).2 st' w h
              exact this (hfac _ rfl rfl) (Or.inr ⟨⟨d1, d2, by simp only; omega⟩, ⟨_, rfl⟩, _, rfl⟩)

theorem good_tol (h : GoodCfg c) (x : F) : (∀ k ∈ c.stoppingTol, k ≠ .other ∧ ∃ t, (c.withXtol (some x)).tol k = some t) ∧ ∀ k ∈ c.acceptingTol, k ≠ .other ∧ ∃ t, (c.withXtol (some x)).tol k = some t := by
  constructor
  · intro k hk
    refine ⟨(h.stop k hk).1, ?_⟩
    by_cases e : k = .xtol
    · exact ⟨x, by simp [OmpConfig.withXtol, e]⟩
    · obtain ⟨t, ht⟩ := (h.stop k hk).2 e
      exact ⟨t, by simp [OmpConfig.withXtol, e, ht]⟩
  · intro k hk
    refine ⟨(h.accept k hk).1, ?_⟩
    by_cases e : k = .xtol
    · exact ⟨x, by simp [OmpConfig.withXtol, e]⟩
    · obtain ⟨t, ht⟩ := (h.accept k hk).2 e
      exact ⟨t, by simp [OmpConfig.withXtol, e, ht]⟩

/-- C153: the solver raises only what the residual function raises, in every arithmetic; a returned result has used at least one evaluation. -/
theorem C153_nsolve (h : GoodCfg c) (X0 : V) (xtol : Option F) :
    (∀ e c', nsolveOMP A c f X0 xtol = (.error e, c') → ∃ X g, f X g = .error e) ∧
      ∀ res c', nsolveOMP A c f X0 xtol = (.ok res, c') → 0 < res.nfev := by
  obtain ⟨g1, g2⟩ := good_tol h (effectiveXtol A c X0 xtol)
  obtain ⟨l1, l2⟩ := loop_cases (A := A) (f := f) (c := c.withXtol (some (effectiveXtol A c X0 xtol))) h.reform g1 c.maxSteps 0 (startSt A X0) (Or.inl rfl)
  have hfin : ∀ st w, CanReport st → (w = .exhausted → CanAccept st) → ∃ res, finish A (c.withXtol (some (effectiveXtol A c X0 xtol))) st w = .ok res ∧ res.nfev = st.nfev := fun st w hr ha => by
    obtain ⟨⟨R, hR⟩, ⟨D, hD⟩, -⟩ := hr
    unfold finish
    cases w with
    | nan => simp [hR, hD]
    | converged => simp [hR, hD]
    | exhausted =>
      obtain ⟨⟨g, hg⟩, l, hl⟩ := ha rfl
      obtain ⟨b, hb⟩ := check_ok (A := A) (tol := (c.withXtol (some (effectiveXtol A c X0 xtol))).tol) (x := errsOf A g l) c.acceptingTol g2 false
      have hb' : checkConvg A (c.withXtol (some (effectiveXtol A c X0 xtol))).acceptingTol (c.withXtol (some (effectiveXtol A c X0 xtol))).tol (errsOf A g l) = .ok b := hb
      simp [hR, hD, hg, hl, hb']
  constructor
  · intro e c' he
    unfold nsolveOMP at he
    dsimp only at he
    split at he
    · rename_i e' he'
      injection he with h1 h2
      injection h1 with h1
      exact l1 e (he'.trans (by rw [h1]))
    · rename_i st w hw
      obtain ⟨q1, q2⟩ := l2 st w hw (Or.inl h.steps)
      obtain ⟨res, hres, -⟩ := hfin st w q1 q2
      rw [hres] at he
      cases he
  · intro res c' he
    unfold nsolveOMP at he
    dsimp only at he
    split at he
    · cases he
    · rename_i st w hw
      obtain ⟨q1, q2⟩ := l2 st w hw (Or.inl h.steps)
      obtain ⟨res', hres, hn⟩ := hfin st w q1 q2
      rw [hres] at he
      injection he with h1 h2
      injection h1 with h1
      rw [← h1, hn]
      exact q1.2.2

/-- C153: an exception at the initial guess is raised by the solver. -/
theorem C153_start (hs : 0 < c.maxSteps) {X0 : V} {e : Err} (he : f X0 true = .error e) (xtol : Option F) : (nsolveOMP A c f X0 xtol).1 = .error e := by
  obtain ⟨k, hk⟩ : ∃ k, c.maxSteps = k + 1 := ⟨c.maxSteps - 1, by omega⟩
  have hk' : (c.withXtol (some (effectiveXtol A c X0 xtol))).maxSteps = k + 1 := hk
  unfold nsolveOMP
  dsimp only
  rw [hk']
  unfold solveLoop direction
  simp [startSt, he]

end

noncomputable section

/-- A solver that raises only what its function raises, and evaluates it at least once. Functions return a matrix when asked for one. -/
structure Transparent (sv : ContSolver) : Prop where
  raises : ∀ n k F x e, (∀ X R, F X true ≠ .ok (R, none)) → sv.nsolve n k F x = .error e → ∃ X g, F X g = .error e
  evals : ∀ n k F x s, (∀ X R, F X true ≠ .ok (R, none)) → sv.nsolve n k F x = .ok s → 0 < s.nfev

/-- C153: in a continuation, the solver passes on the exceptions of its function only; a function that returns no matrix when asked for one makes
it raise. -/
theorem C153_passes {L : ℕ → Type} {lin : ℕ → (ℕ → ℕ → ℝ) → (ℕ → ℝ) → Except Err (ℕ → ℝ)} {inf : ℝ} {fac : (n : ℕ) → Matrix (Fin n) (Fin n) ℝ → L n}
    {sol : (n : ℕ) → L n → (Fin n → ℝ) → Fin n → ℝ} {om : OmpConfig ℝ} {xtol : Option ℝ} (h : GoodCfg om) :
    Transparent (ompContSolver lin inf fac sol om xtol) ∧
      ∀ n k F x R, F (Spec.ext fun i : Fin n => x i) true = .ok (R, none) → (ompContSolver lin inf fac sol om xtol).nsolve n k F x = .error .value := by
  have herr : ∀ {n : ℕ} {F : AugFun} {X : Fin n → ℝ} {g : Bool} {e : Err}, (∀ X R, F X true ≠ .ok (R, none)) → augSolve n F X g = .error e → F (Spec.ext X) g = .error e := by
    intro n F X g e hF he
    unfold augSolve at he
    split at he
    · rename_i e' he'
      rw [he']
      injection he with he
      rw [he]
    · cases he
    · rename_i R hR
      cases g
      · simp at he
      · exact absurd hR (hF _ _)
  refine ⟨⟨fun n k F x e hF he => ?_, fun n k F x s hF he => ?_⟩, fun n k F x R hR => ?_⟩
  · simp only [ompContSolver] at he
    split at he
    · rename_i e' he'
      injection he with he
      obtain ⟨X, g, hX⟩ := (C153_nsolve h _ _).1 e _ (Prod.ext (he'.trans (by rw [he])) rfl)
      exact ⟨_, g, herr hF hX⟩
    · cases he
  · simp only [ompContSolver] at he
    split at he
    · cases he
    · rename_i res he'
      injection he with he
      have := (C153_nsolve h _ _).2 res _ (Prod.ext he' rfl)
      rw [← he]
      exact this
  · have : augSolve n F (fun i : Fin n => x i) true = .error .value := by
      unfold augSolve
      rw [hR]
      rfl
    simp only [ompContSolver, C153_start h.steps this]

/-- Settings of a continuation with which nothing but the function and the linear solver can raise after the initial solve. -/
structure GoodCont (N : ℕ) (cfg : ContCfg) : Prop where
  corrector : cfg.corrector ≠ .other
  list : cfg.fracLamList ≠ []
  steps : 0 < cfg.maxSteps
  size : cfg.dynamicCtoP = true → 0 < N

variable {sv : ContSolver} {N : ℕ} {cfg : ContCfg} {f : ContFun} {e : Err}

/-- The exception `e` is one of the user's function or of the linear solver. -/
def FromUser (sv : ContSolver) (N : ℕ) (f : ContFun) (e : Err) : Prop := (∃ X g, f X g = .error e) ∨ ∃ A b, sv.linSolve (N + 1) A b = .error e

theorem correctRes_error (hc : cfg.corrector ≠ .other) {obj : ContObj} {r : ℝ} (hr : obj.RPtoC = .scalar r) {X C0 : ℕ → ℝ} {ds : ℝ} {dir : ℕ → ℝ} {g : Bool}
    (h : correctRes N cfg.corrector obj f X C0 ds (some dir) g = .error e) : ∃ X g, f X g = .error e := by
  unfold correctRes at h
  dsimp only at h
  split at h
  · rename_i e' he
    injection h with h
    exact ⟨_, _, he.trans (by rw [h])⟩
  · rw [hr] at h
    cases hcc : cfg.corrector <;> rw [hcc] at h <;> first | exact absurd hcc hc | cases h

theorem correctRes_matrix {corr : Corrector} {obj : ContObj} {X C0 : ℕ → ℝ} {ds : ℝ} {dir : Option (ℕ → ℝ)} {R : ℕ → ℝ} :
    correctRes N corr obj f X C0 ds dir true ≠ .ok (R, none) := by
  intro h
  unfold correctRes at h
  dsimp only at h
  split at h
  · cases h
  · split at h
    · cases h
    · split at h
      · cases h
      · simp at h

theorem solveStep_cases (ht : Transparent sv) (hc : cfg.corrector ≠ .other) {st : ContSt} (hr : ∃ r, st.obj.RPtoC = .scalar r) :
    (solveStep sv N cfg f st = .error (.raised e) → FromUser sv N f e) ∧
      ∀ q, solveStep sv N cfg f st = .ok q → q.1.obj = st.obj ∧ 0 < q.2.nfev := by
  obtain ⟨r, hr⟩ := hr
  constructor
  · intro h
    unfold solveStep at h
    dsimp only at h
    split at h
    · rename_i e' he
      injection h with h
      injection h with h
      obtain ⟨X, g, hX⟩ := ht.raises _ _ _ _ _ (fun X R => correctRes_matrix) (he.trans (by rw [h]))
      exact Or.inl (correctRes_error hc hr hX)
    · cases h
  · intro q h
    unfold solveStep at h
    dsimp only at h
    split at h
    · cases h
    · rename_i s hs
      injection h with h
      rw [← h]
      exact ⟨rfl, ht.evals _ _ _ _ _ (fun X R => correctRes_matrix) hs⟩

theorem retry_cases (ht : Transparent sv) (hc : cfg.corrector ≠ .other) (fuel : ℕ) (st : ContSt) (s : SolOut) (hr : ∃ r, st.obj.RPtoC = .scalar r) (hs : 0 < s.nfev) :
    (retryLoop sv N cfg f fuel st s = .error (.raised e) → FromUser sv N f e) ∧ ∀ q, retryLoop sv N cfg f fuel st s = .ok q → 0 < q.2.nfev := by
  induction fuel generalizing st s with
  | zero => exact ⟨fun h => (by cases h), fun q h => (by cases h)⟩
  | succ k ih =>
    unfold retryLoop
    split
    · obtain ⟨a1, a2⟩ := solveStep_cases (e := e) (N := N) (f := f) ht hc (st := { st with ds := max (st.ds / 2) cfg.dsmin }) hr
      split
      · rename_i e' he
        refine ⟨fun h => ?_, fun q h => (by cases h)⟩
        injection h with h
        exact a1 (he.trans (by rw [h]))
      · rename_i q he
        obtain ⟨b1, b2⟩ := a2 q he
        exact ih q.1 q.2 (by rw [b1]; exact hr) b2
    · refine ⟨fun h => (by cases h), fun q h => ?_⟩
      injection h with h
      rw [← h]
      exact hs

theorem predict_cases (hN : cfg.dynamicCtoP = true → 0 < N) {obj : ContObj} {X0 Xp dp : ℕ → ℝ} :
    (predict sv N cfg.dynamicCtoP obj f X0 Xp dp = .error e → FromUser sv N f e) ∧
      ∀ p, predict sv N cfg.dynamicCtoP obj f X0 Xp dp = .ok p → ∃ r, p.2.RPtoC = .scalar r := by
  have hn : ¬ (cfg.dynamicCtoP = true ∧ N = 0) := fun h => by have := hN h.1; omega
  constructor
  · intro h
    unfold predict at h
    split at h
    · rename_i e' he
      injection h with h
      exact Or.inl ⟨_, _, he.trans (by rw [h])⟩
    · split at h
      · rename_i e' he
        injection h with h
        exact Or.inr ⟨_, _, he.trans (by rw [h])⟩
      · rw [if_neg hn] at h
        cases h
  · intro p h
    unfold predict at h
    split at h
    · cases h
    · split at h
      · cases h
      · rw [if_neg hn] at h
        injection h with h
        rw [← h]
        simp only [predictScale]
        split_ifs <;> exact ⟨_, rfl⟩

theorem tryFrac_cases (ht : Transparent sv) (hg : GoodCont N cfg) (fuel : ℕ) (b : ℝ) (st : ContSt) :
    (tryFrac sv N cfg f fuel b st = .error (.raised e) → FromUser sv N f e) ∧ ∀ q, tryFrac sv N cfg f fuel b st = .ok q → 0 < q.2.nfev := by
  unfold tryFrac
  obtain ⟨p1, p2⟩ := predict_cases (sv := sv) (f := f) (e := e) hg.size (obj := { st.obj with fracLam := b }) (X0 := st.X0) (Xp := st.Xprev) (dp := st.dirC)
  split
  · rename_i e' he
    refine ⟨fun h => ?_, fun q h => (by cases h)⟩
    injection h with h
    injection h with h
    exact p1 (he.trans (by rw [h]))
  · rename_i p hp
    have hr := p2 p hp
    obtain ⟨a1, a2⟩ := solveStep_cases (e := e) (N := N) (f := f) ht hg.corrector (st := { st with dirC := p.1, obj := p.2 }) hr
    split
    · rename_i e' he
      refine ⟨fun h => ?_, fun q h => (by cases h)⟩
      injection h with h
      exact a1 (he.trans (by rw [h]))
    · rename_i q he
      obtain ⟨b1, b2⟩ := a2 q he
      exact retry_cases ht hg.corrector fuel q.1 q.2 (by rw [b1]; exact hr) b2

theorem fracLoop_cases (ht : Transparent sv) (hg : GoodCont N cfg) (fuel : ℕ) (l : List ℝ) (hl : l ≠ []) (st : ContSt) :
    (fracLoop sv N cfg f fuel l st = .error (.raised e) → FromUser sv N f e) ∧ ∀ q, fracLoop sv N cfg f fuel l st = .ok q → 0 < q.2.nfev := by
  induction l generalizing st with
  | nil => exact absurd rfl hl
  | cons b rest ih =>
    obtain ⟨a1, a2⟩ := tryFrac_cases (e := e) (f := f) ht hg fuel b st
    unfold fracLoop
    split
    · rename_i e' he
      refine ⟨fun h => ?_, fun q h => (by cases h)⟩
      injection h with h
      exact a1 (he.trans (by rw [h]))
    · rename_i q he
      have hq := a2 q he
      split
      · refine ⟨fun h => (by cases h), fun q' h => ?_⟩
        injection h with h
        rw [← h]
        exact hq
      · cases rest with
        | nil =>
          refine ⟨fun h => (by cases h), fun q' h => ?_⟩
          injection h with h
          rw [← h]
          exact hq
        | cons b' rest' => exact ih (by simp) q.1

theorem contLoop_raised (ht : Transparent sv) (hg : GoodCont N cfg) {silent : Bool} {lam0 lam1 : ℝ} {C0 : ℕ → ℝ} {fuel' : ℕ} (fuel : ℕ) (st : ContSt)
    (h : contLoop sv N cfg f silent lam0 lam1 C0 fuel' fuel st = .error (.raised e)) : FromUser sv N f e := by
  induction fuel generalizing st with
  | zero => cases h
  | succ k ih =>
    unfold contLoop at h
    obtain ⟨a1, a2⟩ := fracLoop_cases (e := e) (f := f) ht hg fuel' cfg.fracLamList hg.list (recondition cfg C0 st)
    split at h
    · split at h
      · rename_i e' he
        injection h with h
        exact a1 (he.trans (by rw [h]))
      · rename_i q he
        have hq := a2 q he
        split at h
        · cases h
        · rw [if_neg (by omega)] at h
          exact ih _ h
    · cases h

/-- C153: a continuation raises only what the user's function or the linear solver raises, or the assertion that the first solve was successful. -/
theorem C153_continuation {L : ℕ → Type} {lin : ℕ → (ℕ → ℕ → ℝ) → (ℕ → ℝ) → Except Err (ℕ → ℝ)} {inf : ℝ} {fac : (n : ℕ) → Matrix (Fin n) (Fin n) ℝ → L n}
    {sol : (n : ℕ) → L n → (Fin n → ℝ) → Fin n → ℝ} {om : OmpConfig ℝ} {xtol : Option ℝ} (hom : GoodCfg om) (hg : GoodCont N cfg) {obj : ContObj} {XlamP0 : ℕ → ℝ} {lam0 lam1 : ℝ} {fuel : ℕ}
    (h : continuation (ompContSolver lin inf fac sol om xtol) N cfg obj f XlamP0 lam0 lam1 fuel = .error (.raised e)) :
    (∃ X g, f X g = .error e) ∨ (∃ A b, lin (N + 1) A b = .error e) ∨
      e = .assertion ∧ ∃ res c', nsolveOMP (realArith N inf (fac N) (sol N)) om (augSolve N (initialFun N f lam0 (contPrepare obj).CtoP (contPrepare obj).RPtoC))
        (fun i => XlamP0 i / (contPrepare obj).CtoP i) xtol = (.ok res, c') ∧ res.success = false := by
  have ht : Transparent (ompContSolver lin inf fac sol om xtol) := (C153_passes hom).1
  have hinit : ∀ X R, initialFun N f lam0 (contPrepare obj).CtoP (contPrepare obj).RPtoC X true ≠ .ok (R, none) := fun X R hX => by
    unfold initialFun at hX
    split at hX
    · cases hX
    · simp at hX
  have huser : ∀ {e}, FromUser (ompContSolver lin inf fac sol om xtol) N f e → (∃ X g, f X g = .error e) ∨ (∃ A b, lin (N + 1) A b = .error e) := fun h => h
  unfold continuation at h
  dsimp only at h
  split at h
  · rename_i e' he
    injection h with h
    injection h with h
    obtain ⟨X, g, hX⟩ := ht.raises _ _ _ _ _ hinit (he.trans (by rw [h]))
    left
    unfold initialFun at hX
    split at hX
    · rename_i e2 he2
      injection hX with hX
      exact ⟨_, _, he2.trans (by rw [hX])⟩
    · cases hX
  · rename_i s hs
    split at h
    · rename_i hsuc
      injection h with h
      injection h with h
      refine Or.inr (Or.inr ⟨h.symm, ?_⟩)
      simp only [ompContSolver] at hs
      split at hs
      · cases hs
      · rename_i res hres
        injection hs with hs
        rw [← hs] at hsuc
        exact ⟨res, _, Prod.ext hres rfl, hsuc⟩
    · rw [if_neg (by have := hg.steps; omega)] at h
      split at h
      · rename_i e' he
        injection h with h
        rcases huser (contLoop_raised ht hg fuel _ (he.trans (by rw [h]))) with h | h
        · exact Or.inl h
        · exact Or.inr (Or.inl h)
      · rename_i st hst
        unfold contFinish at h
        split at h
        · split at h
          · cases h
          · split at h
            · rename_i e' he
              injection h with h
              injection h with h
              rcases huser ((predict_cases hg.size).1 (he.trans (by rw [h]))) with h | h
              · exact Or.inl h
              · exact Or.inr (Or.inl h)
            · cases h
        · cases h

/-- The standard settings fulfil the hypotheses; a function that raises at the initial guess makes the solver raise the same, and settings that name a
measure without a tolerance are not covered. -/
example (lin : ℕ → (ℕ → ℕ → ℝ) → (ℕ → ℝ) → Except Err (ℕ → ℝ)) (fac : (n : ℕ) → Matrix (Fin n) (Fin n) ℝ → ℕ) (sol : (n : ℕ) → ℕ → (Fin n → ℝ) → Fin n → ℝ) :
    GoodCfg ({lsTol := 1 / 2} : OmpConfig ℝ) ∧ ¬ GoodCfg ({lsTol := 1 / 2, stoppingTol := [.xtol, .rtol]} : OmpConfig ℝ) ∧
      GoodCont 3 ⟨1, 1, 1 / 10, 50, 8, true, .ortho, [1 / 2, 1], none, 2, false⟩ ∧
      (nsolveOMP (realArith 3 0 (fac 3) (sol 3)) {lsTol := 1 / 2} (fun _ _ => .error .index) 0 none).1 = .error .index ∧
      (ompContSolver lin 0 fac sol {lsTol := 1 / 2} none).nsolve 3 0 (fun _ _ => .ok (0, none)) 0 = .error .value := by
  have h : GoodCfg ({lsTol := 1 / 2} : OmpConfig ℝ) := ⟨by norm_num, by norm_num, fun k hk => by simp at hk; subst hk; simp, fun k hk => by simp at hk⟩
  refine ⟨h, fun h' => ?_, ⟨by simp, by simp, by norm_num, fun _ => by norm_num⟩, C153_start (by norm_num) rfl none, (C153_passes h).2 _ _ _ _ 0 rfl⟩
  obtain ⟨t, ht⟩ := (h'.stop .rtol (by simp)).2 (by simp)
  cases ht

end

end TMD
