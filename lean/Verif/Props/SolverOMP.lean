import Verif.Lemmas.SolverOMP
import Mathlib.Tactic.Linarith
import Mathlib.Tactic.LinearCombination
import Mathlib.LinearAlgebra.Matrix.NonsingularInverse

/-!
# Properties C15–C18, C68: the parallel nonlinear solver
-/

namespace TMD

open Spec

variable {F V M L : Type}

/-! ## C16 -/

theorem checkLoop_true (A : Arith F V M L) (tol : TolName → Option F) (x : Errs F) (l : List TolName) :
    checkLoop A tol x true l = .ok true := by
  induction l with
  | nil => rfl
  | cons k ks ih => rw [checkLoop, ih]

theorem checkConvg_sound (A : Arith F V M L) (l : List TolName) (tol : TolName → Option F) (x : Errs F)
    (h : checkConvg A l tol x = .ok true) :
    ∃ k ∈ l, ∃ v t, errorDict x k = some v ∧ tol k = some t ∧ A.lt (A.abs v) t = true := by
  unfold checkConvg at h
  induction l with
  | nil => simp [checkLoop] at h
  | cons k ks ih =>
    rw [checkLoop] at h
    cases hv : errorDict x k with
    | none => rw [hv] at h; simp at h
    | some v =>
      rw [hv] at h
      cases ht : tol k with
      | none => rw [ht] at h; simp at h
      | some t =>
        rw [ht] at h
        simp only at h
        cases hb : A.lt (A.abs v) t with
        | true => exact ⟨k, by simp, v, t, hv, ht, hb⟩
        | false =>
          rw [hb] at h
          obtain ⟨k', hk', r⟩ := ih h
          exact ⟨k', by simp [hk'], r⟩

/-- The two relative names exchanged, everything else unchanged. -/
def exchanged : TolName → TolName
  | .xtolRel => .etolRel
  | .etolRel => .xtolRel
  | k => k

theorem errorDict_named (x : Errs F) (k : TolName) : errorDict x k = named x (exchanged k) := by
  cases k <;> rfl

/-- C16, what the code does: a raised flag means some listed tolerance exceeds the measure named by it,
except that `xtol_rel` is compared with the relative energy and `etol_rel` with the relative step. -/
theorem C16_actual (A : Arith F V M L) (l : List TolName) (tol : TolName → Option F) (x : Errs F)
    (h : checkConvg A l tol x = .ok true) :
    ∃ k ∈ l, ∃ v t, named x (exchanged k) = some v ∧ tol k = some t ∧ A.lt (A.abs v) t = true := by
  obtain ⟨k, hk, v, t, h1, h2, h3⟩ := checkConvg_sound A l tol x h
  exact ⟨k, hk, v, t, by rw [← errorDict_named]; exact h1, h2, h3⟩

/-- C16 (partial): for check lists without the two relative names a raised flag means that some listed
tolerance exceeds the measure it names. Missing: `xtol_rel` and `etol_rel` (`C16_violated`). -/
theorem C16_named_partial (A : Arith F V M L) (l : List TolName) (h1 : .xtolRel ∉ l) (h2 : .etolRel ∉ l)
    (tol : TolName → Option F) (x : Errs F) (h : checkConvg A l tol x = .ok true) :
    ∃ k ∈ l, ∃ v t, named x k = some v ∧ tol k = some t ∧ A.lt (A.abs v) t = true := by
  obtain ⟨k, hk, v, t, e1, e2, e3⟩ := C16_actual A l tol x h
  have : exchanged k = k := by
    cases k <;> first | rfl | exact absurd hk h1 | exact absurd hk h2
  rw [this] at e1
  exact ⟨k, hk, v, t, e1, e2, e3⟩

/-- C16: conversely the flag is raised whenever a listed tolerance is met, all listed names are known and
have a value. -/
theorem C16_complete (A : Arith F V M L) (l : List TolName) (tol : TolName → Option F) (x : Errs F)
    (hall : ∀ k ∈ l, k ≠ .other ∧ ∃ t, tol k = some t) :
    checkConvg A l tol x = .ok true ∨ (checkConvg A l tol x = .ok false ∧
      ∀ k ∈ l, ∀ v t, named x (exchanged k) = some v → tol k = some t → A.lt (A.abs v) t = false) := by
  unfold checkConvg
  induction l with
  | nil => right; simp [checkLoop]
  | cons k ks ih =>
    obtain ⟨hk, t, ht⟩ := hall k (by simp)
    have hv : ∃ v, errorDict x k = some v := by
      cases k <;> first | exact ⟨_, rfl⟩ | exact absurd rfl hk
    obtain ⟨v, hv⟩ := hv
    rw [checkLoop, hv]
    simp only [ht]
    cases hb : A.lt (A.abs v) t with
    | true => left; exact checkLoop_true _ _ _ _
    | false =>
      rcases ih (fun k' hk' => hall k' (by simp [hk'])) with h | ⟨h, h'⟩
      · left; exact h
      · right
        refine ⟨h, fun k' hk' v' t' e1 e2 => ?_⟩
        rcases List.mem_cons.1 hk' with rfl | hk'
        · rw [← errorDict_named, hv] at e1
          rw [ht] at e2
          simp only [Option.some.injEq] at e1 e2
          rw [← e1, ← e2]; exact hb
        · exact h' k' hk' v' t' e1 e2

/-- C16: the empty list never converges and never raises. -/
theorem C16_empty (A : Arith F V M L) (tol : TolName → Option F) (x : Errs F) :
    checkConvg A [] tol x = .ok false := rfl

noncomputable section

/-- Solver arithmetic over `ℝ` in dimension one with division as linear solve. -/
def arith1 : Arith ℝ (Fin 1 → ℝ) (Matrix (Fin 1) (Fin 1) ℝ) ℝ :=
  realArith 1 0 (fun D => D 0 0) (fun a v => fun i => v i / a)

/-- C16 is false: asked for a relative step below `1/2`, the check passes with a relative step of `1`
because the relative energy is small. -/
theorem C16_violated : ∃ (tol : TolName → Option ℝ) (x : Errs ℝ), tol .xtolRel = some (1/2) ∧ x.uRel = 1 ∧
    checkConvg arith1 [.xtolRel] tol x = .ok true ∧
    ¬ ∃ k ∈ [TolName.xtolRel], ∃ v t, named x k = some v ∧ tol k = some t ∧ arith1.lt (arith1.abs v) t = true := by
  refine ⟨fun _ => some (1/2), ⟨1, 1, 1, 1, 0, 1⟩, rfl, rfl, ?_, ?_⟩
  · simp [checkConvg, checkLoop, errorDict, arith1, realArith]
  · simp [named, arith1, realArith]
    norm_num

/-- Non-vacuity of `C16_named_partial`. -/
example : checkConvg arith1 [.rtol, .xtol] (fun _ => some 1) ⟨2, 5, 1/2, 3, 3, 3⟩ = .ok true := by
  simp [checkConvg, checkLoop, errorDict, arith1, realArith]
  norm_num

end

/-! ## C15 and C68 -/

theorem lineSearch_withXtol (A : Arith F V M L) (c : OmpConfig F) (x : Option F) (f : SolveFun V M) (X R d : V) :
    lineSearch A (c.withXtol x) f X R d = lineSearch A c f X R d := by
  have h : ∀ k b G nf, lineLoop A (c.withXtol x) f X d G k b nf = lineLoop A c f X d G k b nf := by
    intro k
    induction k with
    | zero => intro b G nf; rfl
    | succ k ih =>
      intro b G nf
      simp only [lineLoop, ih]
      rfl
  simp only [lineSearch, h]
  rfl

/-- C15: whenever `nsolve` returns, it has performed a run of at most `max_steps` iterations with one
residual evaluation each (one more was started if it stopped on NaN), the returned point is the end of the
run, and the configuration is as before the call. Success is reported only if the last iteration of the run
met a tolerance of `stopping_tol`, or one of `accepting_tol` after exactly `max_steps` iterations; in
particular not after NaN: all residuals, Jacobians and steps of the run are free of NaN and the last residual
evaluated belongs to the run. (Which measure a name is compared with is the subject of C16.) -/
theorem C15_report (A : Arith F V M L) (c : OmpConfig F) (f : SolveFun V M) (X0 : V) (xtol : Option F)
    (res : SolveRes V M) (c' : OmpConfig F) (h : nsolveOMP A c f X0 xtol = (.ok res, c')) :
    c' = c ∧ ∃ it n, Run A c f X0 it n ∧ n ≤ c.maxSteps ∧ res.trace = (List.range n).map it ∧
      res.X = after A X0 it n ∧ n ≤ res.nfev ∧ res.nfev ≤ c.maxSteps ∧ res.nfev ≤ n + 1 ∧ res.njev ≤ res.nfev ∧
      (res.success = true → 0 < n ∧ res.nfev = n ∧ ∃ k v t,
        named (measures A it (n-1)) (exchanged k) = some v ∧
        (if k = .xtol then t = effectiveXtol A c X0 xtol else c.tol k = some t) ∧
        A.lt (A.abs v) t = true ∧ (k ∈ c.stoppingTol ∨ (k ∈ c.acceptingTol ∧ n = c.maxSteps))) := by
  unfold nsolveOMP at h
  set cc := c.withXtol (some (effectiveXtol A c X0 xtol)) with hcc
  simp only at h
  have htol : ∀ k t, cc.tol k = some t →
      (if k = .xtol then t = effectiveXtol A c X0 xtol else c.tol k = some t) := by
    intro k t hk
    simp only [hcc, OmpConfig.withXtol] at hk
    by_cases hkx : k = .xtol
    · rw [if_pos hkx] at hk ⊢
      exact (Option.some.inj hk).symm
    · rw [if_neg hkx] at hk ⊢
      exact hk
  cases hl : solveLoop A cc f cc.maxSteps 0 (startSt A X0) with
  | error e => rw [hl] at h; simp at h
  | ok sw =>
    obtain ⟨st, w⟩ := sw
    rw [hl] at h
    simp only at h
    obtain ⟨n, ho⟩ := solveLoop_out A cc f X0 cc.maxSteps 0 _ st w (startSt_inv A cc f X0) hl
    cases hf : finish A cc st w with
    | error e => rw [hf] at h; simp at h
    | ok r =>
      rw [hf] at h
      simp only [Prod.mk.injEq, Except.ok.injEq] at h
      obtain ⟨rfl, rfl⟩ := h
      have hcback : cc.withXtol (c.tol .xtol) = c := by
        cases c with
        | mk a b tol d e g i j =>
          simp only [hcc, OmpConfig.withXtol, OmpConfig.mk.injEq, true_and, and_true]
          funext k
          by_cases hk : k = .xtol
          · simp [hk]
          · simp [hk]
      refine ⟨hcback, itOf A st.trace, n, ?_, by have := ho.le; rw [Nat.zero_add] at this; exact this, ?_⟩
      · have r0 := ho.run
        refine ⟨r0.chain, r0.residual, r0.quasi, r0.newton, r0.notNaN, ?_⟩
        intro j hj
        have := r0.step j hj
        refine ⟨this.1, fun hp => ?_⟩
        obtain ⟨ls, h1, h2⟩ := this.2 hp
        exact ⟨ls, by rw [hcc, lineSearch_withXtol] at h1; exact h1, h2⟩
      -- the shape of the result
      have hshape : r.X = st.X ∧ r.nfev = st.nfev ∧ r.njev = st.njev ∧ r.trace = st.trace ∧
          (r.success = true → w = .converged ∨ (w = .exhausted ∧ ∃ g l, st.first = some g ∧ st.last = some l ∧
            checkConvg A cc.acceptingTol cc.tol (errsOf A g l) = .ok true)) := by
        unfold finish at hf
        cases w with
        | nan =>
          simp only at hf
          split at hf
          · simp only [Except.ok.injEq] at hf; subst hf; simp
          · simp at hf
        | converged =>
          simp only at hf
          split at hf
          · simp only [Except.ok.injEq] at hf; subst hf; simp
          · simp at hf
        | exhausted =>
          simp only at hf
          cases hg : st.first with
          | none => rw [hg] at hf; simp at hf
          | some g =>
            cases hlst : st.last with
            | none => rw [hg, hlst] at hf; simp at hf
            | some l =>
              rw [hg, hlst] at hf
              simp only at hf
              cases hc2 : checkConvg A cc.acceptingTol cc.tol (errsOf A g l) with
              | error e => rw [hc2] at hf; simp at hf
              | ok b =>
                rw [hc2] at hf
                simp only at hf
                split at hf
                · simp only [Except.ok.injEq] at hf
                  subst hf
                  refine ⟨rfl, rfl, rfl, rfl, fun hb => Or.inr ⟨rfl, g, l, rfl, rfl, ?_⟩⟩
                  simp only at hb
                  rw [hc2, hb]
                · simp at hf
      obtain ⟨s1, s2, s3, s4, s5⟩ := hshape
      have hmax : cc.maxSteps = c.maxSteps := rfl
      have hle := ho.le
      have hnf : n ≤ st.nfev ∧ st.nfev ≤ c.maxSteps ∧ st.nfev ≤ n + 1 := by
        cases w with
        | nan => have := ho.nan rfl; omega
        | converged => have := ho.converged rfl; omega
        | exhausted => have := ho.exhausted rfl; omega
      refine ⟨?_, ?_, ?_, ?_, ?_, ?_, ?_⟩
      · rw [s4, ← ho.len]; exact itOf_map A st.trace
      · rw [s1]; exact ho.X
      · rw [s2]; exact hnf.1
      · rw [s2]; exact hnf.2.1
      · rw [s2]; exact hnf.2.2
      · rw [s3, s2]; exact ho.njev
      · intro hs
        rw [s2]
        rcases s5 hs with hw | ⟨hw, g, l, hg, hl', hcv⟩
        · obtain ⟨n0, h1, h2⟩ := ho.converged hw
          refine ⟨n0, h1, ?_⟩
          obtain ⟨k, hk, v, t, e1, e2, e3⟩ := C16_actual A _ _ _ h2
          exact ⟨k, v, t, e1, htol k t e2, e3, Or.inl hk⟩
        · obtain ⟨h0, h1, _⟩ := ho.exhausted hw
          have hn0 : 0 < n := by
            by_contra hn
            have : n = 0 := by omega
            subst this
            -- with no iteration the names are unbound
            have := ho.len
            have hst : st = startSt A X0 := by
              have hz : cc.maxSteps = 0 := by omega
              rw [hz] at hl
              simp only [solveLoop, Except.ok.injEq, Prod.mk.injEq] at hl
              exact hl.1.symm
            rw [hst] at hg
            simp [startSt] at hg
          refine ⟨hn0, h1, ?_⟩
          rw [ho.first hn0] at hg
          rw [ho.last hn0] at hl'
          simp only [Option.some.injEq] at hg hl'
          subst hg hl'
          have hmeas : errsOf A (firstAt A (itOf A st.trace) n) (lastAt A (itOf A st.trace) (n-1))
              = measures A (itOf A st.trace) (n-1) := by
            have := errsOf_eq A (itOf A st.trace) (n-1)
            rwa [Nat.sub_add_cancel hn0] at this
          rw [hmeas] at hcv
          obtain ⟨k, hk, v, t, e1, e2, e3⟩ := C16_actual A _ _ _ hcv
          exact ⟨k, v, t, e1, htol k t e2, e3, Or.inr ⟨hk, by omega⟩⟩

/-- C15: with only absolute names listed, success means what the names say. -/
theorem C15_absolute (A : Arith F V M L) (c : OmpConfig F) (f : SolveFun V M) (X0 : V) (xtol : Option F)
    (hstop : ∀ k ∈ c.stoppingTol, k = .xtol ∨ k = .rtol ∨ k = .etol)
    (hacc : ∀ k ∈ c.acceptingTol, k = .xtol ∨ k = .rtol ∨ k = .etol)
    (res : SolveRes V M) (c' : OmpConfig F) (h : nsolveOMP A c f X0 xtol = (.ok res, c'))
    (hs : res.success = true) :
    ∃ it n, Run A c f X0 it (n+1) ∧ res.X = A.vadd (it n).X (it n).step ∧
      (A.lt (A.abs (A.sqrt (A.dot (it n).full (it n).full))) (effectiveXtol A c X0 xtol) = true ∨
       (∃ t, c.tol .rtol = some t ∧ A.lt (A.abs (A.sqrt (A.dot (it n).R (it n).R))) t = true) ∨
       (∃ t, c.tol .etol = some t ∧
         A.lt (A.abs (if n = 0 then A.inf else A.dot (it n).R (it (n-1)).step)) t = true)) := by
  obtain ⟨_, it, n, hrun, _, _, hX, _, _, _, _, hsucc⟩ := C15_report A c f X0 xtol res c' h
  obtain ⟨hn, _, k, v, t, e1, e2, e3, e4⟩ := hsucc hs
  obtain ⟨m, rfl⟩ : ∃ m, n = m + 1 := ⟨n - 1, by omega⟩
  have hk : k = .xtol ∨ k = .rtol ∨ k = .etol := by
    rcases e4 with h | h
    · exact hstop k h
    · exact hacc k h.1
  refine ⟨it, m, hrun, hX, ?_⟩
  rcases hk with rfl | rfl | rfl
  · left
    simp only [exchanged, named, Option.some.injEq] at e1
    rw [if_pos rfl] at e2
    rw [e2, ← e1] at e3
    exact e3
  · right; left
    simp only [exchanged, named, Option.some.injEq] at e1
    rw [if_neg (by decide)] at e2
    exact ⟨t, e2, by rw [← e1] at e3; exact e3⟩
  · right; right
    simp only [exchanged, named, Option.some.injEq] at e1
    rw [if_neg (by decide)] at e2
    exact ⟨t, e2, by rw [← e1] at e3; exact e3⟩

/-- C68 (partial): a call that returns leaves the configuration unchanged. Missing: calls that raise
(`C68_violated`). -/
theorem C68_restored_partial (A : Arith F V M L) (c : OmpConfig F) (f : SolveFun V M) (X0 : V) (xtol : Option F)
    (h : ∃ res, (nsolveOMP A c f X0 xtol).1 = .ok res) : (nsolveOMP A c f X0 xtol).2 = c := by
  obtain ⟨res, h⟩ := h
  exact (C15_report A c f X0 xtol res _ (Prod.ext h rfl)).1

/-- C68: after an exception the object keeps the tolerance of the failed call. -/
theorem C68_actual (A : Arith F V M L) (c : OmpConfig F) (f : SolveFun V M) (X0 : V) (xtol : Option F) (e : Err)
    (h : (nsolveOMP A c f X0 xtol).1 = .error e) :
    (nsolveOMP A c f X0 xtol).2 = c.withXtol (some (effectiveXtol A c X0 xtol)) := by
  unfold nsolveOMP at h ⊢
  simp only at h ⊢
  split at h
  · rfl
  · split at h
    · rfl
    · simp at h

noncomputable section

/-- C68 is false: a residual function that raises leaves the tolerance `100` of that call in the
configuration, and a later call without `xtol` uses it: started at distance `1` from the root of
`x - 1` it would be satisfied with any step below `100`. -/
theorem C68_violated : ∃ (c : OmpConfig ℝ) (f : SolveFun (Fin 1 → ℝ) (Matrix (Fin 1) (Fin 1) ℝ)) (X0 : Fin 1 → ℝ),
    c.tol .xtol = none ∧
    (nsolveOMP arith1 c f X0 (some 100)).1 = .error .value ∧
    (nsolveOMP arith1 c f X0 (some 100)).2.tol .xtol = some 100 ∧
    effectiveXtol arith1 (nsolveOMP arith1 c f X0 (some 100)).2 X0 none = 100 ∧
    effectiveXtol arith1 c X0 none = 1 / 10 ^ 6 := by
  have h1 : (nsolveOMP arith1 ({lsTol := 1/2} : OmpConfig ℝ) (fun _ _ => .error .value) 0 (some 100)).1 = .error .value := by
    simp [nsolveOMP, solveLoop, direction, OmpConfig.withXtol, startSt]
  have h2 := C68_actual arith1 _ _ _ _ _ h1
  refine ⟨{lsTol := 1/2}, fun _ _ => .error .value, 0, rfl, h1, ?_, ?_, ?_⟩
  · rw [h2]; simp [OmpConfig.withXtol, effectiveXtol]
  · rw [h2]; simp [OmpConfig.withXtol, effectiveXtol]
  · simp [effectiveXtol, arith1, realArith]

/-- Non-vacuity of C15: Newton on `x - 1` from `0` with `xtol = 10` succeeds after one iteration. -/
example : ∃ res, nsolveOMP arith1 ({lsTol := 1/2} : OmpConfig ℝ) (fun X _ => .ok (fun i => X i - 1, fun _ _ => 1)) 0 (some 10)
    = (.ok res, {lsTol := 1/2}) ∧ res.success = true ∧ res.nfev = 1 ∧ res.X = fun _ => 1 := by
  have hX : (-fun _ => -1 : Fin 1 → ℝ) = fun _ => 1 := by
    funext i; simp
  refine ⟨⟨fun _ => 1, fun i => 0 - 1, fun _ _ => 1, true, 1, 1, [⟨0, fun i => 0 - 1, fun _ => 1, fun _ => 1, true⟩],
    .converged⟩, ?_, rfl, rfl, rfl⟩
  simp [nsolveOMP, solveLoop, direction, OmpConfig.withXtol, startSt, effectiveXtol, arith1, realArith, checkConvg,
    checkLoop, errorDict, errsOf, finish, firstVals, dotProduct]
  norm_num
  refine ⟨by rw [hX], ?_⟩
  funext k
  split <;> rfl

/-! ## C17 -/

/-- Residual of a function call (zero vector if it raised). -/
def residualAt {n : ℕ} (f : SolveFun (Fin n → ℝ) (Matrix (Fin n) (Fin n) ℝ)) (X : Fin n → ℝ) : Fin n → ℝ :=
  match f X false with
  | .ok r => r.1
  | .error _ => 0

/-- Bracket invariant of the bisection. -/
structure BrInv {n : ℕ} (c : OmpConfig ℝ) (f : SolveFun (Fin n → ℝ) (Matrix (Fin n) (Fin n) ℝ)) (X d : Fin n → ℝ)
    (G0 : ℝ) (b : Bracket ℝ (Fin n → ℝ)) : Prop where
  nonneg : 0 ≤ b.a0
  lt : b.a0 < b.a1
  le : b.a1 ≤ 1
  g0 : b.g0 = d ⬝ᵥ b.r0
  g1 : b.g1 = d ⬝ᵥ b.r1
  low : b.a0 ≠ 0 → b.r0 = residualAt f (X + b.a0 • d)
  zero : b.a0 = 0 → b.g0 = G0
  high : b.r1 = residualAt f (X + b.a1 • d)
  sign : c.lsSameSign = true → 0 < c.lsTol → 0 ≤ b.g0 * G0

theorem lineLoop_inv {n : ℕ} {L : Type} (inf : ℝ) (fac : Matrix (Fin n) (Fin n) ℝ → L)
    (sol : L → (Fin n → ℝ) → (Fin n → ℝ)) (c : OmpConfig ℝ)
    (f : SolveFun (Fin n → ℝ) (Matrix (Fin n) (Fin n) ℝ)) (X d : Fin n → ℝ) (G0 : ℝ) (k : ℕ)
    (b b' : Bracket ℝ (Fin n → ℝ)) (nf nf' : ℕ) (hb : BrInv c f X d G0 b)
    (hz : c.lsSameSign = true → 0 < c.lsTol → b.g0 = 0 → G0 = 0)
    (h : lineLoop (realArith n inf fac sol) c f X d G0 k b nf = .ok (b', nf')) :
    BrInv c f X d G0 b' ∧ nf' ≤ nf + k := by
  induction k generalizing b nf with
  | zero =>
    simp only [lineLoop, Except.ok.injEq, Prod.mk.injEq] at h
    obtain ⟨rfl, rfl⟩ := h
    exact ⟨hb, by omega⟩
  | succ k ih =>
    rw [lineLoop] at h
    set al : ℝ := 1 / 2 * (b.a0 + b.a1) with hal
    have hcall : (realArith n inf fac sol).vadd X ((realArith n inf fac sol).smul
        ((realArith n inf fac sol).mul (realArith n inf fac sol).half ((realArith n inf fac sol).add b.a0 b.a1)) d)
        = X + al • d := rfl
    simp only [hcall] at h
    cases hf : f (X + al • d) false with
    | error e => rw [hf] at h; simp at h
    | ok RD =>
      obtain ⟨Rm, D⟩ := RD
      rw [hf] at h
      have hres : Rm = residualAt f (X + al • d) := by unfold residualAt; rw [hf]
      have l1 := hb.lt
      have l2 := hb.nonneg
      have l3 := hb.le
      have hal0 : 0 < al := by rw [hal]; linarith
      simp only at h
      set bb : Bracket ℝ (Fin n → ℝ) :=
        (if (realArith n inf fac sol).lt ((realArith n inf fac sol).mul ((realArith n inf fac sol).dot d Rm) b.g0)
            (realArith n inf fac sol).zero = true then
          { b with a1 := (realArith n inf fac sol).mul (realArith n inf fac sol).half ((realArith n inf fac sol).add b.a0 b.a1),
                   g1 := (realArith n inf fac sol).dot d Rm, r1 := Rm }
        else { b with a0 := (realArith n inf fac sol).mul (realArith n inf fac sol).half ((realArith n inf fac sol).add b.a0 b.a1),
                      g0 := (realArith n inf fac sol).dot d Rm, r0 := Rm }) with hbb
      have hinv : BrInv c f X d G0 bb := by
        by_cases hs : (d ⬝ᵥ Rm) * b.g0 < 0
        · have e : bb = { b with a1 := al, g1 := d ⬝ᵥ Rm, r1 := Rm } := by
            rw [hbb, if_pos]
            · rfl
            · simpa [realArith] using hs
          rw [e]
          exact ⟨l2, by show b.a0 < al; rw [hal]; linarith, by show al ≤ 1; rw [hal]; linarith, hb.g0, rfl, hb.low,
            hb.zero, hres, hb.sign⟩
        · have e : bb = { b with a0 := al, g0 := d ⬝ᵥ Rm, r0 := Rm } := by
            rw [hbb, if_neg]
            · rfl
            · simpa [realArith] using hs
          rw [e]
          refine ⟨hal0.le, by show al < b.a1; rw [hal]; linarith, l3, rfl, hb.g1, fun _ => hres,
            fun h => absurd h hal0.ne', hb.high, fun h1 h2 => ?_⟩
          show 0 ≤ (d ⬝ᵥ Rm) * G0
          have s1 := hb.sign h1 h2
          have s2 : 0 ≤ (d ⬝ᵥ Rm) * b.g0 := not_lt.1 hs
          by_cases hg : b.g0 = 0
          · rw [hz h1 h2 hg]; simp
          · have : 0 < b.g0 * b.g0 := mul_self_pos.2 hg
            have h3 : 0 ≤ ((d ⬝ᵥ Rm) * G0) * (b.g0 * b.g0) := by
              have := mul_nonneg s2 s1
              calc (0:ℝ) ≤ (d ⬝ᵥ Rm) * b.g0 * (b.g0 * G0) := this
                _ = _ := by ring
            by_contra hneg
            have := mul_neg_of_neg_of_pos (not_le.1 hneg) this
            linarith
      by_cases hc1 : (c.lsSameSign && (realArith n inf fac sol).lt ((realArith n inf fac sol).abs bb.g0)
          ((realArith n inf fac sol).mul c.lsTol ((realArith n inf fac sol).abs G0))) = true
      · rw [if_pos hc1] at h
        simp only [Except.ok.injEq, Prod.mk.injEq] at h
        obtain ⟨h1, h2⟩ := h
        rw [← h1, ← h2]
        exact ⟨hinv, by omega⟩
      · rw [if_neg hc1] at h
        by_cases hc2 : (!c.lsSameSign && (realArith n inf fac sol).lt
            ((realArith n inf fac sol).abs ((realArith n inf fac sol).dot d Rm))
            ((realArith n inf fac sol).mul c.lsTol ((realArith n inf fac sol).abs G0))) = true
        · rw [if_pos hc2] at h
          simp only [Except.ok.injEq, Prod.mk.injEq] at h
          obtain ⟨h1, h2⟩ := h
          rw [← h1, ← h2]
          exact ⟨hinv, by omega⟩
        · rw [if_neg hc2] at h
          have := ih bb (nf+1) hinv (fun h1 h2 h3 => by
            have hc1' : ¬ |bb.g0| < c.lsTol * |G0| := by simpa [h1, realArith] using hc1
            rw [h3, abs_zero] at hc1'
            by_contra hG
            exact hc1' (mul_pos h2 (abs_pos.2 hG))) h
          exact ⟨this.1, by omega⟩

/-- C17: the line search (over the reals) returns a step fraction in `(0, 1]` together with the residual at
that fraction, after at most `1 + line_search_iters` evaluations; with `same_sign` requested, a positive
tolerance and no forced replacement, the product of direction and residual does not have the opposite sign
of the start. -/
theorem C17_line_search {n : ℕ} {L : Type} (inf : ℝ) (fac : Matrix (Fin n) (Fin n) ℝ → L)
    (sol : L → (Fin n → ℝ) → (Fin n → ℝ)) (c : OmpConfig ℝ)
    (f : SolveFun (Fin n → ℝ) (Matrix (Fin n) (Fin n) ℝ)) (X Rx d : Fin n → ℝ) (ls : LineRes ℝ (Fin n → ℝ))
    (h : lineSearch (realArith n inf fac sol) c f X Rx d = .ok ls) :
    0 < ls.alpha ∧ ls.alpha ≤ 1 ∧ ls.R = residualAt f (X + ls.alpha • d) ∧ ls.nfev ≤ 1 + c.lsIters ∧
      (c.lsSameSign = true → 0 < c.lsTol → ls.forced = false → 0 ≤ (d ⬝ᵥ ls.R) * (d ⬝ᵥ Rx)) := by
  unfold lineSearch at h
  simp only at h
  have hcall : (realArith n inf fac sol).vadd X d = X + d := rfl
  rw [hcall] at h
  cases hf : f (X + d) false with
  | error e => rw [hf] at h; simp at h
  | ok RD =>
    obtain ⟨R1, D⟩ := RD
    rw [hf] at h
    have hres : R1 = residualAt f (X + (1:ℝ) • d) := by unfold residualAt; rw [one_smul, hf]
    simp only at h
    by_cases h1 : (realArith n inf fac sol).lt (realArith n inf fac sol).zero ((realArith n inf fac sol).mul
        ((realArith n inf fac sol).dot d R1) ((realArith n inf fac sol).dot d Rx)) = true
    · rw [if_pos h1] at h
      simp only [Except.ok.injEq] at h
      subst h
      refine ⟨one_pos, le_rfl, hres, by show 1 ≤ _; omega, fun _ _ _ => ?_⟩
      have : 0 < (d ⬝ᵥ R1) * (d ⬝ᵥ Rx) := by simpa [realArith] using h1
      exact this.le
    · rw [if_neg h1] at h
      have hG1 : (d ⬝ᵥ R1) * (d ⬝ᵥ Rx) ≤ 0 := by simpa [realArith] using h1
      by_cases h2 : (!c.lsSameSign && (realArith n inf fac sol).lt
          ((realArith n inf fac sol).abs ((realArith n inf fac sol).dot d R1)) ((realArith n inf fac sol).mul c.lsTol
          ((realArith n inf fac sol).abs ((realArith n inf fac sol).dot d Rx)))) = true
      · rw [if_pos h2] at h
        simp only [Except.ok.injEq] at h
        subst h
        refine ⟨one_pos, le_rfl, hres, by show 1 ≤ _; omega, fun hs _ _ => ?_⟩
        rw [hs] at h2; simp at h2
      · rw [if_neg h2] at h
        set b0 : Bracket ℝ (Fin n → ℝ) := ⟨0, 1, d ⬝ᵥ Rx, d ⬝ᵥ R1, Rx, R1⟩ with hb0
        have hinit : BrInv c f X d (d ⬝ᵥ Rx) b0 :=
          ⟨le_rfl, one_pos, le_rfl, rfl, rfl, fun h => absurd rfl h, fun _ => rfl, hres,
            fun _ _ => mul_self_nonneg _⟩
        cases hl : lineLoop (realArith n inf fac sol) c f X d (d ⬝ᵥ Rx) c.lsIters b0 1 with
        | error e =>
          have hl' : lineLoop (realArith n inf fac sol) c f X d ((realArith n inf fac sol).dot d Rx) c.lsIters
            ⟨(realArith n inf fac sol).zero, (realArith n inf fac sol).one, (realArith n inf fac sol).dot d Rx,
              (realArith n inf fac sol).dot d R1, Rx, R1⟩ 1 = .error e := hl
          rw [hl'] at h; simp at h
        | ok bn =>
          obtain ⟨b, nf⟩ := bn
          have hl' : lineLoop (realArith n inf fac sol) c f X d ((realArith n inf fac sol).dot d Rx) c.lsIters
            ⟨(realArith n inf fac sol).zero, (realArith n inf fac sol).one, (realArith n inf fac sol).dot d Rx,
              (realArith n inf fac sol).dot d R1, Rx, R1⟩ 1 = .ok (b, nf) := hl
          rw [hl'] at h
          simp only at h
          obtain ⟨hb, hnf⟩ := lineLoop_inv inf fac sol c f X d _ _ b0 b 1 nf hinit (fun _ _ h => h) hl
          set low : Bool := (c.lsSameSign || (realArith n inf fac sol).lt ((realArith n inf fac sol).abs b.g0)
            ((realArith n inf fac sol).abs b.g1)) with hlow
          have hb1 : 0 < b.a1 := lt_of_le_of_lt hb.nonneg hb.lt
          by_cases hzero : (realArith n inf fac sol).isZero (if low = true then b.a0 else b.a1) = true
          · rw [if_pos hzero] at h
            simp only [Except.ok.injEq] at h
            subst h
            exact ⟨hb1, hb.le, hb.high, hnf, fun _ _ h => by simp at h⟩
          · rw [if_neg hzero] at h
            simp only [Except.ok.injEq] at h
            subst h
            have hz : (if low = true then b.a0 else b.a1) ≠ 0 := by simpa [realArith] using hzero
            cases hlw : low with
            | true =>
              rw [hlw] at hz
              simp only [if_true] at hz ⊢
              have hle : b.a0 ≤ 1 := le_trans hb.lt.le hb.le
              refine ⟨lt_of_le_of_ne hb.nonneg (Ne.symm hz), hle, hb.low hz, hnf, fun h1 h2 _ => ?_⟩
              rw [← hb.g0]; exact hb.sign h1 h2
            | false =>
              simp only [Bool.false_eq_true, if_false]
              refine ⟨hb1, hb.le, hb.high, hnf, fun h1 _ _ => ?_⟩
              rw [hlow, h1] at hlw; simp at hlw

/-- The positive tolerance is needed for the sign claim: with `line_search_tol = 0`, when a midpoint hits
zero exactly the next midpoint is accepted whatever its sign. Here `G(α) = 1, 0, -1` at `0, 1/2, 3/4`. -/
theorem C17_zero_tolerance : ∃ (c : OmpConfig ℝ) (f : SolveFun (Fin 1 → ℝ) (Matrix (Fin 1) (Fin 1) ℝ))
    (ls : LineRes ℝ (Fin 1 → ℝ)), c.lsSameSign = true ∧ c.lsTol = 0 ∧
    lineSearch arith1 c f 0 (fun _ => 1) (fun _ => 1) = .ok ls ∧ ls.forced = false ∧
    (fun _ => 1 : Fin 1 → ℝ) ⬝ᵥ ls.R = -1 := by
  refine ⟨{lsTol := 0, lsIters := 2}, fun X _ => .ok (fun _ => if X 0 ≤ 1/4 then 1 else if X 0 ≤ 1/2 then 0 else -1, 0),
    ⟨3/4, fun _ => -1, 3, false, ⟨3/4, 1, -1, -1, fun _ => -1, fun _ => -1⟩⟩, rfl, rfl, ?_, rfl, by simp [dotProduct]⟩
  simp [lineSearch, lineLoop, arith1, realArith, dotProduct]
  norm_num

/-! ## C18 -/

theorem realDot {n : ℕ} (inf : ℝ) {L : Type} (fac : Matrix (Fin n) (Fin n) ℝ → L)
    (sol : L → (Fin n → ℝ) → (Fin n → ℝ)) (v w : Fin n → ℝ) : (realArith n inf fac sol).dot v w = v ⬝ᵥ w := rfl

/-- The recursive operator over the reals, written as the BFGS update of the inverse Jacobian. -/
theorem quasi_succ_real {n : ℕ} {L : Type} (inf : ℝ) (fac : Matrix (Fin n) (Fin n) ℝ → L)
    (sol : L → (Fin n → ℝ) → (Fin n → ℝ)) (l : L) (it : ℕ → Iter (Fin n → ℝ)) (base m : ℕ) (v : Fin n → ℝ) :
    quasi (realArith n inf fac sol) l it base (m+1) v =
      (let s := (it (base + m)).step
       let y := (it (base + m + 1)).R - (it (base + m)).R
       let ρ := 1 / (s ⬝ᵥ y)
       let w := quasi (realArith n inf fac sol) l it base m (v - (ρ * (s ⬝ᵥ v)) • y)
       w - (ρ * (y ⬝ᵥ w)) • s + (ρ * (s ⬝ᵥ v)) • s) := by
  simp only [quasi, realArith]
  rw [sub_smul]
  abel

theorem quasi_zero {n : ℕ} {L : Type} (inf : ℝ) (fac : Matrix (Fin n) (Fin n) ℝ → L)
    (sol : L → (Fin n → ℝ) → (Fin n → ℝ)) (l : L) (hl : sol l 0 = 0) (it : ℕ → Iter (Fin n → ℝ)) (base m : ℕ) :
    quasi (realArith n inf fac sol) l it base m 0 = 0 := by
  induction m with
  | zero => exact hl
  | succ m ih =>
    rw [quasi_succ_real]
    simp [ih]

/-- C18: secant condition. In every quasi-Newton iteration of every run (over the reals), the step is an
operator applied to minus the residual, and that operator maps the last change of the residual to the last
step, provided their product is not zero and the linear solver maps zero to zero. -/
theorem C18_secant {n : ℕ} {L : Type} (inf : ℝ) (fac : Matrix (Fin n) (Fin n) ℝ → L)
    (sol : L → (Fin n → ℝ) → (Fin n → ℝ)) (hsol : ∀ l, sol l 0 = 0) (c : OmpConfig ℝ)
    (f : SolveFun (Fin n → ℝ) (Matrix (Fin n) (Fin n) ℝ)) (X0 : Fin n → ℝ) (it : ℕ → Iter (Fin n → ℝ)) (N : ℕ)
    (hrun : Run (realArith n inf fac sol) c f X0 it N) (j : ℕ) (hj : j < N) (hq : (it j).newton = false)
    (hsy : (it (j-1)).step ⬝ᵥ ((it j).R - (it (j-1)).R) ≠ 0) :
    ∃ H : (Fin n → ℝ) → (Fin n → ℝ), (it j).full = H (-(it j).R) ∧ H ((it j).R - (it (j-1)).R) = (it (j-1)).step := by
  obtain ⟨D, _, h2⟩ := hrun.quasi j hj hq
  have hm : j % c.reformFreq ≠ 0 := by
    have := hrun.newton j hj
    rw [hq] at this
    simpa using this.symm
  have hle := Nat.mod_le j c.reformFreq
  refine ⟨_, h2, ?_⟩
  obtain ⟨m, hm'⟩ : ∃ m, j % c.reformFreq = m + 1 := ⟨j % c.reformFreq - 1, by omega⟩
  have e1 : j - j % c.reformFreq + m = j - 1 := by omega
  have e2 : j - j % c.reformFreq + m + 1 = j := by omega
  rw [hm'] at e1 e2 ⊢
  rw [quasi_succ_real, e2, e1]
  simp only
  rw [one_div, inv_mul_cancel₀ hsy, one_smul, sub_self, quasi_zero inf fac sol _ (hsol _)]
  simp

/-- C18: if the factored solve is linear, symmetric and positive definite and all stored pairs have positive
product (as for convex energies), the quasi-Newton operator is positive definite: the step is a descent
direction for the residual. -/
theorem C18_descent {n : ℕ} {L : Type} (inf : ℝ) (fac : Matrix (Fin n) (Fin n) ℝ → L)
    (sol : L → (Fin n → ℝ) → (Fin n → ℝ)) (l : L) (hpos : ∀ v, v ≠ 0 → 0 < v ⬝ᵥ sol l v) (hz : sol l 0 = 0)
    (it : ℕ → Iter (Fin n → ℝ)) (base m : ℕ)
    (hsy : ∀ k < m, 0 < (it (base + k)).step ⬝ᵥ ((it (base + k + 1)).R - (it (base + k)).R))
    (v : Fin n → ℝ) (hv : v ≠ 0) :
    v ⬝ᵥ quasi (realArith n inf fac sol) l it base m (-v) < 0 := by
  have main : ∀ (m : ℕ), (∀ k < m, 0 < (it (base + k)).step ⬝ᵥ ((it (base + k + 1)).R - (it (base + k)).R)) →
      ∀ v : Fin n → ℝ, v ≠ 0 → 0 < v ⬝ᵥ quasi (realArith n inf fac sol) l it base m v := by
    intro m
    induction m with
    | zero => intro _ v hv; exact hpos v hv
    | succ m ih =>
      intro hsy v hv
      have hp := hsy m (by omega)
      have ih := ih (fun k hk => hsy k (by omega))
      rw [quasi_succ_real]
      simp only
      set s := (it (base + m)).step
      set y := (it (base + m + 1)).R - (it (base + m)).R
      clear_value s y
      set a := 1 / (s ⬝ᵥ y) * (s ⬝ᵥ v) with ha
      set w := quasi (realArith n inf fac sol) l it base m (v - a • y) with hw
      have key : v ⬝ᵥ (w - (1 / (s ⬝ᵥ y) * (y ⬝ᵥ w)) • s + a • s)
          = (v - a • y) ⬝ᵥ w + (s ⬝ᵥ v) ^ 2 / (s ⬝ᵥ y) := by
        rw [dotProduct_add, dotProduct_sub, dotProduct_smul, dotProduct_smul, sub_dotProduct, smul_dotProduct,
          dotProduct_comm v s, smul_eq_mul, smul_eq_mul, smul_eq_mul, ha]
        ring
      rw [key]
      by_cases h0 : v - a • y = 0
      · have hva : v = a • y := sub_eq_zero.1 h0
        have hsv : s ⬝ᵥ v ≠ 0 := by
          intro h
          rw [h, mul_zero] at ha
          rw [ha, zero_smul] at hva
          exact hv hva
        rw [h0, zero_dotProduct, zero_add]
        positivity
      · have h1 := ih _ h0
        have h2 : 0 ≤ (s ⬝ᵥ v) ^ 2 / (s ⬝ᵥ y) := div_nonneg (sq_nonneg _) hp.le
        linarith
  have h := main m hsy (-v) (neg_ne_zero.2 hv)
  rw [neg_dotProduct] at h
  linarith

/-- C18: Newton on an affine residual. With an exact linear solver and an invertible Jacobian, `nsolve`
(any `reform_freq ≥ 1`, no line search, step tolerance only) started anywhere converges in at most two
iterations to the root. -/
theorem C18_affine {n : ℕ} {L : Type} (inf : ℝ) (fac : Matrix (Fin n) (Fin n) ℝ → L)
    (sol : L → (Fin n → ℝ) → (Fin n → ℝ)) (K : Matrix (Fin n) (Fin n) ℝ) (hK : IsUnit K.det)
    (hsol : ∀ v, K.mulVec (sol (fac K) v) = v) (b : Fin n → ℝ) (c : OmpConfig ℝ) (hmax : 2 ≤ c.maxSteps)
    (hrf : 1 ≤ c.reformFreq) (hls : c.lsIters = 0) (hstop : c.stoppingTol = [.xtol]) (X0 : Fin n → ℝ)
    (xtol : ℝ) (hx : 0 < xtol) :
    ∃ res, nsolveOMP (realArith n inf fac sol) c (fun X _ => .ok (K.mulVec X + b, K)) X0 (some xtol) = (.ok res, c) ∧
      res.success = true ∧ K.mulVec res.X + b = 0 ∧ res.nfev ≤ 2 := by
  set A := realArith n inf fac sol with hA
  set f : SolveFun (Fin n → ℝ) (Matrix (Fin n) (Fin n) ℝ) := fun X _ => .ok (K.mulVec X + b, K) with hf
  set cc := c.withXtol (some xtol) with hcc
  have hroot : ∀ X, K.mulVec (X + -(sol (fac K) (K.mulVec X + b))) + b = 0 := by
    intro X
    rw [Matrix.mulVec_add, Matrix.mulVec_neg, hsol]
    abel
  have hs0 : sol (fac K) 0 = 0 := by
    have h1 : K.mulVec (sol (fac K) 0) = 0 := hsol 0
    have h2 : K⁻¹.mulVec (K.mulVec (sol (fac K) 0)) = sol (fac K) 0 := by
      rw [Matrix.mulVec_mulVec, Matrix.nonsing_inv_mul K hK, Matrix.one_mulVec]
    rw [← h2, h1, Matrix.mulVec_zero]
  obtain ⟨k, hk⟩ : ∃ k, cc.maxSteps = k + 2 := ⟨c.maxSteps - 2, by show c.maxSteps = _; omega⟩
  have hcl : cc.lsIters = 0 := hls
  have hcs : cc.stoppingTol = [.xtol] := hstop
  have hct : cc.tol .xtol = some xtol := by simp [hcc, OmpConfig.withXtol]
  have hcr : cc.reformFreq ≠ 0 := by show c.reformFreq ≠ 0; omega
  have hcheck : ∀ g l : ℝ × ℝ × ℝ, checkConvg A cc.stoppingTol cc.tol (errsOf A g l)
      = .ok (decide (|l.2.2| < xtol)) := by
    intro g l
    rw [hcs]
    simp only [checkConvg, checkLoop, errorDict, errsOf, hct]
    rfl
  -- the loop ends in a root
  have main : ∃ st, solveLoop A cc f (k+2) 0 (startSt A X0) = .ok (st, .converged) ∧ K.mulVec st.X + b = 0 ∧
      st.nfev ≤ 2 ∧ (∃ R, st.R = some R) ∧ ∃ D, st.jac = some D := by
    have hd : direction A cc.reformFreq f (startSt A X0) = .ok
        ({ startSt A X0 with nfev := 1, njev := 1, R := some (K.mulVec X0 + b), jac := some K, fac := some (fac K) },
          some (K.mulVec X0 + b, -(sol (fac K) (K.mulVec X0 + b)))) := by
      unfold direction
      rw [if_pos (by rfl)]
      simp only [hf, startSt]
      rw [if_neg (by simp [hA, realArith]), if_neg (by simp [hA, realArith]), if_neg hcr]
      rfl
    rw [solveLoop, hd]
    simp only
    rw [if_neg (by simp [hA, realArith]), if_neg (by omega)]
    simp only
    rw [hcheck]
    set full := -(sol (fac K) (K.mulVec X0 + b)) with hfull
    set X1 := X0 + full with hX1
    have hR1 : K.mulVec X1 + b = 0 := hroot X0
    cases hdec : decide (|A.sqrt (A.dot full full)| < xtol) with
    | true =>
      exact ⟨_, rfl, hR1, by show 1 ≤ 2; omega, ⟨_, rfl⟩, ⟨_, rfl⟩⟩
    | false =>
      simp only
      -- second iteration: the residual is zero, so is the step
      have hd2 : ∀ st : OmpSt ℝ (Fin n → ℝ) (Matrix (Fin n) (Fin n) ℝ) L, st.X = X1 → st.fac = some (fac K) →
          (∃ D, st.jac = some D) → ∃ st', direction A cc.reformFreq f st = .ok (st', some (0, 0)) ∧ st'.X = X1 ∧
            st'.nfev = st.nfev + 1 ∧ (∃ R, st'.R = some R) ∧ ∃ D, st'.jac = some D := by
        intro st h1 h2 h3
        have hfX : f st.X = fun _ => .ok (0, K) := by
          simp only [hf, h1, hR1]
        unfold direction
        by_cases hb : st.bfgsInd = 0
        · rw [if_pos hb, hfX]
          simp only
          rw [if_neg (by simp [hA, realArith]), if_neg (by simp [hA, realArith]), if_neg hcr]
          have : A.vneg (A.fsolve (A.factor K) 0) = 0 := by
            show -(sol (fac K) 0) = 0
            rw [hs0, neg_zero]
          rw [this]
          refine ⟨_, rfl, ?_, ?_, ?_, ?_⟩
          · exact h1
          · rfl
          · exact ⟨_, rfl⟩
          · exact ⟨_, rfl⟩
        · rw [if_neg hb, hfX]
          simp only
          rw [if_neg (by simp [hA, realArith]), h2]
          simp only
          have : ∀ (s y : ℕ → Fin n → ℝ) (p : ℕ → ℝ) (m : ℕ), bfgsStep A (fac K) s y p m (A.vneg 0) = 0 := by
            intro s y p m
            have e0 : A.vneg (0 : Fin n → ℝ) = 0 := neg_zero
            rw [e0]
            induction m with
            | zero => exact hs0
            | succ m ih =>
              rw [bfgsStep_succ]
              have e1 : A.vsub (0 : Fin n → ℝ) (A.smul (A.mul (p m) (A.dot (s m) 0)) (y m)) = 0 := by
                show (0 : Fin n → ℝ) - (p m * (s m ⬝ᵥ 0)) • y m = 0
                simp
              simp only [e1, ih]
              show (0 : Fin n → ℝ) + (p m * (s m ⬝ᵥ 0) - p m * (y m ⬝ᵥ 0)) • s m = 0
              simp
          rw [this]
          refine ⟨_, rfl, ?_, ?_, ?_, ?_⟩
          · exact h1
          · rfl
          · exact ⟨_, rfl⟩
          · exact h3
      have second : ∀ st2 : OmpSt ℝ (Fin n → ℝ) (Matrix (Fin n) (Fin n) ℝ) L, st2.X = X1 → st2.fac = some (fac K) →
          (∃ D, st2.jac = some D) → st2.nfev = 1 → ∃ st, solveLoop A cc f (k+1) (0+1) st2 = .ok (st, .converged) ∧
            K.mulVec st.X + b = 0 ∧ st.nfev ≤ 2 ∧ (∃ R, st.R = some R) ∧ ∃ D, st.jac = some D := by
        intro st2 g1 g2 g3 e6
        obtain ⟨st', e1, e2, e3, e4, e5⟩ := hd2 st2 g1 g2 g3
        rw [solveLoop, e1]
        simp only
        rw [if_neg (by simp [hA, realArith]), if_neg (by omega)]
        simp only
        rw [hcheck]
        have hz : decide (|A.sqrt (A.dot (0 : Fin n → ℝ) 0)| < xtol) = true := by
          have : A.sqrt (A.dot (0 : Fin n → ℝ) 0) = 0 := by
            show Real.sqrt ((0 : Fin n → ℝ) ⬝ᵥ 0) = 0
            simp
          rw [this, abs_zero]
          simpa using hx
        simp only
        rw [hz]
        refine ⟨_, rfl, ?_, ?_, e4, e5⟩
        · show K.mulVec (st'.X + 0) + b = 0
          rw [e2, add_zero]; exact hR1
        · show st'.nfev ≤ 2
          rw [e3, e6]
      exact second _ rfl rfl ⟨_, rfl⟩ rfl
  obtain ⟨st, h1, h2, h3, ⟨R, hR⟩, ⟨D, hD⟩⟩ := main
  have heff : effectiveXtol A c X0 (some xtol) = xtol := rfl
  have hout : nsolveOMP A c f X0 (some xtol)
      = (.ok ⟨st.X, R, D, true, st.nfev, st.njev, st.trace, .converged⟩, cc.withXtol (c.tol .xtol)) := by
    unfold nsolveOMP
    simp only [heff]
    rw [← hcc, hk, h1]
    simp only [finish, hR, hD]
  refine ⟨⟨st.X, R, D, true, st.nfev, st.njev, st.trace, .converged⟩, ?_, rfl, h2, h3⟩
  have := (C15_report A c f X0 (some xtol) _ _ hout).1
  rw [hout, this]

/-- Non-vacuity: a 1×1 problem. -/
example : ∃ res, nsolveOMP arith1 {lsTol := 1/2}
    (fun X _ => .ok (Matrix.mulVec (Matrix.of fun _ _ => 2) X + fun _ => 3, Matrix.of fun _ _ => 2))
    (fun _ => 100) (some (1/1000)) = (.ok res, {lsTol := 1/2}) ∧ res.success = true ∧
    Matrix.mulVec (Matrix.of fun _ _ => 2 : Matrix (Fin 1) (Fin 1) ℝ) res.X + (fun _ => 3) = 0 ∧ res.nfev ≤ 2 := by
  apply C18_affine
  · rw [Matrix.det_fin_one]; simp
  · intro v; funext i
    have hi : i = 0 := Subsingleton.elim _ _
    simp [Matrix.mulVec, dotProduct, hi]
    ring
  · norm_num
  · norm_num
  · rfl
  · rfl
  · norm_num

end

end TMD
