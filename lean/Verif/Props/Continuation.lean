import Verif.Props.ContinuationStep
import Mathlib.Tactic.IntervalCases

/-! # Properties of whole continuation runs -/

namespace TMD

open Spec

variable {sv : ContSolver} {N : ℕ} {cfg : ContCfg} {f : ContFun} {obj : ContObj} {X00 : ℕ → ℝ} {lam0 lam1 : ℝ}
  {fuel : ℕ} {out : ContRes}

/-- Contract of a nonlinear solver: when it reports success, all residual components at the returned
point are at most `tol`. -/
def Accurate (sv : ContSolver) (tol : ℝ) : Prop :=
  ∀ n j F x s, sv.nsolve n j F x = .ok s → s.success = true →
    ∃ g R J, F s.X g = .ok (R, J) ∧ ∀ i < n, |R i| ≤ tol

/-- `Continuation.continuation` returned `out`. -/
def Returns (sv : ContSolver) (N : ℕ) (cfg : ContCfg) (obj : ContObj) (f : ContFun) (X00 : ℕ → ℝ)
    (lam0 lam1 : ℝ) (out : ContRes) : Prop := ∃ fuel, continuation sv N cfg obj f X00 lam0 lam1 fuel = .ok out

/-! ## C53 -/

theorem correctRes_value {corr : Corrector} {obj : ContObj} {x x0 : ℕ → ℝ} {ds r : ℝ} {d : Option (ℕ → ℝ)} {g : Bool}
    {G : ℕ → ℝ} {M : Option (ℕ → ℕ → ℝ)} (hr : obj.RPtoC = .scalar r)
    (h : correctRes N corr obj f x x0 ds d g = .ok (G, M)) :
    ∃ o, f (fun k => x k * obj.CtoP k) g = .ok o ∧ ∀ i < N, G i = r * o.R i := by
  unfold correctRes at h
  simp only [hr] at h
  split at h
  · cases h
  · rename_i o ho
    refine ⟨o, ho, ?_⟩
    split at h
    · cases h
    · cases h
      intro i hi
      exact if_pos hi

/-- C53: every returned point was reported converged by the solver, when the run is not silent; its
residual, in the scaling `r` of the step, is within the tolerance of the solver. The scaling is the given
one for the first point, its mean for the others, or the dynamic one. A failed solve ends the run. -/
theorem C53_converged_partial {tol : ℝ} (hsv : Accurate sv tol) (hv : 0 ≤ obj.verbose)
    (h : Returns sv N cfg obj f X00 lam0 lam1 out) (k : ℕ) (hk : k < out.n) :
    ∃ g o, ∃ r : ℕ → ℝ, f (out.rows k) g = .ok o ∧ (∀ i < N, |r i * o.R i| ≤ tol) ∧
      (k = 0 → ∀ i, r i = (contPrepare obj).RPtoC.at i) ∧
      (1 ≤ k → cfg.dynamicCtoP = false → ∀ i, r i = (contPrepare obj).RPtoC.mean (N + 1)) ∧
      (1 ≤ k → cfg.dynamicCtoP = true → ∃ o', f (out.rows (k - 1)) true = .ok o' ∧
        ∀ i, r i = 1 / maxAbs N fun j => o'.J j j * max |out.rows (k - 1) j| ((contPrepare obj).CtoP j)) := by
  obtain ⟨fuel, h⟩ := h
  obtain ⟨s, D, hrun⟩ := continuation_run h
  by_cases hk0 : k = 0
  · subst hk0
    obtain ⟨g, R, J, hF, hR⟩ := hsv _ _ _ _ _ hrun.initial hrun.converged
    unfold initialFun at hF
    split at hF
    · cases hF
    · rename_i o ho
      cases hF
      refine ⟨g, o, (contPrepare obj).RPtoC.at, ?_, hR, fun _ _ => rfl, fun h => absurd h (by omega),
        fun h => absurd h (by omega)⟩
      rw [hrun.first]; exact ho
  · have hg := hrun.steps k (by omega) hk
    obtain ⟨dir', o', dir, ho', hl, hd, hRs⟩ := hg.predicted
    have hsucc : (D k).out.success = true := by
      rcases hg.success with h1 | h1
      · exact h1
      · rw [decide_eq_true_iff] at h1; omega
    obtain ⟨g, R, J, hF, hR⟩ := hsv _ _ _ _ _ hg.solved hsucc
    obtain ⟨o, ho, hG⟩ := correctRes_value hRs hF
    refine ⟨g, o, fun _ => if cfg.dynamicCtoP then 1 / maxAbs N fun i => o'.J i i * (D k).obj.CtoP i
      else RScale.mean (N + 1) (contPrepare obj).RPtoC, ?_, fun i hi => ?_, fun h => absurd h hk0, ?_, ?_⟩
    · rw [hg.row, ← ho]; congr 1; funext i; rw [mul_comm]
    · rw [← hG i hi]; exact hR i (by omega)
    · intro _ hdy i
      simp only [hdy]; rfl
    · intro _ hdy
      refine ⟨o', ho', fun i => ?_⟩
      simp only [hdy, if_true]
      rw [hg.CtoP, hdy]; rfl

theorem maxAbs_pos {n : ℕ} {x : ℕ → ℝ} (h : ∃ i < n, x i ≠ 0) : 0 < maxAbs n x := by
  obtain ⟨i, hi, hx⟩ := h
  unfold maxAbs
  refine (Finset.lt_fold_max _).2 (Or.inr ⟨i, Finset.mem_range.2 hi, abs_pos.2 hx⟩)

/-- C53: with an exact solver, scalings that are not zero and (for dynamic scaling) a diagonal of the
user's Jacobian that does not vanish, every returned point solves the user's equations. -/
theorem C53_solutions_partial (hsv : Accurate sv 0) (hv : 0 ≤ obj.verbose)
    (h : Returns sv N cfg obj f X00 lam0 lam1 out)
    (hR0 : ∀ i < N, (contPrepare obj).RPtoC.at i ≠ 0)
    (hmean : cfg.dynamicCtoP = false → (contPrepare obj).RPtoC.mean (N + 1) ≠ 0)
    (hdyn : cfg.dynamicCtoP = true → (∀ i, 0 < (contPrepare obj).CtoP i) ∧
      ∀ X o, f X true = .ok o → ∃ i < N, o.J i i ≠ 0) :
    ∀ k < out.n, ∃ g o, f (out.rows k) g = .ok o ∧ ∀ i < N, o.R i = 0 := by
  intro k hk
  obtain ⟨g, o, r, ho, hr, h0, h1, h2⟩ := C53_converged_partial hsv hv h k hk
  refine ⟨g, o, ho, fun i hi => ?_⟩
  have hri : r i ≠ 0 := by
    by_cases hk0 : k = 0
    · rw [h0 hk0]; exact hR0 i hi
    · cases hd : cfg.dynamicCtoP with
      | false => rw [h1 (by omega) hd]; exact hmean hd
      | true =>
        obtain ⟨o', ho', he⟩ := h2 (by omega) hd
        rw [he]
        obtain ⟨i', hi', hne⟩ := (hdyn hd).2 _ _ ho'
        have hpos : 0 < max |out.rows (k - 1) i'| ((contPrepare obj).CtoP i') :=
          lt_of_lt_of_le ((hdyn hd).1 i') (le_max_right _ _)
        exact (one_div_pos.2 (maxAbs_pos ⟨i', hi', mul_ne_zero hne hpos.ne'⟩)).ne'
  have := abs_nonpos_iff.1 (hr i hi)
  rcases mul_eq_zero.1 this with h3 | h3
  · exact absurd h3 hri
  · exact h3

/-- C53: a failed solve ends the run: when the last solve failed, it was the attempt to go beyond the last
returned point, with the smallest step. -/
theorem C53_failure_ends_partial (hv : 0 ≤ obj.verbose) (h : Returns sv N cfg obj f X00 lam0 lam1 out)
    (hf : out.ok = false) : ∃ d, out.log.head? = some (out.n, d) ∧ d ≤ cfg.dsmin := by
  obtain ⟨fuel, h⟩ := h
  obtain ⟨s, D, hrun⟩ := continuation_run h
  rcases hrun.ending with ⟨_, h2⟩ | ⟨_, _, h2⟩
  · rw [h2 hv] at hf; cases hf
  · exact h2

/-! ## C54 -/

/-- C54: between one and `MaxSteps` rows; the first row is the point reported converged by the initial
solve, with the requested parameter value. -/
theorem C54_size (h : Returns sv N cfg obj f X00 lam0 lam1 out) :
    1 ≤ out.n ∧ out.n ≤ cfg.maxSteps ∧ out.rows 0 N = lam0 ∧
    ∃ x0 s, sv.nsolve N 0 (initialFun N f lam0 (contPrepare obj).CtoP (contPrepare obj).RPtoC) x0 = .ok s ∧
      s.success = true ∧ ∀ i < N, out.rows 0 i = s.X i * (contPrepare obj).CtoP i := by
  obtain ⟨fuel, h⟩ := h
  obtain ⟨s, D, hrun⟩ := continuation_run h
  refine ⟨hrun.pos, hrun.bound, ?_, _, s, hrun.initial, hrun.converged, fun i hi => ?_⟩
  · rw [hrun.first]; exact if_neg (lt_irrefl _)
  · rw [hrun.first]; exact if_pos hi

/-- C54: for every solver and function the loops end, if `dsmin` is positive: some number of loop
iterations suffices and further ones change nothing. -/
theorem C54_terminates (hmin : 0 < cfg.dsmin) :
    ∃ n, ∀ m, n ≤ m → continuation sv N cfg obj f X00 lam0 lam1 m ≠ .error .fuel ∧
      continuation sv N cfg obj f X00 lam0 lam1 m = continuation sv N cfg obj f X00 lam0 lam1 n := by
  obtain ⟨n, hn⟩ := pow_unbounded_of_one_lt (max cfg.ds0 cfg.dsmax / cfg.dsmin) (one_lt_two (α := ℝ))
  have hle : max cfg.ds0 cfg.dsmax ≤ cfg.dsmin * 2 ^ n := by
    rw [div_lt_iff₀ hmin] at hn; linarith [mul_comm ((2:ℝ) ^ n) cfg.dsmin]
  have h0 : cfg.ds0 ≤ cfg.dsmin * 2 ^ n := (le_max_left _ _).trans hle
  have h1 : cfg.dsmax ≤ cfg.dsmin * 2 ^ n := (le_max_right _ _).trans hle
  have key : ∀ s : SolOut, ∀ silent C0, contLoop sv N cfg f silent lam0 lam1 C0 (n + 1 + cfg.maxSteps)
      (n + 1 + cfg.maxSteps) (contStart N cfg lam0 lam1 (contPrepare obj) s) ≠ .error .fuel := by
    intro s silent C0
    have := contLoop_fuel (sv := sv) (N := N) (f := f) (silent := silent) (lam0 := lam0) (lam1 := lam1)
      (CtoP0 := C0) n hmin h1 (m := n + 1 + cfg.maxSteps) (by omega) (n + cfg.maxSteps)
      (st := contStart N cfg lam0 lam1 (contPrepare obj) s) h0 (by change _ ≤ 1 + _; omega)
    rwa [show n + cfg.maxSteps + 1 = n + 1 + cfg.maxSteps by omega] at this
  refine ⟨n + 1 + cfg.maxSteps, fun m hm => ?_⟩
  have e : continuation sv N cfg obj f X00 lam0 lam1 m
      = continuation sv N cfg obj f X00 lam0 lam1 (n + 1 + cfg.maxSteps) := by
    unfold continuation
    simp only
    split
    · rfl
    · rename_i s hs
      split
      · rfl
      · split
        · rfl
        · rw [contLoop_mono hm hm (key s _ _)]
  refine ⟨?_, e⟩
  rw [e]
  unfold continuation
  simp only
  split
  · intro h; cases h
  · rename_i s hs
    split
    · intro h; cases h
    · split
      · intro h; cases h
      · split
        · rename_i e he
          intro h; cases h
          exact key s _ _ he
        · rename_i st _
          unfold contFinish
          split
          · split
            · intro h; cases h
            · split
              · intro h; cases h
              · intro h; cases h
          · intro h; cases h

/-- C54: the condition on `dsmin` is needed: with `dsmin ≤ 0` the retry loop does not end in real arithmetic
when the solver keeps failing. -/
theorem C54_needs_positive_dsmin (hmin : cfg.dsmin ≤ 0)
    (hfail : ∀ n j F x, ∃ s, sv.nsolve n j F x = .ok s ∧ s.success = false)
    (st : ContSt) (s : SolOut) (hs : s.success = false) (hds : 0 < st.ds) (fuel : ℕ) :
    retryLoop sv N cfg f fuel st s = .error .fuel := by
  induction fuel generalizing st s with
  | zero => rfl
  | succ n ih =>
    unfold retryLoop
    rw [if_pos ⟨hs, lt_of_le_of_lt hmin hds⟩]
    split
    · rename_i e he
      unfold solveStep at he
      simp only at he
      split at he
      · rename_i e' he'
        obtain ⟨s', hs', _⟩ := hfail (N + 1) st.calls
          (fun XlamC g => correctRes N cfg.corrector st.obj f XlamC (fun i => st.X0 i / st.obj.CtoP i)
            (max (st.ds / 2) cfg.dsmin) (some st.dirC) g)
          (fun i => st.X0 i / st.obj.CtoP i + st.dirC i * max (st.ds / 2) cfg.dsmin)
        rw [hs'] at he'; cases he'
      · cases he
    · rename_i r hr
      obtain ⟨h1, h2⟩ := solveStep_ok hr
      obtain ⟨s', hs', hf'⟩ := hfail (N + 1) st.calls
          (fun XlamC g => correctRes N cfg.corrector st.obj f XlamC (fun i => st.X0 i / st.obj.CtoP i)
            (max (st.ds / 2) cfg.dsmin) (some st.dirC) g)
          (fun i => st.X0 i / st.obj.CtoP i + st.dirC i * max (st.ds / 2) cfg.dsmin)
      have e : r.2 = s' := Except.ok.inj (h1.symm.trans hs')
      refine ih _ _ (by rw [e]; exact hf') ?_
      rw [h2]
      change 0 < max (st.ds / 2) cfg.dsmin
      exact lt_max_of_lt_left (by linarith)

/-! ## C55 -/

/-- C55: every step size used for a corrector solve is between `dsmin` and `dsmax`. -/
theorem C55_bounds (h0 : 0 ≤ cfg.dsmin) (h1 : cfg.dsmin ≤ cfg.ds0) (h2 : cfg.ds0 ≤ cfg.dsmax)
    (h : Returns sv N cfg obj f X00 lam0 lam1 out) : ∀ x ∈ out.log, cfg.dsmin ≤ x.2 ∧ x.2 ≤ cfg.dsmax := by
  obtain ⟨fuel, h⟩ := h
  obtain ⟨s, D, hrun⟩ := continuation_run h
  exact hrun.dsBound h0 h1 h2

/-- C55: from one corrector solve (older, later in the list) to the next: either the step is the same one
and its size is halved, but not below `dsmin`; or it is the same step, at `dsmin`, with another weighting; or it
is the next step, and the size grew at most by `MaxIncrease` (or was raised to `dsmin`). -/
theorem C55_rule (h0 : 0 ≤ cfg.dsmin) (h1 : cfg.dsmin ≤ cfg.ds0) (h2 : cfg.ds0 ≤ cfg.dsmax)
    (h : Returns sv N cfg obj f X00 lam0 lam1 out) :
    out.log.IsChain fun new old =>
      (new.1 = old.1 ∧ cfg.dsmin < old.2 ∧ new.2 = max (old.2 / 2) cfg.dsmin) ∨
      (new.1 = old.1 ∧ old.2 = cfg.dsmin ∧ new.2 = old.2) ∨
      (new.1 = old.1 + 1 ∧ new.2 ≤ max (old.2 * cfg.maxIncrease) cfg.dsmin) := by
  have hb := C55_bounds h0 h1 h2 h
  obtain ⟨fuel, h⟩ := h
  obtain ⟨s, D, hrun⟩ := continuation_run h
  have hc := hrun.chain h0 h1 h2
  clear hrun
  induction hlog : out.log generalizing hc with
  | nil => exact List.isChain_nil
  | cons a l ih =>
    clear ih
    rw [hlog] at hc hb
    clear hlog
    induction l generalizing a with
    | nil => exact List.isChain_singleton _
    | cons b l ih =>
      rw [List.isChain_cons_cons] at hc ⊢
      refine ⟨?_, ih b (fun x hx => hb x (List.mem_cons_of_mem _ hx)) hc.2⟩
      have hb2 := hb b (by simp)
      cases hc.1 with
      | retry k d hd => exact Or.inl ⟨rfl, hd, rfl⟩
      | again k d hd => exact Or.inr (Or.inl ⟨rfl, le_antisymm hd hb2.1, rfl⟩)
      | next k d d' hd => exact Or.inr (Or.inr ⟨rfl, hd⟩)

/-- C55: the run gives up only after a corrector solve with the smallest step. -/
theorem C55_gives_up_at_dsmin (h0 : 0 ≤ cfg.dsmin) (h1 : cfg.dsmin ≤ cfg.ds0) (h2 : cfg.ds0 ≤ cfg.dsmax)
    (hv : 0 ≤ obj.verbose) (h : Returns sv N cfg obj f X00 lam0 lam1 out) (hf : out.ok = false) :
    out.log.head? = some (out.n, cfg.dsmin) := by
  obtain ⟨d, hd, hle⟩ := C53_failure_ends_partial hv h hf
  have := (C55_bounds h0 h1 h2 h (out.n, d) (List.mem_of_mem_head? (by rw [hd]; rfl))).1
  rw [hd, le_antisymm hle this]

/-- C55: repeated halving reaches `dsmin` after finitely many failures. -/
theorem C55_halving (h0 : 0 < cfg.dsmin) (d : ℝ) :
    ∃ n, ∀ m, n ≤ m → (fun x => max (x / 2) cfg.dsmin)^[m + 1] d = cfg.dsmin := by
  obtain ⟨n, hn⟩ := pow_unbounded_of_one_lt (d / cfg.dsmin) (one_lt_two (α := ℝ))
  have key : ∀ (m : ℕ) (x : ℝ), x ≤ cfg.dsmin * 2 ^ m → (fun x => max (x / 2) cfg.dsmin)^[m + 1] x = cfg.dsmin := by
    intro m
    induction m with
    | zero =>
      intro x hx
      rw [pow_zero, mul_one] at hx
      exact max_eq_right (by linarith)
    | succ m ih =>
      intro x hx
      rw [Function.iterate_succ_apply]
      refine ih _ (max_le ?_ ?_)
      · rw [pow_succ] at hx; linarith
      · have : (1:ℝ) ≤ 2 ^ m := one_le_pow₀ (by norm_num)
        nlinarith
  refine ⟨n, fun m hm => key m d ?_⟩
  rw [div_lt_iff₀ h0] at hn
  have : (2:ℝ) ^ n ≤ 2 ^ m := pow_le_pow_right₀ (by norm_num) hm
  nlinarith

/-! ## C56 -/

theorem contCond_iff (hne : lam0 ≠ lam1) (st : ContSt) :
    contCond N cfg lam0 lam1 st ↔ st.step < cfg.maxSteps ∧ Ahead lam0 lam1 (st.rows (st.step - 1) N) ∧
      NotBehind lam0 lam1 cfg.backtrackStop (st.rows (st.step - 1) N) := by
  unfold contCond Ahead NotBehind signOf
  simp only
  rcases lt_or_gt_of_ne hne with h | h
  · have h1 : 0 < lam1 - lam0 := by linarith
    rw [if_pos h1]
    cases hb : cfg.backtrackStop with
    | none => simp [h, not_lt.2 h.le]
    | some x => simp [h, not_lt.2 h.le]
  · have h1 : ¬ 0 < lam1 - lam0 := by linarith
    have h2 : lam1 - lam0 < 0 := by linarith
    rw [if_neg h1, if_pos h2]
    cases hb : cfg.backtrackStop with
    | none => simp [h, not_lt.2 h.le]
    | some x =>
      simp only [h, not_lt.2 h.le, false_and, true_and, false_or, Option.mem_def, Option.some.injEq, forall_eq']
      refine and_congr Iff.rfl (and_congr ?_ ?_)
      · constructor <;> intro _ <;> linarith
      · constructor <;> intro _ <;> linarith

/-- C56: every returned point but the last lies before the end value and not behind the limit. -/
theorem C56_inside (hne : lam0 ≠ lam1) (h : Returns sv N cfg obj f X00 lam0 lam1 out) (k : ℕ) (hk : k + 1 < out.n) :
    Ahead lam0 lam1 (out.rows k N) ∧ NotBehind lam0 lam1 cfg.backtrackStop (out.rows k N) := by
  obtain ⟨fuel, h⟩ := h
  obtain ⟨s, D, hrun⟩ := continuation_run h
  have := hrun.window k hk ⟨obj, k + 1, out.rows, X00, X00, X00, 0, true, 0, [], []⟩ rfl rfl
  rw [contCond_iff hne] at this
  exact this.2

/-- C56: when the last solve did not fail, the run ended because the number of points is `MaxSteps`, or the
last point reached or passed the end value, or it is behind the start by the allowed distance. -/
theorem C56_reason (hne : lam0 ≠ lam1) (h : Returns sv N cfg obj f X00 lam0 lam1 out) (hok : out.ok = true) :
    out.n = cfg.maxSteps ∨ ¬ Ahead lam0 lam1 (out.rows (out.n - 1) N) ∨
      ¬ NotBehind lam0 lam1 cfg.backtrackStop (out.rows (out.n - 1) N) := by
  obtain ⟨fuel, h⟩ := h
  obtain ⟨s, D, hrun⟩ := continuation_run h
  rcases hrun.ending with ⟨h1, _⟩ | ⟨h1, _⟩
  · have := h1 ⟨obj, out.n, out.rows, X00, X00, X00, 0, true, 0, [], []⟩ rfl rfl
    rw [contCond_iff hne] at this
    by_contra hcon
    push Not at hcon
    exact this ⟨lt_of_le_of_ne hrun.bound hcon.1, hcon.2.1, hcon.2.2⟩
  · rw [h1] at hok; cases hok

/-! ## C57 -/

/-- C57: the callback is called once for the first point without a direction, once for every further point
in order, and once at the end without a point. -/
theorem C57_calls (hcb : cfg.callback = true) (h : Returns sv N cfg obj f X00 lam0 lam1 out) :
    ∃ (dirs : ℕ → ℕ → ℝ) (last : ℕ → ℝ), out.cb = ⟨some (out.rows 0), none⟩ ::
      ((List.range (out.n - 1)).map fun k => ⟨some (out.rows (k + 1)), some (dirs k)⟩) ++ [⟨none, some last⟩] := by
  obtain ⟨fuel, h⟩ := h
  obtain ⟨s, D, hrun⟩ := continuation_run h
  obtain ⟨d, hd, _⟩ := hrun.cb hcb
  exact ⟨fun k i => (D (k + 1)).dirC i * (D (k + 1)).obj.CtoP i, d, hd⟩

/-- C57: the points seen by the callback are exactly the returned rows, followed by the final call. -/
theorem C57_points (hcb : cfg.callback = true) (h : Returns sv N cfg obj f X00 lam0 lam1 out) :
    out.cb.map CbCall.X = (List.range out.n).map (fun k => some (out.rows k)) ++ [none] := by
  have hpos := (C54_size h).1
  obtain ⟨dirs, last, e⟩ := C57_calls hcb h
  rw [e]
  obtain ⟨m, hm⟩ : ∃ m, out.n = m + 1 := ⟨out.n - 1, by omega⟩
  rw [hm, Nat.add_sub_cancel, List.range_succ_eq_map]
  simp [Function.comp_def]

/-- C57: without a callback nothing is called. -/
theorem C57_none (hcb : cfg.callback = false) (h : Returns sv N cfg obj f X00 lam0 lam1 out) : out.cb = [] := by
  obtain ⟨fuel, h⟩ := h
  obtain ⟨s, D, hrun⟩ := continuation_run h
  exact hrun.cbNone hcb

/-- C57: the directions passed to the callback are tangent: the one with point `k` at the point before it, the
final one (not silent) at the last returned point. -/
theorem C57_directions (hsv : Solves sv) (hv : 0 ≤ obj.verbose) (hcb : cfg.callback = true)
    (h : Returns sv N cfg obj f X00 lam0 lam1 out) :
    ∃ (dirs : ℕ → ℕ → ℝ), out.cb.map CbCall.dir = none :: (List.range out.n).map (fun k => some (dirs k)) ∧
      ∀ k < out.n, ∃ o, f (out.rows k) true = .ok o ∧
        ∀ i < N, (∑ j ∈ Finset.range N, o.J i j * dirs k j) + o.d i * dirs k N = 0 := by
  have hpos := (C54_size h).1
  obtain ⟨fuel, h⟩ := h
  obtain ⟨s, D, hrun⟩ := continuation_run h
  obtain ⟨d, hd, hfin⟩ := hrun.cb hcb
  obtain ⟨m, hm⟩ : ∃ m, out.n = m + 1 := ⟨out.n - 1, by omega⟩
  refine ⟨fun k => if k = m then d else fun i => (D (k + 1)).dirC i * (D (k + 1)).obj.CtoP i, ?_, ?_⟩
  · rw [hd, hm, Nat.add_sub_cancel, List.range_succ]
    simp only [List.map_append, List.map_cons, List.map_map, List.map_nil, if_true, List.cons_append]
    congr 2
    refine List.map_congr_left fun k hk => ?_
    rw [List.mem_range] at hk
    simp only [Function.comp, if_neg (show k ≠ m by omega)]
  · have tang : ∀ (C : ℕ → ℝ) (b : ℝ) (X Xp dir dir' : ℕ → ℝ) (o : ContOut),
        sv.linSolve (N + 1) (predictMat N C o dir') (predictRhs N) = .ok dir →
        ∀ i < N, (∑ j ∈ Finset.range N, o.J i j * (scaleDir N C b X Xp dir j * C j)) +
          o.d i * (scaleDir N C b X Xp dir N * C N) = 0 := by
      intro C b X Xp dir dir' o hl i hi
      obtain ⟨k1, _⟩ := predictMat_solution hsv hl
      obtain ⟨σ, _, e1, _⟩ := scaleDir_eq N C b X Xp dir
      rw [e1]
      set t := σ / Real.sqrt (wdot N b (arcWeight N b fun i => X i / C i) dir dir)
      calc _ = ((∑ j ∈ Finset.range N, o.J i j * (C j * dir j)) + o.d i * (C N * dir N)) * t := by
              rw [add_mul, Finset.sum_mul]
              congr 1
              · exact Finset.sum_congr rfl fun j _ => by ring
              · ring
        _ = 0 := by rw [k1 i hi, zero_mul]
    intro k hk
    by_cases hkm : k = m
    · simp only [if_pos hkm]
      obtain ⟨C, b, dir', o, dir, ho, hl, hd2⟩ := hfin hv
      rw [hm, Nat.add_sub_cancel] at ho
      refine ⟨o, by rw [hkm]; exact ho, ?_⟩
      rw [hd2]
      exact tang _ _ _ _ _ _ _ hl
    · simp only [if_neg hkm]
      have hg := hrun.steps (k + 1) (by omega) (by omega)
      obtain ⟨dir', o, dir, ho, hl, hd2, _⟩ := hg.predicted
      refine ⟨o, ho, ?_⟩
      rw [hd2]
      exact tang _ _ _ _ _ _ _ hl

/-! ## A concrete run: the line `x = lam`, and the failure of C53 in silent mode -/

/-- A solver that proposes `cand j` at its call number `j` and reports success exactly when all residual
components are zero there; linear systems with two unknowns are solved by Cramer's rule. -/
noncomputable def checkSolver (cand : ℕ → ℕ → ℝ) : ContSolver where
  linSolve n A b :=
    if n = 2 ∧ A 0 0 * A 1 1 - A 0 1 * A 1 0 ≠ 0 then
      .ok fun i => if i = 0 then (b 0 * A 1 1 - A 0 1 * b 1) / (A 0 0 * A 1 1 - A 0 1 * A 1 0)
        else (A 0 0 * b 1 - b 0 * A 1 0) / (A 0 0 * A 1 1 - A 0 1 * A 1 0)
    else .error .value
  nsolve n j F _ :=
    open Classical in
    .ok ⟨cand j, decide (∃ R J, F (cand j) true = .ok (R, J) ∧ ∀ i < n, R i = 0), 1⟩

theorem checkSolver_accurate (cand : ℕ → ℕ → ℝ) : Accurate (checkSolver cand) 0 := by
  intro n j F x s h hs
  cases h
  simp only [decide_eq_true_eq] at hs
  obtain ⟨R, J, h1, h2⟩ := hs
  exact ⟨true, R, J, h1, fun i hi => by rw [h2 i hi, abs_zero]⟩

theorem checkSolver_solves (cand : ℕ → ℕ → ℝ) : Solves (checkSolver cand) := by
  intro n A b x h
  unfold checkSolver at h
  simp only at h
  split at h
  · rename_i hd
    cases h
    obtain ⟨rfl, hd⟩ := hd
    intro i hi
    rw [Finset.sum_range_succ, Finset.sum_range_one]
    simp only [if_true, one_ne_zero, if_false]
    generalize hD : A 0 0 * A 1 1 - A 0 1 * A 1 0 = D at *
    interval_cases i
    · field_simp; rw [← hD]; ring
    · field_simp; rw [← hD]; ring
  · cases h

/-- Residual `x - lam` with its derivatives. -/
noncomputable def lineFun : ContFun := fun X _ => .ok ⟨fun _ => X 0 - X 1, fun _ _ => 1, fun _ => -1⟩

/-- Two points at most, `ds = 1/2`. -/
noncomputable def lineCfg : ContCfg :=
  { ds0 := 1/2, dsmax := 1, dsmin := 1/2, maxSteps := 2, targetNfev := 20, dynamicCtoP := false,
    corrector := .ortho, fracLamList := [1/2], backtrackStop := none, maxIncrease := 6/5, callback := true }

noncomputable def lineObj (verbose : ℤ) : ContObj :=
  { CtoP := fun _ => 0, RPtoC := .scalar 1, setCtoPto1 := true, setRPtoCto1 := true, fracLam := 1/2,
    verbose := verbose }

/-- The first candidate solves the equation at `lam = 1`; the second is `p`. -/
noncomputable def lineCand (p : ℕ → ℝ) : ℕ → ℕ → ℝ := fun j => if j = 0 then fun _ => 1 else p

theorem predict_line (p : ℕ → ℝ) (obj : ContObj) (hC : obj.CtoP = fun _ => 1) (X Xp d : ℕ → ℝ)
    (hd : d 0 + d 1 ≠ 0) :
    predict (checkSolver (lineCand p)) 1 false obj lineFun X Xp d =
      .ok (scaleDir 1 (fun _ => 1) obj.fracLam X Xp (fun _ => 1 / (d 0 + d 1)),
        { obj with RPtoC := .scalar (obj.RPtoC.mean 2) }) := by
  have hl : (checkSolver (lineCand p)).linSolve (1 + 1)
      (predictMat 1 (fun _ => 1) ⟨fun _ => X 0 - X 1, fun _ _ => 1, fun _ => -1⟩ d) (predictRhs 1)
      = .ok fun _ => 1 / (d 0 + d 1) := by
    unfold checkSolver
    simp only [predictMat, predictRhs]
    have : d 1 + d 0 ≠ 0 := by rwa [add_comm]
    norm_num
    rw [if_neg this]
    simp [add_comm]
  unfold predict
  simp only [lineFun, hC, hl]
  simp [predictScale]

/-- Start point and reference point of the run. -/
noncomputable def lineStart : ℕ → ℝ := snocLam 1 (fun _ => 1) 1
noncomputable def lineRef : ℕ → ℝ := snocLam 1 (fun _ => 1) 0

theorem scaleDir_line (x : ℝ) (hx : x = 1) : scaleDir 1 (fun _ => 1) (1/2) lineStart lineRef (fun _ => x) = fun _ => 1 := by
  subst hx
  unfold scaleDir arcWeight normSq signOf lineStart lineRef snocLam
  norm_num

/-- The value of the corrector function at a point. -/
theorem correct_line (obj : ContObj) (hC : obj.CtoP = fun _ => 1) (hb : obj.fracLam = 1/2) (hr : obj.RPtoC = .scalar 1)
    (p : ℕ → ℝ) : ∃ J, correctRes 1 .ortho obj lineFun p (fun i => lineStart i / 1) (1/2) (some fun _ => 1) true =
      .ok (fun i => if i < 1 then p 0 - p 1 else p 0 + p 1 - 3, J) := by
  apply Exists.intro
  unfold correctRes
  simp only [lineFun, hC, hb, hr, orthogonalArcRes, if_true]
  refine congrArg Except.ok (Prod.ext ?_ rfl)
  funext i
  simp only
  split
  · ring
  · unfold arcWeight normSq lineStart snocLam
    norm_num
    ring

theorem prepare_line (v : ℤ) : contPrepare (lineObj v) =
    { CtoP := fun _ => 1, RPtoC := .vector fun _ => 1, setCtoPto1 := true, setRPtoCto1 := true, fracLam := 1/2,
      verbose := if v < 0 then 0 else v } := by
  unfold contPrepare lineObj
  simp

theorem initial_line (p : ℕ → ℝ) (C R : ℕ → ℝ) (hC : C = fun _ => 1) (x0 : ℕ → ℝ) :
    (checkSolver (lineCand p)).nsolve 1 0 (initialFun 1 lineFun 1 C (.vector R)) x0 = .ok ⟨fun _ => 1, true, 1⟩ := by
  unfold checkSolver
  simp only
  congr 2
  simp only [decide_eq_true_eq]
  refine ⟨_, _, rfl, fun i hi => ?_⟩
  simp [snocLam, lineCand, hC]

/-- The state after the only step of the run. -/
theorem frac_line (p : ℕ → ℝ) (v : ℤ) (fuel : ℕ) : ∃ r, fracLoop (checkSolver (lineCand p)) 1 lineCfg lineFun (fuel + 1)
      [1/2] (contStart 1 lineCfg 1 2 (contPrepare (lineObj v)) ⟨fun _ => 1, true, 1⟩) = .ok r ∧
      r.2.X = p ∧ (r.2.success = true ↔ p 0 = p 1 ∧ p 0 + p 1 = 3) ∧ r.2.nfev = 1 ∧
      r.1.obj.CtoP = (fun _ => 1) ∧ r.1.obj.fracLam = 1/2 ∧ r.1.step = 1 ∧ r.1.dirC = (fun _ => 1) ∧
      r.1.rows 0 = lineStart ∧ r.1.X0 = lineStart ∧ r.1.obj.verbose = (if v < 0 then 0 else v) ∧
      r.1.cb = [⟨some lineStart, none⟩] ∧ r.1.log.length = 1 := by
  set st := contStart 1 lineCfg 1 2 (contPrepare (lineObj v)) ⟨fun _ => 1, true, 1⟩ with hst
  have e0 : st.X0 = lineStart := by
    rw [hst, prepare_line]; unfold contStart lineStart; simp
  have e1 : st.Xprev = lineRef := by
    rw [hst, prepare_line]; unfold contStart lineRef signOf; norm_num
  have e2 : st.dirC = fun i => lineStart i - lineRef i := by
    rw [hst, prepare_line]; unfold contStart lineStart lineRef signOf; norm_num
  have e3 : st.obj.CtoP = fun _ => 1 := by rw [hst, prepare_line]; rfl
  have e4 : st.ds = 1/2 := rfl
  have e5 : st.obj.RPtoC.mean 2 = 1 := by
    rw [hst, prepare_line]; simp [contStart, RScale.mean]
  have hp := predict_line p { st.obj with fracLam := 1/2 } e3 st.X0 st.Xprev st.dirC (by
    rw [e2]; simp [lineStart, lineRef, snocLam])
  have hdir : scaleDir 1 (fun _ => 1) (1/2) st.X0 st.Xprev (fun _ => 1 / (st.dirC 0 + st.dirC 1)) = fun _ => 1 := by
    rw [e0, e1]
    apply scaleDir_line
    rw [e2]; simp [lineStart, lineRef, snocLam]
  simp only [hdir, e5] at hp
  obtain ⟨J, hJ⟩ := correct_line { st.obj with fracLam := 1/2, RPtoC := .scalar 1 } e3 rfl rfl p
  set s : SolOut := ⟨p, @decide (p 0 = p 1 ∧ p 0 + p 1 = 3) (Classical.dec _), 1⟩ with hs
  have hsolve : solveStep (checkSolver (lineCand p)) 1 lineCfg lineFun
      { st with dirC := fun _ => 1, obj := { st.obj with fracLam := 1/2, RPtoC := .scalar 1 } } =
      .ok ({ st with dirC := fun _ => 1, obj := { st.obj with fracLam := 1/2, RPtoC := .scalar 1 },
                     calls := 2, log := (st.step, st.ds) :: st.log }, s) := by
    unfold solveStep checkSolver
    simp only
    have hc : lineCand p st.calls = p := rfl
    rw [hc]
    congr 2
    rw [hs]
    congr 1
    rw [decide_eq_decide]
    have e0' : (fun i => st.X0 i / st.obj.CtoP i) = fun i => lineStart i / 1 := by rw [e0, e3]
    rw [e0', e4]
    change (∃ R J, correctRes 1 .ortho _ lineFun p _ (1/2) (some fun _ => 1) true = _ ∧ _) ↔ _
    constructor
    · rintro ⟨R, J', h1, h2⟩
      rw [hJ] at h1
      cases h1
      have a := h2 0 (by norm_num)
      have b := h2 1 (by norm_num)
      simp only [Nat.lt_one_iff, if_true, one_ne_zero, if_false] at a b
      exact ⟨by linarith, by linarith⟩
    · rintro ⟨a, b⟩
      refine ⟨_, _, hJ, fun i hi => ?_⟩
      interval_cases i
      · simp [a]
      · simp only [lt_irrefl, if_false]; linarith
  refine ⟨({ st with dirC := fun _ => 1, obj := { st.obj with fracLam := 1/2, RPtoC := .scalar 1 },
                     calls := 2, log := (st.step, st.ds) :: st.log }, s), ?_, rfl, ?_, rfl, e3, rfl, rfl, rfl, ?_, e0, ?_, ?_, rfl⟩
  · unfold fracLoop tryFrac
    simp only [show lineCfg.dynamicCtoP = false from rfl, hp, hsolve]
    unfold retryLoop
    rw [if_neg (by rintro ⟨_, h⟩; change (1:ℝ)/2 < 1/2 at h; exact lt_irrefl _ h)]
    simp only
    split <;> rfl
  · rw [hs]; simp only [decide_eq_true_eq]
  · exact e0
  · change (contPrepare (lineObj v)).verbose = _; rw [prepare_line]
  · change (if lineCfg.callback then [(⟨some st.X0, none⟩ : CbCall)] else []) = _
    rw [e0]; rfl

/-- The run from `lam = 1` to `lam = 2` with a proposal `p` for the second point: when `p` is not accepted and
the run is not silent, one point is returned; otherwise two. -/
theorem line_run (p : ℕ → ℝ) (v : ℤ) (hp : (p 0 = p 1 ∧ p 0 + p 1 = 3) ∨ v < 0) : ∃ out,
    Returns (checkSolver (lineCand p)) 1 lineCfg (lineObj v) lineFun (fun _ => 0) 1 2 out ∧ out.n = 2 ∧
      out.rows 0 = lineStart ∧ out.rows 1 = p ∧ out.obj.verbose = (if v < 0 then 0 else v) ∧
      out.cb.length = 3 ∧ (out.ok = true ↔ p 0 = p 1 ∧ p 0 + p 1 = 3) ∧ out.log.length = 1 := by
  obtain ⟨r, hr, h1, h2, h3, h4, h5, h6, h7, h8, h9, h10, h11, h12⟩ := frac_line p v 2
  have hrow : (fun i => r.1.obj.CtoP i * r.2.X i) = p := by rw [h4, h1]; funext i; ring
  have hcond : contCond 1 lineCfg 1 2 (contStart 1 lineCfg 1 2 (contPrepare (lineObj v)) ⟨fun _ => 1, true, 1⟩) := by
    rw [prepare_line]
    unfold contCond contStart signOf snocLam lineCfg
    norm_num
  set st2 := storeStep lineCfg r.1 r.2 with hst2
  have s1 : st2.step = 2 := by rw [hst2]; change r.1.step + 1 = 2; rw [h6]
  have s2 : st2.rows 1 = p := by
    rw [hst2]; unfold storeStep; simp only [h6, if_true]; exact hrow
  have s3 : st2.rows 0 = lineStart := by
    rw [hst2]; unfold storeStep; simp only [h6, zero_ne_one, if_false]; exact h8
  have s4 : st2.cb.length = 2 := by
    rw [hst2]; unfold storeStep; simp [h11, lineCfg]
  have s5 : st2.obj = r.1.obj := rfl
  have s6 : st2.dirC = r.1.dirC := rfl
  have hloop : contLoop (checkSolver (lineCand p)) 1 lineCfg lineFun (decide (v < 0)) 1 2 (fun _ => 1) 3 3
      (contStart 1 lineCfg 1 2 (contPrepare (lineObj v)) ⟨fun _ => 1, true, 1⟩) = .ok st2 := by
    unfold contLoop
    rw [if_pos hcond]
    have : recondition lineCfg (fun _ => 1) (contStart 1 lineCfg 1 2 (contPrepare (lineObj v)) ⟨fun _ => 1, true, 1⟩)
        = contStart 1 lineCfg 1 2 (contPrepare (lineObj v)) ⟨fun _ => 1, true, 1⟩ := rfl
    rw [this]
    change (match fracLoop _ _ _ _ _ [1/2] _ with | .error e => _ | .ok r => _) = _
    rw [hr]
    simp only
    rw [if_neg (by
      rintro ⟨a, b⟩
      rcases hp with hp | hp
      · rw [h2.2 hp] at a; cases a
      · simp [hp] at b), if_neg (by rw [h3]; norm_num)]
    unfold contLoop
    rw [if_neg (by
      intro hc
      have := hc.1
      change st2.step < 2 at this
      rw [s1] at this; exact lt_irrefl _ this)]
  have hfin : ∃ out, contFinish (checkSolver (lineCand p)) 1 lineCfg lineFun st2 = .ok out ∧ out.n = 2 ∧
      out.rows = st2.rows ∧ out.obj.verbose = st2.obj.verbose ∧ out.cb.length = 3 ∧ out.ok = st2.ok ∧ out.log = st2.log := by
    unfold contFinish
    rw [if_pos (show lineCfg.callback = true from rfl)]
    split
    · exact ⟨_, rfl, s1, rfl, rfl, by simp [s4], rfl, rfl⟩
    · have hpr := predict_line p st2.obj (by rw [s5, h4]) st2.X0 st2.Xprev st2.dirC (by rw [s6, h7]; norm_num)
      simp only [show lineCfg.dynamicCtoP = false from rfl, hpr]
      exact ⟨_, rfl, s1, rfl, rfl, by simp [s4], rfl, rfl⟩
  obtain ⟨out, ho, k1, k2, k3, k4, k5, k6⟩ := hfin
  refine ⟨out, ⟨3, ?_⟩, k1, by rw [k2, s3], by rw [k2, s2], ?_, k4, ?_, ?_⟩
  · unfold continuation
    simp only
    have hi := initial_line p (contPrepare (lineObj v)).CtoP (fun _ => 1) (by rw [prepare_line])
      (fun i => 0 / (contPrepare (lineObj v)).CtoP i)
    have hR : (contPrepare (lineObj v)).RPtoC = .vector fun _ => 1 := by rw [prepare_line]
    have hC : (contPrepare (lineObj v)).CtoP = fun _ => 1 := by rw [prepare_line]
    rw [hR, hi]
    simp only [Bool.true_eq_false, if_false]
    rw [if_neg (show ¬ lineCfg.maxSteps = 0 by decide), hC]
    change (match contLoop (checkSolver (lineCand p)) 1 lineCfg lineFun (decide (v < 0)) 1 2 (fun _ => 1) 3 3
      (contStart 1 lineCfg 1 2 (contPrepare (lineObj v)) ⟨fun _ => 1, true, 1⟩) with | .error e => _ | .ok st => _) = _
    rw [hloop]
    exact ho
  · rw [k3, s5, h10]
  · rw [k5]; exact h2
  · rw [k6]; exact h12

/-- C53 does not hold in silent mode: the exact solver fails, the failed point is returned all the same, and
it does not solve the equation. -/
theorem C53_violated : ∃ (sv : ContSolver) (f : ContFun) (cfg : ContCfg) (obj : ContObj) (out : ContRes),
    Accurate sv 0 ∧ Solves sv ∧ Returns sv 1 cfg obj f (fun _ => 0) 1 2 out ∧ out.n = 2 ∧ out.ok = false ∧
    ∀ g o, f (out.rows 1) g = .ok o → o.R 0 ≠ 0 := by
  obtain ⟨out, h, hn, h0, h1, _, _, hok, _⟩ := line_run (fun i => if i = 0 then 0 else 5) (-1) (Or.inr (by norm_num))
  refine ⟨_, _, _, _, out, checkSolver_accurate _, checkSolver_solves _, h, hn, ?_, ?_⟩
  · cases hb : out.ok with
    | false => rfl
    | true =>
      exfalso
      have := hok.1 hb
      norm_num at this
  · intro g o ho
    rw [h1] at ho
    cases ho
    norm_num

/-- A run that reaches a second point satisfies all hypotheses of C53-C57. -/
example : ∃ out, Returns (checkSolver (lineCand fun _ => 3/2)) 1 lineCfg (lineObj 0) lineFun (fun _ => 0) 1 2 out ∧
    out.n = 2 ∧ out.rows 1 1 = 3/2 ∧ (∀ k < out.n, ∃ g o, lineFun (out.rows k) g = .ok o ∧ ∀ i < 1, o.R i = 0) ∧
    out.log.length = 1 ∧ out.cb.length = 3 := by
  obtain ⟨out, h, hn, h0, h1, _, hcb, hok, hlog⟩ := line_run (fun _ => 3/2) 0 (Or.inl ⟨rfl, by norm_num⟩)
  refine ⟨out, h, hn, by rw [h1], ?_, hlog, hcb⟩
  refine C53_solutions_partial (checkSolver_accurate _) le_rfl h ?_ ?_ ?_
  · intro i _; rw [prepare_line]; simp [RScale.at]
  · intro _; rw [prepare_line]; simp [RScale.mean]
  · intro hd; cases hd

/-- C58 on the line `X = lam` at `(1, 1)`, reached from `(1, 0)`: the direction is `(1, 1)`, and the three
conclusions hold for it. -/
example : predict (checkSolver (lineCand fun _ => 0)) 1 false (contPrepare (lineObj 0)) lineFun lineStart lineRef
      (fun i => if i = 0 then 0 else 1) =
      .ok (fun _ => 1, { contPrepare (lineObj 0) with RPtoC := .scalar ((contPrepare (lineObj 0)).RPtoC.mean 2) }) ∧
    wdot 1 (1/2) (1/2) (fun _ => 1) (fun _ => 1) = 1 := by
  have hp := predict_line (fun _ => 0) (contPrepare (lineObj 0)) rfl lineStart lineRef
    (fun i => if i = 0 then 0 else 1) (by norm_num)
  rw [show (contPrepare (lineObj 0)).fracLam = 1/2 from rfl, scaleDir_line _ (by norm_num)] at hp
  refine ⟨hp, ?_⟩
  have h := (C58_direction (checkSolver_solves _) (o := ⟨fun _ => lineStart 0 - lineStart 1, fun _ _ => 1, fun _ => -1⟩)
    rfl (by rw [prepare_line]; norm_num) (by rw [prepare_line]; norm_num)
    (by intro i _; rw [prepare_line]; norm_num) ⟨0, by norm_num, by simp [lineStart, snocLam]⟩ hp).2.1
  have e : (1 - (contPrepare (lineObj 0)).fracLam) /
      ∑ i ∈ Finset.range 1, (lineStart i / (contPrepare (lineObj 0)).CtoP i) ^ 2 = 1/2 := by
    rw [prepare_line]; simp [lineStart, snocLam]; norm_num
  rw [e, show (contPrepare (lineObj 0)).fracLam = 1/2 from rfl] at h
  exact h

/-- C59 for the same line: the corrector function is the residual of the line and of the plane
`X + lam = 3`. -/
example (p : ℕ → ℝ) : ∃ J, correctRes 1 .ortho { lineObj 0 with CtoP := fun _ => 1 } lineFun p
      (fun i => lineStart i / 1) (1/2) (some fun _ => 1) true =
      .ok (fun i => if i < 1 then p 0 - p 1 else p 0 + p 1 - 3, J) :=
  correct_line _ rfl rfl rfl p

end TMD
