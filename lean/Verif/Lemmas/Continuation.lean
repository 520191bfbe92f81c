import Verif.Model.Continuation
import Mathlib.Data.List.Chain
import Mathlib.Tactic.Linarith
import Mathlib.Algebra.Order.Archimedean.Basic
import Mathlib.Algebra.Order.Archimedean.Real.Basic

/-! # Loop invariants of `continuation` -/

namespace TMD

variable {sv : ContSolver} {N : ℕ} {cfg : ContCfg} {f : ContFun}

/-- How the step size of a corrector solve (step number, `ds`) may follow the one before it: a retry
with half the step but at least `dsmin`; another weighting after the smallest step failed; the next
step, growing by at most the factor `inc`. -/
inductive DsRule (dsmin inc : ℝ) : ℕ × ℝ → ℕ × ℝ → Prop
  | retry (k : ℕ) (d : ℝ) (h : dsmin < d) : DsRule dsmin inc (k, max (d / 2) dsmin) (k, d)
  | again (k : ℕ) (d : ℝ) (h : d ≤ dsmin) : DsRule dsmin inc (k, d) (k, d)
  | next (k : ℕ) (d d' : ℝ) (h : d' ≤ max (d * inc) dsmin) : DsRule dsmin inc (k + 1, d') (k, d)

/-- What is unchanged since the start `st0` of a step. -/
structure Same (N : ℕ) (cfg : ContCfg) (st0 st : ContSt) : Prop where
  step : st.step = st0.step
  rows : st.rows = st0.rows
  X0 : st.X0 = st0.X0
  Xprev : st.Xprev = st0.Xprev
  cb : st.cb = st0.cb
  CtoP : st.obj.CtoP = st0.obj.CtoP
  setC : st.obj.setCtoPto1 = st0.obj.setCtoPto1
  setR : st.obj.setRPtoCto1 = st0.obj.setRPtoCto1
  verbose : st.obj.verbose = st0.obj.verbose
  mean : cfg.dynamicCtoP = false → st.obj.RPtoC.mean (N + 1) = st0.obj.RPtoC.mean (N + 1)
  le : 0 ≤ cfg.dsmin → st.ds ≤ st0.ds ∨ st.ds ≤ cfg.dsmin
  ge : cfg.dsmin ≤ st0.ds → cfg.dsmin ≤ st.ds
  logged : ∀ x ∈ st.log, x ∈ st0.log ∨ (0 ≤ cfg.dsmin → x.2 ≤ st0.ds ∨ x.2 ≤ cfg.dsmin) ∧ (cfg.dsmin ≤ st0.ds → cfg.dsmin ≤ x.2)
  mono : ∀ x ∈ st0.log, x ∈ st.log

/-- The log obeys the rule, if it did at the start of the step. -/
def LogOk (cfg : ContCfg) (st0 : ContSt) (l : List (ℕ × ℝ)) : Prop :=
  (∀ x ∈ st0.log.head?, DsRule cfg.dsmin cfg.maxIncrease (st0.step, st0.ds) x) →
    st0.log.IsChain (DsRule cfg.dsmin cfg.maxIncrease) → l.IsChain (DsRule cfg.dsmin cfg.maxIncrease)

/-- Before the prediction for a weighting. -/
structure Pre (N : ℕ) (cfg : ContCfg) (st0 st : ContSt) : Prop extends Same N cfg st0 st where
  next : LogOk cfg st0 ((st.step, st.ds) :: st.log)

/-- After a corrector solve. -/
structure Core (sv : ContSolver) (N : ℕ) (cfg : ContCfg) (f : ContFun) (st0 st : ContSt) (s : SolOut) : Prop
    extends Same N cfg st0 st where
  solved : ∃ j, sv.nsolve (N + 1) j
      (fun XlamC g => correctRes N cfg.corrector st.obj f XlamC (fun i => st.X0 i / st.obj.CtoP i) st.ds
        (some st.dirC) g) (fun i => st.X0 i / st.obj.CtoP i + st.dirC i * st.ds) = .ok s
  predicted : ∃ dir' o dir, st.obj.fracLam ∈ cfg.fracLamList ∧
    f st.X0 true = .ok o ∧ sv.linSolve (N + 1) (predictMat N st.obj.CtoP o dir') (predictRhs N) = .ok dir ∧
    st.dirC = scaleDir N st.obj.CtoP st.obj.fracLam st.X0 st.Xprev dir ∧
    st.obj.RPtoC = .scalar (if cfg.dynamicCtoP then 1 / maxAbs N fun i => o.J i i * st.obj.CtoP i
      else st0.obj.RPtoC.mean (N + 1))
  head : st.log.head? = some (st.step, st.ds)
  chain : LogOk cfg st0 st.log

theorem Pre.refl (st : ContSt) : Pre N cfg st st where
  step := rfl
  rows := rfl
  X0 := rfl
  Xprev := rfl
  cb := rfl
  CtoP := rfl
  setC := rfl
  setR := rfl
  verbose := rfl
  mean := fun _ => rfl
  le := fun _ => Or.inl le_rfl
  ge := id
  logged := fun _ h => Or.inl h
  mono := fun _ h => h
  next := fun h c => List.isChain_cons.2 ⟨h, c⟩

/-- After the smallest step failed, another weighting can be tried. -/
theorem Core.pre {st0 st : ContSt} {s : SolOut} (h : Core sv N cfg f st0 st s) (hd : st.ds ≤ cfg.dsmin) :
    Pre N cfg st0 st where
  toSame := h.toSame
  next := fun a c => List.isChain_cons.2 ⟨fun x hx => by
    rw [h.head, Option.mem_def, Option.some.injEq] at hx
    rw [← hx]; exact .again _ _ hd, h.chain a c⟩

theorem predict_ok {dynamic : Bool} {obj : ContObj} {X0 Xprev dirPrev : ℕ → ℝ} {p : (ℕ → ℝ) × ContObj}
    (h : predict sv N dynamic obj f X0 Xprev dirPrev = .ok p) :
    ∃ o dir, f X0 true = .ok o ∧
      sv.linSolve (N + 1) (predictMat N obj.CtoP o dirPrev) (predictRhs N) = .ok dir ∧
      ¬ (dynamic = true ∧ N = 0) ∧
      p = (scaleDir N obj.CtoP obj.fracLam X0 Xprev dir,
        { obj with RPtoC := predictScale N dynamic obj.CtoP o obj.RPtoC }) := by
  unfold predict at h
  split at h
  · cases h
  · rename_i o ho
    split at h
    · cases h
    · rename_i dir hd
      split at h
      · cases h
      · rename_i hn
        exact ⟨o, dir, ho, hd, hn, (Except.ok.inj h).symm⟩

theorem solveStep_ok {st : ContSt} {r : ContSt × SolOut} (h : solveStep sv N cfg f st = .ok r) :
    sv.nsolve (N + 1) st.calls
      (fun XlamC g => correctRes N cfg.corrector st.obj f XlamC (fun i => st.X0 i / st.obj.CtoP i) st.ds
        (some st.dirC) g) (fun i => st.X0 i / st.obj.CtoP i + st.dirC i * st.ds) = .ok r.2 ∧
    r.1 = { st with calls := st.calls + 1, log := (st.step, st.ds) :: st.log } := by
  unfold solveStep at h
  simp only at h
  split at h
  · cases h
  · rename_i s hs
    cases h
    exact ⟨hs, rfl⟩

theorem retry_core (fuel : ℕ) {st0 st : ContSt} {s : SolOut} {r : ContSt × SolOut} (h : Core sv N cfg f st0 st s)
    (hr : retryLoop sv N cfg f fuel st s = .ok r) :
    Core sv N cfg f st0 r.1 r.2 ∧ (r.2.success = false → r.1.ds ≤ cfg.dsmin) := by
  induction fuel generalizing st s with
  | zero => cases hr
  | succ n ih =>
    unfold retryLoop at hr
    split at hr
    · rename_i hc
      split at hr
      · cases hr
      · rename_i r' hs
        obtain ⟨h1, h2⟩ := solveStep_ok hs
        refine ih ?_ hr
        have hle : 0 ≤ cfg.dsmin → max (st.ds / 2) cfg.dsmin ≤ st0.ds ∨ max (st.ds / 2) cfg.dsmin ≤ cfg.dsmin := by
          intro h0
          by_cases hm : st.ds / 2 ≤ cfg.dsmin
          · right; rw [max_eq_right hm]
          · rw [max_eq_left (le_of_not_ge hm)]
            rcases h.le h0 with h3 | h3
            · left; linarith [hc.2]
            · right; linarith [hc.2]
        rw [h2]
        refine { step := h.step, rows := h.rows, X0 := h.X0, Xprev := h.Xprev, cb := h.cb, CtoP := h.CtoP,
                 setC := h.setC, setR := h.setR, verbose := h.verbose, mean := h.mean, le := hle, ge := ?_,
                 logged := ?_, mono := fun x hx => List.mem_cons_of_mem _ (h.mono x hx), solved := ⟨_, h1⟩, predicted := h.predicted, head := rfl, chain := ?_ }
        · intro _; exact le_max_right _ _
        · intro x hx
          rcases List.mem_cons.1 hx with rfl | hx
          · exact Or.inr ⟨hle, fun _ => le_max_right _ _⟩
          · exact h.logged x hx
        · intro a c
          refine List.isChain_cons.2 ⟨fun x hx => ?_, h.chain a c⟩
          change x ∈ st.log.head? at hx
          rw [h.head, Option.mem_def, Option.some.injEq] at hx
          rw [← hx]
          exact .retry _ _ hc.2
    · rename_i hc
      cases hr
      refine ⟨h, fun hf => ?_⟩
      by_contra hd
      exact hc ⟨hf, not_le.1 hd⟩

theorem tryFrac_core (fuel : ℕ) {b : ℝ} (hb : b ∈ cfg.fracLamList) {st0 st : ContSt} {r : ContSt × SolOut}
    (h : Pre N cfg st0 st) (hr : tryFrac sv N cfg f fuel b st = .ok r) :
    Core sv N cfg f st0 r.1 r.2 ∧ (r.2.success = false → r.1.ds ≤ cfg.dsmin) := by
  unfold tryFrac at hr
  split at hr
  · cases hr
  · rename_i p hp
    obtain ⟨o, dir, ho, hd, -, hpe⟩ := predict_ok hp
    split at hr
    · cases hr
    · rename_i r' hs
      obtain ⟨h1, h2⟩ := solveStep_ok hs
      refine retry_core fuel ?_ hr
      rw [h2]
      have e1 : p.1 = scaleDir N st.obj.CtoP b st.X0 st.Xprev dir := by rw [hpe]
      have e2 : p.2 = { st.obj with fracLam := b, RPtoC := predictScale N cfg.dynamicCtoP st.obj.CtoP o st.obj.RPtoC } := by
        rw [hpe]
      refine { step := h.step, rows := h.rows, X0 := h.X0, Xprev := h.Xprev, cb := h.cb, CtoP := ?_,
               setC := ?_, setR := ?_, verbose := ?_, mean := ?_, le := h.le, ge := h.ge,
               logged := ?_, mono := fun x hx => List.mem_cons_of_mem _ (h.mono x hx), solved := ⟨_, h1⟩, predicted := ?_, head := rfl, chain := h.next }
      · change p.2.CtoP = _; rw [e2]; exact h.CtoP
      · change p.2.setCtoPto1 = _; rw [e2]; exact h.setC
      · change p.2.setRPtoCto1 = _; rw [e2]; exact h.setR
      · change p.2.verbose = _; rw [e2]; exact h.verbose
      · intro hdy
        change p.2.RPtoC.mean _ = _
        rw [e2]
        simp only [predictScale, hdy, Bool.false_eq_true, if_false]
        exact h.mean hdy
      · intro x hx
        rcases List.mem_cons.1 hx with rfl | hx
        · exact Or.inr ⟨h.le, h.ge⟩
        · exact h.logged x hx
      · refine ⟨st.dirC, o, dir, ?_, ho, ?_, ?_, ?_⟩
        · change p.2.fracLam ∈ _; rw [e2]; exact hb
        · change sv.linSolve (N + 1) (predictMat N p.2.CtoP o st.dirC) (predictRhs N) = _; rw [e2]; exact hd
        · change p.1 = scaleDir N p.2.CtoP p.2.fracLam st.X0 st.Xprev dir; rw [e1, e2]
        · change p.2.RPtoC = _
          rw [e2]
          change predictScale N cfg.dynamicCtoP st.obj.CtoP o st.obj.RPtoC = .scalar
            (if cfg.dynamicCtoP then 1 / maxAbs N fun i => o.J i i * st.obj.CtoP i else st0.obj.RPtoC.mean (N + 1))
          cases hdy : cfg.dynamicCtoP with
          | true => simp [predictScale]
          | false => simp [predictScale, h.mean hdy]

theorem fracLoop_core (fuel : ℕ) (l : List ℝ) (hl : ∀ b ∈ l, b ∈ cfg.fracLamList) {st0 st : ContSt}
    {r : ContSt × SolOut} (h : Pre N cfg st0 st) (hr : fracLoop sv N cfg f fuel l st = .ok r) :
    Core sv N cfg f st0 r.1 r.2 ∧ (r.2.success = false → r.1.ds ≤ cfg.dsmin) := by
  induction l generalizing st with
  | nil => cases hr
  | cons b rest ih =>
    unfold fracLoop at hr
    split at hr
    · cases hr
    · rename_i r' ht
      have h2 := tryFrac_core fuel (hl b List.mem_cons_self) h ht
      split at hr
      · cases hr; exact h2
      · rename_i hs
        have hs : r'.2.success = false := by simpa using hs
        match rest, ih, hl with
        | [], _, _ => cases hr; exact h2
        | b' :: rest', ih, hl =>
          exact ih (fun x hx => hl x (List.mem_cons_of_mem _ hx)) (h2.1.pre (h2.2 hs)) hr

/-- Induction over the main loop: `P` holds whenever the loop condition is evaluated; a normal end is
at a state with `P` where the condition is false, the other end is a failed step. -/
theorem contLoop_inv {silent : Bool} {lam0 lam1 : ℝ} {CtoP0 : ℕ → ℝ} {fuel' : ℕ} (P : ContSt → Prop)
    (hstep : ∀ (st : ContSt) (r : ContSt × SolOut), P st → contCond N cfg lam0 lam1 st → Core sv N cfg f (recondition cfg CtoP0 st) r.1 r.2 →
      (r.2.success = true ∨ silent = true) → (r.2.success = false → r.1.ds ≤ cfg.dsmin) → r.2.nfev ≠ 0 →
      P (storeStep cfg r.1 r.2))
    (fuel : ℕ) {st out : ContSt} (hP : P st)
    (h : contLoop sv N cfg f silent lam0 lam1 CtoP0 fuel' fuel st = .ok out) :
    (P out ∧ ¬ contCond N cfg lam0 lam1 out) ∨
    ∃ (st' : ContSt) (r : ContSt × SolOut), P st' ∧ contCond N cfg lam0 lam1 st' ∧ Core sv N cfg f (recondition cfg CtoP0 st') r.1 r.2 ∧
      r.2.success = false ∧ silent = false ∧ r.1.ds ≤ cfg.dsmin ∧ out = { r.1 with ok := false } := by
  induction fuel generalizing st with
  | zero => cases h
  | succ n ih =>
    unfold contLoop at h
    split at h
    · rename_i hc
      split at h
      · cases h
      · rename_i r hr
        have hcore := fracLoop_core fuel' cfg.fracLamList (fun _ h => h) (Pre.refl _) hr
        split at h
        · rename_i hs
          cases h
          exact Or.inr ⟨st, r, hP, hc, hcore.1, hs.1, hs.2, hcore.2 hs.1, rfl⟩
        · rename_i hs
          split at h
          · cases h
          · rename_i hn
            refine ih (hstep st r hP hc hcore.1 ?_ hcore.2 hn) h
            by_contra hcon
            rw [not_or, Bool.not_eq_true, Bool.not_eq_true] at hcon
            exact hs hcon
    · rename_i hc
      cases h
      exact Or.inl ⟨hP, hc⟩

/-! ## Fuel -/

theorem retry_fuel (n : ℕ) {st : ContSt} {s : SolOut} (hmin : 0 < cfg.dsmin) (h : st.ds ≤ cfg.dsmin * 2 ^ n)
    {m : ℕ} (hm : n + 1 ≤ m) : retryLoop sv N cfg f m st s ≠ .error .fuel := by
  induction n generalizing st s m with
  | zero =>
    obtain ⟨m, rfl⟩ : ∃ k, m = k + 1 := ⟨m - 1, by omega⟩
    rw [pow_zero, mul_one] at h
    unfold retryLoop
    rw [if_neg (fun hc => absurd hc.2 (not_lt.2 h))]
    exact fun h => by cases h
  | succ n ih =>
    obtain ⟨m, rfl⟩ : ∃ k, m = k + 1 := ⟨m - 1, by omega⟩
    unfold retryLoop
    split
    · split
      · rename_i e he
        unfold solveStep at he
        simp only at he
        split at he
        · cases he; intro h; cases h
        · cases he
      · rename_i r hr
        refine ih ?_ (by omega)
        rw [(solveStep_ok hr).2]
        change max (st.ds / 2) cfg.dsmin ≤ _
        have h1 : (1:ℝ) ≤ 2 ^ n := one_le_pow₀ (by norm_num)
        rw [pow_succ] at h
        exact max_le (by linarith) (by nlinarith)
    · intro h; cases h

theorem solveStep_fuel {st : ContSt} : solveStep sv N cfg f st ≠ .error .fuel := by
  unfold solveStep
  simp only
  split
  · intro h; cases h
  · intro h; cases h

theorem tryFrac_fuel (n : ℕ) {b : ℝ} {st : ContSt} (hmin : 0 < cfg.dsmin) (h : st.ds ≤ cfg.dsmin * 2 ^ n)
    {m : ℕ} (hm : n + 1 ≤ m) : tryFrac sv N cfg f m b st ≠ .error .fuel := by
  unfold tryFrac
  split
  · intro h; cases h
  · split
    · rename_i e he
      intro h; cases h; exact solveStep_fuel he
    · rename_i r hr
      refine retry_fuel n hmin ?_ hm
      rw [(solveStep_ok hr).2]
      exact h

theorem fracLoop_fuel (n : ℕ) (l : List ℝ) (hl : ∀ b ∈ l, b ∈ cfg.fracLamList) {st0 st : ContSt}
    (hP : Pre N cfg st0 st) (hmin : 0 < cfg.dsmin) (h : st0.ds ≤ cfg.dsmin * 2 ^ n)
    {m : ℕ} (hm : n + 1 ≤ m) : fracLoop sv N cfg f m l st ≠ .error .fuel := by
  have h1 : (1:ℝ) ≤ 2 ^ n := one_le_pow₀ (by norm_num)
  induction l generalizing st with
  | nil => intro h; cases h
  | cons b rest ih =>
    unfold fracLoop
    have hds : st.ds ≤ cfg.dsmin * 2 ^ n := by
      rcases hP.le hmin.le with h2 | h2
      · exact h2.trans h
      · exact h2.trans (by nlinarith)
    split
    · rename_i e he
      intro h3; cases h3; exact tryFrac_fuel n hmin hds hm he
    · rename_i r ht
      have h2 := tryFrac_core m (hl b List.mem_cons_self) hP ht
      split
      · intro h; cases h
      · rename_i hs
        have hs : r.2.success = false := by simpa using hs
        match rest, ih, hl with
        | [], _, _ => intro h; cases h
        | b' :: rest', ih, hl =>
          exact ih (fun x hx => hl x (List.mem_cons_of_mem _ hx)) (h2.1.pre (h2.2 hs))

theorem storeStep_ds {st : ContSt} {s : SolOut} (hb : cfg.dsmin ≤ cfg.dsmax) :
    cfg.dsmin ≤ (storeStep cfg st s).ds ∧ (storeStep cfg st s).ds ≤ cfg.dsmax :=
  ⟨le_min (le_max_right _ _) hb, min_le_right _ _⟩

theorem recondition_same (CtoP0 : ℕ → ℝ) (st : ContSt) :
    (recondition cfg CtoP0 st).step = st.step ∧ (recondition cfg CtoP0 st).rows = st.rows ∧
    (recondition cfg CtoP0 st).X0 = st.X0 ∧ (recondition cfg CtoP0 st).Xprev = st.Xprev ∧
    (recondition cfg CtoP0 st).cb = st.cb ∧ (recondition cfg CtoP0 st).ds = st.ds ∧
    (recondition cfg CtoP0 st).log = st.log ∧ (recondition cfg CtoP0 st).obj.RPtoC = st.obj.RPtoC ∧
    (recondition cfg CtoP0 st).obj.setCtoPto1 = st.obj.setCtoPto1 ∧
    (recondition cfg CtoP0 st).obj.setRPtoCto1 = st.obj.setRPtoCto1 ∧
    (recondition cfg CtoP0 st).obj.verbose = st.obj.verbose ∧
    (recondition cfg CtoP0 st).dirC = st.dirC ∧
    (recondition cfg CtoP0 st).obj.CtoP =
      if cfg.dynamicCtoP then fun i => max |st.rows (st.step - 1) i| (CtoP0 i) else st.obj.CtoP := by
  unfold recondition
  split <;> simp

theorem contLoop_fuel {silent : Bool} {lam0 lam1 : ℝ} {CtoP0 : ℕ → ℝ} (n : ℕ) (hmin : 0 < cfg.dsmin)
    (hmax : cfg.dsmax ≤ cfg.dsmin * 2 ^ n) {m : ℕ} (hm : n + 1 ≤ m) (k : ℕ) {st : ContSt}
    (h : st.ds ≤ cfg.dsmin * 2 ^ n) (hk : cfg.maxSteps + 1 ≤ st.step + k) :
    contLoop sv N cfg f silent lam0 lam1 CtoP0 m (k + 1) st ≠ .error .fuel := by
  induction k generalizing st with
  | zero =>
    unfold contLoop
    rw [if_neg (fun hc => by have := hc.1; omega)]
    intro h; cases h
  | succ k ih =>
    unfold contLoop
    split
    · split
      · rename_i e he
        intro h3; cases h3
        refine fracLoop_fuel n cfg.fracLamList (fun _ h => h) (Pre.refl _) hmin ?_ hm he
        rw [(recondition_same CtoP0 st).2.2.2.2.2.1]; exact h
      · rename_i r hr
        have hcore := (fracLoop_core m cfg.fracLamList (fun _ h => h) (Pre.refl _) hr).1
        split
        · intro h; cases h
        · split
          · intro h; cases h
          · refine ih ((min_le_right _ _).trans hmax) ?_
            change _ ≤ r.1.step + 1 + k
            rw [hcore.step, (recondition_same CtoP0 st).1]
            omega
    · intro h; cases h

/-- More loop iterations do not change a finished run. -/
theorem retry_mono {m m' : ℕ} (hm : m ≤ m') {st : ContSt} {s : SolOut}
    (h : retryLoop sv N cfg f m st s ≠ .error .fuel) :
    retryLoop sv N cfg f m' st s = retryLoop sv N cfg f m st s := by
  induction m generalizing st s m' with
  | zero => exact absurd rfl h
  | succ m ih =>
    obtain ⟨m', rfl⟩ : ∃ k, m' = k + 1 := ⟨m' - 1, by omega⟩
    unfold retryLoop at h ⊢
    split
    · rename_i hc
      rw [if_pos hc] at h
      split
      · rfl
      · rename_i r hr
        rw [hr] at h
        exact ih (by omega) h
    · rfl

theorem tryFrac_mono {m m' : ℕ} (hm : m ≤ m') {b : ℝ} {st : ContSt} (h : tryFrac sv N cfg f m b st ≠ .error .fuel) :
    tryFrac sv N cfg f m' b st = tryFrac sv N cfg f m b st := by
  unfold tryFrac at h ⊢
  split
  · rfl
  · rename_i p hp
    rw [hp] at h
    simp only at h
    split
    · rfl
    · rename_i r hr
      rw [hr] at h
      exact retry_mono hm h

theorem fracLoop_mono {m m' : ℕ} (hm : m ≤ m') (l : List ℝ) {st : ContSt}
    (h : fracLoop sv N cfg f m l st ≠ .error .fuel) : fracLoop sv N cfg f m' l st = fracLoop sv N cfg f m l st := by
  induction l generalizing st with
  | nil => rfl
  | cons b rest ih =>
    unfold fracLoop at h ⊢
    have ht : tryFrac sv N cfg f m b st ≠ .error .fuel := by
      intro e; rw [e] at h; exact h rfl
    rw [tryFrac_mono hm ht]
    split
    · rfl
    · rename_i r hr
      rw [hr] at h
      simp only at h
      split
      · rfl
      · rename_i hs
        rw [if_neg hs] at h
        cases rest with
        | nil => rfl
        | cons b' rest' => exact ih h

theorem contLoop_mono {silent : Bool} {lam0 lam1 : ℝ} {CtoP0 : ℕ → ℝ} {m m' : ℕ} (hm : m ≤ m') {k k' : ℕ}
    (hk : k ≤ k') {st : ContSt} (h : contLoop sv N cfg f silent lam0 lam1 CtoP0 m k st ≠ .error .fuel) :
    contLoop sv N cfg f silent lam0 lam1 CtoP0 m' k' st = contLoop sv N cfg f silent lam0 lam1 CtoP0 m k st := by
  induction k generalizing st k' with
  | zero => exact absurd rfl h
  | succ k ih =>
    obtain ⟨k', rfl⟩ : ∃ j, k' = j + 1 := ⟨k' - 1, by omega⟩
    unfold contLoop at h ⊢
    split
    · rename_i hc
      rw [if_pos hc] at h
      have ht : fracLoop sv N cfg f m cfg.fracLamList (recondition cfg CtoP0 st) ≠ .error .fuel := by
        intro e; rw [e] at h; exact h rfl
      rw [fracLoop_mono hm _ ht]
      split
      · rfl
      · rename_i r hr
        rw [hr] at h
        simp only at h
        split
        · rfl
        · rename_i hs
          rw [if_neg hs] at h
          split
          · rfl
          · rename_i hn
            rw [if_neg hn] at h
            exact ih (by omega) h
    · rfl

end TMD

namespace TMD

variable {sv : ContSolver} {N : ℕ} {cfg : ContCfg} {f : ContFun}

/-! ## The whole run -/

/-- Data of an accepted step. -/
structure StepData where
  obj : ContObj
  dirC : ℕ → ℝ
  ds : ℝ
  j : ℕ
  out : SolOut

/-- The point before `rows k` in the run: the reference point `ref` before the first one. -/
def before (ref : ℕ → ℝ) (rows : ℕ → ℕ → ℝ) (k : ℕ) : ℕ → ℝ := if k = 0 then ref else rows (k - 1)

/-- Step `k` of the run leads from row `k-1` to row `k`. -/
structure GoodStep (sv : ContSolver) (N : ℕ) (cfg : ContCfg) (f : ContFun) (silent : Bool) (C0 : ℕ → ℝ) (r0 : ℝ)
    (ref : ℕ → ℝ) (rows : ℕ → ℕ → ℝ) (k : ℕ) (D : StepData) : Prop where
  solved : sv.nsolve (N + 1) D.j
      (fun XlamC g => correctRes N cfg.corrector D.obj f XlamC (fun i => rows (k - 1) i / D.obj.CtoP i) D.ds
        (some D.dirC) g) (fun i => rows (k - 1) i / D.obj.CtoP i + D.dirC i * D.ds) = .ok D.out
  success : D.out.success = true ∨ silent = true
  row : rows k = fun i => D.obj.CtoP i * D.out.X i
  CtoP : D.obj.CtoP = if cfg.dynamicCtoP then fun i => max |rows (k - 1) i| (C0 i) else C0
  frac : D.obj.fracLam ∈ cfg.fracLamList
  predicted : ∃ dir' o dir, f (rows (k - 1)) true = .ok o ∧
    sv.linSolve (N + 1) (predictMat N D.obj.CtoP o dir') (predictRhs N) = .ok dir ∧
    D.dirC = scaleDir N D.obj.CtoP D.obj.fracLam (rows (k - 1)) (before ref rows (k - 1)) dir ∧
    D.obj.RPtoC = .scalar (if cfg.dynamicCtoP then 1 / maxAbs N fun i => o.J i i * D.obj.CtoP i else r0)

/-- Invariant of the main loop. -/
structure RunInv (sv : ContSolver) (N : ℕ) (cfg : ContCfg) (f : ContFun) (silent : Bool) (lam0 lam1 : ℝ)
    (C0 : ℕ → ℝ) (r0 : ℝ) (row0 ref : ℕ → ℝ) (obj0 : ContObj) (D : ℕ → StepData) (st : ContSt) : Prop where
  pos : 1 ≤ st.step
  bound : st.step ≤ cfg.maxSteps
  X0 : st.X0 = st.rows (st.step - 1)
  Xprev : st.Xprev = before ref st.rows (st.step - 1)
  first : st.rows 0 = row0
  mean : cfg.dynamicCtoP = false → st.obj.RPtoC.mean (N + 1) = r0
  CtoP : cfg.dynamicCtoP = false → st.obj.CtoP = C0
  setC : st.obj.setCtoPto1 = obj0.setCtoPto1
  setR : st.obj.setRPtoCto1 = obj0.setRPtoCto1
  verbose : st.obj.verbose = obj0.verbose
  steps : ∀ k, 1 ≤ k → k < st.step → GoodStep sv N cfg f silent C0 r0 ref st.rows k (D k)
  window : ∀ k, k + 1 < st.step →
    contCond N cfg lam0 lam1 { st with step := k + 1 }
  cb : st.cb = if cfg.callback then ⟨some row0, none⟩ :: (List.range (st.step - 1)).map (fun k =>
    ⟨some (st.rows (k + 1)), some fun i => (D (k + 1)).dirC i * (D (k + 1)).obj.CtoP i⟩) else []
  ok : st.ok = if st.step = 1 then true else (D (st.step - 1)).out.success
  dsBound : 0 ≤ cfg.dsmin → cfg.dsmin ≤ cfg.ds0 → cfg.ds0 ≤ cfg.dsmax →
    (cfg.dsmin ≤ st.ds ∧ st.ds ≤ cfg.dsmax) ∧ ∀ x ∈ st.log, cfg.dsmin ≤ x.2 ∧ x.2 ≤ cfg.dsmax
  chain : 0 ≤ cfg.dsmin → cfg.dsmin ≤ cfg.ds0 → cfg.ds0 ≤ cfg.dsmax →
    st.log.IsChain (DsRule cfg.dsmin cfg.maxIncrease) ∧
    ∀ x ∈ st.log.head?, DsRule cfg.dsmin cfg.maxIncrease (st.step, st.ds) x
  logged : ∀ k, 1 ≤ k → k < st.step → (k, (D k).ds) ∈ st.log
  scale : cfg.dynamicCtoP = false → st.obj.RPtoC = obj0.RPtoC ∨ st.obj.RPtoC = .scalar r0

theorem GoodStep.congr {silent : Bool} {C0 : ℕ → ℝ} {r0 : ℝ} {ref : ℕ → ℝ} {rows rows' : ℕ → ℕ → ℝ} {k : ℕ}
    {D : StepData} (h : GoodStep sv N cfg f silent C0 r0 ref rows k D) (e : ∀ j ≤ k, rows' j = rows j) :
    GoodStep sv N cfg f silent C0 r0 ref rows' k D := by
  have e1 : rows' (k - 1) = rows (k - 1) := e _ (by omega)
  have e2 : rows' k = rows k := e _ le_rfl
  have e3 : before ref rows' (k - 1) = before ref rows (k - 1) := by
    unfold before; split
    · rfl
    · exact e _ (by omega)
  constructor
  · rw [e1]; exact h.solved
  · exact h.success
  · rw [e2]; exact h.row
  · rw [e1]; exact h.CtoP
  · exact h.frac
  · rw [e1, e3]; exact h.predicted

/-- The invariant is kept by an accepted step. -/
theorem RunInv.step {silent : Bool} {lam0 lam1 : ℝ} {C0 : ℕ → ℝ} {r0 : ℝ} {row0 ref : ℕ → ℝ} {obj0 : ContObj}
    {D : ℕ → StepData} {st : ContSt} {r : ContSt × SolOut}
    (h : RunInv sv N cfg f silent lam0 lam1 C0 r0 row0 ref obj0 D st) (hc : contCond N cfg lam0 lam1 st)
    (hr : Core sv N cfg f (recondition cfg C0 st) r.1 r.2) (hs : r.2.success = true ∨ silent = true) :
    ∃ D', RunInv sv N cfg f silent lam0 lam1 C0 r0 row0 ref obj0 D' (storeStep cfg r.1 r.2) := by
  obtain ⟨q1, q2, q3, q4, q5, q6, q7, q8, q9, q10, q11, q12, q13⟩ := recondition_same (cfg := cfg) C0 st
  have a1 : r.1.step = st.step := hr.step.trans q1
  have a2 : r.1.rows = st.rows := hr.rows.trans q2
  have a3 : r.1.X0 = st.X0 := hr.X0.trans q3
  have a4 : r.1.Xprev = st.Xprev := hr.Xprev.trans q4
  have a5 : r.1.cb = st.cb := hr.cb.trans q5
  have a6 : r.1.obj.CtoP = if cfg.dynamicCtoP then fun i => max |st.rows (st.step - 1) i| (C0 i) else C0 := by
    rw [hr.CtoP, q13]
    cases hd : cfg.dynamicCtoP with
    | true => rfl
    | false => simp [h.CtoP hd]
  obtain ⟨j, hj⟩ := hr.solved
  set D' : ℕ → StepData := fun k => if k = st.step then ⟨r.1.obj, r.1.dirC, r.1.ds, j, r.2⟩ else D k with hD'
  have eD : ∀ k, k < st.step → D' k = D k := fun k hk => by rw [hD']; exact if_neg (by omega)
  have eDs : D' st.step = ⟨r.1.obj, r.1.dirC, r.1.ds, j, r.2⟩ := by rw [hD']; exact if_pos rfl
  set row : ℕ → ℝ := fun i => r.1.obj.CtoP i * r.2.X i with hrow
  have rowsE : (storeStep cfg r.1 r.2).rows = fun k => if k = st.step then row else st.rows k := by
    unfold storeStep; simp only [a1, a2, hrow]
  have rowsLt : ∀ k, k < st.step → (storeStep cfg r.1 r.2).rows k = st.rows k := fun k hk => by
    rw [rowsE]; exact if_neg (by omega)
  have rowsEq : (storeStep cfg r.1 r.2).rows st.step = row := by rw [rowsE]; exact if_pos rfl
  have stepE : (storeStep cfg r.1 r.2).step = st.step + 1 := by
    change r.1.step + 1 = _; rw [a1]
  have hpos := h.pos
  have hgood : GoodStep sv N cfg f silent C0 r0 ref (storeStep cfg r.1 r.2).rows st.step (D' st.step) := by
    have e1 : (storeStep cfg r.1 r.2).rows (st.step - 1) = st.rows (st.step - 1) := rowsLt _ (by omega)
    have e3 : before ref (storeStep cfg r.1 r.2).rows (st.step - 1) = st.Xprev := by
      rw [h.Xprev]; unfold before; split
      · rfl
      · exact rowsLt _ (by omega)
    rw [eDs]
    constructor
    · rw [e1, ← h.X0, ← a3]; exact hj
    · exact hs
    · rw [rowsEq]
    · rw [e1]; exact a6
    · obtain ⟨_, _, _, hf, _⟩ := hr.predicted
      exact hf
    · obtain ⟨dir', o, dir, _, ho, hl, hd, hR⟩ := hr.predicted
      refine ⟨dir', o, dir, ?_, hl, ?_, ?_⟩
      · rw [e1, ← h.X0, ← a3]; exact ho
      · rw [e1, e3, ← h.X0, ← a3, ← a4]; exact hd
      · refine hR.trans ?_
        congr 1
        cases hdy : cfg.dynamicCtoP with
        | true => rfl
        | false => simp only [Bool.false_eq_true, if_false]; rw [q8]; exact h.mean hdy
  refine ⟨D', ?_⟩
  have hlt := hc.1
  constructor
  · rw [stepE]; omega
  · rw [stepE]; omega
  · rw [stepE, Nat.add_sub_cancel, rowsEq]; rfl
  · rw [stepE, Nat.add_sub_cancel]
    change r.1.X0 = _
    rw [a3, h.X0]; unfold before
    rw [if_neg (by omega), rowsLt _ (by omega)]
  · rw [rowsLt _ (by omega)]; exact h.first
  · intro hd
    change r.1.obj.RPtoC.mean _ = _
    rw [hr.mean hd, q8]; exact h.mean hd
  · intro hd
    change r.1.obj.CtoP = _
    rw [a6, hd]; rfl
  · exact (hr.setC.trans q9).trans h.setC
  · exact (hr.setR.trans q10).trans h.setR
  · exact (hr.verbose.trans q11).trans h.verbose
  · intro k hk1 hk2
    rw [stepE] at hk2
    rcases Nat.lt_succ_iff_lt_or_eq.1 hk2 with hk3 | rfl
    · rw [eD k hk3]
      exact (h.steps k hk1 hk3).congr (fun j hj => rowsLt j (by omega))
    · exact hgood
  · intro k hk
    rw [stepE] at hk
    have hk' : k < st.step := by omega
    have key : contCond N cfg lam0 lam1 { st with step := k + 1 } := by
      by_cases hk2 : k + 1 < st.step
      · exact h.window k hk2
      · have : k + 1 = st.step := by omega
        rw [this]; exact hc
    unfold contCond at key ⊢
    simp only [Nat.add_sub_cancel] at key ⊢
    rw [rowsLt k hk']
    exact key
  · change (if cfg.callback = true then r.1.cb ++ _ else r.1.cb) = _
    rw [a5, h.cb]
    cases hcb : cfg.callback with
    | false => simp
    | true =>
      simp only [if_true, stepE, Nat.add_sub_cancel]
      obtain ⟨m, hm⟩ : ∃ m, st.step = m + 1 := ⟨st.step - 1, by omega⟩
      rw [hm, Nat.add_sub_cancel, List.range_succ, List.map_append, List.cons_append]
      congr 1
      congr 1
      · refine List.map_congr_left fun k hk => ?_
        rw [List.mem_range] at hk
        rw [rowsLt _ (by omega), eD _ (by omega)]
      · simp only [List.map_cons, List.map_nil]
        rw [← hm, rowsEq, eDs]
  · rw [stepE, if_neg (by omega), Nat.add_sub_cancel, eDs]; rfl
  · intro h0 h1 h2
    obtain ⟨⟨b1, b2⟩, b3⟩ := h.dsBound h0 h1 h2
    refine ⟨storeStep_ds (h1.trans h2), fun x hx => ?_⟩
    rcases hr.logged x hx with hx | ⟨hx1, hx2⟩
    · rw [q7] at hx; exact b3 x hx
    · rw [q6] at hx1 hx2
      refine ⟨hx2 b1, ?_⟩
      rcases hx1 h0 with hx3 | hx3
      · exact hx3.trans b2
      · exact hx3.trans (h1.trans h2)
  · intro h0 h1 h2
    obtain ⟨⟨b1, b2⟩, _⟩ := h.dsBound h0 h1 h2
    obtain ⟨c1, c2⟩ := h.chain h0 h1 h2
    refine ⟨hr.chain ?_ ?_, fun x hx => ?_⟩
    · rw [q7, q1, q6]; exact c2
    · rw [q7]; exact c1
    · change x ∈ r.1.log.head? at hx
      rw [hr.head, Option.mem_def, Option.some.injEq] at hx
      rw [← hx, stepE, a1]
      refine .next _ _ _ ?_
      have hds : 0 ≤ r.1.ds := h0.trans (hr.ge (by rw [q6]; exact b1))
      refine (min_le_left _ _).trans ?_
      exact max_le_max (mul_le_mul_of_nonneg_left (min_le_right _ _) hds) le_rfl
  · intro k hk1 hk2
    rw [stepE] at hk2
    change _ ∈ r.1.log
    rcases Nat.lt_succ_iff_lt_or_eq.1 hk2 with hk3 | rfl
    · rw [eD k hk3]
      have := h.logged k hk1 hk3
      exact hr.mono _ (by rw [q7]; exact this)
    · rw [eDs]
      have := hr.head
      rw [a1] at this
      exact List.mem_of_mem_head? (by rw [this]; rfl)
  · intro hd
    right
    obtain ⟨_, _, _, _, _, _, _, hR⟩ := hr.predicted
    refine hR.trans ?_
    rw [hd]
    simp only [Bool.false_eq_true, if_false]
    rw [q8, h.mean hd]

end TMD

namespace TMD

variable {sv : ContSolver} {N : ℕ} {cfg : ContCfg} {f : ContFun}

theorem runInv_start {silent : Bool} {lam0 lam1 : ℝ} {obj : ContObj} {s : SolOut} (hs : s.success = true)
    (hm : cfg.maxSteps ≠ 0) (D : ℕ → StepData) :
    RunInv sv N cfg f silent lam0 lam1 obj.CtoP (obj.RPtoC.mean (N + 1))
      (snocLam N (fun i => s.X i * obj.CtoP i) lam0)
      (snocLam N (fun i => s.X i * obj.CtoP i) (lam0 - signOf (lam1 - lam0))) obj D
      (contStart N cfg lam0 lam1 obj s) where
  pos := le_rfl
  bound := Nat.one_le_iff_ne_zero.2 hm
  X0 := rfl
  Xprev := rfl
  first := rfl
  mean := fun _ => rfl
  CtoP := fun _ => rfl
  setC := rfl
  setR := rfl
  verbose := rfl
  steps := fun k h1 h2 => absurd (show k < 1 from h2) (by omega)
  window := fun k h => absurd (show k + 1 < 1 from h) (by omega)
  cb := rfl
  ok := hs
  dsBound := fun _ h1 h2 => ⟨⟨h1, h2⟩, fun x hx => by cases hx⟩
  chain := fun _ _ _ => ⟨List.isChain_nil, fun x hx => by cases hx⟩
  logged := fun k h1 h2 => absurd (show k < 1 from h2) (by omega)
  scale := fun _ => Or.inl rfl

/-- A direction predicted at `X` (before it: `Xprev`), in physical coordinates. -/
def PredictedAt (sv : ContSolver) (N : ℕ) (f : ContFun) (C : ℕ → ℝ) (b : ℝ) (X Xprev d : ℕ → ℝ) : Prop :=
  ∃ dir' o dir, f X true = .ok o ∧ sv.linSolve (N + 1) (predictMat N C o dir') (predictRhs N) = .ok dir ∧
    d = fun i => scaleDir N C b X Xprev dir i * C i

/-- Everything known about a finished run. -/
structure FullRun (sv : ContSolver) (N : ℕ) (cfg : ContCfg) (f : ContFun) (obj : ContObj) (XlamP0 : ℕ → ℝ)
    (lam0 lam1 : ℝ) (out : ContRes) (s : SolOut) (D : ℕ → StepData) : Prop where
  initial : sv.nsolve N 0 (initialFun N f lam0 (contPrepare obj).CtoP (contPrepare obj).RPtoC)
    (fun i => XlamP0 i / (contPrepare obj).CtoP i) = .ok s
  converged : s.success = true
  pos : 1 ≤ out.n
  bound : out.n ≤ cfg.maxSteps
  first : out.rows 0 = snocLam N (fun i => s.X i * (contPrepare obj).CtoP i) lam0
  steps : ∀ k, 1 ≤ k → k < out.n → GoodStep sv N cfg f (decide (obj.verbose < 0)) (contPrepare obj).CtoP
    ((contPrepare obj).RPtoC.mean (N + 1))
    (snocLam N (fun i => s.X i * (contPrepare obj).CtoP i) (lam0 - signOf (lam1 - lam0))) out.rows k (D k)
  window : ∀ k, k + 1 < out.n → ∀ st : ContSt, st.rows = out.rows → st.step = k + 1 → contCond N cfg lam0 lam1 st
  ending : (∀ st : ContSt, st.rows = out.rows → st.step = out.n → ¬ contCond N cfg lam0 lam1 st) ∧
      (0 ≤ obj.verbose → out.ok = true) ∨
    out.ok = false ∧ 0 ≤ obj.verbose ∧ ∃ d, out.log.head? = some (out.n, d) ∧ d ≤ cfg.dsmin
  cbNone : cfg.callback = false → out.cb = []
  cb : cfg.callback = true → ∃ d, out.cb = ⟨some (out.rows 0), none⟩ :: (List.range (out.n - 1)).map (fun k =>
      ⟨some (out.rows (k + 1)), some fun i => (D (k + 1)).dirC i * (D (k + 1)).obj.CtoP i⟩) ++ [⟨none, some d⟩] ∧
    (0 ≤ obj.verbose → ∃ C b, PredictedAt sv N f C b (out.rows (out.n - 1))
      (before (snocLam N (fun i => s.X i * (contPrepare obj).CtoP i) (lam0 - signOf (lam1 - lam0))) out.rows (out.n - 1)) d)
  dsBound : 0 ≤ cfg.dsmin → cfg.dsmin ≤ cfg.ds0 → cfg.ds0 ≤ cfg.dsmax → ∀ x ∈ out.log, cfg.dsmin ≤ x.2 ∧ x.2 ≤ cfg.dsmax
  chain : 0 ≤ cfg.dsmin → cfg.dsmin ≤ cfg.ds0 → cfg.ds0 ≤ cfg.dsmax →
    out.log.IsChain (DsRule cfg.dsmin cfg.maxIncrease)
  logged : ∀ k, 1 ≤ k → k < out.n → (k, (D k).ds) ∈ out.log
  verbose : out.obj.verbose = (contPrepare obj).verbose
  setC : out.obj.setCtoPto1 = obj.setCtoPto1
  setR : out.obj.setRPtoCto1 = obj.setRPtoCto1
  CtoP : cfg.dynamicCtoP = false → out.obj.CtoP = (contPrepare obj).CtoP
  scale : cfg.dynamicCtoP = false → out.obj.RPtoC = (contPrepare obj).RPtoC ∨
    out.obj.RPtoC = .scalar ((contPrepare obj).RPtoC.mean (N + 1))

theorem contCond_congr {lam0 lam1 : ℝ} {st st' : ContSt} (h1 : st.rows = st'.rows) (h2 : st.step = st'.step) :
    contCond N cfg lam0 lam1 st ↔ contCond N cfg lam0 lam1 st' := by
  unfold contCond
  rw [h1, h2]

theorem continuation_run {obj : ContObj} {XlamP0 : ℕ → ℝ} {lam0 lam1 : ℝ} {fuel : ℕ} {out : ContRes}
    (h : continuation sv N cfg obj f XlamP0 lam0 lam1 fuel = .ok out) :
    ∃ s D, FullRun sv N cfg f obj XlamP0 lam0 lam1 out s D := by
  unfold continuation at h
  simp only at h
  split at h
  · cases h
  · rename_i s hs
    split at h
    · cases h
    · rename_i hsucc
      have hsucc : s.success = true := by simpa using hsucc
      split at h
      · cases h
      · rename_i hm
        split at h
        · cases h
        · rename_i st hst
          set C0 := (contPrepare obj).CtoP with hC0
          set r0 := (contPrepare obj).RPtoC.mean (N + 1) with hr0
          set row0 := snocLam N (fun i => s.X i * C0 i) lam0 with hrow0
          set ref := snocLam N (fun i => s.X i * C0 i) (lam0 - signOf (lam1 - lam0)) with href
          set silent := decide (obj.verbose < 0) with hsil
          have hsilent : 0 ≤ obj.verbose → silent = false := fun hv => by
            rw [hsil]; exact decide_eq_false (by omega)
          have hinv := contLoop_inv
            (P := fun st => ∃ D, RunInv sv N cfg f silent lam0 lam1 C0 r0 row0 ref (contPrepare obj) D st)
            (fun st r ⟨D, hP⟩ hc hcore hsc _ _ => hP.step hc hcore hsc) fuel
            ⟨fun _ => ⟨contPrepare obj, row0, 0, 0, s⟩, runInv_start hsucc hm _⟩ hst
          rcases hinv with ⟨⟨D, hP⟩, hc⟩ | ⟨st', r, ⟨D, hP⟩, hc, hcore, hf, hns, hds, hout⟩
          · -- normal end
            have hok : 0 ≤ obj.verbose → st.ok = true := by
              intro hv
              rw [hP.ok]
              split
              · rfl
              · have hpos := hP.pos
                rcases (hP.steps (st.step - 1) (by omega) (by omega)).success with h1 | h1
                · exact h1
                · rw [hsilent hv] at h1; cases h1
            -- the result agrees with the state
            have key : out.rows = st.rows ∧ out.n = st.step ∧ out.ok = st.ok ∧ out.log = st.log ∧
                out.obj.verbose = st.obj.verbose ∧
                (out.obj.setCtoPto1 = st.obj.setCtoPto1 ∧ out.obj.setRPtoCto1 = st.obj.setRPtoCto1 ∧
                  out.obj.CtoP = st.obj.CtoP ∧ (out.obj.RPtoC = st.obj.RPtoC ∨ (cfg.dynamicCtoP = false →
                    out.obj.RPtoC = .scalar (st.obj.RPtoC.mean (N + 1))))) ∧
                (cfg.callback = false → out.cb = st.cb) ∧
                (cfg.callback = true → ∃ d, out.cb = st.cb ++ [⟨none, some d⟩] ∧
                  (st.ok = true → ∃ C b, PredictedAt sv N f C b st.X0 st.Xprev d)) := by
              unfold contFinish at h
              split at h
              · rename_i hcb
                split at h
                · rename_i ho
                  cases h
                  exact ⟨rfl, rfl, rfl, rfl, rfl, ⟨rfl, rfl, rfl, Or.inl rfl⟩, fun hc => (by rw [hcb] at hc; cases hc),
                    fun _ => ⟨_, rfl, fun h1 => (by rw [ho] at h1; cases h1)⟩⟩
                · split at h
                  · cases h
                  · rename_i p hp
                    cases h
                    obtain ⟨o, dir, ho, hl, _, hpe⟩ := predict_ok hp
                    refine ⟨rfl, rfl, rfl, rfl, ?_, ?_, fun hc => (by rw [hcb] at hc; cases hc),
                      fun _ => ⟨_, rfl, fun _ => ⟨st.obj.CtoP, st.obj.fracLam, st.dirC, o, dir, ho, hl, ?_⟩⟩⟩
                    · change p.2.verbose = _; rw [hpe]
                    · change p.2.setCtoPto1 = _ ∧ p.2.setRPtoCto1 = _ ∧ p.2.CtoP = _ ∧ (p.2.RPtoC = _ ∨ (_ → p.2.RPtoC = _))
                      rw [hpe]
                      exact ⟨rfl, rfl, rfl, Or.inr fun hd => by simp [predictScale, hd]⟩
                    · rw [hpe]
              · rename_i hcb
                cases h
                exact ⟨rfl, rfl, rfl, rfl, rfl, ⟨rfl, rfl, rfl, Or.inl rfl⟩, fun _ => rfl, fun hc => absurd hc hcb⟩
            obtain ⟨k1, k2, k3, k4, k5, ⟨k8, k9, k10, k11⟩, k6, k7⟩ := key
            refine ⟨s, D, ?_⟩
            constructor
            · exact hs
            · exact hsucc
            · rw [k2]; exact hP.pos
            · rw [k2]; exact hP.bound
            · rw [k1]; exact hP.first
            · rw [k1, k2]; exact hP.steps
            · intro k hk st2 e1 e2
              rw [k2] at hk
              exact (contCond_congr (by rw [e1, k1]) (by rw [e2])).1 (hP.window k hk)
            · left
              refine ⟨fun st2 e1 e2 h2 => hc ((contCond_congr (by rw [e1, k1]) (by rw [e2, k2])).1 h2), ?_⟩
              rw [k3]; exact hok
            · intro hcb; rw [k6 hcb, hP.cb, hcb]; rfl
            · intro hcb
              obtain ⟨d, hd1, hd2⟩ := k7 hcb
              refine ⟨d, ?_, fun hv => ?_⟩
              · rw [hd1, hP.cb, hcb, k1, k2, hP.first]; rfl
              · obtain ⟨C, b, hp⟩ := hd2 (hok hv)
                rw [hP.X0, hP.Xprev] at hp
                exact ⟨C, b, by rw [k1, k2]; exact hp⟩
            · intro h0 h1 h2
              rw [k4]; exact (hP.dsBound h0 h1 h2).2
            · intro h0 h1 h2
              rw [k4]; exact (hP.chain h0 h1 h2).1
            · rw [k2, k4]; exact hP.logged
            · rw [k5]; exact hP.verbose
            · rw [k8]; exact hP.setC
            · rw [k9]; exact hP.setR
            · intro hd; rw [k10]; exact hP.CtoP hd
            · intro hd
              rcases k11 with k11 | k11
              · rw [k11]; exact hP.scale hd
              · right; rw [k11 hd, hP.mean hd]
          · -- failed step
            obtain ⟨q1, q2, q3, q4, q5, q6, q7, q8, q9, q10, q11, q12, q13⟩ := recondition_same (cfg := cfg) C0 st'
            have hv : 0 ≤ obj.verbose := by
              rw [hsil] at hns; simpa using hns
            have key : out.rows = st'.rows ∧ out.n = st'.step ∧ out.ok = false ∧ out.log = r.1.log ∧
                out.obj = r.1.obj ∧
                (cfg.callback = false → out.cb = st'.cb) ∧
                (cfg.callback = true → out.cb = st'.cb ++ [⟨none, some fun i => r.1.dirC i * r.1.obj.CtoP i⟩]) := by
              have e1 : r.1.rows = st'.rows := hcore.rows.trans q2
              have e2 : r.1.step = st'.step := hcore.step.trans q1
              have e3 : r.1.cb = st'.cb := hcore.cb.trans q5
              unfold contFinish at h
              rw [hout] at h
              simp only [if_true] at h
              split at h
              · rename_i hcb
                cases h
                exact ⟨e1, e2, rfl, rfl, rfl, fun hc => (by rw [hcb] at hc; cases hc), fun _ => by rw [← e3]⟩
              · rename_i hcb
                cases h
                exact ⟨e1, e2, rfl, rfl, rfl, fun _ => e3, fun hc => absurd hc hcb⟩
            obtain ⟨k1, k2, k3, k4, k5, k6, k7⟩ := key
            refine ⟨s, D, ?_⟩
            constructor
            · exact hs
            · exact hsucc
            · rw [k2]; exact hP.pos
            · rw [k2]; exact hP.bound
            · rw [k1]; exact hP.first
            · rw [k1, k2]; exact hP.steps
            · intro k hk st2 e1 e2
              rw [k2] at hk
              exact (contCond_congr (by rw [e1, k1]) (by rw [e2])).1 (hP.window k hk)
            · right
              refine ⟨k3, hv, r.1.ds, ?_, hds⟩
              rw [k4, hcore.head, k2, hcore.step, q1]
            · intro hcb; rw [k6 hcb, hP.cb, hcb]; rfl
            · intro hcb
              refine ⟨_, by rw [k7 hcb, hP.cb, hcb, k1, k2, hP.first]; rfl, fun _ => ?_⟩
              obtain ⟨dir', o, dir, _, ho, hl, hd, _⟩ := hcore.predicted
              refine ⟨r.1.obj.CtoP, r.1.obj.fracLam, dir', o, dir, ?_, hl, ?_⟩
              · rw [k1, k2, ← hP.X0, ← q3, ← hcore.X0]; exact ho
              · rw [k1, k2, ← hP.X0, ← hP.Xprev, ← q3, ← q4, ← hcore.X0, ← hcore.Xprev, hd]
            · intro h0 h1 h2
              obtain ⟨⟨b1, b2⟩, b3⟩ := hP.dsBound h0 h1 h2
              rw [k4]
              intro x hx
              rcases hcore.logged x hx with hx | ⟨hx1, hx2⟩
              · rw [q7] at hx; exact b3 x hx
              · rw [q6] at hx1 hx2
                refine ⟨hx2 b1, ?_⟩
                rcases hx1 h0 with hx3 | hx3
                · exact hx3.trans b2
                · exact hx3.trans (h1.trans h2)
            · intro h0 h1 h2
              obtain ⟨c1, c2⟩ := hP.chain h0 h1 h2
              rw [k4]
              refine hcore.chain ?_ ?_
              · rw [q7, q1, q6]; exact c2
              · rw [q7]; exact c1
            · rw [k2, k4]
              intro k h1 h2
              exact hcore.mono _ (by rw [q7]; exact hP.logged k h1 h2)
            · rw [k5]; exact (hcore.verbose.trans q11).trans hP.verbose
            · rw [k5]; exact (hcore.setC.trans q9).trans hP.setC
            · rw [k5]; exact (hcore.setR.trans q10).trans hP.setR
            · intro hd
              rw [k5, hcore.CtoP, q13, hd]
              exact hP.CtoP hd
            · intro hd
              right
              obtain ⟨_, _, _, _, _, _, _, hR⟩ := hcore.predicted
              rw [k5, hR, hd]
              simp only [Bool.false_eq_true, if_false]
              rw [q8, hP.mean hd]

end TMD
