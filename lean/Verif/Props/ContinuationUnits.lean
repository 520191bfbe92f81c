import Verif.Props.Continuation

/-!
# C121: units

The unknowns and the parameter of a continuation are measured in other units: entry `i` of every vector of unknowns is
multiplied by `s i > 0`, and so are the scaling vector `CtoP`, the start and end of the parameter and the limit `backtrackStop`
(continuation.py:163-214, 538-890). The run is the same: same steps, same calls of the solver with the same conditioned
functions, same step sizes, and every returned point and callback in the other units. `inUnits` does not refer to the code.
-/

namespace TMD

open Spec Finset

noncomputable section

/-- The residual function in other units. -/
def inUnits (N : ℕ) (s : ℕ → ℝ) (f : ContFun) : ContFun := fun X g =>
  match f (fun i => X i / s i) g with
  | .error e => .error e
  | .ok o => .ok ⟨o.R, fun i j => o.J i j / s j, fun i => o.d i / s N⟩

def unitsObj (s : ℕ → ℝ) (obj : ContObj) : ContObj := { obj with CtoP := fun i => s i * obj.CtoP i }

def unitsCfg (q : ℝ) (cfg : ContCfg) : ContCfg := { cfg with backtrackStop := cfg.backtrackStop.map (q * ·) }

def unitsCb (s : ℕ → ℝ) (c : CbCall) : CbCall := ⟨c.X.map fun X i => s i * X i, c.dir.map fun d i => s i * d i⟩

def unitsRes (s : ℕ → ℝ) (r : ContRes) : ContRes :=
  { r with rows := fun k i => s i * r.rows k i, cb := r.cb.map (unitsCb s), obj := unitsObj s r.obj }

/-- Entries beyond the parameter do not exist; their unit is that of the parameter. -/
structure Units (N : ℕ) (s : ℕ → ℝ) : Prop where
  pos : ∀ i, 0 < s i
  tail : ∀ i, N ≤ i → s i = s N

variable {sv : ContSolver} {N : ℕ} {f : ContFun} {cfg : ContCfg} {s : ℕ → ℝ}

/-! ## The functions given to the solvers -/

theorem correctRes_units (hs : Units N s) (corr : Corrector) (obj : ContObj) (x x0 : ℕ → ℝ) (ds : ℝ) (d : Option (ℕ → ℝ)) (g : Bool) :
    correctRes N corr (unitsObj s obj) (inUnits N s f) x x0 ds d g = correctRes N corr obj f x x0 ds d g := by
  have e : (fun i => x i * (s i * obj.CtoP i) / s i) = fun i => x i * obj.CtoP i := by
    funext i
    have := (hs.pos i).ne'
    field_simp
  have e1 : ∀ (o : ContOut) (i j : ℕ), o.J i j / s j * (s j * obj.CtoP j) = o.J i j * obj.CtoP j := fun o i j => by
    have := (hs.pos j).ne'
    field_simp
  have e2 : ∀ (o : ContOut) (i : ℕ), o.d i / s N * (s N * obj.CtoP N) = o.d i * obj.CtoP N := fun o i => by
    have := (hs.pos N).ne'
    field_simp
  unfold correctRes inUnits
  simp only [unitsObj, e]
  cases f (fun i => x i * obj.CtoP i) g with
  | error e => rfl
  | ok o => simp only [e1, e2]

theorem initialFun_units (hs : Units N s) (lam0 : ℝ) (C : ℕ → ℝ) (r : RScale) :
    initialFun N (inUnits N s f) (s N * lam0) (fun i => s i * C i) r = initialFun N f lam0 C r := by
  funext x g
  have e : (fun i => snocLam N (fun i => x i * (s i * C i)) (s N * lam0) i / s i) = snocLam N (fun i => x i * C i) lam0 := by
    funext i
    have := (hs.pos i).ne'
    unfold snocLam
    split_ifs with h
    · field_simp
    · rw [hs.tail i (by omega)] at *
      field_simp
  have e1 : ∀ (o : ContOut) (i j : ℕ), r.at j * (o.J i j / s j) * (s j * C j) = r.at j * o.J i j * C j := fun o i j => by
    have := (hs.pos j).ne'
    field_simp
  unfold initialFun inUnits
  simp only [e]
  cases f (snocLam N (fun i => x i * C i) lam0) g with
  | error e => rfl
  | ok o => simp only [e1]

theorem signOf_scale {q : ℝ} (hq : 0 < q) (x : ℝ) : signOf (q * x) = signOf x := by
  unfold signOf
  have h1 : 0 < q * x ↔ 0 < x := by constructor <;> intro h <;> [exact (pos_iff_pos_of_mul_pos h).1 hq; exact mul_pos hq h]
  have h2 : q * x < 0 ↔ x < 0 := by
    constructor
    · intro h; by_contra hc; exact absurd (mul_nonneg hq.le (not_lt.1 hc)) (not_le.2 h)
    · intro h; exact mul_neg_of_pos_of_neg hq h
  simp only [h1, h2]

theorem scaleDir_units (hs : Units N s) (C : ℕ → ℝ) (b : ℝ) {X0 Xp Xp' dir : ℕ → ℝ} {q : ℝ} (hq : 0 < q)
    (hX : ∀ i, s i * X0 i - Xp' i = s i * (q * (X0 i - Xp i))) :
    scaleDir N (fun i => s i * C i) b (fun i => s i * X0 i) Xp' dir = scaleDir N C b X0 Xp dir := by
  have e1 : (fun i => s i * X0 i / (s i * C i)) = fun i => X0 i / C i := by
    funext i; rw [mul_div_mul_left _ _ (hs.pos i).ne']
  have e2 : ∀ i, (s i * X0 i - Xp' i) / (s i * C i) = q * ((X0 i - Xp i) / C i) := fun i => by
    rw [hX, mul_div_mul_left _ _ (hs.pos i).ne', mul_div_assoc]
  unfold scaleDir
  simp only [e1, e2]
  set c := arcWeight N b fun i => X0 i / C i
  set w := √(c * normSq N dir + b * dir N ^ 2)
  have e3 : c * ∑ x ∈ range N, dir x / w * (q * ((X0 x - Xp x) / C x)) + b * (dir N / w) * (q * ((X0 N - Xp N) / C N))
      = q * (c * ∑ x ∈ range N, dir x / w * ((X0 x - Xp x) / C x) + b * (dir N / w) * ((X0 N - Xp N) / C N)) := by
    rw [mul_add, ← mul_assoc q c, mul_comm q c, mul_assoc c q, mul_sum (range N) _ q]
    congr 1
    · congr 1
      exact sum_congr rfl fun i _ => by ring
    · ring
  rw [e3, signOf_scale hq]

theorem predict_units (hs : Units N s) (dyn : Bool) (obj : ContObj) {X0 Xp Xp' dp : ℕ → ℝ} {q : ℝ} (hq : 0 < q)
    (hX : ∀ i, s i * X0 i - Xp' i = s i * (q * (X0 i - Xp i))) :
    predict sv N dyn (unitsObj s obj) (inUnits N s f) (fun i => s i * X0 i) Xp' dp
      = (predict sv N dyn obj f X0 Xp dp).map fun p => (p.1, unitsObj s p.2) := by
  have e : (fun i => s i * X0 i / s i) = X0 := by
    funext i; rw [mul_div_cancel_left₀ _ (hs.pos i).ne']
  have e1 : ∀ (o : ContOut) (i j : ℕ), o.J i j / s j * (s j * obj.CtoP j) = o.J i j * obj.CtoP j := fun o i j => by
    have := (hs.pos j).ne'
    field_simp
  have e2 : ∀ (o : ContOut) (i : ℕ), o.d i / s N * (s N * obj.CtoP N) = o.d i * obj.CtoP N := fun o i => by
    have := (hs.pos N).ne'
    field_simp
  unfold predict inUnits
  simp only [e]
  cases f X0 true with
  | error e => rfl
  | ok o =>
    have em : predictMat N (unitsObj s obj).CtoP ⟨o.R, fun i j => o.J i j / s j, fun i => o.d i / s N⟩ dp = predictMat N obj.CtoP o dp := by
      unfold predictMat unitsObj
      simp only [e1, e2]
    simp only [em]
    cases sv.linSolve (N + 1) (predictMat N obj.CtoP o dp) (predictRhs N) with
    | error e => rfl
    | ok dir =>
      simp only
      split
      · rfl
      · simp only [Except.map, unitsObj, scaleDir_units hs obj.CtoP obj.fracLam hq hX, predictScale, e1]

/-! ## The run -/

/-- The states of the two runs: the previous point only matters through the direction of the last step. -/
structure SameRun (N : ℕ) (s : ℕ → ℝ) (st st' : ContSt) : Prop where
  obj : st'.obj = unitsObj s st.obj
  step : st'.step = st.step
  rows : st'.rows = fun k i => s i * st.rows k i
  X0 : st'.X0 = fun i => s i * st.X0 i
  prev : ∃ q, 0 < q ∧ ∀ i, s i * st.X0 i - st'.Xprev i = s i * (q * (st.X0 i - st.Xprev i))
  dirC : st'.dirC = st.dirC
  ds : st'.ds = st.ds
  ok : st'.ok = st.ok
  calls : st'.calls = st.calls
  cb : st'.cb = st.cb.map (unitsCb s)
  log : st'.log = st.log

/-- Two results of a stage correspond. -/
def SameResult (N : ℕ) (s : ℕ → ℝ) : Except Fail (ContSt × SolOut) → Except Fail (ContSt × SolOut) → Prop
  | .ok r, .ok r' => SameRun N s r.1 r'.1 ∧ r'.2 = r.2
  | .error e, .error e' => e' = e
  | _, _ => False

theorem solveStep_units (hs : Units N s) {st st' : ContSt} (H : SameRun N s st st') (q : ℝ) :
    SameResult N s (solveStep sv N cfg f st) (solveStep sv N (unitsCfg q cfg) (inUnits N s f) st') := by
  have e2 : ∀ i, st'.X0 i / (unitsObj s st.obj).CtoP i = st.X0 i / st.obj.CtoP i := fun i => by
    rw [H.X0]; exact mul_div_mul_left _ _ (hs.pos i).ne'
  unfold solveStep
  simp only [H.obj, e2, H.calls, H.dirC, H.ds, correctRes_units hs, unitsCfg]
  cases sv.nsolve (N + 1) st.calls
      (fun XlamC g => correctRes N cfg.corrector st.obj f XlamC (fun i => st.X0 i / st.obj.CtoP i) st.ds (some st.dirC) g)
      (fun i => st.X0 i / st.obj.CtoP i + st.dirC i * st.ds) with
  | error e => rfl
  | ok r =>
    refine ⟨⟨rfl, H.step, H.rows, H.X0, H.prev, rfl, rfl, H.ok, rfl, H.cb, ?_⟩, rfl⟩
    simp only [H.step, H.log]

theorem retryLoop_units (hs : Units N s) (q : ℝ) : ∀ (fuel : ℕ) {st st' : ContSt} (_ : SameRun N s st st') (r : SolOut),
    SameResult N s (retryLoop sv N cfg f fuel st r) (retryLoop sv N (unitsCfg q cfg) (inUnits N s f) fuel st' r)
  | 0, _, _, _, _ => rfl
  | fuel + 1, st, st', H, r => by
    unfold retryLoop
    have hd : (unitsCfg q cfg).dsmin = cfg.dsmin := rfl
    simp only [hd, H.ds]
    split
    · have H' : SameRun N s { st with ds := max (st.ds / 2) cfg.dsmin } { st' with ds := max (st.ds / 2) cfg.dsmin } :=
        ⟨H.obj, H.step, H.rows, H.X0, H.prev, H.dirC, rfl, H.ok, H.calls, H.cb, H.log⟩
      have k := solveStep_units (sv := sv) (f := f) (cfg := cfg) hs H' q
      revert k
      cases solveStep sv N cfg f { st with ds := max (st.ds / 2) cfg.dsmin } with
      | error e =>
        cases solveStep sv N (unitsCfg q cfg) (inUnits N s f) { st' with ds := max (st.ds / 2) cfg.dsmin } with
        | error e' => exact fun k => k
        | ok x => exact fun k => k.elim
      | ok y =>
        cases solveStep sv N (unitsCfg q cfg) (inUnits N s f) { st' with ds := max (st.ds / 2) cfg.dsmin } with
        | error e' => exact fun k => k.elim
        | ok x =>
          intro k
          obtain ⟨k1, k2⟩ := k
          simp only [k2]
          exact retryLoop_units hs q fuel k1 y.2
    · exact ⟨H, rfl⟩

theorem tryFrac_units (hs : Units N s) (q : ℝ) (fuel : ℕ) (b : ℝ) {st st' : ContSt} (H : SameRun N s st st') :
    SameResult N s (tryFrac sv N cfg f fuel b st) (tryFrac sv N (unitsCfg q cfg) (inUnits N s f) fuel b st') := by
  obtain ⟨p, hp, hX⟩ := H.prev
  have k := predict_units (sv := sv) (f := f) hs cfg.dynamicCtoP { st.obj with fracLam := b } (dp := st.dirC) hp hX
  unfold tryFrac
  have e : ({ st'.obj with fracLam := b } : ContObj) = unitsObj s { st.obj with fracLam := b } := by rw [H.obj]; rfl
  have e2 : (unitsCfg q cfg).dynamicCtoP = cfg.dynamicCtoP := rfl
  have e3 : predict sv N cfg.dynamicCtoP (unitsObj s { st.obj with fracLam := b }) (inUnits N s f) st'.X0 st'.Xprev st'.dirC
      = predict sv N cfg.dynamicCtoP (unitsObj s { st.obj with fracLam := b }) (inUnits N s f) (fun i => s i * st.X0 i) st'.Xprev st.dirC := by
    rw [H.X0, H.dirC]
  rw [e, e2, e3, k]
  cases hpr : predict sv N cfg.dynamicCtoP { st.obj with fracLam := b } f st.X0 st.Xprev st.dirC with
  | error e => rfl
  | ok y =>
    simp only [Except.map]
    have H' : SameRun N s { st with dirC := y.1, obj := y.2 } { st' with dirC := y.1, obj := unitsObj s y.2 } :=
      ⟨rfl, H.step, H.rows, H.X0, H.prev, rfl, H.ds, H.ok, H.calls, H.cb, H.log⟩
    have k := solveStep_units (sv := sv) (f := f) (cfg := cfg) hs H' q
    revert k
    cases solveStep sv N cfg f { st with dirC := y.1, obj := y.2 } with
    | error e =>
      cases solveStep sv N (unitsCfg q cfg) (inUnits N s f) { st' with dirC := y.1, obj := unitsObj s y.2 } with
      | error e' => exact fun k => k
      | ok x => exact fun k => k.elim
    | ok z =>
      cases solveStep sv N (unitsCfg q cfg) (inUnits N s f) { st' with dirC := y.1, obj := unitsObj s y.2 } with
      | error e' => exact fun k => k.elim
      | ok x =>
        intro k
        obtain ⟨k1, k2⟩ := k
        simp only [k2]
        exact retryLoop_units hs q fuel k1 z.2

theorem fracLoop_units (hs : Units N s) (q : ℝ) (fuel : ℕ) : ∀ (l : List ℝ) {st st' : ContSt} (_ : SameRun N s st st'),
    SameResult N s (fracLoop sv N cfg f fuel l st) (fracLoop sv N (unitsCfg q cfg) (inUnits N s f) fuel l st')
  | [], _, _, _ => rfl
  | b :: rest, st, st', H => by
    unfold fracLoop
    have k := tryFrac_units (sv := sv) (f := f) (cfg := cfg) hs q fuel b H
    revert k
    cases tryFrac sv N cfg f fuel b st with
    | error e =>
      cases tryFrac sv N (unitsCfg q cfg) (inUnits N s f) fuel b st' with
      | error e' => exact fun k => k
      | ok x => exact fun k => k.elim
    | ok y =>
      cases tryFrac sv N (unitsCfg q cfg) (inUnits N s f) fuel b st' with
      | error e' => exact fun k => k.elim
      | ok x =>
        intro k
        obtain ⟨k1, k2⟩ := k
        simp only [k2]
        split
        · exact ⟨k1, k2⟩
        · cases rest with
          | nil => exact ⟨k1, k2⟩
          | cons b' rest' => exact fracLoop_units hs q fuel (b' :: rest') k1

theorem contCond_units (hs : Units N s) (lam0 lam1 : ℝ) {st st' : ContSt} (H : SameRun N s st st') :
    contCond N (unitsCfg (s N) cfg) (s N * lam0) (s N * lam1) st' ↔ contCond N cfg lam0 lam1 st := by
  have hN := hs.pos N
  have lt : ∀ d x y : ℝ, d * (s N * x) < d * (s N * y) ↔ d * x < d * y := fun d x y => by
    rw [mul_left_comm, mul_left_comm d, mul_lt_mul_iff_right₀ hN]
  have hsg : signOf (s N * lam1 - s N * lam0) = signOf (lam1 - lam0) := by rw [← mul_sub, signOf_scale hN]
  unfold contCond
  simp only [hsg, H.rows, H.step, lt]
  refine and_congr_right fun _ => and_congr_right fun _ => ?_
  cases hb : cfg.backtrackStop with
  | none => simp [unitsCfg, hb]
  | some w =>
    simp only [unitsCfg, hb, Option.map_some]
    rw [show s N * lam0 - signOf (lam1 - lam0) * (s N * w) = s N * (lam0 - signOf (lam1 - lam0) * w) by ring, lt]

theorem recondition_units (hs : Units N s) (q : ℝ) (C0 : ℕ → ℝ) {st st' : ContSt} (H : SameRun N s st st') :
    SameRun N s (recondition cfg C0 st) (recondition (unitsCfg q cfg) (fun i => s i * C0 i) st') := by
  have hd : (unitsCfg q cfg).dynamicCtoP = cfg.dynamicCtoP := rfl
  unfold recondition
  rw [hd]
  cases cfg.dynamicCtoP with
  | false => exact H
  | true =>
    refine ⟨?_, H.step, H.rows, H.X0, H.prev, H.dirC, H.ds, H.ok, H.calls, H.cb, H.log⟩
    simp only [if_true, H.obj, H.rows, H.step, unitsObj]
    congr 1
    funext i
    rw [abs_mul, abs_of_pos (hs.pos i), mul_max_of_nonneg _ _ (hs.pos i).le]

theorem storeStep_units (q : ℝ) {st st' : ContSt} (H : SameRun N s st st') (r : SolOut) :
    SameRun N s (storeStep cfg st r) (storeStep (unitsCfg q cfg) st' r) := by
  have e : (fun i => st'.obj.CtoP i * r.X i) = fun i => s i * (st.obj.CtoP i * r.X i) := by
    funext i; rw [H.obj]; exact mul_assoc _ _ _
  refine ⟨H.obj, ?_, ?_, ?_, ⟨1, one_pos, fun i => ?_⟩, H.dirC, ?_, rfl, H.calls, ?_, H.log⟩
  · show st'.step + 1 = st.step + 1
    rw [H.step]
  · funext k
    show (if k = st'.step then _ else st'.rows k) = fun i => s i * (if k = st.step then _ else st.rows k) i
    rw [e, H.step, H.rows]
    split <;> rfl
  · exact e
  · show s i * (st.obj.CtoP i * r.X i) - st'.X0 i = s i * (1 * (st.obj.CtoP i * r.X i - st.X0 i))
    rw [H.X0]; ring
  · show min (max (st'.ds * min _ _) _) _ = min (max (st.ds * min _ _) _) _
    rw [H.ds]; rfl
  · show (if cfg.callback then st'.cb ++ _ else st'.cb) = List.map _ (if cfg.callback then st.cb ++ _ else st.cb)
    rw [H.cb, e, H.dirC, H.obj]
    split
    · rw [List.map_append, List.map_singleton]
      congr 2
      unfold unitsCb
      simp only [Option.map_some, unitsObj, CbCall.mk.injEq, true_and, Option.some.injEq]
      funext i; ring
    · rfl

/-- Two ends of the main loop correspond. -/
def SameEnd (N : ℕ) (s : ℕ → ℝ) : Except Fail ContSt → Except Fail ContSt → Prop
  | .ok r, .ok r' => SameRun N s r r'
  | .error e, .error e' => e' = e
  | _, _ => False

theorem contLoop_units (hs : Units N s) (silent : Bool) (lam0 lam1 : ℝ) (C0 : ℕ → ℝ) (fuel' : ℕ) : ∀ (fuel : ℕ) {st st' : ContSt} (_ : SameRun N s st st'),
    SameEnd N s (contLoop sv N cfg f silent lam0 lam1 C0 fuel' fuel st)
      (contLoop sv N (unitsCfg (s N) cfg) (inUnits N s f) silent (s N * lam0) (s N * lam1) (fun i => s i * C0 i) fuel' fuel st')
  | 0, _, _, _ => rfl
  | fuel + 1, st, st', H => by
    unfold contLoop
    by_cases hc : contCond N cfg lam0 lam1 st
    · rw [if_pos hc, if_pos ((contCond_units hs lam0 lam1 H).2 hc)]
      have hfl : (unitsCfg (s N) cfg).fracLamList = cfg.fracLamList := rfl
      rw [hfl]
      have k := fracLoop_units (sv := sv) (f := f) (cfg := cfg) hs (s N) fuel' cfg.fracLamList (recondition_units (cfg := cfg) hs (s N) C0 H)
      revert k
      cases fracLoop sv N cfg f fuel' cfg.fracLamList (recondition cfg C0 st) with
      | error e =>
        cases fracLoop sv N (unitsCfg (s N) cfg) (inUnits N s f) fuel' cfg.fracLamList (recondition (unitsCfg (s N) cfg) (fun i => s i * C0 i) st') with
        | error e' => exact fun k => k
        | ok x => exact fun k => k.elim
      | ok y =>
        cases fracLoop sv N (unitsCfg (s N) cfg) (inUnits N s f) fuel' cfg.fracLamList (recondition (unitsCfg (s N) cfg) (fun i => s i * C0 i) st') with
        | error e' => exact fun k => k.elim
        | ok x =>
          intro k
          obtain ⟨k1, k2⟩ := k
          simp only [k2]
          split
          · exact ⟨k1.obj, k1.step, k1.rows, k1.X0, k1.prev, k1.dirC, k1.ds, rfl, k1.calls, k1.cb, k1.log⟩
          · split
            · rfl
            · exact contLoop_units hs silent lam0 lam1 C0 fuel' fuel (storeStep_units (s N) k1 y.2)
    · rw [if_neg hc, if_neg fun h => hc ((contCond_units hs lam0 lam1 H).1 h)]
      exact H

theorem contFinish_units (hs : Units N s) (q : ℝ) {st st' : ContSt} (H : SameRun N s st st') :
    contFinish sv N (unitsCfg q cfg) (inUnits N s f) st' = (contFinish sv N cfg f st).map (unitsRes s) := by
  obtain ⟨p, hp, hX⟩ := H.prev
  have k := predict_units (sv := sv) (f := f) hs cfg.dynamicCtoP st.obj (dp := st.dirC) hp hX
  have hc : (unitsCfg q cfg).callback = cfg.callback := rfl
  have hd : (unitsCfg q cfg).dynamicCtoP = cfg.dynamicCtoP := rfl
  unfold contFinish
  rw [hc, hd, H.obj, H.X0, H.dirC, k, H.ok, H.cb, H.rows, H.step, H.log]
  have e : ∀ (d C : ℕ → ℝ), (fun i => d i * (s i * C i)) = fun i => s i * (d i * C i) := fun d C => by funext i; ring
  cases cfg.callback with
  | false => rfl
  | true =>
    simp only [if_true]
    split
    · simp only [Except.map, unitsRes, List.map_append, List.map_cons, List.map_nil, unitsCb, unitsObj, Option.map_some, Option.map_none, e]
    · cases predict sv N cfg.dynamicCtoP st.obj f st.X0 st.Xprev st.dirC with
      | error e => rfl
      | ok y =>
        simp only [Except.map, unitsRes, List.map_append, List.map_cons, List.map_nil, unitsCb, unitsObj, Option.map_some, Option.map_none, e]

/-- C121: a continuation with a given scaling vector does not depend on the units: in other units it makes the same run, with
the same errors, and returns the same points and callbacks in the other units, whatever the solvers do. -/
theorem C121_units (hs : Units N s) (obj : ContObj) (hobj : obj.setCtoPto1 = false) (X00 : ℕ → ℝ) (lam0 lam1 : ℝ) (fuel : ℕ) :
    continuation sv N (unitsCfg (s N) cfg) (unitsObj s obj) (inUnits N s f) (fun i => s i * X00 i) (s N * lam0) (s N * lam1) fuel
      = (continuation sv N cfg obj f X00 lam0 lam1 fuel).map (unitsRes s) := by
  have hp : contPrepare (unitsObj s obj) = unitsObj s (contPrepare obj) := by
    unfold contPrepare unitsObj
    simp only [hobj, Bool.false_eq_true, if_false]
  have hC : (unitsObj s (contPrepare obj)).CtoP = fun i => s i * (contPrepare obj).CtoP i := rfl
  have hR : (unitsObj s (contPrepare obj)).RPtoC = (contPrepare obj).RPtoC := rfl
  have e1 : (fun i => s i * X00 i / (s i * (contPrepare obj).CtoP i)) = fun i => X00 i / (contPrepare obj).CtoP i := by
    funext i; rw [mul_div_mul_left _ _ (hs.pos i).ne']
  unfold continuation
  simp only [hp, hC, hR, initialFun_units hs, e1]
  have hv : (unitsObj s obj).verbose = obj.verbose := rfl
  have hm : (unitsCfg (s N) cfg).maxSteps = cfg.maxSteps := rfl
  rw [hv, hm]
  cases sv.nsolve N 0 (initialFun N f lam0 (contPrepare obj).CtoP (contPrepare obj).RPtoC) (fun i => X00 i / (contPrepare obj).CtoP i) with
  | error e => rfl
  | ok r =>
    simp only
    split
    · rfl
    · split
      · rfl
      · have row : ∀ l : ℝ, snocLam N (fun i => r.X i * (s i * (contPrepare obj).CtoP i)) (s N * l)
            = fun i => s i * snocLam N (fun i => r.X i * (contPrepare obj).CtoP i) l i := fun l => by
          funext i
          unfold snocLam
          split_ifs with h
          · ring
          · rw [hs.tail i (by omega)]
        have hsg : signOf (s N * lam1 - s N * lam0) = signOf (lam1 - lam0) := by rw [← mul_sub, signOf_scale (hs.pos N)]
        have H : SameRun N s (contStart N cfg lam0 lam1 (contPrepare obj) r)
            (contStart N (unitsCfg (s N) cfg) (s N * lam0) (s N * lam1) (unitsObj s (contPrepare obj)) r) := by
          refine ⟨rfl, rfl, ?_, ?_, ⟨1 / s N, by have := hs.pos N; positivity, fun i => ?_⟩, ?_, rfl, rfl, rfl, ?_, rfl⟩
          · funext k
            show (if k = 0 then snocLam N _ _ else _) = fun i => s i * (if k = 0 then snocLam N _ _ else _) i
            rw [hC, row]
            split
            · rfl
            · funext i; exact (mul_zero _).symm
          · exact row lam0
          · simp only [contStart, hsg, hC]
            unfold snocLam
            split_ifs with h
            · ring
            · rw [hs.tail i (by omega)]
              have := (hs.pos N).ne'
              field_simp
              ring
          · funext i
            show snocLam N _ (s N * lam0) i - snocLam N _ (s N * lam0 - signOf (s N * lam1 - s N * lam0)) i
              = snocLam N _ lam0 i - snocLam N _ (lam0 - signOf (lam1 - lam0)) i
            rw [hsg]
            unfold snocLam
            split_ifs <;> ring
          · show (if cfg.callback then _ else _) = List.map _ (if cfg.callback then _ else _)
            split
            · simp only [List.map_cons, List.map_nil, unitsCb, Option.map_some, Option.map_none, hC, row]
            · rfl
        have k := contLoop_units (sv := sv) (f := f) (cfg := cfg) hs (decide (obj.verbose < 0)) lam0 lam1 (contPrepare obj).CtoP fuel fuel H
        revert k
        cases contLoop sv N cfg f (decide (obj.verbose < 0)) lam0 lam1 (contPrepare obj).CtoP fuel fuel (contStart N cfg lam0 lam1 (contPrepare obj) r) with
        | error e =>
          cases contLoop sv N (unitsCfg (s N) cfg) (inUnits N s f) (decide (obj.verbose < 0)) (s N * lam0) (s N * lam1)
              (fun i => s i * (contPrepare obj).CtoP i) fuel fuel
              (contStart N (unitsCfg (s N) cfg) (s N * lam0) (s N * lam1) (unitsObj s (contPrepare obj)) r) with
          | error e' => intro k; cases k; rfl
          | ok x => exact fun k => k.elim
        | ok y =>
          cases contLoop sv N (unitsCfg (s N) cfg) (inUnits N s f) (decide (obj.verbose < 0)) (s N * lam0) (s N * lam1)
              (fun i => s i * (contPrepare obj).CtoP i) fuel fuel
              (contStart N (unitsCfg (s N) cfg) (s N * lam0) (s N * lam1) (unitsObj s (contPrepare obj)) r) with
          | error e' => exact fun k => k.elim
          | ok x => intro k; exact contFinish_units hs (s N) k

/-- C121: in particular a run that returns a branch returns it in the other units, with the same number of points. -/
theorem C121_branch (hs : Units N s) (obj : ContObj) (hobj : obj.setCtoPto1 = false) {X00 : ℕ → ℝ} {lam0 lam1 : ℝ} {fuel : ℕ} {res : ContRes}
    (h : continuation sv N cfg obj f X00 lam0 lam1 fuel = .ok res) :
    ∃ res', continuation sv N (unitsCfg (s N) cfg) (unitsObj s obj) (inUnits N s f) (fun i => s i * X00 i) (s N * lam0) (s N * lam1) fuel = .ok res' ∧
      res'.n = res.n ∧ res'.log = res.log ∧ res'.cb.length = res.cb.length ∧ ∀ k i, res'.rows k i = s i * res.rows k i := by
  refine ⟨unitsRes s res, ?_, rfl, rfl, by simp [unitsRes], fun _ _ => rfl⟩
  rw [C121_units hs obj hobj, h]
  rfl

/-- Metres to millimetres for the unknown and Hz to kHz for the parameter: a residual `X² - λ` in the new units. -/
example : Units 1 (fun i => if i = 0 then 1000 else 1/1000) ∧
    inUnits 1 (fun i => if i = 0 then 1000 else 1/1000) (fun X _ => .ok ⟨fun _ => X 0 ^ 2 - X 1, fun _ _ => 2 * X 0, fun _ => -1⟩) (fun i => if i = 0 then 5000 else 1/40) true
      = .ok ⟨fun _ => 0, fun _ j => if j = 0 then 1/100 else 10000, fun _ => -1000⟩ := by
  refine ⟨⟨fun i => ?_, fun i hi => ?_⟩, ?_⟩
  · beta_reduce; split <;> norm_num
  · simp only [show i ≠ 0 by omega, if_false, one_ne_zero]
  · unfold inUnits
    simp only [Except.ok.injEq, ContOut.mk.injEq]
    refine ⟨?_, ?_, ?_⟩
    · funext i; norm_num
    · funext i j
      by_cases hj : j = 0 <;> simp only [hj, if_true, if_false] <;> norm_num
    · funext i; norm_num

end

end TMD
