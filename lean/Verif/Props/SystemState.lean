import Verif.Props.SystemForces
import Verif.Props.ElasticDryFriction
import Verif.Lemmas.Iwan
import Mathlib.Tactic.IntervalCases

/-!
# C134: what the calls of a system leave in its force objects
-/

namespace TMD

open Spec

noncomputable section

/-! ## Lists of objects -/

theorem forAll_run {f : FObj → Except Err FObj} {os os' : List FObj} (h : forAll f os = (none, os')) : List.Forall₂ (fun o o' => f o = .ok o') os os' := by
  induction os generalizing os' with
  | nil => cases h; exact .nil
  | cons o os ih =>
    unfold forAll at h
    cases hf : f o with
    | error e => rw [hf] at h; cases h
    | ok o' =>
      rw [hf] at h
      simp only [Prod.mk.injEq] at h
      obtain ⟨h1, rfl⟩ := h
      exact .cons hf (ih (by rw [← h1]))

/-- A property of objects that a call keeps, whether it raises or not. -/
theorem forAll_keep {f : FObj → Except Err FObj} {P : FObj → Prop} (h : ∀ o o', P o → f o = .ok o' → P o') {os : List FObj} (hos : ∀ o ∈ os, P o) :
    ∀ o ∈ (forAll f os).2, P o := by
  induction os with
  | nil => exact hos
  | cons o os ih =>
    unfold forAll
    cases hf : f o with
    | error e => exact hos
    | ok o' =>
      intro x hx
      rcases List.mem_cons.1 hx with rfl | hx
      · exact h o x (hos o (List.mem_cons_self ..)) hf
      · exact ih (fun y hy => hos y (List.mem_cons_of_mem _ hy)) x hx

theorem forAll_gain {f : FObj → Except Err FObj} {P : FObj → Prop} (h : ∀ o o', f o = .ok o' → P o') {os os' : List FObj} (hf : forAll f os = (none, os')) :
    ∀ o ∈ os', P o := by
  have := forAll_run hf
  clear hf
  induction this with
  | nil => simp
  | cons h1 _ ih =>
    intro x hx
    rcases List.mem_cons.1 hx with rfl | hx
    · exact h _ _ h1
    · exact ih x hx

/-! ## Where friction is measured from -/

/-- The stored displacement of the elastic dry friction elements is `U`. -/
def FObj.RestsAt (U : ℕ → ℝ) : FObj → Prop
  | .edf2 q o _ => ∀ e, o.up e = q.loc U (2 * e)
  | .edf3 q o _ => ∀ d, d % 3 ≠ 2 → o.up (2 * (d / 3) + d % 3) = q.loc U d
  | _ => True

/-- Calls which neither store a displacement nor restart the history. -/
def SysOp.keepsHistory : SysOp → Bool
  | .initForceHistory => false
  | .updateForceHistory _ => false
  | _ => true

theorem rests_call (p : AftPars) {U : ℕ → ℝ} {op : SysOp} (hop : op.keepsHistory = true) {os : List FObj} (hos : ∀ o ∈ os, o.RestsAt U) :
    ∀ o ∈ (sysCall p op os).2, o.RestsAt U := by
  cases op with
  | initForceHistory => cases hop
  | updateForceHistory U => cases hop
  | setPrestressMu =>
    refine forAll_keep (fun o o' h1 h2 => ?_) hos
    cases o <;> simp only [FObj.setPrestressMu, Except.ok.injEq, reduceCtorEq] at h2 <;> subst h2 <;> exact h1
  | resetRealMu =>
    refine forAll_keep (fun o o' h1 h2 => ?_) hos
    cases o <;> simp only [FObj.resetRealMu, Except.ok.injEq] at h2 <;> subst h2 <;> exact h1
  | setAftInitialize U' =>
    refine forAll_keep (fun o o' h1 h2 => ?_) hos
    cases o <;> simp only [FObj.setAftInitialize, Except.ok.injEq] at h2 <;> subst h2 <;> exact h1
  | staticRes U' => rw [C86_static]; exact hos
  | totalAft Ut U0 =>
    refine forAll_keep (fun o o' h1 h2 => ?_) hos
    cases o with
    | jenkins j => cases Ut <;> simp only [FObj.aft, Except.ok.injEq, reduceCtorEq] at h2; rw [← h2]; trivial
    | iwan q w s => cases Ut <;> simp only [FObj.aft, Except.ok.injEq, reduceCtorEq] at h2; rw [← h2]; trivial
    | _ => simp only [FObj.aft, Except.ok.injEq] at h2; subst h2; exact h1

theorem rests_run (p : AftPars) {U : ℕ → ℝ} (ops : List SysOp) (hop : ∀ op ∈ ops, op.keepsHistory = true) {os : List FObj} (hos : ∀ o ∈ os, o.RestsAt U) :
    ∀ o ∈ sysRun p os ops, o.RestsAt U := by
  induction ops generalizing os with
  | nil => exact hos
  | cons op ops ih =>
    exact ih (fun x hx => hop x (List.mem_cons_of_mem _ hx)) (rests_call p (hop op (List.mem_cons_self ..)) hos)

theorem rests_update (p : AftPars) {U : ℕ → ℝ} {os os' : List FObj} (h : sysCall p (.updateForceHistory U) os = (none, os')) : ∀ o ∈ os', o.RestsAt U := by
  refine forAll_gain (fun o o' ho => ?_) h
  cases o with
  | edf2 q o u =>
    simp only [FObj.forceType, if_true, FObj.force, Except.ok.injEq] at ho
    subst ho
    intro e
    rfl
  | edf3 q o u =>
    simp only [FObj.forceType, if_true, FObj.force, Except.ok.injEq] at ho
    subst ho
    intro d hd
    show q.loc U (3 * ((2 * (d / 3) + d % 3) / 2) + (2 * (d / 3) + d % 3) % 2) = q.loc U d
    congr 1
    omega
  | inst f => simp [FObj.forceType] at ho; subst ho; trivial
  | jaxVector a b => simp [FObj.forceType] at ho; subst ho; trivial
  | jaxJenkins j => simp [FObj.forceType, FObj.force] at ho
  | jenkins j =>
    simp only [FObj.forceType, if_true, FObj.force] at ho
    cases hj : j.force U true with
    | error e => rw [hj] at ho; cases ho
    | ok r => rw [hj] at ho; cases ho; trivial
  | iwan q w s => simp only [FObj.forceType, if_true, FObj.force, Except.ok.injEq] at ho; subst ho; trivial
  | rough q m g o u => simp only [FObj.forceType, if_true, FObj.force, Except.ok.injEq] at ho; subst ho; trivial

theorem edf3Static_tan (unl up fp : ℕ → ℝ) (kt kn mu gap : ℝ) {d : ℕ} (hd : d % 3 ≠ 2) : edf3Static unl up fp kt kn mu gap d
    = clip (mu * edfNormal kn gap (unl (edf3Normal d))) (kt * (unl d - up (2 * (d / 3) + d % 3))) := by
  simp only [edf3Static, if_pos hd]
  rw [← where_clip]
  simp only [neg_mul]

/-- Force of an elastic spring with stiffness `kt` that has moved from `a` to `b`, limited by friction `mu` times the pressure of a spring `kn`
with displacement `n` across a gap. -/
def springSlip (kt kn mu gap n a b : ℝ) : ℝ := clip (mu * max ((n - gap) * kn) 0) (kt * (b - a))

/-- C134: after any calls and a successful `update_force_history(U)`, and until the history is stored or restarted again, an elastic dry friction
element in the system answers to displacements `V` with a spring which was relaxed at `U`, in each tangential direction, limited by the friction
of the present pressure. -/
theorem C134_friction (p : AftPars) (os : List FObj) (ops ops' : List SysOp) (U : ℕ → ℝ) (os' : List FObj)
    (h : sysCall p (.updateForceHistory U) (sysRun p os ops) = (none, os')) (hops : ∀ op ∈ ops', op.keepsHistory = true) (V : ℕ → ℝ) (upd : Bool) :
    (∀ q o u0, .edf2 q o u0 ∈ sysRun p os' ops' → ∃ (F : ℕ → ℝ) (x : FObj), FObj.force (.edf2 q o u0) V upd = .ok (q.glob fun d => some (F d), x) ∧
      ∀ e, F (2 * e) = springSlip o.kt o.kn o.mu o.gap (q.loc V (2 * e + 1)) (q.loc U (2 * e)) (q.loc V (2 * e))) ∧
    ∀ q o u0, .edf3 q o u0 ∈ sysRun p os' ops' → ∃ (F : ℕ → ℝ) (x : FObj), FObj.force (.edf3 q o u0) V upd = .ok (q.glob fun d => some (F d), x) ∧
      ∀ e, ∀ c < 2, F (3 * e + c) = springSlip o.kt o.kn o.mu o.gap (q.loc V (3 * e + 2)) (q.loc U (3 * e + c)) (q.loc V (3 * e + c)) := by
  have hr := rests_run p ops' hops (rests_update p h)
  refine ⟨fun q o u0 hm => ⟨_, _, rfl, fun e => ?_⟩, fun q o u0 hm => ⟨_, _, rfl, fun e c hc => ?_⟩⟩
  · have h1 := hr _ hm e
    show edf2Static (q.loc V) o.up o.fp o.kt o.kn o.mu o.gap (2 * e) = _
    rw [edf2Static_tan, h1]
    rfl
  · have hd : (3 * e + c) % 3 ≠ 2 := by omega
    have h1 := hr _ hm (3 * e + c) hd
    show edf3Static (q.loc V) o.up o.fp o.kt o.kn o.mu o.gap (3 * e + c) = _
    rw [edf3Static_tan _ _ _ _ _ _ _ hd, h1, show edf3Normal (3 * e + c) = 3 * e + 2 by unfold edf3Normal; split <;> omega]
    rfl

/-! ## Where AFT starts from -/

/-- The AFT start of the object is the displacement `U`. -/
def FObj.StartsAt (U : ℕ → ℝ) : FObj → Prop
  | .edf2 q _ u0 => ∀ v e, edf2AftU0 u0 v e = q.loc U (2 * e)
  | .edf3 q _ u0 => ∀ v e, ∀ c < 2, edf3AftU0 u0 v (2 * e + c) = q.loc U (3 * e + c)
  | .rough q _ _ _ u0 => u0 = q.loc U
  | _ => True

/-- Calls other than `set_aft_initialize`. -/
def SysOp.keepsStart : SysOp → Bool
  | .setAftInitialize _ => false
  | _ => true

theorem starts_call (p : AftPars) {U : ℕ → ℝ} {op : SysOp} (hop : op.keepsStart = true) {os : List FObj} (hos : ∀ o ∈ os, o.StartsAt U) :
    ∀ o ∈ (sysCall p op os).2, o.StartsAt U := by
  have hforce : ∀ (o o' : FObj) F (X : ℕ → ℝ) (b : Bool), o.StartsAt U → o.force X b = .ok (F, o') → o'.StartsAt U := fun o o' F X b h1 h => by
    cases o with
    | jenkins j =>
      simp only [FObj.force] at h
      cases hj : j.force X b with
      | error e => rw [hj] at h; cases h
      | ok r => rw [hj] at h; cases h; trivial
    | inst f => cases b <;> simp [FObj.force] at h; rw [← h.2]; trivial
    | jaxJenkins f => cases b <;> simp [FObj.force] at h; rw [← h.2]; trivial
    | jaxVector f => cases b <;> simp [FObj.force] at h; rw [← h.2]; trivial
    | iwan q w s => simp only [FObj.force, Except.ok.injEq, Prod.mk.injEq] at h; rw [← h.2]; trivial
    | edf2 q o u => simp only [FObj.force, Except.ok.injEq, Prod.mk.injEq] at h; rw [← h.2]; exact h1
    | edf3 q o u => simp only [FObj.force, Except.ok.injEq, Prod.mk.injEq] at h; rw [← h.2]; exact h1
    | rough q m g o u => simp only [FObj.force, Except.ok.injEq, Prod.mk.injEq] at h; rw [← h.2]; exact h1
  cases op with
  | setAftInitialize U => cases hop
  | initForceHistory =>
    refine forAll_keep (fun o o' h1 h2 => ?_) hos
    split at h2
    · cases o <;> simp only [FObj.initHistory, Except.ok.injEq, reduceCtorEq] at h2 <;> subst h2 <;> exact h1
    · cases h2; exact h1
  | updateForceHistory V =>
    refine forAll_keep (fun o o' h1 h2 => ?_) hos
    split at h2
    · cases hf : o.force V true with
      | error e => rw [hf] at h2; cases h2
      | ok r => rw [hf] at h2; cases h2; exact hforce o r.2 r.1 V true h1 hf
    · cases h2; exact h1
  | setPrestressMu =>
    refine forAll_keep (fun o o' h1 h2 => ?_) hos
    cases o <;> simp only [FObj.setPrestressMu, Except.ok.injEq, reduceCtorEq] at h2 <;> subst h2 <;> exact h1
  | resetRealMu =>
    refine forAll_keep (fun o o' h1 h2 => ?_) hos
    cases o <;> simp only [FObj.resetRealMu, Except.ok.injEq] at h2 <;> subst h2 <;> exact h1
  | staticRes U' => rw [C86_static]; exact hos
  | totalAft Ut U0 =>
    refine forAll_keep (fun o o' h1 h2 => ?_) hos
    cases o with
    | jenkins j => cases Ut <;> simp only [FObj.aft, Except.ok.injEq, reduceCtorEq] at h2; rw [← h2]; trivial
    | iwan q w s => cases Ut <;> simp only [FObj.aft, Except.ok.injEq, reduceCtorEq] at h2; rw [← h2]; trivial
    | _ => simp only [FObj.aft, Except.ok.injEq] at h2; subst h2; exact h1

/-- C134: after any calls, `set_aft_initialize(U)`, and any calls but another `set_aft_initialize`, AFT of all elastic dry friction and rough contact
elements starts from the local displacements of `U`, in each tangential direction, whatever the mean of the motion. -/
theorem C134_start (p : AftPars) (os : List FObj) (ops ops' : List SysOp) (U : ℕ → ℝ) (hops : ∀ op ∈ ops', op.keepsStart = true) :
    ∀ o ∈ sysRun p (sysCall p (.setAftInitialize U) (sysRun p os ops)).2 ops', o.StartsAt U := by
  have h0 : ∀ o ∈ (sysCall p (.setAftInitialize U) (sysRun p os ops)).2, o.StartsAt U := by
    refine forAll_gain (f := fun o => .ok (o.setAftInitialize U)) (os := sysRun p os ops) (fun o o' ho => ?_) ?_
    · cases ho
      cases o with
      | edf2 q o u => intro v e; rfl
      | edf3 q o u =>
        intro v e c hc
        show q.loc U (3 * ((2 * e + c) / 2) + (2 * e + c) % 2) = _
        congr 1
        omega
      | rough q m g o u => rfl
      | _ => trivial
    · show _ = (none, (forAll _ _).2)
      rw [forAll_ok]
  generalize (sysCall p (.setAftInitialize U) (sysRun p os ops)).2 = os1 at *
  induction ops' generalizing os1 with
  | nil => exact h0
  | cons op ops ih => exact ih (fun x hx => hops x (List.mem_cons_of_mem _ hx)) _ (starts_call p (hops op (List.mem_cons_self ..)) h0)

/-! ## What AFT leaves behind -/

theorem onePass_snoc {σ ι : Type} (m : HystOps σ ι) (rows : List (ℝ × (ι → ℝ))) (u : ℝ) (c : ι → ℝ) (s : σ) :
    onePass m s (rows ++ [(u, c)]) = ((m.step (onePass m s rows).1 u c).1, (onePass m s rows).2 ++ [((m.step (onePass m s rows).1 u c).2.1, (m.step (onePass m s rows).1 u c).2.2)]) := by
  induction rows generalizing s with
  | nil => rfl
  | cons r rows ih =>
    obtain ⟨v, d⟩ := r
    simp only [List.cons_append, onePass, ih]

/-- The state at the end of the loop is the one after the last instant, whose force is the last of the series. -/
theorem hystLoop_last {σ ι : Type} (m : HystOps σ ι) (rows : List (ℝ × (ι → ℝ))) (u : ℝ) (c : ι → ℝ) (mr : ℕ) (atol rtol eps : ℝ) (s : LoopSt σ ι)
    (hs : s.its = 0) : ∃ s0, (hystLoop m (rows ++ [(u, c)]) mr atol rtol eps s).obj = (m.step s0 u c).1 ∧
      lastForce (hystLoop m (rows ++ [(u, c)]) mr atol rtol eps s).ft = (m.step s0 u c).2.1 := by
  obtain ⟨h1, h2⟩ := hystLoop_inv m (rows ++ [(u, c)]) mr atol rtol eps
    (fun s => s.its = 0 ∨ ∃ s0, s.obj = (m.step s0 u c).1 ∧ lastForce s.ft = (m.step s0 u c).2.1) (fun s _ _ => Or.inr ⟨(onePass m s.obj rows).1, by
      simp only [loopBody, onePass_snoc], by
      simp only [loopBody, onePass_snoc, lastForce]
      simp⟩) s (Or.inl hs)
  rcases h1 with h1 | h1
  · exact absurd (Or.inl h1) h2
  · exact h1

theorem history_of_ne {σ ι : Type} (m : HystOps σ ι) {rows : List (ℝ × (ι → ℝ))} (h : rows ≠ []) (u0 : ℝ) (mr : ℕ) (atol rtol eps : ℝ) :
    localForceHistory m rows u0 mr atol rtol eps
      = .ok ((hystLoop m rows mr atol rtol eps { its := 0, obj := m.init u0, ft := [], fp := .val (m.fp (m.init u0)), aGt := False, rGt := False }).ft,
        (hystLoop m rows mr atol rtol eps { its := 0, obj := m.init u0, ft := [], fp := .val (m.fp (m.init u0)), aGt := False, rGt := False }).its) := by
  cases rows with
  | nil => exact absurd rfl h
  | cons r rows => rfl

/-- What `aft` over a period with last displacement `X` makes of an object: NumPy Jenkins and Iwan elements are left in the state of the end of the
period, in which the force at `X` is the last force of the period; other objects are unchanged. -/
def FObj.AftLeaves (p : AftPars) (Ut : List (ℕ → ℝ)) (X U0 : ℕ → ℝ) : FObj → FObj → Prop
  | .jenkins j, o' => 0 ≤ j.Fs → ∃ (ft : List (ℝ × (Empty → ℝ))) (its : ℕ) (F : ℕ → Flt),
      localForceHistory (jenkinsOps j.kt j.Fs fun _ => 0) (Ut.map fun X => (vdot j.n j.Q X, fun _ => 0)) (vdot j.n j.Q U0) p.maxRepeats p.atol p.rtol p.eps = .ok (ft, its) ∧
      o'.force X false = .ok (F, o') ∧ ∀ i, F i = some (j.T i * lastForce ft)
  | .iwan q w _, o' => (∀ k ≤ w.nSliders, 0 ≤ w.phi k) → ∃ (ft : List (ℝ × (Empty → ℝ))) (its : ℕ),
      localForceHistory (iwanOps w fun _ => 0) (Ut.map fun X => (q.loc X 0, fun _ => 0)) (q.loc U0 0) p.maxRepeats p.atol p.rtol p.eps = .ok (ft, its) ∧
      o'.force X false = .ok (q.glob fun _ => some (lastForce ft), o')
  | o, o' => o' = o

/-- C134: a successful `total_aft` leaves each object as described. -/
theorem C134_aft (p : AftPars) (pre : List (ℕ → ℝ)) (X U0 : ℕ → ℝ) (os os' : List FObj) (h : sysCall p (.totalAft (pre ++ [X]) U0) os = (none, os')) :
    List.Forall₂ (FObj.AftLeaves p (pre ++ [X]) X U0) os os' := by
  refine (forAll_run h).imp fun o o' ho => ?_
  obtain ⟨Y, rest, hY⟩ : ∃ Y rest, pre ++ [X] = Y :: rest := by cases pre <;> exact ⟨_, _, rfl⟩
  cases o with
  | jenkins j =>
    intro hF
    simp only [FObj.aft, hY, Except.ok.injEq] at ho
    rw [← hY] at ho
    obtain ⟨s0, h1, h2⟩ := hystLoop_last (jenkinsOps j.kt j.Fs fun _ => 0 : HystOps (JHist Empty) Empty) (pre.map fun X => (vdot j.n j.Q X, fun _ => 0)) (vdot j.n j.Q X) (fun _ => 0)
      p.maxRepeats p.atol p.rtol p.eps { its := 0, obj := (jenkinsOps j.kt j.Fs fun _ => 0).init (vdot j.n j.Q U0), ft := [], fp := .val ((jenkinsOps j.kt j.Fs fun _ => 0 : HystOps (JHist Empty) Empty).fp ((jenkinsOps j.kt j.Fs fun _ => 0).init (vdot j.n j.Q U0))), aGt := False, rGt := False } rfl
    rw [show (pre.map fun X => (vdot j.n j.Q X, fun _ => 0) : List (ℝ × (Empty → ℝ))) ++ [(vdot j.n j.Q X, fun _ => 0)] = (pre ++ [X]).map fun X => (vdot j.n j.Q X, fun _ => 0) by simp] at h1 h2
    refine ⟨_, _, fun i => some (j.T i * _), history_of_ne _ (by simp) _ _ _ _ _, ?_, fun i => rfl⟩
    subst ho
    simp only [FObj.force, Jenkins.force, h1, Bool.false_eq_true, if_false]
    rw [h2]
    have e : ∀ a b, (jenkinsOps j.kt j.Fs fun _ => 0 : HystOps (JHist Empty) Empty).step s0 a b = jenkinsStep j.kt j.Fs s0 a b := fun _ _ => rfl
    simp only [e, jenkinsStep, jenkinsLocal_f hF, sub_self, mul_zero, zero_add, clip_of_le (clip_abs hF _)]
  | iwan q w s =>
    intro hphi
    simp only [FObj.aft, hY, Except.ok.injEq] at ho
    rw [← hY] at ho
    obtain ⟨s0, h1, h2⟩ := hystLoop_last (iwanOps w fun _ => 0 : HystOps (IHist Empty) Empty) (pre.map fun X => (q.loc X 0, fun _ => 0)) (q.loc X 0) (fun _ => 0)
      p.maxRepeats p.atol p.rtol p.eps { its := 0, obj := (iwanOps w fun _ => 0).init (q.loc U0 0), ft := [], fp := .val ((iwanOps w fun _ => 0 : HystOps (IHist Empty) Empty).fp ((iwanOps w fun _ => 0).init (q.loc U0 0))), aGt := False, rGt := False } rfl
    rw [show (pre.map fun X => (q.loc X 0, fun _ => 0) : List (ℝ × (Empty → ℝ))) ++ [(q.loc X 0, fun _ => 0)] = (pre ++ [X]).map fun X => (q.loc X 0, fun _ => 0) by simp] at h1 h2
    refine ⟨_, _, history_of_ne _ (by simp) _ _ _ _ _, ?_⟩
    subst ho
    simp only [FObj.force, h1, Bool.false_eq_true, if_false]
    rw [h2]
    have e : ∀ a b, (iwanOps w fun _ => 0 : HystOps (IHist Empty) Empty).step s0 a b = iwanStep w s0 a b := fun _ _ => rfl
    have e2 : (iwanInstant w (iwanStep w s0 (q.loc X 0) fun _ => 0).1.up (iwanStep w s0 (q.loc X 0) fun _ => 0).1.fps (q.loc X 0)).1 = (iwanStep w s0 (q.loc X 0) fun _ => 0).2.1 := by
      simp only [iwanStep, iwanInstant]
      refine Finset.sum_congr rfl fun k hk => ?_
      have hk' := hphi k (by have := Finset.mem_range.1 hk; omega)
      rw [sub_self, zero_add, iwanSlider_eq_clip hk', iwanSlider_eq_clip hk', clip_of_le (clip_abs hk' _)]
    simp only [e, e2]
  | _ => simp only [FObj.aft, Except.ok.injEq] at ho; exact ho.symm

/-- One node in three dimensions: pressed with 3 and stored at `(0, 1, 3)`, then moved to `(1, 5, 3)`. With `mu = 1/2` the force in the first
direction is that of the spring (1), in the second the friction limit (3/2). -/
example (p : AftPars) : let q : Maps := ⟨3, 3, fun i j => if i = j then 1 else 0, fun i j => if i = j then 1 else 0⟩
    let U : ℕ → ℝ := fun i => if i = 1 then 1 else if i = 2 then 3 else 0
    let V : ℕ → ℝ := fun i => if i = 0 then 1 else if i = 1 then 5 else 3
    ∀ os', sysCall p (.updateForceHistory U) (sysRun p [.edf3 q (Edf3.new 1 1 (1 / 2) 0) .none] [.initForceHistory]) = (none, os') →
      ∃ (F : ℕ → ℝ) (o : FObj) (x : FObj), o ∈ os' ∧ o.force V false = .ok (q.glob fun d => some (F d), x) ∧ F 0 = 1 ∧ F 1 = 3 / 2 := by
  intro q U V os' h
  obtain ⟨-, h3⟩ := C134_friction p _ _ [] U os' h (by simp) V false
  have hq : ∀ (W : ℕ → ℝ) i, i < 3 → q.loc W i = W i := fun W i hi => by
    simp only [Maps.loc, vdot, q]
    interval_cases i <;> simp
  have hos : os' = [.edf3 q { Edf3.new 1 1 (1 / 2) 0 with up := fun j => q.loc U (3 * (j / 2) + j % 2), fp := fun j =>
      (Edf3.force { Edf3.new 1 1 (1 / 2) 0 with up := fun _ => 0, fp := fun _ => 0 } (q.loc U) true).1 (3 * (j / 2) + j % 2) } .none] :=
    (Prod.mk.inj h).2.symm
  obtain ⟨F, x, h4, h5⟩ := h3 q _ .none (by rw [hos]; exact List.mem_singleton.2 rfl)
  refine ⟨F, _, x, by rw [hos]; exact List.mem_singleton.2 rfl, h4, ?_, ?_⟩
  · have := h5 0 0 (by norm_num)
    simp only [mul_zero, zero_add, hq _ 0 (by norm_num), hq _ 2 (by norm_num)] at this
    rw [this]
    simp [springSlip, Edf3.new, U, V, clip]
    norm_num
  · have := h5 0 1 (by norm_num)
    simp only [mul_zero, zero_add, hq _ 1 (by norm_num), hq _ 2 (by norm_num)] at this
    rw [this]
    simp [springSlip, Edf3.new, U, V, clip]
    norm_num

/-- The second statement on the same element: AFT starts from the static displacement in the second direction as well. -/
example (p : AftPars) (q : Maps) (U : ℕ → ℝ) : ∀ o ∈ (sysCall p (.setAftInitialize U) [.edf3 q (Edf3.new 1 1 (1 / 2) 0) .none]).2, o.StartsAt U :=
  C134_start p _ [] [] U (by simp)

/-- The third on an Iwan element moved once. -/
example (p : AftPars) (q : Maps) (w : Iwan) (hw : ∀ k ≤ w.nSliders, 0 ≤ w.phi k) (X U0 : ℕ → ℝ) :
    ∃ o' ft its, sysCall p (.totalAft [X] U0) [.iwan q w (0, fun _ => 0)] = (none, [o']) ∧
      localForceHistory (iwanOps w fun _ : Empty => 0) [(q.loc X 0, fun _ => 0)] (q.loc U0 0) p.maxRepeats p.atol p.rtol p.eps = .ok (ft, its) ∧
      o'.force X false = .ok (q.glob fun _ => some (lastForce ft), o') := by
  have h := C134_aft p [] X U0 [.iwan q w (0, fun _ => 0)] _ rfl
  obtain ⟨ft, its, h1, h2⟩ := (List.forall₂_cons.1 h).1 hw
  exact ⟨_, ft, its, rfl, h1, h2⟩

end

end TMD
