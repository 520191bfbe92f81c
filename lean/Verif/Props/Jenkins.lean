import Verif.Lemmas.Slider
import Mathlib.Tactic.FieldSimp
import Mathlib.Tactic.NormNum

/-!
# Properties C27 - C33, C35: the Jenkins slider and the hysteretic history loop
-/

namespace TMD

open Spec

noncomputable section

/-! ## C27 -/

theorem jenkins_step_keeps {j j' : Jenkins} {op : JOp} {o : JOut} (h : j.step op = .ok (o, j')) :
    j'.n = j.n ∧ j'.Q = j.Q ∧ j'.T = j.T ∧ j'.kt = j.kt ∧ j'.prestressFs = j.prestressFs ∧
      j'.realFs = j.realFs := by
  cases op with
  | setPrestressMu => simp only [Jenkins.step, Except.ok.injEq, Prod.mk.injEq] at h; rw [← h.2]; simp [Jenkins.setPrestressMu]
  | resetRealMu => simp only [Jenkins.step, Except.ok.injEq, Prod.mk.injEq] at h; rw [← h.2]; simp [Jenkins.resetRealMu]
  | initHistory => simp only [Jenkins.step, Except.ok.injEq, Prod.mk.injEq] at h; rw [← h.2]; simp [Jenkins.initHistory]
  | initHistoryHarmonic u => simp only [Jenkins.step, Except.ok.injEq, Prod.mk.injEq] at h; rw [← h.2]; simp [Jenkins.initHistoryHarmonic]
  | updateHistory u f => simp only [Jenkins.step, Except.ok.injEq, Prod.mk.injEq] at h; rw [← h.2]; simp [Jenkins.updateHistory]
  | force X b =>
    simp only [Jenkins.step, Jenkins.force] at h
    cases hh : j.hist with
    | none => rw [hh] at h; simp at h
    | some p =>
      rw [hh] at h
      simp only [Except.ok.injEq, Prod.mk.injEq] at h
      rw [← h.2]; split <;> simp [Jenkins.updateHistory]
  | instantForce u b =>
    simp only [Jenkins.step, Jenkins.instantForce] at h
    cases hh : j.hist with
    | none => rw [hh] at h; simp at h
    | some p =>
      rw [hh] at h
      simp only [Except.ok.injEq, Prod.mk.injEq] at h
      rw [← h.2]; split <;> simp

/-- The friction limit in force is the real one or the prestress one. -/
theorem jenkins_step_Fs {j j' : Jenkins} {op : JOp} {o : JOut} (h : j.step op = .ok (o, j'))
    (hj : j.Fs = j.realFs ∨ j.Fs = j.prestressFs) : j'.Fs = j'.realFs ∨ j'.Fs = j'.prestressFs := by
  cases op with
  | setPrestressMu => simp only [Jenkins.step, Except.ok.injEq, Prod.mk.injEq] at h; rw [← h.2]; right; rfl
  | resetRealMu => simp only [Jenkins.step, Except.ok.injEq, Prod.mk.injEq] at h; rw [← h.2]; left; rfl
  | initHistory => simp only [Jenkins.step, Except.ok.injEq, Prod.mk.injEq] at h; rw [← h.2]; exact hj
  | initHistoryHarmonic u => simp only [Jenkins.step, Except.ok.injEq, Prod.mk.injEq] at h; rw [← h.2]; exact hj
  | updateHistory u f => simp only [Jenkins.step, Except.ok.injEq, Prod.mk.injEq] at h; rw [← h.2]; exact hj
  | force X b =>
    simp only [Jenkins.step, Jenkins.force] at h
    cases hh : j.hist with
    | none => rw [hh] at h; simp at h
    | some p =>
      rw [hh] at h
      simp only [Except.ok.injEq, Prod.mk.injEq] at h
      rw [← h.2]; split <;> exact hj
  | instantForce u b =>
    simp only [Jenkins.step, Jenkins.instantForce] at h
    cases hh : j.hist with
    | none => rw [hh] at h; simp at h
    | some p =>
      rw [hh] at h
      simp only [Except.ok.injEq, Prod.mk.injEq] at h
      rw [← h.2]; split <;> exact hj

/-- Bound claimed for a returned value. -/
def JOut.Bounded (T : ℕ → ℝ) (Fs : ℝ) : JOut → Prop
  | .unit => True
  | .glob F _ => ∀ i, |F i| ≤ |T i| * Fs
  | .loc o => |o.f| ≤ Fs

theorem jenkins_step_bounded {j j' : Jenkins} {op : JOp} {o : JOut} (h : j.step op = .ok (o, j'))
    (hF : 0 ≤ j.Fs) : o.Bounded j.T j.Fs := by
  cases op with
  | force X b =>
    simp only [Jenkins.step, Jenkins.force] at h
    cases hh : j.hist with
    | none => rw [hh] at h; simp at h
    | some p =>
      rw [hh] at h
      simp only [Except.ok.injEq, Prod.mk.injEq] at h
      rw [← h.1]
      intro i
      rw [jenkinsLocal_f hF, abs_mul]
      exact mul_le_mul_of_nonneg_left (clip_abs hF _) (abs_nonneg _)
  | instantForce u b =>
    simp only [Jenkins.step, Jenkins.instantForce] at h
    cases hh : j.hist with
    | none => rw [hh] at h; simp at h
    | some p =>
      rw [hh] at h
      simp only [Except.ok.injEq, Prod.mk.injEq] at h
      rw [← h.1]
      show |(jenkinsLocal _ _ _ _ _).f| ≤ _
      rw [jenkinsLocal_f hF]
      exact clip_abs hF _
  | _ => simp only [Jenkins.step, Except.ok.injEq, Prod.mk.injEq] at h; rw [← h.1]; trivial

/-- C27: on a new Jenkins element, after any sequence of calls, every force ever returned is within
the friction limit `Fs` given to the constructor (globally: `|T| * Fs`). -/
theorem C27_force_within_limit (n : ℕ) (Q T : ℕ → ℝ) (kt Fs : ℝ) (hF : 0 ≤ Fs) (ops : List JOp)
    (outs : List (JOp × JOut)) (j' : Jenkins)
    (h : (Jenkins.new n Q T kt Fs).run ops = .ok (outs, j')) :
    (∀ op F dF, (op, JOut.glob F dF) ∈ outs → ∀ i, |F i| ≤ |T i| * Fs) ∧
    (∀ op o, (op, JOut.loc o) ∈ outs → |o.f| ≤ Fs) := by
  have key : ∀ (ops : List JOp) (j : Jenkins) outs j', j.T = T → j.realFs = Fs → j.prestressFs = 0 →
      (j.Fs = j.realFs ∨ j.Fs = j.prestressFs) → j.run ops = .ok (outs, j') →
      ∀ p ∈ outs, p.2.Bounded T Fs := by
    intro ops
    induction ops with
    | nil => intro j outs j' _ _ _ _ h; simp only [Jenkins.run, Except.ok.injEq, Prod.mk.injEq] at h; rw [← h.1]; simp
    | cons op ops ih =>
      intro j outs j' hT hR hP hFs h
      simp only [Jenkins.run] at h
      cases h1 : j.step op with
      | error e => rw [h1] at h; simp at h
      | ok r =>
        obtain ⟨o, j1⟩ := r
        rw [h1] at h
        simp only at h
        cases h2 : j1.run ops with
        | error e => rw [h2] at h; simp at h
        | ok r2 =>
          obtain ⟨os, j2⟩ := r2
          rw [h2] at h
          simp only [Except.ok.injEq, Prod.mk.injEq] at h
          obtain ⟨_, _, kT, _, kP, kR⟩ := jenkins_step_keeps h1
          have hle : 0 ≤ j.Fs ∧ j.Fs ≤ Fs := by
            rcases hFs with e | e
            · rw [e, hR]; exact ⟨hF, le_rfl⟩
            · rw [e, hP]; exact ⟨le_rfl, hF⟩
          intro p hp
          rw [← h.1] at hp
          rcases List.mem_cons.1 hp with rfl | hp
          · have := jenkins_step_bounded h1 hle.1
            rw [hT] at this
            cases o with
            | unit => trivial
            | glob F dF => intro i; exact (this i).trans (mul_le_mul_of_nonneg_left hle.2 (abs_nonneg _))
            | loc o => exact le_trans this hle.2
          · exact ih j1 os j2 (kT.trans hT) (kR.trans hR) (kP.trans hP) (jenkins_step_Fs h1 hFs) h2 p hp
  have := key ops (Jenkins.new n Q T kt Fs) outs j' rfl rfl rfl (Or.inl rfl) h
  exact ⟨fun op F dF hm => this _ hm, fun op o hm => this _ hm⟩

/-- C27: an initialised element always evaluates, and the local force is either the spring force
`kt*(u - up) + fp`, or it is at the friction limit with the sign of the spring force. -/
theorem C27_stick_or_slip (j : Jenkins) (hF : 0 ≤ j.Fs) (up fp : ℝ) (hh : j.hist = some (up, fp))
    (X : ℕ → ℝ) (b : Bool) :
    ∃ f dF j', j.force X b = .ok ((fun i => j.T i * f, dF), j') ∧
      ((|f| < j.Fs → f = j.kt * (vdot j.n j.Q X - up) + fp) ∧
       (|j.kt * (vdot j.n j.Q X - up) + fp| ≤ j.Fs → f = j.kt * (vdot j.n j.Q X - up) + fp) ∧
       (j.Fs ≤ j.kt * (vdot j.n j.Q X - up) + fp → f = j.Fs) ∧
       (j.kt * (vdot j.n j.Q X - up) + fp ≤ -j.Fs → f = -j.Fs)) := by
  refine ⟨(jenkinsLocal j.kt j.Fs up fp (vdot j.n j.Q X)).f, _, _, by unfold Jenkins.force; rw [hh], ?_⟩
  rw [jenkinsLocal_f hF]
  set p := j.kt * (vdot j.n j.Q X - up) + fp
  refine ⟨fun h => ?_, fun h => clip_of_le h, fun h => clip_of_ge hF h, fun h => clip_of_le_neg hF h⟩
  rcases le_or_gt |p| j.Fs with hp | hp
  · exact clip_of_le hp
  · exfalso
    rcases lt_abs.1 hp with hp | hp
    · rw [clip_of_ge hF hp.le, abs_of_nonneg hF] at h; exact lt_irrefl _ h
    · rw [clip_of_le_neg hF (by linarith), abs_neg, abs_of_nonneg hF] at h; exact lt_irrefl _ h

/-- C27, error branch: evaluation before `init_history` fails. -/
theorem C27_uninitialised (n : ℕ) (Q T : ℕ → ℝ) (kt Fs : ℝ) (X : ℕ → ℝ) (b : Bool) :
    (Jenkins.new n Q T kt Fs).force X b = .error .attribute := rfl

/-- Non-vacuity: init, load beyond the limit with update, unload: forces `2` (slip) and `1`
(stick). -/
example : ∃ outs j', (Jenkins.new 1 (fun _ => 1) (fun _ => 1) 1 2).run
    [.initHistory, .force (fun _ => 5) true, .force (fun _ => 4) false] = .ok (outs, j') := by
  simp [Jenkins.run, Jenkins.step, Jenkins.initHistory, Jenkins.force, Jenkins.updateHistory]

/-! ## C28 -/

/-- Calls that evaluate without storing history. -/
def JOp.pureEval : JOp → Bool
  | .force _ b => !b
  | .instantForce _ b => !b
  | _ => false

theorem jenkins_step_pure {j j' : Jenkins} {op : JOp} {o : JOut} (h : j.step op = .ok (o, j'))
    (hp : op.pureEval = true) : j' = j := by
  cases op with
  | force X b =>
    simp only [JOp.pureEval, Bool.not_eq_true'] at hp
    simp only [Jenkins.step, Jenkins.force, hp] at h
    cases hh : j.hist with
    | none => rw [hh] at h; simp at h
    | some p => rw [hh] at h; simp only [Except.ok.injEq, Prod.mk.injEq] at h; rw [← h.2]; simp
  | instantForce u b =>
    simp only [JOp.pureEval, Bool.not_eq_true'] at hp
    simp only [Jenkins.step, Jenkins.instantForce, hp] at h
    cases hh : j.hist with
    | none => rw [hh] at h; simp at h
    | some p => rw [hh] at h; simp only [Except.ok.injEq, Prod.mk.injEq] at h; rw [← h.2]; simp
  | _ => simp [JOp.pureEval] at hp

/-- C28: dropping every evaluation without update from a call sequence changes neither the final
object nor any result of the remaining calls. -/
theorem C28_evaluation_is_pure (j : Jenkins) (ops : List JOp) (outs : List (JOp × JOut)) (j' : Jenkins)
    (h : j.run ops = .ok (outs, j')) :
    j.run (ops.filter fun op => !op.pureEval) = .ok (outs.filter (fun p => !p.1.pureEval), j') := by
  induction ops generalizing j outs j' with
  | nil => simp only [Jenkins.run, Except.ok.injEq, Prod.mk.injEq] at h; rw [← h.1, ← h.2]; rfl
  | cons op ops ih =>
    simp only [Jenkins.run] at h
    cases h1 : j.step op with
    | error e => rw [h1] at h; simp at h
    | ok r =>
      obtain ⟨o, j1⟩ := r
      rw [h1] at h
      simp only at h
      cases h2 : j1.run ops with
      | error e => rw [h2] at h; simp at h
      | ok r2 =>
        obtain ⟨os, j2⟩ := r2
        rw [h2] at h
        simp only [Except.ok.injEq, Prod.mk.injEq] at h
        have := ih j1 os j2 h2
        rw [← h.1, ← h.2]
        by_cases hp : op.pureEval = true
        · rw [jenkins_step_pure h1 hp] at this
          simp only [List.filter_cons, hp, Bool.not_true]
          exact this
        · simp only [Bool.not_eq_true] at hp
          simp only [List.filter_cons, hp, Bool.not_false, if_true, Jenkins.run, h1]
          rw [this]

/-- C28: two initialised evaluations in a row at the same point give the same result. -/
theorem C28_evaluation_repeatable (j : Jenkins) (X : ℕ → ℝ) (o : (ℕ → ℝ) × (ℕ → ℕ → ℝ)) (j' : Jenkins)
    (h : j.force X false = .ok (o, j')) : j'.force X false = .ok (o, j') := by
  have : j' = j := by
    unfold Jenkins.force at h
    cases hh : j.hist with
    | none => rw [hh] at h; simp at h
    | some p => rw [hh] at h; simp only [Except.ok.injEq, Prod.mk.injEq] at h; rw [← h.2]; simp
  rw [this] at h ⊢
  exact h

example : ((Jenkins.new 1 (fun _ => 1) (fun _ => 1) 1 2).initHistory.force (fun _ => 5) false).isOk = true := rfl

/-! ## C29 -/

theorem jenkins_run_keeps {n : ℕ} {Q T : ℕ → ℝ} {kt Fs : ℝ} {ops : List JOp}
    {outs : List (JOp × JOut)} {j' : Jenkins}
    (h : (Jenkins.new n Q T kt Fs).run ops = .ok (outs, j')) :
    j' = { Jenkins.new n Q T kt Fs with Fs := j'.Fs, hist := j'.hist } := by
  have key : ∀ (ops : List JOp) (j : Jenkins) outs j', j.run ops = .ok (outs, j') →
      j' = { j with Fs := j'.Fs, hist := j'.hist } := by
    intro ops
    induction ops with
    | nil => intro j outs j' h; simp only [Jenkins.run, Except.ok.injEq, Prod.mk.injEq] at h; rw [← h.2]
    | cons op ops ih =>
      intro j outs j' h
      simp only [Jenkins.run] at h
      cases h1 : j.step op with
      | error e => rw [h1] at h; simp at h
      | ok r =>
        obtain ⟨o, j1⟩ := r
        rw [h1] at h
        simp only at h
        cases h2 : j1.run ops with
        | error e => rw [h2] at h; simp at h
        | ok r2 =>
          obtain ⟨os, j2⟩ := r2
          rw [h2] at h
          simp only [Except.ok.injEq, Prod.mk.injEq] at h
          rw [← h.2]
          have e1 := ih j1 os j2 h2
          obtain ⟨a1, a2, a3, a4, a5, a6⟩ := jenkins_step_keeps h1
          rw [e1, a1, a2, a3, a4, a5, a6]
  exact key ops _ outs j' h

/-- C29: after any successful sequence of calls, `reset_real_mu` gives an element that differs from
a newly built one only in its stored history: the friction limit is the original one. -/
theorem C29_reset_restores (n : ℕ) (Q T : ℕ → ℝ) (kt Fs : ℝ) (ops : List JOp)
    (outs : List (JOp × JOut)) (j' : Jenkins)
    (h : (Jenkins.new n Q T kt Fs).run (ops ++ [.resetRealMu]) = .ok (outs, j')) :
    j' = { Jenkins.new n Q T kt Fs with hist := j'.hist } ∧ j'.Fs = Fs := by
  have e := jenkins_run_keeps h
  have hF : j'.Fs = Fs := by
    have key : ∀ (ops : List JOp) (j : Jenkins) outs j', j.run (ops ++ [.resetRealMu]) = .ok (outs, j') →
        j'.Fs = j'.realFs := by
      intro ops
      induction ops with
      | nil =>
        intro j outs j' h
        simp only [List.nil_append, Jenkins.run, Jenkins.step, Except.ok.injEq, Prod.mk.injEq] at h
        rw [← h.2]; rfl
      | cons op ops ih =>
        intro j outs j' h
        simp only [List.cons_append, Jenkins.run] at h
        cases h1 : j.step op with
        | error e => rw [h1] at h; simp at h
        | ok r =>
          obtain ⟨o, j1⟩ := r
          rw [h1] at h
          simp only at h
          cases h2 : j1.run (ops ++ [.resetRealMu]) with
          | error e => rw [h2] at h; simp at h
          | ok r2 =>
            rw [h2] at h
            simp only [Except.ok.injEq, Prod.mk.injEq] at h
            rw [← h.2]
            exact ih j1 r2.1 r2.2 h2
    have h3 := key ops _ outs j' h
    have h4 : j'.realFs = Fs := by rw [e]; rfl
    rw [h3, h4]
  refine ⟨?_, hF⟩
  rw [hF] at e
  exact e

/-- C29: after any successful sequence of calls ending with `set_prestress_mu`, every force
evaluated is zero (whatever the history). -/
theorem C29_prestress_frictionless (n : ℕ) (Q T : ℕ → ℝ) (kt Fs : ℝ) (ops : List JOp)
    (outs : List (JOp × JOut)) (j' : Jenkins)
    (h : (Jenkins.new n Q T kt Fs).run (ops ++ [.setPrestressMu]) = .ok (outs, j'))
    (X : ℕ → ℝ) (b : Bool) (o : (ℕ → ℝ) × (ℕ → ℕ → ℝ)) (j'' : Jenkins)
    (hf : j'.force X b = .ok (o, j'')) : j'.Fs = 0 ∧ ∀ i, o.1 i = 0 := by
  have e := jenkins_run_keeps h
  have h0 : j'.Fs = 0 := by
    have key : ∀ (ops : List JOp) (j : Jenkins) outs j', j.run (ops ++ [.setPrestressMu]) = .ok (outs, j') →
        j'.Fs = j'.prestressFs := by
      intro ops
      induction ops with
      | nil =>
        intro j outs j' h
        simp only [List.nil_append, Jenkins.run, Jenkins.step, Except.ok.injEq, Prod.mk.injEq] at h
        rw [← h.2]; rfl
      | cons op ops ih =>
        intro j outs j' h
        simp only [List.cons_append, Jenkins.run] at h
        cases h1 : j.step op with
        | error e => rw [h1] at h; simp at h
        | ok r =>
          obtain ⟨o, j1⟩ := r
          rw [h1] at h
          simp only at h
          cases h2 : j1.run (ops ++ [.setPrestressMu]) with
          | error e => rw [h2] at h; simp at h
          | ok r2 =>
            rw [h2] at h
            simp only [Except.ok.injEq, Prod.mk.injEq] at h
            rw [← h.2]
            exact ih j1 r2.1 r2.2 h2
    have h3 := key ops _ outs j' h
    have h4 : j'.prestressFs = 0 := by rw [e]; rfl
    rw [h3, h4]
  refine ⟨h0, fun i => ?_⟩
  unfold Jenkins.force at hf
  cases hh : j'.hist with
  | none => rw [hh] at hf; simp at hf
  | some p =>
    rw [hh] at hf
    simp only [Except.ok.injEq, Prod.mk.injEq] at hf
    rw [← hf.1, h0]
    simp only
    rw [jenkinsLocal_f le_rfl]
    have := clip_abs (le_refl (0:ℝ)) (j'.kt * (vdot j'.n j'.Q X - p.1) + p.2)
    rw [abs_nonpos_iff.1 this, mul_zero]

example : ∃ outs j', (Jenkins.new 1 (fun _ => 1) (fun _ => 1) 1 2).run
    ([.initHistory, .setPrestressMu, .force (fun _ => 5) true] ++ [.resetRealMu]) = .ok (outs, j') := by
  simp [Jenkins.run, Jenkins.step, Jenkins.initHistory, Jenkins.force, Jenkins.updateHistory,
    Jenkins.setPrestressMu]

/-! ## C30 -/

/-- C30: for a period of `N` displacements, any starting state and any stiffness, every cycle after
the second repeats exactly the forces of the second cycle. -/
theorem C30_two_cycles {ι : Type} (kt Fs : ℝ) (hF : 0 ≤ Fs) (e0 : ι → ℝ) (N : ℕ) (hN : 0 < N)
    (u : ℕ → ℝ) (c : ℕ → ι → ℝ) (s : JHist ι) (n : ℕ) :
    (cycleRows (jenkinsOps kt Fs e0) ((List.range N).map fun i => (u i, c i)) (n + 1) s).map Prod.fst
      = (cycleRows (jenkinsOps kt Fs e0) ((List.range N).map fun i => (u i, c i)) 1 s).map Prod.fst := by
  rw [(cycle_slider hF e0 u c s N hN (n+1)).1, (cycle_slider hF e0 u c s N hN 1).1]
  apply List.map_congr_left
  intro i _
  induction n with
  | zero => rfl
  | succ n ih =>
    rw [← ih, show (n + 1 + 1) * N + i = ((n + 1) * N + i) + N by ring]
    exact slider_periodic kt N hN (fun _ => Fs) u (fun _ => hF) s.up s.fp _ (by
      have : N ≤ (n+1) * N := Nat.le_mul_of_pos_left _ (Nat.succ_pos n)
      omega)

/-- C30: the forces of the second cycle are a steady state of the slider. -/
theorem C30_second_cycle_steady {ι : Type} (kt Fs : ℝ) (hF : 0 ≤ Fs) (e0 : ι → ℝ) (N : ℕ) (hN : 0 < N)
    (u : ℕ → ℝ) (c : ℕ → ι → ℝ) (s : JHist ι) :
    SteadyState N kt (fun _ => Fs) u (fun i =>
      ((cycleRows (jenkinsOps kt Fs e0) ((List.range N).map fun i => (u i, c i)) 1 s).map Prod.fst).getD i 0) := by
  rw [(cycle_slider hF e0 u c s N hN 1).1]
  have hget : ∀ i < N, (((List.range N).map (fun i => slider kt (fun _ => Fs) (periodic N u) s.up s.fp (1 * N + i))).getD i 0)
      = slider kt (fun _ => Fs) (periodic N u) s.up s.fp (N + i) := by
    intro i hi
    rw [List.getD_eq_getElem?_getD, List.getElem?_map, List.getElem?_range hi]
    simp
  intro i hi
  beta_reduce
  rw [hget i hi, hget _ (Nat.mod_lt _ hN)]
  cases i with
  | zero =>
    rw [show (0 + N - 1) % N = N - 1 by rw [Nat.zero_add, Nat.mod_eq_of_lt (by omega)]]
    have hper := slider_periodic kt N hN (fun _ => Fs) u (fun _ => hF) s.up s.fp (N + (N-1)) (by omega)
    rw [slider_const_periodic] at hper
    -- instant `N + 0` follows instant `N - 1`, whose force equals that of instant `2N - 1`
    have hper0 := slider_periodic kt N hN (fun _ => Fs) u (fun _ => hF) s.up s.fp N (by omega)
    rw [slider_const_periodic] at hper0
    have e : N + 0 = N := by omega
    rw [e, ← hper0]
    rw [show N + N = (N + (N - 1)) + 1 by omega, slider_succ]
    have p1 : periodic N u (N + (N-1) + 1) = u 0 := by
      unfold periodic
      rw [show N + (N - 1) + 1 = 0 + N * 2 by omega, Nat.add_mul_mod_self_left, Nat.zero_mod]
    have p2 : periodic N u (N + (N-1)) = u (N - 1) := by
      unfold periodic
      rw [show N + (N - 1) = (N - 1) + N by omega, Nat.add_mod_right, Nat.mod_eq_of_lt (by omega)]
    rw [p1, p2]
  | succ i =>
    rw [show (i + 1 + N - 1) % N = i by
      rw [show i + 1 + N - 1 = i + N by omega, Nat.add_mod_right, Nat.mod_eq_of_lt (by omega)]]
    rw [show N + (i + 1) = (N + i) + 1 by ring, slider_succ]
    have p1 : periodic N u (N + i + 1) = u (i+1) := by
      unfold periodic
      rw [show N + i + 1 = (i + 1) + N by omega, Nat.add_mod_right, Nat.mod_eq_of_lt hi]
    have p2 : periodic N u (N + i) = u i := by
      unfold periodic
      rw [show N + i = i + N by omega, Nat.add_mod_right, Nat.mod_eq_of_lt (by omega)]
    rw [p1, p2]

/-- Non-vacuity: with `kt = Fs = 1` and displacements `2, 0` the first cycle from rest gives `1, -1`
(slip in the first instant). -/
example : ((cycleRows (jenkinsOps 1 1 (fun _ : Unit => (1:ℝ)))
    ((List.range 2).map fun i => (if i = 0 then (2:ℝ) else 0, fun _ => (1:ℝ))) 0 ⟨0, 0, fun _ => 1, fun _ => 0⟩).map
      Prod.fst) = [1, -1] := by
  simp only [cycleRows, cycleState, List.range, List.range.loop, List.map, onePass, jenkinsOps, jenkinsStep,
    jenkinsLocal]
  norm_num [Real.sign]

end

end TMD
