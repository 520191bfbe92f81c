import Verif.Props.Jenkins

/-!
# C124: the Jenkins object is a block on a spring, for every sequence of calls

Specification: a block at the position `x` with the friction limit `L`, held by a spring of stiffness `kt`. The object stores two
numbers (`up`, `fp`) that are overwritten by several methods; the specification has one (the position of the block).
-/

namespace TMD

open Spec

noncomputable section

/-- State of the specification: friction limit and position of the block (`none`: not placed yet). -/
structure Block where
  L : ℝ
  x : Option ℝ

/-- Force of the spring when its free end is at `u` and the block at `x` slips at the force `L`. -/
def blockForce (kt L x u : ℝ) : ℝ := clip L (kt * (u - x))

/-- The block slips as far as needed for the spring to carry no more than `L`. -/
def blockMoves (kt L x u : ℝ) : ℝ := u - blockForce kt L x u / kt

open Classical in
/-- Stiffness felt at the free end. -/
def blockStiffness (kt L x u : ℝ) : ℝ := if |kt * (u - x)| ≤ L then kt else 0

open Classical in
/-- What the calls mean for the block. `Fs` is the limit given to the constructor, `Q` and `T` connect the free end. -/
def Block.step (n : ℕ) (Q T : ℕ → ℝ) (kt Fs : ℝ) (b : Block) : JOp → Except Err (JOut × Block)
  | .setPrestressMu => .ok (.unit, { b with L := 0 })
  | .resetRealMu => .ok (.unit, { b with L := Fs })
  | .initHistory => .ok (.unit, { b with x := some 0 })
  | .initHistoryHarmonic u => .ok (.unit, { b with x := some u })
  | .updateHistory u f => .ok (.unit, { b with x := some (u - f / kt) })
  | .force X upd =>
    match b.x with
    | none => .error .attribute
    | some x =>
      let u := ∑ i ∈ Finset.range n, Q i * X i
      .ok (.glob (fun i => T i * blockForce kt b.L x u) (fun i j => T i * blockStiffness kt b.L x u * Q j),
        if upd then { b with x := some (blockMoves kt b.L x u) } else b)
  | .instantForce u upd =>
    match b.x with
    | none => .error .attribute
    | some x =>
      .ok (.loc ⟨blockForce kt b.L x u, blockStiffness kt b.L x u, - blockStiffness kt b.L x u, if |kt * (u - x)| ≤ b.L then 1 else 0⟩,
        if upd then { b with x := some (blockMoves kt b.L x u) } else b)

/-- A sequence of calls on the block. -/
def Block.run (n : ℕ) (Q T : ℕ → ℝ) (kt Fs : ℝ) (b : Block) : List JOp → Except Err (List (JOp × JOut) × Block)
  | [] => .ok ([], b)
  | op :: ops =>
    match b.step n Q T kt Fs op with
    | .error e => .error e
    | .ok (o, b') =>
      match b'.run n Q T kt Fs ops with
      | .error e => .error e
      | .ok (os, b'') => .ok ((op, o) :: os, b'')

/-- The block of an object. -/
def Jenkins.block (j : Jenkins) : Block := ⟨j.Fs, j.hist.map fun p => p.1 - p.2 / j.kt⟩

theorem block_arg {kt up fp u : ℝ} (hk : 0 < kt) : kt * (u - (up - fp / kt)) = kt * (u - up) + fp := by
  field_simp
  ring

theorem jenkinsLocal_block {kt Fs up fp u : ℝ} (hk : 0 < kt) (hF : 0 ≤ Fs) : jenkinsLocal kt Fs up fp u
    = ⟨blockForce kt Fs (up - fp / kt) u, blockStiffness kt Fs (up - fp / kt) u, - blockStiffness kt Fs (up - fp / kt) u,
        if |kt * (u - (up - fp / kt))| ≤ Fs then 1 else 0⟩ := by
  have h := jenkinsLocal_f (kt := kt) (up := up) (fp := fp) (u := u) hF
  have e : blockForce kt Fs (up - fp / kt) u = (jenkinsLocal kt Fs up fp u).f := by rw [h, blockForce, block_arg hk]
  rw [e]
  unfold blockStiffness
  rw [block_arg hk]
  unfold jenkinsLocal
  by_cases hs : |kt * (u - up) + fp| ≤ Fs
  · simp only [hs, not_lt.2 hs, if_true, if_false]
  · simp only [hs, not_le.1 hs, if_true, if_false, neg_zero]

/-- The object is consistent with the constructor's arguments. -/
structure Jenkins.Of (j : Jenkins) (n : ℕ) (Q T : ℕ → ℝ) (kt Fs : ℝ) : Prop where
  n : j.n = n
  Q : j.Q = Q
  T : j.T = T
  kt : j.kt = kt
  pre : j.prestressFs = 0
  real : j.realFs = Fs
  nonneg : 0 ≤ j.Fs

theorem block_step {j : Jenkins} {n : ℕ} {Q T : ℕ → ℝ} {kt Fs : ℝ} (hk : 0 < kt) (hF : 0 ≤ Fs) (h : j.Of n Q T kt Fs) (op : JOp) :
    (∃ e, j.step op = .error e ∧ j.block.step n Q T kt Fs op = .error e) ∨
    ∃ o j', j.step op = .ok (o, j') ∧ j.block.step n Q T kt Fs op = .ok (o, j'.block) ∧ j'.Of n Q T kt Fs := by
  obtain ⟨n', Q', T', kt', FsNow, pre, real, hist⟩ := j
  obtain ⟨rfl, rfl, rfl, rfl, rfl, rfl, h0⟩ := h
  simp only at hk hF h0
  cases op with
  | setPrestressMu => exact .inr ⟨_, _, rfl, by simp [Block.step, Jenkins.block, Jenkins.setPrestressMu], ⟨rfl, rfl, rfl, rfl, rfl, rfl, le_rfl⟩⟩
  | resetRealMu => exact .inr ⟨_, _, rfl, by simp [Block.step, Jenkins.block, Jenkins.resetRealMu], ⟨rfl, rfl, rfl, rfl, rfl, rfl, hF⟩⟩
  | initHistory => exact .inr ⟨_, _, rfl, by simp [Block.step, Jenkins.block, Jenkins.initHistory], ⟨rfl, rfl, rfl, rfl, rfl, rfl, h0⟩⟩
  | initHistoryHarmonic u => exact .inr ⟨_, _, rfl, by simp [Block.step, Jenkins.block, Jenkins.initHistoryHarmonic], ⟨rfl, rfl, rfl, rfl, rfl, rfl, h0⟩⟩
  | updateHistory u f => exact .inr ⟨_, _, rfl, by simp [Block.step, Jenkins.block, Jenkins.updateHistory], ⟨rfl, rfl, rfl, rfl, rfl, rfl, h0⟩⟩
  | force X b =>
    cases hist with
    | none => exact .inl ⟨.attribute, rfl, rfl⟩
    | some p =>
      refine .inr ⟨_, _, rfl, ?_, ?_⟩
      · simp only [Block.step, Jenkins.block, Option.map_some, Jenkins.updateHistory, jenkinsLocal_block hk h0]
        cases b <;> rfl
      · split <;> exact ⟨rfl, rfl, rfl, rfl, rfl, rfl, h0⟩
  | instantForce u b =>
    cases hist with
    | none => exact .inl ⟨.attribute, rfl, rfl⟩
    | some p =>
      refine .inr ⟨_, _, rfl, ?_, ?_⟩
      · simp only [Block.step, Jenkins.block, Option.map_some, jenkinsLocal_block hk h0]
        cases b <;> rfl
      · split <;> exact ⟨rfl, rfl, rfl, rfl, rfl, rfl, h0⟩

theorem block_run {n : ℕ} {Q T : ℕ → ℝ} {kt Fs : ℝ} (hk : 0 < kt) (hF : 0 ≤ Fs) (ops : List JOp) (j : Jenkins) (h : j.Of n Q T kt Fs) :
    (∃ e, j.run ops = .error e ∧ j.block.run n Q T kt Fs ops = .error e) ∨
    ∃ outs j', j.run ops = .ok (outs, j') ∧ j.block.run n Q T kt Fs ops = .ok (outs, j'.block) := by
  induction ops generalizing j with
  | nil => exact .inr ⟨_, _, rfl, rfl⟩
  | cons op ops ih =>
    rcases block_step hk hF h op with ⟨e, h1, h2⟩ | ⟨o, j', h1, h2, h3⟩
    · exact .inl ⟨e, by simp only [Jenkins.run, h1], by simp only [Block.run, h2]⟩
    · rcases ih j' h3 with ⟨e, g1, g2⟩ | ⟨outs, j'', g1, g2⟩
      · exact .inl ⟨e, by simp only [Jenkins.run, h1, g1], by simp only [Block.run, h2, g2]⟩
      · exact .inr ⟨(op, o) :: outs, j'', by simp only [Jenkins.run, h1, g1], by simp only [Block.run, h2, g2]⟩

/-- C124: for every sequence of calls a new Jenkins object returns exactly what the block on a spring returns (forces,
derivatives and exceptions), starting with the limit `Fs` and the block not placed; at the end the block is at `up - fp/kt`. -/
theorem C124_refines (n : ℕ) (Q T : ℕ → ℝ) (kt Fs : ℝ) (hk : 0 < kt) (hF : 0 ≤ Fs) (ops : List JOp) :
    (∃ e, (Jenkins.new n Q T kt Fs).run ops = .error e ∧ (Block.mk Fs none).run n Q T kt Fs ops = .error e) ∨
    ∃ outs j', (Jenkins.new n Q T kt Fs).run ops = .ok (outs, j') ∧
      (Block.mk Fs none).run n Q T kt Fs ops = .ok (outs, ⟨j'.Fs, j'.hist.map fun p => p.1 - p.2 / kt⟩) := by
  have h : (Jenkins.new n Q T kt Fs).Of n Q T kt Fs := ⟨rfl, rfl, rfl, rfl, rfl, rfl, hF⟩
  rcases block_run hk hF ops _ h with h1 | ⟨outs, j', h1, h2⟩
  · exact .inl h1
  · refine .inr ⟨outs, j', h1, ?_⟩
    have : j'.kt = kt := by
      have key : ∀ (ops : List JOp) (j : Jenkins) outs j', j.run ops = .ok (outs, j') → j'.kt = j.kt := by
        intro ops
        induction ops with
        | nil => intro j outs j' h; simp only [Jenkins.run, Except.ok.injEq, Prod.mk.injEq] at h; rw [← h.2]
        | cons op ops ih =>
          intro j outs j' h
          simp only [Jenkins.run] at h
          cases g1 : j.step op with
          | error e => rw [g1] at h; simp at h
          | ok r =>
            rw [g1] at h
            simp only at h
            cases g2 : r.2.run ops with
            | error e => rw [g2] at h; simp at h
            | ok r2 =>
              rw [g2] at h
              simp only [Except.ok.injEq, Prod.mk.injEq] at h
              rw [← h.2, ih _ _ _ g2]
              obtain ⟨_, _, _, kk, _⟩ := jenkins_step_keeps (show j.step op = .ok (r.1, r.2) from g1)
              exact kk
      exact key ops _ _ _ h1
    have e : j'.block = ⟨j'.Fs, j'.hist.map fun p => p.1 - p.2 / kt⟩ := by rw [Jenkins.block, this]
    rw [← e]
    exact h2

/-- C124: the block of the specification behaves as a block: it stays while the spring carries less than the limit, and after
slipping the spring carries the limit. -/
theorem C124_block (kt L x u : ℝ) (hk : 0 < kt) (hL : 0 ≤ L) : (|kt * (u - x)| ≤ L → blockMoves kt L x u = x) ∧
    kt * (u - blockMoves kt L x u) = blockForce kt L x u ∧ |blockForce kt L x u| ≤ L ∧
    (L < |kt * (u - x)| → |blockForce kt L x u| = L ∧ 0 < (blockMoves kt L x u - x) * (u - x)) := by
  have e : kt * (u - blockMoves kt L x u) = blockForce kt L x u := by unfold blockMoves; field_simp; ring
  refine ⟨fun h => ?_, e, clip_abs hL _, fun h => ?_⟩
  · unfold blockMoves blockForce; rw [clip_of_le h]; field_simp; ring
  · rcases lt_abs.1 h with h | h
    · have f : blockForce kt L x u = L := clip_of_ge hL h.le
      refine ⟨by rw [f, abs_of_nonneg hL], ?_⟩
      have h1 : 0 < u - x := (mul_pos_iff_of_pos_left hk).1 (hL.trans_lt h)
      refine mul_pos ?_ h1
      have : 0 < kt * (blockMoves kt L x u - x) := by rw [f] at e; linarith
      exact (mul_pos_iff_of_pos_left hk).1 this
    · have f : blockForce kt L x u = -L := clip_of_le_neg hL (by linarith)
      refine ⟨by rw [f, abs_neg, abs_of_nonneg hL], ?_⟩
      have h1 : 0 < x - u := (mul_pos_iff_of_pos_left hk).1 (by linarith : 0 < kt * (x - u))
      have : 0 < kt * (x - blockMoves kt L x u) := by rw [f] at e; linarith
      have h2 := (mul_pos_iff_of_pos_left hk).1 this
      nlinarith

/-- Placed at 3, pulled to 8 (limit 2, stiffness 1): the force is 2, the block moves to 6; at 6.5 the force is 1/2. -/
example : (Block.mk 2 none).run 1 (fun _ => 1) (fun _ => 1) 1 2 [.initHistoryHarmonic 3, .force (fun _ => 8) true]
    = .ok ([(.initHistoryHarmonic 3, .unit), (.force (fun _ => 8) true, .glob (fun _ => 2) (fun _ _ => 0))], ⟨2, some 6⟩) := by
  norm_num [Block.run, Block.step, blockForce, blockStiffness, blockMoves, clip]

example : blockForce 1 2 6 (13 / 2) = 1 / 2 := by norm_num [blockForce, clip]

end

end TMD
