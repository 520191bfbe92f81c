import Verif.Lemmas.Memory
import Verif.Props.Iwan
import Mathlib.Tactic.NormNum

/-!
# Property C112: rate independence, return-point memory and Masing's rule

The public calls are `JenkinsForce.force(X, update_hist)` and `Iwan4Force.force(X, update_hist)`.
-/

namespace TMD

open Spec

noncomputable section

/-- `force(X, update_hist)` called for each element of the list. -/
def forceCalls (l : List ((ℕ → ℝ) × Bool)) : List JOp := l.map fun p => .force p.1 p.2

/-- Local displacements of the calls that updated the history. -/
def stored (n : ℕ) (Q : ℕ → ℝ) (l : List ((ℕ → ℝ) × Bool)) : List ℝ :=
  (l.filter (fun p => p.2)).map fun p => vdot n Q p.1

theorem stored_append (n : ℕ) (Q : ℕ → ℝ) (a b : List ((ℕ → ℝ) × Bool)) :
    stored n Q (a ++ b) = stored n Q a ++ stored n Q b := by
  simp [stored]

theorem mem_stored {n : ℕ} {Q : ℕ → ℝ} {l : List ((ℕ → ℝ) × Bool)} {u : ℝ} (h : u ∈ stored n Q l) :
    ∃ p ∈ l, p.2 = true ∧ vdot n Q p.1 = u := by
  obtain ⟨p, hp, rfl⟩ := List.mem_map.1 h
  have := List.mem_filter.1 hp
  exact ⟨p, this.1, this.2, rfl⟩

theorem jenkins_run_append {j j' j'' : Jenkins} {a b : List JOp} {o o' : List (JOp × JOut)}
    (h : j.run a = .ok (o, j')) (h' : j'.run b = .ok (o', j'')) : j.run (a ++ b) = .ok (o ++ o', j'') := by
  induction a generalizing j o with
  | nil =>
    simp only [Jenkins.run, Except.ok.injEq, Prod.mk.injEq] at h
    obtain ⟨rfl, rfl⟩ := h
    simpa using h'
  | cons op a ih =>
    simp only [Jenkins.run, List.cons_append] at h ⊢
    cases h1 : j.step op with
    | error e => rw [h1] at h; simp at h
    | ok r =>
      obtain ⟨x, j1⟩ := r
      rw [h1] at h
      simp only at h ⊢
      cases h2 : j1.run a with
      | error e => rw [h2] at h; simp at h
      | ok r2 =>
        obtain ⟨os, j2⟩ := r2
        rw [h2] at h
        simp only [Except.ok.injEq, Prod.mk.injEq] at h
        obtain ⟨rfl, rfl⟩ := h
        rw [ih h2]
        rfl

/-- One call. -/
theorem jenkins_call (j : Jenkins) (hF : 0 ≤ j.Fs) (s : ℝ × ℝ) (hh : j.hist = some s) (X : ℕ → ℝ) (b : Bool) :
    ∃ dF, j.run (forceCalls [(X, b)]) = .ok ([(.force X b, .glob
        (fun i => j.T i * (sliderAfter j.kt j.Fs s [vdot j.n j.Q X]).2) dF)],
      { j with hist := some (sliderAfter j.kt j.Fs s (stored j.n j.Q [(X, b)])) }) := by
  obtain ⟨up, fp⟩ := s
  refine ⟨fun i k => j.T i * (jenkinsLocal j.kt j.Fs up fp (vdot j.n j.Q X)).dfdu * j.Q k, ?_⟩
  simp only [forceCalls, List.map_cons, List.map_nil, Jenkins.run, Jenkins.step, Jenkins.force, hh]
  cases b
  · simp [jenkinsLocal_f hF, sliderAfter, stored, ← hh]
  · simp [jenkinsLocal_f hF, sliderAfter, stored, Jenkins.updateHistory]

/-- Any number of calls. -/
theorem jenkins_calls (l : List ((ℕ → ℝ) × Bool)) (j : Jenkins) (hF : 0 ≤ j.Fs) (s : ℝ × ℝ)
    (hh : j.hist = some s) :
    ∃ o, j.run (forceCalls l) = .ok (o,
      { j with hist := some (sliderAfter j.kt j.Fs s (stored j.n j.Q l)) }) := by
  induction l generalizing j s with
  | nil => exact ⟨[], by simp [forceCalls, Jenkins.run, stored, sliderAfter, ← hh]⟩
  | cons p l ih =>
    obtain ⟨dF, h1⟩ := jenkins_call j hF s hh p.1 p.2
    obtain ⟨o, h2⟩ := ih { j with hist := some (sliderAfter j.kt j.Fs s (stored j.n j.Q [p])) } hF _ rfl
    refine ⟨[(.force p.1 p.2, .glob (fun i => j.T i * (sliderAfter j.kt j.Fs s [vdot j.n j.Q p.1]).2) dF)] ++ o, ?_⟩
    have e : forceCalls (p :: l) = forceCalls [p] ++ forceCalls l := by simp [forceCalls]
    have e2 : stored j.n j.Q (p :: l) = stored j.n j.Q [p] ++ stored j.n j.Q l := by
      rw [← stored_append]; rfl
    rw [e, e2, sliderAfter_append]
    exact jenkins_run_append h1 h2

/-- Calls ending with `force(X, b)`. -/
theorem jenkins_calls_last (l : List ((ℕ → ℝ) × Bool)) (j : Jenkins) (hF : 0 ≤ j.Fs) (s : ℝ × ℝ)
    (hh : j.hist = some s) (X : ℕ → ℝ) (b : Bool) :
    ∃ o dF, j.run (forceCalls (l ++ [(X, b)])) = .ok (o ++ [(.force X b, .glob
        (fun i => j.T i * (sliderAfter j.kt j.Fs s (stored j.n j.Q l ++ [vdot j.n j.Q X])).2) dF)],
      { j with hist := some (sliderAfter j.kt j.Fs s (stored j.n j.Q (l ++ [(X, b)]))) }) := by
  obtain ⟨o, h1⟩ := jenkins_calls l j hF s hh
  obtain ⟨dF, h2⟩ := jenkins_call { j with hist := some (sliderAfter j.kt j.Fs s (stored j.n j.Q l)) } hF _ rfl X b
  refine ⟨o, dF, ?_⟩
  have e : forceCalls (l ++ [(X, b)]) = forceCalls l ++ forceCalls [(X, b)] := by simp [forceCalls]
  rw [e, stored_append, sliderAfter_append, sliderAfter_append]
  exact jenkins_run_append h1 h2

/-- A new element after `init_history`. -/
def jenkinsFresh (n : ℕ) (Q T : ℕ → ℝ) (kt Fs : ℝ) : Jenkins := (Jenkins.new n Q T kt Fs).initHistory

/-- C112, return-point memory of `JenkinsForce`: the element is loaded in any way, then from `X0` to the
turning point `X1`. Whatever calls follow, if the displacements that update the history stay between
those of `X0` and `X1`, coming back to `X1` returns the same force and leaves the same object as the
first arrival did. -/
theorem C112_jenkins_return (n : ℕ) (Q T : ℕ → ℝ) (kt Fs : ℝ) (hk : 0 ≤ kt) (hF : 0 ≤ Fs)
    (pre : List ((ℕ → ℝ) × Bool)) (X0 X1 : ℕ → ℝ) (mid : List ((ℕ → ℝ) × Bool))
    (hmid : ∀ p ∈ mid, p.2 = true → min (vdot n Q X0) (vdot n Q X1) ≤ vdot n Q p.1 ∧
      vdot n Q p.1 ≤ max (vdot n Q X0) (vdot n Q X1)) :
    ∃ F dF dF' o o' j1,
      (jenkinsFresh n Q T kt Fs).run (forceCalls (pre ++ [(X0, true)] ++ [(X1, true)]))
        = .ok (o ++ [(.force X1 true, .glob F dF)], j1) ∧
      (jenkinsFresh n Q T kt Fs).run (forceCalls (pre ++ [(X0, true)] ++ [(X1, true)] ++ mid ++ [(X1, true)]))
        = .ok (o' ++ [(.force X1 true, .glob F dF')], j1) := by
  obtain ⟨o, dF, h1⟩ := jenkins_calls_last (pre ++ [(X0, true)]) (jenkinsFresh n Q T kt Fs) hF (0, 0) rfl X1 true
  obtain ⟨o', dF', h2⟩ := jenkins_calls_last (pre ++ [(X0, true)] ++ [(X1, true)] ++ mid)
    (jenkinsFresh n Q T kt Fs) hF (0, 0) rfl X1 true
  set s := sliderAfter kt Fs (0, 0) (stored n Q (pre ++ [(X0, true)])) with hs
  have hs1 : s.1 = vdot n Q X0 := by
    rw [hs, stored_append]; exact sliderAfter_fst_last _ _ _ _ _
  have hs2 : |s.2| ≤ Fs := sliderAfter_abs kt hF _ _ (by simpa using hF)
  have key := sliderAfter_return hk hF s hs2 (vdot n Q X1) (stored n Q mid) (by
    intro u hu
    obtain ⟨p, hp, hb, rfl⟩ := mem_stored hu
    rw [hs1]; exact hmid p hp hb)
  have e1 : sliderAfter kt Fs (0, 0) (stored n Q (pre ++ [(X0, true)] ++ [(X1, true)]))
      = sliderAfter kt Fs s [vdot n Q X1] := by
    rw [stored_append, sliderAfter_append]; rfl
  have e2 : sliderAfter kt Fs (0, 0) (stored n Q (pre ++ [(X0, true)] ++ [(X1, true)] ++ mid) ++ [vdot n Q X1])
      = sliderAfter kt Fs s [vdot n Q X1] := by
    rw [← key, stored_append, stored_append, sliderAfter_append, sliderAfter_append, sliderAfter_append, ← hs,
      ← sliderAfter_append, ← sliderAfter_append]
    rfl
  refine ⟨_, dF, dF', o, o', _, h1, ?_⟩
  rw [h2]
  simp only [jenkinsFresh, Jenkins.initHistory, Jenkins.new]
  have e3 : stored n Q (pre ++ [(X0, true)] ++ [(X1, true)] ++ mid ++ [(X1, true)])
      = stored n Q (pre ++ [(X0, true)] ++ [(X1, true)] ++ mid) ++ [vdot n Q X1] := by
    rw [stored_append _ _ _ [(X1, true)]]; rfl
  rw [e3, e2, e1, sliderAfter_append, ← hs]

/-- C112, rate independence of `JenkinsForce`: loading from `X0` to `X1` in any number of steps whose
displacements that update the history are monotone gives the same force and the same object as going
there in one step. -/
theorem C112_jenkins_rate (n : ℕ) (Q T : ℕ → ℝ) (kt Fs : ℝ) (hk : 0 ≤ kt) (hF : 0 ≤ Fs)
    (pre : List ((ℕ → ℝ) × Bool)) (X0 X1 : ℕ → ℝ) (mid : List ((ℕ → ℝ) × Bool)) (b : Bool)
    (hmid : (vdot n Q X0 :: (stored n Q mid ++ [vdot n Q X1])).Pairwise (· ≤ ·) ∨
      (vdot n Q X0 :: (stored n Q mid ++ [vdot n Q X1])).Pairwise (· ≥ ·)) :
    ∃ F dF dF' o o' j1 j2,
      (jenkinsFresh n Q T kt Fs).run (forceCalls (pre ++ [(X0, true)] ++ [(X1, b)]))
        = .ok (o ++ [(.force X1 b, .glob F dF)], j1) ∧
      (jenkinsFresh n Q T kt Fs).run (forceCalls (pre ++ [(X0, true)] ++ mid ++ [(X1, b)]))
        = .ok (o' ++ [(.force X1 b, .glob F dF')], j2) ∧ (b = true → j1 = j2) := by
  obtain ⟨o, dF, h1⟩ := jenkins_calls_last (pre ++ [(X0, true)]) (jenkinsFresh n Q T kt Fs) hF (0, 0) rfl X1 b
  obtain ⟨o', dF', h2⟩ := jenkins_calls_last (pre ++ [(X0, true)] ++ mid)
    (jenkinsFresh n Q T kt Fs) hF (0, 0) rfl X1 b
  set s := sliderAfter kt Fs (0, 0) (stored n Q (pre ++ [(X0, true)])) with hs
  have hs1 : s.1 = vdot n Q X0 := by
    rw [hs, stored_append]; exact sliderAfter_fst_last _ _ _ _ _
  have hs2 : |s.2| ≤ Fs := sliderAfter_abs kt hF _ _ (by simpa using hF)
  have key := sliderAfter_monotone hk hF (stored n Q mid) (vdot n Q X1) s hs2 (by rw [hs1]; exact hmid)
  have e1 : sliderAfter kt Fs (0, 0) (stored n Q (pre ++ [(X0, true)]) ++ [vdot n Q X1])
      = sliderAfter kt Fs s [vdot n Q X1] := by rw [sliderAfter_append]
  have e2 : sliderAfter kt Fs (0, 0) (stored n Q (pre ++ [(X0, true)] ++ mid) ++ [vdot n Q X1])
      = sliderAfter kt Fs s [vdot n Q X1] := by
    rw [← key, stored_append, List.append_assoc, sliderAfter_append]
  simp only [jenkinsFresh, Jenkins.initHistory, Jenkins.new] at h1 h2 ⊢
  rw [e1] at h1
  rw [e2] at h2
  refine ⟨_, dF, dF', o, o', _, _, h1, h2, ?_⟩
  rintro rfl
  rw [stored_append _ _ _ [(X1, true)], stored_append _ _ _ [(X1, true)]]
  have e3 : stored n Q [(X1, true)] = [vdot n Q X1] := rfl
  rw [e3, e1, e2]

/-- C112, Masing's rule for `JenkinsForce`: after first loading to `X1`, the force at `X` on the way to
`-X1` is the force at `X1` minus twice the force of first loading at half the distance. -/
theorem C112_jenkins_masing (n : ℕ) (Q T : ℕ → ℝ) (kt Fs : ℝ) (hk : 0 ≤ kt) (hF : 0 ≤ Fs)
    (X1 X Xh : ℕ → ℝ) (b : Bool) (hX : |vdot n Q X| ≤ |vdot n Q X1|)
    (hh : vdot n Q Xh = (vdot n Q X1 - vdot n Q X) / 2) :
    ∃ F1 F Fh dF1 dF dFh o j1 j2 j3,
      (jenkinsFresh n Q T kt Fs).run (forceCalls [(X1, true)]) = .ok ([(.force X1 true, .glob F1 dF1)], j1) ∧
      (jenkinsFresh n Q T kt Fs).run (forceCalls [(X1, true), (X, b)])
        = .ok (o ++ [(.force X b, .glob F dF)], j2) ∧
      (jenkinsFresh n Q T kt Fs).run (forceCalls [(Xh, b)]) = .ok ([(.force Xh b, .glob Fh dFh)], j3) ∧
      ∀ i, F i = F1 i - 2 * Fh i := by
  obtain ⟨dF1, h1⟩ := jenkins_call (jenkinsFresh n Q T kt Fs) hF (0, 0) rfl X1 true
  obtain ⟨dFh, h3⟩ := jenkins_call (jenkinsFresh n Q T kt Fs) hF (0, 0) rfl Xh b
  obtain ⟨o, dF, h2⟩ := jenkins_calls_last [(X1, true)] (jenkinsFresh n Q T kt Fs) hF (0, 0) rfl X b
  refine ⟨_, _, _, dF1, dF, dFh, o, _, _, _, h1, h2, h3, fun i => ?_⟩
  simp only [jenkinsFresh, Jenkins.initHistory, Jenkins.new]
  have e : stored n Q [(X1, true)] ++ [vdot n Q X] = [vdot n Q X1, vdot n Q X] := rfl
  rw [e, sliderAfter_masing hk hF _ _ hX, hh]
  ring

/-! ## Iwan -/

theorem updated_append (a b : List (ℝ × Bool)) : updated (a ++ b) = updated a ++ updated b := by
  simp [updated]

/-- Agreement of two outcomes of `iwanRun`: last returned force, stored displacement and stored
forces of the sliders the element has. -/
def IwanSame (w : Iwan) (a b : List ℝ × (ℝ × (ℕ → ℝ))) : Prop :=
  a.1.getLast? = b.1.getLast? ∧ a.2.1 = b.2.1 ∧ ∀ k ≤ w.nSliders, a.2.2 k = b.2.2 k

theorem iwanSame_of (w : Iwan) (hphi : ∀ k ≤ w.nSliders, 0 ≤ w.phi k) (a b : List (ℝ × Bool)) (u : ℝ)
    (h : ∀ k ≤ w.nSliders, sliderAfter 1 (w.phi k) (0, 0) (updated a ++ [u])
      = sliderAfter 1 (w.phi k) (0, 0) (updated b ++ [u])) :
    IwanSame w (iwanRun w (0, fun _ => 0) (a ++ [(u, true)])) (iwanRun w (0, fun _ => 0) (b ++ [(u, true)])) := by
  have st : ∀ k ≤ w.nSliders, ∀ c : List (ℝ × Bool),
      ((iwanRun w (0, fun _ => 0) (c ++ [(u, true)])).2.1, (iwanRun w (0, fun _ => 0) (c ++ [(u, true)])).2.2 k)
        = sliderAfter 1 (w.phi k) (0, 0) (updated c ++ [u]) := by
    intro k hk c
    rw [iwanRun_state w hphi _ _ k hk, updated_append]; rfl
  refine ⟨?_, ?_, fun k hk => ?_⟩
  · rw [C36_parallel_sliders w hphi, C36_parallel_sliders w hphi]
    congr 1
    refine Finset.sum_congr rfl fun k hk => ?_
    rw [h k (by simpa [Nat.lt_succ_iff] using hk)]
  · have h1 := st 0 (Nat.zero_le _) a
    have h2 := st 0 (Nat.zero_le _) b
    rw [h 0 (Nat.zero_le _), ← h2] at h1
    exact (Prod.mk.injEq .. ▸ h1).1
  · have h1 := st k hk a
    have h2 := st k hk b
    rw [h k hk, ← h2] at h1
    exact (Prod.mk.injEq .. ▸ h1).2

/-- C112, return-point memory of `Iwan4Force`. -/
theorem C112_iwan_return (w : Iwan) (hphi : ∀ k ≤ w.nSliders, 0 ≤ w.phi k) (pre mid : List (ℝ × Bool))
    (u0 u1 : ℝ) (hmid : ∀ u ∈ updated mid, min u0 u1 ≤ u ∧ u ≤ max u0 u1) :
    IwanSame w (iwanRun w (0, fun _ => 0) (pre ++ [(u0, true)] ++ [(u1, true)]))
      (iwanRun w (0, fun _ => 0) (pre ++ [(u0, true)] ++ [(u1, true)] ++ mid ++ [(u1, true)])) := by
  refine iwanSame_of w hphi (pre ++ [(u0, true)]) (pre ++ [(u0, true)] ++ [(u1, true)] ++ mid) u1 fun k hk => ?_
  have hL := hphi k hk
  set s := sliderAfter 1 (w.phi k) (0, 0) (updated (pre ++ [(u0, true)])) with hs
  have hs1 : s.1 = u0 := by rw [hs, updated_append]; exact sliderAfter_fst_last _ _ _ _ _
  have hs2 : |s.2| ≤ w.phi k := sliderAfter_abs 1 hL _ _ (by simpa using hL)
  have key := sliderAfter_return zero_le_one hL s hs2 u1 (updated mid) (by rw [hs1]; exact hmid)
  rw [updated_append _ mid, updated_append _ [(u1, true)], sliderAfter_append, ← hs, ← key, List.append_assoc,
    List.append_assoc, sliderAfter_append 1 _ _ (updated (pre ++ [(u0, true)])), ← hs]
  rfl

/-- C112, rate independence of `Iwan4Force`. -/
theorem C112_iwan_rate (w : Iwan) (hphi : ∀ k ≤ w.nSliders, 0 ≤ w.phi k) (pre mid : List (ℝ × Bool))
    (u0 u1 : ℝ) (hmid : (u0 :: (updated mid ++ [u1])).Pairwise (· ≤ ·) ∨
      (u0 :: (updated mid ++ [u1])).Pairwise (· ≥ ·)) :
    IwanSame w (iwanRun w (0, fun _ => 0) (pre ++ [(u0, true)] ++ [(u1, true)]))
      (iwanRun w (0, fun _ => 0) (pre ++ [(u0, true)] ++ mid ++ [(u1, true)])) := by
  refine iwanSame_of w hphi (pre ++ [(u0, true)]) (pre ++ [(u0, true)] ++ mid) u1 fun k hk => ?_
  have hL := hphi k hk
  set s := sliderAfter 1 (w.phi k) (0, 0) (updated (pre ++ [(u0, true)])) with hs
  have hs1 : s.1 = u0 := by rw [hs, updated_append]; exact sliderAfter_fst_last _ _ _ _ _
  have hs2 : |s.2| ≤ w.phi k := sliderAfter_abs 1 hL _ _ (by simpa using hL)
  have key := sliderAfter_monotone zero_le_one hL (updated mid) u1 s hs2 (by rw [hs1]; exact hmid)
  rw [updated_append _ mid, sliderAfter_append, ← hs, ← key, List.append_assoc,
    sliderAfter_append 1 _ _ (updated (pre ++ [(u0, true)])), ← hs]

/-- C112, Masing's rule for `Iwan4Force`. -/
theorem C112_iwan_masing (w : Iwan) (hphi : ∀ k ≤ w.nSliders, 0 ≤ w.phi k) (u1 u : ℝ) (b : Bool)
    (hu : |u| ≤ |u1|) :
    ∃ f1 f fh : ℝ,
      (iwanRun w (0, fun _ => 0) [(u1, true)]).1 = [f1] ∧
      (iwanRun w (0, fun _ => 0) [(u1, true), (u, b)]).1 = [f1, f] ∧
      (iwanRun w (0, fun _ => 0) [((u1 - u) / 2, b)]).1 = [fh] ∧
      f = f1 - 2 * fh := by
  refine ⟨_, _, _, rfl, rfl, rfl, ?_⟩
  simp only [iwanInstant, if_true, Finset.mul_sum]
  rw [← Finset.sum_sub_distrib]
  refine Finset.sum_congr rfl fun k hk => ?_
  have hL := hphi k (by simpa [Nat.lt_succ_iff] using hk)
  have := sliderAfter_masing (kt := 1) zero_le_one hL u1 u hu
  simp only [sliderAfter, List.foldl_cons, List.foldl_nil, one_mul] at this
  rw [iwanSlider_eq_clip hL, iwanSlider_eq_clip hL, iwanSlider_eq_clip hL, this]
  ring

/-! ## Concrete histories -/

/-- Stiffness 2, limit 3: loading `0 → 1 → 3`, an excursion to `3/2` and `5/2` and the return to `3`. -/
example : ∃ F dF dF' o o' j1,
    (jenkinsFresh 1 (fun _ => 1) (fun _ => 1) 2 3).run (forceCalls ([] ++ [(fun _ => 1, true)] ++ [(fun _ => 3, true)]))
      = .ok (o ++ [(.force (fun _ => 3) true, .glob F dF)], j1) ∧
    (jenkinsFresh 1 (fun _ => 1) (fun _ => 1) 2 3).run (forceCalls ([] ++ [(fun _ => 1, true)] ++ [(fun _ => 3, true)]
        ++ [(fun _ => 3/2, true), (fun _ => 7, false), (fun _ => 5/2, true)] ++ [(fun _ => 3, true)]))
      = .ok (o' ++ [(.force (fun _ => 3) true, .glob F dF')], j1) :=
  C112_jenkins_return 1 _ _ 2 3 (by norm_num) (by norm_num) [] _ _ _ (by
    intro p hp hb
    simp only [List.mem_cons, List.not_mem_nil, or_false] at hp
    rcases hp with rfl | rfl | rfl
    · norm_num [vdot]
    · simp at hb
    · norm_num [vdot])

/-- Masing's rule for a constructed Iwan element loaded to 1 and unloaded to -1/2. -/
example : ∃ f1 f fh : ℝ,
    (iwanRun (Iwan.new 1 1 (-1/2) (1/10) 100 1) (0, fun _ => 0) [(1, true)]).1 = [f1] ∧
    (iwanRun (Iwan.new 1 1 (-1/2) (1/10) 100 1) (0, fun _ => 0) [(1, true), (-1/2, true)]).1 = [f1, f] ∧
    (iwanRun (Iwan.new 1 1 (-1/2) (1/10) 100 1) (0, fun _ => 0) [((1 - -1/2) / 2, true)]).1 = [fh] ∧
    f = f1 - 2 * fh :=
  C112_iwan_masing _ (fun k _ => (C36_constructed one_pos one_pos (by norm_num) (by norm_num) (by norm_num) le_rfl k).1.le)
    1 (-1/2) true (by norm_num [abs_of_nonneg, abs_of_neg])

/-- The hypothesis of return-point memory is needed: an excursion below the start changes the force. -/
example : (sliderAfter 1 2 (0, 0) [0, 1, -4, 1]).2 ≠ (sliderAfter 1 2 (0, 0) [0, 1]).2 := by
  norm_num [sliderAfter, clip]

/-- Masing's rule beyond `-X1` fails. -/
example : (sliderAfter 1 2 (0, 0) [1, -4]).2
    ≠ (sliderAfter 1 2 (0, 0) [1]).2 - 2 * (sliderAfter 1 2 (0, 0) [(1 - -4) / 2]).2 := by
  norm_num [sliderAfter, clip]

/-- Values on a branch of unloading: limit 2, loaded to 3 (force 2), at 1 the force is 0. -/
example : (sliderAfter 1 2 (0, 0) [3]).2 = 2 ∧ (sliderAfter 1 2 (0, 0) [3, 1]).2 = 0 ∧
    (sliderAfter 1 2 (0, 0) [3, 1, 3]).2 = 2 := by
  norm_num [sliderAfter, clip]

end

end TMD
