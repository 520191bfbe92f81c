import Verif.Model.ContinuationUtils
import Verif.Props.Continuation

/-! # Properties of callback utilities -/

namespace TMD

variable {σ α : Type}

/-- C57: combining callbacks is calling each of them in order with the same arguments, stopping at the first
exception. -/
theorem C57_combine (l : List (Callback σ α)) (X d : α) (w : σ) :
    combineCallbackFuns l X d w = l.foldlM (fun w fn => fn X d w) w := by
  induction l generalizing w with
  | nil => rfl
  | cons a l ih =>
    rw [List.foldlM_cons]
    unfold combineCallbackFuns
    cases h : a X d w with
    | error e => rfl
    | ok w' => exact ih w'

/-- C57: nested combinations are the same as one flat list. -/
theorem C57_combine_append (l l' : List (Callback σ α)) (X d : α) (w : σ) :
    combineCallbackFuns (l ++ l') X d w = combineCallbackFuns [combineCallbackFuns l, combineCallbackFuns l'] X d w := by
  induction l generalizing w with
  | nil =>
    simp only [List.nil_append, combineCallbackFuns]
    split
    · rename_i e h; exact h
    · rename_i w' h; exact h
  | cons a l ih =>
    simp only [List.cons_append, combineCallbackFuns]
    cases h : a X d w with
    | error e => rfl
    | ok w' =>
      simp only
      rw [ih]
      rfl

/-- Two loggers: both see both calls in order. -/
example : combineCallbackFuns (σ := List (ℕ × ℕ)) (α := ℕ)
    [fun X _ w => .ok (w ++ [(0, X)]), fun X _ w => .ok (w ++ [(1, X)])] 7 8 [] = .ok [(0, 7), (1, 7)] := rfl

theorem endsWith_savez {fname : String} (h : fname.endsWith ".npz" = true) : savezPath fname = fname := if_pos h

/-- C62: after any sequence of saves on a path with the extension `.npz` that does not exist before, the file
holds exactly the saved points and directions in order; other paths are unchanged. -/
theorem C62_history {same : α → List α → Bool} {fname : String} (hn : fname.endsWith ".npz" = true)
    (l : List (α × α)) (hl : l ≠ []) (w : Disk α) (hw : w fname = none)
    (hsame : ∀ l' : List (α × α), ∀ x ∈ l, (∀ y ∈ l', y ∈ l) →
      same x.1 (l'.map Prod.fst) = true ∧ same x.2 (l'.map Prod.snd) = true) :
    ∃ w', saveAll same fname l w = .ok w' ∧ w' fname = some (.archive (l.map Prod.fst) (l.map Prod.snd)) ∧
      ∀ p, p ≠ fname → w' p = w p := by
  have key : ∀ (rest done : List (α × α)) (w0 : Disk α), done ≠ [] → (∀ x ∈ done ++ rest, x ∈ l) →
      w0 fname = some (.archive (done.map Prod.fst) (done.map Prod.snd)) → ∃ w', saveAll same fname rest w0 = .ok w' ∧
      w' fname = some (.archive ((done ++ rest).map Prod.fst) ((done ++ rest).map Prod.snd)) ∧
      ∀ p, p ≠ fname → w' p = w0 p := by
    intro rest
    induction rest with
    | nil => intro done w0 _ _ h0; exact ⟨w0, rfl, by rw [List.append_nil]; exact h0, fun _ _ => rfl⟩
    | cons x rest ih =>
      intro done w0 hd hm h0
      obtain ⟨s1, s2⟩ := hsame done x (hm x (by simp)) (fun y hy => hm y (by simp [hy]))
      obtain ⟨w', h1, h2, h3⟩ := ih (done ++ [x]) (fun p => if p = savezPath fname then
        some (.archive (done.map Prod.fst ++ [x.1]) (done.map Prod.snd ++ [x.2])) else w0 p) (by simp)
        (by rw [List.append_assoc]; exact hm) (by rw [endsWith_savez hn]; simp)
      refine ⟨w', ?_, by rw [h2]; simp, fun p hp => ?_⟩
      · unfold saveAll continuationSave
        simp only [h0, s1, s2, and_self, if_true]
        exact h1
      · rw [h3 p hp, endsWith_savez hn, if_neg hp]
  cases l with
  | nil => exact absurd rfl hl
  | cons x rest =>
    obtain ⟨w', h1, h2, h3⟩ := key rest [x] (fun p => if p = savezPath fname then some (.archive [x.1] [x.2]) else w p)
      (by simp) (by simp) (by rw [endsWith_savez hn]; simp)
    refine ⟨w', ?_, by simpa using h2, fun p hp => ?_⟩
    · unfold saveAll continuationSave
      simp only [hw]
      exact h1
    · rw [h3 p hp, endsWith_savez hn, if_neg hp]

/-- C62: a run that is killed between saves has saved everything so far: the disk after the first saves does not
depend on later ones. -/
theorem C62_between_saves {same : α → List α → Bool} {fname : String} (l l' : List (α × α)) (w : Disk α) :
    saveAll same fname (l ++ l') w = (match saveAll same fname l w with
      | .error e => .error e
      | .ok w' => saveAll same fname l' w') := by
  induction l generalizing w with
  | nil => rfl
  | cons x l ih =>
    obtain ⟨X, d⟩ := x
    simp only [List.cons_append, saveAll]
    cases h : continuationSave same fname X d w with
    | error e => rfl
    | ok w' => exact ih w'

/-- C62 does not hold for a crash during a save: the points saved before are lost, and later saves on that path
fail. -/
theorem C62_violated_crash {same : α → List α → Bool} {fname : String} (hn : fname.endsWith ".npz" = true) (w : Disk α)
    (X d : α) : saveInterrupted fname w fname = some .broken ∧
      continuationSave same fname X d (saveInterrupted fname w) = .error .value := by
  have h : saveInterrupted fname w fname = some .broken := by
    unfold saveInterrupted; rw [endsWith_savez hn, if_pos rfl]
  refine ⟨h, ?_⟩
  unfold continuationSave
  rw [h]

/-- C62 does not hold for a path without the extension: the existence check looks at another path than the one
that is written, so only the last point is kept. -/
theorem C62_violated_extension {same : α → List α → Bool} {fname : String} (hn : fname.endsWith ".npz" = false)
    (w : Disk α) (hw : w fname = none) (l : List (α × α)) (x : α × α) :
    ∃ w', saveAll same fname (l ++ [x]) w = .ok w' ∧ w' fname = none ∧
      w' (fname ++ ".npz") = some (.archive [x.1] [x.2]) := by
  have hne : savezPath fname = fname ++ ".npz" := by unfold savezPath; rw [hn]; rfl
  have hdiff : fname ≠ fname ++ ".npz" := by
    intro h
    have := congrArg String.length h
    rw [String.length_append] at this
    have h2 : ".npz".length = 4 := by decide
    omega
  have key : ∀ (l : List (α × α)) (w : Disk α), w fname = none → ∃ w', saveAll same fname (l ++ [x]) w = .ok w' ∧
      w' fname = none ∧ w' (fname ++ ".npz") = some (.archive [x.1] [x.2]) := by
    intro l
    induction l with
    | nil =>
      intro w hw
      refine ⟨fun p => if p = savezPath fname then some (.archive [x.1] [x.2]) else w p, ?_, ?_, ?_⟩
      · obtain ⟨X, d⟩ := x
        simp only [List.nil_append, saveAll, continuationSave, hw]
      · beta_reduce; rw [hne, if_neg hdiff, hw]
      · beta_reduce; rw [hne, if_pos rfl]
    | cons y l ih =>
      intro w hw
      obtain ⟨X, d⟩ := y
      obtain ⟨w', h1, h2⟩ := ih (fun p => if p = savezPath fname then some (.archive [X] [d]) else w p)
        (by rw [hne, if_neg hdiff, hw])
      refine ⟨w', ?_, h2⟩
      simp only [List.cons_append, saveAll, continuationSave, hw]
      exact h1
  exact key l w hw

/-- Three saves to a new file. -/
example : ∃ w', saveAll (α := ℕ) (fun _ _ => true) "a.npz" [(1, 10), (2, 20), (3, 30)] (fun _ => none) = .ok w' ∧
    w' "a.npz" = some (.archive [1, 2, 3] [10, 20, 30]) := by
  obtain ⟨w', h1, h2, _⟩ := C62_history (same := fun _ _ => true) (fname := "a.npz") (by decide +kernel)
    [(1, 10), (2, 20), (3, 30)] (by simp) (fun _ => none) rfl (by simp)
  exact ⟨w', h1, h2⟩

/-- C62: with `continuation_save` as the callback, the file holds after the run the returned rows in order,
followed by the undefined point of the final call. -/
theorem C62_run {sv : ContSolver} {N : ℕ} {cfg : ContCfg} {f : ContFun} {obj : ContObj} {X00 : ℕ → ℝ} {lam0 lam1 : ℝ}
    {out : ContRes} (hcb : cfg.callback = true) (h : Returns sv N cfg obj f X00 lam0 lam1 out) {fname : String}
    (hn : fname.endsWith ".npz" = true) (w : Disk (Option (ℕ → ℝ))) (hw : w fname = none) :
    ∃ w' ds, saveAll (fun _ _ => true) fname (out.cb.map fun c => (c.X, c.dir)) w = .ok w' ∧
      w' fname = some (.archive ((List.range out.n).map (fun k => some (out.rows k)) ++ [none]) ds) := by
  have hp := C57_points hcb h
  obtain ⟨w', h1, h2, _⟩ := C62_history (same := fun _ _ => true) hn (out.cb.map fun c => (c.X, c.dir))
    (by intro he; rw [List.map_eq_nil_iff] at he; rw [he] at hp; simp at hp) w hw (by simp)
  refine ⟨w', (out.cb.map fun c => (c.X, c.dir)).map Prod.snd, h1, ?_⟩
  rw [h2, List.map_map]
  have : (Prod.fst ∘ fun c : CbCall => (c.X, c.dir)) = CbCall.X := rfl
  rw [this, hp]

end TMD
