import Verif.Model.Basic

/-!
# Model of `tmdsimpy/utils/continuation.py`, lines 16-116

Callbacks act on the state of the world, here a type `σ`; an exception ends the sequence.
-/

namespace TMD

/-- A callback function: arguments `XlamP, dirP_prev`, effect on the world. -/
abbrev Callback (σ α : Type) := α → α → σ → Except Err σ

/-- `combine_callback_funs`, lines 55-58. -/
def combineCallbackFuns {σ α : Type} : List (Callback σ α) → Callback σ α
  | [], _, _, w => .ok w
  | fn :: rest, X, d, w =>
    match fn X d w with
    | .error e => .error e
    | .ok w' => combineCallbackFuns rest X d w'

/-- Content of a path: an archive with the rows of `XlamP` and `dirP_prev`, or a file that is not a complete
archive. -/
inductive FileContent (α : Type) where
  | archive (X d : List α)
  | broken

/-- The file system: `none` when the path does not exist. -/
abbrev Disk (α : Type) := String → Option (FileContent α)

/-- The path written by `np.savez`: the extension is appended when it is missing. -/
def savezPath (fname : String) : String := if fname.endsWith ".npz" then fname else fname ++ ".npz"

/-- `continuation_save`, lines 101-116. `same` is the condition for `np.vstack`: the new vector is as long as
the stored rows. A file that cannot be read as an archive is a `ValueError`. -/
def continuationSave {α : Type} (same : α → List α → Bool) (fname : String) : Callback (Disk α) α :=
  fun X d w =>
    match w fname with
    | none => .ok fun p => if p = savezPath fname then some (.archive [X] [d]) else w p
    | some .broken => .error .value
    | some (.archive Xs ds) =>
      if same X Xs = true ∧ same d ds = true then
        .ok fun p => if p = savezPath fname then some (.archive (Xs ++ [X]) (ds ++ [d])) else w p
      else .error .value

/-- The disk when the program is killed inside `np.savez` (line 116): the file was opened for writing, which
empties it, and the archive is not complete. -/
def saveInterrupted {α : Type} (fname : String) (w : Disk α) : Disk α :=
  fun p => if p = savezPath fname then some .broken else w p

/-- A sequence of saves. -/
def saveAll {α : Type} (same : α → List α → Bool) (fname : String) :
    List (α × α) → Disk α → Except Err (Disk α)
  | [], w => .ok w
  | (X, d) :: rest, w =>
    match continuationSave same fname X d w with
    | .error e => .error e
    | .ok w' => saveAll same fname rest w'

end TMD
