import Verif.Model.Iwan

/-!
# `Iwan4Force.force` with its Jacobian (`nlforces/iwan4_element.py`)
-/

namespace TMD

noncomputable section

/-- `Iwan4Force.force(X, update_hist)`, `iwan4_element.py:226-240`: global force `T fnl`, Jacobian `T dfnldunl Q` and the stored history
`(up, fpsliders)` afterwards. `Q` (one row) and `T` (one column) have `n` entries. -/
def iwanForce (n : ℕ) (Q T : ℕ → ℝ) (w : Iwan) (s : ℝ × (ℕ → ℝ)) (X : ℕ → ℝ) (updateHist : Bool) :
    ((ℕ → ℝ) × (ℕ → ℕ → ℝ)) × (ℝ × (ℕ → ℝ)) :=
  let unl := vdot n Q X
  let o := iwanInstant w s.1 s.2 unl
  ((fun i => T i * o.1, fun i j => T i * o.2.1 * Q j), if updateHist then (unl, o.2.2) else s)

end

end TMD
