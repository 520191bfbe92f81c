import Verif.Model.JaxGrad
import Verif.Model.JaxVectorJenkins

/-!
# Model of the Jacobian of the JAX `VectorJenkins` (`jax/nlforces/vector_jenkins.py`)

As in Model/JaxGrad the program is written over the operations it uses. The indices of the reversal points are integers
that are found from the values of the displacements; they have no tangents.
-/

namespace TMD

noncomputable section

variable {α : Type} (J : JNum α)

/-- Body of the loop over the reversal points, vector_jenkins.py:340-346. -/
def gCritBody (inds : List ℕ) (u : ℕ → α) (kt Fs : ℝ) (ft : ℕ → α) (cind : ℕ) : ℕ → α :=
  let cur := inds.getD cind 0
  let prev := inds.getD (prevIdx inds.length cind) 0
  setRow ft cur (J.max (J.min (J.add (J.mul (J.const kt) (J.sub (u cur) (u prev))) (ft prev)) (J.const Fs)) (J.const (-Fs)))

/-- Force time series of `_local_aft_jenkins`, vector_jenkins.py:303-374, for enough samples; the body of the last loop is
the one of the serial element (179-204). -/
def gVectorHistory (val : α → ℝ) (Nt : ℕ) (u : ℕ → α) (kt Fs : ℝ) (u0 : α) (hmax : ℕ) : ℕ → α :=
  let K := hmax * 2 + 1
  let inds := jaxInds Nt (fun j => val (u j)) K
  let last := inds.getD (K - 1) 0
  let ft := setRow (fun _ => J.const 0) last (J.mul (J.const kt) (J.sub (u last) u0))
  let ft := foriLoop (gCritBody J inds u kt Fs) K ft
  let ft := foriLoop (gCritBody J inds u kt Fs) K ft
  (List.range' 1 (Nt - 1)).foldl (gJenkinsBody J Nt u kt Fs) ft

/-- `aft` of the JAX `VectorJenkins` with `jacfwd`, vector_jenkins.py:77-176, 235-432. -/
def jaxVectorAftGrad (N : ℕ) (Q T : ℕ → ℕ → ℝ) (kt Fs : ℝ) (u0 : EdfU0) (U : ℕ → ℝ) (h : List ℕ) (Nt : ℕ) :
    Except Err AftOut :=
  if (nhcRaw h * 1 + 1) / nhcRaw h ≠ 1 then .error .type else
  match timeSeriesDeriv Nt h (unlOf N Q U) 0 with
  | .error e => .error e
  | .ok ut =>
    if ut.rows < h.getLastD 0 * 2 + 1 then .error .value else
    jaxAftGrad N 1 Q T (fun Nt u z j _ =>
      gVectorHistory dualNum Dual.v Nt (fun j => u j 0) kt Fs (gStart dualNum u0 z 0) (h.getLastD 0) j) U h Nt

end

end TMD
