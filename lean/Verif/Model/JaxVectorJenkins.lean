import Verif.Model.LocalForces

/-!
# JAX `VectorJenkins` (`jax/nlforces/vector_jenkins.py`)

The friction forces are computed on a fixed number of reversal points and then along the whole period. The derivatives are
in Model/JaxVectorGrad. The class requires one local DOF.
-/

namespace TMD

noncomputable section

open Classical

/-- Indices returned by `jax.lax.top_k(vector_set.T, K)` for a mask `p` of length `Nt`: the true entries before the false
ones, equal entries in the order of their index. vector_jenkins.py:322. -/
def topK (Nt : ℕ) (p : ℕ → Prop) (K : ℕ) : List ℕ :=
  ((List.range Nt).filter (fun i => decide (p i)) ++ (List.range Nt).filter (fun i => decide (¬ p i))).take K

/-- `inds = jnp.sort(inds)`, vector_jenkins.py:312-324; the mask is the criterion of the NumPy class, `isCrit`. -/
def jaxInds (Nt : ℕ) (u : ℕ → ℝ) (K : ℕ) : List ℕ := (topK Nt (isCrit Nt u) K).mergeSort (fun a b => decide (a ≤ b))

/-- Body of the loop over the reversal points, vector_jenkins.py:340-346; `inds[cind-1]` is the last entry for
`cind = 0`. -/
def jaxCritBody (inds : List ℕ) (u : ℕ → ℝ) (kt Fs : ℝ) (ft : ℕ → ℝ) (cind : ℕ) : ℕ → ℝ :=
  let cur := inds.getD cind 0
  let prev := inds.getD (prevIdx inds.length cind) 0
  setRow ft cur (max (min (kt * (u cur - u prev) + ft prev) Fs) (-Fs))

/-- Force time series of `_local_aft_jenkins`, vector_jenkins.py:303-374; `hmax` is `htuple[-1]`. `top_k` raises if it
is asked for more entries than there are. -/
def jaxVectorHistory (Nt : ℕ) (u : ℕ → ℝ) (kt Fs u0 : ℝ) (hmax : ℕ) : Except Err (ℕ → ℝ) :=
  let K := hmax * 2 + 1
  if Nt < K then .error .value else
  let inds := jaxInds Nt u K
  let last := inds.getD (K - 1) 0
  let ft := setRow (fun _ => (0 : ℝ)) last (kt * (u last - u0))
  let ft := foriLoop (jaxCritBody inds u kt Fs) K ft
  let ft := foriLoop (jaxCritBody inds u kt Fs) K ft
  .ok ((List.range' 1 (Nt - 1)).foldl (jaxJenkinsBody Nt u kt Fs) ft)

/-- Force of `VectorJenkins.aft`, vector_jenkins.py:128-176 and 275-400; number of local DOFs as in `jaxAft` (277, 289). -/
def jaxVectorAft (N : ℕ) (Q T : ℕ → ℕ → ℝ) (kt Fs : ℝ) (u0 : EdfU0) (U : ℕ → ℝ) (h : List ℕ) (Nt : ℕ) :
    Except Err (ℕ → ℝ) :=
  let Ul := unlOf N Q U
  if (nhcRaw h * 1 + 1) / nhcRaw h ≠ 1 then .error .type else
  match timeSeriesDeriv Nt h Ul 0 with
  | .error e => .error e
  | .ok ut =>
    match jaxVectorHistory ut.rows (fun j => ut.val j 0) kt Fs (jaxStart u0 (Ul 0)) (h.getLastD 0) with
    | .error e => .error e
    | .ok ft =>
      match getFourierCoeff h ⟨ut.rows, fun j (_ : ℕ) => ft j⟩ with
      | .error e => .error e
      | .ok F => .ok (toGlobal N 1 T F)

end

end TMD
