import Verif.Model.Basic
import Mathlib.Algebra.Order.Archimedean.Real.Basic

/-!
# Model of `tmdsimpy/postprocess/continuation.py`

`numpy.interp`, `numpy.linspace` and `scipy.interpolate.CubicHermiteSpline` are external; they are modelled
by the formulas in their sources. Numbers are real; `none` stands for NaN. The number of rows of an array is
passed before the array.
-/

namespace TMD

noncomputable section

open Classical in
/-- The bracketing index of `numpy.interp`: the largest `j ≤ k` with `xp[j] ≤ x`, and `0` if there is none. -/
def lastLe (xp : ℕ → ℝ) (x : ℝ) : ℕ → ℕ
  | 0 => 0
  | k + 1 => if xp (k + 1) ≤ x then k + 1 else lastLe xp x k

open Classical in
/-- `numpy.interp(x, xp, fp, left, right)` for one `x` and `n ≥ 1` sample points. -/
def npInterp (n : ℕ) (xp fp : ℕ → ℝ) (left right : Option ℝ) (x : ℝ) : Option ℝ :=
  if x < xp 0 then left
  else if xp (n - 1) < x then right
  else
    let j := lastLe xp x (n - 1)
    if j = n - 1 then some (fp j)
    else if xp j = x then some (fp j)
    else some ((fp (j + 1) - fp j) / (xp (j + 1) - xp j) * (x - xp j) + fp j)

/-- `np.all(np.diff(x) > 0)` for `n` entries. -/
def diffPos (n : ℕ) (x : ℕ → ℝ) : Prop := ∀ k, k + 1 < n → 0 < x (k + 1) - x k

/-- One row of `linear_interp`, lines 184-203; `M` rows in `X`, `n` reference values. Indexing beyond the rows
of `X` is an `IndexError`. -/
def linearRow (M : ℕ) (X : ℕ → ℕ → ℝ) (n : ℕ) (ref : ℕ → ℝ) (v : ℝ) : Except Err (Option (ℕ → ℝ)) :=
  let fi := npInterp n ref (fun i => (i : ℝ)) none none v
  let frac := fi.getD 0
  let whole := ⌊frac⌋₊
  let next := min (whole + 1) (n - 1)
  if whole < M ∧ next < M then
    if fi.isNone then .ok none
    else .ok (some fun c => X whole c + (frac - whole) * (X next c - X whole c))
  else .error .index

/-- All rows, in order. -/
def linearRows (M : ℕ) (X : ℕ → ℕ → ℝ) (n : ℕ) (ref : ℕ → ℝ) : List ℝ → Except Err (List (Option (ℕ → ℝ)))
  | [] => .ok []
  | v :: rest =>
    match linearRow M X n ref v with
    | .error e => .error e
    | .ok r =>
      match linearRows M X n ref rest with
      | .error e => .error e
      | .ok rs => .ok (r :: rs)

open Classical in
/-- `linear_interp`, lines 175-205. `X` has `M` rows and `N+1` columns; `refs` is `reference_values` with its
size, `none` for `None`. `numpy.interp` rejects an empty array of sample points. -/
def linearInterp (M N : ℕ) (X : ℕ → ℕ → ℝ) (new : List ℝ) (refs : Option (ℕ × (ℕ → ℝ))) :
    Except Err (List (Option (ℕ → ℝ))) :=
  let r := match refs with | none => (M, fun k => X k N) | some r => r
  if ¬ diffPos r.1 r.2 then .error .assertion
  else if r.1 = 0 then .error .value
  else linearRows M X r.1 r.2 new

/-- Coefficients of the cubic of `CubicHermiteSpline` on interval `k`, highest power first
(`scipy/interpolate/_cubic.py`). -/
def hermiteCoef (x y d : ℕ → ℝ) (k : ℕ) : ℝ × ℝ × ℝ × ℝ :=
  let dx := x (k + 1) - x k
  let slope := (y (k + 1) - y k) / dx
  let t := (d k + d (k + 1) - 2 * slope) / dx
  (t / dx, (slope - d k) / dx - t, d k, y k)

/-- Value of the spline with `n ≥ 2` points at `v`, `extrapolate=False`: the last interval is closed on the
right, outside the range the value is NaN. -/
def hermiteEval (n : ℕ) (x y d : ℕ → ℝ) (v : ℝ) : Option ℝ :=
  open Classical in
  if v < x 0 ∨ x (n - 1) < v then none
  else
    let k := min (lastLe x v (n - 1)) (n - 2)
    let c := hermiteCoef x y d k
    let s := v - x k
    some (c.1 * s ^ 3 + c.2.1 * s ^ 2 + c.2.2.1 * s + c.2.2.2)

/-- One row of `hermite_interp`, lines 128-138: `N` interpolated columns, the requested value as last. -/
def hermiteRow (M N : ℕ) (X G : ℕ → ℕ → ℝ) (v : ℝ) : ℕ → Option ℝ := fun c =>
  if c < N then hermiteEval M (fun k => X k N) (fun k => X k c) (fun k => G k c / G k N) v else some v

open Classical in
/-- `hermite_interp`, lines 114-140. `X` and `G` have `M` rows and `N+1` columns. `lams.max()` of an empty array
is a `ValueError`, indexing an empty array an `IndexError`, and the spline wants two points. -/
def hermiteInterp (M N : ℕ) (X G : ℕ → ℕ → ℝ) (lams : List ℝ) : Except Err (List (ℕ → Option ℝ)) :=
  if ¬ diffPos M (fun k => X k N) then .error .assertion
  else if ¬ ∀ k < M, 0 < G k N then .error .assertion
  else if lams = [] then .error .value
  else if M = 0 then .error .index
  else if ¬ ∀ v ∈ lams, v ≤ X (M - 1) N then .error .assertion
  else if ¬ ∀ v ∈ lams, X 0 N ≤ v then .error .assertion
  else if M < 2 then .error .value
  else .ok (lams.map (hermiteRow M N X G))

/-- `np.linspace(0, b, n)` entry `i`. -/
def linspace0 (b : ℝ) (n i : ℕ) : ℝ := if n = 1 then 0 else i * (b / ((n : ℝ) - 1))

/-- The new parameter values of `hermite_upsample`, lines 59-66, for `upsample_freq ≥ 0`. -/
def upsampleLams (M N : ℕ) (X : ℕ → ℕ → ℝ) (freq : ℕ) : List ℝ :=
  (List.range ((M - 1) * freq + 1)).map fun i =>
    (npInterp M (fun k => (k : ℝ)) (fun k => X k N) (some (X 0 N)) (some (X (M - 1) N))
      (linspace0 ((M : ℝ) - 1) ((M - 1) * freq + 1) i)).getD 0

/-- `hermite_upsample`, lines 59-70. For no rows `linspace` or `interp` raises a `ValueError`. -/
def hermiteUpsample (M N : ℕ) (X G : ℕ → ℕ → ℝ) (freq : ℕ) (new : Option (List ℝ)) :
    Except Err (List (ℕ → Option ℝ)) :=
  match new with
  | some l => hermiteInterp M N X G l
  | none => if M = 0 then .error .value else hermiteInterp M N X G (upsampleLams M N X freq)

end

end TMD
