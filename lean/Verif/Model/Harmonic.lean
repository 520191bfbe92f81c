import Verif.Model.Basic
import Mathlib.Analysis.SpecialFunctions.Trigonometric.Basic
import Mathlib.Algebra.Order.Floor.Ring
import Mathlib.Data.List.Dedup

/-!
# Model of `tmdsimpy/utils/harmonic.py`

Harmonic lists `h` are `List ℕ`. A time series / coefficient array with `nd` columns is a
function `row → column → ℝ`; all routines act column by column, so the column index type `ι`
is left arbitrary.
-/

namespace TMD

noncomputable section

/-- `Nhc`, harmonic.py:42-47. `np.unique(h)` has as many entries as `h` iff there is no repeat. -/
def Nhc (h : List ℕ) : Except Err ℕ :=
  if h.dedup.length ≠ h.length then .error .assertion
  else .ok (2 * (h.filter (fun k => k ≠ 0)).length + (h.filter (fun k => k = 0)).length)

/-- `zi = 1*(h[0] == 0)`, harmonic.py:109 (and `h0` in other routines). -/
def zi (h : List ℕ) : ℕ := if h.headI = 0 ∧ h ≠ [] then 1 else 0

/-- Body of the `for hind` loop of `harmonic_stiffness` on `E`, harmonic.py:117-138. -/
def hsBody (nd : ℕ) (M C K : ℕ → ℕ → ℝ) (w : ℝ) (h : List ℕ) (onlyC : Bool)
    (E : ℕ → ℕ → ℝ) (hind : ℕ) : ℕ → ℕ → ℝ :=
  let z := zi h
  let hk : ℝ := (h.getD hind 0 : ℕ)
  let TR := fun i j => (1.0 * hk * w) * C i j
  let BL := fun i j => (-1.0 * hk * w) * C i j
  let E := setBlock E (nd * (hind*2 - z)) (nd * (hind*2 - z + 1))
                      (nd * (hind*2 - z + 1)) (nd * (hind*2 - z + 2)) TR
  let E := setBlock E (nd * (hind*2 - z + 1)) (nd * (hind*2 - z + 2))
                      (nd * (hind*2 - z)) (nd * (hind*2 - z + 1)) BL
  if onlyC then E else
    let TL := fun i j => K i j + (-1.0 * (hk * w)^2) * M i j
    let BR := fun i j => K i j + (-1.0 * (hk * w)^2) * M i j
    let E := setBlock E (nd * (hind*2 - z)) (nd * (hind*2 - z + 1))
                        (nd * (hind*2 - z)) (nd * (hind*2 - z + 1)) TL
    setBlock E (nd * (hind*2 - z + 1)) (nd * (hind*2 - z + 2))
               (nd * (hind*2 - z + 1)) (nd * (hind*2 - z + 2)) BR

/-- Body of the `for hind` loop of `harmonic_stiffness` on `dEdw`, harmonic.py:140-158. -/
def hsGradBody (nd : ℕ) (M C : ℕ → ℕ → ℝ) (w : ℝ) (h : List ℕ) (onlyC : Bool)
    (dE : ℕ → ℕ → ℝ) (hind : ℕ) : ℕ → ℕ → ℝ :=
  let z := zi h
  let hk : ℝ := (h.getD hind 0 : ℕ)
  let TRdw := fun i j => hk * C i j
  let BLdw := fun i j => (-1.0 * hk) * C i j
  let dE := setBlock dE (nd * (hind*2 - z)) (nd * (hind*2 - z + 1))
                      (nd * (hind*2 - z + 1)) (nd * (hind*2 - z + 2)) TRdw
  let dE := setBlock dE (nd * (hind*2 - z + 1)) (nd * (hind*2 - z + 2))
                      (nd * (hind*2 - z)) (nd * (hind*2 - z + 1)) BLdw
  if onlyC then dE else
    let TLdw := fun i j => (-2.0 * w * hk^2) * M i j
    let BRdw := fun i j => (-2.0 * w * hk^2) * M i j
    let dE := setBlock dE (nd * (hind*2 - z)) (nd * (hind*2 - z + 1))
                        (nd * (hind*2 - z)) (nd * (hind*2 - z + 1)) TLdw
    setBlock dE (nd * (hind*2 - z + 1)) (nd * (hind*2 - z + 2))
               (nd * (hind*2 - z + 1)) (nd * (hind*2 - z + 2)) BRdw

/-- Result of `harmonic_stiffness`: `(E, dEdw)` or `(E,)`. `size` is the number of rows
(and columns) of `E`. -/
structure HSOut where
  size : ℕ
  E : ℕ → ℕ → ℝ
  dEdw : Option (ℕ → ℕ → ℝ)

/-- The loop range `range(zi, h.shape[0])`, harmonic.py:117. -/
def hsRange (h : List ℕ) : List ℕ := List.range' (zi h) (h.length - zi h)

/-- `harmonic_stiffness`, harmonic.py:99-163. `M, C, K` are `nd × nd`.
Simplification: matrices are total functions, so writes outside the allocated
`(Nhc*nd, Nhc*nd)` array (possible only if harmonic 0 is listed but not first, which the
docstring excludes) are not reported as NumPy shape errors. -/
def harmonicStiffness (nd : ℕ) (M C K : ℕ → ℕ → ℝ) (w : ℝ) (h : List ℕ)
    (calcGrad : Bool := true) (onlyC : Bool := false) : Except Err HSOut :=
  match Nhc h with
  | .error e => .error e
  | .ok n =>
  if h = [] then .error .index else
  let E0 : ℕ → ℕ → ℝ := fun _ _ => 0
  let E1 := if zi h = 1 ∧ onlyC = false then setBlock E0 0 nd 0 nd K else E0
  let E := (hsRange h).foldl (hsBody nd M C K w h onlyC) E1
  if calcGrad then
    let dE := (hsRange h).foldl (hsGradBody nd M C w h onlyC) (fun _ _ => 0)
    (.ok ⟨n * nd, E, some dE⟩)
  else
    (.ok ⟨n * nd, E, none⟩)

/-- `np.max(h)`, harmonic.py:208 (only used for non-empty `h`). -/
def hmax (h : List ℕ) : ℕ := h.foldr max 0

/-- Fancy-index assignment `X[2*hs-1] = X0[r0::2]; X[2*hs] = X0[r0+1::2]`
(harmonic.py:214-218): row `2*hs[i]-1` receives `X0[r0+2i]`, row `2*hs[i]` receives
`X0[r0+2i+1]`, in list order (a later duplicate wins). -/
def scatter {ι : Type} (X0 : ℕ → ι → ℝ) : List ℕ → ℕ → (ℕ → ι → ℝ) → (ℕ → ι → ℝ)
  | [], _, X => X
  | k :: hs, r, X => scatter X0 hs (r + 2) (setRow (setRow X (2*k - 1) (X0 r)) (2*k) (X0 (r+1)))

/-- `X0full` before differentiation, harmonic.py:211-218. -/
def x0full {ι : Type} (h : List ℕ) (X0 : ℕ → ι → ℝ) : ℕ → ι → ℝ :=
  match h with
  | [] => fun _ _ => 0
  | k :: hs =>
    if k = 0 then scatter X0 hs 1 (setRow (fun _ _ => 0) 0 (X0 0))
    else scatter X0 (k :: hs) 0 (fun _ _ => 0)

/-- `D1`, harmonic.py:224-236: `for k in h[h != 0]`. -/
def d1 (h : List ℕ) : ℕ → ℕ → ℝ :=
  (h.filter (fun k => k ≠ 0)).foldl (fun (D : ℕ → ℕ → ℝ) (k : ℕ) =>
    let cosrows := (k-1)*2 + 1
    let sinrows := (k-1)*2 + 2
    let D := setRow D cosrows (setRow (D cosrows) sinrows (k : ℝ))
    setRow D sinrows (setRow (D sinrows) cosrows (-1 * (k : ℝ)))) (fun _ _ => 0)

/-- The bins handed to `ifft`, harmonic.py:254-259, for `X0full` with `2*Nht+1` rows.
`X0full[-2:0:-2]` runs over rows `2*Nht-1, 2*Nht-3, …, 1` and `X0full[-1:1:-2]` over
`2*Nht, …, 2`. -/
def tsBins {ι : Type} (Nht : ℕ) (X : ℕ → ι → ℝ) (k : ℕ) (d : ι) : ℂ :=
  (if k = 0 then (2 * X 0 d : ℂ)
   else if k ≤ Nht then X (2*k - 1) d - Complex.I * X (2*k) d
   else if k = Nht + 1 then 0
   else X (2*(2*Nht + 2 - k) - 1) d + Complex.I * X (2*(2*Nht + 2 - k)) d)
  * (((2*Nht + 2 : ℕ) : ℂ) / 2)

/-- `numpy.fft.ifft` along the rows for `N` rows, column `d` (definition of the inverse DFT). -/
def ifft {ι : Type} (N : ℕ) (X : ℕ → ι → ℂ) (j : ℕ) (d : ι) : ℂ :=
  (1 / (N : ℂ)) * ∑ k ∈ Finset.range N,
    X k d * Complex.exp (2 * Real.pi * Complex.I * j * k / N)

/-- `numpy.fft.fft` along the rows for `N` rows, column `d` (definition of the DFT). -/
def fft {ι : Type} (N : ℕ) (x : ℕ → ι → ℝ) (k : ℕ) (d : ι) : ℂ :=
  ∑ j ∈ Finset.range N, (x j d : ℂ) * Complex.exp (-(2 * Real.pi * Complex.I * j * k / N))

/-- A time series: number of rows and row data. -/
structure TS (ι : Type) where
  rows : ℕ
  val : ℕ → ι → ℝ

/-- `time_series_deriv`, harmonic.py:206-264; the JAX version
(`tmdsimpy/jax/harmonic_utils.py:26-154`) has the same body. `int(Nt/2 - 1)` is `Nt/2 - 1`
on naturals because the preceding assertion forces `Nt ≥ 2`. -/
def timeSeriesDeriv {ι : Type} (Nt : ℕ) (h : List ℕ) (X0 : ℕ → ι → ℝ) (order : ℕ) :
    Except Err (TS ι) :=
  if h = [] then .error .index else
  if ¬ ((h.filter (fun k => k = 0)).length = 0 ∨ h.headI = 0) then .error .assertion else
  let Nh := hmax h
  let X := x0full h X0
  if ¬ (Nt > 2*Nh + 1) then .error .assertion else
  let X := if order > 0 then matMul (2*Nh+1) (matPow (2*Nh+1) (d1 h) order) X else X
  let Nht := Nt/2 - 1
  -- `np.vstack` with zero rows
  let X : ℕ → ι → ℝ := fun r d => if r < 2*Nh+1 then X r d else 0
  let N := 2*Nht + 2
  .ok ⟨N, fun j d => (ifft N (tsBins Nht X) j d).re⟩

/-- Loop of `get_fourier_coeff`, harmonic.py:315-318: fills rows from `r` on. -/
def gfcLoop {ι : Type} (N : ℕ) (x : ℕ → ι → ℝ) :
    List ℕ → ℕ → (ℕ → ι → ℝ) → Except Err (ℕ → ι → ℝ)
  | [], _, v => .ok v
  | k :: hs, r, v =>
    if k ≥ N then .error .index else
    let v := setRow v r (fun d => (fft N x k d).re / ((N : ℝ)/2))
    let v := setRow v (r+1) (fun d => -(fft N x k d).im / ((N : ℝ)/2))
    gfcLoop N x hs (r+2) v

/-- `get_fourier_coeff`, harmonic.py:297-321 (JAX: `harmonic_utils.py:157-222`). -/
def getFourierCoeff {ι : Type} (h : List ℕ) (x : TS ι) : Except Err (ℕ → ι → ℝ) :=
  if h = [] then .error .index else
  if ¬ ((h.filter (fun k => k = 0)).length = 0 ∨ h.headI = 0) then .error .assertion else
  if x.rows = 0 then .error .value else
  if h.headI = 0 then
    let v := setRow (fun _ _ => 0) 0 (fun d => (fft x.rows x.val 0 d).re / (x.rows : ℝ))
    gfcLoop x.rows x.val h.tail 1 v
  else
    gfcLoop x.rows x.val h 0 (fun _ _ => 0)

/-- Mean of `|X[a:b]|`, harmonic.py:391. -/
def meanAbs (X : ℕ → ℝ) (a b : ℕ) : ℝ :=
  (∑ i ∈ Finset.Ico a b, |X i|) / ((b - a : ℕ) : ℝ)

/-- Loop of `harmonic_wise_conditioning`, harmonic.py:380-391. State: `haszero`, `CtoP`. -/
def hwcLoop (Ndof : ℕ) (X : ℕ → ℝ) :
    List ℕ → ℕ → ℕ → (ℕ → ℝ) → Except Err (ℕ → ℝ)
  | [], _, _, P => .ok P
  | k :: hs, hindex, haszero, P =>
    if k = 0 then
      if ¬ (hindex = 0) then .error .assertion else
      let P := setSlice P 0 Ndof (fun i => max (P (0 + i)) (meanAbs X 0 Ndof))
      hwcLoop Ndof X hs (hindex + 1) 1 P
    else
      let a := (2*hindex - haszero) * Ndof
      let b := (2*hindex + 2 - haszero) * Ndof
      let P := setSlice P a b (fun i => max (P (a + i)) (meanAbs X a b))
      hwcLoop Ndof X hs (hindex + 1) haszero P

/-- `harmonic_wise_conditioning` with a float `delta`, harmonic.py:362-396.
`len` is `X.shape[0]`; returns the size of `CtoP` and its entries. `m ≤ 0` (no extras) skips
the trailing update. -/
def harmonicWiseConditioning (len : ℕ) (X : ℕ → ℝ) (Ndof : ℕ) (h : List ℕ) (delta : ℝ) :
    Except Err (ℕ × (ℕ → ℝ)) :=
  match Nhc h with
  | .error e => .error e
  | .ok n =>
  match hwcLoop Ndof X h 0 0 (fun _ => delta) with
  | .error e => .error e
  | .ok P =>
  if n * Ndof < len then
    let m := len - n * Ndof
    .ok (len, setSlice P (len - m) len (fun i => max (P (len - m + i)) |X (len - m + i)|))
  else
    .ok (len, P)

/-- Number of entries of `CtoP` in the array-`delta` branch before the loop,
harmonic.py:369-377: `(2*Ndof)*(H+extras)` entries, minus `Ndof` if harmonic 0 is listed first,
then `CtoP[:(m-2*Ndof)]` if there are `m > 0` extras. NumPy semantics of the stop index
`s = m - 2*Ndof`: for `s ≥ 0` keep `min s size`, for `s < 0` drop the last `-s` entries. -/
def hwcArraySize (Ndof : ℕ) (h : List ℕ) (m : ℕ) : ℕ :=
  let size := Ndof*2 * (h.length + (if m > 0 then 1 else 0)) - Ndof * zi h
  if m > 0 then
    if m ≥ 2*Ndof then min (m - 2*Ndof) size else size - (2*Ndof - m)
  else size

/-- `harmonic_wise_conditioning` with an array `delta` (one entry per harmonic and, if there are
extras, one for them), harmonic.py:362-396. `np.ones((2*Ndof, H+extras))*delta` flattened in
column order puts `delta[q]` at positions `2*Ndof*q .. 2*Ndof*(q+1)-1`, of which the first `Ndof`
are dropped if harmonic 0 is first. If fewer than `m` entries are left, the last update is a NumPy
broadcast error (`ValueError`).
Simplification: the length of `delta` is assumed to match (otherwise NumPy raises earlier). -/
def harmonicWiseConditioningArr (len : ℕ) (X : ℕ → ℝ) (Ndof : ℕ) (h : List ℕ) (delta : ℕ → ℝ) :
    Except Err (ℕ × (ℕ → ℝ)) :=
  match Nhc h with
  | .error e => .error e
  | .ok n =>
  if h = [] then .error .index else
  let m := len - n * Ndof
  let size := hwcArraySize Ndof h m
  let P0 : ℕ → ℝ := fun i => delta ((i + Ndof * zi h) / (2*Ndof))
  match hwcLoop Ndof X h 0 0 P0 with
  | .error e => .error e
  | .ok P =>
  if m > 0 then
    if size < m then .error .value else
    .ok (size, setSlice P (size - m) size (fun i => max (P (size - m + i)) |X (len - m + i)|))
  else
    .ok (size, P)

/-- `zero_crossing`, harmonic.py:681-685, on a vector given as a list. `tol = none` is the
default `np.inf`. -/
def zeroCrossing (X : List ℝ) (tol : Option ℝ) (i : ℕ) : Prop :=
  -- TF = X[:-1]*X[1:] < 0, extended by False
  (∃ a b, X[i]? = some a ∧ X[i+1]? = some b ∧ a * b < 0) ∧
  -- np.abs(X) < zero_tol
  (∃ a, X[i]? = some a ∧ match tol with | none => True | some t => |a| < t)

/-- Python `x % m` on floats for `m > 0` (mathematical definition `x - m*⌊x/m⌋`). -/
def pyMod (x m : ℝ) : ℝ := x - m * ⌊x / m⌋

/-- `shift_pm_pi`, harmonic.py:708. Python parses `(phase + pi) % 2*pi` as
`((phase + pi) % 2) * pi`. -/
def shiftPmPi (phase : ℝ) : ℝ := (pyMod (phase + Real.pi) 2 * Real.pi) - Real.pi

/-- Body of the loop of `rotate_subtract_phase`, harmonic.py:774-788, on one row. -/
def rspBody (Uo : ℕ → ℝ) (Ndof : ℕ) (h : List ℕ) (ph1 : ℝ) (U : ℕ → ℝ) (hi : ℕ) : ℕ → ℝ :=
  let h0 := zi h
  let hc : ℝ := (h.getD (hi + h0) 0 : ℕ)
  let U := setSlice U ((h0+2*hi)*Ndof) ((h0+2*hi+1)*Ndof) (fun i =>
    Uo ((h0+2*hi)*Ndof + i) * Real.cos (hc * ph1)
      - Uo ((h0+2*hi+1)*Ndof + i) * Real.sin (hc * ph1))
  setSlice U ((h0+2*hi+1)*Ndof) ((h0+2*hi+2)*Ndof) (fun i =>
    Uo ((h0+2*hi)*Ndof + i) * Real.sin (hc * ph1)
      + Uo ((h0+2*hi+1)*Ndof + i) * Real.cos (hc * ph1))

/-- `rotate_subtract_phase`, harmonic.py:763-790, on one row of `U_orig` (rows are treated
independently, each with its own phase). -/
def rotateSubtractPhase (U : ℕ → ℝ) (Ndof : ℕ) (h : List ℕ) (phase : ℝ) (hRot : ℕ) :
    Except Err (ℕ → ℝ) :=
  if h = [] then .error .index else
  let ph1 := phase / hRot
  .ok ((List.range (h.length - zi h)).foldl (rspBody U Ndof h ph1) U)

end

end TMD
