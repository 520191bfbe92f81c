import Verif.Model.Harmonic
import Verif.Model.ForceLaws

/-!
# Alternating frequency-time method

`N` global DOFs, `m` local DOFs. A vector of harmonic coefficients `U` has entry `r*N + e` for
coefficient `r` of DOF `e`.
-/

namespace TMD

noncomputable section

/-- `Nhc = 2*(h != 0).sum() + (h == 0).sum()`, nonlinear_force.py:252 (no check for repeats, unlike
`harmonic.Nhc`). -/
def nhcRaw (h : List ℕ) : ℕ :=
  2 * (h.filter (fun k => k ≠ 0)).length + (h.filter (fun k => k = 0)).length

/-- `Unl = (Q @ np.reshape(U, (N, Nhc), 'F')).T`, nonlinear_force.py:253. -/
def unlOf (N : ℕ) (Q : ℕ → ℕ → ℝ) (U : ℕ → ℝ) : ℕ → ℕ → ℝ :=
  fun r d => matMul N Q (fun e r => U (r*N + e)) d r

/-- `np.reshape(T @ F.T, (N*Nhc,), 'F')`, nonlinear_force.py:294. -/
def toGlobal (N m : ℕ) (T : ℕ → ℕ → ℝ) (F : ℕ → ℕ → ℝ) : ℕ → ℝ :=
  fun p => matMul m T (fun d r => F r d) (p % N) (p / N)

/-- `np.kron(np.eye(Nhc), A)` for `A` of shape `rows × cols`. -/
def kronEye (rows cols : ℕ) (A : ℕ → ℕ → ℝ) : ℕ → ℕ → ℝ :=
  fun p q => (if p / rows = q / cols then 1 else 0) * A (p % rows) (q % cols)

/-- `J[di::m, dj::m] = B`. -/
def setStride (m di dj : ℕ) (B : ℕ → ℕ → ℝ) (J : ℕ → ℕ → ℝ) : ℕ → ℕ → ℝ :=
  fun p q => if p % m = di ∧ q % m = dj then B (p / m) (q / m) else J p q

/-- `np.eye(Nhc)`. -/
def eye : ℕ → ℕ → ℝ := fun i j => if i = j then 1 else 0

/-- Output of an AFT evaluation: `Fnl`, `dFnldU`, `dFnldw`. -/
structure AftOut where
  F : ℕ → ℝ
  dU : ℕ → ℕ → ℝ
  dw : ℕ → ℝ

/-- What `local_force_history` of an instantaneous force returns (nonlinear_force.py:158-200):
`ft`, `dfdu`, `dfdud`, each with the rows of `unlt`. -/
structure LfhOut where
  ft : ℕ → ℕ → ℝ
  dfdu : ℕ → ℕ → ℝ
  dfdud : ℕ → ℕ → ℝ

/-- `local_force_history` of a force law that acts elementwise. -/
def elemLfh (loc : ℕ → ℝ → ℝ → Loc) (unlt unltdot : ℕ → ℕ → ℝ) : LfhOut :=
  ⟨fun j d => (loc d (unlt j d) (unltdot j d)).f, fun j d => (loc d (unlt j d) (unltdot j d)).dfdu,
   fun j d => (loc d (unlt j d) (unltdot j d)).dfdud⟩

open Classical in
/-- `InstantaneousForce.aft`, nonlinear_force.py:248-304. `lfh` is the `local_force_history` method.
`np.reshape(cst, (Nt,1,Nhc))` raises when the time series does not have `Nt` rows. -/
def instAft (N m : ℕ) (Q T : ℕ → ℕ → ℝ) (lfh : (ℕ → ℕ → ℝ) → (ℕ → ℕ → ℝ) → LfhOut)
    (U : ℕ → ℝ) (w : ℝ) (h : List ℕ) (Nt : ℕ) : Except Err AftOut :=
  let Nhc := nhcRaw h
  let Unl := unlOf N Q U
  match timeSeriesDeriv Nt h Unl 0, timeSeriesDeriv Nt h Unl 1,
      timeSeriesDeriv Nt h eye 0, timeSeriesDeriv Nt h eye 1 with
  | .ok unlt, .ok v1, .ok cst, .ok sct =>
    let unltdot : ℕ → ℕ → ℝ := fun j d => w * v1.val j d
    let o := lfh unlt.val unltdot
    if cst.rows ≠ Nt then .error .value else
    let dfduh : ℕ → ℕ → ℝ := fun j p => o.dfdu j (p % m) * cst.val j (p / m)
    let dfduh : ℕ → ℕ → ℝ := fun j p => dfduh j p + o.dfdud j (p % m) * (w * sct.val j (p / m))
    match getFourierCoeff h ⟨unlt.rows, o.ft⟩, getFourierCoeff h ⟨Nt, dfduh⟩,
        getFourierCoeff h ⟨unlt.rows, fun j d => o.dfdud j d * (unltdot j d / w)⟩ with
    | .ok F, .ok G, .ok dFdw =>
      let dFdUnl : ℕ → ℕ → ℕ → ℝ := fun r d c => G r (d + m*c)
      let J := (List.range m).foldl (fun J di => setStride m di di (fun r c => dFdUnl r di c) J)
        (fun _ _ => 0)
      .ok ⟨toGlobal N m T F,
        matMul (Nhc*m) (matMul (Nhc*m) (kronEye N m T) J) (kronEye m N Q),
        if ¬ (w = 0) then toGlobal N m T dFdw else fun _ => 0⟩
    | .error e, _, _ => .error e
    | _, .error e, _ => .error e
    | _, _, .error e => .error e
  | .error e, _, _, _ => .error e
  | _, .error e, _, _ => .error e
  | _, _, .error e, _ => .error e
  | _, _, _, .error e => .error e

/-- The double loop `for di … for dj … J[di::Ndnl, dj::Ndnl] = dFdUnl[:, di, dj, :]`,
general_poly_stiffness.py:217-220, nonlinear_force.py:652-655. -/
def assembleJ (m : ℕ) (dFdUnl : ℕ → ℕ → ℕ → ℕ → ℝ) : ℕ → ℕ → ℝ :=
  (List.range m).foldl (fun J di => (List.range m).foldl
    (fun J dj => setStride m di dj (fun r c => dFdUnl r di dj c) J) J) (fun _ _ => 0)

/-- Second half of `GenPolyForce.aft` and `HystereticForce.aft` (general_poly_stiffness.py:195-226,
nonlinear_force.py:640-664): from the time series `ft` and `dfduh[t, d, e, c]` to the global arrays. The
column of the flattened gradient is `d + m*e + m²*c` (Fortran order). `dFnldw` is zero. -/
def aftTail (N m : ℕ) (Q T : ℕ → ℕ → ℝ) (h : List ℕ) (Nt rows : ℕ) (ft : ℕ → ℕ → ℝ)
    (dfduh : ℕ → ℕ → ℕ → ℕ → ℝ) : Except Err AftOut :=
  let Nhc := nhcRaw h
  if rows ≠ Nt then .error .value else
  match getFourierCoeff h ⟨rows, ft⟩,
      getFourierCoeff h ⟨Nt, fun j p => dfduh j (p % m) (p / m % m) (p / m / m)⟩ with
  | .ok F, .ok G =>
    let J := assembleJ m (fun r d e c => G r (d + m*e + m*m*c))
    .ok ⟨toGlobal N m T F,
      matMul (Nhc*m) (matMul (Nhc*m) (kronEye N m T) J) (kronEye m N Q), fun _ => 0⟩
  | .error e, _ => .error e
  | _, .error e => .error e

/-- `GenPolyForce.aft`, general_poly_stiffness.py:177-226. -/
def genPolyAft (N m cnl : ℕ) (Q T Emat : ℕ → ℕ → ℝ) (qq : ℕ → ℕ → ℕ)
    (U : ℕ → ℝ) (w : ℝ) (h : List ℕ) (Nt : ℕ) : Except Err AftOut :=
  let Unl := unlOf N Q U
  match timeSeriesDeriv Nt h Unl 0, timeSeriesDeriv Nt h Unl 1, timeSeriesDeriv Nt h eye 0 with
  | .ok unlt, .ok v1, .ok cst =>
    let o := fun j => genPolyLoc m cnl Emat qq (unlt.val j) (fun d => w * v1.val j d)
    aftTail N m Q T h Nt unlt.rows (fun j => (o j).1)
      (fun j d e c => (o j).2.1 d e * cst.val j c)
  | .error e, _, _ => .error e
  | _, .error e, _ => .error e
  | _, _, .error e => .error e

/-- `HystereticForce.aft`, nonlinear_force.py:613-664. `lfh unlt unltdot cst unlth0` is the
`local_force_history` method: forces `ft[t, d]` and gradient `dfduh[t, d, e, c]`. -/
def hystAft (N m : ℕ) (Q T : ℕ → ℕ → ℝ)
    (lfh : TS ℕ → (ℕ → ℕ → ℝ) → TS ℕ → (ℕ → ℝ) → Except Err ((ℕ → ℕ → ℝ) × (ℕ → ℕ → ℕ → ℕ → ℝ)))
    (U : ℕ → ℝ) (w : ℝ) (h : List ℕ) (Nt : ℕ) : Except Err AftOut :=
  let Unl := unlOf N Q U
  match timeSeriesDeriv Nt h Unl 0, timeSeriesDeriv Nt h Unl 1, timeSeriesDeriv Nt h eye 0 with
  | .ok unlt, .ok v1, .ok cst =>
    match lfh unlt (fun j d => w * v1.val j d) cst (Unl 0) with
    | .ok (ft, dfduh) => aftTail N m Q T h Nt unlt.rows ft dfduh
    | .error e => .error e
  | .error e, _, _ => .error e
  | _, .error e, _ => .error e
  | _, _, .error e => .error e

end

end TMD
