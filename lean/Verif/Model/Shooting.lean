import Verif.Model.System

/-!
# Model of `VibrationSystem.shooting_res` and `postprocess/shooting.py`

`scipy.integrate.solve_ivp` is a parameter. It is called with the time span `(0, Period)`, `max_step=Period/Nt` and
`t_eval = range(Nt+1)*Period/Nt`; the model keeps the right-hand side, `Period`, the length of the state, the
initial state and `Nt`. Its result may have fewer than `Nt+1` columns: the routine returns what it has when it
gives up before the end of the span, and the code does not look at `success` or `status`.
-/

namespace TMD

noncomputable section

/-- `ivp_res['y']`: number of columns and entries (state index, column). -/
structure IvpOut where
  cols : ℕ
  y : ℕ → ℕ → ℝ

/-- `solve_ivp`: right-hand side, end of the time span, length of the state, initial state, `Nt`. -/
abbrev SolveIvp := (ℝ → (ℕ → ℝ) → Except Err (ℕ → ℝ)) → ℝ → ℕ → (ℕ → ℝ) → ℕ → Except Err IvpOut

/-- Length of the augmented state, vibration_system.py:1117. -/
def shootLen (nd : ℕ) : ℕ := 2 * nd + (2 * nd * (2 * nd) + 2 * nd)

/-- `_shooting_state_space` on the flat state: unpacking 2068-2073, packing 2115-2117. -/
def shootField (S : VibSys) (Minv : ℕ → ℕ → ℝ) (Fl : ℕ → ℝ) (omega t : ℝ) (y : ℕ → ℝ) : Except Err (ℕ → ℝ) :=
  let nd := S.nd
  match shootingStateSpace S Minv t (sl 0 nd y) (sl nd (2*nd) y) (fun i j => y (2*nd + (i*(2*nd) + j)))
      (fun i => y (2*nd + (2*nd*(2*nd) + i))) Fl omega with
  | .error e => .error e
  | .ok o => .ok (hcat nd o.Udot (hcat nd o.Vdot
      (hcat (2*nd*(2*nd)) (fun k => o.Phidot (k / (2*nd)) (k % (2*nd))) o.dwdot)))

/-- Initial augmented state, vibration_system.py:1117. -/
def shootInit (nd : ℕ) (Uw : ℕ → ℝ) : ℕ → ℝ :=
  hcat (2*nd) Uw (hcat (2*nd*(2*nd)) (fun k => if k / (2*nd) = k % (2*nd) then 1 else 0) (fun _ => 0))

/-- What `shooting_res` returns with `return_aux=True`. `cols` is the number of columns of `y_t`. -/
structure ShootRes where
  R : ℕ → ℝ
  dRdU : ℕ → ℕ → ℝ
  dRdw : ℕ → ℝ
  monodromy : ℕ → ℕ → ℝ
  yt : ℕ → ℕ → ℝ
  ydot : ℕ → ℕ → ℝ
  cols : ℕ

/-- `shooting_res`, vibration_system.py:1099-1151. `len` is `Uw.shape[0]`. A result without columns is the empty
list in SciPy, for which `[:, -1]` is a `TypeError`. -/
def shootingRes (ivp : SolveIvp) (S : VibSys) (Minv : ℕ → ℕ → ℝ) (Uw : ℕ → ℝ) (len : ℕ) (Fl : ℕ → ℝ) (Nt : ℕ) :
    Except Err ShootRes :=
  let nd := S.nd
  if ¬ S.forces.all (fun f => f.ftype == 0) then .error .assertion
  else if len - 1 ≠ 2*nd then .error .assertion
  else
    let w := Uw (len - 1)
    let Period := 2 * Real.pi / w
    let ydotfun := shootField S Minv Fl w
    match ivp ydotfun Period (shootLen nd) (shootInit nd Uw) Nt with
    | .error e => .error e
    | .ok o =>
      if o.cols = 0 then .error .type
      else
        let Yf := fun i => o.y i (o.cols - 1)
        match ydotfun Period Yf with
        | .error e => .error e
        | .ok Yd =>
          let mono := fun i j => Yf (2*nd + (i*(2*nd) + j))
          .ok {
            R := fun i => Yf i - Uw i
            dRdU := fun i j => mono i j - if i = j then 1 else 0
            dRdw := fun i => Yd i * (2 * Real.pi) * (-1 / w^2) + Yf (2*nd + (2*nd*(2*nd) + i))
            monodromy := mono
            yt := fun i k => o.y i k
            ydot := fun i k => o.y (nd + i) k
            cols := o.cols }

/-- `time_stability` for one solution point, postprocess/shooting.py:72-93. `eigAbs` are the absolute values of
`np.linalg.eigvals` (a parameter); the assignment `y_t[:, :, i] = ...` into `Nt+1` columns fails for another number
of columns, except that one column is broadcast. -/
def timeStability (ivp : SolveIvp) (eigAbs : ℕ → (ℕ → ℕ → ℝ) → ℕ → ℝ) (S : VibSys) (Minv : ℕ → ℕ → ℝ) (Uw : ℕ → ℝ)
    (len : ℕ) (Fl : ℕ → ℝ) (Nt : ℕ) : Except Err ((ℕ → ℕ → ℝ) × (ℕ → ℕ → ℝ) × Prop × ℝ) :=
  match shootingRes ivp S Minv Uw len Fl Nt with
  | .error e => .error e
  | .ok r =>
    if r.cols ≠ Nt + 1 ∧ r.cols ≠ 1 then .error .value
    else
      let col := fun k => if r.cols = 1 then 0 else k
      if h : (Finset.range (2 * S.nd)).Nonempty then
        let m := (Finset.range (2 * S.nd)).sup' h (eigAbs (2 * S.nd) r.monodromy)
        .ok (fun i k => r.yt i (col k), fun i k => r.ydot i (col k), m ≤ 1, m)
      else .error .value

end

end TMD
