import Verif.Model.AFT
import Mathlib.Analysis.SpecialFunctions.Pow.Real
import Mathlib.Analysis.SpecialFunctions.Log.Basic
import Mathlib.Data.Nat.Nth

/-!
# Model of `tmdsimpy/vibration_system.py`

Arrays are functions of the index with documented lengths: a vector of unknowns of `hbm_res` has
`Nhc*nd + 1` entries, and so on. NumPy shape errors for other lengths are not modelled.
-/

namespace TMD

noncomputable section

/-- `x[a:b]`. -/
def sl (a b : ℕ) (x : ℕ → ℝ) : ℕ → ℝ := fun i => if i < b - a then x (a + i) else 0

/-- `np.hstack((x, y))` for `x` with `n` entries. -/
def hcat (n : ℕ) (x y : ℕ → ℝ) : ℕ → ℝ := fun i => if i < n then x i else y (i - n)

/-- `np.hstack((A, b.reshape(-1,1)))` for a matrix with `n` columns. -/
def hcatCol (n : ℕ) (A : ℕ → ℕ → ℝ) (b : ℕ → ℝ) : ℕ → ℕ → ℝ := fun i j => if j < n then A i j else b i

/-- A nonlinear force object as seen by a `VibrationSystem`: `nl_force_type()`, `force(X)`,
`aft(U, w, h, Nt, tol)` and `aft(U, w, h, Nt, tol, calc_grad=False)[0]` (an error for classes whose
`aft` has no such keyword). The internal state (history, friction coefficient) is fixed. -/
structure NLForce where
  ftype : ℕ
  force : (ℕ → ℝ) → Except Err ((ℕ → ℝ) × (ℕ → ℕ → ℝ))
  aft : (ℕ → ℝ) → ℝ → List ℕ → ℕ → ℝ → Except Err AftOut
  aftNoGrad : (ℕ → ℝ) → ℝ → List ℕ → ℕ → ℝ → Except Err (ℕ → ℝ)

/-- The state of a `VibrationSystem`, vibration_system.py:42-60; `nd = M.shape[0]`. -/
structure VibSys where
  nd : ℕ
  M : ℕ → ℕ → ℝ
  K : ℕ → ℕ → ℝ
  C : ℕ → ℕ → ℝ
  ab : Option (ℝ × ℝ)
  forces : List NLForce

/-- `VibrationSystem.__init__`, vibration_system.py:42-60. -/
def VibSys.init (nd : ℕ) (M K : ℕ → ℕ → ℝ) (C : Option (ℕ → ℕ → ℝ)) (ab : Option (ℝ × ℝ)) : VibSys :=
  let C' := match ab with
    | some ab => some (fun i j => ab.1 * M i j + ab.2 * K i j)
    | none => C
  ⟨nd, M, K, match C' with
    | none => fun _ _ => 0
    | some C => C, ab, []⟩

/-- `VibrationSystem.add_nl_force`, vibration_system.py:78. -/
def VibSys.addNlForce (S : VibSys) (f : NLForce) : VibSys := { S with forces := S.forces ++ [f] }

/-- `VibrationSystem.set_new_C`, vibration_system.py:255-269 (the warning is not modelled). -/
def VibSys.setNewC (S : VibSys) (C : Option (ℕ → ℕ → ℝ)) (ab : Option (ℝ × ℝ)) : VibSys :=
  let (C', S) := match ab with
    | some ab => (some (fun i j => ab.1 * S.M i j + ab.2 * S.K i j), { S with ab := some ab })
    | none => (C, S)
  match C' with
  | none => { S with C := fun _ _ => 0 }
  | some C => { S with C := C }

/-- Loop body of `static_res`, vibration_system.py:311-315. -/
def staticStep (U : ℕ → ℝ) (acc : Except Err ((ℕ → ℝ) × (ℕ → ℕ → ℝ))) (f : NLForce) :
    Except Err ((ℕ → ℝ) × (ℕ → ℕ → ℝ)) :=
  match acc with
  | .error e => .error e
  | .ok a =>
    match f.force U with
    | .error e => .error e
    | .ok o => .ok (fun i => a.1 i + o.1 i, fun i j => a.2 i j + o.2 i j)

/-- `VibrationSystem.static_res`, vibration_system.py:306-319. -/
def staticRes (S : VibSys) (U Fstatic : ℕ → ℝ) : Except Err ((ℕ → ℝ) × (ℕ → ℕ → ℝ)) :=
  match S.forces.foldl (staticStep U) (.ok (fun _ => 0, fun _ _ => 0)) with
  | .error e => .error e
  | .ok a => .ok (fun i => matVec S.nd S.K U i + a.1 i - Fstatic i, fun i j => S.K i j + a.2 i j)

/-- Value, and gradients if `calc_grad`. -/
structure ResOut where
  R : ℕ → ℝ
  grad : Option ((ℕ → ℕ → ℝ) × (ℕ → ℝ))

/-- Loop body of `total_aft` with gradients, vibration_system.py:379-384. -/
def aftStep (U : ℕ → ℝ) (w : ℝ) (h : List ℕ) (Nt : ℕ) (tol : ℝ) (acc : Except Err AftOut) (f : NLForce) :
    Except Err AftOut :=
  match acc with
  | .error e => .error e
  | .ok a =>
    match f.aft U w h Nt tol with
    | .error e => .error e
    | .ok o => .ok ⟨fun i => a.F i + o.F i, fun i j => a.dU i j + o.dU i j, fun i => a.dw i + o.dw i⟩

/-- Loop body of `total_aft` without gradients, vibration_system.py:390-393. -/
def aftStepNoGrad (U : ℕ → ℝ) (w : ℝ) (h : List ℕ) (Nt : ℕ) (tol : ℝ) (acc : Except Err (ℕ → ℝ)) (f : NLForce) :
    Except Err (ℕ → ℝ) :=
  match acc with
  | .error e => .error e
  | .ok a =>
    match f.aftNoGrad U w h Nt tol with
    | .error e => .error e
    | .ok o => .ok (fun i => a i + o i)

/-- `VibrationSystem.total_aft`, vibration_system.py:367-396. -/
def totalAft (S : VibSys) (U : ℕ → ℝ) (w : ℝ) (h : List ℕ) (Nt : ℕ) (tol : ℝ) (calcGrad : Bool) :
    Except Err ResOut :=
  match Nhc h with
  | .error e => .error e
  | .ok _ =>
    if calcGrad then
      match S.forces.foldl (aftStep U w h Nt tol) (.ok ⟨fun _ => 0, fun _ _ => 0, fun _ => 0⟩) with
      | .error e => .error e
      | .ok a => .ok ⟨a.F, some (a.dU, a.dw)⟩
    else
      match S.forces.foldl (aftStepNoGrad U w h Nt tol) (.ok (fun _ => 0)) with
      | .error e => .error e
      | .ok a => .ok ⟨a, none⟩

/-- `VibrationSystem.hbm_res`, vibration_system.py:464-483. `n = Nhc*nd` is the length of `Uw[:-1]`.
With `calc_grad` both called routines return gradients. -/
def hbmRes (S : VibSys) (Uw Fl : ℕ → ℝ) (h : List ℕ) (Nt : ℕ) (tol : ℝ) (calcGrad : Bool) :
    Except Err ResOut :=
  match Nhc h with
  | .error e => .error e
  | .ok nhc =>
    let n := nhc * S.nd
    let w := Uw n
    let U := sl 0 n Uw
    match harmonicStiffness S.nd S.M S.C S.K w h calcGrad false with
    | .error e => .error e
    | .ok E =>
      match totalAft S U w h Nt tol calcGrad with
      | .error e => .error e
      | .ok F =>
        let R := fun i => matVec n E.E U i + F.R i - Fl i
        if calcGrad then
          match E.dEdw, F.grad with
          | some dE, some g =>
            .ok ⟨R, some (fun i j => E.E i j + g.1 i j, fun i => matVec n dE U i + g.2 i)⟩
          | _, _ => .error .index
        else .ok ⟨R, none⟩

/-- `VibrationSystem.hbm_res_dFl`, vibration_system.py:545-564. -/
def hbmResdFl (S : VibSys) (UF : ℕ → ℝ) (w : ℝ) (Fl : ℕ → ℝ) (h : List ℕ) (Nt : ℕ) (tol : ℝ)
    (calcGrad : Bool) : Except Err ResOut :=
  if h = [] then .error .index else
  let h0 := zi h
  match Nhc h with
  | .error e => .error e
  | .ok nhc =>
    let n := nhc * S.nd
    let Fstat := setSlice Fl (h0 * S.nd) n (fun _ => 0)
    let Fdyn := setSlice Fl 0 (h0 * S.nd) (fun _ => 0)
    match hbmRes S (hcat n (sl 0 n UF) (fun _ => w)) (fun i => UF n * Fdyn i + Fstat i) h Nt tol calcGrad with
    | .error e => .error e
    | .ok o =>
      if calcGrad then
        match o.grad with
        | some g => .ok ⟨o.R, some (g.1, fun i => - Fdyn i)⟩
        | none => .error .index
      else .ok ⟨o.R, none⟩

/-- `VibrationSystem.linear_frf`, vibration_system.py:614-647, one frequency `w` (one row of `Xw`, the
columns of the arrays are independent). `eigs neigs` is `solver.eigs(K, M, subset_by_index=[0, neigs-1])`:
squared frequencies and mode shapes `V[i, j]`. -/
def linearFrf (S : VibSys) (w : ℝ) (Fl : ℕ → ℝ) (eigs : ℕ → (ℕ → ℝ) × (ℕ → ℕ → ℝ)) (neigs : ℕ)
    (Flsin : Option (ℕ → ℝ)) : Except Err (ℕ → ℝ) :=
  match S.ab with
  | none => .error .assertion
  | some ab =>
    let neigs := if neigs > S.nd then S.nd else neigs
    let Flsin := match Flsin with
      | none => fun _ => 0
      | some f => f
    let wnsq := (eigs neigs).1
    let V := (eigs neigs).2
    let wn := fun j => Real.sqrt (wnsq j)
    let f := fun j => ∑ i ∈ Finset.range S.nd, V i j * Fl i
    let fs := fun j => ∑ i ∈ Finset.range S.nd, V i j * Flsin i
    let z := fun j => ab.1 / wn j / 2 + ab.2 * wn j / 2
    let qcos := fun j => (((wn j)^2 - w^2) * f j - (2 * wn j * w * z j) * fs j)
      / (((wn j)^2 - w^2)^2 + (2 * wn j * w * z j)^2)
    let qsin := fun j => ((2 * wn j * w * z j) * f j + ((wn j)^2 - w^2) * fs j)
      / (((wn j)^2 - w^2)^2 + (2 * wn j * w * z j)^2)
    .ok (hcat S.nd (matVec neigs V qcos) (hcat S.nd (matVec neigs V qsin) (fun _ => w)))

/-- `np.kron(np.hstack((a*np.ones(h0), b*np.ones(Nhc-h0))), np.ones(Ndof))`. -/
def harmScale (h0 nd : ℕ) (a b : ℝ) : ℕ → ℝ := fun i => if i / nd < h0 then a else b

/-- `VibrationSystem.epmc_res`, vibration_system.py:716-830. `Uwxa` has `n + 3` entries, `n = Nhc*nd`. -/
def epmcRes (S : VibSys) (Uwxa Fl : ℕ → ℝ) (h : List ℕ) (Nt : ℕ) (tol : ℝ) (calcGrad : Bool) :
    Except Err ResOut :=
  match Nhc h with
  | .error e => .error e
  | .ok nhc =>
    if h = [] then .error .index else
    let n := nhc * S.nd
    let nd := S.nd
    let la := Uwxa (n + 2)
    let Amp : ℝ := 10 ^ la
    let h0 := zi h
    let Ascale := harmScale h0 nd 1 Amp
    let dAmpdla := Amp * Real.log 10
    let dAscaledla := harmScale h0 nd 0 dAmpdla
    let Fstat := fun i => harmScale h0 nd 1 0 i * Fl i
    let Fdyn := fun i => harmScale h0 nd 0 1 i * Fl i
    let w := Uwxa n
    let xi := Uwxa (n + 1)
    let U := sl 0 n Uwxa
    match harmonicStiffness nd S.M (fun i j => S.C i j - xi * S.M i j) S.K w h calcGrad false with
    | .error e => .error e
    | .ok E =>
      match totalAft S (fun i => Ascale i * U i) w h Nt tol calcGrad with
      | .error e => .error e
      | .ok F =>
        let u1 := sl (h0 * nd) ((h0 + 1) * nd) Uwxa
        let u2 := sl ((h0 + 1) * nd) ((h0 + 2) * nd) Uwxa
        let R : ℕ → ℝ := fun i =>
          if i < n then matVec n E.E (fun i => Ascale i * U i) i + F.R i - Fstat i
          else if i = n then vdot nd u1 (matVec nd S.M u1) + vdot nd u2 (matVec nd S.M u2) - 1
          else vdot n Fdyn U
        if calcGrad then
          match E.dEdw, F.grad, harmonicStiffness nd (fun _ _ => 0) (fun i j => - S.M i j) (fun _ _ => 0) w h
              false true with
          | some dE, some g, .ok Exi =>
            let J : ℕ → ℕ → ℝ := fun _ _ => 0
            let J := setBlock J 0 n 0 n (fun i j => (E.E i j + g.1 i j) * Ascale j)
            let J := setBlock J 0 n n (n+1) (fun i _ => matVec n dE (fun i => Ascale i * U i) i + g.2 i)
            let J := setBlock J 0 n (n+1) (n+2) (fun i _ => matVec n Exi.E (fun i => Ascale i * U i) i)
            let J := setBlock J n (n+1) (h0 * nd) ((h0+1) * nd)
              (fun _ j => ∑ k ∈ Finset.range nd, 2 * u1 k * S.M k j)
            let J := setBlock J n (n+1) ((h0+1) * nd) ((h0+2) * nd)
              (fun _ j => ∑ k ∈ Finset.range nd, 2 * u2 k * S.M k j)
            let J := setBlock J (n+1) (n+2) 0 n (fun _ j => Fdyn j)
            let dRda := setSlice (fun _ => 0) 0 n
              (matVec n (fun i j => E.E i j + g.1 i j) (fun i => dAscaledla i * U i))
            .ok ⟨R, some (J, dRda)⟩
          | _, _, .error e => .error e
          | _, _, _ => .error .index
        else .ok ⟨R, none⟩

/-- `VibrationSystem.hbm_amp_control_res`, vibration_system.py:1590-1642. `UFw` has `n + 2` entries. -/
def hbmAmpControlRes (S : VibSys) (UFw Fl : ℕ → ℝ) (h : List ℕ) (recov : ℕ → ℝ) (amp : ℝ) (order : ℕ)
    (Nt : ℕ) (tol : ℝ) (calcGrad : Bool) : Except Err ResOut :=
  match Nhc h with
  | .error e => .error e
  | .ok nhc =>
    if h = [] then .error .index else
    let nd := S.nd
    let n := nhc * nd
    let h0 := zi h
    let w := UFw (n + 1)
    let Uw := hcat n (sl 0 n UFw) (fun _ => w)
    let Fstat := setSlice Fl (h0 * nd) n (fun _ => 0)
    let Fdyn := setSlice Fl 0 (h0 * nd) (fun _ => 0)
    match hbmRes S Uw (fun i => Fstat i + Fdyn i * UFw n) h Nt tol calcGrad with
    | .error e => .error e
    | .ok o =>
      let u1c := sl (h0 * nd) ((1 + h0) * nd) UFw
      let u1s := sl ((1 + h0) * nd) ((2 + h0) * nd) UFw
      let udofc := vdot nd recov u1c
      let udofs := vdot nd recov u1s
      let Raug := w ^ (2 * order) * (udofc^2 + udofs^2) - amp^2
      let R := hcat n o.R (fun _ => Raug)
      if calcGrad then
        match o.grad with
        | none => .error .index
        | some g =>
          let dRaug := setSlice (fun _ => 0) (h0 * nd) ((1 + h0) * nd)
            (fun j => w ^ (2 * order) * (2 * udofc * recov j))
          let dRaug := setSlice dRaug ((1 + h0) * nd) ((2 + h0) * nd)
            (fun j => w ^ (2 * order) * (2 * udofs * recov j))
          let dRaugdw := (2 * order : ℝ) * w ^ ((2 * order : ℤ) - 1) * (udofc^2 + udofs^2)
          let J := fun i => if i < n then hcatCol n g.1 (fun i => - Fdyn i) i else dRaug
          .ok ⟨R, some (J, hcat n g.2 (fun _ => dRaugdw))⟩
      else .ok ⟨R, none⟩

/-- `VibrationSystem.hbm_amp_phase_control_res`, vibration_system.py:1728-1769. `UFcFsw` has `n + 3`
entries. -/
def hbmAmpPhaseRes (S : VibSys) (UFcFsw Fl : ℕ → ℝ) (h : List ℕ) (recov : ℕ → ℝ) (amp : ℝ) (order : ℕ)
    (Nt : ℕ) (tol : ℝ) (calcGrad : Bool) : Except Err ResOut :=
  match Nhc h with
  | .error e => .error e
  | .ok nhc =>
    if h = [] then .error .index else
    let nd := S.nd
    let n := nhc * nd
    let h0 := zi h
    let w := UFcFsw (n + 2)
    let f1 := sl (h0 * nd) ((h0 + 1) * nd) Fl
    let Flh := setSlice (fun _ => 0) 0 (h0 * nd) (sl 0 (h0 * nd) Fl)
    let Flh := setSlice Flh (h0 * nd) ((h0 + 1) * nd) (fun i => UFcFsw n * f1 i)
    let Flh := setSlice Flh ((h0 + 1) * nd) ((h0 + 2) * nd) (fun i => UFcFsw (n + 1) * f1 i)
    match hbmRes S (hcat n (sl 0 n UFcFsw) (fun _ => w)) Flh h Nt tol calcGrad with
    | .error e => .error e
    | .ok o =>
      let ampCos := w ^ order * vdot nd recov (sl (h0 * nd) ((h0 + 1) * nd) UFcFsw)
      let ampSin := w ^ order * vdot nd recov (sl ((h0 + 1) * nd) ((h0 + 2) * nd) UFcFsw)
      let R := hcat n o.R (hcat 1 (fun _ => ampCos - amp) (fun _ => ampSin))
      if calcGrad then
        match o.grad with
        | none => .error .index
        | some g =>
          let J : ℕ → ℕ → ℝ := setBlock (fun _ _ => 0) 0 n 0 n g.1
          let J := setBlock J (h0 * nd) ((h0 + 1) * nd) n (n + 1) (fun i _ => - f1 i)
          let J := setBlock J ((h0 + 1) * nd) ((h0 + 2) * nd) (n + 1) (n + 2) (fun i _ => - f1 i)
          let J := setBlock J n (n + 1) (h0 * nd) ((h0 + 1) * nd) (fun _ j => w ^ order * recov j)
          let J := setBlock J (n + 1) (n + 2) ((h0 + 1) * nd) ((h0 + 2) * nd) (fun _ j => w ^ order * recov j)
          let dw := setSlice (fun _ => 0) 0 n g.2
          let dw := setRow dw n (order * ampCos / w)
          let dw := setRow dw (n + 1) (order * ampSin / w)
          .ok ⟨R, some (J, dw)⟩
      else .ok ⟨R, none⟩

/-- `VibrationSystem.hbm_amp_phase_control_dA_res`, vibration_system.py:1857-1869. `UFcFsA` has `n + 3`
entries. -/
def hbmAmpPhasedARes (S : VibSys) (UFcFsA Fl : ℕ → ℝ) (h : List ℕ) (recov : ℕ → ℝ) (w : ℝ) (order : ℕ)
    (Nt : ℕ) (tol : ℝ) (calcGrad : Bool) : Except Err ResOut :=
  match Nhc h with
  | .error e => .error e
  | .ok nhc =>
    let n := nhc * S.nd
    match hbmAmpPhaseRes S (hcat (n + 2) (sl 0 (n + 2) UFcFsA) (fun _ => w)) Fl h recov (UFcFsA (n + 2))
        order Nt tol calcGrad with
    | .error e => .error e
    | .ok o =>
      if calcGrad then
        match o.grad with
        | none => .error .index
        | some g => .ok ⟨o.R, some (g.1, setRow (fun _ => 0) n (-1))⟩
      else .ok ⟨o.R, none⟩

/-- `VibrationSystem.vprnm_single_eqn`, vibration_system.py:1244-1350. `filt = some (nf, Φ)` is a
superharmonic filter with `nf` rows. -/
def vprnmEqn (S : VibSys) (U : ℕ → ℝ) (w : ℝ) (h : List ℕ) (rhi : ℕ) (Nt : ℕ) (tol : ℝ)
    (filt : Option (ℕ × (ℕ → ℕ → ℝ))) (calcGrad : Bool) : Except Err (ℝ × Option (ℕ → ℝ)) :=
  match Nhc h, Nhc (h.filter (fun k => k < rhi)) with
  | .ok nhc, .ok ri =>
    let nd := S.nd
    let n := nhc * nd
    let Uf := setSlice (sl 0 n U) (nd * ri) n (fun _ => 0)
    match totalAft S Uf w h Nt tol calcGrad with
    | .error e => .error e
    | .ok o =>
      let F0 := fun i => - sl (nd * ri) (nd * (ri + 2)) o.R i
      let X0 := sl (nd * ri) (nd * (ri + 2)) U
      let (m, F, X) := match filt with
        | none => (2 * nd, F0, X0)
        | some (nf, Φ) =>
          (2 * nf, hcat nf (matVec nd Φ (sl 0 nd F0)) (matVec nd Φ (sl nd (2*nd) F0)),
            hcat nf (matVec nd (matMul nd Φ S.M) (sl 0 nd X0)) (matVec nd (matMul nd Φ S.M) (sl nd (2*nd) X0)))
      let Fn := Real.sqrt (vdot m F F)
      let Xn := Real.sqrt (vdot m X X)
      let R := vdot m F X / (Xn * Fn)
      if calcGrad then
        match o.grad with
        | none => .error .index
        | some g =>
          let dF0 : ℕ → ℕ → ℝ := fun i j => - g.1 (nd * ri + i) j
          let dFw0 : ℕ → ℝ := fun i => - g.2 (nd * ri + i)
          let (dF, dFw, dX) : (ℕ → ℕ → ℝ) × (ℕ → ℝ) × (ℕ → ℕ → ℝ) := match filt with
            | none => (dF0, dFw0, eye)
            | some (nf, Φ) =>
              (matMul (2*nd) (kronEye nf nd Φ) dF0,
               hcat nf (matVec nd Φ (sl 0 nd dFw0)) (matVec nd Φ (sl nd (2*nd) dFw0)),
               kronEye nf nd (matMul nd Φ S.M))
          let T := fun (A : ℕ → ℕ → ℝ) (v : ℕ → ℝ) (j : ℕ) => ∑ i ∈ Finset.range m, A i j * v i
          let d := setSlice (fun _ => 0) 0 (nd * ri)
            (fun j => T dF X j / (Xn * Fn) - vdot m F X / (Xn * Fn^3) * T dF F j)
          let d := setSlice d (nd * ri) (nd * (ri + 2))
            (fun j => T dX F j / (Xn * Fn) - vdot m F X / (Xn^3 * Fn) * T dX X j)
          let d := setRow d n (vdot m dFw X / (Xn * Fn) - vdot m F X / (Xn * Fn^3) * vdot m dFw F)
          .ok (R, some d)
      else .ok (R, none)
  | .error e, _ => .error e
  | _, .error e => .error e

/-- `VibrationSystem.vprnm_res`, vibration_system.py:1456-1515. `UwF` has `n + 2` entries. -/
def vprnmRes (S : VibSys) (UwF Fl : ℕ → ℝ) (h : List ℕ) (rhi : ℕ) (Nt : ℕ) (tol cs : ℝ)
    (filt : Option (ℕ × (ℕ → ℕ → ℝ))) (calcGrad : Bool) : Except Err ResOut :=
  match Nhc h with
  | .error e => .error e
  | .ok nhc =>
    if h = [] then .error .index else
    let nd := S.nd
    let n := nhc * nd
    let h0 := zi h
    let Fscale := fun i => if h0 * nd ≤ i then Fl i * UwF (n + 1) else Fl i
    match hbmRes S (sl 0 (n + 1) UwF) Fscale h Nt tol calcGrad with
    | .error e => .error e
    | .ok o =>
      match vprnmEqn S (sl 0 n UwF) (UwF n) h rhi Nt tol filt calcGrad with
      | .error e => .error e
      | .ok v =>
        let R := hcat n o.R (fun _ => cs * v.1)
        if calcGrad then
          match o.grad, v.2 with
          | some g, some dv =>
            let J : ℕ → ℕ → ℝ := setBlock (fun _ _ => 0) 0 n 0 n g.1
            let J := setBlock J 0 n n (n + 1) (fun i _ => g.2 i)
            let J := setRow J n (fun j => cs * dv j)
            let dF := setSlice (fun _ => 0) 0 n (fun i => - Fl i)
            let dF := setSlice dF 0 (nd * h0) (fun _ => 0)
            .ok ⟨R, some (J, dF)⟩
          | _, _ => .error .index
        else .ok ⟨R, none⟩

/-- `VibrationSystem.vprnm_amp_phase_res`, vibration_system.py:1996-2025. `UFcFswA` has `n + 4` entries. -/
def vprnmAmpPhaseRes (S : VibSys) (UFcFswA Fl : ℕ → ℝ) (h : List ℕ) (rhi : ℕ) (recov : ℕ → ℝ) (order : ℕ)
    (Nt : ℕ) (tol cs : ℝ) (filt : Option (ℕ × (ℕ → ℕ → ℝ))) (calcGrad : Bool) : Except Err ResOut :=
  match Nhc h with
  | .error e => .error e
  | .ok nhc =>
    let n := nhc * S.nd
    match hbmAmpPhaseRes S (sl 0 (n + 3) UFcFswA) Fl h recov (UFcFswA (n + 3)) order Nt tol calcGrad with
    | .error e => .error e
    | .ok o =>
      match vprnmEqn S (sl 0 n UFcFswA) (UFcFswA (n + 2)) h rhi Nt tol filt calcGrad with
      | .error e => .error e
      | .ok v =>
        let R := hcat (n + 2) o.R (fun _ => cs * v.1)
        if calcGrad then
          match o.grad, v.2 with
          | some g, some dv =>
            let J : ℕ → ℕ → ℝ := fun i => if i < n + 2 then hcatCol (n + 2) g.1 g.2 i else
              fun j => if j < n then cs * dv j else if j < n + 2 then 0 else cs * dv n
            .ok ⟨R, some (J, setRow (fun _ => 0) n (-1))⟩
          | _, _ => .error .index
        else .ok ⟨R, none⟩

/-- Right-hand side of `_shooting_state_space`, vibration_system.py:2069-2120: `Udot`, `Vdot`, `dg_dz` and
the forcing part `dgdF_dFdw` of the frequency sensitivity. `Minv = np.linalg.inv(M)` is a parameter.
After the loop `Fnl` is the force of the *last* nonlinear force object (unbound if there is none). -/
structure ShootOut where
  Udot : ℕ → ℝ
  Vdot : ℕ → ℝ
  dgdz : ℕ → ℕ → ℝ
  Phidot : ℕ → ℕ → ℝ
  dwdot : ℕ → ℝ

/-- The loop 2083-2089 keeps the total and the last values. -/
def shootLoop (U : ℕ → ℝ) : List NLForce → (ℕ → ℝ) × (ℕ → ℕ → ℝ) × Option (ℕ → ℝ) →
    Except Err ((ℕ → ℝ) × (ℕ → ℕ → ℝ) × Option (ℕ → ℝ))
  | [], a => .ok a
  | f :: fs, a =>
    match f.force U with
    | .error e => .error e
    | .ok o => shootLoop U fs (fun i => a.1 i + o.1 i, fun i j => a.2.1 i j + o.2 i j, some o.1)

/-- `_shooting_state_space`, vibration_system.py:2069-2120. `Phi` is `dUVdUV0` (`2nd × 2nd`), `dUVdw` the
frequency sensitivity (`2nd`). -/
def shootingStateSpace (S : VibSys) (Minv : ℕ → ℕ → ℝ) (t : ℝ) (U V : ℕ → ℝ) (Phi : ℕ → ℕ → ℝ)
    (dUVdw Fl : ℕ → ℝ) (omega : ℝ) : Except Err ShootOut :=
  let nd := S.nd
  match shootLoop U S.forces (fun _ => 0, fun _ _ => 0, none) with
  | .error e => .error e
  | .ok (_, _, none) => .error .name
  | .ok (_, dF, some Fnl) =>
    let Fext := fun i => Fl i * Real.cos (omega * t) + Fl (nd + i) * Real.sin (omega * t)
    let rhs := fun i => -(matVec nd S.C V i + matVec nd S.K U i + Fnl i) + Fext i
    let Vdot := matVec nd Minv rhs
    let A := matMul nd Minv (fun i j => - S.K i j - dF i j)
    let B := matMul nd Minv (fun i j => - S.C i j)
    let dgdz : ℕ → ℕ → ℝ := fun i j =>
      if i < nd then (if j < nd then 0 else if i = j - nd then 1 else 0)
      else (if j < nd then A (i - nd) j else B (i - nd) (j - nd))
    let dFextdw := fun i => -t * Fl i * Real.sin (omega * t) + t * Fl (nd + i) * Real.cos (omega * t)
    let dgdF := hcat nd (fun _ => 0) (matVec nd Minv dFextdw)
    .ok ⟨V, Vdot, dgdz, matMul (2*nd) dgdz Phi, fun i => dgdF i + matVec (2*nd) dgdz dUVdw i⟩

/-- An instantaneous force object: `force` of its class and the `aft` of `InstantaneousForce`
(nonlinear_force.py:202-304), which accepts `calc_grad` and ignores it. -/
def instForce (N m : ℕ) (Q T : ℕ → ℕ → ℝ) (loc : ℕ → ℝ → ℝ → Loc)
    (force : (ℕ → ℝ) → (ℕ → ℝ) × (ℕ → ℕ → ℝ)) : NLForce where
  ftype := 0
  force X := .ok (force X)
  aft U w h Nt _ := instAft N m Q T (elemLfh loc) U w h Nt
  aftNoGrad U w h Nt _ :=
    match instAft N m Q T (elemLfh loc) U w h Nt with
    | .ok o => .ok o.F
    | .error e => .error e

/-- `CubicForce`, `CubicDamping` as force objects. -/
def cubicNL (N m : ℕ) (Q T : ℕ → ℕ → ℝ) (k : ℕ → ℝ) : NLForce :=
  instForce N m Q T (cubicLoc k) (cubicForce N m Q T k)

def cubicDampingNL (N m : ℕ) (Q T : ℕ → ℕ → ℝ) (c : ℕ → ℝ) : NLForce :=
  instForce N m Q T (cubicDampingLoc c) (cubicDampingForce N m Q T c)

/-- `base_mask`, vibration_system.py:889-890: entry `i` of the vector of all unknowns belongs to a base
degree of freedom; the last entry (frequency) does not. -/
def baseMask (nd L : ℕ) (base : ℕ → Bool) (i : ℕ) : Prop := i < L ∧ base (i % nd) = true

instance (nd L : ℕ) (base : ℕ → Bool) : DecidablePred (baseMask nd L base) := fun _ => by
  unfold baseMask; infer_instance

/-- `Uw_full`, vibration_system.py:893-896: boolean-mask assignment fills the masked (unmasked) entries in
order. -/
def baseFull (nd L : ℕ) (base : ℕ → Bool) (Uw Ub : ℕ → ℝ) : ℕ → ℝ := fun i =>
  if baseMask nd L base i then Ub (Nat.count (baseMask nd L base) i)
  else Uw (Nat.count (fun i => ¬ baseMask nd L base i) i)

/-- `VibrationSystem.hbm_base_res`, vibration_system.py:887-913. Selecting by the negated mask takes the
`k`-th unmasked entry. -/
def hbmBaseRes (S : VibSys) (Uw Ub : ℕ → ℝ) (base : ℕ → Bool) (h : List ℕ) (Nt : ℕ) (tol : ℝ) :
    Except Err ((ℕ → ℝ) × (ℕ → ℕ → ℝ) × (ℕ → ℝ)) :=
  match Nhc h with
  | .error e => .error e
  | .ok nhc =>
    let L := nhc * S.nd
    let sel := Nat.nth (fun i => ¬ baseMask S.nd L base i)
    match hbmRes S (baseFull S.nd L base Uw Ub) (fun _ => 0) h Nt tol true with
    | .error e => .error e
    | .ok o =>
      match o.grad with
      | none => .error .index
      | some g => .ok (fun k => o.R (sel k), fun k l => g.1 (sel k) (sel l), fun k => g.2 (sel k))

/-- `VibrationSystem.linear_frf_base`, vibration_system.py:976-1044, one frequency, one base degree of
freedom `q` (with several base columns the products of line 1003-1008 mix columns and frequencies;
`linearFrfBaseAll` is the whole method). `fr k` is the `k`-th free degree of freedom, `nf` their number. -/
def linearFrfBase (S : VibSys) (w : ℝ) (Ub : ℝ × ℝ) (q nf : ℕ) (fr : ℕ → ℕ)
    (eigs : (ℕ → ℕ → ℝ) → (ℕ → ℕ → ℝ) → ℕ → (ℕ → ℝ) × (ℕ → ℕ → ℝ)) (neigs : ℕ) : Except Err (ℕ → ℝ) :=
  let neigs := if neigs > nf then nf else neigs
  let Mrel := fun i j => S.M (fr i) (fr j)
  let Krel := fun i j => S.K (fr i) (fr j)
  let wnsq := (eigs Krel Mrel neigs).1
  let V := (eigs Krel Mrel neigs).2
  let wn := fun j => Real.sqrt (wnsq j)
  let fcos := fun i => -S.K (fr i) q * Ub.1 - S.C (fr i) q * Ub.2 * w
  let fsin := fun i => -S.K (fr i) q * Ub.2 + S.C (fr i) q * Ub.1 * w
  let f := fun j => ∑ i ∈ Finset.range nf, V i j * fcos i
  let fs := fun j => ∑ i ∈ Finset.range nf, V i j * fsin i
  match S.ab with
  | none => .error .type
  | some ab =>
    let z := fun j => ab.1 / wn j / 2 + ab.2 * wn j / 2
    let qcos := fun j => (((wn j)^2 - w^2) * f j - (2 * wn j * w * z j) * fs j)
      / (((wn j)^2 - w^2)^2 + (2 * wn j * w * z j)^2)
    let qsin := fun j => ((2 * wn j * w * z j) * f j + ((wn j)^2 - w^2) * fs j)
      / (((wn j)^2 - w^2)^2 + (2 * wn j * w * z j)^2)
    .ok (hcat nf (matVec neigs V qcos) (hcat nf (matVec neigs V qsin) (fun _ => w)))

end

end TMD
