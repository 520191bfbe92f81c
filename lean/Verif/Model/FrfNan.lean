import Verif.Model.System

/-!
# `linear_frf` with divisions by zero

`none` stands for a value that is not finite (`inf` or `nan` in NumPy).
-/

namespace TMD

noncomputable section

/-- Division of finite numbers. -/
def finDiv (x y : ℝ) : Option ℝ := if y = 0 then none else some (x / y)

/-- `np.sqrt` of a finite number. -/
def finSqrt (x : ℝ) : Option ℝ := if x < 0 then none else some (Real.sqrt x)

/-- `modal_z`, vibration_system.py:631. For `wn = 0` NumPy gives `inf` or `nan`; the only use of the value is the
product with `wn` in lines 640-644, `0 * inf = nan`. -/
def finModalZ (ab : ℝ × ℝ) (wn : ℝ) : Option ℝ := (finDiv ab.1 wn).map fun q => q / 2 + ab.2 * wn / 2

/-- `qcos` and `qsin` of one mode, vibration_system.py:626, 631, 640-644. -/
def finModalAmp (ab : ℝ × ℝ) (wnsq w f fs : ℝ) : Option ℝ × Option ℝ :=
  match finSqrt wnsq with
  | none => (none, none)
  | some wn =>
    match finModalZ ab wn with
    | none => (none, none)
    | some z =>
      (finDiv ((wn^2 - w^2) * f - (2 * wn * w * z) * fs) ((wn^2 - w^2)^2 + (2 * wn * w * z)^2),
       finDiv ((2 * wn * w * z) * f + (wn^2 - w^2) * fs) ((wn^2 - w^2)^2 + (2 * wn * w * z)^2))

/-- One entry of `V @ q`, vibration_system.py:646: a term that is not finite spoils the sum (`0 * nan` is `nan`). -/
def finDot (v : ℕ → ℝ) (q : ℕ → Option ℝ) : ℕ → Option ℝ
  | 0 => some 0
  | n + 1 => match finDot v q n, q n with
    | some s, some x => some (s + v n * x)
    | _, _ => none

/-- `VibrationSystem.linear_frf`, vibration_system.py:614-647, one frequency `w`, as `linearFrf` but with the
values that are not finite. -/
def linearFrfF (S : VibSys) (w : ℝ) (Fl : ℕ → ℝ) (eigs : ℕ → (ℕ → ℝ) × (ℕ → ℕ → ℝ)) (neigs : ℕ)
    (Flsin : Option (ℕ → ℝ)) : Except Err (ℕ → Option ℝ) :=
  match S.ab with
  | none => .error .assertion
  | some ab =>
    let neigs := if neigs > S.nd then S.nd else neigs
    let Flsin := match Flsin with
      | none => fun _ => 0
      | some f => f
    let wnsq := (eigs neigs).1
    let V := (eigs neigs).2
    let f := fun j => ∑ i ∈ Finset.range S.nd, V i j * Fl i
    let fs := fun j => ∑ i ∈ Finset.range S.nd, V i j * Flsin i
    let q := fun j => finModalAmp ab (wnsq j) w (f j) (fs j)
    .ok fun i =>
      if i < S.nd then finDot (V i) (fun j => (q j).1) neigs
      else if i < 2 * S.nd then finDot (V (i - S.nd)) (fun j => (q j).2) neigs
      else some w

end

end TMD
