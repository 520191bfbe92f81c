import Verif.Model.SolverOMP

/-!
# Exact arithmetic with infinities and NaN

Numbers of NumPy without rounding: real numbers, two infinities and NaN with the rules of IEEE 754. Simplified: no rounding, no overflow,
and one zero, so `1/0` is `+inf` (NumPy gives `-inf` for `1/(-0.0)`; the products with zero formed from it are NaN in both cases).
-/

namespace TMD

noncomputable section

/-- A number: finite, infinite (`true` for negative) or NaN. -/
inductive Ieee where
  | fin (x : ℝ)
  | inf (neg : Bool)
  | nan

namespace Ieee

open Classical

def neg : Ieee → Ieee
  | fin x => fin (-x)
  | inf s => inf (!s)
  | nan => nan

def add : Ieee → Ieee → Ieee
  | fin x, fin y => fin (x + y)
  | fin _, inf s => inf s
  | inf s, fin _ => inf s
  | inf s, inf s' => if s = s' then inf s else nan
  | nan, _ => nan
  | _, nan => nan

def mul : Ieee → Ieee → Ieee
  | fin x, fin y => fin (x * y)
  | fin x, inf s => if x = 0 then nan else inf (xor s (decide (x < 0)))
  | inf s, fin x => if x = 0 then nan else inf (xor s (decide (x < 0)))
  | inf s, inf s' => inf (xor s s')
  | nan, _ => nan
  | _, nan => nan

def div : Ieee → Ieee → Ieee
  | fin x, fin y => if y = 0 then (if x = 0 then nan else inf (decide (x < 0))) else fin (x / y)
  | fin _, inf _ => fin 0
  | inf s, fin y => inf (xor s (decide (y < 0)))
  | inf _, inf _ => nan
  | nan, _ => nan
  | _, nan => nan

def lt : Ieee → Ieee → Bool
  | fin x, fin y => decide (x < y)
  | fin _, inf s => !s
  | inf s, fin _ => s
  | inf s, inf s' => s && !s'
  | nan, _ => false
  | _, nan => false

def abs : Ieee → Ieee
  | fin x => fin |x|
  | inf _ => inf false
  | nan => nan

def sqrt : Ieee → Ieee
  | fin x => if x < 0 then nan else fin (Real.sqrt x)
  | inf s => if s then nan else inf false
  | nan => nan

def isNan : Ieee → Bool
  | nan => true
  | _ => false

def isZero : Ieee → Bool
  | fin x => decide (x = 0)
  | _ => false

/-- `np.sum`. -/
def sum {n : ℕ} (v : Fin n → Ieee) : Ieee := (List.ofFn v).foldl add (fin 0)

/-- The finite numbers of an array, if all are finite. -/
def finite? {n : ℕ} (v : Fin n → Ieee) : Option (Fin n → ℝ) :=
  if h : ∃ x : Fin n → ℝ, v = fun i => fin (x i) then some h.choose else none

end Ieee

/-- The operations of the solver on arrays of such numbers. `factor` and `fsolve` are given for finite numbers; a right-hand side that is not finite gives NaN (so do the substitutions of LU). -/
def ieeeArith (n : ℕ) {L : Type} (factor : Matrix (Fin n) (Fin n) ℝ → L) (fsolve : L → (Fin n → ℝ) → (Fin n → ℝ)) :
    Arith Ieee (Fin n → Ieee) (Matrix (Fin n) (Fin n) ℝ) L :=
  { lt := Ieee.lt
    abs := Ieee.abs
    sqrt := Ieee.sqrt
    add := Ieee.add
    sub := fun a b => a.add b.neg
    mul := Ieee.mul
    div := Ieee.div
    zero := .fin 0
    one := .fin 1
    half := .fin (1 / 2)
    inf := .inf false
    isZero := Ieee.isZero
    dot := fun v w => Ieee.sum fun i => (v i).mul (w i)
    vadd := fun v w i => (v i).add (w i)
    vsub := fun v w i => (v i).add (w i).neg
    vneg := fun v i => (v i).neg
    smul := fun a v i => a.mul (v i)
    vnan := fun _ => .nan
    vzero := fun _ => .fin 0
    vIsNaN := fun v => (Ieee.sum v).isNan
    mIsNaN := fun _ => false
    factor := factor
    fsolve := fun l v => match Ieee.finite? v with
      | some x => fun i => .fin (fsolve l x i)
      | none => fun _ => .nan
    defaultXtol := fun _ => .fin (1 / 1000000 * n) }

/-- A function on finite arrays as a function on arrays of numbers; NaN when a number is not finite. -/
def finiteFun {n : ℕ} (f : SolveFun (Fin n → ℝ) (Matrix (Fin n) (Fin n) ℝ)) : SolveFun (Fin n → Ieee) (Matrix (Fin n) (Fin n) ℝ) := fun X g =>
  match Ieee.finite? X with
  | some x => match f x g with
    | .error e => .error e
    | .ok (R, D) => .ok (fun i => .fin (R i), D)
  | none => .ok (fun _ => .nan, 0)

end

end TMD
