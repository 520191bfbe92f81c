import Verif.Model.System

/-!
# `linear_frf_base` with its shapes

The whole method, with the array of frequencies and every base degree of freedom.
-/

namespace TMD

open Finset

noncomputable section

/-- NumPy broadcasting of two trailing axes of `a` and `b` entries. -/
def bcast (a b : ℕ) : Except Err ℕ :=
  if a = b then .ok a else if a = 1 then .ok b else if b = 1 then .ok a else .error .value

/-- The entry of an axis with `n` entries that broadcasting uses for entry `k` of the result. -/
def bix (n k : ℕ) : ℕ := if n = 1 then 0 else k

/-- `VibrationSystem.linear_frf_base`, vibration_system.py:976-1044, with `Nw` frequencies (a number counts as
one) and the `nb` base degrees of freedom `bs 0, bs 1, …`; `fr k` is the `k`-th of the `nf` free ones.
The result is `Xw`, by frequency and column. Lines 1003-1008 multiply arrays `(nf, nb)` with the frequencies,
so the base axis is broadcast against the frequency axis; line 1039 stacks the result on the frequencies.
Dividing by zero (rigid-body modes, undamped resonance) gives `0` here and `nan` or `inf` in NumPy. -/
def linearFrfBaseAll (S : VibSys) (Nw : ℕ) (w : ℕ → ℝ) (Ub : ℝ × ℝ) (nb : ℕ) (bs : ℕ → ℕ) (nf : ℕ) (fr : ℕ → ℕ)
    (eigs : (ℕ → ℕ → ℝ) → (ℕ → ℕ → ℝ) → ℕ → (ℕ → ℝ) × (ℕ → ℕ → ℝ)) (neigs : ℕ) : Except Err (ℕ → ℕ → ℝ) :=
  let neigs := if neigs > nf then nf else neigs
  let Mrel := fun i j => S.M (fr i) (fr j)
  let Krel := fun i j => S.K (fr i) (fr j)
  let wnsq := (eigs Krel Mrel neigs).1
  let V := (eigs Krel Mrel neigs).2
  let wn := fun j => Real.sqrt (wnsq j)
  match bcast nb Nw with
  | .error e => .error e
  | .ok m =>
    match bcast nb m with
    | .error e => .error e
    | .ok m =>
      let fcos := fun i k => -S.K (fr i) (bs (bix nb k)) * Ub.1 - S.C (fr i) (bs (bix nb k)) * Ub.2 * w (bix Nw k)
      let fsin := fun i k => -S.K (fr i) (bs (bix nb k)) * Ub.2 + S.C (fr i) (bs (bix nb k)) * Ub.1 * w (bix Nw k)
      let f := fun j k => ∑ i ∈ Finset.range nf, V i j * fcos i k
      let fs := fun j k => ∑ i ∈ Finset.range nf, V i j * fsin i k
      match S.ab with
      | none => .error .type
      | some ab =>
        let z := fun j => ab.1 / wn j / 2 + ab.2 * wn j / 2
        match bcast Nw m with
        | .error e => .error e
        | .ok m' =>
          let wk := fun k => w (bix Nw k)
          let qcos := fun j k => (((wn j)^2 - (wk k)^2) * f j (bix m k) - (2 * wn j * wk k * z j) * fs j (bix m k))
            / (((wn j)^2 - (wk k)^2)^2 + (2 * wn j * wk k * z j)^2)
          let qsin := fun j k => ((2 * wn j * wk k * z j) * f j (bix m k) + ((wn j)^2 - (wk k)^2) * fs j (bix m k))
            / (((wn j)^2 - (wk k)^2)^2 + (2 * wn j * wk k * z j)^2)
          if m' = Nw then
            .ok fun k => hcat nf (matVec neigs V (fun j => qcos j k))
              (hcat nf (matVec neigs V (fun j => qsin j k)) (fun _ => w k))
          else .error .value

end

end TMD
