import Verif.Model.Basic
import Mathlib.Analysis.SpecialFunctions.Pow.Real

/-!
# Instantaneous force laws

`N` is the number of global DOFs (`Q.shape[1]`), `m` the number of local ones (`Q.shape[0]`).
`**` with an integer exponent is the power of a commutative ring, with a float exponent the real
power. Scalar parameters that NumPy broadcasts are constant functions.
-/

namespace TMD

noncomputable section

/-- `np.diag(v)`. -/
def diag (v : ℕ → ℝ) : ℕ → ℕ → ℝ := fun i j => if i = j then v i else 0

/-- Result of `local_force_history` at one time instant and one local DOF:
`ft[i, j]`, `dfdu[i, j]`, `dfdud[i, j]`. -/
structure Loc where
  f : ℝ
  dfdu : ℝ
  dfdud : ℝ

/-- `CubicForce.force`, cubic_stiffness.py:44-54: `(F, dFdX)`. -/
def cubicForce (N m : ℕ) (Q T : ℕ → ℕ → ℝ) (kalpha : ℕ → ℝ) (X : ℕ → ℝ) : (ℕ → ℝ) × (ℕ → ℕ → ℝ) :=
  let unl := matVec N Q X
  let fnl := fun d => kalpha d * (unl d)^3
  let F := matVec m T fnl
  let dFdX := matMul m (matMul m T (diag (fun d => 3 * kalpha d * (unl d)^2))) Q
  (F, dFdX)

/-- `CubicForce.local_force_history`, cubic_stiffness.py:93-97, elementwise. -/
def cubicLoc (kalpha : ℕ → ℝ) (d : ℕ) (u _ud : ℝ) : Loc :=
  ⟨kalpha d * u^3, (3 * kalpha d) * u^2, 0⟩

/-- `QuinticForce.force`, quintic_stiffness.py:42-52. -/
def quinticForce (N m : ℕ) (Q T : ℕ → ℕ → ℝ) (kalpha : ℕ → ℝ) (X : ℕ → ℝ) : (ℕ → ℝ) × (ℕ → ℕ → ℝ) :=
  let unl := matVec N Q X
  let fnl := fun d => kalpha d * (unl d)^5
  let F := matVec m T fnl
  let dFdX := matMul m (matMul m T (diag (fun d => 5 * kalpha d * (unl d)^4))) Q
  (F, dFdX)

/-- `QuinticForce.local_force_history`, quintic_stiffness.py:91-95, elementwise. -/
def quinticLoc (kalpha : ℕ → ℝ) (d : ℕ) (u _ud : ℝ) : Loc :=
  ⟨kalpha d * u^5, (5 * kalpha d) * u^4, 0⟩

/-- `CubicDamping.force` (argument: velocities), cubic_damping.py:57-67. -/
def cubicDampingForce (N m : ℕ) (Q T : ℕ → ℕ → ℝ) (calpha : ℕ → ℝ) (V : ℕ → ℝ) :
    (ℕ → ℝ) × (ℕ → ℕ → ℝ) :=
  let unldot := matVec N Q V
  let fnl := fun d => calpha d * (unldot d)^3
  let F := matVec m T fnl
  let dFdV := matMul m (matMul m T (diag (fun d => 3 * calpha d * (unldot d)^2))) Q
  (F, dFdV)

/-- `CubicDamping.local_force_history`, cubic_damping.py:106-110, elementwise. -/
def cubicDampingLoc (calpha : ℕ → ℝ) (d : ℕ) (_u ud : ℝ) : Loc :=
  ⟨calpha d * ud^3, 0, (3 * calpha d) * ud^2⟩

open Classical in
/-- A NumPy boolean mask used as a number. -/
def mask (p : Prop) : ℝ := if p then 1 else 0

/-- `UnilateralSpring.force`, unilateral_spring.py:72-82. -/
def unilateralForce (N m : ℕ) (Q T : ℕ → ℕ → ℝ) (k Npre delta : ℕ → ℝ) (X : ℕ → ℝ) :
    (ℕ → ℝ) × (ℕ → ℕ → ℝ) :=
  let unl := matVec N Q X
  let fnl := fun d => max (k d * (unl d - delta d) - Npre d) (-Npre d)
  let F := matVec m T fnl
  let msk := fun d => mask (fnl d > -Npre d)
  let dFdX := matMul m (matMul m T (diag (fun d => msk d * k d))) Q
  (F, dFdX)

/-- `UnilateralSpring.local_force_history`, unilateral_spring.py:121-129, elementwise. -/
def unilateralLoc (k Npre delta : ℕ → ℝ) (d : ℕ) (u _ud : ℝ) : Loc :=
  let ft := max (k d * (u - delta d) - Npre d) (-Npre d)
  ⟨ft, k d * mask (ft > -Npre d), 0⟩

/-- Parameters of `ConservativeIwanBB`, iwan_bb_conserve.py:50-57 (scalars, as documented). -/
structure IwanBB where
  kt : ℝ
  Fs : ℝ
  chi : ℝ
  beta : ℝ

/-- `np.sign`. -/
def npSign (x : ℝ) : ℝ := if x < 0 then -1 else if x = 0 then 0 else 1

/-- `phi_max`, iwan_bb_conserve.py:82 and 147. -/
def IwanBB.phiMax (p : IwanBB) : ℝ := p.Fs*(1+p.beta)/(p.kt*(p.beta+(p.chi+1)/(p.chi+2)))

/-- `coef_E`, iwan_bb_conserve.py:85-87 and 150-152. -/
def IwanBB.coefE (p : IwanBB) : ℝ :=
  (p.kt*(p.kt*(p.beta+(p.chi+1)/(p.chi+2))/(p.Fs*(1+p.beta)))^(1+p.chi))/((1+p.beta)*(p.chi+2))

/-- `ConservativeIwanBB.force`, iwan_bb_conserve.py:78-104. -/
def iwanBBForce (N m : ℕ) (Q T : ℕ → ℕ → ℝ) (p : IwanBB) (X : ℕ → ℝ) : (ℕ → ℝ) × (ℕ → ℕ → ℝ) :=
  let unl := matVec N Q X
  let sunl := fun d => npSign (unl d)
  let unl := fun d => sunl d * unl d
  let fnl := fun d => ((p.kt * unl d - p.coefE * (unl d)^(2+p.chi)) * mask (unl d < p.phiMax)
               + p.Fs * mask (unl d ≥ p.phiMax)) * sunl d
  let F := matVec m T fnl
  let dfnldu := fun d => (p.kt - p.coefE * (2+p.chi) * (unl d)^(1+p.chi)) * mask (unl d < p.phiMax)
  let dFdX := matMul m (matMul m T (diag dfnldu)) Q
  (F, dFdX)

/-- `ConservativeIwanBB.local_force_history`, iwan_bb_conserve.py:142-164, elementwise. -/
def iwanBBLoc (p : IwanBB) (_d : ℕ) (u _ud : ℝ) : Loc :=
  let sunl := npSign u
  let u := sunl * u
  ⟨((p.kt * u - p.coefE * u^(2+p.chi)) * mask (u < p.phiMax)
      + p.Fs * mask (u ≥ p.phiMax)) * sunl,
   (p.kt - p.coefE * (2+p.chi) * u^(1+p.chi)) * mask (u < p.phiMax), 0⟩

/-- `GenPolyForce.__init__`, general_poly_stiffness.py:47-51: the exponents
`qd[i, c, e] = qq[c, e] - (e == i and qq[c, i] != 0)`. Exponents are natural numbers, as needed for
the "polynomial" force the class documents (`qq - 1` is only formed for `qq ≠ 0`). -/
def polyQd (qq : ℕ → ℕ → ℕ) (i c e : ℕ) : ℕ := if e = i ∧ qq c i ≠ 0 then qq c e - 1 else qq c e

/-- `np.prod(u ** q, axis=…)` over the `m` local DOFs for one exponent row. -/
def polyProd (m : ℕ) (q : ℕ → ℕ) (u : ℕ → ℝ) : ℝ := ∏ e ∈ Finset.range m, (u e)^(q e)

/-- `qq * np.prod(u ** qd, axis=2).T`, general_poly_stiffness.py:77-78 and 123-124. -/
def polyGrad (m : ℕ) (qq : ℕ → ℕ → ℕ) (u : ℕ → ℝ) : ℕ → ℕ → ℝ :=
  fun c i => (qq c i : ℝ) * polyProd m (polyQd qq i c) u

/-- `GenPolyForce.force`, general_poly_stiffness.py:71-80. `cnl` is the number of polynomial terms. -/
def genPolyForce (N m cnl : ℕ) (Q T Emat : ℕ → ℕ → ℝ) (qq : ℕ → ℕ → ℕ) (X : ℕ → ℝ) :
    (ℕ → ℝ) × (ℕ → ℕ → ℝ) :=
  let unl := matVec N Q X
  let fnl := matVec cnl Emat (fun c => polyProd m (qq c) unl)
  let F := matVec m T fnl
  let dFdX := matMul m (matMul cnl (matMul m T Emat) (polyGrad m qq unl)) Q
  (F, dFdX)

/-- `GenPolyForce.local_force_history`, general_poly_stiffness.py:113-131, at one time instant:
`(ft[t], dfdu[t], dfdud[t])`. -/
def genPolyLoc (m cnl : ℕ) (Emat : ℕ → ℕ → ℝ) (qq : ℕ → ℕ → ℕ) (u _ud : ℕ → ℝ) :
    (ℕ → ℝ) × (ℕ → ℕ → ℝ) × (ℕ → ℕ → ℝ) :=
  (fun d => ∑ c ∈ Finset.range cnl, polyProd m (qq c) u * Emat d c,
   matMul cnl Emat (polyGrad m qq u), fun _ _ => 0)

end

end TMD
