import Verif.Props.Action
import Verif.Props.HbmShooting
import Mathlib.Analysis.Calculus.FDeriv.Symmetric

/-!
# C122 for the coupled polynomial force

`GenPolyForce` (general_poly_stiffness.py:53-226) couples its local displacements. If its polynomials are the derivatives of a
potential, the harmonic force is the gradient of the potential averaged over the samples, and the returned derivative is symmetric.
-/

namespace TMD

open Spec Finset

noncomputable section

/-- The Jacobian of a gradient is symmetric. -/
theorem hasGrad_symm {n : ℕ} {f : (ℕ → ℝ) → ℝ} {G : (ℕ → ℝ) → ℕ → ℝ} {J : ℕ → ℕ → ℝ} {x : ℕ → ℝ} (hf : ∀ y, HasGrad n f (G y) y) (hJ : HasJac n n G J x) :
    ∀ p < n, ∀ q < n, J p q = J q p := by
  intro p hp q hq
  have h1 : ∀ v : Fin n → ℝ, HasFDerivAt (fun v : Fin n → ℝ => f fun i => x i + Spec.ext v i) (row n (G fun i => x i + Spec.ext v i)) v := fun v => by
    have k := hf fun i => x i + Spec.ext v i
    unfold HasGrad at k
    have h0 : (fun y : Fin n → ℝ => y - v) v = 0 := sub_self v
    rw [← h0] at k
    have := HasFDerivAt.comp (f := fun y : Fin n → ℝ => y - v) v k ((hasFDerivAt_id v).sub_const v)
    rw [ContinuousLinearMap.comp_id] at this
    refine this.congr_of_eventuallyEq (Filter.Eventually.of_forall fun y => congrArg f (funext fun i => ?_))
    show x i + Spec.ext y i = x i + Spec.ext v i + Spec.ext (y - v) i
    by_cases hi : i < n <;> simp [Spec.ext, hi]
  have h2 : HasFDerivAt (fun v : Fin n → ℝ => row n (G fun i => x i + Spec.ext v i))
      (∑ j : Fin n, (row n (J j)).smulRight (ContinuousLinearMap.proj (R := ℝ) (φ := fun _ : Fin n => ℝ) j)) 0 := by
    show HasFDerivAt (fun v : Fin n → ℝ => ∑ j : Fin n, G (fun i => x i + Spec.ext v i) j • ContinuousLinearMap.proj (R := ℝ) (φ := fun _ : Fin n => ℝ) j) _ 0
    refine HasFDerivAt.fun_sum fun j _ => ?_
    have := hJ j j.2
    unfold HasGrad at this
    exact HasFDerivAt.smul_const this (ContinuousLinearMap.proj (R := ℝ) (φ := fun _ : Fin n => ℝ) j)
  have k := second_derivative_symmetric h1 h2 (Pi.single ⟨q, hq⟩ 1) (Pi.single ⟨p, hp⟩ 1)
  simpa [row_apply, _root_.sum_apply, Pi.single_apply] using k

/-- C122: the coupled polynomial force with `T = Qᵀ` whose polynomials are the partial derivatives of a function `V` of the local displacements. -/
theorem C122_polynomial (h : List ℕ) (hA : Admissible h) (Nt : ℕ) (hNt : ∀ k ∈ h, 2*k + 1 < Nt) (heven : Even Nt) (tol : ℝ) (nd m cnl : ℕ)
    (Q T E : ℕ → ℕ → ℝ) (qq : ℕ → ℕ → ℕ) (hT : ∀ d < nd, ∀ e < m, T d e = Q e d) (V : (ℕ → ℝ) → ℝ) (hdep : ∀ a b, (∀ i < m, a i = b i) → V a = V b)
    (hV : ∀ x, HasGrad m V (fun d => ∑ c ∈ range cnl, E d c * ∏ e ∈ range m, x e ^ qq c e) x) :
    Conservative (genPolyNL nd m cnl Q T E qq) (fun X => V fun e => ∑ d ∈ range nd, Q e d * X d) nd h Nt tol := by
  intro U w
  obtain ⟨out, o1, o2⟩ := C25_polynomial_jacobian h hA Nt hNt heven nd m cnl Q T E qq w
  have grad : ∀ U, HasGrad (numCoeff h * nd) (fun U => 1 / Nt * ∑ j ∈ range Nt, V fun e => ∑ d ∈ range nd, Q e d * dofMotion nd h U d (2 * Real.pi * j / Nt))
      (fun q => rowWeight h (q / nd) * (out U).F q) U := fun U => by
    have sample : ∀ τ : ℝ, HasGrad (numCoeff h * nd) (fun U => V fun e => ∑ d ∈ range nd, Q e d * dofMotion nd h U d τ)
        (fun q => series h (unitVec (q / nd)) τ * ∑ a ∈ range m, Q a (q % nd) * ∑ c ∈ range cnl, E a c * ∏ e ∈ range m, localMotion nd Q h U e τ ^ qq c e) U := fun τ => by
      refine (HasGrad.comp_vec (Y := fun U e => ∑ d ∈ range nd, Q e d * dofMotion nd h U d τ) (hV _) hdep
        fun e _ => HasGrad.sum fun d hd => (hasGrad_dof (mem_range.1 hd) U τ).const_mul (Q e d)).congr fun q hq => ?_
      have hq' := (div_lt_block hq).2
      rw [mul_sum]
      refine sum_congr rfl fun a _ => ?_
      have e1 : ∑ d ∈ range nd, Q a d * (if q % nd = d then series h (unitVec (q / nd)) τ else 0) = Q a (q % nd) * series h (unitVec (q / nd)) τ := by
        rw [sum_eq_single_of_mem (q % nd) (mem_range.2 hq') fun d _ hd => by simp [Ne.symm hd]]
        simp
      rw [e1]
      change _ = (∑ c ∈ range cnl, E a c * ∏ e ∈ range m, localMotion nd Q h U e τ ^ qq c e) * _
      ring
    refine (HasGrad.const_mul (1 / (Nt:ℝ)) (HasGrad.sum fun j _ => sample (2 * Real.pi * j / Nt))).congr fun q hq => ?_
    obtain ⟨hq1, hq2⟩ := div_lt_block hq
    obtain ⟨o, p1, p2⟩ := C24_polynomial_is_dft h hA Nt hNt heven nd m cnl Q T E qq U w
    cases (o1 U).symm.trans p1
    have eF : ∀ k ∈ h, coefOf h (fun r => (out U).F (r * nd + q % nd)) k = dft Nt (fun j => ∑ a ∈ range m, Q a (q % nd) *
        ∑ c ∈ range cnl, E a c * ∏ e ∈ range m, localMotion nd Q h U e (2 * Real.pi * j / Nt) ^ qq c e) k := fun k hk => by
      rw [p2 _ hq2 k hk]
      congr 1
      funext j
      exact sum_congr rfl fun a ha => by rw [hT _ hq2 a (mem_range.1 ha)]
    have k := work_row hA eF hq1
    rw [Nat.div_add_mod' q nd] at k
    rw [k]
    congr 1
    exact sum_congr rfl fun j _ => mul_comm _ _
  refine ⟨out U, o1 U, grad U, hasGrad_symm (x := U) grad (J := fun p q => rowWeight h (p / nd) * (out U).dU p q) fun p hp => ?_⟩
  exact (o2 U p hp).const_mul _

/-- Example: the force `(x² + y²) (x, y)` of a mass in the plane is the derivative of `(x² + y²)² / 4`. -/
example (tol : ℝ) : Conservative (genPolyNL 2 2 4 (fun i j => if i = j then 1 else 0) (fun i j => if i = j then 1 else 0) (fun d c => if d = c / 2 then 1 else 0) orbitQ)
    (fun X => (X 0 ^ 2 + X 1 ^ 2) ^ 2 / 4) 2 [0, 1, 3] 128 tol := by
  have k := C122_polynomial [0, 1, 3] ⟨(by decide), (by decide), (by decide)⟩ 128 (by decide) (by decide) tol 2 2 4 (fun i j => if i = j then 1 else 0) (fun i j => if i = j then 1 else 0)
    (fun d c => if d = c / 2 then 1 else 0) orbitQ (fun d _ e _ => by simp only [eq_comm]) (fun X => (X 0 ^ 2 + X 1 ^ 2) ^ 2 / 4)
    (fun a b hab => by simp only [hab 0 (by omega), hab 1 (by omega)]) fun x => by
      have c0 := HasGrad.coord (n := 2) (x := x) 0
      have c1 := HasGrad.coord (n := 2) (x := x) 1
      have r := (c0.mul c0).add (c1.mul c1)
      refine (((r.mul r).const_mul (1 / 4)).congr fun j hj => ?_).congr_fun fun y => by ring
      interval_cases j <;> simp [sum_range_succ, prod_range_succ, orbitQ] <;> ring
  simpa [sum_range_succ] using k

end

end TMD
