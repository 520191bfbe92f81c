import Verif.Model.ForceLaws
import Verif.Lemmas.Gradient
import Mathlib.Analysis.SpecialFunctions.Pow.Deriv
import Mathlib.Analysis.Convex.SpecificFunctions.Basic
import Mathlib.Tactic.FieldSimp
import Mathlib.Tactic.Positivity

/-! Helper lemmas for the instantaneous force laws. -/

namespace TMD

open Spec Finset

noncomputable section

theorem hasGrad_matVec (N : ℕ) (Q : ℕ → ℕ → ℝ) (d : ℕ) (x : ℕ → ℝ) :
    HasGrad N (fun X => matVec N Q X d) (Q d) x :=
  (HasGrad.linear N (Q d)).congr (fun j hj => by simp [hj])

theorem matMul_diag (m : ℕ) (A : ℕ → ℕ → ℝ) (v : ℕ → ℝ) (i j : ℕ) (hj : j < m) :
    matMul m A (diag v) i j = A i j * v j := by
  unfold matMul diag
  rw [sum_eq_single_of_mem j (by simpa using hj)]
  · simp
  · intro b _ hb; simp [hb]

/-- Jacobian of `T φ(Q X)` for an elementwise law. -/
theorem hasJac_elementwise (R N m : ℕ) (Q T : ℕ → ℕ → ℝ) (φ : ℕ → ℝ → ℝ) (φ' : ℕ → ℝ) (x : ℕ → ℝ)
    (h : ∀ d < m, HasDerivAt (φ d) (φ' d) (matVec N Q x d)) :
    HasJac R N (fun X => matVec m T (fun d => φ d (matVec N Q X d)))
      (matMul m (matMul m T (diag φ')) Q) x := by
  intro i _
  have := HasGrad.sum (n := N) (s := range m) (x := x)
    (F := fun d X => T i d * φ d (matVec N Q X d)) (G := fun d j => T i d * (φ' d * Q d j))
    (fun d hd => HasGrad.const_mul _
      (HasGrad.comp_deriv (hasGrad_matVec N Q d x) (φ := φ d) (h d (mem_range.mp hd))))
  refine this.congr ?_
  intro j _
  unfold matMul
  apply sum_congr rfl
  intro d hd
  have := matMul_diag m T φ' i d (mem_range.mp hd)
  unfold matMul at this
  rw [this]; ring

theorem HasGrad.prod {n : ℕ} {x : ℕ → ℝ} {s : Finset ℕ} {F : ℕ → (ℕ → ℝ) → ℝ} {G : ℕ → ℕ → ℝ}
    (h : ∀ k ∈ s, HasGrad n (F k) (G k) x) :
    HasGrad n (fun X => ∏ k ∈ s, F k X)
      (fun j => ∑ k ∈ s, (∏ e ∈ s.erase k, F e x) * G k j) x := by
  induction s using Finset.induction_on with
  | empty => simpa using HasGrad.const (n := n) (x := x) 1
  | insert a s ha ih =>
    simp only [prod_insert ha]
    refine ((h a (mem_insert_self _ _)).mul (ih (fun k hk => h k (mem_insert_of_mem hk)))).congr ?_
    intro j _
    rw [sum_insert ha, erase_insert ha, add_comm, mul_sum]
    congr 1
    apply sum_congr rfl
    intro k hk
    have hka : a ≠ k := by rintro rfl; exact ha hk
    rw [erase_insert_of_ne hka, prod_insert (fun hh => ha (mem_of_mem_erase hh))]
    ring

/-- Gradient of a monomial. -/
theorem hasGrad_polyProd (m : ℕ) (qq : ℕ → ℕ → ℕ) (c : ℕ) (x : ℕ → ℝ) :
    HasGrad m (fun u => polyProd m (qq c) u) (polyGrad m qq x c) x := by
  have h : ∀ e, HasGrad m (fun u : ℕ → ℝ => (u e)^(qq c e))
      (fun j => (qq c e : ℝ) * (x e)^(qq c e - 1) * (if j = e then 1 else 0)) x := by
    intro e
    exact (HasGrad.coord (n := m) (x := x) e).comp_deriv (φ := fun y => y^(qq c e)) (hasDerivAt_pow _ _)
  refine (HasGrad.prod (s := range m) (fun e _ => h e)).congr ?_
  intro i hi
  have him : i ∈ range m := mem_range.mpr hi
  rw [sum_eq_single_of_mem i him]
  · unfold polyGrad polyProd
    rw [← mul_prod_erase (range m) _ him]
    simp only [if_true, mul_one]
    have e1 : ∏ e ∈ (range m).erase i, x e ^ polyQd qq i c e = ∏ e ∈ (range m).erase i, x e ^ qq c e := by
      apply prod_congr rfl
      intro e he
      have := ne_of_mem_erase he
      simp [polyQd, this]
    rw [e1]
    by_cases hq : qq c i = 0
    · simp [hq]
    · simp [polyQd, hq]; ring
  · intro b _ hb
    simp [Ne.symm hb]

end

end TMD
