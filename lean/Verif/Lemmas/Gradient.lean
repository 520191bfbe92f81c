import Verif.Spec.Gradient
import Verif.Model.Basic
import Mathlib.Analysis.Calculus.FDeriv.Add
import Mathlib.Analysis.Calculus.FDeriv.Mul
import Mathlib.Analysis.Calculus.FDeriv.Comp
import Mathlib.Analysis.Calculus.FDeriv.Prod
import Mathlib.Analysis.Calculus.FDeriv.Pi
import Mathlib.Analysis.Calculus.Deriv.Comp
import Mathlib.Analysis.Calculus.Deriv.Mul
import Mathlib.Analysis.Calculus.Deriv.Prod
import Mathlib.Analysis.Calculus.Deriv.Pi
import Mathlib.Algebra.BigOperators.Ring.Finset
import Mathlib.Tactic.Ring
import Mathlib.Tactic.Linarith

/-! Calculus of `HasGrad`. -/

namespace TMD.Spec

open Finset

noncomputable section

variable {n m : ℕ} {f f' : (ℕ → ℝ) → ℝ} {g g' : ℕ → ℝ} {x : ℕ → ℝ}

theorem row_apply (n : ℕ) (g : ℕ → ℝ) (v : Fin n → ℝ) : row n g v = ∑ j : Fin n, g j * v j := by
  simp [row]

@[simp] theorem ext_zero (n i : ℕ) : ext (0 : Fin n → ℝ) i = 0 := by
  unfold ext; split <;> rfl

theorem row_congr (h : ∀ j < n, g j = g' j) : row n g = row n g' := by
  unfold row
  exact sum_congr rfl (fun j _ => by rw [h j j.2])

theorem HasGrad.congr (hf : HasGrad n f g x) (h : ∀ j < n, g' j = g j) : HasGrad n f g' x := by
  unfold HasGrad at *
  rw [row_congr h]; exact hf

theorem HasGrad.congr_fun (hf : HasGrad n f g x) (h : ∀ y, f' y = f y) : HasGrad n f' g x := by
  have : f' = f := funext h
  rw [this]; exact hf

theorem HasGrad.const (c : ℝ) : HasGrad n (fun _ => c) (fun _ => 0) x := by
  unfold HasGrad
  have : row n (fun _ => 0) = 0 := by simp [row]
  rw [this]; exact hasFDerivAt_const _ _

theorem HasGrad.coord (k : ℕ) : HasGrad n (fun X => X k) (fun j => if j = k then 1 else 0) x := by
  unfold HasGrad
  apply HasFDerivAt.const_add
  by_cases hk : k < n
  · have e1 : row n (fun j => if j = k then 1 else 0)
        = ContinuousLinearMap.proj (R := ℝ) (φ := fun _ : Fin n => ℝ) ⟨k, hk⟩ := by
      ext v
      rw [row_apply, sum_eq_single ⟨k, hk⟩]
      · simp
      · intro b _ hb
        have : (b : ℕ) ≠ k := fun e => hb (Fin.ext e)
        simp [this]
      · simp
    have e2 : (fun v : Fin n → ℝ => TMD.Spec.ext v k)
        = ⇑(ContinuousLinearMap.proj (R := ℝ) (φ := fun _ : Fin n => ℝ) ⟨k, hk⟩) := by
      funext v; simp [TMD.Spec.ext, hk]
    rw [e1, e2]
    exact ContinuousLinearMap.hasFDerivAt _
  · have e1 : row n (fun j => if j = k then 1 else 0) = 0 := by
      ext v
      rw [row_apply]
      apply sum_eq_zero
      intro b _
      have : (b : ℕ) ≠ k := by have := b.2; omega
      simp [this]
    have e2 : (fun v : Fin n → ℝ => TMD.Spec.ext v k) = fun _ => 0 := by
      funext v; simp [TMD.Spec.ext, hk]
    rw [e1, e2]
    exact hasFDerivAt_const _ _

theorem row_add (a b : ℕ → ℝ) : row n (fun j => a j + b j) = row n a + row n b := by
  simp [row, add_smul, sum_add_distrib]

theorem row_smul (c : ℝ) (b : ℕ → ℝ) : row n (fun j => c * b j) = c • row n b := by
  simp [row, mul_smul, smul_sum]

theorem HasGrad.add (h : HasGrad n f g x) (h' : HasGrad n f' g' x) :
    HasGrad n (fun X => f X + f' X) (fun j => g j + g' j) x := by
  unfold HasGrad at *
  rw [row_add]
  exact HasFDerivAt.fun_add h h'

theorem HasGrad.mul (h : HasGrad n f g x) (h' : HasGrad n f' g' x) :
    HasGrad n (fun X => f X * f' X) (fun j => f x * g' j + f' x * g j) x := by
  unfold HasGrad at *
  have := HasFDerivAt.fun_mul h h'
  simp only [ext_zero, add_zero] at this
  rw [row_add, row_smul, row_smul]
  exact this

theorem HasGrad.const_mul (c : ℝ) (h : HasGrad n f g x) :
    HasGrad n (fun X => c * f X) (fun j => c * g j) x :=
  ((HasGrad.const c).mul h).congr (fun j _ => by ring)

theorem HasGrad.mul_const (c : ℝ) (h : HasGrad n f g x) :
    HasGrad n (fun X => f X * c) (fun j => g j * c) x :=
  (h.mul (HasGrad.const c)).congr (fun j _ => by ring)

theorem HasGrad.neg (h : HasGrad n f g x) : HasGrad n (fun X => -f X) (fun j => -g j) x :=
  ((h.const_mul (-1)).congr (fun j _ => by ring)).congr_fun (fun y => by ring)

theorem HasGrad.sub (h : HasGrad n f g x) (h' : HasGrad n f' g' x) :
    HasGrad n (fun X => f X - f' X) (fun j => g j - g' j) x :=
  ((h.add h'.neg).congr (fun j _ => by ring)).congr_fun (fun y => by ring)

theorem HasGrad.sum {s : Finset ℕ} {F : ℕ → (ℕ → ℝ) → ℝ} {G : ℕ → ℕ → ℝ}
    (h : ∀ k ∈ s, HasGrad n (F k) (G k) x) :
    HasGrad n (fun X => ∑ k ∈ s, F k X) (fun j => ∑ k ∈ s, G k j) x := by
  induction s using Finset.induction_on with
  | empty => simpa using HasGrad.const (n := n) (x := x) 0
  | insert a s ha ih =>
    simp only [sum_insert ha]
    exact (h a (mem_insert_self _ _)).add (ih (fun k hk => h k (mem_insert_of_mem hk)))

/-- Chain rule with a scalar function. -/
theorem HasGrad.comp_deriv (h : HasGrad n f g x) {φ : ℝ → ℝ} {φ' : ℝ}
    (hφ : HasDerivAt φ φ' (f x)) : HasGrad n (fun X => φ (f X)) (fun j => φ' * g j) x := by
  unfold HasGrad at *
  rw [row_smul]
  have e : f x = (fun v : Fin n → ℝ => f (fun i => x i + TMD.Spec.ext v i)) 0 := by simp
  rw [e] at hφ
  exact hφ.comp_hasFDerivAt (0 : Fin n → ℝ) h

/-- Chain rule with a function of `m` array entries. -/
theorem HasGrad.comp_vec {φ : (ℕ → ℝ) → ℝ} {p : ℕ → ℝ} {Y : (ℕ → ℝ) → ℕ → ℝ} {G : ℕ → ℕ → ℝ}
    (hφ : HasGrad m φ p (Y x)) (hdep : ∀ a b, (∀ i < m, a i = b i) → φ a = φ b)
    (h : ∀ k < m, HasGrad n (fun X => Y X k) (G k) x) :
    HasGrad n (fun X => φ (Y X)) (fun j => ∑ k ∈ range m, p k * G k j) x := by
  unfold HasGrad at hφ h ⊢
  let D : (Fin n → ℝ) → (Fin m → ℝ) := fun v k => Y (fun i => x i + TMD.Spec.ext v i) k - Y x k
  have hD : HasFDerivAt D (ContinuousLinearMap.pi fun k : Fin m => row n (G k)) 0 := by
    rw [hasFDerivAt_pi]
    intro k
    exact (h k k.2).sub_const _
  have hD0 : D 0 = 0 := by funext k; simp [D]
  rw [← hD0] at hφ
  have hc := HasFDerivAt.comp (g := fun v : Fin m → ℝ => φ (fun i => Y x i + TMD.Spec.ext v i)) (f := D)
    (0 : Fin n → ℝ) hφ hD
  have e1 : (fun v : Fin n → ℝ => φ (Y (fun i => x i + TMD.Spec.ext v i)))
      = (fun v : Fin m → ℝ => φ (fun i => Y x i + TMD.Spec.ext v i)) ∘ D := by
    funext v
    apply hdep
    intro i hi
    simp [D, TMD.Spec.ext, hi]
  have e2 : row n (fun j => ∑ k ∈ range m, p k * G k j)
      = (row m p).comp (ContinuousLinearMap.pi fun k : Fin m => row n (G k)) := by
    ext v
    rw [row_apply, ContinuousLinearMap.comp_apply, row_apply]
    simp only [ContinuousLinearMap.pi_apply, row_apply, Finset.sum_range, sum_mul, mul_sum]
    rw [sum_comm]
    exact sum_congr rfl (fun _ _ => sum_congr rfl (fun _ _ => by ring))
  rw [e1, e2]
  exact hc

/-- A linear map given by a row. -/
theorem HasGrad.linear (N : ℕ) (a : ℕ → ℝ) :
    HasGrad n (fun X => ∑ k ∈ range N, a k * X k) (fun j => if j < N then a j else 0) x := by
  refine (HasGrad.sum (fun k _ => (HasGrad.coord (n := n) (x := x) k).const_mul (a k))).congr ?_
  intro j hj
  by_cases h : j < N
  · rw [if_pos h, sum_eq_single_of_mem j (by simpa using h)]
    · simp
    · intro b _ hb; simp [Ne.symm hb]
  · rw [if_neg h, sum_eq_zero]
    intro k hk
    have : j ≠ k := by have := mem_range.mp hk; omega
    simp [this]

/-- The gradient determines every directional derivative. -/
theorem HasGrad.directional (h : HasGrad n f g x) (V : ℕ → ℝ) (hV : ∀ i, n ≤ i → V i = 0) :
    HasDerivAt (fun s : ℝ => f (fun i => x i + s * V i)) (∑ j ∈ range n, g j * V j) 0 := by
  unfold HasGrad at h
  have hl : HasDerivAt (fun s : ℝ => (fun j : Fin n => s * V j)) (fun j : Fin n => V j) 0 := by
    rw [hasDerivAt_pi]
    intro i
    simpa using (hasDerivAt_id (0:ℝ)).mul_const (V i)
  have h0 : (fun s : ℝ => (fun j : Fin n => s * V j)) 0 = 0 := by funext j; simp
  rw [← h0] at h
  have hc := h.comp_hasDerivAt (0:ℝ) hl
  rw [row_apply, ← Finset.sum_range (fun j => g j * V j)] at hc
  refine hc.congr_of_eventuallyEq (Filter.Eventually.of_forall fun s => ?_)
  simp only [Function.comp]
  congr 1
  funext i
  by_cases hi : i < n
  · simp [TMD.Spec.ext, hi]
  · simp [TMD.Spec.ext, hi, hV i (by omega)]

end

end TMD.Spec
