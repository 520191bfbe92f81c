import Verif.Lemmas.System
import Mathlib.LinearAlgebra.Matrix.NonsingularInverse

/-! Modal superposition: lemmas for `linear_frf` and `linear_frf_base`. -/

namespace TMD

open Spec Finset

noncomputable section

theorem modal_complete (n : ℕ) (M V : ℕ → ℕ → ℝ)
    (hO : ∀ i < n, ∀ j < n, ∑ k ∈ range n, V k i * ∑ l ∈ range n, M k l * V l j = if i = j then 1 else 0) :
    ∀ d < n, ∀ i < n, ∑ j ∈ range n, (∑ l ∈ range n, M d l * V l j) * V i j = if d = i then 1 else 0 := by
  let Vt : Matrix (Fin n) (Fin n) ℝ := fun i j => V j i
  let MV : Matrix (Fin n) (Fin n) ℝ := fun i j => ∑ l ∈ range n, M i l * V l j
  have h1 : Vt * MV = 1 := by
    ext i j
    rw [Matrix.mul_apply, Matrix.one_apply]
    have := hO i i.2 j j.2
    rw [← Fin.sum_univ_eq_sum_range (fun k => V k i * ∑ l ∈ range n, M k l * V l j)] at this
    simp only [Vt, MV, this, Fin.ext_iff]
  have h2 := mul_eq_one_comm.mp h1
  intro d hd i hi
  have := congrFun (congrFun h2 ⟨d, hd⟩) ⟨i, hi⟩
  rw [Matrix.mul_apply, Matrix.one_apply] at this
  rw [← Fin.sum_univ_eq_sum_range (fun j => (∑ l ∈ range n, M d l * V l j) * V i j)]
  simpa [Vt, MV, Fin.ext_iff] using this

/-- Modal coordinates satisfying the decoupled equations give a solution of the coupled ones. -/
theorem modal_core (n : ℕ) (M K C V : ℕ → ℕ → ℝ) (lam : ℕ → ℝ) (a b w s : ℝ) (F qa qb : ℕ → ℝ)
    (hKV : ∀ i < n, ∀ j < n, ∑ k ∈ range n, K i k * V k j = lam j * ∑ k ∈ range n, M i k * V k j)
    (hO : ∀ i < n, ∀ j < n, ∑ k ∈ range n, V k i * ∑ l ∈ range n, M k l * V l j = if i = j then 1 else 0)
    (hC : ∀ d < n, ∀ e < n, C d e = a * M d e + b * K d e)
    (hq : ∀ j < n, (lam j - w^2) * qa j + s * w * (a + b * lam j) * qb j = ∑ i ∈ range n, V i j * F i) :
    ∀ d < n, ∑ e ∈ range n, ((K d e - w^2 * M d e) * (∑ j ∈ range n, V e j * qa j)
      + s * w * C d e * (∑ j ∈ range n, V e j * qb j)) = F d := by
  intro d hd
  have e1 : ∑ e ∈ range n, ((K d e - w^2 * M d e) * (∑ j ∈ range n, V e j * qa j)
      + s * w * C d e * (∑ j ∈ range n, V e j * qb j))
      = ∑ j ∈ range n, (∑ l ∈ range n, M d l * V l j)
          * ((lam j - w^2) * qa j + s * w * (a + b * lam j) * qb j) := by
    have : ∀ e ∈ range n, ((K d e - w^2 * M d e) * (∑ j ∈ range n, V e j * qa j)
      + s * w * C d e * (∑ j ∈ range n, V e j * qb j))
      = ∑ j ∈ range n, ((K d e * V e j) * (qa j + s * w * b * qb j)
          + (M d e * V e j) * (s * w * a * qb j - w^2 * qa j)) := by
      intro e he
      rw [hC d hd e (mem_range.mp he), mul_sum, mul_sum, ← sum_add_distrib]
      exact sum_congr rfl (fun j _ => by ring)
    rw [sum_congr rfl this, sum_comm]
    refine sum_congr rfl (fun j hj => ?_)
    rw [sum_add_distrib, ← sum_mul, ← sum_mul, hKV d hd j (mem_range.mp hj)]
    ring
  rw [e1]
  have e2 : ∀ j ∈ range n, (∑ l ∈ range n, M d l * V l j)
          * ((lam j - w^2) * qa j + s * w * (a + b * lam j) * qb j)
      = ∑ i ∈ range n, (∑ l ∈ range n, M d l * V l j) * V i j * F i := by
    intro j hj
    rw [hq j (mem_range.mp hj), mul_sum]
    exact sum_congr rfl (fun i _ => by ring)
  rw [sum_congr rfl e2, sum_comm]
  have e3 : ∀ i ∈ range n, ∑ j ∈ range n, (∑ l ∈ range n, M d l * V l j) * V i j * F i
      = (if d = i then 1 else 0) * F i := by
    intro i hi
    rw [← sum_mul, modal_complete n M V hO d hd i (mem_range.mp hi)]
  rw [sum_congr rfl e3, sum_eq_single_of_mem d (mem_range.mpr hd)]
  · simp
  · intro i _ hi; simp [Ne.symm hi]

theorem modal_z {wn lam a b w : ℝ} (hwn : wn^2 = lam) (hpos : 0 < lam) :
    2 * wn * w * (a / wn / 2 + b * wn / 2) = w * (a + b * lam) := by
  have : wn ≠ 0 := by rintro rfl; simp at hwn; linarith
  rw [← hwn]
  field_simp

theorem modal_q {x c f fs : ℝ} (hD : x^2 + c^2 ≠ 0) :
    x * ((x * f - c * fs) / (x^2 + c^2)) + c * ((c * f + x * fs) / (x^2 + c^2)) = f ∧
    x * ((c * f + x * fs) / (x^2 + c^2)) - c * ((x * f - c * fs) / (x^2 + c^2)) = fs := by
  constructor <;> field_simp <;> ring

end

end TMD
