import Mathlib.Analysis.Matrix.Normed
import Mathlib.Analysis.Normed.Algebra.GelfandFormula
import Mathlib.LinearAlgebra.Matrix.Charpoly.Eigs
import Mathlib.Analysis.Calculus.FDeriv.Comp
import Mathlib.Analysis.SpecialFunctions.Pow.Real

/-! # Fixed points whose derivative has small eigenvalues attract their neighbourhood -/

namespace TMD

open Filter Topology

section Abstract

variable {E : Type*} [NormedAddCommGroup E] [NormedSpace ℝ E]

theorem attract {f : E → E} {x0 : E} {A : E →L[ℝ] E} (h0 : f x0 = x0) (hf : HasFDerivAt f A x0) {N : ℕ}
    (hN : 0 < N) (hA : ‖A ^ N‖ < 1 / 2) :
    ∃ C ρ δ : ℝ, 0 < δ ∧ 0 < C ∧ 0 ≤ ρ ∧ ρ < 1 ∧
      ∀ x, ‖x - x0‖ < δ → ∀ n, ‖f^[n] x - x0‖ ≤ C * ρ ^ n * ‖x - x0‖ := by
  have hit : ∀ n, f^[n] x0 = x0 := fun n => Function.iterate_fixed h0 n
  -- all iterates are Lipschitz at the fixed point
  have hbd : ∀ j, ∃ c > 0, ∀ᶠ x in 𝓝 x0, ‖f^[j] x - x0‖ ≤ c * ‖x - x0‖ := by
    intro j
    have := (hf.iterate h0 j).isBigO_sub
    rw [hit] at this
    obtain ⟨c, hc, h⟩ := this.exists_pos
    exact ⟨c, hc, h.bound⟩
  choose c hc hcb using hbd
  have hg : ∀ᶠ x in 𝓝 x0, ‖f^[N] x - x0‖ ≤ 3 / 4 * ‖x - x0‖ := by
    have h1 := (hf.iterate h0 N).isLittleO
    have h2 := h1.def (c := 1 / 4) (by norm_num)
    filter_upwards [h2] with x hx
    rw [hit] at hx
    have h3 : ‖(A ^ N) (x - x0)‖ ≤ 1 / 2 * ‖x - x0‖ :=
      ((A ^ N).le_opNorm _).trans (mul_le_mul_of_nonneg_right hA.le (norm_nonneg _))
    calc ‖f^[N] x - x0‖ = ‖(f^[N] x - x0 - (A ^ N) (x - x0)) + (A ^ N) (x - x0)‖ := by rw [sub_add_cancel]
      _ ≤ _ := norm_add_le _ _
      _ ≤ 3 / 4 * ‖x - x0‖ := by linarith
  have hall : ∀ᶠ x in 𝓝 x0, ∀ j ∈ Finset.range N, ‖f^[j] x - x0‖ ≤ c j * ‖x - x0‖ :=
    (Finset.eventually_all (Finset.range N)).2 fun j _ => hcb j
  obtain ⟨δ, hδ, hball⟩ := Metric.eventually_nhds_iff.1 (hg.and hall)
  have hgq : ∀ x, ‖x - x0‖ < δ → ∀ q, ‖(f^[N])^[q] x - x0‖ ≤ (3 / 4) ^ q * ‖x - x0‖ := by
    intro x hx q
    induction q with
    | zero => simp
    | succ q ih =>
      rw [Function.iterate_succ_apply']
      have hle : ‖(f^[N])^[q] x - x0‖ ≤ ‖x - x0‖ :=
        ih.trans (mul_le_of_le_one_left (norm_nonneg _) (pow_le_one₀ (by norm_num) (by norm_num)))
      have := (hball (y := (f^[N])^[q] x) (by rw [dist_eq_norm]; exact hle.trans_lt hx)).1
      calc _ ≤ 3 / 4 * ‖(f^[N])^[q] x - x0‖ := this
        _ ≤ 3 / 4 * ((3 / 4) ^ q * ‖x - x0‖) := by gcongr
        _ = _ := by ring
  have hNR : (N : ℝ) ≠ 0 := by exact_mod_cast hN.ne'
  set ρ : ℝ := (3 / 4 : ℝ) ^ (1 / (N : ℝ)) with hρ
  have hρ0 : 0 < ρ := Real.rpow_pos_of_pos (by norm_num) _
  have hρ1 : ρ < 1 := Real.rpow_lt_one (by norm_num) (by norm_num) (by positivity)
  have hρN : ρ ^ N = 3 / 4 := by
    rw [hρ, one_div, Real.rpow_inv_natCast_pow (by norm_num) hN.ne']
  set B := ∑ j ∈ Finset.range N, c j with hB
  have hcB : ∀ j < N, c j ≤ B := fun j hj =>
    Finset.single_le_sum (f := c) (fun i _ => (hc i).le) (Finset.mem_range.2 hj)
  have hB0 : 0 < B := (hc 0).trans_le (hcB 0 hN)
  refine ⟨4 / 3 * B, ρ, δ, hδ, by positivity, hρ0.le, hρ1, fun x hx n => ?_⟩
  have hj := Nat.mod_lt n hN
  have e : f^[n] x = f^[n % N] ((f^[N])^[n / N] x) := by
    rw [← Function.iterate_mul, ← Function.iterate_add_apply, Nat.mod_add_div]
  have h1 := hgq x hx (n / N)
  have hle : ‖(f^[N])^[n / N] x - x0‖ ≤ ‖x - x0‖ :=
    h1.trans (mul_le_of_le_one_left (norm_nonneg _) (pow_le_one₀ (by norm_num) (by norm_num)))
  have h2 := (hball (y := (f^[N])^[n / N] x) (by rw [dist_eq_norm]; exact hle.trans_lt hx)).2 (n % N) (Finset.mem_range.2 hj)
  rw [← e] at h2
  have h3 : (3 / 4 : ℝ) ^ (n / N) ≤ 4 / 3 * ρ ^ n := by
    have h4 : ρ ^ n = (3 / 4) ^ (n / N) * ρ ^ (n % N) := by
      rw [← hρN, ← pow_mul, ← pow_add, Nat.div_add_mod]
    have h5 : 3 / 4 ≤ ρ ^ (n % N) := by
      rw [← hρN]
      exact pow_le_pow_of_le_one hρ0.le hρ1.le hj.le
    rw [h4]
    have : (0:ℝ) < (3 / 4) ^ (n / N) := by positivity
    nlinarith
  calc ‖f^[n] x - x0‖ ≤ c (n % N) * ‖(f^[N])^[n / N] x - x0‖ := h2
    _ ≤ B * ((3 / 4) ^ (n / N) * ‖x - x0‖) := by
        have := hcB _ hj
        gcongr
    _ ≤ B * (4 / 3 * ρ ^ n * ‖x - x0‖) := by gcongr
    _ = _ := by ring

end Abstract

section Spectrum

attribute [local instance] Matrix.linftyOpNormedAddCommGroup Matrix.linftyOpNormedRing Matrix.linftyOpNormedAlgebra
  Matrix.linftyOpNormedSpace

variable {n : ℕ}

theorem eigen_mem_spectrum (B : Matrix (Fin n) (Fin n) ℂ) (l : ℂ) :
    l ∈ spectrum ℂ B ↔ ∃ v, v ≠ 0 ∧ B.mulVec v = l • v := by
  rw [spectrum.mem_iff, Matrix.isUnit_iff_isUnit_det, isUnit_iff_ne_zero, not_not, ← Matrix.exists_mulVec_eq_zero_iff]
  have : ∀ v, (algebraMap ℂ (Matrix (Fin n) (Fin n) ℂ) l - B).mulVec v = l • v - B.mulVec v := by
    intro v
    rw [Matrix.sub_mulVec, Algebra.algebraMap_eq_smul_one, Matrix.smul_mulVec, Matrix.one_mulVec]
  simp only [this, sub_eq_zero]
  exact ⟨fun ⟨v, h, h'⟩ => ⟨v, h, h'.symm⟩, fun ⟨v, h, h'⟩ => ⟨v, h, h'.symm⟩⟩

theorem norm_map_ofReal (A : Matrix (Fin n) (Fin n) ℝ) : ‖A.map (fun x : ℝ => (x : ℂ))‖₊ = ‖A‖₊ := by
  rw [Matrix.linfty_opNNNorm_def, Matrix.linfty_opNNNorm_def]
  simp [Matrix.map_apply]

/-- Powers of a matrix whose eigenvalues lie inside the unit circle become small. -/
theorem pow_small (A : Matrix (Fin n) (Fin n) ℝ)
    (h : ∀ l : ℂ, (∃ v, v ≠ 0 ∧ (A.map (fun x : ℝ => (x : ℂ))).mulVec v = l • v) → ‖l‖ < 1) :
    ∃ N, 0 < N ∧ ∀ v : Fin n → ℝ, ‖(A ^ N).mulVec v‖ ≤ 1 / 4 * ‖v‖ := by
  rcases Nat.eq_zero_or_pos n with rfl | hn
  · refine ⟨1, one_pos, fun v => ?_⟩
    rw [Subsingleton.elim ((A ^ 1).mulVec v) 0, norm_zero]
    positivity
  · have : Nonempty (Fin n) := ⟨⟨0, hn⟩⟩
    set B := A.map (fun x : ℝ => (x : ℂ)) with hB
    have : CompleteSpace (Matrix (Fin n) (Fin n) ℂ) := FiniteDimensional.complete ℂ _
    have h1 : spectralRadius ℂ B < ((1 : NNReal) : ENNReal) := by
      apply spectrum.spectralRadius_lt_of_forall_lt
      intro z hz
      exact h z ((eigen_mem_spectrum B z).1 hz)
    obtain ⟨r, hr1, hr2⟩ := ENNReal.lt_iff_exists_nnreal_btwn.1 h1
    have hr2' : r < 1 := by exact_mod_cast hr2
    have h2 := (spectrum.pow_nnnorm_pow_one_div_tendsto_nhds_spectralRadius B).eventually (gt_mem_nhds hr1)
    have h3 : ∀ᶠ k : ℕ in atTop, r ^ k < 1 / 4 :=
      (NNReal.tendsto_pow_atTop_nhds_zero_of_lt_one hr2').eventually (gt_mem_nhds (by norm_num))
    obtain ⟨N, hN1, hN2, hN3⟩ := (h2.and (h3.and (eventually_gt_atTop 0))).exists
    have h4 : ‖B ^ N‖₊ < r ^ N := by
      have hN0 : (N : ℝ) ≠ 0 := by exact_mod_cast hN3.ne'
      have := ENNReal.rpow_lt_rpow hN1 (show (0:ℝ) < N by exact_mod_cast hN3)
      rw [← ENNReal.rpow_mul, one_div_mul_cancel hN0, ENNReal.rpow_one, ENNReal.rpow_natCast] at this
      exact_mod_cast this
    have h5 : ‖A ^ N‖₊ = ‖B ^ N‖₊ := by
      rw [← norm_map_ofReal]
      congr 1
      exact Matrix.map_pow A Complex.ofRealHom N
    refine ⟨N, hN3, fun v => (Matrix.linfty_opNorm_mulVec _ _).trans ?_⟩
    have h6 : ‖A ^ N‖ ≤ 1 / 4 := by
      have : ‖A ^ N‖₊ ≤ 1 / 4 := by rw [h5]; exact (h4.trans hN2).le
      exact_mod_cast this
    gcongr

end Spectrum

end TMD
