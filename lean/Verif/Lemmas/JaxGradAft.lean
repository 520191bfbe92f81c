import Verif.Lemmas.JaxGrad
import Verif.Props.HystJacobian
import Verif.Props.LocalForces

/-!
# `aft` of the JAX elements with derivatives
-/

namespace TMD

open Spec Finset

noncomputable section

variable {h : List ℕ} (hA : Admissible h) {Nt : ℕ} (hNt : ∀ k ∈ h, 2*k + 1 < Nt) (heven : Even Nt)
  (hh : 1 < numCoeff h)

/-- The sampled displacements as pairs. -/
def dualSamples (N m : ℕ) (Q : ℕ → ℕ → ℝ) (h : List ℕ) (Nt : ℕ) (cst : TS ℕ) (U : ℕ → ℝ) (j d : ℕ) : Dual :=
  ⟨localMotion N Q h U d (2 * Real.pi * j / Nt), fun k => ∑ r ∈ range (numCoeff h), cst.val j r * seed m k r d⟩

/-- The zeroth row of the coefficients as pairs. -/
def dualStart (N m : ℕ) (Q : ℕ → ℕ → ℝ) (U : ℕ → ℝ) (d : ℕ) : Dual := ⟨unlOf N Q U 0 d, fun k => seed m k 0 d⟩

include hA hNt heven hh in
theorem jaxGrad_ok : ∃ (cst : TS ℕ) (W : ℕ → ℕ → ℝ), timeSeriesDeriv Nt h eye 0 = .ok cst ∧
    (∀ x : ℕ → ℕ → ℝ, ∃ v, getFourierCoeff h ⟨Nt, x⟩ = .ok v ∧
      (∀ r < numCoeff h, ∀ d, v r d = ∑ j ∈ range Nt, W r j * x j d)) ∧
    (∀ N Q (U : ℕ → ℝ) d j, localMotion N Q h U d (2 * Real.pi * (j : ℕ) / Nt)
      = ∑ r ∈ range (numCoeff h), cst.val j r * unlOf N Q U r d) ∧
    ∀ (N m : ℕ) (Q T : ℕ → ℕ → ℝ) (hist : ℕ → (ℕ → ℕ → Dual) → (ℕ → Dual) → ℕ → ℕ → Dual) (U : ℕ → ℝ),
      ∃ (out : AftOut) (J : ℕ → ℕ → ℝ) (Fh : ℕ → ℕ → ℝ), jaxAftGrad N m Q T hist U h Nt = .ok out ∧
        ∀ ft, ft = hist Nt (dualSamples N m Q h Nt cst U) (dualStart N m Q U) →
        getFourierCoeff h ⟨Nt, fun j d => (ft j d).v⟩ = .ok Fh ∧ out.F = toGlobal N m T Fh ∧
        out.dU = matMul (numCoeff h * m) (matMul (numCoeff h * m) (kronEye N m T) J) (kronEye m N Q) ∧
        (∀ r < numCoeff h, ∀ d < m, ∀ k, J (r * m + d) k = ∑ j ∈ range Nt, W r j * (ft j d).d k) ∧
        out.dw = fun p => ∑ d ∈ range m, T (p % N) d * J (d * numCoeff h + p / N) (numCoeff h * m) := by
  obtain ⟨cst, c1, c2, c3⟩ := ts_linear hA hNt heven (o := 0) (by omega)
  obtain ⟨W, hW⟩ := gfc_linear hA (Nt := Nt) (fun k hk => by have := hNt k hk; omega)
  refine ⟨cst, W, c1, fun x => ?_, fun N Q U d j => ?_, fun N m Q T hist U => ?_⟩
  · obtain ⟨v, v1, v2, -⟩ := hW x
    exact ⟨v, v1, v2⟩
  · obtain ⟨x, x1, x2, x3, x4⟩ := c3 (unlOf N Q U)
    rw [← x3, x4, iteratedDeriv_zero, localMotion_eq]
  obtain ⟨x, x1, x2, x3, x4⟩ := c3 (unlOf N Q U)
  obtain ⟨y, y1, y2, y3, y4⟩ := c3 (fun r (p : ℕ × ℕ) => seed m p.1 r p.2)
  set ft0 := hist Nt (dualSamples N m Q h Nt cst U) (dualStart N m Q U) with hft0
  obtain ⟨F, f1, f2, -⟩ := hW (fun j d => (ft0 j d).v)
  obtain ⟨G, g1, g2, -⟩ := hW (fun j (p : ℕ × ℕ) => (ft0 j p.2).d p.1)
  have hs : (fun j d => (⟨x.val j d, fun k => y.val j (k, d)⟩ : Dual)) = dualSamples N m Q h Nt cst U := by
    funext j d
    unfold dualSamples
    rw [x4, iteratedDeriv_zero, localMotion_eq]
    simp only [y3]
  set J : ℕ → ℕ → ℝ := fun p k => G (p / m) (k, p % m) with hJ
  refine ⟨⟨toGlobal N m T F, matMul (numCoeff h * m) (matMul (numCoeff h * m) (kronEye N m T) J) (kronEye m N Q),
    fun p => ∑ d ∈ range m, T (p % N) d * J (d * numCoeff h + p / N) (numCoeff h * m)⟩, J, F, ?_, fun ft hft => ?_⟩
  rotate_left
  · rw [hft]
    refine ⟨f1, rfl, rfl, fun r hr d hd k => ?_, rfl⟩
    obtain ⟨e1, e2⟩ := mod_block (c := r) hd
    simp only [hJ, e1, e2]
    exact g2 r hr (k, d)
  · unfold jaxAftGrad
    simp only
    rw [if_neg (not_not.2 (jax_dofs hh m)), x1, y1]
    simp only [x2, hs]
    rw [show (fun d => (⟨unlOf N Q U 0 d, fun k => seed m k 0 d⟩ : Dual)) = dualStart N m Q U from rfl, ← hft0, f1, g1,
      nhcRaw_eq]

/-- The samples hold the motion and its derivative. -/
theorem dualSamples_tracks {N m : ℕ} (Q : ℕ → ℕ → ℝ) {cst : TS ℕ} {j d : ℕ} (hd : d < m)
    (hc : ∀ (U : ℕ → ℝ), localMotion N Q h U d (2 * Real.pi * (j : ℕ) / Nt)
      = ∑ r ∈ range (numCoeff h), cst.val j r * unlOf N Q U r d) (U : ℕ → ℝ) :
    Tracks (numCoeff h * N) (numCoeff h * m) (kronEye m N Q) U
      (fun U => localMotion N Q h U d (2 * Real.pi * j / Nt)) (dualSamples N m Q h Nt cst U j d) := by
  refine ⟨rfl, ((hasGrad_sample (numCoeff h) N Q (cst.val j) d U).congr_fun hc).congr fun q hq => ?_⟩
  have hm := matMul_kronEye_right (numCoeff h) N m Q (fun _ => (dualSamples N m Q h Nt cst U j d).d) 0 hq
  unfold matMul at hm
  rw [hm, sum_eq_single_of_mem d (mem_range.2 hd)]
  · congr 1
    unfold dualSamples
    simp only
    rw [sum_eq_single_of_mem (q / N) (mem_range.2 (div_lt_block hq).1)]
    · simp [seed]
    · intro r _ hr
      rw [seed, if_neg, mul_zero]
      intro e
      have := (block_eq_iff (N := m) hd).1 e
      rw [(mod_block hd).2] at this
      exact hr this.1.symm
  · intro e he hed
    rw [mul_eq_zero]
    left
    show ∑ r ∈ range (numCoeff h), cst.val j r * seed m (q / N * m + e) r d = 0
    refine sum_eq_zero fun r _ => ?_
    rw [seed, if_neg, mul_zero]
    intro e'
    have := ((block_eq_iff (N := m) hd).1 e').2
    rw [(mod_block (mem_range.1 he)).1] at this
    exact hed this

theorem dualStart_tracks {n N m : ℕ} (Q : ℕ → ℕ → ℝ) {d : ℕ} (hd : d < m) (U : ℕ → ℝ) :
    Tracks (n * N) (n * m) (kronEye m N Q) U (fun U => unlOf N Q U 0 d) (dualStart N m Q U d) := by
  refine ⟨rfl, (hasGrad_unlOf n N Q 0 d U).congr fun q hq => ?_⟩
  have hm := matMul_kronEye_right n N m Q (fun _ => (dualStart N m Q U d).d) 0 hq
  unfold matMul at hm
  rw [hm, sum_eq_single_of_mem d (mem_range.2 hd)]
  · unfold dualStart
    simp only [seed]
    by_cases hq0 : q / N = 0
    · simp [hq0]
    · rw [if_neg hq0, if_neg, zero_mul]
      intro e
      have := (block_eq_iff (N := m) hd).1 e
      rw [(mod_block hd).2] at this
      exact hq0 this.1
  · intro e he hed
    rw [mul_eq_zero]
    left
    show seed m (q / N * m + e) 0 d = 0
    rw [seed, if_neg]
    intro e'
    have := ((block_eq_iff (N := m) hd).1 e').2
    rw [(mod_block (mem_range.1 he)).1] at this
    exact hed this

/-- The samples do not depend on the frequency. -/
theorem seed_last {n m r d : ℕ} (hr : r < n) (hd : d < m) : seed m (n * m) r d = 0 := by
  rw [seed, if_neg]
  intro e
  have h1 : r * m + d < n * m := by
    calc r * m + d < r * m + m := by omega
      _ = (r + 1) * m := by ring
      _ ≤ n * m := Nat.mul_le_mul_right m hr
  omega

theorem dualSamples_last {N m : ℕ} (Q : ℕ → ℕ → ℝ) (cst : TS ℕ) (U : ℕ → ℝ) (j : ℕ) {d : ℕ} (hd : d < m) :
    (dualSamples N m Q h Nt cst U j d).d (numCoeff h * m) = 0 := by
  show ∑ r ∈ range (numCoeff h), cst.val j r * seed m (numCoeff h * m) r d = 0
  exact sum_eq_zero fun r hr => by rw [seed_last (mem_range.1 hr) hd, mul_zero]

include hA hNt heven hh in
/-- The values are those of the program on numbers; the returned derivatives are the true ones where the history on
pairs holds the derivatives of the history on numbers and does not depend on the frequency. -/
theorem jaxGrad_joint (N m : ℕ) (Q T : ℕ → ℕ → ℝ) (hist : ℕ → (ℕ → ℕ → Dual) → (ℕ → Dual) → ℕ → ℕ → Dual)
    (histR : ℕ → (ℕ → ℕ → ℝ) → (ℕ → ℝ) → ℕ → ℕ → ℝ)
    (hv : ∀ n u z j d, (hist n u z j d).v = histR n (fun j d => (u j d).v) (fun d => (z d).v) j d) :
    ∃ cst : TS ℕ, (∀ N Q (U : ℕ → ℝ) d j, localMotion N Q h U d (2 * Real.pi * (j : ℕ) / Nt)
      = ∑ r ∈ range (numCoeff h), cst.val j r * unlOf N Q U r d) ∧
    ∃ out : (ℕ → ℝ) → AftOut, (∀ U, jaxAftGrad N m Q T hist U h Nt = .ok (out U)) ∧
      (∀ U, jaxAft N m Q T (fun u z => histR u.rows u.val z) U h Nt = .ok (out U).F) ∧
      ∀ Z U, U = sl 0 (numCoeff h * N) Z →
        (∀ j < Nt, ∀ d < m, Tracks (numCoeff h * N) (numCoeff h * m) (kronEye m N Q) U
          (fun U => histR Nt (fun j d => localMotion N Q h U d (2 * Real.pi * j / Nt)) (unlOf N Q U 0) j d)
          (hist Nt (dualSamples N m Q h Nt cst U) (dualStart N m Q U) j d)) →
        (∀ j < Nt, ∀ d < m, (hist Nt (dualSamples N m Q h Nt cst U) (dualStart N m Q U) j d).d (numCoeff h * m) = 0) →
        JointTrue (fun U _ => out U) (numCoeff h * N) Z := by
  obtain ⟨cst, W, c1, c2, c3, H⟩ := jaxGrad_ok hA hNt heven hh
  choose out J Fh o1 o2 using H N m Q T hist
  have hft : ∀ U, (fun j d => (hist Nt (dualSamples N m Q h Nt cst U) (dualStart N m Q U) j d).v)
      = histR Nt (fun j d => localMotion N Q h U d (2 * Real.pi * j / Nt)) (unlOf N Q U 0) := by
    intro U
    funext j d
    rw [hv]
    rfl
  refine ⟨cst, c3, out, o1, fun U => ?_, fun Z U hU hT h0 => ?_⟩
  · obtain ⟨f1, f2, -⟩ := o2 U _ rfl
    rw [f2]
    exact jaxAft_F hA hNt heven hh N m Q T (fun u z => histR u.rows u.val z) U (by rw [hft] at f1; exact f1)
  have hJ := aft_core (numCoeff h) N m Nt Q T W
    (fun U => histR Nt (fun j d => localMotion N Q h U d (2 * Real.pi * j / Nt)) (unlOf N Q U 0))
    (fun j d e c => (hist Nt (dualSamples N m Q h Nt cst U) (dualStart N m Q U) j d).d (c * m + e)) (J U)
    (fun U => (out U).F) U
    (fun U p hp => by
      obtain ⟨f1, f2, -⟩ := o2 U _ rfl
      obtain ⟨v, v1, v2⟩ := c2 (histR Nt (fun j d => localMotion N Q h U d (2 * Real.pi * j / Nt)) (unlOf N Q U 0))
      rw [hft, v1] at f1
      obtain rfl := Except.ok.inj f1
      rw [f2]
      unfold toGlobal matMul
      exact sum_congr rfl fun d _ => by beta_reduce; rw [v2 _ (div_lt_block hp).1])
    (fun r hr c hc d hd e he => (o2 U _ rfl).2.2.2.1 r hr d hd _)
    (fun j hj d hd => (hT j hj d hd).2.congr fun q hq => by
      have hm := matMul_kronEye_right (numCoeff h) N m Q
        (fun _ => (hist Nt (dualSamples N m Q h Nt cst U) (dualStart N m Q U) j d).d) 0 hq
      unfold matMul at hm
      exact hm.symm)
  have hdw : ∀ i < numCoeff h * N, (out U).dw i = 0 := by
    intro i hi
    obtain ⟨-, -, -, f4, f5⟩ := o2 U _ rfl
    rw [f5]
    refine sum_eq_zero fun d hd => ?_
    obtain ⟨hi1, -⟩ := div_lt_block hi
    have hlt : d * numCoeff h + i / N < numCoeff h * m := by
      have := mem_range.1 hd
      calc d * numCoeff h + i / N < d * numCoeff h + numCoeff h := by omega
        _ = (d + 1) * numCoeff h := by ring
        _ ≤ m * numCoeff h := Nat.mul_le_mul_right _ this
        _ = numCoeff h * m := Nat.mul_comm _ _
    obtain ⟨k1, k2⟩ := div_lt_block hlt
    have := f4 _ k1 _ k2 (numCoeff h * m)
    rw [Nat.div_add_mod'] at this
    rw [this, mul_eq_zero]
    right
    exact sum_eq_zero fun j hj => by rw [h0 j (mem_range.1 hj) _ k2, mul_zero]
  rw [← (o2 U _ rfl).2.2.1] at hJ
  subst hU
  intro i hi
  have hlift := HasGrad.lift (n := numCoeff h * N + 1) (L := numCoeff h * N) (Z := Z) (hJ i hi)
  exact hlift.congr fun j _ => by rw [hdw i hi]

end

end TMD
