import Verif.Props.Coordinates

/-!
# C122: conservative systems have a variational principle

For an undamped system with symmetric matrices whose nonlinear forces have a potential, the residual of the harmonic balance
(vibration_system.py:464-483, nonlinear_force.py:202-304) is the gradient of the action averaged over the samples of one period.
The mean value row has weight 1, the cosine and sine rows 1/2. `sampledAction`, `rowWeight`, `Conservative` do not refer to the
helpers of the code; only `NLForce.aft` is called.
-/

namespace TMD

open Spec Finset

noncomputable section

/-! ## Averages over the samples -/

/-- Weight of row `r` in an average over the period: 1 for the mean value, 1/2 for cosines and sines. -/
def rowWeight (h : List ℕ) (r : ℕ) : ℝ := if 0 ∈ h ∧ r = 0 then 1 else 1 / 2

/-- Unit vector. -/
def unitVec (r : ℕ) : ℕ → ℝ := fun i => if i = r then 1 else 0

theorem work_nonzero {N : ℕ} {x : ℕ → ℝ} : ∀ {h : List ℕ} (_ : h.Nodup) (_ : 0 ∉ h) {F : ℕ → ℝ}
    (_ : ∀ k ∈ h, coefOf h F k = dft N x k) (c : ℕ → ℝ),
    ∑ r ∈ range (numCoeff h), 1 / 2 * F r * c r = 1 / N * ∑ j ∈ range N, x j * series h c (2 * Real.pi * j / N)
  | [], _, _, _, _, _ => by simp [numCoeff, series]
  | k :: hs, hn, h0, F, hF, c => by
    have hk : k ≠ 0 := fun e => h0 (by simp [e])
    have ih := work_nonzero (N := N) (x := x) (List.nodup_cons.1 hn).2 (fun e => h0 (List.mem_cons_of_mem _ e)) (F := fun i => F (i + 2))
      (fun m hm => by
        have := hF m (List.mem_cons_of_mem _ hm)
        rw [coefOf, if_neg (by rintro rfl; exact (List.nodup_cons.1 hn).1 hm)] at this
        simpa [hk] using this) (fun i => c (i + 2))
    have hd := hF k List.mem_cons_self
    simp only [coefOf, if_true, hk, if_false, dft] at hd
    have h1 := congrArg Prod.fst hd
    have h2 := congrArg Prod.snd hd
    simp only at h1 h2
    have en : numCoeff (k :: hs) = numCoeff hs + 1 + 1 := by simp [numCoeff, hk]; ring
    rw [en, sum_range_succ', sum_range_succ']
    simp only [series, hk, if_false, mul_add, sum_add_distrib]
    rw [← ih, zero_add, h1, h2]
    have e1 : ∀ j : ℕ, x j * (c 0 * Real.cos (k * (2 * Real.pi * j / N))) = c 0 * (x j * Real.cos (k * (2 * Real.pi * j / N))) := fun j => by ring
    have e2 : ∀ j : ℕ, x j * (c 1 * Real.sin (k * (2 * Real.pi * j / N))) = c 1 * (x j * Real.sin (k * (2 * Real.pi * j / N))) := fun j => by ring
    simp only [e1, e2, ← mul_sum]
    ring

/-- The weighted product of Fourier coefficients of samples with other coefficients is the average of the product of the samples
and the other signal. -/
theorem work_eq {N : ℕ} {x : ℕ → ℝ} {h : List ℕ} (hh : Admissible h) {F : ℕ → ℝ} (hF : ∀ k ∈ h, coefOf h F k = dft N x k) (c : ℕ → ℝ) :
    ∑ r ∈ range (numCoeff h), rowWeight h r * F r * c r = 1 / N * ∑ j ∈ range N, x j * series h c (2 * Real.pi * j / N) := by
  by_cases hz : 0 ∈ h
  · cases h with
    | nil => simp at hz
    | cons a hs =>
      have h0 : 0 ∉ hs := hh.zero_first
      obtain rfl : a = 0 := by
        rcases List.mem_cons.1 hz with e | e
        · exact e.symm
        · exact absurd e h0
      have hn := List.nodup_cons.1 hh.nodup
      have ih := work_nonzero (N := N) (x := x) hn.2 h0 (F := fun i => F (i + 1)) (fun m hm => by
          have := hF m (List.mem_cons_of_mem _ hm)
          rw [coefOf, if_neg (by rintro rfl; exact hn.1 hm)] at this
          simpa using this) (fun i => c (i + 1))
      have hd := congrArg Prod.fst (hF 0 List.mem_cons_self)
      simp only [coefOf, if_true, dft] at hd
      have en : numCoeff (0 :: hs) = numCoeff hs + 1 := by simp [numCoeff]; ring
      rw [en, sum_range_succ']
      have e : ∀ r, rowWeight (0 :: hs) (r + 1) = 1 / 2 := fun r => by simp [rowWeight]
      have e0 : rowWeight (0 :: hs) 0 = 1 := by simp [rowWeight]
      simp only [e, e0, ih, series, if_true, mul_add, sum_add_distrib, hd]
      have e1 : ∀ j : ℕ, x j * c 0 = c 0 * x j := fun j => by ring
      simp only [e1, ← mul_sum]
      ring
  · have := work_nonzero hh.nodup hz hF c
    rw [← this]
    exact sum_congr rfl fun r _ => by simp [rowWeight, hz]

theorem work_row {N : ℕ} {x : ℕ → ℝ} {h : List ℕ} (hh : Admissible h) {F : ℕ → ℝ} (hF : ∀ k ∈ h, coefOf h F k = dft N x k)
    {r : ℕ} (hr : r < numCoeff h) :
    rowWeight h r * F r = 1 / N * ∑ j ∈ range N, x j * series h (unitVec r) (2 * Real.pi * j / N) := by
  rw [← work_eq hh hF, sum_eq_single_of_mem r (mem_range.2 hr) fun i _ hi => by simp [unitVec, hi]]
  simp [unitVec]

/-- Two motions. -/
theorem work_series {h : List ℕ} (hh : Admissible h) {N : ℕ} (hN : ∀ k ∈ h, 2 * k < N) (a b : ℕ → ℝ) :
    1 / N * ∑ j ∈ range N, series h a (2 * Real.pi * j / N) * series h b (2 * Real.pi * j / N)
      = ∑ r ∈ range (numCoeff h), rowWeight h r * a r * b r :=
  (work_eq hh (fun _ hk => coefOf_dft hh hN a hk) b).symm

/-- Coefficients of the derivative. -/
def dCoef : List ℕ → (ℕ → ℝ) → ℕ → ℝ
  | [], _, _ => 0
  | k :: hs, c, r =>
    if k = 0 then (if r = 0 then 0 else dCoef hs (fun i => c (i + 1)) (r - 1))
    else if r = 0 then k * c 1 else if r = 1 then -(k * c 0) else dCoef hs (fun i => c (i + 2)) (r - 2)

theorem series_dCoef (h : List ℕ) (c : ℕ → ℝ) (τ : ℝ) : HasDerivAt (series h c) (series h (dCoef h c) τ) τ := by
  induction h generalizing c with
  | nil => exact hasDerivAt_const τ 0
  | cons k hs ih =>
    by_cases hk : k = 0
    · subst hk
      have e : series (0 :: hs) c = fun τ => c 0 + series hs (fun i => c (i + 1)) τ := by funext τ; simp [series]
      rw [e]
      have e2 : series (0 :: hs) (dCoef (0 :: hs) c) τ = series hs (dCoef hs fun i => c (i + 1)) τ := by
        simp [series, dCoef]
      rw [e2]
      exact (ih _).const_add _
    · have e : series (k :: hs) c = fun τ => c 0 * Real.cos (k * τ) + c 1 * Real.sin (k * τ) + series hs (fun i => c (i + 2)) τ := by
        funext τ; simp [series, hk]
      rw [e]
      have e2 : series (k :: hs) (dCoef (k :: hs) c) τ = c 0 * (-Real.sin (k * τ) * (k * 1)) + c 1 * (Real.cos (k * τ) * (k * 1)) + series hs (dCoef hs fun i => c (i + 2)) τ := by
        simp only [series, hk, dCoef, if_false, if_true, one_ne_zero]
        have : (fun i => if i + 2 = 0 then (k:ℝ) * c 1 else if i + 2 = 1 then -(k * c 0) else dCoef hs (fun i => c (i + 2)) (i + 2 - 2)) = dCoef hs fun i => c (i + 2) := by
          funext i; simp
        rw [this]; ring
      rw [e2]
      refine HasDerivAt.add (HasDerivAt.add (HasDerivAt.const_mul _ ?_) (HasDerivAt.const_mul _ ?_)) (ih _)
      · exact (Real.hasDerivAt_cos _).comp (h := fun τ => (k:ℝ) * τ) τ ((hasDerivAt_id τ).const_mul (k:ℝ))
      · exact (Real.hasDerivAt_sin _).comp (h := fun τ => (k:ℝ) * τ) τ ((hasDerivAt_id τ).const_mul (k:ℝ))

theorem coefOf_dCoef (h : List ℕ) (c : ℕ → ℝ) (k : ℕ) :
    coefOf h (dCoef h c) k = (k * (coefOf h c k).2, -(k * (coefOf h c k).1)) := by
  induction h generalizing c with
  | nil => simp [coefOf]
  | cons a hs ih =>
    by_cases ha : a = k
    · subst ha
      by_cases h0 : a = 0 <;> simp [coefOf, h0, dCoef]
    · rw [coefOf, if_neg ha, coefOf, if_neg ha, ← ih]
      congr 1
      funext i
      by_cases h0 : a = 0 <;> simp [h0, dCoef]

theorem byParts (h : List ℕ) (a b : ℕ → ℝ) :
    ∑ r ∈ range (numCoeff h), dCoef h a r * dCoef h b r = -∑ r ∈ range (numCoeff h), dCoef h (dCoef h a) r * b r := by
  induction h generalizing a b with
  | nil => simp [numCoeff]
  | cons k hs ih =>
    by_cases hk : k = 0
    · subst hk
      have en : numCoeff (0 :: hs) = numCoeff hs + 1 := by simp [numCoeff]; ring
      rw [en, sum_range_succ', sum_range_succ']
      have e := ih (fun i => a (i + 1)) (fun i => b (i + 1))
      simp only [dCoef, if_true, Nat.add_eq_zero_iff, one_ne_zero, and_false, if_false, Nat.add_sub_cancel, mul_zero, zero_mul, add_zero]
      exact e
    · have en : numCoeff (k :: hs) = numCoeff hs + 1 + 1 := by simp [numCoeff, hk]; ring
      rw [en, sum_range_succ', sum_range_succ', sum_range_succ', sum_range_succ']
      have e := ih (fun i => a (i + 2)) (fun i => b (i + 2))
      simp only [dCoef, hk, if_true, Nat.add_eq_zero_iff, one_ne_zero, and_false, if_false, zero_add, Nat.add_sub_cancel, Nat.add_assoc, Nat.reduceAdd,
        show ∀ i, i + 2 ≠ 0 from fun i => by omega, show ∀ i, i + 2 ≠ 1 from fun i => by omega]
      rw [e]
      ring

theorem byParts_weighted {h : List ℕ} (hh : Admissible h) (a b : ℕ → ℝ) :
    ∑ r ∈ range (numCoeff h), rowWeight h r * dCoef h a r * dCoef h b r
      = -∑ r ∈ range (numCoeff h), rowWeight h r * dCoef h (dCoef h a) r * b r := by
  have e : ∀ (c : ℕ → ℝ), ∀ r, rowWeight h r * dCoef h c r = 1 / 2 * dCoef h c r := fun c r => by
    unfold rowWeight
    split_ifs with hc
    · obtain ⟨hz, rfl⟩ := hc
      cases h with
      | nil => simp at hz
      | cons a hs =>
        obtain rfl : a = 0 := by
          rcases List.mem_cons.1 hz with e | e
          · exact e.symm
          · exact absurd e hh.zero_first
        simp [dCoef]
    · rfl
  simp only [e, mul_assoc, ← mul_sum, byParts]
  ring

/-- The inner product of the samples of two velocities. -/
theorem work_velocity {h : List ℕ} (hh : Admissible h) {N : ℕ} (hN : ∀ k ∈ h, 2 * k < N) (a : ℕ → ℝ) {r : ℕ} (hr : r < numCoeff h) :
    1 / N * ∑ j ∈ range N, series h (dCoef h a) (2 * Real.pi * j / N) * series h (dCoef h (unitVec r)) (2 * Real.pi * j / N)
      = -(rowWeight h r * dCoef h (dCoef h a) r) := by
  rw [work_series hh hN, byParts_weighted hh, sum_eq_single_of_mem r (mem_range.2 hr) fun i _ hi => by simp [unitVec, hi]]
  simp [unitVec]

/-! ## The action -/

/-- Displacement of degree of freedom `d`. -/
def dofMotion (nd : ℕ) (h : List ℕ) (U : ℕ → ℝ) (d : ℕ) : ℝ → ℝ := series h fun r => U (r * nd + d)

/-- Average over the samples of one period of potential energy of the springs minus kinetic energy plus potential of the nonlinear
forces minus work of the external forces, for a motion with frequency `w`. -/
def sampledAction (nd : ℕ) (M K : ℕ → ℕ → ℝ) (V : (ℕ → ℝ) → ℝ) (w : ℝ) (h : List ℕ) (Nt : ℕ) (Fl U : ℕ → ℝ) : ℝ :=
  1 / Nt * ∑ j ∈ range Nt,
    (1 / 2 * ∑ d ∈ range nd, ∑ e ∈ range nd, K d e * dofMotion nd h U d (2 * Real.pi * j / Nt) * dofMotion nd h U e (2 * Real.pi * j / Nt)
      - 1 / 2 * ∑ d ∈ range nd, ∑ e ∈ range nd, M d e * (w * deriv (dofMotion nd h U d) (2 * Real.pi * j / Nt)) * (w * deriv (dofMotion nd h U e) (2 * Real.pi * j / Nt))
      + V (fun d => dofMotion nd h U d (2 * Real.pi * j / Nt))
      - ∑ d ∈ range nd, dofMotion nd h Fl d (2 * Real.pi * j / Nt) * dofMotion nd h U d (2 * Real.pi * j / Nt))

/-- Gradient of a time sample of one degree of freedom. -/
theorem hasGrad_dof {h : List ℕ} {nd d : ℕ} (hd : d < nd) (U : ℕ → ℝ) (τ : ℝ) :
    HasGrad (numCoeff h * nd) (fun U => dofMotion nd h U d τ) (fun q => if q % nd = d then series h (unitVec (q / nd)) τ else 0) U := by
  have k := hasGrad_sample (numCoeff h) nd eye (fun r => series h (unitVec r) τ) d U
  refine (k.congr_fun (f' := fun U => dofMotion nd h U d τ) fun y => ?_).congr fun q _ => ?_
  · unfold dofMotion
    rw [series_basis]
    refine sum_congr rfl fun r _ => ?_
    rw [mul_comm]
    congr 1
    unfold unlOf matMul
    rw [sum_eq_single_of_mem d (mem_range.2 hd) fun i _ hi => by simp [eye, Ne.symm hi]]
    simp [eye]
  · by_cases hq : q % nd = d
    · simp [hq, eye]
    · simp [hq, eye, Ne.symm hq]

theorem hasGrad_dofVel {h : List ℕ} {nd d : ℕ} (hd : d < nd) (U : ℕ → ℝ) (τ : ℝ) :
    HasGrad (numCoeff h * nd) (fun U => deriv (dofMotion nd h U d) τ)
      (fun q => if q % nd = d then series h (dCoef h (unitVec (q / nd))) τ else 0) U := by
  have k := hasGrad_sample (numCoeff h) nd eye (fun r => series h (dCoef h (unitVec r)) τ) d U
  refine (k.congr_fun (f' := fun U => deriv (dofMotion nd h U d) τ) fun y => ?_).congr fun q _ => ?_
  · unfold dofMotion
    have := iteratedDeriv_series_basis h (fun r => y (r * nd + d)) τ (le_refl 1)
    simp only [iteratedDeriv_one] at this
    rw [this]
    refine sum_congr rfl fun r _ => ?_
    rw [mul_comm]
    congr 1
    · exact (series_dCoef h (unitVec r) τ).deriv
    · unfold unlOf matMul
      rw [sum_eq_single_of_mem d (mem_range.2 hd) fun i _ hi => by simp [eye, Ne.symm hi]]
      simp [eye]
  · by_cases hq : q % nd = d
    · simp [hq, eye]
    · simp [hq, eye, Ne.symm hq]

/-- Gradient of a quadratic form. -/
theorem hasGrad_form {n nd : ℕ} {K : ℕ → ℕ → ℝ} (hK : ∀ d < nd, ∀ e < nd, K d e = K e d) {y : ℕ → (ℕ → ℝ) → ℝ} {β U : ℕ → ℝ}
    (hn : ∀ q < n, q % nd < nd) (hy : ∀ d < nd, HasGrad n (y d) (fun q => if q % nd = d then β q else 0) U) :
    HasGrad n (fun U => 1 / 2 * ∑ d ∈ range nd, ∑ e ∈ range nd, K d e * y d U * y e U)
      (fun q => β q * ∑ e ∈ range nd, K (q % nd) e * y e U) U := by
  refine (HasGrad.const_mul (1 / 2) (HasGrad.sum fun d hd => HasGrad.sum fun e he =>
    ((hy d (mem_range.1 hd)).const_mul (K d e)).mul (hy e (mem_range.1 he)))).congr fun q hq => ?_
  have hq' := hn q hq
  have e1 : ∑ d ∈ range nd, ∑ e ∈ range nd, (K d e * y d U * (if q % nd = e then β q else 0) + y e U * (K d e * (if q % nd = d then β q else 0)))
      = ∑ d ∈ range nd, K d (q % nd) * y d U * β q + ∑ e ∈ range nd, y e U * (K (q % nd) e * β q) := by
    simp only [sum_add_distrib]
    congr 1
    · refine sum_congr rfl fun d _ => ?_
      rw [sum_eq_single_of_mem (q % nd) (mem_range.2 hq') fun e _ he => by simp [Ne.symm he]]
      simp
    · rw [sum_comm]
      refine sum_congr rfl fun e _ => ?_
      rw [sum_eq_single_of_mem (q % nd) (mem_range.2 hq') fun d _ hd => by simp [Ne.symm hd]]
      simp
  rw [e1, mul_sum, ← sum_add_distrib, mul_sum]
  refine sum_congr rfl fun e he => ?_
  rw [hK e (mem_range.1 he) _ hq']
  ring

/-- Potential of forces of local displacements. -/
def localPotential (nd m : ℕ) (Q : ℕ → ℕ → ℝ) (P : ℕ → ℝ → ℝ) (X : ℕ → ℝ) : ℝ := ∑ e ∈ range m, P e (∑ d ∈ range nd, Q e d * X d)

theorem hasGrad_potential {h : List ℕ} {nd m : ℕ} {Q : ℕ → ℕ → ℝ} {P p : ℕ → ℝ → ℝ} (hP : ∀ e < m, ∀ u, HasDerivAt (P e) (p e u) u) (U : ℕ → ℝ) (τ : ℝ) :
    HasGrad (numCoeff h * nd) (fun U => localPotential nd m Q P fun d => dofMotion nd h U d τ)
      (fun q => series h (unitVec (q / nd)) τ * ∑ e ∈ range m, Q e (q % nd) * p e (localMotion nd Q h U e τ)) U := by
  unfold localPotential
  refine (HasGrad.sum fun e he => HasGrad.comp_deriv (HasGrad.sum fun d hd => (hasGrad_dof (mem_range.1 hd) U τ).const_mul (Q e d)) (hP e (mem_range.1 he) _)).congr fun q hq => ?_
  have hq' := (div_lt_block hq).2
  rw [mul_sum]
  refine sum_congr rfl fun e _ => ?_
  have e1 : ∑ d ∈ range nd, Q e d * (if q % nd = d then series h (unitVec (q / nd)) τ else 0) = Q e (q % nd) * series h (unitVec (q / nd)) τ := by
    rw [sum_eq_single_of_mem (q % nd) (mem_range.2 hq') fun d _ hd => by simp [Ne.symm hd]]
    simp
  rw [e1]
  change _ = p e (localMotion nd Q h U e τ) * _
  ring

/-- Rows of the linear forces of an undamped system. -/
theorem undamped_row {h : List ℕ} (hh : Admissible h) {nd : ℕ} {M C K : ℕ → ℕ → ℝ} (hC : ∀ d < nd, ∀ e < nd, C d e = 0) (w : ℝ) (U : ℕ → ℝ)
    {r d : ℕ} (hr : r < numCoeff h) (hd : d < nd) :
    matVec (numCoeff h * nd) (hsE nd M C K w h false) U (r * nd + d)
      = ∑ e ∈ range nd, K d e * U (r * nd + e) + ∑ e ∈ range nd, w ^ 2 * M d e * dCoef h (dCoef h fun r => U (r * nd + e)) r := by
  refine rows_of_coefOf hh.nodup (v := fun r => matVec (numCoeff h * nd) (hsE nd M C K w h false) U (r * nd + d))
    (c := fun r => ∑ e ∈ range nd, K d e * U (r * nd + e) + ∑ e ∈ range nd, w ^ 2 * M d e * dCoef h (dCoef h fun r => U (r * nd + e)) r)
    (fun k hk => ?_) r hr
  rw [coefOf_stiff hh nd M C K w U hd hk, coefOf_add, coefOf_lin h (range nd) (fun e => K d e) (fun e r => U (r * nd + e)),
    coefOf_lin h (range nd) (fun e => w ^ 2 * M d e) (fun e r => dCoef h (dCoef h fun r => U (r * nd + e)) r), ← sum_add_distrib]
  unfold dynCoef
  refine Prod.ext ?_ ?_
  · simp only [Prod.fst_sum]
    refine Finset.sum_congr rfl fun e he => ?_
    rw [hC d hd e (mem_range.1 he)]
    simp only [coefOf_dCoef, Prod.fst_add, Prod.smul_fst, smul_eq_mul]
    ring
  · simp only [Prod.snd_sum]
    refine Finset.sum_congr rfl fun e he => ?_
    rw [hC d hd e (mem_range.1 he)]
    simp only [coefOf_dCoef, Prod.snd_add, Prod.smul_snd, smul_eq_mul]
    ring

theorem dCoef_zero (h : List ℕ) (r : ℕ) : dCoef h (fun _ => 0) r = 0 := by
  induction h generalizing r with
  | nil => rfl
  | cons k hs ih => simp only [dCoef, ih]; split_ifs <;> simp

theorem weight_symm {h : List ℕ} (hh : Admissible h) {r c : ℕ} (hr : r < numCoeff h) (hc : c < numCoeff h) :
    rowWeight h r * dCoef h (dCoef h (unitVec c)) r = rowWeight h c * dCoef h (dCoef h (unitVec r)) c := by
  have k := byParts_weighted hh (unitVec c) (unitVec r)
  have k' := byParts_weighted hh (unitVec r) (unitVec c)
  rw [sum_eq_single_of_mem (f := fun i => rowWeight h i * dCoef h (dCoef h (unitVec c)) i * unitVec r i) r (mem_range.2 hr)
    fun i _ hi => by simp [unitVec, hi]] at k
  rw [sum_eq_single_of_mem (f := fun i => rowWeight h i * dCoef h (dCoef h (unitVec r)) i * unitVec c i) c (mem_range.2 hc)
    fun i _ hi => by simp [unitVec, hi]] at k'
  have e : ∀ i, rowWeight h i * dCoef h (unitVec c) i * dCoef h (unitVec r) i = rowWeight h i * dCoef h (unitVec r) i * dCoef h (unitVec c) i :=
    fun i => by ring
  simp only [e] at k
  rw [k] at k'
  simpa [unitVec] using k'

/-- The stiffness matrix of an undamped system is symmetric in the weighted inner product. -/
theorem undamped_symm {h : List ℕ} (hh : Admissible h) {nd : ℕ} {M C K : ℕ → ℕ → ℝ} (hC : ∀ d < nd, ∀ e < nd, C d e = 0)
    (hM : ∀ d < nd, ∀ e < nd, M d e = M e d) (hK : ∀ d < nd, ∀ e < nd, K d e = K e d) (w : ℝ)
    {r c d e : ℕ} (hr : r < numCoeff h) (hc : c < numCoeff h) (hd : d < nd) (he : e < nd) :
    rowWeight h r * hsE nd M C K w h false (r * nd + d) (c * nd + e) = rowWeight h c * hsE nd M C K w h false (c * nd + e) (r * nd + d) := by
  have entry : ∀ {r c d e : ℕ} (_ : r < numCoeff h) (_ : c < numCoeff h) (_ : d < nd) (_ : e < nd),
      hsE nd M C K w h false (r * nd + d) (c * nd + e) = K d e * (if r = c then 1 else 0) + w ^ 2 * M d e * dCoef h (dCoef h (unitVec c)) r := by
    intro r c d e hr hc hd he
    have k := undamped_row (M := M) (K := K) hh hC w (unitVec (c * nd + e)) hr hd
    have e1 : ∀ e' < nd, (fun r => unitVec (c * nd + e) (r * nd + e')) = if e' = e then unitVec c else fun _ => 0 := fun e' he' => by
      funext i
      unfold unitVec
      have : i * nd + e' = c * nd + e ↔ i = c ∧ e' = e := by
        rw [block_eq_iff he, (mod_block he').1, (mod_block he').2]
      simp only [this]
      by_cases h1 : e' = e <;> by_cases h2 : i = c <;> simp only [h1, h2, and_true, and_false, if_true, if_false]
    have l : matVec (numCoeff h * nd) (hsE nd M C K w h false) (unitVec (c * nd + e)) (r * nd + d) = hsE nd M C K w h false (r * nd + d) (c * nd + e) := by
      unfold matVec
      rw [sum_eq_single_of_mem (c * nd + e) (mem_range.2 (row_lt hc he)) fun i _ hi => by simp [unitVec, hi]]
      simp [unitVec]
    rw [l] at k
    rw [k]
    congr 1
    · rw [sum_eq_single_of_mem e (mem_range.2 he) fun e' he' hne => by
        have := congrFun (e1 e' (mem_range.1 he')) r
        simp only [hne, if_false] at this
        rw [this, mul_zero]]
      have := congrFun (e1 e he) r
      simp only [if_true] at this
      rw [this]; rfl
    · rw [sum_eq_single_of_mem e (mem_range.2 he) fun e' he' hne => by
        rw [e1 e' (mem_range.1 he'), if_neg hne]
        have z : dCoef h (fun _ => (0:ℝ)) = fun _ => 0 := funext (dCoef_zero h)
        rw [z, z, mul_zero]]
      rw [e1 e he, if_pos rfl]
  rw [entry hr hc hd he, entry hc hr he hd, mul_add, mul_add, hK d hd e he, hM d hd e he]
  congr 1
  · by_cases hrc : r = c
    · rw [hrc]
    · simp [hrc, Ne.symm hrc]
  · rw [mul_left_comm, weight_symm hh hr hc, mul_left_comm]

/-! ## Forces -/

/-- The harmonic force of `f` is, row by row and up to the weights, the gradient of the average of the potential `V` over the
samples, and its derivative is symmetric. -/
def Conservative (f : NLForce) (V : (ℕ → ℝ) → ℝ) (nd : ℕ) (h : List ℕ) (Nt : ℕ) (tol : ℝ) : Prop :=
  ∀ U w, ∃ o, f.aft U w h Nt tol = .ok o ∧
    HasGrad (numCoeff h * nd) (fun U => 1 / Nt * ∑ j ∈ range Nt, V fun d => dofMotion nd h U d (2 * Real.pi * j / Nt))
      (fun q => rowWeight h (q / nd) * o.F q) U ∧
    ∀ p < numCoeff h * nd, ∀ q < numCoeff h * nd, rowWeight h (p / nd) * o.dU p q = rowWeight h (q / nd) * o.dU q p

/-- C122: an instantaneous force object with `T = Qᵀ` whose local forces are derivatives of potentials of the local displacements. -/
theorem C122_force (h : List ℕ) (hA : Admissible h) (Nt : ℕ) (hNt : ∀ k ∈ h, 2*k + 1 < Nt) (heven : Even Nt) (tol : ℝ) (nd m : ℕ)
    (Q T : ℕ → ℕ → ℝ) (hT : ∀ d < nd, ∀ e < m, T d e = Q e d) (loc : ℕ → ℝ → ℝ → Loc) (force : (ℕ → ℝ) → (ℕ → ℝ) × (ℕ → ℕ → ℝ))
    (P : ℕ → ℝ → ℝ) (hP : ∀ e < m, ∀ u v, HasDerivAt (P e) (loc e u v).f u) (hv : ∀ e < m, ∀ u v, (loc e u v).dfdud = 0) :
    Conservative (instForce nd m Q T loc force) (localPotential nd m Q P) nd h Nt tol := by
  intro U w
  have hN : ∀ k ∈ h, 2 * k < Nt := fun k hk => by have := hNt k hk; omega
  obtain ⟨W, B0, B1, H⟩ := instAft_ok hA hNt heven nd m Q T
  obtain ⟨F, dFw, J, u, v, h1, h2, h3, -, h5, h6, h7, h8, -⟩ := H (elemLfh loc) U w
  refine ⟨_, h1, ?_, ?_⟩
  · refine (HasGrad.const_mul (1 / (Nt:ℝ)) (HasGrad.sum fun j _ => hasGrad_potential (p := fun e u => (loc e u 0).f) (fun e he u => hP e he u 0) U _)).congr
      fun q hq => ?_
    obtain ⟨hq1, hq2⟩ := div_lt_block hq
    have eF : ∀ k ∈ h, coefOf h (fun r => toGlobal nd m T F (r * nd + q % nd)) k
        = dft Nt (fun j => ∑ e ∈ range m, Q e (q % nd) * (loc e (localMotion nd Q h U e (2 * Real.pi * j / Nt)) 0).f) k := fun k hk => by
      rw [isForceDFT_of nd m T h Nt _ F h7 (q % nd) hq2 k hk]
      congr 1
      funext j
      refine sum_congr rfl fun e he => ?_
      have he := mem_range.1 he
      rw [hT _ hq2 e he, ← localMotion_eq, ← h3]
      congr 1
      exact (hP e he (u j e) (v j e)).unique (hP e he (u j e) 0)
    have k := work_row hA eF hq1
    have eq : q / nd * nd + q % nd = q := Nat.div_add_mod' q nd
    rw [eq] at k
    show rowWeight h (q / nd) * toGlobal nd m T F q = _
    rw [k]
    congr 1
    exact sum_congr rfl fun j _ => mul_comm _ _
  · intro p hp q hq
    obtain ⟨hp1, hp2⟩ := div_lt_block hp
    obtain ⟨hq1, hq2⟩ := div_lt_block hq
    have eW : ∀ r < numCoeff h, ∀ j < Nt, rowWeight h r * W r j = 1 / Nt * series h (unitVec r) (2 * Real.pi * j / Nt) := fun r hr j hj => by
      obtain ⟨F', -, -, -, -, -, -, -, -, -, g6, g7, -, -⟩ := H (fun _ _ => ⟨fun i _ => eye i j, fun _ _ => 0, fun _ _ => 0⟩) U w
      have k := work_row hA (fun k hk => g7 k hk 0) hr
      have e1 := g6 r hr 0
      simp only at e1 k
      rw [sum_eq_single_of_mem j (mem_range.2 hj) fun i _ hi => by simp [eye, hi]] at e1 k
      simp only [eye, if_true, mul_one, one_mul] at e1 k
      rw [← k, e1]
    have eB : ∀ c < numCoeff h, ∀ j, ∀ e < m, (∃ d < nd, Q e d ≠ 0) → B0 j c = series h (unitVec c) (2 * Real.pi * j / Nt) := by
      rintro c hc j e he ⟨d, hd, hQ⟩
      obtain ⟨-, -, -, u', v', -, g2, g3, -⟩ := H (elemLfh loc) (fun i => if i = c * nd + d then 1 / Q e d else 0) w
      have e1 : ∀ r, unlOf nd Q (fun i => if i = c * nd + d then 1 / Q e d else 0) r e = unitVec c r := fun r => by
        unfold unlOf matMul unitVec
        rw [sum_eq_single_of_mem d (mem_range.2 hd) fun i hi hne => by
          have : ¬ (r * nd + i = c * nd + d) := fun hh => hne (((block_eq_iff hd).1 hh).2.symm.trans (mod_block (mem_range.1 hi)).1).symm
          beta_reduce; rw [if_neg this, mul_zero]]
        beta_reduce
        by_cases hr : r = c
        · rw [if_pos (by rw [hr]), if_pos hr, mul_one_div_cancel hQ]
        · have : ¬ (r * nd + d = c * nd + d) := fun hh => hr ((mod_block hd).2.symm.trans ((block_eq_iff hd).1 hh).1)
          rw [if_neg this, if_neg hr, mul_zero]
      have k2 := g2 j e
      have k3 := g3 j e
      simp only [e1] at k2 k3
      rw [sum_eq_single_of_mem c (mem_range.2 hc) fun i _ hi => by simp [unitVec, hi]] at k2
      rw [k2, show unitVec c c = 1 by simp [unitVec], mul_one] at k3
      exact k3
    have entry : ∀ {p q : ℕ} (_ : p < numCoeff h * nd) (_ : q < numCoeff h * nd),
        rowWeight h (p / nd) * matMul (numCoeff h*m) (matMul (numCoeff h*m) (kronEye nd m T) J) (kronEye m nd Q) p q
          = ∑ e ∈ range m, ∑ j ∈ range Nt, 1 / Nt * (elemLfh loc u v).dfdu j e *
              (Q e (p % nd) * series h (unitVec (p / nd)) (2 * Real.pi * j / Nt)) * (Q e (q % nd) * series h (unitVec (q / nd)) (2 * Real.pi * j / Nt)) := by
      intro p q hp hq
      obtain ⟨hp1, hp2⟩ := div_lt_block hp
      obtain ⟨hq1, hq2⟩ := div_lt_block hq
      rw [kron_sandwich _ _ _ _ _ _ hp hq, mul_sum]
      refine sum_congr rfl fun e he => ?_
      have he' := mem_range.1 he
      rw [sum_eq_single_of_mem e he fun e' he' hne => by
        rw [h8 _ hp1 _ hq1 e (mem_range.1 he) e' (mem_range.1 he')]
        simp [Ne.symm hne], h8 _ hp1 _ hq1 e he' e he', hT _ hp2 e he']
      by_cases hz : Q e (p % nd) = 0
      · simp [hz]
      · have hex : ∃ d < nd, Q e d ≠ 0 := ⟨_, hp2, hz⟩
        rw [mul_sum, sum_mul, mul_sum]
        refine sum_congr rfl fun j hj => ?_
        have hd : (elemLfh loc u v).dfdud j e = 0 := hv e he' _ _
        rw [if_pos rfl, hd, eB _ hq1 j e he' hex]
        have := eW _ hp1 j (mem_range.1 hj)
        linear_combination Q e (p % nd) * ((elemLfh loc u v).dfdu j e * series h (unitVec (q / nd)) (2 * Real.pi * j / Nt)) * Q e (q % nd) * this
    show rowWeight h (p / nd) * _ = rowWeight h (q / nd) * _
    rw [entry hp hq, entry hq hp]
    exact sum_congr rfl fun e _ => sum_congr rfl fun j _ => by ring

/-- C122: every force law that is a continuous function of its own local displacement has a potential. -/
theorem C122_continuous (h : List ℕ) (hA : Admissible h) (Nt : ℕ) (hNt : ∀ k ∈ h, 2*k + 1 < Nt) (heven : Even Nt) (tol : ℝ) (nd m : ℕ)
    (Q T : ℕ → ℕ → ℝ) (hT : ∀ d < nd, ∀ e < m, T d e = Q e d) (loc : ℕ → ℝ → ℝ → Loc) (force : (ℕ → ℝ) → (ℕ → ℝ) × (ℕ → ℕ → ℝ))
    (hc : ∀ e < m, Continuous fun u => (loc e u 0).f) (hv : ∀ e < m, ∀ u v, (loc e u v).f = (loc e u 0).f ∧ (loc e u v).dfdud = 0) :
    Conservative (instForce nd m Q T loc force) (localPotential nd m Q fun e u => ∫ s in (0:ℝ)..u, (loc e s 0).f) nd h Nt tol :=
  C122_force h hA Nt hNt heven tol nd m Q T hT loc force _
    (fun e he u v => by rw [(hv e he u v).1]; exact ((hc e he).integral_hasStrictDerivAt 0 u).hasDerivAt) fun e he u v => (hv e he u v).2

/-- C122: the force laws of the package that only depend on the displacement. -/
theorem C122_classes (h : List ℕ) (hA : Admissible h) (Nt : ℕ) (hNt : ∀ k ∈ h, 2*k + 1 < Nt) (heven : Even Nt) (tol : ℝ) (nd m : ℕ)
    (Q T : ℕ → ℕ → ℝ) (hT : ∀ d < nd, ∀ e < m, T d e = Q e d) (k k' N0 δ : ℕ → ℝ) (p : IwanBB) (hp : p.Valid) :
    Conservative (cubicNL nd m Q T k) (localPotential nd m Q fun e u => k e * u ^ 4 / 4) nd h Nt tol ∧
    Conservative (instForce nd m Q T (quinticLoc k) (quinticForce nd m Q T k)) (localPotential nd m Q fun e u => k e * u ^ 6 / 6) nd h Nt tol ∧
    Conservative (instForce nd m Q T (unilateralLoc k' N0 δ) (unilateralForce nd m Q T k' N0 δ))
      (localPotential nd m Q fun e u => ∫ s in (0:ℝ)..u, max (k' e * (s - δ e) - N0 e) (-N0 e)) nd h Nt tol ∧
    Conservative (instForce nd m Q T (iwanBBLoc p) (iwanBBForce nd m Q T p))
      (localPotential nd m Q fun e u => ∫ s in (0:ℝ)..u, (iwanBBLoc p e s 0).f) nd h Nt tol := by
  refine ⟨C122_force h hA Nt hNt heven tol nd m Q T hT _ _ _ (fun e _ u v => ?_) fun e _ u v => rfl,
    C122_force h hA Nt hNt heven tol nd m Q T hT _ _ _ (fun e _ u v => ?_) fun e _ u v => rfl,
    C122_continuous h hA Nt hNt heven tol nd m Q T hT _ _ (fun e _ => ?_) fun e _ u v => ⟨rfl, rfl⟩,
    C122_continuous h hA Nt hNt heven tol nd m Q T hT _ _ (fun e _ => C23_continuous p hp e 0) fun e _ u v => ⟨rfl, rfl⟩⟩
  · have := ((hasDerivAt_pow 4 u).const_mul (k e)).div_const 4
    refine this.congr_deriv ?_
    simp only [cubicLoc]
    push_cast; ring
  · have := ((hasDerivAt_pow 6 u).const_mul (k e)).div_const 6
    refine this.congr_deriv ?_
    simp only [quinticLoc]
    push_cast; ring
  · show Continuous fun u => max (k' e * (u - δ e) - N0 e) (-N0 e)
    fun_prop

/-! ## The system -/

/-- Gradient of the linear part. -/
theorem hasGrad_linear {h : List ℕ} (hA : Admissible h) {Nt : ℕ} (hN : ∀ k ∈ h, 2 * k < Nt) {nd : ℕ} {M C K : ℕ → ℕ → ℝ}
    (hC : ∀ d < nd, ∀ e < nd, C d e = 0) (hM : ∀ d < nd, ∀ e < nd, M d e = M e d) (hK : ∀ d < nd, ∀ e < nd, K d e = K e d) (w : ℝ) (Fl U : ℕ → ℝ) :
    HasGrad (numCoeff h * nd) (fun U => 1 / Nt * ∑ j ∈ range Nt,
      (1 / 2 * ∑ d ∈ range nd, ∑ e ∈ range nd, K d e * dofMotion nd h U d (2 * Real.pi * j / Nt) * dofMotion nd h U e (2 * Real.pi * j / Nt)
        - 1 / 2 * ∑ d ∈ range nd, ∑ e ∈ range nd, M d e * (w * deriv (dofMotion nd h U d) (2 * Real.pi * j / Nt)) * (w * deriv (dofMotion nd h U e) (2 * Real.pi * j / Nt))
        - ∑ d ∈ range nd, dofMotion nd h Fl d (2 * Real.pi * j / Nt) * dofMotion nd h U d (2 * Real.pi * j / Nt)))
      (fun q => rowWeight h (q / nd) * (matVec (numCoeff h * nd) (hsE nd M C K w h false) U q - Fl q)) U := by
  have hn : ∀ q < numCoeff h * nd, q % nd < nd := fun q hq => (div_lt_block hq).2
  have g1 : ∀ τ, _ := fun τ => hasGrad_form (n := numCoeff h * nd) (y := fun d U => dofMotion nd h U d τ) (β := fun q => series h (unitVec (q / nd)) τ) hK hn
    (fun d hd => hasGrad_dof hd U τ)
  have g2 : ∀ τ, _ := fun τ => hasGrad_form (n := numCoeff h * nd) (y := fun d U => w * deriv (dofMotion nd h U d) τ)
    (β := fun q => w * series h (dCoef h (unitVec (q / nd))) τ) hM hn
    (fun d hd => ((hasGrad_dofVel hd U τ).const_mul w).congr fun q _ => by split_ifs <;> simp)
  have g3 : ∀ τ, _ := fun τ => HasGrad.sum (s := range nd) fun d hd => (hasGrad_dof (h := h) (mem_range.1 hd) U τ).const_mul (dofMotion nd h Fl d τ)
  refine (HasGrad.const_mul (1 / (Nt:ℝ)) (HasGrad.sum (s := range Nt) fun j _ =>
    ((g1 (2 * Real.pi * j / Nt)).sub (g2 (2 * Real.pi * j / Nt))).sub (g3 (2 * Real.pi * j / Nt)))).congr fun q hq => ?_
  obtain ⟨hq1, hq2⟩ := div_lt_block hq
  set r := q / nd with hr
  set d := q % nd with hd
  have eq : r * nd + d = q := Nat.div_add_mod' q nd
  have e3 : ∀ τ, ∑ d' ∈ range nd, dofMotion nd h Fl d' τ * (if d = d' then series h (unitVec r) τ else 0) = dofMotion nd h Fl d τ * series h (unitVec r) τ := fun τ => by
    rw [sum_eq_single_of_mem d (mem_range.2 hq2) fun i _ hi => by simp [Ne.symm hi]]
    simp
  have disp : ∀ V : ℕ → ℝ, ∀ e, 1 / (Nt:ℝ) * ∑ j ∈ range Nt, dofMotion nd h V e (2 * Real.pi * j / Nt) * series h (unitVec r) (2 * Real.pi * j / Nt)
      = rowWeight h r * V (r * nd + e) := fun V e =>
    (work_row hA (F := fun r => V (r * nd + e)) (fun _ hk => coefOf_dft hA hN _ hk) hq1).symm
  have vel : ∀ e, 1 / (Nt:ℝ) * ∑ j ∈ range Nt, deriv (dofMotion nd h U e) (2 * Real.pi * j / Nt) * series h (dCoef h (unitVec r)) (2 * Real.pi * j / Nt)
      = -(rowWeight h r * dCoef h (dCoef h fun r => U (r * nd + e)) r) := fun e => by
    rw [← work_velocity hA hN _ hq1]
    congr 1
    exact sum_congr rfl fun j _ => by unfold dofMotion; rw [(series_dCoef h _ _).deriv]
  rw [← eq, undamped_row hA hC w U hq1 hq2]
  simp only [e3, sum_sub_distrib, mul_sub]
  have s1 : 1 / (Nt:ℝ) * ∑ j ∈ range Nt, series h (unitVec r) (2 * Real.pi * j / Nt) * ∑ e ∈ range nd, K d e * dofMotion nd h U e (2 * Real.pi * j / Nt)
      = ∑ e ∈ range nd, K d e * (rowWeight h r * U (r * nd + e)) := by
    simp only [← disp, mul_sum]
    rw [sum_comm]
    exact sum_congr rfl fun e _ => sum_congr rfl fun j _ => by ring
  have s2 : 1 / (Nt:ℝ) * ∑ j ∈ range Nt, w * series h (dCoef h (unitVec r)) (2 * Real.pi * j / Nt) * ∑ e ∈ range nd, M d e * (w * deriv (dofMotion nd h U e) (2 * Real.pi * j / Nt))
      = ∑ e ∈ range nd, w ^ 2 * M d e * -(rowWeight h r * dCoef h (dCoef h fun r => U (r * nd + e)) r) := by
    simp only [← vel, mul_sum]
    rw [sum_comm]
    exact sum_congr rfl fun e _ => sum_congr rfl fun j _ => by ring
  rw [s1, s2, disp Fl d, mul_add, mul_sum, mul_sum]
  have t1 : ∑ e ∈ range nd, rowWeight h r * (w ^ 2 * M d e * dCoef h (dCoef h fun r => U (r * nd + e)) r)
      = -∑ e ∈ range nd, w ^ 2 * M d e * -(rowWeight h r * dCoef h (dCoef h fun r => U (r * nd + e)) r) := by
    rw [← sum_neg_distrib]; exact sum_congr rfl fun e _ => by ring
  have t2 : ∑ e ∈ range nd, rowWeight h r * (K d e * U (r * nd + e)) = ∑ e ∈ range nd, K d e * (rowWeight h r * U (r * nd + e)) :=
    sum_congr rfl fun e _ => by ring
  rw [t1, t2]
  ring

theorem hasGrad_agree {n : ℕ} {φ : (ℕ → ℝ) → ℝ} {g x x' : ℕ → ℝ} (hdep : ∀ a b, (∀ i < n, a i = b i) → φ a = φ b)
    (hx : ∀ i < n, x i = x' i) (H : HasGrad n φ g x) : HasGrad n φ g x' := by
  unfold HasGrad at *
  have : (fun v : Fin n → ℝ => φ fun i => x' i + Spec.ext v i) = fun v => φ fun i => x i + Spec.ext v i :=
    funext fun v => hdep _ _ fun i hi => by rw [hx i hi]
  rw [this]
  exact H

theorem dofMotion_agree {nd : ℕ} {h : List ℕ} {a b : ℕ → ℝ} (hab : ∀ i < numCoeff h * nd, a i = b i) {d : ℕ} (hd : d < nd) :
    dofMotion nd h a d = dofMotion nd h b d :=
  funext fun _ => series_congr (fun _ hr => hab _ (row_lt hr hd)) _

/-- An undamped system with symmetric matrices and conservative nonlinear forces. -/
structure ConservativeSys (S : VibSys) (V : NLForce → (ℕ → ℝ) → ℝ) (h : List ℕ) (Nt : ℕ) (tol : ℝ) : Prop where
  M : ∀ d < S.nd, ∀ e < S.nd, S.M d e = S.M e d
  K : ∀ d < S.nd, ∀ e < S.nd, S.K d e = S.K e d
  C : ∀ d < S.nd, ∀ e < S.nd, S.C d e = 0
  forces : ∀ f ∈ S.forces, Conservative f (V f) S.nd h Nt tol
  dep : ∀ f ∈ S.forces, ∀ X Y : ℕ → ℝ, (∀ d < S.nd, X d = Y d) → V f X = V f Y

/-- C122: for an undamped system with symmetric matrices and conservative forces the residual of the harmonic balance, row by row
and with the weights of the rows, is the gradient of the sampled action at the frequency of the unknowns, and the returned Jacobian
is symmetric with these weights. -/
theorem C122_action (S : VibSys) (V : NLForce → (ℕ → ℝ) → ℝ) (h : List ℕ) (hA : Admissible h) (Nt : ℕ) (hN : ∀ k ∈ h, 2 * k < Nt) (tol : ℝ)
    (H : ConservativeSys S V h Nt tol) (Z Fl : ℕ → ℝ) :
    ∃ R J d, hbmRes S Z Fl h Nt tol true = .ok ⟨R, some (J, d)⟩ ∧
      HasGrad (numCoeff h * S.nd)
        (fun U => sampledAction S.nd S.M S.K (fun X => (S.forces.map fun f => V f X).sum) (Z (numCoeff h * S.nd)) h Nt Fl U)
        (fun q => rowWeight h (q / S.nd) * R q) Z ∧
      ∀ p < numCoeff h * S.nd, ∀ q < numCoeff h * S.nd, rowWeight h (p / S.nd) * J p q = rowWeight h (q / S.nd) * J q p := by
  set L := numCoeff h * S.nd with hL
  have ok : ∀ f ∈ S.forces, ∀ U w, f.aft U w h Nt tol = .ok (aftVal h Nt tol f U w) := fun f hf U w => by
    obtain ⟨o, h1, -⟩ := H.forces f hf U w
    unfold aftVal
    rw [h1]
  have cons : ∀ f ∈ S.forces, HasGrad L (fun U => 1 / Nt * ∑ j ∈ range Nt, V f fun d => dofMotion S.nd h U d (2 * Real.pi * j / Nt))
        (fun q => rowWeight h (q / S.nd) * (aftVal h Nt tol f (sl 0 L Z) (Z L)).F q) (sl 0 L Z) ∧
      ∀ p < L, ∀ q < L, rowWeight h (p / S.nd) * (aftVal h Nt tol f (sl 0 L Z) (Z L)).dU p q
        = rowWeight h (q / S.nd) * (aftVal h Nt tol f (sl 0 L Z) (Z L)).dU q p := fun f hf => by
    obtain ⟨o, h1, h2, h3⟩ := H.forces f hf (sl 0 L Z) (Z L)
    have e := ok f hf (sl 0 L Z) (Z L)
    rw [h1] at e
    cases e
    exact ⟨h2, h3⟩
  refine ⟨_, _, _, hbmRes_ok S hA Nt tol _ ok Z Fl, ?_, fun p hp q hq => ?_⟩
  · have g1 := hasGrad_linear hA hN H.C H.M H.K (Z L) Fl (sl 0 L Z)
    have g2 := HasGrad.listSum S.forces _ _ fun f hf => (cons f hf).1
    refine hasGrad_agree (x := sl 0 L Z) (fun a b hab => ?_) (fun i hi => sl_zero hi Z) (((g1.add g2).congr_fun fun y => ?_).congr fun q hq => ?_)
    · unfold sampledAction
      congr 1
      refine sum_congr rfl fun j _ => ?_
      have e : ∀ d ∈ range S.nd, dofMotion S.nd h a d = dofMotion S.nd h b d := fun d hd => dofMotion_agree hab (mem_range.1 hd)
      congr 1
      · congr 1
        · congr 1
          · congr 1
            exact sum_congr rfl fun d hd => sum_congr rfl fun e' he => by rw [e d hd, e e' he]
          · congr 1
            exact sum_congr rfl fun d hd => sum_congr rfl fun e' he => by rw [e d hd, e e' he]
        · show (S.forces.map fun f => V f _).sum = (S.forces.map fun f => V f _).sum
          congr 1
          exact List.map_congr_left fun f hf => H.dep f hf _ _ fun d hd => by rw [dofMotion_agree hab hd]
      · exact sum_congr rfl fun d hd => by rw [e d hd]
    · unfold sampledAction
      have e1 : ∀ l : List NLForce, (l.map fun f => 1 / (Nt:ℝ) * ∑ j ∈ range Nt, V f fun d => dofMotion S.nd h y d (2 * Real.pi * j / Nt)).sum
          = 1 / (Nt:ℝ) * ∑ j ∈ range Nt, (l.map fun f => V f fun d => dofMotion S.nd h y d (2 * Real.pi * j / Nt)).sum := fun l => by
        induction l with
        | nil => simp
        | cons f l ih => simp only [List.map_cons, List.sum_cons, sum_add_distrib, mul_add, ih]
      rw [e1, ← mul_add, ← sum_add_distrib]
      congr 1
      exact sum_congr rfl fun j _ => by ring
    · show rowWeight h (q / S.nd) * (hbmG S _ h Z q - Fl q) = _
      have e1 : ∀ l : List NLForce, (l.map fun f => rowWeight h (q / S.nd) * (aftVal h Nt tol f (sl 0 L Z) (Z L)).F q).sum
          = rowWeight h (q / S.nd) * (l.map fun f => (aftVal h Nt tol f (sl 0 L Z) (Z L)).F q).sum := fun l => List.sum_map_mul_left ..
      rw [e1]
      unfold hbmG
      ring
  · unfold hbmJ
    obtain ⟨hp1, hp2⟩ := div_lt_block hp
    obtain ⟨hq1, hq2⟩ := div_lt_block hq
    have e := undamped_symm hA H.C H.M H.K (Z L) hp1 hq1 hp2 hq2
    rw [Nat.div_add_mod', Nat.div_add_mod'] at e
    rw [mul_add, mul_add, e]
    congr 1
    have k : ∀ l : List NLForce, (∀ f ∈ l, f ∈ S.forces) → rowWeight h (p / S.nd) * (l.map fun f => (aftVal h Nt tol f (sl 0 L Z) (Z L)).dU p q).sum
        = rowWeight h (q / S.nd) * (l.map fun f => (aftVal h Nt tol f (sl 0 L Z) (Z L)).dU q p).sum := fun l hl => by
      induction l with
      | nil => simp
      | cons f l ih =>
        simp only [List.map_cons, List.sum_cons, mul_add]
        rw [ih fun f hf => hl f (List.mem_cons_of_mem _ hf), (cons f (hl f List.mem_cons_self)).2 p hp q hq]
    exact k S.forces fun f hf => hf

/-- C122: the solutions of the harmonic balance at a given frequency are the stationary points of the sampled action. -/
theorem C122_stationary (S : VibSys) (V : NLForce → (ℕ → ℝ) → ℝ) (h : List ℕ) (hA : Admissible h) (Nt : ℕ) (hN : ∀ k ∈ h, 2 * k < Nt) (tol : ℝ)
    (H : ConservativeSys S V h Nt tol) (Z Fl : ℕ → ℝ) :
    ∃ o, hbmRes S Z Fl h Nt tol true = .ok o ∧ ((∀ q < numCoeff h * S.nd, o.R q = 0) ↔
      HasGrad (numCoeff h * S.nd)
        (fun U => sampledAction S.nd S.M S.K (fun X => (S.forces.map fun f => V f X).sum) (Z (numCoeff h * S.nd)) h Nt Fl U) (fun _ => 0) Z) := by
  obtain ⟨R, J, d, h1, h2, -⟩ := C122_action S V h hA Nt hN tol H Z Fl
  refine ⟨_, h1, fun z => h2.congr fun q hq => by rw [show R q = 0 from z q hq, mul_zero], fun z q hq => ?_⟩
  have k := h2.directional (unitVec q) fun i hi => if_neg (by omega)
  have k' := z.directional (unitVec q) fun i hi => if_neg (by omega)
  have e := k.unique k'
  rw [sum_eq_single_of_mem q (mem_range.2 hq) fun i _ hi => by simp [unitVec, hi]] at e
  have hw : rowWeight h (q / S.nd) ≠ 0 := by unfold rowWeight; split_ifs <;> norm_num
  simpa [unitVec, hw] using e

/-- C122: reciprocity of small changes: in a conservative system the work of one change of force on the change of motion caused
by another one does not depend on the order. -/
theorem C122_reciprocity (S : VibSys) (V : NLForce → (ℕ → ℝ) → ℝ) (h : List ℕ) (hA : Admissible h) (Nt : ℕ) (hN : ∀ k ∈ h, 2 * k < Nt) (tol : ℝ)
    (H : ConservativeSys S V h Nt tol) (Z Fl : ℕ → ℝ) : ∃ R J d, hbmRes S Z Fl h Nt tol true = .ok ⟨R, some (J, d)⟩ ∧
      ∀ x y f g : ℕ → ℝ, (∀ p < numCoeff h * S.nd, matVec (numCoeff h * S.nd) J x p = f p) → (∀ p < numCoeff h * S.nd, matVec (numCoeff h * S.nd) J y p = g p) →
        ∑ p ∈ range (numCoeff h * S.nd), rowWeight h (p / S.nd) * f p * y p = ∑ p ∈ range (numCoeff h * S.nd), rowWeight h (p / S.nd) * g p * x p := by
  obtain ⟨R, J, d, h1, -, h3⟩ := C122_action S V h hA Nt hN tol H Z Fl
  refine ⟨R, J, d, h1, fun x y f g hf hg => ?_⟩
  have e1 : ∀ p ∈ range (numCoeff h * S.nd), rowWeight h (p / S.nd) * f p * y p = rowWeight h (p / S.nd) * matVec (numCoeff h * S.nd) J x p * y p :=
    fun p hp => by rw [hf p (mem_range.1 hp)]
  have e2 : ∀ p ∈ range (numCoeff h * S.nd), rowWeight h (p / S.nd) * g p * x p = rowWeight h (p / S.nd) * matVec (numCoeff h * S.nd) J y p * x p :=
    fun p hp => by rw [hg p (mem_range.1 hp)]
  rw [sum_congr rfl e1, sum_congr rfl e2]
  unfold matVec
  simp only [mul_sum, sum_mul]
  rw [sum_comm]
  refine sum_congr rfl fun q hq => sum_congr rfl fun p hp => ?_
  have := h3 p (mem_range.1 hp) q (mem_range.1 hq)
  linear_combination (x q * y p) * this

theorem localPotential_dep (nd m : ℕ) (Q : ℕ → ℕ → ℝ) (P : ℕ → ℝ → ℝ) (X Y : ℕ → ℝ) (hXY : ∀ d < nd, X d = Y d) :
    localPotential nd m Q P X = localPotential nd m Q P Y := by
  unfold localPotential
  exact sum_congr rfl fun e _ => by rw [sum_congr rfl fun d hd => by rw [hXY d (mem_range.1 hd)]]

/-- Duffing oscillator `x'' + x + x³ = f` with the harmonics 0, 1, 3. -/
example : ConservativeSys ⟨1, fun _ _ => 1, fun _ _ => 1, fun _ _ => 0, none, [cubicNL 1 1 (fun _ _ => 1) (fun _ _ => 1) fun _ => 1]⟩
    (fun _ X => X 0 ^ 4 / 4) [0, 1, 3] 16 0 := by
  have hA : Admissible [0, 1, 3] := ⟨by simp, by simp, by simp⟩
  refine ⟨fun _ _ _ _ => rfl, fun _ _ _ _ => rfl, fun _ _ _ _ => rfl, fun f hf => ?_, fun f _ X Y hXY => ?_⟩
  · obtain rfl := List.mem_singleton.1 hf
    have k := (C122_classes [0, 1, 3] hA 16 (by simp) ⟨8, rfl⟩ 0 1 1 (fun _ _ => 1) (fun _ _ => 1) (fun _ _ _ _ => rfl) (fun _ => 1) (fun _ => 0) (fun _ => 0) (fun _ => 0)
      ⟨1, 1, 0, 0⟩ (by constructor <;> norm_num)).1
    have e : localPotential 1 1 (fun _ _ => 1) (fun _ u => 1 * u ^ 4 / 4) = fun X => X 0 ^ 4 / 4 := by
      funext X; simp [localPotential]
    rw [e] at k
    exact k
  · rw [hXY 0 (by norm_num)]

/-- Weights of the rows: harmonic 0 in the list or not. -/
example : rowWeight [0, 1] 0 = 1 ∧ rowWeight [0, 1] 1 = 1 / 2 ∧ rowWeight [1, 2] 0 = 1 / 2 := by
  simp [rowWeight]

end

end TMD
