import Verif.Props.ShootingRes

/-! # An integrator without error, and a motion that does not reach the end of the period -/

namespace TMD

open Spec Finset

noncomputable section

theorem IsSol.shorten {n : ℕ} {F : ℝ → (ℕ → ℝ) → Except Err (ℕ → ℝ)} {T T' : ℝ} {y0 : ℕ → ℝ} {y : ℝ → ℕ → ℝ}
    (h : IsSol n F T y0 y) (hT : T' ≤ T) : IsSol n F T' y0 y := by
  refine ⟨h.1, fun t ht => ?_⟩
  obtain ⟨d, h1, h2⟩ := h.2 t ⟨ht.1, ht.2.trans hT⟩
  exact ⟨d, h1, fun i hi => (h2 i hi).mono (Set.Icc_subset_Icc_right hT)⟩

open Classical in
/-- An integrator without error: as many columns as a solution reaches. -/
def exactIvp : SolveIvp := fun F T n y0 Nt =>
  if h : ∃ y, IsSol n F ((0 : ℕ) * T / Nt) y0 y then
    .ok ⟨Nat.findGreatest (fun k => ∃ y, IsSol n F (k * T / Nt) y0 y) Nt + 1,
      fun i k => (Nat.findGreatest_spec (P := fun k => ∃ y, IsSol n F (k * T / Nt) y0 y) (Nat.zero_le Nt) h).choose
        (k * T / Nt) i⟩
  else .ok ⟨0, fun _ _ => 0⟩

theorem exactIvp_exact : ExactIvp exactIvp := by
  classical
  constructor
  · intro F T n y0 Nt o hT hNt h
    unfold exactIvp at h
    split at h
    · cases h
      rename_i h0
      refine ⟨by have := Nat.findGreatest_le (P := fun k => ∃ y, IsSol n F (k * T / Nt) y0 y) Nt; simp only; omega, fun _ => ?_⟩
      refine ⟨_, (Nat.findGreatest_spec (P := fun k => ∃ y, IsSol n F (k * T / Nt) y0 y) (Nat.zero_le Nt) h0).choose_spec, ?_⟩
      intro k _ i _
      rfl
    · cases h
      exact ⟨by simp, fun h => absurd h (by simp)⟩
  · intro F T n y0 Nt o hT hNt h hc
    unfold exactIvp at h
    split at h
    · cases h
      simp only at hc ⊢
      exact Nat.findGreatest_is_greatest (P := fun k => ∃ y, IsSol n F (k * T / Nt) y0 y) (Nat.lt_succ_self _) (by omega)
    · cases h
      assumption

/-- A solution over the whole period gives all columns. -/
theorem exactIvp_full {F : ℝ → (ℕ → ℝ) → Except Err (ℕ → ℝ)} {T : ℝ} {n Nt : ℕ} {y0 : ℕ → ℝ} {y : ℝ → ℕ → ℝ}
    (hT : 0 < T) (hNt : 0 < Nt) (hy : IsSol n F T y0 y) :
    ∃ o, exactIvp F T n y0 Nt = .ok o ∧ o.cols = Nt + 1 := by
  obtain ⟨o, ho⟩ : ∃ o, exactIvp F T n y0 Nt = .ok o := by
    unfold exactIvp
    split
    · exact ⟨_, rfl⟩
    · exact ⟨_, rfl⟩
  refine ⟨o, ho, ?_⟩
  by_contra hne
  have hle := (exactIvp_exact.sound _ _ _ _ _ _ hT hNt ho).1
  refine exactIvp_exact.maximal _ _ _ _ _ _ hT hNt ho (by omega) ⟨y, hy.shorten ?_⟩
  have hN : (0:ℝ) < Nt := by exact_mod_cast hNt
  rw [div_le_iff₀ hN, mul_comm]
  exact mul_le_mul_of_nonneg_left (by exact_mod_cast (by omega : o.cols ≤ Nt)) hT.le

/-- If no solution reaches the first step, one column is left. -/
theorem exactIvp_one {F : ℝ → (ℕ → ℝ) → Except Err (ℕ → ℝ)} {T : ℝ} {n Nt : ℕ} {y0 d : ℕ → ℝ}
    (hT : 0 < T) (hNt : 0 < Nt) (hd : F 0 y0 = .ok d) (hno : ∀ y, ¬ IsSol n F (T / Nt) y0 y) :
    ∃ o, exactIvp F T n y0 Nt = .ok o ∧ o.cols = 1 ∧ ∀ i < n, o.y i 0 = y0 i := by
  have h0 : ∃ y, IsSol n F ((0 : ℕ) * T / Nt) y0 y := by
    refine ⟨fun _ => y0, fun _ _ => rfl, fun t ht => ?_⟩
    have ht0 : t = 0 := le_antisymm (by simpa using ht.2) ht.1
    subst ht0
    refine ⟨d, hd, fun i _ => ?_⟩
    have : Set.Icc (0:ℝ) ((0:ℕ) * T / Nt) = {0} := by simp
    rw [this]
    exact hasDerivWithinAt_iff_hasFDerivWithinAt.2 (HasFDerivWithinAt.of_finite (Set.finite_singleton 0))
  obtain ⟨o, ho⟩ : ∃ o, exactIvp F T n y0 Nt = .ok o := by
    unfold exactIvp
    rw [dif_pos h0]
    exact ⟨_, rfl⟩
  obtain ⟨hle, hs⟩ := exactIvp_exact.sound _ _ _ _ _ _ hT hNt ho
  have hpos : 0 < o.cols := by
    by_contra hc
    have hc0 : o.cols = 0 := by omega
    have := exactIvp_exact.maximal _ _ _ _ _ _ hT hNt ho (by omega)
    rw [hc0] at this
    exact this h0
  obtain ⟨y, hy, hval⟩ := hs hpos
  have hone : o.cols = 1 := by
    by_contra hne
    refine hno y (hy.shorten ?_)
    have hN : (0:ℝ) < Nt := by exact_mod_cast hNt
    have : (1:ℝ) ≤ (o.cols - 1 : ℕ) := by exact_mod_cast (by omega : 1 ≤ o.cols - 1)
    gcongr
    nlinarith
  refine ⟨o, ho, hone, fun i hi => ?_⟩
  rw [hval 0 hpos i hi]
  simp only [Nat.cast_zero, zero_mul, zero_div]
  exact hy.1 i hi

/-- A call that integrates something returns a result. -/
theorem shootingRes_of_ivp {ivp : SolveIvp} {S : VibSys} {Minv : ℕ → ℕ → ℝ} {Uw Fl : ℕ → ℝ} {Nt : ℕ} {f : NLForce}
    {A : (ℕ → ℝ) → (ℕ → ℝ) × (ℕ → ℕ → ℝ)} {o : IvpOut} (hS : S.forces = [f]) (hft : f.ftype = 0) (hA : ∀ U, f.force U = .ok (A U))
    (ho : ivp (shootField S Minv Fl (Uw (2 * S.nd))) (2 * Real.pi / Uw (2 * S.nd)) (shootLen S.nd) (shootInit S.nd Uw) Nt = .ok o)
    (hc : o.cols ≠ 0) :
    ∃ r, shootingRes ivp S Minv Uw (2 * S.nd + 1) Fl Nt = .ok r ∧ r.cols = o.cols ∧ (∀ i, r.R i = o.y i (o.cols - 1) - Uw i) ∧
      ∀ i j, r.monodromy i j = o.y (2 * S.nd + (i * (2 * S.nd) + j)) (o.cols - 1) := by
  obtain ⟨d, hd, -⟩ := shootField_ok (Minv := Minv) (Fl := Fl) hS hA (Uw (2 * S.nd)) (2 * Real.pi / Uw (2 * S.nd))
    (fun i => o.y i (o.cols - 1))
  refine ⟨?_, ?_, ?_⟩
  rotate_left
  · unfold shootingRes
    simp only [Nat.add_sub_cancel]
    rw [if_neg (by simp [hS, hft]), if_neg (by simp)]
    simp only [ho, if_neg hc, hd]
    rfl
  · exact ⟨rfl, fun _ => rfl, fun _ _ => rfl⟩

theorem shootingRes_yt {ivp : SolveIvp} {S : VibSys} {Minv : ℕ → ℕ → ℝ} {Uw Fl : ℕ → ℝ} {Nt : ℕ} {o : IvpOut} {r : ShootRes}
    (ho : ivp (shootField S Minv Fl (Uw (2 * S.nd))) (2 * Real.pi / Uw (2 * S.nd)) (shootLen S.nd) (shootInit S.nd Uw) Nt = .ok o)
    (hr : shootingRes ivp S Minv Uw (2 * S.nd + 1) Fl Nt = .ok r) :
    ∀ i k, r.yt i k = o.y i k ∧ r.ydot i k = o.y (S.nd + i) k := by
  unfold shootingRes at hr
  simp only [Nat.add_sub_cancel] at hr
  simp only [ho] at hr
  split_ifs at hr
  split at hr
  · cases hr
  · injection hr with hr
    subst hr
    exact fun i k => ⟨rfl, rfl⟩

/-- A solution of a homogeneous linear equation that starts at zero stays at zero. -/
theorem linear_zero {g c : ℝ → ℝ} (hc : ContinuousOn c (Set.Icc 0 1))
    (hg : ∀ t ∈ Set.Icc (0:ℝ) 1, HasDerivWithinAt g (c t * g t) (Set.Icc 0 1) t) (h0 : g 0 = 0) :
    ∀ t ∈ Set.Icc (0:ℝ) 1, g t = 0 := by
  obtain ⟨B, hB⟩ := isCompact_Icc.exists_bound_of_continuousOn hc
  intro t ht
  have := norm_le_gronwallBound_of_norm_deriv_right_le (f := g) (f' := fun t => c t * g t) (δ := 0) (K := B) (ε := 0)
    (a := 0) (b := 1) (fun t ht => (hg t ht).continuousWithinAt)
    (fun t ht => right_deriv ht (hg t (Set.Ico_subset_Icc_self ht))) (by simp [h0])
    (fun t ht => by
      rw [norm_mul, add_zero]
      exact mul_le_mul_of_nonneg_right (hB t (Set.Ico_subset_Icc_self ht)) (norm_nonneg _)) t ht
  simpa [gronwallBound_ε0_δ0] using this

/-- `u'' = u³` from `u = u' = √2` has no solution on `[0, 1]`. -/
theorem blow_up {u v : ℝ → ℝ} (hu : ∀ t ∈ Set.Icc (0:ℝ) 1, HasDerivWithinAt u (v t) (Set.Icc 0 1) t)
    (hv : ∀ t ∈ Set.Icc (0:ℝ) 1, HasDerivWithinAt v (u t ^ 3) (Set.Icc 0 1) t) (hu0 : u 0 = √2) (hv0 : v 0 = √2) :
    False := by
  have hs : √2 * √2 = 2 := Real.mul_self_sqrt (by norm_num)
  have hs0 : √2 ≠ 0 := by positivity
  have hcu : ContinuousOn u (Set.Icc 0 1) := fun t ht => (hu t ht).continuousWithinAt
  have h1 : ∀ t ∈ Set.Icc (0:ℝ) 1, √2 * v t - u t ^ 2 = 0 := by
    refine linear_zero (c := fun t => -√2 * u t) (hcu.const_smul (-√2)) (fun t ht => ?_) ?_
    · refine (((hv t ht).const_mul √2).sub ((hu t ht).pow 2)).congr_deriv ?_
      push_cast
      linear_combination (u t * v t) * hs
    · rw [hu0, hv0]; nlinarith
  have h2 : ∀ t ∈ Set.Icc (0:ℝ) 1, u t * (1 - t) - √2 = 0 := by
    refine linear_zero (c := fun t => √2 / 2 * u t) (hcu.const_smul (√2 / 2)) (fun t ht => ?_) ?_
    · refine (((hu t ht).mul ((hasDerivWithinAt_id t _).const_sub 1)).sub_const √2).congr_deriv ?_
      have := h1 t ht
      simp only [id]
      have hv' : v t = √2 / 2 * u t ^ 2 := by
        linear_combination (√2 / 2) * this - (v t / 2) * hs
      rw [hv']
      linear_combination (u t / 2) * hs
    · rw [hu0]; ring
  have := h2 1 (by simp)
  simp at this

theorem smoothLaw_cubic (n m : ℕ) (Q T : ℕ → ℕ → ℝ) (k : ℕ → ℝ) :
    SmoothLaw n (fun U => (cubicForce n m Q T k U).1) (fun U => (cubicForce n m Q T k U).2) := by
  have hloc : ∀ a b : ℕ → ℝ, (∀ i < n, a i = b i) → matVec n Q a = matVec n Q b := fun a b h =>
    funext fun i => matVec_congr h i
  refine ⟨fun a b h => ?_, fun a b h => ?_, fun x => C19_cubic n n m Q T k x, fun i _ j _ => ?_⟩
  · simp only [cubicForce, hloc a b h]
  · simp only [cubicForce, hloc a b h]
  · simp only [cubicForce, matMul, diag]
    refine continuous_finsetSum _ fun d _ => Continuous.mul (continuous_finsetSum _ fun e _ => continuous_const.mul ?_) continuous_const
    by_cases c : e = d
    · simp only [c, if_true]
      refine continuous_const.mul (Continuous.pow ?_ 2)
      unfold matVec
      refine continuous_finsetSum _ fun l _ => continuous_const.mul ?_
      unfold Spec.ext
      split
      · exact continuous_apply _
      · exact continuous_const
    · simp only [c, if_false]
      exact continuous_const

end

end TMD
