import Verif.Props.System

/-!
# Properties C45, C46: harmonic balance residuals
-/

namespace TMD

open Spec Finset

noncomputable section

/-! ## C45 -/

/-- C45: value of `hbm_res`: stiffness times coefficients plus the sum of the harmonic forces minus the
forcing; the same value with and without gradients. -/
theorem C45_value (S : VibSys) (h : List ℕ) (hh : Admissible h) (Nt : ℕ) (tol : ℝ)
    (A : NLForce → (ℕ → ℝ) → ℝ → AftOut)
    (hA : ∀ f ∈ S.forces, ∀ U w, f.aft U w h Nt tol = .ok (A f U w) ∧
      f.aftNoGrad U w h Nt tol = .ok (A f U w).F) (Z Fl : ℕ → ℝ) :
    ∃ E R g, harmonicStiffness S.nd S.M S.C S.K (Z (numCoeff h * S.nd)) h true false = .ok E ∧
      hbmRes S Z Fl h Nt tol true = .ok ⟨R, some g⟩ ∧ hbmRes S Z Fl h Nt tol false = .ok ⟨R, none⟩ ∧
      ∀ i, R i = ∑ j ∈ range (numCoeff h * S.nd), E.E i j * sl 0 (numCoeff h * S.nd) Z j
        + (S.forces.map (fun f => (A f (sl 0 (numCoeff h * S.nd) Z) (Z (numCoeff h * S.nd))).F i)).sum - Fl i :=
  ⟨_, _, _, harmonicStiffness_ok hh S.nd S.M S.C S.K _ true false,
    hbmRes_ok S hh Nt tol A (fun f hf U w => (hA f hf U w).1) Z Fl,
    hbmRes_ng S hh Nt tol A (fun f hf U w => (hA f hf U w).2) Z Fl, fun _ => rfl⟩

/-- C45 in the time domain: row `d` of the residual is the coefficient sequence of
`M x'' + C x' + K x + f_nl - f_ext`, for the periodic motion `x` with the given coefficients. -/
theorem C45_time_domain (S : VibSys) (h : List ℕ) (hh : Admissible h) (Nt : ℕ) (tol : ℝ)
    (A : NLForce → (ℕ → ℝ) → ℝ → AftOut)
    (hA : ∀ f ∈ S.forces, ∀ U w, f.aft U w h Nt tol = .ok (A f U w)) (Z Fl : ℕ → ℝ) :
    ∃ R g, hbmRes S Z Fl h Nt tol true = .ok ⟨R, some g⟩ ∧ ∀ d < S.nd, ∀ t : ℝ,
      let w := Z (numCoeff h * S.nd)
      let U := sl 0 (numCoeff h * S.nd) Z
      let x : ℕ → ℝ → ℝ := fun e t => series h (fun r => U (r * S.nd + e)) (w * t)
      series h (fun r => R (r * S.nd + d)) (w * t) =
        (∑ e ∈ range S.nd, (S.M d e * deriv (deriv (x e)) t + S.C d e * deriv (x e) t + S.K d e * x e t))
        + series h (fun r => (S.forces.map (fun f => (A f U w).F (r * S.nd + d))).sum) (w * t)
        - series h (fun r => Fl (r * S.nd + d)) (w * t) := by
  refine ⟨_, _, hbmRes_ok S hh Nt tol A hA Z Fl, ?_⟩
  intro d hd t w U x
  obtain ⟨E, hE, hs, H⟩ := C02_stiffness_is_dynamics h hh S.nd S.M S.C S.K w true false
  have := H U d hd t
  rw [harmonicStiffness_ok hh] at hE
  injection hE with hE
  subst hE
  simp only [Bool.false_eq_true, if_false] at this
  rw [series_sub]
  congr 1
  unfold hbmG
  rw [series_add]
  congr 1

/-- C45: the residual vanishes exactly when the periodic motion satisfies the equation of motion (with the
truncated nonlinear force and forcing) at all times. -/
theorem C45_zero_iff (S : VibSys) (h : List ℕ) (hh : Admissible h) (Nt : ℕ) (tol : ℝ)
    (A : NLForce → (ℕ → ℝ) → ℝ → AftOut)
    (hA : ∀ f ∈ S.forces, ∀ U w, f.aft U w h Nt tol = .ok (A f U w)) (Z Fl : ℕ → ℝ)
    (hw : Z (numCoeff h * S.nd) ≠ 0) :
    ∃ R g, hbmRes S Z Fl h Nt tol true = .ok ⟨R, some g⟩ ∧
      ((∀ i < numCoeff h * S.nd, R i = 0) ↔ ∀ d < S.nd, ∀ t : ℝ,
        let w := Z (numCoeff h * S.nd)
        let U := sl 0 (numCoeff h * S.nd) Z
        let x : ℕ → ℝ → ℝ := fun e t => series h (fun r => U (r * S.nd + e)) (w * t)
        (∑ e ∈ range S.nd, (S.M d e * deriv (deriv (x e)) t + S.C d e * deriv (x e) t + S.K d e * x e t))
        + series h (fun r => (S.forces.map (fun f => (A f U w).F (r * S.nd + d))).sum) (w * t)
        = series h (fun r => Fl (r * S.nd + d)) (w * t)) := by
  obtain ⟨R, g, h1, h2⟩ := C45_time_domain S h hh Nt tol A hA Z Fl
  refine ⟨R, g, h1, ?_⟩
  constructor
  · intro H d hd t
    have e := h2 d hd t
    simp only at e
    have e2 : series h (fun r => R (r * S.nd + d)) (Z (numCoeff h * S.nd) * t) = 0 :=
      (series_eq_zero_iff hh.nodup _ hw).mpr (fun r hr => H _ (by nlinarith)) t
    rw [e2] at e
    exact (sub_eq_zero.mp e.symm)
  · intro H i hi
    obtain ⟨a, b⟩ := div_lt_block hi
    have := (series_eq_zero_iff hh.nodup (fun r => R (r * S.nd + i % S.nd)) hw).mp (fun t => by
      rw [h2 _ b t]; exact sub_eq_zero.mpr (H _ b t)) (i / S.nd) a
    rwa [Nat.mul_comm, Nat.div_add_mod] at this

/-- C45: `dRdU` and `dRdw` are the true derivatives whenever those of the forces are. -/
theorem C45_jacobian (S : VibSys) (h : List ℕ) (hh : Admissible h) (Nt : ℕ) (tol : ℝ)
    (A : NLForce → (ℕ → ℝ) → ℝ → AftOut)
    (hA : ∀ f ∈ S.forces, ∀ U w, f.aft U w h Nt tol = .ok (A f U w)) (Fl : ℕ → ℝ) :
    ∃ res : (ℕ → ℝ) → ResOut, (∀ Z, hbmRes S Z Fl h Nt tol true = .ok (res Z)) ∧
      ∀ Z, (∀ f ∈ S.forces, JointTrue (A f) (numCoeff h * S.nd) Z) →
        ResTrue res (numCoeff h * S.nd) (numCoeff h * S.nd) Z := by
  refine ⟨_, fun Z => hbmRes_ok S hh Nt tol A hA Z Fl, fun Z hT => ⟨_, _, rfl, ?_⟩⟩
  intro i hi
  exact ((hbmG_grad S hh A Z hT i hi).sub (HasGrad.const (Fl i))).congr (fun j _ => by ring)

theorem lawDiff_cubic (k : ℕ → ℝ) (d : ℕ) (u ud : ℝ) : LawDiff (cubicLoc k) d u ud := by
  unfold LawDiff
  have h0 : HasFDerivAt (fun p : ℝ × ℝ => p.1) (ContinuousLinearMap.fst ℝ ℝ ℝ) (u, ud) := hasFDerivAt_fst
  have h1 : HasDerivAt (fun a : ℝ => k d * a ^ 3) (cubicLoc k d u ud).dfdu u :=
    ((hasDerivAt_pow 3 u).const_mul (k d)).congr_deriv (by simp only [cubicLoc]; push_cast; ring)
  have h := HasDerivAt.comp_hasFDerivAt (h₂ := fun a : ℝ => k d * a ^ 3) (f := fun p : ℝ × ℝ => p.1) (u, ud) h1 h0
  exact h.congr_fderiv (by ext <;> simp [cubicLoc])

/-- Example: a system with a cubic spring satisfies the hypotheses, so its harmonic balance Jacobian is the
true one everywhere. -/
theorem C45_cubic_spring (S : VibSys) (m : ℕ) (Q T : ℕ → ℕ → ℝ) (k : ℕ → ℝ)
    (hS : S.forces = [cubicNL S.nd m Q T k]) (h : List ℕ) (hh : Admissible h) (Nt : ℕ)
    (hNt : ∀ k ∈ h, 2*k + 1 < Nt) (heven : Even Nt) (tol : ℝ) (Fl : ℕ → ℝ) :
    ∃ res : (ℕ → ℝ) → ResOut, (∀ Z, hbmRes S Z Fl h Nt tol true = .ok (res Z)) ∧
      ∀ Z, ResTrue res (numCoeff h * S.nd) (numCoeff h * S.nd) Z := by
  obtain ⟨out, h1, h2⟩ := C25_joint h hh Nt hNt heven S.nd m Q T (cubicLoc k)
  obtain ⟨res, h3, h4⟩ := C45_jacobian S h hh Nt tol (fun _ => out) (by
    intro f hf U w
    rw [hS, List.mem_singleton] at hf
    subst hf
    exact h1 U w) Fl
  refine ⟨res, h3, fun Z => h4 Z (fun f _ => h2 Z (Or.inr (fun _ _ _ => rfl)) ?_)⟩
  intro d _ j _
  exact lawDiff_cubic k d _ _

/-! ## C46 -/

/-- C46: `hbm_res_dFl` is `hbm_res` with all non-static forcing multiplied by the unknown `F`, and its last
column is minus the non-static forcing. -/
theorem C46_value (S : VibSys) (h : List ℕ) (hh : Admissible h) (Nt : ℕ) (tol : ℝ)
    (A : NLForce → (ℕ → ℝ) → ℝ → AftOut)
    (hA : ∀ f ∈ S.forces, ∀ U w, f.aft U w h Nt tol = .ok (A f U w) ∧
      f.aftNoGrad U w h Nt tol = .ok (A f U w).F) (UF Fl : ℕ → ℝ) (w : ℝ) :
    ∃ R J d R' g, hbmResdFl S UF w Fl h Nt tol true = .ok ⟨R, some (J, d)⟩ ∧
      hbmResdFl S UF w Fl h Nt tol false = .ok ⟨R, none⟩ ∧
      hbmRes S (fun i => if i < numCoeff h * S.nd then UF i else w)
        (scaledForcing S.nd h Fl (UF (numCoeff h * S.nd))) h Nt tol true = .ok ⟨R', some (J, g)⟩ ∧
      (∀ i < numCoeff h * S.nd, R i = R' i ∧ d i = if 0 ∈ h ∧ i < S.nd then 0 else - Fl i) := by
  have e1 := hbmResdFl_ok S hh Nt tol A (fun f hf U w => (hA f hf U w).1) UF w Fl rfl
  have e2 := hbmResdFl_ng S hh Nt tol A (fun f hf U w => (hA f hf U w).2) UF w Fl rfl
  have ez : hbmRes S (fun i => if i < numCoeff h * S.nd then UF i else w)
      (scaledForcing S.nd h Fl (UF (numCoeff h * S.nd))) h Nt tol true
      = hbmRes S (hcat (numCoeff h * S.nd) (sl 0 (numCoeff h * S.nd) UF) (fun _ => w))
      (scaledForcing S.nd h Fl (UF (numCoeff h * S.nd))) h Nt tol true := by
    congr 1
    funext i
    by_cases hi : i < numCoeff h * S.nd <;> simp [hcat, hi, sl]
  refine ⟨_, _, _, _, _, e1, e2, ez.trans (hbmRes_ok S hh Nt tol A (fun f hf U w => (hA f hf U w).1) _ _), ?_⟩
  intro i hi
  have hz := lt_zi_nd hh S.nd i
  by_cases hs : i < zi h * S.nd
  · have hs' := hz.mp hs
    simp [setSlice, scaledForcing, hs, hs', Nat.not_le.mpr hs]
  · have hs' : ¬ (0 ∈ h ∧ i < S.nd) := fun c => hs (hz.mpr c)
    have := Nat.le_of_not_lt hs
    simp [setSlice, scaledForcing, hs, hs', this, hi]

/-- C46: all returned derivatives are the true ones (unknowns `U` and `F`). -/
theorem C46_jacobian (S : VibSys) (h : List ℕ) (hh : Admissible h) (Nt : ℕ) (tol : ℝ)
    (A : NLForce → (ℕ → ℝ) → ℝ → AftOut)
    (hA : ∀ f ∈ S.forces, ∀ U w, f.aft U w h Nt tol = .ok (A f U w)) (Fl : ℕ → ℝ) (w : ℝ) :
    ∃ res : (ℕ → ℝ) → ResOut, (∀ UF, hbmResdFl S UF w Fl h Nt tol true = .ok (res UF)) ∧
      ∀ UF, (∀ f ∈ S.forces, JointTrue (A f) (numCoeff h * S.nd)
          (hcat (numCoeff h * S.nd) (sl 0 (numCoeff h * S.nd) UF) (fun _ => w))) →
        ResTrue res (numCoeff h * S.nd) (numCoeff h * S.nd) UF := by
  have e1 := fun UF => hbmResdFl_ok S hh Nt tol A hA UF w Fl rfl
  refine ⟨_, e1, fun UF hT => ⟨_, _, rfl, ?_⟩⟩
  intro i hi
  have h1 := hbmG_pack S hh A (n := numCoeff h * S.nd + 1) (x := UF) (φ := fun _ => w)
    (HasGrad.const w) rfl hT i hi
  have h2 := (HasGrad.mul_const (setSlice Fl 0 (zi h * S.nd) (fun _ => 0) i)
    (HasGrad.coord (n := numCoeff h * S.nd + 1) (x := UF) (numCoeff h * S.nd))).add
    (HasGrad.const (setSlice Fl (zi h * S.nd) (numCoeff h * S.nd) (fun _ => 0) i))
  refine (h1.sub h2).congr (fun j hj => ?_)
  by_cases hjL : j < numCoeff h * S.nd
  · have : j ≠ numCoeff h * S.nd := by omega
    simp [hjL, this]
  · have : j = numCoeff h * S.nd := by omega
    simp [this]

/-- Example: one degree of freedom, harmonics 0 and 1, no nonlinear force: at `F = 2` the static forcing 5
is unscaled and the dynamic forcing 3 is doubled. -/
example : ∃ R J d, hbmResdFl ⟨1, fun _ _ => 1, fun _ _ => 1, fun _ _ => 0, none, []⟩
    (fun i => if i = 3 then 2 else 0) 1 (fun i => if i = 0 then 5 else 3) [0, 1] 8 0 true = .ok ⟨R, some (J, d)⟩ ∧
    R 0 = -5 ∧ R 1 = -6 ∧ d 0 = 0 ∧ d 1 = -3 := by
  obtain ⟨R, J, d, R', g, h1, -, h3, h4⟩ := C46_value ⟨1, fun _ _ => 1, fun _ _ => 1, fun _ _ => 0, none, []⟩
    [0, 1] ⟨by simp, by decide, by decide⟩ 8 0 (fun _ _ _ => ⟨fun _ => 0, fun _ _ => 0, fun _ => 0⟩) (by simp)
    (fun i => if i = 3 then 2 else 0) (fun i => if i = 0 then 5 else 3) 1
  obtain ⟨E, R2, g2, -, h6, -, h7⟩ := C45_value ⟨1, fun _ _ => 1, fun _ _ => 1, fun _ _ => 0, none, []⟩
    [0, 1] ⟨by simp, by decide, by decide⟩ 8 0 (fun _ _ _ => ⟨fun _ => 0, fun _ _ => 0, fun _ => 0⟩) (by simp)
    (fun i => if i < 3 then (if i = 3 then 2 else 0) else 1)
    (scaledForcing 1 [0,1] (fun i => if i = 0 then 5 else 3) 2)
  have : R' = R2 := by
    have := h3.symm.trans h6
    simpa using congrArg (fun o : Except Err ResOut => match o with | .ok r => r.R | .error _ => fun _ => 0) this
  have hU : ∀ j, sl 0 (numCoeff [0,1] * 1) (fun i : ℕ => if i < 3 then (if i = 3 then (2:ℝ) else 0) else 1) j = 0 := by
    intro j
    simp only [sl, numCoeff]
    by_cases hj : j < 3
    · have : j ≠ 3 := by omega
      simp [hj, this]
    · simp [hj]
  refine ⟨R, J, d, h1, ?_, ?_, ?_, ?_⟩
  · rw [(h4 0 (by decide)).1, this, h7]
    simp only [hU]
    simp [scaledForcing]
  · rw [(h4 1 (by decide)).1, this, h7]
    simp only [hU]
    norm_num [scaledForcing]
  · rw [(h4 0 (by decide)).2]; simp
  · rw [(h4 1 (by decide)).2]; simp

end

end TMD
