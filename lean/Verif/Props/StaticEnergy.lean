import Verif.Props.ActionPoly
import Verif.Props.ReducedJacobian
import Verif.Props.StaticUnique
import Mathlib.Analysis.Calculus.LocalExtr.Basic

/-!
# C163: static equilibria are stationary points of the potential energy

For a structure with a symmetric stiffness matrix whose nonlinear forces have potentials, the residual of `static_res`
(vibration_system.py:306-319) is the gradient of the potential energy of springs, nonlinear forces and loads.
`staticEnergy` and `HasPotential` do not refer to helpers of the code; only `NLForce.force` is called.
-/

namespace TMD

open Spec Finset

noncomputable section

/-- Potential energy of the linear springs, the nonlinear forces and the static loads. -/
def staticEnergy (nd : ℕ) (K : ℕ → ℕ → ℝ) (V : (ℕ → ℝ) → ℝ) (Fs X : ℕ → ℝ) : ℝ :=
  1 / 2 * ∑ d ∈ range nd, ∑ e ∈ range nd, K d e * X d * X e + V X - ∑ d ∈ range nd, Fs d * X d

/-- `force` always returns, and the returned force is the gradient of `V`. -/
def HasPotential (f : NLForce) (V : (ℕ → ℝ) → ℝ) (nd : ℕ) : Prop := ∀ X, ∃ o, f.force X = .ok o ∧ HasGrad nd V o.1 X

theorem HasPotential.val {f : NLForce} {V : (ℕ → ℝ) → ℝ} {nd : ℕ} (hf : HasPotential f V nd) (X : ℕ → ℝ) : f.force X = .ok (forceVal f X) ∧ HasGrad nd V (forceVal f X).1 X := by
  obtain ⟨o, h1, h2⟩ := hf X
  have : forceVal f X = o := by simp only [forceVal, h1]
  rw [this]
  exact ⟨h1, h2⟩

theorem hasGrad_energy {nd : ℕ} {K : ℕ → ℕ → ℝ} (hK : ∀ d < nd, ∀ e < nd, K d e = K e d) {V : (ℕ → ℝ) → ℝ} {g : ℕ → ℝ} {X : ℕ → ℝ} (hV : HasGrad nd V g X) (Fs : ℕ → ℝ) :
    HasGrad nd (staticEnergy nd K V Fs) (fun i => matVec nd K X i + g i - Fs i) X := by
  unfold staticEnergy
  have k1 : HasGrad nd (fun X => 1 / 2 * ∑ d ∈ range nd, ∑ e ∈ range nd, K d e * X d * X e) (fun i => matVec nd K X i) X := by
    refine (HasGrad.const_mul (1 / 2) (HasGrad.sum fun d _ => HasGrad.sum fun e _ => (((HasGrad.coord d).const_mul (K d e)).mul (HasGrad.coord e)))).congr fun i hi => ?_
    have e1 : ∀ d ∈ range nd, ∑ e ∈ range nd, (K d e * (if i = d then 1 else 0) * X e + K d e * X d * (if i = e then 1 else 0))
        = (if i = d then ∑ e ∈ range nd, K d e * X e else 0) + K d i * X d := fun d _ => by
      rw [sum_add_distrib]
      congr 1
      · by_cases h : i = d <;> simp [h]
      · rw [sum_eq_single_of_mem i (mem_range.2 hi) fun e _ he => by simp [Ne.symm he]]
        simp
    have e2 := sum_congr rfl e1
    have e4 : ∑ d ∈ range nd, (if i = d then ∑ e ∈ range nd, K d e * X e else 0) = ∑ e ∈ range nd, K i e * X e := by
      rw [sum_eq_single_of_mem i (mem_range.2 hi) fun d _ hd => if_neg (Ne.symm hd), if_pos rfl]
    have e5 : ∑ d ∈ range nd, K d i * X d = ∑ d ∈ range nd, K i d * X d := sum_congr rfl fun d hd => by rw [hK d (mem_range.1 hd) i hi]
    rw [sum_add_distrib, e4, e5] at e2
    unfold matVec
    have e3 : ∑ e ∈ range nd, K i e * X e = 1 / 2 * (∑ e ∈ range nd, K i e * X e + ∑ d ∈ range nd, K i d * X d) := by ring
    rw [e3, ← e2]
    refine congrArg _ (sum_congr rfl fun d _ => sum_congr rfl fun e _ => ?_)
    ring
  have k2 : HasGrad nd (fun X => ∑ d ∈ range nd, Fs d * X d) Fs X := by
    refine (HasGrad.sum fun d _ => (HasGrad.coord d).const_mul (Fs d)).congr fun i hi => ?_
    rw [sum_eq_single_of_mem i (mem_range.2 hi) fun d _ hd => by simp [Ne.symm hd]]
    simp
  exact ((k1.add hV).sub k2)

/-- A structure with symmetric springs and forces with potentials. -/
structure StaticConservative (S : VibSys) (V : NLForce → (ℕ → ℝ) → ℝ) : Prop where
  symm : ∀ d < S.nd, ∀ e < S.nd, S.K d e = S.K e d
  forces : ∀ f ∈ S.forces, HasPotential f (V f) S.nd

/-- The potential energy of a structure. -/
def systemEnergy (S : VibSys) (V : NLForce → (ℕ → ℝ) → ℝ) (Fs : ℕ → ℝ) : (ℕ → ℝ) → ℝ := staticEnergy S.nd S.K (fun X => (S.forces.map fun f => V f X).sum) Fs

/-- C163: the residual of `static_res` is the gradient of the potential energy. -/
theorem C163_gradient (S : VibSys) (V : NLForce → (ℕ → ℝ) → ℝ) (H : StaticConservative S V) (X Fs : ℕ → ℝ) :
    ∃ R J, staticRes S X Fs = .ok (R, J) ∧ HasGrad S.nd (systemEnergy S V Fs) R X :=
  ⟨_, _, staticRes_ok S X Fs (fun f => forceVal f X) fun f hf => ((H.forces f hf).val X).1,
    hasGrad_energy H.symm (HasGrad.listSum S.forces V (fun f => (forceVal f X).1) fun f hf => ((H.forces f hf).val X).2) Fs⟩

/-- C163: the equilibria are the stationary points of the energy. -/
theorem C163_stationary (S : VibSys) (V : NLForce → (ℕ → ℝ) → ℝ) (H : StaticConservative S V) (X Fs : ℕ → ℝ) :
    ∃ R J, staticRes S X Fs = .ok (R, J) ∧ ((∀ i < S.nd, R i = 0) ↔ HasGrad S.nd (systemEnergy S V Fs) (fun _ => 0) X) := by
  obtain ⟨R, J, h1, h2⟩ := C163_gradient S V H X Fs
  exact ⟨R, J, h1, fun z => h2.congr fun i hi => (z i hi).symm, fun z i hi => hasGrad_eq h2 z hi⟩

/-- C163: where the energy is smallest in a neighbourhood the structure is in equilibrium. -/
theorem C163_minimum (S : VibSys) (V : NLForce → (ℕ → ℝ) → ℝ) (H : StaticConservative S V) (X Fs : ℕ → ℝ) {ε : ℝ} (hε : 0 < ε)
    (hmin : ∀ Y, (∀ i < S.nd, |Y i - X i| < ε) → (∀ i, S.nd ≤ i → Y i = X i) → systemEnergy S V Fs X ≤ systemEnergy S V Fs Y) :
    ∃ R J, staticRes S X Fs = .ok (R, J) ∧ ∀ i < S.nd, R i = 0 := by
  obtain ⟨R, J, h1, h2⟩ := C163_gradient S V H X Fs
  refine ⟨R, J, h1, fun i hi => ?_⟩
  have hm : IsLocalMin (fun v : Fin S.nd → ℝ => systemEnergy S V Fs fun i => X i + Spec.ext v i) 0 := by
    filter_upwards [Metric.ball_mem_nhds (0 : Fin S.nd → ℝ) hε] with v hv
    have e0 : (fun i => X i + Spec.ext (0 : Fin S.nd → ℝ) i) = X := funext fun i => by rw [ext_zero, add_zero]
    rw [e0]
    refine hmin _ (fun i hi => ?_) fun i hi => ?_
    · have := (pi_norm_lt_iff hε).1 (mem_ball_zero_iff.1 hv) ⟨i, hi⟩
      rw [Real.norm_eq_abs] at this
      simpa [Spec.ext, hi] using this
    · simp [Spec.ext, Nat.not_lt.2 hi]
  have z : HasGrad S.nd (systemEnergy S V Fs) (fun _ => 0) X := by
    have e := hm.hasFDerivAt_eq_zero h2
    unfold HasGrad
    have : row S.nd (fun _ => 0) = 0 := by simp [row]
    rw [this, ← e]
    exact h2
  exact hasGrad_eq h2 z hi

/-- C163: where the returned stiffnesses of the forces are true derivatives, the matrix is symmetric. -/
theorem C163_symmetric (S : VibSys) (V : NLForce → (ℕ → ℝ) → ℝ) (H : StaticConservative S V) (X Fs : ℕ → ℝ)
    (hJ : ∀ f ∈ S.forces, HasJac S.nd S.nd (fun Y => (forceVal f Y).1) (forceVal f X).2 X) :
    ∃ R J, staticRes S X Fs = .ok (R, J) ∧ ∀ i < S.nd, ∀ j < S.nd, J i j = J j i := by
  obtain ⟨res, h1, h2⟩ := C44_jacobian S Fs forceVal (fun f hf Y => ((H.forces f hf).val Y).1) X hJ
  refine ⟨_, _, h1 X, hasGrad_symm (f := systemEnergy S V Fs) (fun Y => ?_) h2⟩
  obtain ⟨R, J, k1, k2⟩ := C163_gradient S V H Y Fs
  rwa [show (res Y).1 = R from congrArg Prod.fst (Except.ok.inj ((h1 Y).symm.trans k1))]

/-! ## Forces -/

/-- C163: forces of local displacements with `T = Qᵀ` whose local forces are derivatives of potentials. -/
theorem C163_local {nd m : ℕ} {Q T : ℕ → ℕ → ℝ} (hT : ∀ d < nd, ∀ e < m, T d e = Q e d) {P p : ℕ → ℝ → ℝ} (hP : ∀ e < m, ∀ u, HasDerivAt (P e) (p e u) u) {f : NLForce}
    (hf : ∀ X, ∃ o, f.force X = .ok o ∧ ∀ i < nd, o.1 i = ∑ e ∈ range m, T i e * p e (∑ d ∈ range nd, Q e d * X d)) : HasPotential f (localPotential nd m Q P) nd := by
  intro X
  obtain ⟨o, h1, h2⟩ := hf X
  refine ⟨o, h1, ?_⟩
  unfold localPotential
  refine (HasGrad.sum fun e he => HasGrad.comp_deriv (HasGrad.sum fun d _ => (HasGrad.coord d).const_mul (Q e d)) (hP e (mem_range.1 he) _)).congr fun i hi => ?_
  rw [h2 i hi]
  refine sum_congr rfl fun e he => ?_
  have e1 : ∑ d ∈ range nd, Q e d * (if i = d then 1 else 0) = Q e i := by
    rw [sum_eq_single_of_mem i (mem_range.2 hi) fun d _ hd => by simp [Ne.symm hd], if_pos rfl, mul_one]
  rw [e1, hT i hi e (mem_range.1 he)]
  ring

/-- C163: the springs of the package. -/
theorem C163_classes (nd m cnl : ℕ) (Q T E : ℕ → ℕ → ℝ) (qq : ℕ → ℕ → ℕ) (hT : ∀ d < nd, ∀ e < m, T d e = Q e d) (k k' N0 δ : ℕ → ℝ) (p : IwanBB) (hp : p.Valid)
    (V : (ℕ → ℝ) → ℝ) (hdep : ∀ a b, (∀ i < m, a i = b i) → V a = V b) (hV : ∀ x, HasGrad m V (fun d => ∑ c ∈ range cnl, E d c * ∏ e ∈ range m, x e ^ qq c e) x) :
    HasPotential (cubicNL nd m Q T k) (localPotential nd m Q fun e u => k e * u ^ 4 / 4) nd ∧
    HasPotential (instForce nd m Q T (quinticLoc k) (quinticForce nd m Q T k)) (localPotential nd m Q fun e u => k e * u ^ 6 / 6) nd ∧
    HasPotential (instForce nd m Q T (unilateralLoc k' N0 δ) (unilateralForce nd m Q T k' N0 δ))
      (localPotential nd m Q fun e u => ∫ s in (0:ℝ)..u, max (k' e * (s - δ e) - N0 e) (-N0 e)) nd ∧
    HasPotential (instForce nd m Q T (iwanBBLoc p) (iwanBBForce nd m Q T p)) (localPotential nd m Q fun e u => ∫ s in (0:ℝ)..u, (iwanBBLoc p e s 0).f) nd ∧
    HasPotential (genPolyNL nd m cnl Q T E qq) (fun X => V fun e => ∑ d ∈ range nd, Q e d * X d) nd := by
  refine ⟨C163_local hT (p := fun e u => k e * u ^ 3) (fun e _ u => ?_) fun X => ⟨_, rfl, fun i _ => rfl⟩,
    C163_local hT (p := fun e u => k e * u ^ 5) (fun e _ u => ?_) fun X => ⟨_, rfl, fun i _ => rfl⟩,
    C163_local hT (p := fun e u => max (k' e * (u - δ e) - N0 e) (-N0 e)) (fun e _ u => ?_) fun X => ⟨_, rfl, fun i _ => rfl⟩,
    C163_local hT (p := fun e u => (iwanBBLoc p e u 0).f) (fun e _ u => ((C23_continuous p hp e 0).integral_hasStrictDerivAt 0 u).hasDerivAt) fun X => ⟨_, rfl, fun i _ => rfl⟩,
    fun X => ⟨_, rfl, ?_⟩⟩
  · exact (((hasDerivAt_pow 4 u).const_mul (k e)).div_const 4).congr_deriv (by push_cast; ring)
  · exact (((hasDerivAt_pow 6 u).const_mul (k e)).div_const 6).congr_deriv (by push_cast; ring)
  · have hc : Continuous fun u => max (k' e * (u - δ e) - N0 e) (-N0 e) := by fun_prop
    exact (hc.integral_hasStrictDerivAt 0 u).hasDerivAt
  · refine (HasGrad.comp_vec (Y := fun X e => ∑ d ∈ range nd, Q e d * X d) (hV _) hdep fun e _ => HasGrad.sum fun d _ => (HasGrad.coord d).const_mul (Q e d)).congr fun i hi => ?_
    simp only [genPolyForce, matVec, polyProd]
    refine sum_congr rfl fun e he => ?_
    have e1 : ∑ d ∈ range nd, Q e d * (if i = d then 1 else 0) = Q e i := by
      rw [sum_eq_single_of_mem i (mem_range.2 hi) fun d _ hd => by simp [Ne.symm hd], if_pos rfl, mul_one]
    rw [e1, hT i hi e (mem_range.1 he)]
    ring

/-- Example: a buckled beam with one degree of freedom, linear stiffness `-1` and a cubic spring. The energy `y⁴/4 - y²/2` is smallest at `y = 1`, where the
structure is in equilibrium. -/
example : ∃ R J, staticRes ⟨1, fun _ _ => 1, fun _ _ => -1, fun _ _ => 0, none, [cubicNL 1 1 (fun _ _ => 1) (fun _ _ => 1) fun _ => 1]⟩ (fun _ => 1) (fun _ => 0) = .ok (R, J) ∧
    ∀ i < 1, R i = 0 := by
  refine C163_minimum ⟨1, fun _ _ => 1, fun _ _ => -1, fun _ _ => 0, none, [cubicNL 1 1 (fun _ _ => 1) (fun _ _ => 1) fun _ => 1]⟩
    (fun _ => localPotential 1 1 (fun _ _ => 1) fun _ u => 1 * u ^ 4 / 4) ⟨fun _ _ _ _ => rfl, fun f hf => ?_⟩ _ _ zero_lt_one fun Y _ _ => ?_
  · rw [List.mem_singleton.1 hf]
    refine C163_local (fun _ _ _ _ => rfl) (p := fun _ u => 1 * u ^ 3) (fun e _ u => ?_) fun X => ⟨_, rfl, fun i _ => rfl⟩
    exact (((hasDerivAt_pow 4 u).const_mul 1).div_const 4).congr_deriv (by push_cast; ring)
  · simp only [systemEnergy, staticEnergy, localPotential, List.map_cons, List.map_nil, List.sum_cons, List.sum_nil, sum_range_one]
    nlinarith [sq_nonneg (Y 0 ^ 2 - 1)]

end

end TMD
