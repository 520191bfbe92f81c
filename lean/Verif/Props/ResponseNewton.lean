import Verif.Props.ResponseSolver
import Verif.Props.ContinuationRun

/-!
# C160: the solver finds the response from nearby starts
-/

namespace TMD

open Spec Finset

noncomputable section

variable {S : VibSys} {Fl : ℕ → ℝ} {h : List ℕ} {Nt : ℕ} {tol : ℝ}

/-- The call of the solver near a regular point of a smooth function, for a fixed last entry. -/
theorem fixed_ok {N : ℕ} {f : ContFun} {R : (ℕ → ℝ) → ℕ → ℝ} {J : (ℕ → ℝ) → ℕ → ℕ → ℝ} {D : (ℕ → ℝ) → ℕ → ℝ} {O : Set (Fin (N + 1) → ℝ)} (hs : SmoothIn N f R J D O) {w inf : ℝ}
    {L : Type} {fac : Matrix (Fin N) (Fin N) ℝ → L} {sol : L → (Fin N → ℝ) → Fin N → ℝ} (hsol : ExactSolve fac sol) {x : Fin N → ℝ}
    (hx : condMap N (fun _ => 1) (startPt N (fun _ => 1) w x) ∈ O) (hx0 : condRes N R (fun _ => 1) (startPt N (fun _ => 1) w x) = 0)
    (hdet : IsUnit (startMat N J (fun _ => 1) w x).det) {F : SolveFun (Fin N → ℝ) (Matrix (Fin N) (Fin N) ℝ)}
    (hF : ∀ y, F y true = .ok (condRes N R (fun _ => 1) (startPt N (fun _ => 1) w y), startMat N J (fun _ => 1) w y)) :
    ∃ r1 > 0, ∀ t > 0, ∃ M, ∀ om, PlainNewton om → M ≤ om.maxSteps → ∀ X0, ‖X0 - x‖ < r1 →
      ∃ res, nsolveOMP (realArith N inf fac sol) om F X0 (some t) = (.ok res, om) ∧ res.success = true ∧ ‖res.X - x‖ < t := by
  have hcS : Continuous (startPt N (fun _ => 1) w) := continuous_pi fun j => by
    by_cases h : (j : ℕ) < N
    · simp only [startPt, h, dif_pos]; fun_prop
    · simp only [startPt, h, dif_neg, not_false_eq_true]; fun_prop
  have hcM : Continuous fun y : Fin N → ℝ => condMap N (fun _ => 1) (startPt N (fun _ => 1) w y) := (condMap_continuous _).comp hcS
  have hO : ∀ᶠ y in nhds x, condMap N (fun _ => 1) (startPt N (fun _ => 1) w y) ∈ O := hcM.continuousAt.eventually_mem (hs.isOpen.mem_nhds hx)
  have hder : ∀ᶠ y in nhds x, HasFDerivAt (fun y => condRes N R (fun _ => 1) (startPt N (fun _ => 1) w y)) (jacMap (startMat N J (fun _ => 1) w y)) y := by
    filter_upwards [hO] with y hy
    obtain ⟨A, hA, hAv⟩ := startPt_deriv (fun _ => 1) w y
    have h1 := HasFDerivAt.comp (f := startPt N (fun _ => 1) w) y (condRes_deriv hs hy) hA
    refine h1.congr_fderiv ?_
    ext1 v
    funext i
    simp only [ContinuousLinearMap.comp_apply, rectMap_apply, jacMap_apply]
    simp only [Matrix.mulVec, dotProduct]
    rw [Fin.sum_univ_castSucc, hAv, dif_neg (by simp), mul_zero, add_zero]
    refine Finset.sum_congr rfl fun j _ => ?_
    rw [hAv, dif_pos (by simp)]
    simp only [condMat, fullJac, startMat, Fin.val_castSucc, j.2, if_true]
  have hJc : ContinuousAt (fun y => startMat N J (fun _ => 1) w y) x := by
    refine continuousAt_pi.2 fun i => continuousAt_pi.2 fun j => ?_
    refine ContinuousAt.mul ?_ continuousAt_const
    have h1 := (hs.cont i i.2 j (by omega)).continuousAt (hs.isOpen.mem_nhds hx)
    simp only [fullJac, j.2, if_true] at h1
    exact ContinuousAt.comp (f := fun y : Fin N → ℝ => condMap N (fun _ => 1) (startPt N (fun _ => 1) w y)) h1 hcM.continuousAt
  obtain ⟨r1, hr1, H⟩ := C130_converges (inf := inf) (f := F) hsol (Filter.Eventually.of_forall hF) hder hJc hx0 hdet
  refine ⟨r1, hr1, fun t ht => ?_⟩
  obtain ⟨M, hM⟩ := H t ht
  exact ⟨M, fun om hom hm X0 hX => hM om hom hm X0 hX (some t) rfl⟩

/-- C160: from every start near enough to the response, Newton's method finds it to every tolerance, with a number of iterations that depends on the tolerance alone. -/
theorem C160_converges (hh : Admissible h) (hNt : ∀ k ∈ h, 2 * k + 1 < Nt) (heven : Even Nt) (hD : Damped S h) (hS : ∀ f ∈ S.forces, IsDashpot S.nd f) {w : ℝ} (hw : 0 < w)
    {V : ℕ → ℝ} (hV : HBMSolution S Fl h Nt tol w V) {inf : ℝ} {L : Type} {fac : Matrix (Fin (numCoeff h * S.nd)) (Fin (numCoeff h * S.nd)) ℝ → L}
    {sol : L → (Fin (numCoeff h * S.nd) → ℝ) → Fin (numCoeff h * S.nd) → ℝ} (hsol : ExactSolve fac sol) :
    ∃ r > 0, ∀ t > 0, ∃ K, ∀ cfg, PlainNewton cfg → K ≤ cfg.maxSteps → ∀ X0 : Fin (numCoeff h * S.nd) → ℝ, (∀ i, |X0 i - V i| < r) →
      ∃ res, nsolveOMP (realArith (numCoeff h * S.nd) inf fac sol) cfg (hbmAt S w Fl h Nt tol (numCoeff h * S.nd)) X0 (some t) = (.ok res, cfg) ∧ res.success = true ∧
        ∀ i, |res.X i - V i| < t := by
  obtain ⟨n, hn⟩ := exists_bound h
  have hR := fun f hf => dashpot_resists (tol := tol) hh hn hNt heven (hS f hf)
  have hs := resists_smooth (Fl := Fl) hh hR
  have hz : ∀ y : Fin (numCoeff h * S.nd) → ℝ, ∀ k < numCoeff h * S.nd + 1, Spec.ext (condMap (numCoeff h * S.nd) (fun _ => 1) (startPt (numCoeff h * S.nd) (fun _ => 1) w y)) k
      = hcat (numCoeff h * S.nd) (Spec.ext y) (fun _ => w) k := fun y k hk => by
    by_cases c : k < numCoeff h * S.nd
    · simp [Spec.ext, condMap, startPt, hcat, hk, c]
    · simp [Spec.ext, condMap, startPt, hcat, hk, c]
  have hG : ∀ y : Fin (numCoeff h * S.nd) → ℝ, ∀ i, hbmG S (aftVal h Nt tol) h (Spec.ext (condMap (numCoeff h * S.nd) (fun _ => 1) (startPt (numCoeff h * S.nd) (fun _ => 1) w y))) i
      = hbmG S (aftVal h Nt tol) h (hcat (numCoeff h * S.nd) (Spec.ext y) fun _ => w) i := fun y i => hbmG_dep S _ h i _ _ (hz y)
  have hJ : ∀ y : Fin (numCoeff h * S.nd) → ℝ, hbmJ S (aftVal h Nt tol) h (Spec.ext (condMap (numCoeff h * S.nd) (fun _ => 1) (startPt (numCoeff h * S.nd) (fun _ => 1) w y)))
      = hbmJ S (aftVal h Nt tol) h (hcat (numCoeff h * S.nd) (Spec.ext y) fun _ => w) := fun y => by
    funext i j
    unfold hbmJ
    rw [hz y _ (Nat.lt_succ_self _), sl_congr (fun k hk => hz y k (by omega))]
  have hwe : hcat (numCoeff h * S.nd) (Spec.ext fun i : Fin (numCoeff h * S.nd) => V i) (fun _ => w) (numCoeff h * S.nd) = w := by simp [hcat]
  obtain ⟨r, hr, H⟩ := fixed_ok (inf := inf) (w := w) hs hsol (x := fun i => V i) (F := hbmAt S w Fl h Nt tol (numCoeff h * S.nd))
    (by simp [condMap, startPt, hw]) (funext fun i => by
      have h1 := (solution_iff hh hR w V).1 hV i i.2
      show hbmG S (aftVal h Nt tol) h _ i - Fl i = 0
      rw [hG, ← h1, sub_eq_zero]
      unfold hbmG
      rw [hwe, sl_congr (b := V) fun k hk => by simp [hcat, Spec.ext, hk]]
      rfl) (by
      rw [startMat_det, hJ]
      refine IsUnit.mul (IsUnit.mk0 _ ((regular_iff_det _).1 ?_)) (by simp)
      exact jac_regular hh hn hR hD.massSymm hD.stiffSymm hD.damping hD.stiffness (by rw [hwe]; exact hw))
    fun y => by
      unfold hbmAt
      rw [hbmRes_ok S hh Nt tol (aftVal h Nt tol) fun f hf => (hR f hf).ok]
      refine congrArg Except.ok (Prod.ext (funext fun i => ?_) (funext fun i => funext fun j => ?_))
      · show _ = hbmG S (aftVal h Nt tol) h _ i - Fl i
        rw [hG]
      · show _ = hbmJ S (aftVal h Nt tol) h _ i j * 1
        rw [hJ, mul_one]
  refine ⟨r, hr, fun t ht => ?_⟩
  obtain ⟨K, hK⟩ := H t ht
  refine ⟨K, fun cfg hc hm X0 hX => ?_⟩
  obtain ⟨res, h1, h2, h3⟩ := hK cfg hc hm X0 ((pi_norm_lt_iff hr).2 hX)
  exact ⟨res, h1, h2, (pi_norm_lt_iff ht).1 h3⟩

/-- Example: the mass on a spring with the damping `x'/10 + x'³` at resonance: with enough iterations the solver finds a point with all coefficients within `1e-9` of
those of the response, from every start in a box around it. -/
example (tol : ℝ) : ∃ V r, HBMSolution (cubicDamped (1 / 10) 1) (fun i => if i = 1 then 1 else 0) [0, 1, 3] 64 tol 1 V ∧ 0 < r ∧ ∃ K, ∀ X0 : Fin 5 → ℝ, (∀ i, |X0 i - V i| < r) →
    ∃ res, nsolveOMP (realArith 5 0 id fun D v => D⁻¹.mulVec v) { maxSteps := K, lsTol := 0 }
      (hbmAt (cubicDamped (1 / 10) 1) 1 (fun i => if i = 1 then 1 else 0) [0, 1, 3] 64 tol 5) X0 (some 1e-9) = (.ok res, { maxSteps := K, lsTol := 0 }) ∧ res.success = true ∧
      ∀ i, |res.X i - V i| < 1e-9 := by
  have hh : Admissible [0, 1, 3] := ⟨by simp, by simp, by simp⟩
  have hD : Damped (cubicDamped (1 / 10) 1) [0, 1, 3] := cubicDamped_damped (by norm_num) _ _
  have hS : ∀ f ∈ (cubicDamped (1 / 10) 1).forces, IsDashpot (cubicDamped (1 / 10) 1).nd f := fun f hf => by
    obtain rfl : f = _ := List.mem_singleton.1 hf
    exact C144_cubic _ _ _ _ (fun _ _ => rfl) fun _ => zero_le_one
  obtain ⟨V, hV, -⟩ := C144_solution (Nt := 64) (tol := tol) hh (by simp) ⟨32, rfl⟩ hD hS (fun i => if i = 1 then 1 else 0) one_pos
  obtain ⟨r, hr, H⟩ := C160_converges (inf := 0) hh (by simp) ⟨32, rfl⟩ hD hS one_pos hV exactSolve_inv
  obtain ⟨K, hK⟩ := H 1e-9 (by norm_num)
  exact ⟨V, r, hV, hr, K, fun X0 hX => hK { maxSteps := K, lsTol := 0 } ⟨rfl, rfl, rfl⟩ le_rfl X0 hX⟩

end

end TMD
