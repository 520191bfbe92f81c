import Verif.Props.BaseResponse
import Verif.Model.JaxGrad
import Verif.Model.JaxVectorGrad

/-!
# C162: a base that moves as a rigid body acts through the inertia alone
-/

namespace TMD

open Spec Finset

noncomputable section

variable {S : VibSys} {base : ℕ → Bool} {h : List ℕ} {Nt : ℕ} {tol w : ℝ} {ρ y : ℕ → ℝ}

/-- The coefficients of the motion with all degrees of freedom `d` moving by `ρ d` times the function with the coefficients `y`. -/
def rigidOf (nd : ℕ) (h : List ℕ) (ρ y : ℕ → ℝ) : ℕ → ℝ := fun i => if i < numCoeff h * nd then ρ (i % nd) * y (i / nd) else 0

/-- The harmonic forces of `f` do not change when all degrees of freedom move by `ρ` times a common function in addition. -/
def FollowsBase (nd : ℕ) (h : List ℕ) (Nt : ℕ) (tol : ℝ) (ρ : ℕ → ℝ) (f : NLForce) : Prop :=
  ∀ U y w, f.aft (fun i => U i + rigidOf nd h ρ y i) w h Nt tol = f.aft U w h Nt tol

theorem rigidOf_block {nd r d : ℕ} (hr : r < numCoeff h) (hd : d < nd) : rigidOf nd h ρ y (r * nd + d) = ρ d * y r := by
  have h1 := block_lt hr hd
  have h2 : (r * nd + d) % nd = d := by rw [Nat.mul_comm, Nat.mul_add_mod, Nat.mod_eq_of_lt hd]
  have h3 : (r * nd + d) / nd = r := by rw [Nat.mul_comm, Nat.mul_add_div (by omega), Nat.div_eq_of_lt hd, add_zero]
  rw [rigidOf, if_pos h1, h2, h3]

/-- The linear part of the equations makes the inertia forces of a motion that neither springs nor dampers feel. -/
theorem rigid_inertia (hh : Admissible h) (hK : ∀ d < S.nd, ∑ e ∈ range S.nd, S.K d e * ρ e = 0) (hC : ∀ d < S.nd, ∑ e ∈ range S.nd, S.C d e * ρ e = 0) (y : ℕ → ℝ) {d : ℕ} (hd : d < S.nd) (t : ℝ) :
    periodicOf S.nd h (matVec (numCoeff h * S.nd) (hsE S.nd S.M S.C S.K w h false) (rigidOf S.nd h ρ y)) w d t
      = (∑ e ∈ range S.nd, S.M d e * ρ e) * deriv (deriv fun t => series h y (w * t)) t := by
  obtain ⟨out, h1, h2, h3⟩ := C02_stiffness_is_dynamics h hh S.nd S.M S.C S.K w false false
  rw [harmonicStiffness_ok hh] at h1
  obtain rfl := Except.ok.inj h1
  have h4 := h3 (rigidOf S.nd h ρ y) d hd t
  simp only [Bool.false_eq_true, if_false] at h4
  unfold periodicOf
  rw [h4]
  have hx : ∀ e < S.nd, (fun t => series h (fun r => rigidOf S.nd h ρ y (r * S.nd + e)) (w * t)) = fun t => ρ e * series h y (w * t) := fun e he => by
    funext t
    rw [← series_smul]
    exact series_congr (fun r hr => rigidOf_block hr he) _
  have hd1 : ∀ e, deriv (fun t => ρ e * series h y (w * t)) = fun t => ρ e * deriv (fun t => series h y (w * t)) t := fun e => by
    funext t
    rw [deriv_const_mul_field]
  have hs : ∀ e ∈ range S.nd, (S.M d e * deriv (deriv fun t => series h (fun r => rigidOf S.nd h ρ y (r * S.nd + e)) (w * t)) t
      + S.C d e * deriv (fun t => series h (fun r => rigidOf S.nd h ρ y (r * S.nd + e)) (w * t)) t + S.K d e * series h (fun r => rigidOf S.nd h ρ y (r * S.nd + e)) (w * t))
      = S.M d e * ρ e * deriv (deriv fun t => series h y (w * t)) t + S.C d e * ρ e * deriv (fun t => series h y (w * t)) t + S.K d e * ρ e * series h y (w * t) := fun e he => by
    have e1 : series h (fun r => rigidOf S.nd h ρ y (r * S.nd + e)) (w * t) = ρ e * series h y (w * t) := congrFun (hx e (mem_range.1 he)) t
    rw [hx e (mem_range.1 he), hd1, deriv_const_mul_field, e1]
    ring
  rw [sum_congr rfl hs, sum_add_distrib, sum_add_distrib, ← sum_mul, ← sum_mul, ← sum_mul, hK d hd, hC d hd]
  ring

/-- C162: let springs, dampers and nonlinear forces not feel the motion of all degrees of freedom by `ρ` times a common function. If the base moves in that way, with the
function `y`, the equations of `hbm_base_res` are those of the relative motion on a resting base with the inertia forces `-M ρ y''` as the load, with the same derivatives. -/
theorem C162_inertia (hh : Admissible h) (A : NLForce → (ℕ → ℝ) → ℝ → AftOut) (hA : ∀ f ∈ S.forces, ∀ U w, f.aft U w h Nt tol = .ok (A f U w))
    (hK : ∀ d < S.nd, ∑ e ∈ range S.nd, S.K d e * ρ e = 0) (hC : ∀ d < S.nd, ∑ e ∈ range S.nd, S.C d e * ρ e = 0) (hF : ∀ f ∈ S.forces, FollowsBase S.nd h Nt tol ρ f)
    {Uw Zw Ub : ℕ → ℝ} (hUw : Uw (nFree S.nd (numCoeff h * S.nd) base) = w) (hZw : Zw (nFree S.nd (numCoeff h * S.nd) base) = w)
    (hrel : ∀ r < numCoeff h, ∀ d < S.nd, baseFull S.nd (numCoeff h * S.nd) base Uw Ub (r * S.nd + d)
      = baseFull S.nd (numCoeff h * S.nd) base Zw (fun _ => 0) (r * S.nd + d) + ρ d * y r) :
    ∃ R J D R' J' D', hbmBaseRes S Uw Ub base h Nt tol = .ok (R, J, D) ∧ hbmBaseRes S Zw (fun _ => 0) base h Nt tol = .ok (R', J', D') ∧
      (∀ k l, J k l = J' k l) ∧
      ∀ d < S.nd, base d = false → ∀ t, periodicOf S.nd h (freeVec S.nd (numCoeff h * S.nd) base R) w d t
        = periodicOf S.nd h (freeVec S.nd (numCoeff h * S.nd) base R') w d t + (∑ e ∈ range S.nd, S.M d e * ρ e) * deriv (deriv fun t => series h y (w * t)) t := by
  have hlast : ∀ X B : ℕ → ℝ, baseFull S.nd (numCoeff h * S.nd) base X B (numCoeff h * S.nd) = X (nFree S.nd (numCoeff h * S.nd) base) := fun X B => baseFull_last X
  have hsl : sl 0 (numCoeff h * S.nd) (baseFull S.nd (numCoeff h * S.nd) base Uw Ub)
      = fun i => sl 0 (numCoeff h * S.nd) (baseFull S.nd (numCoeff h * S.nd) base Zw fun _ => 0) i + rigidOf S.nd h ρ y i := by
    funext i
    by_cases hi : i < numCoeff h * S.nd
    · have hnd : 0 < S.nd := Nat.pos_of_ne_zero fun h0 => by rw [h0, mul_zero] at hi; omega
      have hr : i / S.nd < numCoeff h := Nat.div_lt_of_lt_mul (by rwa [mul_comm])
      have hd := Nat.mod_lt i hnd
      have e : i / S.nd * S.nd + i % S.nd = i := Nat.div_add_mod' i S.nd
      have := hrel _ hr _ hd
      rw [e] at this
      rw [sl_zero hi, sl_zero hi, this, rigidOf, if_pos hi]
    · simp [sl, hi, rigidOf]
  have hAF : ∀ f ∈ S.forces, A f (sl 0 (numCoeff h * S.nd) (baseFull S.nd (numCoeff h * S.nd) base Uw Ub)) w
      = A f (sl 0 (numCoeff h * S.nd) (baseFull S.nd (numCoeff h * S.nd) base Zw fun _ => 0)) w := fun f hf => by
    have := hF f hf (sl 0 (numCoeff h * S.nd) (baseFull S.nd (numCoeff h * S.nd) base Zw fun _ => 0)) y w
    rw [← hsl, hA f hf, hA f hf] at this
    exact Except.ok.inj this
  refine ⟨_, _, _, _, _, _, hbmBaseRes_ok S hh Nt tol A hA Uw Ub base rfl, hbmBaseRes_ok S hh Nt tol A hA Zw (fun _ => 0) base rfl, fun k l => ?_, fun d hd hb t => ?_⟩
  · unfold hbmJ
    rw [hlast, hlast, hUw, hZw]
    congr 1
    refine congrArg List.sum (List.map_congr_left fun f hf => ?_)
    rw [hAF f hf]
  · rw [← rigid_inertia (w := w) hh hK hC y hd t]
    unfold periodicOf
    rw [← series_add]
    refine series_congr (fun r hr => ?_) _
    have hm : ¬ baseMask S.nd (numCoeff h * S.nd) base (r * S.nd + d) := fun q => by
      have := (mask_block base hr hd).1 q
      rw [hb] at this
      exact Bool.noConfusion this
    have hi' : Nat.nth (fun i => ¬ baseMask S.nd (numCoeff h * S.nd) base i) (Nat.count (fun i => ¬ baseMask S.nd (numCoeff h * S.nd) base i) (r * S.nd + d)) = r * S.nd + d :=
      Nat.nth_count (p := fun i => ¬ baseMask S.nd (numCoeff h * S.nd) base i) hm
    simp only [freeVec, if_neg hm, hi']
    unfold hbmG
    rw [hlast, hlast, hUw, hZw, List.map_congr_left fun f hf => by rw [hAF f hf], hsl]
    have : ∀ i, matVec (numCoeff h * S.nd) (hsE S.nd S.M S.C S.K w h false) (fun i => sl 0 (numCoeff h * S.nd) (baseFull S.nd (numCoeff h * S.nd) base Zw fun _ => 0) i + rigidOf S.nd h ρ y i) i
        = matVec (numCoeff h * S.nd) (hsE S.nd S.M S.C S.K w h false) (sl 0 (numCoeff h * S.nd) (baseFull S.nd (numCoeff h * S.nd) base Zw fun _ => 0)) i
          + matVec (numCoeff h * S.nd) (hsE S.nd S.M S.C S.K w h false) (rigidOf S.nd h ρ y) i := fun i => by
      simp only [matVec, mul_add, sum_add_distrib]
    rw [this]
    ring

theorem unlOf_rigid {N : ℕ} {Q : ℕ → ℕ → ℝ} (hQ : ∀ d, ∑ e ∈ range N, Q d e * ρ e = 0) (U y : ℕ → ℝ) : unlOf N Q (fun i => U i + rigidOf N h ρ y i) = unlOf N Q U := by
  funext r d
  simp only [unlOf, matMul, mul_add, sum_add_distrib]
  rw [add_eq_left]
  by_cases hr : r < numCoeff h
  · rw [sum_congr rfl fun e he => by rw [rigidOf_block hr (mem_range.1 he), ← mul_assoc], ← sum_mul, hQ, zero_mul]
  · refine sum_eq_zero fun e _ => ?_
    have : numCoeff h * N ≤ r * N := Nat.mul_le_mul_right N (by omega)
    rw [rigidOf, if_neg (by omega), mul_zero]

/-- C162: instantaneous forces whose local displacements do not feel the motion meet the hypothesis. -/
theorem C162_instantaneous {N m : ℕ} {Q T : ℕ → ℕ → ℝ} {loc : ℕ → ℝ → ℝ → Loc} {force : (ℕ → ℝ) → (ℕ → ℝ) × (ℕ → ℕ → ℝ)} (hQ : ∀ d, ∑ e ∈ range N, Q d e * ρ e = 0) :
    FollowsBase N h Nt tol ρ (instForce N m Q T loc force) := fun U y w => by
  simp only [instForce, instAft, unlOf_rigid hQ]

/-- C162: so do polynomial, hysteretic and automatically differentiated friction and contact forces. -/
theorem C162_friction {N : ℕ} {Q T : ℕ → ℕ → ℝ} (hQ : ∀ d, ∑ e ∈ range N, Q d e * ρ e = 0) {f : NLForce} (hf : (∃ m cnl E qq, ∀ U w, f.aft U w h Nt tol = genPolyAft N m cnl Q T E qq U w h Nt)
    ∨ (∃ m lfh, ∀ U w, f.aft U w h Nt tol = hystAft N m Q T lfh U w h Nt) ∨ (∃ m hist, ∀ U w, f.aft U w h Nt tol = jaxAftGrad N m Q T hist U h Nt)
    ∨ ∃ kt Fs u0, ∀ U w, f.aft U w h Nt tol = jaxVectorAftGrad N Q T kt Fs u0 U h Nt) : FollowsBase N h Nt tol ρ f := fun U y w => by
  have hj : ∀ m hist, jaxAftGrad N m Q T hist (fun i => U i + rigidOf N h ρ y i) h Nt = jaxAftGrad N m Q T hist U h Nt := fun m hist => by
    simp only [jaxAftGrad, unlOf_rigid hQ]
  rcases hf with ⟨m, cnl, E, qq, hf⟩ | ⟨m, lfh, hf⟩ | ⟨m, hist, hf⟩ | ⟨kt, Fs, u0, hf⟩
  · simp only [hf, genPolyAft, unlOf_rigid hQ]
  · simp only [hf, hystAft, unlOf_rigid hQ]
  · simp only [hf, hj]
  · simp only [hf, jaxVectorAftGrad, unlOf_rigid hQ, hj]

/-- Example: an automatically differentiated friction element between a mass and the base, which feels the difference of the two displacements, does not feel a translation of both. -/
example (aft0 : (ℕ → ℝ) → ℝ → List ℕ → ℕ → ℝ → Except Err (ℕ → ℝ)) (force : (ℕ → ℝ) → Except Err ((ℕ → ℝ) × (ℕ → ℕ → ℝ))) : FollowsBase 2 [0, 1] 8 0 (fun _ => 1)
    ⟨1, force, fun U _ h Nt _ => jaxVectorAftGrad 2 (fun _ e => if e = 0 then -1 else 1) (fun d _ => if d = 0 then -1 else 1) 3 2 (.scalar 0) U h Nt, aft0⟩ :=
  C162_friction (Q := fun _ e => if e = 0 then -1 else 1) (T := fun d _ => if d = 0 then -1 else 1) (fun d => by simp [sum_range_succ]) (.inr (.inr (.inr ⟨3, 2, .scalar 0, fun _ _ => rfl⟩)))

/-- Example: the mass on a spring and a damper on a shaken base. With the displacement of the mass relative to the base as the unknown the base may be taken to be at rest
and the acceleration of the base is the load. -/
example {Uw Zw y : ℕ → ℝ} {w tol : ℝ} (hUw : Uw 2 = w) (hZw : Zw 2 = w) (h0 : Uw 0 = Zw 0 + y 0) (h1 : Uw 1 = Zw 1 + y 1) :
    ∃ R J D R' J' D', hbmBaseRes shaken Uw y (fun d => d == 1) [1] 4 tol = .ok (R, J, D) ∧ hbmBaseRes shaken Zw (fun _ => 0) (fun d => d == 1) [1] 4 tol = .ok (R', J', D') ∧
      (∀ k l, J k l = J' k l) ∧ ∀ t, periodicOf 2 [1] (freeVec 2 4 (fun d => d == 1) R) w 0 t
        = periodicOf 2 [1] (freeVec 2 4 (fun d => d == 1) R') w 0 t + deriv (deriv fun t => series [1] y (w * t)) t := by
  have hh : Admissible [1] := ⟨by simp, by simp, by simp⟩
  have hS : ∀ f ∈ shaken.forces, IsDashpot shaken.nd f := fun f hf => by
    obtain rfl : f = _ := List.mem_singleton.1 hf
    exact C144_cubic 2 1 _ _ (fun _ _ => rfl) fun _ => zero_le_one
  have hR := fun f hf => dashpot_resists (n := 1) (Nt := 4) (tol := tol) hh (by simp) (by simp) ⟨2, rfl⟩ (hS f hf)
  obtain ⟨R, J, D, R', J', D', e1, e2, e3, e4⟩ := C162_inertia (S := shaken) (base := fun d => d == 1) (Nt := 4) (tol := tol) (ρ := fun _ => 1) (y := y) (Uw := Uw) (Zw := Zw) (Ub := y) (w := w)
    hh (aftVal [1] 4 tol) (fun f hf => (hR f hf).ok) (fun d hd => by
      have hd : d < 2 := hd
      interval_cases d <;> simp [shaken, sum_range_succ]) (fun d hd => by
      have hd : d < 2 := hd
      interval_cases d <;> norm_num [shaken, sum_range_succ]) (fun f hf => by
      obtain rfl : f = _ := List.mem_singleton.1 hf
      exact C162_instantaneous fun d => by simp [shaken, sum_range_succ])
    (by rw [shaken_nFree]; exact hUw) (by rw [shaken_nFree]; exact hZw) (fun r hr d hd => by
      have hr : r < 2 := hr
      have hd : d < 2 := hd
      interval_cases r <;> interval_cases d <;> simp [baseFull, baseMask, shaken, numCoeff, Nat.count_succ, h0, h1])
  refine ⟨R, J, D, R', J', D', e1, e2, e3, fun t => ?_⟩
  have := e4 0 (by norm_num [shaken]) rfl t
  rw [show ∑ e ∈ range shaken.nd, shaken.M 0 e * (fun _ => (1 : ℝ)) e = 1 by simp [shaken], one_mul] at this
  exact this

end

end TMD
