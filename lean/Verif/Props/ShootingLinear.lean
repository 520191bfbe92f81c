import Verif.Props.ShootingSolve
import Verif.Props.LinearSweep

/-!
# Property C151: shooting for linear damped structures

The element of the system has a constant Jacobian. The shooting equations are then linear, have exactly one solution at each frequency,
are solved by one Newton step from every state, and their continuation in frequency does not fail.
-/

namespace TMD

open Spec Finset

noncomputable section

variable {ivp : SolveIvp} {S : VibSys} {Minv : ℕ → ℕ → ℝ} {Uw Fl : ℕ → ℝ} {Nt : ℕ} {r r' : ShootRes}
  {A : (ℕ → ℝ) → (ℕ → ℝ) × (ℕ → ℕ → ℝ)} {f : NLForce} {Kn : ℕ → ℕ → ℝ}

theorem shA_affine (hS : S.forces = [f]) (hA : ∀ U, f.force U = .ok (A U)) (hL : SmoothLaw S.nd (fun U => (A U).1) (fun U => (A U).2))
    (hK : ∀ U, ∀ i < S.nd, ∀ j < S.nd, (A U).2 i j = Kn i j) (z h : Fin (2 * S.nd) → ℝ) : shA S Minv A (z + h) = shA S Minv A z + freeField S Minv Kn h := by
  set L := shA' S Minv A 0 with hLd
  have hconst : ∀ z, shA' S Minv A z = L := fun z => by
    ext1 h
    rw [hLd, shA'_apply _ _ fun i hi j hj => hK _ i hi j hj, shA'_apply _ _ fun i hi j hj => hK _ i hi j hj]
  have hd : ∀ z, HasFDerivAt (fun z => shA S Minv A z - L z) (0 : (Fin (2 * S.nd) → ℝ) →L[ℝ] (Fin (2 * S.nd) → ℝ)) z := fun z => by
    have := (shA_hasFDerivAt (Minv := Minv) hS hA hL z).sub L.hasFDerivAt
    rwa [hconst z, sub_self] at this
  have := is_const_of_fderiv_eq_zero (𝕜 := ℝ) (fun z => (hd z).differentiableAt) (fun z => (hd z).fderiv) (z + h) z
  beta_reduce at this
  rw [map_add, sub_eq_sub_iff_add_eq_add] at this
  have e : L h = freeField S Minv Kn h := shA'_apply _ _ fun i hi j hj => hK _ i hi j hj
  rw [← e]
  have : shA S Minv A (z + h) + L z = shA S Minv A z + L h + L z := by rw [this]; abel
  exact add_right_cancel this

/-- C151: with an exact integrator the calls reach the end of the period at every state and every positive frequency. -/
theorem C151_complete (hivp : ExactIvp ivp) (hM : IsInv S.nd S.M Minv) (hS : S.forces = [f])
    (hA : ∀ U, f.force U = .ok (A U)) (hL : SmoothLaw S.nd (fun U => (A U).1) (fun U => (A U).2)) (hK : ∀ U, ∀ i < S.nd, ∀ j < S.nd, (A U).2 i j = Kn i j)
    (hw : 0 < Uw (2 * S.nd)) (hNt : 0 < Nt) (h : shootingRes ivp S Minv Uw (2 * S.nd + 1) Fl Nt = .ok r) : r.cols = Nt + 1 := by
  obtain ⟨u, v, hm, hs, -⟩ := keeps_linear (Fl := Fl) hM hS hA hL hw hK
  exact (C75_complete hivp hM hS hA hL hw hNt h).2 ⟨u, v, hm, hs⟩

/-- C151: the residual is an affine function of the state, with the returned matrix. -/
theorem C151_affine (hivp : ExactIvp ivp) (hM : IsInv S.nd S.M Minv) (hS : S.forces = [f])
    (hA : ∀ U, f.force U = .ok (A U)) (hL : SmoothLaw S.nd (fun U => (A U).1) (fun U => (A U).2)) (hK : ∀ U, ∀ i < S.nd, ∀ j < S.nd, (A U).2 i j = Kn i j)
    (hw : 0 < Uw (2 * S.nd)) (hNt : 0 < Nt) (h : shootingRes ivp S Minv Uw (2 * S.nd + 1) Fl Nt = .ok r) {X : ℕ → ℝ} (hX : X (2 * S.nd) = Uw (2 * S.nd))
    (h' : shootingRes ivp S Minv X (2 * S.nd + 1) Fl Nt = .ok r') {i : ℕ} (hi : i < 2 * S.nd) :
    r'.R i = r.R i + ∑ j ∈ range (2 * S.nd), r.dRdU i j * (X j - Uw j) := by
  have hw' : 0 < X (2 * S.nd) := by rw [hX]; exact hw
  obtain ⟨p, p0, hp, pT⟩ := frozen hivp hM hS hA hL hw hNt (keeps_linear (Fl := Fl) hM hS hA hL hw hK) h fun j => X j - Uw j
  obtain ⟨Y, hY, hYR, -, -⟩ := shoot_curve hivp hS hA hw hNt h (C151_complete hivp hM hS hA hL hK hw hNt h)
  obtain ⟨Y', hY', hYR', -, -⟩ := shoot_curve hivp hS hA hw' hNt h' (C151_complete hivp hM hS hA hL hK hw' hNt h')
  obtain ⟨hz0, hz⟩ := curve_parts hS hA hY
  obtain ⟨hz0', hz'⟩ := curve_parts hS hA hY'
  rw [hX] at hz' hYR'
  have hT0 : 0 < 2 * Real.pi / Uw (2 * S.nd) := by have := Real.pi_pos; positivity
  have hsum : ∀ t ∈ Set.Icc 0 (2 * Real.pi / Uw (2 * S.nd)), HasDerivWithinAt (fun t => restr (2 * S.nd) (Y t) + p t)
      (shA S Minv A (restr (2 * S.nd) (Y t) + p t) + shB S Minv Fl (Uw (2 * S.nd) * t)) (Set.Icc 0 (2 * Real.pi / Uw (2 * S.nd))) t := fun t ht => by
    refine ((hz t ht).add (hp t ht)).congr_deriv ?_
    rw [shA_affine hS hA hL hK]
    abel
  have huq := shoot_unique (shA_hasFDerivAt (Minv := Minv) hS hA hL) (shA'_continuous hL) (fun t => shB S Minv Fl (Uw (2 * S.nd) * t)) hT0 hsum hz' (by
    beta_reduce
    rw [hz0', hz0, p0]
    funext j
    simp [restr]) _ ⟨hT0.le, le_rfl⟩
  have e := congrFun huq ⟨i, hi⟩
  simp only [restr, Pi.add_apply, pT] at e
  have hmono : ∀ i j, r.dRdU i j = r.monodromy i j - if i = j then 1 else 0 := by
    obtain ⟨-, o, Yd, -, -, -, rfl⟩ := shootingRes_ok h
    exact fun _ _ => rfl
  rw [hYR' i hi, hYR i hi, e]
  simp only [hmono, sub_mul, sum_sub_distrib, ite_mul, one_mul, zero_mul, sum_ite_eq, mem_range, hi, if_true]
  rw [sum_range]
  ring

/-- C151: with positive definite mass, damping and stiffness the returned matrix is regular. -/
theorem C151_regular (hivp : ExactIvp ivp) (hM : IsInv S.nd S.M Minv) (hS : S.forces = [f])
    (hA : ∀ U, f.force U = .ok (A U)) (hL : SmoothLaw S.nd (fun U => (A U).1) (fun U => (A U).2)) (hK : ∀ U, ∀ i < S.nd, ∀ j < S.nd, (A U).2 i j = Kn i j)
    (hD : DampedSys S) (hsym : SymmOn S.nd (addStiff S Kn)) (hpos : PosOn S.nd (addStiff S Kn))
    (hw : 0 < Uw (2 * S.nd)) (hNt : 0 < Nt) (h : shootingRes ivp S Minv Uw (2 * S.nd + 1) Fl Nt = .ok r) : Regular (2 * S.nd) r.dRdU := by
  refine (C150_regular h).2 fun hl => ?_
  obtain ⟨u1, v1, u2, v2, f1, f2, ht⟩ := eigen_turned hivp hM hS hA hL hw hNt (keeps_linear (Fl := Fl) hM hS hA hL hw hK) h hl
  have hT0 : 0 < 2 * Real.pi / Uw (2 * S.nd) := by have := Real.pi_pos; positivity
  have := decay hD.massSymm hsym hD.mass hD.damp hpos hT0 f1 f2 ht
  norm_num at this

/-- The structure without force object, with the stiffness `Kn` of the element added to its own. -/
def stiffened (S : VibSys) (Kn : ℕ → ℕ → ℝ) : VibSys := { S with K := addStiff S Kn, forces := [] }

theorem steady_periodic (hf : ∀ U, ∀ i < S.nd, (A U).1 i = ∑ j ∈ range S.nd, Kn i j * U j) {w : ℝ} (hw : 0 < w) {U : ℕ → ℝ} (h : SteadyMotion (stiffened S Kn) Fl [1] w U) :
    ∃ u v, PeriodicMotion S.nd S.M S.C S.K (fun U => (A U).1) Fl w U (fun i => w * U (S.nd + i)) u v := by
  have es : ∀ (c : ℕ → ℝ) (e : ℕ) (t : ℝ), series [1] (fun r => c (r * S.nd + e)) (w * t) = c e * Real.cos (w * t) + c (S.nd + e) * Real.sin (w * t) := fun c e t => by simp [series]
  have d1 : ∀ (a b t : ℝ), HasDerivAt (fun t => a * Real.cos (w * t) + b * Real.sin (w * t)) (w * b * Real.cos (w * t) + (-(w * a)) * Real.sin (w * t)) t := fun a b t => by
    have hl : HasDerivAt (fun t : ℝ => w * t) w t := by simpa using (hasDerivAt_id t).const_mul w
    refine ((hl.cos.const_mul a).add (hl.sin.const_mul b)).congr_deriv ?_
    ring
  refine ⟨fun t e => U e * Real.cos (w * t) + U (S.nd + e) * Real.sin (w * t), fun t e => w * U (S.nd + e) * Real.cos (w * t) + (-(w * U e)) * Real.sin (w * t), fun t i _ => d1 _ _ t,
    fun t => ⟨fun e => w * (-(w * U e)) * Real.cos (w * t) + (-(w * (w * U (S.nd + e)))) * Real.sin (w * t), fun i _ => d1 _ _ t, fun i hi => ?_⟩, fun t i _ => ?_, fun i _ => by simp⟩
  · have := h i hi t
    refine Eq.trans ?_ (this.trans (es Fl i t))
    rw [hf _ i hi, ← sum_add_distrib]
    refine sum_congr rfl fun j _ => ?_
    have e1 : deriv (fun t => U j * Real.cos (w * t) + U (S.nd + j) * Real.sin (w * t)) = fun t => w * U (S.nd + j) * Real.cos (w * t) + (-(w * U j)) * Real.sin (w * t) := funext fun t => (d1 _ _ t).deriv
    have e2 : series [1] (fun r => U (r * (stiffened S Kn).nd + j)) = fun τ => U j * Real.cos τ + U (S.nd + j) * Real.sin τ := funext fun τ => by simp [series, stiffened]
    simp only [e2, e1, (d1 _ _ t).deriv]
    simp only [stiffened, addStiff]
    ring
  · have : w * (t + 2 * Real.pi / w) = w * t + 2 * Real.pi := by field_simp
    simp only [this, Real.cos_add_two_pi, Real.sin_add_two_pi, and_self]

/-- C151: with an integrator that does not fail the calls return at every state and every positive frequency. -/
theorem C151_returns (hivp : ExactIvp ivp) (htot : TotalIvp ivp) (hM : IsInv S.nd S.M Minv) (hS : S.forces = [f]) (hft : f.ftype = 0)
    (hA : ∀ U, f.force U = .ok (A U)) (hL : SmoothLaw S.nd (fun U => (A U).1) (fun U => (A U).2)) (hK : ∀ U, ∀ i < S.nd, ∀ j < S.nd, (A U).2 i j = Kn i j)
    (hw : 0 < Uw (2 * S.nd)) (hNt : 0 < Nt) : ∃ r, shootingRes ivp S Minv Uw (2 * S.nd + 1) Fl Nt = .ok r ∧ r.cols = Nt + 1 := by
  obtain ⟨u, v, hm, hs, -⟩ := keeps_linear (Fl := Fl) hM hS hA hL hw hK
  have hT0 : 0 < 2 * Real.pi / Uw (2 * S.nd) := by have := Real.pi_pos; positivity
  obtain ⟨Y, hY⟩ := augmented_sol (Uw := Uw) hS hA hL hT0.le (fun i => by
    by_cases c : (i:ℕ) < S.nd
    · simp only [restr, hcat, c, if_true, (hs i c).1]
    · simp only [restr, hcat, c, if_false, (hs (i - S.nd) (by omega)).2]
      congr 1
      omega) (motion_ode (Minv := Minv) hM hL hm rfl)
  obtain ⟨o, ho⟩ := htot (shootField S Minv Fl (Uw (2 * S.nd))) (2 * Real.pi / Uw (2 * S.nd)) (shootLen S.nd) (shootInit S.nd Uw) Nt fun t y => by
    obtain ⟨d, hd, -⟩ := shootField_ok (Minv := Minv) (Fl := Fl) hS hA (Uw (2 * S.nd)) t y
    exact ⟨d, hd⟩
  have hle := (hivp.sound _ _ _ _ _ _ hT0 hNt ho).1
  have hco : o.cols = Nt + 1 := by
    by_contra hne
    refine hivp.maximal _ _ _ _ _ _ hT0 hNt ho (by omega) ⟨Y, hY.shorten ?_⟩
    have hN : (0:ℝ) < Nt := by exact_mod_cast hNt
    rw [div_le_iff₀ hN, mul_comm]
    exact mul_le_mul_of_nonneg_left (by exact_mod_cast (by omega : o.cols ≤ Nt)) hT0.le
  obtain ⟨r', hr', hrc, -⟩ := shootingRes_of_ivp hS hft hA ho (by omega)
  exact ⟨r', hr', hrc.trans hco⟩

/-- The state of the motion with the coefficients `U` at time zero, with its frequency. -/
def steadyState (n : ℕ) (w : ℝ) (U : ℕ → ℝ) : ℕ → ℝ := fun i => if i < n then U i else if i < 2 * n then w * U i else w

theorem periodic_start {w : ℝ} {U V U' V' : ℕ → ℝ} {u v : ℝ → ℕ → ℝ} {F : (ℕ → ℝ) → ℕ → ℝ} (h : PeriodicMotion S.nd S.M S.C S.K F Fl w U V u v)
    (he : ∀ i < S.nd, U i = U' i ∧ V i = V' i) : PeriodicMotion S.nd S.M S.C S.K F Fl w U' V' u v :=
  ⟨h.velocity, h.motion, h.period, fun i hi => ⟨(h.start i hi).1.trans (he i hi).1, (h.start i hi).2.trans (he i hi).2⟩⟩

theorem steady_zero (hivp : ExactIvp ivp) (hM : IsInv S.nd S.M Minv) (hS : S.forces = [f])
    (hA : ∀ U, f.force U = .ok (A U)) (hL : SmoothLaw S.nd (fun U => (A U).1) (fun U => (A U).2)) (hK : ∀ U, ∀ i < S.nd, ∀ j < S.nd, (A U).2 i j = Kn i j)
    (hf : ∀ U, ∀ i < S.nd, (A U).1 i = ∑ j ∈ range S.nd, Kn i j * U j)
    (hw : 0 < Uw (2 * S.nd)) (hNt : 0 < Nt) (h : shootingRes ivp S Minv Uw (2 * S.nd + 1) Fl Nt = .ok r) {U : ℕ → ℝ} (hU : SteadyMotion (stiffened S Kn) Fl [1] (Uw (2 * S.nd)) U)
    (he : ∀ i < S.nd, Uw i = U i ∧ Uw (S.nd + i) = Uw (2 * S.nd) * U (S.nd + i)) : ∀ i < 2 * S.nd, r.R i = 0 := by
  obtain ⟨u, v, hp⟩ := steady_periodic hf hw hU
  exact (C75_periodic_partial hivp hM hS hA hL hw hNt h (C151_complete hivp hM hS hA hL hK hw hNt h)).2 ⟨u, v, periodic_start hp fun i hi => ⟨(he i hi).1.symm, (he i hi).2.symm⟩⟩

theorem admissible_one : Admissible [1] := ⟨by simp, by simp, by simp⟩

theorem steady_exists (hD : DampedSys S) (hsym : SymmOn S.nd (addStiff S Kn)) {w : ℝ} (hw : 0 < w) : ∃ U, SteadyMotion (stiffened S Kn) Fl [1] w U := by
  have hreg : Regular (numCoeff [1] * (stiffened S Kn).nd) (hsE (stiffened S Kn).nd (stiffened S Kn).M (stiffened S Kn).C (stiffened S Kn).K w [1] false) := by
    refine damped_regular (S := stiffened S Kn) admissible_one hD.massSymm hsym (fun v hv => ?_) (by simp) hw.ne'
    have := hD.damp v hv
    simpa [quadForm, stiffened, mul_assoc, mul_comm, mul_left_comm] using this
  refine ⟨Spec.ext (resp (stiffened S Kn) Fl [1] w), (steady_resp admissible_one rfl hw.ne' hreg _).2 fun j => by simp [Spec.ext]⟩

/-- C151: the residual vanishes exactly at the state of the steady motion, the solution of the harmonic balance equations with the first harmonic. -/
theorem C151_motion (hivp : ExactIvp ivp) (htot : TotalIvp ivp) (hM : IsInv S.nd S.M Minv) (hS : S.forces = [f]) (hft : f.ftype = 0)
    (hA : ∀ U, f.force U = .ok (A U)) (hL : SmoothLaw S.nd (fun U => (A U).1) (fun U => (A U).2)) (hK : ∀ U, ∀ i < S.nd, ∀ j < S.nd, (A U).2 i j = Kn i j)
    (hf : ∀ U, ∀ i < S.nd, (A U).1 i = ∑ j ∈ range S.nd, Kn i j * U j)
    (hD : DampedSys S) (hsym : SymmOn S.nd (addStiff S Kn)) (hpos : PosOn S.nd (addStiff S Kn))
    (hw : 0 < Uw (2 * S.nd)) (hNt : 0 < Nt) (h : shootingRes ivp S Minv Uw (2 * S.nd + 1) Fl Nt = .ok r) :
    (∀ i < 2 * S.nd, r.R i = 0) ↔ ∃ U, SteadyMotion (stiffened S Kn) Fl [1] (Uw (2 * S.nd)) U ∧
      ∀ i < S.nd, Uw i = U i ∧ Uw (S.nd + i) = Uw (2 * S.nd) * U (S.nd + i) := by
  constructor
  · intro h0
    obtain ⟨U, hU⟩ := steady_exists (Fl := Fl) hD hsym hw
    have hXw : steadyState S.nd (Uw (2 * S.nd)) U (2 * S.nd) = Uw (2 * S.nd) := by
      have : ¬ 2 * S.nd < S.nd := by omega
      simp [steadyState, this]
    have hX1 : ∀ i < S.nd, steadyState S.nd (Uw (2 * S.nd)) U i = U i := fun i hi => by simp [steadyState, hi]
    have hX2 : ∀ i < S.nd, steadyState S.nd (Uw (2 * S.nd)) U (S.nd + i) = Uw (2 * S.nd) * U (S.nd + i) := fun i hi => by
      have : S.nd + i < 2 * S.nd := by omega
      simp [steadyState, this]
    obtain ⟨r', hr', -⟩ := C151_returns (Uw := steadyState S.nd (Uw (2 * S.nd)) U) (Fl := Fl) hivp htot hM hS hft hA hL hK (by rw [hXw]; exact hw) hNt
    have hz := steady_zero hivp hM hS hA hL hK hf (by rw [hXw]; exact hw) hNt hr' (by rw [hXw]; exact hU) fun i hi => by
      rw [hXw]
      exact ⟨hX1 i hi, hX2 i hi⟩
    have heq := C151_regular hivp hM hS hA hL hK hD hsym hpos hw hNt h (fun j => steadyState S.nd (Uw (2 * S.nd)) U j - Uw j) fun i hi => by
      have := C151_affine hivp hM hS hA hL hK hw hNt h hXw hr' hi
      rw [hz i hi, h0 i hi, zero_add] at this
      exact this.symm
    refine ⟨U, hU, fun i hi => ⟨?_, ?_⟩⟩
    · rw [← hX1 i hi]
      exact (sub_eq_zero.1 (heq i (by omega))).symm
    · rw [← hX2 i hi]
      exact (sub_eq_zero.1 (heq (S.nd + i) (by omega))).symm
  · rintro ⟨U, hU, he⟩
    exact steady_zero hivp hM hS hA hL hK hf hw hNt h hU he

/-- C151: the Newton solver finds that state from every start in at most two iterations. -/
theorem C151_newton {L : Type} {inf : ℝ} {fac : Matrix (Fin (2 * S.nd)) (Fin (2 * S.nd)) ℝ → L} {sol : L → (Fin (2 * S.nd) → ℝ) → Fin (2 * S.nd) → ℝ}
    (hsol : ExactSolve fac sol) (hivp : ExactIvp ivp) (htot : TotalIvp ivp) (hM : IsInv S.nd S.M Minv) (hS : S.forces = [f]) (hft : f.ftype = 0)
    (hA : ∀ U, f.force U = .ok (A U)) (hL : SmoothLaw S.nd (fun U => (A U).1) (fun U => (A U).2)) (hK : ∀ U, ∀ i < S.nd, ∀ j < S.nd, (A U).2 i j = Kn i j)
    (hf : ∀ U, ∀ i < S.nd, (A U).1 i = ∑ j ∈ range S.nd, Kn i j * U j)
    (hD : DampedSys S) (hsym : SymmOn S.nd (addStiff S Kn)) (hpos : PosOn S.nd (addStiff S Kn))
    (hw : 0 < Uw (2 * S.nd)) (hNt : 0 < Nt) {c : OmpConfig ℝ} (hc : PlainNewton c) (hm : 2 ≤ c.maxSteps) (X0 : Fin (2 * S.nd) → ℝ) (xtol : Option ℝ)
    (ht : 0 < effectiveXtol (realArith (2 * S.nd) inf fac sol) c X0 xtol) :
    ∃ res, nsolveOMP (realArith (2 * S.nd) inf fac sol) c (shootSolve ivp S Minv Uw Fl Nt) X0 xtol = (.ok res, c) ∧ res.success = true ∧ res.trace.length ≤ 2 ∧
      ∃ U, SteadyMotion (stiffened S Kn) Fl [1] (Uw (2 * S.nd)) U ∧
        ∀ i < S.nd, Spec.ext res.X i = U i ∧ Spec.ext res.X (S.nd + i) = Uw (2 * S.nd) * U (S.nd + i) := by
  have hwn : ∀ z, withState (2 * S.nd) Uw z (2 * S.nd) = Uw (2 * S.nd) := fun z => by simp [withState]
  have hall : ∀ z, ∃ r, shootingRes ivp S Minv (withState (2 * S.nd) Uw z) (2 * S.nd + 1) Fl Nt = .ok r := fun z =>
    (C151_returns hivp htot hM hS hft hA hL hK (by rw [hwn]; exact hw) hNt).imp fun _ h => h.1
  choose R hR using hall
  have haff : ∀ z z' : Fin (2 * S.nd) → ℝ, ∀ i : Fin (2 * S.nd), (R z').R i = (R z).R i + ∑ j : Fin (2 * S.nd), (R z).dRdU i j * (z' j - z j) := fun z z' i => by
    have := C151_affine hivp hM hS hA hL hK (by rw [hwn]; exact hw) hNt (hR z) (X := withState (2 * S.nd) Uw z') (by rw [hwn, hwn]) (hR z') i.2
    rw [this, sum_range]
    simp [withState]
  set E : Matrix (Fin (2 * S.nd)) (Fin (2 * S.nd)) ℝ := fun i j => (R 0).dRdU i j with hE
  have hconst : ∀ z, (fun i j : Fin (2 * S.nd) => (R z).dRdU i j) = E := fun z => by
    funext i j
    have h1 := haff z (z + Pi.single j 1) i
    have h2 := haff 0 (z + Pi.single j 1) i
    have h3 := haff 0 z i
    simp only [Pi.add_apply, add_sub_cancel_left, Pi.zero_apply, sub_zero, mul_add, sum_add_distrib, Pi.single_apply, mul_ite, mul_one, mul_zero, sum_ite_eq', mem_univ, if_true] at h1 h2 h3
    rw [hE]
    linarith
  have hval : ∀ z, shootSolve ivp S Minv Uw Fl Nt z true = .ok (E.mulVec z - (fun i : Fin (2 * S.nd) => -(R 0).R i), E) := fun z => by
    unfold shootSolve
    rw [hR z]
    have e1 : (fun i : Fin (2 * S.nd) => (R z).R i) = E.mulVec z - fun i : Fin (2 * S.nd) => -(R 0).R i := funext fun i => by
      rw [haff 0 z i]
      simp only [Pi.zero_apply, sub_zero, Pi.sub_apply, Matrix.mulVec, dotProduct, hE]
      ring
    exact congrArg Except.ok (Prod.ext e1 (hconst z))
  have hdet : IsUnit E.det := isUnit_iff_ne_zero.2 ((regular_iff_det _).1 (C151_regular hivp hM hS hA hL hK hD hsym hpos (by rw [hwn]; exact hw) hNt (hR 0)))
  obtain ⟨res, a1, a2, a3, a4⟩ := C130_affine (inf := inf) hsol hdet hval hc hm X0 xtol ht
  refine ⟨res, a1, a2, a4, ?_⟩
  have h0 : ∀ i < 2 * S.nd, (R res.X).R i = 0 := fun i hi => by
    rw [haff 0 res.X ⟨i, hi⟩]
    have := congrFun a3 ⟨i, hi⟩
    simp only [Matrix.mulVec, dotProduct, hE] at this
    simp only [Pi.zero_apply, sub_zero, this]
    ring
  obtain ⟨U, hU, he⟩ := (C151_motion hivp htot hM hS hft hA hL hK hf hD hsym hpos (by rw [hwn]; exact hw) hNt (hR res.X)).1 h0
  rw [hwn] at hU
  refine ⟨U, hU, fun i hi => ?_⟩
  have := he i hi
  rw [hwn] at this
  have c1 : i < 2 * S.nd := by omega
  have c2 : S.nd + i < 2 * S.nd := by omega
  simpa only [withState, Spec.ext, c1, c2, dif_pos] using this

/-- The oscillator `x'' + x' + x = cos t`: Newton's method on the shooting equations returns position 0 and velocity 1, the start of `sin t`,
from every state. -/
example (X0 : Fin 2 → ℝ) :
    let S : VibSys := ⟨1, fun _ _ => 1, fun _ _ => 1, fun _ _ => 1, none, [cubicNL 1 1 (fun _ _ => 1) (fun _ _ => 1) fun _ => 0]⟩
    ∃ res, nsolveOMP (realArith 2 0 id fun D v => D⁻¹.mulVec v) { lsTol := 0 } (shootSolve exactIvp S (fun _ _ => 1) (fun _ => 1) (fun i => if i = 0 then 1 else 0) 8) X0 (some (1 / 1000))
      = (.ok res, { lsTol := 0 }) ∧ res.success = true ∧ res.X 0 = 0 ∧ res.X 1 = 1 := by
  intro S
  have hM : IsInv S.nd S.M fun _ _ => 1 := fun i hi j hj => by
    obtain rfl : i = 0 := by simpa [S] using hi
    obtain rfl : j = 0 := by simpa [S] using hj
    simp [S]
  have hA : ∀ U, (cubicNL 1 1 (fun _ _ => 1) (fun _ _ => 1) fun _ => 0).force U = .ok (cubicForce 1 1 (fun _ _ => 1) (fun _ _ => 1) (fun _ => 0) U) := fun _ => rfl
  have hL := smoothLaw_cubic 1 1 (fun _ _ => 1) (fun _ _ => 1) fun _ => 0
  have q1 : PosOn 1 fun _ _ => 1 := fun x hx => by
    obtain ⟨i, hi, hne⟩ := hx
    obtain rfl : i = 0 := by omega
    simpa [quadForm] using hne
  have hD : DampedSys S := ⟨fun _ _ _ _ => rfl, q1, fun _ _ _ _ => rfl, q1⟩
  have ek : addStiff S (fun _ _ => 0) = fun _ _ => 1 := by funext i j; simp [addStiff, S]
  obtain ⟨res, a1, a2, -, U, hU, he⟩ := C151_newton (S := S) (Kn := fun _ _ => 0) (Uw := fun _ => 1) (Fl := fun i => if i = 0 then 1 else 0) (Nt := 8) (inf := 0) (c := { lsTol := 0 })
    exactSolve_inv exactIvp_exact exactIvp_total hM rfl rfl hA hL (fun U i _ j _ => by simp [cubicForce, matMul, matVec, diag])
    (fun U i _ => by simp [cubicForce, matVec]) hD (by rw [ek]; exact fun _ _ _ _ => rfl) (by rw [ek]; exact q1) one_pos (by norm_num) ⟨rfl, rfl, rfl⟩ (by decide) X0 (some (1 / 1000))
    (by simp [effectiveXtol])
  refine ⟨res, a1, a2, ?_⟩
  obtain ⟨h0, h1⟩ := he 0 (by simp [S])
  have d1 : ∀ (a b : ℝ), deriv (fun t => a * Real.cos t + b * Real.sin t) = fun t => b * Real.cos t + (-a) * Real.sin t := fun a b => funext fun t => by
    have := ((Real.hasDerivAt_cos t).const_mul a).add ((Real.hasDerivAt_sin t).const_mul b)
    exact (this.congr_deriv (by ring)).deriv
  have e1 : ∀ t, -U 0 * Real.sin t + U 1 * Real.cos t = Real.cos t := fun t => by
    have := hU 0 (by simp [S, stiffened]) t
    simp [stiffened, S, series, addStiff, d1] at this
    linarith
  have f1 := e1 0
  have f2 := e1 (Real.pi / 2)
  simp at f1 f2
  simp [Spec.ext, S, f1, f2] at h0 h1
  exact ⟨h0, h1⟩

end

end TMD
