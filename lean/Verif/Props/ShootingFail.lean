import Verif.Lemmas.ShootFail

/-!
# Property C75, continued: unchecked end of the integration, and an example

`shooting_res` takes the last column `solve_ivp` returned as the state after one period, without looking whether
the integration reached the end of the period.
-/

namespace TMD

open Spec Finset

noncomputable section

/-- A unit mass on a spring with the force `-u³`. -/
def escapeSys : VibSys :=
  ⟨1, fun _ _ => 1, fun _ _ => 0, fun _ _ => 0, none, [cubicNL 1 1 (fun _ _ => 1) (fun _ _ => 1) (fun _ => -1)]⟩

/-- Initial state `u = u' = √2`, frequency `1/Nt`. -/
def escapeUw (Nt : ℕ) : ℕ → ℝ := fun i => if i < 2 then √2 else 1 / Nt

theorem escape_motion {u v : ℝ → ℕ → ℝ} {w : ℝ} {U V : ℕ → ℝ} (hU : U 0 = √2) (hV : V 0 = √2) :
    ¬ PeriodicMotion 1 escapeSys.M escapeSys.C escapeSys.K
      (fun U => (cubicForce 1 1 (fun _ _ => 1) (fun _ _ => 1) (fun _ => -1) U).1) (fun _ => 0) w U V u v := by
  intro h
  refine blow_up (u := fun t => u t 0) (v := fun t => v t 0) (fun t _ => (h.velocity t 0 (by norm_num)).hasDerivWithinAt)
    (fun t _ => ?_) ?_ ?_
  · obtain ⟨acc, h1, h2⟩ := h.motion t
    have h3 := h2 0 (by norm_num)
    simp [escapeSys, cubicForce, matVec] at h3
    exact (h1 0 (by norm_num)).hasDerivWithinAt.congr_deriv (by linarith)
  · rw [(h.start 0 (by norm_num)).1, hU]
  · rw [(h.start 0 (by norm_num)).2, hV]

theorem escape_no_sol {Nt : ℕ} {T : ℝ} (hT : 1 ≤ T) (y : ℝ → ℕ → ℝ) :
    ¬ IsSol (shootLen 1) (shootField escapeSys (fun _ _ => 1) (fun _ => 0) (1 / Nt)) T (shootInit 1 (escapeUw Nt)) y := by
  intro hy
  obtain ⟨h0, h1⟩ := curve_parts (S := escapeSys) rfl (fun _ => rfl) (hy.shorten hT)
  have hc : ∀ t ∈ Set.Icc (0:ℝ) 1, ∀ i : Fin (2 * escapeSys.nd), _ := fun t ht => hasDerivWithinAt_pi.1 (h1 t ht)
  refine blow_up (u := fun t => y t 0) (v := fun t => y t 1) (fun t ht => ?_) (fun t ht => ?_) ?_ ?_
  · refine (hc t ht ⟨0, by simp [escapeSys]⟩).congr_deriv ?_
    rw [Pi.add_apply]
    unfold shA shB
    simp [escapeSys, hcat, sl, Spec.ext, restr]
  · refine (hc t ht ⟨1, by simp [escapeSys]⟩).congr_deriv ?_
    rw [Pi.add_apply]
    unfold shA shB
    simp [escapeSys, hcat, sl, Spec.ext, restr, matVec, cubicForce]
  · exact congrFun h0 ⟨0, by simp [escapeSys]⟩
  · exact congrFun h0 ⟨1, by simp [escapeSys]⟩

/-- The call on the escaping motion, for every `Nt`. -/
theorem escape_call (Nt : ℕ) (hNt : 0 < Nt) :
    ∃ r, shootingRes exactIvp escapeSys (fun _ _ => 1) (escapeUw Nt) 3 (fun _ => 0) Nt = .ok r ∧ r.cols = 1 ∧
      (∀ i < 2, r.R i = 0) ∧ (∀ i < 2, ∀ j < 2, r.monodromy i j = if i = j then 1 else 0) ∧
      r.yt 0 0 = √2 ∧ r.ydot 0 0 = √2 := by
  have hN : (0:ℝ) < Nt := by exact_mod_cast hNt
  have hw : escapeUw Nt 2 = 1 / Nt := by simp [escapeUw]
  have hp := Real.two_le_pi
  obtain ⟨d, hd, -⟩ := shootField_ok (S := escapeSys) (Minv := fun _ _ => 1) (Fl := fun _ => 0) rfl (fun _ => rfl) (1 / Nt) 0
    (shootInit 1 (escapeUw Nt))
  obtain ⟨o, ho, hc, hv⟩ := exactIvp_one (T := 2 * Real.pi / (1 / Nt)) (n := shootLen 1) (Nt := Nt) (by positivity) hNt hd
    (fun y => escape_no_sol (by
      rw [div_div, one_div, inv_mul_cancel₀ hN.ne']
      linarith) y)
  have hlen : shootLen 1 = 8 := rfl
  rw [← hw] at ho
  obtain ⟨r, h1, h2, h3, h4⟩ := shootingRes_of_ivp (S := escapeSys) rfl rfl (fun _ => rfl) ho (by omega)
  obtain ⟨y1, y2⟩ := shootingRes_yt ho h1 0 0
  refine ⟨r, h1, h2.trans hc, ?_, ?_, ?_, ?_⟩
  rotate_left 2
  · rw [y1, hv 0 (by omega)]
    simp [shootInit, hcat, escapeUw]
  · rw [y2]
    show o.y 1 0 = _
    rw [hv 1 (by omega)]
    simp [shootInit, hcat, escapeUw]
  · intro i hi
    rw [h3, hc, hv i (by omega)]
    simp [shootInit, hcat, hi]
  · intro i hi j hj
    rw [h4, hc]
    change o.y (2 + (i * 2 + j)) 0 = _
    rw [hv _ (by omega)]
    interval_cases i <;> interval_cases j <;> simp [shootInit, hcat]

/-- C75 fails without a check of the end of the integration: with an integrator without error and a smooth force,
the residual is zero (for every number of steps) at a state from which no periodic motion starts. -/
theorem C75_violated (Nt : ℕ) (hNt : 0 < Nt) :
    ∃ (ivp : SolveIvp) (S : VibSys) (Minv : ℕ → ℕ → ℝ) (Uw Fl : ℕ → ℝ) (f : NLForce)
      (A : (ℕ → ℝ) → (ℕ → ℝ) × (ℕ → ℕ → ℝ)) (r : ShootRes),
      ExactIvp ivp ∧ 0 < S.nd ∧ IsInv S.nd S.M Minv ∧ S.forces = [f] ∧ (∀ U, f.force U = .ok (A U)) ∧
      SmoothLaw S.nd (fun U => (A U).1) (fun U => (A U).2) ∧ 0 < Uw (2 * S.nd) ∧
      shootingRes ivp S Minv Uw (2 * S.nd + 1) Fl Nt = .ok r ∧ (∀ i < 2 * S.nd, r.R i = 0) ∧
      ¬ ∃ u v, PeriodicMotion S.nd S.M S.C S.K (fun U => (A U).1) Fl (Uw (2 * S.nd))
        (fun i => Uw i) (fun i => Uw (S.nd + i)) u v := by
  obtain ⟨r, h1, -, h2, -⟩ := escape_call Nt hNt
  have hN : (0:ℝ) < Nt := by exact_mod_cast hNt
  refine ⟨exactIvp, escapeSys, fun _ _ => 1, escapeUw Nt, fun _ => 0, _, cubicForce 1 1 (fun _ _ => 1) (fun _ _ => 1) (fun _ => -1), r,
    exactIvp_exact, Nat.one_pos, ?_, rfl, fun _ => rfl, smoothLaw_cubic 1 1 _ _ _, ?_, h1, h2, ?_⟩
  · intro i hi j hj
    obtain rfl : i = 0 := by simpa [escapeSys] using hi
    obtain rfl : j = 0 := by simpa [escapeSys] using hj
    simp [escapeSys]
  · simp [escapeUw, escapeSys, hN]
  · rintro ⟨u, v, h⟩
    exact escape_motion (by simp [escapeUw]) (by simp [escapeUw, escapeSys]) h

/-! ## Example: a mass on two springs, forced by `cos(w t)` -/

/-- Linear spring of stiffness one as a nonlinear force object. -/
def springNL : NLForce where
  ftype := 0
  force U := .ok (fun i => if i = 0 then U 0 else 0, fun i j => if i = 0 ∧ j = 0 then 1 else 0)
  aft _ _ _ _ _ := .error .assertion
  aftNoGrad _ _ _ _ _ := .error .assertion

def exSys : VibSys := ⟨1, fun _ _ => 1, fun _ _ => 1, fun _ _ => 0, none, [springNL]⟩

/-- Forcing `cos(w t)`. -/
def exFl : ℕ → ℝ := fun i => if i = 0 then 1 else 0

/-- The solution of the shooting equations from the state `(a, b)` at the frequency `w`. -/
def exCurve (a b w t : ℝ) : ℕ → ℝ
  | 0 => Real.cos (w * t) / (2 - w^2) + (a - 1 / (2 - w^2)) * Real.cos (√2 * t) + b / √2 * Real.sin (√2 * t)
  | 1 => -(w * Real.sin (w * t) / (2 - w^2)) - (a - 1 / (2 - w^2)) * (√2 * Real.sin (√2 * t)) + b * Real.cos (√2 * t)
  | 2 => Real.cos (√2 * t)
  | 3 => Real.sin (√2 * t) / √2
  | 4 => -(√2 * Real.sin (√2 * t))
  | 5 => Real.cos (√2 * t)
  | 6 => -(t * Real.sin (w * t) / (2 - w^2)) + 2 * w / (2 - w^2)^2 * (Real.cos (w * t) - Real.cos (√2 * t))
  | 7 => -((Real.sin (w * t) + w * t * Real.cos (w * t)) / (2 - w^2))
      + 2 * w / (2 - w^2)^2 * (-(w * Real.sin (w * t)) + √2 * Real.sin (√2 * t))
  | _ => 0

theorem springNL_smooth : SmoothLaw 1 (fun U i => if i = 0 then U 0 else 0)
    (fun _ i j => if i = 0 ∧ j = 0 then 1 else 0) := by
  refine ⟨fun a b h => ?_, fun _ _ _ => rfl, fun x => ?_, fun _ _ _ _ => continuous_const⟩
  · funext i; simp only [h 0 (by norm_num)]
  · intro i hi
    obtain rfl : i = 0 := by omega
    simp only [true_and, if_true]
    exact HasGrad.coord 0

theorem exCurve_sol (Uw : ℕ → ℝ) (w T : ℝ) (hw : w^2 ≠ 2) :
    IsSol (shootLen exSys.nd) (shootField exSys (fun _ _ => 1) exFl w) T (shootInit exSys.nd Uw) (exCurve (Uw 0) (Uw 1) w) := by
  have hs : √2 * √2 = 2 := Real.mul_self_sqrt (by norm_num)
  have hs0 : √2 ≠ 0 := by positivity
  have hw' : 2 - w^2 ≠ 0 := fun h => hw (by linarith)
  constructor
  · intro i hi
    have hi : i < 8 := hi
    interval_cases i <;> simp [exCurve, shootInit, hcat, exSys]
  · intro t _
    obtain ⟨d, h1, h2, h3, h4⟩ := shootField_ok (S := exSys) (Minv := fun _ _ => 1) (Fl := exFl)
      (A := fun U => (fun i => if i = 0 then U 0 else 0, fun i j => if i = 0 ∧ j = 0 then 1 else 0)) rfl (fun _ => rfl) w t (exCurve (Uw 0) (Uw 1) w t)
    have d0 := congrFun h2 ⟨0, by simp [exSys]⟩
    have d1 := congrFun h2 ⟨1, by simp [exSys]⟩
    have d2 := h3 0 (by simp [exSys]) 0 (by simp [exSys])
    have d3 := h3 0 (by simp [exSys]) 1 (by simp [exSys])
    have d4 := h3 1 (by simp [exSys]) 0 (by simp [exSys])
    have d5 := h3 1 (by simp [exSys]) 1 (by simp [exSys])
    have d6 := h4 ⟨0, by simp [exSys]⟩
    have d7 := h4 ⟨1, by simp [exSys]⟩
    rw [Pi.add_apply] at d0 d1
    unfold shA shB at d0 d1
    unfold shDg at d2 d3 d4 d5
    unfold shDg shB' at d6 d7
    simp [exSys, hcat, sl, Spec.ext, restr, matVec, matMul, exFl, Finset.sum_range_succ, exCurve] at d0 d1 d2 d3 d4 d5 d6 d7
    have hcard : #({x ∈ ({0} : Finset ℕ) | x = 0}) = 1 := rfl
    rw [hcard, Nat.cast_one] at d4 d5 d7
    refine ⟨d, h1, fun i hi => HasDerivAt.hasDerivWithinAt ?_⟩
    have hi : i < 8 := hi
    have lin : ∀ c : ℝ, HasDerivAt (fun t : ℝ => c * t) c t := fun c => by simpa using (hasDerivAt_id t).const_mul c
    have c1 : HasDerivAt (fun t => Real.cos (w * t)) _ t := (lin w).cos
    have s1 : HasDerivAt (fun t => Real.sin (w * t)) _ t := (lin w).sin
    have c2 : HasDerivAt (fun t => Real.cos (√2 * t)) _ t := (lin √2).cos
    have s2 : HasDerivAt (fun t => Real.sin (√2 * t)) _ t := (lin √2).sin
    interval_cases i
    · refine (((c1.div_const _).add (c2.const_mul _)).add (s2.const_mul _)).congr_deriv ?_
      rw [d0]
      field_simp
      ring
    · refine (((((s1.const_mul w).div_const (2 - w^2)).neg).sub ((s2.const_mul √2).const_mul (Uw 0 - 1 / (2 - w^2)))).add (c2.const_mul (Uw 1))).congr_deriv ?_
      rw [d1]
      generalize Real.cos (√2 * t) = c
      generalize Real.sin (√2 * t) = s
      field_simp
      linear_combination ((w^2 - 2) * Uw 1 * s + √2 * c * (w^2 * Uw 0 - 2 * Uw 0 + 1)) * hs
    · refine c2.congr_deriv ?_
      rw [d2]
      ring
    · refine (s2.div_const _).congr_deriv ?_
      rw [d3]
      field_simp
    · refine (s2.const_mul _).neg.congr_deriv ?_
      rw [d4]
      linear_combination (-Real.cos (√2 * t)) * hs
    · refine c2.congr_deriv ?_
      rw [d5]
      field_simp
      linear_combination (-Real.sin (√2 * t)) * hs
    · refine ((((hasDerivAt_id t).mul s1).div_const _).neg.add ((c1.sub c2).const_mul _)).congr_deriv ?_
      rw [d6]
      simp only [id]
      field_simp
      ring
    · refine (((s1.add (((lin w).mul c1))).div_const (2 - w^2)).neg.add (((s1.const_mul w).neg.add (s2.const_mul √2)).const_mul (2 * w / (2 - w^2)^2))).congr_deriv ?_
      rw [d7]
      generalize Real.cos (√2 * t) = c
      field_simp
      linear_combination (w * c * 2) * hs

theorem exCall (Uw : ℕ → ℝ) (Nt : ℕ) (hNt : 0 < Nt) (hw : 0 < Uw 2) (hw2 : Uw 2 ^ 2 ≠ 2) :
    ∃ r, shootingRes exactIvp exSys (fun _ _ => 1) Uw 3 exFl Nt = .ok r ∧ r.cols = Nt + 1 := by
  obtain ⟨o, ho, hc⟩ := exactIvp_full (Nt := Nt) (T := 2 * Real.pi / Uw 2) (by have := Real.pi_pos; positivity) hNt
    (exCurve_sol Uw (Uw 2) (2 * Real.pi / Uw 2) hw2)
  obtain ⟨r, h1, h2, -⟩ := shootingRes_of_ivp (S := exSys) rfl rfl (fun _ => rfl) ho (by omega)
  exact ⟨r, h1, h2.trans hc⟩

theorem exInv : IsInv exSys.nd exSys.M (fun _ _ => 1) := by
  intro i hi j hj
  obtain rfl : i = 0 := by simpa [exSys] using hi
  obtain rfl : j = 0 := by simpa [exSys] using hj
  simp [exSys]

/-- Start of the motion `u = cos t`. -/
def exUw : ℕ → ℝ := fun i => if i = 1 then 0 else 1

/-- Example: `cos t` is a motion of the forced system, so the residual of its initial state vanishes. -/
example (Nt : ℕ) (hNt : 0 < Nt) :
    ∃ r, shootingRes exactIvp exSys (fun _ _ => 1) exUw 3 exFl Nt = .ok r ∧ r.cols = Nt + 1 ∧ ∀ i < 2, r.R i = 0 := by
  obtain ⟨r, h1, h2⟩ := exCall exUw Nt hNt (by simp [exUw]) (by simp [exUw])
  refine ⟨r, h1, h2, ?_⟩
  refine (C75_periodic_partial (S := exSys) exactIvp_exact exInv rfl (fun _ => rfl) springNL_smooth (by simp [exSys, exUw]) hNt h1 h2).2
    ⟨fun t _ => Real.cos t, fun t _ => -Real.sin t, fun t _ _ => Real.hasDerivAt_cos t, fun t => ⟨fun _ => -Real.cos t,
      fun _ _ => (Real.hasDerivAt_sin t).neg, fun i hi => ?_⟩, fun t i hi => ?_, fun i hi => ?_⟩
  · obtain rfl : i = 0 := by simpa [exSys] using hi
    simp [exSys, exFl, exUw]
  · simp [exSys, exUw]
  · obtain rfl : i = 0 := by simpa [exSys] using hi
    simp [exSys, exUw]

/-- Example: the Jacobian at this state. -/
example (Nt : ℕ) (hNt : 0 < Nt) :
    ∃ res : (ℕ → ℝ) → ShootRes, shootingRes exactIvp exSys (fun _ _ => 1) exUw 3 exFl Nt = .ok (res exUw) ∧
      HasJac 2 3 (fun X => (res X).R) (fun i j => if j < 2 then (res exUw).dRdU i j else (res exUw).dRdw i) exUw := by
  have : ∀ X : ℕ → ℝ, ∃ r, (∀ i < 3, |X i - exUw i| < 1 / 4) →
      shootingRes exactIvp exSys (fun _ _ => 1) X 3 exFl Nt = .ok r ∧ r.cols = Nt + 1 := by
    intro X
    by_cases h : ∀ i < 3, |X i - exUw i| < 1 / 4
    · have h2 := abs_lt.1 (h 2 (by norm_num))
      simp only [exUw, show (2:ℕ) ≠ 1 by norm_num, if_false] at h2
      obtain ⟨r, hr⟩ := exCall X Nt hNt (by linarith) (by nlinarith)
      exact ⟨r, fun _ => hr⟩
    · exact ⟨⟨fun _ => 0, fun _ _ => 0, fun _ => 0, fun _ _ => 0, fun _ _ => 0, fun _ _ => 0, 0⟩, fun h' => absurd h' h⟩
  choose res hres using this
  refine ⟨res, (hres exUw (by intro i _; norm_num)).1, ?_⟩
  exact C75_jacobian (S := exSys) exactIvp_exact rfl (fun _ => rfl) springNL_smooth (by simp [exSys, exUw]) hNt res (1 / 4) (by norm_num) hres

end

end TMD
