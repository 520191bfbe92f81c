import Verif.Lemmas.ReturnMap
import Verif.Props.ShootingFail

/-!
# Property C88: stability of shooting solutions (`time_stability`)

The returned number is the largest absolute value of an eigenvalue of the monodromy matrix, and if it is below one
nearby motions approach the periodic motion. The flag `stable` is also set if it equals one, see `C88_violated`.
-/

namespace TMD

open Spec Finset

noncomputable section

variable {ivp : SolveIvp} {S : VibSys} {Minv : ℕ → ℕ → ℝ} {Uw Fl : ℕ → ℝ} {Nt len : ℕ}
  {A : (ℕ → ℝ) → (ℕ → ℝ) × (ℕ → ℕ → ℝ)} {f : NLForce} {eigAbs : ℕ → (ℕ → ℕ → ℝ) → ℕ → ℝ}
  {y yd : ℕ → ℕ → ℝ} {st : Prop} {m : ℝ}

theorem timeStability_ok (h : timeStability ivp eigAbs S Minv Uw len Fl Nt = .ok (y, yd, st, m)) :
    ∃ r, shootingRes ivp S Minv Uw len Fl Nt = .ok r ∧ (r.cols = Nt + 1 ∨ r.cols = 1) ∧
      (∀ i < 2 * S.nd, eigAbs (2 * S.nd) r.monodromy i ≤ m) ∧ (∃ i < 2 * S.nd, eigAbs (2 * S.nd) r.monodromy i = m) ∧
      (st ↔ m ≤ 1) ∧ (y = fun i k => r.yt i (if r.cols = 1 then 0 else k)) ∧
      yd = fun i k => r.ydot i (if r.cols = 1 then 0 else k) := by
  unfold timeStability at h
  split at h
  · cases h
  · rename_i r hr
    split at h
    · cases h
    · rename_i hc
      simp only at h
      split at h
      · rename_i hne
        injection h with h
        simp only [Prod.mk.injEq] at h
        obtain ⟨h1, h2, h3, h4⟩ := h
        refine ⟨r, hr, by omega, ?_, ?_, ?_, h1.symm, h2.symm⟩
        · intro i hi
          rw [← h4]
          exact Finset.le_sup' _ (mem_range.2 hi)
        · obtain ⟨i, hi, he⟩ := Finset.exists_mem_eq_sup' hne (eigAbs (2 * S.nd) r.monodromy)
          exact ⟨i, mem_range.1 hi, by rw [← h4, he]⟩
        · rw [← h3, ← h4]
      · cases h

/-- C88: the returned number is the largest absolute value of an eigenvalue of the returned monodromy matrix, and
the flag compares it with one. -/
theorem C88_max (he : EigAbs eigAbs) (h : timeStability ivp eigAbs S Minv Uw len Fl Nt = .ok (y, yd, st, m)) :
    ∃ r, shootingRes ivp S Minv Uw len Fl Nt = .ok r ∧ (∃ l, Eigen (2 * S.nd) r.monodromy l ∧ ‖l‖ = m) ∧
      (∀ l, Eigen (2 * S.nd) r.monodromy l → ‖l‖ ≤ m) ∧
      (st ↔ ∀ l, Eigen (2 * S.nd) r.monodromy l → ‖l‖ ≤ 1) := by
  obtain ⟨r, h1, -, h2, ⟨i, hi, h3⟩, h4, -⟩ := timeStability_ok h
  obtain ⟨g1, g2⟩ := he (2 * S.nd) r.monodromy
  obtain ⟨l, hl, hl2⟩ := g1 i hi
  have hmax : ∀ l, Eigen (2 * S.nd) r.monodromy l → ‖l‖ ≤ m := by
    intro l hl
    obtain ⟨j, hj, e⟩ := g2 l hl
    rw [e]; exact h2 j hj
  refine ⟨r, h1, ⟨l, hl, hl2.trans h3⟩, hmax, ?_⟩
  rw [h4]
  exact ⟨fun hm l hl => (hmax l hl).trans hm, fun hm => by rw [← h3, ← hl2]; exact hm l hl⟩

/-- C88: with a complete integration the returned series are the displacements and velocities of the motion that
starts in the given state, at the `Nt + 1` times. -/
theorem C88_series (hivp : ExactIvp ivp) (hM : IsInv S.nd S.M Minv) (hS : S.forces = [f])
    (hA : ∀ U, f.force U = .ok (A U)) (hL : SmoothLaw S.nd (fun U => (A U).1) (fun U => (A U).2))
    (hw : 0 < Uw (2 * S.nd)) (hNt : 0 < Nt)
    (h : timeStability ivp eigAbs S Minv Uw (2 * S.nd + 1) Fl Nt = .ok (y, yd, st, m))
    {r : ShootRes} (hr : shootingRes ivp S Minv Uw (2 * S.nd + 1) Fl Nt = .ok r) (hc : r.cols = Nt + 1) :
    ∃ u v, Motion S.nd S.M S.C S.K (fun U => (A U).1) Fl (Uw (2 * S.nd)) (Set.Icc 0 (2 * Real.pi / Uw (2 * S.nd))) u v ∧
      (∀ i < S.nd, u 0 i = Uw i ∧ v 0 i = Uw (S.nd + i)) ∧
      ∀ k ≤ Nt, ∀ i < S.nd, y i k = u (k * (2 * Real.pi / Uw (2 * S.nd)) / Nt) i ∧
        yd i k = v (k * (2 * Real.pi / Uw (2 * S.nd)) / Nt) i := by
  obtain ⟨r', hr', -, -, -, -, hy1, hy2⟩ := timeStability_ok h
  rw [hr] at hr'
  cases hr'
  obtain ⟨-, o, Yd, h1, -, -, hro⟩ := shootingRes_ok hr
  rw [Nat.add_sub_cancel] at h1
  have hco : o.cols = Nt + 1 := by rw [hro] at hc; exact hc
  have hN : (Nt : ℝ) ≠ 0 := by exact_mod_cast hNt.ne'
  have hT0 : 0 < 2 * Real.pi / Uw (2 * S.nd) := by have := Real.pi_pos; positivity
  obtain ⟨-, hs⟩ := hivp.sound _ _ _ _ _ _ hT0 hNt h1
  obtain ⟨Y, hY, hval⟩ := hs (by omega)
  rw [hco, Nat.add_sub_cancel, mul_div_assoc, mul_div_cancel₀ _ hN] at hY
  obtain ⟨hz0, hz⟩ := curve_parts hS hA hY
  refine ⟨Y, fun t i => Y t (S.nd + i), ode_motion hM hL hz, ?_, ?_⟩
  · intro i hi
    exact ⟨congrFun hz0 ⟨i, by omega⟩, congrFun hz0 ⟨S.nd + i, by omega⟩⟩
  · intro k hk i hi
    have hlen : ∀ i < 2 * S.nd, i < shootLen S.nd := fun i hi => by unfold shootLen; omega
    rw [hy1, hy2]
    beta_reduce
    rw [if_neg (by omega), hro]
    exact ⟨hval k (by omega) i (hlen _ (by omega)), hval k (by omega) _ (hlen _ (by omega))⟩

/-- C88: if the returned number is below one and the state belongs to a periodic motion, nearby motions approach it
geometrically. (`C88_violated`: the flag `stable` is not enough.) The calls near the state have to reach the end of
the period. -/
theorem C88_stable_partial (hivp : ExactIvp ivp) (he : EigAbs eigAbs) (hM : IsInv S.nd S.M Minv) (hS : S.forces = [f])
    (hA : ∀ U, f.force U = .ok (A U)) (hL : SmoothLaw S.nd (fun U => (A U).1) (fun U => (A U).2))
    (hw : 0 < Uw (2 * S.nd)) (hNt : 0 < Nt) (res : (ℕ → ℝ) → ShootRes) (δ : ℝ) (hδ : 0 < δ)
    (h : ∀ X, (∀ i < 2 * S.nd + 1, |X i - Uw i| < δ) →
      shootingRes ivp S Minv X (2 * S.nd + 1) Fl Nt = .ok (res X) ∧ (res X).cols = Nt + 1)
    (hR : ∀ i < 2 * S.nd, (res Uw).R i = 0)
    (hts : timeStability ivp eigAbs S Minv Uw (2 * S.nd + 1) Fl Nt = .ok (y, yd, st, m)) (hm : m < 1) :
    Attracting S.nd S.M S.C S.K (fun U => (A U).1) Fl (Uw (2 * S.nd)) (fun i => Uw i) (fun i => Uw (S.nd + i)) := by
  have hU := (h Uw (by simp [hδ])).1
  obtain ⟨r, hr, -, hmax, -⟩ := C88_max he hts
  rw [hU] at hr
  cases hr
  have hder := period_deriv hivp hS hA hL hw hNt res δ hδ h
  set n := 2 * S.nd with hn
  set w := Uw n with hwd
  set T := 2 * Real.pi / w with hT
  have hT0 : 0 < T := by have := Real.pi_pos; positivity
  have hwT : w * T = 2 * Real.pi := by rw [hT]; field_simp
  set P : (Fin n → ℝ) → (Fin n → ℝ) := fun z => restr n (res (withState n Uw z)).R + z with hP
  set x0 := restr n Uw with hx0
  have hfix : P x0 = x0 := by
    funext i
    simp only [hP, hx0, withState_self, restr, Pi.add_apply, hR i i.2, zero_add]
  obtain ⟨N, hN, hpow⟩ := pow_small (Matrix.of fun i j : Fin n => (res Uw).monodromy i j) (fun l hl =>
    (hmax l (eigen_matrix hl)).trans_lt hm)
  obtain ⟨B, ρ, δ', hδ', hB, hρ0, hρ1, hatt⟩ := attract hfix hder hN (by
    refine (ContinuousLinearMap.opNorm_le_bound _ (by norm_num : (0:ℝ) ≤ 1 / 4) fun v => ?_).trans_lt (by norm_num)
    rw [clm_pow]
    exact hpow v)
  refine ⟨B, ρ, min δ' (δ / (B + 1)), lt_min hδ' (by positivity), hρ0, hρ1, fun u v hmo e he0 heδ hstart => ?_⟩
  set q : ℝ → Fin n → ℝ := fun t => restr n (hcat S.nd (u t) (v t)) with hq
  have hode := motion_ode hM hL hmo (q := q) rfl
  have hdist : ‖q 0 - x0‖ ≤ e := by
    rw [pi_norm_le_iff_of_nonneg he0]
    intro i
    by_cases c : (i : ℕ) < S.nd
    · simpa [hq, hx0, restr, hcat, c] using (hstart i c).1
    · have c2 : (i : ℕ) - S.nd < S.nd := by omega
      have := (hstart _ c2).2
      beta_reduce at this
      rw [show S.nd + ((i : ℕ) - S.nd) = i by omega] at this
      simpa [hq, hx0, restr, hcat, c] using this
  have hbound : ∀ k, ‖P^[k] (q 0) - x0‖ ≤ B * ρ ^ k * e := fun k =>
    (hatt _ (hdist.trans_lt (heδ.trans_le (min_le_left _ _))) k).trans (by gcongr)
  have hbound' : ∀ k, ‖P^[k] (q 0) - x0‖ < δ := by
    intro k
    refine (hbound k).trans_lt ?_
    have h1 : B * ρ ^ k * e ≤ B * e := by
      have : ρ ^ k ≤ 1 := pow_le_one₀ hρ0 hρ1.le
      nlinarith [mul_nonneg hB.le he0]
    have h2 : e < δ / (B + 1) := heδ.trans_le (min_le_right _ _)
    rw [lt_div_iff₀ (by positivity)] at h2
    nlinarith
  have hiter : ∀ k : ℕ, q (k * T) = P^[k] (q 0) := by
    intro k
    induction k with
    | zero => simp
    | succ k ih =>
      rw [Function.iterate_succ_apply', ← ih]
      have hclose : ∀ i < n + 1, |withState n Uw (q (k * T)) i - Uw i| < δ := by
        intro i hi
        by_cases c : i < n
        · have := (norm_le_pi_norm (q (k * T) - x0) ⟨i, c⟩).trans_lt (by rw [ih]; exact hbound' k)
          simpa [withState, c, hx0, restr] using this
        · simpa [withState, c] using hδ
      obtain ⟨g1, g2⟩ := h _ hclose
      have hww : withState n Uw (q (k * T)) (2 * S.nd) = w := by simp [withState, hwd, hn]
      have hk0 : 0 ≤ (k : ℝ) * T := by positivity
      have hstep := period_step (Uw := withState n Uw (q (k * T))) (q := fun t => q (k * T + t)) hivp hS hA hL
        (by rw [hww]; exact hw) hNt g1 g2 (by
          rw [hww, ← hT]
          intro t ht
          have h1 := hode (k * T + t) (by simp only [Set.mem_Ici]; linarith [ht.1])
          have h2 : HasDerivWithinAt (fun t : ℝ => (k : ℝ) * T + t) 1 (Set.Icc 0 T) t :=
            ((hasDerivAt_id t).const_add _).hasDerivWithinAt
          have h3 := HasDerivWithinAt.scomp (h := fun t : ℝ => (k : ℝ) * T + t) t h1 h2 (fun s hs => by
            simp only [Set.mem_Ici]; linarith [hs.1])
          rw [one_smul] at h3
          refine h3.congr_deriv ?_
          congr 1
          have : w * (k * T + t) = w * t - ((-(k : ℤ) : ℤ) : ℝ) * (2 * Real.pi) := by
            rw [← hwT]; push_cast; ring
          rw [this, shB_int]) (by simp only [add_zero]; exact (restr_withState n Uw _).symm)
      have hrw : restr (2 * S.nd) (withState n Uw (q (k * T))) = q (k * T) := restr_withState n Uw _
      rw [hww, ← hT, hrw] at hstep
      have e1 : ((k + 1 : ℕ) : ℝ) * T = k * T + T := by push_cast; ring
      rw [e1]
      exact hstep
  intro k i hi
  have hk := hbound k
  rw [← hiter, pi_norm_le_iff_of_nonneg (by positivity)] at hk
  constructor
  · have := hk ⟨i, by omega⟩
    simpa [hq, hx0, restr, hcat, hi] using this
  · have := hk ⟨S.nd + i, by omega⟩
    simpa [hq, hx0, restr, hcat] using this

/-! ## The flag at the value one -/

/-- A free unit mass. -/
def driftSys : VibSys :=
  ⟨1, fun _ _ => 1, fun _ _ => 0, fun _ _ => 0, none, [cubicNL 1 1 (fun _ _ => 1) (fun _ _ => 1) (fun _ => 0)]⟩

/-- At rest, frequency one. -/
def driftUw : ℕ → ℝ := fun i => if i < 2 then 0 else 1

/-- The solution of the shooting equations: the mass moves with constant velocity. -/
def driftCurve (a b t : ℝ) : ℕ → ℝ
  | 0 => a + b * t
  | 1 => b
  | 2 => 1
  | 3 => t
  | 5 => 1
  | _ => 0

theorem driftCurve_sol (Uw : ℕ → ℝ) (w T : ℝ) :
    IsSol (shootLen driftSys.nd) (shootField driftSys (fun _ _ => 1) (fun _ => 0) w) T (shootInit driftSys.nd Uw)
      (driftCurve (Uw 0) (Uw 1)) := by
  constructor
  · intro i hi
    have hi : i < 8 := hi
    interval_cases i <;> simp [driftCurve, shootInit, hcat, driftSys]
  · intro t _
    obtain ⟨d, h1, h2, h3, h4⟩ := shootField_ok (S := driftSys) (Minv := fun _ _ => 1) (Fl := fun _ => 0)
      (A := cubicForce 1 1 (fun _ _ => 1) (fun _ _ => 1) (fun _ => 0)) rfl (fun _ => rfl) w t (driftCurve (Uw 0) (Uw 1) t)
    have d0 := congrFun h2 ⟨0, by simp [driftSys]⟩
    have d1 := congrFun h2 ⟨1, by simp [driftSys]⟩
    have d2 := h3 0 (by simp [driftSys]) 0 (by simp [driftSys])
    have d3 := h3 0 (by simp [driftSys]) 1 (by simp [driftSys])
    have d4 := h3 1 (by simp [driftSys]) 0 (by simp [driftSys])
    have d5 := h3 1 (by simp [driftSys]) 1 (by simp [driftSys])
    have d6 := h4 ⟨0, by simp [driftSys]⟩
    have d7 := h4 ⟨1, by simp [driftSys]⟩
    rw [Pi.add_apply] at d0 d1
    unfold shA shB at d0 d1
    unfold shDg at d2 d3 d4 d5
    unfold shDg shB' at d6 d7
    simp [driftSys, hcat, sl, Spec.ext, restr, matVec, matMul, diag, Finset.sum_range_succ, driftCurve, cubicForce] at d0 d1 d2 d3 d4 d5 d6 d7
    refine ⟨d, h1, fun i hi => HasDerivAt.hasDerivWithinAt ?_⟩
    have hi : i < 8 := hi
    interval_cases i
    · rw [d0]
      exact (((hasDerivAt_id t).const_mul (Uw 1)).const_add (Uw 0)).congr_deriv (mul_one _)
    · rw [d1]; exact hasDerivAt_const _ _
    · rw [d2]; exact hasDerivAt_const _ _
    · rw [d3]; exact hasDerivAt_id t
    · rw [d4]; exact hasDerivAt_const _ _
    · rw [d5]; exact hasDerivAt_const _ _
    · rw [d6]; exact hasDerivAt_const _ _
    · rw [d7]; exact hasDerivAt_const _ _

/-- The lower row of the monodromy matrix and its first entry. -/
theorem drift_monodromy {r : ShootRes} {Nt : ℕ} (hNt : 0 < Nt)
    (h : shootingRes exactIvp driftSys (fun _ _ => 1) driftUw 3 (fun _ => 0) Nt = .ok r) (hc : r.cols = Nt + 1) :
    r.monodromy 0 0 = 1 ∧ r.monodromy 1 0 = 0 ∧ r.monodromy 1 1 = 1 := by
  have hw : (0:ℝ) < driftUw (2 * driftSys.nd) := by simp [driftUw, driftSys]
  obtain ⟨y, hy, -, hU, -⟩ := shoot_curve (S := driftSys) exactIvp_exact rfl (fun _ => rfl) hw hNt h hc
  set T := 2 * Real.pi / driftUw (2 * driftSys.nd) with hT
  have hT0 : 0 < T := by have := Real.pi_pos; positivity
  have hfield : ∀ t ∈ Set.Icc 0 T, HasDerivWithinAt (fun t => y t 2) (y t 4) (Set.Icc 0 T) t ∧
      HasDerivWithinAt (fun t => y t 4) 0 (Set.Icc 0 T) t ∧ HasDerivWithinAt (fun t => y t 5) 0 (Set.Icc 0 T) t := by
    intro t ht
    obtain ⟨d, h1, h2⟩ := hy.2 t ht
    obtain ⟨d', h1', -, h3, -⟩ := shootField_ok (S := driftSys) (Minv := fun _ _ => 1) (Fl := fun _ => 0)
      (A := cubicForce 1 1 (fun _ _ => 1) (fun _ _ => 1) (fun _ => 0)) rfl (fun _ => rfl) (driftUw (2 * driftSys.nd)) t (y t)
    rw [h1] at h1'
    cases h1'
    have d2 := h3 0 (by simp [driftSys]) 0 (by simp [driftSys])
    have d4 := h3 1 (by simp [driftSys]) 0 (by simp [driftSys])
    have d5 := h3 1 (by simp [driftSys]) 1 (by simp [driftSys])
    unfold shDg at d2 d4 d5
    simp [driftSys, matVec, matMul, diag, Finset.sum_range_succ, cubicForce] at d2 d4 d5
    have hl : shootLen driftSys.nd = 8 := rfl
    exact ⟨d2 ▸ h2 2 (by omega), d4 ▸ h2 4 (by omega), d5 ▸ h2 5 (by omega)⟩
  have hconst : ∀ g : ℝ → ℝ, (∀ t ∈ Set.Icc 0 T, HasDerivWithinAt g 0 (Set.Icc 0 T) t) → ∀ t ∈ Set.Icc 0 T, g t = g 0 := by
    intro g hg
    refine constant_of_has_deriv_right_zero (fun t ht => (hg t ht).continuousWithinAt) fun t ht => ?_
    exact ((hg t (Set.Ico_subset_Icc_self ht)).mono (Set.Icc_subset_Icc_left ht.1)).mono_of_mem_nhdsWithin (Icc_mem_nhdsGE ht.2)
  have i2 : y 0 2 = 1 := by rw [hy.1 2 (by decide)]; simp [shootInit, hcat, driftSys]
  have i4 : y 0 4 = 0 := by rw [hy.1 4 (by decide)]; simp [shootInit, hcat, driftSys]
  have i5 : y 0 5 = 1 := by rw [hy.1 5 (by decide)]; simp [shootInit, hcat, driftSys]
  have c4 := hconst (fun t => y t 4) fun t ht => (hfield t ht).2.1
  have c5 := hconst (fun t => y t 5) fun t ht => (hfield t ht).2.2
  have c2 := hconst (fun t => y t 2) fun t ht => by
    have := (hfield t ht).1
    rw [c4 t ht, i4] at this
    exact this
  have hTm : T ∈ Set.Icc 0 T := ⟨hT0.le, le_rfl⟩
  have e0 := hU 0 (by simp [driftSys]) 0 (by simp [driftSys])
  have e1 := hU 1 (by simp [driftSys]) 0 (by simp [driftSys])
  have e2 := hU 1 (by simp [driftSys]) 1 (by simp [driftSys])
  simp only [driftSys] at e0 e1 e2
  rw [monodromy_eq h, monodromy_eq h, monodromy_eq h, e0, e1, e2]
  simp only [sub_add_cancel]
  exact ⟨(c2 T hTm).trans i2, (c4 T hTm).trans i4, (c5 T hTm).trans i5⟩

/-- C88 fails at the value one: a free mass at rest is reported as stable, although a motion of it leaves every
bound, however small its initial velocity is. The integration has no error and reaches the end of the period. -/
theorem C88_violated (Nt : ℕ) (hNt : 0 < Nt) (he : EigAbs eigAbs) :
    ∃ (S : VibSys) (Minv : ℕ → ℕ → ℝ) (Uw Fl : ℕ → ℝ) (f : NLForce) (A : (ℕ → ℝ) → (ℕ → ℝ) × (ℕ → ℕ → ℝ)) (r : ShootRes)
      (y yd : ℕ → ℕ → ℝ) (st : Prop) (m : ℝ),
      0 < S.nd ∧ IsInv S.nd S.M Minv ∧ S.forces = [f] ∧ (∀ U, f.force U = .ok (A U)) ∧
      SmoothLaw S.nd (fun U => (A U).1) (fun U => (A U).2) ∧ 0 < Uw (2 * S.nd) ∧
      shootingRes exactIvp S Minv Uw (2 * S.nd + 1) Fl Nt = .ok r ∧ r.cols = Nt + 1 ∧ (∀ i < 2 * S.nd, r.R i = 0) ∧
      timeStability exactIvp eigAbs S Minv Uw (2 * S.nd + 1) Fl Nt = .ok (y, yd, st, m) ∧ st ∧ m = 1 ∧
      ∀ ε > 0, ∃ u v, Motion S.nd S.M S.C S.K (fun U => (A U).1) Fl (Uw (2 * S.nd)) (Set.Ici 0) u v ∧
        (∀ i < S.nd, |u 0 i - Uw i| ≤ ε ∧ |v 0 i - Uw (S.nd + i)| ≤ ε) ∧ ∀ B, ∃ n : ℕ, B < u (n * (2 * Real.pi / Uw (2 * S.nd))) 0 := by
  obtain ⟨o, ho, hco⟩ := exactIvp_full (Nt := Nt) (T := 2 * Real.pi / driftUw 2) (by have := Real.pi_pos; simp [driftUw, this]) hNt
    (driftCurve_sol driftUw (driftUw 2) (2 * Real.pi / driftUw 2))
  obtain ⟨r, hr, hrc, -⟩ := shootingRes_of_ivp (S := driftSys) rfl rfl (fun _ => rfl) ho (by omega)
  have hc : r.cols = Nt + 1 := hrc.trans hco
  obtain ⟨m00, m10, m11⟩ := drift_monodromy hNt hr hc
  have hinv : IsInv driftSys.nd driftSys.M (fun _ _ => 1) := by
    intro i hi j hj
    obtain rfl : i = 0 := by simpa [driftSys] using hi
    obtain rfl : j = 0 := by simpa [driftSys] using hj
    simp [driftSys]
  have hw : (0:ℝ) < driftUw (2 * driftSys.nd) := by simp [driftUw, driftSys]
  -- all eigenvalues are one
  have heig : ∀ l, Eigen 2 r.monodromy l → l = 1 := by
    rintro l ⟨v, ⟨i, hi, hvi⟩, hl⟩
    have l0 := hl 0 (by norm_num)
    have l1 := hl 1 (by norm_num)
    simp only [Finset.sum_range_succ, Finset.sum_range_zero, zero_add, m00, m10, m11, Complex.ofReal_one, Complex.ofReal_zero,
      one_mul, zero_mul] at l0 l1
    by_contra hne
    have hne' : (1 : ℂ) - l ≠ 0 := sub_ne_zero.2 (Ne.symm hne)
    have v1 : v 1 = 0 := by
      have : (1 - l) * v 1 = 0 := by linear_combination l1
      exact (mul_eq_zero.1 this).resolve_left hne'
    have v0 : v 0 = 0 := by
      have : (1 - l) * v 0 = 0 := by rw [v1] at l0; linear_combination l0
      exact (mul_eq_zero.1 this).resolve_left hne'
    interval_cases i
    · exact hvi v0
    · exact hvi v1
  obtain ⟨y, yd, st, m, hts⟩ : ∃ y yd st m, timeStability exactIvp eigAbs driftSys (fun _ _ => 1) driftUw 3 (fun _ => 0) Nt
      = .ok (y, yd, st, m) := by
    unfold timeStability
    have hr' : shootingRes exactIvp driftSys (fun _ _ => 1) driftUw 3 (fun _ => 0) Nt = .ok r := hr
    simp only [hr']
    rw [if_neg (by omega), dif_pos (by simp [driftSys])]
    exact ⟨_, _, _, _, rfl⟩
  obtain ⟨r', hr', ⟨l, hl, hlm⟩, -, hst⟩ := C88_max he hts
  have : r' = r := Except.ok.inj (hr'.symm.trans hr)
  subst this
  refine ⟨driftSys, fun _ _ => 1, driftUw, fun _ => 0, _, cubicForce 1 1 (fun _ _ => 1) (fun _ _ => 1) (fun _ => 0), r', y, yd, st, m,
    Nat.one_pos, hinv, rfl, fun _ => rfl, smoothLaw_cubic 1 1 _ _ _, hw, hr, hc, ?_, hts, ?_, ?_, ?_⟩
  · refine (C75_periodic_partial (S := driftSys) exactIvp_exact hinv rfl (fun _ => rfl) (smoothLaw_cubic 1 1 _ _ _) hw hNt hr hc).2
      ⟨fun _ _ => 0, fun _ _ => 0, fun t _ _ => hasDerivAt_const _ _, fun t => ⟨fun _ => 0, fun _ _ => hasDerivAt_const _ _, fun i _ => ?_⟩,
        fun _ _ _ => ⟨rfl, rfl⟩, fun i hi => ?_⟩
    · simp [driftSys, cubicForce, matVec]
    · obtain rfl : i = 0 := by simpa [driftSys] using hi
      simp [driftUw, driftSys]
  · rw [hst]
    intro l hl
    rw [heig l hl]; simp
  · rw [← hlm, heig l hl]; simp
  · intro ε hε
    refine ⟨fun t _ => ε * t, fun _ _ => ε, ⟨fun t _ i _ => ?_, fun t _ => ⟨fun _ => 0, fun _ _ => hasDerivWithinAt_const _ _ _, fun i _ => ?_⟩⟩,
      fun i hi => ?_, fun B => ?_⟩
    · simpa using ((hasDerivAt_id t).const_mul ε).hasDerivWithinAt
    · simp [driftSys, cubicForce, matVec]
    · obtain rfl : i = 0 := by simpa [driftSys] using hi
      simp [driftUw, driftSys, hε.le, abs_of_pos hε]
    · have hp := Real.pi_pos
      obtain ⟨n, hn⟩ := exists_nat_gt (B / (ε * (2 * Real.pi)))
      refine ⟨n, ?_⟩
      rw [div_lt_iff₀ (by positivity)] at hn
      simp only [driftUw, driftSys, Nat.mul_one, lt_irrefl, if_false, div_one]
      linarith

/-- C88 fails when the integration stops early: at a state whose motion leaves every bound before the end of the
period, `time_stability` returns the initial state at every instant and reports a stable motion. -/
theorem C88_unfinished_violated (Nt : ℕ) (hNt : 0 < Nt) (he : EigAbs eigAbs) :
    ∃ (S : VibSys) (Minv : ℕ → ℕ → ℝ) (Uw Fl : ℕ → ℝ) (f : NLForce) (A : (ℕ → ℝ) → (ℕ → ℝ) × (ℕ → ℕ → ℝ))
      (y yd : ℕ → ℕ → ℝ) (st : Prop) (m : ℝ),
      0 < S.nd ∧ IsInv S.nd S.M Minv ∧ S.forces = [f] ∧ (∀ U, f.force U = .ok (A U)) ∧
      SmoothLaw S.nd (fun U => (A U).1) (fun U => (A U).2) ∧ 0 < Uw (2 * S.nd) ∧
      timeStability exactIvp eigAbs S Minv Uw (2 * S.nd + 1) Fl Nt = .ok (y, yd, st, m) ∧ st ∧ m = 1 ∧
      (∀ i < S.nd, ∀ k, y i k = Uw i ∧ yd i k = Uw (S.nd + i)) ∧
      ¬ ∃ u v, PeriodicMotion S.nd S.M S.C S.K (fun U => (A U).1) Fl (Uw (2 * S.nd))
        (fun i => Uw i) (fun i => Uw (S.nd + i)) u v := by
  obtain ⟨r, h1, h2, h3, h4, h5, h6⟩ := escape_call Nt hNt
  have hN : (0:ℝ) < Nt := by exact_mod_cast hNt
  have heig : ∀ l, Eigen 2 r.monodromy l → l = 1 := by
    rintro l ⟨v, ⟨i, hi, hvi⟩, hl⟩
    have := hl i hi
    rw [Finset.sum_eq_single i (fun j hj hji => by rw [h4 i hi j (mem_range.1 hj), if_neg (Ne.symm hji)]; simp)
      (fun h => absurd (mem_range.2 hi) h), h4 i hi i hi, if_pos rfl, Complex.ofReal_one, one_mul] at this
    exact (mul_right_cancel₀ hvi (by rw [one_mul]; exact this)).symm
  obtain ⟨y, yd, st, m, hts⟩ : ∃ y yd st m, timeStability exactIvp eigAbs escapeSys (fun _ _ => 1) (escapeUw Nt) 3 (fun _ => 0) Nt
      = .ok (y, yd, st, m) := by
    unfold timeStability
    simp only [h1]
    rw [if_neg (by omega), dif_pos (by simp [escapeSys])]
    exact ⟨_, _, _, _, rfl⟩
  obtain ⟨r', hr', ⟨l, hl, hlm⟩, -, hst⟩ := C88_max he hts
  obtain ⟨r2, hr2, -, -, -, -, hy, hyd⟩ := timeStability_ok hts
  have : r' = r := Except.ok.inj (hr'.symm.trans h1)
  subst this
  have : r2 = r' := Except.ok.inj (hr2.symm.trans h1)
  subst this
  refine ⟨escapeSys, fun _ _ => 1, escapeUw Nt, fun _ => 0, _, cubicForce 1 1 (fun _ _ => 1) (fun _ _ => 1) (fun _ => -1), y, yd,
    st, m, Nat.one_pos, ?_, rfl, fun _ => rfl, smoothLaw_cubic 1 1 _ _ _, ?_, hts, ?_, ?_, ?_, ?_⟩
  · intro i hi j hj
    obtain rfl : i = 0 := by simpa [escapeSys] using hi
    obtain rfl : j = 0 := by simpa [escapeSys] using hj
    simp [escapeSys]
  · simp [escapeUw, escapeSys, hN]
  · rw [hst]
    intro l hl
    rw [heig l hl]; simp
  · rw [← hlm, heig l hl]; simp
  · intro i hi k
    rw [hy, hyd]
    obtain rfl : i = 0 := by simpa [escapeSys] using hi
    simp only [h2, if_true, h5, h6]
    simp [escapeUw, escapeSys]
  · rintro ⟨u, v, h⟩
    exact escape_motion (by simp [escapeUw]) (by simp [escapeUw, escapeSys]) h

/-! ## Example: an overdamped oscillator -/

/-- Mass one, damping three, two springs of stiffness one. -/
def dampSys : VibSys := ⟨1, fun _ _ => 1, fun _ _ => 1, fun _ _ => 3, none, [springNL]⟩

/-- The state of the free motion from `(a, b)`. -/
def dampState (a b t : ℝ) : ℕ → ℝ
  | 0 => (2 * a + b) * Real.exp (-t) - (a + b) * Real.exp (-(2 * t))
  | 1 => -(2 * a + b) * Real.exp (-t) + 2 * (a + b) * Real.exp (-(2 * t))
  | _ => 0

def dampCurve (a b t : ℝ) : ℕ → ℝ
  | 0 => dampState a b t 0
  | 1 => dampState a b t 1
  | 2 => dampState 1 0 t 0
  | 3 => dampState 0 1 t 0
  | 4 => dampState 1 0 t 1
  | 5 => dampState 0 1 t 1
  | _ => 0

theorem dampState_deriv (a b t : ℝ) : HasDerivAt (fun t => dampState a b t 0) (dampState a b t 1) t ∧
    HasDerivAt (fun t => dampState a b t 1) (-2 * dampState a b t 0 - 3 * dampState a b t 1) t := by
  have h1 : HasDerivAt (fun t : ℝ => Real.exp (-t)) (Real.exp (-t) * (-1)) t := (hasDerivAt_id t).neg.exp
  have h2 : HasDerivAt (fun t : ℝ => Real.exp (-(2 * t))) (Real.exp (-(2 * t)) * (-(2 * 1))) t := ((hasDerivAt_id t).const_mul 2).neg.exp
  constructor
  · refine ((h1.const_mul (2 * a + b)).sub (h2.const_mul (a + b))).congr_deriv ?_
    simp only [dampState]; ring
  · refine ((h1.const_mul (-(2 * a + b))).add (h2.const_mul (2 * (a + b)))).congr_deriv ?_
    simp only [dampState]; ring

theorem dampCurve_sol (Uw : ℕ → ℝ) (w T : ℝ) :
    IsSol (shootLen dampSys.nd) (shootField dampSys (fun _ _ => 1) (fun _ => 0) w) T (shootInit dampSys.nd Uw)
      (dampCurve (Uw 0) (Uw 1)) := by
  constructor
  · intro i hi
    have hi : i < 8 := hi
    interval_cases i <;> simp [dampCurve, dampState, shootInit, hcat, dampSys] <;> ring
  · intro t _
    obtain ⟨d, h1, h2, h3, h4⟩ := shootField_ok (S := dampSys) (Minv := fun _ _ => 1) (Fl := fun _ => 0)
      (A := fun U => (fun i => if i = 0 then U 0 else 0, fun i j => if i = 0 ∧ j = 0 then 1 else 0)) rfl (fun _ => rfl) w t
      (dampCurve (Uw 0) (Uw 1) t)
    have d0 := congrFun h2 ⟨0, by simp [dampSys]⟩
    have d1 := congrFun h2 ⟨1, by simp [dampSys]⟩
    have d2 := h3 0 (by simp [dampSys]) 0 (by simp [dampSys])
    have d3 := h3 0 (by simp [dampSys]) 1 (by simp [dampSys])
    have d4 := h3 1 (by simp [dampSys]) 0 (by simp [dampSys])
    have d5 := h3 1 (by simp [dampSys]) 1 (by simp [dampSys])
    have d6 := h4 ⟨0, by simp [dampSys]⟩
    have d7 := h4 ⟨1, by simp [dampSys]⟩
    rw [Pi.add_apply] at d0 d1
    unfold shA shB at d0 d1
    unfold shDg at d2 d3 d4 d5
    unfold shDg shB' at d6 d7
    simp [dampSys, hcat, sl, Spec.ext, restr, matVec, matMul, Finset.sum_range_succ, dampCurve] at d0 d1 d2 d3 d4 d5 d6 d7
    have hcard : #({x ∈ ({0} : Finset ℕ) | x = 0}) = 1 := rfl
    rw [hcard, Nat.cast_one] at d4 d5
    refine ⟨d, h1, fun i hi => HasDerivAt.hasDerivWithinAt ?_⟩
    have hi : i < 8 := hi
    interval_cases i
    · rw [d0]; exact (dampState_deriv _ _ t).1
    · rw [d1]; exact (dampState_deriv _ _ t).2.congr_deriv (by ring)
    · rw [d2]; exact (dampState_deriv _ _ t).1
    · rw [d3]; exact (dampState_deriv _ _ t).1
    · rw [d4]; exact (dampState_deriv _ _ t).2.congr_deriv (by ring)
    · rw [d5]; exact (dampState_deriv _ _ t).2.congr_deriv (by ring)
    · rw [d6]; exact hasDerivAt_const _ _
    · rw [d7]; exact hasDerivAt_const _ _

/-- The monodromy matrix of the damped oscillator. -/
theorem damp_monodromy {r : ShootRes} {Nt : ℕ} (hNt : 0 < Nt)
    (h : shootingRes exactIvp dampSys (fun _ _ => 1) driftUw 3 (fun _ => 0) Nt = .ok r) (hc : r.cols = Nt + 1) :
    ∀ i < 2, r.monodromy i 0 = dampState 1 0 (2 * Real.pi) i ∧ r.monodromy i 1 = dampState 0 1 (2 * Real.pi) i := by
  have hw : (0:ℝ) < driftUw (2 * dampSys.nd) := by simp [driftUw, dampSys]
  obtain ⟨y, hy, -, hU, -⟩ := shoot_curve (S := dampSys) exactIvp_exact rfl (fun _ => rfl) hw hNt h hc
  have hwe : driftUw (2 * dampSys.nd) = 1 := by simp [driftUw, dampSys]
  rw [hwe, div_one] at hy hU
  have hT0 : 0 < 2 * Real.pi := by have := Real.pi_pos; positivity
  obtain ⟨hΦ0, hΦ⟩ := curve_Phi (S := dampSys)
    (A := fun U => (fun i => if i = 0 then U 0 else 0, fun i j => if i = 0 ∧ j = 0 then 1 else 0)) rfl (fun _ => rfl) hy _ rfl
  set L := shA' dampSys (fun _ _ => 1)
    (fun U => (fun i => if i = 0 then U 0 else 0, fun i j => if i = 0 ∧ j = 0 then 1 else 0)) 0 with hL
  have hcol : ∀ (e : Fin (2 * dampSys.nd) → ℝ) (a b : ℝ), e = restr 2 (dampState a b 0) → ∀ i : Fin 2,
      (∑ j : Fin 2, y (2 * Real.pi) (2 + (i * 2 + j)) * e j) = dampState a b (2 * Real.pi) i := by
    intro e a b hab
    have hq : ∀ t ∈ Set.Icc 0 (2 * Real.pi), HasDerivWithinAt (fun t => restr (2 * dampSys.nd) (dampState a b t))
        (L (restr (2 * dampSys.nd) (dampState a b t)) + (fun _ : ℝ => (0 : Fin (2 * dampSys.nd) → ℝ)) t) (Set.Icc 0 (2 * Real.pi)) t := by
      intro t _
      rw [add_zero, hasDerivWithinAt_pi]
      obtain ⟨g1, g2⟩ := dampState_deriv a b t
      intro i
      have hi : (i : ℕ) < 2 := i.2
      have hLi : L (restr (2 * dampSys.nd) (dampState a b t)) i = if (i : ℕ) = 0 then dampState a b t 1
          else -2 * dampState a b t 0 - 3 * dampState a b t 1 := by
        simp only [hL, shA', ContinuousLinearMap.pi_apply, row_apply]
        change ∑ j : Fin 2, shDg _ _ _ _ _ _ * dampState a b t j = _
        rw [Fin.sum_univ_two]
        rcases (by omega : (i : ℕ) = 0 ∨ (i : ℕ) = 1) with c | c <;>
          simp [shDg, c, dampSys, matMul] <;> ring
      rw [hLi]
      rcases (by omega : (i : ℕ) = 0 ∨ (i : ℕ) = 1) with c | c
      · simpa [restr, c] using g1.hasDerivWithinAt
      · simpa [restr, c] using g2.hasDerivWithinAt
    have := shoot_unique (a := L) (a' := fun _ => L) (fun z => L.hasFDerivAt) continuous_const (fun _ => 0) hT0 hq
      (fun t ht => by rw [add_zero]; exact hΦ e t ht) (by rw [hΦ0]; exact hab) (2 * Real.pi) ⟨hT0.le, le_rfl⟩
    intro i
    have := congrFun this i
    simp only [ContinuousLinearMap.pi_apply, row_apply, restr] at this
    exact this
  intro i hi
  have e0 := hU i hi 0 (by simp [dampSys])
  have e1 := hU i hi 1 (by simp [dampSys])
  rw [monodromy_eq h, monodromy_eq h, e0, e1, sub_add_cancel, sub_add_cancel]
  have c0 := hcol (fun j => if (j : ℕ) = 0 then 1 else 0) 1 0 (by
    funext j
    have hj : (j : ℕ) < 2 := j.2
    rcases (by omega : (j : ℕ) = 0 ∨ (j : ℕ) = 1) with c | c <;> simp [c, restr, dampState]; norm_num) ⟨i, hi⟩
  have c1 := hcol (fun j => if (j : ℕ) = 1 then 1 else 0) 0 1 (by
    funext j
    have hj : (j : ℕ) < 2 := j.2
    rcases (by omega : (j : ℕ) = 0 ∨ (j : ℕ) = 1) with c | c <;> simp [c, restr, dampState]; norm_num) ⟨i, hi⟩
  rw [Fin.sum_univ_two] at c0 c1
  simp at c0 c1
  exact ⟨c0, c1⟩

/-- Example: the rest position of the damped oscillator is reported with a number below one, and attracts. -/
example (Nt : ℕ) (hNt : 0 < Nt) (he : EigAbs eigAbs) :
    ∃ y yd st m, timeStability exactIvp eigAbs dampSys (fun _ _ => 1) driftUw 3 (fun _ => 0) Nt = .ok (y, yd, st, m) ∧ st ∧ m < 1 ∧
      Attracting 1 dampSys.M dampSys.C dampSys.K (fun U i => if i = 0 then U 0 else 0) (fun _ => 0) 1 (fun _ => 0) (fun _ => 0) := by
  have hcall : ∀ Uw : ℕ → ℝ, 0 < Uw 2 → ∃ r, shootingRes exactIvp dampSys (fun _ _ => 1) Uw 3 (fun _ => 0) Nt = .ok r ∧ r.cols = Nt + 1 := by
    intro Uw hw
    obtain ⟨o, ho, hc⟩ := exactIvp_full (Nt := Nt) (T := 2 * Real.pi / Uw 2) (by have := Real.pi_pos; positivity) hNt
      (dampCurve_sol Uw (Uw 2) (2 * Real.pi / Uw 2))
    obtain ⟨r, h1, h2, -⟩ := shootingRes_of_ivp (S := dampSys) rfl rfl (fun _ => rfl) ho (by omega)
    exact ⟨r, h1, h2.trans hc⟩
  have : ∀ X : ℕ → ℝ, ∃ r, (∀ i < 3, |X i - driftUw i| < 1 / 4) →
      shootingRes exactIvp dampSys (fun _ _ => 1) X 3 (fun _ => 0) Nt = .ok r ∧ r.cols = Nt + 1 := by
    intro X
    by_cases h : ∀ i < 3, |X i - driftUw i| < 1 / 4
    · have h2 := abs_lt.1 (h 2 (by norm_num))
      simp only [driftUw, lt_irrefl, if_false] at h2
      obtain ⟨r, hr⟩ := hcall X (by linarith)
      exact ⟨r, fun _ => hr⟩
    · exact ⟨⟨fun _ => 0, fun _ _ => 0, fun _ => 0, fun _ _ => 0, fun _ _ => 0, fun _ _ => 0, 0⟩, fun h' => absurd h' h⟩
  choose res hres using this
  obtain ⟨hr, hc⟩ := hres driftUw (by intro i _; norm_num)
  have hmono := damp_monodromy hNt hr hc
  have hinv : IsInv dampSys.nd dampSys.M (fun _ _ => 1) := by
    intro i hi j hj
    obtain rfl : i = 0 := by simpa [dampSys] using hi
    obtain rfl : j = 0 := by simpa [dampSys] using hj
    simp [dampSys]
  have hw : (0:ℝ) < driftUw (2 * dampSys.nd) := by simp [driftUw, dampSys]
  obtain ⟨y, yd, st, m, hts⟩ : ∃ y yd st m, timeStability exactIvp eigAbs dampSys (fun _ _ => 1) driftUw 3 (fun _ => 0) Nt
      = .ok (y, yd, st, m) := by
    unfold timeStability
    simp only [hr]
    rw [if_neg (by omega), dif_pos (by simp [dampSys])]
    exact ⟨_, _, _, _, rfl⟩
  have hR : ∀ i < 2 * dampSys.nd, (res driftUw).R i = 0 := by
    refine (C75_periodic_partial (S := dampSys) exactIvp_exact hinv rfl (fun _ => rfl) springNL_smooth hw hNt hr hc).2
      ⟨fun _ _ => 0, fun _ _ => 0, fun t _ _ => hasDerivAt_const _ _, fun t => ⟨fun _ => 0, fun _ _ => hasDerivAt_const _ _, fun i _ => ?_⟩,
        fun _ _ _ => ⟨rfl, rfl⟩, fun i hi => ?_⟩
    · simp [dampSys]
    · obtain rfl : i = 0 := by simpa [dampSys] using hi
      simp [driftUw, dampSys]
  have hm : m < 1 := by
    obtain ⟨r', hr', ⟨l, ⟨v, ⟨i, hi, hvi⟩, hl⟩, hlm⟩, -⟩ := C88_max he hts
    have : r' = res driftUw := Except.ok.inj (hr'.symm.trans hr)
    subst this
    have hi : i < 2 := hi
    set p := Real.exp (-(2 * Real.pi)) with hp
    have hp1 : p < 1 := by rw [hp, Real.exp_lt_one_iff]; have := Real.pi_pos; linarith
    have hp0 : 0 < p := Real.exp_pos _
    have hp2 : Real.exp (-(2 * (2 * Real.pi))) = p ^ 2 := by
      rw [hp, ← Real.exp_nat_mul]; congr 1; push_cast; ring
    obtain ⟨m00, m01⟩ := hmono 0 (by norm_num)
    obtain ⟨m10, m11⟩ := hmono 1 (by norm_num)
    simp only [dampState, ← hp, hp2] at m00 m01 m10 m11
    have l0 := hl 0 (by simp [dampSys])
    have l1 := hl 1 (by simp [dampSys])
    change ∑ j ∈ range 2, _ = _ at l0 l1
    simp only [Finset.sum_range_succ, Finset.sum_range_zero, zero_add, m00, m01, m10, m11] at l0 l1
    push_cast at l0 l1
    have hchar : (l - p) * (l - p ^ 2) = 0 := by
      by_contra hne
      have hv0 : (l - p) * (l - p ^ 2) * v 0 = 0 := by
        linear_combination (-(l - (-p + 2 * p ^ 2))) * l0 - (p - p ^ 2) * l1
      have hv1 : (l - p) * (l - p ^ 2) * v 1 = 0 := by
        linear_combination (-(l - (2 * p - p ^ 2))) * l1 - (-2 * p + 2 * p ^ 2) * l0
      interval_cases i
      · exact hvi ((mul_eq_zero.1 hv0).resolve_left hne)
      · exact hvi ((mul_eq_zero.1 hv1).resolve_left hne)
    rcases mul_eq_zero.1 hchar with c | c
    · rw [← hlm, sub_eq_zero.1 c, Complex.norm_real, Real.norm_eq_abs, abs_of_pos hp0]; exact hp1
    · rw [← hlm, sub_eq_zero.1 c, norm_pow, Complex.norm_real, Real.norm_eq_abs, abs_of_pos hp0]
      nlinarith
  refine ⟨y, yd, st, m, hts, ?_, hm, ?_⟩
  · obtain ⟨r', -, -, -, -, hst, -⟩ := timeStability_ok hts
    exact hst.2 hm.le
  · have := C88_stable_partial (S := dampSys) exactIvp_exact he hinv rfl (fun _ => rfl) springNL_smooth hw hNt res (1 / 4) (by norm_num)
      hres hR hts hm
    obtain ⟨B, ρ, δ, h1, h2, h3, h4⟩ := this
    refine ⟨B, ρ, δ, h1, h2, h3, fun u v hmo e he0 heδ hs n i hi => ?_⟩
    have hwe : driftUw (2 * dampSys.nd) = 1 := by simp [driftUw, dampSys]
    have := h4 u v (by rw [hwe]; exact hmo) e he0 heδ (fun i hi => by
      obtain rfl : i = 0 := by simpa [dampSys] using hi
      simpa [driftUw, dampSys] using hs 0 (by norm_num)) n i hi
    obtain rfl : i = 0 := by omega
    rw [hwe] at this
    simpa [driftUw, dampSys] using this

/-- The contract of the eigenvalue routine can be met. -/
theorem exists_eigAbs : ∃ eigAbs, EigAbs eigAbs := by
  classical
  have key : ∀ (n : ℕ) (A : ℕ → ℕ → ℝ), ∃ g : ℕ → ℝ, (∀ i < n, ∃ l, Eigen n A l ∧ ‖l‖ = g i) ∧
      ∀ l, Eigen n A l → ∃ i < n, ‖l‖ = g i := by
    intro n A
    set B := (Matrix.of fun i j : Fin n => A i j).map (fun x : ℝ => (x : ℂ)) with hB
    have hroot : ∀ l, l ∈ B.charpoly.roots ↔ Eigen n A l := by
      intro l
      rw [Polynomial.mem_roots (Matrix.charpoly_monic B).ne_zero, ← Matrix.mem_spectrum_iff_isRoot_charpoly, eigen_mem_spectrum]
      constructor
      · exact eigen_matrix
      · rintro ⟨v, ⟨i, hi, hvi⟩, hl⟩
        refine ⟨fun j => v j, fun h0 => hvi (congrFun h0 ⟨i, hi⟩), ?_⟩
        funext j
        have := hl j j.2
        rw [Finset.sum_range] at this
        simpa [hB, Matrix.mulVec, dotProduct] using this
    have hcard : B.charpoly.roots.toList.length = n := by
      rw [Multiset.length_toList, ← (IsAlgClosed.splits B.charpoly).natDegree_eq_card_roots, Matrix.charpoly_natDegree_eq_dim, Fintype.card_fin]
    refine ⟨fun i => if h : i < B.charpoly.roots.toList.length then ‖B.charpoly.roots.toList[i]‖ else 0, fun i hi => ?_, fun l hl => ?_⟩
    · refine ⟨B.charpoly.roots.toList[i]'(by omega), ?_, by beta_reduce; rw [dif_pos (by omega)]⟩
      rw [← hroot, ← Multiset.mem_toList]
      exact List.getElem_mem _
    · rw [← hroot, ← Multiset.mem_toList] at hl
      obtain ⟨i, hi, he⟩ := List.getElem_of_mem hl
      exact ⟨i, by omega, by beta_reduce; rw [dif_pos hi, he]⟩
  choose g hg using key
  exact ⟨g, hg⟩

end

end TMD
