import Verif.Lemmas.ShootBridge

/-!
# Property C75: shooting residual

`R = 0` exactly at the initial states of periodic motions, and the returned matrices are the derivatives of `R`.
-/

namespace TMD

open Spec Finset

noncomputable section

/-- `y` solves `y' = F(t, y)` on `[0, T]` and starts at `y0` (first `n` entries). -/
def IsSol (n : ℕ) (F : ℝ → (ℕ → ℝ) → Except Err (ℕ → ℝ)) (T : ℝ) (y0 : ℕ → ℝ) (y : ℝ → ℕ → ℝ) : Prop :=
  (∀ i < n, y 0 i = y0 i) ∧ ∀ t ∈ Set.Icc 0 T, ∃ d, F t (y t) = .ok d ∧
    ∀ i < n, HasDerivWithinAt (fun t => y t i) (d i) (Set.Icc 0 T) t

/-- Contract of `solve_ivp` without discretisation error: the returned columns are values of a solution at the
requested times, and columns are missing only if no solution reaches the next requested time. -/
structure ExactIvp (ivp : SolveIvp) : Prop where
  sound : ∀ F T n y0 Nt o, 0 < T → 0 < Nt → ivp F T n y0 Nt = .ok o → o.cols ≤ Nt + 1 ∧
    (0 < o.cols → ∃ y, IsSol n F ((o.cols - 1 : ℕ) * T / Nt) y0 y ∧
      ∀ k < o.cols, ∀ i < n, o.y i k = y (k * T / Nt) i)
  maximal : ∀ F T n y0 Nt o, 0 < T → 0 < Nt → ivp F T n y0 Nt = .ok o → o.cols < Nt + 1 →
    ¬ ∃ y, IsSol n F (o.cols * T / Nt) y0 y

variable {ivp : SolveIvp} {S : VibSys} {Minv : ℕ → ℕ → ℝ} {Uw Fl : ℕ → ℝ} {Nt len : ℕ} {r : ShootRes}
  {A : (ℕ → ℝ) → (ℕ → ℝ) × (ℕ → ℕ → ℝ)} {f : NLForce}

/-- C75: other than instantaneous forces and inputs of the wrong size are rejected. -/
theorem C75_rejects (ivp : SolveIvp) (S : VibSys) (Minv : ℕ → ℕ → ℝ) (Uw : ℕ → ℝ) (len : ℕ) (Fl : ℕ → ℝ) (Nt : ℕ)
    (h : (∃ f ∈ S.forces, f.ftype ≠ 0) ∨ len - 1 ≠ 2 * S.nd) :
    shootingRes ivp S Minv Uw len Fl Nt = .error .assertion := by
  unfold shootingRes
  simp only
  split
  · rfl
  · rename_i h1
    rw [if_pos]
    rcases h with ⟨f, hf, hne⟩ | h
    · refine absurd ?_ h1
      simp only [List.all_eq_true, beq_iff_eq, not_forall]
      exact ⟨f, hf, hne⟩
    · exact h

theorem shootingRes_ok (h : shootingRes ivp S Minv Uw len Fl Nt = .ok r) :
    len - 1 = 2 * S.nd ∧ ∃ o Yd, ivp (shootField S Minv Fl (Uw (len - 1))) (2 * Real.pi / Uw (len - 1)) (shootLen S.nd)
        (shootInit S.nd Uw) Nt = .ok o ∧ o.cols ≠ 0 ∧
      shootField S Minv Fl (Uw (len - 1)) (2 * Real.pi / Uw (len - 1)) (fun i => o.y i (o.cols - 1)) = .ok Yd ∧
      r = {
            R := fun i => o.y i (o.cols - 1) - Uw i
            dRdU := fun i j => o.y (2*S.nd + (i*(2*S.nd) + j)) (o.cols - 1) - if i = j then 1 else 0
            dRdw := fun i => Yd i * (2 * Real.pi) * (-1 / (Uw (len - 1))^2)
              + o.y (2*S.nd + (2*S.nd*(2*S.nd) + i)) (o.cols - 1)
            monodromy := fun i j => o.y (2*S.nd + (i*(2*S.nd) + j)) (o.cols - 1)
            yt := fun i k => o.y i k
            ydot := fun i k => o.y (S.nd + i) k
            cols := o.cols } := by
  unfold shootingRes at h
  simp only at h
  split at h
  · cases h
  · split at h
    · cases h
    · rename_i h2
      refine ⟨by simpa using h2, ?_⟩
      split at h
      · cases h
      · rename_i o ho
        split at h
        · cases h
        · rename_i hc
          split at h
          · cases h
          · rename_i Yd hY
            cases h
            exact ⟨o, Yd, ho, hc, hY, rfl⟩

/-- The integrated curve behind a complete result. -/
theorem shoot_curve (hivp : ExactIvp ivp) (hS : S.forces = [f]) (hA : ∀ U, f.force U = .ok (A U))
    (hw : 0 < Uw (2 * S.nd)) (hNt : 0 < Nt) (h : shootingRes ivp S Minv Uw (2 * S.nd + 1) Fl Nt = .ok r)
    (hc : r.cols = Nt + 1) :
    ∃ y, IsSol (shootLen S.nd) (shootField S Minv Fl (Uw (2 * S.nd))) (2 * Real.pi / Uw (2 * S.nd)) (shootInit S.nd Uw) y ∧
      (∀ i < 2 * S.nd, r.R i = y (2 * Real.pi / Uw (2 * S.nd)) i - Uw i) ∧
      (∀ i < 2 * S.nd, ∀ j < 2 * S.nd, r.dRdU i j
        = y (2 * Real.pi / Uw (2 * S.nd)) (2 * S.nd + (i * (2 * S.nd) + j)) - if i = j then 1 else 0) ∧
      (∀ i : Fin (2 * S.nd), r.dRdw i = y (2 * Real.pi / Uw (2 * S.nd)) (2 * S.nd + (2 * S.nd * (2 * S.nd) + i))
        - 2 * Real.pi / Uw (2 * S.nd) ^ 2 * (shA S Minv A (restr (2 * S.nd) (y (2 * Real.pi / Uw (2 * S.nd)))) i
          + shB S Minv Fl (2 * Real.pi) i)) := by
  obtain ⟨-, o, Yd, h1, h2, h3, rfl⟩ := shootingRes_ok h
  simp only [Nat.add_sub_cancel] at h1 h3 hc ⊢
  set w := Uw (2 * S.nd) with hwd
  set T := 2 * Real.pi / w with hT
  have hT0 : 0 < T := by have := Real.pi_pos; positivity
  obtain ⟨-, hs⟩ := hivp.sound _ _ _ _ _ _ hT0 hNt h1
  obtain ⟨y, hy, hval⟩ := hs (by omega)
  have hN0 : (Nt : ℝ) ≠ 0 := by exact_mod_cast hNt.ne'
  have e1 : ((o.cols - 1 : ℕ) : ℝ) * T / Nt = T := by
    rw [hc, Nat.add_sub_cancel]; field_simp
  rw [e1] at hy
  have hend : ∀ i < shootLen S.nd, o.y i (o.cols - 1) = y T i := by
    intro i hi
    rw [hval (o.cols - 1) (by omega) i hi, e1]
  have hlen : ∀ i < 2 * S.nd, ∀ j < 2 * S.nd, 2 * S.nd + (i * (2 * S.nd) + j) < shootLen S.nd := by
    intro i hi j hj
    have : i * (2 * S.nd) + j < 2 * S.nd * (2 * S.nd) := by nlinarith
    unfold shootLen; omega
  refine ⟨y, hy, ?_, ?_, ?_⟩
  · intro i hi
    rw [hend i (by unfold shootLen; omega)]
  · intro i hi j hj
    rw [hend _ (hlen i hi j hj)]
  · intro i
    rw [hend _ (by unfold shootLen; omega)]
    obtain ⟨d, hd1, hd2, -⟩ := shootField_ok (Minv := Minv) (Fl := Fl) hS hA w T (fun i => o.y i (o.cols - 1))
    rw [h3] at hd1
    cases hd1
    have hr : restr (2 * S.nd) (fun i => o.y i (o.cols - 1)) = restr (2 * S.nd) (y T) := by
      funext i
      exact hend i (by unfold shootLen; omega)
    have hwT : w * T = 2 * Real.pi := by rw [hT]; field_simp
    rw [hr, hwT] at hd2
    have := congrFun hd2 i
    simp only [restr, Pi.add_apply] at this
    rw [this]
    ring

/-- State, variational matrix and frequency sensitivity of an integrated curve. -/
theorem curve_parts (hS : S.forces = [f]) (hA : ∀ U, f.force U = .ok (A U)) {w T : ℝ} {y : ℝ → ℕ → ℝ}
    (hy : IsSol (shootLen S.nd) (shootField S Minv Fl w) T (shootInit S.nd Uw) y) :
    restr (2 * S.nd) (y 0) = restr (2 * S.nd) Uw ∧
    ∀ t ∈ Set.Icc 0 T, HasDerivWithinAt (fun t => restr (2 * S.nd) (y t))
      (shA S Minv A (restr (2 * S.nd) (y t)) + shB S Minv Fl (w * t)) (Set.Icc 0 T) t := by
  constructor
  · funext i
    have := hy.1 i (by unfold shootLen; omega)
    simpa [restr, shootInit, hcat] using this
  · intro t ht
    obtain ⟨d, h1, h2⟩ := hy.2 t ht
    obtain ⟨d', h1', h3, -⟩ := shootField_ok (Minv := Minv) (Fl := Fl) hS hA w t (y t)
    rw [h1] at h1'
    cases h1'
    rw [← h3, hasDerivWithinAt_pi]
    intro i
    exact h2 i (by unfold shootLen; omega)

theorem isInv_comm {n : ℕ} {M Minv : ℕ → ℕ → ℝ} (h : IsInv n M Minv) : IsInv n Minv M := by
  have e : (Matrix.of fun i j : Fin n => M i j) * (Matrix.of fun i j : Fin n => Minv i j) = 1 := by
    ext i j
    rw [Matrix.mul_apply, Matrix.one_apply]
    have := h i i.2 j j.2
    rw [Finset.sum_range] at this
    simpa [Fin.ext_iff] using this
  rw [mul_eq_one_comm] at e
  intro i hi j hj
  have := congrFun (congrFun e ⟨i, hi⟩) ⟨j, hj⟩
  rw [Matrix.mul_apply, Matrix.one_apply] at this
  rw [Finset.sum_range]
  simpa using this

/-- The equation of motion solved for the acceleration. -/
theorem eom_iff {n : ℕ} {M Minv C K : ℕ → ℕ → ℝ} (hM : IsInv n M Minv) (u v acc g F : ℕ → ℝ) :
    (∀ i < n, ∑ j ∈ range n, (M i j * acc j + C i j * v j + K i j * u j) + g i = F i) ↔
      ∀ i < n, acc i = matVec n Minv (fun k => -(matVec n C v k + matVec n K u k + g k) + F k) i := by
  have hsum : ∀ i, ∑ j ∈ range n, (M i j * acc j + C i j * v j + K i j * u j)
      = matVec n M acc i + matVec n C v i + matVec n K u i := by
    intro i
    rw [sum_add_distrib, sum_add_distrib]; rfl
  constructor
  · intro h i hi
    rw [← isInv_apply (isInv_comm hM) acc hi]
    refine matVec_congr (fun k hk => ?_) i
    have := h k hk
    rw [hsum] at this
    linarith
  · intro h i hi
    rw [hsum, matVec_congr (fun k hk => h k hk) i, isInv_apply hM _ hi]
    ring

theorem shB_int (θ : ℝ) (k : ℤ) : shB S Minv Fl (θ - k * (2 * Real.pi)) = shB S Minv Fl θ := by
  unfold shB; simp only [Real.cos_sub_int_mul_two_pi, Real.sin_sub_int_mul_two_pi]

/-- C75: the residual vanishes exactly at the initial states of periodic motions of the forced system. The theorem
needs that the integration reached the end of the period (`r.cols = Nt + 1`), which the code does not check; see
`C75_violated`. -/
theorem C75_periodic_partial (hivp : ExactIvp ivp) (hM : IsInv S.nd S.M Minv) (hS : S.forces = [f])
    (hA : ∀ U, f.force U = .ok (A U)) (hL : SmoothLaw S.nd (fun U => (A U).1) (fun U => (A U).2))
    (hw : 0 < Uw (2 * S.nd)) (hNt : 0 < Nt) (h : shootingRes ivp S Minv Uw (2 * S.nd + 1) Fl Nt = .ok r)
    (hc : r.cols = Nt + 1) :
    (∀ i < 2 * S.nd, r.R i = 0) ↔ ∃ u v, PeriodicMotion S.nd S.M S.C S.K (fun U => (A U).1) Fl (Uw (2 * S.nd))
      (fun i => Uw i) (fun i => Uw (S.nd + i)) u v := by
  obtain ⟨y, hy, hR, -, -⟩ := shoot_curve hivp hS hA hw hNt h hc
  obtain ⟨hz0, hz⟩ := curve_parts hS hA hy
  set w := Uw (2 * S.nd) with hwd
  set T := 2 * Real.pi / w with hT
  have hT0 : 0 < T := by have := Real.pi_pos; positivity
  have hwT : w * T = 2 * Real.pi := by rw [hT]; field_simp
  set z : ℝ → Fin (2 * S.nd) → ℝ := fun t => restr (2 * S.nd) (y t) with hzd
  have hz0' : z 0 = restr (2 * S.nd) Uw := hz0
  have hRz : (∀ i < 2 * S.nd, r.R i = 0) ↔ z T = z 0 := by
    rw [hz0']
    constructor
    · intro h0
      funext i
      have := h0 i i.2
      rw [hR i i.2] at this
      exact sub_eq_zero.1 this
    · intro h0 i hi
      rw [hR i hi]
      exact sub_eq_zero.2 (congrFun h0 ⟨i, hi⟩)
  rw [hRz]
  constructor
  · intro hclose
    have hder := perExt_hasDerivAt hT0 hz (by exact hclose) (by
      show shA S Minv A (z T) + _ = shA S Minv A (z 0) + _
      rw [hclose, hwT, mul_zero]
      have := shB_periodic (S := S) (Minv := Minv) (Fl := Fl) 0
      rw [zero_add] at this
      rw [this])
    have hval : ∀ t, perExt T (fun t => shA S Minv A (z t) + shB S Minv Fl (w * t)) t
        = shA S Minv A (perExt T z t) + shB S Minv Fl (w * t) := by
      intro t
      unfold perExt
      have : w * (t - T * ⌊t / T⌋) = w * t - ⌊t / T⌋ * (2 * Real.pi) := by rw [← hwT]; ring
      beta_reduce
      rw [this, shB_int]
    have hcomp : ∀ t, ∀ i : Fin (2 * S.nd), HasDerivAt (fun t => perExt T z t i)
        (shA S Minv A (perExt T z t) i + shB S Minv Fl (w * t) i) t := by
      intro t i
      have := hder t
      rw [hval] at this
      exact (hasDerivAt_pi.1 this) i
    have hsl : ∀ t, sl 0 S.nd (Spec.ext (perExt T z t)) = sl 0 S.nd (fun i => Spec.ext (perExt T z t) i) := fun _ => rfl
    refine ⟨fun t i => Spec.ext (perExt T z t) i, fun t i => Spec.ext (perExt T z t) (S.nd + i), ?_, ?_, ?_, ?_⟩
    · intro t i hi
      have h2 : i < 2 * S.nd := by omega
      have h3 : S.nd + i < 2 * S.nd := by omega
      have := hcomp t ⟨i, h2⟩
      simp only [shA, shB, hcat, hi, if_true, add_zero, sl, show i < 2 * S.nd - S.nd by omega] at this
      simpa [Spec.ext, h2] using this
    · intro t
      refine ⟨fun i => if h : S.nd + i < 2 * S.nd then shA S Minv A (perExt T z t) ⟨S.nd + i, h⟩
        + shB S Minv Fl (w * t) ⟨S.nd + i, h⟩ else 0, ?_, ?_⟩
      · intro i hi
        have h3 : S.nd + i < 2 * S.nd := by omega
        have := hcomp t ⟨S.nd + i, h3⟩
        simpa [Spec.ext, h3] using this
      · rw [eom_iff hM]
        intro i hi
        have h3 : S.nd + i < 2 * S.nd := by omega
        rw [dif_pos h3]
        simp only [shA, shB, hcat, show ¬ S.nd + i < S.nd by omega, if_false, Nat.add_sub_cancel_left]
        have hf : (A (sl 0 S.nd (Spec.ext (perExt T z t)))).1 = (A (fun i => Spec.ext (perExt T z t) i)).1 :=
          hL.local_f _ _ fun k hk => by simp [sl, hk]
        have hV : ∀ k, matVec S.nd S.C (sl S.nd (2 * S.nd) (Spec.ext (perExt T z t))) k
            = matVec S.nd S.C (fun i => Spec.ext (perExt T z t) (S.nd + i)) k :=
          matVec_congr fun k hk => by simp [sl, show k < 2 * S.nd - S.nd by omega]
        have hU : ∀ k, matVec S.nd S.K (sl 0 S.nd (Spec.ext (perExt T z t))) k
            = matVec S.nd S.K (fun i => Spec.ext (perExt T z t) i) k :=
          matVec_congr fun k hk => by simp [sl, hk]
        simp only [hf, hV, hU]
        unfold matVec
        rw [← sum_add_distrib]
        exact sum_congr rfl fun k _ => by ring
    · intro t i _
      rw [← hT, perExt_period hT0]
      exact ⟨rfl, rfl⟩
    · intro i hi
      have h2 : i < 2 * S.nd := by omega
      have h3 : S.nd + i < 2 * S.nd := by omega
      rw [perExt_of_mem hT0 z ⟨le_rfl, hT0⟩, hz0', ext_restr _ h2, ext_restr _ h3]
      exact ⟨rfl, rfl⟩
  · rintro ⟨u, v, hp⟩
    set q : ℝ → Fin (2 * S.nd) → ℝ := fun t => restr (2 * S.nd) (hcat S.nd (u t) (v t)) with hq
    have hqsol : ∀ t, HasDerivAt q (shA S Minv A (q t) + shB S Minv Fl (w * t)) t := by
      intro t
      obtain ⟨acc, ha, hm⟩ := hp.motion t
      rw [eom_iff hM] at hm
      rw [hasDerivAt_pi]
      intro i
      have hV : ∀ k < S.nd, sl S.nd (2 * S.nd) (Spec.ext (q t)) k = v t k := by
        intro k hk
        simp [sl, show k < 2 * S.nd - S.nd by omega, Spec.ext, show S.nd + k < 2 * S.nd by omega, hq, restr, hcat]
      have hU : ∀ k < S.nd, sl 0 S.nd (Spec.ext (q t)) k = u t k := by
        intro k hk
        simp [sl, hk, Spec.ext, show k < 2 * S.nd by omega, hq, restr, hcat]
      by_cases c : (i : ℕ) < S.nd
      · have := hp.velocity t i c
        simp only [hq, restr, hcat, c, if_true, Pi.add_apply, shA, shB, add_zero]
        rw [hV i c]
        exact this
      · have c2 : (i : ℕ) - S.nd < S.nd := by omega
        have h1 := ha _ c2
        rw [hm _ c2] at h1
        simp only [hq, restr, hcat, c, if_false, Pi.add_apply, shA, shB]
        refine h1.congr_deriv ?_
        have hf : (A (sl 0 S.nd (Spec.ext (q t)))).1 = (A (u t)).1 := hL.local_f _ _ hU
        have e1 : ∀ k, matVec S.nd S.C (sl S.nd (2 * S.nd) (Spec.ext (q t))) k = matVec S.nd S.C (v t) k := matVec_congr hV
        have e2 : ∀ k, matVec S.nd S.K (sl 0 S.nd (Spec.ext (q t))) k = matVec S.nd S.K (u t) k := matVec_congr hU
        change _ = matVec S.nd Minv (fun k => -(matVec S.nd S.C (sl S.nd (2 * S.nd) (Spec.ext (q t))) k
          + matVec S.nd S.K (sl 0 S.nd (Spec.ext (q t))) k + (A (sl 0 S.nd (Spec.ext (q t)))).1 k)) _ + _
        simp only [hf, e1, e2]
        unfold matVec
        rw [← sum_add_distrib]
        exact sum_congr rfl fun k _ => by ring
    have hq0 : q 0 = z 0 := by
      rw [hz0']
      funext i
      by_cases c : (i : ℕ) < S.nd
      · simp [hq, restr, hcat, c, (hp.start i c).1]
      · have c2 : (i : ℕ) - S.nd < S.nd := by omega
        simp only [hq, restr, hcat, c, if_false, (hp.start _ c2).2]
        congr 1
        omega
    have hqT : q T = q 0 := by
      funext i
      by_cases c : (i : ℕ) < S.nd
      · have := (hp.period 0 i c).1
        rw [zero_add] at this
        simp only [hq, restr, hcat, c, if_true]
        exact this
      · have c2 : (i : ℕ) - S.nd < S.nd := by omega
        have := (hp.period 0 _ c2).2
        rw [zero_add] at this
        simp only [hq, restr, hcat, c, if_false]
        exact this
    have huniq := shoot_unique (shA_hasFDerivAt (Minv := Minv) hS hA hL) (shA'_continuous hL) (fun t => shB S Minv Fl (w * t)) hT0
      (z := z) (y := q) hz (fun t _ => (hqsol t).hasDerivWithinAt) hq0
    rw [← huniq T ⟨hT0.le, le_rfl⟩, hqT, hq0]

theorem curve_Phi (hS : S.forces = [f]) (hA : ∀ U, f.force U = .ok (A U)) {w T : ℝ} {y : ℝ → ℕ → ℝ}
    (hy : IsSol (shootLen S.nd) (shootField S Minv Fl w) T (shootInit S.nd Uw) y)
    (Φ : ℝ → (Fin (2 * S.nd) → ℝ) →L[ℝ] (Fin (2 * S.nd) → ℝ))
    (hΦ : Φ = fun t => ContinuousLinearMap.pi fun i : Fin (2 * S.nd) =>
      row (2 * S.nd) (fun j => y t (2 * S.nd + (i * (2 * S.nd) + j)))) :
    (∀ h, Φ 0 h = h) ∧ ∀ h, ∀ t ∈ Set.Icc 0 T,
      HasDerivWithinAt (fun t => Φ t h) (shA' S Minv A (restr (2 * S.nd) (y t)) (Φ t h)) (Set.Icc 0 T) t := by
  have hlen : ∀ i < 2 * S.nd, ∀ j < 2 * S.nd, i * (2 * S.nd) + j < 2 * S.nd * (2 * S.nd) := by
    intro i hi j hj
    nlinarith
  constructor
  · intro h
    funext i
    rw [hΦ]
    simp only [ContinuousLinearMap.pi_apply, row_apply]
    rw [Finset.sum_eq_single i]
    · rw [hy.1 _ (by have := hlen i i.2 i i.2; unfold shootLen; omega)]
      have hn : 0 < 2 * S.nd := by have := i.2; omega
      have hdiv : ((i:ℕ) * (2 * S.nd) + i) / (2 * S.nd) = i := by
        rw [mul_comm, Nat.mul_add_div hn, Nat.div_eq_of_lt i.2, add_zero]
      have hmod : ((i:ℕ) * (2 * S.nd) + i) % (2 * S.nd) = i := by
        rw [mul_comm, Nat.mul_add_mod, Nat.mod_eq_of_lt i.2]
      unfold shootInit hcat
      rw [if_neg (by omega), Nat.add_sub_cancel_left, if_pos (hlen i i.2 i i.2)]
      beta_reduce
      rw [hdiv, hmod]
      simp
    · intro j _ hj
      rw [hy.1 _ (by have := hlen i i.2 j j.2; unfold shootLen; omega)]
      have hn : 0 < 2 * S.nd := by have := i.2; omega
      have hdiv : ((i:ℕ) * (2 * S.nd) + j) / (2 * S.nd) = i := by
        rw [mul_comm, Nat.mul_add_div hn, Nat.div_eq_of_lt j.2, add_zero]
      have hmod : ((i:ℕ) * (2 * S.nd) + j) % (2 * S.nd) = j := by
        rw [mul_comm, Nat.mul_add_mod, Nat.mod_eq_of_lt j.2]
      unfold shootInit hcat
      rw [if_neg (by omega), Nat.add_sub_cancel_left, if_pos (hlen i i.2 j j.2)]
      beta_reduce
      rw [hdiv, hmod,
        if_neg (fun e => hj (Fin.ext e.symm)), zero_mul]
    · simp
  · intro h t ht
    obtain ⟨d, h1, h2⟩ := hy.2 t ht
    obtain ⟨d', h1', -, h3, -⟩ := shootField_ok (Minv := Minv) (Fl := Fl) hS hA w t (y t)
    rw [h1] at h1'
    cases h1'
    rw [hasDerivWithinAt_pi]
    intro i
    rw [hΦ]
    simp only [shA', ContinuousLinearMap.pi_apply, row_apply]
    have : ∀ j ∈ Finset.univ (α := Fin (2 * S.nd)), HasDerivWithinAt (fun t => y t (2 * S.nd + (i * (2 * S.nd) + j)) * h j)
        (d (2 * S.nd + (i * (2 * S.nd) + j)) * h j) (Set.Icc 0 T) t := fun j _ =>
      (h2 _ (by have := hlen i i.2 j j.2; unfold shootLen; omega)).mul_const (h j)
    refine (HasDerivWithinAt.fun_sum this).congr_deriv ?_
    have e : ∀ j : Fin (2 * S.nd), d (2 * S.nd + (i * (2 * S.nd) + j)) * h j = ∑ k : Fin (2 * S.nd),
        shDg S Minv A (restr (2 * S.nd) (y t)) i k * (y t (2 * S.nd + (k * (2 * S.nd) + j)) * h j) := by
      intro j
      rw [h3 i i.2 j j.2, Finset.sum_range, sum_mul]
      exact sum_congr rfl fun k _ => by ring
    simp only [e, mul_sum]
    rw [sum_comm]

theorem curve_zeta (hS : S.forces = [f]) (hA : ∀ U, f.force U = .ok (A U)) {w T : ℝ} {y : ℝ → ℕ → ℝ}
    (hy : IsSol (shootLen S.nd) (shootField S Minv Fl w) T (shootInit S.nd Uw) y)
    (ζ : ℝ → Fin (2 * S.nd) → ℝ)
    (hζ : ζ = fun t (i : Fin (2 * S.nd)) => y t (2 * S.nd + (2 * S.nd * (2 * S.nd) + i))) :
    ζ 0 = 0 ∧ ∀ t ∈ Set.Icc 0 T, HasDerivWithinAt ζ
      (t • shB' S Minv Fl (w * t) + shA' S Minv A (restr (2 * S.nd) (y t)) (ζ t)) (Set.Icc 0 T) t := by
  constructor
  · funext i
    rw [hζ]
    beta_reduce
    rw [hy.1 _ (by unfold shootLen; omega)]
    unfold shootInit hcat
    rw [if_neg (by omega), if_neg (by omega)]
    rfl
  · intro t ht
    obtain ⟨d, h1, h2⟩ := hy.2 t ht
    obtain ⟨d', h1', -, -, h3⟩ := shootField_ok (Minv := Minv) (Fl := Fl) hS hA w t (y t)
    rw [h1] at h1'
    cases h1'
    rw [hasDerivWithinAt_pi]
    intro i
    rw [hζ]
    refine (h2 _ (by unfold shootLen; omega)).congr_deriv ?_
    rw [h3 i]
    simp only [shA', Pi.add_apply, Pi.smul_apply, smul_eq_mul, ContinuousLinearMap.pi_apply, row_apply]
    rw [Finset.sum_range]

/-- C75: the returned matrices are the derivatives of the returned residual with respect to the initial state and
the frequency. The calls near `Uw` have to reach the end of the period. -/
theorem C75_jacobian (hivp : ExactIvp ivp) (hS : S.forces = [f])
    (hA : ∀ U, f.force U = .ok (A U)) (hL : SmoothLaw S.nd (fun U => (A U).1) (fun U => (A U).2))
    (hw : 0 < Uw (2 * S.nd)) (hNt : 0 < Nt) (res : (ℕ → ℝ) → ShootRes) (δ : ℝ) (hδ : 0 < δ)
    (h : ∀ X, (∀ i < 2 * S.nd + 1, |X i - Uw i| < δ) →
      shootingRes ivp S Minv X (2 * S.nd + 1) Fl Nt = .ok (res X) ∧ (res X).cols = Nt + 1) :
    HasJac (2 * S.nd) (2 * S.nd + 1) (fun X => (res X).R)
      (fun i j => if j < 2 * S.nd then (res Uw).dRdU i j else (res Uw).dRdw i) Uw := by
  set n := 2 * S.nd with hn
  set w := Uw n with hwd
  -- inputs near `Uw`
  set Xp : (Fin n → ℝ) × ℝ → ℕ → ℝ := fun p i => Uw i + (if hi : i < n then p.1 ⟨i, hi⟩ else if i = n then p.2 else 0) with hXp
  have hXw : ∀ p, Xp p n = w + p.2 := by intro p; simp [hXp, hwd]
  have hXi : ∀ p, ∀ i : Fin n, Xp p i = Uw i + p.1 i := by intro p i; simp [hXp]
  have hX0 : Xp 0 = Uw := by
    funext i
    simp only [hXp]
    split
    · simp
    · split <;> simp
  have hnear : ∀ p : (Fin n → ℝ) × ℝ, ‖p‖ < δ → ∀ i < n + 1, |Xp p i - Uw i| < δ := by
    intro p hp i hi
    simp only [hXp, add_sub_cancel_left]
    split
    · exact ((norm_le_pi_norm p.1 _).trans (norm_fst_le p)).trans_lt hp
    · split
      · exact (norm_snd_le p).trans_lt hp
      · simpa using hδ
  have hcurve : ∀ p : (Fin n → ℝ) × ℝ, ‖p‖ < δ ∧ 0 < w + p.2 → ∃ y, _ := fun p hp => by
    obtain ⟨h1, h2⟩ := h (Xp p) (hnear p hp.1)
    exact shoot_curve (Minv := Minv) hivp hS hA (by rw [hXw]; exact hp.2) hNt h1 h2
  choose! Y hY using hcurve
  have hP0 : ‖(0 : (Fin n → ℝ) × ℝ)‖ < δ ∧ 0 < w + (0 : (Fin n → ℝ) × ℝ).2 := by simpa using ⟨hδ, hw⟩
  obtain ⟨hy, hR, hdU, hdw⟩ := hY 0 hP0
  rw [hX0] at hy hR hdU hdw
  obtain ⟨y0, hy0⟩ : ∃ y0, y0 = Y 0 := ⟨_, rfl⟩
  rw [← hy0] at hy hR hdU hdw
  have hev : ∀ᶠ p in nhds (0 : (Fin n → ℝ) × ℝ), ‖p‖ < δ ∧ 0 < w + p.2 := by
    have c1 : Continuous fun p : (Fin n → ℝ) × ℝ => ‖p‖ := continuous_norm
    have c2 : Continuous fun p : (Fin n → ℝ) × ℝ => w + p.2 := continuous_const.add continuous_snd
    exact (c1.continuousAt.eventually (gt_mem_nhds (by simpa using hδ))).and
      (c2.continuousAt.eventually (lt_mem_nhds (by simpa using hw)))
  obtain ⟨hz0, hz⟩ := curve_parts hS hA hy
  obtain ⟨hΦ0, hΦ⟩ := curve_Phi hS hA hy _ rfl
  obtain ⟨hζ0, hζ⟩ := curve_zeta hS hA hy _ rfl
  have key := shoot_sens (shA_hasFDerivAt (Minv := Minv) hS hA hL) (shA'_continuous hL)
    (shB_hasDerivAt (S := S) (Minv := Minv) (Fl := Fl)) hw hz hΦ0 hΦ hζ0 hζ
    (fun p t => restr n (Y p t)) (by
      filter_upwards [hev] with p hp
      obtain ⟨hy', -⟩ := hY p hp
      obtain ⟨g1, g2⟩ := curve_parts hS hA hy'
      rw [hXw] at g2
      refine ⟨?_, g2⟩
      rw [g1, hz0]
      funext i
      exact hXi p i)
  intro i hi
  -- one component
  have hcomp := (hasFDerivAt_pi'.1 key) ⟨i, hi⟩
  have hlin : HasFDerivAt (fun p : (Fin n → ℝ) × ℝ => Uw i + p.1 ⟨i, hi⟩)
      ((ContinuousLinearMap.proj (R := ℝ) (φ := fun _ : Fin n => ℝ) ⟨i, hi⟩).comp (ContinuousLinearMap.fst ℝ (Fin n → ℝ) ℝ)) 0 :=
    (((ContinuousLinearMap.proj (R := ℝ) (φ := fun _ : Fin n => ℝ) ⟨i, hi⟩).comp
      (ContinuousLinearMap.fst ℝ (Fin n → ℝ) ℝ)).hasFDerivAt).const_add (Uw i)
  have hres := (hcomp.sub hlin).congr_of_eventuallyEq (f₁ := fun p => (res (Xp p)).R i) (by
    filter_upwards [hev] with p hp
    obtain ⟨-, hR', -⟩ := hY p hp
    rw [hR' i hi, hXw]
    have := hXi p ⟨i, hi⟩
    simp only at this
    rw [this]
    rfl)
  set L : (Fin (n + 1) → ℝ) →L[ℝ] (Fin n → ℝ) × ℝ :=
    (ContinuousLinearMap.pi fun j : Fin n => ContinuousLinearMap.proj (R := ℝ) (φ := fun _ : Fin (n + 1) => ℝ) j.castSucc).prod
      (ContinuousLinearMap.proj (R := ℝ) (φ := fun _ : Fin (n + 1) => ℝ) (Fin.last n)) with hLd
  have hL0 : L 0 = 0 := map_zero L
  rw [← hL0] at hres
  have hfin := hres.comp (0 : Fin (n + 1) → ℝ) L.hasFDerivAt
  unfold HasGrad
  have e1 : (fun v : Fin (n + 1) → ℝ => (res fun i => Uw i + Spec.ext v i).R i) = (fun p => (res (Xp p)).R i) ∘ L := by
    funext v
    have : (fun i => Uw i + Spec.ext v i) = Xp (L v) := by
      funext k
      simp only [hXp, Spec.ext, hLd]
      by_cases c : k < n
      · simp [c, show k < n + 1 by omega]
      · by_cases c' : k = n
        · subst c'; simp [Fin.last]
        · simp [c, c', show ¬ k < n + 1 by omega]
    simp only [this, Function.comp]
  rw [e1]
  refine hfin.congr_fderiv ?_
  ext1 v
  rw [row_apply, Fin.sum_univ_castSucc]
  simp only [Fin.val_castSucc, Fin.val_last, Fin.is_lt, if_true, lt_irrefl, if_false, hLd]
  have e2 : ∀ j : Fin n, (res Uw).dRdU i j * v j.castSucc = y0 (2 * Real.pi / Uw n) (n + (i * n + j)) * v j.castSucc
      - (if i = (j : ℕ) then v j.castSucc else 0) := by
    intro j
    rw [hdU i hi j j.2, sub_mul]
    congr 1
    split <;> simp
  have e3 := hdw ⟨i, hi⟩
  simp only at e3
  rw [e3]
  have e4 : ∑ j : Fin n, (if i = (j : ℕ) then v j.castSucc else 0) = v (Fin.castSucc ⟨i, hi⟩) := by
    rw [Finset.sum_eq_single ⟨i, hi⟩]
    · simp
    · intro j _ hj
      rw [if_neg]
      intro e
      exact hj (Fin.ext e.symm)
    · simp
  simp only [e2, sum_sub_distrib, e4]
  simp only [← hn, ← hwd, ContinuousLinearMap.comp_apply, sub_apply, add_apply, ContinuousLinearMap.pi_apply, row_apply, ContinuousLinearMap.proj_apply,
    ContinuousLinearMap.smulRight_apply, ContinuousLinearMap.coe_fst', ContinuousLinearMap.coe_snd', ContinuousLinearMap.prod_apply,
    Pi.add_apply, Pi.sub_apply, Pi.smul_apply, smul_eq_mul]
  ring

end

end TMD
