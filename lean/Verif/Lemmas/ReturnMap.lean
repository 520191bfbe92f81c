import Verif.Props.ShootingRes
import Verif.Lemmas.FixedPoint

/-! # The period map of the shooting residual -/

namespace TMD

open Spec Finset

noncomputable section

variable {ivp : SolveIvp} {S : VibSys} {Minv : ℕ → ℕ → ℝ} {Uw Fl : ℕ → ℝ} {Nt : ℕ} {r : ShootRes}
  {A : (ℕ → ℝ) → (ℕ → ℝ) × (ℕ → ℕ → ℝ)} {f : NLForce}

/-- A motion as a curve of states. -/
theorem motion_ode (hM : IsInv S.nd S.M Minv) (hL : SmoothLaw S.nd (fun U => (A U).1) (fun U => (A U).2)) {w : ℝ} {s : Set ℝ}
    {u v : ℝ → ℕ → ℝ} (hp : Motion S.nd S.M S.C S.K (fun U => (A U).1) Fl w s u v) {q : ℝ → Fin (2 * S.nd) → ℝ}
    (hq : q = fun t => restr (2 * S.nd) (hcat S.nd (u t) (v t))) :
    ∀ t ∈ s, HasDerivWithinAt q (shA S Minv A (q t) + shB S Minv Fl (w * t)) s t := by
  intro t ht
  obtain ⟨acc, ha, hm⟩ := hp.motion t ht
  rw [eom_iff hM] at hm
  rw [hasDerivWithinAt_pi]
  intro i
  have hV : ∀ k < S.nd, sl S.nd (2 * S.nd) (Spec.ext (q t)) k = v t k := by
    intro k hk
    simp [sl, show k < 2 * S.nd - S.nd by omega, Spec.ext, show S.nd + k < 2 * S.nd by omega, hq, restr, hcat]
  have hU : ∀ k < S.nd, sl 0 S.nd (Spec.ext (q t)) k = u t k := by
    intro k hk
    simp [sl, hk, Spec.ext, show k < 2 * S.nd by omega, hq, restr, hcat]
  by_cases c : (i : ℕ) < S.nd
  · have := hp.velocity t ht i c
    rw [← hV i c] at this
    have e : (fun t => q t i) = fun t => u t i := by
      funext t; simp [hq, restr, hcat, c]
    rw [e]
    simpa only [hcat, c, if_true, Pi.add_apply, shA, shB, add_zero] using this
  · have c2 : (i : ℕ) - S.nd < S.nd := by omega
    have h1 := ha _ c2
    rw [hm _ c2] at h1
    have e : (fun t => q t i) = fun t => v t (i - S.nd) := by
      funext t; simp [hq, restr, hcat, c]
    rw [e]
    refine h1.congr_deriv ?_
    have hf : (A (sl 0 S.nd (Spec.ext (q t)))).1 = (A (u t)).1 := hL.local_f _ _ hU
    have e1 : ∀ k, matVec S.nd S.C (sl S.nd (2 * S.nd) (Spec.ext (q t))) k = matVec S.nd S.C (v t) k := matVec_congr hV
    have e2 : ∀ k, matVec S.nd S.K (sl 0 S.nd (Spec.ext (q t))) k = matVec S.nd S.K (u t) k := matVec_congr hU
    simp only [hcat, c, if_false, Pi.add_apply, shA, shB]
    simp only [hf, e1, e2]
    unfold matVec
    rw [← sum_add_distrib]
    exact sum_congr rfl fun k _ => by ring

/-- A curve of states as a motion. -/
theorem ode_motion (hM : IsInv S.nd S.M Minv) (hL : SmoothLaw S.nd (fun U => (A U).1) (fun U => (A U).2)) {w : ℝ} {s : Set ℝ}
    {y : ℝ → ℕ → ℝ} (hz : ∀ t ∈ s, HasDerivWithinAt (fun t => restr (2 * S.nd) (y t))
      (shA S Minv A (restr (2 * S.nd) (y t)) + shB S Minv Fl (w * t)) s t) :
    Motion S.nd S.M S.C S.K (fun U => (A U).1) Fl w s y (fun t i => y t (S.nd + i)) := by
  have hcomp : ∀ t ∈ s, ∀ i : Fin (2 * S.nd), HasDerivWithinAt (fun t => y t i)
      (shA S Minv A (restr (2 * S.nd) (y t)) i + shB S Minv Fl (w * t) i) s t := fun t ht i => (hasDerivWithinAt_pi.1 (hz t ht)) i
  constructor
  · intro t ht i hi
    have h2 : i < 2 * S.nd := by omega
    have h3 : S.nd + i < 2 * S.nd := by omega
    have := hcomp t ht ⟨i, h2⟩
    simp only [shA, shB, hcat, hi, if_true, add_zero, sl, show i < 2 * S.nd - S.nd by omega] at this
    simpa [Spec.ext, h3, restr] using this
  · intro t ht
    refine ⟨fun i => if h : S.nd + i < 2 * S.nd then shA S Minv A (restr (2 * S.nd) (y t)) ⟨S.nd + i, h⟩
      + shB S Minv Fl (w * t) ⟨S.nd + i, h⟩ else 0, ?_, ?_⟩
    · intro i hi
      have h3 : S.nd + i < 2 * S.nd := by omega
      have := hcomp t ht ⟨S.nd + i, h3⟩
      simpa [h3] using this
    · rw [eom_iff hM]
      intro i hi
      have h3 : S.nd + i < 2 * S.nd := by omega
      rw [dif_pos h3]
      simp only [shA, shB, hcat, show ¬ S.nd + i < S.nd by omega, if_false, Nat.add_sub_cancel_left]
      rw [sl_ext S.nd (2 * S.nd) le_rfl, sl_ext 0 S.nd (by omega)]
      have hf : (A (sl 0 S.nd (y t))).1 = (A (y t)).1 :=
        hL.local_f _ _ fun k hk => by simp [sl, hk]
      have hV : ∀ k, matVec S.nd S.C (sl S.nd (2 * S.nd) (y t)) k = matVec S.nd S.C (fun i => y t (S.nd + i)) k :=
        matVec_congr fun k hk => by simp [sl, show k < 2 * S.nd - S.nd by omega]
      have hU : ∀ k, matVec S.nd S.K (sl 0 S.nd (y t)) k = matVec S.nd S.K (y t) k :=
        matVec_congr fun k hk => by simp [sl, hk]
      simp only [hf, hV, hU]
      unfold matVec
      rw [← sum_add_distrib]
      exact sum_congr rfl fun k _ => by ring

/-- State part `z`, frequency of `Uw`. -/
def withState (n : ℕ) (Uw : ℕ → ℝ) (z : Fin n → ℝ) : ℕ → ℝ := fun i => if h : i < n then z ⟨i, h⟩ else Uw i

theorem withState_self (n : ℕ) (Uw : ℕ → ℝ) : withState n Uw (restr n Uw) = Uw := by
  funext i
  simp [withState, restr]

theorem restr_withState (n : ℕ) (Uw : ℕ → ℝ) (z : Fin n → ℝ) : restr n (withState n Uw z) = z := by
  funext i
  simp [withState, restr]

/-- One period of a motion is one application of the residual. -/
theorem period_step (hivp : ExactIvp ivp) (hS : S.forces = [f]) (hA : ∀ U, f.force U = .ok (A U))
    (hL : SmoothLaw S.nd (fun U => (A U).1) (fun U => (A U).2)) (hw : 0 < Uw (2 * S.nd)) (hNt : 0 < Nt)
    (h : shootingRes ivp S Minv Uw (2 * S.nd + 1) Fl Nt = .ok r) (hc : r.cols = Nt + 1)
    {q : ℝ → Fin (2 * S.nd) → ℝ}
    (hq : ∀ t ∈ Set.Icc 0 (2 * Real.pi / Uw (2 * S.nd)), HasDerivWithinAt q
      (shA S Minv A (q t) + shB S Minv Fl (Uw (2 * S.nd) * t)) (Set.Icc 0 (2 * Real.pi / Uw (2 * S.nd))) t)
    (h0 : q 0 = restr (2 * S.nd) Uw) :
    q (2 * Real.pi / Uw (2 * S.nd)) = restr (2 * S.nd) r.R + restr (2 * S.nd) Uw := by
  obtain ⟨y, hy, hR, -, -⟩ := shoot_curve hivp hS hA hw hNt h hc
  obtain ⟨hz0, hz⟩ := curve_parts hS hA hy
  have hT0 : 0 < 2 * Real.pi / Uw (2 * S.nd) := by have := Real.pi_pos; positivity
  have huniq := shoot_unique (shA_hasFDerivAt (Minv := Minv) hS hA hL) (shA'_continuous hL)
    (fun t => shB S Minv Fl (Uw (2 * S.nd) * t)) hT0 hz hq (h0.trans hz0.symm)
  rw [huniq _ ⟨hT0.le, le_rfl⟩]
  funext i
  simp only [restr, Pi.add_apply, hR i i.2, sub_add_cancel]

theorem monodromy_eq {len : ℕ} (h : shootingRes ivp S Minv Uw len Fl Nt = .ok r) (i j : ℕ) :
    r.monodromy i j = r.dRdU i j + if i = j then 1 else 0 := by
  obtain ⟨-, o, Yd, -, -, -, hr⟩ := shootingRes_ok h
  rw [hr]
  simp

/-- The period map is differentiable with the monodromy matrix as derivative. -/
theorem period_deriv (hivp : ExactIvp ivp) (hS : S.forces = [f])
    (hA : ∀ U, f.force U = .ok (A U)) (hL : SmoothLaw S.nd (fun U => (A U).1) (fun U => (A U).2))
    (hw : 0 < Uw (2 * S.nd)) (hNt : 0 < Nt) (res : (ℕ → ℝ) → ShootRes) (δ : ℝ) (hδ : 0 < δ)
    (h : ∀ X, (∀ i < 2 * S.nd + 1, |X i - Uw i| < δ) →
      shootingRes ivp S Minv X (2 * S.nd + 1) Fl Nt = .ok (res X) ∧ (res X).cols = Nt + 1) :
    HasFDerivAt (fun z => restr (2 * S.nd) (res (withState (2 * S.nd) Uw z)).R + z)
      (ContinuousLinearMap.pi fun i : Fin (2 * S.nd) => row (2 * S.nd) ((res Uw).monodromy i)) (restr (2 * S.nd) Uw) := by
  have hjac := C75_jacobian hivp hS hA hL hw hNt res δ hδ h
  have hok := (h Uw (by simp [hδ])).1
  set n := 2 * S.nd with hn
  rw [hasFDerivAt_pi']
  intro i
  have h1 := hjac i i.2
  unfold HasGrad at h1
  -- insert the state perturbation
  set L : (Fin n → ℝ) →L[ℝ] (Fin (n + 1) → ℝ) := ContinuousLinearMap.pi fun j : Fin (n + 1) =>
    if hj : (j : ℕ) < n then ContinuousLinearMap.proj (R := ℝ) (φ := fun _ : Fin n => ℝ) ⟨j, hj⟩ else 0 with hLd
  have hL0 : HasFDerivAt (fun z : Fin n → ℝ => L (z - restr n Uw)) L (restr n Uw) :=
    (L.hasFDerivAt (x := restr n Uw - restr n Uw)).comp (restr n Uw) (f := fun z => z - restr n Uw)
      ((hasFDerivAt_id (restr n Uw)).sub_const _)
  have hz : L (restr n Uw - restr n Uw) = 0 := by rw [sub_self, map_zero]
  have h2 := h1
  rw [← hz] at h2
  have h3 := h2.comp (restr n Uw) (f := fun z : Fin n → ℝ => L (z - restr n Uw)) hL0
  have hid : HasFDerivAt (fun z : Fin n → ℝ => z i) (ContinuousLinearMap.proj (R := ℝ) (φ := fun _ : Fin n => ℝ) i) (restr n Uw) :=
    (ContinuousLinearMap.proj (R := ℝ) (φ := fun _ : Fin n => ℝ) i).hasFDerivAt
  have h4 := h3.add hid
  have e : (fun z : Fin n → ℝ => (restr n (res (withState n Uw z)).R + z) i)
      = ((fun v : Fin (n + 1) → ℝ => (res fun i => Uw i + Spec.ext v i).R i) ∘ fun z : Fin n → ℝ => L (z - restr n Uw))
        + fun z : Fin n → ℝ => z i := by
    funext z
    have : (fun k => Uw k + Spec.ext (L (z - restr n Uw)) k) = withState n Uw z := by
      funext k
      by_cases c : k < n
      · simp [Spec.ext, withState, hLd, c, show k < n + 1 by omega, restr]
      · by_cases c' : k < n + 1
        · simp [Spec.ext, withState, hLd, c, c']
        · simp [Spec.ext, withState, c, c']
    simp only [Pi.add_apply, Function.comp, this, restr]
  rw [e]
  refine h4.congr_fderiv ?_
  ext1 v
  simp only [add_apply, ContinuousLinearMap.comp_apply, ContinuousLinearMap.pi_apply, ContinuousLinearMap.proj_apply, row_apply]
  rw [Fin.sum_univ_castSucc]
  have hv : ∀ j : Fin n, L v j.castSucc = v j := fun j => by simp [hLd]
  have hv' : L v (Fin.last n) = 0 := by simp [hLd]
  simp only [hv, hv', mul_zero, add_zero, Fin.val_castSucc, Fin.is_lt, if_true, monodromy_eq hok, add_mul, sum_add_distrib]
  congr 1
  rw [Finset.sum_eq_single i]
  · simp
  · intro j _ hj
    rw [if_neg (fun e => hj (Fin.ext e.symm)), zero_mul]
  · simp

/-- Eigenvalues of the leading part as a matrix. -/
theorem eigen_matrix {n : ℕ} {B : ℕ → ℕ → ℝ} {l : ℂ}
    (h : ∃ v, v ≠ 0 ∧ ((Matrix.of fun i j : Fin n => B i j).map (fun x : ℝ => (x : ℂ))).mulVec v = l • v) : Eigen n B l := by
  obtain ⟨v, hv, he⟩ := h
  refine ⟨fun i => if hi : i < n then v ⟨i, hi⟩ else 0, ?_, ?_⟩
  · obtain ⟨i, hi⟩ := Function.ne_iff.1 hv
    exact ⟨i, i.2, by simpa using hi⟩
  · intro i hi
    have := congrFun he ⟨i, hi⟩
    rw [Finset.sum_range]
    simpa [Matrix.mulVec, dotProduct, hi] using this

theorem clm_pow {n : ℕ} (B : ℕ → ℕ → ℝ) (k : ℕ) (v : Fin n → ℝ) :
    ((ContinuousLinearMap.pi fun i : Fin n => row n (B i)) ^ k) v = ((Matrix.of fun i j : Fin n => B i j) ^ k).mulVec v := by
  induction k generalizing v with
  | zero => simp
  | succ k ih =>
    rw [pow_succ, pow_succ, show ∀ (P Q : (Fin n → ℝ) →L[ℝ] (Fin n → ℝ)), (P * Q) v = P (Q v) from fun _ _ => rfl, ih, ← Matrix.mulVec_mulVec]
    congr 1
    funext i
    simp [row_apply, Matrix.mulVec, dotProduct]

end

end TMD
