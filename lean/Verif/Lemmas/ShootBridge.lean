import Verif.Props.Shooting
import Verif.Model.Shooting
import Verif.Spec.Motion
import Verif.Lemmas.ShootSens
import Verif.Lemmas.PeriodicExt
import Mathlib.LinearAlgebra.Matrix.NonsingularInverse

/-! # The right-hand side of the shooting equations in a normed space -/

namespace TMD

open Spec Finset

noncomputable section

/-- The first `n` entries. -/
def restr (n : ℕ) (y : ℕ → ℝ) : Fin n → ℝ := fun i => y i

theorem ext_restr {n : ℕ} (y : ℕ → ℝ) {i : ℕ} (hi : i < n) : Spec.ext (restr n y) i = y i := by
  simp [Spec.ext, restr, hi]

theorem ext_add_ext {n : ℕ} (z v : Fin n → ℝ) : (fun i => Spec.ext z i + Spec.ext (v - z) i) = Spec.ext v := by
  funext i
  unfold Spec.ext
  split <;> simp

theorem HasGrad.toFDeriv {n : ℕ} {f : (ℕ → ℝ) → ℝ} {g : ℕ → ℝ} {z : Fin n → ℝ} (h : HasGrad n f g (Spec.ext z)) :
    HasFDerivAt (fun v : Fin n → ℝ => f (Spec.ext v)) (row n g) z := by
  unfold HasGrad at h
  have h1 : HasFDerivAt (fun v : Fin n → ℝ => v - z) (ContinuousLinearMap.id ℝ (Fin n → ℝ)) z :=
    (hasFDerivAt_id z).sub_const z
  have h0 : (fun v : Fin n → ℝ => v - z) z = 0 := sub_self z
  rw [← h0] at h
  have := HasFDerivAt.comp (f := fun v : Fin n → ℝ => v - z) z h h1
  rw [ContinuousLinearMap.comp_id] at this
  have e : ((fun v : Fin n → ℝ => f fun i => Spec.ext z i + Spec.ext v i) ∘ fun v => v - z)
      = fun v => f (Spec.ext v) := by
    funext v
    exact congrArg f (ext_add_ext z v)
  rwa [e] at this

theorem sl_ext {n : ℕ} (a b : ℕ) (hb : b ≤ n) (y : ℕ → ℝ) : sl a b (Spec.ext (restr n y)) = sl a b y := by
  funext i
  unfold sl
  split
  · exact ext_restr y (by omega)
  · rfl

variable (S : VibSys) (Minv : ℕ → ℕ → ℝ) (A : (ℕ → ℝ) → (ℕ → ℝ) × (ℕ → ℕ → ℝ)) (Fl : ℕ → ℝ)

/-- Autonomous part of the right-hand side. -/
def shA (z : Fin (2 * S.nd) → ℝ) : Fin (2 * S.nd) → ℝ := fun i =>
  hcat S.nd (sl S.nd (2 * S.nd) (Spec.ext z)) (matVec S.nd Minv (fun k =>
    -(matVec S.nd S.C (sl S.nd (2 * S.nd) (Spec.ext z)) k + matVec S.nd S.K (sl 0 S.nd (Spec.ext z)) k
      + (A (sl 0 S.nd (Spec.ext z))).1 k))) i

/-- Entries of its derivative. -/
def shDg (z : Fin (2 * S.nd) → ℝ) : ℕ → ℕ → ℝ := fun i j =>
  if i < S.nd then (if j < S.nd then 0 else if i = j - S.nd then 1 else 0)
  else (if j < S.nd then matMul S.nd Minv (fun i j => - S.K i j - (A (sl 0 S.nd (Spec.ext z))).2 i j) (i - S.nd) j
    else matMul S.nd Minv (fun i j => - S.C i j) (i - S.nd) (j - S.nd))

def shA' (z : Fin (2 * S.nd) → ℝ) : (Fin (2 * S.nd) → ℝ) →L[ℝ] (Fin (2 * S.nd) → ℝ) :=
  ContinuousLinearMap.pi fun i => row (2 * S.nd) (shDg S Minv A z i)

/-- Forcing part as a function of the phase. -/
def shB (θ : ℝ) : Fin (2 * S.nd) → ℝ := fun i =>
  hcat S.nd (fun _ => 0) (matVec S.nd Minv (fun k => Fl k * Real.cos θ + Fl (S.nd + k) * Real.sin θ)) i

def shB' (θ : ℝ) : Fin (2 * S.nd) → ℝ := fun i =>
  hcat S.nd (fun _ => 0) (matVec S.nd Minv (fun k => -Fl k * Real.sin θ + Fl (S.nd + k) * Real.cos θ)) i

variable {S Minv A Fl}

theorem shB_hasDerivAt (θ : ℝ) : HasDerivAt (shB S Minv Fl) (shB' S Minv Fl θ) θ := by
  rw [hasDerivAt_pi]
  intro i
  unfold shB shB' hcat
  split
  · exact hasDerivAt_const _ _
  · unfold matVec
    refine HasDerivAt.fun_sum fun k _ => ?_
    have := (((Real.hasDerivAt_cos θ).const_mul (Fl k)).add ((Real.hasDerivAt_sin θ).const_mul (Fl (S.nd + k)))).const_mul
      (Minv (i - S.nd) k)
    exact this.congr_deriv (by ring)

theorem shB_periodic (θ : ℝ) : shB S Minv Fl (θ + 2 * Real.pi) = shB S Minv Fl θ := by
  unfold shB; simp only [Real.cos_add_two_pi, Real.sin_add_two_pi]

/-- The flat right-hand side never fails and consists of the three parts. -/
theorem shootField_ok {f : NLForce} (hS : S.forces = [f]) (hA : ∀ U, f.force U = .ok (A U)) (w t : ℝ) (y : ℕ → ℝ) :
    ∃ d, shootField S Minv Fl w t y = .ok d ∧
      restr (2 * S.nd) d = shA S Minv A (restr (2 * S.nd) y) + shB S Minv Fl (w * t) ∧
      (∀ i < 2 * S.nd, ∀ j < 2 * S.nd, d (2 * S.nd + (i * (2 * S.nd) + j)) = ∑ k ∈ range (2 * S.nd),
        shDg S Minv A (restr (2 * S.nd) y) i k * y (2 * S.nd + (k * (2 * S.nd) + j))) ∧
      (∀ i : Fin (2 * S.nd), d (2 * S.nd + (2 * S.nd * (2 * S.nd) + i)) = t * shB' S Minv Fl (w * t) i
        + ∑ k ∈ range (2 * S.nd), shDg S Minv A (restr (2 * S.nd) y) i k * y (2 * S.nd + (2 * S.nd * (2 * S.nd) + k))) := by
  obtain ⟨o, h1, h2, h3, h4, h5, h6⟩ := shoot_ok S Minv t (sl 0 S.nd y) (sl S.nd (2 * S.nd) y)
    (fun i j => y (2 * S.nd + (i * (2 * S.nd) + j))) (fun i => y (2 * S.nd + (2 * S.nd * (2 * S.nd) + i))) Fl w
    (fun _ => A (sl 0 S.nd y)) (by intro g hg; rw [hS, List.mem_singleton] at hg; subst hg; exact hA _) [] f (by simpa using hS)
  have hdg : o.dgdz = shDg S Minv A (restr (2 * S.nd) y) := by
    rw [h4]
    unfold shDg
    simp only [hS, List.map_cons, List.map_nil, List.sum_cons, List.sum_nil, add_zero]
    rw [sl_ext 0 S.nd (by omega)]
  refine ⟨_, by unfold shootField; simp only [h1]; rfl, ?_, ?_, ?_⟩
  · funext i
    have hi := i.2
    simp only [restr, Pi.add_apply, shA, shB]
    change hcat S.nd o.Udot _ i = _
    unfold hcat
    rw [sl_ext S.nd (2 * S.nd) le_rfl, sl_ext 0 S.nd (by omega)]
    by_cases c : (i : ℕ) < S.nd
    · simp [c, h2]
    · have c2 : (i : ℕ) - S.nd < S.nd := by omega
      simp only [c, c2, if_true, if_false, h3]
      unfold matVec
      rw [← sum_add_distrib]
      refine sum_congr rfl fun k _ => ?_
      ring
  · intro i hi j hj
    have hlt : i * (2 * S.nd) + j < 2 * S.nd * (2 * S.nd) := by nlinarith
    have hdiv : (i * (2 * S.nd) + j) / (2 * S.nd) = i := by
      rw [mul_comm, Nat.mul_add_div (by omega), Nat.div_eq_of_lt hj, add_zero]
    have hmod : (i * (2 * S.nd) + j) % (2 * S.nd) = j := by
      rw [mul_comm, Nat.mul_add_mod, Nat.mod_eq_of_lt hj]
    unfold hcat
    rw [if_neg (by omega), if_neg (by omega),
      show 2 * S.nd + (i * (2 * S.nd) + j) - S.nd - S.nd = i * (2 * S.nd) + j by omega, if_pos hlt]
    beta_reduce
    rw [hdiv, hmod, h5, hdg]
    rfl
  · intro i
    unfold hcat
    rw [if_neg (by omega), if_neg (by omega),
      show 2 * S.nd + (2 * S.nd * (2 * S.nd) + (i:ℕ)) - S.nd - S.nd = 2 * S.nd * (2 * S.nd) + i by omega,
      if_neg (by omega), show 2 * S.nd * (2 * S.nd) + (i:ℕ) - 2 * S.nd * (2 * S.nd) = i by omega, h6, hdg]
    refine congrArg₂ (· + ·) ?_ rfl
    unfold shB' hcat
    split
    · simp
    · unfold matVec
      rw [mul_sum]
      exact sum_congr rfl fun k _ => by ring

theorem shA_hasFDerivAt {f : NLForce} (hS : S.forces = [f]) (hA : ∀ U, f.force U = .ok (A U))
    (hL : SmoothLaw S.nd (fun U => (A U).1) (fun U => (A U).2)) (z : Fin (2 * S.nd) → ℝ) :
    HasFDerivAt (shA S Minv A) (shA' S Minv A z) z := by
  have hdep : ∀ a b, (∀ i < S.nd, a i = b i) → A a = A b := fun a b h => Prod.ext (hL.local_f a b h) (hL.local_J a b h)
  obtain ⟨o, h1, h2⟩ := C51_jacobian S Minv 0 (fun _ _ => 0) (fun _ => 0) (fun _ => 0) 0 f hS A hA hdep
  rw [hasFDerivAt_pi']
  intro i
  have hJ := h2 (Spec.ext z) (hL.jac _) i i.2
  have key : ∀ y, (hcat S.nd (o y).Udot (o y).Vdot i = hcat S.nd (sl S.nd (2 * S.nd) y) (matVec S.nd Minv (fun k =>
      -(matVec S.nd S.C (sl S.nd (2 * S.nd) y) k + matVec S.nd S.K (sl 0 S.nd y) k + (A (sl 0 S.nd y)).1 k))) i) ∧
      (o y).dgdz = fun i j => if i < S.nd then (if j < S.nd then 0 else if i = j - S.nd then 1 else 0)
        else (if j < S.nd then matMul S.nd Minv (fun i j => - S.K i j - (A (sl 0 S.nd y)).2 i j) (i - S.nd) j
          else matMul S.nd Minv (fun i j => - S.C i j) (i - S.nd) (j - S.nd)) := by
    intro y
    obtain ⟨o', g1, g2, g3, g4, -⟩ := shoot_ok S Minv 0 (sl 0 S.nd y) (sl S.nd (2 * S.nd) y)
      (fun _ _ => 0) (fun _ => 0) (fun _ => 0) 0
      (fun _ => A (sl 0 S.nd y)) (by intro g hg; rw [hS, List.mem_singleton] at hg; subst hg; exact hA _) [] f (by simpa using hS)
    have e : o y = o' := Except.ok.inj ((h1 y).symm.trans g1)
    rw [e]
    refine ⟨?_, ?_⟩
    · rw [g2, g3]
      simp
    · rw [g4]
      simp only [hS, List.map_cons, List.map_nil, List.sum_cons, List.sum_nil, add_zero]
  have h3 := HasGrad.toFDeriv (hJ.congr_fun (fun y => (key y).1.symm))
  refine h3.congr_fderiv ?_
  rw [(key (Spec.ext z)).2]
  rfl

theorem shA'_continuous (hL : SmoothLaw S.nd (fun U => (A U).1) (fun U => (A U).2)) :
    Continuous (shA' S Minv A) := by
  have hJ : ∀ i < S.nd, ∀ j < S.nd, Continuous fun z : Fin (2 * S.nd) → ℝ => (A (sl 0 S.nd (Spec.ext z))).2 i j := by
    intro i hi j hj
    have c : Continuous fun z : Fin (2 * S.nd) → ℝ => fun k : Fin S.nd => z ⟨k, by omega⟩ :=
      continuous_pi fun k => continuous_apply _
    have := (hL.cont i hi j hj).comp c
    refine this.congr fun z => ?_
    have := hL.local_J (Spec.ext fun k : Fin S.nd => z ⟨k, by omega⟩) (sl 0 S.nd (Spec.ext z)) (by
      intro k hk
      have hk2 : k < 2 * S.nd := by omega
      simp [sl, Spec.ext, hk, hk2])
    exact congrFun (congrFun this i) j
  have hDg : ∀ i < 2 * S.nd, ∀ j < 2 * S.nd, Continuous fun z : Fin (2 * S.nd) → ℝ => shDg S Minv A z i j := by
    intro i hi j hj
    unfold shDg
    split
    · exact continuous_const
    · split
      · unfold matMul
        refine continuous_finsetSum _ fun k hk => ?_
        exact continuous_const.mul (continuous_const.sub (hJ k (mem_range.1 hk) j (by assumption)))
      · exact continuous_const
  have e : shA' S Minv A = fun z => ∑ i : Fin (2 * S.nd), ∑ j : Fin (2 * S.nd), shDg S Minv A z i j •
      (ContinuousLinearMap.single ℝ (fun _ : Fin (2 * S.nd) => ℝ) i).comp
        (ContinuousLinearMap.proj (R := ℝ) (φ := fun _ : Fin (2 * S.nd) => ℝ) j) := by
    funext z
    refine ContinuousLinearMap.ext fun v => funext fun i => ?_
    simp only [shA', ContinuousLinearMap.pi_apply, row_apply, _root_.sum_apply, Finset.sum_apply,
      smul_apply, ContinuousLinearMap.comp_apply, ContinuousLinearMap.proj_apply,
      ContinuousLinearMap.single_apply, Pi.smul_apply, smul_eq_mul, Pi.single_apply]
    symm
    rw [Finset.sum_eq_single i]
    · simp
    · intro k _ hk
      simp [hk.symm]
    · simp
  rw [e]
  exact continuous_finsetSum _ fun i _ => continuous_finsetSum _ fun j _ =>
    (hDg i i.2 j j.2).smul continuous_const

end

end TMD
