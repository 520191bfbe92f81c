import Verif.Props.Residual
import Mathlib.Analysis.SpecialFunctions.Trigonometric.Deriv

/-!
# Property C51: equation of motion used by the shooting residual
-/

namespace TMD

open Spec Finset

noncomputable section

theorem shootLoop_ok (U : ℕ → ℝ) (fs : List NLForce) (A : NLForce → (ℕ → ℝ) × (ℕ → ℕ → ℝ))
    (hA : ∀ f ∈ fs, f.force U = .ok (A f)) (a : (ℕ → ℝ) × (ℕ → ℕ → ℝ) × Option (ℕ → ℝ)) :
    shootLoop U fs a = .ok (fun i => a.1 i + (fs.map (fun f => (A f).1 i)).sum,
      fun i j => a.2.1 i j + (fs.map (fun f => (A f).2 i j)).sum,
      match fs.getLast? with
      | none => a.2.2
      | some f => some (A f).1) := by
  induction fs generalizing a with
  | nil => simp [shootLoop]
  | cons f fs ih =>
    simp only [shootLoop, hA f List.mem_cons_self]
    rw [ih (fun g hg => hA g (List.mem_cons_of_mem _ hg))]
    simp only [List.map_cons, List.sum_cons, add_assoc]
    congr 3
    rcases fs with _ | ⟨g, gs⟩
    · simp
    · rw [List.getLast?_cons_cons]
      cases h : (g :: gs).getLast? with
      | none => simp at h
      | some x => rfl

theorem shoot_ok (S : VibSys) (Minv : ℕ → ℕ → ℝ) (t : ℝ) (U V : ℕ → ℝ) (Phi : ℕ → ℕ → ℝ) (dUVdw Fl : ℕ → ℝ)
    (omega : ℝ) (A : NLForce → (ℕ → ℝ) × (ℕ → ℕ → ℝ)) (hA : ∀ f ∈ S.forces, f.force U = .ok (A f))
    (fs : List NLForce) (fl : NLForce) (hS : S.forces = fs ++ [fl]) :
    ∃ o, shootingStateSpace S Minv t U V Phi dUVdw Fl omega = .ok o ∧ o.Udot = V ∧
      o.Vdot = matVec S.nd Minv (fun i => -(matVec S.nd S.C V i + matVec S.nd S.K U i + (A fl).1 i)
        + (Fl i * Real.cos (omega * t) + Fl (S.nd + i) * Real.sin (omega * t))) ∧
      o.dgdz = (fun i j => if i < S.nd then (if j < S.nd then 0 else if i = j - S.nd then 1 else 0)
        else (if j < S.nd then matMul S.nd Minv (fun i j => - S.K i j - (S.forces.map (fun f => (A f).2 i j)).sum) (i - S.nd) j
          else matMul S.nd Minv (fun i j => - S.C i j) (i - S.nd) (j - S.nd))) ∧
      o.Phidot = matMul (2 * S.nd) o.dgdz Phi ∧
      o.dwdot = fun i => hcat S.nd (fun _ => 0) (matVec S.nd Minv (fun i =>
        -t * Fl i * Real.sin (omega * t) + t * Fl (S.nd + i) * Real.cos (omega * t))) i
        + matVec (2 * S.nd) o.dgdz dUVdw i := by
  refine ⟨?o, ?h1, ?h2⟩
  case h1 =>
    unfold shootingStateSpace
    rw [shootLoop_ok U S.forces A hA]
    simp only [hS, List.getLast?_append, List.getLast?_singleton, Option.or_some, Option.some_or]
    rfl
  case h2 =>
    refine ⟨rfl, rfl, ?_, rfl, rfl⟩
    simp only [hS, zero_add]

/-- `Minv` is the inverse of `M`. -/
def IsInv (n : ℕ) (M Minv : ℕ → ℕ → ℝ) : Prop :=
  ∀ i < n, ∀ j < n, ∑ k ∈ range n, M i k * Minv k j = if i = j then 1 else 0

theorem isInv_apply {n : ℕ} {M Minv : ℕ → ℕ → ℝ} (h : IsInv n M Minv) (v : ℕ → ℝ) {i : ℕ} (hi : i < n) :
    matVec n M (matVec n Minv v) i = v i := by
  unfold matVec
  simp only [mul_sum]
  rw [sum_comm]
  have : ∀ j ∈ range n, ∑ k ∈ range n, M i k * (Minv k j * v j) = (if i = j then 1 else 0) * v j := by
    intro j hj
    rw [← h i hi j (mem_range.mp hj), sum_mul]
    exact sum_congr rfl (fun k _ => by ring)
  rw [sum_congr rfl this, sum_eq_single_of_mem i (mem_range.mpr hi)]
  · simp
  · intro k _ hk; simp [Ne.symm hk]

/-- C51, exact law of the code: the equation of motion that is integrated contains the *last* nonlinear force
only. -/
theorem C51_last_force_only (S : VibSys) (Minv : ℕ → ℕ → ℝ) (hM : IsInv S.nd S.M Minv) (t : ℝ) (U V : ℕ → ℝ)
    (Phi : ℕ → ℕ → ℝ) (dUVdw Fl : ℕ → ℝ) (omega : ℝ) (A : NLForce → (ℕ → ℝ) × (ℕ → ℕ → ℝ))
    (hA : ∀ f ∈ S.forces, f.force U = .ok (A f)) (fs : List NLForce) (fl : NLForce) (hS : S.forces = fs ++ [fl]) :
    ∃ o, shootingStateSpace S Minv t U V Phi dUVdw Fl omega = .ok o ∧ ∀ i < S.nd, o.Udot i = V i ∧
      ∑ j ∈ range S.nd, (S.M i j * o.Vdot j + S.C i j * V j + S.K i j * U j) + (A fl).1 i
        = Fl i * Real.cos (omega * t) + Fl (S.nd + i) * Real.sin (omega * t) := by
  obtain ⟨o, h1, h2, h3, -⟩ := shoot_ok S Minv t U V Phi dUVdw Fl omega A hA fs fl hS
  refine ⟨o, h1, fun i hi => ⟨by rw [h2], ?_⟩⟩
  rw [sum_add_distrib, sum_add_distrib]
  have := isInv_apply hM (fun i => -(matVec S.nd S.C V i + matVec S.nd S.K U i + (A fl).1 i)
        + (Fl i * Real.cos (omega * t) + Fl (S.nd + i) * Real.sin (omega * t))) hi
  rw [← h3] at this
  unfold matVec at this
  rw [this]
  ring

/-- C51, partial: with exactly one nonlinear force the integrated equation is
`M x'' + C x' + K x + f = F_cos cos + F_sin sin`. -/
theorem C51_partial (S : VibSys) (Minv : ℕ → ℕ → ℝ) (hM : IsInv S.nd S.M Minv) (t : ℝ) (U V : ℕ → ℝ)
    (Phi : ℕ → ℕ → ℝ) (dUVdw Fl : ℕ → ℝ) (omega : ℝ) (A : NLForce → (ℕ → ℝ) × (ℕ → ℕ → ℝ))
    (hA : ∀ f ∈ S.forces, f.force U = .ok (A f)) (h1 : S.forces.length = 1) :
    ∃ o, shootingStateSpace S Minv t U V Phi dUVdw Fl omega = .ok o ∧ ∀ i < S.nd, o.Udot i = V i ∧
      ∑ j ∈ range S.nd, (S.M i j * o.Vdot j + S.C i j * V j + S.K i j * U j)
        + (S.forces.map (fun f => (A f).1 i)).sum
        = Fl i * Real.cos (omega * t) + Fl (S.nd + i) * Real.sin (omega * t) := by
  obtain ⟨fl, hfl⟩ := List.length_eq_one_iff.mp h1
  obtain ⟨o, h2, h3⟩ := C51_last_force_only S Minv hM t U V Phi dUVdw Fl omega A hA [] fl (by simpa using hfl)
  refine ⟨o, h2, fun i hi => ?_⟩
  rw [hfl]
  simpa using h3 i hi

/-- C51, violated: without nonlinear forces the evaluation fails (a linear system cannot be treated). -/
theorem C51_violated_none (S : VibSys) (hS : S.forces = []) (Minv : ℕ → ℕ → ℝ) (t : ℝ) (U V : ℕ → ℝ)
    (Phi : ℕ → ℕ → ℝ) (dUVdw Fl : ℕ → ℝ) (omega : ℝ) :
    shootingStateSpace S Minv t U V Phi dUVdw Fl omega = .error .name := by
  unfold shootingStateSpace
  simp [hS, shootLoop]

/-- C51, violated: two cubic springs `x³`, `x = 1` at rest. The sum of forces is 3 (with `K = 1`), but the
acceleration computed is `-2`. -/
theorem C51_violated : ∃ (S : VibSys) (o : ShootOut) (A : NLForce → (ℕ → ℝ) × (ℕ → ℕ → ℝ)),
    S = ((VibSys.init 1 (fun _ _ => 1) (fun _ _ => 1) none none).addNlForce
      (cubicNL 1 1 (fun _ _ => 1) (fun _ _ => 1) (fun _ => 1))).addNlForce
      (cubicNL 1 1 (fun _ _ => 1) (fun _ _ => 1) (fun _ => 1)) ∧
    (∀ f ∈ S.forces, f.force (fun _ => 1) = .ok (A f)) ∧
    shootingStateSpace S (fun _ _ => 1) 0 (fun _ => 1) (fun _ => 0) (fun _ _ => 0) (fun _ => 0) (fun _ => 0) 1 = .ok o ∧
    S.M 0 0 * o.Vdot 0 + S.C 0 0 * 0 + S.K 0 0 * 1 + (S.forces.map (fun f => (A f).1 0)).sum = 1 := by
  let f := cubicNL 1 1 (fun _ _ => 1) (fun _ _ => 1) (fun _ => 1)
  obtain ⟨r, hr, hr1⟩ : ∃ r, f.force (fun _ => 1) = .ok r ∧ r.1 0 = 1 := by
    exact ⟨cubicForce 1 1 (fun _ _ => 1) (fun _ _ => 1) (fun _ => 1) (fun _ => 1), rfl, by norm_num [matVec, cubicForce]⟩
  have hmem : ∀ g ∈ (((VibSys.init 1 (fun _ _ => 1) (fun _ _ => 1) none none).addNlForce f).addNlForce f).forces,
      g.force (fun _ => 1) = .ok ((fun _ => r) g) := by
    intro g hg
    simp [VibSys.addNlForce, VibSys.init] at hg
    rw [hg, hr]
  obtain ⟨o, h1, h2, h3, -⟩ := shoot_ok (((VibSys.init 1 (fun _ _ => 1) (fun _ _ => 1) none none).addNlForce f).addNlForce f)
    (fun _ _ => 1) 0 (fun _ => 1) (fun _ => 0) (fun _ _ => 0) (fun _ => 0) (fun _ => 0) 1 (fun _ => r) hmem [f] f rfl
  refine ⟨_, o, fun _ => r, rfl, hmem, h1, ?_⟩
  rw [h3]
  simp [VibSys.addNlForce, VibSys.init, matVec, hr1]

theorem hasGrad_shift {n : ℕ} {x : ℕ → ℝ} {φ : (ℕ → ℝ) → ℝ} {g : ℕ → ℝ} {nd : ℕ}
    (hdep : ∀ a b, (∀ i < nd, a i = b i) → φ a = φ b) (h : HasGrad nd φ g x) :
    HasGrad n φ (fun j => if j < nd then g j else 0) x := by
  have := HasGrad.reindex (n := n) (m := nd) (x := x) (φ := φ) (g := g) (fun k => k) hdep h
  refine this.congr (fun j _ => ?_)
  rw [sum_coord]

/-- C51: `dg_dz` is the true Jacobian of the state derivative `(Udot, Vdot)` with respect to the state
`(U, V)` if the only force returns its true Jacobian and depends on the displacements only. -/
theorem C51_jacobian (S : VibSys) (Minv : ℕ → ℕ → ℝ) (t : ℝ) (Phi : ℕ → ℕ → ℝ) (dUVdw Fl : ℕ → ℝ) (omega : ℝ)
    (f : NLForce) (hS : S.forces = [f]) (A : (ℕ → ℝ) → (ℕ → ℝ) × (ℕ → ℕ → ℝ)) (hA : ∀ U, f.force U = .ok (A U))
    (hdep : ∀ a b, (∀ i < S.nd, a i = b i) → A a = A b) :
    ∃ o : (ℕ → ℝ) → ShootOut,
      (∀ z, shootingStateSpace S Minv t (sl 0 S.nd z) (sl S.nd (2 * S.nd) z) Phi dUVdw Fl omega = .ok (o z)) ∧
      ∀ z, HasJac S.nd S.nd (fun U => (A U).1) (A z).2 z →
        HasJac (2 * S.nd) (2 * S.nd) (fun z => hcat S.nd (o z).Udot (o z).Vdot) (o z).dgdz z := by
  choose o h1 h2 h3 h4 h5 h6 using fun z => shoot_ok S Minv t (sl 0 S.nd z) (sl S.nd (2 * S.nd) z) Phi dUVdw Fl omega
    (fun _ => A (sl 0 S.nd z)) (by intro g hg; rw [hS, List.mem_singleton] at hg; subst hg; exact hA _) [] f (by simpa using hS)
  refine ⟨o, h1, fun z hJ i hi => ?_⟩
  have hV : ∀ k < S.nd, HasGrad (2 * S.nd) (fun z => sl S.nd (2 * S.nd) z k) (fun j => if j = S.nd + k then 1 else 0) z := by
    intro k hk
    refine (HasGrad.coord (n := 2 * S.nd) (x := z) (S.nd + k)).congr_fun (fun y => ?_)
    have : k < 2 * S.nd - S.nd := by omega
    simp [sl, this]
  have hAz : ∀ z, A (sl 0 S.nd z) = A z := fun z => hdep _ _ (fun i hi => sl_zero hi z)
  by_cases c : i < S.nd
  · refine ((hV i c).congr_fun (fun y => ?_)).congr (fun j hj => ?_)
    · simp only [hcat, c, if_true, h2]
    · rw [h4]
      simp only [c, if_true]
      by_cases cj : j < S.nd
      · have : j ≠ S.nd + i := by omega
        simp [cj, this]
      · by_cases e : j = S.nd + i
        · have : i = j - S.nd := by omega
          simp [e]
        · have : ¬ i = j - S.nd := by omega
          simp [cj, e, this]
  · have hi' : i - S.nd < S.nd := by omega
    have hrow : ∀ k < S.nd, HasGrad (2 * S.nd) (fun z => -(matVec S.nd S.C (sl S.nd (2 * S.nd) z) k
        + matVec S.nd S.K (sl 0 S.nd z) k + (A (sl 0 S.nd z)).1 k)
        + (Fl k * Real.cos (omega * t) + Fl (S.nd + k) * Real.sin (omega * t)))
        (fun j => if j < S.nd then - S.K k j - (A z).2 k j else - S.C k (j - S.nd)) z := by
      intro k hk
      have g1 : HasGrad (2 * S.nd) (fun z => matVec S.nd S.C (sl S.nd (2 * S.nd) z) k) _ z :=
        HasGrad.sum (n := 2 * S.nd) (x := z) (s := range S.nd) (fun e he => (hV e (mem_range.mp he)).const_mul (S.C k e))
      have g2 : HasGrad (2 * S.nd) (fun z => matVec S.nd S.K (sl 0 S.nd z) k) _ z :=
        (HasGrad.linear (n := 2 * S.nd) (x := z) S.nd (S.K k)).congr_fun (fun y => matVec_congr (fun e he => sl_zero he y) k)
      have g3 := hasGrad_shift (n := 2 * S.nd) (fun a b hab => by simp only [hdep a b hab]) (hJ k hk)
      refine ((((g1.add g2).add g3).neg.add (HasGrad.const _)).congr_fun (fun y => by rw [hAz])).congr (fun j hj => ?_)
      by_cases cj : j < S.nd
      · have : ∀ e ∈ range S.nd, S.C k e * (if j = S.nd + e then 1 else 0) = 0 := by
          intro e _
          have : j ≠ S.nd + e := by omega
          simp [this]
        simp only [cj, if_true]
        rw [sum_eq_zero this]
        ring
      · have : ∑ e ∈ range S.nd, S.C k e * (if j = S.nd + e then 1 else 0) = S.C k (j - S.nd) := by
          rw [sum_eq_single_of_mem (j - S.nd) (mem_range.mpr (by omega))]
          · have : j = S.nd + (j - S.nd) := by omega
            simp only [← this, if_true, mul_one]
          · intro e _ he
            have : j ≠ S.nd + e := by omega
            simp [this]
        simp only [cj, if_false]
        rw [this]
        ring
    have g := HasGrad.sum (n := 2 * S.nd) (x := z) (s := range S.nd)
      (fun k hk => (hrow k (mem_range.mp hk)).const_mul (Minv (i - S.nd) k))
    refine (g.congr_fun (fun y => ?_)).congr (fun j hj => ?_)
    · simp only [hcat, c, if_false, h3]
      rfl
    · rw [h4]
      simp only [c, if_false, hS, List.map_cons, List.map_nil, List.sum_cons, List.sum_nil, add_zero, hAz, matMul]
      by_cases cj : j < S.nd
      · simp only [cj, if_true]
      · simp only [cj, if_false]

/-- C51: the frequency sensitivity that is integrated is `∂g/∂ω + dg_dz · (dz/dω)`. -/
theorem C51_frequency (S : VibSys) (Minv : ℕ → ℕ → ℝ) (t : ℝ) (U V : ℕ → ℝ) (Phi : ℕ → ℕ → ℝ) (dUVdw Fl : ℕ → ℝ)
    (f : NLForce) (hS : S.forces = [f]) (A : (ℕ → ℝ) × (ℕ → ℕ → ℝ)) (hA : f.force U = .ok A) :
    ∃ o : ℝ → ShootOut, (∀ omega, shootingStateSpace S Minv t U V Phi dUVdw Fl omega = .ok (o omega)) ∧
      ∀ omega, ∀ i < 2 * S.nd, ∃ p, HasDerivAt (fun omega => hcat S.nd (o omega).Udot (o omega).Vdot i) p omega ∧
        (o omega).dwdot i = p + ∑ k ∈ range (2 * S.nd), (o omega).dgdz i k * dUVdw k := by
  choose o h1 h2 h3 h4 h5 h6 using fun omega => shoot_ok S Minv t U V Phi dUVdw Fl omega
    (fun _ => A) (by intro g hg; rw [hS, List.mem_singleton] at hg; subst hg; exact hA) [] f (by simpa using hS)
  refine ⟨o, h1, fun omega i hi => ?_⟩
  refine ⟨hcat S.nd (fun _ => 0) (matVec S.nd Minv (fun i =>
        -t * Fl i * Real.sin (omega * t) + t * Fl (S.nd + i) * Real.cos (omega * t))) i, ?_, by rw [h6]; rfl⟩
  by_cases c : i < S.nd
  · simp only [hcat, c, if_true, h2]
    exact hasDerivAt_const _ _
  · simp only [hcat, c, if_false, h3]
    unfold matVec
    refine HasDerivAt.fun_sum (fun k _ => ?_)
    have hl : HasDerivAt (fun omega : ℝ => omega * t) t omega := by
      simpa using (hasDerivAt_id omega).mul_const t
    have := (((hl.cos.const_mul (Fl k)).add (hl.sin.const_mul (Fl (S.nd + k)))).const_add
      (-(matVec S.nd S.C V k + matVec S.nd S.K U k + A.1 k))).const_mul (Minv (i - S.nd) k)
    unfold matVec at this
    refine this.congr_deriv ?_
    ring

/-- Example: the hypotheses hold for a system with one cubic spring element. -/
example (S : VibSys) (m : ℕ) (Q T : ℕ → ℕ → ℝ) (k : ℕ → ℝ) (hS : S.forces = [cubicNL S.nd m Q T k])
    (Minv : ℕ → ℕ → ℝ) (t : ℝ) (Phi : ℕ → ℕ → ℝ) (dUVdw Fl : ℕ → ℝ) (omega : ℝ) :
    ∃ o : (ℕ → ℝ) → ShootOut,
      (∀ z, shootingStateSpace S Minv t (sl 0 S.nd z) (sl S.nd (2 * S.nd) z) Phi dUVdw Fl omega = .ok (o z)) ∧
      ∀ z, HasJac (2 * S.nd) (2 * S.nd) (fun z => hcat S.nd (o z).Udot (o z).Vdot) (o z).dgdz z := by
  obtain ⟨o, h1, h2⟩ := C51_jacobian S Minv t Phi dUVdw Fl omega _ hS (cubicForce S.nd m Q T k) (fun _ => rfl) (by
    intro a b hab
    have : ∀ i, matVec S.nd Q a i = matVec S.nd Q b i := matVec_congr hab
    have e : matVec S.nd Q a = matVec S.nd Q b := funext this
    unfold cubicForce
    simp only [e])
  exact ⟨o, h1, fun z => h2 z (C19_cubic S.nd S.nd m Q T k z)⟩

end

end TMD
