import Verif.Lemmas.System
import Verif.Props.AFT
import Verif.Props.ForceLaws

/-!
# Properties C25 (joint form), C26, C44–C46: sums of forces and harmonic balance residuals
-/

namespace TMD

open Spec Finset

noncomputable section

/-- Unknowns beyond the first `L` do not matter. -/
theorem HasGrad.lift {n L : ℕ} {φ : (ℕ → ℝ) → ℝ} {g : ℕ → ℝ} {Z : ℕ → ℝ}
    (h : HasGrad L φ g (sl 0 L Z)) :
    HasGrad n (fun Z => φ (sl 0 L Z)) (fun j => if j < L then g j else 0) Z := by
  have e : ∀ Z, sl 0 L (sl 0 L Z) = sl 0 L Z := fun Z => sl_congr (fun i hi => sl_zero hi Z)
  have h0 : HasGrad L (fun Y => φ (sl 0 L Y)) g (sl 0 L Z) := by
    unfold HasGrad at h ⊢
    have : (fun v : Fin L → ℝ => φ (sl 0 L (fun i => sl 0 L Z i + Spec.ext v i)))
        = fun v => φ (fun i => sl 0 L Z i + Spec.ext v i) := by
      funext v
      congr 1
      funext i
      by_cases hi : i < L
      · rw [sl_zero hi]
      · simp [sl, hi, Spec.ext]
    rw [this]
    exact h
  have h1 := HasGrad.comp_vec (n := n) (x := Z) (Y := fun Z => sl 0 L Z)
    (G := fun k j => if j = k then 1 else 0) h0
    (fun a b hab => by rw [sl_congr hab]) (fun k hk => hasGrad_sl hk Z)
  refine (h1.congr_fun (fun Z => by rw [e])).congr ?_
  intro j _
  by_cases hj : j < L
  · rw [if_pos hj, sum_eq_single_of_mem j (mem_range.mpr hj)]
    · simp
    · intro k _ hk; simp [Ne.symm hk]
  · rw [if_neg hj]
    symm
    apply sum_eq_zero
    intro k hk
    have : ¬ j = k := by have := mem_range.mp hk; omega
    simp [this]

/-! ## C25, joint form -/

/-- C25: `dFnldU` and `dFnldw` together are the total derivative of the harmonic force with respect to all
coefficients and the frequency, for every law differentiable at the samples, if `w ≠ 0` or the law has no
velocity derivative. -/
theorem C25_joint (h : List ℕ) (hA : Admissible h) (Nt : ℕ) (hNt : ∀ k ∈ h, 2*k + 1 < Nt)
    (heven : Even Nt) (N m : ℕ) (Q T : ℕ → ℕ → ℝ) (loc : ℕ → ℝ → ℝ → Loc) :
    ∃ out : (ℕ → ℝ) → ℝ → AftOut, (∀ U w, instAft N m Q T (elemLfh loc) U w h Nt = .ok (out U w)) ∧
      ∀ Z : ℕ → ℝ, (Z (numCoeff h * N) ≠ 0 ∨ ∀ d u ud, (loc d u ud).dfdud = 0) →
        (∀ d < m, ∀ j < Nt, LawDiff loc d
          (localMotion N Q h (sl 0 (numCoeff h * N) Z) d (2 * Real.pi * j / Nt))
          (Z (numCoeff h * N) * deriv (localMotion N Q h (sl 0 (numCoeff h * N) Z) d) (2 * Real.pi * j / Nt))) →
        JointTrue out (numCoeff h * N) Z := by
  obtain ⟨W, B0, B1, H⟩ := instAft_ok hA hNt heven N m Q T
  choose F dFw J u v h1 h2 h3 h4 h5 h6 h7 h8 h9 using fun U w => H (elemLfh loc) U w
  refine ⟨_, h1, ?_⟩
  intro Z hw hlaw p hp
  set L := numCoeff h * N with hL
  obtain ⟨hp1, -⟩ := div_lt_block hp
  have hs : ∀ d < m, ∀ j < Nt, HasGrad (L + 1)
      (fun Z => (loc d (u (sl 0 L Z) (Z L) j d) (v (sl 0 L Z) (Z L) j d)).f)
      (fun q => (loc d (u (sl 0 L Z) (Z L) j d) (v (sl 0 L Z) (Z L) j d)).dfdu
          * (if q < L then B0 j (q/N) * Q d (q % N) else 0)
        + (loc d (u (sl 0 L Z) (Z L) j d) (v (sl 0 L Z) (Z L) j d)).dfdud
          * (Z L * (if q < L then B1 j (q/N) * Q d (q % N) else 0)
              + (∑ r ∈ range (numCoeff h), B1 j r * unlOf N Q (sl 0 L Z) r d) * (if q = L then 1 else 0))) Z := by
    intro d hd j hj
    have hu : HasGrad (L + 1) (fun Z => u (sl 0 L Z) (Z L) j d)
        (fun q => if q < L then B0 j (q/N) * Q d (q % N) else 0) Z :=
      (HasGrad.lift (hasGrad_sample (numCoeff h) N Q (B0 j) d (sl 0 L Z))).congr_fun
        (fun Z => h2 (sl 0 L Z) (Z L) j d)
    have hv : HasGrad (L + 1) (fun Z => v (sl 0 L Z) (Z L) j d)
        (fun q => Z L * (if q < L then B1 j (q/N) * Q d (q % N) else 0)
              + (∑ r ∈ range (numCoeff h), B1 j r * unlOf N Q (sl 0 L Z) r d) * (if q = L then 1 else 0)) Z :=
      ((HasGrad.coord (n := L + 1) (x := Z) L).mul
        (HasGrad.lift (hasGrad_sample (numCoeff h) N Q (B1 j) d (sl 0 L Z)))).congr_fun
        (fun Z => h4 (sl 0 L Z) (Z L) j d)
    have hl := hlaw d hd j hj
    rw [← localMotion_eq, ← h3 (sl 0 L Z) (Z L), ← h5] at hl
    exact HasGrad.comp2 (φ := fun a b => (loc d a b).f) hu hv hl
  have hsum := HasGrad.sum (n := L + 1) (x := Z) (s := range m)
    (fun d hd => HasGrad.const_mul (T (p % N) d) (HasGrad.sum (s := range Nt) (fun j hj =>
      HasGrad.const_mul (W (p/N) j) (hs d (mem_range.mp hd) j (mem_range.mp hj)))))
  refine (hsum.congr_fun (fun Z => ?_)).congr ?_
  · simp only [toGlobal, matMul]
    exact sum_congr rfl (fun d _ => by rw [h6 (sl 0 L Z) (Z L) _ hp1]; rfl)
  · intro q hq
    by_cases hqL : q < L
    · obtain ⟨hq1, -⟩ := div_lt_block hqL
      have hne : q ≠ L := by omega
      simp only [if_pos hqL, if_neg hne, mul_zero, add_zero]
      rw [kron_sandwich (numCoeff h) N m Q T _ hp hqL]
      refine sum_congr rfl (fun d hd => ?_)
      rw [sum_congr rfl (fun e he => by
        rw [h8 _ _ _ hp1 _ hq1 d (mem_range.mp hd) e (mem_range.mp he)])]
      rw [sum_eq_single_of_mem d hd]
      · rw [mul_assoc, sum_mul]
        congr 1
        refine sum_congr rfl (fun j _ => ?_)
        simp only [if_true, elemLfh]
        ring
      · intro e _ he
        simp [Ne.symm he]
    · have hqe : q = L := by omega
      simp only [if_neg hqL, if_pos hqe, mul_zero, zero_add, mul_one]
      rcases eq_or_ne (Z L) 0 with hz | hz
      · have h0 : ∀ d u ud, (loc d u ud).dfdud = 0 := by
          rcases hw with hw | hw
          · exact absurd hz hw
          · exact hw
        simp [hz, h0]
      · rw [if_neg hz]
        simp only [toGlobal, matMul]
        refine sum_congr rfl (fun d _ => ?_)
        rw [h9 _ _ _ hp1]
        congr 1
        refine sum_congr rfl (fun j _ => ?_)
        rw [h4 _ _ j d]
        simp only [elemLfh]
        rw [h4 _ _ j d]
        field_simp

/-! ## C26 -/

/-- C26: the total harmonic force and its derivatives are the sums over all forces. -/
theorem C26_sum (S : VibSys) (h : List ℕ) (hn : h.Nodup) (U : ℕ → ℝ) (w : ℝ) (Nt : ℕ) (tol : ℝ)
    (A : NLForce → AftOut) (hA : ∀ f ∈ S.forces, f.aft U w h Nt tol = .ok (A f)) :
    ∃ F dU dw, totalAft S U w h Nt tol true = .ok ⟨F, some (dU, dw)⟩ ∧
      (∀ i, F i = (S.forces.map (fun f => (A f).F i)).sum) ∧
      (∀ i j, dU i j = (S.forces.map (fun f => (A f).dU i j)).sum) ∧
      (∀ i, dw i = (S.forces.map (fun f => (A f).dw i)).sum) :=
  ⟨_, _, _, totalAft_ok S hn U w Nt tol A hA, fun _ => rfl, fun _ _ => rfl, fun _ => rfl⟩

/-- C26: the order in which forces were added does not matter (both variants). -/
theorem C26_order (S S' : VibSys) (hp : S.forces.Perm S'.forces) (h : List ℕ) (U : ℕ → ℝ) (w : ℝ) (Nt : ℕ)
    (tol : ℝ) (A : NLForce → AftOut) (hA : ∀ f ∈ S.forces, f.aft U w h Nt tol = .ok (A f) ∧
      f.aftNoGrad U w h Nt tol = .ok (A f).F) (calcGrad : Bool) :
    totalAft S U w h Nt tol calcGrad = totalAft S' U w h Nt tol calcGrad := by
  by_cases hn : h.Nodup
  · have e : ∀ g : NLForce → ℝ, (S.forces.map g).sum = (S'.forces.map g).sum :=
      fun g => (hp.map g).sum_eq
    cases calcGrad
    · rw [totalAft_ng S hn U w Nt tol _ (fun f hf => (hA f hf).2),
        totalAft_ng S' hn U w Nt tol _ (fun f hf => (hA f (hp.mem_iff.mpr hf)).2)]
      simp only [e]
    · rw [totalAft_ok S hn U w Nt tol A (fun f hf => (hA f hf).1),
        totalAft_ok S' hn U w Nt tol A (fun f hf => (hA f (hp.mem_iff.mpr hf)).1)]
      simp only [e]
  · have : Nhc h = .error .assertion := C01_Nhc_rejects h hn
    unfold totalAft
    rw [this]

/-- C26: with no forces the result is zero. -/
theorem C26_none (S : VibSys) (hS : S.forces = []) (h : List ℕ) (hn : h.Nodup) (U : ℕ → ℝ) (w : ℝ) (Nt : ℕ)
    (tol : ℝ) :
    totalAft S U w h Nt tol true = .ok ⟨fun _ => 0, some (fun _ _ => 0, fun _ => 0)⟩ ∧
    totalAft S U w h Nt tol false = .ok ⟨fun _ => 0, none⟩ := by
  constructor
  · rw [totalAft_ok S hn U w Nt tol (fun _ => ⟨fun _ => 0, fun _ _ => 0, fun _ => 0⟩) (by simp [hS])]
    simp [hS]
  · rw [totalAft_ng S hn U w Nt tol (fun _ _ => 0) (by simp [hS])]
    simp [hS]

/-- C26: skipping gradients does not change the force (for forces whose `aft` has that property). -/
theorem C26_no_gradient (S : VibSys) (h : List ℕ) (hn : h.Nodup) (U : ℕ → ℝ) (w : ℝ) (Nt : ℕ) (tol : ℝ)
    (A : NLForce → AftOut) (hA : ∀ f ∈ S.forces, f.aft U w h Nt tol = .ok (A f) ∧
      f.aftNoGrad U w h Nt tol = .ok (A f).F) :
    ∃ F g, totalAft S U w h Nt tol true = .ok ⟨F, some g⟩ ∧ totalAft S U w h Nt tol false = .ok ⟨F, none⟩ := by
  refine ⟨_, _, totalAft_ok S hn U w Nt tol A (fun f hf => (hA f hf).1), ?_⟩
  rw [totalAft_ng S hn U w Nt tol _ (fun f hf => (hA f hf).2)]

/-- C26: `add_nl_force` adds exactly the contribution of the new force. -/
theorem C26_add (S : VibSys) (f : NLForce) (h : List ℕ) (hn : h.Nodup) (U : ℕ → ℝ) (w : ℝ) (Nt : ℕ) (tol : ℝ)
    (A : NLForce → AftOut) (hA : ∀ g ∈ S.forces, g.aft U w h Nt tol = .ok (A g)) (hf : f.aft U w h Nt tol = .ok (A f)) :
    ∃ F g F' g', totalAft S U w h Nt tol true = .ok ⟨F, some g⟩ ∧
      totalAft (S.addNlForce f) U w h Nt tol true = .ok ⟨F', some g'⟩ ∧
      ∀ i j, F' i = F i + (A f).F i ∧ g'.1 i j = g.1 i j + (A f).dU i j ∧ g'.2 i = g.2 i + (A f).dw i := by
  refine ⟨_, _, _, _, totalAft_ok S hn U w Nt tol A hA,
    totalAft_ok (S.addNlForce f) hn U w Nt tol A ?_, ?_⟩
  · intro g hg
    simp only [VibSys.addNlForce, List.mem_append, List.mem_singleton] at hg
    rcases hg with hg | rfl
    · exact hA g hg
    · exact hf
  · intro i j
    simp [VibSys.addNlForce]

/-- Example: two springs of stiffness 1 and 2 (AFT force `k U`) add up to `3 U`. -/
example : ∃ F g, totalAft ⟨1, fun _ _ => 1, fun _ _ => 1, fun _ _ => 0, none,
      [⟨0, fun _ => .error .name, fun U _ _ _ _ => .ok ⟨fun i => 1 * U i, fun _ _ => 1, fun _ => 0⟩,
          fun U _ _ _ _ => .ok (fun i => 1 * U i)⟩,
       ⟨0, fun _ => .error .name, fun U _ _ _ _ => .ok ⟨fun i => 2 * U i, fun _ _ => 2, fun _ => 0⟩,
          fun U _ _ _ _ => .ok (fun i => 2 * U i)⟩]⟩
    (fun _ => 1) 1 [1] 8 0 true = .ok ⟨F, g⟩ ∧ F 0 = 3 := by
  refine Exists.intro (fun i => 0 + 1 * 1 + 2 * 1) ⟨some (fun _ _ => 0 + 1 + 2, fun _ => 0 + 0 + 0), ?_, ?_⟩
  · unfold totalAft
    rw [Nhc_ok (by decide)]
    rfl
  · norm_num

/-! ## C44 -/

/-- C44: value of the static residual. -/
theorem C44_value (S : VibSys) (X Fs : ℕ → ℝ) (A : NLForce → (ℕ → ℝ) × (ℕ → ℕ → ℝ))
    (hA : ∀ f ∈ S.forces, f.force X = .ok (A f)) :
    ∃ R J, staticRes S X Fs = .ok (R, J) ∧
      (∀ i, R i = ∑ j ∈ range S.nd, S.K i j * X j + (S.forces.map (fun f => (A f).1 i)).sum - Fs i) ∧
      (∀ i j, J i j = S.K i j + (S.forces.map (fun f => (A f).2 i j)).sum) :=
  ⟨_, _, staticRes_ok S X Fs A hA, fun _ => rfl, fun _ _ => rfl⟩

/-- C44: if every force reports its true Jacobian, so does the static residual. -/
theorem C44_jacobian (S : VibSys) (Fs : ℕ → ℝ) (A : NLForce → (ℕ → ℝ) → (ℕ → ℝ) × (ℕ → ℕ → ℝ))
    (hA : ∀ f ∈ S.forces, ∀ X, f.force X = .ok (A f X)) (x : ℕ → ℝ)
    (hJ : ∀ f ∈ S.forces, HasJac S.nd S.nd (fun X => (A f X).1) (A f x).2 x) :
    ∃ res : (ℕ → ℝ) → (ℕ → ℝ) × (ℕ → ℕ → ℝ), (∀ X, staticRes S X Fs = .ok (res X)) ∧
      HasJac S.nd S.nd (fun X => (res X).1) (res x).2 x := by
  refine ⟨_, fun X => staticRes_ok S X Fs (fun f => A f X) (fun f hf => hA f hf X), ?_⟩
  intro i hi
  have h1 := (hasGrad_matVec S.nd S.K i x).add
    (HasGrad.listSum S.forces (fun f X => (A f X).1 i) _ (fun f hf => hJ f hf i hi))
  exact (h1.sub (HasGrad.const (Fs i))).congr (fun j _ => by ring)

/-- Example: cubic springs satisfy the hypotheses of `C44_jacobian`. -/
example (S : VibSys) (m : ℕ) (Q T : ℕ → ℕ → ℝ) (k Fs x : ℕ → ℝ) (hS : S.forces = [cubicNL S.nd m Q T k]) :
    ∃ res : (ℕ → ℝ) → (ℕ → ℝ) × (ℕ → ℕ → ℝ), (∀ X, staticRes S X Fs = .ok (res X)) ∧
      HasJac S.nd S.nd (fun X => (res X).1) (res x).2 x := by
  refine C44_jacobian S Fs (fun _ => cubicForce S.nd m Q T k) ?_ x ?_
  · intro f hf X
    rw [hS, List.mem_singleton] at hf
    subst hf; rfl
  · intro f _
    exact C19_cubic S.nd S.nd m Q T k x

/-! ## C69 -/

/-- C69 (exact behaviour): in the static residual a cubic damper with coefficient `c` acts as a cubic
spring with stiffness `c`, because its `force` method is called with displacements. -/
theorem C69_damper_acts_as_spring (S : VibSys) (N m : ℕ) (Q T : ℕ → ℕ → ℝ) (c X Fs : ℕ → ℝ) :
    staticRes (S.addNlForce (cubicDampingNL N m Q T c)) X Fs
      = staticRes (S.addNlForce (cubicNL N m Q T c)) X Fs := by
  unfold staticRes VibSys.addNlForce
  simp only [List.foldl_append, List.foldl_cons, List.foldl_nil]
  rfl

/-- C69 violated: a damper changes the static residual. -/
theorem C69_violated : ∃ (S : VibSys) (X : ℕ → ℝ) (R R' : (ℕ → ℝ) × (ℕ → ℕ → ℝ)),
    staticRes S X (fun _ => 0) = .ok R ∧
    staticRes (S.addNlForce (cubicDampingNL 1 1 (fun _ _ => 1) (fun _ _ => 1) (fun _ => 1))) X (fun _ => 0) = .ok R' ∧
    R.1 0 = 1 ∧ R'.1 0 = 2 := by
  refine ⟨⟨1, fun _ _ => 1, fun _ _ => 1, fun _ _ => 0, none, []⟩, fun _ => 1, _, _, rfl, rfl, ?_, ?_⟩
  · simp [matVec]
  · norm_num [matVec, cubicDampingForce, VibSys.addNlForce]

/-- C69, the part that holds: a damper has no effect where its local displacement is zero. -/
theorem C69_partial (S : VibSys) (N m : ℕ) (Q T : ℕ → ℕ → ℝ) (c X Fs : ℕ → ℝ)
    (hX : ∀ d < m, ∑ e ∈ range N, Q d e * X e = 0)
    (A : NLForce → (ℕ → ℝ) × (ℕ → ℕ → ℝ)) (hA : ∀ f ∈ S.forces, f.force X = .ok (A f)) :
    ∃ R R', staticRes S X Fs = .ok R ∧ staticRes (S.addNlForce (cubicDampingNL N m Q T c)) X Fs = .ok R' ∧
      ∀ i, R'.1 i = R.1 i := by
  have e : staticRes (S.addNlForce (cubicDampingNL N m Q T c)) X Fs
      = .ok (fun i => matVec S.nd S.K X i
          + ((S.forces.map (fun f => (A f).1 i)).sum + (cubicDampingForce N m Q T c X).1 i) - Fs i,
        fun i j => S.K i j
          + ((S.forces.map (fun f => (A f).2 i j)).sum + (cubicDampingForce N m Q T c X).2 i j)) := by
    unfold staticRes VibSys.addNlForce
    simp only [List.foldl_append, List.foldl_cons, List.foldl_nil, static_fold S.forces X A hA, zero_add]
    rfl
  refine ⟨_, _, staticRes_ok S X Fs A hA, e, ?_⟩
  · intro i
    have : (cubicDampingForce N m Q T c X).1 i = 0 := by
      simp only [cubicDampingForce, matVec]
      refine sum_eq_zero (fun d hd => ?_)
      rw [hX d (mem_range.mp hd)]; simp
    simp only [this, add_zero]

end

end TMD
