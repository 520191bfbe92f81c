import Verif.Lemmas.Equilibrium
import Verif.Lemmas.Memory
import Verif.Lemmas.RoughContact
import Verif.Lemmas.System
import Verif.Props.ForceLaws
import Verif.Props.Folds
import Verif.Props.Iwan
import Verif.Model.SystemForces
import Mathlib.Analysis.Calculus.Deriv.MeanValue

/-!
# C142: static equilibria

A structure with symmetric positive definite stiffness carries springs, gaps, backbones, sliders, each acting along its own direction
(`T = Qᵀ`) with a force that does not fall with the stretch. Every load has exactly one equilibrium.
-/

namespace TMD

open Finset Spec

noncomputable section

/-! ## Specification -/

/-- The stiffness matrix is symmetric and positive definite. -/
structure Stiff (n : ℕ) (K : ℕ → ℕ → ℝ) : Prop where
  sym : ∀ i < n, ∀ j < n, K i j = K j i
  pos : ∀ v : ℕ → ℝ, (∃ i < n, v i ≠ 0) → 0 < ∑ i ∈ range n, ∑ j ∈ range n, v i * K i j * v j

/-- A force object made of springs whose force does not fall with the stretch: `force` does not raise, spring `d` has stretch `Q d · X`, acts along
`Q d`, and the reported matrix has the non-negative stiffnesses `φ' d` of the springs. -/
def MonoForce (n : ℕ) (f : NLForce) : Prop :=
  ∃ (m : ℕ) (Q : ℕ → ℕ → ℝ) (φ φ' : ℕ → ℝ → ℝ), (∀ d, Continuous (φ d)) ∧ (∀ d, Monotone (φ d)) ∧ (∀ d u, 0 ≤ φ' d u) ∧
    ∀ X, ∃ o, f.force X = .ok o ∧ (∀ i < n, o.1 i = ∑ d ∈ range m, Q d i * φ d (∑ j ∈ range n, Q d j * X j)) ∧
      ∀ i < n, ∀ j < n, o.2 i j = ∑ d ∈ range m, Q d i * φ' d (∑ k ∈ range n, Q d k * X k) * Q d j

/-- `X` is an equilibrium under the load `F`: `static_res` does not raise and returns zero. -/
def StaticEq (S : VibSys) (F X : ℕ → ℝ) : Prop := ∃ o, staticRes S X F = .ok o ∧ ∀ i < S.nd, o.1 i = 0

/-! ## The residual -/

/-- The result of `force`, where it does not raise. -/
def forceVal (f : NLForce) (X : ℕ → ℝ) : (ℕ → ℝ) × (ℕ → ℕ → ℝ) :=
  match f.force X with
  | .ok o => o
  | .error _ => (fun _ => 0, fun _ _ => 0)

theorem MonoForce.val {n : ℕ} {f : NLForce} (h : MonoForce n f) (X : ℕ → ℝ) : f.force X = .ok (forceVal f X) := by
  obtain ⟨m, Q, φ, φ', -, -, -, h4⟩ := h
  obtain ⟨o, ho, -⟩ := h4 X
  rw [forceVal, ho]

theorem MonoForce.springs {n : ℕ} {f : NLForce} (h : MonoForce n f) : Springs n fun X => (forceVal f X).1 := by
  obtain ⟨m, Q, φ, φ', h1, h2, h3, h4⟩ := h
  refine ⟨m, Q, φ, h1, h2, fun X i hi => ?_⟩
  obtain ⟨o, ho, e, -⟩ := h4 X
  simp only [forceVal, ho]
  exact e i hi

theorem MonoForce.quad {n : ℕ} {f : NLForce} (h : MonoForce n f) (X v : ℕ → ℝ) :
    0 ≤ ∑ i ∈ range n, ∑ j ∈ range n, v i * (forceVal f X).2 i j * v j := by
  obtain ⟨m, Q, φ, φ', h1, h2, h3, h4⟩ := h
  obtain ⟨o, ho, -, e⟩ := h4 X
  have : ∑ i ∈ range n, ∑ j ∈ range n, v i * (forceVal f X).2 i j * v j
      = ∑ d ∈ range m, φ' d (∑ k ∈ range n, Q d k * X k) * (∑ i ∈ range n, Q d i * v i) ^ 2 := by
    have e1 : ∀ i ∈ range n, ∀ j ∈ range n, v i * (forceVal f X).2 i j * v j
        = ∑ d ∈ range m, φ' d (∑ k ∈ range n, Q d k * X k) * ((Q d i * v i) * (Q d j * v j)) := fun i hi j hj => by
      simp only [forceVal, ho]
      rw [e i (mem_range.1 hi) j (mem_range.1 hj), mul_sum, sum_mul]
      exact sum_congr rfl fun d _ => by ring
    rw [sum_congr rfl fun i hi => sum_congr rfl fun j hj => e1 i hi j hj]
    rw [sum_congr rfl fun i _ => sum_comm, sum_comm]
    refine sum_congr rfl fun d _ => ?_
    rw [pow_two, sum_mul_sum, mul_sum]
    exact sum_congr rfl fun i _ => by rw [mul_sum]
  rw [this]
  exact sum_nonneg fun d _ => mul_nonneg (h3 d _) (sq_nonneg _)

/-- Total force of the objects. -/
def totalForce (S : VibSys) (X : ℕ → ℝ) (i : ℕ) : ℝ := (S.forces.map fun f => (forceVal f X).1 i).sum

theorem static_val {S : VibSys} (hf : ∀ f ∈ S.forces, MonoForce S.nd f) (X F : ℕ → ℝ) :
    staticRes S X F = .ok (fun i => (∑ j ∈ range S.nd, S.K i j * X j) + totalForce S X i - F i,
      fun i j => S.K i j + (S.forces.map fun f => (forceVal f X).2 i j).sum) :=
  staticRes_ok S X F (fun f => forceVal f X) fun f h => (hf f h).val X

theorem staticEq_iff {S : VibSys} (hf : ∀ f ∈ S.forces, MonoForce S.nd f) (X F : ℕ → ℝ) :
    StaticEq S F X ↔ ∀ i < S.nd, (∑ j ∈ range S.nd, S.K i j * X j) + totalForce S X i = F i := by
  unfold StaticEq
  rw [static_val hf]
  constructor
  · rintro ⟨o, ho, h⟩ i hi
    obtain rfl := (Except.ok.inj ho).symm
    have := h i hi
    simp only at this
    linarith
  · intro h
    refine ⟨_, rfl, fun i hi => ?_⟩
    simp only
    rw [h i hi, sub_self]

theorem totalForce_springs {S : VibSys} (hf : ∀ f ∈ S.forces, MonoForce S.nd f) : Springs S.nd (totalForce S) :=
  Springs.list fun f h => (hf f h).springs

theorem equil_unique {n : ℕ} {K : ℕ → ℕ → ℝ} (hK : Stiff n K) {g : (ℕ → ℝ) → ℕ → ℝ} (hg : Springs n g) {X Y F : ℕ → ℝ}
    (hX : ∀ i < n, (∑ j ∈ range n, K i j * X j) + g X i = F i) (hY : ∀ i < n, (∑ j ∈ range n, K i j * Y j) + g Y i = F i) :
    ∀ i < n, X i = Y i := by
  by_contra hn
  push Not at hn
  obtain ⟨i, hi, hne⟩ := hn
  have h1 := equil_energy hg hX hY
  have h2 := hK.pos (fun i => X i - Y i) ⟨i, hi, sub_ne_zero.2 hne⟩
  simp only [sub_self, mul_zero, sum_const_zero, quadForm] at h1
  linarith

/-! ## C142 -/

/-- C142: for every load there is an equilibrium, and all equilibria have the same displacements. -/
theorem C142_exists_unique (S : VibSys) (hK : Stiff S.nd S.K) (hf : ∀ f ∈ S.forces, MonoForce S.nd f) (F : ℕ → ℝ) :
    ∃ X, StaticEq S F X ∧ ∀ Y, StaticEq S F Y → ∀ i < S.nd, Y i = X i := by
  obtain ⟨X, hX⟩ := equil_exists hK.sym hK.pos (totalForce_springs hf) F
  refine ⟨X, (staticEq_iff hf X F).2 hX, fun Y hY => ?_⟩
  exact equil_unique hK (totalForce_springs hf) ((staticEq_iff hf Y F).1 hY) hX

/-- C142: between two equilibria the change of the load does at least the work that the linear stiffness stores. -/
theorem C142_energy (S : VibSys) (hf : ∀ f ∈ S.forces, MonoForce S.nd f) {F G X Y : ℕ → ℝ} (hX : StaticEq S F X) (hY : StaticEq S G Y) :
    ∑ i ∈ range S.nd, ∑ j ∈ range S.nd, (X i - Y i) * S.K i j * (X j - Y j) ≤ ∑ i ∈ range S.nd, (X i - Y i) * (F i - G i) :=
  equil_energy (totalForce_springs hf) ((staticEq_iff hf X F).1 hX) ((staticEq_iff hf Y G).1 hY)

/-- C142: at every displacement the returned Jacobian is positive definite, hence regular: Newton's step always exists. -/
theorem C142_regular (S : VibSys) (hK : Stiff S.nd S.K) (hf : ∀ f ∈ S.forces, MonoForce S.nd f) (X F : ℕ → ℝ) :
    ∃ o, staticRes S X F = .ok o ∧ (∀ v : ℕ → ℝ, (∃ i < S.nd, v i ≠ 0) → 0 < ∑ i ∈ range S.nd, ∑ j ∈ range S.nd, v i * o.2 i j * v j) ∧
      Regular S.nd o.2 := by
  refine ⟨_, static_val hf X F, ?_⟩
  have key : ∀ v : ℕ → ℝ, (∃ i < S.nd, v i ≠ 0) →
      0 < ∑ i ∈ range S.nd, ∑ j ∈ range S.nd, v i * (S.K i j + (S.forces.map fun f => (forceVal f X).2 i j).sum) * v j := by
    intro v hv
    have h1 := hK.pos v hv
    have h2 : ∀ l : List NLForce, (∀ f ∈ l, MonoForce S.nd f) →
        0 ≤ ∑ i ∈ range S.nd, ∑ j ∈ range S.nd, v i * (l.map fun f => (forceVal f X).2 i j).sum * v j := by
      intro l hl
      induction l with
      | nil => simp
      | cons f l ih =>
        have h3 := ih fun g hg => hl g (by simp [hg])
        have h4 := (hl f (by simp)).quad X v
        have e : ∑ i ∈ range S.nd, ∑ j ∈ range S.nd, v i * ((f :: l).map fun f => (forceVal f X).2 i j).sum * v j
            = (∑ i ∈ range S.nd, ∑ j ∈ range S.nd, v i * (forceVal f X).2 i j * v j)
              + ∑ i ∈ range S.nd, ∑ j ∈ range S.nd, v i * (l.map fun f => (forceVal f X).2 i j).sum * v j := by
          rw [← sum_add_distrib]
          refine sum_congr rfl fun i _ => ?_
          rw [← sum_add_distrib]
          refine sum_congr rfl fun j _ => ?_
          simp only [List.map_cons, List.sum_cons]
          ring
        rw [e]
        exact add_nonneg h4 h3
    have e : ∑ i ∈ range S.nd, ∑ j ∈ range S.nd, v i * (S.K i j + (S.forces.map fun f => (forceVal f X).2 i j).sum) * v j
        = (∑ i ∈ range S.nd, ∑ j ∈ range S.nd, v i * S.K i j * v j)
          + ∑ i ∈ range S.nd, ∑ j ∈ range S.nd, v i * (S.forces.map fun f => (forceVal f X).2 i j).sum * v j := by
      rw [← sum_add_distrib]
      refine sum_congr rfl fun i _ => ?_
      rw [← sum_add_distrib]
      exact sum_congr rfl fun j _ => by ring
    rw [e]
    exact add_pos_of_pos_of_nonneg h1 (h2 _ hf)
  refine ⟨key, fun v hv j hj => ?_⟩
  by_contra hne
  have h1 := key v ⟨j, hj, hne⟩
  have h2 : ∑ i ∈ range S.nd, ∑ j ∈ range S.nd, v i * (S.K i j + (S.forces.map fun f => (forceVal f X).2 i j).sum) * v j = 0 := by
    refine sum_eq_zero fun i hi => ?_
    have := hv i (mem_range.1 hi)
    simp only at this
    rw [sum_congr rfl fun j _ => mul_assoc _ _ _, ← mul_sum, this, mul_zero]
  linarith

/-! ## The classes -/

theorem mono_inst {N m : ℕ} {Q T : ℕ → ℕ → ℝ} (hT : ∀ i < N, ∀ d < m, T i d = Q d i) {loc : ℕ → ℝ → ℝ → Loc}
    {force : (ℕ → ℝ) → (ℕ → ℝ) × (ℕ → ℕ → ℝ)} (φ φ' : ℕ → ℝ → ℝ) (h1 : ∀ d, Continuous (φ d)) (h2 : ∀ d, Monotone (φ d)) (h3 : ∀ d u, 0 ≤ φ' d u)
    (he : ∀ X, force X = (matVec m T fun d => φ d (matVec N Q X d), matMul m (matMul m T (diag fun d => φ' d (matVec N Q X d))) Q)) :
    MonoForce N (instForce N m Q T loc force) := by
  refine ⟨m, Q, φ, φ', h1, h2, h3, fun X => ⟨_, rfl, fun i hi => ?_, fun i hi j hj => ?_⟩⟩
  · rw [he]
    show ∑ d ∈ range m, T i d * φ d (matVec N Q X d) = _
    exact sum_congr rfl fun d hd => by rw [hT i hi d (mem_range.1 hd)]; rfl
  · rw [he]
    show ∑ d ∈ range m, matMul m T (diag fun d => φ' d (matVec N Q X d)) i d * Q d j = _
    refine sum_congr rfl fun d hd => ?_
    have : matMul m T (diag fun d => φ' d (matVec N Q X d)) i d = T i d * φ' d (matVec N Q X d) := by
      simp only [matMul, diag]
      rw [sum_eq_single d (fun b _ hb => by simp [hb]) fun h => absurd hd h]
      simp
    rw [this, hT i hi d (mem_range.1 hd)]
    rfl

theorem iwanBB_slope {p : IwanBB} (h : p.Valid) (d : ℕ) (u ud : ℝ) : 0 ≤ (iwanBBLoc p d u ud).dfdu := by
  have hp := h.phi_pos
  have hc := h.chi; have hb := h.beta; have hk := h.kt
  simp only [iwanBBLoc, npSign_mul_self, mask]
  split
  · rename_i hu
    rw [mul_one, sub_nonneg, h.coef]
    have h1 : |u| ^ (1 + p.chi) * (1 / p.phiMax) ^ (1 + p.chi) ≤ 1 := by
      rw [← Real.mul_rpow (abs_nonneg u) (by positivity)]
      refine Real.rpow_le_one (by positivity) ?_ (by linarith)
      rw [mul_one_div, div_le_one hp]
      exact hu.le
    have h2 : p.kt * (1 / p.phiMax) ^ (1 + p.chi) / ((1 + p.beta) * (p.chi + 2)) * (2 + p.chi) * |u| ^ (1 + p.chi)
        = p.kt / (1 + p.beta) * (|u| ^ (1 + p.chi) * (1 / p.phiMax) ^ (1 + p.chi)) := by
      have : p.chi + 2 ≠ 0 := by linarith
      have : 1 + p.beta ≠ 0 := by linarith
      have e : 2 + p.chi = p.chi + 2 := by ring
      rw [e]
      field_simp
    rw [h2]
    calc _ ≤ p.kt / (1 + p.beta) * 1 := mul_le_mul_of_nonneg_left h1 (div_nonneg hk.le (by linarith))
      _ ≤ p.kt := by rw [mul_one]; exact div_le_self hk.le (by linarith)
  · simp

theorem iwanBB_mono {p : IwanBB} (h : p.Valid) (d : ℕ) (ud : ℝ) : Monotone fun u => (iwanBBLoc p d u ud).f := by
  have hp := h.phi_pos
  have hm : MonotoneOn (fun u => (iwanBBLoc p d u ud).f) (Set.Icc (-p.phiMax) p.phiMax) := by
    have hd : ∀ u ∈ interior (Set.Icc (-p.phiMax) p.phiMax), HasDerivAt (fun u => (iwanBBLoc p d u ud).f) (iwanBBLoc p d u ud).dfdu u := by
      intro u hu
      rw [interior_Icc] at hu
      exact (C23_derivative p h d u ud (abs_lt.2 ⟨hu.1, hu.2⟩).ne).1
    refine monotoneOn_of_deriv_nonneg (convex_Icc _ _) (C23_continuous p h d ud).continuousOn
      (fun u hu => (hd u hu).differentiableAt.differentiableWithinAt) fun u hu => ?_
    rw [(hd u hu).deriv]
    exact iwanBB_slope h d u ud
  intro a b hab
  show (iwanBBLoc p d a ud).f ≤ (iwanBBLoc p d b ud).f
  obtain ⟨ha1, ha2, ha3⟩ := C23_bounded p h d a ud
  obtain ⟨hb1, hb2, hb3⟩ := C23_bounded p h d b ud
  rw [abs_le] at ha1 hb1
  by_cases h1 : p.phiMax ≤ b
  · rw [hb2 h1]; exact ha1.2
  by_cases h2 : a ≤ -p.phiMax
  · rw [ha3 h2]; exact hb1.1
  push Not at h1 h2
  exact hm ⟨h2.le, by linarith⟩ ⟨by linarith, h1.le⟩ hab

/-- C142: the classes with forces that do not fall: cubic and quintic springs and gaps with stiffness `k ≥ 0`, and the Iwan backbone with valid
parameters. -/
theorem C142_classes (N m : ℕ) (Q T : ℕ → ℕ → ℝ) (hT : ∀ i < N, ∀ d < m, T i d = Q d i) (k : ℕ → ℝ) (hk : ∀ d, 0 ≤ k d)
    (Npre delta : ℕ → ℝ) (p : IwanBB) (hp : p.Valid) :
    MonoForce N (instForce N m Q T (cubicLoc k) (cubicForce N m Q T k)) ∧
    MonoForce N (instForce N m Q T (quinticLoc k) (quinticForce N m Q T k)) ∧
    MonoForce N (instForce N m Q T (unilateralLoc k Npre delta) (unilateralForce N m Q T k Npre delta)) ∧
    MonoForce N (instForce N m Q T (iwanBBLoc p) (iwanBBForce N m Q T p)) := by
  refine ⟨?_, ?_, ?_, ?_⟩
  · refine mono_inst hT (fun d u => k d * u ^ 3) (fun d u => 3 * k d * u ^ 2) (fun d => by fun_prop) (fun d a b hab => ?_)
      (fun d u => mul_nonneg (mul_nonneg (by norm_num) (hk d)) (sq_nonneg u)) fun X => rfl
    exact mul_le_mul_of_nonneg_left ((Odd.strictMono_pow (by decide : Odd 3)).monotone hab) (hk d)
  · refine mono_inst hT (fun d u => k d * u ^ 5) (fun d u => 5 * k d * u ^ 4) (fun d => by fun_prop) (fun d a b hab => ?_)
      (fun d u => mul_nonneg (mul_nonneg (by norm_num) (hk d)) (by positivity)) fun X => rfl
    exact mul_le_mul_of_nonneg_left ((Odd.strictMono_pow (by decide : Odd 5)).monotone hab) (hk d)
  · refine mono_inst hT (fun d u => max (k d * (u - delta d) - Npre d) (-Npre d))
      (fun d u => mask (max (k d * (u - delta d) - Npre d) (-Npre d) > -Npre d) * k d) (fun d => by fun_prop) (fun d a b hab => ?_)
      (fun d u => mul_nonneg (by unfold mask; split <;> simp) (hk d)) fun X => rfl
    refine max_le_max ?_ le_rfl
    have := mul_le_mul_of_nonneg_left (sub_le_sub_right hab (delta d)) (hk d)
    linarith
  · exact mono_inst hT (fun d u => (iwanBBLoc p d u 0).f) (fun d u => (iwanBBLoc p d u 0).dfdu) (fun d => C23_continuous p hp d 0)
      (fun d => iwanBB_mono hp d 0) (fun d u => iwanBB_slope hp d u 0) fun X => rfl

/-! ## Load paths with sliders -/

/-- Objects of a structure with `n` degrees of freedom whose forces do not fall, with their current history: springs, Jenkins sliders whose history has
been initialised, Iwan elements. -/
def Slides (n : ℕ) : FObj → Prop
  | .inst f => Springs n f
  | .jenkins j => j.n = n ∧ (∀ i < n, j.T i = j.Q i) ∧ 0 ≤ j.kt ∧ 0 ≤ j.Fs ∧ ∃ s, j.hist = some s
  | .iwan q w _ => q.n = n ∧ q.nl = 1 ∧ (∀ i < n, q.T i 0 = q.Q 0 i) ∧ ∀ k ≤ w.nSliders, 0 ≤ w.phi k ∧ 0 ≤ w.weight k
  | _ => False

/-- `X` balances the load `F` with the present histories: `static_res` does not raise and gives no NaN, and stiffness forces and element forces add
up to the load. -/
def Balanced (n : ℕ) (K : ℕ → ℕ → ℝ) (os : List FObj) (F X : ℕ → ℝ) : Prop :=
  ∃ L : List (ℕ → ℝ), staticForces os X = .ok (L.map fun G i => some (G i)) ∧
    ∀ i < n, (∑ j ∈ range n, K i j * X j) + (L.map fun G => G i).sum = F i

/-- The loads are applied one after the other; after each, the equilibrium is stored with `update_force_history`. -/
def LoadPath (p : AftPars) (n : ℕ) (K : ℕ → ℕ → ℝ) : List FObj → List (ℕ → ℝ) → List (ℕ → ℝ) → Prop
  | _, [], [] => True
  | os, F :: Fs, X :: Xs => Balanced n K os F X ∧ (sysCall p (.updateForceHistory X) os).1 = none ∧
      LoadPath p n K (sysCall p (.updateForceHistory X) os).2 Fs Xs
  | _, _, _ => False

theorem clip_cont (L : ℝ) : Continuous fun x => clip L x := by unfold clip; fun_prop

/-- The force of such an object. -/
theorem slides_force {n : ℕ} {o : FObj} (h : Slides n o) :
    ∃ g : (ℕ → ℝ) → ℕ → ℝ, Springs n g ∧ ∀ X, o.force X false = .ok (fun i => some (g X i), o) := by
  match o, h with
  | .inst f, h => exact ⟨f, h, fun X => rfl⟩
  | .jenkins j, h =>
    obtain ⟨h1, h2, h3, h4, ⟨up, fp⟩, h5⟩ := h
    refine ⟨fun X i => j.T i * (jenkinsLocal j.kt j.Fs up fp (vdot j.n j.Q X)).f, ?_, fun X => ?_⟩
    · refine ⟨1, fun _ => j.Q, fun _ u => clip j.Fs (j.kt * (u - up) + fp), fun _ => (clip_cont _).comp (by fun_prop), fun _ a b hab => ?_, fun X i hi => ?_⟩
      · refine clip_mono ?_
        have := mul_le_mul_of_nonneg_left (sub_le_sub_right hab up) h3
        linarith
      · beta_reduce
        rw [jenkinsLocal_f h4, h2 i hi, h1]
        simp [vdot]
    · simp only [FObj.force, Jenkins.force, h5]
      rfl
  | .iwan q w s, h =>
    obtain ⟨h1, h2, h3, h4⟩ := h
    refine ⟨fun X i => q.T i 0 * (iwanInstant w s.1 s.2 (q.loc X 0)).1, ?_, fun X => ?_⟩
    · refine ⟨1, fun _ => q.Q 0, fun _ u => ∑ k ∈ range (w.nSliders + 1), clip (w.phi k) (u - s.1 + s.2 k) * w.weight k, fun _ => ?_, fun _ a b hab => ?_, fun X i hi => ?_⟩
      · exact continuous_finsetSum _ fun k _ => ((clip_cont _).comp (by fun_prop)).mul continuous_const
      · exact sum_le_sum fun k hk => mul_le_mul_of_nonneg_right (clip_mono (by linarith)) (h4 k (by have := mem_range.1 hk; omega)).2
      · beta_reduce
        rw [h3 i hi, sum_range_one]
        congr 1
        show ∑ k ∈ range (w.nSliders + 1), iwanSlider (w.phi k) (q.loc X 0 - s.1 + s.2 k) * w.weight k = _
        refine sum_congr rfl fun k hk => ?_
        rw [iwanSlider_eq_clip (h4 k (by have := mem_range.1 hk; omega)).1, Maps.loc, vdot, h1]
    · simp only [FObj.force, Bool.false_eq_true, if_false]
      congr 2
      funext i
      rw [Maps.glob, h2, weighted_some _ _ (fun _ => (iwanInstant w s.1 s.2 (q.loc X 0)).1) 1 fun _ _ => rfl, sum_range_one]

/-- The objects together. -/
theorem slides_static {n : ℕ} : ∀ {os : List FObj}, (∀ o ∈ os, Slides n o) →
    ∃ g : List ((ℕ → ℝ) → ℕ → ℝ), (∀ a ∈ g, Springs n a) ∧ ∀ X, staticForces os X = .ok ((g.map fun a => a X).map fun G i => some (G i))
  | [], _ => ⟨[], by simp, fun X => rfl⟩
  | o :: os, h => by
    obtain ⟨g, hg, e⟩ := slides_force (h o (by simp))
    obtain ⟨l, hl, el⟩ := slides_static (os := os) fun a ha => h a (by simp [ha])
    refine ⟨g :: l, ?_, fun X => ?_⟩
    · intro a ha
      rcases List.mem_cons.1 ha with rfl | ha
      · exact hg
      · exact hl a ha
    · rw [staticForces, e X]
      simp only [el X]
      rfl

/-- The update does not raise, keeps the kind of the objects and depends on the displacements of the structure only. -/
theorem slides_update {n : ℕ} (p : AftPars) (X : ℕ → ℝ) : ∀ {os : List FObj}, (∀ o ∈ os, Slides n o) →
    (sysCall p (.updateForceHistory X) os).1 = none ∧ (∀ o ∈ (sysCall p (.updateForceHistory X) os).2, Slides n o) ∧
    ∀ Y : ℕ → ℝ, (∀ i < n, Y i = X i) → sysCall p (.updateForceHistory Y) os = sysCall p (.updateForceHistory X) os
  | [], _ => ⟨rfl, by simp [sysCall, forAll], fun Y _ => rfl⟩
  | o :: os, h => by
    obtain ⟨i1, i2, i3⟩ := slides_update p X (os := os) fun a ha => h a (by simp [ha])
    have key : ∃ o', Slides n o' ∧ ∀ Y : ℕ → ℝ, (∀ i < n, Y i = X i) →
        (o.forceType = 1 ∧ ∃ F, o.force Y true = .ok (F, o')) ∨ (o.forceType ≠ 1 ∧ o' = o) := by
      have ho := h o (by simp)
      match o, ho with
      | .inst f, h => exact ⟨.inst f, h, fun Y _ => .inr ⟨by simp [FObj.forceType], rfl⟩⟩
      | .jenkins j, h =>
        obtain ⟨h1, h2, h3, h4, ⟨up, fp⟩, h5⟩ := h
        refine ⟨.jenkins (j.updateHistory (vdot j.n j.Q X) (jenkinsLocal j.kt j.Fs up fp (vdot j.n j.Q X)).f), ⟨h1, h2, h3, h4, _, rfl⟩, fun Y hY => ?_⟩
        have e : vdot j.n j.Q Y = vdot j.n j.Q X := sum_congr rfl fun i hi => by rw [hY i (by rw [← h1]; exact mem_range.1 hi)]
        refine .inl ⟨rfl, ?_⟩
        simp only [FObj.force, Jenkins.force, h5, e, if_true]
        exact ⟨_, rfl⟩
      | .iwan q w s, h =>
        obtain ⟨h1, h2, h3, h4⟩ := h
        refine ⟨.iwan q w (q.loc X 0, (iwanInstant w s.1 s.2 (q.loc X 0)).2.2), ⟨h1, h2, h3, h4⟩, fun Y hY => ?_⟩
        have e : vdot q.n (q.Q 0) Y = vdot q.n (q.Q 0) X := sum_congr rfl fun i hi => by rw [hY i (by rw [← h1]; exact mem_range.1 hi)]
        refine .inl ⟨rfl, ?_⟩
        simp only [FObj.force, Maps.loc, e, if_true]
        exact ⟨_, rfl⟩
    obtain ⟨o', h', e'⟩ := key
    have E : ∀ Y : ℕ → ℝ, (∀ i < n, Y i = X i) → sysCall p (.updateForceHistory Y) (o :: os)
        = ((sysCall p (.updateForceHistory Y) os).1, o' :: (sysCall p (.updateForceHistory Y) os).2) := fun Y hY => by
      simp only [sysCall]
      rw [forAll]
      rcases e' Y hY with ⟨ht, F, hF⟩ | ⟨ht, rfl⟩
      · simp only [ht, hF, if_true]
      · simp only [ht, if_false]
    rw [E X fun _ _ => rfl]
    refine ⟨i1, ?_, fun Y hY => ?_⟩
    · intro a ha
      rcases List.mem_cons.1 ha with rfl | ha
      · exact h'
      · exact i2 a ha
    · rw [E Y hY, i3 Y hY]

theorem balanced_iff {n : ℕ} {K : ℕ → ℕ → ℝ} {os : List FObj} {g : List ((ℕ → ℝ) → ℕ → ℝ)}
    (hg : ∀ X, staticForces os X = .ok ((g.map fun a => a X).map fun G i => some (G i))) (F X : ℕ → ℝ) :
    Balanced n K os F X ↔ ∀ i < n, (∑ j ∈ range n, K i j * X j) + (g.map fun a => a X i).sum = F i := by
  unfold Balanced
  rw [hg X]
  constructor
  · rintro ⟨L, hL, h⟩ i hi
    have hinj : Function.Injective fun (G : ℕ → ℝ) (i : ℕ) => (some (G i) : Flt) := fun a b hab => by
      funext i
      exact Option.some.inj (congrFun hab i)
    have : L = g.map fun a => a X := (List.map_injective_iff.2 hinj (Except.ok.inj hL)).symm
    rw [← h i hi, this, List.map_map]
    rfl
  · intro h
    refine ⟨_, rfl, fun i hi => ?_⟩
    rw [← h i hi, List.map_map]
    rfl

/-- C142: with sliders, every sequence of loads has a sequence of equilibria, and it is the only one. -/
theorem C142_path (p : AftPars) (n : ℕ) (K : ℕ → ℕ → ℝ) (hK : Stiff n K) (os : List FObj) (hos : ∀ o ∈ os, Slides n o) (Fs : List (ℕ → ℝ)) :
    ∃ Xs, LoadPath p n K os Fs Xs ∧ ∀ Ys, LoadPath p n K os Fs Ys → List.Forall₂ (fun Y X => ∀ i < n, Y i = X i) Ys Xs := by
  induction Fs generalizing os with
  | nil =>
    refine ⟨[], trivial, fun Ys h => ?_⟩
    cases Ys with
    | nil => exact .nil
    | cons Y Ys => exact absurd h (by simp [LoadPath])
  | cons F Fs ih =>
    obtain ⟨g, hg, e⟩ := slides_static hos
    have hs : Springs n fun X i => (g.map fun a => a X i).sum := Springs.list (l := g) (g := fun a => a) hg
    obtain ⟨X, hX⟩ := equil_exists hK.sym hK.pos hs F
    obtain ⟨u1, u2, u3⟩ := slides_update p X hos
    obtain ⟨Xs, hXs, hu⟩ := ih _ u2
    refine ⟨X :: Xs, ⟨(balanced_iff e F X).2 hX, u1, hXs⟩, fun Ys h => ?_⟩
    cases Ys with
    | nil => exact absurd h (by simp [LoadPath])
    | cons Y Ys =>
      obtain ⟨b1, b2, b3⟩ := h
      have hYX := equil_unique hK hs ((balanced_iff e F Y).1 b1) hX
      rw [u3 Y hYX] at b3
      exact .cons hYX (hu Ys b3)

/-! ## Where it fails -/

/-- C142: with friction the balance of two degrees of freedom with positive definite stiffness can have two solutions at the same load and history:
pressed together and slipping, or open. `μ = 1/2`, `K = [[1, 3], [3, 10]]`, load `(18, 50)`. -/
theorem C142_friction_two :
    let K : ℕ → ℕ → ℝ := fun i j => if i = 0 ∧ j = 0 then 1 else if i = 1 ∧ j = 1 then 10 else 3
    let o : FObj := .edf2 ⟨2, 2, fun i j => if i = j then 1 else 0, fun i j => if i = j then 1 else 0⟩ (Edf2.new 1 10 (1/2) 0) .none
    let F : ℕ → ℝ := fun i => if i = 0 then 18 else 50
    Stiff 2 K ∧ Balanced 2 K [o] F (fun i => if i = 0 then 10 else 1) ∧ Balanced 2 K [o] F (fun i => if i = 0 then 30 else -4) := by
  intro K o F
  refine ⟨⟨fun i hi j hj => ?_, fun v hv => ?_⟩, ?_, ?_⟩
  · interval_cases i <;> interval_cases j <;> simp [K]
  · obtain ⟨i, hi, hne⟩ := hv
    simp only [sum_range_succ, sum_range_zero, K]
    norm_num
    have : v 0 * v 0 + v 0 * 3 * v 1 + (v 1 * 3 * v 0 + v 1 * 10 * v 1) = (v 0 + 3 * v 1) ^ 2 + v 1 ^ 2 := by ring
    rw [this]
    by_cases h1 : v 1 = 0
    · have h0 : v 0 ≠ 0 := by interval_cases i <;> simp_all
      rw [h1]
      have := sq_pos_of_ne_zero h0
      nlinarith
    · have := sq_pos_of_ne_zero h1
      nlinarith [sq_nonneg (v 0 + 3 * v 1)]
  · refine ⟨[fun i => if i = 0 then 5 else if i = 1 then 10 else 0], ?_, ?_⟩
    · simp only [staticForces, o, FObj.force, List.map_cons, List.map_nil]
      congr 2
      funext i
      rw [Maps.glob, weighted_some _ _ _ 2 fun _ _ => rfl]
      norm_num [sum_range_succ, Edf2.force, edf2Static, edfNormal, Edf2.new, Maps.loc, vdot]
      by_cases h0 : i = 0
      · simp [h0]
      · by_cases h1 : i = 1 <;> simp [h0, h1]
    · intro i hi
      interval_cases i <;> norm_num [sum_range_succ, K, F]
  · refine ⟨[fun _ => 0], ?_, ?_⟩
    · simp only [staticForces, o, FObj.force, List.map_cons, List.map_nil]
      congr 2
      funext i
      rw [Maps.glob, weighted_some _ _ _ 2 fun _ _ => rfl]
      norm_num [sum_range_succ, Edf2.force, edf2Static, edfNormal, Edf2.new, Maps.loc, vdot]
    · intro i hi
      interval_cases i <;> norm_num [sum_range_succ, K, F]

/-- C142: a softening spring has several equilibria without load. -/
theorem C142_softening_two :
    let S : VibSys := ⟨1, fun _ _ => 1, fun _ _ => 1, fun _ _ => 0, none,
      [instForce 1 1 (fun _ _ => 1) (fun _ _ => 1) (cubicLoc fun _ => -1) (cubicForce 1 1 (fun _ _ => 1) (fun _ _ => 1) fun _ => -1)]⟩
    StaticEq S (fun _ => 0) (fun _ => 0) ∧ StaticEq S (fun _ => 0) (fun _ => 1) := by
  intro S
  have key : ∀ X F : ℕ → ℝ, staticRes S X F = _ := fun X F => staticRes_ok S X F (fun f => forceVal f X) fun f hf => by
    simp only [S, List.mem_singleton] at hf
    subst hf
    rfl
  exact ⟨⟨_, key _ _, fun i hi => by simp [S, matVec, forceVal, instForce, cubicForce]⟩,
    ⟨_, key _ _, fun i hi => by simp [S, matVec, forceVal, instForce, cubicForce]⟩⟩

/-! ## Examples -/

theorem stiff_one : Stiff 1 fun _ _ => 1 := by
  refine ⟨fun _ _ _ _ => rfl, fun v ⟨i, hi, h⟩ => ?_⟩
  obtain rfl : i = 0 := by omega
  simp only [sum_range_one, mul_one]
  exact mul_self_pos.2 h

/-- Example: a mass on a unit spring and a unit cubic spring under the load 10 rests at 2, and nowhere else. -/
example : let S : VibSys := ⟨1, fun _ _ => 1, fun _ _ => 1, fun _ _ => 0, none,
      [instForce 1 1 (fun _ _ => 1) (fun _ _ => 1) (cubicLoc fun _ => 1) (cubicForce 1 1 (fun _ _ => 1) (fun _ _ => 1) fun _ => 1)]⟩
    StaticEq S (fun _ => 10) (fun _ => 2) ∧ ∀ Y, StaticEq S (fun _ => 10) Y → Y 0 = 2 := by
  intro S
  have hf : ∀ f ∈ S.forces, MonoForce S.nd f := by
    intro f hf
    simp only [S, List.mem_singleton] at hf
    subst hf
    exact (C142_classes 1 1 _ _ (fun _ _ _ _ => rfl) (fun _ => 1) (fun _ => zero_le_one) (fun _ => 0) (fun _ => 0) ⟨1, 1, 0, 0⟩
      ⟨by norm_num, by norm_num, by norm_num, by norm_num⟩).1
  have h2 : StaticEq S (fun _ => 10) (fun _ => 2) := by
    rw [staticEq_iff hf]
    intro i hi
    norm_num [S, totalForce, forceVal, instForce, cubicForce, matVec]
  obtain ⟨X, hX, hu⟩ := C142_exists_unique S stiff_one hf fun _ => 10
  exact ⟨h2, fun Y hY => (hu Y hY 0 (by norm_num [S])).trans (hu _ h2 0 (by norm_num [S])).symm⟩

/-- Example: a mass on a unit spring and a Jenkins slider (`kt = 1`, `Fs = 1`), loaded with 3 and released: it comes back to `1/2` only, because the slider has slipped by 1. -/
example (p : AftPars) : let o : FObj := .jenkins (Jenkins.new 1 (fun _ => 1) (fun _ => 1) 1 1).initHistory
    (∀ Ys, LoadPath p 1 (fun _ _ => 1) [o] [fun _ => 3, fun _ => 0] Ys → ∃ X Y, Ys = [X, Y] ∧ X 0 = 2 ∧ Y 0 = 1/2) ∧
    LoadPath p 1 (fun _ _ => 1) [o] [fun _ => 3, fun _ => 0] [fun _ => 2, fun _ => 1/2] := by
  intro o
  have hpath : LoadPath p 1 (fun _ _ => 1) [o] [fun _ => 3, fun _ => 0] [fun _ => 2, fun _ => 1/2] := by
    have hs : Real.sign 2 = 1 := Real.sign_of_pos (by norm_num)
    have ha : |(-(3 / 2) + 1 : ℝ)| = 1 / 2 := by rw [show (-(3 / 2) + 1 : ℝ) = -(1 / 2) by norm_num, abs_neg, abs_of_pos (by norm_num)]
    refine ⟨⟨[fun _ => 1], ?_, fun i _ => by norm_num⟩, by rfl, ⟨[fun _ => -1/2], ?_, fun i _ => by norm_num⟩, by rfl, trivial⟩
    · norm_num [staticForces, o, FObj.force, Jenkins.force, Jenkins.new, Jenkins.initHistory, jenkinsLocal, vdot, hs]
    · norm_num [staticForces, o, FObj.force, Jenkins.force, Jenkins.new, Jenkins.initHistory, jenkinsLocal, vdot, sysCall, forAll, FObj.forceType, Jenkins.updateHistory, hs, ha]
  refine ⟨fun Ys hYs => ?_, hpath⟩
  obtain ⟨Xs, h1, h2⟩ := C142_path p 1 (fun _ _ => 1) stiff_one [o] (fun a ha => by
    simp only [List.mem_singleton] at ha
    subst ha
    exact ⟨rfl, fun _ _ => rfl, zero_le_one, zero_le_one, _, rfl⟩) [fun _ => 3, fun _ => 0]
  have hp := h2 _ hpath
  have hY := h2 _ hYs
  obtain ⟨A, B, rfl⟩ : ∃ A B, Xs = [A, B] := by
    cases hp with
    | cons a b => cases b with
      | cons c d => cases d with
        | nil => exact ⟨_, _, rfl⟩
  simp only [List.forall₂_cons, List.forall₂_nil_right_iff, and_true, Nat.lt_one_iff, forall_eq] at hp
  cases hY with
  | cons a b => cases b with
    | cons c d => cases d with
      | nil =>
        refine ⟨_, _, rfl, ?_, ?_⟩
        · rw [a 0 zero_lt_one, ← hp.1]
        · rw [c 0 zero_lt_one, ← hp.2]

end

end TMD
