import Verif.Props.Coordinates
import Verif.Props.HbmShooting

/-!
# C119: static equilibria of reduced models

`static_res` (vibration_system.py:306-319) of the model in the coordinates `q` with `x = P q` returns `Pᵀ R` and `Pᵀ J P`.
-/

namespace TMD

open Spec Finset

noncomputable section

/-- The force object `g` of the new coordinates is, for static displacements, the projected `f` of the old ones; so is its stiffness. -/
def ReducesStatic (f g : NLForce) (n m : ℕ) (P : ℕ → ℕ → ℝ) : Prop :=
  ∀ U V : ℕ → ℝ, (∀ i < n, V i = ∑ b ∈ range m, P i b * U b) → ∃ o o', f.force V = .ok o ∧ g.force U = .ok o' ∧
    (∀ a < m, o'.1 a = ∑ i ∈ range n, P i a * o.1 i) ∧ ∀ a < m, ∀ b < m, o'.2 a b = ∑ i ∈ range n, ∑ j ∈ range n, P i a * o.2 i j * P j b

/-- C119: residual and matrix of `static_res` of a reduced model. -/
theorem C119_static (S S' : VibSys) (P : ℕ → ℕ → ℝ)
    (hK : ∀ a < S'.nd, ∀ b < S'.nd, S'.K a b = ∑ i ∈ range S.nd, ∑ j ∈ range S.nd, P i a * S.K i j * P j b)
    (hf : List.Forall₂ (fun f g => ReducesStatic f g S.nd S'.nd P) S.forces S'.forces) (U V Fs Fs' : ℕ → ℝ) (hV : ∀ i < S.nd, V i = ∑ b ∈ range S'.nd, P i b * U b)
    (hF : ∀ a < S'.nd, Fs' a = ∑ i ∈ range S.nd, P i a * Fs i) :
    ∃ R J R' J', staticRes S V Fs = .ok (R, J) ∧ staticRes S' U Fs' = .ok (R', J') ∧ (∀ a < S'.nd, R' a = ∑ i ∈ range S.nd, P i a * R i) ∧
      ∀ a < S'.nd, ∀ b < S'.nd, J' a b = ∑ i ∈ range S.nd, ∑ j ∈ range S.nd, P i a * J i j * P j b := by
  have key : ∀ {l l' : List NLForce}, List.Forall₂ (fun f g => ReducesStatic f g S.nd S'.nd P) l l' → ∀ x x' : (ℕ → ℝ) × (ℕ → ℕ → ℝ),
      (∀ a < S'.nd, x'.1 a = ∑ i ∈ range S.nd, P i a * x.1 i) → (∀ a < S'.nd, ∀ b < S'.nd, x'.2 a b = ∑ i ∈ range S.nd, ∑ j ∈ range S.nd, P i a * x.2 i j * P j b) →
      ∃ y y', l.foldl (staticStep V) (.ok x) = .ok y ∧ l'.foldl (staticStep U) (.ok x') = .ok y' ∧ (∀ a < S'.nd, y'.1 a = ∑ i ∈ range S.nd, P i a * y.1 i) ∧
        ∀ a < S'.nd, ∀ b < S'.nd, y'.2 a b = ∑ i ∈ range S.nd, ∑ j ∈ range S.nd, P i a * y.2 i j * P j b := by
    intro l l' hl
    induction hl with
    | nil => exact fun x x' h1 h2 => ⟨x, x', rfl, rfl, h1, h2⟩
    | cons hd _ ih =>
      intro x x' h1 h2
      obtain ⟨o, o', k1, k2, k3, k4⟩ := hd U V hV
      simp only [List.foldl_cons, staticStep, k1, k2]
      refine ih _ _ (fun a ha => ?_) fun a ha b hb => ?_
      · simp only [h1 a ha, k3 a ha, mul_add, sum_add_distrib]
      · simp only [h2 a ha b hb, k4 a ha b hb, mul_add, add_mul, sum_add_distrib]
  obtain ⟨y, y', k1, k2, k3, k4⟩ := key hf (fun _ => 0, fun _ _ => 0) (fun _ => 0, fun _ _ => 0) (fun a _ => by simp) fun a _ b _ => by simp
  refine ⟨_, _, _, _, by rw [staticRes, k1], by rw [staticRes, k2], fun a ha => ?_, fun a ha b hb => ?_⟩
  · have e : matVec S'.nd S'.K U a = ∑ i ∈ range S.nd, P i a * matVec S.nd S.K V i := by
      unfold matVec
      rw [sum_congr rfl fun b hb => by rw [hK a ha b (mem_range.1 hb), sum_mul]]
      rw [sum_comm]
      refine sum_congr rfl fun i _ => ?_
      rw [mul_sum]
      simp only [sum_mul]
      rw [sum_comm]
      refine sum_congr rfl fun j hj => ?_
      rw [hV j (mem_range.1 hj), mul_sum, mul_sum]
      exact sum_congr rfl fun b _ => by ring
    simp only [e, k3 a ha, hF a ha, mul_sub, mul_add, sum_add_distrib, sum_sub_distrib]
  · simp only [hK a ha b hb, k4 a ha b hb, mul_add, add_mul, sum_add_distrib]

/-- C119: forces of local displacements, with any law and any matrix of local derivatives. -/
theorem C119_static_local {n m l : ℕ} {P Q T : ℕ → ℕ → ℝ} {φ : (ℕ → ℝ) → ℕ → ℝ} {D : (ℕ → ℝ) → ℕ → ℕ → ℝ} {f g : NLForce}
    (hf : ∀ X, f.force X = .ok (matVec l T (φ (matVec n Q X)), matMul l (matMul l T (D (matVec n Q X))) Q))
    (hg : ∀ X, g.force X = .ok (matVec l (leftMul n P T) (φ (matVec m (rightMul n Q P) X)), matMul l (matMul l (leftMul n P T) (D (matVec m (rightMul n Q P) X))) (rightMul n Q P))) :
    ReducesStatic f g n m P := by
  intro U V hV
  have e : matVec m (rightMul n Q P) U = matVec n Q V := by
    funext d
    unfold matVec rightMul
    simp only [sum_mul]
    rw [sum_comm]
    refine sum_congr rfl fun j hj => ?_
    rw [hV j (mem_range.1 hj), mul_sum]
    exact sum_congr rfl fun b _ => by ring
  refine ⟨_, _, hf V, hg U, fun a _ => ?_, fun a _ b _ => ?_⟩
  · rw [e]
    show ∑ d ∈ range l, (∑ i ∈ range n, P i a * T i d) * _ = ∑ i ∈ range n, P i a * ∑ d ∈ range l, T i d * _
    simp only [sum_mul, mul_sum]
    rw [sum_comm]
    exact sum_congr rfl fun i _ => sum_congr rfl fun d _ => by ring
  · rw [e]
    show ∑ c ∈ range l, (∑ d ∈ range l, (∑ i ∈ range n, P i a * T i d) * D (matVec n Q V) d c) * (∑ j ∈ range n, Q c j * P j b)
      = ∑ i ∈ range n, ∑ j ∈ range n, P i a * (∑ c ∈ range l, (∑ d ∈ range l, T i d * D (matVec n Q V) d c) * Q c j) * P j b
    have e1 : ∀ c, ∑ d ∈ range l, (∑ i ∈ range n, P i a * T i d) * D (matVec n Q V) d c = ∑ i ∈ range n, P i a * ∑ d ∈ range l, T i d * D (matVec n Q V) d c := by
      intro c
      simp only [sum_mul, mul_sum]
      rw [sum_comm]
      exact sum_congr rfl fun i _ => sum_congr rfl fun d _ => by ring
    simp only [e1]
    have e2 : ∀ A : ℕ → ℕ → ℝ, ∑ c ∈ range l, (∑ i ∈ range n, P i a * A i c) * (∑ j ∈ range n, Q c j * P j b)
        = ∑ i ∈ range n, ∑ j ∈ range n, P i a * (∑ c ∈ range l, A i c * Q c j) * P j b := by
      intro A
      simp only [sum_mul_sum]
      rw [sum_comm]
      refine sum_congr rfl fun i _ => ?_
      rw [sum_comm]
      refine sum_congr rfl fun j _ => ?_
      rw [mul_sum, sum_mul]
      exact sum_congr rfl fun c _ => by ring
    exact e2 fun i c => ∑ d ∈ range l, T i d * D (matVec n Q V) d c

/-- C119: the springs of the package. -/
theorem C119_static_classes (n m l cnl : ℕ) (P Q T E : ℕ → ℕ → ℝ) (qq : ℕ → ℕ → ℕ) (k k' N0 δ : ℕ → ℝ) (p : IwanBB) :
    ReducesStatic (cubicNL n l Q T k) (cubicNL m l (rightMul n Q P) (leftMul n P T) k) n m P ∧
    ReducesStatic (instForce n l Q T (quinticLoc k) (quinticForce n l Q T k))
      (instForce m l (rightMul n Q P) (leftMul n P T) (quinticLoc k) (quinticForce m l (rightMul n Q P) (leftMul n P T) k)) n m P ∧
    ReducesStatic (instForce n l Q T (unilateralLoc k' N0 δ) (unilateralForce n l Q T k' N0 δ))
      (instForce m l (rightMul n Q P) (leftMul n P T) (unilateralLoc k' N0 δ) (unilateralForce m l (rightMul n Q P) (leftMul n P T) k' N0 δ)) n m P ∧
    ReducesStatic (instForce n l Q T (iwanBBLoc p) (iwanBBForce n l Q T p))
      (instForce m l (rightMul n Q P) (leftMul n P T) (iwanBBLoc p) (iwanBBForce m l (rightMul n Q P) (leftMul n P T) p)) n m P ∧
    ReducesStatic (genPolyNL n l cnl Q T E qq) (genPolyNL m l cnl (rightMul n Q P) (leftMul n P T) E qq) n m P := by
  refine ⟨C119_static_local (φ := fun u d => k d * u d ^ 3) (D := fun u => diag fun d => 3 * k d * u d ^ 2) (fun _ => rfl) fun _ => rfl,
    C119_static_local (φ := fun u d => k d * u d ^ 5) (D := fun u => diag fun d => 5 * k d * u d ^ 4) (fun _ => rfl) fun _ => rfl,
    C119_static_local (φ := fun u d => max (k' d * (u d - δ d) - N0 d) (-N0 d))
      (D := fun u => diag fun d => mask (max (k' d * (u d - δ d) - N0 d) (-N0 d) > -N0 d) * k' d) (fun _ => rfl) fun _ => rfl,
    C119_static_local
      (φ := fun u d => ((p.kt * (npSign (u d) * u d) - p.coefE * (npSign (u d) * u d) ^ (2 + p.chi)) * mask (npSign (u d) * u d < p.phiMax)
        + p.Fs * mask (npSign (u d) * u d ≥ p.phiMax)) * npSign (u d))
      (D := fun u => diag fun d => (p.kt - p.coefE * (2 + p.chi) * (npSign (u d) * u d) ^ (1 + p.chi)) * mask (npSign (u d) * u d < p.phiMax)) (fun _ => rfl) fun _ => rfl, ?_⟩
  have assoc : ∀ (A G : ℕ → ℕ → ℝ), matMul cnl (matMul l A E) G = matMul l A (matMul cnl E G) := by
    intro A G
    funext i j
    unfold matMul
    simp only [sum_mul, mul_sum]
    rw [sum_comm]
    exact sum_congr rfl fun d _ => sum_congr rfl fun c _ => by ring
  refine C119_static_local (l := l) (Q := Q) (T := T) (φ := fun u => matVec cnl E fun c => polyProd l (qq c) u) (D := fun u => matMul cnl E (polyGrad l qq u)) (fun X => ?_) fun X => ?_
  · rw [← assoc]; rfl
  · rw [← assoc]; rfl

/-- Example: two equal masses on springs, moving together (`P` has one column of ones), with a cubic spring at the second: the equation of the one coordinate at
`q = 2` with stiffness `1 + 1` and load `4 + 8` is `2 q + q³ - 12 = 0`. -/
example : ∃ R' J', staticRes ⟨1, fun _ _ => 2, fun _ _ => 2, fun _ _ => 0, none,
      [cubicNL 1 1 (rightMul 2 (fun _ j => if j = 1 then 1 else 0) fun _ _ => 1) (leftMul 2 (fun _ _ => 1) fun i _ => if i = 1 then 1 else 0) fun _ => 1]⟩ (fun _ => 2) (fun _ => 12) = .ok (R', J') ∧
    R' 0 = 0 ∧ J' 0 0 = 14 := by
  obtain ⟨R, J, R', J', h1, h2, h3, h4⟩ := C119_static
    ⟨2, fun i j => if i = j then 1 else 0, fun i j => if i = j then 1 else 0, fun _ _ => 0, none, [cubicNL 2 1 (fun _ j => if j = 1 then 1 else 0) (fun i _ => if i = 1 then 1 else 0) fun _ => 1]⟩
    ⟨1, fun _ _ => 2, fun _ _ => 2, fun _ _ => 0, none,
      [cubicNL 1 1 (rightMul 2 (fun _ j => if j = 1 then 1 else 0) fun _ _ => 1) (leftMul 2 (fun _ _ => 1) fun i _ => if i = 1 then 1 else 0) fun _ => 1]⟩
    (fun _ _ => 1) (fun a _ b _ => by simp only [sum_range_succ, sum_range_zero]; norm_num)
    (.cons (C119_static_classes 2 1 1 0 (fun _ _ => 1) _ _ (fun _ _ => 0) (fun _ _ => 0) _ (fun _ => 0) (fun _ => 0) (fun _ => 0) ⟨1, 1, 1, 1⟩).1 .nil)
    (fun _ => 2) (fun _ => 2) (fun i => if i = 0 then 4 else 8) (fun _ => 12) (fun i _ => by norm_num) fun a _ => by norm_num [sum_range_succ]
  refine ⟨R', J', h2, ?_, ?_⟩
  · rw [h3 0 one_pos]
    obtain ⟨rfl, -⟩ := Prod.mk.inj (Except.ok.inj h1)
    norm_num [sum_range_succ, matVec, cubicForce]
  · rw [h4 0 one_pos 0 one_pos]
    obtain ⟨-, rfl⟩ := Prod.mk.inj (Except.ok.inj h1)
    norm_num [sum_range_succ, matVec, matMul, diag, cubicForce]

end

end TMD
