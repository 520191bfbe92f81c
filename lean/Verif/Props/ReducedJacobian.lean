import Verif.Props.Coordinates
import Verif.Props.Residual

/-!
# C119: the matrix of derivatives of a reduced model

Where the returned derivatives are true derivatives in both sets of coordinates, the matrix that `hbm_res` (vibration_system.py:464-483)
returns for the reduced model is `Pᵀ J P` of the full one, block by block of the coefficients, and the frequency column is projected.
-/

namespace TMD

open Spec Finset

noncomputable section

theorem hasGrad_eq {n : ℕ} {f : (ℕ → ℝ) → ℝ} {g g' : ℕ → ℝ} {x : ℕ → ℝ} (h : HasGrad n f g x) (h' : HasGrad n f g' x) {j : ℕ} (hj : j < n) : g j = g' j := by
  unfold HasGrad at h h'
  have e := congrArg (fun L : (Fin n → ℝ) →L[ℝ] ℝ => L (Pi.single ⟨j, hj⟩ 1)) (h.unique h')
  simpa [row_apply, Pi.single_apply] using e

theorem hasGrad_point {n : ℕ} {f : (ℕ → ℝ) → ℝ} {g : ℕ → ℝ} {x y : ℕ → ℝ} (h : HasGrad n f g x) (hdep : ∀ a b, (∀ i < n, a i = b i) → f a = f b) (hxy : ∀ i < n, x i = y i) :
    HasGrad n f g y := by
  unfold HasGrad at *
  have e : (fun v : Fin n → ℝ => f fun i => x i + Spec.ext v i) = fun v => f fun i => y i + Spec.ext v i := funext fun v => hdep _ _ fun i hi => by rw [hxy i hi]
  rwa [e] at h

/-- The unknowns of the full model from those of the reduced one, `x = P q` for every coefficient, and the frequency. -/
def expandAll (L n m : ℕ) (P : ℕ → ℕ → ℝ) (X : ℕ → ℝ) (k : ℕ) : ℝ := if k < L * n then ∑ b ∈ range m, P (k % n) b * X (k / n * m + b) else X (L * m)

theorem expandAll_grad {L n m : ℕ} {P : ℕ → ℕ → ℝ} {N : ℕ} (X : ℕ → ℝ) (k : ℕ) :
    HasGrad N (fun X => expandAll L n m P X k)
      (fun j => if k < L * n then ∑ b ∈ range m, P (k % n) b * (if j = k / n * m + b then 1 else 0) else if j = L * m then 1 else 0) X := by
  unfold expandAll
  by_cases hk : k < L * n
  · simp only [hk, if_true]
    exact HasGrad.sum fun b _ => (HasGrad.coord _).const_mul _
  · simp only [hk, if_false]
    exact HasGrad.coord _

/-- C119: the matrix of derivatives of the reduced model is `Pᵀ J P`, its frequency column is `Pᵀ` times that of the full model. -/
theorem C119_jacobian (S S' : VibSys) (P : ℕ → ℕ → ℝ) (h : List ℕ) (hA : Admissible h) (Nt : ℕ) (tol : ℝ) (H : Reduces S S' P h Nt tol)
    (Z Z' Fl Fl' : ℕ → ℝ) (hZ : Expands h S.nd S'.nd P Z' Z) (hw : Z (numCoeff h * S.nd) = Z' (numCoeff h * S'.nd))
    (hT : ∀ f ∈ S.forces, JointTrue (aftVal h Nt tol f) (numCoeff h * S.nd) Z) (hT' : ∀ f ∈ S'.forces, JointTrue (aftVal h Nt tol f) (numCoeff h * S'.nd) Z') :
    ∃ R J d R' J' d', hbmRes S Z Fl h Nt tol true = .ok ⟨R, some (J, d)⟩ ∧ hbmRes S' Z' Fl' h Nt tol true = .ok ⟨R', some (J', d')⟩ ∧
      (∀ r < numCoeff h, ∀ a < S'.nd, ∀ c < numCoeff h, ∀ b < S'.nd,
        J' (r * S'.nd + a) (c * S'.nd + b) = ∑ i ∈ range S.nd, ∑ j ∈ range S.nd, P i a * J (r * S.nd + i) (c * S.nd + j) * P j b) ∧
      Projects h S.nd S'.nd P d d' := by
  refine ⟨_, _, _, _, _, _, hbmRes_ok S hA Nt tol _ H.val.1 Z Fl, hbmRes_ok S' hA Nt tol _ H.val.2 Z' Fl', ?_⟩
  set L := numCoeff h with hL
  have hexp : ∀ X, Expands h S.nd S'.nd P X (expandAll L S.nd S'.nd P X) := fun X r hr i hi => by
    rw [expandAll, if_pos (row_lt hr hi), (mod_block hi).1, (mod_block hi).2]
  have hlast : ∀ X, expandAll L S.nd S'.nd P X (L * S.nd) = X (L * S'.nd) := fun X => by rw [expandAll, if_neg (lt_irrefl _)]
  have hpt : ∀ k < L * S.nd + 1, Z k = expandAll L S.nd S'.nd P Z' k := fun k hk => by
    by_cases hk' : k < L * S.nd
    · obtain ⟨h1, h2⟩ := div_lt_block hk'
      have e1 := hZ _ h1 _ h2
      have e2 := hexp Z' _ h1 _ h2
      rw [Nat.div_add_mod'] at e1 e2
      rw [e1, e2]
    · obtain rfl : k = L * S.nd := by omega
      rw [hlast, hw]
  have main : ∀ r < L, ∀ a < S'.nd, ∀ q < L * S'.nd + 1,
      (if q < L * S'.nd then hbmJ S' (aftVal h Nt tol) h Z' (r * S'.nd + a) q else hbmD S' (aftVal h Nt tol) h Z' (r * S'.nd + a))
        = ∑ i ∈ range S.nd, P i a * ∑ k ∈ range (L * S.nd + 1),
          (if k < L * S.nd then hbmJ S (aftVal h Nt tol) h Z (r * S.nd + i) k else hbmD S (aftVal h Nt tol) h Z (r * S.nd + i)) *
            (if k < L * S.nd then ∑ b ∈ range S'.nd, P (k % S.nd) b * (if q = k / S.nd * S'.nd + b then 1 else 0) else if q = L * S'.nd then 1 else 0) := by
    intro r hr a ha q hq
    have g' := hbmG_grad S' hA (aftVal h Nt tol) Z' hT' (r * S'.nd + a) (row_lt hr ha)
    have g : HasGrad (L * S'.nd + 1) (fun X => ∑ i ∈ range S.nd, P i a * hbmG S (aftVal h Nt tol) h (expandAll L S.nd S'.nd P X) (r * S.nd + i)) _ Z' :=
      HasGrad.sum fun i hi => (HasGrad.comp_vec (Y := expandAll L S.nd S'.nd P)
        (hasGrad_point (hbmG_grad S hA (aftVal h Nt tol) Z hT (r * S.nd + i) (row_lt hr (mem_range.1 hi))) (hbmG_dep S _ h _) hpt) (hbmG_dep S _ h _)
        fun k _ => expandAll_grad Z' k).const_mul (P i a)
    exact hasGrad_eq g' (g.congr_fun fun X => hbmG_projects hA H (hexp X) (hlast X) r hr a ha) hq
  constructor
  · intro r hr a ha c hc b hb
    have hq : c * S'.nd + b < L * S'.nd := row_lt hc hb
    have k := main r hr a ha (c * S'.nd + b) (by omega)
    rw [if_pos hq] at k
    rw [k]
    refine sum_congr rfl fun i _ => ?_
    rw [sum_range_succ, if_neg (lt_irrefl _), if_neg (lt_irrefl _), if_neg (by omega), mul_zero, add_zero, mul_sum, sum_blocks,
      sum_eq_single_of_mem c (mem_range.2 hc) fun c' hc' hne => sum_eq_zero fun j hj => ?_]
    · refine sum_congr rfl fun j hj => ?_
      have hj := mem_range.1 hj
      rw [if_pos (row_lt hc hj), if_pos (row_lt hc hj), (mod_block hj).1, (mod_block hj).2, sum_eq_single_of_mem b (mem_range.2 hb) fun b' _ hb' => by
        rw [if_neg (by omega), mul_zero]]
      rw [if_pos rfl]
      ring
    · have hj := mem_range.1 hj
      rw [if_pos (row_lt (mem_range.1 hc') hj), if_pos (row_lt (mem_range.1 hc') hj), (mod_block hj).1, (mod_block hj).2, sum_eq_zero fun b' hb' => by
        rw [if_neg fun e => hne (by
          have := (block_eq_iff (mem_range.1 hb')).1 e
          rw [(mod_block hb).2] at this
          exact this.1.symm), mul_zero], mul_zero, mul_zero]
  · intro r hr a ha
    have k := main r hr a ha (L * S'.nd) (by omega)
    rw [if_neg (lt_irrefl _)] at k
    rw [k]
    refine sum_congr rfl fun i _ => ?_
    rw [sum_range_succ, if_neg (lt_irrefl _), if_neg (lt_irrefl _), if_pos rfl, mul_one, sum_eq_zero fun x hx => ?_, zero_add]
    have hx := mem_range.1 hx
    obtain ⟨h1, -⟩ := div_lt_block hx
    rw [if_pos hx, if_pos hx, sum_eq_zero fun b' hb' => by
      have := row_lt h1 (mem_range.1 hb')
      rw [if_neg (by omega), mul_zero], mul_zero]

/-- Laws that are differentiable everywhere and do not depend on the velocity meet the hypotheses of `C119_jacobian`. -/
theorem instForce_true {h : List ℕ} (hA : Admissible h) {Nt : ℕ} (hNt : ∀ k ∈ h, 2*k + 1 < Nt) (heven : Even Nt) {tol : ℝ} {N m : ℕ} {Q T : ℕ → ℕ → ℝ}
    {loc : ℕ → ℝ → ℝ → Loc} {force : (ℕ → ℝ) → (ℕ → ℝ) × (ℕ → ℕ → ℝ)} (hv : ∀ d u ud, (loc d u ud).dfdud = 0) (hl : ∀ d u ud, LawDiff loc d u ud) (Z : ℕ → ℝ) :
    JointTrue (aftVal h Nt tol (instForce N m Q T loc force)) (numCoeff h * N) Z := by
  obtain ⟨out, h1, h2⟩ := C25_joint h hA Nt hNt heven N m Q T loc
  have e : aftVal h Nt tol (instForce N m Q T loc force) = out := by
    funext U w
    show (match instAft N m Q T (elemLfh loc) U w h Nt with | .ok o => o | .error _ => _) = _
    rw [h1]
  rw [e]
  exact h2 Z (.inr hv) fun d _ j _ => hl d _ _

/-- Example: two equal masses, each with a cubic spring to the ground, coupled by a linear spring, moving in phase (`P = (1, 1)ᵀ`) are one mass of twice
the size; the entries of its matrix are the sums of the blocks of the matrix of the two masses. -/
example (tol a b w : ℝ) (Fl Fl' : ℕ → ℝ) :
    ∃ R J d R' J' d', hbmRes ⟨2, fun i j => if i = j then 1 else 0, fun i j => if i = j then 2 else -1, fun i j => if i = j then 0.1 else 0, none,
          [cubicNL 2 2 (fun i j => if i = j then 1 else 0) (fun i j => if i = j then 1 else 0) (fun _ => 1)]⟩
        (fun i => if i < 2 then a else if i < 4 then b else w) Fl [1] 16 tol true = .ok ⟨R, some (J, d)⟩ ∧
      hbmRes ⟨1, fun _ _ => 2, fun _ _ => 2, fun _ _ => 0.2, none,
          [cubicNL 1 2 (rightMul 2 (fun i j => if i = j then 1 else 0) (fun _ _ => 1)) (leftMul 2 (fun _ _ => 1) (fun i j => if i = j then 1 else 0))
            (fun _ => 1)]⟩
        (fun i => if i = 0 then a else if i = 1 then b else w) Fl' [1] 16 tol true = .ok ⟨R', some (J', d')⟩ ∧
      J' 0 1 = J 0 2 + J 0 3 + (J 1 2 + J 1 3) := by
  have a1 : Admissible [1] := ⟨by simp, by decide, by decide⟩
  have hk : ∀ (N : ℕ) (Q T : ℕ → ℕ → ℝ) (Z : ℕ → ℝ), JointTrue (aftVal [1] 16 tol (cubicNL N 2 Q T fun _ => 1)) (numCoeff [1] * N) Z := fun N Q T Z =>
    instForce_true a1 (by decide) ⟨8, rfl⟩ (fun _ _ _ => rfl) (lawDiff_cubic _) Z
  obtain ⟨R, J, d, R', J', d', h1, h2, h3, -⟩ := C119_jacobian
    ⟨2, fun i j => if i = j then 1 else 0, fun i j => if i = j then 2 else -1, fun i j => if i = j then 0.1 else 0, none,
      [cubicNL 2 2 (fun i j => if i = j then 1 else 0) (fun i j => if i = j then 1 else 0) (fun _ => 1)]⟩
    ⟨1, fun _ _ => 2, fun _ _ => 2, fun _ _ => 0.2, none,
      [cubicNL 1 2 (rightMul 2 (fun i j => if i = j then 1 else 0) (fun _ _ => 1)) (leftMul 2 (fun _ _ => 1) (fun i j => if i = j then 1 else 0)) (fun _ => 1)]⟩
    (fun _ _ => 1) [1] a1 16 tol ⟨fun a _ b _ => by simp only [sum_range_succ, sum_range_zero]; norm_num, fun a _ b _ => by simp only [sum_range_succ, sum_range_zero]; norm_num,
      fun a _ b _ => by simp only [sum_range_succ, sum_range_zero]; norm_num, .cons (C119_instantaneous [1] a1 16 (by decide) ⟨8, rfl⟩ 2 1 2 _ _ _ _ _ _ tol) .nil⟩
    (fun i => if i < 2 then a else if i < 4 then b else w) (fun i => if i = 0 then a else if i = 1 then b else w) Fl Fl'
    (fun r hr i hi => by
      have hr : r < 2 := hr
      have hi : i < 2 := hi
      interval_cases r <;> interval_cases i <;> simp)
    (by simp [numCoeff]) (fun f hf => by rw [List.mem_singleton.1 hf]; exact hk _ _ _ _) (fun f hf => by rw [List.mem_singleton.1 hf]; exact hk _ _ _ _)
  refine ⟨R, J, d, R', J', d', h1, h2, ?_⟩
  have k := h3 0 (by decide) 0 (by decide) 1 (by decide) 0 (by decide)
  simpa [sum_range_succ] using k

end

end TMD
