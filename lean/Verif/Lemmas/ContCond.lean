import Verif.Lemmas.Tube
import Verif.Props.ContinuationProgress

/-! # The residual of a continuation in conditioned coordinates -/

namespace TMD

open Spec Metric Set

noncomputable section

variable {N : ℕ} {f : ContFun} {R : (ℕ → ℝ) → ℕ → ℝ} {J : (ℕ → ℝ) → ℕ → ℕ → ℝ} {D : (ℕ → ℝ) → ℕ → ℝ} {C : ℕ → ℝ}

/-- The user's function: it returns numbers everywhere, depends on the first `N + 1` entries, and in the open set `O` it has the returned
derivatives, which are continuous there. -/
structure SmoothIn (N : ℕ) (f : ContFun) (R : (ℕ → ℝ) → ℕ → ℝ) (J : (ℕ → ℝ) → ℕ → ℕ → ℝ) (D : (ℕ → ℝ) → ℕ → ℝ) (O : Set (Fin (N + 1) → ℝ)) : Prop where
  value : ∀ X, f X true = .ok ⟨R X, J X, D X⟩
  local' : ∀ X Y, (∀ k < N + 1, X k = Y k) → f X true = f Y true
  isOpen : IsOpen O
  deriv : ∀ v ∈ O, HasJac N (N + 1) R (fullJac (N := N) J D (Spec.ext v)) (Spec.ext v)
  cont : ∀ i < N, ∀ j < N + 1, ContinuousOn (fun v : Fin (N + 1) → ℝ => fullJac (N := N) J D (Spec.ext v) i j) O

/-- The linear map of a matrix with `N` rows and `N + 1` columns. -/
def rectMap (M : Matrix (Fin N) (Fin (N + 1)) ℝ) : (Fin (N + 1) → ℝ) →L[ℝ] (Fin N → ℝ) := LinearMap.toContinuousLinearMap M.mulVecLin

theorem rectMap_apply (M : Matrix (Fin N) (Fin (N + 1)) ℝ) (v : Fin (N + 1) → ℝ) : rectMap M v = M.mulVec v := rfl

theorem rectMap_continuous : Continuous (rectMap (N := N)) := by
  let l : Matrix (Fin N) (Fin (N + 1)) ℝ →ₗ[ℝ] ((Fin (N + 1) → ℝ) →L[ℝ] (Fin N → ℝ)) :=
    { toFun := rectMap
      map_add' := fun A B => by ext1 v; simp [rectMap_apply, Matrix.add_mulVec]
      map_smul' := fun a B => by ext1 v; simp [rectMap_apply, Matrix.smul_mulVec] }
  exact l.continuous_of_finiteDimensional

/-- The residual as a function of the conditioned point. -/
def condRes (N : ℕ) (R : (ℕ → ℝ) → ℕ → ℝ) (C : ℕ → ℝ) (z : Fin (N + 1) → ℝ) : Fin N → ℝ := fun i => R (Spec.ext (condMap N C z)) i

/-- Its matrix. -/
def condMat (N : ℕ) (J : (ℕ → ℝ) → ℕ → ℕ → ℝ) (D : (ℕ → ℝ) → ℕ → ℝ) (C : ℕ → ℝ) (z : Fin (N + 1) → ℝ) : Matrix (Fin N) (Fin (N + 1)) ℝ := fun i j =>
  fullJac (N := N) J D (Spec.ext (condMap N C z)) i j * C j

theorem condRes_deriv {O : Set (Fin (N + 1) → ℝ)} (hs : SmoothIn N f R J D O) {z : Fin (N + 1) → ℝ} (hz : condMap N C z ∈ O) :
    HasFDerivAt (condRes N R C) (rectMap (condMat N J D C z)) z := by
  refine hasFDerivAt_pi'' fun i => ?_
  have h := hs.deriv _ hz i i.2
  have e : ∀ v : Fin (N + 1) → ℝ, offPt (fun _ => 0) v = Spec.ext v := fun v => funext fun k => by simp [offPt]
  rw [← e] at h
  have h2 := offPt_deriv h
  simp only [e] at h2
  have h3 : HasFDerivAt (fun z : Fin (N + 1) → ℝ => condMap N C z) (condCLM N C) z := by
    have := (condCLM N C).hasFDerivAt (x := z)
    simpa only [funext fun z => condCLM_apply (N := N) C z] using this
  have h4 := HasFDerivAt.comp (f := fun z : Fin (N + 1) → ℝ => condMap N C z) z h2 h3
  refine (h4.congr_of_eventuallyEq (Filter.Eventually.of_forall fun u => rfl)).congr_fderiv ?_
  ext1 v
  simp only [ContinuousLinearMap.comp_apply, condCLM_apply, row_apply, ContinuousLinearMap.proj_apply, rectMap_apply, Matrix.mulVec, dotProduct, condMat, condMap]
  exact Finset.sum_congr rfl fun j _ => by ring

theorem condMap_continuous (C : ℕ → ℝ) : Continuous (condMap N C) := by
  unfold condMap
  fun_prop

theorem condMat_continuous {O : Set (Fin (N + 1) → ℝ)} (hs : SmoothIn N f R J D O) :
    ContinuousOn (fun z => rectMap (condMat N J D C z)) (condMap N C ⁻¹' O) := by
  refine rectMap_continuous.comp_continuousOn ?_
  refine continuousOn_pi.2 fun i => continuousOn_pi.2 fun j => ?_
  exact ((hs.cont i i.2 j j.2).comp (condMap_continuous C).continuousOn fun z hz => hz).mul continuousOn_const

/-- A point of the solver (an array) as a point of the space. -/
def condPt (N : ℕ) (C X : ℕ → ℝ) : Fin (N + 1) → ℝ := fun j => X j / C j

theorem value_condPt {O : Set (Fin (N + 1) → ℝ)} (hs : SmoothIn N f R J D O) (hC : ∀ i ≤ N, 0 < C i) (X : ℕ → ℝ) :
    f X true = .ok ⟨R (Spec.ext (condMap N C (condPt N C X))), J (Spec.ext (condMap N C (condPt N C X))), D (Spec.ext (condMap N C (condPt N C X)))⟩ := by
  rw [← hs.value]
  refine hs.local' _ _ fun k hk => ?_
  have := (hC k (by omega)).ne'
  simp only [Spec.ext, hk, dif_pos, condMap, condPt]
  field_simp

theorem ext_condMap (C : ℕ → ℝ) (z : Fin (N + 1) → ℝ) : (fun k => Spec.ext z k * C k) = Spec.ext (condMap N C z) := by
  funext k
  simp only [Spec.ext, condMap]
  split_ifs
  · ring
  · ring

/-- The rows of the matrix applied to a vector, as sums over arrays. -/
theorem condMat_mulVec (z v : Fin (N + 1) → ℝ) (i : Fin N) : (condMat N J D C z).mulVec v i
    = (∑ j ∈ Finset.range N, J (Spec.ext (condMap N C z)) i j * (C j * Spec.ext v j)) + D (Spec.ext (condMap N C z)) i * (C N * Spec.ext v N) := by
  simp only [Matrix.mulVec, dotProduct, condMat]
  rw [Fin.sum_univ_castSucc, Finset.sum_range]
  congr 1
  · refine Finset.sum_congr rfl fun j _ => ?_
    have : Spec.ext v (j : ℕ) = v (Fin.castSucc j) := ext_fin v (Fin.castSucc j)
    simp only [fullJac, Fin.val_castSucc, j.2, if_true, this]
    ring
  · have : Spec.ext v N = v (Fin.last N) := ext_fin v (Fin.last N)
    simp only [fullJac, Fin.val_last, lt_irrefl, if_false, this]
    ring

/-- The kernel of the matrix and the tangents. -/
theorem condMat_tangent {R' : ℕ → ℝ} (z v : Fin (N + 1) → ℝ) : rectMap (condMat N J D C z) v = 0 ↔
    Tangent N ⟨R', J (Spec.ext (condMap N C z)), D (Spec.ext (condMap N C z))⟩ fun j => C j * Spec.ext v j := by
  rw [rectMap_apply]
  constructor
  · intro h i hi
    have := congrFun h ⟨i, hi⟩
    rw [condMat_mulVec] at this
    exact this
  · intro h
    funext i
    rw [condMat_mulVec]
    exact h i i.2

theorem condMat_ker {R' : ℕ → ℝ} (hC : ∀ i ≤ N, 0 < C i) {z : Fin (N + 1) → ℝ}
    (h : IsCurve N ⟨R', J (Spec.ext (condMap N C z)), D (Spec.ext (condMap N C z))⟩) (u v : Fin (N + 1) → ℝ)
    (hu : rectMap (condMat N J D C z) u = 0) (hv : rectMap (condMat N J D C z) v = 0) (hne : u ≠ 0) : ∃ s : ℝ, v = s • u := by
  have hne' : ∃ i ≤ N, C i * Spec.ext u i ≠ 0 := by
    by_contra hcon
    push Not at hcon
    refine hne (funext fun j => ?_)
    have := hcon j (by omega)
    rw [ext_fin] at this
    exact (mul_eq_zero.1 this).resolve_left (hC j (by omega)).ne'
  obtain ⟨s, hs⟩ := h _ _ ((condMat_tangent (R' := R') z u).1 hu) ((condMat_tangent (R' := R') z v).1 hv) hne'
  refine ⟨s, funext fun j => ?_⟩
  have := hs j (by omega)
  simp only [ext_fin] at this
  have hCj := (hC j (by omega)).ne'
  simp only [Pi.smul_apply, smul_eq_mul]
  refine mul_left_cancel₀ hCj ?_
  rw [this]; ring

/-- Residual and matrix of the corrector with the orthogonal arc equation. -/
theorem ortho_aug {O : Set (Fin (N + 1) → ℝ)} (hs : SmoothIn N f R J D O) {obj : ContObj} {r : ℝ} (hr : obj.RPtoC = .scalar r) (hr0 : r ≠ 0)
    (X0 d : ℕ → ℝ) {s : ℝ} (hs0 : s ≠ 0) {c : ℝ} (hc : arcWeight N obj.fracLam (fun i => X0 i / obj.CtoP i) = c) (X : Fin (N + 1) → ℝ) :
    ∃ Rv Dm, augSolve (N + 1) (fun XlamC g => correctRes N .ortho obj f XlamC (fun i => X0 i / obj.CtoP i) s (some d) g) X true = .ok (Rv, Dm) ∧
      (∀ v, Dm.mulVec v = Rv ↔ rectMap (condMat N J D obj.CtoP X) v = condRes N R obj.CtoP X ∧
        ∑ j : Fin (N + 1), arcWt N obj.fracLam c j * d j * v j
          = ∑ j : Fin (N + 1), arcWt N obj.fracLam c j * d j * (X j - (X0 j / obj.CtoP j + d j * s))) ∧
      (∀ v, Dm.mulVec v = 0 → rectMap (condMat N J D obj.CtoP X) v = 0 ∧ ∑ j : Fin (N + 1), arcWt N obj.fracLam c j * d j * v j = 0) := by
  let Dm : Matrix (Fin (N + 1)) (Fin (N + 1)) ℝ := fun i j =>
    if (i : ℕ) < N then r * (fullJac (N := N) J D (Spec.ext (condMap N obj.CtoP X)) i j * obj.CtoP j) else arcWt N obj.fracLam c j * d j / s
  let Rv : Fin (N + 1) → ℝ := fun i => if (i : ℕ) < N then r * R (Spec.ext (condMap N obj.CtoP X)) i
    else (∑ j : Fin (N + 1), arcWt N obj.fracLam c j * d j * (X j - (X0 j / obj.CtoP j + d j * s))) / s
  have hD1 : ∀ (v : Fin (N + 1) → ℝ) (i : Fin N), Dm.mulVec v (Fin.castSucc i) = r * (condMat N J D obj.CtoP X).mulVec v i := fun v i => by
    simp only [Matrix.mulVec, dotProduct, Dm, Fin.val_castSucc, i.2, if_true, condMat, Finset.mul_sum]
    exact Finset.sum_congr rfl fun j _ => by ring
  have hD2 : ∀ v : Fin (N + 1) → ℝ, Dm.mulVec v (Fin.last N) = (∑ j : Fin (N + 1), arcWt N obj.fracLam c j * d j * v j) / s := fun v => by
    simp only [Matrix.mulVec, dotProduct, Dm, Fin.val_last, lt_irrefl, if_false, Finset.sum_div]
    exact Finset.sum_congr rfl fun j _ => by ring
  have hR1 : ∀ i : Fin N, Rv (Fin.castSucc i) = r * condRes N R obj.CtoP X i := fun i => by
    simp only [Rv, Fin.val_castSucc, i.2, if_true, condRes]
  have hR2 : Rv (Fin.last N) = (∑ j : Fin (N + 1), arcWt N obj.fracLam c j * d j * (X j - (X0 j / obj.CtoP j + d j * s))) / s := by
    simp only [Rv, Fin.val_last, lt_irrefl, if_false]
  refine ⟨Rv, Dm, ?_, fun v => ?_, fun v hv => ?_⟩
  · simp only [augSolve, correctRes, ext_condMap, hs.value, hc, hr, if_true]
    congr 1
    refine Prod.ext (funext fun i => ?_) (funext fun i => funext fun j => ?_)
    · by_cases hi : (i : ℕ) < N
      · simp only [hi, if_true, Rv]
      · simp only [hi, if_false, Rv, orthogonalArcRes]
        congr 1
        refine Eq.trans ?_ ((sum_arcWt N obj.fracLam c fun k => (Spec.ext X k - (X0 k / obj.CtoP k + d k * s)) * d k).symm.trans
          (Finset.sum_congr rfl fun j _ => by simp only [ext_fin]; ring))
        ring
    · by_cases hi : (i : ℕ) < N
      · simp only [hi, if_true, Dm]
        by_cases hj : (j : ℕ) < N
        · simp only [fullJac, hj, if_true]
        · simp only [fullJac, hj, if_false]
          rw [show (j : ℕ) = N by omega]
      · simp only [hi, if_false, Dm, orthogonalArcRes]
        by_cases hj : (j : ℕ) < N
        · simp only [hj, if_true, arcWt]
        · simp only [hj, if_false, arcWt]
          rw [show (j : ℕ) = N by omega]
  · constructor
    · intro h
      refine ⟨funext fun i => ?_, ?_⟩
      · have := congrFun h (Fin.castSucc i)
        rw [hD1, hR1] at this
        exact mul_left_cancel₀ hr0 this
      · have := congrFun h (Fin.last N)
        rw [hD2, hR2] at this
        exact (div_left_inj' hs0).1 this
    · rintro ⟨h1, h2⟩
      refine funext fun i => ?_
      refine Fin.lastCases ?_ (fun i => ?_) i
      · rw [hD2, hR2, h2]
      · rw [hD1, hR1, ← h1, rectMap_apply]
  · refine ⟨funext fun i => ?_, ?_⟩
    · have := congrFun hv (Fin.castSucc i)
      rw [hD1] at this
      exact (mul_eq_zero.1 this).resolve_left hr0
    · have := congrFun hv (Fin.last N)
      rw [hD2] at this
      exact (div_eq_zero_iff.1 this).resolve_right hs0

end

end TMD
