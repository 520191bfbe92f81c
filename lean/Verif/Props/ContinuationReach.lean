import Verif.Props.ContinuationRun

/-!
# C140: without folds a continuation reaches the last value of the parameter
-/

namespace TMD

open Spec Metric Set

noncomputable section

variable {N : ℕ} {f : ContFun} {R : (ℕ → ℝ) → ℕ → ℝ} {J : (ℕ → ℝ) → ℕ → ℕ → ℝ} {D : (ℕ → ℝ) → ℕ → ℝ} {C : ℕ → ℝ}
  {O : Set (Fin (N + 1) → ℝ)} {lam0 lam1 δ η b : ℝ} {bs : Option ℝ} {G : Set (Fin (N + 1) → ℝ)} {ρ m B κ γ : ℝ}
  {L : ℕ → Type} {inf : ℝ} {fac : (n : ℕ) → Matrix (Fin n) (Fin n) ℝ → L n} {sol : (n : ℕ) → L n → (Fin n → ℝ) → (Fin n → ℝ)}
  {lin : ℕ → (ℕ → ℕ → ℝ) → (ℕ → ℝ) → Except Err (ℕ → ℝ)} {om : OmpConfig ℝ} {t : ℝ}

/-- One step along a tangent which is not vertical: the new point is ahead by at least half of the step of the tangent. -/
theorem fold_advance {F : Type*} [NormedAddCommGroup F] [NormedSpace ℝ F] {n : ℕ} {A : (Fin (n + 1) → ℝ) →L[ℝ] F} {d z y w : Fin (n + 1) → ℝ} {gz gy : F}
    {s ω E μ σ : ℝ} (hm : 0 < m) (hs : 0 < s) (hσ : |σ| = 1) (hμ : 0 < μ) (hd : A d = 0) (hB : ‖d‖ ≤ B) (hμd : μ ≤ σ * d (Fin.last n))
    (harc : ∑ j, w j * (y j - (z j + d j * s)) = 0) (hlow : ∀ v, ∑ j, w j * v j = 0 → m * ‖v‖ ≤ ‖A v‖)
    (hrem : ‖gy - gz - A (y - z)‖ ≤ ω * ‖y - z‖) (hgz : ‖gz‖ ≤ E) (hgy : ‖gy‖ ≤ E) (hω0 : 0 ≤ ω) (hω : ω ≤ m / 2) (hωB : ω * B ≤ m * μ / 16) (hE : 2 * E ≤ m * μ * s / 16) :
    μ * s / 2 ≤ σ * (y (Fin.last n) - z (Fin.last n)) ∧ ‖y - z‖ ≤ 2 * B * s := by
  set v : Fin (n + 1) → ℝ := y - z - s • d with hv
  have hyz : y - z = s • d + v := by rw [hv]; abel
  have hv0 : ∑ j, w j * v j = 0 := by
    rw [← harc]
    exact Finset.sum_congr rfl fun j _ => by simp only [hv, Pi.sub_apply, Pi.smul_apply, smul_eq_mul]; ring
  have hAv : A (y - z) = A v := by rw [hyz, map_add, map_smul, hd, smul_zero, zero_add]
  have h1 : ‖A v‖ ≤ ω * ‖y - z‖ + 2 * E := by
    rw [← hAv, show A (y - z) = (gy - gz) - (gy - gz - A (y - z)) by abel]
    have := norm_sub_le (gy - gz) (gy - gz - A (y - z))
    have := norm_sub_le gy gz
    linarith
  have h2 : ‖y - z‖ ≤ s * B + ‖v‖ := by
    rw [hyz]
    refine (norm_add_le _ _).trans (add_le_add ?_ le_rfl)
    rw [norm_smul, Real.norm_of_nonneg hs.le]
    exact mul_le_mul_of_nonneg_left hB hs.le
  have h3 := hlow v hv0
  have h4 : ω * ‖y - z‖ ≤ ω * (s * B + ‖v‖) := mul_le_mul_of_nonneg_left h2 hω0
  have h5 : ω * ‖v‖ ≤ m / 2 * ‖v‖ := mul_le_mul_of_nonneg_right hω (norm_nonneg _)
  have h6 : ω * B * s ≤ m * μ / 16 * s := mul_le_mul_of_nonneg_right hωB hs.le
  have h7 : ‖v‖ ≤ μ * s / 4 := by
    have : m / 2 * ‖v‖ ≤ m / 2 * (μ * s / 4) := by nlinarith
    exact le_of_mul_le_mul_left this (by positivity)
  have habs : ∀ x : ℝ, σ * x ≤ |x| := fun x => (le_abs_self _).trans (by rw [abs_mul, hσ, one_mul])
  have hvl : |v (Fin.last n)| ≤ ‖v‖ := norm_le_pi_norm v (Fin.last n)
  have hdl : |d (Fin.last n)| ≤ ‖d‖ := norm_le_pi_norm d (Fin.last n)
  have hμB : μ ≤ B := hμd.trans ((habs _).trans (hdl.trans hB))
  constructor
  · have e : y (Fin.last n) - z (Fin.last n) = s * d (Fin.last n) + v (Fin.last n) := congrFun hyz (Fin.last n)
    rw [e]
    have h8 := habs (-v (Fin.last n))
    rw [abs_neg] at h8
    have h9 : μ * s ≤ σ * d (Fin.last n) * s := mul_le_mul_of_nonneg_right hμd hs.le
    nlinarith [mul_pos hμ hs]
  · have : μ * s ≤ B * s := mul_le_mul_of_nonneg_right hμB hs.le
    nlinarith [mul_pos hμ hs]

/-- The next tangent points the same way. -/
theorem fold_orient {F : Type*} [NormedAddCommGroup F] [NormedSpace ℝ F] {n : ℕ} {A : (Fin (n + 1) → ℝ) →L[ℝ] F} {d z y q : Fin (n + 1) → ℝ} {gz gy : F}
    {s ω E μ σ : ℝ} (hm : 0 < m) (hs : 0 < s) (hσ : |σ| = 1) (hμ : 0 < μ) (hd : A d = 0) (hunit : ∑ j, q j * d j ^ 2 = 1)
    (hori : 0 ≤ ∑ j, q j * (d j * (y j - z j))) (hlow : ∀ v, ∑ j, q j * d j * v j = 0 → m * ‖v‖ ≤ ‖A v‖)
    (hrem : ‖gz - gy - A (z - y)‖ ≤ 2 * ω * ‖z - y‖) (hgz : ‖gz‖ ≤ E) (hgy : ‖gy‖ ≤ E) (hω0 : 0 ≤ ω) (hωB : ω * B ≤ m * μ / 16) (hE : 2 * E ≤ m * μ * s / 16)
    (hadv : μ * s / 2 ≤ σ * (y (Fin.last n) - z (Fin.last n))) (hlen : ‖y - z‖ ≤ 2 * B * s) : 0 < σ * d (Fin.last n) := by
  set α : ℝ := ∑ j, q j * (d j * (y j - z j)) with hα
  set v : Fin (n + 1) → ℝ := y - z - α • d with hv
  have hyz : y - z = α • d + v := by rw [hv]; abel
  have hv0 : ∑ j, q j * d j * v j = 0 := by
    have : ∑ j, q j * d j * v j = α - α * ∑ j, q j * d j ^ 2 := by
      rw [Finset.mul_sum]
      nth_rewrite 1 [hα]
      rw [← Finset.sum_sub_distrib]
      exact Finset.sum_congr rfl fun j _ => by simp only [hv, Pi.sub_apply, Pi.smul_apply, smul_eq_mul]; ring
    rw [this, hunit]; ring
  have hAv : A (z - y) = -A v := by
    rw [← neg_sub, map_neg, hyz, map_add, map_smul, hd, smul_zero, zero_add]
  have h1 : ‖A v‖ ≤ 2 * ω * ‖y - z‖ + 2 * E := by
    rw [← norm_neg, ← hAv, show A (z - y) = (gz - gy) - (gz - gy - A (z - y)) by abel, norm_sub_rev y z]
    have := norm_sub_le (gz - gy) (gz - gy - A (z - y))
    have := norm_sub_le gz gy
    linarith
  have h3 := hlow v hv0
  have h4 : 2 * ω * ‖y - z‖ ≤ 2 * ω * (2 * B * s) := mul_le_mul_of_nonneg_left hlen (by positivity)
  have h6 : ω * B * s ≤ m * μ / 16 * s := mul_le_mul_of_nonneg_right hωB hs.le
  have h7 : ‖v‖ < μ * s / 2 := by
    have : m * ‖v‖ < m * (μ * s / 2) := by nlinarith [mul_pos (mul_pos hm hμ) hs]
    exact lt_of_mul_lt_mul_left this hm.le
  have habs : ∀ x : ℝ, σ * x ≤ |x| := fun x => (le_abs_self _).trans (by rw [abs_mul, hσ, one_mul])
  have hvl : |v (Fin.last n)| ≤ ‖v‖ := norm_le_pi_norm v (Fin.last n)
  have e : y (Fin.last n) - z (Fin.last n) = α * d (Fin.last n) + v (Fin.last n) := congrFun hyz (Fin.last n)
  rw [e] at hadv
  have h8 := habs (v (Fin.last n))
  have h9 : 0 < α * (σ * d (Fin.last n)) := by nlinarith
  by_contra h
  nlinarith

/-- On a compact set where no tangent is vertical the slopes are bounded below. -/
theorem tangent_slope {T : Set (Fin (N + 1) → ℝ)} (hT : IsCompact T) {M : (Fin (N + 1) → ℝ) → Matrix (Fin N) (Fin (N + 1)) ℝ}
    (hM : ContinuousOn (fun z => rectMap (M z)) T) (hnz : ∀ z ∈ T, ∃ i : Fin N, z (Fin.castSucc i) ≠ 0)
    (hB : ∀ z ∈ T, ∀ d : Fin (N + 1) → ℝ, ∑ j : Fin (N + 1), arcWt N b (tubeWt N b z) j * d j ^ 2 = 1 → ‖d‖ ≤ B)
    (hker : ∀ z ∈ T, ∀ d, rectMap (M z) d = 0 → d (Fin.last N) = 0 → d = 0) :
    ∃ μ > 0, ∀ z ∈ T, ∀ d, rectMap (M z) d = 0 → ∑ j : Fin (N + 1), arcWt N b (tubeWt N b z) j * d j ^ 2 = 1 → μ ≤ |d (Fin.last N)| := by
  let P : Set ((Fin (N + 1) → ℝ) × (Fin (N + 1) → ℝ)) := T ×ˢ closedBall 0 B
  have hP : IsCompact P := hT.prod (isCompact_closedBall _ _)
  have hwt : ∀ j : Fin (N + 1), ContinuousOn (fun z : Fin (N + 1) → ℝ => arcWt N b (tubeWt N b z) j) T := fun j => by
    unfold arcWt tubeWt
    split_ifs
    · refine continuousOn_const.div (Continuous.continuousOn (by fun_prop)) fun z hz => ?_
      obtain ⟨i, hi⟩ := hnz z hz
      exact (Finset.sum_pos' (fun _ _ => sq_nonneg _) ⟨i, Finset.mem_univ _, by positivity⟩).ne'
    · exact continuousOn_const
  have h1 : ContinuousOn (fun p : (Fin (N + 1) → ℝ) × (Fin (N + 1) → ℝ) => rectMap (M p.1) p.2) P :=
    (hM.comp continuousOn_fst fun p hp => hp.1).clm_apply continuousOn_snd
  have h2 : ContinuousOn (fun p : (Fin (N + 1) → ℝ) × (Fin (N + 1) → ℝ) => ∑ j : Fin (N + 1), arcWt N b (tubeWt N b p.1) j * p.2 j ^ 2) P := by
    refine continuousOn_finsetSum _ fun j _ => ?_
    exact ((hwt j).comp continuousOn_fst fun p hp => hp.1).mul (Continuous.continuousOn (by fun_prop))
  have hS : IsCompact (P ∩ (fun p : (Fin (N + 1) → ℝ) × (Fin (N + 1) → ℝ) => rectMap (M p.1) p.2) ⁻¹' {0} ∩
      (P ∩ (fun p : (Fin (N + 1) → ℝ) × (Fin (N + 1) → ℝ) => ∑ j : Fin (N + 1), arcWt N b (tubeWt N b p.1) j * p.2 j ^ 2) ⁻¹' {1})) :=
    hP.of_isClosed_subset ((h1.preimage_isClosed_of_isClosed hP.isClosed isClosed_singleton).inter (h2.preimage_isClosed_of_isClosed hP.isClosed isClosed_singleton))
      fun p hp => hp.1.1
  obtain ⟨μ, hμ, H⟩ := hS.exists_forall_le' (f := fun p : (Fin (N + 1) → ℝ) × (Fin (N + 1) → ℝ) => |p.2 (Fin.last N)|) (a := 0)
    (Continuous.continuousOn (by fun_prop)) fun p hp => by
      refine abs_pos.2 fun h0 => ?_
      have hz := hker p.1 hp.1.1.1 p.2 hp.1.2 h0
      have hu : ∑ j : Fin (N + 1), arcWt N b (tubeWt N b p.1) j * p.2 j ^ 2 = 1 := hp.2.2
      rw [hz] at hu
      simp at hu
  refine ⟨μ, hμ, fun z hz d hd hu => H (z, d) ?_⟩
  have hmem : ((z, d) : (Fin (N + 1) → ℝ) × (Fin (N + 1) → ℝ)) ∈ P := ⟨hz, by simpa using hB z hz d hu⟩
  exact ⟨⟨hmem, hd⟩, hmem, hu⟩

/-- The points where the matrix of the unknowns is regular. -/
theorem noFold_open (hs : SmoothIn N f R J D O) (C : ℕ → ℝ) :
    IsOpen {z : Fin (N + 1) → ℝ | condMap N C z ∈ O ∧ Regular N (J (Spec.ext (condMap N C z)))} := by
  have hO : IsOpen (condMap N C ⁻¹' O) := hs.isOpen.preimage (condMap_continuous C)
  have hc : ContinuousOn (fun z : Fin (N + 1) → ℝ => Matrix.det (fun i j : Fin N => J (Spec.ext (condMap N C z)) i j)) (condMap N C ⁻¹' O) := by
    refine (continuous_id.matrix_det).comp_continuousOn (f := fun z : Fin (N + 1) → ℝ => (fun i j : Fin N => J (Spec.ext (condMap N C z)) i j : Matrix (Fin N) (Fin N) ℝ)) ?_
    refine continuousOn_pi.2 fun i => continuousOn_pi.2 fun j => ?_
    have h1 := hs.cont i i.2 j (by omega)
    simp only [fullJac, j.2, if_true] at h1
    exact h1.comp (condMap_continuous C).continuousOn fun z hz => hz
  have := hc.isOpen_inter_preimage hO (isOpen_compl_singleton (x := (0 : ℝ)))
  convert this using 1
  ext z
  simp only [mem_ofPred_eq, mem_inter_iff, mem_preimage, mem_compl_iff, mem_singleton_iff, regular_iff_det]

theorem noFold_ker (hC : ∀ i ≤ N, 0 < C i) {z : Fin (N + 1) → ℝ} (h : Regular N (J (Spec.ext (condMap N C z)))) {d : Fin (N + 1) → ℝ}
    (hd : rectMap (condMat N J D C z) d = 0) (h0 : d (Fin.last N) = 0) : d = 0 := by
  have e : ∀ j < N, C j * Spec.ext d j = 0 := h _ fun i hi => by
    have := congrFun hd ⟨i, hi⟩
    rw [rectMap_apply, condMat_mulVec, show Spec.ext d N = d (Fin.last N) from ext_fin d (Fin.last N), h0, mul_zero, mul_zero, add_zero] at this
    exact this
  refine funext fun j => ?_
  refine Fin.lastCases h0 (fun j => ?_) j
  have := e j j.2
  rw [show Spec.ext d (j : ℕ) = d (Fin.castSucc j) from ext_fin d (Fin.castSucc j)] at this
  exact (mul_eq_zero.1 this).resolve_left (hC j (by omega)).ne'

/-- What every state of a run without folds satisfies. -/
structure FoldInv (N : ℕ) (R : (ℕ → ℝ) → ℕ → ℝ) (J : (ℕ → ℝ) → ℕ → ℕ → ℝ) (D : (ℕ → ℝ) → ℕ → ℝ) (C : ℕ → ℝ) (lam0 lam1 b σ E g smin : ℝ) (st : ContSt) : Prop where
  ori : ∀ d : Fin (N + 1) → ℝ, rectMap (condMat N J D C (condPt N C st.X0)) d = 0 → ∑ j : Fin (N + 1), arcWt N b (tubeWt N b (condPt N C st.X0)) j * d j ^ 2 = 1 →
    0 ≤ ∑ j : Fin (N + 1), arcWt N b (tubeWt N b (condPt N C st.X0)) j * (d j * ((st.X0 j - st.Xprev j) / C j)) → 0 < σ * d (Fin.last N)
  resid : ‖condRes N R C (condPt N C st.X0)‖ ≤ E
  step : smin ≤ st.ds
  first : st.rows 0 N = lam0
  mono : ∀ k, k + 1 < st.step → g ≤ σ * (st.rows (k + 1) N - st.rows k N)
  ahead : ∀ k, k + 1 < st.step → Ahead lam0 lam1 (st.rows k N)

/-- A pass keeps it. -/
theorem fold_pass (hs : SmoothIn N f R J D O) (hC : ∀ i ≤ N, 0 < C i) (hlam : lam0 ≠ lam1)
    (ht : TubeConst N R J D O C lam0 lam1 bs δ η b G ρ m B κ γ) {ω μ σ E smin : ℝ} (hω0 : 0 ≤ ω) (hω : ω ≤ m / 2) (hωB : ω * B ≤ m * μ / 16) (hμ : 0 < μ) (hσ : |σ| = 1)
    (hvar : ∀ z ∈ G, ∀ y, ‖y - z‖ ≤ ρ → ‖rectMap (condMat N J D C y) - rectMap (condMat N J D C z)‖ ≤ ω)
    (hslope : ∀ z ∈ G, ∀ d, rectMap (condMat N J D C z) d = 0 → ∑ j : Fin (N + 1), arcWt N b (tubeWt N b z) j * d j ^ 2 = 1 → μ ≤ |d (Fin.last N)|)
    (hE : 2 * E ≤ m * μ * smin / 16) (htE : m / 4 * t ≤ E) {cfg : ContCfg} (h1 : smin ≤ cfg.dsmin) (h2 : smin ≤ cfg.dsmax)
    {st st1 : ContSt} {d : ℕ → ℝ} {out : SolOut} (hI : TubeInv N R J D C G (κ / (4 * B)) st) (hF : FoldInv N R J D C lam0 lam1 b σ E (C N * μ / 2 * smin) smin st)
    (hcond : contCond N cfg lam0 lam1 st) (hp : Pass N R J D C b (m / 4 * t) κ st d out.X) (e0 : st1.X0 = st.X0) (er : st1.rows = st.rows) (es : st1.step = st.step)
    (hI' : TubeInv N R J D C G (κ / (4 * B)) (storeStep cfg st1 out)) (hrow : ∀ j ≤ N, (storeStep cfg st1 out).X0 j = C j * out.X j) :
    FoldInv N R J D C lam0 lam1 b σ E (C N * μ / 2 * smin) smin (storeStep cfg st1 out) := by
  have hz : condPt N C st.X0 ∈ G := by rw [hI.row]; exact hI.rows _ (by have := hI.pos; omega)
  have hy : condPt N C (storeStep cfg st1 out).X0 ∈ G := by rw [hI'.row]; exact hI'.rows _ (by have := hI'.pos; omega)
  have hyX : condPt N C (storeStep cfg st1 out).X0 = fun j : Fin (N + 1) => out.X j := funext fun j => by
    have := (hC j (by omega)).ne'
    simp only [condPt]
    rw [hrow j (by omega)]
    field_simp
  rw [hyX] at hy
  obtain ⟨hB, hlow⟩ := ht.dir _ hz _ hp.tan hp.unit
  have hdpos := hF.ori _ hp.tan hp.unit hp.ori
  have hdμ : μ ≤ σ * d (Fin.last N : Fin (N + 1)) := by
    have := hslope _ hz _ hp.tan hp.unit
    rwa [show |(fun j : Fin (N + 1) => d j) (Fin.last N)| = σ * d (Fin.last N : Fin (N + 1)) by
      rw [← abs_of_pos hdpos, abs_mul, hσ, one_mul]] at this
  have hgd : ∀ y, ‖y - condPt N C st.X0‖ ≤ ρ → HasFDerivAt (condRes N R C) (rectMap (condMat N J D C y)) y := fun y hy =>
    condRes_deriv hs (ht.ball _ hz y hy).1
  have hz0 : ‖condPt N C st.X0 - condPt N C st.X0‖ ≤ ρ := by rw [sub_self, norm_zero]; exact ht.κpos.le.trans ht.κle
  have hyn : ‖(fun j : Fin (N + 1) => out.X j) - condPt N C st.X0‖ ≤ ρ := hp.near.trans ht.κle
  have hmp := ht.mpos
  have hse : 2 * E ≤ m * μ * st.ds / 16 := hE.trans (by
    have := mul_le_mul_of_nonneg_left hF.step (mul_pos hmp hμ).le
    linarith)
  obtain ⟨a1, a2⟩ := fold_advance (d := fun j : Fin (N + 1) => d j) (z := condPt N C st.X0) (y := fun j : Fin (N + 1) => out.X j) (σ := σ) (E := E) hmp hI.dspos hσ hμ hp.tan hB hdμ
    hp.arc (fun v hv => hlow v (Or.inl hv)) (remainder_le hgd (hvar _ hz) hz0 hyn).1 hF.resid (hp.resid.trans htE) hω0 hω hωB hse
  refine ⟨fun d' hd' hu' ho' => ?_, ?_, ?_, ?_, fun k hk => ?_, fun k hk => ?_⟩
  · rw [hyX] at hd' hu' ho'
    obtain ⟨-, hlow'⟩ := ht.dir _ hy _ hd' hu'
    refine fold_orient (B := B) (q := fun j : Fin (N + 1) => arcWt N b (tubeWt N b fun j : Fin (N + 1) => out.X j) j) (z := condPt N C st.X0) (y := fun j : Fin (N + 1) => out.X j)
      (E := E) hmp hI.dspos hσ hμ hd' hu' ?_ (fun v hv => hlow' v (Or.inl hv)) (remainder_le hgd (hvar _ hz) hyn hz0).2 hF.resid (hp.resid.trans htE) hω0 hωB hse a1 a2
    refine le_of_le_of_eq ho' (Finset.sum_congr rfl fun j _ => ?_)
    have hXp : (storeStep cfg st1 out).Xprev = st.X0 := e0
    rw [hrow j (by omega), hXp, sub_div, mul_div_cancel_left₀ _ (hC j (by omega)).ne']
    rfl
  · rw [hyX]; exact hp.resid.trans htE
  · show smin ≤ min (max _ cfg.dsmin) cfg.dsmax
    exact le_min (h1.trans (le_max_right _ _)) h2
  · show (if 0 = st1.step then _ else st1.rows 0) N = lam0
    rw [if_neg (by have := hI.pos; omega), er]
    exact hF.first
  · have hk' : k + 1 < st.step + 1 := by rw [← es]; exact hk
    have hrk : ∀ i, (storeStep cfg st1 out).rows i N = if i = st.step then C N * out.X N else st.rows i N := fun i => by
      show (if i = st1.step then _ else st1.rows i) N = _
      rw [es, er]
      split_ifs
      · exact hrow N le_rfl
      · rfl
    rw [hrk, hrk, if_neg (by omega : k ≠ st.step)]
    split_ifs with he
    · have hx : st.rows k N = st.X0 N := by rw [hI.row, show st.step - 1 = k by omega]
      have hCN := hC N le_rfl
      rw [hx]
      have e1 : σ * (C N * out.X N - st.X0 N) = C N * (σ * (out.X N - st.X0 N / C N)) := by field_simp
      rw [e1]
      have a1' : μ * st.ds / 2 ≤ σ * (out.X N - st.X0 N / C N) := a1
      have h3 : μ * smin / 2 ≤ σ * (out.X N - st.X0 N / C N) := le_trans (by have := mul_le_mul_of_nonneg_left hF.step hμ.le; linarith) a1'
      have := mul_le_mul_of_nonneg_left h3 hCN.le
      linarith
    · exact hF.mono k (by omega)
  · have hk' : k + 1 < st.step + 1 := by rw [← es]; exact hk
    have : (storeStep cfg st1 out).rows k N = st.rows k N := by
      show (if k = st1.step then _ else st1.rows k) N = _
      rw [if_neg (by omega), er]
    rw [this]
    by_cases he : k + 1 = st.step
    · have := ((contCond_iff hlam st).1 hcond).2.1
      rwa [show st.step - 1 = k by omega] at this
    · exact hF.ahead k (by omega)

/-- C140: if moreover no solution in the range is a fold, the parameter increases by at least `p · smin` in every step (decreases, when the
last value is below the first), and with enough steps allowed the run ends past the last value. `smin` is a lower bound of the steps, which the
tolerance of the solver must resolve. -/
theorem C140_reaches (hs : SmoothIn N f R J D O) (hK : RegularSolutions N R J D O lam0 lam1 bs δ) (hδ : 0 < δ) (hlam : lam0 ≠ lam1)
    (hfold : ∀ v ∈ solutions N R lam0 lam1 bs δ, Regular N (J (Spec.ext v))) (hbs : ∀ y ∈ bs, 0 < y)
    {x : Fin (N + 1) → ℝ} (hx : x ∈ solutions N R lam0 lam1 bs δ) (hx0 : x (Fin.last N) = lam0)
    {obj : ContObj} {r : ℝ} (hC : ∀ i ≤ N, 0 < (contPrepare obj).CtoP i) (hr : (contPrepare obj).RPtoC = .vector fun _ => r) (hr0 : r ≠ 0)
    (hb : 0 < b) (hb1 : b < 1) (hlin : LinOk lin) (hsol : ∀ n, ExactSolve (fac n) (sol n)) (hη : 0 < η) :
    ∃ s0 > 0, ∃ t0 > 0, ∃ c > 0, ∃ p > 0, ∃ r0 > 0, ∀ smin > 0, ∀ t > 0, t ≤ t0 → t ≤ c * smin → ∃ M, ∀ om, PlainNewton om → M ≤ om.maxSteps →
      ∀ (cfg : ContCfg) (rest : List ℝ), cfg.corrector = .ortho → cfg.dynamicCtoP = false → cfg.fracLamList = b :: rest → cfg.backtrackStop = bs →
      smin ≤ cfg.dsmin → smin ≤ cfg.dsmax → cfg.dsmax ≤ s0 → smin ≤ cfg.ds0 → cfg.ds0 ≤ s0 → |lam1 - lam0| ≤ p * smin * (cfg.maxSteps - 1) →
      ∀ XlamP0 : ℕ → ℝ, (∀ i < N, |XlamP0 i - Spec.ext x i| < r0) → ∀ fuel > cfg.maxSteps,
      ∃ res, continuation (ompContSolver lin inf fac sol om (some t)) N cfg obj f XlamP0 lam0 lam1 fuel = .ok res ∧ res.ok = true ∧ 0 < res.n ∧
        (∀ k < res.n, ∃ v ∈ solutions N R lam0 lam1 bs δ, ∀ j ≤ N, |res.rows k j - Spec.ext v j| < η) ∧
        (∀ k, k + 1 < res.n → p * smin ≤ (if lam0 < lam1 then 1 else -1) * (res.rows (k + 1) N - res.rows k N)) ∧
        res.rows 0 N = lam0 ∧ (∀ k, k + 1 < res.n → Ahead lam0 lam1 (res.rows k N)) ∧ ¬ Ahead lam0 lam1 (res.rows (res.n - 1) N) := by
  obtain ⟨C, hCe⟩ : ∃ C, (contPrepare obj).CtoP = C := ⟨_, rfl⟩
  rw [hCe] at hC
  obtain ⟨T, hTc, hTO, hTnz, hTU, m, B, hm, hB0, hTB, HT⟩ := tube_family (b := b) (η := η) hs hK hδ hC hb hb1 hη (noFold_open hs C)
    (fun z hz => ⟨hK.inside hz, hfold _ hz⟩)
  obtain ⟨μ, hμ, hslopeT⟩ := tangent_slope (b := b) hTc ((condMat_continuous (C := C) hs).mono hTO) hTnz hTB (fun z hz d hd h0 => noFold_ker hC (hTU hz).2 hd h0)
  set ω : ℝ := min (m / 2) (m * μ / (16 * B)) with hω
  have hω0 : 0 < ω := lt_min (by positivity) (by positivity)
  obtain ⟨G, ρ, κ, γ, hGT, ht, hvar⟩ := HT ω hω0
  have hωB : ω * B ≤ m * μ / 16 := by
    have := mul_le_mul_of_nonneg_right (min_le_right (m / 2) (m * μ / (16 * B))) hB0.le
    rwa [show m * μ / (16 * B) * B = m * μ / 16 by field_simp] at this
  set σ : ℝ := if lam0 < lam1 then 1 else -1 with hσd
  have hσ : |σ| = 1 := by rw [hσd]; split_ifs <;> simp
  have hσs : signOf (lam1 - lam0) = σ := by
    rw [hσd]
    unfold signOf
    rcases lt_or_gt_of_ne hlam with h | h
    · rw [if_pos (by linarith), if_pos h]
    · rw [if_neg (by linarith), if_pos (by linarith), if_neg (by linarith)]
  have hCj : ∀ j : Fin (N + 1), C j ≠ 0 := fun j => (hC j (by omega)).ne'
  have hCN := hC N le_rfl
  obtain ⟨t0, ht0, r0, hr0', H⟩ := run_core (inf := inf) hs hlam hx (hK.inside hx) hx0 (hfold _ hx) hCe hC hr hr0 hb hb1 hlin hsol ht
  -- the residual at the first point
  set x' : Fin N → ℝ := fun i => x (Fin.castSucc i) / C i with hx'
  have hst : condMap N C (startPt N C lam0 x') = x := funext fun j => by
    by_cases h : (j : ℕ) < N
    · simp only [condMap, startPt, h, dif_pos, hx']
      rw [mul_div_cancel₀ _ (hCj j)]
      rfl
    · obtain rfl : j = Fin.last N := Fin.ext (by simp; omega)
      simp only [condMap, startPt, Fin.val_last, lt_irrefl, dif_neg, not_false_eq_true]
      rw [mul_div_cancel₀ _ hCN.ne', hx0]
  have hxG : startPt N C lam0 x' ∈ G := (ht.start _ (by rw [hst]; exact hx)).self_of_nhds
  have hρ : 0 < ρ := ht.κpos.trans_le ht.κle
  set Lc : ℝ := m / 4 + ‖rectMap (condMat N J D C (startPt N C lam0 x'))‖ + ω with hLc
  have hLc0 : 0 < Lc := by positivity
  have hfirst : ∀ (t : ℝ) (y : Fin N → ℝ), t ≤ ρ → ‖y - x'‖ < t → ‖condRes N R C (startPt N C lam0 y)‖ ≤ Lc * t := fun t y htρ hy => by
    have hn : ‖startPt N C lam0 y - startPt N C lam0 x'‖ ≤ t := by
      refine (pi_norm_le_iff_of_nonneg ((norm_nonneg _).trans hy.le)).2 fun j => ?_
      by_cases h : (j : ℕ) < N
      · simp only [Pi.sub_apply, startPt, h, dif_pos]
        exact (norm_le_pi_norm (y - x') ⟨j, h⟩).trans hy.le
      · simp only [Pi.sub_apply, startPt, h, dif_neg, not_false_eq_true, sub_self, norm_zero]
        exact (norm_nonneg _).trans hy.le
    have h1 := (remainder_le (g := condRes N R C) (A := fun y => rectMap (condMat N J D C y)) (x0 := startPt N C lam0 x') (ρ := ρ) (ω := ω)
      (fun y hy => condRes_deriv hs (ht.ball _ hxG y hy).1) (hvar _ hxG) (x := startPt N C lam0 x') (y := startPt N C lam0 y)
      (by rw [sub_self, norm_zero]; exact hρ.le) (hn.trans htρ)).1
    have h0 : condRes N R C (startPt N C lam0 x') = 0 := funext fun i => by
      show R (Spec.ext (condMap N C (startPt N C lam0 x'))) i = 0
      rw [hst]; exact hx.1 i i.2
    rw [h0, sub_zero] at h1
    have h2 := norm_le_norm_add_norm_sub' (condRes N R C (startPt N C lam0 y)) (rectMap (condMat N J D C (startPt N C lam0 x')) (startPt N C lam0 y - startPt N C lam0 x'))
    have h3 := (rectMap (condMat N J D C (startPt N C lam0 x'))).le_opNorm (startPt N C lam0 y - startPt N C lam0 x')
    have h4 := mul_le_mul_of_nonneg_left hn (norm_nonneg (rectMap (condMat N J D C (startPt N C lam0 x'))))
    have h5 := mul_le_mul_of_nonneg_left hn hω0.le
    have h6 : 0 ≤ m / 4 * t := mul_nonneg (by positivity) ((norm_nonneg _).trans hy.le)
    rw [hLc]
    linarith
  refine ⟨κ / (4 * B), div_pos ht.κpos (by positivity), min t0 ρ, lt_min ht0 hρ, m * μ / (32 * Lc), by positivity, C N * μ / 2, by positivity, r0, hr0',
    fun smin hsm t htp htt htc => ?_⟩
  obtain ⟨M, HM⟩ := H t htp (htt.trans (min_le_left _ _))
  refine ⟨M, fun om hom hmM cfg rest hcor hdyn hfl hbs' hmin hmax hmax' hd0 hd0' hms XlamP0 hX fuel hfuel => ?_⟩
  have hE : 2 * (Lc * t) ≤ m * μ * smin / 16 := by
    have := mul_le_mul_of_nonneg_left htc hLc0.le
    rw [show Lc * (m * μ / (32 * Lc) * smin) = m * μ * smin / 32 by field_simp] at this
    linarith
  have htE : m / 4 * t ≤ Lc * t := mul_le_mul_of_nonneg_right (by
    have := norm_nonneg (rectMap (condMat N J D C (startPt N C lam0 x')))
    rw [hLc]; linarith) htp.le
  have hslope := fun z hz => hslopeT z (hGT hz)
  have hstepsR : (1 : ℝ) < cfg.maxSteps := by
    by_contra h
    have h1 : 0 < |lam1 - lam0| := abs_pos.2 (sub_ne_zero.2 hlam.symm)
    have h2 : 0 < C N * μ / 2 * smin := by positivity
    nlinarith
  obtain ⟨res, st', hrun, c4, c2, c3, b2, b3, hend⟩ := HM om hom hmM cfg rest hcor hdyn hfl hbs' (hsm.trans_le hmin) (hsm.trans_le hmax) hmax' (hsm.trans_le hd0) hd0'
    (by have : (1 : ℝ) < cfg.maxSteps := hstepsR; exact_mod_cast (zero_lt_one.trans this))
    (FoldInv N R J D C lam0 lam1 b σ (Lc * t) (C N * μ / 2 * smin) smin)
    (fun s hs1 hs2 hs3 => by
      refine ⟨fun d hd hu ho => ?_, ?_, hd0, ?_, fun k hk => ?_, fun k hk => ?_⟩
      · have hz : condPt N C (contStart N cfg lam0 lam1 (contPrepare obj) s).X0 ∈ G := by
          rw [hs3.row]; exact hs3.rows _ (by have := hs3.pos; omega)
        have hd1 := hslope _ hz d hd hu
        have hdiff : ∀ j : Fin (N + 1), (contStart N cfg lam0 lam1 (contPrepare obj) s).X0 j - (contStart N cfg lam0 lam1 (contPrepare obj) s).Xprev j
            = if (j : ℕ) < N then 0 else σ := fun j => by
          simp only [contStart, snocLam, hσs]
          split_ifs <;> ring
        have ho' : 0 ≤ b * (d (Fin.last N) * (σ / C N)) := by
          refine le_of_le_of_eq ho ?_
          rw [Fin.sum_univ_castSucc, Finset.sum_eq_zero fun j _ => by rw [hdiff, if_pos (by simp), zero_div, mul_zero, mul_zero], zero_add, hdiff, if_neg (by simp)]
          simp [arcWt]
        have h1 : 0 ≤ σ * d (Fin.last N) := by
          by_contra h
          have h2 : b / C N * (σ * d (Fin.last N)) < 0 := mul_neg_of_pos_of_neg (by positivity) (not_le.1 h)
          rw [show b / C N * (σ * d (Fin.last N)) = b * (d (Fin.last N) * (σ / C N)) by ring] at h2
          linarith
        refine lt_of_le_of_ne h1 fun h => ?_
        have h3 : |σ * d (Fin.last N)| = 0 := by rw [← h, abs_zero]
        rw [abs_mul, hσ, one_mul] at h3
        linarith
      · rw [hs2]; exact hfirst t _ (htt.trans (min_le_right _ _)) hs1
      · simp [contStart, snocLam]
      · have : k + 1 < 1 := hk
        omega
      · have : k + 1 < 1 := hk
        omega)
    (fun st st1 d out hI hF hcond hp e0 er es hI' hrow => fold_pass hs hC hlam ht hω0.le (min_le_left _ _) hωB hμ hσ hvar hslope hE htE hmin hmax hI hF hcond hp e0 er es hI' hrow)
    XlamP0 hX fuel hfuel
  have hn : 0 < res.n := by rw [c3]; exact b2.pos
  -- the parameter grows
  have hgrow : ∀ k, k + 1 ≤ res.n → C N * μ / 2 * smin * k ≤ σ * (res.rows k N - lam0) := fun k => by
    induction k with
    | zero => intro _; rw [c2, b3.first]; simp
    | succ k ih =>
      intro hk
      have h1 := ih (by omega)
      have h2 := b3.mono k (by omega)
      rw [← c2] at h2
      push_cast
      linarith
  have hnb : NotBehind lam0 lam1 bs (res.rows (res.n - 1) N) := fun y hy => by
    have h1 := hgrow (res.n - 1) (by omega)
    have h2 : 0 ≤ C N * μ / 2 * smin * (res.n - 1 : ℕ) := by positivity
    have hy0 := hbs y hy
    rcases lt_or_gt_of_ne hlam with h | h
    · rw [hσd, if_pos h] at h1
      exact Or.inl ⟨h, by linarith⟩
    · rw [hσd, if_neg (by linarith)] at h1
      exact Or.inr ⟨h, by linarith⟩
  refine ⟨res, hrun, c4, hn, fun i hi => by rw [c2]; exact tube_close hC ht (b2.rows i (c3 ▸ hi)), fun k hk => ?_, by rw [c2]; exact b3.first,
    fun k hk => ?_, ?_⟩
  · rw [c2]; exact b3.mono k (c3 ▸ hk)
  · rw [c2]; exact b3.ahead k (c3 ▸ hk)
  · rcases hend with h | h | h
    · have h1 := hgrow (res.n - 1) (by omega)
      have h2 : ((res.n - 1 : ℕ) : ℝ) = cfg.maxSteps - 1 := by rw [Nat.cast_sub hn, h]; simp
      rw [h2] at h1
      have h3 := hms.trans h1
      rintro (⟨ha, hb'⟩ | ⟨ha, hb'⟩)
      · rw [hσd, if_pos ha, abs_of_pos (by linarith)] at h3
        linarith
      · rw [hσd, if_neg (by linarith), abs_of_neg (by linarith)] at h3
        linarith
    · exact h
    · exact absurd hnb h

/-- A hardening spring under the load `lam`. -/
def hardFun : ContFun := fun X _ => .ok ⟨fun _ => X 0 ^ 3 + X 0 - X 1, fun _ _ => 3 * X 0 ^ 2 + 1, fun _ => -1⟩

theorem hard_smooth : SmoothIn 1 hardFun (fun X _ => X 0 ^ 3 + X 0 - X 1) (fun X _ _ => 3 * X 0 ^ 2 + 1) (fun _ _ => -1) univ where
  value _ := rfl
  local' X Y h := by simp only [hardFun, h 0 (by omega), h 1 (by omega)]
  isOpen := isOpen_univ
  deriv := fun v _ i _ => by
    unfold HasGrad
    have h0 : HasFDerivAt (fun u : Fin (1 + 1) → ℝ => u 0) (ContinuousLinearMap.proj (R := ℝ) (φ := fun _ : Fin (1 + 1) => ℝ) 0) 0 := hasFDerivAt_apply _ _
    have h1 : HasFDerivAt (fun u : Fin (1 + 1) → ℝ => u 1) (ContinuousLinearMap.proj (R := ℝ) (φ := fun _ : Fin (1 + 1) => ℝ) 1) 0 := hasFDerivAt_apply _ _
    have h := (((h0.const_add (Spec.ext v 0)).pow 3).add (h0.const_add (Spec.ext v 0))).sub (h1.const_add (Spec.ext v 1))
    refine (h.congr_of_eventuallyEq (Filter.Eventually.of_forall fun u => ?_)).congr_fderiv ?_
    · simp [Spec.ext]
    · ext1 u
      simp [row_apply, Fin.sum_univ_two, fullJac]
      ring
  cont i hi j hj := by
    have hc : ∀ k, Continuous fun v : Fin (1 + 1) → ℝ => Spec.ext v k := fun k => by
      simp only [Spec.ext]
      split_ifs <;> fun_prop
    have : Continuous fun v : Fin (1 + 1) → ℝ => fullJac (N := 1) (fun X _ _ => 3 * X 0 ^ 2 + 1) (fun _ _ => -1) (Spec.ext v) i j := by
      simp only [fullJac]
      split_ifs
      · exact (continuous_const.mul ((hc 0).pow 2)).add continuous_const
      · exact continuous_const
    exact this.continuousOn

theorem hard_mem {v : Fin (1 + 1) → ℝ} (hv : v ∈ solutions 1 (fun X _ => X 0 ^ 3 + X 0 - X 1) 2 10 (some 1) (1 / 2)) :
    v 0 ^ 3 + v 0 = v 1 ∧ 1 / 2 ≤ v 1 ∧ v 1 ≤ 10 + 1 / 2 := by
  have h1 := hv.1 0 (by omega)
  obtain ⟨a, -, c⟩ := hv.2
  have h2 := (c 1 rfl).1 (by norm_num)
  have h3 := a (by norm_num)
  simp [Spec.ext] at h1
  simp [Fin.last] at h2 h3
  refine ⟨by linarith, by linarith, by linarith⟩

theorem hard_pos {v : Fin (1 + 1) → ℝ} (hv : v ∈ solutions 1 (fun X _ => X 0 ^ 3 + X 0 - X 1) 2 10 (some 1) (1 / 2)) : 0 < v 0 ∧ v 0 ≤ 11 := by
  obtain ⟨h1, h2, h3⟩ := hard_mem hv
  have h4 : 0 < v 0 := by
    by_contra h
    nlinarith [mul_nonneg (neg_nonneg.2 (not_lt.1 h)) (sq_nonneg (v 0))]
  exact ⟨h4, by nlinarith [pow_pos h4 3]⟩

theorem hard_regular : RegularSolutions 1 (fun X _ => X 0 ^ 3 + X 0 - X 1) (fun X _ _ => 3 * X 0 ^ 2 + 1) (fun _ _ => -1) univ 2 10 (some 1) (1 / 2) where
  compact := by
    refine (isCompact_Icc (a := (fun _ => -12 : Fin (1 + 1) → ℝ)) (b := fun _ => 12)).of_isClosed_subset ?_ fun v hv => ?_
    · have hw : IsClosed ((fun v : Fin (1 + 1) → ℝ => v (Fin.last 1)) ⁻¹' {lam | Within 2 10 (some 1) (1 / 2) lam}) := (within_closed 2 10 (some 1) (1 / 2)).preimage (continuous_apply _)
      refine IsClosed.inter ?_ hw
      have e : {v : Fin (1 + 1) → ℝ | ∀ i < 1, Spec.ext v 0 ^ 3 + Spec.ext v 0 - Spec.ext v 1 = 0} = {v | v 0 ^ 3 + v 0 - v 1 = 0} := by
        ext v; simp [Spec.ext]
      show IsClosed {v : Fin (1 + 1) → ℝ | ∀ i < 1, Spec.ext v 0 ^ 3 + Spec.ext v 0 - Spec.ext v 1 = 0}
      rw [e]
      exact isClosed_eq (by fun_prop) continuous_const
    · obtain ⟨h1, h2, h3⟩ := hard_mem hv
      obtain ⟨h4, h5⟩ := hard_pos hv
      constructor <;> intro j <;> fin_cases j <;> simp <;> linarith
  inside _ _ := mem_univ _
  curve v hv u w hu hw hn := by
    have h1 := hu 0 (by omega)
    have h2 := hw 0 (by omega)
    simp [Spec.ext] at h1 h2
    have hp : 0 < 3 * v 0 ^ 2 + 1 := by positivity
    have hu1 : u 1 = (3 * v 0 ^ 2 + 1) * u 0 := by linarith
    have hw1 : w 1 = (3 * v 0 ^ 2 + 1) * w 0 := by linarith
    have hu0 : u 0 ≠ 0 := fun h => by
      obtain ⟨i, hi, hne⟩ := hn
      interval_cases i
      · exact hne h
      · exact hne (by rw [hu1, h, mul_zero])
    refine ⟨w 0 / u 0, fun i hi => ?_⟩
    interval_cases i
    · field_simp
    · rw [hu1, hw1]; field_simp
  nonzero v hv := ⟨0, by omega, by
    simp only [Spec.ext, show (0 : ℕ) < 1 + 1 by omega, dif_pos]
    exact (hard_pos hv).1.ne'⟩

/-- C140 on the spring, loaded from 2 to 10: small steps and a fine tolerance bring every run past 10, at points within 1/100 of solutions. -/
example : ∃ s0 > 0, ∃ c > 0, ∃ p > (0 : ℝ), ∃ r0 > 0, ∀ t > 0, t ≤ c → ∃ M, ∀ om, PlainNewton om → M ≤ om.maxSteps → ∀ n : ℕ, 8 ≤ p * (n - 1) → ∀ XlamP0 : ℕ → ℝ, |XlamP0 0 - 1| < r0 →
    ∀ cfg : ContCfg, cfg.corrector = .ortho → cfg.dynamicCtoP = false → cfg.fracLamList = [1 / 2] → cfg.backtrackStop = some 1 → cfg.dsmin = s0 / 10 → cfg.dsmax = s0 →
      cfg.ds0 = s0 → cfg.maxSteps = n →
    ∃ res, continuation (ompContSolver exactLin 0 (fun _ => id) (fun _ D v => D⁻¹.mulVec v) om (some t)) 1 cfg ⟨fun _ => 1, .scalar 1, true, true, 1 / 2, 0⟩ hardFun XlamP0 2 10
      (n + 1) = .ok res ∧ res.ok = true ∧ 10 ≤ res.rows (res.n - 1) 1 := by
  obtain ⟨s0, hs0, t0, ht0, c, hc, p, hp, r0, hr0, H⟩ := C140_reaches (inf := 0) (fac := fun _ => id) (sol := fun _ D v => D⁻¹.mulVec v) (x := ![1, 2]) (r := 1) (b := 1 / 2)
    (η := 1 / 100) (obj := ⟨fun _ => 1, .scalar 1, true, true, 1 / 2, 0⟩) hard_smooth hard_regular (by norm_num) (by norm_num) (fun v _ u hu j hj => by
        have := hu 0 (by omega)
        obtain rfl : j = 0 := by omega
        simp [Spec.ext] at this
        rcases this with h | h
        · have : 0 < 3 * v 0 ^ 2 + 1 := by positivity
          exact absurd h this.ne'
        · exact h) (by simp) ⟨fun i _ => by simp [Spec.ext]; norm_num, by
      simp [Within, Fin.last]; norm_num⟩ (by simp [Fin.last]) (by intro i _; simp [contPrepare]) (by simp [contPrepare]) one_ne_zero (by norm_num) (by norm_num) exactLin_ok
    (fun _ => exactSolve_inv) (by norm_num)
  refine ⟨s0, hs0, min t0 (c * (s0 / 10)), lt_min ht0 (by positivity), p * (s0 / 10), by positivity, r0, hr0, fun t h1 h2 => ?_⟩
  obtain ⟨M, HM⟩ := H (s0 / 10) (by positivity) t h1 (h2.trans (min_le_left _ _)) (h2.trans (min_le_right _ _))
  refine ⟨M, fun om h3 h4 n hn XlamP0 hX cfg c1 c2 c3 c4 c5 c6 c7 c8 => ?_⟩
  obtain ⟨res, e1, e2, -, -, -, -, -, e3⟩ := HM om h3 h4 cfg [] c1 c2 c3 c4 c5.ge (by rw [c6]; linarith) c6.le (by rw [c7]; linarith) c7.le
    (by rw [c8]; norm_num; exact hn) XlamP0 (fun i hi => by
      obtain rfl : i = 0 := by omega
      simpa [Spec.ext] using hX) (n + 1) (by omega)
  refine ⟨res, e1, e2, ?_⟩
  by_contra h
  exact e3 (Or.inl ⟨by norm_num, not_le.1 h⟩)

end

end TMD
