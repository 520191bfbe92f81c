import Verif.Lemmas.ContCond

/-! # Uniform constants near a compact piece of the solution set -/

namespace TMD

open Spec Metric Set

noncomputable section

variable {N : ℕ} {f : ContFun} {R : (ℕ → ℝ) → ℕ → ℝ} {J : (ℕ → ℝ) → ℕ → ℕ → ℝ} {D : (ℕ → ℝ) → ℕ → ℝ} {C : ℕ → ℝ}
  {O : Set (Fin (N + 1) → ℝ)} {lam0 lam1 δ : ℝ} {bs : Option ℝ}

/-- The parameter is at most `δ` outside the range of a continuation from `lam0` to `lam1`, which may go back by `bs`. -/
def Within (lam0 lam1 : ℝ) (bs : Option ℝ) (δ lam : ℝ) : Prop :=
  (lam0 < lam1 → lam ≤ lam1 + δ) ∧ (lam1 < lam0 → lam1 - δ ≤ lam) ∧
    ∀ x ∈ bs, (lam0 < lam1 → lam0 - x - δ ≤ lam) ∧ (lam1 < lam0 → lam ≤ lam0 + x + δ)

/-- The solutions with a parameter in this range. -/
def solutions (N : ℕ) (R : (ℕ → ℝ) → ℕ → ℝ) (lam0 lam1 : ℝ) (bs : Option ℝ) (δ : ℝ) : Set (Fin (N + 1) → ℝ) :=
  {v | (∀ i < N, R (Spec.ext v) i = 0) ∧ Within lam0 lam1 bs δ (v (Fin.last N))}

/-- All solutions in the range are regular: they form a bounded closed set inside the set of differentiability, the solution set is a
curve at each of them, and the unknowns do not vanish (the weight of the arc length divides by their norm). -/
structure RegularSolutions (N : ℕ) (R : (ℕ → ℝ) → ℕ → ℝ) (J : (ℕ → ℝ) → ℕ → ℕ → ℝ) (D : (ℕ → ℝ) → ℕ → ℝ) (O : Set (Fin (N + 1) → ℝ)) (lam0 lam1 : ℝ)
    (bs : Option ℝ) (δ : ℝ) : Prop where
  compact : IsCompact (solutions N R lam0 lam1 bs δ)
  inside : solutions N R lam0 lam1 bs δ ⊆ O
  curve : ∀ v ∈ solutions N R lam0 lam1 bs δ, IsCurve N ⟨R (Spec.ext v), J (Spec.ext v), D (Spec.ext v)⟩
  nonzero : ∀ v ∈ solutions N R lam0 lam1 bs δ, ∃ i < N, Spec.ext v i ≠ 0

theorem within_closed (lam0 lam1 : ℝ) (bs : Option ℝ) (δ : ℝ) : IsClosed {lam | Within lam0 lam1 bs δ lam} := by
  unfold Within
  simp only [ofPred_and, ofPred_forall]
  refine IsClosed.inter ?_ (IsClosed.inter ?_ ?_)
  · exact isClosed_iInter fun _ => isClosed_le continuous_id continuous_const
  · exact isClosed_iInter fun _ => isClosed_le continuous_const continuous_id
  · refine isClosed_iInter fun x => isClosed_iInter fun _ => IsClosed.inter ?_ ?_
    · exact isClosed_iInter fun _ => isClosed_le continuous_const continuous_id
    · exact isClosed_iInter fun _ => isClosed_le continuous_id continuous_const

/-- A small move of the parameter away from a point before the end and not behind the limit. -/
theorem within_of_near {lam lam' : ℝ} (h1 : Ahead lam0 lam1 lam) (h2 : NotBehind lam0 lam1 bs lam) (h : |lam' - lam| ≤ δ) :
    Within lam0 lam1 bs δ lam' := by
  obtain ⟨ha, hb⟩ := abs_le.1 h
  refine ⟨fun hl => ?_, fun hl => ?_, fun x hx => ⟨fun hl => ?_, fun hl => ?_⟩⟩
  · rcases h1 with ⟨_, h⟩ | ⟨h, _⟩ <;> linarith
  · rcases h1 with ⟨h, _⟩ | ⟨_, h⟩ <;> linarith
  · rcases h2 x hx with ⟨_, h⟩ | ⟨h, _⟩ <;> linarith
  · rcases h2 x hx with ⟨h, _⟩ | ⟨_, h⟩ <;> linarith

/-- A matrix with more columns than rows has a kernel. -/
theorem rect_kernel (M : Matrix (Fin N) (Fin (N + 1)) ℝ) : ∃ d, rectMap M d = 0 ∧ d ≠ 0 := by
  have h : LinearMap.ker M.mulVecLin ≠ ⊥ := LinearMap.ker_ne_bot_of_finrank_lt (by simp)
  obtain ⟨d, hd, hd0⟩ := Submodule.exists_mem_ne_zero_of_ne_bot h
  exact ⟨d, hd, hd0⟩

/-- Kernels that are lines on a compact set are lines near it. -/
theorem kernel_near {K O : Set (Fin (N + 1) → ℝ)} (hK : IsCompact K) (hO : IsOpen O) (hKO : K ⊆ O) {M : (Fin (N + 1) → ℝ) → Matrix (Fin N) (Fin (N + 1)) ℝ}
    (hM : ContinuousOn (fun z => rectMap (M z)) O) (hker : ∀ z ∈ K, ∀ u v, rectMap (M z) u = 0 → rectMap (M z) v = 0 → u ≠ 0 → ∃ s : ℝ, v = s • u) :
    ∃ ρ > 0, ∀ z ∈ K, ∀ y, ‖y - z‖ ≤ ρ → ∀ u v, rectMap (M y) u = 0 → rectMap (M y) v = 0 → u ≠ 0 → ∃ s : ℝ, v = s • u := by
  obtain ⟨m, hm, H⟩ := uniform_bound hK (hM.mono hKO) hker (q1 := 1) (q2 := 1) one_pos
  obtain ⟨ρ, hρ, hnear⟩ := uniform_near hK hO hKO hM (half_pos hm)
  refine ⟨ρ, hρ, fun z hz y hy u v hu hv hne => ?_⟩
  obtain ⟨d, hd, hd0⟩ := rect_kernel (M z)
  have hdn := norm_pos_iff.2 hd0
  have small : ∀ w, rectMap (M y) w = 0 → ∑ j, d j * w j = 0 → w = 0 := fun w hw hdw => by
    have a := H z hz (fun _ => 1) (fun _ => ⟨le_rfl, le_rfl⟩) d hd w
    simp only [one_mul, hdw, abs_zero, add_zero] at a
    have b : ‖rectMap (M z) w‖ ≤ m / 2 * ‖w‖ := by
      have e : rectMap (M z) w = -((rectMap (M y) - rectMap (M z)) w) := by simp only [sub_apply, hw]; abel
      rw [e, norm_neg]
      exact ((rectMap (M y) - rectMap (M z)).le_opNorm _).trans (mul_le_mul_of_nonneg_right (hnear z hz y hy).2 (norm_nonneg _))
    by_contra hw0
    have hwn := norm_pos_iff.2 hw0
    have c : m * ‖w‖ ≤ ‖rectMap (M z) w‖ := by
      by_contra hc
      nlinarith
    nlinarith
  have hu0 : ∑ j, d j * u j ≠ 0 := fun h => hne (small u hu h)
  refine ⟨(∑ j, d j * v j) / ∑ j, d j * u j, ?_⟩
  have h0 := small (v - ((∑ j, d j * v j) / ∑ j, d j * u j) • u) (by rw [map_sub, map_smul, hu, hv, smul_zero, sub_zero]) (by
    rw [show ∑ j, d j * (v - ((∑ j, d j * v j) / ∑ j, d j * u j) • u) j = ∑ j, d j * v j - ((∑ j, d j * v j) / ∑ j, d j * u j) * ∑ j, d j * u j by
      rw [Finset.mul_sum, ← Finset.sum_sub_distrib]
      exact Finset.sum_congr rfl fun j _ => by simp only [Pi.sub_apply, Pi.smul_apply, smul_eq_mul]; ring]
    field_simp
    ring)
  exact sub_eq_zero.1 h0

/-- The weight of the unknowns at the conditioned point `z`. -/
def tubeWt (N : ℕ) (b : ℝ) (z : Fin (N + 1) → ℝ) : ℝ := (1 - b) / ∑ i : Fin N, z (Fin.castSucc i) ^ 2

/-- What holds at the points `G` near the solutions. -/
structure TubeConst (N : ℕ) (R : (ℕ → ℝ) → ℕ → ℝ) (J : (ℕ → ℝ) → ℕ → ℕ → ℝ) (D : (ℕ → ℝ) → ℕ → ℝ) (O : Set (Fin (N + 1) → ℝ)) (C : ℕ → ℝ) (lam0 lam1 : ℝ)
    (bs : Option ℝ) (δ η b : ℝ) (G : Set (Fin (N + 1) → ℝ)) (ρ m B κ γ : ℝ) : Prop where
  mpos : 0 < m
  Bpos : 0 < B
  κpos : 0 < κ
  γpos : 0 < γ
  κle : κ ≤ ρ
  γle : γ ≤ m * κ / 16
  κδ : κ * C N ≤ δ
  start : ∀ z, condMap N C z ∈ solutions N R lam0 lam1 bs δ → ∀ᶠ y in nhds z, y ∈ G
  nonzero : ∀ z ∈ G, ∃ i : Fin N, z (Fin.castSucc i) ≠ 0
  close : ∀ z ∈ G, ∃ v ∈ solutions N R lam0 lam1 bs δ, ∀ j : Fin (N + 1), |C j * z j - v j| < η
  small : ∀ z ∈ G, ‖condRes N R C z‖ < γ
  ball : ∀ z ∈ G, ∀ y, ‖y - z‖ ≤ ρ → condMap N C y ∈ O ∧ ‖rectMap (condMat N J D C y) - rectMap (condMat N J D C z)‖ ≤ m / 8
  dir : ∀ z ∈ G, ∀ d, rectMap (condMat N J D C z) d = 0 → ∑ j : Fin (N + 1), arcWt N b (tubeWt N b z) j * d j ^ 2 = 1 → ‖d‖ ≤ B ∧
    ∀ v, (∑ j : Fin (N + 1), arcWt N b (tubeWt N b z) j * d j * v j = 0 ∨ ∑ j, d j * v j = 0) → m * ‖v‖ ≤ ‖rectMap (condMat N J D C z) v‖
  next : ∀ z ∈ G, ∀ y, ‖y - z‖ ≤ κ → Within lam0 lam1 bs δ (C N * y (Fin.last N)) → ‖condRes N R C y‖ < γ → y ∈ G

/-- The constants, with the points in any open set `U` around the solutions, and with any bound `ω` of the variation of the derivative. -/
theorem tube_family (hs : SmoothIn N f R J D O) (hK : RegularSolutions N R J D O lam0 lam1 bs δ) (hδ : 0 < δ) (hC : ∀ i ≤ N, 0 < C i) {b η : ℝ}
    (hb : 0 < b) (hb1 : b < 1) (hη : 0 < η) {U : Set (Fin (N + 1) → ℝ)} (hU : IsOpen U) (hKU : condMap N C ⁻¹' solutions N R lam0 lam1 bs δ ⊆ U) :
    ∃ T, IsCompact T ∧ T ⊆ condMap N C ⁻¹' O ∧ (∀ z ∈ T, ∃ i : Fin N, z (Fin.castSucc i) ≠ 0) ∧ T ⊆ U ∧ ∃ m B, 0 < m ∧ 0 < B ∧
      (∀ z ∈ T, ∀ d : Fin (N + 1) → ℝ, ∑ j : Fin (N + 1), arcWt N b (tubeWt N b z) j * d j ^ 2 = 1 → ‖d‖ ≤ B) ∧
      ∀ ω > 0, ∃ G ρ κ γ, G ⊆ T ∧ TubeConst N R J D O C lam0 lam1 bs δ η b G ρ m B κ γ ∧
        ∀ z ∈ G, ∀ y, ‖y - z‖ ≤ ρ → ‖rectMap (condMat N J D C y) - rectMap (condMat N J D C z)‖ ≤ ω := by
  set K : Set (Fin (N + 1) → ℝ) := condMap N C ⁻¹' solutions N R lam0 lam1 bs δ with hKd
  have hCj : ∀ j : Fin (N + 1), 0 < C j := fun j => hC j (by omega)
  -- compactness in conditioned coordinates
  have hKc : IsCompact K := by
    have e : K = (fun v : Fin (N + 1) → ℝ => fun j : Fin (N + 1) => v j / C j) '' solutions N R lam0 lam1 bs δ := by
      ext z
      constructor
      · intro hz
        refine ⟨condMap N C z, hz, funext fun j => ?_⟩
        have := (hCj j).ne'
        simp only [condMap]; field_simp
      · rintro ⟨v, hv, rfl⟩
        show condMap N C (fun j : Fin (N + 1) => v j / C j) ∈ solutions N R lam0 lam1 bs δ
        rw [show condMap N C (fun j : Fin (N + 1) => v j / C j) = v from funext fun j => by
          have := (hCj j).ne'
          simp only [condMap]; field_simp]
        exact hv
    rw [e]
    exact hK.compact.image (by fun_prop)
  set O' : Set (Fin (N + 1) → ℝ) := condMap N C ⁻¹' O with hO'
  have hO'o : IsOpen O' := hs.isOpen.preimage (condMap_continuous C)
  have hKO : K ⊆ O' := fun z hz => hK.inside hz
  have hA := condMat_continuous (C := C) hs
  have hkerK : ∀ z ∈ K, ∀ u v, rectMap (condMat N J D C z) u = 0 → rectMap (condMat N J D C z) v = 0 → u ≠ 0 → ∃ s : ℝ, v = s • u :=
    fun z hz u v hu hv hne => condMat_ker hC (hK.curve _ hz) u v hu hv hne
  obtain ⟨ρ1, hρ1, hker1⟩ := kernel_near hKc hO'o hKO hA hkerK
  -- the unknowns do not vanish
  have hnzo : IsOpen {z : Fin (N + 1) → ℝ | ∃ i : Fin N, z (Fin.castSucc i) ≠ 0} := by
    simp only [ofPred_exists]
    exact isOpen_iUnion fun i => isOpen_ne_fun (by fun_prop) continuous_const
  have hKnz : K ⊆ {z : Fin (N + 1) → ℝ | ∃ i : Fin N, z (Fin.castSucc i) ≠ 0} := fun z hz => by
    obtain ⟨i, hi, hne⟩ := hK.nonzero _ hz
    refine ⟨⟨i, hi⟩, fun h => hne ?_⟩
    have : Spec.ext (condMap N C z) i = condMap N C z (Fin.castSucc ⟨i, hi⟩) := ext_fin (condMap N C z) (Fin.castSucc ⟨i, hi⟩)
    rw [this]
    simp only [condMap, h, mul_zero]
  obtain ⟨ε2, hε2, hsub⟩ := hKc.exists_cthickening_subset_open ((hO'o.inter hnzo).inter hU) (subset_inter (subset_inter hKO hKnz) hKU)
  -- largest conditioning factor
  obtain ⟨Cm, hCm⟩ : ∃ Cm > 0, ∀ j : Fin (N + 1), C j ≤ Cm := by
    refine ⟨∑ j : Fin (N + 1), C j, Finset.sum_pos (fun j _ => hCj j) ⟨0, Finset.mem_univ _⟩, fun j => ?_⟩
    exact Finset.single_le_sum (f := fun j : Fin (N + 1) => C j) (fun j _ => (hCj j).le) (Finset.mem_univ j)
  obtain ⟨hCm0, hCm⟩ := hCm
  set ε : ℝ := min (min ρ1 ε2) (η / Cm) with hε
  have hε0 : 0 < ε := lt_min (lt_min hρ1 hε2) (div_pos hη hCm0)
  set T : Set (Fin (N + 1) → ℝ) := cthickening ε K with hT
  have hTc : IsCompact T := hKc.cthickening
  have hTsubU : T ⊆ (O' ∩ {z : Fin (N + 1) → ℝ | ∃ i : Fin N, z (Fin.castSucc i) ≠ 0}) ∩ U :=
    (cthickening_mono ((min_le_left _ _).trans (min_le_right _ _)) K).trans hsub
  have hTsub : T ⊆ O' ∩ {z : Fin (N + 1) → ℝ | ∃ i : Fin N, z (Fin.castSucc i) ≠ 0} := fun z hz => (hTsubU hz).1
  have hTO : T ⊆ O' := fun z hz => (hTsub hz).1
  have hkerT : ∀ z ∈ T, ∀ u v, rectMap (condMat N J D C z) u = 0 → rectMap (condMat N J D C z) v = 0 → u ≠ 0 → ∃ s : ℝ, v = s • u := by
    intro z hz u v
    rw [hT, hKc.cthickening_eq_biUnion_closedBall hε0.le] at hz
    simp only [mem_iUnion, exists_prop] at hz
    obtain ⟨x, hx, hzx⟩ := hz
    exact hker1 x hx z ((mem_closedBall_iff_norm.1 hzx).trans ((min_le_left _ _).trans (min_le_left _ _))) u v
  -- bounds of the weights
  obtain ⟨lo, hlo, hloT⟩ : ∃ lo, 0 < lo ∧ ∀ z ∈ T, lo ≤ ∑ i : Fin N, z (Fin.castSucc i) ^ 2 := by
    refine hTc.exists_forall_le' (f := fun z : Fin (N + 1) → ℝ => ∑ i : Fin N, z (Fin.castSucc i) ^ 2) (Continuous.continuousOn (by fun_prop)) fun z hz => ?_
    obtain ⟨i, hi⟩ := (hTsub hz).2
    exact Finset.sum_pos' (fun _ _ => sq_nonneg _) ⟨i, Finset.mem_univ _, by positivity⟩
  obtain ⟨hi, hhiT⟩ := hTc.bddAbove_image (f := fun z : Fin (N + 1) → ℝ => ∑ i : Fin N, z (Fin.castSucc i) ^ 2) (Continuous.continuousOn (by fun_prop))
  have hhi : ∀ z ∈ T, ∑ i : Fin N, z (Fin.castSucc i) ^ 2 ≤ max hi lo := fun z hz => (hhiT ⟨z, hz, rfl⟩).trans (le_max_left _ _)
  have hhi0 : 0 < max hi lo := hlo.trans_le (le_max_right _ _)
  have h1b : 0 < 1 - b := by linarith
  set q1 : ℝ := min (min ((1 - b) / max hi lo) b) 1 with hq1
  set q2 : ℝ := max (max ((1 - b) / lo) b) 1 with hq2
  have hq1p : 0 < q1 := lt_min (lt_min (div_pos h1b hhi0) hb) one_pos
  have hqT : ∀ z ∈ T, ∀ j : Fin (N + 1), q1 ≤ arcWt N b (tubeWt N b z) j ∧ arcWt N b (tubeWt N b z) j ≤ q2 := fun z hz j => by
    unfold arcWt tubeWt
    split_ifs
    · constructor
      · exact ((min_le_left _ _).trans (min_le_left _ _)).trans (div_le_div_of_nonneg_left h1b.le (hlo.trans_le (hloT z hz)) (hhi z hz))
      · exact (div_le_div_of_nonneg_left h1b.le hlo (hloT z hz)).trans ((le_max_left _ _).trans (le_max_left _ _))
    · exact ⟨(min_le_left _ _).trans (min_le_right _ _), (le_max_right _ _).trans (le_max_left _ _)⟩
  obtain ⟨m, hm, Hm⟩ := uniform_bound hTc (hA.mono hTO) hkerT (q2 := q2) hq1p
  have hdirB : ∀ z ∈ T, ∀ d : Fin (N + 1) → ℝ, ∑ j : Fin (N + 1), arcWt N b (tubeWt N b z) j * d j ^ 2 = 1 → ‖d‖ ≤ 1 / q1 + 1 := fun z hzT d hn => by
    refine (pi_norm_le_iff_of_nonneg (by positivity)).2 fun j => ?_
    rw [Real.norm_eq_abs]
    refine abs_le_of_sq_le_sq ?_ (by positivity)
    have h1 : q1 * d j ^ 2 ≤ 1 := by
      rw [← hn]
      refine le_trans (mul_le_mul_of_nonneg_right (hqT z hzT j).1 (sq_nonneg _)) ?_
      exact Finset.single_le_sum (f := fun j : Fin (N + 1) => arcWt N b (tubeWt N b z) j * d j ^ 2)
        (fun j _ => mul_nonneg (hq1p.le.trans (hqT z hzT j).1) (sq_nonneg _)) (Finset.mem_univ j)
    have h2 : d j ^ 2 ≤ 1 / q1 := by rw [le_div_iff₀ hq1p]; linarith
    have h3 : 0 < 1 / q1 := by positivity
    nlinarith
  refine ⟨T, hTc, hTO, fun z hz => (hTsub hz).2, fun z hz => (hTsubU hz).2, m, 1 / q1 + 1, hm, by positivity, hdirB, fun ω hω => ?_⟩
  obtain ⟨ρ, hρ, hnear⟩ := uniform_near hTc hO'o hTO hA (show 0 < min (m / 8) ω from lt_min (by positivity) hω)
  have hgc : ContinuousOn (condRes N R C) T := fun z hz => (condRes_deriv hs (hTO hz)).continuousAt.continuousWithinAt
  obtain ⟨γ0, hγ0, hsmall⟩ := small_near_zero (K := K) (B := {z : Fin (N + 1) → ℝ | Within lam0 lam1 bs δ (C N * z (Fin.last N))}) hTc hgc
    ((within_closed lam0 lam1 bs δ).preimage (f := fun z : Fin (N + 1) → ℝ => C N * z (Fin.last N)) (by fun_prop))
    (fun z _ hB h0 => ⟨fun i hi => congrFun h0 ⟨i, hi⟩, by simpa [condMap] using hB⟩) (half_pos hε0)
  set κ : ℝ := min (min ρ (ε / 2)) (δ / C N) with hκ
  have hκ0 : 0 < κ := lt_min (lt_min hρ (half_pos hε0)) (div_pos hδ (hC N le_rfl))
  set γ : ℝ := min γ0 (m * κ / 16) with hγ
  have hγp : 0 < γ := lt_min hγ0 (by positivity)
  have hGT : ∀ z, z ∈ thickening (ε / 2) K → z ∈ T := fun z hz =>
    thickening_subset_cthickening _ _ (thickening_mono (by linarith) K hz)
  refine ⟨{z | z ∈ thickening (ε / 2) K ∧ ‖condRes N R C z‖ < γ}, ρ, κ, γ, fun z hz => hGT z hz.1,
    { mpos := hm, Bpos := by positivity, κpos := hκ0, γpos := hγp, κle := (min_le_left _ _).trans (min_le_left _ _), γle := min_le_right _ _,
      κδ := ?_, start := ?_, nonzero := ?_, close := ?_, small := ?_, ball := ?_, dir := ?_, next := ?_ }, fun z hz y hy => (hnear z (hGT z hz.1) y hy).2.trans (min_le_right _ _)⟩
  · have := mul_le_mul_of_nonneg_right (min_le_right (min ρ (ε / 2)) (δ / C N)) (hC N le_rfl).le
    rwa [div_mul_cancel₀ _ (hC N le_rfl).ne'] at this
  · intro z hz
    have h1 : ∀ᶠ y in nhds z, y ∈ thickening (ε / 2) K := isOpen_thickening.mem_nhds (self_subset_thickening (half_pos hε0) K hz)
    have h0 : condRes N R C z = 0 := funext fun i => hz.1 i i.2
    have h2 : ∀ᶠ y in nhds z, ‖condRes N R C y‖ < γ := by
      have hc : ContinuousAt (fun y => ‖condRes N R C y‖) z := (condRes_deriv hs (hKO hz)).continuousAt.norm
      refine hc.eventually_lt continuousAt_const ?_
      rw [h0, norm_zero]
      exact hγp
    exact h1.and h2
  · exact fun z hz => (hTsub (hGT z hz.1)).2
  · intro z hz
    obtain ⟨x, hx, hzx⟩ := mem_thickening_iff.1 hz.1
    refine ⟨condMap N C x, hx, fun j => ?_⟩
    have h1 : |z j - x j| < η / Cm := by
      have := (norm_le_pi_norm (z - x) j).trans_lt (by rw [← dist_eq_norm]; exact hzx)
      rw [Pi.sub_apply, Real.norm_eq_abs] at this
      exact this.trans_le ((half_le_self hε0.le).trans (min_le_right _ _))
    simp only [condMap]
    rw [← mul_sub, abs_mul, abs_of_pos (hCj j)]
    calc C j * |z j - x j| ≤ Cm * |z j - x j| := mul_le_mul_of_nonneg_right (hCm j) (abs_nonneg _)
      _ < Cm * (η / Cm) := mul_lt_mul_of_pos_left h1 hCm0
      _ = η := by field_simp
  · exact fun z hz => hz.2
  · exact fun z hz y hy => ⟨(hnear z (hGT z hz.1) y hy).1, (hnear z (hGT z hz.1) y hy).2.trans (min_le_left _ _)⟩
  · intro z hz d hd hn
    have hzT := hGT z hz.1
    have hd0 : d ≠ 0 := fun h => by rw [h] at hn; simp at hn
    have hdn := norm_pos_iff.2 hd0
    refine ⟨?_, fun v hv => ?_⟩
    · exact hdirB z hzT d hn
    · rcases hv with hv | hv
      · have := Hm z hzT (fun j => arcWt N b (tubeWt N b z) j) (hqT z hzT) d hd v
        rw [show ∑ j : Fin (N + 1), arcWt N b (tubeWt N b z) j * (d j * v j) = 0 by
          rw [← hv]; exact Finset.sum_congr rfl fun j _ => by ring, abs_zero, add_zero] at this
        by_contra hc
        nlinarith
      · have := Hm z hzT (fun _ => 1) (fun _ => ⟨min_le_right _ _, le_max_right _ _⟩) d hd v
        simp only [one_mul, hv, abs_zero, add_zero] at this
        by_contra hc
        nlinarith
  · intro z hz y hy hw hgy
    refine ⟨hsmall y ?_ hw (hgy.trans_le (min_le_left _ _)), hgy⟩
    obtain ⟨x, hx, hzx⟩ := mem_thickening_iff.1 hz.1
    refine mem_cthickening_of_dist_le y x ε K hx ?_
    have h1 : dist y z ≤ ε / 2 := by rw [dist_eq_norm]; exact hy.trans ((min_le_left _ _).trans (min_le_right _ _))
    linarith [dist_triangle y z x]

theorem tube_exists (hs : SmoothIn N f R J D O) (hK : RegularSolutions N R J D O lam0 lam1 bs δ) (hδ : 0 < δ) (hC : ∀ i ≤ N, 0 < C i) {b η : ℝ}
    (hb : 0 < b) (hb1 : b < 1) (hη : 0 < η) : ∃ G ρ m B κ γ, TubeConst N R J D O C lam0 lam1 bs δ η b G ρ m B κ γ := by
  obtain ⟨_, _, _, _, _, m, B, _, _, _, H⟩ := tube_family hs hK hδ hC hb hb1 hη isOpen_univ (subset_univ _)
  obtain ⟨G, ρ, κ, γ, _, h, _⟩ := H 1 one_pos
  exact ⟨G, ρ, m, B, κ, γ, h⟩

end

end TMD
