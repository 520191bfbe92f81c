import Verif.Lemmas.DashpotSystem

/-!
# Existence of the motion of a damped system with velocity dependent forces, and the properties the continuation needs
-/

namespace TMD

open Spec Finset

noncomputable section

/-- A differentiable map with invertible derivatives that sends only bounded sets to bounded sets reaches every point. -/
theorem onto_of_proper {N : ℕ} {Φ : (Fin N → ℝ) → (Fin N → ℝ)} {Φ' : (Fin N → ℝ) → ((Fin N → ℝ) →L[ℝ] (Fin N → ℝ))}
    (hd : ∀ u, HasStrictFDerivAt Φ (Φ' u) u) (hinj : ∀ u d, Φ' u d = 0 → d = 0)
    (hp : ∀ B, ∃ B', ∀ u, (∀ i, |Φ u i| ≤ B) → ∀ i, |u i| ≤ B') : Function.Surjective Φ := by
  have hopen : IsOpen (Set.range Φ) := by
    have : IsOpenMap Φ := by
      rw [isOpenMap_iff_nhds_le]
      intro u
      have hi : Function.Injective (Φ' u) := (injective_iff_map_eq_zero (Φ' u)).2 (hinj u)
      have hs : Function.Surjective (Φ' u) := LinearMap.injective_iff_surjective (f := (Φ' u).toLinearMap).1 hi
      exact ((hd u).map_nhds_eq_of_surj (LinearMap.range_eq_top.2 hs)).ge
    exact this.isOpen_range
  have hcont : Continuous Φ := continuous_iff_continuousAt.2 fun u => (hd u).hasFDerivAt.continuousAt
  have hclosed : IsClosed (Set.range Φ) := by
    rw [← closure_subset_iff_isClosed]
    intro y hy
    obtain ⟨B', hB'⟩ := hp (‖y‖ + 1)
    have hK : IsClosed (Φ '' Metric.closedBall 0 |B'|) := ((isCompact_closedBall _ _).image hcont).isClosed
    have : y ∈ closure (Φ '' Metric.closedBall 0 |B'|) := by
      rw [Metric.mem_closure_iff] at hy ⊢
      intro ε hε
      obtain ⟨_, ⟨u, rfl⟩, hu⟩ := hy (min ε 1) (lt_min hε one_pos)
      refine ⟨Φ u, ⟨u, ?_, rfl⟩, hu.trans_le (min_le_left _ _)⟩
      rw [mem_closedBall_zero_iff, pi_norm_le_iff_of_nonneg (abs_nonneg _)]
      intro i
      refine (hB' u (fun i => ?_) i).trans (le_abs_self _)
      have h1 : ‖Φ u‖ ≤ ‖y‖ + 1 := by
        have h2 := norm_sub_norm_le (Φ u) y
        have h3 := hu.trans_le (min_le_right _ _)
        rw [dist_comm, dist_eq_norm] at h3
        linarith
      exact (norm_le_pi_norm (Φ u) i).trans h1
    rw [hK.closure_eq] at this
    obtain ⟨u, -, rfl⟩ := this
    exact ⟨u, rfl⟩
  have := (IsClopen.eq_univ ⟨hclosed, hopen⟩ ⟨_, ⟨0, rfl⟩⟩ : Set.range Φ = Set.univ)
  exact Set.range_eq_univ.1 this

variable {S : VibSys} {Fl : ℕ → ℝ} {h : List ℕ} {Nt n : ℕ} {tol : ℝ}

theorem ext_last {N : ℕ} (v : Fin (N + 1) → ℝ) : Spec.ext v N = v (Fin.last N) := by simp [Spec.ext, Fin.last]

theorem continuousOn_list_sum {α X : Type} [TopologicalSpace X] {s : Set X} (l : List α) (f : α → X → ℝ) (hf : ∀ a ∈ l, ContinuousOn (f a) s) :
    ContinuousOn (fun x => (l.map fun a => f a x).sum) s := by
  induction l with
  | nil => simp only [List.map_nil, List.sum_nil]; exact continuousOn_const
  | cons a l ih =>
    simp only [List.map_cons, List.sum_cons]
    exact (hf a List.mem_cons_self).add (ih fun b hb => hf b (List.mem_cons_of_mem _ hb))

theorem smooth_system (hh : Admissible h) (hS : ∀ f ∈ S.forces, SmoothAft S.nd h Nt tol f) :
    SmoothIn (numCoeff h * S.nd) (hbmFun S Fl h Nt tol) (fun X i => hbmG S (aftVal h Nt tol) h X i - Fl i) (hbmJ S (aftVal h Nt tol) h)
      (hbmD S (aftVal h Nt tol) h) {v | 0 < v (Fin.last _)} where
  value X := by simp only [hbmFun, hbmRes_ok S hh Nt tol (aftVal h Nt tol) fun f hf => (hS f hf).ok]
  local' X Y hXY := by
    have hw := hXY _ (Nat.lt_succ_self _)
    have hs : sl 0 (numCoeff h * S.nd) X = sl 0 (numCoeff h * S.nd) Y := sl_congr fun k hk => hXY k (by omega)
    simp only [hbmFun, hbmRes_ok S hh Nt tol (aftVal h Nt tol) fun f hf => (hS f hf).ok]
    have e1 : hbmG S (aftVal h Nt tol) h X = hbmG S (aftVal h Nt tol) h Y := by funext i; unfold hbmG; rw [hs, hw]
    have e2 : hbmJ S (aftVal h Nt tol) h X = hbmJ S (aftVal h Nt tol) h Y := by funext i j; unfold hbmJ; rw [hs, hw]
    have e3 : hbmD S (aftVal h Nt tol) h X = hbmD S (aftVal h Nt tol) h Y := by funext i; unfold hbmD; rw [hs, hw]
    rw [e1, e2, e3]
  isOpen := isOpen_lt continuous_const (continuous_apply _)
  deriv v hv i hi := by
    have h1 := (hbmG_grad S hh (aftVal h Nt tol) (Spec.ext v) (fun f hf => (hS f hf).grad _ (by rw [ext_last]; exact hv)) i hi).sub (HasGrad.const (Fl i))
    refine h1.congr fun j hj => ?_
    simp only [fullJac, sub_zero]
  cont i hi j hj := by
    have hc : ∀ k, Continuous fun v : Fin (numCoeff h * S.nd + 1) → ℝ => Spec.ext v k := fun k => by
      simp only [Spec.ext]
      split_ifs <;> fun_prop
    unfold fullJac
    split_ifs with hjn
    · unfold hbmJ
      refine ContinuousOn.add ((hsE_continuous hh hi hjn).comp (hc _)).continuousOn ?_
      exact continuousOn_list_sum S.forces (fun f (v : Fin (numCoeff h * S.nd + 1) → ℝ) =>
        (aftVal h Nt tol f (sl 0 (numCoeff h * S.nd) (Spec.ext v)) (Spec.ext v (numCoeff h * S.nd))).dU i j) fun f hf => (hS f hf).contU i hi j hjn
    · unfold hbmD
      refine ContinuousOn.add ?_ (continuousOn_list_sum S.forces (fun f (v : Fin (numCoeff h * S.nd + 1) → ℝ) =>
        (aftVal h Nt tol f (sl 0 (numCoeff h * S.nd) (Spec.ext v)) (Spec.ext v (numCoeff h * S.nd))).dw i) fun f hf => (hS f hf).contw i hi)
      unfold matVec
      refine Continuous.continuousOn (continuous_finsetSum _ fun k hk => ?_)
      refine ((hsDE_continuous (hsRange h) S.nd S.M S.C h i k (fun _ _ _ => 0) fun _ _ => continuous_const).comp (hc _)).mul ?_
      simp only [sl_zero (mem_range.1 hk)]
      exact hc k

theorem resists_smooth (hh : Admissible h) (hS : ∀ f ∈ S.forces, Resists S.nd n h Nt tol f) :
    SmoothIn (numCoeff h * S.nd) (hbmFun S Fl h Nt tol) (fun X i => hbmG S (aftVal h Nt tol) h X i - Fl i) (hbmJ S (aftVal h Nt tol) h)
      (hbmD S (aftVal h Nt tol) h) {v | 0 < v (Fin.last _)} := smooth_system hh fun f hf => (hS f hf).smooth

/-- Unknowns followed by the frequency. -/
def addFreq (N : ℕ) (w : ℝ) (u : Fin N → ℝ) : Fin (N + 1) → ℝ := fun j => if hj : (j : ℕ) < N then u ⟨j, hj⟩ else w

def addZero (N : ℕ) : (Fin N → ℝ) →L[ℝ] (Fin (N + 1) → ℝ) := LinearMap.toContinuousLinearMap
  { toFun := addFreq N 0
    map_add' := fun u v => by funext j; simp only [addFreq, Pi.add_apply]; split_ifs <;> simp
    map_smul' := fun a u => by funext j; simp only [addFreq, Pi.smul_apply, RingHom.id_apply]; split_ifs <;> simp }

theorem addFreq_deriv (N : ℕ) (w : ℝ) (u : Fin N → ℝ) : HasStrictFDerivAt (addFreq N w) (addZero N) u := by
  have e : addFreq N w = fun u => addZero N u + addFreq N w 0 := by
    funext u j
    show addFreq N w u j = addFreq N 0 u j + addFreq N w 0 j
    simp only [addFreq]
    split_ifs <;> simp
  rw [e]
  exact (addZero N).hasStrictFDerivAt.add_const _

theorem addFreq_last (N : ℕ) (w : ℝ) (u : Fin N → ℝ) : addFreq N w u (Fin.last N) = w := by simp [addFreq]

theorem sl_addFreq (N : ℕ) (w : ℝ) (u : Fin N → ℝ) : sl 0 N (Spec.ext (addFreq N w u)) = Spec.ext u := by
  funext i
  by_cases hi : i < N
  · rw [sl_zero hi]
    simp [Spec.ext, addFreq, hi, show i < N + 1 by omega]
  · simp [sl, Spec.ext, hi]

/-- To every load belongs a motion. -/
theorem balance_onto (hh : Admissible h) (hn : ∀ k ∈ h, k ≤ n) (hS : ∀ f ∈ S.forces, Resists S.nd n h Nt tol f) (hM : ∀ d < S.nd, ∀ e < S.nd, S.M d e = S.M e d)
    (hK : ∀ d < S.nd, ∀ e < S.nd, S.K d e = S.K e d)
    (hC : ∀ v : ℕ → ℝ, (∃ d < S.nd, v d ≠ 0) → 0 < ∑ d ∈ range S.nd, ∑ e ∈ range S.nd, v d * S.C d e * v e)
    (hK0 : 0 ∈ h → Regular S.nd S.K) (Fl : ℕ → ℝ) {w : ℝ} (hw : 0 < w) :
    ∃ u : Fin (numCoeff h * S.nd) → ℝ, ∀ i < numCoeff h * S.nd, balance S h Nt tol (Spec.ext u) w i = Fl i := by
  set N := numCoeff h * S.nd with hN
  set R : (ℕ → ℝ) → ℕ → ℝ := fun X i => hbmG S (aftVal h Nt tol) h X i - (fun _ => 0 : ℕ → ℝ) i with hR
  have hs := resists_smooth (Fl := fun _ => 0) hh hS
  have hcm : ∀ z : Fin (N + 1) → ℝ, condMap N (fun _ => 1) z = z := fun z => by funext j; simp [condMap]
  have hstrict : ∀ z : Fin (N + 1) → ℝ, 0 < z (Fin.last N) →
      HasStrictFDerivAt (condRes N R fun _ => 1) (rectMap (condMat N (hbmJ S (aftVal h Nt tol) h) (hbmD S (aftVal h Nt tol) h) (fun _ => 1) z)) z := fun z hz => by
    refine hasStrictFDerivAt_of_hasFDerivAt_of_continuousAt (f' := fun z => rectMap (condMat N (hbmJ S (aftVal h Nt tol) h) (hbmD S (aftVal h Nt tol) h) (fun _ => 1) z)) ?_ ?_
    · filter_upwards [hs.isOpen.mem_nhds (show z ∈ {v | 0 < v (Fin.last _)} from hz)] with y hy
      exact condRes_deriv hs (by rw [hcm]; exact hy)
    · have := condMat_continuous (C := fun _ => 1) hs
      have hm : z ∈ condMap N (fun _ => 1) ⁻¹' {v : Fin (N + 1) → ℝ | 0 < v (Fin.last _)} := by
        show 0 < condMap N (fun _ => 1) z (Fin.last N)
        rw [hcm]; exact hz
      exact (this z hm).continuousAt ((hs.isOpen.preimage (condMap_continuous _)).mem_nhds hm)
  let Φ : (Fin N → ℝ) → (Fin N → ℝ) := fun u i => balance S h Nt tol (Spec.ext u) w i
  have hΦ : Φ = fun u => condRes N R (fun _ => 1) (addFreq N w u) := by
    funext u i
    show _ = hbmG S (aftVal h Nt tol) h (Spec.ext (condMap N (fun _ => 1) (addFreq N w u))) i - 0
    rw [hcm, sub_zero]
    show _ = matVec N (hsE S.nd S.M S.C S.K (Spec.ext (addFreq N w u) N) h false) (sl 0 N (Spec.ext (addFreq N w u))) i
      + (S.forces.map fun f => (aftVal h Nt tol f (sl 0 N (Spec.ext (addFreq N w u))) (Spec.ext (addFreq N w u) N)).F i).sum
    rw [sl_addFreq, ext_last, addFreq_last]
    rfl
  have hd : ∀ u, HasStrictFDerivAt Φ ((rectMap (condMat N (hbmJ S (aftVal h Nt tol) h) (hbmD S (aftVal h Nt tol) h) (fun _ => 1) (addFreq N w u))).comp (addZero N)) u := fun u => by
    rw [hΦ]
    exact (hstrict _ (by rw [addFreq_last]; exact hw)).comp u (addFreq_deriv N w u)
  obtain ⟨u, hu⟩ := onto_of_proper hd (fun u d hud => by
    have hreg := jac_regular hh hn hS hM hK hC hK0 (Z := Spec.ext (addFreq N w u)) (by rw [ext_last, addFreq_last]; exact hw)
    have := hreg (Spec.ext d) fun i hi => by
      have h1 := congrFun hud ⟨i, hi⟩
      rw [ContinuousLinearMap.comp_apply, rectMap_apply] at h1
      simp only [Matrix.mulVec, dotProduct, condMat, mul_one, hcm, Pi.zero_apply] at h1
      rw [Fin.sum_univ_castSucc] at h1
      have e1 : (addZero N) d (Fin.last N) = 0 := addFreq_last N 0 d
      rw [e1, mul_zero, add_zero] at h1
      rw [sum_range, ← h1]
      refine sum_congr rfl fun j _ => ?_
      have e2 : (addZero N) d (Fin.castSucc j) = d j := by
        show addFreq N 0 d (Fin.castSucc j) = d j
        simp [addFreq]
      have e3 : Spec.ext d (j : ℕ) = d j := by
        unfold Spec.ext
        rw [dif_pos (show (j : ℕ) < N from j.2)]
      rw [e2, e3, fullJac, if_pos (show ((Fin.castSucc j : Fin (N + 1)) : ℕ) < N from j.2)]
      rfl
    funext j
    have h2 := this j j.2
    simpa [Spec.ext] using h2) (fun B => by
    obtain ⟨B', hB'⟩ := balance_proper hh hn hS hM hK hC hK0 hw w B
    refine ⟨B', fun u hu i => ?_⟩
    have := hB' w le_rfl le_rfl (Spec.ext u) (fun i hi => hu ⟨i, hi⟩) i i.2
    simpa [Spec.ext] using this) (fun i => Fl i)
  exact ⟨u, fun i hi => congrFun hu ⟨i, hi⟩⟩

end

end TMD
