import Verif.Lemmas.DashpotForce

/-!
# C144: with nonlinear dampers the frequency response is single valued and a sweep follows it
-/

namespace TMD

open Spec Metric Set

noncomputable section

variable {S : VibSys} {Fl : ℕ → ℝ} {h : List ℕ} {Nt n : ℕ} {tol : ℝ} {lam0 lam1 δ y : ℝ}

/-- The motion with the coefficients `U` at the frequency `w` makes the harmonic balance residual zero. -/
def HBMSolution (S : VibSys) (Fl : ℕ → ℝ) (h : List ℕ) (Nt : ℕ) (tol w : ℝ) (U : ℕ → ℝ) : Prop :=
  ∃ R g, hbmRes S (fun i => if i < numCoeff h * S.nd then U i else w) Fl h Nt tol true = .ok ⟨R, g⟩ ∧ ∀ i < numCoeff h * S.nd, R i = 0

/-- Symmetric mass and stiffness, positive definite damping, stiffness regular if the static coefficient is retained. -/
structure Damped (S : VibSys) (h : List ℕ) : Prop where
  massSymm : ∀ d < S.nd, ∀ e < S.nd, S.M d e = S.M e d
  stiffSymm : ∀ d < S.nd, ∀ e < S.nd, S.K d e = S.K e d
  damping : ∀ v : ℕ → ℝ, (∃ d < S.nd, v d ≠ 0) → 0 < ∑ d ∈ Finset.range S.nd, ∑ e ∈ Finset.range S.nd, v d * S.C d e * v e
  stiffness : 0 ∈ h → Regular S.nd S.K

theorem solution_iff (hh : Admissible h) (hS : ∀ f ∈ S.forces, Resists S.nd n h Nt tol f) (w : ℝ) (U : ℕ → ℝ) :
    HBMSolution S Fl h Nt tol w U ↔ ∀ i < numCoeff h * S.nd, balance S h Nt tol (sl 0 (numCoeff h * S.nd) U) w i = Fl i := by
  set X : ℕ → ℝ := fun i => if i < numCoeff h * S.nd then U i else w with hX
  have e1 : sl 0 (numCoeff h * S.nd) X = sl 0 (numCoeff h * S.nd) U := sl_congr fun k hk => by simp [hX, hk]
  have e2 : X (numCoeff h * S.nd) = w := by simp [hX]
  have e3 : ∀ i, hbmG S (aftVal h Nt tol) h X i = balance S h Nt tol (sl 0 (numCoeff h * S.nd) U) w i := fun i => by
    unfold hbmG
    rw [e1, e2]
    rfl
  have e4 := hbmRes_ok S hh Nt tol (aftVal h Nt tol) (fun f hf => (hS f hf).ok) X Fl
  unfold HBMSolution
  rw [← hX, e4]
  constructor
  · rintro ⟨R, g, h1, h2⟩ i hi
    injection h1 with h1
    injection h1 with h1 _
    have := h2 i hi
    rw [← h1] at this
    simp only [e3] at this
    linarith
  · intro H
    exact ⟨_, _, rfl, fun i hi => by simp only [e3, H i hi, sub_self]⟩

/-- C144: at each positive frequency and for each load there is one and only one solution. -/
theorem C144_solution (hh : Admissible h) (hNt : ∀ k ∈ h, 2 * k + 1 < Nt) (heven : Even Nt) (hD : Damped S h) (hS : ∀ f ∈ S.forces, IsDashpot S.nd f)
    (Fl : ℕ → ℝ) {w : ℝ} (hw : 0 < w) :
    ∃ U, HBMSolution S Fl h Nt tol w U ∧ ∀ V, HBMSolution S Fl h Nt tol w V → ∀ i < numCoeff h * S.nd, V i = U i := by
  obtain ⟨n, hn⟩ := exists_bound h
  have hR := fun f hf => dashpot_resists (tol := tol) hh hn hNt heven (hS f hf)
  obtain ⟨u, hu⟩ := balance_onto hh hn hR hD.massSymm hD.stiffSymm hD.damping hD.stiffness Fl hw
  have hsl : sl 0 (numCoeff h * S.nd) (Spec.ext u) = Spec.ext u := by
    funext i
    by_cases hi : i < numCoeff h * S.nd
    · rw [sl_zero hi]
    · simp [sl, Spec.ext, hi]
  refine ⟨Spec.ext u, (solution_iff hh hR w _).2 (by rw [hsl]; exact hu), fun V hV i hi => ?_⟩
  have h1 := (solution_iff hh hR w V).1 hV
  have := balance_inj hh hn hR hD.massSymm hD.stiffSymm hD.damping hD.stiffness hw (fun i hi => (h1 i hi).trans (hu i hi).symm) i hi
  rwa [sl_zero hi] at this

/-- C144: the matrix of derivatives returned by the harmonic balance residual is regular at every point with a positive frequency: there are
no folds. -/
theorem C144_no_fold (hh : Admissible h) (hNt : ∀ k ∈ h, 2 * k + 1 < Nt) (heven : Even Nt) (hD : Damped S h) (hS : ∀ f ∈ S.forces, IsDashpot S.nd f)
    (X Fl : ℕ → ℝ) (hw : 0 < X (numCoeff h * S.nd)) :
    ∃ R J d, hbmRes S X Fl h Nt tol true = .ok ⟨R, some (J, d)⟩ ∧ Regular (numCoeff h * S.nd) J := by
  obtain ⟨n, hn⟩ := exists_bound h
  have hR := fun f hf => dashpot_resists (tol := tol) hh hn hNt heven (hS f hf)
  exact ⟨_, _, _, hbmRes_ok S hh Nt tol (aftVal h Nt tol) (fun f hf => (hR f hf).ok) X Fl,
    jac_regular hh hn hR hD.massSymm hD.stiffSymm hD.damping hD.stiffness hw⟩

theorem hbmG_ext (v : Fin (numCoeff h * S.nd + 1) → ℝ) (i : ℕ) :
    hbmG S (aftVal h Nt tol) h (Spec.ext v) i = balance S h Nt tol (sl 0 (numCoeff h * S.nd) (Spec.ext v)) (v (Fin.last _)) i := by
  unfold hbmG
  rw [ext_last]
  rfl

theorem continuousAt_of_grad {N : ℕ} {F : (ℕ → ℝ) → ℝ} {g : ℕ → ℝ} {v : Fin N → ℝ} (hF : HasGrad N F g (Spec.ext v)) :
    ContinuousAt (fun z : Fin N → ℝ => F (Spec.ext z)) v := by
  have h1 : HasFDerivAt (fun u : Fin N → ℝ => F fun i => Spec.ext v i + Spec.ext u i) _ 0 := hF
  have h2 : ContinuousAt (fun z : Fin N → ℝ => (fun u : Fin N → ℝ => F fun i => Spec.ext v i + Spec.ext u i) (z - v)) v :=
    ContinuousAt.comp (f := fun z : Fin N → ℝ => z - v) (g := fun u : Fin N → ℝ => F fun i => Spec.ext v i + Spec.ext u i)
      (by rw [sub_self]; exact h1.continuousAt) (by fun_prop)
  refine h2.congr (Filter.Eventually.of_forall fun z => ?_)
  change F _ = F _
  congr 1
  funext i
  by_cases hi : i < N <;> simp [Spec.ext, hi]

/-- The solutions of a range of positive frequencies form a bounded closed set. -/
theorem dashpot_compact (hh : Admissible h) (hn : ∀ k ∈ h, k ≤ n) (hR : ∀ f ∈ S.forces, Resists S.nd n h Nt tol f) (hD : Damped S h) (hlam : lam0 ≠ lam1) {a : ℝ} (ha : 0 < a)
    (hwa : ∀ w, Within lam0 lam1 (some y) δ w → a ≤ w) :
    IsCompact (solutions (numCoeff h * S.nd) (fun X i => hbmG S (aftVal h Nt tol) h X i - Fl i) lam0 lam1 (some y) δ) := by
  have hs := resists_smooth (Fl := Fl) hh hR
  obtain ⟨b, hb⟩ := (within_compact (y := y) (δ := δ) hlam).bddAbove
  set B : ℝ := ∑ i ∈ Finset.range (numCoeff h * S.nd), |Fl i| with hB
  obtain ⟨B', hB'⟩ := balance_proper hh hn hR hD.massSymm hD.stiffSymm hD.damping hD.stiffness ha b B
  have hcont : ∀ i < numCoeff h * S.nd, ContinuousOn (fun v : Fin (numCoeff h * S.nd + 1) → ℝ => hbmG S (aftVal h Nt tol) h (Spec.ext v) i - Fl i)
      {v | Within lam0 lam1 (some y) δ (v (Fin.last _))} := fun i hi v hv =>
    (continuousAt_of_grad (hs.deriv v (ha.trans_le (hwa _ hv)) i hi)).continuousWithinAt
  refine isCompact_of_isClosed_isBounded ?_ ?_
  · have hcl : IsClosed {v : Fin (numCoeff h * S.nd + 1) → ℝ | Within lam0 lam1 (some y) δ (v (Fin.last _))} :=
      (within_closed lam0 lam1 (some y) δ).preimage (f := fun v : Fin (numCoeff h * S.nd + 1) → ℝ => v (Fin.last _)) (continuous_apply _)
    have e : solutions (numCoeff h * S.nd) (fun X i => hbmG S (aftVal h Nt tol) h X i - Fl i) lam0 lam1 (some y) δ
        = {v | Within lam0 lam1 (some y) δ (v (Fin.last _))} ∩ (⋂ i : Fin (numCoeff h * S.nd), {v | Within lam0 lam1 (some y) δ (v (Fin.last _))} ∩
          (fun v : Fin (numCoeff h * S.nd + 1) → ℝ => hbmG S (aftVal h Nt tol) h (Spec.ext v) i - Fl i) ⁻¹' {0}) := by
      ext1 v
      simp only [mem_inter_iff, mem_iInter, mem_preimage, mem_singleton_iff]
      constructor
      · rintro ⟨h1, h2⟩
        exact ⟨h2, fun i => ⟨h2, h1 i i.2⟩⟩
      · rintro ⟨h1, h2⟩
        exact ⟨fun i hi => (h2 ⟨i, hi⟩).2, h1⟩
    rw [e]
    exact hcl.inter (isClosed_iInter fun i => (hcont i i.2).preimage_isClosed_of_isClosed hcl isClosed_singleton)
  · refine (isBounded_iff_subset_closedBall 0).2 ⟨max |B'| |b|, fun v hv => ?_⟩
    have hw := hwa _ hv.2
    have hwb : v (Fin.last _) ≤ b := hb hv.2
    rw [mem_closedBall_zero_iff, pi_norm_le_iff_of_nonneg ((abs_nonneg _).trans (le_max_left _ _))]
    intro j
    rw [Real.norm_eq_abs]
    rcases Nat.lt_or_ge (j : ℕ) (numCoeff h * S.nd) with hj | hj
    · have h1 := hB' _ hw hwb (sl 0 (numCoeff h * S.nd) (Spec.ext v)) (fun i hi => by
        have := hv.1 i hi
        simp only [hbmG_ext] at this
        rw [sub_eq_zero.1 this, hB]
        exact Finset.single_le_sum (f := fun i => |Fl i|) (fun _ _ => abs_nonneg _) (Finset.mem_range.2 hi)) j hj
      rw [sl_zero hj] at h1
      have e : Spec.ext v j = v j := by simp [Spec.ext, hj.le]
      rw [e] at h1
      exact h1.trans ((le_abs_self _).trans (le_max_left _ _))
    · have : j = Fin.last _ := Fin.ext (by have := j.2; simp; omega)
      rw [this]
      have : |v (Fin.last (numCoeff h * S.nd))| ≤ |b| := by rw [abs_of_pos (ha.trans_le hw)]; exact hwb.trans (le_abs_self _)
      exact this.trans (le_max_right _ _)

theorem dashpot_regular (hh : Admissible h) (hn : ∀ k ∈ h, k ≤ n) (hR : ∀ f ∈ S.forces, Resists S.nd n h Nt tol f) (hD : Damped S h) (hlam : lam0 ≠ lam1)
    (hF : ∃ i < numCoeff h * S.nd, Fl i ≠ 0) {a : ℝ} (ha : 0 < a) (hwa : ∀ w, Within lam0 lam1 (some y) δ w → a ≤ w) :
    RegularSolutions (numCoeff h * S.nd) (fun X i => hbmG S (aftVal h Nt tol) h X i - Fl i) (hbmJ S (aftVal h Nt tol) h) (hbmD S (aftVal h Nt tol) h)
      {v | 0 < v (Fin.last _)} lam0 lam1 (some y) δ where
  compact := dashpot_compact hh hn hR hD hlam ha hwa
  inside v hv := ha.trans_le (hwa _ hv.2)
  curve v hv := curve_of_regular (jac_regular hh hn hR hD.massSymm hD.stiffSymm hD.damping hD.stiffness (by rw [ext_last]; exact ha.trans_le (hwa _ hv.2)))
  nonzero v hv := by
    by_contra hc
    push Not at hc
    obtain ⟨i, hi, hne⟩ := hF
    have h1 := hv.1 i hi
    simp only [hbmG_ext] at h1
    have e : sl 0 (numCoeff h * S.nd) (Spec.ext v) = fun _ => 0 := by
      funext k
      by_cases hk : k < numCoeff h * S.nd
      · rw [sl_zero hk, hc k hk]
      · simp [sl, hk]
    rw [e, balance_rest hR (ha.trans_le (hwa _ hv.2)) hi, zero_sub, neg_eq_zero] at h1
    exact hne h1

/-- Solutions at neighbouring frequencies are neighbours. -/
theorem dashpot_close (hh : Admissible h) (hn : ∀ k ∈ h, k ≤ n) (hR : ∀ f ∈ S.forces, Resists S.nd n h Nt tol f) (hD : Damped S h) (hlam : lam0 ≠ lam1) {a : ℝ} (ha : 0 < a)
    (hwa : ∀ w, Within lam0 lam1 (some y) δ w → a ≤ w) {η : ℝ} (hη : 0 < η) :
    ∃ θ > 0, ∀ v ∈ solutions (numCoeff h * S.nd) (fun X i => hbmG S (aftVal h Nt tol) h X i - Fl i) lam0 lam1 (some y) δ,
      ∀ v' ∈ solutions (numCoeff h * S.nd) (fun X i => hbmG S (aftVal h Nt tol) h X i - Fl i) lam0 lam1 (some y) δ,
      |v (Fin.last _) - v' (Fin.last _)| < θ → ‖v - v'‖ < η := by
  set K := solutions (numCoeff h * S.nd) (fun X i => hbmG S (aftVal h Nt tol) h X i - Fl i) lam0 lam1 (some y) δ with hK
  have hKc : IsCompact K := dashpot_compact hh hn hR hD hlam ha hwa
  set P : Set ((Fin (numCoeff h * S.nd + 1) → ℝ) × (Fin (numCoeff h * S.nd + 1) → ℝ)) := (K ×ˢ K) ∩ {q | η ≤ ‖q.1 - q.2‖} with hP
  have hPc : IsCompact P := (hKc.prod hKc).inter_right (isClosed_le continuous_const (by fun_prop))
  have hpos : ∀ q ∈ P, 0 < |q.1 (Fin.last _) - q.2 (Fin.last _)| := fun q hq => by
    rw [abs_pos]
    intro h0
    have hw := sub_eq_zero.1 h0
    have hq1 := hq.1.1
    have hq2 := hq.1.2
    have hqw : 0 < q.1 (Fin.last _) := ha.trans_le (hwa _ hq1.2)
    have := balance_inj hh hn hR hD.massSymm hD.stiffSymm hD.damping hD.stiffness hqw (U := sl 0 (numCoeff h * S.nd) (Spec.ext q.1))
      (V := sl 0 (numCoeff h * S.nd) (Spec.ext q.2)) fun i hi => by
        have a1 := hq1.1 i hi
        have a2 := hq2.1 i hi
        simp only [hbmG_ext] at a1 a2
        rw [← hw] at a2
        linarith
    have he : q.1 = q.2 := by
      funext j
      rcases Nat.lt_or_ge (j : ℕ) (numCoeff h * S.nd) with hj | hj
      · have h1 := this j hj
        rw [sl_zero hj, sl_zero hj] at h1
        simpa [Spec.ext, hj.le] using h1
      · have : j = Fin.last _ := Fin.ext (by have := j.2; simp; omega)
        rw [this, hw]
    have h2 : η ≤ ‖q.1 - q.2‖ := hq.2
    rw [he, sub_self, norm_zero] at h2
    linarith
  rcases P.eq_empty_or_nonempty with he | hne
  · refine ⟨1, one_pos, fun v hv v' hv' _ => ?_⟩
    by_contra hc
    have : (v, v') ∈ P := ⟨⟨hv, hv'⟩, not_lt.1 hc⟩
    rw [he] at this
    exact this
  · obtain ⟨q, hq, hm⟩ := hPc.exists_isMinOn hne (f := fun q => |q.1 (Fin.last _) - q.2 (Fin.last _)|) (Continuous.continuousOn (by fun_prop))
    refine ⟨_, hpos q hq, fun v hv v' hv' hlt => ?_⟩
    by_contra hc
    have : (v, v') ∈ P := ⟨⟨hv, hv'⟩, not_lt.1 hc⟩
    exact absurd hlt (not_lt.2 (hm this))

/-- A solution as a point of the solution set. -/
theorem mem_solutions (hh : Admissible h) (hR : ∀ f ∈ S.forces, Resists S.nd n h Nt tol f) {w : ℝ} {U : ℕ → ℝ} (hU : HBMSolution S Fl h Nt tol w U)
    (hw : Within lam0 lam1 (some y) δ w) : addFreq (numCoeff h * S.nd) w (fun i => U i)
      ∈ solutions (numCoeff h * S.nd) (fun X i => hbmG S (aftVal h Nt tol) h X i - Fl i) lam0 lam1 (some y) δ := by
  refine ⟨fun i hi => ?_, by rw [addFreq_last]; exact hw⟩
  simp only [hbmG_ext, addFreq_last, sl_addFreq]
  have h1 := (solution_iff hh hR w U).1 hU i hi
  have e : Spec.ext (fun i : Fin (numCoeff h * S.nd) => U i) = sl 0 (numCoeff h * S.nd) U := by
    funext k
    simp [Spec.ext, sl]
  rw [e, h1, sub_self]

/-- C144: a sweep over positive frequencies stores, at every frequency it stops at, the solution of that frequency up to `η`, moves on by a
least amount with every step, and passes the last frequency, if the steps and the tolerance are small. -/
theorem C144_sweep (hh : Admissible h) (hNt : ∀ k ∈ h, 2 * k + 1 < Nt) (heven : Even Nt) (hD : Damped S h) (hS : ∀ f ∈ S.forces, IsDashpot S.nd f)
    (hF : ∃ i < numCoeff h * S.nd, Fl i ≠ 0) (h1 : 0 < lam1) (hlam : lam0 ≠ lam1) (hy : 0 < y) (hy0 : y < lam0)
    {obj : ContObj} {r b η inf : ℝ} {L : ℕ → Type} {lin : ℕ → (ℕ → ℕ → ℝ) → (ℕ → ℝ) → Except Err (ℕ → ℝ)}
    {fac : (n : ℕ) → Matrix (Fin n) (Fin n) ℝ → L n} {sol : (n : ℕ) → L n → (Fin n → ℝ) → (Fin n → ℝ)}
    (hC : ∀ i ≤ numCoeff h * S.nd, 0 < (contPrepare obj).CtoP i) (hr : (contPrepare obj).RPtoC = .vector fun _ => r) (hr0 : r ≠ 0)
    (hb : 0 < b) (hb1 : b < 1) (hlin : LinOk lin) (hsol : ∀ n, ExactSolve (fac n) (sol n)) (hη : 0 < η) :
    ∃ s0 > 0, ∃ t0 > 0, ∃ c > 0, ∃ p > 0, ∃ r0 > 0, ∀ smin > 0, ∀ t > 0, t ≤ t0 → t ≤ c * smin → ∃ M, ∀ om, PlainNewton om → M ≤ om.maxSteps →
      ∀ (cfg : ContCfg) (rest : List ℝ), cfg.corrector = .ortho → cfg.dynamicCtoP = false → cfg.fracLamList = b :: rest → cfg.backtrackStop = some y →
      smin ≤ cfg.dsmin → smin ≤ cfg.dsmax → cfg.dsmax ≤ s0 → smin ≤ cfg.ds0 → cfg.ds0 ≤ s0 → |lam1 - lam0| ≤ p * smin * (cfg.maxSteps - 1) →
      ∀ XlamP0 U0 : ℕ → ℝ, HBMSolution S Fl h Nt tol lam0 U0 → (∀ i < numCoeff h * S.nd, |XlamP0 i - U0 i| < r0) → ∀ fuel > cfg.maxSteps,
      ∃ res, continuation (ompContSolver lin inf fac sol om (some t)) (numCoeff h * S.nd) cfg obj (hbmFun S Fl h Nt tol) XlamP0 lam0 lam1 fuel = .ok res ∧
        res.ok = true ∧ 0 < res.n ∧
        (∀ k < res.n, 0 < res.rows k (numCoeff h * S.nd) ∧ ∀ U, HBMSolution S Fl h Nt tol (res.rows k (numCoeff h * S.nd)) U →
          ∀ j < numCoeff h * S.nd, |res.rows k j - U j| < η) ∧
        (∀ k, k + 1 < res.n → p * smin ≤ (if lam0 < lam1 then 1 else -1) * (res.rows (k + 1) (numCoeff h * S.nd) - res.rows k (numCoeff h * S.nd))) ∧
        res.rows 0 (numCoeff h * S.nd) = lam0 ∧ (∀ k, k + 1 < res.n → Ahead lam0 lam1 (res.rows k (numCoeff h * S.nd))) ∧
        ¬ Ahead lam0 lam1 (res.rows (res.n - 1) (numCoeff h * S.nd)) := by
  obtain ⟨n, hn⟩ := exists_bound h
  have hR : ∀ f ∈ S.forces, Resists S.nd n h Nt tol f := fun f hf => dashpot_resists (tol := tol) hh hn hNt heven (hS f hf)
  set δ : ℝ := min (lam0 - y) lam1 / 2 with hδd
  have hδ : 0 < δ := half_pos (lt_min (by linarith) h1)
  have hwa : ∀ w, Within lam0 lam1 (some y) δ w → δ ≤ w := fun w hw => by
    have a1 := min_le_left (lam0 - y) lam1
    have a2 := min_le_right (lam0 - y) lam1
    rcases lt_or_gt_of_ne hlam with hl | hl
    · linarith [(hw.2.2 y rfl).1 hl]
    · linarith [hw.2.1 hl]
  have hδ2 : ∀ {w}, Within lam0 lam1 (some y) (δ / 2) w → Within lam0 lam1 (some y) δ w := fun hw =>
    ⟨fun hl => by linarith [hw.1 hl], fun hl => by linarith [hw.2.1 hl], fun z hz => ⟨fun hl => by linarith [(hw.2.2 z hz).1 hl], fun hl => by linarith [(hw.2.2 z hz).2 hl]⟩⟩
  have hδ3 : ∀ {w w'}, Within lam0 lam1 (some y) (δ / 2) w → |w' - w| < δ / 2 → Within lam0 lam1 (some y) δ w' := fun hw ha => by
    obtain ⟨a1, a2⟩ := abs_lt.1 ha
    exact ⟨fun hl => by linarith [hw.1 hl], fun hl => by linarith [hw.2.1 hl], fun z hz => ⟨fun hl => by linarith [(hw.2.2 z hz).1 hl], fun hl => by linarith [(hw.2.2 z hz).2 hl]⟩⟩
  have hw0 : Within lam0 lam1 (some y) (δ / 2) lam0 := by
    refine ⟨fun hl => by linarith, fun hl => by linarith, fun z hz => ?_⟩
    obtain rfl : z = y := (Option.some.inj hz).symm
    exact ⟨fun hl => by linarith, fun hl => by linarith⟩
  obtain ⟨θ, hθ, Hθ⟩ := dashpot_close (Fl := Fl) hh hn hR hD hlam hδ hwa (half_pos hη)
  obtain ⟨U00, hU00, huniq⟩ := C144_solution (tol := tol) hh hNt heven hD hS Fl (w := lam0) (by linarith)
  obtain ⟨s0, hs0, t0, ht0, c, hc, p, hp, r0, hr0', H⟩ := C140_reaches (inf := inf) (η := min (η / 2) (min (δ / 2) θ)) (resists_smooth (Fl := Fl) hh hR)
    (dashpot_regular hh hn hR hD hlam hF hδ fun w hw => hwa w (hδ2 hw)) (half_pos hδ) hlam (fun v hv =>
      jac_regular hh hn hR hD.massSymm hD.stiffSymm hD.damping hD.stiffness (by rw [ext_last]; exact hδ.trans_le (hwa _ (hδ2 hv.2))))
    (fun z hz => by rwa [← Option.some.inj hz]) (mem_solutions hh hR hU00 hw0) (addFreq_last _ _ _)
    hC hr hr0 hb hb1 hlin hsol (lt_min (half_pos hη) (lt_min (half_pos hδ) hθ))
  refine ⟨s0, hs0, t0, ht0, c, hc, p, hp, r0, hr0', fun smin hsm t ht htt htc => ?_⟩
  obtain ⟨M, HM⟩ := H smin hsm t ht htt htc
  refine ⟨M, fun om hom hmM cfg rest c1 c2 c3 c4 c5 c6 c7 c8 c9 c10 XlamP0 U0 hU0 hX fuel hf => ?_⟩
  have hext : ∀ (w : ℝ) (U : ℕ → ℝ), ∀ i < numCoeff h * S.nd, Spec.ext (addFreq (numCoeff h * S.nd) w fun i => U i) i = U i := fun w U i hi => by
    simp [Spec.ext, addFreq, hi, show i < numCoeff h * S.nd + 1 by omega]
  obtain ⟨res, e1, e2, e3, e4, e5, e6, e7, e8⟩ := HM om hom hmM cfg rest c1 c2 c3 c4 c5 c6 c7 c8 c9 c10 XlamP0 (fun i hi => by
    rw [hext _ _ i hi, ← huniq U0 hU0 i hi]
    exact hX i hi) fuel hf
  refine ⟨res, e1, e2, e3, fun k hk => ?_, e5, e6, e7, e8⟩
  obtain ⟨v, hv, hcl⟩ := e4 k hk
  have hn' := hcl _ le_rfl
  rw [ext_last] at hn'
  have hwk := hδ3 hv.2 (hn'.trans_le ((min_le_right _ _).trans (min_le_left _ _)))
  refine ⟨hδ.trans_le (hwa _ hwk), fun U hU j hj => ?_⟩
  have h2 := hcl j hj.le
  have h3 := Hθ _ (mem_solutions hh hR hU hwk) v ⟨hv.1, hδ2 hv.2⟩ (by
    rw [addFreq_last]
    exact hn'.trans_le ((min_le_right _ _).trans (min_le_right _ _)))
  have h4 := (norm_le_pi_norm _ (⟨j, by omega⟩ : Fin (numCoeff h * S.nd + 1))).trans_lt h3
  rw [Pi.sub_apply, Real.norm_eq_abs] at h4
  have e9 : addFreq (numCoeff h * S.nd) (res.rows k (numCoeff h * S.nd)) (fun i => U i) (⟨j, by omega⟩ : Fin (numCoeff h * S.nd + 1)) = U j := by simp [addFreq, hj]
  have e10 : Spec.ext v j = v ⟨j, by omega⟩ := by simp [Spec.ext, show j < numCoeff h * S.nd + 1 by omega]
  rw [e9] at h4
  rw [e10] at h2
  have h2' := h2.trans_le (min_le_left _ _)
  rw [abs_lt] at h4 h2' ⊢
  constructor <;> linarith

/-- The cubic dampers of the package with coefficients that are not negative. -/
theorem C144_cubic (nd m : ℕ) (Q T : ℕ → ℕ → ℝ) (hT : ∀ i e, T i e = Q e i) {c : ℕ → ℝ} (hc : ∀ d, 0 ≤ c d) : IsDashpot nd (cubicDampingNL nd m Q T c) := by
  refine ⟨m, Q, T, cubicDampingLoc c, _, fun d v => c d * v ^ 3, fun d v => 3 * c d * v ^ 2, rfl, hT, fun d u v => rfl, fun d => ⟨fun v => ?_, by fun_prop, ?_, by simp⟩⟩
  · exact ((hasDerivAt_pow 3 v).const_mul (c d)).congr_deriv (by push_cast; ring)
  · intro a b hab
    exact mul_le_mul_of_nonneg_left ((Odd.strictMono_pow (by decide : Odd 3)).monotone hab) (hc d)

/-- A mass on a spring with the damping `c x' + a x'³`. -/
def cubicDamped (c a : ℝ) : VibSys := ⟨1, fun _ _ => 1, fun _ _ => 1, fun _ _ => c, none, [cubicDampingNL 1 1 (fun _ _ => 1) (fun _ _ => 1) fun _ => a]⟩

theorem cubicDamped_damped {c : ℝ} (hc : 0 < c) (a : ℝ) (h : List ℕ) : Damped (cubicDamped c a) h where
  massSymm _ _ _ _ := rfl
  stiffSymm _ _ _ _ := rfl
  damping v := by
    rintro ⟨d, hd, hne⟩
    obtain rfl : d = 0 := by simp [cubicDamped] at hd; omega
    have : 0 < v 0 * v 0 := mul_self_pos.2 hne
    simp [cubicDamped]
    nlinarith
  stiffness _ v hv j hj := by
    obtain rfl : j = 0 := by simp [cubicDamped] at hj; omega
    simpa [cubicDamped] using hv 0 (by simp [cubicDamped])

/-- C144: the sign of the coefficients matters: with the damping `x' - x'³` rest and a motion with the amplitude one both solve the equations
without a load. -/
theorem C144_sign (tol : ℝ) : Damped (cubicDamped 1 (-1)) [1] ∧ HBMSolution (cubicDamped 1 (-1)) (fun _ => 0) [1] 4 tol 1 (fun _ => 0) ∧
    HBMSolution (cubicDamped 1 (-1)) (fun _ => 0) [1] 4 tol 1 (fun i => if i = 0 then 1 else 0) := by
  have hh : Admissible [1] := ⟨by simp, by simp, by simp⟩
  have hN : numCoeff [1] = 2 := rfl
  obtain ⟨c1, s1, c2, s2, c3, s3⟩ := samples4
  have one : ∀ x : ℝ, ((1:ℕ):ℝ) * x = x := fun x => by simp
  have key : ∀ a : ℝ, a ^ 3 = a → HBMSolution (cubicDamped 1 (-1)) (fun _ => 0) [1] 4 tol 1 (fun i => if i = 0 then a else 0) := fun a ha => by
    have hok : ∀ f ∈ (cubicDamped 1 (-1)).forces, ∀ U w, f.aft U w [1] 4 tol = .ok (aftVal [1] 4 tol f U w) := fun f hf U w => by
      obtain rfl : f = _ := List.mem_singleton.1 hf
      obtain ⟨o, h1, -⟩ := C24_is_dft [1] hh 4 (by simp) ⟨2, rfl⟩ 1 1 (fun _ _ => 1) (fun _ _ => 1) (cubicDampingLoc fun _ => -1) U w
      have : (cubicDampingNL 1 1 (fun _ _ => 1) (fun _ _ => 1) fun _ => -1).aft U w [1] 4 tol = .ok o := h1
      simp only [aftVal, this]
    refine ⟨_, _, hbmRes_ok _ hh 4 tol (aftVal [1] 4 tol) hok _ _, fun i hi => ?_⟩
    set X : ℕ → ℝ := fun i => if i < 2 then (if i = 0 then a else 0) else 1 with hX
    obtain ⟨o, h1, h2⟩ := C24_is_dft [1] hh 4 (by simp) ⟨2, rfl⟩ 1 1 (fun _ _ => 1) (fun _ _ => 1) (cubicDampingLoc fun _ => -1) (sl 0 2 X) 1
    have h1' : aftVal [1] 4 tol (cubicDampingNL 1 1 (fun _ _ => 1) (fun _ _ => 1) fun _ => -1) (sl 0 2 X) 1 = o := by
      have : (cubicDampingNL 1 1 (fun _ _ => 1) (fun _ _ => 1) fun _ => -1).aft (sl 0 2 X) 1 [1] 4 tol = .ok o := h1
      simp only [aftVal, this]
    have hl : ∀ d, localMotion 1 (fun _ _ => 1) [1] (sl 0 2 X) d = fun τ => a * Real.cos τ := fun d => by
      funext τ
      simp [localMotion, series, sl, hX]
    have hd : ∀ d τ, deriv (localMotion 1 (fun _ _ => 1) [1] (sl 0 2 X) d) τ = a * -Real.sin τ := fun d τ => by
      rw [hl]
      exact ((Real.hasDerivAt_cos τ).const_mul a).deriv
    have h3 := h2 0 (by omega) 1 (by simp)
    simp only [dft, Finset.sum_range_succ, Finset.range_zero, Finset.sum_empty, zero_add, cubicDampingLoc, hd, one_mul, one, c1, s1, c2, s2, c3, s3, one_ne_zero, if_false] at h3
    simp [coefOf] at h3
    have hg : hbmG (cubicDamped 1 (-1)) (aftVal [1] 4 tol) [1] X i = matVec 2 (hsE 1 (fun _ _ => 1) (fun _ _ => 1) (fun _ _ => 1) 1 [1] false) (sl 0 2 X) i + o.F i := by
      rw [← h1']
      simp [hbmG, cubicDamped, hN, hX]
    change hbmG (cubicDamped 1 (-1)) (aftVal [1] 4 tol) [1] X i - 0 = 0
    rw [hg]
    have hcos := hsE_mulVec_cos (nd := 1) (fun _ _ => 1) (fun _ _ => 1) (fun _ _ => 1) 1 (h := [1]) (by simp) (i := 0) (by simp [zi]) (d := 0) (by omega) (sl 0 2 X) false
    have hsin := hsE_mulVec_sin (nd := 1) (fun _ _ => 1) (fun _ _ => 1) (fun _ _ => 1) 1 (h := [1]) (by simp) (i := 0) (by simp [zi]) (d := 0) (by omega) (sl 0 2 X) false
    rcases (by simp [hN, cubicDamped] at hi; omega : i = 0 ∨ i = 1) with rfl | rfl
    · rw [h3.1]
      refine (congrArg (· + _ - _) hcos).trans ?_
      simp [zi, sl, hX]
    · rw [h3.2]
      refine (congrArg (· + _ - _) hsin).trans ?_
      simp [zi, sl, hX]
      linarith
  refine ⟨cubicDamped_damped one_pos _ _, ?_, key 1 (by norm_num)⟩
  have := key 0 (by norm_num)
  simpa using this

/-- One motion under `cos τ` of a mass on a spring with the damping `x'/10 + x'³`. -/
example (tol : ℝ) {w : ℝ} (hw : 0 < w) : ∃ U, HBMSolution (cubicDamped (1 / 10) 1) (fun i => if i = 1 then 1 else 0) [0, 1, 3] 64 tol w U ∧
    ∀ V, HBMSolution (cubicDamped (1 / 10) 1) (fun i => if i = 1 then 1 else 0) [0, 1, 3] 64 tol w V → ∀ i < 5, V i = U i :=
  C144_solution ⟨by simp, by simp, by simp⟩ (by simp) ⟨32, rfl⟩ (cubicDamped_damped (by norm_num) _ _)
    (fun f hf => by obtain rfl : f = _ := List.mem_singleton.1 hf; exact C144_cubic _ _ _ _ (fun _ _ => rfl) fun _ => zero_le_one) _ hw

/-- A sweep of it from the frequency 1/2 to 2, past its resonance. -/
example (tol : ℝ) {U0 : ℕ → ℝ} (hU0 : HBMSolution (cubicDamped (1 / 10) 1) (fun i => if i = 1 then 1 else 0) [0, 1, 3] 64 tol (1 / 2) U0) :
    ∃ s0 > 0, ∃ c > 0, ∃ p > (0 : ℝ), ∀ t > 0, t ≤ c → ∃ M, ∀ om, PlainNewton om → M ≤ om.maxSteps → ∀ n : ℕ, 3 / 2 ≤ p * (n - 1) →
    ∀ cfg : ContCfg, cfg.corrector = .ortho → cfg.dynamicCtoP = false → cfg.fracLamList = [1 / 2] → cfg.backtrackStop = some (1 / 4) → cfg.dsmin = s0 / 10 → cfg.dsmax = s0 →
      cfg.ds0 = s0 → cfg.maxSteps = n →
    ∃ res, continuation (ompContSolver exactLin 0 (fun _ => id) (fun _ D v => D⁻¹.mulVec v) om (some t)) 5 cfg ⟨fun _ => 1, .scalar 1, true, true, 1 / 2, 0⟩
      (hbmFun (cubicDamped (1 / 10) 1) (fun i => if i = 1 then 1 else 0) [0, 1, 3] 64 tol) U0 (1 / 2) 2 (n + 1) = .ok res ∧ res.ok = true ∧
      2 ≤ res.rows (res.n - 1) 5 ∧ ∀ k < res.n, ∀ U, HBMSolution (cubicDamped (1 / 10) 1) (fun i => if i = 1 then 1 else 0) [0, 1, 3] 64 tol (res.rows k 5) U →
        ∀ j < 5, |res.rows k j - U j| < 1 / 1000 := by
  obtain ⟨s0, hs0, t0, ht0, c, hc, p, hp, r0, hr0, H⟩ := C144_sweep (S := cubicDamped (1 / 10) 1) (Fl := fun i => if i = 1 then 1 else 0) (h := [0, 1, 3]) (Nt := 64) (tol := tol)
    (lam0 := 1 / 2) (lam1 := 2) (y := 1 / 4) (inf := 0) (fac := fun _ => id) (sol := fun _ D v => D⁻¹.mulVec v) (r := 1) (b := 1 / 2) (η := 1 / 1000)
    (obj := ⟨fun _ => 1, .scalar 1, true, true, 1 / 2, 0⟩) ⟨by simp, by simp, by simp⟩ (by simp) ⟨32, rfl⟩ (cubicDamped_damped (by norm_num) _ _)
    (fun f hf => by obtain rfl : f = _ := List.mem_singleton.1 hf; exact C144_cubic _ _ _ _ (fun _ _ => rfl) fun _ => zero_le_one)
    ⟨1, by simp [numCoeff, cubicDamped], by simp⟩ (by norm_num) (by norm_num) (by norm_num) (by norm_num) (by intro i _; simp [contPrepare]) (by simp [contPrepare]) one_ne_zero
    (by norm_num) (by norm_num) exactLin_ok (fun _ => exactSolve_inv) (by norm_num)
  refine ⟨s0, hs0, min t0 (c * (s0 / 10)), lt_min ht0 (by positivity), p * (s0 / 10), by positivity, fun t h1 h2 => ?_⟩
  obtain ⟨M, HM⟩ := H (s0 / 10) (by positivity) t h1 (h2.trans (min_le_left _ _)) (h2.trans (min_le_right _ _))
  refine ⟨M, fun om h3 h4 n hn cfg c1 c2 c3 c4 c5 c6 c7 c8 => ?_⟩
  obtain ⟨res, e1, e2, -, e4, e5, e6, -, e3⟩ := HM om h3 h4 cfg [] c1 c2 c3 c4 c5.ge (by rw [c6]; linarith) c6.le (by rw [c7]; linarith) c7.le
    (by rw [c8, abs_of_pos (by norm_num)]; linarith) U0 U0 hU0 (fun i _ => by simpa using hr0) (n + 1) (by omega)
  refine ⟨res, e1, e2, ?_, fun k hk => (e4 k hk).2⟩
  by_contra hc'
  exact e3 (Or.inl ⟨by norm_num, not_le.1 hc'⟩)

end

end TMD
