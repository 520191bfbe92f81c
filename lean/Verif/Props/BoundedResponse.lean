import Verif.Lemmas.BoundedSystem

/-!
# C145: damping bounds the response of nonlinear systems, and only branch points can stop their continuation
-/

namespace TMD

open Spec Finset

noncomputable section

variable {S : VibSys} {Fl : ℕ → ℝ} {h : List ℕ} {Nt n : ℕ} {tol : ℝ}

theorem solution_balance (hh : Admissible h) (hS : ∀ f ∈ S.forces, ∀ U w, f.aft U w h Nt tol = .ok (aftVal h Nt tol f U w)) (w : ℝ) (U : ℕ → ℝ) :
    HBMSolution S Fl h Nt tol w U ↔ ∀ i < numCoeff h * S.nd, balance S h Nt tol (sl 0 (numCoeff h * S.nd) U) w i = Fl i := by
  set X : ℕ → ℝ := fun i => if i < numCoeff h * S.nd then U i else w with hX
  have e1 : sl 0 (numCoeff h * S.nd) X = sl 0 (numCoeff h * S.nd) U := sl_congr fun k hk => by simp [hX, hk]
  have e2 : X (numCoeff h * S.nd) = w := by simp [hX]
  have e3 : ∀ i, hbmG S (aftVal h Nt tol) h X i = balance S h Nt tol (sl 0 (numCoeff h * S.nd) U) w i := fun i => by
    unfold hbmG
    rw [e1, e2]
    rfl
  unfold HBMSolution
  rw [← hX, hbmRes_ok S hh Nt tol (aftVal h Nt tol) hS X Fl]
  constructor
  · rintro ⟨R, g, h1, h2⟩ i hi
    injection h1 with h1
    injection h1 with h1 _
    have := h2 i hi
    rw [← h1] at this
    simp only [e3] at this
    linarith
  · intro H
    exact ⟨_, _, rfl, fun i hi => by simp only [e3, H i hi, sub_self]⟩

/-- At a solution the damping does at most the work of the load. -/
theorem solution_work (hh : Admissible h) (hM : ∀ d < S.nd, ∀ e < S.nd, S.M d e = S.M e d) (hK : ∀ d < S.nd, ∀ e < S.nd, S.K d e = S.K e d)
    (hok : ∀ f ∈ S.forces, ∀ U w, ∃ o, f.aft U w h Nt tol = .ok o) {w : ℝ} (hw : 0 < w) {U : ℕ → ℝ} (hU : HBMSolution S Fl h Nt tol w U)
    (hp : ∀ f ∈ S.forces, Passive f S.nd h Nt tol (sl 0 (numCoeff h * S.nd) U) w) :
    periodWork S.nd w (velocityOf S.nd h (sl 0 (numCoeff h * S.nd) U) w) (onVelocity S.nd S.C (velocityOf S.nd h (sl 0 (numCoeff h * S.nd) U) w))
      ≤ periodWork S.nd w (velocityOf S.nd h (sl 0 (numCoeff h * S.nd) U) w) (periodicOf S.nd h Fl w) := by
  have hA : ∀ f ∈ S.forces, ∀ U w, f.aft U w h Nt tol = .ok (aftVal h Nt tol f U w) := fun f hf U w => by
    obtain ⟨o, ho⟩ := hok f hf U w
    simp only [aftVal, ho]
  obtain ⟨R, g, h1, h2⟩ := hU
  have key := C91_hbm S hM hK h hh Nt tol (aftVal h Nt tol) hA _ Fl R g (by simpa using hw.ne') h1 h2
  have e1 : sl 0 (numCoeff h * S.nd) (fun i => if i < numCoeff h * S.nd then U i else w) = sl 0 (numCoeff h * S.nd) U := sl_congr fun k hk => by simp [hk]
  simp only [e1, lt_irrefl, if_false] at key
  rw [← key, work_list hh S.nd _ hw.ne' S.forces fun f i => (aftVal h Nt tol f (sl 0 (numCoeff h * S.nd) U) w).F i]
  refine le_add_of_nonneg_right (List.sum_nonneg fun x hx => ?_)
  obtain ⟨f, hf, rfl⟩ := List.mem_map.1 hx
  exact aftVal_work (hp f hf)

/-- C145: at a solution with passive forces the velocities are at most the load over the damping, as root mean squares: with
`c vᵀv ≤ vᵀ C v` the integral of `c² |x'|²` over a period is at most that of the square of the load. -/
theorem C145_velocity (hh : Admissible h) (hM : ∀ d < S.nd, ∀ e < S.nd, S.M d e = S.M e d) (hK : ∀ d < S.nd, ∀ e < S.nd, S.K d e = S.K e d)
    (hok : ∀ f ∈ S.forces, ∀ U w, ∃ o, f.aft U w h Nt tol = .ok o) {c : ℝ} (hc0 : 0 < c)
    (hc : ∀ v : ℕ → ℝ, c * ∑ d ∈ range S.nd, v d ^ 2 ≤ ∑ d ∈ range S.nd, ∑ e ∈ range S.nd, v d * S.C d e * v e) {w : ℝ} (hw : 0 < w) {U : ℕ → ℝ}
    (hU : HBMSolution S Fl h Nt tol w U) (hp : ∀ f ∈ S.forces, Passive f S.nd h Nt tol (sl 0 (numCoeff h * S.nd) U) w) :
    ∫ t in (0:ℝ)..2 * Real.pi / w, ∑ d ∈ range S.nd, (c * velocityOf S.nd h (sl 0 (numCoeff h * S.nd) U) w d t) ^ 2
      ≤ ∫ t in (0:ℝ)..2 * Real.pi / w, ∑ d ∈ range S.nd, periodicOf S.nd h Fl w d t ^ 2 := by
  have H := solution_work hh hM hK hok hw hU hp
  set V := velocityOf S.nd h (sl 0 (numCoeff h * S.nd) U) w with hV
  set P := periodicOf S.nd h Fl w with hP
  have cV : ∀ d, Continuous (V d) := continuous_velocityOf hh S.nd _ hw.ne'
  have cP : ∀ d, Continuous (P d) := continuous_periodicOf _ _ _ _
  unfold periodWork onVelocity at H
  have hT : (0:ℝ) ≤ 2 * Real.pi / w := by positivity
  have e1 : ∫ t in (0:ℝ)..2 * Real.pi / w, ∑ d ∈ range S.nd, (c * V d t) ^ 2 ≤ c * ∫ t in (0:ℝ)..2 * Real.pi / w, ∑ d ∈ range S.nd, V d t * ∑ e ∈ range S.nd, S.C d e * V e t := by
    rw [← intervalIntegral.integral_const_mul]
    refine intervalIntegral.integral_mono_on hT (Continuous.intervalIntegrable (by fun_prop) _ _) (Continuous.intervalIntegrable (by fun_prop) _ _) fun t _ => ?_
    have := mul_le_mul_of_nonneg_left (hc fun d => V d t) hc0.le
    refine le_trans (le_of_eq ?_) (this.trans (le_of_eq ?_))
    · rw [mul_sum, mul_sum]; exact sum_congr rfl fun d _ => by ring
    · congr 1
      refine sum_congr rfl fun d _ => ?_
      rw [mul_sum]
      exact sum_congr rfl fun e _ => by ring
  have e2 : 2 * (c * ∫ t in (0:ℝ)..2 * Real.pi / w, ∑ d ∈ range S.nd, V d t * P d t)
      ≤ (∫ t in (0:ℝ)..2 * Real.pi / w, ∑ d ∈ range S.nd, (c * V d t) ^ 2) + ∫ t in (0:ℝ)..2 * Real.pi / w, ∑ d ∈ range S.nd, P d t ^ 2 := by
    rw [← intervalIntegral.integral_add (Continuous.intervalIntegrable (by fun_prop) _ _) (Continuous.intervalIntegrable (by fun_prop) _ _),
      ← mul_assoc, ← intervalIntegral.integral_const_mul]
    refine intervalIntegral.integral_mono_on hT (Continuous.intervalIntegrable (by fun_prop) _ _) (Continuous.intervalIntegrable (by fun_prop) _ _) fun t _ => ?_
    rw [mul_sum, ← sum_add_distrib]
    refine sum_le_sum fun d _ => ?_
    nlinarith [sq_nonneg (c * V d t - P d t)]
  have e3 := mul_le_mul_of_nonneg_left H hc0.le
  linarith

/-- C145: the same for the coefficients, without the static ones. -/
theorem C145_coefficients (hh : Admissible h) (hn : ∀ k ∈ h, k ≤ n) (hM : ∀ d < S.nd, ∀ e < S.nd, S.M d e = S.M e d) (hK : ∀ d < S.nd, ∀ e < S.nd, S.K d e = S.K e d)
    (hok : ∀ f ∈ S.forces, ∀ U w, ∃ o, f.aft U w h Nt tol = .ok o) {c : ℝ} (hc0 : 0 < c)
    (hc : ∀ v : ℕ → ℝ, c * ∑ d ∈ range S.nd, v d ^ 2 ≤ ∑ d ∈ range S.nd, ∑ e ∈ range S.nd, v d * S.C d e * v e) {w : ℝ} (hw : 0 < w) {U : ℕ → ℝ}
    (hU : HBMSolution S Fl h Nt tol w U) (hp : ∀ f ∈ S.forces, Passive f S.nd h Nt tol (sl 0 (numCoeff h * S.nd) U) w) :
    (c * w) ^ 2 * ∑ k ∈ range n, ((k + 1 : ℕ) : ℝ) ^ 2 * ∑ d ∈ range S.nd, ((coefOf h (fun r => sl 0 (numCoeff h * S.nd) U (r * S.nd + d)) (k + 1)).1 ^ 2
        + (coefOf h (fun r => sl 0 (numCoeff h * S.nd) U (r * S.nd + d)) (k + 1)).2 ^ 2)
      ≤ ∑ k ∈ range n, ∑ d ∈ range S.nd, ((coefOf h (fun r => Fl (r * S.nd + d)) (k + 1)).1 ^ 2 + (coefOf h (fun r => Fl (r * S.nd + d)) (k + 1)).2 ^ 2) := by
  have := osc_bound_exact hh hn hc0 hc (sl 0 (numCoeff h * S.nd) U) Fl hw (solution_work hh hM hK hok hw hU hp)
  rw [mul_comm c w]
  exact this

/-- Symmetric mass and stiffness, positive definite damping, and a positive definite stiffness if the static coefficient is retained. -/
structure WellDamped (S : VibSys) (h : List ℕ) : Prop where
  massSymm : ∀ d < S.nd, ∀ e < S.nd, S.M d e = S.M e d
  stiffSymm : ∀ d < S.nd, ∀ e < S.nd, S.K d e = S.K e d
  damping : ∀ v : ℕ → ℝ, (∃ d < S.nd, v d ≠ 0) → 0 < ∑ d ∈ range S.nd, ∑ e ∈ range S.nd, v d * S.C d e * v e
  stiffness : 0 ∈ h → ∀ v : ℕ → ℝ, (∃ d < S.nd, v d ≠ 0) → 0 < ∑ d ∈ range S.nd, ∑ e ∈ range S.nd, v d * S.K d e * v e

theorem tame_of (hh : Admissible h) (hn : ∀ k ∈ h, k ≤ n) (hNt : ∀ k ∈ h, 2 * k + 1 < Nt) (heven : Even Nt) (hS : ∀ f ∈ S.forces, IsDamper S.nd f ∨ IsSpring S.nd h Nt f) :
    ∀ f ∈ S.forces, Tame S.nd n h Nt tol f := fun f hf => (hS f hf).elim (damper_tame hh hn hNt heven) (spring_tame hh hn hNt heven)

/-- C145: the solutions of a range of positive frequencies are bounded, for systems with polynomial springs and dampers. -/
theorem C145_bounded (hh : Admissible h) (hNt : ∀ k ∈ h, 2 * k + 1 < Nt) (heven : Even Nt) (hD : WellDamped S h)
    (hS : ∀ f ∈ S.forces, IsDamper S.nd f ∨ IsSpring S.nd h Nt f) (Fl : ℕ → ℝ) {a : ℝ} (ha : 0 < a) (b : ℝ) :
    ∃ B, ∀ w, a ≤ w → w ≤ b → ∀ U, HBMSolution S Fl h Nt tol w U → ∀ i < numCoeff h * S.nd, |U i| ≤ B := by
  obtain ⟨n, hn⟩ := exists_bound h
  have hR := tame_of (tol := tol) hh hn hNt heven hS
  obtain ⟨B, hB⟩ := tame_bounded hh hn hR hD.massSymm hD.stiffSymm hD.damping hD.stiffness ha b (∑ i ∈ range (numCoeff h * S.nd), |Fl i|)
  refine ⟨B, fun w hwa hwb U hU i hi => ?_⟩
  have := hB w hwa hwb (sl 0 (numCoeff h * S.nd) U) (fun i hi => by
    rw [(solution_balance hh (fun f hf => (hR f hf).smooth.ok) w U).1 hU i hi]
    exact single_le_sum (f := fun i => |Fl i|) (fun _ _ => abs_nonneg _) (mem_range.2 hi)) i hi
  rwa [sl_zero hi] at this

variable {lam0 lam1 δ y : ℝ}

theorem tame_compact (hh : Admissible h) (hn : ∀ k ∈ h, k ≤ n) (hR : ∀ f ∈ S.forces, Tame S.nd n h Nt tol f) (hD : WellDamped S h) (hlam : lam0 ≠ lam1)
    (hpos : ∀ w, Within lam0 lam1 (some y) δ w → 0 < w) :
    IsCompact (solutions (numCoeff h * S.nd) (fun X i => hbmG S (aftVal h Nt tol) h X i - Fl i) lam0 lam1 (some y) δ) := by
  have hs := smooth_system (Fl := Fl) hh fun f hf => (hR f hf).smooth
  have hcont : ∀ i < numCoeff h * S.nd, ContinuousOn (fun v : Fin (numCoeff h * S.nd + 1) → ℝ => hbmG S (aftVal h Nt tol) h (Spec.ext v) i - Fl i)
      {v | Within lam0 lam1 (some y) δ (v (Fin.last _))} := fun i hi v hv =>
    (continuousAt_of_grad (hs.deriv v (hpos _ hv) i hi)).continuousWithinAt
  refine Metric.isCompact_of_isClosed_isBounded ?_ ?_
  · have hcl : IsClosed {v : Fin (numCoeff h * S.nd + 1) → ℝ | Within lam0 lam1 (some y) δ (v (Fin.last _))} :=
      (within_closed lam0 lam1 (some y) δ).preimage (f := fun v : Fin (numCoeff h * S.nd + 1) → ℝ => v (Fin.last _)) (continuous_apply _)
    have e : solutions (numCoeff h * S.nd) (fun X i => hbmG S (aftVal h Nt tol) h X i - Fl i) lam0 lam1 (some y) δ
        = {v | Within lam0 lam1 (some y) δ (v (Fin.last _))} ∩ (⋂ i : Fin (numCoeff h * S.nd), {v | Within lam0 lam1 (some y) δ (v (Fin.last _))} ∩
          (fun v : Fin (numCoeff h * S.nd + 1) → ℝ => hbmG S (aftVal h Nt tol) h (Spec.ext v) i - Fl i) ⁻¹' {0}) := by
      ext1 v
      simp only [Set.mem_inter_iff, Set.mem_iInter, Set.mem_preimage, Set.mem_singleton_iff]
      constructor
      · rintro ⟨h1, h2⟩
        exact ⟨h2, fun i => ⟨h2, h1 i i.2⟩⟩
      · rintro ⟨h1, h2⟩
        exact ⟨fun i hi => (h2 ⟨i, hi⟩).2, h1⟩
    rw [e]
    exact hcl.inter (isClosed_iInter fun i => (hcont i i.2).preimage_isClosed_of_isClosed hcl isClosed_singleton)
  · rcases Set.eq_empty_or_nonempty {w | Within lam0 lam1 (some y) δ w} with he | hne
    · refine (Metric.isBounded_iff_subset_closedBall 0).2 ⟨0, fun v hv => ?_⟩
      have : v (Fin.last _) ∈ {w | Within lam0 lam1 (some y) δ w} := hv.2
      rw [he] at this
      exact this.elim
    obtain ⟨b, hb⟩ := (within_compact (y := y) (δ := δ) hlam).bddAbove
    obtain ⟨a, haw, ham⟩ := (within_compact (y := y) (δ := δ) hlam).exists_isMinOn hne continuousOn_id
    have ha : 0 < a := hpos a haw
    obtain ⟨B', hB'⟩ := tame_bounded hh hn hR hD.massSymm hD.stiffSymm hD.damping hD.stiffness ha b (∑ i ∈ range (numCoeff h * S.nd), |Fl i|)
    refine (Metric.isBounded_iff_subset_closedBall 0).2 ⟨max |B'| |b|, fun v hv => ?_⟩
    have hw : a ≤ v (Fin.last _) := ham hv.2
    have hwb : v (Fin.last _) ≤ b := hb hv.2
    rw [mem_closedBall_zero_iff, pi_norm_le_iff_of_nonneg ((abs_nonneg _).trans (le_max_left _ _))]
    intro j
    rw [Real.norm_eq_abs]
    rcases Nat.lt_or_ge (j : ℕ) (numCoeff h * S.nd) with hj | hj
    · have h1 := hB' _ hw hwb (sl 0 (numCoeff h * S.nd) (Spec.ext v)) (fun i hi => by
        have := hv.1 i hi
        simp only [hbmG_ext] at this
        rw [sub_eq_zero.1 this]
        exact single_le_sum (f := fun i => |Fl i|) (fun _ _ => abs_nonneg _) (mem_range.2 hi)) j hj
      rw [sl_zero hj] at h1
      have e : Spec.ext v j = v j := by simp [Spec.ext, hj.le]
      rw [e] at h1
      exact h1.trans ((le_abs_self _).trans (le_max_left _ _))
    · have : j = Fin.last _ := Fin.ext (by have := j.2; simp; omega)
      rw [this]
      have : |v (Fin.last (numCoeff h * S.nd))| ≤ |b| := by rw [abs_of_pos (ha.trans_le hw)]; exact hwb.trans (le_abs_self _)
      exact this.trans (le_max_right _ _)

theorem tame_rest (hR : ∀ f ∈ S.forces, Tame S.nd n h Nt tol f) {w : ℝ} (hw : 0 < w) {i : ℕ} (hi : i < numCoeff h * S.nd) :
    balance S h Nt tol (fun _ => 0) w i = 0 := by
  unfold balance matVec
  rw [sum_eq_zero fun j _ => mul_zero _, zero_add]
  refine List.sum_eq_zero fun x hx => ?_
  obtain ⟨f, hf, rfl⟩ := List.mem_map.1 hx
  exact (hR f hf).rest w hw i hi

theorem ext_solution {v : Fin (numCoeff h * S.nd + 1) → ℝ} (hh : Admissible h) (hR : ∀ f ∈ S.forces, Tame S.nd n h Nt tol f)
    (hv : ∀ i < numCoeff h * S.nd, hbmG S (aftVal h Nt tol) h (Spec.ext v) i - Fl i = 0) :
    HBMSolution S Fl h Nt tol (v (Fin.last _)) (Spec.ext v) :=
  (solution_balance hh (fun f hf => (hR f hf).smooth.ok) _ _).2 fun i hi => by
    have := hv i hi
    rw [hbmG_ext] at this
    linarith

/-- C145: the continuation of the response of such a system does not fail, whatever folds there are, as long as the solution set is a curve at
each solution in the range: every stored point is within `η` of a solution, and the run only ends with the allowed steps, behind the last
frequency or behind the limit for running back. -/
theorem C145_run (hh : Admissible h) (hNt : ∀ k ∈ h, 2 * k + 1 < Nt) (heven : Even Nt) (hD : WellDamped S h)
    (hS : ∀ f ∈ S.forces, IsDamper S.nd f ∨ IsSpring S.nd h Nt f) (hF : ∃ i < numCoeff h * S.nd, Fl i ≠ 0) (hlam : lam0 ≠ lam1) (hδ : 0 < δ)
    (hpos : ∀ w, Within lam0 lam1 (some y) δ w → 0 < w)
    (hcurve : ∀ X o, Within lam0 lam1 (some y) δ (X (numCoeff h * S.nd)) → hbmFun S Fl h Nt tol X true = .ok o → (∀ i < numCoeff h * S.nd, o.R i = 0) → IsCurve (numCoeff h * S.nd) o)
    {X0 : ℕ → ℝ} (hX0 : X0 (numCoeff h * S.nd) = lam0) (hw0 : Within lam0 lam1 (some y) δ lam0) {o0 : ContOut} (ho0 : hbmFun S Fl h Nt tol X0 true = .ok o0) (hR0 : ∀ i < numCoeff h * S.nd, o0.R i = 0)
    (hreg : Regular (numCoeff h * S.nd) o0.J)
    {obj : ContObj} {r b η inf : ℝ} {L : ℕ → Type} {lin : ℕ → (ℕ → ℕ → ℝ) → (ℕ → ℝ) → Except Err (ℕ → ℝ)}
    {fac : (n : ℕ) → Matrix (Fin n) (Fin n) ℝ → L n} {sol : (n : ℕ) → L n → (Fin n → ℝ) → (Fin n → ℝ)}
    (hC : ∀ i ≤ numCoeff h * S.nd, 0 < (contPrepare obj).CtoP i) (hr : (contPrepare obj).RPtoC = .vector fun _ => r) (hr0 : r ≠ 0)
    (hb : 0 < b) (hb1 : b < 1) (hlin : LinOk lin) (hsol : ∀ n, ExactSolve (fac n) (sol n)) (hη : 0 < η) :
    ∃ s0 > 0, ∃ t0 > 0, ∃ r0 > 0, ∀ t > 0, t ≤ t0 → ∃ M, ∀ om, PlainNewton om → M ≤ om.maxSteps → ∀ (cfg : ContCfg) (rest : List ℝ),
      cfg.corrector = .ortho → cfg.dynamicCtoP = false → cfg.fracLamList = b :: rest → cfg.backtrackStop = some y → 0 < cfg.dsmin → 0 < cfg.dsmax → cfg.dsmax ≤ s0 →
      0 < cfg.ds0 → cfg.ds0 ≤ s0 → 0 < cfg.maxSteps → ∀ XlamP0 : ℕ → ℝ, (∀ i < numCoeff h * S.nd, |XlamP0 i - X0 i| < r0) → ∀ fuel > cfg.maxSteps,
      ∃ res, continuation (ompContSolver lin inf fac sol om (some t)) (numCoeff h * S.nd) cfg obj (hbmFun S Fl h Nt tol) XlamP0 lam0 lam1 fuel = .ok res ∧
        res.ok = true ∧ 0 < res.n ∧
        (∀ k < res.n, ∃ w U, HBMSolution S Fl h Nt tol w U ∧ |res.rows k (numCoeff h * S.nd) - w| < η ∧ ∀ j < numCoeff h * S.nd, |res.rows k j - U j| < η) ∧
        (res.n = cfg.maxSteps ∨ ¬ Ahead lam0 lam1 (res.rows (res.n - 1) (numCoeff h * S.nd)) ∨ ¬ NotBehind lam0 lam1 (some y) (res.rows (res.n - 1) (numCoeff h * S.nd))) := by
  obtain ⟨n, hn⟩ := exists_bound h
  have hR := tame_of (tol := tol) hh hn hNt heven hS
  have hs := smooth_system (Fl := Fl) hh fun f hf => (hR f hf).smooth
  set x : Fin (numCoeff h * S.nd + 1) → ℝ := fun j => X0 j with hx
  have hxe : ∀ k < numCoeff h * S.nd + 1, Spec.ext x k = X0 k := fun k hk => by simp [Spec.ext, hk, hx]
  have hxl : x (Fin.last _) = lam0 := by rw [hx]; simpa using hX0
  have hox : o0 = ⟨fun i => hbmG S (aftVal h Nt tol) h (Spec.ext x) i - Fl i, hbmJ S (aftVal h Nt tol) h (Spec.ext x), hbmD S (aftVal h Nt tol) h (Spec.ext x)⟩ := by
    have := hs.value (Spec.ext x)
    rw [hs.local' _ _ hxe, ho0] at this
    exact Except.ok.inj this
  have hK : RegularSolutions (numCoeff h * S.nd) (fun X i => hbmG S (aftVal h Nt tol) h X i - Fl i) (hbmJ S (aftVal h Nt tol) h) (hbmD S (aftVal h Nt tol) h)
      {v | 0 < v (Fin.last _)} lam0 lam1 (some y) δ :=
    { compact := tame_compact hh hn hR hD hlam hpos
      inside := fun v hv => hpos _ hv.2
      curve := fun v hv => hcurve (Spec.ext v) _ (by rw [ext_last]; exact hv.2) (hs.value _) hv.1
      nonzero := fun v hv => by
        by_contra hc
        push Not at hc
        obtain ⟨i, hi, hne⟩ := hF
        have h1 := hv.1 i hi
        simp only [hbmG_ext] at h1
        have e : sl 0 (numCoeff h * S.nd) (Spec.ext v) = fun _ => 0 := by
          funext k
          by_cases hk : k < numCoeff h * S.nd
          · rw [sl_zero hk, hc k hk]
          · simp [sl, hk]
        rw [e, tame_rest hR (hpos _ hv.2) hi, zero_sub, neg_eq_zero] at h1
        exact hne h1 }
  obtain ⟨s0, hs0, t0, ht0, r0, hr0', H⟩ := C133_run (inf := inf) hs hK hδ hlam (x := x) ⟨fun i hi => by have := hR0 i hi; rw [hox] at this; exact this, by rw [hxl]; exact hw0⟩
    hxl (by rw [hox] at hreg; exact hreg) hC hr hr0 hb hb1 hlin hsol hη
  refine ⟨s0, hs0, t0, ht0, r0, hr0', fun t ht htt => ?_⟩
  obtain ⟨M, HM⟩ := H t ht htt
  refine ⟨M, fun om hom hmM cfg rest c1 c2 c3 c4 c5 c6 c7 c8 c9 c10 XlamP0 hX fuel hf => ?_⟩
  obtain ⟨res, e1, e2, e3, e4, e5⟩ := HM om hom hmM cfg rest c1 c2 c3 c4 c5 c6 c7 c8 c9 c10 XlamP0 (fun i hi => by rw [hxe i (by omega)]; exact hX i hi) fuel hf
  refine ⟨res, e1, e2, e3, fun k hk => ?_, e5⟩
  obtain ⟨v, hv, hcl⟩ := e4 k hk
  refine ⟨_, _, ext_solution hh hR hv.1, ?_, fun j hj => hcl j hj.le⟩
  have := hcl _ le_rfl
  rwa [ext_last] at this

/-- The cubic springs of the package. -/
theorem C145_cubic (nd m : ℕ) (Q T : ℕ → ℕ → ℝ) (hT : ∀ i e, T i e = Q e i) {k : ℕ → ℝ} {H : ℕ} (hH : ∀ j ∈ h, j ≤ H) (hN : 4 * H < Nt) (hk : 0 ∈ h → ∀ d, 0 ≤ k d) :
    IsSpring nd h Nt (cubicNL nd m Q T k) := by
  refine ⟨m, Q, T, cubicLoc k, _, fun d => Polynomial.C (k d) * Polynomial.X ^ 3, 3, H, rfl, hT, fun d u v => ?_, hH, hN, fun d => ⟨Polynomial.natDegree_C_mul_X_pow_le _ _, by simp, fun h0 u => ?_⟩⟩
  · simp [cubicLoc]
    ring
  · have : (Polynomial.C (k d) * Polynomial.X ^ 3).eval u * u = k d * (u ^ 2) ^ 2 := by simp; ring
    rw [this]
    exact mul_nonneg (hk h0 d) (sq_nonneg _)

/-- The quintic springs of the package. -/
theorem C145_quintic (nd m : ℕ) (Q T : ℕ → ℕ → ℝ) (hT : ∀ i e, T i e = Q e i) {k : ℕ → ℝ} {H : ℕ} (hH : ∀ j ∈ h, j ≤ H) (hN : 6 * H < Nt) (hk : 0 ∈ h → ∀ d, 0 ≤ k d) :
    IsSpring nd h Nt (instForce nd m Q T (quinticLoc k) (quinticForce nd m Q T k)) := by
  refine ⟨m, Q, T, quinticLoc k, _, fun d => Polynomial.C (k d) * Polynomial.X ^ 5, 5, H, rfl, hT, fun d u v => ?_, hH, hN, fun d => ⟨Polynomial.natDegree_C_mul_X_pow_le _ _, by simp, fun h0 u => ?_⟩⟩
  · simp [quinticLoc]
    ring
  · have : (Polynomial.C (k d) * Polynomial.X ^ 5).eval u * u = k d * (u ^ 3) ^ 2 := by simp; ring
    rw [this]
    exact mul_nonneg (hk h0 d) (sq_nonneg _)

/-- The cubic dampers of the package with coefficients that are not negative. -/
theorem C145_damper (nd m : ℕ) (Q T : ℕ → ℕ → ℝ) (hT : ∀ i e, T i e = Q e i) {c : ℕ → ℝ} (hc : ∀ d, 0 ≤ c d) : IsDamper nd (cubicDampingNL nd m Q T c) := by
  refine ⟨m, Q, T, cubicDampingLoc c, _, fun d v => c d * v ^ 3, fun d v => 3 * c d * v ^ 2, rfl, hT, fun d u v => rfl, fun d => ⟨fun v => ?_, by fun_prop, fun v => ?_, by simp⟩⟩
  · exact ((hasDerivAt_pow 3 v).const_mul (c d)).congr_deriv (by push_cast; ring)
  · have : c d * v ^ 3 * v = c d * (v ^ 2) ^ 2 := by ring
    rw [this]
    exact mul_nonneg (hc d) (sq_nonneg _)

/-- A mass on a spring with the force `x + k x³` and the damping `c x'`. -/
def duffing (c k : ℝ) : VibSys := ⟨1, fun _ _ => 1, fun _ _ => 1, fun _ _ => c, none, [cubicNL 1 1 (fun _ _ => 1) (fun _ _ => 1) fun _ => k]⟩

theorem duffing_damped {c : ℝ} (hc : 0 < c) (k : ℝ) (h : List ℕ) : WellDamped (duffing c k) h where
  massSymm _ _ _ _ := rfl
  stiffSymm _ _ _ _ := rfl
  damping v := by
    rintro ⟨d, hd, hne⟩
    obtain rfl : d = 0 := by simp [duffing] at hd; omega
    have : 0 < v 0 * v 0 := mul_self_pos.2 hne
    simp [duffing]
    nlinarith
  stiffness _ v := by
    rintro ⟨d, hd, hne⟩
    obtain rfl : d = 0 := by simp [duffing] at hd; omega
    have : 0 < v 0 * v 0 := mul_self_pos.2 hne
    simpa [duffing] using hne

/-- The amplitude of a damped Duffing oscillator, softening or hardening, under `F cos τ` is at most `F / (c w)` with the first harmonic. -/
example {c k F w tol : ℝ} (hc : 0 < c) (hw : 0 < w) {U : ℕ → ℝ} (hU : HBMSolution (duffing c k) (fun i => if i = 0 then F else 0) [1] 8 tol w U) :
    U 0 ^ 2 + U 1 ^ 2 ≤ (F / (c * w)) ^ 2 := by
  have hh : Admissible [1] := ⟨by simp, by simp, by simp⟩
  have hT := tame_of (S := duffing c k) (n := 1) (tol := tol) hh (by simp) (Nt := 8) (by simp) ⟨4, rfl⟩ fun f hf => Or.inr (by
    obtain rfl : f = _ := List.mem_singleton.1 hf
    exact C145_cubic 1 1 _ _ (fun _ _ => rfl) (H := 1) (by simp) (by norm_num) (by simp))
  have := C145_coefficients (S := duffing c k) (n := 1) hh (by simp) (fun _ _ _ _ => rfl) (fun _ _ _ _ => rfl) (fun f hf U w => ⟨_, (hT f hf).smooth.ok U w⟩) hc
    (fun v => by simp [duffing]; nlinarith) hw hU fun f hf => ⟨_, (hT f hf).smooth.ok _ _, (hT f hf).work _ _ hw⟩
  simp [duffing, numCoeff, coefOf, sl] at this
  rw [div_pow, le_div_iff₀ (by positivity)]
  linarith

/-- A bound for all responses of a hardening one to a load with a static part at frequencies between 1/10 and 10, three harmonics. -/
example (tol : ℝ) : ∃ B, ∀ w, 1 / 10 ≤ w → w ≤ 10 → ∀ U, HBMSolution (duffing (1 / 20) 2) (fun i => if i < 2 then 1 else 0) [0, 1, 3] 64 tol w U → ∀ i < 5, |U i| ≤ B :=
  C145_bounded ⟨by simp, by simp, by simp⟩ (by simp) ⟨32, rfl⟩ (duffing_damped (by norm_num) _ _) (fun f hf => Or.inr (by
    obtain rfl : f = _ := List.mem_singleton.1 hf
    exact C145_cubic 1 1 _ _ (fun _ _ => rfl) (H := 3) (by simp) (by norm_num) (fun _ _ => by norm_num))) _ (by norm_num) _

end

end TMD
