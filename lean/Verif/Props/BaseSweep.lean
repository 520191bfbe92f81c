import Verif.Props.BaseDampers
import Verif.Props.LoadSweep

/-!
# C157: a sweep of the frequency with a moving base
-/

namespace TMD

open Spec Metric Set

noncomputable section

/-- The function handed to the continuation, `lambda Uw, calc_grad=True : vib_sys.hbm_base_res(Uw, Ub, base_flag, h, Nt=Nt, aft_tol=tol)[0:3]`,
vibration_system.py:832-913; `hbm_base_res` always returns the derivatives. -/
def baseFun (S : VibSys) (Ub : ℕ → ℝ) (base : ℕ → Bool) (h : List ℕ) (Nt : ℕ) (tol : ℝ) : ContFun := fun X _ =>
  match hbmBaseRes S X Ub base h Nt tol with
  | .error e => .error e
  | .ok o => .ok ⟨o.1, o.2.1, o.2.2⟩

variable {S : VibSys} {base : ℕ → Bool} {Ub : ℕ → ℝ} {h : List ℕ} {Nt n : ℕ} {tol lam0 lam1 δ y : ℝ}

/-- Place of the `k`-th free unknown. -/
def freeAt (S : VibSys) (base : ℕ → Bool) (h : List ℕ) (k : ℕ) : ℕ := Nat.nth (fun i => ¬ baseMask S.nd (numCoeff h * S.nd) base i) k

def baseR (S : VibSys) (Ub : ℕ → ℝ) (base : ℕ → Bool) (h : List ℕ) (Nt : ℕ) (tol : ℝ) (X : ℕ → ℝ) (k : ℕ) : ℝ :=
  hbmG S (aftVal h Nt tol) h (baseFull S.nd (numCoeff h * S.nd) base X Ub) (freeAt S base h k)

def baseJ (S : VibSys) (Ub : ℕ → ℝ) (base : ℕ → Bool) (h : List ℕ) (Nt : ℕ) (tol : ℝ) (X : ℕ → ℝ) (k l : ℕ) : ℝ :=
  hbmJ S (aftVal h Nt tol) h (baseFull S.nd (numCoeff h * S.nd) base X Ub) (freeAt S base h k) (freeAt S base h l)

def baseD (S : VibSys) (Ub : ℕ → ℝ) (base : ℕ → Bool) (h : List ℕ) (Nt : ℕ) (tol : ℝ) (X : ℕ → ℝ) (k : ℕ) : ℝ :=
  hbmD S (aftVal h Nt tol) h (baseFull S.nd (numCoeff h * S.nd) base X Ub) (freeAt S base h k)

theorem baseRes_val (hh : Admissible h) (hR : ∀ f ∈ S.forces, Resists S.nd n h Nt tol f) (X : ℕ → ℝ) :
    hbmBaseRes S X Ub base h Nt tol = .ok (baseR S Ub base h Nt tol X, baseJ S Ub base h Nt tol X, baseD S Ub base h Nt tol X) :=
  hbmBaseRes_ok S hh Nt tol (aftVal h Nt tol) (fun f hf => (hR f hf).ok) X Ub base rfl

theorem freeAt_lt {k : ℕ} (hk : k < nFree S.nd (numCoeff h * S.nd) base) : freeAt S base h k < numCoeff h * S.nd := Nat.nth_lt_of_lt_count hk

theorem freeAt_free (S : VibSys) (base : ℕ → Bool) (h : List ℕ) (k : ℕ) : ¬ baseMask S.nd (numCoeff h * S.nd) base (freeAt S base h k) :=
  Nat.nth_mem_of_infinite (baseMask_infinite S.nd (numCoeff h * S.nd) base) k

theorem count_freeAt (S : VibSys) (base : ℕ → Bool) (h : List ℕ) (k : ℕ) : Nat.count (fun i => ¬ baseMask S.nd (numCoeff h * S.nd) base i) (freeAt S base h k) = k :=
  Nat.count_nth_of_infinite (baseMask_infinite S.nd (numCoeff h * S.nd) base) k

theorem baseFull_last (X : ℕ → ℝ) : baseFull S.nd (numCoeff h * S.nd) base X Ub (numCoeff h * S.nd) = X (nFree S.nd (numCoeff h * S.nd) base) := by
  have : ¬ baseMask S.nd (numCoeff h * S.nd) base (numCoeff h * S.nd) := fun hm => lt_irrefl _ hm.1
  simp only [baseFull, if_neg this, nFree]

theorem baseFull_local {X Y : ℕ → ℝ} (H : ∀ k < nFree S.nd (numCoeff h * S.nd) base + 1, X k = Y k) {i : ℕ} (hi : i < numCoeff h * S.nd + 1) :
    baseFull S.nd (numCoeff h * S.nd) base X Ub i = baseFull S.nd (numCoeff h * S.nd) base Y Ub i := by
  unfold baseFull
  split
  · rfl
  · refine H _ ?_
    have : Nat.count (fun i => ¬ baseMask S.nd (numCoeff h * S.nd) base i) i ≤ nFree S.nd (numCoeff h * S.nd) base := Nat.count_monotone _ (by omega)
    omega

theorem base_smooth (hh : Admissible h) (hR : ∀ f ∈ S.forces, Resists S.nd n h Nt tol f) :
    SmoothIn (nFree S.nd (numCoeff h * S.nd) base) (baseFun S Ub base h Nt tol) (baseR S Ub base h Nt tol) (baseJ S Ub base h Nt tol) (baseD S Ub base h Nt tol)
      {v | 0 < v (Fin.last _)} where
  value X := by simp only [baseFun, baseRes_val hh hR]
  local' X Y hXY := by
    have hw : baseFull S.nd (numCoeff h * S.nd) base X Ub (numCoeff h * S.nd) = baseFull S.nd (numCoeff h * S.nd) base Y Ub (numCoeff h * S.nd) := baseFull_local hXY (by omega)
    have hs : sl 0 (numCoeff h * S.nd) (baseFull S.nd (numCoeff h * S.nd) base X Ub) = sl 0 (numCoeff h * S.nd) (baseFull S.nd (numCoeff h * S.nd) base Y Ub) :=
      sl_congr fun k hk => baseFull_local hXY (by omega)
    simp only [baseFun, baseRes_val hh hR]
    have e1 : baseR S Ub base h Nt tol X = baseR S Ub base h Nt tol Y := by funext i; unfold baseR hbmG; rw [hs, hw]
    have e2 : baseJ S Ub base h Nt tol X = baseJ S Ub base h Nt tol Y := by funext i j; unfold baseJ hbmJ; rw [hs, hw]
    have e3 : baseD S Ub base h Nt tol X = baseD S Ub base h Nt tol Y := by funext i; unfold baseD hbmD; rw [hs, hw]
    rw [e1, e2, e3]
  isOpen := isOpen_lt continuous_const (continuous_apply _)
  deriv v hv := by
    obtain ⟨res, h1, h2⟩ := C70_jacobian S h hh Nt tol (aftVal h Nt tol) (fun f hf => (hR f hf).ok) Ub base
    have h3 : ∀ X, res X = (baseR S Ub base h Nt tol X, baseJ S Ub base h Nt tol X, baseD S Ub base h Nt tol X) := fun X =>
      Except.ok.inj ((h1 X).symm.trans (baseRes_val hh hR X))
    have h4 := h2 (Spec.ext v) fun f hf => (hR f hf).grad _ (by rw [baseFull_last, ext_last]; exact hv)
    simp only [h3] at h4
    exact h4
  cont i hi j hj := by
    set σ : (Fin (nFree S.nd (numCoeff h * S.nd) base + 1) → ℝ) → Fin (numCoeff h * S.nd + 1) → ℝ := fun v k => baseFull S.nd (numCoeff h * S.nd) base (Spec.ext v) Ub k with hσ
    have hσc : Continuous σ := continuous_pi fun k => by
      simp only [hσ, baseFull]
      split
      · exact continuous_const
      · simp only [Spec.ext]
        split_ifs <;> fun_prop
    have e1 : ∀ v, ∀ k < numCoeff h * S.nd + 1, Spec.ext (σ v) k = baseFull S.nd (numCoeff h * S.nd) base (Spec.ext v) Ub k := fun v k hk => by simp [Spec.ext, hσ, hk]
    have e2 : ∀ v, sl 0 (numCoeff h * S.nd) (Spec.ext (σ v)) = sl 0 (numCoeff h * S.nd) (baseFull S.nd (numCoeff h * S.nd) base (Spec.ext v) Ub) := fun v =>
      sl_congr fun k hk => e1 v k (by omega)
    have e3 : ∀ v, Spec.ext (σ v) (numCoeff h * S.nd) = baseFull S.nd (numCoeff h * S.nd) base (Spec.ext v) Ub (numCoeff h * S.nd) := fun v => e1 v _ (by omega)
    have hσm : MapsTo σ {v | 0 < v (Fin.last _)} {v | 0 < v (Fin.last _)} := fun v hv => by
      have h1 : 0 < v (Fin.last _) := hv
      have h2 : 0 < σ v (Fin.last _) := by
        have h3 := e3 v
        rw [ext_last, baseFull_last, ext_last] at h3
        rw [h3]
        exact h1
      exact h2
    have hs := (resists_smooth (Fl := fun _ => 0) hh hR).cont (freeAt S base h i) (freeAt_lt hi)
    unfold fullJac
    split_ifs with hjn
    · refine ((hs (freeAt S base h j) ((freeAt_lt hjn).trans (Nat.lt_succ_self _))).comp hσc.continuousOn hσm).congr fun v _ => ?_
      simp only [Function.comp_apply, fullJac, if_pos (freeAt_lt hjn)]
      unfold baseJ hbmJ
      rw [e2, e3]
    · refine ((hs (numCoeff h * S.nd) (Nat.lt_succ_self _)).comp hσc.continuousOn hσm).congr fun v _ => ?_
      simp only [Function.comp_apply, fullJac, if_neg (lt_irrefl _)]
      unfold baseD hbmD
      rw [e2, e3]

theorem base_solves (hh : Admissible h) (hR : ∀ f ∈ S.forces, Resists S.nd n h Nt tol f) (Uw : ℕ → ℝ) :
    BaseSolution S Ub base h Nt tol Uw ↔ ∀ k < nFree S.nd (numCoeff h * S.nd) base, baseR S Ub base h Nt tol Uw k = 0 := by
  unfold BaseSolution
  rw [baseRes_val hh hR]
  constructor
  · rintro ⟨R, J, d, h1, h2⟩ k hk
    have := congrArg Prod.fst (Except.ok.inj h1)
    simp only at this
    rw [this]
    exact h2 k hk
  · exact fun H => ⟨_, _, _, rfl, H⟩

theorem base_compact (hh : Admissible h) (hn : ∀ k ∈ h, k ≤ n) (hR : ∀ f ∈ S.forces, Resists S.nd n h Nt tol f) (hD : DampedFree S base h) (hlam : lam0 ≠ lam1) {a : ℝ} (ha : 0 < a)
    (hwa : ∀ w, Within lam0 lam1 (some y) δ w → a ≤ w) :
    IsCompact (solutions (nFree S.nd (numCoeff h * S.nd) base) (baseR S Ub base h Nt tol) lam0 lam1 (some y) δ) := by
  set N := nFree S.nd (numCoeff h * S.nd) base with hN
  set L := numCoeff h * S.nd with hL
  have hs := base_smooth (base := base) (Ub := Ub) hh hR
  set bv := baseVec S.nd L base Ub with hbv
  have hD' := freeSys_damped (b := bv) hD
  have hR' := freeSys_resists (base := base) (b := bv) hR
  obtain ⟨b, hb⟩ := (within_compact (y := y) (δ := δ) hlam).bddAbove
  obtain ⟨B, hB⟩ : ∃ B, ∀ w, a ≤ w → w ≤ b → ∀ i < L, |balance S h Nt tol (baseOnly S.nd L base bv) w i| ≤ B := by
    have hs0 := resists_smooth (Fl := fun _ => 0) hh hR
    set τ : ℝ → Fin (L + 1) → ℝ := fun w => addFreq L w fun i => baseOnly S.nd L base bv i with hτ
    have hτc : Continuous τ := continuous_pi fun j => by
      simp only [hτ, addFreq]
      split <;> fun_prop
    have hval : ∀ w i, balance S h Nt tol (baseOnly S.nd L base bv) w i = hbmG S (aftVal h Nt tol) h (Spec.ext (τ w)) i - 0 := fun w i => by
      rw [sub_zero, hbmG_ext]
      have e1 : sl 0 (numCoeff h * S.nd) (Spec.ext (τ w)) = baseOnly S.nd L base bv := by
        simp only [hτ]
        rw [sl_addFreq]
        funext k
        by_cases hk : k < L
        · have hk' : k < numCoeff h * S.nd := hk
          simp [Spec.ext]
          exact fun hk2 => absurd hk' (not_lt.2 hk2)
        · have hm : ¬ baseMask S.nd L base k := fun hm => hk hm.1
          simp [Spec.ext, baseOnly, onBase, hm]
      rw [e1]
      have e2 : τ w (Fin.last (numCoeff h * S.nd)) = w := by simp only [hτ]; exact addFreq_last ..
      rw [e2]
    have hc : ∀ i < L, ContinuousOn (fun w => balance S h Nt tol (baseOnly S.nd L base bv) w i) (Icc a b) := fun i hi w hw => by
      simp only [hval]
      have h1 := continuousAt_of_grad (hs0.deriv (τ w) (by
        have : 0 < τ w (Fin.last _) := by simp only [hτ, addFreq_last]; exact ha.trans_le hw.1
        exact this) i hi)
      exact (ContinuousAt.comp (f := τ) (g := fun z => hbmG S (aftVal h Nt tol) h (Spec.ext z) i - 0) h1 hτc.continuousAt).continuousWithinAt
    have : ∀ i < L, ∃ Bi, ∀ w ∈ Icc a b, |balance S h Nt tol (baseOnly S.nd L base bv) w i| ≤ Bi := fun i hi => isCompact_Icc.exists_bound_of_continuousOn (hc i hi)
    choose! Bi hBi using this
    refine ⟨∑ i ∈ Finset.range L, |Bi i|, fun w hw1 hw2 i hi => (hBi i hi w ⟨hw1, hw2⟩).trans ((le_abs_self _).trans ?_)⟩
    exact Finset.single_le_sum (f := fun i => |Bi i|) (fun _ _ => abs_nonneg _) (Finset.mem_range.2 hi)
  obtain ⟨B', hB'⟩ := balance_proper hh hn hR' hD'.massSymm hD'.stiffSymm hD'.damping hD'.stiffness ha b |B|
  have hcont : ∀ i < N, ContinuousOn (fun v : Fin (N + 1) → ℝ => baseR S Ub base h Nt tol (Spec.ext v) i) {v | Within lam0 lam1 (some y) δ (v (Fin.last _))} := fun i hi v hv =>
    (continuousAt_of_grad (F := fun X => baseR S Ub base h Nt tol X i) (hs.deriv v (ha.trans_le (hwa _ hv)) i hi)).continuousWithinAt
  refine isCompact_of_isClosed_isBounded ?_ ?_
  · have hcl : IsClosed {v : Fin (N + 1) → ℝ | Within lam0 lam1 (some y) δ (v (Fin.last _))} :=
      (within_closed lam0 lam1 (some y) δ).preimage (f := fun v : Fin (N + 1) → ℝ => v (Fin.last _)) (continuous_apply _)
    have e : solutions N (baseR S Ub base h Nt tol) lam0 lam1 (some y) δ
        = {v | Within lam0 lam1 (some y) δ (v (Fin.last _))} ∩ (⋂ i : Fin N, {v | Within lam0 lam1 (some y) δ (v (Fin.last _))} ∩
          (fun v : Fin (N + 1) → ℝ => baseR S Ub base h Nt tol (Spec.ext v) i) ⁻¹' {0}) := by
      ext1 v
      simp only [mem_inter_iff, mem_iInter, mem_preimage, mem_singleton_iff]
      constructor
      · rintro ⟨h1, h2⟩
        exact ⟨h2, fun i => ⟨h2, h1 i i.2⟩⟩
      · rintro ⟨h1, h2⟩
        exact ⟨fun i hi => (h2 ⟨i, hi⟩).2, h1⟩
    rw [e]
    exact hcl.inter (isClosed_iInter fun i => (hcont i i.2).preimage_isClosed_of_isClosed hcl isClosed_singleton)
  · refine (isBounded_iff_subset_closedBall 0).2 ⟨max |B'| |b|, fun v hv => ?_⟩
    have hw := hwa _ hv.2
    have hwb : v (Fin.last _) ≤ b := hb hv.2
    have hsol := (baseSolution_iff (w := v (Fin.last _)) hh hR (by rw [← hN, ext_last])).1 ((base_solves hh hR (Spec.ext v)).2 hv.1)
    rw [mem_closedBall_zero_iff, pi_norm_le_iff_of_nonneg ((abs_nonneg _).trans (le_max_left _ _))]
    intro j
    rw [Real.norm_eq_abs]
    rcases Nat.lt_or_ge (j : ℕ) N with hj | hj
    · have h1 := hB' _ hw hwb (sl 0 L (freeVec S.nd L base (Spec.ext v))) (fun i hi => by
        have hi : i < L := hi
        rw [hsol i hi]
        split
        · rw [abs_zero]; exact abs_nonneg _
        · rw [abs_neg]; exact (hB _ hw hwb i hi).trans (le_abs_self _)) (freeAt S base h j) (freeAt_lt hj)
      rw [sl_zero (freeAt_lt hj), freeVec, if_neg (freeAt_free S base h j), count_freeAt] at h1
      have e : Spec.ext v j = v j := by simp [Spec.ext, hj.le]
      rw [e] at h1
      exact h1.trans ((le_abs_self _).trans (le_max_left _ _))
    · have : j = Fin.last _ := Fin.ext (by have := j.2; simp; omega)
      rw [this]
      have : |v (Fin.last N)| ≤ |b| := by rw [abs_of_pos (ha.trans_le hw)]; exact hwb.trans (le_abs_self _)
      exact this.trans (le_max_right _ _)

/-- C157: a continuation over the frequency of a structure shaken at its base stores, at every frequency it stops at, the response of that frequency up to
`η`, moves on by a least amount with every step and passes the last frequency, if the base moves the rest of the structure at every frequency. -/
theorem C157_sweep (hh : Admissible h) (hNt : ∀ k ∈ h, 2 * k + 1 < Nt) (heven : Even Nt) (hD : DampedFree S base h) (hS : ∀ f ∈ S.forces, IsDashpot S.nd f)
    (hZ : ∀ Uw : ℕ → ℝ, 0 < Uw (nFree S.nd (numCoeff h * S.nd) base) → (∀ k < nFree S.nd (numCoeff h * S.nd) base, Uw k = 0) → ¬ BaseSolution S Ub base h Nt tol Uw)
    (h1 : 0 < lam1) (hlam : lam0 ≠ lam1) (hy : 0 < y) (hy0 : y < lam0)
    {U0 : ℕ → ℝ} (hU0l : U0 (nFree S.nd (numCoeff h * S.nd) base) = lam0) (hU0 : BaseSolution S Ub base h Nt tol U0)
    {obj : ContObj} {r b η inf : ℝ} {L : ℕ → Type} {lin : ℕ → (ℕ → ℕ → ℝ) → (ℕ → ℝ) → Except Err (ℕ → ℝ)}
    {fac : (n : ℕ) → Matrix (Fin n) (Fin n) ℝ → L n} {sol : (n : ℕ) → L n → (Fin n → ℝ) → (Fin n → ℝ)}
    (hC : ∀ i ≤ nFree S.nd (numCoeff h * S.nd) base, 0 < (contPrepare obj).CtoP i) (hr : (contPrepare obj).RPtoC = .vector fun _ => r) (hr0 : r ≠ 0)
    (hb : 0 < b) (hb1 : b < 1) (hlin : LinOk lin) (hsol : ∀ n, ExactSolve (fac n) (sol n)) (hη : 0 < η) :
    ∃ s0 > 0, ∃ t0 > 0, ∃ c > 0, ∃ p > 0, ∃ r0 > 0, ∀ smin > 0, ∀ t > 0, t ≤ t0 → t ≤ c * smin → ∃ M, ∀ om, PlainNewton om → M ≤ om.maxSteps →
      ∀ (cfg : ContCfg) (rest : List ℝ), cfg.corrector = .ortho → cfg.dynamicCtoP = false → cfg.fracLamList = b :: rest → cfg.backtrackStop = some y →
      smin ≤ cfg.dsmin → smin ≤ cfg.dsmax → cfg.dsmax ≤ s0 → smin ≤ cfg.ds0 → cfg.ds0 ≤ s0 → |lam1 - lam0| ≤ p * smin * (cfg.maxSteps - 1) →
      ∀ XlamP0 : ℕ → ℝ, (∀ i < nFree S.nd (numCoeff h * S.nd) base, |XlamP0 i - U0 i| < r0) → ∀ fuel > cfg.maxSteps,
      ∃ res, continuation (ompContSolver lin inf fac sol om (some t)) (nFree S.nd (numCoeff h * S.nd) base) cfg obj (baseFun S Ub base h Nt tol) XlamP0 lam0 lam1 fuel = .ok res ∧
        res.ok = true ∧ 0 < res.n ∧
        (∀ k < res.n, 0 < res.rows k (nFree S.nd (numCoeff h * S.nd) base) ∧
          ∀ Uw, Uw (nFree S.nd (numCoeff h * S.nd) base) = res.rows k (nFree S.nd (numCoeff h * S.nd) base) → BaseSolution S Ub base h Nt tol Uw →
          ∀ j < nFree S.nd (numCoeff h * S.nd) base, |res.rows k j - Uw j| < η) ∧
        (∀ k, k + 1 < res.n → p * smin ≤ (if lam0 < lam1 then 1 else -1) *
          (res.rows (k + 1) (nFree S.nd (numCoeff h * S.nd) base) - res.rows k (nFree S.nd (numCoeff h * S.nd) base))) ∧
        res.rows 0 (nFree S.nd (numCoeff h * S.nd) base) = lam0 ∧ (∀ k, k + 1 < res.n → Ahead lam0 lam1 (res.rows k (nFree S.nd (numCoeff h * S.nd) base))) ∧
        ¬ Ahead lam0 lam1 (res.rows (res.n - 1) (nFree S.nd (numCoeff h * S.nd) base)) := by
  obtain ⟨n, hn⟩ := exists_bound h
  have hR : ∀ f ∈ S.forces, Resists S.nd n h Nt tol f := fun f hf => dashpot_resists (tol := tol) hh hn hNt heven (hS f hf)
  have hs := base_smooth (base := base) (Ub := Ub) hh hR
  set N := nFree S.nd (numCoeff h * S.nd) base with hN
  set δ : ℝ := min (lam0 - y) lam1 / 2 with hδd
  have hδ : 0 < δ := half_pos (lt_min (by linarith) h1)
  have hwa : ∀ w, Within lam0 lam1 (some y) δ w → δ ≤ w := fun w hw => by
    have a1 := min_le_left (lam0 - y) lam1
    have a2 := min_le_right (lam0 - y) lam1
    rcases lt_or_gt_of_ne hlam with hl | hl
    · linarith [(hw.2.2 y rfl).1 hl]
    · linarith [hw.2.1 hl]
  have hreg : ∀ X : ℕ → ℝ, 0 < X N → Regular N (baseJ S Ub base h Nt tol X) := fun X hX => by
    obtain ⟨R, J, d, e1, e2⟩ := C157_no_fold (tol := tol) hh hNt heven hD hS Ub X hX
    rw [baseRes_val hh hR] at e1
    have e3 : baseJ S Ub base h Nt tol X = J := congrArg (fun o => o.2.1) (Except.ok.inj e1)
    rw [e3]
    exact e2
  have hval : ∀ a U, SolvesAt N (baseR S Ub base h Nt tol) a U ↔ BaseSolution S Ub base h Nt tol fun k => if k < N then U k else a := fun a U => (base_solves hh hR _).symm
  have hsame : ∀ {U V : ℕ → ℝ}, (∀ k < N + 1, U k = V k) → BaseSolution S Ub base h Nt tol U → BaseSolution S Ub base h Nt tol V := fun {U V} hUV hU => by
    have e := hs.local' U V hUV
    rw [hs.value, hs.value] at e
    injection e with e
    injection e with e _ _
    rw [base_solves hh hR] at hU ⊢
    rwa [← e]
  have hK : RegularSolutions N (baseR S Ub base h Nt tol) (baseJ S Ub base h Nt tol) (baseD S Ub base h Nt tol) {v | 0 < v (Fin.last _)} lam0 lam1 (some y) δ :=
    { compact := base_compact hh hn hR hD hlam hδ hwa
      inside := fun v hv => hδ.trans_le (hwa _ hv.2)
      curve := fun v hv => curve_of_regular (hreg _ (by rw [ext_last]; exact hδ.trans_le (hwa _ hv.2)))
      nonzero := fun v hv => by
        by_contra hc
        push Not at hc
        exact hZ (Spec.ext v) (by rw [ext_last]; exact hδ.trans_le (hwa _ hv.2)) hc ((base_solves hh hR _).2 hv.1) }
  have huniq : ∀ a, Within lam0 lam1 (some y) δ a → ∀ U V, SolvesAt N (baseR S Ub base h Nt tol) a U → SolvesAt N (baseR S Ub base h Nt tol) a V →
      ∀ i < N, U i = V i := fun a ha U V hU hV i hi => by
    obtain ⟨W, -, -, hW⟩ := C157_solution (tol := tol) hh hNt heven hD hS Ub (hδ.trans_le (hwa _ ha))
    have e1 := hW _ (by simp [← hN]) ((hval a U).1 hU) i hi
    have e2 := hW _ (by simp [← hN]) ((hval a V).1 hV) i hi
    simp only [hi, if_true] at e1 e2
    rw [e1, e2]
  have hU0' : SolvesAt N (baseR S Ub base h Nt tol) lam0 U0 := (hval _ _).2 (hsame (fun k hk => by
    by_cases hkN : k < N
    · simp [hkN]
    · obtain rfl : k = N := by omega
      simp [hU0l]) hU0)
  obtain ⟨s0, hs0, t0, ht0, c, hc, p, hp, r0, hr0', H⟩ := C154_follows (inf := inf) hs hK hδ hlam
    (fun v hv => hreg _ (by rw [ext_last]; exact hδ.trans_le (hwa _ hv.2))) (fun z hz => by rwa [← Option.some.inj hz]) huniq hU0' hC hr hr0 hb hb1 hlin hsol hη
  refine ⟨s0, hs0, t0, ht0, c, hc, p, hp, r0, hr0', fun smin hsm t ht htt htc => ?_⟩
  obtain ⟨M, HM⟩ := H smin hsm t ht htt htc
  refine ⟨M, fun om hom hmM cfg rest c1 c2 c3 c4 c5 c6 c7 c8 c9 c10 XlamP0 hX fuel hf => ?_⟩
  obtain ⟨res, e1, e2, e3, e4, e5⟩ := HM om hom hmM cfg rest c1 c2 c3 c4 c5 c6 c7 c8 c9 c10 XlamP0 hX fuel hf
  refine ⟨res, e1, e2, e3, fun k hk => ⟨hδ.trans_le (hwa _ (e4 k hk).1), fun Uw hl hU => (e4 k hk).2 Uw ((hval _ _).2 (hsame (fun k' hk' => ?_) hU))⟩, e5⟩
  by_cases hkN : k' < N
  · simp [hkN]
  · obtain rfl : k' = N := by omega
    simp [hl]

theorem shaken_nFree : nFree shaken.nd (numCoeff [1] * shaken.nd) (fun d => d == 1) = 2 := by
  change nFree 2 (2 * 2) (fun d => d == 1) = 2
  decide

/-- The base moved by `cos τ` does not leave the mass at rest. -/
theorem shaken_moves (tol : ℝ) (Uw : ℕ → ℝ) (_ : 0 < Uw 2) (h0 : ∀ k < 2, Uw k = 0) : ¬ BaseSolution shaken (fun i => if i = 0 then 1 else 0) (fun d => d == 1) [1] 4 tol Uw := by
  have hh : Admissible [1] := ⟨by simp, by simp, by simp⟩
  have hR : ∀ f ∈ shaken.forces, Resists shaken.nd 1 [1] 4 tol f := fun f hf => dashpot_resists (tol := tol) hh (by simp) (by simp) ⟨2, rfl⟩ (by
    obtain rfl : f = _ := List.mem_singleton.1 hf
    exact C144_cubic 2 1 _ _ (fun _ _ => rfl) fun _ => zero_le_one)
  rw [base_solves hh hR]
  intro H
  have h1 := H 0 (by rw [shaken_nFree]; omega)
  have hat : freeAt shaken (fun d => d == 1) [1] 0 = 0 := by
    have := Nat.nth_count (p := fun i => ¬ baseMask shaken.nd (numCoeff [1] * shaken.nd) (fun d => d == 1) i) (n := 0) (by decide)
    simpa [freeAt] using this
  set F := baseFull shaken.nd (numCoeff [1] * shaken.nd) (fun d => d == 1) Uw (fun i => if i = 0 then 1 else 0) with hF
  have hX : sl 0 (numCoeff [1] * shaken.nd) F = fun i => if i = 1 then 1 else 0 := by
    change sl 0 4 F = _
    have hc : ∀ i < 4, F i = if i = 1 then 1 else 0 := fun i hi => by
      have b0 : ¬ baseMask shaken.nd (numCoeff [1] * shaken.nd) (fun d => d == 1) 0 := by decide
      have b1 : baseMask shaken.nd (numCoeff [1] * shaken.nd) (fun d => d == 1) 1 := by decide
      have b2 : ¬ baseMask shaken.nd (numCoeff [1] * shaken.nd) (fun d => d == 1) 2 := by decide
      have b3 : baseMask shaken.nd (numCoeff [1] * shaken.nd) (fun d => d == 1) 3 := by decide
      interval_cases i <;> simp only [hF, baseFull, b0, b1, b2, b3, Nat.count_succ, Nat.count_zero, if_true, if_false, not_true, not_false_eq_true] <;> norm_num [h0]
    funext i
    by_cases hi : i < 4
    · rw [sl_zero hi, hc i hi]
    · simp [sl, hi]; omega
  have hFw : F (numCoeff [1] * shaken.nd) = Uw 2 := by rw [hF, baseFull_last, shaken_nFree]
  set w := Uw 2 with hwd
  unfold baseR at h1
  rw [hat] at h1
  obtain ⟨c1, s1, c2, s2, c3, s3⟩ := samples4
  have one : ∀ x : ℝ, ((1:ℕ):ℝ) * x = x := fun x => by simp
  obtain ⟨o, g1, g2⟩ := C24_is_dft [1] hh 4 (by simp) ⟨2, rfl⟩ 2 1 (fun _ e => if e = 0 then 1 else -1) (fun e _ => if e = 0 then 1 else -1) (cubicDampingLoc fun _ => 1)
    (fun i => if i = 1 then 1 else 0) w
  have g1' : aftVal [1] 4 tol (cubicDampingNL 2 1 (fun _ e => if e = 0 then 1 else -1) (fun e _ => if e = 0 then 1 else -1) fun _ => 1) (fun i => if i = 1 then 1 else 0) w = o := by
    have : (cubicDampingNL 2 1 (fun _ e => if e = 0 then 1 else -1) (fun e _ => if e = 0 then 1 else -1) fun _ => 1).aft (fun i => if i = 1 then 1 else 0) w [1] 4 tol = .ok o := g1
    simp only [aftVal, this]
  have hl : ∀ d, localMotion 2 (fun _ e => if e = 0 then 1 else -1) [1] (fun i => if i = 1 then 1 else 0) d = fun τ => -1 * Real.cos τ := fun d => by
    funext τ
    simp [localMotion, series, Finset.sum_range_succ]
  have hd : ∀ d τ, deriv (localMotion 2 (fun _ e => if e = 0 then 1 else -1) [1] (fun i => if i = 1 then 1 else 0) d) τ = -1 * -Real.sin τ := fun d τ => by
    rw [hl]
    exact ((Real.hasDerivAt_cos τ).const_mul (-1)).deriv
  have h3 := g2 0 (by omega) 1 (by simp)
  simp only [dft, Finset.sum_range_succ, Finset.range_zero, Finset.sum_empty, zero_add, cubicDampingLoc, hd, one_mul, one, c1, s1, c2, s2, c3, s3, one_ne_zero, if_false] at h3
  simp [coefOf] at h3
  have hcos := hsE_mulVec_cos (nd := 2) shaken.M shaken.C shaken.K w (h := [1]) (by simp) (i := 0) (by simp [zi]) (d := 0) (by omega) (fun i => if i = 1 then 1 else 0) false
  have hg : hbmG shaken (aftVal [1] 4 tol) [1] F 0 = matVec 4 (hsE 2 shaken.M shaken.C shaken.K w [1] false) (fun i => if i = 1 then 1 else 0) 0 + o.F 0 := by
    unfold hbmG
    rw [hX, hFw, ← g1']
    simp [shaken]
    rfl
  rw [hg, h3.1] at h1
  have h4 := hcos.symm.trans ((add_zero _).symm.trans h1)
  simp [zi, Finset.sum_range_succ, shaken] at h4

/-- Example: the response of the mass while the frequency of the base motion `cos τ` grows from 1/2 past its resonance to 2. -/
example (tol : ℝ) : ∃ U0 : ℕ → ℝ, U0 2 = 1 / 2 ∧ BaseSolution shaken (fun i => if i = 0 then 1 else 0) (fun d => d == 1) [1] 4 tol U0 ∧
    ∃ s0 > 0, ∃ c > 0, ∃ p > (0 : ℝ), ∀ t > 0, t ≤ c → ∃ M, ∀ om, PlainNewton om → M ≤ om.maxSteps → ∀ n : ℕ, 3 / 2 ≤ p * (n - 1) →
    ∀ cfg : ContCfg, cfg.corrector = .ortho → cfg.dynamicCtoP = false → cfg.fracLamList = [1 / 2] → cfg.backtrackStop = some (1 / 4) → cfg.dsmin = s0 / 10 → cfg.dsmax = s0 →
      cfg.ds0 = s0 → cfg.maxSteps = n →
    ∃ res, continuation (ompContSolver exactLin 0 (fun _ => id) (fun _ D v => D⁻¹.mulVec v) om (some t)) 2 cfg ⟨fun _ => 1, .scalar 1, true, true, 1 / 2, 0⟩
      (baseFun shaken (fun i => if i = 0 then 1 else 0) (fun d => d == 1) [1] 4 tol) U0 (1 / 2) 2 (n + 1) = .ok res ∧ res.ok = true ∧
      2 ≤ res.rows (res.n - 1) 2 ∧
      ∀ k < res.n, ∀ Uw, Uw 2 = res.rows k 2 → BaseSolution shaken (fun i => if i = 0 then 1 else 0) (fun d => d == 1) [1] 4 tol Uw → ∀ j < 2, |res.rows k j - Uw j| < 1 / 1000 := by
  have hh : Admissible [1] := ⟨by simp, by simp, by simp⟩
  have hS : ∀ f ∈ shaken.forces, IsDashpot shaken.nd f := fun f hf => by
    obtain rfl : f = _ := List.mem_singleton.1 hf
    exact C144_cubic 2 1 _ _ (fun _ _ => rfl) fun _ => zero_le_one
  obtain ⟨U0, u1, u2, -⟩ := C157_solution (S := shaken) (base := fun d => d == 1) (h := [1]) (Nt := 4) (tol := tol) hh (by simp) ⟨2, rfl⟩ (shaken_damped _) hS
    (fun i => if i = 0 then 1 else 0) (w := 1 / 2) (by norm_num)
  have hsw := C157_sweep (S := shaken) (base := fun d => d == 1) (Ub := fun i => if i = 0 then 1 else 0) (h := [1]) (Nt := 4) (tol := tol)
    (lam0 := 1 / 2) (lam1 := 2) (y := 1 / 4) (inf := 0) (fac := fun _ => id) (sol := fun _ D v => D⁻¹.mulVec v) (r := 1) (b := 1 / 2) (η := 1 / 1000)
    (obj := ⟨fun _ => 1, .scalar 1, true, true, 1 / 2, 0⟩) hh (by simp) ⟨2, rfl⟩ (shaken_damped _) hS
    (by rw [shaken_nFree]; exact shaken_moves tol) (by norm_num) (by norm_num) (by norm_num) (by norm_num) u1 u2 (by intro i _; simp [contPrepare]) (by simp [contPrepare]) one_ne_zero
    (by norm_num) (by norm_num) exactLin_ok (fun _ => exactSolve_inv) (by norm_num)
  rw [shaken_nFree] at hsw u1
  obtain ⟨s0, hs0, t0, ht0, c, hc, p, hp, r0, hr0, H⟩ := hsw
  refine ⟨U0, u1, u2, s0, hs0, min t0 (c * (s0 / 10)), lt_min ht0 (by positivity), p * (s0 / 10), by positivity, fun t h1 h2 => ?_⟩
  obtain ⟨M, HM⟩ := H (s0 / 10) (by positivity) t h1 (h2.trans (min_le_left _ _)) (h2.trans (min_le_right _ _))
  refine ⟨M, fun om h3 h4 n hn cfg c1 c2 c3 c4 c5 c6 c7 c8 => ?_⟩
  obtain ⟨res, e1, e2, -, e4, e5, e6, -, e3⟩ := HM om h3 h4 cfg [] c1 c2 c3 c4 c5.ge (by rw [c6]; linarith) c6.le (by rw [c7]; linarith) c7.le
    (by rw [c8, abs_of_pos (by norm_num)]; linarith) U0 (fun i _ => by simpa using hr0) (n + 1) (by omega)
  refine ⟨res, e1, e2, ?_, fun k hk => (e4 k hk).2⟩
  by_contra hc'
  exact e3 (Or.inl ⟨by norm_num, not_le.1 hc'⟩)

end

end TMD
