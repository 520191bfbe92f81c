import Verif.Props.ShootingNear
import Verif.Props.ContinuationRun
import Verif.Lemmas.FlowDeriv
import Verif.Lemmas.HystLocal

/-!
# Property C150: the solver and the continuation on the shooting equations

The matrices returned by `shooting_res` depend continuously on the input, hence Newton's method finds the initial state of every
isolated periodic motion, and the continuation follows them.
-/

namespace TMD

open Spec Finset

noncomputable section

variable {ivp : SolveIvp} {S : VibSys} {Minv : ℕ → ℕ → ℝ} {Uw Fl : ℕ → ℝ} {Nt : ℕ} {r : ShootRes}
  {A : (ℕ → ℝ) → (ℕ → ℝ) × (ℕ → ℕ → ℝ)} {f : NLForce} {eigAbs : ℕ → (ℕ → ℕ → ℝ) → ℕ → ℝ} {y yd : ℕ → ℕ → ℝ} {st : Prop} {m : ℝ}

theorem shB'_continuous : Continuous (shB' S Minv Fl) := by
  refine continuous_pi fun i => ?_
  unfold shB' hcat
  split
  · exact continuous_const
  · unfold matVec
    fun_prop

/-- C150: the returned matrices are continuous at every input whose call reaches the end of the period. -/
theorem C150_continuous (hivp : ExactIvp ivp) (hS : S.forces = [f])
    (hA : ∀ U, f.force U = .ok (A U)) (hL : SmoothLaw S.nd (fun U => (A U).1) (fun U => (A U).2)) (hw : 0 < Uw (2 * S.nd)) (hNt : 0 < Nt)
    (h : shootingRes ivp S Minv Uw (2 * S.nd + 1) Fl Nt = .ok r) (hc : r.cols = Nt + 1) {ε : ℝ} (hε : 0 < ε) :
    ∃ δ > 0, ∀ X r', (∀ i < 2 * S.nd + 1, |X i - Uw i| < δ) → 0 < X (2 * S.nd) → shootingRes ivp S Minv X (2 * S.nd + 1) Fl Nt = .ok r' → r'.cols = Nt + 1 →
      ∀ i < 2 * S.nd, (∀ j < 2 * S.nd, |r'.dRdU i j - r.dRdU i j| ≤ ε) ∧ |r'.dRdw i - r.dRdw i| ≤ ε := by
  obtain ⟨Y, hY, -, hYU, hYw⟩ := shoot_curve hivp hS hA hw hNt h hc
  obtain ⟨hz0, hz⟩ := curve_parts hS hA hY
  have hBc : Continuous (shB S Minv Fl) := continuous_iff_continuousAt.2 fun θ => (shB_hasDerivAt θ).continuousAt
  have hAc : Continuous (shA S Minv A) := continuous_iff_continuousAt.2 fun z => (shA_hasFDerivAt (Minv := Minv) hS hA hL z).continuousAt
  obtain ⟨P0, P1⟩ := curve_Phi hS hA hY _ rfl
  obtain ⟨Z0, Z1⟩ := curve_zeta hS hA hY _ rfl
  set n := 2 * S.nd with hnd
  set w := Uw n with hwd
  set T := 2 * Real.pi / w with hT
  have near := fun {ε : ℝ} (κ : ℝ) (p : ℝ → Fin n → ℝ) hp (hε : 0 < ε) => flow_deriv_near (shA_hasFDerivAt (Minv := Minv) hS hA hL) (shA'_continuous hL) hBc (shB'_continuous (S := S) (Minv := Minv) (Fl := Fl)) hw (κ := κ) (p := p) hz hp hε
  choose δU hδU hU using fun j : Fin n => near 0 _ (fun t ht => by simpa using P1 (Pi.single j 1) t ht) hε
  -- the end point enters the derivative for the frequency
  set g : ℝ × (Fin n → ℝ) → Fin n → ℝ := fun q => (2 * Real.pi / q.1 ^ 2) • (shA S Minv A q.2 + shB S Minv Fl (2 * Real.pi)) with hg
  have hgc : ContinuousAt g (w, restr n (Y T)) := by
    have h1 : ContinuousAt (fun q : ℝ × (Fin n → ℝ) => 2 * Real.pi / q.1 ^ 2) (w, restr n (Y T)) :=
      continuousAt_const.div (continuousAt_fst.pow 2) (pow_ne_zero 2 hw.ne')
    exact h1.smul (((hAc.comp continuous_snd).add continuous_const).continuousAt)
  obtain ⟨η, hη, hgη⟩ := Metric.continuousAt_iff.1 hgc (ε / 2) (by positivity)
  obtain ⟨δw, hδw, hW⟩ := near 1 _ (fun t ht => by simpa using Z1 t ht) (lt_min (half_pos hε) (half_pos hη))
  obtain ⟨δ0, hδ0, hδ0'⟩ : ∃ δ0 > 0, ∀ j, δ0 ≤ δU j := by
    rcases isEmpty_or_nonempty (Fin n) with hemp | hne
    · exact ⟨1, one_pos, fun j => hemp.elim j⟩
    · obtain ⟨j0, hj0⟩ := Finite.exists_min δU
      exact ⟨δU j0, hδU j0, hj0⟩
  refine ⟨min δ0 (min δw η), by positivity, fun X r' hX hw' hr' hc' i hi => ?_⟩
  have hXw := (hX n (by omega))
  have hXv : ‖restr n X - restr n Uw‖ ≤ min δ0 (min δw η) := by
    rw [pi_norm_le_iff_of_nonneg (by positivity)]
    exact fun i => (hX i (by omega)).le
  obtain ⟨Y', hY', -, hYU', hYw'⟩ := shoot_curve hivp hS hA hw' hNt hr' hc'
  obtain ⟨hz0', hz'⟩ := curve_parts hS hA hY'
  obtain ⟨P0', P1'⟩ := curve_Phi hS hA hY' _ rfl
  obtain ⟨Z0', Z1'⟩ := curve_zeta hS hA hY' _ rfl
  have hst : ‖restr n (Y' 0) - restr n (Y 0)‖ ≤ min δ0 (min δw η) := by rw [hz0, hz0']; exact hXv
  constructor
  · intro j hj
    have := (hU ⟨j, hj⟩ (X n) hw' (hXw.le.trans ((min_le_left _ _).trans (hδ0' _))) _ _ (hst.trans ((min_le_left _ _).trans (hδ0' _)))
      ((P0' (Pi.single ⟨j, hj⟩ 1)).trans (P0 (Pi.single ⟨j, hj⟩ 1)).symm) hz' (fun t ht => by simpa using P1' (Pi.single ⟨j, hj⟩ 1) t ht)).1
    have hii := (norm_le_pi_norm _ (⟨i, hi⟩ : Fin n)).trans this
    simp only [Pi.sub_apply, row_apply, Pi.single_apply, mul_ite, mul_one, mul_zero, Finset.sum_ite_eq', Finset.mem_univ, if_true, Real.norm_eq_abs] at hii
    rw [hYU' i hi j hj, hYU i hi j hj]
    rwa [sub_sub_sub_cancel_right]
  · obtain ⟨k1, k2⟩ := hW (X n) hw' (hXw.le.trans ((min_le_right _ _).trans (min_le_left _ _))) _ _ (hst.trans ((min_le_right _ _).trans (min_le_left _ _)))
      (Z0'.trans Z0.symm) hz' (fun t ht => by simpa using Z1' t ht)
    have k3 := hgη (x := (X n, restr n (Y' (2 * Real.pi / X n)))) (by
      rw [Prod.dist_eq, max_lt_iff, Real.dist_eq, dist_eq_norm]
      exact ⟨hXw.trans_le ((min_le_right _ _).trans (min_le_right _ _)), (k2.trans (min_le_right _ _)).trans_lt (half_lt_self hη)⟩)
    rw [dist_eq_norm] at k3
    have a1 := (norm_le_pi_norm _ (⟨i, hi⟩ : Fin n)).trans (k1.trans (min_le_left _ _))
    have a2 := (norm_le_pi_norm _ (⟨i, hi⟩ : Fin n)).trans k3.le
    have b1 := hYw ⟨i, hi⟩
    have b2 := hYw' ⟨i, hi⟩
    simp only [Pi.sub_apply, hg, Pi.smul_apply, Pi.add_apply, smul_eq_mul, Real.norm_eq_abs] at a1 a2 b1 b2
    rw [b1, b2]
    rw [abs_le] at a1 a2 ⊢
    constructor <;> linarith [a1.1, a1.2, a2.1, a2.2]

/-- The function handed to the solver for a given frequency, `lambda U : vib_sys.shooting_res(np.hstack((U, w)), Fl, Nt)[:2]`; the frequency is
the last entry of `Uw`. -/
def shootSolve (ivp : SolveIvp) (S : VibSys) (Minv : ℕ → ℕ → ℝ) (Uw Fl : ℕ → ℝ) (Nt : ℕ) : SolveFun (Fin (2 * S.nd) → ℝ) (Matrix (Fin (2 * S.nd)) (Fin (2 * S.nd)) ℝ) :=
  fun X _ => match shootingRes ivp S Minv (withState (2 * S.nd) Uw X) (2 * S.nd + 1) Fl Nt with
    | .error e => .error e
    | .ok r => .ok (fun i => r.R i, fun i j => r.dRdU i j)

theorem withState_close {n : ℕ} {Uw : ℕ → ℝ} {z z' : Fin n → ℝ} {δ : ℝ} (hδ : 0 < δ) (h : ‖z' - z‖ < δ) : ∀ i < n + 1, |withState n Uw z' i - withState n Uw z i| < δ := fun i _ => by
  by_cases c : i < n
  · simpa [withState, c] using (norm_le_pi_norm (z' - z) ⟨i, c⟩).trans_lt h
  · simpa [withState, c] using hδ

/-- Gradients for some of the entries. -/
theorem hasGrad_fewer {n : ℕ} {F : (ℕ → ℝ) → ℝ} {g x : ℕ → ℝ} (h : HasGrad (n + 1) F g x) : HasFDerivAt (fun z : Fin n → ℝ => F (withState n x z)) (row n g) (restr n x) := by
  unfold HasGrad at h
  set L : (Fin n → ℝ) →L[ℝ] (Fin (n + 1) → ℝ) := ContinuousLinearMap.pi fun i : Fin (n + 1) =>
    if hi : (i : ℕ) < n then ContinuousLinearMap.proj (R := ℝ) (φ := fun _ : Fin n => ℝ) ⟨i, hi⟩ else 0 with hLd
  have hL : HasFDerivAt (fun z : Fin n → ℝ => L (z - restr n x)) L (restr n x) := by
    have h1 : HasFDerivAt (fun z : Fin n → ℝ => z - restr n x) (ContinuousLinearMap.id ℝ (Fin n → ℝ)) (restr n x) := (hasFDerivAt_id _).sub_const _
    exact HasFDerivAt.comp (g := L) (f := fun z : Fin n → ℝ => z - restr n x) (restr n x) L.hasFDerivAt h1
  have h0 : L (restr n x - restr n x) = 0 := by simp
  have hc : HasFDerivAt (fun z : Fin n → ℝ => F fun i => x i + ext (L (z - restr n x)) i) ((row (n + 1) g).comp L) (restr n x) := by
    rw [← h0] at h
    exact HasFDerivAt.comp (restr n x) h hL
  have e : (row (n + 1) g).comp L = row n g := by
    ext1 v
    rw [ContinuousLinearMap.comp_apply, row_apply, row_apply, Fin.sum_univ_castSucc]
    simp [hLd]
  rw [e] at hc
  refine hc.congr_of_eventuallyEq (Filter.Eventually.of_forall fun z => congrArg F ?_)
  funext i
  by_cases c : i < n
  · simp [withState, c, Spec.ext, hLd, restr, show i < n + 1 by omega]
  · by_cases c2 : i < n + 1
    · simp [withState, c, Spec.ext, hLd, c2]
    · simp [withState, c, Spec.ext, c2]

/-- C150: near the initial state of a periodic motion with invertible returned matrix, Newton's method at the given frequency succeeds for
every tolerance, and the returned state is closer to the initial state than the tolerance. -/
theorem C150_newton {L : Type} {inf : ℝ} {fac : Matrix (Fin (2 * S.nd)) (Fin (2 * S.nd)) ℝ → L} {sol : L → (Fin (2 * S.nd) → ℝ) → Fin (2 * S.nd) → ℝ}
    (hsol : ExactSolve fac sol) (hivp : ExactIvp ivp) (htot : TotalIvp ivp) (hS : S.forces = [f]) (hft : f.ftype = 0)
    (hA : ∀ U, f.force U = .ok (A U)) (hL : SmoothLaw S.nd (fun U => (A U).1) (fun U => (A U).2)) (hw : 0 < Uw (2 * S.nd)) (hNt : 0 < Nt)
    (h : shootingRes ivp S Minv Uw (2 * S.nd + 1) Fl Nt = .ok r) (hc : r.cols = Nt + 1) (hR : ∀ i < 2 * S.nd, r.R i = 0) (hreg : Regular (2 * S.nd) r.dRdU) :
    ∃ ρ > 0, ∀ t > 0, ∃ K, ∀ c, PlainNewton c → K ≤ c.maxSteps → ∀ X0, (∀ i : Fin (2 * S.nd), |X0 i - Uw i| < ρ) → ∀ xtol,
      effectiveXtol (realArith (2 * S.nd) inf fac sol) c X0 xtol = t →
        ∃ res, nsolveOMP (realArith (2 * S.nd) inf fac sol) c (shootSolve ivp S Minv Uw Fl Nt) X0 xtol = (.ok res, c) ∧ res.success = true ∧
          ∀ i : Fin (2 * S.nd), |res.X i - Uw i| < t := by
  obtain ⟨δ, hδ, res, h0, hn⟩ := C149_near hivp htot hS hft hA hL hw hNt h hc
  have hself : withState (2 * S.nd) Uw (restr (2 * S.nd) Uw) = Uw := withState_self (2 * S.nd) Uw
  have hwn : ∀ z, withState (2 * S.nd) Uw z (2 * S.nd) = Uw (2 * S.nd) := fun z => by simp [withState]
  have hres : ∀ z : Fin (2 * S.nd) → ℝ, ‖z - restr (2 * S.nd) Uw‖ < δ → shootingRes ivp S Minv (withState (2 * S.nd) Uw z) ((2 * S.nd) + 1) Fl Nt = .ok (res (withState (2 * S.nd) Uw z)) ∧ (res (withState (2 * S.nd) Uw z)).cols = Nt + 1 := fun z hz => by
    refine (hn _ fun i hi => ?_).2
    have := withState_close (Uw := Uw) hδ hz i hi
    rwa [hself] at this
  have hball : ∀ᶠ z in nhds (restr (2 * S.nd) Uw), ‖z - restr (2 * S.nd) Uw‖ < δ := by
    filter_upwards [Metric.ball_mem_nhds (restr (2 * S.nd) Uw) hδ] with z hz
    rwa [mem_ball_iff_norm] at hz
  obtain ⟨ρ, hρ, H⟩ := C130_converges (inf := inf) (x := restr (2 * S.nd) Uw) (f := shootSolve ivp S Minv Uw Fl Nt) (F := fun z => restr (2 * S.nd) (res (withState (2 * S.nd) Uw z)).R)
    (J := fun z i j => (res (withState (2 * S.nd) Uw z)).dRdU i j) hsol (by
      filter_upwards [hball] with z hz
      have := (hres z hz).1
      simp only [shootSolve]
      rw [this]
      rfl) (by
      filter_upwards [hball] with z hz
      obtain ⟨g1, g2⟩ := hres z hz
      have hw' : 0 < withState (2 * S.nd) Uw z (2 * S.nd) := by rw [hwn]; exact hw
      have hd : 0 < δ - ‖z - restr (2 * S.nd) Uw‖ := sub_pos.2 hz
      have hj := C75_jacobian hivp hS hA hL hw' hNt res (δ - ‖z - restr (2 * S.nd) Uw‖) hd fun X hX => by
        refine (hn X fun i hi => ?_).2
        have h1 := hX i hi
        have h2 : |withState (2 * S.nd) Uw z i - Uw i| ≤ ‖z - restr (2 * S.nd) Uw‖ := by
          by_cases c : i < (2 * S.nd)
          · simpa [withState, c, restr] using norm_le_pi_norm (z - restr (2 * S.nd) Uw) ⟨i, c⟩
          · simp [withState, c]
        have := abs_sub_le (X i) (withState (2 * S.nd) Uw z i) (Uw i)
        linarith
      rw [hasFDerivAt_pi']
      intro i
      have := hasGrad_fewer (hj i i.2)
      have e : ∀ z', withState (2 * S.nd) (withState (2 * S.nd) Uw z) z' = withState (2 * S.nd) Uw z' := fun z' => by
        funext k
        by_cases c : k < (2 * S.nd) <;> simp [withState, c]
      rw [restr_withState] at this
      simp only [e] at this
      refine this.congr_fderiv ?_
      ext1 v
      rw [row_apply]
      simp
      rfl) (by
      refine continuousAt_pi.2 fun i => continuousAt_pi.2 fun j => ?_
      rw [Metric.continuousAt_iff]
      intro ε hε
      obtain ⟨δ1, hδ1, hcon⟩ := C150_continuous hivp hS hA hL hw hNt h hc (half_pos hε)
      refine ⟨min δ δ1, lt_min hδ hδ1, fun z hz => ?_⟩
      rw [dist_eq_norm] at hz
      obtain ⟨g1, g2⟩ := hres z (hz.trans_le (min_le_left _ _))
      have := (hcon _ _ (fun k hk => by
        have := withState_close (Uw := Uw) hδ1 (hz.trans_le (min_le_right _ _)) k hk
        rwa [hself] at this) (by rw [hwn]; exact hw) g1 g2 i i.2).1 j j.2
      rw [hself, h0, Real.dist_eq]
      linarith) (by
      funext i
      simp only [hself, h0, restr]
      exact hR i i.2) (by
      simp only [hself, h0]
      exact IsUnit.mk0 _ ((regular_iff_det r.dRdU).1 hreg))
  refine ⟨ρ, hρ, fun t ht => ?_⟩
  obtain ⟨K, hK⟩ := H t ht
  refine ⟨K, fun c hc hm X0 hX xtol hx => ?_⟩
  obtain ⟨rr, e1, e2, e3⟩ := hK c hc hm X0 ((pi_norm_lt_iff hρ).2 fun i => hX i) xtol hx
  exact ⟨rr, e1, e2, fun i => (norm_le_pi_norm _ i).trans_lt e3⟩

/-- C150: a number below one returned by `time_stability` makes the matrix invertible; more generally it is invertible exactly if one is
not an eigenvalue of the returned monodromy matrix. -/
theorem C150_regular (h : shootingRes ivp S Minv Uw (2 * S.nd + 1) Fl Nt = .ok r) : Regular (2 * S.nd) r.dRdU ↔ ¬ Eigen (2 * S.nd) r.monodromy 1 := by
  have hm : ∀ i j, r.dRdU i j = r.monodromy i j - if i = j then 1 else 0 := by
    obtain ⟨-, o, Yd, -, -, -, rfl⟩ := shootingRes_ok h
    exact fun _ _ => rfl
  have hsum : ∀ (v : ℕ → ℝ), ∀ i < 2 * S.nd, ∑ j ∈ range (2 * S.nd), r.dRdU i j * v j = ∑ j ∈ range (2 * S.nd), r.monodromy i j * v j - v i := fun v i hi => by
    simp only [hm, sub_mul, sum_sub_distrib, ite_mul, one_mul, zero_mul, sum_ite_eq, mem_range, hi, if_true]
  constructor
  · rintro hreg ⟨v, ⟨i, hi, hne⟩, hv⟩
    have part : ∀ g : ℂ →ₗ[ℝ] ℝ, g (v i) = 0 := fun g => by
      refine hreg (fun j => g (v j)) (fun k hk => ?_) i hi
      rw [hsum _ k hk]
      have := congrArg g (hv k hk)
      simp only [one_mul, map_sum, ← Complex.real_smul, map_smul, smul_eq_mul] at this
      rw [this, sub_self]
    exact hne (Complex.ext (part Complex.reLm) (part Complex.imLm))
  · intro hne v hv
    by_contra hcon
    push Not at hcon
    obtain ⟨j, hj, hvj⟩ := hcon
    refine hne ⟨fun k => v k, ⟨j, hj, fun h0 => hvj (Complex.ofReal_eq_zero.1 h0)⟩, fun i hi => ?_⟩
    have := hv i hi
    rw [hsum v i hi, sub_eq_zero] at this
    rw [one_mul]
    beta_reduce
    rw [← this]
    simp only [Complex.ofReal_sum, Complex.ofReal_mul]

/-- C150: so Newton's method finds every periodic motion that `time_stability` reports with a number below one. -/
theorem C150_stable (he : EigAbs eigAbs) (h : shootingRes ivp S Minv Uw (2 * S.nd + 1) Fl Nt = .ok r)
    (hts : timeStability ivp eigAbs S Minv Uw (2 * S.nd + 1) Fl Nt = .ok (y, yd, st, m)) (hm : m < 1) : Regular (2 * S.nd) r.dRdU := by
  obtain ⟨r', hr', -, hmax, -⟩ := C88_max he hts
  obtain rfl : r' = r := Except.ok.inj (hr'.symm.trans h)
  refine (C150_regular h).2 fun h1 => ?_
  have := hmax 1 h1
  rw [norm_one] at this
  linarith

/-- An array with `n` entries. -/
def firstEntries (n : ℕ) (X : ℕ → ℝ) : ℕ → ℝ := fun i => if i < n then X i else 0

theorem firstEntries_ext {n : ℕ} (v : Fin n → ℝ) : firstEntries n (Spec.ext v) = Spec.ext v := by
  funext i
  by_cases c : i < n <;> simp [firstEntries, Spec.ext, c]

/-- The function handed to the continuation, `lambda Uw : vib_sys.shooting_res(Uw, Fl_shoot)`, examples/sdof_duffing.py:177. The gradients are always returned. -/
def shootFun (ivp : SolveIvp) (S : VibSys) (Minv : ℕ → ℕ → ℝ) (Fl : ℕ → ℝ) (Nt : ℕ) : ContFun := fun X _ =>
  match shootingRes ivp S Minv (firstEntries (2 * S.nd + 1) X) (2 * S.nd + 1) Fl Nt with
  | .error e => .error e
  | .ok r => .ok ⟨r.R, r.dRdU, r.dRdw⟩

/-- C150: the inputs with positive frequency whose calls reach the end of the period form an open set, the returned matrices are the
derivatives of the residual there, and they are continuous. The calls do not raise errors (`hall`); see `C150_exact`. -/
theorem C150_smooth (hivp : ExactIvp ivp) (htot : TotalIvp ivp) (hS : S.forces = [f]) (hft : f.ftype = 0)
    (hA : ∀ U, f.force U = .ok (A U)) (hL : SmoothLaw S.nd (fun U => (A U).1) (fun U => (A U).2)) (hNt : 0 < Nt)
    {res : (ℕ → ℝ) → ShootRes} (hall : ∀ X, shootingRes ivp S Minv (firstEntries (2 * S.nd + 1) X) (2 * S.nd + 1) Fl Nt = .ok (res X)) :
    SmoothIn (2 * S.nd) (shootFun ivp S Minv Fl Nt) (fun X => (res X).R) (fun X => (res X).dRdU) (fun X => (res X).dRdw)
      {v | 0 < v (Fin.last (2 * S.nd)) ∧ (res (Spec.ext v)).cols = Nt + 1} := by
  have hlast : ∀ v : Fin (2 * S.nd + 1) → ℝ, Spec.ext v (2 * S.nd) = v (Fin.last (2 * S.nd)) := fun v => by simp [Spec.ext, Fin.last]
  have hext : ∀ v : Fin (2 * S.nd + 1) → ℝ, shootingRes ivp S Minv (Spec.ext v) (2 * S.nd + 1) Fl Nt = .ok (res (Spec.ext v)) := fun v => by
    have := hall (Spec.ext v)
    rwa [firstEntries_ext] at this
  have hcl : ∀ {v v' : Fin (2 * S.nd + 1) → ℝ} {δ : ℝ}, ‖v' - v‖ < δ → ∀ i < 2 * S.nd + 1, |Spec.ext v' i - Spec.ext v i| < δ := fun {v v' δ} h i hi => by
    simpa [Spec.ext, hi] using (norm_le_pi_norm (v' - v) ⟨i, hi⟩).trans_lt h
  constructor
  · intro X
    simp only [shootFun, hall]
  · intro X Y h
    have : firstEntries (2 * S.nd + 1) X = firstEntries (2 * S.nd + 1) Y := by
      funext i
      by_cases c : i < 2 * S.nd + 1
      · simp [firstEntries, c, h i c]
      · simp [firstEntries, c]
    simp only [shootFun, this]
  · rw [Metric.isOpen_iff]
    rintro v ⟨hv1, hv2⟩
    obtain ⟨δ, hδ, res', -, hn⟩ := C149_near hivp htot hS hft hA hL (by rw [hlast]; exact hv1) hNt (hext v) hv2
    refine ⟨δ, hδ, fun v' hv' => ?_⟩
    rw [mem_ball_iff_norm] at hv'
    obtain ⟨g1, g2, g3⟩ := hn _ (hcl hv')
    rw [hlast] at g1
    exact ⟨g1, by rw [Except.ok.inj ((hext v').symm.trans g2)]; exact g3⟩
  · rintro v ⟨hv1, hv2⟩
    obtain ⟨δ, hδ, res', h0, hn, hj⟩ := C149_jacobian hivp htot hS hft hA hL (by rw [hlast]; exact hv1) hNt (hext v) hv2
    intro i hi
    have := hj i hi
    refine hasGrad_near this ?_
    filter_upwards [Metric.ball_mem_nhds (0 : Fin (2 * S.nd + 1) → ℝ) hδ] with u hu
    rw [mem_ball_zero_iff] at hu
    have e : (fun i => Spec.ext v i + Spec.ext u i) = Spec.ext (v + u) := by
      funext i
      by_cases c : i < 2 * S.nd + 1 <;> simp [Spec.ext, c]
    simp only [e]
    have g := (hn (Spec.ext (v + u)) (hcl (by simpa using hu))).1
    rw [Except.ok.inj ((hext (v + u)).symm.trans g)]
  · rintro i hi j hj v ⟨hv1, hv2⟩
    refine ContinuousAt.continuousWithinAt (?_ : ContinuousAt _ v)
    have hw : 0 < Spec.ext v (2 * S.nd) := by rw [hlast]; exact hv1
    obtain ⟨δ, hδ, res', -, hn⟩ := C149_near hivp htot hS hft hA hL hw hNt (hext v) hv2
    rw [Metric.continuousAt_iff]
    intro ε hε
    obtain ⟨δ1, hδ1, hcon⟩ := C150_continuous hivp hS hA hL hw hNt (hext v) hv2 (half_pos hε)
    refine ⟨min δ δ1, lt_min hδ hδ1, fun v' hv' => ?_⟩
    rw [dist_eq_norm] at hv'
    obtain ⟨g1, g2, g3⟩ := hn _ (hcl (hv'.trans_le (min_le_left _ _)))
    obtain ⟨a1, a2⟩ := hcon _ _ (hcl (hv'.trans_le (min_le_right _ _))) g1 (hext v') (by rw [Except.ok.inj ((hext v').symm.trans g2)]; exact g3) i hi
    rw [Real.dist_eq]
    unfold fullJac
    split
    · rename_i c
      linarith [a1 j c]
    · linarith

/-- C150: with the integrator without error no call raises an error. -/
theorem C150_exact (hS : S.forces = [f]) (hft : f.ftype = 0) (hA : ∀ U, f.force U = .ok (A U)) (X : ℕ → ℝ) :
    ∃ r, shootingRes exactIvp S Minv X (2 * S.nd + 1) Fl Nt = .ok r := by
  have hcols : ∃ o, exactIvp (shootField S Minv Fl (X (2 * S.nd))) (2 * Real.pi / X (2 * S.nd)) (shootLen S.nd) (shootInit S.nd X) Nt = .ok o ∧ o.cols ≠ 0 := by
    have h0 : ∃ y, IsSol (shootLen S.nd) (shootField S Minv Fl (X (2 * S.nd))) ((0 : ℕ) * (2 * Real.pi / X (2 * S.nd)) / Nt) (shootInit S.nd X) y := by
      refine ⟨fun _ => shootInit S.nd X, fun _ _ => rfl, fun t ht => ?_⟩
      obtain ⟨d, hd, -⟩ := shootField_ok (Minv := Minv) (Fl := Fl) hS hA (X (2 * S.nd)) t (shootInit S.nd X)
      refine ⟨d, hd, fun i _ => ?_⟩
      simp only [Nat.cast_zero, zero_mul, zero_div, Set.Icc_self, Set.mem_singleton_iff] at ht ⊢
      subst ht
      exact HasFDerivWithinAt.of_subsingleton Set.subsingleton_singleton
    unfold exactIvp
    rw [dif_pos h0]
    exact ⟨_, rfl, Nat.succ_ne_zero _⟩
  obtain ⟨o, ho, hne⟩ := hcols
  obtain ⟨r, hr, -⟩ := shootingRes_of_ivp hS hft hA ho hne
  exact ⟨r, hr⟩

/-- C150: continuation of shooting solutions in the frequency. If all periodic motions from the first frequency (less the allowed
backtracking) to the last are regular, a run that starts near one of them does not fail, and all its points are close to initial states
of periodic motions. -/
theorem C150_run {L : ℕ → Type} {lin : ℕ → (ℕ → ℕ → ℝ) → (ℕ → ℝ) → Except Err (ℕ → ℝ)} {inf : ℝ} {fac : (n : ℕ) → Matrix (Fin n) (Fin n) ℝ → L n}
    {sol : (n : ℕ) → L n → (Fin n → ℝ) → Fin n → ℝ} {lam0 lam1 δ b η : ℝ} {bs : Option ℝ}
    (hivp : ExactIvp ivp) (htot : TotalIvp ivp) (hM : IsInv S.nd S.M Minv) (hS : S.forces = [f]) (hft : f.ftype = 0)
    (hA : ∀ U, f.force U = .ok (A U)) (hL : SmoothLaw S.nd (fun U => (A U).1) (fun U => (A U).2)) (hNt : 0 < Nt)
    {res : (ℕ → ℝ) → ShootRes} (hall : ∀ X, shootingRes ivp S Minv (firstEntries (2 * S.nd + 1) X) (2 * S.nd + 1) Fl Nt = .ok (res X))
    (hK : RegularSolutions (2 * S.nd) (fun X => (res X).R) (fun X => (res X).dRdU) (fun X => (res X).dRdw)
      {v | 0 < v (Fin.last (2 * S.nd)) ∧ (res (Spec.ext v)).cols = Nt + 1} lam0 lam1 bs δ) (hδ : 0 < δ) (hlam : lam0 ≠ lam1)
    {x : Fin (2 * S.nd + 1) → ℝ} (hx : x ∈ solutions (2 * S.nd) (fun X => (res X).R) lam0 lam1 bs δ) (hx0 : x (Fin.last (2 * S.nd)) = lam0)
    (hreg : ¬ Eigen (2 * S.nd) (res (Spec.ext x)).monodromy 1)
    {obj : ContObj} {r : ℝ} (hC : ∀ i ≤ 2 * S.nd, 0 < (contPrepare obj).CtoP i) (hr : (contPrepare obj).RPtoC = .vector fun _ => r) (hr0 : r ≠ 0)
    (hb : 0 < b) (hb1 : b < 1) (hlin : LinOk lin) (hsol : ∀ n, ExactSolve (fac n) (sol n)) (hη : 0 < η) :
    ∃ s0 > 0, ∃ t0 > 0, ∃ r0 > 0, ∀ t > 0, t ≤ t0 → ∃ M, ∀ om, PlainNewton om → M ≤ om.maxSteps → ∀ (cfg : ContCfg) (rest : List ℝ),
      cfg.corrector = .ortho → cfg.dynamicCtoP = false → cfg.fracLamList = b :: rest → cfg.backtrackStop = bs → 0 < cfg.dsmin → 0 < cfg.dsmax → cfg.dsmax ≤ s0 →
      0 < cfg.ds0 → cfg.ds0 ≤ s0 → 0 < cfg.maxSteps → ∀ XlamP0 : ℕ → ℝ, (∀ i < 2 * S.nd, |XlamP0 i - Spec.ext x i| < r0) → ∀ fuel > cfg.maxSteps,
      ∃ out, continuation (ompContSolver lin inf fac sol om (some t)) (2 * S.nd) cfg obj (shootFun ivp S Minv Fl Nt) XlamP0 lam0 lam1 fuel = .ok out ∧ out.ok = true ∧ 0 < out.n ∧
        (∀ k < out.n, ∃ v : Fin (2 * S.nd + 1) → ℝ, (∀ j ≤ 2 * S.nd, |out.rows k j - Spec.ext v j| < η) ∧ 0 < v (Fin.last (2 * S.nd)) ∧
          ∃ u u', PeriodicMotion S.nd S.M S.C S.K (fun U => (A U).1) Fl (v (Fin.last (2 * S.nd))) (fun i => Spec.ext v i) (fun i => Spec.ext v (S.nd + i)) u u') ∧
        (out.n = cfg.maxSteps ∨ ¬ Ahead lam0 lam1 (out.rows (out.n - 1) (2 * S.nd)) ∨ ¬ NotBehind lam0 lam1 bs (out.rows (out.n - 1) (2 * S.nd))) := by
  have hext : ∀ v : Fin (2 * S.nd + 1) → ℝ, shootingRes ivp S Minv (Spec.ext v) (2 * S.nd + 1) Fl Nt = .ok (res (Spec.ext v)) := fun v => by
    have := hall (Spec.ext v)
    rwa [firstEntries_ext] at this
  obtain ⟨s0, hs0, t0, ht0, r0, hr0', H⟩ := C133_run (inf := inf) (C150_smooth hivp htot hS hft hA hL hNt hall) hK hδ hlam hx hx0 ((C150_regular (hext x)).2 hreg) hC hr hr0 hb hb1 hlin hsol hη
  refine ⟨s0, hs0, t0, ht0, r0, hr0', fun t htp htt => ?_⟩
  obtain ⟨M, HM⟩ := H t htp htt
  refine ⟨M, fun om hom hm cfg rest hcor hdyn hfl hbs hmin hmax hmax' hd0 hd0' hms XlamP0 hX fuel hfuel => ?_⟩
  obtain ⟨out, e1, e2, e3, e4, e5⟩ := HM om hom hm cfg rest hcor hdyn hfl hbs hmin hmax hmax' hd0 hd0' hms XlamP0 hX fuel hfuel
  refine ⟨out, e1, e2, e3, fun k hk => ?_, e5⟩
  obtain ⟨v, hv, hclose⟩ := e4 k hk
  obtain ⟨hw, hc⟩ := hK.inside hv
  have hlast : Spec.ext v (2 * S.nd) = v (Fin.last (2 * S.nd)) := by simp [Spec.ext, Fin.last]
  refine ⟨v, hclose, hw, ?_⟩
  have := (C75_periodic_partial hivp hM hS hA hL (by rw [hlast]; exact hw) hNt (hext v) hc).1 hv.1
  rwa [hlast] at this

/-- A damped oscillator with the spring force `-x + x³`, left alone: Newton's method on the shooting equations at frequency `1` finds the
buckled state `1` from all nearby states. -/
example (he : EigAbs eigAbs) :
    let S : VibSys := ⟨1, fun _ _ => 1, fun _ _ => -1, fun _ _ => 1, none, [cubicNL 1 1 (fun _ _ => 1) (fun _ _ => 1) fun _ => 1]⟩
    ∃ ρ > 0, ∃ K, ∀ X0 : Fin 2 → ℝ, |X0 0 - 1| < ρ → |X0 1| < ρ → ∃ res c,
      nsolveOMP (realArith 2 0 id fun D v => D⁻¹.mulVec v) { lsTol := 0, maxSteps := K } (shootSolve exactIvp S (fun _ _ => 1) (fun _ => 1) (fun _ => 0) 8) X0 (some (1 / 1000)) = (.ok res, c) ∧
        res.success = true ∧ |res.X 0 - 1| < 1 / 1000 ∧ |res.X 1| < 1 / 1000 := by
  intro S
  have hM : IsInv S.nd S.M fun _ _ => 1 := fun i hi j hj => by
    obtain rfl : i = 0 := by simpa [S] using hi
    obtain rfl : j = 0 := by simpa [S] using hj
    simp [S]
  have hA : ∀ U, (cubicNL 1 1 (fun _ _ => 1) (fun _ _ => 1) fun _ => 1).force U = .ok (cubicForce 1 1 (fun _ _ => 1) (fun _ _ => 1) (fun _ => 1) U) := fun _ => rfl
  have hL := smoothLaw_cubic 1 1 (fun _ _ => 1) (fun _ _ => 1) fun _ => 1
  have q1 : PosOn 1 fun _ _ => 1 := fun x hx => by
    obtain ⟨i, hi, hne⟩ := hx
    obtain rfl : i = 0 := by omega
    simpa [quadForm] using hne
  have hD : DampedSys S := ⟨fun _ _ _ _ => rfl, q1, fun _ _ _ _ => rfl, q1⟩
  have sy : ∀ B : ℕ → ℕ → ℝ, SymmOn 1 B := fun B i hi j hj => by
    obtain rfl : i = 0 := by omega
    obtain rfl : j = 0 := by omega
    rfl
  have hF : ∀ i < 2 * S.nd, (fun _ : ℕ => (0:ℝ)) i = 0 := fun _ _ => rfl
  set Uw : ℕ → ℝ := fun i => if i = 1 then 0 else 1 with hUw
  have hV : ∀ i < S.nd, Uw (S.nd + i) = 0 := fun i hi => by
    obtain rfl : i = 0 := by simpa [S] using hi
    simp [S, hUw]
  have hE : ∀ i < S.nd, ∑ j ∈ range S.nd, S.K i j * Uw j + (cubicForce 1 1 (fun _ _ => 1) (fun _ _ => 1) (fun _ => 1) Uw).1 i = 0 := fun i hi => by
    obtain rfl : i = 0 := by simpa [S] using hi
    simp [S, cubicForce, matVec, hUw]
  have hw : (0:ℝ) < Uw (2 * S.nd) := by simp [S, hUw]
  obtain ⟨y, yd, st, m, h⟩ := C148_run (eigAbs := eigAbs) (Nt := 8) hM rfl rfl (by simp [S]) hA hL hw (by norm_num) (keeps_rest hF hV hE)
  obtain ⟨k1, -⟩ := C149_equilibrium exactIvp_exact exactIvp_total he hM rfl rfl hA hL hw (by norm_num) hD hF hV hE (sy _) h
  have hm : m < 1 := k1.2 fun x hx => by
    obtain ⟨i, hi, hne⟩ := hx
    obtain rfl : i = 0 := by simpa [S] using hi
    have : quadForm S.nd (addStiff S (cubicForce 1 1 (fun _ _ => 1) (fun _ _ => 1) (fun _ => 1) Uw).2) x = 2 * x 0 ^ 2 := by
      simp [quadForm, S, addStiff, cubicForce, matMul, matVec, diag, hUw]
      ring
    rw [this]
    positivity
  obtain ⟨r, hr, -⟩ := C88_max he h
  obtain ⟨u, v, hmo, hs, -⟩ := keeps_rest (A := cubicForce 1 1 (fun _ _ => 1) (fun _ _ => 1) fun _ => 1) hF hV hE
  have hc := (C75_complete exactIvp_exact hM rfl hA hL hw (by norm_num) hr).2 ⟨u, v, hmo, hs⟩
  have hR := (C75_periodic_partial exactIvp_exact hM rfl hA hL hw (by norm_num) hr hc).2 ⟨fun _ => Uw, fun _ _ => 0, fun t i _ => hasDerivAt_const _ _, fun t => ⟨fun _ => 0, fun i _ => hasDerivAt_const _ _, fun i hi => by
    simpa using hE i hi⟩, fun _ _ _ => ⟨rfl, rfl⟩, fun i hi => ⟨rfl, (hV i hi).symm⟩⟩
  obtain ⟨ρ, hρ, H⟩ := C150_newton (inf := 0) (exactSolve_inv (n := 2 * S.nd)) exactIvp_exact exactIvp_total rfl rfl hA hL hw (by norm_num) hr hc hR (C150_stable he hr h hm)
  obtain ⟨K, hK⟩ := H (1 / 1000) (by norm_num)
  refine ⟨ρ, hρ, K, fun X0 hX hX' => ?_⟩
  obtain ⟨res, e1, e2, e3⟩ := hK { lsTol := 0, maxSteps := K } ⟨rfl, rfl, rfl⟩ le_rfl X0 (fun i => by
    match i with
    | ⟨0, _⟩ => simpa [hUw] using hX
    | ⟨1, _⟩ => simpa [hUw] using hX') (some (1 / 1000)) rfl
  have e0 : shootSolve exactIvp S (fun _ _ => 1) Uw (fun _ => 0) 8 = shootSolve exactIvp S (fun _ _ => 1) (fun _ => 1) (fun _ => 0) 8 := by
    have : ∀ X, withState (2 * S.nd) Uw X = withState (2 * S.nd) (fun _ => 1) X := fun X => by
      funext i
      by_cases c : i < 2 * S.nd
      · simp [withState, c]
      · have : i ≠ 1 := by
          simp [S] at c
          omega
        simp [withState, c, hUw, this]
    unfold shootSolve
    simp only [this]
  rw [e0] at e1
  refine ⟨res, _, e1, e2, ?_, ?_⟩
  · simpa [hUw] using e3 ⟨0, by simp [S]⟩
  · simpa [hUw] using e3 ⟨1, by simp [S]⟩

end

end TMD
