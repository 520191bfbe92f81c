import Verif.Props.ShootingComplete
import Verif.Props.Stability
import Verif.Lemmas.LinearOde
import Verif.Lemmas.ShootFail
import Verif.Lemmas.DampedMotion

/-!
# Property C148: stability of equilibria and of linear systems as reported by shooting

With symmetric positive definite mass and damping the number returned by `time_stability` (postprocess/shooting.py:72-93) is below one exactly if the
stiffness along the motion is positive definite, and the flag is set exactly if it is semidefinite.
-/

namespace TMD

open Spec Finset

noncomputable section

variable {ivp : SolveIvp} {S : VibSys} {Minv : ℕ → ℕ → ℝ} {Uw Fl : ℕ → ℝ} {Nt : ℕ} {r : ShootRes}
  {A : (ℕ → ℝ) → (ℕ → ℝ) × (ℕ → ℕ → ℝ)} {f : NLForce} {eigAbs : ℕ → (ℕ → ℕ → ℝ) → ℕ → ℝ} {y yd : ℕ → ℕ → ℝ} {st : Prop} {m : ℝ} {Kn : ℕ → ℕ → ℝ}

/-- The stiffness of the structure with the stiffness `Kn` of its nonlinear force. -/
def addStiff (S : VibSys) (Kn : ℕ → ℕ → ℝ) : ℕ → ℕ → ℝ := fun i j => S.K i j + Kn i j

/-- Free vibrations as a first order system. -/
def freeField (S : VibSys) (Minv Kn : ℕ → ℕ → ℝ) (h : Fin (2 * S.nd) → ℝ) : Fin (2 * S.nd) → ℝ := fun i =>
  hcat S.nd (fun i => Spec.ext h (S.nd + i)) (matVec S.nd Minv fun k =>
    -((∑ j ∈ range S.nd, S.C k j * Spec.ext h (S.nd + j)) + ∑ j ∈ range S.nd, addStiff S Kn k j * Spec.ext h j)) i

theorem shA'_apply (z h : Fin (2 * S.nd) → ℝ) (hK : ∀ i < S.nd, ∀ j < S.nd, (A (sl 0 S.nd (Spec.ext z))).2 i j = Kn i j) :
    shA' S Minv A z h = freeField S Minv Kn h := by
  funext i
  simp only [shA', ContinuousLinearMap.pi_apply, row_apply]
  have e : ∑ j : Fin (2 * S.nd), shDg S Minv A z i j * h j = ∑ j ∈ range (2 * S.nd), shDg S Minv A z i j * Spec.ext h j := by
    rw [sum_range]
    exact sum_congr rfl fun j _ => by simp [Spec.ext]
  rw [e, show range (2 * S.nd) = range (S.nd + S.nd) by rw [two_mul], sum_range_add]
  unfold freeField hcat shDg
  by_cases c : (i : ℕ) < S.nd
  · simp only [c, if_true]
    rw [sum_eq_zero, zero_add, sum_eq_single (i : ℕ)]
    · rw [if_neg (by omega), if_pos (by omega), one_mul]
    · intro j _ hj
      rw [if_neg (by omega), if_neg (by omega), zero_mul]
    · intro hh
      exact absurd (mem_range.2 c) hh
    · intro j hj
      rw [if_pos (mem_range.1 hj), zero_mul]
  · simp only [c, if_false]
    have e1 : ∑ j ∈ range S.nd, (if j < S.nd then matMul S.nd Minv (fun i j => - S.K i j - (A (sl 0 S.nd (Spec.ext z))).2 i j) (i - S.nd) j
        else matMul S.nd Minv (fun i j => - S.C i j) (i - S.nd) (j - S.nd)) * Spec.ext h j
        = ∑ j ∈ range S.nd, ∑ k ∈ range S.nd, Minv (i - S.nd) k * -addStiff S Kn k j * Spec.ext h j := by
      refine sum_congr rfl fun j hj => ?_
      rw [if_pos (mem_range.1 hj), matMul, sum_mul]
      refine sum_congr rfl fun k hk => ?_
      rw [hK k (mem_range.1 hk) j (mem_range.1 hj)]
      unfold addStiff
      ring
    have e2 : ∑ x ∈ range S.nd, (if S.nd + x < S.nd then matMul S.nd Minv (fun i j => - S.K i j - (A (sl 0 S.nd (Spec.ext z))).2 i j) (i - S.nd) (S.nd + x)
        else matMul S.nd Minv (fun i j => - S.C i j) (i - S.nd) (S.nd + x - S.nd)) * Spec.ext h (S.nd + x)
        = ∑ j ∈ range S.nd, ∑ k ∈ range S.nd, Minv (i - S.nd) k * -S.C k j * Spec.ext h (S.nd + j) := by
      refine sum_congr rfl fun j hj => ?_
      rw [if_neg (by omega), Nat.add_sub_cancel_left, matMul, sum_mul]
    rw [e1, e2, sum_comm, sum_comm (s := range S.nd) (t := range S.nd) (f := fun j k => Minv (i - S.nd) k * -S.C k j * Spec.ext h (S.nd + j)), ← sum_add_distrib]
    unfold matVec
    refine sum_congr rfl fun k _ => ?_
    beta_reduce
    rw [neg_add, mul_add, ← sum_neg_distrib, ← sum_neg_distrib, mul_sum, mul_sum, add_comm]
    congr 1 <;> exact sum_congr rfl fun j _ => by ring

/-- A curve of the first order system is a free vibration. -/
theorem free_motion (hM : IsInv S.nd S.M Minv) {w T : ℝ} {p : ℝ → Fin (2 * S.nd) → ℝ}
    (hp : ∀ t ∈ Set.Icc 0 T, HasDerivWithinAt p (freeField S Minv Kn (p t)) (Set.Icc 0 T) t) :
    FreeMotion S.nd S.M S.C (addStiff S Kn) w T (fun t => Spec.ext (p t)) (fun t i => Spec.ext (p t) (S.nd + i)) := by
  have hc : ∀ t ∈ Set.Icc 0 T, ∀ i : Fin (2 * S.nd), HasDerivWithinAt (fun t => Spec.ext (p t) i) (freeField S Minv Kn (p t) i) (Set.Icc 0 T) t := fun t ht i => by
    have := (hasDerivWithinAt_pi.1 (hp t ht)) i
    simpa [Spec.ext] using this
  constructor
  · intro t ht i hi
    have := hc t ht ⟨i, by omega⟩
    simpa [freeField, hcat, hi] using this
  · intro t ht
    refine ⟨matVec S.nd Minv fun k => -((∑ j ∈ range S.nd, S.C k j * Spec.ext (p t) (S.nd + j)) + ∑ j ∈ range S.nd, addStiff S Kn k j * Spec.ext (p t) j), fun i hi => ?_, ?_⟩
    · have := hc t ht ⟨S.nd + i, by omega⟩
      simpa [freeField, hcat] using this
    · simp only [zero_mul, add_zero]
      have := (eom_iff (C := S.C) (K := addStiff S Kn) hM (Spec.ext (p t)) (fun i => Spec.ext (p t) (S.nd + i)) (matVec S.nd Minv fun k => -((∑ j ∈ range S.nd, S.C k j * Spec.ext (p t) (S.nd + j)) + ∑ j ∈ range S.nd, addStiff S Kn k j * Spec.ext (p t) j)) (fun _ => 0) fun _ => 0).2 (fun i _ => by
        simp only [add_zero]
        rfl)
      simpa using this

/-- The motion that starts in the given state keeps the stiffness `Kn` of the nonlinear force. -/
def KeepsStiff (S : VibSys) (A : (ℕ → ℝ) → (ℕ → ℝ) × (ℕ → ℕ → ℝ)) (Fl Uw : ℕ → ℝ) (Kn : ℕ → ℕ → ℝ) : Prop :=
  ∃ u v, Motion S.nd S.M S.C S.K (fun U => (A U).1) Fl (Uw (2 * S.nd)) (Set.Icc 0 (2 * Real.pi / Uw (2 * S.nd))) u v ∧
    (∀ i < S.nd, u 0 i = Uw i ∧ v 0 i = Uw (S.nd + i)) ∧
    ∀ t ∈ Set.Icc 0 (2 * Real.pi / Uw (2 * S.nd)), ∀ i < S.nd, ∀ j < S.nd, (A (u t)).2 i j = Kn i j

/-- What the returned monodromy matrix does to an initial state is a free vibration. -/
theorem frozen (hivp : ExactIvp ivp) (hM : IsInv S.nd S.M Minv) (hS : S.forces = [f])
    (hA : ∀ U, f.force U = .ok (A U)) (hL : SmoothLaw S.nd (fun U => (A U).1) (fun U => (A U).2)) (hw : 0 < Uw (2 * S.nd)) (hNt : 0 < Nt)
    (hk : KeepsStiff S A Fl Uw Kn) (h : shootingRes ivp S Minv Uw (2 * S.nd + 1) Fl Nt = .ok r) (h0 : Fin (2 * S.nd) → ℝ) :
    ∃ p : ℝ → Fin (2 * S.nd) → ℝ, p 0 = h0 ∧ (∀ t ∈ Set.Icc 0 (2 * Real.pi / Uw (2 * S.nd)), HasDerivWithinAt p (freeField S Minv Kn (p t)) (Set.Icc 0 (2 * Real.pi / Uw (2 * S.nd))) t) ∧
      ∀ i : Fin (2 * S.nd), p (2 * Real.pi / Uw (2 * S.nd)) i = ∑ j : Fin (2 * S.nd), r.monodromy i j * h0 j := by
  obtain ⟨u, v, hm, hs, hkeep⟩ := hk
  have hc := (C75_complete hivp hM hS hA hL hw hNt h).2 ⟨u, v, hm, hs⟩
  obtain ⟨Y, hY, -, hJ, -⟩ := shoot_curve hivp hS hA hw hNt h hc
  have hT0 : 0 < 2 * Real.pi / Uw (2 * S.nd) := by have := Real.pi_pos; positivity
  set T := 2 * Real.pi / Uw (2 * S.nd) with hT
  obtain ⟨hz0, hz⟩ := curve_parts hS hA hY
  have hq := motion_ode (Minv := Minv) hM hL hm rfl
  have hq0 : restr (2 * S.nd) (hcat S.nd (u 0) (v 0)) = restr (2 * S.nd) (Y 0) := by
    rw [hz0]
    funext i
    by_cases c : (i:ℕ) < S.nd
    · simp only [restr, hcat, c, if_true, (hs i c).1]
    · simp only [restr, hcat, c, if_false, (hs (i - S.nd) (by omega)).2]
      congr 1
      omega
  have huniq := shoot_unique (shA_hasFDerivAt (Minv := Minv) hS hA hL) (shA'_continuous hL) (fun t => shB S Minv Fl (Uw (2 * S.nd) * t)) hT0 hz hq hq0
  have hstiff : ∀ t ∈ Set.Icc 0 T, ∀ i < S.nd, ∀ j < S.nd, (A (sl 0 S.nd (Spec.ext (restr (2 * S.nd) (Y t))))).2 i j = Kn i j := fun t ht i hi j hj => by
    rw [← hkeep t ht i hi j hj]
    have : (A (sl 0 S.nd (Spec.ext (restr (2 * S.nd) (Y t))))).2 = (A (u t)).2 := hL.local_J _ _ fun k hk => by
      have hk2 : k < 2 * S.nd := by omega
      have := congrFun (huniq t ht) ⟨k, hk2⟩
      simp only [restr, hcat, hk, if_true] at this
      simp [sl, hk, Spec.ext, hk2, restr, ← this]
    rw [this]
  obtain ⟨hΦ0, hΦ⟩ := curve_Phi (Uw := Uw) hS hA hY _ rfl
  refine ⟨fun t => (ContinuousLinearMap.pi fun i : Fin (2 * S.nd) => row (2 * S.nd) fun j => Y t (2 * S.nd + (i * (2 * S.nd) + j))) h0, hΦ0 h0, fun t ht => ?_, fun i => ?_⟩
  · have := hΦ h0 t ht
    rwa [shA'_apply _ _ (hstiff t ht)] at this
  · simp only [ContinuousLinearMap.pi_apply, row_apply]
    refine sum_congr rfl fun j _ => ?_
    have e := hJ i i.2 j j.2
    obtain ⟨-, o, Yd, -, -, -, rfl⟩ := shootingRes_ok h
    simp only [sub_left_inj] at e
    rw [← e]

/-- Mass and damping matrix of a damped structure. -/
structure DampedSys (S : VibSys) : Prop where
  massSymm : SymmOn S.nd S.M
  mass : PosOn S.nd S.M
  dampSymm : SymmOn S.nd S.C
  damp : PosOn S.nd S.C

theorem eigen_turned (hivp : ExactIvp ivp) (hM : IsInv S.nd S.M Minv) (hS : S.forces = [f])
    (hA : ∀ U, f.force U = .ok (A U)) (hL : SmoothLaw S.nd (fun U => (A U).1) (fun U => (A U).2)) (hw : 0 < Uw (2 * S.nd)) (hNt : 0 < Nt)
    (hk : KeepsStiff S A Fl Uw Kn) (h : shootingRes ivp S Minv Uw (2 * S.nd + 1) Fl Nt = .ok r) {l : ℂ} (hl : Eigen (2 * S.nd) r.monodromy l) :
    ∃ u1 v1 u2 v2, FreeMotion S.nd S.M S.C (addStiff S Kn) 0 (2 * Real.pi / Uw (2 * S.nd)) u1 v1 ∧ FreeMotion S.nd S.M S.C (addStiff S Kn) 0 (2 * Real.pi / Uw (2 * S.nd)) u2 v2 ∧
      Turned S.nd (2 * Real.pi / Uw (2 * S.nd)) l.re l.im u1 v1 u2 v2 := by
  obtain ⟨z, ⟨i0, hi0, hne⟩, hz⟩ := hl
  obtain ⟨p, p0, hp, pT⟩ := frozen hivp hM hS hA hL hw hNt hk h fun i => (z i).re
  obtain ⟨q, q0, hq, qT⟩ := frozen hivp hM hS hA hL hw hNt hk h fun i => (z i).im
  have hre : ∀ i : Fin (2 * S.nd), p (2 * Real.pi / Uw (2 * S.nd)) i = l.re * (z i).re - l.im * (z i).im := fun i => by
    rw [pT]
    have := congrArg Complex.re (hz i i.2)
    rw [Complex.re_sum, sum_range] at this
    simpa using this
  have him : ∀ i : Fin (2 * S.nd), q (2 * Real.pi / Uw (2 * S.nd)) i = l.im * (z i).re + l.re * (z i).im := fun i => by
    rw [qT]
    have := congrArg Complex.im (hz i i.2)
    rw [Complex.im_sum, sum_range] at this
    simp only [Complex.mul_im, Complex.ofReal_re, Complex.ofReal_im, zero_mul, add_zero] at this
    rw [this]; ring
  have ex : ∀ (v : Fin (2 * S.nd) → ℝ) {i : ℕ} (hi : i < 2 * S.nd), Spec.ext v i = v ⟨i, hi⟩ := fun v i hi => by simp [Spec.ext, hi]
  refine ⟨_, _, _, _, free_motion hM hp, free_motion hM hq, fun i hi => ?_, fun i hi => ?_, fun i hi => ?_, fun i hi => ?_, ?_⟩
  · simp only [ex _ (show i < 2 * S.nd by omega), p0, q0, hre]
  · simp only [ex _ (show S.nd + i < 2 * S.nd by omega), p0, q0, hre]
  · simp only [ex _ (show i < 2 * S.nd by omega), p0, q0, him]
  · simp only [ex _ (show S.nd + i < 2 * S.nd by omega), p0, q0, him]
  · have hor : (z i0).re ≠ 0 ∨ (z i0).im ≠ 0 := by
      by_contra hcon
      push Not at hcon
      exact hne (Complex.ext hcon.1 hcon.2)
    by_cases c : i0 < S.nd
    · refine ⟨i0, c, ?_⟩
      simp only [ex _ hi0, p0, q0]
      tauto
    · refine ⟨i0 - S.nd, by omega, ?_⟩
      have e : S.nd + (i0 - S.nd) = i0 := by omega
      simp only [e, ex _ hi0, p0, q0]
      tauto

/-- C148: the returned number and the flag. -/
theorem C148_stiffness (hivp : ExactIvp ivp) (he : EigAbs eigAbs) (hM : IsInv S.nd S.M Minv) (hS : S.forces = [f])
    (hA : ∀ U, f.force U = .ok (A U)) (hL : SmoothLaw S.nd (fun U => (A U).1) (fun U => (A U).2)) (hw : 0 < Uw (2 * S.nd)) (hNt : 0 < Nt)
    (hD : DampedSys S) (hk : KeepsStiff S A Fl Uw Kn) (hsym : SymmOn S.nd (addStiff S Kn))
    (h : timeStability ivp eigAbs S Minv Uw (2 * S.nd + 1) Fl Nt = .ok (y, yd, st, m)) :
    (m < 1 ↔ PosOn S.nd (addStiff S Kn)) ∧ (st ↔ ∀ x, 0 ≤ quadForm S.nd (addStiff S Kn) x) := by
  obtain ⟨r, hr, ⟨l0, hl0, hlm⟩, hmax, hst⟩ := C88_max he h
  have hT0 : 0 < 2 * Real.pi / Uw (2 * S.nd) := by have := Real.pi_pos; positivity
  set T := 2 * Real.pi / Uw (2 * S.nd) with hT
  have hn2 : ∀ l : ℂ, ‖l‖ ^ 2 = l.re ^ 2 + l.im ^ 2 := fun l => by
    rw [Complex.sq_norm, Complex.normSq_apply]; ring
  have grow : ∀ x0 : ℕ → ℝ, (∃ i < S.nd, x0 i ≠ 0) → quadForm S.nd (addStiff S Kn) x0 ≤ 0 →
      ∃ l : ℂ, Eigen (2 * S.nd) r.monodromy l ∧ 1 ≤ ‖l‖ ∧ (∀ x, quadForm S.nd (addStiff S Kn) x < 0 → 1 < ‖l‖) := fun x0 hx0 hneg => by
    obtain ⟨a, x, ha, hx, heq, hpos⟩ := real_exponent hD.massSymm hD.dampSymm hsym hD.mass hD.damp hx0 hneg
    set z : Fin (2 * S.nd) → ℝ := fun i => if (i : ℕ) < S.nd then x i else a * x (i - S.nd) with hz
    have zl : ∀ i < S.nd, Spec.ext z i = x i := fun i hi => by simp [Spec.ext, hz, hi, show i < 2 * S.nd by omega]
    have zh : ∀ i < S.nd, Spec.ext z (S.nd + i) = a * x i := fun i hi => by simp [Spec.ext, hz, show S.nd + i < 2 * S.nd by omega]
    have hfix : freeField S Minv Kn z = a • z := by
      funext i
      simp only [freeField, hcat, Pi.smul_apply, smul_eq_mul]
      by_cases c : (i:ℕ) < S.nd
      · rw [if_pos c, zh i c]
        simp only [hz, c, if_true]
      · have hi : (i:ℕ) - S.nd < S.nd := by omega
        rw [if_neg c, show z i = a * x ((i:ℕ) - S.nd) by simp only [hz, c, if_false]]
        have e1 : ∀ k < S.nd, -((∑ j ∈ range S.nd, S.C k j * Spec.ext z (S.nd + j)) + ∑ j ∈ range S.nd, addStiff S Kn k j * Spec.ext z j)
            = matVec S.nd S.M (fun j => a * (a * x j)) k := fun k hk => by
          have := heq k hk
          rw [sum_congr rfl fun j hj => by rw [zh j (mem_range.1 hj)], sum_congr (s₁ := range S.nd) (f := fun j => addStiff S Kn k j * Spec.ext z j) rfl fun j hj => by rw [zl j (mem_range.1 hj)]]
          unfold matVec
          rw [neg_eq_iff_add_eq_zero, ← sum_add_distrib, ← sum_add_distrib, ← this]
          exact sum_congr rfl fun j _ => by ring
        rw [matVec_congr e1 ((i:ℕ) - S.nd), isInv_apply (isInv_comm hM) _ hi]
    obtain ⟨p, p0, hp, pT⟩ := frozen hivp hM hS hA hL hw hNt hk hr z
    obtain ⟨u, v, -, -, hkeep⟩ := hk
    have hL0 : ∀ h, shA' S Minv A (restr (2 * S.nd) (u 0)) h = freeField S Minv Kn h := fun h => shA'_apply _ _ fun i hi j hj => by
      rw [← hkeep 0 ⟨le_rfl, hT0.le⟩ i hi j hj]
      have : (A (sl 0 S.nd (Spec.ext (restr (2 * S.nd) (u 0))))).2 = (A (u 0)).2 := hL.local_J _ _ fun k hk => by
        simp [sl, hk, Spec.ext, restr, show k < 2 * S.nd by omega]
      rw [this]
    set L := shA' S Minv A (restr (2 * S.nd) (u 0)) with hLd
    have hexp : ∀ t ∈ Set.Icc 0 T, HasDerivWithinAt (fun t => Real.exp (a * t) • z) (L (Real.exp (a * t) • z) + 0) (Set.Icc 0 T) t := fun t _ => by
      rw [map_smul, hL0, hfix, add_zero]
      have := (((hasDerivAt_id t).const_mul a).exp.smul_const z).hasDerivWithinAt (s := Set.Icc 0 T)
      simpa [smul_smul, mul_comm] using this
    have huq := shoot_unique (fun z => L.hasFDerivAt) continuous_const (fun _ => 0) hT0 (fun t ht => by simpa [hL0] using hp t ht) hexp (by simp [p0]) T ⟨hT0.le, le_rfl⟩
    have hev : ∀ i : Fin (2 * S.nd), ∑ j : Fin (2 * S.nd), r.monodromy i j * z j = Real.exp (a * T) * z i := fun i => by
      rw [← pT, ← huq]
      rfl
    refine ⟨(Real.exp (a * T) : ℝ), ⟨fun i => (Spec.ext z i : ℝ), ?_, fun i hi => ?_⟩, ?_, fun y hy => ?_⟩
    · obtain ⟨i, hi, hne⟩ := hx
      refine ⟨i, by omega, ?_⟩
      beta_reduce
      rw [zl i hi]
      exact_mod_cast hne
    · have := hev ⟨i, hi⟩
      have e : ∑ j ∈ range (2 * S.nd), r.monodromy i j * Spec.ext z j = Real.exp (a * T) * Spec.ext z i := by
        rw [sum_range]
        simpa [Spec.ext, hi] using this
      beta_reduce
      exact_mod_cast e
    · rw [Complex.norm_real, Real.norm_of_nonneg (Real.exp_pos _).le]
      exact Real.one_le_exp (by positivity)
    · rw [Complex.norm_real, Real.norm_of_nonneg (Real.exp_pos _).le]
      exact Real.one_lt_exp_iff.2 (mul_pos (hpos y hy) hT0)
  constructor
  · constructor
    · intro hlt x hx
      by_contra hcon
      obtain ⟨l, hl, h1, -⟩ := grow x hx (not_lt.1 hcon)
      linarith [hmax l hl]
    · intro hpos
      obtain ⟨u1, v1, u2, v2, f1, f2, ht⟩ := eigen_turned hivp hM hS hA hL hw hNt hk hr hl0
      have := decay hD.massSymm hsym hD.mass hD.damp hpos hT0 f1 f2 ht
      rw [← hn2, hlm] at this
      nlinarith [norm_nonneg l0]
  · rw [hst]
    constructor
    · intro hle x
      by_contra hcon
      push Not at hcon
      by_cases c : ∃ i < S.nd, x i ≠ 0
      · obtain ⟨l, hl, -, h1⟩ := grow x c hcon.le
        exact absurd (hle l hl) (not_le.2 (h1 x hcon))
      · push Not at c
        refine absurd hcon (not_lt.2 (le_of_eq ?_))
        symm
        unfold quadForm
        exact sum_eq_zero fun i hi => by simp [c i (mem_range.1 hi)]
    · intro hpos l hl
      obtain ⟨u1, v1, u2, v2, f1, f2, ht⟩ := eigen_turned hivp hM hS hA hL hw hNt hk hr hl
      have := no_growth hD.massSymm hsym hD.mass hD.damp hpos hT0 f1 f2 ht
      rw [← hn2] at this
      nlinarith [norm_nonneg l]

/-- A state of rest in equilibrium stays there. -/
theorem keeps_rest (hF : ∀ i < 2 * S.nd, Fl i = 0) (hV : ∀ i < S.nd, Uw (S.nd + i) = 0)
    (hE : ∀ i < S.nd, ∑ j ∈ range S.nd, S.K i j * Uw j + (A Uw).1 i = 0) : KeepsStiff S A Fl Uw (A Uw).2 := by
  refine ⟨fun _ => Uw, fun _ _ => 0, ⟨fun t _ i _ => hasDerivWithinAt_const .., fun t _ => ⟨fun _ => 0, fun i _ => hasDerivWithinAt_const .., fun i hi => ?_⟩⟩,
    fun i hi => ⟨rfl, (hV i hi).symm⟩, fun _ _ _ _ _ _ => rfl⟩
  simpa [hF i (by omega), hF (S.nd + i) (by omega)] using hE i hi

/-- C148: an unloaded equilibrium is reported with a number below one exactly if its tangent stiffness is positive
definite, and the flag is set exactly if the tangent stiffness is positive semidefinite. -/
theorem C148_equilibrium (hivp : ExactIvp ivp) (he : EigAbs eigAbs) (hM : IsInv S.nd S.M Minv) (hS : S.forces = [f])
    (hA : ∀ U, f.force U = .ok (A U)) (hL : SmoothLaw S.nd (fun U => (A U).1) (fun U => (A U).2)) (hw : 0 < Uw (2 * S.nd)) (hNt : 0 < Nt)
    (hD : DampedSys S) (hF : ∀ i < 2 * S.nd, Fl i = 0) (hV : ∀ i < S.nd, Uw (S.nd + i) = 0)
    (hE : ∀ i < S.nd, ∑ j ∈ range S.nd, S.K i j * Uw j + (A Uw).1 i = 0) (hsym : SymmOn S.nd (addStiff S (A Uw).2))
    (h : timeStability ivp eigAbs S Minv Uw (2 * S.nd + 1) Fl Nt = .ok (y, yd, st, m)) :
    (m < 1 ↔ PosOn S.nd (addStiff S (A Uw).2)) ∧ (st ↔ ∀ x, 0 ≤ quadForm S.nd (addStiff S (A Uw).2) x) :=
  C148_stiffness hivp he hM hS hA hL hw hNt hD (keeps_rest hF hV hE) hsym h

/-- Motions under a force with constant stiffness last for the whole period. -/
theorem keeps_linear (hM : IsInv S.nd S.M Minv) (hS : S.forces = [f])
    (hA : ∀ U, f.force U = .ok (A U)) (hL : SmoothLaw S.nd (fun U => (A U).1) (fun U => (A U).2)) (hw : 0 < Uw (2 * S.nd))
    (hK : ∀ U, ∀ i < S.nd, ∀ j < S.nd, (A U).2 i j = Kn i j) : KeepsStiff S A Fl Uw Kn := by
  have hT0 : 0 < 2 * Real.pi / Uw (2 * S.nd) := by have := Real.pi_pos; positivity
  have hconst : ∀ z, shA' S Minv A z = shA' S Minv A 0 := fun z => by
    ext1 h
    rw [shA'_apply _ _ fun i hi j hj => hK _ i hi j hj, shA'_apply _ _ fun i hi j hj => hK _ i hi j hj]
  set L := shA' S Minv A 0 with hLd
  have haff : ∀ z, shA S Minv A z = L z + shA S Minv A 0 := fun z => by
    have hd : ∀ z, HasFDerivAt (fun z => shA S Minv A z - L z) (0 : (Fin (2 * S.nd) → ℝ) →L[ℝ] (Fin (2 * S.nd) → ℝ)) z := fun z => by
      have := (shA_hasFDerivAt (Minv := Minv) hS hA hL z).sub L.hasFDerivAt
      rwa [hconst z, sub_self] at this
    have := is_const_of_fderiv_eq_zero (𝕜 := ℝ) (fun z => (hd z).differentiableAt) (fun z => (hd z).fderiv) z 0
    simp only [map_zero, sub_zero] at this
    rw [← this]; abel
  have hBc : Continuous (shB S Minv Fl) := continuous_iff_continuousAt.2 fun θ => (shB_hasDerivAt θ).continuousAt
  obtain ⟨z, z0, hz⟩ := linear_ode (A := fun _ => L) (b := fun t => shA S Minv A 0 + shB S Minv Fl (Uw (2 * S.nd) * t)) hT0.le continuousOn_const
    (continuous_const.add (hBc.comp (continuous_const.mul continuous_id))).continuousOn (restr (2 * S.nd) Uw)
  have hr : ∀ t, restr (2 * S.nd) (Spec.ext (z t)) = z t := fun t => by
    funext i
    simp [restr, Spec.ext]
  refine ⟨fun t => Spec.ext (z t), fun t i => Spec.ext (z t) (S.nd + i), ode_motion hM hL (y := fun t => Spec.ext (z t)) fun t ht => ?_, fun i hi => ?_, fun t _ i hi j hj => hK _ i hi j hj⟩
  · simp only [hr]
    have := hz t ht
    rwa [← add_assoc, ← haff] at this
  · simp [z0, Spec.ext, restr, show i < 2 * S.nd by omega, show S.nd + i < 2 * S.nd by omega]

/-- C148: under a force with constant stiffness the report is the same for every state and every load. -/
theorem C148_linear (hivp : ExactIvp ivp) (he : EigAbs eigAbs) (hM : IsInv S.nd S.M Minv) (hS : S.forces = [f])
    (hA : ∀ U, f.force U = .ok (A U)) (hL : SmoothLaw S.nd (fun U => (A U).1) (fun U => (A U).2)) (hw : 0 < Uw (2 * S.nd)) (hNt : 0 < Nt)
    (hD : DampedSys S) (hK : ∀ U, ∀ i < S.nd, ∀ j < S.nd, (A U).2 i j = Kn i j) (hsym : SymmOn S.nd (addStiff S Kn))
    (h : timeStability ivp eigAbs S Minv Uw (2 * S.nd + 1) Fl Nt = .ok (y, yd, st, m)) :
    (m < 1 ↔ PosOn S.nd (addStiff S Kn)) ∧ (st ↔ ∀ x, 0 ≤ quadForm S.nd (addStiff S Kn) x) :=
  C148_stiffness hivp he hM hS hA hL hw hNt hD (keeps_linear hM hS hA hL hw hK) hsym h

/-- C148: with an exact integrator the call returns. -/
theorem C148_run (hM : IsInv S.nd S.M Minv) (hS : S.forces = [f]) (hft : f.ftype = 0) (hn : 0 < S.nd)
    (hA : ∀ U, f.force U = .ok (A U)) (hL : SmoothLaw S.nd (fun U => (A U).1) (fun U => (A U).2)) (hw : 0 < Uw (2 * S.nd)) (hNt : 0 < Nt)
    (hk : KeepsStiff S A Fl Uw Kn) : ∃ y yd st m, timeStability exactIvp eigAbs S Minv Uw (2 * S.nd + 1) Fl Nt = .ok (y, yd, st, m) := by
  obtain ⟨u, v, hm, hs, -⟩ := hk
  have hT0 : 0 < 2 * Real.pi / Uw (2 * S.nd) := by have := Real.pi_pos; positivity
  obtain ⟨Y, hY⟩ := augmented_sol (Uw := Uw) hS hA hL hT0.le (fun i => by
    by_cases c : (i:ℕ) < S.nd
    · simp only [restr, hcat, c, if_true, (hs i c).1]
    · simp only [restr, hcat, c, if_false, (hs (i - S.nd) (by omega)).2]
      congr 1
      omega) (motion_ode (Minv := Minv) hM hL hm rfl)
  obtain ⟨o, ho, hco⟩ := exactIvp_full hT0 hNt hY
  obtain ⟨r, hr, hrc, -⟩ := shootingRes_of_ivp hS hft hA ho (by omega)
  unfold timeStability
  simp only [hr]
  rw [if_neg (by omega), dif_pos ⟨0, by simpa using hn⟩]
  exact ⟨_, _, _, _, rfl⟩

/-- A damped oscillator with the spring force `-x + x³`: the rest state `0` is reported unstable, the buckled state `1`
stable with a number below one. -/
example (he : EigAbs eigAbs) :
    let S : VibSys := ⟨1, fun _ _ => 1, fun _ _ => -1, fun _ _ => 1, none, [cubicNL 1 1 (fun _ _ => 1) (fun _ _ => 1) fun _ => 1]⟩
    (∃ y yd st m, timeStability exactIvp eigAbs S (fun _ _ => 1) (fun i => if i = 2 then 1 else 0) 3 (fun _ => 0) 8 = .ok (y, yd, st, m) ∧ ¬ st) ∧
    (∃ y yd st m, timeStability exactIvp eigAbs S (fun _ _ => 1) (fun i => if i = 1 then 0 else 1) 3 (fun _ => 0) 8 = .ok (y, yd, st, m) ∧ st ∧ m < 1) := by
  intro S
  have hM : IsInv S.nd S.M fun _ _ => 1 := fun i hi j hj => by
    obtain rfl : i = 0 := by simpa [S] using hi
    obtain rfl : j = 0 := by simpa [S] using hj
    simp [S]
  have hA : ∀ U, (cubicNL 1 1 (fun _ _ => 1) (fun _ _ => 1) fun _ => 1).force U = .ok (cubicForce 1 1 (fun _ _ => 1) (fun _ _ => 1) (fun _ => 1) U) := fun _ => rfl
  have hL := smoothLaw_cubic 1 1 (fun _ _ => 1) (fun _ _ => 1) fun _ => 1
  have q1 : PosOn 1 fun _ _ => 1 := fun x hx => by
    obtain ⟨i, hi, hne⟩ := hx
    obtain rfl : i = 0 := by omega
    simpa [quadForm] using hne
  have hD : DampedSys S := ⟨fun _ _ _ _ => rfl, q1, fun _ _ _ _ => rfl, q1⟩
  have sy : ∀ B : ℕ → ℕ → ℝ, SymmOn 1 B := fun B i hi j hj => by
    obtain rfl : i = 0 := by omega
    obtain rfl : j = 0 := by omega
    rfl
  have st0 : ∀ U : ℕ → ℝ, addStiff S (cubicForce 1 1 (fun _ _ => 1) (fun _ _ => 1) (fun _ => 1) U).2 0 0 = -1 + 3 * U 0 ^ 2 := fun U => by
    simp [addStiff, S, cubicForce, matMul, matVec, diag]
  have hF : ∀ i < 2 * S.nd, (fun _ : ℕ => (0:ℝ)) i = 0 := fun _ _ => rfl
  constructor
  · have hV : ∀ i < S.nd, (fun i : ℕ => if i = 2 then (1:ℝ) else 0) (S.nd + i) = 0 := fun i hi => by
      obtain rfl : i = 0 := by simpa [S] using hi
      simp [S]
    have hE : ∀ i < S.nd, ∑ j ∈ range S.nd, S.K i j * (fun i : ℕ => if i = 2 then (1:ℝ) else 0) j
        + (cubicForce 1 1 (fun _ _ => 1) (fun _ _ => 1) (fun _ => 1) fun i : ℕ => if i = 2 then (1:ℝ) else 0).1 i = 0 := fun i hi => by
      obtain rfl : i = 0 := by simpa [S] using hi
      simp [S, cubicForce, matVec]
    have hw : (0:ℝ) < (fun i : ℕ => if i = 2 then (1:ℝ) else 0) (2 * S.nd) := by simp [S]
    obtain ⟨y, yd, st, m, h⟩ := C148_run (eigAbs := eigAbs) (Nt := 8) hM rfl rfl (by simp [S]) hA hL hw (by norm_num) (keeps_rest hF hV hE)
    refine ⟨y, yd, st, m, h, ?_⟩
    rw [(C148_equilibrium exactIvp_exact he hM rfl hA hL hw (by norm_num) hD hF hV hE (sy _) h).2]
    intro hh
    have := hh fun _ => 1
    simp only [quadForm, show S.nd = 1 from rfl, sum_range_one, st0] at this
    norm_num at this
  · have hV : ∀ i < S.nd, (fun i : ℕ => if i = 1 then (0:ℝ) else 1) (S.nd + i) = 0 := fun i hi => by
      obtain rfl : i = 0 := by simpa [S] using hi
      simp [S]
    have hE : ∀ i < S.nd, ∑ j ∈ range S.nd, S.K i j * (fun i : ℕ => if i = 1 then (0:ℝ) else 1) j
        + (cubicForce 1 1 (fun _ _ => 1) (fun _ _ => 1) (fun _ => 1) fun i : ℕ => if i = 1 then (0:ℝ) else 1).1 i = 0 := fun i hi => by
      obtain rfl : i = 0 := by simpa [S] using hi
      simp [S, cubicForce, matVec]
    have hw : (0:ℝ) < (fun i : ℕ => if i = 1 then (0:ℝ) else 1) (2 * S.nd) := by simp [S]
    obtain ⟨y, yd, st, m, h⟩ := C148_run (eigAbs := eigAbs) (Nt := 8) hM rfl rfl (by simp [S]) hA hL hw (by norm_num) (keeps_rest hF hV hE)
    have key := C148_equilibrium exactIvp_exact he hM rfl hA hL hw (by norm_num) hD hF hV hE (sy _) h
    have hpos : PosOn S.nd (addStiff S (cubicForce 1 1 (fun _ _ => 1) (fun _ _ => 1) (fun _ => 1) fun i : ℕ => if i = 1 then (0:ℝ) else 1).2) := fun x hx => by
      obtain ⟨i, hi, hne⟩ := hx
      obtain rfl : i = 0 := by simpa [S] using hi
      simp only [quadForm, show S.nd = 1 from rfl, sum_range_one, st0]
      have := sq_pos_of_ne_zero hne
      norm_num
      nlinarith
    exact ⟨y, yd, st, m, h, key.2.2 hpos.nonneg, key.1.2 hpos⟩

end

end TMD
