import Verif.Props.ContinuationReach
import Verif.Props.Residual
import Mathlib.Topology.Instances.Matrix

/-!
# C141: the continuation of the harmonic balance of a damped linear system is its frequency response
-/

namespace TMD

open Spec Metric Set

noncomputable section

/-- The function handed to the continuation, `lambda Uw : vib_sys.hbm_res(Uw, fmag*Fl, h, Nt=Nt)`, examples/sdof_duffing.py:131, with the
argument `calc_grad` passed on as in `lambda Uw, calc_grad=True : ...`.  The gradients of a call without them are not looked at; they are zero here. -/
def hbmFun (S : VibSys) (Fl : ℕ → ℝ) (h : List ℕ) (Nt : ℕ) (tol : ℝ) : ContFun := fun X g =>
  match hbmRes S X Fl h Nt tol g with
  | .error e => .error e
  | .ok o => match o.grad with
    | some p => .ok ⟨o.R, p.1, p.2⟩
    | none => .ok ⟨o.R, fun _ _ => 0, fun _ => 0⟩

variable {S : VibSys} {Fl : ℕ → ℝ} {h : List ℕ} {Nt : ℕ} {tol : ℝ} {lam0 lam1 δ y : ℝ}

/-- The residual, its matrix and its derivative for the frequency, without force objects. -/
def linR (S : VibSys) (Fl : ℕ → ℝ) (h : List ℕ) (X : ℕ → ℝ) (i : ℕ) : ℝ :=
  (∑ j ∈ Finset.range (numCoeff h * S.nd), hsE S.nd S.M S.C S.K (X (numCoeff h * S.nd)) h false i j * X j) - Fl i

def linJ (S : VibSys) (h : List ℕ) (X : ℕ → ℝ) : ℕ → ℕ → ℝ := hsE S.nd S.M S.C S.K (X (numCoeff h * S.nd)) h false

def linD (S : VibSys) (h : List ℕ) (X : ℕ → ℝ) (i : ℕ) : ℝ :=
  ∑ j ∈ Finset.range (numCoeff h * S.nd), hsDE S.nd S.M S.C (X (numCoeff h * S.nd)) h false i j * X j

theorem lin_value (hh : Admissible h) (hS : S.forces = []) (X : ℕ → ℝ) : hbmRes S X Fl h Nt tol true = .ok ⟨linR S Fl h X, some (linJ S h X, linD S h X)⟩ := by
  rw [hbmRes_ok S hh Nt tol (fun _ _ _ => ⟨fun _ => 0, fun _ _ => 0, fun _ => 0⟩) (by simp [hS])]
  congr 2
  · funext i
    simp only [hbmG, hS, List.map_nil, List.sum_nil, add_zero, linR, matVec]
    congr 1
    exact Finset.sum_congr rfl fun j hj => by rw [sl_zero (Finset.mem_range.1 hj)]
  · congr 2
    · funext i j
      simp only [hbmJ, hS, List.map_nil, List.sum_nil, add_zero, linJ]
    · funext i
      simp only [hbmD, hS, List.map_nil, List.sum_nil, add_zero, linD, matVec]
      exact Finset.sum_congr rfl fun j hj => by rw [sl_zero (Finset.mem_range.1 hj)]

theorem setBlock_cont {E B : ℝ → ℕ → ℕ → ℝ} (hE : ∀ i j, Continuous fun w => E w i j) (hB : ∀ i j, Continuous fun w => B w i j) {r0 r1 c0 c1 : ℕ} :
    ∀ i j, Continuous fun w => setBlock (E w) r0 r1 c0 c1 (B w) i j := fun i j => by
  unfold setBlock
  split_ifs
  · exact hB _ _
  · exact hE _ _

theorem hsDE_continuous (l : List ℕ) (nd : ℕ) (M C : ℕ → ℕ → ℝ) (h : List ℕ) (i j : ℕ) :
    ∀ init : ℝ → ℕ → ℕ → ℝ, (∀ i j, Continuous fun w => init w i j) → Continuous fun w => l.foldl (hsGradBody nd M C w h false) (init w) i j := by
  induction l with
  | nil => intro init hi; exact hi i j
  | cons a l ih =>
    intro init hi
    refine ih (fun w => hsGradBody nd M C w h false (init w) a) fun i j => ?_
    simp only [hsGradBody, Bool.false_eq_true, if_false]
    refine setBlock_cont (setBlock_cont (setBlock_cont (setBlock_cont hi ?_) ?_) ?_) ?_ i j <;> intro i j <;> fun_prop

theorem hsE_continuous (hh : Admissible h) {i j : ℕ} (hi : i < numCoeff h * S.nd) (hj : j < numCoeff h * S.nd) :
    Continuous fun w => hsE S.nd S.M S.C S.K w h false i j :=
  continuous_iff_continuousAt.2 fun w => (hsE_hasDerivAt hh S.nd S.M S.C S.K false w i hi j hj).continuousAt

theorem lin_smooth (hh : Admissible h) (hS : S.forces = []) :
    SmoothIn (numCoeff h * S.nd) (hbmFun S Fl h Nt tol) (linR S Fl h) (linJ S h) (linD S h) univ where
  value X := by simp only [hbmFun, lin_value hh hS]
  local' X Y hXY := by
    have hw := hXY _ (Nat.lt_succ_self _)
    have e1 : linR S Fl h X = linR S Fl h Y := by
      funext i
      simp only [linR, hw]
      congr 1
      exact Finset.sum_congr rfl fun j hj => by rw [hXY j (by have := Finset.mem_range.1 hj; omega)]
    have e2 : linJ S h X = linJ S h Y := by simp only [linJ, hw]
    have e3 : linD S h X = linD S h Y := by
      funext i
      simp only [linD, hw]
      exact Finset.sum_congr rfl fun j hj => by rw [hXY j (by have := Finset.mem_range.1 hj; omega)]
    simp only [hbmFun, lin_value hh hS, e1, e2, e3]
  isOpen := isOpen_univ
  deriv v _ i hi := by
    have h1 := ((hbmG_grad S hh (fun _ _ _ => ⟨fun _ => 0, fun _ _ => 0, fun _ => 0⟩) (Spec.ext v) (by simp [hS]) i hi).sub (HasGrad.const (Fl i)))
    have hR := fun X => lin_value (Fl := Fl) (Nt := Nt) (tol := tol) hh hS X
    have e : ∀ X, hbmG S (fun _ _ _ => ⟨fun _ => 0, fun _ _ => 0, fun _ => 0⟩) h X i - Fl i = linR S Fl h X i ∧
        hbmJ S (fun _ _ _ => ⟨fun _ => 0, fun _ _ => 0, fun _ => 0⟩) h X = linJ S h X ∧ hbmD S (fun _ _ _ => ⟨fun _ => 0, fun _ _ => 0, fun _ => 0⟩) h X = linD S h X := fun X => by
      have := hR X
      rw [hbmRes_ok S hh Nt tol (fun _ _ _ => ⟨fun _ => 0, fun _ _ => 0, fun _ => 0⟩) (by simp [hS])] at this
      injection this with this
      injection this with a1 a2
      injection a2 with a2
      exact ⟨congrFun a1 i, (Prod.mk.inj a2).1, (Prod.mk.inj a2).2⟩
    refine (h1.congr fun j hj => ?_).congr_fun fun X => (e X).1.symm
    simp only [fullJac, (e (Spec.ext v)).2.1, (e (Spec.ext v)).2.2, sub_zero]
  cont i hi j hj := by
    have hc : ∀ k, Continuous fun v : Fin (numCoeff h * S.nd + 1) → ℝ => Spec.ext v k := fun k => by
      simp only [Spec.ext]
      split_ifs <;> fun_prop
    refine Continuous.continuousOn ?_
    unfold fullJac
    split_ifs with hjn
    · exact (hsE_continuous hh hi hjn).comp (hc _)
    · unfold linD
      refine continuous_finsetSum _ fun k _ => ?_
      exact ((hsDE_continuous (hsRange h) S.nd S.M S.C h i k (fun _ _ _ => 0) fun _ _ => continuous_const).comp (hc _)).mul (hc k)

/-- The dynamic stiffness. -/
def dynMat (S : VibSys) (h : List ℕ) (w : ℝ) : Matrix (Fin (numCoeff h * S.nd)) (Fin (numCoeff h * S.nd)) ℝ := fun i j => hsE S.nd S.M S.C S.K w h false i j

/-- The response at the frequency `w`. -/
def resp (S : VibSys) (Fl : ℕ → ℝ) (h : List ℕ) (w : ℝ) : Fin (numCoeff h * S.nd) → ℝ :=
  (dynMat S h w).det⁻¹ • (dynMat S h w).adjugate.mulVec fun i => Fl i

theorem resp_iff {w : ℝ} (hreg : Regular (numCoeff h * S.nd) (hsE S.nd S.M S.C S.K w h false)) (v : Fin (numCoeff h * S.nd) → ℝ) :
    (dynMat S h w).mulVec v = (fun i : Fin (numCoeff h * S.nd) => Fl i) ↔ v = resp S Fl h w := by
  have hd : (dynMat S h w).det ≠ 0 := (regular_iff_det _).1 hreg
  have h1 : (dynMat S h w).mulVec (resp S Fl h w) = fun i : Fin (numCoeff h * S.nd) => Fl i := by
    rw [resp, Matrix.mulVec_smul, Matrix.mulVec_mulVec, Matrix.mul_adjugate, Matrix.smul_mulVec, Matrix.one_mulVec, smul_smul, inv_mul_cancel₀ hd, one_smul]
  refine ⟨fun h2 => ?_, fun h2 => by rw [h2, h1]⟩
  have := Matrix.mulVec_injective_of_isUnit ((Matrix.isUnit_iff_isUnit_det _).2 (IsUnit.mk0 _ hd))
  exact this (h2.trans h1.symm)

theorem resp_continuous (hh : Admissible h) {W : Set ℝ} (hreg : ∀ w ∈ W, Regular (numCoeff h * S.nd) (hsE S.nd S.M S.C S.K w h false)) :
    ContinuousOn (resp S Fl h) W := by
  have hc : Continuous (dynMat S h) := continuous_matrix fun i j => hsE_continuous hh i.2 j.2
  exact (hc.matrix_det.continuousOn.inv₀ fun w hw => (regular_iff_det _).1 (hreg w hw)).smul (hc.matrix_adjugate.matrix_mulVec continuous_const).continuousOn

/-- The point of the response curve at the frequency `w`. -/
def respPt (S : VibSys) (Fl : ℕ → ℝ) (h : List ℕ) (w : ℝ) : Fin (numCoeff h * S.nd + 1) → ℝ := fun j =>
  if hj : (j : ℕ) < numCoeff h * S.nd then resp S Fl h w ⟨j, hj⟩ else w

theorem linR_ext (v : Fin (numCoeff h * S.nd + 1) → ℝ) (i : Fin (numCoeff h * S.nd)) :
    linR S Fl h (Spec.ext v) i = (dynMat S h (v (Fin.last _))).mulVec (fun j => v (Fin.castSucc j)) i - Fl i := by
  have e : Spec.ext v (numCoeff h * S.nd) = v (Fin.last _) := by simp [Spec.ext, Fin.last]
  simp only [linR, e, Matrix.mulVec, dotProduct, dynMat]
  rw [Finset.sum_range]
  congr 1
  refine Finset.sum_congr rfl fun j _ => ?_
  congr 1
  simp only [Spec.ext, show (j : ℕ) < numCoeff h * S.nd + 1 by omega, dif_pos]
  rfl

theorem solutions_eq (hreg : ∀ w, Within lam0 lam1 (some y) δ w → Regular (numCoeff h * S.nd) (hsE S.nd S.M S.C S.K w h false)) :
    solutions (numCoeff h * S.nd) (linR S Fl h) lam0 lam1 (some y) δ = respPt S Fl h '' {w | Within lam0 lam1 (some y) δ w} := by
  ext1 v
  constructor
  · rintro ⟨h1, h2⟩
    refine ⟨_, h2, ?_⟩
    have h3 := (resp_iff (Fl := Fl) (hreg _ h2) fun j => v (Fin.castSucc j)).1 (funext fun i => by
      have := h1 i i.2
      rw [linR_ext] at this
      linarith)
    funext j
    simp only [respPt]
    split_ifs with hj
    · rw [← h3]; rfl
    · congr 1
      exact Fin.ext (by simp; omega)
  · rintro ⟨w, hw, rfl⟩
    have e : respPt S Fl h w (Fin.last _) = w := by simp [respPt]
    refine ⟨fun i hi => ?_, by rw [e]; exact hw⟩
    have h3 := (resp_iff (Fl := Fl) (hreg _ hw) (resp S Fl h w)).2 rfl
    have := linR_ext (S := S) (Fl := Fl) (h := h) (respPt S Fl h w) ⟨i, hi⟩
    rw [e] at this
    refine this.trans ?_
    have e2 : (fun j : Fin (numCoeff h * S.nd) => respPt S Fl h w (Fin.castSucc j)) = resp S Fl h w := funext fun j => by simp [respPt]
    rw [e2, h3, sub_self]

theorem within_compact (hlam : lam0 ≠ lam1) : IsCompact {w | Within lam0 lam1 (some y) δ w} := by
  rcases lt_or_gt_of_ne hlam with hl | hl
  · exact (isCompact_Icc (a := lam0 - y - δ) (b := lam1 + δ)).of_isClosed_subset (within_closed _ _ _ _) fun w hw => ⟨(hw.2.2 y rfl).1 hl, hw.1 hl⟩
  · exact (isCompact_Icc (a := lam1 - δ) (b := lam0 + y + δ)).of_isClosed_subset (within_closed _ _ _ _) fun w hw => ⟨hw.2.1 hl, (hw.2.2 y rfl).2 hl⟩

theorem respPt_continuous (hh : Admissible h) {W : Set ℝ} (hreg : ∀ w ∈ W, Regular (numCoeff h * S.nd) (hsE S.nd S.M S.C S.K w h false)) :
    ContinuousOn (respPt S Fl h) W := by
  refine continuousOn_pi.2 fun j => ?_
  simp only [respPt]
  split_ifs with hj
  · exact continuousOn_pi.1 (resp_continuous hh hreg) _
  · exact continuousOn_id

theorem curve_of_regular {N : ℕ} {o : ContOut} (hr : Regular N o.J) : IsCurve N o := by
  intro u v hu hv hn
  by_cases h0 : u N = 0
  · obtain ⟨i, hi, hne⟩ := hn
    have := hr u fun i hi => by have := hu i hi; rwa [h0, mul_zero, add_zero] at this
    rcases Nat.lt_or_ge i N with h | h
    · exact absurd (this i h) hne
    · obtain rfl : i = N := le_antisymm hi h
      exact absurd h0 hne
  · refine ⟨v N / u N, fun i hi => ?_⟩
    rcases Nat.lt_or_ge i N with h | h
    · have := hr (fun i => v i - v N / u N * u i) (fun i hi => by
        have e1 := hu i hi
        have e2 := hv i hi
        have : ∑ j ∈ Finset.range N, o.J i j * (v j - v N / u N * u j) = (∑ j ∈ Finset.range N, o.J i j * v j) - v N / u N * ∑ j ∈ Finset.range N, o.J i j * u j := by
          rw [Finset.mul_sum, ← Finset.sum_sub_distrib]
          exact Finset.sum_congr rfl fun j _ => by ring
        rw [this, show ∑ j ∈ Finset.range N, o.J i j * v j = - (o.d i * v N) by linarith, show ∑ j ∈ Finset.range N, o.J i j * u j = - (o.d i * u N) by linarith]
        field_simp
        ring) i h
      linarith
    · obtain rfl : i = N := le_antisymm hi h
      field_simp

theorem lin_regular (hh : Admissible h) (hlam : lam0 ≠ lam1) (hF : ∃ i < numCoeff h * S.nd, Fl i ≠ 0)
    (hreg : ∀ w, Within lam0 lam1 (some y) δ w → Regular (numCoeff h * S.nd) (hsE S.nd S.M S.C S.K w h false)) :
    RegularSolutions (numCoeff h * S.nd) (linR S Fl h) (linJ S h) (linD S h) univ lam0 lam1 (some y) δ where
  compact := by
    rw [solutions_eq hreg]
    exact (within_compact hlam).image_of_continuousOn (respPt_continuous hh hreg)
  inside _ _ := mem_univ _
  curve v hv := curve_of_regular (by
    have e : Spec.ext v (numCoeff h * S.nd) = v (Fin.last _) := by simp [Spec.ext, Fin.last]
    show Regular _ (hsE S.nd S.M S.C S.K (Spec.ext v (numCoeff h * S.nd)) h false)
    rw [e]
    exact hreg _ hv.2)
  nonzero v hv := by
    by_contra hc
    push Not at hc
    obtain ⟨i, hi, hne⟩ := hF
    have := hv.1 i hi
    simp only [linR] at this
    rw [Finset.sum_eq_zero fun j hj => by rw [hc j (Finset.mem_range.1 hj), mul_zero], zero_sub, neg_eq_zero] at this
    exact hne this

/-- A damped system has a regular dynamic stiffness at each frequency but zero. -/
theorem damped_regular (hh : Admissible h) (hM : ∀ d < S.nd, ∀ e < S.nd, S.M d e = S.M e d) (hK : ∀ d < S.nd, ∀ e < S.nd, S.K d e = S.K e d)
    (hC : ∀ v : ℕ → ℝ, (∃ d < S.nd, v d ≠ 0) → 0 < ∑ d ∈ Finset.range S.nd, ∑ e ∈ Finset.range S.nd, v d * S.C d e * v e)
    (hK0 : 0 ∈ h → Regular S.nd S.K) {w : ℝ} (hw : w ≠ 0) : Regular (numCoeff h * S.nd) (hsE S.nd S.M S.C S.K w h false) := by
  intro U hU
  have h0 := hh.zero_first
  have hC0 : ∀ v : ℕ → ℝ, 0 ≤ ∑ d ∈ Finset.range S.nd, ∑ e ∈ Finset.range S.nd, v d * S.C d e * v e := fun v => by
    by_cases hv : ∃ d < S.nd, v d ≠ 0
    · exact (hC v hv).le
    · push Not at hv
      exact (Finset.sum_eq_zero fun d hd => Finset.sum_eq_zero fun e _ => by rw [hv d (Finset.mem_range.1 hd), zero_mul, zero_mul]).ge
  have hlt : ∀ {R d : ℕ}, R < numCoeff h → d < S.nd → S.nd * R + d < numCoeff h * S.nd := fun {R d} hR hd => by
    calc S.nd * R + d < S.nd * R + S.nd := by omega
      _ = (R + 1) * S.nd := by ring
      _ ≤ _ := Nat.mul_le_mul_right _ hR
  have key : ∀ i ∈ Finset.Ico (zi h) h.length, ∀ d < S.nd, U (S.nd * (i * 2 - zi h) + d) = 0 ∧ U (S.nd * (i * 2 - zi h + 1) + d) = 0 := fun i hi => by
    have hp := pos_lt h0 hi
    set a : ℕ → ℝ := fun d => U (S.nd * (i * 2 - zi h) + d) with ha
    set b : ℕ → ℝ := fun d => U (S.nd * (i * 2 - zi h + 1) + d) with hb
    set n : ℝ := ((h.getD i 0 : ℕ) : ℝ) with hn
    have hn0 : n ≠ 0 := by rw [hn]; exact_mod_cast getD_ne_zero h0 hi
    have e1 : ∀ d < S.nd, ∑ e ∈ Finset.range S.nd, (n * w * S.C d e * b e + (S.K d e - (n * w) ^ 2 * S.M d e) * a e) = 0 := fun d hd => by
      have := hsE_mulVec_cos S.M S.C S.K w h0 hi hd U false
      simp only [Bool.false_eq_true, if_false] at this
      rw [← this]
      exact hU _ (hlt (by omega) hd)
    have e2 : ∀ d < S.nd, ∑ e ∈ Finset.range S.nd, (-(n * w * S.C d e * a e) + (S.K d e - (n * w) ^ 2 * S.M d e) * b e) = 0 := fun d hd => by
      have := hsE_mulVec_sin S.M S.C S.K w h0 hi hd U false
      simp only [Bool.false_eq_true, if_false] at this
      rw [← this]
      exact hU _ (hlt (by omega) hd)
    have e3 : ∑ d ∈ Finset.range S.nd, (b d * ∑ e ∈ Finset.range S.nd, (n * w * S.C d e * b e + (S.K d e - (n * w) ^ 2 * S.M d e) * a e)
        - a d * ∑ e ∈ Finset.range S.nd, (-(n * w * S.C d e * a e) + (S.K d e - (n * w) ^ 2 * S.M d e) * b e)) = 0 :=
      Finset.sum_eq_zero fun d hd => by rw [e1 d (Finset.mem_range.1 hd), e2 d (Finset.mem_range.1 hd)]; ring
    have e4 : ∑ d ∈ Finset.range S.nd, ∑ e ∈ Finset.range S.nd, b d * (S.K d e - (n * w) ^ 2 * S.M d e) * a e
        = ∑ d ∈ Finset.range S.nd, ∑ e ∈ Finset.range S.nd, a d * (S.K d e - (n * w) ^ 2 * S.M d e) * b e := by
      rw [Finset.sum_comm]
      refine Finset.sum_congr rfl fun d hd => Finset.sum_congr rfl fun e he => ?_
      rw [hK e (Finset.mem_range.1 he) d (Finset.mem_range.1 hd), hM e (Finset.mem_range.1 he) d (Finset.mem_range.1 hd)]
      ring
    have e5 : n * w * ((∑ d ∈ Finset.range S.nd, ∑ e ∈ Finset.range S.nd, a d * S.C d e * a e) + ∑ d ∈ Finset.range S.nd, ∑ e ∈ Finset.range S.nd, b d * S.C d e * b e)
        + ((∑ d ∈ Finset.range S.nd, ∑ e ∈ Finset.range S.nd, b d * (S.K d e - (n * w) ^ 2 * S.M d e) * a e)
          - ∑ d ∈ Finset.range S.nd, ∑ e ∈ Finset.range S.nd, a d * (S.K d e - (n * w) ^ 2 * S.M d e) * b e) = 0 := by
      rw [← e3]
      simp only [mul_add, Finset.mul_sum, ← Finset.sum_add_distrib, ← Finset.sum_sub_distrib]
      refine Finset.sum_congr rfl fun d _ => Finset.sum_congr rfl fun e _ => by ring
    rw [e4, sub_self, add_zero] at e5
    have e6 := (mul_eq_zero.1 e5).resolve_left (mul_ne_zero hn0 hw)
    intro d hd
    constructor
    · by_contra hne
      linarith [hC a ⟨d, hd, hne⟩, hC0 b]
    · by_contra hne
      linarith [hC b ⟨d, hd, hne⟩, hC0 a]
  intro j hj
  have hnd : 0 < S.nd := by
    rcases Nat.eq_zero_or_pos S.nd with h' | h'
    · rw [h', mul_zero] at hj; omega
    · exact h'
  have hR : j / S.nd < numCoeff h := (Nat.div_lt_iff_lt_mul hnd).2 hj
  have hd : j % S.nd < S.nd := Nat.mod_lt _ hnd
  have ej : S.nd * (j / S.nd) + j % S.nd = j := Nat.div_add_mod j S.nd
  rcases row_cases h0 hR with ⟨hz, hR0⟩ | ⟨i, hi, hRi⟩
  · have hz0 : 0 ∈ h := by
      unfold zi at hz
      split_ifs at hz with hc
      obtain ⟨k, l, rfl⟩ := List.exists_cons_of_ne_nil hc.2
      have : k = 0 := hc.1
      simp [this]
    have := hK0 hz0 U (fun d hd => by
      have := hsE_mulVec_zero S.M S.C S.K w hz hd U false
      simp only [Bool.false_eq_true, if_false, mul_zero, zero_add] at this
      rw [← this]
      exact hU d (by have := hlt (R := 0) (by omega) hd; omega)) (j % S.nd) hd
    rw [← ej, hR0, mul_zero, zero_add]
    exact this
  · rcases hRi with e | e
    · rw [← ej, e]; exact (key i hi _ hd).1
    · rw [← ej, e]; exact (key i hi _ hd).2

/-- The periodic motion with the coefficients `U` at the frequency `w` satisfies the linear equation of motion with the force of the
coefficients `Fl` at all times. -/
def SteadyMotion (S : VibSys) (Fl : ℕ → ℝ) (h : List ℕ) (w : ℝ) (U : ℕ → ℝ) : Prop :=
  ∀ d < S.nd, ∀ t : ℝ,
    let x : ℕ → ℝ → ℝ := fun e t => series h (fun r => U (r * S.nd + e)) (w * t)
    ∑ e ∈ Finset.range S.nd, (S.M d e * deriv (deriv (x e)) t + S.C d e * deriv (x e) t + S.K d e * x e t) = series h (fun r => Fl (r * S.nd + d)) (w * t)

theorem steady_iff (hh : Admissible h) (hS : S.forces = []) {X : ℕ → ℝ} (hw : X (numCoeff h * S.nd) ≠ 0) :
    SteadyMotion S Fl h (X (numCoeff h * S.nd)) X ↔ ∀ i < numCoeff h * S.nd, linR S Fl h X i = 0 := by
  obtain ⟨R, g, h1, h2⟩ := C45_zero_iff S h hh 0 0 (fun _ _ _ => ⟨fun _ => 0, fun _ _ => 0, fun _ => 0⟩) (by simp [hS]) X Fl hw
  rw [lin_value hh hS] at h1
  injection h1 with h1
  injection h1 with a1 a2
  rw [a1, h2]
  refine forall_congr' fun d => forall_congr' fun hd => forall_congr' fun t => ?_
  have hx : ∀ e < S.nd, (fun t => series h (fun r => sl 0 (numCoeff h * S.nd) X (r * S.nd + e)) (X (numCoeff h * S.nd) * t))
      = fun t => series h (fun r => X (r * S.nd + e)) (X (numCoeff h * S.nd) * t) := fun e he => funext fun t =>
    series_congr (fun r hr => sl_zero (by
      calc r * S.nd + e < r * S.nd + S.nd := by omega
        _ = (r + 1) * S.nd := by ring
        _ ≤ _ := Nat.mul_le_mul_right _ hr) X) _
  have hz : series h (fun r => (S.forces.map fun _ => (0 : ℝ)).sum) (X (numCoeff h * S.nd) * t) = 0 :=
    (series_congr (c' := fun _ => 0) (fun _ _ => by simp [hS]) _).trans ((series_eq_zero_iff hh.nodup _ hw).mpr (fun _ _ => rfl) t)
  simp only [hz, add_zero]
  have : ∀ e ∈ Finset.range S.nd, (S.M d e * deriv (deriv fun t => series h (fun r => sl 0 (numCoeff h * S.nd) X (r * S.nd + e)) (X (numCoeff h * S.nd) * t)) t
      + S.C d e * deriv (fun t => series h (fun r => sl 0 (numCoeff h * S.nd) X (r * S.nd + e)) (X (numCoeff h * S.nd) * t)) t
      + S.K d e * series h (fun r => sl 0 (numCoeff h * S.nd) X (r * S.nd + e)) (X (numCoeff h * S.nd) * t))
      = (S.M d e * deriv (deriv fun t => series h (fun r => X (r * S.nd + e)) (X (numCoeff h * S.nd) * t)) t
      + S.C d e * deriv (fun t => series h (fun r => X (r * S.nd + e)) (X (numCoeff h * S.nd) * t)) t
      + S.K d e * series h (fun r => X (r * S.nd + e)) (X (numCoeff h * S.nd) * t)) := fun e he => by
    have h3 := hx e (Finset.mem_range.1 he)
    rw [h3, show series h (fun r => sl 0 (numCoeff h * S.nd) X (r * S.nd + e)) (X (numCoeff h * S.nd) * t) = _ from congrFun h3 t]
  rw [Finset.sum_congr rfl this]

/-- A motion with any frequency but zero is a point of the response curve exactly when it satisfies the equation of motion. -/
theorem steady_resp (hh : Admissible h) (hS : S.forces = []) {w : ℝ} (hw : w ≠ 0)
    (hreg : Regular (numCoeff h * S.nd) (hsE S.nd S.M S.C S.K w h false)) (U : ℕ → ℝ) :
    SteadyMotion S Fl h w U ↔ ∀ j : Fin (numCoeff h * S.nd), U j = resp S Fl h w j := by
  set X : ℕ → ℝ := fun j => if j < numCoeff h * S.nd then U j else w with hX
  have hXn : X (numCoeff h * S.nd) = w := by simp [hX]
  have hXj : ∀ j < numCoeff h * S.nd, X j = U j := fun j hj => by simp [hX, hj]
  have h1 : SteadyMotion S Fl h w U ↔ SteadyMotion S Fl h (X (numCoeff h * S.nd)) X := by
    rw [hXn]
    refine forall_congr' fun d => forall_congr' fun hd => forall_congr' fun t => ?_
    have hx : ∀ e < S.nd, (fun t => series h (fun r => U (r * S.nd + e)) (w * t)) = fun t => series h (fun r => X (r * S.nd + e)) (w * t) := fun e he => funext fun t =>
      series_congr (fun r hr => (hXj _ (by
        calc r * S.nd + e < r * S.nd + S.nd := by omega
          _ = (r + 1) * S.nd := by ring
          _ ≤ _ := Nat.mul_le_mul_right _ hr)).symm) _
    have : ∀ e ∈ Finset.range S.nd, (S.M d e * deriv (deriv fun t => series h (fun r => U (r * S.nd + e)) (w * t)) t
        + S.C d e * deriv (fun t => series h (fun r => U (r * S.nd + e)) (w * t)) t + S.K d e * series h (fun r => U (r * S.nd + e)) (w * t))
        = (S.M d e * deriv (deriv fun t => series h (fun r => X (r * S.nd + e)) (w * t)) t
        + S.C d e * deriv (fun t => series h (fun r => X (r * S.nd + e)) (w * t)) t + S.K d e * series h (fun r => X (r * S.nd + e)) (w * t)) := fun e he => by
      have h3 := hx e (Finset.mem_range.1 he)
      rw [h3, show series h (fun r => U (r * S.nd + e)) (w * t) = _ from congrFun h3 t]
    simp only
    rw [Finset.sum_congr rfl this]
  rw [h1, steady_iff hh hS (by rwa [hXn])]
  have h2 := resp_iff (Fl := Fl) hreg fun j : Fin (numCoeff h * S.nd) => U j
  have h3 : (∀ i < numCoeff h * S.nd, linR S Fl h X i = 0) ↔ (dynMat S h w).mulVec (fun j : Fin (numCoeff h * S.nd) => U j) = fun i : Fin (numCoeff h * S.nd) => Fl i := by
    have h4 : ∀ i : Fin (numCoeff h * S.nd), linR S Fl h X i = (dynMat S h w).mulVec (fun j : Fin (numCoeff h * S.nd) => U j) i - Fl i := fun i => by
      simp only [linR, hXn, Matrix.mulVec, dotProduct, dynMat]
      rw [Finset.sum_range]
      congr 1
      exact Finset.sum_congr rfl fun j _ => by rw [hXj j j.2]
    constructor
    · intro H
      funext i
      have := H i i.2
      rw [h4] at this
      linarith
    · intro H i hi
      rw [h4 ⟨i, hi⟩, H, sub_self]
  rw [h3, h2, funext_iff]

/-- C141: a sweep of the harmonic balance of a linear system whose dynamic stiffness is regular over the range is its frequency response. -/
theorem C141_sweep (hh : Admissible h) (hS : S.forces = []) (hF : ∃ i < numCoeff h * S.nd, Fl i ≠ 0) (hlam : lam0 ≠ lam1) (hy : 0 < y) (hδ : 0 < δ)
    (hreg : ∀ w, Within lam0 lam1 (some y) δ w → w ≠ 0 ∧ Regular (numCoeff h * S.nd) (hsE S.nd S.M S.C S.K w h false))
    {obj : ContObj} {r b η inf : ℝ} {L : ℕ → Type} {lin : ℕ → (ℕ → ℕ → ℝ) → (ℕ → ℝ) → Except Err (ℕ → ℝ)}
    {fac : (n : ℕ) → Matrix (Fin n) (Fin n) ℝ → L n} {sol : (n : ℕ) → L n → (Fin n → ℝ) → (Fin n → ℝ)}
    (hC : ∀ i ≤ numCoeff h * S.nd, 0 < (contPrepare obj).CtoP i) (hr : (contPrepare obj).RPtoC = .vector fun _ => r) (hr0 : r ≠ 0)
    (hb : 0 < b) (hb1 : b < 1) (hlin : LinOk lin) (hsol : ∀ n, ExactSolve (fac n) (sol n)) (hη : 0 < η) :
    ∃ s0 > 0, ∃ t0 > 0, ∃ c > 0, ∃ p > 0, ∃ r0 > 0, ∀ smin > 0, ∀ t > 0, t ≤ t0 → t ≤ c * smin → ∃ M, ∀ om, PlainNewton om → M ≤ om.maxSteps →
      ∀ (cfg : ContCfg) (rest : List ℝ), cfg.corrector = .ortho → cfg.dynamicCtoP = false → cfg.fracLamList = b :: rest → cfg.backtrackStop = some y →
      smin ≤ cfg.dsmin → smin ≤ cfg.dsmax → cfg.dsmax ≤ s0 → smin ≤ cfg.ds0 → cfg.ds0 ≤ s0 → |lam1 - lam0| ≤ p * smin * (cfg.maxSteps - 1) →
      ∀ XlamP0 U0 : ℕ → ℝ, SteadyMotion S Fl h lam0 U0 → (∀ i < numCoeff h * S.nd, |XlamP0 i - U0 i| < r0) → ∀ fuel > cfg.maxSteps,
      ∃ res, continuation (ompContSolver lin inf fac sol om (some t)) (numCoeff h * S.nd) cfg obj (hbmFun S Fl h Nt tol) XlamP0 lam0 lam1 fuel = .ok res ∧
        res.ok = true ∧ 0 < res.n ∧
        (∀ k < res.n, (∃ U, SteadyMotion S Fl h (res.rows k (numCoeff h * S.nd)) U) ∧
          ∀ U, SteadyMotion S Fl h (res.rows k (numCoeff h * S.nd)) U → ∀ j < numCoeff h * S.nd, |res.rows k j - U j| < η) ∧
        (∀ k, k + 1 < res.n → p * smin ≤ (if lam0 < lam1 then 1 else -1) * (res.rows (k + 1) (numCoeff h * S.nd) - res.rows k (numCoeff h * S.nd))) ∧
        res.rows 0 (numCoeff h * S.nd) = lam0 ∧ (∀ k, k + 1 < res.n → Ahead lam0 lam1 (res.rows k (numCoeff h * S.nd))) ∧
        ¬ Ahead lam0 lam1 (res.rows (res.n - 1) (numCoeff h * S.nd)) := by
  have hδ2 : ∀ {w}, Within lam0 lam1 (some y) (δ / 2) w → Within lam0 lam1 (some y) δ w := fun hw =>
    ⟨fun hl => by linarith [hw.1 hl], fun hl => by linarith [hw.2.1 hl], fun z hz => ⟨fun hl => by linarith [(hw.2.2 z hz).1 hl], fun hl => by linarith [(hw.2.2 z hz).2 hl]⟩⟩
  have hδ3 : ∀ {w w'}, Within lam0 lam1 (some y) (δ / 2) w → |w' - w| < δ / 2 → Within lam0 lam1 (some y) δ w' := fun hw ha => by
    obtain ⟨a1, a2⟩ := abs_lt.1 ha
    exact ⟨fun hl => by linarith [hw.1 hl], fun hl => by linarith [hw.2.1 hl], fun z hz => ⟨fun hl => by linarith [(hw.2.2 z hz).1 hl], fun hl => by linarith [(hw.2.2 z hz).2 hl]⟩⟩
  have hreg2 : ∀ w, Within lam0 lam1 (some y) (δ / 2) w → Regular (numCoeff h * S.nd) (hsE S.nd S.M S.C S.K w h false) := fun w hw => (hreg w (hδ2 hw)).2
  obtain ⟨θ, hθ, Hθ⟩ := Metric.uniformContinuousOn_iff.1 ((within_compact (y := y) (δ := δ) hlam).uniformContinuousOn_of_continuous
    (resp_continuous (S := S) (Fl := Fl) hh fun w hw => (hreg w hw).2)) (η / 2) (half_pos hη)
  have hw0 : Within lam0 lam1 (some y) (δ / 2) lam0 := by
    refine ⟨fun hl => by linarith, fun hl => by linarith, fun z hz => ?_⟩
    obtain rfl : z = y := (Option.some.inj hz).symm
    exact ⟨fun hl => by linarith, fun hl => by linarith⟩
  have hlast : ∀ w, respPt S Fl h w (Fin.last _) = w := fun w => by simp [respPt]
  obtain ⟨s0, hs0, t0, ht0, c, hc, p, hp, r0, hr0', H⟩ := C140_reaches (inf := inf) (η := min (η / 2) (min (δ / 2) θ)) (lin_smooth (Fl := Fl) (Nt := Nt) (tol := tol) hh hS)
    (lin_regular hh hlam hF hreg2) (half_pos hδ) hlam (fun v hv => by
      have e : Spec.ext v (numCoeff h * S.nd) = v (Fin.last _) := by simp [Spec.ext, Fin.last]
      show Regular _ (hsE S.nd S.M S.C S.K (Spec.ext v (numCoeff h * S.nd)) h false)
      rw [e]
      exact hreg2 _ hv.2) (fun z hz => by rwa [← Option.some.inj hz]) (x := respPt S Fl h lam0) (by rw [solutions_eq hreg2]; exact ⟨_, hw0, rfl⟩) (hlast _)
    hC hr hr0 hb hb1 hlin hsol (lt_min (half_pos hη) (lt_min (half_pos hδ) hθ))
  refine ⟨s0, hs0, t0, ht0, c, hc, p, hp, r0, hr0', fun smin hsm t ht htt htc => ?_⟩
  obtain ⟨M, HM⟩ := H smin hsm t ht htt htc
  refine ⟨M, fun om hom hmM cfg rest c1 c2 c3 c4 c5 c6 c7 c8 c9 c10 XlamP0 U0 hU0 hX fuel hf => ?_⟩
  obtain ⟨res, e1, e2, e3, e4, e5, e6, e7, e8⟩ := HM om hom hmM cfg rest c1 c2 c3 c4 c5 c6 c7 c8 c9 c10 XlamP0 (fun i hi => by
    have := (steady_resp hh hS (hreg _ (hδ2 hw0)).1 (hreg2 _ hw0) U0).1 hU0 ⟨i, hi⟩
    have h2 : Spec.ext (respPt S Fl h lam0) i = U0 i := by
      simp only [Spec.ext, show i < numCoeff h * S.nd + 1 by omega, dif_pos, respPt, hi]
      exact this.symm
    rw [h2]
    exact hX i hi) fuel hf
  refine ⟨res, e1, e2, e3, fun k hk => ?_, e5, e6, e7, e8⟩
  obtain ⟨v, hv, hcl⟩ := e4 k hk
  rw [solutions_eq hreg2] at hv
  obtain ⟨w, hw, rfl⟩ := hv
  have hn := hcl _ le_rfl
  have hen : Spec.ext (respPt S Fl h w) (numCoeff h * S.nd) = w := by simp [Spec.ext, respPt]
  rw [hen] at hn
  have hwk := hδ3 hw (hn.trans_le ((min_le_right _ _).trans (min_le_left _ _)))
  have hs := fun U => steady_resp (Fl := Fl) hh hS (hreg _ hwk).1 (hreg _ hwk).2 U
  refine ⟨⟨Spec.ext (resp S Fl h (res.rows k (numCoeff h * S.nd))), (hs _).2 fun j => by simp [Spec.ext]⟩, fun U hU j hj => ?_⟩
  have h1 := (hs U).1 hU ⟨j, hj⟩
  have h2 := hcl j hj.le
  have h3 := Hθ _ hwk _ (hδ2 hw) (by rw [Real.dist_eq]; exact hn.trans_le ((min_le_right _ _).trans (min_le_right _ _)))
  rw [dist_eq_norm] at h3
  have h4 := (norm_le_pi_norm (resp S Fl h (res.rows k (numCoeff h * S.nd)) - resp S Fl h w) ⟨j, hj⟩).trans_lt h3
  rw [Pi.sub_apply, Real.norm_eq_abs] at h4
  have h5 : Spec.ext (respPt S Fl h w) j = resp S Fl h w ⟨j, hj⟩ := by
    simp only [Spec.ext, show j < numCoeff h * S.nd + 1 by omega, dif_pos, respPt, hj]
  rw [h5] at h2
  have h2' := h2.trans_le (min_le_left _ _)
  simp only at h1
  rw [h1]
  rw [abs_lt] at h4 h2' ⊢
  constructor <;> linarith

/-- C141 for a damped system: symmetric mass and stiffness, positive definite damping, and a regular stiffness when the static coefficient is
retained.  Nothing is assumed of the frequencies but that they and the limit of the backtracking are positive: resonances are passed. -/
theorem C141_damped (hh : Admissible h) (hS : S.forces = []) (hF : ∃ i < numCoeff h * S.nd, Fl i ≠ 0) (h1 : 0 < lam1) (hlam : lam0 ≠ lam1)
    (hy : 0 < y) (hy0 : y < lam0) (hM : ∀ d < S.nd, ∀ e < S.nd, S.M d e = S.M e d) (hK : ∀ d < S.nd, ∀ e < S.nd, S.K d e = S.K e d)
    (hCd : ∀ v : ℕ → ℝ, (∃ d < S.nd, v d ≠ 0) → 0 < ∑ d ∈ Finset.range S.nd, ∑ e ∈ Finset.range S.nd, v d * S.C d e * v e)
    (hK0 : 0 ∈ h → Regular S.nd S.K)
    {obj : ContObj} {r b η inf : ℝ} {L : ℕ → Type} {lin : ℕ → (ℕ → ℕ → ℝ) → (ℕ → ℝ) → Except Err (ℕ → ℝ)}
    {fac : (n : ℕ) → Matrix (Fin n) (Fin n) ℝ → L n} {sol : (n : ℕ) → L n → (Fin n → ℝ) → (Fin n → ℝ)}
    (hC : ∀ i ≤ numCoeff h * S.nd, 0 < (contPrepare obj).CtoP i) (hr : (contPrepare obj).RPtoC = .vector fun _ => r) (hr0 : r ≠ 0)
    (hb : 0 < b) (hb1 : b < 1) (hlin : LinOk lin) (hsol : ∀ n, ExactSolve (fac n) (sol n)) (hη : 0 < η) :
    ∃ s0 > 0, ∃ t0 > 0, ∃ c > 0, ∃ p > 0, ∃ r0 > 0, ∀ smin > 0, ∀ t > 0, t ≤ t0 → t ≤ c * smin → ∃ M, ∀ om, PlainNewton om → M ≤ om.maxSteps →
      ∀ (cfg : ContCfg) (rest : List ℝ), cfg.corrector = .ortho → cfg.dynamicCtoP = false → cfg.fracLamList = b :: rest → cfg.backtrackStop = some y →
      smin ≤ cfg.dsmin → smin ≤ cfg.dsmax → cfg.dsmax ≤ s0 → smin ≤ cfg.ds0 → cfg.ds0 ≤ s0 → |lam1 - lam0| ≤ p * smin * (cfg.maxSteps - 1) →
      ∀ XlamP0 U0 : ℕ → ℝ, SteadyMotion S Fl h lam0 U0 → (∀ i < numCoeff h * S.nd, |XlamP0 i - U0 i| < r0) → ∀ fuel > cfg.maxSteps,
      ∃ res, continuation (ompContSolver lin inf fac sol om (some t)) (numCoeff h * S.nd) cfg obj (hbmFun S Fl h Nt tol) XlamP0 lam0 lam1 fuel = .ok res ∧
        res.ok = true ∧ 0 < res.n ∧
        (∀ k < res.n, (∃ U, SteadyMotion S Fl h (res.rows k (numCoeff h * S.nd)) U) ∧
          ∀ U, SteadyMotion S Fl h (res.rows k (numCoeff h * S.nd)) U → ∀ j < numCoeff h * S.nd, |res.rows k j - U j| < η) ∧
        (∀ k, k + 1 < res.n → p * smin ≤ (if lam0 < lam1 then 1 else -1) * (res.rows (k + 1) (numCoeff h * S.nd) - res.rows k (numCoeff h * S.nd))) ∧
        res.rows 0 (numCoeff h * S.nd) = lam0 ∧ (∀ k, k + 1 < res.n → Ahead lam0 lam1 (res.rows k (numCoeff h * S.nd))) ∧
        ¬ Ahead lam0 lam1 (res.rows (res.n - 1) (numCoeff h * S.nd)) := by
  have hm : 0 < min (lam0 - y) lam1 / 2 := half_pos (lt_min (by linarith) h1)
  refine C141_sweep (δ := min (lam0 - y) lam1 / 2) hh hS hF hlam hy hm (fun w hw => ?_) hC hr hr0 hb hb1 hlin hsol hη
  have hw0 : 0 < w := by
    have a1 := min_le_left (lam0 - y) lam1
    have a2 := min_le_right (lam0 - y) lam1
    rcases lt_or_gt_of_ne hlam with hl | hl
    · linarith [(hw.2.2 y rfl).1 hl]
    · linarith [hw.2.1 hl]
  exact ⟨hw0.ne', damped_regular hh hM hK hCd hK0 hw0.ne'⟩

/-- A lightly damped oscillator with the natural frequency 1. -/
def oscSys : VibSys := ⟨1, fun _ _ => 1, fun _ _ => 1, fun _ _ => 1 / 10, none, []⟩

theorem osc_steady {w : ℝ} (hw : w ≠ 0) : SteadyMotion oscSys (fun i => if i = 0 then 1 else 0) [1] w
    (fun i => (if i = 0 then 1 - w ^ 2 else w / 10) / ((1 - w ^ 2) ^ 2 + (w / 10) ^ 2)) := by
  have hh : Admissible [1] := ⟨by simp, by simp, by simp⟩
  have hD : 0 < (1 - w ^ 2) ^ 2 + (w / 10) ^ 2 := by positivity
  have hreg : Regular (numCoeff [1] * oscSys.nd) (hsE oscSys.nd oscSys.M oscSys.C oscSys.K w [1] false) :=
    damped_regular hh (fun _ _ _ _ => rfl) (fun _ _ _ _ => rfl) (fun v hv => by
      obtain ⟨d, hd, hne⟩ := hv
      obtain rfl : d = 0 := by simp [oscSys] at hd; omega
      have : 0 < v 0 * v 0 := mul_self_pos.2 hne
      simp [oscSys]
      linarith) (by simp) hw
  rw [steady_resp hh rfl hw hreg, ← funext_iff]
  refine (resp_iff hreg _).1 ?_
  funext i
  have hi : (i : ℕ) < 2 := by have := i.2; simpa [numCoeff, oscSys] using this
  have hc := hsE_mulVec_cos (nd := 1) (fun _ _ => 1) (fun _ _ => 1 / 10) (fun _ _ => 1) w (h := [1]) (by simp) (i := 0) (by simp [zi]) (d := 0) (by omega)
    (fun i => (if i = 0 then 1 - w ^ 2 else w / 10) / ((1 - w ^ 2) ^ 2 + (w / 10) ^ 2)) false
  have hs := hsE_mulVec_sin (nd := 1) (fun _ _ => 1) (fun _ _ => 1 / 10) (fun _ _ => 1) w (h := [1]) (by simp) (i := 0) (by simp [zi]) (d := 0) (by omega)
    (fun i => (if i = 0 then 1 - w ^ 2 else w / 10) / ((1 - w ^ 2) ^ 2 + (w / 10) ^ 2)) false
  have e : ∀ U : ℕ → ℝ, (dynMat oscSys [1] w).mulVec (fun j => U j) i = matVec (numCoeff [1] * 1) (hsE 1 (fun _ _ => 1) (fun _ _ => 1 / 10) (fun _ _ => 1) w [1] false) U i := fun U => by
    simp only [Matrix.mulVec, dotProduct, dynMat, matVec, oscSys]
    rw [Finset.sum_range]
    rfl
  refine (e fun i => (if i = 0 then 1 - w ^ 2 else w / 10) / ((1 - w ^ 2) ^ 2 + (w / 10) ^ 2)).trans ?_
  rcases (by omega : (i : ℕ) = 0 ∨ (i : ℕ) = 1) with h | h
  · rw [h]
    refine hc.trans ?_
    simp [zi]
    field_simp
    ring
  · rw [h]
    refine hs.trans ?_
    simp [zi]
    field_simp
    ring

/-- C141 on the oscillator, swept through its resonance from 1/2 to 2: every stored point is within 1/100 of the closed form of the response. -/
example : ∃ s0 > 0, ∃ c > 0, ∃ p > (0 : ℝ), ∀ t > 0, t ≤ c → ∃ M, ∀ om, PlainNewton om → M ≤ om.maxSteps → ∀ n : ℕ, 3 / 2 ≤ p * (n - 1) →
    ∀ cfg : ContCfg, cfg.corrector = .ortho → cfg.dynamicCtoP = false → cfg.fracLamList = [1 / 2] → cfg.backtrackStop = some (1 / 4) → cfg.dsmin = s0 / 10 → cfg.dsmax = s0 →
      cfg.ds0 = s0 → cfg.maxSteps = n →
    ∃ res, continuation (ompContSolver exactLin 0 (fun _ => id) (fun _ D v => D⁻¹.mulVec v) om (some t)) 2 cfg ⟨fun _ => 1, .scalar 1, true, true, 1 / 2, 0⟩
      (hbmFun oscSys (fun i => if i = 0 then 1 else 0) [1] 8 0) (fun i => (if i = 0 then 1 - (1 / 2) ^ 2 else (1 / 2) / 10) / ((1 - (1 / 2) ^ 2) ^ 2 + ((1 / 2) / 10) ^ 2)) (1 / 2) 2
      (n + 1) = .ok res ∧ res.ok = true ∧ 2 ≤ res.rows (res.n - 1) 2 ∧ ∀ k < res.n, 0 < res.rows k 2 ∧
        |res.rows k 0 - (1 - res.rows k 2 ^ 2) / ((1 - res.rows k 2 ^ 2) ^ 2 + (res.rows k 2 / 10) ^ 2)| < 1 / 100 := by
  have hh : Admissible [1] := ⟨by simp, by simp, by simp⟩
  have hN : numCoeff [1] * oscSys.nd = 2 := by simp [numCoeff, oscSys]
  obtain ⟨s0, hs0, t0, ht0, c, hc, p, hp, r0, hr0, H⟩ := C141_damped (S := oscSys) (Fl := fun i => if i = 0 then 1 else 0) (h := [1]) (Nt := 8) (tol := 0) (lam0 := 1 / 2) (lam1 := 2)
    (y := 1 / 4) (inf := 0) (fac := fun _ => id) (sol := fun _ D v => D⁻¹.mulVec v) (r := 1) (b := 1 / 2) (η := 1 / 100) (obj := ⟨fun _ => 1, .scalar 1, true, true, 1 / 2, 0⟩)
    hh rfl ⟨0, by rw [hN]; omega, by simp⟩ (by norm_num) (by norm_num) (by norm_num) (by norm_num) (fun _ _ _ _ => rfl) (fun _ _ _ _ => rfl) (fun v hv => by
      obtain ⟨d, hd, hne⟩ := hv
      obtain rfl : d = 0 := by simp [oscSys] at hd; omega
      have : 0 < v 0 * v 0 := mul_self_pos.2 hne
      simp [oscSys]
      linarith) (by simp) (by intro i _; simp [contPrepare]) (by simp [contPrepare]) one_ne_zero (by norm_num) (by norm_num) exactLin_ok (fun _ => exactSolve_inv) (by norm_num)
  refine ⟨s0, hs0, min t0 (c * (s0 / 10)), lt_min ht0 (by positivity), p * (s0 / 10), by positivity, fun t h1 h2 => ?_⟩
  obtain ⟨M, HM⟩ := H (s0 / 10) (by positivity) t h1 (h2.trans (min_le_left _ _)) (h2.trans (min_le_right _ _))
  refine ⟨M, fun om h3 h4 n hn cfg c1 c2 c3 c4 c5 c6 c7 c8 => ?_⟩
  obtain ⟨res, e1, e2, -, e4, e5, e6, -, e3⟩ := HM om h3 h4 cfg [] c1 c2 c3 c4 c5.ge (by rw [c6]; linarith) c6.le (by rw [c7]; linarith) c7.le
    (by rw [c8, abs_of_pos (by norm_num)]; linarith)
    (fun i => (if i = 0 then 1 - (1 / 2) ^ 2 else (1 / 2) / 10) / ((1 - (1 / 2) ^ 2) ^ 2 + ((1 / 2) / 10) ^ 2)) _ (osc_steady (by norm_num)) (fun i _ => by simpa using hr0) (n + 1) (by omega)
  rw [hN] at e1 e3 e4 e5 e6
  have hpos : ∀ k < res.n, 1 / 2 ≤ res.rows k 2 := fun k => by
    induction k with
    | zero => intro _; rw [e6]
    | succ k ih =>
      intro hk
      have h5 := e5 k hk
      rw [if_pos (by norm_num)] at h5
      have h6 : 0 < p * (s0 / 10) := by positivity
      linarith [ih (by omega)]
  refine ⟨res, e1, e2, ?_, fun k hk => ⟨by linarith [hpos k hk], ?_⟩⟩
  · by_contra h
    exact e3 (Or.inl ⟨by norm_num, not_le.1 h⟩)
  · simpa using (e4 k hk).2 _ (osc_steady (by linarith [hpos k hk])) 0 (by omega)

end

end TMD
