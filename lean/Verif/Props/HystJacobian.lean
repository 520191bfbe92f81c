import Verif.Lemmas.HystLocal
import Mathlib.Tactic.IntervalCases

/-!
# Property C103: harmonic Jacobian of the hysteretic elements
-/

namespace TMD

open Spec Finset Filter Topology

noncomputable section

/-- Samples of the local displacement of an element with one local DOF. -/
def elementSamples (N : ℕ) (Q : ℕ → ℕ → ℝ) (h : List ℕ) (Nt : ℕ) (U : ℕ → ℝ) (j : ℕ) : ℝ :=
  localMotion N Q h U 0 (2 * Real.pi * j / Nt)

/-- Where the slider starts: the local displacement from the first block of coefficients. -/
def elementStart (N : ℕ) (Q : ℕ → ℕ → ℝ) (U : ℕ → ℝ) : ℝ := ∑ e ∈ range N, Q 0 e * U e

/-- No elastic prediction of two cycles lies exactly at the slip limit. -/
def OffLimit (kt Fs : ℝ) (Nt : ℕ) (u : ℕ → ℝ) (z : ℝ) : Prop :=
  ∀ k < 2 * Nt, |sliderTrial kt (fun _ => Fs) (periodic Nt u) z 0 k| ≠ Fs

/-- Instant `q` is the last reversal of direction of one period; 0 if there is none. -/
def IsLastReversal (Nt : ℕ) (u : ℕ → ℝ) (q : ℕ) : Prop :=
  let rev := fun i => SignType.sign (u i - u ((i + Nt - 1) % Nt)) ≠ SignType.sign (u ((i + 1) % Nt) - u i)
  q < Nt ∧ (q = 0 ∨ rev q) ∧ ∀ i, q < i → i < Nt → ¬ rev i

open Classical in
theorem lastRev_eq {Nt : ℕ} {u : ℕ → ℝ} {q : ℕ} (h : IsLastReversal Nt u q) : lastRev Nt u = q := by
  obtain ⟨h1, h2, h3⟩ := h
  have hsplit : List.range Nt = List.range (q + 1) ++ (List.range (Nt - (q + 1))).map (fun i => (q + 1) + i) := by
    rw [← List.range_add]; congr 1; omega
  unfold lastRev critInds
  rw [hsplit, List.filter_append]
  have e2 : ((List.range (Nt - (q + 1))).map (fun i => (q + 1) + i)).filter (fun i => decide (isCrit Nt u i)) = [] := by
    rw [List.filter_eq_nil_iff]
    intro a ha
    obtain ⟨i, hi, rfl⟩ := List.mem_map.1 ha
    have hi := List.mem_range.1 hi
    have := h3 (q + 1 + i) (by omega) (by omega)
    simp only [decide_eq_true_eq]
    unfold isCrit
    rintro (hc | hc)
    · omega
    · exact this hc
  rw [e2, List.append_nil, List.range_succ, List.filter_append, List.filter_cons_of_pos]
  · simp
  · simp only [decide_eq_true_eq]
    exact h2

/-- Assembly of the pieces: an element whose history is the cycle `its` of the sequence `S`. -/
theorem hyst_element {h : List ℕ} (hA : Admissible h) {Nt : ℕ} (hNt : ∀ k ∈ h, 2*k + 1 < Nt) (heven : Even Nt) (N : ℕ)
    (Q T : ℕ → ℕ → ℝ)
    (lfh : TS ℕ → (ℕ → ℕ → ℝ) → TS ℕ → (ℕ → ℝ) → Except Err ((ℕ → ℕ → ℝ) × (ℕ → ℕ → ℕ → ℕ → ℝ)))
    (S : TS ℕ → (ℕ → ℝ) → ℝ → ℕ → ℝ × (ℕ → ℝ)) (q : (ℕ → ℝ) → ℕ)
    (hF : ∀ cst : TS ℕ, ∀ (u : ℕ → ℝ) (z : ℝ), ∃ (ft : ℕ → ℝ × (ℕ → ℝ)) (its : ℕ),
      (∀ u' v z', (∀ j, u' j 0 = u j) → z' 0 = z →
        lfh ⟨Nt, u'⟩ v cst z' = .ok (fun j _ => (ft j).1, fun j _ _ k => (ft j).2 k)) ∧
      (∀ i < Nt, ft i = S cst u z ((its - 1) * Nt + i)) ∧
      its = if 1 / 10 ^ 10 < |(S cst u z (q u)).1| then 2 else 1)
    (ok : (ℕ → ℝ) → ℝ → Prop)
    (hok : ∀ (cst : TS ℕ) (n : ℕ) (u : ℕ → (ℕ → ℝ) → ℝ) (X : ℕ → ℝ), (∀ i < Nt, HasGrad n (u i) (cst.val i) X) →
      ok (fun j => u j X) (X 0) →
      (∀ k < 2 * Nt, HasGrad n (fun X => (S cst (fun j => u j X) (X 0) k).1) (S cst (fun j => u j X) (X 0) k).2 X) ∧
      (∀ᶠ v in 𝓝 (0 : Fin n → ℝ), q (fun j => u j (fun i => X i + ext v i)) = q (fun j => u j X)) ∧
      q (fun j => u j X) < Nt ∧ |(S cst (fun j => u j X) (X 0) (q fun j => u j X)).1| ≠ 1 / 10 ^ 10) :
    ∃ out : (ℕ → ℝ) → ℝ → AftOut, (∀ U w, hystAft N 1 Q T lfh U w h Nt = .ok (out U w)) ∧
      ∀ Z : ℕ → ℝ, ok (elementSamples N Q h Nt (sl 0 (numCoeff h * N) Z)) (elementStart N Q (sl 0 (numCoeff h * N) Z)) →
        JointTrue out (numCoeff h * N) Z := by
  obtain ⟨cst, c1, c2, c3⟩ := ts_linear hA hNt heven (o := 0) (by omega)
  choose ft its f1 f2 f3 using fun u z => hF cst u z
  obtain ⟨out, o1, o2, o3, o4⟩ := hyst_joint hA hNt heven N Q T lfh cst c1 ft (fun u v z => f1 _ _ _ _ _ (fun _ => rfl) rfl)
  refine ⟨out, o1, fun Z hZ => ?_⟩
  set L := numCoeff h * N with hL
  set U := sl 0 L Z with hU
  have hmo : ∀ j : ℕ, ∑ r ∈ range (numCoeff h), cst.val j r * unlOf N Q U r 0 = elementSamples N Q h Nt U j := by
    intro j
    obtain ⟨x, x1, x2, x3, x4⟩ := c3 (unlOf N Q U)
    rw [← x3, x4, iteratedDeriv_zero, localMotion_eq]
    rfl
  have h0 : unlOf N Q U 0 0 = elementStart N Q U := by simp [unlOf, matMul, elementStart]
  have hu : ∀ i < Nt, HasGrad (numCoeff h) (fun X => ∑ r ∈ range (numCoeff h), cst.val i r * X r) (cst.val i)
      (fun r => unlOf N Q U r 0) := by
    intro i _
    refine (HasGrad.sum (s := range (numCoeff h)) fun r _ => (HasGrad.coord r).const_mul (cst.val i r)).congr ?_
    intro j hj
    rw [sum_eq_single_of_mem j (mem_range.2 hj)]
    · simp
    · intro r _ hr
      rw [if_neg (Ne.symm hr), mul_zero]
  obtain ⟨k1, k2, k3, k4⟩ := hok cst (numCoeff h) (fun i X => ∑ r ∈ range (numCoeff h), cst.val i r * X r)
    (fun r => unlOf N Q U r 0) hu (by simp only [hmo, h0]; exact hZ)
  have hg := hist_grad f2 f3 k1 k2 k3 k4
  have hJ := o2 U (fun j hj => by
    have := hg j hj
    simp only [hmo, h0] at this
    exact this)
  intro i hi
  have hlift := HasGrad.lift (n := L + 1) (L := L) (Z := Z) (hJ 0 i hi)
  refine (hlift.congr_fun fun Z => ?_).congr fun j _ => ?_
  · rw [o3 _ _ 0]
  · rw [o4, o3 _ _ 0]

/-- C103, Jenkins element: wherever no elastic prediction lies at the slip limit and the force at the end of the first
cycle is not at the tolerance of the cycle count, the derivatives returned by `aft` are the true ones. -/
theorem C103_jenkins (h : List ℕ) (hA : Admissible h) (Nt : ℕ) (hNt : ∀ k ∈ h, 2*k + 1 < Nt) (heven : Even Nt) (N : ℕ)
    (Q T : ℕ → ℕ → ℝ) (kt Fs : ℝ) (hF : 0 ≤ Fs) (eps : ℝ) (he : 0 ≤ eps) (he' : eps ≤ 1 / 10) :
    ∃ out : (ℕ → ℝ) → ℝ → AftOut,
      (∀ U w, hystAft N 1 Q T (serialLfh (jenkinsOps kt Fs unit0) eps (1 / 10 ^ 10)) U w h Nt = .ok (out U w)) ∧
      ∀ Z : ℕ → ℝ, ∀ u z, u = elementSamples N Q h Nt (sl 0 (numCoeff h * N) Z) →
        z = elementStart N Q (sl 0 (numCoeff h * N) Z) → OffLimit kt Fs Nt u z →
        |slider kt (fun _ => Fs) (periodic Nt u) z 0 (Nt - 1)| ≠ 1 / 10 ^ 10 → JointTrue out (numCoeff h * N) Z := by
  have hN : 0 < Nt := by
    obtain ⟨k, hk⟩ := List.exists_mem_of_ne_nil h hA.ne
    have := hNt k hk
    omega
  obtain ⟨out, h1, h2⟩ := hyst_element hA hNt heven N Q T (serialLfh (jenkinsOps kt Fs unit0) eps (1 / 10 ^ 10))
    (fun cst u z k => (fun s : JHist ℕ => (s.fp, s.dfp)) (stSeq (jenkinsOps kt Fs unit0) (periodic Nt u)
      (periodic Nt cst.val) ((jenkinsOps kt Fs unit0).init z) k)) (fun (_ : ℕ → ℝ) => Nt - 1) (fun cst u z => by
        obtain ⟨l, its, e1, e3, e2⟩ := serial_hist' (jenkins_rowOf kt Fs unit0) (fun _ => rfl) hN he he' u cst.val z
        refine ⟨fun j => l.getD j (0, fun _ => 0), its, ?_, e3, e2⟩
        intro u' v z' hu' hz'
        unfold serialLfh
        simp only [hu', hz', e1])
    (fun u z => OffLimit kt Fs Nt u z ∧ |slider kt (fun _ => Fs) (periodic Nt u) z 0 (Nt - 1)| ≠ 1 / 10 ^ 10)
    (fun cst n u X hu hX => ⟨jenkins_rows_grad hN hF hu hX.1, Eventually.of_forall fun _ => rfl, by omega, by
      show |(stSeq (jenkinsOps kt Fs unit0) _ _ _ _).fp| ≠ _
      rw [show (jenkinsOps kt Fs unit0).init (X 0) = ⟨X 0, 0, unit0, fun _ => 0⟩ from rfl, jenkins_fp_slider hF]
      exact hX.2⟩)
  exact ⟨out, h1, fun Z u z hu hz h3 h4 => h2 Z ⟨hu ▸ hz ▸ h3, hu ▸ hz ▸ h4⟩⟩

theorem c103_samples : elementSamples 1 (fun _ _ => 1) [0, 1] 4
    (sl 0 (numCoeff [0, 1] * 1) (fun r => if r = 1 then 3 / 2 else 0))
      = fun j : ℕ => 3 / 2 * Real.cos (2 * Real.pi * j / 4) := by
  funext j
  simp [elementSamples, localMotion, series, numCoeff, sl]

theorem c103_start : elementStart 1 (fun _ _ => 1)
    (sl 0 (numCoeff [0, 1] * 1) (fun r => if r = 1 then 3 / 2 else 0)) = 0 := by
  simp [elementStart, numCoeff, sl]

theorem cos_quarter : Real.cos (2 * Real.pi * (0 : ℕ) / 4) = 1 ∧ Real.cos (2 * Real.pi * (1 : ℕ) / 4) = 0 ∧
    Real.cos (2 * Real.pi * (2 : ℕ) / 4) = -1 ∧ Real.cos (2 * Real.pi * (3 : ℕ) / 4) = 0 := by
  refine ⟨by simp, ?_, ?_, ?_⟩
  · rw [show 2 * Real.pi * ((1 : ℕ) : ℝ) / 4 = Real.pi / 2 by push_cast; ring, Real.cos_pi_div_two]
  · rw [show 2 * Real.pi * ((2 : ℕ) : ℝ) / 4 = Real.pi by push_cast; ring, Real.cos_pi]
  · rw [show 2 * Real.pi * ((3 : ℕ) : ℝ) / 4 = Real.pi / 2 + Real.pi by push_cast; ring, Real.cos_add_pi,
      Real.cos_pi_div_two, neg_zero]

theorem c103_off : OffLimit 1 1 4 (fun j : ℕ => 3 / 2 * Real.cos (2 * Real.pi * j / 4)) 0 := by
  obtain ⟨c0, c1, c2, c3⟩ := cos_quarter
  intro k hk
  interval_cases k <;> simp only [sliderTrial, slider, periodic, c0, c1, c2, c3] <;> norm_num [clip, c0, c1, c2, c3]

/-- Example: one DOF, `u(τ) = 3/2 cos τ` with four samples, slip limit 1. The slider slips twice per cycle and the force at
the end of the first cycle is 1/2. -/
example : ∃ out : (ℕ → ℝ) → ℝ → AftOut,
    (∀ U w, hystAft 1 1 (fun _ _ => 1) (fun _ _ => 1) (serialLfh (jenkinsOps 1 1 unit0) (1 / 2 ^ 52) (1 / 10 ^ 10)) U w
      [0, 1] 4 = .ok (out U w)) ∧ JointTrue out 3 (fun r => if r = 1 then 3 / 2 else 0) := by
  obtain ⟨out, h1, h2⟩ := C103_jenkins [0, 1] ⟨by simp, by decide, by decide⟩ 4 (by decide) ⟨2, rfl⟩ 1 (fun _ _ => 1)
    (fun _ _ => 1) 1 1 zero_le_one (1 / 2 ^ 52) (by norm_num) (by norm_num)
  refine ⟨out, h1, h2 _ _ _ c103_samples.symm c103_start.symm c103_off ?_⟩
  obtain ⟨c0, c1, c2, c3⟩ := cos_quarter
  simp only [slider, periodic, c0, c1, c2, c3]
  norm_num [clip, c0, c1, c2, c3]

/-- C103, Iwan element: the same with all sliders. -/
theorem C103_iwan (h : List ℕ) (hA : Admissible h) (Nt : ℕ) (hNt : ∀ k ∈ h, 2*k + 1 < Nt) (heven : Even Nt) (N : ℕ)
    (Q T : ℕ → ℕ → ℝ) (w : Iwan) (hphi : ∀ s ≤ w.nSliders, 0 ≤ w.phi s) (eps : ℝ) (he : 0 ≤ eps) (he' : eps ≤ 1 / 10) :
    ∃ out : (ℕ → ℝ) → ℝ → AftOut,
      (∀ U f, hystAft N 1 Q T (serialLfh (iwanOps w unit0) eps (1 / 10 ^ 10)) U f h Nt = .ok (out U f)) ∧
      ∀ Z : ℕ → ℝ, ∀ u z, u = elementSamples N Q h Nt (sl 0 (numCoeff h * N) Z) →
        z = elementStart N Q (sl 0 (numCoeff h * N) Z) → (∀ s ≤ w.nSliders, OffLimit 1 (w.phi s) Nt u z) →
        |∑ s ∈ range (w.nSliders + 1), slider 1 (fun _ => w.phi s) (periodic Nt u) z 0 (Nt - 1) * w.weight s|
          ≠ 1 / 10 ^ 10 → JointTrue out (numCoeff h * N) Z := by
  have hN : 0 < Nt := by
    obtain ⟨k, hk⟩ := List.exists_mem_of_ne_nil h hA.ne
    have := hNt k hk
    omega
  obtain ⟨out, h1, h2⟩ := hyst_element hA hNt heven N Q T (serialLfh (iwanOps w unit0) eps (1 / 10 ^ 10))
    (fun cst u z k => iwanRow w (stSeq (iwanOps w unit0) (periodic Nt u) (periodic Nt cst.val)
      ((iwanOps w unit0).init z) k)) (fun (_ : ℕ → ℝ) => Nt - 1) (fun cst u z => by
        obtain ⟨l, its, e1, e3, e2⟩ := serial_hist' (iwan_rowOf w unit0) (fun _ => rfl) hN he he' u cst.val z
        refine ⟨fun j => l.getD j (0, fun _ => 0), its, ?_, e3, e2⟩
        intro u' v z' hu' hz'
        unfold serialLfh
        simp only [hu', hz', e1])
    (fun u z => (∀ s ≤ w.nSliders, OffLimit 1 (w.phi s) Nt u z) ∧
      |∑ s ∈ range (w.nSliders + 1), slider 1 (fun _ => w.phi s) (periodic Nt u) z 0 (Nt - 1) * w.weight s| ≠ 1 / 10 ^ 10)
    (fun cst n u X hu hX => ⟨iwan_rows_grad hN hphi hu hX.1, Eventually.of_forall fun _ => rfl, by omega, by
      rw [iwan_fp_slider hphi]
      exact hX.2⟩)
  exact ⟨out, h1, fun Z u z hu hz h3 h4 => h2 Z ⟨hu ▸ hz ▸ h3, hu ▸ hz ▸ h4⟩⟩

/-- C103, vectorised Jenkins element: the cycle count looks at the last reversal, so no two neighbouring samples may be
equal. -/
theorem C103_vector_jenkins (h : List ℕ) (hA : Admissible h) (Nt : ℕ) (hNt : ∀ k ∈ h, 2*k + 1 < Nt) (heven : Even Nt)
    (N : ℕ) (Q T : ℕ → ℕ → ℝ) (kt Fs : ℝ) (hk : 0 ≤ kt) (hF : 0 ≤ Fs) (eps : ℝ) (he : 0 ≤ eps) (he' : eps ≤ 1 / 10) :
    ∃ out : (ℕ → ℝ) → ℝ → AftOut,
      (∀ U w, hystAft N 1 Q T (vectorLfh (fun n u c z => vectorJenkinsHistory kt Fs unit0 n u c z eps) (1 / 10 ^ 10))
        U w h Nt = .ok (out U w)) ∧
      ∀ Z : ℕ → ℝ, ∀ u z q, u = elementSamples N Q h Nt (sl 0 (numCoeff h * N) Z) →
        z = elementStart N Q (sl 0 (numCoeff h * N) Z) → OffLimit kt Fs Nt u z →
        (∀ i < Nt, u ((i + 1) % Nt) ≠ u i) → IsLastReversal Nt u q →
        |slider kt (fun _ => Fs) (periodic Nt u) z 0 q| ≠ 1 / 10 ^ 10 → JointTrue out (numCoeff h * N) Z := by
  have hN : 0 < Nt := by
    obtain ⟨k, hk⟩ := List.exists_mem_of_ne_nil h hA.ne
    have := hNt k hk
    omega
  obtain ⟨out, h1, h2⟩ := hyst_element hA hNt heven N Q T
    (vectorLfh (fun n u c z => vectorJenkinsHistory kt Fs unit0 n u c z eps) (1 / 10 ^ 10))
    (fun cst u z k => (fun s : JHist ℕ => (s.fp, s.dfp)) (stSeq (jenkinsOps kt Fs unit0) (periodic Nt u)
      (periodic Nt cst.val) ((jenkinsOps kt Fs unit0).init z) k)) (lastRev Nt) (fun cst u z => by
        obtain ⟨ft, its, e1, e2, e3⟩ := vecJ_hist hk hF unit0 hN he he' u cst.val z
        refine ⟨ft, its, ?_, e2, e3⟩
        intro u' v z' hu' hz'
        unfold vectorLfh
        simp only [hu', hz', e1])
    (fun u z => OffLimit kt Fs Nt u z ∧ (∀ i < Nt, u ((i + 1) % Nt) ≠ u i) ∧ ∃ q, IsLastReversal Nt u q ∧
      |slider kt (fun _ => Fs) (periodic Nt u) z 0 q| ≠ 1 / 10 ^ 10)
    (fun cst n u X hu hX => by
      obtain ⟨x1, x2, q, x3, x4⟩ := hX
      refine ⟨jenkins_rows_grad hN hF hu x1, lastRev_near hN hu x2, ?_, ?_⟩
      · rw [lastRev_eq x3]
        exact x3.1
      · show |(stSeq (jenkinsOps kt Fs unit0) _ _ _ _).fp| ≠ _
        rw [show (jenkinsOps kt Fs unit0).init (X 0) = ⟨X 0, 0, unit0, fun _ => 0⟩ from rfl, jenkins_fp_slider hF,
          lastRev_eq x3]
        exact x4)
  refine ⟨out, h1, fun Z u z q hu hz h3 h4 h5 h6 => ?_⟩
  subst hu hz
  exact h2 Z ⟨h3, h4, q, h5, h6⟩

/-- Example: the same motion; the last reversal is at the third sample, where the force is -1. -/
example : ∃ out : (ℕ → ℝ) → ℝ → AftOut,
    (∀ U w, hystAft 1 1 (fun _ _ => 1) (fun _ _ => 1) (vectorLfh (fun n u c z => vectorJenkinsHistory 1 1 unit0 n u c z
      (1 / 2 ^ 52)) (1 / 10 ^ 10)) U w [0, 1] 4 = .ok (out U w)) ∧ JointTrue out 3 (fun r => if r = 1 then 3 / 2 else 0) := by
  obtain ⟨out, h1, h2⟩ := C103_vector_jenkins [0, 1] ⟨by simp, by decide, by decide⟩ 4 (by decide) ⟨2, rfl⟩ 1
    (fun _ _ => 1) (fun _ _ => 1) 1 1 zero_le_one zero_le_one (1 / 2 ^ 52) (by norm_num) (by norm_num)
  obtain ⟨c0, c1, c2, c3⟩ := cos_quarter
  refine ⟨out, h1, h2 _ _ _ 2 c103_samples.symm c103_start.symm c103_off ?_ ⟨by norm_num, Or.inr ?_, ?_⟩ ?_⟩
  · intro i hi
    interval_cases i <;> simp only [c0, c1, c2, c3] <;> norm_num [c0, c1, c2, c3]
  · simp only [c1, c2, c3]
    norm_num [c1, c2, c3]
  · intro i h1 h2
    interval_cases i
    simp only [c0, c2, c3]
    norm_num [c0, c2, c3]
  · simp only [slider, periodic, c0, c1, c2]
    norm_num [clip, c0, c1, c2, c3]

/-- C103, vectorised Iwan element. -/
theorem C103_vector_iwan (h : List ℕ) (hA : Admissible h) (Nt : ℕ) (hNt : ∀ k ∈ h, 2*k + 1 < Nt) (heven : Even Nt)
    (N : ℕ) (Q T : ℕ → ℕ → ℝ) (w : Iwan) (hphi : ∀ s, 0 ≤ w.phi s) (eps : ℝ) (he : 0 ≤ eps) (he' : eps ≤ 1 / 10) :
    ∃ out : (ℕ → ℝ) → ℝ → AftOut,
      (∀ U f, hystAft N 1 Q T (vectorLfh (fun n u c z => vectorIwanHistory w unit0 n u c z eps) (1 / 10 ^ 10))
        U f h Nt = .ok (out U f)) ∧
      ∀ Z : ℕ → ℝ, ∀ u z q, u = elementSamples N Q h Nt (sl 0 (numCoeff h * N) Z) →
        z = elementStart N Q (sl 0 (numCoeff h * N) Z) → (∀ s ≤ w.nSliders, OffLimit 1 (w.phi s) Nt u z) →
        (∀ i < Nt, u ((i + 1) % Nt) ≠ u i) → IsLastReversal Nt u q →
        |∑ s ∈ range (w.nSliders + 1), slider 1 (fun _ => w.phi s) (periodic Nt u) z 0 q * w.weight s| ≠ 1 / 10 ^ 10 →
        JointTrue out (numCoeff h * N) Z := by
  have hN : 0 < Nt := by
    obtain ⟨k, hk⟩ := List.exists_mem_of_ne_nil h hA.ne
    have := hNt k hk
    omega
  obtain ⟨out, h1, h2⟩ := hyst_element hA hNt heven N Q T
    (vectorLfh (fun n u c z => vectorIwanHistory w unit0 n u c z eps) (1 / 10 ^ 10))
    (fun cst u z k => iwanRow w (stSeq (iwanOps w unit0) (periodic Nt u) (periodic Nt cst.val)
      ((iwanOps w unit0).init z) k)) (lastRev Nt) (fun cst u z => by
        obtain ⟨ft, its, e1, e2, e3⟩ := vecI_hist w hphi unit0 hN he he' u cst.val z
        refine ⟨ft, its, ?_, e2, e3⟩
        intro u' v z' hu' hz'
        unfold vectorLfh
        simp only [hu', hz', e1])
    (fun u z => (∀ s ≤ w.nSliders, OffLimit 1 (w.phi s) Nt u z) ∧ (∀ i < Nt, u ((i + 1) % Nt) ≠ u i) ∧
      ∃ q, IsLastReversal Nt u q ∧
      |∑ s ∈ range (w.nSliders + 1), slider 1 (fun _ => w.phi s) (periodic Nt u) z 0 q * w.weight s| ≠ 1 / 10 ^ 10)
    (fun cst n u X hu hX => by
      obtain ⟨x1, x2, q, x3, x4⟩ := hX
      refine ⟨iwan_rows_grad hN (fun s _ => hphi s) hu x1, lastRev_near hN hu x2, ?_, ?_⟩
      · rw [lastRev_eq x3]
        exact x3.1
      · rw [iwan_fp_slider (fun s _ => hphi s), lastRev_eq x3]
        exact x4)
  refine ⟨out, h1, fun Z u z q hu hz h3 h4 h5 h6 => ?_⟩
  subst hu hz
  exact h2 Z ⟨h3, h4, q, h5, h6⟩

/-- C103: harmonic balance of a system with a Jenkins element has the true Jacobian at all those points. -/
theorem C103_harmonic_balance (S : VibSys) (Q T : ℕ → ℕ → ℝ) (kt Fs : ℝ) (hF : 0 ≤ Fs) (eps : ℝ) (he : 0 ≤ eps)
    (he' : eps ≤ 1 / 10) (h : List ℕ) (hA : Admissible h) (Nt : ℕ) (hNt : ∀ k ∈ h, 2*k + 1 < Nt) (heven : Even Nt)
    (tol : ℝ) (Fl : ℕ → ℝ) (f : NLForce) (hS : S.forces = [f])
    (hf : ∀ U w, f.aft U w h Nt tol
      = hystAft S.nd 1 Q T (serialLfh (jenkinsOps kt Fs unit0) eps (1 / 10 ^ 10)) U w h Nt) :
    ∃ res : (ℕ → ℝ) → ResOut, (∀ Z, hbmRes S Z Fl h Nt tol true = .ok (res Z)) ∧
      ∀ Z : ℕ → ℝ, ∀ u z, u = elementSamples S.nd Q h Nt (sl 0 (numCoeff h * S.nd) Z) →
        z = elementStart S.nd Q (sl 0 (numCoeff h * S.nd) Z) → OffLimit kt Fs Nt u z →
        |slider kt (fun _ => Fs) (periodic Nt u) z 0 (Nt - 1)| ≠ 1 / 10 ^ 10 →
        ResTrue res (numCoeff h * S.nd) (numCoeff h * S.nd) Z := by
  obtain ⟨out, h1, h2⟩ := C103_jenkins h hA Nt hNt heven S.nd Q T kt Fs hF eps he he'
  obtain ⟨res, h3, h4⟩ := C45_jacobian S h hA Nt tol (fun _ => out) (by
    intro g hg U w
    rw [hS, List.mem_singleton] at hg
    subst hg
    rw [hf, h1]) Fl
  exact ⟨res, h3, fun Z u z hu hz h5 h6 => h4 Z fun _ _ => h2 Z u z hu hz h5 h6⟩

end

end TMD
