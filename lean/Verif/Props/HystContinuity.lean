import Verif.Props.HystJacobian
import Verif.Props.JaxVectorJenkins
import Mathlib.Topology.Order.Lattice
import Mathlib.Topology.Algebra.Order.Group

/-!
# Property C104: continuity of the harmonic force of the hysteretic elements
-/

namespace TMD

open Spec Finset Filter Topology

noncomputable section

/-- `f` is continuous at `x` with respect to the first `n` entries. -/
def ContAt (n : ℕ) (f : (ℕ → ℝ) → ℝ) (x : ℕ → ℝ) : Prop :=
  Tendsto (fun v : Fin n → ℝ => f (fun i => x i + ext v i)) (𝓝 0) (𝓝 (f x))

theorem ContAt.clip {n : ℕ} {f : (ℕ → ℝ) → ℝ} {x : ℕ → ℝ} (h : ContAt n f x) (L : ℝ) :
    ContAt n (fun X => clip L (f X)) x := by
  unfold ContAt Spec.clip at *
  exact tendsto_const_nhds.max (h.min tendsto_const_nhds)

theorem slider_cont {n : ℕ} {X : ℕ → ℝ} (kt L : ℝ) {u : ℕ → (ℕ → ℝ) → ℝ} {z : (ℕ → ℝ) → ℝ} (hu : ∀ j, ContAt n (u j) X)
    (hz : ContAt n z X) (k : ℕ) : ContAt n (fun X => slider kt (fun _ => L) (fun j => u j X) (z X) 0 k) X := by
  induction k with
  | zero =>
    exact ContAt.clip (f := fun X => kt * (u 0 X - z X) + 0)
      (((tendsto_const_nhds (x := kt)).mul ((hu 0).sub hz)).add (tendsto_const_nhds (x := (0:ℝ)))) L
  | succ k ih =>
    exact ContAt.clip (f := fun X => kt * (u (k+1) X - u k X) + slider kt (fun _ => L) (fun j => u j X) (z X) 0 k)
      (((tendsto_const_nhds (x := kt)).mul ((hu (k+1)).sub (hu k))).add ih) L

/-- As `its_near`, from continuity. -/
theorem its_near_cont {n : ℕ} {X : ℕ → ℝ} {a : ℝ} {its : (ℕ → ℝ) → ℕ} {L L' : (ℕ → ℝ) → ℝ}
    (hits : ∀ X, its X = if a < |L X| then 2 else 1) (hL : ContAt n L' X) (hX : L X = L' X)
    (hnear : ∀ᶠ v in 𝓝 (0 : Fin n → ℝ), L (fun i => X i + ext v i) = L' (fun i => X i + ext v i))
    (hne : |L' X| ≠ a) : ∀ᶠ v in 𝓝 (0 : Fin n → ℝ), its (fun i => X i + ext v i) = its X := by
  have ht := (continuous_abs.tendsto _).comp hL
  rcases lt_or_gt_of_ne hne with h | h
  · filter_upwards [hnear, ht.eventually (gt_mem_nhds h)] with v h1 h2
    have h2' : |L' (fun i => X i + ext v i)| < a := h2
    rw [hits, hits, h1, hX, if_neg (not_lt.2 h.le), if_neg (not_lt.2 h2'.le)]
  · filter_upwards [hnear, ht.eventually (lt_mem_nhds h)] with v h1 h2
    have h2' : a < |L' (fun i => X i + ext v i)| := h2
    rw [hits, hits, h1, hX, if_pos h, if_pos h2']

theorem lastRev_near_cont {n Nt : ℕ} (hN : 0 < Nt) {X : ℕ → ℝ} {u : ℕ → (ℕ → ℝ) → ℝ}
    (hu : ∀ i, ContAt n (u i) X) (hne : ∀ i < Nt, u ((i + 1) % Nt) X ≠ u i X) :
    ∀ᶠ v in 𝓝 (0 : Fin n → ℝ), lastRev Nt (fun j => u j (fun i => X i + ext v i)) = lastRev Nt (fun j => u j X) := by
  have key : ∀ i ∈ Finset.range Nt, ∀ᶠ v in 𝓝 (0 : Fin n → ℝ),
      SignType.sign (u ((i + 1) % Nt) (fun i => X i + ext v i) - u i (fun i => X i + ext v i))
        = SignType.sign (u ((i + 1) % Nt) X - u i X) := by
    intro i hi
    have hi := Finset.mem_range.1 hi
    have ht := (hu ((i + 1) % Nt)).sub (hu i)
    rcases lt_or_gt_of_ne (sub_ne_zero.2 (hne i hi)) with h | h
    · filter_upwards [ht.eventually (gt_mem_nhds h)] with v h1
      rw [sign_neg h1, sign_neg h]
    · filter_upwards [ht.eventually (lt_mem_nhds h)] with v h1
      rw [sign_pos h1, sign_pos h]
  filter_upwards [(Filter.eventually_all_finset _).2 key] with v hv
  unfold lastRev
  rw [critInds_congr (u := fun j => u j X) hN (fun i hi => hv i (Finset.mem_range.2 hi))]

theorem samples_cont {h : List ℕ} (hA : Admissible h) {Nt : ℕ} (hNt : ∀ k ∈ h, 2*k + 1 < Nt) (heven : Even Nt) (N : ℕ)
    (Q : ℕ → ℕ → ℝ) (U : ℕ → ℝ) :
    (∀ j, ContAt (numCoeff h * N) (fun U => elementSamples N Q h Nt U j) U) ∧
      ContAt (numCoeff h * N) (fun U => elementStart N Q U) U := by
  obtain ⟨cst, c1, c2, c3⟩ := ts_linear hA hNt heven (o := 0) (by omega)
  constructor
  · intro j
    refine hasGrad_tendsto (f := fun U => elementSamples N Q h Nt U j)
      ((hasGrad_sample (numCoeff h) N Q (cst.val j) 0 U).congr_fun fun U => ?_)
    obtain ⟨x, x1, x2, x3, x4⟩ := c3 (unlOf N Q U)
    rw [← x3, x4, iteratedDeriv_zero, localMotion_eq]
    rfl
  · refine hasGrad_tendsto (f := fun U => elementStart N Q U)
      ((hasGrad_unlOf (numCoeff h) N Q 0 0 U).congr_fun fun U => ?_)
    simp [unlOf, matMul, elementStart]

/-- The harmonic force of an element with one local DOF from its time series `F`. -/
theorem hyst_values {h : List ℕ} (hA : Admissible h) {Nt : ℕ} (hNt : ∀ k ∈ h, 2*k + 1 < Nt) (heven : Even Nt) (N : ℕ)
    (Q T : ℕ → ℕ → ℝ)
    (lfh : TS ℕ → (ℕ → ℕ → ℝ) → TS ℕ → (ℕ → ℝ) → Except Err ((ℕ → ℕ → ℝ) × (ℕ → ℕ → ℕ → ℕ → ℝ))) :
    ∃ (W : ℕ → ℕ → ℝ) (cst : TS ℕ), timeSeriesDeriv Nt h eye 0 = .ok cst ∧
      ∀ F : (ℕ → ℝ) → ℝ → ℕ → ℝ × (ℕ → ℝ), (∀ u v z, lfh ⟨Nt, u⟩ v cst z
        = .ok (fun j _ => (F (fun i => u i 0) (z 0) j).1, fun j _ _ k => (F (fun i => u i 0) (z 0) j).2 k)) →
      ∀ U w, ∃ out, hystAft N 1 Q T lfh U w h Nt = .ok out ∧
        (∀ i < numCoeff h * N, out.F i = T (i % N) 0
          * ∑ j ∈ range Nt, W (i / N) j * (F (elementSamples N Q h Nt U) (elementStart N Q U) j).1) ∧
        IsForceDFT N 1 T h Nt (fun j _ => (F (elementSamples N Q h Nt U) (elementStart N Q U) j).1) out.F := by
  obtain ⟨cst, c1, c2, c3⟩ := ts_linear hA hNt heven (o := 0) (by omega)
  obtain ⟨sct, s1, s2, s3⟩ := ts_linear hA hNt heven (o := 1) le_rfl
  obtain ⟨W, H⟩ := aftTail_ok hA (Nt := Nt) (fun k hk => by have := hNt k hk; omega) N 1 Q T
  refine ⟨W, cst, c1, fun F hF U w => ?_⟩
  obtain ⟨x, x1, x2, x3, x4⟩ := c3 (unlOf N Q U)
  obtain ⟨y, y1, y2, y3, y4⟩ := s3 (unlOf N Q U)
  have ex : x = ⟨Nt, x.val⟩ := by cases x; simp only at x2; subst x2; rfl
  have e1 : (fun i => x.val i 0) = elementSamples N Q h Nt U := by
    funext j
    rw [x4, iteratedDeriv_zero, localMotion_eq]
    rfl
  have e0 : unlOf N Q U 0 0 = elementStart N Q U := by simp [unlOf, matMul, elementStart]
  obtain ⟨G, J, h1, h2, h3, -⟩ := H (fun j _ => (F (elementSamples N Q h Nt U) (elementStart N Q U) j).1)
    (fun j _ _ k => (F (elementSamples N Q h Nt U) (elementStart N Q U) j).2 k)
  have hk : hystAft N 1 Q T lfh U w h Nt = aftTail N 1 Q T h Nt Nt
      (fun j _ => (F (elementSamples N Q h Nt U) (elementStart N Q U) j).1)
      (fun j _ _ k => (F (elementSamples N Q h Nt U) (elementStart N Q U) j).2 k) := by
    unfold hystAft
    simp only [x1, y1, c1]
    rw [ex, hF, e1, e0]
  refine ⟨_, hk.trans h1, ?_, isForceDFT_of N 1 T h Nt _ G h3⟩
  intro i hi
  obtain ⟨hi1, -⟩ := div_lt_block hi
  simp only [toGlobal, matMul, sum_range_one]
  rw [h2 _ hi1]

/-- Assembly, as `hyst_element`. -/
theorem hyst_element_cont {h : List ℕ} (hA : Admissible h) {Nt : ℕ} (hNt : ∀ k ∈ h, 2*k + 1 < Nt) (heven : Even Nt)
    (N : ℕ) (Q T : ℕ → ℕ → ℝ)
    (lfh : TS ℕ → (ℕ → ℕ → ℝ) → TS ℕ → (ℕ → ℝ) → Except Err ((ℕ → ℕ → ℝ) × (ℕ → ℕ → ℕ → ℕ → ℝ)))
    (S : (ℕ → ℝ) → ℝ → ℕ → ℝ) (q : (ℕ → ℝ) → ℕ)
    (hF : ∀ cst : TS ℕ, ∀ (u : ℕ → ℝ) (z : ℝ), ∃ (ft : ℕ → ℝ × (ℕ → ℝ)) (its : ℕ),
      (∀ u' v z', (∀ j, u' j 0 = u j) → z' 0 = z →
        lfh ⟨Nt, u'⟩ v cst z' = .ok (fun j _ => (ft j).1, fun j _ _ k => (ft j).2 k)) ∧
      (∀ i < Nt, (ft i).1 = S u z ((its - 1) * Nt + i)) ∧ its = if 1 / 10 ^ 10 < |S u z (q u)| then 2 else 1)
    (hS : ∀ (n : ℕ) (u : ℕ → (ℕ → ℝ) → ℝ) (z : (ℕ → ℝ) → ℝ) (X : ℕ → ℝ), (∀ i, ContAt n (u i) X) → ContAt n z X →
      ∀ k, ContAt n (fun X => S (fun j => u j X) (z X) k) X) (w : ℝ) :
    ∃ out : (ℕ → ℝ) → AftOut, (∀ U, hystAft N 1 Q T lfh U w h Nt = .ok (out U)) ∧
      ∀ U, (∀ᶠ v in 𝓝 (0 : Fin (numCoeff h * N) → ℝ), q (elementSamples N Q h Nt (fun i => U i + ext v i))
          = q (elementSamples N Q h Nt U)) →
        |S (elementSamples N Q h Nt U) (elementStart N Q U) (q (elementSamples N Q h Nt U))| ≠ 1 / 10 ^ 10 →
        ∀ i < numCoeff h * N, ContAt (numCoeff h * N) (fun U => (out U).F i) U := by
  obtain ⟨W, cst, c1, H⟩ := hyst_values hA hNt heven N Q T lfh
  choose ft its f1 f2 f3 using fun u z => hF cst u z
  choose out o1 o2 o3 using fun U => H ft (fun u v z => f1 _ _ _ _ _ (fun _ => rfl) rfl) U w
  refine ⟨out, o1, fun U hq hne i hi => ?_⟩
  obtain ⟨k1, k2⟩ := samples_cont hA hNt heven N Q U
  have hnear := its_near_cont (n := numCoeff h * N) (X := U) (a := 1 / 10 ^ 10)
    (its := fun U => its (elementSamples N Q h Nt U) (elementStart N Q U))
    (L := fun U => S (elementSamples N Q h Nt U) (elementStart N Q U) (q (elementSamples N Q h Nt U)))
    (L' := fun X => S (elementSamples N Q h Nt X) (elementStart N Q X) (q (elementSamples N Q h Nt U)))
    (fun X => f3 _ _) (hS _ (fun j U => elementSamples N Q h Nt U j) _ U k1 k2 _) rfl
    (by filter_upwards [hq] with v hv; rw [hv]) hne
  unfold ContAt
  have e : ∀ X, (out X).F i = T (i % N) 0 * ∑ j ∈ range Nt, W (i / N) j
      * S (elementSamples N Q h Nt X) (elementStart N Q X)
        ((its (elementSamples N Q h Nt X) (elementStart N Q X) - 1) * Nt + j) := by
    intro X
    rw [o2 X i hi]
    congr 1
    exact sum_congr rfl fun j hj => by rw [f2 _ _ j (mem_range.1 hj)]
  have ht : Tendsto (fun v : Fin (numCoeff h * N) → ℝ => T (i % N) 0 * ∑ j ∈ range Nt, W (i / N) j
      * S (elementSamples N Q h Nt (fun i => U i + ext v i)) (elementStart N Q (fun i => U i + ext v i))
        ((its (elementSamples N Q h Nt U) (elementStart N Q U) - 1) * Nt + j)) (𝓝 0) (𝓝 ((out U).F i)) := by
    rw [e U]
    exact tendsto_const_nhds.mul (tendsto_finsetSum _ fun j _ => tendsto_const_nhds.mul
      (hS _ (fun j U => elementSamples N Q h Nt U j) _ U k1 k2 _))
  refine ht.congr' ?_
  filter_upwards [hnear] with v hv
  rw [e, hv]

theorem periodic_cont {n Nt : ℕ} {X : ℕ → ℝ} {u : ℕ → (ℕ → ℝ) → ℝ} (hu : ∀ i, ContAt n (u i) X) (i : ℕ) :
    ContAt n (fun X => periodic Nt (fun j => u j X) i) X := hu (i % Nt)

/-- C104, partial, Jenkins element: the harmonic force is continuous wherever the force at the end of the first cycle is
not exactly at the tolerance. -/
theorem C104_jenkins_partial (h : List ℕ) (hA : Admissible h) (Nt : ℕ) (hNt : ∀ k ∈ h, 2*k + 1 < Nt) (heven : Even Nt)
    (N : ℕ) (Q T : ℕ → ℕ → ℝ) (kt Fs : ℝ) (hF : 0 ≤ Fs) (eps : ℝ) (he : 0 ≤ eps) (he' : eps ≤ 1 / 10) (w : ℝ) :
    ∃ out : (ℕ → ℝ) → AftOut,
      (∀ U, hystAft N 1 Q T (serialLfh (jenkinsOps kt Fs unit0) eps (1 / 10 ^ 10)) U w h Nt = .ok (out U)) ∧
      ∀ U, |slider kt (fun _ => Fs) (periodic Nt (elementSamples N Q h Nt U)) (elementStart N Q U) 0 (Nt - 1)|
          ≠ 1 / 10 ^ 10 →
        ∀ i < numCoeff h * N, ContAt (numCoeff h * N) (fun U => (out U).F i) U := by
  have hN : 0 < Nt := by
    obtain ⟨k, hk⟩ := List.exists_mem_of_ne_nil h hA.ne
    have := hNt k hk
    omega
  obtain ⟨out, h1, h2⟩ := hyst_element_cont hA hNt heven N Q T (serialLfh (jenkinsOps kt Fs unit0) eps (1 / 10 ^ 10))
    (fun u z k => slider kt (fun _ => Fs) (periodic Nt u) z 0 k) (fun (_ : ℕ → ℝ) => Nt - 1) (fun cst u z => by
      obtain ⟨l, its, e1, e3, e2⟩ := serial_hist' (jenkins_rowOf kt Fs unit0) (fun _ => rfl) hN he he' u cst.val z
      rw [show (jenkinsOps kt Fs unit0).init z = ⟨z, 0, unit0, fun _ => 0⟩ from rfl] at e2 e3
      refine ⟨fun j => l.getD j (0, fun _ => 0), its, ?_, ?_, ?_⟩
      · intro u' v z' hu' hz'
        unfold serialLfh
        simp only [hu', hz', e1]
      · intro i hi
        show (l.getD i (0, fun _ => 0)).1 = _
        rw [e3 i hi, jenkins_fp_slider hF]
      · rw [e2, jenkins_fp_slider hF])
    (fun n u z X hu hz k => slider_cont kt Fs (periodic_cont hu) hz k) w
  exact ⟨out, h1, fun U hU => h2 U (Eventually.of_forall fun _ => rfl) hU⟩

/-- C104, partial, Iwan element. -/
theorem C104_iwan_partial (h : List ℕ) (hA : Admissible h) (Nt : ℕ) (hNt : ∀ k ∈ h, 2*k + 1 < Nt) (heven : Even Nt)
    (N : ℕ) (Q T : ℕ → ℕ → ℝ) (iw : Iwan) (hphi : ∀ s ≤ iw.nSliders, 0 ≤ iw.phi s) (eps : ℝ) (he : 0 ≤ eps)
    (he' : eps ≤ 1 / 10) (w : ℝ) :
    ∃ out : (ℕ → ℝ) → AftOut,
      (∀ U, hystAft N 1 Q T (serialLfh (iwanOps iw unit0) eps (1 / 10 ^ 10)) U w h Nt = .ok (out U)) ∧
      ∀ U, |∑ s ∈ range (iw.nSliders + 1), slider 1 (fun _ => iw.phi s) (periodic Nt (elementSamples N Q h Nt U))
          (elementStart N Q U) 0 (Nt - 1) * iw.weight s| ≠ 1 / 10 ^ 10 →
        ∀ i < numCoeff h * N, ContAt (numCoeff h * N) (fun U => (out U).F i) U := by
  have hN : 0 < Nt := by
    obtain ⟨k, hk⟩ := List.exists_mem_of_ne_nil h hA.ne
    have := hNt k hk
    omega
  obtain ⟨out, h1, h2⟩ := hyst_element_cont hA hNt heven N Q T (serialLfh (iwanOps iw unit0) eps (1 / 10 ^ 10))
    (fun u z k => ∑ s ∈ range (iw.nSliders + 1), slider 1 (fun _ => iw.phi s) (periodic Nt u) z 0 k * iw.weight s)
    (fun (_ : ℕ → ℝ) => Nt - 1) (fun cst u z => by
      obtain ⟨l, its, e1, e3, e2⟩ := serial_hist' (iwan_rowOf iw unit0) (fun _ => rfl) hN he he' u cst.val z
      refine ⟨fun j => l.getD j (0, fun _ => 0), its, ?_, ?_, ?_⟩
      · intro u' v z' hu' hz'
        unfold serialLfh
        simp only [hu', hz', e1]
      · intro i hi
        show (l.getD i (0, fun _ => 0)).1 = _
        rw [e3 i hi, iwan_fp_slider hphi]
      · rw [e2, iwan_fp_slider hphi])
    (fun n u z X hu hz k => tendsto_finsetSum _ fun s _ => (slider_cont 1 (iw.phi s) (periodic_cont hu) hz k).mul_const _) w
  exact ⟨out, h1, fun U hU => h2 U (Eventually.of_forall fun _ => rfl) hU⟩

/-- C104, partial, vectorised Jenkins element: also no two neighbouring samples are equal. -/
theorem C104_vector_jenkins_partial (h : List ℕ) (hA : Admissible h) (Nt : ℕ) (hNt : ∀ k ∈ h, 2*k + 1 < Nt)
    (heven : Even Nt) (N : ℕ) (Q T : ℕ → ℕ → ℝ) (kt Fs : ℝ) (hk : 0 ≤ kt) (hF : 0 ≤ Fs) (eps : ℝ) (he : 0 ≤ eps)
    (he' : eps ≤ 1 / 10) (w : ℝ) :
    ∃ out : (ℕ → ℝ) → AftOut,
      (∀ U, hystAft N 1 Q T (vectorLfh (fun n u c z => vectorJenkinsHistory kt Fs unit0 n u c z eps) (1 / 10 ^ 10))
        U w h Nt = .ok (out U)) ∧
      ∀ U u q, u = elementSamples N Q h Nt U → (∀ i < Nt, u ((i + 1) % Nt) ≠ u i) → IsLastReversal Nt u q →
        |slider kt (fun _ => Fs) (periodic Nt u) (elementStart N Q U) 0 q| ≠ 1 / 10 ^ 10 →
        ∀ i < numCoeff h * N, ContAt (numCoeff h * N) (fun U => (out U).F i) U := by
  have hN : 0 < Nt := by
    obtain ⟨k, hk⟩ := List.exists_mem_of_ne_nil h hA.ne
    have := hNt k hk
    omega
  obtain ⟨out, h1, h2⟩ := hyst_element_cont hA hNt heven N Q T
    (vectorLfh (fun n u c z => vectorJenkinsHistory kt Fs unit0 n u c z eps) (1 / 10 ^ 10))
    (fun u z k => slider kt (fun _ => Fs) (periodic Nt u) z 0 k) (lastRev Nt) (fun cst u z => by
      obtain ⟨ft, its, e1, e3, e2⟩ := vecJ_hist hk hF unit0 hN he he' u cst.val z
      rw [show (jenkinsOps kt Fs unit0).init z = ⟨z, 0, unit0, fun _ => 0⟩ from rfl] at e2 e3
      refine ⟨ft, its, ?_, ?_, ?_⟩
      · intro u' v z' hu' hz'
        unfold vectorLfh
        simp only [hu', hz', e1]
      · intro i hi
        rw [e3 i hi]
        exact jenkins_fp_slider hF _ _ _ _ _
      · rw [e2, jenkins_fp_slider hF])
    (fun n u z X hu hz k => slider_cont kt Fs (periodic_cont hu) hz k) w
  refine ⟨out, h1, fun U u q hu hne hq hU => h2 U ?_ ?_⟩
  · subst hu
    exact lastRev_near_cont hN (samples_cont hA hNt heven N Q U).1 hne
  · subst hu
    rw [lastRev_eq hq]
    exact hU

/-- C104, partial, vectorised Iwan element. -/
theorem C104_vector_iwan_partial (h : List ℕ) (hA : Admissible h) (Nt : ℕ) (hNt : ∀ k ∈ h, 2*k + 1 < Nt)
    (heven : Even Nt) (N : ℕ) (Q T : ℕ → ℕ → ℝ) (iw : Iwan) (hphi : ∀ s, 0 ≤ iw.phi s) (eps : ℝ) (he : 0 ≤ eps)
    (he' : eps ≤ 1 / 10) (w : ℝ) :
    ∃ out : (ℕ → ℝ) → AftOut,
      (∀ U, hystAft N 1 Q T (vectorLfh (fun n u c z => vectorIwanHistory iw unit0 n u c z eps) (1 / 10 ^ 10))
        U w h Nt = .ok (out U)) ∧
      ∀ U u q, u = elementSamples N Q h Nt U → (∀ i < Nt, u ((i + 1) % Nt) ≠ u i) → IsLastReversal Nt u q →
        |∑ s ∈ range (iw.nSliders + 1), slider 1 (fun _ => iw.phi s) (periodic Nt u) (elementStart N Q U) 0 q
          * iw.weight s| ≠ 1 / 10 ^ 10 →
        ∀ i < numCoeff h * N, ContAt (numCoeff h * N) (fun U => (out U).F i) U := by
  have hN : 0 < Nt := by
    obtain ⟨k, hk⟩ := List.exists_mem_of_ne_nil h hA.ne
    have := hNt k hk
    omega
  obtain ⟨out, h1, h2⟩ := hyst_element_cont hA hNt heven N Q T
    (vectorLfh (fun n u c z => vectorIwanHistory iw unit0 n u c z eps) (1 / 10 ^ 10))
    (fun u z k => ∑ s ∈ range (iw.nSliders + 1), slider 1 (fun _ => iw.phi s) (periodic Nt u) z 0 k * iw.weight s)
    (lastRev Nt) (fun cst u z => by
      obtain ⟨ft, its, e1, e3, e2⟩ := vecI_hist iw hphi unit0 hN he he' u cst.val z
      refine ⟨ft, its, ?_, ?_, ?_⟩
      · intro u' v z' hu' hz'
        unfold vectorLfh
        simp only [hu', hz', e1]
      · intro i hi
        rw [e3 i hi, iwan_fp_slider fun s _ => hphi s]
      · rw [e2, iwan_fp_slider fun s _ => hphi s])
    (fun n u z X hu hz k => tendsto_finsetSum _ fun s _ => (slider_cont 1 (iw.phi s) (periodic_cont hu) hz k).mul_const _) w
  refine ⟨out, h1, fun U u q hu hne hq hU => h2 U ?_ ?_⟩
  · subst hu
    exact lastRev_near_cont hN (samples_cont hA hNt heven N Q U).1 hne
  · subst hu
    rw [lastRev_eq hq]
    exact hU

theorem slider_cont' {n : ℕ} {X : ℕ → ℝ} (kt L : ℝ) {u : ℕ → (ℕ → ℝ) → ℝ} {z f : (ℕ → ℝ) → ℝ}
    (hu : ∀ j, ContAt n (u j) X) (hz : ContAt n z X) (hf : ContAt n f X) (k : ℕ) :
    ContAt n (fun X => slider kt (fun _ => L) (fun j => u j X) (z X) (f X) k) X := by
  induction k with
  | zero =>
    exact ContAt.clip (f := fun X => kt * (u 0 X - z X) + f X)
      (((tendsto_const_nhds (x := kt)).mul ((hu 0).sub hz)).add hf) L
  | succ k ih =>
    exact ContAt.clip (f := fun X => kt * (u (k+1) X - u k X) + slider kt (fun _ => L) (fun j => u j X) (z X) (f X) k)
      (((tendsto_const_nhds (x := kt)).mul ((hu (k+1)).sub (hu k))).add ih) L

/-- C104, JAX Jenkins element, which always does two cycles: the harmonic force is continuous everywhere. -/
theorem C104_jax_jenkins (h : List ℕ) (hA : Admissible h) (hh : 1 < numCoeff h) (Nt : ℕ) (hNt : ∀ k ∈ h, 2*k + 1 < Nt) (heven : Even Nt)
    (N : ℕ) (Q T : ℕ → ℕ → ℝ) (kt Fs : ℝ) (u0 : EdfU0) (w : ℝ) :
    ∃ F : (ℕ → ℝ) → ℕ → ℝ, (∀ U, (PForce.jaxJenkins N Q T kt Fs u0).aftF U w h Nt = .ok (F U)) ∧
      ∀ U, ∀ i < numCoeff h * N, ContAt (numCoeff h * N) (fun U => F U i) U := by
  obtain ⟨cst, -, -, c3⟩ := ts_sampled hA hNt heven
  obtain ⟨W, hW⟩ := gfc_linear hA (Nt := Nt) (fun k hk => by have := hNt k hk; omega)
  choose G g1 g2 g3 using fun U => hW (fun j (_ : ℕ) => jaxJenkinsHistory Nt (elementSamples N Q h Nt U) kt Fs
    (jaxStart u0 (unlOf N Q U 0)) j)
  have es : ∀ U, (fun j => (sampledDisp N Q h U Nt).val j 0) = elementSamples N Q h Nt U := fun U => rfl
  refine ⟨fun U => toGlobal N 1 T (G U), fun U => ?_, fun U i hi => ?_⟩
  · have hrow : (sampledDisp N Q h U Nt).rows = Nt := rfl
    simp only [PForce.jaxJenkins]
    unfold jaxAft
    rw [if_neg (not_not.2 (jax_dofs hh 1))]
    simp only [(c3 N Q U).1, hrow, es, g1]
  · obtain ⟨hi1, -⟩ := div_lt_block hi
    have hN : 0 < Nt := by
      obtain ⟨k, hk⟩ := List.exists_mem_of_ne_nil h hA.ne
      have := hNt k hk
      omega
    obtain ⟨k1, k2⟩ := samples_cont hA hNt heven N Q U
    have e0 : ∀ U, unlOf N Q U 0 0 = elementStart N Q U := by intro U; simp [unlOf, matMul, elementStart]
    have hz : ContAt (numCoeff h * N) (fun U => jaxStart u0 (unlOf N Q U 0)) U := by
      cases u0 with
      | none => simpa only [jaxStart, e0] using k2
      | scalar x => exact tendsto_const_nhds
      | array v => exact tendsto_const_nhds
    have hh : ∀ j ∈ range Nt, ContAt (numCoeff h * N) (fun U => jaxJenkinsHistory Nt (elementSamples N Q h Nt U) kt Fs
        (jaxStart u0 (unlOf N Q U 0)) j) U := by
      intro j hj
      have e : ∀ U, jaxJenkinsHistory Nt (elementSamples N Q h Nt U) kt Fs (jaxStart u0 (unlOf N Q U 0)) j
          = slider kt (fun _ => Fs) (fun i => elementSamples N Q h Nt U i) (elementSamples N Q h Nt U (Nt-1))
            (slider kt (fun _ => Fs) (fun i => elementSamples N Q h Nt U i) (elementSamples N Q h Nt U (Nt-1))
              (kt * (elementSamples N Q h Nt U (Nt - 1) - jaxStart u0 (unlOf N Q U 0))) (Nt - 1)) j := by
        intro U
        unfold jaxJenkinsHistory
        rw [foriLoop_jax Nt _ kt Fs _ Nt le_rfl j, if_pos (mem_range.1 hj), foriLoop_jax Nt _ kt Fs _ Nt le_rfl (Nt-1),
          if_pos (by omega)]
        simp only [setRow, if_true]
      simp only [e]
      have hs : ContAt (numCoeff h * N) (fun U => kt * (elementSamples N Q h Nt U (Nt - 1) - jaxStart u0 (unlOf N Q U 0))) U :=
        (tendsto_const_nhds (x := kt)).mul ((k1 (Nt-1)).sub hz)
      exact slider_cont' kt Fs k1 (k1 (Nt-1)) (slider_cont' kt Fs k1 (k1 (Nt-1)) hs (Nt-1)) j
    have e : ∀ U, toGlobal N 1 T (G U) i = T (i % N) 0 * ∑ j ∈ range Nt, W (i / N) j
        * jaxJenkinsHistory Nt (elementSamples N Q h Nt U) kt Fs (jaxStart u0 (unlOf N Q U 0)) j := by
      intro U
      simp only [toGlobal, matMul, sum_range_one]
      rw [g2 U _ hi1]
    simp only [e]
    exact tendsto_const_nhds.mul (tendsto_finsetSum _ fun j hj => tendsto_const_nhds.mul (hh j hj))

/-! ## The jump -/

/-- Amplitude at which the force at the end of the first cycle equals the tolerance. -/
def jumpA : ℝ := (2 + Real.sqrt 2) * (1 + 1 / 10 ^ 10)

theorem clip_mid {x : ℝ} (h1 : -1 ≤ x) (h2 : x ≤ 1) : clip 1 x = x := clip_of_le (abs_le.2 ⟨h1, h2⟩)

theorem jump_slider {u : ℕ → ℝ} {a e : ℝ} (ha : 2 ≤ a) (he : 0 ≤ e) (he' : e ≤ 1 / 2) (h0 : u 0 = 0) (h1 : u 1 = a)
    (h2 : u 2 = a + 1 + e) (h3 : u 3 = a) (h4 : u 4 = 0) (h5 : u 5 = -a) (h6 : u 6 = -(a + 1 + e)) (h7 : u 7 = -a) :
    let S := slider 1 (fun _ => 1) (periodic 8 u) 0 0
    S 7 = e ∧ ∑ j ∈ range 8, S (0 * 8 + j) = -1 ∧ ∑ j ∈ range 8, S (1 * 8 + j) = 0 := by
  intro S
  have s0 : S 0 = 0 := by
    show clip 1 (1 * (u 0 - 0) + 0) = _
    rw [h0, clip_mid] <;> norm_num
  have s1 : S 1 = 1 := by
    show clip 1 (1 * (u 1 - u 0) + S 0) = _
    rw [h0, h1, s0, clip_of_ge zero_le_one (by linarith)]
  have s2 : S 2 = 1 := by
    show clip 1 (1 * (u 2 - u 1) + S 1) = _
    rw [h2, h1, s1, clip_of_ge zero_le_one (by linarith)]
  have s3 : S 3 = -e := by
    show clip 1 (1 * (u 3 - u 2) + S 2) = _
    rw [h2, h3, s2, clip_mid (by linarith) (by linarith)]; ring
  have s4 : S 4 = -1 := by
    show clip 1 (1 * (u 4 - u 3) + S 3) = _
    rw [h4, h3, s3, clip_of_le_neg zero_le_one (by linarith)]
  have s5 : S 5 = -1 := by
    show clip 1 (1 * (u 5 - u 4) + S 4) = _
    rw [h4, h5, s4, clip_of_le_neg zero_le_one (by linarith)]
  have s6 : S 6 = -1 := by
    show clip 1 (1 * (u 6 - u 5) + S 5) = _
    rw [h6, h5, s5, clip_of_le_neg zero_le_one (by linarith)]
  have s7 : S 7 = e := by
    show clip 1 (1 * (u 7 - u 6) + S 6) = _
    rw [h6, h7, s6, clip_mid (by linarith) (by linarith)]; ring
  have s8 : S 8 = 1 := by
    show clip 1 (1 * (u 0 - u 7) + S 7) = _
    rw [h0, h7, s7, clip_of_ge zero_le_one (by linarith)]
  have s9 : S 9 = 1 := by
    show clip 1 (1 * (u 1 - u 0) + S 8) = _
    rw [h0, h1, s8, clip_of_ge zero_le_one (by linarith)]
  have s10 : S 10 = 1 := by
    show clip 1 (1 * (u 2 - u 1) + S 9) = _
    rw [h2, h1, s9, clip_of_ge zero_le_one (by linarith)]
  have s11 : S 11 = -e := by
    show clip 1 (1 * (u 3 - u 2) + S 10) = _
    rw [h2, h3, s10, clip_mid (by linarith) (by linarith)]; ring
  have s12 : S 12 = -1 := by
    show clip 1 (1 * (u 4 - u 3) + S 11) = _
    rw [h4, h3, s11, clip_of_le_neg zero_le_one (by linarith)]
  have s13 : S 13 = -1 := by
    show clip 1 (1 * (u 5 - u 4) + S 12) = _
    rw [h4, h5, s12, clip_of_le_neg zero_le_one (by linarith)]
  have s14 : S 14 = -1 := by
    show clip 1 (1 * (u 6 - u 5) + S 13) = _
    rw [h6, h5, s13, clip_of_le_neg zero_le_one (by linarith)]
  have s15 : S 15 = e := by
    show clip 1 (1 * (u 7 - u 6) + S 14) = _
    rw [h6, h7, s14, clip_mid (by linarith) (by linarith)]; ring
  refine ⟨s7, ?_, ?_⟩
  · simp only [sum_range_succ, sum_range_zero]
    norm_num [s0, s1, s2, s3, s4, s5, s6, s7]
    ring
  · simp only [sum_range_succ, sum_range_zero]
    norm_num [s8, s9, s10, s11, s12, s13, s14, s15]
    ring

theorem sin_eighth : Real.sin (2 * Real.pi * (0 : ℕ) / 8) = 0 ∧ Real.sin (2 * Real.pi * (1 : ℕ) / 8) = √2 / 2 ∧
    Real.sin (2 * Real.pi * (2 : ℕ) / 8) = 1 ∧ Real.sin (2 * Real.pi * (3 : ℕ) / 8) = √2 / 2 ∧
    Real.sin (2 * Real.pi * (4 : ℕ) / 8) = 0 ∧ Real.sin (2 * Real.pi * (5 : ℕ) / 8) = -(√2 / 2) ∧
    Real.sin (2 * Real.pi * (6 : ℕ) / 8) = -1 ∧ Real.sin (2 * Real.pi * (7 : ℕ) / 8) = -(√2 / 2) := by
  refine ⟨by simp, ?_, ?_, ?_, ?_, ?_, ?_, ?_⟩
  · rw [show 2 * Real.pi * ((1 : ℕ) : ℝ) / 8 = Real.pi / 4 by push_cast; ring, Real.sin_pi_div_four]
  · rw [show 2 * Real.pi * ((2 : ℕ) : ℝ) / 8 = Real.pi / 2 by push_cast; ring, Real.sin_pi_div_two]
  · rw [show 2 * Real.pi * ((3 : ℕ) : ℝ) / 8 = Real.pi - Real.pi / 4 by push_cast; ring, Real.sin_pi_sub,
      Real.sin_pi_div_four]
  · rw [show 2 * Real.pi * ((4 : ℕ) : ℝ) / 8 = Real.pi by push_cast; ring, Real.sin_pi]
  · rw [show 2 * Real.pi * ((5 : ℕ) : ℝ) / 8 = Real.pi / 4 + Real.pi by push_cast; ring, Real.sin_add_pi,
      Real.sin_pi_div_four]
  · rw [show 2 * Real.pi * ((6 : ℕ) : ℝ) / 8 = Real.pi / 2 + Real.pi by push_cast; ring, Real.sin_add_pi,
      Real.sin_pi_div_two]
  · rw [show 2 * Real.pi * ((7 : ℕ) : ℝ) / 8 = (Real.pi - Real.pi / 4) + Real.pi by push_cast; ring, Real.sin_add_pi,
      Real.sin_pi_sub, Real.sin_pi_div_four]

theorem jump_samples (A : ℝ) : elementSamples 1 (fun _ _ => 1) [0, 1] 8 (fun r => if r = 2 then A else 0)
    = fun j : ℕ => A * Real.sin (2 * Real.pi * j / 8) := by
  funext j
  simp [elementSamples, localMotion, series]

/-- The slider along `A sin τ` for `A` from `jumpA` to `jumpA + 1/10`. -/
theorem jump_motion {A : ℝ} (h1 : jumpA ≤ A) (h2 : A ≤ jumpA + 1 / 10) :
    let S := slider 1 (fun _ => 1) (periodic 8 fun j : ℕ => A * Real.sin (2 * Real.pi * j / 8)) 0 0
    S 7 = A * (1 - √2 / 2) - 1 ∧ ∑ j ∈ range 8, S (0 * 8 + j) = -1 ∧ ∑ j ∈ range 8, S (1 * 8 + j) = 0 := by
  obtain ⟨c0, c1, c2, c3, c4, c5, c6, c7⟩ := sin_eighth
  have hr : √2 * √2 = 2 := Real.mul_self_sqrt (by norm_num)
  have hr0 : 0 < √2 := Real.sqrt_pos.2 (by norm_num)
  have hr1 : √2 < 3 / 2 := by nlinarith
  have hr2 : 7 / 5 < √2 := by nlinarith
  unfold jumpA at h1 h2
  have e1 : (2 + √2) * (1 - √2 / 2) = 1 := by nlinarith
  have hp : 0 < 1 - √2 / 2 := by linarith
  have l1 : (1 + 1 / 10 ^ 10 : ℝ) ≤ A * (1 - √2 / 2) := by
    have := mul_le_mul_of_nonneg_right h1 hp.le
    nlinarith
  have l2 : A * (1 - √2 / 2) ≤ (1 + 1 / 10 ^ 10 : ℝ) + 1 / 10 := by
    have := mul_le_mul_of_nonneg_right h2 hp.le
    nlinarith
  exact jump_slider (a := A * (√2 / 2)) (e := A * (1 - √2 / 2) - 1) (by nlinarith) (by linarith [show (0:ℝ) ≤ 1 / 10 ^ 10 by positivity])
    (by norm_num at l2 ⊢; linarith) (by simp only [c0]; ring) (by simp only [c1]) (by simp only [c2]; ring)
    (by simp only [c3]) (by simp only [c4]; ring) (by simp only [c5]; ring) (by simp only [c6]; ring)
    (by simp only [c7]; ring)

/-- C104 is false: one DOF, motion `A sin τ` with eight samples, unit stiffness and slip limit. At `A = jumpA` the mean of
the force is -1/8; for every larger `A` up to `jumpA + 1/10` it is zero. -/
theorem C104_violated (eps : ℝ) (he : 0 ≤ eps) (he' : eps ≤ 1 / 10) (w : ℝ) :
    ∃ out : (ℕ → ℝ) → AftOut,
      (∀ U, hystAft 1 1 (fun _ _ => 1) (fun _ _ => 1) (serialLfh (jenkinsOps 1 1 unit0) eps (1 / 10 ^ 10)) U w [0, 1] 8
        = .ok (out U)) ∧
      (out (fun r => if r = 2 then jumpA else 0)).F 0 = -(1 / 8) ∧
      (∀ A, jumpA < A → A ≤ jumpA + 1 / 10 → (out (fun r => if r = 2 then A else 0)).F 0 = 0) ∧
      ¬ ContAt 3 (fun U => (out U).F 0) (fun r => if r = 2 then jumpA else 0) := by
  obtain ⟨W, cst, -, H⟩ := hyst_values (h := [0, 1]) ⟨by simp, by decide, by decide⟩ (Nt := 8) (by decide) ⟨4, rfl⟩ 1
    (fun _ _ => 1) (fun _ _ => 1) (serialLfh (jenkinsOps 1 1 unit0) eps (1 / 10 ^ 10))
  choose l its e1 e3 e2 using fun (u : ℕ → ℝ) (z : ℝ) =>
    serial_hist' (jenkins_rowOf 1 1 unit0) (fun _ => rfl) (Nt := 8) (by norm_num) he he' u cst.val z
  choose out o1 o2 o3 using fun U => H (fun u z j => (l u z).getD j (0, fun _ => 0)) (by
    intro u v z
    unfold serialLfh
    simp only [e1]) U w
  have hsl : ∀ u z i, (stSeq (jenkinsOps 1 1 unit0) (periodic 8 u) (periodic 8 cst.val)
      ((jenkinsOps 1 1 unit0).init z) i).fp = slider 1 (fun _ => 1) (periodic 8 u) z 0 i :=
    fun u z i => jenkins_fp_slider zero_le_one _ _ _ _ _
  have hst : ∀ A : ℝ, elementStart 1 (fun _ _ => 1) (fun r => if r = 2 then A else 0) = 0 := by
    intro A; simp [elementStart]
  have hmean : ∀ A : ℝ, (out (fun r => if r = 2 then A else 0)).F 0 = (∑ j ∈ range 8, slider 1 (fun _ => 1)
      (periodic 8 fun j : ℕ => A * Real.sin (2 * Real.pi * j / 8)) 0 0
      (((if 1 / 10 ^ 10 < |slider 1 (fun _ => 1) (periodic 8 fun j : ℕ => A * Real.sin (2 * Real.pi * j / 8)) 0 0 7|
        then 2 else 1) - 1) * 8 + j)) / 8 := by
    intro A
    have hd := o3 (fun r => if r = 2 then A else 0) 0 one_pos 0 (by simp)
    rw [jump_samples, hst] at hd
    have hd1 := congrArg Prod.fst hd
    simp only [coefOf, dft, if_true, sum_range_one, one_mul, mul_one, zero_add] at hd1
    rw [hd1]
    push_cast
    congr 1
    refine sum_congr rfl fun j hj => ?_
    rw [e3 _ _ j (mem_range.1 hj), e2]
    simp only [hsl]
  have hr : √2 * √2 = 2 := Real.mul_self_sqrt (by norm_num)
  have ee : (2 + √2) * (1 - √2 / 2) = 1 := by nlinarith
  have hp : 0 < 1 - √2 / 2 := by nlinarith [Real.sqrt_nonneg 2]
  have hj : jumpA * (1 - √2 / 2) - 1 = 1 / 10 ^ 10 := by
    unfold jumpA
    linear_combination (1 + 1 / 10 ^ 10 : ℝ) * ee
  have v1 : (out (fun r => if r = 2 then jumpA else 0)).F 0 = -(1 / 8) := by
    obtain ⟨m1, m2, m3⟩ := jump_motion le_rfl (by norm_num : jumpA ≤ jumpA + 1 / 10)
    rw [hmean, m1, hj, if_neg (by rw [abs_of_pos (by positivity)]; exact lt_irrefl _), m2]
    norm_num
  have v2 : ∀ A, jumpA < A → A ≤ jumpA + 1 / 10 → (out (fun r => if r = 2 then A else 0)).F 0 = 0 := by
    intro A hA1 hA2
    obtain ⟨m1, m2, m3⟩ := jump_motion hA1.le hA2
    have hgt : 1 / 10 ^ 10 < A * (1 - √2 / 2) - 1 := by
      have := mul_lt_mul_of_pos_right hA1 hp
      linarith
    rw [hmean, m1, if_pos (hgt.trans_le (le_abs_self _)), m3]
    norm_num
  refine ⟨out, o1, v1, v2, fun hc => ?_⟩
  unfold ContAt at hc
  beta_reduce at hc
  rw [v1] at hc
  have hev := hc.eventually (gt_mem_nhds (by norm_num : -(1 / 8) < (-(1 / 16) : ℝ)))
  rw [Metric.eventually_nhds_iff] at hev
  obtain ⟨δ, hδ, hb⟩ := hev
  have hmin : 0 < min (δ / 2) (1 / 10) := lt_min (by linarith) (by norm_num)
  have := hb (y := fun i : Fin 3 => if i = 2 then min (δ / 2) (1 / 10) else 0) (by
    rw [dist_pi_lt_iff hδ]
    intro i
    by_cases hi : i = 2
    · simp only [hi, if_true, Pi.zero_apply, dist_zero_right, Real.norm_eq_abs, abs_of_pos hmin]
      have := min_le_left (δ / 2) (1 / 10)
      linarith
    · simp [hi, hδ])
  have hx : (fun i => (if i = 2 then jumpA else 0) + Spec.ext (fun i : Fin 3 => if i = 2 then min (δ / 2) (1 / 10) else 0) i)
      = fun r => if r = 2 then jumpA + min (δ / 2) (1 / 10) else 0 := by
    funext r
    unfold Spec.ext
    by_cases hr2 : r = 2
    · subst hr2
      simp
    · by_cases hr3 : r < 3
      · have : (⟨r, hr3⟩ : Fin 3) ≠ 2 := fun h => hr2 (by simpa using congrArg Fin.val h)
        simp [hr2, hr3, this]
      · simp [hr2, hr3]
  rw [hx, v2 _ (by linarith) (by have := min_le_right (δ / 2) (1 / 10); linarith)] at this
  norm_num at this

/-- Just above the jump the harmonic force is continuous. -/
example : ∃ out : (ℕ → ℝ) → AftOut,
    (∀ U, hystAft 1 1 (fun _ _ => 1) (fun _ _ => 1) (serialLfh (jenkinsOps 1 1 unit0) 0 (1 / 10 ^ 10)) U 1 [0, 1] 8
      = .ok (out U)) ∧
    ContAt 3 (fun U => (out U).F 0) (fun r => if r = 2 then jumpA + 1 / 20 else 0) := by
  obtain ⟨out, h1, h2⟩ := C104_jenkins_partial [0, 1] ⟨by simp, by decide, by decide⟩ 8 (by decide) ⟨4, rfl⟩ 1
    (fun _ _ => 1) (fun _ _ => 1) 1 1 zero_le_one 0 le_rfl (by norm_num) 1
  refine ⟨out, h1, h2 _ ?_ 0 (by decide)⟩
  obtain ⟨m1, -, -⟩ := jump_motion (A := jumpA + 1 / 20) (by linarith) (by linarith)
  have hr : √2 * √2 = 2 := Real.mul_self_sqrt (by norm_num)
  have ee : (2 + √2) * (1 - √2 / 2) = 1 := by nlinarith
  have hp : 0 < 1 - √2 / 2 := by nlinarith [Real.sqrt_nonneg 2]
  have hj : jumpA * (1 - √2 / 2) - 1 = 1 / 10 ^ 10 := by
    unfold jumpA
    linear_combination (1 + 1 / 10 ^ 10 : ℝ) * ee
  have hst : elementStart 1 (fun _ _ => 1) (fun r => if r = 2 then jumpA + 1 / 20 else 0) = 0 := by simp [elementStart]
  rw [jump_samples, hst, show 8 - 1 = 7 from rfl, m1]
  refine ne_of_gt (lt_of_lt_of_le ?_ (le_abs_self _))
  nlinarith

end

end TMD
