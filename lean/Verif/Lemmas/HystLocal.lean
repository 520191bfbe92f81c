import Verif.Props.SliderGradient
import Verif.Props.AFT
import Verif.Props.LocalForces
import Verif.Props.Residual
import Verif.Props.VectorJenkins
import Verif.Props.VectorIwan

/-! # Lemmas for C103: harmonic Jacobian of the hysteretic elements -/

namespace TMD

open Spec Finset Filter Topology

noncomputable section

theorem hasGrad_near {n : ℕ} {f f' : (ℕ → ℝ) → ℝ} {g x : ℕ → ℝ} (hf : HasGrad n f g x)
    (h : ∀ᶠ v in 𝓝 (0 : Fin n → ℝ), f' (fun i => x i + ext v i) = f (fun i => x i + ext v i)) : HasGrad n f' g x := by
  unfold HasGrad at *
  exact hf.congr_of_eventuallyEq h

theorem hasGrad_tendsto {n : ℕ} {f : (ℕ → ℝ) → ℝ} {g x : ℕ → ℝ} (hf : HasGrad n f g x) :
    Tendsto (fun v : Fin n → ℝ => f (fun i => x i + ext v i)) (𝓝 0) (𝓝 (f x)) := by
  have h := hf.continuousAt
  unfold ContinuousAt at h
  simpa using h

/-- The number of cycles does not change near a point where the checked force is not at the tolerance. -/
theorem its_near {n : ℕ} {X : ℕ → ℝ} {a : ℝ} {its : (ℕ → ℝ) → ℕ} {L L' : (ℕ → ℝ) → ℝ} {g : ℕ → ℝ}
    (hits : ∀ X, its X = if a < |L X| then 2 else 1) (hL : HasGrad n L' g X) (hX : L X = L' X)
    (hnear : ∀ᶠ v in 𝓝 (0 : Fin n → ℝ), L (fun i => X i + ext v i) = L' (fun i => X i + ext v i))
    (hne : |L' X| ≠ a) : ∀ᶠ v in 𝓝 (0 : Fin n → ℝ), its (fun i => X i + ext v i) = its X := by
  have ht := (continuous_abs.tendsto _).comp (hasGrad_tendsto hL)
  rcases lt_or_gt_of_ne hne with h | h
  · filter_upwards [hnear, ht.eventually (gt_mem_nhds h)] with v h1 h2
    have h2' : |L' (fun i => X i + ext v i)| < a := h2
    rw [hits, hits, h1, hX, if_neg (not_lt.2 h.le), if_neg (not_lt.2 h2'.le)]
  · filter_upwards [hnear, ht.eventually (lt_mem_nhds h)] with v h1 h2
    have h2' : a < |L' (fun i => X i + ext v i)| := h2
    rw [hits, hits, h1, hX, if_pos h, if_pos h2']

/-- With a small `eps` the relative check adds nothing to the absolute check. -/
theorem check_iff {eps : ℝ} (he : 0 ≤ eps) (he' : eps ≤ 1 / 10) (L : ℝ) :
    (|L| > 1 / 10 ^ 10 ∧ npRelGt |L| (L + eps) (1 / 10 ^ 10) ∧ 1 < 2) ↔ 1 / 10 ^ 10 < |L| := by
  refine ⟨fun h => h.1, fun h => ⟨h, ?_, one_lt_two⟩⟩
  unfold npRelGt
  split
  · intro h0
    rw [h0] at h
    norm_num at h
  · rename_i hd
    have hd' : 0 < |L + eps| := abs_pos.2 hd
    rw [abs_div, abs_abs, gt_iff_lt, lt_div_iff₀ hd']
    have h1 : |L + eps| ≤ |L| + eps := by
      have := abs_add_le L eps
      rwa [abs_of_nonneg he] at this
    nlinarith

theorem jenkins_fp_slider {kt Fs : ℝ} (hF : 0 ≤ Fs) (e0 : ℕ → ℝ) (u : ℕ → ℝ) (c : ℕ → ℕ → ℝ) (z : ℝ) (i : ℕ) :
    (stSeq (jenkinsOps kt Fs e0) u c ⟨z, 0, e0, fun _ => 0⟩ i).fp = slider kt (fun _ => Fs) u z 0 i := by
  induction i with
  | zero => exact jenkinsLocal_f hF
  | succ i ih =>
    have hu := stSeq_up kt Fs e0 u c ⟨z, 0, e0, fun _ => 0⟩ i
    show (jenkinsLocal kt Fs _ _ _).f = _
    rw [jenkinsLocal_f hF, hu.1, ih]
    rfl

theorem lastForce_map {ι : Type} (f : ℕ → ℝ × (ι → ℝ)) (l : List ℕ) (h : l ≠ []) :
    lastForce (l.map f) = (f (l.getLastD 0)).1 := by
  unfold lastForce
  rw [List.getLast?_map, List.getLastD_eq_getLast?, List.getLast?_eq_getLast_of_ne_nil h]
  rfl

/-- The serial loop: rows of the last cycle, and how many cycles. -/
theorem serial_hist {σ : Type} {m : HystOps σ ℕ} {row : σ → ℝ × (ℕ → ℝ)} (hrow : RowOf m row)
    (hfp : ∀ z, m.fp (m.init z) = 0) {Nt : ℕ} (hN : 0 < Nt) {eps : ℝ} (he : 0 ≤ eps) (he' : eps ≤ 1 / 10)
    (u : ℕ → ℝ) (c : ℕ → ℕ → ℝ) (z : ℝ) :
    ∃ its, localForceHistory m ((List.range Nt).map fun i => (u i, c i)) z 2 (1 / 10 ^ 10) (1 / 10 ^ 10) eps
        = .ok ((List.range Nt).map fun i => row (stSeq m (periodic Nt u) (periodic Nt c) (m.init z) ((its - 1) * Nt + i)),
            its) ∧
      its = if 1 / 10 ^ 10 < |(row (stSeq m (periodic Nt u) (periodic Nt c) (m.init z) (Nt - 1))).1| then 2 else 1 := by
  have hr : ((List.range Nt).map fun i => (u i, c i)) ≠ [] := by simp; omega
  have hl : lastForce (cycleRows m ((List.range Nt).map fun i => (u i, c i)) 0 (m.init z))
      = (row (stSeq m (periodic Nt u) (periodic Nt c) (m.init z) (Nt - 1))).1 := by
    rw [cycles_full hrow Nt hN u c, lastForce_map _ _ (by simp; omega)]
    have : (List.range Nt).getLastD 0 = Nt - 1 := by
      obtain ⟨k, rfl⟩ : ∃ k, Nt = k + 1 := ⟨Nt - 1, by omega⟩
      simp [List.range_succ]
    rw [this, zero_mul, zero_add]
  rw [localForceHistory_closed m _ hr _ _ _ _ _ (by positivity), hfp, sub_zero, hl]
  by_cases hb : 1 / 10 ^ 10 < |(row (stSeq m (periodic Nt u) (periodic Nt c) (m.init z) (Nt - 1))).1|
  · refine ⟨2, ?_, (if_pos hb).symm⟩
    rw [if_pos ((check_iff he he' _).2 hb), cycles_full hrow Nt hN u c]
  · refine ⟨1, ?_, (if_neg hb).symm⟩
    rw [if_neg (fun h => hb ((check_iff he he' _).1 h)), cycles_full hrow Nt hN u c]

theorem serial_hist' {σ : Type} {m : HystOps σ ℕ} {row : σ → ℝ × (ℕ → ℝ)} (hrow : RowOf m row)
    (hfp : ∀ z, m.fp (m.init z) = 0) {Nt : ℕ} (hN : 0 < Nt) {eps : ℝ} (he : 0 ≤ eps) (he' : eps ≤ 1 / 10)
    (u : ℕ → ℝ) (c : ℕ → ℕ → ℝ) (z : ℝ) :
    ∃ (l : List (ℝ × (ℕ → ℝ))) (its : ℕ),
      localForceHistory m ((List.range Nt).map fun i => (u i, c i)) z 2 (1 / 10 ^ 10) (1 / 10 ^ 10) eps = .ok (l, its) ∧
      (∀ i < Nt, l.getD i (0, fun _ => 0)
        = row (stSeq m (periodic Nt u) (periodic Nt c) (m.init z) ((its - 1) * Nt + i))) ∧
      its = if 1 / 10 ^ 10 < |(row (stSeq m (periodic Nt u) (periodic Nt c) (m.init z) (Nt - 1))).1| then 2 else 1 := by
  obtain ⟨its, e1, e2⟩ := serial_hist hrow hfp hN he he' u c z
  exact ⟨_, its, e1, fun i hi => getD_map_range _ _ _ hi _, e2⟩

/-- Last instant at which the direction of motion changes; 0 if there is none. -/
def lastRev (Nt : ℕ) (u : ℕ → ℝ) : ℕ := (critInds Nt u).getLastD 0

theorem map_getD {α : Type} {f g : ℕ → α} {Nt : ℕ} (h : (List.range Nt).map f = (List.range Nt).map g) {i : ℕ}
    (hi : i < Nt) : f i = g i := by
  rw [List.map_inj_left] at h
  exact h i (List.mem_range.2 hi)

theorem critInds_ne {Nt : ℕ} (hN : 0 < Nt) (u : ℕ → ℝ) : critInds Nt u ≠ [] := by
  intro h
  have : (0 : ℕ) ∈ critInds Nt u := by
    unfold critInds isCrit
    simp [hN]
  rw [h] at this
  simp at this

open Classical in
/-- The vectorised Jenkins element. -/
theorem vecJ_hist {kt Fs : ℝ} (hk : 0 ≤ kt) (hF : 0 ≤ Fs) (e0 : ℕ → ℝ) {Nt : ℕ} (hN : 0 < Nt) {eps : ℝ} (he : 0 ≤ eps)
    (he' : eps ≤ 1 / 10) (u : ℕ → ℝ) (c : ℕ → ℕ → ℝ) (z : ℝ) :
    ∃ (ft : ℕ → ℝ × (ℕ → ℝ)) (its : ℕ), vectorJenkinsHistory kt Fs e0 Nt u c z eps = .ok (ft, its) ∧
      (∀ i < Nt, ft i = (fun s : JHist ℕ => (s.fp, s.dfp)) (stSeq (jenkinsOps kt Fs e0) (periodic Nt u) (periodic Nt c)
        ((jenkinsOps kt Fs e0).init z) ((its - 1) * Nt + i))) ∧
      its = if 1 / 10 ^ 10 < |(stSeq (jenkinsOps kt Fs e0) (periodic Nt u) (periodic Nt c)
        ((jenkinsOps kt Fs e0).init z) (lastRev Nt u)).fp| then 2 else 1 := by
  obtain ⟨ft, its, e1, -, -, e4⟩ := C34_vector_equals_serial_cycle kt Fs hk hF e0 Nt hN u c z eps
  refine ⟨ft, its, e1, ?_, ?_⟩
  · rw [cycles_full (jenkins_rowOf kt Fs e0) Nt hN u c] at e4
    exact fun i hi => map_getD e4 hi
  · have hr : (critInds Nt u).map (fun i => (u i, c i)) ≠ [] := by simp [critInds_ne hN]
    have hcyc := (cycles_filtered (jenkins_rowOf kt Fs e0) Nt hN u c ((jenkinsOps kt Fs e0).init z) (critP Nt u)
      (critP_zero Nt u) (critP_period Nt u) (fun a b hab hno => vector_chain hk hF e0 Nt hN u c _ a b hab hno) 0).1
    rw [← critInds_eq] at hcyc
    have hl : lastForce (cycleRows (jenkinsOps kt Fs e0) ((critInds Nt u).map fun i => (u i, c i)) 0
        ((jenkinsOps kt Fs e0).init z)) = (stSeq (jenkinsOps kt Fs e0) (periodic Nt u) (periodic Nt c)
        ((jenkinsOps kt Fs e0).init z) (lastRev Nt u)).fp := by
      rw [hcyc, lastForce_map _ _ (critInds_ne hN u), zero_mul, zero_add]
      rfl
    unfold vectorJenkinsHistory at e1
    have hc := localForceHistory_closed (jenkinsOps kt Fs e0) _ hr z 2 (1 / 10 ^ 10) (1 / 10 ^ 10) eps (by positivity)
    rw [hl, show (jenkinsOps kt Fs e0).fp ((jenkinsOps kt Fs e0).init z) = 0 from rfl, sub_zero] at hc
    simp only [check_iff he he'] at hc
    split_ifs at hc ⊢
    all_goals
      simp only [hc, Except.ok.injEq, Prod.mk.injEq] at e1
      exact e1.2.symm

open Classical in
/-- The vectorised Iwan element. -/
theorem vecI_hist (w : Iwan) (hphi : ∀ k, 0 ≤ w.phi k) (e0 : ℕ → ℝ) {Nt : ℕ} (hN : 0 < Nt) {eps : ℝ} (he : 0 ≤ eps)
    (he' : eps ≤ 1 / 10) (u : ℕ → ℝ) (c : ℕ → ℕ → ℝ) (z : ℝ) :
    ∃ (ft : ℕ → ℝ × (ℕ → ℝ)) (its : ℕ), vectorIwanHistory w e0 Nt u c z eps = .ok (ft, its) ∧
      (∀ i < Nt, ft i = iwanRow w (stSeq (iwanOps w e0) (periodic Nt u) (periodic Nt c)
        ((iwanOps w e0).init z) ((its - 1) * Nt + i))) ∧
      its = if 1 / 10 ^ 10 < |(iwanRow w (stSeq (iwanOps w e0) (periodic Nt u) (periodic Nt c)
        ((iwanOps w e0).init z) (lastRev Nt u))).1| then 2 else 1 := by
  obtain ⟨ft, its, e1, -, -, e4⟩ := C67_vector_equals_serial_cycle w hphi e0 Nt hN u c z eps
  refine ⟨ft, its, e1, ?_, ?_⟩
  · rw [cycles_full (iwan_rowOf w e0) Nt hN u c] at e4
    exact fun i hi => map_getD e4 hi
  · set ce : ℕ → (ℕ ⊕ ℕ ⊕ (ℕ × ℕ)) → ℝ := fun i => Sum.elim (c i) fun _ => 0 with hce
    have hr : (critInds Nt u).map (fun i => (u i, ce i)) ≠ [] := by simp [critInds_ne hN]
    have hseq : ∀ i, stSeq (iwanCritOps w e0) (periodic Nt u) (periodic Nt ce) ((iwanOps w e0).init z) i
        = stSeq (iwanOps w e0) (periodic Nt u) (periodic Nt c) ((iwanOps w e0).init z) i := fun i =>
      crit_stSeq w e0 (periodic Nt u) (periodic Nt c) _ i
    have hcyc := (cycles_filtered (crit_rowOf w e0) Nt hN u ce ((iwanOps w e0).init z) (critP Nt u) (critP_zero Nt u)
      (critP_period Nt u) (fun a b hab hno => by
        rw [hseq, hseq]
        exact iwan_vector_chain w hphi e0 Nt hN u c _ a b hab hno) 0).1
    rw [← critInds_eq] at hcyc
    have hl : lastForce (cycleRows (iwanCritOps w e0) ((critInds Nt u).map fun i => (u i, ce i)) 0
        ((iwanCritOps w e0).init z)) = (iwanRow w (stSeq (iwanOps w e0) (periodic Nt u) (periodic Nt c)
        ((iwanOps w e0).init z) (lastRev Nt u))).1 := by
      rw [show (iwanCritOps w e0).init z = (iwanOps w e0).init z from rfl, hcyc, lastForce_map _ _ (critInds_ne hN u),
        zero_mul, zero_add, hseq]
      rfl
    unfold vectorIwanHistory at e1
    have hc := localForceHistory_closed (iwanCritOps w e0) _ hr z 2 (1 / 10 ^ 10) (1 / 10 ^ 10) eps (by positivity)
    rw [hl, show (iwanCritOps w e0).fp ((iwanCritOps w e0).init z) = 0 from rfl, sub_zero] at hc
    simp only [check_iff he he'] at hc
    simp only [hce] at hc
    split_ifs at hc ⊢
    all_goals
      simp only [hc, Except.ok.injEq, Prod.mk.injEq] at e1
      exact e1.2.symm

/-! ## The last reversal does not move -/

theorem critInds_congr {Nt : ℕ} {u u' : ℕ → ℝ} (hN : 0 < Nt)
    (h : ∀ i < Nt, SignType.sign (u' ((i + 1) % Nt) - u' i) = SignType.sign (u ((i + 1) % Nt) - u i)) :
    critInds Nt u' = critInds Nt u := by
  unfold critInds
  apply List.filter_congr
  intro i hi
  have hi := List.mem_range.1 hi
  congr 1
  unfold isCrit
  have h1 := h i hi
  have h2 := h ((i + Nt - 1) % Nt) (Nat.mod_lt _ hN)
  have h3 : ((i + Nt - 1) % Nt + 1) % Nt = i := by
    rw [Nat.mod_add_mod, show i + Nt - 1 + 1 = i + Nt by omega, Nat.add_mod_right, Nat.mod_eq_of_lt hi]
  rw [h3] at h2
  rw [h1, h2]

/-- Gradients of the samples and no two equal neighbours: nearby motions reverse at the same instants. -/
theorem lastRev_near {n Nt : ℕ} (hN : 0 < Nt) {X : ℕ → ℝ} {u : ℕ → (ℕ → ℝ) → ℝ} {c : ℕ → ℕ → ℝ}
    (hu : ∀ i < Nt, HasGrad n (u i) (c i) X) (hne : ∀ i < Nt, u ((i + 1) % Nt) X ≠ u i X) :
    ∀ᶠ v in 𝓝 (0 : Fin n → ℝ), lastRev Nt (fun j => u j (fun i => X i + ext v i)) = lastRev Nt (fun j => u j X) := by
  have key : ∀ i ∈ Finset.range Nt, ∀ᶠ v in 𝓝 (0 : Fin n → ℝ),
      SignType.sign (u ((i + 1) % Nt) (fun i => X i + ext v i) - u i (fun i => X i + ext v i))
        = SignType.sign (u ((i + 1) % Nt) X - u i X) := by
    intro i hi
    have hi := Finset.mem_range.1 hi
    have ht := hasGrad_tendsto ((hu _ (Nat.mod_lt (i + 1) hN)).sub (hu i hi))
    rcases lt_or_gt_of_ne (sub_ne_zero.2 (hne i hi)) with h | h
    · filter_upwards [ht.eventually (gt_mem_nhds h)] with v h1
      rw [sign_neg h1, sign_neg h]
    · filter_upwards [ht.eventually (lt_mem_nhds h)] with v h1
      rw [sign_pos h1, sign_pos h]
  filter_upwards [(Filter.eventually_all_finset _).2 key] with v hv
  unfold lastRev
  rw [critInds_congr (u := fun j => u j X) hN (fun i hi => hv i (Finset.mem_range.2 hi))]

/-! ## From the local coefficients to the global ones -/

theorem hystAft_dw {N m : ℕ} {Q T : ℕ → ℕ → ℝ}
    {lfh : TS ℕ → (ℕ → ℕ → ℝ) → TS ℕ → (ℕ → ℝ) → Except Err ((ℕ → ℕ → ℝ) × (ℕ → ℕ → ℕ → ℕ → ℝ))} {U : ℕ → ℝ} {w : ℝ}
    {h : List ℕ} {Nt : ℕ} {out : AftOut} (e : hystAft N m Q T lfh U w h Nt = .ok out) : out.dw = fun _ => 0 := by
  unfold hystAft aftTail at e
  dsimp only at e
  split at e
  · split at e
    · split at e
      · cases e
      · split at e
        · cases e; rfl
        · cases e
        · cases e
    · cases e
  all_goals cases e

/-- `HystereticForce.aft` for an element with one local DOF, whose history is `F` (a function of the samples and of the
start): the returned derivatives are the true ones wherever those of `F` are. -/
theorem hyst_joint {h : List ℕ} (hA : Admissible h) {Nt : ℕ} (hNt : ∀ k ∈ h, 2*k + 1 < Nt) (heven : Even Nt) (N : ℕ)
    (Q T : ℕ → ℕ → ℝ)
    (lfh : TS ℕ → (ℕ → ℕ → ℝ) → TS ℕ → (ℕ → ℝ) → Except Err ((ℕ → ℕ → ℝ) × (ℕ → ℕ → ℕ → ℕ → ℝ)))
    (cst : TS ℕ) (hc : timeSeriesDeriv Nt h eye 0 = .ok cst) (F : (ℕ → ℝ) → ℝ → ℕ → ℝ × (ℕ → ℝ))
    (hF : ∀ u v z, lfh ⟨Nt, u⟩ v cst z
      = .ok (fun j _ => (F (fun i => u i 0) (z 0) j).1, fun j _ _ k => (F (fun i => u i 0) (z 0) j).2 k)) :
    ∃ out : (ℕ → ℝ) → ℝ → AftOut, (∀ U w, hystAft N 1 Q T lfh U w h Nt = .ok (out U w)) ∧
      (∀ U, (∀ j < Nt, HasGrad (numCoeff h)
          (fun X => (F (fun i => ∑ r ∈ range (numCoeff h), cst.val i r * X r) (X 0) j).1)
          (F (fun i => localMotion N Q h U 0 (2 * Real.pi * i / Nt)) (∑ e ∈ range N, Q 0 e * U e) j).2
          (fun r => unlOf N Q U r 0)) →
        ∀ w, HasJac (numCoeff h * N) (numCoeff h * N) (fun U => (out U w).F) (out U w).dU U) ∧
      (∀ U w w', out U w = out U w') ∧ (∀ U w i, (out U w).dw i = 0) := by
  have hn : 0 < numCoeff h := by
    cases h with
    | nil => exact absurd rfl hA.ne
    | cons k hs => unfold numCoeff; split <;> omega
  obtain ⟨cst', c1, c2, c3⟩ := ts_linear hA hNt heven (o := 0) (by omega)
  obtain ⟨sct, s1, s2, s3⟩ := ts_linear hA hNt heven (o := 1) le_rfl
  obtain rfl : cst = cst' := by rw [hc] at c1; exact Except.ok.inj c1
  have hmo : ∀ U j, localMotion N Q h U 0 (2 * Real.pi * (j : ℕ) / Nt)
      = ∑ r ∈ range (numCoeff h), cst.val j r * unlOf N Q U r 0 := by
    intro U j
    obtain ⟨x, x1, x2, x3, x4⟩ := c3 (unlOf N Q U)
    rw [← x3, x4, iteratedDeriv_zero, localMotion_eq]
  have h0 : ∀ U, ∑ e ∈ range N, Q 0 e * U e = unlOf N Q U 0 0 := fun U => by simp [unlOf, matMul]
  have hw : ∀ U w w', hystAft N 1 Q T lfh U w h Nt = hystAft N 1 Q T lfh U w' h Nt := by
    intro U w w'
    obtain ⟨x, x1, x2, x3, x4⟩ := c3 (unlOf N Q U)
    obtain ⟨y, y1, y2, y3, y4⟩ := s3 (unlOf N Q U)
    have ex : x = ⟨Nt, x.val⟩ := by cases x; simp only at x2; subst x2; rfl
    unfold hystAft
    simp only [x1, y1, c1]
    rw [ex, hF, hF]
  choose out o1 o2 using fun w => C25_hysteretic_assembly h hA Nt hNt heven N 1 Q T lfh w cst hc
    (fun U j _ => (F (fun i => localMotion N Q h U 0 (2 * Real.pi * i / Nt)) (∑ e ∈ range N, Q 0 e * U e) j).1)
    (fun U j _ _ k => (F (fun i => localMotion N Q h U 0 (2 * Real.pi * i / Nt)) (∑ e ∈ range N, Q 0 e * U e) j).2 k)
    (fun U => hF _ _ _)
  refine ⟨fun U w => out w U, fun U w => o1 w U, ?_, ?_, ?_⟩
  · intro U hg w
    refine o2 w U fun j hj d _ => ?_
    have hcomp := HasGrad.comp_vec (n := numCoeff h * N) (m := numCoeff h) (x := U)
      (φ := fun X => (F (fun i => ∑ r ∈ range (numCoeff h), cst.val i r * X r) (X 0) j).1)
      (Y := fun U r => unlOf N Q U r 0) (G := fun r q => if q / N = r then Q 0 (q % N) else 0) (hg j hj) (by
        intro a b hab
        have e1 : (fun i => ∑ r ∈ range (numCoeff h), cst.val i r * a r)
            = fun i => ∑ r ∈ range (numCoeff h), cst.val i r * b r :=
          funext fun i => sum_congr rfl fun r hr => by rw [hab r (mem_range.1 hr)]
        show (F _ (a 0) j).1 = (F _ (b 0) j).1
        rw [e1, hab 0 hn]) (fun r _ => hasGrad_unlOf (numCoeff h) N Q r 0 U)
    refine (hcomp.congr_fun fun U => ?_).congr fun q hq => ?_
    · simp only [hmo, h0]
    · obtain ⟨hq1, -⟩ := div_lt_block hq
      rw [sum_range_one]
      symm
      rw [sum_eq_single_of_mem (q / N) (mem_range.2 hq1), if_pos rfl]
      intro r _ hr
      rw [if_neg (Ne.symm hr), mul_zero]
  · intro U w w'
    have := (o1 w U).symm.trans ((hw U w w').trans (o1 w' U))
    exact Except.ok.inj this
  · intro U w i
    rw [hystAft_dw (o1 w U)]

/-- From the state sequence `S` to the returned rows. -/
theorem hist_grad {n Nt : ℕ} {S ft : (ℕ → ℝ) → ℝ → ℕ → ℝ × (ℕ → ℝ)} {its : (ℕ → ℝ) → ℝ → ℕ} {q : (ℕ → ℝ) → ℕ}
    (hft : ∀ u z, ∀ i < Nt, ft u z i = S u z ((its u z - 1) * Nt + i))
    (hits : ∀ u z, its u z = if 1 / 10 ^ 10 < |(S u z (q u)).1| then 2 else 1)
    {u : ℕ → (ℕ → ℝ) → ℝ} {X₀ : ℕ → ℝ}
    (hS : ∀ k < 2 * Nt, HasGrad n (fun X => (S (fun j => u j X) (X 0) k).1) (S (fun j => u j X₀) (X₀ 0) k).2 X₀)
    (hq : ∀ᶠ v in 𝓝 (0 : Fin n → ℝ), q (fun j => u j (fun i => X₀ i + ext v i)) = q (fun j => u j X₀))
    (hqN : q (fun j => u j X₀) < Nt) (hne : |(S (fun j => u j X₀) (X₀ 0) (q fun j => u j X₀)).1| ≠ 1 / 10 ^ 10) :
    ∀ j < Nt, HasGrad n (fun X => (ft (fun i => u i X) (X 0) j).1) (ft (fun i => u i X₀) (X₀ 0) j).2 X₀ := by
  intro j hj
  have hnear := its_near (n := n) (X := X₀) (a := 1 / 10 ^ 10) (its := fun X => its (fun j => u j X) (X 0))
    (L := fun X => (S (fun j => u j X) (X 0) (q fun j => u j X)).1)
    (L' := fun X => (S (fun j => u j X) (X 0) (q fun j => u j X₀)).1) (fun X => hits _ _) (hS _ (by omega)) rfl
    (by filter_upwards [hq] with v hv; rw [hv]) hne
  have hb : (its (fun j => u j X₀) (X₀ 0) - 1) * Nt + j < 2 * Nt := by
    rw [hits]
    split <;> omega
  rw [hft _ _ j hj]
  refine hasGrad_near (hS _ hb) ?_
  filter_upwards [hnear] with v hv
  rw [hft _ _ j hj, hv]

theorem jenkins_rows_grad {n Nt : ℕ} (hN : 0 < Nt) {kt Fs : ℝ} (hF : 0 ≤ Fs) {u : ℕ → (ℕ → ℝ) → ℝ} {c : ℕ → ℕ → ℝ}
    {X₀ : ℕ → ℝ} (hu : ∀ i < Nt, HasGrad n (u i) (c i) X₀)
    (hne : ∀ k < 2 * Nt, |sliderTrial kt (fun _ => Fs) (periodic Nt fun j => u j X₀) (X₀ 0) 0 k| ≠ Fs) :
    ∀ k < 2 * Nt, HasGrad n
      (fun X => (stSeq (jenkinsOps kt Fs unit0) (periodic Nt fun j => u j X) (periodic Nt c)
        ((jenkinsOps kt Fs unit0).init (X 0)) k).fp)
      (stSeq (jenkinsOps kt Fs unit0) (periodic Nt fun j => u j X₀) (periodic Nt c)
        ((jenkinsOps kt Fs unit0).init (X₀ 0)) k).dfp X₀ := by
  intro k hk
  have h := (jenkins_seq_grad (n := n) (U := X₀) hF unit0 (fun k X => u (k % Nt) X) (periodic Nt c) (fun X => X 0)
    (HasGrad.coord 0) k (fun k _ => hu _ (Nat.mod_lt _ hN)) (fun j hj => hne j (by omega))).2
  exact h.congr_fun fun X => jenkins_fp_slider hF unit0 _ _ _ _

theorem iwan_fp_slider {w : Iwan} (hphi : ∀ k ≤ w.nSliders, 0 ≤ w.phi k) (e0 u : ℕ → ℝ) (c : ℕ → ℕ → ℝ) (z : ℝ) (i : ℕ) :
    (iwanRow w (stSeq (iwanOps w e0) u c ((iwanOps w e0).init z) i)).1
      = ∑ s ∈ range (w.nSliders + 1), slider 1 (fun _ => w.phi s) u z 0 i * w.weight s := by
  show (stSeq (iwanOps w e0) _ _ _ _).fp = _
  rw [iwan_stSeq_fp]
  refine sum_congr rfl fun s hs => ?_
  rw [show (stSeq (iwanOps w e0) u c ((iwanOps w e0).init z) i).fps s = _ from
    congrArg JHist.fp (iwan_proj_stSeq w e0 u c ((iwanOps w e0).init z) s i)]
  exact congrArg (· * w.weight s) (jenkins_fp_slider (hphi s (by have := mem_range.1 hs; omega)) e0 u c z i)

theorem iwan_rows_grad {n Nt : ℕ} (hN : 0 < Nt) {w : Iwan} (hphi : ∀ k ≤ w.nSliders, 0 ≤ w.phi k)
    {u : ℕ → (ℕ → ℝ) → ℝ} {c : ℕ → ℕ → ℝ} {X₀ : ℕ → ℝ} (hu : ∀ i < Nt, HasGrad n (u i) (c i) X₀)
    (hne : ∀ s ≤ w.nSliders, ∀ k < 2 * Nt,
      |sliderTrial 1 (fun _ => w.phi s) (periodic Nt fun j => u j X₀) (X₀ 0) 0 k| ≠ w.phi s) :
    ∀ k < 2 * Nt, HasGrad n
      (fun X => (iwanRow w (stSeq (iwanOps w unit0) (periodic Nt fun j => u j X) (periodic Nt c)
        ((iwanOps w unit0).init (X 0)) k)).1)
      (iwanRow w (stSeq (iwanOps w unit0) (periodic Nt fun j => u j X₀) (periodic Nt c)
        ((iwanOps w unit0).init (X₀ 0)) k)).2 X₀ := by
  intro k hk
  have hsum := HasGrad.sum (s := range (w.nSliders + 1)) (n := n) (x := X₀) fun s hs =>
    ((jenkins_seq_grad (n := n) (U := X₀) (hphi s (by have := mem_range.1 hs; omega)) unit0 (fun k X => u (k % Nt) X)
      (periodic Nt c) (fun X => X 0) (HasGrad.coord 0) k (fun k _ => hu _ (Nat.mod_lt _ hN))
      (fun j hj => hne s (by have := mem_range.1 hs; omega) j (by omega))).2.mul_const (w.weight s))
  refine (hsum.congr fun j _ => ?_).congr_fun fun X => iwan_fp_slider hphi unit0 _ _ _ _
  have hrow : (iwanRow w (stSeq (iwanOps w unit0) (periodic Nt fun j => u j X₀) (periodic Nt c)
      ((iwanOps w unit0).init (X₀ 0)) k)).2 j = ∑ s ∈ range (w.nSliders + 1),
        (stSeq (iwanOps w unit0) (periodic Nt fun j => u j X₀) (periodic Nt c)
          ((iwanOps w unit0).init (X₀ 0)) k).dfps s j * w.weight s := by
    cases k <;> rfl
  rw [hrow]
  refine sum_congr rfl fun s _ => ?_
  rw [show (stSeq (iwanOps w unit0) (periodic Nt fun j => u j X₀) (periodic Nt c) ((iwanOps w unit0).init (X₀ 0)) k).dfps s
    = _ from congrArg JHist.dfp (iwan_proj_stSeq w unit0 (periodic Nt fun j => u j X₀) (periodic Nt c)
      ((iwanOps w unit0).init (X₀ 0)) s k)]
  rfl

end

end TMD
