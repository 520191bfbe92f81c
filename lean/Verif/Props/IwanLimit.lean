import Verif.Props.Iwan
import Verif.Props.ForceLaws
import Mathlib.MeasureTheory.Integral.IntervalIntegral.Basic
import Mathlib.Analysis.SpecialFunctions.Integrals.Basic
import Mathlib.Topology.UniformSpace.HeineCantor

/-!
# C137: the Iwan element approaches the continuous Iwan model

The element replaces the continuous distribution of sliders of the four-parameter model by midpoints of cells.  For every
history of displacements its force tends to that of the continuous model as the widest cell shrinks, so with the default
uniform spacing as the number of sliders grows.  The first loading of the continuous model is the force of the class
`ConservativeIwanBB`.  With a fixed `alphasliders > 1` the error does not vanish with more sliders.
-/

namespace TMD

open Spec Filter Topology

noncomputable section

/-- Force of the continuous four-parameter Iwan model (Segalman 2005, equations 24-26) after the displacements `us`: a
density `R φ^chi` of sliders of strength `φ` up to `φ_max`, and a spike `S` at `φ_max`. -/
def segalman (kt Fs chi beta : ℝ) (us : List ℝ) : ℝ :=
  let D := beta + (chi + 1) / (chi + 2)
  let pm := Fs * (1 + beta) / (kt * D)
  (∫ φ in (0:ℝ)..pm, Fs * (chi + 1) / (pm ^ (chi + 2) * D) * (φ ^ chi * (sliderAfter 1 φ (0, 0) us).2))
    + Fs * beta / (pm * D) * (sliderAfter 1 pm (0, 0) us).2

/-! ## Midpoint sums of continuous functions -/

/-- Midpoint sums over partitions of `[0, b]` with small cells are close to the integral. -/
theorem midpoint_converges {b : ℝ} (hb : 0 < b) {g : ℝ → ℝ} (hg : ContinuousOn g (Set.Icc 0 b)) {ε : ℝ} (hε : 0 < ε) :
    ∃ δ > 0, ∀ (n : ℕ) (x : ℕ → ℝ), x 0 = 0 → x n = b → (∀ k < n, x k < x (k+1)) → (∀ k < n, x (k+1) - x k < δ) →
      |∑ k ∈ Finset.range n, g ((x k + x (k+1)) / 2) * (x (k+1) - x k) - ∫ t in (0:ℝ)..b, g t| < ε := by
  have huc := isCompact_Icc.uniformContinuousOn_of_continuous hg
  rw [Metric.uniformContinuousOn_iff] at huc
  obtain ⟨δ, hδ, H⟩ := huc (ε / (2 * b)) (by positivity)
  refine ⟨δ, hδ, fun n x h0 hn hx hm => ?_⟩
  have mono : ∀ i j, i ≤ j → j ≤ n → x i ≤ x j := by
    intro i j hij hj
    induction j with
    | zero => rw [Nat.le_zero.1 hij]
    | succ j ih =>
      rcases Nat.lt_or_ge i (j+1) with h | h
      · exact (ih (by omega) (by omega)).trans (hx j (by omega)).le
      · rw [le_antisymm hij h]
  have hin : ∀ i ≤ n, x i ∈ Set.Icc 0 b := fun i hi =>
    ⟨h0 ▸ mono 0 i (Nat.zero_le _) hi, hn ▸ mono i n hi le_rfl⟩
  have hint : ∀ i ≤ n, ∀ j ≤ n, IntervalIntegrable g MeasureTheory.volume (x i) (x j) := fun i hi j hj =>
    (hg.mono (Set.uIcc_subset_Icc (hin i hi) (hin j hj))).intervalIntegrable
  have hs : ∫ t in (0:ℝ)..b, g t = ∑ k ∈ Finset.range n, ∫ t in x k..x (k+1), g t := by
    rw [intervalIntegral.sum_integral_adjacent_intervals (fun k hk => hint k (by omega) (k+1) (by omega)), h0, hn]
  rw [hs, ← Finset.sum_sub_distrib]
  refine (Finset.abs_sum_le_sum_abs _ _).trans_lt ?_
  have hc : ∀ k ∈ Finset.range n, |g ((x k + x (k+1)) / 2) * (x (k+1) - x k) - ∫ t in x k..x (k+1), g t|
      ≤ ε / (2 * b) * (x (k+1) - x k) := by
    intro k hk
    have hk := Finset.mem_range.1 hk
    have hlt := hx k hk
    have e : g ((x k + x (k+1)) / 2) * (x (k+1) - x k) - ∫ t in x k..x (k+1), g t
        = ∫ t in x k..x (k+1), (g ((x k + x (k+1)) / 2) - g t) := by
      rw [intervalIntegral.integral_sub intervalIntegrable_const (hint k (by omega) (k+1) (by omega)),
        intervalIntegral.integral_const, smul_eq_mul]
      ring
    rw [e, ← Real.norm_eq_abs]
    have := intervalIntegral.norm_integral_le_of_norm_le_const (a := x k) (b := x (k+1))
      (f := fun t => g ((x k + x (k+1)) / 2) - g t) (C := ε / (2 * b)) (fun t ht => by
        rw [Set.uIoc_of_le hlt.le] at ht
        have a1 := hin k (by omega)
        have a2 := hin (k+1) (by omega)
        have d := H ((x k + x (k+1)) / 2) ⟨by linarith [a1.1], by linarith [a2.2]⟩ t
          ⟨by linarith [a1.1, ht.1], by linarith [a2.2, ht.2]⟩ (by
            rw [Real.dist_eq, abs_lt]
            have := hm k hk
            constructor <;> linarith [ht.1, ht.2])
        rw [Real.dist_eq] at d
        rw [Real.norm_eq_abs]
        exact d.le)
    rwa [abs_of_pos (by linarith : 0 < x (k+1) - x k)] at this
  refine (Finset.sum_le_sum hc).trans_lt ?_
  rw [← Finset.mul_sum, Finset.sum_range_sub, hn, h0, sub_zero]
  have : ε / (2 * b) * b = ε / 2 := by field_simp
  linarith

/-! ## Dependence of a slider on its strength -/

theorem clip_continuous_limit {f : ℝ → ℝ} (hf : Continuous f) : Continuous fun φ => clip φ (f φ) := by
  unfold clip
  fun_prop

theorem sliderAfter_continuous (us : List ℝ) (up : ℝ) (f : ℝ → ℝ) (hf : Continuous f) :
    Continuous fun φ => (sliderAfter 1 φ (up, f φ) us).2 := by
  induction us generalizing up f with
  | nil => exact hf
  | cons u us ih =>
    have := ih u (fun φ => clip φ (1 * (u - up) + f φ)) (clip_continuous_limit (by fun_prop))
    exact this

theorem sliderAfter_le (us : List ℝ) {φ : ℝ} (hφ : 0 ≤ φ) (up f : ℝ) (hf : |f| ≤ φ) : |(sliderAfter 1 φ (up, f) us).2| ≤ φ := by
  induction us generalizing up f with
  | nil => exact hf
  | cons u us ih => exact ih u _ (clip_abs hφ _)

/-- The density times the slider force is continuous up to zero strength, also for negative `chi`. -/
theorem density_continuous {chi : ℝ} (hc : -1 < chi) (us : List ℝ) (b : ℝ) :
    ContinuousOn (fun φ => φ ^ chi * (sliderAfter 1 φ (0, 0) us).2) (Set.Icc 0 b) := by
  have hs := sliderAfter_continuous us 0 (fun _ => 0) continuous_const
  intro φ hφ
  rcases hφ.1.eq_or_lt with h | h
  · subst h
    have hz : (0:ℝ) ^ chi * (sliderAfter 1 0 (0, 0) us).2 = 0 := by
      have := sliderAfter_le us le_rfl 0 0 (by simp : |(0:ℝ)| ≤ 0)
      rw [abs_eq_zero.1 (le_antisymm this (abs_nonneg _)), mul_zero]
    unfold ContinuousWithinAt
    beta_reduce
    rw [hz]
    have ht : Tendsto (fun φ : ℝ => φ ^ (chi + 1)) (𝓝[Set.Icc 0 b] 0) (𝓝 0) := by
      have := (Real.continuous_rpow_const (by linarith : 0 ≤ chi + 1)).tendsto (0:ℝ)
      rw [Real.zero_rpow (by linarith)] at this
      exact this.mono_left nhdsWithin_le_nhds
    refine squeeze_zero_norm' ?_ ht
    filter_upwards [self_mem_nhdsWithin] with φ hφ
    rw [Real.norm_eq_abs, abs_mul, abs_of_nonneg (Real.rpow_nonneg hφ.1 _), Real.rpow_add_one' hφ.1 (by linarith)]
    exact mul_le_mul_of_nonneg_left (sliderAfter_le us hφ.1 0 0 (by simpa using hφ.1)) (Real.rpow_nonneg hφ.1 _)
  · exact ((Real.continuousAt_rpow_const φ chi (Or.inl h.ne')).mul hs.continuousAt).continuousWithinAt

/-! ## C137 -/

/-- C137: for every history of evaluations, with and without update, the force of the element is as close to that of the
continuous model as wanted if its widest cell is small. -/
theorem C137_converges {kt Fs chi beta : ℝ} (hk : 0 < kt) (hF : 0 < Fs) (hc : -1 < chi) (hb : 0 ≤ beta)
    (ops : List (ℝ × Bool)) (u : ℝ) (b : Bool) {ε : ℝ} (hε : 0 < ε) :
    ∃ δ > 0, ∀ n : ℕ, 0 < n → ∀ a : ℝ, 1 ≤ a → (∀ k < n, iwanDelta (iwanPhimax kt Fs chi beta) n a k < δ) →
      ∃ f, (iwanRun (Iwan.new kt Fs chi beta n a) (0, fun _ => 0) (ops ++ [(u, b)])).1.getLast? = some f ∧
        |f - segalman kt Fs chi beta (updated ops ++ [u])| < ε := by
  have hp := iwanPhimax_pos hk hF hc hb
  have hD := iwanDen_pos hc hb
  have hR : 0 < iwanR kt Fs chi beta := by
    unfold iwanR
    exact div_pos (mul_pos hF (by linarith)) (mul_pos (Real.rpow_pos_of_pos hp _) hD)
  set us := updated ops ++ [u] with hus
  have hcont : ContinuousOn (fun φ => iwanR kt Fs chi beta * (φ ^ chi * (sliderAfter 1 φ (0, 0) us).2))
      (Set.Icc 0 (iwanPhimax kt Fs chi beta)) := continuousOn_const.mul (density_continuous hc us _)
  obtain ⟨δ, hδ, H⟩ := midpoint_converges hp hcont hε
  refine ⟨δ, hδ, fun n hn a ha hw => ?_⟩
  have hphi : ∀ k ≤ (Iwan.new kt Fs chi beta n a).nSliders, 0 ≤ (Iwan.new kt Fs chi beta n a).phi k :=
    fun k _ => (C36_constructed hk hF hc hb hn ha k).1.le
  refine ⟨_, C36_parallel_sliders (Iwan.new kt Fs chi beta n a) hphi ops u b, ?_⟩
  rw [← hus]
  let x : ℕ → ℝ := fun k => ∑ j ∈ Finset.range k, iwanDelta (iwanPhimax kt Fs chi beta) n a j
  have hx1 : ∀ k, x (k+1) - x k = iwanDelta (iwanPhimax kt Fs chi beta) n a k := by
    intro k; simp only [x, Finset.sum_range_succ]; ring
  have h := H n x (by simp [x]) (iwanDelta_sum _ hn ha) (fun k _ => iwan_cells_mono hp hn ha k)
    (fun k hk => by rw [hx1]; exact hw k hk)
  have hns : (Iwan.new kt Fs chi beta n a).nSliders = n := rfl
  have hseg : segalman kt Fs chi beta us = (∫ φ in (0:ℝ)..iwanPhimax kt Fs chi beta,
      iwanR kt Fs chi beta * (φ ^ chi * (sliderAfter 1 φ (0, 0) us).2))
      + iwanS kt Fs chi beta * (sliderAfter 1 (iwanPhimax kt Fs chi beta) (0, 0) us).2 := by
    have e : Fs * (1 + beta) / (kt * (beta + (chi + 1) / (chi + 2))) = iwanPhimax kt Fs chi beta := by
      unfold iwanPhimax; rw [div_div]
    unfold segalman
    simp only [e]
    rfl
  have hsum : ∑ k ∈ Finset.range ((Iwan.new kt Fs chi beta n a).nSliders + 1), (Iwan.new kt Fs chi beta n a).weight k
        * (sliderAfter 1 ((Iwan.new kt Fs chi beta n a).phi k) (0, 0) us).2
      = ∑ k ∈ Finset.range n, iwanR kt Fs chi beta * (((x k + x (k+1)) / 2) ^ chi
          * (sliderAfter 1 ((x k + x (k+1)) / 2) (0, 0) us).2) * (x (k+1) - x k)
        + iwanS kt Fs chi beta * (sliderAfter 1 (iwanPhimax kt Fs chi beta) (0, 0) us).2 := by
    rw [hns, Finset.sum_range_succ]
    congr 1
    · refine Finset.sum_congr rfl fun k hk => ?_
      have hk := Finset.mem_range.1 hk
      have e : (Iwan.new kt Fs chi beta n a).phi k = (x k + x (k+1)) / 2 := by
        simp only [Iwan.new, iwanPhi, if_pos hk, x, Finset.sum_range_succ]; ring
      have e2 : (Iwan.new kt Fs chi beta n a).weight k
          = iwanR kt Fs chi beta * ((x k + x (k+1)) / 2) ^ chi * (x (k+1) - x k) := by
        rw [hx1, ← e]
        simp only [Iwan.new, iwanWeight, if_pos hk]
      rw [e2, e]
      ring
    · simp [Iwan.new, iwanWeight, iwanPhi]
  rw [hsum, hseg, add_sub_add_right_eq_sub]
  exact h

/-- C137: with the default uniform spacing the forces converge as the number of sliders grows. -/
theorem C137_uniform {kt Fs chi beta : ℝ} (hk : 0 < kt) (hF : 0 < Fs) (hc : -1 < chi) (hb : 0 ≤ beta)
    (ops : List (ℝ × Bool)) (u : ℝ) (b : Bool) :
    Tendsto (fun n => ((iwanRun (Iwan.new kt Fs chi beta n 1) (0, fun _ => 0) (ops ++ [(u, b)])).1.getLast?).getD 0)
      atTop (𝓝 (segalman kt Fs chi beta (updated ops ++ [u]))) := by
  rw [Metric.tendsto_atTop]
  intro ε hε
  obtain ⟨δ, hδ, H⟩ := C137_converges hk hF hc hb ops u b hε
  have hp := iwanPhimax_pos hk hF hc hb
  obtain ⟨n0, hn0⟩ := exists_nat_gt (iwanPhimax kt Fs chi beta / δ)
  refine ⟨n0 + 1, fun n hn => ?_⟩
  have hn' : (0:ℝ) < n := by exact_mod_cast (by omega : 0 < n)
  have hle : (n0 : ℝ) ≤ n := by exact_mod_cast (by omega : n0 ≤ n)
  obtain ⟨f, h1, h2⟩ := H n (by omega) 1 le_rfl (fun k _ => by
    unfold iwanDelta iwanDelta1
    rw [if_neg (lt_irrefl _), one_pow, mul_one, div_lt_iff₀ hn']
    rw [div_lt_iff₀ hδ] at hn0
    nlinarith)
  rw [h1, Option.getD_some, Real.dist_eq]
  exact h2

theorem sliderAfter_single {φ u : ℝ} (hu : 0 ≤ u) (hφ : 0 ≤ φ) : (sliderAfter 1 φ (0, 0) [u]).2 = min u φ := by
  show clip φ (1 * (u - 0) + 0) = _
  rw [one_mul, sub_zero, add_zero]
  unfold clip
  exact max_eq_right (by have := le_min hu hφ; linarith)

theorem sliderAfter_single_neg {φ u : ℝ} (hφ : 0 ≤ φ) :
    (sliderAfter 1 φ (0, 0) [-u]).2 = -(sliderAfter 1 φ (0, 0) [u]).2 := by
  show clip φ (1 * (-u - 0) + 0) = -clip φ (1 * (u - 0) + 0)
  unfold clip
  rw [one_mul, one_mul, sub_zero, sub_zero, add_zero, add_zero]
  rcases le_total u φ with h | h <;> rcases le_total (-φ) u with h' | h' <;>
    simp only [min_def, max_def] <;> split_ifs <;> linarith

/-- First loading of the density: sliders weaker than `u` slip. -/
theorem density_first {chi pm u : ℝ} (hc : -1 < chi) (hu : 0 ≤ u) (hup : u ≤ pm) :
    ∫ φ in (0:ℝ)..pm, φ ^ chi * (sliderAfter 1 φ (0, 0) [u]).2
      = u * (pm ^ (chi + 1) / (chi + 1)) - u ^ (chi + 2) / ((chi + 1) * (chi + 2)) := by
  have hcont := density_continuous hc [u] pm
  have i1 : IntervalIntegrable (fun φ => φ ^ chi * (sliderAfter 1 φ (0, 0) [u]).2) MeasureTheory.volume 0 u :=
    (hcont.mono (by rw [Set.uIcc_of_le hu]; exact Set.Icc_subset_Icc_right hup)).intervalIntegrable
  have i2 : IntervalIntegrable (fun φ => φ ^ chi * (sliderAfter 1 φ (0, 0) [u]).2) MeasureTheory.volume u pm :=
    (hcont.mono (by rw [Set.uIcc_of_le hup]; exact Set.Icc_subset_Icc_left hu)).intervalIntegrable
  rw [← intervalIntegral.integral_add_adjacent_intervals i1 i2]
  have e1 : ∫ φ in (0:ℝ)..u, φ ^ chi * (sliderAfter 1 φ (0, 0) [u]).2 = ∫ φ in (0:ℝ)..u, φ ^ (chi + 1) := by
    apply intervalIntegral.integral_congr
    intro φ hφ
    rw [Set.uIcc_of_le hu] at hφ
    simp only
    rw [sliderAfter_single hu hφ.1, min_eq_right hφ.2, Real.rpow_add_one' hφ.1 (by linarith)]
  have e2 : ∫ φ in u..pm, φ ^ chi * (sliderAfter 1 φ (0, 0) [u]).2 = ∫ φ in u..pm, φ ^ chi * u := by
    apply intervalIntegral.integral_congr
    intro φ hφ
    rw [Set.uIcc_of_le hup] at hφ
    simp only
    rw [sliderAfter_single hu (hu.trans hφ.1), min_eq_left hφ.1]
  rw [e1, e2, intervalIntegral.integral_mul_const, integral_rpow (Or.inl (by linarith)), integral_rpow (Or.inl hc),
    Real.zero_rpow (by linarith), sub_zero, show chi + 1 + 1 = chi + 2 by ring]
  have e3 : u ^ (chi + 2) = u ^ (chi + 1) * u := by
    rw [show chi + 2 = (chi + 1) + 1 by ring, Real.rpow_add_one' hu (by linarith)]
  rw [e3]
  have h1 : chi + 1 ≠ 0 := by linarith
  have h2 : chi + 2 ≠ 0 := by linarith
  field_simp
  ring

/-- C137: the first loading of the continuous model is the force law of `ConservativeIwanBB`, for displacements of
either sign and any size. -/
theorem C137_backbone {kt Fs chi beta : ℝ} (hk : 0 < kt) (hF : 0 < Fs) (hc : -1 < chi) (hb : 0 ≤ beta) (u : ℝ) (d : ℕ)
    (ud : ℝ) : segalman kt Fs chi beta [u] = (iwanBBLoc ⟨kt, Fs, chi, beta⟩ d u ud).f := by
  have hD := iwanDen_pos hc hb
  set D := beta + (chi + 1) / (chi + 2) with hDd
  set pm := Fs * (1 + beta) / (kt * D) with hpmd
  have hpm : 0 < pm := div_pos (mul_pos hF (by linarith)) (mul_pos hk hD)
  have hpp := Real.rpow_pos_of_pos hpm (chi + 1)
  have hkt : Fs * (1 + beta) = kt * D * pm := by
    rw [hpmd]; field_simp
  have h1 : chi + 1 ≠ 0 := by linarith
  have h2 : chi + 2 ≠ 0 := by linarith
  have hpm2 : pm ^ (chi + 2) = pm ^ (chi + 1) * pm := by
    rw [show chi + 2 = (chi + 1) + 1 by ring, Real.rpow_add_one hpm.ne']
  have hphi : (IwanBB.mk kt Fs chi beta).phiMax = pm := rfl
  have hE : (IwanBB.mk kt Fs chi beta).coefE * ((chi + 1) * (chi + 2)) = Fs * (chi + 1) / (pm ^ (chi + 2) * D) := by
    have e : kt * (beta + (chi + 1) / (chi + 2)) / (Fs * (1 + beta)) = pm⁻¹ := by
      rw [hpmd, inv_div]
    unfold IwanBB.coefE
    simp only
    rw [e, Real.inv_rpow hpm.le, hpm2, add_comm 1 chi]
    generalize pm ^ (chi + 1) = X at hpp
    have hb1 : 1 + beta ≠ 0 := by linarith
    have : Fs = kt * D * pm / (1 + beta) := by rw [← hkt]; field_simp
    rw [this]
    field_simp
  have pos : ∀ u, 0 ≤ u → segalman kt Fs chi beta [u] = (iwanBBLoc ⟨kt, Fs, chi, beta⟩ d u ud).f := by
    intro u hu
    have hBB : (iwanBBLoc ⟨kt, Fs, chi, beta⟩ d u ud).f
        = if u < pm then kt * u - (IwanBB.mk kt Fs chi beta).coefE * u ^ (2 + chi) else Fs := by
      rcases hu.eq_or_lt with h | h
      · subst h
        rw [(C23_odd _ d 0 ud).2, if_pos hpm, Real.zero_rpow (by linarith)]
        simp
      · have hs : npSign u = 1 := by unfold npSign; rw [if_neg (by linarith), if_neg h.ne']
        unfold iwanBBLoc mask
        simp only [hs, one_mul, mul_one, hphi]
        by_cases hlt : u < pm
        · rw [if_pos hlt, if_neg (by linarith), if_pos hlt]; ring
        · rw [if_neg hlt, if_pos (by linarith), if_neg hlt]; ring
    rw [hBB]
    unfold segalman
    simp only
    rw [← hDd, ← hpmd, intervalIntegral.integral_const_mul, sliderAfter_single hu hpm.le]
    by_cases hlt : u < pm
    · rw [if_pos hlt, density_first hc hu hlt.le, min_eq_left hlt.le, ← hE, add_comm 2 chi]
      have hS : Fs * beta / (pm * D) = kt - (IwanBB.mk kt Fs chi beta).coefE * (chi + 2) * pm ^ (chi + 1) := by
        have hE' : (IwanBB.mk kt Fs chi beta).coefE * (chi + 2) * pm ^ (chi + 1) = Fs / (pm * D) := by
          have : (IwanBB.mk kt Fs chi beta).coefE * (chi + 2)
              = Fs * (chi + 1) / (pm ^ (chi + 2) * D) / (chi + 1) := by rw [← hE]; field_simp
          rw [this, hpm2]
          generalize pm ^ (chi + 1) = X at hpp
          field_simp
        rw [hE']
        have : kt = Fs * (1 + beta) / (D * pm) := by rw [hkt]; field_simp
        rw [this]
        field_simp
        ring
      rw [hS]
      field_simp
      ring
    · push Not at hlt
      rw [if_neg (by linarith), min_eq_right hlt]
      have e : ∫ φ in (0:ℝ)..pm, φ ^ chi * (sliderAfter 1 φ (0, 0) [u]).2
          = ∫ φ in (0:ℝ)..pm, φ ^ chi * (sliderAfter 1 φ (0, 0) [pm]).2 := by
        apply intervalIntegral.integral_congr
        intro φ hφ
        rw [Set.uIcc_of_le hpm.le] at hφ
        simp only
        rw [sliderAfter_single hu hφ.1, sliderAfter_single hpm.le hφ.1, min_eq_right hφ.2,
          min_eq_right (hφ.2.trans hlt)]
      rw [e, density_first hc hpm.le le_rfl, hpm2]
      generalize pm ^ (chi + 1) = X at hpp
      have hDD : D * (chi + 2) = beta * (chi + 2) + (chi + 1) := by rw [hDd]; field_simp
      have : Fs * (chi + 1) / (X * pm * D) * (pm * (X / (chi + 1)) - X * pm / ((chi + 1) * (chi + 2)))
          + Fs * beta / (pm * D) * pm = Fs * (beta * (chi + 2) + (chi + 1)) / (D * (chi + 2)) := by
        field_simp
        ring
      rw [this, ← hDD]
      field_simp
  rcases le_total 0 u with h | h
  · exact pos u h
  · have := pos (-u) (by linarith)
    rw [(C23_odd _ d u ud).1] at this
    have e : segalman kt Fs chi beta [-u] = -segalman kt Fs chi beta [u] := by
      unfold segalman
      simp only
      rw [← hDd, ← hpmd, sliderAfter_single_neg hpm.le]
      have e : ∫ φ in (0:ℝ)..pm, Fs * (chi + 1) / (pm ^ (chi + 2) * D) * (φ ^ chi * (sliderAfter 1 φ (0, 0) [-u]).2)
          = -∫ φ in (0:ℝ)..pm, Fs * (chi + 1) / (pm ^ (chi + 2) * D) * (φ ^ chi * (sliderAfter 1 φ (0, 0) [u]).2) := by
        rw [← intervalIntegral.integral_neg]
        apply intervalIntegral.integral_congr
        intro φ hφ
        rw [Set.uIcc_of_le hpm.le] at hφ
        simp only
        rw [sliderAfter_single_neg hφ.1]
        ring
      rw [e]
      ring
    rw [e] at this
    linarith

/-- C137: so a first evaluation of the element tends to the force of `ConservativeIwanBB`. -/
theorem C137_first_loading {kt Fs chi beta : ℝ} (hk : 0 < kt) (hF : 0 < Fs) (hc : -1 < chi) (hb : 0 ≤ beta)
    (u : ℝ) (b : Bool) (d : ℕ) (ud : ℝ) :
    Tendsto (fun n => ((iwanRun (Iwan.new kt Fs chi beta n 1) (0, fun _ => 0) [(u, b)]).1.getLast?).getD 0)
      atTop (𝓝 (iwanBBLoc ⟨kt, Fs, chi, beta⟩ d u ud).f) := by
  rw [← C137_backbone hk hF hc hb u d ud]
  exact C137_uniform hk hF hc hb [] u b

/-- C137: with a fixed `alphasliders` above 1 the error stays: for `chi = 1` the force at complete slip is below `Fs` by
at least a fixed amount, however many sliders are used. -/
theorem C137_spacing {kt Fs beta : ℝ} (hk : 0 < kt) (hF : 0 < Fs) (hb : 0 ≤ beta) {a : ℝ} (ha : 1 < a) :
    ∃ e > 0, ∀ n : ℕ, 0 < n → ∀ u ≥ iwanPhimax kt Fs 1 beta, ∀ b : Bool,
      ∃ f, (iwanRun (Iwan.new kt Fs 1 beta n a) (0, fun _ => 0) [(u, b)]).1 = [f] ∧ f ≤ Fs - e := by
  have hc : (-1:ℝ) < 1 := by norm_num
  have hp := iwanPhimax_pos hk hF hc hb
  have hD := iwanDen_pos hc hb
  have hR : 0 < iwanR kt Fs 1 beta := by
    unfold iwanR
    exact div_pos (mul_pos hF (by linarith)) (mul_pos (Real.rpow_pos_of_pos hp _) hD)
  set pm := iwanPhimax kt Fs 1 beta with hpm
  refine ⟨iwanR kt Fs 1 beta * (pm * (1 - 1/a)) ^ 3 / 12, ?_, fun n hn u hu b => ?_⟩
  · have : 1/a < 1 := by rw [div_lt_one (by linarith)]; exact ha
    have : 0 < pm * (1 - 1/a) := mul_pos hp (by linarith)
    positivity
  have hphi : ∀ k ≤ (Iwan.new kt Fs 1 beta n a).nSliders, 0 ≤ (Iwan.new kt Fs 1 beta n a).phi k :=
    fun k _ => (C36_constructed hk hF hc hb hn ha.le k).1.le
  have hlast := C36_parallel_sliders (Iwan.new kt Fs 1 beta n a) hphi [] u b
  refine ⟨_, rfl, ?_⟩
  have hf : ∀ f : ℝ, (some f : Option ℝ) = some (∑ k ∈ Finset.range ((Iwan.new kt Fs 1 beta n a).nSliders + 1),
      (Iwan.new kt Fs 1 beta n a).weight k
        * (sliderAfter 1 ((Iwan.new kt Fs 1 beta n a).phi k) (0, 0) (updated [] ++ [u])).2) →
      f ≤ Fs - iwanR kt Fs 1 beta * (pm * (1 - 1/a)) ^ 3 / 12 := by
    intro f hf
    rw [Option.some_inj] at hf
    rw [hf]
    let x : ℕ → ℝ := fun k => ∑ j ∈ Finset.range k, iwanDelta pm n a j
    have hx1 : ∀ k, x (k+1) = x k + iwanDelta pm n a k := fun k => by simp only [x, Finset.sum_range_succ]
    have xn : x n = pm := iwanDelta_sum _ hn ha.le
    have x0 : x 0 = 0 := by simp [x]
    have hxn : ∀ k, 0 ≤ x k := fun k => Finset.sum_nonneg fun j _ => (iwanDelta_pos hp hn ha.le j).le
    have hxle : ∀ k ≤ n, x k ≤ pm := fun k hk => by
      rw [← xn]
      exact Finset.sum_le_sum_of_subset_of_nonneg (Finset.range_mono hk) fun j _ _ => (iwanDelta_pos hp hn ha.le j).le
    have hsum : ∑ k ∈ Finset.range ((Iwan.new kt Fs 1 beta n a).nSliders + 1), (Iwan.new kt Fs 1 beta n a).weight k
        * (sliderAfter 1 ((Iwan.new kt Fs 1 beta n a).phi k) (0, 0) (updated [] ++ [u])).2
        = ∑ k ∈ Finset.range n, (iwanR kt Fs 1 beta / 3 * (x (k+1) ^ 3 - x k ^ 3)
            - iwanR kt Fs 1 beta / 12 * iwanDelta pm n a k ^ 3) + iwanS kt Fs 1 beta * pm := by
      rw [show (Iwan.new kt Fs 1 beta n a).nSliders = n from rfl, Finset.sum_range_succ]
      have hu0 : 0 ≤ u := hp.le.trans hu
      congr 1
      · refine Finset.sum_congr rfl fun k hk => ?_
        have hk := Finset.mem_range.1 hk
        have e : (Iwan.new kt Fs 1 beta n a).phi k = x k + iwanDelta pm n a k / 2 := by
          simp only [Iwan.new, iwanPhi, if_pos hk, x, Finset.sum_range_succ]; ring
        have e2 : (Iwan.new kt Fs 1 beta n a).weight k
            = iwanR kt Fs 1 beta * (x k + iwanDelta pm n a k / 2) * iwanDelta pm n a k := by
          rw [← e]
          simp only [Iwan.new, iwanWeight, if_pos hk, Real.rpow_one, ← hpm]
        have hd := iwanDelta_pos hp hn ha.le k
        have h1 := hxle (k+1) hk
        rw [hx1] at h1
        rw [e2, e, hx1, show updated [] ++ [u] = [u] from rfl,
          sliderAfter_single hu0 (by linarith [hxn k]), min_eq_right (by linarith)]
        ring
      · rw [show (Iwan.new kt Fs 1 beta n a).phi n = pm by simp [Iwan.new, iwanPhi, hpm],
          show updated [] ++ [u] = [u] from rfl, sliderAfter_single hu0 hp.le, min_eq_right hu]
        simp [Iwan.new, iwanWeight]
    rw [hsum, Finset.sum_sub_distrib, ← Finset.mul_sum, Finset.sum_range_sub (fun k => x k ^ 3), xn, x0, ← Finset.mul_sum]
    have hcube : (pm * (1 - 1/a)) ^ 3 ≤ ∑ k ∈ Finset.range n, iwanDelta pm n a k ^ 3 := by
      have hmem : n - 1 ∈ Finset.range n := Finset.mem_range.2 (by omega)
      refine le_trans ?_ (Finset.single_le_sum (f := fun k => iwanDelta pm n a k ^ 3)
        (fun k _ => pow_nonneg (iwanDelta_pos hp hn ha.le k).le 3) hmem)
      have h1a : 1/a < 1 := by rw [div_lt_one (by linarith)]; exact ha
      refine pow_le_pow_left₀ (mul_pos hp (by linarith)).le ?_ 3
      unfold iwanDelta iwanDelta1
      obtain ⟨m, rfl⟩ : ∃ m, n = m + 1 := ⟨n - 1, by omega⟩
      rw [if_pos ha, Nat.add_sub_cancel]
      have hA : 1 ≤ a ^ m := one_le_pow₀ ha.le
      have hB : 0 < a ^ (m+1) - 1 := by rw [pow_succ]; nlinarith
      have ha0 : 0 < a := by linarith
      rw [div_mul_eq_mul_div, le_div_iff₀ hB]
      have e : pm * (1 - 1/a) * (a ^ (m+1) - 1) = pm * (a - 1) * a ^ m - pm * (1 - 1/a) := by
        rw [pow_succ]; field_simp
      rw [e]
      have : 0 < pm * (1 - 1/a) := mul_pos hp (by linarith)
      linarith
    have hFs : iwanR kt Fs 1 beta / 3 * (pm ^ 3 - 0 ^ 3) + iwanS kt Fs 1 beta * pm = Fs := by
      have e : pm ^ ((1:ℝ) + 2) = pm ^ 3 := by
        rw [show ((1:ℝ) + 2) = ((3:ℕ):ℝ) by norm_num, Real.rpow_natCast]
      unfold iwanR iwanS
      rw [← hpm, e]
      have hD' : beta + 2/3 ≠ 0 := by linarith
      norm_num
      field_simp
      ring
    have := mul_le_mul_of_nonneg_left hcube (by positivity : 0 ≤ iwanR kt Fs 1 beta / 12)
    linarith
  exact hf _ hlast

/-- Non-vacuity: typical parameters, a load reversal, and doubled cells. -/
example : Tendsto (fun n => ((iwanRun (Iwan.new 2 3 (-1/2) (1/10) n 1) (0, fun _ => 0)
      ([(1, true), (7, false)] ++ [(-1, true)])).1.getLast?).getD 0) atTop (𝓝 (segalman 2 3 (-1/2) (1/10) [1, -1])) :=
  C137_uniform (by norm_num) (by norm_num) (by norm_num) (by norm_num) [(1, true), (7, false)] (-1) true

example : segalman 2 3 (-1/2) (1/10) [100] = 3 ∧ segalman 2 3 (-1/2) (1/10) [0] = 0 := by
  rw [C137_backbone (by norm_num) (by norm_num) (by norm_num) (by norm_num) _ 0 0,
    C137_backbone (by norm_num) (by norm_num) (by norm_num) (by norm_num) _ 0 0]
  refine ⟨?_, (C23_odd _ 0 0 0).2⟩
  norm_num [iwanBBLoc, mask, npSign, IwanBB.phiMax]

example : ∃ e > 0, ∀ n : ℕ, 0 < n → ∀ u ≥ iwanPhimax 2 3 1 0, ∀ b : Bool,
    ∃ f, (iwanRun (Iwan.new 2 3 1 0 n 2) (0, fun _ => 0) [(u, b)]).1 = [f] ∧ f ≤ 3 - e :=
  C137_spacing (by norm_num) (by norm_num) le_rfl (by norm_num)

end

end TMD
