import Verif.Lemmas.Iwan
import Mathlib.Analysis.SpecialFunctions.Integrals.Basic
import Mathlib.Analysis.Convex.SpecificFunctions.Basic

/-!
# Properties C36 - C38, C65: the Iwan-4 element
-/

namespace TMD

open Spec

noncomputable section

/-! ## C36 -/

/-- Displacements that updated the history. -/
def updated (ops : List (ℝ × Bool)) : List ℝ := (ops.filter (fun p => p.2)).map Prod.fst

theorem iwanRun_append (w : Iwan) (s : ℝ × (ℕ → ℝ)) (a b : List (ℝ × Bool)) :
    iwanRun w s (a ++ b) = ((iwanRun w s a).1 ++ (iwanRun w (iwanRun w s a).2 b).1, (iwanRun w (iwanRun w s a).2 b).2) := by
  induction a generalizing s with
  | nil => rfl
  | cons p a ih =>
    obtain ⟨u, upd⟩ := p
    simp only [List.cons_append, iwanRun]
    rw [ih]

theorem iwanRun_state (w : Iwan) (hphi : ∀ k ≤ w.nSliders, 0 ≤ w.phi k) (s : ℝ × (ℕ → ℝ)) (ops : List (ℝ × Bool))
    (k : ℕ) (hk : k ≤ w.nSliders) :
    ((iwanRun w s ops).2.1, (iwanRun w s ops).2.2 k) = sliderAfter 1 (w.phi k) (s.1, s.2 k) (updated ops) := by
  induction ops generalizing s with
  | nil => rfl
  | cons p ops ih =>
    obtain ⟨u, upd⟩ := p
    simp only [iwanRun]
    rw [ih]
    cases upd with
    | false => rfl
    | true =>
      simp only [updated, List.filter_cons, if_true, List.map_cons, sliderAfter, List.foldl_cons, iwanInstant,
        iwanSlider_eq_clip (hphi k hk), one_mul]

/-- C36: after any sequence of evaluations with and without history update, the next force returned
is the weighted sum of independent sliders, each driven by the displacements that updated the history
and then by the current displacement. -/
theorem C36_parallel_sliders (w : Iwan) (hphi : ∀ k ≤ w.nSliders, 0 ≤ w.phi k) (ops : List (ℝ × Bool))
    (u : ℝ) (b : Bool) :
    (iwanRun w (0, fun _ => 0) (ops ++ [(u, b)])).1.getLast?
      = some (∑ k ∈ Finset.range (w.nSliders + 1),
          w.weight k * (sliderAfter 1 (w.phi k) (0, 0) (updated ops ++ [u])).2) := by
  rw [iwanRun_append]
  simp only [iwanRun, List.getLast?_append, List.getLast?_singleton, Option.some_or, Option.some.injEq]
  simp only [iwanInstant]
  apply Finset.sum_congr rfl
  intro k hk
  have hk : k ≤ w.nSliders := by simpa [Nat.lt_succ_iff] using hk
  have h := iwanRun_state w hphi (0, fun _ => 0) ops k hk
  simp only [sliderAfter, List.foldl_append, List.foldl_cons, List.foldl_nil]
  simp only [sliderAfter] at h
  rw [← h, iwanSlider_eq_clip (hphi k hk), one_mul, mul_comm]

/-- C36: every force returned in any history is bounded by the sum of weights times strengths. -/
theorem C36_bounded (w : Iwan) (hphi : ∀ k ≤ w.nSliders, 0 ≤ w.phi k) (hw : ∀ k ≤ w.nSliders, 0 ≤ w.weight k)
    (s : ℝ × (ℕ → ℝ)) (ops : List (ℝ × Bool)) :
    ∀ f ∈ (iwanRun w s ops).1, |f| ≤ ∑ k ∈ Finset.range (w.nSliders + 1), w.weight k * w.phi k := by
  induction ops generalizing s with
  | nil => simp [iwanRun]
  | cons p ops ih =>
    obtain ⟨u, upd⟩ := p
    simp only [iwanRun, List.mem_cons]
    rintro f (rfl | hf)
    · simp only [iwanInstant]
      refine (Finset.abs_sum_le_sum_abs _ _).trans (Finset.sum_le_sum fun k hk => ?_)
      have hk : k ≤ w.nSliders := by simpa [Nat.lt_succ_iff] using hk
      rw [abs_mul, abs_of_nonneg (hw k hk), mul_comm, iwanSlider_eq_clip (hphi k hk)]
      exact mul_le_mul_of_nonneg_left (clip_abs (hphi k hk) _) (hw k hk)
    · exact ih _ f hf

/-- C36: the same bound for every force of every cycle of the AFT history, from every state. -/
theorem C36_bounded_history {ι : Type} (w : Iwan) (hphi : ∀ k ≤ w.nSliders, 0 ≤ w.phi k)
    (hw : ∀ k ≤ w.nSliders, 0 ≤ w.weight k) (e0 : ι → ℝ) (N : ℕ) (hN : 0 < N) (u : ℕ → ℝ) (c : ℕ → ι → ℝ)
    (s : IHist ι) (n : ℕ) :
    ∀ r ∈ cycleRows (iwanOps w e0) ((List.range N).map fun i => (u i, c i)) n s,
      |r.1| ≤ ∑ k ∈ Finset.range (w.nSliders + 1), w.weight k * w.phi k := by
  rw [cycles_full (iwan_rowOf w e0) N hN]
  intro r hr
  obtain ⟨i, _, rfl⟩ := List.mem_map.1 hr
  simp only [iwanRow]
  rw [iwan_stSeq_fp]
  refine (Finset.abs_sum_le_sum_abs _ _).trans (Finset.sum_le_sum fun k hk => ?_)
  have hk : k ≤ w.nSliders := by simpa [Nat.lt_succ_iff] using hk
  rw [abs_mul, abs_of_nonneg (hw k hk), mul_comm, (iwan_stSeq w hphi e0 _ _ s _).2 k hk]
  exact mul_le_mul_of_nonneg_left (slider_abs _ _ _ (fun _ => hphi k hk) _ _ _) (hw k hk)

/-- C36: the hypotheses hold for every constructed element. -/
theorem C36_constructed {kt Fs chi beta : ℝ} (hk : 0 < kt) (hF : 0 < Fs) (hc : -1 < chi) (hb : 0 ≤ beta)
    {n : ℕ} (hn : 0 < n) {a : ℝ} (ha : 1 ≤ a) (k : ℕ) :
    0 < (Iwan.new kt Fs chi beta n a).phi k ∧ 0 ≤ (Iwan.new kt Fs chi beta n a).weight k :=
  ⟨iwanPhi_pos (iwanPhimax_pos hk hF hc hb) hn ha k, iwanWeight_nonneg hk hF hc hb hn ha k⟩

/-- Non-vacuity: an element with typical parameters. -/
example : ∀ k, 0 < (Iwan.new 1 1 (-1/2) (1/10) 100 1).phi k ∧ 0 ≤ (Iwan.new 1 1 (-1/2) (1/10) 100 1).weight k :=
  fun k => C36_constructed one_pos one_pos (by norm_num) (by norm_num) (by norm_num) le_rfl k

/-! ## C37 -/

/-- C37: the continuous slider distribution with the constructor's `R`, `S`, `phimax` has total slip
force `Fs`. -/
theorem C37_total_slip_force {kt Fs chi beta : ℝ} (hk : 0 < kt) (hF : 0 < Fs) (hc : -1 < chi) (hb : 0 ≤ beta)
    (n : ℕ) (a : ℝ) :
    (∫ φ in (0:ℝ)..(Iwan.new kt Fs chi beta n a).phimax,
        ((Iwan.new kt Fs chi beta n a).R * φ ^ chi) * φ)
      + (Iwan.new kt Fs chi beta n a).S * (Iwan.new kt Fs chi beta n a).phimax = Fs := by
  simp only [Iwan.new]
  have hp := iwanPhimax_pos hk hF hc hb
  have hD := iwanDen_pos hc hb
  have e : (∫ φ in (0:ℝ)..iwanPhimax kt Fs chi beta, (iwanR kt Fs chi beta * φ ^ chi) * φ)
      = ∫ φ in (0:ℝ)..iwanPhimax kt Fs chi beta, iwanR kt Fs chi beta * φ ^ (chi + 1) := by
    apply intervalIntegral.integral_congr
    intro x hx
    rw [Set.uIcc_of_le hp.le] at hx
    simp only
    rw [Real.rpow_add_one' hx.1 (by linarith), mul_assoc]
  rw [e, intervalIntegral.integral_const_mul, integral_rpow (Or.inl (by linarith)),
    Real.zero_rpow (by linarith), sub_zero, show chi + 1 + 1 = chi + 2 by ring]
  have hpp := Real.rpow_pos_of_pos hp (chi + 2)
  unfold iwanR iwanS
  generalize iwanPhimax kt Fs chi beta = p at hp hpp
  generalize hX : p ^ (chi + 2) = X at hpp
  have h2 : chi + 2 ≠ 0 := by linarith
  generalize hDD : beta + (chi + 1) / (chi + 2) = D at hD
  have : Fs * (chi + 1) / (X * D) * (X / (chi + 2)) + Fs * beta / (p * D) * p
      = Fs * (beta + (chi + 1) / (chi + 2)) / D := by field_simp; ring
  rw [this, hDD]
  field_simp

/-- C37: … and total stuck stiffness `kt`. -/
theorem C37_total_stiffness {kt Fs chi beta : ℝ} (hk : 0 < kt) (hF : 0 < Fs) (hc : -1 < chi) (hb : 0 ≤ beta)
    (n : ℕ) (a : ℝ) :
    (∫ φ in (0:ℝ)..(Iwan.new kt Fs chi beta n a).phimax, (Iwan.new kt Fs chi beta n a).R * φ ^ chi)
      + (Iwan.new kt Fs chi beta n a).S = kt := by
  simp only [Iwan.new]
  have hp := iwanPhimax_pos hk hF hc hb
  have hD := iwanDen_pos hc hb
  rw [intervalIntegral.integral_const_mul, integral_rpow (Or.inl (by linarith)),
    Real.zero_rpow (by linarith), sub_zero]
  have hpp := Real.rpow_pos_of_pos hp (chi + 1)
  unfold iwanR iwanS
  rw [show chi + 2 = (chi + 1) + 1 by ring, Real.rpow_add_one hp.ne', show (chi + 1) + 1 = chi + 2 by ring]
  generalize hX : (iwanPhimax kt Fs chi beta) ^ (chi + 1) = X at hpp
  have h1 : chi + 1 ≠ 0 := by linarith
  have e : Fs * (chi + 1) / (X * iwanPhimax kt Fs chi beta * (beta + (chi + 1) / (chi + 2))) * (X / (chi + 1))
      + Fs * beta / (iwanPhimax kt Fs chi beta * (beta + (chi + 1) / (chi + 2)))
      = Fs * (1 + beta) / (iwanPhimax kt Fs chi beta * (beta + (chi + 1) / (chi + 2))) := by
    generalize beta + (chi + 1) / (chi + 2) = D at hD
    field_simp
  rw [e]
  unfold iwanPhimax
  generalize beta + (chi + 1) / (chi + 2) = D at hD
  have : (1 + beta) ≠ 0 := by linarith
  field_simp

/-- C37: the sliders sit at the midpoints of cells that partition `[0, phimax]`, and the last slider
sits at `phimax`. -/
theorem C37_cells {kt Fs chi beta : ℝ} {n : ℕ} (hn : 0 < n) {a : ℝ} (ha : 1 ≤ a) :
    ∃ x : ℕ → ℝ, x 0 = 0 ∧ x n = (Iwan.new kt Fs chi beta n a).phimax ∧
      (∀ k < n, (Iwan.new kt Fs chi beta n a).phi k = (x k + x (k+1)) / 2 ∧
        (Iwan.new kt Fs chi beta n a).weight k
          = (Iwan.new kt Fs chi beta n a).R * ((x k + x (k+1)) / 2) ^ chi * (x (k+1) - x k)) ∧
      (Iwan.new kt Fs chi beta n a).phi n = (Iwan.new kt Fs chi beta n a).phimax ∧
      (Iwan.new kt Fs chi beta n a).weight n = (Iwan.new kt Fs chi beta n a).S := by
  refine ⟨fun k => ∑ j ∈ Finset.range k, iwanDelta (iwanPhimax kt Fs chi beta) n a j, by simp, ?_, ?_, ?_, ?_⟩
  · exact iwanDelta_sum _ hn ha
  · intro k hk
    have e : iwanPhi (iwanPhimax kt Fs chi beta) n a k
        = (∑ j ∈ Finset.range k, iwanDelta (iwanPhimax kt Fs chi beta) n a j
          + ∑ j ∈ Finset.range (k+1), iwanDelta (iwanPhimax kt Fs chi beta) n a j) / 2 := by
      unfold iwanPhi
      rw [if_pos hk, Finset.sum_range_succ]; ring
    refine ⟨e, ?_⟩
    simp only [Iwan.new, iwanWeight, if_pos hk]
    rw [e, Finset.sum_range_succ]; ring
  · simp [Iwan.new, iwanPhi]
  · simp [Iwan.new, iwanWeight]

/-- The slider positions increase up to `phimax`: the cells have positive width. -/
theorem iwan_cells_mono {pm : ℝ} (hp : 0 < pm) {n : ℕ} (hn : 0 < n) {a : ℝ} (ha : 1 ≤ a) (k : ℕ) :
    (∑ j ∈ Finset.range k, iwanDelta pm n a j) < ∑ j ∈ Finset.range (k+1), iwanDelta pm n a j := by
  rw [Finset.sum_range_succ]; linarith [iwanDelta_pos hp hn ha k]

/-- C37: for a uniform distribution (`chi = 0`) the quadrature is exact: the weights of the built
element sum to `kt` and weights times strengths sum to `Fs`, for every slider count and spacing. -/
theorem C37_exact_uniform {kt Fs beta : ℝ} (hk : 0 < kt) (hF : 0 < Fs) (hb : 0 ≤ beta) {n : ℕ} (hn : 0 < n)
    {a : ℝ} (ha : 1 ≤ a) :
    ∑ k ∈ Finset.range (n+1), (Iwan.new kt Fs 0 beta n a).weight k = kt ∧
    ∑ k ∈ Finset.range (n+1), (Iwan.new kt Fs 0 beta n a).weight k * (Iwan.new kt Fs 0 beta n a).phi k = Fs := by
  obtain ⟨x, h0, hn', hx, hp, hw⟩ := C37_cells (kt := kt) (Fs := Fs) (chi := 0) (beta := beta) hn ha
  have hs := C37_total_slip_force hk hF (by norm_num : (-1:ℝ) < 0) hb n a
  have ht := C37_total_stiffness hk hF (by norm_num : (-1:ℝ) < 0) hb n a
  simp only [Real.rpow_zero, mul_one, intervalIntegral.integral_const, smul_eq_mul, sub_zero] at hs ht
  rw [intervalIntegral.integral_const_mul, integral_id] at hs
  constructor
  · rw [Finset.sum_range_succ, hw]
    have : ∑ k ∈ Finset.range n, (Iwan.new kt Fs 0 beta n a).weight k
        = (Iwan.new kt Fs 0 beta n a).R * (x n - x 0) := by
      rw [← Finset.sum_range_sub, Finset.mul_sum]
      apply Finset.sum_congr rfl
      intro k hk'
      rw [(hx k (Finset.mem_range.1 hk')).2, Real.rpow_zero, mul_one]
    rw [this, h0, hn', sub_zero]
    linarith
  · rw [Finset.sum_range_succ, hw, hp]
    have : ∑ k ∈ Finset.range n, (Iwan.new kt Fs 0 beta n a).weight k * (Iwan.new kt Fs 0 beta n a).phi k
        = (Iwan.new kt Fs 0 beta n a).R * ((x n ^ 2 - x 0 ^ 2) / 2) := by
      rw [← Finset.sum_range_sub (fun k => x k ^ 2), Finset.sum_div, Finset.mul_sum]
      apply Finset.sum_congr rfl
      intro k hk'
      rw [(hx k (Finset.mem_range.1 hk')).2, (hx k (Finset.mem_range.1 hk')).1, Real.rpow_zero, mul_one]
      ring
    rw [this, h0, hn']
    linarith

example : ∃ kt Fs chi beta : ℝ, 0 < kt ∧ 0 < Fs ∧ -1 < chi ∧ 0 ≤ beta ∧ chi ≠ 0 ∧ beta ≠ 0 :=
  ⟨2, 3, -1/2, 1/2, by norm_num, by norm_num, by norm_num, by norm_num, by norm_num, by norm_num⟩

/-! ## C38 -/

/-- C38: from any state, every cycle after the second repeats exactly the forces of the second. -/
theorem C38_two_cycles {ι : Type} (w : Iwan) (hphi : ∀ k ≤ w.nSliders, 0 ≤ w.phi k) (e0 : ι → ℝ) (N : ℕ)
    (hN : 0 < N) (u : ℕ → ℝ) (c : ℕ → ι → ℝ) (s : IHist ι) (n : ℕ) :
    (cycleRows (iwanOps w e0) ((List.range N).map fun i => (u i, c i)) (n + 1) s).map Prod.fst
      = (cycleRows (iwanOps w e0) ((List.range N).map fun i => (u i, c i)) 1 s).map Prod.fst := by
  rw [cycles_full (iwan_rowOf w e0) N hN, cycles_full (iwan_rowOf w e0) N hN]
  simp only [List.map_map]
  apply List.map_congr_left
  intro i _
  simp only [Function.comp, iwanRow]
  rw [iwan_stSeq_fp, iwan_stSeq_fp]
  apply Finset.sum_congr rfl
  intro k hk
  have hk : k ≤ w.nSliders := by simpa [Nat.lt_succ_iff] using hk
  rw [(iwan_stSeq w hphi e0 _ _ s _).2 k hk, (iwan_stSeq w hphi e0 _ _ s _).2 k hk]
  congr 1
  induction n with
  | zero => rfl
  | succ n ih =>
    rw [← ih, show (n + 1 + 1) * N + i = ((n + 1) * N + i) + N by ring]
    exact slider_periodic 1 N hN (fun _ => w.phi k) u (fun _ => hphi k hk) s.up (s.fps k) _ (by
      have : N ≤ (n+1) * N := Nat.le_mul_of_pos_left _ (Nat.succ_pos n)
      omega)

/-- C38: the second cycle is the superposition of steady states of the single sliders. -/
theorem C38_second_cycle_steady {ι : Type} (w : Iwan) (hphi : ∀ k ≤ w.nSliders, 0 ≤ w.phi k) (e0 : ι → ℝ) (N : ℕ)
    (hN : 0 < N) (u : ℕ → ℝ) (c : ℕ → ι → ℝ) (s : IHist ι) :
    ∃ f : ℕ → ℕ → ℝ, (∀ k ≤ w.nSliders, SteadyState N 1 (fun _ => w.phi k) u (f k)) ∧
      (cycleRows (iwanOps w e0) ((List.range N).map fun i => (u i, c i)) 1 s).map Prod.fst
        = (List.range N).map (fun i => ∑ k ∈ Finset.range (w.nSliders + 1), w.weight k * f k i) := by
  refine ⟨fun k i => slider 1 (fun _ => w.phi k) (periodic N u) s.up (s.fps k) (N + i), ?_, ?_⟩
  · intro k hk i hi
    beta_reduce
    rcases Nat.eq_zero_or_pos i with rfl | hi0
    · rw [show (0 + N - 1) % N = N - 1 by rw [Nat.zero_add, Nat.mod_eq_of_lt (by omega)]]
      have hper := slider_periodic 1 N hN (fun _ => w.phi k) u (fun _ => hphi k hk) s.up (s.fps k) (N-1) (by omega)
      rw [slider_const_periodic] at hper
      rw [add_comm N (N-1), hper]
      obtain ⟨M, rfl⟩ : ∃ M, N = M + 1 := ⟨N - 1, by omega⟩
      simp only [Nat.add_zero, Nat.add_sub_cancel]
      rw [slider_succ]
      simp [periodic, Nat.mod_eq_of_lt (Nat.lt_succ_self M)]
    · rw [show (i + N - 1) % N = i - 1 by
        rw [show i + N - 1 = (i - 1) + N by omega, Nat.add_mod_right, Nat.mod_eq_of_lt (by omega)]]
      rw [show N + i = (N + (i-1)) + 1 by omega, slider_succ]
      simp only [periodic]
      rw [show N + (i-1) + 1 = i + N by omega, Nat.add_mod_right, Nat.mod_eq_of_lt hi,
        show N + (i-1) = (i-1) + N by omega, Nat.add_mod_right, Nat.mod_eq_of_lt (by omega : i - 1 < N)]
  · rw [cycles_full (iwan_rowOf w e0) N hN]
    simp only [List.map_map]
    apply List.map_congr_left
    intro i _
    simp only [Function.comp, iwanRow, one_mul]
    rw [iwan_stSeq_fp]
    apply Finset.sum_congr rfl
    intro k hk
    have hk : k ≤ w.nSliders := by simpa [Nat.lt_succ_iff] using hk
    rw [(iwan_stSeq w hphi e0 _ _ s _).2 k hk, mul_comm]

/-- Non-vacuity: the hypotheses of C38 hold for a constructed element and any series; the first cycle
of such an element from rest differs from the second in general (here one slider of strength 1/4 and
weight 1, displacements `1, 0` from the state at zero). -/
example : let w : Iwan := ⟨1, 1, 0, 0, 0, 1/4, 1, 1, fun _ => 1/4, fun _ => 1⟩
    (∀ k ≤ w.nSliders, 0 ≤ w.phi k) ∧
    (cycleRows (iwanOps w (fun _ : Unit => (1:ℝ))) ((List.range 2).map fun i => (if i = 0 then (1:ℝ)/8 else 1, fun _ => 1)) 0
      ((iwanOps w (fun _ : Unit => (1:ℝ))).init 0)).map Prod.fst ≠
    (cycleRows (iwanOps w (fun _ : Unit => (1:ℝ))) ((List.range 2).map fun i => (if i = 0 then (1:ℝ)/8 else 1, fun _ => 1)) 1
      ((iwanOps w (fun _ : Unit => (1:ℝ))).init 0)).map Prod.fst := by
  refine ⟨fun k _ => by norm_num, ?_⟩
  simp only [cycleRows, cycleState, List.range, List.range.loop, List.map, onePass, iwanOps, iwanStep, iwanInstant,
    iwanSlider, Finset.sum_range_one, zero_add]
  norm_num [Real.sign]

/-! ## C65 -/

/-- Bernoulli for a tangent line at `m`: `x^q` lies above it for `q ≥ 1`. -/
theorem rpow_tangent {m x q : ℝ} (hm : 0 < m) (hx : 0 ≤ x) (hq : 1 ≤ q) :
    m ^ q + q * m ^ (q - 1) * (x - m) ≤ x ^ q := by
  have h := one_add_mul_self_le_rpow_one_add (s := (x - m) / m) (by rw [le_div_iff₀ hm]; linarith) hq
  have e : 1 + (x - m) / m = x / m := by field_simp; ring
  rw [e, Real.div_rpow hx hm.le, le_div_iff₀ (Real.rpow_pos_of_pos hm q)] at h
  have e2 : m ^ q = m ^ (q - 1) * m := by rw [← Real.rpow_add_one hm.ne', sub_add_cancel]
  refine le_trans (le_of_eq ?_) h
  rw [e2]; field_simp

/-- … and below it for `0 ≤ q ≤ 1`. -/
theorem rpow_tangent' {m x q : ℝ} (hm : 0 < m) (hx : 0 ≤ x) (hq0 : 0 ≤ q) (hq : q ≤ 1) :
    x ^ q ≤ m ^ q + q * m ^ (q - 1) * (x - m) := by
  have h := rpow_one_add_le_one_add_mul_self (s := (x - m) / m) (by rw [le_div_iff₀ hm]; linarith) hq0 hq
  have e : 1 + (x - m) / m = x / m := by field_simp; ring
  rw [e, Real.div_rpow hx hm.le, div_le_iff₀ (Real.rpow_pos_of_pos hm q)] at h
  have e2 : m ^ q = m ^ (q - 1) * m := by rw [← Real.rpow_add_one hm.ne', sub_add_cancel]
  refine h.trans (le_of_eq ?_)
  rw [e2]; field_simp

theorem integral_tangent (m a b A B : ℝ) (hm : m = (a + b) / 2) :
    (∫ x in a..b, (A + B * (x - m))) = A * (b - a) := by
  rw [intervalIntegral.integral_add (by simp) (by
    apply Continuous.intervalIntegrable; fun_prop), intervalIntegral.integral_const,
    intervalIntegral.integral_const_mul, intervalIntegral.integral_sub (by simp) (by simp), integral_id,
    intervalIntegral.integral_const, hm]
  simp only [smul_eq_mul]; ring

/-- Midpoint rule underestimates the integral of `x^q`, `q ≥ 1`. -/
theorem midpoint_le {a b q : ℝ} (ha : 0 ≤ a) (hab : a < b) (hq : 1 ≤ q) :
    ((a + b) / 2) ^ q * (b - a) ≤ ∫ x in a..b, x ^ q := by
  rw [← integral_tangent ((a+b)/2) a b _ (q * ((a + b) / 2) ^ (q - 1)) rfl]
  apply intervalIntegral.integral_mono_on hab.le
  · apply Continuous.intervalIntegrable; fun_prop
  · exact intervalIntegral.intervalIntegrable_rpow' (by linarith)
  · intro x hx
    exact rpow_tangent (by linarith) (by linarith [hx.1]) hq

/-- Midpoint rule overestimates the integral of `x^q`, `0 ≤ q ≤ 1`. -/
theorem midpoint_ge {a b q : ℝ} (ha : 0 ≤ a) (hab : a < b) (hq0 : 0 ≤ q) (hq : q ≤ 1) :
    ∫ x in a..b, x ^ q ≤ ((a + b) / 2) ^ q * (b - a) := by
  rw [← integral_tangent ((a+b)/2) a b _ (q * ((a + b) / 2) ^ (q - 1)) rfl]
  apply intervalIntegral.integral_mono_on hab.le
  · exact intervalIntegral.intervalIntegrable_rpow' (by linarith)
  · apply Continuous.intervalIntegrable; fun_prop
  · intro x hx
    exact rpow_tangent' (by linarith) (by linarith [hx.1]) hq0 hq

/-- Slip force of the built element as a sum over cells. -/
theorem iwan_slip_cells {kt Fs chi beta : ℝ} (hk : 0 < kt) (hF : 0 < Fs) (hc : -1 < chi) (hb : 0 ≤ beta) {n : ℕ}
    (hn : 0 < n) {a : ℝ} (ha : 1 ≤ a) :
    ∃ x : ℕ → ℝ, x 0 = 0 ∧ (∀ k, x k < x (k+1)) ∧ (∀ k, 0 ≤ x k) ∧ 0 < (Iwan.new kt Fs chi beta n a).R ∧
      Fs = (∑ k ∈ Finset.range n, (Iwan.new kt Fs chi beta n a).R * ∫ y in x k..x (k+1), y ^ (chi + 1))
        + (Iwan.new kt Fs chi beta n a).S * (Iwan.new kt Fs chi beta n a).phimax ∧
      ∑ k ∈ Finset.range (n+1), (Iwan.new kt Fs chi beta n a).weight k * (Iwan.new kt Fs chi beta n a).phi k
        = (∑ k ∈ Finset.range n, (Iwan.new kt Fs chi beta n a).R
            * (((x k + x (k+1)) / 2) ^ (chi + 1) * (x (k+1) - x k)))
          + (Iwan.new kt Fs chi beta n a).S * (Iwan.new kt Fs chi beta n a).phimax := by
  have hp := iwanPhimax_pos hk hF hc hb
  set x : ℕ → ℝ := fun k => ∑ j ∈ Finset.range k, iwanDelta (iwanPhimax kt Fs chi beta) n a j with hxdef
  have hxm : ∀ k, x k < x (k+1) := fun k => iwan_cells_mono hp hn ha k
  have hx0 : ∀ k, 0 ≤ x k := fun k => Finset.sum_nonneg fun j _ => (iwanDelta_pos hp hn ha j).le
  refine ⟨x, by simp [hxdef], hxm, hx0, iwanR_pos hk hF hc hb, ?_, ?_⟩
  · have hs := C37_total_slip_force hk hF hc hb n a
    rw [← Finset.mul_sum, intervalIntegral.sum_integral_adjacent_intervals (fun k _ =>
      intervalIntegral.intervalIntegrable_rpow' (by linarith))]
    have e0 : x 0 = 0 := by simp [hxdef]
    have en : x n = (Iwan.new kt Fs chi beta n a).phimax := iwanDelta_sum _ hn ha
    rw [e0, en, ← intervalIntegral.integral_const_mul]
    conv_lhs => rw [← hs]
    congr 1
    apply intervalIntegral.integral_congr
    intro y hy
    have hp' : 0 ≤ (Iwan.new kt Fs chi beta n a).phimax := hp.le
    rw [Set.uIcc_of_le hp'] at hy
    simp only
    rw [Real.rpow_add_one' hy.1 (by linarith), mul_assoc]
  · rw [Finset.sum_range_succ]
    have hw : (Iwan.new kt Fs chi beta n a).weight n = (Iwan.new kt Fs chi beta n a).S := by
      simp [Iwan.new, iwanWeight]
    have hph : (Iwan.new kt Fs chi beta n a).phi n = (Iwan.new kt Fs chi beta n a).phimax := by
      simp [Iwan.new, iwanPhi]
    rw [hw, hph]
    congr 1
    apply Finset.sum_congr rfl
    intro k hk'
    have hk' := Finset.mem_range.1 hk'
    have e : (Iwan.new kt Fs chi beta n a).phi k = (x k + x (k+1)) / 2 := by
      simp only [Iwan.new, iwanPhi, if_pos hk', hxdef]
      rw [Finset.sum_range_succ]; ring
    have hpos : 0 < (x k + x (k+1)) / 2 := by linarith [hx0 k, hxm k]
    have e2 : (Iwan.new kt Fs chi beta n a).weight k = (Iwan.new kt Fs chi beta n a).R
        * ((x k + x (k+1)) / 2) ^ chi * (x (k+1) - x k) := by
      rw [← e]
      simp only [Iwan.new, iwanWeight, if_pos hk', hxdef]
      rw [Finset.sum_range_succ]; ring
    rw [e2, e, Real.rpow_add_one hpos.ne']; ring

/-- C65 (partial): for `chi ≥ 0` no history of the built element ever returns more than `Fs`. Missing:
`-1 < chi < 0`, where the midpoint rule overestimates the slip force (`C65_violated`). -/
theorem C65_force_within_Fs_partial {kt Fs chi beta : ℝ} (hk : 0 < kt) (hF : 0 < Fs) (hc : 0 ≤ chi) (hb : 0 ≤ beta)
    {n : ℕ} (hn : 0 < n) {a : ℝ} (ha : 1 ≤ a) (s : ℝ × (ℕ → ℝ)) (ops : List (ℝ × Bool)) :
    ∀ f ∈ (iwanRun (Iwan.new kt Fs chi beta n a) s ops).1, |f| ≤ Fs := by
  intro f hf
  have hc' : -1 < chi := by linarith
  refine (C36_bounded (Iwan.new kt Fs chi beta n a) (fun k _ => (C36_constructed hk hF hc' hb hn ha k).1.le)
    (fun k _ => (C36_constructed hk hF hc' hb hn ha k).2) s ops f hf).trans ?_
  obtain ⟨x, h0, hxm, hx0, hR, hFs, hsum⟩ := iwan_slip_cells hk hF hc' hb hn ha
  have hns : (Iwan.new kt Fs chi beta n a).nSliders = n := rfl
  rw [hns, hsum]
  conv_rhs => rw [hFs]
  gcongr with k _
  exact midpoint_le (hx0 k) (hxm k) (by linarith)

/-- C65: for `-1 < chi ≤ 0` the slip force of the built element is at least `Fs`. -/
theorem C65_slip_force_at_least_Fs {kt Fs chi beta : ℝ} (hk : 0 < kt) (hF : 0 < Fs) (hc : -1 < chi) (hc0 : chi ≤ 0)
    (hb : 0 ≤ beta) {n : ℕ} (hn : 0 < n) {a : ℝ} (ha : 1 ≤ a) :
    Fs ≤ ∑ k ∈ Finset.range (n+1), (Iwan.new kt Fs chi beta n a).weight k * (Iwan.new kt Fs chi beta n a).phi k := by
  obtain ⟨x, h0, hxm, hx0, hR, hFs, hsum⟩ := iwan_slip_cells hk hF hc hb hn ha
  rw [hsum]
  conv_lhs => rw [hFs]
  gcongr with k _
  exact midpoint_ge (hx0 k) (hxm k) (by linarith) (by linarith)

/-- C65 is false for negative `chi`: with one slider cell, `kt = Fs = 1`, `chi = -1/2`, `beta = 0`, a
single evaluation at displacement 3 from rest returns more than `Fs`. -/
theorem C65_violated : ∃ f ∈ (iwanRun (Iwan.new 1 1 (-1/2) 0 1 1) (0, fun _ => 0) [(3, false)]).1, 1 < f := by
  have hpm : iwanPhimax 1 1 (-1/2) 0 = 3 := by unfold iwanPhimax; norm_num
  have hphi : ∀ k, iwanPhi 3 1 1 k = if k < 1 then 3/2 else 3 := by
    intro k
    unfold iwanPhi
    split
    · rename_i h
      have : k = 0 := by omega
      subst this
      simp [iwanDelta, iwanDelta1]; norm_num
    · rfl
  refine ⟨_, List.mem_cons_self, ?_⟩
  simp only [iwanInstant, Iwan.new, hpm, iwanWeight, hphi]
  rw [Finset.sum_range_succ, Finset.sum_range_one]
  simp only [iwanSlider, if_pos (by norm_num : (0:ℕ) < 1), if_neg (by norm_num : ¬ (1:ℕ) < 1), iwanS, iwanR, hpm]
  have hd : iwanDelta 3 1 1 0 = 3 := by simp [iwanDelta, iwanDelta1]
  rw [hd]
  norm_num [Real.sign]
  have h3 : (3:ℝ) ^ (3/2 : ℝ) = 3 * Real.sqrt 3 := by
    rw [show (3/2:ℝ) = 1 + 1/2 by norm_num, Real.rpow_add (by norm_num), Real.rpow_one, ← Real.sqrt_eq_rpow]
  have h32 : (3/2:ℝ) ^ (-(1/2) : ℝ) = (Real.sqrt (3/2))⁻¹ := by
    rw [Real.rpow_neg (by norm_num), ← Real.sqrt_eq_rpow]
  have hr : Real.sqrt 3 * Real.sqrt (3/2) < 9/4 := by
    rw [← Real.sqrt_mul (by norm_num), Real.sqrt_lt' (by norm_num)]; norm_num
  have hr0 : 0 < Real.sqrt 3 * Real.sqrt (3/2) :=
    mul_pos (Real.sqrt_pos.2 (by norm_num)) (Real.sqrt_pos.2 (by norm_num))
  rw [h3, h32]
  have e : (3/2:ℝ) * (1 / 2 / (3 * Real.sqrt 3 * (1 / 3)) * (Real.sqrt (3/2))⁻¹ * 3)
      = (9/4) / (Real.sqrt 3 * Real.sqrt (3/2)) := by
    have h1 : Real.sqrt 3 ≠ 0 := (Real.sqrt_pos.2 (by norm_num)).ne'
    have h2 : Real.sqrt (3/2) ≠ 0 := (Real.sqrt_pos.2 (by norm_num)).ne'
    field_simp; ring
  rw [e, lt_div_iff₀ hr0]
  linarith

end

end TMD
