import Verif.Props.Hysteresis
import Verif.Props.ElasticDryFriction
import Verif.Props.Iwan
import Verif.Props.RoughContact
import Mathlib.Tactic.IntervalCases

/-!
# C135: friction never produces energy over a settled cycle

The tangential work over one closed cycle of samples is counted with the force at the end of every increment.  It is
never negative for the elastic dry friction elements, whatever the normal displacement does during the cycle, and for
the Iwan element.  The rough contact keeps this with a constant normal displacement, but not in general: its tangential
stiffness follows the contact radius, and an asperity that moves under light pressure and moves on under high pressure,
both forward and back, gives out energy in every cycle.
-/

namespace TMD

open TMD.Spec

noncomputable section

/-- Work done on an element over one closed cycle of `N` samples: force after every displacement increment times the
increment; the first increment comes from the last sample. -/
def cycleWork (N : ℕ) (u f : ℕ → ℝ) : ℝ := ∑ t ∈ Finset.range N, f t * (u t - u ((t + N - 1) % N))

/-- The same by the trapezoidal rule. -/
def cycleTrapz (N : ℕ) (u f : ℕ → ℝ) : ℝ :=
  ∑ t ∈ Finset.range N, (f t + f ((t + N - 1) % N)) / 2 * (u t - u ((t + N - 1) % N))

/-- Differences over a closed cycle cancel. -/
theorem cycle_cancel (N : ℕ) (q : ℕ → ℝ) : ∑ t ∈ Finset.range N, (q t - q ((t + N - 1) % N)) = 0 := by
  cases N with
  | zero => simp
  | succ n =>
    have h2 := sum_range_shift_sub (fun i => q (i % (n + 1))) n (n + 1)
    have h3 : ∀ i ∈ Finset.range (n + 1), q i - q ((i + (n + 1) - 1) % (n + 1))
        = q ((n + 1 + i) % (n + 1)) - q ((n + i) % (n + 1)) := by
      intro i hi
      rw [show n + 1 + i = i + (n + 1) by omega, Nat.add_mod_right, Nat.mod_eq_of_lt (Finset.mem_range.1 hi),
        show i + (n + 1) - 1 = n + i by omega]
    rw [Finset.sum_congr rfl h3, h2, Nat.add_mod_right, sub_self]

/-- A steady slider with any nonnegative limits takes energy. -/
theorem steady_work {N : ℕ} {kt : ℝ} {L u f : ℕ → ℝ} (hk : 0 < kt) (hL : ∀ t < N, 0 ≤ L t)
    (h : SteadyState N kt L u f) : 0 ≤ cycleWork N u f := by
  have key : ∀ t ∈ Finset.range N, (f t ^ 2 - f ((t + N - 1) % N) ^ 2) / (2 * kt)
      ≤ f t * (u t - u ((t + N - 1) % N)) := by
    intro t ht
    have ht := Finset.mem_range.1 ht
    have e := h t ht
    have c := clip_mul_nonneg (p := kt * (u t - u ((t + N - 1) % N)) + f ((t + N - 1) % N)) (hL t ht)
    rw [← e] at c
    rw [div_le_iff₀ (by positivity)]
    nlinarith [sq_nonneg (f t - f ((t + N - 1) % N))]
  have s := Finset.sum_le_sum key
  unfold cycleWork
  refine le_trans (le_of_eq ?_) s
  rw [← Finset.sum_div, cycle_cancel N (fun t => f t ^ 2), zero_div]

/-- C135 (2D elastic dry friction): the settled history takes energy over the cycle, with any course of the normal
displacement, lift-off included. -/
theorem C135_edf2_partial (Nt : ℕ) (hN : 0 < Nt) (u : ℕ → ℕ → ℝ) {kt : ℝ} (hk : 0 < kt) (kn : ℝ) {mu : ℝ} (hmu : 0 ≤ mu)
    (gap : ℝ) (u0 : ℕ → ℝ) (e : ℕ) :
    0 ≤ cycleWork Nt (fun t => u t (2*e)) (fun t => edf2History Nt u kt kn mu gap u0 t (2*e)) :=
  steady_work hk (fun _ _ => mul_nonneg hmu (le_max_right _ _)) ((C40_two_cycles_2d Nt hN u kt kn mu gap u0 hmu).1 e)

/-- C135 (3D elastic dry friction): in each of the two tangential directions. -/
theorem C135_edf3_partial (Nt : ℕ) (hN : 0 < Nt) (u : ℕ → ℕ → ℝ) {kt : ℝ} (hk : 0 < kt) (kn : ℝ) {mu : ℝ} (hmu : 0 ≤ mu)
    (gap : ℝ) (u0 : ℕ → ℝ) (e j : ℕ) (hj : j < 2) :
    0 ≤ cycleWork Nt (fun t => u t (3*e+j)) (fun t => edf3History Nt u kt kn mu gap u0 t (3*e+j)) :=
  steady_work hk (fun _ _ => mul_nonneg hmu (le_max_right _ _))
    ((C40_two_cycles_3d Nt hN u kt kn mu gap u0 hmu).1 e j hj)

/-- C135 (Iwan): the forces of the second cycle, from any state. -/
theorem C135_iwan_partial {ι : Type} (w : Iwan) (hphi : ∀ k ≤ w.nSliders, 0 ≤ w.phi k)
    (hw : ∀ k ≤ w.nSliders, 0 ≤ w.weight k) (e0 : ι → ℝ) (N : ℕ) (hN : 0 < N) (u : ℕ → ℝ) (c : ℕ → ι → ℝ) (s : IHist ι) :
    0 ≤ cycleWork N u (fun i => ((cycleRows (iwanOps w e0) ((List.range N).map fun i => (u i, c i)) 1 s).map
      Prod.fst).getD i 0) := by
  obtain ⟨f, h1, h2⟩ := C38_second_cycle_steady w hphi e0 N hN u c s
  rw [h2]
  unfold cycleWork
  have e : ∀ t ∈ Finset.range N, ((List.range N).map
        (fun i => ∑ k ∈ Finset.range (w.nSliders + 1), w.weight k * f k i)).getD t 0 * (u t - u ((t + N - 1) % N))
      = ∑ k ∈ Finset.range (w.nSliders + 1), w.weight k * (f k t * (u t - u ((t + N - 1) % N))) := by
    intro t ht
    have ht := Finset.mem_range.1 ht
    rw [List.getD_eq_getElem?_getD, List.getElem?_map, List.getElem?_range ht, Option.map_some, Option.getD_some,
      Finset.sum_mul]
    exact Finset.sum_congr rfl fun k _ => by ring
  rw [Finset.sum_congr rfl e, Finset.sum_comm]
  refine Finset.sum_nonneg fun k hk => ?_
  have hk : k ≤ w.nSliders := by simpa [Nat.lt_succ_iff] using hk
  rw [← Finset.mul_sum]
  exact mul_nonneg (hw k hk) (steady_work one_pos (fun _ _ => hphi k hk) (h1 k hk))

section Rough

variable (m : Mat) (g : Asperities) (Nt : ℕ) (u : ℕ → ℕ → ℝ)

/-- With constant normal displacement every asperity is a steady slider of constant stiffness. -/
theorem aspT_steady (hE : 0 ≤ m.Estar) {mu : ℝ} (hmu : 0 ≤ mu) (u0 : ℕ → ℝ) (hc : ∀ t < Nt, u t 2 = u 0 2)
    (k d : ℕ) (r : ℕ) :
    SteadyState Nt (8 * m.Gstar * aspA m g Nt u k 0) (fun t => mu * aspN m g Nt u k t) (fun t => u t d)
      (fun t => aspT m g Nt u u0 mu k d ((r + 1) * Nt + t)) := by
  intro t ht
  have hN : 0 < Nt := by omega
  have ha : ∀ t < Nt, aspA m g Nt u k t = aspA m g Nt u k 0 := by
    intro t ht
    unfold aspA
    rw [hc t ht]
  have hd : cycleDrift Nt (fun t => 8 * m.Gstar * aspA m g Nt u k t) (fun t => u t d) = 0 := by
    unfold cycleDrift
    beta_reduce
    rw [Finset.sum_congr rfl (g := fun t => 8 * m.Gstar * aspA m g Nt u k 0 * (u t d - u ((t + Nt - 1) % Nt) d))
      fun t ht => by rw [ha t (Finset.mem_range.1 ht)], ← Finset.mul_sum, cycle_cancel Nt (fun t => u t d), mul_zero]
  have hper := vslider_periodic Nt hN (fun t => 8 * m.Gstar * aspA m g Nt u k t) (fun t => mu * aspN m g Nt u k t)
    (fun t => u t d) (fun i hi => mul_nonneg hmu (asp_ok m g Nt u hE k i hi).2.2.1) hd (u0 d) 0
  obtain ⟨j, hj⟩ : ∃ j, (r + 1) * Nt + t = j + 1 := ⟨(r + 1) * Nt + t - 1, by
    have : 0 < (r + 1) * Nt := by positivity
    omega⟩
  have hjm : (j + 1) % Nt = t := by rw [← hj, Nat.mul_comm, Nat.mul_add_mod, Nat.mod_eq_of_lt ht]
  have hNj : Nt ≤ j + 1 := by rw [← hj, Nat.succ_mul]; omega
  have hjp : j % Nt = (t + Nt - 1) % Nt := by
    have h1 : (t + Nt - 1 + (r + 1) * Nt) % Nt = (t + Nt - 1) % Nt := Nat.add_mul_mod_self_right _ _ _
    rw [← h1, show t + Nt - 1 + (r + 1) * Nt = j + Nt by omega, Nat.add_mod_right]
  have hprev : aspT m g Nt u u0 mu k d j = aspT m g Nt u u0 mu k d ((r + 1) * Nt + (t + Nt - 1) % Nt) := by
    rcases Nat.eq_zero_or_pos t with rfl | ht0
    · rw [show (0 + Nt - 1) % Nt = Nt - 1 by rw [Nat.zero_add, Nat.mod_eq_of_lt (by omega)],
        show (r + 1) * Nt + (Nt - 1) = j + Nt by omega]
      unfold aspT
      exact (hper j hNj).symm
    · rw [show t + Nt - 1 = t - 1 + Nt by omega, Nat.add_mod_right, Nat.mod_eq_of_lt (by omega)]
      congr 1
      omega
  beta_reduce
  rw [hj, ← hprev]
  show clip (periodic Nt (fun t => mu * aspN m g Nt u k t) (j + 1))
    (periodic Nt (fun t => 8 * m.Gstar * aspA m g Nt u k t) (j + 1)
      * (periodic Nt (fun t => u t d) (j + 1) - periodic Nt (fun t => u t d) j) + aspT m g Nt u u0 mu k d j) = _
  unfold periodic
  beta_reduce
  rw [hjm, hjp, ha t ht]

/-- C135 (rough contact, constant normal displacement): from the second cycle on, both tangential directions take
energy over every cycle. -/
theorem C135_rough_partial (hE : 0 ≤ m.Estar) (hG : 0 ≤ m.Gstar) {mu : ℝ} (hmu : 0 ≤ mu)
    (hw : ∀ k < g.nasp, 0 ≤ g.weights k) (u0 : ℕ → ℝ) (hc : ∀ t < Nt, u t 2 = u 0 2) (r d : ℕ) (hd : d < 2) :
    ∃ F : ℕ → ℝ, (∀ t < Nt, roughHistory m g Nt u u0 mu (r + 2) t d = some (F t)) ∧
      0 ≤ cycleWork Nt (fun t => u t d) F := by
  refine ⟨fun t => roughTotal m g Nt u u0 mu ((r + 1) * Nt + t) d,
    fun t ht => roughHistory_eq m g Nt u hE u0 mu (r + 1) t d ht, ?_⟩
  unfold cycleWork roughTotal
  simp only [if_pos hd, Finset.sum_mul]
  rw [Finset.sum_comm]
  refine Finset.sum_nonneg fun k hk => ?_
  have hk := Finset.mem_range.1 hk
  simp only [mul_assoc]
  rw [← Finset.mul_sum]
  refine mul_nonneg (hw k hk) ?_
  have hs := aspT_steady m g Nt u hE hmu u0 hc k d r
  rcases Nat.eq_zero_or_pos Nt with rfl | hN
  · simp
  have hL : ∀ t < Nt, 0 ≤ mu * aspN m g Nt u k t := fun t ht => mul_nonneg hmu (asp_ok m g Nt u hE k t ht).2.2.1
  have hk0 : 0 ≤ 8 * m.Gstar * aspA m g Nt u k 0 :=
    mul_nonneg (by positivity) (asp_ok m g Nt u hE k 0 hN).2.2.2
  rcases hk0.eq_or_lt with h0 | h0
  · -- no stiffness: the force stays constant over the cycle, or is cut to a constant limit
    have hn : ∀ t < Nt, aspN m g Nt u k t = aspN m g Nt u k 0 := by
      intro t ht
      unfold aspN
      rw [hc t ht]
    have hcst : ∀ t < Nt, aspT m g Nt u u0 mu k d ((r + 1) * Nt + t) = aspT m g Nt u u0 mu k d ((r + 1) * Nt) := by
      intro t ht
      induction t with
      | zero => rfl
      | succ t ih =>
        have := hs (t + 1) ht
        beta_reduce at this
        rw [← h0, zero_mul, zero_add, show t + 1 + Nt - 1 = t + Nt by omega, Nat.add_mod_right,
          Nat.mod_eq_of_lt (by omega), ih (by omega)] at this
        have h00 := hs 0 hN
        beta_reduce at h00
        rw [← h0, zero_mul, zero_add] at h00
        rw [this, hn _ ht]
        apply clip_of_le
        rw [Nat.add_zero] at h00
        rw [h00]
        exact clip_abs (hL 0 hN) _
    rw [Finset.sum_congr rfl (g := fun t => aspT m g Nt u u0 mu k d ((r + 1) * Nt) * (u t d - u ((t + Nt - 1) % Nt) d))
      fun t ht => by rw [hcst t (Finset.mem_range.1 ht)], ← Finset.mul_sum, cycle_cancel Nt (fun t => u t d), mul_zero]
  · exact steady_work h0 hL hs

end Rough

/-! ## The rough contact in general -/

/-- Eight instants: forward by two steps under light and two steps under high pressure, back in the same way. -/
def pumpU : ℕ → ℕ → ℝ := fun t d =>
  if d = 2 then (if t % 4 < 2 then 1 else 16)
  else if d = 0 then (if t < 4 then (t + 1) / 100 else (7 - t) / 100)
  else 0

theorem pump_yield : 16 < 1.9 * driftMat.dy := by
  unfold driftMat Mat.new
  simp only [mul_zero, Real.exp_zero]
  have hp := Real.two_le_pi
  have e : (1.9 : ℝ) * ((Real.pi * (1.295 * 1) * 10 / (2 * (2 * (3 / 2 / 2 / (1 - 0 ^ 2))))) ^ 2 * (2 * 1) * 2)
      = 1.9 * 4 * (12.95 / 3)^2 * (Real.pi * Real.pi) := by ring
  rw [e]
  nlinarith

theorem hertz_sixteen : hertz 1 (3/4) 16 = 64 := by
  unfold hertz
  rw [if_pos (by norm_num), show (3/2 : ℝ) = 1.5 by norm_num, rpow_three_half (by norm_num),
    show (16 : ℝ) = 4^2 by norm_num, Real.sqrt_sq (by norm_num), Real.sqrt_one]
  norm_num

/-- The forces of the stuck asperity over the cycle. -/
def pumpF : ℕ → ℝ
  | 0 => 15/1000 | 1 => 3/100 | 2 => 9/100 | 3 => 15/100
  | 4 => 135/1000 | 5 => 12/100 | 6 => 6/100 | _ => 0

theorem pump_asp (t : ℕ) (ht : t < 8) :
    aspN driftMat oneAsp 8 pumpU 0 t = (if t % 4 < 2 then 1 else 64) ∧
    aspA driftMat oneAsp 8 pumpU 0 t = (if t % 4 < 2 then 1 else 4) := by
  obtain ⟨hR, hE, hG, -⟩ := drift_values
  have hdy := pump_yield
  have h := aspN_elastic driftMat oneAsp 8 pumpU (by rw [hR]; norm_num) (by rw [hE]; norm_num) 0 t ht
    (fun s hs => by
      simp only [oneAsp, pumpU, if_true, sub_zero]
      split <;> linarith)
    (by simp only [oneAsp]; linarith)
  simp only [oneAsp, sub_zero] at h
  rw [hR, hE] at h
  simp only [pumpU, if_true, one_mul] at h
  change aspN driftMat oneAsp 8 pumpU 0 t = _ ∧ aspA driftMat oneAsp 8 pumpU 0 t = _ at h
  rw [h.1, h.2]
  split
  · exact ⟨hertz_examples.1, by norm_num⟩
  · exact ⟨hertz_sixteen, by
      rw [if_pos (by norm_num), show (16 : ℝ) = 4^2 by norm_num, Real.sqrt_sq (by norm_num)]⟩

theorem pump_step (t : ℕ) (ht : t < 8) (f : ℝ) (hf : f = pumpF ((t + 7) % 8)) :
    clip (1/2 * aspN driftMat oneAsp 8 pumpU 0 t)
      (8 * driftMat.Gstar * aspA driftMat oneAsp 8 pumpU 0 t * (pumpU t 0 - pumpU ((t + 7) % 8) 0) + f) = pumpF t := by
  obtain ⟨-, -, hG, -⟩ := drift_values
  rw [(pump_asp t ht).1, (pump_asp t ht).2, hG, hf]
  interval_cases t <;> norm_num [pumpU, pumpF, clip]

theorem pump_force (s : ℕ) : aspT driftMat oneAsp 8 pumpU (fun _ => 0) (1/2) 0 0 s = pumpF (s % 8) := by
  induction s with
  | zero =>
    have h := pump_step 0 (by norm_num) 0 (by norm_num [pumpF])
    have e : pumpU ((0 + 7) % 8) 0 = 0 := by norm_num [pumpU]
    rw [e] at h
    exact h
  | succ s ih =>
    have h := pump_step ((s + 1) % 8) (Nat.mod_lt _ (by norm_num))
      (aspT driftMat oneAsp 8 pumpU (fun _ => 0) (1/2) 0 0 s) (by
        rw [ih]
        congr 1
        omega)
    have e : ((s + 1) % 8 + 7) % 8 = s % 8 := by omega
    rw [e] at h
    exact h

/-- C135 is false for the rough contact: with friction coefficient 1/2, no plasticity and a start from rest, every cycle
of a stuck asperity has the same forces, the normal force does no work, and the tangential force gives out energy, by
the end-of-increment rule and by the trapezoidal rule. -/
theorem C135_rough_violated : ∃ (m : Mat) (g : Asperities) (Nt : ℕ) (u : ℕ → ℕ → ℝ) (mu : ℝ) (F N : ℕ → ℝ),
    0 < mu ∧ mu < 1 ∧ 0 < m.Estar ∧ 0 < m.Re ∧ 0 < m.Gstar ∧ (∀ t, u t 2 < 1.9 * m.dy) ∧
    (∀ r, ∀ t < Nt, roughHistory m g Nt u (fun _ => 0) mu (r + 1) t 0 = some (F t) ∧
      roughHistory m g Nt u (fun _ => 0) mu (r + 1) t 1 = some 0 ∧
      roughHistory m g Nt u (fun _ => 0) mu (r + 1) t 2 = some (N t) ∧ |F t| < mu * N t) ∧
    cycleTrapz Nt (fun t => u t 2) N = 0 ∧
    cycleTrapz Nt (fun t => u t 0) F < 0 ∧ cycleWork Nt (fun t => u t 0) F < 0 := by
  obtain ⟨hR, hE, hG, -⟩ := drift_values
  refine ⟨driftMat, oneAsp, 8, pumpU, 1/2, pumpF, fun t => if t % 4 < 2 then 1 else 64, by norm_num, by norm_num,
    by rw [hE]; norm_num, by rw [hR]; norm_num, by rw [hG]; norm_num, ?_, ?_, ?_, ?_, ?_⟩
  · intro t
    have hdy := pump_yield
    simp only [pumpU, if_true]
    split <;> linarith
  · intro r t ht
    have hm : (r * 8 + t) % 8 = t := by omega
    refine ⟨?_, ?_, ?_, ?_⟩
    · rw [roughHistory_eq driftMat oneAsp _ pumpU (by rw [hE]; norm_num) _ _ _ _ _ ht]
      unfold roughTotal
      rw [if_pos (by norm_num), show oneAsp.nasp = 1 from rfl, Finset.sum_range_one, pump_force, hm]
      simp [oneAsp]
    · rw [roughHistory_eq driftMat oneAsp _ pumpU (by rw [hE]; norm_num) _ _ _ _ _ ht]
      unfold roughTotal
      rw [if_pos (by norm_num), show oneAsp.nasp = 1 from rfl, Finset.sum_range_one]
      have hz : ∀ s, aspT driftMat oneAsp 8 pumpU (fun _ => 0) (1/2) 0 1 s = 0 := by
        intro s
        have hc : ∀ i, clip (1/2 * aspN driftMat oneAsp 8 pumpU 0 (i % 8)) 0 = 0 := fun i =>
          clip_of_le (by
            rw [abs_zero, (pump_asp (i % 8) (Nat.mod_lt _ (by norm_num))).1]
            split <;> norm_num)
        induction s with
        | zero =>
          have := hc 0
          unfold aspT vslider periodic
          simpa [pumpU] using this
        | succ s ih =>
          show clip _ (_ + aspT driftMat oneAsp 8 pumpU (fun _ => 0) (1/2) 0 1 s) = 0
          rw [ih]
          have := hc (s + 1)
          unfold periodic
          simpa [pumpU] using this
      rw [hz, mul_zero]
    · rw [roughHistory_eq driftMat oneAsp _ pumpU (by rw [hE]; norm_num) _ _ _ _ _ ht]
      unfold roughTotal
      rw [if_neg (by norm_num), show oneAsp.nasp = 1 from rfl, Finset.sum_range_one, hm, (pump_asp t ht).1]
      simp [oneAsp]
    · interval_cases t <;> norm_num [pumpF, abs_of_nonneg]
  · norm_num [cycleTrapz, pumpU, Finset.sum_range_succ]
  · norm_num [cycleTrapz, pumpU, pumpF, Finset.sum_range_succ]
  · norm_num [cycleWork, pumpU, pumpF, Finset.sum_range_succ]

/-- Back and forth between 0 and 3 under a pressure that doubles in the second half: nine units of work. -/
example : cycleWork 2 (fun t => 3 * t) (fun t => if t = 0 then -1 else 2) = 9 := by
  norm_num [cycleWork, Finset.sum_range_succ]

example : SteadyState 2 1 (fun t => if t = 0 then 1 else 2) (fun t => 3 * t) (fun t => if t = 0 then -1 else 2) := by
  intro i hi
  interval_cases i <;> norm_num [clip]

end

end TMD
