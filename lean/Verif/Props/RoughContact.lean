import Verif.Lemmas.RoughContact

/-!
# Properties C42, C43, C80 - C83: rough contact
-/

namespace TMD

open Spec

noncomputable section

/-! ## C42: unloading curve of one asperity -/

/-- Unloading follows a 3/2 power law from the permanent deformation `b` to the maximum. -/
theorem unloading_law {dm F R E : ℝ} (hR : 0 < R) (hE : 0 < E) (hd : 0 < dm) (hF : 0 < F) :
    ∃ b < dm, (unloading dm dm (some F) R E).deltabar = some b ∧ ∀ un,
      (unloading un dm (some F) R E).fn
        = some (if b < un then F * ((un - b) / (dm - b)) ^ (3 / 2 : ℝ) else 0) := by
  have hs : 0 < Real.sqrt R := Real.sqrt_pos.2 hR
  have hs' : 0 < Real.sqrt dm := Real.sqrt_pos.2 hd
  have hD := unl_deltabar (F := F) hR hE hd
  have hDp : 0 < F / (4/3*E*Real.sqrt R*Real.sqrt dm) := by positivity
  refine ⟨dm*(1 - F/(4/3*E*Real.sqrt R*dm^(1.5 : ℝ))), by linarith, ?_, fun un => ?_⟩
  · unfold unloading
    simp only [if_pos hd]
  · obtain ⟨h1, h2⟩ := unloading_pos (un := un) (F := F) (R := R) (E := E) hd
    generalize dm*(1 - F/(4/3*E*Real.sqrt R*dm^(1.5 : ℝ))) = b at h1 h2 hD ⊢
    have hb : 0 < dm - b := by rw [hD]; exact hDp
    split
    · rename_i hu
      rw [(h2 hu (by linarith)).1, Option.some.injEq, show (1.5 : ℝ) = 3/2 by norm_num,
        Real.div_rpow (by linarith) hb.le, Real.sqrt_div (by positivity), Real.sqrt_sq hF.le,
        Real.sqrt_mul (by positivity), Real.sqrt_sq (by positivity)]
      have e : Real.sqrt ((dm - b)^3) = (dm - b)^(3/2 : ℝ) := by
        rw [Real.sqrt_eq_rpow, ← Real.rpow_natCast, ← Real.rpow_mul hb.le]
        norm_num
      rw [e]
      have : 0 < (dm - b)^(3/2 : ℝ) := Real.rpow_pos_of_pos hb _
      field_simp
    · rename_i hu
      exact (h1 (not_lt.1 hu)).1

/-- C42: unloading starts at the maximum force. -/
theorem C42_start {dm F R E : ℝ} (hR : 0 < R) (hE : 0 < E) (hd : 0 < dm) (hF : 0 < F) :
    (unloading dm dm (some F) R E).fn = some F := by
  obtain ⟨b, hb, -, h⟩ := unloading_law hR hE hd hF
  rw [h, if_pos hb, div_self (by linarith), Real.one_rpow, mul_one]

/-- C42: there is a permanent deformation, below the maximum; at and below it the force is zero, above it the
force is positive. -/
theorem C42_permanent {dm F R E : ℝ} (hR : 0 < R) (hE : 0 < E) (hd : 0 < dm) (hF : 0 < F) :
    ∃ b < dm, ∀ un, (unloading un dm (some F) R E).deltabar = some b ∧
      (un ≤ b → (unloading un dm (some F) R E).fn = some 0) ∧
      (b < un → ∃ f, 0 < f ∧ (unloading un dm (some F) R E).fn = some f) := by
  obtain ⟨b, hb, hb', h⟩ := unloading_law hR hE hd hF
  refine ⟨b, hb, fun un => ⟨hb', fun hu => ?_, fun hu => ?_⟩⟩
  · rw [h, if_neg (not_lt.2 hu)]
  · refine ⟨_, ?_, (h un).trans (by rw [if_pos hu])⟩
    have h1 : 0 < dm - b := by linarith
    have h2 : 0 < un - b := by linarith
    positivity

/-- C42: the force does not decrease with penetration. -/
theorem C42_monotone {dm F R E : ℝ} (hR : 0 < R) (hE : 0 < E) (hd : 0 < dm) (hF : 0 < F) {un un' f f' : ℝ}
    (hle : un ≤ un') (hf : (unloading un dm (some F) R E).fn = some f)
    (hf' : (unloading un' dm (some F) R E).fn = some f') : f ≤ f' := by
  obtain ⟨b, hb, -, h⟩ := unloading_law hR hE hd hF
  rw [h, Option.some.injEq] at hf hf'
  subst hf hf'
  have h1 : 0 < dm - b := by linarith
  by_cases hu : b < un
  · rw [if_pos hu, if_pos (by linarith)]
    refine mul_le_mul_of_nonneg_left (Real.rpow_le_rpow ?_ ?_ (by norm_num)) hF.le
    · exact div_nonneg (by linarith) h1.le
    · exact div_le_div_of_nonneg_right (by linarith) h1.le
  · rw [if_neg hu]
    split
    · have : 0 < un' - b := by linarith
      positivity
    · exact le_rfl

/-- C42: unloading from the elastic curve retraces it: force, contact radius and permanent deformation are those of
elastic loading, which is Hertzian contact. -/
theorem C42_elastic {un dm R E : ℝ} (hR : 0 < R) (hE : 0 < E) (hd : 0 < dm) :
    (unloading un dm (elLoading dm R E).fn R E).fn = some (hertz R E un) ∧
    (elLoading un R E).fn = some (hertz R E un) ∧
    (unloading un dm (elLoading dm R E).fn R E).a = (elLoading un R E).a ∧
    (unloading un dm (elLoading dm R E).fn R E).deltabar = some 0 := by
  rw [elLoading_fn, elLoading_fn, elLoading_a]
  obtain ⟨h1, h2, h3⟩ := unloading_hertz (un := un) hR hE hd
  exact ⟨h1, rfl, h2, h3⟩

/-- C42: an asperity that was never in contact has no force. -/
theorem C42_never {un dm R E : ℝ} {Fm : Flt} (hd : dm ≤ 0) :
    (unloading un dm Fm R E).fn = some 0 ∧ (unloading un dm Fm R E).a = some 0 := unloading_never hd

/-- The unloading law between two values: an asperity with maximum 4 and force 8 (on the Hertzian curve for
`R = 1`, `E = 3/4`) has force 1 at penetration 1. -/
example : (unloading 1 4 (some 8) 1 (3/4)).fn = some 1 := by
  have h8 : hertz 1 (3/4) 4 = 8 := by
    unfold hertz
    rw [if_pos (by norm_num), show (3/2 : ℝ) = 1.5 by norm_num, rpow_three_half (by norm_num),
      show (4 : ℝ) = 2^2 by norm_num, Real.sqrt_sq (by norm_num), Real.sqrt_one]
    norm_num
  have h1 : hertz 1 (3/4) 1 = 1 := by
    unfold hertz
    rw [if_pos (by norm_num)]
    norm_num
  have := (unloading_hertz (un := 1) (dm := 4) (R := 1) (E := 3/4) (by norm_num) (by norm_num) (by norm_num)).1
  rw [h8, h1] at this
  exact this

/-! ## C43: friction limit and steady state -/

section

variable (m : Mat) (g : Asperities) (Nt : ℕ) (u : ℕ → ℕ → ℝ)

/-- C43: in every cycle and at every instant the friction force in each direction is at most `mu` times the normal
force, which is not negative. -/
theorem C43_friction (hE : 0 ≤ m.Estar) {mu : ℝ} (hmu : 0 ≤ mu) (hw : ∀ k < g.nasp, 0 ≤ g.weights k) (u0 : ℕ → ℝ)
    (r t d : ℕ) (ht : t < Nt) (hd : d < 2) :
    ∃ T N, roughHistory m g Nt u u0 mu (r + 1) t d = some T ∧ roughHistory m g Nt u u0 mu (r + 1) t 2 = some N ∧
      0 ≤ N ∧ |T| ≤ mu * N := by
  refine ⟨_, _, roughHistory_eq m g Nt u hE u0 mu r t d ht, roughHistory_eq m g Nt u hE u0 mu r t 2 ht, ?_, ?_⟩
  · unfold roughTotal
    rw [if_neg (by omega)]
    refine Finset.sum_nonneg fun k hk => mul_nonneg (hw k (Finset.mem_range.1 hk)) ?_
    exact (asp_ok m g Nt u hE k _ (Nat.mod_lt _ (by omega))).2.2.1
  · unfold roughTotal
    rw [if_pos hd, if_neg (by omega), Finset.mul_sum]
    refine (Finset.abs_sum_le_sum_abs _ _).trans (Finset.sum_le_sum fun k hk => ?_)
    have hk := hw k (Finset.mem_range.1 hk)
    rw [abs_mul, abs_of_nonneg hk]
    have hlim := vslider_abs (periodic Nt fun t => 8 * m.Gstar * aspA m g Nt u k t)
      (periodic Nt fun t => mu * aspN m g Nt u k t) (periodic Nt fun t => u t d)
      (fun i => mul_nonneg hmu (asp_ok m g Nt u hE k _ (Nat.mod_lt _ (by omega))).2.2.1) (u0 d) 0 (r * Nt + t)
    calc g.weights k * |aspT m g Nt u u0 mu k d (r * Nt + t)|
        ≤ g.weights k * (mu * aspN m g Nt u k ((r * Nt + t) % Nt)) := mul_le_mul_of_nonneg_left hlim hk
      _ = _ := by ring

/-- Steady state when every asperity either has no drift or is unloaded once in the cycle. -/
theorem rough_steady (hE : 0 ≤ m.Estar) {mu : ℝ} (hmu : 0 ≤ mu) (u0 : ℕ → ℝ)
    (h : ∀ k < g.nasp, ∀ d < 2, cycleDrift Nt (fun t => 8 * m.Gstar * aspA m g Nt u k t) (fun t => u t d) = 0 ∨
      ∃ t < Nt, aspN m g Nt u k t = 0) (r t d : ℕ) (ht : t < Nt) :
    roughHistory m g Nt u u0 mu (r + 2) t d = roughHistory m g Nt u u0 mu 2 t d := by
  have hN : 0 < Nt := by omega
  have key : ∀ s, Nt ≤ s + 1 → roughTotal m g Nt u u0 mu (s + Nt) d = roughTotal m g Nt u u0 mu s d := by
    intro s hs
    unfold roughTotal
    split
    · rename_i hd
      refine Finset.sum_congr rfl fun k hk => ?_
      congr 1
      unfold aspT
      rcases h k (Finset.mem_range.1 hk) d hd with h | ⟨t0, ht0, h⟩
      · exact vslider_periodic Nt hN _ _ _ (fun i hi => mul_nonneg hmu (asp_ok m g Nt u hE k i hi).2.2.1) h _ _ s hs
      · obtain ⟨j, rfl⟩ : ∃ j, s = t0 + j := ⟨s - t0, by omega⟩
        refine vslider_released Nt _ _ _ t0 ?_ _ _ j
        unfold periodic
        beta_reduce
        rw [Nat.mod_eq_of_lt ht0, h, mul_zero]
    · rw [Nat.add_mod_right]
  induction r with
  | zero => rfl
  | succ r ih =>
    rw [← ih, show r + 1 + 2 = (r + 2) + 1 by ring, show r + 2 = (r + 1) + 1 by ring,
      roughHistory_eq m g Nt u hE u0 mu _ t d ht, roughHistory_eq m g Nt u hE u0 mu _ t d ht,
      ← key ((r + 1) * Nt + t) (by rw [Nat.succ_mul]; omega)]
    congr 2
    ring

/-- C43 (partial): two cycles are the steady state when the normal displacement is constant. -/
theorem C43_constant_partial (hE : 0 ≤ m.Estar) {mu : ℝ} (hmu : 0 ≤ mu) (u0 : ℕ → ℝ)
    (hc : ∀ t < Nt, u t 2 = u 0 2) (r t d : ℕ) (ht : t < Nt) :
    roughHistory m g Nt u u0 mu (r + 2) t d = roughHistory m g Nt u u0 mu 2 t d := by
  refine rough_steady m g Nt u hE hmu u0 (fun k _ d _ => Or.inl ?_) r t d ht
  have hN : 0 < Nt := by omega
  have ha : ∀ t < Nt, aspA m g Nt u k t = aspA m g Nt u k 0 := by
    intro t ht
    unfold aspA
    rw [hc t ht]
  unfold cycleDrift
  beta_reduce
  rw [Finset.sum_congr rfl (g := fun t => 8 * m.Gstar * aspA m g Nt u k 0 * (u t d - u ((t + Nt - 1) % Nt) d))
    fun t ht => by rw [ha t (Finset.mem_range.1 ht)], ← Finset.mul_sum]
  have h2 := sum_range_shift_sub (fun i => u (i % Nt) d) (Nt - 1) Nt
  have h3 : ∀ i ∈ Finset.range Nt, u i d - u ((i + Nt - 1) % Nt) d
      = u ((Nt - 1 + 1 + i) % Nt) d - u ((Nt - 1 + i) % Nt) d := by
    intro i hi
    rw [show Nt - 1 + 1 + i = i + Nt by omega, Nat.add_mod_right, Nat.mod_eq_of_lt (Finset.mem_range.1 hi),
      show i + Nt - 1 = Nt - 1 + i by omega]
  rw [Finset.sum_congr rfl h3, h2, Nat.add_mod_right, sub_self, mul_zero]

/-- C43 (partial): two cycles are the steady state when the interface opens, that is, has zero normal force at some
instant of the cycle. -/
theorem C43_opening_partial (hE : 0 ≤ m.Estar) {mu : ℝ} (hmu : 0 ≤ mu) (hw : ∀ k < g.nasp, 0 < g.weights k)
    (u0 : ℕ → ℝ) (t0 : ℕ) (ht0 : t0 < Nt) (hopen : roughHistory m g Nt u u0 mu 1 t0 2 = some 0)
    (r t d : ℕ) (ht : t < Nt) :
    roughHistory m g Nt u u0 mu (r + 2) t d = roughHistory m g Nt u u0 mu 2 t d := by
  refine rough_steady m g Nt u hE hmu u0 (fun k hk d _ => Or.inr ⟨t0, ht0, ?_⟩) r t d ht
  rw [show 1 = 0 + 1 from rfl, roughHistory_eq m g Nt u hE u0 mu 0 t0 2 ht0, Option.some.injEq] at hopen
  unfold roughTotal at hopen
  rw [if_neg (by omega), Nat.zero_mul, Nat.zero_add, Nat.mod_eq_of_lt ht0] at hopen
  have hnn : ∀ k ∈ Finset.range g.nasp, 0 ≤ g.weights k * aspN m g Nt u k t0 := fun k hk =>
    mul_nonneg (hw k (Finset.mem_range.1 hk)).le (asp_ok m g Nt u hE k t0 ht0).2.2.1
  have := (Finset.sum_eq_zero_iff_of_nonneg hnn).1 hopen k (Finset.mem_range.2 hk)
  rcases mul_eq_zero.1 this with h | h
  · exact absurd h (hw k hk).ne'
  · exact h

/-! ## C80, C83: finite forces; Hertzian contact in an elastic cycle -/

/-- C80: the force history never contains NaN. -/
theorem C80_finite (hE : 0 ≤ m.Estar) (u0 : ℕ → ℝ) (mu : ℝ) (r t d : ℕ) (ht : t < Nt) :
    ∃ F, roughHistory m g Nt u u0 mu (r + 1) t d = some F :=
  ⟨_, roughHistory_eq m g Nt u hE u0 mu r t d ht⟩

theorem aspN_elastic (hR : 0 < m.Re) (hE : 0 < m.Estar) (k t : ℕ) (ht : t < Nt)
    (h1 : ∀ s < Nt, u s 2 - g.meso - g.gaps k < 1.9 * m.dy) (h2 : 0 - g.meso - g.gaps k < 1.9 * m.dy) :
    aspN m g Nt u k t = hertz m.Re m.Estar (u t 2 - g.meso - g.gaps k) ∧
    aspA m g Nt u k t = if 0 < u t 2 - g.meso - g.gaps k then
      Real.sqrt (m.Re * (u t 2 - g.meso - g.gaps k)) else 0 := by
  obtain ⟨s, hs, e⟩ := unMax_mem Nt (by omega) u
  have hlt : cycleMax Nt g u k < 1.9 * m.dy := by unfold cycleMax; rw [e]; exact h1 s hs
  have hF : cycleFm m Nt g u k = some (hertz m.Re m.Estar (cycleMax Nt g u k)) := by
    unfold cycleFm general
    simp only
    rw [if_neg (fun h => absurd h.2 (by linarith)), if_pos ⟨hlt, h2⟩, elLoading_fn]
  have hle : u t 2 - g.meso - g.gaps k ≤ cycleMax Nt g u k := by
    have := (unMax_ge Nt u).2 t ht; unfold cycleMax; linarith
  unfold aspN aspA
  rw [hF]
  rcases le_or_gt (cycleMax Nt g u k) 0 with hd | hd
  · rw [(unloading_never hd).1, (unloading_never hd).2]
    have : ¬ 0 < u t 2 - g.meso - g.gaps k := by linarith
    unfold hertz
    rw [if_neg this, if_neg this]
    exact ⟨rfl, rfl⟩
  · obtain ⟨a, b, -⟩ := unloading_hertz (un := u t 2 - g.meso - g.gaps k) hR hE hd
    rw [a, b]
    exact ⟨rfl, rfl⟩

/-- C83: when no asperity passes the yield limit `1.9 delta_y`, the normal force at every instant of every cycle is the
weighted sum of Hertzian contact forces at that instant. -/
theorem C83_hertz (hR : 0 < m.Re) (hE : 0 < m.Estar) (h0 : ∀ k < g.nasp, 0 - g.meso - g.gaps k < 1.9 * m.dy)
    (hel : ∀ k < g.nasp, ∀ t < Nt, u t 2 - g.meso - g.gaps k < 1.9 * m.dy) (u0 : ℕ → ℝ) (mu : ℝ)
    (r t : ℕ) (ht : t < Nt) :
    roughHistory m g Nt u u0 mu (r + 1) t 2
      = some (∑ k ∈ Finset.range g.nasp, g.weights k * hertz m.Re m.Estar (u t 2 - g.meso - g.gaps k)) := by
  rw [roughHistory_eq m g Nt u hE.le u0 mu r t 2 ht]
  unfold roughTotal
  rw [if_neg (by omega), Nat.mul_comm r Nt, Nat.mul_add_mod, Nat.mod_eq_of_lt ht]
  congr 1
  refine Finset.sum_congr rfl fun k hk => ?_
  have hk := Finset.mem_range.1 hk
  rw [(aspN_elastic m g Nt u hR hE k t ht (hel k hk) (h0 k hk)).1]

end

/-- The material of the example of C43. -/
def driftMat : Mat := Mat.new (3/2) 0 1 0 10

/-- One asperity without gap. -/
def oneAsp : Asperities := ⟨0, 1, fun _ => 0, fun _ => 1⟩

/-- Two instants: the contact is pushed in while it moves in the first direction, and released while it moves back. -/
def driftU : ℕ → ℕ → ℝ := fun t d => if t = 0 then (if d = 2 then 1 else 0) else (if d = 2 then 4 else 1)

theorem hertz_examples : hertz 1 (3/4) 1 = 1 ∧ hertz 1 (3/4) 4 = 8 := by
  constructor
  · unfold hertz; rw [if_pos (by norm_num)]; norm_num
  · unfold hertz
    rw [if_pos (by norm_num), show (3/2 : ℝ) = 1.5 by norm_num, rpow_three_half (by norm_num),
      show (4 : ℝ) = 2^2 by norm_num, Real.sqrt_sq (by norm_num), Real.sqrt_one]
    norm_num

theorem drift_values : driftMat.Re = 1 ∧ driftMat.Estar = 3/4 ∧ driftMat.Gstar = 3/16 ∧ 4 < 1.9 * driftMat.dy := by
  unfold driftMat Mat.new
  refine ⟨rfl, by norm_num, by norm_num, ?_⟩
  simp only [mul_zero, Real.exp_zero]
  have hp := Real.two_le_pi
  have e : (1.9 : ℝ) * ((Real.pi * (1.295 * 1) * 10 / (2 * (2 * (3 / 2 / 2 / (1 - 0 ^ 2))))) ^ 2 * (2 * 1) * 2)
      = 1.9 * 4 * (12.95 / 3)^2 * (Real.pi * Real.pi) := by ring
  rw [e]
  nlinarith

/-- C43 is false in general: a stuck asperity that is pushed in and released during the cycle has a force that changes
with every cycle, so the second cycle is not the steady state. -/
theorem C43_violated : ∃ (m : Mat) (g : Asperities) (Nt : ℕ) (u : ℕ → ℕ → ℝ) (u0 : ℕ → ℝ) (mu : ℝ),
    0 < mu ∧ 0 < m.Estar ∧ 0 < m.Re ∧ 0 < m.Gstar ∧
    roughHistory m g Nt u u0 mu 3 0 0 ≠ roughHistory m g Nt u u0 mu 2 0 0 := by
  obtain ⟨hR, hE, hG, hdy⟩ := drift_values
  obtain ⟨e1, e4⟩ := hertz_examples
  refine ⟨driftMat, oneAsp, 2, driftU, fun _ => 0, 100, by norm_num, by rw [hE]; norm_num, by rw [hR]; norm_num,
    by rw [hG]; norm_num, ?_⟩
  have hel : ∀ t < 2, aspN driftMat oneAsp 2 driftU 0 t = hertz 1 (3/4) (driftU t 2) ∧
      aspA driftMat oneAsp 2 driftU 0 t = Real.sqrt (driftU t 2) := by
    intro t ht
    have h := aspN_elastic driftMat oneAsp 2 driftU (by rw [hR]; norm_num) (by rw [hE]; norm_num) 0 t ht
      (fun s hs => by
        simp only [oneAsp, driftU]
        split <;> norm_num at hdy ⊢ <;> linarith)
      (by simp only [oneAsp]; linarith)
    have hp : 0 < driftU t 2 := by unfold driftU; split <;> norm_num
    simp only [oneAsp, sub_zero] at h
    rw [hR, hE, if_pos hp, one_mul] at h
    exact h
  have hs4 : Real.sqrt 4 = 2 := by rw [show (4 : ℝ) = 2^2 by norm_num, Real.sqrt_sq (by norm_num)]
  have n0 : aspN driftMat oneAsp 2 driftU 0 0 = 1 := by rw [(hel 0 (by norm_num)).1]; exact e1
  have n1 : aspN driftMat oneAsp 2 driftU 0 1 = 8 := by rw [(hel 1 (by norm_num)).1]; exact e4
  have a0 : aspA driftMat oneAsp 2 driftU 0 0 = 1 := by rw [(hel 0 (by norm_num)).2]; simp [driftU]
  have a1 : aspA driftMat oneAsp 2 driftU 0 1 = 2 := by rw [(hel 1 (by norm_num)).2]; simpa [driftU] using hs4
  rw [show 3 = 2 + 1 from rfl, show 2 = 1 + 1 from rfl,
    roughHistory_eq driftMat oneAsp _ driftU (by rw [hE]; norm_num) _ _ _ _ _ (by norm_num),
    roughHistory_eq driftMat oneAsp _ driftU (by rw [hE]; norm_num) _ _ _ _ _ (by norm_num)]
  have hsum : ∀ s, roughTotal driftMat oneAsp 2 driftU (fun _ => 0) 100 s 0
      = aspT driftMat oneAsp 2 driftU (fun _ => 0) 100 0 0 s := by
    intro s
    unfold roughTotal
    simp [oneAsp]
  have h0 : aspT driftMat oneAsp 2 driftU (fun _ => 0) 100 0 0 0 = 0 := by
    unfold aspT vslider periodic clip
    simp [driftU, n0]
  have h1 : aspT driftMat oneAsp 2 driftU (fun _ => 0) 100 0 0 1 = 3 := by
    show clip _ (_ + aspT driftMat oneAsp 2 driftU (fun _ => 0) 100 0 0 0) = 3
    rw [h0]
    simp only [periodic, clip]
    norm_num [driftU, n1, a1, hG]
  have h2 : aspT driftMat oneAsp 2 driftU (fun _ => 0) 100 0 0 2 = 3/2 := by
    show clip _ (_ + aspT driftMat oneAsp 2 driftU (fun _ => 0) 100 0 0 1) = _
    rw [h1]
    simp only [periodic, clip]
    norm_num [driftU, n0, a0, hG]
  have h3 : aspT driftMat oneAsp 2 driftU (fun _ => 0) 100 0 0 3 = 9/2 := by
    show clip _ (_ + aspT driftMat oneAsp 2 driftU (fun _ => 0) 100 0 0 2) = _
    rw [h2]
    simp only [periodic, clip]
    norm_num [driftU, n1, a1, hG]
  have h4 : aspT driftMat oneAsp 2 driftU (fun _ => 0) 100 0 0 4 = 3 := by
    show clip _ (_ + aspT driftMat oneAsp 2 driftU (fun _ => 0) 100 0 0 3) = _
    rw [h3]
    simp only [periodic, clip]
    norm_num [driftU, n0, a0, hG]
  simp only [Nat.reduceAdd, Nat.reduceMul]
  rw [hsum, hsum, h2, h4]
  norm_num

end

end TMD
