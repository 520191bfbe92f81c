import Verif.Props.RoughContact
import Verif.Lemmas.RoughStatic

/-!
# Properties C81, C82: static force of rough contact
-/

namespace TMD

open Spec

noncomputable section

/-! ## C81: an asperity that is pressed in carries a force -/

/-- C81 (partial): the first static evaluation on a fresh object gives a positive normal force as soon as one asperity
is in contact. Missing: asperities at exactly the yield limit `1.9 delta_y`, see `C81_violated`. -/
theorem C81_static_partial (m : Mat) (h : m.Good) (g : Asperities) (hg : ∀ k < g.nasp, 0 ≤ g.meso + g.gaps k)
    (hw : ∀ k < g.nasp, 0 ≤ g.weights k) (u : ℕ → ℝ) (mu : ℝ) (upd : Bool)
    (hne : ∀ k < g.nasp, u 2 - g.meso - g.gaps k ≠ 1.9*m.dy)
    (k : ℕ) (hk : k < g.nasp) (hu : g.meso + g.gaps k < u 2) (hwk : 0 < g.weights k) :
    ∃ F, ((RoughObj.new mu).force m g u upd).1 2 = some F ∧ 0 < F := by
  have key : ∀ k < g.nasp, ∃ f, (general m (u 2 - g.meso - g.gaps k) (0 - g.meso - g.gaps k) (some 0)).fn = some f ∧
      0 ≤ f ∧ (g.meso + g.gaps k < u 2 → 0 < f) := by
    intro k hk
    have hd : 0 - g.meso - g.gaps k ≤ 0 := by linarith [hg k hk]
    rcases le_or_gt (u 2) (g.meso + g.gaps k) with hu | hu
    · exact ⟨0, general_open h hd (by linarith), le_rfl, fun h => by linarith⟩
    · obtain ⟨f, h1, h2⟩ := general_virgin (F := some 0) h hd (show 0 < u 2 - g.meso - g.gaps k by linarith) (hne k hk)
      exact ⟨f, h1, h2.le, fun _ => h2⟩
  have hsum := weighted_some g.weights (fun k => (general m (u 2 - g.meso - g.gaps k) (0 - g.meso - g.gaps k) (some 0)).fn)
    (fun k => (general m (u 2 - g.meso - g.gaps k) (0 - g.meso - g.gaps k) (some 0)).fn.getD 0) g.nasp
    (fun k hk => by obtain ⟨f, e, -⟩ := key k hk; rw [e]; rfl)
  refine ⟨_, hsum, Finset.sum_pos' (fun k hk => ?_) ⟨k, Finset.mem_range.2 hk, ?_⟩⟩
  · obtain ⟨f, e, hf, -⟩ := key k (Finset.mem_range.1 hk)
    rw [e]
    exact mul_nonneg (hw k (Finset.mem_range.1 hk)) hf
  · obtain ⟨f, e, -, hf⟩ := key k hk
    rw [e]
    exact mul_pos hwk (hf hu)

/-- C81 (partial): in the cycle, the normal force is positive at the instant of largest penetration as soon as one
asperity is in contact there. -/
theorem C81_cycle_partial (m : Mat) (h : m.Good) (g : Asperities) (hg : ∀ k < g.nasp, 0 ≤ g.meso + g.gaps k)
    (hw : ∀ k < g.nasp, 0 ≤ g.weights k) (Nt : ℕ) (u : ℕ → ℕ → ℝ) (u0 : ℕ → ℝ) (mu : ℝ)
    (t : ℕ) (ht : t < Nt) (hmax : ∀ s < Nt, u s 2 ≤ u t 2)
    (hne : ∀ k < g.nasp, u t 2 - g.meso - g.gaps k ≠ 1.9*m.dy)
    (k : ℕ) (hk : k < g.nasp) (hu : g.meso + g.gaps k < u t 2) (hwk : 0 < g.weights k) (r : ℕ) :
    ∃ F, roughHistory m g Nt u u0 mu (r + 1) t 2 = some F ∧ 0 < F := by
  refine ⟨_, roughHistory_eq m g Nt u h.Estar.le u0 mu r t 2 ht, ?_⟩
  unfold roughTotal
  rw [if_neg (by omega), Nat.mul_comm r Nt, Nat.mul_add_mod, Nat.mod_eq_of_lt ht]
  have hM : unMax Nt u = u t 2 := by
    obtain ⟨s, hs, e⟩ := unMax_mem Nt (by omega) u
    exact le_antisymm (e ▸ hmax s hs) ((unMax_ge Nt u).2 t ht)
  refine Finset.sum_pos' (fun k hk => ?_) ⟨k, Finset.mem_range.2 hk, mul_pos hwk ?_⟩
  · exact mul_nonneg (hw k (Finset.mem_range.1 hk)) (asp_ok m g Nt u h.Estar.le k t ht).2.2.1
  · obtain ⟨f, e, hf⟩ := general_virgin (F := some 0) h (show 0 - g.meso - g.gaps k ≤ 0 by linarith [hg k hk])
      (show 0 < u t 2 - g.meso - g.gaps k by linarith) (hne k hk)
    unfold aspN cycleFm cycleMax
    rw [hM, e, C42_start h.Re h.Estar (by linarith) hf]
    exact hf

theorem driftMat_good : driftMat.Good := by
  obtain ⟨h1, h2, -, h4⟩ := drift_values
  refine ⟨by rw [h1]; norm_num, by rw [h2]; norm_num, ?_, ?_, ?_, ?_⟩
  · show (0 : ℝ) < 3/2; norm_num
  · show (0 : ℝ) ≤ 0; norm_num
  · norm_num at h4; linarith
  · show (0 : ℝ) < 10; norm_num

/-- C81 at work: the asperity pressed in by one unit carries a force. -/
example : ∃ F, ((RoughObj.new 1).force driftMat oneAsp (fun _ => 1) true).1 2 = some F ∧ 0 < F := by
  obtain ⟨-, -, -, h4⟩ := drift_values
  refine C81_static_partial driftMat driftMat_good oneAsp (fun k _ => by simp [oneAsp]) (fun k _ => by simp [oneAsp])
    _ 1 true (fun k _ => ?_) 0 (by simp [oneAsp]) (by simp [oneAsp]) (by simp [oneAsp])
  simp only [oneAsp, sub_zero]
  intro e
  rw [← e] at h4
  linarith

/-- C81 is false at the yield limit itself: an asperity pressed in to exactly `1.9 delta_y` is neither elastic nor
yielding for the code, and its force is zero, in the static evaluation and in every cycle. -/
theorem C81_violated : ∃ (m : Mat) (g : Asperities) (u : ℕ → ℝ), m.Good ∧ (∀ k < g.nasp, 0 ≤ g.meso + g.gaps k) ∧
    (∀ k < g.nasp, 0 < g.weights k) ∧ 0 < g.nasp ∧ (∀ k < g.nasp, g.meso + g.gaps k < u 2) ∧
    (∀ mu upd, ((RoughObj.new mu).force m g u upd).1 2 = some 0) ∧
    ∀ Nt u0 mu r t, t < Nt → roughHistory m g Nt (fun _ => u) u0 mu (r + 1) t 2 = some 0 := by
  have hdy := driftMat_good.dy
  refine ⟨driftMat, oneAsp, fun _ => 1.9*driftMat.dy, driftMat_good, fun k _ => by simp [oneAsp],
    fun k _ => by simp [oneAsp], by simp [oneAsp], fun k _ => by simp only [oneAsp]; linarith, fun mu upd => ?_,
    fun Nt u0 mu r t ht => ?_⟩
  · have hz : (general driftMat (1.9*driftMat.dy) 0 (some 0)).fn = some 0 := by
      rw [general_unload (fun h => lt_irrefl _ h.2) (fun h => lt_irrefl _ h.1)]
      exact (unloading_never le_rfl).1
    show weighted _ (fun k => (general driftMat (1.9*driftMat.dy - 0 - 0) (0 - 0 - 0) (some 0)).fn) 1 = some 0
    simp only [sub_zero, weighted, hz]
    norm_num [oneAsp]
  · rw [roughHistory_eq driftMat oneAsp Nt _ driftMat_good.Estar.le u0 mu r t 2 ht]
    have hM : unMax Nt (fun _ _ => 1.9*driftMat.dy) = 1.9*driftMat.dy := by
      obtain ⟨s, hs, e⟩ := unMax_mem Nt (by omega) (fun _ _ => 1.9*driftMat.dy)
      exact e
    have hF : cycleFm driftMat Nt oneAsp (fun _ _ => 1.9*driftMat.dy) 0 = some 0 := by
      unfold cycleFm cycleMax
      rw [hM]
      simp only [oneAsp, sub_zero]
      rw [general_unload (fun h => lt_irrefl _ h.2) (fun h => lt_irrefl _ h.1)]
      exact (unloading_never le_rfl).1
    unfold roughTotal
    rw [if_neg (by omega)]
    simp only [oneAsp, Finset.range_one, Finset.sum_singleton, one_mul, Option.some.injEq]
    change aspN driftMat oneAsp Nt _ 0 _ = 0
    unfold aspN
    rw [hF]
    have hp : 0 < cycleMax Nt oneAsp (fun _ _ => 1.9*driftMat.dy) 0 := by
      unfold cycleMax; rw [hM]; simp only [oneAsp, sub_zero]; linarith
    rw [((unloading_pos (un := 1.9*driftMat.dy - oneAsp.meso - oneAsp.gaps 0) (F := 0) (R := driftMat.Re)
      (E := driftMat.Estar) hp).1 (by
        unfold cycleMax; rw [hM]; simp [oneAsp])).1]
    rfl

/-! ## C82: repeated static evaluation -/

/-- The object after static evaluations with update at the given displacements. -/
def RoughObj.loaded (m : Mat) (g : Asperities) (o : RoughObj) (us : List (ℕ → ℝ)) : RoughObj :=
  us.foldl (fun o u => (o.force m g u true).2) o

theorem rough_loaded (m : Mat) (h : m.Good) (g : Asperities) (hg : ∀ k < g.nasp, 0 ≤ g.meso + g.gaps k) (mu : ℝ)
    (us : List (ℕ → ℝ)) (hne : ∀ u ∈ us, ∀ k < g.nasp, u 2 - g.meso - g.gaps k ≠ 1.9*m.dy) :
    let o := (RoughObj.new mu).loaded m g us
    o.mu = mu ∧ ∀ k < g.nasp, AspState m (o.unmax - g.meso - g.gaps k) (o.Fm k) ∧ ∀ d, ∃ f, o.fxy0 k d = some f := by
  have gen : ∀ (us : List (ℕ → ℝ)), (∀ u ∈ us, ∀ k < g.nasp, u 2 - g.meso - g.gaps k ≠ 1.9*m.dy) → ∀ o : RoughObj,
      (o.mu = mu ∧ ∀ k < g.nasp, AspState m (o.unmax - g.meso - g.gaps k) (o.Fm k) ∧ ∀ d, ∃ f, o.fxy0 k d = some f) →
      ((o.loaded m g us).mu = mu ∧ ∀ k < g.nasp,
        AspState m ((o.loaded m g us).unmax - g.meso - g.gaps k) ((o.loaded m g us).Fm k) ∧
          ∀ d, ∃ f, (o.loaded m g us).fxy0 k d = some f) := by
    intro us
    induction us with
    | nil => exact fun _ o ho => ho
    | cons u us ih =>
      intro hne o ho
      refine ih (fun v hv => hne v (List.mem_cons_of_mem _ hv)) _ ⟨ho.1, fun k hk => ?_⟩
      obtain ⟨hs, hf⟩ := ho.2 k hk
      obtain ⟨⟨f, a, h1, h2, -⟩, h3⟩ := hs.general h (hne u (List.mem_cons_self ..) k hk)
      constructor
      · show AspState m (max (u 2) o.unmax - g.meso - g.gaps k) _
        have e : max (u 2) o.unmax - g.meso - g.gaps k
            = max (u 2 - g.meso - g.gaps k) (o.unmax - g.meso - g.gaps k) := by
          rw [max_sub_sub_right, max_sub_sub_right]
        rw [e]
        exact h3
      · intro d
        obtain ⟨f0, hf0⟩ := hf d
        refine ⟨max (-(o.mu*f)) (min (8*m.Gstar*a*(u d - o.uxyn0 d) + f0) (o.mu*f)), ?_⟩
        show tangentialAsp _ _ (o.fxy0 k d) (general m _ _ _).fn (general m _ _ _).a _ _ = _
        rw [hf0, h1, h2, tangentialAsp_clip]
  refine gen us hne _ ⟨rfl, fun k hk => ⟨⟨⟨0, rfl, le_rfl, fun hp => ?_⟩⟩, fun d => ⟨0, rfl⟩⟩⟩
  change 0 < 0 - g.meso - g.gaps k at hp
  linarith [hg k hk]

/-- One asperity evaluated again at the displacement it was updated at. -/
theorem general_again {m : Mat} (h : m.Good) {un dm : ℝ} {F : Flt} (hs : AspState m dm F) (hne : un ≠ 1.9*m.dy)
    (hy : dm < un → 1.9*m.dy < un → ∀ F' f, F = some F' → (plLoading m un).fn = some f → F' ≤ f) :
    (general m un (max un dm) (maxF (general m un dm F).fn F)).fn = (general m un dm F).fn ∧
    ∃ a, (general m un (max un dm) (maxF (general m un dm F).fn F)).a = some a := by
  obtain ⟨f0, rfl, h0, h0'⟩ := hs.ok
  have hdy := h.dy
  by_cases hyi : dm < un ∧ 1.9*m.dy < un
  · obtain ⟨f, a, h1, -, h3⟩ := plLoading_pos h (show 0 < un by linarith [hyi.2])
    rw [general_yield hyi.1 hyi.2, h1, max_eq_left hyi.1.le]
    have hm : maxF (some f) (some f0) = some f := by
      show some (max f f0) = some f; rw [max_eq_left (hy hyi.1 hyi.2 f0 f rfl h1)]
    rw [hm, general_unload (fun h => lt_irrefl _ h.1) (fun h => absurd h.1 (by linarith [hyi.2]))]
    obtain ⟨f', a', -, h2', -⟩ := unloading_ok (R := m.Re) h.Estar.le (some f) (le_refl un)
    exact ⟨C42_start h.Re h.Estar (by linarith [hyi.2]) h3, a', h2'⟩
  · by_cases he : un < 1.9*m.dy ∧ dm < 1.9*m.dy
    · rw [general_elastic he.1 he.2, general_elastic he.1 (max_lt he.1 he.2), elLoading_a]
      exact ⟨rfl, _, rfl⟩
    · have hle : un ≤ dm := by
        by_contra hc
        push Not at hc
        rcases lt_or_gt_of_ne hne with hl | hl
        · exact he ⟨hl, by linarith⟩
        · exact hyi ⟨hc, hl⟩
      have hd : 0 < dm := by
        by_contra hc
        push Not at hc
        exact he ⟨by linarith, by linarith⟩
      rw [general_unload hyi he, max_eq_right hle]
      obtain ⟨f, a, h1, h2, h3, -⟩ := unloading_ok (R := m.Re) h.Estar.le (some f0) hle
      have hf : f ≤ f0 := C42_monotone h.Re h.Estar hd (h0' hd) hle h1 (C42_start h.Re h.Estar hd (h0' hd))
      have hm : maxF (unloading un dm (some f0) m.Re m.Estar).fn (some f0) = some f0 := by
        rw [h1]; show some (max f f0) = some f0; rw [max_eq_right hf]
      rw [hm, general_unload hyi he]
      exact ⟨rfl, a, h2⟩

theorem weighted_congr (w : ℕ → ℝ) (f f' : ℕ → Flt) (n : ℕ) (h : ∀ k < n, f k = f' k) :
    weighted w f n = weighted w f' n := by
  induction n with
  | zero => rfl
  | succ n ih => rw [weighted, weighted, ih fun k hk => h k (by omega), h n (by omega)]

/-- C82 (partial): after any sequence of static updates of a fresh object, evaluating the force again at the
displacement of the last update gives the same force, in each direction. Missing: an asperity that yields with a plastic
force below the largest force stored before, see `C82_violated`, and asperities at exactly the yield limit. -/
theorem C82_repeat_partial (m : Mat) (h : m.Good) (g : Asperities) (hg : ∀ k < g.nasp, 0 ≤ g.meso + g.gaps k)
    {mu : ℝ} (hmu : 0 ≤ mu) (us : List (ℕ → ℝ)) (u : ℕ → ℝ)
    (hne : ∀ v ∈ u :: us, ∀ k < g.nasp, v 2 - g.meso - g.gaps k ≠ 1.9*m.dy)
    (hy : ∀ k < g.nasp, ((RoughObj.new mu).loaded m g us).unmax < u 2 → 1.9*m.dy < u 2 - g.meso - g.gaps k →
      ∀ F f, ((RoughObj.new mu).loaded m g us).Fm k = some F →
        (plLoading m (u 2 - g.meso - g.gaps k)).fn = some f → F ≤ f) (upd : Bool) (d : ℕ) :
    let o := (RoughObj.new mu).loaded m g us
    ((o.force m g u true).2.force m g u upd).1 d = (o.force m g u true).1 d := by
  intro o
  obtain ⟨hm, hst⟩ : o.mu = mu ∧ ∀ k < g.nasp, AspState m (o.unmax - g.meso - g.gaps k) (o.Fm k) ∧
      ∀ d, ∃ f, o.fxy0 k d = some f :=
    rough_loaded m h g hg mu us fun v hv => hne v (List.mem_cons_of_mem _ hv)
  have hy : ∀ k < g.nasp, o.unmax < u 2 → 1.9*m.dy < u 2 - g.meso - g.gaps k → ∀ F f, o.Fm k = some F →
      (plLoading m (u 2 - g.meso - g.gaps k)).fn = some f → F ≤ f := hy
  clear_value o
  have hu := hne u (List.mem_cons_self ..)
  have key : ∀ k < g.nasp,
      (general m (u 2 - g.meso - g.gaps k) (max (u 2) o.unmax - g.meso - g.gaps k)
        (maxF (general m (u 2 - g.meso - g.gaps k) (o.unmax - g.meso - g.gaps k) (o.Fm k)).fn (o.Fm k))).fn
        = (general m (u 2 - g.meso - g.gaps k) (o.unmax - g.meso - g.gaps k) (o.Fm k)).fn ∧
      ∃ a, (general m (u 2 - g.meso - g.gaps k) (max (u 2) o.unmax - g.meso - g.gaps k)
        (maxF (general m (u 2 - g.meso - g.gaps k) (o.unmax - g.meso - g.gaps k) (o.Fm k)).fn (o.Fm k))).a
        = some a := by
    intro k hk
    have e : max (u 2) o.unmax - g.meso - g.gaps k
        = max (u 2 - g.meso - g.gaps k) (o.unmax - g.meso - g.gaps k) := by
      rw [max_sub_sub_right, max_sub_sub_right]
    rw [e]
    exact general_again h (hst k hk).1 (hu k hk) fun h1 h2 => hy k hk (by linarith) h2
  unfold RoughObj.force
  simp only [if_true]
  show (staticRough m g _ u).fxyn d = (staticRough m g o u).fxyn d
  unfold staticRough
  simp only
  split
  · refine weighted_congr _ _ _ _ fun k hk => ?_
    obtain ⟨k1, a', k2⟩ := key k hk
    obtain ⟨⟨f, a, h1, h2, h3⟩, -⟩ := (hst k hk).1.general h (hu k hk)
    obtain ⟨f0, hf0⟩ := (hst k hk).2 d
    rw [k1, k2, h1, h2, hf0, tangentialAsp_clip, tangentialAsp_clip, Option.some.injEq, sub_self, mul_zero, zero_add,
      hm]
    have hL : 0 ≤ mu * f := mul_nonneg hmu h3
    rw [min_eq_left (max_le (by linarith) (min_le_right _ _)), max_eq_right (le_max_left _ _)]
  · exact weighted_congr _ _ _ _ fun k hk => (key k hk).1

/-! ### The counterexample -/

/-- Poisson ratio 1/2, perfectly plastic. -/
def jumpMat : Mat := Mat.new 1 (1/2) 1 0 1

theorem jumpMat_good : jumpMat.Good := by
  refine ⟨?_, ?_, ?_, ?_, ?_, ?_⟩
  · show (0 : ℝ) < 1; norm_num
  · show (0 : ℝ) < 1/2/(1-(1/2)^2); norm_num
  · show (0 : ℝ) < 1; norm_num
  · show (0 : ℝ) ≤ 0; norm_num
  · show (0 : ℝ) < (Real.pi*(1.295*Real.exp (0.736*(1/2)))*1/(2*(2*(1/2/(1-(1/2)^2)))))^2*(2*1)*2
    have := Real.pi_pos
    positivity
  · show (0 : ℝ) < 1; norm_num

/-- With the derived constants of the constructor, the Hertzian force at `x delta_y` is `Fc x^(3/2)`. -/
theorem hertz_dy {E nu R Et S x : ℝ} (hE : 0 < E) (hn : nu^2 < 1) (hR : 0 < R) (hS : 0 < S) (hx : 0 < x) :
    let m := Mat.new E nu R Et S
    hertz m.Re m.Estar (x * m.dy)
      = 4/3*(2*m.Re/(2*m.Estar))^2*(m.C*Real.pi*m.Sys/2)^3 * (x * Real.sqrt x) := by
  intro m
  have hEs : 0 < m.Estar := div_pos (by linarith) (by linarith)
  have hC := m.C_pos
  have hpi := Real.pi_pos
  have hmS : m.Sys = S := rfl
  have hmR : m.Re = R := rfl
  have hq : 0 < m.C*Real.pi*S/(2*m.Estar) := by positivity
  have hdy : m.dy = R * (m.C*Real.pi*S/(2*m.Estar))^2 := by
    show (Real.pi*m.C*S/(2*(2*m.Estar)))^2*(2*R)*2 = _
    field_simp
  have hdp : 0 < m.dy := by rw [hdy]; positivity
  have hsq : Real.sqrt (x * m.dy) = Real.sqrt x * (Real.sqrt R * (m.C*Real.pi*S/(2*m.Estar))) := by
    rw [Real.sqrt_mul hx.le, hdy, Real.sqrt_mul hR.le, Real.sqrt_sq hq.le]
  have hRR := Real.mul_self_sqrt hR.le
  unfold hertz
  rw [if_pos (by positivity), show (3/2 : ℝ) = 1.5 by norm_num, rpow_three_half (by positivity), hsq, hmS, hmR]
  generalize hs : Real.sqrt R = s at hRR ⊢
  rw [hdy]
  calc 4/3*m.Estar*s*(x*(R*(m.C*Real.pi*S/(2*m.Estar))^2)*(√x*(s*(m.C*Real.pi*S/(2*m.Estar)))))
      = 4/3*m.Estar*R*x*(m.C*Real.pi*S/(2*m.Estar))^3*√x*(s*s) := by ring
    _ = _ := by rw [hRR]; field_simp

/-- The plastic force just above the yield limit is below the elastic force just below it. -/
theorem jump_lt : ∃ P, (plLoading jumpMat (1.91 * jumpMat.dy)).fn = some P ∧
    P < hertz jumpMat.Re jumpMat.Estar (1.89 * jumpMat.dy) := by
  have hg := jumpMat_good
  have hdy := hg.dy
  have hup : 0 < 1.91 * jumpMat.dy := by linarith
  unfold plLoading
  simp only [if_neg (not_lt.2 hup.le), Option.some.injEq, posPart_of_pos hup]
  refine ⟨_, rfl, ?_⟩
  have e1 : (1.91 : ℝ) * jumpMat.dy / jumpMat.dy = 1.91 := mul_div_cancel_right₀ _ hdy.ne'
  have e2 : -3.3*jumpMat.Etan/jumpMat.Emod = 0 := by
    show -3.3*(0 : ℝ)/1 = 0; norm_num
  rw [e1, e2, Real.exp_zero, sub_self, mul_zero, add_zero]
  have hh := hertz_dy (E := 1) (nu := 1/2) (R := 1) (Et := 0) (S := 1) (x := 1.89) (by norm_num) (by norm_num)
    (by norm_num) (by norm_num) (by norm_num)
  change hertz jumpMat.Re jumpMat.Estar (1.89 * jumpMat.dy)
      = 4/3*(2*jumpMat.Re/(2*jumpMat.Estar))^2*(jumpMat.C*Real.pi*jumpMat.Sys/2)^3 * (1.89 * Real.sqrt 1.89) at hh
  rw [hh]
  have hFc : 0 < 4/3*(2*jumpMat.Re/(2*jumpMat.Estar))^2*(jumpMat.C*Real.pi*jumpMat.Sys/2)^3 := by
    have := hg.Re; have := hg.Estar; have := hg.Sys; have := jumpMat.C_pos; have := Real.pi_pos
    positivity
  refine mul_lt_mul_of_pos_left ?_ hFc
  -- the pieces
  have hC : 1.859 ≤ jumpMat.C := by
    show 1.859 ≤ 1.295 * Real.exp (0.736 * (1/2))
    have := Real.quadratic_le_exp_of_nonneg (show (0 : ℝ) ≤ 0.736*(1/2) by norm_num)
    norm_num at this ⊢
    linarith
  have hH1 : 2.84 - 0.92*(1 - Real.cos (Real.pi*jumpMat.plRadius (1.91*jumpMat.dy)/(2*jumpMat.Re))) ≤ 2.84 := by
    have := Real.cos_le_one (Real.pi*jumpMat.plRadius (1.91*jumpMat.dy)/(2*jumpMat.Re))
    norm_num
    linarith
  generalize 2.84 - 0.92*(1 - Real.cos (Real.pi*jumpMat.plRadius (1.91*jumpMat.dy)/(2*jumpMat.Re))) = H at hH1 ⊢
  have hy : (1.3 : ℝ) ≤ 1.91 ^ (5/12 : ℝ) := by
    by_contra hc
    push Not at hc
    have h0 : (0 : ℝ) ≤ 1.91 ^ (5/12 : ℝ) := Real.rpow_nonneg (by norm_num) _
    have hp : ((1.91 : ℝ) ^ (5/12 : ℝ))^12 = 1.91^5 := by
      rw [← Real.rpow_natCast, ← Real.rpow_mul (by norm_num), ← Real.rpow_natCast]
      norm_num
    have := pow_lt_pow_left₀ hc h0 (show 12 ≠ 0 by norm_num)
    rw [hp] at this
    norm_num at this
  have hz : (1.91 : ℝ) ^ (5/9 : ℝ) ≤ 1.434 := by
    by_contra hc
    push Not at hc
    have hp : ((1.91 : ℝ) ^ (5/9 : ℝ))^9 = 1.91^5 := by
      rw [← Real.rpow_natCast, ← Real.rpow_mul (by norm_num), ← Real.rpow_natCast]
      norm_num
    have := pow_lt_pow_left₀ hc (by norm_num) (show 9 ≠ 0 by norm_num)
    rw [hp] at this
    norm_num at this
  have hz0 : (0 : ℝ) ≤ 1.91 ^ (5/9 : ℝ) := Real.rpow_nonneg (by norm_num) _
  generalize (1.91 : ℝ) ^ (5/9 : ℝ) = z at hz hz0 ⊢
  generalize (1.91 : ℝ) ^ (5/12 : ℝ) = y at hy ⊢
  have hexp : Real.exp (-0.25*y) ≤ 0.7258 := by
    have h1 : Real.exp (-0.25*y) ≤ Real.exp (-0.325) := Real.exp_le_exp.2 (by norm_num; linarith)
    have h2 := Real.quadratic_le_exp_of_nonneg (show (0 : ℝ) ≤ 0.325 by norm_num)
    have h3 : Real.exp (-0.325) * Real.exp 0.325 = 1 := by rw [← Real.exp_add]; norm_num
    have h4 := Real.exp_pos (-0.325)
    refine h1.trans ?_
    generalize Real.exp 0.325 = e at h2 h3
    generalize Real.exp (-0.325) = e' at h3 h4 ⊢
    norm_num at h2 ⊢
    nlinarith
  have he : 1 - Real.exp (-1/25*z) ≤ 0.05736 := by
    have := Real.add_one_le_exp (-1/25*z)
    norm_num at this ⊢
    linarith
  have he0 : 0 ≤ 1 - Real.exp (-1/25*z) := by
    have : Real.exp (-1/25*z) ≤ 1 := Real.exp_le_one_iff.2 (by linarith)
    linarith
  generalize 1 - Real.exp (-1/25*z) = e at he he0 ⊢
  have hex0 := Real.exp_pos (-0.25*y)
  generalize Real.exp (-0.25*y) = ex at hexp hex0 ⊢
  have hs1 : Real.sqrt 1.91 ≤ 1.3821 := Real.sqrt_le_iff.2 (by norm_num)
  have hs2 : 1.3747 ≤ Real.sqrt 1.89 := Real.le_sqrt_of_sq_le (by norm_num)
  rw [rpow_three_half (by norm_num)]
  have t1 : ex * (1.91 * Real.sqrt 1.91) ≤ 0.7258 * (1.91 * 1.3821) := by
    refine mul_le_mul hexp ?_ (by positivity) (by norm_num)
    exact mul_le_mul_of_nonneg_left hs1 (by norm_num)
  have t2 : 4*H/jumpMat.C ≤ 4*2.84/1.859 := by
    rcases le_or_gt H 0 with hH | hH
    · exact le_trans (div_nonpos_of_nonpos_of_nonneg (by linarith) jumpMat.C_pos.le) (by norm_num)
    · exact div_le_div₀ (by norm_num) (by linarith) (by norm_num) hC
  have t3 : 4*H/jumpMat.C*e*1.91 ≤ 4*2.84/1.859*0.05736*1.91 := by
    refine mul_le_mul_of_nonneg_right ?_ (by norm_num)
    exact mul_le_mul t2 he he0 (by norm_num)
  have t4 : (1.89 : ℝ) * 1.3747 ≤ 1.89 * Real.sqrt 1.89 := mul_le_mul_of_nonneg_left hs2 (by norm_num)
  norm_num at t1 t2 t3 t4 ⊢
  linarith

/-- C82 is false in general: an asperity loaded to `1.89 delta_y` and then to `1.91 delta_y` has a smaller force there
than before; evaluated again at the same displacement it has the larger force of the first step. -/
theorem C82_violated : ∃ (m : Mat) (g : Asperities) (us : List (ℕ → ℝ)) (u : ℕ → ℝ), m.Good ∧
    (∀ k < g.nasp, 0 ≤ g.meso + g.gaps k) ∧
    (∀ v ∈ u :: us, ∀ k < g.nasp, v 2 - g.meso - g.gaps k ≠ 1.9*m.dy) ∧ ∀ mu upd,
    let o := (RoughObj.new mu).loaded m g us
    ∃ F F', (o.force m g u true).1 2 = some F ∧ ((o.force m g u true).2.force m g u upd).1 2 = some F' ∧ F < F' := by
  obtain ⟨P, hP, hlt⟩ := jump_lt
  have hg := jumpMat_good
  have hdy := hg.dy
  refine ⟨jumpMat, oneAsp, [fun _ => 1.89*jumpMat.dy], fun _ => 1.91*jumpMat.dy, hg, fun k _ => by simp [oneAsp],
    ?_, fun mu upd => ?_⟩
  · intro v hv k _
    simp only [oneAsp, sub_zero]
    rcases List.mem_cons.1 hv with rfl | hv
    · exact ne_of_gt (by linarith)
    · rw [List.mem_singleton.1 hv]
      exact ne_of_lt (by linarith)
  · intro o
    have g1 : (general jumpMat (1.89*jumpMat.dy) 0 (some 0)).fn
        = some (hertz jumpMat.Re jumpMat.Estar (1.89*jumpMat.dy)) := by
      rw [general_elastic (by linarith) (by linarith), elLoading_fn]
    have hp := hertz_pos hg.Re hg.Estar (show 0 < 1.89*jumpMat.dy by linarith)
    generalize hertz jumpMat.Re jumpMat.Estar (1.89*jumpMat.dy) = B at hlt g1 hp
    have o1 : o.unmax = 1.89*jumpMat.dy := by
      show max (1.89*jumpMat.dy) 0 = _
      exact max_eq_left (by linarith)
    have o2 : o.Fm 0 = some B := by
      show maxF (general jumpMat (1.89*jumpMat.dy - 0 - 0) (0 - 0 - 0) (some 0)).fn (some 0) = _
      simp only [sub_zero]
      rw [g1]
      show some (max B 0) = some B
      rw [max_eq_left hp.le]
    have g2 : general jumpMat (1.91*jumpMat.dy) (1.89*jumpMat.dy) (some B) = plLoading jumpMat (1.91*jumpMat.dy) :=
      general_yield (by linarith) (by linarith)
    have g3 : (general jumpMat (1.91*jumpMat.dy) (1.91*jumpMat.dy) (some B)).fn = some B := by
      rw [general_unload (fun h => lt_irrefl _ h.1) (fun h => absurd h.1 (by linarith))]
      exact C42_start hg.Re hg.Estar (by linarith) hp
    refine ⟨P, B, ?_, ?_, hlt⟩
    · show weighted _ (fun k => (general jumpMat (1.91*jumpMat.dy - 0 - 0) (o.unmax - 0 - 0) (o.Fm k)).fn) 1 = _
      simp only [weighted, o2, o1, sub_zero, g2, hP]
      simp [oneAsp]
    · show weighted _ (fun k => (general jumpMat (1.91*jumpMat.dy - 0 - 0) (max (1.91*jumpMat.dy) o.unmax - 0 - 0)
        (maxF (general jumpMat (1.91*jumpMat.dy - 0 - 0) (o.unmax - 0 - 0) (o.Fm k)).fn (o.Fm k))).fn) 1 = _
      have hm : maxF (some P) (some B) = some B := by
        show some (max P B) = some B
        rw [max_eq_right hlt.le]
      have hm' : max (1.91*jumpMat.dy) (1.89*jumpMat.dy) = 1.91*jumpMat.dy := max_eq_left (by linarith)
      simp only [weighted, o2, o1, sub_zero, g2, hP, hm, hm', g3]
      simp [oneAsp]

/-- C82 at work: an asperity loaded elastically, then released a little. -/
example (d : ℕ) : let o := (RoughObj.new 1).loaded driftMat oneAsp [fun _ => 2]
    ((o.force driftMat oneAsp (fun _ => 1) true).2.force driftMat oneAsp (fun _ => 1) false).1 d
      = (o.force driftMat oneAsp (fun _ => 1) true).1 d := by
  obtain ⟨-, -, -, h4⟩ := drift_values
  refine C82_repeat_partial driftMat driftMat_good oneAsp (fun k _ => by simp [oneAsp]) (by norm_num) _ _ ?_ ?_ false d
  · intro v hv k _
    simp only [oneAsp, sub_zero]
    rcases List.mem_cons.1 hv with rfl | hv
    · exact ne_of_lt (by linarith)
    · rw [List.mem_singleton.1 hv]; exact ne_of_lt (by linarith)
  · intro k _ h1 h2
    simp only [oneAsp, sub_zero] at h2
    linarith

end

end TMD
