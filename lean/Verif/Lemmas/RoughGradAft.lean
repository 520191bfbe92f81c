import Verif.Lemmas.RoughGradStatic
import Verif.Lemmas.JaxGradAft

/-!
# Derivatives of the force history of rough contact
-/

namespace TMD

open Spec Finset Filter Topology

noncomputable section

/-! ## The maximum of the samples -/

section maximum

variable {n K : ℕ} {M : ℕ → ℕ → ℝ} {X : ℕ → ℝ}

/-- Mean of the samples that are equal to the maximum at `X`. -/
def maxMean (Nt : ℕ) (c : ℕ → ℝ) (f : ℕ → ℝ) : ℝ := (∑ t ∈ range Nt, f t * c t) / ∑ t ∈ range Nt, c t

open Classical in
theorem maxOf_of (Nt : ℕ) (hN : 0 < Nt) (x : ℕ → ℕ → Dual) :
    ∃ c : ℕ → ℝ, (∀ t, c t = if (x t 2).v = unMax Nt fun j d => (x j d).v then 1 else 0) ∧ 0 < ∑ t ∈ range Nt, c t ∧
      fdualNum.maxOf Nt (fun t => FDual.of (x t 2))
        = ⟨some (unMax Nt fun j d => (x j d).v), fun k => some (maxMean Nt c fun t => (x t 2).d k)⟩ := by
  refine ⟨fun t => if (x t 2).v = unMax Nt fun j d => (x j d).v then 1 else 0, fun t => rfl, ?_, ?_⟩
  · obtain ⟨t, ht, e⟩ := unMax_mem Nt hN fun j d => (x j d).v
    refine lt_of_lt_of_le ?_ (single_le_sum (fun t _ => ?_) (mem_range.2 ht))
    · rw [if_pos e.symm]
      exact one_pos
    · split <;> norm_num
  · have hz : maxOfF Nt (fun t => (FDual.of (x t 2)).v) = some (unMax Nt fun j d => (x j d).v) :=
      maxOfF_some Nt fun j d => (x j d).v
    show (⟨maxOfF Nt (fun t => (FDual.of (x t 2)).v), chooserF Nt (fun t => FDual.of (x t 2))
      (maxOfF Nt fun t => (FDual.of (x t 2)).v)⟩ : FDual) = _
    rw [hz]
    congr 1
    funext k
    unfold chooserF maxMean
    have hi : ∀ t, ((FDual.of (x t 2)).v = some (unMax Nt fun j d => (x j d).v)) ↔ (x t 2).v = unMax Nt fun j d => (x j d).v :=
      fun t => Option.some_inj
    have hf : ∀ N, (List.range N).foldl (fun s t => addF s (mulF ((FDual.of (x t 2)).d k)
        (some (if (FDual.of (x t 2)).v = some (unMax Nt fun j d => (x j d).v) then 1 else 0)))) (some 0)
        = some (∑ t ∈ range N, (x t 2).d k * if (x t 2).v = unMax Nt fun j d => (x j d).v then 1 else 0) := by
      intro N
      induction N with
      | zero => simp
      | succ N ih =>
        rw [List.range_succ, List.foldl_append, ih, sum_range_succ]
        simp only [List.foldl_cons, List.foldl_nil, hi]
        rfl
    rw [hf]
    simp only [hi]
    refine if_neg (ne_of_gt ?_)
    obtain ⟨t, ht, e⟩ := unMax_mem Nt hN fun j d => (x j d).v
    refine lt_of_lt_of_le ?_ (single_le_sum (fun t _ => ?_) (mem_range.2 ht))
    · rw [if_pos e.symm]
      exact one_pos
    · split <;> norm_num

/-- The pair of the maximum holds the derivatives of the mean of the largest samples. -/
theorem maxOf_tracks (Nt : ℕ) (hN : 0 < Nt) {x : ℕ → ℕ → Dual} {f : ℕ → ℕ → (ℕ → ℝ) → ℝ} 
    (hx : ∀ t < Nt, Tracks n K M X (f t 2) (x t 2)) (h0 : ∀ t < Nt, (x t 2).d K = 0) :
    ∃ c : ℕ → ℝ, (∀ t, (x t 2).v = (unMax Nt fun j d => (x j d).v) → c t = 1) ∧
      (∀ t, (x t 2).v ≠ (unMax Nt fun j d => (x j d).v) → c t = 0) ∧ 0 < ∑ t ∈ range Nt, c t ∧
      FT n K M X (fun U => some (maxMean Nt c fun t => f t 2 U)) (fdualNum.maxOf Nt fun t => FDual.of (x t 2))
        (unMax Nt fun j d => (x j d).v) := by
  obtain ⟨c, h1, h2, h3⟩ := maxOf_of Nt hN x
  refine ⟨c, fun t ht => by rw [h1, if_pos ht], fun t ht => by rw [h1, if_neg ht], h2, ?_⟩
  rw [h3]
  have hval : (maxMean Nt c fun t => f t 2 X) = unMax Nt fun j d => (x j d).v := by
    unfold maxMean
    rw [div_eq_iff h2.ne', mul_sum]
    refine sum_congr rfl fun t ht => ?_
    beta_reduce
    rw [(hx t (mem_range.1 ht)).1, h1]
    split
    · rename_i e
      rw [e]
    · rw [mul_zero, mul_zero]
  refine ⟨⟨fun U => maxMean Nt c fun t => f t 2 U, fun k => maxMean Nt c fun t => (x t 2).d k, Near.of_all fun _ => rfl, ?_, ?_, ?_⟩, rfl⟩
  · beta_reduce
    rw [hval]
  · beta_reduce
    unfold maxMean
    rw [sum_eq_zero fun t ht => by beta_reduce; rw [h0 t (mem_range.1 ht), zero_mul], zero_div]
  · have hs : HasGrad n (fun U => ∑ t ∈ range Nt, f t 2 U * c t) (fun q => ∑ t ∈ range Nt, (∑ k ∈ range K, (x t 2).d k * M k q) * c t) X :=
      HasGrad.sum fun t ht => HasGrad.mul_const _ (hx t (mem_range.1 ht)).2
    refine ((HasGrad.mul_const (1 / ∑ t ∈ range Nt, c t) hs).congr_fun fun U => ?_).congr fun q _ => ?_
    · unfold maxMean
      ring
    · unfold maxMean
      simp only [sum_mul, sum_div]
      rw [sum_comm]
      refine sum_congr rfl fun t _ => sum_congr rfl fun k _ => ?_
      ring

/-- With one largest sample the mean is the maximum. -/
theorem maxMean_unique {Nt : ℕ} {c f : ℕ → ℝ} {t0 : ℕ} (h0 : t0 < Nt) (hc : c t0 = 1) (hc' : ∀ t < Nt, t ≠ t0 → c t = 0) :
    maxMean Nt c f = f t0 := by
  unfold maxMean
  rw [sum_eq_single_of_mem t0 (mem_range.2 h0), sum_eq_single_of_mem t0 (mem_range.2 h0), hc, mul_one, div_one]
  · exact fun t ht hne => hc' t (mem_range.1 ht) hne
  · exact fun t ht hne => by rw [hc' t (mem_range.1 ht) hne, mul_zero]

theorem unMax_unique {Nt : ℕ} {u : ℕ → ℕ → ℝ} {t0 : ℕ} (h0 : t0 < Nt) (h : ∀ t < Nt, t ≠ t0 → u t 2 < u t0 2) :
    unMax Nt u = u t0 2 := by
  obtain ⟨t, ht, e⟩ := unMax_mem Nt (by omega) u
  by_cases hne : t = t0
  · rw [e, hne]
  · have := (unMax_ge Nt u).2 t0 h0
    have := h t ht hne
    linarith

end maximum

/-! ## Conditions -/

/-- Friction: no prediction at the limit, unless the asperity is open and was open before. -/
def OffSlip (m : Mat) (g : Asperities) (Nt : ℕ) (u : ℕ → ℕ → ℝ) (u0 : ℕ → ℝ) (mu : ℝ) (k d s : ℕ) : Prop :=
  |vtrial (periodic Nt fun t => 8 * m.Gstar * aspA m g Nt u k t) (periodic Nt fun t => mu * aspN m g Nt u k t)
    (periodic Nt fun t => u t d) (u0 d) 0 s| ≠ mu * aspN m g Nt u k (s % Nt) ∨
  aspN m g Nt u k (s % Nt) = 0 ∧ (s = 0 ∨ aspN m g Nt u k ((s - 1) % Nt) = 0)

/-- A cycle without kinks. -/
structure SmoothCycle (m : Mat) (g : Asperities) (Nt : ℕ) (u : ℕ → ℕ → ℝ) (u0 : ℕ → ℝ) (mu : ℝ) : Prop where
  touch : ∀ k < g.nasp, cycleMax Nt g u k ≠ 0
  yield : ∀ k < g.nasp, cycleMax Nt g u k ≠ 1.9*m.dy
  release : ∀ k < g.nasp, 0 < cycleMax Nt g u k → ∀ F, cycleFm m Nt g u k = some F → ∀ t < Nt,
    u t 2 - g.meso - g.gaps k ≠ releasePoint m (cycleMax Nt g u k) F
  slip : ∀ k < g.nasp, ∀ d < 2, ∀ s < 2 * Nt, OffSlip m g Nt u u0 mu k d s
  peak : (∃ t0 < Nt, ∀ t < Nt, t ≠ t0 → u t 2 < u t0 2) ∨ ∀ k < g.nasp, cycleMax Nt g u k < 1.9*m.dy

section history

variable {n K : ℕ} {M : ℕ → ℕ → ℝ} {X : ℕ → ℝ} {m : Mat} {g : Asperities}

/-- Force at the maximum. -/
theorem gFmax_ft (h : m.Fine) {Fu : (ℕ → ℝ) → Flt} {xu : FDual} {um : ℝ} (hu : FT n K M X Fu xu um) {k : ℕ}
    (hg : 0 ≤ g.meso + g.gaps k) (h0 : um - g.meso - g.gaps k ≠ 0) (h1 : um - g.meso - g.gaps k ≠ 1.9*m.dy) :
    FTracks n K M X (fun U => gFmax fltNum m g (Fu U) k) (gFmax fdualNum m g xu k) := by
  have hdy := h.dy
  refine (gGeneral_asp h (gGap_ft g hu k) (ft_const 0) (fun hp => by linarith) ?_ (fun _ => h0) (fun hp => by linarith)).fn
  rw [max_eq_right (by linarith)]
  exact h1

theorem cycleFm_pos (h : m.Good) {Nt : ℕ} {u : ℕ → ℕ → ℝ} {k : ℕ} (hg : 0 ≤ g.meso + g.gaps k) (hp : 0 < cycleMax Nt g u k)
    (h1 : cycleMax Nt g u k ≠ 1.9*m.dy) : ∃ F, cycleFm m Nt g u k = some F ∧ 0 < F :=
  general_virgin h (by linarith) hp h1

theorem cycleFm_el (h : m.Good) {Nt : ℕ} {u : ℕ → ℕ → ℝ} {k : ℕ} (hg : 0 ≤ g.meso + g.gaps k) 
    (h1 : cycleMax Nt g u k < 1.9*m.dy) : cycleFm m Nt g u k = some (hertz m.Re m.Estar (cycleMax Nt g u k)) := by
  have := h.dy
  unfold cycleFm
  rw [general_elastic h1 (by linarith), elLoading_fn]

/-- Normal force and contact radius of one asperity at one instant. -/
theorem gUnl_cycle (h : m.Fine) {Nt : ℕ} {u : ℕ → ℕ → ℝ} {Fu Fx : (ℕ → ℝ) → Flt} {xu x : FDual} 
    (hu : FT n K M X Fu xu (unMax Nt u)) {k t : ℕ} (hx : FT n K M X Fx x (u t 2)) 
    (hg : 0 ≤ g.meso + g.gaps k) (h0 : cycleMax Nt g u k ≠ 0) (h1 : cycleMax Nt g u k ≠ 1.9*m.dy)
    (h2 : 0 < cycleMax Nt g u k → ∀ F, cycleFm m Nt g u k = some F → u t 2 - g.meso - g.gaps k ≠ releasePoint m (cycleMax Nt g u k) F) :
    AspTracks n K M X (fun U => gUnl fltNum m.Re m.Estar (gGap fltNum g (Fx U) k) (gGap fltNum g (Fu U) k) (gFmax fltNum m g (Fu U) k))
      (gUnl fdualNum m.Re m.Estar (gGap fdualNum g x k) (gGap fdualNum g xu k) (gFmax fdualNum m g xu k)) := by
  rcases lt_or_gt_of_ne h0 with hl | hl
  · exact Or.inl (gUnl_never _ _ _ _ (gGap_ft g hu k) hl)
  · obtain ⟨F, e, hF⟩ := cycleFm_pos h.toGood hg hl h1
    have hm := gFmax_ft h hu hg h0 h1
    have hv : (gFmax fdualNum m g xu k).v = some F := by
      unfold gFmax
      rw [(gGeneral_v _ _ _ _).1, gGap_v, hu.2]
      exact Eq.trans ((gGeneral_flt h _ _ _).1) e
    refine gUnl_asp h.Re h.Estar (gGap_ft g hx k) (gGap_ft g hu k) ⟨hm, hv⟩ hl hF ?_
    have := h2 hl F e
    unfold releasePoint at this
    split at this
    · rename_i hel
      rw [cycleFm_el h.toGood hg hel] at e
      have hh := hertz_pos h.Re h.Estar hl
      have e' := Option.some.inj e
      rw [← hertz_expand (show 0 < unMax Nt u - g.meso - g.gaps k from hl), ← e']
      unfold cycleMax at hh ⊢
      rwa [div_self hh.ne', sub_self, mul_zero]
    · rwa [hertz_expand hl] at this

/-- Values of the loop on pairs. -/
theorem gSteps_values (h : m.Fine) {Nt : ℕ} (hN : 0 < Nt) (x : ℕ → ℕ → Dual) {u : ℕ → ℕ → ℝ} (hu : u = fun j d => (x j d).v)
    {xu : FDual} (hxu : xu.v = some (unMax Nt u)) (u0 : ℕ → ℝ) (mu : ℝ) (s : ℕ) :
    let S := gSteps fdualNum m g Nt (fun j d => FDual.of (x j d)) xu (fun d => FDual.const (some (u0 d))) mu s
    (∀ d, (S.uxyn0 d).v = some (match s with | 0 => u0 d | s + 1 => u (s % Nt) d)) ∧
    ∀ k d, (S.fxy0 k d).v = some (match s with | 0 => 0 | s + 1 => aspT m g Nt u u0 mu k d s) := by
  intro S
  have e := gSteps_v m g Nt (fun j d => FDual.of (x j d)) xu (fun d => FDual.const (some (u0 d))) mu s
  rw [hxu] at e
  have e' := gSteps_flt h g Nt u u0 mu s
  obtain ⟨r1, r2, -⟩ := rough_steps m g Nt u h.Estar.le hN u0 mu s
  subst hu
  have e2 := e.trans e'
  constructor
  · intro d
    have := congrArg (fun H => GHist.uxyn0 H d) e2
    refine Eq.trans this ?_
    show some (RoughHist.uxyn0 _ d) = _
    rw [r1]
    cases s <;> rfl
  · intro k d
    have := congrArg (fun H => GHist.fxy0 H k d) e2
    refine Eq.trans this ?_
    show RoughHist.fxy0 _ k d = _
    rw [r2]
    cases s <;> rfl

/-- The loop on pairs holds the derivatives of the loop on numbers. -/
theorem gSteps_tracks (h : m.Fine) {Nt : ℕ} (hN : 0 < Nt) {x : ℕ → ℕ → Dual} {f : ℕ → ℕ → (ℕ → ℝ) → ℝ}
    (hx : ∀ t < Nt, ∀ d < 3, Tracks n K M X (f t d) (x t d)) (hz : ∀ t < Nt, ∀ d < 3, (x t d).d K = 0)
    {u : ℕ → ℕ → ℝ} (hu : u = fun j d => (x j d).v) {Fu : (ℕ → ℝ) → Flt} {xu : FDual} (hxu : FT n K M X Fu xu (unMax Nt u))
    (hg : ∀ k < g.nasp, 0 ≤ g.meso + g.gaps k) {mu : ℝ} (hmu : 0 ≤ mu) {u0 : ℕ → ℝ} (hs : SmoothCycle m g Nt u u0 mu) (s : ℕ) (hs2 : s ≤ 2 * Nt) :
    (∀ t, ∀ d < 3, FTracks n K M X
      (fun U => (gSteps fltNum m g Nt (fun j d => some (f j d U)) (Fu U) (fun d => some (u0 d)) mu s).ft t d)
      ((gSteps fdualNum m g Nt (fun j d => FDual.of (x j d)) xu (fun d => FDual.const (some (u0 d))) mu s).ft t d)) ∧
    (∀ d < 3, FTracks n K M X
      (fun U => (gSteps fltNum m g Nt (fun j d => some (f j d U)) (Fu U) (fun d => some (u0 d)) mu s).uxyn0 d)
      ((gSteps fdualNum m g Nt (fun j d => FDual.of (x j d)) xu (fun d => FDual.const (some (u0 d))) mu s).uxyn0 d)) ∧
    ∀ k < g.nasp, ∀ d < 2, FTracks n K M X
      (fun U => (gSteps fltNum m g Nt (fun j d => some (f j d U)) (Fu U) (fun d => some (u0 d)) mu s).fxy0 k d)
      ((gSteps fdualNum m g Nt (fun j d => FDual.of (x j d)) xu (fun d => FDual.const (some (u0 d))) mu s).fxy0 k d) ∧
      ((s = 0 ∨ aspN m g Nt u k ((s - 1) % Nt) = 0) → FZero n X
        (fun U => (gSteps fltNum m g Nt (fun j d => some (f j d U)) (Fu U) (fun d => some (u0 d)) mu s).fxy0 k d)
        ((gSteps fdualNum m g Nt (fun j d => FDual.of (x j d)) xu (fun d => FDual.const (some (u0 d))) mu s).fxy0 k d)) := by
  induction s with
  | zero =>
    exact ⟨fun t d _ => ftracks_const 0, fun d _ => ftracks_const (u0 d), fun k _ d _ => ⟨ftracks_const 0, fun _ => fzero_const⟩⟩
  | succ s ih =>
    obtain ⟨i1, i2, i3⟩ := ih (by omega)
    obtain ⟨v1, v2⟩ := gSteps_values (g := g) h hN x hu hxu.2 u0 mu s
    have ht : s % Nt < Nt := Nat.mod_lt _ hN
    have hxt : ∀ d < 3, FT n K M X (fun U => some (f (s % Nt) d U)) (FDual.of (x (s % Nt) d)) (u (s % Nt) d) := fun d hd =>
      ⟨ftracks_of (hx _ ht d hd) (hz _ ht d hd), by rw [hu]; rfl⟩
    have hasp := fun k (hk : k < g.nasp) => gUnl_cycle (g := g) h hxu (hxt 2 (by omega)) (hg k hk) (hs.touch k hk) (hs.yield k hk)
      (fun hp F e => hs.release k hk hp F e _ ht)
    have hval : ∀ k, (gUnl fdualNum m.Re m.Estar (gGap fdualNum g (FDual.of (x (s % Nt) 2)) k) (gGap fdualNum g xu k)
          (gFmax fdualNum m g xu k)).1.v = some (aspN m g Nt u k (s % Nt)) ∧
        (gUnl fdualNum m.Re m.Estar (gGap fdualNum g (FDual.of (x (s % Nt) 2)) k) (gGap fdualNum g xu k)
          (gFmax fdualNum m g xu k)).2.v = some (aspA m g Nt u k (s % Nt)) := by
      intro k
      obtain ⟨a1, a2, -⟩ := asp_ok m g Nt u h.Estar.le k (s % Nt) ht
      have e : (gFmax fdualNum m g xu k).v = cycleFm m Nt g u k := by
        unfold gFmax
        rw [(gGeneral_v _ _ _ _).1, gGap_v, hxu.2]
        exact (gGeneral_flt h _ _ _).1
      have e' : (gGap fdualNum g (FDual.of (x (s % Nt) 2)) k).v = some (u (s % Nt) 2 - g.meso - g.gaps k) := by
        rw [hu]
        rfl
      have e'' : (gGap fdualNum g xu k).v = some (cycleMax Nt g u k) := by
        rw [gGap_v, hxu.2]
        rfl
      rw [(gUnl_v _ _ _ _ _).1, (gUnl_v _ _ _ _ _).2, e, e', e'', (gUnl_flt h.Re h.Estar _ _ _).1,
        (gUnl_flt h.Re h.Estar _ _ _).2]
      exact ⟨a1, a2⟩
    have htan := fun k (hk : k < g.nasp) d (hd : d < 2) => gTan_asp (G := m.Gstar) hmu (hasp k hk) (hxt d (by omega)) ⟨i2 d (by omega), v1 d⟩
      ⟨(i3 k hk d hd).1, v2 k d⟩ (by
        rcases hs.slip k hk d hd s (by omega) with hoff | ⟨h1, h2⟩
        · left
          intro fn ca e1 e2
          rw [(hval k).1] at e1
          rw [(hval k).2] at e2
          rw [← Option.some.inj e1, ← Option.some.inj e2]
          cases s with
          | zero => exact hoff
          | succ s => exact hoff
        · right
          refine ⟨by rw [(hval k).1, h1], (i3 k hk d hd).2 h2⟩)
    refine ⟨fun t d hd => ?_, fun d hd => ?_, fun k hk d hd => ?_⟩
    · simp only [gSteps_succ]
      unfold gRoughBody setRow
      simp only
      by_cases e : t = s % Nt
      · simp only [e, if_true]
        by_cases hd2 : d < 2
        · simp only [hd2, if_true]
          exact ftracks_weighted _ _ fun k hk => (htan k hk d hd2).1
        · simp only [hd2, if_false]
          exact ftracks_weighted _ _ fun k hk => (hasp k hk).fn
      · simp only [e, if_false]
        exact i1 t d hd
    · simp only [gSteps_succ]
      exact (hxt d hd).1
    · simp only [gSteps_succ]
      refine ⟨(htan k hk d hd).1, fun hz => (htan k hk d hd).2 ?_⟩
      rw [(hval k).1]
      rcases hz with hz | hz
      · omega
      · rw [← hz]
        rfl

theorem gWeighted_congr {α : Type} (J : FNum α) (w : ℕ → ℝ) {f f' : ℕ → α} (N : ℕ) (h : ∀ k < N, f k = f' k) :
    gWeighted J w f N = gWeighted J w f' N := by
  induction N with
  | zero => rfl
  | succ N ih =>
    show J.add _ (J.mul _ (f N)) = J.add _ (J.mul _ (f' N))
    rw [ih fun k hk => h k (by omega), h N (by omega)]

/-- The loop depends on the maximum only through the contact of the asperities. -/
theorem gSteps_max {α : Type} (J : FNum α) {Nt : ℕ} (hN : 0 < Nt) (v : ℕ → ℕ → α) (w : ℕ → α) (mu : ℝ) {um um' : α}
    (h : ∀ k < g.nasp, ∀ t < Nt, gUnl J m.Re m.Estar (gGap J g (v t 2) k) (gGap J g um k) (gFmax J m g um k)
      = gUnl J m.Re m.Estar (gGap J g (v t 2) k) (gGap J g um' k) (gFmax J m g um' k)) (s : ℕ) :
    (gSteps J m g Nt v um w mu s).ft = (gSteps J m g Nt v um' w mu s).ft ∧
    (gSteps J m g Nt v um w mu s).uxyn0 = (gSteps J m g Nt v um' w mu s).uxyn0 ∧
    ∀ k < g.nasp, (gSteps J m g Nt v um w mu s).fxy0 k = (gSteps J m g Nt v um' w mu s).fxy0 k := by
  induction s with
  | zero => exact ⟨rfl, rfl, fun _ _ => rfl⟩
  | succ s ih =>
    obtain ⟨i1, i2, i3⟩ := ih
    have ht : s % Nt < Nt := Nat.mod_lt _ hN
    simp only [gSteps_succ]
    refine ⟨?_, rfl, fun k hk => ?_⟩
    · unfold gRoughBody
      simp only
      rw [i1]
      congr 1
      funext d
      rw [i2]
      rw [gWeighted_congr J g.weights g.nasp fun k hk => by rw [h k hk _ ht, i3 k hk]]
      rw [gWeighted_congr J g.weights (f := fun k => (gUnl J m.Re m.Estar (gGap J g (v (s % Nt) 2) k) (gGap J g um k) (gFmax J m g um k)).1)
        g.nasp fun k hk => by rw [h k hk _ ht]]
    · funext d
      show gTan J m.Gstar mu _ _ _ _ _ = gTan J m.Gstar mu _ _ _ _ _
      rw [i2, i3 k hk]
      beta_reduce
      rw [h k hk _ ht]

/-- Contact of an asperity that stays elastic does not depend on the maximum. -/
theorem gUnl_elastic (h : m.Fine) {k : ℕ} (hg : 0 ≤ g.meso + g.gaps k) (un : ℝ) {a : ℝ} (h0 : 0 < a - g.meso - g.gaps k)
    (h1 : a - g.meso - g.gaps k < 1.9*m.dy) :
    gUnl fltNum m.Re m.Estar (some un) (gGap fltNum g (some a) k) (gFmax fltNum m g (some a) k)
      = (some (hertz m.Re m.Estar un), some (if 0 < un then Real.sqrt (m.Re * un) else 0)) := by
  have hdy := h.dy
  have e : gFmax fltNum m g (some a) k = some (hertz m.Re m.Estar (a - g.meso - g.gaps k)) := by
    refine Eq.trans (gGeneral_flt h _ _ _).1 ?_
    rw [general_elastic h1 (by linarith), elLoading_fn]
  obtain ⟨u1, u2, -⟩ := unloading_hertz (un := un) h.Re h.Estar h0
  rw [e, gGap_flt]
  refine Prod.ext ?_ ?_
  · rw [(gUnl_flt h.Re h.Estar _ _ _).1, u1]
  · rw [(gUnl_flt h.Re h.Estar _ _ _).2, u2]

theorem gUnl_apart (h : m.Fine) (un : ℝ) {k : ℕ} {a : ℝ} (h0 : a - g.meso - g.gaps k < 0) (F : Flt) :
    gUnl fltNum m.Re m.Estar (some un) (gGap fltNum g (some a) k) F = (some 0, some 0) := by
  obtain ⟨u1, u2⟩ := unloading_never (un := un) (R := m.Re) (E := m.Estar) (Fm := F) h0.le
  rw [gGap_flt]
  refine Prod.ext ?_ ?_
  · rw [(gUnl_flt h.Re h.Estar _ _ _).1, u1]
  · rw [(gUnl_flt h.Re h.Estar _ _ _).2, u2]

theorem gUnl_same (h : m.Fine) {k : ℕ} (hg : 0 ≤ g.meso + g.gaps k) (un : ℝ) {a b : ℝ}
    (hab : a - g.meso - g.gaps k < 0 ∧ b - g.meso - g.gaps k < 0 ∨
      (0 < a - g.meso - g.gaps k ∧ a - g.meso - g.gaps k < 1.9*m.dy) ∧
      0 < b - g.meso - g.gaps k ∧ b - g.meso - g.gaps k < 1.9*m.dy) :
    gUnl fltNum m.Re m.Estar (some un) (gGap fltNum g (some a) k) (gFmax fltNum m g (some a) k)
      = gUnl fltNum m.Re m.Estar (some un) (gGap fltNum g (some b) k) (gFmax fltNum m g (some b) k) := by
  rcases hab with ⟨ha, hb⟩ | ⟨ha, hb⟩
  · rw [gUnl_apart h un ha, gUnl_apart h un hb]
  · rw [gUnl_elastic h hg un ha.1 ha.2, gUnl_elastic h hg un hb.1 hb.2]

/-- Near a smooth cycle the mean of the largest samples can replace the maximum. -/
theorem peak_near (h : m.Fine) {Nt : ℕ} (hN : 0 < Nt) {x : ℕ → ℕ → Dual} {f : ℕ → ℕ → (ℕ → ℝ) → ℝ}
    (hx : ∀ t < Nt, Tracks n K M X (f t 2) (x t 2)) (h0 : ∀ t < Nt, (x t 2).d K = 0)
    {u : ℕ → ℕ → ℝ} (hu : u = fun j d => (x j d).v) {c : ℕ → ℝ} (c1 : ∀ t, u t 2 = unMax Nt u → c t = 1)
    (c0 : ∀ t, u t 2 ≠ unMax Nt u → c t = 0) {xu : FDual}
    (hxu : FT n K M X (fun U => some (maxMean Nt c fun t => f t 2 U)) xu (unMax Nt u))
    (hg : ∀ k < g.nasp, 0 ≤ g.meso + g.gaps k) (htouch : ∀ k < g.nasp, cycleMax Nt g u k ≠ 0)
    (hpeak : (∃ t0 < Nt, ∀ t < Nt, t ≠ t0 → u t 2 < u t0 2) ∨ ∀ k < g.nasp, cycleMax Nt g u k < 1.9*m.dy) :
    Near n X fun U => ∀ k < g.nasp, ∀ t < Nt,
      gUnl fltNum m.Re m.Estar (gGap fltNum g (some (f t 2 U)) k) (gGap fltNum g (some (unMax Nt fun j d => f j d U)) k)
        (gFmax fltNum m g (some (unMax Nt fun j d => f j d U)) k)
      = gUnl fltNum m.Re m.Estar (gGap fltNum g (some (f t 2 U)) k) (gGap fltNum g (some (maxMean Nt c fun t => f t 2 U)) k)
        (gFmax fltNum m g (some (maxMean Nt c fun t => f t 2 U)) k) := by
  have hft : ∀ t < Nt, FT n K M X (fun U => some (f t 2 U)) (FDual.of (x t 2)) (u t 2) := fun t ht =>
    ⟨ftracks_of (hx t ht) (h0 t ht), by rw [hu]; rfl⟩
  have hsome : ∀ a c : ℝ, ltF (some a) c → a < c := fun a c => (ltF_some a c).1
  have hsome' : ∀ a c : ℝ, gtF (some a) c → c < a := fun a c => (gtF_some a c).1
  rcases hpeak with ⟨t0, ht0, hlt⟩ | hel
  · have em := unMax_unique ht0 hlt
    have hnear : Near n X fun U => ∀ t < Nt, t ≠ t0 → f t 2 U < f t0 2 U := by
      refine near_all fun t ht => ?_
      by_cases e : t = t0
      · exact Near.of_all fun U hne => absurd e hne
      · have hd := ft_sub (hft t ht) (hft t0 ht0)
        exact (hd.lt (c := 0) (by have := hlt t ht e; linarith)).mono fun U hU _ => by
          have := hsome _ _ hU
          linarith
    refine hnear.mono fun U hU k hk t ht => ?_
    have e1 : (unMax Nt fun j d => f j d U) = f t0 2 U := unMax_unique (u := fun j d => f j d U) ht0 hU
    have e2 : (maxMean Nt c fun t => f t 2 U) = f t0 2 U := maxMean_unique ht0 (c1 t0 em.symm) fun t ht hne =>
      c0 t (by have := hlt t ht hne; rw [em]; exact this.ne)
    rw [e1, e2]
  · have h2 : Near n X fun U => ∀ k < g.nasp, (maxMean Nt c (fun t => f t 2 U) - g.meso - g.gaps k < 0 ∧
          (unMax Nt fun j d => f j d U) - g.meso - g.gaps k < 0) ∨
        (0 < maxMean Nt c (fun t => f t 2 U) - g.meso - g.gaps k ∧ maxMean Nt c (fun t => f t 2 U) - g.meso - g.gaps k < 1.9*m.dy) ∧
          0 < (unMax Nt fun j d => f j d U) - g.meso - g.gaps k ∧ (unMax Nt fun j d => f j d U) - g.meso - g.gaps k < 1.9*m.dy := by
      refine near_all fun k hk => ?_
      have hle : ∀ t < Nt, u t 2 - g.meso - g.gaps k ≤ cycleMax Nt g u k := fun t ht => by
        have := (unMax_ge Nt u).2 t ht
        unfold cycleMax
        linarith
      have hbelow : ∀ b, cycleMax Nt g u k < b → Near n X fun U => (unMax Nt fun j d => f j d U) - g.meso - g.gaps k < b := by
        intro b hb
        refine (near_all fun t (ht : t < Nt) => (gGap_ft g (hft t ht) k).lt (lt_of_le_of_lt (hle t ht) hb)).mono fun U hU => ?_
        obtain ⟨t, ht, e⟩ := unMax_mem Nt hN fun j d => f j d U
        rw [e]
        exact hsome _ _ (hU t ht)
      have hmean : ∀ b, cycleMax Nt g u k < b → Near n X fun U => maxMean Nt c (fun t => f t 2 U) - g.meso - g.gaps k < b :=
        fun b hb => ((gGap_ft g hxu k).lt hb).mono fun U hU => hsome _ _ hU
      rcases lt_or_gt_of_ne (htouch k hk) with hl | hl
      · exact ((hmean 0 hl).and (hbelow 0 hl)).mono fun U hU => Or.inl hU
      · have hab : Near n X fun U => 0 < (unMax Nt fun j d => f j d U) - g.meso - g.gaps k := by
          obtain ⟨t, ht, e⟩ := unMax_mem Nt hN u
          have : 0 < u t 2 - g.meso - g.gaps k := by rw [← e]; exact hl
          refine ((gGap_ft g (hft t ht) k).gt this).mono fun U hU => ?_
          have h1 := hsome' _ _ hU
          have h2 := (unMax_ge Nt fun j d => f j d U).2 t ht
          linarith
        have hab' : Near n X fun U => 0 < maxMean Nt c (fun t => f t 2 U) - g.meso - g.gaps k :=
          ((gGap_ft g hxu k).gt hl).mono fun U hU => hsome' _ _ hU
        exact ((hab'.and (hmean _ (hel k hk))).and (hab.and (hbelow _ (hel k hk)))).mono fun U hU => Or.inr hU
    refine h2.mono fun U hU k hk t ht => ?_
    refine (gUnl_same h (hg k hk) _ ?_).symm
    exact hU k hk

/-- The history on pairs holds the derivatives of the history. -/
theorem roughHist_tracks (h : m.Fine) {Nt : ℕ} (hN : 0 < Nt) {x : ℕ → ℕ → Dual} {f : ℕ → ℕ → (ℕ → ℝ) → ℝ}
    (hx : ∀ t < Nt, ∀ d < 3, Tracks n K M X (f t d) (x t d)) (hz : ∀ t < Nt, ∀ d < 3, (x t d).d K = 0)
    (hg : ∀ k < g.nasp, 0 ≤ g.meso + g.gaps k) {mu : ℝ} (hmu : 0 ≤ mu) {u0 : ℕ → ℝ}
    (hs : SmoothCycle m g Nt (fun j d => (x j d).v) u0 mu) {t d : ℕ} (hd : d < 3) :
    FTracks n K M X (fun U => roughHistory m g Nt (fun j d => f j d U) u0 mu 2 t d) (roughHistGrad m g mu u0 Nt x t d) := by
  obtain ⟨c, c1, c0, -, hxu⟩ := maxOf_tracks Nt hN (f := f) (fun t ht => hx t ht 2 (by omega)) (fun t ht => hz t ht 2 (by omega))
  have key := (gSteps_tracks h hN hx hz rfl hxu hg hmu hs (2 * Nt) le_rfl).1 t d hd
  have hnear := peak_near (g := g) h hN (fun t ht => hx t ht 2 (by omega)) (fun t ht => hz t ht 2 (by omega)) rfl c1 c0 hxu hg hs.touch hs.peak
  unfold roughHistGrad gRoughHistory
  rw [gRoughFrom_steps]
  refine key.near (hnear.mono fun U hU => ?_)
  have e := gRoughHistory_flt h g Nt (fun j d => f j d U) u0 mu 2
  rw [← e]
  unfold gRoughHistory
  rw [gRoughFrom_steps, show fltNum.maxOf Nt (fun t => some (f t 2 U)) = some (unMax Nt fun j d => f j d U) from
    maxOfF_some Nt fun j d => f j d U]
  exact congrFun (congrFun (gSteps_max fltNum hN (fun j d => some (f j d U)) (fun d => some (u0 d)) mu hU (2 * Nt)).1 t) d

/-- Contact of one asperity: the derivatives are finite, whatever the displacements. -/
theorem gUnl_cycle_fin (h : m.Fine) {Nt : ℕ} {u : ℕ → ℕ → ℝ} {Fu Fx : (ℕ → ℝ) → Flt} {xu x : FDual}
    (hu : FT n K M X Fu xu (unMax Nt u)) {k t : ℕ} (ht : t < Nt) (hx : FT n K M X Fx x (u t 2)) (hg : 0 ≤ g.meso + g.gaps k) :
    FFin (gUnl fdualNum m.Re m.Estar (gGap fdualNum g x k) (gGap fdualNum g xu k) (gFmax fdualNum m g xu k)).1 ∧
    FFin (gUnl fdualNum m.Re m.Estar (gGap fdualNum g x k) (gGap fdualNum g xu k) (gFmax fdualNum m g xu k)).2 := by
  have hdy := h.dy
  have hd := gGap_ft g hu k
  have hx' := gGap_ft g hx k
  obtain ⟨a, ga, ea⟩ := hd.1.fin
  have hav : a = cycleMax Nt g u k := by
    have := hd.2
    rw [ea] at this
    exact Option.some.inj this
  rcases le_or_gt (cycleMax Nt g u k) 0 with h0 | h0
  · rw [ea, gUnl_never_dual _ ga _ (by rw [hav]; exact h0)]
    exact ⟨ffin_zero, ffin_zero⟩
  · by_cases h1 : cycleMax Nt g u k = 1.9*m.dy
    · have e : gFmax fdualNum m g xu k = ⟨some 0, fun _ => some 0⟩ := by
        unfold gFmax
        rw [gGeneral_unl_dual, fdual_const_some (0 - g.meso - g.gaps k),
          gUnl_never_dual _ (fun _ => 0) _ (by linarith : 0 - g.meso - g.gaps k ≤ 0)]
        · rw [hd.2, gtF_some]
          exact fun h' => absurd h'.2 (by change ¬ 1.9*m.dy < cycleMax Nt g u k; rw [h1]; exact lt_irrefl _)
        · rw [hd.2, ltF_some]
          exact fun h' => absurd h'.1 (by change ¬ cycleMax Nt g u k < 1.9*m.dy; rw [h1]; exact lt_irrefl _)
      have hf : FT n K M X (fun _ => fltNum.const 0) (gFmax fdualNum m g xu k) 0 := by
        rw [e]
        exact ft_const 0
      rw [gUnl_off_dual _ _ _]
      · exact ⟨ffin_zero, ffin_zero⟩
      · rw [gPos_v]
        refine gPos_off fun c hc => ?_
        rw [(ft_sub hx' (ft_deltabar h.Re h.Estar hd hf h0)).2] at hc
        rw [← Option.some.inj hc, zero_div]
        have := (unMax_ge Nt u).2 t ht
        linarith
    · obtain ⟨F, e, hF⟩ := cycleFm_pos h.toGood hg h0 h1
      have hv : (gFmax fdualNum m g xu k).v = some F := by
        unfold gFmax
        rw [(gGeneral_v _ _ _ _).1, gGap_v, hu.2]
        exact Eq.trans ((gGeneral_flt h _ _ _).1) e
      exact gUnl_fin h.Re h.Estar hx' hd ⟨gFmax_ft h hu hg h0.ne' h1, hv⟩ fun _ => hF

/-- A pair seen as constant. -/
theorem tracks_trivial {K : ℕ} (x : Dual) : Tracks 0 K (fun _ _ => 0) (fun _ => 0) (fun _ => x.v) x :=
  ⟨rfl, (HasGrad.const x.v).congr fun q hq => absurd hq (Nat.not_lt_zero q)⟩

theorem gSteps_fin (h : m.Fine) {Nt : ℕ} (hN : 0 < Nt) (x : ℕ → ℕ → Dual) (hz : ∀ t < Nt, ∀ d < 3, (x t d).d K = 0)
    (hg : ∀ k < g.nasp, 0 ≤ g.meso + g.gaps k) (mu : ℝ) (u0 : ℕ → ℝ) (s : ℕ) :
    (∀ t, ∀ d < 3, FFin ((gSteps fdualNum m g Nt (fun j d => FDual.of (x j d)) (fdualNum.maxOf Nt fun t => FDual.of (x t 2))
      (fun d => FDual.const (some (u0 d))) mu s).ft t d)) ∧
    (∀ d < 3, FFin ((gSteps fdualNum m g Nt (fun j d => FDual.of (x j d)) (fdualNum.maxOf Nt fun t => FDual.of (x t 2))
      (fun d => FDual.const (some (u0 d))) mu s).uxyn0 d)) ∧
    ∀ k < g.nasp, ∀ d < 2, FFin ((gSteps fdualNum m g Nt (fun j d => FDual.of (x j d)) (fdualNum.maxOf Nt fun t => FDual.of (x t 2))
      (fun d => FDual.const (some (u0 d))) mu s).fxy0 k d) := by
  obtain ⟨c, -, -, -, hxu⟩ := maxOf_tracks (n := 0) (K := K) (M := fun _ _ => 0) (X := fun _ => 0) Nt hN
    (f := fun t d _ => (x t d).v) (fun t _ => tracks_trivial (x t 2)) (fun t ht => hz t ht 2 (by omega))
  generalize (fdualNum.maxOf Nt fun t => FDual.of (x t 2)) = xu at hxu
  induction s with
  | zero => exact ⟨fun t d _ => ffin_const 0, fun d _ => ffin_const (u0 d), fun k _ d _ => ffin_const 0⟩
  | succ s ih =>
    obtain ⟨i1, i2, i3⟩ := ih
    have ht : s % Nt < Nt := Nat.mod_lt _ hN
    have hxt : ∀ d < 3, FT 0 K (fun _ _ => 0) (fun _ => 0) (fun _ => some (x (s % Nt) d).v) (FDual.of (x (s % Nt) d)) (x (s % Nt) d).v :=
      fun d hd => ⟨ftracks_of (tracks_trivial _) (hz _ ht d hd), rfl⟩
    have hasp := fun k (hk : k < g.nasp) => gUnl_cycle_fin (g := g) (t := s % Nt) h hxu ht (hxt 2 (by omega)) (hg k hk)
    have htan := fun k (hk : k < g.nasp) d (hd : d < 2) => ffin_tan (G := m.Gstar) (mu := mu) (hxt d (by omega)).1.fin (i2 d (by omega))
      (i3 k hk d hd) (hasp k hk).1 (hasp k hk).2
    simp only [gSteps_succ]
    refine ⟨fun t d hd => ?_, fun d hd => (hxt d hd).1.fin, fun k hk d hd => htan k hk d hd⟩
    unfold gRoughBody setRow
    simp only
    by_cases e : t = s % Nt
    · simp only [e, if_true]
      by_cases hd2 : d < 2
      · simp only [hd2, if_true]
        exact ffin_weighted _ _ _ fun k hk => htan k hk d hd2
      · simp only [hd2, if_false]
        exact ffin_weighted _ _ _ fun k hk => (hasp k hk).1
    · simp only [e, if_false]
      exact i1 t d hd

end history

end

end TMD
