import Verif.Lemmas.MifGradStatic

/-!
# Derivatives of the force history of the Mindlin-Iwan fit
-/

namespace TMD

open Spec Finset Filter Topology

noncomputable section

/-! ## The loop -/

/-- The loop after `s` steps. -/
def gMifSteps {α : Type} (J : FNum α) (m : Mat) (g : Asperities) (Nr Nt : ℕ) (u : ℕ → ℕ → α) (unmax : α) (u0 : ℕ → α) (mu : ℝ)
    (s : ℕ) : GMifHist α :=
  (List.range s).foldl (fun H s => gMifBody J m g Nr u mu (gGap J g unmax) (gFmax J m g unmax) H (s % Nt))
    ⟨fun _ _ => J.const 0, u0, fun _ => ⟨fun _ _ => J.const 0, fun j => J.const (mifRadius Nr j)⟩⟩

theorem gMifSteps_succ {α : Type} (J : FNum α) (m : Mat) (g : Asperities) (Nr Nt : ℕ) (u : ℕ → ℕ → α) (unmax : α) (u0 : ℕ → α)
    (mu : ℝ) (s : ℕ) : gMifSteps J m g Nr Nt u unmax u0 mu (s + 1)
      = gMifBody J m g Nr u mu (gGap J g unmax) (gFmax J m g unmax) (gMifSteps J m g Nr Nt u unmax u0 mu s) (s % Nt) := by
  unfold gMifSteps
  rw [List.range_succ, List.foldl_append]
  rfl

theorem gMifFrom_steps {α : Type} (J : FNum α) (m : Mat) (g : Asperities) (Nr Nt : ℕ) (u : ℕ → ℕ → α) (unmax : α) (u0 : ℕ → α)
    (mu : ℝ) (r : ℕ) : gMifFrom J m g Nr Nt u unmax u0 mu r = (gMifSteps J m g Nr Nt u unmax u0 mu (r * Nt)).ft := by
  unfold gMifFrom
  simp only
  rw [repeats_flat]
  rfl

/-- Values only. -/
def GMifHist.v (H : GMifHist FDual) : GMifHist Flt := ⟨fun t d => (H.ft t d).v, fun d => (H.uxyn0 d).v, fun k => (H.asp k).v⟩

theorem gMifBody_v (m : Mat) (g : Asperities) (Nr : ℕ) (u : ℕ → ℕ → FDual) (mu : ℝ) (dm Fm : ℕ → FDual) (H : GMifHist FDual) (ind : ℕ) :
    (gMifBody fdualNum m g Nr u mu dm Fm H ind).v
      = gMifBody fltNum m g Nr (fun j d => (u j d).v) mu (fun k => (dm k).v) (fun k => (Fm k).v) H.v ind := by
  unfold gMifBody GMifHist.v
  simp only [gMifNext_v, (gUnl_v _ _ _ _ _).1, (gUnl_v _ _ _ _ _).2, gGap_v, GMifHist.mk.injEq, and_true]
  funext t d
  unfold setRow
  split
  · beta_reduce
    split
    · simp only [gWeighted_v, gMifForce_v, gMifNext_v, (gUnl_v _ _ _ _ _).1, (gUnl_v _ _ _ _ _).2, gGap_v]
    · simp only [gWeighted_v, (gUnl_v _ _ _ _ _).1, gGap_v]
  · rfl

theorem gMifSteps_v (m : Mat) (g : Asperities) (Nr Nt : ℕ) (u : ℕ → ℕ → FDual) (um : FDual) (u0 : ℕ → FDual) (mu : ℝ) (s : ℕ) :
    (gMifSteps fdualNum m g Nr Nt u um u0 mu s).v
      = gMifSteps fltNum m g Nr Nt (fun j d => (u j d).v) um.v (fun d => (u0 d).v) mu s := by
  induction s with
  | zero => rfl
  | succ s ih =>
    rw [gMifSteps_succ, gMifSteps_succ, gMifBody_v, ih]
    congr 1
    funext k
    exact (gGeneral_v _ _ _ _).1

theorem gMifHistory_v (m : Mat) (g : Asperities) (Nr Nt : ℕ) (u : ℕ → ℕ → FDual) (u0 : ℕ → FDual) (mu : ℝ) (r t d : ℕ) :
    (gMifHistory fdualNum m g Nr Nt u u0 mu r t d).v
      = gMifHistory fltNum m g Nr Nt (fun j d => (u j d).v) (fun d => (u0 d).v) mu r t d := by
  unfold gMifHistory
  rw [gMifFrom_steps, gMifFrom_steps]
  exact congrArg (fun H => GMifHist.ft H t d) (gMifSteps_v m g Nr Nt u _ u0 mu (r * Nt))

/-- A history of numbers as one of values that may be NaN. -/
def MifHist.flt (H : MifHist) : GMifHist Flt :=
  ⟨H.ft, fun d => some (H.uxyn0 d), fun k => ⟨fun j d => (H.asp k).map fun s => s.t j d, fun j => (H.asp k).map fun s => s.r j⟩⟩

theorem gMifBody_flt {m : Mat} (h : m.Fine) (g : Asperities) {Nr : ℕ} (hNr : 2 ≤ Nr) (u : ℕ → ℕ → ℝ) (mu : ℝ) (dm : ℕ → ℝ) (Fm : ℕ → Flt)
    (H : MifHist) (ind : ℕ) (s : ℕ → MifAsp) (hs : ∀ k, H.asp k = some (s k))
    (hc : ∀ k, ∃ f a, (unloading (u ind 2 - g.meso - g.gaps k) (dm k) (Fm k) m.Re m.Estar).fn = some f ∧
      (unloading (u ind 2 - g.meso - g.gaps k) (dm k) (Fm k) m.Re m.Estar).a = some a ∧ (0 < f → a ≠ 0)) :
    gMifBody fltNum m g Nr (fun j d => some (u j d)) mu (fun k => some (dm k)) Fm H.flt ind = (mifBody m g Nr u mu dm Fm H ind).flt := by
  choose f a e1 e2 e3 using hc
  have hz : ∀ k, mifAsperity Nr (u ind) H.uxyn0 (H.asp k) (unloading (u ind 2 - g.meso - g.gaps k) (dm k) (Fm k) m.Re m.Estar).fn
      (unloading (u ind 2 - g.meso - g.gaps k) (dm k) (Fm k) m.Re m.Estar).a m.Gstar mu = _ := fun k => by
    rw [hs k, e1, e2, mifAsperity_force (e3 k)]
  have ht : ∀ k j d, (gMifNext fltNum Nr m.Gstar mu (fun d => some (u ind d)) (fun d => some (H.uxyn0 d))
      (H.flt.asp k) (some (f k)) (some (a k))).t j d = some (mifTraction Nr (u ind d) (H.uxyn0 d) (fun i => (s k).t i d) (s k).r (some (f k)) (a k) m.Gstar mu j) := by
    intro k j d
    refine gMifNext_flt (uv := u ind) (u0v := H.uxyn0) hNr m.Gstar mu rfl rfl (fun i _ => ?_) (fun i _ => ?_) (e3 k) j
    · show (H.asp k).map _ = _
      rw [hs k]
      rfl
    · show (H.asp k).map _ = _
      rw [hs k]
      rfl
  unfold gMifBody mifBody
  simp only [gGap_flt, (gUnl_flt h.Re h.Estar _ _ _).1, (gUnl_flt h.Re h.Estar _ _ _).2, hz]
  show (⟨_, _, _⟩ : GMifHist Flt) = ⟨_, _, _⟩
  congr 1
  · congr 1
    funext d
    split
    · refine gWeighted_flt' _ _ fun k _ => ?_
      rw [e1, e2]
      exact gMifForce_flt Nr (a k) fun j _ => ht k j d
    · exact gWeighted_flt' _ _ fun k _ => rfl
  · funext k
    rw [e1, e2]
    show (⟨_, _⟩ : GMifAsp Flt) = ⟨_, _⟩
    congr 1
    funext j d
    exact ht k j d

theorem gMifSteps_flt {m : Mat} (h : m.Fine) (g : Asperities) {Nr : ℕ} (hNr : 2 ≤ Nr) {Nt : ℕ} (hN : 0 < Nt) (u : ℕ → ℕ → ℝ) (u0 : ℕ → ℝ)
    (mu : ℝ) (s : ℕ) :
    gMifSteps fltNum m g Nr Nt (fun j d => some (u j d)) (some (unMax Nt u)) (fun d => some (u0 d)) mu s
      = ((List.range s).foldl (fun H s => mifBody m g Nr u mu (cycleMax Nt g u) (cycleFm m Nt g u) H (s % Nt))
          ⟨fun _ _ => some 0, u0, fun _ => some ⟨fun _ _ => 0, mifRadius Nr⟩⟩).flt := by
  have e1 : gGap fltNum g (some (unMax Nt u)) = fun k => some (cycleMax Nt g u k) := rfl
  have e2 : gFmax fltNum m g (some (unMax Nt u)) = cycleFm m Nt g u := by
    funext k
    exact (gGeneral_flt h _ _ _).1
  induction s with
  | zero => rfl
  | succ s ih =>
    have ht : s % Nt < Nt := Nat.mod_lt _ hN
    rw [gMifSteps_succ, ih, e1, e2, gMifBody_flt h g hNr u mu _ _ _ _ _ (mif_steps m g Nr Nt u h.Estar.le hN u0 mu s).2.1,
      List.range_succ, List.foldl_append]
    · rfl
    · intro k
      obtain ⟨a1, a2, -⟩ := asp_ok m g Nt u h.Estar.le k (s % Nt) ht
      exact ⟨_, _, a1, a2, fun hp => (asp_pos m g Nt u h.Estar.le k _ ht hp).ne'⟩

/-- History of a cycle. -/
theorem gMifHistory_flt {m : Mat} (h : m.Fine) (g : Asperities) {Nr : ℕ} (hNr : 2 ≤ Nr) (Nt : ℕ) (u : ℕ → ℕ → ℝ)
    (u0 : ℕ → ℝ) (mu : ℝ) (r : ℕ) :
    gMifHistory fltNum m g Nr Nt (fun j d => some (u j d)) (fun d => some (u0 d)) mu r = mifHistory m g Nr Nt u u0 mu r := by
  have hm : fltNum.maxOf Nt (fun t => some (u t 2)) = some (unMax Nt u) := maxOfF_some Nt u
  unfold gMifHistory mifHistory
  rcases Nat.eq_zero_or_pos Nt with rfl | hN
  · rw [gMifFrom_steps, repeats_flat, Nat.mul_zero]
    rfl
  · rw [hm, gMifFrom_steps, gMifSteps_flt h g hNr hN, repeats_flat]
    rfl

/-! ## Conditions -/

/-- Contact radius of the previous step; 1 at first. -/
def mifOld (m : Mat) (g : Asperities) (Nt : ℕ) (u : ℕ → ℕ → ℝ) (k : ℕ) : ℕ → ℝ
  | 0 => 1
  | s + 1 => aspA m g Nt u k (s % Nt)

/-- No contact before step `s`. -/
def MifFresh (m : Mat) (g : Asperities) (Nt : ℕ) (u : ℕ → ℕ → ℝ) (k s : ℕ) : Prop := s = 0 ∨ aspN m g Nt u k ((s - 1) % Nt) = 0

theorem mifSeq_r (m : Mat) (g : Asperities) (Nr Nt : ℕ) (u : ℕ → ℕ → ℝ) (u0 : ℕ → ℝ) (mu : ℝ) (k s : ℕ) :
    (mifSeq m g Nr Nt u u0 mu k s).r = fun j => mifOld m g Nt u k s * mifRadius Nr j := by
  cases s with
  | zero =>
    funext j
    show mifRadius Nr j = 1 * mifRadius Nr j
    rw [one_mul]
  | succ s => rfl

/-- A cycle without kinks: no asperity just touches, just yields or is just released; new radii are not among the old ones; no
radius is at its friction limit; except where nothing is and was transmitted. -/
structure SmoothMifCycle (m : Mat) (g : Asperities) (Nr Nt : ℕ) (u : ℕ → ℕ → ℝ) (u0 : ℕ → ℝ) (mu : ℝ) : Prop where
  touch : ∀ k < g.nasp, cycleMax Nt g u k ≠ 0
  yield : ∀ k < g.nasp, cycleMax Nt g u k ≠ 1.9*m.dy
  release : ∀ k < g.nasp, 0 < cycleMax Nt g u k → ∀ F, cycleFm m Nt g u k = some F → ∀ t < Nt,
    u t 2 - g.meso - g.gaps k ≠ releasePoint m (cycleMax Nt g u k) F
  peak : (∃ t0 < Nt, ∀ t < Nt, t ≠ t0 → u t 2 < u t0 2) ∨ ∀ k < g.nasp, cycleMax Nt g u k < 1.9*m.dy
  nodes : ∀ k < g.nasp, ∀ s < 2 * Nt, MifFresh m g Nt u k s ∨
    OffNodes Nr (aspN m g Nt u k (s % Nt)) (aspA m g Nt u k (s % Nt)) (mifOld m g Nt u k s)
  limit : ∀ k < g.nasp, ∀ s < 2 * Nt, ∀ d < 2, ∀ j < Nr,
    |mifTrial Nr m.Gstar (aspN m g Nt u k (s % Nt)) (aspA m g Nt u k (s % Nt)) (u (s % Nt) d - mifPrev Nt u u0 s d)
      (mifOld m g Nt u k s) (fun i => (mifSeq m g Nr Nt u u0 mu k s).t i d) j|
      ≠ mu * mifPressure Nr (aspN m g Nt u k (s % Nt)) (aspA m g Nt u k (s % Nt)) j ∨
    Idle Nr (aspN m g Nt u k (s % Nt)) j ∧ (MifFresh m g Nt u k s ∨ mifOld m g Nt u k s < aspA m g Nt u k (s % Nt))

section history

variable {n K : ℕ} {M : ℕ → ℕ → ℝ} {X : ℕ → ℝ} {m : Mat} {g : Asperities} {Nr : ℕ}

/-- Values of the normal contact on pairs. -/
theorem gUnl_values (h : m.Fine) {Nt : ℕ} {u : ℕ → ℕ → ℝ} {x xu : FDual} {t : ℕ} (ht : t < Nt) (hx : x.v = some (u t 2))
    (hxu : xu.v = some (unMax Nt u)) (k : ℕ) :
    (gUnl fdualNum m.Re m.Estar (gGap fdualNum g x k) (gGap fdualNum g xu k) (gFmax fdualNum m g xu k)).1.v = some (aspN m g Nt u k t) ∧
    (gUnl fdualNum m.Re m.Estar (gGap fdualNum g x k) (gGap fdualNum g xu k) (gFmax fdualNum m g xu k)).2.v = some (aspA m g Nt u k t) := by
  obtain ⟨a1, a2, -⟩ := asp_ok m g Nt u h.Estar.le k t ht
  have e : (gFmax fdualNum m g xu k).v = cycleFm m Nt g u k := by
    unfold gFmax
    rw [(gGeneral_v _ _ _ _).1, gGap_v, hxu]
    exact (gGeneral_flt h _ _ _).1
  have e' : (gGap fdualNum g x k).v = some (u t 2 - g.meso - g.gaps k) := by
    rw [gGap_v, hx]
    rfl
  have e'' : (gGap fdualNum g xu k).v = some (cycleMax Nt g u k) := by
    rw [gGap_v, hxu]
    rfl
  rw [(gUnl_v _ _ _ _ _).1, (gUnl_v _ _ _ _ _).2, e, e', e'', (gUnl_flt h.Re h.Estar _ _ _).1,
    (gUnl_flt h.Re h.Estar _ _ _).2]
  exact ⟨a1, a2⟩

/-- Values of the loop on pairs. -/
theorem gMifSteps_values (h : m.Fine) (hNr : 2 ≤ Nr) {Nt : ℕ} (hN : 0 < Nt) (x : ℕ → ℕ → Dual) {u : ℕ → ℕ → ℝ} (hu : u = fun j d => (x j d).v)
    {xu : FDual} (hxu : xu.v = some (unMax Nt u)) (u0 : ℕ → ℝ) (mu : ℝ) (s d : ℕ) :
    ((gMifSteps fdualNum m g Nr Nt (fun j d => FDual.of (x j d)) xu (fun d => FDual.const (some (u0 d))) mu s).uxyn0 d).v
      = some (mifPrev Nt u u0 s d) := by
  have e := gMifSteps_v m g Nr Nt (fun j d => FDual.of (x j d)) xu (fun d => FDual.const (some (u0 d))) mu s
  rw [hxu] at e
  have e' := gMifSteps_flt h g hNr hN u u0 mu s
  obtain ⟨r1, -⟩ := mif_steps m g Nr Nt u h.Estar.le hN u0 mu s
  subst hu
  refine Eq.trans (congrArg (fun H => GMifHist.uxyn0 H d) (e.trans e')) ?_
  show some (MifHist.uxyn0 _ d) = _
  rw [r1]

/-- The loop on pairs holds the derivatives of the loop on numbers. -/
theorem gMifSteps_tracks (h : m.Fine) (hNr : 2 ≤ Nr) {Nt : ℕ} (hN : 0 < Nt) {x : ℕ → ℕ → Dual} {f : ℕ → ℕ → (ℕ → ℝ) → ℝ}
    (hx : ∀ t < Nt, ∀ d < 3, Tracks n K M X (f t d) (x t d)) (hz : ∀ t < Nt, ∀ d < 3, (x t d).d K = 0)
    {u : ℕ → ℕ → ℝ} (hu : u = fun j d => (x j d).v) {Fu : (ℕ → ℝ) → Flt} {xu : FDual} (hxu : FT n K M X Fu xu (unMax Nt u))
    (hg : ∀ k < g.nasp, 0 ≤ g.meso + g.gaps k) {mu : ℝ} (hmu : 0 ≤ mu) {u0 : ℕ → ℝ} (hs : SmoothMifCycle m g Nr Nt u u0 mu) (s : ℕ)
    (hs2 : s ≤ 2 * Nt) :
    (∀ t, ∀ d < 3, FTracks n K M X
      (fun U => (gMifSteps fltNum m g Nr Nt (fun j d => some (f j d U)) (Fu U) (fun d => some (u0 d)) mu s).ft t d)
      ((gMifSteps fdualNum m g Nr Nt (fun j d => FDual.of (x j d)) xu (fun d => FDual.const (some (u0 d))) mu s).ft t d)) ∧
    (∀ d < 3, FTracks n K M X
      (fun U => (gMifSteps fltNum m g Nr Nt (fun j d => some (f j d U)) (Fu U) (fun d => some (u0 d)) mu s).uxyn0 d)
      ((gMifSteps fdualNum m g Nr Nt (fun j d => FDual.of (x j d)) xu (fun d => FDual.const (some (u0 d))) mu s).uxyn0 d)) ∧
    ∀ k < g.nasp, MifTr n K M X Nr
      (fun U => (gMifSteps fltNum m g Nr Nt (fun j d => some (f j d U)) (Fu U) (fun d => some (u0 d)) mu s).asp k)
      ((gMifSteps fdualNum m g Nr Nt (fun j d => FDual.of (x j d)) xu (fun d => FDual.const (some (u0 d))) mu s).asp k)
        (mifOld m g Nt u k s) (mifSeq m g Nr Nt u u0 mu k s).t ∧
      (MifFresh m g Nt u k s → ∀ d < 2, NoTr n X Nr
        (fun U => (gMifSteps fltNum m g Nr Nt (fun j d => some (f j d U)) (Fu U) (fun d => some (u0 d)) mu s).asp k)
        ((gMifSteps fdualNum m g Nr Nt (fun j d => FDual.of (x j d)) xu (fun d => FDual.const (some (u0 d))) mu s).asp k) d) := by
  induction s with
  | zero =>
    refine ⟨fun t d _ => ftracks_const 0, fun d _ => ftracks_const (u0 d), fun k _ => ⟨⟨zero_le_one, fun i _ => ?_, ?_, fun h0 => ?_,
      fun i _ d _ => ft_const 0⟩, fun _ d _ i _ => fzero_const⟩⟩
    · show FT n K M X (fun _ => fltNum.const (mifRadius Nr i)) (fdualNum.const (mifRadius Nr i)) (1 * mifRadius Nr i)
      rw [one_mul]
      exact ft_const _
    · show FZero n X (fun _ => fltNum.const (mifRadius Nr 0)) (fdualNum.const (mifRadius Nr 0))
      rw [mifRadius_zero]
      exact fzero_const
    · exact absurd h0 one_ne_zero
  | succ s ih =>
    obtain ⟨i1, i2, i3⟩ := ih (by omega)
    have v1 := gMifSteps_values (g := g) h hNr hN x hu hxu.2 u0 mu s
    have ht : s % Nt < Nt := Nat.mod_lt _ hN
    have hxt : ∀ d < 3, FT n K M X (fun U => some (f (s % Nt) d U)) (FDual.of (x (s % Nt) d)) (u (s % Nt) d) := fun d hd =>
      ⟨ftracks_of (hx _ ht d hd) (hz _ ht d hd), by rw [hu]; rfl⟩
    have hcon := fun k (hk : k < g.nasp) => (gUnl_cycle (g := g) h hxu (hxt 2 (by omega)) (hg k hk) (hs.touch k hk) (hs.yield k hk)
      (fun hp F e => hs.release k hk hp F e _ ht)).contact (gUnl_values h ht (hxt 2 (by omega)).2 hxu.2 k).1
      (gUnl_values h ht (hxt 2 (by omega)).2 hxu.2 k).2 (asp_pos m g Nt u h.Estar.le k _ ht)
    have hnext := fun k (hk : k < g.nasp) => gMifNext_tr (G := m.Gstar) hNr (hcon k hk) (i3 k hk).1 hmu (fun d hd => hxt d (by omega))
      (fun d hd => ⟨i2 d (by omega), v1 d⟩)
      (fun d hd => (hs.nodes k hk s (by omega)).imp (fun hf => (i3 k hk).2 hf d hd) id)
      (fun d hd j hj => (hs.limit k hk s (by omega) d hd j hj).imp id fun hl => ⟨hl.1, hl.2.imp (fun hf => (i3 k hk).2 hf d hd) id⟩)
    refine ⟨fun t d hd => ?_, fun d hd => ?_, fun k hk => ?_⟩
    · simp only [gMifSteps_succ]
      unfold gMifBody setRow
      simp only
      by_cases e : t = s % Nt
      · simp only [e, if_true]
        by_cases hd2 : d < 2
        · simp only [hd2, if_true]
          exact ftracks_weighted _ _ fun k hk => gMifForce_ft (hcon k hk) (hnext k hk).1 hd2
        · simp only [hd2, if_false]
          exact ftracks_weighted _ _ fun k hk => (hcon k hk).force.1
      · simp only [e, if_false]
        exact i1 t d hd
    · simp only [gMifSteps_succ]
      exact (hxt d hd).1
    · simp only [gMifSteps_succ]
      refine ⟨?_, fun hf => (hnext k hk).2 ?_⟩
      · have := (hnext k hk).1
        simp only [← mifSeq_r m g Nr Nt u u0 mu k s] at this
        exact this
      · rcases hf with hf | hf
        · omega
        · rw [← hf]
          rfl

/-- The loop depends on the maximum only through the contact of the asperities. -/
theorem gMifSteps_max {α : Type} (J : FNum α) {Nt : ℕ} (hN : 0 < Nt) (v : ℕ → ℕ → α) (w : ℕ → α) (mu : ℝ) {um um' : α}
    (h : ∀ k < g.nasp, ∀ t < Nt, gUnl J m.Re m.Estar (gGap J g (v t 2) k) (gGap J g um k) (gFmax J m g um k)
      = gUnl J m.Re m.Estar (gGap J g (v t 2) k) (gGap J g um' k) (gFmax J m g um' k)) (s : ℕ) :
    (gMifSteps J m g Nr Nt v um w mu s).ft = (gMifSteps J m g Nr Nt v um' w mu s).ft ∧
    (gMifSteps J m g Nr Nt v um w mu s).uxyn0 = (gMifSteps J m g Nr Nt v um' w mu s).uxyn0 ∧
    ∀ k < g.nasp, (gMifSteps J m g Nr Nt v um w mu s).asp k = (gMifSteps J m g Nr Nt v um' w mu s).asp k := by
  induction s with
  | zero => exact ⟨rfl, rfl, fun _ _ => rfl⟩
  | succ s ih =>
    obtain ⟨i1, i2, i3⟩ := ih
    have ht : s % Nt < Nt := Nat.mod_lt _ hN
    simp only [gMifSteps_succ]
    refine ⟨?_, rfl, fun k hk => ?_⟩
    · unfold gMifBody
      simp only
      rw [i1]
      congr 1
      funext d
      rw [i2]
      rw [gWeighted_congr J g.weights g.nasp fun k hk => by rw [h k hk _ ht, i3 k hk]]
      rw [gWeighted_congr J g.weights (f := fun k => (gUnl J m.Re m.Estar (gGap J g (v (s % Nt) 2) k) (gGap J g um k) (gFmax J m g um k)).1)
        g.nasp fun k hk => by rw [h k hk _ ht]]
    · show gMifNext J Nr m.Gstar mu _ _ _ _ _ = gMifNext J Nr m.Gstar mu _ _ _ _ _
      rw [i2, i3 k hk]
      beta_reduce
      rw [h k hk _ ht]

/-- The history on pairs holds the derivatives of the history. -/
theorem mifHist_tracks (h : m.Fine) (hNr : 2 ≤ Nr) {Nt : ℕ} (hN : 0 < Nt) {x : ℕ → ℕ → Dual} {f : ℕ → ℕ → (ℕ → ℝ) → ℝ}
    (hx : ∀ t < Nt, ∀ d < 3, Tracks n K M X (f t d) (x t d)) (hz : ∀ t < Nt, ∀ d < 3, (x t d).d K = 0)
    (hg : ∀ k < g.nasp, 0 ≤ g.meso + g.gaps k) {mu : ℝ} (hmu : 0 ≤ mu) {u0 : ℕ → ℝ}
    (hs : SmoothMifCycle m g Nr Nt (fun j d => (x j d).v) u0 mu) {t d : ℕ} (hd : d < 3) :
    FTracks n K M X (fun U => mifHistory m g Nr Nt (fun j d => f j d U) u0 mu 2 t d) (mifHistGrad m g Nr mu u0 Nt x t d) := by
  obtain ⟨c, c1, c0, -, hxu⟩ := maxOf_tracks Nt hN (f := f) (fun t ht => hx t ht 2 (by omega)) (fun t ht => hz t ht 2 (by omega))
  have key := (gMifSteps_tracks h hNr hN hx hz rfl hxu hg hmu hs (2 * Nt) le_rfl).1 t d hd
  have hnear := peak_near (g := g) h hN (fun t ht => hx t ht 2 (by omega)) (fun t ht => hz t ht 2 (by omega)) rfl c1 c0 hxu hg hs.touch hs.peak
  unfold mifHistGrad gMifHistory
  rw [gMifFrom_steps]
  refine key.near (hnear.mono fun U hU => ?_)
  have e := gMifHistory_flt h g hNr Nt (fun j d => f j d U) u0 mu 2
  rw [← e]
  unfold gMifHistory
  rw [gMifFrom_steps, show fltNum.maxOf Nt (fun t => some (f t 2 U)) = some (unMax Nt fun j d => f j d U) from
    maxOfF_some Nt fun j d => f j d U]
  exact congrFun (congrFun (gMifSteps_max fltNum hN (fun j d => some (f j d U)) (fun d => some (u0 d)) mu hU (2 * Nt)).1 t) d

theorem gMifSteps_fin (h : m.Fine) (hNr : 2 ≤ Nr) {Nt : ℕ} (hN : 0 < Nt) (x : ℕ → ℕ → Dual) (hz : ∀ t < Nt, ∀ d < 3, (x t d).d K = 0)
    (hg : ∀ k < g.nasp, 0 ≤ g.meso + g.gaps k) (mu : ℝ) (u0 : ℕ → ℝ) (s : ℕ) :
    (∀ t, ∀ d < 3, FFin ((gMifSteps fdualNum m g Nr Nt (fun j d => FDual.of (x j d)) (fdualNum.maxOf Nt fun t => FDual.of (x t 2))
      (fun d => FDual.const (some (u0 d))) mu s).ft t d)) ∧
    (∀ d < 3, FFin ((gMifSteps fdualNum m g Nr Nt (fun j d => FDual.of (x j d)) (fdualNum.maxOf Nt fun t => FDual.of (x t 2))
      (fun d => FDual.const (some (u0 d))) mu s).uxyn0 d)) ∧
    ∀ k < g.nasp, (∀ i, FFin (((gMifSteps fdualNum m g Nr Nt (fun j d => FDual.of (x j d)) (fdualNum.maxOf Nt fun t => FDual.of (x t 2))
      (fun d => FDual.const (some (u0 d))) mu s).asp k).r i)) ∧
      ∀ i, ∀ d < 2, FFin (((gMifSteps fdualNum m g Nr Nt (fun j d => FDual.of (x j d)) (fdualNum.maxOf Nt fun t => FDual.of (x t 2))
      (fun d => FDual.const (some (u0 d))) mu s).asp k).t i d) := by
  obtain ⟨c, -, -, -, hxu⟩ := maxOf_tracks (n := 0) (K := K) (M := fun _ _ => 0) (X := fun _ => 0) Nt hN
    (f := fun t d _ => (x t d).v) (fun t _ => tracks_trivial (x t 2)) (fun t ht => hz t ht 2 (by omega))
  generalize (fdualNum.maxOf Nt fun t => FDual.of (x t 2)) = xu at hxu
  induction s with
  | zero => exact ⟨fun t d _ => ffin_const 0, fun d _ => ffin_const (u0 d), fun k _ => ⟨fun i => ffin_const (mifRadius Nr i), fun i d _ => ffin_const 0⟩⟩
  | succ s ih =>
    obtain ⟨i1, i2, i3⟩ := ih
    have ht : s % Nt < Nt := Nat.mod_lt _ hN
    have hxt : ∀ d < 3, FT 0 K (fun _ _ => 0) (fun _ => 0) (fun _ => some (x (s % Nt) d).v) (FDual.of (x (s % Nt) d)) (x (s % Nt) d).v :=
      fun d hd => ⟨ftracks_of (tracks_trivial _) (hz _ ht d hd), rfl⟩
    have hasp := fun k (hk : k < g.nasp) => gUnl_cycle_fin (g := g) (t := s % Nt) h hxu ht (hxt 2 (by omega)) (hg k hk)
    have hval := fun k => gUnl_values (g := g) (u := fun j d => (x j d).v) h ht (hxt 2 (by omega)).2 hxu.2 k
    have htan := fun k (hk : k < g.nasp) d (hd : d < 2) i => gMifNext_fin (G := m.Gstar) (mu := mu) hNr (u := fun d => FDual.of (x (s % Nt) d)) (hxt d (by omega)).1.fin (i2 d (by omega))
      (fun i _ => (i3 k hk).1 i) (fun i _ => (i3 k hk).2 i d hd) (hasp k hk).1 (hasp k hk).2 (fun f b e1 e2 hf => by
        have q1 := Option.some.inj ((hval k).1.symm.trans e1)
        have q2 := Option.some.inj ((hval k).2.symm.trans e2)
        rw [← q1] at hf
        rw [← q2]
        exact (asp_pos m g Nt _ h.Estar.le k _ ht hf).ne') i
    simp only [gMifSteps_succ]
    refine ⟨fun t d hd => ?_, fun d hd => (hxt d hd).1.fin, fun k hk => ⟨fun i => ffin_mul (hasp k hk).2 (ffin_const _), fun i d hd => htan k hk d hd i⟩⟩
    unfold gMifBody setRow
    simp only
    by_cases e : t = s % Nt
    · simp only [e, if_true]
      by_cases hd2 : d < 2
      · simp only [hd2, if_true]
        exact ffin_weighted _ _ _ fun k hk => gMifForce_fin (hasp k hk).2 fun i _ => htan k hk d hd2 i
      · simp only [hd2, if_false]
        exact ffin_weighted _ _ _ fun k hk => (hasp k hk).1
    · simp only [e, if_false]
      exact i1 t d hd

end history

end

end TMD
