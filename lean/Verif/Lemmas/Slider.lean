import Verif.Spec.Slider
import Verif.Model.Jenkins
import Mathlib.Tactic.Ring
import Mathlib.Tactic.Linarith
import Mathlib.Data.List.Chain
import Mathlib.Algebra.Order.Group.MinMax
import Mathlib.Algebra.BigOperators.Ring.Finset

/-! # Lemmas on sliders: clamped shifts, cycles -/

namespace TMD

open Spec

noncomputable section

theorem clip_mem {L : ℝ} (hL : 0 ≤ L) (x : ℝ) : -L ≤ clip L x ∧ clip L x ≤ L := by
  unfold clip
  exact ⟨le_max_left _ _, max_le (by linarith) (min_le_right _ _)⟩

theorem clip_abs {L : ℝ} (hL : 0 ≤ L) (x : ℝ) : |clip L x| ≤ L := abs_le.2 (clip_mem hL x)

theorem clip_of_le {L x : ℝ} (h : |x| ≤ L) : clip L x = x := by
  obtain ⟨h1, h2⟩ := abs_le.1 h
  unfold clip
  rw [min_eq_left h2, max_eq_right h1]

theorem clip_of_ge {L x : ℝ} (hL : 0 ≤ L) (h : L ≤ x) : clip L x = L := by
  unfold clip
  rw [min_eq_right h, max_eq_right (by linarith)]

theorem clip_of_le_neg {L x : ℝ} (hL : 0 ≤ L) (h : x ≤ -L) : clip L x = -L := by
  unfold clip
  rw [min_eq_left (by linarith), max_eq_left h]

/-- The slip branch of the code is the clip. -/
theorem sign_mul_eq_clip {L x : ℝ} (hL : 0 ≤ L) (h : |x| > L) : Real.sign x * L = clip L x := by
  rcases lt_trichotomy x 0 with hx | hx | hx
  · rw [abs_of_neg hx] at h
    rw [Real.sign_of_neg hx, clip_of_le_neg hL (by linarith)]; ring
  · subst hx; simp at h; linarith
  · rw [abs_of_pos hx] at h
    rw [Real.sign_of_pos hx, clip_of_ge hL h.le]; ring

theorem jenkinsLocal_f {kt Fs up fp u : ℝ} (hF : 0 ≤ Fs) :
    (jenkinsLocal kt Fs up fp u).f = clip Fs (kt * (u - up) + fp) := by
  unfold jenkinsLocal
  simp only
  split
  · rename_i h; exact sign_mul_eq_clip hF h
  · rename_i h; exact (clip_of_le (not_lt.1 h)).symm

/-! ## Clamped shifts -/

/-- `g` is `x ↦ max lo (min (x + S) hi)` with `lo ≤ hi`. -/
def ClampShift (g : ℝ → ℝ) (S : ℝ) : Prop :=
  ∃ lo hi, lo ≤ hi ∧ ∀ x, g x = max lo (min (x + S) hi)

theorem ClampShift.clip {L : ℝ} (hL : 0 ≤ L) (S : ℝ) : ClampShift (fun x => clip L (S + x)) S :=
  ⟨-L, L, by linarith, fun x => by unfold Spec.clip; rw [add_comm]⟩

theorem ClampShift.comp {g k : ℝ → ℝ} {S S' : ℝ} (hk : ClampShift k S') (hg : ClampShift g S) :
    ClampShift (fun x => k (g x)) (S + S') := by
  obtain ⟨lo, hi, h1, h2⟩ := hg
  obtain ⟨a, b, h3, h4⟩ := hk
  have mono : Monotone k := by
    intro x y hxy
    rw [h4, h4]
    exact max_le_max le_rfl (min_le_min (by linarith) le_rfl)
  refine ⟨k lo, k hi, mono h1, fun x => ?_⟩
  beta_reduce
  rw [h2, mono.map_max, mono.map_min]
  have ha : a ≤ k lo := by rw [h4]; exact le_max_left _ _
  have hb : k hi ≤ b := by rw [h4]; exact max_le h3 (min_le_right _ _)
  have hm := mono h1
  rw [h4 (x + S)]
  rw [show x + S + S' = x + (S + S') by ring]
  set z := x + (S + S')
  rcases le_total z a with hz | hz
  · rw [min_eq_left (by linarith : z ≤ b), max_eq_left hz, min_eq_left (by linarith : a ≤ k hi),
      max_eq_left ha, min_eq_left (by linarith : z ≤ k hi), max_eq_left (by linarith)]
  · rcases le_total z b with hz' | hz'
    · rw [min_eq_left hz', max_eq_right hz]
    · rw [min_eq_right hz', max_eq_right h3, min_eq_right hb, min_eq_right (by linarith)]

/-- A clamped shift with zero net shift is idempotent. -/
theorem ClampShift.idem {g : ℝ → ℝ} (hg : ClampShift g 0) (x : ℝ) : g (g x) = g x := by
  obtain ⟨lo, hi, h1, h2⟩ := hg
  have hlo : lo ≤ g x := by rw [h2]; exact le_max_left _ _
  have hhi : g x ≤ hi := by rw [h2]; exact max_le h1 (min_le_right _ _)
  rw [h2 (g x), add_zero, min_eq_left hhi, max_eq_right hlo]

/-- A sequence following clamped shifts: value at `i + n + 1` from the value at `i`. -/
theorem clampShift_run (φ : ℕ → ℝ → ℝ) (S : ℕ → ℝ) (hφ : ∀ i, ClampShift (φ i) (S i)) (i n : ℕ) :
    ∃ g, ClampShift g (∑ k ∈ Finset.range (n+1), S (i + 1 + k)) ∧
      ∀ G : ℕ → ℝ, (∀ j, G (j+1) = φ (j+1) (G j)) → G (i + (n + 1)) = g (G i) := by
  induction n with
  | zero => exact ⟨φ (i+1), by simpa using hφ (i+1), fun G hG => hG i⟩
  | succ n ih =>
    obtain ⟨g, h1, h2⟩ := ih
    refine ⟨fun x => φ (i + (n+2)) (g x), ?_, ?_⟩
    · have := (hφ (i + (n+2))).comp h1
      rw [Finset.sum_range_succ, show i + 1 + (n + 1) = i + (n+2) by ring]
      exact this
    · intro G hG
      rw [show i + (n + 1 + 1) = (i + (n+1)) + 1 by ring, hG, h2 G hG]

/-- Two cycles suffice: a sequence driven by periodic clamped shifts whose net shift over one
period is zero is periodic from the end of the first period on. -/
theorem two_cycles (φ : ℕ → ℝ → ℝ) (S : ℕ → ℝ) (hφ : ∀ i, ClampShift (φ i) (S i)) (N : ℕ)
    (hN : 0 < N) (hper : ∀ i, φ (i + N) = φ i)
    (hS : ∀ i, ∑ k ∈ Finset.range N, S (i + 1 + k) = 0)
    (G : ℕ → ℝ) (hG : ∀ j, G (j+1) = φ (j+1) (G j)) (i : ℕ) (hi : N ≤ i) : G (i + N) = G i := by
  obtain ⟨n, rfl⟩ : ∃ n, N = n + 1 := ⟨N - 1, by omega⟩
  obtain ⟨j, rfl⟩ : ∃ j, i = j + (n+1) := ⟨i - (n+1), by omega⟩
  obtain ⟨g, h1, h2⟩ := clampShift_run φ S hφ j n
  rw [hS] at h1
  have e1 := h2 G hG
  have e2 := h2 (fun k => G (k + (n+1))) (fun k => by
    have := hG (k + (n+1))
    rw [show k + (n+1) + 1 = k + 1 + (n+1) by ring, hper] at this
    exact this)
  beta_reduce at e2
  rw [e2, e1, h1.idem]

theorem slider_zero (kt : ℝ) (L u : ℕ → ℝ) (up fp : ℝ) :
    slider kt L u up fp 0 = clip (L 0) (kt * (u 0 - up) + fp) := rfl

theorem slider_succ (kt : ℝ) (L u : ℕ → ℝ) (up fp : ℝ) (i : ℕ) :
    slider kt L u up fp (i+1) = clip (L (i+1)) (kt * (u (i+1) - u i) + slider kt L u up fp i) := rfl

theorem slider_abs (kt : ℝ) (L u : ℕ → ℝ) (hL : ∀ i, 0 ≤ L i) (up fp : ℝ) (i : ℕ) :
    |slider kt L u up fp i| ≤ L i := by
  cases i with
  | zero => exact clip_abs (hL 0) _
  | succ i => exact clip_abs (hL (i+1)) _

theorem periodic_add {α : Type} (N : ℕ) (u : ℕ → α) (i : ℕ) : periodic N u (i + N) = periodic N u i := by
  unfold periodic; rw [Nat.add_mod_right]

theorem sum_range_shift_sub (v : ℕ → ℝ) (i N : ℕ) :
    ∑ k ∈ Finset.range N, (v (i + 1 + k) - v (i + k)) = v (i + N) - v i := by
  induction N with
  | zero => simp
  | succ N ih => rw [Finset.sum_range_succ, ih, show i + 1 + N = i + (N+1) by ring]; ring

/-- A slider with constant stiffness and periodic limits under a periodic displacement is periodic
from the last instant of the first cycle on. -/
theorem slider_periodic (kt : ℝ) (N : ℕ) (hN : 0 < N) (L u : ℕ → ℝ) (hL : ∀ i, 0 ≤ L i)
    (up fp : ℝ) (i : ℕ) (hi : N ≤ i + 1) :
    slider kt (periodic N L) (periodic N u) up fp (i + N)
      = slider kt (periodic N L) (periodic N u) up fp i := by
  -- step maps, shifted by one so that the start is the state "after the previous cycle"
  let φ : ℕ → ℝ → ℝ := fun j x =>
    clip (periodic N L (j + N - 1)) (kt * (periodic N u (j + N - 1) - periodic N u (j + N + N - 2)) + x)
  let G : ℕ → ℝ := fun j => match j with
    | 0 => fp + kt * (u (N-1) - up)
    | j + 1 => slider kt (periodic N L) (periodic N u) up fp j
  have hc : ∀ j, periodic N u (j + 1 + N - 1) = periodic N u j := by
    intro j; rw [show j + 1 + N - 1 = j + N by omega, periodic_add]
  have hcL : ∀ j, periodic N L (j + 1 + N - 1) = periodic N L j := by
    intro j; rw [show j + 1 + N - 1 = j + N by omega, periodic_add]
  have key := two_cycles φ (fun j => kt * (periodic N u (j + N - 1) - periodic N u (j + N + N - 2)))
    (fun j => ClampShift.clip (hL _) _) N hN (fun j => by
      funext x
      simp only [φ]
      rw [show j + N + N - 1 = (j + N - 1) + N by omega, periodic_add, periodic_add,
        show j + N + N + N - 2 = (j + N + N - 2) + N by omega, periodic_add])
    (fun j => by
      rw [← Finset.mul_sum]
      have : ∀ k ∈ Finset.range N, (periodic N u (j + 1 + k + N - 1) - periodic N u (j + 1 + k + N + N - 2))
          = periodic N u (j + N - 1 + 1 + k) - periodic N u (j + N - 1 + k) := by
        intro k _
        rw [show j + 1 + k + N + N - 2 = (j + N - 1 + k) + N by omega, periodic_add,
          show j + 1 + k + N - 1 = j + N - 1 + 1 + k by omega]
      rw [Finset.sum_congr rfl this, sum_range_shift_sub, periodic_add]; ring)
    G (fun j => by
      cases j with
      | zero =>
        simp only [G, φ, slider_zero]
        rw [hc, hcL, show 0 + 1 + N + N - 2 = (N - 1) + N by omega, periodic_add]
        simp only [periodic, Nat.zero_mod, Nat.mod_eq_of_lt (show N - 1 < N by omega)]
        congr 1; ring
      | succ j =>
        simp only [G, φ, slider_succ]
        rw [hc, hcL, show j + 1 + 1 + N + N - 2 = (j + N) + N by omega, periodic_add, periodic_add])
    (i+1) hi
  rw [show i + 1 + N = (i + N) + 1 by ring] at key
  exact key

/-- Continuing a slider history: the part after instant `i` is the history started from the state
at instant `i`. -/
theorem slider_shift (kt : ℝ) (L u : ℕ → ℝ) (up fp : ℝ) (i j : ℕ) :
    slider kt L u up fp (i + 1 + j) = slider kt (fun k => L (i + 1 + k)) (fun k => u (i + 1 + k))
      (u i) (slider kt L u up fp i) j := by
  induction j with
  | zero => rfl
  | succ j ih => rw [show i + 1 + (j+1) = (i + 1 + j) + 1 by ring, slider_succ, ih]; rfl

theorem slider_congr (kt : ℝ) {L L' u u' : ℕ → ℝ} {up fp up' fp' : ℝ} {n : ℕ}
    (hL : ∀ i ≤ n, L i = L' i) (hu : ∀ i ≤ n, u i = u' i)
    (h0 : kt * (u 0 - up) + fp = kt * (u' 0 - up') + fp') :
    slider kt L u up fp n = slider kt L' u' up' fp' n := by
  induction n with
  | zero => rw [slider_zero, slider_zero, hL 0 le_rfl, h0]
  | succ n ih =>
    rw [slider_succ, slider_succ, ih (fun i hi => hL i (by omega)) (fun i hi => hu i (by omega)),
      hL _ le_rfl, hu _ le_rfl, hu n (by omega)]

/-! ## The time loop of the code -/

/-- One cycle of the code over an index list `l` when consecutive indices are related by the
slider law. -/
theorem onePass_chain {ι : Type} {kt Fs : ℝ} (hF : 0 ≤ Fs) (e0 : ι → ℝ) (u : ℕ → ℝ)
    (c : ℕ → ι → ℝ) (G : ℕ → ℝ) (l : List ℕ) (s : JHist ι)
    (hhead : ∀ a ∈ l.head?, G a = clip Fs (kt * (u a - s.up) + s.fp))
    (hch : l.IsChain (fun a b => G b = clip Fs (kt * (u b - u a) + G a))) :
    (onePass (jenkinsOps kt Fs e0) s (l.map fun i => (u i, c i))).2.map Prod.fst = l.map G ∧
    ∀ b ∈ l.getLast?, (onePass (jenkinsOps kt Fs e0) s (l.map fun i => (u i, c i))).1.up = u b ∧
      (onePass (jenkinsOps kt Fs e0) s (l.map fun i => (u i, c i))).1.fp = G b := by
  induction l generalizing s with
  | nil => simp [onePass]
  | cons a l ih =>
    have ha : (jenkinsLocal kt Fs s.up s.fp (u a)).f = G a := by
      rw [jenkinsLocal_f hF, hhead a (by simp)]
    obtain ⟨h1, h2⟩ := ih (jenkinsStep kt Fs s (u a) (c a)).1 (by
        intro b hb
        cases l with
        | nil => simp at hb
        | cons b' l =>
          simp only [List.head?_cons, Option.mem_some] at hb
          subst hb
          rw [List.isChain_cons_cons] at hch
          simp only [jenkinsStep]
          rw [ha]; exact hch.1) (by
        cases l with
        | nil => simp
        | cons b' l => rw [List.isChain_cons_cons] at hch; exact hch.2)
    constructor
    · simp only [List.map_cons, onePass, jenkinsOps]
      congr 1
    · intro b hb
      cases l with
      | nil =>
        simp only [List.getLast?_singleton, Option.mem_some] at hb
        subst hb
        simp only [List.map_cons, List.map_nil, onePass, jenkinsOps, jenkinsStep]
        exact ⟨trivial, ha⟩
      | cons b' l =>
        rw [List.getLast?_cons_cons] at hb
        exact h2 b hb

theorem range_isChain {R : ℕ → ℕ → Prop} (hR : ∀ i, R i (i+1)) (n : ℕ) : (List.range n).IsChain R := by
  rw [List.isChain_iff_getElem]
  intro i hi
  simp only [List.getElem_range]
  exact hR i

/-- One cycle of the code over a full displacement series is the slider specification. -/
theorem onePass_range {ι : Type} {kt Fs : ℝ} (hF : 0 ≤ Fs) (e0 : ι → ℝ) (u : ℕ → ℝ)
    (c : ℕ → ι → ℝ) (s : JHist ι) (N : ℕ) (hN : 0 < N) :
    (onePass (jenkinsOps kt Fs e0) s ((List.range N).map fun i => (u i, c i))).2.map Prod.fst
      = (List.range N).map (slider kt (fun _ => Fs) u s.up s.fp) ∧
    (onePass (jenkinsOps kt Fs e0) s ((List.range N).map fun i => (u i, c i))).1.up = u (N-1) ∧
    (onePass (jenkinsOps kt Fs e0) s ((List.range N).map fun i => (u i, c i))).1.fp
      = slider kt (fun _ => Fs) u s.up s.fp (N-1) := by
  obtain ⟨h1, h2⟩ := onePass_chain hF e0 u c (slider kt (fun _ => Fs) u s.up s.fp) (List.range N) s
    (by
      intro a ha
      obtain ⟨n, rfl⟩ : ∃ n, N = n + 1 := ⟨N - 1, by omega⟩
      rw [List.range_succ_eq_map] at ha
      simp at ha; subst ha; rfl)
    (range_isChain (R := fun a b => slider kt (fun _ => Fs) u s.up s.fp b
      = clip Fs (kt * (u b - u a) + slider kt (fun _ => Fs) u s.up s.fp a)) (fun i => rfl) N)
  refine ⟨h1, h2 (N-1) ?_⟩
  obtain ⟨n, rfl⟩ : ∃ n, N = n + 1 := ⟨N - 1, by omega⟩
  rw [List.range_succ]; simp

theorem slider_const_periodic (kt Fs : ℝ) (u : ℕ → ℝ) (N : ℕ) (up fp : ℝ) :
    slider kt (periodic N fun _ => Fs) u up fp = slider kt (fun _ => Fs) u up fp := rfl

/-- Cycle `n` of the code over one period of `N` displacements is the part `n*N ≤ i < (n+1)*N` of
the slider driven by the periodic displacement. -/
theorem cycle_slider {ι : Type} {kt Fs : ℝ} (hF : 0 ≤ Fs) (e0 : ι → ℝ) (u : ℕ → ℝ)
    (c : ℕ → ι → ℝ) (s : JHist ι) (N : ℕ) (hN : 0 < N) (n : ℕ) :
    (cycleRows (jenkinsOps kt Fs e0) ((List.range N).map fun i => (u i, c i)) n s).map Prod.fst
      = (List.range N).map (fun i => slider kt (fun _ => Fs) (periodic N u) s.up s.fp (n * N + i)) ∧
    (cycleState (jenkinsOps kt Fs e0) ((List.range N).map fun i => (u i, c i)) (n+1) s).up = u (N-1) ∧
    (cycleState (jenkinsOps kt Fs e0) ((List.range N).map fun i => (u i, c i)) (n+1) s).fp
      = slider kt (fun _ => Fs) (periodic N u) s.up s.fp (n * N + (N-1)) := by
  induction n with
  | zero =>
    have hp : ∀ i < N, slider kt (fun _ => Fs) (periodic N u) s.up s.fp i
        = slider kt (fun _ => Fs) u s.up s.fp i := by
      intro i hi
      refine slider_congr kt (fun _ _ => rfl) (fun k hk => ?_) ?_
      · unfold periodic; rw [Nat.mod_eq_of_lt (by omega)]
      · unfold periodic; rw [Nat.zero_mod]
    obtain ⟨h1, h2, h3⟩ := onePass_range (kt := kt) hF e0 u c s N hN
    refine ⟨?_, h2, ?_⟩
    · unfold cycleRows cycleState
      rw [h1]
      apply List.map_congr_left
      intro i hi
      rw [Nat.zero_mul, Nat.zero_add, hp i (List.mem_range.1 hi)]
    · simp only [cycleState]
      rw [h3, Nat.zero_mul, Nat.zero_add, hp _ (by omega)]
  | succ n ih =>
    obtain ⟨_, ihu, ihf⟩ := ih
    have hp : ∀ i < N, slider kt (fun _ => Fs) (periodic N u) s.up s.fp ((n+1) * N + i)
        = slider kt (fun _ => Fs) u
          (cycleState (jenkinsOps kt Fs e0) ((List.range N).map fun i => (u i, c i)) (n+1) s).up
          (cycleState (jenkinsOps kt Fs e0) ((List.range N).map fun i => (u i, c i)) (n+1) s).fp i := by
      intro i hi
      rw [ihu, ihf, show (n+1) * N + i = (n * N + (N-1)) + 1 + i by
        rw [Nat.succ_mul]; omega, slider_shift]
      have e : ∀ k, n * N + (N - 1) + 1 + k = k + N * (n+1) := by
        intro k; rw [Nat.mul_succ, Nat.mul_comm N n]; omega
      refine slider_congr kt (fun _ _ => rfl) (fun k hk => ?_) ?_
      · unfold periodic; rw [e, Nat.add_mul_mod_self_left, Nat.mod_eq_of_lt (by omega)]
      · unfold periodic
        rw [e, Nat.add_mul_mod_self_left, Nat.zero_mod, Nat.mul_comm n N, Nat.mul_add_mod,
          Nat.mod_eq_of_lt (by omega)]
    obtain ⟨h1, h2, h3⟩ := onePass_range (kt := kt) hF e0 u c
      (cycleState (jenkinsOps kt Fs e0) ((List.range N).map fun i => (u i, c i)) (n+1) s) N hN
    refine ⟨?_, h2, ?_⟩
    · unfold cycleRows
      rw [h1]
      apply List.map_congr_left
      intro i hi
      rw [hp i (List.mem_range.1 hi)]
    · show (onePass _ (cycleState _ _ (n+1) s) _).1.fp = _
      rw [h3, hp _ (by omega)]

/-! ## The while loop -/

theorem hystLoop_start {σ ι : Type} (m : HystOps σ ι) (rows : List (ℝ × (ι → ℝ))) (mr : ℕ)
    (atol rtol eps : ℝ) (s : LoopSt σ ι) (h : s.its = 0) :
    hystLoop m rows mr atol rtol eps s
      = hystLoop m rows mr atol rtol eps (loopBody m rows atol rtol eps s) := by
  rw [hystLoop, if_pos (Or.inl h)]

/-- Invariant rule for the while loop of `local_force_history`. -/
theorem hystLoop_inv {σ ι : Type} (m : HystOps σ ι) (rows : List (ℝ × (ι → ℝ))) (mr : ℕ)
    (atol rtol eps : ℝ) (P : LoopSt σ ι → Prop)
    (hstep : ∀ s, P s → (s.its = 0 ∨ (s.aGt ∧ s.rGt ∧ s.its < mr)) →
      P (loopBody m rows atol rtol eps s)) (s : LoopSt σ ι) (hs : P s) :
    P (hystLoop m rows mr atol rtol eps s) ∧
      ¬ ((hystLoop m rows mr atol rtol eps s).its = 0 ∨
        ((hystLoop m rows mr atol rtol eps s).aGt ∧ (hystLoop m rows mr atol rtol eps s).rGt ∧
          (hystLoop m rows mr atol rtol eps s).its < mr)) := by
  induction s using hystLoop.induct (maxRepeats := mr) (m := m) (rows := rows) (atol := atol) (rtol := rtol)
    (eps := eps) with
  | case1 s h ih =>
    rw [hystLoop, if_pos h]
    exact ih (hstep s hs h)
  | case2 s h =>
    rw [hystLoop, if_neg h]
    exact ⟨hs, h⟩

end

end TMD
