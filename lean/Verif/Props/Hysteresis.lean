import Verif.Lemmas.Slider
import Verif.Props.Jenkins
import Mathlib.Tactic.FieldSimp
import Mathlib.Tactic.NormNum
import Mathlib.Tactic.Positivity

/-!
# Properties C31 - C33, C35: the hysteretic history loop, dissipation, JAX variant
-/

namespace TMD

open Spec

noncomputable section

/-! ## C32 -/

/-- The loop state before the first cycle. -/
def loopInit {σ ι : Type} (m : HystOps σ ι) (unlth0 : ℝ) : LoopSt σ ι :=
  { its := 0, obj := m.init unlth0, ft := [], fp := .val (m.fp (m.init unlth0)),
    aGt := False, rGt := False }

theorem localForceHistory_eq {σ ι : Type} (m : HystOps σ ι) (rows : List (ℝ × (ι → ℝ)))
    (hr : rows ≠ []) (unlth0 : ℝ) (mr : ℕ) (atol rtol eps : ℝ) :
    localForceHistory m rows unlth0 mr atol rtol eps
      = .ok ((hystLoop m rows mr atol rtol eps (loopInit m unlth0)).ft,
          (hystLoop m rows mr atol rtol eps (loopInit m unlth0)).its) := by
  cases rows with
  | nil => exact absurd rfl hr
  | cons a l => rfl

/-- C32, first part: for every hysteretic model the history function runs between one and
`max 1 max_repeats` cycles, and returns the forces of the last cycle run, the history being carried
from cycle to cycle. -/
theorem C32_cycle_count {σ ι : Type} (m : HystOps σ ι) (rows : List (ℝ × (ι → ℝ))) (hr : rows ≠ [])
    (unlth0 : ℝ) (mr : ℕ) (atol rtol eps : ℝ) :
    ∃ ft its, localForceHistory m rows unlth0 mr atol rtol eps = .ok (ft, its) ∧
      1 ≤ its ∧ its ≤ max 1 mr ∧ ft = cycleRows m rows (its - 1) (m.init unlth0) := by
  refine ⟨_, _, localForceHistory_eq m rows hr unlth0 mr atol rtol eps, ?_⟩
  obtain ⟨h1, h2⟩ := hystLoop_inv m rows mr atol rtol eps
    (fun s => s.obj = cycleState m rows s.its (m.init unlth0) ∧ s.its ≤ max 1 mr ∧
      (1 ≤ s.its → s.ft = cycleRows m rows (s.its - 1) (m.init unlth0)))
    (by
      rintro s ⟨ho, hi, hf⟩ hc
      refine ⟨?_, ?_, ?_⟩
      · simp only [loopBody, cycleState]; rw [ho]
      · simp only [loopBody]
        rcases hc with hc | hc
        · rw [hc]; exact le_max_left _ _
        · exact le_trans hc.2.2 (le_max_right _ _)
      · intro _
        simp only [loopBody, cycleRows, Nat.add_sub_cancel]; rw [ho])
    (loopInit m unlth0) ⟨rfl, Nat.zero_le _, by simp [loopInit]⟩
  have : 1 ≤ (hystLoop m rows mr atol rtol eps (loopInit m unlth0)).its := by
    by_contra h
    exact h2 (Or.inl (by omega))
  exact ⟨this, h1.2.1, h1.2.2 this⟩

/-- C32, error branch: an empty series leaves the loop index undefined. -/
theorem C32_empty_series {σ ι : Type} (m : HystOps σ ι) (unlth0 : ℝ) (mr : ℕ) (atol rtol eps : ℝ) :
    localForceHistory m [] unlth0 mr atol rtol eps = .error .name := rfl

/-- C32, second part is false: whatever the model, series, repeat limit and non-negative absolute
tolerance, at most two cycles are ever run. -/
theorem C32_never_more_than_two {σ ι : Type} (m : HystOps σ ι) (rows : List (ℝ × (ι → ℝ)))
    (unlth0 : ℝ) (mr : ℕ) (atol rtol eps : ℝ) (ha : 0 ≤ atol) (ft : List (ℝ × (ι → ℝ))) (its : ℕ)
    (h : localForceHistory m rows unlth0 mr atol rtol eps = .ok (ft, its)) : its ≤ 2 := by
  by_cases hr : rows = []
  · subst hr; simp [localForceHistory] at h
  rw [localForceHistory_eq m rows hr] at h
  simp only [Except.ok.injEq, Prod.mk.injEq] at h
  obtain ⟨h1, _⟩ := hystLoop_inv m rows mr atol rtol eps
    (fun s => s.its = 0 ∨ (s.its = 1 ∧ s.fp = .viewLast) ∨ (s.its = 2 ∧ ¬ s.aGt))
    (by
      rintro s (hs | ⟨hs, hf⟩ | ⟨hs, hf⟩) hc
      · right; left; exact ⟨by simp [loopBody, hs], rfl⟩
      · right; right
        refine ⟨by simp [loopBody, hs], ?_⟩
        simp only [loopBody, hf, FpRef.get, sub_self, abs_zero, not_lt]
        exact ha
      · rcases hc with hc | hc
        · omega
        · exact absurd hc.1 hf)
    (loopInit m unlth0) (Or.inl rfl)
  rw [← h.2]
  rcases h1 with h1 | h1 | h1
  · omega
  · omega
  · omega

/-- A hysteretic model that has not converged after two cycles: the force grows by one per cycle. -/
def driftOps : HystOps ℝ Unit :=
  { init := fun _ => 0, fp := fun s => s, step := fun s _ c => (s + 1, s + 1, c) }

/-- C32, concrete witness: ten cycles are allowed, the force still changes by one from cycle to cycle
with tolerances `1e-10`, yet only two cycles are run. -/
theorem C32_violated (eps : ℝ) (he : 0 < eps) (he1 : eps < 1) :
    ∃ ft, localForceHistory driftOps [((0:ℝ), fun _ : Unit => (0:ℝ))] 0 10 (1/10^10) (1/10^10) eps
        = .ok (ft, 2) ∧
      ∀ n, lastForce (cycleRows driftOps [((0:ℝ), fun _ : Unit => (0:ℝ))] n (driftOps.init 0)) = (n:ℝ) + 1 := by
  refine ⟨(hystLoop driftOps [((0:ℝ), fun _ : Unit => (0:ℝ))] 10 (1/10^10) (1/10^10) eps
    (loopInit driftOps 0)).ft, ?_, ?_⟩
  · rw [localForceHistory_eq _ _ (by simp)]
    congr 2
    rw [hystLoop_start _ _ _ _ _ _ _ (by rfl), hystLoop, if_pos, hystLoop, if_neg]
    · rfl
    · simp only [loopBody, FpRef.get, sub_self, abs_zero, not_or]
      refine ⟨by simp [loopInit], ?_⟩
      rintro ⟨h, _⟩
      norm_num at h
    · right
      refine ⟨?_, ?_, by simp [loopBody, loopInit]⟩
      · simp [loopBody, loopInit, onePass, driftOps, lastForce, FpRef.get]
        norm_num
      · simp only [loopBody, loopInit, onePass, driftOps, lastForce, FpRef.get, npRelGt]
        simp
        intro _
        rw [abs_of_pos (by linarith)]
        rw [lt_inv_comm₀ (by positivity) (by linarith)]
        norm_num
        linarith
  · intro n
    have : ∀ n, cycleState driftOps [((0:ℝ), fun _ : Unit => (0:ℝ))] n (driftOps.init 0) = (n:ℝ) := by
      intro n
      induction n with
      | zero => simp [cycleState, driftOps]
      | succ n ih =>
        simp only [cycleState]
        rw [ih]
        simp [onePass, driftOps]
    unfold cycleRows
    rw [this]
    simp [onePass, driftOps, lastForce]

/-! ## C31 -/

/-- C31 (partial): for the Jenkins element, whenever the loop runs a second cycle the returned forces
are a steady state. Missing: the loop can also stop after one cycle, see `C31_violated`. -/
theorem C31_two_cycle_result_partial {ι : Type} (kt Fs : ℝ) (hF : 0 ≤ Fs) (e0 : ι → ℝ) (N : ℕ)
    (u : ℕ → ℝ) (c : ℕ → ι → ℝ) (unlth0 : ℝ) (mr : ℕ) (atol rtol eps : ℝ)
    (ft : List (ℝ × (ι → ℝ))) (its : ℕ)
    (h : localForceHistory (jenkinsOps kt Fs e0) ((List.range N).map fun i => (u i, c i)) unlth0 mr
      atol rtol eps = .ok (ft, its)) (h2 : 2 ≤ its) :
    SteadyState N kt (fun _ => Fs) u (fun i => (ft.map Prod.fst).getD i 0) := by
  rcases Nat.eq_zero_or_pos N with rfl | hN
  · intro i hi; omega
  have hr : ((List.range N).map fun i => (u i, c i)) ≠ [] := by
    simp; omega
  obtain ⟨ft', its', e, _, _, e2⟩ := C32_cycle_count (jenkinsOps kt Fs e0) _ hr unlth0 mr atol rtol eps
  rw [h] at e
  simp only [Except.ok.injEq, Prod.mk.injEq] at e
  rw [← e.1, ← e.2] at e2
  rw [e2]
  obtain ⟨n, hn⟩ : ∃ n, its - 1 = n + 1 := ⟨its - 2, by omega⟩
  rw [hn, C30_two_cycles kt Fs hF e0 N hN u c]
  exact C30_second_cycle_steady kt Fs hF e0 N hN u c _

/-- C31: exactly when the loop stops after one cycle although two are allowed: the last force of the
first cycle passes the absolute or the relative check against the initial force zero. -/
theorem C31_stops_early_iff {ι : Type} (kt Fs : ℝ) (e0 : ι → ℝ) (rows : List (ℝ × (ι → ℝ)))
    (hr : rows ≠ []) (unlth0 : ℝ) (mr : ℕ) (hmr : 2 ≤ mr) (atol rtol eps : ℝ)
    (ft : List (ℝ × (ι → ℝ))) (its : ℕ)
    (h : localForceHistory (jenkinsOps kt Fs e0) rows unlth0 mr atol rtol eps = .ok (ft, its)) :
    its = 1 ↔ (|lastForce (cycleRows (jenkinsOps kt Fs e0) rows 0 ((jenkinsOps kt Fs e0).init unlth0))| ≤ atol ∨
      ¬ npRelGt |lastForce (cycleRows (jenkinsOps kt Fs e0) rows 0 ((jenkinsOps kt Fs e0).init unlth0))|
        (lastForce (cycleRows (jenkinsOps kt Fs e0) rows 0 ((jenkinsOps kt Fs e0).init unlth0)) + eps) rtol) := by
  rw [localForceHistory_eq _ _ hr] at h
  simp only [Except.ok.injEq, Prod.mk.injEq] at h
  rw [← h.2, hystLoop_start _ _ _ _ _ _ _ rfl]
  have hl : ∀ s : LoopSt (JHist ι) ι, 2 ≤ s.its →
      2 ≤ (hystLoop (jenkinsOps kt Fs e0) rows mr atol rtol eps s).its := by
    intro s hs
    exact (hystLoop_inv (jenkinsOps kt Fs e0) rows mr atol rtol eps (fun s => 2 ≤ s.its)
      (fun s hs _ => by simp only [loopBody]; omega) s hs).1
  rw [hystLoop]
  split
  · rename_i hc
    constructor
    · intro h1
      have := hl (loopBody (jenkinsOps kt Fs e0) rows atol rtol eps
        (loopBody (jenkinsOps kt Fs e0) rows atol rtol eps (loopInit (jenkinsOps kt Fs e0) unlth0))) (by simp [loopBody, loopInit])
      omega
    · intro h1
      exfalso
      rcases hc with hc | ⟨ha, hb, _⟩
      · simp [loopBody] at hc
      · simp only [loopBody, loopInit, FpRef.get, jenkinsOps, sub_zero] at ha hb
        rcases h1 with h1 | h1
        · exact absurd ha (not_lt.2 h1)
        · exact h1 hb
  · rename_i hc
    constructor
    · intro _
      by_contra hcon
      rw [not_or, not_le, not_not] at hcon
      apply hc
      right
      refine ⟨?_, ?_, ?_⟩
      · simpa only [loopBody, loopInit, FpRef.get, jenkinsOps, sub_zero, cycleRows, cycleState] using hcon.1
      · simpa only [loopBody, loopInit, FpRef.get, jenkinsOps, sub_zero, cycleRows, cycleState] using hcon.2
      · simp only [loopBody, loopInit]; omega
    · intro _; rfl

/-- Displacements of the counterexample: zero mean, one sample at rest twice. -/
def earlyStopU : ℕ → ℝ := fun i => [-(9/10), -(9/10), 14/10, 4/10].getD i (0:ℝ)

theorem earlyStop_rows : (cycleRows (jenkinsOps 1 1 (fun _ : Unit => (1:ℝ)))
    ((List.range 4).map fun i => (earlyStopU i, fun _ => (1:ℝ))) 0
      ((jenkinsOps 1 1 (fun _ : Unit => (1:ℝ))).init 0)).map Prod.fst = [-(9/10), -(9/10), 1, 0] := by
  simp only [cycleRows, cycleState, List.range, List.range.loop, List.map, onePass, jenkinsOps, jenkinsStep,
    jenkinsLocal, earlyStopU, List.getD_cons_zero, List.getD_cons_succ]
  norm_num [Real.sign]

theorem lastForce_eq_getLast {ι : Type} (ft : List (ℝ × (ι → ℝ))) :
    lastForce ft = (ft.map Prod.fst).getLastD 0 := by
  unfold lastForce
  rw [List.getLastD_eq_getLast?, List.getLast?_map]

/-- C31 is false: with the default arguments (`max_repeats = 2`, tolerances `1e-10`) and a slider
started at the mean displacement, the loop stops after one cycle and the returned forces
`-0.9, -0.9, 1, 0` are not a steady state (the steady state starts with `-1`). -/
theorem C31_violated (eps : ℝ) :
    ∃ ft, localForceHistory (jenkinsOps 1 1 (fun _ : Unit => (1:ℝ)))
        ((List.range 4).map fun i => (earlyStopU i, fun _ => (1:ℝ))) 0 2 (1/10^10) (1/10^10) eps = .ok (ft, 1) ∧
      ft.map Prod.fst = [-(9/10), -(9/10), 1, 0] ∧
      ¬ SteadyState 4 1 (fun _ => 1) earlyStopU (fun i => (ft.map Prod.fst).getD i 0) := by
  have hr : ((List.range 4).map fun i => (earlyStopU i, fun _ : Unit => (1:ℝ))) ≠ [] := by simp [List.range, List.range.loop]
  obtain ⟨ft, its, e, h1, _, e2⟩ := C32_cycle_count (jenkinsOps 1 1 (fun _ : Unit => (1:ℝ))) _ hr 0 2
    (1/10^10) (1/10^10) eps
  have hits : its = 1 := by
    rw [C31_stops_early_iff 1 1 _ _ hr 0 2 le_rfl _ _ _ ft its e]
    left
    rw [lastForce_eq_getLast, earlyStop_rows]
    norm_num
  subst hits
  refine ⟨ft, e, ?_, ?_⟩
  · rw [e2]; exact earlyStop_rows
  · intro h
    have := h 0 (by norm_num)
    rw [e2, earlyStop_rows] at this
    norm_num [earlyStopU, clip] at this

/-- Non-vacuity of `C31_two_cycle_result_partial`: displacements `1, 0` of a stuck-then-slipping
slider started at the mean run two cycles. -/
theorem twoCycles_run (eps : ℝ) (he : 0 < eps) (he1 : eps < 1/10): ∃ ft, localForceHistory (jenkinsOps 1 (1/4) (fun _ : Unit => (1:ℝ)))
    ((List.range 2).map fun i => (if i = 0 then (1:ℝ) else 0, fun _ => (1:ℝ))) (1/2) 2 (1/10^10) (1/10^10) eps
      = .ok (ft, 2) := by
  have hr : ((List.range 2).map fun i => (if i = 0 then (1:ℝ) else 0, fun _ : Unit => (1:ℝ))) ≠ [] := by simp [List.range, List.range.loop]
  obtain ⟨ft, its, e, h1, h2, e2⟩ := C32_cycle_count (jenkinsOps 1 (1/4) (fun _ : Unit => (1:ℝ))) _ hr (1/2) 2
    (1/10^10) (1/10^10) eps
  have rows0 : (cycleRows (jenkinsOps 1 (1/4) (fun _ : Unit => (1:ℝ)))
    ((List.range 2).map fun i => (if i = 0 then (1:ℝ) else 0, fun _ => (1:ℝ))) 0
      ((jenkinsOps 1 (1/4) (fun _ : Unit => (1:ℝ))).init (1/2))).map Prod.fst = [1/4, -(1/4)] := by
    simp only [cycleRows, cycleState, List.range, List.range.loop, List.map, onePass, jenkinsOps, jenkinsStep,
      jenkinsLocal]
    norm_num [Real.sign]
  have hits : its ≠ 1 := by
    rw [Ne, C31_stops_early_iff 1 (1/4) _ _ hr (1/2) 2 le_rfl _ _ _ ft its e]
    rw [lastForce_eq_getLast, rows0]
    rw [not_or, not_not]
    constructor
    · norm_num
    · unfold npRelGt
      simp only [List.getLastD_cons, List.getLastD_nil]
      rw [if_neg (by linarith), gt_iff_lt, abs_neg, abs_of_pos (by norm_num : (0:ℝ) < 1/4), abs_div,
        abs_of_pos (by norm_num : (0:ℝ) < 1/4), abs_of_neg (by linarith), lt_div_iff₀ (by linarith)]
      norm_num
      linarith
  have : its = 2 := by
    have : max 1 2 = 2 := rfl
    omega
  subst this
  exact ⟨ft, e⟩

example (eps : ℝ) (he : 0 < eps) (he1 : eps < 1/10) : ∃ ft, localForceHistory (jenkinsOps 1 (1/4) (fun _ : Unit => (1:ℝ)))
    ((List.range 2).map fun i => (if i = 0 then (1:ℝ) else 0, fun _ => (1:ℝ))) (1/2) 2 (1/10^10) (1/10^10) eps
      = .ok (ft, 2) := twoCycles_run eps he he1

/-! ## C33 -/

/-- Work done on an element: force after each displacement increment times the increment, starting
at displacement `up`. -/
def workRight (up : ℝ) : List ℝ → List ℝ → ℝ
  | u :: us, f :: fs => f * (u - up) + workRight u us fs
  | _, _ => 0

/-- Work by the trapezoidal rule, starting at displacement `up` with force `fp`. -/
def workTrapz (up fp : ℝ) : List ℝ → List ℝ → ℝ
  | u :: us, f :: fs => (f + fp) / 2 * (u - up) + workTrapz u f us fs
  | _, _ => 0

theorem clip_mul_nonneg {L p : ℝ} (hL : 0 ≤ L) : 0 ≤ clip L p * (p - clip L p) := by
  rcases le_or_gt |p| L with h | h
  · rw [clip_of_le h]; simp
  · rcases lt_abs.1 h with h | h
    · rw [clip_of_ge hL h.le]; exact mul_nonneg hL (by linarith)
    · rw [clip_of_le_neg hL (by linarith)]; nlinarith

theorem clip_trapz_nonneg {L p f : ℝ} (hL : 0 ≤ L) (hf : |f| ≤ L) : 0 ≤ (clip L p + f) * (p - clip L p) := by
  obtain ⟨h1, h2⟩ := abs_le.1 hf
  rcases le_or_gt |p| L with h | h
  · rw [clip_of_le h]; simp
  · rcases lt_abs.1 h with h | h
    · rw [clip_of_ge hL h.le]; exact mul_nonneg (by linarith) (by linarith)
    · rw [clip_of_le_neg hL (by linarith)]; nlinarith

/-- C33: over any history of the code's slider the work done is at least the change of the spring
energy `f²/(2 kt)` (both with the end-of-step force and with the trapezoidal rule). -/
theorem C33_energy_balance {ι : Type} (kt Fs : ℝ) (hk : 0 < kt) (hF : 0 ≤ Fs) (e0 : ι → ℝ)
    (rows : List (ℝ × (ι → ℝ))) (s : JHist ι) :
    ((onePass (jenkinsOps kt Fs e0) s rows).1.fp ^ 2 - s.fp ^ 2) / (2 * kt)
      ≤ workRight s.up (rows.map Prod.fst) ((onePass (jenkinsOps kt Fs e0) s rows).2.map Prod.fst) ∧
    (|s.fp| ≤ Fs → ((onePass (jenkinsOps kt Fs e0) s rows).1.fp ^ 2 - s.fp ^ 2) / (2 * kt)
      ≤ workTrapz s.up s.fp (rows.map Prod.fst) ((onePass (jenkinsOps kt Fs e0) s rows).2.map Prod.fst)) := by
  induction rows generalizing s with
  | nil => simp [onePass, workRight, workTrapz]
  | cons r rest ih =>
    obtain ⟨u, c⟩ := r
    have hf : (jenkinsLocal kt Fs s.up s.fp u).f = clip Fs (kt * (u - s.up) + s.fp) := jenkinsLocal_f hF
    obtain ⟨ih1, ih2⟩ := ih (jenkinsStep kt Fs s u c).1
    simp only [List.map_cons, onePass, jenkinsOps] at ih1 ih2 ⊢
    simp only [workRight, workTrapz]
    simp only [jenkinsStep] at ih1 ih2 ⊢
    rw [hf] at ih1 ih2 ⊢
    set p := kt * (u - s.up) + s.fp with hp
    set f := clip Fs p with hfdef
    set g := (onePass { init := fun unlth0 => ⟨unlth0, 0, e0, fun _ => 0⟩, fp := fun s => s.fp, step := jenkinsStep kt Fs }
      ⟨u, f, c, fun k => (jenkinsLocal kt Fs s.up s.fp u).dfdu * c k + (jenkinsLocal kt Fs s.up s.fp u).dfdup * s.dup k
        + (jenkinsLocal kt Fs s.up s.fp u).dfdfp * s.dfp k⟩ rest).1.fp with hg
    have hdu : u - s.up = (p - s.fp) / kt := by rw [hp]; field_simp; ring
    have split : (g ^ 2 - s.fp ^ 2) / (2 * kt) = (g ^ 2 - f ^ 2) / (2 * kt) + (f ^ 2 - s.fp ^ 2) / (2 * kt) := by ring
    constructor
    · have h1 : (f ^ 2 - s.fp ^ 2) / (2 * kt) ≤ f * (u - s.up) := by
        rw [hdu, div_le_iff₀ (by positivity), show f * ((p - s.fp) / kt) * (2 * kt) = 2 * f * (p - s.fp) by field_simp]
        have := clip_mul_nonneg (p := p) hF
        rw [← hfdef] at this
        nlinarith [sq_nonneg (f - s.fp)]
      rw [split]; linarith
    · intro hs
      have h1 : (f ^ 2 - s.fp ^ 2) / (2 * kt) ≤ (f + s.fp) / 2 * (u - s.up) := by
        rw [hdu, div_le_iff₀ (by positivity), show (f + s.fp) / 2 * ((p - s.fp) / kt) * (2 * kt) = (f + s.fp) * (p - s.fp) by field_simp]
        have := clip_trapz_nonneg (p := p) hF hs
        rw [← hfdef] at this
        nlinarith
      have h2 := ih2 (by rw [hfdef]; exact clip_abs hF _)
      rw [split]; linarith

/-- C33: in every steady-state cycle (the second cycle or later) over a period of displacements the
work done on the slider is non-negative. -/
theorem C33_cycle_dissipates {ι : Type} (kt Fs : ℝ) (hk : 0 < kt) (hF : 0 ≤ Fs) (e0 : ι → ℝ)
    (N : ℕ) (hN : 0 < N) (u : ℕ → ℝ) (c : ℕ → ι → ℝ) (s : JHist ι) (n : ℕ) :
    0 ≤ workRight (u (N-1)) ((List.range N).map u)
      ((cycleRows (jenkinsOps kt Fs e0) ((List.range N).map fun i => (u i, c i)) (n+1) s).map Prod.fst) ∧
    0 ≤ workTrapz (u (N-1)) (((cycleRows (jenkinsOps kt Fs e0) ((List.range N).map fun i => (u i, c i)) (n+1) s).map Prod.fst).getLastD 0)
      ((List.range N).map u)
      ((cycleRows (jenkinsOps kt Fs e0) ((List.range N).map fun i => (u i, c i)) (n+1) s).map Prod.fst) := by
  have hmap : ((List.range N).map fun i => (u i, c i)).map Prod.fst = (List.range N).map u := by
    rw [List.map_map]; rfl
  obtain ⟨_, hu, hf⟩ := cycle_slider (kt := kt) hF e0 u c s N hN n
  obtain ⟨hr', hu', hf'⟩ := cycle_slider (kt := kt) hF e0 u c s N hN (n+1)
  obtain ⟨w1, w2⟩ := C33_energy_balance kt Fs hk hF e0 ((List.range N).map fun i => (u i, c i))
    (cycleState (jenkinsOps kt Fs e0) ((List.range N).map fun i => (u i, c i)) (n+1) s)
  have hper : (cycleState (jenkinsOps kt Fs e0) ((List.range N).map fun i => (u i, c i)) (n+1+1) s).fp
      = (cycleState (jenkinsOps kt Fs e0) ((List.range N).map fun i => (u i, c i)) (n+1) s).fp := by
    rw [hf', hf]
    rw [show (n + 1) * N + (N - 1) = (n * N + (N-1)) + N by ring]
    exact slider_periodic kt N hN (fun _ => Fs) u (fun _ => hF) s.up s.fp _ (by omega)
  have hst : (onePass (jenkinsOps kt Fs e0) (cycleState (jenkinsOps kt Fs e0) ((List.range N).map fun i => (u i, c i)) (n+1) s)
      ((List.range N).map fun i => (u i, c i))).1
      = cycleState (jenkinsOps kt Fs e0) ((List.range N).map fun i => (u i, c i)) (n+1+1) s := rfl
  rw [hst, hper, sub_self, zero_div, hmap, hu] at w1 w2
  refine ⟨w1, ?_⟩
  have hlast : ((cycleRows (jenkinsOps kt Fs e0) ((List.range N).map fun i => (u i, c i)) (n+1) s).map Prod.fst).getLastD 0
      = (cycleState (jenkinsOps kt Fs e0) ((List.range N).map fun i => (u i, c i)) (n+1) s).fp := by
    rw [← hper, hf', hr']
    obtain ⟨M, rfl⟩ : ∃ M, N = M + 1 := ⟨N - 1, by omega⟩
    rw [List.range_succ]; simp
  rw [hlast]
  exact w2 (by rw [hf]; exact slider_abs kt _ _ (fun _ => hF) _ _ _)

/-- Non-vacuity: the cycle `2, 0` with `kt = Fs = 1` dissipates `2` (force 1 over +2, force -1 over
-2 would be the rectangle). -/
example : workRight 0 [2, 0] [(1:ℝ), -1] = 4 := by norm_num [workRight]

/-! ## C35 -/

theorem foriLoop_jax (Nt : ℕ) (u : ℕ → ℝ) (kt Fs : ℝ) (ft : ℕ → ℝ) (n : ℕ)
    (hn : n ≤ Nt) (i : ℕ) :
    foriLoop (jaxJenkinsBody Nt u kt Fs) n ft i
      = if i < n then slider kt (fun _ => Fs) u (u (Nt-1)) (ft (Nt-1)) i else ft i := by
  induction n generalizing i with
  | zero => simp [foriLoop]
  | succ n ih =>
    have ih' := ih (by omega)
    unfold foriLoop at ih' ⊢
    rw [List.range_succ, List.foldl_append]
    simp only [List.foldl_cons, List.foldl_nil, jaxJenkinsBody, setRow]
    by_cases hi : i = n
    · subst hi
      rw [if_pos rfl, if_pos (Nat.lt_succ_self _), ih' (prevIdx Nt i)]
      cases i with
      | zero =>
        simp only [prevIdx, if_true, Nat.not_lt_zero, if_false]
        rw [slider_zero, clip, max_comm]
      | succ i =>
        have : prevIdx Nt (i+1) = i := by simp [prevIdx]
        rw [this, if_pos (Nat.lt_succ_self _), slider_succ, clip, max_comm]
    · rw [if_neg hi, ih' i]
      by_cases h2 : i < n
      · rw [if_pos h2, if_pos (by omega)]
      · rw [if_neg h2, if_neg (by omega)]

/-- C35: the force history computed by the JAX Jenkins element equals, at every instant, the second
cycle of the NumPy element started at rest at the same position. -/
theorem C35_jax_equals_numpy {ι : Type} (kt Fs : ℝ) (hF : 0 ≤ Fs) (e0 : ι → ℝ) (N : ℕ) (hN : 0 < N)
    (u : ℕ → ℝ) (c : ℕ → ι → ℝ) (u0 : ℝ) :
    (List.range N).map (jaxJenkinsHistory N u kt Fs u0)
      = (cycleRows (jenkinsOps kt Fs e0) ((List.range N).map fun i => (u i, c i)) 1
          ((jenkinsOps kt Fs e0).init u0)).map Prod.fst := by
  set s0 := (jenkinsOps kt Fs e0).init u0 with hs0
  obtain ⟨h1, h2, h3⟩ := onePass_range (kt := kt) hF e0 u c s0 N hN
  obtain ⟨k1, _, _⟩ := onePass_range (kt := kt) hF e0 u c
    (onePass (jenkinsOps kt Fs e0) s0 ((List.range N).map fun i => (u i, c i))).1 N hN
  show _ = (onePass (jenkinsOps kt Fs e0) (onePass (jenkinsOps kt Fs e0) s0 _).1 _).2.map Prod.fst
  rw [k1]
  apply List.map_congr_left
  intro i hi
  have hi := List.mem_range.1 hi
  unfold jaxJenkinsHistory
  rw [foriLoop_jax N u kt Fs _ N le_rfl i, if_pos hi,
    foriLoop_jax N u kt Fs _ N le_rfl (N-1), if_pos (by omega), h2, h3]
  congr 1
  refine slider_congr kt (fun _ _ => rfl) (fun _ _ => rfl) ?_
  simp only [setRow, if_true, hs0, jenkinsOps]
  ring

/-- C35: hence the JAX result is a steady state, for every starting position `u0`. -/
theorem C35_jax_steady (kt Fs : ℝ) (hF : 0 ≤ Fs) (N : ℕ) (hN : 0 < N) (u : ℕ → ℝ) (u0 : ℝ) :
    SteadyState N kt (fun _ => Fs) u (jaxJenkinsHistory N u kt Fs u0) := by
  have h := C30_second_cycle_steady kt Fs hF (fun _ : Unit => (0:ℝ)) N hN u (fun _ _ => 0)
    ((jenkinsOps kt Fs (fun _ : Unit => (0:ℝ))).init u0)
  rw [← C35_jax_equals_numpy kt Fs hF _ N hN u _ u0] at h
  intro i hi
  have hget : ∀ i < N, ((List.range N).map (jaxJenkinsHistory N u kt Fs u0)).getD i 0
      = jaxJenkinsHistory N u kt Fs u0 i := by
    intro i hi
    rw [List.getD_eq_getElem?_getD, List.getElem?_map, List.getElem?_range hi]; rfl
  have := h i hi
  beta_reduce at this
  rw [hget i hi, hget _ (Nat.mod_lt _ hN)] at this
  exact this

/-- Non-vacuity: a slider driven over `2, 0` (slip limit 1, started at 0). -/
example : jaxJenkinsHistory 2 (fun i => if i = 0 then 2 else 0) 1 1 0 0 = 1 := by
  norm_num [jaxJenkinsHistory, foriLoop, jaxJenkinsBody, setRow, prevIdx, List.range, List.range.loop]

end

end TMD
