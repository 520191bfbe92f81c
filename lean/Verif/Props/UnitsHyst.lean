import Verif.Props.UnitsRough
import Verif.Props.Hysteresis

/-!
# C128: the loop of the hysteretic NumPy forces

`local_force_history` compares a force with the absolute tolerance `atol = 1e-10` and adds `eps` to a force (nonlinear_force.py:497-539).
With these two converted like forces the result is converted like a force. They are constants in the code, so the result depends on the
unit of force.
-/

namespace TMD

open Spec Finset

noncomputable section

/-- Rows of the loop in new units: forces and derivatives with respect to lengths. -/
def rowUnits {ι : Type} (a b : ℝ) (r : ℝ × (ι → ℝ)) : ℝ × (ι → ℝ) := (b * r.1, fun k => b / a * r.2 k)

/-- Two models whose steps agree after conversion. -/
structure SameOps {σ σ' ι : Type} (m : HystOps σ ι) (m' : HystOps σ' ι) (R : σ → σ' → Prop) (a b : ℝ) : Prop where
  init : ∀ z, R (m.init z) (m'.init (a * z))
  fp : ∀ s s', R s s' → m'.fp s' = b * m.fp s
  step : ∀ s s' u c, R s s' → R (m.step s u c).1 (m'.step s' (a * u) c).1 ∧
    ((m'.step s' (a * u) c).2.1, (m'.step s' (a * u) c).2.2) = rowUnits a b ((m.step s u c).2.1, (m.step s u c).2.2)

/-- Loop variables after conversion. -/
structure SameLoop {σ σ' ι : Type} (R : σ → σ' → Prop) (a b : ℝ) (s : LoopSt σ ι) (s' : LoopSt σ' ι) : Prop where
  its : s'.its = s.its
  obj : R s.obj s'.obj
  ft : s'.ft = s.ft.map (rowUnits a b)
  fp : ∀ ft : List (ℝ × (ι → ℝ)), s'.fp.get (ft.map (rowUnits a b)) = b * s.fp.get ft
  aGt : s'.aGt ↔ s.aGt
  rGt : s'.rGt ↔ s.rGt

section loop

variable {σ σ' ι : Type} {m : HystOps σ ι} {m' : HystOps σ' ι} {R : σ → σ' → Prop} {a b : ℝ} (H : SameOps m m' R a b)
include H

theorem onePass_units (rows : List (ℝ × (ι → ℝ))) (s : σ) (s' : σ') (hs : R s s') :
    R (onePass m s rows).1 (onePass m' s' (rows.map fun r => (a * r.1, r.2))).1 ∧
    (onePass m' s' (rows.map fun r => (a * r.1, r.2))).2 = (onePass m s rows).2.map (rowUnits a b) := by
  induction rows generalizing s s' with
  | nil => exact ⟨hs, rfl⟩
  | cons r rows ih =>
    obtain ⟨u, c⟩ := r
    obtain ⟨k1, k2⟩ := H.step s s' u c hs
    obtain ⟨i1, i2⟩ := ih _ _ k1
    refine ⟨i1, ?_⟩
    simp only [List.map_cons, onePass]
    rw [k2, i2]

omit H in
theorem lastForce_units (ft : List (ℝ × (ι → ℝ))) : lastForce (ft.map (rowUnits a b)) = b * lastForce ft := by
  unfold lastForce
  rw [List.getLast?_map]
  cases ft.getLast? <;> simp [rowUnits]

omit H in
theorem npRelGt_units (hb : 0 < b) (x d rtol : ℝ) : npRelGt (b * x) (b * d) rtol ↔ npRelGt x d rtol := by
  unfold npRelGt
  by_cases hd : d = 0
  · simp [hd, hb.ne']
  · rw [if_neg hd, if_neg (mul_ne_zero hb.ne' hd), mul_div_mul_left _ _ hb.ne']

theorem loopBody_units (hb : 0 < b) (rows : List (ℝ × (ι → ℝ))) (atol rtol eps : ℝ) {s : LoopSt σ ι} {s' : LoopSt σ' ι} (h : SameLoop R a b s s') :
    SameLoop R a b (loopBody m rows atol rtol eps s) (loopBody m' (rows.map fun r => (a * r.1, r.2)) (b * atol) rtol (b * eps) s') := by
  obtain ⟨k1, k2⟩ := onePass_units H rows s.obj s'.obj h.obj
  have e : |lastForce (onePass m' s'.obj (rows.map fun r => (a * r.1, r.2))).2 - s'.fp.get (onePass m' s'.obj (rows.map fun r => (a * r.1, r.2))).2|
      = b * |lastForce (onePass m s.obj rows).2 - s.fp.get (onePass m s.obj rows).2| := by
    rw [k2, lastForce_units, h.fp, ← mul_sub, abs_mul, abs_of_pos hb]
  refine ⟨?_, k1, k2, fun ft => lastForce_units ft, ?_, ?_⟩
  · show s'.its + 1 = s.its + 1
    rw [h.its]
  · show |_| > b * atol ↔ |_| > atol
    rw [e]
    exact mul_lt_mul_iff_right₀ hb
  · show npRelGt |_| _ rtol ↔ npRelGt |_| _ rtol
    rw [e, k2, lastForce_units, ← mul_add]
    exact npRelGt_units hb _ _ _

theorem hystLoop_units (hb : 0 < b) (rows : List (ℝ × (ι → ℝ))) (mr : ℕ) (atol rtol eps : ℝ) (n : ℕ) :
    ∀ {s : LoopSt σ ι} {s' : LoopSt σ' ι}, SameLoop R a b s s' → (mr - s.its) + (if s.its = 0 then 1 else 0) = n →
      SameLoop R a b (hystLoop m rows mr atol rtol eps s) (hystLoop m' (rows.map fun r => (a * r.1, r.2)) mr (b * atol) rtol (b * eps) s') := by
  induction n using Nat.strong_induction_on with
  | _ n ih =>
    intro s s' h hn
    rw [hystLoop.eq_def m, hystLoop.eq_def m']
    have hc : (s'.its = 0 ∨ (s'.aGt ∧ s'.rGt ∧ s'.its < mr)) ↔ (s.its = 0 ∨ (s.aGt ∧ s.rGt ∧ s.its < mr)) := by rw [h.its, h.aGt, h.rGt]
    by_cases hs : s.its = 0 ∨ (s.aGt ∧ s.rGt ∧ s.its < mr)
    · rw [if_pos hs, if_pos (hc.2 hs)]
      have e : (loopBody m rows atol rtol eps s).its = s.its + 1 := rfl
      refine ih _ ?_ (loopBody_units H hb rows atol rtol eps h) rfl
      rw [e, if_neg (by omega : ¬ s.its + 1 = 0)]
      rcases hs with hs | ⟨-, -, hs⟩
      · rw [if_pos hs] at hn; omega
      · split at hn <;> omega
    · rw [if_neg hs, if_neg (fun x => hs (hc.1 x))]
      exact h

theorem history_units (hb : 0 < b) (rows : List (ℝ × (ι → ℝ))) (z : ℝ) (mr : ℕ) (atol rtol eps : ℝ) :
    localForceHistory m' (rows.map fun r => (a * r.1, r.2)) (a * z) mr (b * atol) rtol (b * eps)
      = match localForceHistory m rows z mr atol rtol eps with
        | .error e => .error e
        | .ok (ft, its) => .ok (ft.map (rowUnits a b), its) := by
  cases rows with
  | nil => rfl
  | cons r rows =>
    have h0 : SameLoop R a b (ι := ι) { its := 0, obj := m.init z, ft := [], fp := .val (m.fp (m.init z)), aGt := False, rGt := False }
        { its := 0, obj := m'.init (a * z), ft := [], fp := .val (m'.fp (m'.init (a * z))), aGt := False, rGt := False } :=
      ⟨rfl, H.init z, rfl, fun _ => H.fp _ _ (H.init z), Iff.rfl, Iff.rfl⟩
    have h1 := hystLoop_units H hb (r :: rows) mr atol rtol eps _ h0 rfl
    show Except.ok _ = Except.ok _
    rw [← h1.ft, ← h1.its]

end loop

theorem sign_units {b : ℝ} (hb : 0 < b) (x : ℝ) : Real.sign (b * x) = Real.sign x := by
  rcases lt_trichotomy x 0 with h | h | h
  · rw [Real.sign_of_neg h, Real.sign_of_neg (mul_neg_of_pos_of_neg hb h)]
  · rw [h, mul_zero]
  · rw [Real.sign_of_pos h, Real.sign_of_pos (mul_pos hb h)]

/-- The Iwan element in new units: strengths are lengths, weights are stiffnesses. -/
def Iwan.units (a b : ℝ) (w : Iwan) : Iwan :=
  { w with kt := b / a * w.kt, Fs := b * w.Fs, phimax := a * w.phimax, R := b / a ^ (w.chi + 2) * w.R, S := b / a * w.S
           phi := fun k => a * w.phi k, weight := fun k => b / a * w.weight k }

/-- C128: the constructor of the Iwan element converts its derived data. -/
theorem C128_iwan_new {a b : ℝ} (ha : 0 < a) (hb : 0 < b) {kt Fs chi beta alpha : ℝ} (hk : 0 < kt) (hF : 0 < Fs) (hc : -1 < chi) (hbeta : 0 ≤ beta)
    {n : ℕ} (hn : 0 < n) (hal : 1 ≤ alpha) : Iwan.new (b / a * kt) (b * Fs) chi beta n alpha = (Iwan.new kt Fs chi beta n alpha).units a b := by
  have h1 : 0 < beta + (chi + 1) / (chi + 2) := by
    have : 0 < (chi + 1) / (chi + 2) := div_pos (by linarith) (by linarith)
    linarith
  have e1 : iwanPhimax (b / a * kt) (b * Fs) chi beta = a * iwanPhimax kt Fs chi beta := by
    unfold iwanPhimax
    field_simp
  have hpm := iwanPhimax_pos hk hF hc hbeta
  have e2 : iwanR (b / a * kt) (b * Fs) chi beta = b / a ^ (chi + 2) * iwanR kt Fs chi beta := by
    unfold iwanR
    rw [e1, Real.mul_rpow ha.le hpm.le]
    have p1 : a ^ (chi + 2) ≠ 0 := (Real.rpow_pos_of_pos ha _).ne'
    have p2 : iwanPhimax kt Fs chi beta ^ (chi + 2) ≠ 0 := (Real.rpow_pos_of_pos hpm _).ne'
    generalize a ^ (chi + 2) = A at p1
    generalize iwanPhimax kt Fs chi beta ^ (chi + 2) = B at p2
    field_simp
  have e3 : iwanS (b / a * kt) (b * Fs) chi beta = b / a * iwanS kt Fs chi beta := by
    unfold iwanS
    rw [e1]
    field_simp
  have e4 : ∀ k, iwanDelta (a * iwanPhimax kt Fs chi beta) n alpha k = a * iwanDelta (iwanPhimax kt Fs chi beta) n alpha k := fun k => by
    unfold iwanDelta iwanDelta1
    split <;> ring
  have e5 : ∀ k, iwanPhi (a * iwanPhimax kt Fs chi beta) n alpha k = a * iwanPhi (iwanPhimax kt Fs chi beta) n alpha k := fun k => by
    unfold iwanPhi
    split
    · simp only [e4]
      rw [← mul_sum]
      ring
    · rfl
  unfold Iwan.new Iwan.units
  simp only [Iwan.mk.injEq, true_and]
  refine ⟨e1, e2, e3, ?_, ?_⟩
  · rw [e1]
    exact funext e5
  · funext k
    unfold iwanWeight
    split
    · rw [e1, e2, e4, e5, Real.mul_rpow ha.le (iwanPhi_pos hpm hn hal k).le]
      have p1 : a ^ (chi + 2) = a ^ chi * a ^ 2 := by
        rw [Real.rpow_add ha]; norm_num
      have p2 : a ^ chi ≠ 0 := (Real.rpow_pos_of_pos ha _).ne'
      rw [p1]
      generalize a ^ chi = A at p2
      field_simp
    · exact e3

theorem jenkinsOps_units {ι : Type} {a b : ℝ} (ha : 0 < a) (hb : 0 < b) (kt Fs : ℝ) (e0 : ι → ℝ) :
    SameOps (jenkinsOps kt Fs e0) (jenkinsOps (b / a * kt) (b * Fs) e0)
      (fun s s' => s'.up = a * s.up ∧ s'.fp = b * s.fp ∧ s'.dup = s.dup ∧ s'.dfp = fun k => b / a * s.dfp k) a b := by
  have loc : ∀ up fp u, jenkinsLocal (b / a * kt) (b * Fs) (a * up) (b * fp) (a * u)
      = ⟨b * (jenkinsLocal kt Fs up fp u).f, b / a * (jenkinsLocal kt Fs up fp u).dfdu, b / a * (jenkinsLocal kt Fs up fp u).dfdup,
        (jenkinsLocal kt Fs up fp u).dfdfp⟩ := fun up fp u => by
    unfold jenkinsLocal
    rw [show b / a * kt * (a * u - a * up) + b * fp = b * (kt * (u - up) + fp) by field_simp]
    simp only [abs_mul, abs_of_pos hb, gt_iff_lt, mul_lt_mul_iff_right₀ hb, sign_units hb]
    split
    · simp only [SliderOut.mk.injEq, mul_zero, and_true]
      ring
    · simp
  refine ⟨fun z => ⟨rfl, by simp [jenkinsOps], rfl, by simp [jenkinsOps]⟩, fun s s' h => h.2.1, ?_⟩
  rintro s ⟨_, _, _, _⟩ u c ⟨rfl, rfl, rfl, rfl⟩
  have e : ∀ k, b / a * (jenkinsLocal kt Fs s.up s.fp u).dfdu * c k + b / a * (jenkinsLocal kt Fs s.up s.fp u).dfdup * s.dup k
      + (jenkinsLocal kt Fs s.up s.fp u).dfdfp * (b / a * s.dfp k)
      = b / a * ((jenkinsLocal kt Fs s.up s.fp u).dfdu * c k + (jenkinsLocal kt Fs s.up s.fp u).dfdup * s.dup k
        + (jenkinsLocal kt Fs s.up s.fp u).dfdfp * s.dfp k) := fun k => by ring
  refine ⟨⟨rfl, ?_, rfl, ?_⟩, ?_⟩
  · show (jenkinsLocal _ _ _ _ _).f = _
    rw [loc]; rfl
  · show (fun k => (jenkinsLocal _ _ _ _ _).dfdu * _ + _ + _) = _
    rw [loc]
    exact funext e
  · show ((jenkinsLocal _ _ _ _ _).f, fun k => (jenkinsLocal _ _ _ _ _).dfdu * _ + _ + _) = _
    rw [loc]
    exact Prod.ext rfl (funext e)

theorem iwanOps_units {ι : Type} {a b : ℝ} (ha : 0 < a) (w : Iwan) (e0 : ι → ℝ) :
    SameOps (iwanOps w e0) (iwanOps (w.units a b) e0)
      (fun s s' => s'.up = a * s.up ∧ s'.fp = b * s.fp ∧ (s'.fps = fun k => a * s.fps k) ∧ s'.dup = s.dup ∧ s'.dfps = s.dfps) a b := by
  have sl : ∀ p x, iwanSlider (a * p) (a * x) = a * iwanSlider p x := fun p x => by
    unfold iwanSlider
    simp only [abs_mul, abs_of_pos ha, mul_le_mul_iff_right₀ ha, sign_units ha]
    split <;> ring
  have st : ∀ p x, iwanStuck (a * p) (a * x) = iwanStuck p x := fun p x => by
    unfold iwanStuck
    simp only [abs_mul, abs_of_pos ha, mul_le_mul_iff_right₀ ha]
  have ar : ∀ u up f : ℝ, a * u - a * up + a * f = a * (u - up + f) := fun u up f => by ring
  refine ⟨fun z => ⟨rfl, by simp [iwanOps], by simp [iwanOps], rfl, rfl⟩, fun s s' h => h.2.1, ?_⟩
  rintro s ⟨_, _, _, _, _⟩ u c ⟨rfl, rfl, rfl, rfl, rfl⟩
  have f1 : ∑ k ∈ range (w.nSliders + 1), iwanSlider (a * w.phi k) (a * u - a * s.up + a * s.fps k) * (b / a * w.weight k)
      = b * ∑ k ∈ range (w.nSliders + 1), iwanSlider (w.phi k) (u - s.up + s.fps k) * w.weight k := by
    rw [mul_sum]
    exact sum_congr rfl fun k _ => by rw [ar, sl]; field_simp
  refine ⟨⟨rfl, f1, ?_, rfl, ?_⟩, Prod.ext f1 ?_⟩
  · funext k
    show iwanSlider (a * w.phi k) (a * u - a * s.up + a * s.fps k) = a * iwanSlider (w.phi k) (u - s.up + s.fps k)
    rw [ar, sl]
  · funext k i
    show iwanStuck (a * w.phi k) (a * u - a * s.up + a * s.fps k) * _ + iwanStuck (a * w.phi k) (a * u - a * s.up + a * s.fps k) * _ = _
    rw [ar, st]; rfl
  · funext i
    show ∑ k ∈ range (w.nSliders + 1), (iwanStuck (a * w.phi k) (a * u - a * s.up + a * s.fps k) * (c i - s.dup i)
        + iwanStuck (a * w.phi k) (a * u - a * s.up + a * s.fps k) * s.dfps k i) * (b / a * w.weight k)
      = b / a * ∑ k ∈ range (w.nSliders + 1), (iwanStuck (w.phi k) (u - s.up + s.fps k) * (c i - s.dup i)
        + iwanStuck (w.phi k) (u - s.up + s.fps k) * s.dfps k i) * w.weight k
    rw [mul_sum]
    exact sum_congr rfl fun k _ => by rw [ar, st]; ring

/-- C128 (partial): the loop of the NumPy Jenkins and Iwan elements is independent of the units when `atol` and `eps` are converted like
forces. Missing: in the code these are constants, see `C128_violated`. -/
theorem C128_loop_partial {ι : Type} {a b : ℝ} (ha : 0 < a) (hb : 0 < b) (kt Fs : ℝ) (w : Iwan) (e0 : ι → ℝ) (rows : List (ℝ × (ι → ℝ))) (z : ℝ) (mr : ℕ)
    (atol rtol eps : ℝ) :
    (localForceHistory (jenkinsOps (b / a * kt) (b * Fs) e0) (rows.map fun r => (a * r.1, r.2)) (a * z) mr (b * atol) rtol (b * eps)
      = match localForceHistory (jenkinsOps kt Fs e0) rows z mr atol rtol eps with
        | .error e => .error e
        | .ok (ft, its) => .ok (ft.map fun r => (b * r.1, fun k => b / a * r.2 k), its)) ∧
    localForceHistory (iwanOps (w.units a b) e0) (rows.map fun r => (a * r.1, r.2)) (a * z) mr (b * atol) rtol (b * eps)
      = match localForceHistory (iwanOps w e0) rows z mr atol rtol eps with
        | .error e => .error e
        | .ok (ft, its) => .ok (ft.map fun r => (b * r.1, fun k => b / a * r.2 k), its) :=
  ⟨history_units (jenkinsOps_units ha hb kt Fs e0) hb rows z mr atol rtol eps,
   history_units (iwanOps_units ha w e0) hb rows z mr atol rtol eps⟩

/-! ## The witness -/

/-- Displacements `0, 3/2, 0, -3/2`. -/
def sineU : ℕ → ℝ := fun i => [0, 3/2, 0, -(3/2)].getD i 0

theorem sine_samples (j : ℕ) (hj : j < 4) :
    localMotion 1 (fun _ _ => 1) [0, 1] (fun i => if i = 2 then 3/2 else 0) 0 (2 * Real.pi * j / (4:ℕ)) = sineU j := by
  have e : ∀ τ, localMotion 1 (fun _ _ => 1) [0, 1] (fun i => if i = 2 then 3/2 else 0) 0 τ = 3/2 * Real.sin τ := fun τ => by
    simp [localMotion, series]
  rw [e]
  interval_cases j
  · simp [sineU]
  · rw [show (2 * Real.pi * ((1:ℕ):ℝ) / (4:ℕ)) = Real.pi / 2 by push_cast; ring]
    norm_num [sineU]
  · rw [show (2 * Real.pi * ((2:ℕ):ℝ) / (4:ℕ)) = Real.pi by push_cast; ring]
    norm_num [sineU]
  · rw [show (2 * Real.pi * ((3:ℕ):ℝ) / (4:ℕ)) = Real.pi / 2 + Real.pi by push_cast; ring, Real.sin_add_pi]
    norm_num [sineU]

theorem sine_first (c : ℕ → ℕ → ℝ) :
    (cycleRows (jenkinsOps 1 1 unit0) ((List.range 4).map fun i => (sineU i, c i)) 0 ((jenkinsOps 1 1 unit0).init 0)).map Prod.fst
      = [0, 1, -(1/2), -1] := by
  simp only [cycleRows, cycleState, List.range, List.range.loop, List.map, onePass, jenkinsOps, jenkinsStep,
    jenkinsLocal, sineU, List.getD_cons_zero, List.getD_cons_succ]
  norm_num [Real.sign]

theorem sine_second (c : ℕ → ℕ → ℝ) :
    (cycleRows (jenkinsOps 1 1 unit0) ((List.range 4).map fun i => (sineU i, c i)) 1 ((jenkinsOps 1 1 unit0).init 0)).map Prod.fst
      = [1/2, 1, -(1/2), -1] := by
  simp only [cycleRows, cycleState, List.range, List.range.loop, List.map, onePass, jenkinsOps, jenkinsStep,
    jenkinsLocal, sineU, List.getD_cons_zero, List.getD_cons_succ]
  norm_num [Real.sign]

theorem sine_small (c : ℕ → ℕ → ℝ) :
    (cycleRows (jenkinsOps (1/10^11) (1/10^11) unit0) ((List.range 4).map fun i => (sineU i, c i)) 0
      ((jenkinsOps (1/10^11) (1/10^11) unit0).init 0)).map Prod.fst = [0, 1/10^11, -(1/2/10^11), -(1/10^11)] := by
  simp only [cycleRows, cycleState, List.range, List.range.loop, List.map, onePass, jenkinsOps, jenkinsStep,
    jenkinsLocal, sineU, List.getD_cons_zero, List.getD_cons_succ]
  norm_num [Real.sign]

theorem sine_history (eps : ℝ) (h0 : 0 < eps) (h1 : eps < 1/10) (c : ℕ → ℕ → ℝ) :
    (∃ ft its, localForceHistory (jenkinsOps 1 1 unit0) ((List.range 4).map fun i => (sineU i, c i)) 0 2 (1/10^10) (1/10^10) eps = .ok (ft, its) ∧
      ft.map Prod.fst = [1/2, 1, -(1/2), -1]) ∧
    ∃ ft its, localForceHistory (jenkinsOps (1/10^11) (1/10^11) unit0) ((List.range 4).map fun i => (sineU i, c i)) 0 2 (1/10^10) (1/10^10) eps
      = .ok (ft, its) ∧ ft.map Prod.fst = [0, 1/10^11, -(1/2/10^11), -(1/10^11)] := by
  have hr : ((List.range 4).map fun i => (sineU i, c i)) ≠ [] := by simp [List.range, List.range.loop]
  constructor
  · obtain ⟨ft, its, e, i1, i2, e2⟩ := C32_cycle_count (jenkinsOps 1 1 unit0) _ hr 0 2 (1/10^10) (1/10^10) eps
    have hits : its ≠ 1 := by
      rw [Ne, C31_stops_early_iff 1 1 _ _ hr 0 2 le_rfl _ _ _ ft its e, lastForce_eq_getLast, sine_first, not_or, not_not]
      constructor
      · norm_num
      · show npRelGt |(-1:ℝ)| (-1 + eps) _
        unfold npRelGt
        rw [if_neg (by linarith : (-1:ℝ) + eps ≠ 0), abs_neg, abs_one, abs_div, abs_one, abs_of_neg (by linarith), gt_iff_lt, lt_div_iff₀ (by linarith)]
        norm_num
        linarith
    have : its = 2 := by omega
    subst this
    exact ⟨ft, 2, e, by rw [e2]; exact sine_second c⟩
  · obtain ⟨ft, its, e, i1, i2, e2⟩ := C32_cycle_count (jenkinsOps (1/10^11) (1/10^11) unit0) _ hr 0 2 (1/10^10) (1/10^10) eps
    have hits : its = 1 := by
      rw [C31_stops_early_iff _ _ _ _ hr 0 2 le_rfl _ _ _ ft its e]
      left
      rw [lastForce_eq_getLast, sine_small]
      norm_num [List.getLastD]
    subst hits
    exact ⟨ft, 1, e, by rw [e2]; exact sine_small c⟩

/-- C128 is false for the NumPy Jenkins element: displacements `0, 3/2, 0, -3/2` with `kt = Fs = 1` have two cycles and mean force 0. With a
unit of force that is `10¹¹` times larger the loop stops after the first cycle, which is not periodic, and the mean force is not zero. -/
theorem C128_violated (eps : ℝ) (h0 : 0 < eps) (h1 : eps < 1/10) :
    ¬ SameForce (.jenkins 1 (fun _ _ => 1) (fun _ _ => 1) 1 1 eps) (.jenkins 1 (fun _ _ => 1) (fun _ _ => 1) (1/10^11) (1/10^11) eps) 1 1 (1/10^11) 1
      [0, 1] 4 := by
  intro H
  have hA : Admissible [0, 1] := ⟨by simp, by decide, by decide⟩
  have key : ∀ (kt Fs : ℝ) (l : List ℝ), (∀ c : ℕ → ℕ → ℝ, ∃ ft its, localForceHistory (jenkinsOps kt Fs unit0)
        ((List.range 4).map fun i => (sineU i, c i)) 0 2 (1/10^10) (1/10^10) eps = .ok (ft, its) ∧ ft.map Prod.fst = l) →
      ∃ F, (PForce.jenkins 1 (fun _ _ => 1) (fun _ _ => 1) kt Fs eps).aftF (fun i => if i = 2 then 3/2 else 0) 1 [0, 1] 4 = .ok F ∧
        F 0 = (l.getD 0 0 + l.getD 1 0 + l.getD 2 0 + l.getD 3 0) / 4 := by
    intro kt Fs l hl
    obtain ⟨cst, c1, c2⟩ := C24_hysteretic_is_dft [0, 1] hA 4 (by decide) ⟨2, rfl⟩ 1 1 (fun _ _ => 1) (fun _ _ => 1)
      (serialLfh (jenkinsOps kt Fs unit0) eps (1/10^10)) (fun i => if i = 2 then 3/2 else 0) 1
    obtain ⟨ft, its, e1, e2⟩ := hl cst.val
    have e3 : serialLfh (jenkinsOps kt Fs unit0) eps (1/10^10)
        ⟨4, fun j d => localMotion 1 (fun _ _ => 1) [0, 1] (fun i => if i = 2 then 3/2 else 0) d (2 * Real.pi * j / (4:ℕ))⟩
        (fun j d => 1 * deriv (localMotion 1 (fun _ _ => 1) [0, 1] (fun i => if i = 2 then 3/2 else 0) d) (2 * Real.pi * j / (4:ℕ))) cst
        (fun d => ∑ e ∈ range 1, 1 * (if e = 2 then 3/2 else 0))
        = .ok (fun j _ => (ft.getD j (0, fun _ => 0)).1, fun j _ _ k => (ft.getD j (0, fun _ => 0)).2 k) := by
      unfold serialLfh
      have r : ((List.range 4).map fun j : ℕ => (localMotion 1 (fun _ _ => 1) [0, 1] (fun i => if i = 2 then 3/2 else 0) 0 (2 * Real.pi * j / (4:ℕ)), cst.val j))
          = (List.range 4).map fun i => (sineU i, cst.val i) := by
        refine List.map_congr_left fun j hj => ?_
        rw [sine_samples j (List.mem_range.1 hj)]
      have z : ∑ e ∈ range 1, (1:ℝ) * (if e = 2 then 3/2 else 0) = 0 := by simp
      simp only [r, z, e1]
    rw [e3] at c2
    obtain ⟨o, o1, o2⟩ := c2
    refine ⟨o.F, ?_, ?_⟩
    · show aftForce (hystAft 1 1 _ _ (serialLfh (jenkinsOps kt Fs unit0) eps (1/10^10)) _ 1 [0, 1] 4) = _
      rw [o1]; rfl
    · have := congrArg Prod.fst (o2 0 (by norm_num) 0 (by simp))
      simp only [coefOf, if_true, dft, zero_mul, zero_add] at this
      rw [this]
      have g : ∀ j, (ft.getD j (0, fun _ => 0)).1 = l.getD j 0 := fun j => by
        rw [← e2]
        exact (List.getD_map (f := Prod.fst) (l := ft) (d := ((0:ℝ), fun _ : ℕ => (0:ℝ))) (n := j)).symm
      simp only [g, sum_range_succ, sum_range_zero]
      norm_num
  have hs := fun c => sine_history eps h0 h1 c
  obtain ⟨F, f1, f2⟩ := key 1 1 _ fun c => (hs c).1
  obtain ⟨G, g1, g2⟩ := key (1/10^11) (1/10^11) _ fun c => (hs c).2
  have := H.scale (fun i => if i = 2 then 3/2 else 0) 1 F G f1 (by
    rw [show (fun i => (1:ℝ) * if i = 2 then 3/2 else 0) = fun i : ℕ => if i = 2 then (3/2 : ℝ) else 0 by funext i; ring, div_one]
    exact g1) 0 (by simp [numCoeff])
  rw [f2, g2] at this
  norm_num at this

end

end TMD
