import Verif.Model.ElasticDryFriction
import Verif.Lemmas.Slider
import Mathlib.Tactic.NormNum

/-!
# Properties C39 - C41, C66: elastic dry friction
-/

namespace TMD

open Spec

noncomputable section

/-! ## Shared loop lemma -/

/-- Loop body with tangential columns `T` and normal column `nc d` of each. Both the 2D and the 3D
bodies have this form. -/
def edfBody (T : ℕ → Prop) [DecidablePred T] (nc : ℕ → ℕ) (Nt : ℕ) (u : ℕ → ℕ → ℝ) (kt mu : ℝ)
    (ft : ℕ → ℕ → ℝ) (ind : ℕ) : ℕ → ℕ → ℝ :=
  setRow ft ind (fun d => if T d then
      max (min (kt * (u ind d - u (prevIdx Nt ind) d) + ft (prevIdx Nt ind) d) (mu * ft ind (nc d)))
        (-mu * ft ind (nc d))
    else ft ind d)

theorem edf2Body_eq (Nt : ℕ) (u : ℕ → ℕ → ℝ) (kt mu : ℝ) :
    edf2Body Nt u kt mu = edfBody (fun d => d % 2 = 0) (fun d => d + 1) Nt u kt mu := rfl

theorem edf3Body_eq (Nt : ℕ) (u : ℕ → ℕ → ℝ) (kt mu : ℝ) :
    edf3Body Nt u kt mu = edfBody (fun d => d % 3 ≠ 2) edf3Normal Nt u kt mu := rfl

variable (T : ℕ → Prop) [DecidablePred T] (nc : ℕ → ℕ)

theorem edf_normal (Nt : ℕ) (u : ℕ → ℕ → ℝ) (kt mu : ℝ) (ft : ℕ → ℕ → ℝ) (n t d : ℕ) (hd : ¬ T d) :
    foriLoop (edfBody T nc Nt u kt mu) n ft t d = ft t d := by
  induction n with
  | zero => rfl
  | succ n ih =>
    unfold foriLoop at ih ⊢
    rw [List.range_succ, List.foldl_append]
    simp only [List.foldl_cons, List.foldl_nil, edfBody, setRow]
    by_cases h : t = n
    · subst h; rw [if_pos rfl, if_neg hd]; exact ih
    · rw [if_neg h]; exact ih

theorem edfBody_row (Nt : ℕ) (u : ℕ → ℕ → ℝ) (kt mu : ℝ) (ft : ℕ → ℕ → ℝ) (ind t d : ℕ) :
    edfBody T nc Nt u kt mu ft ind t d = if t = ind then (if T d then
      max (min (kt * (u ind d - u (prevIdx Nt ind) d) + ft (prevIdx Nt ind) d) (mu * ft ind (nc d)))
        (-mu * ft ind (nc d)) else ft ind d) else ft t d := by
  unfold edfBody setRow
  split <;> rfl

theorem edf_tangential (Nt : ℕ) (u : ℕ → ℕ → ℝ) (kt mu : ℝ) (ft : ℕ → ℕ → ℝ) (n : ℕ) (hn : n ≤ Nt) (t d : ℕ)
    (hd : T d) (hnc : ¬ T (nc d)) :
    foriLoop (edfBody T nc Nt u kt mu) n ft t d
      = if t < n then slider kt (fun t => mu * ft t (nc d)) (fun t => u t d) (u (Nt-1) d) (ft (Nt-1) d) t
        else ft t d := by
  induction n generalizing t with
  | zero => simp [foriLoop]
  | succ n ih =>
    have ih' := ih (by omega)
    have hno := edf_normal T nc Nt u kt mu ft n
    unfold foriLoop at ih' hno ⊢
    rw [List.range_succ, List.foldl_append]
    simp only [List.foldl_cons, List.foldl_nil]
    rw [edfBody_row]
    by_cases hi : t = n
    · subst hi
      have hb := hno t (nc d) hnc
      rw [if_pos rfl, if_pos hd, if_pos (Nat.lt_succ_self _)]
      rw [show (List.foldl (edfBody T nc Nt u kt mu) ft (List.range t)) t (nc d) = ft t (nc d) from hb,
        ih' (prevIdx Nt t), neg_mul]
      cases t with
      | zero =>
        simp only [prevIdx, if_true, Nat.not_lt_zero, if_false]
        rw [slider_zero, clip, max_comm]
      | succ i =>
        have : prevIdx Nt (i+1) = i := by simp [prevIdx]
        rw [this, if_pos (Nat.lt_succ_self _), slider_succ, clip, max_comm]
    · rw [if_neg hi, ih' t]
      by_cases h2 : t < n
      · rw [if_pos h2, if_pos (by omega)]
      · rw [if_neg h2, if_neg (by omega)]

/-- Two loops from a start array whose normal columns are `N`: the part `Nt + t` of the slider with
limits `mu N`. -/
theorem edf_two_loops (Nt : ℕ) (hN : 0 < Nt) (u : ℕ → ℕ → ℝ) (kt mu : ℝ) (ft : ℕ → ℕ → ℝ)
    (t d : ℕ) (ht : t < Nt) (hd : T d) (hnc : ¬ T (nc d)) :
    foriLoop (edfBody T nc Nt u kt mu) Nt (foriLoop (edfBody T nc Nt u kt mu) Nt ft) t d
      = slider kt (periodic Nt fun t => mu * ft t (nc d)) (periodic Nt fun t => u t d) (u (Nt-1) d)
          (ft (Nt-1) d) (Nt + t) := by
  rw [edf_tangential T nc Nt u kt mu _ Nt le_rfl t d hd hnc, if_pos ht,
    edf_tangential T nc Nt u kt mu _ Nt le_rfl (Nt-1) d hd hnc, if_pos (by omega)]
  simp only [edf_normal T nc Nt u kt mu _ Nt _ (nc d) hnc]
  obtain ⟨M, rfl⟩ : ∃ M, Nt = M + 1 := ⟨Nt - 1, by omega⟩
  rw [slider_shift]
  simp only [Nat.add_sub_cancel]
  have e : slider kt (fun t => mu * ft t (nc d)) (fun t => u t d) (u M d) (ft M d) M
      = slider kt (periodic (M+1) fun t => mu * ft t (nc d)) (periodic (M+1) fun t => u t d) (u M d) (ft M d) M := by
    refine slider_congr kt (fun i hi => ?_) (fun i hi => ?_) ?_
    · simp [periodic, Nat.mod_eq_of_lt (Nat.lt_succ_of_le hi)]
    · simp [periodic, Nat.mod_eq_of_lt (Nat.lt_succ_of_le hi)]
    · simp [periodic]
  rw [e]
  have e2 : periodic (M+1) (fun t => u t d) M = u M d := by simp [periodic]
  rw [e2]
  have hmod : ∀ i ≤ t, (M + 1 + i) % (M + 1) = i := fun i hi => by
    rw [Nat.add_mod_left, Nat.mod_eq_of_lt (by omega)]
  refine slider_congr kt (fun i hi => ?_) (fun i hi => ?_) ?_
  · simp only [periodic, hmod i hi]
  · simp only [periodic, hmod i hi]
  · simp only [periodic, hmod 0 (Nat.zero_le _)]

theorem edf_abs (Nt : ℕ) (hN : 0 < Nt) (u : ℕ → ℕ → ℝ) (kt mu : ℝ) (ft : ℕ → ℕ → ℝ)
    (t d : ℕ) (ht : t < Nt) (hd : T d) (hnc : ¬ T (nc d)) (hL : ∀ t, 0 ≤ mu * ft t (nc d)) :
    |foriLoop (edfBody T nc Nt u kt mu) Nt (foriLoop (edfBody T nc Nt u kt mu) Nt ft) t d|
      ≤ mu * ft t (nc d) := by
  rw [edf_two_loops T nc Nt hN u kt mu ft t d ht hd hnc]
  have := slider_abs kt (periodic Nt fun t => mu * ft t (nc d)) (periodic Nt fun t => u t d)
    (fun i => hL _) (u (Nt-1) d) (ft (Nt-1) d) (Nt + t)
  refine this.trans (le_of_eq ?_)
  simp only [periodic, Nat.add_mod_left, Nat.mod_eq_of_lt ht]

theorem edf_steady (Nt : ℕ) (hN : 0 < Nt) (u : ℕ → ℕ → ℝ) (kt mu : ℝ) (ft : ℕ → ℕ → ℝ)
    (d : ℕ) (hd : T d) (hnc : ¬ T (nc d)) (hL : ∀ t, 0 ≤ mu * ft t (nc d)) :
    SteadyState Nt kt (fun t => mu * ft t (nc d)) (fun t => u t d)
      (fun t => foriLoop (edfBody T nc Nt u kt mu) Nt (foriLoop (edfBody T nc Nt u kt mu) Nt ft) t d) := by
  intro i hi
  beta_reduce
  rw [edf_two_loops T nc Nt hN u kt mu ft i d hi hd hnc,
    edf_two_loops T nc Nt hN u kt mu ft _ d (Nat.mod_lt _ hN) hd hnc]
  set L : ℕ → ℝ := fun t => mu * ft t (nc d)
  set v : ℕ → ℝ := fun t => u t d
  rcases Nat.eq_zero_or_pos i with rfl | hi0
  · rw [show (0 + Nt - 1) % Nt = Nt - 1 by rw [Nat.zero_add, Nat.mod_eq_of_lt (by omega)]]
    have hper := slider_periodic kt Nt hN L v hL (u (Nt-1) d) (ft (Nt-1) d) (Nt-1) (by omega)
    rw [add_comm Nt (Nt-1), hper]
    obtain ⟨M, rfl⟩ : ∃ M, Nt = M + 1 := ⟨Nt - 1, by omega⟩
    simp only [Nat.add_zero, Nat.add_sub_cancel]
    rw [slider_succ]
    simp [periodic, Nat.mod_eq_of_lt (Nat.lt_succ_self M), L, v]
  · rw [show (i + Nt - 1) % Nt = i - 1 by
      rw [show i + Nt - 1 = (i - 1) + Nt by omega, Nat.add_mod_right, Nat.mod_eq_of_lt (by omega)]]
    rw [show Nt + i = (Nt + (i-1)) + 1 by omega, slider_succ]
    simp only [periodic]
    rw [show Nt + (i-1) + 1 = i + Nt by omega, Nat.add_mod_right, Nat.mod_eq_of_lt hi,
      show Nt + (i-1) = (i-1) + Nt by omega, Nat.add_mod_right, Nat.mod_eq_of_lt (by omega : i - 1 < Nt)]

theorem edf_more_loops (Nt : ℕ) (hN : 0 < Nt) (u : ℕ → ℕ → ℝ) (kt mu : ℝ) (ft : ℕ → ℕ → ℝ)
    (hT : ∀ d, T d → ¬ T (nc d)) (hL : ∀ d, T d → ∀ t, 0 ≤ mu * ft t (nc d)) (m t d : ℕ) (ht : t < Nt) :
    (foriLoop (edfBody T nc Nt u kt mu) Nt)^[m + 2] ft t d
      = (foriLoop (edfBody T nc Nt u kt mu) Nt)^[2] ft t d := by
  induction m generalizing t with
  | zero => rfl
  | succ m ih =>
    rw [show m + 1 + 2 = (m + 2) + 1 by ring, Function.iterate_succ_apply']
    by_cases hd : T d
    · rw [edf_tangential T nc Nt u kt mu _ Nt le_rfl t d hd (hT d hd), if_pos ht]
      have hnorm : ∀ k t, (foriLoop (edfBody T nc Nt u kt mu) Nt)^[k] ft t (nc d) = ft t (nc d) := by
        intro k
        induction k with
        | zero => intro t; rfl
        | succ k ihk =>
          intro t
          rw [Function.iterate_succ_apply', edf_normal T nc Nt u kt mu _ Nt t (nc d) (hT d hd), ihk]
      simp only [hnorm]
      rw [ih (Nt-1) (by omega)]
      have hs := edf_steady T nc Nt hN u kt mu ft d hd (hT d hd) (hL d hd)
      -- the slider restarted from the last force of a steady state reproduces it
      have key : ∀ t < Nt, slider kt (fun t => mu * ft t (nc d)) (fun t => u t d) (u (Nt-1) d)
          ((foriLoop (edfBody T nc Nt u kt mu) Nt)^[2] ft (Nt-1) d) t
          = (foriLoop (edfBody T nc Nt u kt mu) Nt)^[2] ft t d := by
        intro t ht
        induction t with
        | zero =>
          have h0 := hs 0 ht
          beta_reduce at h0
          rw [show (0 + Nt - 1) % Nt = Nt - 1 by rw [Nat.zero_add, Nat.mod_eq_of_lt (by omega)]] at h0
          rw [slider_zero]; exact h0.symm
        | succ t iht =>
          have h0 := hs (t+1) ht
          beta_reduce at h0
          rw [show (t + 1 + Nt - 1) % Nt = t by
            rw [show t + 1 + Nt - 1 = t + Nt by omega, Nat.add_mod_right, Nat.mod_eq_of_lt (by omega)]] at h0
          rw [slider_succ, iht (by omega)]; exact h0.symm
      exact key t ht
    · rw [edf_normal T nc Nt u kt mu _ Nt t d hd, ih t ht]

/-! ## C39 -/

/-- C39 (2D): normal forces are non-negative, zero when out of contact, the spring force in contact;
tangential forces are within `mu` times the simultaneous normal force. -/
theorem C39_coulomb_2d (Nt : ℕ) (u : ℕ → ℕ → ℝ) (kt kn mu gap : ℝ) (u0 : ℕ → ℝ) (hmu : 0 ≤ mu) (hkn : 0 ≤ kn)
    (t e : ℕ) (ht : t < Nt) :
    let ft := edf2History Nt u kt kn mu gap u0
    0 ≤ ft t (2*e+1) ∧ (u t (2*e+1) ≤ gap → ft t (2*e+1) = 0) ∧
      (gap ≤ u t (2*e+1) → ft t (2*e+1) = kn * (u t (2*e+1) - gap)) ∧
      |ft t (2*e)| ≤ mu * ft t (2*e+1) := by
  intro ft
  have hn : ∀ t, ft t (2*e+1) = edfNormal kn gap (u t (2*e+1)) := by
    intro t
    simp only [ft, edf2History, edf2Body_eq]
    rw [edf_normal _ _ _ _ _ _ _ _ _ _ (by omega), edf_normal _ _ _ _ _ _ _ _ _ _ (by omega)]
    simp [edf2Start, Nat.add_mod]
  have hs : ∀ t, edf2Start Nt u kt kn gap u0 t (2*e+1) = edfNormal kn gap (u t (2*e+1)) := by
    intro t; simp [edf2Start, Nat.add_mod]
  refine ⟨?_, ?_, ?_, ?_⟩
  · rw [hn]; exact le_max_right _ _
  · intro h; rw [hn]; exact max_eq_right (mul_nonpos_of_nonpos_of_nonneg (by linarith) hkn)
  · intro h; rw [hn, edfNormal, max_eq_left (mul_nonneg (by linarith) hkn), mul_comm]
  · have h := edf_abs (fun d => d % 2 = 0) (fun d => d + 1) Nt (by omega) u kt mu (edf2Start Nt u kt kn gap u0) t (2*e)
      ht (by omega) (by omega) (fun t => by rw [hs]; exact mul_nonneg hmu (le_max_right _ _))
    rw [hn, ← hs]
    exact h

/-- C39 (3D): the same for both tangential directions separately. -/
theorem C39_coulomb_3d (Nt : ℕ) (u : ℕ → ℕ → ℝ) (kt kn mu gap : ℝ) (u0 : ℕ → ℝ) (hmu : 0 ≤ mu) (hkn : 0 ≤ kn)
    (t e : ℕ) (ht : t < Nt) :
    let ft := edf3History Nt u kt kn mu gap u0
    0 ≤ ft t (3*e+2) ∧ (u t (3*e+2) ≤ gap → ft t (3*e+2) = 0) ∧
      (gap ≤ u t (3*e+2) → ft t (3*e+2) = kn * (u t (3*e+2) - gap)) ∧
      |ft t (3*e)| ≤ mu * ft t (3*e+2) ∧ |ft t (3*e+1)| ≤ mu * ft t (3*e+2) := by
  intro ft
  have hn : ∀ t, ft t (3*e+2) = edfNormal kn gap (u t (3*e+2)) := by
    intro t
    simp only [ft, edf3History, edf3Body_eq]
    rw [edf_normal _ _ _ _ _ _ _ _ _ _ (by omega), edf_normal _ _ _ _ _ _ _ _ _ _ (by omega)]
    simp [edf3Start, Nat.add_mod]
  have hs : ∀ t, edf3Start Nt u kt kn gap u0 t (3*e+2) = edfNormal kn gap (u t (3*e+2)) := by
    intro t; simp [edf3Start, Nat.add_mod]
  have n0 : edf3Normal (3*e) = 3*e+2 := by simp [edf3Normal]
  have n1 : edf3Normal (3*e+1) = 3*e+2 := by simp [edf3Normal, Nat.add_mod]
  refine ⟨?_, ?_, ?_, ?_, ?_⟩
  · rw [hn]; exact le_max_right _ _
  · intro h; rw [hn]; exact max_eq_right (mul_nonpos_of_nonpos_of_nonneg (by linarith) hkn)
  · intro h; rw [hn, edfNormal, max_eq_left (mul_nonneg (by linarith) hkn), mul_comm]
  · have h := edf_abs (fun d => d % 3 ≠ 2) edf3Normal Nt (by omega) u kt mu (edf3Start Nt u kt kn gap u0) t (3*e)
      ht (by omega) (by rw [n0]; omega) (fun t => by rw [n0, hs]; exact mul_nonneg hmu (le_max_right _ _))
    rw [n0] at h
    rw [hn, ← hs]
    exact h
  · have h := edf_abs (fun d => d % 3 ≠ 2) edf3Normal Nt (by omega) u kt mu (edf3Start Nt u kt kn gap u0) t (3*e+1)
      ht (by omega) (by rw [n1]; omega) (fun t => by rw [n1, hs]; exact mul_nonneg hmu (le_max_right _ _))
    rw [n1] at h
    rw [hn, ← hs]
    exact h

/-- Non-vacuity: a contact that opens and slips (`N = 2`, tangential 3 then 0, normal 1 then -1):
the tangential force is at its limit while closed and zero while open. -/
example : let u : ℕ → ℕ → ℝ := fun t d => if t = 0 then (if d = 0 then 3 else 1) else (if d = 0 then 0 else -1)
    edf2History 2 u 1 1 (1/2) 0 (fun _ => 0) 0 0 = 1/2 ∧ edf2History 2 u 1 1 (1/2) 0 (fun _ => 0) 1 0 = 0 := by
  norm_num [edf2History, foriLoop, edf2Body, edf2Start, edfNormal, setRow, prevIdx, List.range, List.range.loop]

/-! ## C40 -/

/-- C40 (2D): the history after the two loops is a steady state of a slider whose limit follows the
normal load, and any further cycles reproduce it exactly. -/
theorem C40_two_cycles_2d (Nt : ℕ) (hN : 0 < Nt) (u : ℕ → ℕ → ℝ) (kt kn mu gap : ℝ) (u0 : ℕ → ℝ) (hmu : 0 ≤ mu) :
    (∀ e, SteadyState Nt kt (fun t => mu * max ((u t (2*e+1) - gap) * kn) 0) (fun t => u t (2*e))
      (fun t => edf2History Nt u kt kn mu gap u0 t (2*e))) ∧
    (∀ m, ∀ t < Nt, ∀ d, (foriLoop (edf2Body Nt u kt mu) Nt)^[m] (edf2History Nt u kt kn mu gap u0) t d
      = edf2History Nt u kt kn mu gap u0 t d) := by
  have hs : ∀ e t, edf2Start Nt u kt kn gap u0 t (2*e+1) = max ((u t (2*e+1) - gap) * kn) 0 := by
    intro e t; simp [edf2Start, edfNormal, Nat.add_mod]
  constructor
  · intro e
    have h := edf_steady (fun d => d % 2 = 0) (fun d => d + 1) Nt hN u kt mu (edf2Start Nt u kt kn gap u0) (2*e)
      (by omega) (by omega) (fun t => by rw [hs]; exact mul_nonneg hmu (le_max_right _ _))
    simp only [hs] at h
    exact h
  · intro m t ht d
    have h := edf_more_loops (fun d => d % 2 = 0) (fun d => d + 1) Nt hN u kt mu (edf2Start Nt u kt kn gap u0)
      (fun d hd => by omega) (fun d hd t => by
        obtain ⟨e, rfl⟩ : ∃ e, d = 2 * e := ⟨d / 2, by omega⟩
        rw [hs]; exact mul_nonneg hmu (le_max_right _ _)) m t d ht
    rw [Function.iterate_add_apply] at h
    exact h

/-- C40 (3D). -/
theorem C40_two_cycles_3d (Nt : ℕ) (hN : 0 < Nt) (u : ℕ → ℕ → ℝ) (kt kn mu gap : ℝ) (u0 : ℕ → ℝ) (hmu : 0 ≤ mu) :
    (∀ e j, j < 2 → SteadyState Nt kt (fun t => mu * max ((u t (3*e+2) - gap) * kn) 0) (fun t => u t (3*e+j))
      (fun t => edf3History Nt u kt kn mu gap u0 t (3*e+j))) ∧
    (∀ m, ∀ t < Nt, ∀ d, (foriLoop (edf3Body Nt u kt mu) Nt)^[m] (edf3History Nt u kt kn mu gap u0) t d
      = edf3History Nt u kt kn mu gap u0 t d) := by
  have hs : ∀ e t, edf3Start Nt u kt kn gap u0 t (3*e+2) = max ((u t (3*e+2) - gap) * kn) 0 := by
    intro e t; simp [edf3Start, edfNormal, Nat.add_mod]
  have hnc : ∀ e j, j < 2 → edf3Normal (3*e+j) = 3*e+2 := by
    intro e j hj
    unfold edf3Normal
    split <;> omega
  constructor
  · intro e j hj
    have h := edf_steady (fun d => d % 3 ≠ 2) edf3Normal Nt hN u kt mu (edf3Start Nt u kt kn gap u0) (3*e+j)
      (by omega) (by rw [hnc e j hj]; omega) (fun t => by rw [hnc e j hj, hs]; exact mul_nonneg hmu (le_max_right _ _))
    simp only [hnc e j hj, hs] at h
    exact h
  · intro m t ht d
    have hd' : ∀ d, d % 3 ≠ 2 → ∃ e j, j < 2 ∧ d = 3 * e + j := fun d hd => ⟨d / 3, d % 3, by omega, by omega⟩
    have h := edf_more_loops (fun d => d % 3 ≠ 2) edf3Normal Nt hN u kt mu (edf3Start Nt u kt kn gap u0)
      (fun d hd => by obtain ⟨e, j, hj, rfl⟩ := hd' d hd; rw [hnc e j hj]; omega) (fun d hd t => by
        obtain ⟨e, j, hj, rfl⟩ := hd' d hd
        rw [hnc e j hj, hs]; exact mul_nonneg hmu (le_max_right _ _)) m t d ht
    rw [Function.iterate_add_apply] at h
    exact h

/-- Non-vacuity: with varying normal load one loop is not enough (`N = 2`, start at 0, normal 1 then 4,
tangential 1/2 then 3): the force at instant 0 changes from the first to the second loop. -/
example : let u : ℕ → ℕ → ℝ := fun t d => if t = 0 then (if d = 0 then 1/2 else 1) else (if d = 0 then 3 else 4)
    foriLoop (edf2Body 2 u 1 (1/2)) 2 (edf2Start 2 u 1 1 0 (fun _ => 0)) 0 0 = 1/2 ∧ edf2History 2 u 1 1 (1/2) 0 (fun _ => 0) 0 0 = -(1/2) := by
  norm_num [edf2History, foriLoop, edf2Body, edf2Start, edfNormal, setRow, prevIdx, List.range, List.range.loop]

/-! ## C41 -/

theorem where_clip {L x : ℝ} :
    (if (if x < L then x else L) > -L then (if x < L then x else L) else -L) = clip L x := by
  have e : (if x < L then x else L) = min x L := by
    split
    · rename_i h; rw [min_eq_left h.le]
    · rename_i h; rw [min_eq_right (not_lt.1 h)]
  rw [e]
  unfold clip
  split
  · rename_i h; rw [max_eq_right h.le]
  · rename_i h; rw [max_eq_left (not_lt.1 h)]

theorem edf2Static_tan (unl up fp : ℕ → ℝ) (kt kn mu gap : ℝ) (e : ℕ) :
    edf2Static unl up fp kt kn mu gap (2*e)
      = clip (mu * edfNormal kn gap (unl (2*e+1))) (kt * (unl (2*e) - up e)) := by
  have h0 : (2 * e) % 2 = 0 := by omega
  have h1 : (2 * e) / 2 = e := by omega
  simp only [edf2Static, h0, if_true, h1]
  rw [← where_clip]
  simp only [neg_mul]

/-- C39, static evaluation in 2D: contact force and Coulomb limit. -/
theorem C39_static_2d (unl up fp : ℕ → ℝ) (kt kn mu gap : ℝ) (hmu : 0 ≤ mu) (hkn : 0 ≤ kn) (e : ℕ) :
    let f := edf2Static unl up fp kt kn mu gap
    0 ≤ f (2*e+1) ∧ (unl (2*e+1) ≤ gap → f (2*e+1) = 0) ∧
      (gap ≤ unl (2*e+1) → f (2*e+1) = kn * (unl (2*e+1) - gap)) ∧ |f (2*e)| ≤ mu * f (2*e+1) := by
  intro f
  have hn : f (2*e+1) = edfNormal kn gap (unl (2*e+1)) := by
    simp only [f, edf2Static, show ¬ (2*e+1) % 2 = 0 by omega, if_false]
  rw [hn]
  refine ⟨le_max_right _ _, fun h => max_eq_right ?_, fun h => ?_, ?_⟩
  · exact mul_nonpos_of_nonpos_of_nonneg (by linarith) hkn
  · unfold edfNormal
    rw [max_eq_left (mul_nonneg (by linarith) hkn)]; ring
  · show |edf2Static unl up fp kt kn mu gap (2*e)| ≤ _
    rw [edf2Static_tan]
    exact clip_abs (mul_nonneg hmu (le_max_right _ _)) _

/-- C39, static evaluation in 3D: contact force and Coulomb limit in each tangential direction. -/
theorem C39_static_3d (unl up fp : ℕ → ℝ) (kt kn mu gap : ℝ) (hmu : 0 ≤ mu) (hkn : 0 ≤ kn) (e j : ℕ) (hj : j < 2) :
    let f := edf3Static unl up fp kt kn mu gap
    0 ≤ f (3*e+2) ∧ (unl (3*e+2) ≤ gap → f (3*e+2) = 0) ∧
      (gap ≤ unl (3*e+2) → f (3*e+2) = kn * (unl (3*e+2) - gap)) ∧ |f (3*e+j)| ≤ mu * f (3*e+2) := by
  intro f
  have hn : f (3*e+2) = edfNormal kn gap (unl (3*e+2)) := by
    simp only [f, edf3Static, show ¬ (3*e+2) % 3 ≠ 2 by omega, if_false]
  have hi : edf3Normal (3*e+j) = 3*e+2 := by unfold edf3Normal; split <;> omega
  rw [hn]
  refine ⟨le_max_right _ _, fun h => max_eq_right ?_, fun h => ?_, ?_⟩
  · exact mul_nonpos_of_nonpos_of_nonneg (by linarith) hkn
  · unfold edfNormal
    rw [max_eq_left (mul_nonneg (by linarith) hkn)]; ring
  · have ht : f (3*e+j) = clip (mu * edfNormal kn gap (unl (3*e+2))) (kt * (unl (3*e+j) - up (2 * ((3*e+j) / 3) + (3*e+j) % 3))) := by
      simp only [f, edf3Static]
      rw [if_pos (show (3*e+j) % 3 ≠ 2 by omega), hi, ← where_clip]
      simp only [neg_mul]
    rw [ht]
    exact clip_abs (mul_nonneg hmu (le_max_right _ _)) _

/-- Sliding contact: normal force 2, friction 1, tangential force limited to 2. -/
example : let f := edf2Static (fun i => if i = 0 then 5 else 2) (fun _ => 0) (fun _ => 0) 1 1 1 0
    |f (2*0)| ≤ 1 * f (2*0+1) ∧ f (2*0+1) = 1 * (2 - 0) := by
  intro f
  have h := C39_static_2d (fun i => if i = 0 then 5 else 2) (fun _ => 0) (fun _ => 0) 1 1 1 0 zero_le_one zero_le_one 0
  exact ⟨h.2.2.2, by simpa using h.2.2.1 (by norm_num)⟩

/-- C41 (partial): the static force continues correctly from a stored state whose tangential force is
zero: it is the slider law from the stored displacement and force. Missing: a stored state with
non-zero tangential force (`C41_violated`). -/
theorem C41_continues_partial (o : Edf2) (unl : ℕ → ℝ) (b : Bool) (e : ℕ) (h0 : o.fp e = 0) :
    (o.force unl b).1 (2*e)
      = clip (o.mu * edfNormal o.kn o.gap (unl (2*e+1))) (o.kt * (unl (2*e) - o.up e) + o.fp e) := by
  unfold Edf2.force
  rw [h0, add_zero]
  exact edf2Static_tan unl o.up o.fp _ _ _ _ _

/-- Evaluations with their update flags. -/
def Edf2.run (o : Edf2) : List ((ℕ → ℝ) × Bool) → Edf2
  | [] => o
  | (x, b) :: rest => Edf2.run (o.force x b).2 rest

/-- C41: what the code does after any history: the tangential force is within the Coulomb limit and is
the limited spring force from the last stored displacement, without the stored force. -/
theorem C41_actual_law (o : Edf2) (ops : List ((ℕ → ℝ) × Bool)) (unl : ℕ → ℝ) (b : Bool) (e : ℕ) :
    (((o.run ops)).force unl b).1 (2*e)
      = clip ((o.run ops).mu * edfNormal (o.run ops).kn (o.run ops).gap (unl (2*e+1)))
          ((o.run ops).kt * (unl (2*e) - (o.run ops).up e)) :=
  edf2Static_tan unl (o.run ops).up (o.run ops).fp _ _ _ _ _

/-- C41 is false at every state: evaluating again at the displacement just stored returns zero
tangential force, whatever force was stored (non-negative friction). -/
theorem C41_restarts_from_zero (o : Edf2) (hmu : 0 ≤ o.mu) (unl : ℕ → ℝ) (b : Bool) (e : ℕ) :
    ((o.force unl true).2.force unl b).1 (2*e) = 0 := by
  unfold Edf2.force
  simp only [if_true]
  rw [edf2Static_tan]
  simp only [sub_self, mul_zero]
  exact clip_of_le (by rw [abs_zero]; exact mul_nonneg hmu (le_max_right _ _))

/-- C41 violated: a concrete object and displacement whose stored tangential force is one. -/
theorem C41_violated : ∃ (o : Edf2) (unl : ℕ → ℝ), o = Edf2.new 1 1 1 0 ∧ (o.force unl true).1 0 = 1 ∧
    (o.force unl true).2.fp 0 = 1 ∧ ((o.force unl true).2.force unl false).1 0 = 0 := by
  refine ⟨Edf2.new 1 1 1 0, fun _ => 1, rfl, ?_, ?_, ?_⟩
  · have := edf2Static_tan (fun _ => 1) (fun _ => 0) (fun _ => 0) 1 1 1 0 0
    simp only [mul_zero] at this
    simp only [Edf2.force, Edf2.new]
    rw [this]; norm_num [clip, edfNormal]
  · have := edf2Static_tan (fun _ => 1) (fun _ => 0) (fun _ => 0) 1 1 1 0 0
    simp only [mul_zero] at this
    simp only [Edf2.force, Edf2.new, if_true, mul_zero]
    rw [this]; norm_num [clip, edfNormal]
  · exact C41_restarts_from_zero _ (by norm_num [Edf2.new]) _ _ 0

/-! ## C66 -/

/-- C66 (partial): with an array `u0` (as set by `set_aft_initialize`) post-processing returns the
force history used inside AFT. Missing: float and `None`, see `C66_violated`. -/
theorem C66_array_partial (Nt : ℕ) (u : ℕ → ℕ → ℝ) (kt kn mu gap : ℝ) (v ulocal0 : ℕ → ℝ) :
    edf2PostHistory Nt u kt kn mu gap (.array v) = .ok (edf2AftHistory Nt u kt kn mu gap (.array v) ulocal0) ∧
    edf2LocalForceHistory Nt u kt kn mu gap (.array v) ulocal0
      = .ok (edf2AftHistory Nt u kt kn mu gap (.array v) ulocal0) ∧
    edf2LocalForceHistory Nt u kt kn mu gap .none ulocal0
      = .ok (edf2AftHistory Nt u kt kn mu gap .none ulocal0) := ⟨rfl, rfl, rfl⟩

/-- C66 violated: with the default float `u0 = 0` the AFT history exists but both post-processing
functions raise, for every input; with `None` the post-processing function raises. -/
theorem C66_violated (Nt : ℕ) (u : ℕ → ℕ → ℝ) (kt kn mu gap : ℝ) (ulocal0 : ℕ → ℝ) (x : ℝ) :
    edf2LocalForceHistory Nt u kt kn mu gap (.scalar x) ulocal0 = .error .index ∧
    edf2PostHistory Nt u kt kn mu gap (.scalar x) = .error .type ∧
    edf2PostHistory Nt u kt kn mu gap .none = .error .type := ⟨rfl, rfl, rfl⟩

end

end TMD
