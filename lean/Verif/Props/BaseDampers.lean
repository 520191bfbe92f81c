import Verif.Lemmas.BaseDampers

/-!
# C157: base excitation of structures with nonlinear dampers

`hbm_base_res` (vibration_system.py:832-913).
-/

namespace TMD

open Spec Finset

noncomputable section

variable {S : VibSys} {base : ℕ → Bool} {b : ℕ → ℝ} {h : List ℕ} {Nt n : ℕ} {tol : ℝ}

/-- `Uw` solves the equations of `hbm_base_res` for the base motion `Ub`. -/
def BaseSolution (S : VibSys) (Ub : ℕ → ℝ) (base : ℕ → Bool) (h : List ℕ) (Nt : ℕ) (tol : ℝ) (Uw : ℕ → ℝ) : Prop :=
  ∃ R J d, hbmBaseRes S Uw Ub base h Nt tol = .ok (R, J, d) ∧ ∀ k < nFree S.nd (numCoeff h * S.nd) base, R k = 0

theorem sum_nth (p : ℕ → Prop) [DecidablePred p] (g : ℕ → ℝ) (m : ℕ) :
    ∑ l ∈ range (Nat.count p m), g (Nat.nth p l) = ∑ j ∈ range m, if p j then g j else 0 := by
  induction m with
  | zero => simp
  | succ m ih =>
    rw [sum_range_succ, ← ih, Nat.count_succ]
    by_cases hp : p m
    · rw [if_pos hp, if_pos hp, sum_range_succ, Nat.nth_count hp]
    · rw [if_neg hp, if_neg hp, add_zero, add_zero]

theorem free_balance (u : ℕ → ℝ) (w : ℝ) {i : ℕ} (hi : i < numCoeff h * S.nd) :
    balance (freeSys S base b h) h Nt tol u w i =
      if baseMask S.nd (numCoeff h * S.nd) base i then
        ∑ j ∈ range (numCoeff h * S.nd), if baseMask S.nd (numCoeff h * S.nd) base j then
          hsE S.nd (freePart base 0 S.M) (freePart base 1 S.C) (freePart base 1 S.K) w h false i j * u j else 0
      else balance S h Nt tol (onBase S.nd (numCoeff h * S.nd) base b u) w i - balance S h Nt tol (baseOnly S.nd (numCoeff h * S.nd) base b) w i := by
  set L := numCoeff h * S.nd with hL
  have e1 : balance (freeSys S base b h) h Nt tol u w i =
      ∑ j ∈ range L, hsE S.nd (freePart base 0 S.M) (freePart base 1 S.C) (freePart base 1 S.K) w h false i j * u j
        + (S.forces.map fun f => if baseMask S.nd L base i then 0 else
          (aftVal h Nt tol f (onBase S.nd L base b u) w).F i - (aftVal h Nt tol f (baseOnly S.nd L base b) w).F i).sum := by
    unfold balance sumF matVec freeSys
    simp only [List.map_map]
    rfl
  rw [e1]
  by_cases hm : baseMask S.nd L base i
  · simp only [if_pos hm, List.map_const', List.sum_replicate, smul_zero, add_zero]
    refine sum_congr rfl fun j hj => ?_
    rw [freeSys_hsE w hi (mem_range.1 hj), ← hL]
    by_cases hmj : baseMask S.nd L base j <;> simp [hm, hmj]
  · simp only [if_neg hm]
    rw [sum_map_sub]
    unfold balance sumF matVec
    have e2 : ∑ j ∈ range L, hsE S.nd (freePart base 0 S.M) (freePart base 1 S.C) (freePart base 1 S.K) w h false i j * u j
        = ∑ j ∈ range L, hsE S.nd S.M S.C S.K w h false i j * onBase S.nd L base b u j - ∑ j ∈ range L, hsE S.nd S.M S.C S.K w h false i j * baseOnly S.nd L base b j := by
      rw [← sum_sub_distrib]
      refine sum_congr rfl fun j hj => ?_
      rw [freeSys_hsE w hi (mem_range.1 hj), ← hL]
      by_cases hmj : baseMask S.nd L base j <;> simp [hm, hmj, onBase, baseOnly]
    rw [e2]
    ring

/-- The prescribed motion, at its places in the vector of all unknowns. -/
def baseVec (nd L : ℕ) (base : ℕ → Bool) (Ub : ℕ → ℝ) : ℕ → ℝ := fun i => Ub (Nat.count (baseMask nd L base) i)

/-- The free unknowns at their places, zero at the base. -/
def freeVec (nd L : ℕ) (base : ℕ → Bool) (Uw : ℕ → ℝ) : ℕ → ℝ := fun i => if baseMask nd L base i then 0 else Uw (Nat.count (fun i => ¬ baseMask nd L base i) i)

theorem baseFull_eq (nd L : ℕ) (base : ℕ → Bool) (Uw Ub : ℕ → ℝ) : baseFull nd L base Uw Ub = onBase nd L base (baseVec nd L base Ub) (freeVec nd L base Uw) := by
  funext i
  unfold baseFull onBase baseVec freeVec
  split
  · rfl
  · next hm => rfl

theorem baseSolution_iff (hh : Admissible h) (hR : ∀ f ∈ S.forces, Resists S.nd n h Nt tol f) {Ub Uw : ℕ → ℝ} {w : ℝ} (hw : Uw (nFree S.nd (numCoeff h * S.nd) base) = w) :
    BaseSolution S Ub base h Nt tol Uw ↔ ∀ i < numCoeff h * S.nd,
      balance (freeSys S base (baseVec S.nd (numCoeff h * S.nd) base Ub) h) h Nt tol (sl 0 (numCoeff h * S.nd) (freeVec S.nd (numCoeff h * S.nd) base Uw)) w i =
        if baseMask S.nd (numCoeff h * S.nd) base i then 0 else - balance S h Nt tol (baseOnly S.nd (numCoeff h * S.nd) base (baseVec S.nd (numCoeff h * S.nd) base Ub)) w i := by
  set L := numCoeff h * S.nd with hL
  have hLm : ¬ baseMask S.nd L base L := fun hm => lt_irrefl _ hm.1
  have hinf := baseMask_infinite S.nd L base
  have hfull : ∀ i, hbmG S (aftVal h Nt tol) h (baseFull S.nd L base Uw Ub) i = balance S h Nt tol (onBase S.nd L base (baseVec S.nd L base Ub) (sl 0 L (freeVec S.nd L base Uw))) w i := fun i => by
    have e1 : baseFull S.nd L base Uw Ub L = w := by
      rw [← hw]
      simp only [baseFull, if_neg hLm, nFree]
    have e2 : sl 0 L (baseFull S.nd L base Uw Ub) = onBase S.nd L base (baseVec S.nd L base Ub) (sl 0 L (freeVec S.nd L base Uw)) := by rw [baseFull_eq, sl_onBase]
    unfold hbmG
    rw [← hL, e1, e2]
    rfl
  have hmask : ∀ i, baseMask S.nd L base i → ∑ j ∈ range L, (if baseMask S.nd L base j then
      hsE S.nd (freePart base 0 S.M) (freePart base 1 S.C) (freePart base 1 S.K) w h false i j * sl 0 L (freeVec S.nd L base Uw) j else 0) = 0 := fun i _ =>
    sum_eq_zero fun j hj => by
      by_cases hmj : baseMask S.nd L base j
      · rw [if_pos hmj, sl_zero (mem_range.1 hj), freeVec, if_pos hmj, mul_zero]
      · rw [if_neg hmj]
  unfold BaseSolution
  rw [hbmBaseRes_ok S hh Nt tol (aftVal h Nt tol) (fun f hf => (hR f hf).ok) Uw Ub base hL]
  constructor
  · rintro ⟨R, J, d, h1, h2⟩ i hi
    injection h1 with h1
    have h1 := congrArg Prod.fst h1
    simp only at h1
    rw [free_balance _ _ hi, ← hL]
    by_cases hm : baseMask S.nd L base i
    · rw [if_pos hm, if_pos hm, hmask i hm]
    · rw [if_neg hm, if_neg hm]
      have h3 := h2 (Nat.count (fun i => ¬ baseMask S.nd L base i) i) (Nat.count_strict_mono hm hi)
      rw [← h1] at h3
      simp only at h3
      rw [Nat.nth_count (p := fun i => ¬ baseMask S.nd L base i) hm, hfull] at h3
      rw [h3, zero_sub]
  · intro H
    refine ⟨_, _, _, rfl, fun k hk => ?_⟩
    have hlt : Nat.nth (fun i => ¬ baseMask S.nd L base i) k < L := Nat.nth_lt_of_lt_count hk
    have hm : ¬ baseMask S.nd L base (Nat.nth (fun i => ¬ baseMask S.nd L base i) k) := Nat.nth_mem_of_infinite hinf k
    have := H _ hlt
    rw [free_balance _ _ hlt, ← hL, if_neg hm, if_neg hm] at this
    simp only [hfull]
    linarith

theorem freeSys_resists (hR : ∀ f ∈ S.forces, Resists S.nd n h Nt tol f) : ∀ f ∈ (freeSys S base b h).forces, Resists (freeSys S base b h).nd n h Nt tol f := by
  intro f hf
  obtain ⟨g, hg, rfl⟩ := List.mem_map.1 hf
  exact freeForce_resists (hR g hg) base b

/-- C157: at each positive frequency and for each motion of the base there is one and only one response. -/
theorem C157_solution (hh : Admissible h) (hNt : ∀ k ∈ h, 2 * k + 1 < Nt) (heven : Even Nt) (hD : DampedFree S base h) (hS : ∀ f ∈ S.forces, IsDashpot S.nd f)
    (Ub : ℕ → ℝ) {w : ℝ} (hw : 0 < w) :
    ∃ Uw, Uw (nFree S.nd (numCoeff h * S.nd) base) = w ∧ BaseSolution S Ub base h Nt tol Uw ∧
      ∀ Vw, Vw (nFree S.nd (numCoeff h * S.nd) base) = w → BaseSolution S Ub base h Nt tol Vw → ∀ k < nFree S.nd (numCoeff h * S.nd) base, Vw k = Uw k := by
  obtain ⟨n, hn⟩ := exists_bound h
  have hR := fun f hf => dashpot_resists (tol := tol) hh hn hNt heven (hS f hf)
  set L := numCoeff h * S.nd with hL
  set b := baseVec S.nd L base Ub with hb
  have hD' := freeSys_damped (b := b) hD
  have hR' := freeSys_resists (base := base) (b := b) hR
  have hinf := baseMask_infinite S.nd L base
  obtain ⟨u, hu⟩ := balance_onto hh hn hR' hD'.massSymm hD'.stiffSymm hD'.damping hD'.stiffness
    (fun i => if baseMask S.nd L base i then 0 else - balance S h Nt tol (baseOnly S.nd L base b) w i) hw
  have hu : ∀ i < L, balance (freeSys S base b h) h Nt tol (Spec.ext u) w i = if baseMask S.nd L base i then 0 else - balance S h Nt tol (baseOnly S.nd L base b) w i := hu
  set Uw : ℕ → ℝ := fun k => if k < nFree S.nd L base then Spec.ext u (Nat.nth (fun i => ¬ baseMask S.nd L base i) k) else w with hUw
  have hUn : Uw (nFree S.nd L base) = w := by simp [hUw]
  have hfv : ∀ i < L, ¬ baseMask S.nd L base i → sl 0 L (freeVec S.nd L base Uw) i = Spec.ext u i := fun i hi hm => by
    rw [sl_zero hi, freeVec, if_neg hm]
    simp only [hUw]
    have hc : Nat.count (fun i => ¬ baseMask S.nd L base i) i < nFree S.nd L base := Nat.count_strict_mono hm hi
    rw [if_pos hc, Nat.nth_count (p := fun i => ¬ baseMask S.nd L base i) hm]
  have hsol : BaseSolution S Ub base h Nt tol Uw := by
    rw [baseSolution_iff hh hR hUn, ← hL, ← hb]
    intro i hi
    by_cases hm : baseMask S.nd L base i
    · rw [free_balance _ _ hi, ← hL, if_pos hm, if_pos hm]
      refine sum_eq_zero fun j hj => ?_
      by_cases hmj : baseMask S.nd L base j
      · rw [if_pos hmj, sl_zero (mem_range.1 hj), freeVec, if_pos hmj, mul_zero]
      · rw [if_neg hmj]
    · have h1 := hu i hi
      have e : onBase S.nd L base b (sl 0 L (freeVec S.nd L base Uw)) = onBase S.nd L base b (Spec.ext u) := by
        funext j
        unfold onBase
        split
        · rfl
        · next hmj =>
          by_cases hj : j < L
          · exact hfv j hj hmj
          · simp [sl, Spec.ext, hj]
            intro hj'
            exact absurd hj' hj
      rw [free_balance _ _ hi, ← hL, if_neg hm] at h1 ⊢
      rw [e]
      exact h1
  refine ⟨Uw, hUn, hsol, fun Vw hVn hV k hk => ?_⟩
  have h1 := (baseSolution_iff hh hR hUn).1 hsol
  have h2 := (baseSolution_iff hh hR hVn).1 hV
  have h3 := balance_inj hh hn hR' hD'.massSymm hD'.stiffSymm hD'.damping hD'.stiffness hw (fun i hi => (h2 i hi).trans (h1 i hi).symm)
    (Nat.nth (fun i => ¬ baseMask S.nd L base i) k) (Nat.nth_lt_of_lt_count hk)
  have hm : ¬ baseMask S.nd L base (Nat.nth (fun i => ¬ baseMask S.nd L base i) k) := Nat.nth_mem_of_infinite hinf k
  rw [sl_zero (Nat.nth_lt_of_lt_count hk), sl_zero (Nat.nth_lt_of_lt_count hk), freeVec, freeVec, if_neg hm, if_neg hm, Nat.count_nth_of_infinite hinf] at h3
  exact h3

/-- C157: the matrix of derivatives with respect to the free unknowns is regular at every point with a positive frequency. -/
theorem C157_no_fold (hh : Admissible h) (hNt : ∀ k ∈ h, 2 * k + 1 < Nt) (heven : Even Nt) (hD : DampedFree S base h) (hS : ∀ f ∈ S.forces, IsDashpot S.nd f)
    (Ub Uw : ℕ → ℝ) (hw : 0 < Uw (nFree S.nd (numCoeff h * S.nd) base)) :
    ∃ R J d, hbmBaseRes S Uw Ub base h Nt tol = .ok (R, J, d) ∧ Regular (nFree S.nd (numCoeff h * S.nd) base) J := by
  obtain ⟨n, hn⟩ := exists_bound h
  have hR := fun f hf => dashpot_resists (tol := tol) hh hn hNt heven (hS f hf)
  set L := numCoeff h * S.nd with hL
  set b := baseVec S.nd L base Ub with hb
  have hD' := freeSys_damped (b := b) hD
  have hR' := freeSys_resists (base := base) (b := b) hR
  have hinf := baseMask_infinite S.nd L base
  have hLm : ¬ baseMask S.nd L base L := fun hm => lt_irrefl _ hm.1
  refine ⟨_, _, _, hbmBaseRes_ok S hh Nt tol (aftVal h Nt tol) (fun f hf => (hR f hf).ok) Uw Ub base hL, ?_⟩
  intro D hDz k hk
  have e1 : freeVec S.nd L base Uw L = Uw (nFree S.nd L base) := by simp only [freeVec, if_neg hLm, nFree]
  have e2 : baseFull S.nd L base Uw Ub L = Uw (nFree S.nd L base) := by simp only [baseFull, if_neg hLm, nFree]
  have e3 : sl 0 L (baseFull S.nd L base Uw Ub) = onBase S.nd L base b (sl 0 L (freeVec S.nd L base Uw)) := by rw [baseFull_eq, sl_onBase]
  have hJ : ∀ i < L, ∀ j < L, ¬ baseMask S.nd L base j → hbmJ (freeSys S base b h) (aftVal h Nt tol) h (freeVec S.nd L base Uw) i j =
      if baseMask S.nd L base i then 0 else hbmJ S (aftVal h Nt tol) h (baseFull S.nd L base Uw Ub) i j := fun i hi j hj hmj => by
    have h1 : hbmJ (freeSys S base b h) (aftVal h Nt tol) h (freeVec S.nd L base Uw) i j =
        hsE S.nd (freePart base 0 S.M) (freePart base 1 S.C) (freePart base 1 S.K) (freeVec S.nd L base Uw L) h false i j
          + (S.forces.map fun f => if baseMask S.nd L base i ∨ baseMask S.nd L base j then 0 else
            (aftVal h Nt tol f (onBase S.nd L base b (sl 0 L (freeVec S.nd L base Uw))) (freeVec S.nd L base Uw L)).dU i j).sum := by
      unfold hbmJ freeSys
      simp only [List.map_map]
      rfl
    rw [h1, freeSys_hsE _ hi hj, ← hL]
    by_cases hm : baseMask S.nd L base i
    · simp [hm, hmj]
    · simp only [hm, hmj, or_self, if_false, and_self]
      unfold hbmJ
      rw [← hL, e1, e2, e3]
  have hreg := jac_regular hh hn hR' hD'.massSymm hD'.stiffSymm hD'.damping hD'.stiffness (Z := freeVec S.nd L base Uw) (by
    change 0 < freeVec S.nd L base Uw L
    rw [e1]
    exact hw)
  have h0 := hreg (freeVec S.nd L base D) (fun i hi => by
    have hi : i < L := hi
    change ∑ j ∈ range L, hbmJ (freeSys S base b h) (aftVal h Nt tol) h (freeVec S.nd L base Uw) i j * freeVec S.nd L base D j = 0
    by_cases hm : baseMask S.nd L base i
    · refine sum_eq_zero fun j hj => ?_
      by_cases hmj : baseMask S.nd L base j
      · rw [freeVec, if_pos hmj, mul_zero]
      · rw [hJ i hi j (mem_range.1 hj) hmj, if_pos hm, zero_mul]
    · have h2 := hDz (Nat.count (fun i => ¬ baseMask S.nd L base i) i) (Nat.count_strict_mono hm hi)
      simp only [Nat.nth_count (p := fun i => ¬ baseMask S.nd L base i) hm] at h2
      have h3 := sum_nth (fun i => ¬ baseMask S.nd L base i) (fun j => hbmJ S (aftVal h Nt tol) h (baseFull S.nd L base Uw Ub) i j
        * D (Nat.count (fun i => ¬ baseMask S.nd L base i) j)) L
      simp only [Nat.count_nth_of_infinite hinf] at h3
      refine Eq.trans ?_ (h3.symm.trans h2)
      refine sum_congr rfl fun j hj => ?_
      by_cases hmj : baseMask S.nd L base j
      · rw [freeVec, if_pos hmj, mul_zero, if_neg (not_not.2 hmj)]
      · rw [hJ i hi j (mem_range.1 hj) hmj, if_neg hm, freeVec, if_neg hmj, if_pos hmj])
    (Nat.nth (fun i => ¬ baseMask S.nd L base i) k) (Nat.nth_lt_of_lt_count hk)
  have hm : ¬ baseMask S.nd L base (Nat.nth (fun i => ¬ baseMask S.nd L base i) k) := Nat.nth_mem_of_infinite hinf k
  rwa [freeVec, if_neg hm, Nat.count_nth_of_infinite hinf] at h0

/-- A mass on a spring and a damper that stand on a moving base: the force of the damper is `(x' - y') / 10 + (x' - y')³`. -/
def shaken : VibSys := ⟨2, fun d e => if d = e then 1 else 0, fun d e => if d = e then 1 else -1, fun d e => if d = e then 1 / 10 else -1 / 10, none,
  [cubicDampingNL 2 1 (fun _ e => if e = 0 then 1 else -1) (fun e _ => if e = 0 then 1 else -1) fun _ => 1]⟩

theorem shaken_damped (h : List ℕ) : DampedFree shaken (fun d => d == 1) h where
  massSymm d _ e _ := by simp only [shaken, eq_comm]
  stiffSymm d _ e _ := by simp only [shaken, eq_comm]
  damping v hv hv0 := by
    have h1 : v 1 = 0 := hv 1 rfl
    obtain ⟨d, hd, hvd⟩ := hv0
    have h0 : v 0 ≠ 0 := by
      have hd : d < 2 := hd
      interval_cases d
      · exact hvd
      · exact absurd h1 hvd
    have : 0 < v 0 ^ 2 := by positivity
    simp [shaken, sum_range_succ, h1]
    nlinarith
  stiffness _ v hv hK d hd := by
    have h1 : v 1 = 0 := hv 1 rfl
    have h0 := hK 0 (by norm_num [shaken]) rfl
    simp [shaken, sum_range_succ, h1] at h0
    have hd : d < 2 := hd
    interval_cases d
    · exact h0
    · exact h1

/-- Example: the damping matrix is singular, as it must be, but every motion of the base gives one response. -/
example (Ub : ℕ → ℝ) {w tol : ℝ} (hw : 0 < w) : ∃ Uw, Uw 3 = w ∧ BaseSolution shaken Ub (fun d => d == 1) [0, 1] 4 tol Uw ∧
    ∀ Vw, Vw 3 = w → BaseSolution shaken Ub (fun d => d == 1) [0, 1] 4 tol Vw → ∀ k < 3, Vw k = Uw k := by
  have hN : nFree shaken.nd (numCoeff [0, 1] * shaken.nd) (fun d => d == 1) = 3 := by
    change nFree 2 (3 * 2) (fun d => d == 1) = 3
    decide
  have := C157_solution (S := shaken) (base := fun d => d == 1) (h := [0, 1]) (Nt := 4) (tol := tol) ⟨by simp, by simp, by simp⟩ (by simp) (by decide)
    (shaken_damped _) (by
      intro f hf
      simp only [shaken, List.mem_singleton] at hf
      subst hf
      exact C144_cubic 2 1 _ _ (fun _ _ => rfl) fun _ => zero_le_one) Ub hw
  rwa [hN] at this

end

end TMD
