import Verif.Lemmas.DashpotEnergy
import Mathlib.Analysis.Calculus.InverseFunctionTheorem.FDeriv
import Mathlib.Analysis.Calculus.ContDiff.RCLike

/-!
# The harmonic balance equations of a damped system with velocity dependent forces
-/

namespace TMD

open Spec Finset

noncomputable section

/-- The call of a force object returns numbers with true, continuous derivatives at positive frequencies. -/
structure SmoothAft (nd : ℕ) (h : List ℕ) (Nt : ℕ) (tol : ℝ) (f : NLForce) : Prop where
  ok : ∀ U w, f.aft U w h Nt tol = .ok (aftVal h Nt tol f U w)
  grad : ∀ Z : ℕ → ℝ, 0 < Z (numCoeff h * nd) → JointTrue (aftVal h Nt tol f) (numCoeff h * nd) Z
  contU : ∀ i < numCoeff h * nd, ∀ j < numCoeff h * nd, ContinuousOn (fun v : Fin (numCoeff h * nd + 1) → ℝ =>
    (aftVal h Nt tol f (sl 0 (numCoeff h * nd) (Spec.ext v)) (Spec.ext v (numCoeff h * nd))).dU i j) {v | 0 < v (Fin.last _)}
  contw : ∀ i < numCoeff h * nd, ContinuousOn (fun v : Fin (numCoeff h * nd + 1) → ℝ =>
    (aftVal h Nt tol f (sl 0 (numCoeff h * nd) (Spec.ext v)) (Spec.ext v (numCoeff h * nd))).dw i) {v | 0 < v (Fin.last _)}

/-- What is used of a force object that resists the velocities: its call returns numbers with true, continuous derivatives at positive
frequencies; the work of the difference of two of its forces along the difference of the motions is not negative; the force depends on the
oscillating part of the motion only, is bounded where this is bounded, and vanishes at rest. -/
structure Resists (nd n : ℕ) (h : List ℕ) (Nt : ℕ) (tol : ℝ) (f : NLForce) : Prop where
  ok : ∀ U w, f.aft U w h Nt tol = .ok (aftVal h Nt tol f U w)
  grad : ∀ Z : ℕ → ℝ, 0 < Z (numCoeff h * nd) → JointTrue (aftVal h Nt tol f) (numCoeff h * nd) Z
  contU : ∀ i < numCoeff h * nd, ∀ j < numCoeff h * nd, ContinuousOn (fun v : Fin (numCoeff h * nd + 1) → ℝ =>
    (aftVal h Nt tol f (sl 0 (numCoeff h * nd) (Spec.ext v)) (Spec.ext v (numCoeff h * nd))).dU i j) {v | 0 < v (Fin.last _)}
  contw : ∀ i < numCoeff h * nd, ContinuousOn (fun v : Fin (numCoeff h * nd + 1) → ℝ =>
    (aftVal h Nt tol f (sl 0 (numCoeff h * nd) (Spec.ext v)) (Spec.ext v (numCoeff h * nd))).dw i) {v | 0 < v (Fin.last _)}
  mono : ∀ (U V : ℕ → ℝ) (w : ℝ), 0 < w → 0 ≤ periodWork nd w (velocityOf nd h (fun i => U i - V i) w)
    (periodicOf nd h (fun i => (aftVal h Nt tol f U w).F i - (aftVal h Nt tol f V w).F i) w)
  same : ∀ (U V : ℕ → ℝ) (w : ℝ), 0 < w → oscSize nd n h (fun i => U i - V i) = 0 → ∀ i < numCoeff h * nd, (aftVal h Nt tol f U w).F i = (aftVal h Nt tol f V w).F i
  bdd : ∀ a > 0, ∀ b B : ℝ, ∃ B', ∀ w, a ≤ w → w ≤ b → ∀ U, oscSize nd n h U ≤ B → ∀ i < numCoeff h * nd, |(aftVal h Nt tol f U w).F i| ≤ B'
  rest : ∀ w > 0, ∀ i < numCoeff h * nd, (aftVal h Nt tol f (fun _ => 0) w).F i = 0

theorem Resists.smooth {nd n : ℕ} {h : List ℕ} {Nt : ℕ} {tol : ℝ} {f : NLForce} (hf : Resists nd n h Nt tol f) : SmoothAft nd h Nt tol f :=
  ⟨hf.ok, hf.grad, hf.contU, hf.contw⟩

variable {S : VibSys} {Fl : ℕ → ℝ} {h : List ℕ} {Nt n : ℕ} {tol : ℝ}

/-- The sum of the forces. -/
def sumF (S : VibSys) (h : List ℕ) (Nt : ℕ) (tol : ℝ) (U : ℕ → ℝ) (w : ℝ) (i : ℕ) : ℝ := (S.forces.map fun f => (aftVal h Nt tol f U w).F i).sum

/-- The residual without the load. -/
def balance (S : VibSys) (h : List ℕ) (Nt : ℕ) (tol : ℝ) (U : ℕ → ℝ) (w : ℝ) (i : ℕ) : ℝ :=
  matVec (numCoeff h * S.nd) (hsE S.nd S.M S.C S.K w h false) U i + sumF S h Nt tol U w i

theorem sum_map_sub {α : Type} (l : List α) (a b : α → ℝ) : (l.map fun x => a x - b x).sum = (l.map a).sum - (l.map b).sum := by
  induction l with
  | nil => simp
  | cons x l ih => simp only [List.map_cons, List.sum_cons, ih]; ring

theorem pair_work (hh : Admissible h) (hS : ∀ f ∈ S.forces, Resists S.nd n h Nt tol f) (hM : ∀ d < S.nd, ∀ e < S.nd, S.M d e = S.M e d)
    (hK : ∀ d < S.nd, ∀ e < S.nd, S.K d e = S.K e d) (U V : ℕ → ℝ) {w : ℝ} (hw : 0 < w) :
    periodWork S.nd w (velocityOf S.nd h (fun i => U i - V i) w) (onVelocity S.nd S.C (velocityOf S.nd h (fun i => U i - V i) w))
      ≤ periodWork S.nd w (velocityOf S.nd h (fun i => U i - V i) w) (periodicOf S.nd h (fun i => balance S h Nt tol U w i - balance S h Nt tol V w i) w) := by
  rw [work_linear hh S.nd S.M S.C S.K hM hK _ hw.ne']
  have e : (fun i => balance S h Nt tol U w i - balance S h Nt tol V w i) = fun i =>
      matVec (numCoeff h * S.nd) (hsE S.nd S.M S.C S.K w h false) (fun i => U i - V i) i
        + (S.forces.map fun f => (aftVal h Nt tol f U w).F i - (aftVal h Nt tol f V w).F i).sum := by
    funext i
    have e1 : matVec (numCoeff h * S.nd) (hsE S.nd S.M S.C S.K w h false) (fun i => U i - V i) i
        = matVec (numCoeff h * S.nd) (hsE S.nd S.M S.C S.K w h false) U i - matVec (numCoeff h * S.nd) (hsE S.nd S.M S.C S.K w h false) V i := by
      unfold matVec
      rw [← sum_sub_distrib]
      exact sum_congr rfl fun j _ => by ring
    rw [e1, sum_map_sub]
    unfold balance sumF
    ring
  have e2 : periodicOf S.nd h (fun i => balance S h Nt tol U w i - balance S h Nt tol V w i) w = fun d t =>
      periodicOf S.nd h (matVec (numCoeff h * S.nd) (hsE S.nd S.M S.C S.K w h false) (fun i => U i - V i)) w d t
        + periodicOf S.nd h (fun i => (S.forces.map fun f => (aftVal h Nt tol f U w).F i - (aftVal h Nt tol f V w).F i).sum) w d t := by
    rw [e]
    funext d t
    exact series_add h _ _ _
  rw [e2, periodWork_add S.nd w (continuous_velocityOf hh S.nd _ hw.ne') (continuous_periodicOf _ _ _ _) (continuous_periodicOf _ _ _ _),
    work_list hh S.nd _ hw.ne' S.forces fun f i => (aftVal h Nt tol f U w).F i - (aftVal h Nt tol f V w).F i]
  refine le_add_of_nonneg_right (List.sum_nonneg ?_)
  intro x hx
  obtain ⟨f, hf, rfl⟩ := List.mem_map.1 hx
  exact (hS f hf).mono U V w hw

/-- Two motions differ in their oscillating part by no more than a multiple of the difference of their residuals. -/
theorem pair_bound (hh : Admissible h) (hn : ∀ k ∈ h, k ≤ n) (hS : ∀ f ∈ S.forces, Resists S.nd n h Nt tol f) (hM : ∀ d < S.nd, ∀ e < S.nd, S.M d e = S.M e d)
    (hK : ∀ d < S.nd, ∀ e < S.nd, S.K d e = S.K e d)
    (hC : ∀ v : ℕ → ℝ, (∃ d < S.nd, v d ≠ 0) → 0 < ∑ d ∈ range S.nd, ∑ e ∈ range S.nd, v d * S.C d e * v e) :
    ∃ c > 0, ∀ (U V : ℕ → ℝ) (w : ℝ), 0 < w → (w * c) ^ 2 * oscSize S.nd n h (fun i => U i - V i)
      ≤ n * ∑ d ∈ range S.nd, ∑ r ∈ range (numCoeff h), (balance S h Nt tol U w (r * S.nd + d) - balance S h Nt tol V w (r * S.nd + d)) ^ 2 := by
  obtain ⟨c, hc, H⟩ := definite_lower S.nd S.C hC
  exact ⟨c, hc, fun U V w hw => osc_bound hh hn hc H _ (fun i => balance S h Nt tol U w i - balance S h Nt tol V w i) hw (pair_work hh hS hM hK U V hw)⟩

theorem sumF_same (hS : ∀ f ∈ S.forces, Resists S.nd n h Nt tol f) {U V : ℕ → ℝ} {w : ℝ} (hw : 0 < w) (h0 : oscSize S.nd n h (fun i => U i - V i) = 0)
    {i : ℕ} (hi : i < numCoeff h * S.nd) : sumF S h Nt tol U w i = sumF S h Nt tol V w i := by
  unfold sumF
  congr 1
  exact List.map_congr_left fun f hf => (hS f hf).same U V w hw h0 i hi

theorem block_lt {nd r d N : ℕ} (hr : r < N) (hd : d < nd) : r * nd + d < N * nd :=
  calc r * nd + d < r * nd + nd := by omega
    _ = (r + 1) * nd := by ring
    _ ≤ _ := Nat.mul_le_mul_right _ hr

theorem zero_of_osc {x : ℝ} {c w K : ℝ} (hc : 0 < c) (hw : 0 < w) (hx : 0 ≤ x) (H : (w * c) ^ 2 * x ≤ K) (hK : K ≤ 0) : x = 0 := by
  have : 0 < (w * c) ^ 2 := by positivity
  nlinarith

/-- Same residual, same motion. -/
theorem balance_inj (hh : Admissible h) (hn : ∀ k ∈ h, k ≤ n) (hS : ∀ f ∈ S.forces, Resists S.nd n h Nt tol f) (hM : ∀ d < S.nd, ∀ e < S.nd, S.M d e = S.M e d)
    (hK : ∀ d < S.nd, ∀ e < S.nd, S.K d e = S.K e d)
    (hC : ∀ v : ℕ → ℝ, (∃ d < S.nd, v d ≠ 0) → 0 < ∑ d ∈ range S.nd, ∑ e ∈ range S.nd, v d * S.C d e * v e)
    (hK0 : 0 ∈ h → Regular S.nd S.K) {U V : ℕ → ℝ} {w : ℝ} (hw : 0 < w)
    (H : ∀ i < numCoeff h * S.nd, balance S h Nt tol U w i = balance S h Nt tol V w i) : ∀ i < numCoeff h * S.nd, U i = V i := by
  obtain ⟨c, hc, hb⟩ := pair_bound hh hn hS hM hK hC
  have h0 : oscSize S.nd n h (fun i => U i - V i) = 0 := by
    refine zero_of_osc hc hw (oscSize_nonneg _ _ _ _) (hb U V w hw) (le_of_eq ?_)
    rw [sum_eq_zero fun d hd => sum_eq_zero fun r hr => by rw [H _ (block_lt (mem_range.1 hr) (mem_range.1 hd)), sub_self, zero_pow two_ne_zero], mul_zero]
  have := damped_regular hh hM hK hC hK0 hw.ne' (fun i => U i - V i) fun i hi => by
    have h1 := H i hi
    have h2 := sumF_same hS hw h0 hi
    unfold balance at h1
    rw [h2] at h1
    have h3 : ∑ j ∈ range (numCoeff h * S.nd), hsE S.nd S.M S.C S.K w h false i j * (U j - V j)
      = matVec (numCoeff h * S.nd) (hsE S.nd S.M S.C S.K w h false) U i - matVec (numCoeff h * S.nd) (hsE S.nd S.M S.C S.K w h false) V i := by
      unfold matVec
      rw [← sum_sub_distrib]
      exact sum_congr rfl fun j _ => by ring
    rw [h3]
    linarith
  intro i hi
  linarith [this i hi]

theorem oscSize_smul (nd n : ℕ) (h : List ℕ) (V : ℕ → ℝ) (s : ℝ) : oscSize nd n h (fun i => s * V i) = s ^ 2 * oscSize nd n h V := by
  unfold oscSize
  rw [mul_sum]
  refine sum_congr rfl fun k _ => ?_
  rw [mul_left_comm]
  congr 1
  rw [mul_sum]
  refine sum_congr rfl fun d _ => ?_
  rw [coefOf_scaled h (a := s) (c' := fun r => V (r * nd + d)) fun _ _ => rfl]
  simp only
  ring

/-- The matrix of the harmonic balance equations is regular at every motion. -/
theorem jac_regular (hh : Admissible h) (hn : ∀ k ∈ h, k ≤ n) (hS : ∀ f ∈ S.forces, Resists S.nd n h Nt tol f) (hM : ∀ d < S.nd, ∀ e < S.nd, S.M d e = S.M e d)
    (hK : ∀ d < S.nd, ∀ e < S.nd, S.K d e = S.K e d)
    (hC : ∀ v : ℕ → ℝ, (∃ d < S.nd, v d ≠ 0) → 0 < ∑ d ∈ range S.nd, ∑ e ∈ range S.nd, v d * S.C d e * v e)
    (hK0 : 0 ∈ h → Regular S.nd S.K) {Z : ℕ → ℝ} (hw : 0 < Z (numCoeff h * S.nd)) :
    Regular (numCoeff h * S.nd) (hbmJ S (aftVal h Nt tol) h Z) := by
  intro D hD
  set L := numCoeff h * S.nd with hL
  set w := Z L with hwd
  set V : ℕ → ℝ := fun j => if j < L then D j else 0 with hV
  have hVj : ∀ j < L, V j = D j := fun j hj => by simp [hV, hj]
  have hVL : V L = 0 := by simp [hV]
  set g : ℕ → ℝ → ℝ := fun i s => hbmG S (aftVal h Nt tol) h (fun k => Z k + s * V k) i with hg
  have hgd : ∀ i < L, HasDerivAt (g i) 0 0 := fun i hi => by
    have h1 := (hbmG_grad S hh (aftVal h Nt tol) Z (fun f hf => (hS f hf).grad Z hw) i hi).directional V fun k hk => by
      simp only [hV]
      rw [if_neg (by omega)]
    rw [sum_range_succ, ← hL, if_neg (lt_irrefl L), hVL, mul_zero, add_zero] at h1
    have h2 : ∑ j ∈ range L, (if j < L then hbmJ S (aftVal h Nt tol) h Z i j else hbmD S (aftVal h Nt tol) h Z i) * V j = 0 := by
      rw [← hD i hi]
      exact sum_congr rfl fun j hj => by rw [if_pos (mem_range.1 hj), hVj j (mem_range.1 hj)]
    rwa [h2] at h1
  have hgb : ∀ i s, g i s = balance S h Nt tol (fun k => sl 0 L Z k + s * V k) w i := fun i s => by
    have e1 : sl 0 L (fun k => Z k + s * V k) = fun k => sl 0 L Z k + s * V k := by
      funext k
      by_cases hk : k < L
      · rw [sl_zero hk, sl_zero hk]
      · simp [sl, hk, hV]
    have e2 : (fun k => Z k + s * V k) L = w := by simp only [hVL, mul_zero, add_zero, hwd]
    show matVec L (hsE S.nd S.M S.C S.K ((fun k => Z k + s * V k) L) h false) (sl 0 L (fun k => Z k + s * V k)) i
      + (S.forces.map fun f => (aftVal h Nt tol f (sl 0 L (fun k => Z k + s * V k)) ((fun k => Z k + s * V k) L)).F i).sum = _
    rw [e1, e2]
    rfl
  have hdiff : ∀ s : ℝ, (fun i => (fun k => sl 0 L Z k + s * V k) i - (fun k => sl 0 L Z k + 0 * V k) i) = fun i => s * V i := fun s => by funext i; ring
  obtain ⟨c, hc, hb⟩ := pair_bound hh hn hS hM hK hC
  have hslope : ∀ i < L, Filter.Tendsto (fun s : ℝ => s⁻¹ * (g i s - g i 0)) (nhdsWithin 0 {0}ᶜ) (nhds 0) := fun i hi => by
    have := hasDerivAt_iff_tendsto_slope_zero.1 (hgd i hi)
    simpa using this
  have h0 : oscSize S.nd n h V = 0 := by
    have h1 : ∀ᶠ s : ℝ in nhdsWithin 0 {0}ᶜ, (w * c) ^ 2 * oscSize S.nd n h V
        ≤ n * ∑ d ∈ range S.nd, ∑ r ∈ range (numCoeff h), (s⁻¹ * (g (r * S.nd + d) s - g (r * S.nd + d) 0)) ^ 2 := by
      filter_upwards [self_mem_nhdsWithin] with s hs
      have hs0 : s ≠ 0 := hs
      have h2 := hb (fun k => sl 0 L Z k + s * V k) (fun k => sl 0 L Z k + 0 * V k) w hw
      rw [hdiff, oscSize_smul] at h2
      simp only [hgb, mul_pow, ← mul_sum]
      have hs2 : 0 < s ^ 2 := by positivity
      rw [inv_pow, mul_left_comm, ← div_eq_inv_mul, le_div_iff₀ hs2]
      linarith
    have h2 : Filter.Tendsto (fun s : ℝ => n * ∑ d ∈ range S.nd, ∑ r ∈ range (numCoeff h), (s⁻¹ * (g (r * S.nd + d) s - g (r * S.nd + d) 0)) ^ 2)
        (nhdsWithin 0 {0}ᶜ) (nhds (n * ∑ d ∈ range S.nd, ∑ r ∈ range (numCoeff h), (0 : ℝ) ^ 2)) :=
      (tendsto_finsetSum _ fun d hd => tendsto_finsetSum _ fun r hr => (hslope _ (block_lt (mem_range.1 hr) (mem_range.1 hd))).pow 2).const_mul _
    have h3 := ge_of_tendsto h2 h1
    exact zero_of_osc hc hw (oscSize_nonneg _ _ _ _) h3 (by simp)
  have hE := damped_regular hh hM hK hC hK0 hw.ne' V fun i hi => by
    have h1 : ∀ s, g i s - g i 0 = s * ∑ j ∈ range L, hsE S.nd S.M S.C S.K w h false i j * V j := fun s => by
      rw [hgb, hgb]
      unfold balance
      rw [sumF_same hS hw (U := fun k => sl 0 L Z k + s * V k) (V := fun k => sl 0 L Z k + 0 * V k) (by rw [hdiff, oscSize_smul, h0, mul_zero]) hi]
      unfold matVec
      rw [add_sub_add_right_eq_sub, ← sum_sub_distrib, mul_sum]
      exact sum_congr rfl fun j _ => by ring
    have h2 : Filter.Tendsto (fun _ : ℝ => ∑ j ∈ range L, hsE S.nd S.M S.C S.K w h false i j * V j) (nhdsWithin 0 {0}ᶜ) (nhds 0) := by
      refine (hslope i hi).congr' ?_
      filter_upwards [self_mem_nhdsWithin] with s hs
      have hs0 : s ≠ 0 := hs
      rw [h1]
      field_simp
    exact tendsto_nhds_unique tendsto_const_nhds h2
  intro j hj
  rw [← hVj j hj]
  exact hE j hj

theorem sumF_bdd (hS : ∀ f ∈ S.forces, Resists S.nd n h Nt tol f) {a : ℝ} (ha : 0 < a) (b B : ℝ) :
    ∃ B', ∀ w, a ≤ w → w ≤ b → ∀ U, oscSize S.nd n h U ≤ B → ∀ i < numCoeff h * S.nd, |sumF S h Nt tol U w i| ≤ B' := by
  have : ∀ l : List NLForce, (∀ f ∈ l, Resists S.nd n h Nt tol f) → ∃ B', ∀ w, a ≤ w → w ≤ b → ∀ U, oscSize S.nd n h U ≤ B → ∀ i < numCoeff h * S.nd,
      |(l.map fun f => (aftVal h Nt tol f U w).F i).sum| ≤ B' := fun l => by
    induction l with
    | nil => exact fun _ => ⟨0, fun w _ _ U _ i _ => by simp⟩
    | cons f l ih =>
      intro hl
      obtain ⟨B1, h1⟩ := ih fun f hf => hl f (List.mem_cons_of_mem _ hf)
      obtain ⟨B2, h2⟩ := (hl f List.mem_cons_self).bdd a ha b B
      refine ⟨B2 + B1, fun w hw hw' U hU i hi => ?_⟩
      rw [List.map_cons, List.sum_cons]
      exact (abs_add_le _ _).trans (add_le_add (h2 w hw hw' U hU i hi) (h1 w hw hw' U hU i hi))
  exact this S.forces hS

theorem sumF_rest (hS : ∀ f ∈ S.forces, Resists S.nd n h Nt tol f) {w : ℝ} (hw : 0 < w) {i : ℕ} (hi : i < numCoeff h * S.nd) :
    sumF S h Nt tol (fun _ => 0) w i = 0 := by
  unfold sumF
  refine List.sum_eq_zero fun x hx => ?_
  obtain ⟨f, hf, rfl⟩ := List.mem_map.1 hx
  exact (hS f hf).rest w hw i hi

theorem balance_rest (hS : ∀ f ∈ S.forces, Resists S.nd n h Nt tol f) {w : ℝ} (hw : 0 < w) {i : ℕ} (hi : i < numCoeff h * S.nd) :
    balance S h Nt tol (fun _ => 0) w i = 0 := by
  unfold balance matVec
  rw [sumF_rest hS hw hi, sum_eq_zero fun j _ => mul_zero _, add_zero]

/-- A bounded residual belongs to a bounded motion. -/
theorem balance_proper (hh : Admissible h) (hn : ∀ k ∈ h, k ≤ n) (hS : ∀ f ∈ S.forces, Resists S.nd n h Nt tol f) (hM : ∀ d < S.nd, ∀ e < S.nd, S.M d e = S.M e d)
    (hK : ∀ d < S.nd, ∀ e < S.nd, S.K d e = S.K e d)
    (hC : ∀ v : ℕ → ℝ, (∃ d < S.nd, v d ≠ 0) → 0 < ∑ d ∈ range S.nd, ∑ e ∈ range S.nd, v d * S.C d e * v e)
    (hK0 : 0 ∈ h → Regular S.nd S.K) {a : ℝ} (ha : 0 < a) (b B : ℝ) :
    ∃ B', ∀ w, a ≤ w → w ≤ b → ∀ U, (∀ i < numCoeff h * S.nd, |balance S h Nt tol U w i| ≤ B) → ∀ i < numCoeff h * S.nd, |U i| ≤ B' := by
  obtain ⟨c, hc, hb⟩ := pair_bound hh hn hS hM hK hC
  set B1 : ℝ := n * (S.nd * (numCoeff h * B ^ 2)) / (a * c) ^ 2 with hB1
  obtain ⟨B2, h2⟩ := sumF_bdd hS ha b B1
  have hcm : Continuous (dynMat S h) := continuous_matrix fun i j => hsE_continuous hh i.2 j.2
  have hci : ContinuousOn (fun w => (dynMat S h w).det⁻¹ • (dynMat S h w).adjugate) (Set.Icc a b) :=
    (hcm.matrix_det.continuousOn.inv₀ fun w hw => (regular_iff_det _).1 (damped_regular hh hM hK hC hK0 (ha.trans_le hw.1).ne')).smul
      hcm.matrix_adjugate.continuousOn
  have hent : ∀ i j : Fin (numCoeff h * S.nd), ∃ C, ∀ w ∈ Set.Icc a b, |((dynMat S h w).det⁻¹ • (dynMat S h w).adjugate) i j| ≤ C := fun i j => by
    have : ContinuousOn (fun w => ((dynMat S h w).det⁻¹ • (dynMat S h w).adjugate) i j) (Set.Icc a b) :=
      (continuous_id.matrix_elem i j).comp_continuousOn hci
    obtain ⟨C, hC⟩ := isCompact_Icc.exists_bound_of_continuousOn this
    exact ⟨C, fun w hw => hC w hw⟩
  choose Bd hBd using hent
  set B3 : ℝ := ∑ i, ∑ j, |Bd i j| with hB3
  have hB3' : ∀ i j, ∀ w ∈ Set.Icc a b, |((dynMat S h w).det⁻¹ • (dynMat S h w).adjugate) i j| ≤ B3 := fun i j w hw =>
    ((hBd i j w hw).trans (le_abs_self _)).trans ((single_le_sum (f := fun j => |Bd i j|) (fun _ _ => abs_nonneg _) (mem_univ j)).trans
      (single_le_sum (f := fun i => ∑ j, |Bd i j|) (fun _ _ => sum_nonneg fun _ _ => abs_nonneg _) (mem_univ i)))
  refine ⟨(numCoeff h * S.nd : ℕ) * (B3 * (B + B2)), fun w hwa hwb U hU i hi => ?_⟩
  have hw : 0 < w := ha.trans_le hwa
  have hosc : oscSize S.nd n h U ≤ B1 := by
    have h1 := hb U (fun _ => 0) w hw
    simp only [sub_zero] at h1
    have h3 : ∑ d ∈ range S.nd, ∑ r ∈ range (numCoeff h), (balance S h Nt tol U w (r * S.nd + d) - balance S h Nt tol (fun _ => 0) w (r * S.nd + d)) ^ 2
        ≤ S.nd * (numCoeff h * B ^ 2) := by
      have h4 : ∀ d ∈ range S.nd, ∑ r ∈ range (numCoeff h), (balance S h Nt tol U w (r * S.nd + d) - balance S h Nt tol (fun _ => 0) w (r * S.nd + d)) ^ 2
          ≤ numCoeff h * B ^ 2 := fun d hd => by
        have h5 : ∀ r ∈ range (numCoeff h), (balance S h Nt tol U w (r * S.nd + d) - balance S h Nt tol (fun _ => 0) w (r * S.nd + d)) ^ 2 ≤ B ^ 2 := fun r hr => by
          have hlt := block_lt (mem_range.1 hr) (mem_range.1 hd)
          rw [balance_rest hS hw hlt, sub_zero]
          exact sq_le_sq' (by linarith [(abs_le.1 (hU _ hlt)).1]) (abs_le.1 (hU _ hlt)).2
        have := sum_le_card_nsmul _ _ _ h5
        rwa [card_range, nsmul_eq_mul] at this
      have := sum_le_card_nsmul _ _ _ h4
      rwa [card_range, nsmul_eq_mul] at this
    have h6 : (a * c) ^ 2 * oscSize S.nd n h U ≤ (w * c) ^ 2 * oscSize S.nd n h U :=
      mul_le_mul_of_nonneg_right (pow_le_pow_left₀ (by positivity) (mul_le_mul_of_nonneg_right hwa hc.le) 2) (oscSize_nonneg _ _ _ _)
    rw [hB1, le_div_iff₀ (by positivity), mul_comm]
    exact h6.trans (h1.trans (mul_le_mul_of_nonneg_left h3 (Nat.cast_nonneg _)))
  have hF := h2 w hwa hwb U hosc
  have hE : ∀ j < numCoeff h * S.nd, |matVec (numCoeff h * S.nd) (hsE S.nd S.M S.C S.K w h false) U j| ≤ B + B2 := fun j hj => by
    have e : matVec (numCoeff h * S.nd) (hsE S.nd S.M S.C S.K w h false) U j = balance S h Nt tol U w j - sumF S h Nt tol U w j := by unfold balance; ring
    rw [e]
    exact (abs_sub _ _).trans (add_le_add (hU j hj) (hF j hj))
  have hres := (resp_iff (Fl := matVec (numCoeff h * S.nd) (hsE S.nd S.M S.C S.K w h false) U) (damped_regular hh hM hK hC hK0 hw.ne') fun j : Fin (numCoeff h * S.nd) => U j).1 (by
    funext j
    simp only [Matrix.mulVec, dotProduct, dynMat, matVec]
    rw [sum_range])
  have hUi : U i = ∑ j : Fin (numCoeff h * S.nd), ((dynMat S h w).det⁻¹ • (dynMat S h w).adjugate) ⟨i, hi⟩ j
      * matVec (numCoeff h * S.nd) (hsE S.nd S.M S.C S.K w h false) U j := by
    have := congrFun hres ⟨i, hi⟩
    simp only at this
    rw [this]
    simp only [resp, Pi.smul_apply, Matrix.mulVec, dotProduct, Matrix.smul_apply, smul_eq_mul, mul_sum]
    exact sum_congr rfl fun j _ => by ring
  rw [hUi]
  have hterm : ∀ j ∈ (univ : Finset (Fin (numCoeff h * S.nd))), |((dynMat S h w).det⁻¹ • (dynMat S h w).adjugate) ⟨i, hi⟩ j
      * matVec (numCoeff h * S.nd) (hsE S.nd S.M S.C S.K w h false) U j| ≤ B3 * (B + B2) := fun j _ => by
    rw [abs_mul]
    exact mul_le_mul (hB3' _ j w ⟨hwa, hwb⟩) (hE j j.2) (abs_nonneg _) ((abs_nonneg _).trans (hB3' ⟨i, hi⟩ j w ⟨hwa, hwb⟩))
  have := (abs_sum_le_sum_abs _ _).trans (sum_le_card_nsmul _ _ _ hterm)
  rwa [card_univ, Fintype.card_fin, nsmul_eq_mul] at this

end

end TMD
