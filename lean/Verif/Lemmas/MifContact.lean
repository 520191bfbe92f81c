import Verif.Lemmas.RoughContact
import Verif.Model.MifContact
import Mathlib.Algebra.BigOperators.Field
import Mathlib.Tactic.Linarith

/-! # Lemmas on the Mindlin-Iwan fit -/

namespace TMD

open Spec Finset

noncomputable section

/-! ## Quadrature -/

theorem sum_mifRaw {Nr : ℕ} (h : 2 ≤ Nr) (f : ℕ → ℝ) :
    ∑ j ∈ range Nr, mifRaw Nr j * f j = ∑ i ∈ range (Nr - 1), (f i + f (i + 1)) := by
  obtain ⟨n, rfl⟩ : ∃ n, Nr = n + 2 := ⟨Nr - 2, by omega⟩
  rw [show n + 2 - 1 = n + 1 by omega, sum_add_distrib, sum_range_succ, sum_range_succ', sum_range_succ' (fun i => f i),
    sum_range_succ (fun i => f (i + 1))]
  have e0 : mifRaw (n + 2) 0 = 1 := by simp [mifRaw]
  have el : mifRaw (n + 2) (n + 1) = 1 := by simp [mifRaw]
  have em : ∀ i ∈ range n, mifRaw (n + 2) (i + 1) * f (i + 1) = f (i + 1) + f (i + 1) := by
    intro i hi
    have : i < n := mem_range.1 hi
    unfold mifRaw
    rw [if_neg (by omega)]
    ring
  rw [sum_congr rfl em, e0, el, sum_add_distrib]
  ring

theorem sum_mifWeight {Nr : ℕ} (h : 2 ≤ Nr) (f : ℕ → ℝ) :
    ∑ j ∈ range Nr, f j * mifWeight Nr j = (∑ i ∈ range (Nr - 1), (f i + f (i + 1))) / (2 * ((Nr - 1 : ℕ) : ℝ)) := by
  have hs : ∑ i ∈ range Nr, mifRaw Nr i = 2 * ((Nr - 1 : ℕ) : ℝ) := by
    have := sum_mifRaw h fun _ => 1
    simp only [mul_one] at this
    rw [this, sum_const, card_range, nsmul_eq_mul]
    ring
  rw [← sum_mifRaw h, sum_div]
  refine sum_congr rfl fun j _ => ?_
  unfold mifWeight
  rw [hs]
  ring

theorem mifWeight_nonneg (Nr j : ℕ) : 0 ≤ mifWeight Nr j := by
  have : ∀ i, 0 ≤ mifRaw Nr i := fun i => by unfold mifRaw; split_ifs <;> norm_num
  exact div_nonneg (this j) (sum_nonneg fun i _ => this i)

theorem mifRadius_nonneg (Nr j : ℕ) : 0 ≤ mifRadius Nr j := by unfold mifRadius; positivity

theorem mifRadius_zero (Nr : ℕ) : mifRadius Nr 0 = 0 := by simp [mifRadius]

theorem mifRadius_last {Nr : ℕ} (h : 2 ≤ Nr) : mifRadius Nr (Nr - 1) = 1 := by
  unfold mifRadius
  refine div_self ?_
  exact_mod_cast (by omega : Nr - 1 ≠ 0)

theorem mifRadius_lt {Nr i j : ℕ} (h : 2 ≤ Nr) (hij : i < j) : mifRadius Nr i < mifRadius Nr j := by
  unfold mifRadius
  refine div_lt_div_of_pos_right (by exact_mod_cast hij) ?_
  exact_mod_cast (by omega : 0 < Nr - 1)

theorem mifRadius_le {Nr i j : ℕ} (h : 2 ≤ Nr) (hij : i ≤ j) : mifRadius Nr i ≤ mifRadius Nr j := by
  rcases hij.lt_or_eq with hlt | rfl
  · exact (mifRadius_lt h hlt).le
  · exact le_rfl

theorem mifRadius_le_one {Nr j : ℕ} (h : 2 ≤ Nr) (hj : j < Nr) : mifRadius Nr j ≤ 1 := by
  rw [← mifRadius_last h]
  exact mifRadius_le h (by omega)

/-- Part of the friction limit that the quadrature finds. -/
def slipShare (Nr : ℕ) : ℝ := 3 * ∑ j ∈ range Nr, Real.sqrt (1 - mifRadius Nr j ^ 2) * mifRadius Nr j * mifWeight Nr j

/-- One interval of the trapezoidal rule: the error for `3 r sqrt(1 - r^2)`. -/
theorem trapezoid_error {a b A B : ℝ} (ha : a ^ 2 + A ^ 2 = 1) (hb : b ^ 2 + B ^ 2 = 1) :
    3 / 2 * (b - a) * (A * a + B * b) = A ^ 3 - B ^ 3 - (A - B) * ((A - B) ^ 2 + 3 * (b - a) ^ 2) / 4 := by
  have h : (b - a) * (b + a) = (A - B) * (A + B) := by linear_combination hb - ha
  linear_combination (3 / 4 * (A + B)) * h

theorem slipShare_bounds {Nr : ℕ} (h : 2 ≤ Nr) :
    1 - (1 / ((Nr - 1 : ℕ) : ℝ)) / 2 - 3 / 4 * (1 / ((Nr - 1 : ℕ) : ℝ)) ^ 2 ≤ slipShare Nr ∧
      slipShare Nr ≤ 1 - 3 / 4 * (1 / ((Nr - 1 : ℕ) : ℝ)) ^ 2 := by
  set n := Nr - 1 with hn
  have hn0 : (0 : ℝ) < n := by exact_mod_cast (by omega : 0 < n)
  set A : ℕ → ℝ := fun j => Real.sqrt (1 - mifRadius Nr j ^ 2) with hA
  set δ : ℝ := 1 / n with hδ
  have hδ0 : 0 < δ := by positivity
  have hstep : ∀ i, mifRadius Nr (i + 1) - mifRadius Nr i = δ := by
    intro i
    unfold mifRadius
    rw [← hn, hδ]
    push_cast
    ring
  have hle : ∀ i ≤ n, mifRadius Nr i ≤ 1 := fun i hi => mifRadius_le_one h (by omega)
  have hsq : ∀ i ≤ n, mifRadius Nr i ^ 2 + A i ^ 2 = 1 := by
    intro i hi
    simp only [hA]
    rw [Real.sq_sqrt]
    · ring
    · have := hle i hi
      have := mifRadius_nonneg Nr i
      nlinarith
  have hA0 : ∀ i, 0 ≤ A i := fun i => Real.sqrt_nonneg _
  have hdec : ∀ i < n, 0 ≤ A i - A (i + 1) := by
    intro i hi
    refine sub_nonneg.2 (Real.sqrt_le_sqrt ?_)
    have := hstep i
    have := mifRadius_nonneg Nr i
    nlinarith
  have hD2 : ∀ i < n, (A i - A (i + 1)) ^ 2 ≤ 2 * δ := by
    intro i hi
    have h1 := hsq i (by omega)
    have h2 := hsq (i + 1) (by omega)
    have h3 := hdec i hi
    have h4 := hA0 (i + 1)
    have h5 := hstep i
    have h6 := hle (i + 1) (by omega)
    have h7 : A i ^ 2 - A (i + 1) ^ 2 = (mifRadius Nr (i + 1) - mifRadius Nr i) * (mifRadius Nr (i + 1) + mifRadius Nr i) := by
      linear_combination h1 - h2
    rw [h5] at h7
    nlinarith [hle i (by omega)]
  have hA_first : A 0 = 1 := by simp [hA, mifRadius_zero]
  have hA_last : A n = 0 := by simp [hA, hn, mifRadius_last h]
  have htel : ∀ (G : ℕ → ℝ), ∑ i ∈ range n, (G i - G (i + 1)) = G 0 - G n := fun G => sum_range_sub' G n
  have hsum : slipShare Nr = ∑ i ∈ range n, (A i ^ 3 - A (i + 1) ^ 3
      - (A i - A (i + 1)) * ((A i - A (i + 1)) ^ 2 + 3 * δ ^ 2) / 4) := by
    unfold slipShare
    rw [sum_mifWeight h, ← hn, ← mul_div_assoc, mul_sum, sum_div]
    refine sum_congr rfl fun i hi => ?_
    have hi' := mem_range.1 hi
    have := trapezoid_error (hsq i (by omega)) (hsq (i + 1) (by omega))
    rw [hstep] at this
    rw [← this, hδ]
    simp only [hA]
    field_simp
  have e1 := htel fun i => A i ^ 3
  have e2 := htel A
  simp only [hA_first, hA_last] at e1 e2
  have hsplit : slipShare Nr = 1 - ∑ i ∈ range n, (A i - A (i + 1)) * ((A i - A (i + 1)) ^ 2 + 3 * δ ^ 2) / 4 := by
    rw [hsum, sum_sub_distrib, e1]
    norm_num
  have lower : ∑ i ∈ range n, (A i - A (i + 1)) * (3 * δ ^ 2) / 4
      ≤ ∑ i ∈ range n, (A i - A (i + 1)) * ((A i - A (i + 1)) ^ 2 + 3 * δ ^ 2) / 4 := by
    refine sum_le_sum fun i hi => ?_
    have := hdec i (mem_range.1 hi)
    have : 0 ≤ (A i - A (i + 1)) * (A i - A (i + 1)) ^ 2 := by positivity
    nlinarith
  have upper : ∑ i ∈ range n, (A i - A (i + 1)) * ((A i - A (i + 1)) ^ 2 + 3 * δ ^ 2) / 4
      ≤ ∑ i ∈ range n, (A i - A (i + 1)) * (2 * δ + 3 * δ ^ 2) / 4 := by
    refine sum_le_sum fun i hi => ?_
    have h1 := hdec i (mem_range.1 hi)
    have h2 := hD2 i (mem_range.1 hi)
    have := mul_le_mul_of_nonneg_left (add_le_add_left h2 (3 * δ ^ 2)) h1
    linarith
  have hc : ∀ c : ℝ, ∑ i ∈ range n, (A i - A (i + 1)) * c / 4 = c / 4 := by
    intro c
    rw [← sum_div, ← sum_mul, e2]
    ring
  rw [hc] at lower upper
  rw [hsplit]
  constructor <;> linarith

theorem slipShare_nonneg (Nr : ℕ) : 0 ≤ slipShare Nr := by
  unfold slipShare
  refine mul_nonneg (by norm_num) (sum_nonneg fun j _ => ?_)
  exact mul_nonneg (mul_nonneg (Real.sqrt_nonneg _) (mifRadius_nonneg _ _)) (mifWeight_nonneg _ _)

theorem slipShare_le_one {Nr : ℕ} (h : 2 ≤ Nr) : slipShare Nr ≤ 1 := by
  refine (slipShare_bounds h).2.trans ?_
  have : 0 ≤ (1 / ((Nr - 1 : ℕ) : ℝ)) ^ 2 := by positivity
  linarith

/-! ## Interpolation of the history -/

theorem jnpInterp_zero (n : ℕ) (xp : ℕ → ℝ) (x : ℝ) {fp : ℕ → ℝ} (h : ∀ j < n, fp j = 0) (hn : 2 ≤ n) :
    jnpInterp n xp fp x = 0 := by
  unfold jnpInterp
  simp only
  generalize ((List.range n).filter fun k => decide (xp k ≤ x)).length = c
  rw [h (max 1 (min (n - 1) c) - 1) (by omega), h (max 1 (min (n - 1) c)) (by omega)]
  simp

open Classical in
theorem count_le {n j : ℕ} (xp : ℕ → ℝ) (hj : j < n) (hxp : ∀ i k, i < k → xp i < xp k) :
    ((List.range n).filter fun k => decide (xp k ≤ xp j)).length = j + 1 := by
  obtain ⟨r, rfl⟩ : ∃ r, n = (j + 1) + r := ⟨n - (j + 1), by omega⟩
  rw [List.range_add, List.filter_append, List.length_append, List.filter_eq_self.2, List.filter_eq_nil_iff.2]
  · simp
  · intro k hk
    obtain ⟨i, -, rfl⟩ := List.mem_map.1 hk
    simpa using hxp j (j + 1 + i) (by omega)
  · intro k hk
    have : k ≤ j := by have := List.mem_range.1 hk; omega
    rcases this.lt_or_eq with h | rfl
    · simpa using (hxp _ _ h).le
    · simp

/-- At a sample point other than the last the interpolation gives the sample. -/
theorem jnpInterp_node {n j : ℕ} (xp fp : ℕ → ℝ) (hj : j + 1 < n) (hxp : ∀ i k, i < k → xp i < xp k) :
    jnpInterp n xp fp (xp j) = fp j := by
  unfold jnpInterp
  simp only
  rw [count_le xp (by omega) hxp, show max 1 (min (n - 1) (j + 1)) = j + 1 by omega, Nat.add_sub_cancel, sub_self, zero_div,
    zero_mul, add_zero, ite_self, if_neg (not_lt.2 (hxp j (n - 1) (by omega)).le), if_neg]
  rcases Nat.eq_zero_or_pos j with rfl | h
  · exact lt_irrefl _
  · exact not_lt.2 (hxp 0 j h).le

/-! ## Tractions and forces -/

/-- Normal pressure at radius `j`. -/
def mifPressure (Nr : ℕ) (f a : ℝ) (j : ℕ) : ℝ :=
  if 0 < f then 3*f/(2*Real.pi*a^2) * Real.sqrt (1 - mifRadius Nr j^2) else 0

/-- Stiffness at radius `j`. -/
def mifStiff (Nr : ℕ) (G f a : ℝ) (j : ℕ) : ℝ := if 0 < f then 8*G*a/a^2/Real.pi * mifKt (mifRadius Nr j) else 0

theorem mifTraction_clip (Nr : ℕ) (x x0 : ℝ) (t0 r0 : ℕ → ℝ) (f a G mu : ℝ) (j : ℕ) :
    mifTraction Nr x x0 t0 r0 (some f) a G mu j
      = clip (mu * mifPressure Nr f a j) (mifStiff Nr G f a j * (x - x0) + jnpInterp Nr r0 t0 (a * mifRadius Nr j)) := by
  unfold mifTraction clip mifPressure mifStiff
  simp only [Option.getD_some]
  exact max_comm _ _

theorem mifPressure_nonneg (Nr : ℕ) (f a : ℝ) (j : ℕ) : 0 ≤ mifPressure Nr f a j := by
  unfold mifPressure
  split_ifs with h
  · have := Real.pi_pos
    positivity
  · exact le_rfl

theorem mifPressure_last {Nr : ℕ} (h : 2 ≤ Nr) (f a : ℝ) : mifPressure Nr f a (Nr - 1) = 0 := by
  unfold mifPressure
  rw [mifRadius_last h]
  simp

theorem mifForce_pressure {Nr : ℕ} {f a : ℝ} (hf : 0 ≤ f) (ha : 0 < f → a ≠ 0) (mu : ℝ) :
    mifForce Nr a (fun j => mu * mifPressure Nr f a j) = mu * f * slipShare Nr := by
  rcases hf.lt_or_eq with h | rfl
  · have ha := ha h
    have hp := Real.pi_pos
    unfold mifForce slipShare mifPressure
    simp only [if_pos h]
    rw [← mul_assoc, mul_sum, mul_sum]
    refine sum_congr rfl fun j _ => ?_
    field_simp
  · simp [mifForce, mifPressure]

theorem mifForce_share {Nr : ℕ} {f a mu : ℝ} (hf : 0 ≤ f) (ha : 0 < f → a ≠ 0) {t : ℕ → ℝ}
    (ht : ∀ j < Nr, |t j| ≤ mu * mifPressure Nr f a j) : |mifForce Nr a t| ≤ mu * f * slipShare Nr := by
  have hp := Real.pi_pos
  have h1 : |mifForce Nr a t| ≤ mifForce Nr a fun j => mu * mifPressure Nr f a j := by
    unfold mifForce
    rw [abs_mul, abs_of_nonneg (by positivity : 0 ≤ 2*Real.pi*a^2)]
    refine mul_le_mul_of_nonneg_left ((abs_sum_le_sum_abs _ _).trans (sum_le_sum fun j hj => ?_)) (by positivity)
    rw [abs_mul, abs_mul, abs_of_nonneg (mifRadius_nonneg _ _), abs_of_nonneg (mifWeight_nonneg _ _)]
    exact mul_le_mul_of_nonneg_right (mul_le_mul_of_nonneg_right (ht j (mem_range.1 hj)) (mifRadius_nonneg _ _))
      (mifWeight_nonneg _ _)
  rw [mifForce_pressure hf ha] at h1
  exact h1

theorem mifForce_abs {Nr : ℕ} (hN : 2 ≤ Nr) {f a mu : ℝ} (hf : 0 ≤ f) (ha : 0 < f → a ≠ 0) (hmu : 0 ≤ mu) {t : ℕ → ℝ}
    (ht : ∀ j < Nr, |t j| ≤ mu * mifPressure Nr f a j) : |mifForce Nr a t| ≤ mu * f := by
  refine (mifForce_share hf ha ht).trans ?_
  have : 0 ≤ mu * f := by positivity
  nlinarith [slipShare_le_one hN]

theorem mifKt_pos {r : ℝ} (h0 : 0 ≤ r) (h1 : r < 1) : 0 < mifKt r := by
  have hr : r ^ 2 < 1 := by nlinarith
  unfold mifKt
  rw [if_pos hr]
  have hs : 0 < Real.sqrt (1 - r ^ 2) := Real.sqrt_pos.2 (by linarith)
  have hs1 : Real.sqrt (1 - r ^ 2) ≤ 1 := Real.sqrt_le_one.2 (by nlinarith [sq_nonneg r])
  have : (1 - 0.8709 : ℝ) ≤ (1 - 0.8709) / Real.sqrt (1 - r ^ 2) := by
    rw [le_div_iff₀ hs]
    nlinarith
  have : 0 ≤ r ^ 3 := by positivity
  norm_num at *
  nlinarith

/-! ## The time loop -/

section Loop

variable (m : Mat) (g : Asperities) (Nr Nt : ℕ) (u : ℕ → ℕ → ℝ)

theorem asp_pos (hE : 0 ≤ m.Estar) (k t : ℕ) (ht : t < Nt) (h : 0 < aspN m g Nt u k t) : 0 < aspA m g Nt u k t := by
  obtain ⟨h1, h2, -, -⟩ := asp_ok m g Nt u hE k t ht
  have hle : u t 2 - g.meso - g.gaps k ≤ cycleMax Nt g u k := by
    have := (unMax_ge Nt u).2 t ht; unfold cycleMax; linarith
  generalize cycleMax Nt g u k = dm at *
  generalize u t 2 - g.meso - g.gaps k = un at *
  cases hF : cycleFm m Nt g u k with
  | none =>
    rw [hF, unloading_nan.1, Option.some.injEq] at h1
    rw [← h1] at h
    exact absurd h (lt_irrefl _)
  | some F =>
    rw [hF] at h1 h2
    rcases le_or_gt dm 0 with hd | hd
    · rw [(unloading_never hd).1, Option.some.injEq] at h1
      rw [← h1] at h
      exact absurd h (lt_irrefl _)
    · obtain ⟨p1, p2⟩ := unloading_pos (un := un) (F := F) (R := m.Re) (E := m.Estar) hd
      rcases le_or_gt un (dm*(1 - F/(4/3*m.Estar*Real.sqrt m.Re*dm^(1.5 : ℝ)))) with hb | hb
      · rw [(p1 hb).1, Option.some.injEq] at h1
        rw [← h1] at h
        exact absurd h (lt_irrefl _)
      · obtain ⟨h3, h4⟩ := p2 hb (lt_of_lt_of_le hb hle)
        rw [h3, Option.some.injEq] at h1
        rw [h4, Option.some.injEq] at h2
        rw [← h1] at h
        rw [← h2]
        refine Real.sqrt_pos.2 (mul_pos ?_ (by linarith))
        by_contra hc
        rw [Real.sqrt_eq_zero_of_nonpos (not_lt.1 hc)] at h
        simp at h

/-- The displacement before step `s`. -/
def mifPrev (u0 : ℕ → ℝ) : ℕ → ℕ → ℝ
  | 0 => u0
  | s + 1 => u (s % Nt)

/-- State of asperity `k` before step `s`. -/
def mifSeq (u0 : ℕ → ℝ) (mu : ℝ) (k : ℕ) : ℕ → MifAsp
  | 0 => ⟨fun _ _ => 0, mifRadius Nr⟩
  | s + 1 => ⟨fun j d => mifTraction Nr (u (s % Nt) d) (mifPrev Nt u u0 s d) (fun i => (mifSeq u0 mu k s).t i d)
      (mifSeq u0 mu k s).r (some (aspN m g Nt u k (s % Nt))) (aspA m g Nt u k (s % Nt)) m.Gstar mu j,
    fun j => aspA m g Nt u k (s % Nt) * mifRadius Nr j⟩

/-- Total force in column `d` at step `s`. -/
def mifTotal (u0 : ℕ → ℝ) (mu : ℝ) (s d : ℕ) : ℝ :=
  if d < 2 then ∑ k ∈ range g.nasp, g.weights k *
    mifForce Nr (aspA m g Nt u k (s % Nt)) fun j => (mifSeq m g Nr Nt u u0 mu k (s + 1)).t j d
  else ∑ k ∈ range g.nasp, g.weights k * aspN m g Nt u k (s % Nt)

theorem mif_steps (hE : 0 ≤ m.Estar) (hN : 0 < Nt) (u0 : ℕ → ℝ) (mu : ℝ) (s : ℕ) :
    let H := (List.range s).foldl (fun H s => mifBody m g Nr u mu (cycleMax Nt g u) (cycleFm m Nt g u) H (s % Nt))
      ⟨fun _ _ => some 0, u0, fun _ => some ⟨fun _ _ => 0, mifRadius Nr⟩⟩
    (H.uxyn0 = mifPrev Nt u u0 s) ∧ (∀ k, H.asp k = some (mifSeq m g Nr Nt u u0 mu k s)) ∧
    ∀ s' < s, s ≤ s' + Nt → ∀ d, H.ft (s' % Nt) d = some (mifTotal m g Nr Nt u u0 mu s' d) := by
  induction s with
  | zero => exact ⟨rfl, fun _ => rfl, fun s' h => absurd h (Nat.not_lt_zero _)⟩
  | succ s ih =>
    rw [List.range_succ, List.foldl_append]
    simp only [List.foldl_cons, List.foldl_nil]
    generalize hH0 : (List.range s).foldl (fun H s => mifBody m g Nr u mu (cycleMax Nt g u) (cycleFm m Nt g u) H (s % Nt))
      ⟨fun _ _ => some 0, u0, fun _ => some ⟨fun _ _ => 0, mifRadius Nr⟩⟩ = H0 at ih ⊢
    obtain ⟨i1, i2, i3⟩ := ih
    have hm : s % Nt < Nt := Nat.mod_lt _ hN
    have hz : ∀ k, mifAsperity Nr (u (s % Nt)) H0.uxyn0 (H0.asp k)
        (unloading (u (s % Nt) 2 - g.meso - g.gaps k) (cycleMax Nt g u k) (cycleFm m Nt g u k) m.Re m.Estar).fn
        (unloading (u (s % Nt) 2 - g.meso - g.gaps k) (cycleMax Nt g u k) (cycleFm m Nt g u k) m.Re m.Estar).a m.Gstar mu
        = some (fun d => mifForce Nr (aspA m g Nt u k (s % Nt)) fun j => (mifSeq m g Nr Nt u u0 mu k (s + 1)).t j d,
            mifSeq m g Nr Nt u u0 mu k (s + 1)) := by
      intro k
      obtain ⟨a1, a2, a3, -⟩ := asp_ok m g Nt u hE k (s % Nt) hm
      rw [a1, a2, i1, i2 k]
      unfold mifAsperity
      simp only [Option.getD_some]
      rw [if_neg fun h => absurd (asp_pos m g Nt u hE k _ hm h.1) (by rw [h.2]; exact lt_irrefl _)]
      rfl
    refine ⟨rfl, fun k => ?_, fun s' h1 h2 d => ?_⟩
    · show Option.map _ (mifAsperity _ _ _ _ _ _ _ _) = _
      rw [hz k]
      rfl
    rcases Nat.lt_succ_iff_lt_or_eq.1 h1 with h | h
    · have hne : s' % Nt ≠ s % Nt := by
        intro e
        have := Nat.le_of_dvd (by omega) ((Nat.modEq_iff_dvd' h.le).1 e)
        omega
      show setRow H0.ft (s % Nt) _ (s' % Nt) d = _
      unfold setRow
      rw [if_neg hne]
      exact i3 s' h (by omega) d
    · subst h
      show setRow H0.ft (s' % Nt) _ (s' % Nt) d = _
      unfold setRow
      rw [if_pos rfl]
      unfold mifTotal
      beta_reduce
      split
      · exact weighted_some _ _ _ _ fun k _ => by rw [hz k]; rfl
      · exact weighted_some _ _ _ _ fun k _ => (asp_ok m g Nt u hE k (s' % Nt) hm).1

/-- The result of `repeats ≥ 1` cycles. -/
theorem mifHistory_eq (hE : 0 ≤ m.Estar) (u0 : ℕ → ℝ) (mu : ℝ) (r t d : ℕ) (ht : t < Nt) :
    mifHistory m g Nr Nt u u0 mu (r + 1) t d = some (mifTotal m g Nr Nt u u0 mu (r * Nt + t) d) := by
  unfold mifHistory
  rw [repeats_flat]
  obtain ⟨-, -, h⟩ := mif_steps m g Nr Nt u hE (by omega) u0 mu ((r + 1) * Nt)
  have := h (r * Nt + t) (by rw [Nat.succ_mul]; omega) (by rw [Nat.succ_mul]; omega) d
  rw [Nat.mul_comm r Nt, Nat.mul_add_mod, Nat.mod_eq_of_lt ht, ← Nat.mul_comm r Nt] at this
  exact this

/-- With constant normal displacement the tractions are independent sliders. -/
theorem mifSeq_constant (hE : 0 ≤ m.Estar) (hN : 0 < Nt) (hNr : 2 ≤ Nr) (u0 : ℕ → ℝ) {mu : ℝ} (hc : ∀ t < Nt, u t 2 = u 0 2)
    (k j d : ℕ) (hj : j < Nr) (s : ℕ) :
    (mifSeq m g Nr Nt u u0 mu k (s + 1)).t j d
      = vslider (fun _ => mifStiff Nr m.Gstar (aspN m g Nt u k 0) (aspA m g Nt u k 0) j)
          (fun _ => mu * mifPressure Nr (aspN m g Nt u k 0) (aspA m g Nt u k 0) j) (periodic Nt fun t => u t d) (u0 d) 0 s := by
  have hA : ∀ t < Nt, aspA m g Nt u k t = aspA m g Nt u k 0 := fun t ht => by unfold aspA; rw [hc t ht]
  have hF : ∀ t < Nt, aspN m g Nt u k t = aspN m g Nt u k 0 := fun t ht => by unfold aspN; rw [hc t ht]
  have clip0 : ∀ x, clip 0 x = 0 := fun x => by unfold clip; simp
  induction s with
  | zero =>
    show mifTraction _ _ _ _ _ _ _ _ _ _ = clip _ _
    rw [mifTraction_clip, Nat.zero_mod, jnpInterp_zero Nr _ _ (fp := fun i => (mifSeq m g Nr Nt u u0 mu k 0).t i d) (fun _ _ => rfl) hNr]
    simp only [periodic, Nat.zero_mod]
    rfl
  | succ s ih =>
    show mifTraction _ _ _ _ _ _ _ _ _ _ = clip _ _
    rw [mifTraction_clip, hA _ (Nat.mod_lt _ hN), hF _ (Nat.mod_lt _ hN)]
    by_cases hp : mifPressure Nr (aspN m g Nt u k 0) (aspA m g Nt u k 0) j = 0
    · rw [hp, mul_zero, clip0, clip0]
    · have hj' : j + 1 < Nr := by
        by_contra hcon
        have : j = Nr - 1 := by omega
        subst this
        exact hp (mifPressure_last hNr _ _)
      have hpos : 0 < aspN m g Nt u k 0 := by
        by_contra hcon
        unfold mifPressure at hp
        rw [if_neg hcon] at hp
        exact hp rfl
      have ha := asp_pos m g Nt u hE k 0 hN hpos
      rw [← ih]
      congr 2
      have hr : (mifSeq m g Nr Nt u u0 mu k (s + 1)).r = fun i => aspA m g Nt u k 0 * mifRadius Nr i := by
        funext i
        show aspA m g Nt u k (s % Nt) * _ = _
        rw [hA _ (Nat.mod_lt _ hN)]
      rw [hr]
      exact jnpInterp_node (fun i => aspA m g Nt u k 0 * mifRadius Nr i) _ hj'
        fun i l hil => mul_lt_mul_of_pos_left (mifRadius_lt hNr hil) ha

end Loop

end

end TMD
