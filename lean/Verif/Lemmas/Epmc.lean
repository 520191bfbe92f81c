import Verif.Lemmas.AmpControl
import Mathlib.Analysis.SpecialFunctions.Pow.Deriv

/-! Lemmas on the extended periodic motion concept residual. -/

namespace TMD

open Spec Finset

noncomputable section

/-- The stiffness is affine in a mass proportional damping coefficient. -/
theorem hsE_sub {h : List ℕ} (hA : Admissible h) (nd : ℕ) (M C K : ℕ → ℕ → ℝ) (xi w : ℝ) :
    ∀ i < numCoeff h * nd, ∀ j < numCoeff h * nd,
      hsE nd M (fun i j => C i j - xi * M i j) K w h false i j = hsE nd M C K w h false i j
        + xi * hsE nd (fun _ _ => 0) (fun i j => - M i j) (fun _ _ => 0) w h true i j := by
  intro i hi j hj
  have hnd : 0 < nd := by
    by_contra hh
    have : nd = 0 := by omega
    subst this; simp at hi
  obtain ⟨R, d, hd, rfl, hR⟩ : ∃ R d, d < nd ∧ i = nd * R + d ∧ R < numCoeff h :=
    ⟨i / nd, i % nd, Nat.mod_lt _ hnd, (Nat.div_add_mod _ _).symm,
      (Nat.div_lt_iff_lt_mul hnd).mpr hi⟩
  obtain ⟨S, e, he, rfl⟩ : ∃ S e, e < nd ∧ j = nd * S + e :=
    ⟨j / nd, j % nd, Nat.mod_lt _ hnd, (Nat.div_add_mod _ _).symm⟩
  rcases row_cases hA.zero_first hR with ⟨hz, rfl⟩ | ⟨p, hp, hRp⟩
  · rw [hsE_zero _ _ _ _ _ hz hd he, hsE_zero _ _ _ _ _ hz hd he, hsE_zero _ _ _ _ _ hz hd he]
    simp
  · rw [hsE_row _ _ _ _ _ hp hRp hd he, hsE_row _ _ _ _ _ hp hRp hd he, hsE_row _ _ _ _ _ hp hRp hd he]
    simp only [Bool.true_eq_false, and_false, if_false]
    split_ifs <;> ring

theorem hsDE_sub {h : List ℕ} (hA : Admissible h) (nd : ℕ) (M C : ℕ → ℕ → ℝ) (xi w : ℝ) :
    ∀ i < numCoeff h * nd, ∀ j < numCoeff h * nd,
      hsDE nd M (fun i j => C i j - xi * M i j) w h false i j = hsDE nd M C w h false i j
        + xi * hsDE nd (fun _ _ => 0) (fun i j => - M i j) w h true i j := by
  intro i hi j hj
  have h1 := hsE_hasDerivAt hA nd M (fun i j => C i j - xi * M i j) (fun _ _ => 0) false w i hi j hj
  have h2 := (hsE_hasDerivAt hA nd M C (fun _ _ => 0) false w i hi j hj).add
    ((hsE_hasDerivAt hA nd (fun _ _ => 0) (fun i j => - M i j) (fun _ _ => 0) true w i hi j hj).const_mul xi)
  refine h1.unique (h2.congr_of_eventuallyEq (Filter.Eventually.of_forall (fun w => ?_)))
  exact hsE_sub hA nd M C _ xi w i hi j hj

/-- The system with mass proportional negative damping. -/
def selfExcited (S : VibSys) (xi : ℝ) : VibSys := { S with C := fun i j => S.C i j - xi * S.M i j }

theorem hbmG_selfExcited (S : VibSys) {h : List ℕ} (hh : Admissible h) (A : NLForce → (ℕ → ℝ) → ℝ → AftOut)
    (Z : ℕ → ℝ) (xi : ℝ) {L : ℕ} (hL : L = numCoeff h * S.nd) (i : ℕ) (hi : i < L) :
    hbmG (selfExcited S xi) A h Z i = hbmG S A h Z i
      + xi * matVec L (hsE S.nd (fun _ _ => 0) (fun i j => - S.M i j) (fun _ _ => 0) (Z L) h true) (sl 0 L Z) i := by
  subst hL
  unfold hbmG selfExcited matVec
  rw [mul_sum, add_right_comm, ← sum_add_distrib]
  congr 1
  refine sum_congr rfl (fun k hk => ?_)
  rw [hsE_sub hh _ _ _ _ _ _ i hi k (mem_range.mp hk)]
  ring

theorem hbmJ_selfExcited (S : VibSys) {h : List ℕ} (hh : Admissible h) (A : NLForce → (ℕ → ℝ) → ℝ → AftOut)
    (Z : ℕ → ℝ) (xi : ℝ) {L : ℕ} (hL : L = numCoeff h * S.nd) (i : ℕ) (hi : i < L) (j : ℕ) (hj : j < L) :
    hbmJ (selfExcited S xi) A h Z i j = hbmJ S A h Z i j
      + xi * hsE S.nd (fun _ _ => 0) (fun i j => - S.M i j) (fun _ _ => 0) (Z L) h true i j := by
  subst hL
  unfold hbmJ selfExcited
  rw [hsE_sub hh _ _ _ _ _ _ i hi j hj]
  ring

theorem hbmD_selfExcited (S : VibSys) {h : List ℕ} (hh : Admissible h) (A : NLForce → (ℕ → ℝ) → ℝ → AftOut)
    (Z : ℕ → ℝ) (xi : ℝ) {L : ℕ} (hL : L = numCoeff h * S.nd) (i : ℕ) (hi : i < L) :
    hbmD (selfExcited S xi) A h Z i = hbmD S A h Z i
      + xi * matVec L (hsDE S.nd (fun _ _ => 0) (fun i j => - S.M i j) (Z L) h true) (sl 0 L Z) i := by
  subst hL
  unfold hbmD selfExcited matVec
  rw [mul_sum, add_right_comm, ← sum_add_distrib]
  congr 1
  refine sum_congr rfl (fun k hk => ?_)
  rw [hsDE_sub hh _ _ _ _ _ i hi k (mem_range.mp hk)]
  ring

/-- Quadratic form of block `p`. -/
def quad (nd : ℕ) (M : ℕ → ℕ → ℝ) (p : ℕ) (X : ℕ → ℝ) : ℝ :=
  ∑ d ∈ range nd, X (p * nd + d) * ctrl nd (M d) p X

theorem hasGrad_quad (n nd : ℕ) (M : ℕ → ℕ → ℝ) (hM : ∀ d < nd, ∀ e < nd, M d e = M e d) (p : ℕ) (x : ℕ → ℝ) :
    HasGrad n (quad nd M p)
      (fun j => if p * nd ≤ j ∧ j < (p + 1) * nd then ∑ k ∈ range nd, 2 * x (p * nd + k) * M k (j - p * nd) else 0) x := by
  have h1 : HasGrad n (quad nd M p) _ x := HasGrad.sum (n := n) (x := x) (s := range nd)
    (fun d _ => (HasGrad.coord (n := n) (x := x) (p * nd + d)).mul (hasGrad_ctrl n nd (M d) p x))
  refine h1.congr (fun j _ => ?_)
  by_cases hj : p * nd ≤ j ∧ j < (p + 1) * nd
  · simp only [if_pos hj]
    have hj' : j - p * nd < nd := by
      have := hj.2
      rw [Nat.add_mul, Nat.one_mul] at this
      omega
    rw [sum_add_distrib]
    have e2 : ∑ d ∈ range nd, ctrl nd (M d) p x * (if j = p * nd + d then 1 else 0)
        = ctrl nd (M (j - p * nd)) p x := by
      rw [sum_eq_single_of_mem (j - p * nd) (mem_range.mpr hj')]
      · have : j = p * nd + (j - p * nd) := by omega
        simp only [← this, if_true, mul_one]
      · intro e _ he
        have : ¬ j = p * nd + e := by omega
        simp [this]
    rw [e2]
    unfold ctrl
    rw [← sum_add_distrib]
    refine sum_congr rfl (fun e he => ?_)
    rw [hM _ hj' e (mem_range.mp he)]
    ring
  · simp only [if_neg hj]
    symm
    apply sum_eq_zero
    intro d hd
    have hd := mem_range.mp hd
    have : ¬ j = p * nd + d := by
      rw [Nat.add_mul, Nat.one_mul] at hj
      omega
    simp [this]

theorem vdot_quad (nd : ℕ) (M : ℕ → ℕ → ℝ) (X : ℕ → ℝ) (p : ℕ) :
    vdot nd (sl (p * nd) ((p + 1) * nd) X) (matVec nd M (sl (p * nd) ((p + 1) * nd) X)) = quad nd M p X := by
  unfold vdot quad
  refine sum_congr rfl (fun e he => ?_)
  have he := mem_range.mp he
  have h1 : (p + 1) * nd - p * nd = nd := by rw [Nat.add_mul]; omega
  have h2 : matVec nd M (sl (p * nd) ((p + 1) * nd) X) e = ctrl nd (M e) p X :=
    vdot_ctrl nd (M e) X rfl rfl
  rw [h2]
  simp [sl, h1, he]

theorem harmScale_eq {h : List ℕ} (hh : Admissible h) {nd i : ℕ} (hi : i < numCoeff h * nd) (a b : ℝ) :
    harmScale (zi h) nd a b i = if 0 ∈ h ∧ i < nd then a else b := by
  have hnd : 0 < nd := by
    by_contra hc
    have : nd = 0 := by omega
    subst this; simp at hi
  unfold harmScale
  simp only [Nat.div_lt_iff_lt_mul hnd, lt_zi_nd hh]

/-- Coefficients with all but the static ones multiplied by the amplitude. -/
def epmcU (S : VibSys) (h : List ℕ) (X : ℕ → ℝ) : ℕ → ℝ :=
  fun i => harmScale (zi h) S.nd 1 ((10:ℝ) ^ X (numCoeff h * S.nd + 2)) i * sl 0 (numCoeff h * S.nd) X i

def epmcZ (S : VibSys) (h : List ℕ) (X : ℕ → ℝ) : ℕ → ℝ :=
  hcat (numCoeff h * S.nd) (epmcU S h X) (fun _ => X (numCoeff h * S.nd))

theorem sl_epmcZ (S : VibSys) (h : List ℕ) (X : ℕ → ℝ) : sl 0 (numCoeff h * S.nd) (epmcZ S h X) = epmcU S h X := by
  funext i
  unfold epmcZ epmcU
  by_cases hi : i < numCoeff h * S.nd <;> simp [hcat, hi, sl]

theorem epmcZ_at (S : VibSys) (h : List ℕ) (X : ℕ → ℝ) :
    epmcZ S h X (numCoeff h * S.nd) = X (numCoeff h * S.nd) := hcat_at _ _

theorem epmcZ_eq (S : VibSys) {h : List ℕ} (hh : Admissible h) (X : ℕ → ℝ) {L : ℕ} (hL : L = numCoeff h * S.nd) :
    epmcZ S h X = fun i => if i < L then scaledForcing S.nd h X ((10:ℝ) ^ X (L + 2)) i else X L := by
  subst hL
  funext i
  unfold epmcZ epmcU hcat scaledForcing
  by_cases hi : i < numCoeff h * S.nd
  · simp only [hi, if_true, sl_zero hi, harmScale_eq hh hi]
    split <;> simp
  · simp [hi]

theorem epmc_ok (S : VibSys) {h : List ℕ} (hh : Admissible h) (hp : zi h + 2 ≤ numCoeff h) (Nt : ℕ) (tol : ℝ)
    (A : NLForce → (ℕ → ℝ) → ℝ → AftOut) (hA : ∀ f ∈ S.forces, ∀ U w, f.aft U w h Nt tol = .ok (A f U w))
    (X Fl : ℕ → ℝ) {L : ℕ} (hL : L = numCoeff h * S.nd) :
    ∃ R J d, epmcRes S X Fl h Nt tol true = .ok ⟨R, some (J, d)⟩ ∧
      (∀ i < L, R i = hbmG (selfExcited S (X (L + 1))) A h (epmcZ S h X) i - harmScale (zi h) S.nd 1 0 i * Fl i) ∧
      R L = quad S.nd S.M (zi h) X + quad S.nd S.M (zi h + 1) X - 1 ∧
      R (L + 1) = ∑ k ∈ range L, harmScale (zi h) S.nd 0 1 k * Fl k * X k ∧
      (∀ i < L, ∀ j < L, J i j = hbmJ (selfExcited S (X (L + 1))) A h (epmcZ S h X) i j
        * harmScale (zi h) S.nd 1 ((10:ℝ) ^ X (L + 2)) j) ∧
      (∀ i < L, J i L = hbmD (selfExcited S (X (L + 1))) A h (epmcZ S h X) i) ∧
      (∀ i < L, J i (L + 1) = matVec L (hsE S.nd (fun _ _ => 0) (fun i j => - S.M i j) (fun _ _ => 0) (X L) h true)
        (epmcU S h X) i) ∧
      (∀ i < L, d i = matVec L (hbmJ (selfExcited S (X (L + 1))) A h (epmcZ S h X))
        (fun k => harmScale (zi h) S.nd 0 ((10:ℝ) ^ X (L + 2) * Real.log 10) k * X k) i) ∧
      (∀ j < L + 2, J L j = (if zi h * S.nd ≤ j ∧ j < (zi h + 1) * S.nd
          then ∑ k ∈ range S.nd, 2 * X (zi h * S.nd + k) * S.M k (j - zi h * S.nd) else 0)
        + (if (zi h + 1) * S.nd ≤ j ∧ j < (zi h + 1 + 1) * S.nd
          then ∑ k ∈ range S.nd, 2 * X ((zi h + 1) * S.nd + k) * S.M k (j - (zi h + 1) * S.nd) else 0)) ∧
      (∀ j < L + 2, J (L + 1) j = if j < L then harmScale (zi h) S.nd 0 1 j * Fl j else 0) ∧
      d L = 0 ∧ d (L + 1) = 0 := by
  subst hL
  have hb1 : (zi h + 1) * S.nd ≤ numCoeff h * S.nd := Nat.mul_le_mul_right _ (by omega)
  have hb2 : (zi h + 2) * S.nd ≤ numCoeff h * S.nd := Nat.mul_le_mul_right _ (by omega)
  refine ⟨?R, ?J, ?d, ?h1, ?h2⟩
  case h1 =>
    unfold epmcRes
    rw [Nhc_ok hh.nodup]
    simp only [if_neg hh.ne, harmonicStiffness_ok hh, if_true]
    rw [totalAft_ok S hh.nodup _ _ Nt tol _ (fun f hf => hA f hf _ _)]
  case h2 =>
    set L := numCoeff h * S.nd with hL
    have n1 : ¬ L + 1 < L := by omega
    have n2 : L + 1 ≠ L := by omega
    refine ⟨fun i hi => ?_, ?_, ?_, fun i hi j hj => ?_, fun i hi => ?_, fun i hi => ?_, fun i hi => ?_,
      fun j hj => ?_, fun j hj => ?_, ?_, ?_⟩
    · simp only [if_pos hi]
      simp only [hbmG, selfExcited, sl_epmcZ, epmcZ_at]
      rfl
    · simp only [lt_irrefl, if_false, if_true, ← vdot_quad]
    · simp only [if_neg n1, if_neg n2]
      unfold vdot
      exact sum_congr rfl (fun k hk => by rw [sl_zero (mem_range.mp hk)])
    · have a1 : ¬ (L + 1 ≤ i ∧ i < L + 2) := by omega
      have a2 : ¬ (L ≤ i ∧ i < L + 1) := by omega
      have a3 : ¬ (L + 1 ≤ j ∧ j < L + 2) := by omega
      have a4 : ¬ (L ≤ j ∧ j < L + 1) := by omega
      simp only [setBlock, a1, a2, a3, a4, false_and, and_false, if_false, Nat.zero_le, true_and, hi, hj, and_self,
        if_true, Nat.sub_zero]
      simp only [hbmJ, selfExcited, sl_epmcZ, epmcZ_at]
      rfl
    · have a1 : ¬ (L + 1 ≤ i ∧ i < L + 2) := by omega
      have a2 : ¬ (L ≤ i ∧ i < L + 1) := by omega
      have a3 : ¬ (L + 1 ≤ L ∧ L < L + 2) := by omega
      have a4 : (L ≤ L ∧ L < L + 1) := by omega
      simp only [setBlock, a1, a2, a3, a4, false_and, and_false, if_false, Nat.zero_le, true_and, hi, and_self,
        if_true, Nat.sub_zero]
      simp only [hbmD, selfExcited, sl_epmcZ, epmcZ_at]
      rfl
    · have a1 : ¬ (L + 1 ≤ i ∧ i < L + 2) := by omega
      have a2 : ¬ (L ≤ i ∧ i < L + 1) := by omega
      have a3 : (L + 1 ≤ L + 1 ∧ L + 1 < L + 2) := by omega
      simp only [setBlock, a1, a2, a3, false_and, if_false, Nat.zero_le, true_and, hi, and_self,
        if_true, Nat.sub_zero]
      rfl
    · have a1 : (0 ≤ i ∧ i < L) := by omega
      simp only [setSlice, a1, and_self, if_true, Nat.sub_zero]
      unfold matVec
      refine sum_congr rfl (fun k hk => ?_)
      simp only [hbmJ, selfExcited, sl_epmcZ, epmcZ_at, sl_zero (mem_range.mp hk)]
      rfl
    · have a1 : ¬ (L + 1 ≤ L ∧ L < L + 2) := by omega
      have a2 : (L ≤ L ∧ L < L + 1) := by omega
      have a3 : ¬ (0 ≤ L ∧ L < L) := by omega
      simp only [setBlock, a1, a2, a3, false_and, if_false, true_and, and_self]
      have s1 : (zi h + 1) * S.nd - zi h * S.nd = S.nd := by rw [Nat.add_mul]; omega
      have s2 : (zi h + 2) * S.nd - (zi h + 1) * S.nd = S.nd := by rw [Nat.add_mul, Nat.add_mul]; omega
      have t1 : ∀ k < S.nd, sl (zi h * S.nd) ((zi h + 1) * S.nd) X k = X (zi h * S.nd + k) := by
        intro k hk; simp [sl, s1, hk]
      have t2 : ∀ k < S.nd, sl ((zi h + 1) * S.nd) ((zi h + 2) * S.nd) X k = X ((zi h + 1) * S.nd + k) := by
        intro k hk; simp [sl, s2, hk]
      rw [show zi h + 1 + 1 = zi h + 2 by omega]
      by_cases c1 : (zi h + 1) * S.nd ≤ j ∧ j < (zi h + 2) * S.nd
      · have c2 : ¬ (zi h * S.nd ≤ j ∧ j < (zi h + 1) * S.nd) := by omega
        simp only [if_pos c1, if_neg c2, zero_add]
        exact sum_congr rfl (fun k hk => by rw [t2 k (mem_range.mp hk)])
      · by_cases c2 : zi h * S.nd ≤ j ∧ j < (zi h + 1) * S.nd
        · simp only [if_neg c1, if_pos c2, add_zero]
          exact sum_congr rfl (fun k hk => by rw [t1 k (mem_range.mp hk)])
        · simp only [if_neg c1, if_neg c2, add_zero]
    · have a1 : (L + 1 ≤ L + 1 ∧ L + 1 < L + 2) := by omega
      have a2 : ¬ (L ≤ L + 1 ∧ L + 1 < L + 1) := by omega
      have a3 : ¬ (0 ≤ L + 1 ∧ L + 1 < L) := by omega
      simp only [setBlock, a1, a2, n1, false_and, and_false, if_false, true_and, and_self, Nat.zero_le, Nat.sub_zero]
    · simp [setSlice]
    · simp [setSlice]

theorem epmc_ng (S : VibSys) {h : List ℕ} (hh : Admissible h) (Nt : ℕ) (tol : ℝ)
    (A : NLForce → (ℕ → ℝ) → ℝ → AftOut) (hA : ∀ f ∈ S.forces, ∀ U w, f.aft U w h Nt tol = .ok (A f U w) ∧
      f.aftNoGrad U w h Nt tol = .ok (A f U w).F) (X Fl : ℕ → ℝ) :
    ∃ R g, epmcRes S X Fl h Nt tol true = .ok ⟨R, some g⟩ ∧ epmcRes S X Fl h Nt tol false = .ok ⟨R, none⟩ := by
  refine ⟨?R, ?g, ?h1, ?h2⟩
  case h1 =>
    unfold epmcRes
    rw [Nhc_ok hh.nodup]
    simp only [if_neg hh.ne, harmonicStiffness_ok hh, if_true]
    rw [totalAft_ok S hh.nodup _ _ Nt tol _ (fun f hf => (hA f hf _ _).1)]
  case h2 =>
    unfold epmcRes
    rw [Nhc_ok hh.nodup]
    simp only [if_neg hh.ne, harmonicStiffness_ok hh, Bool.false_eq_true, if_false]
    rw [totalAft_ng S hh.nodup _ _ Nt tol _ (fun f hf => (hA f hf _ _).2)]

theorem harmScale_mul (h0 nd : ℕ) (c : ℝ) (i : ℕ) : harmScale h0 nd 0 c i = c * harmScale h0 nd 0 1 i := by
  unfold harmScale; split <;> simp

theorem hasGrad_epmcU {n nd k L : ℕ} {h : List ℕ} (hk : k < L) (X : ℕ → ℝ) :
    HasGrad n (fun X => harmScale (zi h) nd 1 ((10:ℝ) ^ X (L + 2)) k * X k)
      (fun j => (if j = k then harmScale (zi h) nd 1 ((10:ℝ) ^ X (L + 2)) k else 0)
        + (if j = L + 2 then harmScale (zi h) nd 0 ((10:ℝ) ^ X (L + 2) * Real.log 10) k * X k else 0)) X := by
  unfold harmScale
  by_cases c : k / nd < zi h
  · simp only [if_pos c]
    refine ((HasGrad.coord (n := n) (x := X) k).const_mul 1).congr (fun j _ => ?_)
    by_cases hj : j = k <;> simp [hj]
  · simp only [if_neg c]
    have h1 := hasGrad_entry (n := n) (x := X) (q := L + 2) (e := fun a => (10:ℝ) ^ a)
      ((Real.hasStrictDerivAt_const_rpow (by norm_num : (0:ℝ) < 10) (X (L + 2))).hasDerivAt)
    refine (h1.mul (HasGrad.coord (n := n) (x := X) k)).congr (fun j _ => ?_)
    by_cases hj : j = k
    · have : k ≠ L + 2 := by omega
      simp [hj, this]
    · by_cases hj2 : j = L + 2
      · have : L + 2 ≠ k := by omega
        simp only [hj2, this, if_true, if_false]; ring
      · simp [hj, hj2]

end

end TMD
