import Verif.Props.Epmc
import Verif.Props.LinearFrf
import Verif.Props.FrfLaws
import Verif.Props.HarmonicList

/-!
# Property C127 (the extended periodic motion concept of a linear system)

For a linear system with proportional damping the solutions of `epmc_res` are the modes: the frequency is a natural
frequency, the coefficient `xi` is the modal damping, and neither depends on the amplitude.
-/

namespace TMD

open Spec Finset

noncomputable section

/-- Modal coordinate `j` of the vector `p`: `φ_jᵀ M p`. -/
def modalCoord (n : ℕ) (M V : ℕ → ℕ → ℝ) (p : ℕ → ℝ) (j : ℕ) : ℝ :=
  ∑ d ∈ range n, V d j * ∑ e ∈ range n, M d e * p e

/-- Cosine and sine coefficients of harmonic `k` of degree of freedom `e`. -/
def harm (h : List ℕ) (nd : ℕ) (U : ℕ → ℝ) (k e : ℕ) : ℝ × ℝ := coefOf h (fun r => U (r * nd + e)) k

variable {n : ℕ} {M K V : ℕ → ℕ → ℝ} {lam : ℕ → ℝ}

/-- A vector is the sum of its modal parts. -/
theorem modal_expand (B : ModalBasis n M K lam V) (p : ℕ → ℝ) {e : ℕ} (he : e < n) :
    p e = ∑ j ∈ range n, V e j * modalCoord n M V p j := by
  let Vm : Matrix (Fin n) (Fin n) ℝ := fun i j => V i j
  let W : Matrix (Fin n) (Fin n) ℝ := fun j e => ∑ d ∈ range n, V d j * M d e
  have h1 : W * Vm = 1 := by
    ext i j
    rw [Matrix.mul_apply, Matrix.one_apply]
    have := B.orth i i.2 j j.2
    simp only [W, Vm]
    rw [Fin.sum_univ_eq_sum_range (fun e => (∑ d ∈ range n, V d i * M d e) * V e j) n]
    simp only [Fin.ext_iff]
    rw [← this]
    simp only [sum_mul, mul_sum]
    rw [sum_comm]
    exact sum_congr rfl fun d _ => sum_congr rfl fun e _ => by ring
  have h2 := mul_eq_one_comm.mp h1
  have h3 : ∀ f < n, ∑ j ∈ range n, V e j * ∑ d ∈ range n, V d j * M d f = if e = f then 1 else 0 := by
    intro f hf
    have := congrFun (congrFun h2 ⟨e, he⟩) ⟨f, hf⟩
    rw [Matrix.mul_apply, Matrix.one_apply] at this
    rw [← Fin.sum_univ_eq_sum_range (fun j => V e j * ∑ d ∈ range n, V d j * M d f) n]
    simpa [Vm, W, Fin.ext_iff] using this
  have h4 : ∑ j ∈ range n, V e j * modalCoord n M V p j
      = ∑ f ∈ range n, (∑ j ∈ range n, V e j * ∑ d ∈ range n, V d j * M d f) * p f := by
    simp only [modalCoord, mul_sum, sum_mul]
    rw [sum_comm (s := range n) (t := range n) (f := fun f j => ∑ d ∈ range n, V e j * (V d j * M d f) * p f)]
    refine sum_congr rfl fun j _ => ?_
    rw [sum_comm]
    exact sum_congr rfl fun _ _ => sum_congr rfl fun _ _ => by ring
  rw [h4, sum_congr rfl fun f hf => by rw [h3 f (mem_range.1 hf)], sum_eq_single_of_mem e (mem_range.2 he)]
  · simp
  · intro f _ hf; simp [Ne.symm hf]

/-- The modal mass of a vector is the sum of the squares of its modal coordinates. -/
theorem modal_parseval (B : ModalBasis n M K lam V) (p : ℕ → ℝ) :
    ∑ d ∈ range n, ∑ e ∈ range n, M d e * (p d * p e) = ∑ j ∈ range n, modalCoord n M V p j ^ 2 := by
  have : ∀ d ∈ range n, ∑ e ∈ range n, M d e * (p d * p e)
      = ∑ j ∈ range n, modalCoord n M V p j * (V d j * ∑ e ∈ range n, M d e * p e) := by
    intro d hd
    have e1 : ∑ e ∈ range n, M d e * (p d * p e) = p d * ∑ e ∈ range n, M d e * p e := by
      rw [mul_sum]; exact sum_congr rfl fun _ _ => by ring
    rw [e1]
    conv_lhs => rw [modal_expand B p (mem_range.1 hd), sum_mul]
    exact sum_congr rfl fun _ _ => by ring
  rw [sum_congr rfl this, sum_comm]
  refine sum_congr rfl fun j _ => ?_
  rw [← mul_sum]
  show _ * modalCoord n M V p j = _
  ring

/-- Rows of the form `M φ_j y_j` vanish only with the `y_j`. -/
theorem modal_rows_zero (B : ModalBasis n M K lam V) (y : ℕ → ℝ) :
    (∀ d < n, ∑ j ∈ range n, (∑ e ∈ range n, M d e * V e j) * y j = 0) ↔ ∀ j < n, y j = 0 := by
  constructor
  · intro H i hi
    have : ∑ d ∈ range n, V d i * ∑ j ∈ range n, (∑ e ∈ range n, M d e * V e j) * y j
        = ∑ j ∈ range n, (∑ d ∈ range n, V d i * ∑ e ∈ range n, M d e * V e j) * y j := by
      rw [sum_congr rfl fun d _ => mul_sum (range n) (fun j => (∑ e ∈ range n, M d e * V e j) * y j) (V d i), sum_comm]
      refine sum_congr rfl fun j _ => ?_
      rw [sum_mul]
      exact sum_congr rfl fun d _ => by ring
    rw [sum_congr rfl fun d hd => by rw [H d (mem_range.1 hd), mul_zero], sum_const_zero,
      sum_congr rfl fun j hj => by rw [B.orth i hi j (mem_range.1 hj)], sum_eq_single_of_mem i (mem_range.2 hi)] at this
    · simpa using this.symm
    · intro j _ hj; simp [Ne.symm hj]
  · intro H d _
    exact sum_eq_zero fun j hj => by rw [H j (mem_range.1 hj), mul_zero]

/-- The linear dynamics of one harmonic, damping `C - xi M`, in modal coordinates. -/
theorem dynCoef_modal (B : ModalBasis n M K lam V) {C : ℕ → ℕ → ℝ} {a b : ℝ}
    (hC : ∀ d < n, ∀ e < n, C d e = a * M d e + b * K d e) (xi w : ℝ) (k : ℕ) (p : ℕ → ℝ × ℝ) :
    (∀ d < n, dynCoef n M (fun i j => C i j - xi * M i j) K w k p d = (0, 0)) ↔ ∀ j < n,
      (lam j - (k * w)^2) * modalCoord n M V (fun e => (p e).1) j
        + k * w * (a + b * lam j - xi) * modalCoord n M V (fun e => (p e).2) j = 0 ∧
      (lam j - (k * w)^2) * modalCoord n M V (fun e => (p e).2) j
        - k * w * (a + b * lam j - xi) * modalCoord n M V (fun e => (p e).1) j = 0 := by
  set q1 := modalCoord n M V (fun e => (p e).1) with h1
  set q2 := modalCoord n M V (fun e => (p e).2) with h2
  have E1 : ∀ e < n, (p e).1 = ∑ j ∈ range n, V e j * q1 j := fun e he => modal_expand B (fun e => (p e).1) he
  have E2 : ∀ e < n, (p e).2 = ∑ j ∈ range n, V e j * q2 j := fun e he => modal_expand B (fun e => (p e).2) he
  have L : ∀ d < n, ∀ (X q : ℕ → ℝ), (∀ e < n, X e = ∑ j ∈ range n, V e j * q j) →
      ∑ e ∈ range n, K d e * X e = ∑ j ∈ range n, (∑ e ∈ range n, M d e * V e j) * (lam j * q j) ∧
      ∑ e ∈ range n, M d e * X e = ∑ j ∈ range n, (∑ e ∈ range n, M d e * V e j) * (1 * q j) := by
    intro d hd X q hX
    exact ⟨modal_line (fun j hj => B.eig d hd j hj) X q hX, modal_line (μ := fun _ => 1) (fun j _ => by rw [one_mul]) X q hX⟩
  have key : ∀ d < n, dynCoef n M (fun i j => C i j - xi * M i j) K w k p d =
      (∑ j ∈ range n, (∑ e ∈ range n, M d e * V e j) * ((lam j - (k * w)^2) * q1 j + k * w * (a + b * lam j - xi) * q2 j),
       ∑ j ∈ range n, (∑ e ∈ range n, M d e * V e j) * ((lam j - (k * w)^2) * q2 j - k * w * (a + b * lam j - xi) * q1 j)) := by
    intro d hd
    obtain ⟨k1, m1⟩ := L d hd _ _ E1
    obtain ⟨k2, m2⟩ := L d hd _ _ E2
    unfold dynCoef
    refine Prod.ext ?_ ?_
    · show ∑ e ∈ range n, _ = _
      have : ∀ e ∈ range n, (k * w) * (C d e - xi * M d e) * (p e).2 + (K d e - (k * w) ^ 2 * M d e) * (p e).1
          = K d e * (p e).1 - (k * w)^2 * (M d e * (p e).1) + k * w * (a - xi) * (M d e * (p e).2) + k * w * b * (K d e * (p e).2) := by
        intro e he
        rw [hC d hd e (mem_range.1 he)]; ring
      rw [sum_congr rfl this, sum_add_distrib, sum_add_distrib, sum_sub_distrib, ← mul_sum, ← mul_sum, ← mul_sum, k1, k2, m1, m2,
        mul_sum, mul_sum, mul_sum, ← sum_sub_distrib, ← sum_add_distrib, ← sum_add_distrib]
      exact sum_congr rfl fun j _ => by ring
    · show ∑ e ∈ range n, _ = _
      have : ∀ e ∈ range n, -((k * w) * (C d e - xi * M d e) * (p e).1) + (K d e - (k * w) ^ 2 * M d e) * (p e).2
          = K d e * (p e).2 - (k * w)^2 * (M d e * (p e).2) - k * w * (a - xi) * (M d e * (p e).1) - k * w * b * (K d e * (p e).1) := by
        intro e he
        rw [hC d hd e (mem_range.1 he)]; ring
      rw [sum_congr rfl this, sum_sub_distrib, sum_sub_distrib, sum_sub_distrib, ← mul_sum, ← mul_sum, ← mul_sum, k1, k2, m1, m2,
        mul_sum, mul_sum, mul_sum, ← sum_sub_distrib, ← sum_sub_distrib, ← sum_sub_distrib]
      exact sum_congr rfl fun j _ => by ring
  constructor
  · intro H
    have A := (modal_rows_zero B (fun j => (lam j - (k * w)^2) * q1 j + k * w * (a + b * lam j - xi) * q2 j)).1
      fun d hd => by have := H d hd; rw [key d hd] at this; exact congrArg Prod.fst this
    have A' := (modal_rows_zero B (fun j => (lam j - (k * w)^2) * q2 j - k * w * (a + b * lam j - xi) * q1 j)).1
      fun d hd => by have := H d hd; rw [key d hd] at this; exact congrArg Prod.snd this
    exact fun j hj => ⟨A j hj, A' j hj⟩
  · intro H d hd
    rw [key d hd]
    exact Prod.ext ((modal_rows_zero B _).2 (fun j hj => (H j hj).1) d hd) ((modal_rows_zero B _).2 (fun j hj => (H j hj).2) d hd)

/-- Two coordinates in a rotation-scaling equation are zero, or the equation is. -/
theorem pair_zero {x c q1 q2 : ℝ} : (x * q1 + c * q2 = 0 ∧ x * q2 - c * q1 = 0) ↔ (q1 = 0 ∧ q2 = 0) ∨ (x = 0 ∧ c = 0) := by
  constructor
  · rintro ⟨h1, h2⟩
    by_cases hD : x = 0 ∧ c = 0
    · exact Or.inr hD
    · left
      have hp : x^2 + c^2 ≠ 0 := by
        intro h
        apply hD
        constructor <;> nlinarith [sq_nonneg x, sq_nonneg c]
      have e1 : (x^2 + c^2) * q1 = 0 := by linear_combination x * h1 - c * h2
      have e2 : (x^2 + c^2) * q2 = 0 := by linear_combination c * h1 + x * h2
      exact ⟨(mul_eq_zero.1 e1).resolve_left hp, (mul_eq_zero.1 e2).resolve_left hp⟩
  · rintro (⟨h1, h2⟩ | ⟨h1, h2⟩) <;> simp [h1, h2]

theorem harm_epmcZ (S : VibSys) {h : List ℕ} (hh : Admissible h) (X : ℕ → ℝ) {d : ℕ} (hd : d < S.nd) (k : ℕ) :
    coefOf h (fun r => epmcZ S h X (r * S.nd + d)) k
      = (if k = 0 then 1 else (10:ℝ) ^ X (numCoeff h * S.nd + 2)) • harm h S.nd X k d := by
  unfold harm
  rw [← coefOf_harmScale hh _ _ _ hd]
  refine coefOf_rows (fun r hr => ?_) k
  simp only [epmcZ, hcat, row_lt hr hd, if_true, epmcU, sl_zero (row_lt hr hd)]

theorem dynCoef_smul (n : ℕ) (M C K : ℕ → ℕ → ℝ) (w : ℝ) (k : ℕ) (c : ℝ) (p : ℕ → ℝ × ℝ) (d : ℕ) :
    dynCoef n M C K w k (fun e => c • p e) d = c • dynCoef n M C K w k p d := by
  unfold dynCoef
  simp only [Prod.smul_mk, smul_eq_mul, Prod.smul_fst, Prod.smul_snd, mul_sum]
  refine Prod.ext ?_ ?_
  · show ∑ e ∈ range n, _ = ∑ e ∈ range n, _
    exact sum_congr rfl fun e _ => by ring
  · show ∑ e ∈ range n, _ = ∑ e ∈ range n, _
    exact sum_congr rfl fun e _ => by ring

/-- C127: for a linear system with proportional damping (all modes known, `w ≠ 0`) the residual of the extended
periodic motion concept vanishes exactly if every mode that takes part in harmonic `k` has the natural frequency
`k w` and the modal damping `xi`, the mean is the static deflection, the modal mass is one and the phase condition
holds. The amplitude does not appear. -/
theorem C127_linear (S : VibSys) (hS : S.forces = []) {a b : ℝ}
    (hC : ∀ d < S.nd, ∀ e < S.nd, S.C d e = a * S.M d e + b * S.K d e)
    (B : ModalBasis S.nd S.M S.K lam V) (h : List ℕ) (hh : Admissible h) (h1 : ∃ hs, h = 1 :: hs ∨ h = 0 :: 1 :: hs)
    (Nt : ℕ) (tol : ℝ) (X Fl : ℕ → ℝ) :
    let L := numCoeff h * S.nd
    X L ≠ 0 →
    ∃ R g, epmcRes S X Fl h Nt tol true = .ok ⟨R, some g⟩ ∧
      ((∀ i < L + 2, R i = 0) ↔
        (∀ k ∈ h, k ≠ 0 → ∀ j < S.nd,
          (modalCoord S.nd S.M V (fun e => (harm h S.nd X k e).1) j = 0 ∧
            modalCoord S.nd S.M V (fun e => (harm h S.nd X k e).2) j = 0) ∨
          (lam j = (k * X L)^2 ∧ X (L + 1) = a + b * lam j)) ∧
        (0 ∈ h → ∀ d < S.nd, ∑ e ∈ range S.nd, S.K d e * X e = Fl d) ∧
        modalMass S.nd S.M h X = 1 ∧
        ∑ i ∈ (range L).filter (fun i => ¬ (0 ∈ h ∧ i < S.nd)), Fl i * X i = 0) := by
  intro L hw
  let A : NLForce → (ℕ → ℝ) → ℝ → AftOut := fun _ _ _ => ⟨fun _ => 0, fun _ _ => 0, fun _ => 0⟩
  have hA : ∀ f ∈ S.forces, ∀ U w, f.aft U w h Nt tol = .ok (A f U w) := by simp [hS]
  obtain ⟨R, g, R', g', e1, e2, e3⟩ := C49_zero_iff S h hh h1 Nt tol A hA X Fl
  refine ⟨R, g, e1, e3.trans ?_⟩
  refine Iff.trans ?_ and_assoc
  refine and_congr_left fun _ => ?_
  have e4 := hbmRes_ok (selfExcited S (X (L + 1))) hh Nt tol A hA (epmcZ S h X) (scaledForcing S.nd h Fl 0)
  rw [epmcZ_eq S hh X rfl] at e4
  unfold selfExcited at e4
  rw [e2] at e4
  have eR : R' = fun i => hbmG (selfExcited S (X (L + 1))) A h (epmcZ S h X) i - scaledForcing S.nd h Fl 0 i := by
    have := congrArg ResOut.R (Except.ok.inj e4)
    rw [epmcZ_eq S hh X rfl]
    exact this
  have hrow : ∀ d < S.nd, ∀ k ∈ h, coefOf h (fun r => R' (r * S.nd + d)) k
      = (if k = 0 then (1:ℝ) else (10:ℝ) ^ X (L + 2))
          • dynCoef S.nd S.M (fun i j => S.C i j - X (L + 1) * S.M i j) S.K (X L) k (harm h S.nd X k) d
        - (if k = 0 then (1:ℝ) else 0) • harm h S.nd Fl k d := by
    intro d hd k hk
    have f1 : coefOf h (fun r => scaledForcing S.nd h Fl 0 (r * S.nd + d)) k
        = (if k = 0 then (1:ℝ) else 0) • harm h S.nd Fl k d := by
      unfold harm
      rw [← coefOf_harmScale hh _ _ _ hd]
      refine coefOf_rows (fun r hr => ?_) k
      rw [harmScale_eq hh (row_lt hr hd)]
      unfold scaledForcing
      split <;> simp
    have f2 : coefOf h (fun r => hbmG (selfExcited S (X (L + 1))) A h (epmcZ S h X) (r * S.nd + d)) k
        = (if k = 0 then (1:ℝ) else (10:ℝ) ^ X (L + 2))
          • dynCoef S.nd S.M (fun i j => S.C i j - X (L + 1) * S.M i j) S.K (X L) k (harm h S.nd X k) d := by
      have := coefOf_hbmG (selfExcited S (X (L + 1))) hh A (epmcZ S h X) (d := d) hd hk
      have hf : (selfExcited S (X (L + 1))).forces = [] := hS
      rw [hf, List.map_nil, List.sum_nil, add_zero] at this
      have this : coefOf h (fun r => hbmG (selfExcited S (X (L + 1))) A h (epmcZ S h X) (r * S.nd + d)) k
        = dynCoef S.nd S.M (fun i j => S.C i j - X (L + 1) * S.M i j) S.K (epmcZ S h X (numCoeff h * S.nd)) k
          (fun e => coefOf h (fun r => epmcZ S h X (r * S.nd + e)) k) d := this
      rw [this, epmcZ_at, ← dynCoef_smul]
      exact dynCoef_congr (fun e he => harm_epmcZ S hh X he k) d
    rw [eR]
    beta_reduce
    rw [coefOf_sub, f1, f2]
  rw [zero_of_coefOf hh]
  have hamp : (10:ℝ) ^ X (L + 2) ≠ 0 := (Real.rpow_pos_of_pos (by norm_num) _).ne'
  have hk0 : ∀ k ∈ h, k ≠ 0 → ((∀ d < S.nd, coefOf h (fun r => R' (r * S.nd + d)) k = (0, 0)) ↔ ∀ j < S.nd,
          (modalCoord S.nd S.M V (fun e => (harm h S.nd X k e).1) j = 0 ∧
            modalCoord S.nd S.M V (fun e => (harm h S.nd X k e).2) j = 0) ∨
          (lam j = (k * X L)^2 ∧ X (L + 1) = a + b * lam j)) := by
    intro k hk hk0
    have s1 : (∀ d < S.nd, coefOf h (fun r => R' (r * S.nd + d)) k = (0, 0)) ↔ ∀ d < S.nd,
        dynCoef S.nd S.M (fun i j => S.C i j - X (L + 1) * S.M i j) S.K (X L) k (harm h S.nd X k) d = (0, 0) := by
      refine forall₂_congr fun d hd => ?_
      rw [hrow d hd k hk, if_neg hk0, if_neg hk0, zero_smul, sub_zero]
      exact ⟨fun H => (smul_eq_zero.1 H).resolve_left hamp, fun H => by rw [H]; simp⟩
    rw [s1, dynCoef_modal B hC]
    refine forall₂_congr fun j _ => ?_
    rw [pair_zero]
    refine or_congr Iff.rfl ?_
    have hkw : (k : ℝ) * X L ≠ 0 := mul_ne_zero (Nat.cast_ne_zero.2 hk0) hw
    constructor
    · rintro ⟨u, v⟩
      have := (mul_eq_zero.1 v).resolve_left hkw
      exact ⟨by linarith, by linarith⟩
    · rintro ⟨u, v⟩
      refine ⟨by linarith, ?_⟩
      rw [v]; ring
  have hz0 : 0 ∈ h → ((∀ d < S.nd, coefOf h (fun r => R' (r * S.nd + d)) 0 = (0, 0)) ↔
      ∀ d < S.nd, ∑ e ∈ range S.nd, S.K d e * X e = Fl d) := by
    intro h0
    have hz : zi h = 1 := by
      rcases mem_cases hh h0 with ⟨hz, -⟩ | ⟨i, hi, he⟩
      · exact hz
      · exact absurd he.symm (getD_ne_zero hh.zero_first hi)
    have hm : ∀ (U : ℕ → ℝ) (e : ℕ), harm h S.nd U 0 e = (U e, 0) := fun U e => by
      unfold harm
      rw [coefOf_zero hh.zero_first, meanCoef, if_pos hz]
      simp
    refine forall₂_congr fun d hd => ?_
    rw [hrow d hd 0 h0, if_pos rfl, if_pos rfl, one_smul, one_smul, hm]
    unfold dynCoef
    simp only [hm, Nat.cast_zero, zero_mul, mul_zero, zero_add, neg_zero, ne_eq, OfNat.ofNat_ne_zero, not_false_eq_true,
      zero_pow, sub_zero, sum_const_zero, Prod.mk_sub_mk, Prod.mk.injEq, and_true]
    exact sub_eq_zero
  constructor
  · intro H
    exact ⟨fun k hk k0 => (hk0 k hk k0).1 fun d hd => H d hd k hk, fun h0 => (hz0 h0).1 fun d hd => H d hd 0 h0⟩
  · rintro ⟨H1, H2⟩ d hd k hk
    by_cases k0 : k = 0
    · subst k0
      exact (hz0 hk).2 (H2 hk) d hd
    · exact (hk0 k hk k0).2 (H1 k hk k0) d hd

/-- The modal mass is the sum of the squared modal coordinates of harmonic 1. -/
theorem modalMass_coord (B : ModalBasis n M K lam V) (h : List ℕ) (U : ℕ → ℝ) : modalMass n M h U
    = ∑ j ∈ range n, (modalCoord n M V (fun e => (harm h n U 1 e).1) j ^ 2
        + modalCoord n M V (fun e => (harm h n U 1 e).2) j ^ 2) := by
  rw [sum_add_distrib, ← modal_parseval B, ← modal_parseval B, ← sum_add_distrib]
  unfold modalMass harm
  refine sum_congr rfl fun d _ => ?_
  rw [← sum_add_distrib]
  exact sum_congr rfl fun e _ => by ring

/-- Coordinates of a multiple of mode `i`. -/
theorem modalCoord_mode (B : ModalBasis n M K lam V) {i j : ℕ} (hi : i < n) (hj : j < n) (c : ℝ) {p : ℕ → ℝ}
    (hp : ∀ e < n, p e = c * V e i) : modalCoord n M V p j = if j = i then c else 0 := by
  have : modalCoord n M V p j = c * ∑ d ∈ range n, V d j * ∑ e ∈ range n, M d e * V e i := by
    unfold modalCoord
    rw [mul_sum]
    refine sum_congr rfl fun d _ => ?_
    rw [sum_congr rfl fun e he => by rw [hp e (mem_range.1 he)], mul_sum, mul_sum, mul_sum]
    exact sum_congr rfl fun e _ => by ring
  rw [this, B.orth j hj i hi]
  split <;> simp

theorem one_mem_of_first {h : List ℕ} (h1 : ∃ hs, h = 1 :: hs ∨ h = 0 :: 1 :: hs) : 1 ∈ h := by
  obtain ⟨hs, rfl | rfl⟩ := h1 <;> simp

/-- C127, frequency and damping: at a solution `w` is a natural frequency and `xi` the damping of that mode. -/
theorem C127_mode (S : VibSys) (hS : S.forces = []) {a b : ℝ}
    (hC : ∀ d < S.nd, ∀ e < S.nd, S.C d e = a * S.M d e + b * S.K d e)
    (B : ModalBasis S.nd S.M S.K lam V) (h : List ℕ) (hh : Admissible h) (h1 : ∃ hs, h = 1 :: hs ∨ h = 0 :: 1 :: hs)
    (Nt : ℕ) (tol : ℝ) (X Fl R : ℕ → ℝ) (g : Option ((ℕ → ℕ → ℝ) × (ℕ → ℝ))) :
    let L := numCoeff h * S.nd
    0 < X L → epmcRes S X Fl h Nt tol true = .ok ⟨R, g⟩ → (∀ i < L + 2, R i = 0) →
    ∃ j < S.nd, X L = Real.sqrt (lam j) ∧ X (L + 1) = a + b * lam j ∧
      X (L + 1) / (2 * X L) = a / (2 * Real.sqrt (lam j)) + b * Real.sqrt (lam j) / 2 := by
  intro L hw hR h0
  obtain ⟨R', g', e1, e2⟩ := C127_linear S hS hC B h hh h1 Nt tol X Fl hw.ne'
  rw [hR] at e1
  obtain rfl : R = R' := congrArg ResOut.R (Except.ok.inj e1)
  obtain ⟨H1, -, H3, -⟩ := e2.1 h0
  have : ∃ j < S.nd, ¬ (modalCoord S.nd S.M V (fun e => (harm h S.nd X 1 e).1) j = 0 ∧
      modalCoord S.nd S.M V (fun e => (harm h S.nd X 1 e).2) j = 0) := by
    by_contra hc
    push Not at hc
    rw [modalMass_coord B, sum_eq_zero] at H3
    · norm_num at H3
    · intro j hj
      rw [(hc j (mem_range.1 hj)).1, (hc j (mem_range.1 hj)).2]
      norm_num
  obtain ⟨j, hj, hq⟩ := this
  obtain ⟨l1, l2⟩ := (H1 1 (one_mem_of_first h1) one_ne_zero j hj).resolve_left hq
  have hl : Real.sqrt (lam j) = X L := by
    rw [l1, Nat.cast_one, one_mul, Real.sqrt_sq hw.le]
  refine ⟨j, hj, hl.symm, l2, ?_⟩
  rw [hl, l2, l1]
  have := hw.ne'
  push_cast
  field_simp
  rfl

/-- C127, mode shape: if the mode is the only one at `w` and no mode is at `k w` for another harmonic `k`, then the first
harmonic is the mode with a phase, the other harmonics vanish. -/
theorem C127_shape (S : VibSys) (hS : S.forces = []) {a b : ℝ}
    (hC : ∀ d < S.nd, ∀ e < S.nd, S.C d e = a * S.M d e + b * S.K d e)
    (B : ModalBasis S.nd S.M S.K lam V) (h : List ℕ) (hh : Admissible h) (h1 : ∃ hs, h = 1 :: hs ∨ h = 0 :: 1 :: hs)
    (Nt : ℕ) (tol : ℝ) (X Fl R : ℕ → ℝ) (g : Option ((ℕ → ℕ → ℝ) × (ℕ → ℝ))) {j : ℕ} (hj : j < S.nd) :
    let L := numCoeff h * S.nd
    0 < X L → (∀ k ∈ h, k ≠ 0 → ∀ i < S.nd, lam i = (k * X L) ^ 2 → k = 1 ∧ i = j) →
    epmcRes S X Fl h Nt tol true = .ok ⟨R, g⟩ → (∀ i < L + 2, R i = 0) →
    (∃ c s : ℝ, c ^ 2 + s ^ 2 = 1 ∧ ∀ e < S.nd, harm h S.nd X 1 e = (c * V e j, s * V e j)) ∧
      ∀ k ∈ h, k ≠ 0 → k ≠ 1 → ∀ e < S.nd, harm h S.nd X k e = (0, 0) := by
  intro L hw hres hR h0
  obtain ⟨R', g', e1, e2⟩ := C127_linear S hS hC B h hh h1 Nt tol X Fl hw.ne'
  rw [hR] at e1
  obtain rfl : R = R' := congrArg ResOut.R (Except.ok.inj e1)
  obtain ⟨H1, -, H3, -⟩ := e2.1 h0
  have hz : ∀ k ∈ h, k ≠ 0 → ∀ i < S.nd, ¬ (k = 1 ∧ i = j) →
      modalCoord S.nd S.M V (fun e => (harm h S.nd X k e).1) i = 0 ∧
      modalCoord S.nd S.M V (fun e => (harm h S.nd X k e).2) i = 0 := fun k hk k0 i hi hki =>
    (H1 k hk k0 i hi).resolve_right fun hc => hki (hres k hk k0 i hi hc.1)
  have m1 := one_mem_of_first h1
  constructor
  · refine ⟨modalCoord S.nd S.M V (fun e => (harm h S.nd X 1 e).1) j, modalCoord S.nd S.M V (fun e => (harm h S.nd X 1 e).2) j,
      ?_, fun e he => ?_⟩
    · rw [modalMass_coord B, sum_eq_single_of_mem j (mem_range.2 hj)] at H3
      · exact H3
      · intro i hi hij
        obtain ⟨z1, z2⟩ := hz 1 m1 one_ne_zero i (mem_range.1 hi) (by simp [hij])
        rw [z1, z2]; norm_num
    · refine Prod.ext ?_ ?_
      · rw [modal_expand B (fun e => (harm h S.nd X 1 e).1) he, sum_eq_single_of_mem j (mem_range.2 hj)]
        · exact mul_comm _ _
        · intro i hi hij
          rw [(hz 1 m1 one_ne_zero i (mem_range.1 hi) (by simp [hij])).1, mul_zero]
      · rw [modal_expand B (fun e => (harm h S.nd X 1 e).2) he, sum_eq_single_of_mem j (mem_range.2 hj)]
        · exact mul_comm _ _
        · intro i hi hij
          rw [(hz 1 m1 one_ne_zero i (mem_range.1 hi) (by simp [hij])).2, mul_zero]
  · intro k hk k0 k1 e he
    refine Prod.ext ?_ ?_
    · rw [modal_expand B (fun e => (harm h S.nd X k e).1) he]
      exact sum_eq_zero fun i hi => by rw [(hz k hk k0 i (mem_range.1 hi) (by simp [k1])).1, mul_zero]
    · rw [modal_expand B (fun e => (harm h S.nd X k e).2) he]
      exact sum_eq_zero fun i hi => by rw [(hz k hk k0 i (mem_range.1 hi) (by simp [k1])).2, mul_zero]

/-- C127, every mode is found: mode `j` with its natural frequency and damping, no other harmonics, the static
deflection as mean and a phase that meets the phase condition solves the equations at every amplitude. -/
theorem C127_exists (S : VibSys) (hS : S.forces = []) {a b : ℝ}
    (hC : ∀ d < S.nd, ∀ e < S.nd, S.C d e = a * S.M d e + b * S.K d e)
    (B : ModalBasis S.nd S.M S.K lam V) (h : List ℕ) (hh : Admissible h) (h1 : ∃ hs, h = 1 :: hs ∨ h = 0 :: 1 :: hs)
    (Nt : ℕ) (tol : ℝ) (X Fl : ℕ → ℝ) {j : ℕ} (hj : j < S.nd) {c s : ℝ} (hcs : c ^ 2 + s ^ 2 = 1)
    (x1 : ∀ e < S.nd, harm h S.nd X 1 e = (c * V e j, s * V e j))
    (xk : ∀ k ∈ h, k ≠ 0 → k ≠ 1 → ∀ e < S.nd, harm h S.nd X k e = (0, 0))
    (x0 : 0 ∈ h → ∀ d < S.nd, ∑ e ∈ range S.nd, S.K d e * X e = Fl d)
    (hw : X (numCoeff h * S.nd) = Real.sqrt (lam j)) (hxi : X (numCoeff h * S.nd + 1) = a + b * lam j)
    (hph : ∑ i ∈ (range (numCoeff h * S.nd)).filter (fun i => ¬ (0 ∈ h ∧ i < S.nd)), Fl i * X i = 0) :
    ∃ R g, epmcRes S X Fl h Nt tol true = .ok ⟨R, some g⟩ ∧ ∀ i < numCoeff h * S.nd + 2, R i = 0 := by
  have hl := B.pos j hj
  obtain ⟨R, g, e1, e2⟩ := C127_linear S hS hC B h hh h1 Nt tol X Fl (by rw [hw]; exact (Real.sqrt_pos.2 hl).ne')
  have q1 : ∀ i < S.nd, modalCoord S.nd S.M V (fun e => (harm h S.nd X 1 e).1) i = if i = j then c else 0 := fun i hi =>
    modalCoord_mode B hj hi c fun e he => by rw [x1 e he]
  have q2 : ∀ i < S.nd, modalCoord S.nd S.M V (fun e => (harm h S.nd X 1 e).2) i = if i = j then s else 0 := fun i hi =>
    modalCoord_mode B hj hi s fun e he => by rw [x1 e he]
  refine ⟨R, g, e1, e2.2 ⟨fun k hk k0 i hi => ?_, x0, ?_, hph⟩⟩
  · by_cases k1 : k = 1
    · subst k1
      by_cases hij : i = j
      · subst hij
        exact Or.inr ⟨by rw [hw, Nat.cast_one, one_mul, Real.sq_sqrt hl.le], hxi⟩
      · exact Or.inl ⟨by rw [q1 i hi, if_neg hij], by rw [q2 i hi, if_neg hij]⟩
    · left
      constructor
      · rw [modalCoord_mode B hj hi 0 fun e he => by rw [xk k hk k0 k1 e he, zero_mul]]
        split <;> rfl
      · rw [modalCoord_mode B hj hi 0 fun e he => by rw [xk k hk k0 k1 e he, zero_mul]]
        split <;> rfl
  · rw [modalMass_coord B, sum_eq_single_of_mem j (mem_range.2 hj)]
    · rw [q1 j hj, q2 j hj, if_pos rfl, if_pos rfl, hcs]
    · intro i hi hij
      rw [q1 i (mem_range.1 hi), q2 i (mem_range.1 hi), if_neg hij, if_neg hij]
      norm_num

/-- C127, backbone: a solution stays a solution when only the amplitude is changed. -/
theorem C127_backbone (S : VibSys) (hS : S.forces = []) {a b : ℝ}
    (hC : ∀ d < S.nd, ∀ e < S.nd, S.C d e = a * S.M d e + b * S.K d e)
    (B : ModalBasis S.nd S.M S.K lam V) (h : List ℕ) (hh : Admissible h) (h1 : ∃ hs, h = 1 :: hs ∨ h = 0 :: 1 :: hs)
    (Nt : ℕ) (tol : ℝ) (X Y Fl R : ℕ → ℝ) (g : Option ((ℕ → ℕ → ℝ) × (ℕ → ℝ)))
    (hXY : ∀ i < numCoeff h * S.nd + 2, Y i = X i) (hw : X (numCoeff h * S.nd) ≠ 0)
    (hR : epmcRes S X Fl h Nt tol true = .ok ⟨R, g⟩) (h0 : ∀ i < numCoeff h * S.nd + 2, R i = 0) :
    ∃ R' g', epmcRes S Y Fl h Nt tol true = .ok ⟨R', some g'⟩ ∧ ∀ i < numCoeff h * S.nd + 2, R' i = 0 := by
  obtain ⟨R1, g1, e1, e2⟩ := C127_linear S hS hC B h hh h1 Nt tol X Fl hw
  rw [hR] at e1
  obtain rfl : R = R1 := congrArg ResOut.R (Except.ok.inj e1)
  obtain ⟨H1, H2, H3, H4⟩ := e2.1 h0
  have wY := hXY (numCoeff h * S.nd) (by omega)
  have xY := hXY (numCoeff h * S.nd + 1) (by omega)
  obtain ⟨R', g', e3, e4⟩ := C127_linear S hS hC B h hh h1 Nt tol Y Fl (by rw [wY]; exact hw)
  have hrow : ∀ e < S.nd, ∀ k, harm h S.nd Y k e = harm h S.nd X k e := fun e he k =>
    coefOf_rows (fun r hr => hXY _ ((row_lt hr he).trans (by omega))) k
  have hco : ∀ k j, modalCoord S.nd S.M V (fun e => (harm h S.nd Y k e).1) j = modalCoord S.nd S.M V (fun e => (harm h S.nd X k e).1) j ∧
      modalCoord S.nd S.M V (fun e => (harm h S.nd Y k e).2) j = modalCoord S.nd S.M V (fun e => (harm h S.nd X k e).2) j := by
    intro k j
    constructor <;>
    · unfold modalCoord
      refine sum_congr rfl fun d _ => congrArg _ (sum_congr rfl fun e he => ?_)
      beta_reduce
      rw [hrow e (mem_range.1 he)]
  refine ⟨R', g', e3, e4.2 ⟨?_, ?_, ?_, ?_⟩⟩
  · intro k hk k0 j hj
    rw [wY, xY, (hco k j).1, (hco k j).2]
    exact H1 k hk k0 j hj
  · intro hz d hd
    rw [← H2 hz d hd]
    refine sum_congr rfl fun e he => ?_
    have he := mem_range.1 he
    have hp : 0 < numCoeff h := by
      obtain ⟨hs, rfl | rfl⟩ := h1 <;> simp [numCoeff]
    have : S.nd ≤ numCoeff h * S.nd := Nat.le_mul_of_pos_left _ hp
    rw [hXY e (by omega)]
  · rw [← H3, modalMass_coord B, modalMass_coord B]
    exact sum_congr rfl fun j _ => by rw [(hco 1 j).1, (hco 1 j).2]
  · rw [← H4]
    refine sum_congr rfl fun i hi => ?_
    have := mem_range.1 (mem_filter.1 hi).1
    rw [hXY i (by omega)]

/-- Two masses, three springs, damping `M / 10`: the second mode (`w = √3`, opposite motion) solves the equations with the
harmonics 0, 1, 2 at amplitude `10 ^ 5`, under a phase condition on the sine part. -/
example : ∃ R g, epmcRes ⟨2, fun i j => if i = j then 1 else 0, fun i j => if i = j then 2 else -1,
      fun i j => 1 / 10 * (if i = j then 1 else 0), none, []⟩
    (fun i => if i = 2 then Real.sqrt (1 / 2) else if i = 3 then -Real.sqrt (1 / 2) else if i = 10 then Real.sqrt 3
      else if i = 11 then 1 / 10 else if i = 12 then 5 else 0) (fun i => if i = 4 then 1 else 0) [0, 1, 2] 8 0 true = .ok ⟨R, some g⟩ ∧
    ∀ i < 12, R i = 0 := by
  have hs : (Real.sqrt 2)⁻¹ * (Real.sqrt 2)⁻¹ = 1 / 2 := by
    rw [← mul_inv, Real.mul_self_sqrt (by norm_num)]; norm_num
  have B : ModalBasis 2 (fun i j => if i = j then 1 else 0) (fun i j => if i = j then 2 else -1)
      (fun j => if j = 0 then 1 else 3) (fun i j => if i = 1 ∧ j = 1 then -Real.sqrt (1 / 2) else Real.sqrt (1 / 2)) := by
    refine ⟨fun i hi j hj => ?_, fun i hi j hj => ?_, fun j _ => ?_⟩
    · interval_cases i <;> interval_cases j <;> simp [sum_range_succ] <;> ring
    · interval_cases i <;> interval_cases j <;> simp [sum_range_succ] <;> linarith [hs]
    · split <;> norm_num
  refine C127_exists _ rfl (a := 1 / 10) (b := 0) (fun d _ e _ => by simp) B [0, 1, 2] ⟨by simp, by decide, by decide⟩ ⟨[2], Or.inr rfl⟩ 8 0 _ _
    (j := 1) (by decide) (c := 1) (s := 0) (by norm_num) ?_ ?_ ?_ ?_ ?_ ?_
  · intro e he
    have he : e < 2 := he
    interval_cases e <;> simp [harm, coefOf]
  · intro k hk k0 k1 e he
    have he : e < 2 := he
    have : k = 2 := by simp at hk; omega
    subst this
    interval_cases e <;> simp [harm, coefOf]
  · intro _ d hd
    have hd : d < 2 := hd
    interval_cases d <;> simp [sum_range_succ]
  · simp [numCoeff]
  · simp [numCoeff]
  · refine sum_eq_zero fun i _ => ?_
    split
    · rename_i h4; subst h4; norm_num
    · ring

end

end TMD
