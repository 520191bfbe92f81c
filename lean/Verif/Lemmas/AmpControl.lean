import Verif.Lemmas.System
import Mathlib.Analysis.SpecialFunctions.Trigonometric.Deriv
import Mathlib.Analysis.Calculus.IteratedDeriv.Lemmas
import Mathlib.Analysis.SpecialFunctions.Complex.Arg

/-! Lemmas on the amplitude controlled residuals. -/

namespace TMD

open Spec Finset

noncomputable section

/-- Recovered coefficient of block `p`. -/
def ctrl (nd : ℕ) (recov : ℕ → ℝ) (p : ℕ) (X : ℕ → ℝ) : ℝ := ∑ e ∈ range nd, recov e * X (p * nd + e)

theorem vdot_ctrl (nd : ℕ) (recov X : ℕ → ℝ) {a b p : ℕ} (ha : a = p * nd) (hb : b = (p + 1) * nd) :
    vdot nd recov (sl a b X) = ctrl nd recov p X := by
  subst ha; subst hb
  unfold vdot ctrl
  refine sum_congr rfl (fun e he => ?_)
  have he := mem_range.mp he
  have : (p + 1) * nd - p * nd = nd := by rw [Nat.add_mul]; omega
  simp [sl, this, he]

theorem hasGrad_ctrl (n nd : ℕ) (recov : ℕ → ℝ) (p : ℕ) (x : ℕ → ℝ) :
    HasGrad n (ctrl nd recov p)
      (fun j => if p * nd ≤ j ∧ j < (p + 1) * nd then recov (j - p * nd) else 0) x := by
  have h1 : HasGrad n (ctrl nd recov p) _ x := HasGrad.sum (n := n) (x := x) (s := range nd)
    (fun e _ => HasGrad.const_mul (recov e) (HasGrad.coord (n := n) (x := x) (p * nd + e)))
  refine h1.congr (fun j _ => ?_)
  rw [Nat.add_mul, Nat.one_mul]
  by_cases hj : p * nd ≤ j ∧ j < p * nd + nd
  · rw [if_pos hj, sum_eq_single_of_mem (j - p * nd) (mem_range.mpr (by omega))]
    · have : j = p * nd + (j - p * nd) := by omega
      simp only [← this, if_true, mul_one]
    · intro e _ he
      have : ¬ j = p * nd + e := by omega
      simp [this]
  · rw [if_neg hj]
    symm
    apply sum_eq_zero
    intro e he
    have he := mem_range.mp he
    have : ¬ j = p * nd + e := by omega
    simp [this]

/-- The coefficients of harmonic 1 if it is the first nonzero harmonic. -/
theorem coefOf_first {h : List ℕ} (h1 : ∃ hs, h = 1 :: hs ∨ h = 0 :: 1 :: hs) (c : ℕ → ℝ) :
    coefOf h c 1 = (c (zi h), c (zi h + 1)) ∧ zi h + 2 ≤ numCoeff h := by
  obtain ⟨hs, rfl | rfl⟩ := h1
  · refine ⟨by simp [coefOf, zi], by simp [zi, numCoeff]⟩
  · refine ⟨by simp [coefOf, zi], by simp [zi, numCoeff]; omega⟩

/-- The harmonic motion `a cos(wt) + b sin(wt)` and its derivatives. -/
theorem iteratedDeriv_harmonic (a b w : ℝ) (k : ℕ) :
    iteratedDeriv k (fun t => a * Real.cos (w * t) + b * Real.sin (w * t))
      = fun t => w ^ k * (a * Real.cos (w * t + k * (Real.pi / 2)) + b * Real.sin (w * t + k * (Real.pi / 2))) := by
  induction k with
  | zero => simp [iteratedDeriv_zero]
  | succ k ih =>
    rw [iteratedDeriv_succ, ih]
    funext t
    have hc : HasDerivAt (fun t => w * t + k * (Real.pi / 2)) w t := by
      simpa using ((hasDerivAt_id t).const_mul w).add_const ((k:ℝ) * (Real.pi / 2))
    have h := (((hc.cos).const_mul a).add ((hc.sin).const_mul b)).const_mul (w ^ k)
    refine h.deriv.trans ?_
    have e : w * t + ((k + 1 : ℕ) : ℝ) * (Real.pi / 2) = (w * t + k * (Real.pi / 2)) + Real.pi / 2 := by
      push_cast; ring
    rw [e, Real.cos_add_pi_div_two, Real.sin_add_pi_div_two]
    ring

theorem isAmplitude_unique {f : ℝ → ℝ} {A B : ℝ} (hA : IsAmplitude f A) (hB : IsAmplitude f B) : A = B := by
  obtain ⟨h1, t, ht⟩ := hA
  obtain ⟨h2, s, hs⟩ := hB
  exact le_antisymm (ht ▸ h2 t) (hs ▸ h1 s)

theorem isAmplitude_harmonic (a b w φ : ℝ) (hw : w ≠ 0) (c : ℝ) :
    IsAmplitude (fun t => c * (a * Real.cos (w * t + φ) + b * Real.sin (w * t + φ)))
      (|c| * Real.sqrt (a^2 + b^2)) := by
  constructor
  · intro t
    rw [abs_mul]
    refine mul_le_mul_of_nonneg_left ?_ (abs_nonneg c)
    rw [← Real.sqrt_sq_eq_abs]
    refine Real.sqrt_le_sqrt ?_
    have := Real.sin_sq_add_cos_sq (w * t + φ)
    nlinarith [sq_nonneg (a * Real.sin (w * t + φ) - b * Real.cos (w * t + φ))]
  · refine ⟨((⟨a, b⟩ : ℂ).arg - φ) / w, ?_⟩
    have e : w * (((⟨a, b⟩ : ℂ).arg - φ) / w) + φ = (⟨a, b⟩ : ℂ).arg := by field_simp; ring
    rw [abs_mul, e]
    congr 1
    have hr : ‖(⟨a, b⟩ : ℂ)‖ = Real.sqrt (a^2 + b^2) := by
      rw [Complex.norm_def, Complex.normSq_mk]; congr 1; ring
    have h1 := Complex.norm_mul_cos_arg (⟨a, b⟩ : ℂ)
    have h2 := Complex.norm_mul_sin_arg (⟨a, b⟩ : ℂ)
    simp only at h1 h2
    rw [hr] at h1 h2
    set r := Real.sqrt (a^2 + b^2)
    set θ := (⟨a, b⟩ : ℂ).arg
    have h3 := Real.sin_sq_add_cos_sq θ
    have : a * Real.cos θ + b * Real.sin θ = r := by
      calc a * Real.cos θ + b * Real.sin θ = r * (Real.sin θ ^2 + Real.cos θ ^2) := by
            rw [← h1, ← h2]; ring
        _ = r := by rw [h3, mul_one]
    rw [this, abs_of_nonneg (Real.sqrt_nonneg _)]

/-- The control equation says exactly that the derivative of the requested order has the requested
amplitude. -/
theorem amplitude_iff (a b w : ℝ) (hw : w ≠ 0) (k : ℕ) (A : ℝ) :
    IsAmplitude (iteratedDeriv k (fun t => a * Real.cos (w * t) + b * Real.sin (w * t))) A
      ↔ 0 ≤ A ∧ w ^ (2 * k) * (a^2 + b^2) = A^2 := by
  rw [iteratedDeriv_harmonic]
  have h1 := isAmplitude_harmonic a b w (k * (Real.pi / 2)) hw (w ^ k)
  have hsq : (|w ^ k| * Real.sqrt (a^2 + b^2))^2 = w ^ (2 * k) * (a^2 + b^2) := by
    rw [mul_pow, sq_abs, Real.sq_sqrt (by positivity), ← pow_mul, Nat.mul_comm]
  constructor
  · intro hA
    rw [isAmplitude_unique hA h1]
    exact ⟨by positivity, hsq.symm⟩
  · rintro ⟨h0, h2⟩
    have : A = |w ^ k| * Real.sqrt (a^2 + b^2) :=
      (pow_left_inj₀ h0 (by positivity) two_ne_zero).mp (h2.symm.trans hsq.symm)
    rw [this]
    exact h1

/-- Derivative of the scaled forcing with respect to the scale. -/
def dynForcing (nd : ℕ) (h : List ℕ) (Fl : ℕ → ℝ) (i : ℕ) : ℝ := if 0 ∈ h ∧ i < nd then 0 else Fl i

theorem slice_forcing {h : List ℕ} (hh : Admissible h) (nd : ℕ) (Fl : ℕ → ℝ) (a : ℝ) {i L : ℕ} (hi : i < L) :
    setSlice Fl (zi h * nd) L (fun _ => 0) i + setSlice Fl 0 (zi h * nd) (fun _ => 0) i * a
      = scaledForcing nd h Fl a i ∧
    setSlice Fl 0 (zi h * nd) (fun _ => 0) i = dynForcing nd h Fl i := by
  have hz := lt_zi_nd hh nd i
  unfold dynForcing scaledForcing
  by_cases hs : i < zi h * nd
  · have hs' := hz.mp hs
    simp [setSlice, hs, hs', Nat.not_le.mpr hs]
  · have hs' : ¬ (0 ∈ h ∧ i < nd) := fun c => hs (hz.mpr c)
    have := Nat.le_of_not_lt hs
    simp [setSlice, hs, hs', this, hi]
    ring

theorem hasGrad_scaledForcing {n : ℕ} {x : ℕ → ℝ} {φ : (ℕ → ℝ) → ℝ} {g : ℕ → ℝ} (hφ : HasGrad n φ g x)
    (nd : ℕ) (h : List ℕ) (Fl : ℕ → ℝ) (i : ℕ) :
    HasGrad n (fun X => scaledForcing nd h Fl (φ X) i) (fun j => g j * dynForcing nd h Fl i) x := by
  unfold scaledForcing dynForcing
  by_cases hc : 0 ∈ h ∧ i < nd
  · simp only [if_pos hc, mul_zero]
    exact HasGrad.const (Fl i)
  · simp only [if_neg hc]
    exact HasGrad.mul_const (Fl i) hφ

theorem ampControl_ok (S : VibSys) {h : List ℕ} (hh : Admissible h) (Nt : ℕ) (tol : ℝ)
    (A : NLForce → (ℕ → ℝ) → ℝ → AftOut) (hA : ∀ f ∈ S.forces, ∀ U w, f.aft U w h Nt tol = .ok (A f U w))
    (X Fl recov : ℕ → ℝ) (amp : ℝ) (order : ℕ) {L : ℕ} (hL : L = numCoeff h * S.nd) :
    ∃ R J d, hbmAmpControlRes S X Fl h recov amp order Nt tol true = .ok ⟨R, some (J, d)⟩ ∧
      (∀ i < L, R i = hbmG S A h (hcat L (sl 0 L X) (fun _ => X (L + 1))) i - scaledForcing S.nd h Fl (X L) i) ∧
      R L = X (L + 1) ^ (2 * order) * (ctrl S.nd recov (zi h) X ^ 2 + ctrl S.nd recov (zi h + 1) X ^ 2) - amp ^ 2 ∧
      (∀ i < L, ∀ j < L, J i j = hbmJ S A h (hcat L (sl 0 L X) (fun _ => X (L + 1))) i j) ∧
      (∀ i < L, J i L = - dynForcing S.nd h Fl i) ∧
      (∀ i < L, d i = hbmD S A h (hcat L (sl 0 L X) (fun _ => X (L + 1))) i) ∧
      (∀ j ≤ L, J L j = X (L + 1) ^ (2 * order) *
        (2 * ctrl S.nd recov (zi h) X * (if zi h * S.nd ≤ j ∧ j < (zi h + 1) * S.nd then recov (j - zi h * S.nd) else 0)
        + 2 * ctrl S.nd recov (zi h + 1) X *
          (if (zi h + 1) * S.nd ≤ j ∧ j < (zi h + 1 + 1) * S.nd then recov (j - (zi h + 1) * S.nd) else 0))) ∧
      d L = (2 * order : ℝ) * X (L + 1) ^ ((2 * order : ℤ) - 1)
        * (ctrl S.nd recov (zi h) X ^ 2 + ctrl S.nd recov (zi h + 1) X ^ 2) := by
  subst hL
  refine ⟨?R, ?J, ?d, ?h1, ?h2⟩
  case h1 =>
    unfold hbmAmpControlRes
    rw [Nhc_ok hh.nodup]
    simp only [if_neg hh.ne, hbmRes_ok S hh Nt tol A hA, if_true]
    rfl
  case h2 =>
    have e1 : vdot S.nd recov (sl (zi h * S.nd) ((1 + zi h) * S.nd) X) = ctrl S.nd recov (zi h) X :=
      vdot_ctrl _ _ _ rfl (by rw [Nat.add_comm])
    have e2 : vdot S.nd recov (sl ((1 + zi h) * S.nd) ((2 + zi h) * S.nd) X) = ctrl S.nd recov (zi h + 1) X :=
      vdot_ctrl _ _ _ (by rw [Nat.add_comm]) (by rw [show zi h + 1 + 1 = 2 + zi h by omega])
    refine ⟨fun i hi => ?_, ?_, fun i hi j hj => ?_, fun i hi => ?_, fun i hi => ?_, fun j hj => ?_, ?_⟩
    · simp only [hcat, hi, if_true]
      rw [(slice_forcing hh S.nd Fl _ hi).1]
    · simp only [hcat_at, e1, e2]
    · simp only [if_pos hi, hcatCol, if_pos hj]
    · simp only [if_pos hi, hcatCol, if_neg (lt_irrefl _)]
      rw [(slice_forcing hh S.nd Fl 0 hi).2]
    · simp only [hcat, hi, if_true]
    · simp only [if_neg (lt_irrefl _), e1, e2]
      simp only [setSlice]
      rw [Nat.add_comm 1 (zi h), show 2 + zi h = zi h + 1 + 1 by omega]
      by_cases c1 : (zi h + 1) * S.nd ≤ j ∧ j < (zi h + 1 + 1) * S.nd
      · have c2 : ¬ (zi h * S.nd ≤ j ∧ j < (zi h + 1) * S.nd) := by omega
        simp only [if_pos c1, if_neg c2]; ring
      · by_cases c2 : zi h * S.nd ≤ j ∧ j < (zi h + 1) * S.nd
        · simp only [if_neg c1, if_pos c2]; ring
        · simp only [if_neg c1, if_neg c2]; ring
    · simp only [hcat_at, e1, e2]

theorem ampControl_ng (S : VibSys) {h : List ℕ} (hh : Admissible h) (Nt : ℕ) (tol : ℝ)
    (A : NLForce → (ℕ → ℝ) → ℝ → AftOut) (hA : ∀ f ∈ S.forces, ∀ U w, f.aft U w h Nt tol = .ok (A f U w) ∧
      f.aftNoGrad U w h Nt tol = .ok (A f U w).F)
    (X Fl recov : ℕ → ℝ) (amp : ℝ) (order : ℕ) :
    ∃ R g, hbmAmpControlRes S X Fl h recov amp order Nt tol true = .ok ⟨R, some g⟩ ∧
      hbmAmpControlRes S X Fl h recov amp order Nt tol false = .ok ⟨R, none⟩ := by
  refine ⟨?R, ?g, ?h1, ?h2⟩
  case h1 =>
    unfold hbmAmpControlRes
    rw [Nhc_ok hh.nodup]
    simp only [if_neg hh.ne, hbmRes_ok S hh Nt tol A (fun f hf U w => (hA f hf U w).1), if_true]
    rfl
  case h2 =>
    unfold hbmAmpControlRes
    rw [Nhc_ok hh.nodup]
    simp only [if_neg hh.ne, hbmRes_ng S hh Nt tol A (fun f hf U w => (hA f hf U w).2), Bool.false_eq_true, if_false]

theorem zi_nd {h : List ℕ} (hh : Admissible h) (nd : ℕ) : zi h * nd = if 0 ∈ h then nd else 0 := by
  rw [zi_mem hh]; split <;> simp

/-- Indicator of block `p`. -/
def blk (nd p i : ℕ) : Prop := p * nd ≤ i ∧ i < (p + 1) * nd

instance (nd p i : ℕ) : Decidable (blk nd p i) := by unfold blk; infer_instance

theorem ampPhase_ok (S : VibSys) {h : List ℕ} (hh : Admissible h) (Nt : ℕ) (tol : ℝ)
    (A : NLForce → (ℕ → ℝ) → ℝ → AftOut) (hA : ∀ f ∈ S.forces, ∀ U w, f.aft U w h Nt tol = .ok (A f U w))
    (X Fl recov : ℕ → ℝ) (amp : ℝ) (order : ℕ) {L : ℕ} (hL : L = numCoeff h * S.nd) (h1 : zi h + 2 ≤ numCoeff h) :
    ∃ R J d, hbmAmpPhaseRes S X Fl h recov amp order Nt tol true = .ok ⟨R, some (J, d)⟩ ∧
      (∀ i < L, R i = hbmG S A h (hcat L (sl 0 L X) (fun _ => X (L + 2))) i
        - phaseForcing S.nd h Fl (X L) (X (L + 1)) i) ∧
      R L = X (L + 2) ^ order * ctrl S.nd recov (zi h) X - amp ∧
      R (L + 1) = X (L + 2) ^ order * ctrl S.nd recov (zi h + 1) X ∧
      (∀ i < L, ∀ j < L, J i j = hbmJ S A h (hcat L (sl 0 L X) (fun _ => X (L + 2))) i j) ∧
      (∀ i < L, J i L = if blk S.nd (zi h) i then - Fl i else 0) ∧
      (∀ i < L, J i (L + 1) = if blk S.nd (zi h + 1) i then - Fl (i - S.nd) else 0) ∧
      (∀ i < L, d i = hbmD S A h (hcat L (sl 0 L X) (fun _ => X (L + 2))) i) ∧
      (∀ j < L + 2, J L j = X (L + 2) ^ order * if blk S.nd (zi h) j then recov (j - zi h * S.nd) else 0) ∧
      (∀ j < L + 2, J (L + 1) j = X (L + 2) ^ order
        * if blk S.nd (zi h + 1) j then recov (j - (zi h + 1) * S.nd) else 0) ∧
      d L = order * (X (L + 2) ^ order * ctrl S.nd recov (zi h) X) / X (L + 2) ∧
      d (L + 1) = order * (X (L + 2) ^ order * ctrl S.nd recov (zi h + 1) X) / X (L + 2) := by
  have hle : (zi h + 1 + 1) * S.nd ≤ L := by rw [hL]; exact Nat.mul_le_mul_right _ h1
  subst hL
  have f1 : (zi h + 1) * S.nd = zi h * S.nd + S.nd := by ring
  have f2 : (zi h + 1 + 1) * S.nd = zi h * S.nd + 2 * S.nd := by ring
  have f2' : (zi h + 2) * S.nd = zi h * S.nd + 2 * S.nd := by ring
  refine ⟨?R, ?J, ?d, ?h1, ?h2⟩
  case h1 =>
    unfold hbmAmpPhaseRes
    rw [Nhc_ok hh.nodup]
    simp only [if_neg hh.ne, hbmRes_ok S hh Nt tol A hA, if_true]
    rfl
  case h2 =>
    have e1 : vdot S.nd recov (sl (zi h * S.nd) ((zi h + 1) * S.nd) X) = ctrl S.nd recov (zi h) X :=
      vdot_ctrl _ _ _ rfl rfl
    have e2 : vdot S.nd recov (sl ((zi h + 1) * S.nd) ((zi h + 2) * S.nd) X) = ctrl S.nd recov (zi h + 1) X :=
      vdot_ctrl _ _ _ rfl rfl
    simp only [e1, e2]
    rw [f2] at hle
    generalize hn : numCoeff h * S.nd = L at *
    have ef : ∀ i, blk S.nd (zi h) i → sl (zi h * S.nd) ((zi h + 1) * S.nd) Fl (i - zi h * S.nd) = Fl i := by
      intro i hi
      unfold blk at hi
      have a1 : i - zi h * S.nd < (zi h + 1) * S.nd - zi h * S.nd := by omega
      simp only [sl, if_pos a1]
      congr 1; omega
    have eg : ∀ i, blk S.nd (zi h + 1) i →
        sl (zi h * S.nd) ((zi h + 1) * S.nd) Fl (i - (zi h + 1) * S.nd) = Fl (i - S.nd) := by
      intro i hi
      unfold blk at hi
      have a1 : i - (zi h + 1) * S.nd < (zi h + 1) * S.nd - zi h * S.nd := by omega
      simp only [sl, if_pos a1]
      congr 1; omega
    refine ⟨fun i hi => ?_, ?_, ?_, fun i hi j hj => ?_, fun i hi => ?_, fun i hi => ?_, fun i hi => ?_,
      fun j hj => ?_, fun j hj => ?_, ?_, ?_⟩
    · simp only [hcat, hi, if_true]
      congr 1
      simp only [setSlice, phaseForcing, ← zi_nd hh]
      by_cases c0 : i < zi h * S.nd
      · have c1 : ¬ ((zi h + 1) * S.nd ≤ i ∧ i < (zi h + 2) * S.nd) := by omega
        have c2 : ¬ (zi h * S.nd ≤ i ∧ i < (zi h + 1) * S.nd) := by omega
        simp only [c1, c2, c0, if_true, if_false, Nat.zero_le, true_and, sl, Nat.sub_zero, Nat.zero_add]
      · by_cases c2 : zi h * S.nd ≤ i ∧ i < (zi h + 1) * S.nd
        · have c1 : ¬ ((zi h + 1) * S.nd ≤ i ∧ i < (zi h + 2) * S.nd) := by omega
          have c3 : i < zi h * S.nd + S.nd := by omega
          rw [if_neg c1, if_pos c2, if_neg c0, if_pos c3, ef i c2]
        · have c3 : ¬ i < zi h * S.nd + S.nd := by omega
          by_cases c1 : (zi h + 1) * S.nd ≤ i ∧ i < (zi h + 2) * S.nd
          · have c4 : i < zi h * S.nd + 2 * S.nd := by omega
            rw [if_pos c1, if_neg c0, if_neg c3, if_pos c4, eg i c1]
          · have c4 : ¬ i < zi h * S.nd + 2 * S.nd := by omega
            have c5 : ¬ (0 ≤ i ∧ i < zi h * S.nd) := by omega
            rw [if_neg c1, if_neg c2, if_neg c0, if_neg c3, if_neg c4, if_neg c5]
    · simp [hcat]
    · simp [hcat]
    · simp only [setBlock]
      rw [if_neg (by omega), if_neg (by omega), if_neg (by omega), if_neg (by omega), if_pos (by omega)]
      rfl
    · simp only [setBlock]
      rw [if_neg (by omega), if_neg (by omega), if_neg (by omega)]
      by_cases c : blk S.nd (zi h) i
      · rw [if_pos c, if_pos ⟨c, by omega⟩, ef i c]
      · rw [if_neg c, if_neg (fun k => c k.1), if_neg (by omega)]
    · simp only [setBlock]
      rw [if_neg (by omega), if_neg (by omega)]
      by_cases c : blk S.nd (zi h + 1) i
      · rw [if_pos c, if_pos ⟨c, by omega⟩, eg i c]
      · rw [if_neg c, if_neg (fun k => c k.1), if_neg (by omega), if_neg (by omega)]
    · simp only [setRow, setSlice]
      rw [if_neg (by omega), if_neg (by omega), if_pos (by omega)]
      rfl
    · simp only [setBlock]
      rw [if_neg (by omega)]
      by_cases c : blk S.nd (zi h) j
      · rw [if_pos c, if_pos ⟨by omega, c⟩]
      · rw [if_neg c, if_neg (fun k => c k.2), if_neg (by omega), if_neg (by omega), if_neg (by omega), mul_zero]
    · simp only [setBlock]
      by_cases c : blk S.nd (zi h + 1) j
      · rw [if_pos c, if_pos ⟨by omega, c⟩]
      · rw [if_neg c, if_neg (fun k => c k.2), if_neg (by omega), if_neg (by omega), if_neg (by omega),
          if_neg (by omega), mul_zero]
    · simp [setRow]
    · simp [setRow]

theorem hasGrad_phaseForcing {n : ℕ} {x : ℕ → ℝ} {φ ψ : (ℕ → ℝ) → ℝ} {g g' : ℕ → ℝ} (hφ : HasGrad n φ g x)
    (hψ : HasGrad n ψ g' x) {h : List ℕ} (hh : Admissible h) (nd : ℕ) (Fl : ℕ → ℝ) (i : ℕ) :
    HasGrad n (fun X => phaseForcing nd h Fl (φ X) (ψ X) i)
      (fun j => g j * (if blk nd (zi h) i then Fl i else 0)
        + g' j * (if blk nd (zi h + 1) i then Fl (i - nd) else 0)) x := by
  have f1 : (zi h + 1) * nd = zi h * nd + nd := by ring
  have f2 : (zi h + 1 + 1) * nd = zi h * nd + 2 * nd := by ring
  unfold phaseForcing
  simp only [← zi_nd hh, blk, f1, f2]
  by_cases c0 : i < zi h * nd
  · simp only [if_pos c0]
    rw [if_neg (by omega), if_neg (by omega)]
    simpa using HasGrad.const (n := n) (x := x) (Fl i)
  · simp only [if_neg c0]
    by_cases c1 : i < zi h * nd + nd
    · simp only [if_pos c1]
      rw [if_pos (by omega), if_neg (by omega)]
      simpa using HasGrad.mul_const (Fl i) hφ
    · simp only [if_neg c1]
      rw [if_neg (by omega)]
      by_cases c2 : i < zi h * nd + 2 * nd
      · simp only [if_pos c2]
        rw [if_pos (by omega)]
        simpa using HasGrad.mul_const (Fl (i - nd)) hψ
      · simp only [if_neg c2]
        rw [if_neg (by omega)]
        simpa using HasGrad.const (n := n) (x := x) 0

end

end TMD
