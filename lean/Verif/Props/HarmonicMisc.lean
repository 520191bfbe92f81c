import Verif.Lemmas.HarmonicMisc
import Mathlib.Analysis.Real.Pi.Bounds

/-!
# Properties C08 - C11: conditioning vector, zero crossings, phases
-/

namespace TMD

open Spec Finset

noncomputable section

/-! ## C08 -/

/-- C08 (scalar `delta`): same size as the input; the entries of the `q`-th listed harmonic (both
components, all DOFs) all equal `max delta (mean |X| over that harmonic)`; every entry after the
harmonics equals `max delta |X|`. -/
theorem C08_conditioning_scalar (h : List ℕ) (hn : h.Nodup) (h0 : 0 ∉ h.tail) (Ndof len : ℕ)
    (X : ℕ → ℝ) (delta : ℝ) (hlen : numCoeff h * Ndof ≤ len) :
    ∃ P, harmonicWiseConditioning len X Ndof h delta = .ok (len, P) ∧
      (∀ q < h.length, ∀ i, numCoeff (h.take q) * Ndof ≤ i → i < numCoeff (h.take (q+1)) * Ndof →
        P i = max delta ((∑ k ∈ Ico (numCoeff (h.take q) * Ndof) (numCoeff (h.take (q+1)) * Ndof), |X k|)
          / ((numCoeff (h.take (q+1)) * Ndof - numCoeff (h.take q) * Ndof : ℕ) : ℝ))) ∧
      (∀ i, numCoeff h * Ndof ≤ i → i < len → P i = max delta |X i|) := by
  unfold harmonicWiseConditioning
  rw [Nhc_ok hn]
  obtain ⟨P, h1, h2, h3⟩ := hwcLoop_ok Ndof X h0 (fun _ => delta)
  simp only
  rw [h1]
  simp only
  have htake_le : ∀ q < h.length, numCoeff (h.take (q+1)) ≤ numCoeff h := by
    intro q hq
    have : ∀ (l : List ℕ) (n : ℕ), numCoeff (l.take n) ≤ numCoeff l := by
      intro l
      induction l with
      | nil => simp
      | cons a l ih => intro n; cases n with
        | zero => simp [numCoeff]
        | succ n => simp only [List.take_succ_cons, numCoeff]; have := ih n; omega
    exact this h (q+1)
  by_cases hm : numCoeff h * Ndof < len
  · rw [if_pos hm]
    have hst : len - (len - numCoeff h * Ndof) = numCoeff h * Ndof := by omega
    refine ⟨_, rfl, ?_, ?_⟩
    · intro q hq i hi1 hi2
      have : numCoeff (h.take (q+1)) * Ndof ≤ numCoeff h * Ndof :=
        Nat.mul_le_mul_right _ (htake_le q hq)
      unfold setSlice
      rw [if_neg (by omega)]
      exact h3 q hq i hi1 hi2
    · intro i hi1 hi2
      unfold setSlice
      rw [hst, if_pos ⟨hi1, hi2⟩]
      beta_reduce
      rw [show numCoeff h * Ndof + (i - numCoeff h * Ndof) = i by omega, h2 i hi1]
  · rw [if_neg hm]
    refine ⟨P, rfl, h3, ?_⟩
    intro i hi1 hi2; omega

/-- C08 (lower bound): every conditioning entry is at least `delta`, so dividing by it is safe when
`delta > 0`. -/
theorem C08_conditioning_ge_delta (h : List ℕ) (hn : h.Nodup) (h0 : 0 ∉ h.tail) (Ndof len : ℕ)
    (X : ℕ → ℝ) (delta : ℝ) (hlen : numCoeff h * Ndof ≤ len) :
    ∃ P, harmonicWiseConditioning len X Ndof h delta = .ok (len, P) ∧ ∀ i < len, delta ≤ P i := by
  obtain ⟨P, h1, h2, h3⟩ := C08_conditioning_scalar h hn h0 Ndof len X delta hlen
  refine ⟨P, h1, ?_⟩
  intro i hi
  by_cases hi' : numCoeff h * Ndof ≤ i
  · rw [h3 i hi' hi]; exact le_max_left _ _
  · -- find the harmonic
    have key : ∀ n ≤ h.length, i < numCoeff (h.take n) * Ndof →
        ∃ q < h.length, numCoeff (h.take q) * Ndof ≤ i ∧ i < numCoeff (h.take (q+1)) * Ndof := by
      intro n
      induction n with
      | zero => intro _ hh; simp [numCoeff] at hh
      | succ n ih =>
        intro hnl hh
        by_cases hc : i < numCoeff (h.take n) * Ndof
        · exact ih (by omega) hc
        · exact ⟨n, by omega, by omega, hh⟩
    obtain ⟨q, hq, hq1, hq2⟩ := key h.length le_rfl (by rw [List.take_length]; omega)
    rw [h2 q hq i hq1 hq2]; exact le_max_left _ _

example : ([0, 1, 2] : List ℕ).Nodup ∧ 0 ∉ ([0, 1, 2] : List ℕ).tail ∧
    numCoeff [0, 1, 2] * 2 ≤ 11 := by
  refine ⟨by decide, by decide, ?_⟩
  simp [numCoeff]

/-- C08 with an array `delta` is violated: with one DOF, one harmonic and two trailing entries
(accepted sizes) the call raises instead of returning a vector of the size of `X`. -/
theorem C08_array_violated :
    ¬ ∀ (h : List ℕ) (Ndof len : ℕ) (X : ℕ → ℝ) (delta : ℕ → ℝ), h.Nodup → h ≠ [] → 0 ∉ h.tail →
      numCoeff h * Ndof ≤ len →
      ∃ P, harmonicWiseConditioningArr len X Ndof h delta = .ok (len, P) := by
  intro hall
  obtain ⟨P, hP⟩ := hall [1] 1 4 (fun _ => 1) (fun _ => 1) (by decide) (by simp) (by simp)
    (by simp [numCoeff])
  unfold harmonicWiseConditioningArr at hP
  rw [Nhc_ok (by decide)] at hP
  simp [numCoeff, hwcLoop, hwcArraySize, zi] at hP

/-- Stronger form of the violation: whenever there are at least `2*Ndof` trailing entries, an array
`delta` always raises. -/
theorem C08_array_raises (h : List ℕ) (hn : h.Nodup) (hne : h ≠ []) (h0 : 0 ∉ h.tail)
    (Ndof len : ℕ) (hN : 0 < Ndof) (X : ℕ → ℝ) (delta : ℕ → ℝ)
    (hlen : numCoeff h * Ndof + 2 * Ndof ≤ len) :
    harmonicWiseConditioningArr len X Ndof h delta = .error .value := by
  unfold harmonicWiseConditioningArr
  rw [Nhc_ok hn]
  simp only [hne, if_false]
  obtain ⟨P, h1, -, -⟩ := hwcLoop_ok Ndof X h0
    (fun i => delta ((i + Ndof * zi h) / (2*Ndof)))
  rw [h1]
  simp only
  rw [if_pos (by omega), if_pos]
  unfold hwcArraySize
  simp only
  rw [if_pos (by omega), if_pos (by omega)]
  exact lt_of_le_of_lt (min_le_left _ _) (by omega)

/-- C08 with an array `delta`, the part that holds: with fewer than `2*Ndof` trailing entries the
size is that of `X`, the entries of the `q`-th harmonic equal `max delta[q] (mean |X|)` and
trailing entries equal `max delta[H] |X|`. -/
theorem C08_array_partial (h : List ℕ) (hn : h.Nodup) (hne : h ≠ []) (h0 : 0 ∉ h.tail)
    (Ndof len : ℕ) (hN : 0 < Ndof) (X : ℕ → ℝ) (delta : ℕ → ℝ) (hlen : numCoeff h * Ndof ≤ len)
    (hext : len < numCoeff h * Ndof + 2 * Ndof) :
    ∃ P, harmonicWiseConditioningArr len X Ndof h delta = .ok (len, P) ∧
      (∀ q < h.length, ∀ i, numCoeff (h.take q) * Ndof ≤ i → i < numCoeff (h.take (q+1)) * Ndof →
        P i = max (delta q) ((∑ k ∈ Ico (numCoeff (h.take q) * Ndof) (numCoeff (h.take (q+1)) * Ndof), |X k|)
          / ((numCoeff (h.take (q+1)) * Ndof - numCoeff (h.take q) * Ndof : ℕ) : ℝ))) ∧
      (∀ i, numCoeff h * Ndof ≤ i → i < len → P i = max (delta h.length) |X i|) := by
  unfold harmonicWiseConditioningArr
  rw [Nhc_ok hn]
  simp only [hne, if_false]
  obtain ⟨P, h1, h2, h3⟩ := hwcLoop_ok Ndof X h0
    (fun i => delta ((i + Ndof * zi h) / (2*Ndof)))
  rw [h1]
  simp only
  have hz := zi_le_one h
  have hzl := zi_le_length (h := h)
  have hlpos : 0 < h.length := List.length_pos_iff.mpr hne
  have hnc := numCoeff_eq h0
  have hmul : numCoeff h * Ndof + Ndof * zi h = 2 * Ndof * h.length := by
    rw [hnc, Nat.sub_mul]
    have : zi h * Ndof ≤ 2 * h.length * Ndof := Nat.mul_le_mul_right _ (by omega)
    rw [Nat.mul_comm Ndof (zi h), Nat.sub_add_cancel this]; ring
  have hsize : hwcArraySize Ndof h (len - numCoeff h * Ndof) = len := by
    unfold hwcArraySize
    simp only
    by_cases hm : len - numCoeff h * Ndof > 0
    · simp only [hm, if_true]
      rw [if_neg (by omega), Nat.mul_add, Nat.mul_one]
      have : Ndof * 2 * h.length = 2 * Ndof * h.length := by ring
      omega
    · simp only [hm, if_false, Nat.add_zero]
      have : Ndof * 2 * h.length = 2 * Ndof * h.length := by ring
      omega
  have htake : ∀ q ≤ h.length, numCoeff (h.take q) = 2*q - (if q = 0 then 0 else zi h) := by
    intro n hnl
    have h0' : 0 ∉ (h.take n).tail := by
      intro hh; apply h0
      cases h with
      | nil => simp at hh
      | cons a hs =>
        cases n with
        | zero => simp at hh
        | succ n => simp only [List.take_succ_cons, List.tail_cons] at hh ⊢; exact List.mem_of_mem_take hh
    rw [numCoeff_eq h0', List.length_take, min_eq_left hnl]
    cases n with
    | zero => simp
    | succ n =>
      cases h with
      | nil => simp at hnl
      | cons a hs => simp [zi_cons]
  have hdelta : ∀ q < h.length, ∀ i, numCoeff (h.take q) * Ndof ≤ i →
      i < numCoeff (h.take (q+1)) * Ndof → (i + Ndof * zi h) / (2*Ndof) = q := by
    intro q hq i hi1 hi2
    rw [htake q (by omega)] at hi1
    rw [htake (q+1) (by omega), if_neg (by omega)] at hi2
    rw [Nat.div_eq_iff (by omega)]
    have e2 : (2*(q+1) - zi h)*Ndof + Ndof * zi h = 2*Ndof*q + 2*Ndof := by
      rw [Nat.sub_mul, Nat.mul_comm Ndof (zi h), Nat.sub_add_cancel (Nat.mul_le_mul_right _ (by omega))]
      ring
    by_cases hq0 : q = 0
    · subst hq0
      constructor
      · simp
      · rw [Nat.zero_mul]; rw [Nat.mul_zero] at e2; omega
    · rw [if_neg hq0] at hi1
      have e1 : (2*q - zi h)*Ndof + Ndof * zi h = 2*Ndof*q := by
        rw [Nat.sub_mul, Nat.mul_comm Ndof (zi h), Nat.sub_add_cancel (Nat.mul_le_mul_right _ (by omega))]
        ring
      have e3 : q * (2*Ndof) = 2*Ndof*q := by ring
      constructor <;> omega
  have htake_le : ∀ q < h.length, numCoeff (h.take (q+1)) ≤ numCoeff h := by
    intro q hq
    rw [htake (q+1) (by omega), hnc, if_neg (by omega)]; omega
  have hharm : ∀ q < h.length, ∀ i, numCoeff (h.take q) * Ndof ≤ i → i < numCoeff (h.take (q+1)) * Ndof →
        P i = max (delta q) ((∑ k ∈ Ico (numCoeff (h.take q) * Ndof) (numCoeff (h.take (q+1)) * Ndof), |X k|)
          / ((numCoeff (h.take (q+1)) * Ndof - numCoeff (h.take q) * Ndof : ℕ) : ℝ)) := by
    intro q hq i hi1 hi2
    rw [h3 q hq i hi1 hi2, hdelta q hq i hi1 hi2]; rfl
  by_cases hm : len - numCoeff h * Ndof > 0
  · rw [if_pos hm, hsize, if_neg (by omega)]
    have hst : len - (len - numCoeff h * Ndof) = numCoeff h * Ndof := by omega
    refine ⟨_, rfl, ?_, ?_⟩
    · intro q hq i hi1 hi2
      have : numCoeff (h.take (q+1)) * Ndof ≤ numCoeff h * Ndof :=
        Nat.mul_le_mul_right _ (htake_le q hq)
      unfold setSlice
      rw [if_neg (by omega)]
      exact hharm q hq i hi1 hi2
    · intro i hi1 hi2
      unfold setSlice
      rw [hst, if_pos ⟨hi1, hi2⟩]
      beta_reduce
      rw [show numCoeff h * Ndof + (i - numCoeff h * Ndof) = i by omega, h2 i hi1]
      congr 2
      rw [Nat.div_eq_iff (by omega)]
      have e3 : h.length * (2*Ndof) = 2*Ndof*h.length := by ring
      constructor <;> omega
  · rw [if_neg hm, hsize]
    refine ⟨P, rfl, hharm, ?_⟩
    intro i hi1 hi2; omega

example : ∃ (h : List ℕ) (Ndof len : ℕ), h.Nodup ∧ h ≠ [] ∧ 0 ∉ h.tail ∧ 0 < Ndof ∧
    numCoeff h * Ndof < len ∧ len < numCoeff h * Ndof + 2 * Ndof :=
  ⟨[0, 1], 2, 9, by decide, by simp, by decide, by decide, by simp [numCoeff], by simp [numCoeff]⟩

/-! ## C09 -/

/-- C09: index `i` is marked exactly when the values at `i` and `i+1` have strictly opposite signs
and the first is inside the tolerance; in particular the last index is never marked. -/
theorem C09_zero_crossing_iff (X : List ℝ) (tol : Option ℝ) (i : ℕ) :
    zeroCrossing X tol i ↔ ∃ hi : i + 1 < X.length,
      ((X[i] < 0 ∧ 0 < X[i+1]) ∨ (0 < X[i] ∧ X[i+1] < 0)) ∧ ∀ t, tol = some t → |X[i]| < t := by
  unfold zeroCrossing
  constructor
  · rintro ⟨⟨a, b, ha, hb, hab⟩, ⟨c, hc, ht⟩⟩
    obtain ⟨hi1, rfl⟩ := List.getElem?_eq_some_iff.mp ha
    obtain ⟨hi2, rfl⟩ := List.getElem?_eq_some_iff.mp hb
    refine ⟨hi2, ?_, ?_⟩
    · rcases mul_neg_iff.mp hab with h1 | h1
      · exact Or.inr h1
      · exact Or.inl h1
    · intro t htol
      rw [ha] at hc
      cases hc
      rw [htol] at ht
      exact ht
  · rintro ⟨hi, hs, ht⟩
    refine ⟨⟨X[i], X[i+1], by simp, by simp, ?_⟩, ⟨X[i], by simp, ?_⟩⟩
    · rcases hs with h1 | h1
      · exact mul_neg_of_neg_of_pos h1.1 h1.2
      · exact mul_neg_of_pos_of_neg h1.1 h1.2
    · cases tol with
      | none => trivial
      | some t => exact ht t rfl

/-- C09 (no crossing is missed, default tolerance), the part that holds: if the sequence goes from a
strictly negative to a strictly positive value without an exact zero in between, a crossing is
marked in between. -/
theorem C09_crossing_found_partial (X : List ℝ) (a b : ℕ) (hb : b < X.length) (hab : a < b)
    (hneg : X[a] < 0) (hpos : 0 < X[b])
    (hnz : ∀ i (hi : i < X.length), a ≤ i → i ≤ b → X[i] ≠ 0) :
    ∃ i, a ≤ i ∧ i < b ∧ zeroCrossing X none i := by
  induction b with
  | zero => omega
  | succ b ih =>
    by_cases hab' : a = b
    · subst hab'
      refine ⟨a, le_rfl, by omega, ?_⟩
      rw [C09_zero_crossing_iff]
      exact ⟨hb, Or.inl ⟨hneg, hpos⟩, by simp⟩
    · have hbX : b < X.length := by omega
      rcases lt_trichotomy X[b] 0 with h1 | h1 | h1
      · refine ⟨b, by omega, by omega, ?_⟩
        rw [C09_zero_crossing_iff]
        exact ⟨hb, Or.inl ⟨h1, hpos⟩, by simp⟩
      · exact absurd h1 (hnz b hbX (by omega) (by omega))
      · obtain ⟨i, hi1, hi2, hi3⟩ := ih hbX (by omega) hneg h1
          (fun i hi h1 h2 => hnz i hi h1 (by omega))
        exact ⟨i, hi1, by omega, hi3⟩

/-- C09 without the exact-zero exclusion is violated: `[-1, 0, 1]` has no marked crossing. -/
theorem C09_violated :
    ¬ ∀ (X : List ℝ) (a b : ℕ) (hb : b < X.length) (hab : a < b), X[a] < 0 → 0 < X[b] →
      ∃ i, zeroCrossing X none i := by
  intro hall
  obtain ⟨i, hi⟩ := hall [-1, 0, 1] 0 2 (by simp) (by omega) (by simp) (by simp)
  rw [C09_zero_crossing_iff] at hi
  obtain ⟨hlt, hs, -⟩ := hi
  simp only [List.length_cons, List.length_nil] at hlt
  have : i = 0 ∨ i = 1 := by omega
  rcases this with rfl | rfl
  · simp at hs
  · simp at hs

example : ∃ (X : List ℝ) (hb : 2 < X.length), X[0] < 0 ∧ 0 < X[2] ∧
    ∀ i (hi : i < X.length), 0 ≤ i → i ≤ 2 → X[i] ≠ 0 := by
  refine ⟨[-2, -1, 3], by simp, by norm_num, by norm_num, ?_⟩
  intro i hi _ h2
  have : i = 0 ∨ i = 1 ∨ i = 2 := by omega
  rcases this with rfl | rfl | rfl <;> norm_num

/-! ## C10 -/

/-- C10 is violated: wrapping the phase 0 does not give a phase equal to 0 modulo `2π`. -/
theorem C10_violated : ¬ ∀ phase : ℝ, ∃ k : ℤ, shiftPmPi phase = phase + k * (2 * Real.pi) := by
  intro hall
  obtain ⟨k, hk⟩ := hall 0
  unfold shiftPmPi pyMod at hk
  have hpi3 := Real.pi_gt_three
  have hpi4 := Real.pi_lt_d2
  have hfl : ⌊(0 + Real.pi) / 2⌋ = 1 := by
    rw [Int.floor_eq_iff]; constructor <;> norm_num <;> linarith
  rw [hfl] at hk
  have h2 : Real.pi * (Real.pi - 3 - 2 * k) = 0 := by push_cast at hk; linarith
  rcases mul_eq_zero.mp h2 with h3 | h3
  · linarith
  · have : (2 * (k : ℝ)) < 1 ∧ 0 < 2 * (k : ℝ) := by constructor <;> linarith
    have h4 : (2 * k : ℤ) < 1 := by exact_mod_cast this.1
    have h5 : (0 : ℤ) < 2 * k := by exact_mod_cast this.2
    omega

/-- C10, the part that holds: the result always lies in `[-π, π)`. -/
theorem C10_range_partial (phase : ℝ) :
    -Real.pi ≤ shiftPmPi phase ∧ shiftPmPi phase < Real.pi := by
  unfold shiftPmPi pyMod
  have hpi := Real.pi_pos
  have h1 := Int.floor_le ((phase + Real.pi) / 2)
  have h2 := Int.lt_floor_add_one ((phase + Real.pi) / 2)
  constructor
  · have : 0 ≤ (phase + Real.pi - 2 * ⌊(phase + Real.pi) / 2⌋) * Real.pi :=
      mul_nonneg (by linarith) hpi.le
    linarith
  · have : (phase + Real.pi - 2 * ⌊(phase + Real.pi) / 2⌋) * Real.pi < 2 * Real.pi :=
      mul_lt_mul_of_pos_right (by linarith) hpi
    linarith

/-! ## C11 -/

/-- C11: the rotated coefficients describe the same signal delayed by `phase / h_rotate`, for every
DOF and at every time; trailing columns are copied. -/
theorem C11_rotation_is_time_shift (h : List ℕ) (hA : Admissible h) (Ndof : ℕ) (U : ℕ → ℝ)
    (phase : ℝ) (hRot : ℕ) :
    ∃ V, rotateSubtractPhase U Ndof h phase hRot = .ok V ∧
      (∀ d < Ndof, ∀ τ : ℝ, series h (fun r => V (r * Ndof + d)) τ
        = series h (fun r => U (r * Ndof + d)) (τ - phase / hRot)) ∧
      (∀ i, numCoeff h * Ndof ≤ i → V i = U i) := by
  refine ⟨_, rsp_ok U Ndof hA.ne phase hRot, ?_, ?_⟩
  · intro d hd τ
    rw [series_eq hA.zero_first, series_eq hA.zero_first]
    congr 1
    · unfold meanCoef
      split
      · rename_i hz
        exact rsp_rest (by omega) hd
      · rfl
    · apply sum_congr rfl
      intro i hi
      rw [rsp_cos hi hd, rsp_sin hi hd, mul_sub, Real.cos_sub, Real.sin_sub]
      ring
  · intro i hi
    have hN : 0 < Ndof ∨ Ndof = 0 := by omega
    rcases hN with hN | hN
    · have hdm := Nat.div_add_mod i Ndof
      have : rsp U Ndof h phase hRot (i / Ndof * Ndof + i % Ndof) = U (i / Ndof * Ndof + i % Ndof) := by
        apply rsp_rest _ (Nat.mod_lt _ hN)
        right
        rw [← numCoeff_eq hA.zero_first, Nat.le_div_iff_mul_le hN]
        exact hi
      rw [Nat.mul_comm, hdm] at this
      exact this
    · subst hN
      have : ∀ (n : ℕ), (List.range n).foldl (rspBody U 0 h (phase / hRot)) U i = U i := by
        intro n
        induction n with
        | zero => rfl
        | succ n ih =>
          rw [List.range_succ, List.foldl_append]
          simp only [List.foldl_cons, List.foldl_nil]
          rw [rspBody, setSlice, if_neg (by simp), setSlice, if_neg (by simp), ih]
      exact this _

/-- C11 (for `h_rotate = 1` and a pure cosine the result is `cos(Ω t - phase)`, as documented). -/
theorem C11_documented_example (phase a : ℝ) :
    ∃ V, rotateSubtractPhase (fun i => if i = 0 then a else 0) 1 [1] phase 1 = .ok V ∧
      ∀ τ : ℝ, V 0 * Real.cos τ + V 1 * Real.sin τ = a * Real.cos (τ - phase) := by
  obtain ⟨V, h1, h2, -⟩ := C11_rotation_is_time_shift [1] ⟨by simp, by decide, by decide⟩ 1
    (fun i => if i = 0 then a else 0) phase 1
  refine ⟨V, h1, ?_⟩
  intro τ
  have := h2 0 (by omega) τ
  simpa [series] using this

theorem sq_rot (a b c s : ℝ) (hcs : s^2 + c^2 = 1) :
    (a*c - b*s)^2 + (a*s + b*c)^2 = a^2 + b^2 := by
  linear_combination (a^2 + b^2) * hcs

/-- C11 (amplitudes): every harmonic keeps its amplitude in every DOF, and the mean is unchanged. -/
theorem C11_amplitude_preserved (h : List ℕ) (hA : Admissible h) (Ndof : ℕ) (U : ℕ → ℝ)
    (phase : ℝ) (hRot : ℕ) :
    ∃ V, rotateSubtractPhase U Ndof h phase hRot = .ok V ∧ ∀ d < Ndof, ∀ q (hq : q < h.length),
      (h[q] = 0 → V (numCoeff (h.take q) * Ndof + d) = U (numCoeff (h.take q) * Ndof + d)) ∧
      (h[q] ≠ 0 → V (numCoeff (h.take q) * Ndof + d)^2 + V ((numCoeff (h.take q) + 1) * Ndof + d)^2
        = U (numCoeff (h.take q) * Ndof + d)^2 + U ((numCoeff (h.take q) + 1) * Ndof + d)^2) := by
  refine ⟨_, rsp_ok U Ndof hA.ne phase hRot, ?_⟩
  intro d hd q hq
  have hcount : numCoeff (h.take q) = 2 * q - (if q = 0 then 0 else zi h) := by
    have h0 : 0 ∉ (h.take q).tail := by
      intro hh; apply hA.zero_first
      cases h with
      | nil => simp at hh
      | cons a hs =>
        cases q with
        | zero => simp at hh
        | succ n => simp only [List.take_succ_cons, List.tail_cons] at hh ⊢; exact List.mem_of_mem_take hh
    rw [numCoeff_eq h0, List.length_take, min_eq_left hq.le]
    cases q with
    | zero => simp
    | succ n =>
      cases h with
      | nil => simp at hq
      | cons a hs => simp [zi_cons]
  have hz1 := zi_le_one h
  constructor
  · intro hq0
    have hq' : q = 0 := by
      by_contra hne
      apply hA.zero_first
      cases h with
      | nil => simp at hq
      | cons a hs =>
        cases q with
        | zero => exact absurd rfl hne
        | succ n =>
          simp only [List.getElem_cons_succ] at hq0
          simp only [List.tail_cons]
          rw [← hq0]; exact List.getElem_mem _
    subst hq'
    have hzi : zi h = 1 := by
      cases h with
      | nil => simp at hq
      | cons a hs => simp at hq0; simp [zi_cons, hq0]
    simp only [List.take_zero, numCoeff]
    exact rsp_rest (by omega) hd
  · intro hq0
    have hi : q ∈ Ico (zi h) h.length := by
      rw [mem_Ico]
      refine ⟨?_, hq⟩
      by_contra hlt
      have h0 : q = 0 := by omega
      subst h0
      apply hq0
      cases h with
      | nil => simp at hq
      | cons a hs =>
        rw [zi_cons] at hlt
        by_contra hne
        simp at hne
        simp [hne] at hlt
    have e : numCoeff (h.take q) = q*2 - zi h := by
      rw [hcount]; rw [mem_Ico] at hi; split <;> omega
    rw [e, rsp_cos hi hd, rsp_sin hi hd]
    exact sq_rot _ _ _ _ (Real.sin_sq_add_cos_sq _)

/-- C11 (group law): rotating by `p` and then by `q` is rotating by `p + q`; all entries. Hence
rotating by `-p` undoes rotating by `p`. -/
theorem C11_rotations_add (h : List ℕ) (hA : Admissible h) (Ndof : ℕ) (U : ℕ → ℝ)
    (p q : ℝ) (hRot : ℕ) :
    ∃ V W, rotateSubtractPhase U Ndof h p hRot = .ok V ∧
      rotateSubtractPhase V Ndof h q hRot = .ok W ∧
      ∃ Z, rotateSubtractPhase U Ndof h (p + q) hRot = .ok Z ∧ ∀ i, W i = Z i := by
  refine ⟨_, _, rsp_ok U Ndof hA.ne p hRot, rsp_ok _ Ndof hA.ne q hRot, _,
    rsp_ok U Ndof hA.ne (p+q) hRot, ?_⟩
  intro i
  rcases Nat.eq_zero_or_pos Ndof with hN | hN
  · subst hN
    have copy : ∀ (U : ℕ → ℝ) (ph : ℝ), rsp U 0 h ph hRot i = U i := by
      intro U ph
      obtain ⟨V, h1, -, h3⟩ := C11_rotation_is_time_shift h hA 0 U ph hRot
      rw [rsp_ok U 0 hA.ne ph hRot] at h1
      cases h1
      exact h3 i (by simp)
    rw [copy, copy, copy]
  · obtain ⟨R, d, hd, rfl⟩ : ∃ R d, d < Ndof ∧ i = R * Ndof + d :=
      ⟨i / Ndof, i % Ndof, Nat.mod_lt _ hN, by rw [Nat.mul_comm]; exact (Nat.div_add_mod _ _).symm⟩
    by_cases hR : R < zi h ∨ 2*h.length - zi h ≤ R
    · rw [rsp_rest hR hd, rsp_rest hR hd, rsp_rest hR hd]
    · have hz1 := zi_le_one h
      have hi : (R + zi h)/2 ∈ Ico (zi h) h.length := by rw [mem_Ico]; omega
      have hR' : R = (R + zi h)/2*2 - zi h ∨ R = (R + zi h)/2*2 - zi h + 1 := by omega
      generalize (R + zi h)/2 = k at hi hR'
      have hadd : (h.getD k 0 : ℕ) * ((p + q) / hRot)
          = (h.getD k 0 : ℕ) * (p / hRot) + (h.getD k 0 : ℕ) * (q / hRot) := by ring
      rcases hR' with rfl | rfl
      · rw [rsp_cos hi hd, rsp_cos hi hd, rsp_sin hi hd, rsp_cos hi hd, hadd, Real.cos_add,
          Real.sin_add]
        ring
      · rw [rsp_sin hi hd, rsp_cos hi hd, rsp_sin hi hd, rsp_sin hi hd, hadd, Real.cos_add,
          Real.sin_add]
        ring

/-- C11 (inverse). -/
theorem C11_rotation_inverse (h : List ℕ) (hA : Admissible h) (Ndof : ℕ) (U : ℕ → ℝ)
    (p : ℝ) (hRot : ℕ) :
    ∃ V W, rotateSubtractPhase U Ndof h p hRot = .ok V ∧
      rotateSubtractPhase V Ndof h (-p) hRot = .ok W ∧ ∀ i, W i = U i := by
  obtain ⟨V, W, h1, h2, Z, h3, h4⟩ := C11_rotations_add h hA Ndof U p (-p) hRot
  refine ⟨V, W, h1, h2, ?_⟩
  intro i
  rw [h4 i]
  rw [add_neg_cancel, rsp_ok U Ndof hA.ne 0 hRot] at h3
  cases h3
  rcases Nat.eq_zero_or_pos Ndof with hN | hN
  · subst hN
    obtain ⟨V, h1, -, h3⟩ := C11_rotation_is_time_shift h hA 0 U 0 hRot
    rw [rsp_ok U 0 hA.ne 0 hRot] at h1
    cases h1
    exact h3 i (by simp)
  · obtain ⟨R, d, hd, rfl⟩ : ∃ R d, d < Ndof ∧ i = R * Ndof + d :=
      ⟨i / Ndof, i % Ndof, Nat.mod_lt _ hN, by rw [Nat.mul_comm]; exact (Nat.div_add_mod _ _).symm⟩
    by_cases hR : R < zi h ∨ 2*h.length - zi h ≤ R
    · rw [rsp_rest hR hd]
    · have hz1 := zi_le_one h
      have hi : (R + zi h)/2 ∈ Ico (zi h) h.length := by rw [mem_Ico]; omega
      have hR' : R = (R + zi h)/2*2 - zi h ∨ R = (R + zi h)/2*2 - zi h + 1 := by omega
      generalize (R + zi h)/2 = k at hi hR'
      rcases hR' with rfl | rfl
      · rw [rsp_cos hi hd]; simp
      · rw [rsp_sin hi hd]; simp

end

end TMD
