import Verif.Lemmas.Series
import Verif.Lemmas.TimeSeries

/-! Helper lemmas for the remaining routines of `harmonic.py`. -/

namespace TMD

open Spec Finset

noncomputable section

theorem setSlice_block {nd P R d : ℕ} (hd : d < nd) (U v : ℕ → ℝ) :
    setSlice U (P*nd) ((P+1)*nd) v (R*nd + d) = if R = P then v d else U (R*nd + d) := by
  unfold setSlice
  have hpos : 0 < nd := by omega
  have hiff : (P*nd ≤ R*nd + d ∧ R*nd + d < (P+1)*nd) ↔ R = P := by
    constructor
    · rintro ⟨h1, h2⟩
      have a : P < R + 1 := by
        by_contra hcon
        have : (R + 1)*nd ≤ P*nd := Nat.mul_le_mul_right _ (by omega)
        rw [Nat.succ_mul] at this; omega
      have b : R < P + 1 := by
        by_contra hcon
        have : (P + 1)*nd ≤ R*nd := Nat.mul_le_mul_right _ (by omega)
        omega
      omega
    · rintro rfl
      rw [Nat.succ_mul]; omega
  by_cases hRP : R = P
  · rw [if_pos (hiff.mpr hRP), if_pos hRP, hRP]; congr 1; omega
  · rw [if_neg (fun hh => hRP (hiff.mp hh)), if_neg hRP]

theorem rspBody_block {nd R d : ℕ} (hd : d < nd) (Uo : ℕ → ℝ) (h : List ℕ) (ph : ℝ) (U : ℕ → ℝ)
    (i : ℕ) :
    rspBody Uo nd h ph U i (R*nd + d) =
      if R = zi h + 2*i + 1 then
        Uo ((zi h + 2*i)*nd + d) * Real.sin ((h.getD (i + zi h) 0 : ℕ) * ph)
          + Uo ((zi h + 2*i + 1)*nd + d) * Real.cos ((h.getD (i + zi h) 0 : ℕ) * ph)
      else if R = zi h + 2*i then
        Uo ((zi h + 2*i)*nd + d) * Real.cos ((h.getD (i + zi h) 0 : ℕ) * ph)
          - Uo ((zi h + 2*i + 1)*nd + d) * Real.sin ((h.getD (i + zi h) 0 : ℕ) * ph)
      else U (R*nd + d) := by
  unfold rspBody
  rw [setSlice_block (P := zi h + 2*i + 1) hd, setSlice_block (P := zi h + 2*i) hd]

theorem rsp_fold {nd d : ℕ} (hd : d < nd) (Uo : ℕ → ℝ) (h : List ℕ) (ph : ℝ) (n : ℕ) (U : ℕ → ℝ) :
    (∀ R, R < zi h ∨ zi h + 2*n ≤ R →
      (List.range n).foldl (rspBody Uo nd h ph) U (R*nd + d) = U (R*nd + d)) ∧
    ∀ i < n,
      (List.range n).foldl (rspBody Uo nd h ph) U ((zi h + 2*i)*nd + d) =
        Uo ((zi h + 2*i)*nd + d) * Real.cos ((h.getD (i + zi h) 0 : ℕ) * ph)
          - Uo ((zi h + 2*i + 1)*nd + d) * Real.sin ((h.getD (i + zi h) 0 : ℕ) * ph) ∧
      (List.range n).foldl (rspBody Uo nd h ph) U ((zi h + 2*i + 1)*nd + d) =
        Uo ((zi h + 2*i)*nd + d) * Real.sin ((h.getD (i + zi h) 0 : ℕ) * ph)
          + Uo ((zi h + 2*i + 1)*nd + d) * Real.cos ((h.getD (i + zi h) 0 : ℕ) * ph) := by
  induction n with
  | zero => simp
  | succ n ih =>
    rw [List.range_succ, List.foldl_append]
    simp only [List.foldl_cons, List.foldl_nil]
    constructor
    · intro R hR
      rw [rspBody_block hd, if_neg (by omega), if_neg (by omega), ih.1 R (by omega)]
    · intro i hi
      by_cases hin : i = n
      · subst hin
        rw [rspBody_block hd, rspBody_block hd, if_neg (by omega), if_pos rfl, if_pos rfl]
        exact ⟨rfl, rfl⟩
      · rw [rspBody_block hd, rspBody_block hd, if_neg (by omega), if_neg (by omega),
          if_neg (by omega), if_neg (by omega)]
        exact ih.2 i (by omega)

/-- The rotated row. -/
def rsp (U : ℕ → ℝ) (Ndof : ℕ) (h : List ℕ) (phase : ℝ) (hRot : ℕ) : ℕ → ℝ :=
  (List.range (h.length - zi h)).foldl (rspBody U Ndof h (phase / hRot)) U

theorem rsp_ok (U : ℕ → ℝ) (Ndof : ℕ) {h : List ℕ} (hne : h ≠ []) (phase : ℝ) (hRot : ℕ) :
    rotateSubtractPhase U Ndof h phase hRot = .ok (rsp U Ndof h phase hRot) := by
  unfold rotateSubtractPhase
  rw [if_neg hne]; rfl

theorem rsp_cos {U : ℕ → ℝ} {Ndof : ℕ} {h : List ℕ} {phase : ℝ} {hRot i d : ℕ}
    (hi : i ∈ Ico (zi h) h.length) (hd : d < Ndof) :
    rsp U Ndof h phase hRot ((i*2 - zi h)*Ndof + d) =
      U ((i*2 - zi h)*Ndof + d) * Real.cos ((h.getD i 0 : ℕ) * (phase / hRot))
        - U ((i*2 - zi h + 1)*Ndof + d) * Real.sin ((h.getD i 0 : ℕ) * (phase / hRot)) := by
  rw [mem_Ico] at hi
  have := ((rsp_fold hd U h (phase / hRot) (h.length - zi h) U).2 (i - zi h) (by omega)).1
  have hz := zi_le_one h
  rw [show zi h + 2*(i - zi h) = i*2 - zi h by omega, show i - zi h + zi h = i by omega] at this
  exact this

theorem rsp_sin {U : ℕ → ℝ} {Ndof : ℕ} {h : List ℕ} {phase : ℝ} {hRot i d : ℕ}
    (hi : i ∈ Ico (zi h) h.length) (hd : d < Ndof) :
    rsp U Ndof h phase hRot ((i*2 - zi h + 1)*Ndof + d) =
      U ((i*2 - zi h)*Ndof + d) * Real.sin ((h.getD i 0 : ℕ) * (phase / hRot))
        + U ((i*2 - zi h + 1)*Ndof + d) * Real.cos ((h.getD i 0 : ℕ) * (phase / hRot)) := by
  rw [mem_Ico] at hi
  have := ((rsp_fold hd U h (phase / hRot) (h.length - zi h) U).2 (i - zi h) (by omega)).2
  have hz := zi_le_one h
  rw [show zi h + 2*(i - zi h) = i*2 - zi h by omega, show i - zi h + zi h = i by omega] at this
  exact this

theorem rsp_rest {U : ℕ → ℝ} {Ndof : ℕ} {h : List ℕ} {phase : ℝ} {hRot R d : ℕ}
    (hR : R < zi h ∨ 2*h.length - zi h ≤ R) (hd : d < Ndof) :
    rsp U Ndof h phase hRot (R*Ndof + d) = U (R*Ndof + d) := by
  have hz := zi_le_length (h := h)
  have hz1 := zi_le_one h
  exact (rsp_fold hd U h (phase / hRot) (h.length - zi h) U).1 R (by omega)

/-- Loop of `harmonic_wise_conditioning` over non-zero harmonics. -/
theorem hwcLoop_nonzero (Ndof : ℕ) (X : ℕ → ℝ) (hs : List ℕ) (h0 : 0 ∉ hs) (p hz : ℕ)
    (hp : hz ≤ 2*p) (P : ℕ → ℝ) :
    ∃ P', hwcLoop Ndof X hs p hz P = .ok P' ∧
      (∀ i, i < (2*p - hz)*Ndof ∨ (2*(p + hs.length) - hz)*Ndof ≤ i → P' i = P i) ∧
      ∀ q < hs.length, ∀ i, (2*(p+q) - hz)*Ndof ≤ i → i < (2*(p+q) + 2 - hz)*Ndof →
        P' i = max (P i) (meanAbs X ((2*(p+q) - hz)*Ndof) ((2*(p+q) + 2 - hz)*Ndof)) := by
  induction hs generalizing p P with
  | nil => exact ⟨P, rfl, fun _ _ => rfl, by simp⟩
  | cons a hs ih =>
    have ha : a ≠ 0 := by rintro rfl; simp at h0
    rw [hwcLoop, if_neg ha]
    simp only
    obtain ⟨P', h1, h2, h3⟩ := ih (fun hh => h0 (List.mem_cons_of_mem _ hh)) (p+1) (by omega)
      (setSlice P ((2*p - hz)*Ndof) ((2*p + 2 - hz)*Ndof) (fun i =>
        max (P ((2*p - hz)*Ndof + i)) (meanAbs X ((2*p - hz)*Ndof) ((2*p + 2 - hz)*Ndof))))
    refine ⟨P', h1, ?_, ?_⟩
    · intro i hi
      have hmono1 : (2*p - hz)*Ndof ≤ (2*(p+1) - hz)*Ndof := Nat.mul_le_mul_right _ (by omega)
      have hmono2 : (2*p + 2 - hz)*Ndof ≤ (2*(p + (a :: hs).length) - hz)*Ndof :=
        Nat.mul_le_mul_right _ (by rw [List.length_cons]; omega)
      rw [h2 i]
      · unfold setSlice
        rw [if_neg]
        rintro ⟨g1, g2⟩
        omega
      · rcases hi with hi | hi
        · left; omega
        · right
          rw [List.length_cons] at hi
          rw [show p + 1 + hs.length = p + (hs.length + 1) by ring]
          exact hi
    · intro q hq i hi1 hi2
      cases q with
      | zero =>
        simp only [Nat.add_zero] at hi1 hi2 ⊢
        rw [h2 i (by left; rw [show 2*(p+1) - hz = 2*p + 2 - hz by omega]; exact hi2)]
        unfold setSlice
        rw [if_pos ⟨hi1, hi2⟩]
        beta_reduce
        rw [show (2*p-hz)*Ndof + (i - (2*p-hz)*Ndof) = i by omega]
      | succ q =>
        have hq' : q < hs.length := by simpa using hq
        have := h3 q hq' i
        rw [show p + 1 + q = p + (q + 1) by ring] at this
        rw [this hi1 hi2]
        congr 1
        unfold setSlice
        have hmono : (2*p + 2 - hz)*Ndof ≤ (2*(p+(q+1)) - hz)*Ndof :=
          Nat.mul_le_mul_right _ (by omega)
        rw [if_neg]
        rintro ⟨g1, g2⟩
        omega

/-- Loop of `harmonic_wise_conditioning` from the start. -/
theorem hwcLoop_ok (Ndof : ℕ) (X : ℕ → ℝ) {h : List ℕ} (h0 : 0 ∉ h.tail) (P : ℕ → ℝ) :
    ∃ P', hwcLoop Ndof X h 0 0 P = .ok P' ∧
      (∀ i, numCoeff h * Ndof ≤ i → P' i = P i) ∧
      ∀ q < h.length, ∀ i, numCoeff (h.take q) * Ndof ≤ i → i < numCoeff (h.take (q+1)) * Ndof →
        P' i = max (P i) (meanAbs X (numCoeff (h.take q) * Ndof) (numCoeff (h.take (q+1)) * Ndof)) := by
  cases h with
  | nil => exact ⟨P, rfl, fun _ _ => rfl, by simp⟩
  | cons a hs =>
    simp only [List.tail_cons] at h0
    have htake : ∀ q, q ≤ hs.length → numCoeff (hs.take q) = 2 * q := by
      intro q hq
      rw [numCoeff_nonzero (fun hh => h0 (List.mem_of_mem_take hh)), List.length_take, min_eq_left hq]
    by_cases ha : a = 0
    · subst ha
      rw [hwcLoop, if_pos rfl, if_neg (by simp)]
      obtain ⟨P', h1, h2, h3⟩ := hwcLoop_nonzero Ndof X hs h0 1 1 (by omega)
        (setSlice P 0 Ndof (fun i => max (P (0 + i)) (meanAbs X 0 Ndof)))
      refine ⟨P', h1, ?_, ?_⟩
      · intro i hi
        have hnc : numCoeff (0 :: hs) = 2*(1 + hs.length) - 1 := by
          simp [numCoeff, numCoeff_nonzero h0]; omega
        rw [hnc] at hi
        rw [h2 i (Or.inr hi)]
        unfold setSlice
        have : 1 * Ndof ≤ (2*(1 + hs.length) - 1) * Ndof := Nat.mul_le_mul_right _ (by omega)
        rw [if_neg (by omega)]
      · intro q hq i hi1 hi2
        cases q with
        | zero =>
          simp [numCoeff] at hi1 hi2 ⊢
          rw [h2 i (by left; simpa using hi2)]
          unfold setSlice
          rw [if_pos ⟨by omega, hi2⟩]; simp
        | succ q =>
          have hq' : q < hs.length := by simpa using hq
          have e1 : numCoeff ((0 :: hs).take (q+1)) = 2*(1+q) - 1 := by
            simp [numCoeff, htake q (by omega)]; omega
          have e2 : numCoeff ((0 :: hs).take (q+1+1)) = 2*(1+q) + 2 - 1 := by
            rw [List.take_succ_cons, numCoeff, htake (q+1) (by omega)]; simp; omega
          rw [e1] at hi1
          rw [e2] at hi2
          rw [e1, e2, h3 q hq' i hi1 hi2]
          congr 1
          unfold setSlice
          have : 1 * Ndof ≤ (2*(1 + q) - 1) * Ndof := Nat.mul_le_mul_right _ (by omega)
          rw [if_neg (by omega)]
    · have h0' : 0 ∉ a :: hs := by
        simp only [List.mem_cons, not_or]; exact ⟨fun e => ha e.symm, h0⟩
      obtain ⟨P', h1, h2, h3⟩ := hwcLoop_nonzero Ndof X (a :: hs) h0' 0 0 (by omega) P
      have ht : ∀ q ≤ (a :: hs).length, numCoeff ((a :: hs).take q) = 2*q := by
        intro q hq
        rw [numCoeff_nonzero (fun hh => h0' (List.mem_of_mem_take hh)), List.length_take, min_eq_left hq]
      refine ⟨P', h1, ?_, ?_⟩
      · intro i hi
        apply h2 i; right
        rw [numCoeff_nonzero h0'] at hi
        simpa using hi
      · intro q hq i hi1 hi2
        rw [ht q (by omega)] at hi1
        rw [ht (q+1) (by omega)] at hi2
        rw [ht q (by omega), ht (q+1) (by omega)]
        have := h3 q hq i
        simp only [Nat.zero_add, Nat.sub_zero] at this
        exact this hi1 hi2

end

end TMD
