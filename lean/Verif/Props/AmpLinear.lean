import Verif.Props.DashpotSweep
import Verif.Props.AmpControl

/-!
# C155: the load that gives a linear structure a prescribed amplitude
-/

namespace TMD

open Spec Finset

noncomputable section

variable {S : VibSys} {Fl recov : ℕ → ℝ} {h : List ℕ} {Nt order : ℕ} {tol w amp : ℝ}

theorem steady_lin (hh : Admissible h) (hS : S.forces = []) (hw : w ≠ 0) (hreg : Regular (numCoeff h * S.nd) (hsE S.nd S.M S.C S.K w h false)) (U : ℕ → ℝ) :
    SteadyMotion S Fl h w U ↔ ∀ i < numCoeff h * S.nd, matVec (numCoeff h * S.nd) (hsE S.nd S.M S.C S.K w h false) U i = Fl i := by
  have h1 := resp_iff (Fl := Fl) hreg fun j : Fin (numCoeff h * S.nd) => U j
  rw [steady_resp hh hS hw hreg U, ← funext_iff (f := fun j : Fin (numCoeff h * S.nd) => U j), ← h1, funext_iff]
  have e : ∀ i : Fin (numCoeff h * S.nd), (dynMat S h w).mulVec (fun j : Fin (numCoeff h * S.nd) => U j) i = matVec (numCoeff h * S.nd) (hsE S.nd S.M S.C S.K w h false) U i := fun i => by
    simp only [Matrix.mulVec, dotProduct, dynMat, matVec]
    rw [Finset.sum_range]
  exact ⟨fun H i hi => by rw [← e ⟨i, hi⟩]; exact H ⟨i, hi⟩, fun H i => by rw [e i]; exact H i i.2⟩

/-- A load with a static part only moves the static coefficients only. -/
theorem static_only (hh : Admissible h) (hreg : Regular (numCoeff h * S.nd) (hsE S.nd S.M S.C S.K w h false)) {V : ℕ → ℝ}
    (hV : ∀ i < numCoeff h * S.nd, ¬ (0 ∈ h ∧ i < S.nd) → matVec (numCoeff h * S.nd) (hsE S.nd S.M S.C S.K w h false) V i = 0) :
    ∀ j < numCoeff h * S.nd, ¬ (0 ∈ h ∧ j < S.nd) → V j = 0 := by
  have h0 := hh.zero_first
  set W : ℕ → ℝ := fun j => if 0 ∈ h ∧ j < S.nd then 0 else V j with hW
  have hWV : ∀ j, ¬ (0 ∈ h ∧ j < S.nd) → W j = V j := fun j hj => by simp only [hW, if_neg hj]
  have hz1 : 0 ∈ h → zi h = 1 := fun hm => by rw [zi_mem hh, if_pos hm]
  have hkey : ∀ i < numCoeff h * S.nd, ∑ j ∈ range (numCoeff h * S.nd), hsE S.nd S.M S.C S.K w h false i j * W j = 0 := by
    intro j hj
    have hnd : 0 < S.nd := by
      rcases Nat.eq_zero_or_pos S.nd with h' | h'
      · rw [h', mul_zero] at hj; omega
      · exact h'
    have hR : j / S.nd < numCoeff h := (Nat.div_lt_iff_lt_mul hnd).2 hj
    have hd : j % S.nd < S.nd := Nat.mod_lt _ hnd
    have ej : S.nd * (j / S.nd) + j % S.nd = j := Nat.div_add_mod j S.nd
    change matVec _ _ W j = 0
    have hrow : ∀ {R e : ℕ}, (zi h = 1 → 1 ≤ R) → ¬ (0 ∈ h ∧ S.nd * R + e < S.nd) := fun {R e} hR hc => by
      have h2 := Nat.mul_le_mul_left S.nd (hR (hz1 hc.1))
      omega
    rcases row_cases h0 hR with ⟨hz, hR0⟩ | ⟨i, hi, hRi⟩
    · have hz0 : 0 ∈ h := by
        by_contra hc
        rw [zi_mem hh, if_neg hc] at hz
        omega
      rw [← ej, hR0, hsE_mulVec_zero S.M S.C S.K w hz hd W false]
      refine Finset.sum_eq_zero fun e he => ?_
      have : W (S.nd * 0 + e) = 0 := by simp [hW, hz0, mem_range.1 he]
      rw [this, mul_zero]
    · have hi1 := (mem_Ico.1 hi).1
      have hp : zi h = 1 → 1 ≤ i * 2 - zi h := fun hz => by omega
      rcases hRi with e | e
      · have h3 := hV j hj (by rw [← ej, e]; exact hrow hp)
        rw [← ej, e, hsE_mulVec_cos S.M S.C S.K w h0 hi hd] at h3 ⊢
        refine Eq.trans ?_ h3
        exact Finset.sum_congr rfl fun e' _ => by rw [hWV _ (hrow fun hz => by omega), hWV _ (hrow hp)]
      · have h3 := hV j hj (by rw [← ej, e]; exact hrow fun hz => by omega)
        rw [← ej, e, hsE_mulVec_sin S.M S.C S.K w h0 hi hd] at h3 ⊢
        refine Eq.trans ?_ h3
        exact Finset.sum_congr rfl fun e' _ => by rw [hWV (S.nd * (i * 2 - zi h) + e') (hrow hp), hWV (S.nd * (i * 2 - zi h + 1) + e') (hrow fun hz => by omega)]
  intro j hj hns
  rw [← hWV j hns]
  exact hreg W hkey j hj

/-- The load without its static part. -/
def withoutStatic (nd : ℕ) (h : List ℕ) (Fl : ℕ → ℝ) (i : ℕ) : ℝ := if 0 ∈ h ∧ i < nd then 0 else Fl i

theorem matVec_sub_smul {n : ℕ} {A : ℕ → ℕ → ℝ} {U V : ℕ → ℝ} {a : ℝ} (i : ℕ) : matVec n A (fun j => U j - a * V j) i = matVec n A U i - a * matVec n A V i := by
  unfold matVec
  rw [mul_sum, ← sum_sub_distrib]
  exact sum_congr rfl fun j _ => by ring

/-- The first harmonic of a response is that of the unit load times the load factor. -/
theorem first_scaled (hh : Admissible h) (h1 : ∃ hs, h = 1 :: hs ∨ h = 0 :: 1 :: hs) (hreg : Regular (numCoeff h * S.nd) (hsE S.nd S.M S.C S.K w h false)) {U U1 : ℕ → ℝ} {a : ℝ}
    (hU : ∀ i < numCoeff h * S.nd, ¬ (0 ∈ h ∧ i < S.nd) → matVec (numCoeff h * S.nd) (hsE S.nd S.M S.C S.K w h false) U i = a * Fl i)
    (hU1 : ∀ i < numCoeff h * S.nd, ¬ (0 ∈ h ∧ i < S.nd) → matVec (numCoeff h * S.nd) (hsE S.nd S.M S.C S.K w h false) U1 i = Fl i) :
    ctrl S.nd recov (zi h) U = a * ctrl S.nd recov (zi h) U1 ∧ ctrl S.nd recov (zi h + 1) U = a * ctrl S.nd recov (zi h + 1) U1 := by
  have h2 := static_only hh hreg (V := fun j => U j - a * U1 j) fun i hi hns => by rw [matVec_sub_smul, hU i hi hns, hU1 i hi hns, sub_self]
  have hle := (coefOf_first h1 (fun _ => (0 : ℝ))).2
  have h3 : ∀ r, zi h ≤ r → r < numCoeff h → ∀ e < S.nd, U (r * S.nd + e) = a * U1 (r * S.nd + e) := fun r hr hrn e he => by
    have hlt : r * S.nd + e < numCoeff h * S.nd := by
      calc r * S.nd + e < r * S.nd + S.nd := by omega
        _ = (r + 1) * S.nd := by ring
        _ ≤ _ := Nat.mul_le_mul_right _ hrn
    have := h2 _ hlt fun hc => by
      have hz := zi_mem hh
      rw [if_pos hc.1] at hz
      have h4 := Nat.mul_le_mul_right S.nd (show 1 ≤ r by omega)
      omega
    linarith
  unfold ctrl
  constructor
  · rw [mul_sum]
    exact sum_congr rfl fun e he => by rw [h3 _ le_rfl (by omega) e (mem_range.1 he)]; ring
  · rw [mul_sum]
    exact sum_congr rfl fun e he => by rw [h3 _ (by omega) (by omega) e (mem_range.1 he)]; ring

/-- C155: let the control point have the amplitude `G` under the unit load. The residual of the amplitude control is zero exactly at the steady motions under the load
with a factor of size `amp / G`: the static part is not scaled and does not count. -/
theorem C155_load (hh : Admissible h) (h1 : ∃ hs, h = 1 :: hs ∨ h = 0 :: 1 :: hs) (hS : S.forces = []) (hw : w ≠ 0) (hreg : Regular (numCoeff h * S.nd) (hsE S.nd S.M S.C S.K w h false))
    (hamp : 0 ≤ amp) {U1 : ℕ → ℝ} (hU1 : SteadyMotion S (withoutStatic S.nd h Fl) h w U1) {G : ℝ} (hG : IsAmplitude (iteratedDeriv order (controlMotion S.nd h recov U1 w)) G)
    (X : ℕ → ℝ) (hX : X (numCoeff h * S.nd + 1) = w) :
    ∃ R g, hbmAmpControlRes S X Fl h recov amp order Nt tol true = .ok ⟨R, some g⟩ ∧
      ((∀ i < numCoeff h * S.nd + 1, R i = 0) ↔ SteadyMotion S (scaledForcing S.nd h Fl (X (numCoeff h * S.nd))) h w X ∧ |X (numCoeff h * S.nd)| * G = amp) := by
  obtain ⟨R, g, R', g', e1, e2, e3⟩ := C48_amp_control_zero_iff S h hh h1 Nt tol (fun _ _ _ => ⟨fun _ => 0, fun _ _ => 0, fun _ => 0⟩) (by simp [hS]) X Fl recov amp hamp order (by rw [hX]; exact hw)
  refine ⟨R, g, e1, e3.trans ?_⟩
  rw [lin_value hh hS] at e2
  injection e2 with e2
  injection e2 with e2 _
  have e4 : (∀ i < numCoeff h * S.nd, R' i = 0) ↔ SteadyMotion S (scaledForcing S.nd h Fl (X (numCoeff h * S.nd))) h w X := by
    rw [steady_lin hh hS hw hreg]
    refine forall₂_congr fun i hi => ?_
    rw [← e2]
    simp only [linR, if_neg (lt_irrefl _), hX]
    rw [sub_eq_zero]
    unfold matVec
    rw [sum_congr rfl fun j hj => by rw [if_pos (mem_range.1 hj)]]
  rw [e4]
  refine and_congr_right fun hst => ?_
  have hst' := (steady_lin hh hS hw hreg X).1 hst
  have hU1' := (steady_lin hh hS hw hreg U1).1 hU1
  obtain ⟨c1, c2⟩ := first_scaled (Fl := Fl) (recov := recov) hh h1 hreg (U := X) (U1 := U1) (a := X (numCoeff h * S.nd))
    (fun i hi hns => by rw [hst' i hi, scaledForcing, if_neg hns]) (fun i hi hns => by rw [hU1' i hi, withoutStatic, if_neg hns])
  rw [controlMotion_eq h1, amplitude_iff _ _ _ hw] at hG
  rw [hX, controlMotion_eq h1, amplitude_iff _ _ _ hw, c1, c2]
  have e5 : w ^ (2 * order) * ((X (numCoeff h * S.nd) * ctrl S.nd recov (zi h) U1) ^ 2 + (X (numCoeff h * S.nd) * ctrl S.nd recov (zi h + 1) U1) ^ 2) = (|X (numCoeff h * S.nd)| * G) ^ 2 := by
    rw [mul_pow |X _|, sq_abs, ← hG.2]
    ring
  rw [e5]
  have h5 : 0 ≤ |X (numCoeff h * S.nd)| * G := mul_nonneg (abs_nonneg _) hG.1
  exact ⟨fun ⟨_, h6⟩ => (sq_eq_sq₀ h5 hamp).1 h6, fun h6 => ⟨hamp, by rw [h6]⟩⟩

/-- C155: the matrix returned at a solution with a positive amplitude is regular, so that the amplitude controlled sweep has neither folds nor branch points. -/
theorem C155_regular (hh : Admissible h) (h1 : ∃ hs, h = 1 :: hs ∨ h = 0 :: 1 :: hs) (hS : S.forces = []) (hreg : Regular (numCoeff h * S.nd) (hsE S.nd S.M S.C S.K w h false))
    (hamp : 0 < amp) (X : ℕ → ℝ) (hX : X (numCoeff h * S.nd + 1) = w) :
    ∃ R J d, hbmAmpControlRes S X Fl h recov amp order Nt tol true = .ok ⟨R, some (J, d)⟩ ∧
      ((∀ i < numCoeff h * S.nd + 1, R i = 0) → Regular (numCoeff h * S.nd + 1) J) := by
  set L := numCoeff h * S.nd with hL
  set A : NLForce → (ℕ → ℝ) → ℝ → AftOut := fun _ _ _ => ⟨fun _ => 0, fun _ _ => 0, fun _ => 0⟩ with hA
  obtain ⟨R, J, d, e1, e2, e3, e4, e5, -, e6, -⟩ := ampControl_ok S hh Nt tol A (by simp [hS]) X Fl recov amp order (L := L) rfl
  refine ⟨R, J, d, e1, fun hz D hD => ?_⟩
  have hle := (coefOf_first h1 (fun _ => (0 : ℝ))).2
  have hsum : ∀ {c : ℕ}, c < numCoeff h → ∑ j ∈ range L, (if c * S.nd ≤ j ∧ j < (c + 1) * S.nd then recov (j - c * S.nd) else 0) * D j = ctrl S.nd recov c D := fun {c} hc => by
    unfold ctrl
    have hsub : ∀ e ∈ range S.nd, c * S.nd + e ∈ range L := fun e he => by
      rw [mem_range] at he ⊢
      calc c * S.nd + e < c * S.nd + S.nd := by omega
        _ = (c + 1) * S.nd := by ring
        _ ≤ _ := Nat.mul_le_mul_right _ hc
    refine (sum_of_injOn (fun e => c * S.nd + e) (fun a _ b _ hab => by simpa using hab) hsub (fun j hj hnot => ?_) fun e he => ?_).symm
    · rw [if_neg, zero_mul]
      rintro ⟨h2, h3⟩
      refine hnot ⟨j - c * S.nd, ?_, by simp; omega⟩
      have : (c + 1) * S.nd = c * S.nd + S.nd := by ring
      simp
      omega
    · have : (c + 1) * S.nd = c * S.nd + S.nd := by ring
      rw [if_pos ⟨by omega, by have := mem_range.1 he; omega⟩]
      simp
  have hJ : ∀ i < L, ∀ j < L, J i j = hsE S.nd S.M S.C S.K w h false i j := fun i hi j hj => by
    rw [e4 i hi j hj]
    simp only [hbmJ, hS, List.map_nil, List.sum_nil, add_zero]
    rw [← hL, hcat_at, hX]
  have hrow : ∀ i < L, matVec L (hsE S.nd S.M S.C S.K w h false) D i = D L * dynForcing S.nd h Fl i := fun i hi => by
    have h2 := hD i (by omega)
    rw [sum_range_succ, e5 i hi, sum_congr rfl fun j hj => by rw [hJ i hi j (mem_range.1 hj)]] at h2
    unfold matVec
    linarith
  have hXrow : ∀ i < L, matVec L (hsE S.nd S.M S.C S.K w h false) X i = scaledForcing S.nd h Fl (X L) i := fun i hi => by
    have h2 := hz i (by omega)
    rw [e2 i hi, sub_eq_zero] at h2
    rw [← h2]
    simp only [hbmG, hS, List.map_nil, List.sum_nil, add_zero]
    rw [← hL, hcat_at, hX, sl_hcat]
    unfold matVec
    exact sum_congr rfl fun j hj => by rw [sl_zero (mem_range.1 hj)]
  obtain ⟨c1, c2⟩ := first_scaled (Fl := fun i => dynForcing S.nd h Fl i * X L) (recov := recov) hh h1 hreg (U := fun j => X L * D j) (U1 := X) (a := D L)
    (fun i hi hns => by
      have := hrow i hi
      unfold matVec at this ⊢
      rw [show ∑ k ∈ range (numCoeff h * S.nd), hsE S.nd S.M S.C S.K w h false i k * (X L * D k) = X L * ∑ k ∈ range L, hsE S.nd S.M S.C S.K w h false i k * D k from by
        rw [mul_sum]; exact sum_congr rfl fun k _ => by ring, this]
      ring)
    (fun i hi hns => by rw [hXrow i hi, scaledForcing, if_neg hns, dynForcing, if_neg hns]; ring)
  have hlast := hD L (by omega)
  rw [sum_range_succ, e6 L le_rfl] at hlast
  have hz1 : zi h * S.nd ≤ L ∧ (zi h + 1) * S.nd ≤ L ∧ (zi h + 1 + 1) * S.nd ≤ L :=
    ⟨Nat.mul_le_mul_right _ (by omega), Nat.mul_le_mul_right _ (by omega), Nat.mul_le_mul_right _ (by omega)⟩
  rw [if_neg (by omega), if_neg (by omega)] at hlast
  have hsplit : ∑ j ∈ range L, J L j * D j = X (L + 1) ^ (2 * order) * (2 * ctrl S.nd recov (zi h) X * ctrl S.nd recov (zi h) D + 2 * ctrl S.nd recov (zi h + 1) X * ctrl S.nd recov (zi h + 1) D) := by
    rw [← hsum (c := zi h) (by omega), ← hsum (c := zi h + 1) (by omega), mul_sum, mul_sum, ← sum_add_distrib, mul_sum]
    exact sum_congr rfl fun j hj => by rw [e6 j (mem_range.1 hj).le]; ring
  have hcs : ∀ c, ctrl S.nd recov c (fun j => X L * D j) = X L * ctrl S.nd recov c D := fun c => by
    unfold ctrl
    rw [mul_sum]
    exact sum_congr rfl fun e _ => by ring
  rw [hcs] at c1 c2
  have hampeq : X (L + 1) ^ (2 * order) * (ctrl S.nd recov (zi h) X ^ 2 + ctrl S.nd recov (zi h + 1) X ^ 2) = amp ^ 2 := by
    have := hz L (by omega)
    rw [e3] at this
    linarith
  have hDL : D L = 0 := by
    have h2 : D L * amp ^ 2 = 0 := by
      rw [← hampeq]
      rw [hsplit] at hlast
      have h3 : X (L + 1) ^ (2 * order) * (ctrl S.nd recov (zi h) X * (X L * ctrl S.nd recov (zi h) D) + ctrl S.nd recov (zi h + 1) X * (X L * ctrl S.nd recov (zi h + 1) D)) = 0 := by
        linear_combination (X L / 2) * hlast
      rw [c1, c2] at h3
      linear_combination h3
    rcases mul_eq_zero.1 h2 with h2 | h2
    · exact h2
    · exact absurd h2 (by positivity)
  intro j hj
  rcases Nat.lt_or_ge j L with hjL | hjL
  · exact hreg D (fun i hi => by
      have := hrow i hi
      rw [hDL, zero_mul] at this
      exact this) j hjL
  · obtain rfl : j = L := by omega
    exact hDL

/-- The residual of the amplitude control is returned and is zero at `X`. -/
def AmpZero (S : VibSys) (Fl recov : ℕ → ℝ) (h : List ℕ) (amp : ℝ) (order Nt : ℕ) (tol : ℝ) (X : ℕ → ℝ) : Prop :=
  ∃ r, hbmAmpControlRes S X Fl h recov amp order Nt tol true = .ok r ∧ ∀ i < numCoeff h * S.nd + 1, r.1 i = 0

theorem ampZero_iff (hh : Admissible h) (h1 : ∃ hs, h = 1 :: hs ∨ h = 0 :: 1 :: hs) (hS : S.forces = []) (hw : w ≠ 0) (hreg : Regular (numCoeff h * S.nd) (hsE S.nd S.M S.C S.K w h false))
    (hamp : 0 ≤ amp) {U1 : ℕ → ℝ} (hU1 : SteadyMotion S (withoutStatic S.nd h Fl) h w U1) {G : ℝ} (hG : IsAmplitude (iteratedDeriv order (controlMotion S.nd h recov U1 w)) G)
    (X : ℕ → ℝ) (hX : X (numCoeff h * S.nd + 1) = w) :
    AmpZero S Fl recov h amp order Nt tol X ↔ SteadyMotion S (scaledForcing S.nd h Fl (X (numCoeff h * S.nd))) h w X ∧ |X (numCoeff h * S.nd)| * G = amp := by
  obtain ⟨R, g, e1, e2⟩ := C155_load (Nt := Nt) (tol := tol) hh h1 hS hw hreg hamp hU1 hG X hX
  rw [← e2]
  refine ⟨fun ⟨r, h2, h3⟩ => ?_, fun h2 => ⟨_, e1, h2⟩⟩
  rw [e1] at h2
  injection h2 with h2
  rw [← h2] at h3
  exact h3

/-- C155: a control point that the load moves takes any prescribed amplitude for exactly two load factors, of opposite sign, and for each of them in one motion. -/
theorem C155_two (hh : Admissible h) (h1 : ∃ hs, h = 1 :: hs ∨ h = 0 :: 1 :: hs) (hS : S.forces = []) (hw : w ≠ 0) (hreg : Regular (numCoeff h * S.nd) (hsE S.nd S.M S.C S.K w h false))
    (hamp : 0 < amp) {U1 : ℕ → ℝ} (hU1 : SteadyMotion S (withoutStatic S.nd h Fl) h w U1) {G : ℝ} (hG : IsAmplitude (iteratedDeriv order (controlMotion S.nd h recov U1 w)) G) (hpos : 0 < G) :
    (∀ a : ℝ, (∃ X, X (numCoeff h * S.nd) = a ∧ X (numCoeff h * S.nd + 1) = w ∧ AmpZero S Fl recov h amp order Nt tol X) ↔ a = amp / G ∨ a = -(amp / G)) ∧
      ∀ X Y, X (numCoeff h * S.nd + 1) = w → Y (numCoeff h * S.nd + 1) = w → X (numCoeff h * S.nd) = Y (numCoeff h * S.nd) →
        AmpZero S Fl recov h amp order Nt tol X → AmpZero S Fl recov h amp order Nt tol Y → ∀ j < numCoeff h * S.nd, X j = Y j := by
  have hz := fun X hX => ampZero_iff (Nt := Nt) (tol := tol) hh h1 hS hw hreg hamp.le hU1 hG X hX
  have hq : 0 < amp / G := div_pos hamp hpos
  have habs : ∀ a : ℝ, |a| * G = amp ↔ a = amp / G ∨ a = -(amp / G) := fun a => by
    rw [← eq_div_iff hpos.ne', abs_eq hq.le]
  constructor
  · intro a
    rw [← habs]
    constructor
    · rintro ⟨X, rfl, hX, h2⟩
      exact ((hz X hX).1 h2).2
    · intro h2
      set X : ℕ → ℝ := fun j => if hj : j < numCoeff h * S.nd then resp S (scaledForcing S.nd h Fl a) h w ⟨j, hj⟩ else if j = numCoeff h * S.nd then a else w with hXd
      have hXL : X (numCoeff h * S.nd) = a := by simp [hXd]
      have hX : X (numCoeff h * S.nd + 1) = w := by simp [hXd]
      refine ⟨X, hXL, hX, (hz X hX).2 ⟨?_, by rw [hXL]; exact h2⟩⟩
      rw [hXL, steady_resp hh hS hw hreg]
      intro j
      simp [hXd]
  · intro X Y hX hY hXY h2 h3 j hj
    have h4 := (steady_resp hh hS hw hreg X).1 ((hz X hX).1 h2).1 ⟨j, hj⟩
    have h5 := (steady_resp hh hS hw hreg Y).1 ((hz Y hY).1 h3).1 ⟨j, hj⟩
    rw [hXY] at h4
    exact h4.trans h5.symm

/-- C155: a control point that the load does not move cannot be given a positive amplitude. -/
theorem C155_none (hh : Admissible h) (h1 : ∃ hs, h = 1 :: hs ∨ h = 0 :: 1 :: hs) (hS : S.forces = []) (hw : w ≠ 0) (hreg : Regular (numCoeff h * S.nd) (hsE S.nd S.M S.C S.K w h false))
    (hamp : 0 < amp) {U1 : ℕ → ℝ} (hU1 : SteadyMotion S (withoutStatic S.nd h Fl) h w U1) (hG : ∀ t, controlMotion S.nd h recov U1 w t = 0) (X : ℕ → ℝ) (hX : X (numCoeff h * S.nd + 1) = w) :
    ¬ AmpZero S Fl recov h amp order Nt tol X := by
  have hG' : IsAmplitude (iteratedDeriv order (controlMotion S.nd h recov U1 w)) 0 := by
    rw [show controlMotion S.nd h recov U1 w = fun _ => 0 from funext hG]
    have h2 : ∀ t : ℝ, iteratedDeriv order (fun _ : ℝ => (0 : ℝ)) t = 0 := fun t => by
      rcases order with _ | k
      · simp
      · rw [iteratedDeriv_const]; simp
    exact ⟨fun t => by rw [h2]; simp, 0, by rw [h2]; simp⟩
  rw [ampZero_iff hh h1 hS hw hreg hamp.le hU1 hG' X hX]
  rintro ⟨-, h3⟩
  rw [mul_zero] at h3
  exact hamp.ne h3

/-- C155: a damped structure is moved at the point where the load acts: with a cosine load and the same row as recovery the amplitude per load is positive. -/
theorem C155_collocated (hh : Admissible h) (h1 : ∃ hs, h = 1 :: hs ∨ h = 0 :: 1 :: hs) (hS : S.forces = []) (hd : Damped S h) (hw : w ≠ 0)
    {U1 : ℕ → ℝ} (hU1 : SteadyMotion S (withoutStatic S.nd h Fl) h w U1) (hcos : ∀ d < S.nd, (coefOf h (fun r => Fl (r * S.nd + d)) 1).1 = recov d)
    (hsin : ∀ d < S.nd, (coefOf h (fun r => Fl (r * S.nd + d)) 1).2 = 0) (hne : ∃ d < S.nd, recov d ≠ 0) {G : ℝ}
    (hG : IsAmplitude (iteratedDeriv order (controlMotion S.nd h recov U1 w)) G) : 0 < G := by
  have hreg := damped_regular hh hd.massSymm hd.stiffSymm hd.damping hd.stiffness hw
  have h2 := (steady_lin hh hS hw hreg U1).1 hU1
  rw [controlMotion_eq h1, amplitude_iff _ _ _ hw] at hG
  have h0 := hh.zero_first
  have hle := (coefOf_first h1 (fun _ => (0 : ℝ))).2
  have hi : zi h ∈ Ico (zi h) h.length ∧ h.getD (zi h) 0 = 1 := by
    obtain ⟨hs, rfl | rfl⟩ := h1 <;> simp [zi]
  obtain ⟨hi, hk⟩ := hi
  have hp : zi h * 2 - zi h = zi h := by omega
  set a : ℕ → ℝ := fun e => U1 (zi h * S.nd + e) with ha
  set b : ℕ → ℝ := fun e => U1 ((zi h + 1) * S.nd + e) with hb
  have hns : ∀ r, zi h ≤ r → ∀ d < S.nd, ¬ (0 ∈ h ∧ r * S.nd + d < S.nd) := fun r hr d _ hc => by
    have hz := zi_mem hh
    rw [if_pos hc.1] at hz
    have h4 := Nat.mul_le_mul_right S.nd (show 1 ≤ r by omega)
    omega
  have hlt : ∀ r < numCoeff h, ∀ d < S.nd, r * S.nd + d < numCoeff h * S.nd := fun r hr d hd => by
    calc r * S.nd + d < r * S.nd + S.nd := by omega
      _ = (r + 1) * S.nd := by ring
      _ ≤ _ := Nat.mul_le_mul_right _ hr
  have hc : ∀ d < S.nd, ∑ e ∈ range S.nd, (w * S.C d e * b e + (S.K d e - w ^ 2 * S.M d e) * a e) = recov d := fun d hd => by
    have h3 := hsE_mulVec_cos S.M S.C S.K w h0 hi hd U1 false
    rw [hp, mul_comm S.nd, h2 _ (hlt _ (by omega) d hd), withoutStatic, if_neg (hns _ le_rfl d hd)] at h3
    have h4 := hcos d hd
    rw [(coefOf_first h1 _).1] at h4
    rw [← h4]
    refine Eq.trans (sum_congr rfl fun e _ => ?_) h3.symm
    rw [hk]
    simp [ha, hb, mul_comm S.nd]
  have hs : ∀ d < S.nd, ∑ e ∈ range S.nd, (-(w * S.C d e * a e) + (S.K d e - w ^ 2 * S.M d e) * b e) = 0 := fun d hd => by
    have h3 := hsE_mulVec_sin S.M S.C S.K w h0 hi hd U1 false
    rw [hp, mul_comm S.nd, h2 _ (hlt _ (by omega) d hd), withoutStatic, if_neg (hns _ (by omega) d hd)] at h3
    have h4 := hsin d hd
    rw [(coefOf_first h1 _).1] at h4
    rw [← h4]
    refine Eq.trans (sum_congr rfl fun e _ => ?_) h3.symm
    rw [hk]
    simp [ha, hb, mul_comm S.nd]
  set Q : (ℕ → ℝ) → ℝ := fun v => ∑ d ∈ range S.nd, ∑ e ∈ range S.nd, v d * S.C d e * v e with hQ
  have hQ0 : ∀ v, 0 ≤ Q v := fun v => by
    by_cases hv : ∃ d < S.nd, v d ≠ 0
    · exact (hd.damping v hv).le
    · push Not at hv
      exact (sum_eq_zero fun d hd => sum_eq_zero fun e _ => by rw [hv d (mem_range.1 hd), zero_mul, zero_mul]).ge
  have hpower : ctrl S.nd recov (zi h + 1) U1 = w * (Q a + Q b) := by
    have e1 : ctrl S.nd recov (zi h + 1) U1 = ∑ d ∈ range S.nd, (b d * ∑ e ∈ range S.nd, (w * S.C d e * b e + (S.K d e - w ^ 2 * S.M d e) * a e)
        - a d * ∑ e ∈ range S.nd, (-(w * S.C d e * a e) + (S.K d e - w ^ 2 * S.M d e) * b e)) := by
      unfold ctrl
      exact sum_congr rfl fun d hd => by rw [hc d (mem_range.1 hd), hs d (mem_range.1 hd)]; simp only [hb]; ring
    have e2 : ∑ d ∈ range S.nd, ∑ e ∈ range S.nd, b d * ((S.K d e - w ^ 2 * S.M d e) * a e) = ∑ d ∈ range S.nd, ∑ e ∈ range S.nd, a d * ((S.K d e - w ^ 2 * S.M d e) * b e) := by
      rw [sum_comm]
      refine sum_congr rfl fun d h3 => sum_congr rfl fun e h4 => ?_
      rw [hd.stiffSymm e (mem_range.1 h4) d (mem_range.1 h3), hd.massSymm e (mem_range.1 h4) d (mem_range.1 h3)]
      ring
    rw [e1]
    have e3 : ∑ d ∈ range S.nd, (b d * ∑ e ∈ range S.nd, (w * S.C d e * b e + (S.K d e - w ^ 2 * S.M d e) * a e)
        - a d * ∑ e ∈ range S.nd, (-(w * S.C d e * a e) + (S.K d e - w ^ 2 * S.M d e) * b e)) =
        w * (Q a + Q b) + (∑ d ∈ range S.nd, ∑ e ∈ range S.nd, b d * ((S.K d e - w ^ 2 * S.M d e) * a e) - ∑ d ∈ range S.nd, ∑ e ∈ range S.nd, a d * ((S.K d e - w ^ 2 * S.M d e) * b e)) := by
      simp only [hQ, mul_sum, ← sum_add_distrib, ← sum_sub_distrib]
      exact sum_congr rfl fun d _ => sum_congr rfl fun e _ => by ring
    rw [e3, e2, sub_self, add_zero]
  have hQpos : 0 < Q a + Q b := by
    by_contra hn
    have ha0 : ∀ d < S.nd, a d = 0 := fun d h3 => by
      by_contra h4
      have h5 : 0 < Q a := hd.damping a ⟨d, h3, h4⟩
      linarith [hQ0 b]
    have hb0 : ∀ d < S.nd, b d = 0 := fun d h3 => by
      by_contra h4
      have h5 : 0 < Q b := hd.damping b ⟨d, h3, h4⟩
      linarith [hQ0 a]
    obtain ⟨d, h3, h4⟩ := hne
    refine h4 ?_
    rw [← hc d h3]
    exact sum_eq_zero fun e he => by rw [ha0 e (mem_range.1 he), hb0 e (mem_range.1 he)]; ring
  refine lt_of_le_of_ne hG.1 fun h3 => ?_
  rw [← h3, hpower] at hG
  have h4 : 0 < w ^ (2 * order) := by rw [pow_mul]; positivity
  have h5 : 0 < (w * (Q a + Q b)) ^ 2 := by positivity
  nlinarith [hG.2, sq_nonneg (ctrl S.nd recov (zi h) U1), mul_pos h4 h5, mul_nonneg h4.le (sq_nonneg (ctrl S.nd recov (zi h) U1))]

/-- At resonance the oscillator `x'' + x' / 10 + x = a cos t` has the amplitude `2` exactly for `a = 1 / 5` and `a = -1 / 5`, whatever static load is present. -/
example (a c : ℝ) : (∃ X, X 3 = a ∧ X 4 = 1 ∧ AmpZero oscSys (fun i => if i = 0 then c else if i = 1 then 1 else 0) (fun _ => 1) [0, 1] 2 0 8 0 X) ↔ a = 1 / 5 ∨ a = -(1 / 5) := by
  have hh : Admissible [0, 1] := ⟨by simp, by simp, by simp⟩
  have hN : numCoeff [0, 1] * oscSys.nd = 3 := by simp [numCoeff, oscSys]
  have hd : Damped oscSys [0, 1] := ⟨fun _ _ _ _ => rfl, fun _ _ _ _ => rfl, fun v hv => by
    obtain ⟨d, hd, hne⟩ := hv
    obtain rfl : d = 0 := by simp [oscSys] at hd; omega
    have : 0 < v 0 * v 0 := mul_self_pos.2 hne
    simp [oscSys]
    linarith, fun _ v hv d hd => by
      obtain rfl : d = 0 := by simp [oscSys] at hd; omega
      simpa [oscSys] using hv 0 (by simp [oscSys])⟩
  have hreg := damped_regular hh hd.massSymm hd.stiffSymm hd.damping hd.stiffness (one_ne_zero (α := ℝ))
  have hU1 : SteadyMotion oscSys (withoutStatic oscSys.nd [0, 1] (fun i => if i = 0 then c else if i = 1 then 1 else 0)) [0, 1] 1 (fun i => if i = 2 then 10 else 0) := by
    have hx : (fun t : ℝ => series [0, 1] (fun r => if r * 1 + 0 = 2 then (10 : ℝ) else 0) (1 * t)) = fun t => 10 * Real.sin t := funext fun t => by simp [series]
    have h2 : deriv (fun t => 10 * Real.sin t) = fun t => 10 * Real.cos t := funext fun t => ((Real.hasDerivAt_sin t).const_mul 10).deriv
    have h3 : deriv (fun t => 10 * Real.cos t) = fun t => 10 * -Real.sin t := funext fun t => ((Real.hasDerivAt_cos t).const_mul 10).deriv
    intro d hd t
    obtain rfl : d = 0 := by simp [oscSys] at hd; omega
    have hn : oscSys.nd = 1 := rfl
    simp only [hn, sum_range_one]
    rw [hx, h2, h3]
    simp [oscSys, series, withoutStatic]
    try ring
  have hG : IsAmplitude (iteratedDeriv 0 (controlMotion oscSys.nd [0, 1] (fun _ => 1) (fun i => if i = 2 then 10 else 0) 1)) 10 := by
    rw [controlMotion_eq ⟨[], Or.inr rfl⟩, amplitude_iff _ _ _ one_ne_zero]
    have hz : zi [0, 1] = 1 := by simp [zi]
    rw [hz]
    norm_num [ctrl, oscSys]
  have := (C155_two (Nt := 8) (tol := 0) hh ⟨[], Or.inr rfl⟩ rfl one_ne_zero hreg two_pos hU1 hG (by norm_num)).1 a
  rw [hN] at this
  rw [this]
  norm_num

end

end TMD
