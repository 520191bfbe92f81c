import Verif.Model.JaxVectorGrad
import Verif.Lemmas.JaxVectorJenkins
import Verif.Lemmas.JaxGradAft

/-!
# Lemmas for the derivatives of the JAX vectorised Jenkins element
-/

namespace TMD

open Spec Finset Filter Topology

noncomputable section

/-! ## The program as sliders -/

section generic

variable {α : Type} (J : JNum α)

theorem gCritLoop_sub (inds : List ℕ) (hnd : inds.Nodup) (u : ℕ → α) (kt Fs : ℝ) (n : ℕ) (hn : n ≤ inds.length)
    (ft : ℕ → α) (g : ℕ → α) (hg : ∀ i < inds.length, ft (inds.getD i 0) = g i) :
    ∀ i < inds.length, foriLoop (gCritBody J inds u kt Fs) n ft (inds.getD i 0)
      = foriLoop (gJenkinsBody J inds.length (fun i => u (inds.getD i 0)) kt Fs) n g i := by
  induction n with
  | zero => exact hg
  | succ n ih =>
    have ih' := ih (by omega)
    intro i hi
    unfold foriLoop at ih' ⊢
    rw [List.range_succ, List.foldl_append, List.foldl_append]
    simp only [List.foldl_cons, List.foldl_nil, gJenkinsBody, gCritBody, setRow]
    have hp : prevIdx inds.length n < inds.length := by unfold prevIdx; split_ifs <;> omega
    have hinj : inds.getD i 0 = inds.getD n 0 ↔ i = n := by
      rw [List.getD_eq_getElem _ _ hi, List.getD_eq_getElem _ _ (by omega : n < inds.length)]
      exact hnd.getElem_inj_iff
    rw [ih' i hi, ih' _ hp]
    by_cases h : i = n
    · rw [if_pos h, if_pos (hinj.2 h)]
    · rw [if_neg h, if_neg (fun hc => h (hinj.1 hc))]

/-- Force at the first selected sample: a slider along the selected samples. -/
def gFirst (inds : List ℕ) (u : ℕ → α) (kt Fs : ℝ) (u0 : α) : α :=
  gSlider J kt (fun _ => J.const Fs) (fun _ => J.const (-Fs)) (periodic inds.length fun i => u (inds.getD i 0))
    (u (inds.getD (inds.length - 1) 0)) (J.mul (J.const kt) (J.sub (u (inds.getD (inds.length - 1) 0)) u0)) inds.length

/-- The whole history from the force at the first sample. -/
def gFilled (inds : List ℕ) (u : ℕ → α) (kt Fs : ℝ) (u0 : α) : ℕ → α
  | 0 => gFirst J inds u kt Fs u0
  | i + 1 => gSlider J kt (fun _ => J.const Fs) (fun _ => J.const (-Fs)) (fun i => u (i + 1)) (u 0)
      (gFirst J inds u kt Fs u0) i

theorem gFill_loop {Nt : ℕ} (u : ℕ → α) (kt Fs : ℝ) (ft : ℕ → α) (n : ℕ) (hn : n + 1 ≤ Nt) :
    (List.range' 1 n).foldl (gJenkinsBody J Nt u kt Fs) ft 0 = ft 0 ∧
    ∀ i < n, (List.range' 1 n).foldl (gJenkinsBody J Nt u kt Fs) ft (i + 1)
      = gSlider J kt (fun _ => J.const Fs) (fun _ => J.const (-Fs)) (fun i => u (i + 1)) (u 0) (ft 0) i := by
  induction n with
  | zero => exact ⟨rfl, fun i hi => by omega⟩
  | succ n ih =>
    obtain ⟨ih0, ih1⟩ := ih (by omega)
    have hp : prevIdx Nt (1 + n) = n := by unfold prevIdx; rw [if_neg (by omega)]; omega
    rw [List.range'_concat, List.foldl_append]
    simp only [List.foldl_cons, List.foldl_nil, gJenkinsBody, setRow, one_mul, hp]
    refine ⟨by rw [if_neg (by omega)]; exact ih0, fun i hi => ?_⟩
    by_cases h : i + 1 = 1 + n
    · rw [if_pos h]
      obtain rfl : i = n := by omega
      cases i with
      | zero => rw [ih0]; rfl
      | succ i => rw [ih1 i (by omega), Nat.add_comm 1 (i + 1)]; rfl
    · rw [if_neg h]
      exact ih1 i (by omega)

/-- The program on numbers or pairs. -/
theorem gVector_filled (val : α → ℝ) (Nt : ℕ) (u : ℕ → α) (kt Fs : ℝ) (u0 : α) (hmax : ℕ) (hK : hmax * 2 + 1 ≤ Nt)
    (h0 : (jaxInds Nt (fun j => val (u j)) (hmax * 2 + 1)).getD 0 0 = 0) (t : ℕ) (ht : t < Nt) :
    gVectorHistory J val Nt u kt Fs u0 hmax t
      = gFilled J (jaxInds Nt (fun j => val (u j)) (hmax * 2 + 1)) u kt Fs u0 t := by
  unfold gVectorHistory
  set K := hmax * 2 + 1 with hKd
  set inds := jaxInds Nt (fun j => val (u j)) K with hinds
  have hlen : inds.length = K := jaxInds_length _ hK
  have hnd : inds.Nodup := jaxInds_nodup Nt _ K
  set last := inds.getD (K - 1) 0 with hlast
  set f0 := setRow (fun _ => J.const 0) last (J.mul (J.const kt) (J.sub (u last) u0)) with hf0
  set g0 := setRow (fun _ => J.const 0) (K - 1) (J.mul (J.const kt) (J.sub (u last) u0)) with hg0
  have l0 : ∀ i < inds.length, f0 (inds.getD i 0) = g0 i := by
    intro i hi
    have hinj : inds.getD i 0 = last ↔ i = K - 1 := by
      rw [hlast, List.getD_eq_getElem _ _ hi, List.getD_eq_getElem _ _ (by omega : K - 1 < inds.length)]
      exact hnd.getElem_inj_iff
    rw [hf0, hg0]
    unfold setRow
    by_cases h : i = K - 1
    · rw [if_pos h, if_pos (hinj.2 h)]
    · rw [if_neg h, if_neg (fun hc => h (hinj.1 hc))]
  have l1 := gCritLoop_sub J inds hnd u kt Fs K hlen.ge f0 g0 l0
  have l2 := gCritLoop_sub J inds hnd u kt Fs K hlen.ge _ _ l1
  rw [hlen] at l2
  have l3 := l2 0 (by omega)
  rw [h0] at l3
  have l4 : foriLoop (gCritBody J inds u kt Fs) K (foriLoop (gCritBody J inds u kt Fs) K f0) 0
      = gFirst J inds u kt Fs u0 := by
    rw [l3]
    have := gJenkins_slider J K (by omega) (fun i => u (inds.getD i 0)) kt Fs u0 0 (by omega)
    unfold gFirst
    rw [hlen]
    exact this
  obtain ⟨m0, m1⟩ := gFill_loop J (Nt := Nt) u kt Fs (foriLoop (gCritBody J inds u kt Fs) K
    (foriLoop (gCritBody J inds u kt Fs) K f0)) (Nt - 1) (by omega)
  cases t with
  | zero => rw [m0, l4]; rfl
  | succ t => rw [m1 t (by omega), l4]; rfl

end generic

/-- The first selected sample is the first one. -/
theorem jaxInds_zero {Nt : ℕ} (u : ℕ → ℝ) {K : ℕ} (hN : 0 < Nt) (hK : 0 < K) : (jaxInds Nt u K).getD 0 0 = 0 := by
  classical
  have hm : 0 ∈ topK Nt (isCrit Nt u) K := by
    obtain ⟨M, rfl⟩ : ∃ M, Nt = M + 1 := ⟨Nt - 1, by omega⟩
    obtain ⟨K, rfl⟩ : ∃ L, K = L + 1 := ⟨K - 1, by omega⟩
    unfold topK
    rw [List.range_succ_eq_map, List.filter_cons_of_pos (by simp [isCrit])]
    simp
  rw [jaxInds_eq]
  obtain ⟨M, rfl⟩ : ∃ M, Nt = M + 1 := ⟨Nt - 1, by omega⟩
  rw [List.range_succ_eq_map, List.filter_cons_of_pos (by simpa using hm)]
  rfl

/-- On numbers the program is the history of Model/JaxVectorJenkins. -/
theorem gVector_real (Nt : ℕ) (u : ℕ → ℝ) (kt Fs u0 : ℝ) (hmax : ℕ) (hK : hmax * 2 + 1 ≤ Nt) :
    jaxVectorHistory Nt u kt Fs u0 hmax = .ok (gVectorHistory realNum id Nt u kt Fs u0 hmax) := by
  unfold jaxVectorHistory
  simp only
  rw [if_neg (by omega)]
  rfl

/-- Values pass through a loop whose body passes them. -/
theorem fold_v {fd : (ℕ → Dual) → ℕ → ℕ → Dual} {fr : (ℕ → ℝ) → ℕ → ℕ → ℝ}
    (h : ∀ f i, (fun t => (fd f i t).v) = fr (fun t => (f t).v) i) (l : List ℕ) (f : ℕ → Dual) :
    (fun t => (l.foldl fd f t).v) = l.foldl fr (fun t => (f t).v) := by
  induction l generalizing f with
  | nil => rfl
  | cons a l ih => rw [List.foldl_cons, List.foldl_cons, ih, h]

/-- The values of the pairs are the values of the program on numbers. -/
theorem gVector_v (Nt : ℕ) (u : ℕ → Dual) (kt Fs : ℝ) (u0 : Dual) (hmax : ℕ) (t : ℕ) :
    (gVectorHistory dualNum Dual.v Nt u kt Fs u0 hmax t).v
      = gVectorHistory realNum id Nt (fun j => (u j).v) kt Fs u0.v hmax t := by
  have h1 : ∀ inds f i, (fun t => (gCritBody dualNum inds u kt Fs f i t).v)
      = gCritBody realNum inds (fun j => (u j).v) kt Fs (fun t => (f t).v) i := by
    intro inds f i
    funext t
    simp only [gCritBody, setRow]
    split <;> rfl
  have h2 : ∀ f i, (fun t => (gJenkinsBody dualNum Nt u kt Fs f i t).v)
      = gJenkinsBody realNum Nt (fun j => (u j).v) kt Fs (fun t => (f t).v) i := by
    intro f i
    funext t
    simp only [gJenkinsBody, setRow]
    split <;> rfl
  unfold gVectorHistory foriLoop
  refine congrFun ((fold_v h2 _ _).trans ?_) t
  congr 1
  refine (fold_v (h1 _) _ _).trans ?_
  congr 1
  refine (fold_v (h1 _) _ _).trans ?_
  congr 1
  funext t
  simp only [setRow, id]
  split_ifs <;> rfl

/-! ## Monotone segments -/

theorem clip_cases {L x : ℝ} (hL : 0 ≤ L) : (clip L x = L ∧ L ≤ x) ∨ (clip L x = -L ∧ x ≤ -L) ∨ (clip L x = x ∧ |x| ≤ L) := by
  unfold clip
  rcases le_total x L with h | h
  · rcases le_total x (-L) with h' | h'
    · right; left
      rw [min_eq_left h, max_eq_left h']
      exact ⟨rfl, h'⟩
    · right; right
      rw [min_eq_left h, max_eq_right h']
      exact ⟨rfl, abs_le.2 ⟨h', h⟩⟩
  · left
    rw [min_eq_right h, max_eq_right (by linarith)]
    exact ⟨rfl, h⟩

theorem clip_top {L x : ℝ} (hL : 0 ≤ L) (h : L ≤ x) : clip L x = L := by
  unfold clip
  rw [min_eq_right h, max_eq_right (by linarith)]

theorem clip_bot {L x : ℝ} (hL : 0 ≤ L) (h : x ≤ -L) : clip L x = -L := by
  unfold clip
  rw [min_eq_left (by linarith), max_eq_left h]

/-- Two steps in one direction. -/
theorem clip_two {kt L f d e : ℝ} (hk : 0 ≤ kt) (hL : 0 ≤ L) (hf : |f| ≤ L) (hs : SignType.sign d = SignType.sign e) :
    clip L (kt * e + clip L (kt * d + f)) = clip L (kt * (d + e) + f) ∧
    (|kt * (d + e) + f| = L → |kt * e + clip L (kt * d + f)| = L) := by
  obtain ⟨f1, f2⟩ := abs_le.1 hf
  have hde : 0 ≤ kt * d → 0 ≤ kt * e ∨ kt * d = 0 := by
    intro h
    rcases lt_trichotomy d 0 with hd | hd | hd
    · right; nlinarith
    · right; rw [hd, mul_zero]
    · left
      rw [sign_pos hd, eq_comm, sign_eq_one_iff] at hs
      positivity
  have hde' : kt * d ≤ 0 → kt * e ≤ 0 ∨ kt * d = 0 := by
    intro h
    rcases lt_trichotomy d 0 with hd | hd | hd
    · left
      rw [sign_neg hd, eq_comm, sign_eq_neg_one_iff] at hs
      nlinarith
    · right; rw [hd, mul_zero]
    · right; nlinarith
  rw [mul_add]
  generalize kt * d = p at *
  generalize kt * e = q at *
  by_cases hp0 : p = 0
  · subst hp0
    have : clip L (0 + f) = f := by
      rw [zero_add]
      unfold clip
      rw [min_eq_left f2, max_eq_right f1]
    rw [this, zero_add]
    exact ⟨rfl, id⟩
  rcases clip_cases (x := p + f) hL with ⟨h1, h2⟩ | ⟨h1, h2⟩ | ⟨h1, h2⟩
  · have hq : 0 ≤ q := (hde (by linarith)).resolve_right hp0
    have hp : 0 < p := lt_of_le_of_ne (by linarith) (Ne.symm hp0)
    rw [h1, clip_top hL (by linarith), clip_top hL (by linarith)]
    refine ⟨rfl, fun h => ?_⟩
    rcases abs_choice (p + q + f) with h' | h'
    · rw [h'] at h
      rw [show q + L = L by linarith, abs_of_nonneg hL]
    · rw [h'] at h
      rw [show q + L = L by linarith, abs_of_nonneg hL]
  · have hq : q ≤ 0 := (hde' (by linarith)).resolve_right hp0
    rw [h1, clip_bot hL (by linarith), clip_bot hL (by linarith)]
    refine ⟨rfl, fun h => ?_⟩
    rcases abs_choice (p + q + f) with h' | h'
    · rw [h'] at h
      rw [show q + -L = -L by linarith, abs_neg, abs_of_nonneg hL]
    · rw [h'] at h
      rw [show q + -L = -L by linarith, abs_neg, abs_of_nonneg hL]
  · rw [h1]
    have : q + (p + f) = p + q + f := by ring
    rw [this]
    exact ⟨rfl, id⟩

theorem slider_const_abs {kt L : ℝ} (hL : 0 ≤ L) (u : ℕ → ℝ) (up fp : ℝ) (i : ℕ) :
    |slider kt (fun _ => L) u up fp i| ≤ L := by
  cases i <;> exact clip_abs hL _

/-- In a segment without reversal the force follows directly from the force at its start, and the direct prediction is
not at the limit if the last one is not. -/
theorem slider_segment {kt L : ℝ} (hk : 0 ≤ kt) (hL : 0 ≤ L) (u : ℕ → ℝ) (up fp : ℝ) (a b : ℕ) (hab : a < b)
    (hseg : ∀ i, a < i → i < b → SignType.sign (u i - u (i-1)) = SignType.sign (u (i+1) - u i)) :
    clip L (kt * (u b - u a) + slider kt (fun _ => L) u up fp a) = slider kt (fun _ => L) u up fp b ∧
    (|kt * (u b - u a) + slider kt (fun _ => L) u up fp a| = L → |sliderTrial kt (fun _ => L) u up fp b| = L) ∧
    SignType.sign (u b - u a) = SignType.sign (u b - u (b-1)) := by
  obtain ⟨d, rfl⟩ : ∃ d, b = a + 1 + d := ⟨b - a - 1, by omega⟩
  induction d with
  | zero => exact ⟨rfl, fun h => h, rfl⟩
  | succ d ih =>
    obtain ⟨ih1, -, ih2⟩ := ih (by omega) (fun i h1 h2 => hseg i h1 (by omega))
    have hs := hseg (a + 1 + d) (by omega) (by omega)
    have hsg : SignType.sign (u (a + 1 + d) - u a) = SignType.sign (u (a + 1 + d + 1) - u (a + 1 + d)) := by
      rw [ih2, hs]
    obtain ⟨k1, k2⟩ := clip_two hk hL (slider_const_abs (kt := kt) hL u up fp a) hsg
    rw [ih1, show u (a + 1 + d) - u a + (u (a + 1 + d + 1) - u (a + 1 + d)) = u (a + 1 + d + 1) - u a by ring] at k1 k2
    refine ⟨?_, k2, ?_⟩
    · rw [← Nat.add_assoc, ← k1]
      rfl
    · rw [← Nat.add_assoc, show a + 1 + d + 1 - 1 = a + 1 + d by omega]
      have := sign_add_same hsg
      rw [← this]
      congr 1; ring

/-! ## The selected samples -/

section selected

variable {Nt : ℕ} (inds : List ℕ) (P : ℕ → Prop) [DecidablePred P]

/-- Position of the `k`-th selected sample when the period is repeated. -/
def selPos (Nt : ℕ) (inds : List ℕ) (k : ℕ) : ℕ := k / inds.length * Nt + inds.getD (k % inds.length) 0

/-- No sample between two neighbours of the list is selected. -/
theorem selPos_next (hi : inds = (List.range Nt).filter (fun i => decide (P i))) (h0 : P 0) (hN : 0 < Nt)
    (hP : ∀ i, P (i + Nt) ↔ P i) (k : ℕ) :
    selPos Nt inds k < selPos Nt inds (k+1) ∧ ∀ i, selPos Nt inds k < i → i < selPos Nt inds (k+1) → ¬ P i := by
  have hPm : ∀ n i, P (n * Nt + i) ↔ P i := by
    intro n i
    induction n with
    | zero => simp
    | succ n ih => rw [show (n+1) * Nt + i = (n * Nt + i) + Nt by ring, hP, ih]
  have hz : inds ≠ [] := by
    have : 0 ∈ inds := by rw [hi, List.mem_filter, List.mem_range]; exact ⟨hN, by simpa using h0⟩
    exact List.ne_nil_of_mem this
  have hK : 0 < inds.length := List.length_pos_iff.2 hz
  have hmem : ∀ i, i ∈ inds ↔ i < Nt ∧ P i := by
    intro i; rw [hi, List.mem_filter, List.mem_range, decide_eq_true_iff]
  have hsort : inds.Pairwise (· < ·) := by rw [hi]; exact List.pairwise_lt_range.filter _
  have hget : ∀ j (hj : j < inds.length), inds.getD j 0 = inds[j] := fun j hj => List.getD_eq_getElem _ _ hj
  have hlt : ∀ j (hj : j < inds.length), inds[j] < Nt := fun j hj => ((hmem _).1 (List.getElem_mem hj)).1
  have hmono : ∀ i j (hi : i < inds.length) (hj : j < inds.length), inds[i] < inds[j] → i < j := by
    intro i j hi hj h
    by_contra hc
    rcases Nat.lt_or_ge j i with h' | h'
    · exact absurd (List.pairwise_iff_getElem.1 hsort j i hj hi h') (by omega)
    · obtain rfl : i = j := by omega
      omega
  set K := inds.length with hKd
  set q := k / K with hq
  set r := k % K with hr
  have hk : k = q * K + r := (Nat.div_add_mod' k K).symm
  have hrK : r < K := Nat.mod_lt _ hK
  unfold selPos
  rw [← hKd, ← hq, ← hr, hget r hrK]
  by_cases hlast : r + 1 < K
  · have e1 : (k + 1) / K = q := by
      rw [hk, Nat.add_assoc, Nat.add_comm, Nat.add_mul_div_right _ _ hK, Nat.div_eq_of_lt hlast, Nat.zero_add]
    have e2 : (k + 1) % K = r + 1 := by
      rw [hk, Nat.add_assoc, Nat.add_comm, Nat.add_mul_mod_self_right, Nat.mod_eq_of_lt hlast]
    rw [e1, e2, hget _ hlast]
    have h1 := List.pairwise_iff_getElem.1 hsort r (r+1) hrK hlast (by omega)
    refine ⟨by omega, fun i i1 i2 hPi => ?_⟩
    obtain ⟨x, rfl⟩ : ∃ x, i = q * Nt + x := ⟨i - q * Nt, by omega⟩
    rw [hPm] at hPi
    obtain ⟨j, hj, rfl⟩ := List.getElem_of_mem ((hmem x).2 ⟨by have := hlt _ hlast; omega, hPi⟩)
    have a1 := hmono r j hrK hj (by omega)
    have a2 := hmono j (r+1) hj hlast (by omega)
    omega
  · have hr1 : r + 1 = K := by omega
    have hk1 : k + 1 = (q + 1) * K := by rw [hk, Nat.add_assoc, hr1]; ring
    have hz0 : inds.getD 0 0 = 0 := by
      rw [hget 0 hK]
      obtain ⟨j, hj, h⟩ := List.getElem_of_mem ((hmem 0).2 ⟨hN, h0⟩)
      rcases Nat.eq_zero_or_pos j with h' | h'
      · subst h'; exact h
      · have := List.pairwise_iff_getElem.1 hsort 0 j hK hj h'
        omega
    rw [hk1, Nat.mul_div_cancel _ hK, Nat.mul_mod_left, hz0]
    have h1 := hlt r hrK
    refine ⟨by rw [Nat.succ_mul]; omega, fun i i1 i2 hPi => ?_⟩
    rw [Nat.succ_mul] at i2
    obtain ⟨x, rfl⟩ : ∃ x, i = q * Nt + x := ⟨i - q * Nt, by omega⟩
    rw [hPm] at hPi
    obtain ⟨j, hj, rfl⟩ := List.getElem_of_mem ((hmem x).2 ⟨by omega, hPi⟩)
    have a1 := hmono r j hrK hj (by omega)
    omega

/-- The slider along the selected samples has the forces of the slider along all samples there, and its predictions are
off the limit. -/
theorem slider_selected (hi : inds = (List.range Nt).filter (fun i => decide (P i))) (h0 : P 0) (hN : 0 < Nt)
    (hP : ∀ i, P (i + Nt) ↔ P i) {kt L : ℝ} (hk : 0 ≤ kt) (hL : 0 ≤ L) (u : ℕ → ℝ)
    (hPc : ∀ i, ¬ P i → ¬ critP Nt u i) (hz : inds.getD 0 0 = 0) (z : ℝ)
    (hoff : ∀ k < 2 * Nt, |sliderTrial kt (fun _ => L) (periodic Nt u) z 0 k| ≠ L) (k : ℕ) (hk2 : k < 2 * inds.length) :
    slider kt (fun _ => L) (periodic inds.length fun i => u (inds.getD i 0)) z 0 k
      = slider kt (fun _ => L) (periodic Nt u) z 0 (selPos Nt inds k) ∧
    |sliderTrial kt (fun _ => L) (periodic inds.length fun i => u (inds.getD i 0)) z 0 k| ≠ L := by
  have hK : 0 < inds.length := by omega
  have hlt : ∀ j < inds.length, inds.getD j 0 < Nt := by
    intro j hj
    have : inds.getD j 0 ∈ inds := by
      rw [List.getD_eq_getElem _ _ hj]
      exact List.getElem_mem _
    rw [hi, List.mem_filter, List.mem_range] at this
    exact hi ▸ this.1
  have hper : ∀ k, periodic inds.length (fun i => u (inds.getD i 0)) k = periodic Nt u (selPos Nt inds k) := by
    intro k
    unfold periodic selPos
    rw [Nat.add_comm, Nat.add_mul_mod_self_right, Nat.mod_eq_of_lt (hlt _ (Nat.mod_lt _ hK))]
  have hpos : ∀ k < 2 * inds.length, selPos Nt inds k < 2 * Nt := by
    intro k hk
    unfold selPos
    have h1 := hlt _ (Nat.mod_lt k hK)
    have h2 : k / inds.length ≤ 1 := by
      have := (Nat.div_lt_iff_lt_mul hK).2 hk
      omega
    calc k / inds.length * Nt + inds.getD (k % inds.length) 0 < 1 * Nt + Nt := by
          have := Nat.mul_le_mul_right Nt h2
          omega
      _ = 2 * Nt := by ring
  induction k with
  | zero =>
    have e : selPos Nt inds 0 = 0 := by
      unfold selPos
      rw [Nat.zero_div, Nat.zero_mod, hz, Nat.zero_mul]
    rw [e]
    have hp := hper 0
    rw [e] at hp
    refine ⟨?_, ?_⟩
    · simp only [slider]; rw [hp]
    · have := hoff 0 (by omega)
      simp only [sliderTrial] at this ⊢
      rw [hp]
      exact this
  | succ k ih =>
    obtain ⟨ih1, -⟩ := ih (by omega)
    obtain ⟨n1, n2⟩ := selPos_next inds P hi h0 hN hP k
    obtain ⟨s1, s2, -⟩ := slider_segment hk hL (periodic Nt u) z 0 _ _ n1
      (fun i h1 h2 => not_crit_sign hN (hPc i (n2 i h1 h2)))
    refine ⟨?_, fun h => ?_⟩
    · simp only [slider]
      rw [hper, hper, ih1]
      exact s1
    · simp only [sliderTrial] at h
      rw [hper, hper, ih1] at h
      exact hoff _ (hpos _ hk2) (s2 h)

end selected

/-! ## Derivatives -/

theorem gFirst_real (inds : List ℕ) (u : ℕ → ℝ) (kt Fs z : ℝ) :
    gFirst realNum inds u kt Fs z
      = slider kt (fun _ => Fs) (periodic inds.length fun i => u (inds.getD i 0)) z 0 inds.length := by
  refine (gSlider_real kt (fun _ => Fs) _ _ _ _).trans ?_
  exact slider_congr kt (fun _ _ => rfl) (fun _ _ => rfl) (by show kt * _ + kt * (_ - z) = _; ring)

theorem gFirst_tracks {n K : ℕ} {M : ℕ → ℕ → ℝ} {X : ℕ → ℝ} (inds : List ℕ) {kt Fs : ℝ} (hF : 0 ≤ Fs)
    {u : ℕ → (ℕ → ℝ) → ℝ} {du : ℕ → Dual} (hu : ∀ i, Tracks n K M X (u i) (du i)) {z : (ℕ → ℝ) → ℝ} {dz : Dual}
    (hz : Tracks n K M X z dz)
    (hoff : ∀ k ≤ inds.length, |sliderTrial kt (fun _ => Fs) (periodic inds.length fun i => u (inds.getD i 0) X) (z X) 0 k| ≠ Fs) :
    Tracks n K M X (fun X => gFirst realNum inds (fun j => u j X) kt Fs (z X)) (gFirst dualNum inds du kt Fs dz) := by
  refine tracks_fun (gSlider_tracks kt (L := fun _ _ => Fs) inds.length (fun _ _ => tracks_const Fs)
    (fun _ _ => tracks_const (-Fs)) (fun _ _ => hF) (fun _ _ _ _ => ⟨rfl, rfl⟩)
    (u := fun i X => u (inds.getD (i % inds.length) 0) X) (fun i _ => hu _) (hu _)
    (tracks_mul (tracks_const kt) (tracks_sub (hu (inds.getD (inds.length - 1) 0)) hz)) ?_) fun X => ?_
  · intro i hi
    have e : sliderTrial kt (fun _ => Fs) (fun i => u (inds.getD (i % inds.length) 0) X)
        (u (inds.getD (inds.length - 1) 0) X) (kt * (u (inds.getD (inds.length - 1) 0) X - z X)) i
        = sliderTrial kt (fun _ => Fs) (periodic inds.length fun i => u (inds.getD i 0) X) (z X) 0 i := by
      cases i with
      | zero => simp only [sliderTrial, periodic]; ring
      | succ i =>
        simp only [sliderTrial]
        rw [slider_congr kt (fun _ _ => rfl) (fun _ _ => rfl) (up' := z X) (fp' := 0) (by ring)]
        rfl
    rw [e]
    exact hoff i hi
  · exact gSlider_real kt (fun _ => Fs) _ _ _ _

theorem gFilled_tracks {n K : ℕ} {M : ℕ → ℕ → ℝ} {X : ℕ → ℝ} (inds : List ℕ) {kt Fs : ℝ} (hF : 0 ≤ Fs)
    {u : ℕ → (ℕ → ℝ) → ℝ} {du : ℕ → Dual} (hu : ∀ i, Tracks n K M X (u i) (du i)) {z : (ℕ → ℝ) → ℝ} {dz : Dual}
    (hz : Tracks n K M X z dz)
    (hoff : ∀ k ≤ inds.length, |sliderTrial kt (fun _ => Fs) (periodic inds.length fun i => u (inds.getD i 0) X) (z X) 0 k| ≠ Fs)
    (t : ℕ) (hoff' : ∀ i < t, |sliderTrial kt (fun _ => Fs) (fun i => u (i + 1) X) (u 0 X)
      (gFirst realNum inds (fun j => u j X) kt Fs (z X)) i| ≠ Fs) :
    Tracks n K M X (fun X => gFilled realNum inds (fun j => u j X) kt Fs (z X) t) (gFilled dualNum inds du kt Fs dz t) := by
  have h0 := gFirst_tracks inds hF hu hz hoff
  cases t with
  | zero => exact h0
  | succ t =>
    refine tracks_fun (gSlider_tracks kt (L := fun _ _ => Fs) t (fun _ _ => tracks_const Fs)
      (fun _ _ => tracks_const (-Fs)) (fun _ _ => hF) (fun _ _ _ _ => ⟨rfl, rfl⟩)
      (u := fun i X => u (i + 1) X) (fun i _ => hu _) (hu _) h0 (fun i hi => hoff' i (by omega))) fun X => ?_
    exact gSlider_real kt (fun _ => Fs) _ _ _ _

/-- A tangent that is zero in all arguments stays zero. -/
theorem gFilled_zero_tangent (inds : List ℕ) (kt Fs : ℝ) {u : ℕ → Dual} {u0 : Dual} {c : ℕ} (hu : ∀ i, (u i).d c = 0)
    (h0 : u0.d c = 0) (t : ℕ) : (gFilled dualNum inds u kt Fs u0 t).d c = 0 := by
  have hf : (gFirst dualNum inds u kt Fs u0).d c = 0 := by
    refine gSlider_zero_tangent kt _ (fun _ => rfl) (fun _ => rfl) (fun i => hu _) (hu _) ?_
    have := hu (inds.getD (inds.length - 1) 0)
    simp only [dualNum]
    rw [this, h0]
    ring
  cases t with
  | zero => exact hf
  | succ t => exact gSlider_zero_tangent kt _ (fun _ => rfl) (fun _ => rfl) (fun i => hu _) (hu _) hf

/-- The selected samples depend on the signs of the steps only. -/
theorem jaxInds_congr {Nt : ℕ} {u v : ℕ → ℝ} (K : ℕ) (hN : 0 < Nt)
    (h : ∀ i < Nt, SignType.sign (u ((i + 1) % Nt) - u i) = SignType.sign (v ((i + 1) % Nt) - v i)) :
    jaxInds Nt u K = jaxInds Nt v K := by
  classical
  have hc : ∀ i < Nt, (isCrit Nt u i ↔ isCrit Nt v i) := by
    intro i hi
    have hlt := Nat.mod_lt (i + Nt - 1) hN
    have hb := h _ hlt
    have e : ((i + Nt - 1) % Nt + 1) % Nt = i := by
      rw [Nat.mod_add_mod, show i + Nt - 1 + 1 = i + Nt by omega, Nat.add_mod_right, Nat.mod_eq_of_lt hi]
    rw [e] at hb
    unfold isCrit
    rw [hb, h i hi]
  have h1 : (List.range Nt).filter (fun i => decide (isCrit Nt u i)) = (List.range Nt).filter (fun i => decide (isCrit Nt v i)) :=
    List.filter_congr fun i hi => by simp only [hc i (List.mem_range.1 hi)]
  have h2 : (List.range Nt).filter (fun i => decide (¬ isCrit Nt u i))
      = (List.range Nt).filter (fun i => decide (¬ isCrit Nt v i)) :=
    List.filter_congr fun i hi => by simp only [hc i (List.mem_range.1 hi)]
  unfold jaxInds topK
  rw [h1, h2]

/-- Without equal neighbours the selection does not change nearby. -/
theorem jaxInds_near {n : ℕ} {X : ℕ → ℝ} {Nt : ℕ} (K : ℕ) (hN : 0 < Nt) {u : ℕ → (ℕ → ℝ) → ℝ}
    (hu : ∀ i, Tendsto (fun v : Fin n → ℝ => u i (fun j => X j + ext v j)) (𝓝 0) (𝓝 (u i X)))
    (hne : ∀ i < Nt, u i X ≠ u ((i + 1) % Nt) X) :
    ∀ᶠ v in 𝓝 (0 : Fin n → ℝ), jaxInds Nt (fun j => u j (fun i => X i + ext v i)) K = jaxInds Nt (fun j => u j X) K := by
  have h : ∀ᶠ v in 𝓝 (0 : Fin n → ℝ), ∀ i ∈ Finset.range Nt,
      SignType.sign (u ((i + 1) % Nt) (fun j => X j + ext v j) - u i (fun j => X j + ext v j))
        = SignType.sign (u ((i + 1) % Nt) X - u i X) := by
    rw [Filter.eventually_all_finset]
    intro i hi
    have ht := (hu ((i + 1) % Nt)).sub (hu i)
    rcases lt_or_gt_of_ne (hne i (Finset.mem_range.1 hi)) with hlt | hlt
    · rw [sign_pos (sub_pos.2 hlt)]
      exact (ht.eventually_const_lt (sub_pos.2 hlt)).mono fun v hv => sign_pos hv
    · rw [sign_neg (sub_neg.2 hlt)]
      exact (ht.eventually_lt_const (sub_neg.2 hlt)).mono fun v hv => sign_neg hv
  exact h.mono fun v hv => jaxInds_congr K hN fun i hi => hv i (Finset.mem_range.2 hi)

end

end TMD
