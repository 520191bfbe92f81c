import Verif.Lemmas.Slider
import Verif.Lemmas.Iwan
import Mathlib.Tactic.Linarith

/-!
# Lemmas on a slider driven along a list of displacements

Used for property C112 (rate independence, return-point memory, Masing's rule).
-/

namespace TMD

open Spec

noncomputable section

theorem sliderAfter_append (kt L : ℝ) (s : ℝ × ℝ) (a b : List ℝ) :
    sliderAfter kt L s (a ++ b) = sliderAfter kt L (sliderAfter kt L s a) b := by
  simp [sliderAfter, List.foldl_append]

theorem sliderAfter_cons (kt L : ℝ) (s : ℝ × ℝ) (u : ℝ) (b : List ℝ) :
    sliderAfter kt L s (u :: b) = sliderAfter kt L (u, clip L (kt * (u - s.1) + s.2)) b := rfl

theorem sliderAfter_fst_last (kt L : ℝ) (s : ℝ × ℝ) (us : List ℝ) (u : ℝ) :
    (sliderAfter kt L s (us ++ [u])).1 = u := by
  simp [sliderAfter, List.foldl_append]

theorem sliderAfter_abs (kt : ℝ) {L : ℝ} (hL : 0 ≤ L) (us : List ℝ) (s : ℝ × ℝ) (hs : |s.2| ≤ L) :
    |(sliderAfter kt L s us).2| ≤ L := by
  induction us generalizing s with
  | nil => exact hs
  | cons u us ih => rw [sliderAfter_cons]; exact ih _ (clip_abs hL _)

theorem clip_mono {L x y : ℝ} (h : x ≤ y) : clip L x ≤ clip L y :=
  max_le_max le_rfl (min_le_min h le_rfl)

theorem clip_neg {L : ℝ} (hL : 0 ≤ L) (x : ℝ) : clip L (-x) = -clip L x := by
  rcases le_total x L with h | h
  · rcases le_total (-L) x with h' | h'
    · rw [clip_of_le (abs_le.2 ⟨h', h⟩), clip_of_le (abs_le.2 ⟨by linarith, by linarith⟩)]
    · rw [clip_of_le_neg hL h', clip_of_ge hL (by linarith), neg_neg]
  · rw [clip_of_ge hL h, clip_of_le_neg hL (by linarith)]

/-- The mirrored path gives the mirrored state. -/
theorem sliderAfter_neg (kt : ℝ) {L : ℝ} (hL : 0 ≤ L) (us : List ℝ) (s : ℝ × ℝ) :
    sliderAfter kt L (-s.1, -s.2) (us.map fun u => -u)
      = (-(sliderAfter kt L s us).1, -(sliderAfter kt L s us).2) := by
  induction us generalizing s with
  | nil => rfl
  | cons u us ih =>
    rw [List.map_cons, sliderAfter_cons, sliderAfter_cons]
    have e : kt * (-u - (-s.1, -s.2).1) + (-s.1, -s.2).2 = -(kt * (u - s.1) + s.2) := by
      simp only; ring
    rw [e, clip_neg hL]
    exact ih (u, clip L (kt * (u - s.1) + s.2))

theorem clip_clip_up {L f a b : ℝ} (hL : 0 ≤ L) (hf : |f| ≤ L) (ha : 0 ≤ a) (hb : 0 ≤ b) :
    clip L (b + clip L (a + f)) = clip L (a + b + f) := by
  rw [abs_le] at hf
  rcases le_total (a + f) L with h | h
  · rw [clip_of_le (x := a + f) (abs_le.2 ⟨by linarith, h⟩)]; congr 1; ring
  · rw [clip_of_ge hL h, clip_of_ge hL (by linarith), clip_of_ge hL (by linarith)]

/-- Rising monotone path: only its end matters. -/
theorem sliderAfter_rise {kt L : ℝ} (hk : 0 ≤ kt) (hL : 0 ≤ L) (us : List ℝ) (u : ℝ) (s : ℝ × ℝ)
    (hs : |s.2| ≤ L) (hc : (s.1 :: (us ++ [u])).Pairwise (· ≤ ·)) :
    sliderAfter kt L s (us ++ [u]) = sliderAfter kt L s [u] := by
  induction us generalizing s with
  | nil => rfl
  | cons v us ih =>
    rw [List.cons_append, sliderAfter_cons]
    have h1 := List.pairwise_cons.1 hc
    have hv : s.1 ≤ v := h1.1 v (by simp)
    have hu : v ≤ u := (List.pairwise_cons.1 h1.2).1 u (by simp)
    rw [ih (v, clip L (kt * (v - s.1) + s.2)) (clip_abs hL _) h1.2]
    simp only [sliderAfter, List.foldl_cons, List.foldl_nil, Prod.mk.injEq, true_and]
    rw [clip_clip_up hL hs (mul_nonneg hk (by linarith)) (mul_nonneg hk (by linarith))]
    congr 1; ring

/-- Monotone path: only its end matters. -/
theorem sliderAfter_monotone {kt L : ℝ} (hk : 0 ≤ kt) (hL : 0 ≤ L) (us : List ℝ) (u : ℝ) (s : ℝ × ℝ)
    (hs : |s.2| ≤ L)
    (hc : (s.1 :: (us ++ [u])).Pairwise (· ≤ ·) ∨ (s.1 :: (us ++ [u])).Pairwise (· ≥ ·)) :
    sliderAfter kt L s (us ++ [u]) = sliderAfter kt L s [u] := by
  rcases hc with hc | hc
  · exact sliderAfter_rise hk hL us u s hs hc
  · have h := sliderAfter_rise hk hL (us.map fun u => -u) (-u) (-s.1, -s.2) (by simpa using hs) (by
      have : ((-s.1, -s.2).1 :: (us.map (fun u => -u) ++ [-u])) = (s.1 :: (us ++ [u])).map fun u => -u := by simp
      rw [this, List.pairwise_map]
      exact hc.imp fun h => by linarith)
    have e1 : us.map (fun u => -u) ++ [-u] = (us ++ [u]).map fun u => -u := by simp
    have e2 : [-u] = [u].map fun u => -u := by simp
    rw [e1, e2, sliderAfter_neg kt hL, sliderAfter_neg kt hL] at h
    rw [Prod.mk.injEq, neg_inj, neg_inj] at h
    exact Prod.ext h.1 h.2

/-- A slider that slips forward at `b` is above the elastic line through `(b, L)` as long as the
displacement does not exceed `b`. -/
theorem sliderAfter_above {kt L b : ℝ} (hk : 0 ≤ kt) (us : List ℝ) (s : ℝ × ℝ)
    (hs : L - kt * (b - s.1) ≤ s.2) (hu : ∀ u ∈ us, u ≤ b) :
    L - kt * (b - (sliderAfter kt L s us).1) ≤ (sliderAfter kt L s us).2 := by
  induction us generalizing s with
  | nil => exact hs
  | cons u us ih =>
    rw [sliderAfter_cons]
    refine ih _ ?_ fun v hv => hu v (List.mem_cons_of_mem _ hv)
    have h1 : u ≤ b := hu u (by simp)
    have h2 : 0 ≤ kt * (b - u) := mul_nonneg hk (by linarith)
    show L - kt * (b - u) ≤ clip L _
    refine le_trans (le_min ?_ ?_) (le_max_right _ _)
    · have : kt * (u - s.1) = kt * (b - s.1) - kt * (b - u) := by ring
      linarith
    · linarith

/-- A slider whose elastic line stays within the limits on `[a, b]` follows it there. -/
theorem sliderAfter_elastic {kt L a b f : ℝ} (hk : 0 ≤ kt)
    (ha : -L ≤ f - kt * (b - a)) (hb : f ≤ L) (us : List ℝ) (s : ℝ × ℝ)
    (hs : s.2 = f - kt * (b - s.1)) (hu : ∀ u ∈ us, a ≤ u ∧ u ≤ b) :
    (sliderAfter kt L s us).2 = f - kt * (b - (sliderAfter kt L s us).1) := by
  induction us generalizing s with
  | nil => exact hs
  | cons u us ih =>
    rw [sliderAfter_cons]
    refine ih _ ?_ fun v hv => hu v (List.mem_cons_of_mem _ hv)
    have h1 := hu u (by simp)
    have h2 : 0 ≤ kt * (b - u) := mul_nonneg hk (by linarith)
    have h3 : 0 ≤ kt * (u - a) := mul_nonneg hk (by linarith)
    have h4 : kt * (b - a) = kt * (b - u) + kt * (u - a) := by ring
    show clip L _ = f - kt * (b - u)
    have e : kt * (u - s.1) + s.2 = f - kt * (b - u) := by rw [hs]; ring
    rw [e, clip_of_le (abs_le.2 ⟨by linarith, by linarith⟩)]

/-- Return to the upper turning point. -/
theorem sliderAfter_return_up {kt L : ℝ} (hk : 0 ≤ kt) (hL : 0 ≤ L) (s : ℝ × ℝ) (hs : |s.2| ≤ L)
    (b : ℝ) (hb : s.1 ≤ b) (us : List ℝ) (hu : ∀ u ∈ us, s.1 ≤ u ∧ u ≤ b) :
    sliderAfter kt L s (b :: (us ++ [b])) = sliderAfter kt L s [b] := by
  rw [sliderAfter_cons]
  set f := clip L (kt * (b - s.1) + s.2) with hf
  show sliderAfter kt L (b, f) (us ++ [b]) = (b, f)
  have hfst := sliderAfter_fst_last kt L (b, f) us b
  have hm : ∀ u ∈ us ++ [b], s.1 ≤ u ∧ u ≤ b := by
    intro u h
    rcases List.mem_append.1 h with h | h
    · exact hu u h
    · rw [List.mem_singleton.1 h]; exact ⟨hb, le_rfl⟩
  have habs := sliderAfter_abs kt hL (us ++ [b]) (b, f) (by rw [hf]; exact clip_abs hL _)
  refine Prod.ext hfst ?_
  rcases le_total L (kt * (b - s.1) + s.2) with h | h
  · have e : f = L := clip_of_ge hL h
    have := sliderAfter_above (L := L) (b := b) hk (us ++ [b]) (b, f) (by simp [e]) fun u hu => (hm u hu).2
    rw [hfst, sub_self, mul_zero, sub_zero] at this
    show _ = f
    exact le_antisymm ((abs_le.1 habs).2.trans e.ge) (e.le.trans this)
  · have hs' := abs_le.1 hs
    have h0 : 0 ≤ kt * (b - s.1) := mul_nonneg hk (by linarith)
    have e : f = kt * (b - s.1) + s.2 := clip_of_le (abs_le.2 ⟨by linarith, h⟩)
    have := sliderAfter_elastic (L := L) (a := s.1) (b := b) (f := f) hk (by rw [e]; linarith) (by rw [e]; linarith)
      (us ++ [b]) (b, f) (by simp) hm
    rw [this, hfst]; simp

/-- Return to a turning point. -/
theorem sliderAfter_return {kt L : ℝ} (hk : 0 ≤ kt) (hL : 0 ≤ L) (s : ℝ × ℝ) (hs : |s.2| ≤ L)
    (b : ℝ) (us : List ℝ) (hu : ∀ u ∈ us, min s.1 b ≤ u ∧ u ≤ max s.1 b) :
    sliderAfter kt L s (b :: (us ++ [b])) = sliderAfter kt L s [b] := by
  rcases le_total s.1 b with hb | hb
  · rw [min_eq_left hb, max_eq_right hb] at hu
    exact sliderAfter_return_up hk hL s hs b hb us hu
  · rw [min_eq_right hb, max_eq_left hb] at hu
    have h := sliderAfter_return_up hk hL (-s.1, -s.2) (by simpa using hs) (-b) (by simpa using hb)
      (us.map fun u => -u) (by
        intro u h
        obtain ⟨v, hv, rfl⟩ := List.mem_map.1 h
        have := hu v hv
        exact ⟨by simpa using this.2, by simpa using this.1⟩)
    have e1 : (-b) :: (us.map (fun u => -u) ++ [-b]) = (b :: (us ++ [b])).map fun u => -u := by simp
    have e2 : [-b] = [b].map fun u => -u := by simp
    rw [e1, e2, sliderAfter_neg kt hL, sliderAfter_neg kt hL, Prod.mk.injEq, neg_inj, neg_inj] at h
    exact Prod.ext h.1 h.2

/-- Masing's rule for one slider. -/
theorem sliderAfter_masing_up {kt L : ℝ} (hk : 0 ≤ kt) (hL : 0 ≤ L) (b u : ℝ) (h1 : -b ≤ u) (h2 : u ≤ b) :
    (sliderAfter kt L (0, 0) [b, u]).2
      = (sliderAfter kt L (0, 0) [b]).2 - 2 * (sliderAfter kt L (0, 0) [(b - u) / 2]).2 := by
  simp only [sliderAfter, List.foldl_cons, List.foldl_nil, sub_zero, add_zero]
  have hd : 0 ≤ kt * (b - u) := mul_nonneg hk (by linarith)
  have hs : 0 ≤ kt * (b + u) := mul_nonneg hk (by linarith)
  have e1 : kt * ((b - u) / 2) = (kt * b - kt * u) / 2 := by ring
  have e2 : kt * (u - b) = kt * u - kt * b := by ring
  have e3 : kt * (b - u) = kt * b - kt * u := by ring
  have e4 : kt * (b + u) = kt * b + kt * u := by ring
  rw [e1, e2]
  rw [e3] at hd; rw [e4] at hs
  generalize kt * b = x at *
  generalize kt * u = y at *
  rcases le_total x L with h | h
  · rw [clip_of_le (x := x) (abs_le.2 ⟨by linarith, h⟩),
      clip_of_le (x := (x - y) / 2) (abs_le.2 ⟨by linarith, by linarith⟩),
      clip_of_le (abs_le.2 ⟨by linarith, by linarith⟩)]
    ring
  · rw [clip_of_ge hL h]
    rcases le_total ((x - y) / 2) L with h' | h'
    · rw [clip_of_le (x := (x - y) / 2) (abs_le.2 ⟨by linarith, h'⟩),
        clip_of_le (abs_le.2 ⟨by linarith, by linarith⟩)]
      ring
    · rw [clip_of_ge hL h', clip_of_le_neg hL (by linarith)]; ring

theorem sliderAfter_masing {kt L : ℝ} (hk : 0 ≤ kt) (hL : 0 ≤ L) (b u : ℝ) (h : |u| ≤ |b|) :
    (sliderAfter kt L (0, 0) [b, u]).2
      = (sliderAfter kt L (0, 0) [b]).2 - 2 * (sliderAfter kt L (0, 0) [(b - u) / 2]).2 := by
  rcases le_total 0 b with hb | hb
  · rw [abs_of_nonneg hb, abs_le] at h
    exact sliderAfter_masing_up hk hL b u h.1 h.2
  · rw [abs_of_nonpos hb, abs_le] at h
    have q := sliderAfter_masing_up hk hL (-b) (-u) (by linarith) (by linarith)
    have e0 : ((0:ℝ), (0:ℝ)) = (-((0:ℝ), (0:ℝ)).1, -((0:ℝ), (0:ℝ)).2) := by simp
    have n1 := sliderAfter_neg kt hL [b, u] (0, 0)
    have n2 := sliderAfter_neg kt hL [b] (0, 0)
    have n3 := sliderAfter_neg kt hL [(b - u) / 2] (0, 0)
    rw [← e0] at n1 n2 n3
    simp only [List.map_cons, List.map_nil] at n1 n2 n3
    rw [show (-b - -u) / 2 = -((b - u) / 2) by ring, n1, n2, n3] at q
    simp only at q
    linarith

end

end TMD
