import Mathlib.Analysis.Calculus.Deriv.Comp
import Mathlib.Analysis.Calculus.Deriv.Add
import Mathlib.Analysis.Calculus.Deriv.Shift
import Mathlib.Algebra.Order.ToIntervalMod
import Mathlib.Tactic.Linarith

/-! # Periodic extension of a differentiable curve -/

namespace TMD

open Set Filter Topology

noncomputable section

variable {E : Type*}

/-- The `T`-periodic extension of a curve given on `[0, T]`. -/
def perExt (T : ℝ) (z : ℝ → E) (t : ℝ) : E := z (t - T * ⌊t / T⌋)

theorem perExt_period {T : ℝ} (hT : 0 < T) (z : ℝ → E) (t : ℝ) : perExt T z (t + T) = perExt T z t := by
  unfold perExt
  have : (t + T) / T = t / T + 1 := by field_simp
  rw [this, Int.floor_add_one]
  congr 1
  push_cast
  ring

theorem perExt_shift {T : ℝ} (z : ℝ → E) (k : ℤ) {t : ℝ} (h : ⌊t / T⌋ = k) : perExt T z t = z (t - T * k) := by
  unfold perExt; rw [h]

theorem perExt_of_mem {T : ℝ} (hT : 0 < T) (z : ℝ → E) {t : ℝ} (ht : t ∈ Ico 0 T) : perExt T z t = z t := by
  rw [perExt_shift z 0 (Int.floor_eq_zero_iff.2 ⟨div_nonneg ht.1 hT.le, (div_lt_one hT).2 ht.2⟩)]
  simp

variable [NormedAddCommGroup E] [NormedSpace ℝ E]

/-- The extension is differentiable when the curve and its derivative close up. -/
theorem perExt_hasDerivAt {T : ℝ} (hT : 0 < T) {z d : ℝ → E}
    (hz : ∀ t ∈ Icc 0 T, HasDerivWithinAt z (d t) (Icc 0 T) t) (h1 : z T = z 0) (h2 : d T = d 0) (t : ℝ) :
    HasDerivAt (perExt T z) (perExt T d t) t := by
  set k := ⌊t / T⌋ with hk
  set r := t - T * k with hr
  have hfl := Int.floor_le (t / T)
  have hfl' := Int.lt_floor_add_one (t / T)
  have hr0 : 0 ≤ r := by
    have := (le_div_iff₀ hT).1 hfl
    rw [hr, hk]; linarith
  have hrT : r < T := by
    have := (div_lt_iff₀ hT).1 hfl'
    rw [hr, hk]; linarith
  have hd : perExt T d t = d r := perExt_shift d k rfl
  rw [hd]
  -- right-hand side
  have floor_right : ∀ x ∈ Ico (T * k) (T * k + T), ⌊x / T⌋ = k := by
    intro x hx
    rw [Int.floor_eq_iff]
    constructor
    · rw [le_div_iff₀ hT]; linarith [hx.1]
    · rw [div_lt_iff₀ hT]; linarith [hx.2]
  have hshift : HasDerivWithinAt (fun x => z (x - T * k)) (d r) (Icc (T * k) (T * k + T)) t := by
    have hm : MapsTo (fun x => x - T * k) (Icc (T * k) (T * k + T)) (Icc 0 T) := fun x hx =>
      ⟨by linarith [hx.1], by linarith [hx.2]⟩
    have h1 : HasDerivWithinAt (fun x : ℝ => x - T * k) 1 (Icc (T * k) (T * k + T)) t :=
      (hasDerivAt_id t).sub_const _ |>.hasDerivWithinAt
    have h3 := (hz r ⟨hr0, hrT.le⟩).scomp (h := fun x => x - T * k) t h1 hm
    rw [one_smul] at h3
    exact h3
  have hmem : t ∈ Ico (T * k) (T * k + T) := ⟨by linarith, by linarith⟩
  have hright : HasDerivWithinAt (perExt T z) (d r) (Ici t) t := by
    have e : HasDerivWithinAt (perExt T z) (d r) (Ico (T * k) (T * k + T)) t :=
      (hshift.mono Ico_subset_Icc_self).congr (fun x hx => perExt_shift z k (floor_right x hx))
        (perExt_shift z k (floor_right t hmem))
    have : Ico t (T * k + T) ∈ 𝓝[≥] t := Ico_mem_nhdsGE hmem.2
    exact (e.mono (Ico_subset_Ico_left hmem.1)).mono_of_mem_nhdsWithin this
  have hleft : HasDerivWithinAt (perExt T z) (d r) (Iic t) t := by
    rcases hr0.eq_or_lt with h0 | h0
    · -- `t` is a multiple of the period
      have ht : t = T * k := by rw [hr] at h0; linarith
      have hm : MapsTo (fun x => x - T * (k - 1)) (Icc (T * (k - 1)) (T * k)) (Icc 0 T) := fun x hx =>
        ⟨by linarith [hx.1], by linarith [hx.2]⟩
      have e1 : HasDerivWithinAt (fun x : ℝ => x - T * (k - 1)) 1 (Icc (T * (k - 1)) (T * k)) t :=
        (hasDerivAt_id t).sub_const _ |>.hasDerivWithinAt
      have eT : t - T * (k - 1) = T := by rw [ht]; ring
      have e2 : HasDerivWithinAt (fun x => z (x - T * (k - 1))) (d r) (Icc (T * (k - 1)) (T * k)) t := by
        have h3 := hz T ⟨hT.le, le_rfl⟩
        rw [← eT] at h3
        have := h3.scomp (h := fun x => x - T * (k - 1)) t e1 (by rw [eT]; exact hm)
        rw [one_smul, eT, h2, h0] at this
        exact this
      have e3 : HasDerivWithinAt (perExt T z) (d r) (Icc (T * (k - 1)) (T * k)) t := by
        have hval : ∀ x ∈ Icc (T * ((k:ℝ) - 1)) (T * k), perExt T z x = z (x - T * (k - 1)) := by
          intro x hx
          rcases hx.2.eq_or_lt with h | h
          · rw [h, show T * (k:ℝ) - T * (k - 1) = T by ring, h1]
            have : ⌊T * (k:ℝ) / T⌋ = k := by rw [mul_div_cancel_left₀ _ hT.ne', Int.floor_intCast]
            rw [perExt_shift z k this, sub_self]
          · have : ⌊x / T⌋ = k - 1 := by
              rw [Int.floor_eq_iff]
              push_cast
              constructor
              · rw [le_div_iff₀ hT]; linarith [hx.1]
              · rw [div_lt_iff₀ hT]; linarith
            rw [perExt_shift z (k - 1) this]
            push_cast
            rfl
        exact e2.congr hval (hval t ⟨by rw [ht]; nlinarith, ht.le⟩)
      have : Icc (T * ((k:ℝ) - 1)) (T * k) ∈ 𝓝[≤] t := by
        rw [ht]; exact Icc_mem_nhdsLE (by nlinarith)
      exact e3.mono_of_mem_nhdsWithin this
    · have hlt : T * k < t := by rw [hr] at h0; linarith
      have e : HasDerivWithinAt (perExt T z) (d r) (Ico (T * k) (T * k + T)) t :=
        (hshift.mono Ico_subset_Icc_self).congr (fun x hx => perExt_shift z k (floor_right x hx))
          (perExt_shift z k (floor_right t hmem))
      have : Ico (T * k) (T * k + T) ∈ 𝓝 t := Ico_mem_nhds hlt hmem.2
      exact (e.hasDerivAt this).hasDerivWithinAt
  have := hleft.union hright
  rwa [Iic_union_Ici, hasDerivWithinAt_univ] at this

end

end TMD
