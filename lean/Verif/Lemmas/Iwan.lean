import Verif.Model.Iwan
import Verif.Lemmas.VectorJenkins
import Mathlib.Algebra.BigOperators.Ring.Finset
import Mathlib.Algebra.Order.BigOperators.Ring.Finset
import Mathlib.Algebra.Field.GeomSum
import Mathlib.Tactic.FieldSimp
import Mathlib.Algebra.BigOperators.Field

/-!
# Lemmas: Iwan-4 element
-/

namespace TMD

open Spec

noncomputable section

theorem iwanSlider_eq_clip {phi x : ℝ} (h : 0 ≤ phi) : iwanSlider phi x = clip phi x := by
  unfold iwanSlider
  split
  · rename_i hx; exact (clip_of_le hx).symm
  · rename_i hx; rw [mul_comm]; exact sign_mul_eq_clip h (not_le.1 hx)

/-- Output row as a function of the new state. -/
def iwanRow {ι : Type} (w : Iwan) (s : IHist ι) : ℝ × (ι → ℝ) :=
  (s.fp, fun i => ∑ k ∈ Finset.range (w.nSliders + 1), s.dfps k i * w.weight k)

theorem iwan_rowOf {ι : Type} (w : Iwan) (e0 : ι → ℝ) : RowOf (iwanOps w e0) (iwanRow w) := fun _ _ _ => rfl

theorem iwan_stSeq {ι : Type} (w : Iwan) (hphi : ∀ k ≤ w.nSliders, 0 ≤ w.phi k) (e0 : ι → ℝ) (u : ℕ → ℝ)
    (c : ℕ → ι → ℝ) (s0 : IHist ι) (i : ℕ) :
    (stSeq (iwanOps w e0) u c s0 i).up = u i ∧
    ∀ k ≤ w.nSliders, (stSeq (iwanOps w e0) u c s0 i).fps k
      = slider 1 (fun _ => w.phi k) u s0.up (s0.fps k) i := by
  induction i with
  | zero =>
    refine ⟨rfl, fun k hk => ?_⟩
    simp only [stSeq, iwanOps, iwanStep, iwanInstant, slider_zero, iwanSlider_eq_clip (hphi k hk), one_mul]
  | succ i ih =>
    refine ⟨rfl, fun k hk => ?_⟩
    rw [slider_succ, ← ih.2 k hk, one_mul]
    have h1 := ih.1
    simp only [iwanOps] at h1
    simp only [stSeq, iwanOps, iwanStep, iwanInstant, iwanSlider_eq_clip (hphi k hk), h1]

theorem iwan_stSeq_fp {ι : Type} (w : Iwan) (e0 : ι → ℝ) (u : ℕ → ℝ)
    (c : ℕ → ι → ℝ) (s0 : IHist ι) (i : ℕ) :
    (stSeq (iwanOps w e0) u c s0 i).fp
      = ∑ k ∈ Finset.range (w.nSliders + 1), (stSeq (iwanOps w e0) u c s0 i).fps k * w.weight k := by
  cases i <;> rfl

/-! ## Slider placement -/

theorem iwanDelta_sum (pm : ℝ) {n : ℕ} (hn : 0 < n) {a : ℝ} (ha : 1 ≤ a) :
    ∑ k ∈ Finset.range n, iwanDelta pm n a k = pm := by
  unfold iwanDelta iwanDelta1
  rw [← Finset.mul_sum]
  split
  · rename_i h
    have hp : (1:ℝ) < a ^ n := one_lt_pow₀ h (by omega)
    rw [geom_sum_eq (by linarith)]
    have h1 : a - 1 ≠ 0 := by linarith
    have h2 : a ^ n - 1 ≠ 0 := by linarith
    field_simp
  · rename_i h
    have : a = 1 := le_antisymm (not_lt.1 h) ha
    subst this
    have : (n:ℝ) ≠ 0 := by exact_mod_cast hn.ne'
    simp
    field_simp

theorem iwanDelta_pos {pm : ℝ} (hp : 0 < pm) {n : ℕ} (hn : 0 < n) {a : ℝ} (ha : 1 ≤ a) (k : ℕ) :
    0 < iwanDelta pm n a k := by
  unfold iwanDelta iwanDelta1
  apply mul_pos
  · split
    · rename_i h
      have hp' : (1:ℝ) < a ^ n := one_lt_pow₀ h (by omega)
      exact div_pos (mul_pos hp (by linarith)) (by linarith)
    · exact div_pos hp (by exact_mod_cast hn)
  · exact pow_pos (by linarith) k

theorem iwanPhi_pos {pm : ℝ} (hp : 0 < pm) {n : ℕ} (hn : 0 < n) {a : ℝ} (ha : 1 ≤ a) (k : ℕ) :
    0 < iwanPhi pm n a k := by
  unfold iwanPhi
  split
  · rw [Finset.sum_range_succ]
    have h1 := iwanDelta_pos hp hn ha k
    have h2 : 0 ≤ ∑ j ∈ Finset.range k, iwanDelta pm n a j :=
      Finset.sum_nonneg fun j _ => (iwanDelta_pos hp hn ha j).le
    norm_num
    linarith
  · exact hp

theorem iwanDen_pos {chi beta : ℝ} (hc : -1 < chi) (hb : 0 ≤ beta) : 0 < beta + (chi + 1) / (chi + 2) := by
  have : 0 < (chi + 1) / (chi + 2) := div_pos (by linarith) (by linarith)
  linarith

theorem iwanPhimax_pos {kt Fs chi beta : ℝ} (hk : 0 < kt) (hF : 0 < Fs) (hc : -1 < chi) (hb : 0 ≤ beta) :
    0 < iwanPhimax kt Fs chi beta := by
  unfold iwanPhimax
  exact div_pos (div_pos (mul_pos hF (by linarith)) hk) (iwanDen_pos hc hb)

theorem iwanR_pos {kt Fs chi beta : ℝ} (hk : 0 < kt) (hF : 0 < Fs) (hc : -1 < chi) (hb : 0 ≤ beta) :
    0 < iwanR kt Fs chi beta := by
  unfold iwanR
  exact div_pos (mul_pos hF (by linarith))
    (mul_pos (Real.rpow_pos_of_pos (iwanPhimax_pos hk hF hc hb) _) (iwanDen_pos hc hb))

theorem iwanS_nonneg {kt Fs chi beta : ℝ} (hk : 0 < kt) (hF : 0 < Fs) (hc : -1 < chi) (hb : 0 ≤ beta) :
    0 ≤ iwanS kt Fs chi beta := by
  unfold iwanS
  exact div_nonneg (mul_nonneg hF.le hb) (mul_pos (iwanPhimax_pos hk hF hc hb) (iwanDen_pos hc hb)).le

theorem iwanWeight_nonneg {kt Fs chi beta : ℝ} (hk : 0 < kt) (hF : 0 < Fs) (hc : -1 < chi) (hb : 0 ≤ beta)
    {n : ℕ} (hn : 0 < n) {a : ℝ} (ha : 1 ≤ a) (k : ℕ) : 0 ≤ iwanWeight kt Fs chi beta n a k := by
  unfold iwanWeight
  have hp := iwanPhimax_pos hk hF hc hb
  split
  · exact mul_nonneg (mul_nonneg (iwanR_pos hk hF hc hb).le (Real.rpow_nonneg (iwanPhi_pos hp hn ha k).le _))
      (iwanDelta_pos hp hn ha k).le
  · exact iwanS_nonneg hk hF hc hb

end

end TMD
