import Verif.Model.MifGrad
import Verif.Lemmas.RoughGradStatic
import Verif.Lemmas.MifContact

/-!
# Derivatives of the interpolation in the Mindlin-Iwan fit
-/

namespace TMD

open Spec Finset Filter Topology

noncomputable section

/-! ## Values -/

theorem leFF_some (a b : ℝ) : leFF (some a) (some b) ↔ a ≤ b := by simp [leFF]

theorem absLeF_some (a b : ℝ) : absLeF (some a) b ↔ |a| ≤ b := by simp [absLeF]

theorem gIndex_v (n : ℕ) (xp : ℕ → FDual) (x : FDual) : gIndex fdualNum n xp x = gIndex fltNum n (fun k => (xp k).v) x.v := rfl

theorem gInterpAt_v (n i : ℕ) (xp fp : ℕ → FDual) (x : FDual) :
    (gInterpAt fdualNum n i xp fp x).v = gInterpAt fltNum n i (fun k => (xp k).v) (fun k => (fp k).v) x.v := by
  unfold gInterpAt
  simp only [fdual_sel, fdual_const, fdual_add, fdual_mul, fdual_div, fdual_sub, fdual_val, flt_val]

theorem gInterp_v (n : ℕ) (xp fp : ℕ → FDual) (x : FDual) :
    (gInterp fdualNum n xp fp x).v = gInterp fltNum n (fun k => (xp k).v) (fun k => (fp k).v) x.v := by
  unfold gInterp
  rw [gInterpAt_v, gIndex_v]

theorem gIndex_bounds {α : Type} (J : FNum α) {n : ℕ} (hn : 2 ≤ n) (xp : ℕ → α) (x : α) :
    1 ≤ gIndex J n xp x ∧ gIndex J n xp x < n := by
  unfold gIndex
  constructor
  · exact le_max_left _ _
  · refine max_lt (by omega) (lt_of_le_of_lt (min_le_left _ _) (by omega))

theorem gIndex_congr {α β : Type} (J : FNum α) (J' : FNum β) {n : ℕ} {xp : ℕ → α} {x : α} {xp' : ℕ → β} {x' : β}
    (h : ∀ k < n, leFF (J.val (xp k)) (J.val x) ↔ leFF (J'.val (xp' k)) (J'.val x')) :
    gIndex J n xp x = gIndex J' n xp' x' := by
  classical
  unfold gIndex
  congr 3
  refine List.filter_congr fun k hk => ?_
  simp only [h k (List.mem_range.1 hk)]

theorem gInterp_congr {α : Type} (J : FNum α) {n : ℕ} (hn : 2 ≤ n) {xp xp' fp fp' : ℕ → α} {x : α} (h : ∀ k < n, xp k = xp' k)
    (h' : ∀ k < n, fp k = fp' k) : gInterp J n xp fp x = gInterp J n xp' fp' x := by
  have hi : gIndex J n xp x = gIndex J n xp' x := gIndex_congr J J fun k hk => by rw [h k hk]
  unfold gInterp
  rw [hi]
  obtain ⟨h1, h2⟩ := gIndex_bounds J hn xp' x
  unfold gInterpAt
  rw [h _ h2, h (gIndex J n xp' x - 1) (by omega), h' _ h2, h' (gIndex J n xp' x - 1) (by omega), h 0 (by omega), h (n - 1) (by omega)]

theorem gInterp_flt (n : ℕ) (xp fp : ℕ → ℝ) (x : ℝ) :
    gInterp fltNum n (fun k => some (xp k)) (fun k => some (fp k)) (some x) = some (jnpInterp n xp fp x) := by
  classical
  unfold gInterp jnpInterp
  have hi : gIndex fltNum n (fun k => some (xp k)) (some x)
      = max 1 (min (n - 1) ((List.range n).filter fun k => decide (xp k ≤ x)).length) := by
    unfold gIndex
    simp only [flt_val, leFF_some]
  rw [hi]
  simp only
  generalize max 1 (min (n - 1) ((List.range n).filter fun k => decide (xp k ≤ x)).length) = i
  unfold gInterpAt
  simp only [flt_val, flt_sub, flt_const, gtFF_some, absLeF_some]
  by_cases h1 : xp (n - 1) < x
  · rw [flt_sel_pos h1, if_pos h1]
  rw [flt_sel_neg h1, if_neg h1]
  by_cases h2 : x < xp 0
  · rw [flt_sel_pos h2, if_pos h2]
  rw [flt_sel_neg h2, if_neg h2]
  by_cases h3 : |xp i - xp (i - 1)| ≤ 1 / 2 ^ 104
  · rw [flt_sel_pos h3, if_pos h3]
  · rw [flt_sel_neg h3, flt_sel_neg h3, if_neg h3, flt_div, flt_mul, flt_add]
    intro e
    rw [e, abs_zero] at h3
    exact h3 (by positivity)

/-! ## Zero nearby -/

section

variable {n K : ℕ} {M : ℕ → ℕ → ℝ} {X : ℕ → ℝ} {F G : (ℕ → ℝ) → Flt} {x y : FDual} {a b : ℝ}

theorem fzero_add (hx : FZero n X F x) (hy : FZero n X G y) : FZero n X (fun U => fltNum.add (F U) (G U)) (fdualNum.add x y) := by
  obtain ⟨h1, rfl⟩ := hx
  obtain ⟨h2, rfl⟩ := hy
  refine ⟨(h1.and h2).mono fun U hU => by beta_reduce; rw [hU.1, hU.2, flt_add, add_zero], ?_⟩
  rw [fdual_add_some]
  simp only [add_zero]

theorem fzero_mul_left (hx : FZero n X F x) (hy : FT n K M X G y b) :
    FZero n X (fun U => fltNum.mul (F U) (G U)) (fdualNum.mul x y) := by
  obtain ⟨h1, rfl⟩ := hx
  obtain ⟨⟨f, g, h2, rfl, -⟩, -⟩ := hy
  refine ⟨(h1.and h2).mono fun U hU => by beta_reduce; rw [hU.1, hU.2, flt_mul, zero_mul], ?_⟩
  rw [fdual_mul_some]
  simp only [zero_mul, add_zero]

theorem fzero_mul_right (hx : FT n K M X F x a) (hy : FZero n X G y) :
    FZero n X (fun U => fltNum.mul (F U) (G U)) (fdualNum.mul x y) := by
  obtain ⟨h1, rfl⟩ := hy
  obtain ⟨⟨f, g, h2, rfl, -⟩, -⟩ := hx
  refine ⟨(h1.and h2).mono fun U hU => by beta_reduce; rw [hU.1, hU.2, flt_mul, mul_zero], ?_⟩
  rw [fdual_mul_some]
  simp only [mul_zero, add_zero]

/-- Different values, or both zero nearby. -/
def Apart (n : ℕ) (X : ℕ → ℝ) (F G : (ℕ → ℝ) → Flt) (x y : FDual) (a b : ℝ) : Prop :=
  a ≠ b ∨ FZero n X F x ∧ FZero n X G y

theorem near_order (hx : FT n K M X F x a) (hy : FT n K M X G y b) (h : Apart n X F G x y a b) :
    Near n X fun U => (gtFF (F U) (G U) ↔ gtFF x.v y.v) ∧ (leFF (F U) (G U) ↔ leFF x.v y.v) := by
  rw [hx.2, hy.2, gtFF_some, leFF_some]
  rcases h with h | ⟨h1, h2⟩
  · obtain ⟨f, g, h1, rfl, -, h4⟩ := hx.1
    obtain ⟨f', g', k1, rfl, -, k4⟩ := hy.1
    have e1 : f X = a := Option.some.inj hx.2
    have e2 : f' X = b := Option.some.inj hy.2
    have hs := HasGrad.sub h4 k4
    rcases lt_or_gt_of_ne h with hl | hl
    · refine ((h1.and k1).and (near_lt (c := 0) hs (by linarith))).mono fun U hU => ?_
      have := hU.2
      rw [hU.1.1, hU.1.2, gtFF_some, leFF_some]
      constructor
      · constructor <;> intro h <;> linarith
      · constructor <;> intro h <;> linarith
    · refine ((h1.and k1).and (near_gt (c := 0) hs (by linarith))).mono fun U hU => ?_
      have := hU.2
      rw [hU.1.1, hU.1.2, gtFF_some, leFF_some]
      constructor
      · constructor <;> intro h <;> linarith
      · constructor <;> intro h <;> linarith
  · refine (h1.1.and h2.1).mono fun U hU => ?_
    have e1 : a = 0 := by
      have := hx.2
      rw [h1.2] at this
      exact (Option.some.inj this).symm
    have e2 : b = 0 := by
      have := hy.2
      rw [h2.2] at this
      exact (Option.some.inj this).symm
    rw [hU.1, hU.2, gtFF_some, leFF_some, e1, e2]
    exact ⟨Iff.rfl, Iff.rfl⟩

theorem near_absLe (hx : FT n K M X F x a) {c : ℝ} (h : |a| ≠ c) : Near n X fun U => absLeF (F U) c ↔ absLeF x.v c := by
  rw [hx.2, absLeF_some]
  obtain ⟨f, g, h1, rfl, -, h4⟩ := hx.1
  have e1 : f X = a := Option.some.inj hx.2
  subst e1
  have ht : Near n X fun U => (|f U| ≤ c ↔ |f X| ≤ c) := by
    have hc := (hasGrad_tendsto h4).abs
    rcases lt_or_gt_of_ne h with hl | hl
    · refine Eventually.mono (hc.eventually (gt_mem_nhds hl)) fun v hv => ?_
      exact ⟨fun _ => hl.le, fun _ => le_of_lt hv⟩
    · refine Eventually.mono (hc.eventually (lt_mem_nhds hl)) fun v hv => ?_
      exact ⟨fun h => absurd h (not_le.2 hv), fun h => absurd h (not_le.2 hl)⟩
  refine (h1.and ht).mono fun U hU => ?_
  rw [hU.1, absLeF_some]
  exact hU.2

theorem ftracks_sel {C : (ℕ → ℝ) → Prop} {c : Prop} (hC : Near n X fun U => (C U ↔ c)) (hx : c → FTracks n K M X F x)
    (hy : ¬ c → FTracks n K M X G y) : FTracks n K M X (fun U => fltNum.sel (C U) (F U) (G U)) (fdualNum.sel c x y) := by
  by_cases h : c
  · exact ftracks_sel_true h (hC.mono fun U hU => hU.2 h) (hx h)
  · exact ftracks_sel_false h (hC.mono fun U hU h' => h (hU.1 h')) (hy h)

theorem fzero_sel {C : (ℕ → ℝ) → Prop} {c : Prop} (hC : Near n X fun U => (C U ↔ c)) (hx : c → FZero n X F x)
    (hy : ¬ c → FZero n X G y) : FZero n X (fun U => fltNum.sel (C U) (F U) (G U)) (fdualNum.sel c x y) := by
  by_cases h : c
  · rw [fdual_sel_pos h]
    exact (hx h).near (hC.mono fun U hU => flt_sel_pos (hU.2 h) _ _)
  · rw [fdual_sel_neg h]
    exact (hy h).near (hC.mono fun U hU => flt_sel_neg (fun h' => h (hU.1 h')) _ _)

end

/-! ## Derivatives -/

section interp

variable {n K L : ℕ} {M : ℕ → ℕ → ℝ} {X : ℕ → ℝ} {XP FP : ℕ → (ℕ → ℝ) → Flt} {Fx : (ℕ → ℝ) → Flt} {xp fp : ℕ → FDual} {x : FDual}
  {xpv fpv : ℕ → ℝ} {xv : ℝ} (hL : 2 ≤ L) (hxp : ∀ k < L, FT n K M X (XP k) (xp k) (xpv k)) (hx : FT n K M X Fx x xv)

include hL hxp hx

theorem gInterp_val (hfp : ∀ k < L, FT n K M X (FP k) (fp k) (fpv k)) :
    (gInterp fdualNum L xp fp x).v = some (jnpInterp L xpv fpv xv) := by
  rw [gInterp_v, ← gInterp_flt, hx.2]
  exact gInterp_congr fltNum hL (fun k hk => (hxp k hk).2) fun k hk => (hfp k hk).2

/-- Between different sample points. -/
theorem gInterp_ft (hfp : ∀ k < L, FT n K M X (FP k) (fp k) (fpv k)) (ha : ∀ k < L, Apart n X (XP k) Fx (xp k) x (xpv k) xv)
    (hd : ∀ i, i + 1 < L → |xpv (i + 1) - xpv i| ≠ 1 / 2 ^ 104) :
    FT n K M X (fun U => gInterp fltNum L (fun k => XP k U) (fun k => FP k U) (Fx U)) (gInterp fdualNum L xp fp x)
      (jnpInterp L xpv fpv xv) := by
  refine ⟨?_, gInterp_val hL hxp hx hfp⟩
  obtain ⟨hi1, hi2⟩ := gIndex_bounds fdualNum hL xp x
  have hidx : Near n X fun U => gIndex fltNum L (fun k => XP k U) (Fx U) = gIndex fdualNum L xp x := by
    refine (near_all fun k hk => (near_order (hxp k hk) hx (ha k hk)).mono fun U hU => hU.2).mono fun U hU => ?_
    exact gIndex_congr fltNum fdualNum fun k hk => hU k hk
  unfold gInterp
  generalize gIndex fdualNum L xp x = i at hi1 hi2 hidx
  have key : FTracks n K M X (fun U => gInterpAt fltNum L i (fun k => XP k U) (fun k => FP k U) (Fx U)) (gInterpAt fdualNum L i xp fp x) := by
    have h0 := near_order (hxp 0 (by omega)) hx (ha 0 (by omega))
    have hl : Near n X fun U => (gtFF (Fx U) (XP (L - 1) U) ↔ gtFF x.v (xp (L - 1)).v) := by
      have hs := ha (L - 1) (by omega)
      refine (near_order hx (hxp (L - 1) (by omega)) ?_).mono fun U hU => hU.1
      rcases hs with h | h
      · exact Or.inl (Ne.symm h)
      · exact Or.inr ⟨h.2, h.1⟩
    have hdx := ft_sub (hxp i hi2) (hxp (i - 1) (by omega))
    have hdi := hd (i - 1) (by omega)
    rw [Nat.sub_add_cancel hi1] at hdi
    have hsm := near_absLe hdx hdi
    unfold gInterpAt
    simp only [fdual_val, flt_val]
    refine ftracks_sel hl (fun _ => ftracks_const 0) fun _ => ftracks_sel (h0.mono fun U hU => hU.1) (fun _ => ftracks_const 0) fun _ =>
      ftracks_sel hsm (fun _ => (hfp _ (by omega)).1) fun hs => ?_
    have hne : xpv i - xpv (i - 1) ≠ 0 := by
      intro e
      rw [hdx.2, e, absLeF_some] at hs
      exact hs (by simp)
    have hden : FT n K M X (fun U => fltNum.sel (absLeF (fltNum.sub (XP i U) (XP (i - 1) U)) (1 / 2 ^ 104)) (fltNum.const 1)
        (fltNum.sub (XP i U) (XP (i - 1) U)))
        (fdualNum.sel (absLeF (fdualNum.sub (xp i) (xp (i - 1))).v (1 / 2 ^ 104)) (fdualNum.const 1) (fdualNum.sub (xp i) (xp (i - 1))))
        (xpv i - xpv (i - 1)) := ft_sel_false hs (hsm.mono fun U hU h => hs (hU.1 h)) hdx
    exact (ft_add (hfp (i - 1) (by omega)) (ft_mul (ft_div (ft_sub hx (hxp (i - 1) (by omega))) hden hne)
      (ft_sub (hfp i hi2) (hfp (i - 1) (by omega))))).1
  refine key.near (hidx.mono fun U hU => ?_)
  rw [hU]

/-- Beyond the last sample point. -/
theorem gInterp_beyond (FP : ℕ → (ℕ → ℝ) → Flt) (fp : ℕ → FDual) (hb : xpv (L - 1) < xv) :
    FZero n X (fun U => gInterp fltNum L (fun k => XP k U) (fun k => FP k U) (Fx U)) (gInterp fdualNum L xp fp x) := by
  have hl : Near n X fun U => (gtFF (Fx U) (XP (L - 1) U) ↔ gtFF x.v (xp (L - 1)).v) :=
    (near_order hx (hxp (L - 1) (by omega)) (Or.inl hb.ne')).mono fun U hU => hU.1
  have hc : gtFF x.v (xp (L - 1)).v := by
    rw [hx.2, (hxp (L - 1) (by omega)).2, gtFF_some]
    exact hb
  constructor
  · refine hl.mono fun U hU => ?_
    unfold gInterp gInterpAt
    simp only [flt_val]
    rw [flt_sel_pos (hU.2 hc), flt_const]
  · unfold gInterp gInterpAt
    simp only [fdual_val]
    rw [fdual_sel_pos hc, fdual_const_some]

/-- No history. -/
theorem gInterp_none (hfp : ∀ k < L, FZero n X (FP k) (fp k)) :
    FZero n X (fun U => gInterp fltNum L (fun k => XP k U) (fun k => FP k U) (Fx U)) (gInterp fdualNum L xp fp x) := by
  constructor
  · have h1 : Near n X fun U => ∀ k < L, (∃ a, XP k U = some a) ∧ FP k U = some 0 := by
      refine near_all fun k hk => ?_
      obtain ⟨f, g, h, -⟩ := (hxp k hk).1
      exact (h.and (hfp k hk).1).mono fun U hU => ⟨⟨_, hU.1⟩, hU.2⟩
    obtain ⟨f, g, h2, -⟩ := hx.1
    refine (h1.and h2).mono fun U hU => ?_
    obtain ⟨hU, hx'⟩ := hU
    have e1 : ∀ k < L, XP k U = some ((XP k U).getD 0) := fun k hk => by
      obtain ⟨a, ha⟩ := (hU k hk).1
      rw [ha]
      rfl
    beta_reduce
    rw [hx', gInterp_congr fltNum hL (xp' := fun k => some ((XP k U).getD 0)) (fp' := fun _ => some 0) e1 (fun k hk => (hU k hk).2)]
    rw [gInterp_flt, jnpInterp_zero _ _ _ (fun _ _ => rfl) hL]
  · obtain ⟨hi1, hi2⟩ := gIndex_bounds fdualNum hL xp x
    unfold gInterp
    generalize gIndex fdualNum L xp x = i at hi1 hi2
    unfold gInterpAt
    simp only [fdual_val]
    have e1 := (hfp i hi2).2
    have e2 := (hfp (i - 1) (by omega)).2
    obtain ⟨a, g, hxe⟩ := hx.1.fin
    obtain ⟨b, g', hb⟩ := (hxp i hi2).1.fin
    obtain ⟨c, g'', hc⟩ := (hxp (i - 1) (by omega)).1.fin
    rw [e1, e2]
    by_cases h1 : gtFF x.v (xp (L - 1)).v
    · rw [fdual_sel_pos h1, fdual_const_some]
    rw [fdual_sel_neg h1]
    by_cases h2 : gtFF (xp 0).v x.v
    · rw [fdual_sel_pos h2, fdual_const_some]
    rw [fdual_sel_neg h2]
    by_cases h3 : absLeF (fdualNum.sub (xp i) (xp (i - 1))).v (1 / 2 ^ 104)
    · rw [fdual_sel_pos h3]
    · rw [fdual_sel_neg h3, fdual_sel_neg h3, hb, hc, hxe, fdual_sub_some, fdual_sub_some, fdual_sub_some]
      have hne : b - c ≠ 0 := by
        intro e
        rw [hb, hc, fdual_sub_some, e, absLeF_some] at h3
        exact h3 (by simp)
      rw [fdual_div_some hne, fdual_mul_some, fdual_add_some]
      simp

omit hxp hx in
theorem gInterp_fin (hxp : ∀ k < L, FFin (xp k)) (hx : FFin x) (hfp : ∀ k < L, FFin (fp k)) : FFin (gInterp fdualNum L xp fp x) := by
  obtain ⟨hi1, hi2⟩ := gIndex_bounds fdualNum hL xp x
  unfold gInterp
  generalize gIndex fdualNum L xp x = i at hi1 hi2
  unfold gInterpAt
  simp only [fdual_val]
  have e1 := hfp i hi2
  have e2 := hfp (i - 1) (by omega)
  by_cases h1 : gtFF x.v (xp (L - 1)).v
  · rw [fdual_sel_pos h1]
    exact ffin_const 0
  rw [fdual_sel_neg h1]
  by_cases h2 : gtFF (xp 0).v x.v
  · rw [fdual_sel_pos h2]
    exact ffin_const 0
  rw [fdual_sel_neg h2]
  by_cases h3 : absLeF (fdualNum.sub (xp i) (xp (i - 1))).v (1 / 2 ^ 104)
  · rw [fdual_sel_pos h3]
    exact e2
  · rw [fdual_sel_neg h3, fdual_sel_neg h3]
    refine ffin_add e2 (ffin_mul ?_ (ffin_sub e1 e2))
    obtain ⟨a, g, hxe⟩ := hx
    obtain ⟨b, g', hb⟩ := hxp i hi2
    obtain ⟨c, g'', hc⟩ := hxp (i - 1) (by omega)
    rw [hb, hc, hxe, fdual_sub_some, fdual_sub_some]
    have hne : b - c ≠ 0 := by
      intro e
      rw [hb, hc, fdual_sub_some, e, absLeF_some] at h3
      exact h3 (by simp)
    rw [fdual_div_some hne]
    exact ⟨_, _, rfl⟩

end interp

end

end TMD
