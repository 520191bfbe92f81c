import Verif.Props.VprnmRomPeak

/-! # When the VPRNM reduced order model returns -/

namespace TMD

open Spec Finset

noncomputable section

variable {N Mf : ℕ} {bbF : ℕ → ℕ → ℝ} {hF : List ℕ} {Mr : ℕ} {bbR : ℕ → ℕ → ℝ} {hR : List ℕ} {ncol Mv : ℕ}
  {bbV : ℕ → ℕ → ℝ} {hV : List ℕ} {rhi : ℕ} {c1 : ℕ → ℝ} {amp : ℝ} {cr Fl : ℕ → ℝ} {correct : Bool}

theorem LinearAt.unique {n : ℕ} {ref : ℕ → ℝ} {X : ℕ → ℕ → ℝ} {v : ℝ} {r r' : Option (ℕ → ℝ)} (hn : 0 < n)
    (hinc : ∀ k, k + 1 < n → ref k < ref (k + 1)) (h : LinearAt n ref X v r) (h' : LinearAt n ref X v r') : r = r' := by
  by_cases h0 : v < ref 0
  · rw [h.left h0, h'.left h0]
  · by_cases h1 : ref (n - 1) < v
    · rw [h.right h1, h'.right h1]
    · obtain ⟨j, hj, hj1, hj2⟩ := exists_bracket hn (not_lt.1 h0)
      by_cases hl : j + 1 < n
      · obtain ⟨row, e, hrow⟩ := h.segment j hl hj1 (hj2 hl).le
        obtain ⟨row', e', hrow'⟩ := h'.segment j hl hj1 (hj2 hl).le
        rw [e, e']
        congr 1
        funext c
        have hd : ref (j + 1) - ref j ≠ 0 := (sub_pos.2 (hinc j hl)).ne'
        exact mul_left_cancel₀ hd ((hrow c).trans (hrow' c).symm)
      · have : j = n - 1 := by omega
        subst this
        have hv : v = ref (n - 1) := le_antisymm (not_lt.1 h1) hj1
        rw [h.node _ hj hv, h'.node _ hj hv]

theorem firstRow_value {M Nc : ℕ} {X : ℕ → ℕ → ℝ} {v : ℝ} {ref ref' : ℕ → ℝ} {r : Option (ℕ → ℝ)} (hM : 0 < M)
    (e : ∀ k < M, ref k = ref' k) (hinc : ∀ k, k + 1 < M → ref' k < ref' (k + 1)) (hl : LinearAt M ref' X v r) :
    firstRow (linearInterp M Nc X [v] (some (M, ref))) = .ok r := by
  have hinc' : ∀ k, k + 1 < M → ref k < ref (k + 1) := fun k hk => by rw [e k (by omega), e _ hk]; exact hinc k hk
  obtain ⟨out, h1, h2⟩ := C60_linear (M := M) (N := Nc) (X := X) hinc' hM le_rfl [v]
  rw [h1]
  cases h2 with
  | cons ha h2 =>
    cases h2
    unfold firstRow
    simp only
    rw [LinearAt.unique hM hinc (ha.congr hM e) hl]

theorem firstRow_rejected {M Nc : ℕ} {X : ℕ → ℕ → ℝ} {v : ℝ} {ref : ℕ → ℝ} (h : ∃ k, k + 1 < M ∧ ref (k + 1) ≤ ref k) :
    firstRow (linearInterp M Nc X [v] (some (M, ref))) = .error .assertion := by
  rw [C60_rejected h]
  rfl

theorem ampIndex_value {h : List ℕ} (hs : h.Pairwise (· < ·)) {m nc : ℕ} (hm : m ∈ h) (h1 : 1 ≤ m)
    (hc : numCoeff h * N ≤ nc) : ampIndex N nc h m = .ok (numCoeff (h.filter fun k => k < m)) := by
  have hn : h.Nodup := hs.imp fun h => Nat.ne_of_lt h
  unfold ampIndex
  rw [Nhc_ok (hn.filter _)]
  simp only
  rw [if_pos]
  exact (Nat.mul_le_mul_right _ (coefOf_sorted hs hm h1 (fun _ => 0)).2).trans hc

theorem npArgmin_exists {l : List ℝ} (hl : l ≠ []) : ∃ i, npArgmin l = some i := by
  classical
  obtain ⟨i, hi, hmin⟩ := Finset.exists_min_image (Finset.range l.length) (fun i => l.getD i 0)
    ⟨0, Finset.mem_range.2 (List.length_pos_of_ne_nil hl)⟩
  unfold npArgmin
  rw [← Option.isSome_iff_exists, List.find?_isSome]
  refine ⟨i, List.mem_range.2 (Finset.mem_range.1 hi), ?_⟩
  rw [decide_eq_true_eq]
  exact fun j hj => hmin j (Finset.mem_range.2 hj)

/-- The amplitudes of the rows. -/
structure H1Increasing (N Mf : ℕ) (bbF : ℕ → ℕ → ℝ) (hF : List ℕ) (Mr : ℕ) (bbR : ℕ → ℕ → ℝ) (hR : List ℕ) (Mv : ℕ)
    (bbV : ℕ → ℕ → ℝ) (hV : List ℕ) (c1 cr : ℕ → ℝ) : Prop where
  vpos : 0 < Mv
  fpos : 0 < Mf
  rpos : 0 < Mr
  vprnm : ∀ k, k + 1 < Mv → ‖pointHarmonic hV N c1 (bbV k) 1‖ < ‖pointHarmonic hV N c1 (bbV (k + 1)) 1‖
  fund : ∀ k, k + 1 < Mf → rowAmp hF N c1 bbF k < rowAmp hF N c1 bbF (k + 1)
  super : ∀ k, k + 1 < Mr → rowAmp hR N cr bbR k < rowAmp hR N cr bbR (k + 1)

theorem vprnmPoint_value (hI : H1Input N hF hR hV rhi Mr bbR Mv ncol bbV)
    (hcol : ncol = numCoeff hV * N + 4 ∨ ncol = numCoeff hV * N + 2)
    (hA : H1Increasing N Mf bbF hF Mr bbR hR Mv bbV hV c1 cr) {r : Option (ℕ → ℝ)}
    (hl : LinearAt Mv (fun k => ‖pointHarmonic hV N c1 (bbV k) 1‖) bbV amp r) :
    vprnmPoint N ncol Mv bbV hV c1 amp = .ok r := by
  unfold vprnmPoint
  rw [ampIndex_value hI.vs hI.v1.mem le_rfl (by omega)]
  exact firstRow_value hA.vpos (fun k _ => by rw [harmAmp_point hI.vs hI.v1.mem le_rfl, mul_one]) hA.vprnm hl

theorem superPoint_value (hI : H1Input N hF hR hV rhi Mr bbR Mv ncol bbV)
    (hA : H1Increasing N Mf bbF hF Mr bbR hR Mv bbV hV c1 cr) {A : ℝ} {r : Option (ℕ → ℝ)}
    (hl : LinearAt Mr (rowAmp hR N cr bbR) (ampTable (numCoeff hR * N) bbR) A r) :
    superPoint N (numCoeff hR * N) Mr bbR hR cr (some A) = .ok r := by
  unfold superPoint
  rw [ampIndex_value hI.rs hI.r1.mem le_rfl (by omega)]
  simp only [Option.getD_some]
  have e : firstRow (linearInterp Mr (numCoeff hR * N + 2) (linQ (numCoeff hR * N) bbR) [A]
      (some (Mr, fun k => harmAmp N (numCoeff (hR.filter fun k => k < 1)) cr ((10 : ℝ) ^ bbR k (numCoeff hR * N + 2)) (bbR k))))
      = .ok r := firstRow_value hA.rpos (fun k _ => harmAmp_rowAmp hI.rs hI.r1 k) hA.super hl
  rw [e]
  simp

theorem superPoint_nan (hI : H1Input N hF hR hV rhi Mr bbR Mv ncol bbV)
    (hA : H1Increasing N Mf bbF hF Mr bbR hR Mv bbV hV c1 cr) :
    superPoint N (numCoeff hR * N) Mr bbR hR cr none = .ok none := by
  unfold superPoint
  rw [ampIndex_value hI.rs hI.r1.mem le_rfl (by omega)]
  simp only [Option.getD_none]
  have hinc : ∀ k, k + 1 < Mr → harmAmp N (numCoeff (hR.filter fun k => k < 1)) cr ((10 : ℝ) ^ bbR k (numCoeff hR * N + 2)) (bbR k)
      < harmAmp N (numCoeff (hR.filter fun k => k < 1)) cr ((10 : ℝ) ^ bbR (k + 1) (numCoeff hR * N + 2)) (bbR (k + 1)) := by
    intro k hk
    rw [harmAmp_rowAmp hI.rs hI.r1, harmAmp_rowAmp hI.rs hI.r1]
    exact hA.super k hk
  obtain ⟨out, h1, h2⟩ := C60_linear (M := Mr) (N := numCoeff hR * N + 2) (X := linQ (numCoeff hR * N) bbR) hinc hA.rpos le_rfl [0]
  rw [h1]
  cases h2 with
  | cons ha h2 =>
    cases h2
    simp [firstRow]

theorem superFrc_ok (hI : H1Input N hF hR hV rhi Mr bbR Mv ncol bbV) (pR : ℕ → ℝ) (wv : ℝ) :
    ∃ frc, superFrc N (numCoeff hR * N) Mr bbR hR pR wv = .ok frc :=
  ⟨_, constantForce_projected (sorted_admissible hI.rs hI.r1) _ _ _ _⟩

/-- C97: with increasing amplitudes, the requested amplitude on the VPRNM backbone, the superharmonic amplitude on the
superharmonic backbone, and no second mode of the reduced backbone in resonance at the VPRNM frequency, the model returns a
result. -/
theorem C97_returns (hI : H1Input N hF hR hV rhi Mr bbR Mv ncol bbV)
    (hcol : ncol = numCoeff hV * N + 4 ∨ ncol = numCoeff hV * N + 2)
    (hA : H1Increasing N Mf bbF hF Mr bbR hR Mv bbV hV c1 cr) {pV pR : ℕ → ℝ}
    (hVp : LinearAt Mv (fun k => ‖pointHarmonic hV N c1 (bbV k) 1‖) bbV amp (some pV))
    (hRp : LinearAt Mr (rowAmp hR N cr bbR) (ampTable (numCoeff hR * N) bbR) ‖pointHarmonic hV N cr pV rhi‖ (some pR))
    (hother : ∀ shape w z q, SuperRow (numCoeff hR * N) Mr bbR pR (rhi * pV (ncol - 2)) shape w z q →
      q < pR (numCoeff hR * N + 2) → q * ‖modalStiffness w z (rhi * pV (ncol - 2))‖
        ≠ |2 * pR (numCoeff hR * N + 2) * (rhi * pV (ncol - 2)) ^ 2 *
            (pR (numCoeff hR * N + 1) / (2 * pR (numCoeff hR * N)))|) :
    ∃ out, constantH1 N Mf bbF hF Mr bbR hR ncol Mv bbV hV rhi c1 amp cr Fl none correct = .ok out := by
  have hFA := sorted_admissible hI.fs hI.f1
  have hRA := sorted_admissible hI.rs hI.r1
  have hVA := sorted_admissible hI.vs hI.v1
  have hV0 : 0 < pV (ncol - 2) := hVp.pos hA.vpos hA.vprnm hI.vpos
  have hRq : 0 < pR (numCoeff hR * N + 2) := hRp.pos hA.rpos hA.super fun k _ => by
    unfold ampTable; rw [if_pos rfl]; exact Real.rpow_pos_of_pos (by norm_num) _
  have hrpos : (0 : ℝ) < rhi := by exact_mod_cast hI.one_le
  have hw : 0 < (rhi : ℝ) * pV (ncol - 2) := mul_pos hrpos hV0
  obtain ⟨frc, hfrc⟩ := superFrc_ok hI pR (rhi * pV (ncol - 2))
  obtain ⟨x, hx, hxw, hxq⟩ := superFrc_peak hRA hRq hw hfrc
  obtain ⟨m, hm, hxm⟩ := List.getElem_of_mem hx
  obtain ⟨i, hi⟩ := npArgmin_exists (l := frc.map fun x => |x.1 (numCoeff hR * N) - rhi * pV (ncol - 2)|)
    (by intro h; rw [List.map_eq_nil_iff] at h; subst h; simp at hx)
  obtain ⟨hil, hmin⟩ := npArgmin_some hi
  rw [List.length_map] at hil
  have hiw : frc[i].1 (numCoeff hR * N) = rhi * pV (ncol - 2) := by
    have h1 := hmin m (by simpa using hm)
    rw [List.getD_eq_getElem _ _ (by simpa using hil), List.getD_eq_getElem _ _ (by simpa using hm), List.getElem_map,
      List.getElem_map, hxm, hxw, sub_self, abs_zero] at h1
    exact sub_eq_zero.1 (abs_eq_zero.1 (le_antisymm h1 (abs_nonneg _)))
  have hget : frc.getD i (fun _ => 0, 0, 0) = frc[i] := List.getD_eq_getElem _ _ hil
  have hqi : frc[i].2.1 = pR (numCoeff hR * N + 2) := by
    obtain ⟨shape, w, z, hrow, hpos, hmod, -⟩ := superFrc_mem hRA hRq hfrc (List.getElem_mem hil)
    rcases (superRow_le hrow).lt_or_eq with hlt | heq
    · exfalso
      refine hother _ _ _ _ hrow hlt ?_
      have hq0 : 0 < frc[i].2.1 := by
        rcases hrow with h | ⟨k, -, -, -, -, h, -⟩
        · rw [h.2.2.2]; exact hRq
        · rw [h]; exact Real.rpow_pos_of_pos (by norm_num) _
      have := congrArg norm hmod
      rw [norm_mul, norm_mul, Complex.norm_real, Complex.norm_real, ← Complex.ofReal_neg, Complex.norm_exp_ofReal_mul_I,
        mul_one, Real.norm_of_nonneg hq0.le, hiw, Real.norm_eq_abs] at this
      rw [mul_comm]
      exact this
    · exact heq
  have hrot : superRotate N (numCoeff hR * N) hR cr pV (numCoeff (hV.filter fun k => k < rhi)) (rhi * pV (ncol - 2))
      (pR (numCoeff hR * N + 2)) frc = .ok (frc.map fun x => rsp x.1 N hR
        (harmPhase N (numCoeff (hV.filter fun k => k < rhi)) cr pV - harmPhase N (zi hR) cr frc[i].1) 1, i) := by
    unfold superRotate
    rw [hi]
    simp only [hget]
    rw [if_neg, mapE_ok (fun x : RomPoint => rsp_ok x.1 N hRA.ne _ 1)]
    rw [not_not, hqi, sub_self, abs_zero]
    positivity
  have hsup : ∃ s, vprnmSuper N ncol Mv bbV hV Mr bbR hR rhi c1 amp cr none = .ok (pV, s) := by
    unfold vprnmSuper
    rw [Nhc_ok hRA.nodup]
    simp only
    rw [vprnmPoint_value hI hcol hA hVp, ampIndex_value hI.vs hI.mem hI.one_le (by omega)]
    simp only [Option.map_some]
    rw [harmAmp_point hI.vs hI.mem hI.one_le, mul_one, superPoint_value hI hA hRp]
    simp only
    rw [if_neg hRA.ne]
    simp only [vprnmOm]
    rw [hfrc]
    simp only
    rw [hrot]
    exact ⟨_, rfl⟩
  obtain ⟨s, hs⟩ := hsup
  have hfund : ∃ fund, fundPart N (numCoeff hF * N) Mf bbF hF hV Fl c1 amp pV = .ok fund := by
    have : ∃ r, constantDisplacement Mf N (numCoeff hF * N) hF bbF Fl c1 amp none none = .ok r := by
      unfold constantDisplacement
      rw [if_neg hFA.ne]
      simp only
      obtain ⟨out, h1, h2⟩ := C60_linear (M := Mf) (N := numCoeff hF * N + 2)
        (X := romTable (numCoeff hF * N) bbF none none)
        (ref := romAmp N (numCoeff hF * N) (zi hF) c1 (romTable (numCoeff hF * N) bbF none none))
        (fun k hk => by rw [romAmp_rowAmp hI.f1, romAmp_rowAmp hI.f1]; exact hA.fund k hk) hA.fpos le_rfl [amp]
      rw [h1]
      cases h2 with
      | cons ha h2 =>
        cases h2
        rename_i r
        cases r
        · exact ⟨_, rfl⟩
        · exact ⟨_, rfl⟩
    obtain ⟨r, hr⟩ := this
    unfold fundPart
    rw [hr]
    cases r with
    | none => exact ⟨_, rfl⟩
    | some r =>
      simp only
      rw [rsp_ok _ _ hFA.ne]
      exact ⟨_, rfl⟩
  obtain ⟨fund, hfund⟩ := hfund
  unfold constantH1
  rw [Nhc_ok hVA.nodup]
  simp only
  rw [if_neg (not_not.2 hcol), hs]
  simp only
  rw [Nhc_ok hFA.nodup]
  simp only
  rw [hfund]
  exact ⟨_, rfl⟩

/-- C97: an amplitude that the VPRNM backbone does not reach is a `ValueError`. -/
theorem C97_vprnm_range (hI : H1Input N hF hR hV rhi Mr bbR Mv ncol bbV)
    (hcol : ncol = numCoeff hV * N + 4 ∨ ncol = numCoeff hV * N + 2)
    (hA : H1Increasing N Mf bbF hF Mr bbR hR Mv bbV hV c1 cr) {extra : Option (List ℝ)}
    (hout : amp < ‖pointHarmonic hV N c1 (bbV 0) 1‖ ∨ ‖pointHarmonic hV N c1 (bbV (Mv - 1)) 1‖ < amp) :
    constantH1 N Mf bbF hF Mr bbR hR ncol Mv bbV hV rhi c1 amp cr Fl extra correct = .error .value := by
  have hRA := sorted_admissible hI.rs hI.r1
  have hVA := sorted_admissible hI.vs hI.v1
  obtain ⟨out, h1, h2⟩ := C60_linear (M := Mv) (N := ncol - 1) (X := bbV) hA.vprnm hA.vpos le_rfl [amp]
  cases h2 with
  | cons ha h2 =>
  cases h2
  rename_i r
  have hr : r = none := by
    rcases hout with h | h
    · exact ha.left h
    · exact ha.right h
  subst hr
  unfold constantH1
  rw [Nhc_ok hVA.nodup]
  simp only
  rw [if_neg (not_not.2 hcol)]
  unfold vprnmSuper
  rw [Nhc_ok hRA.nodup]
  simp only
  rw [vprnmPoint_value hI hcol hA ha, ampIndex_value hI.vs hI.mem hI.one_le (by omega)]
  simp only [Option.map_none]
  rw [superPoint_nan hI hA]
  simp only
  rw [if_neg hRA.ne]

/-- C97: a superharmonic amplitude that the superharmonic backbone does not reach is a `ValueError`. -/
theorem C97_super_range (hI : H1Input N hF hR hV rhi Mr bbR Mv ncol bbV)
    (hcol : ncol = numCoeff hV * N + 4 ∨ ncol = numCoeff hV * N + 2)
    (hA : H1Increasing N Mf bbF hF Mr bbR hR Mv bbV hV c1 cr) {extra : Option (List ℝ)} {pV : ℕ → ℝ}
    (hVp : LinearAt Mv (fun k => ‖pointHarmonic hV N c1 (bbV k) 1‖) bbV amp (some pV))
    (hout : ‖pointHarmonic hV N cr pV rhi‖ < rowAmp hR N cr bbR 0 ∨
      rowAmp hR N cr bbR (Mr - 1) < ‖pointHarmonic hV N cr pV rhi‖) :
    constantH1 N Mf bbF hF Mr bbR hR ncol Mv bbV hV rhi c1 amp cr Fl extra correct = .error .value := by
  have hRA := sorted_admissible hI.rs hI.r1
  have hVA := sorted_admissible hI.vs hI.v1
  obtain ⟨out, h1, h2⟩ := C60_linear (M := Mr) (N := numCoeff hR * N + 2) (X := ampTable (numCoeff hR * N) bbR) hA.super hA.rpos
    le_rfl [‖pointHarmonic hV N cr pV rhi‖]
  cases h2 with
  | cons ha h2 =>
  cases h2
  rename_i r
  have hr : r = none := by
    rcases hout with h | h
    · exact ha.left h
    · exact ha.right h
  subst hr
  unfold constantH1
  rw [Nhc_ok hVA.nodup]
  simp only
  rw [if_neg (not_not.2 hcol)]
  unfold vprnmSuper
  rw [Nhc_ok hRA.nodup]
  simp only
  rw [vprnmPoint_value hI hcol hA hVp, ampIndex_value hI.vs hI.mem hI.one_le (by omega)]
  simp only [Option.map_some]
  rw [harmAmp_point hI.vs hI.mem hI.one_le, mul_one, superPoint_value hI hA ha]
  simp only
  rw [if_neg hRA.ne]

/-- C97: amplitudes of the VPRNM backbone that do not increase are rejected. -/
theorem C97_rejected (hI : H1Input N hF hR hV rhi Mr bbR Mv ncol bbV)
    (hcol : ncol = numCoeff hV * N + 4 ∨ ncol = numCoeff hV * N + 2) {extra : Option (List ℝ)}
    (hdec : ∃ k, k + 1 < Mv ∧ ‖pointHarmonic hV N c1 (bbV (k + 1)) 1‖ ≤ ‖pointHarmonic hV N c1 (bbV k) 1‖) :
    constantH1 N Mf bbF hF Mr bbR hR ncol Mv bbV hV rhi c1 amp cr Fl extra correct = .error .assertion := by
  have hRA := sorted_admissible hI.rs hI.r1
  have hVA := sorted_admissible hI.vs hI.v1
  have e : vprnmPoint N ncol Mv bbV hV c1 amp = .error .assertion := by
    unfold vprnmPoint
    rw [ampIndex_value hI.vs hI.v1.mem le_rfl (by omega)]
    simp only
    refine firstRow_rejected ?_
    obtain ⟨k, hk, h⟩ := hdec
    refine ⟨k, hk, ?_⟩
    rw [harmAmp_point hI.vs hI.v1.mem le_rfl, harmAmp_point hI.vs hI.v1.mem le_rfl, mul_one, mul_one]
    exact h
  unfold constantH1
  rw [Nhc_ok hVA.nodup]
  simp only
  rw [if_neg (not_not.2 hcol)]
  unfold vprnmSuper
  rw [Nhc_ok hRA.nodup]
  simp only
  rw [e]

/-- C97: an amplitude that the backbone of the fundamental does not reach gives a result without forces (NaN). -/
theorem C97_fund_range (hI : H1Input N hF hR hV rhi Mr bbR Mv ncol bbV) {extra : Option (List ℝ)} {out : VprnmRom}
    (ho : constantH1 N Mf bbF hF Mr bbR hR ncol Mv bbV hV rhi c1 amp cr Fl extra correct = .ok out)
    (hout : amp < rowAmp hF N c1 bbF 0 ∨ rowAmp hF N c1 bbF (Mf - 1) < amp) :
    out.force = out.Om.map fun _ => none := by
  have hFA := sorted_admissible hI.fs hI.f1
  have hVA := sorted_admissible hI.vs hI.v1
  obtain ⟨pV, s, fund, -, e1, e2, rfl⟩ := constantH1_ok hVA.nodup hFA.nodup ho
  rcases fundPart_ok hFA.ne e2 with ⟨rfl, -⟩ | ⟨f, pt, hcd, -⟩
  · rfl
  · exfalso
    obtain ⟨p0, m1, m2, m3, -⟩ := constantDisplacement_ok hcd
    have hr := m3.range
    rw [romAmp_rowAmp hI.f1, romAmp_rowAmp hI.f1] at hr
    rcases hout with h | h <;> linarith [hr.1, hr.2]

end

end TMD
