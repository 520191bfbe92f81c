import Verif.Lemmas.VprnmRomExtra
import Verif.Props.VprnmRomExample

/-! # Extra frequencies of the VPRNM reduced order model -/

namespace TMD

open Spec Finset

noncomputable section

variable {N Mf : ℕ} {bbF : ℕ → ℕ → ℝ} {hF : List ℕ} {Mr : ℕ} {bbR : ℕ → ℕ → ℝ} {hR : List ℕ} {ncol Mv : ℕ}
  {bbV : ℕ → ℕ → ℝ} {hV : List ℕ} {rhi : ℕ} {c1 : ℕ → ℝ} {amp : ℝ} {cr Fl : ℕ → ℝ} {correct : Bool}

/-- C98: with extra frequencies the rows of the result without them reappear unchanged, with the same forces; the
frequencies are those of that result and the extra ones in order; in between the displacements are interpolated linearly in the
frequency; beyond the first and last frequency the superharmonic part is NaN; without correction the force is that of the
fundamental at each frequency. -/
theorem C98_extra (hI : H1Input N hF hR hV rhi Mr bbR Mv ncol bbV) {ex : List ℝ} {out' : VprnmRom}
    (hr0 : rowAmp hF N c1 bbF 0 ≤ amp) (hr1 : amp ≤ rowAmp hF N c1 bbF (Mf - 1))
    (ho : constantH1 N Mf bbF hF Mr bbR hR ncol Mv bbV hV rhi c1 amp cr Fl (some ex) correct = .ok out') :
    ∃ out, constantH1 N Mf bbF hF Mr bbR hR ncol Mv bbV hV rhi c1 amp cr Fl none correct = .ok out ∧ out'.h = out.h ∧
      out'.Om.Pairwise (· ≤ ·) ∧ out'.Om.Perm (ex ++ out.Om) ∧
      (∀ k, k + 1 < out.Om.length → out.Om.getD k 0 < out.Om.getD (k + 1) 0) ∧
      out'.U.length = out'.Om.length ∧ out'.force.length = out'.Om.length ∧
      (∀ j < out'.Om.length, ∀ k < out.Om.length, out'.Om.getD j 0 = out.Om.getD k 0 →
        out'.U.getD j (fun _ => none) = out.U.getD k (fun _ => none) ∧ out'.force.getD j none = out.force.getD k none) ∧
      (∀ j < out'.Om.length, ∀ k, k + 1 < out.Om.length → out.Om.getD k 0 ≤ out'.Om.getD j 0 →
        out'.Om.getD j 0 ≤ out.Om.getD (k + 1) 0 → ∃ V' V W : ℕ → ℝ,
        (∀ i, out'.U.getD j (fun _ => none) i = some (V' i)) ∧ (∀ i, out.U.getD k (fun _ => none) i = some (V i)) ∧
        (∀ i, out.U.getD (k + 1) (fun _ => none) i = some (W i)) ∧
        ∀ d < N, ∀ τ : ℝ, (out.Om.getD (k + 1) 0 - out.Om.getD k 0) * series out.h (fun r => V' (r * N + d)) τ
          = (out.Om.getD (k + 1) 0 - out'.Om.getD j 0) * series out.h (fun r => V (r * N + d)) τ
            + (out'.Om.getD j 0 - out.Om.getD k 0) * series out.h (fun r => W (r * N + d)) τ) ∧
      (∀ j < out'.Om.length, out'.Om.getD j 0 < out.Om.getD 0 0 ∨ out.Om.getD (out.Om.length - 1) 0 < out'.Om.getD j 0 →
        ∀ k ∈ hR, 1 ≤ k → ∀ s < 2, ∀ d < N,
          out'.U.getD j (fun _ => none) ((numCoeff (out.h.filter fun m => m < k * rhi) + s) * N + d) = none) ∧
      (correct = false → ∃ f pt, constantDisplacement Mf N (numCoeff hF * N) hF bbF Fl c1 amp none none = .ok (some (f, pt)) ∧
        out'.force = out'.Om.map fun o => some (f o)) := by
  have hFA := sorted_admissible hI.fs hI.f1
  have hRA := sorted_admissible hI.rs hI.r1
  have hVA := sorted_admissible hI.vs hI.v1
  have hrpos : (0 : ℝ) < rhi := by exact_mod_cast hI.one_le
  obtain ⟨pV, s, fund, hcol, e1, e2, rfl⟩ := constantH1_ok hVA.nodup hFA.nodup ho
  obtain ⟨rows, q, i, hlen, hi, e3, e4⟩ := vprnmSuper_rows hRA e1
  have hE := superExtra_ok hlen hi e3
  set n := numCoeff hR * N with hn
  set X : ℕ → ℕ → ℝ := fun k => rows.getD k (fun _ => 0) with hX
  set hO := outHarmonics hV hF hR rhi with hOd
  obtain ⟨f, p2, rfl, pt, hcd⟩ : ∃ f p2, fund = some (f, p2) ∧ ∃ pt,
      constantDisplacement Mf N (numCoeff hF * N) hF bbF Fl c1 amp none none = .ok (some (f, pt)) := by
    rcases fundPart_ok hFA.ne e2 with ⟨-, hnone⟩ | ⟨f, pt, hcd, rfl⟩
    · exfalso
      have hok := displacement_increasing hI.f1 hnone
      obtain ⟨f, pt, hcd⟩ := C64_returns (M := Mf) (Ndof := N) (n := numCoeff hF * N) (h := hF) (bb := bbF) (Flcos := Fl)
        (ctrl := c1) (amp := amp) (w := none) (zeta := none) hFA.ne hok.1
        (fun k hk => by rw [romAmp_rowAmp hI.f1, romAmp_rowAmp hI.f1]; exact hok.2 k hk)
        (by rw [romAmp_rowAmp hI.f1]; exact hr0) (by rw [romAmp_rowAmp hI.f1]; exact hr1)
      rw [hcd] at hnone
      cases hnone
    · exact ⟨f, _, rfl, pt, hcd⟩
  set base : VprnmRom := ⟨(rows.map some).map fun u => assembleRow N hV hF hR hO rhi pV (some p2) u,
      (rows.map fun r => r n).map fun w => w / (rhi : ℝ), forceOut correct (vprnmForce ncol (numCoeff hV * N) pV) (some f)
        ((rows.map fun r => r n).map fun w => w / (rhi : ℝ)) q i, hO⟩ with hbase
  have hb : constantH1 N Mf bbF hF Mr bbR hR ncol Mv bbV hV rhi c1 amp cr Fl none correct = .ok base := by
    unfold constantH1
    rw [Nhc_ok hVA.nodup]
    simp only
    rw [if_neg (not_not.2 hcol), e4 none]
    simp only [superExtra, Except.map]
    rw [Nhc_ok hFA.nodup]
    simp only
    rw [e2]
    rfl
  have hlU : s.w.length = s.U.length := hE.interp.length_eq
  have bOm : ∀ k < rows.length, base.Om.getD k 0 = X k n / rhi := by
    intro k hk
    simp only [hbase, hX]
    rw [List.getD_eq_getElem _ _ (by simpa using hk), List.getElem_map, List.getElem_map, List.getD_eq_getElem _ _ hk]
  have bU : ∀ k < rows.length, base.U.getD k (fun _ => none) = assembleRow N hV hF hR hO rhi pV (some p2) (some (X k)) := by
    intro k hk
    simp only [hbase, hX]
    rw [List.getD_eq_getElem _ _ (by simpa using hk), List.getElem_map, List.getElem_map, List.getD_eq_getElem _ _ hk]
  have oOm : ∀ j < s.w.length, (s.w.map fun w => w / (rhi : ℝ)).getD j 0 = s.w.getD j 0 / rhi := by
    intro j hj
    rw [List.getD_eq_getElem _ _ (by simpa using hj), List.getElem_map, List.getD_eq_getElem _ _ hj]
  have oU : ∀ j < s.w.length, (s.U.map fun u => assembleRow N hV hF hR hO rhi pV (some p2) u).getD j (fun _ => none)
      = assembleRow N hV hF hR hO rhi pV (some p2) (s.U.getD j none) := by
    intro j hj
    rw [List.getD_eq_getElem _ _ (by simpa [← hlU] using hj), List.getElem_map, List.getD_eq_getElem _ _ (by omega)]
  have hlin : ∀ j < s.w.length, LinearAt rows.length (fun k => X k n) X (s.w.getD j 0) (s.U.getD j none) := by
    intro j hj
    rw [List.getD_eq_getElem _ _ hj, List.getD_eq_getElem _ _ (by omega)]
    exact List.Forall₂.get hE.interp hj (by omega)
  have bl : base.Om.length = rows.length := by simp [hbase]
  refine ⟨base, hb, rfl, ?_, ?_, ?_, ?_, ?_, ?_, ?_, ?_, ?_⟩
  · simp only
    rw [List.pairwise_map]
    exact hE.sorted.imp fun h => div_le_div_of_nonneg_right h hrpos.le
  · simp only [hbase]
    have := hE.perm.map fun w => w / (rhi : ℝ)
    rw [List.map_append, List.map_map] at this
    have e : (ex.map ((fun w => w / (rhi : ℝ)) ∘ fun e => (rhi : ℝ) * e)) = ex := by
      conv_rhs => rw [← List.map_id ex]
      refine List.map_congr_left fun x _ => ?_
      simp only [Function.comp, id]
      exact mul_div_cancel_left₀ _ hrpos.ne'
    rwa [e] at this
  · intro k hk
    rw [bl] at hk
    rw [bOm k (by omega), bOm _ hk]
    exact div_lt_div_of_pos_right (hE.inc k hk) hrpos
  · simp [hlU]
  · simp only [Option.map_some, forceOut]
    cases correct <;> simp [hE.qlen]
  · intro j hj k hk e
    simp only [List.length_map] at hj
    rw [bl] at hk
    simp only at e
    rw [oOm j hj, bOm k hk, div_left_inj' hrpos.ne'] at e
    constructor
    · simp only [Option.map_some]
      rw [oU j hj, bU k hk, (hlin j hj).node k hk e]
    · simp only [Option.map_some, hbase]
      have e' : (s.w.map fun w => w / (rhi : ℝ)).getD j 0 = ((rows.map fun r => r n).map fun w => w / (rhi : ℝ)).getD k 0 := by
        rw [oOm j hj, e]
        exact (bOm k hk).symm
      have hpk : (s.w.map fun w => w / (rhi : ℝ)).getD s.peak 0
          = ((rows.map fun r => r n).map fun w => w / (rhi : ℝ)).getD i 0 := by
        rw [oOm _ hE.peak.1, hE.peak.2]
        exact (bOm i hi).symm
      have hqj := hE.qnode j hj k hk e
      unfold forceOut
      cases correct with
      | false =>
        simp only [Bool.false_eq_true, if_false]
        have mapD : ∀ (l : List ℝ) (a : ℕ), a < l.length → (l.map fun o => some (f o)).getD a none = some (f (l.getD a 0)) := by
          intro l a ha
          rw [List.getD_eq_getElem _ _ (by simpa using ha), List.getElem_map, List.getD_eq_getElem _ _ ha]
        rw [mapD _ _ (by simpa using hj), mapD _ _ (by simpa using hk), e']
      | true =>
        simp only [if_true]
        rw [hE.qmax, hpk]
        have h1 : j < s.q.length := by rw [hE.qlen]; exact hj
        have h2 : k < q.length := by omega
        have zipD : ∀ (g : ℝ → ℝ → Option ℝ) (l r : List ℝ) (a : ℕ), a < l.length → a < r.length →
            (List.zipWith g l r).getD a none = g (l.getD a 0) (r.getD a 0) := by
          intro g l r a hl hr
          rw [List.getD_eq_getElem _ _ (by simpa using ⟨hl, hr⟩), List.getElem_zipWith, List.getD_eq_getElem _ _ hl,
            List.getD_eq_getElem _ _ hr]
        rw [zipD _ _ _ _ (by simpa using hj) h1, zipD _ _ _ _ (by simpa using hk) h2, e', hqj]
  · intro j hj k hk h1 h2
    simp only [List.length_map] at hj
    rw [bl] at hk
    simp only at h1 h2
    rw [oOm j hj, bOm k (by omega), div_le_div_iff_of_pos_right hrpos] at h1
    rw [oOm j hj, bOm _ hk, div_le_div_iff_of_pos_right hrpos] at h2
    obtain ⟨row, er, hrow⟩ := (hlin j hj).segment k hk h1 h2
    obtain ⟨V', a1, a2⟩ := assemble_coef (N := N) (hV := hV) hI.fs hI.rs hI.one_le pV p2 row
    obtain ⟨V, b1, b2⟩ := assemble_coef (N := N) (hV := hV) hI.fs hI.rs hI.one_le pV p2 (X k)
    obtain ⟨W, c1', c2⟩ := assemble_coef (N := N) (hV := hV) hI.fs hI.rs hI.one_le pV p2 (X (k + 1))
    refine ⟨V', V, W, fun i => ?_, fun i => ?_, fun i => ?_, fun d hd τ => ?_⟩
    · simp only [Option.map_some]
      rw [oU j hj, er]
      exact a1 i
    · rw [bU k (by omega)]
      exact b1 i
    · rw [bU _ hk]
      exact c1' i
    · simp only
      rw [oOm j hj, bOm k (by omega), bOm _ hk]
      show (X (k + 1) n / rhi - X k n / rhi) * series (outHarmonics hV hF hR rhi) _ τ
        = (X (k + 1) n / rhi - s.w.getD j 0 / rhi) * series (outHarmonics hV hF hR rhi) _ τ
          + (s.w.getD j 0 / rhi - X k n / rhi) * series (outHarmonics hV hF hR rhi) _ τ
      rw [assemble_series hI.fs hI.rs hI.one_le (a2 d hd).1 (a2 d hd).2,
        assemble_series hI.fs hI.rs hI.one_le (b2 d hd).1 (b2 d hd).2,
        assemble_series hI.fs hI.rs hI.one_le (c2 d hd).1 (c2 d hd).2]
      have hosc : (X (k + 1) n - X k n) * oscillation hR (fun r => row (r * N + d)) (rhi * τ)
          = (X (k + 1) n - s.w.getD j 0) * oscillation hR (fun r => X k (r * N + d)) (rhi * τ)
            + (s.w.getD j 0 - X k n) * oscillation hR (fun r => X (k + 1) (r * N + d)) (rhi * τ) := by
        have lin : ∀ (a : ℝ) (c : ℕ → ℝ), a * oscillation hR c (rhi * τ) = oscillation hR (fun r => a * c r) (rhi * τ) := by
          intro a c
          exact (oscillation_scaled hRA.zero_first a c _ (fun r _ _ => rfl) _).symm
        rw [lin, lin, lin]
        unfold oscillation
        rw [coefOf_zero hRA.zero_first, coefOf_zero hRA.zero_first, coefOf_zero hRA.zero_first]
        have e : (fun r => (X (k + 1) n - X k n) * row (r * N + d))
            = fun r => (X (k + 1) n - s.w.getD j 0) * X k (r * N + d) + (s.w.getD j 0 - X k n) * X (k + 1) (r * N + d) :=
          funext fun r => hrow (r * N + d)
        rw [e, series_add]
        simp only [meanCoef]
        split_ifs <;> ring
      have hgoal : ∀ A B z o1 o2 o3 o4 v, (B - A) * o2 = (B - v) * o3 + (v - A) * o4 →
          (B / (rhi:ℝ) - A / rhi) * (z + o1 + o2) = (B / rhi - v / rhi) * (z + o1 + o3) + (v / rhi - A / rhi) * (z + o1 + o4) := by
        intro A B z o1 o2 o3 o4 v h
        field_simp
        linarith
      exact hgoal _ _ _ _ _ _ _ _ hosc
  · intro j hj hout k hk hk1 s' hs' d hd
    simp only [List.length_map] at hj
    have hm : 0 < rows.length := by omega
    have hnone : s.U.getD j none = none := by
      simp only at hout
      rw [oOm j hj, bl, bOm 0 hm, bOm _ (by omega : rows.length - 1 < rows.length), div_lt_div_iff_of_pos_right hrpos,
        div_lt_div_iff_of_pos_right hrpos] at hout
      rcases hout with h | h
      · exact (hlin j hj).left h
      · exact (hlin j hj).right h
    simp only [Option.map_some]
    rw [oU j hj, hnone]
    exact assemble_nan hI.rs hI.one_le pV _ hk hk1 hs' hd
  · intro hc
    subst hc
    exact ⟨f, pt, hcd, rfl⟩

/-- C98: with increasing frequencies the extra frequencies are accepted. -/
theorem C98_returns (hI : H1Input N hF hR hV rhi Mr bbR Mv ncol bbV) {out : VprnmRom}
    (ho : constantH1 N Mf bbF hF Mr bbR hR ncol Mv bbV hV rhi c1 amp cr Fl none correct = .ok out)
    (hinc : ∀ k, k + 1 < out.Om.length → out.Om.getD k 0 < out.Om.getD (k + 1) 0) (ex : List ℝ) :
    ∃ out', constantH1 N Mf bbF hF Mr bbR hR ncol Mv bbV hV rhi c1 amp cr Fl (some ex) correct = .ok out' := by
  have hFA := sorted_admissible hI.fs hI.f1
  have hRA := sorted_admissible hI.rs hI.r1
  have hVA := sorted_admissible hI.vs hI.v1
  have hrpos : (0 : ℝ) < rhi := by exact_mod_cast hI.one_le
  obtain ⟨pV, s, fund, hcol, e1, e2, rfl⟩ := constantH1_ok hVA.nodup hFA.nodup ho
  obtain ⟨rows, q, i, hlen, hi, e3, e4⟩ := vprnmSuper_rows hRA e1
  cases e3
  obtain ⟨U, u1, -⟩ := C60_linear (M := rows.length) (N := numCoeff hR * N) (X := fun k => rows.getD k (fun _ => 0))
    (ref := fun k => rows.getD k (fun _ => 0) (numCoeff hR * N)) (fun k hk => by
      have := hinc k (by simpa using hk)
      have key : ∀ k < rows.length, ((rows.map fun r => r (numCoeff hR * N)).map fun w => w / (rhi : ℝ)).getD k 0
          = rows.getD k (fun _ => 0) (numCoeff hR * N) / rhi := by
        intro k hk
        rw [List.getD_eq_getElem _ _ (by simpa using hk), List.getElem_map, List.getElem_map, List.getD_eq_getElem _ _ hk]
      simp only at this
      rw [key k (by omega), key _ hk] at this
      exact (div_lt_div_iff_of_pos_right hrpos).1 this) (by omega) le_rfl
    ((ex.map (fun e => (rhi : ℝ) * e) ++ rows.map fun r => r (numCoeff hR * N)).mergeSort (fun a b => decide (a ≤ b)))
  have e5 := e4 (some ex)
  unfold superExtra at e5
  simp only at e5
  rw [C60_default, u1] at e5
  simp only [Except.map] at e5
  unfold constantH1
  rw [Nhc_ok hVA.nodup]
  simp only
  rw [if_neg (not_not.2 hcol), e5]
  simp only
  rw [Nhc_ok hFA.nodup]
  simp only
  rw [e2]
  exact ⟨_, rfl⟩

/-- C98: frequencies that do not increase are an `AssertionError` when extra frequencies are given. -/
theorem C98_rejected (hI : H1Input N hF hR hV rhi Mr bbR Mv ncol bbV) {out : VprnmRom}
    (ho : constantH1 N Mf bbF hF Mr bbR hR ncol Mv bbV hV rhi c1 amp cr Fl none correct = .ok out)
    (hinc : ∃ k, k + 1 < out.Om.length ∧ out.Om.getD (k + 1) 0 ≤ out.Om.getD k 0) (ex : List ℝ) :
    constantH1 N Mf bbF hF Mr bbR hR ncol Mv bbV hV rhi c1 amp cr Fl (some ex) correct = .error .assertion := by
  have hFA := sorted_admissible hI.fs hI.f1
  have hRA := sorted_admissible hI.rs hI.r1
  have hVA := sorted_admissible hI.vs hI.v1
  have hrpos : (0 : ℝ) < rhi := by exact_mod_cast hI.one_le
  obtain ⟨pV, s, fund, hcol, e1, e2, rfl⟩ := constantH1_ok hVA.nodup hFA.nodup ho
  obtain ⟨rows, q, i, hlen, hi, e3, e4⟩ := vprnmSuper_rows hRA e1
  cases e3
  have key : ∀ k < rows.length, ((rows.map fun r => r (numCoeff hR * N)).map fun w => w / (rhi : ℝ)).getD k 0
      = rows.getD k (fun _ => 0) (numCoeff hR * N) / rhi := by
    intro k hk
    rw [List.getD_eq_getElem _ _ (by simpa using hk), List.getElem_map, List.getElem_map, List.getD_eq_getElem _ _ hk]
  obtain ⟨k, hk, hle⟩ := hinc
  simp only [List.length_map] at hk hle
  rw [key k (by omega), key _ hk] at hle
  have e5 := e4 (some ex)
  unfold superExtra at e5
  simp only at e5
  rw [C60_default, C60_rejected ⟨k, hk, (div_le_div_iff_of_pos_right hrpos).1 hle⟩] at e5
  simp only [Except.map] at e5
  unfold constantH1
  rw [Nhc_ok hVA.nodup]
  simp only
  rw [if_neg (not_not.2 hcol), e5]

/-- The response of the superharmonic mode of the example. -/
theorem ex_frc {frc : List RomPoint} (h : superFrc 1 2 1 exR [1] (ampTable 2 exR 0) 3 = .ok frc) :
    frc.map (fun x => x.1 2) = [12 / 5, 3] := by
  have hA : Admissible [1] := sorted_admissible (by simp) ⟨[], .inl rfl⟩
  have hnum : numCoeff [1] * 1 = 2 := by simp [numCoeff]
  have hkept : superKept 2 1 exR (ampTable 2 exR 0 (2 + 2)) = [] := by
    unfold superKept ampTable
    simp [List.range_succ]
  unfold superFrc at h
  simp only at h
  rw [hkept] at h
  have hc := constantForce_projected (h := [1]) (Ndof := 1) (M := ([] : List ℕ).length + 1)
    (bb := superBB 2 exR [] (ampTable 2 exR 0)) hA (some (superW 2 exR [] (ampTable 2 exR 0) 3))
    (some fun j => superBB 2 exR [] (ampTable 2 exR 0) j (2 + 1) / (2 * superBB 2 exR [] (ampTable 2 exR 0) j 2))
    (fun _ => 2 * ampTable 2 exR 0 (2 + 2) * (3 : ℝ) ^ 2 * (ampTable 2 exR 0 (2 + 1) / (2 * ampTable 2 exR 0 2)))
    (fun _ => 0)
  simp only [hnum] at hc
  rw [hc] at h
  cases h
  have hcand : romCandidates (([] : List ℕ).length + 1) (romFreq (superBB 2 exR [] (ampTable 2 exR 0)) 2
      (some (superW 2 exR [] (ampTable 2 exR 0) 3)))
      (romDamp (superBB 2 exR [] (ampTable 2 exR 0)) 2 (some (superW 2 exR [] (ampTable 2 exR 0) 3))
        (some fun j => superBB 2 exR [] (ampTable 2 exR 0) j (2 + 1) / (2 * superBB 2 exR [] (ampTable 2 exR 0) j 2)))
      (fun _ => 2 * ampTable 2 exR 0 (2 + 2) * (3 : ℝ) ^ 2 * (ampTable 2 exR 0 (2 + 1) / (2 * ampTable 2 exR 0 2)))
      (fun _ => 0) (fun k => (10 : ℝ) ^ superBB 2 exR [] (ampTable 2 exR 0) k (2 + 2)) = [(0, 9), (0, 144 / 25)] := by
    have w0 : romFreq (superBB 2 exR [] (ampTable 2 exR 0)) 2 (some (superW 2 exR [] (ampTable 2 exR 0) 3)) 0 = 3 := by
      simp [romFreq, superW]
    have z0 : romDamp (superBB 2 exR [] (ampTable 2 exR 0)) 2 (some (superW 2 exR [] (ampTable 2 exR 0) 3))
        (some fun j => superBB 2 exR [] (ampTable 2 exR 0) j (2 + 1) / (2 * superBB 2 exR [] (ampTable 2 exR 0) j 2)) 0
        = 3 / 10 := by
      simp [romDamp, superBB, ampTable, exR]
      norm_num
    have q0 : (10 : ℝ) ^ superBB 2 exR [] (ampTable 2 exR 0) 0 (2 + 2) = 1 := by
      simp [superBB, ampTable, exR]
    have p0 : 2 * ampTable 2 exR 0 (2 + 2) * (3 : ℝ) ^ 2 * (ampTable 2 exR 0 (2 + 1) / (2 * ampTable 2 exR 0 2)) = 27 / 5 := by
      simp [ampTable, exR]
      norm_num
    unfold romCandidates
    simp only [List.length_nil, zero_add, List.range_one, List.map_cons, List.map_nil, List.reverse_cons, List.reverse_nil,
      List.nil_append, List.cons_append, w0, z0, q0, p0]
    have s0 : Real.sqrt ((27 / 5 : ℝ) ^ 2 + 0 ^ 2) = 27 / 5 := by
      rw [show ((27 / 5 : ℝ) ^ 2 + 0 ^ 2) = (27 / 5) ^ 2 by norm_num]
      exact Real.sqrt_sq (by norm_num)
    have arg0 : ((3 : ℝ) ^ 2 - 2 * (3 / 10 * 3) ^ 2) ^ 2 - 3 ^ 4 + (27 / 5) ^ 2 / 1 ^ 2 = (81 / 50) ^ 2 := by norm_num
    rw [s0, arg0, if_pos (by positivity), Real.sqrt_sq (by norm_num)]
    rw [List.filter_cons_of_pos, List.filter_cons_of_pos, List.filter_nil]
    · norm_num
    · simp only [w0, z0, q0, arg0]
      norm_num
    · simp only [w0, z0, q0, arg0]
      norm_num
  rw [hcand]
  have col : ∀ (φ Om : ℝ), rsp (romShape 2 1 [1] (superBB 2 exR [] (ampTable 2 exR 0))
      (fun k => (10 : ℝ) ^ superBB 2 exR [] (ampTable 2 exR 0) k (2 + 2)) 0 Om) 1 [1] φ 1 2 = Om := by
    intro φ Om
    rw [rsp_last hA _ _ (by rw [hnum])]
    simp [romShape]
  simp only [List.map_cons, List.map_nil, List.reverse_cons, List.reverse_nil, List.nil_append, List.cons_append]
  rw [col, col, show (144 / 25 : ℝ) = (12 / 5) ^ 2 by norm_num, show (9 : ℝ) = 3 ^ 2 by norm_num, Real.sqrt_sq (by norm_num),
    Real.sqrt_sq (by norm_num)]

/-- The frequencies of the example are 4/5 and 1. -/
theorem ex_frequencies {out : VprnmRom}
    (ho : constantH1 1 2 romBB [1] 1 exR [1] 6 2 exV [1, 3] 3 (fun _ => 1) (7 / 2) (fun _ => 1) (fun _ => 1) none correct = .ok out) :
    out.Om = [4 / 5, 1] := by
  obtain ⟨pV, pF, pR, f, frc, i, p1, φF, φS, hP, -, -, -, -, -, -, -, hfrc, -, -, -, rfl⟩ :=
    h1_parts ex_input (by rw [exF_amp]; norm_num) (by rw [exF_amp]; norm_num) ho
  obtain ⟨row, e, hp⟩ := hP.vprnm.segment 0 (by norm_num) (by rw [exV_amp]; norm_num) (by rw [exV_amp]; norm_num)
  cases e
  have h2 := hp 2
  have h3 := hp 3
  have h4 := hp 4
  rw [exV_amp, exV_amp] at h2 h3 h4
  simp [exV] at h2 h3 h4
  have e2 : pV 2 = 1 := by linarith
  have e4 : pV 4 = 1 := by linarith
  have e3 : pV 3 = 0 := by rcases h3 with h | h; exacts [absurd h (by norm_num), h]
  have hR := hP.super.node 0 (by norm_num) (by rw [exV_third _ e3 (by rw [e2]; norm_num), exR_amp]; exact e2)
  cases hR
  have h34 : ((3 : ℕ) : ℝ) * pV (6 - 2) = 3 := by
    show ((3 : ℕ) : ℝ) * pV 4 = 3
    rw [e4]; norm_num
  rw [h34] at hfrc
  have hf := ex_frc hfrc
  show frc.map (fun x => x.1 2 / ((3 : ℕ) : ℝ)) = _
  have : frc.map (fun x => x.1 2 / ((3 : ℕ) : ℝ)) = (frc.map fun x => x.1 2).map fun w => w / 3 := by simp
  rw [this, hf]
  norm_num

/-- C98 on this run: frequency 9/10 lies in the middle between the two frequencies. -/
example : ∃ out', constantH1 1 2 romBB [1] 1 exR [1] 6 2 exV [1, 3] 3 (fun _ => 1) (7 / 2) (fun _ => 1) (fun _ => 1)
    (some [9 / 10]) true = .ok out' ∧ out'.Om = [4 / 5, 9 / 10, 1] := by
  obtain ⟨out, ho⟩ := ex_returns (amp := 7 / 2) (by norm_num) (by norm_num) (fun _ => 1) true
  have hOm := ex_frequencies ho
  obtain ⟨out', ho'⟩ := C98_returns ex_input ho (fun k hk => by
    rw [hOm] at hk ⊢
    have : k = 0 := by simp at hk; omega
    subst this
    norm_num) [9 / 10]
  refine ⟨out', ho', ?_⟩
  obtain ⟨b, hb, -, hs, hp, -⟩ := C98_extra ex_input (by rw [exF_amp]; norm_num) (by rw [exF_amp]; norm_num) ho'
  rw [ho] at hb
  cases hb
  rw [hOm] at hp
  have hsort : [4 / 5, 9 / 10, (1 : ℝ)].Pairwise (· ≤ ·) := by norm_num
  refine List.Perm.eq_of_pairwise (le := (· ≤ ·)) (fun a b _ _ h1 h2 => le_antisymm h1 h2) hs hsort (hp.trans ?_)
  exact List.Perm.swap _ _ _

end

end TMD
