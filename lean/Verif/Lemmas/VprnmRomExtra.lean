import Verif.Props.VprnmRomReturns

/-! # Lemmas on extra frequencies of the VPRNM reduced order model -/

namespace TMD

open Spec Finset

noncomputable section

variable {N Mf : ℕ} {bbF : ℕ → ℕ → ℝ} {hF : List ℕ} {Mr : ℕ} {bbR : ℕ → ℕ → ℝ} {hR : List ℕ} {ncol Mv : ℕ}
  {bbV : ℕ → ℕ → ℝ} {hV : List ℕ} {rhi : ℕ} {c1 : ℕ → ℝ} {amp : ℝ} {cr Fl : ℕ → ℝ} {correct : Bool}

open Classical in
/-- In a sorted list the number of smaller entries is the index of an entry. -/
theorem sorted_index {l : List ℝ} (hs : l.Pairwise (· ≤ ·)) {v : ℝ} (hv : v ∈ l) :
    (l.filter fun x => decide (x < v)).length < l.length ∧ l.getD (l.filter fun x => decide (x < v)).length 0 = v := by
  induction l with
  | nil => simp at hv
  | cons a t ih =>
    rw [List.pairwise_cons] at hs
    by_cases ha : a < v
    · have hvt : v ∈ t := by
        rcases List.mem_cons.1 hv with rfl | h
        · exact absurd ha (lt_irrefl _)
        · exact h
      rw [List.filter_cons_of_pos (by simpa using ha)]
      obtain ⟨h1, h2⟩ := ih hs.2 hvt
      refine ⟨by simpa using h1, ?_⟩
      rw [List.length_cons, List.getD_cons_succ]
      exact h2
    · have hall : ∀ x ∈ t, ¬ x < v := fun x hx hlt => ha (lt_of_le_of_lt (hs.1 x hx) hlt)
      rw [List.filter_cons_of_neg (by simpa using ha), List.filter_eq_nil_iff.2 (by simpa using hall)]
      refine ⟨by simp, ?_⟩
      rw [List.length_nil, List.getD_cons_zero]
      rcases List.mem_cons.1 hv with h | h
      · exact h.symm
      · exact le_antisymm (hs.1 v h) (not_lt.1 ha)

open Classical in
/-- In a strictly increasing list the number of smaller entries is the index. -/
theorem increasing_count {l : List ℝ} (hs : l.Pairwise (· < ·)) {i : ℕ} (hi : i < l.length) :
    (l.filter fun x => decide (x < l.getD i 0)).length = i := by
  have h := sorted_index (hs.imp fun h => le_of_lt h) (v := l.getD i 0) (by
    rw [List.getD_eq_getElem _ _ hi]
    exact List.getElem_mem hi)
  have hn : l.Nodup := hs.imp fun h => ne_of_lt h
  generalize (l.filter fun x => decide (x < l.getD i 0)).length = c at h
  obtain ⟨hc, e⟩ := h
  rw [List.getD_eq_getElem _ _ hi, List.getD_eq_getElem _ _ hc] at e
  exact (List.Nodup.getElem_inj_iff hn).1 e

/-- The rows before extra frequencies are added. -/
theorem vprnmSuper_rows {extra : Option (List ℝ)} {pV : ℕ → ℝ} {s : SuperPart} (hRA : Admissible hR)
    (h : vprnmSuper N ncol Mv bbV hV Mr bbR hR rhi c1 amp cr extra = .ok (pV, s)) :
    ∃ rows q i, rows.length = q.length ∧ i < rows.length ∧ superExtra (numCoeff hR * N) rhi extra rows q i = .ok s ∧
      ∀ extra' : Option (List ℝ), vprnmSuper N ncol Mv bbV hV Mr bbR hR rhi c1 amp cr extra'
        = (superExtra (numCoeff hR * N) rhi extra' rows q i).map fun s => (pV, s) := by
  unfold vprnmSuper at h
  rw [Nhc_ok hRA.nodup] at h
  simp only at h
  cases e1 : vprnmPoint N ncol Mv bbV hV c1 amp with
  | error e => rw [e1] at h; cases h
  | ok pV? =>
  rw [e1] at h
  simp only at h
  cases e2 : ampIndex N ncol hV rhi with
  | error e => rw [e2] at h; cases h
  | ok pv =>
  rw [e2] at h
  simp only at h
  cases e3 : superPoint N (numCoeff hR * N) Mr bbR hR cr (pV?.map fun p => harmAmp N pv cr 1 p) with
  | error e => rw [e3] at h; cases h
  | ok pR? =>
  rw [e3] at h
  simp only at h
  rw [if_neg hRA.ne] at h
  cases pV? with
  | none => cases h
  | some pV' =>
  cases pR? with
  | none => cases h
  | some pR =>
  simp only at h
  cases e4 : superFrc N (numCoeff hR * N) Mr bbR hR pR (rhi * vprnmOm ncol pV') with
  | error e => rw [e4] at h; cases h
  | ok frc =>
  rw [e4] at h
  simp only at h
  cases e5 : superRotate N (numCoeff hR * N) hR cr pV' pv (rhi * vprnmOm ncol pV') (pR (numCoeff hR * N + 2)) frc with
  | error e => rw [e5] at h; cases h
  | ok ri =>
  obtain ⟨rows, i⟩ := ri
  rw [e5] at h
  simp only at h
  cases e6 : superExtra (numCoeff hR * N) rhi extra rows (frc.map fun x => x.2.1) i with
  | error e => rw [e6] at h; cases h
  | ok s' =>
  rw [e6] at h
  cases h
  have hrows : rows.length = frc.length ∧ i < frc.length := by
    unfold superRotate at e5
    cases f4 : npArgmin (frc.map fun x => |x.1 (numCoeff hR * N) - rhi * vprnmOm ncol pV|) with
    | none => rw [f4] at e5; cases e5
    | some i' =>
    rw [f4] at e5
    simp only at e5
    split_ifs at e5 with hq
    rw [mapE_ok (fun x : RomPoint => rsp_ok x.1 N hRA.ne _ 1)] at e5
    cases e5
    exact ⟨by simp, by simpa using (npArgmin_some f4).1⟩
  refine ⟨rows, _, i, by simpa using hrows.1, by rw [hrows.1]; exact hrows.2, e6, fun extra' => ?_⟩
  unfold vprnmSuper
  rw [Nhc_ok hRA.nodup]
  simp only
  rw [e1]
  simp only
  rw [e2]
  simp only
  rw [e3]
  simp only
  rw [if_neg hRA.ne, e4]
  simp only
  rw [e5]
  simp only
  cases superExtra (numCoeff hR * N) rhi extra' rows (frc.map fun x => x.2.1) i <;> rfl

/-- What the extra frequencies do to the superharmonic part. -/
structure ExtraOk (n rhi : ℕ) (ex : List ℝ) (rows : List (ℕ → ℝ)) (q : List ℝ) (i : ℕ) (s : SuperPart) : Prop where
  inc : ∀ k, k + 1 < rows.length → rows.getD k (fun _ => 0) n < rows.getD (k + 1) (fun _ => 0) n
  sorted : s.w.Pairwise (· ≤ ·)
  perm : s.w.Perm (ex.map (fun e => (rhi : ℝ) * e) ++ rows.map fun r => r n)
  interp : List.Forall₂ (LinearAt rows.length (fun k => rows.getD k (fun _ => 0) n) fun k => rows.getD k fun _ => 0) s.w s.U
  qlen : s.q.length = s.w.length
  qnode : ∀ j < s.w.length, ∀ k < rows.length, s.w.getD j 0 = rows.getD k (fun _ => 0) n → s.q.getD j 0 = q.getD k 0
  qmax : npMax s.q = npMax q
  peak : s.peak < s.w.length ∧ s.w.getD s.peak 0 = rows.getD i (fun _ => 0) n

theorem npMax_mem {l : List ℝ} (hl : l ≠ []) : npMax l ∈ l := by
  have key : ∀ (t : List ℝ) (a : ℝ), t.foldl max a = a ∨ t.foldl max a ∈ t := by
    intro t
    induction t with
    | nil => intro a; exact .inl rfl
    | cons b t ih =>
      intro a
      rw [List.foldl_cons]
      rcases ih (max a b) with h | h
      · rw [h]
        rcases max_choice a b with h' | h'
        · exact .inl h'
        · exact .inr (by rw [h']; exact List.mem_cons_self)
      · exact .inr (List.mem_cons_of_mem _ h)
  cases l with
  | nil => exact absurd rfl hl
  | cons a t =>
    unfold npMax
    rcases key (a :: t) ((a :: t).headD 0) with h | h
    · rw [h]; exact List.mem_cons_self
    · exact h

theorem le_npMax {l : List ℝ} {x : ℝ} (hx : x ∈ l) : x ≤ npMax l := le_foldl_max (.inr hx)

/-- Interpolated values do not exceed a bound of the nodes. -/
theorem npInterp_le {m : ℕ} {xp fp : ℕ → ℝ} (h : diffPos m xp) (hm : 0 < m) {b : ℝ} (hb : ∀ k < m, fp k ≤ b) (v : ℝ) :
    (npInterp m xp fp (some (fp 0)) (some (fp (m - 1))) v).getD 0 ≤ b := by
  by_cases h0 : v < xp 0
  · unfold npInterp
    rw [if_pos h0]
    exact hb 0 hm
  · by_cases h1 : xp (m - 1) < v
    · unfold npInterp
      rw [if_neg h0, if_pos h1]
      exact hb _ (by omega)
    · obtain ⟨j, hj, hj1, hj2⟩ := exists_bracket hm (not_lt.1 h0)
      by_cases hl : j + 1 < m
      · rw [npInterp_bracket h hl hj1 (hj2 hl), Option.getD_some]
        have hd := h j hl
        have ht0 : 0 ≤ (v - xp j) / (xp (j + 1) - xp j) := div_nonneg (sub_nonneg.2 hj1) hd.le
        have ht1 : (v - xp j) / (xp (j + 1) - xp j) ≤ 1 := by
          rw [div_le_one hd]
          linarith [hj2 hl]
        have a := hb j hj
        have c := hb (j + 1) hl
        nlinarith
      · have : j = m - 1 := by omega
        subst this
        have hv : v = xp (m - 1) := le_antisymm (not_lt.1 h1) hj1
        rw [hv, npInterp_last h hm]
        exact hb _ hj

theorem superExtra_ok {n : ℕ} {ex : List ℝ} {rows : List (ℕ → ℝ)} {q : List ℝ} {i : ℕ} {s : SuperPart}
    (hq : rows.length = q.length) (hi : i < rows.length) (h : superExtra n rhi (some ex) rows q i = .ok s) :
    ExtraOk n rhi ex rows q i s := by
  classical
  have hm : 0 < rows.length := by omega
  unfold superExtra at h
  simp only at h
  set w := rows.map fun r => r n with hw
  set new := (ex.map (fun e => (rhi : ℝ) * e) ++ w).mergeSort (fun a b => decide (a ≤ b)) with hnew
  set X : ℕ → ℕ → ℝ := fun k => rows.getD k (fun _ => 0) with hX
  have hwX : ∀ k < rows.length, w.getD k 0 = X k n := by
    intro k hk
    rw [hw, List.getD_eq_getElem _ _ (by simpa using hk), List.getElem_map, hX]
    simp only
    rw [List.getD_eq_getElem _ _ hk]
  by_cases hinc : ∀ k, k + 1 < rows.length → X k n < X (k + 1) n
  · obtain ⟨U, e1, e2⟩ := C60_linear (M := rows.length) (N := n) (X := X) (ref := fun k => X k n) hinc hm le_rfl new
    rw [C60_default, e1] at h
    simp only [Except.ok.injEq] at h
    subst h
    have hsort : new.Pairwise (· ≤ ·) := by
      rw [hnew]
      exact List.pairwise_mergeSort' (· ≤ ·) _
    have hperm : new.Perm (ex.map (fun e => (rhi : ℝ) * e) ++ w) := List.mergeSort_perm _ _
    have hd : diffPos rows.length fun k => w.getD k 0 := by
      intro k hk
      beta_reduce
      rw [hwX k (by omega), hwX _ hk]
      exact sub_pos.2 (hinc k hk)
    have hwinc : w.Pairwise (· < ·) := by
      rw [List.pairwise_iff_getElem]
      intro a b ha hb hab
      have := diffPos_lt hd hab (by simpa [hw] using hb)
      rwa [List.getD_eq_getElem _ _ ha, List.getD_eq_getElem _ _ hb] at this
    have hnode : ∀ j < new.length, ∀ k < rows.length, new.getD j 0 = X k n →
        (new.map fun v => (npInterp rows.length (fun k => w.getD k 0) (fun k => q.getD k 0) (some (q.getD 0 0))
          (some (q.getD (rows.length - 1) 0)) v).getD 0).getD j 0 = q.getD k 0 := by
      intro j hj k hk e
      rw [List.getD_eq_getElem _ _ (by simpa using hj), List.getElem_map]
      rw [List.getD_eq_getElem _ _ hj] at e
      rw [e, ← hwX k hk, npInterp_node (x := fun k => w.getD k 0) hd hk, Option.getD_some]
    refine ⟨hinc, hsort, hperm, e2, by simp, hnode, ?_, ?_⟩
    · refine npMax_eq ?_ fun y hy => ?_
      · obtain ⟨k, hk, hkq⟩ := List.getElem_of_mem (npMax_mem (l := q) (fun e => by rw [e, List.length_nil] at hq; omega))
        have hwm : X k n ∈ new := by
          rw [hperm.mem_iff, List.mem_append]
          right
          rw [← hwX k (by omega), List.getD_eq_getElem _ _ (by simp [hw]; omega)]
          exact List.getElem_mem _
        obtain ⟨j, hj, hje⟩ := List.getElem_of_mem hwm
        have := hnode j hj k (by omega) (by rw [List.getD_eq_getElem _ _ hj, hje])
        rw [List.getD_eq_getElem _ _ hk, hkq] at this
        rw [← this]
        have hj' : j < (new.map fun v => (npInterp rows.length (fun k => w.getD k 0) (fun k => q.getD k 0)
          (some (q.getD 0 0)) (some (q.getD (rows.length - 1) 0)) v).getD 0).length := by simpa using hj
        rw [List.getD_eq_getElem _ _ hj']
        exact List.getElem_mem _
      · obtain ⟨v, -, rfl⟩ := List.mem_map.1 hy
        refine npInterp_le (fp := fun k => q.getD k 0) hd hm (fun k hk => ?_) v
        rw [List.getD_eq_getElem _ _ (by omega)]
        exact le_npMax (List.getElem_mem _)
    · have hmem : w.getD i 0 ∈ new := by
        rw [hperm.mem_iff, List.mem_append]
        right
        rw [List.getD_eq_getElem _ _ (by simpa [hw] using hi)]
        exact List.getElem_mem _
      have hcount : (new.filter fun x => decide (x < w.getD i 0)).length
          = i + (ex.filter fun e => decide (rhi * e < w.getD i 0)).length := by
        rw [(hperm.filter _).length_eq, List.filter_append, List.length_append,
          increasing_count hwinc (by simpa [hw] using hi), add_comm]
        congr 1
        rw [List.filter_map, List.length_map]
        rfl
      have := sorted_index hsort hmem
      rw [hcount] at this
      exact ⟨this.1, this.2.trans (hwX i hi)⟩
  · push Not at hinc
    rw [C60_default, C60_rejected hinc] at h
    cases h

theorem assemble_nan (hRs : hR.Pairwise (· < ·)) (hrhi : 1 ≤ rhi) (pV : ℕ → ℝ)
    (pF : Option (ℕ → ℝ)) {k : ℕ} (hk : k ∈ hR) (hk1 : 1 ≤ k) {s d : ℕ} (hs : s < 2) (hd : d < N) :
    assembleRow N hV hF hR (outHarmonics hV hF hR rhi) rhi pV pF none
      ((numCoeff ((outHarmonics hV hF hR rhi).filter fun j => j < k * rhi) + s) * N + d) = none := by
  have hRn : hR.Nodup := hRs.imp fun h => Nat.ne_of_lt h
  have hOs := outHarmonics_sorted hV hF hR rhi
  have hOn : (outHarmonics hV hF hR rhi).Nodup := hOs.imp fun h => Nat.ne_of_lt h
  have hLR : ∀ k ∈ hR.drop (zi hR), k * rhi ∈ outHarmonics hV hF hR rhi ∧ 1 ≤ k * rhi := fun k hk => by
    rw [mem_drop_zi (sorted_tail hRs)] at hk
    exact ⟨mem_outHarmonics.2 (.inr (.inr ⟨k, hk.1, mul_comm _ _⟩)), Nat.mul_pos hk.2 hrhi⟩
  have hinj : Function.Injective fun k => k * rhi := fun a b e => Nat.eq_of_mul_eq_mul_right hrhi e
  unfold assembleRow
  rw [addSuper_eq, ← nhcBelow_eq hOn]
  rw [blockFold_self hOn (key := fun k => k * rhi) _ (hRn.sublist (List.drop_sublist _ _)) hLR hinj
    ((mem_drop_zi (sorted_tail hRs)).2 ⟨hk, hk1⟩) hs hd]
  simp [nanAdd]

end

end TMD
