import Verif.Model.VprnmRom
import Verif.Spec.VprnmRom
import Verif.Lemmas.EpmcRom
import Verif.Lemmas.Vprnm
import Verif.Lemmas.Interp
import Verif.Props.EpmcRomDisp

/-! # Lemmas on the VPRNM reduced order model -/

namespace TMD

open Spec Finset

theorem nhcBelow_eq {h : List ℕ} (hn : h.Nodup) (k : ℕ) : nhcBelow h k = numCoeff (h.filter fun j => j < k) := by
  unfold nhcBelow
  rw [Nhc_ok (hn.filter _)]

theorem numCoeff_sum {h : List ℕ} (hn : h.Nodup) : numCoeff h = ∑ k ∈ h.toFinset, if k = 0 then 1 else 2 := by
  induction h with
  | nil => simp [numCoeff]
  | cons a t ih =>
    rw [List.nodup_cons] at hn
    rw [List.toFinset_cons, Finset.sum_insert (by simpa using hn.1), numCoeff, ih hn.2]

/-- Blocks of different harmonics do not overlap. -/
theorem below_add_le {h : List ℕ} (hn : h.Nodup) {k m : ℕ} (hk : k ∈ h) (hkm : k < m) :
    numCoeff (h.filter fun j => j < k) + (if k = 0 then 1 else 2) ≤ numCoeff (h.filter fun j => j < m) := by
  rw [numCoeff_sum (hn.filter _), numCoeff_sum (hn.filter _)]
  have hnot : k ∉ (h.filter fun j => decide (j < k)).toFinset := by simp
  rw [add_comm, ← Finset.sum_insert (f := fun k => if k = 0 then 1 else 2) hnot]
  apply Finset.sum_le_sum_of_subset
  intro x hx
  simp only [Finset.mem_insert, List.mem_toFinset, List.mem_filter, decide_eq_true_eq] at hx ⊢
  rcases hx with rfl | ⟨h1, h2⟩
  · exact ⟨hk, hkm⟩
  · exact ⟨h1, h2.trans hkm⟩

theorem coefOf_notMem {h : List ℕ} {m : ℕ} (hm : m ∉ h) (c : ℕ → ℝ) : coefOf h c m = (0, 0) := by
  induction h generalizing c with
  | nil => rfl
  | cons k t ih =>
    rw [List.mem_cons, not_or] at hm
    unfold coefOf
    rw [if_neg (fun e => hm.1 e.symm)]
    exact ih hm.2 _

theorem coefOf_zero_snd (h : List ℕ) (c : ℕ → ℝ) : (coefOf h c 0).2 = 0 := by
  induction h generalizing c with
  | nil => rfl
  | cons k t ih =>
    unfold coefOf
    split_ifs with h1
    · rfl
    · exact ih _

/-- A series is the sum of its harmonics. -/
theorem series_coefOf {h : List ℕ} (hn : h.Nodup) (c : ℕ → ℝ) (τ : ℝ) :
    series h c τ = ∑ k ∈ h.toFinset, ((coefOf h c k).1 * Real.cos (k * τ) + (coefOf h c k).2 * Real.sin (k * τ)) := by
  induction h generalizing c with
  | nil => simp [series]
  | cons a t ih =>
    rw [List.nodup_cons] at hn
    rw [List.toFinset_cons, Finset.sum_insert (by simpa using hn.1)]
    have e : ∀ k ∈ t.toFinset, coefOf (a :: t) c k = coefOf t (fun i => c (i + (if a = 0 then 1 else 2))) k := by
      intro k hk
      have : a ≠ k := fun e => hn.1 (by rw [e]; simpa using hk)
      rw [coefOf, if_neg this]
    rw [Finset.sum_congr rfl (fun k hk => by rw [e k hk]), ← ih hn.2]
    by_cases ha : a = 0
    · subst ha; simp [series, coefOf]
    · simp [series, coefOf, ha]

section fold

variable {N : ℕ} {hO : List ℕ}

/-- Body of the loops that put blocks into a row. -/
def blockBody (N : ℕ) (hO : List ℕ) (key : ℕ → ℕ) (g : ℕ → Option ℝ → ℕ → Option ℝ) (U : ℕ → Option ℝ) (k : ℕ) :
    ℕ → Option ℝ :=
  setSlice U (nhcBelow hO (key k) * N) ((nhcBelow hO (key k) + 2) * N) fun j => g k (U (nhcBelow hO (key k) * N + j)) j

theorem blockBody_other (hn : hO.Nodup) {key : ℕ → ℕ} {g : ℕ → Option ℝ → ℕ → Option ℝ} {U : ℕ → Option ℝ} {k : ℕ}
    (hk : key k ∈ hO) (hk1 : 1 ≤ key k) {m s d : ℕ} (hm : m ∈ hO) (hmk : m ≠ key k) (hs : s < if m = 0 then 1 else 2)
    (hd : d < N) :
    blockBody N hO key g U k ((nhcBelow hO m + s) * N + d) = U ((nhcBelow hO m + s) * N + d) := by
  unfold blockBody setSlice
  rw [if_neg]
  rintro ⟨h1, h2⟩
  rw [nhcBelow_eq hn, nhcBelow_eq hn] at *
  rcases Nat.lt_or_gt_of_ne hmk with hlt | hlt
  · have h3 := below_add_le hn hm hlt
    have : (numCoeff (hO.filter fun j => j < m) + s + 1) * N ≤ numCoeff (hO.filter fun j => j < key k) * N :=
      Nat.mul_le_mul_right _ (by omega)
    rw [Nat.succ_mul] at this
    omega
  · have h3 := below_add_le hn hk hlt
    rw [if_neg (by omega)] at h3
    have : (numCoeff (hO.filter fun j => j < key k) + 2) * N ≤ (numCoeff (hO.filter fun j => j < m) + s) * N :=
      Nat.mul_le_mul_right _ (by omega)
    omega

theorem blockBody_self (key : ℕ → ℕ) (g : ℕ → Option ℝ → ℕ → Option ℝ) (U : ℕ → Option ℝ) (k : ℕ) {s d : ℕ}
    (hs : s < 2) (hd : d < N) :
    blockBody N hO key g U k ((nhcBelow hO (key k) + s) * N + d)
      = g k (U ((nhcBelow hO (key k) + s) * N + d)) (s * N + d) := by
  unfold blockBody setSlice
  have e : (nhcBelow hO (key k) + s) * N + d = nhcBelow hO (key k) * N + (s * N + d) := by ring
  rw [if_pos, e, Nat.add_sub_cancel_left]
  rw [e]
  have : (s + 1) * N ≤ 2 * N := Nat.mul_le_mul_right _ (by omega)
  rw [Nat.succ_mul] at this
  rw [add_mul]
  omega

theorem blockFold_other (hn : hO.Nodup) {key : ℕ → ℕ} {g : ℕ → Option ℝ → ℕ → Option ℝ} (L : List ℕ)
    (hL : ∀ k ∈ L, key k ∈ hO ∧ 1 ≤ key k) {m s d : ℕ} (hm : m ∈ hO) (hmL : ∀ k ∈ L, m ≠ key k)
    (hs : s < if m = 0 then 1 else 2) (hd : d < N) (U : ℕ → Option ℝ) :
    L.foldl (blockBody N hO key g) U ((nhcBelow hO m + s) * N + d) = U ((nhcBelow hO m + s) * N + d) := by
  induction L generalizing U with
  | nil => rfl
  | cons a t ih =>
    rw [List.foldl_cons, ih (fun k hk => hL k (List.mem_cons_of_mem _ hk)) (fun k hk => hmL k (List.mem_cons_of_mem _ hk)),
      blockBody_other hn (hL a List.mem_cons_self).1 (hL a List.mem_cons_self).2 hm (hmL a List.mem_cons_self) hs hd]

theorem blockFold_self (hn : hO.Nodup) {key : ℕ → ℕ} {g : ℕ → Option ℝ → ℕ → Option ℝ} (L : List ℕ) (hLn : L.Nodup)
    (hL : ∀ k ∈ L, key k ∈ hO ∧ 1 ≤ key k) (hinj : Function.Injective key) {m s d : ℕ} (hm : m ∈ L) (hs : s < 2)
    (hd : d < N) (U : ℕ → Option ℝ) :
    L.foldl (blockBody N hO key g) U ((nhcBelow hO (key m) + s) * N + d)
      = g m (U ((nhcBelow hO (key m) + s) * N + d)) (s * N + d) := by
  induction L generalizing U with
  | nil => simp at hm
  | cons a t ih =>
    have hL' : ∀ k ∈ t, key k ∈ hO ∧ 1 ≤ key k := fun k hk => hL k (List.mem_cons_of_mem _ hk)
    rw [List.nodup_cons] at hLn
    have h0 : key m ≠ 0 := by have := (hL m hm).2; omega
    rw [List.foldl_cons]
    rcases List.mem_cons.1 hm with rfl | hmt
    · rw [blockFold_other hn t hL' (hL m hm).1 (fun k hk e => hLn.1 (hinj e ▸ hk)) (by rw [if_neg h0]; exact hs) hd,
        blockBody_self key g U m hs hd]
    · have hne : m ≠ a := fun e => hLn.1 (e ▸ hmt)
      rw [ih hLn.2 hL' hmt, blockBody_other hn (hL a List.mem_cons_self).1 (hL a List.mem_cons_self).2 (hL m hm).1
        (fun e => hne (hinj e)) (by rw [if_neg h0]; exact hs) hd]

end fold

/-- The nonzero harmonics of a list. -/
theorem range_getD (h : List ℕ) : (List.range' (zi h) (h.length - zi h)).map (fun i => h.getD i 0) = h.drop (zi h) := by
  apply List.ext_getElem
  · simp
  · intro i h1 h2
    simp only [List.length_map, List.length_range'] at h1
    rw [List.getElem_map, List.getElem_range', List.getElem_drop, List.getD_eq_getElem _ _ (by omega)]
    congr 1
    omega

theorem mem_drop_zi {h : List ℕ} (h0 : 0 ∉ h.tail) {k : ℕ} : k ∈ h.drop (zi h) ↔ k ∈ h ∧ 1 ≤ k := by
  cases h with
  | nil => simp
  | cons a t =>
    simp only [List.tail_cons] at h0
    rw [zi_cons]
    by_cases ha : a = 0
    · subst ha
      rw [if_pos rfl, List.drop_one, List.tail_cons, List.mem_cons]
      constructor
      · intro hk
        exact ⟨Or.inr hk, Nat.pos_of_ne_zero fun e => h0 (e ▸ hk)⟩
      · rintro ⟨rfl | hk, h1⟩
        · omega
        · exact hk
    · rw [if_neg ha, List.drop_zero]
      constructor
      · intro hk
        refine ⟨hk, Nat.pos_of_ne_zero fun e => ?_⟩
        subst e
        rcases List.mem_cons.1 hk with e | hk
        · exact ha e.symm
        · exact h0 hk
      · exact fun hk => hk.1

theorem addFund_eq (N : ℕ) (hF hO : List ℕ) (pF : Option (ℕ → ℝ)) (U : ℕ → Option ℝ) :
    addFund N hF hO pF U = (hF.drop (zi hF)).foldl
      (blockBody N hO id fun k _ j => pF.map fun p => p (nhcBelow hF k * N + j)) U := by
  rw [← range_getD, List.foldl_map]
  rfl

theorem addSuper_eq (N : ℕ) (hR hO : List ℕ) (rhi : ℕ) (uS : Option (ℕ → ℝ)) (U : ℕ → Option ℝ) :
    addSuper N hR hO rhi uS U = (hR.drop (zi hR)).foldl
      (blockBody N hO (fun k => k * rhi) fun k u j => nanAdd u (uS.map fun p => p (nhcBelow hR k * N + j))) U := by
  rw [← range_getD, List.foldl_map]
  rfl

theorem outHarmonics_sorted (hV hF hR : List ℕ) (rhi : ℕ) : (outHarmonics hV hF hR rhi).Pairwise (· < ·) :=
  Finset.sortedLT_sort _ |>.pairwise

theorem mem_outHarmonics {hV hF hR : List ℕ} {rhi k : ℕ} :
    k ∈ outHarmonics hV hF hR rhi ↔ k = hV.headI ∨ k ∈ hF ∨ ∃ m ∈ hR, rhi * m = k := by
  unfold outHarmonics
  rw [Finset.mem_sort, List.mem_toFinset]
  simp

/-- A fold that keeps every entry a number. -/
theorem blockFold_some {N : ℕ} {hO : List ℕ} {key : ℕ → ℕ} {g : ℕ → Option ℝ → ℕ → Option ℝ}
    (hg : ∀ k u j, u.isSome → (g k u j).isSome) (L : List ℕ) (U : ℕ → Option ℝ) (hU : ∀ i, (U i).isSome) (i : ℕ) :
    (L.foldl (blockBody N hO key g) U i).isSome := by
  induction L generalizing U with
  | nil => exact hU i
  | cons a t ih =>
    rw [List.foldl_cons]
    refine ih _ fun i => ?_
    unfold blockBody setSlice
    split_ifs
    · exact hg _ _ _ (hU _)
    · exact hU i

theorem coefOf_zero {h : List ℕ} (h0 : 0 ∉ h.tail) (c : ℕ → ℝ) : coefOf h c 0 = (meanCoef h c, 0) := by
  cases h with
  | nil => simp [coefOf, meanCoef, zi]
  | cons a t =>
    by_cases ha : a = 0
    · subst ha; simp [coefOf, meanCoef, zi_cons]
    · rw [coefOf, if_neg ha, coefOf_notMem (show 0 ∉ t from h0), meanCoef, zi_cons, if_neg ha, if_neg (by norm_num)]

theorem sorted_tail {h : List ℕ} (hs : h.Pairwise (· < ·)) : 0 ∉ h.tail := by
  cases h with
  | nil => simp
  | cons a t =>
    rw [List.pairwise_cons] at hs
    intro hc
    have := hs.1 0 hc
    omega

/-- The row in terms of harmonics: those of the fundamental, those of the superharmonic mode multiplied by `rhi`, and the
static part of the VPRNM point. -/
theorem assemble_coef {N : ℕ} {hV hF hR : List ℕ} (hFs : hF.Pairwise (· < ·)) (hRs : hR.Pairwise (· < ·))
    {rhi : ℕ} (hrhi : 1 ≤ rhi) (pV pF uS : ℕ → ℝ) :
    ∃ V : ℕ → ℝ, (∀ i, assembleRow N hV hF hR (outHarmonics hV hF hR rhi) rhi pV (some pF) (some uS) i = some (V i)) ∧
      ∀ d < N,
        (∀ k, 1 ≤ k → coefOf (outHarmonics hV hF hR rhi) (fun r => V (r * N + d)) k
          = coefOf hF (fun r => pF (r * N + d)) k
            + if rhi ∣ k then coefOf hR (fun r => uS (r * N + d)) (k / rhi) else 0) ∧
        coefOf (outHarmonics hV hF hR rhi) (fun r => V (r * N + d)) 0 = (if zi hV = 1 then pV d else 0, 0) := by
  have hFn : hF.Nodup := hFs.imp fun h => Nat.ne_of_lt h
  have hRn : hR.Nodup := hRs.imp fun h => Nat.ne_of_lt h
  set hO := outHarmonics hV hF hR rhi with hOd
  have hOs : hO.Pairwise (· < ·) := outHarmonics_sorted _ _ _ _
  have hOn : hO.Nodup := hOs.imp fun h => Nat.ne_of_lt h
  set U0 : ℕ → Option ℝ := fun i => if zi hV = 1 ∧ i < N then some (pV i) else some 0 with hU0
  set gF : ℕ → Option ℝ → ℕ → Option ℝ := fun k _ j => (some pF).map fun p => p (nhcBelow hF k * N + j) with hgF
  set gR : ℕ → Option ℝ → ℕ → Option ℝ := fun k u j => nanAdd u ((some uS).map fun p => p (nhcBelow hR k * N + j)) with hgR
  set U1 := (hF.drop (zi hF)).foldl (blockBody N hO id gF) U0 with hU1
  set U2 := (hR.drop (zi hR)).foldl (blockBody N hO (fun k => k * rhi) gR) U1 with hU2
  have hrow : assembleRow N hV hF hR hO rhi pV (some pF) (some uS) = U2 := by
    show addSuper N hR hO rhi (some uS) (addFund N hF hO (some pF) U0) = U2
    rw [addFund_eq, addSuper_eq]
  have hU0s : ∀ i, (U0 i).isSome := fun i => by
    simp only [hU0]
    split_ifs <;> rfl
  have hU1s : ∀ i, (U1 i).isSome := blockFold_some (fun _ _ _ _ => rfl) _ _ hU0s
  have hU2s : ∀ i, (U2 i).isSome := blockFold_some (fun k u j hu => by
    obtain ⟨x, rfl⟩ := Option.isSome_iff_exists.1 hu
    rfl) _ _ hU1s
  have hLF : ∀ k ∈ hF.drop (zi hF), id k ∈ hO ∧ 1 ≤ id k := fun k hk => by
    rw [mem_drop_zi (sorted_tail hFs)] at hk
    exact ⟨mem_outHarmonics.2 (.inr (.inl hk.1)), hk.2⟩
  have hLR : ∀ k ∈ hR.drop (zi hR), k * rhi ∈ hO ∧ 1 ≤ k * rhi := fun k hk => by
    rw [mem_drop_zi (sorted_tail hRs)] at hk
    exact ⟨mem_outHarmonics.2 (.inr (.inr ⟨k, hk.1, mul_comm _ _⟩)), Nat.mul_pos hk.2 hrhi⟩
  have hinj : Function.Injective fun k => k * rhi := fun a b e => Nat.eq_of_mul_eq_mul_right hrhi e
  have dF : (hF.drop (zi hF)).Nodup := hFn.sublist (List.drop_sublist _ _)
  have dR : (hR.drop (zi hR)).Nodup := hRn.sublist (List.drop_sublist _ _)
  refine ⟨fun i => (U2 i).getD 0, fun i => ?_, fun d hd => ⟨fun k hk => ?_, ?_⟩⟩
  · rw [hrow]
    obtain ⟨x, hx⟩ := Option.isSome_iff_exists.1 (hU2s i)
    show U2 i = some ((U2 i).getD 0)
    rw [hx, Option.getD_some]
  · by_cases hkO : k ∈ hO
    · rw [(coefOf_sorted hOs hkO hk _).1]
      have hk0 : k ≠ 0 := by omega
      -- value of one entry
      have key : ∀ s < 2, (U2 ((nhcBelow hO k + s) * N + d)).getD 0
          = (if k ∈ hF then pF ((nhcBelow hF k + s) * N + d) else 0)
            + if k / rhi ∈ hR ∧ rhi ∣ k then uS ((nhcBelow hR (k / rhi) + s) * N + d) else 0 := by
        intro s hs
        have v0 : U0 ((nhcBelow hO k + s) * N + d) = some 0 := by
          simp only [hU0]
          rw [if_neg]
          rintro ⟨hz, hlt⟩
          have h0 : 0 ∈ hO := by
            rw [hOd, mem_outHarmonics]
            left
            unfold zi at hz
            split_ifs at hz with h1
            · exact h1.1.symm
          have := below_add_le hOn h0 (Nat.pos_of_ne_zero hk0)
          rw [if_pos rfl, ← nhcBelow_eq hOn, ← nhcBelow_eq hOn] at this
          have : 1 * N ≤ (nhcBelow hO k + s) * N := Nat.mul_le_mul_right _ (by omega)
          omega
        have v1 : U1 ((nhcBelow hO k + s) * N + d) = some (if k ∈ hF then pF ((nhcBelow hF k + s) * N + d) else 0) := by
          by_cases hkF : k ∈ hF
          · rw [if_pos hkF]
            have := blockFold_self hOn (g := gF) _ dF hLF Function.injective_id
              ((mem_drop_zi (sorted_tail hFs)).2 ⟨hkF, hk⟩) hs hd U0
            rw [id] at this
            rw [hU1, this, hgF]
            simp only [Option.map_some]
            rw [add_mul, add_assoc]
          · rw [if_neg hkF, hU1, blockFold_other hOn _ hLF hkO (fun j hj e => hkF (by
              rw [mem_drop_zi (sorted_tail hFs)] at hj
              rw [e]
              exact hj.1)) (by rw [if_neg hk0]; exact hs) hd, v0]
        by_cases hkR : k / rhi ∈ hR ∧ rhi ∣ k
        · rw [if_pos hkR]
          have e : k / rhi * rhi = k := Nat.div_mul_cancel hkR.2
          have h1 : 1 ≤ k / rhi := Nat.div_pos (Nat.le_of_dvd hk hkR.2) hrhi
          have := blockFold_self hOn (g := gR) _ dR hLR hinj ((mem_drop_zi (sorted_tail hRs)).2 ⟨hkR.1, h1⟩) hs hd U1
          rw [e] at this
          rw [hU2, this, hgR, v1]
          simp only [Option.map_some, nanAdd, Option.bind_some, Option.getD_some]
          rw [add_mul (nhcBelow hR (k / rhi)), add_assoc]
        · rw [if_neg hkR, add_zero, hU2, blockFold_other hOn _ hLR hkO (fun j hj e => hkR (by
              rw [mem_drop_zi (sorted_tail hRs)] at hj
              rw [e, Nat.mul_div_cancel _ hrhi]
              exact ⟨hj.1, dvd_mul_left _ _⟩)) (by rw [if_neg hk0]; exact hs) hd, v1, Option.getD_some]
      rw [← nhcBelow_eq hOn]
      have k0 := key 0 (by norm_num)
      have k1 := key 1 (by norm_num)
      simp only [add_zero] at k0
      have cF : coefOf hF (fun r => pF (r * N + d)) k = ((if k ∈ hF then pF ((nhcBelow hF k) * N + d) else 0),
          if k ∈ hF then pF ((nhcBelow hF k + 1) * N + d) else 0) := by
        by_cases hkF : k ∈ hF
        · rw [(coefOf_sorted hFs hkF hk _).1, ← nhcBelow_eq hFn]
          simp only [if_pos hkF]
        · rw [coefOf_notMem hkF]
          simp only [if_neg hkF]
      have cR : (if rhi ∣ k then coefOf hR (fun r => uS (r * N + d)) (k / rhi) else 0)
          = ((if k / rhi ∈ hR ∧ rhi ∣ k then uS ((nhcBelow hR (k / rhi)) * N + d) else 0),
            if k / rhi ∈ hR ∧ rhi ∣ k then uS ((nhcBelow hR (k / rhi) + 1) * N + d) else 0) := by
        by_cases hdv : rhi ∣ k
        · have h1 : 1 ≤ k / rhi := Nat.div_pos (Nat.le_of_dvd hk hdv) hrhi
          rw [if_pos hdv]
          by_cases hkR : k / rhi ∈ hR
          · rw [(coefOf_sorted hRs hkR h1 _).1, ← nhcBelow_eq hRn]
            simp only [if_pos (And.intro hkR hdv)]
          · rw [coefOf_notMem hkR]
            simp only [if_neg (fun h : _ ∧ _ => hkR h.1)]
        · rw [if_neg hdv]
          simp only [if_neg (fun h : _ ∧ _ => hdv h.2)]
          rfl
      rw [cF, cR, Prod.mk_add_mk, ← k0, ← k1]
    · rw [coefOf_notMem hkO, coefOf_notMem (fun h => hkO (mem_outHarmonics.2 (.inr (.inl h))))]
      have : (if rhi ∣ k then coefOf hR (fun r => uS (r * N + d)) (k / rhi) else 0) = 0 := by
        split_ifs with hdv
        · exact coefOf_notMem (fun h => hkO (mem_outHarmonics.2 (.inr (.inr ⟨_, h, Nat.mul_div_cancel' hdv⟩)))) _
        · rfl
      rw [this]
      simp
  · rw [coefOf_zero (sorted_tail hOs)]
    congr 1
    have hzz : zi hV = 1 → zi hO = 1 := by
      intro hz
      have h0 : 0 ∈ hO := by
        rw [hOd, mem_outHarmonics]
        left
        unfold zi at hz
        split_ifs at hz with h1
        · exact h1.1.symm
      obtain ⟨a, t, e⟩ := List.exists_cons_of_ne_nil (List.ne_nil_of_mem h0)
      rw [e] at h0 hOs ⊢
      rw [List.pairwise_cons] at hOs
      rw [zi_cons, if_pos]
      rcases List.mem_cons.1 h0 with e0 | ht
      · exact e0.symm
      · have := hOs.1 0 ht
        omega
    unfold meanCoef
    by_cases hzO : zi hO = 1
    · rw [if_pos hzO]
      have h0 : 0 ∈ hO := by
        unfold zi at hzO
        split_ifs at hzO with h1
        · obtain ⟨a, t, e⟩ := List.exists_cons_of_ne_nil h1.2
          rw [e, List.headI_cons] at h1
          rw [e, h1.1]
          exact List.mem_cons_self
      have hb : nhcBelow hO 0 = 0 := by
        rw [nhcBelow_eq hOn]
        simp [numCoeff]
      have e1 := blockFold_other hOn (g := gR) _ hLR h0 (s := 0) (fun k hk e => by have := (hLR k hk).2; omega) (by simp) hd U1
      have e2 := blockFold_other hOn (g := gF) _ hLF h0 (s := 0) (fun k hk e => by
        have := (hLF k hk).2
        rw [← e] at this
        omega) (by simp) hd U0
      rw [hb] at e1 e2
      have : U2 (0 * N + d) = U0 (0 * N + d) := by
        exact e1.trans e2
      show (U2 (0 * N + d)).getD 0 = _
      rw [this, hU0]
      simp only [zero_mul, zero_add]
      by_cases hz : zi hV = 1
      · rw [if_pos ⟨hz, hd⟩, if_pos hz, Option.getD_some]
      · rw [if_neg (fun h => hz h.1), if_neg hz, Option.getD_some]
    · rw [if_neg hzO, if_neg (fun h => hzO (hzz h))]

theorem oscillation_sum {h : List ℕ} (hn : h.Nodup) (c : ℕ → ℝ) (τ : ℝ) :
    oscillation h c τ = ∑ k ∈ h.toFinset.erase 0,
      ((coefOf h c k).1 * Real.cos (k * τ) + (coefOf h c k).2 * Real.sin (k * τ)) := by
  unfold oscillation
  rw [series_coefOf hn]
  by_cases h0 : 0 ∈ h.toFinset
  · rw [← Finset.add_sum_erase _ _ h0]
    simp
  · rw [Finset.erase_eq_of_notMem h0, coefOf_notMem (by simpa using h0)]
    simp

/-- The row as a function of time. -/
theorem assemble_series {N : ℕ} {hV hF hR : List ℕ} (hFs : hF.Pairwise (· < ·)) (hRs : hR.Pairwise (· < ·))
    {rhi : ℕ} (hrhi : 1 ≤ rhi) {z : ℝ} {V pF uS : ℕ → ℝ} {d : ℕ}
    (h1 : ∀ k, 1 ≤ k → coefOf (outHarmonics hV hF hR rhi) (fun r => V (r * N + d)) k
          = coefOf hF (fun r => pF (r * N + d)) k
            + if rhi ∣ k then coefOf hR (fun r => uS (r * N + d)) (k / rhi) else 0)
    (h2 : coefOf (outHarmonics hV hF hR rhi) (fun r => V (r * N + d)) 0 = (z, 0)) (τ : ℝ) :
    series (outHarmonics hV hF hR rhi) (fun r => V (r * N + d)) τ
      = z + oscillation hF (fun r => pF (r * N + d)) τ + oscillation hR (fun r => uS (r * N + d)) (rhi * τ) := by
  have hFn : hF.Nodup := hFs.imp fun h => Nat.ne_of_lt h
  have hRn : hR.Nodup := hRs.imp fun h => Nat.ne_of_lt h
  set hO := outHarmonics hV hF hR rhi with hOd
  have hOs : hO.Pairwise (· < ·) := outHarmonics_sorted _ _ _ _
  have hOn : hO.Nodup := hOs.imp fun h => Nat.ne_of_lt h
  have e0 : series hO (fun r => V (r * N + d)) τ = z + oscillation hO (fun r => V (r * N + d)) τ := by
    unfold oscillation
    rw [h2]
    ring
  rw [e0, add_assoc, oscillation_sum hOn, oscillation_sum hFn, oscillation_sum hRn]
  congr 1
  have e1 : ∀ k ∈ hO.toFinset.erase 0, ((coefOf hO (fun r => V (r * N + d)) k).1 * Real.cos (k * τ)
        + (coefOf hO (fun r => V (r * N + d)) k).2 * Real.sin (k * τ))
      = ((coefOf hF (fun r => pF (r * N + d)) k).1 * Real.cos (k * τ)
          + (coefOf hF (fun r => pF (r * N + d)) k).2 * Real.sin (k * τ))
        + (if rhi ∣ k then ((coefOf hR (fun r => uS (r * N + d)) (k / rhi)).1 * Real.cos (k * τ)
          + (coefOf hR (fun r => uS (r * N + d)) (k / rhi)).2 * Real.sin (k * τ)) else 0) := by
    intro k hk
    rw [Finset.mem_erase] at hk
    rw [h1 k (Nat.pos_of_ne_zero hk.1)]
    split_ifs <;> simp <;> ring
  rw [Finset.sum_congr rfl e1, Finset.sum_add_distrib]
  congr 1
  · symm
    apply Finset.sum_subset
    · intro k hk
      simp only [Finset.mem_erase, List.mem_toFinset] at hk ⊢
      exact ⟨hk.1, mem_outHarmonics.2 (.inr (.inl hk.2))⟩
    · intro k hk hk2
      simp only [Finset.mem_erase, List.mem_toFinset, not_and] at hk hk2
      rw [coefOf_notMem (hk2 hk.1)]
      simp
  · rw [← Finset.sum_filter]
    symm
    apply Finset.sum_of_injOn (fun m => rhi * m)
    · intro a _ b _ e
      exact Nat.eq_of_mul_eq_mul_left hrhi e
    · intro m hm
      simp only [Finset.coe_erase, List.coe_toFinset, Set.mem_sdiff, Set.mem_ofPred_eq, Set.mem_singleton_iff] at hm
      simp only [Finset.coe_filter, Finset.mem_erase, List.mem_toFinset, Set.mem_ofPred_eq]
      exact ⟨⟨Nat.mul_ne_zero (by omega) hm.2, mem_outHarmonics.2 (.inr (.inr ⟨m, hm.1, rfl⟩))⟩, dvd_mul_right _ _⟩
    · intro k hk hk2
      simp only [Finset.mem_filter, Finset.mem_erase, List.mem_toFinset] at hk
      have : k / rhi ∉ hR := fun hc => hk2 ⟨k / rhi, by
        simp only [Finset.coe_erase, List.coe_toFinset, Set.mem_sdiff, Set.mem_ofPred_eq, Set.mem_singleton_iff]
        exact ⟨hc, fun e => hk.1.1 (by rw [← Nat.div_mul_cancel hk.2, e, zero_mul])⟩, Nat.mul_div_cancel' hk.2⟩
      rw [coefOf_notMem this]
      simp
    · intro m _
      rw [Nat.mul_div_cancel_left _ hrhi]
      push_cast
      rw [show (rhi:ℝ) * m * τ = m * (rhi * τ) by ring]

/-- What a successful interpolation at one value gives. -/
theorem firstRow_ok {M N : ℕ} {X : ℕ → ℕ → ℝ} {v : ℝ} {ref : ℕ → ℝ} {r : Option (ℕ → ℝ)}
    (hr : firstRow (linearInterp M N X [v] (some (M, ref))) = .ok r) :
    0 < M ∧ (∀ k, k + 1 < M → ref k < ref (k + 1)) ∧ LinearAt M ref X v r := by
  by_cases hinc : ∀ k, k + 1 < M → ref k < ref (k + 1)
  · rcases Nat.eq_zero_or_pos M with rfl | hM
    · have : linearInterp 0 N X [v] (some (0, ref)) = .error .value := by
        unfold linearInterp
        have hd : diffPos 0 ref := fun k hk => by omega
        simp [hd]
      rw [this] at hr
      cases hr
    · obtain ⟨out, h1, h2⟩ := C60_linear (M := M) (N := N) (X := X) hinc hM le_rfl [v]
      rw [h1] at hr
      cases h2 with
      | cons ha h2 =>
        cases h2
        unfold firstRow at hr
        cases hr
        exact ⟨hM, hinc, ha⟩
  · push Not at hinc
    rw [C60_rejected hinc] at hr
    cases hr

theorem npArgmin_some {l : List ℝ} {i : ℕ} (h : npArgmin l = some i) :
    i < l.length ∧ ∀ j < l.length, l.getD i 0 ≤ l.getD j 0 := by
  unfold npArgmin at h
  have h1 := List.find?_some h
  have h2 := List.mem_of_find?_eq_some h
  exact ⟨List.mem_range.1 h2, by simpa using h1⟩

theorem foldl_max_le {l : List ℝ} {a b : ℝ} (ha : a ≤ b) (h : ∀ x ∈ l, x ≤ b) : l.foldl max a ≤ b := by
  induction l generalizing a with
  | nil => exact ha
  | cons x t ih =>
    exact ih (max_le ha (h x List.mem_cons_self)) fun y hy => h y (List.mem_cons_of_mem _ hy)

theorem le_foldl_max {l : List ℝ} {a b : ℝ} (h : b ≤ a ∨ b ∈ l) : b ≤ l.foldl max a := by
  induction l generalizing a with
  | nil => simpa using h
  | cons x t ih =>
    apply ih
    rcases h with h | h
    · exact .inl (h.trans (le_max_left _ _))
    · rcases List.mem_cons.1 h with rfl | h
      · exact .inl (le_max_right _ _)
      · exact .inr h

/-- The largest entry of a list. -/
theorem npMax_eq {l : List ℝ} {b : ℝ} (hb : b ∈ l) (h : ∀ x ∈ l, x ≤ b) : npMax l = b := by
  unfold npMax
  cases l with
  | nil => simp at hb
  | cons x t =>
    refine le_antisymm (foldl_max_le ?_ h) (le_foldl_max (.inr hb))
    exact h x List.mem_cons_self

end TMD
