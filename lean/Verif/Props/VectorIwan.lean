import Verif.Lemmas.Iwan
import Verif.Props.Iwan
import Verif.Props.Hysteresis

/-!
# Property C67: the vectorised Iwan-4 element equals the serial one
-/

namespace TMD

open Spec Classical

noncomputable section

/-- Slider `k` of the element as a unit Jenkins slider. -/
def iwanProj {ι : Type} (k : ℕ) (s : IHist ι) : JHist ι := ⟨s.up, s.fps k, s.dup, s.dfps k⟩

theorem iwanProj_step {ι : Type} (w : Iwan) (k : ℕ) (s : IHist ι) (u : ℝ) (c : ι → ℝ) :
    iwanProj k (iwanStep w s u c).1 = (jenkinsStep 1 (w.phi k) (iwanProj k s) u c).1 := by
  simp only [iwanProj, iwanStep, iwanInstant, jenkinsStep, jenkinsLocal, iwanSlider, iwanStuck, one_mul]
  by_cases h : |u - s.up + s.fps k| ≤ w.phi k
  · simp only [if_pos h, if_neg (not_lt.2 h)]
    congr 1
    funext i; ring
  · simp only [if_neg h, if_pos (not_le.1 h), mul_comm]
    congr 1
    funext i; ring

theorem iwan_ext {ι : Type} (w : Iwan) (s s' : IHist ι) (u u' : ℝ) (c c' : ι → ℝ) (hu : u = u') (hc : c = c')
    (h : ∀ k, iwanProj k (iwanStep w s u c).1 = iwanProj k (iwanStep w s' u' c').1) :
    (iwanStep w s u c).1 = (iwanStep w s' u' c').1 := by
  subst hu hc
  have hf : (iwanStep w s u c).1.fps = (iwanStep w s' u c).1.fps := by
    funext k; exact congrArg JHist.fp (h k)
  have hd : (iwanStep w s u c).1.dfps = (iwanStep w s' u c).1.dfps := by
    funext k; exact congrArg JHist.dfp (h k)
  have hp : (iwanStep w s u c).1.fp = (iwanStep w s' u c).1.fp := by
    have e : ∀ s : IHist ι, (iwanStep w s u c).1.fp
        = ∑ k ∈ Finset.range (w.nSliders + 1), (iwanStep w s u c).1.fps k * w.weight k := fun _ => rfl
    rw [e, e, hf]
  have e : ∀ s : IHist ι, (iwanStep w s u c).1 = ⟨u, (iwanStep w s u c).1.fp, (iwanStep w s u c).1.fps, c,
      (iwanStep w s u c).1.dfps⟩ := fun _ => rfl
  rw [e s, e s', hf, hd, hp]

theorem iwan_proj_stSeq {ι : Type} (w : Iwan) (e0 : ι → ℝ) (u : ℕ → ℝ) (c : ℕ → ι → ℝ) (s0 : IHist ι) (k i : ℕ) :
    iwanProj k (stSeq (iwanOps w e0) u c s0 i)
      = stSeq (jenkinsOps 1 (w.phi k) e0) u c (iwanProj k s0) i := by
  induction i with
  | zero => exact iwanProj_step w k s0 _ _
  | succ i ih =>
    show iwanProj k (iwanStep w _ _ _).1 = (jenkinsStep 1 (w.phi k) _ _ _).1
    rw [iwanProj_step, ih]

theorem iwan_vector_chain {ι : Type} (w : Iwan) (hphi : ∀ k, 0 ≤ w.phi k) (e0 : ι → ℝ) (N : ℕ) (hN : 0 < N)
    (u : ℕ → ℝ) (c : ℕ → ι → ℝ) (s0 : IHist ι) (a b : ℕ) (hab : a < b)
    (hno : ∀ i, a < i → i < b → ¬ critP N u i) :
    ((iwanOps w e0).step (stSeq (iwanOps w e0) (periodic N u) (periodic N c) s0 a)
        (periodic N u b) (periodic N c b)).1
      = stSeq (iwanOps w e0) (periodic N u) (periodic N c) s0 b := by
  obtain ⟨b', rfl⟩ : ∃ b', b = b' + 1 := ⟨b - 1, by omega⟩
  show (iwanStep w _ _ _).1 = (iwanStep w _ _ _).1
  apply iwan_ext w _ _ _ _ _ _ rfl rfl
  intro k
  have h := vector_chain zero_le_one (hphi k) e0 N hN u c (iwanProj k s0) a (b'+1) hab hno
  rw [iwanProj_step, iwan_proj_stSeq]
  show (jenkinsStep 1 (w.phi k) _ _ _).1 = iwanProj k (stSeq (iwanOps w e0) (periodic N u) (periodic N c) s0 (b'+1))
  rw [iwan_proj_stSeq]
  exact h

/-! ## Storing the slider states does not change the evolution -/

def critRow {ι : Type} (w : Iwan) (s : IHist ι) : ℝ × (ι ⊕ ℕ ⊕ (ℕ × ι) → ℝ) :=
  ((iwanRow w s).1, Sum.elim (iwanRow w s).2 (Sum.elim s.fps (fun p => s.dfps p.1 p.2)))

theorem crit_rowOf {ι : Type} (w : Iwan) (e0 : ι → ℝ) : RowOf (iwanCritOps w e0) (critRow w) := fun _ _ _ => rfl

theorem crit_stSeq {ι : Type} (w : Iwan) (e0 : ι → ℝ) (u : ℕ → ℝ) (c : ℕ → ι → ℝ) (s0 : IHist ι) (i : ℕ) :
    stSeq (iwanCritOps w e0) u (fun i => Sum.elim (c i) fun _ => 0) s0 i = stSeq (iwanOps w e0) u c s0 i := by
  induction i with
  | zero => rfl
  | succ i ih => simp only [stSeq, ih]; rfl

theorem periodic_elim {ι : Type} (N : ℕ) (c : ℕ → ι → ℝ) :
    periodic N (fun i => (Sum.elim (c i) fun _ => 0 : ι ⊕ ℕ ⊕ (ℕ × ι) → ℝ))
      = fun i => Sum.elim (periodic N c i) fun _ => 0 := rfl

theorem iwanFillEntry_eq {ι : Type} (w : Iwan) (e0 : ι → ℝ) (u : ℕ → ℝ) (c : ℕ → ι → ℝ) (s : IHist ι) (x i : ℕ)
    (hu : s.up = u x) (hd : s.dup = c x) :
    iwanFillEntry w u c (x+1) (critRow w s) i = iwanRow w ((iwanOps w e0).step s (u i) (c i)).1 := by
  simp only [iwanFillEntry, critRow, iwanRow, iwanOps, iwanStep, iwanInstant, Nat.add_sub_cancel, hu, hd,
    Sum.elim_inr, Sum.elim_inl]

theorem iwanFillLoop_spec {ι : Type} (w : Iwan) (Nt : ℕ) (u : ℕ → ℝ) (c : ℕ → ι → ℝ)
    (g : ℕ → ℝ × (ι → ℝ)) (R : ℕ → ℝ × (ι ⊕ ℕ ⊕ (ℕ × ι) → ℝ)) (rest : List ℕ) (a : ℕ) (ft : ℕ → ℝ × (ι → ℝ))
    (hch : (a :: (rest ++ [Nt])).IsChain (fun x y => x < y ∧ ∀ i, x < i → i < y →
      iwanFillEntry w u c (x+1) (R x) i = g i))
    (hcrit : ∀ x ∈ a :: rest, ft x = g x) (i : ℕ) :
    (a ≤ i → i < Nt → iwanFillLoop w Nt u c (a :: rest ++ [0]) ((a :: rest).map R) ft i = g i) ∧
    (i < a → iwanFillLoop w Nt u c (a :: rest ++ [0]) ((a :: rest).map R) ft i = ft i) := by
  induction rest generalizing a ft with
  | nil =>
    simp only [List.nil_append, List.isChain_cons_cons, List.isChain_singleton, and_true] at hch
    have hm : a + 1 ≤ Nt := hch.1
    simp only [List.cons_append, List.nil_append, List.map_cons, List.map_nil, iwanFillLoop, if_true, Nat.mul_one,
      Nat.zero_add]
    constructor
    · intro h1 h2
      rcases Nat.eq_or_lt_of_le h1 with h | h
      · subst h
        split
        · beta_reduce; rw [if_neg (by omega)]; exact hcrit a (by simp)
        · exact hcrit a (by simp)
      · rw [if_pos (by omega), if_pos ⟨h, h2⟩]
        exact hch.2 i h h2
    · intro h1
      split
      · beta_reduce; rw [if_neg (by omega)]
      · rfl
  | cons b rest ih =>
    simp only [List.cons_append, List.isChain_cons_cons] at hch
    obtain ⟨⟨hab, hfill⟩, hch⟩ := hch
    have hb0 : b ≠ 0 := by omega
    have hsorted : ∀ x ∈ b :: rest, b ≤ x := by
      have h2 : (b :: (rest ++ [Nt])).IsChain (· < ·) := by
        apply hch.imp
        intro x y h; exact h.1
      have h3 := List.isChain_iff_pairwise.1 h2
      intro x hx
      rcases List.mem_cons.1 hx with h | h
      · exact h.ge
      · exact le_of_lt ((List.pairwise_cons.1 h3).1 x (by simp [h]))
    set ft' : ℕ → ℝ × (ι → ℝ) := if b + Nt * (if b = 0 then 1 else 0) > a + 1 then
        fun i => if a + 1 ≤ i ∧ i < b + Nt * (if b = 0 then 1 else 0) then
            iwanFillEntry w u c (a+1) (R a) i else ft i
      else ft with hft'
    have hft'eq : ∀ i, ft' i = if a + 1 ≤ i ∧ i < b then iwanFillEntry w u c (a+1) (R a) i else ft i := by
      intro i
      rw [hft']
      simp only [hb0, if_false, Nat.mul_zero, Nat.add_zero]
      by_cases hgt : b > a + 1
      · rw [if_pos hgt]
      · rw [if_neg hgt, if_neg (by omega)]
    have step : iwanFillLoop w Nt u c (a :: (b :: rest) ++ [0]) ((a :: b :: rest).map R) ft
        = iwanFillLoop w Nt u c (b :: rest ++ [0]) ((b :: rest).map R) ft' := rfl
    obtain ⟨ih1, ih2⟩ := ih b ft' hch (by
      intro x hx
      rw [hft'eq, if_neg (by have := hsorted x hx; omega)]
      exact hcrit x (by simp only [List.mem_cons] at hx ⊢; tauto))
    rw [step]
    constructor
    · intro h1 h2
      rcases Nat.lt_or_ge i b with h | h
      · rw [ih2 h, hft'eq]
        by_cases hia : a + 1 ≤ i
        · rw [if_pos ⟨hia, h⟩]
          exact hfill i hia h
        · rw [if_neg (by omega)]
          have : i = a := by omega
          subst this
          exact hcrit i (by simp)
      · exact ih1 h h2
    · intro h
      rw [ih2 (by omega), hft'eq, if_neg (by omega)]

/-- C67: for every displacement series the vectorised Iwan-4 history returns a result, equal at every
instant (force and derivative row) to cycle number `its` of the serial element started at the same
position, where `its ∈ {1, 2}` is the number of cycles run on the reversal points. -/
theorem C67_vector_equals_serial_cycle {ι : Type} (w : Iwan) (hphi : ∀ k, 0 ≤ w.phi k) (e0 : ι → ℝ)
    (N : ℕ) (hN : 0 < N) (u : ℕ → ℝ) (c : ℕ → ι → ℝ) (unlth0 eps : ℝ) :
    ∃ ft its, vectorIwanHistory w e0 N u c unlth0 eps = .ok (ft, its) ∧ 1 ≤ its ∧ its ≤ 2 ∧
      (List.range N).map ft = cycleRows (iwanOps w e0) ((List.range N).map fun i => (u i, c i))
        (its - 1) ((iwanOps w e0).init unlth0) := by
  set m := iwanOps w e0 with hm
  set s0 := m.init unlth0 with hs0
  set S := stSeq m (periodic N u) (periodic N c) s0 with hS
  set ce : ℕ → (ι ⊕ ℕ ⊕ (ℕ × ι)) → ℝ := fun i => Sum.elim (c i) fun _ => 0 with hce
  have hcons : ∃ t, critInds N u = 0 :: t := by
    rw [critInds_eq]
    obtain ⟨M, rfl⟩ : ∃ M, N = M + 1 := ⟨N - 1, by omega⟩
    rw [List.range_succ_eq_map, List.filter_cons_of_pos (by simpa using critP_zero _ _)]
    exact ⟨_, rfl⟩
  obtain ⟨t, ht⟩ := hcons
  have hr : (critInds N u).map (fun i => (u i, ce i)) ≠ [] := by rw [ht]; simp
  obtain ⟨ftc, its, e, i1, i2, eft⟩ := C32_cycle_count (iwanCritOps w e0) _ hr unlth0 2 (1 / 10 ^ 10) (1 / 10 ^ 10) eps
  have hseq : ∀ i, stSeq (iwanCritOps w e0) (periodic N u) (periodic N ce) s0 i = S i := fun i =>
    crit_stSeq w e0 (periodic N u) (periodic N c) s0 i
  have hcyc := (cycles_filtered (crit_rowOf w e0) N hN u ce s0 (critP N u) (critP_zero N u)
    (critP_period N u) (fun a b hab hno => by
      rw [hseq, hseq]
      exact iwan_vector_chain w hphi e0 N hN u c s0 a b hab hno) (its - 1)).1
  rw [← critInds_eq] at hcyc
  have hs0' : (iwanCritOps w e0).init unlth0 = s0 := rfl
  rw [hs0', hcyc] at eft
  simp only [hseq] at eft
  set n := its - 1
  set g : ℕ → ℝ × (ι → ℝ) := fun i => iwanRow w (S (n * N + i)) with hg
  refine ⟨iwanFillLoop w N u c (critInds N u ++ [(critInds N u).headD 0]) ftc
    (scatterCrit (critInds N u) (ftc.map fun r => (r.1, fun i => r.2 (.inl i))) (fun _ => (0, fun _ => 0))),
    its, ?_, i1, by simpa using i2, ?_⟩
  · have e' : localForceHistory (iwanCritOps w e0)
        ((critInds N u).map fun i => (u i, (Sum.elim (c i) fun _ => 0 : ι ⊕ ℕ ⊕ (ℕ × ι) → ℝ))) unlth0 2
        (1 / 10 ^ 10) (1 / 10 ^ 10) eps = .ok (ftc, its) := e
    unfold vectorIwanHistory
    simp only [e']
  · rw [cycles_full (iwan_rowOf w e0) N hN u c s0 n]
    apply List.map_congr_left
    intro i hi
    have hi := List.mem_range.1 hi
    have hnd : (critInds N u).Nodup := by
      unfold critInds
      exact List.nodup_range.filter _
    have hper : ∀ {α : Type} (v : ℕ → α) (k : ℕ), k < N → periodic N v (n * N + k) = v k := by
      intro α v k hk
      unfold periodic
      rw [Nat.mul_comm, Nat.mul_add_mod, Nat.mod_eq_of_lt hk]
    have hSu : ∀ j, (S j).up = periodic N u j ∧ (S j).dup = periodic N c j := by
      intro j; cases j <;> exact ⟨rfl, rfl⟩
    have hchain : ((critInds N u) ++ [N]).IsChain (fun x y => x < y ∧ ∀ i, x < i → i < y →
        iwanFillEntry w u c (x+1) (critRow w (S (n * N + x))) i = g i) := by
      have h1 := chain_filter_range (P := critP N u) (R := fun x y => x < y ∧ (y ≤ N → ∀ i, x < i → i < y →
        iwanFillEntry w u c (x+1) (critRow w (S (n * N + x))) i = g i)) (critP_zero N u) (by
          intro a b hab hno
          refine ⟨hab, fun hb i h1 h2 => ?_⟩
          have hup := hSu (n * N + a)
          rw [hper u a (by omega), hper c a (by omega)] at hup
          simp only [hg]
          rw [iwanFillEntry_eq w e0 u c (S (n * N + a)) a i hup.1 hup.2]
          have := iwan_vector_chain w hphi e0 N hN u c s0 (n * N + a) (n * N + i) (by omega) (by
            intro k hk1 hk2
            have hk3 : critP N u k ↔ critP N u (k - n * N) := by
              have : k = n * N + (k - n * N) := by omega
              unfold critP
              conv_lhs => rw [this, Nat.mul_comm n N, Nat.mul_add_mod, Nat.mul_comm N n]
            rw [hk3]
            exact hno (k - n * N) (by omega) (by omega))
          rw [hper u i (by omega), hper c i (by omega)] at this
          rw [this]) (N + 1)
      rw [List.range_succ, List.filter_append, ← critInds_eq] at h1
      have hlast : [N].filter (fun i => decide (critP N u i)) = [N] := by
        rw [List.filter_cons_of_pos]
        · rfl
        · have := (critP_period N u 0).2 (critP_zero N u)
          simpa using this
      rw [hlast] at h1
      have hmem : ∀ x ∈ critInds N u ++ [N], x ≤ N := by
        intro x hx
        rw [List.mem_append, List.mem_singleton] at hx
        rcases hx with hx | hx
        · unfold critInds at hx
          rw [List.mem_filter, List.mem_range] at hx
          exact hx.1.le
        · exact hx.le
      rw [List.isChain_iff_getElem] at h1 ⊢
      intro i hi
      have h3 := h1 i hi
      exact ⟨h3.1, h3.2 (hmem _ (List.getElem_mem _))⟩
    have hsc : ∀ x ∈ critInds N u, scatterCrit (critInds N u) (ftc.map fun r => (r.1, fun i => r.2 (.inl i)))
        (fun _ => (0, fun _ => 0)) x = g x := by
      intro x hx
      rw [eft, List.map_map]
      exact scatterCrit_map (critInds N u) hnd _ _ x hx
    rw [eft] at hsc ⊢
    rw [ht] at hchain hsc ⊢
    have := (iwanFillLoop_spec w N u c g (fun x => critRow w (S (n * N + x))) t 0 _ hchain hsc i).1 (Nat.zero_le _) hi
    simp only [List.headD_cons]
    exact this

/-- C67, consequence: when the second cycle is run on the reversal points, the vectorised result equals
two cycles of the serial element, whose forces no further cycle changes. (Whether that cycle is run is
decided by the early stop of the loop, see C31.) -/
theorem C67_second_cycle_steady {ι : Type} (w : Iwan) (hphi : ∀ k, 0 ≤ w.phi k) (e0 : ι → ℝ)
    (N : ℕ) (hN : 0 < N) (u : ℕ → ℝ) (c : ℕ → ι → ℝ) (unlth0 eps : ℝ) (ft : ℕ → ℝ × (ι → ℝ)) (its : ℕ)
    (h : vectorIwanHistory w e0 N u c unlth0 eps = .ok (ft, its)) (h2 : 2 ≤ its) (n : ℕ) :
    ((List.range N).map ft).map Prod.fst = (cycleRows (iwanOps w e0) ((List.range N).map fun i => (u i, c i))
        (n + 1) ((iwanOps w e0).init unlth0)).map Prod.fst := by
  obtain ⟨ft', its', e, h1, h2', e2⟩ := C67_vector_equals_serial_cycle w hphi e0 N hN u c unlth0 eps
  rw [h] at e
  simp only [Except.ok.injEq, Prod.mk.injEq] at e
  obtain ⟨rfl, rfl⟩ := e
  have : its = 2 := by omega
  subst this
  rw [e2, C38_two_cycles w (fun k _ => hphi k) e0 N hN u c _ n]

/-- Non-vacuity: every constructed element meets the hypothesis. -/
example (u : ℕ → ℝ) (eps : ℝ) : ∃ ft its, vectorIwanHistory (Iwan.new 1 1 (-1/2) (1/10) 100 1) (fun _ : Unit => 1) 8 u
    (fun _ _ => 1) 0 eps = .ok (ft, its) := by
  obtain ⟨ft, its, e, _⟩ := C67_vector_equals_serial_cycle (Iwan.new 1 1 (-1/2) (1/10) 100 1)
    (fun k => (C36_constructed one_pos one_pos (by norm_num) (by norm_num) (by norm_num) le_rfl k).1.le)
    (fun _ : Unit => 1) 8 (by norm_num) u (fun _ _ => 1) 0 eps
  exact ⟨ft, its, e⟩

end

end TMD
