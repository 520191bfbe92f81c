import Verif.Lemmas.VectorJenkins
import Verif.Props.Hysteresis

/-!
# Property C34: the vectorised Jenkins history
-/

namespace TMD

open Spec

noncomputable section

open Classical in
/-- C34, the exact relation: for every displacement series the vectorised history always returns a
result, equal at every instant (force and derivative row) to cycle number `its` of the serial slider
started at the same position, where `its ∈ {1, 2}` is the number of cycles run on the reversal
points. -/
theorem C34_vector_equals_serial_cycle {ι : Type} (kt Fs : ℝ) (hk : 0 ≤ kt) (hF : 0 ≤ Fs) (e0 : ι → ℝ)
    (N : ℕ) (hN : 0 < N) (u : ℕ → ℝ) (c : ℕ → ι → ℝ) (unlth0 eps : ℝ) :
    ∃ ft its, vectorJenkinsHistory kt Fs e0 N u c unlth0 eps = .ok (ft, its) ∧ 1 ≤ its ∧ its ≤ 2 ∧
      (List.range N).map ft = cycleRows (jenkinsOps kt Fs e0) ((List.range N).map fun i => (u i, c i))
        (its - 1) ((jenkinsOps kt Fs e0).init unlth0) := by
  set m := jenkinsOps kt Fs e0 with hm
  set s0 := m.init unlth0 with hs0
  set S := stSeq m (periodic N u) (periodic N c) s0 with hS
  have hcons : ∃ t, critInds N u = 0 :: t := by
    rw [critInds_eq]
    obtain ⟨M, rfl⟩ : ∃ M, N = M + 1 := ⟨N - 1, by omega⟩
    rw [List.range_succ_eq_map, List.filter_cons_of_pos (by simpa using critP_zero _ _)]
    exact ⟨_, rfl⟩
  obtain ⟨t, ht⟩ := hcons
  have hr : (critInds N u).map (fun i => (u i, c i)) ≠ [] := by rw [ht]; simp
  obtain ⟨ftc, its, e, i1, i2, eft⟩ := C32_cycle_count m _ hr unlth0 2 (1 / 10 ^ 10) (1 / 10 ^ 10) eps
  have hcyc := (cycles_filtered (jenkins_rowOf kt Fs e0) N hN u c s0 (critP N u) (critP_zero N u)
    (critP_period N u) (fun a b hab hno => vector_chain hk hF e0 N hN u c s0 a b hab hno) (its - 1)).1
  rw [← critInds_eq, ← hm] at hcyc
  rw [← hs0] at eft
  rw [hcyc] at eft
  refine ⟨fillLoop kt Fs N u c (critInds N u ++ [(critInds N u).headD 0])
    (scatterCrit (critInds N u) ftc (fun _ => (0, fun _ => 0))), its, ?_, i1, by simpa using i2, ?_⟩
  · unfold vectorJenkinsHistory
    simp only [← hm, e]
  · rw [cycles_full (jenkins_rowOf kt Fs e0) N hN u c s0 (its - 1)]
    apply List.map_congr_left
    intro i hi
    have hi := List.mem_range.1 hi
    set n := its - 1
    set g : ℕ → ℝ × (ι → ℝ) := fun i => ((S (n * N + i)).fp, (S (n * N + i)).dfp) with hg
    have hnd : (critInds N u).Nodup := by
      unfold critInds
      exact List.nodup_range.filter _
    have hper : ∀ {α : Type} (v : ℕ → α) (k : ℕ), k < N → periodic N v (n * N + k) = v k := by
      intro α v k hk
      unfold periodic
      rw [Nat.mul_comm, Nat.mul_add_mod, Nat.mod_eq_of_lt hk]
    have hchain : ((critInds N u) ++ [N]).IsChain (fun x y => x < y ∧ ∀ i, x < i → i < y →
        fillEntry kt Fs u c (x+1) (g x) i = g i) := by
      have h1 := chain_filter_range (P := critP N u) (R := fun x y => x < y ∧ (y ≤ N → ∀ i, x < i → i < y →
        fillEntry kt Fs u c (x+1) (g x) i = g i)) (critP_zero N u) (by
          intro a b hab hno
          refine ⟨hab, fun hb i h1 h2 => ?_⟩
          have hup := stSeq_up kt Fs e0 (periodic N u) (periodic N c) s0 (n * N + a)
          rw [hper u a (by omega), hper c a (by omega)] at hup
          simp only [hg]
          rw [fillEntry_eq kt Fs e0 u c (S (n * N + a)) a i hup.1 hup.2]
          have := vector_chain hk hF e0 N hN u c s0 (n * N + a) (n * N + i) (by omega) (by
            intro k hk1 hk2
            have hk3 : critP N u k ↔ critP N u (k - n * N) := by
              have : k = n * N + (k - n * N) := by omega
              unfold critP
              conv_lhs => rw [this, Nat.mul_comm n N, Nat.mul_add_mod, Nat.mul_comm N n]
            rw [hk3]
            exact hno (k - n * N) (by omega) (by omega))
          rw [hper u i (by omega), hper c i (by omega)] at this
          rw [this]) (N + 1)
      rw [List.range_succ, List.filter_append, ← critInds_eq] at h1
      have hlast : [N].filter (fun i => decide (critP N u i)) = [N] := by
        rw [List.filter_cons_of_pos]
        · rfl
        · have := (critP_period N u 0).2 (critP_zero N u)
          simpa using this
      rw [hlast] at h1
      have hmem : ∀ x ∈ critInds N u ++ [N], x ≤ N := by
        intro x hx
        rw [List.mem_append, List.mem_singleton] at hx
        rcases hx with hx | hx
        · unfold critInds at hx
          rw [List.mem_filter, List.mem_range] at hx
          exact hx.1.le
        · exact hx.le
      rw [List.isChain_iff_getElem] at h1 ⊢
      intro i hi
      have h3 := h1 i hi
      exact ⟨h3.1, h3.2 (hmem _ (List.getElem_mem _))⟩
    have hsc : ∀ x ∈ critInds N u, scatterCrit (critInds N u) ftc (fun _ => (0, fun _ => 0)) x = g x := by
      intro x hx
      rw [eft]
      exact scatterCrit_map (critInds N u) hnd _ _ x hx
    rw [ht] at hchain hsc ⊢
    have := (fillLoop_spec kt Fs N u c g t 0 _ hchain hsc i).1 (Nat.zero_le _) hi
    simp only [List.headD_cons]
    exact this

/-- C34 (partial): whenever the history on the reversal points runs its second cycle, the vectorised
result equals two cycles of the serial slider at every instant, hence is the steady state. Missing: the
case where the loop on the reversal points stops after one cycle (`C34_violated`). -/
theorem C34_two_cycles_partial {ι : Type} (kt Fs : ℝ) (hk : 0 ≤ kt) (hF : 0 ≤ Fs) (e0 : ι → ℝ)
    (N : ℕ) (hN : 0 < N) (u : ℕ → ℝ) (c : ℕ → ι → ℝ) (unlth0 eps : ℝ) (ft : ℕ → ℝ × (ι → ℝ)) (its : ℕ)
    (h : vectorJenkinsHistory kt Fs e0 N u c unlth0 eps = .ok (ft, its)) (h2 : 2 ≤ its) :
    (List.range N).map ft = cycleRows (jenkinsOps kt Fs e0) ((List.range N).map fun i => (u i, c i))
        1 ((jenkinsOps kt Fs e0).init unlth0) ∧
    SteadyState N kt (fun _ => Fs) u (fun i => (ft i).1) := by
  obtain ⟨ft', its', e, h1, h2', e2⟩ := C34_vector_equals_serial_cycle kt Fs hk hF e0 N hN u c unlth0 eps
  rw [h] at e
  simp only [Except.ok.injEq, Prod.mk.injEq] at e
  obtain ⟨rfl, rfl⟩ := e
  have : its = 2 := by omega
  subst this
  refine ⟨e2, ?_⟩
  have hst := C30_second_cycle_steady kt Fs hF e0 N hN u c ((jenkinsOps kt Fs e0).init unlth0)
  rw [show (1:ℕ) = 2 - 1 from rfl, ← e2] at hst
  have hget : ∀ i < N, (((List.range N).map ft).map Prod.fst).getD i 0 = (ft i).1 := by
    intro i hi
    rw [List.getD_eq_getElem?_getD, List.getElem?_map, List.getElem?_map, List.getElem?_range hi]; rfl
  intro i hi
  have := hst i hi
  beta_reduce at this
  rw [hget i hi, hget _ (Nat.mod_lt _ hN)] at this
  exact this

/-- Non-vacuity of `C34_two_cycles_partial`: displacements `1, 0` run two cycles. -/
example (eps : ℝ) (he : 0 < eps) (he1 : eps < 1/10) :
    ∃ ft, vectorJenkinsHistory 1 (1/4) (fun _ : Unit => (1:ℝ)) 2 (fun i => if i = 0 then 1 else 0) (fun _ _ => 1)
      (1/2) eps = .ok (ft, 2) := by
  have hc : critInds 2 (fun i => if i = 0 then (1:ℝ) else 0) = List.range 2 := by
    unfold critInds
    rw [List.filter_eq_self.2]
    intro i hi
    have hi := List.mem_range.1 hi
    rw [@decide_eq_true_eq _ (Classical.propDecidable _)]
    have h2 : i = 0 ∨ i = 1 := by omega
    rcases h2 with rfl | rfl
    · left; rfl
    · right; simp
  obtain ⟨ft, h⟩ := twoCycles_run eps he he1
  unfold vectorJenkinsHistory
  simp only [hc]
  rw [h]
  exact ⟨_, rfl⟩

/-- Displacements (zero mean) of the counterexample: every instant is a reversal point. -/
def vecStopU : ℕ → ℝ := fun i => [-(4/5), -(4/5), 6/5, 1/5, 1/5].getD i (0:ℝ)

theorem vecStop_crit : critInds 5 vecStopU = [0, 1, 2, 3, 4] := by
  unfold critInds
  rw [List.filter_eq_self.2]
  · rfl
  intro i hi
  have hi := List.mem_range.1 hi
  rw [@decide_eq_true_eq _ (Classical.propDecidable _)]
  have h5 : i = 0 ∨ i = 1 ∨ i = 2 ∨ i = 3 ∨ i = 4 := by omega
  rcases h5 with rfl | rfl | rfl | rfl | rfl
  · left; rfl
  · right
    have a : vecStopU 1 - vecStopU ((1 + 5 - 1) % 5) = 0 := by norm_num [vecStopU]
    have b : vecStopU ((1 + 1) % 5) - vecStopU 1 > 0 := by norm_num [vecStopU]
    rw [a, sign_pos b]; simp
  · right
    have a : vecStopU 2 - vecStopU ((2 + 5 - 1) % 5) > 0 := by norm_num [vecStopU]
    have b : vecStopU ((2 + 1) % 5) - vecStopU 2 < 0 := by norm_num [vecStopU]
    rw [sign_pos a, sign_neg b]; simp
  · right
    have a : vecStopU 3 - vecStopU ((3 + 5 - 1) % 5) < 0 := by norm_num [vecStopU]
    have b : vecStopU ((3 + 1) % 5) - vecStopU 3 = 0 := by norm_num [vecStopU]
    rw [b, sign_neg a]; simp
  · right
    have a : vecStopU 4 - vecStopU ((4 + 5 - 1) % 5) = 0 := by norm_num [vecStopU]
    have b : vecStopU ((4 + 1) % 5) - vecStopU 4 < 0 := by norm_num [vecStopU]
    rw [a, sign_neg b]; simp

theorem vecStop_rows : (cycleRows (jenkinsOps 1 1 (fun _ : Unit => (1:ℝ)))
    ((List.range 5).map fun i => (vecStopU i, fun _ => (1:ℝ))) 0
      ((jenkinsOps 1 1 (fun _ : Unit => (1:ℝ))).init 0)).map Prod.fst = [-(4/5), -(4/5), 1, 0, 0] := by
  simp only [cycleRows, cycleState, List.range, List.range.loop, List.map, onePass, jenkinsOps, jenkinsStep,
    jenkinsLocal, vecStopU, List.getD_cons_zero, List.getD_cons_succ]
  norm_num [Real.sign]

/-- C34 as stated ("equals two cycles") is false: for this series with zero mean, the vectorised
history stops after one cycle and returns forces that are not the steady state. -/
theorem C34_violated (eps : ℝ) :
    ∃ ft, vectorJenkinsHistory 1 1 (fun _ : Unit => (1:ℝ)) 5 vecStopU (fun _ _ => 1) 0 eps = .ok (ft, 1) ∧
      ¬ SteadyState 5 1 (fun _ => 1) vecStopU (fun i => (ft i).1) := by
  obtain ⟨ft, its, e, h1, h2, e2⟩ := C34_vector_equals_serial_cycle 1 1 zero_le_one zero_le_one
    (fun _ : Unit => (1:ℝ)) 5 (by norm_num) vecStopU (fun _ _ => 1) 0 eps
  have hits : its = 1 := by
    unfold vectorJenkinsHistory at e
    simp only [vecStop_crit] at e
    have hr : ([0, 1, 2, 3, 4].map fun i => (vecStopU i, fun _ : Unit => (1:ℝ))) ≠ [] := by simp
    obtain ⟨ft', its', e', _⟩ := C32_cycle_count (jenkinsOps 1 1 (fun _ : Unit => (1:ℝ))) _ hr 0 2
      (1/10^10) (1/10^10) eps
    rw [e'] at e
    simp only [Except.ok.injEq, Prod.mk.injEq] at e
    rw [← e.2, C31_stops_early_iff 1 1 _ _ hr 0 2 le_rfl _ _ _ ft' its' e']
    left
    rw [lastForce_eq_getLast]
    have := vecStop_rows
    simp only [List.range, List.range.loop] at this
    rw [this]
    norm_num
  subst hits
  refine ⟨ft, e, fun h => ?_⟩
  have hrows : ((List.range 5).map ft).map Prod.fst = [-(4/5), -(4/5), 1, 0, 0] := by
    rw [e2]; exact vecStop_rows
  have hf0 : (ft 0).1 = -(4/5) := by
    have := congrArg (fun l => l.getD 0 0) hrows
    simpa [List.range, List.range.loop] using this
  have hf4 : (ft 4).1 = 0 := by
    have := congrArg (fun l => l.getD 4 0) hrows
    simpa [List.range, List.range.loop] using this
  have := h 0 (by norm_num)
  beta_reduce at this
  norm_num [hf0, hf4, vecStopU, clip] at this

end

end TMD
