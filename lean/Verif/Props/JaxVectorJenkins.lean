import Verif.Lemmas.JaxVectorJenkins
import Verif.Props.LocalForces

/-!
# Property C93: the JAX vectorised Jenkins element

The element selects `2 hmax + 1` samples, the expected maximum number of reversals of the motion, finds the friction
force there and then fills in the period. The result should be the steady state that the serial element finds.
-/

namespace TMD

open Spec Finset

noncomputable section

open Classical

/-- C93 (partial), the exact condition on the samples: if not more samples are marked than are kept, the history is at
every instant the one of the serial element, for every start position. -/
theorem C93_marked_partial (kt Fs : ℝ) (hk : 0 ≤ kt) (hF : 0 ≤ Fs) (Nt : ℕ) (u : ℕ → ℝ) (u0 : ℝ) (hmax : ℕ)
    (hK : 2 * hmax + 1 ≤ Nt) (hc : (critInds Nt u).length ≤ 2 * hmax + 1) :
    ∃ ft, jaxVectorHistory Nt u kt Fs u0 hmax = .ok ft ∧ (∀ i < Nt, ft i = jaxJenkinsHistory Nt u kt Fs u0 i) ∧
      SteadyState Nt kt (fun _ => Fs) u ft := by
  have hN : 0 < Nt := by omega
  have hKc : hmax * 2 + 1 = 2 * hmax + 1 := by ring
  set K := 2 * hmax + 1 with hKd
  set inds := jaxInds Nt u K with hinds
  have hlen : inds.length = K := jaxInds_length u hK
  have hnd : inds.Nodup := jaxInds_nodup Nt u K
  obtain ⟨P, hPdef⟩ : ∃ P : ℕ → Prop, ∀ i, P i ↔ i % Nt ∈ topK Nt (isCrit Nt u) K := ⟨_, fun _ => Iff.rfl⟩
  have hall : ∀ i < Nt, isCrit Nt u i → i ∈ topK Nt (isCrit Nt u) K := fun i hi hp => topK_all hc hi hp
  have hind2 : inds = (List.range Nt).filter (fun i => decide (P i)) := by
    rw [hinds, jaxInds_eq]
    apply List.filter_congr
    intro i hi
    simp only [hPdef, Nat.mod_eq_of_lt (List.mem_range.1 hi)]
  have hP0 : P 0 := by
    rw [hPdef, Nat.zero_mod]
    exact hall 0 hN (Or.inl rfl)
  have hPp : ∀ i, P (i + Nt) ↔ P i := by
    intro i
    rw [hPdef, hPdef, Nat.add_mod_right]
  have hPc : ∀ i, ¬ P i → ¬ critP Nt u i := fun i h hcr => h ((hPdef i).2 (hall _ (Nat.mod_lt _ hN) hcr))
  -- states
  set m := jenkinsOps kt Fs (fun _ : Unit => (0:ℝ)) with hm
  set s0 := m.init u0 with hs0
  set c : ℕ → Unit → ℝ := fun _ _ => 0 with hcd
  set S := stSeq m (periodic Nt u) (periodic Nt c) s0 with hS
  have hfil := (cycles_filtered (jenkins_rowOf kt Fs (fun _ : Unit => (0:ℝ))) Nt hN u c s0 P hP0 hPp
    (fun a b hab hno => vector_chain hk hF _ Nt hN u c s0 a b hab (fun i h1 h2 => hPc i (hno i h1 h2))) 1).1
  have hful := cycles_full (jenkins_rowOf kt Fs (fun _ : Unit => (0:ℝ))) Nt hN u c s0 1
  rw [← hind2] at hfil
  -- the serial history in terms of the states
  have hser : ∀ i < Nt, jaxJenkinsHistory Nt u kt Fs u0 i = (S (1 * Nt + i)).fp := by
    have h1 := C35_jax_equals_numpy kt Fs hF (fun _ : Unit => (0:ℝ)) Nt hN u c u0
    rw [← hm, ← hs0, hful, List.map_map] at h1
    intro i hi
    have h2 := congrArg (fun l => l.getD i 0) h1
    simpa [List.getD_eq_getElem?_getD, List.getElem?_map, List.getElem?_range hi] using h2
  -- the history on the selected samples
  have hget : ∀ i < K, inds.getD i 0 < Nt := by
    intro i hi
    have : inds.getD i 0 ∈ inds := by
      rw [List.getD_eq_getElem _ _ (by omega)]
      exact List.getElem_mem _
    have h2 : ∀ x ∈ inds, x < Nt := by
      intro x hx
      rw [hind2, List.mem_filter, List.mem_range] at hx
      exact hx.1
    exact h2 _ this
  have hrows : inds.map (fun i => (u i, c i)) = (List.range K).map (fun i => (u (inds.getD i 0), c i)) := by
    apply List.ext_getElem
    · simp [hlen]
    · intro i h1 h2
      rw [List.getElem_map, List.getElem_map, List.getElem_range, List.getD_eq_getElem _ _ (by simpa using h1)]
  have hsub : ∀ i < K, jaxJenkinsHistory K (fun i => u (inds.getD i 0)) kt Fs u0 i = (S (1 * Nt + inds.getD i 0)).fp := by
    have h1 := C35_jax_equals_numpy kt Fs hF (fun _ : Unit => (0:ℝ)) K (by omega) (fun i => u (inds.getD i 0)) c u0
    rw [← hm, ← hs0, ← hrows, hfil, List.map_map] at h1
    intro i hi
    have h2 := congrArg (fun l => l.getD i 0) h1
    have hi' : i < inds.length := by omega
    simp only [List.getD_eq_getElem?_getD, List.getElem?_map, List.getElem?_range hi, Option.map_some,
      Option.getD_some, List.getElem?_eq_getElem hi', Function.comp] at h2
    rw [List.getD_eq_getElem _ _ hi']
    simpa [List.getD_eq_getElem?_getD] using h2
  -- the loops
  set last := inds.getD (K - 1) 0 with hlast
  set f0 := setRow (fun _ => (0 : ℝ)) last (kt * (u last - u0)) with hf0
  set f1 := foriLoop (jaxCritBody inds u kt Fs) K f0 with hf1
  set f2 := foriLoop (jaxCritBody inds u kt Fs) K f1 with hf2
  set g0 := setRow (fun _ => (0 : ℝ)) (K - 1) (kt * ((fun i => u (inds.getD i 0)) (K - 1) - u0)) with hg0
  have l0 : ∀ i < inds.length, f0 (inds.getD i 0) = g0 i := by
    intro i hi
    have hinj : inds.getD i 0 = last ↔ i = K - 1 := by
      rw [hlast, List.getD_eq_getElem _ _ hi, List.getD_eq_getElem _ _ (by omega : K - 1 < inds.length)]
      exact hnd.getElem_inj_iff
    rw [hf0, hg0]
    unfold setRow
    by_cases h : i = K - 1
    · rw [if_pos h, if_pos (hinj.2 h)]
    · rw [if_neg h, if_neg (fun hc => h (hinj.1 hc))]
  have l1 := critLoop_sub inds hnd u kt Fs K hlen.ge f0 g0 l0
  have l2 := critLoop_sub inds hnd u kt Fs K hlen.ge _ _ l1
  rw [hlen] at l2
  have l3 : ∀ i < K, f2 (inds.getD i 0) = jaxJenkinsHistory K (fun i => u (inds.getD i 0)) kt Fs u0 i := l2
  have hz : inds.getD 0 0 = 0 := by
    rw [hind2]
    obtain ⟨M, hM⟩ : ∃ M, Nt = M + 1 := ⟨Nt - 1, by omega⟩
    rw [hM, List.range_succ_eq_map, List.filter_cons_of_pos (by simpa using hP0)]
    rfl
  have h0 : f2 0 = jaxJenkinsHistory Nt u kt Fs u0 0 := by
    have := l3 0 (by omega)
    rw [hsub 0 (by omega), hz] at this
    rw [this, hser 0 hN]
  have hst := C35_jax_steady kt Fs hF Nt hN u u0
  have hfin := serialLoop_from_one (Nt := Nt) u kt Fs f2 (jaxJenkinsHistory Nt u kt Fs u0) h0 (by
    intro i hi
    have := hst (i + 1) hi
    rw [show i + 1 + Nt - 1 = i + Nt by omega, Nat.add_mod_right, Nat.mod_eq_of_lt (by omega)] at this
    exact this) (Nt - 1) (by omega)
  have hfin' : ∀ i < Nt, (List.range' 1 (Nt - 1)).foldl (jaxJenkinsBody Nt u kt Fs) f2 i
      = jaxJenkinsHistory Nt u kt Fs u0 i := fun i hi => hfin i (by omega)
  refine ⟨_, ?_, hfin', ?_⟩
  · unfold jaxVectorHistory
    simp only [hKc]
    rw [if_neg (by omega)]
  · intro i hi
    rw [hfin' i hi, hfin' _ (Nat.mod_lt _ hN)]
    exact hst i hi

/-- C93 (partial), motions: samples of a motion with harmonics up to `hmax` without equal neighbours (or all equal) are
never too many, so the history is the one of the serial element. Missing: motions with equal neighbouring samples, which
are marked twice, see `C93_violated`. -/
theorem C93_history_partial (kt Fs : ℝ) (hk : 0 ≤ kt) (hF : 0 ≤ Fs) (h : List ℕ) (hmax : ℕ) (hh : ∀ k ∈ h, k ≤ hmax)
    (c : ℕ → ℝ) (Nt : ℕ) (hK : 2 * hmax + 1 ≤ Nt) (u : ℕ → ℝ) (hu : ∀ j, u j = series h c (2 * Real.pi * j / Nt))
    (hne : (∀ i < Nt, u i ≠ u ((i + 1) % Nt)) ∨ ∀ i < Nt, u i = u 0) (u0 : ℝ) :
    ∃ ft, jaxVectorHistory Nt u kt Fs u0 hmax = .ok ft ∧ (∀ i < Nt, ft i = jaxJenkinsHistory Nt u kt Fs u0 i) ∧
      SteadyState Nt kt (fun _ => Fs) u ft := by
  refine C93_marked_partial kt Fs hk hF Nt u u0 hmax hK ?_
  rcases hne with hne | hne
  · exact reversals_le hmax h hh c Nt (by omega) u hu hne
  · have : critInds Nt u = [0] := by
      obtain ⟨M, hM⟩ : ∃ M, Nt = M + 1 := ⟨Nt - 1, by omega⟩
      unfold critInds
      rw [hM, List.range_succ_eq_map, List.filter_cons_of_pos (by simp [isCrit])]
      congr 1
      rw [List.filter_eq_nil_iff]
      intro i hi
      rw [List.mem_map] at hi
      obtain ⟨j, hj, rfl⟩ := hi
      have hj' := List.mem_range.1 hj
      have hN : 0 < Nt := by omega
      rw [← hM]
      have e : ∀ i, u (i % Nt) = u 0 := fun i => hne _ (Nat.mod_lt _ hN)
      have e' : u j.succ = u 0 := hne _ (by omega)
      simp only [isCrit, e, e', sub_self, decide_eq_true_eq]
      simp
    rw [this]
    simp

/-- C93 (partial): the harmonic force of the element is the one of the serial JAX element. -/
theorem C93_aft_partial {h : List ℕ} (hA : Admissible h) (hh : 1 < numCoeff h) (hsort : ∀ k ∈ h, k ≤ h.getLastD 0) {Nt : ℕ}
    (hNt : ∀ k ∈ h, 2*k + 1 < Nt) (heven : Even Nt) (N : ℕ) (Q T : ℕ → ℕ → ℝ) (kt Fs : ℝ) (hk : 0 ≤ kt) (hF : 0 ≤ Fs)
    (u0 : EdfU0) (U : ℕ → ℝ) (w : ℝ)
    (hne : (∀ i < Nt, localMotion N Q h U 0 (2 * Real.pi * i / Nt)
        ≠ localMotion N Q h U 0 (2 * Real.pi * ((i + 1) % Nt : ℕ) / Nt)) ∨
      ∀ i < Nt, localMotion N Q h U 0 (2 * Real.pi * i / Nt) = localMotion N Q h U 0 0) :
    ∃ F F', jaxVectorAft N Q T kt Fs u0 U h Nt = .ok F ∧ (PForce.jaxJenkins N Q T kt Fs u0).aftF U w h Nt = .ok F' ∧
      ∀ r < numCoeff h, ∀ i < N, F (r*N + i) = F' (r*N + i) := by
  obtain ⟨cst, -, -, c3⟩ := ts_sampled hA hNt heven
  obtain ⟨x1, -⟩ := c3 N Q U
  have hl : 2 * h.getLastD 0 + 1 ≤ Nt := by
    have : h.getLastD 0 ∈ h := by
      rw [List.getLastD_eq_getLast?, List.getLast?_eq_some_getLast hA.ne]
      exact List.getLast_mem _
    have := hNt _ this
    omega
  set z := jaxStart u0 (unlOf N Q U 0) with hz
  obtain ⟨ft, h1, h2, -⟩ := C93_history_partial kt Fs hk hF h (h.getLastD 0) hsort (fun r => unlOf N Q U r 0) Nt hl
    (fun j => (sampledDisp N Q h U Nt).val j 0) (fun j => by rw [localMotion_eq]; rfl) (by
      rcases hne with hne | hne
      · exact Or.inl hne
      · refine Or.inr fun i hi => ?_
        show localMotion N Q h U 0 (2 * Real.pi * i / Nt) = localMotion N Q h U 0 (2 * Real.pi * (0:ℕ) / Nt)
        rw [hne i hi]
        simp) z
  obtain ⟨W, hW⟩ := gfc_linear hA (Nt := Nt) (fun k hk => by have := hNt k hk; omega)
  have hrow : (sampledDisp N Q h U Nt).rows = Nt := rfl
  obtain ⟨Fh, g1, g2, -⟩ := hW (fun j (_ : ℕ) => ft j)
  obtain ⟨Fh', g1', g2', -⟩ := hW (fun j (_ : ℕ) => jaxJenkinsHistory Nt (fun j => (sampledDisp N Q h U Nt).val j 0) kt Fs z j)
  refine ⟨toGlobal N 1 T Fh, toGlobal N 1 T Fh', ?_, ?_, fun r hr i hi => ?_⟩
  · unfold jaxVectorAft
    rw [if_neg (not_not.2 (jax_dofs hh 1))]
    simp only [x1, hrow, ← hz, h1, g1]
  · simp only [PForce.jaxJenkins]
    unfold jaxAft
    rw [if_neg (not_not.2 (jax_dofs hh 1))]
    simp only [x1, hrow, ← hz, g1']
  · rw [toGlobal_block _ _ hi, toGlobal_block _ _ hi]
    refine sum_congr rfl fun d _ => ?_
    rw [g2 r hr d, g2' r hr d]
    congr 1
    exact sum_congr rfl fun j hj => by rw [h2 j (Finset.mem_range.1 hj)]

/-! ## Too many marks -/

/-- Eighths of a turn. -/
theorem cos_eighths (m : ℕ) : Real.cos (m * (Real.pi / 4)) = Real.cos ((m % 8 : ℕ) * (Real.pi / 4)) := by
  conv_lhs => rw [← Nat.mod_add_div m 8]
  push_cast
  rw [show (((m % 8 : ℕ) : ℝ) + 8 * ((m / 8 : ℕ) : ℝ)) * (Real.pi / 4)
    = ((m % 8 : ℕ) : ℝ) * (Real.pi / 4) + ((m / 8 : ℕ) : ℝ) * (2 * Real.pi) by ring, Real.cos_add_nat_mul_two_pi]

theorem sin_eighths (m : ℕ) : Real.sin (m * (Real.pi / 4)) = Real.sin ((m % 8 : ℕ) * (Real.pi / 4)) := by
  conv_lhs => rw [← Nat.mod_add_div m 8]
  push_cast
  rw [show (((m % 8 : ℕ) : ℝ) + 8 * ((m / 8 : ℕ) : ℝ)) * (Real.pi / 4)
    = ((m % 8 : ℕ) : ℝ) * (Real.pi / 4) + ((m / 8 : ℕ) : ℝ) * (2 * Real.pi) by ring, Real.sin_add_nat_mul_two_pi]

/-- Coefficients of the counterexample for `h = [0, 1, 2, 3]`. -/
def plateauC : ℕ → ℝ := fun i => [-(1/4), (1 - √2/2)/4, -(3*(√2/2))/4, -(1/4), -(3/4), (1 + √2/2)/4, -(3*(√2/2))/4].getD i 0

/-- Its samples. -/
def plateauU : ℕ → ℝ := fun i => [0, -2, 0, 0, -1, 0, 0, 1].getD (i % 8) 0

theorem eighth_table (m : ℕ) : Real.cos (m * (Real.pi / 4)) = [1, √2/2, 0, -(√2/2), -1, -(√2/2), 0, √2/2].getD (m % 8) 0 ∧
    Real.sin (m * (Real.pi / 4)) = [0, √2/2, 1, √2/2, 0, -(√2/2), -1, -(√2/2)].getD (m % 8) 0 := by
  have c2 : Real.cos (2 * (Real.pi / 4)) = 0 := by
    rw [show 2 * (Real.pi / 4) = Real.pi / 2 by ring, Real.cos_pi_div_two]
  have s2 : Real.sin (2 * (Real.pi / 4)) = 1 := by
    rw [show 2 * (Real.pi / 4) = Real.pi / 2 by ring, Real.sin_pi_div_two]
  have c3 : Real.cos (3 * (Real.pi / 4)) = -(√2 / 2) := by
    rw [show 3 * (Real.pi / 4) = Real.pi - Real.pi / 4 by ring, Real.cos_pi_sub, Real.cos_pi_div_four]
  have s3 : Real.sin (3 * (Real.pi / 4)) = √2 / 2 := by
    rw [show 3 * (Real.pi / 4) = Real.pi - Real.pi / 4 by ring, Real.sin_pi_sub, Real.sin_pi_div_four]
  have c4 : Real.cos (4 * (Real.pi / 4)) = -1 := by rw [show 4 * (Real.pi / 4) = Real.pi by ring, Real.cos_pi]
  have s4 : Real.sin (4 * (Real.pi / 4)) = 0 := by rw [show 4 * (Real.pi / 4) = Real.pi by ring, Real.sin_pi]
  have c5 : Real.cos (5 * (Real.pi / 4)) = -(√2 / 2) := by
    rw [show 5 * (Real.pi / 4) = Real.pi / 4 + Real.pi by ring, Real.cos_add_pi, Real.cos_pi_div_four]
  have s5 : Real.sin (5 * (Real.pi / 4)) = -(√2 / 2) := by
    rw [show 5 * (Real.pi / 4) = Real.pi / 4 + Real.pi by ring, Real.sin_add_pi, Real.sin_pi_div_four]
  have c6 : Real.cos (6 * (Real.pi / 4)) = 0 := by
    rw [show 6 * (Real.pi / 4) = 2 * (Real.pi / 4) + Real.pi by ring, Real.cos_add_pi, c2, neg_zero]
  have s6 : Real.sin (6 * (Real.pi / 4)) = -1 := by
    rw [show 6 * (Real.pi / 4) = 2 * (Real.pi / 4) + Real.pi by ring, Real.sin_add_pi, s2]
  have c7 : Real.cos (7 * (Real.pi / 4)) = √2 / 2 := by
    rw [show 7 * (Real.pi / 4) = 3 * (Real.pi / 4) + Real.pi by ring, Real.cos_add_pi, c3, neg_neg]
  have s7 : Real.sin (7 * (Real.pi / 4)) = -(√2 / 2) := by
    rw [show 7 * (Real.pi / 4) = 3 * (Real.pi / 4) + Real.pi by ring, Real.sin_add_pi, s3]
  rw [cos_eighths, sin_eighths]
  have hm : m % 8 < 8 := Nat.mod_lt _ (by norm_num)
  generalize m % 8 = n at *
  interval_cases n <;> simp [c2, s2, c3, s3, c4, s4, c5, s5, c6, s6, c7, s7]

theorem plateau_samples : (fun j : ℕ => series [0, 1, 2, 3] plateauC (2 * Real.pi * j / (8:ℕ))) = plateauU := by
  funext j
  have e : ∀ k : ℕ, (k:ℝ) * (2 * Real.pi * j / (8:ℕ)) = ((k * j : ℕ) : ℝ) * (Real.pi / 4) := fun k => by push_cast; ring
  have hq : √2 * √2 = 2 := Real.mul_self_sqrt (by norm_num)
  have hmod : ∀ k : ℕ, (k * j) % 8 = (k * (j % 8)) % 8 := fun k => by rw [Nat.mul_mod_mod]
  simp only [series, one_ne_zero, OfNat.ofNat_ne_zero, if_false, if_true, e, (eighth_table _).1, (eighth_table _).2, hmod,
    plateauU]
  have hm : j % 8 < 8 := Nat.mod_lt _ (by norm_num)
  generalize j % 8 = n at *
  interval_cases n <;> simp [plateauC] <;> ring_nf <;> norm_num

theorem plateau_inds : jaxInds 8 plateauU 7 = [0, 1, 2, 3, 4, 5, 6] := by
  have hall : ∀ i < 8, isCrit 8 plateauU i := by
    intro i hi
    interval_cases i
    · exact Or.inl rfl
    all_goals
      right
      norm_num [plateauU]
      try decide
  have h1 : (List.range 8).filter (fun i => decide (isCrit 8 plateauU i)) = List.range 8 := by
    rw [List.filter_eq_self]
    intro i hi
    exact decide_eq_true (hall i (List.mem_range.1 hi))
  have h2 : topK 8 (isCrit 8 plateauU) 7 = [0, 1, 2, 3, 4, 5, 6] := by
    unfold topK
    rw [h1]
    rfl
  rw [jaxInds_eq, h2]
  rfl

/-- C93 is false: the samples `0, -2, 0, 0, -1, 0, 0, 1` of a motion with harmonics up to 3 contain pairs of equal
neighbours and all 8 are marked, but 7 are kept. The reversal at the last one is lost and the force at time zero has
the wrong sign: `1/2` instead of `-1/2`; the history is not a steady state. -/
theorem C93_violated :
    ∃ ft, jaxVectorHistory 8 (fun j => series [0, 1, 2, 3] plateauC (2 * Real.pi * j / (8:ℕ))) 1 (1/2) 0 3 = .ok ft ∧
      ft 0 = 1/2 ∧
      jaxJenkinsHistory 8 (fun j => series [0, 1, 2, 3] plateauC (2 * Real.pi * j / (8:ℕ))) 1 (1/2) 0 0 = -(1/2) ∧
      ¬ SteadyState 8 1 (fun _ => 1/2) (fun j => series [0, 1, 2, 3] plateauC (2 * Real.pi * j / (8:ℕ))) ft := by
  rw [plateau_samples]
  have hl : (jaxInds 8 plateauU 7).length = 7 := jaxInds_length plateauU (by norm_num)
  set f0 := setRow (fun _ => (0 : ℝ)) 6 (1 * (plateauU 6 - 0)) with hf0
  set f1 := foriLoop (jaxCritBody [0, 1, 2, 3, 4, 5, 6] plateauU 1 (1/2)) 7 f0 with hf1
  set f2 := foriLoop (jaxCritBody [0, 1, 2, 3, 4, 5, 6] plateauU 1 (1/2)) 7 f1 with hf2
  have hrun : jaxVectorHistory 8 plateauU 1 (1/2) 0 3
      = .ok ((List.range' 1 (8 - 1)).foldl (jaxJenkinsBody 8 plateauU 1 (1/2)) f2) := by
    unfold jaxVectorHistory
    rw [if_neg (by norm_num)]
    simp only [show 3 * 2 + 1 = 7 from rfl, plateau_inds]
    rfl
  set u' : ℕ → ℝ := fun i => plateauU ([0, 1, 2, 3, 4, 5, 6].getD i 0) with hu'
  have hnd : [0, 1, 2, 3, 4, 5, 6].Nodup := by decide
  have l1 := critLoop_sub [0, 1, 2, 3, 4, 5, 6] hnd plateauU 1 (1/2) 7 le_rfl f0 f0 (by
    intro i hi
    have hi' : i < 7 := hi
    interval_cases i <;> rfl)
  have l2 := critLoop_sub [0, 1, 2, 3, 4, 5, 6] hnd plateauU 1 (1/2) 7 le_rfl _ _ l1
  have h0 : f2 0 = 1/2 := by
    have := l2 0 (by simp)
    rw [show [0, 1, 2, 3, 4, 5, 6].getD 0 0 = 0 from rfl] at this
    rw [hf2, this, show [0, 1, 2, 3, 4, 5, 6].length = 7 from rfl, foriLoop_jax _ _ _ _ _ 7 le_rfl, if_pos (by norm_num), foriLoop_jax _ _ _ _ _ 7 le_rfl, if_pos (by simp)]
    norm_num [slider, clip, plateauU, hf0, setRow]
  set g : ℕ → ℝ := fun i => Nat.rec (f2 0) (fun i x => clip (1/2) (1 * (plateauU (i + 1) - plateauU i) + x)) i with hg
  have hfin := serialLoop_from_one (Nt := 8) plateauU 1 (1/2) f2 g rfl (fun i _ => rfl) 7 (by norm_num)
  refine ⟨_, hrun, ?_, ?_, ?_⟩
  · rw [hfin 0 (by norm_num)]
    exact h0
  · unfold jaxJenkinsHistory
    rw [foriLoop_jax _ _ _ _ _ 8 le_rfl, if_pos (by norm_num), foriLoop_jax _ _ _ _ _ 8 le_rfl, if_pos (by simp)]
    norm_num [slider, clip, plateauU, setRow]
  · intro hst
    have := hst 0 (by norm_num)
    rw [show (0 + 8 - 1) % 8 = 7 from rfl, hfin 0 (by norm_num), hfin 7 (by norm_num)] at this
    have gs : ∀ i, g (i + 1) = clip (1/2) (1 * (plateauU (i + 1) - plateauU i) + g i) := fun i => rfl
    have g0 : g 0 = 1/2 := h0
    have g6 : -(1/2) ≤ g 6 := by
      rw [show g 6 = _ from gs 5]
      exact le_max_left _ _
    have g7 : g 7 = 1/2 := by
      rw [show g 7 = _ from gs 6]
      simp only [clip]
      norm_num [plateauU]
      rw [min_eq_right (by linarith), max_eq_right (by norm_num)]
    rw [g0, g7] at this
    norm_num [clip, plateauU] at this

/-- Example: two samples per reversal of `cos τ + 1/4 sin τ`, four samples: the history of the serial element. -/
example (u0 : ℝ) : ∃ ft, jaxVectorHistory 4 (fun j => series [1] (fun r => if r = 0 then 1 else 1/4) (2 * Real.pi * j / (4:ℕ)))
      1 (1/2) u0 1 = .ok ft ∧
    SteadyState 4 1 (fun _ => 1/2) (fun j => series [1] (fun r => if r = 0 then 1 else 1/4) (2 * Real.pi * j / (4:ℕ))) ft := by
  have c0 : ∀ j : ℕ, series [1] (fun r => if r = 0 then 1 else 1/4) (2 * Real.pi * j / (4:ℕ))
      = [1, 1/4, -1, -(1/4)].getD (j % 4) (0:ℝ) := by
    intro j
    have e : (1:ℝ) * (2 * Real.pi * j / (4:ℕ)) = ((2 * j : ℕ) : ℝ) * (Real.pi / 4) := by push_cast; ring
    simp only [series, one_ne_zero, if_false, if_true, Nat.cast_one, e, (eighth_table _).1, (eighth_table _).2]
    have hm : (2 * j) % 8 = 2 * (j % 4) := by omega
    rw [hm]
    have : j % 4 < 4 := Nat.mod_lt _ (by norm_num)
    generalize j % 4 = n at *
    interval_cases n <;> norm_num
  obtain ⟨ft, h1, -, h3⟩ := C93_history_partial 1 (1/2) (by norm_num) (by norm_num) [1] 1 (by simp)
    (fun r => if r = 0 then 1 else 1/4) 4 (by norm_num) _ (fun j => rfl) (Or.inl (by
      intro i hi
      simp only [c0]
      interval_cases i <;> norm_num)) u0
  exact ⟨ft, h1, h3⟩

end

end TMD
