import Verif.Lemmas.JaxVectorGrad
import Verif.Props.JaxGrad
import Verif.Props.JaxVectorJenkins
import Verif.Props.HystContinuity

/-!
# Property C109: the automatic derivatives of the JAX vectorised Jenkins element

The element returns, besides the harmonic forces, the Jacobian that `jax.jacfwd` finds. The selection of the reversal
points is not differentiated. The Jacobian is the derivative of the forces wherever no two neighbouring samples are equal
and no elastic prediction lies at the friction limit. Where neighbouring samples are equal, the force itself may jump.
-/

namespace TMD

open Spec Finset Filter Topology

noncomputable section

/-- Continuing the slider from the second cycle. -/
theorem slider_fill {kt L : ℝ} {Nt : ℕ} (hN : 0 < Nt) (u : ℕ → ℝ) (z : ℝ) {f : ℝ}
    (hf : f = slider kt (fun _ => L) (periodic Nt u) z 0 Nt) (i : ℕ) (hi : i + 1 < Nt) :
    slider kt (fun _ => L) (fun i => u (i + 1)) (u 0) f i = slider kt (fun _ => L) (periodic Nt u) z 0 (Nt + i + 1) ∧
    sliderTrial kt (fun _ => L) (fun i => u (i + 1)) (u 0) f i
      = sliderTrial kt (fun _ => L) (periodic Nt u) z 0 (Nt + i + 1) := by
  have e : ∀ j < Nt, periodic Nt u (Nt + j) = u j := fun j hj => by
    unfold periodic; rw [Nat.add_mod_left, Nat.mod_eq_of_lt hj]
  induction i with
  | zero =>
    have e1 := e 1 (by omega)
    have e0 := e 0 hN
    simp only [Nat.add_zero] at e0
    simp only [slider, sliderTrial, Nat.zero_add]
    rw [e1, e0, hf]
    exact ⟨rfl, rfl⟩
  | succ i ih =>
    obtain ⟨ih1, -⟩ := ih (by omega)
    have e1 := e (i + 1 + 1) (by omega)
    have e0 := e (i + 1) (by omega)
    have hT : sliderTrial kt (fun _ => L) (periodic Nt u) z 0 (Nt + (i + 1) + 1)
        = kt * (periodic Nt u (Nt + (i + 1 + 1)) - periodic Nt u (Nt + (i + 1)))
          + slider kt (fun _ => L) (periodic Nt u) z 0 (Nt + i + 1) := rfl
    have hS : slider kt (fun _ => L) (periodic Nt u) z 0 (Nt + (i + 1) + 1)
        = clip L (sliderTrial kt (fun _ => L) (periodic Nt u) z 0 (Nt + (i + 1) + 1)) := rfl
    have hT' : sliderTrial kt (fun _ => L) (fun i => u (i + 1)) (u 0) f (i + 1)
        = kt * (u (i + 1 + 1) - u (i + 1)) + slider kt (fun _ => L) (fun i => u (i + 1)) (u 0) f i := rfl
    have hS' : slider kt (fun _ => L) (fun i => u (i + 1)) (u 0) f (i + 1)
        = clip L (sliderTrial kt (fun _ => L) (fun i => u (i + 1)) (u 0) f (i + 1)) := rfl
    rw [hS, hS', hT, hT', e1, e0, ih1]
    exact ⟨rfl, rfl⟩

theorem last_le {h : List ℕ} (hA : Admissible h) {Nt : ℕ} (hNt : ∀ k ∈ h, 2*k + 1 < Nt) : h.getLastD 0 * 2 + 1 ≤ Nt := by
  have : h.getLastD 0 ∈ h := by
    rw [List.getLastD_eq_getLast?, List.getLast?_eq_some_getLast hA.ne]
    exact List.getLast_mem _
  have := hNt _ this
  omega

section main

variable {h : List ℕ} (hA : Admissible h) {Nt : ℕ} (hNt : ∀ k ∈ h, 2*k + 1 < Nt) (heven : Even Nt)
  (hh : 1 < numCoeff h)

include hA hNt heven hh

/-- The program with derivatives. -/
theorem jaxVectorGrad_run (N : ℕ) (Q T : ℕ → ℕ → ℝ) (kt Fs : ℝ) (u0 : EdfU0) :
    ∃ cst : TS ℕ, (∀ N Q (U : ℕ → ℝ) d j, localMotion N Q h U d (2 * Real.pi * (j : ℕ) / Nt)
      = ∑ r ∈ range (numCoeff h), cst.val j r * unlOf N Q U r d) ∧
    ∃ out : (ℕ → ℝ) → AftOut, (∀ U, jaxVectorAftGrad N Q T kt Fs u0 U h Nt = .ok (out U)) ∧
      (∀ U, jaxVectorAft N Q T kt Fs u0 U h Nt = .ok (out U).F) ∧
      ∀ Z U, U = sl 0 (numCoeff h * N) Z →
        (∀ j < Nt, Tracks (numCoeff h * N) (numCoeff h * 1) (kronEye 1 N Q) U
          (fun U => gVectorHistory realNum id Nt (dofSamples N Q h Nt U 0) kt Fs (sliderStart N Q u0 U 0) (h.getLastD 0) j)
          (gVectorHistory dualNum Dual.v Nt (fun j => dualSamples N 1 Q h Nt cst U j 0) kt Fs
            (gStart dualNum u0 (dualStart N 1 Q U) 0) (h.getLastD 0) j)) →
        (∀ j < Nt, (gVectorHistory dualNum Dual.v Nt (fun j => dualSamples N 1 Q h Nt cst U j 0) kt Fs
            (gStart dualNum u0 (dualStart N 1 Q U) 0) (h.getLastD 0) j).d (numCoeff h * 1) = 0) →
        JointTrue (fun U _ => out U) (numCoeff h * N) Z := by
  have hK := last_le hA hNt
  obtain ⟨cst, c3, out, o1, o2, o3⟩ := jaxGrad_joint hA hNt heven hh N 1 Q T
    (fun Nt u z j _ => gVectorHistory dualNum Dual.v Nt (fun j => u j 0) kt Fs (gStart dualNum u0 z 0) (h.getLastD 0) j)
    (fun n u z j _ => gVectorHistory realNum id n (fun j => u j 0) kt Fs (gStart realNum u0 z 0) (h.getLastD 0) j)
    (fun n u z j d => by rw [gVector_v, gStart_v])
  obtain ⟨-, -, -, c4⟩ := ts_sampled hA hNt heven
  refine ⟨cst, c3, out, fun U => ?_, fun U => ?_, fun Z U hU h1 h2 => o3 Z U hU (fun j hj d hd => ?_) (fun j hj d hd => h2 j hj)⟩
  · rw [← o1 U]
    unfold jaxVectorAftGrad
    have hrow : (sampledDisp N Q h U Nt).rows = Nt := rfl
    rw [if_neg (not_not.2 (jax_dofs hh 1)), (c4 N Q U).1]
    simp only [hrow]
    rw [if_neg (by omega)]
  · have := o2 U
    have hrow : (sampledDisp N Q h U Nt).rows = Nt := rfl
    unfold jaxAft at this
    unfold jaxVectorAft
    rw [if_neg (not_not.2 (jax_dofs hh 1))] at this ⊢
    simp only [(c4 N Q U).1, hrow] at this ⊢
    rw [gVector_real _ _ _ _ _ _ hK]
    have hs : jaxStart u0 (unlOf N Q U 0) = gStart realNum u0 (unlOf N Q U 0) 0 := by cases u0 <;> rfl
    rw [hs]
    exact this
  · refine tracks_fun (h1 j hj) fun U => ?_
    rw [gStart_real]
    rfl

/-- C109: `aft` returns the force of the element and, wherever no two neighbouring samples are equal and no prediction is
at the slip limit, its true derivatives. -/
theorem C109_aft_partial (hsort : ∀ k ∈ h, k ≤ h.getLastD 0) (N : ℕ) (Q T : ℕ → ℕ → ℝ) (kt Fs : ℝ) (hk : 0 ≤ kt) (hF : 0 ≤ Fs)
    (u0 : EdfU0) :
    ∃ out : (ℕ → ℝ) → AftOut, (∀ U, jaxVectorAftGrad N Q T kt Fs u0 U h Nt = .ok (out U)) ∧
      (∀ U, jaxVectorAft N Q T kt Fs u0 U h Nt = .ok (out U).F) ∧
      ∀ Z U, U = sl 0 (numCoeff h * N) Z →
        (∀ i < Nt, dofSamples N Q h Nt U 0 i ≠ dofSamples N Q h Nt U 0 ((i + 1) % Nt)) →
        OffFriction kt (fun _ => Fs) Nt (dofSamples N Q h Nt U 0) (sliderStart N Q u0 U 0) →
        JointTrue (fun U _ => out U) (numCoeff h * N) Z := by
  classical
  have hN := samples_pos hA hNt
  have hK := last_le hA hNt
  obtain ⟨cst, c3, out, o1, o2, o3⟩ := jaxVectorGrad_run hA hNt heven hh N Q T kt Fs u0
  refine ⟨out, o1, o2, fun Z U hU hne hoff => ?_⟩
  set u := dofSamples N Q h Nt U 0 with hu
  set K := h.getLastD 0 * 2 + 1 with hKd
  set inds := jaxInds Nt u K with hinds
  have hlen : inds.length = K := jaxInds_length u hK
  have hcount : (critInds Nt u).length ≤ K := by
    have := reversals_le (h.getLastD 0) h hsort (fun r => unlOf N Q U r 0) Nt hN u
      (fun j => by rw [hu, dofSamples, localMotion_eq]) hne
    omega
  have hz : inds.getD 0 0 = 0 := jaxInds_zero u hN (by omega)
  have hcrit : ∀ k ≤ inds.length, |sliderTrial kt (fun _ => Fs) (periodic inds.length fun i => u (inds.getD i 0))
      (sliderStart N Q u0 U 0) 0 k| ≠ Fs ∧
      slider kt (fun _ => Fs) (periodic inds.length fun i => u (inds.getD i 0)) (sliderStart N Q u0 U 0) 0 k
      = slider kt (fun _ => Fs) (periodic Nt u) (sliderStart N Q u0 U 0) 0 (selPos Nt inds k) := by
    intro k hk'
    obtain ⟨P, hPdef⟩ : ∃ P : ℕ → Prop, ∀ i, P i ↔ i % Nt ∈ topK Nt (isCrit Nt u) K := ⟨_, fun _ => Iff.rfl⟩
    have hall : ∀ i < Nt, isCrit Nt u i → i ∈ topK Nt (isCrit Nt u) K := fun i hi hp => topK_all hcount hi hp
    have hind2 : inds = (List.range Nt).filter (fun i => decide (P i)) := by
      rw [hinds, jaxInds_eq]
      apply List.filter_congr
      intro i hi
      simp only [hPdef, Nat.mod_eq_of_lt (List.mem_range.1 hi)]
    obtain ⟨a, b⟩ := slider_selected inds P hind2 (by rw [hPdef, Nat.zero_mod]; exact hall 0 hN (Or.inl rfl)) hN
      (fun i => by rw [hPdef, hPdef, Nat.add_mod_right]) hk hF u
      (fun i h hcr => h ((hPdef i).2 (hall _ (Nat.mod_lt _ hN) hcr))) hz (sliderStart N Q u0 U 0)
      (fun k hk => hoff k hk) k (by omega)
    exact ⟨b, a⟩
  have hfirst : gFirst realNum inds u kt Fs (sliderStart N Q u0 U 0)
      = slider kt (fun _ => Fs) (periodic Nt u) (sliderStart N Q u0 U 0) 0 Nt := by
    rw [gFirst_real, (hcrit _ le_rfl).2]
    congr 1
    unfold selPos
    rw [Nat.div_self (by omega), Nat.mod_self, hz]
    omega
  have hs := fun i => dualSamples_tracks (Nt := Nt) (m := 1) Q (j := i) (d := 0) one_pos (fun U => c3 N Q U 0 i) U
  have hg := gStart_tracks (n := numCoeff h) Q u0 one_pos (N := N) (d := 0) U
  refine o3 Z U hU (fun j hj => ?_) (fun j hj => ?_)
  · have hd : (jaxInds Nt (fun j => Dual.v (dualSamples N 1 Q h Nt cst U j 0)) K) = inds := rfl
    rw [gVector_filled dualNum Dual.v Nt _ kt Fs _ _ hK (by rw [hd]; exact hz) j hj, hd]
    refine tracks_near (gFilled_tracks inds hF (u := fun i U => dofSamples N Q h Nt U 0 i) hs hg
      (fun k hk => (hcrit k hk).1) j (fun i hi => ?_)) ?_ ?_
    · rw [(slider_fill hN u _ hfirst i (by omega)).2]
      have := hoff (Nt + i + 1) (by omega)
      exact this
    · rw [gVector_filled realNum id Nt _ kt Fs _ _ hK (jaxInds_zero _ hN (by omega)) j hj]
      rfl
    · refine (jaxInds_near K hN (fun i => hasGrad_tendsto (hs i).2) hne).mono fun v hv => ?_
      rw [gVector_filled realNum id Nt _ kt Fs _ _ hK (jaxInds_zero _ hN (by omega)) j hj]
      congr 1
  · have h0 := jaxInds_zero (fun j => Dual.v (dualSamples N 1 Q h Nt cst U j 0)) hN (K := K) (by omega)
    rw [gVector_filled dualNum Dual.v Nt _ kt Fs _ _ hK h0 j hj]
    exact gFilled_zero_tangent _ kt Fs
      (fun i => dualSamples_last (h := h) (Nt := Nt) (N := N) (m := 1) Q cst U i one_pos)
      (gStart_last (N := N) (m := 1) Q u0 U (by omega : 0 < numCoeff h) one_pos) j

end main

/-! ## Equal neighbours -/

/-- The path of coefficients `plateauC + ε sin τ`. -/
def plateauPath (ε : ℝ) : Fin 7 → ℝ := fun i => if i = 2 then ε else 0

theorem plateau_path (ε τ : ℝ) : localMotion 1 (fun _ _ => 1) [0, 1, 2, 3]
    (fun i => plateauC i + Spec.ext (plateauPath ε) i) 0 τ = series [0, 1, 2, 3] plateauC τ + ε * Real.sin τ := by
  rw [← localMotion_eq]
  simp [series, unlOf, matMul, Spec.ext, plateauPath]
  ring

theorem plateau_path_samples (ε : ℝ) (j : ℕ) : localMotion 1 (fun _ _ => 1) [0, 1, 2, 3]
    (fun i => plateauC i + Spec.ext (plateauPath ε) i) 0 (2 * Real.pi * j / (8:ℕ))
      = plateauU j + ε * [0, √2/2, 1, √2/2, 0, -(√2/2), -1, -(√2/2)].getD (j % 8) 0 := by
  rw [plateau_path, ← (eighth_table j).2, show 2 * Real.pi * j / (8:ℕ) = j * (Real.pi / 4) by push_cast; ring,
    ← show 2 * Real.pi * j / (8:ℕ) = j * (Real.pi / 4) by push_cast; ring, congrFun plateau_samples j]

theorem plateau_path_ne {ε : ℝ} (h0 : ε ≠ 0) (h1 : |ε| < 1/4) (i : ℕ) (hi : i < 8) :
    localMotion 1 (fun _ _ => 1) [0, 1, 2, 3] (fun i => plateauC i + Spec.ext (plateauPath ε) i) 0 (2 * Real.pi * i / (8:ℕ))
      ≠ localMotion 1 (fun _ _ => 1) [0, 1, 2, 3] (fun i => plateauC i + Spec.ext (plateauPath ε) i) 0
        (2 * Real.pi * ((i + 1) % 8 : ℕ) / (8:ℕ)) := by
  rw [plateau_path_samples, plateau_path_samples]
  have hr : √2 * √2 = 2 := Real.mul_self_sqrt (by norm_num)
  have hs0 : 0 ≤ √2 := Real.sqrt_nonneg 2
  have hs : √2 / 2 < 1 := by nlinarith
  obtain ⟨e1, e2⟩ := abs_lt.1 h1
  have ht : |ε * (√2 / 2)| < 1/4 := by
    rw [abs_mul, abs_of_nonneg (by positivity : 0 ≤ √2 / 2)]
    nlinarith [abs_nonneg ε]
  obtain ⟨t1, t2⟩ := abs_lt.1 ht
  have hn : ε * (√2 / 2) ≠ ε := by
    intro h
    have := mul_left_cancel₀ h0 (h.trans (mul_one ε).symm)
    linarith
  interval_cases i <;> simp [plateauU] <;> intro h <;> first | linarith | exact hn (by linarith)

theorem plateau_history : ∃ ft, jaxVectorHistory 8 plateauU 1 (1/2) 0 3 = .ok ft ∧ (∑ j ∈ range 8, ft j = 2) ∧
    ∑ j ∈ range 8, jaxJenkinsHistory 8 plateauU 1 (1/2) 0 j = 1 := by
  have h0 : jaxInds 8 (fun j => id (plateauU j)) (3 * 2 + 1) = [0, 1, 2, 3, 4, 5, 6] := plateau_inds
  have hf : gFirst realNum [0, 1, 2, 3, 4, 5, 6] plateauU 1 (1/2) 0 = 1/2 := by
    rw [gFirst_real]
    norm_num [slider, clip, plateauU, periodic]
  refine ⟨_, gVector_real 8 plateauU 1 (1/2) 0 3 (by norm_num), ?_, ?_⟩
  · have hv : ∀ j ∈ range 8, gVectorHistory realNum id 8 plateauU 1 (1/2) 0 3 j
        = gFilled realNum [0, 1, 2, 3, 4, 5, 6] plateauU 1 (1/2) 0 j := fun j hj => by
      rw [gVector_filled realNum id 8 plateauU 1 (1/2) 0 3 (by norm_num) (by rw [h0]; rfl) j (mem_range.1 hj), h0]
    rw [sum_congr rfl hv]
    have hs : ∀ i, gFilled realNum [0, 1, 2, 3, 4, 5, 6] plateauU 1 (1/2) 0 (i + 1)
        = slider 1 (fun _ => 1/2) (fun i => plateauU (i + 1)) (plateauU 0) (1/2) i := by
      intro i
      refine (gSlider_real 1 (fun _ => 1/2) _ _ _ _).trans ?_
      rw [hf]
    have hs0 : gFilled realNum [0, 1, 2, 3, 4, 5, 6] plateauU 1 (1/2) 0 0 = 1/2 := hf
    simp only [sum_range_succ, sum_range_zero, hs, hs0]
    norm_num [slider, clip, plateauU]
  · have hv : ∀ j ∈ range 8, jaxJenkinsHistory 8 plateauU 1 (1/2) 0 j
        = slider 1 (fun _ => 1/2) (periodic 8 plateauU) 0 0 (8 + j) := fun j hj => by
      refine (gJenkins_slider realNum 8 (by norm_num) plateauU 1 (1/2) 0 j (mem_range.1 hj)).trans ?_
      refine (gSlider_real 1 (fun _ => 1/2) _ _ _ _).trans ?_
      exact slider_congr 1 (fun _ _ => rfl) (fun _ _ => rfl) (by show 1 * _ + 1 * (_ - 0) = _; ring)
    rw [sum_congr rfl hv]
    simp only [sum_range_succ, sum_range_zero]
    norm_num [slider, clip, plateauU, periodic]

/-- C109 is false at equal neighbouring samples: the mean force jumps there, so that no Jacobian can be right. At the motion
of `C93_violated` it is 1/4, nearby it is 1/8. -/
theorem C109_violated : ∃ out : (ℕ → ℝ) → AftOut,
    (∀ U, jaxVectorAftGrad 1 (fun _ _ => 1) (fun _ _ => 1) 1 (1/2) (.scalar 0) U [0, 1, 2, 3] 8 = .ok (out U)) ∧
    ∀ g, ¬ HasGrad 7 (fun U => (out U).F 0) g plateauC := by
  have hA : Admissible [0, 1, 2, 3] := ⟨by simp, by decide, by decide⟩
  have hNt : ∀ k ∈ [0, 1, 2, 3], 2 * k + 1 < 8 := by decide
  have hev : Even 8 := ⟨4, rfl⟩
  have hh : 1 < numCoeff [0, 1, 2, 3] := by decide
  obtain ⟨-, -, out, o1, o2, -⟩ := jaxVectorGrad_run hA hNt hev hh 1 (fun _ _ => 1) (fun _ _ => 1) 1 (1/2) (.scalar 0)
  obtain ⟨F', f1, f2⟩ := C104_jax_jenkins [0, 1, 2, 3] hA hh 8 hNt hev 1 (fun _ _ => 1) (fun _ _ => 1) 1 (1/2) (.scalar 0) 0
  refine ⟨out, o1, fun g hg => ?_⟩
  -- mean values at the point
  have hpl : (fun j : ℕ => localMotion 1 (fun _ _ => 1) [0, 1, 2, 3] plateauC 0 (2 * Real.pi * j / (8:ℕ))) = plateauU := by
    rw [← plateau_samples]
    funext j
    rw [← localMotion_eq]
    congr 1
    funext r
    simp [unlOf, matMul]
  obtain ⟨-, -, -, c4⟩ := ts_sampled hA hNt hev
  have c5 := (c4 1 (fun _ _ => 1) plateauC).1
  obtain ⟨W, hW⟩ := gfc_linear hA (Nt := 8) (by decide)
  have hrow : (sampledDisp 1 (fun _ _ => 1) [0, 1, 2, 3] plateauC 8).rows = 8 := rfl
  have hcol : (fun j => (sampledDisp 1 (fun _ _ => 1) [0, 1, 2, 3] plateauC 8).val j 0) = plateauU := hpl
  have v1 : (out plateauC).F 0 = 1/4 := by
    obtain ⟨ft, k1, k2, k3⟩ := plateau_history
    have := o2 plateauC
    obtain ⟨v, g1, -, g3⟩ := hW (fun j (_ : ℕ) => ft j)
    unfold jaxVectorAft at this
    rw [if_neg (not_not.2 (jax_dofs hh 1))] at this
    simp only [c5, hrow, hcol, jaxStart, List.getLastD_cons, List.getLastD_nil, k1, g1] at this
    rw [← Except.ok.inj this]
    have hm := congrArg Prod.fst (g3 0 (by simp) 0)
    simp only [coefOf, dft, if_true] at hm
    simp [toGlobal, matMul, hm, k2]
    norm_num
  have v2 : F' plateauC 0 = 1/8 := by
    obtain ⟨ft, k1, k2, k3⟩ := plateau_history
    have := f1 plateauC
    obtain ⟨v, g1, -, g3⟩ := hW (fun j (_ : ℕ) => jaxJenkinsHistory 8 plateauU 1 (1/2) 0 j)
    simp only [PForce.jaxJenkins] at this
    unfold jaxAft at this
    rw [if_neg (not_not.2 (jax_dofs hh 1))] at this
    simp only [c5, hrow, hcol, jaxStart, g1] at this
    rw [← Except.ok.inj this]
    have hm := congrArg Prod.fst (g3 0 (by simp) 0)
    simp only [coefOf, dft, if_true] at hm
    rw [k3] at hm
    simp [toGlobal, matMul, hm]
  -- along the path
  have hp : Tendsto plateauPath (𝓝[≠] 0) (𝓝 0) := by
    refine Tendsto.mono_left ?_ nhdsWithin_le_nhds
    rw [tendsto_pi_nhds]
    intro i
    unfold plateauPath
    by_cases h : i = 2
    · simp only [h, if_true]; exact tendsto_id
    · simp only [h, if_false]; exact tendsto_const_nhds
  have t1 := (hasGrad_tendsto hg).comp hp
  have t2 := Tendsto.comp (f2 plateauC 0 (by decide)) hp
  beta_reduce at t1 t2
  rw [v1] at t1
  rw [v2] at t2
  have he : ∀ᶠ ε in 𝓝[≠] (0:ℝ), (out fun i => plateauC i + Spec.ext (plateauPath ε) i).F 0
      = F' (fun i => plateauC i + Spec.ext (plateauPath ε) i) 0 := by
    have hs : ∀ᶠ ε in 𝓝[≠] (0:ℝ), |ε| < 1/4 := by
      refine Filter.Eventually.filter_mono nhdsWithin_le_nhds ?_
      exact (continuous_abs.tendsto (0:ℝ)).eventually_lt_const (by rw [abs_zero]; norm_num)
    filter_upwards [hs, self_mem_nhdsWithin] with ε h1 h0
    obtain ⟨F, F'', a1, a2, a3⟩ := C93_aft_partial hA hh (by decide) hNt hev 1 (fun _ _ => 1) (fun _ _ => 1) 1 (1/2) zero_le_one
      (by norm_num) (.scalar 0) (fun i => plateauC i + Spec.ext (plateauPath ε) i) 0
      (Or.inl fun i hi => plateau_path_ne h0 h1 i hi)
    rw [o2] at a1
    rw [f1] at a2
    obtain rfl := Except.ok.inj a1
    obtain rfl := Except.ok.inj a2
    exact a3 0 (by decide) 0 one_pos
  have t3 := t2.congr' (he.mono fun ε h => h.symm)
  have := tendsto_nhds_unique t1 t3
  norm_num at this

/-- Example: `cos τ + 1/4 sin τ`, four samples, slip in each half cycle: the derivatives are right. -/
example (w : ℝ) : ∃ out : (ℕ → ℝ) → AftOut,
    (∀ U, jaxVectorAftGrad 1 (fun _ _ => 1) (fun _ _ => 1) 1 (1/2) (.scalar 0) U [1] 4 = .ok (out U)) ∧
    JointTrue (fun U _ => out U) 2 (fun r => [1, 1/4, w].getD r 0) := by
  obtain ⟨out, o1, -, o3⟩ := C109_aft_partial (h := [1]) ⟨by simp, by decide, by decide⟩ (Nt := 4) (by decide) ⟨2, rfl⟩
    (by decide) (by decide) 1 (fun _ _ => 1) (fun _ _ => 1) 1 (1/2) zero_le_one (by norm_num) (.scalar 0)
  have hs : dofSamples 1 (fun _ _ => 1) [1] 4 (sl 0 2 fun r => [1, 1/4, w].getD r 0) 0
      = fun j => [1, 1/4, -1, -(1/4)].getD (j % 4) (0:ℝ) := by
    funext j
    have e : 2 * Real.pi * j / (4:ℕ) = ((2 * j : ℕ) : ℝ) * (Real.pi / 4) := by push_cast; ring
    unfold dofSamples
    rw [← localMotion_eq, e]
    simp only [series, one_ne_zero, if_false, Nat.cast_one, one_mul, (eighth_table _).1, (eighth_table _).2]
    rw [show (2 * j) % 8 = 2 * (j % 4) by omega]
    have : j % 4 < 4 := Nat.mod_lt _ (by norm_num)
    generalize j % 4 = n at *
    interval_cases n <;> norm_num [unlOf, matMul, sl]
  refine ⟨out, o1, o3 _ _ rfl ?_ ?_⟩
  · intro i hi
    show dofSamples 1 (fun _ _ => 1) [1] 4 (sl 0 2 fun r => [1, 1/4, w].getD r 0) 0 i ≠ _
    rw [show sl 0 (numCoeff [1] * 1) (fun r => [1, 1/4, w].getD r 0) = sl 0 2 fun r => [1, 1/4, w].getD r 0 from rfl, hs]
    interval_cases i <;> norm_num
  · rw [show sl 0 (numCoeff [1] * 1) (fun r => [1, 1/4, w].getD r 0) = sl 0 2 fun r => [1, 1/4, w].getD r 0 from rfl, hs]
    intro k hk
    interval_cases k <;> norm_num [sliderTrial, slider, clip, periodic, sliderStart, abs_of_pos, abs_of_neg]

end

end TMD
