import Verif.Lemmas.JaxGradAft
import Verif.Props.JaxVectorJenkins

/-!
# Property C106: for which lists of harmonics `aft` of the friction elements returns

The JAX elements hand the coefficients and the frequency to the traced function in one array and find the number of local
DOFs by dividing its length by the number of coefficients per DOF. The additional entry makes no difference unless the list
of harmonics is `[0]`.
-/

namespace TMD

open Spec Finset

noncomputable section

section returns

variable {h : List ℕ} (hA : Admissible h) {Nt : ℕ} (hNt : ∀ k ∈ h, 2*k + 1 < Nt) (heven : Even Nt)

include hA hNt heven

/-- C106 (partial): with a harmonic other than 0 in the list, `aft` of all JAX elements returns, with derivatives for those
elements whose derivatives are modelled. -/
theorem C106_jax_partial (hne : h ≠ [0]) (N m : ℕ) (Q T : ℕ → ℕ → ℝ) (kt kn mu gap Fs : ℝ) (u0 : EdfU0) (mt : Mat)
    (g : Asperities) (z : ℕ → ℝ) (U : ℕ → ℝ) (w : ℝ) :
    (∃ F, (PForce.jaxJenkins N Q T kt Fs u0).aftF U w h Nt = .ok F) ∧
    (∃ F, (PForce.edf2 N m Q T kt kn mu gap u0).aftF U w h Nt = .ok F) ∧
    (∃ F, (PForce.edf3 N m Q T kt kn mu gap u0).aftF U w h Nt = .ok F) ∧
    (∃ F, (PForce.rough N Q T mt g mu z).aftF U w h Nt = .ok F) ∧
    (∃ F, jaxVectorAft N Q T kt Fs u0 U h Nt = .ok F) ∧
    (∃ o, jaxJenkinsAft N Q T kt Fs u0 U h Nt = .ok o) ∧
    (∃ o, edf2AftGrad N m Q T kt kn mu gap u0 U h Nt = .ok o) ∧
    (∃ o, edf3AftGrad N m Q T kt kn mu gap u0 U h Nt = .ok o) := by
  have hh : 1 < numCoeff h := by
    rcases h with _ | ⟨k, _ | ⟨l, t⟩⟩
    · exact absurd rfl hA.ne
    · have : k ≠ 0 := fun e => hne (by rw [e])
      simp [numCoeff, this]
    · have hl : l ≠ 0 := fun e => by
        have h0 := hA.zero_first
        have hn := hA.nodup
        simp_all
      simp only [numCoeff]
      split <;> omega
  obtain ⟨W, hW⟩ := gfc_linear hA (Nt := Nt) (fun k hk => by have := hNt k hk; omega)
  have hok : ∀ m hist, ∃ F, jaxAft N m Q T hist U h Nt = .ok F := by
    intro m hist
    obtain ⟨v, v1, -⟩ := hW (hist (sampledDisp N Q h U Nt) (unlOf N Q U 0))
    exact ⟨_, jaxAft_F hA hNt heven hh N m Q T hist U v1⟩
  obtain ⟨cst, W', -, -, -, H⟩ := jaxGrad_ok hA hNt heven hh
  have hg : ∀ m hist, ∃ o, jaxAftGrad N m Q T hist U h Nt = .ok o := fun m hist => by
    obtain ⟨o, -, -, o1, -⟩ := H N m Q T hist U
    exact ⟨o, o1⟩
  refine ⟨by simp only [PForce.jaxJenkins]; exact hok _ _, by simp only [PForce.edf2]; exact hok _ _,
    by simp only [PForce.edf3]; exact hok _ _, by simp only [PForce.rough]; exact hok _ _, ?_, hg _ _, hg _ _, hg _ _⟩
  obtain ⟨cst, -, -, c3⟩ := ts_sampled hA hNt heven
  obtain ⟨x1, -⟩ := c3 N Q U
  have hrow : (sampledDisp N Q h U Nt).rows = Nt := rfl
  have hl : ¬ Nt < h.getLastD 0 * 2 + 1 := by
    have : h.getLastD 0 ∈ h := by
      rw [List.getLastD_eq_getLast?, List.getLast?_eq_some_getLast hA.ne]
      exact List.getLast_mem _
    have := hNt _ this
    omega
  unfold jaxVectorAft jaxVectorHistory
  rw [if_neg (not_not.2 (jax_dofs hh 1))]
  simp only [x1, hrow, if_neg hl]
  split
  · rename_i e he
    obtain ⟨v, v1, -⟩ := hW (fun j (_ : ℕ) => ((List.range' 1 (Nt - 1)).foldl
      (jaxJenkinsBody Nt (fun j => (sampledDisp N Q h U Nt).val j 0) kt Fs) _) j)
    rw [v1] at he
    exact absurd he (by simp)
  · exact ⟨_, rfl⟩

/-- C106: the NumPy counterparts return for all lists, `[0]` included. -/
theorem C106_numpy (N : ℕ) (Q T : ℕ → ℕ → ℝ) (kt Fs : ℝ) (hk : 0 ≤ kt) (hF : 0 ≤ Fs) (eps : ℝ) (he : 0 ≤ eps) (he' : eps ≤ 1 / 10)
    (U : ℕ → ℝ) (w : ℝ) :
    (∃ F, (PForce.jenkins N Q T kt Fs eps).aftF U w h Nt = .ok F) ∧
    (∃ F, (PForce.vectorJenkins N Q T kt Fs eps).aftF U w h Nt = .ok F) := by
  obtain ⟨out, h1, -⟩ := C103_jenkins h hA Nt hNt heven N Q T kt Fs hF eps he he'
  obtain ⟨out', h1', -⟩ := C103_vector_jenkins h hA Nt hNt heven N Q T kt Fs hk hF eps he he'
  refine ⟨⟨(out U w).F, ?_⟩, ⟨(out' U w).F, ?_⟩⟩
  · simp only [PForce.jenkins, PForce.hyst]
    rw [h1]
    rfl
  · simp only [PForce.vectorJenkins, PForce.hyst]
    rw [h1']
    rfl

end returns

/-- C106 fails for the static harmonic alone: no JAX element with a local DOF accepts it. -/
theorem C106_violated (Nt N m : ℕ) (Q T : ℕ → ℕ → ℝ) (kt kn mu gap Fs : ℝ) (u0 : EdfU0) (mt : Mat)
    (g : Asperities) (z : ℕ → ℝ) (U : ℕ → ℝ) (w : ℝ) :
    (PForce.jaxJenkins N Q T kt Fs u0).aftF U w [0] Nt = .error .type ∧
    (PForce.edf2 N m Q T kt kn mu gap u0).aftF U w [0] Nt = .error .type ∧
    (PForce.edf3 N m Q T kt kn mu gap u0).aftF U w [0] Nt = .error .type ∧
    (PForce.rough N Q T mt g mu z).aftF U w [0] Nt = .error .type ∧
    jaxVectorAft N Q T kt Fs u0 U [0] Nt = .error .type ∧
    jaxJenkinsAft N Q T kt Fs u0 U [0] Nt = .error .type ∧
    edf2AftGrad N m Q T kt kn mu gap u0 U [0] Nt = .error .type ∧
    edf3AftGrad N m Q T kt kn mu gap u0 U [0] Nt = .error .type := by
  have hn : nhcRaw [0] = 1 := by simp [nhcRaw]
  have h1 : ∀ m hist, jaxAft N m Q T hist U [0] Nt = .error .type := fun m hist => by
    unfold jaxAft
    simp [hn]
  have h2 : ∀ m hist, jaxAftGrad N m Q T hist U [0] Nt = .error .type := fun m hist => by
    unfold jaxAftGrad
    simp [hn]
  refine ⟨by simp only [PForce.jaxJenkins]; exact h1 _ _, by simp only [PForce.edf2]; exact h1 _ _,
    by simp only [PForce.edf3]; exact h1 _ _, by simp only [PForce.rough]; exact h1 _ _, ?_, h2 _ _, h2 _ _, h2 _ _⟩
  unfold jaxVectorAft
  simp [hn]

/-- Example: with four samples the NumPy Jenkins element returns a force for the static harmonic and the JAX element does
not. -/
example : (∃ F, (PForce.jenkins 1 eye eye 2 1 0).aftF (fun _ => 1) 1 [0] 4 = .ok F) ∧
    (PForce.jaxJenkins 1 eye eye 2 1 .none).aftF (fun _ => 1) 1 [0] 4 = .error .type :=
  ⟨(C106_numpy (h := [0]) ⟨by simp, by decide, by decide⟩ (by decide) ⟨2, rfl⟩ 1 eye eye 2 1 zero_le_two zero_le_one 0 le_rfl
    (by norm_num) _ 1).1, (C106_violated 4 1 1 eye eye 2 0 0 0 1 .none ⟨1, 1, 1, 1, 1, 1, 1, 1⟩
      ⟨1, 1, fun _ => 0, fun _ => 0⟩ (fun _ => 0) (fun _ => 1) 1).1⟩

end

end TMD
