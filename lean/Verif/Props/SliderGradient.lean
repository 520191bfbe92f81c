import Verif.Lemmas.SliderGradient
import Verif.Props.Hysteresis
import Verif.Props.VectorIwan

/-!
# Property C87: derivative rows of the hysteretic elements
-/

namespace TMD

open Spec

noncomputable section

theorem getD_map_range {α : Type} (f : ℕ → α) (N i : ℕ) (hi : i < N) (d : α) :
    ((List.range N).map f).getD i d = f i := by
  simp [List.getD_eq_getElem?_getD, hi]

/-- C87, Jenkins element: when `local_force_history` returns after `its` cycles, entry `i` is the force of the Coulomb
slider in cycle `its` and its exact gradient with respect to the unknowns, provided no elastic prediction on the way lies
exactly at the slip limit. `u i` is the displacement at instant `i` with gradient `c i`, `u0` the mean. -/
theorem C87_jenkins (n Nt : ℕ) (U : ℕ → ℝ) (kt Fs : ℝ) (hF : 0 ≤ Fs) (u : ℕ → (ℕ → ℝ) → ℝ) (c : ℕ → ℕ → ℝ)
    (hu : ∀ i < Nt, HasGrad n (u i) (c i) U) (u0 : (ℕ → ℝ) → ℝ) (e0 : ℕ → ℝ) (h0 : HasGrad n u0 e0 U) (mr : ℕ)
    (atol rtol eps : ℝ) (ft : List (ℝ × (ℕ → ℝ))) (its : ℕ)
    (h : localForceHistory (jenkinsOps kt Fs e0) ((List.range Nt).map fun i => (u i U, c i)) (u0 U) mr atol rtol eps
      = .ok (ft, its))
    (hne : ∀ k < its * Nt, |sliderTrial kt (fun _ => Fs) (periodic Nt fun j => u j U) (u0 U) 0 k| ≠ Fs) :
    ∀ i < Nt, (ft.getD i (0, fun _ => 0)).1
        = slider kt (fun _ => Fs) (periodic Nt fun j => u j U) (u0 U) 0 ((its - 1) * Nt + i) ∧
      HasGrad n (fun X => slider kt (fun _ => Fs) (periodic Nt fun j => u j X) (u0 X) 0 ((its - 1) * Nt + i))
        (ft.getD i (0, fun _ => 0)).2 U := by
  intro i hi
  have hN : 0 < Nt := by omega
  obtain ⟨ft', its', e1, l1, -, e2⟩ := C32_cycle_count (jenkinsOps kt Fs e0)
    ((List.range Nt).map fun i => (u i U, c i)) (by simp; omega) (u0 U) mr atol rtol eps
  rw [h] at e1
  obtain ⟨rfl, rfl⟩ := Prod.mk.inj (Except.ok.inj e1)
  rw [e2, cycles_full (jenkins_rowOf kt Fs e0) Nt hN (fun j => u j U), getD_map_range _ _ _ hi]
  have hlt : ∀ k ≤ (its - 1) * Nt + i, k < its * Nt := by
    intro k hk
    obtain ⟨m, rfl⟩ : ∃ m, its = m + 1 := ⟨its - 1, by omega⟩
    rw [Nat.add_sub_cancel] at hk
    rw [Nat.succ_mul]; omega
  exact jenkins_seq_grad hF e0 (fun k X => u (k % Nt) X) (periodic Nt c) u0 h0 _
    (fun k _ => hu _ (Nat.mod_lt _ hN)) (fun k hk => hne k (hlt k hk))

/-- A sticking slider with one unknown: displacement `X 0` with gradient `(1)` from a start at rest. -/
example (mr : ℕ) (atol rtol eps : ℝ) (ft : List (ℝ × (ℕ → ℝ))) (its : ℕ)
    (h : localForceHistory (jenkinsOps 1 1 (fun _ => 0)) ((List.range 1).map fun _ => ((1/2 : ℝ), fun j => if j = 0 then 1 else 0))
      0 mr atol rtol eps = .ok (ft, its)) :
    HasGrad 1 (fun X => slider 1 (fun _ => 1) (periodic 1 fun _ => X 0) 0 0 ((its - 1) * 1 + 0))
      (ft.getD 0 (0, fun _ => 0)).2 (fun _ => 1/2) := by
  have hs : ∀ k, slider 1 (fun _ => 1) (periodic 1 fun _ => (1/2 : ℝ)) 0 0 k = 1/2 := by
    intro k
    induction k with
    | zero => rw [slider_zero, clip_of_le] <;> norm_num [periodic, abs_le]
    | succ k ih => rw [slider_succ, ih, clip_of_le] <;> norm_num [periodic, abs_le]
  refine (C87_jenkins 1 1 (fun _ => 1/2) 1 1 zero_le_one (fun _ X => X 0) (fun _ j => if j = 0 then 1 else 0)
    (fun _ _ => HasGrad.coord 0) (fun _ => 0) (fun _ => 0) (HasGrad.const 0) mr atol rtol eps ft its h ?_ 0 one_pos).2
  intro k _
  cases k with
  | zero => norm_num [sliderTrial, periodic]
  | succ k =>
    show |1 * (periodic 1 (fun _ => (1/2 : ℝ)) (k+1) - periodic 1 (fun _ => (1/2 : ℝ)) k)
      + slider 1 (fun _ => 1) (periodic 1 fun _ => (1/2 : ℝ)) 0 0 k| ≠ 1
    rw [hs]
    norm_num [periodic]

/-- C87, Iwan element: as for the Jenkins element, with the weighted sum of the sliders. -/
theorem C87_iwan (n Nt : ℕ) (U : ℕ → ℝ) (w : Iwan) (hphi : ∀ k ≤ w.nSliders, 0 ≤ w.phi k) (u : ℕ → (ℕ → ℝ) → ℝ)
    (c : ℕ → ℕ → ℝ) (hu : ∀ i < Nt, HasGrad n (u i) (c i) U) (u0 : (ℕ → ℝ) → ℝ) (e0 : ℕ → ℝ)
    (h0 : HasGrad n u0 e0 U) (mr : ℕ) (atol rtol eps : ℝ) (ft : List (ℝ × (ℕ → ℝ))) (its : ℕ)
    (h : localForceHistory (iwanOps w e0) ((List.range Nt).map fun i => (u i U, c i)) (u0 U) mr atol rtol eps
      = .ok (ft, its))
    (hne : ∀ s ≤ w.nSliders, ∀ k < its * Nt,
      |sliderTrial 1 (fun _ => w.phi s) (periodic Nt fun j => u j U) (u0 U) 0 k| ≠ w.phi s) :
    ∀ i < Nt, (ft.getD i (0, fun _ => 0)).1 = ∑ s ∈ Finset.range (w.nSliders + 1),
        slider 1 (fun _ => w.phi s) (periodic Nt fun j => u j U) (u0 U) 0 ((its - 1) * Nt + i) * w.weight s ∧
      HasGrad n (fun X => ∑ s ∈ Finset.range (w.nSliders + 1),
        slider 1 (fun _ => w.phi s) (periodic Nt fun j => u j X) (u0 X) 0 ((its - 1) * Nt + i) * w.weight s)
        (ft.getD i (0, fun _ => 0)).2 U := by
  intro i hi
  have hN : 0 < Nt := by omega
  obtain ⟨ft', its', e1, l1, -, e2⟩ := C32_cycle_count (iwanOps w e0)
    ((List.range Nt).map fun i => (u i U, c i)) (by simp; omega) (u0 U) mr atol rtol eps
  rw [h] at e1
  obtain ⟨rfl, rfl⟩ := Prod.mk.inj (Except.ok.inj e1)
  rw [e2, cycles_full (iwan_rowOf w e0) Nt hN (fun j => u j U), getD_map_range _ _ _ hi]
  have hlt : ∀ k ≤ (its - 1) * Nt + i, k < its * Nt := by
    intro k hk
    obtain ⟨m, rfl⟩ : ∃ m, its = m + 1 := ⟨its - 1, by omega⟩
    rw [Nat.add_sub_cancel] at hk
    rw [Nat.succ_mul]; omega
  have key : ∀ s ≤ w.nSliders, _ := fun s hs => jenkins_seq_grad (hphi s hs) e0 (fun k X => u (k % Nt) X)
    (periodic Nt c) u0 h0 ((its - 1) * Nt + i) (fun k _ => hu _ (Nat.mod_lt _ hN))
    (fun k hk => hne s hs k (hlt k hk))
  have hp : ∀ s, iwanProj s (stSeq (iwanOps w e0) (periodic Nt fun j => u j U) (periodic Nt c)
      ((iwanOps w e0).init (u0 U)) ((its - 1) * Nt + i)) = _ :=
    fun s => iwan_proj_stSeq w e0 (periodic Nt fun j => u j U) (periodic Nt c) ((iwanOps w e0).init (u0 U)) s _
  constructor
  · show (stSeq (iwanOps w e0) _ _ _ _).fp = _
    rw [iwan_stSeq_fp]
    refine Finset.sum_congr rfl fun s hs => ?_
    have hs' : s ≤ w.nSliders := by have := Finset.mem_range.1 hs; omega
    rw [show (stSeq (iwanOps w e0) (periodic Nt fun j => u j U) (periodic Nt c) ((iwanOps w e0).init (u0 U))
      ((its - 1) * Nt + i)).fps s = _ from congrArg JHist.fp (hp s)]
    exact congrArg (· * w.weight s) (key s hs').1
  · have hsum := HasGrad.sum (s := Finset.range (w.nSliders + 1)) (n := n) (x := U) fun s hs =>
      ((key s (by have := Finset.mem_range.1 hs; omega)).2.mul_const (w.weight s))
    refine hsum.congr fun j _ => ?_
    have hrow : ∀ q, (iwanRow w (stSeq (iwanOps w e0) (periodic Nt fun j => u j U) (periodic Nt c)
        ((iwanOps w e0).init (u0 U)) q)).2 j = ∑ s ∈ Finset.range (w.nSliders + 1),
          (stSeq (iwanOps w e0) (periodic Nt fun j => u j U) (periodic Nt c)
            ((iwanOps w e0).init (u0 U)) q).dfps s j * w.weight s := by
      intro q; cases q <;> rfl
    rw [hrow]
    refine Finset.sum_congr rfl fun s _ => ?_
    rw [show (stSeq (iwanOps w e0) (periodic Nt fun j => u j U) (periodic Nt c) ((iwanOps w e0).init (u0 U))
      ((its - 1) * Nt + i)).dfps s = _ from congrArg JHist.dfp (hp s)]
    rfl

/-- Two sliders of strength 1/4 and 1 under the displacements `X 0, -X 0` at `X 0 = 1/2`: the first slips at every
instant, the second sticks. -/
example (mr : ℕ) (atol rtol eps : ℝ) (ft : List (ℝ × (ℕ → ℝ))) (its : ℕ) (w : Iwan) (hn : w.nSliders = 1)
    (hp0 : w.phi 0 = 1/4) (hp1 : w.phi 1 = 1)
    (h : localForceHistory (iwanOps w (fun _ => 0)) ((List.range 2).map fun i =>
        (((1/2 : ℝ)) * (-1) ^ i, fun j => (if j = 0 then 1 else 0) * (-1) ^ i)) 0 mr atol rtol eps = .ok (ft, its)) :
    HasGrad 1 (fun X => ∑ s ∈ Finset.range (w.nSliders + 1),
        slider 1 (fun _ => w.phi s) (periodic 2 fun i => X 0 * (-1) ^ i) 0 0 ((its - 1) * 2 + 1) * w.weight s)
      (ft.getD 1 (0, fun _ => 0)).2 (fun _ => 1/2) := by
  have hb : ∀ s ≤ w.nSliders, w.phi s = 1/4 ∨ w.phi s = 1 := by
    intro s hs
    rw [hn] at hs
    interval_cases s
    · exact Or.inl hp0
    · exact Or.inr hp1
  have hper : ∀ k, periodic 2 (fun i => (1/2 : ℝ) * (-1) ^ i) k = 1/2 * (-1) ^ k := fun k => by
    simp only [periodic]
    rw [← neg_one_pow_eq_pow_mod_two]
  have hsgn : ∀ k : ℕ, (-1 : ℝ) ^ k = 1 ∨ (-1 : ℝ) ^ k = -1 := neg_one_pow_eq_or ℝ
  have hs : ∀ L : ℝ, L = 1/4 ∨ L = 1 → ∀ k,
      slider 1 (fun _ => L) (periodic 2 fun i => (1/2 : ℝ) * (-1) ^ i) 0 0 k = min L (1/2) * (-1) ^ k := by
    intro L hL k
    induction k with
    | zero => rw [slider_zero, hper]; rcases hL with rfl | rfl <;> norm_num [clip]
    | succ k ih =>
      rw [slider_succ, ih, hper, hper, pow_succ]
      rcases hL with rfl | rfl <;> rcases hsgn k with e | e <;> rw [e] <;> norm_num [clip]
  refine (C87_iwan 1 2 (fun _ => 1/2) w (fun s hs => by rcases hb s hs with e | e <;> rw [e] <;> norm_num)
    (fun i X => X 0 * (-1) ^ i) (fun i j => (if j = 0 then 1 else 0) * (-1) ^ i)
    (fun i _ => (HasGrad.coord 0).mul_const _) (fun _ => 0) (fun _ => 0) (HasGrad.const 0) mr atol rtol eps ft its h
    ?_ 1 one_lt_two).2
  intro s hs' k _
  cases k with
  | zero =>
    show |1 * (periodic 2 (fun i => (1/2 : ℝ) * (-1) ^ i) 0 - 0) + 0| ≠ _
    rw [hper]
    rcases hb s hs' with e | e <;> rw [e] <;> norm_num
  | succ k =>
    show |1 * (periodic 2 (fun i => (1/2 : ℝ) * (-1) ^ i) (k+1) - periodic 2 (fun i => (1/2 : ℝ) * (-1) ^ i) k)
      + slider 1 (fun _ => w.phi s) (periodic 2 fun i => (1/2 : ℝ) * (-1) ^ i) 0 0 k| ≠ w.phi s
    rw [hs _ (hb s hs'), hper, hper, pow_succ]
    rcases hb s hs' with e | e <;> rw [e] <;> rcases hsgn k with e' | e' <;> rw [e'] <;> norm_num [abs_of_neg, abs_of_pos]

end

end TMD
