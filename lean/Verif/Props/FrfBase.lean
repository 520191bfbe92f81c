import Verif.Model.FrfBase
import Verif.Props.LinearFrf

/-!
# Property C125 (linear response to a base of several degrees of freedom)
-/

namespace TMD

open Spec Finset

noncomputable section

/-- Specification: `X` (cosine coefficients of the free degrees of freedom, then sine coefficients) is the steady
response at the frequency `w` when the `nb` base degrees of freedom `bs 0, bs 1, …` all move with
`Ub.1 cos + Ub.2 sin`. -/
def BaseSteady (S : VibSys) (w : ℝ) (Ub : ℝ × ℝ) (nb : ℕ) (bs : ℕ → ℕ) (nf : ℕ) (fr : ℕ → ℕ) (X : ℕ → ℝ) : Prop :=
  ∀ d < nf,
    ∑ e ∈ range nf, ((S.K (fr d) (fr e) - w^2 * S.M (fr d) (fr e)) * X e + w * S.C (fr d) (fr e) * X (nf + e))
      + ∑ b ∈ range nb, ((S.K (fr d) (bs b) - w^2 * S.M (fr d) (bs b)) * Ub.1 + w * S.C (fr d) (bs b) * Ub.2) = 0 ∧
    ∑ e ∈ range nf, ((S.K (fr d) (fr e) - w^2 * S.M (fr d) (fr e)) * X (nf + e) - w * S.C (fr d) (fr e) * X e)
      + ∑ b ∈ range nb, ((S.K (fr d) (bs b) - w^2 * S.M (fr d) (bs b)) * Ub.2 - w * S.C (fr d) (bs b) * Ub.1) = 0

/-- The data for which `linear_frf_base` can be expected to be exact: proportional damping, all modes of the free
part, none of them hit without damping, no mass coupling to the base. -/
structure BaseData (S : VibSys) (a b : ℝ) (Nw : ℕ) (w : ℕ → ℝ) (nb : ℕ) (bs : ℕ → ℕ) (nf : ℕ) (fr : ℕ → ℕ)
    (eigs : (ℕ → ℕ → ℝ) → (ℕ → ℕ → ℝ) → ℕ → (ℕ → ℝ) × (ℕ → ℕ → ℝ)) (neigs : ℕ) (lam : ℕ → ℝ) (V : ℕ → ℕ → ℝ) :
    Prop where
  ab : S.ab = some (a, b)
  damp : ∀ d < nf, ∀ e < nf, S.C (fr d) (fr e) = a * S.M (fr d) (fr e) + b * S.K (fr d) (fr e)
  mass : ∀ d < nf, ∀ q < nb, S.M (fr d) (bs q) = 0
  modes : nf ≤ neigs
  eigs : eigs (fun i j => S.K (fr i) (fr j)) (fun i j => S.M (fr i) (fr j)) nf = (lam, V)
  basis : ModalBasis nf (fun i j => S.M (fr i) (fr j)) (fun i j => S.K (fr i) (fr j)) lam V
  off : ∀ k < Nw, ∀ j < nf, (lam j - (w k)^2)^2 + (w k * (a + b * lam j))^2 ≠ 0

/-- With as many base columns as frequencies row `k` is the response to base column `k` alone at frequency `k`. -/
theorem frfBaseAll_pair {S : VibSys} {ab : ℝ × ℝ} (hab : S.ab = some ab) (nb : ℕ) (w : ℕ → ℝ) (Ub : ℝ × ℝ) (bs : ℕ → ℕ)
    (nf : ℕ) (fr : ℕ → ℕ) (eigs : (ℕ → ℕ → ℝ) → (ℕ → ℕ → ℝ) → ℕ → (ℕ → ℝ) × (ℕ → ℕ → ℝ)) (neigs : ℕ) :
    ∃ X, linearFrfBaseAll S nb w Ub nb bs nf fr eigs neigs = .ok X ∧
      ∀ k < nb, linearFrfBase S (w k) Ub (bs k) nf fr eigs neigs = .ok (X k) := by
  have h : ∀ k < nb, bix nb k = k := by
    intro k hk
    unfold bix
    split <;> omega
  have hb : bcast nb nb = .ok nb := by simp [bcast]
  refine ⟨_, by simp only [linearFrfBaseAll, hab, hb, if_true]; rfl, ?_⟩
  intro k hk
  simp only [linearFrfBase, hab, h k hk]

/-- With one base column every row is the response at its frequency. -/
theorem frfBaseAll_one {S : VibSys} {ab : ℝ × ℝ} (hab : S.ab = some ab) (Nw : ℕ) (w : ℕ → ℝ) (Ub : ℝ × ℝ) (bs : ℕ → ℕ)
    (nf : ℕ) (fr : ℕ → ℕ) (eigs : (ℕ → ℕ → ℝ) → (ℕ → ℕ → ℝ) → ℕ → (ℕ → ℝ) × (ℕ → ℕ → ℝ)) (neigs : ℕ) :
    ∃ X, linearFrfBaseAll S Nw w Ub 1 bs nf fr eigs neigs = .ok X ∧
      ∀ k < Nw, linearFrfBase S (w k) Ub (bs 0) nf fr eigs neigs = .ok (X k) := by
  have h : ∀ k < Nw, bix Nw k = k := by
    intro k hk
    unfold bix
    split <;> omega
  have hb : bcast 1 Nw = .ok Nw := by
    unfold bcast
    split
    · next h => rw [h]
    · rfl
  have hb' : bcast Nw Nw = .ok Nw := by simp [bcast]
  have h0 : ∀ k, bix 1 k = 0 := fun k => by simp [bix]
  refine ⟨_, by simp only [linearFrfBaseAll, hab, hb, hb', if_true]; rfl, ?_⟩
  intro k hk
  simp only [linearFrfBase, hab, h k hk, h0]

/-- One column of the base: C71 in terms of `BaseSteady`. -/
theorem baseSteady_single {S : VibSys} {a b : ℝ} {Nw : ℕ} {w : ℕ → ℝ} {nb : ℕ} {bs : ℕ → ℕ} {nf : ℕ} {fr : ℕ → ℕ}
    {eigs : (ℕ → ℕ → ℝ) → (ℕ → ℕ → ℝ) → ℕ → (ℕ → ℝ) × (ℕ → ℕ → ℝ)} {neigs : ℕ} {lam : ℕ → ℝ} {V : ℕ → ℕ → ℝ}
    (D : BaseData S a b Nw w nb bs nf fr eigs neigs lam V) (Ub : ℝ × ℝ) {k q : ℕ} (hk : k < Nw) (hq : q < nb)
    {X : ℕ → ℝ} (hX : linearFrfBase S (w k) Ub (bs q) nf fr eigs neigs = .ok X) :
    BaseSteady S (w k) Ub 1 (fun _ => bs q) nf fr X := by
  obtain ⟨Y, h1, h2⟩ := C71_partial S a b (w k) D.ab Ub (bs q) nf fr D.damp (fun d hd => D.mass d hd q hq) eigs neigs
    D.modes lam V D.eigs D.basis (D.off k hk)
  rw [hX] at h1
  cases h1
  intro d hd
  have := h2 d hd
  simpa only [sum_range_one] using this

/-- C125 (partial: one base degree of freedom, no mass coupling to it): each row returned by `linear_frf_base` is
the steady response at its frequency, for any number of frequencies. -/
theorem C125_partial {S : VibSys} {a b : ℝ} {Nw : ℕ} {w : ℕ → ℝ} {bs : ℕ → ℕ} {nf : ℕ} {fr : ℕ → ℕ}
    {eigs : (ℕ → ℕ → ℝ) → (ℕ → ℕ → ℝ) → ℕ → (ℕ → ℝ) × (ℕ → ℕ → ℝ)} {neigs : ℕ} {lam : ℕ → ℝ} {V : ℕ → ℕ → ℝ}
    (D : BaseData S a b Nw w 1 bs nf fr eigs neigs lam V) (Ub : ℝ × ℝ) :
    ∃ X, linearFrfBaseAll S Nw w Ub 1 bs nf fr eigs neigs = .ok X ∧
      ∀ k < Nw, BaseSteady S (w k) Ub 1 bs nf fr (X k) ∧ X k (2 * nf) = w k := by
  obtain ⟨X, h1, h2⟩ := frfBaseAll_one D.ab Nw w Ub bs nf fr eigs neigs
  refine ⟨X, h1, fun k hk => ⟨?_, ?_⟩⟩
  · have h := baseSteady_single D Ub hk (by omega) (h2 k hk)
    intro d hd
    have := h d hd
    simpa only [sum_range_one] using this
  · have h := h2 k hk
    simp only [linearFrfBase, D.ab] at h
    have h' := congrFun (Except.ok.inj h) (2 * nf)
    rw [← h']
    simp only [hcat]
    rw [if_neg (by omega), if_neg (by omega)]

/-- C125 violated: with two or more base degrees of freedom, as documented to move together, the method raises
`ValueError` for every number of frequencies other than the number of base degrees of freedom — in particular
for one frequency. -/
theorem C125_error_violated {S : VibSys} {ab : ℝ × ℝ} (hab : S.ab = some ab) {Nw nb : ℕ} (hb : 2 ≤ nb) (hn : Nw ≠ nb)
    (w : ℕ → ℝ) (Ub : ℝ × ℝ) (bs : ℕ → ℕ) (nf : ℕ) (fr : ℕ → ℕ)
    (eigs : (ℕ → ℕ → ℝ) → (ℕ → ℕ → ℝ) → ℕ → (ℕ → ℝ) × (ℕ → ℕ → ℝ)) (neigs : ℕ) :
    linearFrfBaseAll S Nw w Ub nb bs nf fr eigs neigs = .error .value := by
  by_cases h1 : Nw = 1
  · subst h1
    have e1 : bcast nb 1 = .ok nb := by
      unfold bcast
      rw [if_neg (by omega), if_neg (by omega), if_pos rfl]
    have e2 : bcast nb nb = .ok nb := by simp [bcast]
    have e3 : bcast 1 nb = .ok nb := by
      unfold bcast
      rw [if_neg (by omega), if_pos rfl]
    simp only [linearFrfBaseAll, hab, e1, e2, e3]
    rw [if_neg (by omega)]
  · have e1 : bcast nb Nw = .error .value := by
      unfold bcast
      rw [if_neg (by omega), if_neg (by omega), if_neg h1]
    simp only [linearFrfBaseAll, e1]

/-- C125 violated: with as many frequencies as base degrees of freedom (two or more) the method returns, but row
`k` is the response when only base degree of freedom `k` moves and the others rest. It is the response asked for
exactly when the other base degrees of freedom have no force on the free ones. -/
theorem C125_pair_violated {S : VibSys} {a b : ℝ} {w : ℕ → ℝ} {nb : ℕ} {bs : ℕ → ℕ} {nf : ℕ} {fr : ℕ → ℕ}
    {eigs : (ℕ → ℕ → ℝ) → (ℕ → ℕ → ℝ) → ℕ → (ℕ → ℝ) × (ℕ → ℕ → ℝ)} {neigs : ℕ} {lam : ℕ → ℝ} {V : ℕ → ℕ → ℝ}
    (D : BaseData S a b nb w nb bs nf fr eigs neigs lam V) (Ub : ℝ × ℝ) :
    ∃ X, linearFrfBaseAll S nb w Ub nb bs nf fr eigs neigs = .ok X ∧
      ∀ k < nb, BaseSteady S (w k) Ub 1 (fun _ => bs k) nf fr (X k) ∧
        (BaseSteady S (w k) Ub nb bs nf fr (X k) ↔ ∀ d < nf,
          ∑ q ∈ (range nb).erase k, (S.K (fr d) (bs q) * Ub.1 + w k * S.C (fr d) (bs q) * Ub.2) = 0 ∧
          ∑ q ∈ (range nb).erase k, (S.K (fr d) (bs q) * Ub.2 - w k * S.C (fr d) (bs q) * Ub.1) = 0) := by
  obtain ⟨X, h1, h2⟩ := frfBaseAll_pair D.ab nb w Ub bs nf fr eigs neigs
  refine ⟨X, h1, fun k hk => ?_⟩
  have h := baseSteady_single D Ub hk hk (h2 k hk)
  refine ⟨h, ?_⟩
  have key : ∀ d < nf, ∀ (f : ℕ → ℝ), ∑ q ∈ range nb, f q = f k + ∑ q ∈ (range nb).erase k, f q :=
    fun d _ f => (add_sum_erase _ f (mem_range.2 hk)).symm
  have hm : ∀ d < nf, ∀ q ∈ (range nb).erase k, S.M (fr d) (bs q) = 0 := fun d hd q hq =>
    D.mass d hd q (mem_range.1 (mem_of_mem_erase hq))
  constructor
  · intro H d hd
    have A := H d hd
    have B := h d hd
    rw [key d hd, key d hd] at A
    simp only [sum_range_one] at B
    have e1 : ∑ q ∈ (range nb).erase k, ((S.K (fr d) (bs q) - (w k)^2 * S.M (fr d) (bs q)) * Ub.1
        + w k * S.C (fr d) (bs q) * Ub.2) = ∑ q ∈ (range nb).erase k, (S.K (fr d) (bs q) * Ub.1
        + w k * S.C (fr d) (bs q) * Ub.2) := sum_congr rfl fun q hq => by rw [hm d hd q hq]; ring
    have e2 : ∑ q ∈ (range nb).erase k, ((S.K (fr d) (bs q) - (w k)^2 * S.M (fr d) (bs q)) * Ub.2
        - w k * S.C (fr d) (bs q) * Ub.1) = ∑ q ∈ (range nb).erase k, (S.K (fr d) (bs q) * Ub.2
        - w k * S.C (fr d) (bs q) * Ub.1) := sum_congr rfl fun q hq => by rw [hm d hd q hq]; ring
    rw [e1, e2] at A
    constructor
    · linarith [A.1, B.1]
    · linarith [A.2, B.2]
  · intro H d hd
    have A := H d hd
    have B := h d hd
    rw [key d hd, key d hd]
    simp only [sum_range_one] at B
    have e1 : ∑ q ∈ (range nb).erase k, ((S.K (fr d) (bs q) - (w k)^2 * S.M (fr d) (bs q)) * Ub.1
        + w k * S.C (fr d) (bs q) * Ub.2) = 0 := by
      rw [← A.1]; exact sum_congr rfl fun q hq => by rw [hm d hd q hq]; ring
    have e2 : ∑ q ∈ (range nb).erase k, ((S.K (fr d) (bs q) - (w k)^2 * S.M (fr d) (bs q)) * Ub.2
        - w k * S.C (fr d) (bs q) * Ub.1) = 0 := by
      rw [← A.2]; exact sum_congr rfl fun q hq => by rw [hm d hd q hq]; ring
    rw [e1, e2]
    constructor
    · linarith [B.1]
    · linarith [B.2]

/-- One mass `2` held by a spring of stiffness `3` to each of two supports; the middle one is free. -/
def twoSupports : VibSys :=
  ⟨3, fun i j => if i = 0 ∧ j = 0 then 2 else if i = j then 1 else 0,
    fun i j => if i = 0 ∧ j = 0 then 6 else if i = 0 ∨ j = 0 then -3 else if i = j then 3 else 0,
    fun _ _ => 0, some (0, 0), []⟩

theorem twoSupports_data : BaseData twoSupports 0 0 2 (fun k => k + 1/2) 2 (fun q => q + 1) 1 (fun _ => 0)
    (fun _ _ _ => (fun _ => 3, fun _ _ => 1 / Real.sqrt 2)) 3 (fun _ => 3) (fun _ _ => 1 / Real.sqrt 2) := by
  have hs : Real.sqrt 2 ≠ 0 := by positivity
  have h2 : Real.sqrt 2 * Real.sqrt 2 = 2 := Real.mul_self_sqrt (by norm_num)
  refine ⟨rfl, ?_, ?_, by norm_num, rfl, ⟨?_, ?_, ?_⟩, ?_⟩
  · intro d _ e _; simp [twoSupports]
  · intro d _ q _; simp [twoSupports]
  · intro i _ j _
    simp only [twoSupports, sum_range_one, and_self, if_true]
    ring
  · intro i hi j hj
    have : i = j := by omega
    simp only [this, twoSupports, sum_range_one, and_self, if_true]
    field_simp
    linarith
  · intro j _; norm_num
  · intro k hk j _
    have : k = 0 ∨ k = 1 := by omega
    rcases this with h | h <;> subst h <;> norm_num

/-- C125 violated, concretely: both supports move with `cos`; with one frequency the call fails; with the two
frequencies `1/2` and `3/2` neither row is the response asked for. -/
theorem C125_violated :
    (∀ w, linearFrfBaseAll twoSupports 1 w (1, 0) 2 (fun q => q + 1) 1 (fun _ => 0)
      (fun _ _ _ => (fun _ => 3, fun _ _ => 1 / Real.sqrt 2)) 3 = .error .value) ∧
    ∃ X, linearFrfBaseAll twoSupports 2 (fun k => k + 1/2) (1, 0) 2 (fun q => q + 1) 1 (fun _ => 0)
      (fun _ _ _ => (fun _ => 3, fun _ _ => 1 / Real.sqrt 2)) 3 = .ok X ∧
      ∀ k : ℕ, k < 2 → ¬ BaseSteady twoSupports (k + 1/2) (1, 0) 2 (fun q => q + 1) 1 (fun _ => 0) (X k) := by
  refine ⟨fun w => C125_error_violated (ab := (0, 0)) rfl (le_refl 2) (by norm_num) w _ _ _ _ _ _, ?_⟩
  obtain ⟨X, h1, h2⟩ := C125_pair_violated twoSupports_data (1, 0)
  refine ⟨X, h1, fun k hk H => ?_⟩
  have := (((h2 k hk).2.1 H) 0 (by norm_num)).1
  have hk' : k = 0 ∨ k = 1 := by omega
  rcases hk' with h | h <;> subst h
  · have e : (range 2).erase 0 = {1} := by decide
    rw [e] at this
    norm_num [twoSupports] at this
  · have e : (range 2).erase 1 = {0} := by decide
    rw [e] at this
    norm_num [twoSupports] at this

end

end TMD
