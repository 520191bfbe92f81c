import Verif.Props.Residual
import Verif.Lemmas.Modal

/-!
# Properties C47 (linear frequency response), C70 (base excitation residual), C71 (linear response to base
excitation)
-/

namespace TMD

open Spec Finset

noncomputable section

/-! ## C47 -/

/-- `(lam, V)` is a complete mass-normalised modal basis of `(K, M)` with positive squared frequencies. -/
structure ModalBasis (n : ℕ) (M K : ℕ → ℕ → ℝ) (lam : ℕ → ℝ) (V : ℕ → ℕ → ℝ) : Prop where
  eig : ∀ i < n, ∀ j < n, ∑ k ∈ range n, K i k * V k j = lam j * ∑ k ∈ range n, M i k * V k j
  orth : ∀ i < n, ∀ j < n, ∑ k ∈ range n, V k i * ∑ l ∈ range n, M k l * V l j = if i = j then 1 else 0
  pos : ∀ j < n, 0 < lam j

/-- C47: with proportional damping, all modes retained and no undamped resonance hit, the coefficients
returned by `linear_frf` solve the linear equations of motion for every forcing: in harmonic `1` (`X` are
cosine coefficients, then sine coefficients, then `w`)
`(K - w²M) Xc + w C Xs = Fl` and `(K - w²M) Xs - w C Xc = Flsin`. -/
theorem C47_solves (S : VibSys) (a b w : ℝ) (hab : S.ab = some (a, b))
    (hC : ∀ d < S.nd, ∀ e < S.nd, S.C d e = a * S.M d e + b * S.K d e)
    (eigs : ℕ → (ℕ → ℝ) × (ℕ → ℕ → ℝ)) (hV : ModalBasis S.nd S.M S.K (eigs S.nd).1 (eigs S.nd).2)
    (neigs : ℕ) (hn : S.nd ≤ neigs) (Fl Fs : ℕ → ℝ)
    (hD : ∀ j < S.nd, ((eigs S.nd).1 j - w^2)^2 + (w * (a + b * (eigs S.nd).1 j))^2 ≠ 0) :
    ∃ X, linearFrf S w Fl eigs neigs (some Fs) = .ok X ∧ X (S.nd + S.nd) = w ∧ ∀ d < S.nd,
      ∑ e ∈ range S.nd, ((S.K d e - w^2 * S.M d e) * X e + w * S.C d e * X (S.nd + e)) = Fl d ∧
      ∑ e ∈ range S.nd, ((S.K d e - w^2 * S.M d e) * X (S.nd + e) - w * S.C d e * X e) = Fs d := by
  have hne : (if neigs > S.nd then S.nd else neigs) = S.nd := by split <;> omega
  set lam := (eigs S.nd).1 with hlam
  set V := (eigs S.nd).2 with hVd
  have hwn : ∀ j < S.nd, (Real.sqrt (lam j))^2 = lam j := fun j hj => Real.sq_sqrt (hV.pos j hj).le
  have hz : ∀ j < S.nd, 2 * Real.sqrt (lam j) * w * (a / Real.sqrt (lam j) / 2 + b * Real.sqrt (lam j) / 2)
      = w * (a + b * lam j) := fun j hj => modal_z (hwn j hj) (hV.pos j hj)
  obtain ⟨qc, qs, hX, hq⟩ : ∃ qc qs : ℕ → ℝ, linearFrf S w Fl eigs neigs (some Fs)
      = .ok (hcat S.nd (matVec S.nd V qc) (hcat S.nd (matVec S.nd V qs) (fun _ => w))) ∧
      ∀ j < S.nd, (lam j - w^2) * qc j + w * (a + b * lam j) * qs j = ∑ i ∈ range S.nd, V i j * Fl i ∧
        (lam j - w^2) * qs j - w * (a + b * lam j) * qc j = ∑ i ∈ range S.nd, V i j * Fs i := by
    refine ⟨?qc, ?qs, ?h1, ?h2⟩
    case h1 =>
      unfold linearFrf
      rw [hab]
      simp only [hne, ← hlam, ← hVd]
      rfl
    case h2 =>
      intro j hj
      simp only [hwn j hj, hz j hj]
      exact modal_q (hD j hj)
  refine ⟨_, hX, ?_, ?_⟩
  · simp [hcat]
  intro d hd
  constructor
  · refine Eq.trans ?_ (modal_core S.nd S.M S.K S.C V lam a b w 1 Fl qc qs hV.eig hV.orth hC (fun j hj => ?_) d hd)
    · refine sum_congr rfl (fun e he => ?_)
      have he := mem_range.mp he
      simp only [hcat, he, if_true, Nat.add_sub_cancel_left, if_neg (show ¬ S.nd + e < S.nd by omega), matVec]
      rw [one_mul]
    · rw [← (hq j hj).1]; ring
  · refine Eq.trans ?_ (modal_core S.nd S.M S.K S.C V lam a b w (-1) Fs qs qc hV.eig hV.orth hC (fun j hj => ?_) d hd)
    · refine sum_congr rfl (fun e he => ?_)
      have he := mem_range.mp he
      simp only [hcat, he, if_true, Nat.add_sub_cancel_left, if_neg (show ¬ S.nd + e < S.nd by omega), matVec]
      ring
    · rw [← (hq j hj).2]; ring

/-- C47: hence the linear harmonic balance residual (`hbm_res` without nonlinear forces, harmonic 1) is
zero at the returned point. -/
theorem C47_hbm_residual_zero (S : VibSys) (hS : S.forces = []) (a b w : ℝ) (hab : S.ab = some (a, b))
    (hC : ∀ d < S.nd, ∀ e < S.nd, S.C d e = a * S.M d e + b * S.K d e)
    (eigs : ℕ → (ℕ → ℝ) × (ℕ → ℕ → ℝ)) (hV : ModalBasis S.nd S.M S.K (eigs S.nd).1 (eigs S.nd).2)
    (neigs : ℕ) (hn : S.nd ≤ neigs) (Fl Fs : ℕ → ℝ)
    (hD : ∀ j < S.nd, ((eigs S.nd).1 j - w^2)^2 + (w * (a + b * (eigs S.nd).1 j))^2 ≠ 0) (Nt : ℕ) (tol : ℝ) :
    ∃ X R g, linearFrf S w Fl eigs neigs (some Fs) = .ok X ∧
      hbmRes S X (hcat S.nd Fl Fs) [1] Nt tol true = .ok ⟨R, some g⟩ ∧ ∀ i < 2 * S.nd, R i = 0 := by
  obtain ⟨X, h1, h2, h3⟩ := C47_solves S a b w hab hC eigs hV neigs hn Fl Fs hD
  have hh : Admissible [1] := ⟨by simp, by decide, by decide⟩
  refine ⟨X, _, _, h1, hbmRes_ok S hh Nt tol (fun _ _ _ => ⟨fun _ => 0, fun _ _ => 0, fun _ => 0⟩) (by simp [hS]) X _, ?_⟩
  have hnc : numCoeff [1] = 2 := by decide
  have hz : zi [1] = 0 := by decide
  have hm : (0:ℕ) ∈ Ico (zi [1]) [1].length := by decide
  have hw : X (numCoeff [1] * S.nd) = w := by rw [hnc, Nat.two_mul, h2]
  intro i hi
  unfold hbmG
  simp only [hS, List.map_nil, List.sum_nil, add_zero, hw]
  by_cases hi' : i < S.nd
  · have := hsE_mulVec_cos S.M S.C S.K w hh.zero_first hm hi' (sl 0 (numCoeff [1] * S.nd) X) false
    simp only [hz, Nat.zero_mul, Nat.sub_zero, Nat.mul_zero, Nat.zero_add] at this
    rw [this, ← sub_eq_zero.mpr (h3 i hi').1]
    simp only [hcat, hi', if_true]
    congr 1
    refine sum_congr rfl (fun e he => ?_)
    have he := mem_range.mp he
    rw [hnc, sl_zero (by omega), sl_zero (by omega)]
    simp
    ring
  · have hi2 : i - S.nd < S.nd := by omega
    have := hsE_mulVec_sin S.M S.C S.K w hh.zero_first hm hi2 (sl 0 (numCoeff [1] * S.nd) X) false
    simp only [hz, Nat.zero_mul, Nat.sub_zero, Nat.mul_zero, Nat.zero_add, Nat.mul_one] at this
    rw [show S.nd + (i - S.nd) = i by omega] at this
    rw [this, ← sub_eq_zero.mpr (h3 _ hi2).2]
    simp only [hcat, hi', if_false]
    congr 1
    refine sum_congr rfl (fun e he => ?_)
    have he := mem_range.mp he
    rw [hnc, sl_zero (by omega), sl_zero (by omega)]
    simp
    ring

/-- C47: proportional damping is required, otherwise the call fails. -/
theorem C47_requires_proportional (S : VibSys) (hab : S.ab = none) (w : ℝ) (Fl : ℕ → ℝ)
    (eigs : ℕ → (ℕ → ℝ) × (ℕ → ℕ → ℝ)) (neigs : ℕ) (Fs : Option (ℕ → ℝ)) :
    linearFrf S w Fl eigs neigs Fs = .error .assertion := by
  unfold linearFrf
  rw [hab]

/-- Example: unit oscillator with `K = 4`, `C = 0.5 M`, forced at `w = 2` (resonance) by `cos`:
`X_sin = 1`. -/
example : ∃ X, linearFrf ⟨1, fun _ _ => 1, fun _ _ => 4, fun _ _ => 1/2, some (1/2, 0), []⟩ 2 (fun _ => 1)
    (fun _ => (fun _ => 4, fun _ _ => 1)) 3 (some (fun _ => 0)) = .ok X ∧ X 1 = 1 := by
  obtain ⟨X, h1, h2, h3⟩ := C47_solves ⟨1, fun _ _ => 1, fun _ _ => 4, fun _ _ => 1/2, some (1/2, 0), []⟩ (1/2) 0 2 rfl
    (by intro d _ e _; norm_num) (fun _ => (fun _ => 4, fun _ _ => 1))
    ⟨by simp, by intro i hi j hj; simp at hi hj; simp [hi, hj], by simp⟩ 3 (by decide) (fun _ => 1) (fun _ => 0)
    (by intro j _; norm_num)
  refine ⟨X, h1, ?_⟩
  have := (h3 0 (by decide)).1
  norm_num at this
  exact this

/-! ## C70 -/

/-- Number of free unknowns (without the frequency) in `hbm_base_res`. -/
def nFree (nd L : ℕ) (base : ℕ → Bool) : ℕ := Nat.count (fun i => ¬ baseMask nd L base i) L

theorem baseMask_infinite (nd L : ℕ) (base : ℕ → Bool) : {i | ¬ baseMask nd L base i}.Infinite := by
  refine Set.infinite_of_injective_forall_mem (f := fun k => L + k) (fun a b hab => by simpa using hab) ?_
  intro k hk
  have := hk.1
  omega

theorem hbmBaseRes_ok (S : VibSys) {h : List ℕ} (hh : Admissible h) (Nt : ℕ) (tol : ℝ)
    (A : NLForce → (ℕ → ℝ) → ℝ → AftOut) (hA : ∀ f ∈ S.forces, ∀ U w, f.aft U w h Nt tol = .ok (A f U w))
    (Uw Ub : ℕ → ℝ) (base : ℕ → Bool) {L : ℕ} (hL : L = numCoeff h * S.nd) :
    hbmBaseRes S Uw Ub base h Nt tol = .ok
      (fun k => hbmG S A h (baseFull S.nd L base Uw Ub) (Nat.nth (fun i => ¬ baseMask S.nd L base i) k),
       fun k l => hbmJ S A h (baseFull S.nd L base Uw Ub) (Nat.nth (fun i => ¬ baseMask S.nd L base i) k)
         (Nat.nth (fun i => ¬ baseMask S.nd L base i) l),
       fun k => hbmD S A h (baseFull S.nd L base Uw Ub) (Nat.nth (fun i => ¬ baseMask S.nd L base i) k)) := by
  subst hL
  unfold hbmBaseRes
  rw [Nhc_ok hh.nodup]
  simp only [hbmRes_ok S hh Nt tol A hA, sub_zero]

/-- C70: for each free degree of freedom `d` the residual contains the coefficients of the unforced
equation of motion, for the motion whose base entries are exactly the prescribed ones and whose free
entries are the unknowns, in order; no base row is contained. -/
theorem C70_value (S : VibSys) (h : List ℕ) (hh : Admissible h) (Nt : ℕ) (tol : ℝ)
    (A : NLForce → (ℕ → ℝ) → ℝ → AftOut) (hA : ∀ f ∈ S.forces, ∀ U w, f.aft U w h Nt tol = .ok (A f U w))
    (Uw Ub : ℕ → ℝ) (base : ℕ → Bool) :
    let L := numCoeff h * S.nd
    let full := baseFull S.nd L base Uw Ub
    ∃ R J d R' g, hbmBaseRes S Uw Ub base h Nt tol = .ok (R, J, d) ∧
      hbmRes S full (fun _ => 0) h Nt tol true = .ok ⟨R', some g⟩ ∧
      full L = Uw (nFree S.nd L base) ∧
      (∀ i < L, base (i % S.nd) = false → ∃ k < nFree S.nd L base, full i = Uw k ∧ R k = R' i) ∧
      (∀ k < nFree S.nd L base, ∃ i < L, base (i % S.nd) = false ∧ full i = Uw k ∧ R k = R' i) ∧
      (∀ i < L, base (i % S.nd) = true → full i = Ub (Nat.count (fun i => i < L ∧ base (i % S.nd) = true) i)) := by
  intro L full
  refine ⟨_, _, _, _, _, hbmBaseRes_ok S hh Nt tol A hA Uw Ub base rfl, hbmRes_ok S hh Nt tol A hA _ _, ?_, ?_, ?_, ?_⟩
  · have : ¬ baseMask S.nd L base L := fun hk => absurd hk.1 (lt_irrefl _)
    simp only [full, baseFull, if_neg this, nFree]
  · intro i hi hb
    have hm : ¬ baseMask S.nd L base i := fun hk => by rw [hk.2] at hb; simp at hb
    refine ⟨Nat.count (fun i => ¬ baseMask S.nd L base i) i, Nat.count_strict_mono hm hi, ?_, ?_⟩
    · simp only [full, baseFull, if_neg hm]
    · simp only [sub_zero]
      have e := Nat.nth_count (p := fun i => ¬ baseMask S.nd L base i) hm
      exact congrArg (fun q => hbmG S A h full q) e
  · intro k hk
    have hinf := baseMask_infinite S.nd L base
    have hm := Nat.nth_mem_of_infinite hinf k
    have hlt := (Nat.nth_lt_of_lt_count hk)
    refine ⟨Nat.nth (fun i => ¬ baseMask S.nd L base i) k, hlt, ?_, ?_, ?_⟩
    · by_contra hb
      exact hm ⟨hlt, by simpa using hb⟩
    · simp only [full, baseFull, if_neg hm]
      rw [Nat.count_nth_of_infinite hinf]
    · simp only [sub_zero]; rfl
  · intro i hi hb
    have hm : baseMask S.nd L base i := ⟨hi, hb⟩
    simp only [full, baseFull, if_pos hm]
    rfl

/-- C70: the returned derivatives are the true derivatives with respect to all free unknowns and the
frequency. -/
theorem C70_jacobian (S : VibSys) (h : List ℕ) (hh : Admissible h) (Nt : ℕ) (tol : ℝ)
    (A : NLForce → (ℕ → ℝ) → ℝ → AftOut) (hA : ∀ f ∈ S.forces, ∀ U w, f.aft U w h Nt tol = .ok (A f U w))
    (Ub : ℕ → ℝ) (base : ℕ → Bool) :
    ∃ res : (ℕ → ℝ) → (ℕ → ℝ) × (ℕ → ℕ → ℝ) × (ℕ → ℝ), (∀ Uw, hbmBaseRes S Uw Ub base h Nt tol = .ok (res Uw)) ∧
      ∀ Uw, (∀ f ∈ S.forces, JointTrue (A f) (numCoeff h * S.nd) (baseFull S.nd (numCoeff h * S.nd) base Uw Ub)) →
        let n := nFree S.nd (numCoeff h * S.nd) base
        HasJac n (n + 1) (fun Uw => (res Uw).1)
          (fun i j => if j < n then (res Uw).2.1 i j else (res Uw).2.2 i) Uw := by
  refine ⟨_, fun Uw => hbmBaseRes_ok S hh Nt tol A hA Uw Ub base rfl, ?_⟩
  intro Uw hT n k hk
  set L := numCoeff h * S.nd with hL
  have hinf := baseMask_infinite S.nd L base
  set p := fun i => ¬ baseMask S.nd L base i with hp
  have hlt : Nat.nth p k < L := Nat.nth_lt_of_lt_count hk
  have hpL : p L := fun hk => absurd hk.1 (lt_irrefl _)
  have h1 := hbmG_comp S hh A (n := n + 1) (x := Uw) (Y := fun X => baseFull S.nd L base X Ub)
    (G := fun i j => if p i then (if j = Nat.count p i then 1 else 0) else 0) (fun i hi => ?_) hT (Nat.nth p k) hlt
  · refine h1.congr (fun j hj => ?_)
    rw [if_pos hpL]
    have hn : Nat.count p L = n := rfl
    by_cases hjn : j < n
    · have hne : j ≠ Nat.count p L := by omega
      rw [if_neg hne, mul_zero, add_zero]
      have hjl : Nat.nth p j < L := Nat.nth_lt_of_lt_count hjn
      rw [sum_eq_single_of_mem (Nat.nth p j) (mem_range.mpr hjl)]
      · rw [if_pos (Nat.nth_mem_of_infinite hinf j), Nat.count_nth_of_infinite hinf]
        simp only [if_true, mul_one, if_pos hjn]
      · intro i hi hne
        by_cases hpi : p i
        · rw [if_pos hpi, if_neg, mul_zero]
          intro hc
          apply hne
          rw [hc, Nat.nth_count hpi]
        · rw [if_neg hpi, mul_zero]
    · have hjn' : j = n := by omega
      beta_reduce
      rw [sum_eq_zero, zero_add, hn, if_pos hjn', mul_one, if_neg hjn]
      intro i hi
      have hi := mem_range.mp hi
      by_cases hpi : p i
      · rw [if_pos hpi, if_neg, mul_zero]
        have := Nat.count_strict_mono hpi hi
        rw [hn] at this
        rw [hjn']
        exact this.ne'
      · rw [if_neg hpi, mul_zero]
  · by_cases hpi : p i
    · simp only [if_pos hpi]
      refine (HasGrad.coord (n := n + 1) (x := Uw) (Nat.count p i)).congr_fun (fun X => ?_)
      simp only [baseFull]
      exact if_neg hpi
    · simp only [if_neg hpi]
      refine (HasGrad.const (n := n + 1) (x := Uw) (Ub (Nat.count (baseMask S.nd L base) i))).congr_fun (fun X => ?_)
      simp only [baseFull]
      exact if_pos (not_not.mp hpi)

/-- Example: two degrees of freedom, the second is the base, harmonic 1: the free unknowns are the entries
0 and 2 of the full vector. -/
example : nFree 2 4 (fun d => d == 1) = 2 ∧
    baseFull 2 4 (fun d => d == 1) (fun k => 10 + k) (fun k => 100 + k) 2 = 11 ∧
    baseFull 2 4 (fun d => d == 1) (fun k => 10 + k) (fun k => 100 + k) 3 = 101 := by
  have h1 : nFree 2 4 (fun d => d == 1) = 2 := by decide
  have h2 : Nat.count (fun i => ¬ baseMask 2 4 (fun d => d == 1) i) 2 = 1 := by decide
  have h3 : Nat.count (baseMask 2 4 (fun d => d == 1)) 3 = 1 := by decide
  have h4 : ¬ baseMask 2 4 (fun d => d == 1) 2 := by decide
  have h5 : baseMask 2 4 (fun d => d == 1) 3 := by decide
  refine ⟨h1, ?_, ?_⟩
  · simp only [baseFull, if_neg h4, h2]; norm_num
  · simp only [baseFull, if_pos h5, h3]; norm_num

/-! ## C71 -/

/-- C71 (partial: requires that the base is not coupled to the free degrees of freedom by the mass matrix,
`M_fb = 0`, a single base degree of freedom): the returned response of the free degrees of freedom solves
the linear equations of motion under the prescribed base motion `Ub.1 cos + Ub.2 sin`. -/
theorem C71_partial (S : VibSys) (a b w : ℝ) (hab : S.ab = some (a, b)) (Ub : ℝ × ℝ) (q nf : ℕ) (fr : ℕ → ℕ)
    (hC : ∀ d < nf, ∀ e < nf, S.C (fr d) (fr e) = a * S.M (fr d) (fr e) + b * S.K (fr d) (fr e))
    (hM : ∀ d < nf, S.M (fr d) q = 0)
    (eigs : (ℕ → ℕ → ℝ) → (ℕ → ℕ → ℝ) → ℕ → (ℕ → ℝ) × (ℕ → ℕ → ℝ)) (neigs : ℕ) (hn : nf ≤ neigs)
    (lam : ℕ → ℝ) (V : ℕ → ℕ → ℝ)
    (he : eigs (fun i j => S.K (fr i) (fr j)) (fun i j => S.M (fr i) (fr j)) nf = (lam, V))
    (hV : ModalBasis nf (fun i j => S.M (fr i) (fr j)) (fun i j => S.K (fr i) (fr j)) lam V)
    (hD : ∀ j < nf, (lam j - w^2)^2 + (w * (a + b * lam j))^2 ≠ 0) :
    ∃ X, linearFrfBase S w Ub q nf fr eigs neigs = .ok X ∧ ∀ d < nf,
      ∑ e ∈ range nf, ((S.K (fr d) (fr e) - w^2 * S.M (fr d) (fr e)) * X e + w * S.C (fr d) (fr e) * X (nf + e))
        + ((S.K (fr d) q - w^2 * S.M (fr d) q) * Ub.1 + w * S.C (fr d) q * Ub.2) = 0 ∧
      ∑ e ∈ range nf, ((S.K (fr d) (fr e) - w^2 * S.M (fr d) (fr e)) * X (nf + e) - w * S.C (fr d) (fr e) * X e)
        + ((S.K (fr d) q - w^2 * S.M (fr d) q) * Ub.2 - w * S.C (fr d) q * Ub.1) = 0 := by
  have hne : (if neigs > nf then nf else neigs) = nf := by split <;> omega
  obtain ⟨X, h1, -, h3⟩ := C47_solves ⟨nf, fun i j => S.M (fr i) (fr j), fun i j => S.K (fr i) (fr j),
    fun i j => S.C (fr i) (fr j), some (a, b), []⟩ a b w rfl hC (fun _ => (lam, V)) hV neigs hn
    (fun i => -S.K (fr i) q * Ub.1 - S.C (fr i) q * Ub.2 * w)
    (fun i => -S.K (fr i) q * Ub.2 + S.C (fr i) q * Ub.1 * w) hD
  refine ⟨X, ?_, ?_⟩
  · rw [← h1]
    unfold linearFrfBase linearFrf
    rw [hab]
    simp only [hne, he]
  · intro d hd
    have := h3 d hd
    simp only at this
    rw [this.1, this.2, hM d hd]
    constructor <;> ring

/-- C71 violated: with mass coupling between base and free degrees of freedom the base inertia force is
missing. Two degrees of freedom with `M = [[1, 1/2], [1/2, 1]]`, `K = [[2, 0], [0, 2]]`, base 1, `w = 1`:
the returned response is zero although the equation requires `x = 1/2`. -/
theorem C71_violated : ∃ (S : VibSys) (X : ℕ → ℝ),
    linearFrfBase S 1 (1, 0) 1 1 (fun _ => 0) (fun _ _ _ => (fun _ => 2, fun _ _ => 1)) 3 = .ok X ∧
    ModalBasis 1 (fun _ _ => S.M 0 0) (fun _ _ => S.K 0 0) (fun _ => 2) (fun _ _ => 1) ∧
    (S.K 0 0 - 1^2 * S.M 0 0) * X 0 + 1 * S.C 0 0 * X 1
      + ((S.K 0 1 - 1^2 * S.M 0 1) * 1 + 1 * S.C 0 1 * 0) ≠ 0 := by
  refine ⟨⟨2, fun i j => if i = j then 1 else 1/2, fun i j => if i = j then 2 else 0, fun _ _ => 0, some (0, 0), []⟩,
    _, rfl, ⟨?_, ?_, ?_⟩, ?_⟩
  · intro i hi j hj; simp
  · intro i hi j hj
    have : i = j := by omega
    simp [this]
  · simp
  · norm_num [hcat, matVec]

end

end TMD
