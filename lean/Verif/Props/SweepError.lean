import Verif.Props.ErrorBound
import Verif.Props.Continuation

/-!
# C159: how far the rows of a continuation are from the responses
-/

namespace TMD

open Spec Finset

noncomputable section

variable {S : VibSys} {Fl : ℕ → ℝ} {h : List ℕ} {Nt : ℕ} {tol c : ℝ}

/-- The coefficients of different harmonics are different entries. -/
theorem coefOf_sq_sum (h : List ℕ) (a : ℕ → ℝ) (n : ℕ) : ∑ k ∈ range n, ((coefOf h a (k + 1)).1 ^ 2 + (coefOf h a (k + 1)).2 ^ 2) ≤ ∑ r ∈ range (numCoeff h), a r ^ 2 := by
  induction h generalizing a with
  | nil => simp [coefOf, numCoeff]
  | cons m hs ih =>
    by_cases hm : m = 0
    · subst hm
      simp only [coefOf, numCoeff, if_true]
      rw [add_comm 1, sum_range_succ']
      have h1 := ih fun i => a (i + 1)
      have h2 : ∀ k, (0 : ℕ) ≠ k + 1 := fun k => by omega
      simp only [h2, if_false]
      nlinarith [sq_nonneg (a 0)]
    · simp only [coefOf, numCoeff, hm, if_false]
      rw [add_comm 2, sum_range_succ', sum_range_succ']
      have h1 := ih fun i => a (i + 2)
      have h3 : ∑ k ∈ range n, ((if m = k + 1 then (a 0, a 1) else coefOf hs (fun i => a (i + 2)) (k + 1)).1 ^ 2 + (if m = k + 1 then (a 0, a 1) else coefOf hs (fun i => a (i + 2)) (k + 1)).2 ^ 2)
          ≤ ∑ k ∈ range n, (((coefOf hs (fun i => a (i + 2)) (k + 1)).1 ^ 2 + (coefOf hs (fun i => a (i + 2)) (k + 1)).2 ^ 2) + if m - 1 = k then a 0 ^ 2 + a 1 ^ 2 else 0) :=
        sum_le_sum fun k _ => by
          by_cases hk : m = k + 1
          · have : m - 1 = k := by omega
            rw [if_pos hk, if_pos this]
            have := sq_nonneg (coefOf hs (fun i => a (i + 2)) (k + 1)).1
            have := sq_nonneg (coefOf hs (fun i => a (i + 2)) (k + 1)).2
            simp only
            linarith
          · have : ¬ m - 1 = k := by omega
            rw [if_neg hk, if_neg this, add_zero]
      have h4 : ∑ k ∈ range n, (if m - 1 = k then a 0 ^ 2 + a 1 ^ 2 else 0) ≤ a 0 ^ 2 + a 1 ^ 2 := by
        rw [sum_ite_eq]
        split_ifs
        · exact le_rfl
        · positivity
      have h5 := h3.trans_eq sum_add_distrib
      simp only [zero_add]
      refine h5.trans ?_
      have h6 := add_le_add h1 h4
      refine h6.trans_eq ?_
      ring

/-- The residual that the function for the continuation returns, whether gradients are asked for or not. -/
theorem hbmFun_residual (hh : Admissible h) (hok : ∀ f ∈ S.forces, ∀ U w, f.aft U w h Nt tol = .ok (aftVal h Nt tol f U w))
    (hng : ∀ f ∈ S.forces, ∀ U w, f.aftNoGrad U w h Nt tol = .ok (aftVal h Nt tol f U w).F) {X : ℕ → ℝ} {g : Bool} {o : ContOut}
    (ho : hbmFun S Fl h Nt tol X g = .ok o) : ∃ G, hbmRes S X Fl h Nt tol true = .ok ⟨o.R, G⟩ := by
  have h1 := hbmRes_ok S hh Nt tol (aftVal h Nt tol) hok X Fl
  unfold hbmFun at ho
  cases g
  · rw [hbmRes_ng S hh Nt tol (aftVal h Nt tol) hng X Fl] at ho
    obtain rfl := (Except.ok.inj ho).symm
    exact ⟨_, h1⟩
  · rw [h1] at ho
    obtain rfl := (Except.ok.inj ho).symm
    exact ⟨_, h1⟩

theorem dashpot_ng {f : NLForce} (hf : IsDashpot S.nd f) {U : ℕ → ℝ} {w : ℝ} (hok : f.aft U w h Nt tol = .ok (aftVal h Nt tol f U w)) :
    f.aftNoGrad U w h Nt tol = .ok (aftVal h Nt tol f U w).F := by
  obtain ⟨m, Q, T, loc, force, p, p', rfl, -⟩ := hf
  have h1 : instAft S.nd m Q T (elemLfh loc) U w h Nt = .ok (aftVal h Nt tol (instForce S.nd m Q T loc force) U w) := hok
  simp only [instForce] at h1 ⊢
  rw [h1]

/-- C159: each row that a continuation with the function `hbm_res` stores at a positive frequency is near the response of that frequency, with a bound from the tolerance
of the solver, the scaling of the equations, the frequency and the least damping; step lengths, start and corrector do not matter. -/
theorem C159_rows (hh : Admissible h) (hNt : ∀ k ∈ h, 2 * k + 1 < Nt) (heven : Even Nt) (hD : Damped S h) (hS : ∀ f ∈ S.forces, IsDashpot S.nd f) (hc : 0 < c)
    (hC : ∀ v : ℕ → ℝ, c * ∑ d ∈ range S.nd, v d ^ 2 ≤ ∑ d ∈ range S.nd, ∑ e ∈ range S.nd, v d * S.C d e * v e)
    {sv : ContSolver} {ε r : ℝ} (hsv : Accurate sv ε) {obj : ContObj} (hv : 0 ≤ obj.verbose) (hr : (contPrepare obj).RPtoC = .vector fun _ => r) (hr0 : 0 < r)
    {cfg : ContCfg} (hdyn : cfg.dynamicCtoP = false) {X0 : ℕ → ℝ} {lam0 lam1 : ℝ} {out : ContRes}
    (hrun : Returns sv (numCoeff h * S.nd) cfg obj (hbmFun S Fl h Nt tol) X0 lam0 lam1 out) {k : ℕ} (hk : k < out.n) (hw : 0 < out.rows k (numCoeff h * S.nd)) {V : ℕ → ℝ}
    (hV : HBMSolution S Fl h Nt tol (out.rows k (numCoeff h * S.nd)) V) {n : ℕ} (hn : ∀ m ∈ h, m ≤ n) :
    (out.rows k (numCoeff h * S.nd) * c) ^ 2 * ∑ m ∈ range n, ((m + 1 : ℕ) : ℝ) ^ 2 * ∑ d ∈ range S.nd,
        ((coefOf h (fun q => out.rows k (q * S.nd + d) - V (q * S.nd + d)) (m + 1)).1 ^ 2 + (coefOf h (fun q => out.rows k (q * S.nd + d) - V (q * S.nd + d)) (m + 1)).2 ^ 2)
      ≤ (numCoeff h * S.nd : ℕ) * (ε / r) ^ 2 := by
  have hR := fun f hf => dashpot_resists (tol := tol) hh hn hNt heven (hS f hf)
  obtain ⟨g, o, s, ho, h1, h2, h3, -⟩ := C53_converged_partial hsv hv hrun k hk
  have hs : ∀ i, s i = r := fun i => by
    rcases Nat.eq_zero_or_pos k with h0 | h0
    · rw [h2 h0 i, hr]
      rfl
    · rw [h3 h0 hdyn i, hr]
      simp only [RScale.mean, sum_const, card_range, nsmul_eq_mul]
      field_simp
  obtain ⟨G, hG⟩ := hbmFun_residual hh (fun f hf => (hR f hf).ok) (fun f hf U w => dashpot_ng (hS f hf) ((hR f hf).ok U w)) ho
  refine (C156_harmonics hh hNt heven hD hS hc hC hw rfl hG hV hn).trans ?_
  have h4 : ∀ i < numCoeff h * S.nd, o.R i ^ 2 ≤ (ε / r) ^ 2 := fun i hi => by
    have := h1 i hi
    rw [hs, abs_mul, abs_of_pos hr0] at this
    rw [← sq_abs (o.R i)]
    refine pow_le_pow_left₀ (abs_nonneg _) ?_ 2
    rw [le_div_iff₀ hr0]
    linarith
  rw [sum_comm]
  calc ∑ d ∈ range S.nd, ∑ m ∈ range n, ((coefOf h (fun q => o.R (q * S.nd + d)) (m + 1)).1 ^ 2 + (coefOf h (fun q => o.R (q * S.nd + d)) (m + 1)).2 ^ 2)
      ≤ ∑ d ∈ range S.nd, ∑ q ∈ range (numCoeff h), o.R (q * S.nd + d) ^ 2 := sum_le_sum fun d _ => coefOf_sq_sum h _ n
    _ ≤ ∑ d ∈ range S.nd, ∑ q ∈ range (numCoeff h), (ε / r) ^ 2 := sum_le_sum fun d hd => sum_le_sum fun q hq => h4 _ (block_lt (mem_range.1 hq) (mem_range.1 hd))
    _ = (numCoeff h * S.nd : ℕ) * (ε / r) ^ 2 := by
      simp only [sum_const, card_range, nsmul_eq_mul]
      push_cast
      ring

/-- Example: the mass on a spring with the damping `x'/10 + x'³` at a stored row with the frequency one: with residuals below `1e-6` each oscillating coefficient is
within `1e-4` of that of the response. -/
example (tol : ℝ) {sv : ContSolver} (hsv : Accurate sv 1e-6) {cfg : ContCfg} (hdyn : cfg.dynamicCtoP = false) {X0 : ℕ → ℝ} {lam0 lam1 : ℝ} {out : ContRes}
    (hrun : Returns sv 5 cfg (lineObj 0) (hbmFun (cubicDamped (1 / 10) 1) (fun i => if i = 1 then 1 else 0) [0, 1, 3] 64 tol) X0 lam0 lam1 out) {k : ℕ} (hk : k < out.n)
    (hw : out.rows k 5 = 1) {V : ℕ → ℝ} (hV : HBMSolution (cubicDamped (1 / 10) 1) (fun i => if i = 1 then 1 else 0) [0, 1, 3] 64 tol 1 V) :
    ∀ i < 5, 1 ≤ i → |out.rows k i - V i| ≤ 1e-4 := by
  have h1 := C159_rows (S := cubicDamped (1 / 10) 1) (h := [0, 1, 3]) (c := 1 / 10) (r := 1) (n := 3) ⟨by simp, by simp, by simp⟩ (by simp) ⟨32, rfl⟩ (cubicDamped_damped (by norm_num) _ _)
    (fun f hf => by obtain rfl : f = _ := List.mem_singleton.1 hf; exact C144_cubic _ _ _ _ (fun _ _ => rfl) fun _ => zero_le_one) (by norm_num)
    (fun v => by simp [cubicDamped]; nlinarith) hsv le_rfl (by simp [contPrepare, lineObj]) one_pos hdyn hrun hk
    (by have : out.rows k 5 = 1 := hw
        change 0 < out.rows k 5
        rw [this]; norm_num) (V := V) (by change HBMSolution _ _ _ _ _ (out.rows k 5) _; rw [hw]; exact hV) (by simp)
  change (out.rows k 5 * (1 / 10)) ^ 2 * _ ≤ ((5 : ℕ) : ℝ) * _ at h1
  rw [hw] at h1
  simp [sum_range_succ, coefOf, cubicDamped] at h1
  have key : ∀ x : ℝ, x ^ 2 ≤ 1e-8 → |x| ≤ 1e-4 := fun x hx => abs_le_of_sq_le_sq (by norm_num; norm_num at hx; exact hx) (by norm_num)
  intro i hi h0
  apply key
  norm_num at h1 ⊢
  interval_cases i <;> nlinarith [sq_nonneg (out.rows k 1 - V 1), sq_nonneg (out.rows k 2 - V 2), sq_nonneg (out.rows k 3 - V 3), sq_nonneg (out.rows k 4 - V 4)]

/-- A run to which it applies: an exact solver and the first point of the sweep. -/
example (tol : ℝ) : ∃ sv X0 out, ∃ cfg : ContCfg, Accurate sv 1e-6 ∧ cfg.dynamicCtoP = false ∧
    Returns sv 5 cfg (lineObj 0) (hbmFun (cubicDamped (1 / 10) 1) (fun i => if i = 1 then 1 else 0) [0, 1, 3] 64 tol) X0 1 2 out ∧ out.n = 1 ∧ out.rows 0 5 = 1 := by
  obtain ⟨U, hU, -⟩ := C144_solution (S := cubicDamped (1 / 10) 1) (h := [0, 1, 3]) (Nt := 64) (tol := tol) (w := 1) ⟨by simp, by simp, by simp⟩ (by simp) ⟨32, rfl⟩
    (cubicDamped_damped (by norm_num) _ _) (fun f hf => by obtain rfl : f = _ := List.mem_singleton.1 hf; exact C144_cubic _ _ _ _ (fun _ _ => rfl) fun _ => zero_le_one)
    (fun i => if i = 1 then 1 else 0) one_pos
  refine ⟨checkSolver fun _ => U, fun _ => 0, ?_, { lineCfg with maxSteps := 1, callback := false }, ?_, rfl, ⟨1, ?_⟩, ?_⟩
  · exact ⟨fun k => if k = 0 then snocLam 5 (fun i => U i * 1) 1 else fun _ => 0, 1, [], contPrepare (lineObj 0), true, []⟩
  · intro n j F x s h hs
    obtain ⟨g, R, J, h1, h2⟩ := checkSolver_accurate _ n j F x s h hs
    exact ⟨g, R, J, h1, fun i hi => (h2 i hi).trans (by norm_num)⟩
  · obtain ⟨R, g, hR, h0⟩ := hU
    have e1 : hbmFun (cubicDamped (1 / 10) 1) (fun i => if i = 1 then 1 else 0) [0, 1, 3] 64 tol (snocLam 5 (fun i => U i * 1) 1) true = .ok ⟨R, (match g with | some p => p.1 | none => fun _ _ => 0), match g with | some p => p.2 | none => fun _ => 0⟩ := by
      have : snocLam 5 (fun i => U i * 1) 1 = fun i => if i < 5 then U i else 1 := by
        funext i
        simp [snocLam]
      rw [this]
      have hR' : hbmRes (cubicDamped (1 / 10) 1) (fun i => if i < 5 then U i else 1) (fun i => if i = 1 then 1 else 0) [0, 1, 3] 64 tol true = .ok ⟨R, g⟩ := hR
      unfold hbmFun
      rw [hR']
      cases g <;> rfl
    have hC : (contPrepare (lineObj 0)).CtoP = fun _ => 1 := by simp [contPrepare, lineObj]
    have hP : (contPrepare (lineObj 0)).RPtoC = .vector fun _ => 1 := by simp [contPrepare, lineObj]
    have e2 : (checkSolver fun _ => U).nsolve 5 0 (initialFun 5 (hbmFun (cubicDamped (1 / 10) 1) (fun i => if i = 1 then 1 else 0) [0, 1, 3] 64 tol) 1 (fun _ => 1) (.vector fun _ => 1))
        (fun i => 0 / 1) = .ok ⟨U, true, 1⟩ := by
      have : ∃ R' J, initialFun 5 (hbmFun (cubicDamped (1 / 10) 1) (fun i => if i = 1 then 1 else 0) [0, 1, 3] 64 tol) 1 (fun _ => 1) (.vector fun _ => 1) U true = .ok (R', J) ∧
          ∀ i < 5, R' i = 0 := by
        refine ⟨fun i => 1 * R i, _, by unfold initialFun; rw [e1]; rfl, fun i hi => ?_⟩
        simp only [one_mul]
        exact h0 i hi
      simp only [checkSolver, this, decide_true]
    unfold continuation
    simp only [hC, hP]
    rw [e2]
    simp [contLoop, contCond, contStart, contFinish, lineCfg, hC]
  · exact ⟨rfl, by simp [snocLam]⟩

end

end TMD
