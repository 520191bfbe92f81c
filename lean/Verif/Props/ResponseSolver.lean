import Verif.Props.SweepError
import Verif.Props.StaticSolverBound
import Verif.Props.SolverLinear

/-!
# C160: the error of a response that the solver reports as converged
-/

namespace TMD

open Spec Finset

noncomputable section

variable {S : VibSys} {Fl : ℕ → ℝ} {h : List ℕ} {Nt n : ℕ} {tol c : ℝ}

/-- The oscillating part of a step is bounded by what the matrix of the harmonic balance equations makes of it. -/
theorem jac_lower (hh : Admissible h) (hn : ∀ k ∈ h, k ≤ n) (hS : ∀ f ∈ S.forces, Resists S.nd n h Nt tol f) (hM : ∀ d < S.nd, ∀ e < S.nd, S.M d e = S.M e d)
    (hK : ∀ d < S.nd, ∀ e < S.nd, S.K d e = S.K e d) (hc : 0 < c)
    (hC : ∀ v : ℕ → ℝ, c * ∑ d ∈ range S.nd, v d ^ 2 ≤ ∑ d ∈ range S.nd, ∑ e ∈ range S.nd, v d * S.C d e * v e) {Z : ℕ → ℝ} (hw : 0 < Z (numCoeff h * S.nd))
    {V : ℕ → ℝ} (hV : ∀ i, numCoeff h * S.nd ≤ i → V i = 0) :
    (Z (numCoeff h * S.nd) * c) ^ 2 * oscSize S.nd n h V ≤ ∑ d ∈ range S.nd, ∑ r ∈ range (numCoeff h),
      (∑ j ∈ range (numCoeff h * S.nd), hbmJ S (aftVal h Nt tol) h Z (r * S.nd + d) j * V j) ^ 2 := by
  set L := numCoeff h * S.nd with hL
  set w := Z L with hwd
  have hVL : V L = 0 := hV L le_rfl
  set g : ℕ → ℝ → ℝ := fun i s => hbmG S (aftVal h Nt tol) h (fun k => Z k + s * V k) i with hg
  have hgd : ∀ i < L, HasDerivAt (g i) (∑ j ∈ range L, hbmJ S (aftVal h Nt tol) h Z i j * V j) 0 := fun i hi => by
    have h1 := (hbmG_grad S hh (aftVal h Nt tol) Z (fun f hf => (hS f hf).grad Z hw) i hi).directional V fun k hk => hV k (by omega)
    rw [sum_range_succ, ← hL, if_neg (lt_irrefl L), hVL, mul_zero, add_zero] at h1
    have h2 : ∑ j ∈ range L, (if j < L then hbmJ S (aftVal h Nt tol) h Z i j else hbmD S (aftVal h Nt tol) h Z i) * V j
        = ∑ j ∈ range L, hbmJ S (aftVal h Nt tol) h Z i j * V j :=
      sum_congr rfl fun j hj => by rw [if_pos (mem_range.1 hj)]
    rwa [h2] at h1
  have hgb : ∀ i s, g i s = balance S h Nt tol (fun k => sl 0 L Z k + s * V k) w i := fun i s => by
    have e1 : sl 0 L (fun k => Z k + s * V k) = fun k => sl 0 L Z k + s * V k := by
      funext k
      by_cases hk : k < L
      · rw [sl_zero hk, sl_zero hk]
      · simp [sl, hk, hV k (by omega)]
    have e2 : (fun k => Z k + s * V k) L = w := by simp only [hVL, mul_zero, add_zero, hwd]
    show matVec L (hsE S.nd S.M S.C S.K ((fun k => Z k + s * V k) L) h false) (sl 0 L (fun k => Z k + s * V k)) i
      + (S.forces.map fun f => (aftVal h Nt tol f (sl 0 L (fun k => Z k + s * V k)) ((fun k => Z k + s * V k) L)).F i).sum = _
    rw [e1, e2]
    rfl
  have hdiff : ∀ s : ℝ, (fun i => (fun k => sl 0 L Z k + s * V k) i - (fun k => sl 0 L Z k + 0 * V k) i) = fun i => s * V i := fun s => by funext i; ring
  have hslope : ∀ i < L, Filter.Tendsto (fun s : ℝ => s⁻¹ * (g i s - g i 0)) (nhdsWithin 0 {0}ᶜ) (nhds (∑ j ∈ range L, hbmJ S (aftVal h Nt tol) h Z i j * V j)) := fun i hi => by
    have := hasDerivAt_iff_tendsto_slope_zero.1 (hgd i hi)
    simpa using this
  have h1 : ∀ᶠ s : ℝ in nhdsWithin 0 {0}ᶜ, (w * c) ^ 2 * oscSize S.nd n h V
      ≤ ∑ d ∈ range S.nd, ∑ r ∈ range (numCoeff h), (s⁻¹ * (g (r * S.nd + d) s - g (r * S.nd + d) 0)) ^ 2 := by
    filter_upwards [self_mem_nhdsWithin] with s hs
    have hs0 : s ≠ 0 := hs
    have h2 := osc_bound_exact hh hn hc hC _ _ hw (pair_work hh hS hM hK (fun k => sl 0 L Z k + s * V k) (fun k => sl 0 L Z k + 0 * V k) hw)
    rw [hdiff, oscSize_smul, sum_comm] at h2
    have h3 := h2.trans (sum_le_sum fun d _ => coefOf_sq_sum h _ n)
    simp only [hgb, mul_pow, ← mul_sum]
    have hs2 : 0 < s ^ 2 := by positivity
    rw [inv_pow, ← div_eq_inv_mul, le_div_iff₀ hs2]
    linarith
  have h2 : Filter.Tendsto (fun s : ℝ => ∑ d ∈ range S.nd, ∑ r ∈ range (numCoeff h), (s⁻¹ * (g (r * S.nd + d) s - g (r * S.nd + d) 0)) ^ 2)
      (nhdsWithin 0 {0}ᶜ) (nhds (∑ d ∈ range S.nd, ∑ r ∈ range (numCoeff h), (∑ j ∈ range L, hbmJ S (aftVal h Nt tol) h Z (r * S.nd + d) j * V j) ^ 2)) :=
    tendsto_finsetSum _ fun d hd => tendsto_finsetSum _ fun r hr => (hslope _ (block_lt (mem_range.1 hr) (mem_range.1 hd))).pow 2
  exact ge_of_tendsto h2 h1

theorem osc_two (nd n : ℕ) (h : List ℕ) (A B : ℕ → ℝ) : oscSize nd n h (fun i => A i + B i) ≤ 2 * oscSize nd n h A + 2 * oscSize nd n h B := by
  unfold oscSize
  rw [mul_sum, mul_sum, ← sum_add_distrib]
  refine sum_le_sum fun k _ => ?_
  rw [mul_left_comm, mul_left_comm 2, ← mul_add]
  refine mul_le_mul_of_nonneg_left ?_ (by positivity)
  rw [mul_sum, mul_sum, ← sum_add_distrib]
  refine sum_le_sum fun d _ => ?_
  rw [coefOf_add]
  simp only [Prod.fst_add, Prod.snd_add]
  nlinarith [sq_nonneg ((coefOf h (fun r => A (r * nd + d)) (k + 1)).1 - (coefOf h (fun r => B (r * nd + d)) (k + 1)).1),
    sq_nonneg ((coefOf h (fun r => A (r * nd + d)) (k + 1)).2 - (coefOf h (fun r => B (r * nd + d)) (k + 1)).2)]

theorem norm_blocks (m nd : ℕ) (R : ℕ → ℝ) (x : Fin (m * nd) → ℝ) (hx : ∀ i, x i = R i) : ∑ d ∈ range nd, ∑ r ∈ range m, R (r * nd + d) ^ 2 = x ⬝ᵥ x := by
  rw [sum_comm, ← sum_blocks m nd fun i => R i ^ 2, Finset.sum_range]
  simp only [dotProduct, hx, sq]

/-- C160: if Newton's method with a tolerance for the residual alone reports success on the harmonic balance equations at a frequency, the oscillating coefficients that it
returns are off from those of the response by at most twice that tolerance divided by the frequency and the least damping. -/
theorem C160_solver (hh : Admissible h) (hNt : ∀ k ∈ h, 2 * k + 1 < Nt) (heven : Even Nt) (hD : Damped S h) (hS : ∀ f ∈ S.forces, IsDashpot S.nd f) (hc : 0 < c)
    (hC : ∀ v : ℕ → ℝ, c * ∑ d ∈ range S.nd, v d ^ 2 ≤ ∑ d ∈ range S.nd, ∑ e ∈ range S.nd, v d * S.C d e * v e) {w : ℝ} (hw : 0 < w) {V : ℕ → ℝ}
    (hV : HBMSolution S Fl h Nt tol w V) (hn : ∀ k ∈ h, k ≤ n)
    {inf ρ : ℝ} {L : Type} {fac : Matrix (Fin (numCoeff h * S.nd)) (Fin (numCoeff h * S.nd)) ℝ → L} {sol : L → (Fin (numCoeff h * S.nd) → ℝ) → Fin (numCoeff h * S.nd) → ℝ}
    (hsol : ExactSolve fac sol) {cfg : OmpConfig ℝ}
    (hr : cfg.reformFreq = 1) (hl : cfg.lsIters = 0) (hs : cfg.stoppingTol = [.rtol]) (ha : cfg.acceptingTol = []) (ht : cfg.tol .rtol = some ρ)
    {X0 : Fin (numCoeff h * S.nd) → ℝ} {xtol : Option ℝ}
    {res : SolveRes (Fin (numCoeff h * S.nd) → ℝ) (Matrix (Fin (numCoeff h * S.nd)) (Fin (numCoeff h * S.nd)) ℝ)} {cfg' : OmpConfig ℝ}
    (hrun : nsolveOMP (realArith (numCoeff h * S.nd) inf fac sol) cfg (hbmAt S w Fl h Nt tol (numCoeff h * S.nd)) X0 xtol = (.ok res, cfg')) (hok : res.success = true) :
    (w * c) ^ 2 * ∑ k ∈ range n, ((k + 1 : ℕ) : ℝ) ^ 2 * ∑ d ∈ range S.nd,
        ((coefOf h (fun r => Spec.ext res.X (r * S.nd + d) - V (r * S.nd + d)) (k + 1)).1 ^ 2
          + (coefOf h (fun r => Spec.ext res.X (r * S.nd + d) - V (r * S.nd + d)) (k + 1)).2 ^ 2) < (2 * ρ) ^ 2 := by
  have hR := fun f hf => dashpot_resists (tol := tol) hh hn hNt heven (hS f hf)
  obtain ⟨_, it, k, hrun', _, _, hX, _, _, _, _, hsucc⟩ := C15_report _ cfg _ X0 xtol res cfg' hrun
  obtain ⟨hk, _, nm, v, tt, e1, e2, e3, e4⟩ := hsucc hok
  rw [hs, ha] at e4
  obtain rfl : nm = .rtol := by simpa using e4
  rw [if_neg (by decide), ht] at e2
  obtain rfl := Option.some.inj e2
  obtain ⟨m, rfl⟩ : ∃ m, k = m + 1 := ⟨k - 1, by omega⟩
  simp only [exchanged, named, Option.some.injEq] at e1
  rw [← e1] at e3
  have e5 : |Real.sqrt ((it m).R ⬝ᵥ (it m).R)| < ρ := by simpa [realArith, measures] using e3
  rw [abs_of_nonneg (Real.sqrt_nonneg _)] at e5
  have hρ : 0 < ρ := (Real.sqrt_nonneg _).trans_lt e5
  rw [Real.sqrt_lt' hρ] at e5
  have hnew : (it m).newton = true := by rw [hrun'.newton m (by omega), hr]; simp [Nat.mod_one]
  obtain ⟨D, hDf, hstep⟩ := hrun'.residual m (by omega)
  have hfull := (hstep hnew).2
  have hstep' := (hrun'.step m (by omega)).1 hl
  have hX' : res.X = (it m).X + (it m).step := hX
  generalize (it m).X = x at hDf hX'
  generalize (it m).R = R at hDf hfull e5
  generalize (it m).step = s at hstep' hX'
  have hfull' : s = -(sol (fac D) R) := hstep'.trans hfull
  set Z : ℕ → ℝ := hcat (numCoeff h * S.nd) (Spec.ext x) fun _ => w with hZ
  have hZw : Z (numCoeff h * S.nd) = w := by simp [hZ, hcat]
  have hres := hbmRes_ok S hh Nt tol (aftVal h Nt tol) (fun f hf => (hR f hf).ok) Z Fl
  rw [hnew] at hDf
  simp only [hbmAt, ← hZ, hres] at hDf
  obtain ⟨hR1, hD1⟩ := Prod.ext_iff.1 (Except.ok.inj hDf)
  simp only at hR1 hD1
  have hdet : IsUnit D.det := by
    rw [isUnit_iff_ne_zero]
    intro h0
    obtain ⟨v, hv, hv0⟩ := Matrix.exists_mulVec_eq_zero_iff.2 h0
    refine hv (funext fun i => ?_)
    have := jac_regular hh hn hR hD.massSymm hD.stiffSymm hD.damping hD.stiffness (Z := Z) (by rw [hZw]; exact hw) (Spec.ext v) (fun i hi => by
      have h1 := congrFun hv0 ⟨i, hi⟩
      rw [← hD1] at h1
      simpa [Matrix.mulVec, dotProduct, Finset.sum_range, Spec.ext] using h1) i i.2
    simpa [Spec.ext] using this
  have hDs : D.mulVec s = -R := by rw [hfull', Matrix.mulVec_neg, hsol D R hdet]
  have hb1 := C156_harmonics hh hNt heven hD hS hc hC hw hZw hres hV hn
  have hb2 := jac_lower hh hn hR hD.massSymm hD.stiffSymm hc hC (Z := Z) (by rw [hZw]; exact hw) (V := Spec.ext s) (fun i hi => by simp [Spec.ext, hi])
  rw [hZw] at hb2
  have hr1 : ∑ d ∈ range S.nd, ∑ r ∈ range (numCoeff h), (hbmG S (aftVal h Nt tol) h Z (r * S.nd + d) - Fl (r * S.nd + d)) ^ 2 = R ⬝ᵥ R :=
    norm_blocks (numCoeff h) S.nd (fun i => hbmG S (aftVal h Nt tol) h Z i - Fl i) R fun i => (congrFun hR1 i).symm
  have hr2 : ∑ d ∈ range S.nd, ∑ r ∈ range (numCoeff h), (∑ j ∈ range (numCoeff h * S.nd), hbmJ S (aftVal h Nt tol) h Z (r * S.nd + d) j * Spec.ext s j) ^ 2
      = (D.mulVec s) ⬝ᵥ (D.mulVec s) :=
    norm_blocks (numCoeff h) S.nd (fun i => ∑ j ∈ range (numCoeff h * S.nd), hbmJ S (aftVal h Nt tol) h Z i j * Spec.ext s j) (D.mulVec s) fun i => by
      rw [← hD1]
      simp [Matrix.mulVec, dotProduct, Finset.sum_range, Spec.ext]
  rw [hr2, hDs, neg_dotProduct, dotProduct_neg, neg_neg] at hb2
  have hb3 : (w * c) ^ 2 * oscSize S.nd n h (fun i => Z i - V i) ≤ R ⬝ᵥ R := by
    rw [← hr1]
    refine hb1.trans ?_
    rw [sum_comm]
    exact sum_le_sum fun d _ => coefOf_sq_sum h _ n
  have hb4 := osc_two S.nd n h (fun i => Z i - V i) (Spec.ext s)
  have hb5 : oscSize S.nd n h (fun i => Spec.ext res.X i - V i) = oscSize S.nd n h (fun i => (Z i - V i) + Spec.ext s i) := by
    unfold oscSize
    refine sum_congr rfl fun k _ => ?_
    rw [sum_congr rfl fun d hd => ?_]
    rw [coefOf_congr fun r hr => ?_]
    have hi := block_lt hr (mem_range.1 hd)
    simp only [hX', hZ, hcat, Spec.ext, hi, if_true, dif_pos, Pi.add_apply]
    ring
  change (w * c) ^ 2 * oscSize S.nd n h (fun i => Spec.ext res.X i - V i) < (2 * ρ) ^ 2
  rw [hb5]
  nlinarith [mul_le_mul_of_nonneg_left hb4 (sq_nonneg (w * c))]

/-- Example: the mass on a spring with the damping `x'/10 + x'³` at the frequency one: with `rtol = 1e-6` each oscillating coefficient that the solver reports is within
`2e-5` of that of the response, from every start. -/
example (tol : ℝ) {inf : ℝ} {L : Type} {fac : Matrix (Fin 5) (Fin 5) ℝ → L} {sol : L → (Fin 5 → ℝ) → Fin 5 → ℝ} (hsol : ExactSolve fac sol) {X0 : Fin 5 → ℝ}
    {res : SolveRes (Fin 5 → ℝ) (Matrix (Fin 5) (Fin 5) ℝ)} {cfg' : OmpConfig ℝ} {V : ℕ → ℝ}
    (hV : HBMSolution (cubicDamped (1 / 10) 1) (fun i => if i = 1 then 1 else 0) [0, 1, 3] 64 tol 1 V)
    (hrun : nsolveOMP (realArith 5 inf fac sol) { stoppingTol := [.rtol], tol := fun n => if n = .rtol then some 1e-6 else none, lsTol := 1 / 2 }
      (hbmAt (cubicDamped (1 / 10) 1) 1 (fun i => if i = 1 then 1 else 0) [0, 1, 3] 64 tol 5) X0 none = (.ok res, cfg')) (hok : res.success = true) :
    ∀ i : Fin 5, 1 ≤ i → |res.X i - V i| ≤ 2e-5 := by
  have h1 := C160_solver (S := cubicDamped (1 / 10) 1) (h := [0, 1, 3]) (c := 1 / 10) (n := 3) ⟨by simp, by simp, by simp⟩ (by simp) ⟨32, rfl⟩ (cubicDamped_damped (by norm_num) _ _)
    (fun f hf => by obtain rfl : f = _ := List.mem_singleton.1 hf; exact C144_cubic _ _ _ _ (fun _ _ => rfl) fun _ => zero_le_one) (by norm_num)
    (fun v => by simp [cubicDamped]; nlinarith) one_pos hV (by simp) hsol rfl rfl rfl rfl (ρ := 1e-6) rfl hrun hok
  have e : ∀ i : Fin 5, Spec.ext res.X i = res.X i := fun i => by simp [Spec.ext]
  have e1 := e 1
  have e2 := e 2
  have e3 := e 3
  have e4 := e 4
  simp only [Fin.isValue, show ((1 : Fin 5) : ℕ) = 1 from rfl, show ((2 : Fin 5) : ℕ) = 2 from rfl, show ((3 : Fin 5) : ℕ) = 3 from rfl, show ((4 : Fin 5) : ℕ) = 4 from rfl] at e1 e2 e3 e4
  change (1 * (1 / 10)) ^ 2 * (∑ k ∈ range 3, ((k + 1 : ℕ) : ℝ) ^ 2 * ∑ d ∈ range 1,
        ((coefOf [0, 1, 3] (fun r => Spec.ext (n := 5) res.X (r * 1 + d) - V (r * 1 + d)) (k + 1)).1 ^ 2
          + (coefOf [0, 1, 3] (fun r => Spec.ext (n := 5) res.X (r * 1 + d) - V (r * 1 + d)) (k + 1)).2 ^ 2)) < _ at h1
  simp [sum_range_succ, coefOf, e1, e2, e3, e4] at h1
  have key : ∀ x : ℝ, x ^ 2 ≤ 4e-10 → |x| ≤ 2e-5 := fun x hx => abs_le_of_sq_le_sq (by norm_num; norm_num at hx; exact hx) (by norm_num)
  intro i hi
  apply key
  norm_num at h1 ⊢
  fin_cases i
  · exact absurd hi (by decide)
  all_goals
    simp only [Fin.isValue, Fin.mk_one, Fin.reduceFinMk]
    nlinarith [sq_nonneg (res.X 1 - V 1), sq_nonneg (res.X 2 - V 2), sq_nonneg (res.X 3 - V 3), sq_nonneg (res.X 4 - V 4)]

/-- A run to which it applies: from the response itself the solver stops after one iteration. -/
example (tol : ℝ) : ∃ X0 res cfg', nsolveOMP (realArith 5 0 id fun D v => D⁻¹.mulVec v) { stoppingTol := [.rtol], tol := fun n => if n = .rtol then some 1e-6 else none, lsTol := 1 / 2 }
      (hbmAt (cubicDamped (1 / 10) 1) 1 (fun i => if i = 1 then 1 else 0) [0, 1, 3] 64 tol 5) X0 none = (.ok res, cfg') ∧ res.success = true := by
  obtain ⟨U, ⟨R, g, hR, h0⟩, -⟩ := C144_solution (S := cubicDamped (1 / 10) 1) (h := [0, 1, 3]) (Nt := 64) (tol := tol) (w := 1) ⟨by simp, by simp, by simp⟩ (by simp) ⟨32, rfl⟩
    (cubicDamped_damped (by norm_num) _ _) (fun f hf => by obtain rfl : f = _ := List.mem_singleton.1 hf; exact C144_cubic _ _ _ _ (fun _ _ => rfl) fun _ => zero_le_one)
    (fun i => if i = 1 then 1 else 0) one_pos
  have hR' : hbmRes (cubicDamped (1 / 10) 1) (hcat 5 (Spec.ext fun i : Fin 5 => U i) fun _ => 1) (fun i => if i = 1 then 1 else 0) [0, 1, 3] 64 tol true = .ok ⟨R, g⟩ := by
    rw [← hR]
    congr 1
    funext i
    by_cases hi : i < 5
    · simp [hcat, Spec.ext, hi, cubicDamped, numCoeff]
    · simp [hcat, hi, cubicDamped, numCoeff]
  have hz : (fun i : Fin 5 => R i) = 0 := funext fun i => h0 i i.2
  have hf : ∃ D, hbmAt (cubicDamped (1 / 10) 1) 1 (fun i => if i = 1 then 1 else 0) [0, 1, 3] 64 tol 5 (fun i => U i) true = .ok (0, D) := by
    unfold hbmAt
    rw [hR']
    simp only
    rw [hz]
    exact ⟨_, rfl⟩
  obtain ⟨D, hf⟩ := hf
  refine ⟨fun i => U i, ?_⟩
  generalize hbmAt (cubicDamped (1 / 10) 1) 1 (fun i => if i = 1 then 1 else 0) [0, 1, 3] 64 tol 5 = f at hf
  rcases hE : nsolveOMP (realArith 5 0 id fun D v => D⁻¹.mulVec v) { stoppingTol := [.rtol], tol := fun n => if n = .rtol then some 1e-6 else none, lsTol := 1 / 2 }
      f (fun i => U i) none with ⟨r, cfg'⟩
  norm_num [nsolveOMP, solveLoop, direction, OmpConfig.withXtol, startSt, effectiveXtol, realArith, checkConvg, checkLoop, errorDict, errsOf, finish, firstVals, hf, show ¬ TolName.rtol = TolName.xtol by decide] at hE
  rw [← hE.1]
  exact ⟨_, _, rfl, rfl⟩

end

end TMD
