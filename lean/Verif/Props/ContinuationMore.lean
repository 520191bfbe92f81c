import Verif.Props.Continuation

/-!
# Continuation: distance of consecutive points (C76), repeated use of one object (C77), constructor (C78)
-/

namespace TMD

open Spec

variable {sv : ContSolver} {N : ℕ} {cfg : ContCfg} {f : ContFun} {obj : ContObj} {X00 : ℕ → ℝ} {lam0 lam1 : ℝ}
  {out : ContRes}

/-! ## C76 -/

theorem correctRes_arc {corr : Corrector} {obj : ContObj} {x x0 d : ℕ → ℝ} {ds : ℝ} {g : Bool}
    {G : ℕ → ℝ} {M : Option (ℕ → ℕ → ℝ)} (h : correctRes N corr obj f x x0 ds (some d) g = .ok (G, M)) :
    (corr = .pseudo ∧ G N = (wdot N obj.fracLam (arcWeight N obj.fracLam x0) (fun i => x i - x0 i) (fun i => x i - x0 i)
        - ds ^ 2) / ds ^ 2) ∨
    (corr = .ortho ∧ G N = wdot N obj.fracLam (arcWeight N obj.fracLam x0) (fun i => x i - (x0 i + d i * ds)) d / ds) := by
  unfold correctRes at h
  simp only at h
  split at h
  · cases h
  · split at h
    · cases h
    · rename_i a ha
      split at h
      · cases h
      · cases h
        simp only [lt_irrefl, if_false]
        split at ha
        · cases ha
          left
          refine ⟨rfl, ?_⟩
          rw [wdot_self]
          rfl
        · cases ha
          right
          refine ⟨rfl, ?_⟩
          unfold wdot orthogonalArcRes
          simp only
          ring
        · cases ha

theorem wdot_add_smul (b c t : ℝ) (x y z : ℕ → ℝ) :
    wdot N b c (fun i => x i - (y i + z i * t)) z = wdot N b c (fun i => x i - y i) z - t * wdot N b c z z := by
  have e : (fun i => x i - (y i + z i * t)) = fun i => (x i - y i) - z i * t := by funext i; ring
  rw [e]
  unfold wdot
  have : ∑ i ∈ Finset.range N, ((x i - y i) - z i * t) * z i =
      (∑ i ∈ Finset.range N, (x i - y i) * z i) - t * ∑ i ∈ Finset.range N, z i * z i := by
    rw [Finset.mul_sum, ← Finset.sum_sub_distrib]
    exact Finset.sum_congr rfl fun i _ => by ring
  rw [this]
  ring

/-- Cauchy-Schwarz for the weighted product. -/
theorem wdot_cauchy {b c : ℝ} (hb : 0 ≤ b) (hc : 0 ≤ c) (x y : ℕ → ℝ) :
    wdot N b c x y ^ 2 ≤ wdot N b c x x * wdot N b c y y := by
  have hself : ∀ z : ℕ → ℝ, 0 ≤ wdot N b c z z := fun z => by
    rw [wdot_self]
    have := normSq_nonneg N z
    positivity
  -- the quadratic `wdot (x - t y) (x - t y)` is nonnegative for every `t`
  have hquad : ∀ t : ℝ, 0 ≤ wdot N b c x x - 2 * t * wdot N b c x y + t ^ 2 * wdot N b c y y := by
    intro t
    have h := hself fun i => x i - t * y i
    have e : wdot N b c (fun i => x i - t * y i) (fun i => x i - t * y i) =
        wdot N b c x x - 2 * t * wdot N b c x y + t ^ 2 * wdot N b c y y := by
      unfold wdot
      have : ∑ i ∈ Finset.range N, (x i - t * y i) * (x i - t * y i) =
          (∑ i ∈ Finset.range N, x i * x i) - 2 * t * (∑ i ∈ Finset.range N, x i * y i)
            + t ^ 2 * ∑ i ∈ Finset.range N, y i * y i := by
        rw [Finset.mul_sum, Finset.mul_sum, ← Finset.sum_sub_distrib, ← Finset.sum_add_distrib]
        exact Finset.sum_congr rfl fun i _ => by ring
      rw [this]
      ring
    rwa [e] at h
  rcases (hself y).eq_or_lt with h0 | h0
  · -- y has length zero
    rw [← h0, mul_zero]
    by_contra hne
    have hxy : wdot N b c x y ≠ 0 := fun h => hne (by rw [h]; norm_num)
    have := hquad ((wdot N b c x x + 1) / (2 * wdot N b c x y))
    rw [← h0] at this
    have e : 2 * ((wdot N b c x x + 1) / (2 * wdot N b c x y)) * wdot N b c x y = wdot N b c x x + 1 := by
      field_simp
    rw [e] at this
    linarith
  · have := hquad (wdot N b c x y / wdot N b c y y)
    have e : wdot N b c x x - 2 * (wdot N b c x y / wdot N b c y y) * wdot N b c x y +
        (wdot N b c x y / wdot N b c y y) ^ 2 * wdot N b c y y =
        (wdot N b c x x * wdot N b c y y - wdot N b c x y ^ 2) / wdot N b c y y := by
      field_simp
      ring
    rw [e] at this
    have := (div_nonneg_iff.1 this).resolve_right (fun h => absurd h.2 (not_le.2 h0))
    linarith [this.1]

/-- The data of step `k` when the run is not silent: step size, weights, and the arc equation in terms of the
two returned points. -/
theorem step_arc {tol : ℝ} (hsv : Accurate sv tol) (hv : 0 ≤ obj.verbose)
    (hC : ∀ i ≤ N, 0 < (contPrepare obj).CtoP i)
    (h : Returns sv N cfg obj f X00 lam0 lam1 out) (k : ℕ) (hk1 : 1 ≤ k) (hk : k < out.n) :
    ∃ (ds b : ℝ) (C d : ℕ → ℝ), (k, ds) ∈ out.log ∧ b ∈ cfg.fracLamList ∧ (∀ i ≤ N, 0 < C i) ∧
      (C = if cfg.dynamicCtoP then fun i => max |out.rows (k - 1) i| ((contPrepare obj).CtoP i)
        else (contPrepare obj).CtoP) ∧
      (∃ ref dir' o dir, f (out.rows (k - 1)) true = .ok o ∧
        sv.linSolve (N + 1) (predictMat N C o dir') (predictRhs N) = .ok dir ∧
        d = scaleDir N C b (out.rows (k - 1)) ref dir) ∧
      let c := (1 - b) / ∑ i ∈ Finset.range N, (out.rows (k - 1) i / C i) ^ 2
      let step := fun i => (out.rows k i - out.rows (k - 1) i) / C i
      (cfg.corrector = .pseudo ∧ |(wdot N b c step step - ds ^ 2) / ds ^ 2| ≤ tol ∨
       cfg.corrector = .ortho ∧ |(wdot N b c step d - ds * wdot N b c d d) / ds| ≤ tol) := by
  obtain ⟨fuel, h⟩ := h
  obtain ⟨s, D, hrun⟩ := continuation_run h
  have hg := hrun.steps k hk1 hk
  have hsucc : (D k).out.success = true := by
    rcases hg.success with h1 | h1
    · exact h1
    · rw [decide_eq_true_eq] at h1; omega
  have hCpos : ∀ i ≤ N, 0 < (D k).obj.CtoP i := by
    intro i hi
    rw [hg.CtoP]
    split
    · exact lt_of_lt_of_le (hC i hi) (le_max_right _ _)
    · exact hC i hi
  obtain ⟨dir', o, dir, ho, hl, hd, hR⟩ := hg.predicted
  refine ⟨(D k).ds, (D k).obj.fracLam, (D k).obj.CtoP, (D k).dirC, hrun.logged k hk1 hk, hg.frac, hCpos, hg.CtoP,
    ⟨_, dir', o, dir, ho, hl, hd⟩, ?_⟩
  intro c step
  obtain ⟨g, R, J, hF, htol⟩ := hsv _ _ _ _ _ hg.solved hsucc
  have hlast := htol N (Nat.lt_succ_self N)
  have harc := correctRes_arc hF
  have hstep : ∀ i ≤ N, (D k).out.X i - out.rows (k - 1) i / (D k).obj.CtoP i = step i := by
    intro i hi
    have := (hCpos i hi).ne'
    change _ = (out.rows k i - out.rows (k - 1) i) / (D k).obj.CtoP i
    rw [hg.row]
    field_simp
  have hc : arcWeight N (D k).obj.fracLam (fun i => out.rows (k - 1) i / (D k).obj.CtoP i) = c := rfl
  have hw : ∀ z : ℕ → ℝ, wdot N (D k).obj.fracLam c
      (fun i => (D k).out.X i - out.rows (k - 1) i / (D k).obj.CtoP i) z = wdot N (D k).obj.fracLam c step z := by
    intro z
    unfold wdot
    beta_reduce
    rw [hstep N le_rfl, Finset.sum_congr rfl fun i hi => by rw [hstep i (Finset.mem_range.1 hi).le]]
  have hw' : wdot N (D k).obj.fracLam c
      (fun i => (D k).out.X i - out.rows (k - 1) i / (D k).obj.CtoP i)
      (fun i => (D k).out.X i - out.rows (k - 1) i / (D k).obj.CtoP i) = wdot N (D k).obj.fracLam c step step := by
    unfold wdot
    beta_reduce
    rw [hstep N le_rfl, Finset.sum_congr rfl fun i hi => by rw [hstep i (Finset.mem_range.1 hi).le]]
  rw [hc] at harc
  rcases harc with ⟨h1, h2⟩ | ⟨h1, h2⟩
  · left
    rw [h2, hw'] at hlast
    exact ⟨h1, hlast⟩
  · right
    rw [h2, wdot_add_smul, hw] at hlast
    exact ⟨h1, hlast⟩

/-- C76, pseudo arc length: the weighted distance between consecutive returned points is the step size of
that step, up to the relative tolerance of the solver. -/
theorem C76_pseudo {tol : ℝ} (hsv : Accurate sv tol) (hv : 0 ≤ obj.verbose) (hcor : cfg.corrector = .pseudo)
    (hC : ∀ i ≤ N, 0 < (contPrepare obj).CtoP i) (hmin : 0 < cfg.dsmin) (hs0 : cfg.dsmin ≤ cfg.ds0)
    (hs1 : cfg.ds0 ≤ cfg.dsmax)
    (h : Returns sv N cfg obj f X00 lam0 lam1 out) (k : ℕ) (hk1 : 1 ≤ k) (hk : k < out.n) :
    ∃ (ds b : ℝ) (C : ℕ → ℝ), (k, ds) ∈ out.log ∧ b ∈ cfg.fracLamList ∧ cfg.dsmin ≤ ds ∧ ds ≤ cfg.dsmax ∧
      (C = if cfg.dynamicCtoP then fun i => max |out.rows (k - 1) i| ((contPrepare obj).CtoP i)
        else (contPrepare obj).CtoP) ∧
      let c := (1 - b) / ∑ i ∈ Finset.range N, (out.rows (k - 1) i / C i) ^ 2
      let step := fun i => (out.rows k i - out.rows (k - 1) i) / C i
      |wdot N b c step step - ds ^ 2| ≤ tol * ds ^ 2 := by
  obtain ⟨ds, b, C, d, hlog, hb, hCp, hCe, -, harc⟩ := step_arc hsv hv hC h k hk1 hk
  have hds := C55_bounds hmin.le hs0 hs1 h _ hlog
  have hpos : 0 < ds := lt_of_lt_of_le hmin hds.1
  refine ⟨ds, b, C, hlog, hb, hds.1, hds.2, hCe, ?_⟩
  intro c step
  rcases harc with ⟨_, h2⟩ | ⟨h1, _⟩
  · rw [abs_div, abs_of_pos (pow_pos hpos 2), div_le_iff₀ (pow_pos hpos 2)] at h2
    exact h2
  · rw [hcor] at h1; cases h1

/-- C76, orthogonal corrector: the step has the component `ds` along the tangent at the previous point, up to
the relative tolerance of the solver. The tangent has weighted length one and annihilates the residual; so the
weighted distance is at least `ds * (1 - tol)`. -/
theorem C76_ortho {tol : ℝ} (hsv : Accurate sv tol) (hlin : Solves sv) (hv : 0 ≤ obj.verbose)
    (hcor : cfg.corrector = .ortho)
    (hC : ∀ i ≤ N, 0 < (contPrepare obj).CtoP i) (hmin : 0 < cfg.dsmin) (hs0 : cfg.dsmin ≤ cfg.ds0)
    (hs1 : cfg.ds0 ≤ cfg.dsmax) (hfr : ∀ b ∈ cfg.fracLamList, 0 < b ∧ b < 1)
    (h : Returns sv N cfg obj f X00 lam0 lam1 out) (k : ℕ) (hk1 : 1 ≤ k) (hk : k < out.n)
    (hX : ∃ i < N, out.rows (k - 1) i ≠ 0) :
    ∃ (ds b : ℝ) (C d : ℕ → ℝ) (o : ContOut), (k, ds) ∈ out.log ∧ b ∈ cfg.fracLamList ∧ cfg.dsmin ≤ ds ∧
      ds ≤ cfg.dsmax ∧
      (C = if cfg.dynamicCtoP then fun i => max |out.rows (k - 1) i| ((contPrepare obj).CtoP i)
        else (contPrepare obj).CtoP) ∧
      f (out.rows (k - 1)) true = .ok o ∧
      (∀ i < N, (∑ j ∈ Finset.range N, o.J i j * (C j * d j)) + o.d i * (C N * d N) = 0) ∧
      let c := (1 - b) / ∑ i ∈ Finset.range N, (out.rows (k - 1) i / C i) ^ 2
      let step := fun i => (out.rows k i - out.rows (k - 1) i) / C i
      wdot N b c d d = 1 ∧ |wdot N b c step d - ds| ≤ tol * ds ∧
        (tol ≤ 1 → (ds * (1 - tol)) ^ 2 ≤ wdot N b c step step) := by
  obtain ⟨ds, b, C, d, hlog, hb, hCp, hCe, ⟨ref, dir', o, dir, ho, hl, hd⟩, harc⟩ := step_arc hsv hv hC h k hk1 hk
  have hds := C55_bounds hmin.le hs0 hs1 h _ hlog
  have hpos : 0 < ds := lt_of_lt_of_le hmin hds.1
  obtain ⟨hb0, hb1⟩ := hfr b hb
  -- the direction is one returned by `predict`
  have hN : N ≠ 0 := by obtain ⟨i, hi, _⟩ := hX; omega
  have hpred : predict sv N false { obj with CtoP := C, fracLam := b } f (out.rows (k - 1)) ref dir' =
      .ok (d, { obj with CtoP := C, fracLam := b, RPtoC := predictScale N false C o obj.RPtoC }) := by
    unfold predict
    simp only [ho, hl, ← hd, Bool.false_eq_true, false_and, if_false]
  obtain ⟨t1, t2, -⟩ := C58_direction hlin ho hb0 hb1 hCp hX hpred
  refine ⟨ds, b, C, d, o, hlog, hb, hds.1, hds.2, hCe, ho, t1, ?_⟩
  intro c step
  have hunit : wdot N b c d d = 1 := t2
  rcases harc with ⟨h1, _⟩ | ⟨_, h2⟩
  · rw [hcor] at h1; cases h1
  · have h3 : |wdot N b c step d - ds| ≤ tol * ds := by
      change |(wdot N b c step d - ds * wdot N b c d d) / ds| ≤ tol at h2
      rwa [hunit, mul_one, abs_div, abs_of_pos hpos, div_le_iff₀ hpos] at h2
    refine ⟨hunit, h3, fun ht => ?_⟩
    have hcpos : 0 < c := by
      refine div_pos (by linarith) (normSq_pos (x := fun i => out.rows (k - 1) i / C i) ?_)
      obtain ⟨i, hi, hx⟩ := hX
      exact ⟨i, hi, div_ne_zero hx (hCp i hi.le).ne'⟩
    have hcs := wdot_cauchy (N := N) hb0.le hcpos.le step d
    rw [hunit, mul_one] at hcs
    refine le_trans ?_ hcs
    have h4 := (abs_le.1 h3).1
    have h5 : 0 ≤ ds * (1 - tol) := mul_nonneg hpos.le (by linarith)
    exact pow_le_pow_left₀ h5 (by linarith) 2

/-- C76 on the line: from `(1, 1)` to `(3/2, 3/2)`, weighted length `1/2`. -/
example : ∃ out, Returns (checkSolver (lineCand fun _ => 3/2)) 1 lineCfg (lineObj 0) lineFun (fun _ => 0) 1 2 out ∧
    out.n = 2 ∧ ∃ c : ℝ, (1/2) ^ 2 ≤ wdot 1 (1/2) c (fun i => (out.rows 1 i - out.rows 0 i) / 1)
      (fun i => (out.rows 1 i - out.rows 0 i) / 1) := by
  obtain ⟨out, h, hn, h0, h1, _, hcb, hok, hlog⟩ := line_run (fun _ => 3/2) 0 (Or.inl ⟨rfl, by norm_num⟩)
  refine ⟨out, h, hn, ?_⟩
  obtain ⟨ds, b, C, d, o, k1, k2, k3, k4, k5, k6, k7, k8, k9, k10⟩ :=
    C76_ortho (checkSolver_accurate _) (checkSolver_solves _) le_rfl rfl (by intro i _; rw [prepare_line]; norm_num)
      (by norm_num [lineCfg]) (by norm_num [lineCfg]) (by norm_num [lineCfg])
      (by intro b hb; simp [lineCfg] at hb; rw [hb]; norm_num) h 1 le_rfl (by omega)
      ⟨0, by norm_num, by rw [h0]; norm_num [lineStart, snocLam]⟩
  have e1 : b = 1/2 := by simpa [lineCfg] using k2
  have e2 : C = fun _ => 1 := by rw [k5, prepare_line]; simp [lineCfg]
  have e3 : (1:ℝ)/2 ≤ ds := k3
  rw [e1, e2] at k10
  refine ⟨_, le_trans ?_ (k10 (by norm_num))⟩
  rw [sub_zero, mul_one]
  exact pow_le_pow_left₀ (by norm_num) e3 2

/-! ## C77 -/

/-- Two states that differ only in the arc-length weight stored in the object. -/
def SameButFrac (a b : ContSt) : Prop := a = { b with obj := { b.obj with fracLam := a.obj.fracLam } }

theorem fracLoop_frac (fuel : ℕ) (b : ℝ) (l : List ℝ) {st : ContSt} (x : ℝ) :
    fracLoop sv N cfg f fuel (b :: l) { st with obj := { st.obj with fracLam := x } } =
      fracLoop sv N cfg f fuel (b :: l) st := by
  unfold fracLoop tryFrac
  rfl

theorem contLoop_frac {silent : Bool} {C0 : ℕ → ℝ} {fuel' : ℕ} (fuel : ℕ) {st : ContSt} (x : ℝ)
    (hc : contCond N cfg lam0 lam1 st) :
    contLoop sv N cfg f silent lam0 lam1 C0 fuel' fuel { st with obj := { st.obj with fracLam := x } } =
      contLoop sv N cfg f silent lam0 lam1 C0 fuel' fuel st := by
  cases fuel with
  | zero => rfl
  | succ n =>
    unfold contLoop
    rw [if_pos hc, if_pos (show contCond N cfg lam0 lam1 { st with obj := { st.obj with fracLam := x } } from hc)]
    have e : recondition cfg C0 { st with obj := { st.obj with fracLam := x } } =
        { recondition cfg C0 st with obj := { (recondition cfg C0 st).obj with fracLam := x } } := by
      unfold recondition
      split <;> rfl
    rw [e]
    cases cfg.fracLamList with
    | nil => rfl
    | cons b l => rw [fracLoop_frac]

/-- The run depends on the object only through `contPrepare` and the sign of `verbose`; on the stored weight
only when the loop is not entered. -/
theorem continuation_congr {obj obj' : ContObj} {fuel : ℕ} (hv : obj'.verbose < 0 ↔ obj.verbose < 0)
    (hp : contPrepare obj' = { contPrepare obj with fracLam := obj'.fracLam })
    (hfr : obj'.fracLam = obj.fracLam ∨
      ∀ s, contCond N cfg lam0 lam1 (contStart N cfg lam0 lam1 (contPrepare obj) s)) :
    continuation sv N cfg obj' f X00 lam0 lam1 fuel = continuation sv N cfg obj f X00 lam0 lam1 fuel := by
  rcases hfr with hfr | hfr
  · have : contPrepare obj' = contPrepare obj := by rw [hp, hfr]; rfl
    unfold continuation
    simp only [this, hv]
  · unfold continuation
    simp only [hp, hv]
    have e : ∀ s, contStart N cfg lam0 lam1 { contPrepare obj with fracLam := obj'.fracLam } s =
        { contStart N cfg lam0 lam1 (contPrepare obj) s with
          obj := { (contStart N cfg lam0 lam1 (contPrepare obj) s).obj with fracLam := obj'.fracLam } } := fun s => rfl
    simp only [e]
    cases sv.nsolve N 0 (initialFun N f lam0 (contPrepare obj).CtoP (contPrepare obj).RPtoC)
        (fun i => X00 i / (contPrepare obj).CtoP i) with
    | error e => rfl
    | ok s => simp only [contLoop_frac fuel _ (hfr s)]

/-- When the loop is not entered the stored weight does not change. -/
theorem frac_unchanged {fuel : ℕ} (h : continuation sv N cfg obj f X00 lam0 lam1 fuel = .ok out)
    (hc : ∀ s, ¬ contCond N cfg lam0 lam1 (contStart N cfg lam0 lam1 (contPrepare obj) s)) :
    out.obj.fracLam = obj.fracLam := by
  unfold continuation at h
  simp only at h
  split at h
  · cases h
  · rename_i s _
    split at h
    · cases h
    · split at h
      · cases h
      · split at h
        · cases h
        · rename_i st hst
          have : st = contStart N cfg lam0 lam1 (contPrepare obj) s := by
            cases fuel with
            | zero => cases hst
            | succ n =>
              unfold contLoop at hst
              rw [if_neg (hc s)] at hst
              exact (Except.ok.inj hst).symm
          have e : st.obj.fracLam = obj.fracLam := by rw [this]; rfl
          unfold contFinish at h
          split at h
          · split at h
            · cases h; exact e
            · split at h
              · cases h
              · rename_i p hp
                cases h
                obtain ⟨o, dir, _, _, _, hpe⟩ := predict_ok hp
                change p.2.fracLam = _
                rw [hpe]; exact e
          · cases h; exact e

/-- C77: a second call of `continuation` on the same object with the same arguments, and a solver that
answers as before, gives the same result, for runs that are not silent, when the conditioning is constant (or
the default) and the residual scaling is a number or the default. -/
theorem C77_repeatable_partial (hv : 0 ≤ obj.verbose)
    (hC : obj.setCtoPto1 = true ∨ cfg.dynamicCtoP = false)
    (hR : obj.setRPtoCto1 = true ∨ cfg.dynamicCtoP = false ∧ ∃ r, obj.RPtoC = .scalar r)
    (h : Returns sv N cfg obj f X00 lam0 lam1 out) : Returns sv N cfg out.obj f X00 lam0 lam1 out := by
  obtain ⟨fuel, h⟩ := h
  obtain ⟨s, D, hrun⟩ := continuation_run h
  refine ⟨fuel, ?_⟩
  rw [← h]
  have hvo : out.obj.verbose = obj.verbose := by
    rw [hrun.verbose]; unfold contPrepare; simp only; rw [if_neg (not_lt.2 hv)]
  refine continuation_congr (by rw [hvo]) ?_ ?_
  · have e1 : (contPrepare out.obj).verbose = (contPrepare obj).verbose := by
      unfold contPrepare; simp only [hvo]
    have e2 : (contPrepare out.obj).CtoP = (contPrepare obj).CtoP := by
      unfold contPrepare; simp only
      rw [hrun.setC]
      split
      · rfl
      · rename_i hn
        rcases hC with hC | hC
        · exact absurd hC hn
        · rw [hrun.CtoP hC]; unfold contPrepare; simp only; rw [if_neg hn]
    have e3 : (contPrepare out.obj).RPtoC = (contPrepare obj).RPtoC := by
      unfold contPrepare; simp only
      rw [hrun.setR]
      split
      · rfl
      · rename_i hn
        rcases hR with hR | ⟨hd, r, hr⟩
        · exact absurd hR hn
        · have hprep : (contPrepare obj).RPtoC = .vector fun _ => r := by
            unfold contPrepare; simp only [hr]; rw [if_neg hn]
          have hm : (contPrepare obj).RPtoC.mean (N + 1) = r := by
            rw [hprep]; unfold RScale.mean
            simp only [Finset.sum_const, Finset.card_range, nsmul_eq_mul]
            field_simp
          rcases hrun.scale hd with h1 | h1
          · rw [h1, hprep, hr]
          · rw [h1, hm, hr]
    have e4 : (contPrepare out.obj).setCtoPto1 = (contPrepare obj).setCtoPto1 := hrun.setC
    have e5 : (contPrepare out.obj).setRPtoCto1 = (contPrepare obj).setRPtoCto1 := hrun.setR
    have e6 : (contPrepare out.obj).fracLam = out.obj.fracLam := rfl
    generalize contPrepare out.obj = a at *
    generalize contPrepare obj = b at *
    cases a; cases b
    simp only at e1 e2 e3 e4 e5 e6
    simp only [e1, e2, e3, e4, e5, e6]
  · -- whether the loop is entered does not depend on the solution
    by_cases hc : ∃ s, contCond N cfg lam0 lam1 (contStart N cfg lam0 lam1 (contPrepare obj) s)
    · right
      obtain ⟨s0, hc⟩ := hc
      intro s
      unfold contCond contStart snocLam at hc ⊢
      simpa using hc
    · left
      push Not at hc
      exact frac_unchanged h hc

/-- A run on the line whose only step fails, not silent: one point. -/
theorem line_fail (p : ℕ → ℝ) (hp : ¬ (p 0 = p 1 ∧ p 0 + p 1 = 3)) : ∃ out,
    Returns (checkSolver (lineCand p)) 1 lineCfg (lineObj 0) lineFun (fun _ => 0) 1 2 out ∧ out.n = 1 := by
  obtain ⟨r, hr, h1, h2, h3, h4, h5, h6, h7, h8, h9, h10, h11, h12⟩ := frac_line p 0 2
  have hcond : contCond 1 lineCfg 1 2 (contStart 1 lineCfg 1 2 (contPrepare (lineObj 0)) ⟨fun _ => 1, true, 1⟩) := by
    rw [prepare_line]
    unfold contCond contStart signOf snocLam lineCfg
    norm_num
  have hloop : contLoop (checkSolver (lineCand p)) 1 lineCfg lineFun (decide ((0:ℤ) < 0)) 1 2 (fun _ => 1) 3 3
      (contStart 1 lineCfg 1 2 (contPrepare (lineObj 0)) ⟨fun _ => 1, true, 1⟩) = .ok { r.1 with ok := false } := by
    unfold contLoop
    rw [if_pos hcond]
    have : recondition lineCfg (fun _ => 1) (contStart 1 lineCfg 1 2 (contPrepare (lineObj 0)) ⟨fun _ => 1, true, 1⟩)
        = contStart 1 lineCfg 1 2 (contPrepare (lineObj 0)) ⟨fun _ => 1, true, 1⟩ := rfl
    rw [this]
    change (match fracLoop _ _ _ _ _ [1/2] _ with | .error e => _ | .ok r => _) = _
    rw [hr]
    simp only
    have hf : r.2.success = false := by
      cases hb : r.2.success with
      | false => rfl
      | true => exact absurd (h2.1 hb) hp
    rw [if_pos ⟨hf, by simp⟩]
  refine ⟨⟨r.1.rows, r.1.step, r.1.cb ++ [⟨none, some fun i => r.1.dirC i * r.1.obj.CtoP i⟩], r.1.obj, false, r.1.log⟩,
    ⟨3, ?_⟩, h6⟩
  unfold continuation
  simp only
  have hi := initial_line p (contPrepare (lineObj 0)).CtoP (fun _ => 1) (by rw [prepare_line])
    (fun i => 0 / (contPrepare (lineObj 0)).CtoP i)
  have hR : (contPrepare (lineObj 0)).RPtoC = .vector fun _ => 1 := by rw [prepare_line]
  have hC : (contPrepare (lineObj 0)).CtoP = fun _ => 1 := by rw [prepare_line]
  rw [hR, hi]
  simp only [Bool.true_eq_false, if_false]
  rw [if_neg (show ¬ lineCfg.maxSteps = 0 by decide), hC]
  change (match contLoop (checkSolver (lineCand p)) 1 lineCfg lineFun (decide ((0:ℤ) < 0)) 1 2 (fun _ => 1) 3 3
    (contStart 1 lineCfg 1 2 (contPrepare (lineObj 0)) ⟨fun _ => 1, true, 1⟩) with | .error e => _ | .ok st => _) = _
  rw [hloop]
  unfold contFinish
  simp [lineCfg]

/-- C77 does not hold in silent mode: the first call resets `verbose` to `0` on the object, so the second call
is not silent any more and returns fewer points. -/
theorem C77_violated : ∃ (sv : ContSolver) (f : ContFun) (cfg : ContCfg) (obj : ContObj) (out out' : ContRes),
    Returns sv 1 cfg obj f (fun _ => 0) 1 2 out ∧ Returns sv 1 cfg out.obj f (fun _ => 0) 1 2 out' ∧
    out.n = 2 ∧ out'.n = 1 := by
  set p : ℕ → ℝ := fun i => if i = 0 then 0 else 5 with hp
  obtain ⟨out, h, hn, h0, h1, hvb, _⟩ := line_run p (-1) (Or.inr (by norm_num))
  obtain ⟨out', h', hn'⟩ := line_fail p (by rw [hp]; norm_num)
  refine ⟨_, _, _, _, out, out', h, ?_, hn, hn'⟩
  obtain ⟨fuel, hf⟩ := h
  obtain ⟨s, D, hrun⟩ := continuation_run hf
  obtain ⟨fuel', hf'⟩ := h'
  refine ⟨fuel', ?_⟩
  rw [← hf']
  have hC : out.obj.setCtoPto1 = true := hrun.setC
  have hR : out.obj.setRPtoCto1 = true := hrun.setR
  have hv : out.obj.verbose = 0 := by rw [hvb]; norm_num
  refine continuation_congr (by rw [hv]; rfl) ?_ (Or.inr fun s => ?_)
  · rw [prepare_line]
    unfold contPrepare
    simp only [hC, hR, hv, if_true]
  · rw [prepare_line]
    unfold contCond contStart signOf snocLam lineCfg
    norm_num

/-- C77 on the line. -/
example : ∃ out, out.n = 2 ∧ Returns (checkSolver (lineCand fun _ => 3/2)) 1 lineCfg (lineObj 0) lineFun (fun _ => 0) 1 2 out ∧
    Returns (checkSolver (lineCand fun _ => 3/2)) 1 lineCfg out.obj lineFun (fun _ => 0) 1 2 out := by
  obtain ⟨out, h, hn, _⟩ := line_run (fun _ => 3/2) 0 (Or.inl ⟨rfl, by norm_num⟩)
  exact ⟨out, hn, h, C77_repeatable_partial le_rfl (Or.inl rfl) (Or.inl rfl) h⟩

/-! ## C78 -/

/-- C78: the list of weights used by the object starts with `FracLam`, followed by the user's list without a
repeated head; nothing of the user's list is lost. -/
theorem C78_list (C : Option (ℕ → ℝ)) (R : Option RScale) (frac : ℝ) (v : ℤ) (user : Option (List ℝ)) :
    (contInit C R frac v user).1.head? = some frac ∧
    ((contInit C R frac v user).1 = user.getD [] ∨ (contInit C R frac v user).1 = frac :: user.getD []) ∧
    ((contInit C R frac v user).1 = user.getD [] ↔ (user.getD []).head? = some frac) := by
  have e : (contInit C R frac v user).1 = match user.getD [] with
      | [] => [frac]
      | a :: l => if a = frac then a :: l else frac :: a :: l := by
    unfold contInit
    simp only
    split <;> simp_all
  rw [e]
  cases user.getD [] with
  | nil => simp
  | cons a l =>
    by_cases h : a = frac
    · simp [h]
    · simp [h]

/-- C78: the conditioning stored is never negative, and a default is recorded exactly when nothing is given. -/
theorem C78_conditioning (C : Option (ℕ → ℝ)) (R : Option RScale) (frac : ℝ) (v : ℤ) (user : Option (List ℝ)) :
    let o := (contInit C R frac v user).2.2
    (∀ i, 0 ≤ o.CtoP i) ∧ (∀ x, C = some x → o.CtoP = fun i => |x i|) ∧ (o.setCtoPto1 = true ↔ C = none) ∧
    (∀ r, R = some r → o.RPtoC = r) ∧ (o.setRPtoCto1 = true ↔ R = none) ∧
    o.fracLam = frac ∧ o.verbose = v := by
  intro o
  refine ⟨?_, ?_, by simp [o, contInit], ?_, by simp [o, contInit], rfl, rfl⟩
  · intro i
    cases C with
    | none => exact le_rfl
    | some x => exact abs_nonneg _
  · rintro x rfl; rfl
  · rintro r rfl; rfl

/-- C78: the caller's list is left alone exactly when it is absent or starts with `FracLam` already. -/
theorem C78_caller_partial (C : Option (ℕ → ℝ)) (R : Option RScale) (frac : ℝ) (v : ℤ) (user : Option (List ℝ)) :
    (contInit C R frac v user).2.1 = user ↔ ∀ l, user = some l → l.head? = some frac := by
  have h := (C78_list C R frac v user).2.2
  have e : (contInit C R frac v user).2.1 = user.map fun _ => (contInit C R frac v user).1 := rfl
  rw [e]
  cases user with
  | none => simp
  | some l =>
    simp only [Option.getD_some] at h
    simp only [Option.map_some, Option.some.injEq, h]
    constructor
    · rintro hh _ rfl; exact hh
    · intro hh; exact hh l rfl

/-- C78: constructing twice with the same settings changes the caller's list at most once. -/
theorem C78_twice (C C' : Option (ℕ → ℝ)) (R R' : Option RScale) (frac : ℝ) (v v' : ℤ) (user : Option (List ℝ)) :
    (contInit C' R' frac v' (contInit C R frac v user).2.1).2.1 = (contInit C R frac v user).2.1 := by
  rw [C78_caller_partial]
  intro l hl
  have e : (contInit C R frac v user).2.1 = user.map fun _ => (contInit C R frac v user).1 := rfl
  rw [e] at hl
  cases user with
  | none => simp at hl
  | some u =>
    simp only [Option.map_some, Option.some.injEq] at hl
    rw [← hl]
    exact (C78_list C R frac v (some u)).1

/-- C78 does not hold for the caller's list: the list object passed in the configuration is edited in place. -/
theorem C78_violated : ∃ user : List ℝ, (contInit none none 0 0 (some user)).2.1 ≠ some user :=
  ⟨[1/2], by
    rw [Ne, C78_caller_partial]
    intro h
    have := h _ rfl
    norm_num at this⟩

example : (contInit none none (1/2) 0 (some [1/4, 3/4])).1 = [1/2, 1/4, 3/4] := by
  norm_num [contInit]

end TMD
