import Verif.Lemmas.SolutionTube

/-!
# C133: among regular solutions a continuation does not fail
-/

namespace TMD

open Spec Metric Set

noncomputable section

variable {N : ℕ} {f : ContFun} {R : (ℕ → ℝ) → ℕ → ℝ} {J : (ℕ → ℝ) → ℕ → ℕ → ℝ} {D : (ℕ → ℝ) → ℕ → ℝ} {C : ℕ → ℝ}
  {O : Set (Fin (N + 1) → ℝ)} {lam0 lam1 δ η b : ℝ} {bs : Option ℝ} {G : Set (Fin (N + 1) → ℝ)} {ρ m B κ γ : ℝ}
  {L : ℕ → Type} {inf : ℝ} {fac : (n : ℕ) → Matrix (Fin n) (Fin n) ℝ → L n} {sol : (n : ℕ) → L n → (Fin n → ℝ) → (Fin n → ℝ)}
  {lin : ℕ → (ℕ → ℕ → ℝ) → (ℕ → ℝ) → Except Err (ℕ → ℝ)} {om : OmpConfig ℝ} {t : ℝ}

/-- The linear solver of the predictor: its answers are solutions, and it answers for regular matrices. -/
def LinOk (lin : ℕ → (ℕ → ℕ → ℝ) → (ℕ → ℝ) → Except Err (ℕ → ℝ)) : Prop :=
  (∀ n A y x, lin n A y = .ok x → ∀ i < n, ∑ j ∈ Finset.range n, A i j * x j = y i) ∧ ∀ n A y, Regular n A → ∃ x, lin n A y = .ok x

theorem tubeWt_eq (N : ℕ) (b : ℝ) (C X : ℕ → ℝ) : tubeWt N b (condPt N C X) = arcWeight N b fun i => X i / C i := by
  unfold tubeWt arcWeight normSq condPt
  rw [Finset.sum_range]
  rfl

/-- The matrix of the predictor at a point close to one with tangent `d`. -/
theorem predict_near (ht : TubeConst N R J D O C lam0 lam1 bs δ η b G ρ m B κ γ)
    {z y : Fin (N + 1) → ℝ} (hz : z ∈ G) (hy : ‖y - z‖ ≤ κ) {d : ℕ → ℝ} (hd : rectMap (condMat N J D C z) (fun j : Fin (N + 1) => d j) = 0)
    (hn : ∑ j : Fin (N + 1), arcWt N b (tubeWt N b z) j * d j ^ 2 = 1) (o : ContOut) (hJ : o.J = J (Spec.ext (condMap N C y)))
    (hD : o.d = D (Spec.ext (condMap N C y))) : Regular (N + 1) (predictMat N C o d) := by
  intro v hv
  set v' : Fin (N + 1) → ℝ := fun j => v j with hv'
  have he : ∀ j ≤ N, Spec.ext v' j = v j := fun j hj => by simp [Spec.ext, hv', Nat.lt_succ_of_le hj]
  have h1 : rectMap (condMat N J D C y) v' = 0 := by
    rw [condMat_tangent (R' := fun _ => 0)]
    intro i hi
    have := hv i (by omega)
    simp only [predictMat, if_pos hi, tangent_scaled] at this
    rw [← this, hJ, hD]
    simp only [he N le_rfl]
    congr 1
    exact Finset.sum_congr rfl fun j hj => by rw [he j (Finset.mem_range.1 hj).le]
  have h2 : ∑ j : Fin (N + 1), d j * v' j = 0 := by
    have := hv N (by omega)
    simp only [predictMat, lt_irrefl, if_false] at this
    rw [← this, Finset.sum_range]
  have h3 := ((ht.dir z hz _ hd hn).2 v' (Or.inr h2))
  have h4 : ‖rectMap (condMat N J D C z) v'‖ ≤ m / 8 * ‖v'‖ := by
    have e : rectMap (condMat N J D C z) v' = -((rectMap (condMat N J D C y) - rectMap (condMat N J D C z)) v') := by simp only [sub_apply, h1]; abel
    rw [e, norm_neg]
    exact ((rectMap (condMat N J D C y) - rectMap (condMat N J D C z)).le_opNorm _).trans
      (mul_le_mul_of_nonneg_right (ht.ball z hz y (hy.trans ht.κle)).2 (norm_nonneg _))
  have h5 : v' = 0 := by
    by_contra hne
    have := norm_pos_iff.2 hne
    have := ht.mpos
    nlinarith
  intro j hj
  have := congrFun h5 ⟨j, hj⟩
  exact this

/-- The state of a run that has not failed. -/
structure TubeInv (N : ℕ) (R : (ℕ → ℝ) → ℕ → ℝ) (J : (ℕ → ℝ) → ℕ → ℕ → ℝ) (D : (ℕ → ℝ) → ℕ → ℝ) (C : ℕ → ℝ) (G : Set (Fin (N + 1) → ℝ)) (s0 : ℝ)
    (st : ContSt) : Prop where
  cond : st.obj.CtoP = C
  scale : st.obj.RPtoC.mean (N + 1) ≠ 0
  dspos : 0 < st.ds
  dsle : st.ds ≤ s0
  pos : 1 ≤ st.step
  row : st.X0 = st.rows (st.step - 1)
  rows : ∀ k < st.step, condPt N C (st.rows k) ∈ G
  reg : Regular (N + 1) (predictMat N C ⟨R st.X0, J st.X0, D st.X0⟩ st.dirC)
  ok : st.ok = true

/-- A successful pass: the tangent `d` used and the point `X` found. -/
structure Pass (N : ℕ) (R : (ℕ → ℝ) → ℕ → ℝ) (J : (ℕ → ℝ) → ℕ → ℕ → ℝ) (D : (ℕ → ℝ) → ℕ → ℝ) (C : ℕ → ℝ) (b e κ : ℝ) (st : ContSt) (d X : ℕ → ℝ) : Prop where
  near : ‖(fun j : Fin (N + 1) => X j) - condPt N C st.X0‖ ≤ κ
  resid : ‖condRes N R C (fun j : Fin (N + 1) => X j)‖ ≤ e
  tan : rectMap (condMat N J D C (condPt N C st.X0)) (fun j : Fin (N + 1) => d j) = 0
  unit : ∑ j : Fin (N + 1), arcWt N b (tubeWt N b (condPt N C st.X0)) j * d j ^ 2 = 1
  arc : ∑ j : Fin (N + 1), arcWt N b (tubeWt N b (condPt N C st.X0)) j * d j * (X j - (st.X0 j / C j + d j * st.ds)) = 0
  ori : 0 ≤ ∑ j : Fin (N + 1), arcWt N b (tubeWt N b (condPt N C st.X0)) j * (d j * ((st.X0 j - st.Xprev j) / C j))

/-- One pass of the main loop up to the corrector. -/
theorem pass_ok (hs : SmoothIn N f R J D O) (hC : ∀ i ≤ N, 0 < C i) (hb : 0 < b) (hb1 : b < 1)
    (ht : TubeConst N R J D O C lam0 lam1 bs δ η b G ρ m B κ γ) (hlin : LinOk lin) (hsol : ∀ n, ExactSolve (fac n) (sol n)) (hom : PlainNewton om)
    {K : ℕ} (hK : Real.sqrt ((N + 1 : ℕ) : ℝ) * (1 / 2) ^ K * κ < t) (hM : K < om.maxSteps) {cfg : ContCfg} (hcor : cfg.corrector = .ortho)
    (hdyn : cfg.dynamicCtoP = false) {rest : List ℝ} {st : ContSt} (hI : TubeInv N R J D C G (κ / (4 * B)) st) (fuel : ℕ) :
    ∃ (d : ℕ → ℝ) (r : ℝ) (calls : ℕ) (log : List (ℕ × ℝ)) (out : SolOut),
      fracLoop (ompContSolver lin inf fac sol om (some t)) N cfg f (fuel + 1) (b :: rest) st
        = .ok ({ st with dirC := d, obj := { st.obj with fracLam := b, RPtoC := .scalar r }, calls := calls, log := log }, out) ∧
      r ≠ 0 ∧ out.success = true ∧ 0 < out.nfev ∧ Pass N R J D C b (m / 4 * t) κ st d out.X := by
  have hz : condPt N C st.X0 ∈ G := by rw [hI.row]; exact hI.rows _ (by have := hI.pos; omega)
  obtain ⟨dir, hdir⟩ := hlin.2 _ _ (predictRhs N) hI.reg
  have hsv : Solves (ompContSolver lin inf fac sol om (some t)) := fun n A y x h => hlin.1 n A y x h
  set d : ℕ → ℝ := scaleDir N C b st.X0 st.Xprev dir with hd
  set r : ℝ := st.obj.RPtoC.mean (N + 1) with hr
  have hpre : predict (ompContSolver lin inf fac sol om (some t)) N false { st.obj with fracLam := b } f st.X0 st.Xprev st.dirC
      = .ok (d, { st.obj with fracLam := b, RPtoC := .scalar r }) := by
    have hdir' : (ompContSolver lin inf fac sol om (some t)).linSolve (N + 1) (predictMat N C ⟨R st.X0, J st.X0, D st.X0⟩ st.dirC) (predictRhs N) = .ok dir := hdir
    simp only [predict, hs.value, hI.cond, hdir', Bool.false_eq_true, false_and, if_false, predictScale]
    rfl
  have hXne : ∃ i < N, st.X0 i ≠ 0 := by
    obtain ⟨i, hi⟩ := ht.nonzero _ hz
    exact ⟨i, i.2, fun h => hi (by simp [condPt, h])⟩
  have hdirection := C58_direction hsv (hs.value st.X0) hb hb1 (fun i hi => by rw [show ({ st.obj with fracLam := b } : ContObj).CtoP = C from hI.cond]; exact hC i hi) hXne hpre
  obtain ⟨d1, d2, d3⟩ := hdirection
  simp only [hI.cond] at d1 d2 d3
  -- the user's derivatives at the current point
  have hval := value_condPt hs hC st.X0
  rw [hs.value] at hval
  have hvJ : J st.X0 = J (Spec.ext (condMap N C (condPt N C st.X0))) := by injection hval with h; injection h
  have hvD : D st.X0 = D (Spec.ext (condMap N C (condPt N C st.X0))) := by injection hval with h; injection h
  have he : ∀ j ≤ N, Spec.ext (fun j : Fin (N + 1) => d j) j = d j := fun j hj => by simp [Spec.ext, Nat.lt_succ_of_le hj]
  have htan : rectMap (condMat N J D C (condPt N C st.X0)) (fun j : Fin (N + 1) => d j) = 0 := by
    rw [condMat_tangent (R' := fun _ => 0)]
    intro i hi
    rw [← d1 i hi, ← hvJ, ← hvD]
    simp only [he N le_rfl]
    congr 1
    exact Finset.sum_congr rfl fun j hj => by rw [he j (Finset.mem_range.1 hj).le]
  have hc : arcWeight N b (fun i => st.X0 i / C i) = tubeWt N b (condPt N C st.X0) := (tubeWt_eq N b C st.X0).symm
  have hnorm : ∑ j : Fin (N + 1), arcWt N b (tubeWt N b (condPt N C st.X0)) j * d j ^ 2 = 1 := by
    rw [sum_arcWt N b _ fun i => d i ^ 2, ← d2, ← hc]
    simp only [wdot, arcWeight, normSq, sq]
  obtain ⟨hB, hlow⟩ := ht.dir _ hz _ htan hnorm
  set w : Fin (N + 1) → ℝ := fun j => arcWt N b (tubeWt N b (condPt N C st.X0)) j * d j with hw
  set p : Fin (N + 1) → ℝ := fun j => st.X0 j / C j + d j * st.ds with hp
  have hpz : p - condPt N C st.X0 = st.ds • (fun j : Fin (N + 1) => d j) := funext fun j => by
    simp only [hp, condPt, Pi.sub_apply, Pi.smul_apply, smul_eq_mul]; ring
  have hpn : ‖p - condPt N C st.X0‖ ≤ κ / 4 := by
    rw [hpz, norm_smul, Real.norm_of_nonneg hI.dspos.le]
    calc st.ds * ‖(fun j : Fin (N + 1) => d j)‖ ≤ κ / (4 * B) * B := mul_le_mul hI.dsle hB (norm_nonneg _) (by have := ht.κpos; have := ht.Bpos; positivity)
      _ = κ / 4 := by have := ht.Bpos.ne'; field_simp
  have hmp := ht.mpos
  have hκp := ht.κpos
  have hgd : ∀ y, ‖y - condPt N C st.X0‖ ≤ ρ → HasFDerivAt (condRes N R C) (rectMap (condMat N J D C y)) y := fun y hy =>
    condRes_deriv hs (ht.ball _ hz y hy).1
  have hAd : ∀ y, ‖y - condPt N C st.X0‖ ≤ ρ → ‖rectMap (condMat N J D C y) - rectMap (condMat N J D C (condPt N C st.X0))‖ ≤ m / 8 := fun y hy =>
    (ht.ball _ hz y hy).2
  have hgp : ‖condRes N R C p‖ ≤ m / 2 * (κ / 4) := by
    have h1 := (remainder_le hgd hAd (x := condPt N C st.X0) (y := p) (by rw [sub_self, norm_zero]; exact hκp.le.trans ht.κle)
      (hpn.trans (by linarith [ht.κle]))).1
    rw [show rectMap (condMat N J D C (condPt N C st.X0)) (p - condPt N C st.X0) = 0 by rw [hpz, map_smul, htan, smul_zero], sub_zero] at h1
    have h2 := norm_le_norm_add_norm_sub' (condRes N R C p) (condRes N R C (condPt N C st.X0))
    have h3 := ht.small _ hz
    have h4 := ht.γle
    nlinarith
  have hobj : ({ st.obj with fracLam := b, RPtoC := .scalar r } : ContObj).CtoP = C := hI.cond
  obtain ⟨res, n1, n2, n3, n4, n5, n6⟩ := tube_solve (inf := inf) (f := augSolve (N + 1) (fun XlamC g => correctRes N .ortho { st.obj with fracLam := b, RPtoC := .scalar r } f XlamC
      (fun i => st.X0 i / ({ st.obj with fracLam := b, RPtoC := .scalar r } : ContObj).CtoP i) st.ds (some d) g))
    (x0 := condPt N C st.X0) (p := p) (w := w) (σ := κ / 4) hmp (hsol (N + 1)) hgd hAd (fun v hv => hlow v (Or.inl hv))
    (by linarith [ht.κle]) hgp (fun X _ => by
      obtain ⟨Rv, Dm, a1, a2, a3⟩ := ortho_aug hs (obj := { st.obj with fracLam := b, RPtoC := .scalar r }) (r := r) rfl hI.scale st.X0 d hI.dspos.ne'
        (c := tubeWt N b (condPt N C st.X0)) (by rw [hobj]; exact hc) X
      rw [hobj] at a2 a3
      exact ⟨Rv, Dm, a1, a2, a3⟩) hom (K := K) (t := t)
    (by
      refine lt_of_le_of_lt (mul_le_mul_of_nonneg_left (by linarith : κ / 4 ≤ κ) (by positivity)) hK) hM
  have hsolve : solveStep (ompContSolver lin inf fac sol om (some t)) N cfg f { st with dirC := d, obj := { st.obj with fracLam := b, RPtoC := .scalar r } }
      = .ok ({ st with dirC := d, obj := { st.obj with fracLam := b, RPtoC := .scalar r }, calls := st.calls + 1, log := (st.step, st.ds) :: st.log },
        ⟨Spec.ext res.X, res.success, res.nfev⟩) := by
    have hpeq : (fun i : Fin (N + 1) => st.X0 i / ({ st.obj with fracLam := b, RPtoC := .scalar r } : ContObj).CtoP i + d i * st.ds) = p := by rw [hobj]
    simp only [solveStep, ompContSolver, hcor]
    rw [hpeq, n1]
  have hX : (fun j : Fin (N + 1) => Spec.ext res.X j) = res.X := funext fun j => ext_fin res.X j
  refine ⟨d, r, st.calls + 1, (st.step, st.ds) :: st.log, ⟨Spec.ext res.X, res.success, res.nfev⟩, ?_, hI.scale, n2, n3, ?_, ?_, htan, hnorm, ?_, ?_⟩
  · have htry : tryFrac (ompContSolver lin inf fac sol om (some t)) N cfg f (fuel + 1) b st
        = .ok ({ st with dirC := d, obj := { st.obj with fracLam := b, RPtoC := .scalar r }, calls := st.calls + 1, log := (st.step, st.ds) :: st.log },
          ⟨Spec.ext res.X, res.success, res.nfev⟩) := by
      unfold tryFrac
      rw [hdyn, hpre]
      simp only [hsolve]
      rw [retryLoop]
      simp only [n2, Bool.true_eq_false, false_and, if_false]
    rw [fracLoop, htry]
    simp only [n2, if_true]
  · show ‖(fun j : Fin (N + 1) => Spec.ext res.X j) - _‖ ≤ κ
    rw [hX, show res.X - condPt N C st.X0 = (res.X - p) + (p - condPt N C st.X0) by abel]
    exact (norm_add_le _ _).trans (by linarith)
  · show ‖condRes N R C (fun j : Fin (N + 1) => Spec.ext res.X j)‖ ≤ m / 4 * t
    rw [hX]
    exact n5
  · show ∑ j : Fin (N + 1), arcWt N b (tubeWt N b (condPt N C st.X0)) j * d j * (Spec.ext res.X j - (st.X0 j / C j + d j * st.ds)) = 0
    simp only [ext_fin]
    exact n6
  · rw [sum_arcWt N b _ fun i => d i * ((st.X0 i - st.Xprev i) / C i), ← hc]
    exact d3

/-- The main loop; `P` is a further property kept by every pass. -/
theorem loop_run (hs : SmoothIn N f R J D O) (hC : ∀ i ≤ N, 0 < C i) (hb : 0 < b) (hb1 : b < 1) (hlam : lam0 ≠ lam1)
    (ht : TubeConst N R J D O C lam0 lam1 bs δ η b G ρ m B κ γ) (hlin : LinOk lin) (hsol : ∀ n, ExactSolve (fac n) (sol n)) (hom : PlainNewton om) (ht0 : t ≤ 2 * γ / m)
    {K : ℕ} (hK : Real.sqrt ((N + 1 : ℕ) : ℝ) * (1 / 2) ^ K * κ < t) (hM : K < om.maxSteps) {cfg : ContCfg} (hcor : cfg.corrector = .ortho)
    (hdyn : cfg.dynamicCtoP = false) {rest : List ℝ} (hfl : cfg.fracLamList = b :: rest) (hbs : cfg.backtrackStop = bs) (hmin : 0 < cfg.dsmin) (hmax : 0 < cfg.dsmax)
    (hmax' : cfg.dsmax ≤ κ / (4 * B)) (silent : Bool) (C0 : ℕ → ℝ) (fuel : ℕ) {P : ContSt → Prop}
    (hP : ∀ (st st1 : ContSt) (d : ℕ → ℝ) (out : SolOut), TubeInv N R J D C G (κ / (4 * B)) st → P st → contCond N cfg lam0 lam1 st → Pass N R J D C b (m / 4 * t) κ st d out.X →
      st1.X0 = st.X0 → st1.rows = st.rows → st1.step = st.step → TubeInv N R J D C G (κ / (4 * B)) (storeStep cfg st1 out) →
      (∀ j ≤ N, (storeStep cfg st1 out).X0 j = C j * out.X j) → P (storeStep cfg st1 out)) :
    ∀ (k : ℕ) (st : ContSt), TubeInv N R J D C G (κ / (4 * B)) st → P st → cfg.maxSteps < k + st.step →
      ∃ st', contLoop (ompContSolver lin inf fac sol om (some t)) N cfg f silent lam0 lam1 C0 (fuel + 1) (k + 1) st = .ok st' ∧
        TubeInv N R J D C G (κ / (4 * B)) st' ∧ P st' := by
  intro k
  induction k with
  | zero =>
    intro st hI hPs hk
    refine ⟨st, ?_, hI, hPs⟩
    rw [contLoop, if_neg]
    intro hcond
    exact absurd hcond.1 (by omega)
  | succ k ih =>
    intro st hI hPs hk
    by_cases hcond : contCond N cfg lam0 lam1 st
    · obtain ⟨d, r, calls, log, out, h1, h2, h3, h4, hpass⟩ := pass_ok (inf := inf) hs hC hb hb1 ht hlin hsol hom hK hM hcor hdyn (rest := rest) hI fuel
      have h5 := hpass.near
      have h6 : ‖condRes N R C (fun j : Fin (N + 1) => out.X j)‖ < γ := by
        refine lt_of_le_of_lt hpass.resid ?_
        have hmp := ht.mpos
        have : m / 4 * t ≤ m / 4 * (2 * γ / m) := mul_le_mul_of_nonneg_left ht0 (by positivity)
        have e : m / 4 * (2 * γ / m) = γ / 2 := by field_simp; ring
        linarith [ht.γpos]
      have h7 := hpass.tan
      have h8 := hpass.unit
      set st1 : ContSt := { st with dirC := d, obj := { st.obj with fracLam := b, RPtoC := .scalar r }, calls := calls, log := log } with hst1
      have hz : condPt N C st.X0 ∈ G := by rw [hI.row]; exact hI.rows _ (by have := hI.pos; omega)
      have hrow : condPt N C (fun i => C i * out.X i) = fun j : Fin (N + 1) => out.X j := funext fun j => by
        have := (hC j (by omega)).ne'
        simp only [condPt]; field_simp
      have hC1 : st1.obj.CtoP = C := hI.cond
      have hG : (fun j : Fin (N + 1) => out.X j) ∈ G := by
        refine ht.next _ hz _ h5 ?_ h6
        obtain ⟨-, a1, a2⟩ := (contCond_iff hlam st).1 hcond
        rw [← hI.row] at a1 a2
        rw [hbs] at a2
        refine within_of_near a1 a2 ?_
        have := norm_le_pi_norm ((fun j : Fin (N + 1) => out.X j) - condPt N C st.X0) (Fin.last N)
        simp only [Pi.sub_apply, condPt, Fin.val_last, Real.norm_eq_abs] at this
        have hCN := hC N le_rfl
        rw [Fin.val_last, show C N * out.X N - st.X0 N = C N * (out.X N - st.X0 N / C N) by field_simp, abs_mul, abs_of_pos hCN, mul_comm]
        exact (mul_le_mul_of_nonneg_right (this.trans h5) hCN.le).trans ht.κδ
      have hnew : TubeInv N R J D C G (κ / (4 * B)) (storeStep cfg st1 out) := by
        have hX0 : (storeStep cfg st1 out).X0 = fun i => C i * out.X i := by simp only [storeStep, hC1]
        have hval := value_condPt hs hC (fun i => C i * out.X i)
        rw [hs.value, hrow] at hval
        refine ⟨hI.cond, h2, ?_, ?_, ?_, ?_, ?_, ?_, h3⟩
        · exact lt_min (lt_max_of_lt_right hmin) hmax
        · exact (min_le_right _ _).trans hmax'
        · show 1 ≤ st.step + 1
          omega
        · show _ = (fun k => if k = st1.step then _ else st1.rows k) (st.step + 1 - 1)
          simp only [Nat.add_sub_cancel]
          rw [if_pos rfl]
          rfl
        · intro k hk
          have hk' : k < st.step + 1 := hk
          show condPt N C (if k = st.step then (fun i => st1.obj.CtoP i * out.X i) else st.rows k) ∈ G
          split_ifs with he
          · rw [hC1, hrow]; exact hG
          · exact hI.rows k (by omega)
        · rw [hX0]
          exact predict_near ht hz h5 h7 h8 _ (by injection hval with h; injection h) (by injection hval with h; injection h)
      obtain ⟨st', b1, b2⟩ := ih (storeStep cfg st1 out) hnew (hP st st1 d out hI hPs hcond hpass rfl rfl rfl hnew fun j _ => by simp only [storeStep, hC1]) (by show cfg.maxSteps < k + (st.step + 1); omega)
      refine ⟨st', ?_, b2⟩
      rw [contLoop, if_pos hcond, hfl, show recondition cfg C0 st = st by simp [recondition, hdyn], h1]
      simp only [h3, Bool.true_eq_false, false_and, if_false, h4.ne']
      exact b1
    · exact ⟨st, by rw [contLoop, if_neg hcond], hI, hPs⟩

/-- The end of the run. -/
theorem finish_run (hs : SmoothIn N f R J D O) {s0 : ℝ} (hlin : LinOk lin) {cfg : ContCfg} (hdyn : cfg.dynamicCtoP = false) {st : ContSt}
    (hI : TubeInv N R J D C G s0 st) : ∃ res, contFinish (ompContSolver lin inf fac sol om (some t)) N cfg f st = .ok res ∧ res.rows = st.rows ∧ res.n = st.step ∧
      res.ok = true := by
  unfold contFinish
  by_cases hcb : cfg.callback = true
  · rw [if_pos hcb, if_neg (by rw [hI.ok]; simp)]
    obtain ⟨dir, hdir⟩ := hlin.2 _ _ (predictRhs N) hI.reg
    have hdir' : (ompContSolver lin inf fac sol om (some t)).linSolve (N + 1) (predictMat N C ⟨R st.X0, J st.X0, D st.X0⟩ st.dirC) (predictRhs N) = .ok dir := hdir
    simp only [predict, hdyn, hs.value, hI.cond, hdir', Bool.false_eq_true, false_and, if_false]
    exact ⟨_, rfl, rfl, rfl, hI.ok⟩
  · rw [if_neg hcb]
    exact ⟨_, rfl, rfl, rfl, hI.ok⟩

/-- The conditioned point of the unknowns `x` at the first value of the parameter. -/
def startPt (N : ℕ) (C : ℕ → ℝ) (lam0 : ℝ) (x : Fin N → ℝ) : Fin (N + 1) → ℝ := fun j => if h : (j : ℕ) < N then x ⟨j, h⟩ else lam0 / C N

theorem startPt_deriv (C : ℕ → ℝ) (lam0 : ℝ) (x : Fin N → ℝ) :
    ∃ A : (Fin N → ℝ) →L[ℝ] (Fin (N + 1) → ℝ), HasFDerivAt (startPt N C lam0) A x ∧ ∀ v j, A v j = if h : (j : ℕ) < N then v ⟨j, h⟩ else 0 := by
  refine ⟨ContinuousLinearMap.pi fun j => if h : (j : ℕ) < N then ContinuousLinearMap.proj (R := ℝ) (φ := fun _ : Fin N => ℝ) ⟨j, h⟩ else 0, ?_, fun v j => ?_⟩
  · refine hasFDerivAt_pi.2 fun j => ?_
    by_cases h : (j : ℕ) < N
    · simp only [startPt, h, dif_pos]
      exact hasFDerivAt_apply _ _
    · simp only [startPt, h, dif_neg, not_false_eq_true]
      exact hasFDerivAt_const _ _
  · by_cases h : (j : ℕ) < N <;> simp [h]

/-- The matrix of the first solve. -/
def startMat (N : ℕ) (J : (ℕ → ℝ) → ℕ → ℕ → ℝ) (C : ℕ → ℝ) (lam0 : ℝ) (x : Fin N → ℝ) : Matrix (Fin N) (Fin N) ℝ := fun i j =>
  J (Spec.ext (condMap N C (startPt N C lam0 x))) i j * C j

/-- The first solve. -/
theorem initial_ok (hs : SmoothIn N f R J D O) (hC : ∀ i ≤ N, 0 < C i) {r : ℝ} (hr0 : r ≠ 0) (hsol : ∀ n, ExactSolve (fac n) (sol n)) {x : Fin N → ℝ}
    (hx : condMap N C (startPt N C lam0 x) ∈ O) (hx0 : condRes N R C (startPt N C lam0 x) = 0) (hdet : IsUnit (startMat N J C lam0 x).det) :
    ∃ r1 > 0, ∀ t > 0, ∃ M, ∀ om, PlainNewton om → M ≤ om.maxSteps → ∀ X0 : ℕ → ℝ, ‖(fun i : Fin N => X0 i) - x‖ < r1 →
      ∃ s, (ompContSolver lin inf fac sol om (some t)).nsolve N 0 (initialFun N f lam0 C (.vector fun _ => r)) X0 = .ok s ∧ s.success = true ∧
        ‖(fun i : Fin N => s.X i) - x‖ < t := by
  have hloc : ∀ y : Fin N → ℝ, f (snocLam N (fun i => Spec.ext y i * C i) lam0) true
      = .ok ⟨R (Spec.ext (condMap N C (startPt N C lam0 y))), J (Spec.ext (condMap N C (startPt N C lam0 y))), D (Spec.ext (condMap N C (startPt N C lam0 y)))⟩ := fun y => by
    rw [← hs.value]
    refine hs.local' _ _ fun k hk => ?_
    have hCN := (hC N le_rfl).ne'
    by_cases h : k < N
    · simp only [snocLam, h, if_true, Spec.ext, hk, dif_pos, condMap, startPt]; ring
    · obtain rfl : k = N := by omega
      simp only [snocLam, lt_irrefl, if_false, Spec.ext, hk, dif_pos, condMap, startPt, dif_neg, not_false_eq_true]
      field_simp
  have hval : ∀ y : Fin N → ℝ, augSolve N (initialFun N f lam0 C (.vector fun _ => r)) y true
      = .ok (r • condRes N R C (startPt N C lam0 y), r • startMat N J C lam0 y) := fun y => by
    simp only [augSolve, initialFun, hloc, if_true, RScale.at]
    congr 1
    refine Prod.ext (funext fun i => rfl) (funext fun i => funext fun j => ?_)
    simp only [startMat, Matrix.smul_apply, smul_eq_mul]
    ring
  have hcS : Continuous (startPt N C lam0) := continuous_pi fun j => by
    by_cases h : (j : ℕ) < N
    · simp only [startPt, h, dif_pos]; fun_prop
    · simp only [startPt, h, dif_neg, not_false_eq_true]; fun_prop
  have hcM : Continuous fun y : Fin N → ℝ => condMap N C (startPt N C lam0 y) := (condMap_continuous C).comp hcS
  have hO : ∀ᶠ y in nhds x, condMap N C (startPt N C lam0 y) ∈ O := hcM.continuousAt.eventually_mem (hs.isOpen.mem_nhds hx)
  have hder : ∀ᶠ y in nhds x, HasFDerivAt (fun y => r • condRes N R C (startPt N C lam0 y)) (jacMap (r • startMat N J C lam0 y)) y := by
    filter_upwards [hO] with y hy
    obtain ⟨A, hA, hAv⟩ := startPt_deriv C lam0 y
    have h1 := (HasFDerivAt.comp (f := startPt N C lam0) y (condRes_deriv hs hy) hA).const_smul r
    refine h1.congr_fderiv ?_
    ext1 v
    funext i
    simp only [smul_apply, ContinuousLinearMap.comp_apply, rectMap_apply, jacMap_apply, Pi.smul_apply, smul_eq_mul, Matrix.smul_mulVec]
    congr 1
    simp only [Matrix.mulVec, dotProduct]
    rw [Fin.sum_univ_castSucc, hAv, dif_neg (by simp), mul_zero, add_zero]
    refine Finset.sum_congr rfl fun j _ => ?_
    rw [hAv, dif_pos (by simp)]
    simp only [condMat, fullJac, startMat, Fin.val_castSucc, j.2, if_true]
  have hJc : ContinuousAt (fun y => r • startMat N J C lam0 y) x := by
    refine ContinuousAt.const_smul ?_ r
    refine continuousAt_pi.2 fun i => continuousAt_pi.2 fun j => ?_
    refine ContinuousAt.mul ?_ continuousAt_const
    have h1 := (hs.cont i i.2 j (by omega)).continuousAt (hs.isOpen.mem_nhds hx)
    simp only [fullJac, j.2, if_true] at h1
    exact ContinuousAt.comp (f := fun y : Fin N → ℝ => condMap N C (startPt N C lam0 y)) h1 hcM.continuousAt
  obtain ⟨r1, hr1, H⟩ := C130_converges (inf := inf) (fac := fac N) (sol := sol N) (f := augSolve N (initialFun N f lam0 C (.vector fun _ => r))) (hsol N)
    (Filter.Eventually.of_forall hval) hder hJc (by simp only [hx0, smul_zero]) (by
      rw [Matrix.det_smul]
      exact (IsUnit.mk0 _ (pow_ne_zero _ hr0)).mul hdet)
  refine ⟨r1, hr1, fun t ht => ?_⟩
  obtain ⟨M, hM⟩ := H t ht
  refine ⟨M, fun om hom hm X0 hX => ?_⟩
  obtain ⟨res, a1, a2, a3⟩ := hM om hom hm _ hX (some t) rfl
  refine ⟨⟨Spec.ext res.X, res.success, res.nfev⟩, ?_, a2, ?_⟩
  · simp only [ompContSolver, a1]
  · show ‖(fun i : Fin N => Spec.ext res.X i) - x‖ < t
    rw [show (fun i : Fin N => Spec.ext res.X i) = res.X from funext fun i => ext_fin res.X i]
    exact a3

theorem regular_iff_det (M : ℕ → ℕ → ℝ) : Regular N M ↔ Matrix.det (fun i j : Fin N => M i j) ≠ 0 := by
  constructor
  · intro h h0
    obtain ⟨v, hv, hv0⟩ := Matrix.exists_mulVec_eq_zero_iff.2 h0
    refine hv (funext fun j => ?_)
    have := h (Spec.ext v) (fun i hi => by
      have := congrFun hv0 ⟨i, hi⟩
      simp only [Matrix.mulVec, dotProduct, Pi.zero_apply] at this
      rw [Finset.sum_range, ← this]
      exact Finset.sum_congr rfl fun j _ => by rw [ext_fin]) j j.2
    rwa [ext_fin] at this
  · intro h v hv j hj
    by_contra hne
    refine h (Matrix.exists_mulVec_eq_zero_iff.1 ⟨fun j : Fin N => v j, fun h0 => hne (congrFun h0 ⟨j, hj⟩), funext fun i => ?_⟩)
    have := hv i i.2
    rw [Finset.sum_range] at this
    exact this

theorem startMat_det (C : ℕ → ℝ) (lam0 : ℝ) (x : Fin N → ℝ) : (startMat N J C lam0 x).det
    = Matrix.det (fun i j : Fin N => J (Spec.ext (condMap N C (startPt N C lam0 x))) i j) * ∏ j : Fin N, C j := by
  have : startMat N J C lam0 x = Matrix.of (fun i j : Fin N => J (Spec.ext (condMap N C (startPt N C lam0 x))) i j) * Matrix.diagonal fun j : Fin N => C j := by
    ext i j
    rw [Matrix.mul_diagonal]
    rfl
  rw [this, Matrix.det_mul, Matrix.det_diagonal]
  rfl

/-- The run in a tube `G`; `P` is a further property of the states. -/
theorem run_core (hs : SmoothIn N f R J D O) (hlam : lam0 ≠ lam1)
    {x : Fin (N + 1) → ℝ} (hx : x ∈ solutions N R lam0 lam1 bs δ) (hxO' : x ∈ O) (hx0 : x (Fin.last N) = lam0) (hreg : Regular N (J (Spec.ext x)))
    {obj : ContObj} {r : ℝ} (hCe : (contPrepare obj).CtoP = C) (hC : ∀ i ≤ N, 0 < C i) (hr : (contPrepare obj).RPtoC = .vector fun _ => r) (hr0 : r ≠ 0)
    (hb : 0 < b) (hb1 : b < 1) (hlin : LinOk lin) (hsol : ∀ n, ExactSolve (fac n) (sol n))
    (ht : TubeConst N R J D O C lam0 lam1 bs δ η b G ρ m B κ γ) :
    ∃ t0 > 0, ∃ r0 > 0, ∀ t > 0, t ≤ t0 → ∃ M, ∀ om, PlainNewton om → M ≤ om.maxSteps → ∀ (cfg : ContCfg) (rest : List ℝ),
      cfg.corrector = .ortho → cfg.dynamicCtoP = false → cfg.fracLamList = b :: rest → cfg.backtrackStop = bs → 0 < cfg.dsmin → 0 < cfg.dsmax → cfg.dsmax ≤ κ / (4 * B) →
      0 < cfg.ds0 → cfg.ds0 ≤ κ / (4 * B) → 0 < cfg.maxSteps → ∀ P : ContSt → Prop,
      (∀ s : SolOut, ‖(fun i : Fin N => s.X i) - fun i : Fin N => x (Fin.castSucc i) / C i‖ < t →
        condPt N C (contStart N cfg lam0 lam1 (contPrepare obj) s).X0 = startPt N C lam0 (fun i : Fin N => s.X i) →
        TubeInv N R J D C G (κ / (4 * B)) (contStart N cfg lam0 lam1 (contPrepare obj) s) → P (contStart N cfg lam0 lam1 (contPrepare obj) s)) →
      (∀ (st st1 : ContSt) (d : ℕ → ℝ) (out : SolOut), TubeInv N R J D C G (κ / (4 * B)) st → P st → contCond N cfg lam0 lam1 st → Pass N R J D C b (m / 4 * t) κ st d out.X →
        st1.X0 = st.X0 → st1.rows = st.rows → st1.step = st.step → TubeInv N R J D C G (κ / (4 * B)) (storeStep cfg st1 out) →
        (∀ j ≤ N, (storeStep cfg st1 out).X0 j = C j * out.X j) → P (storeStep cfg st1 out)) →
      ∀ XlamP0 : ℕ → ℝ, (∀ i < N, |XlamP0 i - Spec.ext x i| < r0) → ∀ fuel > cfg.maxSteps,
      ∃ res st', continuation (ompContSolver lin inf fac sol om (some t)) N cfg obj f XlamP0 lam0 lam1 fuel = .ok res ∧ res.ok = true ∧ res.rows = st'.rows ∧
        res.n = st'.step ∧ TubeInv N R J D C G (κ / (4 * B)) st' ∧ P st' ∧
        (res.n = cfg.maxSteps ∨ ¬ Ahead lam0 lam1 (res.rows (res.n - 1) N) ∨ ¬ NotBehind lam0 lam1 bs (res.rows (res.n - 1) N)) := by
  have hCj : ∀ j : Fin (N + 1), C j ≠ 0 := fun j => (hC j (by omega)).ne'
  set x' : Fin N → ℝ := fun i => x (Fin.castSucc i) / C i with hx'
  have hst : condMap N C (startPt N C lam0 x') = x := funext fun j => by
    by_cases h : (j : ℕ) < N
    · simp only [condMap, startPt, h, dif_pos, hx']
      rw [mul_div_cancel₀ _ (hCj j)]
      rfl
    · obtain rfl : j = Fin.last N := Fin.ext (by simp; omega)
      simp only [condMap, startPt, Fin.val_last, lt_irrefl, dif_neg, not_false_eq_true]
      rw [mul_div_cancel₀ _ (hC N le_rfl).ne', hx0]
  have hprod : ∏ j : Fin N, C j ≠ 0 := Finset.prod_ne_zero_iff.2 fun j _ => (hC j (by omega)).ne'
  have hdet : (startMat N J C lam0 x').det ≠ 0 := by
    rw [startMat_det, hst]
    exact mul_ne_zero ((regular_iff_det _).1 hreg) hprod
  have hxO : condMap N C (startPt N C lam0 x') ∈ O := by rw [hst]; exact hxO'
  obtain ⟨r1, hr1, HI⟩ := initial_ok (lin := lin) (inf := inf) hs hC hr0 hsol hxO (funext fun i => by
    show R (Spec.ext (condMap N C (startPt N C lam0 x'))) i = 0
    rw [hst]; exact hx.1 i i.2) (IsUnit.mk0 _ hdet)
  -- the first point
  have hcS : Continuous (startPt N C lam0) := continuous_pi fun j => by
    by_cases h : (j : ℕ) < N
    · simp only [startPt, h, dif_pos]; fun_prop
    · simp only [startPt, h, dif_neg, not_false_eq_true]; fun_prop
  have hcM : Continuous fun y : Fin N → ℝ => condMap N C (startPt N C lam0 y) := (condMap_continuous C).comp hcS
  have hGe : ∀ᶠ y in nhds x', startPt N C lam0 y ∈ G := hcS.continuousAt.eventually (ht.start _ (by rw [hst]; exact hx))
  have hDe : ∀ᶠ y in nhds x', (startMat N J C lam0 y).det ≠ 0 := by
    have hJc : ContinuousAt (fun y => startMat N J C lam0 y) x' := by
      refine continuousAt_pi.2 fun i => continuousAt_pi.2 fun j => ?_
      refine ContinuousAt.mul ?_ continuousAt_const
      have h1 := (hs.cont i i.2 j (by omega)).continuousAt (hs.isOpen.mem_nhds hxO)
      simp only [fullJac, j.2, if_true] at h1
      exact ContinuousAt.comp (f := fun y : Fin N → ℝ => condMap N C (startPt N C lam0 y)) h1 hcM.continuousAt
    exact (ContinuousAt.comp (f := fun y => startMat N J C lam0 y) (g := Matrix.det) (continuous_id.matrix_det).continuousAt hJc).eventually_ne hdet
  obtain ⟨t1, ht1, H1⟩ := Metric.eventually_nhds_iff.1 (hGe.and hDe)
  -- the guess
  have hcX : Continuous fun y : Fin N → ℝ => fun i : Fin N => y i / C i := by fun_prop
  obtain ⟨r0, hr0', H0⟩ := Metric.eventually_nhds_iff.1 (hcX.continuousAt.eventually_mem (Metric.ball_mem_nhds (x := fun i : Fin N => x (Fin.castSucc i) / C i) hr1))
  refine ⟨min t1 (2 * γ / m), lt_min ht1 (div_pos (by have := ht.γpos; linarith) ht.mpos), r0, hr0',
    fun t htp ht0 => ?_⟩
  obtain ⟨Mi, HM⟩ := HI t htp
  obtain ⟨K, hKt⟩ : ∃ K : ℕ, Real.sqrt ((N + 1 : ℕ) : ℝ) * (1 / 2) ^ K * κ < t := by
    have hp : 0 < Real.sqrt ((N + 1 : ℕ) : ℝ) * κ := mul_pos (Real.sqrt_pos.2 (by positivity)) ht.κpos
    obtain ⟨K, hK⟩ := exists_pow_lt_of_lt_one (div_pos htp hp) (by norm_num : (1 / 2 : ℝ) < 1)
    refine ⟨K, ?_⟩
    rw [lt_div_iff₀ hp] at hK
    linarith
  refine ⟨max Mi (K + 1), fun om hom hm cfg rest hcor hdyn hfl hbs hmin hmax hmax' hd0 hd0' hms P hP0 hP XlamP0 hX fuel hfuel => ?_⟩
  obtain ⟨s, a1, a2, a3⟩ := HM om hom ((le_max_left _ _).trans hm) (fun i => XlamP0 i / C i) (by
    have := @H0 (fun i : Fin N => XlamP0 i) (by
      rw [dist_eq_norm, pi_norm_lt_iff hr0']
      intro i
      have := hX i i.2
      rw [show Spec.ext x (i : ℕ) = x (Fin.castSucc i) from ext_fin x (Fin.castSucc i)] at this
      exact this)
    rw [mem_ball, dist_eq_norm] at this
    exact this)
  obtain ⟨hG, hD⟩ := @H1 (fun i : Fin N => s.X i) (by rw [dist_eq_norm]; exact a3.trans_le (ht0.trans (min_le_left _ _)))
  set st0 := contStart N cfg lam0 lam1 (contPrepare obj) s with hst0
  have hrow : condPt N C st0.X0 = startPt N C lam0 fun i : Fin N => s.X i := funext fun j => by
    show snocLam N (fun i => s.X i * (contPrepare obj).CtoP i) lam0 j / C j = _
    rw [hCe]
    by_cases h : (j : ℕ) < N
    · simp only [snocLam, startPt, h, if_true, dif_pos]
      rw [mul_div_cancel_right₀ _ (hCj j)]
    · obtain rfl : j = Fin.last N := Fin.ext (by simp; omega)
      simp [snocLam, startPt]
  have hJ0 : J st0.X0 = J (Spec.ext (condMap N C (startPt N C lam0 fun i : Fin N => s.X i))) := by
    have h1 := hs.value st0.X0
    rw [value_condPt hs hC, hrow] at h1
    injection h1 with h1
    injection h1 with _ h1 _
    exact h1.symm
  have hInv : TubeInv N R J D C G (κ / (4 * B)) st0 :=
    { cond := hCe
      scale := by
        show (contPrepare obj).RPtoC.mean (N + 1) ≠ 0
        rw [hr]
        simp only [RScale.mean, Finset.sum_const, Finset.card_range, nsmul_eq_mul]
        rw [mul_div_cancel_left₀ _ (by positivity)]
        exact hr0
      dspos := hd0
      dsle := hd0'
      pos := le_rfl
      row := rfl
      rows := fun k hk => by
        obtain rfl : k = 0 := by
          have : st0.step = 1 := rfl
          omega
        have : st0.rows 0 = st0.X0 := rfl
        rw [this, hrow]
        exact hG
      reg := by
        rw [hst0, C120_first hC _ _ _ _ hlam, ← hst0, regular_iff_det]
        simp only [hJ0]
        rw [startMat_det] at hD
        exact (mul_ne_zero_iff.1 hD).1
      ok := a2 }
  obtain ⟨k, rfl⟩ : ∃ k, fuel = k + 1 := ⟨fuel - 1, by omega⟩
  obtain ⟨st', b1, b2, b3⟩ := loop_run (inf := inf) hs hC hb hb1 hlam ht hlin hsol hom (ht0.trans (min_le_right _ _)) hKt (by have := (le_max_right Mi (K + 1)).trans hm; omega)
    hcor hdyn hfl hbs hmin hmax hmax' (decide (obj.verbose < 0)) C k (P := P) hP k st0 hInv (hP0 s a3 hrow hInv) (by have : st0.step = 1 := rfl; omega)
  obtain ⟨res, c1, c2, c3, c4⟩ := finish_run (om := om) (t := t) (inf := inf) (fac := fac) (sol := sol) hs hlin hdyn b2
  have hrun : continuation (ompContSolver lin inf fac sol om (some t)) N cfg obj f XlamP0 lam0 lam1 (k + 1) = .ok res := by
    simp only [continuation, hCe, hr, a1, a2, Bool.true_eq_false, if_false, if_neg hms.ne']
    rw [← hst0, b1]
    exact c1
  refine ⟨res, st', hrun, c4, c2, c3, b2, b3, ?_⟩
  have := C56_reason hlam ⟨k + 1, hrun⟩ c4
  rwa [hbs] at this

/-- Points of the tube are close to a solution. -/
theorem tube_close (hC : ∀ i ≤ N, 0 < C i) (ht : TubeConst N R J D O C lam0 lam1 bs δ η b G ρ m B κ γ) {X : ℕ → ℝ} (hX : condPt N C X ∈ G) :
    ∃ v ∈ solutions N R lam0 lam1 bs δ, ∀ j ≤ N, |X j - Spec.ext v j| < η := by
  obtain ⟨v, hv, h⟩ := ht.close _ hX
  refine ⟨v, hv, fun j hj => ?_⟩
  have h' := h ⟨j, by omega⟩
  simp only [condPt] at h'
  rw [mul_div_cancel₀ _ (hC j hj).ne'] at h'
  rw [show Spec.ext v j = v ⟨j, by omega⟩ by simp [Spec.ext, Nat.lt_succ_of_le hj]]
  exact h'

/-- C133: if all solutions from the first value of the parameter (less the allowed backtracking) to the last are regular, a run which starts near
one of them does not fail. All points are as close to a solution as wanted, and the run ends at the step limit, past the last value, or behind
the backtracking limit. `s0` bounds the steps, `t0` the tolerance of the solver, `M` is the number of Newton steps needed. -/
theorem C133_run (hs : SmoothIn N f R J D O) (hK : RegularSolutions N R J D O lam0 lam1 bs δ) (hδ : 0 < δ) (hlam : lam0 ≠ lam1)
    {x : Fin (N + 1) → ℝ} (hx : x ∈ solutions N R lam0 lam1 bs δ) (hx0 : x (Fin.last N) = lam0) (hreg : Regular N (J (Spec.ext x)))
    {obj : ContObj} {r : ℝ} (hC : ∀ i ≤ N, 0 < (contPrepare obj).CtoP i) (hr : (contPrepare obj).RPtoC = .vector fun _ => r) (hr0 : r ≠ 0)
    (hb : 0 < b) (hb1 : b < 1) (hlin : LinOk lin) (hsol : ∀ n, ExactSolve (fac n) (sol n)) (hη : 0 < η) :
    ∃ s0 > 0, ∃ t0 > 0, ∃ r0 > 0, ∀ t > 0, t ≤ t0 → ∃ M, ∀ om, PlainNewton om → M ≤ om.maxSteps → ∀ (cfg : ContCfg) (rest : List ℝ),
      cfg.corrector = .ortho → cfg.dynamicCtoP = false → cfg.fracLamList = b :: rest → cfg.backtrackStop = bs → 0 < cfg.dsmin → 0 < cfg.dsmax → cfg.dsmax ≤ s0 →
      0 < cfg.ds0 → cfg.ds0 ≤ s0 → 0 < cfg.maxSteps → ∀ XlamP0 : ℕ → ℝ, (∀ i < N, |XlamP0 i - Spec.ext x i| < r0) → ∀ fuel > cfg.maxSteps,
      ∃ res, continuation (ompContSolver lin inf fac sol om (some t)) N cfg obj f XlamP0 lam0 lam1 fuel = .ok res ∧ res.ok = true ∧ 0 < res.n ∧
        (∀ k < res.n, ∃ v ∈ solutions N R lam0 lam1 bs δ, ∀ j ≤ N, |res.rows k j - Spec.ext v j| < η) ∧
        (res.n = cfg.maxSteps ∨ ¬ Ahead lam0 lam1 (res.rows (res.n - 1) N) ∨ ¬ NotBehind lam0 lam1 bs (res.rows (res.n - 1) N)) := by
  obtain ⟨C, hCe⟩ : ∃ C, (contPrepare obj).CtoP = C := ⟨_, rfl⟩
  rw [hCe] at hC
  obtain ⟨G, ρ, m, B, κ, γ, ht⟩ := tube_exists hs hK hδ hC hb hb1 hη
  obtain ⟨t0, ht0, r0, hr0', H⟩ := run_core (inf := inf) hs hlam hx (hK.inside hx) hx0 hreg hCe hC hr hr0 hb hb1 hlin hsol ht
  refine ⟨κ / (4 * B), div_pos ht.κpos (by have := ht.Bpos; positivity), t0, ht0, r0, hr0', fun t htp htt => ?_⟩
  obtain ⟨M, HM⟩ := H t htp htt
  refine ⟨M, fun om hom hm cfg rest hcor hdyn hfl hbs hmin hmax hmax' hd0 hd0' hms XlamP0 hX fuel hfuel => ?_⟩
  obtain ⟨res, st', hrun, c4, c2, c3, b2, -, hend⟩ := HM om hom hm cfg rest hcor hdyn hfl hbs hmin hmax hmax' hd0 hd0' hms (fun _ => True)
    (fun _ _ _ _ => trivial) (fun _ _ _ _ _ _ _ _ _ _ _ _ _ => trivial) XlamP0 hX fuel hfuel
  exact ⟨res, hrun, c4, by rw [c3]; exact b2.pos, fun i hi => by rw [c2]; exact tube_close hC ht (b2.rows i (c3 ▸ hi)), hend⟩

/-- A linear solver which fails on singular matrices. -/
def exactLin (n : ℕ) (A : ℕ → ℕ → ℝ) (y : ℕ → ℝ) : Except Err (ℕ → ℝ) :=
  open Classical in if h : ∃ x : ℕ → ℝ, ∀ i < n, ∑ j ∈ Finset.range n, A i j * x j = y i then .ok h.choose else .error .value

theorem exactLin_ok : LinOk exactLin := by
  refine ⟨fun n A y x h => ?_, fun n A y h => ?_⟩
  · unfold exactLin at h
    split at h
    · rename_i h'
      cases h
      exact h'.choose_spec
    · cases h
  · have hu : IsUnit (Matrix.det (fun i j : Fin n => A i j)) := IsUnit.mk0 _ ((regular_iff_det A).1 h)
    have hex : ∃ x : ℕ → ℝ, ∀ i < n, ∑ j ∈ Finset.range n, A i j * x j = y i := by
      refine ⟨Spec.ext ((Matrix.of fun i j : Fin n => A i j)⁻¹.mulVec fun i : Fin n => y i), fun i hi => ?_⟩
      have h1 : (Matrix.of fun i j : Fin n => A i j).mulVec ((Matrix.of fun i j : Fin n => A i j)⁻¹.mulVec fun i : Fin n => y i) = fun i : Fin n => y i := by
        have h3 : (Matrix.of fun i j : Fin n => A i j) * (Matrix.of fun i j : Fin n => A i j)⁻¹ = 1 := Matrix.mul_nonsing_inv _ hu
        rw [Matrix.mulVec_mulVec, h3, Matrix.one_mulVec]
      have h2 := congrFun h1 ⟨i, hi⟩
      rw [Finset.sum_range]
      simp only [ext_fin]
      exact h2
    exact ⟨_, dif_pos hex⟩

/-- The circle of radius 1 around `(2, 0)`. -/
def ringFun : ContFun := fun X _ => .ok ⟨fun _ => (X 0 - 2) ^ 2 + X 1 ^ 2 - 1, fun _ _ => 2 * (X 0 - 2), fun _ => 2 * X 1⟩

theorem ring_smooth : SmoothIn 1 ringFun (fun X _ => (X 0 - 2) ^ 2 + X 1 ^ 2 - 1) (fun X _ _ => 2 * (X 0 - 2)) (fun X _ => 2 * X 1) univ where
  value _ := rfl
  local' X Y h := by simp only [ringFun, h 0 (by omega), h 1 (by omega)]
  isOpen := isOpen_univ
  deriv := fun v _ i _ => by
    unfold HasGrad
    have h0 : HasFDerivAt (fun u : Fin (1 + 1) → ℝ => u 0) (ContinuousLinearMap.proj (R := ℝ) (φ := fun _ : Fin (1 + 1) => ℝ) 0) 0 := hasFDerivAt_apply _ _
    have h1 : HasFDerivAt (fun u : Fin (1 + 1) → ℝ => u 1) (ContinuousLinearMap.proj (R := ℝ) (φ := fun _ : Fin (1 + 1) => ℝ) 1) 0 := hasFDerivAt_apply _ _
    have h := ((((h0.const_add (Spec.ext v 0)).sub_const 2).pow 2).add ((h1.const_add (Spec.ext v 1)).pow 2)).sub_const 1
    refine (h.congr_of_eventuallyEq (Filter.Eventually.of_forall fun u => ?_)).congr_fderiv ?_
    · simp [Spec.ext]
    · ext1 u
      simp [row_apply, Fin.sum_univ_two, fullJac]
  cont i hi j hj := by
    have hc : ∀ k, Continuous fun v : Fin (1 + 1) → ℝ => Spec.ext v k := fun k => by
      simp only [Spec.ext]
      split_ifs <;> fun_prop
    have : Continuous fun v : Fin (1 + 1) → ℝ => fullJac (N := 1) (fun X _ _ => 2 * (X 0 - 2)) (fun X _ => 2 * X 1) (Spec.ext v) i j := by
      simp only [fullJac]
      split_ifs
      · exact continuous_const.mul ((hc 0).sub continuous_const)
      · exact continuous_const.mul (hc 1)
    exact this.continuousOn

theorem ring_mem {lam0 lam1 : ℝ} {bs : Option ℝ} {δ : ℝ} {v : Fin (1 + 1) → ℝ} (hv : v ∈ solutions 1 (fun X _ => (X 0 - 2) ^ 2 + X 1 ^ 2 - 1) lam0 lam1 bs δ) :
    (v 0 - 2) ^ 2 + v 1 ^ 2 = 1 := by
  have := hv.1 0 (by omega)
  simp [Spec.ext] at this
  linarith

theorem ring_regular : RegularSolutions 1 (fun X _ => (X 0 - 2) ^ 2 + X 1 ^ 2 - 1) (fun X _ _ => 2 * (X 0 - 2)) (fun X _ => 2 * X 1) univ 0 2 none 1 where
  compact := by
    refine (isCompact_Icc (a := (fun _ => -3 : Fin (1 + 1) → ℝ)) (b := fun _ => 3)).of_isClosed_subset ?_ fun v hv => ?_
    · have hw : IsClosed ((fun v : Fin (1 + 1) → ℝ => v (Fin.last 1)) ⁻¹' {lam | Within 0 2 none 1 lam}) := (within_closed 0 2 none 1).preimage (continuous_apply _)
      refine IsClosed.inter ?_ hw
      have e : {v : Fin (1 + 1) → ℝ | ∀ i < 1, (Spec.ext v 0 - 2) ^ 2 + Spec.ext v 1 ^ 2 - 1 = 0} = {v | (v 0 - 2) ^ 2 + v 1 ^ 2 - 1 = 0} := by
        ext v; simp [Spec.ext]
      show IsClosed {v : Fin (1 + 1) → ℝ | ∀ i < 1, (Spec.ext v 0 - 2) ^ 2 + Spec.ext v 1 ^ 2 - 1 = 0}
      rw [e]
      exact isClosed_eq (by fun_prop) continuous_const
    · have h := ring_mem hv
      constructor <;> intro j <;> fin_cases j <;> simp <;> nlinarith [sq_nonneg (v 0 - 2), sq_nonneg (v 1)]
  inside _ _ := mem_univ _
  curve v hv u w hu hw hn := by
    have h := ring_mem hv
    have h1 := hu 0 (by omega)
    have h2 := hw 0 (by omega)
    simp [Spec.ext] at h1 h2
    have h1' : (v 0 - 2) * u 0 + v 1 * u 1 = 0 := by linarith
    have h2' : (v 0 - 2) * w 0 + v 1 * w 1 = 0 := by linarith
    -- u is a multiple of (-v 1, v 0 - 2)
    have e1 : u 0 = -(v 1) * (-(v 1) * u 0 + (v 0 - 2) * u 1) := by linear_combination (-u 0) * h + (v 0 - 2) * h1'
    have e2 : u 1 = (v 0 - 2) * (-(v 1) * u 0 + (v 0 - 2) * u 1) := by linear_combination (-u 1) * h + v 1 * h1'
    have e3 : w 0 = -(v 1) * (-(v 1) * w 0 + (v 0 - 2) * w 1) := by linear_combination (-w 0) * h + (v 0 - 2) * h2'
    have e4 : w 1 = (v 0 - 2) * (-(v 1) * w 0 + (v 0 - 2) * w 1) := by linear_combination (-w 1) * h + v 1 * h2'
    generalize hp : -(v 1) * u 0 + (v 0 - 2) * u 1 = p at e1 e2
    generalize hq : -(v 1) * w 0 + (v 0 - 2) * w 1 = q at e3 e4
    have hp0 : p ≠ 0 := by
      rintro rfl
      obtain ⟨i, hi, hne⟩ := hn
      interval_cases i
      · exact hne (by rw [e1, mul_zero])
      · exact hne (by rw [e2, mul_zero])
    refine ⟨q / p, fun i hi => ?_⟩
    interval_cases i
    · rw [e1, e3]; field_simp
    · rw [e2, e4]; field_simp
  nonzero v hv := ⟨0, by omega, by
    have h := ring_mem hv
    simp only [Spec.ext, show (0 : ℕ) < 1 + 1 by omega, dif_pos]
    show v 0 ≠ 0
    intro h0
    rw [h0] at h
    nlinarith [sq_nonneg (v 1)]⟩

/-- C133 on the circle, asked to go from parameter 0 to parameter 2, which no solution has: with small steps the run follows the circle through
all its folds and returns as many points as allowed. -/
example : ∃ s0 > 0, ∃ t0 > 0, ∃ r0 > 0, ∀ t > 0, t ≤ t0 → ∃ M, ∀ om, PlainNewton om → M ≤ om.maxSteps → ∀ n > 0, ∀ XlamP0 : ℕ → ℝ, |XlamP0 0 - 3| < r0 →
    ∀ cfg : ContCfg, cfg.corrector = .ortho → cfg.dynamicCtoP = false → cfg.fracLamList = [1 / 2] → cfg.backtrackStop = none → cfg.dsmin = s0 / 10 → cfg.dsmax = s0 →
      cfg.ds0 = s0 → cfg.maxSteps = n →
    ∃ res, continuation (ompContSolver exactLin 0 (fun _ => id) (fun _ D v => D⁻¹.mulVec v) om (some t)) 1 cfg ⟨fun _ => 1, .scalar 1, true, true, 1 / 2, 0⟩ ringFun XlamP0 0 2
      (n + 1) = .ok res ∧ res.ok = true ∧ res.n = n := by
  obtain ⟨s0, hs0, t0, ht0, r0, hr0, H⟩ := C133_run (inf := 0) (fac := fun _ => id) (sol := fun _ D v => D⁻¹.mulVec v) (x := ![3, 0]) (r := 1) (b := 1 / 2) (η := 1 / 2)
    (obj := ⟨fun _ => 1, .scalar 1, true, true, 1 / 2, 0⟩) ring_smooth ring_regular one_pos (by norm_num) ⟨fun i _ => by simp [Spec.ext]; norm_num, by
      simp [Within, Fin.last]; norm_num⟩ (by simp [Fin.last]) (fun v hv j hj => by
        have := hv 0 (by omega)
        obtain rfl : j = 0 := by omega
        simp [Spec.ext] at this
        rcases this with h | h
        · norm_num at h
        · exact h) (by intro i _; simp [contPrepare]) (by simp [contPrepare]) one_ne_zero (by norm_num) (by norm_num) exactLin_ok (fun _ => exactSolve_inv) (by norm_num)
  refine ⟨s0, hs0, t0, ht0, r0, hr0, fun t h1 h2 => ?_⟩
  obtain ⟨M, HM⟩ := H t h1 h2
  refine ⟨M, fun om h3 h4 n hn XlamP0 hX cfg c1 c2 c3 c4 c5 c6 c7 c8 => ?_⟩
  obtain ⟨res, e1, e2, hpos, e3, e4⟩ := HM om h3 h4 cfg [] c1 c2 c3 c4 (by rw [c5]; positivity) (by rw [c6]; exact hs0) c6.le (by rw [c7]; exact hs0) c7.le (by omega) XlamP0
    (fun i hi => by
      obtain rfl : i = 0 := by omega
      simpa [Spec.ext] using hX) (n + 1) (by omega)
  refine ⟨res, e1, e2, ?_⟩
  rw [c8] at e4
  rcases e4 with h | h | h
  · exact h
  · exfalso
    obtain ⟨v, hv, hv'⟩ := e3 (res.n - 1) (by omega)
    have hv1 := hv' 1 le_rfl
    have hm := ring_mem hv
    rw [show Spec.ext v 1 = v 1 by simp [Spec.ext]] at hv1
    refine h (Or.inl ⟨by norm_num, ?_⟩)
    have := abs_lt.1 hv1
    nlinarith [sq_nonneg (v 0 - 2), sq_nonneg (v 1 - 1)]
  · exact absurd (by simp [NotBehind]) h

end

end TMD
