import Verif.Model.LocalForces
import Verif.Props.AFT
import Verif.Props.System
import Verif.Props.Hysteresis
import Verif.Props.RoughContact

/-!
# Property C92: post-processed local forces

`local_harmonic_forces` repeats the AFT evaluation of a harmonic solution for every force. What it reports should be
the local motion, the force time series along it, its Fourier coefficients, and these should be the ones the residual
used: mapped with `T` and summed they are `total_aft`.
-/

namespace TMD

open Spec Finset

noncomputable section

open Classical

/-- The sampled local displacements of the motion with coefficients `U`. -/
def sampledDisp (N : ℕ) (Q : ℕ → ℕ → ℝ) (h : List ℕ) (U : ℕ → ℝ) (Nt : ℕ) : TS ℕ :=
  ⟨Nt, fun j d => localMotion N Q h U d (2 * Real.pi * j / Nt)⟩

/-- The sampled local velocities at frequency `w`. -/
def sampledVel (N : ℕ) (Q : ℕ → ℕ → ℝ) (h : List ℕ) (U : ℕ → ℝ) (w : ℝ) (Nt : ℕ) : ℕ → ℕ → ℝ :=
  fun j d => w * deriv (localMotion N Q h U d) (2 * Real.pi * j / Nt)

/-- A correct entry for one force: local coefficients and samples of the local motion, Fourier coefficients of the
reported time series, and agreement with the harmonic force that `aft` contributes to the residual. -/
structure IsReport (N : ℕ) (f : PForce) (U : ℕ → ℝ) (w : ℝ) (h : List ℕ) (Nt : ℕ) (o : LocalOut) : Prop where
  coeff : ∀ d, series h (fun r => o.Uh r d) = localMotion N f.Q h U d
  disp : o.ut.rows = Nt ∧ ∀ j d, o.ut.val j d = localMotion N f.Q h U d (2 * Real.pi * j / Nt)
  fourier : ∀ k ∈ h, ∀ d, coefOf h (fun r => o.Fh r d) k = dft Nt (fun j => o.ft j d) k
  assembled : ∃ F, f.aftF U w h Nt = .ok F ∧
    ∀ r < numCoeff h, ∀ i < N, F (r*N + i) = ∑ d ∈ range f.m, f.T i d * o.Fh r d

/-- The loop body reports force `f` correctly, whatever the previous force was, with time series `ft`. -/
def Reported (N : ℕ) (f : PForce) (U : ℕ → ℝ) (w : ℝ) (h : List ℕ) (Nt : ℕ) (tol : ℝ) (ft : ℕ → ℕ → ℝ) : Prop :=
  ∃ o, (∀ prev, postOne N f U w h Nt tol prev = .ok o) ∧ IsReport N f U w h Nt o ∧ o.ft = ft

/-! ## Lemmas -/

theorem ts_sampled {h : List ℕ} (hA : Admissible h) {Nt : ℕ} (hNt : ∀ k ∈ h, 2*k + 1 < Nt) (heven : Even Nt) :
    ∃ cst : TS ℕ, timeSeriesDeriv Nt h eye 0 = .ok cst ∧ cst.rows = Nt ∧ ∀ (N : ℕ) (Q : ℕ → ℕ → ℝ) (U : ℕ → ℝ),
      timeSeriesDeriv Nt h (unlOf N Q U) 0 = .ok (sampledDisp N Q h U Nt) ∧
      ∃ v, timeSeriesDeriv Nt h (unlOf N Q U) 1 = .ok v ∧
        ∀ w : ℝ, (fun j d => w * v.val j d) = sampledVel N Q h U w Nt := by
  obtain ⟨cst, c1, c2, c3⟩ := ts_linear hA hNt heven (o := 0) (by omega)
  obtain ⟨sct, s1, s2, s3⟩ := ts_linear hA hNt heven (o := 1) le_rfl
  refine ⟨cst, c1, c2, fun N Q U => ?_⟩
  obtain ⟨x, x1, x2, x3, x4⟩ := c3 (unlOf N Q U)
  obtain ⟨y, y1, y2, y3, y4⟩ := s3 (unlOf N Q U)
  refine ⟨?_, y, y1, fun w => ?_⟩
  · rw [x1]
    cases x with
    | mk rows val =>
      simp only at x2 x4
      subst x2
      unfold sampledDisp
      congr 2
      funext j d
      rw [x4, iteratedDeriv_zero, localMotion_eq]
  · funext j d
    rw [y4, iteratedDeriv_one, localMotion_eq]
    rfl

/-- The loop body in terms of the value of `ft`. -/
theorem postOne_of {h : List ℕ} (hA : Admissible h) {Nt : ℕ} (hNt : ∀ k ∈ h, 2*k + 1 < Nt) (heven : Even Nt) :
    ∃ cst : TS ℕ, timeSeriesDeriv Nt h eye 0 = .ok cst ∧ cst.rows = Nt ∧
      ∀ (N : ℕ) (f : PForce) (U : ℕ → ℝ) (w tol : ℝ) (prev : Option (ℕ → ℕ → ℝ)),
      (∀ e, postFt f (unlOf N f.Q U) (sampledDisp N f.Q h U Nt) (sampledVel N f.Q h U w Nt) cst tol prev = .error e →
        postOne N f U w h Nt tol prev = .error e) ∧
      (∀ ft, postFt f (unlOf N f.Q U) (sampledDisp N f.Q h U Nt) (sampledVel N f.Q h U w Nt) cst tol prev = .ok ft →
        ∃ Fh, getFourierCoeff h ⟨Nt, ft⟩ = .ok Fh ∧
          postOne N f U w h Nt tol prev = .ok ⟨unlOf N f.Q U, sampledDisp N f.Q h U Nt, Fh, ft⟩ ∧
          ∀ k ∈ h, ∀ d, coefOf h (fun r => Fh r d) k = dft Nt (fun j => ft j d) k) := by
  obtain ⟨cst, c1, c2, c3⟩ := ts_sampled hA hNt heven
  obtain ⟨W, hW⟩ := gfc_linear hA (Nt := Nt) (fun k hk => by have := hNt k hk; omega)
  refine ⟨cst, c1, c2, fun N f U w tol prev => ?_⟩
  obtain ⟨x1, v, y1, y2⟩ := c3 N f.Q U
  constructor
  · intro e he
    unfold postOne
    simp only [x1, y1, c1, y2, he]
  · intro ft he
    obtain ⟨Fh, g1, -, g3⟩ := hW ft
    refine ⟨Fh, g1, ?_, g3⟩
    unfold postOne
    simp only [x1, y1, c1, y2, he]
    have : (sampledDisp N f.Q h U Nt).rows = Nt := rfl
    simp only [this, g1]

theorem reported_of {h : List ℕ} {Nt N : ℕ} {f : PForce} {U : ℕ → ℝ} {w tol : ℝ} {ft Fh : ℕ → ℕ → ℝ}
    (h1 : ∀ prev, postOne N f U w h Nt tol prev = .ok ⟨unlOf N f.Q U, sampledDisp N f.Q h U Nt, Fh, ft⟩)
    (h2 : ∀ k ∈ h, ∀ d, coefOf h (fun r => Fh r d) k = dft Nt (fun j => ft j d) k)
    (h3 : f.aftF U w h Nt = .ok (toGlobal N f.m f.T Fh)) : Reported N f U w h Nt tol ft := by
  refine ⟨_, h1, ⟨fun d => localMotion_eq N f.Q h U d, ⟨rfl, fun _ _ => rfl⟩, h2, _, h3, ?_⟩, rfl⟩
  intro r _ i hi
  rw [toGlobal_block _ _ hi]
  exact sum_congr rfl fun d _ => mul_comm _ _

/-- A force whose `aft` is built on the time series that the loop body finds. -/
theorem reported_of_ft {h : List ℕ} (hA : Admissible h) {Nt : ℕ} (hNt : ∀ k ∈ h, 2*k + 1 < Nt) (heven : Even Nt)
    {N : ℕ} {f : PForce} {U : ℕ → ℝ} {w tol : ℝ} {ft : ℕ → ℕ → ℝ}
    (h1 : ∀ cst prev, timeSeriesDeriv Nt h eye 0 = .ok cst →
      postFt f (unlOf N f.Q U) (sampledDisp N f.Q h U Nt) (sampledVel N f.Q h U w Nt) cst tol prev = .ok ft)
    (h2 : ∀ Fh, getFourierCoeff h ⟨Nt, ft⟩ = .ok Fh → f.aftF U w h Nt = .ok (toGlobal N f.m f.T Fh)) :
    Reported N f U w h Nt tol ft := by
  obtain ⟨cst, c1, c2, c3⟩ := postOne_of hA hNt heven
  obtain ⟨Fh, g1, -, g3⟩ := (c3 N f U w tol none).2 ft (h1 cst none c1)
  refine reported_of (Fh := Fh) (fun prev => ?_) g3 (h2 Fh g1)
  obtain ⟨Fh', g1', g2', -⟩ := (c3 N f U w tol prev).2 ft (h1 cst prev c1)
  rw [g1] at g1'
  obtain rfl := Except.ok.inj g1'
  exact g2'

theorem aftTail_F {N m : ℕ} {Q T : ℕ → ℕ → ℝ} {h : List ℕ} {Nt : ℕ} {ft : ℕ → ℕ → ℝ} {D : ℕ → ℕ → ℕ → ℕ → ℝ}
    {Fh : ℕ → ℕ → ℝ} (hg : getFourierCoeff h ⟨Nt, ft⟩ = .ok Fh) {out : AftOut}
    (ho : aftTail N m Q T h Nt Nt ft D = .ok out) : out.F = toGlobal N m T Fh := by
  unfold aftTail at ho
  rw [if_neg (by simp)] at ho
  simp only [hg] at ho
  split at ho
  · rename_i e1 e2
    cases e1
    cases ho
    rfl
  · cases ho
  · cases ho

theorem instAft_F {h : List ℕ} (hA : Admissible h) {Nt : ℕ} (hNt : ∀ k ∈ h, 2*k + 1 < Nt) (heven : Even Nt)
    {N m : ℕ} {Q T : ℕ → ℕ → ℝ} (lfh : (ℕ → ℕ → ℝ) → (ℕ → ℕ → ℝ) → LfhOut) (U : ℕ → ℝ) (w : ℝ) {Fh : ℕ → ℕ → ℝ}
    (hg : getFourierCoeff h ⟨Nt, (lfh (sampledDisp N Q h U Nt).val (sampledVel N Q h U w Nt)).ft⟩ = .ok Fh) :
    aftForce (instAft N m Q T lfh U w h Nt) = .ok (toGlobal N m T Fh) := by
  obtain ⟨W, B0, B1, H⟩ := instAft_ok hA hNt heven N m Q T
  obtain ⟨F, dFw, J, u, v, h1, -⟩ := H lfh U w
  obtain ⟨cst, c1, c2, c3⟩ := ts_sampled hA hNt heven
  obtain ⟨x1, y, y1, y2⟩ := c3 N Q U
  have h1' := h1
  unfold instAft at h1'
  simp only [x1, y1, c1] at h1'
  split at h1'
  · rename_i e1 e2 e3 e4
    cases e1; cases e2; cases e3
    rw [if_neg (by simp [c2])] at h1'
    have hr : (sampledDisp N Q h U Nt).rows = Nt := rfl
    simp only [y2, hr, hg] at h1'
    split at h1'
    · rename_i e1 e2 e3
      cases e1
      rw [h1]
      unfold aftForce
      have := congrArg AftOut.F (Except.ok.inj h1')
      simp only at this
      rw [← this]
    · cases h1'
    · cases h1'
    · cases h1'
  all_goals cases h1'

/-! ## C92: classes reported correctly -/

variable {h : List ℕ} (hA : Admissible h) {Nt : ℕ} (hNt : ∀ k ∈ h, 2*k + 1 < Nt) (heven : Even Nt)

include hA hNt heven

/-- C92: elementwise instantaneous forces, any tolerance: the reported time series is the force law along the motion. -/
theorem C92_instantaneous (N m : ℕ) (Q T : ℕ → ℕ → ℝ) (loc : ℕ → ℝ → ℝ → Loc) (U : ℕ → ℝ) (w tol : ℝ) :
    Reported N (.inst N m Q T loc) U w h Nt tol (fun j d => (loc d (localMotion N Q h U d (2 * Real.pi * j / Nt))
      (w * deriv (localMotion N Q h U d) (2 * Real.pi * j / Nt))).f) := by
  refine reported_of_ft hA hNt heven (fun cst prev _ => ?_) fun Fh hF => ?_
  · rfl
  · exact instAft_F hA hNt heven (elemLfh loc) U w hF

/-- C92: coupled polynomial forces. -/
theorem C92_polynomial (N m cnl : ℕ) (Q T E : ℕ → ℕ → ℝ) (qq : ℕ → ℕ → ℕ) (U : ℕ → ℝ) (w tol : ℝ) :
    Reported N (.poly N m cnl Q T E qq) U w h Nt tol (fun j d => ∑ c ∈ range cnl, E d c *
      ∏ e ∈ range m, (localMotion N Q h U e (2 * Real.pi * j / Nt))^(qq c e)) := by
  have e : (fun j => (genPolyLoc m cnl E qq ((sampledDisp N Q h U Nt).val j) (sampledVel N Q h U w Nt j)).1)
      = fun (j : ℕ) d => ∑ c ∈ range cnl, E d c *
        ∏ e ∈ range m, (localMotion N Q h U e (2 * Real.pi * j / Nt))^(qq c e) := by
    funext j d
    rw [(C22_local m cnl E qq _ _).1 d]
    rfl
  rw [← e]
  refine reported_of_ft hA hNt heven (fun cst prev _ => rfl) fun Fh hF => ?_
  obtain ⟨out, h1, -⟩ := C24_polynomial_is_dft h hA Nt hNt heven N m cnl Q T E qq U w
  obtain ⟨cst, c1, c2, c3⟩ := ts_sampled hA hNt heven
  obtain ⟨x1, y, y1, y2⟩ := c3 N Q U
  show aftForce (genPolyAft N m cnl Q T E qq U w h Nt) = _
  rw [h1]
  unfold genPolyAft at h1
  simp only [x1, y1, c1] at h1
  have hy : ∀ j, (fun d => w * y.val j d) = sampledVel N Q h U w Nt j := fun j => congrFun (y2 w) j
  simp only [hy] at h1
  exact congrArg Except.ok (aftTail_F hF h1)

/-- C92 (partial), NumPy hysteretic elements: if the convergence tolerance of the post-processing does not change the
history that is found, the report is correct and carries the history that AFT used; an exception of one is an exception
of the other. Missing: the tolerances differ by default, see `C92_violated`. -/
theorem C92_hysteretic_partial (N m : ℕ) (Q T : ℕ → ℕ → ℝ)
    (lfh : ℝ → TS ℕ → (ℕ → ℕ → ℝ) → TS ℕ → (ℕ → ℝ) → Except Err ((ℕ → ℕ → ℝ) × (ℕ → ℕ → ℕ → ℕ → ℝ)))
    (U : ℕ → ℝ) (w tol : ℝ)
    (htol : ∀ cst, timeSeriesDeriv Nt h eye 0 = .ok cst →
      fstOk (lfh tol (sampledDisp N Q h U Nt) (sampledVel N Q h U w Nt) cst (unlOf N Q U 0))
        = fstOk (lfh (1 / 10 ^ 10) (sampledDisp N Q h U Nt) (sampledVel N Q h U w Nt) cst (unlOf N Q U 0))) :
    ∃ cst : TS ℕ, timeSeriesDeriv Nt h eye 0 = .ok cst ∧
    match fstOk (lfh (1 / 10 ^ 10) (sampledDisp N Q h U Nt) (sampledVel N Q h U w Nt) cst (unlOf N Q U 0)) with
    | .ok ft => Reported N (.hyst N m Q T lfh) U w h Nt tol ft
    | .error e => (PForce.hyst N m Q T lfh).aftF U w h Nt = .error e ∧
        ∀ prev, postOne N (.hyst N m Q T lfh) U w h Nt tol prev = .error e := by
  obtain ⟨cst, c1, c2, c3⟩ := ts_sampled hA hNt heven
  obtain ⟨x1, y, y1, y2⟩ := c3 N Q U
  refine ⟨cst, c1, ?_⟩
  have key : hystAft N m Q T (lfh (1 / 10 ^ 10)) U w h Nt
      = match lfh (1 / 10 ^ 10) (sampledDisp N Q h U Nt) (sampledVel N Q h U w Nt) cst (unlOf N Q U 0) with
        | .ok (ft, dfduh) => aftTail N m Q T h Nt Nt ft dfduh
        | .error e => .error e := by
    unfold hystAft
    simp only [x1, y1, c1, y2]
    rfl
  have hpost : ∀ cst' prev, timeSeriesDeriv Nt h eye 0 = .ok cst' →
      postFt (.hyst N m Q T lfh) (unlOf N Q U) (sampledDisp N Q h U Nt) (sampledVel N Q h U w Nt) cst' tol prev
      = fstOk (lfh (1 / 10 ^ 10) (sampledDisp N Q h U Nt) (sampledVel N Q h U w Nt) cst (unlOf N Q U 0)) := by
    intro cst' prev hc
    obtain rfl : cst = cst' := Except.ok.inj (c1.symm.trans hc)
    exact htol cst c1
  cases hl : lfh (1 / 10 ^ 10) (sampledDisp N Q h U Nt) (sampledVel N Q h U w Nt) cst (unlOf N Q U 0) with
  | error e =>
    rw [hl] at key hpost
    refine ⟨congrArg aftForce key, fun prev => ?_⟩
    obtain ⟨cst', c1', -, c3'⟩ := postOne_of hA hNt heven
    exact (c3' N (.hyst N m Q T lfh) U w tol prev).1 e (hpost cst' prev c1')
  | ok o =>
    obtain ⟨ft, D⟩ := o
    rw [hl] at key hpost
    refine reported_of_ft hA hNt heven hpost fun Fh hF => ?_
    obtain ⟨W, H⟩ := aftTail_ok hA (Nt := Nt) (fun k hk => by have := hNt k hk; omega) N m Q T
    obtain ⟨F, J, h1, -⟩ := H ft D
    show aftForce (hystAft N m Q T (lfh (1 / 10 ^ 10)) U w h Nt) = _
    rw [key.trans h1]
    exact congrArg Except.ok (aftTail_F hF h1)

omit hA hNt heven in
/-- The history loop in closed form: one cycle, or two if the first one does not pass the checks. -/
theorem localForceHistory_closed {σ ι : Type} (m : HystOps σ ι) (rows : List (ℝ × (ι → ℝ))) (hr : rows ≠ [])
    (u0 : ℝ) (mr : ℕ) (atol rtol eps : ℝ) (ha : 0 ≤ atol) :
    localForceHistory m rows u0 mr atol rtol eps
      = if |lastForce (cycleRows m rows 0 (m.init u0)) - m.fp (m.init u0)| > atol ∧
          npRelGt |lastForce (cycleRows m rows 0 (m.init u0)) - m.fp (m.init u0)|
            (lastForce (cycleRows m rows 0 (m.init u0)) + eps) rtol ∧ 1 < mr
        then .ok (cycleRows m rows 1 (m.init u0), 2) else .ok (cycleRows m rows 0 (m.init u0), 1) := by
  rw [localForceHistory_eq m rows hr, hystLoop_start _ _ _ _ _ _ _ rfl, hystLoop]
  have hc : ((loopBody m rows atol rtol eps (loopInit m u0)).its = 0 ∨
      ((loopBody m rows atol rtol eps (loopInit m u0)).aGt ∧ (loopBody m rows atol rtol eps (loopInit m u0)).rGt ∧
        (loopBody m rows atol rtol eps (loopInit m u0)).its < mr)) ↔
      (|lastForce (cycleRows m rows 0 (m.init u0)) - m.fp (m.init u0)| > atol ∧
          npRelGt |lastForce (cycleRows m rows 0 (m.init u0)) - m.fp (m.init u0)|
            (lastForce (cycleRows m rows 0 (m.init u0)) + eps) rtol ∧ 1 < mr) := by
    constructor
    · rintro (h | h)
      · exact absurd h (by simp [loopBody])
      · exact h
    · exact fun h => Or.inr h
  by_cases hq : (|lastForce (cycleRows m rows 0 (m.init u0)) - m.fp (m.init u0)| > atol ∧
          npRelGt |lastForce (cycleRows m rows 0 (m.init u0)) - m.fp (m.init u0)|
            (lastForce (cycleRows m rows 0 (m.init u0)) + eps) rtol ∧ 1 < mr)
  · rw [if_pos hq, if_pos (hc.2 hq), hystLoop, if_neg]
    · rfl
    · rintro (h | h)
      · exact absurd h (by simp [loopBody])
      · have h1 := h.1
        simp only [loopBody, FpRef.get, sub_self, abs_zero, gt_iff_lt] at h1
        linarith
  · rw [if_neg hq, if_neg (fun h => hq (hc.1 h))]
    rfl

omit hA hNt heven in
/-- Only forces between the two tolerances tell them apart. -/
theorem serialLfh_tol {σ : Type} (ops : HystOps σ ℕ) (eps : ℝ) {a b : ℝ} (ha : 0 ≤ a) (hb : 0 ≤ b) (u : TS ℕ)
    (hu : 0 < u.rows) (v : ℕ → ℕ → ℝ) (c : TS ℕ) (z : ℕ → ℝ)
    (hgap : ∀ L, L = |lastForce (cycleRows ops ((List.range u.rows).map fun j => (u.val j 0, c.val j)) 0
      (ops.init (z 0))) - ops.fp (ops.init (z 0))| → (a < L ↔ b < L)) :
    serialLfh ops eps a u v c z = serialLfh ops eps b u v c z := by
  unfold serialLfh
  have hr : ((List.range u.rows).map fun j => (u.val j 0, c.val j)) ≠ [] := by simp; omega
  rw [localForceHistory_closed ops _ hr _ _ _ _ _ ha, localForceHistory_closed ops _ hr _ _ _ _ _ hb]
  have := hgap _ rfl
  simp only [gt_iff_lt, this]

omit hA hNt heven in
theorem serialLfh_of {σ : Type} {ops : HystOps σ ℕ} {eps atol z0 : ℝ} {u : TS ℕ} {v : ℕ → ℕ → ℝ} {c : TS ℕ}
    {z : ℕ → ℝ} {ft : List (ℝ × (ℕ → ℝ))} {its : ℕ} (hz : z 0 = z0)
    (h1 : localForceHistory ops ((List.range u.rows).map fun j => (u.val j 0, c.val j)) z0 2 atol (1 / 10 ^ 10) eps
      = .ok (ft, its)) :
    fstOk (serialLfh ops eps atol u v c z) = .ok (fun j _ => (ft.getD j (0, fun _ => 0)).1) := by
  unfold serialLfh
  rw [hz, h1]
  rfl

/-- C92, partial, serial Jenkins and Iwan elements (`ops` is either): correct whenever the force at the end of the
first cycle does not lie between the tolerance of AFT, `1e-10`, and the tolerance `tol` of the post-processing. -/
theorem C92_serial_partial {σ : Type} (ops : HystOps σ ℕ) (hfp : ∀ z, ops.fp (ops.init z) = 0) (N : ℕ)
    (Q T : ℕ → ℕ → ℝ) (eps : ℝ) (U : ℕ → ℝ) (w tol : ℝ) (htol : 0 ≤ tol)
    (hgap : ∀ cst : TS ℕ, timeSeriesDeriv Nt h eye 0 = .ok cst → ∀ L, L = |lastForce (cycleRows ops
      ((List.range Nt).map fun j : ℕ => (localMotion N Q h U 0 (2 * Real.pi * j / Nt), cst.val j)) 0
      (ops.init (∑ e ∈ range N, Q 0 e * U e)))| → (tol < L ↔ 1 / 10 ^ 10 < L)) :
    ∃ (cst : TS ℕ) (ft : List (ℝ × (ℕ → ℝ))) (its : ℕ), timeSeriesDeriv Nt h eye 0 = .ok cst ∧
      localForceHistory ops ((List.range Nt).map fun j : ℕ => (localMotion N Q h U 0 (2 * Real.pi * j / Nt), cst.val j))
        (∑ e ∈ range N, Q 0 e * U e) 2 (1 / 10 ^ 10) (1 / 10 ^ 10) eps = .ok (ft, its) ∧
      Reported N (.hyst N 1 Q T (serialLfh ops eps)) U w h Nt tol (fun j _ => (ft.getD j (0, fun _ => 0)).1) := by
  have e0 : unlOf N Q U 0 0 = ∑ e ∈ range N, Q 0 e * U e := by simp [unlOf, matMul]
  have hpos : 0 < Nt := by
    obtain ⟨k, hk⟩ := List.exists_mem_of_ne_nil h hA.ne
    have := hNt k hk
    omega
  obtain ⟨cst, c1, H⟩ := C92_hysteretic_partial hA hNt heven N 1 Q T (serialLfh ops eps) U w tol (fun cst hc => by
    rw [serialLfh_tol ops eps htol (by positivity : (0:ℝ) ≤ 1 / 10 ^ 10) _ hpos]
    intro L hL
    refine hgap cst hc L ?_
    rw [hL, hfp, sub_zero, e0]
    rfl)
  obtain ⟨ft, its, h1, -⟩ := C32_cycle_count ops
    ((List.range Nt).map fun j : ℕ => (localMotion N Q h U 0 (2 * Real.pi * j / Nt), cst.val j)) (by simp; omega)
    (∑ e ∈ range N, Q 0 e * U e) 2 (1 / 10 ^ 10) (1 / 10 ^ 10) eps
  refine ⟨cst, ft, its, c1, h1, ?_⟩
  have : fstOk (serialLfh ops eps (1 / 10 ^ 10) (sampledDisp N Q h U Nt) (sampledVel N Q h U w Nt) cst (unlOf N Q U 0))
      = .ok (fun j _ => (ft.getD j (0, fun _ => 0)).1) := by
    exact serialLfh_of e0 h1
  rw [this] at H
  exact H

/-- C92: vectorised elements ignore the tolerance, so their report is always the AFT history. -/
theorem C92_vectorised (N : ℕ) (Q T : ℕ → ℕ → ℝ)
    (hist : ℕ → (ℕ → ℝ) → (ℕ → ℕ → ℝ) → ℝ → Except Err ((ℕ → ℝ × (ℕ → ℝ)) × ℕ)) (U : ℕ → ℝ) (w tol : ℝ) :
    ∃ cst : TS ℕ, timeSeriesDeriv Nt h eye 0 = .ok cst ∧
    match hist Nt (fun j => localMotion N Q h U 0 (2 * Real.pi * j / Nt)) cst.val (∑ e ∈ range N, Q 0 e * U e) with
    | .ok (ft, _) => Reported N (.hyst N 1 Q T (vectorLfh hist)) U w h Nt tol (fun j _ => (ft j).1)
    | .error e => (PForce.hyst N 1 Q T (vectorLfh hist)).aftF U w h Nt = .error e := by
  have e0 : unlOf N Q U 0 0 = ∑ e ∈ range N, Q 0 e * U e := by simp [unlOf, matMul]
  obtain ⟨cst, c1, H⟩ := C92_hysteretic_partial hA hNt heven N 1 Q T (vectorLfh hist) U w tol (fun _ _ => rfl)
  refine ⟨cst, c1, ?_⟩
  have e1 : vectorLfh hist (1 / 10 ^ 10) (sampledDisp N Q h U Nt) (sampledVel N Q h U w Nt) cst (unlOf N Q U 0)
      = match hist Nt (fun j => localMotion N Q h U 0 (2 * Real.pi * j / Nt)) cst.val (∑ e ∈ range N, Q 0 e * U e) with
        | .error e => .error e
        | .ok (ft, _) => .ok (fun j _ => (ft j).1, fun j _ _ k => (ft j).2 k) := by
    unfold vectorLfh
    rw [e0]
    rfl
  rw [e1] at H
  cases hh : hist Nt (fun j => localMotion N Q h U 0 (2 * Real.pi * j / Nt)) cst.val (∑ e ∈ range N, Q 0 e * U e) with
  | error e =>
    rw [hh] at H
    exact H.1
  | ok p =>
    obtain ⟨ft, its⟩ := p
    rw [hh] at H
    exact H

omit hA hNt heven in
theorem jax_dofs (hh : 1 < numCoeff h) (m : ℕ) : (nhcRaw h * m + 1) / nhcRaw h = m := by
  rw [nhcRaw_eq, Nat.mul_add_div (by omega), Nat.div_eq_of_lt hh, add_zero]

/-- The JAX classes: `aft` uses the history `hist` of the sampled motion. -/
theorem jaxAft_F (hh : 1 < numCoeff h) (N m : ℕ) (Q T : ℕ → ℕ → ℝ) (hist : TS ℕ → (ℕ → ℝ) → ℕ → ℕ → ℝ) (U : ℕ → ℝ) {Fh : ℕ → ℕ → ℝ}
    (hF : getFourierCoeff h ⟨Nt, hist (sampledDisp N Q h U Nt) (unlOf N Q U 0)⟩ = .ok Fh) :
    jaxAft N m Q T hist U h Nt = .ok (toGlobal N m T Fh) := by
  obtain ⟨cst, c1, c2, c3⟩ := ts_sampled hA hNt heven
  obtain ⟨x1, -⟩ := c3 N Q U
  have hr : (sampledDisp N Q h U Nt).rows = Nt := rfl
  unfold jaxAft
  rw [if_neg (not_not.2 (jax_dofs hh m))]
  simp only [x1, hr, hF]

/-- C92: elastic dry friction with an array `u0` (as after `set_aft_initialize`), in 2D and 3D, any tolerance. -/
theorem C92_friction_array (hh : 1 < numCoeff h) (N m : ℕ) (Q T : ℕ → ℕ → ℝ) (kt kn mu gap : ℝ) (v : ℕ → ℝ) (U : ℕ → ℝ) (w tol : ℝ) :
    Reported N (.edf2 N m Q T kt kn mu gap (.array v)) U w h Nt tol
      (edf2History Nt (sampledDisp N Q h U Nt).val kt kn mu gap (fun e => v (2 * e))) ∧
    Reported N (.edf3 N m Q T kt kn mu gap (.array v)) U w h Nt tol
      (edf3History Nt (sampledDisp N Q h U Nt).val kt kn mu gap (fun j => v (3 * (j / 2) + j % 2))) := by
  constructor
  · refine reported_of_ft hA hNt heven (fun cst prev _ => rfl) fun Fh hF => ?_
    exact jaxAft_F hA hNt heven hh N m Q T
      (fun u z => edf2History u.rows u.val kt kn mu gap (edf2AftU0 (.array v) z)) U hF
  · refine reported_of_ft hA hNt heven (fun cst prev _ => rfl) fun Fh hF => ?_
    exact jaxAft_F hA hNt heven hh N m Q T
      (fun u z => edf3History u.rows u.val kt kn mu gap (edf3AftU0 (.array v) z)) U hF

/-- C92: rough contact, any starting position and tolerance: the reported series is the (finite) force history. -/
theorem C92_rough (hh : 1 < numCoeff h) (N : ℕ) (Q T : ℕ → ℕ → ℝ) (mt : Mat) (g : Asperities) (hE : 0 ≤ mt.Estar) (mu : ℝ) (u0 : ℕ → ℝ)
    (U : ℕ → ℝ) (w tol : ℝ) :
    ∃ ft, Reported N (.rough N Q T mt g mu u0) U w h Nt tol ft ∧
      ∀ t < Nt, ∀ d, roughHistory mt g Nt (sampledDisp N Q h U Nt).val u0 mu 2 t d = some (ft t d) := by
  refine ⟨fun t d => (roughHistory mt g Nt (sampledDisp N Q h U Nt).val u0 mu 2 t d).getD 0, ?_, ?_⟩
  · refine reported_of_ft hA hNt heven (fun cst prev _ => rfl) fun Fh hF => ?_
    exact jaxAft_F hA hNt heven hh N 3 Q T
      (fun u _ t d => (roughHistory mt g u.rows u.val u0 mu 2 t d).getD 0) U hF
  · intro t ht d
    obtain ⟨F, hF⟩ := C80_finite (u := (sampledDisp N Q h U Nt).val) (Nt := Nt) (m := mt) (g := g) hE u0 mu 1 t d ht
    have hF' : roughHistory mt g Nt (sampledDisp N Q h U Nt).val u0 mu 2 t d = some F := hF
    simp only [hF', Option.getD_some]

omit hA hNt heven in
theorem postLoop_reports {N : ℕ} {U : ℕ → ℝ} {w tol : ℝ} (fs : List PForce)
    (hf : ∀ f ∈ fs, ∃ ft, Reported N f U w h Nt tol ft) (prev : Option (ℕ → ℕ → ℝ)) :
    ∃ os, postLoop N U w h Nt tol prev fs = .ok os ∧
      List.Forall₂ (fun f o => IsReport N f U w h Nt o) fs os := by
  induction fs generalizing prev with
  | nil => exact ⟨[], rfl, .nil⟩
  | cons f fs ih =>
    obtain ⟨ft, o, h1, h2, -⟩ := hf f (by simp)
    obtain ⟨os, g1, g2⟩ := ih (fun g hg => hf g (by simp [hg])) (some o.ft)
    refine ⟨o :: os, ?_, .cons h2 g2⟩
    unfold postLoop
    simp only [h1, g1]

omit hNt heven in
/-- C92: one correct entry per force, in the order in which the forces were added, and their forces add up to the
nonlinear force of the harmonic balance residual. The forces `fs` are those of `S` (same `aft`). -/
theorem C92_total (S : VibSys) (fs : List PForce) (U : ℕ → ℝ) (w tol aftTol : ℝ)
    (hf : ∀ f ∈ fs, ∃ ft, Reported S.nd f U w h Nt tol ft)
    (hS : List.Forall₂ (fun (g : NLForce) f => ∃ a, g.aft U w h Nt aftTol = .ok a ∧ f.aftF U w h Nt = .ok a.F)
      S.forces fs) :
    ∃ os, localHarmonicForces S.nd fs U w h Nt tol = .ok os ∧
      List.Forall₂ (fun f o => IsReport S.nd f U w h Nt o) fs os ∧
      ∃ F g, totalAft S U w h Nt aftTol true = .ok ⟨F, some g⟩ ∧
        ∀ r < numCoeff h, ∀ i < S.nd, F (r * S.nd + i)
          = (List.zipWith (fun f o => ∑ d ∈ range f.m, f.T i d * o.Fh r d) fs os).sum := by
  obtain ⟨os, h1, h2⟩ := postLoop_reports fs hf none
  refine ⟨os, ?_, h2, ?_⟩
  · unfold localHarmonicForces
    rw [Nhc_ok hA.nodup]
    exact h1
  · have hA' : ∀ g ∈ S.forces, ∃ a, g.aft U w h Nt aftTol = .ok a := by
      intro g hg
      obtain ⟨i, hi, rfl⟩ := List.getElem_of_mem hg
      obtain ⟨a, ha, -⟩ := (List.forall₂_iff_get.1 hS).2 i hi (by rw [← hS.length_eq]; exact hi)
      exact ⟨a, ha⟩
    have : Nonempty AftOut := ⟨⟨fun _ => 0, fun _ _ => 0, fun _ => 0⟩⟩
    choose! A hAA using hA'
    obtain ⟨F, dU, dw, t1, t2, -⟩ := C26_sum S h hA.nodup U w Nt aftTol A hAA
    refine ⟨F, (dU, dw), t1, fun r hr i hi => ?_⟩
    rw [t2]
    have key : ∀ (gs : List NLForce) (fs : List PForce) (os : List LocalOut),
        (∀ g ∈ gs, g.aft U w h Nt aftTol = .ok (A g)) →
        List.Forall₂ (fun (g : NLForce) f => ∃ a, g.aft U w h Nt aftTol = .ok a ∧ f.aftF U w h Nt = .ok a.F) gs fs →
        List.Forall₂ (fun f o => IsReport S.nd f U w h Nt o) fs os →
        (gs.map fun g => (A g).F (r * S.nd + i)).sum
          = (List.zipWith (fun f o => ∑ d ∈ range f.m, f.T i d * o.Fh r d) fs os).sum := by
      intro gs
      induction gs with
      | nil =>
        intro fs os _ a b
        cases a; cases b
        rfl
      | cons g gs ih =>
        intro fs os hg a b
        cases a with
        | cons a1 a2 =>
          cases b with
          | cons b1 b2 =>
            rw [List.map_cons, List.sum_cons, List.zipWith_cons_cons, List.sum_cons,
              ih _ _ (fun g' hg' => hg g' (by simp [hg'])) a2 b2]
            congr 1
            obtain ⟨x, x1, x2⟩ := a1
            obtain ⟨y, y1, y2⟩ := b1.assembled
            rw [hg g (by simp)] at x1
            obtain rfl := Except.ok.inj x1
            rw [x2] at y1
            obtain rfl := Except.ok.inj y1
            exact y2 r hr i hi
    exact key _ _ _ hAA hS h2

/-! ## C92: where the report fails -/

/-- C92 is false for elastic dry friction with a scalar starting position (the default is `u0 = 0`) or `u0 = None`, and
for the JAX Jenkins element: `aft` works and the post-processing raises. -/
theorem C92_violated_raises (hh : 1 < numCoeff h) (N m : ℕ) (Q T : ℕ → ℕ → ℝ) (kt kn mu gap Fs x : ℝ) (u0 : EdfU0) (U : ℕ → ℝ) (w tol : ℝ)
    (prev : Option (ℕ → ℕ → ℝ)) :
    (∀ f ∈ [PForce.edf2 N m Q T kt kn mu gap (.scalar x), .edf2 N m Q T kt kn mu gap .none,
        .edf3 N m Q T kt kn mu gap (.scalar x), .edf3 N m Q T kt kn mu gap .none],
      postOne N f U w h Nt tol prev = .error .type ∧ ∃ F, f.aftF U w h Nt = .ok F) ∧
    postOne N (.jaxJenkins N Q T kt Fs u0) U w h Nt tol prev = .error .attribute ∧
    ∃ F, (PForce.jaxJenkins N Q T kt Fs u0).aftF U w h Nt = .ok F := by
  obtain ⟨cst, c1, c2, c3⟩ := postOne_of hA hNt heven
  obtain ⟨W, hW⟩ := gfc_linear hA (Nt := Nt) (fun k hk => by have := hNt k hk; omega)
  have hj : ∀ (m : ℕ) (hist : TS ℕ → (ℕ → ℝ) → ℕ → ℕ → ℝ), ∃ F, jaxAft N m Q T hist U h Nt = .ok F := by
    intro m hist
    obtain ⟨Fh, g1, -⟩ := hW (hist (sampledDisp N Q h U Nt) (unlOf N Q U 0))
    exact ⟨_, jaxAft_F hA hNt heven hh N m Q T hist U g1⟩
  refine ⟨fun f hf => ?_, (c3 N _ U w tol prev).1 _ rfl, by
    simp only [PForce.jaxJenkins]
    exact hj _ _⟩
  simp only [List.mem_cons, List.not_mem_nil, or_false] at hf
  rcases hf with rfl | rfl | rfl | rfl
  all_goals exact ⟨(c3 N _ U w tol prev).1 _ rfl, by
    simp only [PForce.edf2, PForce.edf3]
    exact hj _ _⟩

/-- C92: a force type other than 0 and 1 is reported with the time series of the previous force (or a `NameError`). -/
theorem C92_violated_other_type (N : ℕ) (f : PForce) (hf0 : f.ftype ≠ 0) (hf1 : f.ftype ≠ 1) (U : ℕ → ℝ) (w tol : ℝ) :
    postOne N f U w h Nt tol none = .error .name ∧
    ∀ ft, ∃ o, postOne N f U w h Nt tol (some ft) = .ok o ∧ o.ft = ft := by
  obtain ⟨cst, c1, c2, c3⟩ := postOne_of hA hNt heven
  refine ⟨(c3 N f U w tol none).1 _ ?_, fun ft => ?_⟩
  · unfold postFt
    rw [if_neg hf0, if_neg hf1]
  · obtain ⟨Fh, -, g2, -⟩ := (c3 N f U w tol (some ft)).2 ft (by unfold postFt; rw [if_neg hf0, if_neg hf1])
    exact ⟨_, g2, rfl⟩

/-! ### The tolerance -/

omit hA hNt heven

/-- Amplitude of the counterexample. -/
def tolA : ℝ := (1 + 1 / 10 ^ 8) * (2 + √2)

/-- Its samples: `A sin(π j / 4)`. -/
def tolB : ℝ := (1 + 1 / 10 ^ 8) * (√2 + 1)

/-- The coefficients: only the sine of the first harmonic. -/
def tolU : ℕ → ℝ := fun r => if r = 2 then tolA else 0

/-- A one by one identity. -/
def one1 : ℕ → ℕ → ℝ := fun _ _ => 1

theorem tol_bounds : (1:ℝ) < √2 ∧ √2 * √2 = 2 := ⟨by
  rw [Real.lt_sqrt (by norm_num)]; norm_num, Real.mul_self_sqrt (by norm_num)⟩

theorem tol_samples : (List.range 8).map (fun j : ℕ => localMotion 1 one1 [0, 1] tolU 0 (2 * Real.pi * j / (8:ℕ)))
    = [0, tolB, tolA, tolB, 0, -tolB, -tolA, -tolB] := by
  have hl : ∀ τ, localMotion 1 one1 [0, 1] tolU 0 τ = tolA * Real.sin τ := by
    intro τ
    simp [localMotion, one1, series, tolU]
  have hs : tolA * (√2 / 2) = tolB := by
    unfold tolA tolB
    have := tol_bounds.2
    linear_combination (1 + 1 / 10 ^ 8) / 2 * this
  have e : ∀ j : ℕ, 2 * Real.pi * j / (8:ℕ) = j * (Real.pi / 4) := fun j => by push_cast; ring
  have s0 : Real.sin (2 * (Real.pi / 4)) = 1 := by
    rw [show 2 * (Real.pi / 4) = Real.pi / 2 by ring, Real.sin_pi_div_two]
  have s3 : Real.sin (3 * (Real.pi / 4)) = √2 / 2 := by
    rw [show 3 * (Real.pi / 4) = Real.pi - Real.pi / 4 by ring, Real.sin_pi_sub, Real.sin_pi_div_four]
  have s4 : Real.sin (4 * (Real.pi / 4)) = 0 := by
    rw [show 4 * (Real.pi / 4) = Real.pi by ring, Real.sin_pi]
  have s5 : Real.sin (5 * (Real.pi / 4)) = -(√2 / 2) := by
    rw [show 5 * (Real.pi / 4) = Real.pi / 4 + Real.pi by ring, Real.sin_add_pi, Real.sin_pi_div_four]
  have s6 : Real.sin (6 * (Real.pi / 4)) = -1 := by
    rw [show 6 * (Real.pi / 4) = Real.pi / 2 + Real.pi by ring, Real.sin_add_pi, Real.sin_pi_div_two]
  have s7 : Real.sin (7 * (Real.pi / 4)) = -(√2 / 2) := by
    rw [show 7 * (Real.pi / 4) = 3 * (Real.pi / 4) + Real.pi by ring, Real.sin_add_pi, s3]
  simp only [hl, e]
  simp only [List.range, List.range.loop, List.map, Nat.cast_zero, Nat.cast_one, Nat.cast_ofNat, zero_mul, one_mul,
    Real.sin_zero, mul_zero, Real.sin_pi_div_four, s0, s3, s4, s5, s6, s7, mul_neg, mul_one, hs]

theorem jl_pos {up fp u : ℝ} (h : 1 < u - up + fp) : (jenkinsLocal 1 1 up fp u).f = 1 := by
  unfold jenkinsLocal
  simp only [one_mul]
  rw [if_pos (by rw [gt_iff_lt, abs_of_pos (by linarith)]; exact h)]
  simp only [mul_one]
  exact Real.sign_of_pos (by linarith)

theorem jl_neg {up fp u : ℝ} (h : u - up + fp < -1) : (jenkinsLocal 1 1 up fp u).f = -1 := by
  unfold jenkinsLocal
  simp only [one_mul]
  rw [if_pos (by rw [gt_iff_lt, abs_of_neg (by linarith)]; linarith)]
  simp only [mul_one]
  exact Real.sign_of_neg (by linarith)

theorem jl_mid {up fp u x : ℝ} (hx : u - up + fp = x) (h1 : -1 ≤ x) (h2 : x ≤ 1) :
    (jenkinsLocal 1 1 up fp u).f = x := by
  unfold jenkinsLocal
  simp only [one_mul]
  rw [if_neg (by rw [gt_iff_lt, not_lt, abs_le]; rw [hx]; exact ⟨h1, h2⟩)]
  exact hx

/-- The first two cycles of the slider of the counterexample. -/
theorem tol_cycles (c : ℕ → ℕ → ℝ) :
    (cycleRows (jenkinsOps 1 1 unit0) ((List.range 8).map fun j : ℕ =>
      (localMotion 1 one1 [0, 1] tolU 0 (2 * Real.pi * j / (8:ℕ)), c j)) 0
      ((jenkinsOps 1 1 unit0).init 0)).map Prod.fst = [0, 1, 1, -(1/10^8), -1, -1, -1, 1/10^8] ∧
    (cycleRows (jenkinsOps 1 1 unit0) ((List.range 8).map fun j : ℕ =>
      (localMotion 1 one1 [0, 1] tolU 0 (2 * Real.pi * j / (8:ℕ)), c j)) 1
      ((jenkinsOps 1 1 unit0).init 0)).map Prod.fst = [1, 1, 1, -(1/10^8), -1, -1, -1, 1/10^8] := by
  have hs := tol_samples
  simp only [List.range, List.range.loop, List.map, List.cons.injEq, and_true] at hs
  obtain ⟨t0, t1, t2, t3, t4, t5, t6, t7⟩ := hs
  have hb := tol_bounds.1
  have hB : 1 + 1 < tolB := by unfold tolB; nlinarith
  have hAB : tolA = tolB + 1 + 1 / 10 ^ 8 := by unfold tolA tolB; ring
  have e0 : (jenkinsLocal 1 1 0 0 0).f = 0 := jl_mid (by ring) (by norm_num) (by norm_num)
  have e1 : (jenkinsLocal 1 1 0 0 tolB).f = 1 := jl_pos (by linarith)
  have e1' : (jenkinsLocal 1 1 0 1 tolB).f = 1 := jl_pos (by linarith)
  have e2 : (jenkinsLocal 1 1 tolB 1 tolA).f = 1 := jl_pos (by rw [hAB]; norm_num; linarith)
  have e3 : (jenkinsLocal 1 1 tolA 1 tolB).f = -(1/10^8) := jl_mid (by rw [hAB]; ring) (by norm_num) (by norm_num)
  have e4 : (jenkinsLocal 1 1 tolB (-(1/10^8)) 0).f = -1 := jl_neg (by norm_num at hB ⊢; linarith)
  have e5 : (jenkinsLocal 1 1 0 (-1) (-tolB)).f = -1 := jl_neg (by linarith)
  have e6 : (jenkinsLocal 1 1 (-tolB) (-1) (-tolA)).f = -1 := jl_neg (by rw [hAB]; norm_num; linarith)
  have e7 : (jenkinsLocal 1 1 (-tolA) (-1) (-tolB)).f = 1/10^8 := jl_mid (by rw [hAB]; ring) (by norm_num) (by norm_num)
  have e8 : (jenkinsLocal 1 1 (-tolB) (1/10^8) 0).f = 1 := jl_pos (by norm_num at hB ⊢; linarith)
  constructor
  · simp only [cycleRows, cycleState, List.range, List.range.loop, List.map, onePass, jenkinsOps, jenkinsStep,
      t0, t1, t2, t3, t4, t5, t6, t7, e0, e1, e2, e3, e4, e5, e6, e7]
  · simp only [cycleRows, cycleState, List.range, List.range.loop, List.map, onePass, jenkinsOps, jenkinsStep,
      t0, t1, t2, t3, t4, t5, t6, t7, e0, e1, e1', e2, e3, e4, e5, e6, e7, e8]

theorem sum_getD_fst (l : List (ℝ × (ℕ → ℝ))) :
    ∑ j ∈ range 8, (l.getD j (0, fun _ => 0)).1 = ∑ j ∈ range 8, (l.map Prod.fst).getD j 0 := by
  refine sum_congr rfl fun j _ => ?_
  rw [List.getD_eq_getElem?_getD, List.getD_eq_getElem?_getD, List.getElem?_map]
  cases l[j]? <;> rfl

/-- C92 is false with the default tolerances (`1e-7` in the post-processing, `1e-10` in AFT): a Jenkins element with
`kt = Fs = 1` and amplitude `(1 + 1e-8)(2 + √2)`. AFT runs two cycles and its force has mean zero; the reported
coefficients are those of the first cycle, with mean `-1/8`. -/
theorem C92_violated (eps : ℝ) (he : 0 < eps) (he1 : eps < 1) (w : ℝ) :
    ∃ o F, (∀ prev, postOne 1 (.jenkins 1 one1 one1 1 1 eps) tolU w [0, 1] 8 (1 / 10 ^ 7) prev = .ok o) ∧
      (PForce.jenkins 1 one1 one1 1 1 eps).aftF tolU w [0, 1] 8 = .ok F ∧
      o.Fh 0 0 = -(1/8) ∧ F 0 = 0 ∧ ¬ IsReport 1 (.jenkins 1 one1 one1 1 1 eps) tolU w [0, 1] 8 o := by
  have hA : Admissible [0, 1] := ⟨by simp, by simp, by simp⟩
  have hNt : ∀ k ∈ [0, 1], 2 * k + 1 < 8 := by simp
  have hev : Even 8 := ⟨4, rfl⟩
  obtain ⟨cst, c1, c2, c3⟩ := postOne_of hA hNt hev
  set rows := (List.range 8).map fun j : ℕ =>
    (localMotion 1 one1 [0, 1] tolU 0 (2 * Real.pi * j / (8:ℕ)), cst.val j) with hrows
  have hr : rows ≠ [] := by simp [hrows, List.range, List.range.loop]
  obtain ⟨C0, C1⟩ := tol_cycles cst.val
  have hz : unlOf 1 one1 tolU 0 0 = 0 := by simp [unlOf, matMul, one1, tolU]
  have hlast : lastForce (cycleRows (jenkinsOps 1 1 unit0) rows 0 ((jenkinsOps 1 1 unit0).init 0)) = 1 / 10 ^ 8 := by
    rw [lastForce_eq_getLast, C0]
    rfl
  have hfp : (jenkinsOps 1 1 unit0).fp ((jenkinsOps 1 1 unit0).init 0) = 0 := rfl
  have L7 : localForceHistory (jenkinsOps 1 1 unit0) rows 0 2 (1 / 10 ^ 7) (1 / 10 ^ 10) eps
      = .ok (cycleRows (jenkinsOps 1 1 unit0) rows 0 ((jenkinsOps 1 1 unit0).init 0), 1) := by
    rw [localForceHistory_closed _ _ hr _ _ _ _ _ (by norm_num), if_neg]
    rw [hlast, hfp]
    rintro ⟨h1, -⟩
    norm_num at h1
  have L10 : localForceHistory (jenkinsOps 1 1 unit0) rows 0 2 (1 / 10 ^ 10) (1 / 10 ^ 10) eps
      = .ok (cycleRows (jenkinsOps 1 1 unit0) rows 1 ((jenkinsOps 1 1 unit0).init 0), 2) := by
    rw [localForceHistory_closed _ _ hr _ _ _ _ _ (by norm_num), if_pos]
    rw [hlast, hfp]
    refine ⟨by norm_num, ?_, by norm_num⟩
    unfold npRelGt
    rw [if_neg (by positivity), sub_zero, abs_of_pos (by norm_num : (0:ℝ) < 1 / 10 ^ 8), gt_iff_lt,
      abs_of_pos (by positivity), lt_div_iff₀ (by positivity)]
    norm_num
    linarith
  set ft7 : ℕ → ℕ → ℝ := fun j _ => ((cycleRows (jenkinsOps 1 1 unit0) rows 0
    ((jenkinsOps 1 1 unit0).init 0)).getD j (0, fun _ => 0)).1 with h7
  set ft10 : ℕ → ℕ → ℝ := fun j _ => ((cycleRows (jenkinsOps 1 1 unit0) rows 1
    ((jenkinsOps 1 1 unit0).init 0)).getD j (0, fun _ => 0)).1 with h10
  have s7 : ∀ (p : Option (ℕ → ℕ → ℝ)), postFt (.jenkins 1 one1 one1 1 1 eps) (unlOf 1 one1 tolU)
      (sampledDisp 1 one1 [0, 1] tolU 8) (sampledVel 1 one1 [0, 1] tolU w 8) cst (1 / 10 ^ 7) p = .ok ft7 := by
    intro p
    exact serialLfh_of (u := sampledDisp 1 one1 [0, 1] tolU 8) (v := sampledVel 1 one1 [0, 1] tolU w 8) hz L7
  obtain ⟨cst', c1', R⟩ := C92_hysteretic_partial hA hNt hev 1 1 one1 one1 (serialLfh (jenkinsOps 1 1 unit0) eps)
    tolU w (1 / 10 ^ 10) (fun _ _ => rfl)
  obtain rfl : cst = cst' := Except.ok.inj (c1.symm.trans c1')
  have s10 : fstOk (serialLfh (jenkinsOps 1 1 unit0) eps (1 / 10 ^ 10) (sampledDisp 1 one1 [0, 1] tolU 8)
      (sampledVel 1 one1 [0, 1] tolU w 8) cst (unlOf 1 one1 tolU 0)) = .ok ft10 := by
    exact serialLfh_of (u := sampledDisp 1 one1 [0, 1] tolU 8) hz L10
  rw [s10] at R
  obtain ⟨o10, -, ⟨-, -, f10, F, hF, hFa⟩, ho10⟩ := R
  have m10 : F 0 = 0 := by
    have h1 := hFa 0 (by simp [numCoeff]) 0 (by simp)
    have h2 := congrArg Prod.fst (f10 0 (by simp) 0)
    rw [ho10] at h2
    simp only [coefOf, dft, if_true, h10, sum_getD_fst] at h2
    rw [C1] at h2
    rw [show 0 * 1 + 0 = 0 from rfl] at h1
    rw [h1]
    have hm : (PForce.hyst 1 1 one1 one1 (serialLfh (jenkinsOps 1 1 unit0) eps)).m = 1 := rfl
    have hT : (PForce.hyst 1 1 one1 one1 (serialLfh (jenkinsOps 1 1 unit0) eps)).T = one1 := rfl
    rw [hm, hT, sum_range_one, h2]
    simp only [sum_range_succ, sum_range_zero, List.getD_cons_zero, List.getD_cons_succ, one1]
    norm_num
  obtain ⟨Fh, g1, -, g3⟩ := (c3 1 (.jenkins 1 one1 one1 1 1 eps) tolU w (1 / 10 ^ 7) none).2 ft7 (s7 none)
  have m7 : Fh 0 0 = -(1/8) := by
    have h2 := congrArg Prod.fst (g3 0 (by simp) 0)
    simp only [coefOf, dft, if_true, h7, sum_getD_fst] at h2
    rw [C0] at h2
    rw [h2]
    simp only [sum_range_succ, sum_range_zero, List.getD_cons_zero, List.getD_cons_succ]
    norm_num
  refine ⟨⟨unlOf 1 one1 tolU, sampledDisp 1 one1 [0, 1] tolU 8, Fh, ft7⟩, F, fun prev => ?_, hF, m7, m10, ?_⟩
  · obtain ⟨Fh', g1', g2', -⟩ := (c3 1 (.jenkins 1 one1 one1 1 1 eps) tolU w (1 / 10 ^ 7) prev).2 ft7 (s7 prev)
    rw [g1] at g1'
    obtain rfl := Except.ok.inj g1'
    exact g2'
  · rintro ⟨-, -, -, F', hF', a⟩
    have hF2 : (PForce.jenkins 1 one1 one1 1 1 eps).aftF tolU w [0, 1] 8 = .ok F := hF
    rw [hF2] at hF'
    obtain rfl := Except.ok.inj hF'
    have h1 := a 0 (by simp [numCoeff]) 0 (by simp)
    rw [show 0 * 1 + 0 = 0 from rfl, m10] at h1
    have hm : (PForce.jenkins 1 one1 one1 1 1 eps).m = 1 := rfl
    have hT : (PForce.jenkins 1 one1 one1 1 1 eps).T = one1 := rfl
    rw [hm, hT, sum_range_one] at h1
    simp only [m7, one1] at h1
    norm_num at h1

/-- Example: a cubic spring `f = u³` on motion `cos τ`: 8 samples, the reported force at time zero is 1. -/
example : ∃ o, (∀ prev, postOne 1 (.inst 1 1 one1 one1 (fun _ u _ => ⟨u^3, 3*u^2, 0⟩))
      (fun r => if r = 1 then 1 else 0) 2 [0, 1] 8 (1 / 10 ^ 7) prev = .ok o) ∧
    IsReport 1 (.inst 1 1 one1 one1 (fun _ u _ => ⟨u^3, 3*u^2, 0⟩)) (fun r => if r = 1 then 1 else 0) 2 [0, 1] 8 o ∧
    o.ft 0 0 = 1 := by
  obtain ⟨o, h1, h2, h3⟩ := C92_instantaneous (h := [0, 1]) ⟨by simp, by simp, by simp⟩ (Nt := 8) (by simp) ⟨4, rfl⟩
    1 1 one1 one1 (fun _ u _ => ⟨u^3, 3*u^2, 0⟩) (fun r => if r = 1 then 1 else 0) 2 (1 / 10 ^ 7)
  refine ⟨o, h1, h2, ?_⟩
  rw [h3]
  simp [localMotion, one1, series]

/-- Example: the same spring in a system; its report gives the nonlinear force of the residual. -/
example (S : VibSys) (hn : S.nd = 1) (g : NLForce) (hS : S.forces = [g])
    (hg : g.aft = fun U w h Nt _ => instAft 1 1 one1 one1 (elemLfh fun _ u _ => ⟨u^3, 3*u^2, 0⟩) U w h Nt) :
    ∃ o F G, localHarmonicForces S.nd [.inst 1 1 one1 one1 (fun _ u _ => ⟨u^3, 3*u^2, 0⟩)]
        (fun r => if r = 1 then 1 else 0) 2 [0, 1] 8 (1 / 10 ^ 7) = .ok [o] ∧
      totalAft S (fun r => if r = 1 then 1 else 0) 2 [0, 1] 8 (1 / 10 ^ 7) true = .ok ⟨F, some G⟩ ∧ F 1 = o.Fh 1 0 := by
  have hA : Admissible [0, 1] := ⟨by simp, by simp, by simp⟩
  have hR := C92_instantaneous (h := [0, 1]) hA (Nt := 8) (by simp) ⟨4, rfl⟩
    1 1 one1 one1 (fun _ u _ => ⟨u^3, 3*u^2, 0⟩) (fun r => if r = 1 then 1 else 0) 2 (1 / 10 ^ 7)
  obtain ⟨os, h1, h2, F, G, h3, h4⟩ := C92_total hA (Nt := 8) S
    [.inst 1 1 one1 one1 (fun _ u _ => ⟨u^3, 3*u^2, 0⟩)] (fun r => if r = 1 then 1 else 0) 2 (1 / 10 ^ 7) (1 / 10 ^ 7)
    (by
      rw [hn]
      intro f hf
      rw [List.mem_singleton] at hf
      rw [hf]
      exact ⟨_, hR⟩)
    (by
      rw [hS]
      refine .cons ?_ .nil
      obtain ⟨o, -, r, -⟩ := hR
      obtain ⟨F, hF, -⟩ := r.assembled
      rw [hg]
      simp only [PForce.inst] at hF ⊢
      unfold aftForce at hF
      split at hF
      · rename_i a ha
        rw [ha]
        exact ⟨a, rfl, rfl⟩
      · cases hF)
  cases h2 with
  | cons a b =>
    cases b
    refine ⟨_, F, G, h1, h3, ?_⟩
    have := h4 1 (by simp [numCoeff]) 0 (by rw [hn]; norm_num)
    rw [hn] at this
    rw [show 1 = 1 * 1 + 0 from rfl, this]
    simp [PForce.inst, one1]

/-- Example: a Jenkins element at rest (zero coefficients) meets the hypothesis of `C92_serial_partial`. -/
example (eps : ℝ) (w : ℝ) : ∃ ft, Reported 1 (.jenkins 1 one1 one1 1 1 eps) (fun _ => 0) w [0, 1] 4 (1 / 10 ^ 7) ft := by
  obtain ⟨cst, ft, its, -, -, h3⟩ := C92_serial_partial (h := [0, 1]) ⟨by simp, by simp, by simp⟩ (Nt := 4) (by simp)
    ⟨2, rfl⟩ (jenkinsOps 1 1 unit0) (fun _ => rfl) 1 one1 one1 eps (fun _ => 0) w (1 / 10 ^ 7) (by norm_num) (by
      intro cst _ L hL
      have hl : ∀ τ, localMotion 1 one1 [0, 1] (fun _ => 0) 0 τ = 0 := by
        intro τ
        simp [localMotion, series]
      have e0 : (jenkinsLocal 1 1 0 0 0).f = 0 := jl_mid (by ring) (by norm_num) (by norm_num)
      have : L = 0 := by
        rw [hL, lastForce_eq_getLast]
        simp only [hl, mul_zero, sum_const_zero, cycleRows, cycleState, List.range, List.range.loop, List.map, onePass,
          jenkinsOps, jenkinsStep, e0]
        simp
      rw [this]
      norm_num)
  exact ⟨_, h3⟩

/-- C92: a list of harmonics with a repeated entry is rejected, whatever the forces. -/
theorem C92_rejects {h : List ℕ} (hn : ¬ h.Nodup) (N : ℕ) (fs : List PForce) (U : ℕ → ℝ) (w : ℝ) (Nt : ℕ) (tol : ℝ) :
    localHarmonicForces N fs U w h Nt tol = .error .assertion := by
  simp only [localHarmonicForces, C01_Nhc_rejects h hn]

/-- Example: harmonics `0, 1, 1` of a system without nonlinear forces. -/
example (U : ℕ → ℝ) (w : ℝ) : localHarmonicForces 1 [] U w [0, 1, 1] 8 0 = .error .assertion := C92_rejects (by decide) 1 [] U w 8 0

end

end TMD
