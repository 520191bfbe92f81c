import Verif.Lemmas.AFT
import Verif.Props.ForceLaws
import Verif.Props.Fourier
import Mathlib.Tactic.NormNum

/-!
# Properties C24, C25: alternating frequency-time method
-/

namespace TMD

open Spec Finset

noncomputable section

/-- The local displacement along the motion with global coefficients `U`:
`u_d(τ) = (Q x(τ))_d` where `x` is the Fourier series of `U`. -/
def localMotion (N : ℕ) (Q : ℕ → ℕ → ℝ) (h : List ℕ) (U : ℕ → ℝ) (d : ℕ) (τ : ℝ) : ℝ :=
  ∑ e ∈ range N, Q d e * series h (fun r => U (r*N + e)) τ

theorem localMotion_eq (N : ℕ) (Q : ℕ → ℕ → ℝ) (h : List ℕ) (U : ℕ → ℝ) (d : ℕ) :
    series h (fun r => unlOf N Q U r d) = localMotion N Q h U d := by
  funext τ
  unfold unlOf matMul localMotion
  rw [series_sum h (range N) (fun e r => Q d e * U (r*N + e)) τ]
  exact sum_congr rfl (fun e _ => series_smul h _ _ τ)

/-- The harmonic coefficients `F` (of DOF `i`) are the Fourier coefficients of the sampled force
`Σ_d T_id f_d`. -/
def IsForceDFT (N m : ℕ) (T : ℕ → ℕ → ℝ) (h : List ℕ) (Nt : ℕ) (f : ℕ → ℕ → ℝ) (F : ℕ → ℝ) : Prop :=
  ∀ i < N, ∀ k ∈ h, coefOf h (fun r => F (r*N + i)) k
    = dft Nt (fun j => ∑ d ∈ range m, T i d * f j d) k

theorem dft_linear (N : ℕ) (s : Finset ℕ) (a : ℕ → ℝ) (x : ℕ → ℕ → ℝ) (k : ℕ) :
    dft N (fun j => ∑ d ∈ s, a d * x j d) k
      = (∑ d ∈ s, a d * (dft N (fun j => x j d) k).1, ∑ d ∈ s, a d * (dft N (fun j => x j d) k).2) := by
  unfold dft
  by_cases hk : k = 0
  · simp only [hk, if_true, mul_zero, sum_const_zero, Prod.mk.injEq, and_true]
    rw [sum_comm, sum_div]
    exact sum_congr rfl (fun d _ => by rw [← mul_sum]; ring)
  · simp only [hk, if_false, Prod.mk.injEq]
    constructor
    all_goals
      rw [sum_congr rfl (fun j _ => sum_mul _ _ _), sum_comm, mul_sum]
      refine sum_congr rfl (fun d _ => ?_)
      rw [sum_congr rfl (fun j _ => mul_assoc _ _ _), ← mul_sum]; ring

theorem toGlobal_block {N m : ℕ} (T F : ℕ → ℕ → ℝ) {i : ℕ} (hi : i < N) (r : ℕ) :
    toGlobal N m T F (r*N + i) = ∑ d ∈ range m, F r d * T i d := by
  obtain ⟨e1, e2⟩ := mod_block (c := r) hi
  simp only [toGlobal, matMul, e1, e2]
  exact sum_congr rfl (fun d _ => mul_comm _ _)

theorem isForceDFT_of (N m : ℕ) (T : ℕ → ℕ → ℝ) (h : List ℕ) (Nt : ℕ) (f F : ℕ → ℕ → ℝ)
    (hF : ∀ k ∈ h, ∀ d, coefOf h (fun r => F r d) k = dft Nt (fun j => f j d) k) :
    IsForceDFT N m T h Nt f (toGlobal N m T F) := by
  intro i hi k hk
  have e : (fun r => toGlobal N m T F (r*N + i)) = fun r => ∑ d ∈ range m, F r d * T i d :=
    funext (fun r => toGlobal_block T F hi r)
  rw [e, coefOf_sum h (range m) (fun d => T i d) (fun d r => F r d) k, dft_linear]
  simp only [hF k hk, mul_comm]

/-! ## C24 -/

/-- C24: for an instantaneous force law the AFT coefficients are the discrete Fourier coefficients of
the force along the sampled motion (displacement `u`, velocity `ω u'`), mapped by `T`. -/
theorem C24_is_dft (h : List ℕ) (hA : Admissible h) (Nt : ℕ) (hNt : ∀ k ∈ h, 2*k + 1 < Nt)
    (heven : Even Nt) (N m : ℕ) (Q T : ℕ → ℕ → ℝ) (loc : ℕ → ℝ → ℝ → Loc) (U : ℕ → ℝ) (w : ℝ) :
    ∃ out, instAft N m Q T (elemLfh loc) U w h Nt = .ok out ∧
      IsForceDFT N m T h Nt (fun j d => (loc d (localMotion N Q h U d (2 * Real.pi * j / Nt))
        (w * deriv (localMotion N Q h U d) (2 * Real.pi * j / Nt))).f) out.F := by
  obtain ⟨W, B0, B1, H⟩ := instAft_ok hA hNt heven N m Q T
  obtain ⟨F, dFw, J, u, v, h1, -, h3, -, h5, -, h7, -, -⟩ := H (elemLfh loc) U w
  refine ⟨_, h1, ?_⟩
  have e : (elemLfh loc u v).ft = fun (j : ℕ) d => (loc d (localMotion N Q h U d (2 * Real.pi * j / Nt))
        (w * deriv (localMotion N Q h U d) (2 * Real.pi * j / Nt))).f := by
    funext j d
    simp only [elemLfh, h3, h5, localMotion_eq]
  rw [e] at h7
  exact isForceDFT_of N m T h Nt _ F h7

/-- C24: the same for the coupled polynomial force. -/
theorem C24_polynomial_is_dft (h : List ℕ) (hA : Admissible h) (Nt : ℕ) (hNt : ∀ k ∈ h, 2*k + 1 < Nt)
    (heven : Even Nt) (N m cnl : ℕ) (Q T E : ℕ → ℕ → ℝ) (qq : ℕ → ℕ → ℕ) (U : ℕ → ℝ) (w : ℝ) :
    ∃ out, genPolyAft N m cnl Q T E qq U w h Nt = .ok out ∧
      IsForceDFT N m T h Nt (fun j d => ∑ c ∈ range cnl, E d c *
        ∏ e ∈ range m, (localMotion N Q h U e (2 * Real.pi * j / Nt))^(qq c e)) out.F := by
  obtain ⟨cst, c1, c2, c3⟩ := ts_linear hA hNt heven (o := 0) (by omega)
  obtain ⟨sct, s1, s2, s3⟩ := ts_linear hA hNt heven (o := 1) le_rfl
  obtain ⟨x, x1, x2, x3, x4⟩ := c3 (unlOf N Q U)
  obtain ⟨y, y1, y2, y3, y4⟩ := s3 (unlOf N Q U)
  obtain ⟨W, H⟩ := aftTail_ok hA (Nt := Nt) (fun k hk => by have := hNt k hk; omega) N m Q T
  obtain ⟨F, J, h1, -, h3, -⟩ := H
    (fun j => (genPolyLoc m cnl E qq (x.val j) (fun d => w * y.val j d)).1)
    (fun j d e c => (genPolyLoc m cnl E qq (x.val j) (fun d => w * y.val j d)).2.1 d e * cst.val j c)
  have hk : genPolyAft N m cnl Q T E qq U w h Nt = aftTail N m Q T h Nt Nt
      (fun j => (genPolyLoc m cnl E qq (x.val j) (fun d => w * y.val j d)).1)
      (fun j d e c => (genPolyLoc m cnl E qq (x.val j) (fun d => w * y.val j d)).2.1 d e * cst.val j c) := by
    unfold genPolyAft
    simp only [x1, y1, c1, x2]
  refine ⟨_, hk.trans h1, ?_⟩
  · have e : (fun j => (genPolyLoc m cnl E qq (x.val j) (fun d => w * y.val j d)).1)
        = fun (j : ℕ) d => ∑ c ∈ range cnl, E d c *
        ∏ e ∈ range m, (localMotion N Q h U e (2 * Real.pi * j / Nt))^(qq c e) := by
      funext j d
      rw [(C22_local m cnl E qq _ _).1 d]
      have hx : ∀ e, x.val j e = localMotion N Q h U e (2 * Real.pi * j / Nt) := by
        intro e; rw [x4, iteratedDeriv_zero, localMotion_eq]
      simp only [hx]
    have h3' : ∀ k ∈ h, ∀ d, coefOf h (fun r => F r d) k = dft Nt (fun j =>
        (fun j => (genPolyLoc m cnl E qq (x.val j) (fun d => w * y.val j d)).1) j d) k := h3
    rw [e] at h3'
    exact isForceDFT_of N m T h Nt _ F h3'

/-- C24: a hysteretic force: the coefficients are those of whatever time series the history
evaluation returns for the sampled motion (with the sampled identity as gradient seed). -/
theorem C24_hysteretic_is_dft (h : List ℕ) (hA : Admissible h) (Nt : ℕ) (hNt : ∀ k ∈ h, 2*k + 1 < Nt)
    (heven : Even Nt) (N m : ℕ) (Q T : ℕ → ℕ → ℝ)
    (lfh : TS ℕ → (ℕ → ℕ → ℝ) → TS ℕ → (ℕ → ℝ) → Except Err ((ℕ → ℕ → ℝ) × (ℕ → ℕ → ℕ → ℕ → ℝ)))
    (U : ℕ → ℝ) (w : ℝ) :
    ∃ cst : TS ℕ, timeSeriesDeriv Nt h eye 0 = .ok cst ∧
    match lfh ⟨Nt, fun j d => localMotion N Q h U d (2 * Real.pi * j / Nt)⟩
        (fun j d => w * deriv (localMotion N Q h U d) (2 * Real.pi * j / Nt)) cst
        (fun d => ∑ e ∈ range N, Q d e * U e) with
    | .ok (ft, _) => ∃ out, hystAft N m Q T lfh U w h Nt = .ok out ∧ IsForceDFT N m T h Nt ft out.F
    | .error e => hystAft N m Q T lfh U w h Nt = .error e := by
  obtain ⟨cst, c1, c2, c3⟩ := ts_linear hA hNt heven (o := 0) (by omega)
  obtain ⟨sct, s1, s2, s3⟩ := ts_linear hA hNt heven (o := 1) le_rfl
  obtain ⟨x, x1, x2, x3, x4⟩ := c3 (unlOf N Q U)
  obtain ⟨y, y1, y2, y3, y4⟩ := s3 (unlOf N Q U)
  refine ⟨cst, c1, ?_⟩
  have ex : x = ⟨Nt, fun j d => localMotion N Q h U d (2 * Real.pi * j / Nt)⟩ := by
    cases x with
    | mk rows val =>
      simp only at x2 x4
      subst x2
      congr 1
      funext j d
      rw [x4, iteratedDeriv_zero, localMotion_eq]
  have ey : (fun j d => w * y.val j d)
      = fun (j : ℕ) d => w * deriv (localMotion N Q h U d) (2 * Real.pi * j / Nt) := by
    funext j d
    rw [y4, iteratedDeriv_one, localMotion_eq]
  have e0 : unlOf N Q U 0 = fun d => ∑ e ∈ range N, Q d e * U e := by
    funext d
    simp [unlOf, matMul]
  have key : hystAft N m Q T lfh U w h Nt
      = match lfh ⟨Nt, fun j d => localMotion N Q h U d (2 * Real.pi * j / Nt)⟩
        (fun j d => w * deriv (localMotion N Q h U d) (2 * Real.pi * j / Nt)) cst
        (fun d => ∑ e ∈ range N, Q d e * U e) with
        | .ok (ft, dfduh) => aftTail N m Q T h Nt Nt ft dfduh
        | .error e => .error e := by
    unfold hystAft
    simp only [x1, y1, c1]
    rw [ey, e0, ex]
    rfl
  cases hl : lfh ⟨Nt, fun j d => localMotion N Q h U d (2 * Real.pi * j / Nt)⟩
        (fun j d => w * deriv (localMotion N Q h U d) (2 * Real.pi * j / Nt)) cst
        (fun d => ∑ e ∈ range N, Q d e * U e) with
  | error e => rw [hl] at key; exact key
  | ok o =>
    obtain ⟨ft, D⟩ := o
    rw [hl] at key
    obtain ⟨W, H⟩ := aftTail_ok hA (Nt := Nt) (fun k hk => by have := hNt k hk; omega) N m Q T
    obtain ⟨F, J, h1, -, h3, -⟩ := H ft D
    exact ⟨_, key.trans h1, isForceDFT_of N m T h Nt ft F h3⟩

/-- C24: a linear local spring `k u` gives exactly `T k Q` on every harmonic block. -/
theorem C24_linear (h : List ℕ) (hA : Admissible h) (Nt : ℕ) (hNt : ∀ k ∈ h, 2*k + 1 < Nt)
    (heven : Even Nt) (N m : ℕ) (Q T : ℕ → ℕ → ℝ) (kk : ℕ → ℝ) (U : ℕ → ℝ) (w : ℝ) :
    ∃ out, instAft N m Q T (elemLfh (fun d u _ => ⟨kk d * u, kk d, 0⟩)) U w h Nt = .ok out ∧
      ∀ r < numCoeff h, ∀ i < N, out.F (r*N + i)
        = ∑ d ∈ range m, T i d * (kk d * ∑ e ∈ range N, Q d e * U (r*N + e)) := by
  obtain ⟨out, h1, h2⟩ := C24_is_dft h hA Nt hNt heven N m Q T (fun d u _ => ⟨kk d * u, kk d, 0⟩) U w
  refine ⟨out, h1, ?_⟩
  intro r hr i hi
  refine rows_of_coefOf hA.nodup (v := fun r => out.F (r*N + i))
    (c := fun r => ∑ d ∈ range m, T i d * (kk d * ∑ e ∈ range N, Q d e * U (r*N + e))) ?_ r hr
  intro k hk
  rw [h2 i hi k hk]
  have e : (fun j : ℕ => ∑ d ∈ range m, T i d * (kk d * localMotion N Q h U d (2 * Real.pi * j / Nt)))
      = fun j => series h (fun r => ∑ d ∈ range m, T i d * (kk d * ∑ e ∈ range N, Q d e * U (r*N + e)))
          (angle Nt j) := by
    funext j
    rw [series_sum h (range m) (fun d r => T i d * (kk d * ∑ e ∈ range N, Q d e * U (r*N + e)))]
    refine sum_congr rfl (fun d _ => ?_)
    rw [series_smul h, series_smul h, series_sum h (range N) (fun e r => Q d e * U (r*N + e))]
    congr 2
    unfold localMotion angle
    exact sum_congr rfl (fun e _ => (series_smul h _ _ _).symm)
  simp only at e ⊢
  rw [e, ← dftCoef_eq_dft]
  exact dftCoef_series (fun m hm => by have := hNt m hm; omega) (by have := hNt k hk; omega) hA.nodup _

/-- C24: an odd number of samples is rejected (the sampled identity has `Nt - 1` rows). -/
theorem C24_odd_rejected (h : List ℕ) (hA : Admissible h) (Nt : ℕ) (hNt : ∀ k ∈ h, 2*k + 1 < Nt)
    (hodd : ¬ Even Nt) (N m : ℕ) (Q T : ℕ → ℕ → ℝ) (lfh : (ℕ → ℕ → ℝ) → (ℕ → ℕ → ℝ) → LfhOut)
    (U : ℕ → ℝ) (w : ℝ) : instAft N m Q T lfh U w h Nt = .error .value := by
  obtain ⟨x, x1, -, -⟩ := timeSeriesDeriv_ok hA hNt (unlOf N Q U) 0
  obtain ⟨y, y1, -, -⟩ := timeSeriesDeriv_ok hA hNt (unlOf N Q U) 1
  obtain ⟨c, c1, c2, -⟩ := timeSeriesDeriv_ok hA hNt eye 0
  obtain ⟨s, s1, -, -⟩ := timeSeriesDeriv_ok hA hNt eye 1
  unfold instAft
  simp only [x1, y1, c1, s1]
  rw [if_pos]
  rw [c2]
  rw [Nat.not_even_iff_odd] at hodd
  obtain ⟨n, rfl⟩ := hodd
  omega

/-- Example: the hypotheses are satisfiable and the AFT of a non-zero motion is not trivial: with one
DOF, `h = [0, 1]`, `Nt = 8`, `k = 3`, `U = (1, 2, 0)` the result is `(3, 6, 0)`. -/
example : ∃ out, instAft 1 1 (fun _ _ => 1) (fun _ _ => 1) (elemLfh (fun _ u _ => ⟨3 * u, 3, 0⟩))
    (fun r => if r = 0 then 1 else if r = 1 then 2 else 0) 5 [0, 1] 8 = .ok out ∧
    out.F 0 = 3 ∧ out.F 1 = 6 ∧ out.F 2 = 0 := by
  obtain ⟨out, h1, h2⟩ := C24_linear [0, 1] ⟨by simp, by decide, by decide⟩ 8 (by decide) ⟨4, rfl⟩ 1 1
    (fun _ _ => 1) (fun _ _ => 1) (fun _ => 3) (fun r => if r = 0 then 1 else if r = 1 then 2 else 0) 5
  refine ⟨out, h1, ?_, ?_, ?_⟩
  · have := h2 0 (by decide) 0 (by decide); simpa using this
  · have := h2 1 (by decide) 0 (by decide); norm_num at this; exact this
  · have := h2 2 (by decide) 0 (by decide); norm_num at this; exact this

/-! ## C25 -/

/-- The local law `loc d` is differentiable at `(u, ud)` (as a function of two variables) and reports
its true partial derivatives there. -/
def LawDiff (loc : ℕ → ℝ → ℝ → Loc) (d : ℕ) (u ud : ℝ) : Prop :=
  HasFDerivAt (fun p : ℝ × ℝ => (loc d p.1 p.2).f)
    ((loc d u ud).dfdu • ContinuousLinearMap.fst ℝ ℝ ℝ
      + (loc d u ud).dfdud • ContinuousLinearMap.snd ℝ ℝ ℝ) (u, ud)

/-- C25: `dFnldU` is the true Jacobian of `Fnl` with respect to all harmonic coefficients, for every
law that is differentiable at the sampled points. -/
theorem C25_jacobian (h : List ℕ) (hA : Admissible h) (Nt : ℕ) (hNt : ∀ k ∈ h, 2*k + 1 < Nt)
    (heven : Even Nt) (N m : ℕ) (Q T : ℕ → ℕ → ℝ) (loc : ℕ → ℝ → ℝ → Loc) (w : ℝ) :
    ∃ out : (ℕ → ℝ) → AftOut, (∀ U, instAft N m Q T (elemLfh loc) U w h Nt = .ok (out U)) ∧
      ∀ U, (∀ d < m, ∀ j < Nt, LawDiff loc d (localMotion N Q h U d (2 * Real.pi * j / Nt))
          (w * deriv (localMotion N Q h U d) (2 * Real.pi * j / Nt))) →
        HasJac (numCoeff h * N) (numCoeff h * N) (fun U => (out U).F) (out U).dU U := by
  obtain ⟨W, B0, B1, H⟩ := instAft_ok hA hNt heven N m Q T
  choose F dFw J u v h1 h2 h3 h4 h5 h6 h7 h8 h9 using fun U => H (elemLfh loc) U w
  refine ⟨_, h1, ?_⟩
  intro U hlaw
  refine aft_core (numCoeff h) N m Nt Q T W (fun U => (elemLfh loc (u U) (v U)).ft)
    (fun j d e c => if d = e then (elemLfh loc (u U) (v U)).dfdu j d * B0 j c
            + (elemLfh loc (u U) (v U)).dfdud j d * (w * B1 j c) else 0) (J U) _ U ?_ ?_ ?_
  · intro U p hp
    obtain ⟨hp1, -⟩ := div_lt_block hp
    simp only [toGlobal, matMul]
    exact sum_congr rfl (fun d _ => by rw [h6 U _ hp1])
  · exact h8 U
  · intro j hj d hd
    have hu : HasGrad (numCoeff h * N) (fun U => u U j d)
        (fun q => B0 j (q/N) * Q d (q % N)) U :=
      (hasGrad_sample (numCoeff h) N Q (B0 j) d U).congr_fun (fun U => h2 U j d)
    have hv : HasGrad (numCoeff h * N) (fun U => v U j d)
        (fun q => w * (B1 j (q/N) * Q d (q % N))) U :=
      ((hasGrad_sample (numCoeff h) N Q (B1 j) d U).const_mul w).congr_fun (fun U => h4 U j d)
    have hl := hlaw d hd j hj
    rw [← localMotion_eq, ← h3, ← h5] at hl
    have := HasGrad.comp2 (φ := fun a b => (loc d a b).f) hu hv hl
    refine this.congr ?_
    intro q hq
    rw [sum_eq_single_of_mem d (mem_range.mpr hd)]
    · simp only [if_true, elemLfh]; ring
    · intro e _ he; simp [Ne.symm he]

/-- C25: for `w ≠ 0` `dFnldw` is the true derivative of `Fnl` with respect to the frequency. -/
theorem C25_frequency (h : List ℕ) (hA : Admissible h) (Nt : ℕ) (hNt : ∀ k ∈ h, 2*k + 1 < Nt)
    (heven : Even Nt) (N m : ℕ) (Q T : ℕ → ℕ → ℝ) (loc : ℕ → ℝ → ℝ → Loc) (U : ℕ → ℝ) :
    ∃ out : ℝ → AftOut, (∀ w, instAft N m Q T (elemLfh loc) U w h Nt = .ok (out w)) ∧
      ∀ w, w ≠ 0 → (∀ d < m, ∀ j < Nt, LawDiff loc d (localMotion N Q h U d (2 * Real.pi * j / Nt))
          (w * deriv (localMotion N Q h U d) (2 * Real.pi * j / Nt))) →
        ∀ p < numCoeff h * N, HasDerivAt (fun w => (out w).F p) ((out w).dw p) w := by
  obtain ⟨W, B0, B1, H⟩ := instAft_ok hA hNt heven N m Q T
  choose F dFw J u v h1 h2 h3 h4 h5 h6 h7 h8 h9 using fun w => H (elemLfh loc) U w
  refine ⟨_, h1, ?_⟩
  intro w hw hlaw p hp
  obtain ⟨hp1, -⟩ := div_lt_block hp
  have e1 : (fun w => toGlobal N m T (F w) p) = fun w => ∑ d ∈ range m, T (p % N) d *
      ∑ j ∈ range Nt, W (p/N) j * (loc d (localMotion N Q h U d (2 * Real.pi * j / Nt))
        (w * deriv (localMotion N Q h U d) (2 * Real.pi * j / Nt))).f := by
    funext w
    simp only [toGlobal, matMul]
    refine sum_congr rfl (fun d _ => ?_)
    rw [h6 w _ hp1]
    simp only [elemLfh, h3, h5, localMotion_eq]
  simp only [if_neg hw]
  rw [e1]
  have e2 : toGlobal N m T (dFw w) p = ∑ d ∈ range m, T (p % N) d *
      ∑ j ∈ range Nt, W (p/N) j * ((loc d (localMotion N Q h U d (2 * Real.pi * j / Nt))
        (w * deriv (localMotion N Q h U d) (2 * Real.pi * j / Nt))).dfdud
          * deriv (localMotion N Q h U d) (2 * Real.pi * j / Nt)) := by
    simp only [toGlobal, matMul]
    refine sum_congr rfl (fun d _ => ?_)
    rw [h9 w _ hp1]
    simp only [elemLfh, h3, h5, localMotion_eq]
    congr 1
    refine sum_congr rfl (fun j _ => ?_)
    field_simp
  rw [e2]
  apply HasDerivAt.fun_sum
  intro d hd
  apply HasDerivAt.const_mul
  apply HasDerivAt.fun_sum
  intro j hj
  apply HasDerivAt.const_mul
  have hl := hlaw d (mem_range.mp hd) j (mem_range.mp hj)
  set a := localMotion N Q h U d (2 * Real.pi * j / Nt)
  set b := deriv (localMotion N Q h U d) (2 * Real.pi * j / Nt)
  have hline : HasDerivAt (fun w : ℝ => ((a, w * b) : ℝ × ℝ)) (0, b) w :=
    (hasDerivAt_const w a).prodMk (by simpa using (hasDerivAt_id w).mul_const b)
  unfold LawDiff at hl
  have := HasFDerivAt.comp_hasDerivAt (l := fun p : ℝ × ℝ => (loc d p.1 p.2).f)
    (f := fun w : ℝ => ((a, w * b) : ℝ × ℝ)) w hl hline
  refine this.congr_deriv ?_
  simp

/-- C25: the coupled polynomial force; no differentiability hypothesis is needed. -/
theorem C25_polynomial_jacobian (h : List ℕ) (hA : Admissible h) (Nt : ℕ) (hNt : ∀ k ∈ h, 2*k + 1 < Nt)
    (heven : Even Nt) (N m cnl : ℕ) (Q T E : ℕ → ℕ → ℝ) (qq : ℕ → ℕ → ℕ) (w : ℝ) :
    ∃ out : (ℕ → ℝ) → AftOut, (∀ U, genPolyAft N m cnl Q T E qq U w h Nt = .ok (out U)) ∧
      ∀ U, HasJac (numCoeff h * N) (numCoeff h * N) (fun U => (out U).F) (out U).dU U := by
  obtain ⟨cst, c1, c2, c3⟩ := ts_linear hA hNt heven (o := 0) (by omega)
  obtain ⟨sct, s1, s2, s3⟩ := ts_linear hA hNt heven (o := 1) le_rfl
  obtain ⟨W, H⟩ := aftTail_ok hA (Nt := Nt) (fun k hk => by have := hNt k hk; omega) N m Q T
  choose x x1 x2 x3 x4 using fun U => c3 (unlOf N Q U)
  choose y y1 y2 y3 y4 using fun U => s3 (unlOf N Q U)
  choose F J h1 h2 h3 h4 using fun U => H
    (fun j => (genPolyLoc m cnl E qq ((x U).val j) (fun d => w * (y U).val j d)).1)
    (fun j d e c => (genPolyLoc m cnl E qq ((x U).val j) (fun d => w * (y U).val j d)).2.1 d e * cst.val j c)
  have hk : ∀ U, genPolyAft N m cnl Q T E qq U w h Nt = aftTail N m Q T h Nt Nt
      (fun j => (genPolyLoc m cnl E qq ((x U).val j) (fun d => w * (y U).val j d)).1)
      (fun j d e c => (genPolyLoc m cnl E qq ((x U).val j) (fun d => w * (y U).val j d)).2.1 d e * cst.val j c) := by
    intro U
    unfold genPolyAft
    simp only [x1 U, y1 U, c1, x2 U]
  refine ⟨_, fun U => (hk U).trans (h1 U), ?_⟩
  · intro U
    refine aft_core (numCoeff h) N m Nt Q T W
      (fun U j => (genPolyLoc m cnl E qq ((x U).val j) (fun d => w * (y U).val j d)).1)
      (fun j d e c => (genPolyLoc m cnl E qq ((x U).val j) (fun d => w * (y U).val j d)).2.1 d e * cst.val j c)
      (J U) _ U ?_ (h4 U) ?_
    · intro U p hp
      obtain ⟨hp1, -⟩ := div_lt_block hp
      simp only [toGlobal, matMul]
      exact sum_congr rfl (fun d _ => by rw [h2 U _ hp1])
    · intro j hj d hd
      have hu : ∀ k < m, HasGrad (numCoeff h * N) (fun U => (x U).val j k)
          (fun q => cst.val j (q/N) * Q k (q % N)) U :=
        fun k _ => (hasGrad_sample (numCoeff h) N Q (cst.val j) k U).congr_fun (fun U => x3 U j k)
      have hφ := (C22_local m cnl E qq ((x U).val j) (fun d => w * (y U).val j d)).2.1 m d hd
      have hφ' : HasGrad m (fun a => ∑ c ∈ range cnl, polyProd m (qq c) a * E d c)
          ((genPolyLoc m cnl E qq ((x U).val j) (fun d => w * (y U).val j d)).2.1 d) ((x U).val j) := hφ
      have := HasGrad.comp_vec (Y := fun U => (x U).val j) hφ'
        (fun a b hab => sum_congr rfl (fun c _ => by rw [polyProd_congr m (qq c) a b hab])) hu
      refine this.congr ?_
      intro q hq
      exact sum_congr rfl (fun e _ => by ring)

/-- C25: the hysteretic AFT assembles a true Jacobian from a true time-domain gradient: if every
returned force sample `ft[t, d]`, as a function of the harmonic coefficients, has the gradient
`Σ_e dfduh[t, d, e, ·] Q_e`, then `dFnldU` is the Jacobian of `Fnl`. -/
theorem C25_hysteretic_assembly (h : List ℕ) (hA : Admissible h) (Nt : ℕ) (hNt : ∀ k ∈ h, 2*k + 1 < Nt)
    (heven : Even Nt) (N m : ℕ) (Q T : ℕ → ℕ → ℝ)
    (lfh : TS ℕ → (ℕ → ℕ → ℝ) → TS ℕ → (ℕ → ℝ) → Except Err ((ℕ → ℕ → ℝ) × (ℕ → ℕ → ℕ → ℕ → ℝ)))
    (w : ℝ) (cst : TS ℕ) (hc : timeSeriesDeriv Nt h eye 0 = .ok cst)
    (ft : (ℕ → ℝ) → ℕ → ℕ → ℝ) (D : (ℕ → ℝ) → ℕ → ℕ → ℕ → ℕ → ℝ)
    (hl : ∀ U, lfh ⟨Nt, fun j d => localMotion N Q h U d (2 * Real.pi * j / Nt)⟩
        (fun j d => w * deriv (localMotion N Q h U d) (2 * Real.pi * j / Nt)) cst
        (fun d => ∑ e ∈ range N, Q d e * U e) = .ok (ft U, D U)) :
    ∃ out : (ℕ → ℝ) → AftOut, (∀ U, hystAft N m Q T lfh U w h Nt = .ok (out U)) ∧
      ∀ U, (∀ j < Nt, ∀ d < m, HasGrad (numCoeff h * N) (fun U => ft U j d)
          (fun q => ∑ e ∈ range m, D U j d e (q / N) * Q e (q % N)) U) →
        HasJac (numCoeff h * N) (numCoeff h * N) (fun U => (out U).F) (out U).dU U := by
  obtain ⟨cst', c1, c2, c3⟩ := ts_linear hA hNt heven (o := 0) (by omega)
  obtain ⟨sct, s1, s2, s3⟩ := ts_linear hA hNt heven (o := 1) le_rfl
  obtain rfl : cst = cst' := by rw [hc] at c1; exact Except.ok.inj c1
  obtain ⟨W, H⟩ := aftTail_ok hA (Nt := Nt) (fun k hk => by have := hNt k hk; omega) N m Q T
  choose F J h1 h2 h3 h4 using fun U => H (ft U) (D U)
  have hk : ∀ U, hystAft N m Q T lfh U w h Nt = aftTail N m Q T h Nt Nt (ft U) (D U) := by
    intro U
    obtain ⟨x, x1, x2, x3, x4⟩ := c3 (unlOf N Q U)
    obtain ⟨y, y1, y2, y3, y4⟩ := s3 (unlOf N Q U)
    have ex : x = ⟨Nt, fun j d => localMotion N Q h U d (2 * Real.pi * j / Nt)⟩ := by
      cases x with
      | mk rows val =>
        simp only at x2 x4
        subst x2
        congr 1
        funext j d
        rw [x4, iteratedDeriv_zero, localMotion_eq]
    have ey : (fun j d => w * y.val j d)
        = fun (j : ℕ) d => w * deriv (localMotion N Q h U d) (2 * Real.pi * j / Nt) := by
      funext j d
      rw [y4, iteratedDeriv_one, localMotion_eq]
    have e0 : unlOf N Q U 0 = fun d => ∑ e ∈ range N, Q d e * U e := by
      funext d
      simp [unlOf, matMul]
    unfold hystAft
    simp only [x1, y1, c1]
    rw [ey, e0, ex, hl U]
  refine ⟨_, fun U => (hk U).trans (h1 U), ?_⟩
  · intro U hg
    refine aft_core (numCoeff h) N m Nt Q T W ft (D U) (J U) _ U ?_ (h4 U) hg
    intro U p hp
    obtain ⟨hp1, -⟩ := div_lt_block hp
    simp only [toGlobal, matMul]
    exact sum_congr rfl (fun d _ => by rw [h2 U _ hp1])

end

end TMD
