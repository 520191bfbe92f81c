import Verif.Props.SolverConverges
import Verif.Props.Residual
import Verif.Lemmas.System

/-!
# C130: harmonic balance of a linear system with the parallel solver
-/

namespace TMD

open Spec Finset

variable {L : Type} {inf : ℝ}

/-- The function handed to the solver for harmonic balance at a fixed frequency, as in the examples of the project:
`lambda U, calc_grad : vib_sys.hbm_res(np.hstack((U, w)), Fl, h, Nt, tol, calc_grad)[0:2]` (tests/test_hbm.py, `initial_fun`). -/
noncomputable def hbmAt (S : VibSys) (w : ℝ) (Fl : ℕ → ℝ) (h : List ℕ) (Nt : ℕ) (tol : ℝ) (n : ℕ) :
    SolveFun (Fin n → ℝ) (Matrix (Fin n) (Fin n) ℝ) := fun X g =>
  match hbmRes S (hcat n (ext X) fun _ => w) Fl h Nt tol g with
  | .error e => .error e
  | .ok o => .ok (fun i => o.R i, fun i j => match o.grad with
    | some g => g.1 i j
    | none => 0)

/-- C130: harmonic balance for a linear system: if only rest is a free vibration in the harmonics of the list, the solver finds the
response to every force from every start, exactly and in at most two iterations. -/
theorem C130_linear (S : VibSys) (hS : S.forces = []) {h : List ℕ} (hh : Admissible h) {n : ℕ} (hn : n = numCoeff h * S.nd) (Nt : ℕ) (tol : ℝ) {w : ℝ} (hw : w ≠ 0) (Fl : ℕ → ℝ)
    {fac : Matrix (Fin n) (Fin n) ℝ → L}
    {sol : L → (Fin n → ℝ) → (Fin n → ℝ)} (hsol : ExactSolve fac sol) {c : OmpConfig ℝ}
    (hc : PlainNewton c) (hm : 2 ≤ c.maxSteps)
    (hfree : ∀ U : ℕ → ℝ, (∀ d < S.nd, ∀ t : ℝ, let x : ℕ → ℝ → ℝ := fun e t => series h (fun r => U (r * S.nd + e)) (w * t)
      ∑ e ∈ range S.nd, (S.M d e * deriv (deriv (x e)) t + S.C d e * deriv (x e) t + S.K d e * x e t) = 0) →
      ∀ i < n, U i = 0) (X0 : Fin n → ℝ) (xtol : Option ℝ)
    (ht : 0 < effectiveXtol (realArith n inf fac sol) c X0 xtol) :
    ∃ res, nsolveOMP (realArith n inf fac sol) c (hbmAt S w Fl h Nt tol n) X0 xtol = (.ok res, c) ∧
      res.success = true ∧ res.trace.length ≤ 2 ∧ ∀ d < S.nd, ∀ t : ℝ,
        let x : ℕ → ℝ → ℝ := fun e t => series h (fun r => ext res.X (r * S.nd + e)) (w * t)
        ∑ e ∈ range S.nd, (S.M d e * deriv (deriv (x e)) t + S.C d e * deriv (x e) t + S.K d e * x e t)
          = series h (fun r => Fl (r * S.nd + d)) (w * t) := by
  let A : NLForce → (ℕ → ℝ) → ℝ → AftOut := fun _ _ _ => ⟨fun _ => 0, fun _ _ => 0, fun _ => 0⟩
  have hA : ∀ f ∈ S.forces, ∀ U w, f.aft U w h Nt tol = .ok (A f U w) := by simp [hS]
  have hZw : ∀ X : Fin n → ℝ, hcat n (ext X) (fun _ => w) n = w := fun X => by simp [hcat]
  have hZ : ∀ X : Fin n → ℝ, sl 0 n (hcat n (ext X) fun _ => w) = ext X := fun X => by
    funext i
    simp only [sl, hcat, Nat.sub_zero, Nat.zero_add]
    split_ifs with hi
    · rfl
    · simp [Spec.ext, hi]
  let E : Matrix (Fin n) (Fin n) ℝ := fun i j => hsE S.nd S.M S.C S.K w h false i j
  have hmul : ∀ (X : Fin n → ℝ) (i : Fin n), matVec n (hsE S.nd S.M S.C S.K w h false) (ext X) i = E.mulVec X i := fun X i => by
    simp only [matVec, Matrix.mulVec, dotProduct, E]
    rw [Finset.sum_range]
    exact sum_congr rfl fun j _ => by simp [Spec.ext]
  have hres : ∀ X : Fin n → ℝ, hbmRes S (hcat n (ext X) fun _ => w) Fl h Nt tol true
      = .ok ⟨fun i => hbmG S A h (hcat n (ext X) fun _ => w) i - Fl i,
        some (hbmJ S A h (hcat n (ext X) fun _ => w), hbmD S A h (hcat n (ext X) fun _ => w))⟩ := fun X => hbmRes_ok S hh Nt tol A hA _ Fl
  have hf : ∀ X, hbmAt S w Fl h Nt tol n X true = .ok (E.mulVec X - fun i : Fin n => Fl i, E) := fun X => by
    simp only [hbmAt, hres]
    congr 2
    · funext i
      simp only [hbmG, ← hn, hZw, hZ, hS, List.map_nil, List.sum_nil, add_zero, Pi.sub_apply, hmul]
    · funext i j
      simp only [hbmJ, ← hn, hZw, hS, List.map_nil, List.sum_nil, add_zero, E]
  have hz0 : ∀ τ, series h (fun _ => (0 : ℝ)) τ = 0 := fun τ => by
    have := series_smul h 0 (fun _ => (0 : ℝ)) τ
    simpa using this
  have hdyn : ∀ (X : Fin n → ℝ) (G : ℕ → ℝ), (∀ i : Fin n, E.mulVec X i = G i) ↔ ∀ d < S.nd, ∀ t : ℝ,
      let x : ℕ → ℝ → ℝ := fun e t => series h (fun r => ext X (r * S.nd + e)) (w * t)
      ∑ e ∈ range S.nd, (S.M d e * deriv (deriv (x e)) t + S.C d e * deriv (x e) t + S.K d e * x e t)
        = series h (fun r => G (r * S.nd + d)) (w * t) := fun X G => by
    obtain ⟨R, g, h1, h2⟩ := C45_zero_iff S h hh Nt tol A hA (hcat n (ext X) fun _ => w) G (by rw [← hn, hZw]; exact hw)
    have h3 := hbmRes_ok S hh Nt tol A hA (hcat n (ext X) fun _ => w) G
    rw [h1] at h3
    simp only [Except.ok.injEq, ResOut.mk.injEq] at h3
    simp only [h3.1, ← hn, hbmG, hZw, hZ, hS, List.map_nil, List.sum_nil, add_zero] at h2
    have h4 : (∀ i : Fin n, E.mulVec X i = G i) ↔
        ∀ i < n, matVec n (hsE S.nd S.M S.C S.K w h false) (ext X) i - G i = 0 := by
      constructor
      · intro H i hi
        rw [hmul X ⟨i, hi⟩, H]; simp
      · intro H i
        rw [← hmul]; exact sub_eq_zero.1 (H i i.2)
    rw [h4, h2]
    simp only [hz0, add_zero]
  have hdet : IsUnit E.det := by
    rw [isUnit_iff_ne_zero]
    intro hz
    obtain ⟨v, hv, hv0⟩ := Matrix.exists_mulVec_eq_zero_iff.2 hz
    apply hv
    have := (hdyn v fun _ => 0).1 fun i => by rw [hv0]; rfl
    have h5 := hfree (ext v) (fun d hd t => by
      have h6 := this d hd t
      rw [hz0] at h6
      exact h6)
    funext i
    have := h5 i i.2
    simpa [Spec.ext] using this
  obtain ⟨res, r1, r2, r3, r4⟩ := C130_affine (inf := inf) hsol hdet hf hc hm X0 xtol ht
  exact ⟨res, r1, r2, r4, (hdyn res.X Fl).1 fun i => congrFun r3 i⟩

/-- The left side of the equation of motion `x'' + 4 x` for one harmonic with frequency one. -/
theorem oscillator_series (U : ℕ → ℝ) (t : ℝ) :
    deriv (deriv fun t => series [1] (fun r => U (r * 1 + 0)) (1 * t)) t + 4 * series [1] (fun r => U (r * 1 + 0)) (1 * t)
      = 3 * (U 0 * Real.cos t + U 1 * Real.sin t) := by
  have e : ∀ t, series [1] (fun r => U (r * 1 + 0)) (1 * t) = U 0 * Real.cos t + U 1 * Real.sin t := fun t => by simp [series]
  have d1 : deriv (fun t => U 0 * Real.cos t + U 1 * Real.sin t) = fun t => U 0 * (-Real.sin t) + U 1 * Real.cos t := funext fun t =>
    (((Real.hasDerivAt_cos t).const_mul (U 0)).add ((Real.hasDerivAt_sin t).const_mul (U 1))).deriv
  have d2 : deriv (fun t => U 0 * (-Real.sin t) + U 1 * Real.cos t) t = U 0 * (-Real.cos t) + U 1 * (-Real.sin t) :=
    (((Real.hasDerivAt_sin t).neg.const_mul (U 0)).add ((Real.hasDerivAt_cos t).const_mul (U 1))).deriv
  simp only [e, d1, d2]
  ring

/-- C130 on the oscillator `x'' + 4 x = cos t`: from every start the solver returns `x = cos t / 3`. -/
example (X0 : Fin 2 → ℝ) : ∃ res c, nsolveOMP (realArith 2 0 id fun D v => D⁻¹.mulVec v) { lsTol := 0 }
    (hbmAt ⟨1, fun _ _ => 1, fun _ _ => 4, fun _ _ => 0, none, []⟩ 1 (fun i => if i = 0 then 1 else 0) [1] 4 0 2) X0 none = (.ok res, c) ∧
      res.success = true ∧ res.X 0 = 1 / 3 ∧ res.X 1 = 0 := by
  obtain ⟨res, h1, h2, -, h3⟩ := C130_linear (inf := 0) ⟨1, fun _ _ => 1, fun _ _ => 4, fun _ _ => 0, none, []⟩ rfl (h := [1])
    ⟨by simp, by decide, by decide⟩ (n := 2) (by decide) 4 0 one_ne_zero (fun i => if i = 0 then 1 else 0) exactSolve_inv
    (c := { lsTol := 0 }) ⟨rfl, rfl, rfl⟩ (by decide)
    (fun U hU i hi => by
      have H : ∀ t : ℝ, 3 * (U 0 * Real.cos t + U 1 * Real.sin t) = 0 := fun t => by
        have := hU 0 (by decide) t
        simp only [sum_range_one, one_mul, zero_mul, add_zero] at this
        rw [← oscillator_series U t]
        simpa using this
      have a := H 0
      have b := H (Real.pi / 2)
      simp at a b
      interval_cases i
      · exact a
      · exact b) X0 none (by simp [effectiveXtol, realArith])
  refine ⟨res, _, h1, h2, ?_⟩
  have H : ∀ t : ℝ, 3 * (Spec.ext res.X 0 * Real.cos t + Spec.ext res.X 1 * Real.sin t) = Real.cos t := fun t => by
    have := h3 0 (by decide) t
    simp only [sum_range_one, one_mul, zero_mul, add_zero] at this
    rw [← oscillator_series (Spec.ext res.X) t]
    have e : series [1] (fun r => if r * 1 + 0 = 0 then (1 : ℝ) else 0) (1 * t) = Real.cos t := by simp [series]
    simp only [mul_one, add_zero, one_mul] at this e ⊢
    rw [this, e]
  have a := H 0
  have b := H (Real.pi / 2)
  simp [Spec.ext] at a b
  exact ⟨by linarith, b⟩

end TMD
