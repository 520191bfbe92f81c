import Verif.Props.ResponseNewton
import Verif.Props.BaseSweep

/-!
# C160: the solver finds the response to a moving base
-/

namespace TMD

open Spec Finset

noncomputable section

variable {S : VibSys} {base : ℕ → Bool} {Ub : ℕ → ℝ} {h : List ℕ} {Nt N : ℕ} {tol w : ℝ}

/-- The function handed to the solver for the response to a moving base at a fixed frequency:
`lambda U : vib_sys.hbm_base_res(np.hstack((U, w)), Ub, base_flag, h, Nt, tol)[0:2]` (tests/test_hbm_base.py:92, `hbm_base_res` at vibration_system.py:832). The derivatives are always computed. -/
def hbmBaseAt (S : VibSys) (w : ℝ) (Ub : ℕ → ℝ) (base : ℕ → Bool) (h : List ℕ) (Nt : ℕ) (tol : ℝ) (N : ℕ) : SolveFun (Fin N → ℝ) (Matrix (Fin N) (Fin N) ℝ) := fun X _ =>
  match hbmBaseRes S (hcat N (Spec.ext X) fun _ => w) Ub base h Nt tol with
  | .error e => .error e
  | .ok o => .ok (fun i => o.1 i, fun i j => o.2.1 i j)

/-- C160: with a moving base, from every start near enough to the response, Newton's method finds it to every tolerance, with a number of iterations that depends on the
tolerance alone. -/
theorem C160_base (hh : Admissible h) (hNt : ∀ k ∈ h, 2 * k + 1 < Nt) (heven : Even Nt) (hD : DampedFree S base h) (hS : ∀ f ∈ S.forces, IsDashpot S.nd f) (hw : 0 < w)
    (hN : nFree S.nd (numCoeff h * S.nd) base = N) {Vw : ℕ → ℝ} (hVw : Vw N = w) (hV : BaseSolution S Ub base h Nt tol Vw) {inf : ℝ} {L : Type}
    {fac : Matrix (Fin N) (Fin N) ℝ → L} {sol : L → (Fin N → ℝ) → Fin N → ℝ} (hsol : ExactSolve fac sol) :
    ∃ r > 0, ∀ t > 0, ∃ K, ∀ cfg, PlainNewton cfg → K ≤ cfg.maxSteps → ∀ X0 : Fin N → ℝ, (∀ i, |X0 i - Vw i| < r) →
      ∃ res, nsolveOMP (realArith N inf fac sol) cfg (hbmBaseAt S w Ub base h Nt tol N) X0 (some t) = (.ok res, cfg) ∧ res.success = true ∧ ∀ i, |res.X i - Vw i| < t := by
  obtain ⟨n, hn⟩ := exists_bound h
  have hR := fun f hf => dashpot_resists (tol := tol) hh hn hNt heven (hS f hf)
  have hs := base_smooth (Ub := Ub) (base := base) hh hR
  rw [hN] at hs
  have hz : ∀ y : Fin N → ℝ, ∀ k < N + 1, Spec.ext (condMap N (fun _ => 1) (startPt N (fun _ => 1) w y)) k = hcat N (Spec.ext y) (fun _ => w) k := fun y k hk => by
    by_cases c : k < N
    · simp [Spec.ext, condMap, startPt, hcat, hk, c]
    · simp [Spec.ext, condMap, startPt, hcat, hk, c]
  have hloc : ∀ X Y : ℕ → ℝ, (∀ k < N + 1, X k = Y k) → baseR S Ub base h Nt tol X = baseR S Ub base h Nt tol Y ∧ baseJ S Ub base h Nt tol X = baseJ S Ub base h Nt tol Y := fun X Y H => by
    have e := hs.local' X Y H
    rw [hs.value, hs.value] at e
    injection e with e
    injection e with e1 e2 _
    exact ⟨e1, e2⟩
  have hwe : ∀ y : Fin N → ℝ, hcat N (Spec.ext y) (fun _ => w) N = w := fun y => by simp [hcat]
  have hVe : ∀ k < N + 1, hcat N (Spec.ext fun i : Fin N => Vw i) (fun _ => w) k = Vw k := fun k hk => by
    by_cases c : k < N
    · simp [hcat, Spec.ext, c]
    · obtain rfl : k = N := by omega
      rw [hwe, hVw]
  obtain ⟨r, hr, H⟩ := fixed_ok (inf := inf) (w := w) hs hsol (x := fun i => Vw i) (F := hbmBaseAt S w Ub base h Nt tol N)
    (by simp [condMap, startPt, hw]) (funext fun i => by
      show baseR S Ub base h Nt tol _ i = 0
      rw [(hloc _ _ (hz _)).1, (hloc _ _ hVe).1]
      exact (base_solves hh hR Vw).1 hV i (by rw [hN]; exact i.2)) (by
      rw [startMat_det, (hloc _ _ (hz _)).2]
      refine IsUnit.mul (IsUnit.mk0 _ ((regular_iff_det _).1 ?_)) (by simp)
      obtain ⟨R, J, d, e1, e2⟩ := C157_no_fold (tol := tol) hh hNt heven hD hS Ub (hcat N (Spec.ext fun i : Fin N => Vw i) fun _ => w) (by rw [hN, hwe]; exact hw)
      rw [baseRes_val hh hR] at e1
      have e3 := congrArg (fun o => o.2.1) (Except.ok.inj e1)
      simp only at e3
      rw [e3, ← hN]
      exact e2)
    fun y => by
      unfold hbmBaseAt
      rw [baseRes_val hh hR]
      refine congrArg Except.ok (Prod.ext (funext fun i => ?_) (funext fun i => funext fun j => ?_))
      · show _ = baseR S Ub base h Nt tol _ i
        rw [(hloc _ _ (hz y)).1]
      · show _ = baseJ S Ub base h Nt tol _ i j * 1
        rw [(hloc _ _ (hz y)).2, mul_one]
  refine ⟨r, hr, fun t ht => ?_⟩
  obtain ⟨K, hK⟩ := H t ht
  refine ⟨K, fun cfg hc hm X0 hX => ?_⟩
  obtain ⟨res, h1, h2, h3⟩ := hK cfg hc hm X0 ((pi_norm_lt_iff hr).2 hX)
  exact ⟨res, h1, h2, (pi_norm_lt_iff ht).1 h3⟩

/-- Example: the mass on a spring and a damper on a shaken base, at the frequency 1 and for every motion of the base: with enough iterations the solver finds a point with
all coefficients within `1e-9` of those of the response, from every start in a box around it. -/
example (Ub : ℕ → ℝ) (tol : ℝ) : ∃ Vw r, Vw 2 = 1 ∧ BaseSolution shaken Ub (fun d => d == 1) [1] 4 tol Vw ∧ 0 < r ∧ ∃ K, ∀ X0 : Fin 2 → ℝ, (∀ i, |X0 i - Vw i| < r) →
    ∃ res, nsolveOMP (realArith 2 0 id fun D v => D⁻¹.mulVec v) { maxSteps := K, lsTol := 0 } (hbmBaseAt shaken 1 Ub (fun d => d == 1) [1] 4 tol 2) X0 (some 1e-9)
      = (.ok res, { maxSteps := K, lsTol := 0 }) ∧ res.success = true ∧ ∀ i, |res.X i - Vw i| < 1e-9 := by
  have hh : Admissible [1] := ⟨by simp, by simp, by simp⟩
  have hS : ∀ f ∈ shaken.forces, IsDashpot shaken.nd f := fun f hf => by
    obtain rfl : f = _ := List.mem_singleton.1 hf
    exact C144_cubic 2 1 _ _ (fun _ _ => rfl) fun _ => zero_le_one
  obtain ⟨Vw, hVw, hV, -⟩ := C157_solution (Nt := 4) (tol := tol) hh (by simp) ⟨2, rfl⟩ (shaken_damped [1]) hS Ub one_pos
  rw [shaken_nFree] at hVw
  obtain ⟨r, hr, H⟩ := C160_base (inf := 0) hh (by simp) ⟨2, rfl⟩ (shaken_damped [1]) hS one_pos shaken_nFree hVw hV exactSolve_inv
  obtain ⟨K, hK⟩ := H 1e-9 (by norm_num)
  exact ⟨Vw, r, hVw, hV, hr, K, fun X0 hX => hK { maxSteps := K, lsTol := 0 } ⟨rfl, rfl, rfl⟩ le_rfl X0 hX⟩

end

end TMD
