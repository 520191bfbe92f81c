import Verif.Props.Residual
import Verif.Lemmas.Epmc

/-!
# Property C49: extended periodic motion concept residual
-/

namespace TMD

open Spec Finset

noncomputable section

/-- Modal mass of the first harmonic: `Σ M d e (c_d c_e + s_d s_e)` over the cosine and sine coefficients of
harmonic 1. -/
def modalMass (nd : ℕ) (M : ℕ → ℕ → ℝ) (h : List ℕ) (U : ℕ → ℝ) : ℝ :=
  ∑ d ∈ range nd, ∑ e ∈ range nd, M d e *
    ((coefOf h (fun r => U (r * nd + d)) 1).1 * (coefOf h (fun r => U (r * nd + e)) 1).1
      + (coefOf h (fun r => U (r * nd + d)) 1).2 * (coefOf h (fun r => U (r * nd + e)) 1).2)

theorem modalMass_eq {h : List ℕ} (h1 : ∃ hs, h = 1 :: hs ∨ h = 0 :: 1 :: hs) (nd : ℕ) (M : ℕ → ℕ → ℝ)
    (U : ℕ → ℝ) : modalMass nd M h U = quad nd M (zi h) U + quad nd M (zi h + 1) U := by
  unfold modalMass quad ctrl
  rw [← sum_add_distrib]
  refine sum_congr rfl (fun d _ => ?_)
  rw [mul_sum, mul_sum, ← sum_add_distrib]
  refine sum_congr rfl (fun e _ => ?_)
  rw [(coefOf_first h1 _).1, (coefOf_first h1 _).1]
  ring

/-- C49: the residual (unknowns `X = (U, w, xi, la)`) vanishes exactly when the unforced harmonic balance
equations (static load only) hold for the system with damping `C - xi M` at the motion whose non-static
coefficients are `10^la U`, the modal mass of the first harmonic of `U` is one and the prescribed phase
condition holds. -/
theorem C49_zero_iff (S : VibSys) (h : List ℕ) (hh : Admissible h)
    (h1 : ∃ hs, h = 1 :: hs ∨ h = 0 :: 1 :: hs) (Nt : ℕ) (tol : ℝ)
    (A : NLForce → (ℕ → ℝ) → ℝ → AftOut) (hA : ∀ f ∈ S.forces, ∀ U w, f.aft U w h Nt tol = .ok (A f U w))
    (X Fl : ℕ → ℝ) :
    let L := numCoeff h * S.nd
    ∃ R g R' g', epmcRes S X Fl h Nt tol true = .ok ⟨R, some g⟩ ∧
      hbmRes { S with C := fun i j => S.C i j - X (L + 1) * S.M i j }
        (fun i => if i < L then scaledForcing S.nd h X ((10:ℝ) ^ X (L + 2)) i else X L)
        (scaledForcing S.nd h Fl 0) h Nt tol true = .ok ⟨R', some g'⟩ ∧
      ((∀ i < L + 2, R i = 0) ↔ (∀ i < L, R' i = 0) ∧ modalMass S.nd S.M h X = 1 ∧
        ∑ i ∈ (range L).filter (fun i => ¬ (0 ∈ h ∧ i < S.nd)), Fl i * X i = 0) := by
  intro L
  obtain ⟨R, J, d, e1, e2, e3, e4, -⟩ := epmc_ok S hh (coefOf_first h1 (fun _ => 0)).2 Nt tol A hA X Fl (L := L) rfl
  refine ⟨R, _, _, _, e1, hbmRes_ok { S with C := fun i j => S.C i j - X (L + 1) * S.M i j } hh Nt tol A hA _ _, ?_⟩
  have er : ∀ i < L, hbmG { S with C := fun i j => S.C i j - X (L + 1) * S.M i j } A h
      (fun i => if i < L then scaledForcing S.nd h X ((10:ℝ) ^ X (L + 2)) i else X L) i
      - scaledForcing S.nd h Fl 0 i = R i := by
    intro i hi
    rw [e2 i hi, harmScale_eq hh hi, epmcZ_eq S hh X rfl]
    unfold selfExcited
    congr 1
    unfold scaledForcing
    split <;> simp
  have ep : R (L + 1) = ∑ i ∈ (range L).filter (fun i => ¬ (0 ∈ h ∧ i < S.nd)), Fl i * X i := by
    rw [e4, sum_filter]
    refine sum_congr rfl (fun k hk => ?_)
    rw [harmScale_eq hh (mem_range.mp hk)]
    by_cases c : 0 ∈ h ∧ k < S.nd <;> simp [c]
  have em : R L = modalMass S.nd S.M h X - 1 := by rw [e3, modalMass_eq h1]
  rw [← ep]
  constructor
  · intro H
    refine ⟨fun i hi => ?_, ?_, H _ (by omega)⟩
    · rw [er i hi]; exact H i (by omega)
    · have := H L (by omega)
      rw [em] at this
      linarith
  · rintro ⟨H1, H2, H3⟩ i hi
    by_cases c1 : i < L
    · rw [← er i c1]; exact H1 i c1
    · by_cases c2 : i = L
      · rw [c2, em, H2, sub_self]
      · have : i = L + 1 := by omega
        rw [this]; exact H3

/-- C49 in the time domain: the periodic motion `x` solves `M x'' + (C - xi M) x' + K x + f_nl = f_static`
(with the truncated nonlinear force). -/
theorem C49_motion (S : VibSys) (h : List ℕ) (hh : Admissible h)
    (h1 : ∃ hs, h = 1 :: hs ∨ h = 0 :: 1 :: hs) (Nt : ℕ) (tol : ℝ)
    (A : NLForce → (ℕ → ℝ) → ℝ → AftOut) (hA : ∀ f ∈ S.forces, ∀ U w, f.aft U w h Nt tol = .ok (A f U w))
    (X Fl : ℕ → ℝ) :
    let L := numCoeff h * S.nd
    let w := X L
    let xi := X (L + 1)
    let U := sl 0 L (scaledForcing S.nd h X ((10:ℝ) ^ X (L + 2)))
    let x : ℕ → ℝ → ℝ := fun e t => series h (fun r => U (r * S.nd + e)) (w * t)
    w ≠ 0 →
    ∃ R g, epmcRes S X Fl h Nt tol true = .ok ⟨R, some g⟩ ∧
      ((∀ i < L + 2, R i = 0) ↔ (∀ d < S.nd, ∀ t : ℝ,
        (∑ e ∈ range S.nd, (S.M d e * deriv (deriv (x e)) t + (S.C d e - xi * S.M d e) * deriv (x e) t
          + S.K d e * x e t))
        + series h (fun r => (S.forces.map (fun f => (A f U w).F (r * S.nd + d))).sum) (w * t)
        = series h (fun r => scaledForcing S.nd h Fl 0 (r * S.nd + d)) (w * t)) ∧
        modalMass S.nd S.M h X = 1 ∧
        ∑ i ∈ (range L).filter (fun i => ¬ (0 ∈ h ∧ i < S.nd)), Fl i * X i = 0) := by
  intro L w xi U x hw
  obtain ⟨R, g, R', g', e1, e2, e3⟩ := C49_zero_iff S h hh h1 Nt tol A hA X Fl
  obtain ⟨R'', g'', e4, e5⟩ := C45_zero_iff { S with C := fun i j => S.C i j - X (L + 1) * S.M i j } h hh Nt tol A hA
    (fun i => if i < L then scaledForcing S.nd h X ((10:ℝ) ^ X (L + 2)) i else X L) (scaledForcing S.nd h Fl 0)
    (by simpa [L] using hw)
  refine ⟨R, g, e1, e3.trans ?_⟩
  rw [e2] at e4
  injection e4 with e4
  injection e4 with e4 _
  subst e4
  rw [e5]
  have a1 : sl 0 L (fun i => if i < L then scaledForcing S.nd h X ((10:ℝ) ^ X (L + 2)) i else X L) = U :=
    sl_congr (fun i hi => by simp [hi])
  have a2 : (if numCoeff h * S.nd < L then scaledForcing S.nd h X ((10:ℝ) ^ X (L + 2)) (numCoeff h * S.nd) else X L) = w := by
    simp [L, w]
  simp only [a2]
  change (∀ d < S.nd, ∀ t, _) ∧ _ ↔ _
  rw [show numCoeff h * S.nd = L from rfl, a1]

/-- C49: all derivatives (unknowns: coefficients, frequency, damping coefficient, log amplitude) are the true
ones if those of the forces are, for symmetric mass matrices. -/
theorem C49_jacobian (S : VibSys) (hM : ∀ d < S.nd, ∀ e < S.nd, S.M d e = S.M e d) (h : List ℕ) (hh : Admissible h)
    (h1 : ∃ hs, h = 1 :: hs ∨ h = 0 :: 1 :: hs) (Nt : ℕ) (tol : ℝ)
    (A : NLForce → (ℕ → ℝ) → ℝ → AftOut) (hA : ∀ f ∈ S.forces, ∀ U w, f.aft U w h Nt tol = .ok (A f U w))
    (Fl : ℕ → ℝ) :
    let L := numCoeff h * S.nd
    ∃ res : (ℕ → ℝ) → ResOut, (∀ X, epmcRes S X Fl h Nt tol true = .ok (res X)) ∧
      ∀ X, (∀ f ∈ S.forces, JointTrue (A f) L
          (fun i => if i < L then scaledForcing S.nd h X ((10:ℝ) ^ X (L + 2)) i else X L)) →
        ResTrue res (L + 2) (L + 2) X := by
  intro L
  choose R J d e1 e2 e3 e4 e5 e6 e7 e8 e9 e10 e11 e12 using
    fun X => epmc_ok S hh (coefOf_first h1 (fun _ => 0)).2 Nt tol A hA X Fl (L := L) rfl
  refine ⟨_, e1, fun X hT => ⟨_, _, rfl, ?_⟩⟩
  have hp := (coefOf_first h1 (fun _ => 0)).2
  have hle : (zi h + 1 + 1) * S.nd ≤ L := Nat.mul_le_mul_right _ hp
  have hz : (zi h + 1) * S.nd ≤ (zi h + 1 + 1) * S.nd := Nat.mul_le_mul_right _ (by omega)
  intro i hi
  by_cases hiL : i < L
  · -- force balance rows
    let G : ℕ → ℕ → ℝ := fun k j => if k < L then
        (if j = k then harmScale (zi h) S.nd 1 ((10:ℝ) ^ X (L + 2)) k else 0)
        + (if j = L + 2 then harmScale (zi h) S.nd 0 ((10:ℝ) ^ X (L + 2) * Real.log 10) k * X k else 0)
      else if j = L then 1 else 0
    have hY : ∀ k < L + 1, HasGrad (L + 2 + 1) (fun X => epmcZ S h X k) (G k) X := by
      intro k hk
      by_cases hkL : k < L
      · simp only [G, if_pos hkL]
        refine (hasGrad_epmcU (n := L + 2 + 1) (h := h) (nd := S.nd) hkL X).congr_fun (fun Y => ?_)
        have hkL' : k < numCoeff h * S.nd := hkL
        simp only [epmcZ, epmcU, hcat, if_pos hkL', sl_zero hkL', L]
      · have : k = L := by omega
        subst this
        simp only [G, lt_irrefl, if_false]
        exact (HasGrad.coord (n := L + 2 + 1) (x := X) L).congr_fun (fun Y => epmcZ_at S h Y)
    have hT' : ∀ f ∈ S.forces, JointTrue (A f) L (epmcZ S h X) := by
      intro f hf
      rw [epmcZ_eq S hh X (L := L) rfl]
      exact hT f hf
    have g1 := hbmG_comp S hh A hY hT' i hiL
    have g2 := matVec_grad (n := L + 2 + 1) (L := L) (i := i) (q := L) (x := X)
      (E := fun w => hsE S.nd (fun _ _ => 0) (fun i j => - S.M i j) (fun _ _ => 0) w h true)
      (Y := epmcU S h) (G := G)
      (fun k hk => hsE_hasDerivAt hh S.nd _ _ _ true (X L) i hiL k hk)
      (fun k hk => (hY k (by omega)).congr_fun (fun Y => by
        have hk' : k < numCoeff h * S.nd := hk
        simp only [epmcZ, hcat, if_pos hk']))
    have g3 := (HasGrad.coord (n := L + 2 + 1) (x := X) (L + 1)).mul g2
    refine (((g1.add g3).sub (HasGrad.const (harmScale (zi h) S.nd 1 0 i * Fl i))).congr_fun (fun Y => ?_)).congr
      (fun j hj => ?_)
    · change R Y i = _
      rw [e2 Y i hiL, hbmG_selfExcited S hh A _ _ rfl i hiL, sl_epmcZ, epmcZ_at]
    · have hJ : ∀ k < L, hbmJ (selfExcited S (X (L + 1))) A h (epmcZ S h X) i k
          = hbmJ S A h (epmcZ S h X) i k
            + X (L + 1) * hsE S.nd (fun _ _ => 0) (fun i j => - S.M i j) (fun _ _ => 0) (X L) h true i k := by
        intro k hk
        rw [hbmJ_selfExcited S hh A _ _ rfl i hiL k hk, epmcZ_at]
      by_cases c1 : j < L
      · have c2 : j < L + 2 := by omega
        have c3 : j ≠ L := by omega
        have c4 : j ≠ L + 1 := by omega
        have c5 : j ≠ L + 2 := by omega
        simp only [c2, if_true, e5 X i hiL j c1, hJ j c1]
        have s1 : ∀ q : ℕ → ℝ, ∑ k ∈ range L, q k * G k j
            = q j * harmScale (zi h) S.nd 1 ((10:ℝ) ^ X (L + 2)) j := by
          intro q
          rw [sum_eq_single_of_mem j (mem_range.mpr c1)]
          · simp [G, c1, c5]
          · intro k hk hkj
            simp [G, mem_range.mp hk, c5, Ne.symm hkj]
        have s2 : G L j = 0 := by simp [G, c3]
        have s1' := s1 (hsE S.nd (fun _ _ => 0) (fun i j => - S.M i j) (fun _ _ => 0) (X L) h true i)
        simp only [c3, c4, if_false, mul_zero, add_zero, s1']
        rw [s1, s2]
        ring
      · by_cases c2 : j = L
        · subst c2
          have c3 : L < L + 2 := by omega
          have c4 : L ≠ L + 1 := by omega
          have c5 : L ≠ L + 2 := by omega
          have s1 : ∀ k ∈ range L, G k L = 0 := by
            intro k hk
            have := mem_range.mp hk
            have a : L ≠ k := by omega
            simp [G, this, a]
          have s2 : G L L = 1 := by simp [G]
          simp only [c3, c4, if_true, if_false, e6 X i hiL]
          rw [hbmD_selfExcited S hh A _ _ rfl i hiL, sl_epmcZ, epmcZ_at]
          have t1 : ∑ k ∈ range L, hbmJ S A h (epmcZ S h X) i k * G k L = 0 :=
            sum_eq_zero (fun k hk => by rw [s1 k hk, mul_zero])
          have t2 : ∑ k ∈ range L, (hsE S.nd (fun _ _ => 0) (fun i j => - S.M i j) (fun _ _ => 0) (X L) h true i k * G k L
              + epmcU S h X k * hsDE S.nd (fun _ _ => 0) (fun i j => - S.M i j) (X L) h true i k)
              = matVec L (hsDE S.nd (fun _ _ => 0) (fun i j => - S.M i j) (X L) h true) (epmcU S h X) i :=
            sum_congr rfl (fun k hk => by rw [s1 k hk]; ring)
          rw [t2]
          change _ = ∑ k ∈ range L, hbmJ S A h (epmcZ S h X) i k * G k L + _ * G L L + _ - _
          rw [t1, s2]
          ring
        · by_cases c3 : j = L + 1
          · subst c3
            have c4 : L + 1 < L + 2 := by omega
            have c5 : L + 1 ≠ L := by omega
            have s1 : ∀ k ∈ range L, G k (L + 1) = 0 := by
              intro k hk
              have := mem_range.mp hk
              have a : L + 1 ≠ k := by omega
              simp [G, this, a]
            have s2 : G L (L + 1) = 0 := by simp [G]
            simp only [c4, c5, if_true, if_false, e7 X i hiL]
            have t1 : ∑ k ∈ range L, hbmJ S A h (epmcZ S h X) i k * G k (L + 1) = 0 :=
              sum_eq_zero (fun k hk => by rw [s1 k hk, mul_zero])
            have t2 : ∑ k ∈ range L, (hsE S.nd (fun _ _ => 0) (fun i j => - S.M i j) (fun _ _ => 0) (X L) h true i k
                * G k (L + 1) + epmcU S h X k * 0) = 0 :=
              sum_eq_zero (fun k hk => by rw [s1 k hk]; ring)
            rw [t2]
            change _ = ∑ k ∈ range L, hbmJ S A h (epmcZ S h X) i k * G k (L + 1) + _ * G L (L + 1) + _ - _
            rw [t1, s2]
            ring
          · have c4 : j = L + 2 := by omega
            subst c4
            have c5 : L + 2 ≠ L := by omega
            have c6 : L + 2 ≠ L + 1 := by omega
            have s1 : ∀ k ∈ range L, G k (L + 2)
                = harmScale (zi h) S.nd 0 ((10:ℝ) ^ X (L + 2) * Real.log 10) k * X k := by
              intro k hk
              have := mem_range.mp hk
              have a : L + 2 ≠ k := by omega
              simp [G, this, a]
            have s2 : G L (L + 2) = 0 := by simp [G]
            simp only [c5, c6, lt_irrefl, if_false, e8 X i hiL]
            have t1 : matVec L (hbmJ (selfExcited S (X (L + 1))) A h (epmcZ S h X))
                (fun k => harmScale (zi h) S.nd 0 ((10:ℝ) ^ X (L + 2) * Real.log 10) k * X k) i
                = ∑ k ∈ range L, hbmJ S A h (epmcZ S h X) i k * G k (L + 2)
                  + X (L + 1) * ∑ k ∈ range L, (hsE S.nd (fun _ _ => 0) (fun i j => - S.M i j) (fun _ _ => 0) (X L) h
                    true i k * G k (L + 2) + epmcU S h X k * 0) := by
              unfold matVec
              rw [mul_sum, ← sum_add_distrib]
              refine sum_congr rfl (fun k hk => ?_)
              rw [hJ k (mem_range.mp hk), s1 k hk]
              ring
            rw [t1]
            change _ = ∑ k ∈ range L, hbmJ S A h (epmcZ S h X) i k * G k (L + 2) + _ * G L (L + 2) + _ - _
            rw [s2]
            ring
  · by_cases hi2 : i = L
    · subst hi2
      have g1 := hasGrad_quad (L + 2 + 1) S.nd S.M hM (zi h) X
      have g2 := hasGrad_quad (L + 2 + 1) S.nd S.M hM (zi h + 1) X
      refine (((g1.add g2).sub (HasGrad.const 1)).congr_fun (fun Y => e3 Y)).congr (fun j hj => ?_)
      by_cases c : j < L + 2
      · simp only [c, if_true, e9 X j c, sub_zero]
      · have c1 : ¬ (zi h * S.nd ≤ j ∧ j < (zi h + 1) * S.nd) := by omega
        have c2 : ¬ ((zi h + 1) * S.nd ≤ j ∧ j < (zi h + 1 + 1) * S.nd) := by omega
        simp only [c, if_false, c1, c2, e11 X]
        ring
    · have : i = L + 1 := by omega
      subst this
      refine ((HasGrad.linear (n := L + 2 + 1) (x := X) L (fun k => harmScale (zi h) S.nd 0 1 k * Fl k)).congr_fun
        (fun Y => e4 Y)).congr (fun j hj => ?_)
      by_cases c : j < L + 2
      · simp only [c, if_true, e10 X j c]
      · have c1 : ¬ j < L := by omega
        simp only [c, c1, if_false, e12 X]

/-- C49: the value is the same without gradients. -/
theorem C49_no_gradient (S : VibSys) (h : List ℕ) (hh : Admissible h) (Nt : ℕ) (tol : ℝ)
    (A : NLForce → (ℕ → ℝ) → ℝ → AftOut) (hA : ∀ f ∈ S.forces, ∀ U w, f.aft U w h Nt tol = .ok (A f U w) ∧
      f.aftNoGrad U w h Nt tol = .ok (A f U w).F) (X Fl : ℕ → ℝ) :
    ∃ R g, epmcRes S X Fl h Nt tol true = .ok ⟨R, some g⟩ ∧ epmcRes S X Fl h Nt tol false = .ok ⟨R, none⟩ :=
  epmc_ng S hh Nt tol A hA X Fl

/-- Example: the oscillator `x'' + x' + 4 x = 0` has the periodic motion `cos 2t` for `w = 2`, `xi = 1`; the
residual is zero there, and not zero at `w = 1`. -/
example : (∃ R g, epmcRes ⟨1, fun _ _ => 1, fun _ _ => 4, fun _ _ => 1, none, []⟩
      (fun i => if i = 0 then 1 else if i = 1 then 0 else if i = 2 then 2 else if i = 3 then 1 else 0)
      (fun i => if i = 1 then 1 else 0) [1] 8 0 true = .ok ⟨R, some g⟩ ∧ ∀ i < 4, R i = 0) ∧
    (∃ R g, epmcRes ⟨1, fun _ _ => 1, fun _ _ => 4, fun _ _ => 1, none, []⟩
      (fun i => if i = 0 then 1 else if i = 1 then 0 else if i = 2 then 1 else if i = 3 then 1 else 0)
      (fun i => if i = 1 then 1 else 0) [1] 8 0 true = .ok ⟨R, some g⟩ ∧ R 0 = 3) := by
  have hh : Admissible [1] := ⟨by simp, by simp, by simp⟩
  have hz : zi [1] = 0 := by simp [zi]
  have hn : numCoeff [1] = 2 := by simp [numCoeff]
  have key : ∀ X : ℕ → ℝ, ∃ R g, epmcRes ⟨1, fun _ _ => 1, fun _ _ => 4, fun _ _ => 1, none, []⟩ X
      (fun i => if i = 1 then 1 else 0) [1] 8 0 true = .ok ⟨R, some g⟩ ∧
      R 0 = X 2 * (1 - X 3) * ((10:ℝ) ^ X 4 * X 1) + (4 - X 2 ^ 2) * ((10:ℝ) ^ X 4 * X 0) ∧
      R 1 = - (X 2 * (1 - X 3) * ((10:ℝ) ^ X 4 * X 0)) + (4 - X 2 ^ 2) * ((10:ℝ) ^ X 4 * X 1) ∧
      R 2 = X 0 ^ 2 + X 1 ^ 2 - 1 ∧ R 3 = X 1 := by
    intro X
    obtain ⟨R, J, d, e1, e2, e3, e4, -⟩ := epmc_ok ⟨1, fun _ _ => 1, fun _ _ => 4, fun _ _ => 1, none, []⟩ hh
      (by simp [hz, hn]) 8 0 (fun _ _ _ => ⟨fun _ => 0, fun _ _ => 0, fun _ => 0⟩) (by simp) X
      (fun i => if i = 1 then 1 else 0) (L := 2) (by simp [hn])
    have c := hsE_mulVec_cos (nd := 1) (h := [1]) (fun _ _ => 1) (fun i j => 1 - X 3 * 1) (fun _ _ => 4) (X 2)
      (by simp) (i := 0) (by simp [hz]) (d := 0) (by simp)
      (epmcU ⟨1, fun _ _ => 1, fun _ _ => 4, fun _ _ => 1, none, []⟩ [1] X) false
    have s := hsE_mulVec_sin (nd := 1) (h := [1]) (fun _ _ => 1) (fun i j => 1 - X 3 * 1) (fun _ _ => 4) (X 2)
      (by simp) (i := 0) (by simp [hz]) (d := 0) (by simp)
      (epmcU ⟨1, fun _ _ => 1, fun _ _ => 4, fun _ _ => 1, none, []⟩ [1] X) false
    refine ⟨R, _, e1, ?_, ?_, ?_, ?_⟩
    · rw [e2 0 (by simp)]
      simp only [hbmG, selfExcited, sl_epmcZ, epmcZ_at]
      refine (congrArg (fun a => a + _ - _) c).trans ?_
      simp [hn, hz, epmcU, harmScale, sl]
    · rw [e2 1 (by simp)]
      simp only [hbmG, selfExcited, sl_epmcZ, epmcZ_at]
      refine (congrArg (fun a => a + _ - _) s).trans ?_
      simp [hn, hz, epmcU, harmScale, sl]
    · rw [e3]
      simp [quad, ctrl, hz]
      ring
    · rw [e4]
      simp [harmScale, hz, sum_range_succ]
  constructor
  · obtain ⟨R, g, h1, h2, h3, h4, h5⟩ := key
      (fun i => if i = 0 then 1 else if i = 1 then 0 else if i = 2 then 2 else if i = 3 then 1 else 0)
    refine ⟨R, g, h1, fun i hi => ?_⟩
    have : i = 0 ∨ i = 1 ∨ i = 2 ∨ i = 3 := by omega
    rcases this with rfl | rfl | rfl | rfl
    · rw [h2]; norm_num
    · rw [h3]; norm_num
    · rw [h4]; norm_num
    · rw [h5]; norm_num
  · obtain ⟨R, g, h1, h2, -⟩ := key
      (fun i => if i = 0 then 1 else if i = 1 then 0 else if i = 2 then 1 else if i = 3 then 1 else 0)
    exact ⟨R, g, h1, by rw [h2]; norm_num⟩

end

end TMD
