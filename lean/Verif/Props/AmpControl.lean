import Verif.Props.Residual
import Verif.Lemmas.AmpControl

/-!
# Property C48: amplitude and amplitude/phase controlled harmonic balance residuals
-/

namespace TMD

open Spec Finset

noncomputable section

/-- First-harmonic motion of the recovered point `recov · x` for coefficients `U` of `nd` degrees of freedom. -/
def controlMotion (nd : ℕ) (h : List ℕ) (recov U : ℕ → ℝ) (w t : ℝ) : ℝ :=
  ∑ e ∈ range nd, recov e * ((coefOf h (fun r => U (r * nd + e)) 1).1 * Real.cos (w * t)
    + (coefOf h (fun r => U (r * nd + e)) 1).2 * Real.sin (w * t))

theorem controlMotion_eq {h : List ℕ} (h1 : ∃ hs, h = 1 :: hs ∨ h = 0 :: 1 :: hs) (nd : ℕ) (recov U : ℕ → ℝ)
    (w : ℝ) : controlMotion nd h recov U w
      = fun t => ctrl nd recov (zi h) U * Real.cos (w * t) + ctrl nd recov (zi h + 1) U * Real.sin (w * t) := by
  funext t
  unfold controlMotion ctrl
  rw [sum_mul, sum_mul, ← sum_add_distrib]
  refine sum_congr rfl (fun e _ => ?_)
  rw [(coefOf_first h1 _).1]
  ring

/-- C48: the residual vanishes exactly when the harmonic balance equations hold with all non-static forcing
multiplied by the unknown force scale, and the derivative of the requested order of the first-harmonic
motion of the control point has the requested amplitude. -/
theorem C48_amp_control_zero_iff (S : VibSys) (h : List ℕ) (hh : Admissible h)
    (h1 : ∃ hs, h = 1 :: hs ∨ h = 0 :: 1 :: hs) (Nt : ℕ) (tol : ℝ)
    (A : NLForce → (ℕ → ℝ) → ℝ → AftOut) (hA : ∀ f ∈ S.forces, ∀ U w, f.aft U w h Nt tol = .ok (A f U w))
    (X Fl recov : ℕ → ℝ) (amp : ℝ) (hamp : 0 ≤ amp) (order : ℕ) :
    let L := numCoeff h * S.nd
    X (L + 1) ≠ 0 →
    ∃ R g R' g', hbmAmpControlRes S X Fl h recov amp order Nt tol true = .ok ⟨R, some g⟩ ∧
      hbmRes S (fun i => if i < L then X i else X (L + 1)) (scaledForcing S.nd h Fl (X L)) h Nt tol true
        = .ok ⟨R', some g'⟩ ∧
      ((∀ i < L + 1, R i = 0) ↔ (∀ i < L, R' i = 0) ∧
        IsAmplitude (iteratedDeriv order (controlMotion S.nd h recov X (X (L + 1)))) amp) := by
  intro L hw
  obtain ⟨R, J, d, e1, e2, e3, -⟩ := ampControl_ok S hh Nt tol A hA X Fl recov amp order (L := L) rfl
  have ez : (fun i => if i < L then X i else X (L + 1)) = hcat L (sl 0 L X) (fun _ => X (L + 1)) := by
    funext i
    by_cases hi : i < L <;> simp [hcat, hi, sl]
  refine ⟨R, _, _, _, e1, hbmRes_ok S hh Nt tol A hA _ _, ?_⟩
  rw [controlMotion_eq h1, amplitude_iff _ _ _ hw, ez]
  constructor
  · intro H
    refine ⟨fun i hi => ?_, hamp, ?_⟩
    · rw [← e2 i hi]; exact H i (by omega)
    · have := H L (by omega)
      rw [e3] at this
      linarith
  · rintro ⟨H1, -, H2⟩ i hi
    by_cases hiL : i < L
    · rw [e2 i hiL]; exact H1 i hiL
    · have : i = L := by omega
      rw [this, e3, H2, sub_self]

theorem hasDerivAt_pow_two_mul (k : ℕ) (w : ℝ) :
    HasDerivAt (fun w : ℝ => w ^ (2 * k)) ((2 * k : ℝ) * w ^ ((2 * k : ℤ) - 1)) w := by
  refine (hasDerivAt_pow (2 * k) w).congr_deriv ?_
  rcases k with _ | k
  · simp
  · rw [show ((2 * ((k + 1 : ℕ) : ℤ)) - 1 : ℤ) = ((2 * (k + 1) - 1 : ℕ) : ℤ) by push_cast; omega, zpow_natCast]
    push_cast
    ring

/-- C48: all derivatives returned by `hbm_amp_control_res` (unknowns: coefficients, force scale, frequency)
are the true ones if those of the forces are; the value is the same without gradients. -/
theorem C48_amp_control_jacobian (S : VibSys) (h : List ℕ) (hh : Admissible h)
    (h1 : ∃ hs, h = 1 :: hs ∨ h = 0 :: 1 :: hs) (Nt : ℕ) (tol : ℝ)
    (A : NLForce → (ℕ → ℝ) → ℝ → AftOut) (hA : ∀ f ∈ S.forces, ∀ U w, f.aft U w h Nt tol = .ok (A f U w))
    (Fl recov : ℕ → ℝ) (amp : ℝ) (order : ℕ) :
    let L := numCoeff h * S.nd
    ∃ res : (ℕ → ℝ) → ResOut, (∀ X, hbmAmpControlRes S X Fl h recov amp order Nt tol true = .ok (res X)) ∧
      ∀ X, (∀ f ∈ S.forces, JointTrue (A f) L (hcat L (sl 0 L X) (fun _ => X (L + 1)))) →
        ResTrue res (L + 1) (L + 1) X := by
  intro L
  choose R J d e1 e2 e3 e4 e5 e6 e7 e8 using
    fun X => ampControl_ok S hh Nt tol A hA X Fl recov amp order (L := L) rfl
  refine ⟨_, e1, fun X hT => ⟨_, _, rfl, ?_⟩⟩
  intro i hi
  by_cases hiL : i < L
  · have g1 := hbmG_pack S hh A (n := L + 1 + 1) (x := X) (φ := fun X => X (L + 1))
      (HasGrad.coord (L + 1)) (L := L) rfl hT i hiL
    have g2 := hasGrad_scaledForcing (HasGrad.coord (n := L + 1 + 1) (x := X) L) S.nd h Fl i
    refine ((g1.sub g2).congr_fun (fun Y => e2 Y i hiL)).congr (fun j hj => ?_)
    by_cases c1 : j < L
    · have c2 : j < L + 1 := by omega
      have c3 : j ≠ L + 1 := by omega
      have c4 : j ≠ L := by omega
      simp only [c1, c2, c3, c4, if_true, if_false, e4 X i hiL j c1]; ring
    · by_cases c2 : j = L
      · subst c2
        have c3 : L ≠ L + 1 := by omega
        simp only [c1, c3, Nat.lt_succ_self, if_true, if_false, e5 X i hiL]; ring
      · have c3 : j = L + 1 := by omega
        subst c3
        have c4 : L + 1 ≠ L := by omega
        simp only [c1, c4, lt_irrefl, if_true, if_false, e6 X i hiL]; ring
  · have hi' : i = L := by omega
    subst hi'
    have hp := (coefOf_first h1 (fun _ => 0)).2
    have hle : (zi h + 1 + 1) * S.nd ≤ L := Nat.mul_le_mul_right _ hp
    have g1 := hasGrad_entry (n := L + 1 + 1) (q := L + 1) (hasDerivAt_pow_two_mul order (X (L + 1)))
    have gc := HasGrad.comp_deriv (hasGrad_ctrl (L + 1 + 1) S.nd recov (zi h) X) (φ := fun u => u ^ 2) (hasDerivAt_pow 2 _)
    have gs := HasGrad.comp_deriv (hasGrad_ctrl (L + 1 + 1) S.nd recov (zi h + 1) X) (φ := fun u => u ^ 2) (hasDerivAt_pow 2 _)
    refine ((((g1.mul (gc.add gs)).sub (HasGrad.const (amp ^ 2))).congr_fun (fun Y => e3 Y))).congr (fun j hj => ?_)
    have hz : (zi h + 1) * S.nd ≤ (zi h + 1 + 1) * S.nd := Nat.mul_le_mul_right _ (by omega)
    by_cases c1 : j < L + 1
    · have c3 : j ≠ L + 1 := by omega
      simp only [c1, c3, if_true, if_false, e7 X j (by omega)]
      push_cast
      ring
    · have c3 : j = L + 1 := by omega
      subst c3
      have c4 : ¬ (zi h * S.nd ≤ L + 1 ∧ L + 1 < (zi h + 1) * S.nd) := by omega
      have c5 : ¬ ((zi h + 1) * S.nd ≤ L + 1 ∧ L + 1 < (zi h + 1 + 1) * S.nd) := by omega
      simp only [lt_irrefl, if_true, if_false, c4, c5, e8]
      ring

/-- C48: value without gradients. -/
theorem C48_no_gradient (S : VibSys) (h : List ℕ) (hh : Admissible h) (Nt : ℕ) (tol : ℝ)
    (A : NLForce → (ℕ → ℝ) → ℝ → AftOut) (hA : ∀ f ∈ S.forces, ∀ U w, f.aft U w h Nt tol = .ok (A f U w) ∧
      f.aftNoGrad U w h Nt tol = .ok (A f U w).F)
    (X Fl recov : ℕ → ℝ) (amp : ℝ) (order : ℕ) :
    ∃ R g, hbmAmpControlRes S X Fl h recov amp order Nt tol true = .ok ⟨R, some g⟩ ∧
      hbmAmpControlRes S X Fl h recov amp order Nt tol false = .ok ⟨R, none⟩ :=
  ampControl_ng S hh Nt tol A hA X Fl recov amp order

/-- C48: the amplitude/phase controlled residual vanishes exactly when the harmonic balance equations hold
with the scaled first-harmonic forcing and the first-harmonic motion `y` of the control point satisfies
`w^order y(t) = amp cos(w t)` at all times: requested amplitude and zero sine part. -/
theorem C48_amp_phase_zero_iff (S : VibSys) (h : List ℕ) (hh : Admissible h)
    (h1 : ∃ hs, h = 1 :: hs ∨ h = 0 :: 1 :: hs) (Nt : ℕ) (tol : ℝ)
    (A : NLForce → (ℕ → ℝ) → ℝ → AftOut) (hA : ∀ f ∈ S.forces, ∀ U w, f.aft U w h Nt tol = .ok (A f U w))
    (X Fl recov : ℕ → ℝ) (amp : ℝ) (order : ℕ) :
    let L := numCoeff h * S.nd
    X (L + 2) ≠ 0 →
    ∃ R g R' g', hbmAmpPhaseRes S X Fl h recov amp order Nt tol true = .ok ⟨R, some g⟩ ∧
      hbmRes S (fun i => if i < L then X i else X (L + 2)) (phaseForcing S.nd h Fl (X L) (X (L + 1))) h Nt tol true
        = .ok ⟨R', some g'⟩ ∧
      ((∀ i < L + 2, R i = 0) ↔ (∀ i < L, R' i = 0) ∧
        ∀ t, X (L + 2) ^ order * controlMotion S.nd h recov X (X (L + 2)) t = amp * Real.cos (X (L + 2) * t)) := by
  intro L hw
  obtain ⟨R, J, d, e1, e2, e3, e4, -⟩ := ampPhase_ok S hh Nt tol A hA X Fl recov amp order (L := L) rfl
    (coefOf_first h1 (fun _ => 0)).2
  have ez : (fun i => if i < L then X i else X (L + 2)) = hcat L (sl 0 L X) (fun _ => X (L + 2)) := by
    funext i
    by_cases hi : i < L <;> simp [hcat, hi, sl]
  refine ⟨R, _, _, _, e1, hbmRes_ok S hh Nt tol A hA _ _, ?_⟩
  rw [controlMotion_eq h1, ez]
  constructor
  · intro H
    refine ⟨fun i hi => ?_, fun t => ?_⟩
    · rw [← e2 i hi]; exact H i (by omega)
    · have a1 := H L (by omega)
      have a2 := H (L + 1) (by omega)
      rw [e3] at a1
      rw [e4] at a2
      rw [mul_add, ← mul_assoc, ← mul_assoc, a2, sub_eq_zero.mp a1]
      ring
  · rintro ⟨H1, H2⟩ i hi
    by_cases hiL : i < L
    · rw [e2 i hiL]; exact H1 i hiL
    · by_cases c : i = L
      · have := H2 0
        simp at this
        rw [c, e3, this, sub_self]
      · have c' : i = L + 1 := by omega
        have := H2 (Real.pi / 2 / X (L + 2))
        beta_reduce at this
        rw [mul_div_cancel₀ _ hw, Real.cos_pi_div_two, Real.sin_pi_div_two, mul_zero, zero_add, mul_one,
          mul_zero] at this
        rw [c', e4, this]

/-- C48: all derivatives returned by `hbm_amp_phase_control_res` are the true ones (`w ≠ 0`). -/
theorem C48_amp_phase_jacobian (S : VibSys) (h : List ℕ) (hh : Admissible h)
    (h1 : ∃ hs, h = 1 :: hs ∨ h = 0 :: 1 :: hs) (Nt : ℕ) (tol : ℝ)
    (A : NLForce → (ℕ → ℝ) → ℝ → AftOut) (hA : ∀ f ∈ S.forces, ∀ U w, f.aft U w h Nt tol = .ok (A f U w))
    (Fl recov : ℕ → ℝ) (amp : ℝ) (order : ℕ) :
    let L := numCoeff h * S.nd
    ∃ res : (ℕ → ℝ) → ResOut, (∀ X, hbmAmpPhaseRes S X Fl h recov amp order Nt tol true = .ok (res X)) ∧
      ∀ X, X (L + 2) ≠ 0 → (∀ f ∈ S.forces, JointTrue (A f) L (hcat L (sl 0 L X) (fun _ => X (L + 2)))) →
        ResTrue res (L + 2) (L + 2) X := by
  intro L
  have hp := (coefOf_first h1 (fun _ => 0)).2
  choose R J d e1 e2 e3 e4 e5 e6 e7 e8 e9 e10 e11 e12 using
    fun X => ampPhase_ok S hh Nt tol A hA X Fl recov amp order (L := L) rfl hp
  refine ⟨_, e1, fun X hw hT => ⟨_, _, rfl, ?_⟩⟩
  have hle : (zi h + 1 + 1) * S.nd ≤ L := Nat.mul_le_mul_right _ hp
  have hz : (zi h + 1) * S.nd ≤ (zi h + 1 + 1) * S.nd := Nat.mul_le_mul_right _ (by omega)
  have hpow : HasGrad (L + 2 + 1) (fun Y => Y (L + 2) ^ order) _ X :=
    hasGrad_entry (n := L + 2 + 1) (q := L + 2) (x := X) (e := fun w => w ^ order) (hasDerivAt_pow order (X (L + 2)))
  have hpd : ((order : ℝ) * X (L + 2) ^ (order - 1)) = order * X (L + 2) ^ order / X (L + 2) := by
    rcases order with _ | k
    · simp
    · rw [Nat.add_sub_cancel, pow_succ]; field_simp
  intro i hi
  by_cases hiL : i < L
  · have g1 := hbmG_pack S hh A (n := L + 2 + 1) (x := X) (φ := fun X => X (L + 2))
      (HasGrad.coord (L + 2)) (L := L) rfl hT i hiL
    have g2 := hasGrad_phaseForcing (HasGrad.coord (n := L + 2 + 1) (x := X) L)
      (HasGrad.coord (n := L + 2 + 1) (x := X) (L + 1)) hh S.nd Fl i
    refine ((g1.sub g2).congr_fun (fun Y => e2 Y i hiL)).congr (fun j hj => ?_)
    by_cases c1 : j < L
    · have c2 : j < L + 2 := by omega
      have c3 : j ≠ L + 2 := by omega
      have c4 : j ≠ L := by omega
      have c5 : j ≠ L + 1 := by omega
      simp only [c1, c2, c3, c4, c5, if_true, if_false, e5 X i hiL j c1]; ring
    · by_cases c2 : j = L
      · subst c2
        have c3 : L ≠ L + 2 := by omega
        have c4 : L ≠ L + 1 := by omega
        have c5 : L < L + 2 := by omega
        simp only [c1, c3, c4, c5, if_true, if_false, e6 X i hiL]
        split <;> ring
      · by_cases c3 : j = L + 1
        · subst c3
          have c4 : L + 1 ≠ L + 2 := by omega
          have c5 : L + 1 < L + 2 := by omega
          simp only [c1, c2, c4, c5, if_true, if_false, e7 X i hiL]
          split <;> ring
        · have c4 : j = L + 2 := by omega
          subst c4
          simp only [c1, c2, c3, lt_irrefl, if_true, if_false, e8 X i hiL]; ring
  · by_cases hi' : i = L
    · subst hi'
      refine ((((hpow.mul (hasGrad_ctrl (L + 2 + 1) S.nd recov (zi h) X)).sub
        (HasGrad.const amp)).congr_fun (fun Y => e3 Y))).congr (fun j hj => ?_)
      by_cases c1 : j < L + 2
      · have c3 : j ≠ L + 2 := by omega
        simp only [c1, c3, if_true, if_false, e9 X j c1, blk]
        ring
      · have c3 : j = L + 2 := by omega
        subst c3
        have c4 : ¬ (zi h * S.nd ≤ L + 2 ∧ L + 2 < (zi h + 1) * S.nd) := by omega
        simp only [lt_irrefl, if_true, if_false, c4, e11, hpd]
        ring
    · have hi'' : i = L + 1 := by omega
      subst hi''
      refine ((hpow.mul (hasGrad_ctrl (L + 2 + 1) S.nd recov (zi h + 1) X)).congr_fun (fun Y => e4 Y)).congr
        (fun j hj => ?_)
      by_cases c1 : j < L + 2
      · have c3 : j ≠ L + 2 := by omega
        simp only [c1, c3, if_true, if_false, e10 X j c1, blk]
        ring
      · have c3 : j = L + 2 := by omega
        subst c3
        have c4 : ¬ ((zi h + 1) * S.nd ≤ L + 2 ∧ L + 2 < (zi h + 1 + 1) * S.nd) := by omega
        simp only [lt_irrefl, if_true, if_false, c4, e12, hpd]
        ring

/-- C48: the variant with amplitude as last unknown and fixed frequency evaluates the same residual at that
amplitude, and its derivatives are the true ones. -/
theorem C48_amp_phase_dA (S : VibSys) (h : List ℕ) (hh : Admissible h)
    (h1 : ∃ hs, h = 1 :: hs ∨ h = 0 :: 1 :: hs) (Nt : ℕ) (tol : ℝ)
    (A : NLForce → (ℕ → ℝ) → ℝ → AftOut) (hA : ∀ f ∈ S.forces, ∀ U w, f.aft U w h Nt tol = .ok (A f U w))
    (Fl recov : ℕ → ℝ) (w : ℝ) (order : ℕ) :
    let L := numCoeff h * S.nd
    ∃ res : (ℕ → ℝ) → ResOut, (∀ X, hbmAmpPhasedARes S X Fl h recov w order Nt tol true = .ok (res X)) ∧
      (∀ X, ∃ g, hbmAmpPhaseRes S (fun i => if i < L + 2 then X i else w) Fl h recov (X (L + 2)) order Nt tol true
        = .ok ⟨(res X).R, g⟩) ∧
      ∀ X, (∀ f ∈ S.forces, JointTrue (A f) L (hcat L (sl 0 L X) (fun _ => w))) →
        ResTrue res (L + 2) (L + 2) X := by
  intro L
  have hp := (coefOf_first h1 (fun _ => 0)).2
  have hle : (zi h + 1 + 1) * S.nd ≤ L := Nat.mul_le_mul_right _ hp
  have hz : (zi h + 1) * S.nd ≤ (zi h + 1 + 1) * S.nd := Nat.mul_le_mul_right _ (by omega)
  have hY : ∀ X : ℕ → ℝ, hcat (L + 2) (sl 0 (L + 2) X) (fun _ => w) = fun i => if i < L + 2 then X i else w := by
    intro X
    funext i
    by_cases hi : i < L + 2 <;> simp [hcat, hi, sl]
  choose R J d e1 e2 e3 e4 e5 e6 e7 e8 e9 e10 e11 e12 using
    fun X : ℕ → ℝ => ampPhase_ok S hh Nt tol A hA (fun i => if i < L + 2 then X i else w) Fl recov (X (L + 2)) order
      (L := L) rfl hp
  have er : ∀ X, hbmAmpPhasedARes S X Fl h recov w order Nt tol true
      = .ok ⟨R X, some (J X, setRow (fun _ => 0) L (-1))⟩ := by
    intro X
    unfold hbmAmpPhasedARes
    rw [Nhc_ok hh.nodup]
    show (match hbmAmpPhaseRes S (hcat (L + 2) (sl 0 (L + 2) X) (fun _ => w)) Fl h recov (X (L + 2)) order Nt tol true with
      | .error e => _ | .ok o => _) = _
    rw [hY, e1]
    rfl
  refine ⟨_, er, fun X => ⟨_, e1 X⟩, fun X hT => ⟨_, _, rfl, ?_⟩⟩
  have hs : ∀ X : ℕ → ℝ, hcat L (sl 0 L (fun i => if i < L + 2 then X i else w)) (fun _ => w) = hcat L (sl 0 L X) (fun _ => w) := by
    intro X
    rw [sl_congr (n := L) (b := X) (fun i hi => by rw [if_pos (show i < L + 2 by omega)])]
  have hc : ∀ p, (p + 1) * S.nd ≤ L → ∀ X : ℕ → ℝ,
      ctrl S.nd recov p (fun i => if i < L + 2 then X i else w) = ctrl S.nd recov p X := by
    intro p hpL X
    unfold ctrl
    refine sum_congr rfl (fun e he => ?_)
    have he := mem_range.mp he
    have : (p + 1) * S.nd = p * S.nd + S.nd := by ring
    beta_reduce
    rw [if_pos (by omega)]
  simp only [lt_irrefl, if_false, show L < L + 2 by omega, show L + 1 < L + 2 by omega, if_true, hs] at e2 e3 e4 e5 e8 e9 e10
  simp only [hc _ (hz.trans hle), hc _ hle] at e3 e4
  intro i hi
  by_cases hiL : i < L
  · have g1 := hbmG_pack S hh A (n := L + 2 + 1) (x := X) (φ := fun _ => w)
      (HasGrad.const w) (L := L) rfl hT i hiL
    have g2 := hasGrad_phaseForcing (HasGrad.coord (n := L + 2 + 1) (x := X) L)
      (HasGrad.coord (n := L + 2 + 1) (x := X) (L + 1)) hh S.nd Fl i
    refine ((g1.sub g2).congr_fun (fun Y => e2 Y i hiL)).congr (fun j hj => ?_)
    by_cases c1 : j < L
    · have c2 : j < L + 2 := by omega
      have c4 : j ≠ L := by omega
      have c5 : j ≠ L + 1 := by omega
      simp only [c1, c2, c4, c5, if_true, if_false, e5 X i hiL j c1]; ring
    · by_cases c2 : j = L
      · subst c2
        have c4 : L ≠ L + 1 := by omega
        have c5 : L < L + 2 := by omega
        simp only [c1, c4, c5, if_true, if_false, e6 X i hiL]
        split <;> ring
      · by_cases c3 : j = L + 1
        · subst c3
          have c5 : L + 1 < L + 2 := by omega
          simp only [c1, c2, c5, if_true, if_false, e7 X i hiL]
          split <;> ring
        · have c4 : j = L + 2 := by omega
          subst c4
          have c5 : i ≠ L := by omega
          simp only [c1, c2, c3, c5, lt_irrefl, if_false, setRow]; ring
  · by_cases hi' : i = L
    · subst hi'
      refine (((HasGrad.const_mul (w ^ order) (hasGrad_ctrl (L + 2 + 1) S.nd recov (zi h) X)).sub
        (HasGrad.coord (n := L + 2 + 1) (x := X) (L + 2))).congr_fun (fun Y => e3 Y)).congr (fun j hj => ?_)
      by_cases c1 : j < L + 2
      · have c3 : j ≠ L + 2 := by omega
        simp only [c1, c3, if_true, if_false, e9 X j c1, blk]
        ring
      · have c3 : j = L + 2 := by omega
        subst c3
        have c4 : ¬ (zi h * S.nd ≤ L + 2 ∧ L + 2 < (zi h + 1) * S.nd) := by omega
        simp only [lt_irrefl, if_true, if_false, c4, setRow]
        ring
    · have hi'' : i = L + 1 := by omega
      subst hi''
      refine ((HasGrad.const_mul (w ^ order) (hasGrad_ctrl (L + 2 + 1) S.nd recov (zi h + 1) X)).congr_fun
        (fun Y => e4 Y)).congr (fun j hj => ?_)
      by_cases c1 : j < L + 2
      · simp only [c1, if_true, e10 X j c1, blk]
      · have c3 : j = L + 2 := by omega
        subst c3
        have c4 : ¬ ((zi h + 1) * S.nd ≤ L + 2 ∧ L + 2 < (zi h + 1 + 1) * S.nd) := by omega
        have c5 : L + 1 ≠ L := by omega
        simp only [lt_irrefl, c5, if_false, c4, setRow]
        ring

/-- Example: one degree of freedom, harmonic 1, velocity control (`order = 1`): `2 cos(3 t)` has velocity
amplitude 6 and displacement amplitude 2. -/
example : IsAmplitude (iteratedDeriv 1 (controlMotion 1 [1] (fun _ => 1) (fun i => if i = 0 then 2 else 0) 3)) 6 ∧
    ¬ IsAmplitude (iteratedDeriv 1 (controlMotion 1 [1] (fun _ => 1) (fun i => if i = 0 then 2 else 0) 3)) 2 := by
  rw [controlMotion_eq ⟨[], Or.inl rfl⟩, amplitude_iff _ _ _ (by norm_num), amplitude_iff _ _ _ (by norm_num)]
  norm_num [ctrl, zi]

end

end TMD
