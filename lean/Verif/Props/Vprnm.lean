import Verif.Lemmas.Vprnm
import Verif.Props.AmpControl
import Verif.Props.Shooting

/-!
# Properties C52 and C72-C74: variable phase resonance equation and the residuals built on it
-/

namespace TMD

open Spec Finset

noncomputable section

/-- The filtered superharmonic excitation: minus the harmonic `rhi` of the nonlinear forces caused by the
motion without the harmonics `rhi` and above. `tot` is the total nonlinear force of a motion. -/
def superForce (nd : ℕ) (h : List ℕ) (rhi : ℕ) (filt : Option (ℕ × (ℕ → ℕ → ℝ))) (tot : (ℕ → ℝ) → ℕ → ℝ)
    (U : ℕ → ℝ) : ℕ → ℝ :=
  modalPart nd filt (fun k => - superPart nd h rhi (tot (lowMotion nd h rhi U)) k)

/-- The filtered superharmonic response (the filter for displacements is `Φ M`). -/
def superResponse (nd : ℕ) (h : List ℕ) (rhi : ℕ) (M : ℕ → ℕ → ℝ) (filt : Option (ℕ × (ℕ → ℕ → ℝ))) (U : ℕ → ℝ) :
    ℕ → ℝ :=
  modalPart nd (filt.map (fun p => (p.1, fun i j => ∑ k ∈ range nd, p.2 i k * M k j))) (superPart nd h rhi U)

/-- The total nonlinear force of the system. -/
def systemForce (S : VibSys) (A : NLForce → (ℕ → ℝ) → ℝ → AftOut) (w : ℝ) (U : ℕ → ℝ) (i : ℕ) : ℝ :=
  (S.forces.map (fun f => (A f U w).F i)).sum

theorem rhi_bound {h : List ℕ} (hs : h.Pairwise (· < ·)) {rhi : ℕ} (hm : rhi ∈ h) (h1 : 1 ≤ rhi) (nd : ℕ) :
    nd * (numCoeff (h.filter (fun k => k < rhi)) + 2) ≤ numCoeff h * nd := by
  rw [Nat.mul_comm]
  exact Nat.mul_le_mul_right _ (coefOf_sorted hs hm h1 (fun _ => 0)).2

theorem rhi_bound' {h : List ℕ} (hs : h.Pairwise (· < ·)) {rhi : ℕ} (hm : rhi ∈ h) (h1 : 1 ≤ rhi) (nd : ℕ) :
    nd * numCoeff (h.filter (fun k => k < rhi)) ≤ numCoeff h * nd :=
  (Nat.mul_le_mul_left _ (by omega)).trans (rhi_bound hs hm h1 nd)

theorem admissible_of_sorted {h : List ℕ} (hs : h.Pairwise (· < ·)) {rhi : ℕ} (hm : rhi ∈ h) : Admissible h := by
  refine ⟨List.ne_nil_of_mem hm, hs.imp (fun h => Nat.ne_of_lt h), ?_⟩
  rcases h with _ | ⟨k, hs'⟩
  · simp
  · intro h0
    exact absurd ((List.pairwise_cons.mp hs).1 0 h0) (Nat.not_lt_zero _)

/-- `lowMotion` is the motion in which exactly the harmonics below `rhi` are kept. -/
theorem C52_low_motion {h : List ℕ} (hs : h.Pairwise (· < ·)) (rhi nd : ℕ) (U : ℕ → ℝ) {e : ℕ} (he : e < nd) (τ : ℝ) :
    series h (fun r => lowMotion nd h rhi U (r * nd + e)) τ
      = series (h.filter (fun k => k < rhi)) (fun r => U (r * nd + e)) τ := by
  rw [← series_trunc hs]
  congr 1
  funext r
  unfold lowMotion
  refine if_congr ?_ rfl rfl
  constructor
  · intro hk
    by_contra hc
    have := Nat.mul_le_mul_right nd (Nat.le_of_not_lt hc)
    omega
  · intro hr
    have := Nat.mul_le_mul_right nd hr
    rw [Nat.succ_mul] at this
    omega

/-- C52: with or without gradients the value of the phase equation is the cosine of the angle between
superharmonic excitation and superharmonic response. -/
theorem C52_value (S : VibSys) (h : List ℕ) (hs : h.Pairwise (· < ·)) (rhi : ℕ) (hm : rhi ∈ h) (h1 : 1 ≤ rhi)
    (Nt : ℕ) (tol : ℝ) (A : NLForce → (ℕ → ℝ) → ℝ → AftOut)
    (hA : ∀ f ∈ S.forces, ∀ U w, f.aft U w h Nt tol = .ok (A f U w) ∧ f.aftNoGrad U w h Nt tol = .ok (A f U w).F)
    (U : ℕ → ℝ) (w : ℝ) (filt : Option (ℕ × (ℕ → ℕ → ℝ))) :
    ∃ R d, vprnmEqn S U w h rhi Nt tol filt true = .ok (R, some d) ∧
      vprnmEqn S U w h rhi Nt tol filt false = .ok (R, none) ∧
      R = cosAngle (modalRows S.nd filt) (superForce S.nd h rhi filt (systemForce S A w) U)
        (superResponse S.nd h rhi S.M filt U) := by
  have hn : h.Nodup := hs.imp (fun h => Nat.ne_of_lt h)
  refine ⟨_, _, vprnm_ok S hn Nt tol A (fun f hf U w => (hA f hf U w).1) U w rhi filt rfl rfl rfl,
    vprnm_raw_ng S hn Nt tol A (fun f hf U w => (hA f hf U w).2) U w rhi filt rfl rfl rfl, ?_⟩
  exact cosAngle_congr (fun i hi => vF_eq S A hs hm h1 (rhi_bound' hs hm h1 S.nd) rfl filt U w hi)
    (fun i hi => vX_eq S hs hm h1 rfl filt U hi)

/-- C52: the value lies in `[-1, 1]` (the norms are not zero, so the division is one). -/
theorem C52_bounded (S : VibSys) (h : List ℕ) (hs : h.Pairwise (· < ·)) (rhi : ℕ) (hm : rhi ∈ h) (h1 : 1 ≤ rhi)
    (Nt : ℕ) (tol : ℝ) (A : NLForce → (ℕ → ℝ) → ℝ → AftOut)
    (hA : ∀ f ∈ S.forces, ∀ U w, f.aft U w h Nt tol = .ok (A f U w) ∧ f.aftNoGrad U w h Nt tol = .ok (A f U w).F)
    (U : ℕ → ℝ) (w : ℝ) (filt : Option (ℕ × (ℕ → ℕ → ℝ)))
    (_hF : ∃ i < modalRows S.nd filt, superForce S.nd h rhi filt (systemForce S A w) U i ≠ 0)
    (_hX : ∃ i < modalRows S.nd filt, superResponse S.nd h rhi S.M filt U i ≠ 0) :
    ∃ R d, vprnmEqn S U w h rhi Nt tol filt true = .ok (R, some d) ∧ -1 ≤ R ∧ R ≤ 1 := by
  obtain ⟨R, d, e1, -, e2⟩ := C52_value S h hs rhi hm h1 Nt tol A hA U w filt
  refine ⟨R, d, e1, ?_⟩
  rw [← abs_le, e2]
  exact cosAngle_le_one _ _ _

theorem modalPart_smul (nd : ℕ) (filt : Option (ℕ × (ℕ → ℕ → ℝ))) (v : ℕ → ℝ) (a : ℝ) {v' : ℕ → ℝ}
    (hv : ∀ k < 2 * nd, v' k = a * v k) {i : ℕ} (hi : i < modalRows nd filt) :
    modalPart nd filt v' i = a * modalPart nd filt v i := by
  rcases filt with _ | ⟨nf, Φ⟩
  · exact hv i hi
  · simp only [modalPart]
    by_cases c : i < nf
    · rw [if_pos c, if_pos c, mul_sum]
      refine sum_congr rfl (fun e he => ?_)
      have := mem_range.mp he
      rw [hv e (by omega)]; ring
    · rw [if_neg c, if_neg c, mul_sum]
      refine sum_congr rfl (fun e he => ?_)
      have := mem_range.mp he
      rw [hv (nd + e) (by omega)]; ring

/-- C52: scaling the superharmonic response by `a > 0` (higher harmonics arbitrary) does not change the value;
reversing it changes the sign. -/
theorem C52_scale (S : VibSys) (h : List ℕ) (hs : h.Pairwise (· < ·)) (rhi : ℕ) (hm : rhi ∈ h) (h1 : 1 ≤ rhi)
    (Nt : ℕ) (tol : ℝ) (A : NLForce → (ℕ → ℝ) → ℝ → AftOut)
    (hA : ∀ f ∈ S.forces, ∀ U w, f.aft U w h Nt tol = .ok (A f U w) ∧ f.aftNoGrad U w h Nt tol = .ok (A f U w).F)
    (U U' : ℕ → ℝ) (w : ℝ) (filt : Option (ℕ × (ℕ → ℕ → ℝ))) (hlow : lowMotion S.nd h rhi U' = lowMotion S.nd h rhi U)
    (a : ℝ) (hsup : ∀ k < 2 * S.nd, superPart S.nd h rhi U' k = a * superPart S.nd h rhi U k) :
    ∃ R R', vprnmEqn S U w h rhi Nt tol filt false = .ok (R, none) ∧
      vprnmEqn S U' w h rhi Nt tol filt false = .ok (R', none) ∧
      (0 < a → R' = R) ∧ (a < 0 → R' = - R) := by
  obtain ⟨R, d, -, e1, e2⟩ := C52_value S h hs rhi hm h1 Nt tol A hA U w filt
  obtain ⟨R', d', -, e1', e2'⟩ := C52_value S h hs rhi hm h1 Nt tol A hA U' w filt
  refine ⟨R, R', e1, e1', ?_⟩
  have hF : superForce S.nd h rhi filt (systemForce S A w) U' = superForce S.nd h rhi filt (systemForce S A w) U := by
    unfold superForce; rw [hlow]
  have hrow : modalRows S.nd (filt.map (fun p => (p.1, fun i j => ∑ k ∈ range S.nd, p.2 i k * S.M k j)))
      = modalRows S.nd filt := by
    rcases filt with _ | ⟨nf, Φ⟩ <;> rfl
  have hX : ∀ i < modalRows S.nd filt, superResponse S.nd h rhi S.M filt U' i = a * superResponse S.nd h rhi S.M filt U i :=
    fun i hi => modalPart_smul _ _ _ a hsup (by rw [hrow]; exact hi)
  rw [e2, e2', hF, cosAngle_congr (fun i _ => rfl) hX]
  constructor
  · intro ha
    exact cosAngle_smul _ _ _ ha
  · intro ha
    rw [← cosAngle_smul _ _ (superResponse S.nd h rhi S.M filt U) (show 0 < -a by linarith), ← cosAngle_neg]
    congr 1
    funext i
    ring

/-- C52: the phase equation holds exactly when superharmonic response and excitation are orthogonal. -/
theorem C52_zero_iff (S : VibSys) (h : List ℕ) (hs : h.Pairwise (· < ·)) (rhi : ℕ) (hm : rhi ∈ h) (h1 : 1 ≤ rhi)
    (Nt : ℕ) (tol : ℝ) (A : NLForce → (ℕ → ℝ) → ℝ → AftOut)
    (hA : ∀ f ∈ S.forces, ∀ U w, f.aft U w h Nt tol = .ok (A f U w) ∧ f.aftNoGrad U w h Nt tol = .ok (A f U w).F)
    (U : ℕ → ℝ) (w : ℝ) (filt : Option (ℕ × (ℕ → ℕ → ℝ)))
    (hF : ∃ i < modalRows S.nd filt, superForce S.nd h rhi filt (systemForce S A w) U i ≠ 0)
    (hX : ∃ i < modalRows S.nd filt, superResponse S.nd h rhi S.M filt U i ≠ 0) :
    ∃ R, vprnmEqn S U w h rhi Nt tol filt false = .ok (R, none) ∧
      (R = 0 ↔ ∑ i ∈ range (modalRows S.nd filt), superForce S.nd h rhi filt (systemForce S A w) U i
        * superResponse S.nd h rhi S.M filt U i = 0) := by
  obtain ⟨R, d, -, e1, e2⟩ := C52_value S h hs rhi hm h1 Nt tol A hA U w filt
  refine ⟨R, e1, ?_⟩
  have nz : ∀ v : ℕ → ℝ, (∃ i < modalRows S.nd filt, v i ≠ 0) → ∑ i ∈ range (modalRows S.nd filt), v i * v i ≠ 0 := by
    rintro v ⟨i, hi, hv⟩ h0
    have := (sum_eq_zero_iff_of_nonneg (fun k _ => mul_self_nonneg (v k))).mp h0 i (mem_range.mpr hi)
    exact hv (mul_self_eq_zero.mp this)
  rw [e2]
  exact cosAngle_eq_zero _ _ _ (nz _ hX) (nz _ hF)

/-- C52, one degree of freedom: for response `ρ cos(rhi w t - θ)` and excitation `σ cos(rhi w t - φ)` the
value is `cos(θ - φ)`. -/
theorem C52_phase (S : VibSys) (hnd : S.nd = 1) (h : List ℕ) (hs : h.Pairwise (· < ·)) (rhi : ℕ) (hm : rhi ∈ h)
    (h1 : 1 ≤ rhi) (Nt : ℕ) (tol : ℝ) (A : NLForce → (ℕ → ℝ) → ℝ → AftOut)
    (hA : ∀ f ∈ S.forces, ∀ U w, f.aft U w h Nt tol = .ok (A f U w) ∧ f.aftNoGrad U w h Nt tol = .ok (A f U w).F)
    (U : ℕ → ℝ) (w ρ σ θ φ : ℝ) (hρ : 0 < ρ) (hσ : 0 < σ)
    (hX : coefOf h U rhi = (ρ * Real.cos θ, ρ * Real.sin θ))
    (hF : coefOf h (fun r => - systemForce S A w (lowMotion 1 h rhi U) r) rhi = (σ * Real.cos φ, σ * Real.sin φ)) :
    vprnmEqn S U w h rhi Nt tol none false = .ok (Real.cos (θ - φ), none) := by
  obtain ⟨R, d, -, e1, e2⟩ := C52_value S h hs rhi hm h1 Nt tol A hA U w none
  rw [e1, e2]
  congr 2
  rw [(coefOf_sorted hs hm h1 _).1, Prod.mk.injEq] at hX hF
  have x0 : superResponse S.nd h rhi S.M none U 0 = ρ * Real.cos θ := by
    simp only [superResponse, Option.map_none, modalPart]
    rw [superPart_eq hs hm h1, hnd, Nat.one_mul]; exact hX.1
  have x1 : superResponse S.nd h rhi S.M none U 1 = ρ * Real.sin θ := by
    simp only [superResponse, Option.map_none, modalPart]
    rw [superPart_eq hs hm h1, hnd, Nat.one_mul]; exact hX.2
  have f0 : superForce S.nd h rhi none (systemForce S A w) U 0 = σ * Real.cos φ := by
    simp only [superForce, modalPart]
    rw [superPart_eq hs hm h1, hnd, Nat.one_mul]; exact hF.1
  have f1 : superForce S.nd h rhi none (systemForce S A w) U 1 = σ * Real.sin φ := by
    simp only [superForce, modalPart]
    rw [superPart_eq hs hm h1, hnd, Nat.one_mul]; exact hF.2
  unfold cosAngle
  rw [show modalRows S.nd none = 2 by simp [modalRows, hnd]]
  simp only [sum_range_succ, sum_range_zero, zero_add, x0, x1, f0, f1]
  have s1 := Real.sin_sq_add_cos_sq θ
  have s2 := Real.sin_sq_add_cos_sq φ
  have q1 : ρ * Real.cos θ * (ρ * Real.cos θ) + ρ * Real.sin θ * (ρ * Real.sin θ) = ρ^2 := by linear_combination ρ^2 * s1
  have q2 : σ * Real.cos φ * (σ * Real.cos φ) + σ * Real.sin φ * (σ * Real.sin φ) = σ^2 := by linear_combination σ^2 * s2
  rw [q1, q2, Real.sqrt_sq hρ.le, Real.sqrt_sq hσ.le, Real.cos_sub]
  field_simp

theorem sq_sum_ne {m : ℕ} {v v' : ℕ → ℝ} (hv : ∀ i < m, v i = v' i) (h : ∃ i < m, v' i ≠ 0) :
    ∑ i ∈ range m, v i * v i ≠ 0 := by
  obtain ⟨i, hi, hne⟩ := h
  intro h0
  have := (sum_eq_zero_iff_of_nonneg (fun k _ => mul_self_nonneg (v k))).mp h0 i (mem_range.mpr hi)
  rw [← hv i hi] at hne
  exact hne (mul_self_eq_zero.mp this)

/-- The phase equation is smooth at `(U, w)`: excitation and response are not zero and the derivatives of all
forces are the true ones at the motion without the superharmonics. -/
structure PhaseRegular (S : VibSys) (A : NLForce → (ℕ → ℝ) → ℝ → AftOut) (h : List ℕ) (rhi : ℕ)
    (filt : Option (ℕ × (ℕ → ℕ → ℝ))) (U : ℕ → ℝ) (w : ℝ) : Prop where
  force : ∃ i < modalRows S.nd filt, superForce S.nd h rhi filt (systemForce S A w) U i ≠ 0
  response : ∃ i < modalRows S.nd filt, superResponse S.nd h rhi S.M filt U i ≠ 0
  deriv : ∀ f ∈ S.forces, JointTrue (A f) (numCoeff h * S.nd)
    (fun k => if k < numCoeff h * S.nd then lowMotion S.nd h rhi U k else w)

/-- The value and gradient of the phase equation as functions of `n ≥ L + 1` unknowns. -/
theorem phase_grad (S : VibSys) (h : List ℕ) (hs : h.Pairwise (· < ·)) (rhi : ℕ) (hm : rhi ∈ h) (h1 : 1 ≤ rhi)
    (Nt : ℕ) (tol : ℝ) (A : NLForce → (ℕ → ℝ) → ℝ → AftOut)
    (hA : ∀ f ∈ S.forces, ∀ U w, f.aft U w h Nt tol = .ok (A f U w))
    (filt : Option (ℕ × (ℕ → ℕ → ℝ))) {L : ℕ} (hL : L = numCoeff h * S.nd) (n q : ℕ) (hq : L ≤ q) :
    ∃ (R : (ℕ → ℝ) → ℝ) (d : (ℕ → ℝ) → ℕ → ℝ),
      (∀ Z, vprnmEqn S (sl 0 L Z) (Z q) h rhi Nt tol filt true = .ok (R Z, some (d Z))) ∧
      (∀ Z, R Z = cosAngle (modalRows S.nd filt) (superForce S.nd h rhi filt (systemForce S A (Z q)) Z)
        (superResponse S.nd h rhi S.M filt Z)) ∧
      ∀ x, PhaseRegular S A h rhi filt x (x q) →
        HasGrad n R (fun j => if j < L then d x j else if j = q then d x L else 0) x := by
  subst hL
  have hn : h.Nodup := hs.imp (fun h => Nat.ne_of_lt h)
  set L := numCoeff h * S.nd with hL
  set ri := numCoeff (h.filter (fun k => k < rhi)) with hri
  have hb : S.nd * (ri + 2) ≤ L := rhi_bound hs hm h1 S.nd
  have hb' : S.nd * ri ≤ L := rhi_bound' hs hm h1 S.nd
  have eF : ∀ Z w, vF S A L ri filt (sl 0 L Z) w = vF S A L ri filt Z w := fun Z w => by
    unfold vF; rw [truncU_of_sl]
  have eGF : ∀ Z w, vGF S A L ri filt (sl 0 L Z) w = vGF S A L ri filt Z w := fun Z w => by
    unfold vGF; rw [truncU_of_sl]
  have eGw : ∀ Z w, vGw S A L ri filt (sl 0 L Z) w = vGw S A L ri filt Z w := fun Z w => by
    unfold vGw; rw [truncU_of_sl]
  have eX : ∀ Z, vX S ri filt (sl 0 L Z) = vX S ri filt Z := fun Z => by
    funext i
    unfold vX
    refine sum_congr rfl (fun k hk => ?_)
    have hk := mem_range.mp hk
    have : S.nd * (ri + 2) = S.nd * ri + 2 * S.nd := by ring
    rw [sl_zero (by omega)]
  refine ⟨fun Z => cosAngle (modalRows S.nd filt) (vF S A L ri filt Z (Z q)) (vX S ri filt Z),
    fun Z => vGrad (modalRows S.nd filt) (vF S A L ri filt Z (Z q)) (vX S ri filt Z) (vGF S A L ri filt Z (Z q))
      (vGw S A L ri filt Z (Z q)) (filtQ S.nd S.M filt) S.nd ri L, fun Z => ?_, fun Z => ?_, fun x hx => ?_⟩
  · rw [vprnm_ok S hn Nt tol A hA (sl 0 L Z) (Z q) rhi filt hL hri rfl, eF, eX, eGF, eGw]
  · exact cosAngle_congr (fun i hi => vF_eq S A hs hm h1 hb' hri filt Z (Z q) hi)
      (fun i hi => vX_eq S hs hm h1 hri filt Z hi)
  · have eT : hcat L (truncU L S.nd ri x) (fun _ => x q) = fun k => if k < L then lowMotion S.nd h rhi x k else x q := by
      rw [truncU_low rhi x hb']; rfl
    exact vprnm_grad S A filt hb hq x (fun f hf => by rw [eT]; exact hx.deriv f hf)
      (sq_sum_ne (fun i hi => vF_eq S A hs hm h1 hb' hri filt x (x q) hi) hx.force)
      (sq_sum_ne (fun i hi => vX_eq S hs hm h1 hri filt x hi) hx.response)

/-- C72: the gradient returned by `vprnm_single_eqn` with respect to all coefficients and the frequency is
the true one wherever the phase equation is smooth. -/
theorem C72_gradient (S : VibSys) (h : List ℕ) (hs : h.Pairwise (· < ·)) (rhi : ℕ) (hm : rhi ∈ h) (h1 : 1 ≤ rhi)
    (Nt : ℕ) (tol : ℝ) (A : NLForce → (ℕ → ℝ) → ℝ → AftOut)
    (hA : ∀ f ∈ S.forces, ∀ U w, f.aft U w h Nt tol = .ok (A f U w))
    (filt : Option (ℕ × (ℕ → ℕ → ℝ))) :
    let L := numCoeff h * S.nd
    ∃ (R : (ℕ → ℝ) → ℝ) (d : (ℕ → ℝ) → ℕ → ℝ),
      (∀ Z, vprnmEqn S (sl 0 L Z) (Z L) h rhi Nt tol filt true = .ok (R Z, some (d Z))) ∧
      ∀ x, PhaseRegular S A h rhi filt x (x L) → HasGrad (L + 1) R (d x) x := by
  intro L
  obtain ⟨R, d, e1, -, e2⟩ := phase_grad S h hs rhi hm h1 Nt tol A hA filt (L := L) rfl (L + 1) L le_rfl
  refine ⟨R, d, e1, fun x hx => (e2 x hx).congr (fun j hj => ?_)⟩
  by_cases c : j < L
  · rw [if_pos c]
  · have : j = L := by omega
    rw [if_neg c, if_pos this, this]

theorem hbmG_sl (S : VibSys) (A : NLForce → (ℕ → ℝ) → ℝ → AftOut) (h : List ℕ) {L : ℕ} (hL : L = numCoeff h * S.nd)
    (Z : ℕ → ℝ) : hbmG S A h (sl 0 (L + 1) Z) = hbmG S A h (hcat L (sl 0 L Z) (fun _ => Z L)) ∧
      hbmJ S A h (sl 0 (L + 1) Z) = hbmJ S A h (hcat L (sl 0 L Z) (fun _ => Z L)) ∧
      hbmD S A h (sl 0 (L + 1) Z) = hbmD S A h (hcat L (sl 0 L Z) (fun _ => Z L)) := by
  have : sl 0 (L + 1) Z L = hcat L (sl 0 L Z) (fun _ => Z L) L := by rw [sl_zero (by omega), hcat_at]
  have h2 : sl 0 L (sl 0 (L + 1) Z) = sl 0 L (hcat L (sl 0 L Z) (fun _ => Z L)) := by
    rw [sl_hcat]
    exact sl_congr (fun i hi => sl_zero (by omega) Z)
  subst hL
  refine ⟨?_, ?_, ?_⟩
  · funext i; unfold hbmG; rw [this, h2]
  · funext i j; unfold hbmJ; rw [this, h2]
  · funext i; unfold hbmD; rw [this, h2]

theorem vprnmRes_ok (S : VibSys) {h : List ℕ} (hh : Admissible h) (Nt : ℕ) (tol : ℝ)
    (A : NLForce → (ℕ → ℝ) → ℝ → AftOut) (hA : ∀ f ∈ S.forces, ∀ U w, f.aft U w h Nt tol = .ok (A f U w))
    (X Fl : ℕ → ℝ) (rhi : ℕ) (cs : ℝ) (filt : Option (ℕ × (ℕ → ℕ → ℝ))) {L : ℕ} (hL : L = numCoeff h * S.nd)
    {v : ℝ} {dv : ℕ → ℝ} (hv : vprnmEqn S (sl 0 L X) (X L) h rhi Nt tol filt true = .ok (v, some dv)) :
    ∃ R J d, vprnmRes S X Fl h rhi Nt tol cs filt true = .ok ⟨R, some (J, d)⟩ ∧
      (∀ i < L, R i = hbmG S A h (hcat L (sl 0 L X) (fun _ => X L)) i - scaledForcing S.nd h Fl (X (L + 1)) i) ∧
      R L = cs * v ∧
      (∀ i < L, ∀ j < L, J i j = hbmJ S A h (hcat L (sl 0 L X) (fun _ => X L)) i j) ∧
      (∀ i < L, J i L = hbmD S A h (hcat L (sl 0 L X) (fun _ => X L)) i) ∧
      (∀ j, J L j = cs * dv j) ∧
      (∀ i < L, d i = - dynForcing S.nd h Fl i) ∧ d L = 0 := by
  subst hL
  obtain ⟨g1, g2, g3⟩ := hbmG_sl S A h rfl X
  refine ⟨?R, ?J, ?d, ?h1, ?h2⟩
  case h1 =>
    unfold vprnmRes
    rw [Nhc_ok hh.nodup]
    simp only [if_neg hh.ne, hbmRes_ok S hh Nt tol A hA, if_true, hv]
    rfl
  case h2 =>
    generalize hn : numCoeff h * S.nd = L at *
    refine ⟨fun i hi => ?_, ?_, fun i hi j hj => ?_, fun i hi => ?_, fun j => ?_, fun i hi => ?_, ?_⟩
    · simp only [hcat, if_pos hi, g1]
      congr 1
      have hz := lt_zi_nd hh S.nd i
      unfold scaledForcing
      by_cases c : zi h * S.nd ≤ i
      · rw [if_pos c, if_neg (fun k => absurd (hz.mpr k) (by omega)), mul_comm]
      · rw [if_neg c, if_pos (hz.mp (by omega))]
    · simp [hcat]
    · rw [setRow, if_neg (by omega)]
      simp only [setBlock]
      rw [if_neg (by omega), if_pos (by omega), g2]
      rfl
    · rw [setRow, if_neg (by omega)]
      simp only [setBlock]
      rw [if_pos (by omega), g3]
      rfl
    · simp [setRow]
    · have hz := lt_zi_nd hh S.nd i
      simp only [setSlice, dynForcing]
      by_cases c : i < S.nd * zi h
      · rw [if_pos (by omega), if_pos (hz.mp (by rw [Nat.mul_comm]; exact c)), neg_zero]
      · rw [if_neg (by omega), if_pos (by omega), if_neg (fun k => c (by rw [Nat.mul_comm]; exact hz.mpr k))]
        rfl
    · simp [setSlice]

/-- C73: `vprnm_res` vanishes exactly when the harmonic balance equations hold with all non-static forcing
multiplied by the force scale and superharmonic response and excitation are orthogonal. -/
theorem C73_zero_iff (S : VibSys) (h : List ℕ) (hs : h.Pairwise (· < ·)) (rhi : ℕ) (hm : rhi ∈ h) (h1 : 1 ≤ rhi)
    (Nt : ℕ) (tol : ℝ) (A : NLForce → (ℕ → ℝ) → ℝ → AftOut)
    (hA : ∀ f ∈ S.forces, ∀ U w, f.aft U w h Nt tol = .ok (A f U w))
    (X Fl : ℕ → ℝ) (cs : ℝ) (hcs : cs ≠ 0) (filt : Option (ℕ × (ℕ → ℕ → ℝ))) :
    let L := numCoeff h * S.nd
    (∃ i < modalRows S.nd filt, superForce S.nd h rhi filt (systemForce S A (X L)) X i ≠ 0) →
    (∃ i < modalRows S.nd filt, superResponse S.nd h rhi S.M filt X i ≠ 0) →
    ∃ R g R' g', vprnmRes S X Fl h rhi Nt tol cs filt true = .ok ⟨R, some g⟩ ∧
      hbmRes S (fun i => if i < L then X i else X L) (scaledForcing S.nd h Fl (X (L + 1))) h Nt tol true
        = .ok ⟨R', some g'⟩ ∧
      ((∀ i < L + 1, R i = 0) ↔ (∀ i < L, R' i = 0) ∧
        ∑ i ∈ range (modalRows S.nd filt), superForce S.nd h rhi filt (systemForce S A (X L)) X i
          * superResponse S.nd h rhi S.M filt X i = 0) := by
  intro L hF hX
  have hh := admissible_of_sorted hs hm
  obtain ⟨v, dv, v1, v2, -⟩ := phase_grad S h hs rhi hm h1 Nt tol A hA filt (L := L) rfl 0 L le_rfl
  obtain ⟨R, J, d, e1, e2, e3, -⟩ := vprnmRes_ok S hh Nt tol A hA X Fl rhi cs filt (L := L) rfl (v1 X)
  have ez : (fun i => if i < L then X i else X L) = hcat L (sl 0 L X) (fun _ => X L) := by
    funext i
    by_cases hi : i < L <;> simp [hcat, hi, sl]
  have hc := e3
  rw [v2] at hc
  refine ⟨R, _, _, _, e1, hbmRes_ok S hh Nt tol A hA _ _, ?_⟩
  rw [ez]
  have hz := cosAngle_eq_zero _ _ _ (sq_sum_ne (fun i _ => rfl) hX) (sq_sum_ne (fun i _ => rfl) hF)
  constructor
  · intro H
    refine ⟨fun i hi => ?_, hz.mp ?_⟩
    · rw [← e2 i hi]; exact H i (by omega)
    · have := H L (by omega)
      rw [hc] at this
      exact (mul_eq_zero.mp this).resolve_left hcs
  · rintro ⟨H1, H2⟩ i hi
    by_cases hiL : i < L
    · rw [e2 i hiL]; exact H1 i hiL
    · have : i = L := by omega
      rw [this, hc, hz.mpr H2, mul_zero]

/-- C73: all derivatives returned by `vprnm_res` (unknowns: coefficients, frequency, force scale) are the
true ones wherever those of the forces are and the phase equation is smooth. -/
theorem C73_jacobian (S : VibSys) (h : List ℕ) (hs : h.Pairwise (· < ·)) (rhi : ℕ) (hm : rhi ∈ h) (h1 : 1 ≤ rhi)
    (Nt : ℕ) (tol : ℝ) (A : NLForce → (ℕ → ℝ) → ℝ → AftOut)
    (hA : ∀ f ∈ S.forces, ∀ U w, f.aft U w h Nt tol = .ok (A f U w))
    (Fl : ℕ → ℝ) (cs : ℝ) (filt : Option (ℕ × (ℕ → ℕ → ℝ))) :
    let L := numCoeff h * S.nd
    ∃ res : (ℕ → ℝ) → ResOut, (∀ X, vprnmRes S X Fl h rhi Nt tol cs filt true = .ok (res X)) ∧
      ∀ X, PhaseRegular S A h rhi filt X (X L) → (∀ f ∈ S.forces, JointTrue (A f) L (hcat L (sl 0 L X) (fun _ => X L))) →
        ResTrue res (L + 1) (L + 1) X := by
  intro L
  have hh := admissible_of_sorted hs hm
  obtain ⟨v, dv, v1, -, v2⟩ := phase_grad S h hs rhi hm h1 Nt tol A hA filt (L := L) rfl (L + 1 + 1) L le_rfl
  choose R J d e1 e2 e3 e4 e5 e6 e7 e8 using
    fun X => vprnmRes_ok S hh Nt tol A hA X Fl rhi cs filt (L := L) rfl (v1 X)
  refine ⟨_, e1, fun X hP hT => ⟨_, _, rfl, ?_⟩⟩
  intro i hi
  by_cases hiL : i < L
  · have g1 := hbmG_pack S hh A (n := L + 1 + 1) (x := X) (φ := fun X => X L)
      (HasGrad.coord L) (L := L) rfl hT i hiL
    have g2 := hasGrad_scaledForcing (HasGrad.coord (n := L + 1 + 1) (x := X) (L + 1)) S.nd h Fl i
    refine ((g1.sub g2).congr_fun (fun Y => e2 Y i hiL)).congr (fun j hj => ?_)
    by_cases c1 : j < L
    · have c2 : j < L + 1 := by omega
      have c3 : j ≠ L + 1 := by omega
      have c4 : j ≠ L := by omega
      simp only [c1, c2, c3, c4, if_true, if_false, e4 X i hiL j c1]; ring
    · by_cases c2 : j = L
      · subst c2
        have c3 : L ≠ L + 1 := by omega
        simp only [c1, c3, Nat.lt_succ_self, if_true, if_false, e5 X i hiL]; ring
      · have c3 : j = L + 1 := by omega
        subst c3
        have c4 : L + 1 ≠ L := by omega
        simp only [c1, c4, lt_irrefl, if_true, if_false, e7 X i hiL]; ring
  · have hi' : i = L := by omega
    subst hi'
    refine ((HasGrad.const_mul cs (v2 X hP)).congr_fun (fun Y => e3 Y)).congr (fun j hj => ?_)
    by_cases c1 : j < L + 1
    · simp only [c1, if_true, e6 X j]
      by_cases c2 : j < L
      · rw [if_pos c2]
      · have : j = L := by omega
        rw [if_neg c2, if_pos this, this]
    · have c3 : j = L + 1 := by omega
      beta_reduce
      rw [if_neg c1, e8, if_neg (by omega), if_neg (by omega), mul_zero]

theorem HasGrad.of_sl {n : ℕ} {ψ : (ℕ → ℝ) → ℝ} {g x : ℕ → ℝ} (h : HasGrad n ψ g (sl 0 n x)) :
    HasGrad n (fun X => ψ (sl 0 n X)) g x := by
  unfold HasGrad at h ⊢
  refine h.congr_of_eventuallyEq (Filter.Eventually.of_forall (fun v => ?_))
  beta_reduce
  congr 1
  funext i
  by_cases hi : i < n
  · simp [sl, hi]
  · simp [sl, hi, Spec.ext]

/-- The last unknown enters only the first control equation, as minus the amplitude. -/
theorem ampPhase_amp (S : VibSys) {h : List ℕ} (hh : Admissible h) (Nt : ℕ) (tol : ℝ)
    (A : NLForce → (ℕ → ℝ) → ℝ → AftOut) (hA : ∀ f ∈ S.forces, ∀ U w, f.aft U w h Nt tol = .ok (A f U w))
    (X Fl recov : ℕ → ℝ) (amp : ℝ) (order : ℕ) {R J d R' J' d'}
    (e : hbmAmpPhaseRes S X Fl h recov amp order Nt tol true = .ok ⟨R, some (J, d)⟩)
    (e' : hbmAmpPhaseRes S X Fl h recov 0 order Nt tol true = .ok ⟨R', some (J', d')⟩) :
    (∀ i, R i = R' i - if i = numCoeff h * S.nd then amp else 0) ∧ J = J' ∧ d = d' := by
  unfold hbmAmpPhaseRes at e e'
  rw [Nhc_ok hh.nodup] at e e'
  simp only [if_neg hh.ne, hbmRes_ok S hh Nt tol A hA, if_true, Except.ok.injEq, ResOut.mk.injEq, Option.some.injEq,
    Prod.mk.injEq] at e e'
  obtain ⟨a1, a2, a3⟩ := e
  obtain ⟨b1, b2, b3⟩ := e'
  refine ⟨fun i => ?_, a2.symm.trans b2, a3.symm.trans b3⟩
  rw [← a1, ← b1]
  beta_reduce
  unfold hcat
  by_cases c1 : i < numCoeff h * S.nd
  · rw [if_pos c1, if_pos c1, if_neg (by omega), sub_zero]
  · rw [if_neg c1, if_neg c1]
    by_cases c2 : i = numCoeff h * S.nd
    · rw [if_pos (by omega), if_pos (by omega), if_pos c2, sub_zero]
    · rw [if_neg (by omega), if_neg (by omega), if_neg c2, sub_zero]

theorem vprnmAmpPhase_ok (S : VibSys) {h : List ℕ} (hh : Admissible h) (Nt : ℕ) (tol : ℝ)
    (X Fl recov : ℕ → ℝ) (order rhi : ℕ) (cs : ℝ) (filt : Option (ℕ × (ℕ → ℕ → ℝ))) {L : ℕ} (hL : L = numCoeff h * S.nd)
    {v : ℝ} {dv : ℕ → ℝ} (hv : vprnmEqn S (sl 0 L X) (X (L + 2)) h rhi Nt tol filt true = .ok (v, some dv))
    {R0 J0 d0} (h0 : hbmAmpPhaseRes S (sl 0 (L + 3) X) Fl h recov (X (L + 3)) order Nt tol true
      = .ok ⟨R0, some (J0, d0)⟩) :
    vprnmAmpPhaseRes S X Fl h rhi recov order Nt tol cs filt true
      = .ok ⟨fun i => if i < L + 2 then R0 i else cs * v,
        some (fun i j => if i < L + 2 then (if j < L + 2 then J0 i j else d0 i)
          else if j < L then cs * dv j else if j < L + 2 then 0 else cs * dv L,
          fun i => if i = L then -1 else 0)⟩ := by
  subst hL
  unfold vprnmAmpPhaseRes
  rw [Nhc_ok hh.nodup]
  simp only [h0, hv, if_true]
  refine congrArg Except.ok ?_
  rw [ResOut.mk.injEq, Option.some.injEq, Prod.mk.injEq]
  refine ⟨rfl, ?_, rfl⟩
  funext i j
  by_cases c : i < numCoeff h * S.nd + 2
  · simp only [if_pos c, hcatCol]
  · simp only [if_neg c]

/-- C74: `vprnm_amp_phase_res` vanishes exactly when the amplitude/phase controlled residual (control
amplitude = last unknown) vanishes and superharmonic response and excitation are orthogonal. -/
theorem C74_zero_iff (S : VibSys) (h : List ℕ) (hs : h.Pairwise (· < ·)) (h1 : ∃ hs, h = 1 :: hs ∨ h = 0 :: 1 :: hs)
    (rhi : ℕ) (hm : rhi ∈ h) (hr : 1 ≤ rhi)
    (Nt : ℕ) (tol : ℝ) (A : NLForce → (ℕ → ℝ) → ℝ → AftOut)
    (hA : ∀ f ∈ S.forces, ∀ U w, f.aft U w h Nt tol = .ok (A f U w))
    (X Fl recov : ℕ → ℝ) (order : ℕ) (cs : ℝ) (hcs : cs ≠ 0) (filt : Option (ℕ × (ℕ → ℕ → ℝ))) :
    let L := numCoeff h * S.nd
    (∃ i < modalRows S.nd filt, superForce S.nd h rhi filt (systemForce S A (X (L + 2))) X i ≠ 0) →
    (∃ i < modalRows S.nd filt, superResponse S.nd h rhi S.M filt X i ≠ 0) →
    X (L + 2) ≠ 0 →
    ∃ R g R' g', vprnmAmpPhaseRes S X Fl h rhi recov order Nt tol cs filt true = .ok ⟨R, some g⟩ ∧
      hbmRes S (fun i => if i < L then X i else X (L + 2)) (phaseForcing S.nd h Fl (X L) (X (L + 1))) h Nt tol true
        = .ok ⟨R', some g'⟩ ∧
      ((∀ i < L + 3, R i = 0) ↔ (∀ i < L, R' i = 0) ∧
        (∀ t, X (L + 2) ^ order * controlMotion S.nd h recov X (X (L + 2)) t = X (L + 3) * Real.cos (X (L + 2) * t)) ∧
        ∑ i ∈ range (modalRows S.nd filt), superForce S.nd h rhi filt (systemForce S A (X (L + 2))) X i
          * superResponse S.nd h rhi S.M filt X i = 0) := by
  intro L hF hX hw
  have hh := admissible_of_sorted hs hm
  obtain ⟨v, dv, v1, v2, -⟩ := phase_grad S h hs rhi hm hr Nt tol A hA filt (L := L) rfl 0 (L + 2) (by omega)
  have y0 : ∀ k < L + 3, sl 0 (L + 3) X k = X k := fun k hk => sl_zero hk X
  obtain ⟨R0, ⟨J0, d0⟩, R', g', e1, e2, e3⟩ := C48_amp_phase_zero_iff S h hh h1 Nt tol A hA (sl 0 (L + 3) X) Fl recov
    (X (L + 3)) order (by rw [y0 (L + 2) (by omega)]; exact hw)
  have y1 : (fun i => if i < L then sl 0 (L + 3) X i else sl 0 (L + 3) X (L + 2)) = fun i => if i < L then X i else X (L + 2) := by
    funext i
    by_cases c : i < L
    · rw [if_pos c, if_pos c, y0 i (by omega)]
    · rw [if_neg c, if_neg c, y0 _ (by omega)]
  have y2 : ∀ w, controlMotion S.nd h recov (sl 0 (L + 3) X) w = controlMotion S.nd h recov X w := by
    intro w
    have hp := (coefOf_first h1 (fun _ => 0)).2
    have hle : (zi h + 1 + 1) * S.nd ≤ L := Nat.mul_le_mul_right _ hp
    have a1 : (zi h + 1 + 1) * S.nd = zi h * S.nd + S.nd + S.nd := by ring
    have a2 : (zi h + 1) * S.nd = zi h * S.nd + S.nd := by ring
    rw [controlMotion_eq h1, controlMotion_eq h1]
    have q : ∀ p, p * S.nd + S.nd ≤ L → ctrl S.nd recov p (sl 0 (L + 3) X) = ctrl S.nd recov p X := fun p hp =>
      sum_congr rfl (fun e he => by have := mem_range.mp he; rw [y0 _ (by omega)])
    rw [q _ (by omega), q _ (by omega)]
  change hbmRes S (fun i => if i < L then sl 0 (L + 3) X i else sl 0 (L + 3) X (L + 2))
    (phaseForcing S.nd h Fl (sl 0 (L + 3) X L) (sl 0 (L + 3) X (L + 1))) h Nt tol true = _ at e2
  change (∀ i < L + 2, R0 i = 0) ↔ (∀ i < L, R' i = 0) ∧ ∀ t, sl 0 (L + 3) X (L + 2) ^ order
    * controlMotion S.nd h recov (sl 0 (L + 3) X) (sl 0 (L + 3) X (L + 2)) t
      = X (L + 3) * Real.cos (sl 0 (L + 3) X (L + 2) * t) at e3
  rw [y1, y0 L (by omega), y0 (L + 1) (by omega)] at e2
  simp only [y0 (L + 2) (by omega), y2] at e3
  have e := vprnmAmpPhase_ok S hh Nt tol X Fl recov order rhi cs filt (L := L) rfl (v1 X) e1
  refine ⟨_, _, R', g', e, e2, ?_⟩
  have hz := cosAngle_eq_zero _ _ _ (sq_sum_ne (fun i _ => rfl) hX) (sq_sum_ne (fun i _ => rfl) hF)
  rw [← and_assoc, ← e3]
  constructor
  · intro H
    refine ⟨fun i hi => ?_, hz.mp ?_⟩
    · have := H i (by omega)
      rwa [if_pos hi] at this
    · have := H (L + 2) (by omega)
      rw [if_neg (by omega), v2] at this
      exact (mul_eq_zero.mp this).resolve_left hcs
  · rintro ⟨H1, H2⟩ i hi
    by_cases c : i < L + 2
    · rw [if_pos c]; exact H1 i c
    · rw [if_neg c, v2, hz.mpr H2, mul_zero]

/-- C74: all derivatives returned by `vprnm_amp_phase_res` (unknowns: coefficients, two force scales,
frequency, amplitude) are the true ones. -/
theorem C74_jacobian (S : VibSys) (h : List ℕ) (hs : h.Pairwise (· < ·)) (h1 : ∃ hs, h = 1 :: hs ∨ h = 0 :: 1 :: hs)
    (rhi : ℕ) (hm : rhi ∈ h) (hr : 1 ≤ rhi)
    (Nt : ℕ) (tol : ℝ) (A : NLForce → (ℕ → ℝ) → ℝ → AftOut)
    (hA : ∀ f ∈ S.forces, ∀ U w, f.aft U w h Nt tol = .ok (A f U w))
    (Fl recov : ℕ → ℝ) (order : ℕ) (cs : ℝ) (filt : Option (ℕ × (ℕ → ℕ → ℝ))) :
    let L := numCoeff h * S.nd
    ∃ res : (ℕ → ℝ) → ResOut, (∀ X, vprnmAmpPhaseRes S X Fl h rhi recov order Nt tol cs filt true = .ok (res X)) ∧
      ∀ X, X (L + 2) ≠ 0 → PhaseRegular S A h rhi filt X (X (L + 2)) →
        (∀ f ∈ S.forces, JointTrue (A f) L (hcat L (sl 0 L X) (fun _ => X (L + 2)))) →
        ResTrue res (L + 3) (L + 3) X := by
  intro L
  have hh := admissible_of_sorted hs hm
  obtain ⟨v, dv, v1, -, v2⟩ := phase_grad S h hs rhi hm hr Nt tol A hA filt (L := L) rfl (L + 3 + 1) (L + 2) (by omega)
  obtain ⟨base, b1, b2⟩ := C48_amp_phase_jacobian S h hh h1 Nt tol A hA Fl recov 0 order
  choose R0 J0 d0 e0 _r using fun X : ℕ → ℝ => ampPhase_ok S hh Nt tol A hA (sl 0 (L + 3) X) Fl recov (X (L + 3)) order (L := L)
    rfl (coefOf_first h1 (fun _ => 0)).2
  refine ⟨_, fun X => vprnmAmpPhase_ok S hh Nt tol X Fl recov order rhi cs filt (L := L) rfl (v1 X) (e0 X),
    fun X hw hP hT => ⟨_, _, rfl, ?_⟩⟩
  obtain ⟨J, d, g, hJ⟩ := b2 (sl 0 (L + 3) X) (by
      change sl 0 (L + 3) X (L + 2) ≠ 0
      rw [sl_zero (by omega)]; exact hw) (fun f hf => by
      change JointTrue (A f) L (hcat L (sl 0 L (sl 0 (L + 3) X)) (fun _ => sl 0 (L + 3) X (L + 2)))
      rw [sl_zero (by omega), sl_congr (n := L) (b := X) (fun i hi => sl_zero (by omega) X)]
      exact hT f hf)
  have hbase : ∀ X : ℕ → ℝ, ∃ J' d', (base (sl 0 (L + 3) X)).grad = some (J', d') ∧
      (∀ i, R0 X i = (base (sl 0 (L + 3) X)).R i - if i = L then X (L + 3) else 0) ∧ J0 X = J' ∧ d0 X = d' := by
    intro Y
    obtain ⟨R', J', d', e', -⟩ := ampPhase_ok S hh Nt tol A hA (sl 0 (L + 3) Y) Fl recov 0 order (L := L)
      rfl (coefOf_first h1 (fun _ => 0)).2
    have hb := b1 (sl 0 (L + 3) Y)
    rw [e', Except.ok.injEq] at hb
    obtain ⟨q1, q2, q3⟩ := ampPhase_amp S hh Nt tol A hA _ Fl recov _ order (e0 Y) e'
    exact ⟨J', d', by rw [← hb], fun i => by rw [← hb]; exact q1 i, q2, q3⟩
  obtain ⟨J', d', g', -, q2, q3⟩ := hbase X
  rw [g, Option.some.injEq, Prod.mk.injEq] at g'
  rw [← g'.1] at q2
  rw [← g'.2] at q3
  intro i hi
  by_cases c : i < L + 2
  · have a1 := hJ i c
    have a2 := hasGrad_shift (n := L + 3 + 1) (nd := L + 3)
      (fun a b hab => by rw [sl_congr hab]) (HasGrad.of_sl (n := L + 3) a1)
    have a3 := HasGrad.const_mul (if i = L then 1 else 0) (HasGrad.coord (n := L + 3 + 1) (x := X) (L + 3))
    refine ((a2.sub a3).congr_fun (fun Y => ?_)).congr (fun j hj => ?_)
    · obtain ⟨_, _, _, p, _⟩ := hbase Y
      change (if i < L + 2 then R0 Y i else cs * v Y) = _
      rw [if_pos c, p i]
      congr 1
      by_cases c2 : i = L <;> simp [c2]
    · beta_reduce
      rw [if_pos c, q2, q3]
      by_cases c1 : j < L + 3
      · have c3 : j ≠ L + 3 := by omega
        simp only [if_pos c1, if_neg c3, mul_zero, sub_zero]
        rfl
      · have c3 : j = L + 3 := by omega
        simp only [if_neg c1, if_pos c3, mul_one, zero_sub]
        by_cases c2 : i = L <;> simp [c2]
  · have hi' : i = L + 2 := by omega
    subst hi'
    refine ((HasGrad.const_mul cs (v2 X hP)).congr_fun (fun Y => if_neg c)).congr (fun j hj => ?_)
    beta_reduce
    rw [if_neg c, if_neg (show ¬ L + 2 = L by omega)]
    by_cases c1 : j < L
    · rw [if_pos (by omega), if_pos c1, if_pos c1]
    · rw [if_neg c1, if_neg c1]
      by_cases c2 : j < L + 2
      · rw [if_pos (by omega), if_pos c2, if_neg (by omega), mul_zero]
      · by_cases c3 : j = L + 2
        · rw [if_pos (by omega), if_neg c2, if_pos c3]
        · rw [if_neg (by omega), if_neg c3, mul_zero]

/-- Example: one degree of freedom, harmonics 1 and 3, cubic excitation of harmonic 3 in phase with the cosine
(`F = (1, 0)`) and a response `(3, 4)`: the cosine is 3/5; a response in quadrature `(0, 2)` satisfies the
phase equation. -/
example : cosAngle 2 (fun i => if i = 0 then 1 else 0) (fun i => if i = 0 then 3 else 4) = 3 / 5 ∧
    cosAngle 2 (fun i => if i = 0 then 1 else 0) (fun i => if i = 0 then 0 else 2) = 0 := by
  have h5 : Real.sqrt 25 = 5 := by
    rw [show (25:ℝ) = 5^2 by norm_num]; exact Real.sqrt_sq (by norm_num)
  constructor
  · simp only [cosAngle, sum_range_succ, sum_range_zero]
    norm_num [h5]
  · simp [cosAngle, sum_range_succ]

/-- Example: `lowMotion` of a three harmonic response keeps mean and first harmonic only. -/
example : (List.range 6).map (lowMotion 1 [0, 1, 3] 3 (fun k => k + 1)) = [1, 2, 3, 0, 0, 0] := by
  simp [lowMotion, numCoeff, List.range_succ]
  norm_num

/-- Example system: one degree of freedom, a constant harmonic force with third harmonic `(-1, 0)`. -/
def phaseExample : VibSys :=
  { nd := 1, M := fun _ _ => 1, C := fun _ _ => 0, K := fun _ _ => 1, ab := none,
    forces := [⟨0, fun _ => .error .value, fun _ _ _ _ _ => .ok ⟨fun i => if i = 2 then -1 else 0, fun _ _ => 0, fun _ => 0⟩,
      fun _ _ _ _ _ => .ok (fun i => if i = 2 then -1 else 0)⟩] }

/-- Example: the phase equation of `phaseExample` at the response with third harmonic `(3, 4)` is `3/5`. -/
example : vprnmEqn phaseExample (fun i => if i = 2 then 3 else 4) 1 [1, 3] 3 8 0 none false = .ok (3 / 5, none) := by
  have h5 : Real.sqrt 25 = 5 := by
    rw [show (25:ℝ) = 5^2 by norm_num]; exact Real.sqrt_sq (by norm_num)
  obtain ⟨R, d, -, e1, e2⟩ := C52_value phaseExample [1, 3] (by simp) 3 (by simp) (by norm_num) 8 0
    (fun _ _ _ => ⟨fun i => if i = 2 then -1 else 0, fun _ _ => 0, fun _ => 0⟩)
    (by intro f hf U w; simp [phaseExample] at hf; subst hf; exact ⟨rfl, rfl⟩) (fun i => if i = 2 then 3 else 4) 1 none
  rw [e1, e2]
  congr 2
  simp only [cosAngle, modalRows, phaseExample, superForce, superResponse, modalPart, superPart, systemForce, coefOf,
    Nat.mul_one, sum_range_succ, sum_range_zero, Option.map_none, List.map_cons, List.map_nil, List.sum_cons, List.sum_nil]
  norm_num [h5]

end

end TMD
