import Verif.Lemmas.AmpControl
import Verif.Spec.Vprnm
import Mathlib.Analysis.SpecialFunctions.Sqrt
import Mathlib.Algebra.Order.BigOperators.Ring.Finset

/-! Lemmas on the variable phase resonance equation. -/

namespace TMD

open Spec Finset

noncomputable section

theorem cosAngle_le_one (m : ℕ) (F X : ℕ → ℝ) : |cosAngle m F X| ≤ 1 := by
  unfold cosAngle
  rw [abs_div, abs_of_nonneg (mul_nonneg (Real.sqrt_nonneg _) (Real.sqrt_nonneg _))]
  apply div_le_one_of_le₀ _ (mul_nonneg (Real.sqrt_nonneg _) (Real.sqrt_nonneg _))
  rw [← Real.sqrt_mul (sum_nonneg (fun i _ => mul_self_nonneg _))]
  apply Real.abs_le_sqrt
  have := sum_mul_sq_le_sq_mul_sq (range m) F X
  calc (∑ i ∈ range m, F i * X i)^2 ≤ (∑ i ∈ range m, F i ^ 2) * ∑ i ∈ range m, X i ^ 2 := this
    _ = _ := by rw [mul_comm]; simp only [sq]

theorem cosAngle_smul (m : ℕ) (F X : ℕ → ℝ) {a : ℝ} (ha : 0 < a) :
    cosAngle m F (fun i => a * X i) = cosAngle m F X := by
  unfold cosAngle
  have e1 : ∑ i ∈ range m, F i * (a * X i) = a * ∑ i ∈ range m, F i * X i := by
    rw [mul_sum]; exact sum_congr rfl (fun i _ => by ring)
  have e2 : ∑ i ∈ range m, (a * X i) * (a * X i) = a^2 * ∑ i ∈ range m, X i * X i := by
    rw [mul_sum]; exact sum_congr rfl (fun i _ => by ring)
  rw [e1, e2, Real.sqrt_mul (sq_nonneg a), Real.sqrt_sq ha.le, mul_assoc, mul_div_mul_left _ _ ha.ne']

theorem cosAngle_neg (m : ℕ) (F X : ℕ → ℝ) : cosAngle m F (fun i => - X i) = - cosAngle m F X := by
  unfold cosAngle
  simp only [mul_neg, neg_mul, neg_neg, sum_neg_distrib]
  rw [neg_div]

theorem cosAngle_self (m : ℕ) (X : ℕ → ℝ) (h : ∑ i ∈ range m, X i * X i ≠ 0) : cosAngle m X X = 1 := by
  unfold cosAngle
  rw [Real.mul_self_sqrt (sum_nonneg (fun i _ => mul_self_nonneg _)), div_self h]

theorem cosAngle_eq_zero (m : ℕ) (F X : ℕ → ℝ) (hX : ∑ i ∈ range m, X i * X i ≠ 0)
    (hF : ∑ i ∈ range m, F i * F i ≠ 0) : cosAngle m F X = 0 ↔ ∑ i ∈ range m, F i * X i = 0 := by
  unfold cosAngle
  have h1 : Real.sqrt (∑ i ∈ range m, X i * X i) ≠ 0 :=
    (Real.sqrt_pos.mpr (lt_of_le_of_ne (sum_nonneg (fun i _ => mul_self_nonneg _)) hX.symm)).ne'
  have h2 : Real.sqrt (∑ i ∈ range m, F i * F i) ≠ 0 :=
    (Real.sqrt_pos.mpr (lt_of_le_of_ne (sum_nonneg (fun i _ => mul_self_nonneg _)) hF.symm)).ne'
  rw [div_eq_zero_iff, or_iff_left (mul_ne_zero h1 h2)]

theorem cosAngle_congr {m : ℕ} {F X F' X' : ℕ → ℝ} (hF : ∀ i < m, F i = F' i) (hX : ∀ i < m, X i = X' i) :
    cosAngle m F X = cosAngle m F' X' := by
  unfold cosAngle
  have e1 : ∑ i ∈ range m, F i * X i = ∑ i ∈ range m, F' i * X' i :=
    sum_congr rfl (fun i hi => by rw [hF i (mem_range.mp hi), hX i (mem_range.mp hi)])
  have e2 : ∑ i ∈ range m, X i * X i = ∑ i ∈ range m, X' i * X' i :=
    sum_congr rfl (fun i hi => by rw [hX i (mem_range.mp hi)])
  have e3 : ∑ i ∈ range m, F i * F i = ∑ i ∈ range m, F' i * F' i :=
    sum_congr rfl (fun i hi => by rw [hF i (mem_range.mp hi)])
  rw [e1, e2, e3]

/-- Gradient of the cosine. -/
theorem hasGrad_cosAngle {n m : ℕ} {z : ℕ → ℝ} {F X : (ℕ → ℝ) → ℕ → ℝ} {GF GX : ℕ → ℕ → ℝ}
    (hF : ∀ i < m, HasGrad n (fun Z => F Z i) (GF i) z) (hX : ∀ i < m, HasGrad n (fun Z => X Z i) (GX i) z)
    (hF0 : ∑ i ∈ range m, F z i * F z i ≠ 0) (hX0 : ∑ i ∈ range m, X z i * X z i ≠ 0) {Fn Xn fx : ℝ}
    (hFn : Fn = Real.sqrt (∑ i ∈ range m, F z i * F z i)) (hXn : Xn = Real.sqrt (∑ i ∈ range m, X z i * X z i))
    (hfx : fx = ∑ i ∈ range m, F z i * X z i) :
    HasGrad n (fun Z => cosAngle m (F Z) (X Z))
      (fun j => ((∑ i ∈ range m, GF i j * X z i) / (Xn * Fn) - fx / (Xn * Fn^3) * ∑ i ∈ range m, GF i j * F z i)
        + ((∑ i ∈ range m, GX i j * F z i) / (Xn * Fn) - fx / (Xn^3 * Fn) * ∑ i ∈ range m, GX i j * X z i)) z := by
  have hFp : 0 < ∑ i ∈ range m, F z i * F z i :=
    lt_of_le_of_ne (sum_nonneg (fun i _ => mul_self_nonneg _)) hF0.symm
  have hXp : 0 < ∑ i ∈ range m, X z i * X z i :=
    lt_of_le_of_ne (sum_nonneg (fun i _ => mul_self_nonneg _)) hX0.symm
  have hFn0 : Fn ≠ 0 := by rw [hFn]; exact (Real.sqrt_pos.mpr hFp).ne'
  have hXn0 : Xn ≠ 0 := by rw [hXn]; exact (Real.sqrt_pos.mpr hXp).ne'
  have gFX := HasGrad.sum (n := n) (x := z) (s := range m) (fun i hi => (hF i (mem_range.mp hi)).mul (hX i (mem_range.mp hi)))
  have gFF := HasGrad.sum (n := n) (x := z) (s := range m) (fun i hi => (hF i (mem_range.mp hi)).mul (hF i (mem_range.mp hi)))
  have gXX := HasGrad.sum (n := n) (x := z) (s := range m) (fun i hi => (hX i (mem_range.mp hi)).mul (hX i (mem_range.mp hi)))
  have gFn := HasGrad.comp_deriv gFF (φ := Real.sqrt) (Real.hasDerivAt_sqrt hF0)
  have gXn := HasGrad.comp_deriv gXX (φ := Real.sqrt) (Real.hasDerivAt_sqrt hX0)
  rw [← hFn] at gFn
  rw [← hXn] at gXn
  have gD := HasGrad.comp_deriv (gXn.mul gFn) (φ := fun y => y⁻¹) (hasDerivAt_inv (by
    rw [← hFn, ← hXn]; exact mul_ne_zero hXn0 hFn0))
  rw [← hFn, ← hXn] at gD
  refine ((gFX.mul gD).congr_fun (fun Z => by unfold cosAngle; rw [div_eq_mul_inv])).congr (fun j _ => ?_)
  rw [← hFn, ← hXn, ← hfx]
  have s1 : ∑ k ∈ range m, (F z k * GX k j + X z k * GF k j)
      = ∑ i ∈ range m, GX i j * F z i + ∑ i ∈ range m, GF i j * X z i := by
    rw [← sum_add_distrib]; exact sum_congr rfl (fun k _ => by ring)
  have s2 : ∑ k ∈ range m, (F z k * GF k j + F z k * GF k j) = 2 * ∑ i ∈ range m, GF i j * F z i := by
    rw [mul_sum]; exact sum_congr rfl (fun k _ => by ring)
  have s3 : ∑ k ∈ range m, (X z k * GX k j + X z k * GX k j) = 2 * ∑ i ∈ range m, GX i j * X z i := by
    rw [mul_sum]; exact sum_congr rfl (fun k _ => by ring)
  rw [s1, s2, s3]
  generalize ∑ i ∈ range m, GX i j * F z i = a
  generalize ∑ i ∈ range m, GF i j * X z i = b
  generalize ∑ i ∈ range m, GF i j * F z i = c
  generalize ∑ i ∈ range m, GX i j * X z i = d
  field_simp
  ring

def filtP (nd : ℕ) : Option (ℕ × (ℕ → ℕ → ℝ)) → ℕ → ℕ → ℝ
  | none => eye
  | some (nf, Φ) => kronEye nf nd Φ

def filtQ (nd : ℕ) (M : ℕ → ℕ → ℝ) : Option (ℕ × (ℕ → ℕ → ℝ)) → ℕ → ℕ → ℝ
  | none => eye
  | some (nf, Φ) => kronEye nf nd (matMul nd Φ M)

theorem kronEye_apply (nf nd : ℕ) (Φ : ℕ → ℕ → ℝ) (v : ℕ → ℝ) {i : ℕ} (hi : i < 2 * nf) :
    hcat nf (matVec nd Φ (sl 0 nd v)) (matVec nd Φ (sl nd (2*nd) v)) i
      = ∑ k ∈ range (2 * nd), kronEye nf nd Φ i k * v k := by
  rw [Nat.two_mul nd, sum_range_add]
  have hb : ∀ k < nd, k / nd = 0 ∧ k % nd = k ∧ (nd + k) / nd = 1 ∧ (nd + k) % nd = k := by
    intro k hk
    have hnd : 0 < nd := by omega
    refine ⟨Nat.div_eq_of_lt hk, Nat.mod_eq_of_lt hk, ?_, ?_⟩
    · rw [Nat.add_div_left _ hnd, Nat.div_eq_of_lt hk]
    · rw [Nat.add_mod_left, Nat.mod_eq_of_lt hk]
  by_cases c : i < nf
  · have h1 : i / nf = 0 := Nat.div_eq_of_lt c
    have h2 : i % nf = i := Nat.mod_eq_of_lt c
    have z : ∑ k ∈ range nd, kronEye nf nd Φ i (nd + k) * v (nd + k) = 0 := by
      apply sum_eq_zero
      intro k hk
      obtain ⟨-, -, b3, b4⟩ := hb k (mem_range.mp hk)
      simp [kronEye, h1, b3]
    rw [z, add_zero]
    simp only [hcat, c, if_true, matVec]
    refine sum_congr rfl (fun k hk => ?_)
    obtain ⟨b1, b2, -, -⟩ := hb k (mem_range.mp hk)
    simp [kronEye, h1, h2, b1, b2, sl, mem_range.mp hk]
  · have hnf : 0 < nf := by omega
    have h1 : i / nf = 1 := by
      rw [Nat.div_eq_iff hnf]; omega
    have h2 : i % nf = i - nf := by
      rw [Nat.mod_eq_sub_mod (by omega), Nat.mod_eq_of_lt (by omega)]
    have z : ∑ k ∈ range nd, kronEye nf nd Φ i k * v k = 0 := by
      apply sum_eq_zero
      intro k hk
      obtain ⟨b1, -, -, -⟩ := hb k (mem_range.mp hk)
      simp [kronEye, h1, b1]
    rw [z, zero_add]
    simp only [hcat, c, if_false, matVec]
    refine sum_congr rfl (fun k hk => ?_)
    obtain ⟨-, -, b3, b4⟩ := hb k (mem_range.mp hk)
    have hk := mem_range.mp hk
    have h3 : nd + k - nd = k := by omega
    have h4 : k < nd + nd - nd := by omega
    have h5 : ¬ nd ≤ k := by omega
    simp [kronEye, h1, h2, b3, b4, sl, h5]

theorem eye_apply {m i : ℕ} (hi : i < m) (v : ℕ → ℝ) : ∑ k ∈ range m, eye i k * v k = v i := by
  rw [sum_eq_single_of_mem i (mem_range.mpr hi)]
  · simp [eye]
  · intro k _ hk; simp [eye, Ne.symm hk]

/-- Motion without the harmonics from block `ri` on. -/
def truncU (L nd ri : ℕ) (U : ℕ → ℝ) : ℕ → ℝ := setSlice (sl 0 L U) (nd * ri) L (fun _ => 0)

/-- Superharmonic force and response. -/
def vF (S : VibSys) (A : NLForce → (ℕ → ℝ) → ℝ → AftOut) (L ri : ℕ) (filt : Option (ℕ × (ℕ → ℕ → ℝ)))
    (U : ℕ → ℝ) (w : ℝ) (i : ℕ) : ℝ :=
  ∑ k ∈ range (2 * S.nd), filtP S.nd filt i k *
    -(S.forces.map (fun f => (A f (truncU L S.nd ri U) w).F (S.nd * ri + k))).sum

def vX (S : VibSys) (ri : ℕ) (filt : Option (ℕ × (ℕ → ℕ → ℝ))) (U : ℕ → ℝ) (i : ℕ) : ℝ :=
  ∑ k ∈ range (2 * S.nd), filtQ S.nd S.M filt i k * U (S.nd * ri + k)

def vGF (S : VibSys) (A : NLForce → (ℕ → ℝ) → ℝ → AftOut) (L ri : ℕ) (filt : Option (ℕ × (ℕ → ℕ → ℝ)))
    (U : ℕ → ℝ) (w : ℝ) (i j : ℕ) : ℝ :=
  ∑ k ∈ range (2 * S.nd), filtP S.nd filt i k *
    -(S.forces.map (fun f => (A f (truncU L S.nd ri U) w).dU (S.nd * ri + k) j)).sum

def vGw (S : VibSys) (A : NLForce → (ℕ → ℝ) → ℝ → AftOut) (L ri : ℕ) (filt : Option (ℕ × (ℕ → ℕ → ℝ)))
    (U : ℕ → ℝ) (w : ℝ) (i : ℕ) : ℝ :=
  ∑ k ∈ range (2 * S.nd), filtP S.nd filt i k *
    -(S.forces.map (fun f => (A f (truncU L S.nd ri U) w).dw (S.nd * ri + k))).sum

theorem sl_block {nd ri k : ℕ} (hk : k < 2 * nd) (v : ℕ → ℝ) : sl (nd * ri) (nd * (ri + 2)) v k = v (nd * ri + k) := by
  have : nd * (ri + 2) - nd * ri = 2 * nd := by rw [Nat.mul_add]; omega
  simp [sl, this, hk]

theorem matVec_filt (nf nd : ℕ) (Φ : ℕ → ℕ → ℝ) (v v' : ℕ → ℝ) (h : ∀ k < 2 * nd, v k = v' k) {i : ℕ} (hi : i < 2 * nf) :
    hcat nf (matVec nd Φ (sl 0 nd v)) (matVec nd Φ (sl nd (2*nd) v)) i
      = ∑ k ∈ range (2 * nd), kronEye nf nd Φ i k * v' k := by
  rw [kronEye_apply nf nd Φ v hi]
  exact sum_congr rfl (fun k hk => by rw [h k (mem_range.mp hk)])

/-- The gradient expression of the program. -/
def vGrad (m : ℕ) (F X : ℕ → ℝ) (dF : ℕ → ℕ → ℝ) (dFw : ℕ → ℝ) (dX : ℕ → ℕ → ℝ) (nd ri n : ℕ) : ℕ → ℝ :=
  let Fn := Real.sqrt (vdot m F F)
  let Xn := Real.sqrt (vdot m X X)
  let T := fun (A : ℕ → ℕ → ℝ) (v : ℕ → ℝ) (j : ℕ) => ∑ i ∈ Finset.range m, A i j * v i
  setRow (setSlice (setSlice (fun _ => 0) 0 (nd * ri)
      (fun j => T dF X j / (Xn * Fn) - vdot m F X / (Xn * Fn^3) * T dF F j)) (nd * ri) (nd * (ri + 2))
      (fun j => T dX F j / (Xn * Fn) - vdot m F X / (Xn^3 * Fn) * T dX X j)) n
    (vdot m dFw X / (Xn * Fn) - vdot m F X / (Xn * Fn^3) * vdot m dFw F)

theorem vprnm_raw (S : VibSys) {h : List ℕ} (hn : h.Nodup) (Nt : ℕ) (tol : ℝ)
    (A : NLForce → (ℕ → ℝ) → ℝ → AftOut) (hA : ∀ f ∈ S.forces, ∀ U w, f.aft U w h Nt tol = .ok (A f U w))
    (U : ℕ → ℝ) (w : ℝ) (rhi : ℕ) (filt : Option (ℕ × (ℕ → ℕ → ℝ))) {L ri m : ℕ} (hL : L = numCoeff h * S.nd)
    (hri : ri = numCoeff (h.filter (fun k => k < rhi))) (hm : m = modalRows S.nd filt) :
    ∃ F X dF dFw dX,
      vprnmEqn S U w h rhi Nt tol filt true = .ok (vdot m F X / (Real.sqrt (vdot m X X) * Real.sqrt (vdot m F F)),
        some (vGrad m F X dF dFw dX S.nd ri L)) ∧
      (∀ i < m, F i = vF S A L ri filt U w i) ∧ (∀ i < m, X i = vX S ri filt U i) ∧
      (∀ i < m, ∀ j, dF i j = vGF S A L ri filt U w i j) ∧ (∀ i < m, dFw i = vGw S A L ri filt U w i) ∧
      (∀ i < m, ∀ j, dX i j = filtQ S.nd S.M filt i j) := by
  subst hL hri hm
  rcases filt with _ | ⟨nf, Φ⟩
  · refine ⟨?F, ?X, ?dF, ?dFw, ?dX, ?h1, ?h2⟩
    case h1 =>
      unfold vprnmEqn
      rw [Nhc_ok hn, Nhc_ok (hn.filter _)]
      simp only [totalAft_ok S hn _ _ Nt tol _ (fun f hf => hA f hf _ _), if_true]
      rfl
    case h2 =>
      simp only [modalRows]
      refine ⟨fun i hi => ?_, fun i hi => ?_, fun i hi j => ?_, fun i hi => ?_, fun i hi j => ?_⟩
      · unfold vF filtP
        rw [eye_apply hi, sl_block hi]; rfl
      · unfold vX filtQ
        rw [eye_apply hi, sl_block hi]
      · unfold vGF filtP
        rw [eye_apply hi]; rfl
      · unfold vGw filtP
        rw [eye_apply hi]; rfl
      · rfl
  · let ri := numCoeff (h.filter (fun k => k < rhi))
    let Uf := truncU (numCoeff h * S.nd) S.nd ri U
    let F0 : ℕ → ℝ := fun i => - sl (S.nd * ri) (S.nd * (ri + 2))
      (fun i => (S.forces.map (fun f => (A f Uf w).F i)).sum) i
    let X0 := sl (S.nd * ri) (S.nd * (ri + 2)) U
    let dF0 : ℕ → ℕ → ℝ := fun i j => - (S.forces.map (fun f => (A f Uf w).dU (S.nd * ri + i) j)).sum
    let dFw0 : ℕ → ℝ := fun i => - (S.forces.map (fun f => (A f Uf w).dw (S.nd * ri + i))).sum
    refine ⟨hcat nf (matVec S.nd Φ (sl 0 S.nd F0)) (matVec S.nd Φ (sl S.nd (2*S.nd) F0)),
      hcat nf (matVec S.nd (matMul S.nd Φ S.M) (sl 0 S.nd X0)) (matVec S.nd (matMul S.nd Φ S.M) (sl S.nd (2*S.nd) X0)),
      matMul (2*S.nd) (kronEye nf S.nd Φ) dF0,
      hcat nf (matVec S.nd Φ (sl 0 S.nd dFw0)) (matVec S.nd Φ (sl S.nd (2*S.nd) dFw0)),
      kronEye nf S.nd (matMul S.nd Φ S.M), ?h1, ?h2⟩
    case h1 =>
      unfold vprnmEqn
      rw [Nhc_ok hn, Nhc_ok (hn.filter _)]
      simp only [totalAft_ok S hn _ _ Nt tol _ (fun f hf => hA f hf _ _), if_true]
      rfl
    case h2 =>
      simp only [modalRows]
      refine ⟨fun i hi => ?_, fun i hi => ?_, fun i hi j => ?_, fun i hi => ?_, fun i hi j => ?_⟩
      · exact matVec_filt nf S.nd Φ F0 _ (fun k hk => by simp only [F0]; rw [sl_block hk]) hi
      · exact matVec_filt nf S.nd _ X0 _ (fun k hk => by simp only [X0]; rw [sl_block hk]) hi
      · rfl
      · exact matVec_filt nf S.nd Φ _ _ (fun k hk => rfl) hi
      · rfl

theorem vprnm_raw_ng (S : VibSys) {h : List ℕ} (hn : h.Nodup) (Nt : ℕ) (tol : ℝ)
    (A : NLForce → (ℕ → ℝ) → ℝ → AftOut) (hA : ∀ f ∈ S.forces, ∀ U w, f.aftNoGrad U w h Nt tol = .ok (A f U w).F)
    (U : ℕ → ℝ) (w : ℝ) (rhi : ℕ) (filt : Option (ℕ × (ℕ → ℕ → ℝ))) {L ri m : ℕ} (hL : L = numCoeff h * S.nd)
    (hri : ri = numCoeff (h.filter (fun k => k < rhi))) (hm : m = modalRows S.nd filt) :
    vprnmEqn S U w h rhi Nt tol filt false = .ok (cosAngle m (vF S A L ri filt U w) (vX S ri filt U), none) := by
  subst hL hri hm
  rcases filt with _ | ⟨nf, Φ⟩
  · unfold vprnmEqn
    rw [Nhc_ok hn, Nhc_ok (hn.filter _)]
    simp only [totalAft_ng S hn _ _ Nt tol _ (fun f hf => hA f hf _ _), Bool.false_eq_true, if_false]
    refine congrArg Except.ok (Prod.ext ?_ rfl)
    refine cosAngle_congr (m := 2 * S.nd) (fun i hi => ?_) (fun i hi => ?_)
    · unfold vF filtP
      rw [eye_apply hi, sl_block hi]; rfl
    · unfold vX filtQ
      rw [eye_apply hi, sl_block hi]
  · unfold vprnmEqn
    rw [Nhc_ok hn, Nhc_ok (hn.filter _)]
    simp only [totalAft_ng S hn _ _ Nt tol _ (fun f hf => hA f hf _ _), Bool.false_eq_true, if_false]
    refine congrArg Except.ok (Prod.ext ?_ rfl)
    refine cosAngle_congr (m := 2 * nf) (fun i hi => ?_) (fun i hi => ?_)
    · exact matVec_filt nf S.nd Φ _ _ (fun k hk => by rw [sl_block hk]; rfl) hi
    · exact matVec_filt nf S.nd _ _ _ (fun k hk => by rw [sl_block hk]) hi

theorem vdot_congr {m : ℕ} {a b a' b' : ℕ → ℝ} (h1 : ∀ i < m, a i = a' i) (h2 : ∀ i < m, b i = b' i) :
    vdot m a b = vdot m a' b' :=
  sum_congr rfl (fun i hi => by rw [h1 i (mem_range.mp hi), h2 i (mem_range.mp hi)])

theorem vprnm_ok (S : VibSys) {h : List ℕ} (hn : h.Nodup) (Nt : ℕ) (tol : ℝ)
    (A : NLForce → (ℕ → ℝ) → ℝ → AftOut) (hA : ∀ f ∈ S.forces, ∀ U w, f.aft U w h Nt tol = .ok (A f U w))
    (U : ℕ → ℝ) (w : ℝ) (rhi : ℕ) (filt : Option (ℕ × (ℕ → ℕ → ℝ))) {L ri m : ℕ} (hL : L = numCoeff h * S.nd)
    (hri : ri = numCoeff (h.filter (fun k => k < rhi))) (hm : m = modalRows S.nd filt) :
    vprnmEqn S U w h rhi Nt tol filt true = .ok (cosAngle m (vF S A L ri filt U w) (vX S ri filt U),
      some (vGrad m (vF S A L ri filt U w) (vX S ri filt U) (vGF S A L ri filt U w) (vGw S A L ri filt U w)
        (filtQ S.nd S.M filt) S.nd ri L)) := by
  obtain ⟨F, X, dF, dFw, dX, e, h1, h2, h3, h4, h5⟩ := vprnm_raw S hn Nt tol A hA U w rhi filt hL hri hm
  rw [e]
  have t : ∀ (B B' : ℕ → ℕ → ℝ) (v v' : ℕ → ℝ), (∀ i < m, ∀ j, B i j = B' i j) → (∀ i < m, v i = v' i) → ∀ j,
      ∑ i ∈ range m, B i j * v i = ∑ i ∈ range m, B' i j * v' i := fun B B' v v' a b j =>
    sum_congr rfl (fun i hi => by rw [a i (mem_range.mp hi) j, b i (mem_range.mp hi)])
  refine congrArg Except.ok (Prod.ext (cosAngle_congr h1 h2) ?_)
  simp only [vGrad, vdot_congr h1 h1, vdot_congr h1 h2, vdot_congr h2 h2, vdot_congr h4 h1, vdot_congr h4 h2,
    t _ _ _ _ h3 h1, t _ _ _ _ h3 h2, t _ _ _ _ h5 h1, t _ _ _ _ h5 h2]

/-- For increasing harmonics the coefficients of harmonic `m` follow those of all lower ones. -/
theorem coefOf_sorted {h : List ℕ} (hs : h.Pairwise (· < ·)) {m : ℕ} (hm : m ∈ h) (h1 : 1 ≤ m) (c : ℕ → ℝ) :
    coefOf h c m = (c (numCoeff (h.filter (fun k => k < m))), c (numCoeff (h.filter (fun k => k < m)) + 1)) ∧
      numCoeff (h.filter (fun k => k < m)) + 2 ≤ numCoeff h := by
  induction h generalizing c with
  | nil => simp at hm
  | cons k hs' ih =>
    rw [List.pairwise_cons] at hs
    by_cases c1 : k = m
    · subst c1
      have : (k :: hs').filter (fun j => j < k) = [] := by
        rw [List.filter_eq_nil_iff]
        intro a ha
        rcases List.mem_cons.mp ha with rfl | ha
        · simp
        · have := hs.1 a ha
          simp; omega
      rw [this]
      have h0 : k ≠ 0 := by omega
      simp [coefOf, numCoeff, h0]
    · have hm' : m ∈ hs' := by
        rcases List.mem_cons.mp hm with rfl | hm
        · exact absurd rfl c1
        · exact hm
      have hk : k < m := hs.1 m hm'
      obtain ⟨a1, a2⟩ := ih hs.2 hm' (fun i => c (i + (if k = 0 then 1 else 2)))
      rw [List.filter_cons_of_pos (by simpa using hk)]
      simp only [coefOf, c1, if_false, numCoeff, a1]
      refine ⟨?_, by omega⟩
      rw [Prod.mk.injEq]
      constructor <;> congr 1 <;> omega

theorem series_trunc {h : List ℕ} (hs : h.Pairwise (· < ·)) (m : ℕ) (c : ℕ → ℝ) (τ : ℝ) :
    series h (fun r => if r < numCoeff (h.filter (fun k => k < m)) then c r else 0) τ
      = series (h.filter (fun k => k < m)) c τ := by
  induction h generalizing c with
  | nil => rfl
  | cons k hs' ih =>
    rw [List.pairwise_cons] at hs
    by_cases hk : k < m
    · rw [List.filter_cons_of_pos (by simpa using hk)]
      have := ih hs.2 (fun i => c (i + (if k = 0 then 1 else 2)))
      by_cases k0 : k = 0
      · simp only [k0, if_true] at this
        simp only [series, numCoeff, k0, if_true]
        rw [if_pos (by omega), ← this]
        congr 2
        funext i
        exact if_congr (by omega) rfl rfl
      · simp only [k0, if_false] at this
        simp only [series, numCoeff, k0, if_false]
        rw [if_pos (by omega), if_pos (by omega), ← this]
        congr 2
        funext i
        exact if_congr (by omega) rfl rfl
    · have : (k :: hs').filter (fun j => j < m) = [] := by
        rw [List.filter_eq_nil_iff]
        intro a ha
        rcases List.mem_cons.mp ha with rfl | ha
        · simpa using hk
        · have := hs.1 a ha
          simp; omega
      rw [this]
      simp only [numCoeff, Nat.not_lt_zero, if_false]
      simpa [series] using series_smul (k :: hs') 0 (fun _ => 0) τ

theorem truncU_entry {nd ri N : ℕ} (hri : ri ≤ N) (U : ℕ → ℝ) {r e : ℕ} (hr : r < N) (he : e < nd) :
    truncU (N * nd) nd ri U (r * nd + e) = if r < ri then U (r * nd + e) else 0 := by
  have h1 : r * nd + e < N * nd := by
    calc r * nd + e < r * nd + nd := by omega
      _ = (r + 1) * nd := by ring
      _ ≤ N * nd := Nat.mul_le_mul_right _ hr
  unfold truncU setSlice
  by_cases c : r < ri
  · have : r * nd + e < nd * ri := by
      calc r * nd + e < r * nd + nd := by omega
        _ = nd * (r + 1) := by ring
        _ ≤ nd * ri := Nat.mul_le_mul_left _ c
    rw [if_neg (by omega), if_pos c, sl_zero h1]
  · have : nd * ri ≤ r * nd + e := by
      calc nd * ri ≤ nd * r := Nat.mul_le_mul_left _ (by omega)
        _ = r * nd := by ring
        _ ≤ _ := by omega
    rw [if_pos ⟨this, h1⟩, if_neg c]

theorem truncU_sl (L nd ri : ℕ) (U : ℕ → ℝ) : sl 0 L (truncU L nd ri U) = truncU L nd ri U := by
  funext i
  unfold sl truncU setSlice sl
  by_cases hi : i < L
  · simp [hi]
  · simp [hi]

theorem sl_sl (L : ℕ) (U : ℕ → ℝ) : sl 0 L (sl 0 L U) = sl 0 L U := sl_congr (fun i hi => sl_zero hi U)

theorem truncU_of_sl (L nd ri : ℕ) (U : ℕ → ℝ) : truncU L nd ri (sl 0 L U) = truncU L nd ri U := by
  unfold truncU; rw [sl_sl]

theorem aft_trunc_grad (A : (ℕ → ℝ) → ℝ → AftOut) {L nd ri n q : ℕ} (hL : nd * ri ≤ L) (x : ℕ → ℝ)
    (hT : JointTrue A L (hcat L (truncU L nd ri x) (fun _ => x q))) {i : ℕ} (hi : i < L) :
    HasGrad n (fun Z => (A (truncU L nd ri Z) (Z q)).F i)
      (fun j => (if j < nd * ri then (A (truncU L nd ri x) (x q)).dU i j else 0)
        + if j = q then (A (truncU L nd ri x) (x q)).dw i else 0) x := by
  have hs : ∀ Z : ℕ → ℝ, sl 0 L (hcat L (truncU L nd ri Z) (fun _ => Z q)) = truncU L nd ri Z := by
    intro Z
    rw [← truncU_sl, sl_hcat]
  have h0 := hT i hi
  rw [hs, hcat_at] at h0
  have h1 := HasGrad.comp_vec (n := n) (x := x) (Y := fun Z => hcat L (truncU L nd ri Z) (fun _ => Z q))
    (G := fun k j => if k < L then (if k < nd * ri then (if j = k then 1 else 0) else 0) else (if j = q then 1 else 0))
    h0 (fun a b hab => by
      rw [sl_congr (fun k hk => hab k (by omega)), hab L (by omega)])
    (fun k hk => by
      by_cases c : k < L
      · simp only [hcat, if_pos c, truncU, setSlice]
        by_cases c1 : k < nd * ri
        · simp only [show ¬ (nd * ri ≤ k ∧ k < L) by omega, if_false, if_pos c1]
          exact hasGrad_sl c x
        · simp only [show (nd * ri ≤ k ∧ k < L) by omega, if_true, if_neg c1]
          exact HasGrad.const 0
      · simp only [hcat, if_neg c]
        exact HasGrad.coord q)
  refine (h1.congr_fun (fun y => ?_)).congr (fun j _ => ?_)
  · rw [hs, hcat_at]
  · rw [sum_range_succ]
    simp only [lt_irrefl, if_false]
    congr 1
    · obtain ⟨b, rfl⟩ := Nat.exists_eq_add_of_le hL
      rw [sum_range_add, ← sum_coord, sum_eq_zero (s := range b), add_zero]
      · refine sum_congr rfl (fun k hk => ?_)
        have hk := mem_range.mp hk
        simp only [show k < nd * ri + b by omega, hk, if_true]
      · intro k hk
        have hk := mem_range.mp hk
        simp only [show ¬ nd * ri + k < nd * ri by omega, if_false, ite_self]
        have : nd * ri + k < nd * ri + b := by omega
        simp [this]
    · by_cases c : j = q <;> simp [c]

theorem vF_grad (S : VibSys) (A : NLForce → (ℕ → ℝ) → ℝ → AftOut) {L ri n q : ℕ}
    (filt : Option (ℕ × (ℕ → ℕ → ℝ))) (hL : S.nd * (ri + 2) ≤ L) (x : ℕ → ℝ)
    (hT : ∀ f ∈ S.forces, JointTrue (A f) L (hcat L (truncU L S.nd ri x) (fun _ => x q))) (i : ℕ) :
    HasGrad n (fun Z => vF S A L ri filt Z (Z q) i)
      (fun j => (if j < S.nd * ri then vGF S A L ri filt x (x q) i j else 0)
        + if j = q then vGw S A L ri filt x (x q) i else 0) x := by
  have hL' : S.nd * ri + 2 * S.nd ≤ L := by rw [show S.nd * ri + 2 * S.nd = S.nd * (ri + 2) by ring]; exact hL
  have h1 := HasGrad.sum (n := n) (x := x) (s := range (2 * S.nd)) (fun k hk => HasGrad.const_mul (filtP S.nd filt i k)
    (HasGrad.listSum S.forces (fun f Z => (A f (truncU L S.nd ri Z) (Z q)).F (S.nd * ri + k)) _
      (fun f hf => aft_trunc_grad (A f) (n := n) (show S.nd * ri ≤ L by omega) x (hT f hf)
        (i := S.nd * ri + k) (by have := mem_range.mp hk; omega))).neg)
  refine h1.congr (fun j _ => ?_)
  unfold vGF vGw
  simp only [List.sum_map_add]
  have z : ∀ l : List NLForce, (l.map (fun _ => (0:ℝ))).sum = 0 := fun l => by simp
  by_cases c1 : j < S.nd * ri
  · by_cases c2 : j = q
    · simp only [if_pos c1, if_pos c2]
      rw [← sum_add_distrib]
      exact sum_congr rfl (fun k _ => by ring)
    · simp only [if_pos c1, if_neg c2, z, add_zero]
  · by_cases c2 : j = q
    · simp only [if_neg c1, if_pos c2, z, zero_add]
    · simp only [if_neg c1, if_neg c2, z, zero_add, neg_zero, mul_zero, sum_const_zero]

theorem vX_grad (S : VibSys) {L ri n : ℕ} (filt : Option (ℕ × (ℕ → ℕ → ℝ))) (x : ℕ → ℝ) (i : ℕ) :
    HasGrad n (fun Z => vX S ri filt Z i)
      (fun j => if S.nd * ri ≤ j ∧ j < S.nd * (ri + 2) then filtQ S.nd S.M filt i (j - S.nd * ri) else 0) x := by
  have h1 := HasGrad.sum (n := n) (x := x) (s := range (2 * S.nd)) (fun k _ => HasGrad.const_mul (filtQ S.nd S.M filt i k)
    (HasGrad.coord (n := n) (x := x) (S.nd * ri + k)))
  refine h1.congr (fun j _ => ?_)
  have e : S.nd * (ri + 2) = S.nd * ri + 2 * S.nd := by ring
  rw [e]
  by_cases c : S.nd * ri ≤ j ∧ j < S.nd * ri + 2 * S.nd
  · rw [if_pos c, sum_eq_single_of_mem (j - S.nd * ri) (mem_range.mpr (by omega))]
    · have : j = S.nd * ri + (j - S.nd * ri) := by omega
      rw [if_pos this, mul_one]
    · intro k _ hk
      have : ¬ j = S.nd * ri + k := by omega
      simp [this]
  · rw [if_neg c]
    symm
    apply sum_eq_zero
    intro k hk
    have hk := mem_range.mp hk
    have : ¬ j = S.nd * ri + k := by omega
    simp [this]

/-- The gradient of the phase equation when `U` is the head and `w` is entry `q` of the unknowns. -/
theorem vprnm_grad (S : VibSys) (A : NLForce → (ℕ → ℝ) → ℝ → AftOut) {L ri n q m : ℕ}
    (filt : Option (ℕ × (ℕ → ℕ → ℝ))) (hL : S.nd * (ri + 2) ≤ L) (hq : L ≤ q) (x : ℕ → ℝ)
    (hT : ∀ f ∈ S.forces, JointTrue (A f) L (hcat L (truncU L S.nd ri x) (fun _ => x q)))
    (hF : ∑ i ∈ range m, vF S A L ri filt x (x q) i * vF S A L ri filt x (x q) i ≠ 0)
    (hX : ∑ i ∈ range m, vX S ri filt x i * vX S ri filt x i ≠ 0) :
    HasGrad n (fun Z => cosAngle m (vF S A L ri filt Z (Z q)) (vX S ri filt Z))
      (fun j => if j < L then vGrad m (vF S A L ri filt x (x q)) (vX S ri filt x) (vGF S A L ri filt x (x q))
          (vGw S A L ri filt x (x q)) (filtQ S.nd S.M filt) S.nd ri L j
        else if j = q then vGrad m (vF S A L ri filt x (x q)) (vX S ri filt x) (vGF S A L ri filt x (x q))
          (vGw S A L ri filt x (x q)) (filtQ S.nd S.M filt) S.nd ri L L else 0) x := by
  refine (hasGrad_cosAngle (n := n) (m := m) (z := x) (F := fun Z => vF S A L ri filt Z (Z q)) (X := fun Z => vX S ri filt Z)
    (fun i _ => vF_grad S A filt hL x hT i) (fun i _ => vX_grad (L := L) S filt x i) hF hX rfl rfl rfl).congr (fun j _ => ?_)
  have e : S.nd * (ri + 2) = S.nd * ri + 2 * S.nd := by ring
  rw [e] at hL
  simp only [vGrad, setRow, setSlice, vdot, e]
  by_cases c1 : j < S.nd * ri
  · have a1 : j < L := by omega
    have a2 : j ≠ L := by omega
    have a3 : ¬ (S.nd * ri ≤ j ∧ j < S.nd * ri + 2 * S.nd) := by omega
    have a4 : 0 ≤ j ∧ j < S.nd * ri := by omega
    have a5 : j ≠ q := by omega
    simp only [a1, a2, a3, a4, a5, c1, and_self, and_false, if_true, if_false, zero_mul, sum_const_zero, zero_div, mul_zero, add_zero,
      sub_zero, Nat.sub_zero]
  · by_cases c2 : j < S.nd * ri + 2 * S.nd
    · have a1 : j < L := by omega
      have a2 : j ≠ L := by omega
      have a3 : (S.nd * ri ≤ j ∧ j < S.nd * ri + 2 * S.nd) := by omega
      have a4 : ¬ (0 ≤ j ∧ j < S.nd * ri) := by omega
      have a5 : j ≠ q := by omega
      simp only [a1, a2, a3, a4, a5, c1, and_self, and_false, if_true, if_false, zero_mul, sum_const_zero, zero_div, mul_zero, zero_add,
        sub_zero]
    · have a3 : ¬ (S.nd * ri ≤ j ∧ j < S.nd * ri + 2 * S.nd) := by omega
      have a4 : ¬ (0 ≤ j ∧ j < S.nd * ri) := by omega
      by_cases c3 : j < L
      · have a2 : j ≠ L := by omega
        have a5 : j ≠ q := by omega
        simp only [c3, a2, a3, a4, a5, c1, and_self, and_false, if_true, if_false, zero_mul, sum_const_zero, zero_div, mul_zero, add_zero,
          sub_zero]
      · by_cases c4 : j = q
        · simp only [if_neg c1, if_neg c3, if_neg a3, if_neg a4, if_pos c4, zero_mul, sum_const_zero, zero_div,
            mul_zero, add_zero, sub_zero, zero_add, if_true]
        · simp only [c1, c3, a3, a4, c4, if_false, zero_mul, sum_const_zero, zero_div, mul_zero, add_zero,
            sub_zero, zero_add]

theorem truncU_low {nd L : ℕ} {h : List ℕ} (m : ℕ) (U : ℕ → ℝ)
    (hL : nd * numCoeff (h.filter (fun k => k < m)) ≤ L) :
    truncU L nd (numCoeff (h.filter (fun k => k < m))) U = lowMotion nd h m U := by
  funext k
  unfold truncU lowMotion setSlice
  rw [Nat.mul_comm nd] at *
  by_cases c : k < numCoeff (h.filter (fun j => j < m)) * nd
  · rw [if_neg (by omega), if_pos c, sl_zero (by omega)]
  · rw [if_neg c]
    by_cases c2 : k < L
    · rw [if_pos (by omega)]
    · rw [if_neg (by omega)]
      simp [sl, c2]

theorem superPart_eq {nd : ℕ} {h : List ℕ} (hs : h.Pairwise (· < ·)) {m : ℕ} (hm : m ∈ h) (h1 : 1 ≤ m) (V : ℕ → ℝ)
    {k : ℕ} : superPart nd h m V k = V (nd * numCoeff (h.filter (fun k => k < m)) + k) := by
  unfold superPart
  by_cases c : k < nd
  · rw [if_pos c, (coefOf_sorted hs hm h1 _).1, Nat.mul_comm]
  · rw [if_neg c, (coefOf_sorted hs hm h1 _).1]
    simp only
    congr 1
    rw [Nat.add_mul, Nat.mul_comm]
    omega

theorem modalPart_eq (nd : ℕ) (filt : Option (ℕ × (ℕ → ℕ → ℝ))) (v : ℕ → ℝ) {i : ℕ} (hi : i < modalRows nd filt) :
    ∑ k ∈ range (2 * nd), filtP nd filt i k * v k = modalPart nd filt v i := by
  rcases filt with _ | ⟨nf, Φ⟩
  · exact eye_apply hi v
  · simp only [modalRows] at hi
    simp only [filtP, modalPart]
    rw [← kronEye_apply nf nd Φ v hi]
    unfold hcat matVec
    refine if_congr Iff.rfl (sum_congr rfl (fun e he => ?_)) (sum_congr rfl (fun e he => ?_))
    · rw [sl_zero (mem_range.mp he)]
    · have he := mem_range.mp he
      have : e < 2 * nd - nd := by omega
      simp [sl, this]

theorem filtQ_eq (nd : ℕ) (M : ℕ → ℕ → ℝ) (filt : Option (ℕ × (ℕ → ℕ → ℝ))) :
    filtQ nd M filt = filtP nd (filt.map (fun p => (p.1, matMul nd p.2 M))) ∧
      modalRows nd (filt.map (fun p => (p.1, matMul nd p.2 M))) = modalRows nd filt := by
  rcases filt with _ | ⟨nf, Φ⟩ <;> exact ⟨rfl, rfl⟩

/-- Total nonlinear force. -/
def totF (S : VibSys) (A : NLForce → (ℕ → ℝ) → ℝ → AftOut) (U : ℕ → ℝ) (w : ℝ) (i : ℕ) : ℝ :=
  (S.forces.map (fun f => (A f U w).F i)).sum

theorem vF_eq (S : VibSys) (A : NLForce → (ℕ → ℝ) → ℝ → AftOut) {h : List ℕ} (hs : h.Pairwise (· < ·)) {rhi : ℕ}
    (hm : rhi ∈ h) (h1 : 1 ≤ rhi) {L ri : ℕ} (hL : S.nd * ri ≤ L) (hri : ri = numCoeff (h.filter (fun k => k < rhi)))
    (filt : Option (ℕ × (ℕ → ℕ → ℝ))) (U : ℕ → ℝ) (w : ℝ) {i : ℕ} (hi : i < modalRows S.nd filt) :
    vF S A L ri filt U w i
      = modalPart S.nd filt (fun k => - superPart S.nd h rhi (totF S A (lowMotion S.nd h rhi U) w) k) i := by
  subst hri
  rw [← modalPart_eq _ _ _ hi]
  unfold vF
  refine sum_congr rfl (fun k hk => ?_)
  rw [superPart_eq hs hm h1, truncU_low rhi U hL]
  rfl

theorem vX_eq (S : VibSys) {h : List ℕ} (hs : h.Pairwise (· < ·)) {rhi : ℕ}
    (hm : rhi ∈ h) (h1 : 1 ≤ rhi) {ri : ℕ} (hri : ri = numCoeff (h.filter (fun k => k < rhi)))
    (filt : Option (ℕ × (ℕ → ℕ → ℝ))) (U : ℕ → ℝ) {i : ℕ} (hi : i < modalRows S.nd filt) :
    vX S ri filt U i
      = modalPart S.nd (filt.map (fun p => (p.1, matMul S.nd p.2 S.M))) (superPart S.nd h rhi U) i := by
  subst hri
  obtain ⟨q1, q2⟩ := filtQ_eq S.nd S.M filt
  rw [← modalPart_eq _ _ _ (by rw [q2]; exact hi)]
  unfold vX
  refine sum_congr rfl (fun k hk => ?_)
  rw [superPart_eq hs hm h1, q1]

end

end TMD
