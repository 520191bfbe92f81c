import Verif.Lemmas.Predict

/-!
# Property C89: the predicted harmonic solution solves the linear part of its equations
-/

namespace TMD

open Spec Finset

noncomputable section

/-- Mass and stiffness proportional damping, and all modes of the system are used. -/
structure Proportional (S : VibSys) (a b : ℝ) (eigs : ℕ → (ℕ → ℝ) × (ℕ → ℕ → ℝ)) (neigs : ℕ) : Prop where
  ab : S.ab = some (a, b)
  damp : ∀ d < S.nd, ∀ e < S.nd, S.C d e = a * S.M d e + b * S.K d e
  basis : ModalBasis S.nd S.M S.K (eigs S.nd).1 (eigs S.nd).2
  all : S.nd ≤ neigs

/-- `w` is not the frequency of an undamped mode. -/
def NoResonance (S : VibSys) (a b : ℝ) (lam : ℕ → ℝ) (w : ℝ) : Prop :=
  ∀ j < S.nd, (lam j - w ^ 2) ^ 2 + (w * (a + b * lam j)) ^ 2 ≠ 0

/-- The static displacement (zero if none is given) balances the static load. -/
def StaticBalance (S : VibSys) (h : List ℕ) (Xstat : Option (ℕ → ℝ)) (Fl : ℕ → ℝ) : Prop :=
  0 ∈ h → ∀ d < S.nd, ∑ e ∈ range S.nd, S.K d e * (Xstat.getD fun _ => 0) e = Fl d

/-- There is no load beyond the first harmonic. -/
def FirstHarmonicLoad (S : VibSys) (h : List ℕ) (Fl : ℕ → ℝ) : Prop :=
  ∀ i, (if 0 ∈ h then 3 else 2) * S.nd ≤ i → i < numCoeff h * S.nd → Fl i = 0

/-- The system with other nonlinear forces. -/
def VibSys.withForces (S : VibSys) (fs : List NLForce) : VibSys := { S with forces := fs }

variable {S : VibSys} {h : List ℕ} {a b w : ℝ} {eigs : ℕ → (ℕ → ℝ) × (ℕ → ℕ → ℝ)}

theorem frf_balanced {neigs : ℕ} (D : Proportional S a b eigs neigs) (hw : NoResonance S a b (eigs S.nd).1 w)
    (Fl Fs : ℕ → ℝ) : ∃ X, linearFrf S w Fl eigs neigs (some Fs) = .ok X ∧
      HarmonicBalanced S 1 w 0 X (hcat S.nd Fl Fs) := by
  obtain ⟨X, h1, -, h3⟩ := C47_solves S a b w D.ab D.damp eigs D.basis neigs D.all Fl Fs hw
  refine ⟨X, h1, fun d hd => ?_⟩
  obtain ⟨u, v⟩ := h3 d hd
  simp only [Nat.mul_zero, Nat.zero_add, Nat.mul_one, one_mul, hcat, if_pos hd,
    if_neg (show ¬ S.nd + d < S.nd by omega), Nat.add_sub_cancel_left]
  exact ⟨u, v⟩

/-- The mean of the prediction. -/
def withStat (S : VibSys) (h : List ℕ) (Xstat : Option (ℕ → ℝ)) (U : ℕ → ℝ) : ℕ → ℝ := match Xstat with
  | some X => if zi h = 1 then setSlice U 0 S.nd X else U
  | none => U

theorem withStat_low (Xstat : Option (ℕ → ℝ)) {U : ℕ → ℝ} (hz : zi h = 1) (hU : ∀ d < S.nd, U d = 0) :
    ∀ d < S.nd, withStat S h Xstat U d = (Xstat.getD fun _ => 0) d := by
  intro d hd
  cases Xstat with
  | none => exact hU d hd
  | some X => simp [withStat, hz, setSlice, hd]

theorem withStat_high (Xstat : Option (ℕ → ℝ)) (U : ℕ → ℝ) {i : ℕ} (hi : zi h * S.nd ≤ i) :
    withStat S h Xstat U i = U i := by
  cases Xstat with
  | none => rfl
  | some X =>
    unfold withStat
    by_cases hz : zi h = 1
    · rw [hz, Nat.one_mul] at hi
      simp only [hz, if_true, setSlice]
      rw [if_neg (by omega)]
    · simp only [if_neg hz]

/-- The residual of a system whose linear rows equal `F`. -/
theorem hbmG_of_rows {U Z F : ℕ → ℝ} (fs : List NLForce) (A : NLForce → (ℕ → ℝ) → ℝ → AftOut)
    (hw : Z (numCoeff h * S.nd) = w) (hZ : sl 0 (numCoeff h * S.nd) Z = sl 0 (numCoeff h * S.nd) U) {i : ℕ}
    (H : matVec (numCoeff h * S.nd) (hsE S.nd S.M S.C S.K w h false) (sl 0 (numCoeff h * S.nd) U) i = F i) :
    hbmG (S.withForces fs) A h Z i - F i
      = systemForce (S.withForces fs) A w (sl 0 (numCoeff h * S.nd) U) i := by
  unfold hbmG VibSys.withForces systemForce
  simp only
  rw [hw, hZ, H]; ring

theorem num_ge (H : FirstIsOne h) : zi h + 2 ≤ numCoeff h := by
  obtain ⟨t, rfl | rfl⟩ := H <;> (simp [zi, numCoeff]; try omega)

theorem harm_bound {nd j d : ℕ} (hh : Admissible h) (hj : j ∈ Ico (zi h + 1) h.length) (hd : d < nd) :
    (zi h + 2) * nd ≤ nd * (j * 2 - zi h) ∧ nd * (j * 2 - zi h) + d < numCoeff h * nd ∧
      nd * (j * 2 - zi h + 1) + d < numCoeff h * nd ∧ (zi h + 2) * nd ≤ nd * (j * 2 - zi h + 1) := by
  have hz := zi_le_one h
  rw [mem_Ico] at hj
  have e := numCoeff_eq hh.zero_first
  have a1 : (zi h + 2) * nd ≤ (j * 2 - zi h) * nd := Nat.mul_le_mul_right _ (by omega)
  have a2 : (j * 2 - zi h + 2) * nd ≤ numCoeff h * nd := Nat.mul_le_mul_right _ (by omega)
  have a3 : nd * (j * 2 - zi h) = (j * 2 - zi h) * nd := Nat.mul_comm _ _
  have a4 : nd * (j * 2 - zi h + 1) = (j * 2 - zi h) * nd + nd := by ring
  have a5 : (j * 2 - zi h + 2) * nd = (j * 2 - zi h) * nd + nd + nd := by ring
  omega

theorem first_bound {nd k : ℕ} (H : FirstIsOne h) (hk : k < 2 * nd) :
    zi h * nd + k < numCoeff h * nd ∧ zi h * nd + k < (2 + zi h) * nd := by
  have a1 : (zi h + 2) * nd ≤ numCoeff h * nd := Nat.mul_le_mul_right _ (num_ge H)
  have a2 : (zi h + 2) * nd = zi h * nd + 2 * nd := by ring
  have a3 : (2 + zi h) * nd = zi h * nd + 2 * nd := by ring
  omega

theorem load_zero (hh : Admissible h) {Fl : ℕ → ℝ} (hFl : FirstHarmonicLoad S h Fl) {i : ℕ}
    (h1 : (zi h + 2) * S.nd ≤ i) (h2 : i < numCoeff h * S.nd) : Fl i = 0 := by
  refine hFl i ?_ h2
  rw [zi_mem hh] at h1
  split_ifs at h1 ⊢ <;> simpa using h1

theorem slice_first {nd k : ℕ} (X V : ℕ → ℝ) (hk : k < 2 * nd) :
    setSlice V (zi h * nd) ((2 + zi h) * nd) X (zi h * nd + k) = X k := by
  have a3 : (2 + zi h) * nd = zi h * nd + 2 * nd := by ring
  unfold setSlice
  rw [if_pos (by omega), Nat.add_sub_cancel_left]

theorem slice_out {nd i : ℕ} (X V : ℕ → ℝ) (hi : i < zi h * nd ∨ (zi h + 2) * nd ≤ i) :
    setSlice V (zi h * nd) ((2 + zi h) * nd) X i = V i := by
  unfold setSlice
  rw [add_comm 2 (zi h), if_neg (by omega)]

theorem scaled_first (hh : Admissible h) (nd : ℕ) (Fl : ℕ → ℝ) (c : ℝ) {i : ℕ} (hi : zi h * nd ≤ i) :
    scaledForcing nd h Fl c i = c * Fl i := by
  unfold scaledForcing
  rw [if_neg]
  rw [← lt_zi_nd hh]; omega

theorem scaled_static (hh : Admissible h) {nd : ℕ} (Fl : ℕ → ℝ) (c : ℝ) {i : ℕ} (hz : zi h = 1) (hi : i < nd) :
    scaledForcing nd h Fl c i = Fl i := by
  unfold scaledForcing
  rw [if_pos]
  rw [← lt_zi_nd hh, hz]; omega

theorem first_load (Fl : ℕ → ℝ) (c : ℝ) {nd k : ℕ} (hk : k < 2 * nd) :
    hcat nd (fun i => c * sl (zi h * nd) ((1 + zi h) * nd) Fl i)
      (fun i => c * sl ((zi h + 1) * nd) ((2 + zi h) * nd) Fl i) k = c * Fl (zi h * nd + k) := by
  have e1 : (1 + zi h) * nd = zi h * nd + nd := by ring
  have e2 : (2 + zi h) * nd = zi h * nd + nd + nd := by ring
  have e3 : (zi h + 1) * nd = zi h * nd + nd := by ring
  unfold hcat sl
  rw [e1, e2, e3]
  by_cases c1 : k < nd
  · rw [if_pos c1]
    beta_reduce
    rw [if_pos (by omega)]
  · rw [if_neg c1]
    beta_reduce
    rw [if_pos (by omega)]
    congr 2; omega

/-- The entries of a point with mean `Xstat` and first harmonic `Y`. -/
def meanAndFirst (S : VibSys) (h : List ℕ) (Xstat : Option (ℕ → ℝ)) (Y : ℕ → ℝ) : ℕ → ℝ :=
  withStat S h Xstat (setSlice (fun _ => 0) (zi h * S.nd) ((2 + zi h) * S.nd) Y)

theorem meanAndFirst_first (Xstat : Option (ℕ → ℝ)) (Y : ℕ → ℝ) {k : ℕ} (hk : k < 2 * S.nd) :
    meanAndFirst S h Xstat Y (zi h * S.nd + k) = Y k := by
  unfold meanAndFirst
  rw [withStat_high _ _ (by omega), slice_first _ _ hk]

theorem meanAndFirst_high (Xstat : Option (ℕ → ℝ)) (Y : ℕ → ℝ) {i : ℕ} (hi : (zi h + 2) * S.nd ≤ i) :
    meanAndFirst S h Xstat Y i = 0 := by
  unfold meanAndFirst
  rw [withStat_high _ _ (by rw [add_mul] at hi; omega), slice_out _ _ (Or.inr hi)]

theorem meanAndFirst_low (Xstat : Option (ℕ → ℝ)) (Y : ℕ → ℝ) (hz : zi h = 1) {d : ℕ} (hd : d < S.nd) :
    meanAndFirst S h Xstat Y d = (Xstat.getD fun _ => 0) d := by
  refine withStat_low _ hz (fun e he => ?_) d hd
  rw [slice_out _ _ (Or.inl (by rw [hz]; omega))]

theorem withStat_congr (Xstat : Option (ℕ → ℝ)) {U V : ℕ → ℝ} {i : ℕ} (hi : U i = V i) :
    withStat S h Xstat U i = withStat S h Xstat V i := by
  cases Xstat with
  | none => exact hi
  | some X =>
    unfold withStat
    by_cases hz : zi h = 1
    · simp only [hz, if_true, setSlice]
      split_ifs <;> first | rfl | exact hi
    · simp only [if_neg hz]; exact hi

/-- The linear rows at a point with a mean and a first harmonic, changed at most in rows of other harmonics. -/
theorem linear_point (hh : Admissible h) (H : FirstIsOne h) {U F Y G : ℕ → ℝ} (Xstat : Option (ℕ → ℝ))
    (hU : ∀ i < numCoeff h * S.nd, i < (zi h + 2) * S.nd → U i = meanAndFirst S h Xstat Y i)
    (h0 : zi h = 1 → ∀ d < S.nd, ∑ e ∈ range S.nd, S.K d e * (Xstat.getD fun _ => 0) e = F d)
    (hY : HarmonicBalanced S 1 w 0 Y G) (hF1 : ∀ k < 2 * S.nd, F (zi h * S.nd + k) = G k)
    (hj : ∀ j ∈ Ico (zi h + 1) h.length, HarmonicBalanced S (h.getD j 0 : ℕ) w (j * 2 - zi h) U F) {i : ℕ}
    (hi : i < numCoeff h * S.nd) :
    matVec (numCoeff h * S.nd) (hsE S.nd S.M S.C S.K w h false) (sl 0 (numCoeff h * S.nd) U) i = F i := by
  refine packed_rows S hh H w h0 (fun z d hd => ?_) hY (fun k hk => ?_) hF1 hj hi
  · have b0 := Nat.mul_le_mul_right S.nd (num_ge H)
    have b1 : (zi h + 2) * S.nd = S.nd + 2 * S.nd := by rw [z]; ring
    rw [hU d (by omega) (by omega), meanAndFirst_low _ _ z hd]
  · obtain ⟨b1, b2⟩ := first_bound H hk
    rw [hU _ b1 (by rwa [add_comm (zi h) 2]), meanAndFirst_first _ _ hk]

/-- The harmonics above the first at such a point without loads. -/
theorem unloaded (hh : Admissible h) {U F : ℕ → ℝ} {j : ℕ} (hj : j ∈ Ico (zi h + 1) h.length) (k : ℝ)
    (hU : ∀ i < numCoeff h * S.nd, (zi h + 2) * S.nd ≤ i → U i = 0)
    (hF : ∀ i < numCoeff h * S.nd, (zi h + 2) * S.nd ≤ i → F i = 0) :
    HarmonicBalanced S k w (j * 2 - zi h) U F := by
  refine HarmonicBalanced.zero (fun e he => ?_) (fun e he => ?_) <;>
    obtain ⟨u1, u2, u3, u4⟩ := harm_bound hh hj he
  · exact ⟨hU _ u2 (by omega), hU _ u3 (by omega)⟩
  · exact ⟨hF _ u2 (by omega), hF _ u3 (by omega)⟩

theorem static_of (hh : Admissible h) {Xstat : Option (ℕ → ℝ)} {Fl F : ℕ → ℝ} (hst : StaticBalance S h Xstat Fl)
    (hF : zi h = 1 → ∀ d < S.nd, F d = Fl d) (hz : zi h = 1) :
    ∀ d < S.nd, ∑ e ∈ range S.nd, S.K d e * (Xstat.getD fun _ => 0) e = F d := by
  intro d hd
  rw [hF hz d hd]
  refine hst ?_ d hd
  by_contra hc
  rw [zi_mem hh, if_neg hc] at hz; omega

/-- C89: for `'HBM'` the predicted point solves the linear harmonic balance equations with the first-harmonic load scaled
by `fmag`, for every list of harmonics that contains the first. What remains of the residual of a system with the same
matrices is the nonlinear force at the predicted point, and nothing if there is none. -/
theorem C89_hbm (hh : Admissible h) (H : FirstIsOne h) (p : PredArgs) (D : Proportional S a b eigs p.neigs)
    (hw : NoResonance S a b (eigs S.nd).1 w) (Fl : ℕ → ℝ) {fmag : ℝ} (hf : p.fmag = some fmag)
    (hst : StaticBalance S h p.Xstat Fl) (hFl : FirstHarmonicLoad S h Fl) (fs : List NLForce) (Nt : ℕ) (tol : ℝ)
    (A : NLForce → (ℕ → ℝ) → ℝ → AftOut) (hA : ∀ f ∈ fs, ∀ U w, f.aft U w h Nt tol = .ok (A f U w)) (Nt' : ℕ) (tol' : ℝ) :
    ∃ U R g, predictHarmonic S w Fl h eigs .hbm p Nt' tol' = .ok (some U) ∧ U (numCoeff h * S.nd) = w ∧
      hbmRes (S.withForces fs) U (scaledForcing S.nd h Fl fmag) h Nt tol true = .ok ⟨R, some g⟩ ∧
      ∀ i < numCoeff h * S.nd, R i = systemForce (S.withForces fs) A w (sl 0 (numCoeff h * S.nd) U) i := by
  obtain ⟨X, e1, hX⟩ := frf_balanced D hw (fun i => fmag * sl (zi h * S.nd) ((1 + zi h) * S.nd) Fl i)
    (fun i => fmag * sl ((zi h + 1) * S.nd) ((2 + zi h) * S.nd) Fl i)
  set L := numCoeff h * S.nd with hL
  have b0 : (zi h + 2) * S.nd ≤ L := Nat.mul_le_mul_right _ (num_ge H)
  have b1 : zi h * S.nd ≤ L := le_trans (Nat.mul_le_mul_right _ (by omega)) b0
  let V := setRow (setSlice (fun _ => 0) (zi h * S.nd) ((2 + zi h) * S.nd) X) L w
  have ep : predictHarmonic S w Fl h eigs .hbm p Nt' tol' = .ok (some (withStat S h p.Xstat V)) := by
    unfold predictHarmonic
    rw [Nhc_ok hh.nodup]
    simp only [if_neg hh.ne, hf, predictHbm, e1]
    rfl
  have hV : ∀ i < L, withStat S h p.Xstat V i = meanAndFirst S h p.Xstat X i := by
    intro i hi
    exact withStat_congr _ (by simp only [V, setRow, if_neg hi.ne])
  have hUL : withStat S h p.Xstat V L = w := by
    rw [withStat_high _ _ b1]
    simp [V, setRow]
  refine ⟨_, _, _, ep, hUL, hbmRes_ok (S.withForces fs) hh Nt tol A hA _ _, fun i hi => ?_⟩
  refine hbmG_of_rows fs A hUL rfl (linear_point hh H p.Xstat (fun i hi _ => hV i hi)
    (static_of hh hst fun z d hd => scaled_static hh _ _ z hd) hX (fun k hk => ?_) (fun j hj => ?_) hi)
  · rw [scaled_first hh _ _ _ (by omega), first_load _ _ hk]
  · refine unloaded hh hj _ (fun i hi hc => ?_) (fun i hi hc => ?_)
    · rw [hV i hi, meanAndFirst_high _ _ hc]
    · rw [scaled_first hh _ _ _ (by rw [add_mul] at hc; omega), load_zero hh hFl hc hi, mul_zero]

/-- The linear solution and its scaling in the amplitude controlled cases. -/
theorem scaled_solution {neigs : ℕ} (D : Proportional S a b eigs neigs) (hw : NoResonance S a b (eigs S.nd).1 w)
    (h : List ℕ) (Fl : ℕ → ℝ) : ∃ X, linearFrf S w (fun i => 1 * sl (zi h * S.nd) ((1 + zi h) * S.nd) Fl i) eigs neigs
        (some fun i => 1 * sl ((zi h + 1) * S.nd) ((2 + zi h) * S.nd) Fl i) = .ok X ∧
      ∀ c : ℝ, HarmonicBalanced S 1 w 0 (fun i => X i * c) (fun k => c * Fl (zi h * S.nd + k)) := by
  obtain ⟨X, e1, hX⟩ := frf_balanced D hw (fun i => 1 * sl (zi h * S.nd) ((1 + zi h) * S.nd) Fl i)
    (fun i => 1 * sl ((zi h + 1) * S.nd) ((2 + zi h) * S.nd) Fl i)
  refine ⟨X, e1, fun c => ((hX.smul c).congr (fun e _ => ⟨rfl, rfl⟩) (fun e he => ?_))⟩
  constructor <;> rw [first_load _ _ (by simp; omega)] <;> ring

/-- The motion of the control point at such a point. -/
theorem ctrl_first (H : FirstIsOne h) (recov : ℕ → ℝ) {Xstat : Option (ℕ → ℝ)} {U Y : ℕ → ℝ}
    (hU : ∀ i < numCoeff h * S.nd, i < (zi h + 2) * S.nd → U i = meanAndFirst S h Xstat Y i) :
    ctrl S.nd recov (zi h) U = vdot S.nd recov Y ∧
      ctrl S.nd recov (zi h + 1) U = vdot S.nd recov (fun d => Y (S.nd + d)) := by
  unfold ctrl vdot
  constructor <;> refine sum_congr rfl fun e he => ?_ <;> have he : e < S.nd := mem_range.1 he
  · obtain ⟨u, v⟩ := first_bound (nd := S.nd) (k := e) H (by omega)
    rw [hU _ u (by rwa [add_comm (zi h) 2]), meanAndFirst_first _ _ (by omega)]
  · obtain ⟨u, v⟩ := first_bound (nd := S.nd) (k := S.nd + e) H (by omega)
    rw [show (zi h + 1) * S.nd + e = zi h * S.nd + (S.nd + e) by ring, hU _ u (by rwa [add_comm (zi h) 2]),
      meanAndFirst_first _ _ (by omega)]

/-- C89: for `'HBM_AMP'` every predicted point solves the linear part of the amplitude controlled equations: the rows of
the harmonics leave the nonlinear force only, the amplitude equation holds exactly. -/
theorem C89_amp (hh : Admissible h) (H : FirstIsOne h) (p : PredArgs) (D : Proportional S a b eigs p.neigs)
    (hw : NoResonance S a b (eigs S.nd).1 w) (Fl recov : ℕ → ℝ) (order : ℕ) (amp : ℝ) (hr : p.recov = some recov)
    (ho : p.order = some order) (ha : p.amp = some amp)
    (hst : StaticBalance S h p.Xstat Fl) (hFl : FirstHarmonicLoad S h Fl) (fs : List NLForce) (Nt : ℕ) (tol : ℝ)
    (A : NLForce → (ℕ → ℝ) → ℝ → AftOut) (hA : ∀ f ∈ fs, ∀ U w, f.aft U w h Nt tol = .ok (A f U w)) (Nt' : ℕ) (tol' : ℝ)
    {U : ℕ → ℝ} (hU : predictHarmonic S w Fl h eigs .hbmAmp p Nt' tol' = .ok (some U)) :
    ∃ R g, hbmAmpControlRes (S.withForces fs) U Fl h recov amp order Nt tol true = .ok ⟨R, some g⟩ ∧
      U (numCoeff h * S.nd + 1) = w ∧ R (numCoeff h * S.nd) = 0 ∧
      ∀ i < numCoeff h * S.nd, R i = systemForce (S.withForces fs) A w (sl 0 (numCoeff h * S.nd) U) i := by
  obtain ⟨X, e1, hX⟩ := scaled_solution D hw h Fl
  set L := numCoeff h * S.nd with hL
  have b0 : (zi h + 2) * S.nd ≤ L := Nat.mul_le_mul_right _ (num_ge H)
  have b1 : zi h * S.nd ≤ L := le_trans (Nat.mul_le_mul_right _ (by omega)) b0
  unfold predictHarmonic at hU
  rw [Nhc_ok hh.nodup] at hU
  simp only [if_neg hh.ne, e1, hr, ho, ha, ne_eq, not_true_eq_false, false_and, if_false, ← hL] at hU
  set ac := vdot S.nd recov X with hac
  set as := vdot S.nd recov (fun d => X (S.nd + d)) with has
  by_cases hz : Real.sqrt (ac ^ 2 + as ^ 2) * w ^ order = 0
  · rw [if_pos hz] at hU; simp at hU
  rw [if_neg hz, Except.ok.injEq, Option.some.injEq] at hU
  set f0 := amp / (Real.sqrt (ac ^ 2 + as ^ 2) * w ^ order) with hf0
  let V := setRow (setRow (setSlice (fun _ => 0) (zi h * S.nd) ((2 + zi h) * S.nd) fun i => X i * f0) L f0) (L + 1) w
  have eU : U = withStat S h p.Xstat V := hU.symm
  have hV : ∀ i < L, U i = meanAndFirst S h p.Xstat (fun i => X i * f0) i := by
    intro i hi
    rw [eU]
    exact withStat_congr _ (by simp only [V, setRow]; rw [if_neg (by omega), if_neg (by omega)])
  have u0 : U L = f0 := by
    rw [eU, withStat_high _ _ b1]; simp [V, setRow]
  have u1 : U (L + 1) = w := by
    rw [eU, withStat_high _ _ (by omega)]; simp [V, setRow]
  obtain ⟨R, J, d, q1, q2, q3, -⟩ := ampControl_ok (S.withForces fs) hh Nt tol A hA U Fl recov amp order (L := L) rfl
  refine ⟨R, _, q1, u1, ?_, fun i hi => ?_⟩
  · obtain ⟨c1, c2⟩ := ctrl_first H recov (fun i hi _ => hV i hi)
    have c1 : ctrl S.nd recov (zi h) U = ac * f0 := by
      rw [c1, hac]
      unfold vdot
      rw [sum_mul]
      exact sum_congr rfl fun e _ => by ring
    have c2 : ctrl S.nd recov (zi h + 1) U = as * f0 := by
      rw [c2, has]
      unfold vdot
      rw [sum_mul]
      exact sum_congr rfl fun e _ => by ring
    have q3 : R L = U (L + 1) ^ (2 * order) * (ctrl S.nd recov (zi h) U ^ 2 + ctrl S.nd recov (zi h + 1) U ^ 2)
      - amp ^ 2 := q3
    rw [q3, c1, c2, u1, hf0]
    have hs : Real.sqrt (ac ^ 2 + as ^ 2) ^ 2 = ac ^ 2 + as ^ 2 := Real.sq_sqrt (by positivity)
    have hn := mul_ne_zero_iff.1 hz
    have : w ^ (2 * order) * ((ac * (amp / (Real.sqrt (ac ^ 2 + as ^ 2) * w ^ order))) ^ 2
        + (as * (amp / (Real.sqrt (ac ^ 2 + as ^ 2) * w ^ order))) ^ 2)
        = (w ^ order) ^ 2 * Real.sqrt (ac ^ 2 + as ^ 2) ^ 2 * (amp / (Real.sqrt (ac ^ 2 + as ^ 2) * w ^ order)) ^ 2 := by
      rw [hs]; ring
    rw [this]
    obtain ⟨n1, n2⟩ := hn
    generalize Real.sqrt (ac ^ 2 + as ^ 2) = r at *
    field_simp
    ring
  · rw [q2 i hi, u0, u1]
    refine hbmG_of_rows (U := U) fs A (by rw [← hL, hcat_at]) (by rw [← hL, sl_hcat])
      (linear_point hh H p.Xstat (fun i hi _ => hV i hi)
      (static_of hh hst fun z d hd => scaled_static hh _ _ z hd) (hX f0) (fun k hk => ?_) (fun j hj => ?_) hi)
    · exact scaled_first hh _ _ _ (by omega)
    · refine unloaded hh hj _ (fun i hi hc => ?_) (fun i hi hc => ?_)
      · rw [hV i hi, meanAndFirst_high _ _ hc]
      · rw [scaled_first hh _ _ _ (by rw [add_mul] at hc; omega), load_zero hh hFl hc hi, mul_zero]

/-- A change of phase of the first harmonic. -/
def rotated (nd : ℕ) (c s : ℝ) (Y : ℕ → ℝ) (i : ℕ) : ℝ :=
  if i < nd then c * Y i + s * Y (nd + i) else -s * Y (i - nd) + c * Y i

theorem HarmonicBalanced.rotated {Y G : ℕ → ℝ} (H : HarmonicBalanced S 1 w 0 Y G) (c s : ℝ) :
    HarmonicBalanced S 1 w 0 (TMD.rotated S.nd c s Y) (TMD.rotated S.nd c s G) := by
  intro d hd
  obtain ⟨u, v⟩ := H d hd
  have r1 : ∀ e < S.nd, ∀ Y, TMD.rotated S.nd c s Y (S.nd * 0 + e) = c * Y (S.nd * 0 + e) + s * Y (S.nd * (0 + 1) + e) := by
    intro e he Y
    unfold TMD.rotated
    rw [if_pos (by omega)]; simp
  have r2 : ∀ e < S.nd, ∀ Y, TMD.rotated S.nd c s Y (S.nd * (0 + 1) + e)
      = -s * Y (S.nd * 0 + e) + c * Y (S.nd * (0 + 1) + e) := by
    intro e he Y
    unfold TMD.rotated
    rw [if_neg (by simp)]; simp
  rw [r1 d hd, r2 d hd, ← u, ← v]
  simp only [mul_sum, ← sum_add_distrib]
  constructor <;> refine sum_congr rfl fun e he => ?_ <;> rw [r1 e (mem_range.1 he), r2 e (mem_range.1 he)] <;> ring

/-- The point predicted before the superharmonic is added: loads, control equations. -/
theorem phase_point (hh : Admissible h) (recov : ℕ → ℝ) (order : ℕ) (amp : ℝ) (Fl X : ℕ → ℝ)
    (hX : ∀ c : ℝ, HarmonicBalanced S 1 w 0 (fun i => X i * c) (fun k => c * Fl (zi h * S.nd + k)))
    (hs : ∑ d ∈ range S.nd, |Fl ((zi h + 1) * S.nd + d)| = 0)
    (hz : Real.sqrt (vdot S.nd recov X ^ 2 + vdot S.nd recov (fun d => X (S.nd + d)) ^ 2) * w ^ order ≠ 0) :
    let ac := vdot S.nd recov X
    let as := vdot S.nd recov (fun d => X (S.nd + d))
    let f0 := amp / (Real.sqrt (ac ^ 2 + as ^ 2) * w ^ order)
    let θ := Complex.arg ⟨ac, as⟩
    let Y := rotated S.nd (Real.cos θ) (Real.sin θ) (fun i => X i * f0)
    ∃ G, HarmonicBalanced S 1 w 0 Y G ∧
      (∀ k < 2 * S.nd, phaseForcing S.nd h Fl (Real.cos θ * f0) (-Real.sin θ * f0) (zi h * S.nd + k) = G k) ∧
      w ^ order * vdot S.nd recov Y = amp ∧ w ^ order * vdot S.nd recov (fun d => Y (S.nd + d)) = 0 := by
  intro ac as f0 θ Y
  have hsin : ∀ d < S.nd, Fl ((zi h + 1) * S.nd + d) = 0 := by
    intro d hd
    have := (sum_eq_zero_iff_of_nonneg fun k _ => abs_nonneg _).1 hs d (mem_range.2 hd)
    exact abs_eq_zero.1 this
  refine ⟨_, (hX f0).rotated (Real.cos θ) (Real.sin θ), fun k hk => ?_, ?_, ?_⟩
  · unfold phaseForcing rotated
    simp only [← zi_nd hh]
    rw [if_neg (by omega)]
    by_cases c : k < S.nd
    · rw [if_pos (by omega), if_pos c, show zi h * S.nd + (S.nd + k) = (zi h + 1) * S.nd + k by ring, hsin k c]; ring
    · rw [if_neg (by omega), if_neg c, if_pos (by omega), show zi h * S.nd + k = (zi h + 1) * S.nd + (k - S.nd) by
        rw [add_mul]; omega, hsin _ (by omega), show (zi h + 1) * S.nd + (k - S.nd) - S.nd = zi h * S.nd + (k - S.nd) by
        rw [add_mul]; omega]; ring
  all_goals
    have hr : ‖(⟨ac, as⟩ : ℂ)‖ = Real.sqrt (ac ^ 2 + as ^ 2) := by
      rw [Complex.norm_def, Complex.normSq_mk]; congr 1; ring
    have h1 : Real.sqrt (ac ^ 2 + as ^ 2) * Real.cos θ = ac := by
      rw [← hr]; exact Complex.norm_mul_cos_arg (⟨ac, as⟩ : ℂ)
    have h2 : Real.sqrt (ac ^ 2 + as ^ 2) * Real.sin θ = as := by
      rw [← hr]; exact Complex.norm_mul_sin_arg (⟨ac, as⟩ : ℂ)
    have h3 := Real.sin_sq_add_cos_sq θ
  · have e : vdot S.nd recov Y = (Real.cos θ * ac + Real.sin θ * as) * f0 := by
      simp only [ac, as, vdot, mul_sum, ← sum_add_distrib, sum_mul]
      refine sum_congr rfl fun e he => ?_
      simp only [Y, rotated, if_pos (mem_range.1 he)]; ring
    change Real.sqrt (ac ^ 2 + as ^ 2) * w ^ order ≠ 0 at hz
    have e2 : Real.cos θ * ac + Real.sin θ * as = Real.sqrt (ac ^ 2 + as ^ 2) := by
      nth_rewrite 1 [← h1]; nth_rewrite 2 [← h2]; linear_combination Real.sqrt (ac ^ 2 + as ^ 2) * h3
    rw [e, e2]
    simp only [f0]
    obtain ⟨n1, n2⟩ := mul_ne_zero_iff.1 hz
    field_simp
  · have e : vdot S.nd recov (fun d => Y (S.nd + d)) = (-Real.sin θ * ac + Real.cos θ * as) * f0 := by
      simp only [ac, as, vdot, mul_sum, ← sum_add_distrib, sum_mul]
      refine sum_congr rfl fun e he => ?_
      simp only [Y, rotated, if_neg (show ¬ S.nd + e < S.nd by omega), Nat.add_sub_cancel_left]; ring
    rw [e, show -Real.sin θ * ac + Real.cos θ * as = 0 by
      nth_rewrite 1 [← h1]; nth_rewrite 2 [← h2]; ring]
    ring

theorem phase_high (hh : Admissible h) (Fl : ℕ → ℝ) (c s : ℝ) {i : ℕ} (hi : (zi h + 2) * S.nd ≤ i) :
    phaseForcing S.nd h Fl c s i = 0 := by
  unfold phaseForcing
  simp only [← zi_nd hh]
  rw [add_mul] at hi
  rw [if_neg (by omega), if_neg (by omega), if_neg (by omega)]

theorem phase_static (hh : Admissible h) (Fl : ℕ → ℝ) (c s : ℝ) (z : zi h = 1) {d : ℕ} (hd : d < S.nd) :
    phaseForcing S.nd h Fl c s d = Fl d := by
  unfold phaseForcing
  simp only [← zi_nd hh, z, one_mul]
  rw [if_pos hd]

/-- C89: for `'HBM_AMP_PHASE'` every predicted point solves the linear part of the amplitude and phase controlled
equations; both control equations hold exactly. -/
theorem C89_amp_phase (hh : Admissible h) (H : FirstIsOne h) (p : PredArgs) (D : Proportional S a b eigs p.neigs)
    (hw : NoResonance S a b (eigs S.nd).1 w) (Fl recov : ℕ → ℝ) (order : ℕ) (amp : ℝ) (hr : p.recov = some recov)
    (ho : p.order = some order) (ha : p.amp = some amp)
    (hst : StaticBalance S h p.Xstat Fl) (fs : List NLForce) (Nt : ℕ) (tol : ℝ)
    (A : NLForce → (ℕ → ℝ) → ℝ → AftOut) (hA : ∀ f ∈ fs, ∀ U w, f.aft U w h Nt tol = .ok (A f U w)) (Nt' : ℕ) (tol' : ℝ)
    {U : ℕ → ℝ} (hU : predictHarmonic S w Fl h eigs .hbmAmpPhase p Nt' tol' = .ok (some U)) :
    ∃ R g, hbmAmpPhaseRes (S.withForces fs) U Fl h recov amp order Nt tol true = .ok ⟨R, some g⟩ ∧
      U (numCoeff h * S.nd + 2) = w ∧ R (numCoeff h * S.nd) = 0 ∧ R (numCoeff h * S.nd + 1) = 0 ∧
      ∀ i < numCoeff h * S.nd, R i = systemForce (S.withForces fs) A w (sl 0 (numCoeff h * S.nd) U) i := by
  obtain ⟨X, e1, hX⟩ := scaled_solution D hw h Fl
  set L := numCoeff h * S.nd with hL
  have b0 : (zi h + 2) * S.nd ≤ L := Nat.mul_le_mul_right _ (num_ge H)
  have b1 : zi h * S.nd ≤ L := le_trans (Nat.mul_le_mul_right _ (by omega)) b0
  unfold predictHarmonic at hU
  rw [Nhc_ok hh.nodup] at hU
  simp only [if_neg hh.ne, e1, hr, ho, ha, ne_eq, reduceCtorEq, not_false_eq_true, true_and, ← hL] at hU
  by_cases hs : ∑ d ∈ range S.nd, |Fl ((zi h + 1) * S.nd + d)| = 0
  swap
  · rw [if_pos hs] at hU; simp at hU
  rw [if_neg (not_not.2 hs)] at hU
  by_cases hz : Real.sqrt (vdot S.nd recov X ^ 2 + vdot S.nd recov (fun d => X (S.nd + d)) ^ 2) * w ^ order = 0
  · rw [if_pos hz] at hU; simp at hU
  rw [if_neg hz, Except.ok.injEq, Option.some.injEq] at hU
  obtain ⟨G, k1, k2, k3, k4⟩ := phase_point hh recov order amp Fl X hX hs hz
  set f0 := amp / (Real.sqrt (vdot S.nd recov X ^ 2 + vdot S.nd recov (fun d => X (S.nd + d)) ^ 2) * w ^ order) with hf0
  set θ := Complex.arg ⟨vdot S.nd recov X, vdot S.nd recov (fun d => X (S.nd + d))⟩ with hθ
  let V := setRow (setRow (setRow (setSlice (fun _ => 0) (zi h * S.nd) ((2 + zi h) * S.nd)
    (rotated S.nd (Real.cos θ) (Real.sin θ) (fun i => X i * f0))) L (Real.cos θ * f0)) (L + 1) (-Real.sin θ * f0)) (L + 2) w
  have eU : U = withStat S h p.Xstat V := hU.symm
  have hV : ∀ i < L, U i = meanAndFirst S h p.Xstat (rotated S.nd (Real.cos θ) (Real.sin θ) (fun i => X i * f0)) i := by
    intro i hi
    rw [eU]
    exact withStat_congr _ (by simp only [V, setRow]; rw [if_neg (by omega), if_neg (by omega), if_neg (by omega)])
  have u0 : U L = Real.cos θ * f0 := by
    rw [eU, withStat_high _ _ b1]; simp [V, setRow]
  have u1 : U (L + 1) = -Real.sin θ * f0 := by
    rw [eU, withStat_high _ _ (by omega)]; simp [V, setRow]
  have u2 : U (L + 2) = w := by
    rw [eU, withStat_high _ _ (by omega)]; simp [V, setRow]
  obtain ⟨c1, c2⟩ := ctrl_first H recov (fun i hi _ => hV i hi)
  obtain ⟨R, J, d, q1, q2, q3, q4, -⟩ := ampPhase_ok (S.withForces fs) hh Nt tol A hA U Fl recov amp order (L := L) rfl
    (num_ge H)
  refine ⟨R, _, q1, u2, ?_, ?_, fun i hi => ?_⟩
  · rw [q3, u2]
    change w ^ order * ctrl S.nd recov (zi h) U - amp = 0
    rw [c1, k3, sub_self]
  · rw [q4, u2]
    change w ^ order * ctrl S.nd recov (zi h + 1) U = 0
    rw [c2, k4]
  · rw [q2 i hi, u0, u1, u2]
    refine hbmG_of_rows (U := U) fs A (by rw [← hL, hcat_at]) (by rw [← hL, sl_hcat])
      (linear_point hh H p.Xstat (fun i hi _ => hV i hi)
      (static_of hh hst fun z d hd => phase_static hh _ _ _ z hd) k1 k2 (fun j hj => ?_) hi)
    refine unloaded hh hj _ (fun i hi hc => ?_) (fun i hi hc => ?_)
    · rw [hV i hi, meanAndFirst_high _ _ hc]
    · exact phase_high hh _ _ _ hc

/-- Position of a harmonic in a sorted list. -/
theorem harm_index (hs : h.Pairwise (· < ·)) {rhi : ℕ} (hm : rhi ∈ h) (h2 : 2 ≤ rhi) (H : FirstIsOne h) :
    ∃ j ∈ Ico (zi h + 1) h.length, h.getD j 0 = rhi ∧ numCoeff (h.filter fun k => k < rhi) = j * 2 - zi h ∧
      ∀ l ∈ Ico (zi h + 1) h.length, h.getD l 0 = rhi → l = j := by
  obtain ⟨j, hj, e⟩ := List.getElem_of_mem hm
  have e' : h.getD j 0 = rhi := by rw [List.getD_eq_getElem _ _ hj, e]
  refine ⟨j, mem_Ico.2 ⟨?_, hj⟩, e', ?_, fun l hl el => ?_⟩
  · obtain ⟨t, rfl | rfl⟩ := H
    · rcases j with _ | j
      · simp at e; omega
      · simp [zi]
    · rcases j with _ | _ | j
      · simp at e; omega
      · simp at e; omega
      · simp [zi]
  · have := numCoeff_filter_getD hs hj (by omega)
    rwa [e'] at this
  · have hn : h.Nodup := hs.imp (fun h => Nat.ne_of_lt h)
    have hl := (mem_Ico.1 hl).2
    rw [List.getD_eq_getElem _ _ hl, ← e] at el
    exact (List.Nodup.getElem_inj_iff hn).1 el

/-- C89: for `'VPRNM_AMP_PHASE'` (harmonic `rhi ≥ 2` of a sorted list) every predicted point has both control equations
fulfilled and the requested amplitude as last unknown. The rows of the harmonics leave the nonlinear force; in the rows of
harmonic `rhi` only its part caused by that harmonic itself, because the force of the motion without it is balanced. -/
theorem C89_vprnm (hs : h.Pairwise (· < ·)) (H : FirstIsOne h) (p : PredArgs) (D : Proportional S a b eigs p.neigs)
    (hw : NoResonance S a b (eigs S.nd).1 w) (rhi : ℕ) (hrhi : p.rhi = some rhi) (hm : rhi ∈ h) (h2 : 2 ≤ rhi)
    (hw2 : NoResonance S a b (eigs S.nd).1 (rhi * w)) (Fl recov : ℕ → ℝ) (order : ℕ) (amp : ℝ)
    (hr : p.recov = some recov) (ho : p.order = some order) (ha : p.amp = some amp)
    (hst : StaticBalance S h p.Xstat Fl) (N : VibSys) (hN : p.nl = some N) (Nt : ℕ) (tol : ℝ)
    (A : NLForce → (ℕ → ℝ) → ℝ → AftOut)
    (hA : ∀ f ∈ N.forces, ∀ U w, f.aft U w h Nt tol = .ok (A f U w) ∧ f.aftNoGrad U w h Nt tol = .ok (A f U w).F)
    (cs : ℝ) (filt : Option (ℕ × (ℕ → ℕ → ℝ)))
    {U : ℕ → ℝ} (hU : predictHarmonic S w Fl h eigs .vprnmAmpPhase p Nt tol = .ok (some U)) :
    ∃ R g, vprnmAmpPhaseRes (S.withForces N.forces) U Fl h rhi recov order Nt tol cs filt true = .ok ⟨R, some g⟩ ∧
      U (numCoeff h * S.nd + 2) = w ∧ U (numCoeff h * S.nd + 3) = amp ∧
      R (numCoeff h * S.nd) = 0 ∧ R (numCoeff h * S.nd + 1) = 0 ∧
      ∀ i < numCoeff h * S.nd, R i = systemForce N A w (sl 0 (numCoeff h * S.nd) U) i -
        if numCoeff (h.filter fun k => k < rhi) * S.nd ≤ i ∧ i < (numCoeff (h.filter fun k => k < rhi) + 2) * S.nd
        then systemForce N A w (lowMotion S.nd h rhi U) i else 0 := by
  have hh : Admissible h := admissible_of_sorted hs hm
  obtain ⟨X, e1, hX⟩ := scaled_solution D hw h Fl
  obtain ⟨j0, hj0, gj0, ej0, uj0⟩ := harm_index hs hm h2 H
  set L := numCoeff h * S.nd with hL
  set ri := numCoeff (h.filter fun k => k < rhi) with hri
  have b0 : (zi h + 2) * S.nd ≤ L := Nat.mul_le_mul_right _ (num_ge H)
  have b1 : zi h * S.nd ≤ L := le_trans (Nat.mul_le_mul_right _ (by omega)) b0
  have r1 : S.nd * (ri + 2) ≤ L := rhi_bound hs hm (by omega) S.nd
  have r2 : S.nd * (ri + 2) = S.nd * ri + S.nd + S.nd := by ring
  have r3 : (zi h + 2) * S.nd ≤ S.nd * ri := by
    rw [Nat.mul_comm S.nd]
    exact Nat.mul_le_mul_right _ (by rw [mem_Ico] at hj0; omega)
  have r4 : ri * S.nd = S.nd * ri := Nat.mul_comm _ _
  have r5 : (ri + 2) * S.nd = S.nd * ri + S.nd + S.nd := by ring
  unfold predictHarmonic at hU
  rw [Nhc_ok hh.nodup] at hU
  simp only [if_neg hh.ne, e1, hr, ho, ha, hN, hrhi, ne_eq, reduceCtorEq, not_false_eq_true, true_and, ← hL] at hU
  by_cases hs' : ∑ d ∈ range S.nd, |Fl ((zi h + 1) * S.nd + d)| = 0
  swap
  · rw [if_pos hs'] at hU; simp at hU
  rw [if_neg (not_not.2 hs')] at hU
  by_cases hz : Real.sqrt (vdot S.nd recov X ^ 2 + vdot S.nd recov (fun d => X (S.nd + d)) ^ 2) * w ^ order = 0
  · rw [if_pos hz] at hU; simp at hU
  rw [if_neg hz] at hU
  obtain ⟨G, k1, k2, k3, k4⟩ := phase_point hh recov order amp Fl X hX hs' hz
  set f0 := amp / (Real.sqrt (vdot S.nd recov X ^ 2 + vdot S.nd recov (fun d => X (S.nd + d)) ^ 2) * w ^ order) with hf0
  set θ := Complex.arg ⟨vdot S.nd recov X, vdot S.nd recov (fun d => X (S.nd + d))⟩ with hθ
  let V0 := setRow (setRow (setRow (setRow (setSlice (fun _ => 0) (zi h * S.nd) ((2 + zi h) * S.nd)
    (rotated S.nd (Real.cos θ) (Real.sin θ) (fun i => X i * f0))) L (Real.cos θ * f0)) (L + 1) (-Real.sin θ * f0)) (L + 2) w)
    (L + 3) amp
  set V := withStat S h p.Xstat V0 with hVd
  have hV : ∀ i < L, V i = meanAndFirst S h p.Xstat (rotated S.nd (Real.cos θ) (Real.sin θ) (fun i => X i * f0)) i := by
    intro i hi
    refine withStat_congr _ ?_
    simp only [V0, setRow]
    rw [if_neg (by omega), if_neg (by omega), if_neg (by omega), if_neg (by omega)]
  have hV1 : ∀ i, L ≤ i → V i = V0 i := fun i hi => withStat_high _ _ (by omega)
  change (match totalAft N (sl 0 L V) w h Nt tol p.calcGrad with
    | .error e => .error e
    | .ok F => match Nhc (h.filter fun k => k < rhi) with
      | .error e => .error e
      | .ok ri => match predictHbm S (rhi * w) (fun i => -sl (S.nd * ri) (S.nd * (ri + 2)) F.R i) [1] 2 eigs 1 p.neigs with
        | .error e => .error e
        | .ok W => .ok (some (setSlice V (S.nd * ri) (S.nd * (ri + 2)) W)) : Except Err (Option (ℕ → ℝ))) = .ok (some U) at hU
  obtain ⟨F, hF, hFR⟩ : ∃ F, totalAft N (sl 0 L V) w h Nt tol p.calcGrad = .ok F ∧
      ∀ i, F.R i = systemForce N A w (sl 0 L V) i := by
    cases hc : p.calcGrad with
    | true => exact ⟨_, totalAft_ok N hh.nodup _ _ _ _ (fun f => A f (sl 0 L V) w) (fun f hf => (hA f hf _ _).1), fun i => rfl⟩
    | false => exact ⟨_, totalAft_ng N hh.nodup _ _ _ _ (fun f => (A f (sl 0 L V) w).F) (fun f hf => (hA f hf _ _).2),
        fun i => rfl⟩
  rw [hF] at hU
  simp only [Nhc_ok (hh.nodup.filter _), ← hri] at hU
  obtain ⟨X2, e2, hX2⟩ := scaled_solution D hw2 [1] (fun i => -sl (S.nd * ri) (S.nd * (ri + 2)) F.R i)
  have e3 : predictHbm S (rhi * w) (fun i => -sl (S.nd * ri) (S.nd * (ri + 2)) F.R i) [1] 2 eigs 1 p.neigs
      = .ok (setRow (setSlice (fun _ => 0) (zi [1] * S.nd) ((2 + zi [1]) * S.nd) X2) (2 * S.nd) (rhi * w)) := by
    unfold predictHbm
    simp only [e2]
  rw [e3] at hU
  simp only [Except.ok.injEq, Option.some.injEq] at hU
  have uo : ∀ i, (i < S.nd * ri ∨ S.nd * (ri + 2) ≤ i) → U i = V i := by
    intro i hi
    rw [← hU, setSlice, if_neg (by omega)]
  have ui : ∀ k < 2 * S.nd, U (S.nd * ri + k) = X2 k := by
    intro k hk
    rw [← hU, setSlice, if_pos (by omega), Nat.add_sub_cancel_left, setRow, if_neg (by omega)]
    have := slice_first (h := [1]) X2 (fun _ => 0) hk
    simpa [zi] using this
  have u0 : U L = Real.cos θ * f0 := by
    rw [uo _ (by omega), hV1 _ le_rfl]; simp [V0, setRow]
  have u1 : U (L + 1) = -Real.sin θ * f0 := by
    rw [uo _ (by omega), hV1 _ (by omega)]; simp [V0, setRow]
  have u2 : U (L + 2) = w := by
    rw [uo _ (by omega), hV1 _ (by omega)]; simp [V0, setRow]
  have u3 : U (L + 3) = amp := by
    rw [uo _ (by omega), hV1 _ (by omega)]; simp [V0, setRow]
  have hU1 : ∀ i < L, i < (zi h + 2) * S.nd →
      U i = meanAndFirst S h p.Xstat (rotated S.nd (Real.cos θ) (Real.sin θ) (fun i => X i * f0)) i := by
    intro i hi hi2
    rw [uo i (by omega), hV i hi]
  have hlow : lowMotion S.nd h rhi U = sl 0 L V := by
    funext k
    unfold lowMotion
    change (if k < ri * S.nd then U k else 0) = _
    by_cases c : k < ri * S.nd
    · rw [if_pos c, uo k (by omega), sl_zero (by omega)]
    · rw [if_neg c]
      by_cases c2 : k < L
      · rw [sl_zero c2, hV k c2, meanAndFirst_high _ _ (by omega)]
      · simp [sl, c2]
  have fw : ∀ f ∈ (S.withForces N.forces).forces, ∀ U w, f.aft U w h Nt tol = .ok (A f U w) := fun f hf U w => (hA f hf U w).1
  obtain ⟨v, dv, v1, -⟩ := phase_grad (S.withForces N.forces) h hs rhi hm (by omega) Nt tol A fw filt (L := L) rfl 0 (L + 2)
    (by omega)
  have y0 : ∀ k < L + 3, sl 0 (L + 3) U k = U k := fun k hk => sl_zero hk U
  obtain ⟨R, J, d, q1, q2, q3, q4, -⟩ := ampPhase_ok (S.withForces N.forces) hh Nt tol A fw (sl 0 (L + 3) U) Fl recov
    (U (L + 3)) order (L := L) rfl (num_ge H)
  have q := vprnmAmpPhase_ok (S.withForces N.forces) hh Nt tol U Fl recov order rhi cs filt (L := L) rfl (v1 U) q1
  have hU2 : ∀ i < L, i < (zi h + 2) * S.nd → sl 0 (L + 3) U i
      = meanAndFirst S h p.Xstat (rotated S.nd (Real.cos θ) (Real.sin θ) (fun i => X i * f0)) i := by
    intro i hi hi2
    rw [y0 i (by omega), hU1 i hi hi2]
  obtain ⟨c1, c2⟩ := ctrl_first H recov hU2
  refine ⟨_, _, q, u2, u3, ?_, ?_, fun i hi => ?_⟩
  · rw [if_pos (by omega), q3, y0 _ (by omega), u2, u3]
    change w ^ order * ctrl S.nd recov (zi h) (sl 0 (L + 3) U) - amp = 0
    rw [c1, k3, sub_self]
  · rw [if_pos (by omega), q4, y0 _ (by omega), u2]
    change w ^ order * ctrl S.nd recov (zi h + 1) (sl 0 (L + 3) U) = 0
    rw [c2, k4]
  · rw [if_pos (by omega), q2 i hi, y0 _ (by omega), y0 _ (by omega), y0 _ (by omega), u0, u1, u2]
    have z : sl 0 L (sl 0 (L + 3) U) = sl 0 L U := sl_congr fun k hk => y0 k (by omega)
    let F' : ℕ → ℝ := fun i => phaseForcing S.nd h Fl (Real.cos θ * f0) (-Real.sin θ * f0) i -
        if ri * S.nd ≤ i ∧ i < (ri + 2) * S.nd then systemForce N A w (lowMotion S.nd h rhi U) i else 0
    have key := hbmG_of_rows (h := h) (w := w) (U := U) (Z := hcat L (sl 0 L (sl 0 (L + 3) U)) fun _ => w)
      (F := F') N.forces A
      (by rw [← hL, hcat_at]) (by rw [← hL, sl_hcat, z]) (i := i)
      (linear_point (F := F') hh H p.Xstat hU1
        (static_of hh hst fun z d hd => ?_) k1 (fun k hk => ?_) (fun j hj => ?_) hi)
    · simp only [F'] at key
      change hbmG (S.withForces N.forces) A h (hcat L (sl 0 L (sl 0 (L + 3) U)) fun _ => w) i
        - phaseForcing S.nd h Fl (Real.cos θ * f0) (-Real.sin θ * f0) i = _
      change _ = systemForce N A w (sl 0 L U) i at key
      rw [← key]; ring
    · have b2 : (zi h + 2) * S.nd = S.nd + 2 * S.nd := by rw [z]; ring
      simp only [F']
      rw [if_neg (by omega), sub_zero, phase_static hh _ _ _ z hd]
    · have b2 : (zi h + 2) * S.nd = zi h * S.nd + 2 * S.nd := by ring
      simp only [F']
      rw [if_neg (by omega), sub_zero, k2 k hk]
    · by_cases cj : j = j0
      · subst cj
        rw [gj0, ← ej0]
        have hb : HarmonicBalanced S (rhi : ℝ) w 0 (fun i => X2 i * 1)
            (fun k => 1 * (fun i => -sl (S.nd * ri) (S.nd * (ri + 2)) F.R i) (zi [1] * S.nd + k)) := by
          have := hX2 1
          unfold HarmonicBalanced at this ⊢
          simpa only [one_mul] using this
        refine hb.congr (fun e he => ?_) (fun e he => ?_)
        · constructor
          · rw [ui e (by omega)]; simp
          · rw [show S.nd * (ri + 1) + e = S.nd * ri + (S.nd + e) by ring, ui _ (by omega)]; simp
        · have t : ∀ k < 2 * S.nd, sl (S.nd * ri) (S.nd * (ri + 2)) F.R k = systemForce N A w (lowMotion S.nd h rhi U)
              (S.nd * ri + k) := by
            intro k hk
            rw [sl_block hk, hFR, hlow]
          have b2 : (zi h + 2) * S.nd ≤ S.nd * ri := r3
          have b3 : S.nd * (ri + 1) = S.nd * ri + S.nd := by ring
          simp only [F']
          constructor
          · rw [phase_high hh _ _ _ (by omega), if_pos (by omega), show zi [1] = 0 from rfl]
            simp only [Nat.zero_mul, Nat.zero_add, Nat.mul_zero]
            rw [t e (by omega)]; ring
          · rw [phase_high hh _ _ _ (by omega), if_pos (by omega), show zi [1] = 0 from rfl]
            simp only [Nat.zero_mul, Nat.zero_add, Nat.mul_one]
            rw [t _ (by omega), show S.nd * (ri + 1) + e = S.nd * ri + (S.nd + e) by ring]; ring
      · have dis : ∀ e < S.nd, (S.nd * (j * 2 - zi h) + e < S.nd * ri ∧ S.nd * (j * 2 - zi h + 1) + e < S.nd * ri) ∨
            (S.nd * (ri + 2) ≤ S.nd * (j * 2 - zi h) + e ∧ S.nd * (ri + 2) ≤ S.nd * (j * 2 - zi h + 1) + e) := by
          intro e he
          have w1 : S.nd * (j * 2 - zi h + 1) = S.nd * (j * 2 - zi h) + S.nd := by ring
          have w2 : S.nd * (j * 2 - zi h + 2) = S.nd * (j * 2 - zi h) + S.nd + S.nd := by ring
          have hz1 := zi_le_one h
          rw [mem_Ico] at hj hj0
          rcases Nat.lt_or_gt_of_ne cj with c | c
          · have := Nat.mul_le_mul_left S.nd (show j * 2 - zi h + 2 ≤ ri by omega)
            left; omega
          · have := Nat.mul_le_mul_left S.nd (show ri + 2 ≤ j * 2 - zi h by omega)
            right; omega
        refine HarmonicBalanced.zero (fun e he => ?_) (fun e he => ?_)
        · obtain ⟨w1, w2, w3, w4⟩ := harm_bound hh hj he
          constructor
          · rw [uo _ (by have := dis e he; omega), hV _ w2, meanAndFirst_high _ _ (by omega)]
          · rw [uo _ (by have := dis e he; omega), hV _ w3, meanAndFirst_high _ _ (by omega)]
        · obtain ⟨w1, w2, w3, w4⟩ := harm_bound hh hj he
          simp only [F']
          constructor
          · rw [phase_high hh _ _ _ (by omega), if_neg (by have := dis e he; omega), sub_zero]
          · rw [phase_high hh _ _ _ (by omega), if_neg (by have := dis e he; omega), sub_zero]

/-- C89: the default `fmag=None` cannot be used with `'HBM'`; other names of equations, damping that is not proportional
and sine loads together with phase control are rejected. -/
theorem C89_rejected (hh : Admissible h) (p : PredArgs) (Fl : ℕ → ℝ) (Nt : ℕ) (tol : ℝ) :
    (p.fmag = none → predictHarmonic S w Fl h eigs .hbm p Nt tol = .error .type) ∧
    (S.ab = some (a, b) → predictHarmonic S w Fl h eigs .other p Nt tol = .error .name) ∧
    (S.ab = none → ∀ e, e ≠ .hbm ∨ p.fmag ≠ none → predictHarmonic S w Fl h eigs e p Nt tol = .error .assertion) ∧
    ((∃ d < S.nd, Fl ((zi h + 1) * S.nd + d) ≠ 0) →
      predictHarmonic S w Fl h eigs .hbmAmpPhase p Nt tol = .error .assertion ∧
      predictHarmonic S w Fl h eigs .vprnmAmpPhase p Nt tol = .error .assertion) := by
  refine ⟨fun hf => ?_, fun hab => ?_, fun hab e he => ?_, fun ⟨d, hd, hn⟩ => ?_⟩
  · unfold predictHarmonic
    rw [Nhc_ok hh.nodup]
    simp only [if_neg hh.ne, hf]
  · unfold predictHarmonic predictHbm linearFrf
    rw [Nhc_ok hh.nodup]
    simp only [if_neg hh.ne, hab]
  · unfold predictHarmonic predictHbm
    rw [Nhc_ok hh.nodup]
    simp only [if_neg hh.ne, C47_requires_proportional S hab]
    cases e with
    | hbm =>
      rcases he with c | c
      · exact absurd rfl c
      · obtain ⟨f, hf⟩ := Option.ne_none_iff_exists'.1 c
        simp only [hf]
    | other => rfl
    | hbmAmp => simp
    | hbmAmpPhase => simp
    | vprnmAmpPhase => simp
  · have : ∑ d ∈ range S.nd, |Fl ((zi h + 1) * S.nd + d)| ≠ 0 := by
      refine ne_of_gt (lt_of_lt_of_le (abs_pos.2 hn) ?_)
      exact single_le_sum (f := fun d => |Fl ((zi h + 1) * S.nd + d)|) (fun _ _ => abs_nonneg _) (mem_range.2 hd)
    constructor <;> unfold predictHarmonic <;> rw [Nhc_ok hh.nodup] <;>
      simp only [if_neg hh.ne, ne_eq, reduceCtorEq, not_false_eq_true, true_and, this, if_true]

/-- Example: the oscillator `x'' + x'/2 + 4 x` at its resonance `w = 2`. The unit cosine load gives a sine motion, so the
prediction for amplitude 6 with phase control is a cosine motion of amplitude 6 caused by the sine load `-6`. -/
example : ∃ U, predictHarmonic ⟨1, fun _ _ => 1, fun _ _ => 4, fun _ _ => 1 / 2, some (1 / 2, 0), []⟩ 2
    (fun i => if i = 0 then 1 else 0) [1] (fun _ => (fun _ => 4, fun _ _ => 1)) .hbmAmpPhase
    { recov := some fun _ => 1, order := some 0, amp := some 6 } = .ok (some U) ∧
    U 0 = 6 ∧ U 1 = 0 ∧ U 2 = 0 ∧ U 3 = -6 ∧ U 4 = 2 := by
  set S : VibSys := ⟨1, fun _ _ => 1, fun _ _ => 4, fun _ _ => 1 / 2, some (1 / 2, 0), []⟩ with hS
  have D : Proportional S (1 / 2) 0 (fun _ => (fun _ => 4, fun _ _ => 1)) 3 :=
    ⟨rfl, by intro d _ e _; norm_num [hS], ⟨by simp [hS], by intro i hi j hj; simp [hS] at hi hj; simp [hS, hi, hj], by simp⟩,
      by simp [hS]⟩
  have hw : NoResonance S (1 / 2) 0 (fun _ => 4) 2 := by intro j _; norm_num
  obtain ⟨X, e1, hX⟩ := scaled_solution D hw [1] (fun i => if i = 0 then 1 else 0)
  have h1 := hX 1 0 (by simp [hS])
  have x1 : X 1 = 1 := by
    have := h1.1
    norm_num [hS, zi] at this
    linarith
  have x0 : X 0 = 0 := by
    have := h1.2
    norm_num [hS, zi] at this
    linarith
  have hv0 : vdot S.nd (fun _ => 1) X = 0 := by simp [vdot, hS, x0]
  have hv1 : vdot S.nd (fun _ => 1) (fun d => X (S.nd + d)) = 1 := by simp [vdot, hS, x1]
  have harg : Complex.arg ⟨0, 1⟩ = Real.pi / 2 := Complex.arg_I
  refine ⟨?Z, ?p1, ?p2⟩
  case p1 =>
    unfold predictHarmonic
    rw [Nhc_ok (by simp)]
    simp only [e1, hv0, hv1, harg, ne_eq, reduceCtorEq, not_false_eq_true, true_and, if_false]
    rw [if_neg (by simp [hS, zi]), if_neg (by norm_num)]
  case p2 =>
    norm_num [setRow, setSlice, hS, zi, numCoeff, x0, x1]

/-- Example: the hypotheses of the theorems hold for this oscillator, also at the third harmonic. -/
example : NoResonance ⟨1, fun _ _ => 1, fun _ _ => 4, fun _ _ => 1 / 2, some (1 / 2, 0), []⟩ (1 / 2) 0 (fun _ => 4) 2 ∧
    NoResonance ⟨1, fun _ _ => 1, fun _ _ => 4, fun _ _ => 1 / 2, some (1 / 2, 0), []⟩ (1 / 2) 0 (fun _ => 4)
      ((3 : ℕ) * 2) ∧
    StaticBalance ⟨1, fun _ _ => 1, fun _ _ => 4, fun _ _ => 1 / 2, some (1 / 2, 0), []⟩ [0, 1, 3] (some fun _ => 5)
      (fun i => if i = 0 then 20 else if i = 1 then 1 else 0) ∧
    FirstHarmonicLoad ⟨1, fun _ _ => 1, fun _ _ => 4, fun _ _ => 1 / 2, some (1 / 2, 0), []⟩ [0, 1, 3]
      (fun i => if i = 0 then 20 else if i = 1 then 1 else 0) := by
  refine ⟨fun j _ => by norm_num, fun j _ => by norm_num, fun _ d hd => ?_, fun i hi _ => ?_⟩
  · simp only [Nat.lt_one_iff] at hd
    norm_num [hd]
  · simp at hi
    beta_reduce
    rw [if_neg (by omega), if_neg (by omega)]

end

end TMD
