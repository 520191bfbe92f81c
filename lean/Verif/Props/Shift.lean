import Verif.Lemmas.Shift

/-!
# C113: no instant of the period is special

The equations of motion do not contain the time itself: a motion delayed by some phase, under a forcing delayed by
the same phase, has the same residual, delayed. The harmonic residuals of the code keep this for every delay that is
a whole number of the `Nt` samples of a period (vibration_system.py:398-483 and 650-830, nonlinear_force.py:202-304,
nlforces/general_poly_stiffness.py:131-225). `Delayed h nd φ a b` says that the motions with coefficients `b` are those
of `a`, `φ` later; `rotate_subtract_phase` (utils/harmonic.py:712) is how the code delays a vector.
-/

namespace TMD

open Spec Finset

noncomputable section

/-- C113: `rotate_subtract_phase` delays the motions by `phase / h_rotate`, and any trailing entries stay. -/
theorem C113_rotate_delays (h : List ℕ) (hA : Admissible h) (nd : ℕ) (U : ℕ → ℝ) (phase : ℝ) (q : ℕ) :
    ∃ V, rotateSubtractPhase U nd h phase q = .ok V ∧ Delayed h nd (phase / q) U V ∧
      ∀ i, numCoeff h * nd ≤ i → V i = U i := C11_rotation_is_time_shift h hA nd U phase q

/-- A nonlinear force whose harmonics follow a delay of the motion by the phase `φ`. -/
def KeepsDelay (f : NLForce) (nd : ℕ) (h : List ℕ) (Nt : ℕ) (tol φ : ℝ) : Prop :=
  ∀ (U V : ℕ → ℝ) (w : ℝ), Delayed h nd φ U V →
    ∃ o o', f.aft U w h Nt tol = .ok o ∧ f.aft V w h Nt tol = .ok o' ∧ Delayed h nd φ o.F o'.F

theorem isForceDFT_delayed {h : List ℕ} (hA : Admissible h) {Nt : ℕ} (hNt : 0 < Nt) {N m : ℕ} {T : ℕ → ℕ → ℝ} (s : ℕ)
    {f g : ℕ → ℕ → ℝ} {F G : ℕ → ℝ} (a : ℕ → ℝ → ℝ) (ha : ∀ d x, a d (x + 2 * Real.pi) = a d x)
    (hf : ∀ j d, f j d = a d (angle Nt j)) (hg : ∀ j d, g j d = a d (angle Nt j - angle Nt s))
    (hF : IsForceDFT N m T h Nt f F) (hG : IsForceDFT N m T h Nt g G) : Delayed h N (2 * Real.pi * s / Nt) F G := by
  rw [delayed_iff hA]
  refine eq_of_coefOf hA (fun d hd k hk => ?_)
  rw [coefOf_rsp hA N F _ 1 hd hk, hF d hd k hk, hG d hd k hk]
  simp only [hf, hg, Nat.cast_one, div_one]
  exact dft_shift hNt (g := fun x => ∑ e ∈ range m, T d e * a e x) (fun x => by simp only [ha]) s k

theorem localMotion_delayed {h : List ℕ} {N : ℕ} {φ : ℝ} {U V : ℕ → ℝ} (H : Delayed h N φ U V) (Q : ℕ → ℕ → ℝ) (d : ℕ) :
    localMotion N Q h V d = fun τ => localMotion N Q h U d (τ - φ) := by
  funext τ
  unfold localMotion
  exact sum_congr rfl fun e he => by rw [H e (mem_range.1 he)]

/-- C113: an instantaneous force, of any law of the local displacement and velocity. -/
theorem C113_instantaneous (h : List ℕ) (hA : Admissible h) (Nt : ℕ) (hNt : ∀ k ∈ h, 2*k + 1 < Nt) (heven : Even Nt)
    (N m : ℕ) (Q T : ℕ → ℕ → ℝ) (loc : ℕ → ℝ → ℝ → Loc) (force : (ℕ → ℝ) → (ℕ → ℝ) × (ℕ → ℕ → ℝ)) (tol : ℝ) (s : ℕ) :
    KeepsDelay (instForce N m Q T loc force) N h Nt tol (2 * Real.pi * s / Nt) := by
  intro U V w H
  have h0 : 0 < Nt := by
    obtain ⟨k, hk⟩ := List.exists_mem_of_ne_nil h hA.ne
    have := hNt k hk; omega
  obtain ⟨o, h1, h2⟩ := C24_is_dft h hA Nt hNt heven N m Q T loc U w
  obtain ⟨o', h3, h4⟩ := C24_is_dft h hA Nt hNt heven N m Q T loc V w
  refine ⟨o, o', h1, h3, isForceDFT_delayed hA h0 s
    (fun d x => (loc d (localMotion N Q h U d x) (w * deriv (localMotion N Q h U d) x)).f)
    (fun d x => by simp only [localMotion_periodic, deriv_localMotion_periodic]) (fun _ _ => rfl) (fun j d => ?_) h2 h4⟩
  rw [localMotion_delayed H Q d]
  simp only [deriv_comp_sub_const]
  rfl

/-- C113: the polynomial force that couples the local displacements. -/
theorem C113_polynomial (h : List ℕ) (hA : Admissible h) (Nt : ℕ) (hNt : ∀ k ∈ h, 2*k + 1 < Nt) (heven : Even Nt)
    (N m cnl : ℕ) (Q T E : ℕ → ℕ → ℝ) (qq : ℕ → ℕ → ℕ) (s : ℕ) (U V : ℕ → ℝ) (w : ℝ)
    (H : Delayed h N (2 * Real.pi * s / Nt) U V) :
    ∃ o o', genPolyAft N m cnl Q T E qq U w h Nt = .ok o ∧ genPolyAft N m cnl Q T E qq V w h Nt = .ok o' ∧
      Delayed h N (2 * Real.pi * s / Nt) o.F o'.F := by
  have h0 : 0 < Nt := by
    obtain ⟨k, hk⟩ := List.exists_mem_of_ne_nil h hA.ne
    have := hNt k hk; omega
  obtain ⟨o, h1, h2⟩ := C24_polynomial_is_dft h hA Nt hNt heven N m cnl Q T E qq U w
  obtain ⟨o', h3, h4⟩ := C24_polynomial_is_dft h hA Nt hNt heven N m cnl Q T E qq V w
  refine ⟨o, o', h1, h3, isForceDFT_delayed hA h0 s
    (fun d x => ∑ c ∈ range cnl, E d c * ∏ e ∈ range m, (localMotion N Q h U e x)^(qq c e))
    (fun d x => by simp only [localMotion_periodic]) (fun _ _ => rfl) (fun j d => ?_) h2 h4⟩
  simp only [localMotion_delayed H Q]
  rfl

/-- What `aft` returns, as a function (the value is irrelevant where it raises). -/
def aftVal (h : List ℕ) (Nt : ℕ) (tol : ℝ) (f : NLForce) (U : ℕ → ℝ) (w : ℝ) : AftOut :=
  match f.aft U w h Nt tol with
  | .ok o => o
  | .error _ => ⟨fun _ => 0, fun _ _ => 0, fun _ => 0⟩

theorem aftVal_ok {f : NLForce} {nd : ℕ} {h : List ℕ} (hA : Admissible h) {Nt : ℕ} {tol φ : ℝ}
    (hf : KeepsDelay f nd h Nt tol φ) (U : ℕ → ℝ) (w : ℝ) :
    f.aft U w h Nt tol = .ok (aftVal h Nt tol f U w) := by
  obtain ⟨o, -, h1, -⟩ := hf U _ w ((delayed_iff hA).2 fun _ _ => rfl)
  simp only [aftVal, h1]

theorem hbmG_delayed (S : VibSys) {h : List ℕ} (hA : Admissible h) {Nt : ℕ} {tol φ : ℝ}
    (hf : ∀ f ∈ S.forces, KeepsDelay f S.nd h Nt tol φ) {Z Z' : ℕ → ℝ}
    (hZ : Delayed h S.nd φ Z Z') (hw : Z' (numCoeff h * S.nd) = Z (numCoeff h * S.nd)) :
    ∀ i < numCoeff h * S.nd, hbmG S (aftVal h Nt tol) h Z' i
      = rsp (hbmG S (aftVal h Nt tol) h Z) S.nd h φ 1 i := by
  intro i hi
  have hs : Delayed h S.nd φ (sl 0 (numCoeff h * S.nd) Z) (sl 0 (numCoeff h * S.nd) Z') :=
    delayed_congr hA (fun i hi => (sl_zero hi Z).symm) (fun i hi => (sl_zero hi Z').symm) hZ
  have e1 : sl 0 (numCoeff h * S.nd) Z' = rsp (sl 0 (numCoeff h * S.nd) Z) S.nd h φ 1 := by
    funext j
    by_cases hj : j < numCoeff h * S.nd
    · exact (delayed_iff hA).1 hs j hj
    · rw [rsp_tail hA _ _ _ (by omega)]; simp [sl, hj]
  unfold hbmG
  rw [rsp_add hA _ _ _ _ i hi, rsp_listSum hA _ _ _ _ i hi, hw, ← stiff_rsp hA S.nd _ _ _ _ _ _ _ i hi, ← e1]
  congr 2
  refine List.map_congr_left fun f hfm => ?_
  obtain ⟨o, o', h1, h2, h3⟩ := hf f hfm _ _ (Z (numCoeff h * S.nd)) hs
  simp only [aftVal, h1, h2]
  exact (delayed_iff hA).1 h3 i hi

/-- C113: delaying the motion and the forcing delays the harmonic balance residual. -/
theorem C113_hbm (h : List ℕ) (hA : Admissible h) (Nt : ℕ) (tol φ : ℝ) (S : VibSys)
    (hf : ∀ f ∈ S.forces, KeepsDelay f S.nd h Nt tol φ) (Z Z' Fl Fl' : ℕ → ℝ)
    (hZ : Delayed h S.nd φ Z Z') (hw : Z' (numCoeff h * S.nd) = Z (numCoeff h * S.nd))
    (hF : Delayed h S.nd φ Fl Fl') :
    ∃ o o', hbmRes S Z Fl h Nt tol true = .ok o ∧ hbmRes S Z' Fl' h Nt tol true = .ok o' ∧
      Delayed h S.nd φ o.R o'.R := by
  refine ⟨_, _, hbmRes_ok S hA Nt tol _ (fun f hm U w => aftVal_ok hA (hf f hm) U w) Z Fl,
    hbmRes_ok S hA Nt tol _ (fun f hm U w => aftVal_ok hA (hf f hm) U w) Z' Fl', ?_⟩
  rw [delayed_iff hA] at hF ⊢
  intro i hi
  rw [rsp_sub hA _ _ _ _ i hi, ← hF i hi, ← hbmG_delayed S hA hf hZ hw i hi]

/-- C113: so the delayed vector solves the delayed problem exactly when the vector solves the problem. -/
theorem C113_solutions (h : List ℕ) (hA : Admissible h) (Nt : ℕ) (tol φ : ℝ) (S : VibSys)
    (hf : ∀ f ∈ S.forces, KeepsDelay f S.nd h Nt tol φ) (Z Z' Fl Fl' : ℕ → ℝ)
    (hZ : Delayed h S.nd φ Z Z') (hw : Z' (numCoeff h * S.nd) = Z (numCoeff h * S.nd))
    (hF : Delayed h S.nd φ Fl Fl') :
    ∃ o o', hbmRes S Z Fl h Nt tol true = .ok o ∧ hbmRes S Z' Fl' h Nt tol true = .ok o' ∧
      ((∀ i < numCoeff h * S.nd, o.R i = 0) ↔ ∀ i < numCoeff h * S.nd, o'.R i = 0) := by
  obtain ⟨o, o', h1, h2, h3⟩ := C113_hbm h hA Nt tol φ S hf Z Z' Fl Fl' hZ hw hF
  refine ⟨o, o', h1, h2, ?_⟩
  have key : ∀ a b : ℕ → ℝ, ∀ φ, Delayed h S.nd φ a b → (∀ i < numCoeff h * S.nd, a i = 0) → ∀ i < numCoeff h * S.nd, b i = 0 := by
    intro a b φ H ha i hi
    rw [(delayed_iff hA).1 H i hi, rsp_congr hA φ 1 (b := fun _ => 0 * 0) (fun j hj => by rw [ha j hj]; ring) i hi,
      rsp_smul hA φ 1 0 (fun _ => 0) i hi, zero_mul]
  refine ⟨key _ _ _ h3, key _ _ (-φ) (fun d hd τ => ?_)⟩
  rw [h3 d hd (τ - -φ)]
  congr 1; ring

/-- C113: the equations of motion of the extended periodic motion concept are delayed with the motion and its
modal mass does not change; only the phase constraint tells the delayed motion from the original one. -/
theorem C113_epmc (h : List ℕ) (hA : Admissible h) (hp : zi h + 2 ≤ numCoeff h) (Nt : ℕ) (tol φ : ℝ) (S : VibSys)
    (hf : ∀ f ∈ S.forces, KeepsDelay f S.nd h Nt tol φ) (X X' Fl : ℕ → ℝ)
    (hX : Delayed h S.nd φ X X')
    (hw : ∀ j < 3, X' (numCoeff h * S.nd + j) = X (numCoeff h * S.nd + j)) :
    ∃ o o', epmcRes S X Fl h Nt tol true = .ok o ∧ epmcRes S X' Fl h Nt tol true = .ok o' ∧
      Delayed h S.nd φ o.R o'.R ∧ o'.R (numCoeff h * S.nd) = o.R (numCoeff h * S.nd) := by
  obtain ⟨R, J, d, h1, h2, h3, -⟩ := epmc_ok S hA hp Nt tol _ (fun f hm U w => aftVal_ok hA (hf f hm) U w) X Fl rfl
  obtain ⟨R', J', d', k1, k2, k3, -⟩ := epmc_ok S hA hp Nt tol _ (fun f hm U w => aftVal_ok hA (hf f hm) U w) X' Fl rfl
  have w0 := hw 0 (by omega)
  rw [add_zero] at w0
  have w1 := hw 1 (by omega)
  have w2 := hw 2 (by omega)
  refine ⟨_, _, h1, k1, ?_, ?_⟩
  · rw [delayed_iff hA]
    intro i hi
    have hZ : Delayed h S.nd φ (epmcZ S h X) (epmcZ S h X') := by
      rw [delayed_iff hA] at hX ⊢
      have e : ∀ Y : ℕ → ℝ, ∀ j < numCoeff h * S.nd, epmcZ S h Y j
          = harmScale (zi h) S.nd 1 ((10:ℝ) ^ Y (numCoeff h * S.nd + 2)) j * Y j := fun Y j hj => by
        simp only [epmcZ, hcat, hj, if_true, epmcU, sl_zero hj]
      intro j hj
      rw [e X' j hj, w2, rsp_congr hA _ 1 (e X) j hj, rsp_harmScale hA _ _ _ _ _ j hj, hX j hj]
    have hzw : epmcZ S h X' (numCoeff h * S.nd) = epmcZ S h X (numCoeff h * S.nd) := by
      rw [epmcZ_at, epmcZ_at, w0]
    have g := hbmG_delayed (selfExcited S (X (numCoeff h * S.nd + 1))) hA hf hZ hzw i hi
    show R' i = rsp R S.nd h _ 1 i
    rw [k2 i hi, w1, rsp_congr hA _ 1 h2 i hi, rsp_sub hA _ _ _ _ i hi, g]
    show _ = rsp (hbmG (selfExcited S (X (numCoeff h * S.nd + 1))) (aftVal h Nt tol) h (epmcZ S h X)) S.nd h _ 1 i - _
    congr 1
    have hrow : ∀ R d, d < S.nd → harmScale (zi h) S.nd 1 0 (R * S.nd + d) = if R < zi h then (1:ℝ) else 0 := fun R d hd => by
      unfold harmScale
      rw [show (R * S.nd + d) / S.nd = R by
        rw [mul_comm, Nat.mul_add_div (by omega), Nat.div_eq_of_lt hd, add_zero]]
    rw [rsp_harmScale hA _ _ _ _ _ i hi]
    obtain ⟨d, hd, ⟨hz, rfl⟩ | ⟨j, hj, rfl | rfl⟩⟩ := idx_cases hA hi
    · rw [rsp_rest (Or.inl (by omega)) hd]
    · have := mem_Ico.1 hj
      have hz := zi_le_one h
      rw [hrow _ d hd, if_neg (by omega)]; simp
    · have := mem_Ico.1 hj
      have hz := zi_le_one h
      rw [hrow _ d hd, if_neg (by omega)]; simp
  · show R' _ = R _
    rw [k3, h3, quad_rsp hA hp S.nd S.M _ 1 ((delayed_iff hA).1 hX)]

theorem local_one (U : ℕ → ℝ) (τ : ℝ) :
    localMotion 1 (fun _ _ => 1) [0, 1] U 0 τ = U 0 + U 1 * Real.cos τ + U 2 * Real.sin τ := by
  simp [localMotion, series]
  ring

theorem adm01 : Admissible [0, 1] := ⟨by simp, by decide, by decide⟩

theorem samples4 : Real.cos (2 * Real.pi * ((1:ℕ):ℝ) / (4:ℕ)) = 0 ∧ Real.sin (2 * Real.pi * ((1:ℕ):ℝ) / (4:ℕ)) = 1 ∧
    Real.cos (2 * Real.pi * ((2:ℕ):ℝ) / (4:ℕ)) = -1 ∧ Real.sin (2 * Real.pi * ((2:ℕ):ℝ) / (4:ℕ)) = 0 ∧
    Real.cos (2 * Real.pi * ((3:ℕ):ℝ) / (4:ℕ)) = 0 ∧ Real.sin (2 * Real.pi * ((3:ℕ):ℝ) / (4:ℕ)) = -1 := by
  have e1 : 2 * Real.pi * ((1:ℕ):ℝ) / (4:ℕ) = Real.pi / 2 := by push_cast; ring
  have e2 : 2 * Real.pi * ((2:ℕ):ℝ) / (4:ℕ) = Real.pi := by push_cast; ring
  have e3 : 2 * Real.pi * ((3:ℕ):ℝ) / (4:ℕ) = Real.pi / 2 + Real.pi := by push_cast; ring
  rw [e1, e2, e3]
  simp [Real.cos_add_pi, Real.sin_add_pi]

/-- The harmonics of a unit cubic spring under `u0 + a cos τ + b sin τ`, sampled four times per period. -/
theorem cubic4 (U : ℕ → ℝ) (w tol : ℝ) :
    ∃ o, (cubicNL 1 1 (fun _ _ => 1) (fun _ _ => 1) (fun _ => 1)).aft U w [0, 1] 4 tol = .ok o ∧
      o.F 1 = ((U 0 + U 1)^3 - (U 0 - U 1)^3) / 2 ∧ o.F 2 = ((U 0 + U 2)^3 - (U 0 - U 2)^3) / 2 := by
  obtain ⟨o, h1, h2⟩ := C24_is_dft [0, 1] adm01 4 (by simp) ⟨2, rfl⟩ 1 1 (fun _ _ => 1) (fun _ _ => 1)
    (cubicLoc fun _ => 1) U w
  refine ⟨o, h1, ?_⟩
  have h3 := h2 0 (by omega) 1 (by simp)
  obtain ⟨c1, s1, c2, s2, c3, s3⟩ := samples4
  have one : ∀ x : ℝ, ((1:ℕ):ℝ) * x = x := fun x => by simp
  simp only [dft, sum_range_succ, range_zero, sum_empty, zero_add, cubicLoc, local_one, one_mul,
    one, c1, s1, c2, s2, c3, s3, one_ne_zero, if_false] at h3
  simp [coefOf] at h3
  exact ⟨by rw [h3.1]; ring, by rw [h3.2]; ring⟩

/-- C113: a delay that is not a whole number of samples is not kept: a unit cubic spring sampled four times per
period, under `cos τ`, has the first harmonic `cos τ`, but only half of that, delayed, under `cos (τ - π/4)`. -/
theorem C113_whole_samples_needed (tol : ℝ) :
    ¬ KeepsDelay (cubicNL 1 1 (fun _ _ => 1) (fun _ _ => 1) (fun _ => 1)) 1 [0, 1] 4 tol (Real.pi / 4) := by
  intro H
  obtain ⟨o, o', h1, h2, h3⟩ := H (fun i => if i = 1 then 1 else 0)
    (fun i => if i = 0 then 0 else √2 / 2) 1 (by
      intro d hd τ
      obtain rfl : d = 0 := by omega
      simp [series, Real.cos_sub, Real.sin_sub]
      ring)
  obtain ⟨p, k1, k2, k3⟩ := cubic4 (fun i => if i = 1 then 1 else 0) 1 tol
  obtain ⟨p', l1, l2, l3⟩ := cubic4 (fun i => if i = 0 then 0 else √2 / 2) 1 tol
  rw [h1] at k1; cases k1
  rw [h2] at l1; cases l1
  have e := (delayed_iff adm01).1 h3 1 (by decide)
  have hz : zi [0, 1] = 1 := rfl
  have e2 := rsp_cos (U := o.F) (Ndof := 1) (h := [0, 1]) (phase := Real.pi / 4) (hRot := 1) (i := 1) (d := 0)
    (by rw [hz]; decide) (by decide)
  rw [hz] at e2
  simp only [Nat.reduceMul, Nat.reduceSub, Nat.reduceAdd] at e2
  rw [e2, k2, k3, l2] at e
  simp at e
  have h2' : √2 ^ 2 = 2 := Real.sq_sqrt (by norm_num)
  have h0 : (0:ℝ) < √2 := by positivity
  have h3' : √2 ^ 3 = 2 * √2 := by rw [pow_succ, h2']
  ring_nf at e
  rw [h3'] at e
  linarith

/-- The hypotheses of C113 are met by a Duffing oscillator: a cosine motion under a cosine force, a quarter of a
period later. -/
example (tol w a f : ℝ) :
    ∃ o o', hbmRes ⟨1, fun _ _ => 1, fun _ _ => 1, fun _ _ => 0.1, none,
        [cubicNL 1 1 (fun _ _ => 1) (fun _ _ => 1) (fun _ => 1)]⟩
        (fun i => if i = 1 then a else if i = 3 then w else 0) (fun i => if i = 1 then f else 0) [0, 1] 4 tol true = .ok o ∧
      hbmRes ⟨1, fun _ _ => 1, fun _ _ => 1, fun _ _ => 0.1, none,
        [cubicNL 1 1 (fun _ _ => 1) (fun _ _ => 1) (fun _ => 1)]⟩
        (fun i => if i = 2 then a else if i = 3 then w else 0) (fun i => if i = 2 then f else 0) [0, 1] 4 tol true = .ok o' ∧
      Delayed [0, 1] 1 (2 * Real.pi * (1:ℕ) / (4:ℕ)) o.R o'.R := by
  have e1 : 2 * Real.pi * ((1:ℕ):ℝ) / (4:ℕ) = Real.pi / 2 := by push_cast; ring
  refine C113_hbm [0, 1] adm01 4 tol _ _ (fun g hg => ?_) _ _ _ _ ?_ ?_ ?_
  · simp only [List.mem_singleton] at hg
    subst hg
    exact C113_instantaneous [0, 1] adm01 4 (by simp) ⟨2, rfl⟩ 1 1 _ _ _ _ tol 1
  · intro d hd τ
    obtain rfl : d = 0 := by simp only at hd; omega
    rw [e1]
    simp [series, Real.cos_sub_pi_div_two, Real.sin_sub_pi_div_two]
  · simp [numCoeff]
  · intro d hd τ
    obtain rfl : d = 0 := by simp only at hd; omega
    rw [e1]
    simp [series, Real.cos_sub_pi_div_two, Real.sin_sub_pi_div_two]

end

end TMD
