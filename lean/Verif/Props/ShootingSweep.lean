import Verif.Props.ShootingLinear

/-!
# Property C151, continued: frequency sweeps of linear damped structures by shooting
-/

namespace TMD

open Spec Finset

noncomputable section

variable {ivp : SolveIvp} {S : VibSys} {Minv : ℕ → ℕ → ℝ} {Uw Fl : ℕ → ℝ} {Nt : ℕ}
  {A : (ℕ → ℝ) → (ℕ → ℝ) × (ℕ → ℕ → ℝ)} {f : NLForce} {Kn : ℕ → ℕ → ℝ} {lam0 lam1 y δ : ℝ}

/-- The point of the curve of steady states at the frequency `w`. -/
def statePt (S : VibSys) (Kn : ℕ → ℕ → ℝ) (Fl : ℕ → ℝ) (w : ℝ) : Fin (2 * S.nd + 1) → ℝ := fun j =>
  steadyState S.nd w (Spec.ext (resp (stiffened S Kn) Fl [1] w)) j

theorem stiffened_regular (hD : DampedSys S) (hsym : SymmOn S.nd (addStiff S Kn)) {w : ℝ} (hw : 0 < w) :
    Regular (numCoeff [1] * (stiffened S Kn).nd) (hsE (stiffened S Kn).nd (stiffened S Kn).M (stiffened S Kn).C (stiffened S Kn).K w [1] false) := by
  refine damped_regular (S := stiffened S Kn) admissible_one hD.massSymm hsym (fun v hv => ?_) (by simp) hw.ne'
  have := hD.damp v hv
  simpa [quadForm, stiffened, mul_assoc, mul_comm, mul_left_comm] using this

theorem statePt_steady (hD : DampedSys S) (hsym : SymmOn S.nd (addStiff S Kn)) {w : ℝ} (hw : 0 < w) (U : ℕ → ℝ) :
    SteadyMotion (stiffened S Kn) Fl [1] w U ↔ ∀ i < 2 * S.nd, U i = Spec.ext (resp (stiffened S Kn) Fl [1] w) i := by
  have hn : numCoeff [1] * (stiffened S Kn).nd = 2 * S.nd := by simp [numCoeff, stiffened]
  rw [steady_resp admissible_one rfl hw.ne' (stiffened_regular hD hsym hw)]
  constructor
  · intro h i hi
    rw [h ⟨i, by omega⟩]
    simp only [Spec.ext, show i < numCoeff [1] * (stiffened S Kn).nd by omega, dif_pos]
  · intro h j
    rw [h j (by have := j.2; omega)]
    simp only [Spec.ext, j.2, dif_pos]

theorem statePt_continuous (hD : DampedSys S) (hsym : SymmOn S.nd (addStiff S Kn)) {W : Set ℝ} (hW : ∀ w ∈ W, 0 < w) : ContinuousOn (statePt S Kn Fl) W := by
  have hr := resp_continuous (S := stiffened S Kn) (Fl := Fl) admissible_one fun w hw => stiffened_regular hD hsym (hW w hw)
  have he : ∀ i, ContinuousOn (fun w => Spec.ext (resp (stiffened S Kn) Fl [1] w) i) W := fun i => by
    unfold Spec.ext
    split_ifs with h
    · exact continuousOn_pi.1 hr _
    · exact continuousOn_const
  refine continuousOn_pi.2 fun j => ?_
  simp only [statePt, steadyState]
  split_ifs
  · exact he _
  · exact continuousOn_id.mul (he _)
  · exact continuousOn_id

theorem shoot_solutions (hivp : ExactIvp ivp) (htot : TotalIvp ivp) (hM : IsInv S.nd S.M Minv) (hS : S.forces = [f]) (hft : f.ftype = 0)
    (hA : ∀ U, f.force U = .ok (A U)) (hL : SmoothLaw S.nd (fun U => (A U).1) (fun U => (A U).2)) (hK : ∀ U, ∀ i < S.nd, ∀ j < S.nd, (A U).2 i j = Kn i j)
    (hf : ∀ U, ∀ i < S.nd, (A U).1 i = ∑ j ∈ range S.nd, Kn i j * U j)
    (hD : DampedSys S) (hsym : SymmOn S.nd (addStiff S Kn)) (hpos : PosOn S.nd (addStiff S Kn)) (hNt : 0 < Nt)
    {res : (ℕ → ℝ) → ShootRes} (hall : ∀ X, shootingRes ivp S Minv (firstEntries (2 * S.nd + 1) X) (2 * S.nd + 1) Fl Nt = .ok (res X))
    {bs : Option ℝ} (hW : ∀ w, Within lam0 lam1 bs δ w → 0 < w) :
    solutions (2 * S.nd) (fun X => (res X).R) lam0 lam1 bs δ = statePt S Kn Fl '' {w | Within lam0 lam1 bs δ w} := by
  have hext : ∀ v : Fin (2 * S.nd + 1) → ℝ, shootingRes ivp S Minv (Spec.ext v) (2 * S.nd + 1) Fl Nt = .ok (res (Spec.ext v)) := fun v => by
    have := hall (Spec.ext v)
    rwa [firstEntries_ext] at this
  have hlast : ∀ v : Fin (2 * S.nd + 1) → ℝ, Spec.ext v (2 * S.nd) = v (Fin.last (2 * S.nd)) := fun v => by simp [Spec.ext, Fin.last]
  have key : ∀ v : Fin (2 * S.nd + 1) → ℝ, 0 < v (Fin.last _) → ((∀ i < 2 * S.nd, (res (Spec.ext v)).R i = 0) ↔ v = statePt S Kn Fl (v (Fin.last _))) := fun v hv => by
    rw [C151_motion hivp htot hM hS hft hA hL hK hf hD hsym hpos (by rw [hlast]; exact hv) hNt (hext v), hlast]
    constructor
    · rintro ⟨U, hU, he⟩
      have hU' := (statePt_steady hD hsym hv U).1 hU
      funext j
      have ej : v j = Spec.ext v j := by rw [Spec.ext, dif_pos j.2]
      simp only [statePt, steadyState]
      split_ifs with h1 h2
      · rw [ej, (he j h1).1, hU' j (by omega)]
      · obtain ⟨i, hi⟩ : ∃ i, (j:ℕ) = S.nd + i := ⟨j - S.nd, by omega⟩
        rw [ej, hi, (he i (by omega)).2, hU' _ (by omega)]
      · congr 1
        exact Fin.ext (by have := j.2; simp only [Fin.val_last]; omega)
    · intro h
      refine ⟨_, (statePt_steady hD hsym hv _).2 fun i hi => rfl, fun i hi => ?_⟩
      have e1 : Spec.ext v i = v ⟨i, by omega⟩ := by simp only [Spec.ext, show i < 2 * S.nd + 1 by omega, dif_pos]
      have e2 : Spec.ext v (S.nd + i) = v ⟨S.nd + i, by omega⟩ := by simp only [Spec.ext, show S.nd + i < 2 * S.nd + 1 by omega, dif_pos]
      have c1 := congrFun h ⟨i, by omega⟩
      have c2 := congrFun h ⟨S.nd + i, by omega⟩
      rw [e1, e2, c1, c2]
      have h1 : S.nd + i < 2 * S.nd := by omega
      simp [statePt, steadyState, hi, h1]
  ext1 v
  constructor
  · rintro ⟨h1, h2⟩
    exact ⟨_, h2, ((key v (hW _ h2)).1 h1).symm⟩
  · rintro ⟨w, hw, rfl⟩
    have e : statePt S Kn Fl w (Fin.last _) = w := by
      have : ¬ 2 * S.nd < S.nd := by omega
      simp [statePt, steadyState, this]
    refine ⟨(key _ ?_).2 ?_, ?_⟩
    · rw [e]; exact hW w hw
    · rw [e]
    · rw [e]; exact hw

/-- C151: a frequency sweep of the shooting equations of a linear damped structure does not fail, passes every stored point near the steady state of
some frequency, moves forward in every step, and ends past the last frequency. -/
theorem C151_sweep {L : ℕ → Type} {lin : ℕ → (ℕ → ℕ → ℝ) → (ℕ → ℝ) → Except Err (ℕ → ℝ)} {inf : ℝ} {fac : (n : ℕ) → Matrix (Fin n) (Fin n) ℝ → L n}
    {sol : (n : ℕ) → L n → (Fin n → ℝ) → Fin n → ℝ} {b η : ℝ}
    (hivp : ExactIvp ivp) (htot : TotalIvp ivp) (hM : IsInv S.nd S.M Minv) (hS : S.forces = [f]) (hft : f.ftype = 0)
    (hA : ∀ U, f.force U = .ok (A U)) (hL : SmoothLaw S.nd (fun U => (A U).1) (fun U => (A U).2)) (hK : ∀ U, ∀ i < S.nd, ∀ j < S.nd, (A U).2 i j = Kn i j)
    (hf : ∀ U, ∀ i < S.nd, (A U).1 i = ∑ j ∈ range S.nd, Kn i j * U j)
    (hD : DampedSys S) (hsym : SymmOn S.nd (addStiff S Kn)) (hpos : PosOn S.nd (addStiff S Kn)) (hNt : 0 < Nt) (hF : ∃ i < 2 * S.nd, Fl i ≠ 0)
    {res : (ℕ → ℝ) → ShootRes} (hall : ∀ X, shootingRes ivp S Minv (firstEntries (2 * S.nd + 1) X) (2 * S.nd + 1) Fl Nt = .ok (res X))
    (hW : ∀ w, Within lam0 lam1 (some y) δ w → 0 < w) (hδ : 0 < δ) (hy : 0 < y) (hlam : lam0 ≠ lam1)
    {obj : ContObj} {r : ℝ} (hC : ∀ i ≤ 2 * S.nd, 0 < (contPrepare obj).CtoP i) (hr : (contPrepare obj).RPtoC = .vector fun _ => r) (hr0 : r ≠ 0)
    (hb : 0 < b) (hb1 : b < 1) (hlin : LinOk lin) (hsol : ∀ n, ExactSolve (fac n) (sol n)) (hη : 0 < η) :
    ∃ s0 > 0, ∃ t0 > 0, ∃ c > 0, ∃ p > 0, ∃ r0 > 0, ∀ smin > 0, ∀ t > 0, t ≤ t0 → t ≤ c * smin → ∃ M, ∀ om, PlainNewton om → M ≤ om.maxSteps →
      ∀ (cfg : ContCfg) (rest : List ℝ), cfg.corrector = .ortho → cfg.dynamicCtoP = false → cfg.fracLamList = b :: rest → cfg.backtrackStop = some y →
      smin ≤ cfg.dsmin → smin ≤ cfg.dsmax → cfg.dsmax ≤ s0 → smin ≤ cfg.ds0 → cfg.ds0 ≤ s0 → |lam1 - lam0| ≤ p * smin * (cfg.maxSteps - 1) →
      ∀ XlamP0 U0 : ℕ → ℝ, SteadyMotion (stiffened S Kn) Fl [1] lam0 U0 → (∀ i < S.nd, |XlamP0 i - U0 i| < r0 ∧ |XlamP0 (S.nd + i) - lam0 * U0 (S.nd + i)| < r0) →
      ∀ fuel > cfg.maxSteps,
      ∃ out, continuation (ompContSolver lin inf fac sol om (some t)) (2 * S.nd) cfg obj (shootFun ivp S Minv Fl Nt) XlamP0 lam0 lam1 fuel = .ok out ∧ out.ok = true ∧ 0 < out.n ∧
        (∀ k < out.n, ∃ w > 0, ∃ U, SteadyMotion (stiffened S Kn) Fl [1] w U ∧ |out.rows k (2 * S.nd) - w| < η ∧
          ∀ i < S.nd, |out.rows k i - U i| < η ∧ |out.rows k (S.nd + i) - w * U (S.nd + i)| < η) ∧
        (∀ k, k + 1 < out.n → p * smin ≤ (if lam0 < lam1 then 1 else -1) * (out.rows (k + 1) (2 * S.nd) - out.rows k (2 * S.nd))) ∧
        out.rows 0 (2 * S.nd) = lam0 ∧ (∀ k, k + 1 < out.n → Ahead lam0 lam1 (out.rows k (2 * S.nd))) ∧ ¬ Ahead lam0 lam1 (out.rows (out.n - 1) (2 * S.nd)) := by
  have hext : ∀ v : Fin (2 * S.nd + 1) → ℝ, shootingRes ivp S Minv (Spec.ext v) (2 * S.nd + 1) Fl Nt = .ok (res (Spec.ext v)) := fun v => by
    have := hall (Spec.ext v)
    rwa [firstEntries_ext] at this
  have hlast : ∀ v : Fin (2 * S.nd + 1) → ℝ, Spec.ext v (2 * S.nd) = v (Fin.last (2 * S.nd)) := fun v => by simp [Spec.ext, Fin.last]
  have hs := shoot_solutions hivp htot hM hS hft hA hL hK hf hD hsym hpos hNt hall hW
  have hreg : ∀ v ∈ solutions (2 * S.nd) (fun X => (res X).R) lam0 lam1 (some y) δ, Regular (2 * S.nd) (res (Spec.ext v)).dRdU := fun v hv =>
    C151_regular hivp hM hS hA hL hK hD hsym hpos (by rw [hlast]; exact hW _ hv.2) hNt (hext v)
  have hpt : ∀ w, ∀ i < S.nd, Spec.ext (statePt S Kn Fl w) i = Spec.ext (resp (stiffened S Kn) Fl [1] w) i ∧
      Spec.ext (statePt S Kn Fl w) (S.nd + i) = w * Spec.ext (resp (stiffened S Kn) Fl [1] w) (S.nd + i) := fun w i hi => by
    have a1 : i < 2 * S.nd + 1 := by omega
    have a2 : S.nd + i < 2 * S.nd + 1 := by omega
    have a3 : S.nd + i < 2 * S.nd := by omega
    constructor
    · rw [Spec.ext, dif_pos a1]
      simp [statePt, steadyState, hi]
    · rw [Spec.ext, dif_pos a2]
      simp [statePt, steadyState, a3]
  have hptl : ∀ w, statePt S Kn Fl w (Fin.last _) = w := fun w => by
    have : ¬ 2 * S.nd < S.nd := by omega
    simp [statePt, steadyState, this]
  have hw0 : Within lam0 lam1 (some y) δ lam0 := by
    refine ⟨fun hl => by linarith, fun hl => by linarith, fun z hz => ?_⟩
    obtain rfl : z = y := (Option.some.inj hz).symm
    exact ⟨fun hl => by linarith, fun hl => by linarith⟩
  have hRS : RegularSolutions (2 * S.nd) (fun X => (res X).R) (fun X => (res X).dRdU) (fun X => (res X).dRdw)
      {v | 0 < v (Fin.last (2 * S.nd)) ∧ (res (Spec.ext v)).cols = Nt + 1} lam0 lam1 (some y) δ := {
    compact := by
      rw [hs]
      exact (within_compact hlam).image_of_continuousOn (statePt_continuous hD hsym hW)
    inside := fun v hv => ⟨hW _ hv.2, C151_complete hivp hM hS hA hL hK (by rw [hlast]; exact hW _ hv.2) hNt (hext v)⟩
    curve := fun v hv => curve_of_regular (hreg v hv)
    nonzero := fun v hv => by
      rw [hs] at hv
      obtain ⟨w, hw, rfl⟩ := hv
      by_contra hc
      push Not at hc
      have hwp := hW w hw
      have hU := (statePt_steady (Fl := Fl) hD hsym hwp (fun _ => 0)).2 fun i hi => by
        rcases Nat.lt_or_ge i S.nd with h | h
        · have := hc i hi
          rw [(hpt w i h).1] at this
          exact this.symm
        · obtain ⟨k, rfl⟩ : ∃ k, i = S.nd + k := ⟨i - S.nd, by omega⟩
          have := hc _ hi
          rw [(hpt w k (by omega)).2] at this
          exact ((mul_eq_zero.1 this).resolve_left hwp.ne').symm
      have hz : ∀ d < S.nd, ∀ t, Fl d * Real.cos (w * t) + Fl (S.nd + d) * Real.sin (w * t) = 0 := fun d hd t => by
        have := hU d hd t
        simp [series, stiffened] at this
        linarith
      obtain ⟨i, hi, hne⟩ := hF
      rcases Nat.lt_or_ge i S.nd with h | h
      · have := hz i h 0
        simp at this
        exact hne this
      · obtain ⟨k, rfl⟩ : ∃ k, i = S.nd + k := ⟨i - S.nd, by omega⟩
        have := hz k (by omega) (Real.pi / 2 / w)
        rw [mul_div_cancel₀ _ hwp.ne'] at this
        simp at this
        exact hne this }
  obtain ⟨s0, hs0, t0, ht0, c, hc, p, hp, r0, hr0', H⟩ := C140_reaches (inf := inf) (η := η) (C150_smooth hivp htot hS hft hA hL hNt hall) hRS hδ hlam hreg
    (fun z hz => by rwa [← Option.some.inj hz]) (x := statePt S Kn Fl lam0) (by rw [hs]; exact ⟨_, hw0, rfl⟩) (hptl _) hC hr hr0 hb hb1 hlin hsol hη
  refine ⟨s0, hs0, t0, ht0, c, hc, p, hp, r0, hr0', fun smin hsm t ht htt htc => ?_⟩
  obtain ⟨M, HM⟩ := H smin hsm t ht htt htc
  refine ⟨M, fun om hom hmM cfg rest c1 c2 c3 c4 c5 c6 c7 c8 c9 c10 XlamP0 U0 hU0 hX fuel hfu => ?_⟩
  have hU0' := (statePt_steady hD hsym (hW _ hw0) U0).1 hU0
  obtain ⟨out, e1, e2, e3, e4, e5, e6, e7, e8⟩ := HM om hom hmM cfg rest c1 c2 c3 c4 c5 c6 c7 c8 c9 c10 XlamP0 (fun i hi => by
    rcases Nat.lt_or_ge i S.nd with h | h
    · rw [(hpt lam0 i h).1, ← hU0' i hi]
      exact (hX i h).1
    · obtain ⟨k, rfl⟩ : ∃ k, i = S.nd + k := ⟨i - S.nd, by omega⟩
      rw [(hpt lam0 k (by omega)).2, ← hU0' _ hi]
      exact (hX k (by omega)).2) fuel hfu
  refine ⟨out, e1, e2, e3, fun k hk => ?_, e5, e6, e7, e8⟩
  obtain ⟨v, hv, hcl⟩ := e4 k hk
  rw [hs] at hv
  obtain ⟨w, hw, rfl⟩ := hv
  refine ⟨w, hW w hw, _, (statePt_steady hD hsym (hW w hw) _).2 fun i hi => rfl, ?_, fun i hi => ⟨?_, ?_⟩⟩
  · have := hcl _ le_rfl
    rwa [hlast, hptl] at this
  · rw [← (hpt w i hi).1]
    exact hcl i (by omega)
  · rw [← (hpt w i hi).2]
    exact hcl (S.nd + i) (by omega)

/-- The oscillator `x'' + x' + x = cos(w t)` with shooting: a sweep from `w = 1`, started at position 0 and velocity 1, ends past `w = 2`. -/
example :
    let S : VibSys := ⟨1, fun _ _ => 1, fun _ _ => 1, fun _ _ => 1, none, [cubicNL 1 1 (fun _ _ => 1) (fun _ _ => 1) fun _ => 0]⟩
    ∃ s0 > 0, ∃ c > 0, ∃ p > (0 : ℝ), ∀ t > 0, t ≤ c → ∃ M, ∀ om, PlainNewton om → M ≤ om.maxSteps → ∀ n : ℕ, 1 ≤ p * (n - 1) →
    ∀ cfg : ContCfg, cfg.corrector = .ortho → cfg.dynamicCtoP = false → cfg.fracLamList = [1 / 2] → cfg.backtrackStop = some (1 / 4) → cfg.dsmin = s0 / 10 → cfg.dsmax = s0 →
      cfg.ds0 = s0 → cfg.maxSteps = n →
    ∃ out, continuation (ompContSolver exactLin 0 (fun _ => id) (fun _ D v => D⁻¹.mulVec v) om (some t)) 2 cfg ⟨fun _ => 1, .scalar 1, true, true, 1 / 2, 0⟩
      (shootFun exactIvp S (fun _ _ => 1) (fun i => if i = 0 then 1 else 0) 8) (fun i => if i = 1 then 1 else 0) 1 2 (n + 1) = .ok out ∧ out.ok = true ∧ 2 ≤ out.rows (out.n - 1) 2 := by
  intro S
  have hM : IsInv S.nd S.M fun _ _ => 1 := fun i hi j hj => by
    obtain rfl : i = 0 := by simpa [S] using hi
    obtain rfl : j = 0 := by simpa [S] using hj
    simp [S]
  have hA : ∀ U, (cubicNL 1 1 (fun _ _ => 1) (fun _ _ => 1) fun _ => 0).force U = .ok (cubicForce 1 1 (fun _ _ => 1) (fun _ _ => 1) (fun _ => 0) U) := fun _ => rfl
  have hL := smoothLaw_cubic 1 1 (fun _ _ => 1) (fun _ _ => 1) fun _ => 0
  have q1 : PosOn 1 fun _ _ => 1 := fun x hx => by
    obtain ⟨i, hi, hne⟩ := hx
    obtain rfl : i = 0 := by omega
    simpa [quadForm] using hne
  have hD : DampedSys S := ⟨fun _ _ _ _ => rfl, q1, fun _ _ _ _ => rfl, q1⟩
  have ek : addStiff S (fun _ _ => 0) = fun _ _ => 1 := by funext i j; simp [addStiff, S]
  have hall : ∀ X, ∃ r, shootingRes exactIvp S (fun _ _ => 1) (firstEntries (2 * S.nd + 1) X) (2 * S.nd + 1) (fun i => if i = 0 then 1 else 0) 8 = .ok r := fun X => C150_exact rfl rfl hA _
  choose res hres using hall
  obtain ⟨s0, hs0, t0, ht0, c, hc, p, hp, r0, hr0, H⟩ := C151_sweep (Kn := fun _ _ => 0) (lam0 := 1) (lam1 := 2) (δ := 1 / 4) (y := 1 / 4) (inf := 0) (fac := fun _ => id) (sol := fun _ D v => D⁻¹.mulVec v)
    (r := 1) (b := 1 / 2) (η := 1) (obj := ⟨fun _ => 1, .scalar 1, true, true, 1 / 2, 0⟩) exactIvp_exact exactIvp_total hM rfl rfl hA hL (fun U i _ j _ => by simp [cubicForce, matMul, matVec, diag])
    (fun U i _ => by simp [cubicForce, matVec]) hD (by rw [ek]; exact fun _ _ _ _ => rfl) (by rw [ek]; exact q1) (by norm_num) ⟨0, by simp [S], by simp⟩ hres
    (fun w hw => by have := (hw.2.2 (1 / 4) rfl).1 (by norm_num); linarith) (by norm_num) (by norm_num) (by norm_num)
    (by intro i _; simp [contPrepare]) (by simp [contPrepare]) one_ne_zero (by norm_num) (by norm_num) exactLin_ok (fun _ => exactSolve_inv) one_pos
  refine ⟨s0, hs0, min t0 (c * (s0 / 10)), lt_min ht0 (by positivity), p * (s0 / 10), by positivity, fun t h1 h2 => ?_⟩
  obtain ⟨M, HM⟩ := H (s0 / 10) (by positivity) t h1 (h2.trans (min_le_left _ _)) (h2.trans (min_le_right _ _))
  refine ⟨M, fun om h3 h4 n hn cfg c1 c2 c3 c4 c5 c6 c7 c8 => ?_⟩
  have hU : SteadyMotion (stiffened S fun _ _ => 0) (fun i => if i = 0 then 1 else 0) [1] 1 fun i => if i = 1 then 1 else 0 := fun d hd t => by
    obtain rfl : d = 0 := by simpa [S, stiffened] using hd
    simp [stiffened, S, series, addStiff]
  obtain ⟨out, e1, e2, -, -, -, -, -, e3⟩ := HM om h3 h4 cfg [] c1 c2 c3 c4 c5.ge (by rw [c6]; linarith) c6.le (by rw [c7]; linarith) c7.le
    (by rw [c8, abs_of_pos (by norm_num)]; linarith) (fun i => if i = 1 then 1 else 0) _ hU (fun i hi => by
      obtain rfl : i = 0 := by simpa [S] using hi
      simpa [S] using hr0) (n + 1) (by omega)
  refine ⟨out, e1, e2, ?_⟩
  by_contra h
  exact e3 (Or.inl ⟨by norm_num, not_le.1 h⟩)

end

end TMD
