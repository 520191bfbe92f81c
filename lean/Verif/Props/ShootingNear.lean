import Verif.Props.EquilibriumStability
import Verif.Lemmas.FlowOpen
import Verif.Spec.Contracting

/-!
# Property C149: shooting near a complete call, and what its stability number means

If the motion lasts for the whole period it does so for all nearby inputs. The number returned by `time_stability`
(postprocess/shooting.py:72-93) is below one exactly if the periodic motion attracts all nearby motions exponentially.
-/

namespace TMD

open Spec Finset

noncomputable section

variable {ivp : SolveIvp} {S : VibSys} {Minv : ℕ → ℕ → ℝ} {Uw Fl : ℕ → ℝ} {Nt : ℕ} {r : ShootRes}
  {A : (ℕ → ℝ) → (ℕ → ℝ) × (ℕ → ℕ → ℝ)} {f : NLForce} {eigAbs : ℕ → (ℕ → ℕ → ℝ) → ℕ → ℝ} {y yd : ℕ → ℕ → ℝ} {st : Prop} {m : ℝ}

/-- The integrator does not raise if the right side does not. -/
def TotalIvp (ivp : SolveIvp) : Prop := ∀ F T n y0 Nt, (∀ t y, ∃ d, F t y = .ok d) → ∃ o, ivp F T n y0 Nt = .ok o

theorem exactIvp_total : TotalIvp exactIvp := fun F T n y0 Nt _ => by
  unfold exactIvp
  split
  · exact ⟨_, rfl⟩
  · exact ⟨_, rfl⟩

/-- C149: calls near a call that reaches the end of the period reach it, too. -/
theorem C149_near (hivp : ExactIvp ivp) (htot : TotalIvp ivp) (hS : S.forces = [f]) (hft : f.ftype = 0)
    (hA : ∀ U, f.force U = .ok (A U)) (hL : SmoothLaw S.nd (fun U => (A U).1) (fun U => (A U).2)) (hw : 0 < Uw (2 * S.nd)) (hNt : 0 < Nt)
    (h : shootingRes ivp S Minv Uw (2 * S.nd + 1) Fl Nt = .ok r) (hc : r.cols = Nt + 1) :
    ∃ δ > 0, ∃ res : (ℕ → ℝ) → ShootRes, res Uw = r ∧ ∀ X, (∀ i < 2 * S.nd + 1, |X i - Uw i| < δ) → 0 < X (2 * S.nd) ∧
      shootingRes ivp S Minv X (2 * S.nd + 1) Fl Nt = .ok (res X) ∧ (res X).cols = Nt + 1 := by
  obtain ⟨Y, hY, -⟩ := shoot_curve hivp hS hA hw hNt h hc
  obtain ⟨hz0, hz⟩ := curve_parts hS hA hY
  have hBc : Continuous (shB S Minv Fl) := continuous_iff_continuousAt.2 fun θ => (shB_hasDerivAt θ).continuousAt
  obtain ⟨δ, hδ, hn⟩ := flow_open (shA_hasFDerivAt (Minv := Minv) hS hA hL) (shA'_continuous hL) hBc hw (by have := Real.pi_pos; positivity : (0:ℝ) ≤ 2 * Real.pi) hz
  have key : ∀ X : ℕ → ℝ, (∀ i < 2 * S.nd + 1, |X i - Uw i| < δ) → 0 < X (2 * S.nd) ∧
      ∃ r', shootingRes ivp S Minv X (2 * S.nd + 1) Fl Nt = .ok r' ∧ r'.cols = Nt + 1 := fun X hX => by
    obtain ⟨hw', q, q0, hq⟩ := hn (restr (2 * S.nd) X) (X (2 * S.nd)) (by
      rw [hz0, pi_norm_le_iff_of_nonneg hδ.le]
      intro i
      simpa [restr] using (hX i (by omega)).le) (hX _ (by omega)).le
    have hT0 : 0 < 2 * Real.pi / X (2 * S.nd) := by have := Real.pi_pos; positivity
    refine ⟨hw', ?_⟩
    obtain ⟨Y', hY'⟩ := augmented_sol (Uw := X) hS hA hL hT0.le (fun i => by rw [q0]; rfl) hq
    obtain ⟨o, ho⟩ := htot (shootField S Minv Fl (X (2 * S.nd))) (2 * Real.pi / X (2 * S.nd)) (shootLen S.nd) (shootInit S.nd X) Nt fun t y => by
      obtain ⟨d, hd, -⟩ := shootField_ok (Minv := Minv) (Fl := Fl) hS hA (X (2 * S.nd)) t y
      exact ⟨d, hd⟩
    have hle := (hivp.sound _ _ _ _ _ _ hT0 hNt ho).1
    have hco : o.cols = Nt + 1 := by
      by_contra hne
      refine hivp.maximal _ _ _ _ _ _ hT0 hNt ho (by omega) ⟨Y', hY'.shorten ?_⟩
      have hN : (0:ℝ) < Nt := by exact_mod_cast hNt
      rw [div_le_iff₀ hN, mul_comm]
      exact mul_le_mul_of_nonneg_left (by exact_mod_cast (by omega : o.cols ≤ Nt)) hT0.le
    obtain ⟨r', hr', hrc, -⟩ := shootingRes_of_ivp hS hft hA ho (by omega)
    exact ⟨r', hr', hrc.trans hco⟩
  classical
  refine ⟨δ, hδ, fun X => if hX : ∀ i < 2 * S.nd + 1, |X i - Uw i| < δ then (key X hX).2.choose else r, ?_, fun X hX => ?_⟩
  · have h0 : ∀ i < 2 * S.nd + 1, |Uw i - Uw i| < δ := fun i _ => by simpa using hδ
    beta_reduce
    rw [dif_pos h0]
    exact Except.ok.inj ((key Uw h0).2.choose_spec.1.symm.trans h)
  · beta_reduce
    rw [dif_pos hX]
    exact ⟨(key X hX).1, (key X hX).2.choose_spec⟩

/-- C149: so the returned matrices are derivatives of the residual at every input whose call reaches the end of the period. -/
theorem C149_jacobian (hivp : ExactIvp ivp) (htot : TotalIvp ivp) (hS : S.forces = [f]) (hft : f.ftype = 0)
    (hA : ∀ U, f.force U = .ok (A U)) (hL : SmoothLaw S.nd (fun U => (A U).1) (fun U => (A U).2)) (hw : 0 < Uw (2 * S.nd)) (hNt : 0 < Nt)
    (h : shootingRes ivp S Minv Uw (2 * S.nd + 1) Fl Nt = .ok r) (hc : r.cols = Nt + 1) :
    ∃ δ > 0, ∃ res : (ℕ → ℝ) → ShootRes, res Uw = r ∧ (∀ X, (∀ i < 2 * S.nd + 1, |X i - Uw i| < δ) →
      shootingRes ivp S Minv X (2 * S.nd + 1) Fl Nt = .ok (res X) ∧ (res X).cols = Nt + 1) ∧
      HasJac (2 * S.nd) (2 * S.nd + 1) (fun X => (res X).R) (fun i j => if j < 2 * S.nd then r.dRdU i j else r.dRdw i) Uw := by
  obtain ⟨δ, hδ, res, h0, hn⟩ := C149_near hivp htot hS hft hA hL hw hNt h hc
  refine ⟨δ, hδ, res, h0, fun X hX => (hn X hX).2, ?_⟩
  have := C75_jacobian hivp hS hA hL hw hNt res δ hδ fun X hX => (hn X hX).2
  rwa [h0] at this

theorem ode_glue_end {E : Type*} [NormedAddCommGroup E] [NormedSpace ℝ E] {f : ℝ → E → E} {a c d : ℝ} (hac : a ≤ c) (hcd : c ≤ d) {y1 y2 : ℝ → E}
    (h1 : ∀ t ∈ Set.Icc a c, HasDerivWithinAt y1 (f t (y1 t)) (Set.Icc a c) t)
    (h2 : ∀ t ∈ Set.Icc c d, HasDerivWithinAt y2 (f t (y2 t)) (Set.Icc c d) t) (he : y1 c = y2 c) :
    ∃ y, y a = y1 a ∧ y d = y2 d ∧ ∀ t ∈ Set.Icc a d, HasDerivWithinAt y (f t (y t)) (Set.Icc a d) t := by
  set y : ℝ → E := fun t => if t ≤ c then y1 t else y2 t with hy
  have e1 : ∀ t ∈ Set.Icc a c, y t = y1 t := fun t ht => if_pos ht.2
  have e2 : ∀ t ∈ Set.Icc c d, y t = y2 t := fun t ht => by
    rcases eq_or_lt_of_le ht.1 with h | h
    · subst h
      rw [hy]
      simp [he]
    · exact if_neg (not_le.2 h)
  refine ⟨y, e1 a ⟨le_rfl, hac⟩, e2 d ⟨hcd, le_rfl⟩, fun t ht => ?_⟩
  rw [← Set.Icc_union_Icc_eq_Icc hac hcd]
  refine HasDerivWithinAt.union ?_ ?_
  · by_cases hc : t ∈ Set.Icc a c
    · rw [e1 t hc]
      exact (h1 t hc).congr e1 (e1 t hc)
    · exact HasFDerivWithinAt.of_notMem_closure (by rwa [isClosed_Icc.closure_eq])
  · by_cases hc : t ∈ Set.Icc c d
    · rw [e2 t hc]
      exact (h2 t hc).congr e2 (e2 t hc)
    · exact HasFDerivWithinAt.of_notMem_closure (by rwa [isClosed_Icc.closure_eq])

/-- Motions over several periods from iterates of the period map. -/
theorem period_iter (hivp : ExactIvp ivp) (hS : S.forces = [f]) (hA : ∀ U, f.force U = .ok (A U)) (hw : 0 < Uw (2 * S.nd)) (hNt : 0 < Nt)
    {res : (ℕ → ℝ) → ShootRes} {δ : ℝ} (hδ : 0 < δ)
    (h : ∀ X, (∀ i < 2 * S.nd + 1, |X i - Uw i| < δ) → shootingRes ivp S Minv X (2 * S.nd + 1) Fl Nt = .ok (res X) ∧ (res X).cols = Nt + 1)
    {P : (Fin (2 * S.nd) → ℝ) → Fin (2 * S.nd) → ℝ} (hP : P = fun z => restr (2 * S.nd) (res (withState (2 * S.nd) Uw z)).R + z)
    {x : Fin (2 * S.nd) → ℝ} {T : ℝ} (hT : T = 2 * Real.pi / Uw (2 * S.nd)) (k : ℕ) (hx : ∀ j < k, ‖P^[j] x - restr (2 * S.nd) Uw‖ < δ) :
    ∃ q : ℝ → Fin (2 * S.nd) → ℝ, q 0 = x ∧ q (k * T) = P^[k] x ∧
      ∀ t ∈ Set.Icc 0 (k * T), HasDerivWithinAt q (shA S Minv A (q t) + shB S Minv Fl (Uw (2 * S.nd) * t)) (Set.Icc 0 (k * T)) t := by
  have hT0 : 0 < T := by rw [hT]; have := Real.pi_pos; positivity
  have hwT : Uw (2 * S.nd) * T = 2 * Real.pi := by rw [hT]; field_simp
  induction k with
  | zero =>
    refine ⟨fun _ => x, rfl, rfl, fun t ht => ?_⟩
    simp only [Nat.cast_zero, zero_mul, Set.Icc_self, Set.mem_singleton_iff] at ht ⊢
    subst ht
    exact HasFDerivWithinAt.of_subsingleton Set.subsingleton_singleton
  | succ k ih =>
    obtain ⟨q, q0, qk, hq⟩ := ih fun j hj => hx j (by omega)
    set z := P^[k] x with hz
    have hclose : ∀ i < 2 * S.nd + 1, |withState (2 * S.nd) Uw z i - Uw i| < δ := fun i hi => by
      by_cases c : i < 2 * S.nd
      · have := (norm_le_pi_norm (z - restr (2 * S.nd) Uw) ⟨i, c⟩).trans_lt (hx k (by omega))
        simpa [withState, c, restr] using this
      · simpa [withState, c] using hδ
    obtain ⟨g1, g2⟩ := h _ hclose
    have hww : withState (2 * S.nd) Uw z (2 * S.nd) = Uw (2 * S.nd) := by simp [withState]
    have hw' : 0 < withState (2 * S.nd) Uw z (2 * S.nd) := by rw [hww]; exact hw
    obtain ⟨Y, hY, hYR, -, -⟩ := shoot_curve hivp hS hA hw' hNt g1 g2
    obtain ⟨hz0, hzd⟩ := curve_parts hS hA hY
    rw [hww, ← hT] at hzd hYR
    rw [restr_withState] at hz0
    set p : ℝ → Fin (2 * S.nd) → ℝ := fun t => restr (2 * S.nd) (Y (t - k * T)) with hp
    have hpd : ∀ t ∈ Set.Icc (k * T) ((k + 1 : ℕ) * T), HasDerivWithinAt p (shA S Minv A (p t) + shB S Minv Fl (Uw (2 * S.nd) * t)) (Set.Icc (k * T) ((k + 1 : ℕ) * T)) t := fun t ht => by
      have hm : ∀ t ∈ Set.Icc (k * T) ((k + 1 : ℕ) * T), t - k * T ∈ Set.Icc 0 T := fun t ht => ⟨by linarith [ht.1], by
        have := ht.2
        push_cast at this
        linarith⟩
      have h1 := hzd (t - k * T) (hm t ht)
      have h2 : HasDerivWithinAt (fun t : ℝ => t - k * T) 1 (Set.Icc (k * T) ((k + 1 : ℕ) * T)) t := ((hasDerivAt_id t).sub_const _).hasDerivWithinAt
      have h3 := HasDerivWithinAt.scomp (h := fun t : ℝ => t - k * T) t h1 h2 hm
      rw [one_smul] at h3
      refine h3.congr_deriv ?_
      congr 1
      have : Uw (2 * S.nd) * (t - k * T) = Uw (2 * S.nd) * t - ((k : ℤ) : ℝ) * (2 * Real.pi) := by
        rw [← hwT]; push_cast; ring
      rw [this, shB_int]
    have hpk : p (k * T) = z := by simp [hp, hz0]
    obtain ⟨g, ga, gb, hg⟩ := ode_glue_end (f := fun t x => shA S Minv A x + shB S Minv Fl (Uw (2 * S.nd) * t)) (by positivity) (by push_cast; nlinarith) hq hpd (qk.trans hpk.symm)
    refine ⟨g, ga.trans q0, gb.trans ?_, hg⟩
    rw [Function.iterate_succ_apply', ← hz, hP]
    funext i
    have e1 : ((k + 1 : ℕ) : ℝ) * T - k * T = T := by push_cast; ring
    simp only [hp, e1, restr, Pi.add_apply, hYR i i.2]
    simp [withState]

theorem restr_extend (n : ℕ) (x : Fin n → ℝ) : restr n (Spec.ext x) = x := by
  funext i
  simp [restr, Spec.ext]

theorem restr_halves (N : ℕ) (x : Fin (2 * N) → ℝ) : restr (2 * N) (hcat N (Spec.ext x) fun i => Spec.ext x (N + i)) = x := by
  funext i
  by_cases c : (i : ℕ) < N
  · simp [restr, hcat, c, Spec.ext]
  · simp only [restr, hcat, c, if_false]
    rw [show N + ((i : ℕ) - N) = i by omega]
    simp [Spec.ext]

/-- Two solutions of the equation of motion over some periods that start in the same state agree. -/
theorem motion_unique (hM : IsInv S.nd S.M Minv) (hS : S.forces = [f])
    (hA : ∀ U, f.force U = .ok (A U)) (hL : SmoothLaw S.nd (fun U => (A U).1) (fun U => (A U).2)) {w T : ℝ} (hT : 0 ≤ T) {q : ℝ → Fin (2 * S.nd) → ℝ}
    (hq : ∀ t ∈ Set.Icc 0 T, HasDerivWithinAt q (shA S Minv A (q t) + shB S Minv Fl (w * t)) (Set.Icc 0 T) t) {u v : ℝ → ℕ → ℝ}
    (hm : Motion S.nd S.M S.C S.K (fun U => (A U).1) Fl w (Set.Icc 0 T) u v) (h0 : restr (2 * S.nd) (hcat S.nd (u 0) (v 0)) = q 0) :
    restr (2 * S.nd) (hcat S.nd (u T) (v T)) = q T := by
  rcases eq_or_lt_of_le hT with h | h
  · rw [← h]; exact h0
  · exact shoot_unique (shA_hasFDerivAt (Minv := Minv) hS hA hL) (shA'_continuous hL) (fun t => shB S Minv Fl (w * t)) h hq (motion_ode hM hL hm rfl) h0 T ⟨hT, le_rfl⟩

/-- C149: on a solution of the shooting equations the returned number is below one exactly if the periodic motion
attracts exponentially all motions that start nearby. -/
theorem C149_contracting (hivp : ExactIvp ivp) (htot : TotalIvp ivp) (he : EigAbs eigAbs) (hM : IsInv S.nd S.M Minv) (hS : S.forces = [f]) (hft : f.ftype = 0)
    (hA : ∀ U, f.force U = .ok (A U)) (hL : SmoothLaw S.nd (fun U => (A U).1) (fun U => (A U).2)) (hw : 0 < Uw (2 * S.nd)) (hNt : 0 < Nt)
    (h : shootingRes ivp S Minv Uw (2 * S.nd + 1) Fl Nt = .ok r) (hc : r.cols = Nt + 1) (hR : ∀ i < 2 * S.nd, r.R i = 0)
    (hts : timeStability ivp eigAbs S Minv Uw (2 * S.nd + 1) Fl Nt = .ok (y, yd, st, m)) :
    m < 1 ↔ Contracting S.nd S.M S.C S.K (fun U => (A U).1) Fl (Uw (2 * S.nd)) (fun i => Uw i) (fun i => Uw (S.nd + i)) := by
  obtain ⟨δ, hδ, res, hres, hn'⟩ := C149_near hivp htot hS hft hA hL hw hNt h hc
  have hn := fun X hX => (hn' X hX).2
  obtain ⟨r', hr', ⟨l0, hl0, hlm⟩, hmax, -⟩ := C88_max he hts
  obtain rfl : r' = r := Except.ok.inj (hr'.symm.trans h)
  have hder := period_deriv hivp hS hA hL hw hNt res δ hδ hn
  rw [hres] at hder
  have hT0 : 0 < 2 * Real.pi / Uw (2 * S.nd) := by have := Real.pi_pos; positivity
  set n := 2 * S.nd with hnd
  set w := Uw n with hwd
  set T := 2 * Real.pi / w with hT
  set P : (Fin n → ℝ) → (Fin n → ℝ) := fun z => restr n (res (withState n Uw z)).R + z with hP
  set x0 := restr n Uw with hx0
  have hfix : P x0 = x0 := by
    funext i
    simp only [hP, hx0, withState_self, hres, restr, Pi.add_apply, hR i i.2, zero_add]
  have toVec : ∀ (a b : ℕ → ℝ) (e : ℝ), 0 ≤ e → (‖restr n (hcat S.nd a b) - x0‖ ≤ e ↔ ∀ i < S.nd, |a i - Uw i| ≤ e ∧ |b i - Uw (S.nd + i)| ≤ e) := fun a b e he0 => by
    rw [pi_norm_le_iff_of_nonneg he0]
    constructor
    · intro hh i hi
      constructor
      · simpa [hx0, restr, hcat, hi] using hh ⟨i, by omega⟩
      · simpa [hx0, restr, hcat] using hh ⟨S.nd + i, by omega⟩
    · intro hh i
      by_cases c : (i : ℕ) < S.nd
      · simpa [hx0, restr, hcat, c] using (hh i c).1
      · have := (hh (i - S.nd) (by omega)).2
        rw [show S.nd + ((i : ℕ) - S.nd) = i by omega] at this
        simpa [hx0, restr, hcat, c] using this
  constructor
  · intro hm
    obtain ⟨N, hN, hpow⟩ := pow_small (Matrix.of fun i j : Fin n => r'.monodromy i j) (fun l hl => (hmax l (eigen_matrix hl)).trans_lt hm)
    obtain ⟨B, ρ, δ', hδ', hB, hρ0, hρ1, hatt⟩ := attract hfix hder hN (by
      refine (ContinuousLinearMap.opNorm_le_bound _ (by norm_num : (0:ℝ) ≤ 1 / 4) fun v => ?_).trans_lt (by norm_num)
      rw [clm_pow]
      exact hpow v)
    refine ⟨B, ρ, min δ' (δ / (B + 1)), lt_min hδ' (by positivity), hρ0, hρ1, fun U' V' e he0 heδ hstart k => ?_⟩
    set x := restr n (hcat S.nd U' V') with hx
    have hdist : ‖x - x0‖ ≤ e := (toVec _ _ _ he0).2 hstart
    have hbound : ∀ k, ‖P^[k] x - x0‖ ≤ B * ρ ^ k * e := fun k => (hatt _ (hdist.trans_lt (heδ.trans_le (min_le_left _ _))) k).trans (by gcongr)
    have hbound' : ∀ k, ‖P^[k] x - x0‖ < δ := fun k => by
      refine (hbound k).trans_lt ?_
      have h1 : B * ρ ^ k * e ≤ B * e := by
        have : ρ ^ k ≤ 1 := pow_le_one₀ hρ0 hρ1.le
        nlinarith [mul_nonneg hB.le he0]
      have h2 : e < δ / (B + 1) := heδ.trans_le (min_le_right _ _)
      rw [lt_div_iff₀ (by positivity)] at h2
      nlinarith
    obtain ⟨q, q0, qk, hq⟩ := period_iter hivp hS hA hw hNt hδ hn hP hT k fun j _ => hbound' j
    refine ⟨fun t => Spec.ext (q t), fun t i => Spec.ext (q t) (S.nd + i), ode_motion hM hL (y := fun t => Spec.ext (q t)) fun t ht => by simpa only [restr_extend] using hq t ht, fun i hi => ?_, ?_⟩
    · have hi1 : i < n := by omega
      have hi2 : S.nd + i < n := by omega
      rw [hnd] at hi1 hi2
      simp [q0, Spec.ext, hi1, hi2, hx, restr, hcat, hi]
    · refine (toVec _ _ _ (by positivity)).1 ?_
      beta_reduce
      rw [restr_halves S.nd, qk]
      exact hbound k
  · rintro ⟨B, ρ, δ', hδ', hρ0, hρ1, hcon⟩
    set D : (Fin n → ℝ) →L[ℝ] (Fin n → ℝ) := ContinuousLinearMap.pi fun i : Fin n => row n (r'.monodromy i) with hD
    have hpow : ∀ k, ‖D ^ k‖ ≤ |B| * ρ ^ k := fun k => by
      refine (hder.iterate hfix k).le_of_lip' (by positivity) ?_
      have hcont : ∀ j, ∀ᶠ x in nhds x0, ‖P^[j] x - x0‖ < δ := fun j => by
        have h1 := (hder.iterate hfix j).continuousAt
        have h2 : Filter.Tendsto P^[j] (nhds x0) (nhds x0) := by
          have h3 : P^[j] x0 = x0 := Function.iterate_fixed hfix j
          have := h1.tendsto
          rwa [h3] at this
        have := h2.eventually (Metric.ball_mem_nhds x0 hδ)
        filter_upwards [this] with x hx
        rwa [dist_eq_norm] at hx
      have hall : ∀ᶠ x in nhds x0, ∀ j ∈ range k, ‖P^[j] x - x0‖ < δ := (Filter.eventually_all_finset _).2 fun j _ => hcont j
      filter_upwards [hall, Metric.ball_mem_nhds x0 hδ'] with x hx hxb
      rw [Metric.mem_ball, dist_eq_norm] at hxb
      obtain ⟨q, q0, qk, hq⟩ := period_iter hivp hS hA hw hNt hδ hn hP hT k fun j hj => hx j (mem_range.2 hj)
      have hxc : restr n (hcat S.nd (Spec.ext x) fun i => Spec.ext x (S.nd + i)) = x := restr_halves S.nd x
      obtain ⟨u, v, hm, hs, hb⟩ := hcon (Spec.ext x) (fun i => Spec.ext x (S.nd + i)) ‖x - x0‖ (norm_nonneg _) hxb ((toVec _ _ _ (norm_nonneg _)).1 (by rw [hxc])) k
      have hend := motion_unique hM hS hA hL (by positivity) hq hm (by
        rw [q0]
        conv_rhs => rw [← hxc]
        funext i
        by_cases c : (i : ℕ) < S.nd
        · simp only [restr, hcat, c, if_true, (hs i c).1]
        · simp only [restr, hcat, c, if_false, (hs (i - S.nd) (by omega)).2])
      rw [Function.iterate_fixed hfix k, ← qk, ← hend]
      refine (toVec _ _ _ (by positivity)).2 fun i hi => ?_
      have hle : B * ρ ^ k * ‖x - x0‖ ≤ |B| * ρ ^ k * ‖x - x0‖ := by
        gcongr
        exact le_abs_self B
      exact ⟨(hb i hi).1.trans hle, (hb i hi).2.trans hle⟩
    rw [← hlm]
    by_contra hge
    push Not at hge
    obtain ⟨z, ⟨i0, hi0, hne⟩, hz⟩ := hl0
    set z1 : Fin n → ℝ := fun i => (z i).re with hz1
    set z2 : Fin n → ℝ := fun i => (z i).im with hz2
    have hiter : ∀ k, ∀ i : Fin n, (((D ^ k) z1 i : ℝ) : ℂ) + ((D ^ k) z2 i : ℝ) * Complex.I = l0 ^ k * z i := fun k => by
      induction k with
      | zero => intro i; simp [hz1, hz2]
      | succ k ih =>
        intro i
        have hs : ∀ v : Fin n → ℝ, (D ^ (k + 1)) v i = ∑ j : Fin n, r'.monodromy i j * (D ^ k) v j := fun v => by
          rw [pow_succ', show (D * D ^ k) v = D ((D ^ k) v) from rfl]
          simp only [hD, ContinuousLinearMap.pi_apply, row_apply]
        rw [hs, hs, pow_succ, mul_assoc, ← hz i i.2, sum_range, mul_sum]
        simp only [Complex.ofReal_sum, Complex.ofReal_mul]
        rw [sum_mul, ← sum_add_distrib]
        refine sum_congr rfl fun j _ => ?_
        rw [show l0 ^ k * ((r'.monodromy i j : ℂ) * z j) = (r'.monodromy i j : ℂ) * (l0 ^ k * z j) by ring, ← ih j]
        ring
    have hb : ∀ k, ‖z i0‖ ≤ |B| * ρ ^ k * (‖z1‖ + ‖z2‖) := fun k => by
      have h1 := congrArg norm (hiter k ⟨i0, hi0⟩)
      rw [norm_mul, norm_pow] at h1
      have h2 : ‖z i0‖ ≤ ‖l0‖ ^ k * ‖z i0‖ := le_mul_of_one_le_left (norm_nonneg _) (one_le_pow₀ hge)
      have h3 : ∀ v : Fin n → ℝ, ‖(D ^ k) v ⟨i0, hi0⟩‖ ≤ |B| * ρ ^ k * ‖v‖ := fun v =>
        (norm_le_pi_norm _ _).trans (((D ^ k).le_opNorm v).trans (mul_le_mul_of_nonneg_right (hpow k) (norm_nonneg _)))
      refine h2.trans (h1.symm.le.trans ((norm_add_le _ _).trans ?_))
      rw [norm_mul, Complex.norm_I, mul_one, Complex.norm_real, Complex.norm_real, mul_add]
      exact add_le_add (h3 _) (h3 _)
    have hlim : Filter.Tendsto (fun k : ℕ => |B| * ρ ^ k * (‖z1‖ + ‖z2‖)) Filter.atTop (nhds 0) := by
      have := ((tendsto_pow_atTop_nhds_zero_of_lt_one hρ0 hρ1).const_mul |B|).mul_const (‖z1‖ + ‖z2‖)
      simpa using this
    have := ge_of_tendsto' hlim hb
    exact hne (norm_le_zero_iff.1 this)

/-- C149: an unloaded equilibrium with positive definite mass and damping attracts exponentially exactly if its tangent
stiffness is positive definite, which is when the returned number is below one. -/
theorem C149_equilibrium (hivp : ExactIvp ivp) (htot : TotalIvp ivp) (he : EigAbs eigAbs) (hM : IsInv S.nd S.M Minv) (hS : S.forces = [f]) (hft : f.ftype = 0)
    (hA : ∀ U, f.force U = .ok (A U)) (hL : SmoothLaw S.nd (fun U => (A U).1) (fun U => (A U).2)) (hw : 0 < Uw (2 * S.nd)) (hNt : 0 < Nt)
    (hD : DampedSys S) (hF : ∀ i < 2 * S.nd, Fl i = 0) (hV : ∀ i < S.nd, Uw (S.nd + i) = 0)
    (hE : ∀ i < S.nd, ∑ j ∈ range S.nd, S.K i j * Uw j + (A Uw).1 i = 0) (hsym : SymmOn S.nd (addStiff S (A Uw).2))
    (hts : timeStability ivp eigAbs S Minv Uw (2 * S.nd + 1) Fl Nt = .ok (y, yd, st, m)) :
    (m < 1 ↔ PosOn S.nd (addStiff S (A Uw).2)) ∧
      (m < 1 ↔ Contracting S.nd S.M S.C S.K (fun U => (A U).1) Fl (Uw (2 * S.nd)) (fun i => Uw i) (fun i => Uw (S.nd + i))) := by
  refine ⟨(C148_equilibrium hivp he hM hS hA hL hw hNt hD hF hV hE hsym hts).1, ?_⟩
  obtain ⟨r, hr, -⟩ := C88_max he hts
  obtain ⟨u, v, hm, hs, -⟩ := keeps_rest (A := A) hF hV hE
  have hc := (C75_complete hivp hM hS hA hL hw hNt hr).2 ⟨u, v, hm, hs⟩
  refine C149_contracting hivp htot he hM hS hft hA hL hw hNt hr hc ?_ hts
  refine (C75_periodic_partial hivp hM hS hA hL hw hNt hr hc).2 ⟨fun _ => Uw, fun _ _ => 0, fun t i _ => hasDerivAt_const _ _, fun t => ⟨fun _ => 0, fun i _ => hasDerivAt_const _ _, fun i hi => ?_⟩,
    fun _ _ _ => ⟨rfl, rfl⟩, fun i hi => ⟨rfl, (hV i hi).symm⟩⟩
  simpa [hF i (by omega), hF (S.nd + i) (by omega)] using hE i hi

/-- A damped oscillator with the spring force `-x + x³`, left alone: the calls at the buckled state `1` and nearby reach
the end of the period, and this state attracts nearby motions exponentially; the straight state does not. -/
example (he : EigAbs eigAbs) :
    let S : VibSys := ⟨1, fun _ _ => 1, fun _ _ => -1, fun _ _ => 1, none, [cubicNL 1 1 (fun _ _ => 1) (fun _ _ => 1) fun _ => 1]⟩
    let F : (ℕ → ℝ) → ℕ → ℝ := fun U => (cubicForce 1 1 (fun _ _ => 1) (fun _ _ => 1) (fun _ => 1) U).1
    Contracting 1 S.M S.C S.K F (fun _ => 0) 1 (fun _ => 1) (fun _ => 0) ∧ ¬ Contracting 1 S.M S.C S.K F (fun _ => 0) 1 (fun _ => 0) (fun _ => 0) := by
  intro S F
  have hM : IsInv S.nd S.M fun _ _ => 1 := fun i hi j hj => by
    obtain rfl : i = 0 := by simpa [S] using hi
    obtain rfl : j = 0 := by simpa [S] using hj
    simp [S]
  have hA : ∀ U, (cubicNL 1 1 (fun _ _ => 1) (fun _ _ => 1) fun _ => 1).force U = .ok (cubicForce 1 1 (fun _ _ => 1) (fun _ _ => 1) (fun _ => 1) U) := fun _ => rfl
  have hL := smoothLaw_cubic 1 1 (fun _ _ => 1) (fun _ _ => 1) fun _ => 1
  have q1 : PosOn 1 fun _ _ => 1 := fun x hx => by
    obtain ⟨i, hi, hne⟩ := hx
    obtain rfl : i = 0 := by omega
    simpa [quadForm] using hne
  have hD : DampedSys S := ⟨fun _ _ _ _ => rfl, q1, fun _ _ _ _ => rfl, q1⟩
  have sy : ∀ B : ℕ → ℕ → ℝ, SymmOn 1 B := fun B i hi j hj => by
    obtain rfl : i = 0 := by omega
    obtain rfl : j = 0 := by omega
    rfl
  have st0 : ∀ U : ℕ → ℝ, addStiff S (cubicForce 1 1 (fun _ _ => 1) (fun _ _ => 1) (fun _ => 1) U).2 0 0 = -1 + 3 * U 0 ^ 2 := fun U => by
    simp [addStiff, S, cubicForce, matMul, matVec, diag]
  have hF : ∀ i < 2 * S.nd, (fun _ : ℕ => (0:ℝ)) i = 0 := fun _ _ => rfl
  have main : ∀ a : ℝ, -a + a ^ 3 = 0 → (Contracting 1 S.M S.C S.K F (fun _ => 0) 1 (fun _ => a) (fun _ => 0) ↔ 0 < -1 + 3 * a ^ 2) := fun a ha => by
    set Uw : ℕ → ℝ := fun i => if i = 0 then a else if i = 1 then 0 else 1 with hUw
    have hV : ∀ i < S.nd, Uw (S.nd + i) = 0 := fun i hi => by
      obtain rfl : i = 0 := by simpa [S] using hi
      simp [S, hUw]
    have hE : ∀ i < S.nd, ∑ j ∈ range S.nd, S.K i j * Uw j + (cubicForce 1 1 (fun _ _ => 1) (fun _ _ => 1) (fun _ => 1) Uw).1 i = 0 := fun i hi => by
      obtain rfl : i = 0 := by simpa [S] using hi
      simpa [S, cubicForce, matVec, hUw] using ha
    have hw : (0:ℝ) < Uw (2 * S.nd) := by simp [S, hUw]
    obtain ⟨y, yd, st, m, h⟩ := C148_run (eigAbs := eigAbs) (Nt := 8) hM rfl rfl (by simp [S]) hA hL hw (by norm_num) (keeps_rest hF hV hE)
    obtain ⟨k1, k2⟩ := C149_equilibrium exactIvp_exact exactIvp_total he hM rfl rfl hA hL hw (by norm_num) hD hF hV hE (sy _) h
    have hpos : PosOn S.nd (addStiff S (cubicForce 1 1 (fun _ _ => 1) (fun _ _ => 1) (fun _ => 1) Uw).2) ↔ 0 < -1 + 3 * a ^ 2 := by
      have hq : ∀ x : ℕ → ℝ, quadForm S.nd (addStiff S (cubicForce 1 1 (fun _ _ => 1) (fun _ _ => 1) (fun _ => 1) Uw).2) x = (-1 + 3 * a ^ 2) * x 0 ^ 2 := fun x => by
        simp only [quadForm, show S.nd = 1 from rfl, sum_range_one, st0, hUw, if_true]
        ring
      constructor
      · intro hp
        have := hp (fun _ => 1) ⟨0, by simp [S], one_ne_zero⟩
        rw [hq] at this
        simpa using this
      · intro hp x hx
        obtain ⟨i, hi, hne⟩ := hx
        obtain rfl : i = 0 := by simpa [S] using hi
        rw [hq]
        exact mul_pos hp (sq_pos_of_ne_zero hne)
    rw [← hpos, ← k1, k2]
    have hw2 : Uw (2 * S.nd) = 1 := by simp [S, hUw]
    rw [hw2]
    unfold Contracting
    simp only [show S.nd = 1 from rfl, Nat.lt_one_iff, forall_eq]
    simp [hUw, F]
  exact ⟨(main 1 (by norm_num)).2 (by norm_num), fun hh => by
    have := (main 0 (by norm_num)).1 hh
    norm_num at this⟩

end

end TMD
