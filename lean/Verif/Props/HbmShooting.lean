import Verif.Props.ShootingComplete
import Verif.Props.Alias
import Verif.Props.HalfWave

/-!
# C129: harmonic balance and shooting describe the same motions

`hbm_res` (vibration_system.py:206-300) and `shooting_res` (1040-1151) are two formulations for the periodic motions of one
system. A point with vanishing harmonic balance residual whose nonlinear force has no harmonics outside the list is an exact
motion, its state at time zero has a vanishing shooting residual, and the time series of the shooting code are samples of its
Fourier series. Conversely a motion found by shooting that has only listed harmonics solves the harmonic balance equations.
-/

namespace TMD

open Spec Finset

noncomputable section

/-- Displacements with the harmonic coefficients `U` at frequency `w`. -/
def hbMotion (N : ℕ) (h : List ℕ) (U : ℕ → ℝ) (w t : ℝ) (e : ℕ) : ℝ := series h (fun r => U (r * N + e)) (w * t)

/-- Their time derivatives. -/
def hbVelocity (N : ℕ) (h : List ℕ) (U : ℕ → ℝ) (w t : ℝ) (e : ℕ) : ℝ := deriv (fun t => hbMotion N h U w t e) t

/-- The alternating frequency-time method of `f` samples the law `φ` of the displacements at `Nt` instants of the period. -/
def SamplesLaw (f : NLForce) (N : ℕ) (h : List ℕ) (Nt : ℕ) (tol : ℝ) (φ : (ℕ → ℝ) → ℕ → ℝ) : Prop :=
  ∀ U w, ∃ o, f.aft U w h Nt tol = .ok o ∧ ∀ i < N, ∀ k ∈ h, coefOf h (fun r => o.F (r * N + i)) k
    = dft Nt (fun j => φ (fun e => series h (fun r => U (r * N + e)) (2 * Real.pi * j / Nt)) i) k

/-- The law has only the harmonics `h` along the motion with coefficients `U`. -/
def Closed (N : ℕ) (h : List ℕ) (φ : (ℕ → ℝ) → ℕ → ℝ) (U : ℕ → ℝ) : Prop :=
  ∃ c : ℕ → ℕ → ℝ, ∀ d < N, ∀ τ, φ (fun e => series h (fun r => U (r * N + e)) τ) d = series h (c d) τ

/-- The forcing of the harmonic balance is that of the shooting: cosine and sine of the first harmonic. -/
def SameForcing (N : ℕ) (h : List ℕ) (Flh Fl : ℕ → ℝ) : Prop :=
  ∀ d < N, ∀ τ, series h (fun r => Flh (r * N + d)) τ = Fl d * Real.cos τ + Fl (N + d) * Real.sin τ

variable {S : VibSys} {h : List ℕ} {Nt : ℕ} {tol : ℝ} {f : NLForce} {φ : (ℕ → ℝ) → ℕ → ℝ}

theorem trig_hbMotion (N : ℕ) (h : List ℕ) (U : ℕ → ℝ) (w : ℝ) (e : ℕ) :
    (∀ t, HasDerivAt (fun t => hbMotion N h U w t e) (hbVelocity N h U w t e) t) ∧
    (∀ t, HasDerivAt (fun t => hbVelocity N h U w t e) (deriv (fun t => hbVelocity N h U w t e) t) t) ∧
    (w ≠ 0 → ∀ t, hbMotion N h U w (t + 2 * Real.pi / w) e = hbMotion N h U w t e ∧
      hbVelocity N h U w (t + 2 * Real.pi / w) e = hbVelocity N h U w t e) := by
  have ht : Trig h.sum (series h (fun r => U (r * N + e))) := Trig.series (fun m hm => List.single_le_sum (by simp) m hm) _
  obtain ⟨g, hg, hd⟩ := ht.hasDerivAt
  obtain ⟨g2, -, hd2⟩ := hg.hasDerivAt
  have hlin : ∀ t, HasDerivAt (fun t : ℝ => w * t) w t := fun t => by
    simpa using (hasDerivAt_id t).const_mul w
  have h1 : ∀ t, HasDerivAt (fun t => hbMotion N h U w t e) (g (w * t) * w) t := fun t => (hd (w * t)).comp t (hlin t)
  have hv : (fun t => hbVelocity N h U w t e) = fun t => g (w * t) * w := funext fun t => (h1 t).deriv
  have h2 : ∀ t, HasDerivAt (fun t => hbVelocity N h U w t e) (g2 (w * t) * w * w) t := by
    rw [hv]
    exact fun t => ((hd2 (w * t)).comp t (hlin t)).mul_const w
  refine ⟨fun t => ?_, fun t => ?_, fun hw t => ?_⟩
  · exact (h1 t).differentiableAt.hasDerivAt
  · exact (h2 t).differentiableAt.hasDerivAt
  · have e1 : w * (t + 2 * Real.pi / w) = w * t + 2 * Real.pi := by field_simp
    constructor
    · simp only [hbMotion, e1, series_periodic]
    · have := congrFun hv
      rw [this, this, e1, hg.periodic]

/-- The residual in terms of the law. -/
theorem hbm_rows (hh : Admissible h) (hNt : ∀ k ∈ h, 2*k + 1 < Nt) (hS : S.forces = [f]) (hf : SamplesLaw f S.nd h Nt tol φ)
    (Z Flh : ℕ → ℝ) (c : ℕ → ℕ → ℝ)
    (hc : ∀ d < S.nd, ∀ τ, φ (fun e => series h (fun r => sl 0 (numCoeff h * S.nd) Z (r * S.nd + e)) τ) d = series h (c d) τ) :
    ∃ R g, hbmRes S Z Flh h Nt tol true = .ok ⟨R, some g⟩ ∧ ∀ d < S.nd, ∀ t : ℝ,
      let w := Z (numCoeff h * S.nd)
      let U := sl 0 (numCoeff h * S.nd) Z
      series h (fun r => R (r * S.nd + d)) (w * t) =
        (∑ e ∈ range S.nd, (S.M d e * deriv (fun t => hbVelocity S.nd h U w t e) t + S.C d e * hbVelocity S.nd h U w t e
          + S.K d e * hbMotion S.nd h U w t e)) + φ (hbMotion S.nd h U w t) d - series h (fun r => Flh (r * S.nd + d)) (w * t) := by
  have hok : ∀ f' ∈ S.forces, ∀ U w, f'.aft U w h Nt tol = .ok (aftVal h Nt tol f' U w) := by
    intro f' hf' U w
    rw [hS, List.mem_singleton] at hf'
    subst hf'
    obtain ⟨o, h1, -⟩ := hf U w
    simp only [aftVal, h1]
  obtain ⟨R, g, h1, h2⟩ := C45_time_domain S h hh Nt tol _ hok Z Flh
  refine ⟨R, g, h1, ?_⟩
  intro d hd t w U
  have h3 := h2 d hd t
  simp only [hS, List.map_cons, List.map_nil, List.sum_cons, List.sum_nil, add_zero] at h3
  rw [h3]
  congr 1
  have hF : series h (fun r => (aftVal h Nt tol f U w).F (r * S.nd + d)) (w * t) = φ (hbMotion S.nd h U w t) d := by
    show _ = φ (fun e => series h (fun r => U (r * S.nd + e)) (w * t)) d
    rw [hc d hd]
    refine series_congr (rows_of_coefOf hh.nodup fun k hk => ?_) _
    obtain ⟨o, g1, g2⟩ := hf U w
    simp only [aftVal, g1]
    rw [g2 d hd k hk, ← dftCoef_eq_dft]
    simp only [U, hc d hd]
    exact dftCoef_series (fun m hm => by have := hNt m hm; omega) (by have := hNt k hk; omega) hh.nodup _
  rw [hF]
  rfl

theorem zero_rows {n : ℕ} (hh : Admissible h) (hn : 0 < n) (R : ℕ → ℝ) {w : ℝ} (hw : w ≠ 0) :
    (∀ i < numCoeff h * n, R i = 0) ↔ ∀ d < n, ∀ t, series h (fun r => R (r * n + d)) (w * t) = 0 := by
  constructor
  · intro h0 d hd t
    rw [series_congr (c' := fun _ => 0) (fun r hr => h0 _ (row_lt hr hd))]
    have := series_smul h (0:ℝ) (fun _ => 0) (w * t)
    simpa using this
  · intro h0 i hi
    have hd := Nat.mod_lt i hn
    have key : ∀ r < numCoeff h, (fun r => R (r * n + i % n)) r = (fun _ => 0) r := by
      refine rows_of_coefOf hh.nodup fun k hk => ?_
      have hN : ∀ m ∈ h, 2 * m < 2 * (h.sum + 1) := fun m hm => by
        have := List.single_le_sum (by simp) m hm
        omega
      rw [← dftCoef_series hN (hN k hk) hh.nodup, ← dftCoef_series hN (hN k hk) hh.nodup]
      congr 1
      funext j
      have := h0 (i % n) hd (angle (2 * (h.sum + 1)) j / w)
      rw [mul_div_cancel₀ _ hw] at this
      rw [this]
      have := series_smul h (0:ℝ) (fun _ => 0) (angle (2 * (h.sum + 1)) j)
      simpa using this.symm
    have := key (i / n) (Nat.div_lt_of_lt_mul (by rwa [mul_comm]))
    simp only at this
    rwa [mul_comm, Nat.div_add_mod] at this

/-- C129: the harmonic balance equations hold and the law has no other harmonics along the motion exactly if the Fourier series is
a periodic motion of the system. -/
theorem C129_motion (hh : Admissible h) (hNt : ∀ k ∈ h, 2*k + 1 < Nt) (hn : 0 < S.nd) (hS : S.forces = [f])
    (hf : SamplesLaw f S.nd h Nt tol φ) {Z Flh Fl : ℕ → ℝ} (hF : SameForcing S.nd h Flh Fl) (hw : Z (numCoeff h * S.nd) ≠ 0) :
    let w := Z (numCoeff h * S.nd)
    let U := sl 0 (numCoeff h * S.nd) Z
    ((∃ o, hbmRes S Z Flh h Nt tol true = .ok o ∧ ∀ i < numCoeff h * S.nd, o.R i = 0) ∧ Closed S.nd h φ U) ↔
      PeriodicMotion S.nd S.M S.C S.K φ Fl w (hbMotion S.nd h U w 0) (hbVelocity S.nd h U w 0) (hbMotion S.nd h U w)
        (hbVelocity S.nd h U w) := by
  intro w U
  have hper := fun e => trig_hbMotion S.nd h U w e
  constructor
  · rintro ⟨⟨o, ho, hR⟩, c, hc⟩
    obtain ⟨R, g, h1, h2⟩ := hbm_rows hh hNt hS hf Z Flh c hc
    rw [h1] at ho
    cases ho
    rw [zero_rows hh hn R hw] at hR
    refine ⟨fun t i _ => (hper i).1 t, fun t => ⟨fun i => deriv (fun t => hbVelocity S.nd h U w t i) t,
      fun i _ => (hper i).2.1 t, fun i hi => ?_⟩, fun t i _ => (hper i).2.2 hw t, fun i _ => ⟨rfl, rfl⟩⟩
    have h3 := h2 i hi t
    have h4 := hR i hi t
    simp only at h3
    rw [h4, hF i hi] at h3
    linarith
  · intro hp
    have hacc : ∀ t, ∀ i < S.nd, ∑ j ∈ range S.nd, (S.M i j * deriv (fun t => hbVelocity S.nd h U w t j) t
        + S.C i j * hbVelocity S.nd h U w t j + S.K i j * hbMotion S.nd h U w t j) + φ (hbMotion S.nd h U w t) i
        = Fl i * Real.cos (w * t) + Fl (S.nd + i) * Real.sin (w * t) := by
      intro t i hi
      obtain ⟨acc, ha, hm⟩ := hp.motion t
      rw [← hm i hi]
      congr 1
      exact sum_congr rfl fun j hj => by rw [(ha j (mem_range.1 hj)).deriv]
    obtain ⟨E, hE, -, hEs⟩ := C02_stiffness_is_dynamics h hh S.nd S.M S.C S.K w true false
    simp only [Bool.false_eq_true, if_false] at hEs
    have hcl : ∀ d < S.nd, ∀ τ, φ (fun e => series h (fun r => U (r * S.nd + e)) τ) d
        = series h (fun r => Flh (r * S.nd + d) - matVec E.size E.E U (r * S.nd + d)) τ := by
      intro d hd τ
      have h3 := hEs U d hd (τ / w)
      have h4 := hacc (τ / w) d hd
      have ew : w * (τ / w) = τ := mul_div_cancel₀ _ hw
      rw [series_sub, ← ew, hF d hd, h3]
      have : φ (hbMotion S.nd h U w (τ / w)) d = φ (fun e => series h (fun r => U (r * S.nd + e)) (w * (τ / w))) d := rfl
      rw [← this]
      simp only [hbVelocity, hbMotion] at h4 ⊢
      linarith
    refine ⟨?_, _, hcl⟩
    obtain ⟨R, g, h1, h2⟩ := hbm_rows hh hNt hS hf Z Flh _ hcl
    refine ⟨_, h1, ?_⟩
    show ∀ i < numCoeff h * S.nd, R i = 0
    rw [zero_rows hh hn R hw]
    intro d hd t
    rw [h2 d hd t, hF d hd, ← hacc t d hd]
    ring

variable {ivp : SolveIvp} {Minv : ℕ → ℕ → ℝ} {Uw : ℕ → ℝ} {Ns : ℕ} {r : ShootRes} {A : (ℕ → ℝ) → (ℕ → ℝ) × (ℕ → ℕ → ℝ)}
  {Z Flh Fl : ℕ → ℝ}

/-- The series returned with a complete integration are those of any motion from the same state. -/
theorem shoot_samples (hivp : ExactIvp ivp) (hM : IsInv S.nd S.M Minv) (hS : S.forces = [f])
    (hA : ∀ U, f.force U = .ok (A U)) (hL : SmoothLaw S.nd (fun U => (A U).1) (fun U => (A U).2))
    (hw : 0 < Uw (2 * S.nd)) (hNs : 0 < Ns) (h : shootingRes ivp S Minv Uw (2 * S.nd + 1) Fl Ns = .ok r) (hc : r.cols = Ns + 1)
    {u v : ℝ → ℕ → ℝ} (hm : Motion S.nd S.M S.C S.K (fun U => (A U).1) Fl (Uw (2 * S.nd))
      (Set.Icc 0 (2 * Real.pi / Uw (2 * S.nd))) u v) (h0 : ∀ i < S.nd, u 0 i = Uw i ∧ v 0 i = Uw (S.nd + i)) :
    ∀ k ≤ Ns, ∀ i < S.nd, r.yt i k = u (k * (2 * Real.pi / Uw (2 * S.nd)) / Ns) i ∧
      r.ydot i k = v (k * (2 * Real.pi / Uw (2 * S.nd)) / Ns) i := by
  have hT0 : 0 < 2 * Real.pi / Uw (2 * S.nd) := by have := Real.pi_pos; positivity
  have hN : (0:ℝ) < Ns := by exact_mod_cast hNs
  obtain ⟨-, o, Yd, h1, -, -, rfl⟩ := shootingRes_ok h
  rw [Nat.add_sub_cancel] at h1
  have hco : o.cols = Ns + 1 := hc
  obtain ⟨-, hs⟩ := hivp.sound _ _ _ _ _ _ hT0 hNs h1
  obtain ⟨Y, hY, hval⟩ := hs (by omega)
  rw [hco, Nat.add_sub_cancel, mul_div_assoc, mul_div_cancel₀ _ hN.ne'] at hY
  obtain ⟨hz0, hz⟩ := curve_parts hS hA hY
  have hq := motion_ode (Minv := Minv) hM hL hm rfl
  have huniq := shoot_unique (shA_hasFDerivAt (Minv := Minv) hS hA hL) (shA'_continuous hL)
    (fun t => shB S Minv Fl (Uw (2 * S.nd) * t)) hT0 hz hq (by
      rw [hz0]
      funext i
      by_cases c : (i : ℕ) < S.nd
      · simp [restr, hcat, c, (h0 i c).1]
      · have c2 : (i : ℕ) - S.nd < S.nd := by omega
        simp only [restr, hcat, c, if_false, (h0 _ c2).2]
        congr 1
        omega)
  intro k hk i hi
  have hmem : (k:ℝ) * (2 * Real.pi / Uw (2 * S.nd)) / Ns ∈ Set.Icc 0 (2 * Real.pi / Uw (2 * S.nd)) := by
    refine ⟨by positivity, ?_⟩
    rw [div_le_iff₀ hN, mul_comm]
    exact mul_le_mul_of_nonneg_left (by exact_mod_cast hk) hT0.le
  have hu := huniq _ hmem
  have a1 := congrFun hu ⟨i, by omega⟩
  have a2 := congrFun hu ⟨S.nd + i, by omega⟩
  simp only [restr, hcat, hi, if_true] at a1
  simp only [restr, hcat, show ¬ S.nd + i < S.nd by omega, if_false, Nat.add_sub_cancel_left] at a2
  constructor
  · show o.y i k = _
    rw [hval k (by omega) i (by unfold shootLen; omega), a1]
  · show o.y (S.nd + i) k = _
    rw [hval k (by omega) (S.nd + i) (by unfold shootLen; omega), a2]

/-- C129: the state at time zero of such a harmonic balance solution has a vanishing shooting residual, the integration is complete
and the returned series are samples of the Fourier series. -/
theorem C129_shooting (hh : Admissible h) (hNt : ∀ k ∈ h, 2*k + 1 < Nt) (hn : 0 < S.nd) (hS : S.forces = [f])
    (hA : ∀ U, f.force U = .ok (A U)) (hL : SmoothLaw S.nd (fun U => (A U).1) (fun U => (A U).2))
    (hf : SamplesLaw f S.nd h Nt tol fun U => (A U).1) (hF : SameForcing S.nd h Flh Fl) (hw : 0 < Z (numCoeff h * S.nd))
    (hz : ∃ o, hbmRes S Z Flh h Nt tol true = .ok o ∧ ∀ i < numCoeff h * S.nd, o.R i = 0)
    (hc : Closed S.nd h (fun U => (A U).1) (sl 0 (numCoeff h * S.nd) Z))
    (hivp : ExactIvp ivp) (hM : IsInv S.nd S.M Minv) (hNs : 0 < Ns)
    (hU : ∀ i < S.nd, Uw i = hbMotion S.nd h (sl 0 (numCoeff h * S.nd) Z) (Z (numCoeff h * S.nd)) 0 i)
    (hV : ∀ i < S.nd, Uw (S.nd + i) = hbVelocity S.nd h (sl 0 (numCoeff h * S.nd) Z) (Z (numCoeff h * S.nd)) 0 i)
    (hW : Uw (2 * S.nd) = Z (numCoeff h * S.nd)) (hr : shootingRes ivp S Minv Uw (2 * S.nd + 1) Fl Ns = .ok r) :
    r.cols = Ns + 1 ∧ (∀ i < 2 * S.nd, r.R i = 0) ∧ ∀ k ≤ Ns, ∀ i < S.nd,
      r.yt i k = series h (fun q => Z (q * S.nd + i)) (2 * Real.pi * k / Ns) ∧
      r.ydot i k = hbVelocity S.nd h (sl 0 (numCoeff h * S.nd) Z) (Z (numCoeff h * S.nd)) (2 * Real.pi * k / (Z (numCoeff h * S.nd) * Ns)) i := by
  have hp := (C129_motion (Z := Z) hh hNt hn hS hf hF hw.ne').1 ⟨hz, hc⟩
  have hw' : 0 < Uw (2 * S.nd) := by rw [hW]; exact hw
  have hp' : PeriodicMotion S.nd S.M S.C S.K (fun U => (A U).1) Fl (Uw (2 * S.nd)) (fun i => Uw i) (fun i => Uw (S.nd + i))
      (hbMotion S.nd h (sl 0 (numCoeff h * S.nd) Z) (Z (numCoeff h * S.nd)))
      (hbVelocity S.nd h (sl 0 (numCoeff h * S.nd) Z) (Z (numCoeff h * S.nd))) := by
    rw [hW]
    exact ⟨hp.velocity, hp.motion, hp.period, fun i hi => ⟨(hU i hi).symm, (hV i hi).symm⟩⟩
  have hm : Motion S.nd S.M S.C S.K (fun U => (A U).1) Fl (Uw (2 * S.nd)) (Set.Icc 0 (2 * Real.pi / Uw (2 * S.nd)))
      (hbMotion S.nd h (sl 0 (numCoeff h * S.nd) Z) (Z (numCoeff h * S.nd)))
      (hbVelocity S.nd h (sl 0 (numCoeff h * S.nd) Z) (Z (numCoeff h * S.nd))) :=
    ⟨fun t _ i hi => (hp'.velocity t i hi).hasDerivWithinAt, fun t _ => by
      obtain ⟨acc, h1, h2⟩ := hp'.motion t
      exact ⟨acc, fun i hi => (h1 i hi).hasDerivWithinAt, h2⟩⟩
  have hcols := (C75_complete hivp hM hS hA hL hw' hNs hr).2 ⟨_, _, hm, hp'.start⟩
  refine ⟨hcols, (C75_periodic_partial hivp hM hS hA hL hw' hNs hr hcols).2 ⟨_, _, hp'⟩, ?_⟩
  intro k hk i hi
  obtain ⟨a1, a2⟩ := shoot_samples hivp hM hS hA hL hw' hNs hr hcols hm hp'.start k hk i hi
  have hN : (0:ℝ) < Ns := by exact_mod_cast hNs
  rw [a1, a2, hW]
  constructor
  · unfold hbMotion
    rw [show Z (numCoeff h * S.nd) * (k * (2 * Real.pi / Z (numCoeff h * S.nd)) / Ns) = 2 * Real.pi * k / Ns by field_simp]
    refine series_congr (fun q hq => ?_) _
    simp only [sl, Nat.sub_zero, row_lt hq hi, if_true, zero_add]
  · congr 1
    field_simp

/-- C129: a solution found by shooting whose motion has only the harmonics of the list solves the harmonic balance equations. -/
theorem C129_harmonic_balance (hh : Admissible h) (hNt : ∀ k ∈ h, 2*k + 1 < Nt) (hn : 0 < S.nd) (hS : S.forces = [f])
    (hA : ∀ U, f.force U = .ok (A U)) (hL : SmoothLaw S.nd (fun U => (A U).1) (fun U => (A U).2))
    (hf : SamplesLaw f S.nd h Nt tol fun U => (A U).1) (hF : SameForcing S.nd h Flh Fl) (hw : 0 < Uw (2 * S.nd))
    (hivp : ExactIvp ivp) (hM : IsInv S.nd S.M Minv) (hNs : 0 < Ns)
    (hr : shootingRes ivp S Minv Uw (2 * S.nd + 1) Fl Ns = .ok r) (hc : r.cols = Ns + 1) (hR : ∀ i < 2 * S.nd, r.R i = 0) :
    ∃ u v, PeriodicMotion S.nd S.M S.C S.K (fun U => (A U).1) Fl (Uw (2 * S.nd)) (fun i => Uw i) (fun i => Uw (S.nd + i)) u v ∧
      (∀ k ≤ Ns, ∀ i < S.nd, r.yt i k = u (k * (2 * Real.pi / Uw (2 * S.nd)) / Ns) i) ∧
      ∀ Z : ℕ → ℝ, Z (numCoeff h * S.nd) = Uw (2 * S.nd) →
        (∀ t, ∀ i < S.nd, u t i = series h (fun q => Z (q * S.nd + i)) (Uw (2 * S.nd) * t)) →
        ∃ o, hbmRes S Z Flh h Nt tol true = .ok o ∧ ∀ i < numCoeff h * S.nd, o.R i = 0 := by
  obtain ⟨u, v, hp⟩ := (C75_periodic_partial hivp hM hS hA hL hw hNs hr hc).1 hR
  have hm : Motion S.nd S.M S.C S.K (fun U => (A U).1) Fl (Uw (2 * S.nd)) (Set.Icc 0 (2 * Real.pi / Uw (2 * S.nd))) u v :=
    ⟨fun t _ i hi => (hp.velocity t i hi).hasDerivWithinAt, fun t _ => by
      obtain ⟨acc, h1, h2⟩ := hp.motion t
      exact ⟨acc, fun i hi => (h1 i hi).hasDerivWithinAt, h2⟩⟩
  refine ⟨u, v, hp, fun k hk i hi => (shoot_samples hivp hM hS hA hL hw hNs hr hc hm hp.start k hk i hi).1, ?_⟩
  intro Z hZ hu
  have hu' : ∀ t, ∀ i < S.nd, u t i = hbMotion S.nd h (sl 0 (numCoeff h * S.nd) Z) (Z (numCoeff h * S.nd)) t i := by
    intro t i hi
    rw [hu t i hi]
    unfold hbMotion
    rw [hZ]
    refine series_congr (fun q hq => ?_) _
    simp only [sl, Nat.sub_zero, row_lt hq hi, if_true, zero_add]
  have hv' : ∀ t, ∀ i < S.nd, v t i = hbVelocity S.nd h (sl 0 (numCoeff h * S.nd) Z) (Z (numCoeff h * S.nd)) t i := by
    intro t i hi
    have := (hp.velocity t i hi).deriv
    rw [← this]
    unfold hbVelocity
    congr 1
    funext t
    exact hu' t i hi
  have hmot := hp.motion
  refine ((C129_motion (Z := Z) hh hNt hn hS hf hF (by rw [hZ]; exact hw.ne')).2 ?_).1
  have hper := fun e => trig_hbMotion S.nd h (sl 0 (numCoeff h * S.nd) Z) (Z (numCoeff h * S.nd)) e
  refine ⟨fun t i _ => (hper i).1 t, fun t => ?_, fun t i _ => (hper i).2.2 (by rw [hZ]; exact hw.ne') t, fun i _ => ⟨rfl, rfl⟩⟩
  obtain ⟨acc, h1, h2⟩ := hp.motion t
  refine ⟨acc, fun i hi => ?_, fun i hi => ?_⟩
  · have e : (fun t => hbVelocity S.nd h (sl 0 (numCoeff h * S.nd) Z) (Z (numCoeff h * S.nd)) t i) = fun t => v t i :=
      funext fun t => (hv' t i hi).symm
    rw [e]
    exact h1 i hi
  · have h3 := h2 i hi
    rw [hZ]
    rw [← h3, hL.local_f _ (u t) (fun k hk => by rw [hu' t k hk, hZ])]
    congr 1
    refine sum_congr rfl fun j hj => ?_
    rw [hu' t j (mem_range.1 hj), hv' t j (mem_range.1 hj), hZ]

/-! ## The force objects -/

/-- Instantaneous forces that depend on displacements only. -/
theorem C129_instantaneous (hh : Admissible h) (hNt : ∀ k ∈ h, 2*k + 1 < Nt) (heven : Even Nt) (N m : ℕ) (Q T : ℕ → ℕ → ℝ)
    (loc : ℕ → ℝ → ℝ → Loc) (ψ : ℕ → ℝ → ℝ) (hl : ∀ d u v, (loc d u v).f = ψ d u) (force : (ℕ → ℝ) → (ℕ → ℝ) × (ℕ → ℕ → ℝ))
    (hfo : ∀ X, ∀ i < N, (force X).1 i = ∑ d ∈ range m, T i d * ψ d (∑ e ∈ range N, Q d e * X e)) :
    SamplesLaw (instForce N m Q T loc force) N h Nt tol fun U => (force U).1 := by
  intro U w
  obtain ⟨o, h1, h2⟩ := C24_is_dft h hh Nt hNt heven N m Q T loc U w
  refine ⟨o, h1, fun i hi k hk => ?_⟩
  rw [h2 i hi k hk]
  congr 1
  funext j
  beta_reduce
  rw [hfo _ i hi]
  simp only [hl]
  rfl

/-- `GenPolyForce` as a force object, general_poly_stiffness.py:53-80, 131-226; `calc_grad` is accepted and ignored. -/
def genPolyNL (N m cnl : ℕ) (Q T E : ℕ → ℕ → ℝ) (qq : ℕ → ℕ → ℕ) : NLForce where
  ftype := 0
  force X := .ok (genPolyForce N m cnl Q T E qq X)
  aft U w h Nt _ := genPolyAft N m cnl Q T E qq U w h Nt
  aftNoGrad U w h Nt _ :=
    match genPolyAft N m cnl Q T E qq U w h Nt with
    | .ok o => .ok o.F
    | .error e => .error e

/-- The coupled polynomial force. -/
theorem C129_polynomial (hh : Admissible h) (hNt : ∀ k ∈ h, 2*k + 1 < Nt) (heven : Even Nt) (N m cnl : ℕ) (Q T E : ℕ → ℕ → ℝ)
    (qq : ℕ → ℕ → ℕ) :
    SamplesLaw (genPolyNL N m cnl Q T E qq) N h Nt tol (fun U => (genPolyForce N m cnl Q T E qq U).1) ∧
      SmoothLaw N (fun U => (genPolyForce N m cnl Q T E qq U).1) (fun U => (genPolyForce N m cnl Q T E qq U).2) := by
  constructor
  · intro U w
    obtain ⟨o, h1, h2⟩ := C24_polynomial_is_dft h hh Nt hNt heven N m cnl Q T E qq U w
    refine ⟨o, h1, fun i hi k hk => ?_⟩
    rw [h2 i hi k hk]
    rfl
  · have hloc : ∀ a b : ℕ → ℝ, (∀ i < N, a i = b i) → matVec N Q a = matVec N Q b := fun a b h =>
      funext fun i => matVec_congr h i
    refine ⟨fun a b h => ?_, fun a b h => ?_, fun x => C22_jacobian N N m cnl Q T E qq x, fun i _ j _ => ?_⟩
    · simp only [genPolyForce, hloc a b h]
    · simp only [genPolyForce, hloc a b h]
    · have hm : ∀ d, Continuous fun v : Fin N → ℝ => matVec N Q (Spec.ext v) d := by
        intro d
        unfold matVec
        refine continuous_finsetSum _ fun e he => continuous_const.mul ?_
        simp only [Spec.ext, mem_range.1 he, dif_pos]
        exact continuous_apply _
      simp only [genPolyForce, matMul, polyGrad, polyProd]
      refine continuous_finsetSum _ fun a _ => Continuous.mul ?_ continuous_const
      refine continuous_finsetSum _ fun b _ => continuous_const.mul (continuous_const.mul ?_)
      exact continuous_finsetProd _ fun e _ => (hm e).pow _

/-! ## Example: circular orbits

Two degrees of freedom of unit mass and stiffness with the force `(x² + y²) (x, y)`, forced by `(cos t, sin t)`, move on a circle. -/

/-- Exponents of `x³`, `x y²`, `x² y`, `y³`. -/
def orbitQ (c e : ℕ) : ℕ := if e = 0 then (if c = 0 then 3 else if c = 1 then 1 else if c = 2 then 2 else 0)
  else (if c = 0 then 0 else if c = 1 then 2 else if c = 2 then 1 else 3)

def orbitSys : VibSys :=
  ⟨2, fun i j => if i = j then 1 else 0, fun i j => if i = j then 1 else 0, fun _ _ => 0, none,
    [genPolyNL 2 2 4 (fun i j => if i = j then 1 else 0) (fun i j => if i = j then 1 else 0)
      (fun d c => if d = c / 2 then 1 else 0) orbitQ]⟩

/-- `x = cos`, `y = sin` with frequency one; the first four entries are also the forcing. -/
def orbitZ : ℕ → ℝ := fun i => if i = 0 ∨ i = 3 ∨ i = 4 then 1 else 0

theorem orbit_motion : PeriodicMotion 2 orbitSys.M orbitSys.C orbitSys.K
    (fun U => (genPolyForce 2 2 4 (fun i j => if i = j then 1 else 0) (fun i j => if i = j then 1 else 0)
      (fun d c => if d = c / 2 then 1 else 0) orbitQ U).1)
    orbitZ 1 (hbMotion 2 [1] (sl 0 (numCoeff [1] * 2) orbitZ) 1 0) (hbVelocity 2 [1] (sl 0 (numCoeff [1] * 2) orbitZ) 1 0)
    (hbMotion 2 [1] (sl 0 (numCoeff [1] * 2) orbitZ) 1) (hbVelocity 2 [1] (sl 0 (numCoeff [1] * 2) orbitZ) 1) := by
  have m0 : ∀ t, hbMotion 2 [1] (sl 0 (numCoeff [1] * 2) orbitZ) 1 t 0 = Real.cos t := fun t => by
    simp [hbMotion, series, orbitZ, sl, numCoeff]
  have m1 : ∀ t, hbMotion 2 [1] (sl 0 (numCoeff [1] * 2) orbitZ) 1 t 1 = Real.sin t := fun t => by
    simp [hbMotion, series, orbitZ, sl, numCoeff]
  have v0 : ∀ t, hbVelocity 2 [1] (sl 0 (numCoeff [1] * 2) orbitZ) 1 t 0 = -Real.sin t := fun t => by
    unfold hbVelocity
    simp only [m0]
    exact (Real.hasDerivAt_cos t).deriv
  have v1 : ∀ t, hbVelocity 2 [1] (sl 0 (numCoeff [1] * 2) orbitZ) 1 t 1 = Real.cos t := fun t => by
    unfold hbVelocity
    simp only [m1]
    exact (Real.hasDerivAt_sin t).deriv
  have hper := fun e => trig_hbMotion 2 [1] (sl 0 (numCoeff [1] * 2) orbitZ) 1 e
  refine ⟨fun t i _ => (hper i).1 t, fun t => ⟨fun i => if i = 0 then -Real.cos t else -Real.sin t, fun i hi => ?_, fun i hi => ?_⟩,
    fun t i _ => (hper i).2.2 one_ne_zero t, fun i _ => ⟨rfl, rfl⟩⟩
  · interval_cases i
    · simp only [v0, if_true]
      exact (Real.hasDerivAt_sin t).neg
    · simp only [v1, one_ne_zero, if_false]
      exact Real.hasDerivAt_cos t
  · have hsc := Real.sin_sq_add_cos_sq t
    interval_cases i
    · simp [orbitSys, genPolyForce, matVec, polyProd, Finset.sum_range_succ, Finset.prod_range_succ, m0, m1, orbitZ, orbitQ]
      linear_combination Real.cos t * hsc
    · simp [orbitSys, genPolyForce, matVec, polyProd, Finset.sum_range_succ, Finset.prod_range_succ, m0, m1, orbitZ, orbitQ]
      linear_combination Real.sin t * hsc

/-- If the motion exists over the period, the exact integrator returns a result. -/
theorem shoot_exists (hM : IsInv S.nd S.M Minv) (hS : S.forces = [f]) (hft : f.ftype = 0)
    (hA : ∀ U, f.force U = .ok (A U)) (hL : SmoothLaw S.nd (fun U => (A U).1) (fun U => (A U).2))
    (hw : 0 < Uw (2 * S.nd)) (hNs : 0 < Ns) {u v : ℝ → ℕ → ℝ}
    (hm : PeriodicMotion S.nd S.M S.C S.K (fun U => (A U).1) Fl (Uw (2 * S.nd)) (fun i => Uw i) (fun i => Uw (S.nd + i)) u v) :
    ∃ r, shootingRes exactIvp S Minv Uw (2 * S.nd + 1) Fl Ns = .ok r := by
  have hT0 : 0 < 2 * Real.pi / Uw (2 * S.nd) := by have := Real.pi_pos; positivity
  have hm' : Motion S.nd S.M S.C S.K (fun U => (A U).1) Fl (Uw (2 * S.nd)) (Set.Icc 0 (2 * Real.pi / Uw (2 * S.nd))) u v :=
    ⟨fun t _ i hi => (hm.velocity t i hi).hasDerivWithinAt, fun t _ => by
      obtain ⟨acc, h1, h2⟩ := hm.motion t
      exact ⟨acc, fun i hi => (h1 i hi).hasDerivWithinAt, h2⟩⟩
  obtain ⟨y, hy⟩ := augmented_sol (Uw := Uw) hS hA hL hT0.le (fun i => by
      by_cases c : (i:ℕ) < S.nd
      · simp only [restr, hcat, c, if_true, (hm.start i c).1]
      · simp only [restr, hcat, c, if_false, (hm.start (i - S.nd) (by omega)).2]
        congr 1
        omega) (motion_ode (Minv := Minv) hM hL hm' rfl)
  obtain ⟨o, ho, hc⟩ := exactIvp_full hT0 hNs hy
  obtain ⟨r, hr, -⟩ := shootingRes_of_ivp hS hft hA ho (by omega)
  exact ⟨r, hr⟩

/-- C129 on the circular orbit: the harmonic balance residual and the shooting residual vanish, and shooting returns samples of the
circle. -/
example (tol : ℝ) : (∃ o, hbmRes orbitSys orbitZ orbitZ [1] 8 tol true = .ok o ∧ ∀ i < numCoeff [1] * 2, o.R i = 0) ∧
    ∃ r, shootingRes exactIvp orbitSys (fun i j => if i = j then 1 else 0) (fun i => if i = 0 ∨ i = 3 ∨ i = 4 then 1 else 0) 5 orbitZ 16
        = .ok r ∧ (∀ i < 4, r.R i = 0) ∧ r.yt 1 4 = 1 := by
  have hh : Admissible [1] := ⟨by simp, by decide, by decide⟩
  have hNt : ∀ k ∈ [1], 2 * k + 1 < 8 := by decide
  obtain ⟨hf, hL⟩ := C129_polynomial (tol := tol) hh hNt ⟨4, rfl⟩ 2 2 4 (fun i j => if i = j then 1 else 0) (fun i j => if i = j then 1 else 0)
    (fun d c => if d = c / 2 then 1 else 0) orbitQ
  have hF : SameForcing 2 [1] orbitZ orbitZ := by
    intro d hd τ
    interval_cases d <;> simp [series, orbitZ]
  have hM : IsInv orbitSys.nd orbitSys.M (fun i j => if i = j then 1 else 0) := by
    intro i hi j hj
    have hi : i < 2 := hi
    have hj : j < 2 := hj
    interval_cases i <;> interval_cases j <;> simp [orbitSys]
  have hZ : orbitZ (numCoeff [1] * orbitSys.nd) = 1 := by simp [orbitZ, numCoeff, orbitSys]
  have hp := orbit_motion
  have hb := (C129_motion (S := orbitSys) (Z := orbitZ) hh hNt (by simp [orbitSys]) rfl hf hF (by rw [hZ]; exact one_ne_zero)).2
    (by rw [hZ]; exact hp)
  refine ⟨hb.1, ?_⟩
  have hst : ∀ i < 2, (if i = 0 ∨ i = 3 ∨ i = 4 then (1:ℝ) else 0) = hbMotion 2 [1] (sl 0 (numCoeff [1] * 2) orbitZ) 1 0 i ∧
      (if 2 + i = 0 ∨ 2 + i = 3 ∨ 2 + i = 4 then (1:ℝ) else 0) = hbVelocity 2 [1] (sl 0 (numCoeff [1] * 2) orbitZ) 1 0 i := by
    intro i hi
    interval_cases i
    · refine ⟨by simp [hbMotion, series, sl, numCoeff, orbitZ], ?_⟩
      have : (fun t => hbMotion 2 [1] (sl 0 (numCoeff [1] * 2) orbitZ) 1 t 0) = Real.cos := funext fun t => by
        simp [hbMotion, series, orbitZ, sl, numCoeff]
      simp [hbVelocity, this]
    · refine ⟨by simp [hbMotion, series, sl, numCoeff, orbitZ], ?_⟩
      have : (fun t => hbMotion 2 [1] (sl 0 (numCoeff [1] * 2) orbitZ) 1 t 1) = Real.sin := funext fun t => by
        simp [hbMotion, series, orbitZ, sl, numCoeff]
      simp [hbVelocity, this]
  have hp' : PeriodicMotion 2 orbitSys.M orbitSys.C orbitSys.K
      (fun U => (genPolyForce 2 2 4 (fun i j => if i = j then 1 else 0) (fun i j => if i = j then 1 else 0)
        (fun d c => if d = c / 2 then 1 else 0) orbitQ U).1) orbitZ 1 (fun i => if i = 0 ∨ i = 3 ∨ i = 4 then 1 else 0)
      (fun i => if 2 + i = 0 ∨ 2 + i = 3 ∨ 2 + i = 4 then 1 else 0) _ _ :=
    ⟨hp.velocity, hp.motion, hp.period, fun i hi => ⟨(hst i hi).1.symm, (hst i hi).2.symm⟩⟩
  obtain ⟨r, hr⟩ := shoot_exists (S := orbitSys) (Uw := fun i => if i = 0 ∨ i = 3 ∨ i = 4 then 1 else 0) (Ns := 16) hM rfl rfl (fun _ => rfl) hL
    (by simp [orbitSys]) (by norm_num) (by simpa [orbitSys] using hp')
  obtain ⟨-, h2, h3⟩ := C129_shooting (S := orbitSys) (Z := orbitZ) hh hNt (by simp [orbitSys]) rfl (fun _ => rfl) hL hf hF (by rw [hZ]; exact one_pos)
    hb.1 hb.2 exactIvp_exact hM (by norm_num) (fun i hi => by rw [hZ]; exact (hst i hi).1) (fun i hi => by rw [hZ]; exact (hst i hi).2)
    (by rw [hZ]; simp [orbitSys]) hr
  refine ⟨r, hr, h2, ?_⟩
  rw [(h3 4 (by norm_num) 1 (by simp [orbitSys])).1]
  simp [series, orbitZ, orbitSys]
  rw [show 2 * Real.pi * 4 / 16 = Real.pi / 2 by ring, Real.sin_pi_div_two]

end

end TMD
