import Verif.Props.Shift
import Verif.Lemmas.Alias
import Verif.Props.Residual

/-!
# C114: polynomial forces are sampled without aliasing

The alternating frequency/time procedure replaces the Fourier integrals of the nonlinear force by sums over `Nt`
samples (nonlinear_force.py:202-304, general_poly_stiffness.py:131-225). For forces that are polynomials of degree `p`
in the local displacement and velocity the sums are the integrals as soon as `(p + 1) H < Nt`, `H` the largest
harmonic: the error of the harmonic balance is then that of the truncation only.
-/

namespace TMD

open Spec Finset

noncomputable section

/-- `F` holds the Fourier coefficients of the forces `f` on the coordinates, `f i` a function of the phase. -/
def IsFourier (N : ℕ) (h : List ℕ) (f : ℕ → ℝ → ℝ) (F : ℕ → ℝ) : Prop :=
  ∀ i < N, ∀ k ∈ h, coefOf h (fun r => F (r * N + i)) k = fourierCoef (f i) k

theorem isFourier_of {N m : ℕ} {T : ℕ → ℕ → ℝ} {h : List ℕ} {Nt H p : ℕ} (hH : ∀ k ∈ h, k ≤ H) (hp : (p + 1) * H < Nt)
    {f : ℕ → ℝ → ℝ} (hf : ∀ d, Trig (p * H) (f d)) {F : ℕ → ℝ}
    (hF : IsForceDFT N m T h Nt (fun j d => f d (2 * Real.pi * j / Nt)) F) :
    IsFourier N h (fun i τ => ∑ d ∈ range m, T i d * f d τ) F := by
  intro i hi k hk
  rw [hF i hi k hk]
  have : Trig (p * H) (fun τ => ∑ d ∈ range m, T i d * f d τ) := Trig.sum _ fun d _ => (hf d).smul _
  refine this.dft_eq ?_
  have := hH k hk
  rw [Nat.add_mul, one_mul] at hp
  omega

/-- C114: instantaneous forces whose law is a polynomial in displacement and velocity. -/
theorem C114_instantaneous (h : List ℕ) (hA : Admissible h) (H p Nt : ℕ) (hH : ∀ k ∈ h, k ≤ H)
    (hNt : ∀ k ∈ h, 2*k + 1 < Nt) (heven : Even Nt) (hp : (p + 1) * H < Nt)
    (N m : ℕ) (Q T : ℕ → ℕ → ℝ) (loc : ℕ → ℝ → ℝ → Loc) (P : ℕ → MvPolynomial (Fin 2) ℝ)
    (hP : ∀ d, (P d).totalDegree ≤ p) (hl : ∀ d u v, (loc d u v).f = MvPolynomial.eval ![u, v] (P d)) (U : ℕ → ℝ) (w : ℝ) :
    ∃ out, instAft N m Q T (elemLfh loc) U w h Nt = .ok out ∧
      IsFourier N h (fun i τ => ∑ d ∈ range m, T i d *
        (loc d (localMotion N Q h U d τ) (w * deriv (localMotion N Q h U d) τ)).f) out.F := by
  obtain ⟨out, h1, h2⟩ := C24_is_dft h hA Nt hNt heven N m Q T loc U w
  refine ⟨out, h1, isFourier_of hH hp (fun d => ?_) h2⟩
  simp only [hl]
  have := Trig.eval (D := H) (P d) (hP d) (x := ![localMotion N Q h U d, fun τ => w * deriv (localMotion N Q h U d) τ])
    (fun i => by
      fin_cases i
      · exact Trig.localMotion hH N Q U d
      · exact (Trig.localMotion hH N Q U d).deriv.smul w)
  refine (congrArg (Trig (p * H)) (funext fun τ => ?_)).mp this
  congr 2
  funext i
  fin_cases i <;> rfl

/-- C114: the polynomial force that couples the local displacements, of total degree `p`. -/
theorem C114_polynomial (h : List ℕ) (hA : Admissible h) (H p Nt : ℕ) (hH : ∀ k ∈ h, k ≤ H)
    (hNt : ∀ k ∈ h, 2*k + 1 < Nt) (heven : Even Nt) (hp : (p + 1) * H < Nt)
    (N m cnl : ℕ) (Q T E : ℕ → ℕ → ℝ) (qq : ℕ → ℕ → ℕ) (hq : ∀ c < cnl, ∑ e ∈ range m, qq c e ≤ p) (U : ℕ → ℝ) (w : ℝ) :
    ∃ out, genPolyAft N m cnl Q T E qq U w h Nt = .ok out ∧
      IsFourier N h (fun i τ => ∑ d ∈ range m, T i d *
        ∑ c ∈ range cnl, E d c * ∏ e ∈ range m, (localMotion N Q h U e τ)^(qq c e)) out.F := by
  obtain ⟨out, h1, h2⟩ := C24_polynomial_is_dft h hA Nt hNt heven N m cnl Q T E qq U w
  refine ⟨out, h1, isFourier_of hH hp
    (f := fun d τ => ∑ c ∈ range cnl, E d c * ∏ e ∈ range m, (localMotion N Q h U e τ)^(qq c e)) (fun d => ?_) h2⟩
  refine Trig.sum _ fun c hc => Trig.smul _ ((Trig.prod _ (qq c) fun e _ => Trig.localMotion hH N Q U e).mono ?_)
  exact Nat.mul_le_mul_right _ (hq c (mem_range.1 hc))

/-- C114: so every delay is kept, not only those of whole samples (C113). -/
theorem C114_every_delay (h : List ℕ) (hA : Admissible h) (H p Nt : ℕ) (hH : ∀ k ∈ h, k ≤ H)
    (hNt : ∀ k ∈ h, 2*k + 1 < Nt) (heven : Even Nt) (hp : (p + 1) * H < Nt)
    (N m : ℕ) (Q T : ℕ → ℕ → ℝ) (loc : ℕ → ℝ → ℝ → Loc) (P : ℕ → MvPolynomial (Fin 2) ℝ)
    (hP : ∀ d, (P d).totalDegree ≤ p) (hl : ∀ d u v, (loc d u v).f = MvPolynomial.eval ![u, v] (P d))
    (force : (ℕ → ℝ) → (ℕ → ℝ) × (ℕ → ℕ → ℝ)) (tol φ : ℝ) :
    KeepsDelay (instForce N m Q T loc force) N h Nt tol φ := by
  intro U V w HD
  obtain ⟨o, h1, h2⟩ := C114_instantaneous h hA H p Nt hH hNt heven hp N m Q T loc P hP hl U w
  obtain ⟨o', h3, h4⟩ := C114_instantaneous h hA H p Nt hH hNt heven hp N m Q T loc P hP hl V w
  refine ⟨o, o', h1, h3, ?_⟩
  rw [delayed_iff hA]
  refine eq_of_coefOf hA (fun d hd k hk => ?_)
  rw [coefOf_rsp hA N o.F _ 1 hd hk, h2 d hd k hk, h4 d hd k hk, Nat.cast_one, div_one]
  have ht : Trig (p * H) (fun τ => ∑ e ∈ range m, T d e *
        (loc e (localMotion N Q h U e τ) (w * deriv (localMotion N Q h U e) τ)).f) := by
    refine Trig.sum _ fun e _ => Trig.smul _ ?_
    simp only [hl]
    have := Trig.eval (D := H) (P e) (hP e) (x := ![localMotion N Q h U e, fun τ => w * deriv (localMotion N Q h U e) τ])
      (fun i => by
        fin_cases i
        · exact Trig.localMotion hH N Q U e
        · exact (Trig.localMotion hH N Q U e).deriv.smul w)
    refine (congrArg (Trig (p * H)) (funext fun τ => ?_)).mp this
    congr 2
    funext i
    fin_cases i <;> rfl
  rw [← ht.fourierCoef_shift φ k]
  congr 1
  funext τ
  refine sum_congr rfl fun e _ => ?_
  rw [localMotion_delayed HD Q e]
  simp only [deriv_comp_sub_const]

/-- C114: the cubic spring, with the default of 128 samples, has exact harmonics up to the 31st. -/
theorem C114_cubic (h : List ℕ) (hA : Admissible h) (hH : ∀ k ∈ h, k ≤ 31) (N m : ℕ) (Q T : ℕ → ℕ → ℝ) (kk : ℕ → ℝ)
    (U : ℕ → ℝ) (w tol : ℝ) :
    ∃ out, (cubicNL N m Q T kk).aft U w h 128 tol = .ok out ∧
      IsFourier N h (fun i τ => ∑ d ∈ range m, T i d * (kk d * localMotion N Q h U d τ ^ 3)) out.F := by
  refine C114_instantaneous h hA 31 3 128 hH (fun k hk => by have := hH k hk; omega) ⟨64, rfl⟩ (by norm_num) N m Q T
    (cubicLoc kk) (fun d => MvPolynomial.C (kk d) * MvPolynomial.X 0 ^ 3) (fun d => ?_) (fun d u v => ?_) U w
  · refine (MvPolynomial.totalDegree_mul _ _).trans ?_
    rw [MvPolynomial.totalDegree_C, MvPolynomial.totalDegree_X_pow]
  · simp [cubicLoc]

/-- C114: the bound is sharp: a unit cubic spring under `cos τ`, sampled four times per period (`(3 + 1) 1 = 4`), has the
first harmonic 1 instead of 3/4. -/
theorem C114_bound_sharp (w tol : ℝ) :
    ∃ o, (cubicNL 1 1 (fun _ _ => 1) (fun _ _ => 1) (fun _ => 1)).aft (fun i => if i = 1 then 1 else 0) w [0, 1] 4 tol = .ok o ∧
      (coefOf [0, 1] (fun r => o.F (r * 1 + 0)) 1).1 = 1 ∧ (fourierCoef (fun τ => Real.cos τ ^ 3) 1).1 = 3 / 4 := by
  obtain ⟨o, h1, h2, -⟩ := cubic4 (fun i => if i = 1 then 1 else 0) w tol
  refine ⟨o, h1, ?_, ?_⟩
  · norm_num [coefOf, h2]
  · have ht : Trig 3 (fun τ => Real.cos τ ^ 3) := by
      have := (Trig.cos (D := 1) 1 le_rfl).pow 3
      simpa using this
    have e : (fun τ => Real.cos τ ^ 3) = series [1, 3] (fun i => if i = 0 then 3/4 else if i = 2 then 1/4 else 0) := by
      funext τ
      have := Real.cos_three_mul τ
      simp only [series, one_ne_zero, OfNat.ofNat_ne_zero, if_false, if_true, Nat.cast_one, one_mul, Nat.cast_ofNat, this]
      norm_num
      ring
    rw [e] at ht ⊢
    rw [← ht.dft_eq (N := 8) (by norm_num),
      ← coefOf_dft (h := [1, 3]) ⟨by simp, by decide, by decide⟩ (N := 8) (by simp) _ (by simp)]
    simp [coefOf]

theorem fourierCoef_series {h : List ℕ} (hA : Admissible h) (c : ℕ → ℝ) {k : ℕ} (hk : k ∈ h) :
    fourierCoef (series h c) k = coefOf h c k := by
  have hs : ∀ m ∈ h, m ≤ h.sum := fun m hm => List.single_le_sum (by simp) m hm
  have ht := Trig.series hs c
  rw [coefOf_dft hA (N := 2 * h.sum + 1) (fun m hm => by have := hs m hm; omega) c hk,
    ht.dft_eq (by have := hs k hk; omega)]

theorem fourierCoef_add {f g : ℝ → ℝ} (hf : Continuous f) (hg : Continuous g) (k : ℕ) :
    fourierCoef (fun τ => f τ + g τ) k = fourierCoef f k + fourierCoef g k := by
  unfold fourierCoef
  have c : Continuous fun τ : ℝ => Real.cos (k * τ) := by fun_prop
  have s : Continuous fun τ : ℝ => Real.sin (k * τ) := by fun_prop
  split
  · rw [intervalIntegral.integral_add (hf.intervalIntegrable _ _) (hg.intervalIntegrable _ _)]
    exact Prod.ext (by simp [add_div]) (by simp)
  · simp only [add_mul]
    have e1 := intervalIntegral.integral_add (μ := MeasureTheory.volume) (f := fun τ => f τ * Real.cos (k * τ))
      (g := fun τ => g τ * Real.cos (k * τ))
      ((hf.mul c).intervalIntegrable 0 (2 * Real.pi)) ((hg.mul c).intervalIntegrable 0 (2 * Real.pi))
    have e2 := intervalIntegral.integral_add (μ := MeasureTheory.volume) (f := fun τ => f τ * Real.sin (k * τ))
      (g := fun τ => g τ * Real.sin (k * τ))
      ((hf.mul s).intervalIntegrable 0 (2 * Real.pi)) ((hg.mul s).intervalIntegrable 0 (2 * Real.pi))
    rw [e1, e2]
    exact Prod.ext (by simp [add_div]) (by simp [add_div])

theorem fourierCoef_zero (k : ℕ) : fourierCoef (fun _ => 0) k = 0 := by
  unfold fourierCoef; split <;> simp

theorem fourierCoef_list {α : Type} (l : List α) (g : α → ℝ → ℝ) (hg : ∀ a ∈ l, Continuous (g a)) (k : ℕ) :
    fourierCoef (fun τ => (l.map fun a => g a τ).sum) k = (l.map fun a => fourierCoef (g a) k).sum ∧
      Continuous (fun τ => (l.map fun a => g a τ).sum) := by
  induction l with
  | nil => exact ⟨by simpa using fourierCoef_zero k, by simpa using continuous_const⟩
  | cons a l ih =>
    obtain ⟨h1, h2⟩ := ih fun b hb => hg b (List.mem_cons_of_mem _ hb)
    simp only [List.map_cons, List.sum_cons]
    exact ⟨by rw [fourierCoef_add (hg a List.mem_cons_self) h2, h1], (hg a List.mem_cons_self).add h2⟩

theorem coefOf_add (h : List ℕ) (a b : ℕ → ℝ) (k : ℕ) :
    coefOf h (fun r => a r + b r) k = coefOf h a k + coefOf h b k := by
  induction h generalizing a b with
  | nil => simp [coefOf]
  | cons m hs ih =>
    by_cases hk : m = k
    · subst hk
      by_cases hm : m = 0
      · simp [coefOf, hm]
      · simp [coefOf, hm]
    · simp only [coefOf, hk, if_false]
      exact ih _ _

theorem coefOf_list {α : Type} (h : List ℕ) (l : List α) (g : α → ℕ → ℝ) (k : ℕ) :
    coefOf h (fun r => (l.map fun a => g a r).sum) k = (l.map fun a => coefOf h (g a) k).sum := by
  induction l with
  | nil =>
    have := coefOf_add h (fun _ => 0) (fun _ => 0) k
    simp only [add_zero] at this
    simpa using this
  | cons a l ih =>
    simp only [List.map_cons, List.sum_cons]
    rw [coefOf_add, ih]

/-- C114: the harmonic balance residual is the exact Galerkin residual: its entries are the Fourier integrals of the
residual of the equation of motion over a period, the nonlinear forces (given as functions of the phase) included. -/
theorem C114_galerkin (S : VibSys) (h : List ℕ) (hA : Admissible h) (Nt : ℕ) (tol : ℝ)
    (g : NLForce → (ℕ → ℝ) → ℝ → ℕ → ℝ → ℝ)
    (hg : ∀ f ∈ S.forces, ∀ U w, (∃ o, f.aft U w h Nt tol = .ok o ∧ IsFourier S.nd h (g f U w) o.F) ∧
      ∀ d, Continuous (g f U w d)) (Z Fl : ℕ → ℝ) (hw : Z (numCoeff h * S.nd) ≠ 0) :
    ∃ o, hbmRes S Z Fl h Nt tol true = .ok o ∧
      let w := Z (numCoeff h * S.nd)
      let U := sl 0 (numCoeff h * S.nd) Z
      let x : ℕ → ℝ → ℝ := fun e t => series h (fun r => U (r * S.nd + e)) (w * t)
      IsFourier S.nd h (fun d τ =>
        (∑ e ∈ range S.nd, (S.M d e * deriv (deriv (x e)) (τ / w) + S.C d e * deriv (x e) (τ / w) + S.K d e * x e (τ / w)))
          + (S.forces.map fun f => g f U w d τ).sum - series h (fun r => Fl (r * S.nd + d)) τ) o.R := by
  have hok : ∀ f ∈ S.forces, ∀ U w, f.aft U w h Nt tol = .ok (aftVal h Nt tol f U w) := by
    intro f hf U w
    obtain ⟨⟨o, h1, -⟩, -⟩ := hg f hf U w
    simp only [aftVal, h1]
  have hF : ∀ f ∈ S.forces, ∀ U w, IsFourier S.nd h (g f U w) (aftVal h Nt tol f U w).F := by
    intro f hf U w
    obtain ⟨⟨o, h1, h2⟩, -⟩ := hg f hf U w
    simp only [aftVal, h1]
    exact h2
  obtain ⟨R, G, h1, h2⟩ := C45_time_domain S h hA Nt tol _ hok Z Fl
  refine ⟨_, h1, ?_⟩
  intro w U x d hd k hk
  have hc : ∀ c, Continuous (series h c) := fun c =>
    (Trig.series (fun m hm => List.single_le_sum (by simp) m hm) c).continuous
  have e : (fun τ => (∑ e ∈ range S.nd, (S.M d e * deriv (deriv (x e)) (τ / w) + S.C d e * deriv (x e) (τ / w) + S.K d e * x e (τ / w)))
          + (S.forces.map fun f => g f U w d τ).sum - series h (fun r => Fl (r * S.nd + d)) τ)
      = fun τ => (series h (fun r => R (r * S.nd + d)) τ
        + series h (fun r => - (S.forces.map fun f => (aftVal h Nt tol f U w).F (r * S.nd + d)).sum) τ)
          + (S.forces.map fun f => g f U w d τ).sum := by
    funext τ
    have this : series h (fun r => R (r * S.nd + d)) (w * (τ / w))
        = (∑ e ∈ range S.nd, (S.M d e * deriv (deriv (x e)) (τ / w) + S.C d e * deriv (x e) (τ / w) + S.K d e * x e (τ / w)))
          + series h (fun r => (S.forces.map fun f => (aftVal h Nt tol f U w).F (r * S.nd + d)).sum) (w * (τ / w))
          - series h (fun r => Fl (r * S.nd + d)) (w * (τ / w)) := h2 d hd (τ / w)
    rw [mul_div_cancel₀ τ hw] at this
    rw [this, show (fun r => - (S.forces.map fun f => (aftVal h Nt tol f U w).F (r * S.nd + d)).sum)
      = fun r => (-1) * (S.forces.map fun f => (aftVal h Nt tol f U w).F (r * S.nd + d)).sum from funext fun r => by ring,
      series_smul]
    ring
  show coefOf h (fun r => R (r * S.nd + d)) k = fourierCoef _ k
  obtain ⟨l1, l2⟩ := fourierCoef_list S.forces (fun f => g f U w d) (fun f hf => (hg f hf U w).2 d) k
  beta_reduce
  have hcc : ∀ a b, Continuous fun τ => series h a τ + series h b τ := fun a b => (hc a).add (hc b)
  rw [e, fourierCoef_add (hcc _ _) l2, fourierCoef_add (hc _) (hc _), fourierCoef_series hA _ hk,
    fourierCoef_series hA _ hk, l1]
  have e3 : (S.forces.map fun f => fourierCoef (g f U w d) k)
      = S.forces.map fun f => coefOf h (fun r => (aftVal h Nt tol f U w).F (r * S.nd + d)) k :=
    List.map_congr_left fun f hf => (hF f hf U w d hd k hk).symm
  rw [e3, ← coefOf_list, add_assoc, ← coefOf_add]
  simp only [neg_add_cancel]
  have := coefOf_list h ([] : List ℕ) (fun _ _ => 0) k
  simp only [List.map_nil, List.sum_nil] at this
  rw [this, add_zero]

/-- C114 for a Duffing oscillator with the default of 128 samples and harmonics up to the 31st. -/
example (h : List ℕ) (hA : Admissible h) (hH : ∀ k ∈ h, k ≤ 31) (tol : ℝ) (Z Fl : ℕ → ℝ) (hw : Z (numCoeff h * 1) ≠ 0) :
    ∃ o, hbmRes ⟨1, fun _ _ => 1, fun _ _ => 1, fun _ _ => 0.1, none,
        [cubicNL 1 1 (fun _ _ => 1) (fun _ _ => 1) (fun _ => 1)]⟩ Z Fl h 128 tol true = .ok o ∧
      let w := Z (numCoeff h * 1)
      let x : ℝ → ℝ := fun t => series h (fun r => sl 0 (numCoeff h * 1) Z (r * 1 + 0)) (w * t)
      ∀ k ∈ h, coefOf h (fun r => o.R (r * 1 + 0)) k = fourierCoef (fun τ => deriv (deriv x) (τ / w) + 0.1 * deriv x (τ / w)
        + x (τ / w) + x (τ / w) ^ 3 - series h (fun r => Fl (r * 1 + 0)) τ) k := by
  obtain ⟨o, h1, h2⟩ := C114_galerkin ⟨1, fun _ _ => 1, fun _ _ => 1, fun _ _ => 0.1, none,
        [cubicNL 1 1 (fun _ _ => 1) (fun _ _ => 1) (fun _ => 1)]⟩ h hA 128 tol
    (fun _ U _ i τ => ∑ d ∈ range 1, 1 * (1 * localMotion 1 (fun _ _ => 1) h U d τ ^ 3))
    (fun f hf U w => by
      simp only [List.mem_singleton] at hf
      subst hf
      refine ⟨C114_cubic h hA hH 1 1 _ _ _ U w tol, fun d => ?_⟩
      have := (Trig.localMotion hH 1 (fun _ _ => 1) U 0).continuous
      simp only [sum_range_one, one_mul]
      exact this.pow 3) Z Fl hw
  refine ⟨o, h1, ?_⟩
  intro w x k hk
  have := h2 0 (by norm_num) k hk
  rw [this]
  congr 1
  funext τ
  have hx : localMotion 1 (fun _ _ => 1) h (sl 0 (numCoeff h * 1) Z) 0 τ = x (τ / w) := by
    simp only [localMotion, sum_range_one, one_mul, x]
    rw [mul_div_cancel₀ τ hw]
  simp only [sum_range_one, one_mul, List.map_cons, List.map_nil, List.sum_cons, List.sum_nil, add_zero]
  rw [hx]
  rfl

end

end TMD
