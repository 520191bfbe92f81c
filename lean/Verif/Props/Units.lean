import Verif.Props.Coordinates

/-!
# C128: the residuals do not depend on the units

New units: lengths are multiplied by `a`, forces by `b`, times by `c` (all positive). Frequencies are then divided by `c`, stiffness is
multiplied by `b / a`, damping by `b c / a`, mass by `b c² / a`. The residual in the new units is the old one times `b`
(vibration_system.py:398-483, 650-830). The parameters of the force laws are converted by their dimension.
-/

namespace TMD

open Spec Finset

noncomputable section

/-- The force that `aft` of the class `g` (data in new units) reports is that of `f` (old units), converted. -/
structure SameForce (f g : PForce) (N : ℕ) (a b c : ℝ) (h : List ℕ) (Nt : ℕ) : Prop where
  raises : ∀ U w e, f.aftF U w h Nt = .error e ↔ g.aftF (fun i => a * U i) (w / c) h Nt = .error e
  scale : ∀ U w F G, f.aftF U w h Nt = .ok F → g.aftF (fun i => a * U i) (w / c) h Nt = .ok G → ∀ i < numCoeff h * N, G i = b * F i

/-- The same for force objects of a system. -/
structure SameNL (f g : NLForce) (N : ℕ) (a b c : ℝ) (h : List ℕ) (Nt : ℕ) (tol : ℝ) : Prop where
  left : ∀ U w, ∃ o, f.aft U w h Nt tol = .ok o
  right : ∀ U w, ∃ o, g.aft U w h Nt tol = .ok o
  scale : ∀ U w o o', f.aft U w h Nt tol = .ok o → g.aft (fun i => a * U i) (w / c) h Nt tol = .ok o' → ∀ i < numCoeff h * N, o'.F i = b * o.F i

/-- `S'` is `S` in new units. -/
structure SameSystem (S S' : VibSys) (a b c : ℝ) (h : List ℕ) (Nt : ℕ) (tol : ℝ) : Prop where
  dofs : S'.nd = S.nd
  mass : ∀ i < S.nd, ∀ j < S.nd, S'.M i j = b * c ^ 2 / a * S.M i j
  damp : ∀ i < S.nd, ∀ j < S.nd, S'.C i j = b * c / a * S.C i j
  stiff : ∀ i < S.nd, ∀ j < S.nd, S'.K i j = b / a * S.K i j
  forces : List.Forall₂ (fun f g => SameNL f g S.nd a b c h Nt tol) S.forces S'.forces

/-! ## Lemmas -/

theorem localMotion_units (N : ℕ) (Q : ℕ → ℕ → ℝ) (h : List ℕ) (U : ℕ → ℝ) (a : ℝ) (d : ℕ) :
    localMotion N Q h (fun i => a * U i) d = fun τ => a * localMotion N Q h U d τ := by
  funext τ
  unfold localMotion
  rw [mul_sum]
  exact sum_congr rfl fun e _ => by rw [series_smul]; ring

theorem localVel_units (N : ℕ) (Q : ℕ → ℕ → ℝ) (h : List ℕ) (U : ℕ → ℝ) (a : ℝ) (d : ℕ) (τ : ℝ) :
    deriv (localMotion N Q h (fun i => a * U i) d) τ = a * deriv (localMotion N Q h U d) τ := by
  rw [localMotion_units]
  exact deriv_const_mul_field a

theorem coefOf_units (h : List ℕ) (b : ℝ) (x : ℕ → ℝ) (k : ℕ) : coefOf h (fun r => b * x r) k = b • coefOf h x k := by
  have := coefOf_lin h (range 1) (fun _ => b) (fun _ => x) k
  simpa using this

theorem dft_units (N : ℕ) (b : ℝ) (x : ℕ → ℝ) (k : ℕ) : dft N (fun j => b * x j) k = b • dft N x k := by
  have := dft_linear N (range 1) (fun _ => b) (fun j _ => x j) k
  simp only [sum_range_one] at this
  rw [this]; rfl

theorem isForceDFT_units {h : List ℕ} (hA : Admissible h) {Nt N l : ℕ} {b : ℝ} {T : ℕ → ℕ → ℝ} {f g : ℕ → ℕ → ℝ} {F G : ℕ → ℝ}
    (hF : IsForceDFT N l T h Nt f F) (hG : IsForceDFT N l T h Nt g G) (hfg : ∀ j < Nt, ∀ d, g j d = b * f j d) :
    ∀ i < numCoeff h * N, G i = b * F i := by
  refine eq_of_coefOf hA (nd := N) (F := G) (G := fun i => b * F i) (fun i hi k hk => ?_)
  have e : dft Nt (fun j => ∑ d ∈ range l, T i d * g j d) k = dft Nt (fun j => b * ∑ d ∈ range l, T i d * f j d) k := by
    have e1 : ∀ j ∈ range Nt, ∑ d ∈ range l, T i d * g j d = b * ∑ d ∈ range l, T i d * f j d := fun j hj => by
      rw [mul_sum]
      exact sum_congr rfl fun d _ => by rw [hfg j (mem_range.1 hj)]; ring
    unfold dft
    split
    · rw [sum_congr rfl e1]
    · refine Prod.ext ?_ ?_
      · show 2 / (Nt:ℝ) * _ = 2 / (Nt:ℝ) * _
        exact congrArg _ (sum_congr rfl fun j hj => congrArg (· * _) (e1 j hj))
      · show 2 / (Nt:ℝ) * _ = 2 / (Nt:ℝ) * _
        exact congrArg _ (sum_congr rfl fun j hj => congrArg (· * _) (e1 j hj))
  rw [hG i hi k hk, e, coefOf_units, hF i hi k hk, dft_units]

theorem max_units {b : ℝ} (hb : 0 < b) (x y : ℝ) : max (b * x) (b * y) = b * max x y := (mul_max_of_nonneg x y hb.le).symm

theorem min_units {b : ℝ} (hb : 0 < b) (x y : ℝ) : min (b * x) (b * y) = b * min x y := (mul_min_of_nonneg x y hb.le).symm

/-! ## Instantaneous forces -/

/-- A local law in new units: `u` in lengths, `v` in lengths per time. -/
def SameLaw (loc loc' : ℕ → ℝ → ℝ → Loc) (a b c : ℝ) : Prop := ∀ d u v, (loc' d (a * u) (a / c * v)).f = b * (loc d u v).f

section classes

variable (h : List ℕ) (hA : Admissible h) (Nt : ℕ) (hNt : ∀ k ∈ h, 2*k + 1 < Nt) (heven : Even Nt) (a b c : ℝ)
include hA hNt heven

/-- C128: instantaneous forces of any law. -/
theorem C128_instantaneous (N m : ℕ) (Q T : ℕ → ℕ → ℝ) (loc loc' : ℕ → ℝ → ℝ → Loc) (H : SameLaw loc loc' a b c) :
    SameForce (.inst N m Q T loc) (.inst N m Q T loc') N a b c h Nt := by
  have k : ∀ (loc : ℕ → ℝ → ℝ → Loc) (U : ℕ → ℝ) (w : ℝ), ∃ F, (PForce.inst N m Q T loc).aftF U w h Nt = .ok F ∧
      IsForceDFT N m T h Nt (fun j d => (loc d (localMotion N Q h U d (2 * Real.pi * j / Nt))
        (w * deriv (localMotion N Q h U d) (2 * Real.pi * j / Nt))).f) F := fun loc U w => by
    obtain ⟨o, h1, h2⟩ := C24_is_dft h hA Nt hNt heven N m Q T loc U w
    refine ⟨o.F, ?_, h2⟩
    show aftForce (instAft N m Q T (elemLfh loc) U w h Nt) = _
    rw [h1]; rfl
  refine ⟨fun U w e => ?_, fun U w F G e e' => ?_⟩
  · obtain ⟨p, h1, -⟩ := k loc U w
    obtain ⟨p', h3, -⟩ := k loc' (fun i => a * U i) (w / c)
    rw [h1, h3]
    exact ⟨(fun x => by cases x), (fun x => by cases x)⟩
  · obtain ⟨p, h1, h2⟩ := k loc U w
    obtain ⟨p', h3, h4⟩ := k loc' (fun i => a * U i) (w / c)
    cases h1.symm.trans e
    cases h3.symm.trans e'
    refine isForceDFT_units hA h2 h4 fun j _ d => ?_
    rw [localVel_units, localMotion_units, ← H]
    congr 2
    ring

/-- C128: the coupled polynomial force; the coefficient of a monomial is converted by its degree. -/
theorem C128_polynomial (ha : 0 < a) (N m cnl : ℕ) (Q T E E' : ℕ → ℕ → ℝ) (qq : ℕ → ℕ → ℕ)
    (H : ∀ d, ∀ c < cnl, E' d c = b / a ^ (∑ e ∈ range m, qq c e) * E d c) :
    SameForce (.poly N m cnl Q T E qq) (.poly N m cnl Q T E' qq) N a b c h Nt := by
  have k : ∀ (E : ℕ → ℕ → ℝ) (U : ℕ → ℝ) (w : ℝ), ∃ F, (PForce.poly N m cnl Q T E qq).aftF U w h Nt = .ok F ∧
      IsForceDFT N m T h Nt (fun j d => ∑ c ∈ range cnl, E d c * ∏ e ∈ range m, (localMotion N Q h U e (2 * Real.pi * j / Nt))^(qq c e)) F :=
    fun E U w => by
      obtain ⟨o, h1, h2⟩ := C24_polynomial_is_dft h hA Nt hNt heven N m cnl Q T E qq U w
      refine ⟨o.F, ?_, h2⟩
      show aftForce (genPolyAft N m cnl Q T E qq U w h Nt) = _
      rw [h1]; rfl
  refine ⟨fun U w e => ?_, fun U w F G e e' => ?_⟩
  · obtain ⟨p, h1, -⟩ := k E U w
    obtain ⟨p', h3, -⟩ := k E' (fun i => a * U i) (w / c)
    rw [h1, h3]
    exact ⟨(fun x => by cases x), (fun x => by cases x)⟩
  · obtain ⟨p, h1, h2⟩ := k E U w
    obtain ⟨p', h3, h4⟩ := k E' (fun i => a * U i) (w / c)
    cases h1.symm.trans e
    cases h3.symm.trans e'
    refine isForceDFT_units hA h2 h4 fun j _ d => ?_
    rw [mul_sum]
    refine sum_congr rfl fun q hq => ?_
    simp only [localMotion_units, mul_pow]
    rw [prod_mul_distrib, prod_pow_eq_pow_sum, H d q (mem_range.1 hq)]
    have : a ^ (∑ e ∈ range m, qq q e) ≠ 0 := pow_ne_zero _ ha.ne'
    field_simp

/-- The evaluation shared by the JAX classes. -/
theorem jaxAft_units (hh : 1 < numCoeff h) (N m : ℕ) (Q T : ℕ → ℕ → ℝ) (hist hist' : TS ℕ → (ℕ → ℝ) → ℕ → ℕ → ℝ)
    (H : ∀ u z, ∀ j < Nt, ∀ d, hist' ⟨Nt, fun t d => a * u t d⟩ (fun d => a * z d) j d = b * hist ⟨Nt, u⟩ z j d) (U : ℕ → ℝ) :
    ∃ F G, jaxAft N m Q T hist U h Nt = .ok F ∧ jaxAft N m Q T hist' (fun i => a * U i) h Nt = .ok G ∧ ∀ i < numCoeff h * N, G i = b * F i := by
  obtain ⟨W, w⟩ := gfc_linear hA (fun k hk => by have := hNt k hk; omega : ∀ k ∈ h, k < Nt)
  have e1 : sampledDisp N Q h (fun i => a * U i) Nt = ⟨Nt, fun t d => a * (sampledDisp N Q h U Nt).val t d⟩ := by
    unfold sampledDisp
    simp only [localMotion_units]
  have e2 : unlOf N Q (fun i => a * U i) 0 = fun d => a * unlOf N Q U 0 d := by
    funext d
    unfold unlOf matMul
    rw [mul_sum]
    exact sum_congr rfl fun e _ => by ring
  obtain ⟨x, x1, -, x2⟩ := w (hist (sampledDisp N Q h U Nt) (unlOf N Q U 0))
  obtain ⟨y, y1, -, y2⟩ := w (hist' (sampledDisp N Q h (fun i => a * U i) Nt) (unlOf N Q (fun i => a * U i) 0))
  refine ⟨_, _, jaxAft_F hA hNt heven hh N m Q T hist U x1, jaxAft_F hA hNt heven hh N m Q T hist' (fun i => a * U i) y1,
    isForceDFT_units hA (isForceDFT_of N m T h Nt _ x x2) (isForceDFT_of N m T h Nt _ y y2) fun j hj d => ?_⟩
  rw [e1, e2]
  exact H _ _ j hj d

theorem sameForce_jax (hh : 1 < numCoeff h) (N m : ℕ) (Q T : ℕ → ℕ → ℝ) (hist hist' : TS ℕ → (ℕ → ℝ) → ℕ → ℕ → ℝ)
    (H : ∀ u z, ∀ j < Nt, ∀ d, hist' ⟨Nt, fun t d => a * u t d⟩ (fun d => a * z d) j d = b * hist ⟨Nt, u⟩ z j d)
    (f g : PForce) (hf : ∀ U w, f.aftF U w h Nt = jaxAft N m Q T hist U h Nt) (hg : ∀ U w, g.aftF U w h Nt = jaxAft N m Q T hist' U h Nt) :
    SameForce f g N a b c h Nt := by
  refine ⟨fun U w e => ?_, fun U w F G e e' => ?_⟩
  · obtain ⟨F, G, h1, h2, -⟩ := jaxAft_units h hA Nt hNt heven a b hh N m Q T hist hist' H U
    rw [hf, hg, h1, h2]
    exact ⟨(fun x => by cases x), (fun x => by cases x)⟩
  · obtain ⟨F', G', h1, h2, h3⟩ := jaxAft_units h hA Nt hNt heven a b hh N m Q T hist hist' H U
    rw [hf] at e
    rw [hg] at e'
    cases h1.symm.trans e
    cases h2.symm.trans e'
    exact h3

end classes

/-! ## The laws -/

/-- C128: the laws of the package, with their parameters converted by dimension. -/
theorem C128_laws (a b c : ℝ) (ha : 0 < a) (hb : 0 < b) (hc : 0 < c) (k N dl : ℕ → ℝ) :
    SameLaw (cubicLoc k) (cubicLoc fun d => b / a ^ 3 * k d) a b c ∧ SameLaw (quinticLoc k) (quinticLoc fun d => b / a ^ 5 * k d) a b c ∧
    SameLaw (cubicDampingLoc k) (cubicDampingLoc fun d => b * c ^ 3 / a ^ 3 * k d) a b c ∧
    SameLaw (unilateralLoc k N dl) (unilateralLoc (fun d => b / a * k d) (fun d => b * N d) fun d => a * dl d) a b c := by
  refine ⟨fun d u v => ?_, fun d u v => ?_, fun d u v => ?_, fun d u v => ?_⟩
  · show b / a ^ 3 * k d * (a * u) ^ 3 = b * (k d * u ^ 3)
    field_simp
  · show b / a ^ 5 * k d * (a * u) ^ 5 = b * (k d * u ^ 5)
    field_simp
  · show b * c ^ 3 / a ^ 3 * k d * (a / c * v) ^ 3 = b * (k d * v ^ 3)
    field_simp
  · show max (b / a * k d * (a * u - a * dl d) - b * N d) (-(b * N d)) = b * max (k d * (u - dl d) - N d) (-N d)
    rw [← max_units hb]
    congr 1
    · field_simp
    · ring

theorem npSign_units {a : ℝ} (ha : 0 < a) (x : ℝ) : npSign (a * x) = npSign x := by
  unfold npSign
  have : a * x < 0 ↔ x < 0 := by
    constructor
    · exact fun h => by_contra fun hx => absurd (mul_nonneg ha.le (not_lt.1 hx)) (not_le.2 h)
    · exact fun h => mul_neg_of_pos_of_neg ha h
  simp only [this, mul_eq_zero, ha.ne', false_or]

theorem npSign_mul_nonneg (x : ℝ) : 0 ≤ npSign x * x := by
  unfold npSign
  split
  · linarith
  · split <;> [simp; linarith]

/-- C128: the conservative Iwan law. -/
theorem C128_iwanBB (a b c : ℝ) (ha : 0 < a) (hb : 0 < b) (p : IwanBB) (hk : 0 < p.kt) (hF : 0 < p.Fs) (hchi : -1 < p.chi) (hbeta : 0 ≤ p.beta) :
    SameLaw (iwanBBLoc p) (iwanBBLoc ⟨b / a * p.kt, b * p.Fs, p.chi, p.beta⟩) a b c := by
  intro d u v
  have h1 : 0 < p.beta + (p.chi + 1) / (p.chi + 2) := by
    have : 0 < (p.chi + 1) / (p.chi + 2) := div_pos (by linarith) (by linarith)
    linarith
  have e1 : IwanBB.phiMax ⟨b / a * p.kt, b * p.Fs, p.chi, p.beta⟩ = a * p.phiMax := by
    unfold IwanBB.phiMax
    simp only
    field_simp
  have e2 : ∀ x, 0 ≤ x → IwanBB.coefE ⟨b / a * p.kt, b * p.Fs, p.chi, p.beta⟩ * (a * x) ^ (2 + p.chi) = b * (p.coefE * x ^ (2 + p.chi)) := by
    intro x hx
    unfold IwanBB.coefE
    simp only
    have e3 : b / a * p.kt * (p.beta + (p.chi + 1) / (p.chi + 2)) / (b * p.Fs * (1 + p.beta))
        = a⁻¹ * (p.kt * (p.beta + (p.chi + 1) / (p.chi + 2)) / (p.Fs * (1 + p.beta))) := by field_simp
    have e4 : a ^ ((2 : ℝ) + p.chi) = a * a ^ (1 + p.chi) := by
      rw [show (2 : ℝ) + p.chi = 1 + (1 + p.chi) by ring, Real.rpow_add ha, Real.rpow_one]
    rw [e3, Real.mul_rpow (by positivity) (by positivity), Real.mul_rpow ha.le hx, Real.inv_rpow ha.le, e4]
    have : a ^ (1 + p.chi) ≠ 0 := (Real.rpow_pos_of_pos ha _).ne'
    generalize a ^ (1 + p.chi) = A at this
    field_simp
  have e5 : npSign (a * u) * (a * u) = a * (npSign u * u) := by rw [npSign_units ha]; ring
  show ((b / a * p.kt * (npSign (a * u) * (a * u)) - IwanBB.coefE ⟨b / a * p.kt, b * p.Fs, p.chi, p.beta⟩ * (npSign (a * u) * (a * u)) ^ (2 + p.chi))
      * mask (npSign (a * u) * (a * u) < IwanBB.phiMax ⟨b / a * p.kt, b * p.Fs, p.chi, p.beta⟩)
      + b * p.Fs * mask (npSign (a * u) * (a * u) ≥ IwanBB.phiMax ⟨b / a * p.kt, b * p.Fs, p.chi, p.beta⟩)) * npSign (a * u)
    = b * (((p.kt * (npSign u * u) - p.coefE * (npSign u * u) ^ (2 + p.chi)) * mask (npSign u * u < p.phiMax)
      + p.Fs * mask (npSign u * u ≥ p.phiMax)) * npSign u)
  rw [e5, e2 _ (npSign_mul_nonneg u), e1, npSign_units ha]
  have m1 : mask (a * (npSign u * u) < a * p.phiMax) = mask (npSign u * u < p.phiMax) := by
    unfold mask; simp only [mul_lt_mul_iff_right₀ ha]
  have m2 : mask (a * (npSign u * u) ≥ a * p.phiMax) = mask (npSign u * u ≥ p.phiMax) := by
    unfold mask; simp only [ge_iff_le, mul_le_mul_iff_right₀ ha]
  rw [m1, m2]
  have e6 : b / a * p.kt * (a * (npSign u * u)) = b * (p.kt * (npSign u * u)) := by field_simp
  rw [e6]
  ring

/-! ## Loops of the JAX classes -/

theorem foriLoop_rel {α β : Type} (R : α → β → Prop) (f : α → ℕ → α) (g : β → ℕ → β) (n : ℕ) (hfg : ∀ x y i, i < n → R x y → R (f x i) (g y i))
    {x : α} {y : β} (h : R x y) : R (foriLoop f n x) (foriLoop g n y) := by
  unfold foriLoop
  have : ∀ l : List ℕ, (∀ i ∈ l, i < n) → ∀ x y, R x y → R (l.foldl f x) (l.foldl g y) := by
    intro l
    induction l with
    | nil => exact fun _ x y h => h
    | cons i l ih =>
      exact fun hl x y h => ih (fun j hj => hl j (List.mem_cons_of_mem _ hj)) _ _ (hfg x y i (hl i List.mem_cons_self) h)
  exact this _ (fun i hi => List.mem_range.1 hi) x y h

theorem jaxJenkins_units {a b : ℝ} (ha : 0 < a) (hb : 0 < b) (Nt : ℕ) (u : ℕ → ℝ) (kt Fs u0 : ℝ) :
    jaxJenkinsHistory Nt (fun j => a * u j) (b / a * kt) (b * Fs) (a * u0) = fun j => b * jaxJenkinsHistory Nt u kt Fs u0 j := by
  have step : ∀ (x y : ℕ → ℝ) (i : ℕ), i < Nt → (y = fun j => b * x j) →
      jaxJenkinsBody Nt (fun j => a * u j) (b / a * kt) (b * Fs) y i = fun j => b * jaxJenkinsBody Nt u kt Fs x i j := by
    rintro x _ i - rfl
    funext j
    simp only [jaxJenkinsBody, setRow]
    split
    · rw [show -(b * Fs) = b * (-Fs) by ring, show b / a * kt * (a * u i - a * u (prevIdx Nt i)) + b * x (prevIdx Nt i)
        = b * (kt * (u i - u (prevIdx Nt i)) + x (prevIdx Nt i)) by field_simp, min_units hb, max_units hb]
    · rfl
  unfold jaxJenkinsHistory
  refine foriLoop_rel (fun x y : ℕ → ℝ => y = fun j => b * x j) _ _ Nt step (foriLoop_rel (fun x y : ℕ → ℝ => y = fun j => b * x j) _ _ Nt step ?_)
  funext j
  simp only [setRow]
  split
  · field_simp
  · simp

theorem edfNormal_units {a b : ℝ} (ha : 0 < a) (hb : 0 < b) (kn gap u : ℝ) : edfNormal (b / a * kn) (a * gap) (a * u) = b * edfNormal kn gap u := by
  unfold edfNormal
  rw [show (a * u - a * gap) * (b / a * kn) = b * ((u - gap) * kn) by field_simp, show (0:ℝ) = b * 0 by ring, max_units hb, mul_zero]

theorem edf2_units {a b : ℝ} (ha : 0 < a) (hb : 0 < b) (Nt : ℕ) (u : ℕ → ℕ → ℝ) (kt kn mu gap : ℝ) (u0 : ℕ → ℝ) :
    edf2History Nt (fun t d => a * u t d) (b / a * kt) (b / a * kn) mu (a * gap) (fun e => a * u0 e)
      = fun t d => b * edf2History Nt u kt kn mu gap u0 t d := by
  have step : ∀ (x y : ℕ → ℕ → ℝ) (i : ℕ), i < Nt → (y = fun t d => b * x t d) →
      edf2Body Nt (fun t d => a * u t d) (b / a * kt) mu y i = fun t d => b * edf2Body Nt u kt mu x i t d := by
    rintro x _ i - rfl
    funext j d
    simp only [edf2Body, setRow]
    split
    · beta_reduce
      split
      · rw [show -mu * (b * x i (d + 1)) = b * (-mu * x i (d + 1)) by ring, show mu * (b * x i (d + 1)) = b * (mu * x i (d + 1)) by ring,
          show b / a * kt * (a * u i d - a * u (prevIdx Nt i) d) + b * x (prevIdx Nt i) d
            = b * (kt * (u i d - u (prevIdx Nt i) d) + x (prevIdx Nt i) d) by field_simp, min_units hb, max_units hb]
      · rfl
    · rfl
  unfold edf2History
  refine foriLoop_rel (fun x y : ℕ → ℕ → ℝ => y = fun t d => b * x t d) _ _ Nt step (foriLoop_rel (fun x y : ℕ → ℕ → ℝ => y = fun t d => b * x t d) _ _ Nt step ?_)
  funext t d
  simp only [edf2Start, edfNormal_units ha hb]
  split
  · split
    · field_simp
    · simp
  · rfl

theorem edf3_units {a b : ℝ} (ha : 0 < a) (hb : 0 < b) (Nt : ℕ) (u : ℕ → ℕ → ℝ) (kt kn mu gap : ℝ) (u0 : ℕ → ℝ) :
    edf3History Nt (fun t d => a * u t d) (b / a * kt) (b / a * kn) mu (a * gap) (fun e => a * u0 e)
      = fun t d => b * edf3History Nt u kt kn mu gap u0 t d := by
  have step : ∀ (x y : ℕ → ℕ → ℝ) (i : ℕ), i < Nt → (y = fun t d => b * x t d) →
      edf3Body Nt (fun t d => a * u t d) (b / a * kt) mu y i = fun t d => b * edf3Body Nt u kt mu x i t d := by
    rintro x _ i - rfl
    funext j d
    simp only [edf3Body, setRow]
    split
    · beta_reduce
      split
      · rw [show -mu * (b * x i (edf3Normal d)) = b * (-mu * x i (edf3Normal d)) by ring,
          show mu * (b * x i (edf3Normal d)) = b * (mu * x i (edf3Normal d)) by ring,
          show b / a * kt * (a * u i d - a * u (prevIdx Nt i) d) + b * x (prevIdx Nt i) d
            = b * (kt * (u i d - u (prevIdx Nt i) d) + x (prevIdx Nt i) d) by field_simp, min_units hb, max_units hb]
      · rfl
    · rfl
  unfold edf3History
  refine foriLoop_rel (fun x y : ℕ → ℕ → ℝ => y = fun t d => b * x t d) _ _ Nt step (foriLoop_rel (fun x y : ℕ → ℕ → ℝ => y = fun t d => b * x t d) _ _ Nt step ?_)
  funext t d
  simp only [edf3Start, edfNormal_units ha hb]
  split
  · split
    · field_simp
    · simp
  · rfl

/-- The attribute `u0` in new units. -/
def EdfU0.units (a : ℝ) : EdfU0 → EdfU0
  | .none => .none
  | .scalar x => .scalar (a * x)
  | .array v => .array fun d => a * v d

section jax

variable (h : List ℕ) (hA : Admissible h) (Nt : ℕ) (hNt : ∀ k ∈ h, 2*k + 1 < Nt) (heven : Even Nt) (a b c : ℝ) (ha : 0 < a) (hb : 0 < b)
include hA hNt heven ha hb

/-- C128: the Jenkins element and elastic dry friction of JAX. -/
theorem C128_jax (hh : 1 < numCoeff h) (N m : ℕ) (Q T : ℕ → ℕ → ℝ) (kt kn mu gap Fs : ℝ) (u0 : EdfU0) :
    SameForce (.jaxJenkins N Q T kt Fs u0) (.jaxJenkins N Q T (b / a * kt) (b * Fs) (u0.units a)) N a b c h Nt ∧
    SameForce (.edf2 N m Q T kt kn mu gap u0) (.edf2 N m Q T (b / a * kt) (b / a * kn) mu (a * gap) (u0.units a)) N a b c h Nt ∧
    SameForce (.edf3 N m Q T kt kn mu gap u0) (.edf3 N m Q T (b / a * kt) (b / a * kn) mu (a * gap) (u0.units a)) N a b c h Nt := by
  refine ⟨?_, ?_, ?_⟩
  · refine sameForce_jax h hA Nt hNt heven a b c hh N 1 Q T (fun u z j _ => jaxJenkinsHistory u.rows (fun j => u.val j 0) kt Fs (jaxStart u0 z) j)
      (fun u z j _ => jaxJenkinsHistory u.rows (fun j => u.val j 0) (b / a * kt) (b * Fs) (jaxStart (u0.units a) z) j)
      (fun u z j _ d => ?_) _ _ (fun _ _ => rfl) (fun _ _ => rfl)
    have e : jaxStart (u0.units a) (fun d => a * z d) = a * jaxStart u0 z := by cases u0 <;> rfl
    rw [e]
    exact congrFun (jaxJenkins_units ha hb Nt (fun j => u j 0) kt Fs (jaxStart u0 z)) j
  · refine sameForce_jax h hA Nt hNt heven a b c hh N m Q T (fun u z => edf2History u.rows u.val kt kn mu gap (edf2AftU0 u0 z))
      (fun u z => edf2History u.rows u.val (b / a * kt) (b / a * kn) mu (a * gap) (edf2AftU0 (u0.units a) z))
      (fun u z j _ d => ?_) _ _ (fun _ _ => rfl) (fun _ _ => rfl)
    have e : edf2AftU0 (u0.units a) (fun d => a * z d) = fun e => a * edf2AftU0 u0 z e := by cases u0 <;> rfl
    rw [e]
    exact congrFun (congrFun (edf2_units ha hb Nt u kt kn mu gap (edf2AftU0 u0 z)) j) d
  · refine sameForce_jax h hA Nt hNt heven a b c hh N m Q T (fun u z => edf3History u.rows u.val kt kn mu gap (edf3AftU0 u0 z))
      (fun u z => edf3History u.rows u.val (b / a * kt) (b / a * kn) mu (a * gap) (edf3AftU0 (u0.units a) z))
      (fun u z j _ d => ?_) _ _ (fun _ _ => rfl) (fun _ _ => rfl)
    have e : edf3AftU0 (u0.units a) (fun d => a * z d) = fun e => a * edf3AftU0 u0 z e := by cases u0 <;> rfl
    rw [e]
    exact congrFun (congrFun (edf3_units ha hb Nt u kt kn mu gap (edf3AftU0 u0 z)) j) d

end jax

/-! ## The systems -/

/-- C128: how the force of a class enters a system. -/
theorem C128_system {h : List ℕ} {N Nt : ℕ} {tol a b c : ℝ} (ha : 0 < a) (hc : 0 < c) (f g : NLForce) (p q : PForce)
    (hfp : ∀ U w, aftForce (f.aft U w h Nt tol) = p.aftF U w h Nt) (hgq : ∀ U w, aftForce (g.aft U w h Nt tol) = q.aftF U w h Nt)
    (hp : ∀ U w, ∃ F, p.aftF U w h Nt = .ok F) (H : SameForce p q N a b c h Nt) : SameNL f g N a b c h Nt tol := by
  have ok : ∀ {x : Except Err AftOut} {F : ℕ → ℝ}, aftForce x = .ok F → ∃ o, x = .ok o ∧ o.F = F := by
    intro x F hx
    cases x with
    | error e => simp [aftForce] at hx
    | ok o => exact ⟨o, rfl, by simpa [aftForce] using hx⟩
  have back : ∀ V w, q.aftF V w h Nt = q.aftF (fun i => a * (fun i => V i / a) i) (w * c / c) h Nt := fun V w => by
    congr 1
    · funext i; field_simp
    · field_simp
  refine ⟨fun U w => ?_, fun V w => ?_, fun U w o o' e e' => ?_⟩
  · obtain ⟨F, hF⟩ := hp U w
    obtain ⟨o, ho, -⟩ := ok ((hfp U w).trans hF)
    exact ⟨o, ho⟩
  · obtain ⟨F, hF⟩ := hp (fun i => V i / a) (w * c)
    cases hqe : q.aftF V w h Nt with
    | error e =>
      rw [back V w] at hqe
      rw [(H.raises _ _ e).2 hqe] at hF
      cases hF
    | ok G =>
      obtain ⟨o, ho, -⟩ := ok ((hgq V w).trans hqe)
      exact ⟨o, ho⟩
  · exact H.scale U w _ _ (by rw [← hfp, e]; rfl) (by rw [← hgq, e']; rfl)

theorem SameNL.val {f g : NLForce} {N : ℕ} {a b c : ℝ} {h : List ℕ} {Nt : ℕ} {tol : ℝ} (H : SameNL f g N a b c h Nt tol) :
    (∀ U w, f.aft U w h Nt tol = .ok (aftVal h Nt tol f U w)) ∧ ∀ U w, g.aft U w h Nt tol = .ok (aftVal h Nt tol g U w) := by
  constructor
  · intro U w
    obtain ⟨o, h1⟩ := H.left U w
    simp only [aftVal, h1]
  · intro U w
    obtain ⟨o, h1⟩ := H.right U w
    simp only [aftVal, h1]

theorem SameSystem.val {S S' : VibSys} {a b c : ℝ} {h : List ℕ} {Nt : ℕ} {tol : ℝ} (H : SameSystem S S' a b c h Nt tol) :
    (∀ f ∈ S.forces, ∀ U w, f.aft U w h Nt tol = .ok (aftVal h Nt tol f U w)) ∧
    ∀ f ∈ S'.forces, ∀ U w, f.aft U w h Nt tol = .ok (aftVal h Nt tol f U w) := by
  have := H.forces
  revert this
  generalize S.forces = l
  generalize S'.forces = l'
  intro this
  induction this with
  | nil => simp
  | cons hd _ ih =>
    refine ⟨fun f hf => ?_, fun f hf => ?_⟩
    · rcases List.mem_cons.1 hf with rfl | hf
      · exact hd.val.1
      · exact ih.1 f hf
    · rcases List.mem_cons.1 hf with rfl | hf
      · exact hd.val.2
      · exact ih.2 f hf

theorem forces_units {n : ℕ} {a b c : ℝ} {h : List ℕ} {Nt : ℕ} {tol : ℝ} (U : ℕ → ℝ) (w : ℝ) {d : ℕ} (hd : d < n) (k : ℕ) {l l' : List NLForce}
    (H : List.Forall₂ (fun f g => SameNL f g n a b c h Nt tol) l l') :
    (l'.map fun g => coefOf h (fun r => (aftVal h Nt tol g (fun i => a * U i) (w / c)).F (r * n + d)) k).sum
      = b • (l.map fun f => coefOf h (fun r => (aftVal h Nt tol f U w).F (r * n + d)) k).sum := by
  induction H with
  | nil => simp
  | cons hf _ ih =>
    simp only [List.map_cons, List.sum_cons, smul_add, ih]
    congr 1
    rw [← coefOf_units]
    exact coefOf_rows (fun r hr => hf.scale U w _ _ (hf.val.1 U w) (hf.val.2 _ _) _ (row_lt hr hd)) k

theorem dynCoef_units {n : ℕ} {M C K M' C' K' : ℕ → ℕ → ℝ} {a b c : ℝ} (ha : 0 < a) (hc : 0 < c) {d : ℕ}
    (hM : ∀ j < n, M' d j = b * c ^ 2 / a * M d j) (hC : ∀ j < n, C' d j = b * c / a * C d j) (hK : ∀ j < n, K' d j = b / a * K d j)
    (w : ℝ) (k : ℕ) (p : ℕ → ℝ × ℝ) : dynCoef n M' C' K' (w / c) k (fun e => a • p e) d = b • dynCoef n M C K w k p d := by
  refine Prod.ext ?_ ?_
  · show ∑ e ∈ range n, ((k * (w / c)) * C' d e * (a * (p e).2) + (K' d e - (k * (w / c)) ^ 2 * M' d e) * (a * (p e).1))
      = b * ∑ e ∈ range n, ((k * w) * C d e * (p e).2 + (K d e - (k * w) ^ 2 * M d e) * (p e).1)
    rw [mul_sum]
    refine sum_congr rfl fun e he => ?_
    rw [hM e (mem_range.1 he), hC e (mem_range.1 he), hK e (mem_range.1 he)]
    field_simp
  · show ∑ e ∈ range n, (-((k * (w / c)) * C' d e * (a * (p e).1)) + (K' d e - (k * (w / c)) ^ 2 * M' d e) * (a * (p e).2))
      = b * ∑ e ∈ range n, (-((k * w) * C d e * (p e).1) + (K d e - (k * w) ^ 2 * M d e) * (p e).2)
    rw [mul_sum]
    refine sum_congr rfl fun e he => ?_
    rw [hM e (mem_range.1 he), hC e (mem_range.1 he), hK e (mem_range.1 he)]
    field_simp

theorem hbmG_units {S S' : VibSys} {a b c : ℝ} (ha : 0 < a) (hc : 0 < c) {h : List ℕ} (hA : Admissible h) {Nt : ℕ} {tol : ℝ}
    (H : SameSystem S S' a b c h Nt tol) {Z Z' : ℕ → ℝ} (hZ : ∀ i < numCoeff h * S.nd, Z' i = a * Z i)
    (hw : Z' (numCoeff h * S.nd) = Z (numCoeff h * S.nd) / c) :
    ∀ i < numCoeff h * S.nd, hbmG S' (aftVal h Nt tol) h Z' i = b * hbmG S (aftVal h Nt tol) h Z i := by
  refine eq_of_coefOf hA (nd := S.nd) (G := fun i => b * hbmG S (aftVal h Nt tol) h Z i) fun d hd k hk => ?_
  have e0 := coefOf_hbmG S' hA (aftVal h Nt tol) Z' (d := d) (by rw [H.dofs]; exact hd) hk
  rw [H.dofs] at e0
  have es : sl 0 (numCoeff h * S.nd) Z' = fun i => a * sl 0 (numCoeff h * S.nd) Z i := by
    funext i
    unfold sl
    by_cases hi : i < numCoeff h * S.nd
    · simp only [Nat.sub_zero, hi, if_true, zero_add, hZ i hi]
    · simp only [Nat.sub_zero, hi, if_false, mul_zero]
  rw [e0, coefOf_units, coefOf_hbmG S hA _ Z hd hk, smul_add, hw, es, forces_units _ _ hd k H.forces]
  congr 1
  rw [← dynCoef_units ha hc (H.mass d hd) (H.damp d hd) (H.stiff d hd)]
  refine dynCoef_congr (fun e he => ?_) d
  rw [← coefOf_units]
  exact coefOf_rows (fun r hr => hZ _ (row_lt hr he)) k

/-- C128: the residual of harmonic balance in new units is the residual in old units, converted like a force. -/
theorem C128_hbm (S S' : VibSys) (a b c : ℝ) (ha : 0 < a) (hc : 0 < c) (h : List ℕ) (hA : Admissible h) (Nt : ℕ) (tol : ℝ)
    (H : SameSystem S S' a b c h Nt tol) (Z Z' Fl Fl' : ℕ → ℝ) (hZ : ∀ i < numCoeff h * S.nd, Z' i = a * Z i)
    (hw : Z' (numCoeff h * S.nd) = Z (numCoeff h * S.nd) / c) (hF : ∀ i < numCoeff h * S.nd, Fl' i = b * Fl i) :
    ∃ o o', hbmRes S Z Fl h Nt tol true = .ok o ∧ hbmRes S' Z' Fl' h Nt tol true = .ok o' ∧ ∀ i < numCoeff h * S.nd, o'.R i = b * o.R i := by
  refine ⟨_, _, hbmRes_ok S hA Nt tol _ H.val.1 Z Fl, hbmRes_ok S' hA Nt tol _ H.val.2 Z' Fl', fun i hi => ?_⟩
  show hbmG _ _ _ _ _ - _ = b * (hbmG _ _ _ _ _ - _)
  rw [hbmG_units ha hc hA H hZ hw i hi, hF i hi, mul_sub]

theorem quad_units {n : ℕ} {M M' : ℕ → ℕ → ℝ} {mu s : ℝ} (hM : ∀ i < n, ∀ j < n, M' i j = mu * M i j) {X X' : ℕ → ℝ} {p : ℕ}
    (hX : ∀ i < n, X' (p * n + i) = s * X (p * n + i)) : quad n M' p X' = mu * s ^ 2 * quad n M p X := by
  unfold quad ctrl
  rw [mul_sum]
  refine sum_congr rfl fun i hi => ?_
  rw [hX i (mem_range.1 hi), mul_sum, mul_sum, mul_sum]
  refine sum_congr rfl fun j hj => ?_
  rw [hX j (mem_range.1 hj), hM i (mem_range.1 hi) j (mem_range.1 hj)]
  ring

/-- C128: the extended periodic motion concept. The shape has modal mass one, so it is converted with `s`, where `s²` times the unit of
mass is one; the amplitude takes the rest. The balance of forces is converted like a force, the modal mass does not change. -/
theorem C128_epmc (S S' : VibSys) (a b c s : ℝ) (ha : 0 < a) (hc : 0 < c) (hs : b * c ^ 2 / a * s ^ 2 = 1) (h : List ℕ) (hA : Admissible h)
    (h1 : FirstIsOne h) (Nt : ℕ) (tol : ℝ) (H : SameSystem S S' a b c h Nt tol) (X X' Fl Fl' : ℕ → ℝ)
    (hX : ∀ i < numCoeff h * S.nd, X' i = (if i < zi h * S.nd then a else s) * X i)
    (hw : X' (numCoeff h * S.nd) = X (numCoeff h * S.nd) / c) (hxi : X' (numCoeff h * S.nd + 1) = X (numCoeff h * S.nd + 1) / c)
    (hla : (10:ℝ) ^ X' (numCoeff h * S.nd + 2) * s = a * (10:ℝ) ^ X (numCoeff h * S.nd + 2))
    (hF : ∀ i < numCoeff h * S.nd, Fl' i = b * Fl i) :
    ∃ o o', epmcRes S X Fl h Nt tol true = .ok o ∧ epmcRes S' X' Fl' h Nt tol true = .ok o' ∧
      (∀ i < numCoeff h * S.nd, o'.R i = b * o.R i) ∧ o'.R (numCoeff h * S.nd) = o.R (numCoeff h * S.nd) ∧
      o'.R (numCoeff h * S.nd + 1) = b * s * o.R (numCoeff h * S.nd + 1) := by
  have hp : zi h + 2 ≤ numCoeff h := by obtain ⟨t, rfl | rfl⟩ := h1 <;> (simp [zi, numCoeff]; try omega)
  obtain ⟨R, J, d, l1, l2, l3, l4, -⟩ := epmc_ok S hA hp Nt tol _ H.val.1 X Fl rfl
  obtain ⟨R', J', d', k1, k2, k3, k4, -⟩ := epmc_ok S' hA hp Nt tol _ H.val.2 X' Fl' rfl
  have hn := H.dofs
  rw [hn] at k2 k3 k4
  have zrow : ∀ {x y : ℝ} {i : ℕ}, i < numCoeff h * S.nd → harmScale (zi h) S.nd x y i = if i < zi h * S.nd then x else y := by
    intro x y i hi
    unfold harmScale
    have hnd : 0 < S.nd := Nat.pos_of_ne_zero fun e => by simp [e] at hi
    simp only [Nat.div_lt_iff_lt_mul hnd]
  have HS : SameSystem (selfExcited S (X (numCoeff h * S.nd + 1))) (selfExcited S' (X' (numCoeff h * S.nd + 1))) a b c h Nt tol := by
    refine ⟨H.dofs, H.mass, fun i hi j hj => ?_, H.stiff, H.forces⟩
    show S'.C i j - _ * S'.M i j = b * c / a * (S.C i j - _ * S.M i j)
    rw [H.damp i hi j hj, H.mass i hi j hj, hxi]
    field_simp
  have HZ : ∀ i < numCoeff h * S.nd, epmcZ S' h X' i = a * epmcZ S h X i := by
    intro i hi
    simp only [epmcZ, hcat, epmcU, hn, hi, if_true, sl_zero hi, hX i hi, zrow hi]
    split
    · ring
    · rw [← mul_assoc, hla, mul_assoc]
  have g := hbmG_units ha hc hA HS HZ (by
    show epmcZ S' h X' (numCoeff h * S.nd) = epmcZ S h X (numCoeff h * S.nd) / c
    have := epmcZ_at S' h X'
    rw [hn] at this
    rw [this, epmcZ_at, hw])
  have hrow : ∀ p, zi h ≤ p → p < numCoeff h → ∀ i < S.nd, X' (p * S.nd + i) = s * X (p * S.nd + i) := by
    intro p hp1 hp2 i hi
    rw [hX _ (row_lt hp2 hi), if_neg]
    have := Nat.mul_le_mul_right S.nd hp1
    omega
  refine ⟨_, _, l1, k1, fun i hi => ?_, ?_, ?_⟩
  · show R' i = b * R i
    rw [k2 i hi, l2 i hi, hF i hi, mul_sub]
    congr 1
    · exact g i hi
    · ring
  · show R' _ = R _
    rw [k3, l3, quad_units H.mass (hrow _ le_rfl (by omega)), quad_units H.mass (hrow _ (by omega) (by omega)), hs, one_mul, one_mul]
  · show R' _ = b * s * R _
    rw [k4, l4, mul_sum]
    refine sum_congr rfl fun i hi => ?_
    have hi := mem_range.1 hi
    rw [hF i hi, hX i hi, zrow hi]
    split
    · ring
    · ring

/-- The hypotheses of C128 are met: a mass on a cubic spring, with lengths in millimetres instead of metres, forces in kilonewtons instead of
newtons and times in milliseconds instead of seconds. -/
example (tol u v w f : ℝ) :
    ∃ o o', hbmRes ⟨1, fun _ _ => 2, fun _ _ => 3, fun _ _ => 5, none, [cubicNL 1 1 (fun _ _ => 1) (fun _ _ => 1) (fun _ => 7)]⟩
        (fun i => if i = 0 then u else if i = 1 then v else w) (fun i => if i = 0 then f else 0) [1] 16 tol true = .ok o ∧
      hbmRes ⟨1, fun _ _ => 2, fun _ _ => 3 / 10^6, fun _ _ => 5 / 10^3, none, [cubicNL 1 1 (fun _ _ => 1) (fun _ _ => 1) (fun _ => 7 / 10^12)]⟩
        (fun i => if i = 0 then 1000 * u else if i = 1 then 1000 * v else w / 1000) (fun i => if i = 0 then f / 1000 else 0) [1] 16 tol true = .ok o' ∧
      ∀ i < numCoeff [1] * 1, o'.R i = 1 / 1000 * o.R i := by
  have a1 : Admissible [1] := ⟨by simp, by decide, by decide⟩
  refine C128_hbm ⟨1, fun _ _ => 2, fun _ _ => 3, fun _ _ => 5, none, [cubicNL 1 1 (fun _ _ => 1) (fun _ _ => 1) (fun _ => 7)]⟩
    ⟨1, fun _ _ => 2, fun _ _ => 3 / 10^6, fun _ _ => 5 / 10^3, none, [cubicNL 1 1 (fun _ _ => 1) (fun _ _ => 1) (fun _ => 7 / 10^12)]⟩ 1000 (1/1000) 1000 (by norm_num) (by norm_num) [1] a1 16 tol ⟨rfl, ?_, ?_, ?_, ?_⟩ _ _ _ _ ?_ ?_ ?_
  · intro i _ j _
    norm_num
  · intro i _ j _
    norm_num
  · intro i _ j _
    norm_num
  · refine List.Forall₂.cons (C128_system (by norm_num) (by norm_num) _ _ (.inst 1 1 (fun _ _ => 1) (fun _ _ => 1) (cubicLoc fun _ => 7))
      (.inst 1 1 (fun _ _ => 1) (fun _ _ => 1) (cubicLoc fun _ => 7 / 10^12)) (fun _ _ => rfl) (fun _ _ => rfl) (fun U w => ?_) ?_) List.Forall₂.nil
    · obtain ⟨o, h1, -⟩ := C24_is_dft [1] a1 16 (by decide) ⟨8, rfl⟩ 1 1 (fun _ _ => 1) (fun _ _ => 1) (cubicLoc fun _ => 7) U w
      refine ⟨o.F, ?_⟩
      show aftForce (instAft _ _ _ _ _ U w [1] 16) = _
      rw [h1]; rfl
    · refine C128_instantaneous [1] a1 16 (by decide) ⟨8, rfl⟩ _ _ _ 1 1 _ _ _ _ ?_
      have := (C128_laws 1000 (1/1000) 1000 (by norm_num) (by norm_num) (by norm_num) (fun _ => 7) (fun _ => 0) (fun _ => 0)).1
      rwa [show (fun _ : ℕ => (1:ℝ) / 1000 / 1000 ^ 3 * 7) = fun _ => 7 / 10^12 by funext; norm_num] at this
  · intro i hi
    have hi : i < 2 := hi
    interval_cases i <;> simp
  · simp [numCoeff]
  · intro i hi
    have hi : i < 2 := hi
    interval_cases i
    · simp only [if_true]
      ring
    · simp

end

end TMD
