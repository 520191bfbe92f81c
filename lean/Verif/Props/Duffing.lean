import Verif.Props.BoundedResponse

/-!
# C147: the resonance curve of a Duffing oscillator
-/

namespace TMD

open Spec Finset

noncomputable section

/-- An oscillator with the mass `m`, the damping `c` and the spring force `k x + α x³`. -/
def duffingSys (m c k α : ℝ) : VibSys := ⟨1, fun _ _ => m, fun _ _ => k, fun _ _ => c, none, [cubicNL 1 1 (fun _ _ => 1) (fun _ _ => 1) fun _ => α]⟩

variable {m c k α tol : ℝ} {Fl : ℕ → ℝ} {Nt : ℕ}

theorem adm1 : Admissible [1] := ⟨by simp, by simp, by simp⟩

theorem cubic_fourier (α a b : ℝ) {Nt : ℕ} (hN : 4 < Nt) :
    dft Nt (fun j => α * (a * Real.cos (2 * Real.pi * j / Nt) + b * Real.sin (2 * Real.pi * j / Nt)) ^ 3) 1
      = (3 / 4 * α * (a ^ 2 + b ^ 2) * a, 3 / 4 * α * (a ^ 2 + b ^ 2) * b) := by
  have e : (fun τ => α * (a * Real.cos τ + b * Real.sin τ) ^ 3) = series [1, 3] (fun i => if i = 0 then 3 / 4 * α * (a ^ 2 + b ^ 2) * a else if i = 1 then 3 / 4 * α * (a ^ 2 + b ^ 2) * b
      else if i = 2 then α * (a ^ 3 - 3 * a * b ^ 2) / 4 else α * (3 * a ^ 2 * b - b ^ 3) / 4) := by
    funext τ
    have h1 := Real.cos_three_mul τ
    have h2 := Real.sin_three_mul τ
    have h3 := Real.sin_sq_add_cos_sq τ
    simp only [series, one_ne_zero, OfNat.ofNat_ne_zero, if_false, if_true, Nat.cast_one, one_mul, Nat.cast_ofNat, h1, h2]
    norm_num
    have h4 : Real.sin τ ^ 2 = 1 - Real.cos τ ^ 2 := by linarith
    have h5 : Real.sin τ ^ 3 = Real.sin τ * (1 - Real.cos τ ^ 2) := by rw [← h4]; ring
    have h6 : (a * Real.cos τ + b * Real.sin τ) ^ 3 = a ^ 3 * Real.cos τ ^ 3 + 3 * a ^ 2 * b * Real.cos τ ^ 2 * Real.sin τ + 3 * a * b ^ 2 * Real.cos τ * Real.sin τ ^ 2 + b ^ 3 * Real.sin τ ^ 3 := by ring
    rw [h6, h5, h4]
    ring
  have ht : Trig 3 (fun τ => α * (a * Real.cos τ + b * Real.sin τ) ^ 3) := by
    have h1 : Trig 1 (fun τ => a * Real.cos τ + b * Real.sin τ) := by
      have := (Trig.cos (D := 1) 1 le_rfl).smul a |>.add ((Trig.sin (D := 1) 1 le_rfl).smul b)
      simpa using this
    exact (h1.pow 3).smul α
  have h1 := ht.dft_eq (N := Nt) (k := 1) (by omega)
  have h2 := ht.dft_eq (N := 8) (k := 1) (by norm_num)
  refine h1.trans ?_
  rw [← h2]
  have h3 := coefOf_dft (h := [1, 3]) ⟨by simp, by decide, by decide⟩ (N := 8) (by simp) (fun i => if i = 0 then 3 / 4 * α * (a ^ 2 + b ^ 2) * a else if i = 1 then 3 / 4 * α * (a ^ 2 + b ^ 2) * b
      else if i = 2 then α * (a ^ 3 - 3 * a * b ^ 2) / 4 else α * (3 * a ^ 2 * b - b ^ 3) / 4) (k := 1) (by simp)
  rw [← e] at h3
  rw [← h3]
  simp [coefOf]

theorem duffing_aft (hN : 4 < Nt) (heven : Even Nt) (U : ℕ → ℝ) (w : ℝ) :
    (aftVal [1] Nt tol (cubicNL 1 1 (fun _ _ => 1) (fun _ _ => 1) fun _ => α) U w).F 0 = 3 / 4 * α * (U 0 ^ 2 + U 1 ^ 2) * U 0 ∧
    (aftVal [1] Nt tol (cubicNL 1 1 (fun _ _ => 1) (fun _ _ => 1) fun _ => α) U w).F 1 = 3 / 4 * α * (U 0 ^ 2 + U 1 ^ 2) * U 1 := by
  have h := inst_dft (tol := tol) adm1 (Nt := Nt) (by simp; omega) heven 1 1 (fun _ _ => 1) (fun _ _ => 1) (cubicLoc fun _ => α) (cubicForce 1 1 (fun _ _ => 1) (fun _ _ => 1) fun _ => α) U w 0 (by omega) 1 (by simp)
  have hl : ∀ d, localMotion 1 (fun _ _ => 1) [1] U d = fun τ => U 0 * Real.cos τ + U 1 * Real.sin τ := fun d => by
    funext τ
    simp [localMotion, series]
  simp only [cubicLoc, hl, sum_range_one, one_mul] at h
  rw [cubic_fourier α _ _ hN] at h
  simp [coefOf] at h
  exact h

theorem duffing_G (hN : 4 < Nt) (heven : Even Nt) (X : ℕ → ℝ) :
    hbmG (duffingSys m c k α) (aftVal [1] Nt tol) [1] X 0 = (k - m * X 2 ^ 2 + 3 / 4 * α * (X 0 ^ 2 + X 1 ^ 2)) * X 0 + c * X 2 * X 1 ∧
    hbmG (duffingSys m c k α) (aftVal [1] Nt tol) [1] X 1 = (k - m * X 2 ^ 2 + 3 / 4 * α * (X 0 ^ 2 + X 1 ^ 2)) * X 1 - c * X 2 * X 0 := by
  have e : ∀ i, hbmG (duffingSys m c k α) (aftVal [1] Nt tol) [1] X i = matVec 2 (hsE 1 (fun _ _ => m) (fun _ _ => c) (fun _ _ => k) (X 2) [1] false) (sl 0 2 X) i
      + (aftVal [1] Nt tol (cubicNL 1 1 (fun _ _ => 1) (fun _ _ => 1) fun _ => α) (sl 0 2 X) (X 2)).F i := fun i => by
    simp [hbmG, duffingSys, show numCoeff [1] = 2 from rfl]
  have hcos := hsE_mulVec_cos (nd := 1) (fun _ _ => m) (fun _ _ => c) (fun _ _ => k) (X 2) (h := [1]) (by simp) (i := 0) (by simp [zi]) (d := 0) (by omega) (sl 0 2 X) false
  have hsin := hsE_mulVec_sin (nd := 1) (fun _ _ => m) (fun _ _ => c) (fun _ _ => k) (X 2) (h := [1]) (by simp) (i := 0) (by simp [zi]) (d := 0) (by omega) (sl 0 2 X) false
  obtain ⟨h0, h1⟩ := duffing_aft (tol := tol) (α := α) hN heven (sl 0 2 X) (X 2)
  constructor
  · rw [e, h0]
    refine (congrArg (· + _) hcos).trans ?_
    simp [zi, sl]
    ring
  · rw [e, h1]
    refine (congrArg (· + _) hsin).trans ?_
    simp [zi, sl]
    ring

theorem grad_along {n : ℕ} {f : (ℕ → ℝ) → ℝ} {g x : ℕ → ℝ} (h : HasGrad n f g x) (u : Fin n → ℝ) :
    HasDerivAt (fun t : ℝ => f (fun i => x i + t * Spec.ext u i)) (∑ j : Fin n, g j * u j) 0 := by
  have h1 : HasDerivAt (fun t : ℝ => t • u) u 0 := by simpa using (hasDerivAt_id (0 : ℝ)).smul_const u
  have h2 := HasFDerivAt.comp_hasDerivAt (x := (0 : ℝ)) (f := fun t : ℝ => t • u) (f' := u) (by simpa [HasGrad] using h) h1
  have e : (row n g) u = ∑ j : Fin n, g j * u j := by simp [row]
  rw [e] at h2
  refine h2.congr_of_eventuallyEq (Filter.Eventually.of_forall fun t => ?_)
  simp only [Function.comp]
  congr 1
  funext i
  simp only [Spec.ext]
  split_ifs <;> simp

theorem duffing_smooth (hN : 4 < Nt) : ∀ f ∈ (duffingSys m c k α).forces, IsDamper (duffingSys m c k α).nd f ∨ IsSpring (duffingSys m c k α).nd [1] Nt f := fun f hf =>
  Or.inr (by
    obtain rfl : f = _ := List.mem_singleton.1 hf
    exact C145_cubic 1 1 _ _ (fun _ _ => rfl) (H := 1) (by simp) (by omega) (by simp))

theorem duffing_line (m c k α x0 x1 x2 u0 u1 u2 : ℝ) :
    HasDerivAt (fun t : ℝ => (k - m * (x2 + t * u2) ^ 2 + 3 / 4 * α * ((x0 + t * u0) ^ 2 + (x1 + t * u1) ^ 2)) * (x0 + t * u0) + c * (x2 + t * u2) * (x1 + t * u1))
      ((-(2 * m * x2 * u2) + 3 / 2 * α * (x0 * u0 + x1 * u1)) * x0 + (k - m * x2 ^ 2 + 3 / 4 * α * (x0 ^ 2 + x1 ^ 2)) * u0 + c * u2 * x1 + c * x2 * u1) 0 := by
  have h : ∀ x u : ℝ, HasDerivAt (fun t : ℝ => x + t * u) u 0 := fun x u => by simpa using ((hasDerivAt_id (0 : ℝ)).mul_const u).const_add x
  have h1 := ((((((h x2 u2).pow 2).const_mul m).const_sub k).add ((((h x0 u0).pow 2).add ((h x1 u1).pow 2)).const_mul (3 / 4 * α))).mul (h x0 u0)).add
    (((h x2 u2).const_mul c).mul (h x1 u1))
  refine h1.congr_deriv ?_
  simp
  ring

/-- What the residual function returns for a Duffing oscillator with one harmonic. -/
theorem C147_returned (hN : 4 < Nt) (heven : Even Nt) {X : ℕ → ℝ} (hw : 0 < X 2) :
    ∃ o, hbmFun (duffingSys m c k α) Fl [1] Nt tol X true = .ok o ∧
      o.R 0 = (k - m * X 2 ^ 2 + 3 / 4 * α * (X 0 ^ 2 + X 1 ^ 2)) * X 0 + c * X 2 * X 1 - Fl 0 ∧
      o.R 1 = (k - m * X 2 ^ 2 + 3 / 4 * α * (X 0 ^ 2 + X 1 ^ 2)) * X 1 - c * X 2 * X 0 - Fl 1 ∧
      o.J 0 0 = k - m * X 2 ^ 2 + 3 / 4 * α * (3 * X 0 ^ 2 + X 1 ^ 2) ∧ o.J 0 1 = c * X 2 + 3 / 2 * α * X 0 * X 1 ∧
      o.J 1 0 = -(c * X 2) + 3 / 2 * α * X 0 * X 1 ∧ o.J 1 1 = k - m * X 2 ^ 2 + 3 / 4 * α * (X 0 ^ 2 + 3 * X 1 ^ 2) ∧
      o.d 0 = -(2 * m * X 2 * X 0) + c * X 1 ∧ o.d 1 = -(2 * m * X 2 * X 1) - c * X 0 := by
  have hR := tame_of (S := duffingSys m c k α) (n := 1) (tol := tol) adm1 (by simp) (Nt := Nt) (by simp; omega) heven (duffing_smooth hN)
  have hs := smooth_system (S := duffingSys m c k α) (Fl := Fl) adm1 fun f hf => (hR f hf).smooth
  set v : Fin 3 → ℝ := fun j => X j with hv
  have hve : ∀ i < 3, Spec.ext v i = X i := fun i hi => by simp [Spec.ext, hi, hv]
  have e0 := hve 0 (by omega)
  have e1 := hve 1 (by omega)
  have e2 := hve 2 (by omega)
  have hval := hs.value (Spec.ext v)
  rw [hs.local' (Spec.ext v) X fun i hi => hve i hi] at hval
  have hd := hs.deriv v (by show 0 < v 2; exact hw)
  have g0 := hd 0 (by show 0 < 2; omega)
  have g1 := hd 1 (by show 1 < 2; omega)
  simp only [(duffing_G (m := m) (c := c) (k := k) (α := α) (tol := tol) hN heven _).1] at g0
  simp only [(duffing_G (m := m) (c := c) (k := k) (α := α) (tol := tol) hN heven _).2] at g1
  have key0 : ∀ u : Fin 3 → ℝ, ∑ j : Fin 3, fullJac (N := 2) (hbmJ (duffingSys m c k α) (aftVal [1] Nt tol) [1]) (hbmD (duffingSys m c k α) (aftVal [1] Nt tol) [1]) (Spec.ext v) 0 j * u j
      = (-(2 * m * X 2 * u 2) + 3 / 2 * α * (X 0 * u 0 + X 1 * u 1)) * X 0 + (k - m * X 2 ^ 2 + 3 / 4 * α * (X 0 ^ 2 + X 1 ^ 2)) * u 0 + c * u 2 * X 1 + c * X 2 * u 1 := fun u => by
    have a1 := grad_along (n := 3) g0 u
    have a2 := (duffing_line m c k α (X 0) (X 1) (X 2) (u 0) (u 1) (u 2)).sub_const (Fl 0)
    refine a1.unique (a2.congr_of_eventuallyEq (Filter.Eventually.of_forall fun t => ?_))
    have b0 : Spec.ext u 0 = u 0 := rfl
    have b1 : Spec.ext u 1 = u 1 := rfl
    have b2 : Spec.ext u 2 = u 2 := rfl
    change (k - m * (Spec.ext v 2 + t * Spec.ext u 2) ^ 2 + 3 / 4 * α * ((Spec.ext v 0 + t * Spec.ext u 0) ^ 2 + (Spec.ext v 1 + t * Spec.ext u 1) ^ 2)) * (Spec.ext v 0 + t * Spec.ext u 0)
      + c * (Spec.ext v 2 + t * Spec.ext u 2) * (Spec.ext v 1 + t * Spec.ext u 1) - Fl 0 = _
    simp only [e0, e1, e2, b0, b1, b2]
  have key1 : ∀ u : Fin 3 → ℝ, ∑ j : Fin 3, fullJac (N := 2) (hbmJ (duffingSys m c k α) (aftVal [1] Nt tol) [1]) (hbmD (duffingSys m c k α) (aftVal [1] Nt tol) [1]) (Spec.ext v) 1 j * u j
      = (-(2 * m * X 2 * u 2) + 3 / 2 * α * (X 1 * u 1 + X 0 * u 0)) * X 1 + (k - m * X 2 ^ 2 + 3 / 4 * α * (X 1 ^ 2 + X 0 ^ 2)) * u 1 + -c * u 2 * X 0 + -c * X 2 * u 0 := fun u => by
    have a1 := grad_along (n := 3) g1 u
    have a2 := (duffing_line m (-c) k α (X 1) (X 0) (X 2) (u 1) (u 0) (u 2)).sub_const (Fl 1)
    refine a1.unique (a2.congr_of_eventuallyEq (Filter.Eventually.of_forall fun t => ?_))
    have b0 : Spec.ext u 0 = u 0 := rfl
    have b1 : Spec.ext u 1 = u 1 := rfl
    have b2 : Spec.ext u 2 = u 2 := rfl
    change (k - m * (Spec.ext v 2 + t * Spec.ext u 2) ^ 2 + 3 / 4 * α * ((Spec.ext v 0 + t * Spec.ext u 0) ^ 2 + (Spec.ext v 1 + t * Spec.ext u 1) ^ 2)) * (Spec.ext v 1 + t * Spec.ext u 1)
      - c * (Spec.ext v 2 + t * Spec.ext u 2) * (Spec.ext v 0 + t * Spec.ext u 0) - Fl 1 = _
    simp only [e0, e1, e2, b0, b1, b2]
    ring
  obtain ⟨r0, r1⟩ := duffing_G (m := m) (c := c) (k := k) (α := α) (tol := tol) hN heven (Spec.ext v)
  refine ⟨_, hval, ?_, ?_, ?_, ?_, ?_, ?_, ?_, ?_⟩
  · show hbmG _ _ _ _ 0 - Fl 0 = _
    rw [r0, e0, e1, e2]
  · show hbmG _ _ _ _ 1 - Fl 1 = _
    rw [r1, e0, e1, e2]
  · have := key0 ![1, 0, 0]
    simp [Fin.sum_univ_three, fullJac] at this
    refine this.trans (by ring)
  · have := key0 ![0, 1, 0]
    simp [Fin.sum_univ_three, fullJac] at this
    refine this.trans (by ring)
  · have := key1 ![1, 0, 0]
    simp [Fin.sum_univ_three, fullJac] at this
    refine this.trans (by ring)
  · have := key1 ![0, 1, 0]
    simp [Fin.sum_univ_three, fullJac] at this
    refine this.trans (by ring)
  · have := key0 ![0, 0, 1]
    simp [Fin.sum_univ_three, fullJac] at this
    refine this.trans (by ring)
  · have := key1 ![0, 0, 1]
    simp [Fin.sum_univ_three, fullJac] at this
    refine this.trans (by ring)

/-- Two rows that are not parallel have a one-dimensional null space. -/
theorem curve_of_cross {o : ContOut} (h : o.J 0 0 * o.J 1 1 - o.J 0 1 * o.J 1 0 ≠ 0 ∨ o.J 0 0 * o.d 1 - o.d 0 * o.J 1 0 ≠ 0 ∨ o.J 0 1 * o.d 1 - o.d 0 * o.J 1 1 ≠ 0) : IsCurve 2 o := by
  intro u v hu hv ⟨i, hi, hne⟩
  have a0 := hu 0 (by omega)
  have a1 := hu 1 (by omega)
  have b0 := hv 0 (by omega)
  have b1 := hv 1 (by omega)
  simp only [sum_range_succ, range_zero, sum_empty, zero_add] at a0 a1 b0 b1
  set n0 := o.J 0 1 * o.d 1 - o.d 0 * o.J 1 1 with hn0
  set n1 := -(o.J 0 0 * o.d 1 - o.d 0 * o.J 1 0) with hn1
  set n2 := o.J 0 0 * o.J 1 1 - o.J 0 1 * o.J 1 0 with hn2
  have hq : 0 < n0 ^ 2 + n1 ^ 2 + n2 ^ 2 := by
    rcases h with h | h | h
    · have := pow_pos (abs_pos.2 h) 2; rw [sq_abs] at this; positivity
    · have : n1 ≠ 0 := neg_ne_zero.2 h
      positivity
    · positivity
  have main : ∀ t : ℕ → ℝ, o.J 0 0 * t 0 + o.J 0 1 * t 1 + o.d 0 * t 2 = 0 → o.J 1 0 * t 0 + o.J 1 1 * t 1 + o.d 1 * t 2 = 0 →
      ∃ s : ℝ, t 0 = s * n0 ∧ t 1 = s * n1 ∧ t 2 = s * n2 := fun t h0 h1 => by
    have c1 : t 0 * n1 = t 1 * n0 := by
      rw [hn0, hn1]; linear_combination -o.d 1 * h0 + o.d 0 * h1
    have c2 : t 0 * n2 = t 2 * n0 := by
      rw [hn0, hn2]; linear_combination o.J 1 1 * h0 - o.J 0 1 * h1
    have c3 : t 1 * n2 = t 2 * n1 := by
      rw [hn1, hn2]; linear_combination -o.J 1 0 * h0 + o.J 0 0 * h1
    refine ⟨(t 0 * n0 + t 1 * n1 + t 2 * n2) / (n0 ^ 2 + n1 ^ 2 + n2 ^ 2), ?_, ?_, ?_⟩
    · field_simp
      linear_combination n1 * c1 + n2 * c2
    · field_simp
      linear_combination -n0 * c1 + n2 * c3
    · field_simp
      linear_combination -n0 * c2 - n1 * c3
  obtain ⟨s, s0, s1, s2⟩ := main u a0 a1
  obtain ⟨r, r0, r1, r2⟩ := main v b0 b1
  have hs : s ≠ 0 := by
    rintro rfl
    rw [zero_mul] at s0 s1 s2
    have : i = 0 ∨ i = 1 ∨ i = 2 := by omega
    rcases this with rfl | rfl | rfl <;> exact hne (by assumption)
  refine ⟨r / s, fun j hj => ?_⟩
  have : j = 0 ∨ j = 1 ∨ j = 2 := by omega
  rcases this with rfl | rfl | rfl
  · rw [r0, s0]; field_simp
  · rw [r1, s1]; field_simp
  · rw [r2, s2]; field_simp

theorem duffing_minors {m c k α a b w : ℝ} (hm : 0 ≤ m) (hc : 0 < c) (hα : 0 ≤ α) (hw : 0 < w) (hA : 0 < a ^ 2 + b ^ 2)
    (h2 : (k - m * w ^ 2 + 3 / 4 * α * (3 * a ^ 2 + b ^ 2)) * (k - m * w ^ 2 + 3 / 4 * α * (a ^ 2 + 3 * b ^ 2)) - (c * w + 3 / 2 * α * a * b) * (-(c * w) + 3 / 2 * α * a * b) = 0)
    (h1 : (k - m * w ^ 2 + 3 / 4 * α * (3 * a ^ 2 + b ^ 2)) * (-(2 * m * w * b) - c * a) - (-(2 * m * w * a) + c * b) * (-(c * w) + 3 / 2 * α * a * b) = 0)
    (h0 : (c * w + 3 / 2 * α * a * b) * (-(2 * m * w * b) - c * a) - (-(2 * m * w * a) + c * b) * (k - m * w ^ 2 + 3 / 4 * α * (a ^ 2 + 3 * b ^ 2)) = 0) : False := by
  obtain ⟨y, hy⟩ : ∃ y, y = 3 / 4 * α * (a ^ 2 + b ^ 2) := ⟨_, rfl⟩
  have hy0 : 0 ≤ y := by rw [hy]; positivity
  have e1 : (a ^ 2 + b ^ 2) * w * (2 * m * (k - m * w ^ 2 + y) - c ^ 2) = 0 := by
    rw [hy]; linear_combination -b * h1 + a * h0
  have e2 : (k - m * w ^ 2 + y) * (k - m * w ^ 2 + 3 * y) + c ^ 2 * w ^ 2 = 0 := by
    rw [hy]; linear_combination h2
  have e3 : 2 * m * (k - m * w ^ 2 + y) - c ^ 2 = 0 := by
    rcases mul_eq_zero.1 e1 with h | h
    · exact absurd h (mul_pos hA hw).ne'
    · exact h
  have hc2 : 0 < c ^ 2 := by positivity
  obtain ⟨q, hq⟩ : ∃ q, q = k - m * w ^ 2 + y := ⟨_, rfl⟩
  rw [← hq] at e2 e3
  have hp : 0 < q := by
    by_contra hcon
    have : m * q ≤ 0 := mul_nonpos_of_nonneg_of_nonpos hm (not_lt.1 hcon)
    linarith
  have h3 : 0 < c ^ 2 * w ^ 2 := by positivity
  have h4 : 0 ≤ q * (k - m * w ^ 2 + 3 * y) := mul_nonneg hp.le (by linarith)
  linarith

/-- C147: the response curve of a damped oscillator with a hardening cubic spring is a curve at each of its points. -/
theorem C147_curve (hN : 4 < Nt) (heven : Even Nt) (hm : 0 ≤ m) (hc : 0 < c) (hα : 0 ≤ α) (hF : Fl 0 ≠ 0 ∨ Fl 1 ≠ 0) {X : ℕ → ℝ} (hw : 0 < X 2) {o : ContOut}
    (ho : hbmFun (duffingSys m c k α) Fl [1] Nt tol X true = .ok o) (hR : ∀ i < 2, o.R i = 0) : IsCurve 2 o := by
  obtain ⟨o', ho', R0, R1, J00, J01, J10, J11, d0, d1⟩ := C147_returned (Fl := Fl) (tol := tol) (m := m) (c := c) (k := k) (α := α) hN heven hw
  rw [ho] at ho'
  obtain rfl := Except.ok.inj ho'
  rw [hR 0 (by omega)] at R0
  rw [hR 1 (by omega)] at R1
  have hA : 0 < X 0 ^ 2 + X 1 ^ 2 := by
    by_contra hcon
    have h0 : X 0 = 0 := by nlinarith [sq_nonneg (X 0), sq_nonneg (X 1)]
    have h1 : X 1 = 0 := by nlinarith [sq_nonneg (X 0), sq_nonneg (X 1)]
    rw [h0, h1] at R0 R1
    rcases hF with h | h
    · exact h (by linarith)
    · exact h (by linarith)
  apply curve_of_cross
  rw [J00, J01, J10, J11, d0, d1]
  by_contra hcon
  push Not at hcon
  exact duffing_minors hm hc hα hw hA hcon.1 hcon.2.1 hcon.2.2

/-- The equations of the first harmonic: `a cos τ + b sin τ` at the frequency `w`. -/
def DuffingBalance (m c k α f g a b w : ℝ) : Prop :=
  (k - m * w ^ 2 + 3 / 4 * α * (a ^ 2 + b ^ 2)) * a + c * w * b = f ∧ (k - m * w ^ 2 + 3 / 4 * α * (a ^ 2 + b ^ 2)) * b - c * w * a = g

/-- C147: the zeros of the residual. -/
theorem C147_solution (hN : 4 < Nt) (heven : Even Nt) (w : ℝ) (U : ℕ → ℝ) :
    HBMSolution (duffingSys m c k α) Fl [1] Nt tol w U ↔ DuffingBalance m c k α (Fl 0) (Fl 1) (U 0) (U 1) w := by
  have hR := tame_of (S := duffingSys m c k α) (n := 1) (tol := tol) adm1 (by simp) (Nt := Nt) (by simp; omega) heven (duffing_smooth hN)
  rw [solution_balance adm1 (fun f hf => (hR f hf).smooth.ok)]
  set X : ℕ → ℝ := fun i => if i < 2 then U i else w with hX
  have hb : ∀ i, hbmG (duffingSys m c k α) (aftVal [1] Nt tol) [1] X i = balance (duffingSys m c k α) [1] Nt tol (sl 0 2 U) w i := fun i => by
    have e1 : sl 0 2 X = sl 0 2 U := sl_congr fun k hk => by simp only [hX]; rw [if_pos (by omega)]
    have e2 : X 2 = w := by simp [hX]
    have : hbmG (duffingSys m c k α) (aftVal [1] Nt tol) [1] X i = balance (duffingSys m c k α) [1] Nt tol (sl 0 2 X) (X 2) i := rfl
    rw [this, e1, e2]
  obtain ⟨h0, h1⟩ := duffing_G (m := m) (c := c) (k := k) (α := α) (tol := tol) hN heven X
  rw [hb] at h0 h1
  have x0 : X 0 = U 0 := by simp [hX]
  have x1 : X 1 = U 1 := by simp [hX]
  have x2 : X 2 = w := by simp [hX]
  rw [x0, x1, x2] at h0 h1
  constructor
  · intro H
    exact ⟨by rw [← H 0 (by show 0 < 2; omega)]; exact h0.symm, by rw [← H 1 (by show 1 < 2; omega)]; exact h1.symm⟩
  · rintro ⟨a1, a2⟩ i hi
    have hi2 : i < 2 := hi
    rcases (by omega : i = 0 ∨ i = 1) with rfl | rfl
    · exact h0.trans a1
    · exact h1.trans a2

theorem duffingSys_damped (m k α : ℝ) (hc : 0 < c) : WellDamped (duffingSys m c k α) [1] where
  massSymm _ _ _ _ := rfl
  stiffSymm _ _ _ _ := rfl
  damping v := by
    rintro ⟨d, hd, hne⟩
    obtain rfl : d = 0 := by simp [duffingSys] at hd; omega
    have : 0 < v 0 * v 0 := mul_self_pos.2 hne
    simp [duffingSys]
    nlinarith
  stiffness h := by simp at h

theorem regular_two {A : ℕ → ℕ → ℝ} (h : A 0 0 * A 1 1 - A 0 1 * A 1 0 ≠ 0) : Regular 2 A := by
  rw [regular_iff_det]
  have e := Matrix.det_fin_two (Matrix.of fun i j : Fin 2 => A i j)
  intro h0
  exact h (e.symm.trans h0)

/-- C147: the continuation of the response of a damped oscillator with a hardening cubic spring never fails, whatever its folds: it starts near a
solution at `lam0` which is not itself a fold; every stored point is within `η` of the resonance curve; it only stops at the step limit, past the
last frequency, or when it has run back by more than `y`. -/
theorem C147_run (hN : 4 < Nt) (heven : Even Nt) (hm : 0 ≤ m) (hc : 0 < c) (hα : 0 ≤ α) (hF : Fl 0 ≠ 0 ∨ Fl 1 ≠ 0) {lam0 lam1 y : ℝ} (h1 : 0 < lam1) (hlam : lam0 ≠ lam1)
    (hy : 0 < y) (hy0 : y < lam0) {a0 b0 : ℝ} (hU : DuffingBalance m c k α (Fl 0) (Fl 1) a0 b0 lam0)
    (hfold : (k - m * lam0 ^ 2 + 3 / 4 * α * (a0 ^ 2 + b0 ^ 2)) * (k - m * lam0 ^ 2 + 9 / 4 * α * (a0 ^ 2 + b0 ^ 2)) + (c * lam0) ^ 2 ≠ 0)
    {obj : ContObj} {r b η inf : ℝ} {L : ℕ → Type} {lin : ℕ → (ℕ → ℕ → ℝ) → (ℕ → ℝ) → Except Err (ℕ → ℝ)}
    {fac : (n : ℕ) → Matrix (Fin n) (Fin n) ℝ → L n} {sol : (n : ℕ) → L n → (Fin n → ℝ) → (Fin n → ℝ)}
    (hC : ∀ i ≤ 2, 0 < (contPrepare obj).CtoP i) (hr : (contPrepare obj).RPtoC = .vector fun _ => r) (hr0 : r ≠ 0)
    (hb : 0 < b) (hb1 : b < 1) (hlin : LinOk lin) (hsol : ∀ n, ExactSolve (fac n) (sol n)) (hη : 0 < η) :
    ∃ s0 > 0, ∃ t0 > 0, ∃ r0 > 0, ∀ t > 0, t ≤ t0 → ∃ M, ∀ om, PlainNewton om → M ≤ om.maxSteps → ∀ (cfg : ContCfg) (rest : List ℝ),
      cfg.corrector = .ortho → cfg.dynamicCtoP = false → cfg.fracLamList = b :: rest → cfg.backtrackStop = some y → 0 < cfg.dsmin → 0 < cfg.dsmax → cfg.dsmax ≤ s0 →
      0 < cfg.ds0 → cfg.ds0 ≤ s0 → 0 < cfg.maxSteps → ∀ XlamP0 : ℕ → ℝ, |XlamP0 0 - a0| < r0 → |XlamP0 1 - b0| < r0 → ∀ fuel > cfg.maxSteps,
      ∃ res, continuation (ompContSolver lin inf fac sol om (some t)) 2 cfg obj (hbmFun (duffingSys m c k α) Fl [1] Nt tol) XlamP0 lam0 lam1 fuel = .ok res ∧
        res.ok = true ∧ 0 < res.n ∧
        (∀ k' < res.n, ∃ a b w, DuffingBalance m c k α (Fl 0) (Fl 1) a b w ∧ |res.rows k' 0 - a| < η ∧ |res.rows k' 1 - b| < η ∧ |res.rows k' 2 - w| < η) ∧
        (res.n = cfg.maxSteps ∨ ¬ Ahead lam0 lam1 (res.rows (res.n - 1) 2) ∨ ¬ NotBehind lam0 lam1 (some y) (res.rows (res.n - 1) 2)) := by
  set δ : ℝ := min (lam0 - y) lam1 / 2 with hδd
  have hδ : 0 < δ := half_pos (lt_min (by linarith) h1)
  have hwa : ∀ w, Within lam0 lam1 (some y) δ w → 0 < w := fun w hw => by
    have a1 := min_le_left (lam0 - y) lam1
    have a2 := min_le_right (lam0 - y) lam1
    rcases lt_or_gt_of_ne hlam with hl | hl
    · linarith [(hw.2.2 y rfl).1 hl]
    · linarith [hw.2.1 hl]
  have hw0 : Within lam0 lam1 (some y) δ lam0 := by
    refine ⟨fun hl => by linarith, fun hl => by linarith, fun z hz => ?_⟩
    obtain rfl : z = y := (Option.some.inj hz).symm
    exact ⟨fun hl => by linarith, fun hl => by linarith⟩
  set X0 : ℕ → ℝ := fun i => if i = 0 then a0 else if i = 1 then b0 else lam0 with hX0
  have hl0 : 0 < lam0 := by linarith
  obtain ⟨o0, ho0, R0, R1, J00, J01, J10, J11, -, -⟩ := C147_returned (Fl := Fl) (tol := tol) (m := m) (c := c) (k := k) (α := α) hN heven (X := X0) (by simpa [hX0] using hl0)
  simp only [hX0, if_true, one_ne_zero, if_false, OfNat.ofNat_ne_zero, OfNat.ofNat_ne_one] at R0 R1 J00 J01 J10 J11
  have hR0 : ∀ i < 2, o0.R i = 0 := fun i hi => by
    rcases (by omega : i = 0 ∨ i = 1) with rfl | rfl
    · rw [R0, hU.1, sub_self]
    · rw [R1, hU.2, sub_self]
  have hreg : Regular 2 o0.J := regular_two (by
    rw [J00, J01, J10, J11]
    intro h
    exact hfold (by linear_combination h))
  obtain ⟨s0, hs0, t0, ht0, r0, hr0', H⟩ := C145_run (S := duffingSys m c k α) (Fl := Fl) (h := [1]) (Nt := Nt) (tol := tol) (inf := inf) (lam0 := lam0) (lam1 := lam1) (δ := δ) (y := y)
    adm1 (by simp; omega) heven (duffingSys_damped m k α hc) (duffing_smooth hN) (by
      rcases hF with h | h
      · exact ⟨0, by show 0 < 2; omega, h⟩
      · exact ⟨1, by show 1 < 2; omega, h⟩) hlam hδ hwa
    (fun X o hX ho hR => C147_curve hN heven hm hc hα hF (hwa _ hX) ho hR) (X0 := X0) (by show X0 2 = lam0; simp [hX0]) hw0 ho0 hR0 hreg hC hr hr0 hb hb1 hlin hsol
    hη
  refine ⟨s0, hs0, t0, ht0, r0, hr0', fun t ht htt => ?_⟩
  obtain ⟨M, HM⟩ := H t ht htt
  refine ⟨M, fun om hom hmM cfg rest c1 c2 c3 c4 c5 c6 c7 c8 c9 c10 XlamP0 hXa hXb fuel hf => ?_⟩
  obtain ⟨res, e1, e2, e3, e4, e5⟩ := HM om hom hmM cfg rest c1 c2 c3 c4 c5 c6 c7 c8 c9 c10 XlamP0 (fun i hi => by
    have hi2 : i < 2 := hi
    rcases (by omega : i = 0 ∨ i = 1) with rfl | rfl
    · simpa [hX0] using hXa
    · simpa [hX0] using hXb) fuel hf
  refine ⟨res, e1, e2, e3, fun k' hk' => ?_, e5⟩
  obtain ⟨w, U, hs, hw, hj⟩ := e4 k' hk'
  exact ⟨U 0, U 1, w, (C147_solution hN heven w U).1 hs, hj 0 (by show 0 < 2; omega), hj 1 (by show 1 < 2; omega), hw⟩

/-- C147: a fold with all constants positive. The Jacobian of the residual in the displacements is singular, the extended Jacobian is not. -/
theorem C147_fold (hN : 4 < Nt) (heven : Even Nt) :
    ∃ X o, hbmFun (duffingSys 1 (3 / 4) 1 2) (fun _ => -(3 / 2)) [1] Nt tol X true = .ok o ∧ (∀ i < 2, o.R i = 0) ∧ ¬ Regular 2 o.J ∧ IsCurve 2 o := by
  set X : ℕ → ℝ := fun i => if i = 0 then 1 else if i = 1 then 0 else 2 with hX
  obtain ⟨o, ho, R0, R1, J00, J01, J10, J11, -, -⟩ := C147_returned (Fl := fun _ => -(3 / 2)) (tol := tol) (m := 1) (c := 3 / 4) (k := 1) (α := 2) hN heven (X := X) (by simp [hX])
  simp only [hX, if_true, one_ne_zero, if_false, OfNat.ofNat_ne_zero, OfNat.ofNat_ne_one] at R0 R1 J00 J01 J10 J11
  norm_num at R0 R1 J00 J01 J10 J11
  have hR : ∀ i < 2, o.R i = 0 := fun i hi => by
    rcases (by omega : i = 0 ∨ i = 1) with rfl | rfl
    · exact R0
    · exact R1
  refine ⟨X, o, ho, hR, fun hreg => ?_, C147_curve hN heven (by norm_num) (by norm_num) (by norm_num) (by norm_num) (by simp [hX]) ho hR⟩
  have := hreg (fun j => if j = 0 then 1 else -1) (fun i hi => by
    rcases (by omega : i = 0 ∨ i = 1) with rfl | rfl
    · simp [sum_range_succ, J00, J01]
    · simp [sum_range_succ, J10, J11]) 0 (by omega)
  simp at this

/-- C147: hardening is needed: a softening spring with a branch point, where two rows of the extended Jacobian are dependent. -/
theorem C147_softening (hN : 4 < Nt) (heven : Even Nt) :
    ∃ (Fl X : ℕ → ℝ) (o : ContOut), Fl 0 ≠ 0 ∧ 0 < X 2 ∧ hbmFun (duffingSys 1 1 (11 / 4) (-(5 / 3))) Fl [1] Nt tol X true = .ok o ∧ (∀ i < 2, o.R i = 0) ∧ ¬ IsCurve 2 o := by
  set X : ℕ → ℝ := fun i => if i = 0 then 1 else if i = 1 then 0 else 1 with hX
  obtain ⟨o, ho, R0, R1, J00, J01, J10, J11, D0, D1⟩ := C147_returned (Fl := fun i => if i = 0 then 1 / 2 else -1) (tol := tol) (m := 1) (c := 1) (k := 11 / 4) (α := -(5 / 3)) hN heven (X := X) (by simp [hX])
  simp only [hX, if_true, one_ne_zero, if_false, OfNat.ofNat_ne_zero, OfNat.ofNat_ne_one] at R0 R1 J00 J01 J10 J11 D0 D1
  norm_num at R0 R1 J00 J01 J10 J11 D0 D1
  have hR : ∀ i < 2, o.R i = 0 := fun i hi => by
    rcases (by omega : i = 0 ∨ i = 1) with rfl | rfl
    · exact R0
    · exact R1
  refine ⟨fun i => if i = 0 then 1 / 2 else -1, X, o, by norm_num, by simp [hX], ho, hR, fun hc => ?_⟩
  obtain ⟨s, hs⟩ := hc (fun j => if j = 0 then 1 else if j = 1 then 2 else 0) (fun j => if j = 0 then 1 else if j = 1 then 0 else -1) (fun i hi => by
    rcases (by omega : i = 0 ∨ i = 1) with rfl | rfl
    · simp [sum_range_succ, J00, J01]
    · simp [sum_range_succ, J10, J11]) (fun i hi => by
    rcases (by omega : i = 0 ∨ i = 1) with rfl | rfl
    · simp [sum_range_succ, J00, D0]
    · simp [sum_range_succ, J10, D1]) ⟨0, by omega, by simp⟩
  have a0 := hs 0 (by omega)
  have a1 := hs 1 (by omega)
  simp at a0 a1
  linarith

/-- The start of the run of a lightly damped oscillator, with integer values: `k - m w² + ¾ α (a² + b²) = 1`, `c w = 1` at `w = 1`. -/
example : DuffingBalance 1 1 (5 / 4) 1 1 (-1) 1 0 1 ∧
    (5 / 4 - 1 * (1 : ℝ) ^ 2 + 3 / 4 * 1 * (1 ^ 2 + 0 ^ 2)) * (5 / 4 - 1 * 1 ^ 2 + 9 / 4 * 1 * (1 ^ 2 + 0 ^ 2)) + (1 * 1) ^ 2 ≠ 0 := by
  refine ⟨⟨?_, ?_⟩, ?_⟩ <;> norm_num

end

end TMD
