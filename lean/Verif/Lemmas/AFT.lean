import Verif.Model.AFT
import Verif.Lemmas.FourierCoeff
import Verif.Lemmas.ForceLaws
import Verif.Lemmas.Stiffness
import Mathlib.Analysis.Calculus.Deriv.Add
import Mathlib.Analysis.Calculus.Deriv.Mul
import Mathlib.Analysis.SpecialFunctions.Trigonometric.Deriv

/-! Helper lemmas for the alternating frequency-time method. -/

namespace TMD

open Spec Finset

noncomputable section

theorem nhcRaw_eq (h : List ℕ) : nhcRaw h = numCoeff h := by
  induction h with
  | nil => rfl
  | cons k hs ih =>
    unfold nhcRaw at ih ⊢
    by_cases hk : k = 0
    · subst hk; simp [numCoeff] at ih ⊢; omega
    · simp [numCoeff, hk] at ih ⊢; omega

theorem dftCoef_eq_dft (N : ℕ) (x : ℕ → ℝ) (k : ℕ) : dftCoef N x k = dft N x k := by
  unfold dftCoef dft angle
  split
  · rfl
  · have e : ∀ a : ℝ, a / ((N:ℝ)/2) = 2 / N * a := by
      intro a
      rw [div_div_eq_mul_div]; ring
    rw [e, e]

theorem differentiable_series (h : List ℕ) (c : ℕ → ℝ) : Differentiable ℝ (series h c) := by
  induction h generalizing c with
  | nil => exact differentiable_const (0:ℝ)
  | cons k hs ih =>
    by_cases hk : k = 0
    · have : series (k :: hs) c = fun τ => c 0 + series hs (fun i => c (i + 1)) τ := by
        funext τ; simp [series, hk]
      rw [this]
      exact (ih _).const_add _
    · have : series (k :: hs) c = fun τ => c 0 * Real.cos (k * τ) + c 1 * Real.sin (k * τ)
          + series hs (fun i => c (i + 2)) τ := by
        funext τ; simp [series, hk]
      rw [this]
      have := ih (fun i => c (i+2))
      fun_prop

theorem series_add (h : List ℕ) (c c' : ℕ → ℝ) (τ : ℝ) :
    series h (fun r => c r + c' r) τ = series h c τ + series h c' τ := by
  induction h generalizing c c' with
  | nil => simp [series]
  | cons k hs ih =>
    by_cases hk : k = 0
    · simp only [series, hk, if_true]; rw [ih]; ring
    · simp only [series, hk, if_false]; rw [ih]; ring

theorem series_smul (h : List ℕ) (a : ℝ) (c : ℕ → ℝ) (τ : ℝ) :
    series h (fun r => a * c r) τ = a * series h c τ := by
  induction h generalizing c with
  | nil => simp [series]
  | cons k hs ih =>
    by_cases hk : k = 0
    · simp only [series, hk, if_true]; rw [ih]; ring
    · simp only [series, hk, if_false]; rw [ih]; ring

theorem series_sum (h : List ℕ) (s : Finset ℕ) (c : ℕ → ℕ → ℝ) (τ : ℝ) :
    series h (fun r => ∑ i ∈ s, c i r) τ = ∑ i ∈ s, series h (c i) τ := by
  induction s using Finset.induction_on with
  | empty => simpa using series_smul h 0 (fun _ => 0) τ
  | insert a s ha ih => simp only [sum_insert ha]; rw [series_add, ih]

theorem series_basis (h : List ℕ) (c : ℕ → ℝ) (τ : ℝ) :
    series h c τ = ∑ r ∈ range (numCoeff h), c r * series h (fun i => eye i r) τ := by
  have : ∑ r ∈ range (numCoeff h), c r * series h (fun i => eye i r) τ
      = series h (fun i => ∑ r ∈ range (numCoeff h), c r * eye i r) τ := by
    rw [series_sum]
    exact sum_congr rfl (fun r _ => (series_smul h _ _ τ).symm)
  rw [this]
  apply series_congr
  intro i hi
  rw [sum_eq_single_of_mem i (by simpa using hi)]
  · simp [eye]
  · intro b _ hb; simp [eye, Ne.symm hb]

theorem iteratedDeriv_series_basis (h : List ℕ) (c : ℕ → ℝ) (τ : ℝ) {o : ℕ} (ho : o ≤ 1) :
    iteratedDeriv o (series h c) τ
      = ∑ r ∈ range (numCoeff h), c r * iteratedDeriv o (series h (fun i => eye i r)) τ := by
  interval_cases o
  · simp only [iteratedDeriv_zero]; exact series_basis h c τ
  · simp only [iteratedDeriv_one]
    have e : series h c = fun τ => ∑ r ∈ range (numCoeff h), c r * series h (fun i => eye i r) τ :=
      funext (series_basis h c)
    conv_lhs => rw [e]
    apply HasDerivAt.deriv
    apply HasDerivAt.fun_sum
    intro r _
    exact ((differentiable_series h _).differentiableAt.hasDerivAt).const_mul _

/-- Samples of the motion and its derivative: the time series of the identity (`cst`, `sct`) applied
to the coefficients. -/
theorem ts_linear {h : List ℕ} (hA : Admissible h) {Nt : ℕ} (hNt : ∀ k ∈ h, 2*k + 1 < Nt)
    (heven : Even Nt) {o : ℕ} (ho : o ≤ 1) :
    ∃ cst : TS ℕ, timeSeriesDeriv Nt h eye o = .ok cst ∧ cst.rows = Nt ∧
      ∀ {ι : Type} (X0 : ℕ → ι → ℝ), ∃ x : TS ι, timeSeriesDeriv Nt h X0 o = .ok x ∧ x.rows = Nt ∧
        (∀ j d, x.val j d = ∑ r ∈ range (numCoeff h), cst.val j r * X0 r d) ∧
        (∀ j d, x.val j d = iteratedDeriv o (series h (fun r => X0 r d)) (2 * Real.pi * j / Nt)) := by
  have hmx := hNt _ (hmax_mem hA.ne)
  have hr : 2*(Nt/2 - 1) + 2 = Nt := by
    obtain ⟨n, rfl⟩ := heven; omega
  obtain ⟨cst, h1, h2, h3⟩ := timeSeriesDeriv_ok hA hNt eye o
  rw [hr] at h2 h3
  refine ⟨cst, h1, h2, ?_⟩
  intro ι X0
  obtain ⟨x, g1, g2, g3⟩ := timeSeriesDeriv_ok hA hNt X0 o
  rw [hr] at g2 g3
  refine ⟨x, g1, g2, ?_, fun j d => g3 j d⟩
  intro j d
  rw [g3, iteratedDeriv_series_basis h _ _ ho]
  refine sum_congr rfl (fun r _ => ?_)
  rw [h3]; ring

theorem coefOf_sum (h : List ℕ) (s : Finset ℕ) (a : ℕ → ℝ) (c : ℕ → ℕ → ℝ) (m : ℕ) :
    coefOf h (fun r => ∑ i ∈ s, c i r * a i) m
      = (∑ i ∈ s, (coefOf h (c i) m).1 * a i, ∑ i ∈ s, (coefOf h (c i) m).2 * a i) := by
  induction h generalizing c with
  | nil => simp [coefOf]
  | cons k hs ih =>
    by_cases hk : k = m
    · subst hk
      by_cases hk0 : k = 0 <;> simp [coefOf, hk0]
    · simp only [coefOf, hk, if_false]
      exact ih _

/-- The Fourier coefficients are a fixed linear map of the samples. -/
theorem gfc_linear {h : List ℕ} (hA : Admissible h) {Nt : ℕ} (hN : ∀ k ∈ h, k < Nt) :
    ∃ W : ℕ → ℕ → ℝ, ∀ {ι : Type} (x : ℕ → ι → ℝ), ∃ v, getFourierCoeff h ⟨Nt, x⟩ = .ok v ∧
      (∀ r < numCoeff h, ∀ d, v r d = ∑ j ∈ range Nt, W r j * x j d) ∧
      (∀ k ∈ h, ∀ d, coefOf h (fun r => v r d) k = dft Nt (fun j => x j d) k) := by
  obtain ⟨W, w1, w2⟩ := getFourierCoeff_ok hA (⟨Nt, eye⟩ : TS ℕ) hN
  refine ⟨W, fun {ι} x => ?_⟩
  obtain ⟨v, v1, v2⟩ := getFourierCoeff_ok hA (⟨Nt, x⟩ : TS ι) hN
  refine ⟨v, v1, ?_, fun k hk d => by rw [v2 k hk d, dftCoef_eq_dft]⟩
  intro r hr d
  refine rows_of_coefOf hA.nodup (v := fun r => v r d)
    (c := fun r => ∑ j ∈ range Nt, W r j * x j d) ?_ r hr
  intro m hm
  rw [v2 m hm d, coefOf_sum h (range Nt) (fun j => x j d) (fun j r => W r j) m]
  have hw : ∀ j, coefOf h (fun r => W r j) m = dftCoef Nt (fun i => eye i j) m :=
    fun j => w2 m hm j
  simp only [hw]
  have hs : ∀ (j : ℕ) (f : ℕ → ℝ), j ∈ range Nt → ∑ i ∈ range Nt, eye i j * f i = f j := by
    intro j f hj
    rw [sum_eq_single_of_mem j hj]
    · simp [eye]
    · intro b _ hb; simp [eye, hb]
  unfold dftCoef
  by_cases hm0 : m = 0
  · simp only [hm0, if_true, zero_mul, sum_const_zero, Prod.mk.injEq, and_true]
    rw [sum_div]
    refine sum_congr rfl (fun j hj => ?_)
    have := hs j (fun _ => 1) hj
    simp only [mul_one] at this
    rw [this]; ring
  · simp only [hm0, if_false, Prod.mk.injEq]
    rw [sum_div, sum_div]
    constructor <;>
    · refine sum_congr rfl (fun j hj => ?_)
      rw [hs j _ hj]; ring

theorem mod_block {N c i : ℕ} (hi : i < N) : (c*N + i) % N = i ∧ (c*N + i) / N = c := by
  have hN : 0 < N := by omega
  constructor
  · rw [Nat.mul_comm, Nat.mul_add_mod, Nat.mod_eq_of_lt hi]
  · rw [Nat.mul_comm, Nat.mul_add_div hN, Nat.div_eq_of_lt hi, Nat.add_zero]

theorem block_eq_iff {N c i q : ℕ} (hi : i < N) : q = c*N + i ↔ q / N = c ∧ q % N = i := by
  constructor
  · rintro rfl; exact ⟨(mod_block hi).2, (mod_block hi).1⟩
  · rintro ⟨rfl, rfl⟩; exact (Nat.div_add_mod' q N).symm

theorem sum_blocks (n N : ℕ) (f : ℕ → ℝ) :
    ∑ j ∈ range (n * N), f j = ∑ c ∈ range n, ∑ i ∈ range N, f (c*N + i) := by
  rw [sum_range_blocks]
  simp only [Nat.mul_comm N]

theorem div_lt_block {N n p : ℕ} (hp : p < n * N) : p / N < n ∧ p % N < N := by
  have hN : 0 < N := by
    rcases Nat.eq_zero_or_pos N with h | h
    · subst h; simp at hp
    · exact h
  exact ⟨Nat.div_lt_of_lt_mul (by rwa [Nat.mul_comm] at hp), Nat.mod_lt _ hN⟩

/-- Gradient of a local coefficient with respect to the global ones. -/
theorem hasGrad_unlOf (n N : ℕ) (Q : ℕ → ℕ → ℝ) (c e : ℕ) (U : ℕ → ℝ) :
    HasGrad (n*N) (fun U => unlOf N Q U c e) (fun q => if q / N = c then Q e (q % N) else 0) U := by
  unfold unlOf matMul
  refine (HasGrad.sum (s := range N) (fun i _ =>
    (HasGrad.coord (n := n*N) (x := U) (c*N + i)).const_mul (Q e i))).congr ?_
  intro q hq
  obtain ⟨h1, h2⟩ := div_lt_block hq
  by_cases hc : q / N = c
  · rw [if_pos hc, sum_eq_single_of_mem (q % N) (by simpa using h2)]
    · have : q = c*N + q % N := (block_eq_iff h2).mpr ⟨hc, rfl⟩
      rw [if_pos this, mul_one]
    · intro i hi hne
      have : ¬ q = c*N + i := fun h => hne ((block_eq_iff (mem_range.mp hi)).mp h).2.symm
      simp [this]
  · rw [if_neg hc]
    symm
    apply sum_eq_zero
    intro i hi
    have : ¬ q = c*N + i := fun h => hc ((block_eq_iff (mem_range.mp hi)).mp h).1
    simp [this]

/-- Gradient of a time sample. -/
theorem hasGrad_sample (n N : ℕ) (Q : ℕ → ℕ → ℝ) (b : ℕ → ℝ) (e : ℕ) (U : ℕ → ℝ) :
    HasGrad (n*N) (fun U => ∑ c ∈ range n, b c * unlOf N Q U c e)
      (fun q => b (q / N) * Q e (q % N)) U := by
  refine (HasGrad.sum (s := range n) (fun c _ => (hasGrad_unlOf n N Q c e U).const_mul (b c))).congr ?_
  intro q hq
  obtain ⟨h1, -⟩ := div_lt_block hq
  rw [sum_eq_single_of_mem (q / N) (by simpa using h1)]
  · simp
  · intro c _ hc; simp [Ne.symm hc]

theorem matMul_kronEye_left (n N m : ℕ) (T : ℕ → ℕ → ℝ) (J : ℕ → ℕ → ℝ) {p : ℕ} (hp : p < n*N) (b : ℕ) :
    matMul (n*m) (kronEye N m T) J p b = ∑ d ∈ range m, T (p % N) d * J ((p/N)*m + d) b := by
  obtain ⟨h1, -⟩ := div_lt_block hp
  unfold matMul
  rw [sum_blocks, sum_eq_single_of_mem (p / N) (by simpa using h1)]
  · refine sum_congr rfl (fun d hd => ?_)
    obtain ⟨e1, e2⟩ := mod_block (c := p/N) (mem_range.mp hd)
    simp [kronEye, e1, e2]
  · intro c _ hc
    apply sum_eq_zero
    intro d hd
    obtain ⟨e1, e2⟩ := mod_block (c := c) (mem_range.mp hd)
    simp [kronEye, e2, Ne.symm hc]

theorem matMul_kronEye_right (n N m : ℕ) (Q : ℕ → ℕ → ℝ) (A : ℕ → ℕ → ℝ) (p : ℕ) {q : ℕ} (hq : q < n*N) :
    matMul (n*m) A (kronEye m N Q) p q = ∑ e ∈ range m, A p ((q/N)*m + e) * Q e (q % N) := by
  obtain ⟨h1, -⟩ := div_lt_block hq
  unfold matMul
  rw [sum_blocks, sum_eq_single_of_mem (q / N) (by simpa using h1)]
  · refine sum_congr rfl (fun d hd => ?_)
    obtain ⟨e1, e2⟩ := mod_block (c := q/N) (mem_range.mp hd)
    simp [kronEye, e1, e2]
  · intro c _ hc
    apply sum_eq_zero
    intro d hd
    obtain ⟨e1, e2⟩ := mod_block (c := c) (mem_range.mp hd)
    simp [kronEye, e2, hc]

theorem kron_sandwich (n N m : ℕ) (Q T : ℕ → ℕ → ℝ) (J : ℕ → ℕ → ℝ) {p q : ℕ} (hp : p < n*N) (hq : q < n*N) :
    matMul (n*m) (matMul (n*m) (kronEye N m T) J) (kronEye m N Q) p q
      = ∑ d ∈ range m, ∑ e ∈ range m, T (p % N) d * J ((p/N)*m + d) ((q/N)*m + e) * Q e (q % N) := by
  rw [matMul_kronEye_right n N m Q _ p hq, sum_comm]
  refine sum_congr rfl (fun e _ => ?_)
  rw [matMul_kronEye_left n N m T J hp, sum_mul]

/-- Closed form of the diagonal strided assembly. -/
theorem fold_diag (m n : ℕ) (D : ℕ → ℕ → ℕ → ℝ) (p q : ℕ) :
    (List.range n).foldl (fun J di => setStride m di di (fun r c => D r di c) J) (fun _ _ => 0) p q
      = if p % m = q % m ∧ p % m < n then D (p/m) (p % m) (q/m) else 0 := by
  induction n with
  | zero => simp
  | succ n ih =>
    rw [List.range_succ, List.foldl_append, List.foldl_cons, List.foldl_nil, setStride]
    by_cases h : p % m = n ∧ q % m = n
    · rw [if_pos h, if_pos ⟨by omega, by omega⟩, h.1]
    · rw [if_neg h, ih]
      by_cases h2 : p % m = q % m
      · have : p % m ≠ n := fun h3 => h ⟨h3, by omega⟩
        have e : p % m < n + 1 ↔ p % m < n := by omega
        simp only [h2, true_and] at *
        simp only [e]
      · simp [h2]

theorem fold_inner (m n di : ℕ) (D : ℕ → ℕ → ℕ → ℕ → ℝ) (J : ℕ → ℕ → ℝ) (p q : ℕ) :
    (List.range n).foldl (fun J dj => setStride m di dj (fun r c => D r di dj c) J) J p q
      = if p % m = di ∧ q % m < n then D (p/m) di (q % m) (q/m) else J p q := by
  induction n with
  | zero => simp
  | succ n ih =>
    rw [List.range_succ, List.foldl_append, List.foldl_cons, List.foldl_nil, setStride]
    by_cases h : p % m = di ∧ q % m = n
    · rw [if_pos h, if_pos ⟨h.1, by omega⟩, h.2]
    · rw [if_neg h, ih]
      by_cases h2 : p % m = di
      · have : q % m ≠ n := fun h3 => h ⟨h2, h3⟩
        have e : q % m < n + 1 ↔ q % m < n := by omega
        simp only [h2, true_and, e]
      · simp [h2]

theorem fold_outer (m n : ℕ) (D : ℕ → ℕ → ℕ → ℕ → ℝ) (p q : ℕ) :
    (List.range n).foldl (fun J di => (List.range m).foldl
      (fun J dj => setStride m di dj (fun r c => D r di dj c) J) J) (fun _ _ => 0) p q
      = if p % m < n ∧ q % m < m then D (p/m) (p % m) (q % m) (q/m) else 0 := by
  induction n with
  | zero => simp
  | succ n ih =>
    rw [List.range_succ, List.foldl_append, List.foldl_cons, List.foldl_nil, fold_inner, ih]
    by_cases h : p % m = n ∧ q % m < m
    · rw [if_pos h, if_pos ⟨by omega, h.2⟩, h.1]
    · rw [if_neg h]
      by_cases h2 : q % m < m
      · have h1 : p % m ≠ n := fun h3 => h ⟨h3, h2⟩
        have e : p % m < n + 1 ↔ p % m < n := by omega
        simp only [h2, and_true, e]
      · simp [h2]

theorem assembleJ_block (m : ℕ) (D : ℕ → ℕ → ℕ → ℕ → ℝ) {r d c e : ℕ} (hd : d < m) (he : e < m) :
    assembleJ m D (r*m + d) (c*m + e) = D r d e c := by
  unfold assembleJ
  rw [fold_outer]
  obtain ⟨e1, e2⟩ := mod_block (c := r) hd
  obtain ⟨e3, e4⟩ := mod_block (c := c) he
  rw [e1, e2, e3, e4, if_pos ⟨hd, he⟩]

/-- Column of the Fortran-ordered flattening. -/
theorem flat3 {m d e c : ℕ} (hd : d < m) (he : e < m) :
    (d + m*e + m*m*c) % m = d ∧ (d + m*e + m*m*c) / m % m = e ∧ (d + m*e + m*m*c) / m / m = c := by
  have e0 : d + m*e + m*m*c = (e + m*c)*m + d := by ring
  have e1 : e + m*c = c*m + e := by ring
  obtain ⟨h1, h2⟩ := mod_block (c := e + m*c) hd
  rw [e0, h1, h2, e1]
  obtain ⟨h3, h4⟩ := mod_block (c := c) he
  exact ⟨rfl, h3, h4⟩

/-- Core of the AFT Jacobian: if every time sample has gradient `D` with respect to the local
coefficients, the assembled matrix is the Jacobian of the global coefficients. -/
theorem aft_core (n N m Nt : ℕ) (Q T W : ℕ → ℕ → ℝ) (ft : (ℕ → ℝ) → ℕ → ℕ → ℝ)
    (D : ℕ → ℕ → ℕ → ℕ → ℝ) (J : ℕ → ℕ → ℝ) (Fnl : (ℕ → ℝ) → ℕ → ℝ) (U : ℕ → ℝ)
    (hF : ∀ U, ∀ p < n*N, Fnl U p = ∑ d ∈ range m, T (p % N) d * ∑ j ∈ range Nt, W (p/N) j * ft U j d)
    (hJ : ∀ r < n, ∀ c < n, ∀ d < m, ∀ e < m,
      J (r*m + d) (c*m + e) = ∑ j ∈ range Nt, W r j * D j d e c)
    (hg : ∀ j < Nt, ∀ d < m, HasGrad (n*N) (fun U => ft U j d)
      (fun q => ∑ e ∈ range m, D j d e (q/N) * Q e (q % N)) U) :
    HasJac (n*N) (n*N) Fnl
      (matMul (n*m) (matMul (n*m) (kronEye N m T) J) (kronEye m N Q)) U := by
  intro p hp
  have h1 := HasGrad.sum (n := n*N) (x := U) (s := range m)
    (F := fun d U => T (p % N) d * ∑ j ∈ range Nt, W (p/N) j * ft U j d)
    (G := fun d q => T (p % N) d * ∑ j ∈ range Nt, W (p/N) j *
      ∑ e ∈ range m, D j d e (q/N) * Q e (q % N))
    (fun d hd => HasGrad.const_mul _ (HasGrad.sum (fun j hj => HasGrad.const_mul _
      (hg j (mem_range.mp hj) d (mem_range.mp hd)))))
  refine (h1.congr_fun (fun U => hF U p hp)).congr ?_
  intro q hq
  obtain ⟨hp1, -⟩ := div_lt_block hp
  obtain ⟨hq1, -⟩ := div_lt_block hq
  rw [kron_sandwich n N m Q T J hp hq]
  refine sum_congr rfl (fun d hd => ?_)
  rw [sum_congr rfl (fun e he => by
    rw [hJ _ hp1 _ hq1 d (mem_range.mp hd) e (mem_range.mp he)])]
  simp only [mul_sum, sum_mul]
  rw [sum_comm]
  exact sum_congr rfl (fun _ _ => sum_congr rfl (fun _ _ => by ring))

/-- Chain rule with a function of two variables. -/
theorem HasGrad.comp2 {n : ℕ} {f f' : (ℕ → ℝ) → ℝ} {g g' : ℕ → ℝ} {x : ℕ → ℝ} {φ : ℝ → ℝ → ℝ} {a b : ℝ}
    (h : HasGrad n f g x) (h' : HasGrad n f' g' x)
    (hφ : HasFDerivAt (fun p : ℝ × ℝ => φ p.1 p.2)
      (a • ContinuousLinearMap.fst ℝ ℝ ℝ + b • ContinuousLinearMap.snd ℝ ℝ ℝ) (f x, f' x)) :
    HasGrad n (fun X => φ (f X) (f' X)) (fun j => a * g j + b * g' j) x := by
  unfold HasGrad at *
  have hp := HasFDerivAt.prodMk h h'
  have e : (f x, f' x) = (fun v : Fin n → ℝ => (f (fun i => x i + Spec.ext v i),
      f' (fun i => x i + Spec.ext v i))) 0 := by simp
  rw [e] at hφ
  have hc := HasFDerivAt.comp (g := fun p : ℝ × ℝ => φ p.1 p.2)
    (f := fun v : Fin n → ℝ => (f (fun i => x i + Spec.ext v i), f' (fun i => x i + Spec.ext v i)))
    (0 : Fin n → ℝ) hφ hp
  refine hc.congr_fderiv ?_
  rw [row_add, row_smul, row_smul]
  rfl

end

end TMD

namespace TMD

open Spec Finset

noncomputable section

/-- The AFT in closed form: fixed sampling matrices `B0`, `B1` and a fixed Fourier matrix `W`. -/
theorem instAft_ok {h : List ℕ} (hA : Admissible h) {Nt : ℕ} (hNt : ∀ k ∈ h, 2*k + 1 < Nt)
    (heven : Even Nt) (N m : ℕ) (Q T : ℕ → ℕ → ℝ) :
    ∃ W B0 B1 : ℕ → ℕ → ℝ, ∀ (lfh : (ℕ → ℕ → ℝ) → (ℕ → ℕ → ℝ) → LfhOut) (U : ℕ → ℝ) (w : ℝ),
      ∃ (F dFw J : ℕ → ℕ → ℝ) (u v : ℕ → ℕ → ℝ),
      instAft N m Q T lfh U w h Nt = .ok ⟨toGlobal N m T F,
        matMul (numCoeff h*m) (matMul (numCoeff h*m) (kronEye N m T) J) (kronEye m N Q),
        if w = 0 then fun _ => 0 else toGlobal N m T dFw⟩ ∧
      (∀ j d, u j d = ∑ r ∈ range (numCoeff h), B0 j r * unlOf N Q U r d) ∧
      (∀ j d, u j d = series h (fun r => unlOf N Q U r d) (2 * Real.pi * j / Nt)) ∧
      (∀ j d, v j d = w * ∑ r ∈ range (numCoeff h), B1 j r * unlOf N Q U r d) ∧
      (∀ j d, v j d = w * deriv (series h (fun r => unlOf N Q U r d)) (2 * Real.pi * j / Nt)) ∧
      (∀ r < numCoeff h, ∀ d, F r d = ∑ j ∈ range Nt, W r j * (lfh u v).ft j d) ∧
      (∀ k ∈ h, ∀ d, coefOf h (fun r => F r d) k = dft Nt (fun j => (lfh u v).ft j d) k) ∧
      (∀ r < numCoeff h, ∀ c < numCoeff h, ∀ d < m, ∀ e < m, J (r*m + d) (c*m + e)
        = ∑ j ∈ range Nt, W r j * (if d = e then (lfh u v).dfdu j d * B0 j c
            + (lfh u v).dfdud j d * (w * B1 j c) else 0)) ∧
      (∀ r < numCoeff h, ∀ d, dFw r d = ∑ j ∈ range Nt, W r j * ((lfh u v).dfdud j d * (v j d / w))) := by
  obtain ⟨cst, c1, c2, c3⟩ := ts_linear hA hNt heven (o := 0) (by omega)
  obtain ⟨sct, s1, s2, s3⟩ := ts_linear hA hNt heven (o := 1) le_rfl
  obtain ⟨W, hW⟩ := gfc_linear hA (Nt := Nt) (fun k hk => by have := hNt k hk; omega)
  refine ⟨W, cst.val, sct.val, ?_⟩
  intro lfh U w
  obtain ⟨x, x1, x2, x3, x4⟩ := c3 (unlOf N Q U)
  obtain ⟨y, y1, y2, y3, y4⟩ := s3 (unlOf N Q U)
  set v : ℕ → ℕ → ℝ := fun j d => w * y.val j d with hv
  obtain ⟨F, f1, f2, f3⟩ := hW (lfh x.val v).ft
  obtain ⟨G, g1, g2, -⟩ := hW (fun j p => (lfh x.val v).dfdu j (p % m) * cst.val j (p / m)
    + (lfh x.val v).dfdud j (p % m) * (w * sct.val j (p / m)))
  obtain ⟨dFw, d1, d2, -⟩ := hW (fun j d => (lfh x.val v).dfdud j d * (v j d / w))
  refine ⟨F, dFw, (List.range m).foldl (fun J di => setStride m di di (fun r c => G r (di + m*c)) J)
        (fun _ _ => 0), x.val, v, ?_, x3, ?_, ?_, ?_, f2, f3, ?_, d2⟩
  rotate_left
  · intro j d; rw [x4]; simp
  · intro j d; simp only [hv, y3]
  · intro j d; simp only [hv, y4, iteratedDeriv_one]
  · intro r hr c hc d hd e he
    rw [fold_diag m m (fun r d c => G r (d + m*c))]
    obtain ⟨e1, e2⟩ := mod_block (c := r) hd
    obtain ⟨e3, e4⟩ := mod_block (c := c) he
    rw [e1, e2, e3, e4]
    by_cases hde : d = e
    · subst hde
      rw [if_pos ⟨rfl, hd⟩, g2 r hr]
      have e5 : d + m*c = c*m + d := by ring
      obtain ⟨e6, e7⟩ := mod_block (c := c) hd
      simp only [e5, e6, e7, if_true]
    · rw [if_neg (fun hh => hde hh.1)]
      simp [hde]
  · unfold instAft
    simp only [x1, y1, c1, s1, x2]
    rw [if_neg (by rw [c2]; simp)]
    simp only [hv] at f1 g1 d1
    simp only [f1, g1, d1, nhcRaw_eq]
    congr 2
    split_ifs <;> first | rfl | contradiction

/-- The shared second half of the AFT in closed form. -/
theorem aftTail_ok {h : List ℕ} (hA : Admissible h) {Nt : ℕ} (hNt : ∀ k ∈ h, k < Nt)
    (N m : ℕ) (Q T : ℕ → ℕ → ℝ) :
    ∃ W : ℕ → ℕ → ℝ, ∀ (ft : ℕ → ℕ → ℝ) (D : ℕ → ℕ → ℕ → ℕ → ℝ), ∃ (F J : ℕ → ℕ → ℝ),
      aftTail N m Q T h Nt Nt ft D = .ok ⟨toGlobal N m T F,
        matMul (numCoeff h*m) (matMul (numCoeff h*m) (kronEye N m T) J) (kronEye m N Q), fun _ => 0⟩ ∧
      (∀ r < numCoeff h, ∀ d, F r d = ∑ j ∈ range Nt, W r j * ft j d) ∧
      (∀ k ∈ h, ∀ d, coefOf h (fun r => F r d) k = dft Nt (fun j => ft j d) k) ∧
      (∀ r < numCoeff h, ∀ c < numCoeff h, ∀ d < m, ∀ e < m, J (r*m + d) (c*m + e)
        = ∑ j ∈ range Nt, W r j * D j d e c) := by
  obtain ⟨W, hW⟩ := gfc_linear hA hNt
  refine ⟨W, fun ft D => ?_⟩
  obtain ⟨F, f1, f2, f3⟩ := hW ft
  obtain ⟨G, g1, g2, -⟩ := hW (fun j p => D j (p % m) (p / m % m) (p / m / m))
  refine ⟨F, assembleJ m (fun r d e c => G r (d + m*e + m*m*c)), ?_, f2, f3, ?_⟩
  · unfold aftTail
    rw [if_neg (by simp)]
    simp only [f1, g1, nhcRaw_eq]
  · intro r hr c hc d hd e he
    rw [assembleJ_block m _ hd he, g2 r hr]
    obtain ⟨e1, e2, e3⟩ := flat3 (c := c) hd he
    simp only [e1, e2, e3]

end

end TMD
