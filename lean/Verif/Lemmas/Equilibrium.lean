import Mathlib.MeasureTheory.Integral.IntervalIntegral.FundThmCalculus
import Mathlib.Analysis.Calculus.LocalExtr.Basic
import Mathlib.Analysis.Calculus.Deriv.Mul
import Mathlib.Analysis.Calculus.Deriv.Add
import Mathlib.Topology.Order.Compact
import Mathlib.Analysis.Normed.Group.Bounded
import Mathlib.Analysis.Normed.Module.FiniteDimension

/-!
# Equilibria of a structure with springs whose forces do not fall

Existence by minimising the potential energy, uniqueness by monotonicity. Nothing here refers to the program.
-/

namespace TMD

open Finset

noncomputable section

/-- A force that is a sum of springs: spring `d` is stretched by `Q d · X`, has a continuous force that does not fall with the stretch, and
acts along `Q d`. -/
def Springs (n : ℕ) (g : (ℕ → ℝ) → ℕ → ℝ) : Prop :=
  ∃ (m : ℕ) (Q : ℕ → ℕ → ℝ) (φ : ℕ → ℝ → ℝ), (∀ d, Continuous (φ d)) ∧ (∀ d, Monotone (φ d)) ∧
    ∀ X, ∀ i < n, g X i = ∑ d ∈ range m, Q d i * φ d (∑ j ∈ range n, Q d j * X j)

theorem Springs.zero (n : ℕ) : Springs n fun _ _ => 0 := ⟨0, fun _ _ => 0, fun _ _ => 0, fun _ => continuous_const, fun _ => monotone_const, fun _ _ _ => by simp⟩

theorem Springs.add {n : ℕ} {g g' : (ℕ → ℝ) → ℕ → ℝ} (h : Springs n g) (h' : Springs n g') : Springs n fun X i => g X i + g' X i := by
  obtain ⟨m, Q, φ, h1, h2, h3⟩ := h
  obtain ⟨m', Q', φ', h1', h2', h3'⟩ := h'
  refine ⟨m + m', fun d => if d < m then Q d else Q' (d - m), fun d => if d < m then φ d else φ' (d - m), fun d => ?_, fun d => ?_, fun X i hi => ?_⟩
  · beta_reduce
    split_ifs
    · exact h1 d
    · exact h1' _
  · beta_reduce
    split_ifs
    · exact h2 d
    · exact h2' _
  · beta_reduce
    rw [sum_range_add, h3 X i hi, h3' X i hi]
    congr 1
    · exact sum_congr rfl fun d hd => by simp only [mem_range.1 hd, if_true]
    · exact sum_congr rfl fun d hd => by simp

theorem Springs.list {α : Type} {n : ℕ} {g : α → (ℕ → ℝ) → ℕ → ℝ} : ∀ {l : List α}, (∀ a ∈ l, Springs n (g a)) → Springs n fun X i => (l.map fun a => g a X i).sum
  | [], _ => by simpa using Springs.zero n
  | a :: l, h => by
    simpa using (h a (by simp)).add (Springs.list (l := l) fun b hb => h b (by simp [hb]))

/-- The quadratic form of a stiffness matrix. -/
def quadForm (n : ℕ) (K : ℕ → ℕ → ℝ) (v : ℕ → ℝ) : ℝ := ∑ i ∈ range n, ∑ j ∈ range n, v i * K i j * v j

/-- Two equilibria with loads `F` and `G`: the change of the load does at least the work stored in the linear stiffness. -/
theorem equil_energy {n : ℕ} {K : ℕ → ℕ → ℝ} {g : (ℕ → ℝ) → ℕ → ℝ} (hg : Springs n g) {X Y F G : ℕ → ℝ}
    (hX : ∀ i < n, (∑ j ∈ range n, K i j * X j) + g X i = F i) (hY : ∀ i < n, (∑ j ∈ range n, K i j * Y j) + g Y i = G i) :
    quadForm n K (fun i => X i - Y i) ≤ ∑ i ∈ range n, (X i - Y i) * (F i - G i) := by
  obtain ⟨m, Q, φ, h1, h2, h3⟩ := hg
  have e : ∑ i ∈ range n, (X i - Y i) * (F i - G i) = quadForm n K (fun i => X i - Y i) + ∑ i ∈ range n, (X i - Y i) * (g X i - g Y i) := by
    rw [quadForm, ← sum_add_distrib]
    refine sum_congr rfl fun i hi => ?_
    rw [← hX i (mem_range.1 hi), ← hY i (mem_range.1 hi)]
    have : ∑ j ∈ range n, (X i - Y i) * K i j * (X j - Y j) = (X i - Y i) * ((∑ j ∈ range n, K i j * X j) - ∑ j ∈ range n, K i j * Y j) := by
      rw [← sum_sub_distrib, mul_sum]
      exact sum_congr rfl fun j _ => by ring
    rw [this]
    ring
  have e2 : ∑ i ∈ range n, (X i - Y i) * (g X i - g Y i) = ∑ d ∈ range m, ((∑ j ∈ range n, Q d j * X j) - ∑ j ∈ range n, Q d j * Y j)
      * (φ d (∑ j ∈ range n, Q d j * X j) - φ d (∑ j ∈ range n, Q d j * Y j)) := by
    have : ∀ i ∈ range n, (X i - Y i) * (g X i - g Y i) = ∑ d ∈ range m, (X i - Y i) * Q d i * (φ d (∑ j ∈ range n, Q d j * X j) - φ d (∑ j ∈ range n, Q d j * Y j)) := fun i hi => by
      rw [h3 X i (mem_range.1 hi), h3 Y i (mem_range.1 hi), ← sum_sub_distrib, mul_sum]
      exact sum_congr rfl fun d _ => by ring
    rw [sum_congr rfl this, sum_comm]
    refine sum_congr rfl fun d _ => ?_
    rw [← sum_mul, ← sum_sub_distrib]
    congr 1
    exact sum_congr rfl fun i _ => by ring
  rw [e, e2]
  refine le_add_of_nonneg_right (sum_nonneg fun d _ => ?_)
  rcases le_total (∑ j ∈ range n, Q d j * X j) (∑ j ∈ range n, Q d j * Y j) with h | h
  · exact mul_nonneg_of_nonpos_of_nonpos (by linarith) (by linarith [h2 d h])
  · exact mul_nonneg (by linarith) (by linarith [h2 d h])

/-- The potential of one spring. -/
theorem spring_potential {φ : ℝ → ℝ} (hc : Continuous φ) (hm : Monotone φ) :
    ∃ P : ℝ → ℝ, Continuous P ∧ (∀ u, HasDerivAt P (φ u) u) ∧ ∀ u, φ 0 * u ≤ P u := by
  refine ⟨fun u => ∫ s in (0 : ℝ)..u, φ s, ?_, fun u => (hc.integral_hasStrictDerivAt 0 u).hasDerivAt, fun u => ?_⟩
  · exact continuous_iff_continuousAt.2 fun u => (hc.integral_hasStrictDerivAt 0 u).hasDerivAt.continuousAt
  · rcases le_total 0 u with h | h
    · have := intervalIntegral.integral_mono_on (μ := MeasureTheory.volume) h ((continuous_const (y := φ 0)).intervalIntegrable _ _) (hc.intervalIntegrable _ _) fun x hx => hm hx.1
      simp at this
      linarith
    · have := intervalIntegral.integral_mono_on (μ := MeasureTheory.volume) h (hc.intervalIntegrable _ _) ((continuous_const (y := φ 0)).intervalIntegrable _ _) fun x hx => hm hx.2
      beta_reduce
      rw [intervalIntegral.integral_symm]
      simp at this
      linarith

/-- The quadratic form on vectors with `n` entries. -/
def quadFin (n : ℕ) (K : ℕ → ℕ → ℝ) (v : Fin n → ℝ) : ℝ := ∑ i : Fin n, ∑ j : Fin n, v i * K i j * v j

theorem quadForm_fin {n : ℕ} (K : ℕ → ℕ → ℝ) (v : ℕ → ℝ) : quadForm n K v = quadFin n K fun i => v i := by
  simp only [quadForm, quadFin, sum_range]

theorem quadFin_continuous (n : ℕ) (K : ℕ → ℕ → ℝ) : Continuous (quadFin n K) := by
  unfold quadFin
  fun_prop

/-- A positive definite form is bounded below by the square of the norm. -/
theorem quadFin_lower {n : ℕ} {K : ℕ → ℕ → ℝ} (hK : ∀ v : Fin n → ℝ, v ≠ 0 → 0 < quadFin n K v) : ∃ μ > 0, ∀ v : Fin n → ℝ, μ * ‖v‖ ^ 2 ≤ quadFin n K v := by
  by_cases hn : ∃ v : Fin n → ℝ, ‖v‖ = 1
  · obtain ⟨v0, hv0⟩ := hn
    have hne : (Metric.sphere (0 : Fin n → ℝ) 1).Nonempty := ⟨v0, by simpa using hv0⟩
    obtain ⟨a, ha, hmin⟩ := (isCompact_sphere (0 : Fin n → ℝ) 1).exists_isMinOn hne (quadFin_continuous n K).continuousOn
    have ha1 : ‖a‖ = 1 := by simpa using ha
    refine ⟨quadFin n K a, hK a fun h => by rw [h, norm_zero] at ha1; norm_num at ha1, fun v => ?_⟩
    by_cases hv : v = 0
    · rw [hv]; simp [quadFin]
    · have hv' : ‖v‖ ≠ 0 := norm_ne_zero_iff.2 hv
      have h1 := isMinOn_iff.1 hmin (‖v‖⁻¹ • v) (by simp [norm_smul, hv'])
      have h2 : quadFin n K v = ‖v‖ ^ 2 * quadFin n K (‖v‖⁻¹ • v) := by
        simp only [quadFin, mul_sum]
        refine sum_congr rfl fun i _ => sum_congr rfl fun j _ => ?_
        simp only [Pi.smul_apply, smul_eq_mul]
        field_simp
      rw [h2, mul_comm]
      exact mul_le_mul_of_nonneg_left h1 (sq_nonneg _)
  · refine ⟨1, one_pos, fun v => ?_⟩
    have hv : v = 0 := by
      by_contra h
      exact hn ⟨‖v‖⁻¹ • v, by rw [norm_smul, norm_inv, norm_norm, inv_mul_cancel₀ (norm_ne_zero_iff.2 h)]⟩
    rw [hv]; simp [quadFin]

/-- There is an equilibrium. -/
theorem equil_exists {n : ℕ} {K : ℕ → ℕ → ℝ} (hs : ∀ i < n, ∀ j < n, K i j = K j i) (hK : ∀ v : ℕ → ℝ, (∃ i < n, v i ≠ 0) → 0 < quadForm n K v)
    {g : (ℕ → ℝ) → ℕ → ℝ} (hg : Springs n g) (F : ℕ → ℝ) : ∃ X : ℕ → ℝ, ∀ i < n, (∑ j ∈ range n, K i j * X j) + g X i = F i := by
  obtain ⟨m, Q, φ, h1, h2, h3⟩ := hg
  choose P hPc hPd hPl using fun d => spring_potential (h1 d) (h2 d)
  have hK' : ∀ v : Fin n → ℝ, v ≠ 0 → 0 < quadFin n K v := fun v hv => by
    obtain ⟨i, hi⟩ := Function.ne_iff.1 hv
    have := hK (fun k => if h : k < n then v ⟨k, h⟩ else 0) ⟨i, i.2, by simpa using hi⟩
    rw [quadForm_fin] at this
    simpa using this
  obtain ⟨μ, hμ, hlow⟩ := quadFin_lower hK'
  set q : ℕ → (Fin n → ℝ) → ℝ := fun d v => ∑ j : Fin n, Q d j * v j with hq
  set E : (Fin n → ℝ) → ℝ := fun v => quadFin n K v / 2 + (∑ d ∈ range m, P d (q d v)) - ∑ i : Fin n, F i * v i with hE
  have hEc : Continuous E := by
    have hqc : ∀ d, Continuous (q d) := fun d => by rw [hq]; fun_prop
    have := quadFin_continuous n K
    have h4 : Continuous fun v => ∑ d ∈ range m, P d (q d v) := continuous_finsetSum _ fun d _ => (hPc d).comp (hqc d)
    rw [hE]
    fun_prop
  -- linear terms
  set c : ℝ := ∑ i : Fin n, |(∑ d ∈ range m, φ d 0 * Q d i) - F i| with hc
  have hlin : ∀ v : Fin n → ℝ, μ / 2 * ‖v‖ ^ 2 - c * ‖v‖ ≤ E v := fun v => by
    have a1 : ∑ d ∈ range m, φ d 0 * q d v ≤ ∑ d ∈ range m, P d (q d v) := sum_le_sum fun d _ => hPl d _
    have a2 : (∑ d ∈ range m, φ d 0 * q d v) - ∑ i : Fin n, F i * v i = ∑ i : Fin n, ((∑ d ∈ range m, φ d 0 * Q d i) - F i) * v i := by
      simp only [hq, mul_sum, sub_mul, sum_mul, sum_sub_distrib]
      rw [sum_comm]
      simp only [mul_assoc]
    have a3 : -(c * ‖v‖) ≤ ∑ i : Fin n, ((∑ d ∈ range m, φ d 0 * Q d i) - F i) * v i := by
      rw [hc, sum_mul, ← sum_neg_distrib]
      refine sum_le_sum fun i _ => ?_
      have := neg_abs_le (((∑ d ∈ range m, φ d 0 * Q d i) - F i) * v i)
      rw [abs_mul] at this
      have h5 := mul_le_mul_of_nonneg_left (norm_le_pi_norm v i) (abs_nonneg ((∑ d ∈ range m, φ d 0 * Q d i) - F i))
      rw [Real.norm_eq_abs] at h5
      linarith
    have := hlow v
    simp only [hE]
    linarith
  have htend : Filter.Tendsto E (Filter.cocompact _) Filter.atTop := by
    refine Filter.tendsto_atTop_mono hlin ?_
    have : Filter.Tendsto (fun x : ℝ => x * (μ / 2 * x - c)) Filter.atTop Filter.atTop :=
      Filter.tendsto_id.atTop_mul_atTop₀ (Filter.tendsto_atTop_add_const_right _ _ (Filter.tendsto_id.const_mul_atTop (half_pos hμ)))
    refine (this.comp (tendsto_norm_cocompact_atTop (E := Fin n → ℝ))).congr fun v => ?_
    simp only [Function.comp]
    ring
  obtain ⟨v, hv⟩ := hEc.exists_forall_le htend
  refine ⟨fun k => if h : k < n then v ⟨k, h⟩ else 0, fun i hi => ?_⟩
  set w : Fin n → ℝ := Pi.single ⟨i, hi⟩ 1 with hw
  -- derivative of the energy along `w`
  have hlinD : ∀ a : Fin n → ℝ, HasDerivAt (fun t : ℝ => ∑ j, a j * (v j + t * w j)) (∑ j, a j * w j) 0 := fun a => by
    refine HasDerivAt.fun_sum fun j _ => ?_
    have := (((hasDerivAt_id (0 : ℝ)).mul_const (w j)).const_add (v j)).const_mul (a j)
    simpa using this
  have hquadD : HasDerivAt (fun t : ℝ => quadFin n K fun j => v j + t * w j) (∑ a : Fin n, ∑ b : Fin n, (w a * K a b * v b + v a * K a b * w b)) 0 := by
    refine HasDerivAt.fun_sum fun a _ => HasDerivAt.fun_sum fun b _ => ?_
    have h4 := ((hasDerivAt_id (0 : ℝ)).mul_const (w a)).const_add (v a)
    have h5 := ((hasDerivAt_id (0 : ℝ)).mul_const (w b)).const_add (v b)
    have := (h4.mul_const (K a b)).mul h5
    refine (this.congr_deriv ?_).congr_of_eventuallyEq (Filter.Eventually.of_forall fun t => ?_)
    · simp
    · simp
  have hED : HasDerivAt (fun t : ℝ => E fun j => v j + t * w j)
      ((∑ a : Fin n, ∑ b : Fin n, (w a * K a b * v b + v a * K a b * w b)) / 2 + (∑ d ∈ range m, φ d (q d v) * ∑ j : Fin n, Q d j * w j) - ∑ j : Fin n, F j * w j) 0 := by
    refine ((hquadD.div_const 2).add (HasDerivAt.fun_sum fun d _ => ?_)).sub (hlinD fun j => F j)
    have h4 := hlinD fun j => Q d j
    have h5 : q d v = ∑ j : Fin n, Q d j * (v j + 0 * w j) := by simp [hq]
    have := HasDerivAt.comp (0 : ℝ) (hPd d (∑ j : Fin n, Q d j * (v j + 0 * w j))) h4
    rw [h5]
    exact this
  have hmin : IsLocalMin (fun t : ℝ => E fun j => v j + t * w j) 0 := Filter.Eventually.of_forall fun t => by
    simpa using hv fun j => v j + t * w j
  have h0 := hmin.hasDerivAt_eq_zero hED
  have hwa : ∀ a : Fin n → ℝ, ∑ j, a j * w j = a ⟨i, hi⟩ := fun a => by simp [hw, Pi.single_apply]
  have e1 : ∑ a : Fin n, ∑ b : Fin n, (w a * K a b * v b + v a * K a b * w b) = 2 * ∑ j : Fin n, K i j * v j := by
    have e3 : ∀ a : Fin n, ∑ b : Fin n, (w a * K a b * v b + v a * K a b * w b) = (∑ b : Fin n, K a b * v b) * w a + v a * K a i := fun a => by
      rw [sum_add_distrib, hwa fun b => v a * K a b, sum_mul]
      congr 1
      exact sum_congr rfl fun b _ => by ring
    simp only [e3, sum_add_distrib]
    rw [hwa fun a => ∑ b : Fin n, K a b * v b, two_mul]
    congr 1
    exact sum_congr rfl fun a _ => by rw [hs a a.2 i hi]; ring
  simp only [hwa fun j => F j] at h0
  simp only [hwa fun j => Q _ j] at h0
  rw [e1] at h0
  rw [h3 _ i hi]
  simp only [sum_range, Fin.is_lt, dif_pos, Fin.eta]
  have e4 : ∑ d ∈ range m, φ d (q d v) * Q d i = ∑ d : Fin m, Q d i * φ d (∑ j : Fin n, Q d j * v j) := by
    rw [sum_range]
    exact sum_congr rfl fun d _ => by rw [mul_comm]
  rw [e4] at h0
  linarith

end

end TMD
