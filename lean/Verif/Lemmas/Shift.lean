import Verif.Props.AFT
import Verif.Props.HarmonicMisc
import Verif.Lemmas.System
import Verif.Lemmas.Epmc
import Verif.Lemmas.VprnmRom

/-!
# Lemmas on time shifts of sampled signals and of the harmonic stiffness

Used for property C113.
-/

namespace TMD

open Spec Finset

noncomputable section

/-- Rotation of a pair of (cosine, sine) coefficients of harmonic `k` when the signal is delayed by `φ`. -/
def rotPair (k : ℕ) (φ : ℝ) (p : ℝ × ℝ) : ℝ × ℝ :=
  (p.1 * Real.cos (k * φ) - p.2 * Real.sin (k * φ), p.1 * Real.sin (k * φ) + p.2 * Real.cos (k * φ))

theorem sum_range_periodic {N : ℕ} {H : ℕ → ℝ} (hH : ∀ j, H (j + N) = H j) (s : ℕ) :
    ∑ j ∈ range N, H (j + s) = ∑ j ∈ range N, H j := by
  induction s with
  | zero => rfl
  | succ s ih =>
    rw [← ih]
    have h1 := sum_range_succ (fun j => H (j + s)) N
    have h2 := sum_range_succ' (fun j => H (j + s)) N
    rw [h1] at h2
    simp only [zero_add] at h2
    rw [show N + s = s + N by ring, hH s] at h2
    have h3 := add_right_cancel h2
    rw [h3]
    exact sum_congr rfl fun j _ => by congr 1; ring

theorem angle_add (N a b : ℕ) : angle N (a + b) = angle N a + angle N b := by
  unfold angle; push_cast; ring

theorem angle_self {N : ℕ} (hN : 0 < N) : angle N N = 2 * Real.pi := by
  unfold angle
  have : (N : ℝ) ≠ 0 := by exact_mod_cast hN.ne'
  field_simp

theorem cos_period (k : ℕ) (x : ℝ) : Real.cos (k * (x + 2 * Real.pi)) = Real.cos (k * x) := by
  rw [mul_add, show (k : ℝ) * (2 * Real.pi) = k * (2 * Real.pi) from rfl, Real.cos_add_nat_mul_two_pi]

theorem sin_period (k : ℕ) (x : ℝ) : Real.sin (k * (x + 2 * Real.pi)) = Real.sin (k * x) := by
  rw [mul_add, Real.sin_add_nat_mul_two_pi]

/-- Discrete Fourier coefficients of a periodic signal delayed by `s` samples. -/
theorem dft_shift {N : ℕ} (hN : 0 < N) {g : ℝ → ℝ} (hg : ∀ x, g (x + 2 * Real.pi) = g x) (s k : ℕ) :
    dft N (fun j => g (angle N j - angle N s)) k
      = rotPair k (angle N s) (dft N (fun j => g (angle N j)) k) := by
  have shift : ∀ q : ℝ → ℝ, (∀ x, q (x + 2 * Real.pi) = q x) →
      ∑ j ∈ range N, g (angle N j - angle N s) * q (angle N j)
        = ∑ j ∈ range N, g (angle N j) * q (angle N j + angle N s) := by
    intro q hq
    rw [← sum_range_periodic (H := fun j => g (angle N j - angle N s) * q (angle N j)) _ s]
    · refine sum_congr rfl fun j _ => ?_
      rw [angle_add]; congr 2; ring
    · intro j
      rw [angle_add, angle_self hN, hq, show angle N j + 2 * Real.pi - angle N s
        = angle N j - angle N s + 2 * Real.pi by ring, hg]
  unfold dft rotPair
  by_cases hk : k = 0
  · subst hk
    have := shift (fun _ => 1) (fun _ => rfl)
    simp only [mul_one] at this
    simp [this]
  · simp only [hk, if_false]
    have hc := shift (fun x => Real.cos (k * x)) (cos_period k)
    have hs := shift (fun x => Real.sin (k * x)) (sin_period k)
    simp only [angle] at hc hs ⊢
    rw [hc, hs]
    have e1 : ∀ j : ℕ, g (2 * Real.pi * j / N) * Real.cos (k * (2 * Real.pi * j / N + 2 * Real.pi * s / N))
        = g (2 * Real.pi * j / N) * Real.cos (k * (2 * Real.pi * j / N)) * Real.cos (k * (2 * Real.pi * s / N))
          - g (2 * Real.pi * j / N) * Real.sin (k * (2 * Real.pi * j / N)) * Real.sin (k * (2 * Real.pi * s / N)) := by
      intro j; rw [mul_add, Real.cos_add]; ring
    have e2 : ∀ j : ℕ, g (2 * Real.pi * j / N) * Real.sin (k * (2 * Real.pi * j / N + 2 * Real.pi * s / N))
        = g (2 * Real.pi * j / N) * Real.cos (k * (2 * Real.pi * j / N)) * Real.sin (k * (2 * Real.pi * s / N))
          + g (2 * Real.pi * j / N) * Real.sin (k * (2 * Real.pi * j / N)) * Real.cos (k * (2 * Real.pi * s / N)) := by
      intro j; rw [mul_add, Real.sin_add]; ring
    simp only [e1, e2, sum_sub_distrib, sum_add_distrib, ← sum_mul]
    refine Prod.ext ?_ ?_ <;> simp only <;> ring

theorem series_periodic (h : List ℕ) (c : ℕ → ℝ) (x : ℝ) : series h c (x + 2 * Real.pi) = series h c x := by
  induction h generalizing c with
  | nil => rfl
  | cons k hs ih => simp only [series, ih, cos_period, sin_period]

theorem coefOf_dft {h : List ℕ} (hh : Admissible h) {N : ℕ} (hN : ∀ m ∈ h, 2 * m < N) (c : ℕ → ℝ) {k : ℕ} (hk : k ∈ h) :
    coefOf h c k = dft N (fun j => series h c (angle N j)) k := by
  rw [← dftCoef_eq_dft, dftCoef_series hN (hN k hk) hh.nodup]

theorem coefOf_get {h : List ℕ} (hn : h.Nodup) (h0 : 0 ∉ h) (c : ℕ → ℝ) {i : ℕ} (hi : i < h.length) :
    coefOf h c (h.getD i 0) = (c (2*i), c (2*i + 1)) := by
  induction h generalizing c i with
  | nil => simp at hi
  | cons a hs ih =>
    have ha : a ≠ 0 := fun e => h0 (by simp [e])
    cases i with
    | zero => simp [coefOf, ha]
    | succ i =>
      have hi' : i < hs.length := by simpa using hi
      have hne : a ≠ hs.getD i 0 := by
        intro e
        apply (List.nodup_cons.1 hn).1
        rw [e, List.getD_eq_getElem _ _ hi']
        exact List.getElem_mem hi'
      rw [List.getD_cons_succ, coefOf, if_neg hne, ih (List.nodup_cons.1 hn).2 (fun e => h0 (List.mem_cons_of_mem _ e)) _ hi']
      simp only [ha, if_false]
      exact Prod.ext (by simp only; congr 1) (by simp only; congr 1)

/-- Coefficients of the listed harmonics that are not 0. -/
theorem coefOf_row {h : List ℕ} (hh : Admissible h) (c : ℕ → ℝ) {i : ℕ} (hi : i ∈ Ico (zi h) h.length) :
    coefOf h c (h.getD i 0) = (c (i*2 - zi h), c (i*2 - zi h + 1)) := by
  obtain ⟨h1, h2⟩ := mem_Ico.1 hi
  by_cases hz : 0 ∈ h
  · cases h with
    | nil => simp at hz
    | cons a hs =>
      have h0 : 0 ∉ hs := hh.zero_first
      have ha : a = 0 := by
        rcases List.mem_cons.1 hz with e | e
        · exact e.symm
        · exact absurd e h0
      subst ha
      have hz1 : zi (0 :: hs) = 1 := by simp [zi]
      rw [hz1] at h1 ⊢
      obtain ⟨i, rfl⟩ : ∃ j, i = j + 1 := ⟨i - 1, by omega⟩
      have hi' : i < hs.length := by simpa using h2
      have hne : (0:ℕ) ≠ hs.getD i 0 := by
        intro e
        apply h0
        rw [e, List.getD_eq_getElem _ _ hi']
        exact List.getElem_mem hi'
      rw [List.getD_cons_succ, coefOf, if_neg hne, coefOf_get (List.nodup_cons.1 hh.nodup).2 h0 _ hi']
      simp only [if_true]
      refine Prod.ext ?_ ?_ <;> simp only <;> congr 1 <;> omega
  · have hz0 : zi h = 0 := by
      unfold zi
      rw [if_neg]
      rintro ⟨e, hne⟩
      cases h with
      | nil => exact hne rfl
      | cons a hs => exact hz (by simp only [List.headI] at e; simp [e])
    rw [coefOf_get hh.nodup hz c h2, hz0]
    refine Prod.ext ?_ ?_ <;> simp only <;> congr 1 <;> omega

theorem mem_cases {h : List ℕ} (hh : Admissible h) {k : ℕ} (hk : k ∈ h) :
    (zi h = 1 ∧ k = 0) ∨ ∃ i ∈ Ico (zi h) h.length, k = h.getD i 0 := by
  obtain ⟨i, hi, rfl⟩ := List.getElem_of_mem hk
  by_cases h0 : zi h ≤ i
  · exact Or.inr ⟨i, mem_Ico.2 ⟨h0, hi⟩, (List.getD_eq_getElem _ _ hi).symm⟩
  · left
    have := zi_le_one h
    have hi0 : i = 0 := by omega
    subst hi0
    have hz : zi h = 1 := by omega
    refine ⟨hz, ?_⟩
    cases h with
    | nil => simp at hi
    | cons a hs =>
      unfold zi at hz
      by_contra hne
      rw [if_neg (fun e => hne e.1)] at hz
      simp at hz

/-- Coefficients of a rotated vector. -/
theorem coefOf_rsp {h : List ℕ} (hh : Admissible h) (nd : ℕ) (U : ℕ → ℝ) (p : ℝ) (q : ℕ) {d : ℕ} (hd : d < nd)
    {k : ℕ} (hk : k ∈ h) :
    coefOf h (fun r => rsp U nd h p q (r * nd + d)) k = rotPair k (p / q) (coefOf h (fun r => U (r * nd + d)) k) := by
  rcases mem_cases hh hk with ⟨hz, rfl⟩ | ⟨i, hi, rfl⟩
  · rw [coefOf_zero hh.zero_first, coefOf_zero hh.zero_first]
    unfold rotPair meanCoef
    have := rsp_rest (U := U) (h := h) (phase := p) (hRot := q) (R := 0) (d := d) (Ndof := nd) (Or.inl (by omega)) hd
    simp only [hz, if_true, Nat.cast_zero, zero_mul, Real.cos_zero, Real.sin_zero, mul_one, mul_zero, sub_zero, add_zero,
      zero_mul] at this ⊢
    simpa using this
  · rw [coefOf_row hh _ hi, coefOf_row hh _ hi, rsp_cos hi hd, rsp_sin hi hd]
    rfl

/-- Two vectors with the same coefficients in every DOF. -/
theorem eq_of_coefOf {h : List ℕ} (hh : Admissible h) {nd : ℕ} {F G : ℕ → ℝ}
    (he : ∀ d < nd, ∀ k ∈ h, coefOf h (fun r => F (r * nd + d)) k = coefOf h (fun r => G (r * nd + d)) k) :
    ∀ i < numCoeff h * nd, F i = G i := by
  intro i hi
  have hnd : 0 < nd := by
    rcases Nat.eq_zero_or_pos nd with e | e
    · subst e; simp at hi
    · exact e
  have := rows_of_coefOf hh.nodup (he (i % nd) (Nat.mod_lt _ hnd)) (i / nd) (Nat.div_lt_of_lt_mul (by rwa [mul_comm]))
  simp only [Nat.div_add_mod'] at this
  exact this

/-- The harmonic stiffness commutes with a time shift. -/
theorem stiff_rsp {h : List ℕ} (hh : Admissible h) (nd : ℕ) (M C K : ℕ → ℕ → ℝ) (w : ℝ) (U : ℕ → ℝ) (p : ℝ) (q : ℕ)
    (i : ℕ) (hi : i < numCoeff h * nd) :
    matVec (numCoeff h * nd) (hsE nd M C K w h false) (rsp U nd h p q) i
      = rsp (matVec (numCoeff h * nd) (hsE nd M C K w h false) U) nd h p q i := by
  refine eq_of_coefOf hh (fun d hd k hk => ?_) i hi
  rw [coefOf_rsp hh nd _ p q hd hk]
  rcases mem_cases hh hk with ⟨hz, rfl⟩ | ⟨i, hi, rfl⟩
  · rw [coefOf_zero hh.zero_first, coefOf_zero hh.zero_first]
    have e := fun V => hsE_mulVec_zero (nd := nd) M C K w (h := h) hz hd V false
    simp only [mul_zero, zero_add] at e
    unfold rotPair meanCoef
    simp only [hz, if_true, zero_mul, zero_add, e, Nat.cast_zero, Real.cos_zero, Real.sin_zero, mul_one, mul_zero,
      sub_zero, add_zero]
    refine Prod.ext ?_ rfl
    simp only
    refine sum_congr rfl fun e he => ?_
    have := rsp_rest (U := U) (h := h) (phase := p) (hRot := q) (R := 0) (d := e) (Ndof := nd) (Or.inl (by omega))
      (mem_range.1 he)
    simp only [zero_mul, zero_add] at this
    rw [this]
  · rw [coefOf_row hh _ hi, coefOf_row hh _ hi]
    have ec := fun V => hsE_mulVec_cos (nd := nd) M C K w hh.zero_first hi hd V false
    have es := fun V => hsE_mulVec_sin (nd := nd) M C K w hh.zero_first hi hd V false
    simp only [mul_comm nd] at ec es
    unfold rotPair
    rw [ec, es, ec, es]
    refine Prod.ext ?_ ?_
    · simp only [sum_mul, Bool.false_eq_true, if_false]
      rw [← sum_sub_distrib]
      refine sum_congr rfl fun e he => ?_
      rw [rsp_cos hi (mem_range.1 he), rsp_sin hi (mem_range.1 he)]; ring
    · simp only [sum_mul, Bool.false_eq_true, if_false]
      rw [← sum_add_distrib]
      refine sum_congr rfl fun e he => ?_
      rw [rsp_cos hi (mem_range.1 he), rsp_sin hi (mem_range.1 he)]; ring

/-- An index of a coefficient vector: the static part, or the cosine or sine part of a harmonic. -/
theorem idx_cases {h : List ℕ} (hh : Admissible h) {nd i : ℕ} (hi : i < numCoeff h * nd) :
    ∃ d < nd, (zi h = 1 ∧ i = 0 * nd + d) ∨
      ∃ j ∈ Ico (zi h) h.length, i = (j*2 - zi h) * nd + d ∨ i = (j*2 - zi h + 1) * nd + d := by
  have hnd : 0 < nd := by
    rcases Nat.eq_zero_or_pos nd with e | e
    · subst e; simp at hi
    · exact e
  have e := (Nat.div_add_mod' i nd).symm
  refine ⟨i % nd, Nat.mod_lt _ hnd, ?_⟩
  rcases row_cases hh.zero_first (R := i / nd) (Nat.div_lt_of_lt_mul (by rwa [mul_comm])) with ⟨hz, h0⟩ | ⟨j, hj, h1 | h1⟩
  · exact Or.inl ⟨hz, by rw [h0] at e; exact e⟩
  · exact Or.inr ⟨j, hj, Or.inl (by rw [h1] at e; exact e)⟩
  · exact Or.inr ⟨j, hj, Or.inr (by rw [h1] at e; exact e)⟩

theorem rsp_congr {h : List ℕ} (hh : Admissible h) {nd : ℕ} (p : ℝ) (q : ℕ) {a b : ℕ → ℝ}
    (hab : ∀ i < numCoeff h * nd, a i = b i) : ∀ i < numCoeff h * nd, rsp a nd h p q i = rsp b nd h p q i := by
  have hlt : ∀ R d, R < numCoeff h → d < nd → R * nd + d < numCoeff h * nd := fun R d hR hd => by
    have : (R + 1) * nd ≤ numCoeff h * nd := Nat.mul_le_mul_right _ hR
    rw [Nat.add_mul] at this; omega
  intro i hi
  obtain ⟨d, hd, ⟨hz, rfl⟩ | ⟨j, hj, rfl | rfl⟩⟩ := idx_cases hh hi
  · rw [rsp_rest (Or.inl (by omega)) hd, rsp_rest (Or.inl (by omega)) hd, hab _ hi]
  · have := pos_lt hh.zero_first hj
    rw [rsp_cos hj hd, rsp_cos hj hd, hab _ hi, hab _ (hlt _ d this hd)]
  · have := pos_lt hh.zero_first hj
    rw [rsp_sin hj hd, rsp_sin hj hd, hab _ hi, hab _ (hlt _ d (by omega) hd)]

theorem rsp_add {h : List ℕ} (hh : Admissible h) {nd : ℕ} (p : ℝ) (q : ℕ) (a b : ℕ → ℝ) :
    ∀ i < numCoeff h * nd, rsp (fun i => a i + b i) nd h p q i = rsp a nd h p q i + rsp b nd h p q i := by
  intro i hi
  obtain ⟨d, hd, ⟨hz, rfl⟩ | ⟨j, hj, rfl | rfl⟩⟩ := idx_cases hh hi
  · simp only [rsp_rest (h := h) (R := 0) (Or.inl (show 0 < zi h by omega)) hd]
  · simp only [rsp_cos hj hd]; ring
  · simp only [rsp_sin hj hd]; ring

theorem rsp_smul {h : List ℕ} (hh : Admissible h) {nd : ℕ} (p : ℝ) (q : ℕ) (c : ℝ) (a : ℕ → ℝ) :
    ∀ i < numCoeff h * nd, rsp (fun i => c * a i) nd h p q i = c * rsp a nd h p q i := by
  intro i hi
  obtain ⟨d, hd, ⟨hz, rfl⟩ | ⟨j, hj, rfl | rfl⟩⟩ := idx_cases hh hi
  · simp only [rsp_rest (h := h) (R := 0) (Or.inl (show 0 < zi h by omega)) hd]
  · simp only [rsp_cos hj hd]; ring
  · simp only [rsp_sin hj hd]; ring

theorem rsp_sub {h : List ℕ} (hh : Admissible h) {nd : ℕ} (p : ℝ) (q : ℕ) (a b : ℕ → ℝ) :
    ∀ i < numCoeff h * nd, rsp (fun i => a i - b i) nd h p q i = rsp a nd h p q i - rsp b nd h p q i := by
  intro i hi
  obtain ⟨d, hd, ⟨hz, rfl⟩ | ⟨j, hj, rfl | rfl⟩⟩ := idx_cases hh hi
  · simp only [rsp_rest (h := h) (R := 0) (Or.inl (show 0 < zi h by omega)) hd]
  · simp only [rsp_cos hj hd]; ring
  · simp only [rsp_sin hj hd]; ring

theorem rsp_listSum {α : Type} {h : List ℕ} (hh : Admissible h) {nd : ℕ} (p : ℝ) (q : ℕ) (l : List α) (g : α → ℕ → ℝ) :
    ∀ i < numCoeff h * nd, rsp (fun i => (l.map fun f => g f i).sum) nd h p q i
      = (l.map fun f => rsp (g f) nd h p q i).sum := by
  induction l with
  | nil =>
    intro i hi
    have := rsp_smul hh p q 0 (fun _ => 0) i hi
    simpa using this
  | cons f l ih =>
    intro i hi
    simp only [List.map_cons, List.sum_cons]
    rw [rsp_add hh p q _ _ i hi, ih i hi]

theorem rsp_tail {h : List ℕ} (hh : Admissible h) {nd : ℕ} (p : ℝ) (q : ℕ) (a : ℕ → ℝ) {i : ℕ}
    (hi : numCoeff h * nd ≤ i) : rsp a nd h p q i = a i := by
  obtain ⟨V, h1, -, h3⟩ := C11_rotation_is_time_shift h hh nd a p q
  rw [rsp_ok a nd hh.ne p q] at h1
  cases h1
  exact h3 i hi

theorem sl_rsp {h : List ℕ} (hh : Admissible h) {nd : ℕ} (p : ℝ) (q : ℕ) (Z : ℕ → ℝ) :
    sl 0 (numCoeff h * nd) (rsp Z nd h p q) = rsp (sl 0 (numCoeff h * nd) Z) nd h p q := by
  funext i
  by_cases hi : i < numCoeff h * nd
  · rw [sl_zero hi]
    exact rsp_congr hh p q (fun j hj => (sl_zero hj Z).symm) i hi
  · rw [rsp_tail hh p q _ (by omega)]
    simp [sl, hi]

theorem localMotion_rsp {h : List ℕ} (hh : Admissible h) (N : ℕ) (Q : ℕ → ℕ → ℝ) (U : ℕ → ℝ) (p : ℝ) (q : ℕ) (d : ℕ) (τ : ℝ) :
    localMotion N Q h (rsp U N h p q) d τ = localMotion N Q h U d (τ - p / q) := by
  obtain ⟨V, h1, h2, -⟩ := C11_rotation_is_time_shift h hh N U p q
  rw [rsp_ok U N hh.ne p q] at h1
  cases h1
  unfold localMotion
  exact sum_congr rfl fun e he => by rw [h2 e (mem_range.1 he) τ]

theorem localMotion_periodic (N : ℕ) (Q : ℕ → ℕ → ℝ) (h : List ℕ) (U : ℕ → ℝ) (d : ℕ) (x : ℝ) :
    localMotion N Q h U d (x + 2 * Real.pi) = localMotion N Q h U d x := by
  unfold localMotion
  exact sum_congr rfl fun e _ => by rw [series_periodic]

theorem localMotion_deriv_rsp {h : List ℕ} (hh : Admissible h) (N : ℕ) (Q : ℕ → ℕ → ℝ) (U : ℕ → ℝ) (p : ℝ) (q : ℕ) (d : ℕ)
    (τ : ℝ) :
    deriv (localMotion N Q h (rsp U N h p q) d) τ = deriv (localMotion N Q h U d) (τ - p / q) := by
  have : localMotion N Q h (rsp U N h p q) d = fun τ => localMotion N Q h U d (τ - p / q) :=
    funext fun τ => localMotion_rsp hh N Q U p q d τ
  rw [this, deriv_comp_sub_const]

theorem deriv_localMotion_periodic (N : ℕ) (Q : ℕ → ℕ → ℝ) (h : List ℕ) (U : ℕ → ℝ) (d : ℕ) (x : ℝ) :
    deriv (localMotion N Q h U d) (x + 2 * Real.pi) = deriv (localMotion N Q h U d) x := by
  rw [← deriv_comp_add_const]
  congr 1
  exact funext fun y => localMotion_periodic N Q h U d y

/-- The coefficients `b` describe the motions of `a`, delayed by the phase `φ` of the fundamental. -/
def Delayed (h : List ℕ) (nd : ℕ) (φ : ℝ) (a b : ℕ → ℝ) : Prop :=
  ∀ d < nd, ∀ τ, series h (fun r => b (r * nd + d)) τ = series h (fun r => a (r * nd + d)) (τ - φ)

theorem delayed_iff {h : List ℕ} (hh : Admissible h) {nd : ℕ} {φ : ℝ} {a b : ℕ → ℝ} :
    Delayed h nd φ a b ↔ ∀ i < numCoeff h * nd, b i = rsp a nd h φ 1 i := by
  obtain ⟨V, h1, h2, -⟩ := C11_rotation_is_time_shift h hh nd a φ 1
  rw [rsp_ok a nd hh.ne φ 1] at h1
  cases h1
  simp only [Nat.cast_one, div_one] at h2
  constructor
  · intro hd i hi
    refine eq_of_coefOf hh (fun d hd' k hk => ?_) i hi
    have hN : ∀ m ∈ h, 2 * m < 2 * h.sum + 1 := fun m hm => by
      have := List.single_le_sum (by simp) m hm
      omega
    rw [coefOf_dft hh hN _ hk, coefOf_dft hh hN _ hk]
    congr 1
    funext j
    rw [hd d hd', h2 d hd']
  · intro he d hd τ
    rw [← h2 d hd τ]
    refine series_congr (fun r hr => he _ ?_) τ
    have : (r + 1) * nd ≤ numCoeff h * nd := Nat.mul_le_mul_right _ hr
    rw [Nat.add_mul] at this; omega

theorem delayed_congr {h : List ℕ} (hh : Admissible h) {nd : ℕ} {φ : ℝ} {a b a' b' : ℕ → ℝ}
    (ha : ∀ i < numCoeff h * nd, a i = a' i) (hb : ∀ i < numCoeff h * nd, b i = b' i)
    (H : Delayed h nd φ a b) : Delayed h nd φ a' b' := by
  rw [delayed_iff hh] at H ⊢
  intro i hi
  rw [← hb i hi, H i hi]
  exact rsp_congr hh φ 1 ha i hi

theorem rsp_harmScale {h : List ℕ} (hh : Admissible h) {nd : ℕ} (p : ℝ) (q : ℕ) (x y : ℝ) (a : ℕ → ℝ) :
    ∀ i < numCoeff h * nd, rsp (fun i => harmScale (zi h) nd x y i * a i) nd h p q i
      = harmScale (zi h) nd x y i * rsp a nd h p q i := by
  have hrow : ∀ R d, d < nd → harmScale (zi h) nd x y (R * nd + d) = if R < zi h then x else y := fun R d hd => by
    unfold harmScale
    rw [show (R * nd + d) / nd = R by
      rw [mul_comm, Nat.mul_add_div (by omega), Nat.div_eq_of_lt hd, add_zero]]
  intro i hi
  obtain ⟨d, hd, ⟨hz, rfl⟩ | ⟨j, hj, rfl | rfl⟩⟩ := idx_cases hh hi
  · simp only [rsp_rest (h := h) (R := 0) (Or.inl (show 0 < zi h by omega)) hd]
  · have := mem_Ico.1 hj
    have hz := zi_le_one h
    simp only [rsp_cos hj hd, hrow _ d hd, show ¬ j*2 - zi h < zi h by omega, show ¬ j*2 - zi h + 1 < zi h by omega, if_false]
    ring
  · have := mem_Ico.1 hj
    have hz := zi_le_one h
    simp only [rsp_sin hj hd, hrow _ d hd, show ¬ j*2 - zi h < zi h by omega, show ¬ j*2 - zi h + 1 < zi h by omega, if_false]
    ring

theorem quad_rsp {h : List ℕ} (hh : Admissible h) (hp : zi h + 2 ≤ numCoeff h) (nd : ℕ) (M : ℕ → ℕ → ℝ) {X Y : ℕ → ℝ} (p : ℝ) (q : ℕ)
    (hY : ∀ i < numCoeff h * nd, Y i = rsp X nd h p q i) :
    quad nd M (zi h) Y + quad nd M (zi h + 1) Y = quad nd M (zi h) X + quad nd M (zi h + 1) X := by
  have hz := zi_le_one h
  have hlen : zi h < h.length := by
    have := numCoeff_eq hh.zero_first
    omega
  have hj : zi h ∈ Ico (zi h) h.length := mem_Ico.2 ⟨le_rfl, hlen⟩
  have hlt : ∀ R d, R < numCoeff h → d < nd → R * nd + d < numCoeff h * nd := fun R d hR hd => by
    have : (R + 1) * nd ≤ numCoeff h * nd := Nat.mul_le_mul_right _ hR
    rw [Nat.add_mul] at this; omega
  have e : zi h * 2 - zi h = zi h := by omega
  have hc : ∀ d < nd, Y (zi h * nd + d) = X (zi h * nd + d) * Real.cos ((h.getD (zi h) 0 : ℕ) * (p / q))
        - X ((zi h + 1) * nd + d) * Real.sin ((h.getD (zi h) 0 : ℕ) * (p / q)) := fun d hd => by
    have := rsp_cos (U := X) (phase := p) (hRot := q) hj hd
    rw [e] at this
    rw [hY _ (hlt _ d (by omega) hd), this]
  have hs : ∀ d < nd, Y ((zi h + 1) * nd + d) = X (zi h * nd + d) * Real.sin ((h.getD (zi h) 0 : ℕ) * (p / q))
        + X ((zi h + 1) * nd + d) * Real.cos ((h.getD (zi h) 0 : ℕ) * (p / q)) := fun d hd => by
    have := rsp_sin (U := X) (phase := p) (hRot := q) hj hd
    rw [e] at this
    rw [hY _ (hlt _ d (by omega) hd), this]
  have h1 := Real.sin_sq_add_cos_sq ((h.getD (zi h) 0 : ℕ) * (p / q))
  generalize Real.cos ((h.getD (zi h) 0 : ℕ) * (p / q)) = c at *
  generalize Real.sin ((h.getD (zi h) 0 : ℕ) * (p / q)) = s at *
  unfold quad ctrl
  simp only [mul_sum]
  rw [← sum_add_distrib, ← sum_add_distrib]
  refine sum_congr rfl fun d hd => ?_
  rw [← sum_add_distrib, ← sum_add_distrib]
  refine sum_congr rfl fun k hk => ?_
  rw [hc d (mem_range.1 hd), hc k (mem_range.1 hk), hs d (mem_range.1 hd), hs k (mem_range.1 hk)]
  linear_combination (M d k * (X (zi h * nd + d) * X (zi h * nd + k) + X ((zi h + 1) * nd + d) * X ((zi h + 1) * nd + k))) * h1

end

end TMD
