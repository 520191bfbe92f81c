import Verif.Lemmas.Interp
import Verif.Spec.Interp
import Mathlib.Analysis.Calculus.Deriv.Pow
import Mathlib.Analysis.Calculus.Deriv.Add
import Mathlib.Analysis.Calculus.Deriv.Mul
import Mathlib.Tactic.Linarith
import Mathlib.Tactic.FieldSimp
import Mathlib.Tactic.NormNum

/-! # Properties of cubic Hermite interpolation of continuation results -/

namespace TMD

/-- The cubic on interval `k`. -/
noncomputable def hermitePiece (x y d : ℕ → ℝ) (k : ℕ) (v : ℝ) : ℝ :=
  let c := hermiteCoef x y d k
  c.1 * (v - x k) ^ 3 + c.2.1 * (v - x k) ^ 2 + c.2.2.1 * (v - x k) + c.2.2.2

theorem hermiteEval_piece {n : ℕ} {x y d : ℕ → ℝ} (h : diffPos n x) {k : ℕ} (hk : k + 1 < n) {v : ℝ}
    (h1 : x k ≤ v) (h2 : v < x (k + 1) ∨ (k + 2 = n ∧ v = x (k + 1))) :
    hermiteEval n x y d v = some (hermitePiece x y d k v) := by
  have a := diffPos_le h (Nat.zero_le k) (by omega)
  have b := diffPos_le h (by omega : k + 1 ≤ n - 1) (by omega)
  have hv : v ≤ x (k + 1) := by rcases h2 with h2 | h2; exacts [h2.le, h2.2.le]
  have e : min (lastLe x v (n - 1)) (n - 2) = k := by
    rcases h2 with h2 | ⟨h2, h3⟩
    · rw [lastLe_bracket h (by omega) h1 fun _ => h2]; omega
    · rw [lastLe_bracket h (by omega : k + 1 < n) h3.ge (by omega)]; omega
  unfold hermiteEval
  rw [if_neg (by push Not; constructor <;> linarith)]
  simp only [e]
  rfl

theorem hasDerivAt_cubic (a b c e v : ℝ) :
    HasDerivAt (fun v => a * v ^ 3 + b * v ^ 2 + c * v + e) (3 * a * v ^ 2 + 2 * b * v + c) v := by
  have h := ((((hasDerivAt_pow 3 v).const_mul a).add ((hasDerivAt_pow 2 v).const_mul b)).add
    ((hasDerivAt_id v).const_mul c)).add_const e
  refine (h.congr_deriv ?_).congr_of_eventuallyEq ?_
  · push_cast; ring
  · exact Filter.Eventually.of_forall fun w => rfl

theorem hermitePiece_cubic (x y d : ℕ → ℝ) (k : ℕ) : ∃ a b c e : ℝ,
    (∀ v, hermitePiece x y d k v = a * v ^ 3 + b * v ^ 2 + c * v + e) ∧
    ∀ v, 3 * a * v ^ 2 + 2 * b * v + c = 3 * (hermiteCoef x y d k).1 * (v - x k) ^ 2 +
      2 * (hermiteCoef x y d k).2.1 * (v - x k) + (hermiteCoef x y d k).2.2.1 := by
  rcases hc : hermiteCoef x y d k with ⟨p, q, r, s⟩
  refine ⟨p, q - 3 * p * x k, r - 2 * q * x k + 3 * p * x k ^ 2, s - r * x k + q * x k ^ 2 - p * x k ^ 3,
    fun v => ?_, fun v => ?_⟩
  · unfold hermitePiece; simp only [hc]; ring
  · simp only; ring

theorem hermitePiece_left (x y d : ℕ → ℝ) (k : ℕ) : hermitePiece x y d k (x k) = y k := by
  unfold hermitePiece hermiteCoef; simp

theorem hermitePiece_right {x : ℕ → ℝ} (y d : ℕ → ℝ) {k : ℕ} (h : x k < x (k + 1)) :
    hermitePiece x y d k (x (k + 1)) = y (k + 1) := by
  have h' : x (k + 1) - x k ≠ 0 := by linarith [sub_pos.2 h]
  unfold hermitePiece hermiteCoef
  simp only
  field_simp
  ring

theorem hermitePiece_deriv (x y d : ℕ → ℝ) (k : ℕ) (v : ℝ) : HasDerivAt (hermitePiece x y d k)
    (3 * (hermiteCoef x y d k).1 * (v - x k) ^ 2 + 2 * (hermiteCoef x y d k).2.1 * (v - x k) +
      (hermiteCoef x y d k).2.2.1) v := by
  obtain ⟨a, b, c, e, h1, h2⟩ := hermitePiece_cubic x y d k
  rw [← h2 v, show hermitePiece x y d k = fun v => a * v ^ 3 + b * v ^ 2 + c * v + e from funext h1]
  exact hasDerivAt_cubic a b c e v

theorem hermitePiece_deriv_left (x y d : ℕ → ℝ) (k : ℕ) : HasDerivAt (hermitePiece x y d k) (d k) (x k) := by
  refine (hermitePiece_deriv x y d k (x k)).congr_deriv ?_
  unfold hermiteCoef; simp

theorem hermitePiece_deriv_right {x : ℕ → ℝ} (y d : ℕ → ℝ) {k : ℕ} (h : x k < x (k + 1)) :
    HasDerivAt (hermitePiece x y d k) (d (k + 1)) (x (k + 1)) := by
  have h' : x (k + 1) - x k ≠ 0 := by linarith [sub_pos.2 h]
  refine (hermitePiece_deriv x y d k (x (k + 1))).congr_deriv ?_
  unfold hermiteCoef
  simp only
  field_simp
  ring

/-- On the closed interval the spline is the cubic. -/
theorem hermiteEval_closed {n : ℕ} {x y d : ℕ → ℝ} (h : diffPos n x) {k : ℕ} (hk : k + 1 < n) {v : ℝ}
    (h1 : x k ≤ v) (h2 : v ≤ x (k + 1)) : hermiteEval n x y d v = some (hermitePiece x y d k v) := by
  rcases h2.lt_or_eq with h3 | h3
  · exact hermiteEval_piece h hk h1 (.inl h3)
  · by_cases hl : k + 2 = n
    · exact hermiteEval_piece h hk h1 (.inr ⟨hl, h3⟩)
    · rw [hermiteEval_piece h (k := k + 1) (by omega) h3.ge
        (.inl (h3 ▸ diffPos_lt h (by omega) (by omega))), h3, hermitePiece_left,
        hermitePiece_right y d (diffPos_lt h (by omega) (by omega))]

variable {M N : ℕ} {X G : ℕ → ℕ → ℝ}

/-- Valid data: the parameter (last column) increases and its gradient is positive. -/
def HermiteData (M N : ℕ) (X G : ℕ → ℕ → ℝ) : Prop :=
  2 ≤ M ∧ (∀ k, k + 1 < M → X k N < X (k + 1) N) ∧ ∀ k < M, 0 < G k N

theorem HermiteData.diffPos (h : HermiteData M N X G) : diffPos M (fun k => X k N) :=
  fun k hk => by have := h.2.1 k hk; linarith

theorem hermiteInterp_ok (h : HermiteData M N X G) {lams : List ℝ} (hl : lams ≠ [])
    (hr : ∀ v ∈ lams, X 0 N ≤ v ∧ v ≤ X (M - 1) N) :
    hermiteInterp M N X G lams = .ok (lams.map (hermiteRow M N X G)) := by
  unfold hermiteInterp
  rw [if_neg (not_not.2 h.diffPos), if_neg (not_not.2 h.2.2), if_neg hl, if_neg (by have := h.1; omega),
    if_neg (not_not.2 fun v hv => (hr v hv).2), if_neg (not_not.2 fun v hv => (hr v hv).1),
    if_neg (by have := h.1; omega)]

/-- C61: for valid data and requests within the range the result has one row per request, the last column is the
requested value, and every other column `c` is, on each interval, one cubic polynomial that has at both ends the
data value and the data slope `dX/dlam`. -/
theorem C61_cubic (h : HermiteData M N X G) {lams : List ℝ} (hl : lams ≠ [])
    (hr : ∀ v ∈ lams, X 0 N ≤ v ∧ v ≤ X (M - 1) N) :
    ∃ out, hermiteInterp M N X G lams = .ok out ∧ List.Forall₂ (fun v row => row N = some v) lams out ∧
      ∀ c < N, ∀ k, k + 1 < M → ∃ p, IsCubic p ∧ p (X k N) = X k c ∧ p (X (k + 1) N) = X (k + 1) c ∧
        HasDerivAt p (G k c / G k N) (X k N) ∧ HasDerivAt p (G (k + 1) c / G (k + 1) N) (X (k + 1) N) ∧
        List.Forall₂ (fun v row => X k N ≤ v → v ≤ X (k + 1) N → row c = some (p v)) lams out := by
  refine ⟨_, hermiteInterp_ok h hl hr, ?_, fun c hc k hk => ?_⟩
  · rw [List.forall₂_map_right_iff, List.forall₂_same]
    intro v _
    simp [hermiteRow]
  · have hx := h.2.1 k hk
    refine ⟨hermitePiece (fun k => X k N) (fun k => X k c) (fun k => G k c / G k N) k, ?_,
      hermitePiece_left _ _ _ k, hermitePiece_right _ _ hx, hermitePiece_deriv_left _ _ _ k,
      hermitePiece_deriv_right _ _ hx, ?_⟩
    · obtain ⟨a, b, c, e, h1, -⟩ := hermitePiece_cubic (fun k => X k N) (fun k => X k c) (fun k => G k c / G k N) k
      exact ⟨a, b, c, e, h1⟩
    · rw [List.forall₂_map_right_iff, List.forall₂_same]
      intro v _ h1 h2
      unfold hermiteRow
      rw [if_pos hc]
      exact hermiteEval_closed h.diffPos hk h1 h2

/-- C61: at the parameter value of a data point the result is the data point. -/
theorem C61_points (h : HermiteData M N X G) {k : ℕ} (hk : k < M) :
    ∃ row, hermiteInterp M N X G [X k N] = .ok [row] ∧ ∀ c ≤ N, row c = some (X k c) := by
  have hd := h.diffPos
  have hM := h.1
  refine ⟨_, hermiteInterp_ok h (by simp) ?_, fun c hc => ?_⟩
  · simp only [List.mem_singleton, forall_eq]
    exact ⟨diffPos_le hd (Nat.zero_le k) hk, diffPos_le hd (by omega : k ≤ M - 1) (by omega)⟩
  · unfold hermiteRow
    split
    · by_cases hl : k + 1 < M
      · rw [hermiteEval_closed hd hl le_rfl (h.2.1 k hl).le]
        congr 1
        exact hermitePiece_left (fun k => X k N) (fun k => X k c) _ k
      · obtain ⟨j, rfl⟩ : ∃ j, k = j + 1 := ⟨k - 1, by omega⟩
        rw [hermiteEval_closed hd hk (h.2.1 j hk).le le_rfl]
        congr 1
        exact hermitePiece_right (x := fun k => X k N) (fun k => X k c) _ (h.2.1 j hk)
    · have : c = N := by omega
      rw [this]

/-- C61: the interpolant, as a function of the parameter, has at every data point the data slope: the pieces join
with a continuous derivative. -/
theorem C61_slopes (h : HermiteData M N X G) {c : ℕ} (hc : c < N) (S : ℝ → ℝ)
    (hS : ∀ v, X 0 N ≤ v → v ≤ X (M - 1) N → ∃ row, hermiteInterp M N X G [v] = .ok [row] ∧ row c = some (S v))
    {k : ℕ} (hk : k < M) : HasDerivWithinAt S (G k c / G k N) (Set.Icc (X 0 N) (X (M - 1) N)) (X k N) := by
  have hd := h.diffPos
  have hM := h.1
  have hp : ∀ j, j + 1 < M → ∀ v, X j N ≤ v → v ≤ X (j + 1) N →
      S v = hermitePiece (fun k => X k N) (fun k => X k c) (fun k => G k c / G k N) j v := by
    intro j hj v h1 h2
    have a := diffPos_le hd (Nat.zero_le j) (by omega)
    have b := diffPos_le hd (by omega : j + 1 ≤ M - 1) (by omega)
    have a' : X 0 N ≤ v := le_trans a h1
    have b' : v ≤ X (M - 1) N := le_trans h2 b
    obtain ⟨row, e1, e2⟩ := hS v a' b'
    rw [hermiteInterp_ok h (by simp) (by simpa using ⟨a', b'⟩)] at e1
    simp only [List.map_cons, List.map_nil, Except.ok.injEq, List.cons.injEq, and_true] at e1
    rw [← e1] at e2
    unfold hermiteRow at e2
    rw [if_pos hc, hermiteEval_closed hd hj h1 h2] at e2
    exact (Option.some.inj e2).symm
  have hleft : HasDerivWithinAt S (G k c / G k N) (Set.Icc (X 0 N) (X (M - 1) N) ∩ Set.Iic (X k N)) (X k N) := by
    rcases Nat.eq_zero_or_pos k with rfl | hk0
    · refine HasDerivWithinAt.mono (t := {X 0 N}) (HasFDerivWithinAt.of_subsingleton Set.subsingleton_singleton) fun v hv => ?_
      exact le_antisymm hv.2 hv.1.1
    · obtain ⟨j, rfl⟩ : ∃ j, k = j + 1 := ⟨k - 1, by omega⟩
      have hx := h.2.1 j hk
      have q := (hermitePiece_deriv_right (x := fun k => X k N) (fun k => X k c) (fun k => G k c / G k N)
        hx).hasDerivWithinAt (s := Set.Icc (X 0 N) (X (M - 1) N) ∩ Set.Iic (X (j + 1) N))
      refine q.congr_of_eventuallyEq ?_ (hp j hk _ hx.le le_rfl)
      filter_upwards [self_mem_nhdsWithin, mem_nhdsWithin_of_mem_nhds (Ioi_mem_nhds hx)] with v hv hv2
      exact hp j hk v (le_of_lt hv2) hv.2
  have hright : HasDerivWithinAt S (G k c / G k N) (Set.Icc (X 0 N) (X (M - 1) N) ∩ Set.Ici (X k N)) (X k N) := by
    by_cases hl : k + 1 < M
    · have hx := h.2.1 k hl
      have q := (hermitePiece_deriv_left (fun k => X k N) (fun k => X k c) (fun k => G k c / G k N)
        k).hasDerivWithinAt (s := Set.Icc (X 0 N) (X (M - 1) N) ∩ Set.Ici (X k N))
      refine q.congr_of_eventuallyEq ?_ (hp k hl _ le_rfl hx.le)
      filter_upwards [self_mem_nhdsWithin, mem_nhdsWithin_of_mem_nhds (Iio_mem_nhds hx)] with v hv hv2
      exact hp k hl v hv.2 (le_of_lt hv2)
    · have : k = M - 1 := by omega
      subst this
      refine HasDerivWithinAt.mono (t := {X (M - 1) N}) (HasFDerivWithinAt.of_subsingleton Set.subsingleton_singleton) fun v hv => ?_
      exact le_antisymm hv.1.2 hv.2
  refine (hleft.union hright).mono fun v hv => ?_
  rcases le_total v (X k N) with q | q
  · exact .inl ⟨hv, q⟩
  · exact .inr ⟨hv, q⟩

/-- C61: data sampled from a cubic curve are reproduced exactly everywhere in the range, so the polynomial of
`C61_cubic` is the only one with these end values and slopes. -/
theorem C61_exact (h : HermiteData M N X G) {c k : ℕ} (hc : c < N) (hk : k + 1 < M) {q : ℝ → ℝ} (hq : IsCubic q)
    (h1 : q (X k N) = X k c) (h2 : q (X (k + 1) N) = X (k + 1) c)
    (h3 : HasDerivAt q (G k c / G k N) (X k N)) (h4 : HasDerivAt q (G (k + 1) c / G (k + 1) N) (X (k + 1) N))
    {v : ℝ} (hv1 : X k N ≤ v) (hv2 : v ≤ X (k + 1) N) :
    ∃ row, hermiteInterp M N X G [v] = .ok [row] ∧ row c = some (q v) := by
  have hd := h.diffPos
  have a := diffPos_le hd (Nat.zero_le k) (by omega)
  have b := diffPos_le hd (by omega : k + 1 ≤ M - 1) (by omega)
  refine ⟨_, hermiteInterp_ok h (by simp) (by simpa using ⟨le_trans a hv1, le_trans hv2 b⟩), ?_⟩
  unfold hermiteRow
  rw [if_pos hc, hermiteEval_closed hd hk hv1 hv2]
  congr 1
  obtain ⟨α, β, γ, δ, e⟩ := hq
  have hq' : q = fun v => α * v ^ 3 + β * v ^ 2 + γ * v + δ := funext e
  rw [hq'] at h3 h4
  have d1 := h3.unique (hasDerivAt_cubic α β γ δ _)
  have d2 := h4.unique (hasDerivAt_cubic α β γ δ _)
  have hx : X (k + 1) N - X k N ≠ 0 := by linarith [sub_pos.2 (h.2.1 k hk)]
  rw [e] at h1 h2
  unfold hermitePiece hermiteCoef
  simp only
  rw [d1, d2, ← h1, ← h2, e]
  field_simp
  ring

theorem diffPos_cast (n : ℕ) : diffPos n (fun k => (k : ℝ)) := fun k _ => by push_cast; linarith

/-- Entry `k * freq + i` of the new parameter values. -/
theorem upsampleLams_value {freq k i : ℕ} (hf : 0 < freq) (hk : k + 1 < M) (hi : i ≤ freq) :
    (upsampleLams M N X freq)[k * freq + i]? = some (X k N + i / freq * (X (k + 1) N - X k N)) := by
  have hlt : k * freq + i < (M - 1) * freq + 1 := by
    have : (k + 1) * freq ≤ (M - 1) * freq := Nat.mul_le_mul_right _ (by omega)
    have e : (k + 1) * freq = k * freq + freq := by ring
    omega
  have hpos : 0 < (M - 1) * freq := Nat.mul_pos (by omega) hf
  unfold upsampleLams
  rw [List.getElem?_map, List.getElem?_range hlt]
  simp only [Option.map_some, Option.some.injEq]
  have hf' : (0 : ℝ) < freq := by exact_mod_cast hf
  have hs : linspace0 ((M : ℝ) - 1) ((M - 1) * freq + 1) (k * freq + i) = k + i / freq := by
    unfold linspace0
    rw [if_neg (by omega)]
    have hM : ((M - 1 : ℕ) : ℝ) = (M : ℝ) - 1 := by rw [Nat.cast_sub (by omega)]; simp
    have hM' : (0 : ℝ) < (M : ℝ) - 1 := by rw [← hM]; exact_mod_cast (by omega : 0 < M - 1)
    push_cast
    rw [hM]
    have hne := hM'.ne'
    have hne2 := hf'.ne'
    rw [add_sub_cancel_right]
    field_simp
  rw [hs]
  rcases Nat.lt_or_eq_of_le hi with h1 | h1
  · have hlt1 : (i : ℝ) / freq < 1 := by rw [div_lt_one hf']; exact_mod_cast h1
    have h0 : 0 ≤ (i : ℝ) / freq := by positivity
    rw [npInterp_bracket (diffPos_cast M) hk (by linarith) (by push_cast; linarith)]
    simp
  · subst h1
    rw [div_self hf'.ne']
    have := npInterp_node (fp := fun k => X k N) (l := some (X 0 N)) (r := some (X (M - 1) N)) (diffPos_cast M) hk
    push_cast at this
    rw [this]
    simp

theorem upsampleLams_length (freq : ℕ) : (upsampleLams M N X freq).length = (M - 1) * freq + 1 := by
  simp [upsampleLams]

/-- C61: upsampling by `freq` gives `(M-1)*freq + 1` rows, the original points are the rows `k*freq`, and the
parameter values between neighbours are equally spaced. -/
theorem C61_upsample (h : HermiteData M N X G) {freq : ℕ} (hf : 0 < freq) :
    ∃ out, hermiteUpsample M N X G freq none = .ok out ∧ out.length = (M - 1) * freq + 1 ∧
      (∀ k < M, ∃ row, out[k * freq]? = some row ∧ ∀ c ≤ N, row c = some (X k c)) ∧
      ∀ k i, k + 1 < M → i ≤ freq → ∃ row, out[k * freq + i]? = some row ∧
        row N = some (X k N + i / freq * (X (k + 1) N - X k N)) := by
  have hd := h.diffPos
  have hM := h.1
  have hf' : (0 : ℝ) < freq := by exact_mod_cast hf
  have hval : ∀ j < (M - 1) * freq + 1, ∃ k i, k + 1 < M ∧ i ≤ freq ∧ j = k * freq + i := by
    intro j hj
    by_cases hl : j = (M - 1) * freq
    · refine ⟨M - 2, freq, by omega, le_rfl, ?_⟩
      rw [hl, show M - 1 = (M - 2) + 1 by omega]; ring
    · refine ⟨j / freq, j % freq, ?_, (Nat.mod_lt _ hf).le, ?_⟩
      · have : j / freq < M - 1 := (Nat.div_lt_iff_lt_mul hf).2 (by omega)
        omega
      · rw [mul_comm]; exact (Nat.div_add_mod j freq).symm
  have hr : ∀ v ∈ upsampleLams M N X freq, X 0 N ≤ v ∧ v ≤ X (M - 1) N := by
    intro v hv
    obtain ⟨j, hj, e⟩ := List.getElem_of_mem hv
    rw [upsampleLams_length] at hj
    obtain ⟨k, i, hk, hi, rfl⟩ := hval j hj
    have e2 := upsampleLams_value (N := N) (X := X) hf hk hi
    rw [List.getElem?_eq_getElem (by rw [upsampleLams_length]; exact hj), e] at e2
    rw [Option.some.inj e2]
    have a := diffPos_le hd (Nat.zero_le k) (by omega)
    have b := diffPos_le hd (by omega : k + 1 ≤ M - 1) (by omega)
    have d := h.2.1 k hk
    have t0 : 0 ≤ (i : ℝ) / freq := by positivity
    have t1 : (i : ℝ) / freq ≤ 1 := by rw [div_le_one hf']; exact_mod_cast hi
    constructor <;> nlinarith
  have hne : upsampleLams M N X freq ≠ [] := by
    intro e; have := upsampleLams_length (M := M) (N := N) (X := X) freq; rw [e] at this; simp at this
  refine ⟨(upsampleLams M N X freq).map (hermiteRow M N X G), ?_, ?_, fun k hk => ?_, fun k i hk hi => ?_⟩
  · unfold hermiteUpsample
    simp only
    rw [if_neg (by omega), hermiteInterp_ok h hne hr]
  · rw [List.length_map, upsampleLams_length]
  · have e : (upsampleLams M N X freq)[k * freq]? = some (X k N) := by
      by_cases hl : k + 1 < M
      · have := upsampleLams_value (N := N) (X := X) hf hl (Nat.zero_le freq)
        simpa using this
      · obtain ⟨j, rfl⟩ : ∃ j, k = j + 1 := ⟨k - 1, by omega⟩
        have := upsampleLams_value (N := N) (X := X) hf hk (le_refl freq)
        rw [div_self hf'.ne'] at this
        rw [show (j + 1) * freq = j * freq + freq by ring, this]
        simp
    obtain ⟨row, r1, r2⟩ := C61_points h hk
    rw [hermiteInterp_ok h (by simp) (by
      simp only [List.mem_singleton, forall_eq]
      exact ⟨diffPos_le hd (Nat.zero_le k) hk, diffPos_le hd (by omega : k ≤ M - 1) (by omega)⟩)] at r1
    simp only [List.map_cons, List.map_nil, Except.ok.injEq, List.cons.injEq, and_true] at r1
    exact ⟨row, by rw [List.getElem?_map, e, Option.map_some, r1], r2⟩
  · exact ⟨_, by rw [List.getElem?_map, upsampleLams_value hf hk hi, Option.map_some], by simp [hermiteRow]⟩

/-- C61: data with a non-increasing parameter or a non-positive parameter gradient, and requests out of range, are
rejected. -/
theorem C61_rejected (lams : List ℝ) (hl : lams ≠ []) (hM : 0 < M)
    (h : (∃ k, k + 1 < M ∧ X (k + 1) N ≤ X k N) ∨ (∃ k < M, G k N ≤ 0) ∨ (∃ v ∈ lams, v < X 0 N ∨ X (M - 1) N < v)) :
    hermiteInterp M N X G lams = .error .assertion := by
  unfold hermiteInterp
  by_cases h1 : diffPos M (fun k => X k N)
  · rw [if_neg (not_not.2 h1)]
    by_cases h2 : ∀ k < M, 0 < G k N
    · rw [if_neg (not_not.2 h2), if_neg hl, if_neg hM.ne']
      by_cases h3 : ∀ v ∈ lams, v ≤ X (M - 1) N
      · rw [if_neg (not_not.2 h3), if_pos]
        intro h4
        rcases h with ⟨k, hk, h⟩ | ⟨k, hk, h⟩ | ⟨v, hv, h | h⟩
        · have := h1 k hk; simp only at this; linarith
        · linarith [h2 k hk]
        · linarith [h4 v hv]
        · linarith [h3 v hv]
      · rw [if_pos h3]
    · rw [if_pos h2]
  · rw [if_pos h1]

/-- The cubic `lam ^ 3` sampled at `0, 1, 2` with its slopes is reproduced at `1/2`. -/
example : ∃ row, hermiteInterp 3 1 (fun k c => if c = 0 then (k : ℝ) ^ 3 else k)
    (fun k c => if c = 0 then 3 * (k : ℝ) ^ 2 else 1) [1/2] = .ok [row] ∧ row 0 = some (1/8) := by
  have h : HermiteData 3 1 (fun k c => if c = 0 then (k : ℝ) ^ 3 else k)
      (fun k c => if c = 0 then 3 * (k : ℝ) ^ 2 else 1) :=
    ⟨by norm_num, fun k _ => by simp, fun k _ => by simp⟩
  have hder : ∀ v, HasDerivAt (fun v : ℝ => v ^ 3) (3 * v ^ 2) v := fun v => by simpa using hasDerivAt_pow 3 v
  obtain ⟨row, h1, h2⟩ := C61_exact (c := 0) (k := 0) h (by norm_num) (by norm_num) (q := fun v => v ^ 3)
    ⟨1, 0, 0, 0, fun v => by ring⟩ (by simp) (by simp)
    ((hder _).congr_deriv (by simp)) ((hder _).congr_deriv (by simp)) (v := 1/2) (by norm_num) (by norm_num)
  exact ⟨row, h1, by rw [h2]; norm_num⟩

end TMD
