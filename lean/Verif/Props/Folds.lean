import Verif.Props.Continuation

/-!
# C120: folds

The curve of solutions has a fold where the Jacobian `dRdX` is singular. The continuation passes it as long as the matrices of
the predictor (continuation.py:295-307) and of the corrector (continuation.py:490-536) are regular. `Regular` and `Tangent` do
not refer to the code.
-/

namespace TMD

open Spec Finset

variable {sv : ContSolver} {N : ℕ} {f : ContFun}

/-- The square matrix has no kernel. -/
def Regular (n : ℕ) (M : ℕ → ℕ → ℝ) : Prop := ∀ v : ℕ → ℝ, (∀ i < n, ∑ j ∈ range n, M i j * v j = 0) → ∀ j < n, v j = 0

/-- `t` is a tangent of the solution set, in physical coordinates. -/
def Tangent (N : ℕ) (o : ContOut) (t : ℕ → ℝ) : Prop := ∀ i < N, (∑ j ∈ range N, o.J i j * t j) + o.d i * t N = 0

/-- The solution set is a curve: its tangents are the multiples of one of them. -/
def IsCurve (N : ℕ) (o : ContOut) : Prop :=
  ∀ u v : ℕ → ℝ, Tangent N o u → Tangent N o v → (∃ i ≤ N, u i ≠ 0) → ∃ s : ℝ, ∀ i ≤ N, v i = s * u i

theorem tangent_scaled {C : ℕ → ℝ} (o : ContOut) (v : ℕ → ℝ) {i : ℕ} :
    ∑ j ∈ range (N + 1), (if j < N then o.J i j * C j else o.d i * C N) * v j
      = (∑ j ∈ range N, o.J i j * (C j * v j)) + o.d i * (C N * v N) := by
  rw [sum_range_succ, if_neg (lt_irrefl N)]
  congr 1
  · refine sum_congr rfl fun j hj => ?_
    rw [if_pos (mem_range.1 hj)]; ring
  · ring

/-- A matrix with the conditioned gradient above a row `a`. -/
theorem regular_bordered {C : ℕ → ℝ} (hC : ∀ i ≤ N, 0 < C i) (o : ContOut) {r : ℝ} (hr : r ≠ 0) (a : ℕ → ℝ) (M : ℕ → ℕ → ℝ)
    (hM : ∀ i < N, ∀ j < N + 1, M i j = r * (if j < N then o.J i j * C j else o.d i * C N)) (hN : ∀ j < N + 1, M N j = a j) :
    Regular (N + 1) M ↔ ∀ t : ℕ → ℝ, Tangent N o t → ∑ j ∈ range (N + 1), a j * (t j / C j) = 0 → ∀ j ≤ N, t j = 0 := by
  have e1 : ∀ (v : ℕ → ℝ) (i : ℕ), i < N → ∑ j ∈ range (N + 1), M i j * v j
      = r * ((∑ j ∈ range N, o.J i j * (C j * v j)) + o.d i * (C N * v N)) := fun v i hi => by
    rw [← tangent_scaled, mul_sum]
    exact sum_congr rfl fun j hj => by rw [hM i hi j (mem_range.1 hj)]; ring
  have e2 : ∀ v : ℕ → ℝ, ∑ j ∈ range (N + 1), M N j * v j = ∑ j ∈ range (N + 1), a j * v j := fun v =>
    sum_congr rfl fun j hj => by rw [hN j (mem_range.1 hj)]
  have e3 : ∀ (t : ℕ → ℝ) (j : ℕ), j ≤ N → C j * (t j / C j) = t j := fun t j hj => by
    have := (hC j hj).ne'
    field_simp
  constructor
  · intro H t ht ha j hj
    have := H (fun j => t j / C j) (fun i hi => by
      rcases Nat.lt_succ_iff_lt_or_eq.1 hi with hi | rfl
      · rw [e1 _ i hi]
        have : (∑ j ∈ range N, o.J i j * (C j * (t j / C j))) + o.d i * (C N * (t N / C N)) = 0 := by
          rw [← ht i hi, e3 t N le_rfl]
          congr 1
          exact sum_congr rfl fun j hj => by rw [e3 t j (mem_range.1 hj).le]
        rw [this, mul_zero]
      · rw [e2]; exact ha) j (by omega)
    have hCj := (hC j hj).ne'
    simpa [hCj] using this
  · intro H v hv j hj
    have := H (fun j => C j * v j) (fun i hi => by
        have := hv i (by omega)
        rw [e1 _ i hi] at this
        exact (mul_eq_zero.1 this).resolve_left hr) (by
        rw [← hv N (by omega), e2]
        refine sum_congr rfl fun j hj => ?_
        have := (hC j (by have := mem_range.1 hj; omega)).ne'
        field_simp) j (by omega)
    exact (mul_eq_zero.1 this).resolve_left (hC j (by omega)).ne'

/-- C120: the matrix of the predictor is regular exactly when no tangent is orthogonal to the previous direction. -/
theorem C120_predictor {C : ℕ → ℝ} (hC : ∀ i ≤ N, 0 < C i) (o : ContOut) (dp : ℕ → ℝ) :
    Regular (N + 1) (predictMat N C o dp) ↔
      ∀ t : ℕ → ℝ, Tangent N o t → ∑ j ∈ range (N + 1), dp j * (t j / C j) = 0 → ∀ j ≤ N, t j = 0 :=
  regular_bordered hC o one_ne_zero dp _
    (fun i hi j _ => by simp only [predictMat, if_pos hi, one_mul])
    (fun j _ => by simp only [predictMat, lt_irrefl, if_false])

/-- C120: in the first step, where the previous direction is that of the parameter, the matrix of the predictor is regular
exactly when `dRdX` is: a continuation cannot start at a fold. -/
theorem C120_first {C : ℕ → ℝ} (hC : ∀ i ≤ N, 0 < C i) (o : ContOut) (cfg : ContCfg) (lam0 lam1 : ℝ) (hl : lam0 ≠ lam1) (obj : ContObj) (s : SolOut) :
    Regular (N + 1) (predictMat N C o (contStart N cfg lam0 lam1 obj s).dirC) ↔ Regular N o.J := by
  have hd : ∀ j < N + 1, (contStart N cfg lam0 lam1 obj s).dirC j = if j < N then 0 else signOf (lam1 - lam0) := fun j hj => by
    show snocLam N _ lam0 j - snocLam N _ (lam0 - signOf (lam1 - lam0)) j = _
    unfold snocLam
    split_ifs <;> ring
  have hs : signOf (lam1 - lam0) ≠ 0 := by
    unfold signOf
    split_ifs with h1 h2
    · norm_num
    · norm_num
    · exact absurd (by linarith : lam0 = lam1) hl
  have e : ∀ t : ℕ → ℝ, ∑ j ∈ range (N + 1), (contStart N cfg lam0 lam1 obj s).dirC j * (t j / C j) = signOf (lam1 - lam0) * (t N / C N) := fun t => by
    rw [sum_range_succ, hd N (by omega), if_neg (lt_irrefl N), sum_eq_zero, zero_add]
    intro j hj
    have := mem_range.1 hj
    rw [hd j (by omega), if_pos this, zero_mul]
  rw [C120_predictor hC]
  constructor
  · intro H v hv j hj
    have := H (fun j => if j < N then v j else 0) (fun i hi => by
      beta_reduce
      rw [if_neg (lt_irrefl N), mul_zero, add_zero, ← hv i hi]
      exact sum_congr rfl fun j hj => by rw [if_pos (mem_range.1 hj)]) (by rw [e]; simp) j hj.le
    simpa [hj] using this
  · intro H t ht ha j hj
    rw [e] at ha
    have htN : t N = 0 := by
      have := (mul_eq_zero.1 ha).resolve_left hs
      simpa [(hC N le_rfl).ne'] using this
    rcases Nat.lt_or_eq_of_le hj with hj | rfl
    · exact H t (fun i hi => by have := ht i hi; rwa [htN, mul_zero, add_zero] at this) j hj
    · exact htN

/-- C120: the Jacobian of the corrector is regular exactly when no tangent at the current point is orthogonal, in the inner
product of the arc length, to the predicted direction (`ortho`) or to the step made so far (`pseudo`). -/
theorem C120_corrector (pseudo : Bool) (obj : ContObj) {r : ℝ} (hr : obj.RPtoC = .scalar r) (hr0 : r ≠ 0) (hC : ∀ i ≤ N, 0 < obj.CtoP i)
    (x x0 d : ℕ → ℝ) {ds : ℝ} (hds : ds ≠ 0) {o : ContOut} (ho : f (fun i => x i * obj.CtoP i) true = .ok o) :
    ∃ G M, correctRes N (if pseudo then .pseudo else .ortho) obj f x x0 ds (some d) true = .ok (G, some M) ∧
      (Regular (N + 1) M ↔ ∀ t : ℕ → ℝ, Tangent N o t →
        wdot N obj.fracLam ((1 - obj.fracLam) / ∑ i ∈ range N, x0 i ^ 2) (if pseudo then fun i => x i - x0 i else d) (fun i => t i / obj.CtoP i) = 0 →
        ∀ j ≤ N, t j = 0) := by
  cases pseudo with
  | false =>
    refine ⟨_, _, by simp only [correctRes, ho, hr, Bool.false_eq_true, if_false, if_true]; rfl, ?_⟩
    rw [regular_bordered hC o hr0 (fun j => (if j < N then (1 - obj.fracLam) / (∑ i ∈ range N, x0 i ^ 2) * d j else obj.fracLam * d N) / ds) _
      (fun i hi j _ => by simp only [if_pos hi]) (fun j _ => by simp only [lt_irrefl, if_false, orthogonalArcRes, arcWeight, normSq])]
    refine forall_congr' fun t => imp_congr_right fun _ => imp_congr_left ?_
    have e : ∑ j ∈ range (N + 1), (if j < N then (1 - obj.fracLam) / (∑ i ∈ range N, x0 i ^ 2) * d j else obj.fracLam * d N) / ds * (t j / obj.CtoP j)
        = (1 / ds) * wdot N obj.fracLam ((1 - obj.fracLam) / ∑ i ∈ range N, x0 i ^ 2) d (fun i => t i / obj.CtoP i) := by
      rw [sum_range_succ, if_neg (lt_irrefl N)]
      unfold wdot
      rw [mul_add, mul_sum, mul_sum]
      congr 1
      · exact sum_congr rfl fun j hj => by rw [if_pos (mem_range.1 hj)]; ring
      · ring
    rw [e, mul_eq_zero]
    simp [hds]
  | true =>
    refine ⟨_, _, by simp only [correctRes, ho, hr, if_true]; rfl, ?_⟩
    rw [regular_bordered hC o hr0 (fun j => (if j < N then 2 * ((1 - obj.fracLam) / (∑ i ∈ range N, x0 i ^ 2)) * (x j - x0 j)
      else 2 * obj.fracLam * (x N - x0 N)) / ds ^ 2) _
      (fun i hi j _ => by simp only [if_pos hi]) (fun j _ => by simp only [lt_irrefl, if_false, pseudoArcRes, arcWeight, normSq])]
    refine forall_congr' fun t => imp_congr_right fun _ => imp_congr_left ?_
    have e : ∑ j ∈ range (N + 1), (if j < N then 2 * ((1 - obj.fracLam) / (∑ i ∈ range N, x0 i ^ 2)) * (x j - x0 j)
          else 2 * obj.fracLam * (x N - x0 N)) / ds ^ 2 * (t j / obj.CtoP j)
        = (2 / ds ^ 2) * wdot N obj.fracLam ((1 - obj.fracLam) / ∑ i ∈ range N, x0 i ^ 2) (fun i => x i - x0 i) (fun i => t i / obj.CtoP i) := by
      rw [sum_range_succ, if_neg (lt_irrefl N)]
      unfold wdot
      rw [mul_add, mul_sum, mul_sum]
      congr 1
      · exact sum_congr rfl fun j hj => by rw [if_pos (mem_range.1 hj)]; ring
      · ring
    rw [e, mul_eq_zero]
    simp [hds]

theorem start_regular (hsv : Solves sv) {dynamic : Bool} {obj obj' : ContObj} {X0 Xprev dp d : ℕ → ℝ} {o : ContOut}
    (ho : f X0 true = .ok o) (hb : 0 < obj.fracLam) (hb1 : obj.fracLam < 1) (hC : ∀ i ≤ N, 0 < obj.CtoP i) (hX : ∃ i < N, X0 i ≠ 0)
    (hcurve : IsCurve N o) (h : predict sv N dynamic obj f X0 Xprev dp = .ok (d, obj')) (t : ℕ → ℝ) (ht : Tangent N o t)
    (h0 : wdot N obj.fracLam ((1 - obj.fracLam) / ∑ i ∈ range N, (X0 i / obj.CtoP i) ^ 2) d (fun i => t i / obj.CtoP i) = 0) :
    ∀ j ≤ N, t j = 0 := by
  obtain ⟨h1, h2, -⟩ := C58_direction hsv ho hb hb1 hC hX h
  set c := (1 - obj.fracLam) / ∑ i ∈ range N, (X0 i / obj.CtoP i) ^ 2 with hc
  have hn : ∃ i ≤ N, obj.CtoP i * d i ≠ 0 := by
    by_contra hcon
    push Not at hcon
    have hz : ∀ i ≤ N, d i = 0 := fun i hi => (mul_eq_zero.1 (hcon i hi)).resolve_left (hC i hi).ne'
    have : wdot N obj.fracLam c d d = 0 := by
      unfold wdot
      rw [hz N le_rfl, sum_eq_zero fun i hi => by rw [hz i (mem_range.1 hi).le, zero_mul]]
      ring
    rw [this] at h2
    exact zero_ne_one h2
  obtain ⟨s, hs⟩ := hcurve (fun i => obj.CtoP i * d i) t h1 ht hn
  have e : wdot N obj.fracLam c d (fun i => t i / obj.CtoP i) = s * wdot N obj.fracLam c d d := by
    have q : ∀ i ≤ N, t i / obj.CtoP i = s * d i := fun i hi => by
      rw [hs i hi]
      have := (hC i hi).ne'
      field_simp
    unfold wdot
    beta_reduce
    rw [q N le_rfl, sum_congr rfl (fun i hi => by rw [q i (mem_range.1 hi).le] : ∀ i ∈ range N, d i * (t i / obj.CtoP i) = d i * (s * d i)),
      mul_add, ← mul_assoc s c, mul_comm s c, mul_assoc c s, mul_sum (range N) _ s]
    congr 1
    · congr 1
      exact sum_congr rfl fun i _ => by ring
    · ring
  rw [e, h2, mul_one] at h0
  intro j hj
  rw [hs j hj, h0, zero_mul]

/-- C120: at the point where a step starts the predicted direction makes the Jacobian of the orthogonal corrector regular, fold
or not, whenever the solution set is a curve there. -/
theorem C120_start (hsv : Solves sv) {dynamic : Bool} {obj obj' : ContObj} {X0 Xprev dp d : ℕ → ℝ} {o : ContOut}
    (ho : f X0 true = .ok o) (hb : 0 < obj.fracLam) (hb1 : obj.fracLam < 1) (hC : ∀ i, 0 < obj.CtoP i) (hX : ∃ i < N, X0 i ≠ 0)
    (hcurve : IsCurve N o) (h : predict sv N dynamic obj f X0 Xprev dp = .ok (d, obj')) {r : ℝ} (hr : obj'.RPtoC = .scalar r) (hr0 : r ≠ 0)
    {ds : ℝ} (hds : ds ≠ 0) :
    ∃ G M, correctRes N .ortho obj' f (fun i => X0 i / obj.CtoP i) (fun i => X0 i / obj.CtoP i) ds (some d) true = .ok (G, some M) ∧
      Regular (N + 1) M := by
  obtain ⟨o', dir, ho', hd, -, hpe⟩ := predict_ok h
  have e : obj'.CtoP = obj.CtoP ∧ obj'.fracLam = obj.fracLam := by rw [(Prod.mk.inj hpe).2]; exact ⟨rfl, rfl⟩
  have e1 : (fun i => X0 i / obj.CtoP i * obj'.CtoP i) = X0 := by
    funext i
    have := (hC i).ne'
    rw [e.1]
    field_simp
  obtain ⟨G, M, hG, hM⟩ := C120_corrector (f := f) (N := N) false obj' hr hr0 (fun i _ => by rw [e.1]; exact hC i) (fun i => X0 i / obj.CtoP i)
    (fun i => X0 i / obj.CtoP i) d hds (o := o) (by rw [e1]; exact ho)
  refine ⟨G, M, hG, hM.2 fun t ht h0 => ?_⟩
  simp only [e.1, e.2, Bool.false_eq_true, if_false] at h0
  exact start_regular hsv ho hb hb1 (fun i _ => hC i) hX hcurve h t ht h0

theorem wdot_comb (N : ℕ) (b c s : ℝ) (x y z : ℕ → ℝ) : wdot N b c x (fun i => y i - s * z i) = wdot N b c x y - s * wdot N b c x z := by
  unfold wdot
  rw [show (∑ i ∈ range N, x i * (y i - s * z i)) = (∑ i ∈ range N, x i * y i) - s * ∑ i ∈ range N, x i * z i by
    rw [mul_sum, ← sum_sub_distrib]; exact sum_congr rfl fun i _ => by ring]
  ring

/-- C120: where the solution set is not a curve (branches cross) no direction and no corrector give a regular Jacobian. -/
theorem C120_branching (pseudo : Bool) (obj : ContObj) {r : ℝ} (hr : obj.RPtoC = .scalar r) (hr0 : r ≠ 0) (hC : ∀ i ≤ N, 0 < obj.CtoP i)
    (x x0 d : ℕ → ℝ) {ds : ℝ} (hds : ds ≠ 0) {o : ContOut} (ho : f (fun i => x i * obj.CtoP i) true = .ok o) (hcurve : ¬ IsCurve N o) :
    ∃ G M, correctRes N (if pseudo then .pseudo else .ortho) obj f x x0 ds (some d) true = .ok (G, some M) ∧ ¬ Regular (N + 1) M := by
  obtain ⟨G, M, hG, hM⟩ := C120_corrector (f := f) (N := N) pseudo obj hr hr0 hC x x0 d hds ho
  refine ⟨G, M, hG, fun hreg => hcurve ?_⟩
  rw [hM] at hreg
  set e := (if pseudo then fun i => x i - x0 i else d)
  set c := (1 - obj.fracLam) / ∑ i ∈ range N, x0 i ^ 2
  intro u v hu hv hn
  set α := wdot N obj.fracLam c e (fun i => u i / obj.CtoP i) with hα
  have ha : α ≠ 0 := fun h0 => by
    obtain ⟨i, hi, hne⟩ := hn
    exact hne (hreg u hu h0 i hi)
  set s := wdot N obj.fracLam c e (fun i => v i / obj.CtoP i) / α with hs
  refine ⟨s, fun i hi => ?_⟩
  have := hreg (fun i => v i - s * u i) (fun i hi => by
    have h1 := hu i hi
    have h2 := hv i hi
    have : ∑ j ∈ range N, o.J i j * (v j - s * u j) = (∑ j ∈ range N, o.J i j * v j) - s * ∑ j ∈ range N, o.J i j * u j := by
      rw [mul_sum, ← sum_sub_distrib]; exact sum_congr rfl fun j _ => by ring
    beta_reduce
    rw [this]
    linear_combination h2 - s * h1) (by
    have : (fun i => (v i - s * u i) / obj.CtoP i) = fun i => v i / obj.CtoP i - s * (u i / obj.CtoP i) := by
      funext i; ring
    rw [this, wdot_comb, ← hα, hs]
    field_simp
    ring) i hi
  linarith [this]

/-! ## Straight branches -/

/-- The prediction from a solution of an affine problem. -/
theorem straight_res (pseudo : Bool) {obj : ContObj} {X0 d : ℕ → ℝ} {r : ℝ} (e3 : obj.RPtoC = .scalar r)
    (A : ℕ → ℕ → ℝ) (a g : ℕ → ℝ) (hf : ∀ X, f X true = .ok ⟨fun i => (∑ j ∈ range N, A i j * X j) + a i * X N - g i, A, a⟩)
    (hsol : ∀ i < N, (∑ j ∈ range N, A i j * X0 j) + a i * X0 N = g i)
    (hC : ∀ i ≤ N, 0 < obj.CtoP i) (h1 : ∀ i < N, (∑ j ∈ range N, A i j * (obj.CtoP j * d j)) + a i * (obj.CtoP N * d N) = 0)
    (h2 : wdot N obj.fracLam ((1 - obj.fracLam) / ∑ i ∈ range N, (X0 i / obj.CtoP i) ^ 2) d d = 1) (ds : ℝ) :
    ∃ G M, correctRes N (if pseudo then .pseudo else .ortho) obj f (fun i => X0 i / obj.CtoP i + d i * ds) (fun i => X0 i / obj.CtoP i) ds
      (some d) true = .ok (G, some M) ∧ ∀ i < N + 1, G i = 0 := by
  have hR : ∀ i < N, (∑ j ∈ range N, A i j * ((X0 j / obj.CtoP j + d j * ds) * obj.CtoP j)) + a i * ((X0 N / obj.CtoP N + d N * ds) * obj.CtoP N) - g i = 0 := by
    intro i hi
    have q : ∀ j ≤ N, (X0 j / obj.CtoP j + d j * ds) * obj.CtoP j = X0 j + ds * (obj.CtoP j * d j) := fun j hj => by
      have := (hC j hj).ne'
      field_simp
    rw [q N le_rfl, sum_congr rfl fun j hj => by rw [q j (mem_range.1 hj).le]]
    have := h1 i hi
    have s2 : ∑ j ∈ range N, A i j * (X0 j + ds * (obj.CtoP j * d j)) = (∑ j ∈ range N, A i j * X0 j) + ds * ∑ j ∈ range N, A i j * (obj.CtoP j * d j) := by
      rw [mul_sum, ← sum_add_distrib]; exact sum_congr rfl fun j _ => by ring
    rw [s2]
    linear_combination hsol i hi + ds * this
  cases pseudo with
  | false =>
    refine ⟨_, _, by simp only [correctRes, hf, e3, Bool.false_eq_true, if_false, if_true]; rfl, fun i hi => ?_⟩
    rcases Nat.lt_succ_iff_lt_or_eq.1 hi with hi | rfl
    · simp only [if_pos hi]
      rw [hR i hi, mul_zero]
    · simp [orthogonalArcRes]
  | true =>
    refine ⟨_, _, by simp only [correctRes, hf, e3, if_true]; rfl, fun i hi => ?_⟩
    rcases Nat.lt_succ_iff_lt_or_eq.1 hi with hi | rfl
    · simp only [if_pos hi]
      rw [hR i hi, mul_zero]
    · simp only [lt_irrefl, if_false, pseudoArcRes, arcWeight, add_sub_cancel_left]
      rw [normSq_smul]
      rw [wdot_self] at h2
      have : (1 - obj.fracLam) / normSq i (fun i => X0 i / obj.CtoP i) * (normSq i d * ds ^ 2) + obj.fracLam * (d i * ds) ^ 2 - ds ^ 2 = 0 := by
        unfold normSq at h2 ⊢
        linear_combination ds ^ 2 * h2
      rw [this, zero_div]

/-- C120: for a residual that is affine in unknowns and parameter, the predicted point already solves the equations of the next
step, with either corrector and any step size: a straight branch needs no correction. -/
theorem C120_straight (hsv : Solves sv) (pseudo : Bool) {dynamic : Bool} {obj obj' : ContObj} {X0 Xprev dp d : ℕ → ℝ}
    (A : ℕ → ℕ → ℝ) (a g : ℕ → ℝ) (hf : ∀ X, f X true = .ok ⟨fun i => (∑ j ∈ range N, A i j * X j) + a i * X N - g i, A, a⟩)
    (hsol : ∀ i < N, (∑ j ∈ range N, A i j * X0 j) + a i * X0 N = g i) (hb : 0 < obj.fracLam) (hb1 : obj.fracLam < 1)
    (hC : ∀ i ≤ N, 0 < obj.CtoP i) (hX : ∃ i < N, X0 i ≠ 0) (h : predict sv N dynamic obj f X0 Xprev dp = .ok (d, obj'))
    {ds : ℝ} (_ : ds ≠ 0) :
    ∃ G M, correctRes N (if pseudo then .pseudo else .ortho) obj' f (fun i => X0 i / obj.CtoP i + d i * ds) (fun i => X0 i / obj.CtoP i) ds
      (some d) true = .ok (G, some M) ∧ ∀ i < N + 1, G i = 0 := by
  obtain ⟨h1, h2, -⟩ := C58_direction hsv (hf X0) hb hb1 hC hX h
  obtain ⟨o', dir, ho', hd, -, hpe⟩ := predict_ok h
  have e : obj'.CtoP = obj.CtoP ∧ obj'.fracLam = obj.fracLam ∧ ∃ r, obj'.RPtoC = .scalar r := by
    rw [(Prod.mk.inj hpe).2]
    refine ⟨rfl, rfl, ?_⟩
    show ∃ r, predictScale _ _ _ _ _ = .scalar r
    unfold predictScale
    split
    · exact ⟨_, rfl⟩
    · exact ⟨_, rfl⟩
  obtain ⟨e1, e2, r, e3⟩ := e
  have := straight_res (f := f) (N := N) pseudo (obj := obj') (X0 := X0) (d := d) e3 A a g hf hsol (by rw [e1]; exact hC) (by rw [e1]; exact h1)
    (by rw [e1, e2]; exact h2) ds
  rwa [e1] at this

/-- A solver that keeps a start point at which the function vanishes. -/
def KeepsExact (sv : ContSolver) : Prop :=
  ∀ n j F x s R J, F x true = .ok (R, J) → (∀ i < n, R i = 0) → sv.nsolve n j F x = .ok s → s.success = true ∧ ∀ i < n, s.X i = x i

/-- C120: all points of a run along a straight branch lie on it, and each step is a tangent of exactly the length `ds` in the
norm of the arc length. -/
theorem C120_straight_run {cfg : ContCfg} {obj : ContObj} {X00 : ℕ → ℝ} {lam0 lam1 : ℝ} {out : ContRes} (hsv : Solves sv) (hke : KeepsExact sv)
    (hcor : cfg.corrector ≠ .other) (hC : ∀ i ≤ N, 0 < (contPrepare obj).CtoP i) (hfr : ∀ b ∈ cfg.fracLamList, 0 < b ∧ b < 1)
    (A : ℕ → ℕ → ℝ) (a g : ℕ → ℝ) (hf : ∀ X, f X true = .ok ⟨fun i => (∑ j ∈ range N, A i j * X j) + a i * X N - g i, A, a⟩)
    (h : Returns sv N cfg obj f X00 lam0 lam1 out) (hX : ∀ k < out.n, ∃ i < N, out.rows k i ≠ 0)
    (hsol : ∀ i < N, (∑ j ∈ range N, A i j * out.rows 0 j) + a i * out.rows 0 N = g i) :
    (∀ k < out.n, ∀ i < N, (∑ j ∈ range N, A i j * out.rows k j) + a i * out.rows k N = g i) ∧
    ∀ k, 1 ≤ k → k < out.n → ∃ (ds b : ℝ) (C t : ℕ → ℝ), (k, ds) ∈ out.log ∧ b ∈ cfg.fracLamList ∧
      (C = if cfg.dynamicCtoP then fun i => max |out.rows (k - 1) i| ((contPrepare obj).CtoP i) else (contPrepare obj).CtoP) ∧
      (∀ i < N, (∑ j ∈ range N, A i j * t j) + a i * t N = 0) ∧ (∀ i ≤ N, out.rows k i = out.rows (k - 1) i + t i) ∧
      wdot N b ((1 - b) / ∑ i ∈ range N, (out.rows (k - 1) i / C i) ^ 2) (fun i => t i / C i) (fun i => t i / C i) = ds ^ 2 := by
  obtain ⟨fuel, h⟩ := h
  obtain ⟨s, D, hrun⟩ := continuation_run h
  have key : ∀ k, 1 ≤ k → k < out.n → (∀ i < N, (∑ j ∈ range N, A i j * out.rows (k - 1) j) + a i * out.rows (k - 1) N = g i) →
      (∀ i ≤ N, 0 < (D k).obj.CtoP i) ∧
      (∀ i < N, (∑ j ∈ range N, A i j * ((D k).obj.CtoP j * (D k).dirC j)) + a i * ((D k).obj.CtoP N * (D k).dirC N) = 0) ∧
      wdot N (D k).obj.fracLam ((1 - (D k).obj.fracLam) / ∑ i ∈ range N, (out.rows (k - 1) i / (D k).obj.CtoP i) ^ 2) (D k).dirC (D k).dirC = 1 ∧
      ∀ i ≤ N, out.rows k i = out.rows (k - 1) i + (D k).ds * ((D k).obj.CtoP i * (D k).dirC i) := by
    intro k hk1 hk hs
    have hg := hrun.steps k hk1 hk
    obtain ⟨dir', o, dir, ho, hl, hd, hR⟩ := hg.predicted
    have hCk : ∀ i ≤ N, 0 < (D k).obj.CtoP i := by
      intro i hi
      rw [hg.CtoP]
      split
      · exact lt_of_lt_of_le (hC i hi) (le_max_right _ _)
      · exact hC i hi
    have hXk := hX (k - 1) (by omega)
    obtain ⟨b0, b1⟩ := hfr _ hg.frac
    have hN : N ≠ 0 := by obtain ⟨i, hi, -⟩ := hXk; omega
    have hp : ∃ ob, predict sv N cfg.dynamicCtoP (D k).obj f (out.rows (k - 1))
        (before (snocLam N (fun i => s.X i * (contPrepare obj).CtoP i) (lam0 - signOf (lam1 - lam0))) out.rows (k - 1)) dir' = .ok ((D k).dirC, ob) := by
      refine ⟨{ (D k).obj with RPtoC := predictScale N cfg.dynamicCtoP (D k).obj.CtoP o (D k).obj.RPtoC }, ?_⟩
      simp only [predict, ho, hl, hN, and_false, if_false]
      rw [hd]
    obtain ⟨ob, hp⟩ := hp
    obtain ⟨h1, h2, -⟩ := C58_direction hsv (hf _) b0 b1 hCk hXk hp
    refine ⟨hCk, h1, h2, ?_⟩
    have hcor' : cfg.corrector = if decide (cfg.corrector = .pseudo) then .pseudo else .ortho := by
      cases hcc : cfg.corrector with
      | pseudo => simp
      | ortho => simp
      | other => exact absurd hcc hcor
    obtain ⟨G, M, hG, hz⟩ := straight_res (f := f) (N := N) (decide (cfg.corrector = .pseudo)) hR A a g hf hs hCk h1 h2 (D k).ds
    rw [← hcor'] at hG
    obtain ⟨-, hx⟩ := hke _ _ _ _ _ _ _ hG hz hg.solved
    intro i hi
    rw [hg.row]
    beta_reduce
    rw [hx i (by omega)]
    have := (hCk i hi).ne'
    field_simp
  have all : ∀ k < out.n, ∀ i < N, (∑ j ∈ range N, A i j * out.rows k j) + a i * out.rows k N = g i := by
    intro k
    induction k with
    | zero => intro _; exact hsol
    | succ k ih =>
      intro hk i hi
      obtain ⟨-, h1, -, h3⟩ := key (k + 1) (by omega) hk (ih (by omega))
      simp only [Nat.add_sub_cancel] at h3
      rw [h3 N le_rfl, sum_congr rfl fun j hj => by rw [h3 j (mem_range.1 hj).le]]
      have s2 : ∑ j ∈ range N, A i j * (out.rows k j + (D (k + 1)).ds * ((D (k + 1)).obj.CtoP j * (D (k + 1)).dirC j))
          = (∑ j ∈ range N, A i j * out.rows k j) + (D (k + 1)).ds * ∑ j ∈ range N, A i j * ((D (k + 1)).obj.CtoP j * (D (k + 1)).dirC j) := by
        rw [mul_sum, ← sum_add_distrib]; exact sum_congr rfl fun j _ => by ring
      rw [s2]
      linear_combination ih (by omega) i hi + (D (k + 1)).ds * h1 i hi
  refine ⟨all, fun k hk1 hk => ?_⟩
  obtain ⟨hCk, h1, h2, h3⟩ := key k hk1 hk (all (k - 1) (by omega))
  refine ⟨(D k).ds, (D k).obj.fracLam, (D k).obj.CtoP, fun i => (D k).ds * ((D k).obj.CtoP i * (D k).dirC i), hrun.logged k hk1 hk,
    (hrun.steps k hk1 hk).frac, (hrun.steps k hk1 hk).CtoP, fun i hi => ?_, h3, ?_⟩
  · have s2 : ∑ j ∈ range N, A i j * ((D k).ds * ((D k).obj.CtoP j * (D k).dirC j)) = (D k).ds * ∑ j ∈ range N, A i j * ((D k).obj.CtoP j * (D k).dirC j) := by
      rw [mul_sum]; exact sum_congr rfl fun j _ => by ring
    beta_reduce
    rw [s2]
    linear_combination (D k).ds * h1 i hi
  · have e : ∀ i ≤ N, (D k).ds * ((D k).obj.CtoP i * (D k).dirC i) / (D k).obj.CtoP i = (D k).dirC i * (D k).ds := fun i hi => by
      have := (hCk i hi).ne'
      field_simp
    rw [wdot_self] at h2 ⊢
    beta_reduce
    rw [e N le_rfl]
    have e2 : normSq N (fun i => (D k).ds * ((D k).obj.CtoP i * (D k).dirC i) / (D k).obj.CtoP i) = normSq N (D k).dirC * (D k).ds ^ 2 := by
      rw [← normSq_smul]
      exact sum_congr rfl fun i hi => by beta_reduce; rw [e i (mem_range.1 hi).le]
    rw [e2]
    linear_combination (D k).ds ^ 2 * h2

/-- The hypotheses of C120 are met at the fold `(x, lam) = (1, 1)` of the circle `(x - 1)^2 + lam^2 = 1`, where `dRdX = 0`: the
solution set is a curve, and the corrector is regular in the direction of `x`, while a continuation cannot start there. -/
example : IsCurve 1 ⟨fun _ => 0, fun _ _ => 0, fun _ => 2⟩ ∧ ¬ Regular 1 (fun _ _ => 0) ∧
    ∀ obj : ContObj, obj.RPtoC = .scalar 1 → obj.CtoP = (fun _ => 1) → obj.fracLam = 1 / 2 →
      ∃ G M, correctRes 1 .ortho obj (fun X _ => .ok ⟨fun _ => (X 0 - 1) ^ 2 + X 1 ^ 2 - 1, fun _ _ => 2 * (X 0 - 1), fun _ => 2 * X 1⟩)
        (fun _ => 1) (fun _ => 1) 0.1 (some fun i => if i = 0 then 2 else 0) true = .ok (G, some M) ∧ Regular 2 M := by
  refine ⟨?_, ?_, ?_⟩
  · intro u v hu hv hn
    have h1 := hu 0 (by omega)
    have h2 := hv 0 (by omega)
    norm_num at h1 h2
    have h3 : u 0 ≠ 0 := by
      obtain ⟨i, hi, hne⟩ := hn
      interval_cases i
      · exact hne
      · exact absurd h1 hne
    refine ⟨v 0 / u 0, fun i hi => ?_⟩
    interval_cases i
    · field_simp
    · rw [h1, h2, mul_zero]
  · intro h
    have := h (fun _ => 1) (fun i _ => by simp) 0 (by omega)
    norm_num at this
  · intro obj hr hC hb
    obtain ⟨G, M, hG, hM⟩ := C120_corrector (f := fun X _ => .ok ⟨fun _ => (X 0 - 1) ^ 2 + X 1 ^ 2 - 1, fun _ _ => 2 * (X 0 - 1), fun _ => 2 * X 1⟩)
      (N := 1) false obj hr one_ne_zero (by rw [hC]; intro i _; norm_num) (fun _ => 1) (fun _ => 1) (fun i => if i = 0 then 2 else 0)
      (ds := 0.1) (by norm_num) rfl
    refine ⟨G, M, hG, hM.2 fun t ht h0 j hj => ?_⟩
    have h1 := ht 0 (by omega)
    simp only [hC, hb] at h1 h0
    norm_num [wdot] at h1 h0
    interval_cases j
    · exact h0
    · exact h1

end TMD
