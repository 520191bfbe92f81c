import Verif.Props.FrictionShift
import Verif.Props.Alias
import Verif.Lemmas.Memory

/-!
# C116: symmetric systems and odd harmonics

A force law with `f(-u, -v) = -f(u, v)` has no preferred direction: the opposite motion has the opposite force. Of a
motion that is its own opposite half a period later (only odd harmonics), such forces have only odd harmonics too, so
the equations of the even harmonics and of the mean hold by themselves (vibration_system.py:398-483 and 650-830,
nonlinear_force.py:202-304 and 497-664, jax/nlforces/jenkins_element.py:239-341). `KeepsMirror` and `HalfWave` are the
two notions.
-/

namespace TMD

open Spec Finset

noncomputable section

/-- The `n` numbers `b` are the opposites of `a`. -/
def Opposite (n : ℕ) (a b : ℕ → ℝ) : Prop := ∀ i < n, b i = - a i

/-- The motions with coefficients `a` are their own opposites half a period later. -/
def HalfWave (h : List ℕ) (nd : ℕ) (a : ℕ → ℝ) : Prop :=
  ∀ d < nd, ∀ τ, series h (fun r => a (r * nd + d)) (τ + Real.pi) = - series h (fun r => a (r * nd + d)) τ

/-- A nonlinear force whose harmonics are opposite under the opposite motion. -/
def KeepsMirror (f : NLForce) (nd : ℕ) (h : List ℕ) (Nt : ℕ) (tol : ℝ) : Prop :=
  ∀ (U V : ℕ → ℝ) (w : ℝ), Opposite (numCoeff h * nd) U V →
    ∃ o o', f.aft U w h Nt tol = .ok o ∧ f.aft V w h Nt tol = .ok o' ∧ Opposite (numCoeff h * nd) o.F o'.F

/-- The same for the force that `aft` of a class reports. -/
def ForceKeepsMirror (f : PForce) (nd : ℕ) (h : List ℕ) (Nt : ℕ) : Prop :=
  ∀ (U V : ℕ → ℝ) (w : ℝ), Opposite (numCoeff h * nd) U V →
    ∃ F G, f.aftF U w h Nt = .ok F ∧ f.aftF V w h Nt = .ok G ∧ Opposite (numCoeff h * nd) F G

/-! ## Lemmas -/

theorem series_neg (h : List ℕ) (c : ℕ → ℝ) (τ : ℝ) : series h (fun r => - c r) τ = - series h c τ := by
  have := series_smul h (-1) c τ
  simpa using this

theorem coefOf_neg (h : List ℕ) (c : ℕ → ℝ) (k : ℕ) : coefOf h (fun r => - c r) k = - coefOf h c k := by
  induction h generalizing c with
  | nil => simp [coefOf]
  | cons m hs ih =>
    by_cases hk : m = k
    · subst hk
      by_cases h0 : m = 0 <;> simp [coefOf, h0]
    · simp only [coefOf, hk, if_false]; exact ih _

theorem coefOf_rows {h : List ℕ} {a b : ℕ → ℝ} (H : ∀ r < numCoeff h, a r = b r) (k : ℕ) : coefOf h a k = coefOf h b k := by
  induction h generalizing a b with
  | nil => rfl
  | cons m hs ih =>
    unfold coefOf
    simp only [numCoeff] at H
    by_cases hk : m = k
    · by_cases h0 : m = 0
      · simp only [hk, if_true, h0 ▸ hk.symm, H 0 (by rw [if_pos h0]; omega)]
      · simp only [hk, if_true, H 0 (by rw [if_neg h0]; omega), H 1 (by rw [if_neg h0]; omega)]
    · simp only [hk, if_false]
      exact ih fun r hr => H _ (by omega)

theorem row_lt {R d nd n : ℕ} (hR : R < n) (hd : d < nd) : R * nd + d < n * nd := by
  have : (R + 1) * nd ≤ n * nd := Nat.mul_le_mul_right _ hR
  rw [Nat.add_mul] at this; omega

theorem series_opposite {h : List ℕ} {nd : ℕ} {a b : ℕ → ℝ} (H : Opposite (numCoeff h * nd) a b) {d : ℕ} (hd : d < nd) (τ : ℝ) :
    series h (fun r => b (r * nd + d)) τ = - series h (fun r => a (r * nd + d)) τ := by
  rw [← series_neg]
  exact series_congr (fun r hr => H _ (row_lt hr hd)) τ

theorem localMotion_opposite {h : List ℕ} {N : ℕ} {U V : ℕ → ℝ} (H : Opposite (numCoeff h * N) U V) (Q : ℕ → ℕ → ℝ) (d : ℕ) :
    localMotion N Q h V d = fun τ => - localMotion N Q h U d τ := by
  funext τ
  unfold localMotion
  rw [← sum_neg_distrib]
  exact sum_congr rfl fun e he => by rw [series_opposite H (mem_range.1 he)]; ring

theorem dft_neg (N : ℕ) (x : ℕ → ℝ) (k : ℕ) : dft N (fun j => - x j) k = - dft N x k := by
  unfold dft
  by_cases hk : k = 0
  · simp [hk, neg_div]
  · simp [hk]

/-- Fourier coefficients of opposite samples are opposite. -/
theorem isForceDFT_opposite {h : List ℕ} (hA : Admissible h) {Nt N m : ℕ} {T : ℕ → ℕ → ℝ} {f g : ℕ → ℕ → ℝ} {F G : ℕ → ℝ}
    (hfg : ∀ j < Nt, ∀ d < m, g j d = - f j d) (hF : IsForceDFT N m T h Nt f F) (hG : IsForceDFT N m T h Nt g G) :
    Opposite (numCoeff h * N) F G := by
  refine eq_of_coefOf hA (G := fun i => - F i) (fun d hd k hk => ?_)
  rw [coefOf_neg, hF d hd k hk, hG d hd k hk, ← dft_neg]
  refine dft_congr fun j hj => ?_
  rw [← sum_neg_distrib]
  exact sum_congr rfl fun e he => by rw [hfg j hj e (mem_range.1 he)]; ring

theorem halfWave_delayed {h : List ℕ} {nd : ℕ} {a : ℕ → ℝ} :
    HalfWave h nd a ↔ Delayed h nd Real.pi a (fun i => - a i) := by
  constructor
  · intro H d hd τ
    have := H d hd (τ - Real.pi)
    rw [sub_add_cancel] at this
    rw [series_neg, this, neg_neg]
  · intro H d hd τ
    have := H d hd (τ + Real.pi)
    rw [series_neg, add_sub_cancel_right] at this
    rw [← this, neg_neg]

/-- C116: the motions that are their own opposites half a period later are those without even harmonics. -/
theorem C116_odd_harmonics (h : List ℕ) (hA : Admissible h) (nd : ℕ) (a : ℕ → ℝ) :
    HalfWave h nd a ↔ ∀ d < nd, ∀ k ∈ h, Even k → coefOf h (fun r => a (r * nd + d)) k = (0, 0) := by
  rw [halfWave_delayed, delayed_iff hA]
  have rot : ∀ (k : ℕ) (p : ℝ × ℝ), rotPair k (Real.pi / (1:ℕ)) p = if Even k then p else -p := by
    intro k p
    have hs : Real.sin (k * (Real.pi / (1:ℕ))) = 0 := by simp [Real.sin_nat_mul_pi]
    have hc : Real.cos (k * (Real.pi / (1:ℕ))) = (-1) ^ k := by simp [Real.cos_nat_mul_pi]
    unfold rotPair
    rw [hs, hc]
    split
    · rename_i he; simp [he.neg_one_pow]
    · rename_i he; rw [(Nat.not_even_iff_odd.1 he).neg_one_pow]; ext <;> simp
  have half : ∀ p : ℝ × ℝ, -p = p → p = (0, 0) := by
    intro p hp
    have h1 := congrArg Prod.fst hp
    have h2 := congrArg Prod.snd hp
    simp only [Prod.fst_neg, Prod.snd_neg] at h1 h2
    exact Prod.ext (by simp only; linarith) (by simp only; linarith)
  constructor
  · intro H d hd k hk he
    have hc : coefOf h (fun r => - a (r * nd + d)) k = coefOf h (fun r => rsp a nd h Real.pi 1 (r * nd + d)) k := by
      refine coefOf_rows ?_ k
      intro r hr
      exact H _ (row_lt hr hd)
    rw [coefOf_neg, coefOf_rsp hA nd a _ 1 hd hk, rot, if_pos he] at hc
    exact half _ hc
  · intro H
    refine eq_of_coefOf hA (F := fun i => - a i) (fun d hd k hk => ?_)
    rw [coefOf_neg, coefOf_rsp hA nd a _ 1 hd hk, rot]
    split
    · rename_i he; rw [H d hd k hk he]; simp
    · rfl

/-! ## The force laws -/

/-- C116: an instantaneous force of an odd law. -/
theorem C116_instantaneous (h : List ℕ) (hA : Admissible h) (Nt : ℕ) (hNt : ∀ k ∈ h, 2*k + 1 < Nt) (heven : Even Nt)
    (N m : ℕ) (Q T : ℕ → ℕ → ℝ) (loc : ℕ → ℝ → ℝ → Loc) (hodd : ∀ d u v, (loc d (-u) (-v)).f = - (loc d u v).f)
    (force : (ℕ → ℝ) → (ℕ → ℝ) × (ℕ → ℕ → ℝ)) (tol : ℝ) : KeepsMirror (instForce N m Q T loc force) N h Nt tol := by
  intro U V w H
  obtain ⟨o, h1, h2⟩ := C24_is_dft h hA Nt hNt heven N m Q T loc U w
  obtain ⟨o', h3, h4⟩ := C24_is_dft h hA Nt hNt heven N m Q T loc V w
  refine ⟨o, o', h1, h3, isForceDFT_opposite hA (fun j _ d _ => ?_) h2 h4⟩
  rw [localMotion_opposite H Q d, ← hodd]
  congr 2
  rw [deriv.fun_neg]; ring

/-- C116: the laws of the code that are odd. -/
theorem C116_odd_laws (k : ℕ → ℝ) (p : IwanBB) (d : ℕ) (u v : ℝ) :
    (cubicLoc k d (-u) (-v)).f = - (cubicLoc k d u v).f ∧
    (quinticLoc k d (-u) (-v)).f = - (quinticLoc k d u v).f ∧
    (cubicDampingLoc k d (-u) (-v)).f = - (cubicDampingLoc k d u v).f ∧
    (iwanBBLoc p d (-u) (-v)).f = - (iwanBBLoc p d u v).f := by
  refine ⟨?_, ?_, ?_, ?_⟩
  · simp only [cubicLoc]; ring
  · simp only [quinticLoc]; ring
  · simp only [cubicDampingLoc]; ring
  · have hs : npSign (-u) = - npSign u := by
      unfold npSign
      rcases lt_trichotomy u 0 with h | h | h
      · rw [if_neg (by linarith), if_neg (by linarith), if_pos h]; norm_num
      · simp [h]
      · rw [if_pos (by linarith), if_neg (by linarith), if_neg (by linarith)]
    rw [iwanBBLoc, iwanBBLoc, hs, neg_mul_neg]
    simp only [mul_neg]

/-- C116: the polynomial force, if all its terms have odd degree. -/
theorem C116_polynomial (h : List ℕ) (hA : Admissible h) (Nt : ℕ) (hNt : ∀ k ∈ h, 2*k + 1 < Nt) (heven : Even Nt)
    (N m cnl : ℕ) (Q T E : ℕ → ℕ → ℝ) (qq : ℕ → ℕ → ℕ) (hodd : ∀ c < cnl, Odd (∑ e ∈ range m, qq c e)) (U V : ℕ → ℝ) (w : ℝ)
    (H : Opposite (numCoeff h * N) U V) :
    ∃ o o', genPolyAft N m cnl Q T E qq U w h Nt = .ok o ∧ genPolyAft N m cnl Q T E qq V w h Nt = .ok o' ∧
      Opposite (numCoeff h * N) o.F o'.F := by
  obtain ⟨o, h1, h2⟩ := C24_polynomial_is_dft h hA Nt hNt heven N m cnl Q T E qq U w
  obtain ⟨o', h3, h4⟩ := C24_polynomial_is_dft h hA Nt hNt heven N m cnl Q T E qq V w
  refine ⟨o, o', h1, h3, isForceDFT_opposite hA (fun j _ d _ => ?_) h2 h4⟩
  rw [← sum_neg_distrib]
  refine sum_congr rfl fun c hc => ?_
  simp only [localMotion_opposite H Q]
  have : ∏ e ∈ range m, (-localMotion N Q h U e (2 * Real.pi * j / Nt)) ^ qq c e
      = (-1) ^ (∑ e ∈ range m, qq c e) * ∏ e ∈ range m, (localMotion N Q h U e (2 * Real.pi * j / Nt)) ^ qq c e := by
    rw [← prod_pow_eq_pow_sum, ← prod_mul_distrib]
    exact prod_congr rfl fun e _ => by rw [← mul_pow]; ring_nf
  rw [this, (hodd c (mem_range.1 hc)).neg_one_pow]; ring

theorem slider_neg {kt : ℝ} {L : ℕ → ℝ} (hL : ∀ i, 0 ≤ L i) (u : ℕ → ℝ) (up fp : ℝ) (i : ℕ) :
    slider kt L (fun j => - u j) (-up) (-fp) i = - slider kt L u up fp i := by
  induction i with
  | zero => rw [slider_zero, slider_zero, ← clip_neg (hL 0)]; congr 1; ring
  | succ i ih => rw [slider_succ, slider_succ, ih, ← clip_neg (hL _)]; congr 1; ring

theorem unlOf_opposite {h : List ℕ} (hA : Admissible h) {N : ℕ} {U V : ℕ → ℝ} (H : Opposite (numCoeff h * N) U V)
    (Q : ℕ → ℕ → ℝ) (d : ℕ) : unlOf N Q V 0 d = - unlOf N Q U 0 d := by
  have hle : 0 < numCoeff h := by
    cases h with
    | nil => exact absurd rfl hA.ne
    | cons k hs => simp only [numCoeff]; split <;> omega
  unfold unlOf matMul
  rw [← sum_neg_distrib]
  refine sum_congr rfl fun e he => ?_
  beta_reduce
  rw [H (0 * N + e) (row_lt hle (mem_range.1 he))]; ring

/-- C116: the JAX Jenkins element that starts from the mean displacement. -/
theorem C116_jax_jenkins (h : List ℕ) (hA : Admissible h) (Nt : ℕ) (hNt : ∀ k ∈ h, 2*k + 1 < Nt) (heven : Even Nt)
    (hh : 1 < numCoeff h) (N : ℕ) (Q T : ℕ → ℕ → ℝ) (kt Fs : ℝ) (hF : 0 ≤ Fs) :
    ForceKeepsMirror (.jaxJenkins N Q T kt Fs .none) N h Nt := by
  intro U V w H
  have h0 : 0 < Nt := by
    obtain ⟨k, hk⟩ := List.exists_mem_of_ne_nil h hA.ne
    have := hNt k hk; omega
  obtain ⟨W, w⟩ := gfc_linear hA (fun k hk => by have := hNt k hk; omega : ∀ k ∈ h, k < Nt)
  set hist : TS ℕ → (ℕ → ℝ) → ℕ → ℕ → ℝ :=
    fun u z j _ => jaxJenkinsHistory u.rows (fun j => u.val j 0) kt Fs (jaxStart .none z) j with hhist
  set a := hist (sampledDisp N Q h U Nt) (unlOf N Q U 0) with ha
  set b := hist (sampledDisp N Q h V Nt) (unlOf N Q V 0) with hb
  obtain ⟨x, x1, -, x2⟩ := w a
  obtain ⟨y, y1, -, y2⟩ := w b
  refine ⟨_, _, jaxAft_F hA hNt heven hh N 1 Q T hist U x1, jaxAft_F hA hNt heven hh N 1 Q T hist V y1, ?_⟩
  refine isForceDFT_opposite hA (fun j hj d _ => ?_) (isForceDFT_of N 1 T h Nt a x x2) (isForceDFT_of N 1 T h Nt b y y2)
  rw [ha, hb, hhist]
  show jaxJenkinsHistory Nt (fun j => localMotion N Q h V 0 _) kt Fs (unlOf N Q V 0 0) j
    = - jaxJenkinsHistory Nt (fun j => localMotion N Q h U 0 _) kt Fs (unlOf N Q U 0 0) j
  rw [jaxJenkins_slider hF h0 _ _ hj, jaxJenkins_slider hF h0 _ _ hj, unlOf_opposite hA H, localMotion_opposite H Q 0,
    ← slider_neg (L := periodic Nt fun _ => Fs) (fun _ => hF), neg_zero]
  rfl

/-! ## The NumPy loops -/

/-- The object of a hysteretic class under the opposite motion: every step has the opposite force and the same
derivatives. -/
structure MirrorOps {σ ι : Type} (m : HystOps σ ι) (M : σ → σ) : Prop where
  init : ∀ z, m.init (-z) = M (m.init z)
  step : ∀ s u c, m.step (M s) (-u) c = (M (m.step s u c).1, -(m.step s u c).2.1, (m.step s u c).2.2)
  start : ∀ z, m.fp (m.init z) = 0

/-- The opposite of a list of rows: displacements (or forces) with sign changed, second parts kept. -/
def oppositeRows {ι : Type} (rows : List (ℝ × (ι → ℝ))) : List (ℝ × (ι → ℝ)) := rows.map fun r => (-r.1, r.2)

theorem onePass_mirror {σ ι : Type} {m : HystOps σ ι} {M : σ → σ} (hm : MirrorOps m M) (rows : List (ℝ × (ι → ℝ))) (s : σ) :
    onePass m (M s) (oppositeRows rows) = (M (onePass m s rows).1, oppositeRows (onePass m s rows).2) := by
  induction rows generalizing s with
  | nil => rfl
  | cons r rows ih =>
    obtain ⟨u, c⟩ := r
    have ih' := ih (m.step s u c).1
    unfold oppositeRows at ih' ⊢
    simp only [List.map_cons, onePass, hm.step, ih']

theorem cycleState_mirror {σ ι : Type} {m : HystOps σ ι} {M : σ → σ} (hm : MirrorOps m M) (rows : List (ℝ × (ι → ℝ))) (n : ℕ) (s : σ) :
    cycleState m (oppositeRows rows) n (M s) = M (cycleState m rows n s) := by
  induction n with
  | zero => rfl
  | succ n ih => simp only [cycleState]; rw [ih, onePass_mirror hm]

theorem cycleRows_mirror {σ ι : Type} {m : HystOps σ ι} {M : σ → σ} (hm : MirrorOps m M) (rows : List (ℝ × (ι → ℝ))) (n : ℕ) (s : σ) :
    cycleRows m (oppositeRows rows) n (M s) = oppositeRows (cycleRows m rows n s) := by
  unfold cycleRows
  rw [cycleState_mirror hm, onePass_mirror hm]

open Classical in
/-- What the `while` loop amounts to: the second cycle is run when the last force of the first one exceeds both
tolerances; there is no third one. -/
theorem history_two {σ ι : Type} (m : HystOps σ ι) (rows : List (ℝ × (ι → ℝ))) (hr : rows ≠ []) (z : ℝ) (hz : m.fp (m.init z) = 0)
    (mr : ℕ) {atol rtol eps : ℝ} (ha : 0 ≤ atol) :
    localForceHistory m rows z mr atol rtol eps = .ok
      (if |lastForce (cycleRows m rows 0 (m.init z))| > atol ∧
          npRelGt |lastForce (cycleRows m rows 0 (m.init z))| (lastForce (cycleRows m rows 0 (m.init z)) + eps) rtol ∧ 1 < mr
        then (cycleRows m rows 1 (m.init z), 2) else (cycleRows m rows 0 (m.init z), 1)) := by
  cases rows with
  | nil => exact absurd rfl hr
  | cons r rows =>
    unfold localForceHistory
    simp only [hz]
    rw [hystLoop]
    simp only [true_or, if_true]
    rw [hystLoop]
    simp only [loopBody, FpRef.get, sub_zero, Nat.zero_add, one_ne_zero, false_or]
    split
    · rename_i hc
      rw [if_pos (by simpa [cycleRows, cycleState] using hc), hystLoop]
      simp only [sub_self, abs_zero, not_lt.2 ha, false_and, or_false, Nat.reduceAdd, OfNat.ofNat_ne_zero, if_false]
      rfl
    · rename_i hc
      rw [if_neg (by simpa [cycleRows, cycleState] using hc)]
      rfl

theorem lastForce_opposite {ι : Type} (rows : List (ℝ × (ι → ℝ))) : lastForce (oppositeRows rows) = - lastForce rows := by
  unfold lastForce oppositeRows
  cases h : rows.getLast? <;> simp [List.getLast?_map, h]

/-- A force larger than the absolute tolerance is never small relative to itself. -/
theorem rel_of_abs {x atol rtol eps : ℝ} (he : 0 ≤ eps) (hea : eps ≤ atol) (hr : rtol < 1 / 2) (hx : |x| > atol) :
    npRelGt |x| (x + eps) rtol := by
  unfold npRelGt
  have h1 : 0 < |x| := by linarith
  split
  · exact h1.ne'
  · rename_i hd
    have h2 : |x + eps| ≤ 2 * |x| := by
      have := abs_add_le x eps
      rw [abs_of_nonneg he] at this
      linarith
    rw [abs_div, abs_abs, gt_iff_lt, lt_div_iff₀ (abs_pos.2 hd)]
    have h3 := abs_pos.2 hd
    by_cases h4 : 0 ≤ rtol
    · nlinarith
    · nlinarith

/-- C116: the NumPy loop under the opposite motion runs as many cycles, and has the opposite forces and the same
derivatives. The machine epsilon added to the relative measure is not larger than the absolute tolerance. -/
theorem C116_history {σ ι : Type} (m : HystOps σ ι) (M : σ → σ) (hm : MirrorOps m M) (rows : List (ℝ × (ι → ℝ))) (hr : rows ≠ [])
    (z : ℝ) (mr : ℕ) (atol rtol eps : ℝ) (he : 0 ≤ eps) (hea : eps ≤ atol) (hrt : rtol < 1 / 2) :
    ∃ ft its, localForceHistory m rows z mr atol rtol eps = .ok (ft, its) ∧
      localForceHistory m (oppositeRows rows) (-z) mr atol rtol eps = .ok (oppositeRows ft, its) := by
  have hr' : oppositeRows rows ≠ [] := by simpa [oppositeRows] using hr
  have ha : 0 ≤ atol := he.trans hea
  have c0 := cycleRows_mirror hm rows 0 (m.init z)
  have c1 := cycleRows_mirror hm rows 1 (m.init z)
  set L := lastForce (cycleRows m rows 0 (m.init z)) with hL
  rw [history_two m rows hr z (hm.start z) mr ha, history_two m _ hr' (-z) (hm.start _) mr ha, hm.init, c0, c1,
    lastForce_opposite, abs_neg, ← hL]
  by_cases h : |L| > atol ∧ 1 < mr
  · have hneg := rel_of_abs (x := -L) he hea hrt (by rw [abs_neg]; exact h.1)
    rw [abs_neg] at hneg
    rw [if_pos ⟨h.1, rel_of_abs he hea hrt h.1, h.2⟩, if_pos ⟨h.1, hneg, h.2⟩]
    exact ⟨_, _, rfl, rfl⟩
  · rw [if_neg fun h' => h ⟨h'.1, h'.2.2⟩, if_neg fun h' => h ⟨h'.1, h'.2.2⟩]
    exact ⟨_, _, rfl, rfl⟩

theorem mirror_jenkins {ι : Type} (kt Fs : ℝ) (e0 : ι → ℝ) :
    MirrorOps (jenkinsOps kt Fs e0) (fun s => ⟨-s.up, -s.fp, s.dup, s.dfp⟩) where
  init z := by simp [jenkinsOps]
  start _ := rfl
  step s u c := by
    have e : kt * (-u - -s.up) + -s.fp = -(kt * (u - s.up) + s.fp) := by ring
    simp only [jenkinsOps, jenkinsStep, jenkinsLocal, e, abs_neg]
    split
    · rw [Real.sign_neg, neg_mul]
    · rfl

theorem mirror_iwan {ι : Type} (w : Iwan) (e0 : ι → ℝ) :
    MirrorOps (iwanOps w e0) (fun s => ⟨-s.up, -s.fp, fun k => -s.fps k, s.dup, s.dfps⟩) where
  init z := by simp [iwanOps]
  start _ := rfl
  step s u c := by
    have e : ∀ k, -u - -s.up + -s.fps k = -(u - s.up + s.fps k) := fun k => by ring
    have hs : ∀ p x : ℝ, iwanSlider p (-x) = - iwanSlider p x := fun p x => by
      unfold iwanSlider
      rw [abs_neg]
      split
      · rfl
      · rw [Real.sign_neg]; ring
    have hk : ∀ p x : ℝ, iwanStuck p (-x) = iwanStuck p x := fun p x => by unfold iwanStuck; rw [abs_neg]
    simp only [iwanOps, iwanStep, iwanInstant, e, hs, hk, neg_mul, sum_neg_distrib]

theorem serialLfh_opposite {σ : Type} {ops : HystOps σ ℕ} {M : σ → σ} (hm : MirrorOps ops M) {eps : ℝ} (he : 0 ≤ eps)
    (hea : eps ≤ 1 / 10 ^ 10) {Nt : ℕ} (hN : 0 < Nt) {u u' v v' : ℕ → ℕ → ℝ} (c : TS ℕ) {z z' : ℕ → ℝ} (hu : ∀ j, u' j 0 = - u j 0)
    (hz : z' 0 = - z 0) :
    ∃ f f' g, serialLfh ops eps (1 / 10 ^ 10) ⟨Nt, u⟩ v c z = .ok (f, g) ∧ serialLfh ops eps (1 / 10 ^ 10) ⟨Nt, u'⟩ v' c z' = .ok (f', g) ∧
      ∀ j d, f' j d = - f j d := by
  have hr : ((List.range Nt).map fun j => (u j 0, c.val j)) ≠ [] := by simp; omega
  obtain ⟨ft, its, h1, h2⟩ := C116_history ops M hm _ hr (z 0) 2 (1 / 10 ^ 10) (1 / 10 ^ 10) eps he hea (by norm_num)
  have e : oppositeRows ((List.range Nt).map fun j => (u j 0, c.val j)) = (List.range Nt).map fun j => (u' j 0, c.val j) := by
    simp [oppositeRows, hu]
  rw [e] at h2
  have key : ∀ j, (oppositeRows ft).getD j (0, fun _ => 0) = (-(ft.getD j (0, fun _ => 0)).1, (ft.getD j (0, fun _ => 0)).2) := by
    intro j
    unfold oppositeRows
    rw [List.getD_eq_getElem?_getD, List.getD_eq_getElem?_getD, List.getElem?_map]
    cases ft[j]? <;> simp
  refine ⟨fun j _ => (ft.getD j (0, fun _ => 0)).1, fun j _ => -(ft.getD j (0, fun _ => 0)).1, fun j _ _ k => (ft.getD j (0, fun _ => 0)).2 k,
    ?_, ?_, fun _ _ => rfl⟩
  · unfold serialLfh; rw [h1]
  · unfold serialLfh; simp only [hz, h2, key]

/-- C116: the NumPy Jenkins and Iwan elements, with the machine epsilon at most the tolerance `1e-10`. -/
theorem C116_numpy_friction (h : List ℕ) (hA : Admissible h) (Nt : ℕ) (hNt : ∀ k ∈ h, 2*k + 1 < Nt) (heven : Even Nt)
    (N : ℕ) (Q T : ℕ → ℕ → ℝ) (kt Fs : ℝ) (iw : Iwan) (eps : ℝ) (he : 0 ≤ eps) (hea : eps ≤ 1 / 10 ^ 10) :
    ForceKeepsMirror (.jenkins N Q T kt Fs eps) N h Nt ∧ ForceKeepsMirror (.iwan N Q T iw eps) N h Nt := by
  have h0 : 0 < Nt := by
    obtain ⟨k, hk⟩ := List.exists_mem_of_ne_nil h hA.ne
    have := hNt k hk; omega
  have key : ∀ {σ : Type} (ops : HystOps σ ℕ) (M : σ → σ), MirrorOps ops M →
      ForceKeepsMirror (.hyst N 1 Q T (serialLfh ops eps)) N h Nt := by
    intro σ ops M hm U V w H
    obtain ⟨cst, c1, c2⟩ := C24_hysteretic_is_dft h hA Nt hNt heven N 1 Q T (serialLfh ops eps (1 / 10 ^ 10)) U w
    obtain ⟨cst', k1, k2⟩ := C24_hysteretic_is_dft h hA Nt hNt heven N 1 Q T (serialLfh ops eps (1 / 10 ^ 10)) V w
    rw [c1] at k1
    cases k1
    have hz := unlOf_opposite hA H Q 0
    unfold unlOf matMul at hz
    simp only [zero_mul, zero_add] at hz
    obtain ⟨f, f', g, h1, h2, h3⟩ := serialLfh_opposite hm he hea h0 (u := fun j d => localMotion N Q h U d (2 * Real.pi * j / Nt))
      (u' := fun j d => localMotion N Q h V d (2 * Real.pi * j / Nt))
      (v := fun j d => w * deriv (localMotion N Q h U d) (2 * Real.pi * j / Nt))
      (v' := fun j d => w * deriv (localMotion N Q h V d) (2 * Real.pi * j / Nt)) cst
      (z := fun d => ∑ e ∈ range N, Q d e * U e) (z' := fun d => ∑ e ∈ range N, Q d e * V e)
      (fun j => by rw [localMotion_opposite H Q 0]) hz
    rw [h1] at c2
    rw [h2] at k2
    obtain ⟨o, o1, o2⟩ := c2
    obtain ⟨o', p1, p2⟩ := k2
    refine ⟨o.F, o'.F, ?_, ?_, isForceDFT_opposite hA (fun j _ d _ => h3 j d) o2 p2⟩
    · show aftForce (hystAft N 1 Q T (serialLfh ops eps (1 / 10 ^ 10)) U w h Nt) = _
      rw [o1]; rfl
    · show aftForce (hystAft N 1 Q T (serialLfh ops eps (1 / 10 ^ 10)) V w h Nt) = _
      rw [p1]; rfl
  exact ⟨key _ _ (mirror_jenkins kt Fs unit0), key _ _ (mirror_iwan iw unit0)⟩

/-! ## Systems -/

/-- C116: how the force of a class enters a system. -/
theorem C116_system {h : List ℕ} {N Nt : ℕ} {tol : ℝ} (f : NLForce) (p : PForce)
    (hfp : ∀ U w, aftForce (f.aft U w h Nt tol) = p.aftF U w h Nt) (hp : ForceKeepsMirror p N h Nt) :
    KeepsMirror f N h Nt tol := by
  intro U V w H
  obtain ⟨F, G, h1, h2, h3⟩ := hp U V w H
  rw [← hfp] at h1 h2
  cases e1 : f.aft U w h Nt tol with
  | error e => rw [e1] at h1; simp [aftForce] at h1
  | ok o =>
    cases e2 : f.aft V w h Nt tol with
    | error e => rw [e2] at h2; simp [aftForce] at h2
    | ok o' =>
      rw [e1] at h1; rw [e2] at h2
      cases h1; cases h2
      exact ⟨o, o', rfl, rfl, h3⟩

theorem aftVal_mirror {f : NLForce} {nd : ℕ} {h : List ℕ} {Nt : ℕ} {tol : ℝ} (hf : KeepsMirror f nd h Nt tol) (U : ℕ → ℝ) (w : ℝ) :
    f.aft U w h Nt tol = .ok (aftVal h Nt tol f U w) := by
  obtain ⟨o, -, h1, -⟩ := hf U (fun i => - U i) w (fun _ _ => rfl)
  simp only [aftVal, h1]

theorem list_sum_neg {α : Type} (l : List α) (g : α → ℝ) : (l.map fun x => - g x).sum = - (l.map g).sum := by
  induction l with
  | nil => simp
  | cons a l ih => simp only [List.map_cons, List.sum_cons, ih]; ring

theorem hbmG_opposite (S : VibSys) {h : List ℕ} {Nt : ℕ} {tol : ℝ} (hf : ∀ f ∈ S.forces, KeepsMirror f S.nd h Nt tol)
    {Z Z' : ℕ → ℝ} (hZ : Opposite (numCoeff h * S.nd) Z Z') (hw : Z' (numCoeff h * S.nd) = Z (numCoeff h * S.nd)) :
    Opposite (numCoeff h * S.nd) (hbmG S (aftVal h Nt tol) h Z) (hbmG S (aftVal h Nt tol) h Z') := by
  have hs : Opposite (numCoeff h * S.nd) (sl 0 (numCoeff h * S.nd) Z) (sl 0 (numCoeff h * S.nd) Z') := fun i hi => by
    rw [sl_zero hi, sl_zero hi, hZ i hi]
  intro i hi
  unfold hbmG
  rw [hw, neg_add, ← list_sum_neg]
  congr 1
  · unfold matVec
    rw [← sum_neg_distrib]
    exact sum_congr rfl fun j hj => by rw [hs j (mem_range.1 hj)]; ring
  · congr 1
    refine List.map_congr_left fun f hfm => ?_
    obtain ⟨o, o', h1, h2, h3⟩ := hf f hfm _ _ (Z (numCoeff h * S.nd)) hs
    simp only [aftVal, h1, h2]
    exact h3 i hi

/-- C116: the opposite motion under the opposite forcing has the opposite harmonic balance residual. -/
theorem C116_hbm_mirror (h : List ℕ) (hA : Admissible h) (Nt : ℕ) (tol : ℝ) (S : VibSys)
    (hf : ∀ f ∈ S.forces, KeepsMirror f S.nd h Nt tol) (Z Z' Fl Fl' : ℕ → ℝ)
    (hZ : Opposite (numCoeff h * S.nd) Z Z') (hw : Z' (numCoeff h * S.nd) = Z (numCoeff h * S.nd))
    (hF : Opposite (numCoeff h * S.nd) Fl Fl') :
    ∃ o o', hbmRes S Z Fl h Nt tol true = .ok o ∧ hbmRes S Z' Fl' h Nt tol true = .ok o' ∧
      Opposite (numCoeff h * S.nd) o.R o'.R := by
  refine ⟨_, _, hbmRes_ok S hA Nt tol _ (fun f hm U w => aftVal_mirror (hf f hm) U w) Z Fl,
    hbmRes_ok S hA Nt tol _ (fun f hm U w => aftVal_mirror (hf f hm) U w) Z' Fl', fun i hi => ?_⟩
  show hbmG _ _ _ _ _ - _ = - (hbmG _ _ _ _ _ - _)
  rw [hbmG_opposite S hf hZ hw i hi, hF i hi]; ring

theorem halfWave_of {h : List ℕ} (hA : Admissible h) {nd : ℕ} {a b : ℕ → ℝ} (h1 : Opposite (numCoeff h * nd) a b)
    (h2 : Delayed h nd Real.pi a b) : HalfWave h nd a :=
  halfWave_delayed.2 (delayed_congr hA (fun _ _ => rfl) (fun i hi => h1 i hi) h2)

/-- C116: a motion of odd harmonics only, under a forcing of odd harmonics only, has a residual of odd harmonics only:
with symmetric forces the equations of the mean and of all even harmonics hold by themselves. -/
theorem C116_hbm (h : List ℕ) (hA : Admissible h) (Nt : ℕ) (tol : ℝ) (S : VibSys)
    (hf : ∀ f ∈ S.forces, KeepsMirror f S.nd h Nt tol ∧ KeepsDelay f S.nd h Nt tol Real.pi) (Z Fl : ℕ → ℝ)
    (hZ : HalfWave h S.nd Z) (hF : HalfWave h S.nd Fl) :
    ∃ o, hbmRes S Z Fl h Nt tol true = .ok o ∧ HalfWave h S.nd o.R ∧
      ∀ d < S.nd, ∀ k ∈ h, Even k → coefOf h (fun r => o.R (r * S.nd + d)) k = (0, 0) := by
  set Z' : ℕ → ℝ := fun i => if i < numCoeff h * S.nd then - Z i else Z i with hZ'
  have hw : Z' (numCoeff h * S.nd) = Z (numCoeff h * S.nd) := by simp [hZ']
  have hop : Opposite (numCoeff h * S.nd) Z Z' := fun i hi => by simp [hZ', hi]
  have hd : Delayed h S.nd Real.pi Z Z' :=
    delayed_congr hA (fun _ _ => rfl) (fun i hi => (hop i hi).symm) (halfWave_delayed.1 hZ)
  obtain ⟨o, o', h1, h2, h3⟩ := C116_hbm_mirror h hA Nt tol S (fun f hm => (hf f hm).1) Z Z' Fl (fun i => - Fl i) hop hw
    (fun _ _ => rfl)
  obtain ⟨p, p', k1, k2, k3⟩ := C113_hbm h hA Nt tol Real.pi S (fun f hm => (hf f hm).2) Z Z' Fl (fun i => - Fl i) hd hw
    (halfWave_delayed.1 hF)
  rw [h1] at k1; cases k1
  rw [h2] at k2; cases k2
  have hR := halfWave_of hA h3 k3
  exact ⟨o, h1, hR, (C116_odd_harmonics h hA S.nd o.R).1 hR⟩

/-- C116: with no static force the equations of motion and the phase constraint of the extended periodic motion concept
are opposite for the opposite motion and its modal mass is the same: the mirrored mode shape is a solution too. -/
theorem C116_epmc_mirror (h : List ℕ) (hA : Admissible h) (hp : zi h + 2 ≤ numCoeff h) (Nt : ℕ) (tol : ℝ) (S : VibSys)
    (hf : ∀ f ∈ S.forces, KeepsMirror f S.nd h Nt tol) (X X' Fl : ℕ → ℝ) (hX : Opposite (numCoeff h * S.nd) X X')
    (hw : ∀ j < 3, X' (numCoeff h * S.nd + j) = X (numCoeff h * S.nd + j)) (hFl : ∀ i < zi h * S.nd, Fl i = 0) :
    ∃ o o', epmcRes S X Fl h Nt tol true = .ok o ∧ epmcRes S X' Fl h Nt tol true = .ok o' ∧
      Opposite (numCoeff h * S.nd) o.R o'.R ∧ o'.R (numCoeff h * S.nd) = o.R (numCoeff h * S.nd) ∧
      o'.R (numCoeff h * S.nd + 1) = - o.R (numCoeff h * S.nd + 1) := by
  obtain ⟨R, J, d, h1, h2, h3, h4, -⟩ := epmc_ok S hA hp Nt tol _ (fun f hm U w => aftVal_mirror (hf f hm) U w) X Fl rfl
  obtain ⟨R', J', d', k1, k2, k3, k4, -⟩ := epmc_ok S hA hp Nt tol _ (fun f hm U w => aftVal_mirror (hf f hm) U w) X' Fl rfl
  have w0 := hw 0 (by omega)
  rw [add_zero] at w0
  have w1 := hw 1 (by omega)
  have w2 := hw 2 (by omega)
  have hb : ∀ r < numCoeff h, ∀ k < S.nd, r * S.nd + k < numCoeff h * S.nd := fun r hr k hk => row_lt hr hk
  refine ⟨_, _, h1, k1, fun i hi => ?_, ?_, ?_⟩
  · have hZ : Opposite (numCoeff h * S.nd) (epmcZ S h X) (epmcZ S h X') := fun j hj => by
      simp only [epmcZ, hcat, hj, if_true, epmcU, sl_zero hj, w2, hX j hj, mul_neg]
    have g := hbmG_opposite (selfExcited S (X (numCoeff h * S.nd + 1))) hf hZ (by
      show epmcZ S h X' (numCoeff h * S.nd) = epmcZ S h X (numCoeff h * S.nd)
      rw [epmcZ_at, epmcZ_at, w0]) i hi
    have e : harmScale (zi h) S.nd 1 0 i * Fl i = 0 := by
      by_cases h5 : i < zi h * S.nd
      · rw [hFl i h5, mul_zero]
      · have hnd : 0 < S.nd := by
          rcases Nat.eq_zero_or_pos S.nd with h0 | h0
          · rw [h0, mul_zero] at hi; omega
          · exact h0
        have h6 : ¬ i / S.nd < zi h := by rw [Nat.div_lt_iff_lt_mul hnd]; exact h5
        simp [harmScale, h6]
    show R' i = - R i
    rw [k2 i hi, h2 i hi, w1, e, sub_zero, sub_zero, g]
  · show R' _ = R _
    rw [k3, h3]
    congr 2
    all_goals
      unfold quad
      refine sum_congr rfl fun a ha => ?_
      unfold ctrl
      rw [hX _ (hb _ (by omega) a (mem_range.1 ha)), mul_sum, mul_sum]
      refine sum_congr rfl fun b hb' => ?_
      rw [hX _ (hb _ (by omega) b (mem_range.1 hb'))]; ring
  · show R' _ = - R _
    rw [k4, h4, ← sum_neg_distrib]
    exact sum_congr rfl fun k hk => by rw [hX k (mem_range.1 hk)]; ring

/-- C116: a nonlinear mode of odd harmonics only satisfies the equations of the mean and the even harmonics. -/
theorem C116_epmc (h : List ℕ) (hA : Admissible h) (hp : zi h + 2 ≤ numCoeff h) (Nt : ℕ) (tol : ℝ) (S : VibSys)
    (hf : ∀ f ∈ S.forces, KeepsMirror f S.nd h Nt tol ∧ KeepsDelay f S.nd h Nt tol Real.pi) (X Fl : ℕ → ℝ)
    (hX : HalfWave h S.nd X) (hFl : ∀ i < zi h * S.nd, Fl i = 0) :
    ∃ o, epmcRes S X Fl h Nt tol true = .ok o ∧ HalfWave h S.nd o.R ∧
      ∀ d < S.nd, ∀ k ∈ h, Even k → coefOf h (fun r => o.R (r * S.nd + d)) k = (0, 0) := by
  set X' : ℕ → ℝ := fun i => if i < numCoeff h * S.nd then - X i else X i with hX'
  have hw : ∀ j < 3, X' (numCoeff h * S.nd + j) = X (numCoeff h * S.nd + j) := fun j _ => by simp [hX']
  have hop : Opposite (numCoeff h * S.nd) X X' := fun i hi => by simp [hX', hi]
  have hd : Delayed h S.nd Real.pi X X' :=
    delayed_congr hA (fun _ _ => rfl) (fun i hi => (hop i hi).symm) (halfWave_delayed.1 hX)
  obtain ⟨o, o', h1, h2, h3, -⟩ := C116_epmc_mirror h hA hp Nt tol S (fun f hm => (hf f hm).1) X X' Fl hop hw hFl
  obtain ⟨p, p', k1, k2, k3, -⟩ := C113_epmc h hA hp Nt tol Real.pi S (fun f hm => (hf f hm).2) X X' Fl hd hw
  rw [h1] at k1; cases k1
  rw [h2] at k2; cases k2
  have hR := halfWave_of hA h3 k3
  exact ⟨o, h1, hR, (C116_odd_harmonics h hA S.nd o.R).1 hR⟩

/-- Half a period is a whole number of samples. -/
theorem half_period {Nt : ℕ} (h0 : 0 < Nt) (heven : Even Nt) : 2 * Real.pi * ((Nt / 2 : ℕ) : ℝ) / Nt = Real.pi := by
  obtain ⟨k, hk⟩ := heven
  have e : Nt / 2 = k := by omega
  have hN : (Nt : ℝ) ≠ 0 := by exact_mod_cast h0.ne'
  have hk' : (Nt : ℝ) = k + k := by rw [hk]; push_cast; ring
  rw [e, div_eq_iff hN, hk']; ring

/-- C116: systems of springs and dampers of the odd laws and of JAX Jenkins elements meet the hypotheses. -/
theorem C116_classes (h : List ℕ) (hA : Admissible h) (Nt : ℕ) (hNt : ∀ k ∈ h, 2*k + 1 < Nt) (heven : Even Nt)
    (hh : 1 < numCoeff h) (tol : ℝ) (N m : ℕ) (Q T : ℕ → ℕ → ℝ) :
    (∀ (loc : ℕ → ℝ → ℝ → Loc) (force : (ℕ → ℝ) → (ℕ → ℝ) × (ℕ → ℕ → ℝ)), (∀ d u v, (loc d (-u) (-v)).f = - (loc d u v).f) →
      KeepsMirror (instForce N m Q T loc force) N h Nt tol ∧ KeepsDelay (instForce N m Q T loc force) N h Nt tol Real.pi) ∧
    (∀ (f : NLForce) (kt Fs : ℝ), 0 ≤ Fs →
      (∀ U w, aftForce (f.aft U w h Nt tol) = (PForce.jaxJenkins N Q T kt Fs .none).aftF U w h Nt) →
      KeepsMirror f N h Nt tol ∧ KeepsDelay f N h Nt tol Real.pi) := by
  have h0 : 0 < Nt := by
    obtain ⟨k, hk⟩ := List.exists_mem_of_ne_nil h hA.ne
    have := hNt k hk; omega
  have hp := half_period h0 heven
  refine ⟨fun loc force hodd => ⟨C116_instantaneous h hA Nt hNt heven N m Q T loc hodd force tol, ?_⟩, fun f kt Fs hF hfp =>
    ⟨C116_system f _ hfp (C116_jax_jenkins h hA Nt hNt heven hh N Q T kt Fs hF), ?_⟩⟩
  · have := C113_instantaneous h hA Nt hNt heven N m Q T loc force tol (Nt / 2)
    rwa [hp] at this
  · have := C115_jenkins hA hNt heven hh N Q T kt Fs hF .none (Nt / 2)
    rw [hp] at this
    exact C115_system f _ hfp this

/-- C116: the unilateral spring is not symmetric: pushed by `cos τ` it has a mean force. -/
theorem C116_unilateral (tol : ℝ) (force : (ℕ → ℝ) → (ℕ → ℝ) × (ℕ → ℕ → ℝ)) :
    ∃ o, (instForce 1 1 (fun _ _ => 1) (fun _ _ => 1) (unilateralLoc (fun _ => 1) (fun _ => 0) (fun _ => 0)) force).aft
        (fun i => if i = 1 then 1 else 0) 1 [0, 1] 4 tol = .ok o ∧
      HalfWave [0, 1] 1 (fun i => if i = 1 then 1 else 0) ∧ o.F 0 = 1 / 4 := by
  obtain ⟨o, h1, h2⟩ := C24_is_dft [0, 1] adm01 4 (by simp) ⟨2, rfl⟩ 1 1 (fun _ _ => 1) (fun _ _ => 1)
    (unilateralLoc (fun _ => 1) (fun _ => 0) (fun _ => 0)) (fun i => if i = 1 then 1 else 0) 1
  refine ⟨o, h1, fun d hd τ => ?_, ?_⟩
  · obtain rfl : d = 0 := by omega
    simp [series]
  · have h3 := h2 0 (by omega) 0 (by simp)
    obtain ⟨c1, s1, c2, s2, c3, s3⟩ := samples4
    simp only [dft, sum_range_succ, range_zero, sum_empty, zero_add, unilateralLoc, local_one, c1, s1, c2, s2, c3, s3, if_true] at h3
    simp [coefOf] at h3
    rw [h3]; norm_num

/-- The hypotheses of C116 are met by a Duffing oscillator under a cosine force: its mean equation holds. -/
example (tol w a f : ℝ) :
    ∃ o, hbmRes ⟨1, fun _ _ => 1, fun _ _ => 1, fun _ _ => 0.1, none,
        [cubicNL 1 1 (fun _ _ => 1) (fun _ _ => 1) (fun _ => 1)]⟩
        (fun i => if i = 1 then a else if i = 3 then w else 0) (fun i => if i = 1 then f else 0) [0, 1] 4 tol true = .ok o ∧
      o.R 0 = 0 := by
  obtain ⟨o, h1, -, h3⟩ := C116_hbm [0, 1] adm01 4 tol
    ⟨1, fun _ _ => 1, fun _ _ => 1, fun _ _ => 0.1, none, [cubicNL 1 1 (fun _ _ => 1) (fun _ _ => 1) (fun _ => 1)]⟩
    (fun g hg => by
      simp only [List.mem_singleton] at hg
      subst hg
      exact (C116_classes [0, 1] adm01 4 (by simp) ⟨2, rfl⟩ (by decide) tol 1 1 _ _).1 _ _
        fun d u v => (C116_odd_laws (fun _ => 1) ⟨0, 0, 0, 0⟩ d u v).1)
    (fun i => if i = 1 then a else if i = 3 then w else 0) (fun i => if i = 1 then f else 0)
    (fun d hd τ => by
      obtain rfl : d = 0 := by simp only at hd; omega
      simp [series])
    (fun d hd τ => by
      obtain rfl : d = 0 := by simp only at hd; omega
      simp [series])
  refine ⟨o, h1, ?_⟩
  have := h3 0 (by simp) 0 (by simp) (by simp)
  simpa [coefOf] using this

end

end TMD
