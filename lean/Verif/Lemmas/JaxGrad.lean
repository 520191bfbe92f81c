import Verif.Model.JaxGrad
import Verif.Lemmas.HystLocal
import Verif.Props.ElasticDryFriction
import Verif.Props.Hysteresis

/-!
# Lemmas on the forward mode derivatives of the JAX elements
-/

namespace TMD

open Spec Finset Filter Topology

noncomputable section

/-! ## One column of the two loops -/

/-- One column of the loops: a slider with limits `hi` and `lo`, in the operations `J`. -/
def gSlider {α : Type} (J : JNum α) (kt : ℝ) (hi lo u : ℕ → α) (up fp : α) : ℕ → α
  | 0 => J.max (J.min (J.add (J.mul (J.const kt) (J.sub (u 0) up)) fp) (hi 0)) (lo 0)
  | i + 1 => J.max (J.min (J.add (J.mul (J.const kt) (J.sub (u (i + 1)) (u i))) (gSlider J kt hi lo u up fp i))
      (hi (i + 1))) (lo (i + 1))

section generic

variable {α : Type} (J : JNum α)

theorem gSlider_congr (kt : ℝ) {hi hi' lo lo' u u' : ℕ → α} {up fp : α} {n : ℕ} (h1 : ∀ i ≤ n, hi i = hi' i)
    (h2 : ∀ i ≤ n, lo i = lo' i) (h3 : ∀ i ≤ n, u i = u' i) :
    gSlider J kt hi lo u up fp n = gSlider J kt hi' lo' u' up fp n := by
  induction n with
  | zero => simp only [gSlider, h1 0 le_rfl, h2 0 le_rfl, h3 0 le_rfl]
  | succ n ih =>
    simp only [gSlider, h1 _ le_rfl, h2 _ le_rfl, h3 _ le_rfl, h3 n (Nat.le_succ n)]
    rw [ih (fun i hi => h1 i (by omega)) (fun i hi => h2 i (by omega)) (fun i hi => h3 i (by omega))]

theorem gSlider_shift (kt : ℝ) (hi lo u : ℕ → α) (up fp : α) (M n : ℕ) :
    gSlider J kt hi lo u up fp (M + 1 + n)
      = gSlider J kt (fun i => hi (M + 1 + i)) (fun i => lo (M + 1 + i)) (fun i => u (M + 1 + i)) (u M)
          (gSlider J kt hi lo u up fp M) n := by
  induction n with
  | zero => rfl
  | succ n ih =>
    rw [show M + 1 + (n + 1) = (M + 1 + n) + 1 by ring]
    simp only [gSlider]
    rw [ih]
    rfl

/-- Loop body with tangential columns `tan`, whose limits `hi`, `lo` are computed from the current row. -/
def gBody (tan : ℕ → Prop) [DecidablePred tan] (hi lo : (ℕ → α) → ℕ → α) (Nt : ℕ) (u : ℕ → ℕ → α) (kt : ℝ)
    (ft : ℕ → ℕ → α) (ind : ℕ) : ℕ → ℕ → α :=
  setRow ft ind fun d => if tan d then J.max (J.min
      (J.add (J.mul (J.const kt) (J.sub (u ind d) (u (prevIdx Nt ind) d))) (ft (prevIdx Nt ind) d))
      (hi (ft ind) d)) (lo (ft ind) d)
    else ft ind d

variable (tan : ℕ → Prop) [DecidablePred tan] (hi lo : (ℕ → α) → ℕ → α)

theorem gBody_normal (Nt : ℕ) (u : ℕ → ℕ → α) (kt : ℝ) (ft : ℕ → ℕ → α) (n t d : ℕ) (hd : ¬ tan d) :
    foriLoop (gBody J tan hi lo Nt u kt) n ft t d = ft t d := by
  induction n with
  | zero => rfl
  | succ n ih =>
    unfold foriLoop at ih ⊢
    rw [List.range_succ, List.foldl_append]
    simp only [List.foldl_cons, List.foldl_nil, gBody, setRow]
    by_cases h : t = n
    · subst h; rw [if_pos rfl, if_neg hd]; exact ih
    · rw [if_neg h]; exact ih

theorem gBody_row (Nt : ℕ) (u : ℕ → ℕ → α) (kt : ℝ) (ft : ℕ → ℕ → α) (ind t d : ℕ) :
    gBody J tan hi lo Nt u kt ft ind t d = if t = ind then (if tan d then J.max (J.min
      (J.add (J.mul (J.const kt) (J.sub (u ind d) (u (prevIdx Nt ind) d))) (ft (prevIdx Nt ind) d))
      (hi (ft ind) d)) (lo (ft ind) d) else ft ind d) else ft t d := by
  unfold gBody setRow
  split <;> rfl

/-- The limits only look at the columns that the loop leaves alone. -/
def LimitOk (f : (ℕ → α) → ℕ → α) : Prop := ∀ d, tan d → ∀ r r', (∀ c, ¬ tan c → r c = r' c) → f r d = f r' d

theorem gBody_tangential (h1 : LimitOk tan hi) (h2 : LimitOk tan lo) (Nt : ℕ) (u : ℕ → ℕ → α) (kt : ℝ) (ft : ℕ → ℕ → α)
    (n : ℕ) (hn : n ≤ Nt) (t d : ℕ) (hd : tan d) :
    foriLoop (gBody J tan hi lo Nt u kt) n ft t d
      = if t < n then gSlider J kt (fun t => hi (ft t) d) (fun t => lo (ft t) d) (fun t => u t d) (u (Nt-1) d)
          (ft (Nt-1) d) t else ft t d := by
  induction n generalizing t with
  | zero => simp [foriLoop]
  | succ n ih =>
    have ih' := ih (by omega)
    have hnr := fun t c hc => gBody_normal J tan hi lo Nt u kt ft n t c hc
    unfold foriLoop at ih' hnr ⊢
    rw [List.range_succ, List.foldl_append]
    simp only [List.foldl_cons, List.foldl_nil]
    rw [gBody_row]
    by_cases hi' : t = n
    · subst hi'
      rw [if_pos rfl, if_pos hd, if_pos (Nat.lt_succ_self _), ih' (prevIdx Nt t),
        h1 d hd _ (ft t) (fun c hc => hnr t c hc), h2 d hd _ (ft t) (fun c hc => hnr t c hc)]
      cases t with
      | zero => simp only [prevIdx, if_true, Nat.not_lt_zero, if_false, gSlider]
      | succ i =>
        have : prevIdx Nt (i+1) = i := by simp [prevIdx]
        rw [this, if_pos (Nat.lt_succ_self _)]
        rfl
    · rw [if_neg hi', ih' t]
      by_cases h2 : t < n
      · rw [if_pos h2, if_pos (by omega)]
      · rw [if_neg h2, if_neg (by omega)]

theorem gBody_two_loops (h1 : LimitOk tan hi) (h2 : LimitOk tan lo) (Nt : ℕ) (hN : 0 < Nt) (u : ℕ → ℕ → α) (kt : ℝ)
    (ft : ℕ → ℕ → α) (t d : ℕ) (ht : t < Nt) (hd : tan d) :
    foriLoop (gBody J tan hi lo Nt u kt) Nt (foriLoop (gBody J tan hi lo Nt u kt) Nt ft) t d
      = gSlider J kt (periodic Nt fun t => hi (ft t) d) (periodic Nt fun t => lo (ft t) d) (periodic Nt fun t => u t d)
          (u (Nt-1) d) (ft (Nt-1) d) (Nt + t) := by
  rw [gBody_tangential J tan hi lo h1 h2 Nt u kt _ Nt le_rfl t d hd, if_pos ht,
    gBody_tangential J tan hi lo h1 h2 Nt u kt _ Nt le_rfl (Nt-1) d hd, if_pos (by omega)]
  have e1 : (fun t => hi (foriLoop (gBody J tan hi lo Nt u kt) Nt ft t) d) = fun t => hi (ft t) d := by
    funext t
    exact h1 d hd _ _ fun c hc => gBody_normal J tan hi lo Nt u kt ft Nt t c hc
  have e2 : (fun t => lo (foriLoop (gBody J tan hi lo Nt u kt) Nt ft t) d) = fun t => lo (ft t) d := by
    funext t
    exact h2 d hd _ _ fun c hc => gBody_normal J tan hi lo Nt u kt ft Nt t c hc
  rw [e1, e2]
  obtain ⟨M, rfl⟩ : ∃ M, Nt = M + 1 := ⟨Nt - 1, by omega⟩
  rw [gSlider_shift]
  simp only [Nat.add_sub_cancel]
  have hm : ∀ i ≤ M, i % (M + 1) = i := fun i hi => Nat.mod_eq_of_lt (by omega)
  have hm' : ∀ i ≤ t, (M + 1 + i) % (M + 1) = i := fun i hi => by rw [Nat.add_mod_left, Nat.mod_eq_of_lt (by omega)]
  rw [gSlider_congr J kt (hi := fun t => hi (ft t) d) (hi' := periodic (M+1) fun t => hi (ft t) d)
    (lo := fun t => lo (ft t) d) (lo' := periodic (M+1) fun t => lo (ft t) d)
    (u := fun t => u t d) (u' := periodic (M+1) fun t => u t d) (n := M)
    (fun i hi => by simp only [periodic, hm i hi]) (fun i hi => by simp only [periodic, hm i hi])
    (fun i hi => by simp only [periodic, hm i hi])]
  rw [show periodic (M+1) (fun t => u t d) M = u M d by simp only [periodic, hm M le_rfl]]
  exact gSlider_congr J kt (fun i hi => by simp only [periodic, hm' i hi]) (fun i hi => by simp only [periodic, hm' i hi])
    (fun i hi => by simp only [periodic, hm' i hi])

/-- The Jenkins history is the two loops with one column. -/
theorem gJenkins_slider (Nt : ℕ) (hN : 0 < Nt) (u : ℕ → α) (kt Fs : ℝ) (u0 : α) (t : ℕ) (ht : t < Nt) :
    gJenkinsHistory J Nt u kt Fs u0 t
      = gSlider J kt (fun _ => J.const Fs) (fun _ => J.const (-Fs)) (periodic Nt u) (u (Nt-1))
          (J.mul (J.const kt) (J.sub (u (Nt-1)) u0)) (Nt + t) := by
  have h := gBody_two_loops J (fun _ => True) (fun _ _ => J.const Fs) (fun _ _ => J.const (-Fs)) (fun _ _ _ _ _ => rfl)
    (fun _ _ _ _ _ => rfl) Nt hN (fun t _ => u t) kt
    (fun t _ => setRow (fun _ => J.const 0) (Nt - 1) (J.mul (J.const kt) (J.sub (u (Nt - 1)) u0)) t) t 0 ht trivial
  have e : ∀ n (f : ℕ → α), foriLoop (gBody J (fun _ => True) (fun _ _ => J.const Fs) (fun _ _ => J.const (-Fs)) Nt
      (fun t _ => u t) kt) n (fun t _ => f t) = fun t _ => foriLoop (gJenkinsBody J Nt u kt Fs) n f t := by
    intro n f
    induction n with
    | zero => rfl
    | succ n ih =>
      unfold foriLoop at ih ⊢
      rw [List.range_succ, List.foldl_append, List.foldl_append, ih]
      funext t d
      simp only [List.foldl_cons, List.foldl_nil, gBody, gJenkinsBody, if_true, setRow]
      split <;> rfl
  rw [e, e] at h
  beta_reduce at h
  unfold gJenkinsHistory
  rw [h]
  congr 1
  simp [setRow]

theorem gEdf_slider (nrm pos : ℕ → ℕ) (hnrm : ∀ d, tan d → ¬ tan (nrm d)) (Nt : ℕ) (hN : 0 < Nt) (u : ℕ → ℕ → α)
    (kt kn mu gap : ℝ) (u0 : ℕ → α) (t d : ℕ) (ht : t < Nt) (hd : tan d) :
    gEdfHistory J tan nrm pos Nt u kt kn mu gap u0 t d
      = gSlider J kt (periodic Nt fun t => J.mul (J.const mu) (gNormal J kn gap (u t (nrm d))))
          (periodic Nt fun t => J.mul (J.const (-mu)) (gNormal J kn gap (u t (nrm d)))) (periodic Nt fun t => u t d)
          (u (Nt-1) d) (J.mul (J.const kt) (J.sub (u (Nt-1) d) (u0 (pos d)))) (Nt + t) := by
  have h := gBody_two_loops J tan (fun r d => J.mul (J.const mu) (r (nrm d))) (fun r d => J.mul (J.const (-mu)) (r (nrm d)))
    (fun d hd r r' hr => by beta_reduce; rw [hr _ (hnrm d hd)]) (fun d hd r r' hr => by beta_reduce; rw [hr _ (hnrm d hd)]) Nt hN u kt
    (fun t d => if tan d then (if t = Nt - 1 then J.mul (J.const kt) (J.sub (u t d) (u0 (pos d))) else J.const 0)
      else gNormal J kn gap (u t d)) t d ht hd
  unfold gEdfHistory
  have e : gBody J tan (fun r d => J.mul (J.const mu) (r (nrm d))) (fun r d => J.mul (J.const (-mu)) (r (nrm d))) Nt u kt
      = gEdfBody J tan nrm Nt u kt mu := rfl
  rw [e] at h
  rw [h]
  simp only [if_neg (hnrm d hd), if_pos hd, if_true]

theorem gEdf_normal (nrm pos : ℕ → ℕ) (Nt : ℕ) (u : ℕ → ℕ → α) (kt kn mu gap : ℝ) (u0 : ℕ → α) (t d : ℕ) (hd : ¬ tan d) :
    gEdfHistory J tan nrm pos Nt u kt kn mu gap u0 t d = gNormal J kn gap (u t d) := by
  unfold gEdfHistory
  have e : gBody J tan (fun r d => J.mul (J.const mu) (r (nrm d))) (fun r d => J.mul (J.const (-mu)) (r (nrm d))) Nt u kt
      = gEdfBody J tan nrm Nt u kt mu := rfl
  rw [← e, gBody_normal _ _ _ _ _ _ _ _ _ _ _ hd, gBody_normal _ _ _ _ _ _ _ _ _ _ _ hd, if_neg hd]

end generic

/-- On numbers it is the slider. -/
theorem gSlider_real (kt : ℝ) (L u : ℕ → ℝ) (up fp : ℝ) (n : ℕ) :
    gSlider realNum kt L (fun i => -L i) u up fp n = slider kt L u up fp n := by
  induction n with
  | zero =>
    rw [slider_zero, clip, max_comm]
    rfl
  | succ n ih =>
    rw [slider_succ, clip, max_comm, ← ih]
    rfl

/-- The values of the pairs are the values of the program on numbers. -/
theorem gSlider_v (kt : ℝ) (hi lo u : ℕ → Dual) (up fp : Dual) (n : ℕ) :
    (gSlider dualNum kt hi lo u up fp n).v
      = gSlider realNum kt (fun i => (hi i).v) (fun i => (lo i).v) (fun i => (u i).v) up.v fp.v n := by
  induction n with
  | zero => rfl
  | succ n ih =>
    simp only [gSlider]
    rw [← ih]
    rfl

/-- Values of the pairs pass through the loops. -/
theorem gJenkins_v (Nt : ℕ) (u : ℕ → Dual) (kt Fs : ℝ) (u0 : Dual) (t : ℕ) :
    (gJenkinsHistory dualNum Nt u kt Fs u0 t).v = jaxJenkinsHistory Nt (fun j => (u j).v) kt Fs u0.v t := by
  have e : ∀ n (f : ℕ → Dual), (fun t => (foriLoop (gJenkinsBody dualNum Nt u kt Fs) n f t).v)
      = foriLoop (jaxJenkinsBody Nt (fun j => (u j).v) kt Fs) n (fun t => (f t).v) := by
    intro n f
    induction n with
    | zero => rfl
    | succ n ih =>
      unfold foriLoop at ih ⊢
      rw [List.range_succ, List.foldl_append, List.foldl_append, ← ih]
      funext t
      simp only [List.foldl_cons, List.foldl_nil, gJenkinsBody, jaxJenkinsBody, setRow]
      split <;> rfl
  have h1 := congrFun (e Nt (foriLoop (gJenkinsBody dualNum Nt u kt Fs) Nt
    (setRow (fun _ => dualNum.const 0) (Nt - 1) (dualNum.mul (dualNum.const kt) (dualNum.sub (u (Nt - 1)) u0))))) t
  unfold gJenkinsHistory jaxJenkinsHistory
  rw [h1, e]
  have e0 : (fun t => (setRow (fun _ => dualNum.const 0) (Nt - 1)
      (dualNum.mul (dualNum.const kt) (dualNum.sub (u (Nt - 1)) u0)) t).v)
      = setRow (fun _ => (0 : ℝ)) (Nt - 1) (kt * ((u (Nt - 1)).v - u0.v)) := by
    funext t
    unfold setRow
    split <;> rfl
  rw [e0]

theorem gEdf_v (tan : ℕ → Prop) [DecidablePred tan] (nrm pos : ℕ → ℕ) (Nt : ℕ) (u : ℕ → ℕ → Dual) (kt kn mu gap : ℝ)
    (u0 : ℕ → Dual) (t d : ℕ) :
    (gEdfHistory dualNum tan nrm pos Nt u kt kn mu gap u0 t d).v
      = gEdfHistory realNum tan nrm pos Nt (fun j d => (u j d).v) kt kn mu gap (fun d => (u0 d).v) t d := by
  have e : ∀ n (f : ℕ → ℕ → Dual), (fun t d => (foriLoop (gEdfBody dualNum tan nrm Nt u kt mu) n f t d).v)
      = foriLoop (gEdfBody realNum tan nrm Nt (fun j d => (u j d).v) kt mu) n (fun t d => (f t d).v) := by
    intro n f
    induction n with
    | zero => rfl
    | succ n ih =>
      unfold foriLoop at ih ⊢
      rw [List.range_succ, List.foldl_append, List.foldl_append, ← ih]
      funext t d
      simp only [List.foldl_cons, List.foldl_nil, gEdfBody, setRow]
      split
      · beta_reduce
        split <;> rfl
      · rfl
  unfold gEdfHistory
  have h1 := fun f => congrFun (congrFun (e Nt (foriLoop (gEdfBody dualNum tan nrm Nt u kt mu) Nt f)) t) d
  rw [h1, e]
  have e0 : (fun t d => (if tan d then (if t = Nt - 1 then dualNum.mul (dualNum.const kt) (dualNum.sub (u t d) (u0 (pos d)))
        else dualNum.const 0) else gNormal dualNum kn gap (u t d)).v)
      = fun t d => if tan d then (if t = Nt - 1 then realNum.mul (realNum.const kt)
          (realNum.sub ((u t d).v) ((u0 (pos d)).v)) else realNum.const 0) else gNormal realNum kn gap ((u t d).v) := by
    funext t d
    split
    · split <;> rfl
    · rfl
  rw [e0]

theorem gEdf2_real (Nt : ℕ) (u : ℕ → ℕ → ℝ) (kt kn mu gap : ℝ) (u0 : EdfU0) (z : ℕ → ℝ) :
    gEdfHistory realNum (fun d => d % 2 = 0) (fun d => d + 1) id Nt u kt kn mu gap (gStart realNum u0 z)
      = edf2History Nt u kt kn mu gap (edf2AftU0 u0 z) := by
  unfold gEdfHistory edf2History
  have : (fun t d => if d % 2 = 0 then
      (if t = Nt - 1 then realNum.mul (realNum.const kt) (realNum.sub (u t d) (gStart realNum u0 z (id d))) else realNum.const 0)
        else gNormal realNum kn gap (u t d)) = edf2Start Nt u kt kn gap (edf2AftU0 u0 z) := by
    funext t d
    unfold edf2Start
    split
    · rename_i hd
      split
      · have hd' : 2 * (d / 2) = d := by omega
        cases u0 <;> simp [gStart, edf2AftU0, realNum, hd']
      · rfl
    · rfl
  simp only
  rw [this]
  rfl

theorem gEdf3_real (Nt : ℕ) (u : ℕ → ℕ → ℝ) (kt kn mu gap : ℝ) (u0 : EdfU0) (z : ℕ → ℝ) :
    gEdfHistory realNum (fun d => d % 3 ≠ 2) edf3Normal id Nt u kt kn mu gap (gStart realNum u0 z)
      = edf3History Nt u kt kn mu gap (edf3AftU0 u0 z) := by
  unfold gEdfHistory edf3History
  have : (fun t d => if d % 3 ≠ 2 then
      (if t = Nt - 1 then realNum.mul (realNum.const kt) (realNum.sub (u t d) (gStart realNum u0 z (id d))) else realNum.const 0)
        else gNormal realNum kn gap (u t d)) = edf3Start Nt u kt kn gap (edf3AftU0 u0 z) := by
    funext t d
    unfold edf3Start
    split
    · rename_i hd
      split
      · have hd' : 3 * ((2 * (d / 3) + d % 3) / 2) + (2 * (d / 3) + d % 3) % 2 = d := by omega
        cases u0 <;> simp only [gStart, edf3AftU0, hd'] <;> rfl
      · rfl
    · rfl
  simp only
  rw [this]
  rfl

theorem gEdf2_static (unl up fp : ℕ → ℝ) (kt kn mu gap : ℝ) :
    gEdfStatic realNum (fun d => d % 2 = 0) (fun d => d + 1) (fun d => d / 2) unl up kt kn mu gap
      = edf2Static unl up fp kt kn mu gap := rfl

theorem gEdf3_static (unl up fp : ℕ → ℝ) (kt kn mu gap : ℝ) :
    gEdfStatic realNum (fun d => d % 3 ≠ 2) edf3Normal (fun d => 2 * (d / 3) + d % 3) unl up kt kn mu gap
      = edf3Static unl up fp kt kn mu gap := rfl

/-! ## Values and derivatives of the operations -/

/-- At `X` the pair `x` holds the value of `F` and, after the linear change of variables `M`, its gradient. -/
def Tracks (n K : ℕ) (M : ℕ → ℕ → ℝ) (X : ℕ → ℝ) (F : (ℕ → ℝ) → ℝ) (x : Dual) : Prop :=
  F X = x.v ∧ HasGrad n F (fun q => ∑ k ∈ range K, x.d k * M k q) X

section tracks

variable {n K : ℕ} {M : ℕ → ℕ → ℝ} {X : ℕ → ℝ} {F G : (ℕ → ℝ) → ℝ} {x y : Dual}

theorem tracks_const (c : ℝ) : Tracks n K M X (fun _ => c) (dualNum.const c) :=
  ⟨rfl, (HasGrad.const c).congr fun q _ => by simp [dualNum]⟩

theorem tracks_add (hx : Tracks n K M X F x) (hy : Tracks n K M X G y) :
    Tracks n K M X (fun X => F X + G X) (dualNum.add x y) :=
  ⟨by simp [dualNum, hx.1, hy.1], (hx.2.add hy.2).congr fun q _ => by simp [dualNum, add_mul, sum_add_distrib]⟩

theorem tracks_sub (hx : Tracks n K M X F x) (hy : Tracks n K M X G y) :
    Tracks n K M X (fun X => F X - G X) (dualNum.sub x y) :=
  ⟨by simp [dualNum, hx.1, hy.1], (hx.2.sub hy.2).congr fun q _ => by simp [dualNum, sub_mul, sum_sub_distrib]⟩

theorem tracks_mul (hx : Tracks n K M X F x) (hy : Tracks n K M X G y) :
    Tracks n K M X (fun X => F X * G X) (dualNum.mul x y) :=
  ⟨by simp [dualNum, hx.1, hy.1], (hx.2.mul hy.2).congr fun q _ => by
    simp only [dualNum, add_mul, sum_add_distrib, hx.1, hy.1, mul_sum]
    rw [add_comm]
    congr 1 <;> exact sum_congr rfl fun k _ => by ring⟩

theorem tracks_near (hx : Tracks n K M X F x) (h0 : G X = F X)
    (h : ∀ᶠ v in 𝓝 (0 : Fin n → ℝ), G (fun i => X i + ext v i) = F (fun i => X i + ext v i)) : Tracks n K M X G x :=
  ⟨h0.trans hx.1, hasGrad_near hx.2 h⟩

theorem tracks_fun (hx : Tracks n K M X F x) (h : ∀ X, G X = F X) : Tracks n K M X G x :=
  tracks_near hx (h X) (Eventually.of_forall fun _ => h _)

theorem tracks_lt (hx : Tracks n K M X F x) (hy : Tracks n K M X G y) (h : F X < G X) :
    ∀ᶠ v in 𝓝 (0 : Fin n → ℝ), F (fun i => X i + ext v i) < G (fun i => X i + ext v i) :=
  (hasGrad_tendsto hx.2).eventually_lt (hasGrad_tendsto hy.2) h

theorem dual_min_lt (h : x.v < y.v) : dualNum.min x y = x := by
  ext k
  · simp [dualNum, h.le]
  · simp [dualNum, balanced, h.le, not_le.2 h]

theorem dual_min_gt (h : y.v < x.v) : dualNum.min x y = y := by
  ext k
  · simp [dualNum, h.le]
  · simp [dualNum, balanced, h.le, not_le.2 h]

theorem dual_max_lt (h : x.v < y.v) : dualNum.max x y = y := by
  ext k
  · simp [dualNum, h.le]
  · simp [dualNum, balanced, h.le, not_le.2 h]

theorem dual_max_gt (h : y.v < x.v) : dualNum.max x y = x := by
  ext k
  · simp [dualNum, h.le]
  · simp [dualNum, balanced, h.le, not_le.2 h]

/-- `maximum` away from equal arguments. -/
theorem tracks_max (hx : Tracks n K M X F x) (hy : Tracks n K M X G y) (h : F X ≠ G X) :
    Tracks n K M X (fun X => max (F X) (G X)) (dualNum.max x y) := by
  rcases lt_or_gt_of_ne h with h | h
  · rw [dual_max_lt (by rw [← hx.1, ← hy.1]; exact h)]
    exact tracks_near hy (max_eq_right h.le) ((tracks_lt hx hy h).mono fun v hv => max_eq_right hv.le)
  · rw [dual_max_gt (by rw [← hx.1, ← hy.1]; exact h)]
    exact tracks_near hx (max_eq_left h.le) ((tracks_lt hy hx h).mono fun v hv => max_eq_left hv.le)

/-- `minimum` away from equal arguments. -/
theorem tracks_min (hx : Tracks n K M X F x) (hy : Tracks n K M X G y) (h : F X ≠ G X) :
    Tracks n K M X (fun X => min (F X) (G X)) (dualNum.min x y) := by
  rcases lt_or_gt_of_ne h with h | h
  · rw [dual_min_lt (by rw [← hx.1, ← hy.1]; exact h)]
    exact tracks_near hx (min_eq_left h.le) ((tracks_lt hx hy h).mono fun v hv => min_eq_left hv.le)
  · rw [dual_min_gt (by rw [← hx.1, ← hy.1]; exact h)]
    exact tracks_near hy (min_eq_right h.le) ((tracks_lt hy hx h).mono fun v hv => min_eq_right hv.le)

/-- The two limits one after the other: the prediction is not at a limit; a zero limit has no tangents. -/
theorem tracks_clip {P L : (ℕ → ℝ) → ℝ} {p hi lo : Dual} (hp : Tracks n K M X P p) (hhi : Tracks n K M X L hi)
    (hlo : Tracks n K M X (fun X => -L X) lo) (hL : ∀ X, 0 ≤ L X) (h0 : L X = 0 → ∀ k, hi.d k = 0 ∧ lo.d k = 0)
    (h : |P X| ≠ L X) :
    Tracks n K M X (fun X => max (min (P X) (L X)) (-L X)) (dualNum.max (dualNum.min p hi) lo) := by
  have hne : P X ≠ L X := fun e => h (by rw [e, abs_of_nonneg (hL X)])
  have hne' : P X ≠ -L X := fun e => h (by rw [e, abs_neg, abs_of_nonneg (hL X)])
  have hm := tracks_min hp hhi hne
  rcases (hL X).eq_or_lt' with e | e
  · rcases lt_or_gt_of_ne hne with hlt | hgt
    · refine tracks_max hm hlo ?_
      rw [min_eq_left hlt.le]
      exact hne'
    · -- both limits are zero and the force slides: the two equal arguments have no tangents
      have hv : hi.v = 0 := by rw [← hhi.1, e]
      have lv : lo.v = 0 := by rw [← hlo.1]; beta_reduce; rw [e, neg_zero]
      rw [dual_min_gt (by rw [← hhi.1, ← hp.1]; exact hgt)]
      have hmx : dualNum.max hi lo = hi := by
        ext k
        · simp [dualNum, hv, lv]
        · simp [dualNum, (h0 e k).1, (h0 e k).2]
      rw [hmx]
      refine tracks_near hhi ?_ ((tracks_lt hhi hp hgt).mono fun v hv => ?_)
      · rw [min_eq_right hgt.le, e, neg_zero, max_self]
      · have := hL (fun i => X i + ext v i)
        rw [min_eq_right hv.le, max_eq_left (by linarith)]
  · refine tracks_max hm hlo ?_
    rcases lt_or_gt_of_ne hne with hlt | hgt
    · rw [min_eq_left hlt.le]; exact hne'
    · rw [min_eq_right hgt.le]; intro h'; linarith

end tracks

/-- The slider on pairs: values and derivatives are right while no prediction is at a limit. -/
theorem gSlider_tracks {n K : ℕ} {M : ℕ → ℕ → ℝ} {X : ℕ → ℝ} (kt : ℝ) {L u : ℕ → (ℕ → ℝ) → ℝ} {up fp : (ℕ → ℝ) → ℝ}
    {hi lo du : ℕ → Dual} {dup dfp : Dual} (k : ℕ) (hhi : ∀ i ≤ k, Tracks n K M X (L i) (hi i))
    (hlo : ∀ i ≤ k, Tracks n K M X (fun X => -L i X) (lo i)) (hL : ∀ i X, 0 ≤ L i X)
    (h0 : ∀ i ≤ k, L i X = 0 → ∀ c, (hi i).d c = 0 ∧ (lo i).d c = 0) (hu : ∀ i ≤ k, Tracks n K M X (u i) (du i))
    (hup : Tracks n K M X up dup) (hfp : Tracks n K M X fp dfp)
    (hoff : ∀ i ≤ k, |sliderTrial kt (fun i => L i X) (fun i => u i X) (up X) (fp X) i| ≠ L i X) :
    Tracks n K M X (fun X => slider kt (fun i => L i X) (fun i => u i X) (up X) (fp X) k)
      (gSlider dualNum kt hi lo du dup dfp k) := by
  induction k with
  | zero =>
    refine tracks_fun (tracks_clip (tracks_add (tracks_mul (tracks_const kt) (tracks_sub (hu 0 le_rfl) hup)) hfp)
      (hhi 0 le_rfl) (hlo 0 le_rfl) (hL 0) (h0 0 le_rfl) (hoff 0 le_rfl)) fun X => ?_
    rw [slider_zero, clip, max_comm]
  | succ k ih =>
    have ih' := ih (fun i hi => hhi i (by omega)) (fun i hi => hlo i (by omega)) (fun i hi => h0 i (by omega))
      (fun i hi => hu i (by omega)) (fun i hi => hoff i (by omega))
    refine tracks_fun (tracks_clip (tracks_add (tracks_mul (tracks_const kt) (tracks_sub (hu _ le_rfl) (hu k (by omega)))) ih')
      (hhi _ le_rfl) (hlo _ le_rfl) (hL _) (h0 _ le_rfl) (hoff _ le_rfl)) fun X => ?_
    rw [slider_succ, clip, max_comm]

/-- A tangent that is zero in all arguments stays zero. -/
theorem gSlider_zero_tangent (kt : ℝ) {hi lo u : ℕ → Dual} {up fp : Dual} {c : ℕ} (k : ℕ) (h1 : ∀ i, (hi i).d c = 0)
    (h2 : ∀ i, (lo i).d c = 0) (h3 : ∀ i, (u i).d c = 0) (h4 : up.d c = 0) (h5 : fp.d c = 0) :
    (gSlider dualNum kt hi lo u up fp k).d c = 0 := by
  induction k with
  | zero => simp [gSlider, dualNum, h1, h2, h3, h4, h5]
  | succ k ih => simp only [gSlider]; simp [dualNum, h1, h2, h3]; simp only [dualNum] at ih; simp [ih]

theorem gNormal_zero_tangent (kn gap : ℝ) {u : Dual} {c : ℕ} (h : u.d c = 0) : (gNormal dualNum kn gap u).d c = 0 := by
  simp [gNormal, dualNum, h]

/-- Normal contact away from touching. -/
theorem gNormal_tracks {n K : ℕ} {M : ℕ → ℕ → ℝ} {X : ℕ → ℝ} {kn gap : ℝ} (hkn : kn ≠ 0) {F : (ℕ → ℝ) → ℝ} {x : Dual}
    (hx : Tracks n K M X F x) (h : F X ≠ gap) :
    Tracks n K M X (fun X => edfNormal kn gap (F X)) (gNormal dualNum kn gap x) :=
  tracks_max (tracks_mul (tracks_sub hx (tracks_const gap)) (tracks_const kn)) (tracks_const 0)
    (mul_ne_zero (sub_ne_zero.2 h) hkn)

end

end TMD
