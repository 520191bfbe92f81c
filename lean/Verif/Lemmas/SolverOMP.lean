import Verif.Spec.Solver

namespace TMD

open Spec

variable {F V M L : Type}

theorem after_congr (A : Arith F V M L) (X0 : V) {it it' : ℕ → Iter V} {n : ℕ} (h : ∀ j < n, it j = it' j) {j : ℕ}
    (hj : j ≤ n) : after A X0 it j = after A X0 it' j := by
  cases j with
  | zero => rfl
  | succ j => simp only [after]; rw [h j (by omega)]

theorem measures_congr (A : Arith F V M L) {it it' : ℕ → Iter V} {n : ℕ} (h : ∀ j < n, it j = it' j) {j : ℕ}
    (hj : j < n) : measures A it j = measures A it' j := by
  unfold measures
  have h0 := h 0 (by omega)
  by_cases hj0 : j = 0
  · subst hj0
    simp only [if_true, h0]
  · simp only [if_neg hj0, h0, h j hj, h (j-1) (by omega), h 1 (by omega)]

theorem quasi_congr (A : Arith F V M L) (fac : L) {it it' : ℕ → Iter V} {base m : ℕ}
    (h : ∀ j < base + m + 1, it j = it' j) (v : V) : quasi A fac it base m v = quasi A fac it' base m v := by
  induction m generalizing v with
  | zero => rfl
  | succ m ih =>
    simp only [quasi]
    rw [h (base + m) (by omega), h (base + m + 1) (by omega), ih (fun j hj => h j (by omega))]

/-- The first loop of the two-loop recursion only writes below `m`. -/
theorem bfgsLoop1_ge (A : Arith F V M L) (s y : ℕ → V) (p : ℕ → F) (m : ℕ) (d : V) (al : ℕ → F) (j : ℕ)
    (hj : m ≤ j) : (bfgsLoop1 A s y p m d al).2 j = al j := by
  induction m generalizing d al with
  | zero => rfl
  | succ m ih =>
    simp only [bfgsLoop1]
    rw [ih _ _ (by omega), if_neg (by omega)]

theorem bfgsLoop2_congr (A : Arith F V M L) (s y : ℕ → V) (p al al' : ℕ → F) (m : ℕ) (d : V)
    (h : ∀ j < m, al j = al' j) : bfgsLoop2 A s y p al m d = bfgsLoop2 A s y p al' m d := by
  induction m with
  | zero => rfl
  | succ m ih =>
    simp only [bfgsLoop2]
    rw [ih (fun j hj => h j (by omega)), h m (by omega)]

/-- The entries computed by the first loop do not depend on the initial array. -/
theorem bfgsLoop1_lt (A : Arith F V M L) (s y : ℕ → V) (p : ℕ → F) (m : ℕ) (d : V) (al al' : ℕ → F) :
    (bfgsLoop1 A s y p m d al).1 = (bfgsLoop1 A s y p m d al').1 ∧
    ∀ j < m, (bfgsLoop1 A s y p m d al).2 j = (bfgsLoop1 A s y p m d al').2 j := by
  induction m generalizing d al al' with
  | zero => exact ⟨rfl, by simp⟩
  | succ m ih =>
    simp only [bfgsLoop1]
    refine ⟨(ih _ _ _).1, fun j hj => ?_⟩
    rcases Nat.lt_succ_iff_lt_or_eq.1 hj with hj | rfl
    · exact (ih _ _ _).2 j hj
    · rw [bfgsLoop1_ge _ _ _ _ _ _ _ _ le_rfl, bfgsLoop1_ge _ _ _ _ _ _ _ _ le_rfl, if_pos rfl, if_pos rfl]

/-- The two-loop recursion computes the recursive BFGS operator. -/
theorem bfgsStep_succ (A : Arith F V M L) (fac : L) (s y : ℕ → V) (p : ℕ → F) (m : ℕ) (d : V) :
    bfgsStep A fac s y p (m+1) d =
      (let a := A.mul (p m) (A.dot (s m) d)
       let w := bfgsStep A fac s y p m (A.vsub d (A.smul a (y m)))
       A.vadd w (A.smul (A.sub a (A.mul (p m) (A.dot (y m) w))) (s m))) := by
  unfold bfgsStep
  simp only [bfgsLoop1, bfgsLoop2]
  have h1 := bfgsLoop1_lt A s y p m (A.vsub d (A.smul (A.mul (p m) (A.dot (s m) d)) (y m)))
    (fun j => if j = m then A.mul (p m) (A.dot (s m) d) else A.zero) (fun _ => A.zero)
  rw [h1.1, bfgsLoop2_congr A s y p _ _ m _ h1.2, bfgsLoop1_ge A s y p m _ _ m le_rfl, if_pos rfl]

theorem bfgsStep_quasi (A : Arith F V M L) (fac : L) (it : ℕ → Iter V) (base m : ℕ) (s y : ℕ → V) (p : ℕ → F)
    (h : ∀ k < m, s k = (it (base + k)).step ∧ y k = A.vsub (it (base + k + 1)).R (it (base + k)).R ∧
      p k = A.div A.one (A.dot (s k) (y k))) (d : V) :
    bfgsStep A fac s y p m d = quasi A fac it base m d := by
  induction m generalizing d with
  | zero => rfl
  | succ m ih =>
    rw [bfgsStep_succ]
    obtain ⟨h1, h2, h3⟩ := h m (by omega)
    simp only [quasi]
    rw [h3, h1, h2, ih (fun k hk => h k (by omega))]

theorem Run.congr {A : Arith F V M L} {c : OmpConfig F} {f : SolveFun V M} {X0 : V} {it it' : ℕ → Iter V} {n : ℕ}
    (h : ∀ j < n, it j = it' j) (r : Run A c f X0 it n) : Run A c f X0 it' n where
  chain := fun j hj => by rw [← h j hj, r.chain j hj]; exact after_congr A X0 h hj.le
  residual := fun j hj => by rw [← h j hj]; exact r.residual j hj
  quasi := fun j hj hn => by
    rw [← h j hj] at hn ⊢
    rw [← h (j - j % c.reformFreq) (by omega)]
    obtain ⟨D, h1, h2⟩ := r.quasi j hj hn
    refine ⟨D, h1, h2.trans (quasi_congr A _ (fun i hi => h i ?_) _)⟩
    have := Nat.mod_le j c.reformFreq
    omega
  newton := fun j hj => by rw [← h j hj]; exact r.newton j hj
  notNaN := fun j hj => by rw [← h j hj]; exact r.notNaN j hj
  step := fun j hj => by rw [← h j hj]; exact r.step j hj

/-- The iterations as a function. -/
def itOf (A : Arith F V M L) (t : List (Iter V)) : ℕ → Iter V :=
  fun j => t.getD j ⟨A.vzero, A.vzero, A.vzero, A.vzero, false⟩

theorem itOf_append_lt (A : Arith F V M L) (t : List (Iter V)) (x : Iter V) {j : ℕ} (hj : j < t.length) :
    itOf A (t ++ [x]) j = itOf A t j := by
  unfold itOf
  simp [List.getD_eq_getElem?_getD, List.getElem?_append_left hj]

theorem itOf_append_eq (A : Arith F V M L) (t : List (Iter V)) (x : Iter V) :
    itOf A (t ++ [x]) t.length = x := by
  unfold itOf
  simp [List.getD_eq_getElem?_getD]

theorem itOf_map (A : Arith F V M L) (t : List (Iter V)) : t = (List.range t.length).map (itOf A t) := by
  apply List.ext_getElem
  · simp
  · intro i h1 h2
    simp [itOf, h1]

/-- The stored first values after `n` completed iterations. -/
def firstAt (A : Arith F V M L) (it : ℕ → Iter V) (n : ℕ) : F × F × F :=
  (A.sqrt (A.dot (it 0).R (it 0).R), if n = 1 then A.inf else A.abs (A.dot (it 1).R (it 0).step),
    A.sqrt (A.dot (it 0).full (it 0).full))

def lastAt (A : Arith F V M L) (it : ℕ → Iter V) (j : ℕ) : F × F × F :=
  (A.sqrt (A.dot (it j).R (it j).R), if j = 0 then A.inf else A.dot (it j).R (it (j-1)).step,
    A.sqrt (A.dot (it j).full (it j).full))

theorem errsOf_eq (A : Arith F V M L) (it : ℕ → Iter V) (j : ℕ) :
    errsOf A (firstAt A it (j+1)) (lastAt A it j) = measures A it j := by
  unfold errsOf firstAt lastAt measures
  by_cases hj : j = 0
  · simp [hj]
  · simp [hj]

/-- What holds of the state after `i` completed iterations. -/
structure StInv (A : Arith F V M L) (c : OmpConfig F) (f : SolveFun V M) (X0 : V) (i : ℕ)
    (st : OmpSt F V M L) : Prop where
  len : st.trace.length = i
  run : Run A c f X0 (itOf A st.trace) i
  X : st.X = after A X0 (itOf A st.trace) i
  first : 0 < i → st.first = some (firstAt A (itOf A st.trace) i)
  last : 0 < i → st.last = some (lastAt A (itOf A st.trace) (i-1))
  njev : st.njev ≤ st.nfev

/-- … and at the start of the next iteration. -/
structure LoopInv (A : Arith F V M L) (c : OmpConfig F) (f : SolveFun V M) (X0 : V) (i : ℕ)
    (st : OmpSt F V M L) : Prop extends StInv A c f X0 i st where
  dXm1 : 0 < i → st.dXm1 = (itOf A st.trace (i-1)).step
  bound : 0 < i → (∃ R, st.R = some R) ∧ ∃ D, st.jac = some D
  ind : st.bfgsInd = i % c.reformFreq
  Rm1 : 0 < i → st.Rm1 = (itOf A st.trace (i-1)).R
  fac : 0 < st.bfgsInd → ∃ D, f (itOf A st.trace (i - st.bfgsInd)).X true
    = .ok ((itOf A st.trace (i - st.bfgsInd)).R, D) ∧ st.fac = some (A.factor D)
  pairs : ∀ k, k + 1 < st.bfgsInd → st.s k = (itOf A st.trace (i - st.bfgsInd + k)).step ∧
    st.y k = A.vsub (itOf A st.trace (i - st.bfgsInd + k + 1)).R (itOf A st.trace (i - st.bfgsInd + k)).R ∧
    st.p k = A.div A.one (A.dot (st.s k) (st.y k))
  nfev : st.nfev = i
  notyet : ∀ j < i, checkConvg A c.stoppingTol c.tol (measures A (itOf A st.trace) j) = .ok false

theorem mod_succ_cases {r x : ℕ} (h : x = x % r) : (x + 1) % r = 0 ∨ (x + 1) % r = x + 1 := by
  rcases Nat.eq_zero_or_pos r with h0 | h0
  · right; rw [h0, Nat.mod_zero]
  · have hx : x < r := by rw [h]; exact Nat.mod_lt _ h0
    rcases Nat.lt_or_ge (x+1) r with h1 | h1
    · right; exact Nat.mod_eq_of_lt h1
    · left
      have : x + 1 = r := by omega
      rw [this, Nat.mod_self]

/-- What `direction` does. -/
theorem direction_spec (A : Arith F V M L) (rf : ℕ) (f : SolveFun V M) (st st' : OmpSt F V M L) (o : Option (V × V))
    (h : direction A rf f st = .ok (st', o)) :
    st'.X = st.X ∧ st'.dXm1 = st.dXm1 ∧ st'.Rm1 = st.Rm1 ∧ st'.bfgsInd = st.bfgsInd ∧ st'.first = st.first ∧
    st'.last = st.last ∧ st'.trace = st.trace ∧ st'.nfev = st.nfev + 1 ∧ st'.njev ≤ st.njev + 1 ∧
    (∃ R, st'.R = some R) ∧ ((∃ D, st.jac = some D) ∨ st.bfgsInd = 0 → ∃ D, st'.jac = some D) ∧
    ∀ R full, o = some (R, full) → A.vIsNaN R = false ∧
      ∃ D, f st.X (decide (st.bfgsInd = 0)) = .ok (R, D) ∧
        (st.bfgsInd = 0 → A.mIsNaN D = false ∧ full = A.vneg (A.fsolve (A.factor D) R) ∧
          st'.fac = some (A.factor D)) ∧
        (st.bfgsInd ≠ 0 → st'.fac = st.fac ∧ st'.s = setRow st.s (st.bfgsInd - 1) st.dXm1 ∧
          st'.y = setRow st.y (st.bfgsInd - 1) (A.vsub R st.Rm1) ∧
          st'.p = setRow st.p (st.bfgsInd - 1) (A.div A.one (A.dot st.dXm1 (A.vsub R st.Rm1))) ∧
          ∃ fac, st.fac = some fac ∧ full = bfgsStep A fac st'.s st'.y st'.p st.bfgsInd (A.vneg R)) := by
  unfold direction at h
  by_cases hb : st.bfgsInd = 0
  · rw [if_pos hb] at h
    cases hf : f st.X true with
    | error e => rw [hf] at h; simp at h
    | ok RD =>
      obtain ⟨R, D⟩ := RD
      rw [hf] at h
      simp only at h
      by_cases h1 : A.vIsNaN R = true
      · rw [if_pos h1] at h
        simp only [Except.ok.injEq, Prod.mk.injEq] at h
        obtain ⟨rfl, rfl⟩ := h
        simp
      · rw [if_neg h1] at h
        by_cases h2 : A.mIsNaN D = true
        · rw [if_pos h2] at h
          simp only [Except.ok.injEq, Prod.mk.injEq] at h
          obtain ⟨rfl, rfl⟩ := h
          simp
        · rw [if_neg h2] at h
          by_cases h3 : rf = 0
          · rw [if_pos h3] at h; simp at h
          · rw [if_neg h3] at h
            simp only [Except.ok.injEq, Prod.mk.injEq] at h
            obtain ⟨rfl, rfl⟩ := h
            refine ⟨rfl, rfl, rfl, rfl, rfl, rfl, rfl, rfl, le_rfl, ⟨_, rfl⟩, fun _ => ⟨_, rfl⟩, ?_⟩
            intro R' full' he
            simp only [Option.some.injEq, Prod.mk.injEq] at he
            obtain ⟨rfl, rfl⟩ := he
            refine ⟨by simpa using h1, D, by simp [hb, hf], fun _ => ⟨by simpa using h2, rfl, rfl⟩,
              fun h => absurd hb h⟩
  · rw [if_neg hb] at h
    cases hf : f st.X false with
    | error e => rw [hf] at h; simp at h
    | ok RD =>
      obtain ⟨R, D⟩ := RD
      rw [hf] at h
      simp only at h
      by_cases h1 : A.vIsNaN R = true
      · rw [if_pos h1] at h
        simp only [Except.ok.injEq, Prod.mk.injEq] at h
        obtain ⟨rfl, rfl⟩ := h
        simp [hb]
      · rw [if_neg h1] at h
        cases hfac : st.fac with
        | none => rw [hfac] at h; simp at h
        | some fac =>
          rw [hfac] at h
          simp only [Except.ok.injEq, Prod.mk.injEq] at h
          obtain ⟨rfl, rfl⟩ := h
          refine ⟨rfl, rfl, rfl, rfl, rfl, rfl, rfl, rfl, Nat.le_succ _, ⟨_, rfl⟩, fun h => ?_, ?_⟩
          · rcases h with h | h
            · exact h
            · exact absurd h hb
          · intro R' full' he
            simp only [Option.some.injEq, Prod.mk.injEq] at he
            obtain ⟨rfl, rfl⟩ := he
            exact ⟨by simpa using h1, D, by simp [hb, hf], fun h => absurd h hb,
              fun _ => ⟨rfl, rfl, rfl, rfl, fac, rfl, rfl⟩⟩

/-- How the loop ends, after `n` iterations in total out of at most `i + k`. -/
structure LoopOut (A : Arith F V M L) (c : OmpConfig F) (f : SolveFun V M) (X0 : V) (N : ℕ)
    (st : OmpSt F V M L) (w : LoopEnd) (n : ℕ) : Prop extends StInv A c f X0 n st where
  le : n ≤ N
  notyet : ∀ j < n - 1, checkConvg A c.stoppingTol c.tol (measures A (itOf A st.trace) j) = .ok false
  exhausted : w = .exhausted → n = N ∧ st.nfev = n ∧
    ∀ j < n, checkConvg A c.stoppingTol c.tol (measures A (itOf A st.trace) j) = .ok false
  nan : w = .nan → st.nfev = n + 1 ∧ n < N
  converged : w = .converged → 0 < n ∧ st.nfev = n ∧
    checkConvg A c.stoppingTol c.tol (measures A (itOf A st.trace) (n - 1)) = .ok true
  bound : (w ≠ .exhausted ∨ 0 < n) → (∃ R, st.R = some R) ∧ ∃ D, st.jac = some D

theorem StInv.of_eq {A : Arith F V M L} {c : OmpConfig F} {f : SolveFun V M} {X0 : V} {i : ℕ}
    {st st' : OmpSt F V M L} (h : StInv A c f X0 i st) (h1 : st'.trace = st.trace) (h2 : st'.X = st.X)
    (h3 : st'.first = st.first) (h4 : st'.last = st.last) (h5 : st'.njev ≤ st'.nfev) : StInv A c f X0 i st' where
  len := by rw [h1]; exact h.len
  run := by rw [h1]; exact h.run
  X := by rw [h1, h2]; exact h.X
  first := by rw [h1, h3]; exact h.first
  last := by rw [h1, h4]; exact h.last
  njev := h5

/-- One more completed iteration. -/
theorem StInv.extend {A : Arith F V M L} {c : OmpConfig F} {f : SolveFun V M} {X0 : V} {i : ℕ}
    {st st' : OmpSt F V M L} (h : StInv A c f X0 i st) (x : Iter V)
    (h1 : st'.trace = st.trace ++ [x]) (hX : x.X = st.X)
    (h2 : st'.X = A.vadd x.X x.step)
    (hres : ∃ D, f x.X x.newton = .ok (x.R, D) ∧
      (x.newton = true → A.mIsNaN D = false ∧ x.full = A.vneg (A.fsolve (A.factor D) x.R)))
    (hq : x.newton = false → ∃ D, f (itOf A st'.trace (i - i % c.reformFreq)).X true
        = .ok ((itOf A st'.trace (i - i % c.reformFreq)).R, D) ∧
      x.full = quasi A (A.factor D) (itOf A st'.trace) (i - i % c.reformFreq) (i % c.reformFreq) (A.vneg x.R))
    (hn : x.newton = decide (i % c.reformFreq = 0))
    (hnan : A.vIsNaN x.R = false ∧ A.vIsNaN x.full = false)
    (hstep : (c.lsIters = 0 → x.step = x.full) ∧ (0 < c.lsIters →
      ∃ ls, lineSearch A c f x.X x.R x.full = .ok ls ∧ x.step = A.smul ls.alpha x.full))
    (h3 : st'.first = some (firstAt A (itOf A st'.trace) (i+1)))
    (h4 : st'.last = some (lastAt A (itOf A st'.trace) i))
    (h5 : st'.njev ≤ st'.nfev) : StInv A c f X0 (i+1) st' := by
  have e1 : ∀ j < i, itOf A st.trace j = itOf A st'.trace j := by
    intro j hj
    rw [h1, itOf_append_lt]; rw [h.len]; exact hj
  have e2 : itOf A st'.trace i = x := by
    rw [h1, ← h.len, itOf_append_eq]
  have r := Run.congr e1 h.run
  have key : ∀ {P : ℕ → Prop}, (∀ j < i, P j) → P i → ∀ j < i + 1, P j := by
    intro P a b j hj
    rcases Nat.lt_succ_iff_lt_or_eq.1 hj with hj | rfl
    · exact a j hj
    · exact b
  refine ⟨by rw [h1]; simp [h.len], ⟨?_, ?_, ?_, ?_, ?_, ?_⟩, ?_, fun _ => h3, fun _ => h4, h5⟩
  · refine key r.chain ?_
    rw [e2, hX, h.X]; exact after_congr A X0 e1 le_rfl
  · refine key r.residual ?_; rw [e2]; exact hres
  · refine key r.quasi ?_; rw [e2]; exact hq
  · refine key r.newton ?_; rw [e2]; exact hn
  · refine key r.notNaN ?_; rw [e2]; exact hnan
  · refine key r.step ?_; rw [e2]; exact hstep
  · rw [h2]; simp only [after]; rw [e2]

theorem solveLoop_out (A : Arith F V M L) (c : OmpConfig F) (f : SolveFun V M) (X0 : V) (k i : ℕ)
    (st st' : OmpSt F V M L) (w : LoopEnd) (hinv : LoopInv A c f X0 i st)
    (h : solveLoop A c f k i st = .ok (st', w)) : ∃ n, LoopOut A c f X0 (i + k) st' w n := by
  induction k generalizing i st with
  | zero =>
    simp only [solveLoop, Except.ok.injEq, Prod.mk.injEq] at h
    obtain ⟨rfl, rfl⟩ := h
    exact ⟨i, hinv.toStInv, by omega, fun j hj => hinv.notyet j (by omega),
      fun _ => ⟨by omega, hinv.nfev, hinv.notyet⟩, by simp, by simp, fun h => by
        rcases h with h | h
        · exact absurd rfl h
        · exact hinv.bound h⟩
  | succ k ih =>
    rw [solveLoop] at h
    cases hd : direction A c.reformFreq f st with
    | error e => rw [hd] at h; simp at h
    | ok so =>
      obtain ⟨s1, o⟩ := so
      rw [hd] at h
      obtain ⟨d1, d2, d3, d4, d5, d6, d7, d8, d9, d10, d11, d12⟩ := direction_spec A _ f st s1 o hd
      have hjac : ∃ D, s1.jac = some D := by
        apply d11
        rcases Nat.eq_zero_or_pos i with h0 | h0
        · right; rw [hinv.ind, h0]; exact Nat.zero_mod _
        · left; exact (hinv.bound h0).2
      have hst1 : StInv A c f X0 i s1 := hinv.toStInv.of_eq d7 d1 d5 d6 (by
        have := hinv.njev; omega)
      have nanOut : st' = s1 → w = .nan → ∃ n, LoopOut A c f X0 (i + (k+1)) st' w n := by
        rintro rfl rfl
        refine ⟨i, hst1, by omega, fun j hj => ?_, by simp, fun _ => ⟨?_, by omega⟩, by simp, fun _ => ⟨d10, hjac⟩⟩
        · rw [d7]; exact hinv.notyet j (by omega)
        · rw [d8, hinv.nfev]
      cases o with
      | none =>
        simp only [Except.ok.injEq, Prod.mk.injEq] at h
        exact nanOut h.1.symm h.2.symm
      | some Rf =>
        obtain ⟨R, full⟩ := Rf
        simp only at h
        obtain ⟨hR, D, hfD, hnew, hold'⟩ := d12 R full rfl
        by_cases hnan : A.vIsNaN full = true
        · rw [if_pos hnan] at h
          simp only [Except.ok.injEq, Prod.mk.injEq] at h
          exact nanOut h.1.symm h.2.symm
        · rw [if_neg hnan] at h
          -- the step
          generalize hls : (if 0 < c.lsIters then
            match lineSearch A c f s1.X R full with
            | .error e => .error e
            | .ok ls => .ok (A.smul ls.alpha full)
          else .ok full : Except Err V) = ls at h
          cases ls with
          | error e => simp at h
          | ok step =>
            simp only at h
            have hstep : (c.lsIters = 0 → step = full) ∧ (0 < c.lsIters →
                ∃ ls, lineSearch A c f s1.X R full = .ok ls ∧ step = A.smul ls.alpha full) := by
              by_cases hl : 0 < c.lsIters
              · rw [if_pos hl] at hls
                refine ⟨fun h0 => by omega, fun _ => ?_⟩
                cases hq : lineSearch A c f s1.X R full with
                | error e => rw [hq] at hls; simp at hls
                | ok q =>
                  rw [hq] at hls
                  simp only [Except.ok.injEq] at hls
                  exact ⟨q, rfl, hls.symm⟩
              · rw [if_neg hl] at hls
                simp only [Except.ok.injEq] at hls
                exact ⟨fun _ => hls.symm, fun h0 => absurd h0 hl⟩
            set x : Iter V := ⟨s1.X, R, full, step, decide (s1.bfgsInd = 0)⟩ with hx
            set e : F := if i = 0 then A.inf else A.dot R s1.dXm1 with he
            set first : F × F × F :=
              firstVals A i s1.first (A.sqrt (A.dot R R)) e (A.sqrt (A.dot full full)) with hfirst
            have hlt : ∀ j < i, itOf A (s1.trace ++ [x]) j = itOf A s1.trace j := fun j hj =>
              itOf_append_lt A _ _ (by rw [hst1.len]; exact hj)
            have heq : itOf A (s1.trace ++ [x]) i = x := by
              conv_lhs => rw [← hst1.len]
              exact itOf_append_eq A _ _
            have hlast : (A.sqrt (A.dot R R), e, A.sqrt (A.dot full full)) = lastAt A (itOf A (s1.trace ++ [x])) i := by
              unfold lastAt
              rw [heq]
              by_cases h0 : i = 0
              · simp [he, h0, hx]
              · simp only [he, if_neg h0, hx]
                rw [hlt (i-1) (by omega), d2, hinv.dXm1 (by omega), d7]
            have hfst : first = firstAt A (itOf A (s1.trace ++ [x])) (i+1) := by
              unfold firstAt
              by_cases h0 : i = 0
              · subst h0
                rw [heq]
                simp only [hfirst, firstVals, if_true, Nat.zero_add]
                rfl
              · simp only [hfirst, firstVals, if_neg h0]
                rw [d5, hinv.first (by omega), hlt 0 (by omega), ← d7]
                simp only
                unfold firstAt
                by_cases h1 : i = 1
                · subst h1
                  rw [heq]
                  simp only [if_true, he, if_neg h0]
                  rw [d2, hinv.dXm1 (by omega), d7]
                  simp [hx]
                · simp only [if_neg h1, hlt 1 (by omega)]
                  rw [if_neg (by omega)]
            have hile : i % c.reformFreq ≤ i := Nat.mod_le _ _
            have hfacAll : 0 < s1.bfgsInd → ∃ D, f (itOf A (s1.trace ++ [x]) (i - s1.bfgsInd)).X true
                = .ok ((itOf A (s1.trace ++ [x]) (i - s1.bfgsInd)).R, D) ∧ s1.fac = some (A.factor D) := by
              intro hpos
              rw [d4] at hpos ⊢
              rw [hlt _ (by rw [hinv.ind] at hpos ⊢; omega), d7, (hold' (by omega)).1]
              exact hinv.fac hpos
            have hpairs : ∀ k < s1.bfgsInd, s1.s k = (itOf A (s1.trace ++ [x]) (i - s1.bfgsInd + k)).step ∧
                s1.y k = A.vsub (itOf A (s1.trace ++ [x]) (i - s1.bfgsInd + k + 1)).R
                  (itOf A (s1.trace ++ [x]) (i - s1.bfgsInd + k)).R ∧
                s1.p k = A.div A.one (A.dot (s1.s k) (s1.y k)) := by
              intro k hk
              rw [d4] at hk ⊢
              have hb0 : st.bfgsInd ≠ 0 := by omega
              have hle : st.bfgsInd ≤ i := by rw [hinv.ind]; exact hile
              obtain ⟨_, q1, q2, q3, _⟩ := hold' hb0
              by_cases hk1 : k = st.bfgsInd - 1
              · have e1 : i - st.bfgsInd + k = i - 1 := by omega
                have e2 : i - st.bfgsInd + k + 1 = i := by omega
                rw [e2, e1, heq, hlt (i-1) (by omega), d7, q1, q2, q3]
                simp only [setRow, hk1, if_true]
                rw [hinv.dXm1 (by omega), hinv.Rm1 (by omega)]
                simp [hx]
              · obtain ⟨w1, w2, w3⟩ := hinv.pairs k (by omega)
                rw [hlt _ (by omega), hlt _ (by omega), d7, q1, q2, q3]
                simp only [setRow, if_neg hk1]
                exact ⟨w1, w2, w3⟩
            have hext : ∀ s2 : OmpSt F V M L, s2.trace = s1.trace ++ [x] → s2.X = A.vadd s1.X step →
                s2.first = some first → s2.last = some (A.sqrt (A.dot R R), e, A.sqrt (A.dot full full)) →
                s2.njev = s1.njev → s2.nfev = s1.nfev → StInv A c f X0 (i+1) s2 := by
              intro s2 t1 t2 t3 t4 t5 t6
              refine hst1.extend x t1 rfl t2 ⟨D, ?_, ?_⟩ ?_ ?_ ⟨hR, by simpa using hnan⟩ hstep ?_ ?_ ?_
              · simp only [hx]; rw [d1, d4]; exact hfD
              · simp only [hx]; rw [d4]; intro h
                exact ⟨(hnew (by simpa using h)).1, (hnew (by simpa using h)).2.1⟩
              · intro hx0
                have hb0 : st.bfgsInd ≠ 0 := by
                  simp only [hx, decide_eq_false_iff_not] at hx0
                  rw [← d4]; exact hx0
                rw [t1, ← hinv.ind]
                obtain ⟨D0, q1, q2⟩ := hfacAll (by rw [d4]; omega)
                rw [d4] at q1
                obtain ⟨_, _, _, _, fac, q3, q4⟩ := hold' hb0
                refine ⟨D0, q1, ?_⟩
                have q5 : fac = A.factor D0 := by
                  have : s1.fac = st.fac := (hold' hb0).1
                  rw [this, q3] at q2
                  exact Option.some.inj q2
                rw [← q5]
                show full = quasi A fac _ _ _ (A.vneg R)
                rw [q4]
                have := bfgsStep_quasi A fac (itOf A (s1.trace ++ [x])) (i - s1.bfgsInd) s1.bfgsInd s1.s s1.y s1.p
                  (fun k hk => hpairs k hk) (A.vneg R)
                rw [d4] at this
                exact this
              · simp only [hx]; rw [d4, hinv.ind]
              · rw [t3, t1, hfst]
              · rw [t4, t1, hlast]
              · rw [t5, t6]; exact hst1.njev
            have hmeas : errsOf A first (A.sqrt (A.dot R R), e, A.sqrt (A.dot full full))
                = measures A (itOf A (s1.trace ++ [x])) i := by
              rw [hfst, hlast, errsOf_eq]
            rw [hmeas] at h
            have hold : ∀ j < i, checkConvg A c.stoppingTol c.tol (measures A (itOf A (s1.trace ++ [x])) j) = .ok false := by
              intro j hj
              rw [measures_congr A hlt hj, d7]
              exact hinv.notyet j hj
            cases hcc : checkConvg A c.stoppingTol c.tol (measures A (itOf A (s1.trace ++ [x])) i) with
            | error e => rw [hcc] at h; simp at h
            | ok b =>
              rw [hcc] at h
              cases b with
              | true =>
                simp only [Except.ok.injEq, Prod.mk.injEq] at h
                obtain ⟨rfl, rfl⟩ := h
                refine ⟨i+1, hext _ rfl rfl rfl rfl rfl rfl, by omega, hold, by simp, by simp,
                  fun _ => ⟨by omega, ?_, hcc⟩, fun _ => ⟨d10, hjac⟩⟩
                show s1.nfev = i + 1
                rw [d8, hinv.nfev]
              | false =>
                simp only at h
                obtain ⟨n, hn⟩ := ih (i+1) _ (by
                  refine ⟨hext _ rfl rfl rfl rfl rfl rfl, fun _ => ?_, fun _ => ⟨d10, hjac⟩, ?_, ?_, ?_, ?_, ?_, ?_⟩
                  · show step = _
                    rw [Nat.add_sub_cancel]
                    show step = (itOf A (s1.trace ++ [x]) i).step
                    rw [heq]
                  · show (s1.bfgsInd + 1) % _ = _
                    rw [d4, hinv.ind, Nat.mod_add_mod]
                  · intro _
                    show R = (itOf A (s1.trace ++ [x]) i).R
                    rw [heq]
                  · show 0 < (s1.bfgsInd + 1) % c.reformFreq → ∃ D,
                      f (itOf A (s1.trace ++ [x]) (i + 1 - (s1.bfgsInd + 1) % c.reformFreq)).X true
                      = .ok ((itOf A (s1.trace ++ [x]) (i + 1 - (s1.bfgsInd + 1) % c.reformFreq)).R, D) ∧
                        s1.fac = some (A.factor D)
                    intro hpos
                    have hm : (s1.bfgsInd + 1) % c.reformFreq = s1.bfgsInd + 1 := by
                      rcases mod_succ_cases (r := c.reformFreq) (x := s1.bfgsInd) (by
                        rw [d4, hinv.ind, Nat.mod_mod]) with h | h
                      · omega
                      · exact h
                    rw [hm, Nat.add_sub_add_right]
                    rcases Nat.eq_zero_or_pos s1.bfgsInd with h0 | h0
                    · rw [h0, Nat.sub_zero, heq]
                      refine ⟨D, ?_, (hnew (by rw [← d4]; exact h0)).2.2⟩
                      rw [← d4, h0] at hfD
                      show f s1.X true = _
                      rw [d1]; simpa using hfD
                    · exact hfacAll h0
                  · show ∀ k, k + 1 < (s1.bfgsInd + 1) % c.reformFreq → _
                    intro k hk
                    have hm : (s1.bfgsInd + 1) % c.reformFreq = s1.bfgsInd + 1 := by
                      rcases mod_succ_cases (r := c.reformFreq) (x := s1.bfgsInd) (by
                        rw [d4, hinv.ind, Nat.mod_mod]) with h | h
                      · omega
                      · exact h
                    have := hpairs k (by omega)
                    show s1.s k = (itOf A (s1.trace ++ [x]) (i + 1 - (s1.bfgsInd + 1) % c.reformFreq + k)).step ∧
                      s1.y k = A.vsub (itOf A (s1.trace ++ [x]) (i + 1 - (s1.bfgsInd + 1) % c.reformFreq + k + 1)).R
                        (itOf A (s1.trace ++ [x]) (i + 1 - (s1.bfgsInd + 1) % c.reformFreq + k)).R ∧
                      s1.p k = A.div A.one (A.dot (s1.s k) (s1.y k))
                    rw [hm, Nat.add_sub_add_right]
                    exact this
                  · show s1.nfev = _
                    rw [d8, hinv.nfev]
                  · intro j hj
                    rcases Nat.lt_succ_iff_lt_or_eq.1 hj with hj | rfl
                    · exact hold j hj
                    · exact hcc) h
                exact ⟨n, by rw [show i + (k+1) = i + 1 + k by omega]; exact hn⟩

theorem startSt_inv (A : Arith F V M L) (c : OmpConfig F) (f : SolveFun V M) (X0 : V) :
    LoopInv A c f X0 0 (startSt A X0) where
  len := rfl
  run := ⟨by simp, by simp, by simp, by simp, by simp, by simp⟩
  X := rfl
  first := by simp
  last := by simp
  njev := le_rfl
  dXm1 := by simp
  bound := by simp
  ind := by simp [startSt]
  Rm1 := by simp
  fac := by simp [startSt]
  pairs := by simp [startSt]
  nfev := rfl
  notyet := by simp

end TMD
