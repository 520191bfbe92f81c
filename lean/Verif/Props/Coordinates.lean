import Verif.Props.HarmonicList

/-!
# C119: change of coordinates and reduction

With `x = P q` (a change of coordinates, or a reduction to the columns of `P`, for example modes) the matrices of a system become
`Pᵀ M P`, the selection matrices `Q P` and the transfer matrices `Pᵀ T` (vibration_system.py:20-60, nonlinear_force.py:22-44). The
residuals of the new system are the old ones, projected: `R'(q) = Pᵀ R(P q)` (vibration_system.py:398-483, 650-830).
`Expands` and `Projects` are the two relations between vectors of coefficients.
-/

namespace TMD

open Spec Finset

noncomputable section

/-- `V` are the coefficients of `x = P q` (`n` coordinates) when `U` are those of `q` (`m` coordinates). -/
def Expands (h : List ℕ) (n m : ℕ) (P : ℕ → ℕ → ℝ) (U V : ℕ → ℝ) : Prop :=
  ∀ r < numCoeff h, ∀ i < n, V (r * n + i) = ∑ b ∈ range m, P i b * U (r * m + b)

/-- `G` are the coefficients of `Pᵀ f` when `F` are those of `f`. -/
def Projects (h : List ℕ) (n m : ℕ) (P : ℕ → ℕ → ℝ) (F G : ℕ → ℝ) : Prop :=
  ∀ r < numCoeff h, ∀ a < m, G (r * m + a) = ∑ i ∈ range n, P i a * F (r * n + i)

/-- `Q P`. -/
def rightMul (n : ℕ) (Q P : ℕ → ℕ → ℝ) : ℕ → ℕ → ℝ := fun d b => ∑ e ∈ range n, Q d e * P e b

/-- `Pᵀ T`. -/
def leftMul (n : ℕ) (P T : ℕ → ℕ → ℝ) : ℕ → ℕ → ℝ := fun a e => ∑ i ∈ range n, P i a * T i e

/-- The force object `g` of the new coordinates is the projected `f` of the old ones. -/
structure ReducesForce (f g : NLForce) (n m : ℕ) (P : ℕ → ℕ → ℝ) (h : List ℕ) (Nt : ℕ) (tol : ℝ) : Prop where
  left : ∀ V w, ∃ o, f.aft V w h Nt tol = .ok o
  right : ∀ U w, ∃ o, g.aft U w h Nt tol = .ok o
  proj : ∀ U V w o o', Expands h n m P U V → f.aft V w h Nt tol = .ok o → g.aft U w h Nt tol = .ok o' → Projects h n m P o.F o'.F

/-- The system `S'` is `S` in the coordinates `q` with `x = P q`. -/
structure Reduces (S S' : VibSys) (P : ℕ → ℕ → ℝ) (h : List ℕ) (Nt : ℕ) (tol : ℝ) : Prop where
  mass : ∀ a < S'.nd, ∀ b < S'.nd, S'.M a b = ∑ i ∈ range S.nd, ∑ j ∈ range S.nd, P i a * S.M i j * P j b
  stiff : ∀ a < S'.nd, ∀ b < S'.nd, S'.K a b = ∑ i ∈ range S.nd, ∑ j ∈ range S.nd, P i a * S.K i j * P j b
  damp : ∀ a < S'.nd, ∀ b < S'.nd, S'.C a b = ∑ i ∈ range S.nd, ∑ j ∈ range S.nd, P i a * S.C i j * P j b
  forces : List.Forall₂ (fun f g => ReducesForce f g S.nd S'.nd P h Nt tol) S.forces S'.forces

/-! ## Lemmas -/

theorem smulPair (a : ℝ) (p : ℝ × ℝ) : a • p = (a * p.1, a * p.2) := rfl

theorem coefOf_lin (h : List ℕ) (s : Finset ℕ) (a : ℕ → ℝ) (c : ℕ → ℕ → ℝ) (k : ℕ) :
    coefOf h (fun r => ∑ i ∈ s, a i * c i r) k = ∑ i ∈ s, a i • coefOf h (c i) k := by
  have := coefOf_sum h s a c k
  simp only [mul_comm _ (a _)] at this
  rw [this]
  refine Prod.ext ?_ ?_
  · rw [Prod.fst_sum]; rfl
  · rw [Prod.snd_sum]; rfl

theorem Expands.coef {h : List ℕ} {n m : ℕ} {P : ℕ → ℕ → ℝ} {U V : ℕ → ℝ} (H : Expands h n m P U V) {i : ℕ} (hi : i < n) (k : ℕ) :
    coefOf h (fun r => V (r * n + i)) k = ∑ b ∈ range m, P i b • coefOf h (fun r => U (r * m + b)) k := by
  rw [← coefOf_lin]
  exact coefOf_rows (fun r hr => H r hr i hi) k

theorem projects_iff {h : List ℕ} (hA : Admissible h) {n m : ℕ} {P : ℕ → ℕ → ℝ} {F G : ℕ → ℝ} :
    Projects h n m P F G ↔ ∀ a < m, ∀ k ∈ h, coefOf h (fun r => G (r * m + a)) k = ∑ i ∈ range n, P i a • coefOf h (fun r => F (r * n + i)) k := by
  constructor
  · intro H a ha k _
    rw [← coefOf_lin]
    exact coefOf_rows (fun r hr => H r hr a ha) k
  · intro H r hr a ha
    have := eq_of_coefOf hA (nd := m) (F := G) (G := fun j => ∑ i ∈ range n, P i (j % m) * F (j / m * n + i)) (fun a ha k hk => by
      have e : ∀ r, (r * m + a) % m = a ∧ (r * m + a) / m = r := fun r => by
        rw [mul_comm, Nat.mul_add_mod, Nat.mod_eq_of_lt ha, Nat.mul_add_div (by omega), Nat.div_eq_of_lt ha]; simp
      simp only [(e _).1, (e _).2]
      rw [H a ha k hk, ← coefOf_lin]) (r * m + a) (row_lt hr ha)
    have e : (r * m + a) % m = a ∧ (r * m + a) / m = r := by
        rw [mul_comm, Nat.mul_add_mod, Nat.mod_eq_of_lt ha, Nat.mul_add_div (by omega), Nat.div_eq_of_lt ha]; simp
    simpa only [e.1, e.2] using this

theorem localMotion_expands {h : List ℕ} {n m : ℕ} {P : ℕ → ℕ → ℝ} {U V : ℕ → ℝ} (H : Expands h n m P U V) (Q : ℕ → ℕ → ℝ) (d : ℕ) :
    localMotion n Q h V d = localMotion m (rightMul n Q P) h U d := by
  funext τ
  unfold localMotion rightMul
  have e : ∀ i ∈ range n, Q d i * series h (fun r => V (r * n + i)) τ
      = ∑ b ∈ range m, Q d i * P i b * series h (fun r => U (r * m + b)) τ := fun i hi => by
    rw [series_congr (c' := fun r => ∑ b ∈ range m, P i b * U (r * m + b)) (fun r hr => H r hr i (mem_range.1 hi)),
      series_sum h (range m) (fun b r => P i b * U (r * m + b)) τ, mul_sum]
    exact sum_congr rfl fun b _ => by rw [series_smul, mul_assoc]
  rw [sum_congr rfl e, sum_comm]
  exact sum_congr rfl fun b _ => by rw [sum_mul]

theorem isForceDFT_projects {h : List ℕ} (hA : Admissible h) {Nt n m l : ℕ} {P T : ℕ → ℕ → ℝ} {f : ℕ → ℕ → ℝ} {F G : ℕ → ℝ}
    (hF : IsForceDFT n l T h Nt f F) (hG : IsForceDFT m l (leftMul n P T) h Nt f G) : Projects h n m P F G := by
  rw [projects_iff hA]
  intro a ha k hk
  rw [hG a ha k hk]
  have e : ∀ i ∈ range n, P i a • coefOf h (fun r => F (r * n + i)) k = P i a • dft Nt (fun j => ∑ d ∈ range l, T i d * f j d) k :=
    fun i hi => by rw [hF i (mem_range.1 hi) k hk]
  rw [sum_congr rfl e]
  have d1 := dft_linear Nt (range n) (fun i => P i a) (fun j i => ∑ d ∈ range l, T i d * f j d) k
  have e2 : (fun j => ∑ d ∈ range l, leftMul n P T a d * f j d) = fun j => ∑ i ∈ range n, P i a * ∑ d ∈ range l, T i d * f j d := by
    funext j
    unfold leftMul
    simp only [sum_mul, mul_sum]
    rw [sum_comm]
    exact sum_congr rfl fun i _ => sum_congr rfl fun d _ => by ring
  rw [e2, d1]
  refine Prod.ext ?_ ?_
  · rw [Prod.fst_sum]; rfl
  · rw [Prod.snd_sum]; rfl

theorem admissible_numCoeff_pos {h : List ℕ} (hA : Admissible h) : 0 < numCoeff h := by
  obtain ⟨k, t, rfl⟩ : ∃ k t, h = k :: t := List.exists_cons_of_ne_nil hA.ne
  rcases Nat.eq_zero_or_pos k with rfl | hk
  · simp [numCoeff]
  · simp [numCoeff, hk.ne']

/-! ## The forces -/

section classes

variable (h : List ℕ) (hA : Admissible h) (Nt : ℕ) (hNt : ∀ k ∈ h, 2*k + 1 < Nt) (heven : Even Nt)
include hA hNt heven

/-- C119: instantaneous forces of any law. -/
theorem C119_instantaneous (n m l : ℕ) (P Q T : ℕ → ℕ → ℝ) (loc : ℕ → ℝ → ℝ → Loc) (force force' : (ℕ → ℝ) → (ℕ → ℝ) × (ℕ → ℕ → ℝ)) (tol : ℝ) :
    ReducesForce (instForce n l Q T loc force) (instForce m l (rightMul n Q P) (leftMul n P T) loc force') n m P h Nt tol := by
  have k := C24_is_dft h hA Nt hNt heven n l Q T loc
  have k' := C24_is_dft h hA Nt hNt heven m l (rightMul n Q P) (leftMul n P T) loc
  refine ⟨fun U w => ⟨_, (k U w).choose_spec.1⟩, fun V w => ⟨_, (k' V w).choose_spec.1⟩, fun U V w o o' H e e' => ?_⟩
  obtain ⟨p, h1, h2⟩ := k V w
  obtain ⟨p', h3, h4⟩ := k' U w
  cases h1.symm.trans e
  cases h3.symm.trans e'
  simp only [localMotion_expands H] at h2
  exact isForceDFT_projects hA h2 h4

/-- The force that `aft` of a class reports, in old and new coordinates. -/
structure ReducesClass (f g : PForce) (n m : ℕ) (P : ℕ → ℕ → ℝ) (h : List ℕ) (Nt : ℕ) : Prop where
  raises : ∀ U V w e, Expands h n m P U V → (f.aftF V w h Nt = .error e ↔ g.aftF U w h Nt = .error e)
  proj : ∀ U V w F G, Expands h n m P U V → f.aftF V w h Nt = .ok F → g.aftF U w h Nt = .ok G → Projects h n m P F G

/-- C119: the coupled polynomial force. -/
theorem C119_polynomial (n m l cnl : ℕ) (P Q T E : ℕ → ℕ → ℝ) (qq : ℕ → ℕ → ℕ) :
    ReducesClass (.poly n l cnl Q T E qq) (.poly m l cnl (rightMul n Q P) (leftMul n P T) E qq) n m P h Nt := by
  have k : ∀ (N : ℕ) (Q T : ℕ → ℕ → ℝ) (U : ℕ → ℝ) (w : ℝ), ∃ F, (PForce.poly N l cnl Q T E qq).aftF U w h Nt = .ok F ∧
      IsForceDFT N l T h Nt (fun j d => ∑ c ∈ range cnl, E d c * ∏ e ∈ range l, (localMotion N Q h U e (2 * Real.pi * j / Nt))^(qq c e)) F :=
    fun N Q T U w => by
      obtain ⟨o, h1, h2⟩ := C24_polynomial_is_dft h hA Nt hNt heven N l cnl Q T E qq U w
      refine ⟨o.F, ?_, h2⟩
      show aftForce (genPolyAft N l cnl Q T E qq U w h Nt) = _
      rw [h1]; rfl
  refine ⟨fun U V w e H => ?_, fun U V w F G H e e' => ?_⟩
  · obtain ⟨p, h1, -⟩ := k n Q T V w
    obtain ⟨p', h3, -⟩ := k m (rightMul n Q P) (leftMul n P T) U w
    rw [h1, h3]
    exact ⟨(fun x => by cases x), (fun x => by cases x)⟩
  · obtain ⟨p, h1, h2⟩ := k n Q T V w
    obtain ⟨p', h3, h4⟩ := k m (rightMul n Q P) (leftMul n P T) U w
    cases h1.symm.trans e
    cases h3.symm.trans e'
    simp only [localMotion_expands H] at h2
    exact isForceDFT_projects hA h2 h4

omit hA hNt heven in
theorem firstRow_expands (hc : 0 < numCoeff h) {n m : ℕ} {P : ℕ → ℕ → ℝ} {U V : ℕ → ℝ} (H : Expands h n m P U V) (Q : ℕ → ℕ → ℝ) (d : ℕ) :
    ∑ e ∈ range n, Q d e * V e = ∑ b ∈ range m, rightMul n Q P d b * U b := by
  unfold rightMul
  have e : ∀ i ∈ range n, Q d i * V i = ∑ b ∈ range m, Q d i * P i b * U b := fun i hi => by
    have := H 0 hc i (mem_range.1 hi)
    simp only [zero_mul, zero_add] at this
    rw [this, mul_sum]
    exact sum_congr rfl fun b _ => by ring
  rw [sum_congr rfl e, sum_comm]
  exact sum_congr rfl fun b _ => by rw [sum_mul]

/-- C119: all hysteretic forces of NumPy, also where the evaluation raises. -/
theorem C119_hysteretic (n m l : ℕ) (P Q T : ℕ → ℕ → ℝ)
    (lfh : ℝ → TS ℕ → (ℕ → ℕ → ℝ) → TS ℕ → (ℕ → ℝ) → Except Err ((ℕ → ℕ → ℝ) × (ℕ → ℕ → ℕ → ℕ → ℝ))) :
    ReducesClass (.hyst n l Q T lfh) (.hyst m l (rightMul n Q P) (leftMul n P T) lfh) n m P h Nt := by
  have hc : 0 < numCoeff h := admissible_numCoeff_pos hA
  have key : ∀ U V w, Expands h n m P U V →
      (∃ e, aftForce (hystAft n l Q T (lfh (1 / 10 ^ 10)) V w h Nt) = .error e ∧
        aftForce (hystAft m l (rightMul n Q P) (leftMul n P T) (lfh (1 / 10 ^ 10)) U w h Nt) = .error e) ∨
      ∃ F G, aftForce (hystAft n l Q T (lfh (1 / 10 ^ 10)) V w h Nt) = .ok F ∧
        aftForce (hystAft m l (rightMul n Q P) (leftMul n P T) (lfh (1 / 10 ^ 10)) U w h Nt) = .ok G ∧ Projects h n m P F G := by
    intro U V w H
    obtain ⟨cst, c1, c2⟩ := C24_hysteretic_is_dft h hA Nt hNt heven n l Q T (lfh (1 / 10 ^ 10)) V w
    obtain ⟨cst', k1, k2⟩ := C24_hysteretic_is_dft h hA Nt hNt heven m l (rightMul n Q P) (leftMul n P T) (lfh (1 / 10 ^ 10)) U w
    rw [c1] at k1
    cases k1
    simp only [localMotion_expands H, firstRow_expands h hc H] at c2
    split at c2
    · rename_i ft dd hl
      rw [hl] at k2
      obtain ⟨o, o1, o2⟩ := c2
      obtain ⟨o', p1, p2⟩ := k2
      exact Or.inr ⟨o.F, o'.F, by rw [o1]; rfl, by rw [p1]; rfl, isForceDFT_projects hA o2 p2⟩
    · rename_i e hl
      rw [hl] at k2
      exact Or.inl ⟨e, by rw [c2]; rfl, by rw [k2]; rfl⟩
  refine ⟨fun U V w e H => ?_, fun U V w F G H e e' => ?_⟩
  · show aftForce (hystAft n l Q T (lfh (1 / 10 ^ 10)) V w h Nt) = _ ↔ aftForce (hystAft m l _ _ (lfh (1 / 10 ^ 10)) U w h Nt) = _
    rcases key U V w H with ⟨e', h1, h2⟩ | ⟨F, G, h1, h2, -⟩
    · rw [h1, h2]
    · rw [h1, h2]
      exact ⟨(fun x => by cases x), (fun x => by cases x)⟩
  · rcases key U V w H with ⟨e'', h1, h2⟩ | ⟨F', G', h1, h2, h3⟩
    · exact absurd (h1.symm.trans e) (by simp)
    · cases h1.symm.trans e
      cases h2.symm.trans e'
      exact h3

/-- C119: the four friction classes of NumPy. -/
theorem C119_friction (n m : ℕ) (P Q T : ℕ → ℕ → ℝ) (kt Fs eps : ℝ) (iw : Iwan) :
    ReducesClass (.jenkins n Q T kt Fs eps) (.jenkins m (rightMul n Q P) (leftMul n P T) kt Fs eps) n m P h Nt ∧
    ReducesClass (.iwan n Q T iw eps) (.iwan m (rightMul n Q P) (leftMul n P T) iw eps) n m P h Nt ∧
    ReducesClass (.vectorJenkins n Q T kt Fs eps) (.vectorJenkins m (rightMul n Q P) (leftMul n P T) kt Fs eps) n m P h Nt ∧
    ReducesClass (.vectorIwan n Q T iw eps) (.vectorIwan m (rightMul n Q P) (leftMul n P T) iw eps) n m P h Nt :=
  ⟨C119_hysteretic h hA Nt hNt heven n m 1 P Q T _, C119_hysteretic h hA Nt hNt heven n m 1 P Q T _,
   C119_hysteretic h hA Nt hNt heven n m 1 P Q T _, C119_hysteretic h hA Nt hNt heven n m 1 P Q T _⟩

/-- C119: the evaluation shared by the JAX classes, for any history. -/
theorem jaxAft_projects (hh : 1 < numCoeff h) (n m l : ℕ) (P Q T : ℕ → ℕ → ℝ) (hist : TS ℕ → (ℕ → ℝ) → ℕ → ℕ → ℝ) (U V : ℕ → ℝ)
    (H : Expands h n m P U V) :
    ∃ F G, jaxAft n l Q T hist V h Nt = .ok F ∧ jaxAft m l (rightMul n Q P) (leftMul n P T) hist U h Nt = .ok G ∧ Projects h n m P F G := by
  obtain ⟨W, w⟩ := gfc_linear hA (fun k hk => by have := hNt k hk; omega : ∀ k ∈ h, k < Nt)
  have e1 : sampledDisp n Q h V Nt = sampledDisp m (rightMul n Q P) h U Nt := by
    unfold sampledDisp
    simp only [localMotion_expands H]
  have e2 : unlOf n Q V 0 = unlOf m (rightMul n Q P) U 0 := by
    funext d
    have := firstRow_expands h (by omega) H Q d
    unfold unlOf matMul
    simpa only [zero_mul, zero_add] using this
  obtain ⟨x, x1, -, x2⟩ := w (hist (sampledDisp n Q h V Nt) (unlOf n Q V 0))
  have y1 := x1
  rw [e1, e2] at y1
  exact ⟨_, _, jaxAft_F hA hNt heven hh n l Q T hist V x1, jaxAft_F hA hNt heven hh m l _ _ hist U y1,
    isForceDFT_projects hA (isForceDFT_of n l T h Nt _ x x2) (isForceDFT_of m l _ h Nt _ x x2)⟩

/-- C119: the JAX classes. -/
theorem C119_jax (hh : 1 < numCoeff h) (n m l : ℕ) (P Q T : ℕ → ℕ → ℝ) (kt kn mu gap Fs : ℝ) (u0 : EdfU0) (mt : Mat) (g : Asperities) (Nr : ℕ)
    (v0 : ℕ → ℝ) :
    ReducesClass (.jaxJenkins n Q T kt Fs u0) (.jaxJenkins m (rightMul n Q P) (leftMul n P T) kt Fs u0) n m P h Nt ∧
    ReducesClass (.edf2 n l Q T kt kn mu gap u0) (.edf2 m l (rightMul n Q P) (leftMul n P T) kt kn mu gap u0) n m P h Nt ∧
    ReducesClass (.edf3 n l Q T kt kn mu gap u0) (.edf3 m l (rightMul n Q P) (leftMul n P T) kt kn mu gap u0) n m P h Nt ∧
    ReducesClass (.rough n Q T mt g mu v0) (.rough m (rightMul n Q P) (leftMul n P T) mt g mu v0) n m P h Nt ∧
    ReducesClass (.mif n Q T mt g Nr mu v0) (.mif m (rightMul n Q P) (leftMul n P T) mt g Nr mu v0) n m P h Nt := by
  have key : ∀ (f f' : PForce) (l : ℕ) (hist : TS ℕ → (ℕ → ℝ) → ℕ → ℕ → ℝ), (∀ V w, f.aftF V w h Nt = jaxAft n l Q T hist V h Nt) →
      (∀ U w, f'.aftF U w h Nt = jaxAft m l (rightMul n Q P) (leftMul n P T) hist U h Nt) → ReducesClass f f' n m P h Nt := by
    intro f f' l hist hf hf'
    refine ⟨fun U V w e H => ?_, fun U V w F G H e e' => ?_⟩
    · obtain ⟨F, G, h1, h2, -⟩ := jaxAft_projects h hA Nt hNt heven hh n m l P Q T hist U V H
      rw [hf, hf', h1, h2]
      exact ⟨(fun x => by cases x), (fun x => by cases x)⟩
    · obtain ⟨F', G', h1, h2, h3⟩ := jaxAft_projects h hA Nt hNt heven hh n m l P Q T hist U V H
      rw [hf] at e
      rw [hf'] at e'
      cases h1.symm.trans e
      cases h2.symm.trans e'
      exact h3
  exact ⟨key _ _ 1 (fun u z j _ => jaxJenkinsHistory u.rows (fun j => u.val j 0) kt Fs (jaxStart u0 z) j) (fun _ _ => rfl) (fun _ _ => rfl),
    key _ _ l (fun u z => edf2History u.rows u.val kt kn mu gap (edf2AftU0 u0 z)) (fun _ _ => rfl) (fun _ _ => rfl),
    key _ _ l (fun u z => edf3History u.rows u.val kt kn mu gap (edf3AftU0 u0 z)) (fun _ _ => rfl) (fun _ _ => rfl), key _ _ 3 (fun u _ t d => (roughHistory mt g u.rows u.val v0 mu 2 t d).getD 0) (fun _ _ => rfl) (fun _ _ => rfl),
    key _ _ 3 (fun u _ t d => (mifHistory mt g Nr u.rows u.val v0 mu 2 t d).getD 0) (fun _ _ => rfl) (fun _ _ => rfl)⟩

end classes

/-- C119: how the force of a class enters a system: in the new coordinates it is evaluated without error when it always is in
the old ones, and it is the projected force. -/
theorem C119_system {h : List ℕ} {n m Nt : ℕ} {tol : ℝ} {P : ℕ → ℕ → ℝ} (f g : NLForce) (p q : PForce)
    (hfp : ∀ U w, aftForce (f.aft U w h Nt tol) = p.aftF U w h Nt) (hgq : ∀ U w, aftForce (g.aft U w h Nt tol) = q.aftF U w h Nt)
    (hp : ∀ U w, ∃ F, p.aftF U w h Nt = .ok F) (H : ReducesClass p q n m P h Nt) : ReducesForce f g n m P h Nt tol := by
  have ok : ∀ {x : Except Err AftOut} {F : ℕ → ℝ}, aftForce x = .ok F → ∃ o, x = .ok o ∧ o.F = F := by
    intro x F hx
    cases x with
    | error e => simp [aftForce] at hx
    | ok o => exact ⟨o, rfl, by simpa [aftForce] using hx⟩
  refine ⟨fun V w => ?_, fun U w => ?_, fun U V w o o' HU e e' => ?_⟩
  · obtain ⟨F, hF⟩ := hp V w
    obtain ⟨o, ho, -⟩ := ok ((hfp V w).trans hF)
    exact ⟨o, ho⟩
  · have HU : Expands h n m P U (fun j => ∑ b ∈ range m, P (j % n) b * U (j / n * m + b)) := fun r hr i hi => by
      have e : (r * n + i) % n = i ∧ (r * n + i) / n = r := by
        rw [mul_comm, Nat.mul_add_mod, Nat.mod_eq_of_lt hi, Nat.mul_add_div (by omega), Nat.div_eq_of_lt hi]; simp
      simp only [e.1, e.2]
    obtain ⟨F, hF⟩ := hp (fun j => ∑ b ∈ range m, P (j % n) b * U (j / n * m + b)) w
    cases hq : q.aftF U w h Nt with
    | error e =>
      rw [(H.raises U _ w e HU).2 hq] at hF
      cases hF
    | ok G =>
      obtain ⟨o, ho, -⟩ := ok ((hgq U w).trans hq)
      exact ⟨o, ho⟩
  · exact H.proj U V w _ _ HU (by rw [← hfp, e]; rfl) (by rw [← hgq, e']; rfl)

/-! ## The residuals -/

theorem sandwich_mul {n m : ℕ} {P A A' : ℕ → ℕ → ℝ} {a : ℕ}
    (hA : ∀ b < m, A' a b = ∑ i ∈ range n, ∑ j ∈ range n, P i a * A i j * P j b) (x : ℕ → ℝ) :
    ∑ b ∈ range m, A' a b * x b = ∑ i ∈ range n, P i a * ∑ j ∈ range n, A i j * ∑ b ∈ range m, P j b * x b := by
  have e : ∀ b ∈ range m, A' a b * x b = ∑ i ∈ range n, ∑ j ∈ range n, P i a * A i j * P j b * x b := fun b hb => by
    rw [hA b (mem_range.1 hb), sum_mul]
    exact sum_congr rfl fun i _ => by rw [sum_mul]
  rw [sum_congr rfl e, sum_comm]
  refine sum_congr rfl fun i _ => ?_
  rw [sum_comm, mul_sum]
  refine sum_congr rfl fun j _ => ?_
  rw [mul_sum, mul_sum]
  exact sum_congr rfl fun b _ => by ring

theorem dynCoef_fst (n : ℕ) (M C K : ℕ → ℕ → ℝ) (w : ℝ) (k : ℕ) (p : ℕ → ℝ × ℝ) (d : ℕ) :
    (dynCoef n M C K w k p d).1 = (k * w) * (∑ e ∈ range n, C d e * (p e).2) + ∑ e ∈ range n, K d e * (p e).1
      - (k * w) ^ 2 * ∑ e ∈ range n, M d e * (p e).1 := by
  show ∑ e ∈ range n, ((k * w) * C d e * (p e).2 + (K d e - (k * w) ^ 2 * M d e) * (p e).1) = _
  rw [mul_sum, mul_sum, ← sum_add_distrib, ← sum_sub_distrib]
  exact sum_congr rfl fun e _ => by ring

theorem dynCoef_snd (n : ℕ) (M C K : ℕ → ℕ → ℝ) (w : ℝ) (k : ℕ) (p : ℕ → ℝ × ℝ) (d : ℕ) :
    (dynCoef n M C K w k p d).2 = - (k * w) * (∑ e ∈ range n, C d e * (p e).1) + ∑ e ∈ range n, K d e * (p e).2
      - (k * w) ^ 2 * ∑ e ∈ range n, M d e * (p e).2 := by
  show ∑ e ∈ range n, (-((k * w) * C d e * (p e).1) + (K d e - (k * w) ^ 2 * M d e) * (p e).2) = _
  rw [mul_sum, mul_sum, ← sum_add_distrib, ← sum_sub_distrib]
  exact sum_congr rfl fun e _ => by ring

theorem dynCoef_projects {n m : ℕ} {P M C K M' C' K' : ℕ → ℕ → ℝ} {a : ℕ}
    (hM : ∀ b < m, M' a b = ∑ i ∈ range n, ∑ j ∈ range n, P i a * M i j * P j b)
    (hC : ∀ b < m, C' a b = ∑ i ∈ range n, ∑ j ∈ range n, P i a * C i j * P j b)
    (hK : ∀ b < m, K' a b = ∑ i ∈ range n, ∑ j ∈ range n, P i a * K i j * P j b) (w : ℝ) (k : ℕ) (p : ℕ → ℝ × ℝ) :
    dynCoef m M' C' K' w k p a = ∑ i ∈ range n, P i a • dynCoef n M C K w k (fun e => ∑ b ∈ range m, P e b • p b) i := by
  refine Prod.ext ?_ ?_
  · rw [Prod.fst_sum]
    simp only [Prod.smul_fst, smul_eq_mul, dynCoef_fst, Prod.fst_sum, Prod.snd_sum, Prod.smul_snd, sandwich_mul hM, sandwich_mul hC, sandwich_mul hK]
    simp only [mul_sum (range n) _ ((k:ℝ) * w), mul_sum (range n) _ (((k:ℝ) * w) ^ 2)]
    rw [← sum_add_distrib, ← sum_sub_distrib]
    refine sum_congr rfl fun i _ => ?_
    rw [← mul_sum, ← mul_sum]
    ring
  · rw [Prod.snd_sum]
    simp only [Prod.smul_fst, smul_eq_mul, dynCoef_snd, Prod.fst_sum, Prod.snd_sum, Prod.smul_snd, sandwich_mul hM, sandwich_mul hC, sandwich_mul hK]
    simp only [mul_sum (range n) _ (-((k:ℝ) * w)), mul_sum (range n) _ (((k:ℝ) * w) ^ 2)]
    rw [← sum_add_distrib, ← sum_sub_distrib]
    refine sum_congr rfl fun i _ => ?_
    rw [← mul_sum, ← mul_sum]
    ring

theorem ReducesForce.val {f g : NLForce} {n m : ℕ} {P : ℕ → ℕ → ℝ} {h : List ℕ} {Nt : ℕ} {tol : ℝ} (H : ReducesForce f g n m P h Nt tol) :
    (∀ U w, f.aft U w h Nt tol = .ok (aftVal h Nt tol f U w)) ∧ ∀ U w, g.aft U w h Nt tol = .ok (aftVal h Nt tol g U w) := by
  constructor
  · intro U w
    obtain ⟨o, h1⟩ := H.left U w
    simp only [aftVal, h1]
  · intro U w
    obtain ⟨o, h1⟩ := H.right U w
    simp only [aftVal, h1]

theorem Reduces.val {S S' : VibSys} {P : ℕ → ℕ → ℝ} {h : List ℕ} {Nt : ℕ} {tol : ℝ} (H : Reduces S S' P h Nt tol) :
    (∀ f ∈ S.forces, ∀ U w, f.aft U w h Nt tol = .ok (aftVal h Nt tol f U w)) ∧
    ∀ f ∈ S'.forces, ∀ U w, f.aft U w h Nt tol = .ok (aftVal h Nt tol f U w) := by
  have := H.forces
  revert this
  generalize S.forces = l
  generalize S'.forces = l'
  intro this
  induction this with
  | nil => simp
  | cons hd _ ih =>
    refine ⟨fun f hf => ?_, fun f hf => ?_⟩
    · rcases List.mem_cons.1 hf with rfl | hf
      · exact hd.val.1
      · exact ih.1 f hf
    · rcases List.mem_cons.1 hf with rfl | hf
      · exact hd.val.2
      · exact ih.2 f hf

theorem forces_projects {n m : ℕ} {P : ℕ → ℕ → ℝ} {h : List ℕ} (hA : Admissible h) {Nt : ℕ} {tol : ℝ} {U V : ℕ → ℝ} (HU : Expands h n m P U V)
    (w : ℝ) {a : ℕ} (ha : a < m) {k : ℕ} (hk : k ∈ h) {l l' : List NLForce} (H : List.Forall₂ (fun f g => ReducesForce f g n m P h Nt tol) l l') :
    (l'.map fun g => coefOf h (fun r => (aftVal h Nt tol g U w).F (r * m + a)) k).sum
      = ∑ i ∈ range n, P i a • (l.map fun f => coefOf h (fun r => (aftVal h Nt tol f V w).F (r * n + i)) k).sum := by
  induction H with
  | nil => simp
  | cons hd _ ih =>
    simp only [List.map_cons, List.sum_cons, smul_add, sum_add_distrib, ih]
    congr 1
    exact (projects_iff hA).1 (hd.proj U V w _ _ HU (hd.val.1 V w) (hd.val.2 U w)) a ha k hk

theorem expands_sl {h : List ℕ} {n m : ℕ} {P : ℕ → ℕ → ℝ} {U V : ℕ → ℝ} (H : Expands h n m P U V) :
    Expands h n m P (sl 0 (numCoeff h * m) U) (sl 0 (numCoeff h * n) V) := by
  intro r hr i hi
  rw [sl_zero (row_lt hr hi), H r hr i hi]
  exact sum_congr rfl fun b hb => by rw [sl_zero (row_lt hr (mem_range.1 hb))]

theorem hbmG_projects {S S' : VibSys} {P : ℕ → ℕ → ℝ} {h : List ℕ} (hA : Admissible h) {Nt : ℕ} {tol : ℝ} (H : Reduces S S' P h Nt tol)
    {Z Z' : ℕ → ℝ} (hZ : Expands h S.nd S'.nd P Z' Z) (hw : Z (numCoeff h * S.nd) = Z' (numCoeff h * S'.nd)) :
    Projects h S.nd S'.nd P (hbmG S (aftVal h Nt tol) h Z) (hbmG S' (aftVal h Nt tol) h Z') := by
  rw [projects_iff hA]
  intro a ha k hk
  rw [coefOf_hbmG S' hA _ Z' ha hk]
  have e : ∀ i ∈ range S.nd, P i a • coefOf h (fun r => hbmG S (aftVal h Nt tol) h Z (r * S.nd + i)) k
      = P i a • dynCoef S.nd S.M S.C S.K (Z' (numCoeff h * S'.nd)) k (fun e => ∑ b ∈ range S'.nd, P e b • coefOf h (fun r => Z' (r * S'.nd + b)) k) i
        + P i a • (S.forces.map fun f => coefOf h (fun r => (aftVal h Nt tol f (sl 0 (numCoeff h * S.nd) Z)
            (Z' (numCoeff h * S'.nd))).F (r * S.nd + i)) k).sum := fun i hi => by
    rw [coefOf_hbmG S hA _ Z (mem_range.1 hi) hk, smul_add, hw, dynCoef_congr (fun e he => hZ.coef he k) i]
  rw [sum_congr rfl e, sum_add_distrib, forces_projects hA (expands_sl hZ) _ ha hk H.forces,
    dynCoef_projects (H.mass a ha) (H.damp a ha) (H.stiff a ha)]

/-- C119: the residual of harmonic balance of the new system is the projected residual of the old one at `x = P q`. -/
theorem C119_hbm (S S' : VibSys) (P : ℕ → ℕ → ℝ) (h : List ℕ) (hA : Admissible h) (Nt : ℕ) (tol : ℝ) (H : Reduces S S' P h Nt tol)
    (Z Z' Fl Fl' : ℕ → ℝ) (hZ : Expands h S.nd S'.nd P Z' Z) (hw : Z (numCoeff h * S.nd) = Z' (numCoeff h * S'.nd))
    (hF : Projects h S.nd S'.nd P Fl Fl') :
    ∃ o o', hbmRes S Z Fl h Nt tol true = .ok o ∧ hbmRes S' Z' Fl' h Nt tol true = .ok o' ∧ Projects h S.nd S'.nd P o.R o'.R := by
  refine ⟨_, _, hbmRes_ok S hA Nt tol _ H.val.1 Z Fl, hbmRes_ok S' hA Nt tol _ H.val.2 Z' Fl', fun r hr a ha => ?_⟩
  show hbmG _ _ _ _ _ - _ = ∑ i ∈ range S.nd, P i a * (hbmG _ _ _ _ _ - _)
  rw [hbmG_projects hA H hZ hw r hr a ha, hF r hr a ha, ← sum_sub_distrib]
  exact sum_congr rfl fun i _ => by ring

/-- C119: a solution of the old system that lies in the range of `P` is one of the new system; with a square `P` that has an
inverse the two systems have the same solutions. -/
theorem C119_solutions (S S' : VibSys) (P : ℕ → ℕ → ℝ) (h : List ℕ) (hA : Admissible h) (Nt : ℕ) (tol : ℝ) (H : Reduces S S' P h Nt tol)
    (Z Z' Fl Fl' : ℕ → ℝ) (hZ : Expands h S.nd S'.nd P Z' Z) (hw : Z (numCoeff h * S.nd) = Z' (numCoeff h * S'.nd))
    (hF : Projects h S.nd S'.nd P Fl Fl') :
    ∃ o o', hbmRes S Z Fl h Nt tol true = .ok o ∧ hbmRes S' Z' Fl' h Nt tol true = .ok o' ∧
      ((∀ r < numCoeff h, ∀ i < S.nd, o.R (r * S.nd + i) = 0) → ∀ r < numCoeff h, ∀ a < S'.nd, o'.R (r * S'.nd + a) = 0) ∧
      ∀ W : ℕ → ℕ → ℝ, (∀ i < S.nd, ∀ j < S.nd, ∑ a ∈ range S'.nd, P i a * W a j = if i = j then 1 else 0) →
        (∀ r < numCoeff h, ∀ a < S'.nd, o'.R (r * S'.nd + a) = 0) → ∀ r < numCoeff h, ∀ i < S.nd, o.R (r * S.nd + i) = 0 := by
  obtain ⟨o, o', h1, h2, h3⟩ := C119_hbm S S' P h hA Nt tol H Z Z' Fl Fl' hZ hw hF
  refine ⟨o, o', h1, h2, fun z r hr a ha => ?_, fun W hW z r hr j hj => ?_⟩
  · rw [h3 r hr a ha]
    exact sum_eq_zero fun i hi => by rw [z r hr i (mem_range.1 hi), mul_zero]
  · have e : ∑ a ∈ range S'.nd, W a j * ∑ i ∈ range S.nd, P i a * o.R (r * S.nd + i) = 0 :=
      sum_eq_zero fun a ha => by rw [← h3 r hr a (mem_range.1 ha), z r hr a (mem_range.1 ha), mul_zero]
    simp only [mul_sum] at e
    rw [sum_comm] at e
    have e2 : ∀ i ∈ range S.nd, ∑ a ∈ range S'.nd, W a j * (P i a * o.R (r * S.nd + i)) = (if i = j then 1 else 0) * o.R (r * S.nd + i) :=
      fun i hi => by
        rw [← hW i (mem_range.1 hi) j hj, sum_mul]
        exact sum_congr rfl fun a _ => by ring
    rw [sum_congr rfl e2] at e
    simpa [sum_ite_eq', hj] using e

theorem quad_expands {n m : ℕ} {P M M' : ℕ → ℕ → ℝ} (hM : ∀ a < m, ∀ b < m, M' a b = ∑ i ∈ range n, ∑ j ∈ range n, P i a * M i j * P j b)
    {h : List ℕ} {U V : ℕ → ℝ} (H : Expands h n m P U V) {p : ℕ} (hp : p < numCoeff h) : quad n M p V = quad m M' p U := by
  unfold quad ctrl
  have e : ∀ a ∈ range m, U (p * m + a) * ∑ b ∈ range m, M' a b * U (p * m + b)
      = ∑ i ∈ range n, P i a * U (p * m + a) * ∑ j ∈ range n, M i j * ∑ b ∈ range m, P j b * U (p * m + b) := fun a ha => by
    rw [sandwich_mul (hM a (mem_range.1 ha)) (fun b => U (p * m + b)), mul_sum]
    exact sum_congr rfl fun i _ => by ring
  rw [sum_congr rfl e, sum_comm]
  refine sum_congr rfl fun i hi => ?_
  rw [← sum_mul, H p hp i (mem_range.1 hi)]
  congr 1
  exact sum_congr rfl fun j hj => by rw [H p hp j (mem_range.1 hj)]

theorem harmScale_row {z nd : ℕ} {a b : ℝ} {r i : ℕ} (hi : i < nd) : harmScale z nd a b (r * nd + i) = if r < z then a else b := by
  unfold harmScale
  rw [mul_comm, Nat.mul_add_div (by omega), Nat.div_eq_of_lt hi, add_zero]

theorem expands_scaled {h : List ℕ} {n m : ℕ} {P : ℕ → ℕ → ℝ} {U V : ℕ → ℝ} (H : Expands h n m P U V) (z : ℕ) (a b : ℝ) :
    Expands h n m P (fun i => harmScale z m a b i * U i) (fun i => harmScale z n a b i * V i) := by
  intro r hr i hi
  simp only [harmScale_row hi]
  rw [H r hr i hi, mul_sum]
  exact sum_congr rfl fun c hc => by rw [harmScale_row (mem_range.1 hc)]; ring

theorem projects_scaled {h : List ℕ} {n m : ℕ} {P : ℕ → ℕ → ℝ} {F G : ℕ → ℝ} (H : Projects h n m P F G) (z : ℕ) (a b : ℝ) :
    Projects h n m P (fun i => harmScale z n a b i * F i) (fun i => harmScale z m a b i * G i) := by
  intro r hr i hi
  simp only [harmScale_row hi]
  rw [H r hr i hi, mul_sum]
  exact sum_congr rfl fun c hc => by rw [harmScale_row (mem_range.1 hc)]; ring

/-- The work of a force on a motion does not depend on the coordinates. -/
theorem pairing {h : List ℕ} {n m : ℕ} {P : ℕ → ℕ → ℝ} {F G U V : ℕ → ℝ} (HF : Projects h n m P F G) (HU : Expands h n m P U V) :
    ∑ k ∈ range (numCoeff h * n), F k * V k = ∑ k ∈ range (numCoeff h * m), G k * U k := by
  rw [sum_range_blocks, sum_range_blocks]
  refine sum_congr rfl fun r hr => ?_
  have hr := mem_range.1 hr
  simp only [mul_comm n r, mul_comm m r]
  have e1 : ∀ i ∈ range n, F (r * n + i) * V (r * n + i) = ∑ b ∈ range m, F (r * n + i) * (P i b * U (r * m + b)) := fun i hi => by
    rw [HU r hr i (mem_range.1 hi), mul_sum]
  have e2 : ∀ a ∈ range m, G (r * m + a) * U (r * m + a) = ∑ i ∈ range n, F (r * n + i) * (P i a * U (r * m + a)) := fun a ha => by
    rw [HF r hr a (mem_range.1 ha), sum_mul]
    exact sum_congr rfl fun i _ => by ring
  rw [sum_congr rfl e1, sum_congr rfl e2, sum_comm]

/-- C119: the extended periodic motion concept: the equations of motion are projected, modal mass and phase condition are the
same numbers. -/
theorem C119_epmc (S S' : VibSys) (P : ℕ → ℕ → ℝ) (h : List ℕ) (hA : Admissible h) (h1 : FirstIsOne h) (Nt : ℕ) (tol : ℝ)
    (H : Reduces S S' P h Nt tol) (X X' Fl Fl' : ℕ → ℝ) (hX : Expands h S.nd S'.nd P X' X)
    (hw : ∀ j < 3, X (numCoeff h * S.nd + j) = X' (numCoeff h * S'.nd + j)) (hF : Projects h S.nd S'.nd P Fl Fl') :
    ∃ o o', epmcRes S X Fl h Nt tol true = .ok o ∧ epmcRes S' X' Fl' h Nt tol true = .ok o' ∧ Projects h S.nd S'.nd P o.R o'.R ∧
      ∀ j < 2, o'.R (numCoeff h * S'.nd + j) = o.R (numCoeff h * S.nd + j) := by
  have hp : zi h + 2 ≤ numCoeff h := by obtain ⟨t, rfl | rfl⟩ := h1 <;> (simp [zi, numCoeff]; try omega)
  obtain ⟨R, J, d, l1, l2, l3, l4, -⟩ := epmc_ok S hA hp Nt tol _ H.val.1 X Fl rfl
  obtain ⟨R', J', d', k1, k2, k3, k4, -⟩ := epmc_ok S' hA hp Nt tol _ H.val.2 X' Fl' rfl
  have w0 := hw 0 (by omega)
  rw [add_zero, add_zero] at w0
  have w1 := hw 1 (by omega)
  have w2 := hw 2 (by omega)
  have HS : Reduces (selfExcited S (X (numCoeff h * S.nd + 1))) (selfExcited S' (X' (numCoeff h * S'.nd + 1))) P h Nt tol := by
    refine ⟨H.mass, H.stiff, fun a ha b hb => ?_, H.forces⟩
    show S'.C a b - _ * S'.M a b = ∑ i ∈ range S.nd, ∑ j ∈ range S.nd, P i a * (S.C i j - _ * S.M i j) * P j b
    rw [H.damp a ha b hb, H.mass a ha b hb, w1, mul_sum, ← sum_sub_distrib]
    refine sum_congr rfl fun i _ => ?_
    rw [mul_sum, ← sum_sub_distrib]
    exact sum_congr rfl fun j _ => by ring
  have HZ : Expands h S.nd S'.nd P (epmcZ S' h X') (epmcZ S h X) := by
    intro r hr i hi
    have := expands_scaled (expands_sl hX) (zi h) 1 ((10:ℝ) ^ X (numCoeff h * S.nd + 2)) r hr i hi
    beta_reduce at this
    simp only [epmcZ, hcat, row_lt hr hi, if_true, epmcU]
    rw [this]
    exact sum_congr rfl fun b hb => by simp only [row_lt hr (mem_range.1 hb), if_true, w2]
  have g := hbmG_projects hA HS HZ (by
    show epmcZ S h X (numCoeff h * S.nd) = epmcZ S' h X' (numCoeff h * S'.nd)
    rw [epmcZ_at, epmcZ_at, w0])
  refine ⟨_, _, l1, k1, fun r hr a ha => ?_, fun j hj => ?_⟩
  · show R' _ = ∑ i ∈ range S.nd, P i a * R _
    have e : ∀ i ∈ range S.nd, P i a * R (r * S.nd + i)
        = P i a * hbmG (selfExcited S (X (numCoeff h * S.nd + 1))) (aftVal h Nt tol) h (epmcZ S h X) (r * S.nd + i)
          - P i a * (harmScale (zi h) S.nd 1 0 (r * S.nd + i) * Fl (r * S.nd + i)) := fun i hi => by
      rw [l2 _ (row_lt hr (mem_range.1 hi)), mul_sub]
    rw [k2 _ (row_lt hr ha), sum_congr rfl e, sum_sub_distrib]
    have e2 := projects_scaled hF (zi h) 1 0 r hr a ha
    beta_reduce at e2
    rw [e2]
    congr 1
    exact g r hr a ha
  · have : j = 0 ∨ j = 1 := by omega
    rcases this with rfl | rfl
    · show R' _ = R _
      rw [add_zero, add_zero, k3, l3, quad_expands H.mass hX (by omega), quad_expands H.mass hX (by omega)]
    · show R' _ = R _
      rw [k4, l4]
      exact (pairing (projects_scaled hF (zi h) 0 1) hX).symm

/-- The hypotheses of C119 are met: two equal masses, each with a cubic spring to the ground, coupled by a linear spring, moving
in phase (`P = (1, 1)ᵀ`) are one mass of twice the size. -/
example (tol a b w f : ℝ) :
    ∃ o o', hbmRes ⟨2, fun i j => if i = j then 1 else 0, fun i j => if i = j then 2 else -1, fun i j => if i = j then 0.1 else 0, none,
          [cubicNL 2 2 (fun i j => if i = j then 1 else 0) (fun i j => if i = j then 1 else 0) (fun _ => 1)]⟩
        (fun i => if i < 2 then a else if i < 4 then b else w) (fun i => if i < 2 then f else 0) [1] 16 tol true = .ok o ∧
      hbmRes ⟨1, fun _ _ => 2, fun _ _ => 2, fun _ _ => 0.2, none,
          [cubicNL 1 2 (rightMul 2 (fun i j => if i = j then 1 else 0) (fun _ _ => 1)) (leftMul 2 (fun _ _ => 1) (fun i j => if i = j then 1 else 0))
            (fun _ => 1)]⟩
        (fun i => if i = 0 then a else if i = 1 then b else w) (fun i => if i = 0 then 2 * f else 0) [1] 16 tol true = .ok o' ∧
      Projects [1] 2 1 (fun _ _ => 1) o.R o'.R := by
  have a1 : Admissible [1] := ⟨by simp, by decide, by decide⟩
  refine C119_hbm _ _ (fun _ _ => 1) [1] a1 16 tol ⟨?_, ?_, ?_, ?_⟩ _ _ _ _ ?_ ?_ ?_
  · intro a _ b _
    simp only [sum_range_succ, sum_range_zero]
    norm_num
  · intro a _ b _
    simp only [sum_range_succ, sum_range_zero]
    norm_num
  · intro a _ b _
    simp only [sum_range_succ, sum_range_zero]
    norm_num
  · exact List.Forall₂.cons (C119_instantaneous [1] a1 16 (by decide) ⟨8, rfl⟩ 2 1 2 _ _ _ _ _ _ tol) List.Forall₂.nil
  · intro r hr i hi
    have hr : r < 2 := hr
    have hi : i < 2 := hi
    interval_cases r <;> interval_cases i <;> simp
  · simp [numCoeff]
  · intro r hr i hi
    have hr : r < 2 := hr
    have hi : i < 1 := hi
    interval_cases r <;> interval_cases i <;> norm_num [sum_range_succ]
    ring

end

end TMD
