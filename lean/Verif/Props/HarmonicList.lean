import Verif.Props.HalfWave
import Verif.Lemmas.EpmcRom

/-!
# C117: the list of harmonics is only a choice of equations

The coefficients are stored in the order of the list `h` (harmonic.py:120-230, vibration_system.py:398-483). Which harmonics
are listed, and in which order, decides how many equations there are and where they are stored, but not what they say:
for one motion written with two lists, the equations of the harmonics in both lists agree. `SameMotion` and `SameOn` are the
two notions.
-/

namespace TMD

open Spec Finset

noncomputable section

/-- `a` with the list `h` and `b` with the list `h'` are the same motion of `nd` degrees of freedom. -/
def SameMotion (h h' : List ℕ) (nd : ℕ) (a b : ℕ → ℝ) : Prop :=
  ∀ d < nd, ∀ τ, series h (fun r => a (r * nd + d)) τ = series h' (fun r => b (r * nd + d)) τ

/-- `a` with the list `h` and `b` with the list `h'` agree in the harmonics of both lists. -/
def SameOn (h h' : List ℕ) (nd : ℕ) (a b : ℕ → ℝ) : Prop :=
  ∀ d < nd, ∀ k ∈ h, k ∈ h' → coefOf h (fun r => a (r * nd + d)) k = coefOf h' (fun r => b (r * nd + d)) k

/-- A nonlinear force that can be evaluated with both lists and gives the same motion the same harmonics. -/
structure KeepsList (f : NLForce) (nd : ℕ) (h h' : List ℕ) (Nt : ℕ) (tol : ℝ) : Prop where
  left : ∀ U w, ∃ o, f.aft U w h Nt tol = .ok o
  right : ∀ V w, ∃ o, f.aft V w h' Nt tol = .ok o
  same : ∀ U V w o o', SameMotion h h' nd U V → f.aft U w h Nt tol = .ok o → f.aft V w h' Nt tol = .ok o' → SameOn h h' nd o.F o'.F

/-- The same for the force that `aft` of a class reports. -/
structure ForceKeepsList (f : PForce) (nd : ℕ) (h h' : List ℕ) (Nt : ℕ) : Prop where
  left : ∀ U w, ∃ F, f.aftF U w h Nt = .ok F
  right : ∀ V w, ∃ F, f.aftF V w h' Nt = .ok F
  same : ∀ U V w F G, SameMotion h h' nd U V → f.aftF U w h Nt = .ok F → f.aftF V w h' Nt = .ok G → SameOn h h' nd F G

/-! ## Lemmas -/

/-- C117: two lists of coefficients are the same motion if and only if they give every harmonic the same coefficients; a
harmonic that is not listed has none. -/
theorem C117_same_motion (h h' : List ℕ) (hn : h.Nodup) (hn' : h'.Nodup) (nd : ℕ) (a b : ℕ → ℝ) :
    SameMotion h h' nd a b ↔
      ∀ d < nd, ∀ k, coefOf h (fun r => a (r * nd + d)) k = coefOf h' (fun r => b (r * nd + d)) k := by
  constructor
  · intro H d hd k
    set N := 2 * h.sum + 2 * h'.sum + 2 * k + 1 with hN
    rw [← dftCoef_series (N := N) (fun m hm => by have := le_sum_of_mem hm; omega) (by omega) hn,
      ← dftCoef_series (N := N) (fun m hm => by have := le_sum_of_mem hm; omega) (by omega) hn']
    congr 1
    funext j
    exact H d hd _
  · intro H d hd τ
    have l : ∀ k ∈ h, k ≤ h.sum + h'.sum := fun k hk => by have := le_sum_of_mem hk; omega
    have l' : ∀ k ∈ h', k ≤ h.sum + h'.sum := fun k hk => by have := le_sum_of_mem hk; omega
    rw [series_eq_coefOf hn _ τ l, series_eq_coefOf hn' _ τ l', H d hd 0]
    congr 1
    exact sum_congr rfl fun k _ => by rw [H d hd (k+1)]

/-- The dynamic stiffness of one harmonic. -/
def dynCoef (nd : ℕ) (M C K : ℕ → ℕ → ℝ) (w : ℝ) (k : ℕ) (p : ℕ → ℝ × ℝ) (d : ℕ) : ℝ × ℝ :=
  (∑ e ∈ range nd, ((k * w) * C d e * (p e).2 + (K d e - (k * w) ^ 2 * M d e) * (p e).1),
   ∑ e ∈ range nd, (-((k * w) * C d e * (p e).1) + (K d e - (k * w) ^ 2 * M d e) * (p e).2))

theorem dynCoef_congr {nd : ℕ} {M C K : ℕ → ℕ → ℝ} {w : ℝ} {k : ℕ} {p q : ℕ → ℝ × ℝ} (H : ∀ e < nd, p e = q e) (d : ℕ) :
    dynCoef nd M C K w k p d = dynCoef nd M C K w k q d := by
  unfold dynCoef
  congr 1 <;> exact sum_congr rfl fun e he => by rw [H e (mem_range.1 he)]

theorem coefOf_stiff {h : List ℕ} (hh : Admissible h) (nd : ℕ) (M C K : ℕ → ℕ → ℝ) (w : ℝ) (U : ℕ → ℝ) {d : ℕ} (hd : d < nd)
    {k : ℕ} (hk : k ∈ h) :
    coefOf h (fun r => matVec (numCoeff h * nd) (hsE nd M C K w h false) U (r * nd + d)) k
      = dynCoef nd M C K w k (fun e => coefOf h (fun r => U (r * nd + e)) k) d := by
  unfold dynCoef
  rcases mem_cases hh hk with ⟨hz, rfl⟩ | ⟨i, hi, rfl⟩
  · have e := hsE_mulVec_zero (nd := nd) M C K w (h := h) hz hd U false
    simp only [mul_zero, zero_add] at e
    simp only [coefOf_zero hh.zero_first, meanCoef, hz, if_true, zero_mul, zero_add, e]
    simp
  · have ec := hsE_mulVec_cos (nd := nd) M C K w hh.zero_first hi hd U false
    have es := hsE_mulVec_sin (nd := nd) M C K w hh.zero_first hi hd U false
    simp only [mul_comm nd, Bool.false_eq_true, if_false] at ec es
    simp only [coefOf_row hh _ hi, ec, es]

theorem localMotion_same {h h' : List ℕ} {N : ℕ} {U V : ℕ → ℝ} (H : SameMotion h h' N U V) (Q : ℕ → ℕ → ℝ) (d : ℕ) :
    localMotion N Q h U d = localMotion N Q h' V d := by
  funext τ
  unfold localMotion
  exact sum_congr rfl fun e he => by rw [H e (mem_range.1 he) τ]

theorem isForceDFT_same {h h' : List ℕ} {Nt N m : ℕ} {T : ℕ → ℕ → ℝ} {f g : ℕ → ℕ → ℝ} {F G : ℕ → ℝ}
    (hfg : ∀ j < Nt, ∀ d, g j d = f j d) (hF : IsForceDFT N m T h Nt f F) (hG : IsForceDFT N m T h' Nt g G) : SameOn h h' N F G := by
  intro d hd k hk hk'
  rw [hF d hd k hk, hG d hd k hk']
  exact dft_congr fun j hj => sum_congr rfl fun e _ => by rw [hfg j hj]

/-! ## The classes -/

section classes

variable (h h' : List ℕ) (hA : Admissible h) (hA' : Admissible h') (Nt : ℕ) (hNt : ∀ k ∈ h, 2*k + 1 < Nt)
  (hNt' : ∀ k ∈ h', 2*k + 1 < Nt) (heven : Even Nt)
include hA hA' hNt hNt' heven

/-- C117: instantaneous forces of any law. -/
theorem C117_instantaneous (N m : ℕ) (Q T : ℕ → ℕ → ℝ) (loc : ℕ → ℝ → ℝ → Loc) (force : (ℕ → ℝ) → (ℕ → ℝ) × (ℕ → ℕ → ℝ)) (tol : ℝ) :
    KeepsList (instForce N m Q T loc force) N h h' Nt tol := by
  have k := C24_is_dft h hA Nt hNt heven N m Q T loc
  have k' := C24_is_dft h' hA' Nt hNt' heven N m Q T loc
  refine ⟨fun U w => ⟨_, (k U w).choose_spec.1⟩, fun V w => ⟨_, (k' V w).choose_spec.1⟩, fun U V w o o' H e e' => ?_⟩
  obtain ⟨p, h1, h2⟩ := k U w
  obtain ⟨p', h3, h4⟩ := k' V w
  cases h1.symm.trans e
  cases h3.symm.trans e'
  exact isForceDFT_same (fun j _ d => by rw [localMotion_same H]) h2 h4

/-- C117: the coupled polynomial force. -/
theorem C117_polynomial (N m cnl : ℕ) (Q T E : ℕ → ℕ → ℝ) (qq : ℕ → ℕ → ℕ) :
    ForceKeepsList (.poly N m cnl Q T E qq) N h h' Nt := by
  have k : ∀ U w, ∃ F, (PForce.poly N m cnl Q T E qq).aftF U w h Nt = .ok F ∧ IsForceDFT N m T h Nt _ F := fun U w => by
    obtain ⟨o, h1, h2⟩ := C24_polynomial_is_dft h hA Nt hNt heven N m cnl Q T E qq U w
    refine ⟨o.F, ?_, h2⟩
    show aftForce (genPolyAft N m cnl Q T E qq U w h Nt) = _
    rw [h1]; rfl
  have k' : ∀ U w, ∃ F, (PForce.poly N m cnl Q T E qq).aftF U w h' Nt = .ok F ∧ IsForceDFT N m T h' Nt _ F := fun U w => by
    obtain ⟨o, h1, h2⟩ := C24_polynomial_is_dft h' hA' Nt hNt' heven N m cnl Q T E qq U w
    refine ⟨o.F, ?_, h2⟩
    show aftForce (genPolyAft N m cnl Q T E qq U w h' Nt) = _
    rw [h1]; rfl
  refine ⟨fun U w => ⟨_, (k U w).choose_spec.1⟩, fun V w => ⟨_, (k' V w).choose_spec.1⟩, fun U V w o o' H e e' => ?_⟩
  obtain ⟨p, h1, h2⟩ := k U w
  obtain ⟨p', h3, h4⟩ := k' V w
  cases h1.symm.trans e
  cases h3.symm.trans e'
  exact isForceDFT_same (fun j _ d => by simp only [localMotion_same H]) h2 h4

omit hNt hNt' heven in
theorem unlOf_same {N : ℕ} {U V : ℕ → ℝ} (h0 : 0 ∈ h) (h0' : 0 ∈ h') (H : SameMotion h h' N U V) (Q : ℕ → ℕ → ℝ) :
    unlOf N Q U 0 = unlOf N Q V 0 := by
  have hz : zi h = 1 := by rw [zi_mem hA, if_pos h0]
  have hz' : zi h' = 1 := by rw [zi_mem hA', if_pos h0']
  funext d
  unfold unlOf matMul
  refine sum_congr rfl fun e he => ?_
  have := (C117_same_motion h h' hA.nodup hA'.nodup N U V).1 H e (mem_range.1 he) 0
  rw [coefOf_zero hA.zero_first, coefOf_zero hA'.zero_first] at this
  simp only [meanCoef, hz, hz', if_true] at this
  beta_reduce
  rw [show U (0 * N + e) = V (0 * N + e) from (Prod.ext_iff.1 this).1]

theorem jaxAft_list (hh : 1 < numCoeff h) (hh' : 1 < numCoeff h') (N m : ℕ) (Q T : ℕ → ℕ → ℝ) {hist : TS ℕ → (ℕ → ℝ) → ℕ → ℕ → ℝ}
    (hf : FollowsDelay Nt hist) (U V : ℕ → ℝ) (H : SameMotion h h' N U V) :
    ∃ F G, jaxAft N m Q T hist U h Nt = .ok F ∧ jaxAft N m Q T hist V h' Nt = .ok G ∧ SameOn h h' N F G := by
  obtain ⟨W, w⟩ := gfc_linear hA (fun k hk => by have := hNt k hk; omega : ∀ k ∈ h, k < Nt)
  obtain ⟨W', w'⟩ := gfc_linear hA' (fun k hk => by have := hNt' k hk; omega : ∀ k ∈ h', k < Nt)
  set a := hist (sampledDisp N Q h U Nt) (unlOf N Q U 0) with ha
  set b := hist (sampledDisp N Q h' V Nt) (unlOf N Q V 0) with hb
  obtain ⟨x, x1, -, x2⟩ := w a
  obtain ⟨y, y1, -, y2⟩ := w' b
  refine ⟨_, _, jaxAft_F hA hNt heven hh N m Q T hist U x1, jaxAft_F hA' hNt' heven hh' N m Q T hist V y1, ?_⟩
  have hF : IsForceDFT N m T h Nt a (toGlobal N m T x) := isForceDFT_of N m T h Nt a x x2
  have hG : IsForceDFT N m T h' Nt b (toGlobal N m T y) := isForceDFT_of N m T h' Nt b y y2
  have mm : ∀ t < Nt, (t + 0) % Nt = t := fun t ht => Nat.mod_eq_of_lt ht
  obtain ⟨c, c1, c2⟩ := hf 0 (sampledDisp N Q h U Nt).val (sampledDisp N Q h' V Nt).val (unlOf N Q U 0) (unlOf N Q V 0)
    (fun t ht d => by
      rw [mm t ht]
      show localMotion N Q h' V d _ = localMotion N Q h U d _
      rw [localMotion_same H])
  intro d hd k hk hk'
  rw [hF d hd k hk, hG d hd k hk']
  have e : dft Nt (fun j => ∑ e ∈ range m, T d e * b j e) k
      = dft Nt (fun j => (∑ e ∈ range m, T d e * a j e) + ∑ e ∈ range m, T d e * c e) k :=
    dft_congr fun j hj => by
      rw [← sum_add_distrib]
      refine sum_congr rfl fun e _ => ?_
      have := c1 j hj e
      rw [mm j hj] at this
      rw [hb, ha, ← mul_add]
      congr 1
  rw [e]
  by_cases hk0 : k = 0
  · have : ∀ d, c d = 0 := c2 (unlOf_same h h' hA hA' (hk0 ▸ hk) (hk0 ▸ hk') H Q)
    simp [this]
  · exact (dft_add_const hk0 (by have := hNt k hk; omega) _ _).symm

/-- C117: the friction elements of JAX, although without harmonic 0 the slider starts from the first row of whatever list. -/
theorem C117_friction (hh : 1 < numCoeff h) (hh' : 1 < numCoeff h') (N m : ℕ) (Q T : ℕ → ℕ → ℝ) (kt kn mu gap Fs : ℝ)
    (hmu : 0 ≤ mu) (hF : 0 ≤ Fs) (u0 : EdfU0) :
    ForceKeepsList (.jaxJenkins N Q T kt Fs u0) N h h' Nt ∧ ForceKeepsList (.edf2 N m Q T kt kn mu gap u0) N h h' Nt ∧
      ForceKeepsList (.edf3 N m Q T kt kn mu gap u0) N h h' Nt := by
  have h0 : 0 < Nt := by
    obtain ⟨k, hk⟩ := List.exists_mem_of_ne_nil h hA.ne
    have := hNt k hk; omega
  have key : ∀ (p : PForce) (m : ℕ) (hist : TS ℕ → (ℕ → ℝ) → ℕ → ℕ → ℝ), FollowsDelay Nt hist →
      (∀ U w g, p.aftF U w g Nt = jaxAft N m Q T hist U g Nt) → ForceKeepsList p N h h' Nt := by
    intro p m hist hf hp
    have k := fun U V H => jaxAft_list h h' hA hA' Nt hNt hNt' heven hh hh' N m Q T hf U V H
    have l := fun U => jaxAft_list h h hA hA Nt hNt hNt heven hh hh N m Q T hf U U (fun _ _ _ => rfl)
    have l' := fun U => jaxAft_list h' h' hA' hA' Nt hNt' hNt' heven hh' hh' N m Q T hf U U (fun _ _ _ => rfl)
    refine ⟨fun U w => ?_, fun V w => ?_, fun U V w F G H e e' => ?_⟩
    · obtain ⟨F, -, h1, -⟩ := l U
      exact ⟨F, by rw [hp, h1]⟩
    · obtain ⟨F, -, h1, -⟩ := l' V
      exact ⟨F, by rw [hp, h1]⟩
    · obtain ⟨F', G', h1, h2, h3⟩ := k U V H
      rw [hp] at e e'
      cases h1.symm.trans e
      cases h2.symm.trans e'
      exact h3
  exact ⟨key _ 1 _ (follows_jenkins hF h0 u0) fun _ _ _ => rfl, key _ m _ (follows_edf2 hmu h0 u0) fun _ _ _ => rfl,
    key _ m _ (follows_edf3 hmu h0 u0) fun _ _ _ => rfl⟩

end classes

/-- C117: how the force of a class enters a system. -/
theorem C117_system {h h' : List ℕ} {N Nt : ℕ} {tol : ℝ} (f : NLForce) (p : PForce)
    (hfp : ∀ U w, aftForce (f.aft U w h Nt tol) = p.aftF U w h Nt)
    (hfp' : ∀ U w, aftForce (f.aft U w h' Nt tol) = p.aftF U w h' Nt) (hp : ForceKeepsList p N h h' Nt) :
    KeepsList f N h h' Nt tol := by
  have ok : ∀ {x : Except Err AftOut} {F : ℕ → ℝ}, aftForce x = .ok F → ∃ o, x = .ok o ∧ o.F = F := by
    intro x F hx
    cases x with
    | error e => simp [aftForce] at hx
    | ok o => exact ⟨o, rfl, by simpa [aftForce] using hx⟩
  refine ⟨fun U w => ?_, fun V w => ?_, fun U V w o o' H e e' => ?_⟩
  · obtain ⟨F, hF⟩ := hp.left U w
    obtain ⟨o, ho, -⟩ := ok ((hfp U w).trans hF)
    exact ⟨o, ho⟩
  · obtain ⟨F, hF⟩ := hp.right V w
    obtain ⟨o, ho, -⟩ := ok ((hfp' V w).trans hF)
    exact ⟨o, ho⟩
  · exact hp.same U V w _ _ H (by rw [← hfp, e]; rfl) (by rw [← hfp', e']; rfl)

/-! ## Systems -/

theorem KeepsList.val {f : NLForce} {nd : ℕ} {h h' : List ℕ} {Nt : ℕ} {tol : ℝ} (hf : KeepsList f nd h h' Nt tol) (U : ℕ → ℝ) (w : ℝ) :
    f.aft U w h Nt tol = .ok (aftVal h Nt tol f U w) ∧ f.aft U w h' Nt tol = .ok (aftVal h' Nt tol f U w) := by
  obtain ⟨o, h1⟩ := hf.left U w
  obtain ⟨o', h2⟩ := hf.right U w
  exact ⟨by simp only [aftVal, h1], by simp only [aftVal, h2]⟩

theorem coefOf_hbmG (S : VibSys) {h : List ℕ} (hA : Admissible h) (A : NLForce → (ℕ → ℝ) → ℝ → AftOut) (Z : ℕ → ℝ) {d : ℕ}
    (hd : d < S.nd) {k : ℕ} (hk : k ∈ h) :
    coefOf h (fun r => hbmG S A h Z (r * S.nd + d)) k
      = dynCoef S.nd S.M S.C S.K (Z (numCoeff h * S.nd)) k (fun e => coefOf h (fun r => Z (r * S.nd + e)) k) d
        + (S.forces.map fun f => coefOf h (fun r => (A f (sl 0 (numCoeff h * S.nd) Z) (Z (numCoeff h * S.nd))).F (r * S.nd + d)) k).sum := by
  unfold hbmG
  rw [coefOf_add, coefOf_list, coefOf_stiff hA _ _ _ _ _ _ hd hk]
  congr 1
  exact dynCoef_congr (fun e he => coefOf_rows (fun r hr => sl_zero (row_lt hr he) _) k) d

theorem sameMotion_sl {h h' : List ℕ} {nd : ℕ} {a b : ℕ → ℝ} (H : SameMotion h h' nd a b) :
    SameMotion h h' nd (sl 0 (numCoeff h * nd) a) (sl 0 (numCoeff h' * nd) b) := by
  intro d hd τ
  rw [series_congr (c' := fun r => a (r * nd + d)) (fun r hr => sl_zero (row_lt hr hd) _),
    series_congr (c' := fun r => b (r * nd + d)) (fun r hr => sl_zero (row_lt hr hd) _)]
  exact H d hd τ

theorem hbmG_same (S : VibSys) {h h' : List ℕ} (hA : Admissible h) (hA' : Admissible h') {Nt : ℕ} {tol : ℝ}
    (hf : ∀ f ∈ S.forces, KeepsList f S.nd h h' Nt tol) {Z Z' : ℕ → ℝ} (hZ : SameMotion h h' S.nd Z Z')
    (hw : Z' (numCoeff h' * S.nd) = Z (numCoeff h * S.nd)) :
    SameOn h h' S.nd (hbmG S (aftVal h Nt tol) h Z) (hbmG S (aftVal h' Nt tol) h' Z') := by
  intro d hd k hk hk'
  have c := (C117_same_motion h h' hA.nodup hA'.nodup S.nd Z Z').1 hZ
  rw [coefOf_hbmG S hA _ Z hd hk, coefOf_hbmG S hA' _ Z' hd hk', hw]
  congr 1
  · exact dynCoef_congr (fun e he => c e he k) d
  · congr 1
    refine List.map_congr_left fun f hfm => ?_
    exact (hf f hfm).same _ _ _ _ _ (sameMotion_sl hZ) ((hf f hfm).val _ _).1 ((hf f hfm).val _ _).2 d hd k hk hk'

theorem coefOf_sub (h : List ℕ) (a b : ℕ → ℝ) (k : ℕ) :
    coefOf h (fun r => a r - b r) k = coefOf h a k - coefOf h b k := by
  have := coefOf_add h a (fun r => - b r) k
  rw [coefOf_neg] at this
  simpa only [sub_eq_add_neg] using this

/-- C117: for one motion and one forcing written with two lists, the harmonic balance equations of the harmonics in both
lists have the same residuals. -/
theorem C117_hbm (h h' : List ℕ) (hA : Admissible h) (hA' : Admissible h') (Nt : ℕ) (tol : ℝ) (S : VibSys)
    (hf : ∀ f ∈ S.forces, KeepsList f S.nd h h' Nt tol) (Z Z' Fl Fl' : ℕ → ℝ) (hZ : SameMotion h h' S.nd Z Z')
    (hw : Z' (numCoeff h' * S.nd) = Z (numCoeff h * S.nd)) (hF : SameOn h h' S.nd Fl Fl') :
    ∃ o o', hbmRes S Z Fl h Nt tol true = .ok o ∧ hbmRes S Z' Fl' h' Nt tol true = .ok o' ∧ SameOn h h' S.nd o.R o'.R := by
  refine ⟨_, _, hbmRes_ok S hA Nt tol _ (fun f hm U w => ((hf f hm).val U w).1) Z Fl,
    hbmRes_ok S hA' Nt tol _ (fun f hm U w => ((hf f hm).val U w).2) Z' Fl', fun d hd k hk hk' => ?_⟩
  show coefOf h (fun r => hbmG _ _ _ _ _ - _) k = coefOf h' (fun r => hbmG _ _ _ _ _ - _) k
  rw [coefOf_sub, coefOf_sub, hF d hd k hk hk', hbmG_same S hA hA' hf hZ hw d hd k hk hk']

theorem zero_of_coefOf {h : List ℕ} (hA : Admissible h) {nd : ℕ} {R : ℕ → ℝ} :
    (∀ i < numCoeff h * nd, R i = 0) ↔ ∀ d < nd, ∀ k ∈ h, coefOf h (fun r => R (r * nd + d)) k = (0, 0) := by
  have z : ∀ k, coefOf h (fun _ => 0) k = (0, 0) := fun k => by
    have := coefOf_list h ([] : List ℕ) (fun _ _ => 0) k
    simp only [List.map_nil, List.sum_nil] at this
    rw [this]; rfl
  constructor
  · intro H d hd k _
    rw [← z k]
    exact coefOf_rows (fun r hr => H _ (row_lt hr hd)) k
  · intro H
    exact eq_of_coefOf hA (G := fun _ => 0) fun d hd k hk => by rw [H d hd k hk, z k]

/-- C117: leaving out harmonics that the motion does not have keeps a solution a solution. -/
theorem C117_leave_out (h h' : List ℕ) (hA : Admissible h) (hA' : Admissible h') (hsub : ∀ k ∈ h', k ∈ h) (Nt : ℕ) (tol : ℝ) (S : VibSys)
    (hf : ∀ f ∈ S.forces, KeepsList f S.nd h h' Nt tol) (Z Z' Fl Fl' : ℕ → ℝ) (hZ : SameMotion h h' S.nd Z Z')
    (hw : Z' (numCoeff h' * S.nd) = Z (numCoeff h * S.nd)) (hF : SameOn h h' S.nd Fl Fl') :
    ∃ o o', hbmRes S Z Fl h Nt tol true = .ok o ∧ hbmRes S Z' Fl' h' Nt tol true = .ok o' ∧
      ((∀ i < numCoeff h * S.nd, o.R i = 0) → ∀ i < numCoeff h' * S.nd, o'.R i = 0) := by
  obtain ⟨o, o', h1, h2, h3⟩ := C117_hbm h h' hA hA' Nt tol S hf Z Z' Fl Fl' hZ hw hF
  refine ⟨o, o', h1, h2, fun H => ?_⟩
  rw [zero_of_coefOf hA] at H
  rw [zero_of_coefOf hA']
  intro d hd k hk
  rw [← h3 d hd k (hsub k hk) hk, H d hd k (hsub k hk)]

/-- C117: the order of the list does not matter. -/
theorem C117_order (h h' : List ℕ) (hA : Admissible h) (hA' : Admissible h') (hp : ∀ k, k ∈ h ↔ k ∈ h') (Nt : ℕ) (tol : ℝ) (S : VibSys)
    (hf : ∀ f ∈ S.forces, KeepsList f S.nd h h' Nt tol) (Z Z' Fl Fl' : ℕ → ℝ) (hZ : SameMotion h h' S.nd Z Z')
    (hw : Z' (numCoeff h' * S.nd) = Z (numCoeff h * S.nd)) (hF : SameOn h h' S.nd Fl Fl') :
    ∃ o o', hbmRes S Z Fl h Nt tol true = .ok o ∧ hbmRes S Z' Fl' h' Nt tol true = .ok o' ∧ SameMotion h h' S.nd o.R o'.R ∧
      ((∀ i < numCoeff h * S.nd, o.R i = 0) ↔ ∀ i < numCoeff h' * S.nd, o'.R i = 0) := by
  obtain ⟨o, o', h1, h2, h3⟩ := C117_hbm h h' hA hA' Nt tol S hf Z Z' Fl Fl' hZ hw hF
  have e : ∀ d < S.nd, ∀ k, coefOf h (fun r => o.R (r * S.nd + d)) k = coefOf h' (fun r => o'.R (r * S.nd + d)) k := fun d hd k => by
    by_cases hk : k ∈ h
    · exact h3 d hd k hk ((hp k).1 hk)
    · rw [coefOf_not_mem hk, coefOf_not_mem fun hk' => hk ((hp k).2 hk')]
  refine ⟨o, o', h1, h2, (C117_same_motion h h' hA.nodup hA'.nodup S.nd _ _).2 e, ?_⟩
  rw [zero_of_coefOf hA, zero_of_coefOf hA']
  exact ⟨fun H d hd k hk => by rw [← e d hd k, H d hd k ((hp k).2 hk)], fun H d hd k hk => by rw [e d hd k, H d hd k ((hp k).1 hk)]⟩

/-- C117: with symmetric forces (C116) it is enough to solve for the odd harmonics: a solution with a list that has the odd
harmonics of `h` is a solution with `h`. -/
theorem C117_odd_suffices (h h' : List ℕ) (hA : Admissible h) (hA' : Admissible h') (hodd : ∀ k ∈ h, Odd k → k ∈ h') (Nt : ℕ) (tol : ℝ)
    (S : VibSys) (hf : ∀ f ∈ S.forces, KeepsList f S.nd h h' Nt tol)
    (hs : ∀ f ∈ S.forces, KeepsMirror f S.nd h Nt tol ∧ KeepsDelay f S.nd h Nt tol Real.pi) (Z Z' Fl Fl' : ℕ → ℝ)
    (hZ : SameMotion h h' S.nd Z Z') (hw : Z' (numCoeff h' * S.nd) = Z (numCoeff h * S.nd)) (hF : SameOn h h' S.nd Fl Fl')
    (hZw : HalfWave h S.nd Z) (hFw : HalfWave h S.nd Fl) :
    ∃ o o', hbmRes S Z Fl h Nt tol true = .ok o ∧ hbmRes S Z' Fl' h' Nt tol true = .ok o' ∧
      ((∀ i < numCoeff h' * S.nd, o'.R i = 0) → ∀ i < numCoeff h * S.nd, o.R i = 0) := by
  obtain ⟨o, o', h1, h2, h3⟩ := C117_hbm h h' hA hA' Nt tol S hf Z Z' Fl Fl' hZ hw hF
  obtain ⟨p, k1, -, k2⟩ := C116_hbm h hA Nt tol S hs Z Fl hZw hFw
  rw [h1] at k1; cases k1
  refine ⟨o, o', h1, h2, fun H => ?_⟩
  rw [zero_of_coefOf hA'] at H
  rw [zero_of_coefOf hA]
  intro d hd k hk
  rcases Nat.even_or_odd k with he | ho
  · exact k2 d hd k hk he
  · rw [h3 d hd k hk (hodd k hk ho), H d hd k (hodd k hk ho)]

theorem coefOf_harmScale {h : List ℕ} (hA : Admissible h) {nd : ℕ} (a b : ℝ) (X : ℕ → ℝ) {d : ℕ} (hd : d < nd) (k : ℕ) :
    coefOf h (fun r => harmScale (zi h) nd a b (r * nd + d) * X (r * nd + d)) k
      = (if k = 0 then a else b) • coefOf h (fun r => X (r * nd + d)) k := by
  have hrow : ∀ R, harmScale (zi h) nd a b (R * nd + d) = if R < zi h then a else b := fun R => by
    unfold harmScale
    rw [show (R * nd + d) / nd = R by
      rw [mul_comm, Nat.mul_add_div (by omega), Nat.div_eq_of_lt hd, add_zero]]
  simp only [hrow]
  by_cases hk : k ∈ h
  · rcases mem_cases hA hk with ⟨hz, rfl⟩ | ⟨i, hi, rfl⟩
    · rw [coefOf_zero hA.zero_first, coefOf_zero hA.zero_first]
      simp [meanCoef, hz]
    · have h1 := mem_Ico.1 hi
      have h2 := zi_le_one h
      have h3 : h.getD i 0 ≠ 0 := by
        have := getD_ne_zero hA.zero_first hi
        exact this
      rw [coefOf_row hA _ hi, coefOf_row hA _ hi, if_neg h3, if_neg (by omega), if_neg (by omega)]
      rfl
  · rw [coefOf_not_mem hk, coefOf_not_mem hk]; simp

/-- C117: the equations of motion and the modal mass of the extended periodic motion concept. Both lists have 1 as first
harmonic after a possible 0, whose coefficients the modal mass is made of. -/
theorem C117_epmc (h h' : List ℕ) (hA : Admissible h) (hA' : Admissible h') (h1 : FirstIsOne h) (h1' : FirstIsOne h') (Nt : ℕ) (tol : ℝ)
    (S : VibSys) (hf : ∀ f ∈ S.forces, KeepsList f S.nd h h' Nt tol) (X X' Fl Fl' : ℕ → ℝ) (hX : SameMotion h h' S.nd X X')
    (hw : ∀ j < 3, X' (numCoeff h' * S.nd + j) = X (numCoeff h * S.nd + j)) (hF : SameOn h h' S.nd Fl Fl') :
    ∃ o o', epmcRes S X Fl h Nt tol true = .ok o ∧ epmcRes S X' Fl' h' Nt tol true = .ok o' ∧ SameOn h h' S.nd o.R o'.R ∧
      o'.R (numCoeff h' * S.nd) = o.R (numCoeff h * S.nd) := by
  have hp : zi h + 2 ≤ numCoeff h := by obtain ⟨t, rfl | rfl⟩ := h1 <;> (simp [zi, numCoeff]; try omega)
  have hp' : zi h' + 2 ≤ numCoeff h' := by obtain ⟨t, rfl | rfl⟩ := h1' <;> (simp [zi, numCoeff]; try omega)
  obtain ⟨R, J, d, l1, l2, l3, -⟩ := epmc_ok S hA hp Nt tol _ (fun f hm U w => ((hf f hm).val U w).1) X Fl rfl
  obtain ⟨R', J', d', k1, k2, k3, -⟩ := epmc_ok S hA' hp' Nt tol _ (fun f hm U w => ((hf f hm).val U w).2) X' Fl' rfl
  have w0 := hw 0 (by omega)
  rw [add_zero, add_zero] at w0
  have w1 := hw 1 (by omega)
  have w2 := hw 2 (by omega)
  have c := (C117_same_motion h h' hA.nodup hA'.nodup S.nd X X').1 hX
  have cZ : ∀ {g : List ℕ} (hg : Admissible g) (Y : ℕ → ℝ) {d : ℕ} (_ : d < S.nd) (k : ℕ), coefOf g (fun r => epmcZ S g Y (r * S.nd + d)) k
      = (if k = 0 then 1 else (10:ℝ) ^ Y (numCoeff g * S.nd + 2)) • coefOf g (fun r => Y (r * S.nd + d)) k := by
    intro g hg Y d hd k
    rw [← coefOf_harmScale hg _ _ _ hd]
    refine coefOf_rows (fun r hr => ?_) k
    simp only [epmcZ, hcat, row_lt hr hd, if_true, epmcU, sl_zero (row_lt hr hd)]
  refine ⟨_, _, l1, k1, fun d hd k hk hk' => ?_, ?_⟩
  · have hZ : SameMotion h h' S.nd (epmcZ S h X) (epmcZ S h' X') :=
      (C117_same_motion h h' hA.nodup hA'.nodup S.nd _ _).2 fun d hd k => by rw [cZ hA X hd, cZ hA' X' hd, w2, c d hd k]
    have g := hbmG_same (selfExcited S (X (numCoeff h * S.nd + 1))) hA hA' hf hZ (by
      show epmcZ S h' X' (numCoeff h' * S.nd) = epmcZ S h X (numCoeff h * S.nd)
      rw [epmcZ_at, epmcZ_at, w0]) d hd k hk hk'
    show coefOf h (fun r => R (r * S.nd + d)) k = coefOf h' (fun r => R' (r * S.nd + d)) k
    rw [coefOf_rows (fun r hr => l2 _ (row_lt hr hd)), coefOf_rows (h := h') (fun r hr => k2 _ (row_lt hr hd)), coefOf_sub, coefOf_sub,
      coefOf_harmScale hA _ _ _ hd, coefOf_harmScale hA' _ _ _ hd, hF d hd k hk hk', w1]
    congr 1
  · show R' _ = R _
    rw [k3, l3]
    have f1 := fun e (he : e < S.nd) => c e he 1
    simp only [coefOf_firstIsOne h1, coefOf_firstIsOne h1', Prod.mk.injEq, add_comm 1] at f1
    congr 2
    · unfold quad ctrl
      exact sum_congr rfl fun a ha => by
        rw [(f1 a (mem_range.1 ha)).1]
        congr 1
        exact sum_congr rfl fun b hb => by rw [(f1 b (mem_range.1 hb)).1]
    · unfold quad ctrl
      exact sum_congr rfl fun a ha => by
        rw [(f1 a (mem_range.1 ha)).2]
        congr 1
        exact sum_congr rfl fun b hb => by rw [(f1 b (mem_range.1 hb)).2]

/-- C117: in the extended periodic motion concept the order does matter for the modal mass: it is that of the first harmonic in
the list, so `[1, 3]` and `[3, 1]` normalise one motion differently. -/
theorem C117_epmc_order (Nt : ℕ) (tol : ℝ) :
    ∃ o o', epmcRes ⟨1, fun _ _ => 1, fun _ _ => 1, fun _ _ => 0, none, []⟩ (fun i => if i = 0 then 1 else 0) (fun _ => 0) [1, 3] Nt tol true = .ok o ∧
      epmcRes ⟨1, fun _ _ => 1, fun _ _ => 1, fun _ _ => 0, none, []⟩ (fun i => if i = 2 then 1 else 0) (fun _ => 0) [3, 1] Nt tol true = .ok o' ∧
      SameMotion [1, 3] [3, 1] 1 (fun i => if i = 0 then 1 else 0) (fun i => if i = 2 then 1 else 0) ∧ o.R 4 = 0 ∧ o'.R 4 = -1 := by
  have a1 : Admissible [1, 3] := ⟨by simp, by decide, by decide⟩
  have a2 : Admissible [3, 1] := ⟨by simp, by decide, by decide⟩
  obtain ⟨R, J, d, h1, -, h2, -⟩ := epmc_ok ⟨1, fun _ _ => 1, fun _ _ => 1, fun _ _ => 0, none, []⟩ a1 (by decide) Nt tol
    (aftVal [1, 3] Nt tol) (by simp) (fun i => if i = 0 then 1 else 0) (fun _ => 0) rfl
  obtain ⟨R', J', d', k1, -, k2, -⟩ := epmc_ok ⟨1, fun _ _ => 1, fun _ _ => 1, fun _ _ => 0, none, []⟩ a2 (by decide) Nt tol
    (aftVal [3, 1] Nt tol) (by simp) (fun i => if i = 2 then 1 else 0) (fun _ => 0) rfl
  refine ⟨_, _, h1, k1, fun d hd τ => ?_, ?_, ?_⟩
  · obtain rfl : d = 0 := by omega
    simp [series]
  · simpa [numCoeff, quad, ctrl, zi] using h2
  · simpa [numCoeff, quad, ctrl, zi] using k2

/-- The hypotheses of C117 are met by a Duffing oscillator with the lists `[1, 3]` and `[0, 1, 2, 3]`: a solution with the
two odd harmonics is one with all four. -/
example (tol a b c e w f : ℝ) :
    ∃ o o', hbmRes ⟨1, fun _ _ => 1, fun _ _ => 1, fun _ _ => 0.1, none, [cubicNL 1 1 (fun _ _ => 1) (fun _ _ => 1) (fun _ => 1)]⟩
        (fun i => if i = 1 then a else if i = 2 then b else if i = 5 then c else if i = 6 then e else if i = 7 then w else 0)
        (fun i => if i = 1 then f else 0) [0, 1, 2, 3] 16 tol true = .ok o ∧
      hbmRes ⟨1, fun _ _ => 1, fun _ _ => 1, fun _ _ => 0.1, none, [cubicNL 1 1 (fun _ _ => 1) (fun _ _ => 1) (fun _ => 1)]⟩
        (fun i => if i = 0 then a else if i = 1 then b else if i = 2 then c else if i = 3 then e else w)
        (fun i => if i = 0 then f else 0) [1, 3] 16 tol true = .ok o' ∧
      ((∀ i < 4, o'.R i = 0) → ∀ i < 7, o.R i = 0) := by
  have a1 : Admissible [0, 1, 2, 3] := ⟨by simp, by decide, by decide⟩
  have a2 : Admissible [1, 3] := ⟨by simp, by decide, by decide⟩
  have hw3 : ∀ x : ℝ, Real.cos (3 * (x + Real.pi)) = - Real.cos (3 * x) ∧ Real.sin (3 * (x + Real.pi)) = - Real.sin (3 * x) := fun x => by
    rw [show 3 * (x + Real.pi) = (3 * x + Real.pi) + 2 * Real.pi by ring, Real.cos_add_two_pi, Real.sin_add_two_pi,
      Real.cos_add_pi, Real.sin_add_pi]
    exact ⟨rfl, rfl⟩
  obtain ⟨o, o', h1, h2, h3⟩ := C117_odd_suffices [0, 1, 2, 3] [1, 3] a1 a2 (by decide) 16 tol
    ⟨1, fun _ _ => 1, fun _ _ => 1, fun _ _ => 0.1, none, [cubicNL 1 1 (fun _ _ => 1) (fun _ _ => 1) (fun _ => 1)]⟩
    (fun g hg => by
      simp only [List.mem_singleton] at hg
      subst hg
      exact C117_instantaneous _ _ a1 a2 16 (by decide) (by decide) ⟨8, rfl⟩ 1 1 _ _ _ _ tol)
    (fun g hg => by
      simp only [List.mem_singleton] at hg
      subst hg
      exact (C116_classes _ a1 16 (by decide) ⟨8, rfl⟩ (by decide) tol 1 1 _ _).1 _ _
        fun d u v => (C116_odd_laws (fun _ => 1) ⟨0, 0, 0, 0⟩ d u v).1)
    (fun i => if i = 1 then a else if i = 2 then b else if i = 5 then c else if i = 6 then e else if i = 7 then w else 0)
    (fun i => if i = 0 then a else if i = 1 then b else if i = 2 then c else if i = 3 then e else w)
    (fun i => if i = 1 then f else 0) (fun i => if i = 0 then f else 0)
    (fun d hd τ => by
      obtain rfl : d = 0 := by simp only at hd; omega
      simp [series])
    (by simp [numCoeff])
    (fun d hd k hk hk' => by
      obtain rfl : d = 0 := by simp only at hd; omega
      simp only [List.mem_cons, List.not_mem_nil, or_false] at hk'
      rcases hk' with rfl | rfl <;> simp [coefOf])
    (fun d hd τ => by
      obtain rfl : d = 0 := by simp only at hd; omega
      simp [series, hw3]
      ring)
    (fun d hd τ => by
      obtain rfl : d = 0 := by simp only at hd; omega
      simp [series])
  exact ⟨o, o', h1, h2, h3⟩

end

end TMD
