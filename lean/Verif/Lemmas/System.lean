import Verif.Spec.Residual
import Verif.Lemmas.FourierCoeff
import Verif.Lemmas.AFT
import Verif.Lemmas.Stiffness
import Mathlib.Algebra.BigOperators.Group.List.Basic

/-! Lemmas on the residual functions of `VibrationSystem`. -/

namespace TMD

open Spec Finset

noncomputable section

theorem HasGrad.listSum {α : Type} {n : ℕ} {x : ℕ → ℝ} (l : List α) (F : α → (ℕ → ℝ) → ℝ) (G : α → ℕ → ℝ)
    (h : ∀ a ∈ l, HasGrad n (F a) (G a) x) :
    HasGrad n (fun X => (l.map (fun a => F a X)).sum) (fun j => (l.map (fun a => G a j)).sum) x := by
  induction l with
  | nil => simpa using HasGrad.const (n := n) (x := x) 0
  | cons a l ih =>
    simp only [List.map_cons, List.sum_cons]
    exact (h a List.mem_cons_self).add (ih (fun b hb => h b (List.mem_cons_of_mem _ hb)))

/-- Gradient of a function of one entry. -/
theorem hasGrad_entry {n : ℕ} {x : ℕ → ℝ} {q : ℕ} {e : ℝ → ℝ} {e' : ℝ} (h : HasDerivAt e e' (x q)) :
    HasGrad n (fun X => e (X q)) (fun j => if j = q then e' else 0) x :=
  (HasGrad.comp_deriv (HasGrad.coord (n := n) (x := x) q) (φ := e) h).congr
    (fun j _ => by by_cases hj : j = q <;> simp [hj])

/-- Renaming of the unknowns: `φ` sees entry `σ k` as its entry `k`. -/
theorem HasGrad.reindex {n m : ℕ} {φ : (ℕ → ℝ) → ℝ} {g : ℕ → ℝ} {x : ℕ → ℝ} (σ : ℕ → ℕ)
    (hdep : ∀ a b, (∀ i < m, a i = b i) → φ a = φ b)
    (h : HasGrad m φ g (fun k => x (σ k))) :
    HasGrad n (fun X => φ (fun k => X (σ k))) (fun j => ∑ k ∈ range m, g k * if j = σ k then 1 else 0) x :=
  HasGrad.comp_vec (Y := fun X k => X (σ k)) (G := fun k j => if j = σ k then 1 else 0) h hdep
    (fun k _ => HasGrad.coord (n := n) (x := x) (σ k))

/-- The accumulation of `total_aft` is the sum. -/
theorem total_fold (l : List NLForce) (U : ℕ → ℝ) (w : ℝ) (h : List ℕ) (Nt : ℕ) (tol : ℝ) (A : NLForce → AftOut)
    (hA : ∀ f ∈ l, f.aft U w h Nt tol = .ok (A f)) (a : AftOut) :
    l.foldl (aftStep U w h Nt tol) (.ok a)
      = .ok ⟨fun i => a.F i + (l.map (fun f => (A f).F i)).sum,
          fun i j => a.dU i j + (l.map (fun f => (A f).dU i j)).sum,
          fun i => a.dw i + (l.map (fun f => (A f).dw i)).sum⟩ := by
  induction l generalizing a with
  | nil => simp
  | cons f l ih =>
    rw [List.foldl_cons]
    simp only [aftStep, hA f List.mem_cons_self]
    rw [ih (fun g hg => hA g (List.mem_cons_of_mem _ hg))]
    simp only [List.map_cons, List.sum_cons, add_assoc]

theorem totalAft_ok (S : VibSys) {h : List ℕ} (hn : h.Nodup) (U : ℕ → ℝ) (w : ℝ) (Nt : ℕ) (tol : ℝ)
    (A : NLForce → AftOut) (hA : ∀ f ∈ S.forces, f.aft U w h Nt tol = .ok (A f)) :
    totalAft S U w h Nt tol true = .ok ⟨fun i => (S.forces.map (fun f => (A f).F i)).sum,
      some (fun i j => (S.forces.map (fun f => (A f).dU i j)).sum,
        fun i => (S.forces.map (fun f => (A f).dw i)).sum)⟩ := by
  unfold totalAft
  rw [Nhc_ok hn]
  simp only [if_true]
  rw [total_fold S.forces U w h Nt tol A hA]
  simp

theorem total_fold_ng (l : List NLForce) (U : ℕ → ℝ) (w : ℝ) (h : List ℕ) (Nt : ℕ) (tol : ℝ)
    (A : NLForce → ℕ → ℝ) (hA : ∀ f ∈ l, f.aftNoGrad U w h Nt tol = .ok (A f)) (a : ℕ → ℝ) :
    l.foldl (aftStepNoGrad U w h Nt tol) (.ok a)
      = .ok (fun i => a i + (l.map (fun f => A f i)).sum) := by
  induction l generalizing a with
  | nil => simp
  | cons f l ih =>
    rw [List.foldl_cons]
    simp only [aftStepNoGrad, hA f List.mem_cons_self]
    rw [ih (fun g hg => hA g (List.mem_cons_of_mem _ hg))]
    simp only [List.map_cons, List.sum_cons, add_assoc]

theorem totalAft_ng (S : VibSys) {h : List ℕ} (hn : h.Nodup) (U : ℕ → ℝ) (w : ℝ) (Nt : ℕ) (tol : ℝ)
    (A : NLForce → ℕ → ℝ) (hA : ∀ f ∈ S.forces, f.aftNoGrad U w h Nt tol = .ok (A f)) :
    totalAft S U w h Nt tol false = .ok ⟨fun i => (S.forces.map (fun f => A f i)).sum, none⟩ := by
  unfold totalAft
  rw [Nhc_ok hn]
  simp only [Bool.false_eq_true, if_false]
  rw [total_fold_ng S.forces U w h Nt tol A hA]
  simp

theorem static_fold (l : List NLForce) (U : ℕ → ℝ) (A : NLForce → (ℕ → ℝ) × (ℕ → ℕ → ℝ))
    (hA : ∀ f ∈ l, f.force U = .ok (A f)) (a : (ℕ → ℝ) × (ℕ → ℕ → ℝ)) :
    l.foldl (staticStep U) (.ok a)
      = .ok (fun i => a.1 i + (l.map (fun f => (A f).1 i)).sum,
          fun i j => a.2 i j + (l.map (fun f => (A f).2 i j)).sum) := by
  induction l generalizing a with
  | nil => simp
  | cons f l ih =>
    rw [List.foldl_cons]
    simp only [staticStep, hA f List.mem_cons_self]
    rw [ih (fun g hg => hA g (List.mem_cons_of_mem _ hg))]
    simp only [List.map_cons, List.sum_cons, add_assoc]

theorem staticRes_ok (S : VibSys) (U Fs : ℕ → ℝ) (A : NLForce → (ℕ → ℝ) × (ℕ → ℕ → ℝ))
    (hA : ∀ f ∈ S.forces, f.force U = .ok (A f)) :
    staticRes S U Fs = .ok (fun i => matVec S.nd S.K U i + (S.forces.map (fun f => (A f).1 i)).sum - Fs i,
      fun i j => S.K i j + (S.forces.map (fun f => (A f).2 i j)).sum) := by
  unfold staticRes
  simp only [static_fold S.forces U A hA, zero_add]

theorem sl_zero {n i : ℕ} (hi : i < n) (x : ℕ → ℝ) : sl 0 n x i = x i := by
  simp [sl, hi]

theorem matVec_congr {n : ℕ} {A : ℕ → ℕ → ℝ} {v v' : ℕ → ℝ} (h : ∀ k < n, v k = v' k) (i : ℕ) :
    matVec n A v i = matVec n A v' i :=
  sum_congr rfl (fun k hk => by rw [h k (mem_range.mp hk)])

/-- `hbm_res` without the forcing. -/
def hbmG (S : VibSys) (A : NLForce → (ℕ → ℝ) → ℝ → AftOut) (h : List ℕ) (Z : ℕ → ℝ) (i : ℕ) : ℝ :=
  matVec (numCoeff h * S.nd) (hsE S.nd S.M S.C S.K (Z (numCoeff h * S.nd)) h false)
      (sl 0 (numCoeff h * S.nd) Z) i
    + (S.forces.map (fun f => (A f (sl 0 (numCoeff h * S.nd) Z) (Z (numCoeff h * S.nd))).F i)).sum

def hbmJ (S : VibSys) (A : NLForce → (ℕ → ℝ) → ℝ → AftOut) (h : List ℕ) (Z : ℕ → ℝ) (i j : ℕ) : ℝ :=
  hsE S.nd S.M S.C S.K (Z (numCoeff h * S.nd)) h false i j
    + (S.forces.map (fun f => (A f (sl 0 (numCoeff h * S.nd) Z) (Z (numCoeff h * S.nd))).dU i j)).sum

def hbmD (S : VibSys) (A : NLForce → (ℕ → ℝ) → ℝ → AftOut) (h : List ℕ) (Z : ℕ → ℝ) (i : ℕ) : ℝ :=
  matVec (numCoeff h * S.nd) (hsDE S.nd S.M S.C (Z (numCoeff h * S.nd)) h false)
      (sl 0 (numCoeff h * S.nd) Z) i
    + (S.forces.map (fun f => (A f (sl 0 (numCoeff h * S.nd) Z) (Z (numCoeff h * S.nd))).dw i)).sum

theorem hbmRes_ok (S : VibSys) {h : List ℕ} (hh : Admissible h) (Nt : ℕ) (tol : ℝ)
    (A : NLForce → (ℕ → ℝ) → ℝ → AftOut) (hA : ∀ f ∈ S.forces, ∀ U w, f.aft U w h Nt tol = .ok (A f U w))
    (Z Fl : ℕ → ℝ) :
    hbmRes S Z Fl h Nt tol true = .ok ⟨fun i => hbmG S A h Z i - Fl i, some (hbmJ S A h Z, hbmD S A h Z)⟩ := by
  unfold hbmRes
  rw [Nhc_ok hh.nodup]
  simp only [harmonicStiffness_ok hh, if_true]
  rw [totalAft_ok S hh.nodup _ _ Nt tol _ (fun f hf => hA f hf _ _)]
  rfl

theorem hbmRes_ng (S : VibSys) {h : List ℕ} (hh : Admissible h) (Nt : ℕ) (tol : ℝ)
    (A : NLForce → (ℕ → ℝ) → ℝ → AftOut)
    (hA : ∀ f ∈ S.forces, ∀ U w, f.aftNoGrad U w h Nt tol = .ok (A f U w).F)
    (Z Fl : ℕ → ℝ) :
    hbmRes S Z Fl h Nt tol false = .ok ⟨fun i => hbmG S A h Z i - Fl i, none⟩ := by
  unfold hbmRes
  rw [Nhc_ok hh.nodup]
  simp only [harmonicStiffness_ok hh, Bool.false_eq_true, if_false]
  rw [totalAft_ng S hh.nodup _ _ Nt tol _ (fun f hf => hA f hf _ _)]
  rfl

theorem sl_congr {n : ℕ} {a b : ℕ → ℝ} (h : ∀ i < n, a i = b i) : sl 0 n a = sl 0 n b := by
  funext i
  unfold sl
  by_cases hi : i < n
  · simp [hi, h i hi]
  · simp [hi]

theorem hbmG_dep (S : VibSys) (A : NLForce → (ℕ → ℝ) → ℝ → AftOut) (h : List ℕ) (i : ℕ) (a b : ℕ → ℝ)
    (hab : ∀ k < numCoeff h * S.nd + 1, a k = b k) : hbmG S A h a i = hbmG S A h b i := by
  unfold hbmG
  rw [hab _ (Nat.lt_succ_self _), sl_congr (fun k hk => hab k (by omega))]

theorem matVec_grad {n L i q : ℕ} {x : ℕ → ℝ} {E : ℝ → ℕ → ℕ → ℝ} {E' : ℕ → ℝ} {Y : (ℕ → ℝ) → ℕ → ℝ} {G : ℕ → ℕ → ℝ}
    (hE : ∀ k < L, HasDerivAt (fun w => E w i k) (E' k) (x q))
    (hY : ∀ k < L, HasGrad n (fun X => Y X k) (G k) x) :
    HasGrad n (fun X => matVec L (E (X q)) (Y X) i)
      (fun j => ∑ k ∈ range L, (E (x q) i k * G k j + Y x k * if j = q then E' k else 0)) x := by
  unfold matVec
  refine HasGrad.sum (fun k hk => ?_)
  have hk := mem_range.mp hk
  exact HasGrad.mul (hasGrad_entry (e := fun w => E w i k) (hE k hk)) (hY k hk)

theorem hasGrad_sl {n L k : ℕ} (hk : k < L) (x : ℕ → ℝ) :
    HasGrad n (fun X => sl 0 L X k) (fun j => if j = k then 1 else 0) x :=
  (HasGrad.coord (n := n) (x := x) k).congr_fun (fun y => sl_zero hk y)

theorem hbmG_grad (S : VibSys) {h : List ℕ} (hh : Admissible h)
    (A : NLForce → (ℕ → ℝ) → ℝ → AftOut) (Z : ℕ → ℝ)
    (hT : ∀ f ∈ S.forces, JointTrue (A f) (numCoeff h * S.nd) Z) (i : ℕ) (hi : i < numCoeff h * S.nd) :
    HasGrad (numCoeff h * S.nd + 1) (fun Z => hbmG S A h Z i)
      (fun j => if j < numCoeff h * S.nd then hbmJ S A h Z i j else hbmD S A h Z i) Z := by
  unfold hbmG hbmJ hbmD
  set L := numCoeff h * S.nd
  have h1 := matVec_grad (n := L + 1) (L := L) (i := i) (q := L) (x := Z)
    (E := fun w => hsE S.nd S.M S.C S.K w h false) (Y := sl 0 L)
    (fun k hk => hsE_hasDerivAt hh S.nd S.M S.C S.K false (Z L) i hi k hk) (fun k hk => hasGrad_sl hk Z)
  have h2 := HasGrad.listSum S.forces (fun f Z => (A f (sl 0 L Z) (Z L)).F i) _ (fun f hf => hT f hf i hi)
  refine (h1.add h2).congr ?_
  intro j hj
  by_cases hjL : j < L
  · simp only [if_pos hjL]
    congr 1
    have : j ≠ L := by omega
    simp only [if_neg this, mul_zero, add_zero]
    rw [sum_eq_single_of_mem j (mem_range.mpr hjL)]
    · simp
    · intro k _ hk; simp [Ne.symm hk]
  · have : j = L := by omega
    simp only [if_neg hjL]
    congr 1
    unfold matVec
    refine sum_congr rfl (fun k hk => ?_)
    have : ¬ j = k := by have := mem_range.mp hk; omega
    rw [if_neg this, if_pos (by omega)]
    ring

theorem le_sum_of_mem {l : List ℕ} {m : ℕ} (hm : m ∈ l) : m ≤ l.sum := by
  induction l with
  | nil => simp at hm
  | cons a l ih =>
    rw [List.sum_cons]
    rcases List.mem_cons.mp hm with rfl | hm
    · omega
    · have := ih hm; omega

/-- A truncated Fourier series vanishes identically exactly when its coefficients vanish. -/
theorem series_eq_zero_iff {h : List ℕ} (hn : h.Nodup) (c : ℕ → ℝ) {w : ℝ} (hw : w ≠ 0) :
    (∀ t, series h c (w * t) = 0) ↔ ∀ r < numCoeff h, c r = 0 := by
  constructor
  · intro H
    have h0 : ∀ τ, series h (fun _ => 0) τ = 0 := fun τ => by simpa using series_smul h 0 (fun _ => 0) τ
    refine rows_of_coefOf hn (c := fun _ => 0) (fun m hm => ?_)
    have hN : ∀ m ∈ h, 2 * m < 2 * h.sum + 1 := fun m hm => by have := le_sum_of_mem hm; omega
    have e1 := dftCoef_series hN (hN m hm) hn c
    have e2 := dftCoef_series hN (hN m hm) hn (fun _ => 0)
    rw [← e1, ← e2]
    congr 1
    funext j
    rw [h0]
    have := H (angle (2 * h.sum + 1) j / w)
    rwa [mul_div_cancel₀ _ hw] at this
  · intro H t
    rw [series_congr (c' := fun _ => 0) H]
    simpa using series_smul h 0 (fun _ => 0) (w * t)

theorem series_sub (h : List ℕ) (c c' : ℕ → ℝ) (τ : ℝ) :
    series h (fun r => c r - c' r) τ = series h c τ - series h c' τ := by
  have := series_add h (fun r => c r - c' r) c' τ
  simp only [sub_add_cancel] at this
  rw [this]; ring

/-- Harmonic balance expression composed with any differentiable packing of the unknowns. -/
theorem hbmG_comp (S : VibSys) {h : List ℕ} (hh : Admissible h)
    (A : NLForce → (ℕ → ℝ) → ℝ → AftOut) {n : ℕ} {x : ℕ → ℝ} {Y : (ℕ → ℝ) → ℕ → ℝ} {G : ℕ → ℕ → ℝ}
    (hY : ∀ k < numCoeff h * S.nd + 1, HasGrad n (fun X => Y X k) (G k) x)
    (hT : ∀ f ∈ S.forces, JointTrue (A f) (numCoeff h * S.nd) (Y x)) (i : ℕ) (hi : i < numCoeff h * S.nd) :
    HasGrad n (fun X => hbmG S A h (Y X) i)
      (fun j => ∑ k ∈ range (numCoeff h * S.nd), hbmJ S A h (Y x) i k * G k j
        + hbmD S A h (Y x) i * G (numCoeff h * S.nd) j) x := by
  refine (HasGrad.comp_vec (hbmG_grad S hh A (Y x) hT i hi) (hbmG_dep S A h i) hY).congr (fun j _ => ?_)
  rw [sum_range_succ, if_neg (lt_irrefl _)]
  congr 1
  exact sum_congr rfl (fun k hk => by rw [if_pos (mem_range.mp hk)])

theorem sum_coord {L j : ℕ} (p : ℕ → ℝ) :
    ∑ k ∈ range L, p k * (if j = k then 1 else 0) = if j < L then p j else 0 := by
  by_cases hj : j < L
  · rw [if_pos hj, sum_eq_single_of_mem j (mem_range.mpr hj)]
    · simp
    · intro k _ hk; simp [Ne.symm hk]
  · rw [if_neg hj]
    apply sum_eq_zero
    intro k hk
    have : ¬ j = k := by have := mem_range.mp hk; omega
    simp [this]

/-- The usual packing: the first entries are the coefficients, the frequency is any function. -/
theorem hbmG_pack (S : VibSys) {h : List ℕ} (hh : Admissible h)
    (A : NLForce → (ℕ → ℝ) → ℝ → AftOut) {n : ℕ} {x : ℕ → ℝ} {φ : (ℕ → ℝ) → ℝ} {g : ℕ → ℝ}
    (hφ : HasGrad n φ g x) {L : ℕ} (hL : L = numCoeff h * S.nd)
    (hT : ∀ f ∈ S.forces, JointTrue (A f) L (hcat L (sl 0 L x) (fun _ => φ x)))
    (i : ℕ) (hi : i < L) :
    HasGrad n (fun X => hbmG S A h (hcat L (sl 0 L X) (fun _ => φ X)) i)
      (fun j => (if j < L then hbmJ S A h (hcat L (sl 0 L x) (fun _ => φ x)) i j else 0)
        + hbmD S A h (hcat L (sl 0 L x) (fun _ => φ x)) i * g j) x := by
  subst hL
  set L := numCoeff h * S.nd
  have := hbmG_comp S hh A (n := n) (x := x) (Y := fun X => hcat L (sl 0 L X) (fun _ => φ X))
    (G := fun k j => if k < L then (if j = k then 1 else 0) else g j) (fun k hk => ?_) hT i hi
  · refine this.congr (fun j _ => ?_)
    rw [if_neg (lt_irrefl _), ← sum_coord]
    congr 1
    exact sum_congr rfl (fun k hk => by rw [if_pos (mem_range.mp hk)])
  · by_cases hkL : k < L
    · simp only [hcat, if_pos hkL]
      exact hasGrad_sl hkL x
    · simp only [hcat, if_neg hkL]
      exact hφ

theorem zi_mem {h : List ℕ} (hh : Admissible h) : zi h = if 0 ∈ h then 1 else 0 := by
  rcases h with _ | ⟨k, hs⟩
  · exact absurd rfl hh.ne
  · rw [zi_cons]
    have := hh.zero_first
    simp only [List.tail_cons] at this
    simp only [List.mem_cons, this, or_false, eq_comm]

theorem lt_zi_nd {h : List ℕ} (hh : Admissible h) (nd i : ℕ) : i < zi h * nd ↔ (0 ∈ h ∧ i < nd) := by
  rw [zi_mem hh]
  by_cases h0 : 0 ∈ h <;> simp [h0]

theorem zi_nd_le {h : List ℕ} (hh : Admissible h) (nd : ℕ) : zi h * nd ≤ numCoeff h * nd := by
  apply Nat.mul_le_mul_right
  rcases h with _ | ⟨k, hs⟩
  · exact absurd rfl hh.ne
  · rw [zi_cons, numCoeff]; split <;> omega

theorem sl_hcat {n : ℕ} (x y : ℕ → ℝ) : sl 0 n (hcat n (sl 0 n x) y) = sl 0 n x :=
  sl_congr (fun i hi => by simp [hcat, hi, sl])

theorem hcat_at {n : ℕ} (x y : ℕ → ℝ) : hcat n x y n = y 0 := by simp [hcat]

theorem hbmResdFl_ok (S : VibSys) {h : List ℕ} (hh : Admissible h) (Nt : ℕ) (tol : ℝ)
    (A : NLForce → (ℕ → ℝ) → ℝ → AftOut) (hA : ∀ f ∈ S.forces, ∀ U w, f.aft U w h Nt tol = .ok (A f U w))
    (UF : ℕ → ℝ) (w : ℝ) (Fl : ℕ → ℝ) {L : ℕ} (hL : L = numCoeff h * S.nd) :
    hbmResdFl S UF w Fl h Nt tol true = .ok
      ⟨fun i => hbmG S A h (hcat L (sl 0 L UF) (fun _ => w)) i
          - (UF L * setSlice Fl 0 (zi h * S.nd) (fun _ => 0) i + setSlice Fl (zi h * S.nd) L (fun _ => 0) i),
        some (hbmJ S A h (hcat L (sl 0 L UF) (fun _ => w)),
          fun i => - setSlice Fl 0 (zi h * S.nd) (fun _ => 0) i)⟩ := by
  subst hL
  unfold hbmResdFl
  rw [if_neg hh.ne, Nhc_ok hh.nodup]
  simp only [hbmRes_ok S hh Nt tol A hA, if_true]

theorem hbmResdFl_ng (S : VibSys) {h : List ℕ} (hh : Admissible h) (Nt : ℕ) (tol : ℝ)
    (A : NLForce → (ℕ → ℝ) → ℝ → AftOut) (hA : ∀ f ∈ S.forces, ∀ U w, f.aftNoGrad U w h Nt tol = .ok (A f U w).F)
    (UF : ℕ → ℝ) (w : ℝ) (Fl : ℕ → ℝ) {L : ℕ} (hL : L = numCoeff h * S.nd) :
    hbmResdFl S UF w Fl h Nt tol false = .ok
      ⟨fun i => hbmG S A h (hcat L (sl 0 L UF) (fun _ => w)) i
          - (UF L * setSlice Fl 0 (zi h * S.nd) (fun _ => 0) i + setSlice Fl (zi h * S.nd) L (fun _ => 0) i),
        none⟩ := by
  subst hL
  unfold hbmResdFl
  rw [if_neg hh.ne, Nhc_ok hh.nodup]
  simp only [hbmRes_ng S hh Nt tol A hA, Bool.false_eq_true, if_false]

end

end TMD
