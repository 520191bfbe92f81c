import Verif.Lemmas.DashpotExists
import Verif.Props.DashpotSweep
import Verif.Props.LinearFrf

/-!
# Harmonic balance equations with some degrees of freedom prescribed

The equations of `hbm_base_res` are those of a system of the same size in which the prescribed degrees of freedom are
decoupled from the others and every force is the difference to its value with the free degrees of freedom at rest.
-/

namespace TMD

open Spec Finset

noncomputable section

variable {h : List ℕ} {Nt n : ℕ} {tol : ℝ}

/-- The motion `U` with the entries of the base replaced by those of `b`. -/
def onBase (nd L : ℕ) (base : ℕ → Bool) (b U : ℕ → ℝ) : ℕ → ℝ := fun i => if baseMask nd L base i then b i else U i

/-- The base moves, all else rests. -/
def baseOnly (nd L : ℕ) (base : ℕ → Bool) (b : ℕ → ℝ) : ℕ → ℝ := onBase nd L base b fun _ => 0

/-- A force seen by the free degrees of freedom. -/
def freeForce (nd L : ℕ) (base : ℕ → Bool) (b : ℕ → ℝ) (f : NLForce) : NLForce where
  ftype := f.ftype
  force := f.force
  aft U w h Nt tol := .ok
    ⟨fun i => if baseMask nd L base i then 0 else (aftVal h Nt tol f (onBase nd L base b U) w).F i - (aftVal h Nt tol f (baseOnly nd L base b) w).F i,
     fun i j => if baseMask nd L base i ∨ baseMask nd L base j then 0 else (aftVal h Nt tol f (onBase nd L base b U) w).dU i j,
     fun i => if baseMask nd L base i then 0 else (aftVal h Nt tol f (onBase nd L base b U) w).dw i - (aftVal h Nt tol f (baseOnly nd L base b) w).dw i⟩
  aftNoGrad U w h Nt tol := f.aftNoGrad U w h Nt tol

theorem mask_block {nd r d N : ℕ} (base : ℕ → Bool) (hr : r < N) (hd : d < nd) : baseMask nd (N * nd) base (r * nd + d) ↔ base d = true := by
  unfold baseMask
  have h1 := block_lt hr hd
  have h2 : (r * nd + d) % nd = d := by rw [Nat.mul_comm, Nat.mul_add_mod, Nat.mod_eq_of_lt hd]
  simp [h1, h2]

theorem coefOf_same {c c' : ℕ → ℝ} (H : ∀ r < numCoeff h, c r = c' r) (m : ℕ) : coefOf h c m = coefOf h c' m := by
  have := coefOf_scaled h (a := 1) (c := c) (c' := c') (fun r hr => by rw [H r hr, one_mul])
  rw [this m]
  simp

theorem coefOf_nil (m : ℕ) : coefOf h (fun _ => 0) m = (0, 0) := by
  have := coefOf_scaled h (a := 0) (c := fun _ => 0) (c' := fun _ => 0) (fun r hr => by simp)
  rw [this m]
  simp

/-- The part of `oscSize` of one degree of freedom is not changed, or is that of the base motion. -/
theorem oscSize_onBase (nd : ℕ) (base : ℕ → Bool) (b U : ℕ → ℝ) :
    oscSize nd n h (onBase nd (numCoeff h * nd) base b U) ≤ oscSize nd n h U + oscSize nd n h b := by
  unfold oscSize
  rw [← sum_add_distrib]
  refine sum_le_sum fun k _ => ?_
  rw [← mul_add, ← sum_add_distrib]
  refine mul_le_mul_of_nonneg_left (sum_le_sum fun d hd => ?_) (by positivity)
  by_cases hb : base d = true
  · rw [coefOf_same (c' := fun r => b (r * nd + d)) fun r hr => by simp only [onBase, if_pos ((mask_block base hr (mem_range.1 hd)).2 hb)]]
    exact le_add_of_nonneg_left (by positivity)
  · rw [coefOf_same (c' := fun r => U (r * nd + d)) fun r hr => by simp only [onBase, if_neg (mt (mask_block base hr (mem_range.1 hd)).1 hb)]]
    exact le_add_of_nonneg_right (by positivity)

theorem onBase_sub (nd L : ℕ) (base : ℕ → Bool) (b U V : ℕ → ℝ) :
    (fun i => onBase nd L base b U i - onBase nd L base b V i) = onBase nd L base (fun _ => 0) fun i => U i - V i := by
  funext i
  unfold onBase
  split <;> simp

theorem oscSize_nil (nd : ℕ) : oscSize nd n h (fun _ => 0) = 0 := by
  unfold oscSize
  exact sum_eq_zero fun k _ => by rw [sum_eq_zero fun d _ => by rw [coefOf_nil]; norm_num, mul_zero]

theorem periodicOf_same {nd d : ℕ} {A B : ℕ → ℝ} (H : ∀ r < numCoeff h, A (r * nd + d) = B (r * nd + d)) (w : ℝ) :
    periodicOf nd h A w d = periodicOf nd h B w d := by
  funext t
  exact series_congr H _

theorem periodicOf_nil {nd d : ℕ} {A : ℕ → ℝ} (H : ∀ r < numCoeff h, A (r * nd + d) = 0) (w : ℝ) : periodicOf nd h A w d = fun _ => 0 := by
  funext t
  unfold periodicOf
  rw [series_congr (c' := fun _ => 0) H]
  simpa using series_smul h 0 (fun _ => 0) (w * t)

theorem sl_onBase (nd L : ℕ) (base : ℕ → Bool) (b Z : ℕ → ℝ) : sl 0 L (onBase nd L base b Z) = onBase nd L base b (sl 0 L Z) := by
  funext i
  by_cases hi : i < L
  · simp [sl, onBase, hi]
  · have : ¬ baseMask nd L base i := fun hm => hi hm.1
    simp [sl, onBase, hi, this]

theorem freeForce_resists {nd : ℕ} {f : NLForce} (hf : Resists nd n h Nt tol f) (base : ℕ → Bool) (b : ℕ → ℝ) :
    Resists nd n h Nt tol (freeForce nd (numCoeff h * nd) base b f) := by
  set L := numCoeff h * nd with hL
  set B0 := baseOnly nd L base b with hB0
  have hA : ∀ U w, aftVal h Nt tol (freeForce nd L base b f) U w =
    ⟨fun i => if baseMask nd L base i then 0 else (aftVal h Nt tol f (onBase nd L base b U) w).F i - (aftVal h Nt tol f B0 w).F i,
     fun i j => if baseMask nd L base i ∨ baseMask nd L base j then 0 else (aftVal h Nt tol f (onBase nd L base b U) w).dU i j,
     fun i => if baseMask nd L base i then 0 else (aftVal h Nt tol f (onBase nd L base b U) w).dw i - (aftVal h Nt tol f B0 w).dw i⟩ := fun U w => rfl
  have hLm : ¬ baseMask nd L base L := fun hm => lt_irrefl _ hm.1
  have hmb : ∀ r < numCoeff h, ∀ d < nd, (baseMask nd L base (r * nd + d) ↔ base d = true) := fun r hr d hd => mask_block base hr hd
  have hslB : sl 0 L B0 = B0 := by
    rw [hB0, baseOnly, sl_onBase]
    congr 1
    funext i
    simp [sl]
  set σ : (Fin (L + 1) → ℝ) → Fin (L + 1) → ℝ := fun v k => onBase nd L base b (Spec.ext v) k with hσd
  set ρ : (Fin (L + 1) → ℝ) → Fin (L + 1) → ℝ := fun v k => if (k : ℕ) < L then B0 k else v k with hρd
  have hσ : Continuous σ := by
    refine continuous_pi fun k => ?_
    by_cases hk : baseMask nd L base k
    · simp only [hσd, onBase, if_pos hk]
      exact continuous_const
    · simp only [hσd, onBase, if_neg hk, Spec.ext, k.2, dif_pos]
      exact continuous_apply k
  have hρ : Continuous ρ := by
    refine continuous_pi fun k => ?_
    by_cases hk : (k : ℕ) < L
    · simp only [hρd, if_pos hk]
      exact continuous_const
    · simp only [hρd, if_neg hk]
      exact continuous_apply k
  have e2 : ∀ v, Spec.ext (σ v) L = Spec.ext v L := fun v => by simp [hσd, Spec.ext, onBase, hLm]
  have e4 : ∀ v, Spec.ext (ρ v) L = Spec.ext v L := fun v => by simp [hρd, Spec.ext]
  have hσm : Set.MapsTo σ {v | 0 < v (Fin.last _)} {v | 0 < v (Fin.last _)} := fun v hv => by
    have : σ v (Fin.last _) = v (Fin.last _) := by simp [hσd, Spec.ext, onBase, hLm, Fin.last]
    simpa [this] using hv
  have hρm : Set.MapsTo ρ {v | 0 < v (Fin.last _)} {v | 0 < v (Fin.last _)} := fun v hv => by
    have : ρ v (Fin.last _) = v (Fin.last _) := by simp [hρd]
    simpa [this] using hv
  have e1 : ∀ v, sl 0 L (Spec.ext (σ v)) = onBase nd L base b (sl 0 L (Spec.ext v)) := fun v => by
    rw [← sl_onBase]
    exact sl_congr fun k hk => by
      have hk : k < L + 1 := by have : k < L := by simpa using hk
                                omega
      simp [Spec.ext, hσd, hk]
  have e3 : ∀ v, sl 0 L (Spec.ext (ρ v)) = B0 := fun v => by
    rw [← hslB]
    exact sl_congr fun k hk => by
      have hk' : k < L := by simpa using hk
      simp [Spec.ext, hρd, hk', show k < L + 1 by omega]
  refine ⟨fun U w => rfl, ?_, ?_, ?_, ?_, ?_, ?_, ?_⟩
  · intro Z hZ i hi
    simp only [hA]
    by_cases hm : baseMask nd L base i
    · exact ((HasGrad.const 0).congr_fun fun y => by simp [hm]).congr fun j _ => by simp [hm]
    · simp only [if_neg hm]
      have h1 := HasGrad.comp_vec (n := L + 1) (x := Z) (Y := onBase nd L base b) (G := fun k j => if baseMask nd L base k then 0 else if j = k then 1 else 0)
        (hf.grad (onBase nd L base b Z) (by rw [onBase, if_neg hLm]; exact hZ) i hi)
        (fun a c H => by
          have e1 : sl 0 L a = sl 0 L c := sl_congr fun k hk => by simpa using H k (by omega)
          rw [← hL, e1, H L (by omega)])
        (fun k hk => by
          by_cases hk' : baseMask nd L base k
          · simp only [onBase, if_pos hk']
            exact HasGrad.const _
          · simp only [onBase, if_neg hk']
            exact HasGrad.coord k)
      have h2 := HasGrad.comp_vec (n := L + 1) (x := Z) (Y := fun Z k => if k < L then B0 k else Z k) (G := fun k j => if k < L then 0 else if j = k then 1 else 0)
        (hf.grad (fun k => if k < L then B0 k else Z k) (by rw [if_neg (lt_irrefl _)]; exact hZ) i hi)
        (fun a c H => by
          have e1 : sl 0 L a = sl 0 L c := sl_congr fun k hk => by simpa using H k (by omega)
          rw [← hL, e1, H L (by omega)])
        (fun k hk => by
          by_cases hk' : k < L
          · simp only [if_pos hk']
            exact HasGrad.const _
          · simp only [if_neg hk']
            exact HasGrad.coord k)
      have e2 : ∀ Z : ℕ → ℝ, sl 0 L (fun k => if k < L then B0 k else Z k) = B0 := fun Z => by
        rw [← hslB]
        exact sl_congr fun k hk => by simp [sl, show k < L by simpa using hk]
      have e3 : ∀ Z : ℕ → ℝ, onBase nd L base b Z L = Z L := fun Z => by rw [onBase, if_neg hLm]
      refine ((h1.sub h2).congr_fun fun y => ?_).congr fun j hj => ?_
      · simp only [← hL, e2, sl_onBase, e3, lt_irrefl, if_false]
      · simp only [← hL, e2, sl_onBase, e3, lt_irrefl, if_false]
        rw [sum_range_succ, sum_range_succ]
        simp only [lt_irrefl, if_false, if_neg hLm]
        rw [sum_eq_zero (s := range L) (f := fun k => (if k < L then (aftVal h Nt tol f B0 (Z L)).dU i k else (aftVal h Nt tol f B0 (Z L)).dw i) * if k < L then 0 else if j = k then 1 else 0)
          fun k hk => by simp [mem_range.1 hk]]
        by_cases hj' : j < L
        · have hne : j ≠ L := hj'.ne
          rw [sum_eq_single_of_mem j (mem_range.2 hj') fun k _ hk => by simp [Ne.symm hk]]
          by_cases hmj : baseMask nd L base j <;> simp [hj', hne, hmj, hm]
        · obtain rfl : j = L := by omega
          rw [sum_eq_zero fun k hk => by
            have : L ≠ k := (mem_range.1 hk).ne'
            simp [this]]
          simp
  · intro i hi j hj
    simp only [hA]
    by_cases hm : baseMask nd L base i ∨ baseMask nd L base j
    · simp only [if_pos hm]
      exact continuousOn_const
    · simp only [if_neg hm]
      exact ((hf.contU i hi j hj).comp hσ.continuousOn hσm).congr fun v _ => by simp only [Function.comp_apply, e1, e2, ← hL]
  · intro i hi
    simp only [hA]
    by_cases hm : baseMask nd L base i
    · simp only [if_pos hm]
      exact continuousOn_const
    · simp only [if_neg hm]
      exact (((hf.contw i hi).comp hσ.continuousOn hσm).congr fun v _ => by simp only [Function.comp_apply, e1, e2, ← hL]).sub
        (((hf.contw i hi).comp hρ.continuousOn hρm).congr fun v _ => by simp only [Function.comp_apply, e3, e4, ← hL])
  · intro U V w hw
    refine (hf.mono (onBase nd L base b U) (onBase nd L base b V) w hw).trans_eq ?_
    unfold periodWork
    congr 1
    funext t
    refine sum_congr rfl fun d hd => ?_
    have hd := mem_range.1 hd
    rw [onBase_sub]
    by_cases hb : base d = true
    · have h1 : velocityOf nd h (onBase nd L base (fun _ => 0) fun i => U i - V i) w d = fun _ => 0 := by
        unfold velocityOf
        rw [periodicOf_nil fun r hr => by rw [onBase, if_pos ((hmb r hr d hd).2 hb)]]
        simp
      have h2 : periodicOf nd h (fun i => (aftVal h Nt tol (freeForce nd L base b f) U w).F i - (aftVal h Nt tol (freeForce nd L base b f) V w).F i) w d = fun _ => 0 :=
        periodicOf_nil (fun r hr => by simp only [hA, if_pos ((hmb r hr d hd).2 hb), sub_zero]) w
      rw [h1, h2]
      simp
    · have h1 : velocityOf nd h (onBase nd L base (fun _ => 0) fun i => U i - V i) w d = velocityOf nd h (fun i => U i - V i) w d := by
        unfold velocityOf
        rw [periodicOf_same (B := fun i => U i - V i) fun r hr => by rw [onBase, if_neg (mt (hmb r hr d hd).1 hb)]]
      have h2 := periodicOf_same (h := h) (nd := nd) (d := d) (A := fun i => (aftVal h Nt tol (freeForce nd L base b f) U w).F i - (aftVal h Nt tol (freeForce nd L base b f) V w).F i)
        (B := fun i => (aftVal h Nt tol f (onBase nd L base b U) w).F i - (aftVal h Nt tol f (onBase nd L base b V) w).F i)
        (fun r hr => by simp only [hA, if_neg (mt (hmb r hr d hd).1 hb)]; ring) w
      rw [h1, h2]
  · intro U V w hw h0 i hi
    simp only [hA]
    have h1 : oscSize nd n h (fun i => onBase nd L base b U i - onBase nd L base b V i) = 0 := by
      rw [onBase_sub]
      refine le_antisymm ?_ (oscSize_nonneg _ _ _ _)
      refine (oscSize_onBase nd base _ _).trans ?_
      rw [h0, oscSize_nil, add_zero]
    rw [hf.same _ _ w hw h1 i hi]
  · intro a ha c B
    obtain ⟨B1, hB1⟩ := hf.bdd a ha c (B + oscSize nd n h b)
    obtain ⟨B2, hB2⟩ := hf.bdd a ha c (oscSize nd n h b)
    refine ⟨|B1| + |B2|, fun w hw1 hw2 U hU i hi => ?_⟩
    simp only [hA]
    split
    · simp only [abs_zero]; positivity
    · have h1 := hB1 w hw1 hw2 (onBase nd L base b U) ((oscSize_onBase nd base b U).trans (by linarith)) i hi
      have h2 := hB2 w hw1 hw2 B0 ((oscSize_onBase nd base b _).trans (by rw [oscSize_nil, zero_add])) i hi
      refine (abs_sub _ _).trans ?_
      linarith [le_abs_self B1, le_abs_self B2]
  · intro w hw i hi
    simp only [hA]
    split
    · rfl
    · exact sub_self _

/-! ## The linear part -/

theorem hsE_entry {nd : ℕ} {M C K M' C' K' : ℕ → ℕ → ℝ} (w : ℝ) (h : List ℕ) {R T d e : ℕ} (hd : d < nd) (he : e < nd) (h1 : M d e = M' d e) (h2 : C d e = C' d e)
    (h3 : K d e = K' d e) : hsE nd M C K w h false (nd * R + d) (nd * T + e) = hsE nd M' C' K' w h false (nd * R + d) (nd * T + e) := by
  unfold hsE
  have key : ∀ (l : List ℕ) (E E' : ℕ → ℕ → ℝ), E (nd * R + d) (nd * T + e) = E' (nd * R + d) (nd * T + e) →
      l.foldl (hsBody nd M C K w h false) E (nd * R + d) (nd * T + e) = l.foldl (hsBody nd M' C' K' w h false) E' (nd * R + d) (nd * T + e) := by
    intro l
    induction l with
    | nil => exact fun E E' H => H
    | cons i l ih =>
      intro E E' H
      refine ih _ _ ?_
      rw [hsBody_block hd he, hsBody_block hd he, h1, h2, h3, H]
  refine key _ _ _ ?_
  split
  · have hb := setBlock_block (P := 0) (Q := 0) (R := R) (S := T) hd he (fun _ _ => 0) K
    have hb' := setBlock_block (P := 0) (Q := 0) (R := R) (S := T) hd he (fun _ _ => 0) K'
    simp only [Nat.mul_zero, zero_add, Nat.mul_one] at hb hb'
    rw [hb, hb', h3]
  · rfl

theorem hsE_none {nd : ℕ} {M C K : ℕ → ℕ → ℝ} (w : ℝ) (h : List ℕ) {R T d e : ℕ} (hd : d < nd) (he : e < nd) (h1 : M d e = 0) (h2 : C d e = 0)
    (h3 : K d e = 0) : hsE nd M C K w h false (nd * R + d) (nd * T + e) = 0 := by
  unfold hsE
  have key : ∀ (l : List ℕ) (E : ℕ → ℕ → ℝ), E (nd * R + d) (nd * T + e) = 0 → l.foldl (hsBody nd M C K w h false) E (nd * R + d) (nd * T + e) = 0 := by
    intro l
    induction l with
    | nil => exact fun E H => H
    | cons i l ih =>
      intro E H
      refine ih _ ?_
      rw [hsBody_block hd he, h1, h2, h3, H]
      simp
  refine key _ _ ?_
  split
  · have hb := setBlock_block (P := 0) (Q := 0) (R := R) (S := T) hd he (fun _ _ => 0) K
    simp only [Nat.mul_zero, zero_add, Nat.mul_one] at hb
    rw [hb, h3]
    simp
  · rfl

/-- The free part of a matrix, with `s` on the diagonal of the base. -/
def freePart (base : ℕ → Bool) (s : ℝ) (A : ℕ → ℕ → ℝ) : ℕ → ℕ → ℝ := fun d e => if base d = true ∨ base e = true then (if d = e then s else 0) else A d e

/-- The system of the free degrees of freedom; those of the base are decoupled. -/
def freeSys (S : VibSys) (base : ℕ → Bool) (b : ℕ → ℝ) (h : List ℕ) : VibSys :=
  ⟨S.nd, freePart base 0 S.M, freePart base 1 S.K, freePart base 1 S.C, none, S.forces.map (freeForce S.nd (numCoeff h * S.nd) base b)⟩

/-- What `Damped` asks for, for motions that leave the base at rest only. -/
structure DampedFree (S : VibSys) (base : ℕ → Bool) (h : List ℕ) : Prop where
  massSymm : ∀ d < S.nd, ∀ e < S.nd, S.M d e = S.M e d
  stiffSymm : ∀ d < S.nd, ∀ e < S.nd, S.K d e = S.K e d
  damping : ∀ v : ℕ → ℝ, (∀ d, base d = true → v d = 0) → (∃ d < S.nd, v d ≠ 0) →
    0 < ∑ d ∈ Finset.range S.nd, ∑ e ∈ Finset.range S.nd, v d * S.C d e * v e
  stiffness : 0 ∈ h → ∀ v : ℕ → ℝ, (∀ d, base d = true → v d = 0) → (∀ d < S.nd, base d = false → ∑ e ∈ Finset.range S.nd, S.K d e * v e = 0) → ∀ d < S.nd, v d = 0

variable {S : VibSys} {base : ℕ → Bool} {b : ℕ → ℝ}

theorem freePart_symm {A : ℕ → ℕ → ℝ} {nd : ℕ} (s : ℝ) (H : ∀ d < nd, ∀ e < nd, A d e = A e d) : ∀ d < nd, ∀ e < nd, freePart base s A d e = freePart base s A e d := by
  intro d hd e he
  unfold freePart
  rw [H d hd e he]
  by_cases h1 : base d = true ∨ base e = true
  · rw [if_pos h1, if_pos h1.symm]
    by_cases h2 : d = e
    · simp [h2]
    · simp [h2, Ne.symm h2]
  · rw [if_neg h1, if_neg fun h => h1 h.symm]

theorem freePart_row (A : ℕ → ℕ → ℝ) (s : ℝ) (nd : ℕ) (v : ℕ → ℝ) {d : ℕ} (hd : d < nd) : ∑ e ∈ range nd, freePart base s A d e * v e =
    if base d = true then s * v d else ∑ e ∈ range nd, A d e * (if base e = true then 0 else v e) := by
  split
  · next hb =>
    rw [sum_eq_single_of_mem d (mem_range.2 hd) fun e _ he => by simp [freePart, hb, Ne.symm he]]
    simp [freePart, hb]
  · next hb =>
    refine sum_congr rfl fun e _ => ?_
    by_cases he : base e = true
    · have : d ≠ e := fun h => hb (h ▸ he)
      simp [freePart, he, this]
    · simp [freePart, he, hb]

theorem freeSys_damped (hD : DampedFree S base h) : Damped (freeSys S base b h) h where
  massSymm := freePart_symm 0 hD.massSymm
  stiffSymm := freePart_symm 1 hD.stiffSymm
  damping v hv := by
    change 0 < ∑ d ∈ range S.nd, ∑ e ∈ range S.nd, v d * freePart base 1 S.C d e * v e
    set u : ℕ → ℝ := fun d => if base d = true then 0 else v d with hu
    have e1 : ∑ d ∈ range S.nd, ∑ e ∈ range S.nd, v d * freePart base 1 S.C d e * v e
        = ∑ d ∈ range S.nd, (if base d = true then v d ^ 2 else 0) + ∑ d ∈ range S.nd, ∑ e ∈ range S.nd, u d * S.C d e * u e := by
      rw [← sum_add_distrib]
      refine sum_congr rfl fun d hd => ?_
      have h1 := freePart_row (base := base) S.C 1 S.nd v (mem_range.1 hd)
      have h2 : ∑ e ∈ range S.nd, v d * freePart base 1 S.C d e * v e = v d * ∑ e ∈ range S.nd, freePart base 1 S.C d e * v e := by
        rw [mul_sum]
        exact sum_congr rfl fun e _ => by ring
      rw [h2, h1]
      split
      · next hb => simp [hu, hb]; ring
      · next hb =>
        simp only [hu, hb, zero_add, mul_sum]
        exact sum_congr rfl fun e _ => by simp; ring_nf
    rw [e1]
    have h1 : 0 ≤ ∑ d ∈ range S.nd, (if base d = true then v d ^ 2 else 0) := sum_nonneg fun d _ => by split <;> positivity
    by_cases hu0 : ∃ d < S.nd, u d ≠ 0
    · have := hD.damping u (fun d hb => by simp [hu, hb]) hu0
      linarith
    · push Not at hu0
      obtain ⟨d, hd, hvd⟩ := hv
      have hb : base d = true := by
        by_contra hb
        have := hu0 d hd
        simp only [hu, hb] at this
        exact hvd (by simpa using this)
      have h2 : 0 < ∑ d ∈ range S.nd, (if base d = true then v d ^ 2 else 0) :=
        sum_pos' (fun d _ => by split <;> positivity) ⟨d, mem_range.2 hd, by rw [if_pos hb]; positivity⟩
      rw [sum_eq_zero (s := range S.nd) (f := fun d => ∑ e ∈ range S.nd, u d * S.C d e * u e) fun d hd => sum_eq_zero fun e _ => by rw [hu0 d (mem_range.1 hd)]; ring]
      linarith
  stiffness h0 v hv := by
    change ∀ d < S.nd, v d = 0
    have hv' : ∀ d < S.nd, ∑ e ∈ range S.nd, freePart base 1 S.K d e * v e = 0 := hv
    have hbv : ∀ d < S.nd, base d = true → v d = 0 := fun d hd hb => by
      have := hv' d hd
      rw [freePart_row _ _ _ _ hd, if_pos hb, one_mul] at this
      exact this
    have := hD.stiffness h0 (fun d => if base d = true then 0 else v d) (fun d hb => by simp [hb]) fun d hd hb => by
      have := hv' d hd
      rwa [freePart_row _ _ _ _ hd, if_neg (by simp [hb])] at this
    intro d hd
    by_cases hb : base d = true
    · exact hbv d hd hb
    · have := this d hd
      rwa [if_neg hb] at this

/-- The linear part of the equations of the free system. -/
theorem freeSys_hsE (w : ℝ) {i j : ℕ} (hi : i < numCoeff h * S.nd) (hj : j < numCoeff h * S.nd) :
    hsE S.nd (freePart base 0 S.M) (freePart base 1 S.C) (freePart base 1 S.K) w h false i j =
      if baseMask S.nd (numCoeff h * S.nd) base i ∧ baseMask S.nd (numCoeff h * S.nd) base j then
        hsE S.nd (freePart base 0 S.M) (freePart base 1 S.C) (freePart base 1 S.K) w h false i j
      else if baseMask S.nd (numCoeff h * S.nd) base i ∨ baseMask S.nd (numCoeff h * S.nd) base j then 0 else hsE S.nd S.M S.C S.K w h false i j := by
  have hnd : 0 < S.nd := by
    by_contra h0
    have : S.nd = 0 := by omega
    simp [this] at hi
  have hid := Nat.mod_lt i hnd
  have hjd := Nat.mod_lt j hnd
  have ei := Nat.div_add_mod i S.nd
  have ej := Nat.div_add_mod j S.nd
  unfold baseMask
  simp only [hi, hj, true_and]
  by_cases h1 : base (i % S.nd) = true
  · by_cases h2 : base (j % S.nd) = true
    · simp only [h1, h2, and_self, if_true]
    · have hne : i % S.nd ≠ j % S.nd := fun h => h2 (h ▸ h1)
      simp only [h1, h2, true_or, if_true]
      have := hsE_none (M := freePart base 0 S.M) (C := freePart base 1 S.C) (K := freePart base 1 S.K) w h (R := i / S.nd) (T := j / S.nd) hid hjd
        (by simp [freePart, h1, hne]) (by simp [freePart, h1, hne]) (by simp [freePart, h1, hne])
      rw [ei, ej] at this
      simpa using this
  · by_cases h2 : base (j % S.nd) = true
    · have hne : i % S.nd ≠ j % S.nd := fun h => h1 (h ▸ h2)
      have := hsE_none (M := freePart base 0 S.M) (C := freePart base 1 S.C) (K := freePart base 1 S.K) w h (R := i / S.nd) (T := j / S.nd) hid hjd
        (by simp [freePart, h2, hne]) (by simp [freePart, h2, hne]) (by simp [freePart, h2, hne])
      rw [ei, ej] at this
      simpa [h1, h2] using this
    · have := hsE_entry (M := freePart base 0 S.M) (C := freePart base 1 S.C) (K := freePart base 1 S.K) (M' := S.M) (C' := S.C) (K' := S.K) w h (R := i / S.nd) (T := j / S.nd) hid hjd
        (by simp [freePart, h1, h2]) (by simp [freePart, h1, h2]) (by simp [freePart, h1, h2])
      rw [ei, ej] at this
      simpa [h1, h2] using this

end

end TMD
