import Verif.Lemmas.Slider
import Mathlib.Order.Interval.Set.UnorderedInterval

/-!
# Lemmas on the steady state of a slider and the instant at which it is started

Used for property C115.
-/

namespace TMD

open Spec

noncomputable section

/-- The slider law for the position of the slider, which a clip at limit `L` and displacement `a / kt` moves as little
as possible. -/
def slide (L a c : ℝ) : ℝ := clip L (c + a) - a

theorem slide_mono (L a : ℝ) {c d : ℝ} (h : c ≤ d) : slide L a c ≤ slide L a d := by
  unfold slide clip
  have := max_le_max (le_refl (-L)) (min_le_min (show c + a ≤ d + a by linarith) (le_refl L))
  linarith

theorem slide_lip {L : ℝ} (hL : 0 ≤ L) (a c d : ℝ) : |slide L a c - slide L a d| ≤ |c - d| := by
  unfold slide clip
  rcases le_total (c + a) L with h1 | h1 <;> rcases le_total (d + a) L with h2 | h2 <;>
  rcases le_total (-L) (c + a) with h3 | h3 <;> rcases le_total (-L) (d + a) with h4 | h4 <;>
  rcases le_total c d with h5 | h5 <;>
  simp only [min_eq_left, min_eq_right, max_eq_left, max_eq_right, h1, h2, h3, h4, neg_le_self hL] <;>
  rw [abs_le] <;> (first | rw [abs_of_nonneg (sub_nonneg.2 h5)] | rw [abs_of_nonpos (sub_nonpos.2 h5)]) <;>
  constructor <;> linarith

/-- The law keeps the distance of two different positions only if it moves neither. -/
theorem slide_dist {L : ℝ} (hL : 0 ≤ L) {a c d : ℝ} (hcd : c < d) (h : slide L a d - slide L a c = d - c) :
    slide L a c = c ∧ slide L a d = d := by
  unfold slide clip at *
  rcases le_total (c + a) L with h1 | h1 <;> rcases le_total (d + a) L with h2 | h2 <;>
  rcases le_total (-L) (c + a) with h3 | h3 <;> rcases le_total (-L) (d + a) with h4 | h4 <;>
  simp only [min_eq_left, min_eq_right, max_eq_left, max_eq_right, h1, h2, h3, h4, neg_le_self hL] at h ⊢ <;>
  constructor <;> linarith

/-- Towards a position that the law does not move. -/
theorem slide_towards {L : ℝ} (hL : 0 ≤ L) {a y : ℝ} (hy : slide L a y = y) (c : ℝ) :
    (c ≤ y → c ≤ slide L a c ∧ slide L a c ≤ y) ∧ (y ≤ c → y ≤ slide L a c ∧ slide L a c ≤ c) := by
  have hb : -L ≤ y + a ∧ y + a ≤ L := by
    have := clip_mem hL (y + a)
    unfold slide at hy
    constructor <;> linarith [this.1, this.2]
  constructor <;> intro h
  · refine ⟨?_, (slide_mono L a h).trans_eq hy⟩
    unfold slide clip
    have := le_max_right (-L) (min (c + a) L)
    rw [min_eq_left (by linarith)] at this ⊢
    linarith
  · refine ⟨hy.symm.le.trans (slide_mono L a h), ?_⟩
    unfold slide clip
    have h1 : max (-L) (min (c + a) L) ≤ c + a := max_le (by linarith) (min_le_left _ _)
    linarith

/-- Two positions under the same periodic law that both return after a period: they agree, or none of them moves. -/
theorem slide_two {N : ℕ} {L a : ℕ → ℝ} (hL : ∀ i, 0 ≤ L i) {x y : ℕ → ℝ} (hx : ∀ n, x (n+1) = slide (L (n+1)) (a (n+1)) (x n))
    (hy : ∀ n, y (n+1) = slide (L (n+1)) (a (n+1)) (y n)) (hxN : x N = x 0) (hyN : y N = y 0) (hlt : x 0 < y 0) :
    ∀ i < N, slide (L (i+1)) (a (i+1)) (x 0) = x 0 ∧ slide (L (i+1)) (a (i+1)) (y 0) = y 0 := by
  have hle : ∀ n, x n ≤ y n := fun n => by
    induction n with
    | zero => exact hlt.le
    | succ n ih => rw [hx, hy]; exact slide_mono _ _ ih
  have hdec : ∀ n, y (n+1) - x (n+1) ≤ y n - x n := fun n => by
    have := slide_lip (hL (n+1)) (a (n+1)) (y n) (x n)
    rw [← hx, ← hy, abs_of_nonneg (sub_nonneg.2 (hle _)), abs_of_nonneg (sub_nonneg.2 (hle _))] at this
    exact this
  have hanti : ∀ m n, m ≤ n → y n - x n ≤ y m - x m := fun m n hmn => by
    induction n, hmn using Nat.le_induction with
    | base => exact le_rfl
    | succ n _ ih => exact (hdec n).trans ih
  have hconst : ∀ n ≤ N, y n - x n = y 0 - x 0 := fun n hn => by
    have h1 := hanti 0 n (Nat.zero_le n)
    have h2 := hanti n N hn
    rw [hxN, hyN] at h2
    linarith
  have key : ∀ n ≤ N, x n = x 0 ∧ y n = y 0 := fun n => by
    induction n with
    | zero => exact fun _ => ⟨rfl, rfl⟩
    | succ n ih =>
      intro hn
      obtain ⟨h1, h2⟩ := ih (by omega)
      have h3 := hconst (n+1) hn
      rw [hx, hy, h1, h2] at h3
      have := slide_dist (hL (n+1)) hlt h3
      rw [hx, hy, h1, h2]
      exact this
  intro i hi
  have h1 := key i hi.le
  have h2 := key (i+1) hi
  rw [hx, hy, h1.1, h1.2] at h2
  exact h2

theorem slide_between {L a : ℕ → ℝ} (hL : ∀ i, 0 ≤ L i) {x : ℕ → ℝ} {c y : ℝ} (h0 : x 0 = slide (L 0) (a 0) c)
    (hx : ∀ n, x (n+1) = slide (L (n+1)) (a (n+1)) (x n)) (hy : ∀ i, slide (L i) (a i) y = y) (n : ℕ) :
    (c ≤ y → c ≤ x n ∧ x n ≤ y) ∧ (y ≤ c → y ≤ x n ∧ x n ≤ c) := by
  induction n with
  | zero => rw [h0]; exact slide_towards (hL 0) (hy 0) c
  | succ n ih =>
    rw [hx]
    have := slide_towards (hL (n+1)) (hy (n+1)) (x n)
    exact ⟨fun h => ⟨(ih.1 h).1.trans (this.1 (ih.1 h).2).1, (this.1 (ih.1 h).2).2⟩,
      fun h => ⟨(this.2 (ih.2 h).1).1, (this.2 (ih.2 h).1).2.trans (ih.2 h).2⟩⟩

theorem slider_slide (kt : ℝ) (L u : ℕ → ℝ) (up fp : ℝ) :
    slider kt L u up fp 0 - kt * u 0 = slide (L 0) (kt * u 0) (fp - kt * up) ∧
    ∀ n, slider kt L u up fp (n+1) - kt * u (n+1) = slide (L (n+1)) (kt * u (n+1)) (slider kt L u up fp n - kt * u n) := by
  constructor
  · rw [slider_zero]; unfold slide; congr 2; ring
  · intro n; rw [slider_succ]; unfold slide; congr 2; ring

theorem periodic_shift {α : Type} {N : ℕ} (u : ℕ → α) (s n : ℕ) :
    periodic N (fun i => u ((i + s) % N)) n = periodic N u (n + s) := by
  unfold periodic
  beta_reduce
  rw [Nat.mod_add_mod]

/-- The slider started from (`up`, `fp`) depends on that state only through the position of the slider. -/
theorem slider_start_pos {kt : ℝ} (L u : ℕ → ℝ) {up fp up' fp' : ℝ} (h : fp - kt * up = fp' - kt * up') :
    slider kt L u up fp = slider kt L u up' fp' := by
  funext n
  induction n with
  | zero => rw [slider_zero, slider_zero, show kt * (u 0 - up) + fp = kt * (u 0 - up') + fp' by linarith]
  | succ n ih => rw [slider_succ, slider_succ, ih]

section phase

variable (kt : ℝ) (N : ℕ) (hN : 0 < N) (L u : ℕ → ℝ) (hL : ∀ i, 0 ≤ L i) (s : ℕ)

include hN in
/-- A position that no instant of one period moves is moved by no instant. -/
theorem slide_all (n : ℕ) (z : ℝ)
    (hz : ∀ i < N, slide (periodic N L (n + s + (i + 1))) (kt * periodic N u (n + s + (i + 1))) z = z) (j : ℕ) :
    slide (periodic N L j) (kt * periodic N u j) z = z := by
  obtain ⟨i, hi, e⟩ : ∃ i < N, (n + s + (i + 1)) % N = j % N := by
    refine ⟨(j + N * (n + s + 1) - (n + s + 1)) % N, Nat.mod_lt _ hN, ?_⟩
    have hle : n + s + 1 ≤ N * (n + s + 1) := Nat.le_mul_of_pos_left _ hN
    rw [← add_assoc, add_right_comm, Nat.add_mod_mod, show n + s + 1 + (j + N * (n + s + 1) - (n + s + 1)) = j + N * (n + s + 1) by omega,
      Nat.add_mul_mod_self_left]
  have := hz i hi
  unfold periodic at this ⊢
  rwa [e] at this

include hN hL in
/-- Two sliders under the same periodic motion, started from any states, the second `s` samples later: from the first
period on their positions agree, or both are at rest. -/
theorem slider_phase_cases (up fp up' fp' : ℝ) (n : ℕ) (hn : N ≤ n + 1) :
    slider kt (periodic N fun i => L ((i + s) % N)) (periodic N fun i => u ((i + s) % N)) up' fp' n - kt * periodic N u (n + s)
      = slider kt (periodic N L) (periodic N u) up fp (n + s) - kt * periodic N u (n + s) ∨
    ∀ j, slide (periodic N L j) (kt * periodic N u j) (slider kt (periodic N L) (periodic N u) up fp (n + s) - kt * periodic N u (n + s))
        = slider kt (periodic N L) (periodic N u) up fp (n + s) - kt * periodic N u (n + s) ∧
      slide (periodic N L j) (kt * periodic N u j)
        (slider kt (periodic N fun i => L ((i + s) % N)) (periodic N fun i => u ((i + s) % N)) up' fp' n - kt * periodic N u (n + s))
        = slider kt (periodic N fun i => L ((i + s) % N)) (periodic N fun i => u ((i + s) % N)) up' fp' n - kt * periodic N u (n + s) := by
  set L' : ℕ → ℝ := fun i => L ((i + s) % N) with hL'
  set u' : ℕ → ℝ := fun i => u ((i + s) % N) with hu'
  have eL : ∀ n, periodic N L' n = periodic N L (n + s) := fun n => periodic_shift L s n
  have eu : ∀ n, periodic N u' n = periodic N u (n + s) := fun n => periodic_shift u s n
  obtain ⟨-, a1⟩ := slider_slide kt (periodic N L) (periodic N u) up fp
  obtain ⟨-, b1⟩ := slider_slide kt (periodic N L') (periodic N u') up' fp'
  set F := slider kt (periodic N L) (periodic N u) up fp with hF
  set G := slider kt (periodic N L') (periodic N u') up' fp' with hG
  set x : ℕ → ℝ := fun m => F (n + s + m) - kt * periodic N u (n + s + m) with hx
  set y : ℕ → ℝ := fun m => G (n + m) - kt * periodic N u' (n + m) with hy
  have hxs : ∀ m, x (m+1) = slide (periodic N L (n + s + (m + 1))) (kt * periodic N u (n + s + (m + 1))) (x m) :=
    fun m => a1 (n + s + m)
  have hys : ∀ m, y (m+1) = slide (periodic N L (n + s + (m + 1))) (kt * periodic N u (n + s + (m + 1))) (y m) := fun m => by
    have := b1 (n + m)
    rw [eL, eu, show n + m + 1 + s = n + s + (m + 1) by ring] at this
    simp only [hy]
    rw [← this, eu, show n + (m + 1) = n + m + 1 by ring, show n + m + 1 + s = n + s + (m + 1) by ring]
  have hxN : x N = x 0 := by
    simp only [hx, add_zero]
    rw [periodic_add, hF, slider_periodic kt N hN L u hL up fp (n + s) (by omega)]
  have hyN : y N = y 0 := by
    simp only [hy, add_zero]
    rw [periodic_add, hG, slider_periodic kt N hN L' u' (fun i => hL _) up' fp' n (by omega)]
  have hLp : ∀ i, 0 ≤ periodic N L i := fun i => hL _
  have ex : x 0 = F (n + s) - kt * periodic N u (n + s) := rfl
  have ey : y 0 = G n - kt * periodic N u (n + s) := by rw [← eu]; rfl
  rw [← ex, ← ey]
  rcases lt_trichotomy (x 0) (y 0) with h | h | h
  · have := slide_two (N := N) (L := fun i => periodic N L (n + s + i)) (a := fun i => kt * periodic N u (n + s + i))
      (fun i => hLp _) hxs hys hxN hyN h
    exact Or.inr fun j => ⟨slide_all kt N hN L u s n _ (fun i hi => (this i hi).1) j, slide_all kt N hN L u s n _ (fun i hi => (this i hi).2) j⟩
  · exact Or.inl h.symm
  · have := slide_two (N := N) (L := fun i => periodic N L (n + s + i)) (a := fun i => kt * periodic N u (n + s + i))
      (fun i => hLp _) hys hxs hyN hxN h
    exact Or.inr fun j => ⟨slide_all kt N hN L u s n _ (fun i hi => (this i hi).2) j, slide_all kt N hN L u s n _ (fun i hi => (this i hi).1) j⟩

include hN hL in
/-- The steady state does not depend on the instant at which the slider is started from the state (`up`, `fp`). -/
theorem slider_delay (up fp : ℝ) (n : ℕ) (hn : N ≤ n + 1) :
    slider kt (periodic N fun i => L ((i + s) % N)) (periodic N fun i => u ((i + s) % N)) up fp n
      = slider kt (periodic N L) (periodic N u) up fp (n + s) := by
  rcases slider_phase_cases kt N hN L u hL s up fp up fp n hn with h | h
  · linarith
  have eL : ∀ n, periodic N (fun i => L ((i + s) % N)) n = periodic N L (n + s) := fun n => periodic_shift L s n
  have eu : ∀ n, periodic N (fun i => u ((i + s) % N)) n = periodic N u (n + s) := fun n => periodic_shift u s n
  obtain ⟨a0, a1⟩ := slider_slide kt (periodic N L) (periodic N u) up fp
  obtain ⟨b0, b1⟩ := slider_slide kt (periodic N fun i => L ((i + s) % N)) (periodic N fun i => u ((i + s) % N)) up fp
  set G := slider kt (periodic N fun i => L ((i + s) % N)) (periodic N fun i => u ((i + s) % N)) up fp with hG
  set F := slider kt (periodic N L) (periodic N u) up fp with hF
  have h1 := slide_between (L := periodic N L) (a := fun i => kt * periodic N u i) (x := fun m => F m - kt * periodic N u m) (fun i => hL _) a0 a1 (fun j => (h j).2) (n + s)
  have h2 := slide_between (L := periodic N fun i => L ((i + s) % N)) (a := fun i => kt * periodic N (fun i => u ((i + s) % N)) i)
    (x := fun m => G m - kt * periodic N (fun i => u ((i + s) % N)) m) (fun i => hL _) b0 b1
    (fun i => by rw [eL]; show slide _ (kt * periodic N (fun i => u ((i + s) % N)) i) _ = _; rw [eu]; exact (h _).1) n
  simp only [eu n] at h2
  set X := F (n + s) - kt * periodic N u (n + s) with hX
  set Y := G n - kt * periodic N u (n + s) with hY
  have : X = Y := by
    rcases le_total (fp - kt * up) X with h3 | h3 <;> rcases le_total (fp - kt * up) Y with h4 | h4
    · exact le_antisymm (h1.1 h4).2 (h2.1 h3).2
    · linarith [(h2.1 h3).1, (h1.2 h4).2]
    · linarith [(h2.2 h3).2, (h1.1 h4).1]
    · exact le_antisymm (h2.2 h3).1 (h1.2 h4).1
  linarith

include hN hL in
/-- Whatever the states and the instant at which two sliders are started, their steady states differ by a constant. -/
theorem slider_two_starts (up fp up' fp' : ℝ) :
    ∃ c, ∀ n, N ≤ n + 1 → slider kt (periodic N fun i => L ((i + s) % N)) (periodic N fun i => u ((i + s) % N)) up' fp' n
      = slider kt (periodic N L) (periodic N u) up fp (n + s) + c := by
  have eL : ∀ n, periodic N (fun i => L ((i + s) % N)) n = periodic N L (n + s) := fun n => periodic_shift L s n
  have eu : ∀ n, periodic N (fun i => u ((i + s) % N)) n = periodic N u (n + s) := fun n => periodic_shift u s n
  obtain ⟨-, a1⟩ := slider_slide kt (periodic N L) (periodic N u) up fp
  obtain ⟨-, b1⟩ := slider_slide kt (periodic N fun i => L ((i + s) % N)) (periodic N fun i => u ((i + s) % N)) up' fp'
  have hc := slider_phase_cases kt N hN L u hL s up fp up' fp' (N - 1) (by omega)
  set G := slider kt (periodic N fun i => L ((i + s) % N)) (periodic N fun i => u ((i + s) % N)) up' fp' with hG
  set F := slider kt (periodic N L) (periodic N u) up fp with hF
  have b1' : ∀ n, G (n + 1) - kt * periodic N u (n + 1 + s)
      = slide (periodic N L (n + 1 + s)) (kt * periodic N u (n + 1 + s)) (G n - kt * periodic N u (n + s)) := fun n => by
    have := b1 n
    rwa [eL, eu, eu] at this
  have a1' : ∀ n, F (n + 1 + s) - kt * periodic N u (n + 1 + s)
      = slide (periodic N L (n + 1 + s)) (kt * periodic N u (n + 1 + s)) (F (n + s) - kt * periodic N u (n + s)) := fun n => by
    have := a1 (n + s)
    rwa [show n + s + 1 = n + 1 + s by ring] at this
  rcases hc with h | h
  · refine ⟨0, fun n hn => ?_⟩
    obtain ⟨m, rfl⟩ : ∃ m, n = (N - 1) + m := ⟨n - (N - 1), by omega⟩
    clear hn
    have : G (N - 1 + m) - kt * periodic N u (N - 1 + m + s) = F (N - 1 + m + s) - kt * periodic N u (N - 1 + m + s) := by
      induction m with
      | zero => exact h
      | succ m ih => rw [← add_assoc, b1', a1', ih]
    linarith
  · refine ⟨G (N - 1) - F (N - 1 + s), fun n hn => ?_⟩
    obtain ⟨m, rfl⟩ : ∃ m, n = (N - 1) + m := ⟨n - (N - 1), by omega⟩
    clear hn
    have : G (N - 1 + m) - kt * periodic N u (N - 1 + m + s) = G (N - 1) - kt * periodic N u (N - 1 + s) ∧
        F (N - 1 + m + s) - kt * periodic N u (N - 1 + m + s) = F (N - 1 + s) - kt * periodic N u (N - 1 + s) := by
      induction m with
      | zero => exact ⟨rfl, rfl⟩
      | succ m ih => rw [← add_assoc, b1', a1', ih.1, ih.2]; exact ⟨(h _).2, (h _).1⟩
    linarith [this.1, this.2]

include hN hL in
theorem slider_mod (up fp : ℝ) (n : ℕ) (hn : N ≤ n) :
    slider kt (periodic N L) (periodic N u) up fp n = slider kt (periodic N L) (periodic N u) up fp (N + n % N) := by
  obtain ⟨q, hq⟩ : ∃ q, n = N + n % N + q * N := by
    refine ⟨n / N - 1, ?_⟩
    have h1 := Nat.div_add_mod n N
    have h2 : 1 ≤ n / N := (Nat.one_le_div_iff hN).2 hn
    obtain ⟨k, hk⟩ : ∃ k, n / N = k + 1 := ⟨n / N - 1, by omega⟩
    rw [hk] at h1 ⊢
    rw [Nat.add_sub_cancel]
    linarith [Nat.mul_succ N k, mul_comm N k]
  have : ∀ r q, slider kt (periodic N L) (periodic N u) up fp (N + r + q * N) = slider kt (periodic N L) (periodic N u) up fp (N + r) := by
    intro r q
    induction q with
    | zero => simp
    | succ q ih =>
      rw [show N + r + (q + 1) * N = N + r + q * N + N by ring, slider_periodic kt N hN L u hL up fp _ (by omega), ih]
  rw [hq, this, show (N + n % N + q * N) % N = n % N by
    rw [Nat.add_mul_mod_self_right, Nat.add_mod_left, Nat.mod_mod]]

end phase

end

end TMD
