import Verif.Props.LinearFrf
import Verif.Props.HarmonicList

/-!
# C123: laws of the linear frequency response

`linear_frf` (vibration_system.py:614-647) sums a number of modes. Whatever eigenvalue solver is used and however many modes are
kept, the response obeys superposition, does not prefer an instant of the period, is reciprocal and never takes power out of the
structure. The harmonic balance of a linear system with symmetric matrices is reciprocal with any damping matrix.
-/

namespace TMD

open Spec Finset

noncomputable section

variable {S : VibSys} {a b w : ℝ} {eigs : ℕ → (ℕ → ℝ) × (ℕ → ℕ → ℝ)} {neigs : ℕ}

/-- Number of modes that are used. -/
def frfModes (S : VibSys) (neigs : ℕ) : ℕ := if neigs > S.nd then S.nd else neigs

/-- The frequency response is a number: no rigid-body mode is used and no undamped resonance is hit (otherwise the code divides
by zero). -/
def FrfDefined (S : VibSys) (a b w : ℝ) (eigs : ℕ → (ℕ → ℝ) × (ℕ → ℕ → ℝ)) (neigs : ℕ) : Prop :=
  ∀ j < frfModes S neigs, 0 < (eigs (frfModes S neigs)).1 j ∧
    ((eigs (frfModes S neigs)).1 j - w ^ 2) ^ 2 + (w * (a + b * (eigs (frfModes S neigs)).1 j)) ^ 2 ≠ 0

/-- The amplitudes of mode `j` for modal forces `f`, `fs`. -/
def modalAmp (a b w wn f fs : ℝ) : ℝ × ℝ :=
  (((wn^2 - w^2) * f - (2 * wn * w * (a / wn / 2 + b * wn / 2)) * fs) / ((wn^2 - w^2)^2 + (2 * wn * w * (a / wn / 2 + b * wn / 2))^2),
   ((2 * wn * w * (a / wn / 2 + b * wn / 2)) * f + (wn^2 - w^2) * fs) / ((wn^2 - w^2)^2 + (2 * wn * w * (a / wn / 2 + b * wn / 2))^2))

theorem frf_ok (hab : S.ab = some (a, b)) (F Fs : ℕ → ℝ) : ∃ X, linearFrf S w F eigs neigs (some Fs) = .ok X ∧ X (S.nd + S.nd) = w ∧
    ∀ d < S.nd,
      X d = ∑ j ∈ range (frfModes S neigs), (eigs (frfModes S neigs)).2 d j * (modalAmp a b w (Real.sqrt ((eigs (frfModes S neigs)).1 j))
        (∑ i ∈ range S.nd, (eigs (frfModes S neigs)).2 i j * F i) (∑ i ∈ range S.nd, (eigs (frfModes S neigs)).2 i j * Fs i)).1 ∧
      X (S.nd + d) = ∑ j ∈ range (frfModes S neigs), (eigs (frfModes S neigs)).2 d j * (modalAmp a b w (Real.sqrt ((eigs (frfModes S neigs)).1 j))
        (∑ i ∈ range S.nd, (eigs (frfModes S neigs)).2 i j * F i) (∑ i ∈ range S.nd, (eigs (frfModes S neigs)).2 i j * Fs i)).2 := by
  refine ⟨_, by unfold linearFrf; rw [hab], ?_, fun d hd => ⟨?_, ?_⟩⟩
  · simp [hcat]
  · simp only [hcat, hd, if_true]; rfl
  · simp only [hcat, show ¬ (S.nd + d < S.nd) by omega, if_false, Nat.add_sub_cancel_left, hd, if_true]; rfl

/-- C123: superposition. -/
theorem C123_superposition (hab : S.ab = some (a, b)) (_hd : FrfDefined S a b w eigs neigs) (F Fs G Gs : ℕ → ℝ) (α β : ℝ) : ∃ X Y Z, linearFrf S w F eigs neigs (some Fs) = .ok X ∧
    linearFrf S w G eigs neigs (some Gs) = .ok Y ∧
    linearFrf S w (fun i => α * F i + β * G i) eigs neigs (some fun i => α * Fs i + β * Gs i) = .ok Z ∧ ∀ i < 2 * S.nd, Z i = α * X i + β * Y i := by
  obtain ⟨X, x1, -, x2⟩ := frf_ok (w := w) (eigs := eigs) (neigs := neigs) hab F Fs
  obtain ⟨Y, y1, -, y2⟩ := frf_ok (w := w) (eigs := eigs) (neigs := neigs) hab G Gs
  obtain ⟨Z, z1, -, z2⟩ := frf_ok (w := w) (eigs := eigs) (neigs := neigs) hab (fun i => α * F i + β * G i) (fun i => α * Fs i + β * Gs i)
  refine ⟨X, Y, Z, x1, y1, z1, fun i hi => ?_⟩
  have e : ∀ (P R : ℕ → ℝ) j, ∑ i ∈ range S.nd, (eigs (frfModes S neigs)).2 i j * (α * P i + β * R i)
      = α * ∑ i ∈ range S.nd, (eigs (frfModes S neigs)).2 i j * P i + β * ∑ i ∈ range S.nd, (eigs (frfModes S neigs)).2 i j * R i := fun P R j => by
    rw [mul_sum, mul_sum, ← sum_add_distrib]; exact sum_congr rfl fun i _ => by ring
  by_cases h : i < S.nd
  · rw [(x2 i h).1, (y2 i h).1, (z2 i h).1, mul_sum, mul_sum, ← sum_add_distrib]
    refine sum_congr rfl fun j _ => ?_
    rw [e, e]
    simp only [modalAmp]
    ring
  · obtain ⟨d, rfl⟩ : ∃ d, i = S.nd + d := ⟨i - S.nd, by omega⟩
    have hd : d < S.nd := by omega
    rw [(x2 d hd).2, (y2 d hd).2, (z2 d hd).2, mul_sum, mul_sum, ← sum_add_distrib]
    refine sum_congr rfl fun j _ => ?_
    rw [e, e]
    simp only [modalAmp]
    ring

/-- C123: a force delayed by the phase `φ` gives the response delayed by `φ`. -/
theorem C123_phase (hab : S.ab = some (a, b)) (_hd : FrfDefined S a b w eigs neigs) (F Fs : ℕ → ℝ) (φ : ℝ) : ∃ X Y, linearFrf S w F eigs neigs (some Fs) = .ok X ∧
    linearFrf S w (fun i => F i * Real.cos φ - Fs i * Real.sin φ) eigs neigs (some fun i => F i * Real.sin φ + Fs i * Real.cos φ) = .ok Y ∧
    ∀ d < S.nd, Y d = X d * Real.cos φ - X (S.nd + d) * Real.sin φ ∧ Y (S.nd + d) = X d * Real.sin φ + X (S.nd + d) * Real.cos φ := by
  obtain ⟨X, x1, -, x2⟩ := frf_ok (w := w) (eigs := eigs) (neigs := neigs) hab F Fs
  obtain ⟨Y, y1, -, y2⟩ := frf_ok (w := w) (eigs := eigs) (neigs := neigs) hab (fun i => F i * Real.cos φ - Fs i * Real.sin φ) (fun i => F i * Real.sin φ + Fs i * Real.cos φ)
  have e1 : ∀ j, ∑ i ∈ range S.nd, (eigs (frfModes S neigs)).2 i j * (F i * Real.cos φ - Fs i * Real.sin φ)
      = (∑ i ∈ range S.nd, (eigs (frfModes S neigs)).2 i j * F i) * Real.cos φ - (∑ i ∈ range S.nd, (eigs (frfModes S neigs)).2 i j * Fs i) * Real.sin φ := fun j => by
    rw [sum_mul, sum_mul, ← sum_sub_distrib]; exact sum_congr rfl fun i _ => by ring
  have e2 : ∀ j, ∑ i ∈ range S.nd, (eigs (frfModes S neigs)).2 i j * (F i * Real.sin φ + Fs i * Real.cos φ)
      = (∑ i ∈ range S.nd, (eigs (frfModes S neigs)).2 i j * F i) * Real.sin φ + (∑ i ∈ range S.nd, (eigs (frfModes S neigs)).2 i j * Fs i) * Real.cos φ := fun j => by
    rw [sum_mul, sum_mul, ← sum_add_distrib]; exact sum_congr rfl fun i _ => by ring
  refine ⟨X, Y, x1, y1, fun d hd => ⟨?_, ?_⟩⟩
  · rw [(y2 d hd).1, (x2 d hd).1, (x2 d hd).2, sum_mul, sum_mul, ← sum_sub_distrib]
    refine sum_congr rfl fun j _ => ?_
    rw [e1, e2]; simp only [modalAmp]; ring
  · rw [(y2 d hd).2, (x2 d hd).1, (x2 d hd).2, sum_mul, sum_mul, ← sum_add_distrib]
    refine sum_congr rfl fun j _ => ?_
    rw [e1, e2]; simp only [modalAmp]; ring

/-- Work of a vector on a sum of modes. -/
theorem modal_work {n m : ℕ} (V : ℕ → ℕ → ℝ) (G : ℕ → ℝ) (q : ℕ → ℝ) :
    ∑ d ∈ range n, G d * ∑ j ∈ range m, V d j * q j = ∑ j ∈ range m, (∑ i ∈ range n, V i j * G i) * q j := by
  simp only [mul_sum, sum_mul]
  rw [sum_comm]
  exact sum_congr rfl fun j _ => sum_congr rfl fun d _ => by ring

/-- C123: reciprocity: the response to `F` at the place and phase of `G` equals the response to `G` at the place and phase of
`F` (both parts of the complex product), however many modes are used. -/
theorem C123_reciprocity (hab : S.ab = some (a, b)) (_hd : FrfDefined S a b w eigs neigs) (F Fs G Gs : ℕ → ℝ) : ∃ X Y, linearFrf S w F eigs neigs (some Fs) = .ok X ∧
    linearFrf S w G eigs neigs (some Gs) = .ok Y ∧
    ∑ d ∈ range S.nd, (G d * X d - Gs d * X (S.nd + d)) = ∑ d ∈ range S.nd, (F d * Y d - Fs d * Y (S.nd + d)) ∧
    ∑ d ∈ range S.nd, (G d * X (S.nd + d) + Gs d * X d) = ∑ d ∈ range S.nd, (F d * Y (S.nd + d) + Fs d * Y d) := by
  obtain ⟨X, x1, -, x2⟩ := frf_ok (w := w) (eigs := eigs) (neigs := neigs) hab F Fs
  obtain ⟨Y, y1, -, y2⟩ := frf_ok (w := w) (eigs := eigs) (neigs := neigs) hab G Gs
  have c : ∀ P : ℕ → ℝ, ∑ d ∈ range S.nd, P d * X d = _ := fun P =>
    (sum_congr rfl fun d hd => by rw [(x2 d (mem_range.1 hd)).1]).trans (modal_work _ P _)
  have s : ∀ P : ℕ → ℝ, ∑ d ∈ range S.nd, P d * X (S.nd + d) = _ := fun P =>
    (sum_congr rfl fun d hd => by rw [(x2 d (mem_range.1 hd)).2]).trans (modal_work _ P _)
  have c' : ∀ P : ℕ → ℝ, ∑ d ∈ range S.nd, P d * Y d = _ := fun P =>
    (sum_congr rfl fun d hd => by rw [(y2 d (mem_range.1 hd)).1]).trans (modal_work _ P _)
  have s' : ∀ P : ℕ → ℝ, ∑ d ∈ range S.nd, P d * Y (S.nd + d) = _ := fun P =>
    (sum_congr rfl fun d hd => by rw [(y2 d (mem_range.1 hd)).2]).trans (modal_work _ P _)
  refine ⟨X, Y, x1, y1, ?_, ?_⟩
  · rw [sum_sub_distrib, sum_sub_distrib, c, s, c', s', ← sum_sub_distrib, ← sum_sub_distrib]
    exact sum_congr rfl fun j _ => by simp only [modalAmp]; ring
  · rw [sum_add_distrib, sum_add_distrib, c, s, c', s', ← sum_add_distrib, ← sum_add_distrib]
    exact sum_congr rfl fun j _ => by simp only [modalAmp]; ring

/-- C123: passivity: with nonnegative damping coefficients the force does nonnegative work over a cycle, however many modes are
used. (`π` times the sum is the work per cycle of the force on the motion.) -/
theorem C123_passive (hab : S.ab = some (a, b)) (ha : 0 ≤ a) (hb : 0 ≤ b) (hw : 0 ≤ w)
    (hp : FrfDefined S a b w eigs neigs) (F Fs : ℕ → ℝ) : ∃ X, linearFrf S w F eigs neigs (some Fs) = .ok X ∧
    0 ≤ ∑ d ∈ range S.nd, (F d * X (S.nd + d) - Fs d * X d) := by
  obtain ⟨X, x1, -, x2⟩ := frf_ok (w := w) (eigs := eigs) (neigs := neigs) hab F Fs
  refine ⟨X, x1, ?_⟩
  have c : ∀ P : ℕ → ℝ, ∑ d ∈ range S.nd, P d * X d = _ := fun P =>
    (sum_congr rfl fun d hd => by rw [(x2 d (mem_range.1 hd)).1]).trans (modal_work _ P _)
  have s : ∀ P : ℕ → ℝ, ∑ d ∈ range S.nd, P d * X (S.nd + d) = _ := fun P =>
    (sum_congr rfl fun d hd => by rw [(x2 d (mem_range.1 hd)).2]).trans (modal_work _ P _)
  rw [sum_sub_distrib, c, s, ← sum_sub_distrib]
  refine sum_nonneg fun j hj => ?_
  have hj := (hp j (mem_range.1 hj)).1
  set wn := Real.sqrt ((eigs (frfModes S neigs)).1 j)
  have hwn : 0 < wn := Real.sqrt_pos.2 hj
  set f := ∑ i ∈ range S.nd, (eigs (frfModes S neigs)).2 i j * F i
  set fs := ∑ i ∈ range S.nd, (eigs (frfModes S neigs)).2 i j * Fs i
  have : f * (modalAmp a b w wn f fs).2 - fs * (modalAmp a b w wn f fs).1
      = (2 * wn * w * (a / wn / 2 + b * wn / 2)) * (f ^ 2 + fs ^ 2) / ((wn^2 - w^2)^2 + (2 * wn * w * (a / wn / 2 + b * wn / 2))^2) := by
    simp only [modalAmp]; ring
  rw [this]
  positivity

theorem modalAmp_eq {a b w lam f fs : ℝ} (hl : 0 < lam) (hD : (lam - w ^ 2) ^ 2 + (w * (a + b * lam)) ^ 2 ≠ 0) :
    (lam - w ^ 2) * (modalAmp a b w (Real.sqrt lam) f fs).1 + w * (a + b * lam) * (modalAmp a b w (Real.sqrt lam) f fs).2 = f ∧
    (lam - w ^ 2) * (modalAmp a b w (Real.sqrt lam) f fs).2 - w * (a + b * lam) * (modalAmp a b w (Real.sqrt lam) f fs).1 = fs := by
  have h1 : Real.sqrt lam ^ 2 = lam := Real.sq_sqrt hl.le
  have h2 : 2 * Real.sqrt lam * w * (a / Real.sqrt lam / 2 + b * Real.sqrt lam / 2) = w * (a + b * lam) := modal_z h1 hl
  simp only [modalAmp, h1, h2]
  exact modal_q hD

/-- A sum of modes in one line of the equation of motion. -/
theorem modal_line {n m : ℕ} {V : ℕ → ℕ → ℝ} {A B μ : ℕ → ℝ}
    (h : ∀ j < m, ∑ e ∈ range n, A e * V e j = μ j * ∑ e ∈ range n, B e * V e j) (X q : ℕ → ℝ) (hX : ∀ e < n, X e = ∑ j ∈ range m, V e j * q j) :
    ∑ e ∈ range n, A e * X e = ∑ j ∈ range m, (∑ e ∈ range n, B e * V e j) * (μ j * q j) := by
  rw [sum_congr rfl fun e he => by rw [hX e (mem_range.1 he)], modal_work]
  refine sum_congr rfl fun j hj => ?_
  have : ∑ i ∈ range n, V i j * A i = ∑ e ∈ range n, A e * V e j := sum_congr rfl fun _ _ => mul_comm _ _
  rw [this, h j (mem_range.1 hj)]
  ring

/-- C123: with a truncated basis the response solves the equations of motion exactly for the part of the force that the retained
modes can carry: `F` is replaced by the sum over the retained modes of `M φ_j (φ_jᵀ F)`. Only the eigenvalue equations of the
retained modes are needed. -/
theorem C123_truncated (hab : S.ab = some (a, b)) (hC : ∀ d < S.nd, ∀ e < S.nd, S.C d e = a * S.M d e + b * S.K d e)
    (hp : FrfDefined S a b w eigs neigs)
    (he : ∀ d < S.nd, ∀ j < frfModes S neigs, ∑ e ∈ range S.nd, S.K d e * (eigs (frfModes S neigs)).2 e j
      = (eigs (frfModes S neigs)).1 j * ∑ e ∈ range S.nd, S.M d e * (eigs (frfModes S neigs)).2 e j)
    (F Fs : ℕ → ℝ) : ∃ X, linearFrf S w F eigs neigs (some Fs) = .ok X ∧ ∀ d < S.nd,
      ∑ e ∈ range S.nd, ((S.K d e - w ^ 2 * S.M d e) * X e + w * S.C d e * X (S.nd + e))
        = ∑ j ∈ range (frfModes S neigs), (∑ e ∈ range S.nd, S.M d e * (eigs (frfModes S neigs)).2 e j)
            * ∑ i ∈ range S.nd, (eigs (frfModes S neigs)).2 i j * F i ∧
      ∑ e ∈ range S.nd, ((S.K d e - w ^ 2 * S.M d e) * X (S.nd + e) - w * S.C d e * X e)
        = ∑ j ∈ range (frfModes S neigs), (∑ e ∈ range S.nd, S.M d e * (eigs (frfModes S neigs)).2 e j)
            * ∑ i ∈ range S.nd, (eigs (frfModes S neigs)).2 i j * Fs i := by
  obtain ⟨X, x1, -, x2⟩ := frf_ok (w := w) (eigs := eigs) (neigs := neigs) hab F Fs
  refine ⟨X, x1, fun d hd => ?_⟩
  set V := (eigs (frfModes S neigs)).2
  set lam := (eigs (frfModes S neigs)).1
  have hA : ∀ j < frfModes S neigs, ∑ e ∈ range S.nd, (S.K d e - w ^ 2 * S.M d e) * V e j
      = (lam j - w ^ 2) * ∑ e ∈ range S.nd, S.M d e * V e j := fun j hj => by
    rw [sub_mul, ← he d hd j hj, mul_sum, ← sum_sub_distrib]
    exact sum_congr rfl fun e _ => by ring
  have hB : ∀ j < frfModes S neigs, ∑ e ∈ range S.nd, (w * S.C d e) * V e j
      = (w * (a + b * lam j)) * ∑ e ∈ range S.nd, S.M d e * V e j := fun j hj => by
    have : (w * (a + b * lam j)) * ∑ e ∈ range S.nd, S.M d e * V e j
        = w * a * ∑ e ∈ range S.nd, S.M d e * V e j + w * b * (lam j * ∑ e ∈ range S.nd, S.M d e * V e j) := by ring
    rw [this, ← he d hd j hj, mul_sum, mul_sum, ← sum_add_distrib]
    exact sum_congr rfl fun e h' => by rw [hC d hd e (mem_range.1 h')]; ring
  constructor
  · rw [sum_add_distrib, modal_line hA _ _ fun e he => (x2 e he).1, modal_line hB (fun e => X (S.nd + e)) _ fun e he => (x2 e he).2, ← sum_add_distrib]
    refine sum_congr rfl fun j hj => ?_
    obtain ⟨p1, p2⟩ := hp j (mem_range.1 hj)
    rw [← mul_add, (modalAmp_eq p1 p2).1]
  · rw [sum_sub_distrib, modal_line hA (fun e => X (S.nd + e)) _ fun e he => (x2 e he).2, modal_line hB _ _ fun e he => (x2 e he).1, ← sum_sub_distrib]
    refine sum_congr rfl fun j hj => ?_
    obtain ⟨p1, p2⟩ := hp j (mem_range.1 hj)
    rw [← mul_sub, (modalAmp_eq p1 p2).2]

/-- C123: phase resonance: the force `p M φ_r` in the shape of a retained mode, at the natural frequency of the mode, gives a
response in that mode alone, a quarter period behind the force, with the amplitude `p / (w (a + b w²))`. -/
theorem C123_resonance (hab : S.ab = some (a, b)) (hw : 0 < w) (hz : 0 < a + b * w ^ 2)
    (ho : ∀ i < frfModes S neigs, ∀ j < frfModes S neigs, ∑ k ∈ range S.nd, (eigs (frfModes S neigs)).2 k i
      * ∑ l ∈ range S.nd, S.M k l * (eigs (frfModes S neigs)).2 l j = if i = j then 1 else 0)
    {r : ℕ} (hr : r < frfModes S neigs) (hwr : (eigs (frfModes S neigs)).1 r = w ^ 2) (p : ℝ) :
    ∃ X, linearFrf S w (fun d => p * ∑ l ∈ range S.nd, S.M d l * (eigs (frfModes S neigs)).2 l r) eigs neigs none = .ok X ∧
      ∀ d < S.nd, X d = 0 ∧ X (S.nd + d) = p / (w * (a + b * w ^ 2)) * (eigs (frfModes S neigs)).2 d r := by
  obtain ⟨X, x1, -, x2⟩ := frf_ok (w := w) (eigs := eigs) (neigs := neigs) hab (fun d => p * ∑ l ∈ range S.nd, S.M d l * (eigs (frfModes S neigs)).2 l r) (fun _ => 0)
  refine ⟨X, x1, fun d hd => ?_⟩
  have hf : ∀ j < frfModes S neigs, ∑ i ∈ range S.nd, (eigs (frfModes S neigs)).2 i j * (p * ∑ l ∈ range S.nd, S.M i l * (eigs (frfModes S neigs)).2 l r)
      = if j = r then p else 0 := fun j hj => by
    have : ∑ i ∈ range S.nd, (eigs (frfModes S neigs)).2 i j * (p * ∑ l ∈ range S.nd, S.M i l * (eigs (frfModes S neigs)).2 l r)
        = p * ∑ i ∈ range S.nd, (eigs (frfModes S neigs)).2 i j * ∑ l ∈ range S.nd, S.M i l * (eigs (frfModes S neigs)).2 l r := by
      rw [mul_sum]; exact sum_congr rfl fun _ _ => by ring
    rw [this, ho j hj r hr]; split_ifs <;> simp
  have h0 : ∀ wn, modalAmp a b w wn 0 0 = (0, 0) := fun wn => by simp [modalAmp]
  have hw2 : 0 < w ^ 2 := by positivity
  have hD : w * (a + b * w ^ 2) ≠ 0 := (mul_pos hw hz).ne'
  obtain ⟨q1, q2⟩ := modalAmp_eq (a := a) (b := b) (w := w) (lam := w ^ 2) (f := p) (fs := 0) hw2 (by simpa using pow_ne_zero 2 hD)
  have e1 : (modalAmp a b w (Real.sqrt (w ^ 2)) p 0).2 = p / (w * (a + b * w ^ 2)) := by
    rw [eq_div_iff hD]; linear_combination q1
  have e2 : (modalAmp a b w (Real.sqrt (w ^ 2)) p 0).1 = 0 := by
    have : w * (a + b * w ^ 2) * (modalAmp a b w (Real.sqrt (w ^ 2)) p 0).1 = 0 := by linear_combination -q2
    exact (mul_eq_zero.1 this).resolve_left hD
  constructor
  · rw [(x2 d hd).1]
    refine sum_eq_zero fun j hj => ?_
    rw [hf j (mem_range.1 hj)]
    by_cases h : j = r
    · subst h; simp only [if_true, mul_zero, sum_const_zero]; rw [hwr, e2, mul_zero]
    · simp only [h, if_false, mul_zero, sum_const_zero]; rw [h0]; simp
  · rw [(x2 d hd).2, sum_eq_single_of_mem r (mem_range.2 hr)]
    · rw [hf r hr]; simp only [if_true, mul_zero, sum_const_zero]; rw [hwr, e1]; ring
    · intro j hj h
      rw [hf j (mem_range.1 hj)]
      simp only [h, if_false, mul_zero, sum_const_zero]; rw [h0]; simp

/-- A symmetric matrix between two vectors. -/
theorem form_comm {n : ℕ} {A : ℕ → ℕ → ℝ} (hA : ∀ d < n, ∀ e < n, A d e = A e d) (x y : ℕ → ℝ) :
    ∑ d ∈ range n, y d * ∑ e ∈ range n, A d e * x e = ∑ d ∈ range n, x d * ∑ e ∈ range n, A d e * y e := by
  simp only [mul_sum]
  rw [sum_comm]
  exact sum_congr rfl fun e he => sum_congr rfl fun d hd => by rw [hA d (mem_range.1 hd) e (mem_range.1 he)]; ring

theorem dyn_recip {n : ℕ} {M C K : ℕ → ℕ → ℝ} (hM : ∀ d < n, ∀ e < n, M d e = M e d) (hC : ∀ d < n, ∀ e < n, C d e = C e d)
    (hK : ∀ d < n, ∀ e < n, K d e = K e d) (w : ℝ) (k : ℕ) (p q : ℕ → ℝ × ℝ) :
    ∑ d ∈ range n, ((dynCoef n M C K w k p d).1 * (q d).1 - (dynCoef n M C K w k p d).2 * (q d).2)
      = ∑ d ∈ range n, ((dynCoef n M C K w k q d).1 * (p d).1 - (dynCoef n M C K w k q d).2 * (p d).2) ∧
    ∑ d ∈ range n, ((dynCoef n M C K w k p d).1 * (q d).2 + (dynCoef n M C K w k p d).2 * (q d).1)
      = ∑ d ∈ range n, ((dynCoef n M C K w k q d).1 * (p d).2 + (dynCoef n M C K w k q d).2 * (p d).1) := by
  have hA : ∀ d < n, ∀ e < n, K d e - (k * w) ^ 2 * M d e = K e d - (k * w) ^ 2 * M e d := fun d hd e he => by rw [hM d hd e he, hK d hd e he]
  have f1 := fun x y : ℕ → ℝ => form_comm (A := fun d e => K d e - (k * w) ^ 2 * M d e) hA x y
  have f2 := fun x y : ℕ → ℝ => form_comm hC x y
  have d1 : ∀ r : ℕ → ℝ × ℝ, ∀ d, (dynCoef n M C K w k r d).1 = (k * w) * ∑ e ∈ range n, C d e * (r e).2 + ∑ e ∈ range n, (K d e - (k * w) ^ 2 * M d e) * (r e).1 := fun r d => by
    simp only [dynCoef]; rw [sum_add_distrib, mul_sum]; congr 1; exact sum_congr rfl fun _ _ => by ring
  have d2 : ∀ r : ℕ → ℝ × ℝ, ∀ d, (dynCoef n M C K w k r d).2 = -((k * w) * ∑ e ∈ range n, C d e * (r e).1) + ∑ e ∈ range n, (K d e - (k * w) ^ 2 * M d e) * (r e).2 := fun r d => by
    simp only [dynCoef]; rw [sum_add_distrib, mul_sum, ← sum_neg_distrib]; congr 1; exact sum_congr rfl fun _ _ => by ring
  have g : ∀ (α : ℝ) (u v x y : ℕ → ℝ), ∑ d ∈ range n, ((α * u d + v d) * x d) = α * ∑ d ∈ range n, x d * u d + ∑ d ∈ range n, x d * v d := fun α u v x y => by
    rw [mul_sum, ← sum_add_distrib]; exact sum_congr rfl fun _ _ => by ring
  have s1 : ∀ r t : ℕ → ℝ × ℝ, ∀ y : ℕ → ℝ, ∑ d ∈ range n, (dynCoef n M C K w k r d).1 * y d
      = (k * w) * (∑ d ∈ range n, y d * ∑ e ∈ range n, C d e * (r e).2) + ∑ d ∈ range n, y d * ∑ e ∈ range n, (K d e - (k * w) ^ 2 * M d e) * (r e).1 := fun r t y => by
    rw [mul_sum, ← sum_add_distrib]; exact sum_congr rfl fun d _ => by rw [d1]; ring
  have s2 : ∀ r t : ℕ → ℝ × ℝ, ∀ y : ℕ → ℝ, ∑ d ∈ range n, (dynCoef n M C K w k r d).2 * y d
      = -((k * w) * (∑ d ∈ range n, y d * ∑ e ∈ range n, C d e * (r e).1)) + ∑ d ∈ range n, y d * ∑ e ∈ range n, (K d e - (k * w) ^ 2 * M d e) * (r e).2 := fun r t y => by
    rw [mul_sum, ← sum_neg_distrib, ← sum_add_distrib]; exact sum_congr rfl fun d _ => by rw [d2]; ring
  constructor
  · rw [sum_sub_distrib, sum_sub_distrib, s1 p q, s2 p q, s1 q p, s2 q p]
    linear_combination (k * w) * f2 (fun e => (p e).2) (fun e => (q e).1) + f1 (fun e => (p e).1) (fun e => (q e).1)
      + (k * w) * f2 (fun e => (p e).1) (fun e => (q e).2) - f1 (fun e => (p e).2) (fun e => (q e).2)
  · rw [sum_add_distrib, sum_add_distrib, s1 p q, s2 p q, s1 q p, s2 q p]
    linear_combination (k * w) * f2 (fun e => (p e).2) (fun e => (q e).2) + f1 (fun e => (p e).1) (fun e => (q e).2)
      - (k * w) * f2 (fun e => (p e).1) (fun e => (q e).1) + f1 (fun e => (p e).2) (fun e => (q e).1)

/-- C123: reciprocity of the harmonic balance of a linear system with symmetric matrices and any symmetric damping matrix: if
`X` solves it for the force `F` and `Y` for the force `G` at the same frequency, each harmonic is reciprocal. -/
theorem C123_balance (S : VibSys) (hS : S.forces = []) (hM : ∀ d < S.nd, ∀ e < S.nd, S.M d e = S.M e d) (hC : ∀ d < S.nd, ∀ e < S.nd, S.C d e = S.C e d)
    (hK : ∀ d < S.nd, ∀ e < S.nd, S.K d e = S.K e d) (h : List ℕ) (hA : Admissible h) (Nt : ℕ) (tol : ℝ) (X Y F G : ℕ → ℝ)
    (hw : X (numCoeff h * S.nd) = Y (numCoeff h * S.nd)) : ∃ R R' g g', hbmRes S X F h Nt tol true = .ok ⟨R, some g⟩ ∧
      hbmRes S Y G h Nt tol true = .ok ⟨R', some g'⟩ ∧
      ((∀ i < numCoeff h * S.nd, R i = 0) → (∀ i < numCoeff h * S.nd, R' i = 0) → ∀ k ∈ h,
        let c := fun (Z : ℕ → ℝ) d => coefOf h (fun r => Z (r * S.nd + d)) k
        ∑ d ∈ range S.nd, ((c F d).1 * (c Y d).1 - (c F d).2 * (c Y d).2) = ∑ d ∈ range S.nd, ((c G d).1 * (c X d).1 - (c G d).2 * (c X d).2) ∧
        ∑ d ∈ range S.nd, ((c F d).1 * (c Y d).2 + (c F d).2 * (c Y d).1) = ∑ d ∈ range S.nd, ((c G d).1 * (c X d).2 + (c G d).2 * (c X d).1)) := by
  have ok := hbmRes_ok S hA Nt tol (fun _ _ _ => ⟨fun _ => 0, fun _ _ => 0, fun _ => 0⟩) (fun f hf => by rw [hS] at hf; simp at hf)
  refine ⟨_, _, _, _, ok X F, ok Y G, fun r1 r2 k hk => ?_⟩
  intro c
  have key : ∀ Z P : ℕ → ℝ, (∀ i < numCoeff h * S.nd, hbmG S (fun _ _ _ => ⟨fun _ => 0, fun _ _ => 0, fun _ => 0⟩) h Z i - P i = 0) → ∀ d < S.nd,
      c P d = dynCoef S.nd S.M S.C S.K (Z (numCoeff h * S.nd)) k (c Z) d := fun Z P hz d hd => by
    have := coefOf_hbmG S hA (fun _ _ _ => ⟨fun _ => 0, fun _ _ => 0, fun _ => 0⟩) Z hd hk
    rw [hS] at this
    simp only [List.map_nil, List.sum_nil, add_zero] at this
    rw [← this]
    exact coefOf_rows (fun r hr => by have := hz _ (row_lt hr hd); linarith) k
  obtain ⟨e1, e2⟩ := dyn_recip hM hC hK (X (numCoeff h * S.nd)) k (c X) (c Y)
  constructor
  · rw [sum_congr rfl fun d hd => by rw [key X F r1 d (mem_range.1 hd)],
      sum_congr rfl (s₁ := range S.nd) (f := fun d => (c G d).1 * (c X d).1 - (c G d).2 * (c X d).2) fun d hd => by rw [key Y G r2 d (mem_range.1 hd), ← hw]]
    exact e1
  · rw [sum_congr rfl fun d hd => by rw [key X F r1 d (mem_range.1 hd)],
      sum_congr rfl (s₁ := range S.nd) (f := fun d => (c G d).1 * (c X d).2 + (c G d).2 * (c X d).1) fun d hd => by rw [key Y G r2 d (mem_range.1 hd), ← hw]]
    exact e2

/-- The pair of masses `K = [[2,-1],[-1,2]]`, `M = 1` with only its first mode `(1,1)/√2`, `λ = 1`, `a = 1`, `b = 0` at `w = 2`. -/
example : FrfDefined ⟨2, fun i j => if i = j then 1 else 0, fun i j => if i = j then 2 else -1, fun i j => if i = j then 1 else 0, some (1, 0), []⟩
    1 0 2 (fun _ => (fun _ => 1, fun _ _ => Real.sqrt (1 / 2))) 1 := by
  intro j _
  norm_num

/-- `x'' + x' + 4 x = cos 2t` has the response `sin 2t / 2`. -/
example : ∃ X, linearFrf ⟨1, fun _ _ => 1, fun _ _ => 4, fun _ _ => 1, some (1, 0), []⟩ 2 (fun _ => 1 * ∑ _l ∈ range 1, 1 * 1) (fun _ => (fun _ => 4, fun _ _ => 1)) 1 none = .ok X ∧
    X 0 = 0 ∧ X 1 = 1 / 2 := by
  obtain ⟨X, h1, h2⟩ := C123_resonance (S := ⟨1, fun _ _ => 1, fun _ _ => 4, fun _ _ => 1, some (1, 0), []⟩) (a := 1) (b := 0) (w := 2)
    (eigs := fun _ => (fun _ => 4, fun _ _ => 1)) (neigs := 1) rfl (by norm_num) (by norm_num)
    (fun i hi j hj => by
      have e1 : i = 0 := by simpa [frfModes] using hi
      have e2 : j = 0 := by simpa [frfModes] using hj
      subst e1; subst e2; simp) (r := 0) (by simp [frfModes]) (by norm_num) 1
  refine ⟨X, h1, (h2 0 (by decide)).1, ?_⟩
  have := (h2 0 (by decide)).2
  norm_num at this
  simpa using this

/-- `x'' + x' + 4 x = cos 2t` with the harmonics 0 and 1 is solved by `sin 2t / 2`. -/
example : ∀ i < 3, hbmG ⟨1, fun _ _ => 1, fun _ _ => 4, fun _ _ => 1, none, []⟩ (fun _ _ _ => ⟨fun _ => 0, fun _ _ => 0, fun _ => 0⟩) [0, 1]
    (fun i => if i = 2 then 1 / 2 else if i = 3 then 2 else 0) i - (if i = 1 then 1 else 0) = 0 := by
  intro i hi
  have : i = 0 ∨ i = 1 ∨ i = 2 := by omega
  have z1 : zi [0, 1] = 1 := by decide
  have z2 : hsRange [0, 1] = [1] := by decide
  rcases this with rfl | rfl | rfl <;> norm_num [hbmG, matVec, hsE, numCoeff, sum_range_succ, sl, z1, z2, hsBody, setBlock]

end

end TMD
