import Verif.Model.FrfNan
import Verif.Props.LinearFrf

/-!
# Property C126 (linear response of structures with rigid-body modes)
-/

namespace TMD

open Spec Finset

noncomputable section

theorem finDot_some (v x : ℕ → ℝ) (q : ℕ → Option ℝ) (n : ℕ) (hq : ∀ j < n, q j = some (x j)) :
    finDot v q n = some (∑ j ∈ range n, v j * x j) := by
  induction n with
  | zero => simp [finDot]
  | succ n ih => rw [finDot, ih fun j hj => hq j (by omega), hq n (by omega), sum_range_succ]

theorem finDot_none (v : ℕ → ℝ) (q : ℕ → Option ℝ) {n j : ℕ} (hj : j < n) (hq : q j = none) : finDot v q n = none := by
  induction n with
  | zero => omega
  | succ n ih =>
    rw [finDot]
    by_cases h : j = n
    · subst h; rw [hq]; split <;> simp_all
    · rw [ih (by omega)]

theorem finModalAmp_some {ab : ℝ × ℝ} {lam w : ℝ} (hl : 0 < lam) (f fs : ℝ)
    (hD : (lam - w^2)^2 + (w * (ab.1 + ab.2 * lam))^2 ≠ 0) :
    finModalAmp ab lam w f fs =
      (some (((Real.sqrt lam ^ 2 - w^2) * f
          - (2 * Real.sqrt lam * w * (ab.1 / Real.sqrt lam / 2 + ab.2 * Real.sqrt lam / 2)) * fs)
        / ((Real.sqrt lam ^ 2 - w^2)^2
          + (2 * Real.sqrt lam * w * (ab.1 / Real.sqrt lam / 2 + ab.2 * Real.sqrt lam / 2))^2)),
       some (((2 * Real.sqrt lam * w * (ab.1 / Real.sqrt lam / 2 + ab.2 * Real.sqrt lam / 2)) * f
          + (Real.sqrt lam ^ 2 - w^2) * fs)
        / ((Real.sqrt lam ^ 2 - w^2)^2
          + (2 * Real.sqrt lam * w * (ab.1 / Real.sqrt lam / 2 + ab.2 * Real.sqrt lam / 2))^2))) := by
  have h1 : ¬ lam < 0 := by linarith
  have h2 : Real.sqrt lam ≠ 0 := (Real.sqrt_pos.2 hl).ne'
  have h3 : Real.sqrt lam ^ 2 = lam := Real.sq_sqrt hl.le
  have h4 : (Real.sqrt lam ^ 2 - w^2)^2
      + (2 * Real.sqrt lam * w * (ab.1 / Real.sqrt lam / 2 + ab.2 * Real.sqrt lam / 2))^2 ≠ 0 := by
    rw [modal_z h3 hl, h3]; exact hD
  simp only [finModalAmp, finSqrt, if_neg h1, finModalZ, finDiv, if_neg h2, Option.map_some, if_neg h4]

theorem finModalAmp_none {ab : ℝ × ℝ} {lam w : ℝ} (hl : lam ≤ 0) (f fs : ℝ) :
    finModalAmp ab lam w f fs = (none, none) := by
  rcases hl.lt_or_eq with h | h
  · simp [finModalAmp, finSqrt, h]
  · subst h; simp [finModalAmp, finSqrt, finModalZ, finDiv]

/-- C126 (partial: no rigid-body mode among the modes used, none hit without damping): all values are finite and
those of `linearFrf`, which solve the equations of motion by C47. -/
theorem C126_partial (S : VibSys) {a b w : ℝ} (hab : S.ab = some (a, b)) (eigs : ℕ → (ℕ → ℝ) × (ℕ → ℕ → ℝ)) (neigs : ℕ)
    (hpos : ∀ j < min neigs S.nd, 0 < (eigs (min neigs S.nd)).1 j)
    (hD : ∀ j < min neigs S.nd, ((eigs (min neigs S.nd)).1 j - w^2)^2
      + (w * (a + b * (eigs (min neigs S.nd)).1 j))^2 ≠ 0) (Fl : ℕ → ℝ) (Fs : Option (ℕ → ℝ)) :
    ∃ X Y, linearFrf S w Fl eigs neigs Fs = .ok X ∧ linearFrfF S w Fl eigs neigs Fs = .ok Y ∧
      ∀ i < 2 * S.nd + 1, Y i = some (X i) := by
  have hne : (if neigs > S.nd then S.nd else neigs) = min neigs S.nd := by
    split <;> omega
  refine ⟨_, _, by simp only [linearFrf, hab]; rfl, by simp only [linearFrfF, hab]; rfl, ?_⟩
  intro i hi
  rw [hne]
  by_cases h1 : i < S.nd
  · rw [if_pos h1, finDot_some _ _ _ _ fun j hj => by rw [finModalAmp_some (hpos j hj) _ _ (hD j hj)]]
    simp only [hcat, if_pos h1, matVec]
    cases Fs <;> rfl
  · rw [if_neg h1]
    by_cases h2 : i < 2 * S.nd
    · rw [if_pos h2, finDot_some _ _ _ _ fun j hj => by rw [finModalAmp_some (hpos j hj) _ _ (hD j hj)]]
      simp only [hcat, if_neg h1, if_pos (show i - S.nd < S.nd by omega), matVec]
      cases Fs <;> rfl
    · rw [if_neg h2]
      simp only [hcat, if_neg h1, if_neg (show ¬ i - S.nd < S.nd by omega)]

/-- C126 violated: one rigid-body mode among the modes used (squared frequency zero, or slightly negative by
rounding) makes every entry of the response `nan`, for every frequency, damping and force, also for forces that
do not excite that mode. -/
theorem C126_rigid_violated (S : VibSys) {ab : ℝ × ℝ} (hab : S.ab = some ab) (w : ℝ)
    (eigs : ℕ → (ℕ → ℝ) × (ℕ → ℕ → ℝ)) (neigs : ℕ) {j : ℕ} (hj : j < min neigs S.nd)
    (hl : (eigs (min neigs S.nd)).1 j ≤ 0) (Fl : ℕ → ℝ) (Fs : Option (ℕ → ℝ)) :
    ∃ Y, linearFrfF S w Fl eigs neigs Fs = .ok Y ∧ ∀ i < 2 * S.nd, Y i = none := by
  have hne : (if neigs > S.nd then S.nd else neigs) = min neigs S.nd := by
    split <;> omega
  refine ⟨_, by simp only [linearFrfF, hab]; rfl, ?_⟩
  intro i hi
  rw [hne]
  by_cases h1 : i < S.nd
  · rw [if_pos h1]
    exact finDot_none _ _ hj (by rw [finModalAmp_none hl])
  · rw [if_neg h1, if_pos hi]
    exact finDot_none _ _ hj (by rw [finModalAmp_none hl])

/-- The response exists all the same: with a complete basis of modes, rigid-body modes included, every force has a
response at every frequency that hits no undamped mode. -/
theorem C126_exists (S : VibSys) (a b w : ℝ) (hC : ∀ d < S.nd, ∀ e < S.nd, S.C d e = a * S.M d e + b * S.K d e)
    (lam : ℕ → ℝ) (V : ℕ → ℕ → ℝ)
    (heig : ∀ i < S.nd, ∀ j < S.nd, ∑ k ∈ range S.nd, S.K i k * V k j = lam j * ∑ k ∈ range S.nd, S.M i k * V k j)
    (horth : ∀ i < S.nd, ∀ j < S.nd, ∑ k ∈ range S.nd, V k i * ∑ l ∈ range S.nd, S.M k l * V l j = if i = j then 1 else 0)
    (hD : ∀ j < S.nd, (lam j - w^2)^2 + (w * (a + b * lam j))^2 ≠ 0) (Fl Fs : ℕ → ℝ) :
    ∃ xc xs : ℕ → ℝ, ∀ d < S.nd,
      ∑ e ∈ range S.nd, ((S.K d e - w^2 * S.M d e) * xc e + w * S.C d e * xs e) = Fl d ∧
      ∑ e ∈ range S.nd, ((S.K d e - w^2 * S.M d e) * xs e - w * S.C d e * xc e) = Fs d := by
  let f := fun j => ∑ i ∈ range S.nd, V i j * Fl i
  let fs := fun j => ∑ i ∈ range S.nd, V i j * Fs i
  let x := fun j => lam j - w^2
  let c := fun j => w * (a + b * lam j)
  let qc := fun j => (x j * f j - c j * fs j) / ((x j)^2 + (c j)^2)
  let qs := fun j => (c j * f j + x j * fs j) / ((x j)^2 + (c j)^2)
  refine ⟨fun e => ∑ j ∈ range S.nd, V e j * qc j, fun e => ∑ j ∈ range S.nd, V e j * qs j, fun d hd => ⟨?_, ?_⟩⟩
  · refine Eq.trans ?_ (modal_core S.nd S.M S.K S.C V lam a b w 1 Fl qc qs heig horth hC (fun j hj => ?_) d hd)
    · exact sum_congr rfl fun e _ => by ring
    · have := (modal_q (f := f j) (fs := fs j) (hD j hj)).1
      rw [one_mul]
      exact this
  · refine Eq.trans ?_ (modal_core S.nd S.M S.K S.C V lam a b w (-1) Fs qs qc heig horth hC (fun j hj => ?_) d hd)
    · exact sum_congr rfl fun e _ => by ring
    · have := (modal_q (f := f j) (fs := fs j) (hD j hj)).2
      show (lam j - w^2) * qs j + -1 * w * (a + b * lam j) * qc j = fs j
      rw [← this]
      simp only [qs, qc, x, c]
      ring

/-- C126 violated, concretely: two unit masses joined by a spring of stiffness 2, pushed apart at frequency 1. The
modes are the rigid-body motion and the opposite motion with squared frequency 4. The response is `1/3` and `-1/3`;
`linear_frf` returns `nan`. -/
theorem C126_violated : ∃ (S : VibSys) (lam : ℕ → ℝ) (V : ℕ → ℕ → ℝ) (Fl : ℕ → ℝ) (Y : ℕ → Option ℝ),
    S.nd = 2 ∧
    (∀ i < 2, ∀ j < 2, ∑ k ∈ range 2, S.K i k * V k j = lam j * ∑ k ∈ range 2, S.M i k * V k j) ∧
    (∀ i < 2, ∀ j < 2, ∑ k ∈ range 2, V k i * ∑ l ∈ range 2, S.M k l * V l j = if i = j then 1 else 0) ∧
    (∀ d < 2, ∑ e ∈ range 2, (S.K d e - 1^2 * S.M d e) * (if e = 0 then 1/3 else -1/3) = Fl d) ∧
    linearFrfF S 1 Fl (fun _ => (lam, V)) 3 none = .ok Y ∧ ∀ i < 4, Y i = none := by
  have hs : Real.sqrt 2 ≠ 0 := by positivity
  have h2 : Real.sqrt 2 * Real.sqrt 2 = 2 := Real.mul_self_sqrt (by norm_num)
  let S : VibSys := ⟨2, fun i j => if i = j then 1 else 0, fun i j => if i = j then 2 else -2, fun _ _ => 0,
    some (0, 0), []⟩
  let lam : ℕ → ℝ := fun j => if j = 0 then 0 else 4
  let V : ℕ → ℕ → ℝ := fun i j => if i = 1 ∧ j = 1 then -(1 / Real.sqrt 2) else 1 / Real.sqrt 2
  obtain ⟨Y, h, hY⟩ := C126_rigid_violated S (ab := (0, 0)) rfl 1 (fun _ => (lam, V)) 3 (j := 0) (by simp [S])
    (by simp [lam]) (fun d => if d = 0 then 1 else -1) none
  refine ⟨S, lam, V, _, Y, rfl, ?_, ?_, ?_, h, hY⟩
  · intro i hi j hj
    interval_cases i <;> interval_cases j <;> simp [S, lam, V, sum_range_succ] <;> ring
  · intro i hi j hj
    interval_cases i <;> interval_cases j <;> simp [S, V, sum_range_succ] <;> field_simp <;> linarith
  · intro d hd
    interval_cases d <;> norm_num [S, sum_range_succ]

end

end TMD
