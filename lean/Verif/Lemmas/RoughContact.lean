import Verif.Spec.RoughContact
import Verif.Model.RoughContact
import Verif.Lemmas.Slider
import Mathlib.Tactic.Positivity
import Mathlib.Tactic.FieldSimp
import Mathlib.Tactic.NormNum

/-! # Lemmas on rough contact -/

namespace TMD

open Spec

noncomputable section

/-! ## Time-varying sliders -/

theorem sum_window (S : ℕ → ℝ) (N : ℕ) (h : ∀ i, S (i + N) = S i) (i : ℕ) :
    ∑ k ∈ Finset.range N, S (i + k) = ∑ k ∈ Finset.range N, S k := by
  induction i with
  | zero => simp
  | succ i ih =>
    have e1 := Finset.sum_range_succ (fun k => S (i + k)) N
    have e2 := Finset.sum_range_succ' (fun k => S (i + k)) N
    rw [e1] at e2
    simp only [add_zero, h i] at e2
    rw [← ih]
    have : ∀ k ∈ Finset.range N, S (i + 1 + k) = S (i + (k + 1)) := fun k _ => by
      rw [show i + 1 + k = i + (k + 1) by ring]
    rw [Finset.sum_congr rfl this]
    linarith

theorem vslider_abs (k L u : ℕ → ℝ) (hL : ∀ i, 0 ≤ L i) (up fp : ℝ) (i : ℕ) :
    |vslider k L u up fp i| ≤ L i := by
  cases i with
  | zero => exact clip_abs (hL 0) _
  | succ i => exact clip_abs (hL (i + 1)) _

/-- No drift: periodic from the last instant of the first cycle on. -/
theorem vslider_periodic (N : ℕ) (hN : 0 < N) (k L u : ℕ → ℝ) (hL : ∀ i < N, 0 ≤ L i) (hd : cycleDrift N k u = 0)
    (up fp : ℝ) (i : ℕ) (hi : N ≤ i + 1) :
    vslider (periodic N k) (periodic N L) (periodic N u) up fp (i + N)
      = vslider (periodic N k) (periodic N L) (periodic N u) up fp i := by
  let S : ℕ → ℝ := fun j => periodic N k (j + N - 1) * (periodic N u (j + N - 1) - periodic N u (j + N + N - 2))
  let φ : ℕ → ℝ → ℝ := fun j x => clip (periodic N L (j + N - 1)) (S j + x)
  let G : ℕ → ℝ := fun j => match j with
    | 0 => fp + k 0 * (u (N-1) - up)
    | j + 1 => vslider (periodic N k) (periodic N L) (periodic N u) up fp j
  have hc : ∀ (v : ℕ → ℝ) j, periodic N v (j + 1 + N - 1) = periodic N v j := by
    intro v j; rw [show j + 1 + N - 1 = j + N by omega, periodic_add]
  have hSp : ∀ j, S (j + N) = S j := by
    intro j
    simp only [S]
    rw [show j + N + N - 1 = (j + N - 1) + N by omega, periodic_add, periodic_add,
      show j + N + N + N - 2 = (j + N + N - 2) + N by omega, periodic_add]
  have hS1 : ∀ j, S (1 + j) = periodic N k j * (periodic N u j - periodic N u (j + N - 1)) := by
    intro j
    simp only [S]
    rw [show 1 + j + N - 1 = j + N by omega, periodic_add, periodic_add,
      show 1 + j + N + N - 2 = (j + N - 1) + N by omega, periodic_add]
  have key := two_cycles φ S (fun j => ClampShift.clip (hL _ (Nat.mod_lt _ hN)) _) N hN (fun j => by
      funext x
      simp only [φ]
      rw [hSp, show j + N + N - 1 = (j + N - 1) + N by omega, periodic_add])
    (fun j => by
      have e := sum_window (fun i => S (1 + i)) N (fun i => by
        rw [show 1 + (i + N) = (1 + i) + N by ring, hSp]) j
      have e' : ∀ x ∈ Finset.range N, S (j + 1 + x) = S (1 + (j + x)) := fun x _ => by
        rw [show j + 1 + x = 1 + (j + x) by ring]
      rw [Finset.sum_congr rfl e', e, ← hd]
      unfold cycleDrift
      refine Finset.sum_congr rfl fun x hx => ?_
      rw [hS1]
      unfold periodic
      rw [Nat.mod_eq_of_lt (Finset.mem_range.1 hx)])
    G (fun j => by
      cases j with
      | zero =>
        simp only [G, φ]
        rw [show S (0 + 1) = S (1 + 0) from rfl, hS1, hc]
        show clip _ _ = _
        simp only [periodic, Nat.zero_mod, Nat.zero_add, Nat.mod_eq_of_lt (show N - 1 < N by omega)]
        congr 1; ring
      | succ j =>
        simp only [G, φ]
        rw [show S (j + 1 + 1) = S (1 + (j + 1)) by rw [Nat.add_comm], hS1, hc,
          show j + 1 + N - 1 = j + N by omega, periodic_add]
        rfl)
    (i+1) hi
  rw [show i + 1 + N = (i + N) + 1 by ring] at key
  exact key

/-- A slider without load at instant `t0` of the period is periodic from there on. -/
theorem vslider_released (N : ℕ) (k L u : ℕ → ℝ) (t0 : ℕ) (h0 : periodic N L t0 = 0)
    (up fp : ℝ) (j : ℕ) :
    vslider (periodic N k) (periodic N L) (periodic N u) up fp (t0 + j + N)
      = vslider (periodic N k) (periodic N L) (periodic N u) up fp (t0 + j) := by
  have zero : ∀ i, periodic N L i = 0 →
      vslider (periodic N k) (periodic N L) (periodic N u) up fp i = 0 := by
    intro i hi
    have := vslider_abs (periodic N k) (fun i => |periodic N L i|) (periodic N u) (fun i => abs_nonneg _) up fp i
    cases i with
    | zero => unfold vslider clip; rw [hi]; simp
    | succ i => unfold vslider clip; rw [hi]; simp
  induction j with
  | zero =>
    rw [Nat.add_zero, zero t0 h0, zero (t0 + N) (by rw [periodic_add]; exact h0)]
  | succ j ih =>
    rw [show t0 + (j + 1) + N = (t0 + j + N) + 1 by ring, show t0 + (j + 1) = (t0 + j) + 1 by ring]
    unfold vslider
    rw [show t0 + j + N + 1 = t0 + j + 1 + N by ring, periodic_add, periodic_add, periodic_add, periodic_add, ih]

/-! ## Normal contact of one asperity -/

theorem posPart_nonneg (x : ℝ) : 0 ≤ posPart x := by unfold posPart; split <;> linarith

theorem posPart_pos {x : ℝ} : 0 < posPart x ↔ 0 < x := by
  unfold posPart; split
  · rfl
  · constructor <;> intro h <;> linarith

theorem posPart_of_pos {x : ℝ} (h : 0 < x) : posPart x = x := if_pos h.le

theorem posPart_of_nonpos {x : ℝ} (h : x ≤ 0) : posPart x = 0 := by
  unfold posPart; split
  · linarith
  · rfl

/-- Distance from the permanent deformation to the maximum. -/
theorem unl_deltabar {dm F R E : ℝ} (hR : 0 < R) (hE : 0 < E) (hd : 0 < dm) :
    dm - dm*(1 - F/(4/3*E*Real.sqrt R*dm^(1.5 : ℝ))) = F / (4/3*E*Real.sqrt R*Real.sqrt dm) := by
  have hs : 0 < Real.sqrt R := Real.sqrt_pos.2 hR
  have hs' : 0 < Real.sqrt dm := Real.sqrt_pos.2 hd
  have e : dm^(1.5 : ℝ) = dm * Real.sqrt dm := by
    rw [show (1.5 : ℝ) = 1 + 1/2 by norm_num, Real.rpow_add hd, Real.rpow_one, ← Real.sqrt_eq_rpow]
  rw [e]
  field_simp
  ring

theorem unloading_never {un dm R E : ℝ} {Fm : Flt} (hd : dm ≤ 0) :
    (unloading un dm Fm R E).fn = some 0 ∧ (unloading un dm Fm R E).a = some 0 := by
  unfold unloading
  cases Fm with
  | none => simp [posPartF]
  | some F => simp [posPartF, not_lt.2 hd]

theorem unloading_nan {un dm R E : ℝ} :
    (unloading un dm none R E).fn = some 0 ∧ (unloading un dm none R E).a = some 0 := by
  unfold unloading
  simp [posPartF]

theorem unloading_pos {un dm F R E : ℝ} (hd : 0 < dm) :
    let b := dm*(1 - F/(4/3*E*Real.sqrt R*dm^(1.5 : ℝ)))
    (un ≤ b → (unloading un dm (some F) R E).fn = some 0 ∧ (unloading un dm (some F) R E).a = some 0) ∧
    (b < un → b < dm →
      (unloading un dm (some F) R E).fn
        = some (4/3*E*Real.sqrt (F^2/((4/3*E)^2 * (dm - b)^3))*(un - b)^(1.5 : ℝ)) ∧
      (unloading un dm (some F) R E).a = some (Real.sqrt (F^2/((4/3*E)^2 * (dm - b)^3)*(un - b)))) := by
  intro b
  constructor
  · intro h
    have : posPart (un - b) = 0 := posPart_of_nonpos (by linarith)
    unfold unloading
    simp only [if_pos hd, Option.map_some, posPartF]
    rw [show un - dm * (1 - F / (4 / 3 * E * √R * dm ^ (1.5 : ℝ))) = un - b from rfl, this]
    simp
  · intro h h'
    have e1 : posPart (un - b) = un - b := posPart_of_pos (by linarith)
    have e2 : posPart (dm - b) = dm - b := posPart_of_pos (by linarith)
    unfold unloading
    simp only [if_pos hd, Option.map_some, posPartF]
    rw [show un - dm * (1 - F / (4 / 3 * E * √R * dm ^ (1.5 : ℝ))) = un - b from rfl,
      show dm - dm * (1 - F / (4 / 3 * E * √R * dm ^ (1.5 : ℝ))) = dm - b from rfl, e1, e2,
      if_pos (by linarith), if_neg (by linarith), if_pos (by linarith)]
    exact ⟨rfl, rfl⟩

/-- Below the maximum the values are finite and not negative. -/
theorem unloading_ok {un dm R E : ℝ} (hE : 0 ≤ E) (Fm : Flt) (h : un ≤ dm) :
    ∃ f a, (unloading un dm Fm R E).fn = some f ∧ (unloading un dm Fm R E).a = some a ∧ 0 ≤ f ∧ 0 ≤ a := by
  cases Fm with
  | none => exact ⟨0, 0, unloading_nan.1, unloading_nan.2, le_rfl, le_rfl⟩
  | some F =>
    rcases le_or_gt dm 0 with hd | hd
    · exact ⟨0, 0, (unloading_never hd).1, (unloading_never hd).2, le_rfl, le_rfl⟩
    · obtain ⟨h1, h2⟩ := unloading_pos (un := un) (F := F) (R := R) (E := E) hd
      rcases le_or_gt un (dm*(1 - F/(4/3*E*Real.sqrt R*dm^(1.5 : ℝ)))) with hb | hb
      · exact ⟨0, 0, (h1 hb).1, (h1 hb).2, le_rfl, le_rfl⟩
      · obtain ⟨h3, h4⟩ := h2 hb (lt_of_lt_of_le hb h)
        refine ⟨_, _, h3, h4, ?_, Real.sqrt_nonneg _⟩
        have : 0 ≤ (un - dm*(1 - F/(4/3*E*Real.sqrt R*dm^(1.5 : ℝ))))^(1.5 : ℝ) :=
          Real.rpow_nonneg (by linarith) _
        positivity

theorem rpow_three_half {x : ℝ} (hx : 0 < x) : x ^ (1.5 : ℝ) = x * Real.sqrt x := by
  rw [show (1.5 : ℝ) = 1 + 1/2 by norm_num, Real.rpow_add hx, Real.rpow_one, ← Real.sqrt_eq_rpow]

theorem elLoading_fn {un R E : ℝ} : (elLoading un R E).fn = some (hertz R E un) := by
  unfold elLoading hertz
  simp only [Option.some.injEq]
  split
  · rename_i h
    rw [posPart_of_pos h, rpow_three_half (by linarith), show (3/2 : ℝ) = 1.5 by norm_num, rpow_three_half h,
      Real.sqrt_mul (by norm_num), Real.sqrt_div h.le]
    have h2 : Real.sqrt 2 * Real.sqrt 2 = 2 := Real.mul_self_sqrt (by norm_num)
    have h2' : Real.sqrt 2 ≠ 0 := by positivity
    field_simp
  · rename_i h
    rw [posPart_of_nonpos (not_lt.1 h), zero_div, Real.zero_rpow (by norm_num), mul_zero]

theorem elLoading_a {un R E : ℝ} : (elLoading un R E).a = some (if 0 < un then Real.sqrt (R * un) else 0) := by
  unfold elLoading
  simp only [Option.some.injEq]
  split
  · rename_i h
    rw [posPart_of_pos h, show 2 * R * (un / 2) = R * un by ring]
  · rfl

/-- Unloading from a point of the Hertzian curve. -/
theorem unloading_hertz {un dm R E : ℝ} (hR : 0 < R) (hE : 0 < E) (hd : 0 < dm) :
    (unloading un dm (some (hertz R E dm)) R E).fn = some (hertz R E un) ∧
    (unloading un dm (some (hertz R E dm)) R E).a = some (if 0 < un then Real.sqrt (R * un) else 0) ∧
    (unloading un dm (some (hertz R E dm)) R E).deltabar = some 0 := by
  have hs : 0 < Real.sqrt R := Real.sqrt_pos.2 hR
  have hF : hertz R E dm = 4/3*E*Real.sqrt R*dm^(1.5 : ℝ) := by
    unfold hertz; rw [if_pos hd]; norm_num
  have hp : 0 < dm^(1.5 : ℝ) := Real.rpow_pos_of_pos hd _
  have hb : dm*(1 - hertz R E dm/(4/3*E*Real.sqrt R*dm^(1.5 : ℝ))) = 0 := by
    rw [hF, div_self (by positivity)]; ring
  have hRe : hertz R E dm ^ 2 / ((4/3*E)^2 * dm^3) = R := by
    rw [hF, rpow_three_half hd]
    have h1 := Real.mul_self_sqrt hR.le
    have h2 := Real.mul_self_sqrt hd.le
    rw [div_eq_iff (by positivity)]
    calc (4 / 3 * E * √R * (dm * √dm)) ^ 2 = (4/3*E)^2 * (√R * √R) * (dm^2 * (√dm * √dm)) := by ring
      _ = _ := by rw [h1, h2]; ring
  obtain ⟨h1, h2⟩ := unloading_pos (un := un) (F := hertz R E dm) (R := R) (E := E) hd
  rw [hb] at h1 h2
  refine ⟨?_, ?_, ?_⟩
  · rcases le_or_gt un 0 with hu | hu
    · rw [(h1 hu).1]; unfold hertz; rw [if_neg (not_lt.2 hu)]
    · rw [(h2 hu hd).1, sub_zero, sub_zero, hRe]; unfold hertz; rw [if_pos hu]; norm_num
  · rcases le_or_gt un 0 with hu | hu
    · rw [(h1 hu).2, if_neg (not_lt.2 hu)]
    · rw [(h2 hu hd).2, sub_zero, sub_zero, hRe, if_pos hu]
  · unfold unloading
    simp only [if_pos hd, hb]

/-! ## The time loop -/

theorem weighted_some (w : ℕ → ℝ) (f : ℕ → Flt) (x : ℕ → ℝ) (n : ℕ) (h : ∀ k < n, f k = some (x k)) :
    weighted w f n = some (∑ k ∈ Finset.range n, w k * x k) := by
  induction n with
  | zero => rfl
  | succ n ih =>
    rw [weighted, ih fun k hk => h k (by omega), h n (by omega), Finset.sum_range_succ]

theorem unMax_ge (Nt : ℕ) (u : ℕ → ℕ → ℝ) : u 0 2 ≤ unMax Nt u ∧ ∀ t < Nt, u t 2 ≤ unMax Nt u := by
  unfold unMax
  induction Nt with
  | zero => simp
  | succ n ih =>
    rw [List.range_succ, List.foldl_append]
    simp only [List.foldl_cons, List.foldl_nil]
    refine ⟨le_trans ih.1 (le_max_left _ _), fun t ht => ?_⟩
    rcases Nat.lt_succ_iff_lt_or_eq.1 ht with h | h
    · exact le_trans (ih.2 t h) (le_max_left _ _)
    · subst h; exact le_max_right _ _

theorem unMax_mem (Nt : ℕ) (hN : 0 < Nt) (u : ℕ → ℕ → ℝ) : ∃ t < Nt, unMax Nt u = u t 2 := by
  have : ∀ n, ∃ t, (t = 0 ∨ t < n) ∧ (List.range n).foldl (fun x t => max x (u t 2)) (u 0 2) = u t 2 := by
    intro n
    induction n with
    | zero => exact ⟨0, Or.inl rfl, rfl⟩
    | succ n ih =>
      obtain ⟨t, ht, e⟩ := ih
      rw [List.range_succ, List.foldl_append]
      simp only [List.foldl_cons, List.foldl_nil]
      rw [e]
      rcases le_total (u t 2) (u n 2) with h | h
      · exact ⟨n, Or.inr (by omega), max_eq_right h⟩
      · exact ⟨t, by omega, max_eq_left h⟩
  obtain ⟨t, ht, e⟩ := this Nt
  exact ⟨t, by omega, e⟩

/-- Several cycles as one loop over all instants. -/
theorem repeats_flat {α : Type} (body : α → ℕ → α) (N r : ℕ) (x : α) :
    (List.range r).foldl (fun H _ => foriLoop body N H) x
      = (List.range (r * N)).foldl (fun H s => body H (s % N)) x := by
  induction r with
  | zero => simp
  | succ r ih =>
    rw [List.range_succ, List.foldl_append, ih, Nat.succ_mul, List.range_add, List.foldl_append]
    simp only [List.foldl_cons, List.foldl_nil]
    unfold foriLoop
    rw [List.foldl_map]
    apply List.foldl_ext
    intro a b hb
    rw [Nat.mul_comm r N, Nat.mul_add_mod, Nat.mod_eq_of_lt (List.mem_range.1 hb)]

section Loop

variable (m : Mat) (g : Asperities) (Nt : ℕ) (u : ℕ → ℕ → ℝ)

/-- Normal force of asperity `k` at instant `t`. -/
def aspN (k t : ℕ) : ℝ :=
  (unloading (u t 2 - g.meso - g.gaps k) (cycleMax Nt g u k) (cycleFm m Nt g u k) m.Re m.Estar).fn.getD 0

/-- Its contact radius. -/
def aspA (k t : ℕ) : ℝ :=
  (unloading (u t 2 - g.meso - g.gaps k) (cycleMax Nt g u k) (cycleFm m Nt g u k) m.Re m.Estar).a.getD 0

theorem asp_ok (hE : 0 ≤ m.Estar) (k t : ℕ) (ht : t < Nt) :
    (unloading (u t 2 - g.meso - g.gaps k) (cycleMax Nt g u k) (cycleFm m Nt g u k) m.Re m.Estar).fn
      = some (aspN m g Nt u k t) ∧
    (unloading (u t 2 - g.meso - g.gaps k) (cycleMax Nt g u k) (cycleFm m Nt g u k) m.Re m.Estar).a
      = some (aspA m g Nt u k t) ∧ 0 ≤ aspN m g Nt u k t ∧ 0 ≤ aspA m g Nt u k t := by
  obtain ⟨f, a, h1, h2, h3, h4⟩ := unloading_ok (R := m.Re) hE (cycleFm m Nt g u k)
    (show u t 2 - g.meso - g.gaps k ≤ cycleMax Nt g u k by
      have := (unMax_ge Nt u).2 t ht; unfold cycleMax; linarith)
  unfold aspN aspA
  rw [h1, h2]
  exact ⟨rfl, rfl, h3, h4⟩

/-- Tangential force of asperity `k` in direction `d` at step `s` of the loop. -/
def aspT (u0 : ℕ → ℝ) (mu : ℝ) (k d : ℕ) : ℕ → ℝ :=
  vslider (periodic Nt fun t => 8 * m.Gstar * aspA m g Nt u k t) (periodic Nt fun t => mu * aspN m g Nt u k t)
    (periodic Nt fun t => u t d) (u0 d) 0

/-- Total force in column `d` at step `s`. -/
def roughTotal (u0 : ℕ → ℝ) (mu : ℝ) (s d : ℕ) : ℝ :=
  if d < 2 then ∑ k ∈ Finset.range g.nasp, g.weights k * aspT m g Nt u u0 mu k d s
  else ∑ k ∈ Finset.range g.nasp, g.weights k * aspN m g Nt u k (s % Nt)

theorem tangentialAsp_clip (x x0 f0 fn a G mu : ℝ) :
    tangentialAsp x x0 (some f0) (some fn) (some a) G mu
      = some (max (-(mu*fn)) (min (8*G*a*(x - x0) + f0) (mu*fn))) := by
  unfold tangentialAsp
  simp only [Option.some.injEq]
  exact max_comm _ _

theorem rough_steps (hE : 0 ≤ m.Estar) (hN : 0 < Nt) (u0 : ℕ → ℝ) (mu : ℝ) (s : ℕ) :
    let H := (List.range s).foldl (fun H s => roughBody m g u mu (cycleMax Nt g u) (cycleFm m Nt g u) H (s % Nt))
      ⟨fun _ _ => some 0, u0, fun _ _ => some 0⟩
    (H.uxyn0 = match s with | 0 => u0 | s + 1 => u (s % Nt)) ∧
    (∀ k d, H.fxy0 k d = match s with | 0 => some 0 | s + 1 => some (aspT m g Nt u u0 mu k d s)) ∧
    ∀ s' < s, s ≤ s' + Nt → ∀ d, H.ft (s' % Nt) d = some (roughTotal m g Nt u u0 mu s' d) := by
  induction s with
  | zero => exact ⟨rfl, fun _ _ => rfl, fun s' h => absurd h (Nat.not_lt_zero _)⟩
  | succ s ih =>
    rw [List.range_succ, List.foldl_append]
    simp only [List.foldl_cons, List.foldl_nil]
    generalize hH0 : (List.range s).foldl (fun H s => roughBody m g u mu (cycleMax Nt g u) (cycleFm m Nt g u) H (s % Nt))
      ⟨fun _ _ => some 0, u0, fun _ _ => some 0⟩ = H0 at ih ⊢
    generalize hH : roughBody m g u mu (cycleMax Nt g u) (cycleFm m Nt g u) H0 (s % Nt) = H
    obtain ⟨i1, i2, i3⟩ := ih
    have hm : s % Nt < Nt := Nat.mod_lt _ hN
    have hT : ∀ k d, H.fxy0 k d = some (aspT m g Nt u u0 mu k d s) := by
      intro k d
      obtain ⟨a1, a2, -, -⟩ := asp_ok m g Nt u hE k (s % Nt) hm
      rw [← hH]
      show tangentialAsp _ _ _ _ _ _ _ = _
      rw [a1, a2, i2 k d, i1]
      cases s with
      | zero =>
        simp only
        rw [tangentialAsp_clip]
        rfl
      | succ s =>
        simp only
        rw [tangentialAsp_clip]
        rfl
    refine ⟨by rw [← hH]; rfl, hT, fun s' h1 h2 d => ?_⟩
    rcases Nat.lt_succ_iff_lt_or_eq.1 h1 with h | h
    · have hne : s' % Nt ≠ s % Nt := by
        intro e
        have := Nat.le_of_dvd (by omega) ((Nat.modEq_iff_dvd' h.le).1 e)
        omega
      rw [← hH]
      show setRow H0.ft (s % Nt) _ (s' % Nt) d = _
      unfold setRow
      rw [if_neg hne]
      exact i3 s' h (by omega) d
    · subst h
      rw [← hH]
      show setRow H0.ft (s' % Nt) _ (s' % Nt) d = _
      unfold setRow
      rw [if_pos rfl]
      unfold roughTotal
      beta_reduce
      split
      · exact weighted_some _ _ _ _ fun k _ => by have := hT k d; rw [← hH] at this; exact this
      · exact weighted_some _ _ _ _ fun k _ => (asp_ok m g Nt u hE k (s' % Nt) hm).1

/-- The result of `repeats ≥ 1` cycles. -/
theorem roughHistory_eq (hE : 0 ≤ m.Estar) (u0 : ℕ → ℝ) (mu : ℝ) (r t d : ℕ) (ht : t < Nt) :
    roughHistory m g Nt u u0 mu (r + 1) t d = some (roughTotal m g Nt u u0 mu (r * Nt + t) d) := by
  unfold roughHistory
  rw [repeats_flat]
  obtain ⟨-, -, h⟩ := rough_steps m g Nt u hE (by omega) u0 mu ((r + 1) * Nt)
  have := h (r * Nt + t) (by rw [Nat.succ_mul]; omega) (by rw [Nat.succ_mul]; omega) d
  rw [Nat.mul_comm r Nt, Nat.mul_add_mod, Nat.mod_eq_of_lt ht, ← Nat.mul_comm r Nt] at this
  exact this

end Loop

end

end TMD
