import Verif.Lemmas.MifContact
import Verif.Lemmas.RoughStatic
import Verif.Props.RoughStatic
import Mathlib.Tactic.IntervalCases

/-!
# Properties C99 - C101: Mindlin-Iwan fit of the asperities
-/

namespace TMD

open Spec Finset

noncomputable section

section

variable (m : Mat) (g : Asperities) (Nr Nt : ℕ) (u : ℕ → ℕ → ℝ)

/-! ## C99: friction limit -/

/-- C99: in every cycle and at every instant the force is finite, the normal force is that of the other tangential model and
not negative, and the friction force in each direction is at most `mu` times the normal force. -/
theorem C99_friction (hE : 0 ≤ m.Estar) (hNr : 2 ≤ Nr) {mu : ℝ} (hmu : 0 ≤ mu) (hw : ∀ k < g.nasp, 0 ≤ g.weights k)
    (u0 : ℕ → ℝ) (r t d : ℕ) (ht : t < Nt) (hd : d < 2) :
    ∃ T N, mifHistory m g Nr Nt u u0 mu (r + 1) t d = some T ∧ mifHistory m g Nr Nt u u0 mu (r + 1) t 2 = some N ∧
      roughHistory m g Nt u u0 mu (r + 1) t 2 = some N ∧ 0 ≤ N ∧ |T| ≤ mu * N := by
  have hN : 0 < Nt := by omega
  refine ⟨_, _, mifHistory_eq m g Nr Nt u hE u0 mu r t d ht, mifHistory_eq m g Nr Nt u hE u0 mu r t 2 ht, ?_, ?_, ?_⟩
  · rw [roughHistory_eq m g Nt u hE u0 mu r t 2 ht]
    unfold roughTotal mifTotal
    rw [if_neg (by omega), if_neg (by omega)]
  · unfold mifTotal
    rw [if_neg (by omega)]
    exact sum_nonneg fun k hk => mul_nonneg (hw k (mem_range.1 hk)) (asp_ok m g Nt u hE k _ (Nat.mod_lt _ hN)).2.2.1
  · unfold mifTotal
    rw [if_pos hd, if_neg (by omega), mul_sum]
    refine (abs_sum_le_sum_abs _ _).trans (sum_le_sum fun k hk => ?_)
    have hk := hw k (mem_range.1 hk)
    have hm := Nat.mod_lt (r * Nt + t) hN
    rw [abs_mul, abs_of_nonneg hk]
    have hlim := mifForce_abs hNr (asp_ok m g Nt u hE k _ hm).2.2.1 (fun h => (asp_pos m g Nt u hE k _ hm h).ne') hmu
      (t := fun j => (mifSeq m g Nr Nt u u0 mu k (r * Nt + t + 1)).t j d) fun j _ => by
        show |mifTraction _ _ _ _ _ _ _ _ _ _| ≤ _
        rw [mifTraction_clip]
        exact clip_abs (mul_nonneg hmu (mifPressure_nonneg _ _ _ _)) _
    calc g.weights k * _ ≤ g.weights k * (mu * aspN m g Nt u k ((r * Nt + t) % Nt)) := mul_le_mul_of_nonneg_left hlim hk
      _ = _ := by ring

end

theorem weighted_parts {w : ℕ → ℝ} {f : ℕ → Flt} {n : ℕ} {S : ℝ} (h : weighted w f n = some S) :
    ∃ x : ℕ → ℝ, (∀ k < n, f k = some (x k)) ∧ S = ∑ k ∈ range n, w k * x k := by
  have hx : ∀ k < n, f k = some ((f k).getD 0) := by
    induction n generalizing S with
    | zero => exact fun k hk => absurd hk (Nat.not_lt_zero _)
    | succ n ih =>
      rw [weighted] at h
      cases e1 : weighted w f n with
      | none => rw [e1] at h; cases h
      | some s =>
        rw [e1] at h
        cases e2 : f n with
        | none => rw [e2] at h; cases h
        | some y =>
          intro k hk
          rcases Nat.lt_succ_iff_lt_or_eq.1 hk with hk | rfl
          · exact ih e1 k hk
          · rw [e2]; rfl
  refine ⟨fun k => (f k).getD 0, hx, ?_⟩
  rw [weighted_some w f _ n hx, Option.some.injEq] at h
  exact h.symm

/-- The contact radius of a static evaluation is not negative and the normal force neither. -/
theorem general_nonneg {m : Mat} (h : m.Good) (hEt : m.Etan < m.Emod) {un dm : ℝ} {F : Flt} {f a : ℝ}
    (hf : (general m un dm F).fn = some f) (ha : (general m un dm F).a = some a) : 0 ≤ f ∧ 0 ≤ a := by
  unfold general at hf ha
  simp only at hf ha
  split_ifs at hf ha with h1 h2
  · have hu : 0 < un := by nlinarith [h.dy]
    obtain ⟨f', a', e1, e2, h3⟩ := plLoading_pos h hu
    rw [e1, Option.some.injEq] at hf
    refine ⟨hf ▸ h3.le, ?_⟩
    have ha' : a = m.plRadius un := by
      unfold plLoading at ha
      simpa using ha.symm
    rw [ha']
    unfold Mat.plRadius
    simp only
    set Y : ℝ := if m.Etan / m.Emod < 1/2^52 then 0 else
      -2*Real.sqrt (m.Emod/m.Sys)*(m.Etan/m.Emod)^(1 - ((posPart un-m.dy)/2)/(m.Re*2))
      / ((4 - 3*Real.exp (-2*Real.sqrt (m.Emod/m.Sys)*m.Etan/m.Emod))*(1 - m.Etan/m.Emod)) with hY
    have hY0 : Y ≤ 0 := by
      rw [hY]
      split_ifs
      · exact le_rfl
      · have hr : 0 ≤ m.Etan/m.Emod := div_nonneg h.Etan h.Emod.le
        have hr1 : 0 ≤ 1 - m.Etan/m.Emod := sub_nonneg.2 ((div_le_one h.Emod).2 hEt.le)
        have he : Real.exp (-2*Real.sqrt (m.Emod/m.Sys)*m.Etan/m.Emod) ≤ 1 := by
          refine Real.exp_le_one_iff.2 ?_
          rw [mul_div_assoc]
          have : 0 ≤ Real.sqrt (m.Emod/m.Sys) * (m.Etan/m.Emod) := mul_nonneg (Real.sqrt_nonneg _) hr
          nlinarith
        refine div_nonpos_of_nonpos_of_nonneg ?_ (mul_nonneg (by linarith) hr1)
        have : 0 ≤ Real.sqrt (m.Emod/m.Sys)*(m.Etan/m.Emod)^(1 - ((posPart un-m.dy)/2)/(m.Re*2)) :=
          mul_nonneg (Real.sqrt_nonneg _) (Real.rpow_nonneg hr _)
        nlinarith
    have hY1 : Real.exp Y ≤ 1 := Real.exp_le_one_iff.2 hY0
    have hY2 := Real.exp_pos Y
    generalize Real.exp Y = y at hY1 hY2
    have h1 : 0 ≤ √(2 * m.Re * (posPart un / 2)) := Real.sqrt_nonneg _
    have h2 : 0 ≤ 2 * m.Re * (Real.pi * m.C * m.Sys / (2 * 2 * m.Estar)) * √(posPart un / m.dy * (posPart un / m.dy / 1.9) ^ (0.14 * Real.exp (23 * m.Sys / (2 * m.Estar)))) := by
      have := Real.pi_pos
      have := m.C_pos
      have := h.Re
      have := h.Sys
      have := h.Estar
      positivity
    generalize √(2 * m.Re * (posPart un / 2)) = x1 at *
    generalize 2 * m.Re * (Real.pi * m.C * m.Sys / (2 * 2 * m.Estar)) * √(posPart un / m.dy * (posPart un / m.dy / 1.9) ^ (0.14 * Real.exp (23 * m.Sys / (2 * m.Estar)))) = x2 at *
    nlinarith
  · rw [elLoading_fn, Option.some.injEq] at hf
    rw [elLoading_a, Option.some.injEq] at ha
    refine ⟨hf ▸ hertz_nonneg h.Re h.Estar, ?_⟩
    rw [← ha]
    split_ifs
    · exact Real.sqrt_nonneg _
    · exact le_rfl
  · have hf' : ∀ (p : ℝ) (R : Flt), (if 0 < p then R.map fun R => 4/3*m.Estar*Real.sqrt R*p^(1.5 : ℝ) else some 0) = some f →
        0 ≤ f := by
      intro p R hf
      by_cases hp : 0 < p
      · rw [if_pos hp] at hf
        obtain ⟨R1, -, rfl⟩ := Option.map_eq_some_iff.1 hf
        have := h.Estar
        positivity
      · rw [if_neg hp, Option.some.injEq] at hf
        exact hf.le
    have ha' : ∀ (p : ℝ) (R : Flt), (if 0 < p then R.map fun R => Real.sqrt (R*p) else some 0) = some a → 0 ≤ a := by
      intro p R hf
      by_cases hp : 0 < p
      · rw [if_pos hp] at hf
        obtain ⟨R1, -, rfl⟩ := Option.map_eq_some_iff.1 hf
        exact Real.sqrt_nonneg _
      · rw [if_neg hp, Option.some.injEq] at hf
        exact hf.le
    exact ⟨hf' _ _ hf, ha' _ _ ha⟩

/-- The parts of a finite static evaluation. -/
theorem mif_static_parts {m : Mat} {g : Asperities} {Nr : ℕ} {o : MifObj} {u : ℕ → ℝ} {upd : Bool} {d : ℕ} (hd : d < 2)
    {T N : ℝ} (hT : (o.force m g Nr u upd).1 d = some T) (hN : (o.force m g Nr u upd).1 2 = some N) :
    ∃ (s : ℕ → MifAsp) (f a : ℕ → ℝ), (∀ k < g.nasp, o.asp k = some (s k) ∧
        (general m (u 2 - g.meso - g.gaps k) (o.unmax - g.meso - g.gaps k) (o.Fm k)).fn = some (f k) ∧
        (general m (u 2 - g.meso - g.gaps k) (o.unmax - g.meso - g.gaps k) (o.Fm k)).a = some (a k) ∧
        (0 < f k → a k ≠ 0)) ∧
      N = ∑ k ∈ range g.nasp, g.weights k * f k ∧
      T = ∑ k ∈ range g.nasp, g.weights k * mifForce Nr (a k) fun j =>
        mifTraction Nr (u d) (o.uxyn0 d) (fun i => (s k).t i d) (s k).r (some (f k)) (a k) m.Gstar o.mu j := by
  unfold MifObj.force at hT hN
  simp only at hT hN
  rw [if_pos hd] at hT
  rw [if_neg (by omega)] at hN
  obtain ⟨f, f1, rfl⟩ := weighted_parts hN
  obtain ⟨x, x1, rfl⟩ := weighted_parts hT
  have key : ∀ k < g.nasp, ∃ s a, o.asp k = some s ∧
      (general m (u 2 - g.meso - g.gaps k) (o.unmax - g.meso - g.gaps k) (o.Fm k)).a = some a ∧ (0 < f k → a ≠ 0) ∧
      x k = mifForce Nr a fun j => mifTraction Nr (u d) (o.uxyn0 d) (fun i => s.t i d) s.r (some (f k)) a m.Gstar o.mu j := by
    intro k hk
    have h1 := x1 k hk
    rw [f1 k hk] at h1
    obtain ⟨z, hz, hz'⟩ := Option.map_eq_some_iff.1 h1
    unfold mifAsperity at hz
    split at hz
    · rename_i s a e1 e2
      split_ifs at hz with hc
      cases hz
      refine ⟨s, a, e1, e2, fun hf ha => hc ⟨hf, ha⟩, hz'.symm⟩
    · cases hz
  have : Nonempty MifAsp := ⟨⟨fun _ _ => 0, fun _ => 0⟩⟩
  choose! s a hs using key
  refine ⟨s, f, a, fun k hk => ⟨(hs k hk).1, f1 k hk, (hs k hk).2.1, (hs k hk).2.2.1⟩, rfl, ?_⟩
  exact sum_congr rfl fun k hk => by rw [(hs k (mem_range.1 hk)).2.2.2]

/-- C99: the friction limit in a static evaluation, from any state of the object. -/
theorem C99_static {m : Mat} (h : m.Good) (hEt : m.Etan < m.Emod) {g : Asperities} {Nr : ℕ} (hNr : 2 ≤ Nr)
    (hw : ∀ k < g.nasp, 0 ≤ g.weights k) {o : MifObj} (hmu : 0 ≤ o.mu) {u : ℕ → ℝ} {upd : Bool} {d : ℕ} (hd : d < 2)
    {T N : ℝ} (hT : (o.force m g Nr u upd).1 d = some T) (hN : (o.force m g Nr u upd).1 2 = some N) : |T| ≤ o.mu * N := by
  obtain ⟨s, f, a, hk, rfl, rfl⟩ := mif_static_parts hd hT hN
  rw [mul_sum]
  refine (abs_sum_le_sum_abs _ _).trans (sum_le_sum fun k hkr => ?_)
  have hk' := mem_range.1 hkr
  obtain ⟨-, h1, h2, h3⟩ := hk k hk'
  rw [abs_mul, abs_of_nonneg (hw k hk')]
  have hlim := mifForce_abs hNr (general_nonneg h hEt h1 h2).1 h3 hmu
    (t := fun j => mifTraction Nr (u d) (o.uxyn0 d) (fun i => (s k).t i d) (s k).r (some (f k)) (a k) m.Gstar o.mu j)
    fun j _ => by
      rw [mifTraction_clip]
      exact clip_abs (mul_nonneg hmu (mifPressure_nonneg _ _ _ _)) _
  calc g.weights k * _ ≤ g.weights k * (o.mu * f k) := mul_le_mul_of_nonneg_left hlim (hw k hk')
    _ = _ := by ring

/-! ## C100: complete slip -/

/-- One radius slips when pushed far enough. -/
theorem mifTraction_slip {Nr : ℕ} (hNr : 2 ≤ Nr) {G f a mu : ℝ} (hG : 0 < G) (ha : 0 ≤ a) (hfa : 0 < f → a ≠ 0)
    (t0 r0 : ℕ → ℝ) (hmu : 0 ≤ mu) {j : ℕ} (hj : j < Nr) : ∃ D, 0 ≤ D ∧ ∀ x x0,
      (x0 + D ≤ x → mifTraction Nr x x0 t0 r0 (some f) a G mu j = mu * mifPressure Nr f a j) ∧
      (x ≤ x0 - D → mifTraction Nr x x0 t0 r0 (some f) a G mu j = -(mu * mifPressure Nr f a j)) := by
  have hL : 0 ≤ mu * mifPressure Nr f a j := mul_nonneg hmu (mifPressure_nonneg _ _ _ _)
  by_cases hz : mifPressure Nr f a j = 0
  · refine ⟨0, le_rfl, fun x x0 => ?_⟩
    rw [mifTraction_clip, hz]
    unfold clip
    simp
  · have hf : 0 < f := by
      by_contra hc
      unfold mifPressure at hz
      rw [if_neg hc] at hz
      exact hz rfl
    have ha : 0 < a := lt_of_le_of_ne ha (hfa hf).symm
    have hj' : j < Nr - 1 := by
      by_contra hc
      have : j = Nr - 1 := by omega
      subst this
      exact hz (mifPressure_last hNr _ _)
    have hK : 0 < mifStiff Nr G f a j := by
      unfold mifStiff
      rw [if_pos hf]
      have := Real.pi_pos
      have := mifKt_pos (mifRadius_nonneg Nr j) (by rw [← mifRadius_last hNr]; exact mifRadius_lt hNr hj')
      positivity
    set K := mifStiff Nr G f a j
    set L := mu * mifPressure Nr f a j
    set q := jnpInterp Nr r0 t0 (a * mifRadius Nr j)
    refine ⟨(L + |q|) / K, by positivity, fun x x0 => ⟨fun hx => ?_, fun hx => ?_⟩⟩
    · rw [mifTraction_clip]
      have h1 : L + |q| ≤ K * (x - x0) := by
        rw [← div_le_iff₀' hK]
        linarith
      have h2 := neg_abs_le q
      unfold clip
      rw [min_eq_right (by linarith), max_eq_right (by linarith)]
    · rw [mifTraction_clip]
      have h1 : K * (x - x0) ≤ -(L + |q|) := by
        have : L + |q| ≤ K * (x0 - x) := by
          rw [← div_le_iff₀' hK]
          linarith
        linarith
      have h2 := le_abs_self q
      unfold clip
      rw [min_eq_left (by linarith), max_eq_left (by linarith)]

theorem mifForce_neg (Nr : ℕ) (a : ℝ) (t : ℕ → ℝ) : mifForce Nr a (fun j => -t j) = -mifForce Nr a t := by
  unfold mifForce
  simp only [neg_mul, sum_neg_distrib, mul_neg]

theorem mifForce_congr {Nr : ℕ} {a : ℝ} {t t' : ℕ → ℝ} (h : ∀ j < Nr, t j = t' j) : mifForce Nr a t = mifForce Nr a t' := by
  unfold mifForce
  rw [sum_congr rfl fun j hj => by rw [h j (mem_range.1 hj)]]

/-- C100 (partial): the force of complete slip. It is the same part `c` of `mu` times the normal force for all materials,
surfaces and histories, with `1 - h/2 - 3 h^2/4 ≤ c ≤ 1 - 3 h^2/4` for distance `h` of the radii. -/
theorem C100_slip_partial {Nr : ℕ} (hNr : 2 ≤ Nr) : ∃ c : ℝ,
    1 - (1 / ((Nr - 1 : ℕ) : ℝ)) / 2 - 3 / 4 * (1 / ((Nr - 1 : ℕ) : ℝ)) ^ 2 ≤ c ∧
    c ≤ 1 - 3 / 4 * (1 / ((Nr - 1 : ℕ) : ℝ)) ^ 2 ∧
    ∀ (m : Mat), m.Good → m.Etan < m.Emod → 0 < m.Gstar → ∀ (g : Asperities) (o : MifObj), 0 ≤ o.mu → ∀ d < 2, ∀ z : ℝ,
      ∃ D : ℝ, ∀ (u : ℕ → ℝ) (upd : Bool), u 2 = z → ∀ T N, (o.force m g Nr u upd).1 d = some T →
        (o.force m g Nr u upd).1 2 = some N →
        (o.uxyn0 d + D ≤ u d → T = c * (o.mu * N)) ∧ (u d ≤ o.uxyn0 d - D → T = -(c * (o.mu * N))) := by
  refine ⟨slipShare Nr, (slipShare_bounds hNr).1, (slipShare_bounds hNr).2, ?_⟩
  intro m h hEt hG g o hmu d hd z
  by_cases hex : ∃ (u : ℕ → ℝ) (upd : Bool), u 2 = z ∧ ∃ T N, (o.force m g Nr u upd).1 d = some T ∧
      (o.force m g Nr u upd).1 2 = some N
  · obtain ⟨v, vu, hv, T0, N0, hT0, hN0⟩ := hex
    obtain ⟨s, f, a, hk, -, -⟩ := mif_static_parts hd hT0 hN0
    rw [hv] at hk
    have hslip : ∀ k j, k < g.nasp → j < Nr → ∃ D, 0 ≤ D ∧ ∀ x x0,
        (x0 + D ≤ x → mifTraction Nr x x0 (fun i => (s k).t i d) (s k).r (some (f k)) (a k) m.Gstar o.mu j
          = o.mu * mifPressure Nr (f k) (a k) j) ∧
        (x ≤ x0 - D → mifTraction Nr x x0 (fun i => (s k).t i d) (s k).r (some (f k)) (a k) m.Gstar o.mu j
          = -(o.mu * mifPressure Nr (f k) (a k) j)) := by
      intro k j hk' hj
      obtain ⟨-, h1, h2, h3⟩ := hk k hk'
      exact mifTraction_slip hNr hG (general_nonneg h hEt h1 h2).2 h3 _ _ hmu hj
    choose! D hD0 hD using hslip
    refine ⟨∑ k ∈ range g.nasp, ∑ j ∈ range Nr, D k j, fun u upd hu T N hT hN => ?_⟩
    obtain ⟨s', f', a', hk', rfl, rfl⟩ := mif_static_parts hd hT hN
    rw [hu] at hk'
    have hle : ∀ k < g.nasp, ∀ j < Nr, D k j ≤ ∑ k ∈ range g.nasp, ∑ j ∈ range Nr, D k j := by
      intro k hk j hj
      refine (single_le_sum (f := fun j => D k j) (fun i hi => hD0 k i hk (mem_range.1 hi)) (mem_range.2 hj)).trans ?_
      exact single_le_sum (f := fun k => ∑ j ∈ range Nr, D k j)
        (fun i hi => sum_nonneg fun l hl => hD0 i l (mem_range.1 hi) (mem_range.1 hl)) (mem_range.2 hk)
    have hsame : ∀ k < g.nasp, s' k = s k ∧ f' k = f k ∧ a' k = a k := by
      intro k hk1
      obtain ⟨p1, p2, p3, -⟩ := hk k hk1
      obtain ⟨q1, q2, q3, -⟩ := hk' k hk1
      exact ⟨Option.some.inj (q1.symm.trans p1), Option.some.inj (q2.symm.trans p2), Option.some.inj (q3.symm.trans p3)⟩
    have hval : ∀ k < g.nasp, mifForce Nr (a k) (fun j => o.mu * mifPressure Nr (f k) (a k) j)
        = o.mu * f k * slipShare Nr := by
      intro k hk1
      obtain ⟨-, h1, h2, h3⟩ := hk k hk1
      exact mifForce_pressure (general_nonneg h hEt h1 h2).1 h3 _
    constructor
    · intro hx
      rw [mul_sum, mul_sum]
      refine sum_congr rfl fun k hkr => ?_
      have hk1 := mem_range.1 hkr
      obtain ⟨e1, e2, e3⟩ := hsame k hk1
      rw [e1, e2, e3, mifForce_congr (t' := fun j => o.mu * mifPressure Nr (f k) (a k) j)
        fun j hj => (hD k j hk1 hj _ _).1 (by linarith [hle k hk1 j hj]), hval k hk1]
      ring
    · intro hx
      rw [mul_sum, mul_sum, ← sum_neg_distrib]
      refine sum_congr rfl fun k hkr => ?_
      have hk1 := mem_range.1 hkr
      obtain ⟨e1, e2, e3⟩ := hsame k hk1
      rw [e1, e2, e3, mifForce_congr (t' := fun j => -(o.mu * mifPressure Nr (f k) (a k) j))
        fun j hj => (hD k j hk1 hj _ _).2 (by linarith [hle k hk1 j hj]), mifForce_neg, hval k hk1]
      ring
  · refine ⟨0, fun u upd hu T N hT hN => absurd ⟨u, upd, hu, T, N, hT, hN⟩ hex⟩

/-- The asperity of `driftMat` pressed in by one unit. -/
theorem drift_one : (general driftMat 1 0 (some 0)).fn = some 1 ∧ (general driftMat 1 0 (some 0)).a = some 1 := by
  obtain ⟨hR, hE, -, hdy⟩ := drift_values
  unfold general
  simp only
  rw [if_neg (fun h => by linarith [h.2]), if_pos ⟨by linarith, by linarith⟩, elLoading_fn, elLoading_a, hR, hE,
    hertz_examples.1, if_pos one_pos, one_mul, Real.sqrt_one]
  exact ⟨rfl, rfl⟩

/-- Its force from the new state. -/
theorem drift_force (Nr : ℕ) (mu : ℝ) (u : ℕ → ℝ) (hu : u 2 = 1) (upd : Bool) :
    ((MifObj.new mu).force driftMat oneAsp Nr u upd).1 2 = some 1 ∧
    ∀ d < 2, ((MifObj.new mu).force driftMat oneAsp Nr u upd).1 d
      = some (mifForce Nr 1 fun j => mifTraction Nr (u d) 0 (fun _ => 0) (fun _ => 0) (some 1) 1 driftMat.Gstar mu j) := by
  obtain ⟨h1, h2⟩ := drift_one
  unfold MifObj.force MifObj.new oneAsp
  simp only [sub_zero, hu, h1, h2]
  constructor
  · rw [if_neg (by omega), weighted_some _ _ (fun _ => 1) 1 fun k _ => rfl]
    simp
  · intro d hd
    unfold mifAsperity
    simp only [Option.getD_some, one_ne_zero, and_false, if_false, Option.map_some]
    rw [if_pos hd, weighted_some _ _ (fun _ => _) 1 fun k _ => rfl]
    simp

/-- C100 is false as stated: for every number of radii there are a contact and a pressing such that the friction force never
reaches `mu` times the normal force, however far the contact is pushed. -/
theorem C100_violated {Nr : ℕ} (hNr : 2 ≤ Nr) : ∃ (m : Mat) (g : Asperities) (mu z : ℝ), m.Good ∧ 0 < m.Gstar ∧ 0 < mu ∧
    ∃ c < 1, ∀ u : ℕ → ℝ, u 2 = z → ∃ T, ((MifObj.new mu).force m g Nr u true).1 0 = some T ∧
      ((MifObj.new mu).force m g Nr u true).1 2 = some 1 ∧ |T| ≤ c * (mu * 1) := by
  obtain ⟨-, -, hG, -⟩ := drift_values
  have hN : (0 : ℝ) < ((Nr - 1 : ℕ) : ℝ) := by
    have : 0 < Nr - 1 := by omega
    exact_mod_cast this
  refine ⟨driftMat, oneAsp, 1, 1, driftMat_good, by rw [hG]; norm_num, one_pos, slipShare Nr, ?_, fun u hu => ?_⟩
  · have h := (slipShare_bounds hNr).2
    have : 0 < (1 / ((Nr - 1 : ℕ) : ℝ)) ^ 2 := by positivity
    linarith
  · obtain ⟨h2, h0⟩ := drift_force Nr 1 u hu true
    refine ⟨_, h0 0 (by norm_num), h2, ?_⟩
    have := mifForce_share (Nr := Nr) (f := 1) (a := 1) (mu := 1) zero_le_one (fun _ => one_ne_zero)
      (t := fun j => mifTraction Nr (u 0) 0 (fun _ => 0) (fun _ => 0) (some 1) 1 driftMat.Gstar 1 j) fun j _ => by
        rw [mifTraction_clip]
        exact clip_abs (mul_nonneg zero_le_one (mifPressure_nonneg _ _ _ _)) _
    linarith

/-- C100 at work: three radii, pushed far, give a friction force that is neither zero nor `mu` times the normal force. -/
example : ∃ D : ℝ, ∀ x ≥ D, ((MifObj.new 1).force driftMat oneAsp 3 (fun d => if d = 2 then 1 else x) true).1 0
    = some (3 * Real.sqrt 3 / 8) := by
  obtain ⟨-, -, hG, -⟩ := drift_values
  have hs := fun j (hj : j < 3) => mifTraction_slip (Nr := 3) (by norm_num) (G := driftMat.Gstar) (f := 1) (a := 1) (mu := 1)
    (by rw [hG]; norm_num) zero_le_one (fun _ => one_ne_zero) (fun _ => 0) (fun _ => 0) zero_le_one hj
  choose! D h0 hD using hs
  refine ⟨D 0 + D 1 + D 2, fun x hx => ?_⟩
  have n0 := h0 0 (by norm_num)
  have n1 := h0 1 (by norm_num)
  have n2 := h0 2 (by norm_num)
  rw [(drift_force 3 1 _ (if_pos rfl) true).2 0 (by norm_num), if_neg (by norm_num),
    mifForce_congr (t' := fun j => 1 * mifPressure 3 1 1 j) fun j hj => (hD j hj x 0).1 (by
      interval_cases j <;> linarith), mifForce_pressure zero_le_one (fun _ => one_ne_zero)]
  unfold slipShare mifRadius mifWeight mifRaw
  norm_num [sum_range_succ]
  have : Real.sqrt 4 = 2 := by rw [show (4 : ℝ) = 2 ^ 2 by norm_num, Real.sqrt_sq (by norm_num)]
  rw [this]
  ring

/-! ## C101: steady state -/

section

variable (m : Mat) (g : Asperities) (Nr Nt : ℕ) (u : ℕ → ℕ → ℝ)

/-- C101 (partial): two cycles are the steady state for constant normal displacement. -/
theorem C101_constant_partial (hE : 0 ≤ m.Estar) (hNr : 2 ≤ Nr) {mu : ℝ} (hmu : 0 ≤ mu) (u0 : ℕ → ℝ)
    (hc : ∀ t < Nt, u t 2 = u 0 2) (r t d : ℕ) (ht : t < Nt) :
    mifHistory m g Nr Nt u u0 mu (r + 2) t d = mifHistory m g Nr Nt u u0 mu 2 t d := by
  have hN : 0 < Nt := by omega
  rw [show r + 2 = (r + 1) + 1 from rfl, show 2 = 1 + 1 from rfl, mifHistory_eq m g Nr Nt u hE u0 mu _ t d ht,
    mifHistory_eq m g Nr Nt u hE u0 mu _ t d ht]
  have hmod : ∀ q, (q * Nt + t) % Nt = t := fun q => by rw [Nat.mul_comm, Nat.mul_add_mod, Nat.mod_eq_of_lt ht]
  unfold mifTotal
  rw [hmod, hmod]
  congr 1
  split_ifs with hd
  · refine sum_congr rfl fun k _ => ?_
    congr 1
    refine mifForce_congr fun j hj => ?_
    rw [mifSeq_constant m g Nr Nt u hE hN hNr u0 hc k j d hj, mifSeq_constant m g Nr Nt u hE hN hNr u0 hc k j d hj]
    set K := mifStiff Nr m.Gstar (aspN m g Nt u k 0) (aspA m g Nt u k 0) j
    set L := mu * mifPressure Nr (aspN m g Nt u k 0) (aspA m g Nt u k 0) j
    have hdr : cycleDrift Nt (fun _ => K) (fun t => u t d) = 0 := by
      unfold cycleDrift
      rw [← Finset.mul_sum]
      have h2 := sum_range_shift_sub (fun i => u (i % Nt) d) (Nt - 1) Nt
      have h3 : ∀ i ∈ Finset.range Nt, u i d - u ((i + Nt - 1) % Nt) d
          = u ((Nt - 1 + 1 + i) % Nt) d - u ((Nt - 1 + i) % Nt) d := by
        intro i hi
        rw [show Nt - 1 + 1 + i = i + Nt by omega, Nat.add_mod_right, Nat.mod_eq_of_lt (Finset.mem_range.1 hi),
          show i + Nt - 1 = Nt - 1 + i by omega]
      rw [Finset.sum_congr rfl h3, h2, Nat.add_mod_right, sub_self, mul_zero]
    have hper : ∀ i, Nt ≤ i + 1 → vslider (fun _ => K) (fun _ => L) (periodic Nt fun t => u t d) (u0 d) 0 (i + Nt)
        = vslider (fun _ => K) (fun _ => L) (periodic Nt fun t => u t d) (u0 d) 0 i := fun i hi =>
      vslider_periodic Nt hN (fun _ => K) (fun _ => L) (fun t => u t d)
        (fun _ _ => mul_nonneg hmu (mifPressure_nonneg _ _ _ _)) hdr (u0 d) 0 i hi
    induction r with
    | zero => rfl
    | succ r ih =>
      rw [← ih, ← hper ((r + 1) * Nt + t) (by rw [Nat.succ_mul]; omega)]
      congr 1
      ring
  · rfl

/-- Out of contact the tractions are zero. -/
theorem mifSeq_open (mu : ℝ) (u0 : ℕ → ℝ) {k s : ℕ} (h : aspN m g Nt u k (s % Nt) = 0) (j d : ℕ) :
    (mifSeq m g Nr Nt u u0 mu k (s + 1)).t j d = 0 := by
  show mifTraction _ _ _ _ _ _ _ _ _ _ = 0
  rw [h, mifTraction_clip]
  unfold mifPressure clip
  simp

/-- C101 (partial): two cycles are the steady state when the interface opens, that is, has zero normal force at some
instant of the cycle. -/
theorem C101_opening_partial (hE : 0 ≤ m.Estar) (mu : ℝ) (hw : ∀ k < g.nasp, 0 < g.weights k)
    (u0 : ℕ → ℝ) (t0 : ℕ) (ht0 : t0 < Nt) (hopen : mifHistory m g Nr Nt u u0 mu 1 t0 2 = some 0)
    (r t d : ℕ) (ht : t < Nt) :
    mifHistory m g Nr Nt u u0 mu (r + 2) t d = mifHistory m g Nr Nt u u0 mu 2 t d := by
  have hN : 0 < Nt := by omega
  rw [show 1 = 0 + 1 from rfl, mifHistory_eq m g Nr Nt u hE u0 mu 0 t0 2 ht0, Option.some.injEq] at hopen
  unfold mifTotal at hopen
  rw [if_neg (by omega), Nat.zero_mul, Nat.zero_add, Nat.mod_eq_of_lt ht0] at hopen
  have hnn : ∀ k ∈ range g.nasp, 0 ≤ g.weights k * aspN m g Nt u k t0 := fun k hk =>
    mul_nonneg (hw k (mem_range.1 hk)).le (asp_ok m g Nt u hE k t0 ht0).2.2.1
  have hzero : ∀ k < g.nasp, aspN m g Nt u k t0 = 0 := fun k hk =>
    (mul_eq_zero.1 ((sum_eq_zero_iff_of_nonneg hnn).1 hopen k (mem_range.2 hk))).resolve_left (hw k hk).ne'
  have hseq : ∀ k < g.nasp, ∀ i, mifSeq m g Nr Nt u u0 mu k (t0 + i + 1 + Nt) = mifSeq m g Nr Nt u u0 mu k (t0 + i + 1) := by
    intro k hk i
    induction i with
    | zero =>
      have h1 : (t0 + Nt) % Nt = t0 := by rw [Nat.add_mod_right, Nat.mod_eq_of_lt ht0]
      have h2 : t0 % Nt = t0 := Nat.mod_eq_of_lt ht0
      rw [show t0 + 0 + 1 + Nt = t0 + Nt + 1 by ring, show t0 + 0 + 1 = t0 + 1 from rfl]
      have e1 : (mifSeq m g Nr Nt u u0 mu k (t0 + Nt + 1)).t = (mifSeq m g Nr Nt u u0 mu k (t0 + 1)).t := by
        funext j d
        rw [mifSeq_open m g Nr Nt u mu u0 (by rw [h1]; exact hzero k hk),
          mifSeq_open m g Nr Nt u mu u0 (by rw [h2]; exact hzero k hk)]
      have e2 : (mifSeq m g Nr Nt u u0 mu k (t0 + Nt + 1)).r = (mifSeq m g Nr Nt u u0 mu k (t0 + 1)).r := by
        funext j
        show aspA m g Nt u k ((t0 + Nt) % Nt) * _ = aspA m g Nt u k (t0 % Nt) * _
        rw [h1, h2]
      calc _ = MifAsp.mk (mifSeq m g Nr Nt u u0 mu k (t0 + Nt + 1)).t (mifSeq m g Nr Nt u u0 mu k (t0 + Nt + 1)).r := rfl
        _ = _ := by rw [e1, e2]
    | succ i ih =>
      have h1 : (t0 + (i + 1) + Nt) % Nt = (t0 + (i + 1)) % Nt := Nat.add_mod_right _ _
      have h2 : mifPrev Nt u u0 (t0 + (i + 1) + Nt) = mifPrev Nt u u0 (t0 + (i + 1)) := by
        rw [show t0 + (i + 1) + Nt = (t0 + i + Nt) + 1 by ring]
        show u ((t0 + i + Nt) % Nt) = u ((t0 + i) % Nt)
        rw [Nat.add_mod_right]
      rw [show t0 + (i + 1) + 1 + Nt = (t0 + (i + 1) + Nt) + 1 by ring, mifSeq, mifSeq, h1, h2,
        show t0 + (i + 1) + Nt = t0 + i + 1 + Nt by ring, ih, show t0 + (i + 1) = t0 + i + 1 by ring]
  have key : ∀ s, t0 ≤ s → mifTotal m g Nr Nt u u0 mu (s + Nt) d = mifTotal m g Nr Nt u u0 mu s d := by
    intro s hs
    obtain ⟨i, rfl⟩ : ∃ i, s = t0 + i := ⟨s - t0, by omega⟩
    unfold mifTotal
    rw [Nat.add_mod_right, show t0 + i + Nt + 1 = t0 + i + 1 + Nt by ring]
    split_ifs with hd
    · exact sum_congr rfl fun k hk => by rw [hseq k (mem_range.1 hk)]
    · rfl
  induction r with
  | zero => rfl
  | succ r ih =>
    rw [← ih, show r + 1 + 2 = (r + 2) + 1 by ring, show r + 2 = (r + 1) + 1 by ring,
      mifHistory_eq m g Nr Nt u hE u0 mu _ t d ht, mifHistory_eq m g Nr Nt u hE u0 mu _ t d ht,
      ← key ((r + 1) * Nt + t) (by rw [Nat.succ_mul]; omega)]
    congr 2
    ring

end

/-! C101 does not hold in general -/

theorem interp_three (xp fp : ℕ → ℝ) (x : ℝ) (h0 : xp 0 ≤ x) (h1 : x < xp 1) (h2 : xp 1 < xp 2) (hd : 1 / 2 ^ 104 < xp 1 - xp 0) :
    jnpInterp 3 xp fp x = fp 0 + (x - xp 0) / (xp 1 - xp 0) * (fp 1 - fp 0) := by
  unfold jnpInterp
  have hc : ((List.range 3).filter fun k => decide (xp k ≤ x)).length = 1 := by
    rw [show List.range 3 = [0, 1, 2] from rfl]
    simp [h0, not_le.2 h1, not_le.2 (h1.trans h2)]
  simp only [hc]
  rw [if_neg (by norm_num; linarith), if_neg (not_lt.2 h0)]
  norm_num
  intro h
  rw [abs_of_pos (by linarith [h1])] at h
  norm_num at hd
  linarith

theorem interp_three_last (xp fp : ℕ → ℝ) (h0 : xp 0 < xp 1) (h1 : xp 1 < xp 2) (hd : 1 / 2 ^ 104 < xp 2 - xp 1) :
    jnpInterp 3 xp fp (xp 2) = fp 2 := by
  unfold jnpInterp
  have hc : ((List.range 3).filter fun k => decide (xp k ≤ xp 2)).length = 3 := by
    rw [show List.range 3 = [0, 1, 2] from rfl]
    simp [h1.le, (h0.trans h1).le]
  simp only [hc]
  norm_num
  rw [if_neg (by linarith), if_neg, div_self (by linarith)]
  · ring
  · intro h
    rw [abs_of_pos (by linarith)] at h
    norm_num at hd
    linarith

theorem clip_inside {L x : ℝ} (h1 : -L ≤ x) (h2 : x ≤ L) : clip L x = x := by
  unfold clip
  rw [min_eq_left h2, max_eq_right h1]

theorem drift_asp : aspN driftMat oneAsp 2 driftU 0 0 = 1 ∧ aspN driftMat oneAsp 2 driftU 0 1 = 8 ∧
    aspA driftMat oneAsp 2 driftU 0 0 = 1 ∧ aspA driftMat oneAsp 2 driftU 0 1 = 2 := by
  obtain ⟨hR, hE, hG, hdy⟩ := drift_values
  obtain ⟨e1, e4⟩ := hertz_examples
  have hel : ∀ t < 2, aspN driftMat oneAsp 2 driftU 0 t = hertz 1 (3/4) (driftU t 2) ∧
      aspA driftMat oneAsp 2 driftU 0 t = Real.sqrt (driftU t 2) := by
    intro t ht
    have h := aspN_elastic driftMat oneAsp 2 driftU (by rw [hR]; norm_num) (by rw [hE]; norm_num) 0 t ht
      (fun s hs => by
        simp only [oneAsp, driftU]
        split <;> norm_num at hdy ⊢ <;> linarith)
      (by simp only [oneAsp]; linarith)
    have hp : 0 < driftU t 2 := by unfold driftU; split <;> norm_num
    simp only [oneAsp, sub_zero] at h
    rw [hR, hE, if_pos hp, one_mul] at h
    exact h
  have hs4 : Real.sqrt 4 = 2 := by rw [show (4 : ℝ) = 2^2 by norm_num, Real.sqrt_sq (by norm_num)]
  have n0 : aspN driftMat oneAsp 2 driftU 0 0 = 1 := by rw [(hel 0 (by norm_num)).1]; exact e1
  have n1 : aspN driftMat oneAsp 2 driftU 0 1 = 8 := by rw [(hel 1 (by norm_num)).1]; exact e4
  have a0 : aspA driftMat oneAsp 2 driftU 0 0 = 1 := by rw [(hel 0 (by norm_num)).2]; simp [driftU]
  have a1 : aspA driftMat oneAsp 2 driftU 0 1 = 2 := by rw [(hel 1 (by norm_num)).2]; simpa [driftU] using hs4
  exact ⟨n0, n1, a0, a1⟩

theorem mifForce_three (t : ℕ → ℝ) (h : t 2 = 0) : mifForce 3 1 t = Real.pi / 2 * t 1 := by
  have r1 : mifRadius 3 1 = 1 / 2 := by unfold mifRadius; norm_num
  have w1 : mifWeight 3 1 = 1 / 2 := by unfold mifWeight mifRaw; norm_num [sum_range_succ]
  unfold mifForce
  rw [sum_range_succ, sum_range_succ, sum_range_one, h, mifRadius_zero, r1, w1]
  ring

theorem drift_steps : ∃ c q : ℝ, 0 < c ∧ (∀ s, (mifSeq driftMat oneAsp 3 2 driftU (fun _ => 0) 100 0 (s + 1)).t 2 0 = 0) ∧
    (mifSeq driftMat oneAsp 3 2 driftU (fun _ => 0) 100 0 3).t 1 0 = -(c * q) + (c / 2 + c / 2 * q) / 2 ∧
    (mifSeq driftMat oneAsp 3 2 driftU (fun _ => 0) 100 0 5).t 1 0 = -(c * q) + c / 2 * q / 2 := by
  obtain ⟨hR, hE, hG, hdy⟩ := drift_values
  obtain ⟨n0, n1, a0, a1⟩ := drift_asp
  have hp := Real.pi_pos
  have r0 : mifRadius 3 0 = 0 := mifRadius_zero _
  have r1 : mifRadius 3 1 = 1 / 2 := by unfold mifRadius; norm_num
  have r2 : mifRadius 3 2 = 1 := by unfold mifRadius; norm_num
  obtain ⟨c, hc, hc0⟩ : ∃ c : ℝ, c = 3 / 2 / Real.pi ∧ 0 < c := ⟨_, rfl, by positivity⟩
  obtain ⟨q, hq, hq0, hq2⟩ : ∃ q : ℝ, q = mifKt (1 / 2) ∧ 0 < q ∧ q ≤ 4 := by
    refine ⟨_, rfl, mifKt_pos (by norm_num) (by norm_num), ?_⟩
    unfold mifKt
    rw [if_pos (by norm_num)]
    have h : (1 : ℝ) / 2 ≤ Real.sqrt (1 - (1 / 2) ^ 2) := Real.le_sqrt_of_sq_le (by norm_num)
    have : (1 - 0.8709) / Real.sqrt (1 - (1 / 2) ^ 2) ≤ 1 := by
      rw [div_le_one (by linarith)]
      norm_num at h ⊢
      linarith
    norm_num at this ⊢
    linarith
  have k0 : mifKt 0 = 1 := by unfold mifKt; norm_num
  have hsq : (1 : ℝ) / 2 ≤ Real.sqrt (1 - (1 / 2) ^ 2) := Real.le_sqrt_of_sq_le (by norm_num)
  obtain ⟨w, hw, hw2⟩ : ∃ w : ℝ, w = Real.sqrt (1 - (1 / 2) ^ 2) ∧ 1 / 2 ≤ w := ⟨_, rfl, hsq⟩
  have cq := mul_pos hc0 hq0
  have cq4 := mul_le_mul_of_nonneg_left hq2 hc0.le
  have cw := mul_le_mul_of_nonneg_left hw2 hc0.le
  -- stiffness and limit at both instants
  have K00 : mifStiff 3 driftMat.Gstar 1 1 0 = c := by
    unfold mifStiff; rw [if_pos one_pos, r0, k0, hG, hc]; ring
  have K01 : mifStiff 3 driftMat.Gstar 1 1 1 = c * q := by
    unfold mifStiff; rw [if_pos one_pos, r1, ← hq, hG, hc]; ring
  have K10 : mifStiff 3 driftMat.Gstar 8 2 0 = c / 2 := by
    unfold mifStiff; rw [if_pos (by norm_num), r0, k0, hG, hc]; ring
  have K11 : mifStiff 3 driftMat.Gstar 8 2 1 = c / 2 * q := by
    unfold mifStiff; rw [if_pos (by norm_num), r1, ← hq, hG, hc]; ring
  have L00 : mifPressure 3 1 1 0 = c := by
    unfold mifPressure; rw [if_pos one_pos, r0, hc]; norm_num; ring
  have L01 : mifPressure 3 1 1 1 = c * w := by
    unfold mifPressure; rw [if_pos one_pos, r1, ← hw, hc]; ring
  have L10 : mifPressure 3 8 2 0 = 2 * c := by
    unfold mifPressure; rw [if_pos (by norm_num), r0, hc]; norm_num; ring
  have L11 : mifPressure 3 8 2 1 = 2 * c * w := by
    unfold mifPressure; rw [if_pos (by norm_num), r1, ← hw, hc]; ring
  have L2 : ∀ f a, mifPressure 3 f a 2 = 0 := fun f a => mifPressure_last (by norm_num) f a
  set S := mifSeq driftMat oneAsp 3 2 driftU (fun _ => 0) 100 0 with hS
  have step0 : ∀ s, s % 2 = 0 → ∀ j, (S (s + 1)).t j 0 = clip (100 * mifPressure 3 1 1 j)
      (mifStiff 3 driftMat.Gstar 1 1 j * (0 - mifPrev 2 driftU (fun _ => 0) s 0)
        + jnpInterp 3 (S s).r (fun i => (S s).t i 0) (1 * mifRadius 3 j)) := by
    intro s hs j
    show mifTraction _ _ _ _ _ _ _ _ _ _ = _
    rw [mifTraction_clip, hs, n0, a0]
    rfl
  have step1 : ∀ s, s % 2 = 1 → ∀ j, (S (s + 1)).t j 0 = clip (100 * mifPressure 3 8 2 j)
      (mifStiff 3 driftMat.Gstar 8 2 j * (1 - mifPrev 2 driftU (fun _ => 0) s 0)
        + jnpInterp 3 (S s).r (fun i => (S s).t i 0) (2 * mifRadius 3 j)) := by
    intro s hs j
    show mifTraction _ _ _ _ _ _ _ _ _ _ = _
    rw [mifTraction_clip, hs, n1, a1]
    rfl
  have R0 : ∀ s, s % 2 = 0 → (S (s + 1)).r = fun j => 1 * mifRadius 3 j := by
    intro s hs
    funext j
    show aspA driftMat oneAsp 2 driftU 0 (s % 2) * _ = _
    rw [hs, a0]
  have R1 : ∀ s, s % 2 = 1 → (S (s + 1)).r = fun j => 2 * mifRadius 3 j := by
    intro s hs
    funext j
    show aspA driftMat oneAsp 2 driftU 0 (s % 2) * _ = _
    rw [hs, a1]
  have last : ∀ s, (S (s + 1)).t 2 0 = 0 := by
    intro s
    rcases Nat.mod_two_eq_zero_or_one s with h | h
    · rw [step0 s h, L2]; unfold clip; simp
    · rw [step1 s h, L2]; unfold clip; simp
  have P : ∀ s, mifPrev 2 driftU (fun _ => 0) (s + 1) 0 = driftU (s % 2) 0 := fun s => rfl
  have u0 : driftU 0 0 = 0 := by unfold driftU; norm_num
  have u1 : driftU 1 0 = 1 := by unfold driftU; norm_num
  -- first step
  have t1 : ∀ j, (S 1).t j 0 = 0 := by
    intro j
    rw [step0 0 rfl, jnpInterp_zero 3 _ _ (fp := fun i => (S 0).t i 0) (fun _ _ => rfl) (by norm_num)]
    show clip _ (_ * (0 - 0) + 0) = 0
    rw [sub_self, mul_zero, add_zero]
    exact clip_inside (neg_nonpos.2 (mul_nonneg (by norm_num) (mifPressure_nonneg _ _ _ _)))
      (mul_nonneg (by norm_num) (mifPressure_nonneg _ _ _ _))
  have t20 : (S 2).t 0 0 = c / 2 := by
    rw [step1 1 rfl, jnpInterp_zero 3 _ _ (fp := fun i => (S 1).t i 0) (fun j _ => t1 j) (by norm_num), P, u0, K10, L10]
    rw [clip_inside] <;> linarith
  have t21 : (S 2).t 1 0 = c / 2 * q := by
    rw [step1 1 rfl, jnpInterp_zero 3 _ _ (fp := fun i => (S 1).t i 0) (fun j _ => t1 j) (by norm_num), P, u0, K11, L11]
    rw [clip_inside] <;> linarith
  have t30 : (S 3).t 0 0 = -(c / 2) := by
    rw [step0 2 rfl, R1 1 rfl, interp_three _ _ _ (by rw [r0]; norm_num) (by rw [r0, r1]; norm_num) (by rw [r1, r2]; norm_num)
      (by rw [r0, r1]; norm_num), P, u1, K00, L00, t20, r0]
    rw [clip_inside] <;> norm_num <;> linarith
  have t31 : (S 3).t 1 0 = -(c * q) + (c / 2 + c / 2 * q) / 2 := by
    rw [step0 2 rfl, R1 1 rfl, interp_three _ _ _ (by rw [r0, r1]; norm_num) (by rw [r1]; norm_num) (by rw [r1, r2]; norm_num)
      (by rw [r0, r1]; norm_num), P, u1, K01, L01, t20, t21, r0, r1]
    have e : c * q * (0 - 1) + (c / 2 + (1 * (1 / 2) - 2 * 0) / (2 * (1 / 2) - 2 * 0) * (c / 2 * q - c / 2))
        = -(c * q) + (c / 2 + c / 2 * q) / 2 := by ring
    rw [e, clip_inside] <;> linarith
  have t40 : (S 4).t 0 0 = 0 := by
    rw [step1 3 rfl, R0 2 rfl, interp_three _ _ _ (by rw [r0]; norm_num) (by rw [r0, r1]; norm_num) (by rw [r1, r2]; norm_num)
      (by rw [r0, r1]; norm_num), P, u0, K10, L10, t30, r0]
    rw [clip_inside] <;> norm_num <;> linarith
  have t41 : (S 4).t 1 0 = c / 2 * q := by
    have e : (2 : ℝ) * mifRadius 3 1 = (fun j => 1 * mifRadius 3 j) 2 := by simp only [r1, r2]; norm_num
    rw [step1 3 rfl, R0 2 rfl, e, interp_three_last _ _ (by simp only [r0, r1]; norm_num) (by simp only [r1, r2]; norm_num)
      (by simp only [r1, r2]; norm_num), P, u0, K11, L11, last 2]
    rw [clip_inside] <;> linarith
  have t51 : (S 5).t 1 0 = -(c * q) + c / 2 * q / 2 := by
    rw [step0 4 rfl, R1 3 rfl, interp_three _ _ _ (by rw [r0, r1]; norm_num) (by rw [r1]; norm_num) (by rw [r1, r2]; norm_num)
      (by rw [r0, r1]; norm_num), P, u1, K01, L01, t40, t41, r0, r1]
    have e : c * q * (0 - 1) + (0 + (1 * (1 / 2) - 2 * 0) / (2 * (1 / 2) - 2 * 0) * (c / 2 * q - 0))
        = -(c * q) + c / 2 * q / 2 := by ring
    rw [e, clip_inside] <;> linarith
  exact ⟨c, q, hc0, last, t31, t51⟩

/-- C101 is false in general: an asperity that does not slip and is pushed in and released during the cycle has a force that
is different in the second and third cycle. -/
theorem C101_violated : ∃ (m : Mat) (g : Asperities) (Nr Nt : ℕ) (u : ℕ → ℕ → ℝ) (u0 : ℕ → ℝ) (mu : ℝ),
    0 < mu ∧ 0 < m.Estar ∧ 0 < m.Re ∧ 0 < m.Gstar ∧
    mifHistory m g Nr Nt u u0 mu 3 0 0 ≠ mifHistory m g Nr Nt u u0 mu 2 0 0 := by
  obtain ⟨hR, hE, hG, hdy⟩ := drift_values
  refine ⟨driftMat, oneAsp, 3, 2, driftU, fun _ => 0, 100, by norm_num, by rw [hE]; norm_num, by rw [hR]; norm_num,
    by rw [hG]; norm_num, ?_⟩
  obtain ⟨n0, n1, a0, a1⟩ := drift_asp
  obtain ⟨c, q, hc0, last, t31, t51⟩ := drift_steps
  have hp := Real.pi_pos
  set S := mifSeq driftMat oneAsp 3 2 driftU (fun _ => 0) 100 0 with hS
  have hsum : ∀ s, s % 2 = 0 → mifTotal driftMat oneAsp 3 2 driftU (fun _ => 0) 100 s 0
      = Real.pi / 2 * (S (s + 1)).t 1 0 := by
    intro s hs
    unfold mifTotal
    rw [if_pos (by norm_num), show oneAsp.nasp = 1 from rfl, sum_range_one, show oneAsp.weights 0 = 1 from rfl, one_mul, hs, a0]
    show mifForce 3 1 (fun j => (S (s + 1)).t j 0) = _
    exact mifForce_three _ (last s)
  rw [show 3 = 2 + 1 from rfl, show 2 = 1 + 1 from rfl,
    mifHistory_eq driftMat oneAsp _ _ driftU (by rw [hE]; norm_num) _ _ _ _ _ (by norm_num),
    mifHistory_eq driftMat oneAsp _ _ driftU (by rw [hE]; norm_num) _ _ _ _ _ (by norm_num)]
  simp only [Nat.reduceAdd, Nat.reduceMul]
  rw [hsum 4 rfl, hsum 2 rfl, t31, t51]
  intro h
  rw [Option.some.injEq] at h
  have := mul_left_cancel₀ (by positivity : Real.pi / 2 ≠ 0) h
  linarith

/-- C99 and C101 at work. -/
example : ∃ T, mifHistory driftMat oneAsp 3 2 driftU (fun _ => 0) 100 2 0 0 = some T ∧ |T| ≤ 100 * 1 := by
  obtain ⟨-, hE, -, -⟩ := drift_values
  obtain ⟨n0, -, -, -⟩ := drift_asp
  obtain ⟨T, N, hT, hN, -, -, h⟩ := C99_friction driftMat oneAsp 3 2 driftU (by rw [hE]; norm_num) (by norm_num) (mu := 100)
    (by norm_num) (fun k _ => by simp [oneAsp]) (fun _ => 0) 1 0 0 (by norm_num) (by norm_num)
  rw [mifHistory_eq driftMat oneAsp 3 2 driftU (by rw [hE]; norm_num) (fun _ => 0) 100 1 0 2 (by norm_num),
    Option.some.injEq] at hN
  unfold mifTotal at hN
  rw [if_neg (by norm_num), show oneAsp.nasp = 1 from rfl, sum_range_one, show oneAsp.weights 0 = 1 from rfl, one_mul,
    show (1 * 2 + 0) % 2 = 0 from rfl, n0] at hN
  rw [← hN] at h
  exact ⟨T, hT, h⟩

example (r t : ℕ) (ht : t < 2) :
    mifHistory driftMat oneAsp 100 2 (fun t d => if d = 2 then 1 else t) (fun _ => 0) 1 (r + 2) t 0
      = mifHistory driftMat oneAsp 100 2 (fun t d => if d = 2 then 1 else t) (fun _ => 0) 1 2 t 0 := by
  obtain ⟨-, hE, -, -⟩ := drift_values
  exact C101_constant_partial driftMat oneAsp 100 2 _ (by rw [hE]; norm_num) (by norm_num) zero_le_one _
    (fun t _ => by simp) r t 0 ht

example (r t : ℕ) (ht : t < 2) :
    mifHistory driftMat oneAsp 100 2 (fun t d => if d = 2 then (t : ℝ) * 2 - 1 else t) (fun _ => 0) 1 (r + 2) t 0
      = mifHistory driftMat oneAsp 100 2 (fun t d => if d = 2 then (t : ℝ) * 2 - 1 else t) (fun _ => 0) 1 2 t 0 := by
  obtain ⟨hR, hE, -, hdy⟩ := drift_values
  refine C101_opening_partial driftMat oneAsp 100 2 _ (by rw [hE]; norm_num) 1 (fun k _ => by simp [oneAsp]) _ 0
    (by norm_num) ?_ r t 0 ht
  have h := (aspN_elastic driftMat oneAsp 2 (fun t d => if d = 2 then (t : ℝ) * 2 - 1 else t) (by rw [hR]; norm_num)
    (by rw [hE]; norm_num) 0 0 (by norm_num) (fun s hs => by
      simp only [oneAsp, if_true, sub_zero]
      interval_cases s <;> norm_num at hdy ⊢ <;> linarith)
    (by simp only [oneAsp]; linarith)).1
  refine (mifHistory_eq driftMat oneAsp 100 2 _ (by rw [hE]; norm_num) (fun _ => 0) 1 0 0 2 (by norm_num)).trans ?_
  unfold mifTotal
  rw [if_neg (by norm_num), show oneAsp.nasp = 1 from rfl, sum_range_one, show oneAsp.weights 0 = 1 from rfl, one_mul,
    show (0 * 2 + 0) % 2 = 0 from rfl, h]
  unfold hertz
  rw [if_neg (by simp [oneAsp])]

end

end TMD
