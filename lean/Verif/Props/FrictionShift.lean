import Verif.Lemmas.SliderDelay
import Verif.Props.Shift
import Verif.Props.LocalForces
import Verif.Props.Hysteresis
import Verif.Props.ElasticDryFriction
import Verif.Props.Iwan

/-!
# C115: the steady friction forces do not depend on the instant called zero

A friction element is evaluated from the start of the period: it is put at a start position (the mean displacement, or
`u0`), follows the samples for two cycles, and the second cycle is transformed (jax/nlforces/jenkins_element.py:308-341,
jax/nlforces/elastic_dry_fric_2d.py:762-798, elastic_dry_fric_3d.py:790-825, nonlinear_force.py:497-539). Although the
start singles out the first sample, the result does not: C113 holds for systems with these elements. `FollowsDelay` and
`ForceKeepsDelay` are the meaning of that for a history of local forces and for the harmonic force of a class.
-/

namespace TMD

open Spec Finset

noncomputable section

/-! ## Lemmas -/

/-- Discrete Fourier coefficients of samples rotated by `s`. -/
theorem dft_rotate {N : ℕ} (hN : 0 < N) (g : ℕ → ℝ) (s k : ℕ) :
    dft N g k = rotPair k (angle N s) (dft N (fun j => g ((j + s) % N)) k) := by
  have shift : ∀ q : ℝ → ℝ, (∀ x, q (x + 2 * Real.pi) = q x) →
      ∑ j ∈ range N, g j * q (angle N j) = ∑ j ∈ range N, g ((j + s) % N) * q (angle N j + angle N s) := by
    intro q hq
    have h1 := sum_range_periodic (N := N) (H := fun j => g (j % N) * q (angle N j)) (fun j => by
      rw [angle_add, angle_self hN, hq, Nat.add_mod_right]) s
    beta_reduce at h1
    simp only [angle_add] at h1
    rw [h1]
    exact sum_congr rfl fun j hj => by rw [Nat.mod_eq_of_lt (mem_range.1 hj)]
  unfold dft rotPair
  by_cases hk : k = 0
  · subst hk
    have := shift (fun _ => 1) (fun _ => rfl)
    simp only [mul_one] at this
    simp [this]
  · simp only [hk, if_false]
    have hc := shift (fun x => Real.cos (k * x)) (cos_period k)
    have hs := shift (fun x => Real.sin (k * x)) (sin_period k)
    simp only [angle] at hc hs ⊢
    rw [hc, hs]
    have e1 : ∀ j : ℕ, g ((j + s) % N) * Real.cos (k * (2 * Real.pi * j / N + 2 * Real.pi * s / N))
        = g ((j + s) % N) * Real.cos (k * (2 * Real.pi * j / N)) * Real.cos (k * (2 * Real.pi * s / N))
          - g ((j + s) % N) * Real.sin (k * (2 * Real.pi * j / N)) * Real.sin (k * (2 * Real.pi * s / N)) := by
      intro j; rw [mul_add, Real.cos_add]; ring
    have e2 : ∀ j : ℕ, g ((j + s) % N) * Real.sin (k * (2 * Real.pi * j / N + 2 * Real.pi * s / N))
        = g ((j + s) % N) * Real.cos (k * (2 * Real.pi * j / N)) * Real.sin (k * (2 * Real.pi * s / N))
          + g ((j + s) % N) * Real.sin (k * (2 * Real.pi * j / N)) * Real.cos (k * (2 * Real.pi * s / N)) := by
      intro j; rw [mul_add, Real.sin_add]; ring
    simp only [e1, e2, sum_sub_distrib, sum_add_distrib, ← sum_mul]
    refine Prod.ext ?_ ?_ <;> simp only <;> ring

theorem dft_congr {N k : ℕ} {f g : ℕ → ℝ} (e : ∀ j < N, f j = g j) : dft N f k = dft N g k := by
  have h0 : ∑ j ∈ range N, f j = ∑ j ∈ range N, g j := sum_congr rfl fun j hj => e j (mem_range.1 hj)
  have h1 : ∀ q : ℕ → ℝ, ∑ j ∈ range N, f j * q j = ∑ j ∈ range N, g j * q j :=
    fun q => sum_congr rfl fun j hj => by rw [e j (mem_range.1 hj)]
  unfold dft
  rw [h0, h1, h1]

/-- A constant has no harmonics other than the mean. -/
theorem dft_add_const {N k : ℕ} (hk : k ≠ 0) (hkN : k < N) (g : ℕ → ℝ) (c : ℝ) :
    dft N (fun j => g j + c) k = dft N g k := by
  have h1 := (dft_rotate (N := N) (by omega) (fun _ => (1:ℝ)) 1 k)
  set p := dft N (fun _ => (1:ℝ)) k with hp
  have hz : p = (0, 0) := by
    have hne : ¬ (Real.cos (k * angle N 1) = 1) := by
      intro hc
      have hN : (N : ℝ) ≠ 0 := by have : 0 < N := by omega
                                  exact_mod_cast this.ne'
      rw [Real.cos_eq_one_iff] at hc
      obtain ⟨n, hn⟩ := hc
      have e : (n : ℝ) * N = k := by
        unfold angle at hn
        field_simp at hn
        have hpi := Real.pi_pos
        push_cast at hn
        nlinarith [hn]
      have e' : n * (N : ℤ) = k := by exact_mod_cast e
      have h2 : (0 : ℤ) < k := by exact_mod_cast Nat.pos_of_ne_zero hk
      have h3 : (k : ℤ) < N := by exact_mod_cast hkN
      rcases le_or_gt n 0 with h4 | h4
      · nlinarith
      · nlinarith
    have a1 := congrArg Prod.fst h1
    have a2 := congrArg Prod.snd h1
    unfold rotPair at a1 a2
    simp only at a1 a2
    set C := Real.cos (k * angle N 1)
    set S := Real.sin (k * angle N 1)
    have hCS : C ^ 2 + S ^ 2 = 1 := Real.cos_sq_add_sin_sq _
    have h5 : 2 - 2 * C ≠ 0 := fun h => hne (by linarith)
    have b1 : p.1 * (2 - 2 * C) = 0 := by
      linear_combination (1 - C) * a1 - S * a2 - p.1 * hCS
    have b2 : p.2 * (2 - 2 * C) = 0 := by
      linear_combination (1 - C) * a2 + S * a1 - p.2 * hCS
    exact Prod.ext ((mul_eq_zero.1 b1).resolve_right h5) ((mul_eq_zero.1 b2).resolve_right h5)
  have hz' := hz
  rw [hp] at hz'
  unfold dft at hz' ⊢
  simp only [hk, if_false, one_mul] at hz' ⊢
  have z1 := congrArg Prod.fst hz'
  have z2 := congrArg Prod.snd hz'
  simp only at z1 z2
  refine Prod.ext ?_ ?_ <;> simp only [add_mul, sum_add_distrib, ← mul_sum, mul_add]
  · rw [mul_left_comm, z1]; ring
  · rw [mul_left_comm, z2]; ring

/-- A slider under the rotated samples: its second cycle is the rotated one, up to a constant that is zero if the slider
starts from the same position. -/
theorem slider_rotate (kt : ℝ) {N : ℕ} (hN : 0 < N) {L L' u u' : ℕ → ℝ} (hL : ∀ i, 0 ≤ L' i) (s : ℕ)
    (hLs : ∀ t < N, L' ((t + s) % N) = L t) (hus : ∀ t < N, u' ((t + s) % N) = u t) (up fp up' fp' : ℝ) :
    ∃ c, (∀ t < N, slider kt (periodic N L') (periodic N u') up' fp' (N + (t + s) % N)
      = slider kt (periodic N L) (periodic N u) up fp (N + t) + c) ∧ (fp - kt * up = fp' - kt * up' → c = 0) := by
  have eL : periodic N L = periodic N fun i => L' ((i + s) % N) := by
    funext n; unfold periodic; beta_reduce; rw [hLs _ (Nat.mod_lt _ hN)]
  have eu : periodic N u = periodic N fun i => u' ((i + s) % N) := by
    funext n; unfold periodic; beta_reduce; rw [hus _ (Nat.mod_lt _ hN)]
  have em : ∀ t < N, slider kt (periodic N L') (periodic N u') up' fp' (N + (t + s) % N)
      = slider kt (periodic N L') (periodic N u') up' fp' (N + t + s) := fun t _ => by
    rw [slider_mod kt N hN L' u' hL up' fp' (N + t + s) (by omega), show N + t + s = N + (t + s) by ring, Nat.add_mod_left]
  by_cases hs : fp - kt * up = fp' - kt * up'
  · refine ⟨0, fun t ht => ?_, fun _ => rfl⟩
    rw [em t ht, eL, eu, slider_start_pos _ _ hs, slider_delay kt N hN L' u' hL s up' fp' (N + t) (by omega), add_zero]
  · obtain ⟨c, hc⟩ := slider_two_starts kt N hN L' u' hL s up' fp' up fp
    refine ⟨-c, fun t ht => ?_, fun h => absurd h hs⟩
    rw [em t ht, eL, eu, hc (N + t) (by omega)]
    ring

/-- A history of local forces that rotates with the samples of the motion: up to constants that vanish if the start
`z` is the same. -/
def FollowsDelay (Nt : ℕ) (hist : TS ℕ → (ℕ → ℝ) → ℕ → ℕ → ℝ) : Prop :=
  ∀ (s : ℕ) (u u' : ℕ → ℕ → ℝ) (z z' : ℕ → ℝ), (∀ t < Nt, ∀ d, u' ((t + s) % Nt) d = u t d) →
    ∃ c : ℕ → ℝ, (∀ t < Nt, ∀ d, hist ⟨Nt, u'⟩ z' ((t + s) % Nt) d = hist ⟨Nt, u⟩ z t d + c d) ∧ (z = z' → ∀ d, c d = 0)

/-- The force that `aft` of a class reports follows a delay of the motion by the phase `φ`. -/
def ForceKeepsDelay (f : PForce) (N : ℕ) (h : List ℕ) (Nt : ℕ) (φ : ℝ) : Prop :=
  ∀ (U V : ℕ → ℝ) (w : ℝ), Delayed h N φ U V →
    ∃ F G, f.aftF U w h Nt = .ok F ∧ f.aftF V w h Nt = .ok G ∧ Delayed h N φ F G

theorem sampledDisp_rotate {h : List ℕ} {N Nt : ℕ} (h0 : 0 < Nt) {U V : ℕ → ℝ} {s : ℕ}
    (H : Delayed h N (2 * Real.pi * s / Nt) U V) (Q : ℕ → ℕ → ℝ) (t d : ℕ) :
    (sampledDisp N Q h V Nt).val ((t + s) % Nt) d = (sampledDisp N Q h U Nt).val t d := by
  have per : ∀ (q : ℕ) (x : ℝ), localMotion N Q h V d (x + q * (2 * Real.pi)) = localMotion N Q h V d x := fun q x => by
    induction q with
    | zero => simp
    | succ q ih => rw [← ih]; push_cast; rw [add_mul, one_mul, ← add_assoc, localMotion_periodic]
  have e := Nat.mod_add_div (t + s) Nt
  have e' : (2 * Real.pi * t / Nt) + 2 * Real.pi * s / Nt = 2 * Real.pi * ((t + s) % Nt : ℕ) / Nt + ((t + s) / Nt : ℕ) * (2 * Real.pi) := by
    have hN : (Nt : ℝ) ≠ 0 := by exact_mod_cast h0.ne'
    have : (t : ℝ) + s = ((t + s) % Nt : ℕ) + Nt * ((t + s) / Nt : ℕ) := by exact_mod_cast e.symm
    field_simp
    linear_combination this
  show localMotion N Q h V d (2 * Real.pi * ((t + s) % Nt : ℕ) / Nt) = localMotion N Q h U d (2 * Real.pi * t / Nt)
  rw [← per ((t + s) / Nt) (2 * Real.pi * ((t + s) % Nt : ℕ) / Nt), ← e', localMotion_delayed H Q d]
  beta_reduce
  rw [add_sub_cancel_right]

/-- The zeroth row of the local coefficients is not changed by a delay if it holds the mean. -/
theorem unlOf_mean {h : List ℕ} (hA : Admissible h) (h0 : 0 ∈ h) {N : ℕ} {φ : ℝ} {U V : ℕ → ℝ} (H : Delayed h N φ U V)
    (Q : ℕ → ℕ → ℝ) : unlOf N Q U 0 = unlOf N Q V 0 := by
  have hz : zi h = 1 := by rw [zi_mem hA, if_pos h0]
  have hle := zi_nd_le hA N
  rw [hz, one_mul] at hle
  funext d
  unfold unlOf matMul
  refine sum_congr rfl fun e he => ?_
  beta_reduce
  rw [(delayed_iff hA).1 H (0 * N + e) (by have := mem_range.1 he; omega), rsp_rest (Or.inl (by omega)) (mem_range.1 he)]

theorem jaxAft_delay {h : List ℕ} (hA : Admissible h) {Nt : ℕ} (hNt : ∀ k ∈ h, 2*k + 1 < Nt) (heven : Even Nt)
    (hh : 1 < numCoeff h) (N m : ℕ) (Q T : ℕ → ℕ → ℝ) {hist : TS ℕ → (ℕ → ℝ) → ℕ → ℕ → ℝ} (hf : FollowsDelay Nt hist)
    (s : ℕ) (U V : ℕ → ℝ) (H : Delayed h N (2 * Real.pi * s / Nt) U V) :
    ∃ F G, jaxAft N m Q T hist U h Nt = .ok F ∧ jaxAft N m Q T hist V h Nt = .ok G ∧
      Delayed h N (2 * Real.pi * s / Nt) F G := by
  have h0 : 0 < Nt := by
    obtain ⟨k, hk⟩ := List.exists_mem_of_ne_nil h hA.ne
    have := hNt k hk; omega
  obtain ⟨W, w⟩ := gfc_linear hA (fun k hk => by have := hNt k hk; omega : ∀ k ∈ h, k < Nt)
  set a := hist (sampledDisp N Q h U Nt) (unlOf N Q U 0) with ha
  set b := hist (sampledDisp N Q h V Nt) (unlOf N Q V 0) with hb
  obtain ⟨x, x1, -, x2⟩ := w a
  obtain ⟨y, y1, -, y2⟩ := w b
  refine ⟨_, _, jaxAft_F hA hNt heven hh N m Q T hist U x1, jaxAft_F hA hNt heven hh N m Q T hist V y1, ?_⟩
  have hF : IsForceDFT N m T h Nt a (toGlobal N m T x) := isForceDFT_of N m T h Nt a x x2
  have hG : IsForceDFT N m T h Nt b (toGlobal N m T y) := isForceDFT_of N m T h Nt b y y2
  obtain ⟨c, c1, c2⟩ := hf s (sampledDisp N Q h U Nt).val (sampledDisp N Q h V Nt).val (unlOf N Q U 0) (unlOf N Q V 0)
    (fun t _ d => sampledDisp_rotate h0 H Q t d)
  rw [delayed_iff hA]
  refine eq_of_coefOf hA (fun d hd k hk => ?_)
  rw [coefOf_rsp hA N _ _ 1 hd hk, hF d hd k hk, hG d hd k hk, dft_rotate h0 _ s k]
  simp only [Nat.cast_one, div_one]
  show rotPair k (2 * Real.pi * s / Nt) _ = rotPair k (2 * Real.pi * s / Nt) _
  congr 1
  have e : dft Nt (fun j => ∑ e ∈ range m, T d e * b ((j + s) % Nt) e) k
      = dft Nt (fun j => (∑ e ∈ range m, T d e * a j e) + ∑ e ∈ range m, T d e * c e) k :=
    dft_congr fun j hj => by
      rw [← sum_add_distrib]
      exact sum_congr rfl fun e _ => by rw [hb, ha, ← mul_add]; congr 1; exact c1 j hj e
  rw [e]
  by_cases hk0 : k = 0
  · have : ∀ d, c d = 0 := c2 (unlOf_mean hA (hk0 ▸ hk) H Q)
    simp [this]
  · exact dft_add_const hk0 (by have := hNt k hk; omega) _ _

/-- C115: how the force of a class enters a system. -/
theorem C115_system {h : List ℕ} {N Nt : ℕ} {tol φ : ℝ} (f : NLForce) (p : PForce)
    (hfp : ∀ U w, aftForce (f.aft U w h Nt tol) = p.aftF U w h Nt) (hp : ForceKeepsDelay p N h Nt φ) :
    KeepsDelay f N h Nt tol φ := by
  intro U V w H
  obtain ⟨F, G, h1, h2, h3⟩ := hp U V w H
  rw [← hfp] at h1 h2
  cases e1 : f.aft U w h Nt tol with
  | error e => rw [e1] at h1; simp [aftForce] at h1
  | ok o =>
    cases e2 : f.aft V w h Nt tol with
    | error e => rw [e2] at h2; simp [aftForce] at h2
    | ok o' =>
      rw [e1] at h1; rw [e2] at h2
      cases h1; cases h2
      exact ⟨o, o', rfl, rfl, h3⟩

/-! ## The classes -/

theorem jaxJenkins_slider {kt Fs : ℝ} (hF : 0 ≤ Fs) {N : ℕ} (hN : 0 < N) (u : ℕ → ℝ) (u0 : ℝ) {t : ℕ} (ht : t < N) :
    jaxJenkinsHistory N u kt Fs u0 t = slider kt (periodic N fun _ => Fs) (periodic N u) u0 0 (N + t) := by
  have h1 := C35_jax_equals_numpy kt Fs hF (fun _ : Unit => (0:ℝ)) N hN u (fun _ _ => 0) u0
  rw [(cycle_slider hF _ u _ _ N hN 1).1] at h1
  have h2 := congrArg (fun l => l.getD t 0) h1
  have h3 : jaxJenkinsHistory N u kt Fs u0 t = slider kt (fun _ => Fs) (periodic N u) u0 0 (N + t) := by
    simpa [List.getD_eq_getElem?_getD, List.getElem?_map, List.getElem?_range ht, jenkinsOps] using h2
  exact h3

theorem follows_jenkins {kt Fs : ℝ} (hF : 0 ≤ Fs) {Nt : ℕ} (hN : 0 < Nt) (u0 : EdfU0) :
    FollowsDelay Nt (fun u z j _ => jaxJenkinsHistory u.rows (fun j => u.val j 0) kt Fs (jaxStart u0 z) j) := by
  intro s u u' z z' hu
  obtain ⟨c, c1, c2⟩ := slider_rotate kt hN (L := fun _ => Fs) (L' := fun _ => Fs) (u := fun t => u t 0) (u' := fun t => u' t 0)
    (fun _ => hF) s (fun _ _ => rfl) (fun t ht => hu t ht 0) (jaxStart u0 z) 0 (jaxStart u0 z') 0
  refine ⟨fun _ => c, fun t ht d => ?_, fun hz d => c2 (by rw [hz])⟩
  beta_reduce
  rw [jaxJenkins_slider hF hN _ _ (Nat.mod_lt _ hN), jaxJenkins_slider hF hN _ _ ht]
  exact c1 t ht

/-- The loops of the elastic dry friction classes. -/
theorem edf_rotate (T : ℕ → Prop) [DecidablePred T] (nc : ℕ → ℕ) (hT : ∀ d, T d → ¬ T (nc d)) {Nt : ℕ} (hN : 0 < Nt) {kt kn mu gap : ℝ}
    (hmu : 0 ≤ mu) (st : (ℕ → ℕ → ℝ) → (ℕ → ℝ) → ℕ → ℕ → ℝ) (hst : ∀ u z t d, ¬ T d → st u z t d = edfNormal kn gap (u t d))
    (a : (ℕ → ℝ) → ℕ → ℝ) (hst' : ∀ u z d, T d → st u z (Nt - 1) d = kt * (u (Nt - 1) d - a z d)) :
    FollowsDelay Nt (fun u z => foriLoop (edfBody T nc Nt u.val kt mu) Nt (foriLoop (edfBody T nc Nt u.val kt mu) Nt (st u.val z))) := by
  intro s u u' z z' hu
  have key : ∀ d, ∃ c, (∀ t < Nt, foriLoop (edfBody T nc Nt u' kt mu) Nt (foriLoop (edfBody T nc Nt u' kt mu) Nt (st u' z')) ((t + s) % Nt) d
      = foriLoop (edfBody T nc Nt u kt mu) Nt (foriLoop (edfBody T nc Nt u kt mu) Nt (st u z)) t d + c) ∧ (z = z' → c = 0) := by
    intro d
    by_cases hd : T d
    · obtain ⟨c, c1, c2⟩ := slider_rotate kt hN (L := fun t => mu * st u z t (nc d)) (L' := fun t => mu * st u' z' t (nc d))
        (u := fun t => u t d) (u' := fun t => u' t d)
        (fun t => by rw [hst _ _ _ _ (hT d hd)]; exact mul_nonneg hmu (le_max_right _ _)) s
        (fun t ht => by rw [hst _ _ _ _ (hT d hd), hst _ _ _ _ (hT d hd), hu t ht]) (fun t ht => hu t ht d)
        (u (Nt - 1) d) (st u z (Nt - 1) d) (u' (Nt - 1) d) (st u' z' (Nt - 1) d)
      refine ⟨c, fun t ht => ?_, fun hz => c2 ?_⟩
      · rw [edf_two_loops T nc Nt hN u' kt mu _ _ d (Nat.mod_lt _ hN) hd (hT d hd), edf_two_loops T nc Nt hN u kt mu _ t d ht hd (hT d hd)]
        exact c1 t ht
      · rw [hst' _ _ _ hd, hst' _ _ _ hd, hz]; ring
    · refine ⟨0, fun t ht => ?_, fun _ => rfl⟩
      rw [edf_normal T nc Nt u' kt mu _ Nt _ d hd, edf_normal T nc Nt u' kt mu _ Nt _ d hd, edf_normal T nc Nt u kt mu _ Nt _ d hd,
        edf_normal T nc Nt u kt mu _ Nt _ d hd, hst _ _ _ _ hd, hst _ _ _ _ hd, hu t ht, add_zero]
  choose c hc using key
  exact ⟨c, fun t ht d => (hc d).1 t ht, fun hz d => (hc d).2 hz⟩

theorem follows_edf2 {kt kn mu gap : ℝ} (hmu : 0 ≤ mu) {Nt : ℕ} (hN : 0 < Nt) (u0 : EdfU0) :
    FollowsDelay Nt (fun u z => edf2History u.rows u.val kt kn mu gap (edf2AftU0 u0 z)) := by
  have := edf_rotate (fun d => d % 2 = 0) (fun d => d + 1) (fun d hd => by omega) hN (kt := kt) (kn := kn) (gap := gap) hmu
    (fun u z => edf2Start Nt u kt kn gap (edf2AftU0 u0 z)) (fun u z t d hd => by simp only [edf2Start, hd, if_false])
    (fun z d => edf2AftU0 u0 z (d / 2)) (fun u z d hd => by simp only [edf2Start, hd, if_true])
  intro s u u' z z' hu
  exact this s u u' z z' hu

theorem follows_edf3 {kt kn mu gap : ℝ} (hmu : 0 ≤ mu) {Nt : ℕ} (hN : 0 < Nt) (u0 : EdfU0) :
    FollowsDelay Nt (fun u z => edf3History u.rows u.val kt kn mu gap (edf3AftU0 u0 z)) := by
  have := edf_rotate (fun d => d % 3 ≠ 2) edf3Normal (fun d hd => by unfold edf3Normal; split <;> omega) hN (kt := kt) (kn := kn) (gap := gap) hmu
    (fun u z => edf3Start Nt u kt kn gap (edf3AftU0 u0 z)) (fun u z t d hd => by simp only [edf3Start, hd, if_false])
    (fun z d => edf3AftU0 u0 z (2 * (d / 3) + d % 3)) (fun u z d hd => by simp only [edf3Start, hd, if_true, ne_eq, not_false_eq_true])
  intro s u u' z z' hu
  exact this s u u' z z' hu

section classes

variable {h : List ℕ} (hA : Admissible h) {Nt : ℕ} (hNt : ∀ k ∈ h, 2*k + 1 < Nt) (heven : Even Nt) (hh : 1 < numCoeff h)
include hA hNt heven hh

/-- C115: the JAX Jenkins element, for every way to give the start. -/
theorem C115_jenkins (N : ℕ) (Q T : ℕ → ℕ → ℝ) (kt Fs : ℝ) (hF : 0 ≤ Fs) (u0 : EdfU0) (s : ℕ) :
    ForceKeepsDelay (.jaxJenkins N Q T kt Fs u0) N h Nt (2 * Real.pi * s / Nt) := fun U V _ H =>
  jaxAft_delay hA hNt heven hh N 1 Q T (follows_jenkins hF (by
    obtain ⟨k, hk⟩ := List.exists_mem_of_ne_nil h hA.ne
    have := hNt k hk; omega) u0) s U V H

/-- C115: elastic dry friction in 2D and 3D, with any normal motion. -/
theorem C115_friction (N m : ℕ) (Q T : ℕ → ℕ → ℝ) (kt kn mu gap : ℝ) (hmu : 0 ≤ mu) (u0 : EdfU0) (s : ℕ) :
    ForceKeepsDelay (.edf2 N m Q T kt kn mu gap u0) N h Nt (2 * Real.pi * s / Nt) ∧
    ForceKeepsDelay (.edf3 N m Q T kt kn mu gap u0) N h Nt (2 * Real.pi * s / Nt) := by
  have h0 : 0 < Nt := by
    obtain ⟨k, hk⟩ := List.exists_mem_of_ne_nil h hA.ne
    have := hNt k hk; omega
  exact ⟨fun U V _ H => jaxAft_delay hA hNt heven hh N m Q T (follows_edf2 hmu h0 u0) s U V H,
    fun U V _ H => jaxAft_delay hA hNt heven hh N m Q T (follows_edf3 hmu h0 u0) s U V H⟩

/-- C115: harmonic balance with a friction element: `f` is any force object whose `aft` reports the force of the JAX
Jenkins element, next to other forces that keep the delay. -/
theorem C115_hbm (S : VibSys) (Q T : ℕ → ℕ → ℝ) (kt Fs : ℝ) (hF : 0 ≤ Fs) (u0 : EdfU0) (s : ℕ) (tol : ℝ)
    (hf : ∀ f ∈ S.forces, (∀ U w, aftForce (f.aft U w h Nt tol) = (PForce.jaxJenkins S.nd Q T kt Fs u0).aftF U w h Nt) ∨
      KeepsDelay f S.nd h Nt tol (2 * Real.pi * s / Nt)) (Z Z' Fl Fl' : ℕ → ℝ)
    (hZ : Delayed h S.nd (2 * Real.pi * s / Nt) Z Z') (hw : Z' (numCoeff h * S.nd) = Z (numCoeff h * S.nd))
    (hFl : Delayed h S.nd (2 * Real.pi * s / Nt) Fl Fl') :
    ∃ o o', hbmRes S Z Fl h Nt tol true = .ok o ∧ hbmRes S Z' Fl' h Nt tol true = .ok o' ∧
      Delayed h S.nd (2 * Real.pi * s / Nt) o.R o'.R :=
  C113_hbm h hA Nt tol _ S (fun f hfm => (hf f hfm).elim (fun h1 => C115_system f _ h1
    (C115_jenkins hA hNt heven hh S.nd Q T kt Fs hF u0 s)) id) Z Z' Fl Fl' hZ hw hFl

end classes

/-- C115: the start position can only change the mean of a steady friction force, in every direction. -/
theorem C115_start_only_mean (Nt : ℕ) (hN : 0 < Nt) (kt Fs kn mu gap : ℝ) (hF : 0 ≤ Fs) (hmu : 0 ≤ mu) :
    (∀ (u : ℕ → ℝ) (a b : ℝ), ∃ c, ∀ t < Nt, jaxJenkinsHistory Nt u kt Fs b t = jaxJenkinsHistory Nt u kt Fs a t + c) ∧
    (∀ (u : ℕ → ℕ → ℝ) (a b : ℕ → ℝ), ∃ c : ℕ → ℝ, ∀ t < Nt, ∀ d,
      edf2History Nt u kt kn mu gap b t d = edf2History Nt u kt kn mu gap a t d + c d) ∧
    (∀ (u : ℕ → ℕ → ℝ) (a b : ℕ → ℝ), ∃ c : ℕ → ℝ, ∀ t < Nt, ∀ d,
      edf3History Nt u kt kn mu gap b t d = edf3History Nt u kt kn mu gap a t d + c d) := by
  have m : ∀ t < Nt, (t + 0) % Nt = t := fun t ht => Nat.mod_eq_of_lt ht
  refine ⟨fun u a b => ?_, fun u a b => ?_, fun u a b => ?_⟩
  · obtain ⟨c, hc, -⟩ := follows_jenkins (kt := kt) hF hN .none 0 (fun j _ => u j) (fun j _ => u j) (fun _ => a) (fun _ => b)
      (fun t ht d => by rw [m t ht])
    exact ⟨c 0, fun t ht => by have := hc t ht 0; rw [m t ht] at this; exact this⟩
  · obtain ⟨c, hc, -⟩ := follows_edf2 (kt := kt) (kn := kn) (gap := gap) hmu hN .none 0 u u (fun d => a (d / 2)) (fun d => b (d / 2))
      (fun t ht d => by rw [m t ht])
    refine ⟨c, fun t ht d => ?_⟩
    have := hc t ht d
    rw [m t ht] at this
    simpa [edf2AftU0] using this
  · obtain ⟨c, hc, -⟩ := follows_edf3 (kt := kt) (kn := kn) (gap := gap) hmu hN .none 0 u u (fun d => a (2 * (d / 3) + d % 3))
      (fun d => b (2 * (d / 3) + d % 3)) (fun t ht d => by rw [m t ht])
    refine ⟨c, fun t ht d => ?_⟩
    have := hc t ht d
    rw [m t ht] at this
    have e : ∀ j, 2 * ((3 * (j / 2) + j % 2) / 3) + (3 * (j / 2) + j % 2) % 3 = j := fun j => by omega
    simp only [edf3AftU0, e] at this
    exact this

/-! ## The elements of NumPy -/

theorem second_cycle_jenkins {ι : Type} {kt Fs : ℝ} (hF : 0 ≤ Fs) (e0 : ι → ℝ) {N : ℕ} (hN : 0 < N) {u u' : ℕ → ℝ} (c c' : ℕ → ι → ℝ) (z : ℝ)
    (s : ℕ) (hu : ∀ t < N, u' ((t + s) % N) = u t) :
    ∀ t < N, ((cycleRows (jenkinsOps kt Fs e0) ((List.range N).map fun i => (u' i, c' i)) 1 ((jenkinsOps kt Fs e0).init z)).map Prod.fst).getD ((t + s) % N) 0
      = ((cycleRows (jenkinsOps kt Fs e0) ((List.range N).map fun i => (u i, c i)) 1 ((jenkinsOps kt Fs e0).init z)).map Prod.fst).getD t 0 := by
  obtain ⟨d, d1, d2⟩ := slider_rotate kt hN (L := fun _ => Fs) (L' := fun _ => Fs) (fun _ => hF) s (fun _ _ => rfl) hu z 0 z 0
  intro t ht
  have := d1 t ht
  rw [d2 rfl, add_zero] at this
  rw [(cycle_slider hF e0 u' c' _ N hN 1).1, (cycle_slider hF e0 u c _ N hN 1).1, List.getD_eq_getElem?_getD, List.getD_eq_getElem?_getD,
    List.getElem?_map, List.getElem?_map, List.getElem?_range ht, List.getElem?_range (Nat.mod_lt _ hN), one_mul]
  exact this

theorem second_cycle_iwan {ι : Type} (w : Iwan) (hphi : ∀ k ≤ w.nSliders, 0 ≤ w.phi k) (e0 : ι → ℝ) {N : ℕ} (hN : 0 < N) {u u' : ℕ → ℝ} (c c' : ℕ → ι → ℝ) (z : ℝ)
    (s : ℕ) (hu : ∀ t < N, u' ((t + s) % N) = u t) :
    ∀ t < N, ((cycleRows (iwanOps w e0) ((List.range N).map fun i => (u' i, c' i)) 1 ((iwanOps w e0).init z)).map Prod.fst).getD ((t + s) % N) 0
      = ((cycleRows (iwanOps w e0) ((List.range N).map fun i => (u i, c i)) 1 ((iwanOps w e0).init z)).map Prod.fst).getD t 0 := by
  intro t ht
  have get : ∀ (v : ℕ → ℝ) (c : ℕ → ι → ℝ) (i : ℕ), i < N →
      ((cycleRows (iwanOps w e0) ((List.range N).map fun i => (v i, c i)) 1 ((iwanOps w e0).init z)).map Prod.fst).getD i 0
        = ∑ k ∈ range (w.nSliders + 1), slider 1 (fun _ => w.phi k) (periodic N v) ((iwanOps w e0).init z).up (((iwanOps w e0).init z).fps k) (N + i)
            * w.weight k := by
    intro v c i hi
    rw [cycles_full (iwan_rowOf w e0) N hN, List.map_map, List.getD_eq_getElem?_getD, List.getElem?_map, List.getElem?_range hi]
    simp only [Option.map_some, Option.getD_some, Function.comp, iwanRow, one_mul]
    rw [iwan_stSeq_fp]
    exact sum_congr rfl fun k hk => by
      rw [(iwan_stSeq w hphi e0 _ _ _ _).2 k (by simpa [Nat.lt_succ_iff] using hk)]
  rw [get u' c' _ (Nat.mod_lt _ hN), get u c t ht]
  refine sum_congr rfl fun k hk => ?_
  obtain ⟨d, d1, d2⟩ := slider_rotate 1 hN (L := fun _ => w.phi k) (L' := fun _ => w.phi k)
    (fun _ => hphi k (by simpa [Nat.lt_succ_iff] using hk)) s (fun _ _ => rfl) hu
    ((iwanOps w e0).init z).up (((iwanOps w e0).init z).fps k) ((iwanOps w e0).init z).up (((iwanOps w e0).init z).fps k)
  have := d1 t ht
  rw [d2 rfl, add_zero] at this
  exact congrArg (· * w.weight k) this

/-- C115, partial: the serial Jenkins and Iwan elements of NumPy, when both histories run their second cycle. Missing:
the loop can stop after one cycle, see `C115_violated`. -/
theorem C115_numpy_partial {ι : Type} (N : ℕ) (hN : 0 < N) (u u' : ℕ → ℝ) (c c' : ℕ → ι → ℝ) (z atol rtol eps : ℝ) (mr : ℕ)
    (s : ℕ) (hu : ∀ t < N, u' ((t + s) % N) = u t) (e0 : ι → ℝ) :
    (∀ (kt Fs : ℝ), 0 ≤ Fs → ∀ ft its ft' its',
      localForceHistory (jenkinsOps kt Fs e0) ((List.range N).map fun i => (u i, c i)) z mr atol rtol eps = .ok (ft, its) →
      localForceHistory (jenkinsOps kt Fs e0) ((List.range N).map fun i => (u' i, c' i)) z mr atol rtol eps = .ok (ft', its') →
      2 ≤ its → 2 ≤ its' → ∀ t < N, (ft'.map Prod.fst).getD ((t + s) % N) 0 = (ft.map Prod.fst).getD t 0) ∧
    (∀ w : Iwan, (∀ k ≤ w.nSliders, 0 ≤ w.phi k) → ∀ ft its ft' its',
      localForceHistory (iwanOps w e0) ((List.range N).map fun i => (u i, c i)) z mr atol rtol eps = .ok (ft, its) →
      localForceHistory (iwanOps w e0) ((List.range N).map fun i => (u' i, c' i)) z mr atol rtol eps = .ok (ft', its') →
      2 ≤ its → 2 ≤ its' → ∀ t < N, (ft'.map Prod.fst).getD ((t + s) % N) 0 = (ft.map Prod.fst).getD t 0) := by
  have hr : ∀ (v : ℕ → ℝ) (c : ℕ → ι → ℝ), ((List.range N).map fun i => (v i, c i)) ≠ [] := fun v c => by simp; omega
  have cyc : ∀ {σ : Type} (m : HystOps σ ι) (v : ℕ → ℝ) (c : ℕ → ι → ℝ) ft its,
      localForceHistory m ((List.range N).map fun i => (v i, c i)) z mr atol rtol eps = .ok (ft, its) →
      ft = cycleRows m ((List.range N).map fun i => (v i, c i)) (its - 1) (m.init z) := by
    intro σ m v c ft its h
    obtain ⟨ft', its', e, -, -, e2⟩ := C32_cycle_count m _ (hr v c) z mr atol rtol eps
    rw [h] at e
    simp only [Except.ok.injEq, Prod.mk.injEq] at e
    rw [e.1, e.2]; exact e2
  constructor
  · intro kt Fs hF ft its ft' its' h1 h2 i1 i2 t ht
    rw [cyc _ _ _ _ _ h1, cyc _ _ _ _ _ h2]
    obtain ⟨n, rfl⟩ : ∃ n, its = n + 2 := ⟨its - 2, by omega⟩
    obtain ⟨n', rfl⟩ : ∃ n, its' = n + 2 := ⟨its' - 2, by omega⟩
    rw [show n + 2 - 1 = n + 1 by omega, show n' + 2 - 1 = n' + 1 by omega, C30_two_cycles kt Fs hF e0 N hN u c _ n,
      C30_two_cycles kt Fs hF e0 N hN u' c' _ n']
    exact second_cycle_jenkins hF e0 hN c c' z s hu t ht
  · intro w hphi ft its ft' its' h1 h2 i1 i2 t ht
    rw [cyc _ _ _ _ _ h1, cyc _ _ _ _ _ h2]
    obtain ⟨n, rfl⟩ : ∃ n, its = n + 2 := ⟨its - 2, by omega⟩
    obtain ⟨n', rfl⟩ : ∃ n, its' = n + 2 := ⟨its' - 2, by omega⟩
    rw [show n + 2 - 1 = n + 1 by omega, show n' + 2 - 1 = n' + 1 by omega, C38_two_cycles w hphi e0 N hN u c _ n,
      C38_two_cycles w hphi e0 N hN u' c' _ n']
    exact second_cycle_iwan w hphi e0 hN c c' z s hu t ht

/-- The motion of `C31_violated`, one sample later. -/
def earlyStopU' : ℕ → ℝ := fun i => [4/10, -(9/10), -(9/10), 14/10].getD i (0:ℝ)

theorem earlyStop_rows' :
    (cycleRows (jenkinsOps 1 1 (fun _ : Unit => (1:ℝ))) ((List.range 4).map fun i => (earlyStopU' i, fun _ => (1:ℝ))) 0
      ((jenkinsOps 1 1 (fun _ : Unit => (1:ℝ))).init 0)).map Prod.fst = [4/10, -(9/10), -(9/10), 1] ∧
    (cycleRows (jenkinsOps 1 1 (fun _ : Unit => (1:ℝ))) ((List.range 4).map fun i => (earlyStopU' i, fun _ => (1:ℝ))) 1
      ((jenkinsOps 1 1 (fun _ : Unit => (1:ℝ))).init 0)).map Prod.fst = [0, -1, -1, 1] := by
  constructor
  · simp only [cycleRows, cycleState, List.range, List.range.loop, List.map, onePass, jenkinsOps, jenkinsStep,
      jenkinsLocal, earlyStopU', List.getD_cons_zero, List.getD_cons_succ]
    norm_num [Real.sign]
  · simp only [cycleRows, cycleState, List.range, List.range.loop, List.map, onePass, jenkinsOps, jenkinsStep,
      jenkinsLocal, earlyStopU', List.getD_cons_zero, List.getD_cons_succ]
    norm_num [Real.sign]

/-- C115 is false for the serial Jenkins element with the default arguments: under the displacements
`-0.9, -0.9, 1.4, 0.4` from the mean, it returns `-0.9, -0.9, 1, 0` after one cycle; one sample later, under
`0.4, -0.9, -0.9, 1.4`, it does not return these forces one sample later. -/
theorem C115_violated (eps : ℝ) :
    (∀ t < 4, earlyStopU' ((t + 1) % 4) = earlyStopU t) ∧ ∃ ft its ft' its',
      localForceHistory (jenkinsOps 1 1 (fun _ : Unit => (1:ℝ))) ((List.range 4).map fun i => (earlyStopU i, fun _ => (1:ℝ)))
        0 2 (1/10^10) (1/10^10) eps = .ok (ft, its) ∧
      localForceHistory (jenkinsOps 1 1 (fun _ : Unit => (1:ℝ))) ((List.range 4).map fun i => (earlyStopU' i, fun _ => (1:ℝ)))
        0 2 (1/10^10) (1/10^10) eps = .ok (ft', its') ∧
      ¬ ∀ t < 4, (ft'.map Prod.fst).getD ((t + 1) % 4) 0 = (ft.map Prod.fst).getD t 0 := by
  refine ⟨fun t ht => ?_, ?_⟩
  · interval_cases t <;> simp [earlyStopU, earlyStopU']
  · obtain ⟨ft, h1, h2, -⟩ := C31_violated eps
    have hr : ((List.range 4).map fun i => (earlyStopU' i, fun _ : Unit => (1:ℝ))) ≠ [] := by simp [List.range, List.range.loop]
    obtain ⟨ft', its', e, i1, i2, e2⟩ := C32_cycle_count (jenkinsOps 1 1 (fun _ : Unit => (1:ℝ))) _ hr 0 2 (1/10^10) (1/10^10) eps
    refine ⟨ft, 1, ft', its', h1, e, fun H => ?_⟩
    obtain ⟨r0, r1⟩ := earlyStop_rows'
    have : its' = 1 ∨ its' = 2 := by
      have : max 1 2 = 2 := rfl
      omega
    rcases this with rfl | rfl
    · have := H 3 (by norm_num)
      rw [e2, h2, show 1 - 1 = 0 from rfl, r0] at this
      norm_num at this
    · have := H 0 (by norm_num)
      rw [e2, h2, show 2 - 1 = 1 from rfl, r1] at this
      norm_num at this

/-- The hypotheses of C115 are met with slip: a Jenkins element of unit stiffness and limit 1 under `2 cos τ`, started at
the first sample, slips both ways; its second cycle is `1, -1, -1, 1`, and one sample later `1, 1, -1, -1`. -/
example : jaxJenkinsHistory 4 (fun i => [2, 0, -2, 0].getD i 0) 1 1 0 0 = 1 ∧
    jaxJenkinsHistory 4 (fun i => [2, 0, -2, 0].getD i 0) 1 1 0 1 = -1 ∧
    jaxJenkinsHistory 4 (fun i => [0, 2, 0, -2].getD i 0) 1 1 0 1 = 1 ∧
    jaxJenkinsHistory 4 (fun i => [0, 2, 0, -2].getD i 0) 1 1 0 2 = -1 := by
  norm_num [jaxJenkinsHistory, foriLoop, jaxJenkinsBody, setRow, prevIdx, List.range, List.range.loop]

/-- A Duffing oscillator with a JAX Jenkins element meets the hypotheses of `C115_hbm`. -/
example (tol kt Fs : ℝ) (hF : 0 ≤ Fs) (f : NLForce)
    (hf : ∀ U w, aftForce (f.aft U w [0, 1] 4 tol) = (PForce.jaxJenkins 1 (fun _ _ => 1) (fun _ _ => 1) kt Fs .none).aftF U w [0, 1] 4)
    (w a : ℝ) :
    ∃ o o', hbmRes ⟨1, fun _ _ => 1, fun _ _ => 1, fun _ _ => 0.1, none,
        [f, cubicNL 1 1 (fun _ _ => 1) (fun _ _ => 1) (fun _ => 1)]⟩
        (fun i => if i = 1 then a else if i = 3 then w else 0) (fun i => if i = 1 then 1 else 0) [0, 1] 4 tol true = .ok o ∧
      hbmRes ⟨1, fun _ _ => 1, fun _ _ => 1, fun _ _ => 0.1, none,
        [f, cubicNL 1 1 (fun _ _ => 1) (fun _ _ => 1) (fun _ => 1)]⟩
        (fun i => if i = 2 then a else if i = 3 then w else 0) (fun i => if i = 2 then 1 else 0) [0, 1] 4 tol true = .ok o' ∧
      Delayed [0, 1] 1 (2 * Real.pi * (1:ℕ) / (4:ℕ)) o.R o'.R := by
  have e1 : 2 * Real.pi * ((1:ℕ):ℝ) / (4:ℕ) = Real.pi / 2 := by push_cast; ring
  refine C115_hbm adm01 (by simp) ⟨2, rfl⟩ (by decide) _ (fun _ _ => 1) (fun _ _ => 1) kt Fs hF .none 1 tol (fun g hg => ?_) _ _ _ _ ?_ ?_ ?_
  · simp only [List.mem_cons, List.not_mem_nil, or_false] at hg
    rcases hg with rfl | rfl
    · exact Or.inl hf
    · exact Or.inr (C113_instantaneous [0, 1] adm01 4 (by simp) ⟨2, rfl⟩ 1 1 _ _ _ _ tol 1)
  · intro d hd τ
    obtain rfl : d = 0 := by simp only at hd; omega
    rw [e1]
    simp [series, Real.cos_sub_pi_div_two, Real.sin_sub_pi_div_two]
  · simp [numCoeff]
  · intro d hd τ
    obtain rfl : d = 0 := by simp only at hd; omega
    rw [e1]
    simp [series, Real.cos_sub_pi_div_two, Real.sin_sub_pi_div_two]

end

end TMD
