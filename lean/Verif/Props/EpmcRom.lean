import Verif.Lemmas.EpmcRom
import Verif.Props.HarmonicMisc
import Verif.Props.Interp

/-! # Properties of the EPMC reduced order model -/

namespace TMD

open TMD.Spec

variable {M Ndof : ℕ} {h : List ℕ} {bb : ℕ → ℕ → ℝ}

/-- The row that is rotated. -/
noncomputable def romShape (n Ndof : ℕ) (h : List ℕ) (bb : ℕ → ℕ → ℝ) (q : ℕ → ℝ) (k : ℕ) (Om : ℝ) : ℕ → ℝ :=
  fun i => if i < n then (if zi h * Ndof ≤ i then bb k i * q k else bb k i) else if i = n then Om else 0

theorem romPoint_ok (hne : h ≠ []) (n : ℕ) (w zeta PR PI q : ℕ → ℝ) (x : ℕ × ℝ) :
    romPoint n Ndof h bb w zeta PR PI q x =
      .ok (rsp (romShape n Ndof h bb q x.1 (Real.sqrt x.2)) Ndof h
        (Complex.arg ((starRingEnd ℂ) ⟨PR x.1, PI x.1⟩ * modalStiffness (w x.1) (zeta x.1) (Real.sqrt x.2))) 1, q x.1,
        Complex.arg ((starRingEnd ℂ) ⟨PR x.1, PI x.1⟩ * modalStiffness (w x.1) (zeta x.1) (Real.sqrt x.2))) := by
  have e : (⟨PR x.1 * (w x.1 ^ 2 - Real.sqrt x.2 ^ 2) + PI x.1 * (2 * Real.sqrt x.2 * w x.1 * zeta x.1),
      PR x.1 * (2 * Real.sqrt x.2 * w x.1 * zeta x.1) - PI x.1 * (w x.1 ^ 2 - Real.sqrt x.2 ^ 2)⟩ : ℂ) =
      (starRingEnd ℂ) ⟨PR x.1, PI x.1⟩ * modalStiffness (w x.1) (zeta x.1) (Real.sqrt x.2) := by
    unfold modalStiffness
    apply Complex.ext <;> simp only [Complex.add_re, Complex.add_im, Complex.mul_re, Complex.mul_im, Complex.conj_re,
      Complex.conj_im, Complex.ofReal_re, Complex.ofReal_im, Complex.I_re, Complex.I_im] <;> ring
  unfold romPoint
  simp only
  rw [e]
  have := rsp_ok (romShape n Ndof h bb q x.1 (Real.sqrt x.2)) Ndof hne
    (Complex.arg ((starRingEnd ℂ) ⟨PR x.1, PI x.1⟩ * modalStiffness (w x.1) (zeta x.1) (Real.sqrt x.2))) 1
  unfold romShape at this ⊢
  rw [this]

/-- Natural frequency of row `k`: the given one, or the one of the backbone. -/
noncomputable def romFreq (bb : ℕ → ℕ → ℝ) (n : ℕ) (w : Option (ℕ → ℝ)) (k : ℕ) : ℝ :=
  match w with | some w => w k | none => bb k n

/-- Damping ratio of row `k`: the given one, or the damping coefficient over twice the frequency. -/
noncomputable def romDamp (bb : ℕ → ℕ → ℝ) (n : ℕ) (w zeta : Option (ℕ → ℝ)) (k : ℕ) : ℝ :=
  match zeta with | some z => z k | none => bb k (n + 1) / (2 * romFreq bb n w k)

theorem constantForce_projected (hA : Admissible h) (w zeta : Option (ℕ → ℝ)) (PR PI : ℕ → ℝ) :
    let n := numCoeff h * Ndof
    let W := romFreq bb n w
    let Z := romDamp bb n w zeta
    let q := fun k => (10 : ℝ) ^ bb k (n + 2)
    constantForce M Ndof h bb none w zeta (some PR) (some PI) =
      .ok (((romCandidates M W Z PR PI q).map fun x =>
        (rsp (romShape n Ndof h bb q x.1 (Real.sqrt x.2)) Ndof h
          (Complex.arg ((starRingEnd ℂ) ⟨PR x.1, PI x.1⟩ * modalStiffness (W x.1) (Z x.1) (Real.sqrt x.2))) 1, q x.1,
          Complex.arg ((starRingEnd ℂ) ⟨PR x.1, PI x.1⟩ * modalStiffness (W x.1) (Z x.1) (Real.sqrt x.2)))).reverse) := by
  intro n W Z q
  have eW : (w.getD fun k => bb k n) = W := by cases w <;> rfl
  have eZ : (zeta.getD fun k => bb k (n + 1) / (2 * W k)) = Z := by cases zeta <;> rfl
  unfold constantForce
  rw [Nhc_ok hA.nodup]
  simp only [hA.ne, if_false, Option.isNone_none, Option.isNone_some, ne_eq, not_true_eq_false, Bool.false_eq_true,
    Option.getD_some]
  change (match mapE (romPoint n Ndof h bb (w.getD fun k => bb k n)
    (zeta.getD fun k => bb k (n + 1) / (2 * (w.getD fun k => bb k n) k)) PR PI q) _ with
    | .error e => Except.error e | .ok l => Except.ok l.reverse) = _
  rw [eW, eZ, mapE_ok (romPoint_ok hA.ne n W Z PR PI q)]

/-- C63: a force vector gives the same result as its projection on the mode shapes. -/
theorem C63_projection (hA : Admissible h) (H : FirstIsOne h) (F : ℕ → ℝ) (w zeta : Option (ℕ → ℝ)) :
    constantForce M Ndof h bb (some F) w zeta none none =
      constantForce M Ndof h bb none w zeta (some fun k => (modalForce h Ndof (bb k) F).re)
        (some fun k => (modalForce h Ndof (bb k) F).im) := by
  unfold constantForce
  rw [Nhc_ok hA.nodup]
  simp only [hA.ne, if_false, Option.isNone_none, Option.isNone_some, ne_eq, not_true_eq_false, Bool.false_eq_true,
    Option.getD_some, Bool.true_eq_false, modalForce_eq H]

/-- The modal equation for the frequencies of the candidates. -/
theorem normSq_modalStiffness (w z Om : ℝ) :
    Complex.normSq (modalStiffness w z Om) = (w ^ 2 - Om ^ 2) ^ 2 + (2 * z * w) ^ 2 * Om ^ 2 := by
  unfold modalStiffness
  rw [Complex.normSq_add_mul_I]
  ring

/-- C63: every returned point belongs to a row `k` of the backbone. Its frequency is positive, its amplitude is
the one of the row, the complex modal equation with the returned phase holds, and the displacements are the mode
shape of the row with all harmonics but the mean scaled by the amplitude, delayed by the phase. -/
theorem C63_points (hA : Admissible h) (H : FirstIsOne h) (w zeta : Option (ℕ → ℝ)) (PR PI : ℕ → ℝ)
    (_hw : ∀ k < M, romFreq bb (numCoeff h * Ndof) w k ≠ 0) :
    ∃ out, constantForce M Ndof h bb none w zeta (some PR) (some PI) = .ok out ∧
      ∀ x ∈ out, ∃ k < M, 0 < x.1 (numCoeff h * Ndof) ∧ x.2.1 = (10 : ℝ) ^ bb k (numCoeff h * Ndof + 2) ∧
        modalStiffness (romFreq bb (numCoeff h * Ndof) w k) (romDamp bb (numCoeff h * Ndof) w zeta k)
          (x.1 (numCoeff h * Ndof)) * (x.2.1 * Complex.exp (-(x.2.2 : ℂ) * Complex.I)) = ⟨PR k, PI k⟩ ∧
        (∀ d < Ndof, firstHarmonic h Ndof x.1 d =
          x.2.1 * Complex.exp (-(x.2.2 : ℂ) * Complex.I) * firstHarmonic h Ndof (bb k) d) ∧
        ∀ d < Ndof, ∀ τ : ℝ, series h (fun r => x.1 (r * Ndof + d)) τ =
          series h (fun r => if r < zi h then bb k (r * Ndof + d) else x.2.1 * bb k (r * Ndof + d)) (τ - x.2.2) := by
  set n := numCoeff h * Ndof with hn
  refine ⟨_, constantForce_projected hA w zeta PR PI, fun x hx => ?_⟩
  rw [List.mem_reverse, List.mem_map] at hx
  obtain ⟨⟨k, y⟩, hc, rfl⟩ := hx
  have hq : ∀ k, 0 < (10 : ℝ) ^ bb k (n + 2) := fun k => Real.rpow_pos_of_pos (by norm_num) _
  obtain ⟨hk, hy, he⟩ := (mem_romCandidates hq).1 hc
  set q := fun k => (10 : ℝ) ^ bb k (n + 2) with hqd
  set P : ℂ := ⟨PR k, PI k⟩ with hP
  set D := modalStiffness (romFreq bb n w k) (romDamp bb n w zeta k) (Real.sqrt y) with hD
  set θ := Complex.arg ((starRingEnd ℂ) P * D) with hθ
  set U := romShape n Ndof h bb q k (Real.sqrt y) with hU
  obtain ⟨V, v1, v2, v3⟩ := C11_rotation_is_time_shift h hA Ndof U θ 1
  rw [rsp_ok U Ndof hA.ne θ 1] at v1
  cases v1
  have hnum : zi h + 2 ≤ numCoeff h := by
    obtain ⟨t, rfl | rfl⟩ := H
    · simp [zi, numCoeff]
    · simp [zi, numCoeff]; omega
  have hOm : rsp U Ndof h θ 1 n = Real.sqrt y := by
    rw [v3 n le_rfl, hU]; unfold romShape; simp
  have hUlow : ∀ r < numCoeff h, ∀ d < Ndof, U (r * Ndof + d) =
      if r < zi h then bb k (r * Ndof + d) else q k * bb k (r * Ndof + d) := by
    intro r hr d hd
    have h1 : r * Ndof + d < n := by
      have : (r + 1) * Ndof ≤ numCoeff h * Ndof := Nat.mul_le_mul_right _ hr
      rw [hn]; linarith
    rw [hU]; unfold romShape
    rw [if_pos h1]
    by_cases hz : r < zi h
    · have : (r + 1) * Ndof ≤ zi h * Ndof := Nat.mul_le_mul_right _ hz
      rw [if_neg (by linarith), if_pos hz]
    · have : zi h * Ndof ≤ r * Ndof := Nat.mul_le_mul_right _ (by omega)
      rw [if_pos (by linarith), if_neg hz, mul_comm]
  refine ⟨k, hk, ?_, rfl, ?_, fun d hd => ?_, fun d hd τ => ?_⟩
  · change 0 < rsp U Ndof h θ 1 n
    rw [hOm]; exact Real.sqrt_pos.2 hy
  · change modalStiffness _ _ (rsp U Ndof h θ 1 n) * ((q k : ℂ) * Complex.exp (-(θ : ℂ) * Complex.I)) = P
    rw [hOm]
    refine phase_solves (hq k) ?_
    rw [normSq_modalStiffness, Real.sq_sqrt hy.le, hP]
    change (10 ^ bb k (n + 2)) ^ 2 * _ = _
    rw [he, Complex.normSq_mk]; ring
  · change firstHarmonic h Ndof (rsp U Ndof h θ 1) d = q k * Complex.exp (-(θ : ℂ) * Complex.I) * _
    rw [firstHarmonic_rsp H hd, firstHarmonic_eq H, firstHarmonic_eq H, hUlow _ (by omega) d hd,
      hUlow _ (by omega) d hd, if_neg (by omega), if_neg (by omega)]
    have : (⟨q k * bb k (zi h * Ndof + d), -(q k * bb k ((1 + zi h) * Ndof + d))⟩ : ℂ) =
        q k * ⟨bb k (zi h * Ndof + d), -bb k ((1 + zi h) * Ndof + d)⟩ := by
      apply Complex.ext <;> simp [Complex.mul_re, Complex.mul_im]
    rw [this]; ring
  · change series h (fun r => rsp U Ndof h θ 1 (r * Ndof + d)) τ = series h (fun r => if r < zi h then _ else q k * _) (τ - θ)
    rw [v2 d hd τ, Nat.cast_one, div_one]
    exact series_congr (fun r hr => hUlow r hr d hd) _

/-- C63: conversely, every positive frequency that solves the modal equation of a row is returned. -/
theorem C63_complete (hA : Admissible h) (w zeta : Option (ℕ → ℝ)) (PR PI : ℕ → ℝ) {k : ℕ} (hk : k < M) {Om : ℝ}
    (hOm : 0 < Om) (he : ((10 : ℝ) ^ bb k (numCoeff h * Ndof + 2)) ^ 2 *
      ((romFreq bb (numCoeff h * Ndof) w k ^ 2 - Om ^ 2) ^ 2 +
        (2 * romDamp bb (numCoeff h * Ndof) w zeta k * romFreq bb (numCoeff h * Ndof) w k * Om) ^ 2) =
        PR k ^ 2 + PI k ^ 2) :
    ∃ out, constantForce M Ndof h bb none w zeta (some PR) (some PI) = .ok out ∧
      ∃ x ∈ out, x.1 (numCoeff h * Ndof) = Om ∧ x.2.1 = (10 : ℝ) ^ bb k (numCoeff h * Ndof + 2) := by
  set n := numCoeff h * Ndof with hn
  refine ⟨_, constantForce_projected hA w zeta PR PI, ?_⟩
  have hq : ∀ k, 0 < (10 : ℝ) ^ bb k (n + 2) := fun k => Real.rpow_pos_of_pos (by norm_num) _
  have hc := (mem_romCandidates (M := M) (w := romFreq bb n w) (zeta := romDamp bb n w zeta) (PR := PR) (PI := PI)
    hq (k := k) (y := Om ^ 2)).2 ⟨hk, pow_pos hOm 2, by rw [← he]; ring⟩
  refine ⟨_, List.mem_reverse.2 (List.mem_map_of_mem hc), ?_, rfl⟩
  simp only
  rw [Real.sqrt_sq hOm.le]
  set U := romShape n Ndof h bb (fun k => (10 : ℝ) ^ bb k (n + 2)) k Om with hU
  set θ := Complex.arg ((starRingEnd ℂ) ⟨PR k, PI k⟩ * modalStiffness (romFreq bb n w k) (romDamp bb n w zeta k) Om)
  obtain ⟨V, v1, -, v3⟩ := C11_rotation_is_time_shift h hA Ndof U θ 1
  rw [rsp_ok U Ndof hA.ne θ 1] at v1
  cases v1
  rw [v3 n le_rfl, hU]; unfold romShape; simp

/-- C63: there are at most two points per row of the backbone. -/
theorem C63_count (hA : Admissible h) (w zeta : Option (ℕ → ℝ)) (PR PI : ℕ → ℝ) :
    ∃ out, constantForce M Ndof h bb none w zeta (some PR) (some PI) = .ok out ∧ out.length ≤ 2 * M := by
  refine ⟨_, constantForce_projected hA w zeta PR PI, ?_⟩
  rw [List.length_reverse, List.length_map]
  unfold romCandidates
  refine le_trans (List.length_filter_le _ _) ?_
  simp; omega

/-- C63: incomplete or contradictory force arguments are rejected. -/
theorem C63_rejected (hA : Admissible h) (Fl w zeta PR PI : Option (ℕ → ℝ))
    (hbad : PR.isNone ≠ PI.isNone ∨ PR.isNone = Fl.isNone) :
    constantForce M Ndof h bb Fl w zeta PR PI = .error .assertion := by
  unfold constantForce
  rw [Nhc_ok hA.nodup]
  simp only [hA.ne, if_false]
  split
  · rfl
  · rename_i h1
    rcases hbad with h2 | h2
    · exact absurd h2 h1
    · rw [if_pos h2]

/-- One mode with `w = 1`, no damping, amplitude 1 and modal force 3: the only frequency is `2`. -/
example : ∃ out, constantForce 1 1 [1] (fun _ i => if i = 0 ∨ i = 2 then 1 else 0) none none none
    (some fun _ => 3) (some fun _ => 0) = .ok out ∧ ∃ x ∈ out, x.1 2 = 2 ∧ x.2.1 = 1 := by
  obtain ⟨out, h1, x, hx, h2, h3⟩ := C63_complete (M := 1) (Ndof := 1) (h := [1])
    (bb := fun _ i => if i = 0 ∨ i = 2 then 1 else 0) ⟨by simp, by simp, by simp⟩ none none (fun _ => 3) (fun _ => 0)
    (k := 0) (by norm_num) (Om := 2) (by norm_num) (by norm_num [numCoeff, romFreq, romDamp])
  refine ⟨out, h1, x, hx, by simpa [numCoeff] using h2, by rw [h3]; norm_num [numCoeff]⟩

end TMD
