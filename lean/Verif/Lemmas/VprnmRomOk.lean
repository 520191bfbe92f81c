import Verif.Lemmas.VprnmRomParts

/-! # Phases and success of the VPRNM reduced order model -/

namespace TMD

open Spec Finset

noncomputable section

theorem pointHarmonic_block {h : List ℕ} (hs : h.Pairwise (· < ·)) {m : ℕ} (hm : m ∈ h) (h1 : 1 ≤ m) (N : ℕ) (c U : ℕ → ℝ) :
    pointHarmonic h N c U m = ⟨blockDot N (numCoeff (h.filter fun k => k < m)) c U,
      -blockDot N (numCoeff (h.filter fun k => k < m) + 1) c U⟩ := by
  unfold pointHarmonic blockDot
  apply Complex.ext
  · rw [Complex.re_sum]
    refine Finset.sum_congr rfl fun d _ => ?_
    rw [(coefOf_sorted hs hm h1 _).1]
    simp [mul_comm]
  · rw [Complex.im_sum, ← Finset.sum_neg_distrib]
    refine Finset.sum_congr rfl fun d _ => ?_
    rw [(coefOf_sorted hs hm h1 _).1]
    simp [mul_comm]

theorem ampIndex_ok {N ncol : ℕ} {h : List ℕ} (hn : h.Nodup) {k p : ℕ} (e : ampIndex N ncol h k = .ok p) :
    p = numCoeff (h.filter fun j => j < k) := by
  unfold ampIndex at e
  rw [Nhc_ok (hn.filter _)] at e
  simp only at e
  split_ifs at e
  cases e
  rfl

theorem harmAmp_point {h : List ℕ} (hs : h.Pairwise (· < ·)) {m : ℕ} (hm : m ∈ h) (h1 : 1 ≤ m) (N : ℕ) (c U : ℕ → ℝ) (q : ℝ) :
    harmAmp N (numCoeff (h.filter fun k => k < m)) c q U = ‖pointHarmonic h N c U m‖ * q := by
  rw [pointHarmonic_block hs hm h1, harmAmp, Complex.norm_def, Complex.normSq_mk]
  congr 2
  ring

theorem numCoeff_below_one {h : List ℕ} (hs : h.Pairwise (· < ·)) (H : FirstIsOne h) :
    numCoeff (h.filter fun k => k < 1) = zi h := by
  obtain ⟨t, rfl | rfl⟩ := H
  · rw [List.pairwise_cons] at hs
    rw [List.filter_cons_of_neg (by simp), List.filter_eq_nil_iff.2]
    · rfl
    · intro a ha
      have := hs.1 a ha
      simp; omega
  · rw [List.pairwise_cons, List.pairwise_cons] at hs
    rw [List.filter_cons_of_pos (by simp), List.filter_cons_of_neg (by simp), List.filter_eq_nil_iff.2]
    · rfl
    · intro a ha
      have := hs.2.1 a ha
      simp; omega

theorem FirstIsOne.mem {h : List ℕ} (H : FirstIsOne h) : 1 ∈ h := by
  obtain ⟨t, rfl | rfl⟩ := H <;> simp

theorem polar_conj (a b : ℝ) : (⟨a, -b⟩ : ℂ) = (‖(⟨a, -b⟩ : ℂ)‖ : ℂ) * Complex.exp (-((Complex.arg ⟨a, b⟩ : ℝ) : ℂ) * Complex.I) := by
  have e := congrArg (starRingEnd ℂ) (Complex.norm_mul_exp_arg_mul_I ⟨a, b⟩)
  have e1 : (starRingEnd ℂ) (⟨a, b⟩ : ℂ) = ⟨a, -b⟩ := rfl
  have e2 : ‖(⟨a, -b⟩ : ℂ)‖ = ‖(⟨a, b⟩ : ℂ)‖ := by rw [← e1, Complex.norm_conj]
  rw [map_mul, ← Complex.exp_conj, e1, Complex.conj_ofReal, map_mul, Complex.conj_I, Complex.conj_ofReal] at e
  rw [e2, ← e]
  congr 2
  ring

/-- Polar form of a harmonic. -/
theorem pointHarmonic_polar {h : List ℕ} (hs : h.Pairwise (· < ·)) {m : ℕ} (hm : m ∈ h) (h1 : 1 ≤ m) (N : ℕ) (c U : ℕ → ℝ) :
    pointHarmonic h N c U m = (‖pointHarmonic h N c U m‖ : ℂ)
      * Complex.exp (-((harmPhase N (numCoeff (h.filter fun k => k < m)) c U : ℝ) : ℂ) * Complex.I) := by
  rw [pointHarmonic_block hs hm h1]
  exact polar_conj _ _

theorem pointHarmonic_first (h : List ℕ) (N : ℕ) (c U : ℕ → ℝ) :
    pointHarmonic h N c U 1 = ∑ d ∈ Finset.range N, (c d : ℂ) * firstHarmonic h N U d := rfl

theorem pointHarmonic_rsp {h : List ℕ} (H : FirstIsOne h) (N : ℕ) (c U : ℕ → ℝ) (φ : ℝ) :
    pointHarmonic h N c (rsp U N h φ 1) 1 = Complex.exp (-(φ : ℂ) * Complex.I) * pointHarmonic h N c U 1 := by
  rw [pointHarmonic_first, pointHarmonic_first, Finset.mul_sum]
  refine Finset.sum_congr rfl fun d hd => ?_
  rw [firstHarmonic_rsp H (Finset.mem_range.1 hd)]
  ring

/-- Rotation by the difference of the phases aligns harmonic 1 with the target. -/
theorem rotate_aligns {h hV : List ℕ} (H : FirstIsOne h) (hs : h.Pairwise (· < ·)) (hVs : hV.Pairwise (· < ·)) {m : ℕ}
    (hm : m ∈ hV) (h1 : 1 ≤ m) (N : ℕ) (c U V : ℕ → ℝ) :
    InPhase (pointHarmonic h N c (rsp U N h (harmPhase N (numCoeff (hV.filter fun k => k < m)) c V
      - harmPhase N (zi h) c U) 1) 1) (pointHarmonic hV N c V m) := by
  have e : pointHarmonic h N c (rsp U N h (harmPhase N (numCoeff (hV.filter fun k => k < m)) c V
      - harmPhase N (zi h) c U) 1) 1 = (‖pointHarmonic h N c U 1‖ : ℂ)
      * Complex.exp (-((harmPhase N (numCoeff (hV.filter fun k => k < m)) c V : ℝ) : ℂ) * Complex.I) := by
    rw [pointHarmonic_rsp H]
    conv_lhs => rw [pointHarmonic_polar hs H.mem le_rfl, numCoeff_below_one hs H]
    rw [mul_left_comm, ← Complex.exp_add]
    congr 2
    push_cast
    ring
  unfold InPhase
  have n1 : ‖pointHarmonic h N c (rsp U N h (harmPhase N (numCoeff (hV.filter fun k => k < m)) c V
      - harmPhase N (zi h) c U) 1) 1‖ = ‖pointHarmonic h N c U 1‖ := by
    rw [e, norm_mul, Complex.norm_real, norm_norm]
    have : ‖Complex.exp (-((harmPhase N (numCoeff (hV.filter fun k => k < m)) c V : ℝ) : ℂ) * Complex.I)‖ = 1 := by
      rw [← Complex.ofReal_neg]
      exact Complex.norm_exp_ofReal_mul_I _
    rw [this, mul_one]
  rw [n1, e]
  conv_rhs => rw [pointHarmonic_polar hVs hm h1]
  ring

theorem LinearAt.congr {n : ℕ} {ref ref' : ℕ → ℝ} {X : ℕ → ℕ → ℝ} {v : ℝ} {r : Option (ℕ → ℝ)} (hn : 0 < n)
    (h : LinearAt n ref X v r) (e : ∀ k < n, ref k = ref' k) : LinearAt n ref' X v r where
  left hv := h.left (by rwa [e 0 hn])
  right hv := h.right (by rwa [e _ (by omega)])
  node k hk hv := h.node k hk (by rw [e k hk]; exact hv)
  segment k hk h1 h2 := by
    have := h.segment k hk (by rwa [e k (by omega)]) (by rwa [e _ hk])
    rwa [e k (by omega), e _ hk] at this

/-- A result in range. -/
theorem LinearAt.range {n : ℕ} {ref : ℕ → ℝ} {X : ℕ → ℕ → ℝ} {v : ℝ} {row : ℕ → ℝ} (h : LinearAt n ref X v (some row)) :
    ref 0 ≤ v ∧ v ≤ ref (n - 1) :=
  ⟨not_lt.1 fun hlt => (by have := h.left hlt; cases this), not_lt.1 fun hlt => (by have := h.right hlt; cases this)⟩

/-- What a successful run of the first five steps gives. -/
theorem vprnmSuper_ok {N ncol Mv : ℕ} {bbV : ℕ → ℕ → ℝ} {hV : List ℕ} {Mr : ℕ} {bbR : ℕ → ℕ → ℝ} {hR : List ℕ} {rhi : ℕ}
    {c1 : ℕ → ℝ} {amp : ℝ} {cr : ℕ → ℝ} {extra : Option (List ℝ)} {pV : ℕ → ℝ} {s : SuperPart}
    (hRA : Admissible hR) (hVn : hV.Nodup)
    (h : vprnmSuper N ncol Mv bbV hV Mr bbR hR rhi c1 amp cr extra = .ok (pV, s)) :
    ∃ pR frc i, (0 < Mv ∧
        (∀ k, k + 1 < Mv → harmAmp N (numCoeff (hV.filter fun j => j < 1)) c1 1 (bbV k) <
          harmAmp N (numCoeff (hV.filter fun j => j < 1)) c1 1 (bbV (k + 1))) ∧
        LinearAt Mv (fun k => harmAmp N (numCoeff (hV.filter fun j => j < 1)) c1 1 (bbV k)) bbV amp (some pV)) ∧
      (0 < Mr ∧
        (∀ k, k + 1 < Mr → harmAmp N (numCoeff (hR.filter fun j => j < 1)) cr ((10 : ℝ) ^ bbR k (numCoeff hR * N + 2)) (bbR k) <
          harmAmp N (numCoeff (hR.filter fun j => j < 1)) cr ((10 : ℝ) ^ bbR (k + 1) (numCoeff hR * N + 2)) (bbR (k + 1))) ∧
        LinearAt Mr (fun k => harmAmp N (numCoeff (hR.filter fun j => j < 1)) cr ((10 : ℝ) ^ bbR k (numCoeff hR * N + 2)) (bbR k))
          (linQ (numCoeff hR * N) bbR) (harmAmp N (numCoeff (hV.filter fun j => j < rhi)) cr 1 pV) (some pR)) ∧
      superFrc N (numCoeff hR * N) Mr bbR hR pR (rhi * vprnmOm ncol pV) = .ok frc ∧
      npArgmin (frc.map fun x => |x.1 (numCoeff hR * N) - rhi * vprnmOm ncol pV|) = some i ∧
      |(frc.getD i (fun _ => 0, 0, 0)).2.1 - pR (numCoeff hR * N + 2)| ≤ 1 / 10 ^ 12 ∧
      superExtra (numCoeff hR * N) rhi extra (frc.map fun x => rsp x.1 N hR
        (harmPhase N (numCoeff (hV.filter fun j => j < rhi)) cr pV - harmPhase N (zi hR) cr
          (frc.getD i (fun _ => 0, 0, 0)).1) 1) (frc.map fun x => x.2.1) i = .ok s := by
  unfold vprnmSuper at h
  rw [Nhc_ok hRA.nodup] at h
  simp only at h
  cases e1 : vprnmPoint N ncol Mv bbV hV c1 amp with
  | error e => rw [e1] at h; cases h
  | ok pV? =>
  rw [e1] at h
  simp only at h
  cases e2 : ampIndex N ncol hV rhi with
  | error e => rw [e2] at h; cases h
  | ok pv =>
  rw [e2] at h
  simp only at h
  cases e3 : superPoint N (numCoeff hR * N) Mr bbR hR cr (pV?.map fun p => harmAmp N pv cr 1 p) with
  | error e => rw [e3] at h; cases h
  | ok pR? =>
  rw [e3] at h
  simp only at h
  rw [if_neg hRA.ne] at h
  cases pV? with
  | none => cases h
  | some pV' =>
  cases pR? with
  | none => cases h
  | some pR =>
  simp only at h
  cases e4 : superFrc N (numCoeff hR * N) Mr bbR hR pR (rhi * vprnmOm ncol pV') with
  | error e => rw [e4] at h; cases h
  | ok frc =>
  rw [e4] at h
  simp only at h
  cases e5 : superRotate N (numCoeff hR * N) hR cr pV' pv (rhi * vprnmOm ncol pV') (pR (numCoeff hR * N + 2)) frc with
  | error e => rw [e5] at h; cases h
  | ok ri =>
  obtain ⟨rows, i⟩ := ri
  rw [e5] at h
  simp only at h
  cases e6 : superExtra (numCoeff hR * N) rhi extra rows (frc.map fun x => x.2.1) i with
  | error e => rw [e6] at h; cases h
  | ok s' =>
  rw [e6] at h
  cases h
  have hpv := ampIndex_ok hVn e2
  subst hpv
  unfold vprnmPoint at e1
  cases f1 : ampIndex N ncol hV 1 with
  | error e => rw [f1] at e1; cases e1
  | ok p1 =>
  rw [f1] at e1
  have hp1 := ampIndex_ok hVn f1
  subst hp1
  unfold superPoint at e3
  cases f2 : ampIndex N (numCoeff hR * N + 3) hR 1 with
  | error e => rw [f2] at e3; cases e3
  | ok p2 =>
  rw [f2] at e3
  have hp2 := ampIndex_ok hRA.nodup f2
  subst hp2
  simp only [Option.map_some, Option.getD_some, Option.isNone_some] at e3
  cases f3 : firstRow (linearInterp Mr (numCoeff hR * N + 2) (linQ (numCoeff hR * N) bbR)
      [harmAmp N (numCoeff (hV.filter fun j => j < rhi)) cr 1 pV]
      (some (Mr, fun k => harmAmp N (numCoeff (hR.filter fun j => j < 1)) cr ((10 : ℝ) ^ bbR k (numCoeff hR * N + 2)) (bbR k)))) with
  | error e => rw [f3] at e3; cases e3
  | ok r =>
  rw [f3] at e3
  simp only [Bool.false_eq_true, if_false] at e3
  cases e3
  unfold superRotate at e5
  cases f4 : npArgmin (frc.map fun x => |x.1 (numCoeff hR * N) - rhi * vprnmOm ncol pV|) with
  | none => rw [f4] at e5; cases e5
  | some i' =>
  rw [f4] at e5
  simp only at e5
  split_ifs at e5 with hq
  rw [mapE_ok (fun x : RomPoint => rsp_ok x.1 N hRA.ne _ 1)] at e5
  cases e5
  exact ⟨pR, frc, i, firstRow_ok e1, firstRow_ok f3, e4, f4, hq, e6⟩

/-- The fundamental part of a successful run. -/
theorem fundPart_ok {N n Mf : ℕ} {bbF : ℕ → ℕ → ℝ} {hF hV : List ℕ} {Fl c1 : ℕ → ℝ} {amp : ℝ} {pV : ℕ → ℝ}
    {fund : Option ((ℝ → ℝ) × (ℕ → ℝ))} (hne : hF ≠ [])
    (h : fundPart N n Mf bbF hF hV Fl c1 amp pV = .ok fund) :
    (fund = none ∧ constantDisplacement Mf N n hF bbF Fl c1 amp none none = .ok none) ∨
    ∃ f pt, constantDisplacement Mf N n hF bbF Fl c1 amp none none = .ok (some (f, pt)) ∧
      fund = some (f, rsp (fun i => if zi hF * N ≤ i ∧ i < n then pt i * (10 : ℝ) ^ pt (n + 2) else pt i) N hF
        (harmPhase N (zi hV) c1 pV - harmPhase N (zi hF) c1
          (fun i => if zi hF * N ≤ i ∧ i < n then pt i * (10 : ℝ) ^ pt (n + 2) else pt i)) 1) := by
  unfold fundPart at h
  cases e : constantDisplacement Mf N n hF bbF Fl c1 amp none none with
  | error e' => rw [e] at h; cases h
  | ok o =>
  cases o with
  | none =>
    rw [e] at h
    cases h
    exact .inl ⟨rfl, rfl⟩
  | some x =>
  obtain ⟨f, pt⟩ := x
  rw [e] at h
  simp only at h
  rw [rsp_ok _ _ hne] at h
  cases h
  exact .inr ⟨f, pt, rfl, rfl⟩

/-- What a successful call gives. -/
theorem constantH1_ok {N Mf : ℕ} {bbF : ℕ → ℕ → ℝ} {hF : List ℕ} {Mr : ℕ} {bbR : ℕ → ℕ → ℝ} {hR : List ℕ} {ncol Mv : ℕ}
    {bbV : ℕ → ℕ → ℝ} {hV : List ℕ} {rhi : ℕ} {c1 : ℕ → ℝ} {amp : ℝ} {cr Fl : ℕ → ℝ} {extra : Option (List ℝ)}
    {correct : Bool} {out : VprnmRom} (hVn : hV.Nodup) (hFn : hF.Nodup)
    (h : constantH1 N Mf bbF hF Mr bbR hR ncol Mv bbV hV rhi c1 amp cr Fl extra correct = .ok out) :
    ∃ pV s fund, (ncol = numCoeff hV * N + 4 ∨ ncol = numCoeff hV * N + 2) ∧
      vprnmSuper N ncol Mv bbV hV Mr bbR hR rhi c1 amp cr extra = .ok (pV, s) ∧
      fundPart N (numCoeff hF * N) Mf bbF hF hV Fl c1 amp pV = .ok fund ∧
      out = ⟨s.U.map fun u => assembleRow N hV hF hR (outHarmonics hV hF hR rhi) rhi pV (fund.map Prod.snd) u,
        s.w.map fun w => w / (rhi : ℝ), forceOut correct (vprnmForce ncol (numCoeff hV * N) pV) (fund.map Prod.fst)
          (s.w.map fun w => w / (rhi : ℝ)) s.q s.peak, outHarmonics hV hF hR rhi⟩ := by
  unfold constantH1 at h
  rw [Nhc_ok hVn] at h
  simp only at h
  split_ifs at h with hc
  cases e1 : vprnmSuper N ncol Mv bbV hV Mr bbR hR rhi c1 amp cr extra with
  | error e => rw [e1] at h; cases h
  | ok x =>
  obtain ⟨pV, s⟩ := x
  rw [e1, Nhc_ok hFn] at h
  simp only at h
  cases e2 : fundPart N (numCoeff hF * N) Mf bbF hF hV Fl c1 amp pV with
  | error e => rw [e2] at h; cases h
  | ok fund =>
  rw [e2] at h
  cases h
  exact ⟨pV, s, fund, hc, rfl, e2, rfl⟩

end

end TMD
