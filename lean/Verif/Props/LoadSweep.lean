import Verif.Props.DashpotSweep

/-!
# C154: single-valued solution curves are followed, in particular under a growing load
-/

namespace TMD

open Spec Metric Set

noncomputable section

section
variable {N : ℕ} {f : ContFun} {R : (ℕ → ℝ) → ℕ → ℝ} {J : (ℕ → ℝ) → ℕ → ℕ → ℝ} {D : (ℕ → ℝ) → ℕ → ℝ} {O : Set (Fin (N + 1) → ℝ)} {lam0 lam1 δ : ℝ} {bs : Option ℝ}

theorem within_mono {δ' w : ℝ} (hd : δ' ≤ δ) (hw : Within lam0 lam1 bs δ' w) : Within lam0 lam1 bs δ w :=
  ⟨fun hl => by linarith [hw.1 hl], fun hl => by linarith [hw.2.1 hl], fun z hz => ⟨fun hl => by linarith [(hw.2.2 z hz).1 hl], fun hl => by linarith [(hw.2.2 z hz).2 hl]⟩⟩

theorem within_near {δ' w w' : ℝ} (hw : Within lam0 lam1 bs δ' w) (ha : |w' - w| < δ - δ') : Within lam0 lam1 bs δ w' := by
  obtain ⟨a1, a2⟩ := abs_lt.1 ha
  exact ⟨fun hl => by linarith [hw.1 hl], fun hl => by linarith [hw.2.1 hl], fun z hz => ⟨fun hl => by linarith [(hw.2.2 z hz).1 hl], fun hl => by linarith [(hw.2.2 z hz).2 hl]⟩⟩

theorem RegularSolutions.mono {δ' : ℝ} (hd : δ' ≤ δ) (hK : RegularSolutions N R J D O lam0 lam1 bs δ) : RegularSolutions N R J D O lam0 lam1 bs δ' := by
  have hsub : solutions N R lam0 lam1 bs δ' ⊆ solutions N R lam0 lam1 bs δ := fun v hv => ⟨hv.1, within_mono hd hv.2⟩
  refine ⟨?_, hsub.trans hK.inside, fun v hv => hK.curve v (hsub hv), fun v hv => hK.nonzero v (hsub hv)⟩
  have e : solutions N R lam0 lam1 bs δ' = solutions N R lam0 lam1 bs δ ∩ (fun v : Fin (N + 1) → ℝ => v (Fin.last N)) ⁻¹' {w | Within lam0 lam1 bs δ' w} := by
    ext1 v
    exact ⟨fun hv => ⟨hsub hv, hv.2⟩, fun hv => ⟨hv.1.1, hv.2⟩⟩
  rw [e]
  exact hK.compact.inter_right ((within_closed lam0 lam1 bs δ').preimage (continuous_apply _))

/-- On a bounded closed set of solutions with one solution for each parameter, neighbouring parameters have neighbouring solutions. -/
theorem graph_close {K : Set (Fin (N + 1) → ℝ)} (hKc : IsCompact K) (huniq : ∀ v ∈ K, ∀ v' ∈ K, v (Fin.last N) = v' (Fin.last N) → v = v') {η : ℝ} (hη : 0 < η) :
    ∃ θ > 0, ∀ v ∈ K, ∀ v' ∈ K, |v (Fin.last N) - v' (Fin.last N)| < θ → ‖v - v'‖ < η := by
  set P : Set ((Fin (N + 1) → ℝ) × (Fin (N + 1) → ℝ)) := (K ×ˢ K) ∩ {q | η ≤ ‖q.1 - q.2‖} with hP
  have hPc : IsCompact P := (hKc.prod hKc).inter_right (isClosed_le continuous_const (by fun_prop))
  have hpos : ∀ q ∈ P, 0 < |q.1 (Fin.last _) - q.2 (Fin.last _)| := fun q hq => by
    rw [abs_pos]
    intro h0
    have h2 : η ≤ ‖q.1 - q.2‖ := hq.2
    rw [huniq _ hq.1.1 _ hq.1.2 (sub_eq_zero.1 h0), sub_self, norm_zero] at h2
    linarith
  rcases P.eq_empty_or_nonempty with he | hne
  · refine ⟨1, one_pos, fun v hv v' hv' _ => ?_⟩
    by_contra hc
    have : (v, v') ∈ P := ⟨⟨hv, hv'⟩, not_lt.1 hc⟩
    rw [he] at this
    exact this
  · obtain ⟨q, hq, hm⟩ := hPc.exists_isMinOn hne (f := fun q => |q.1 (Fin.last _) - q.2 (Fin.last _)|) (Continuous.continuousOn (by fun_prop))
    refine ⟨_, hpos q hq, fun v hv v' hv' hlt => ?_⟩
    by_contra hc
    have : (v, v') ∈ P := ⟨⟨hv, hv'⟩, not_lt.1 hc⟩
    exact absurd hlt (not_lt.2 (hm this))

/-- The unknowns `U` solve the equations at the parameter `a`. -/
def SolvesAt (N : ℕ) (R : (ℕ → ℝ) → ℕ → ℝ) (a : ℝ) (U : ℕ → ℝ) : Prop := ∀ i < N, R (fun k => if k < N then U k else a) i = 0

theorem solvesAt_mem (hs : SmoothIn N f R J D O) {a : ℝ} {U : ℕ → ℝ} (hU : SolvesAt N R a U) (ha : Within lam0 lam1 bs δ a) :
    addFreq N a (fun i => U i) ∈ solutions N R lam0 lam1 bs δ := by
  refine ⟨fun i hi => ?_, by rw [addFreq_last]; exact ha⟩
  have h1 := hs.local' (Spec.ext (addFreq N a fun i => U i)) (fun k => if k < N then U k else a) fun k hk => by
    by_cases hkN : k < N <;> simp [Spec.ext, addFreq, hk, hkN]
  rw [hs.value, hs.value] at h1
  injection h1 with h1
  injection h1 with h1 _ _
  rw [h1]
  exact hU i hi

/-- C154: if in a range of the parameter the equations have at most one solution for each parameter, these are bounded and none is zero or a fold, then a
continuation with small steps and tolerance stores, at every parameter it stops at, the solution of that parameter up to `η`, moves on by a least amount
with every step and passes the last parameter. -/
theorem C154_follows (hs : SmoothIn N f R J D O) (hK : RegularSolutions N R J D O lam0 lam1 bs δ) (hδ : 0 < δ) (hlam : lam0 ≠ lam1)
    (hfold : ∀ v ∈ solutions N R lam0 lam1 bs δ, Regular N (J (Spec.ext v))) (hbs : ∀ y ∈ bs, 0 < y)
    (huniq : ∀ a, Within lam0 lam1 bs δ a → ∀ U V, SolvesAt N R a U → SolvesAt N R a V → ∀ i < N, U i = V i)
    {U0 : ℕ → ℝ} (hU0 : SolvesAt N R lam0 U0)
    {obj : ContObj} {r b η inf : ℝ} {L : ℕ → Type} {lin : ℕ → (ℕ → ℕ → ℝ) → (ℕ → ℝ) → Except Err (ℕ → ℝ)}
    {fac : (n : ℕ) → Matrix (Fin n) (Fin n) ℝ → L n} {sol : (n : ℕ) → L n → (Fin n → ℝ) → (Fin n → ℝ)}
    (hC : ∀ i ≤ N, 0 < (contPrepare obj).CtoP i) (hr : (contPrepare obj).RPtoC = .vector fun _ => r) (hr0 : r ≠ 0)
    (hb : 0 < b) (hb1 : b < 1) (hlin : LinOk lin) (hsol : ∀ n, ExactSolve (fac n) (sol n)) (hη : 0 < η) :
    ∃ s0 > 0, ∃ t0 > 0, ∃ c > 0, ∃ p > 0, ∃ r0 > 0, ∀ smin > 0, ∀ t > 0, t ≤ t0 → t ≤ c * smin → ∃ M, ∀ om, PlainNewton om → M ≤ om.maxSteps →
      ∀ (cfg : ContCfg) (rest : List ℝ), cfg.corrector = .ortho → cfg.dynamicCtoP = false → cfg.fracLamList = b :: rest → cfg.backtrackStop = bs →
      smin ≤ cfg.dsmin → smin ≤ cfg.dsmax → cfg.dsmax ≤ s0 → smin ≤ cfg.ds0 → cfg.ds0 ≤ s0 → |lam1 - lam0| ≤ p * smin * (cfg.maxSteps - 1) →
      ∀ XlamP0 : ℕ → ℝ, (∀ i < N, |XlamP0 i - U0 i| < r0) → ∀ fuel > cfg.maxSteps,
      ∃ res, continuation (ompContSolver lin inf fac sol om (some t)) N cfg obj f XlamP0 lam0 lam1 fuel = .ok res ∧ res.ok = true ∧ 0 < res.n ∧
        (∀ k < res.n, Within lam0 lam1 bs δ (res.rows k N) ∧ ∀ U, SolvesAt N R (res.rows k N) U → ∀ j < N, |res.rows k j - U j| < η) ∧
        (∀ k, k + 1 < res.n → p * smin ≤ (if lam0 < lam1 then 1 else -1) * (res.rows (k + 1) N - res.rows k N)) ∧
        res.rows 0 N = lam0 ∧ (∀ k, k + 1 < res.n → Ahead lam0 lam1 (res.rows k N)) ∧ ¬ Ahead lam0 lam1 (res.rows (res.n - 1) N) := by
  have hw0 : Within lam0 lam1 bs (δ / 2) lam0 := by
    refine ⟨fun hl => by linarith, fun hl => by linarith, fun z hz => ?_⟩
    have := hbs z hz
    exact ⟨fun hl => by linarith, fun hl => by linarith⟩
  have hsolv : ∀ v ∈ solutions N R lam0 lam1 bs δ, SolvesAt N R (v (Fin.last N)) (Spec.ext v) := fun v hv i hi => by
    have h1 := hs.local' (fun k => if k < N then Spec.ext v k else v (Fin.last N)) (Spec.ext v) fun k hk => by
      by_cases hkN : k < N
      · simp [hkN]
      · obtain rfl : k = N := by omega
        simp [ext_last]
    rw [hs.value, hs.value] at h1
    injection h1 with h1
    injection h1 with h1 _ _
    rw [h1]
    exact hv.1 i hi
  have huniq' : ∀ v ∈ solutions N R lam0 lam1 bs δ, ∀ v' ∈ solutions N R lam0 lam1 bs δ, v (Fin.last N) = v' (Fin.last N) → v = v' := fun v hv v' hv' hl => by
    have h1 := huniq _ hv.2 _ _ (hsolv v hv) (by rw [hl]; exact hsolv v' hv')
    funext j
    rcases Nat.lt_or_ge (j : ℕ) N with hj | hj
    · have := h1 j hj
      simpa [Spec.ext, hj.le] using this
    · have : j = Fin.last _ := Fin.ext (by have := j.2; simp; omega)
      rw [this, hl]
  obtain ⟨θ, hθ, Hθ⟩ := graph_close hK.compact huniq' (half_pos hη)
  obtain ⟨s0, hs0, t0, ht0, c, hc, p, hp, r0, hr0', H⟩ := C140_reaches (inf := inf) (η := min (η / 2) (min (δ / 2) θ)) hs (hK.mono (half_le_self hδ.le)) (half_pos hδ) hlam
    (fun v hv => hfold v ⟨hv.1, within_mono (half_le_self hδ.le) hv.2⟩) hbs (solvesAt_mem hs hU0 hw0) (addFreq_last _ _ _)
    hC hr hr0 hb hb1 hlin hsol (lt_min (half_pos hη) (lt_min (half_pos hδ) hθ))
  refine ⟨s0, hs0, t0, ht0, c, hc, p, hp, r0, hr0', fun smin hsm t ht htt htc => ?_⟩
  obtain ⟨M, HM⟩ := H smin hsm t ht htt htc
  refine ⟨M, fun om hom hmM cfg rest c1 c2 c3 c4 c5 c6 c7 c8 c9 c10 XlamP0 hX fuel hf => ?_⟩
  have hext : ∀ (w : ℝ) (U : ℕ → ℝ), ∀ i < N, Spec.ext (addFreq N w fun i => U i) i = U i := fun w U i hi => by
    simp [Spec.ext, addFreq, hi, show i < N + 1 by omega]
  obtain ⟨res, e1, e2, e3, e4, e5, e6, e7, e8⟩ := HM om hom hmM cfg rest c1 c2 c3 c4 c5 c6 c7 c8 c9 c10 XlamP0 (fun i hi => by
    rw [hext _ _ i hi]
    exact hX i hi) fuel hf
  refine ⟨res, e1, e2, e3, fun k hk => ?_, e5, e6, e7, e8⟩
  obtain ⟨v, hv, hcl⟩ := e4 k hk
  have hn' := hcl _ le_rfl
  rw [ext_last] at hn'
  have hwk : Within lam0 lam1 bs δ (res.rows k N) := within_near hv.2 (hn'.trans_le ((min_le_right _ _).trans ((min_le_left _ _).trans (by linarith))))
  refine ⟨hwk, fun U hU j hj => ?_⟩
  have h2 := hcl j hj.le
  have h3 := Hθ _ (solvesAt_mem hs hU hwk) v ⟨hv.1, within_mono (half_le_self hδ.le) hv.2⟩ (by
    rw [addFreq_last]
    exact hn'.trans_le ((min_le_right _ _).trans (min_le_right _ _)))
  have h4 := (norm_le_pi_norm _ (⟨j, by omega⟩ : Fin (N + 1))).trans_lt h3
  rw [Pi.sub_apply, Real.norm_eq_abs] at h4
  have e9 : addFreq N (res.rows k N) (fun i => U i) (⟨j, by omega⟩ : Fin (N + 1)) = U j := by simp [addFreq, hj]
  have e10 : Spec.ext v j = v ⟨j, by omega⟩ := by simp [Spec.ext, show j < N + 1 by omega]
  rw [e9] at h4
  rw [e10] at h2
  have h2' := h2.trans_le (min_le_left _ _)
  rw [abs_lt] at h4 h2' ⊢
  constructor <;> linarith

end

variable {S : VibSys} {Fl : ℕ → ℝ} {h : List ℕ} {Nt n : ℕ} {tol w : ℝ} {lam0 lam1 δ y : ℝ}

/-- The function handed to the continuation, `lambda UF : vib_sys.hbm_res_dFl(UF, w, Fl, h, Nt=Nt)`, as for `hbm_res` in examples/sdof_duffing.py:131,
with the argument `calc_grad` passed on; the gradients of a call without them are not looked at. -/
def loadFun (S : VibSys) (w : ℝ) (Fl : ℕ → ℝ) (h : List ℕ) (Nt : ℕ) (tol : ℝ) : ContFun := fun X g =>
  match hbmResdFl S X w Fl h Nt tol g with
  | .error e => .error e
  | .ok o => match o.grad with
    | some p => .ok ⟨o.R, p.1, p.2⟩
    | none => .ok ⟨o.R, fun _ _ => 0, fun _ => 0⟩

/-- The unknowns followed by the frequency. -/
def atFreq (S : VibSys) (h : List ℕ) (w : ℝ) (X : ℕ → ℝ) : ℕ → ℝ := hcat (numCoeff h * S.nd) (sl 0 (numCoeff h * S.nd) X) fun _ => w

def loadR (S : VibSys) (w : ℝ) (Fl : ℕ → ℝ) (h : List ℕ) (Nt : ℕ) (tol : ℝ) (X : ℕ → ℝ) (i : ℕ) : ℝ :=
  hbmG S (aftVal h Nt tol) h (atFreq S h w X) i - (X (numCoeff h * S.nd) * setSlice Fl 0 (zi h * S.nd) (fun _ => 0) i
    + setSlice Fl (zi h * S.nd) (numCoeff h * S.nd) (fun _ => 0) i)

def loadJ (S : VibSys) (w : ℝ) (h : List ℕ) (Nt : ℕ) (tol : ℝ) (X : ℕ → ℝ) : ℕ → ℕ → ℝ := hbmJ S (aftVal h Nt tol) h (atFreq S h w X)

def loadD (S : VibSys) (Fl : ℕ → ℝ) (h : List ℕ) (_ : ℕ → ℝ) (i : ℕ) : ℝ := - setSlice Fl 0 (zi h * S.nd) (fun _ => 0) i

theorem loadR_eq (hh : Admissible h) (X : ℕ → ℝ) {i : ℕ} (hi : i < numCoeff h * S.nd) :
    loadR S w Fl h Nt tol X i = balance S h Nt tol (sl 0 (numCoeff h * S.nd) X) w i - scaledForcing S.nd h Fl (X (numCoeff h * S.nd)) i := by
  have e1 : hbmG S (aftVal h Nt tol) h (atFreq S h w X) i = balance S h Nt tol (sl 0 (numCoeff h * S.nd) X) w i := by
    unfold hbmG atFreq
    rw [sl_hcat, hcat_at]
    rfl
  unfold loadR
  rw [e1]
  congr 1
  have hz := lt_zi_nd hh S.nd i
  by_cases hs : i < zi h * S.nd
  · simp [setSlice, scaledForcing, hs, hz.mp hs, Nat.not_le.mpr hs]
  · have hs' : ¬ (0 ∈ h ∧ i < S.nd) := fun c => hs (hz.mpr c)
    have := Nat.le_of_not_lt hs
    simp [setSlice, scaledForcing, hs, hs', this, hi]

theorem load_solves (hh : Admissible h) (hR : ∀ f ∈ S.forces, Resists S.nd n h Nt tol f) (a : ℝ) (U : ℕ → ℝ) :
    SolvesAt (numCoeff h * S.nd) (loadR S w Fl h Nt tol) a U ↔ HBMSolution S (scaledForcing S.nd h Fl a) h Nt tol w U := by
  rw [solution_iff hh hR]
  have e : sl 0 (numCoeff h * S.nd) (fun k => if k < numCoeff h * S.nd then U k else a) = sl 0 (numCoeff h * S.nd) U := sl_congr fun k hk => by simp [hk]
  refine forall₂_congr fun i hi => ?_
  rw [loadR_eq hh _ hi, e, if_neg (lt_irrefl _), sub_eq_zero]

theorem load_smooth (hh : Admissible h) (hS : ∀ f ∈ S.forces, SmoothAft S.nd h Nt tol f) (hw : 0 < w) :
    SmoothIn (numCoeff h * S.nd) (loadFun S w Fl h Nt tol) (loadR S w Fl h Nt tol) (loadJ S w h Nt tol) (loadD S Fl h) univ where
  value X := by
    simp only [loadFun, hbmResdFl_ok S hh Nt tol (aftVal h Nt tol) (fun f hf => (hS f hf).ok) X w Fl rfl]
    rfl
  local' X Y hXY := by
    have hN := hXY _ (Nat.lt_succ_self _)
    have hs : sl 0 (numCoeff h * S.nd) X = sl 0 (numCoeff h * S.nd) Y := sl_congr fun k hk => hXY k (by omega)
    simp only [loadFun, hbmResdFl_ok S hh Nt tol (aftVal h Nt tol) (fun f hf => (hS f hf).ok) _ w Fl rfl, hs, hN]
  isOpen := isOpen_univ
  deriv v _ i hi := by
    have h1 := hbmG_pack S hh (aftVal h Nt tol) (n := numCoeff h * S.nd + 1) (x := Spec.ext v) (φ := fun _ => w)
      (HasGrad.const w) rfl (fun f hf => (hS f hf).grad _ (by rw [hcat_at]; exact hw)) i hi
    have h2 := (HasGrad.mul_const (setSlice Fl 0 (zi h * S.nd) (fun _ => 0) i)
      (HasGrad.coord (n := numCoeff h * S.nd + 1) (x := Spec.ext v) (numCoeff h * S.nd))).add
      (HasGrad.const (setSlice Fl (zi h * S.nd) (numCoeff h * S.nd) (fun _ => 0) i))
    refine (h1.sub h2).congr (fun j hj => ?_)
    by_cases hjL : j < numCoeff h * S.nd
    · have : j ≠ numCoeff h * S.nd := by omega
      simp [fullJac, loadJ, atFreq, hjL, this]
    · have : j = numCoeff h * S.nd := by omega
      simp [fullJac, loadD, this]
  cont i hi j hj := by
    unfold fullJac
    split_ifs with hjn
    · have hs := smooth_system (Fl := Fl) hh hS
      have hcomp : Continuous fun v : Fin (numCoeff h * S.nd + 1) → ℝ => addFreq (numCoeff h * S.nd) w fun i => v i.castSucc := by
        refine continuous_pi fun k => ?_
        simp only [addFreq]
        split_ifs <;> fun_prop
      have h1 := (hs.cont i hi j hj).comp hcomp.continuousOn (s := univ) fun v _ => by
        rw [mem_ofPred_eq, addFreq_last]
        exact hw
      refine h1.congr fun v _ => ?_
      simp only [Function.comp, fullJac, if_pos hjn, loadJ]
      have e : ∀ k ≤ numCoeff h * S.nd, atFreq S h w (Spec.ext v) k = Spec.ext (addFreq (numCoeff h * S.nd) w fun i => v i.castSucc) k := fun k hk => by
        by_cases hkN : k < numCoeff h * S.nd
        · simp [atFreq, hcat, hkN, sl, Spec.ext, addFreq, show k < numCoeff h * S.nd + 1 by omega]
        · obtain rfl : k = numCoeff h * S.nd := by omega
          simp [atFreq, hcat, Spec.ext, addFreq]
      unfold hbmJ
      rw [e _ le_rfl, sl_congr (b := Spec.ext (addFreq (numCoeff h * S.nd) w fun i => v i.castSucc)) fun k hk => e k hk.le]
    · exact continuousOn_const

/-- The solutions of a range of loads form a bounded closed set. -/
theorem load_compact (hh : Admissible h) (hn : ∀ k ∈ h, k ≤ n) (hR : ∀ f ∈ S.forces, Resists S.nd n h Nt tol f) (hD : Damped S h) (hlam : lam0 ≠ lam1) (hw : 0 < w) :
    IsCompact (solutions (numCoeff h * S.nd) (loadR S w Fl h Nt tol) lam0 lam1 (some y) δ) := by
  have hs := load_smooth (Fl := Fl) hh (fun f hf => (hR f hf).smooth) hw
  obtain ⟨b, hb⟩ := (within_compact (y := y) (δ := δ) hlam).isBounded.exists_norm_le
  set B : ℝ := ∑ i ∈ Finset.range (numCoeff h * S.nd), |Fl i| with hB
  obtain ⟨B', hB'⟩ := balance_proper hh hn hR hD.massSymm hD.stiffSymm hD.damping hD.stiffness hw w ((1 + |b|) * B)
  have hcont : ∀ i < numCoeff h * S.nd, Continuous (fun v : Fin (numCoeff h * S.nd + 1) → ℝ => loadR S w Fl h Nt tol (Spec.ext v) i) := fun i hi =>
    continuous_iff_continuousAt.2 fun v => continuousAt_of_grad (F := fun X => loadR S w Fl h Nt tol X i) (hs.deriv v (mem_univ v) i hi)
  refine isCompact_of_isClosed_isBounded ?_ ?_
  · have hcl : IsClosed {v : Fin (numCoeff h * S.nd + 1) → ℝ | Within lam0 lam1 (some y) δ (v (Fin.last _))} :=
      (within_closed lam0 lam1 (some y) δ).preimage (f := fun v : Fin (numCoeff h * S.nd + 1) → ℝ => v (Fin.last _)) (continuous_apply _)
    have e : solutions (numCoeff h * S.nd) (loadR S w Fl h Nt tol) lam0 lam1 (some y) δ
        = {v | Within lam0 lam1 (some y) δ (v (Fin.last _))} ∩ (⋂ i : Fin (numCoeff h * S.nd),
          (fun v : Fin (numCoeff h * S.nd + 1) → ℝ => loadR S w Fl h Nt tol (Spec.ext v) i) ⁻¹' {0}) := by
      ext1 v
      simp only [mem_inter_iff, mem_iInter, mem_preimage, mem_singleton_iff]
      exact ⟨fun ⟨h1, h2⟩ => ⟨h2, fun i => h1 i i.2⟩, fun ⟨h1, h2⟩ => ⟨fun i hi => h2 ⟨i, hi⟩, h1⟩⟩
    rw [e]
    exact hcl.inter (isClosed_iInter fun i => isClosed_singleton.preimage (hcont i i.2))
  · refine (isBounded_iff_subset_closedBall 0).2 ⟨max |B'| |b|, fun v hv => ?_⟩
    have hwb : |v (Fin.last _)| ≤ |b| := (hb _ hv.2).trans (le_abs_self _)
    rw [mem_closedBall_zero_iff, pi_norm_le_iff_of_nonneg ((abs_nonneg _).trans (le_max_left _ _))]
    intro j
    rw [Real.norm_eq_abs]
    rcases Nat.lt_or_ge (j : ℕ) (numCoeff h * S.nd) with hj | hj
    · have h1 := hB' w le_rfl le_rfl (sl 0 (numCoeff h * S.nd) (Spec.ext v)) (fun i hi => by
        have := hv.1 i hi
        rw [loadR_eq hh _ hi, sub_eq_zero] at this
        rw [this, ext_last]
        have h2 : |Fl i| ≤ B := Finset.single_le_sum (f := fun i => |Fl i|) (fun _ _ => abs_nonneg _) (Finset.mem_range.2 hi)
        have h3 := abs_nonneg (Fl i)
        have h4 := abs_nonneg b
        unfold scaledForcing
        split_ifs
        · nlinarith
        · rw [abs_mul]
          nlinarith [mul_le_mul hwb h2 h3 h4]) j hj
      rw [sl_zero hj] at h1
      have e : Spec.ext v j = v j := by simp [Spec.ext, hj.le]
      rw [e] at h1
      exact h1.trans ((le_abs_self _).trans (le_max_left _ _))
    · have : j = Fin.last _ := Fin.ext (by have := j.2; simp; omega)
      rw [this]
      exact hwb.trans (le_max_right _ _)

/-- C154: at a positive frequency and for every load factor there is one and only one solution of `hbm_res_dFl`, and the returned matrix is regular everywhere:
a continuation over the load meets no fold and no branch point. -/
theorem C154_load_solution (hh : Admissible h) (hNt : ∀ k ∈ h, 2 * k + 1 < Nt) (heven : Even Nt) (hD : Damped S h) (hS : ∀ f ∈ S.forces, IsDashpot S.nd f)
    (Fl : ℕ → ℝ) (hw : 0 < w) (a : ℝ) :
    (∃ U, HBMSolution S (scaledForcing S.nd h Fl a) h Nt tol w U ∧ ∀ V, HBMSolution S (scaledForcing S.nd h Fl a) h Nt tol w V → ∀ i < numCoeff h * S.nd, V i = U i) ∧
      ∀ X, ∃ R J d, hbmResdFl S X w Fl h Nt tol true = .ok ⟨R, some (J, d)⟩ ∧ Regular (numCoeff h * S.nd) J := by
  refine ⟨C144_solution hh hNt heven hD hS _ hw, fun X => ?_⟩
  obtain ⟨n, hn⟩ := exists_bound h
  have hR : ∀ f ∈ S.forces, Resists S.nd n h Nt tol f := fun f hf => dashpot_resists (tol := tol) hh hn hNt heven (hS f hf)
  exact ⟨_, _, _, hbmResdFl_ok S hh Nt tol (aftVal h Nt tol) (fun f hf => (hR f hf).ok) X w Fl rfl,
    jac_regular hh hn hR hD.massSymm hD.stiffSymm hD.damping hD.stiffness (by rw [hcat_at]; exact hw)⟩

/-- C154: a continuation over positive load factors at a fixed positive frequency stores the solution of each load it stops at up to `η`, moves on by a least
amount with every step and passes the last load. -/
theorem C154_load (hh : Admissible h) (hNt : ∀ k ∈ h, 2 * k + 1 < Nt) (heven : Even Nt) (hD : Damped S h) (hS : ∀ f ∈ S.forces, IsDashpot S.nd f)
    (hF : ∃ i < numCoeff h * S.nd, Fl i ≠ 0) (hw : 0 < w) (h1 : 0 < lam1) (hlam : lam0 ≠ lam1) (hy : 0 < y) (hy0 : y < lam0)
    {U0 : ℕ → ℝ} (hU0 : HBMSolution S (scaledForcing S.nd h Fl lam0) h Nt tol w U0)
    {obj : ContObj} {r b η inf : ℝ} {L : ℕ → Type} {lin : ℕ → (ℕ → ℕ → ℝ) → (ℕ → ℝ) → Except Err (ℕ → ℝ)}
    {fac : (n : ℕ) → Matrix (Fin n) (Fin n) ℝ → L n} {sol : (n : ℕ) → L n → (Fin n → ℝ) → (Fin n → ℝ)}
    (hC : ∀ i ≤ numCoeff h * S.nd, 0 < (contPrepare obj).CtoP i) (hr : (contPrepare obj).RPtoC = .vector fun _ => r) (hr0 : r ≠ 0)
    (hb : 0 < b) (hb1 : b < 1) (hlin : LinOk lin) (hsol : ∀ n, ExactSolve (fac n) (sol n)) (hη : 0 < η) :
    ∃ s0 > 0, ∃ t0 > 0, ∃ c > 0, ∃ p > 0, ∃ r0 > 0, ∀ smin > 0, ∀ t > 0, t ≤ t0 → t ≤ c * smin → ∃ M, ∀ om, PlainNewton om → M ≤ om.maxSteps →
      ∀ (cfg : ContCfg) (rest : List ℝ), cfg.corrector = .ortho → cfg.dynamicCtoP = false → cfg.fracLamList = b :: rest → cfg.backtrackStop = some y →
      smin ≤ cfg.dsmin → smin ≤ cfg.dsmax → cfg.dsmax ≤ s0 → smin ≤ cfg.ds0 → cfg.ds0 ≤ s0 → |lam1 - lam0| ≤ p * smin * (cfg.maxSteps - 1) →
      ∀ XlamP0 : ℕ → ℝ, (∀ i < numCoeff h * S.nd, |XlamP0 i - U0 i| < r0) → ∀ fuel > cfg.maxSteps,
      ∃ res, continuation (ompContSolver lin inf fac sol om (some t)) (numCoeff h * S.nd) cfg obj (loadFun S w Fl h Nt tol) XlamP0 lam0 lam1 fuel = .ok res ∧
        res.ok = true ∧ 0 < res.n ∧
        (∀ k < res.n, 0 < res.rows k (numCoeff h * S.nd) ∧ ∀ U, HBMSolution S (scaledForcing S.nd h Fl (res.rows k (numCoeff h * S.nd))) h Nt tol w U →
          ∀ j < numCoeff h * S.nd, |res.rows k j - U j| < η) ∧
        (∀ k, k + 1 < res.n → p * smin ≤ (if lam0 < lam1 then 1 else -1) * (res.rows (k + 1) (numCoeff h * S.nd) - res.rows k (numCoeff h * S.nd))) ∧
        res.rows 0 (numCoeff h * S.nd) = lam0 ∧ (∀ k, k + 1 < res.n → Ahead lam0 lam1 (res.rows k (numCoeff h * S.nd))) ∧
        ¬ Ahead lam0 lam1 (res.rows (res.n - 1) (numCoeff h * S.nd)) := by
  obtain ⟨n, hn⟩ := exists_bound h
  have hR : ∀ f ∈ S.forces, Resists S.nd n h Nt tol f := fun f hf => dashpot_resists (tol := tol) hh hn hNt heven (hS f hf)
  set δ : ℝ := min (lam0 - y) lam1 / 2 with hδd
  have hδ : 0 < δ := half_pos (lt_min (by linarith) h1)
  have hwa : ∀ w, Within lam0 lam1 (some y) δ w → δ ≤ w := fun w hw => by
    have a1 := min_le_left (lam0 - y) lam1
    have a2 := min_le_right (lam0 - y) lam1
    rcases lt_or_gt_of_ne hlam with hl | hl
    · linarith [(hw.2.2 y rfl).1 hl]
    · linarith [hw.2.1 hl]
  have hreg : ∀ X, Regular (numCoeff h * S.nd) (loadJ S w h Nt tol X) := fun X =>
    jac_regular hh hn hR hD.massSymm hD.stiffSymm hD.damping hD.stiffness (by unfold atFreq; rw [hcat_at]; exact hw)
  have hK : RegularSolutions (numCoeff h * S.nd) (loadR S w Fl h Nt tol) (loadJ S w h Nt tol) (loadD S Fl h) univ lam0 lam1 (some y) δ :=
    { compact := load_compact hh hn hR hD hlam hw
      inside := fun v _ => mem_univ v
      curve := fun v _ => curve_of_regular (hreg _)
      nonzero := fun v hv => by
        by_contra hc
        push Not at hc
        obtain ⟨i, hi, hne⟩ := hF
        have h2 := hv.1 i hi
        have e : sl 0 (numCoeff h * S.nd) (Spec.ext v) = fun _ => 0 := by
          funext k
          by_cases hk : k < numCoeff h * S.nd
          · rw [sl_zero hk, hc k hk]
          · simp [sl, hk]
        rw [loadR_eq hh _ hi, e, balance_rest hR hw hi, zero_sub, neg_eq_zero, ext_last] at h2
        have h3 := hδ.trans_le (hwa _ hv.2)
        unfold scaledForcing at h2
        split_ifs at h2
        · exact hne h2
        · rcases mul_eq_zero.1 h2 with h2 | h2
          · exact h3.ne' h2
          · exact hne h2 }
  have huniq : ∀ a, Within lam0 lam1 (some y) δ a → ∀ U V, SolvesAt (numCoeff h * S.nd) (loadR S w Fl h Nt tol) a U →
      SolvesAt (numCoeff h * S.nd) (loadR S w Fl h Nt tol) a V → ∀ i < numCoeff h * S.nd, U i = V i := fun a _ U V hU hV i hi => by
    obtain ⟨W, -, hW⟩ := C144_solution (tol := tol) hh hNt heven hD hS (scaledForcing S.nd h Fl a) hw
    rw [hW U ((load_solves hh hR a U).1 hU) i hi, hW V ((load_solves hh hR a V).1 hV) i hi]
  obtain ⟨s0, hs0, t0, ht0, c, hc, p, hp, r0, hr0', H⟩ := C154_follows (inf := inf) (load_smooth (Fl := Fl) hh (fun f hf => (hR f hf).smooth) hw) hK hδ hlam (fun v _ => hreg _)
    (fun z hz => by rwa [← Option.some.inj hz]) huniq ((load_solves hh hR lam0 U0).2 hU0) hC hr hr0 hb hb1 hlin hsol hη
  refine ⟨s0, hs0, t0, ht0, c, hc, p, hp, r0, hr0', fun smin hsm t ht htt htc => ?_⟩
  obtain ⟨M, HM⟩ := H smin hsm t ht htt htc
  refine ⟨M, fun om hom hmM cfg rest c1 c2 c3 c4 c5 c6 c7 c8 c9 c10 XlamP0 hX fuel hf => ?_⟩
  obtain ⟨res, e1, e2, e3, e4, e5⟩ := HM om hom hmM cfg rest c1 c2 c3 c4 c5 c6 c7 c8 c9 c10 XlamP0 hX fuel hf
  exact ⟨res, e1, e2, e3, fun k hk => ⟨hδ.trans_le (hwa _ (e4 k hk).1), fun U hU => (e4 k hk).2 U ((load_solves hh hR _ U).2 hU)⟩, e5⟩

/-- The response of a mass on a spring with the damping `x'/10 + x'³` at its resonance, while the load `cos τ` grows to its tenfold. -/
example (tol : ℝ) {U0 : ℕ → ℝ} (hU0 : HBMSolution (cubicDamped (1 / 10) 1) (scaledForcing 1 [0, 1, 3] (fun i => if i = 1 then 1 else 0) 1) [0, 1, 3] 64 tol 1 U0) :
    ∃ s0 > 0, ∃ c > 0, ∃ p > (0 : ℝ), ∀ t > 0, t ≤ c → ∃ M, ∀ om, PlainNewton om → M ≤ om.maxSteps → ∀ n : ℕ, 9 ≤ p * (n - 1) →
    ∀ cfg : ContCfg, cfg.corrector = .ortho → cfg.dynamicCtoP = false → cfg.fracLamList = [1 / 2] → cfg.backtrackStop = some (1 / 2) → cfg.dsmin = s0 / 10 → cfg.dsmax = s0 →
      cfg.ds0 = s0 → cfg.maxSteps = n →
    ∃ res, continuation (ompContSolver exactLin 0 (fun _ => id) (fun _ D v => D⁻¹.mulVec v) om (some t)) 5 cfg ⟨fun _ => 1, .scalar 1, true, true, 1 / 2, 0⟩
      (loadFun (cubicDamped (1 / 10) 1) 1 (fun i => if i = 1 then 1 else 0) [0, 1, 3] 64 tol) U0 1 10 (n + 1) = .ok res ∧ res.ok = true ∧
      10 ≤ res.rows (res.n - 1) 5 ∧
      ∀ k < res.n, ∀ U, HBMSolution (cubicDamped (1 / 10) 1) (scaledForcing 1 [0, 1, 3] (fun i => if i = 1 then 1 else 0) (res.rows k 5)) [0, 1, 3] 64 tol 1 U →
        ∀ j < 5, |res.rows k j - U j| < 1 / 1000 := by
  obtain ⟨s0, hs0, t0, ht0, c, hc, p, hp, r0, hr0, H⟩ := C154_load (S := cubicDamped (1 / 10) 1) (Fl := fun i => if i = 1 then 1 else 0) (h := [0, 1, 3]) (Nt := 64) (tol := tol)
    (w := 1) (lam0 := 1) (lam1 := 10) (y := 1 / 2) (inf := 0) (fac := fun _ => id) (sol := fun _ D v => D⁻¹.mulVec v) (r := 1) (b := 1 / 2) (η := 1 / 1000)
    (obj := ⟨fun _ => 1, .scalar 1, true, true, 1 / 2, 0⟩) ⟨by simp, by simp, by simp⟩ (by simp) ⟨32, rfl⟩ (cubicDamped_damped (by norm_num) _ _)
    (fun f hf => by obtain rfl : f = _ := List.mem_singleton.1 hf; exact C144_cubic _ _ _ _ (fun _ _ => rfl) fun _ => zero_le_one)
    ⟨1, by simp [numCoeff, cubicDamped], by simp⟩ one_pos (by norm_num) (by norm_num) (by norm_num) (by norm_num) hU0 (by intro i _; simp [contPrepare]) (by simp [contPrepare]) one_ne_zero
    (by norm_num) (by norm_num) exactLin_ok (fun _ => exactSolve_inv) (by norm_num)
  refine ⟨s0, hs0, min t0 (c * (s0 / 10)), lt_min ht0 (by positivity), p * (s0 / 10), by positivity, fun t h1 h2 => ?_⟩
  obtain ⟨M, HM⟩ := H (s0 / 10) (by positivity) t h1 (h2.trans (min_le_left _ _)) (h2.trans (min_le_right _ _))
  refine ⟨M, fun om h3 h4 n hn cfg c1 c2 c3 c4 c5 c6 c7 c8 => ?_⟩
  obtain ⟨res, e1, e2, -, e4, e5, e6, -, e3⟩ := HM om h3 h4 cfg [] c1 c2 c3 c4 c5.ge (by rw [c6]; linarith) c6.le (by rw [c7]; linarith) c7.le
    (by rw [c8, abs_of_pos (by norm_num)]; linarith) U0 (fun i _ => by simpa using hr0) (n + 1) (by omega)
  refine ⟨res, e1, e2, ?_, fun k hk => (e4 k hk).2⟩
  by_contra hc'
  exact e3 (Or.inl ⟨by norm_num, not_le.1 hc'⟩)

end

end TMD
