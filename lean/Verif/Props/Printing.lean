import Verif.Model.Printing
import Verif.Props.Vprnm

/-!
# Property C90: summary files of a continuation
-/

namespace TMD

open Spec Finset

noncomputable section

/-- Harmonic `k` of the motion of the point `recov · x`. -/
def harmonicMotion (nd : ℕ) (h : List ℕ) (k : ℕ) (recov U : ℕ → ℝ) (w t : ℝ) : ℝ :=
  ∑ e ∈ range nd, recov e * ((coefOf h (fun r => U (r * nd + e)) k).1 * Real.cos (k * w * t)
    + (coefOf h (fun r => U (r * nd + e)) k).2 * Real.sin (k * w * t))

/-- `A` is the amplitude of the derivative of order `order` of that harmonic. -/
def RespAmplitude (nd : ℕ) (h : List ℕ) (k order : ℕ) (recov U : ℕ → ℝ) (w A : ℝ) : Prop :=
  IsAmplitude (iteratedDeriv order (harmonicMotion nd h k recov U w)) A

theorem harmonicMotion_eq {h : List ℕ} (hs : h.Pairwise (· < ·)) {k : ℕ} (hk : k ∈ h) (h1 : 1 ≤ k) (nd : ℕ)
    (recov U : ℕ → ℝ) (w : ℝ) : harmonicMotion nd h k recov U w = fun t =>
      ctrl nd recov (numCoeff (h.filter fun j => j < k)) U * Real.cos (k * w * t)
        + ctrl nd recov (numCoeff (h.filter fun j => j < k) + 1) U * Real.sin (k * w * t) := by
  funext t
  unfold harmonicMotion ctrl
  rw [sum_mul, sum_mul, ← sum_add_distrib]
  refine sum_congr rfl fun e _ => ?_
  rw [(coefOf_sorted hs hk h1 _).1]
  ring

/-- C90, amplitudes: for a harmonic `k ≥ 1` of a sorted list `_calc_harmonic_resp` returns the amplitude of the requested
derivative of that harmonic of the point. Missing for the full claim: `k = 0`, see `C90_violated`. -/
theorem C90_amplitude_partial {h : List ℕ} (hs : h.Pairwise (· < ·)) {k : ℕ} (hk : k ∈ h) (h1 : 1 ≤ k) (nd n : ℕ)
    (hn : numCoeff h * nd ≤ n) (recov U : ℕ → ℝ) {w : ℝ} (hw : 0 < w) (order : ℕ) :
    ∃ A, calcHarmonicResp n U w h order nd recov k = .ok A ∧ RespAmplitude nd h k order recov U w A := by
  have hnd : h.Nodup := hs.imp (fun h => Nat.ne_of_lt h)
  set p := numCoeff (h.filter fun j => j < k) with hp
  have hb : (p + 2) * nd ≤ n := (Nat.mul_le_mul_right _ (coefOf_sorted hs hk h1 (fun _ => 0)).2).trans hn
  refine ⟨Real.sqrt (ctrl nd recov p U ^ 2 + ctrl nd recov (p + 1) U ^ 2) * ((k : ℝ) * w) ^ order, ?_, ?_⟩
  · unfold calcHarmonicResp
    rw [Nhc_ok (hnd.filter _)]
    simp only [← hp, if_neg (Nat.not_lt.2 hb), vdot_ctrl nd recov U (p := p) rfl rfl, vdot_ctrl nd recov U (p := p + 1) rfl rfl]
  · have hkw : 0 < (k : ℝ) * w := mul_pos (by exact_mod_cast h1) hw
    unfold RespAmplitude
    rw [harmonicMotion_eq hs hk h1, amplitude_iff _ _ _ hkw.ne']
    refine ⟨by positivity, ?_⟩
    rw [mul_pow (Real.sqrt _), Real.sq_sqrt (by positivity), ← pow_mul, Nat.mul_comm order 2]
    ring

/-- C90 is false for harmonic 0: the first cosine coefficient is taken for a sine part of the mean. For the mean 3 and
`4 cos t` the printed number is 5, the amplitude of harmonic 0 is 3. -/
theorem C90_violated : calcHarmonicResp 4 (fun i => if i = 0 then 3 else if i = 1 then 4 else 0) 1 [0, 1] 0 1 (fun _ => 1) 0
      = .ok 5 ∧
    RespAmplitude 1 [0, 1] 0 0 (fun _ => 1) (fun i => if i = 0 then 3 else if i = 1 then 4 else 0) 1 3 ∧
    ¬ RespAmplitude 1 [0, 1] 0 0 (fun _ => 1) (fun i => if i = 0 then 3 else if i = 1 then 4 else 0) 1 5 := by
  have hA : RespAmplitude 1 [0, 1] 0 0 (fun _ => 1) (fun i => if i = 0 then 3 else if i = 1 then 4 else 0) 1 3 := by
    unfold RespAmplitude harmonicMotion IsAmplitude
    simp [coefOf, iteratedDeriv_zero]
  have h5 : Real.sqrt 25 = 5 := by
    rw [show (25:ℝ) = 5^2 by norm_num]; exact Real.sqrt_sq (by norm_num)
  refine ⟨?_, hA, fun hc => ?_⟩
  · unfold calcHarmonicResp
    simp [Nhc, vdot, sl]
    norm_num [h5]
  · have := isAmplitude_unique hA hc
    norm_num at this

/-- The text a sequence of calls leaves: for points that satisfy `good`, what was in the file (the header if there was no
file) followed by one line for each point, in order; line and point are related by `rel`. -/
def Printed (P : (ℕ → ℝ) → Option TextFile → TextFile × Except Err Unit) (header : TextFile) (good : (ℕ → ℝ) → Prop)
    (rel : (ℕ → ℝ) → List Cell → Prop) : Prop :=
  ∀ (file : Option TextFile) (pts : List (ℕ → ℝ)), pts ≠ [] → (∀ X ∈ pts, good X) → ∃ rows,
    printAll P pts file = (some (file.getD header ++ rows), .ok ()) ∧ List.Forall₂ rel pts rows

theorem printed_of {P : (ℕ → ℝ) → Option TextFile → TextFile × Except Err Unit} {header : TextFile} {good : (ℕ → ℝ) → Prop}
    {rel : (ℕ → ℝ) → List Cell → Prop}
    (H : ∀ X file, good X → ∃ l, P X file = (file.getD header ++ [l], .ok ()) ∧ rel X l) : Printed P header good rel := by
  intro file pts
  induction pts generalizing file with
  | nil => exact fun h => absurd rfl h
  | cons X pts ih =>
    intro _ hg
    obtain ⟨l, e, hl⟩ := H X file (hg X (by simp))
    rcases pts with _ | ⟨Y, pts⟩
    · refine ⟨[l], ?_, .cons hl .nil⟩
      simp only [printAll, e]
    · obtain ⟨rows, e2, hr⟩ := ih (some (file.getD header ++ [l])) (by simp) (fun Z hZ => hg Z (List.mem_cons_of_mem _ hZ))
      refine ⟨l :: rows, ?_, .cons hl hr⟩
      rw [printAll]
      simp only [e]
      rw [e2]
      simp only [Option.getD_some, List.append_assoc, List.singleton_append]

theorem appendLine_ok (header : TextFile) (l : List Cell) (file : Option TextFile) :
    appendLine header (.ok l) file = (file.getD header ++ [l], .ok ()) := by
  cases file <;> rfl

theorem atEnd_ok (n : ℕ) (X : ℕ → ℝ) (k : ℕ) : atEnd (n + k) X k = .ok (X n) := by
  simp [atEnd]

theorem hertz (w : ℝ) : w / 2 / Real.pi = w / (2 * Real.pi) := div_div _ _ _

/-- Headers of the five files. -/
def epmcHeader : TextFile := [[.text "Amplitude (log)", .text "Frequency [Hz]", .text "Damping [Frac Crit]"]]
@[inherit_doc epmcHeader]
def hbmAmpHeader (order : ℕ) : TextFile :=
  [[.text "Frequency [Hz]", .text "Force Scaling [N]", .text s!"Recov Amp [m/s^{order}]"]]
@[inherit_doc epmcHeader]
def hbmAmpPhaseHeader (order : ℕ) : TextFile :=
  [[.text "Frequency [Hz]", .text s!"Amplitude [m/s^{order}]", .text "Force Cosine [N]", .text "Force Sine [N]",
    .text s!"Recov Amp [m/s^{order}]"]]
@[inherit_doc epmcHeader]
def vprnmHeader (order : ℕ) (outs : List ((ℕ → ℝ) × ℕ)) : TextFile :=
  [[.text "Force Scaling [N]", .text "Frequency [Hz]"] ++ outs.map (fun _ => .text s!"Recov Amp [m/s^{order}]"),
    [.text "", .text ""] ++ (outs.zipIdx.map fun p => .text s!"dof={p.2}, h={p.1.2}")]
@[inherit_doc epmcHeader]
def vprnmAmpPhaseHeader (corder order : ℕ) (outs : List ((ℕ → ℝ) × ℕ)) : TextFile :=
  [[.text s!"Amp Control [m/s^{corder}]", .text "Force Cosine [N]", .text "Force Sine [N]", .text "Frequency [Hz]"]
      ++ outs.map (fun _ => .text s!"Recov Amp [m/s^{order}]"),
    [.text "", .text ""] ++ (outs.zipIdx.map fun p => .text s!"dof={p.2}, h={p.1.2}")]

/-- C90, `print_epmc_stats` (unknowns: `L` coefficients, frequency, `ξ`, log amplitude): logarithm of the amplitude,
frequency in Hertz, `ξ / (2 ω)`. -/
theorem C90_epmc (L : ℕ) : Printed (printEpmc (L + 3)) epmcHeader (fun X => X L ≠ 0) fun X l =>
    l = [.num (some (X (L + 2))), .num (some (X L / (2 * Real.pi))), .num (some (X (L + 1) / (2 * X L)))] := by
  refine printed_of fun X file hX => ?_
  have e1 := atEnd_ok (L + 2) X 1
  have e2 := atEnd_ok (L + 1) X 2
  have e3 := atEnd_ok L X 3
  refine ⟨_, ?_, rfl⟩
  unfold printEpmc
  simp only [show L + 3 = L + 2 + 1 from rfl] at *
  rw [e1, e3, show L + 2 + 1 = L + 1 + 2 by omega, e2]
  simp only [npDiv, if_neg hX, div_div]
  exact appendLine_ok _ _ _

/-- C90, `print_epmc_stats` at the frequency zero: a line is written all the same, and its damping is no number. -/
theorem C90_epmc_rest (L : ℕ) : Printed (printEpmc (L + 3)) epmcHeader (fun X => X L = 0) fun X l =>
    l = [.num (some (X (L + 2))), .num (some 0), .num none] := by
  refine printed_of fun X file hX => ?_
  have e1 := atEnd_ok (L + 2) X 1
  have e2 := atEnd_ok (L + 1) X 2
  have e3 := atEnd_ok L X 3
  refine ⟨_, ?_, rfl⟩
  unfold printEpmc
  simp only [show L + 3 = L + 2 + 1 from rfl] at *
  rw [e1, e3, show L + 2 + 1 = L + 1 + 2 by omega, e2]
  simp only [npDiv, hX, if_true, zero_div]
  exact appendLine_ok _ _ _

/-- C90, `print_hbm_amp_stats` (unknowns: the coefficients, force scale, frequency). -/
theorem C90_hbm_amp {h : List ℕ} (hs : h.Pairwise (· < ·)) {k : ℕ} (hk : k ∈ h) (h1 : 1 ≤ k) (nd order : ℕ)
    (recov : ℕ → ℝ) : Printed (printHbmAmp h order nd recov k (numCoeff h * nd + 2)) (hbmAmpHeader order)
      (fun X => 0 < X (numCoeff h * nd + 1)) fun X l =>
    ∃ A, RespAmplitude nd h k order recov X (X (numCoeff h * nd + 1)) A ∧
      l = [.num (some (X (numCoeff h * nd + 1) / (2 * Real.pi))), .num (some (X (numCoeff h * nd))), .num (some A)] := by
  refine printed_of fun X file hX => ?_
  set L := numCoeff h * nd with hL
  obtain ⟨A, e, hA⟩ := C90_amplitude_partial hs hk h1 nd (L + 2) (by omega) recov X hX order
  refine ⟨_, ?_, A, hA, rfl⟩
  unfold printHbmAmp
  rw [show atEnd (L + 2) X 1 = .ok (X (L + 1)) from atEnd_ok (L + 1) X 1, atEnd_ok L X 2]
  simp only [e, hertz]
  exact appendLine_ok _ _ _

/-- C90, `print_hbm_amp_phase_stats` (unknowns: the coefficients, cosine force, sine force, continuation parameter;
frequency and amplitude are arguments). -/
theorem C90_hbm_amp_phase {h : List ℕ} (hs : h.Pairwise (· < ·)) {k : ℕ} (hk : k ∈ h) (h1 : 1 ≤ k) (nd order : ℕ)
    (recov : ℕ → ℝ) {w : ℝ} (hw : 0 < w) (amp : ℝ) :
    Printed (printHbmAmpPhase w amp h order nd recov k (numCoeff h * nd + 3)) (hbmAmpPhaseHeader order) (fun _ => True)
      fun X l => ∃ A, RespAmplitude nd h k order recov X w A ∧
        l = [.num (some (w / (2 * Real.pi))), .num (some amp), .num (some (X (numCoeff h * nd))),
          .num (some (X (numCoeff h * nd + 1))), .num (some A)] := by
  refine printed_of fun X file _ => ?_
  set L := numCoeff h * nd with hL
  obtain ⟨A, e, hA⟩ := C90_amplitude_partial hs hk h1 nd (L + 3) (by omega) recov X hw order
  refine ⟨_, ?_, A, hA, rfl⟩
  unfold printHbmAmpPhase
  rw [atEnd_ok L X 3, show atEnd (L + 3) X 2 = .ok (X (L + 1)) from atEnd_ok (L + 1) X 2]
  simp only [e, hertz]
  exact appendLine_ok _ _ _

theorem ampList_ok {h : List ℕ} (hs : h.Pairwise (· < ·)) (nd n order : ℕ) (hn : numCoeff h * nd ≤ n) (X : ℕ → ℝ) {w : ℝ}
    (hw : 0 < w) (outs : List ((ℕ → ℝ) × ℕ)) (ho : ∀ o ∈ outs, o.2 ∈ h ∧ 1 ≤ o.2) :
    ∃ as : List ℝ, ampList n X w h order nd outs = .ok (as.map fun a => .num (some a)) ∧
      List.Forall₂ (fun o a => RespAmplitude nd h o.2 order o.1 X w a) outs as := by
  induction outs with
  | nil => exact ⟨[], rfl, .nil⟩
  | cons o outs ih =>
    obtain ⟨A, e, hA⟩ := C90_amplitude_partial hs (ho o (by simp)).1 (ho o (by simp)).2 nd n hn o.1 X hw order
    obtain ⟨as, e2, hr⟩ := ih (fun q hq => ho q (List.mem_cons_of_mem _ hq))
    refine ⟨A :: as, ?_, .cons hA hr⟩
    simp only [ampList, e, e2, List.map_cons]

/-- C90, `print_vprnm_stats` (unknowns: the coefficients, frequency, force scale): one amplitude for each requested point
and harmonic, in order. -/
theorem C90_vprnm {h : List ℕ} (hs : h.Pairwise (· < ·)) (nd order : ℕ) (outs : List ((ℕ → ℝ) × ℕ))
    (ho : ∀ o ∈ outs, o.2 ∈ h ∧ 1 ≤ o.2) :
    Printed (printVprnm h order nd outs (numCoeff h * nd + 2)) (vprnmHeader order outs)
      (fun X => 0 < X (numCoeff h * nd)) fun X l =>
    ∃ as : List ℝ, List.Forall₂ (fun o a => RespAmplitude nd h o.2 order o.1 X (X (numCoeff h * nd)) a) outs as ∧
      l = [.num (some (X (numCoeff h * nd + 1))), .num (some (X (numCoeff h * nd) / (2 * Real.pi)))]
        ++ as.map fun a => .num (some a) := by
  refine printed_of fun X file hX => ?_
  set L := numCoeff h * nd with hL
  obtain ⟨as, e, hA⟩ := ampList_ok hs nd (L + 2) order (by omega) X hX outs ho
  refine ⟨_, ?_, as, hA, rfl⟩
  unfold printVprnm
  rw [show atEnd (L + 2) X 1 = .ok (X (L + 1)) from atEnd_ok (L + 1) X 1, atEnd_ok L X 2]
  simp only [e, hertz, ← List.map_const']
  exact appendLine_ok _ _ _

/-- C90, `print_vprnm_amp_phase_stats` (unknowns: the coefficients, cosine force, sine force, frequency, amplitude). -/
theorem C90_vprnm_amp_phase {h : List ℕ} (hs : h.Pairwise (· < ·)) (nd corder order : ℕ) (outs : List ((ℕ → ℝ) × ℕ))
    (ho : ∀ o ∈ outs, o.2 ∈ h ∧ 1 ≤ o.2) :
    Printed (printVprnmAmpPhase h corder order nd outs (numCoeff h * nd + 4)) (vprnmAmpPhaseHeader corder order outs)
      (fun X => 0 < X (numCoeff h * nd + 2)) fun X l =>
    ∃ as : List ℝ, List.Forall₂ (fun o a => RespAmplitude nd h o.2 order o.1 X (X (numCoeff h * nd + 2)) a) outs as ∧
      l = [.num (some (X (numCoeff h * nd + 3))), .num (some (X (numCoeff h * nd))), .num (some (X (numCoeff h * nd + 1))),
        .num (some (X (numCoeff h * nd + 2) / (2 * Real.pi)))] ++ as.map fun a => .num (some a) := by
  refine printed_of fun X file hX => ?_
  set L := numCoeff h * nd with hL
  obtain ⟨as, e, hA⟩ := ampList_ok hs nd (L + 4) order (by omega) X hX outs ho
  refine ⟨_, ?_, as, hA, rfl⟩
  unfold printVprnmAmpPhase
  rw [show atEnd (L + 4) X 1 = .ok (X (L + 3)) from atEnd_ok (L + 3) X 1, atEnd_ok L X 4,
    show atEnd (L + 4) X 3 = .ok (X (L + 1)) from atEnd_ok (L + 1) X 3,
    show atEnd (L + 4) X 2 = .ok (X (L + 2)) from atEnd_ok (L + 2) X 2]
  simp only [e, hertz, ← List.map_const']
  exact appendLine_ok _ _ _

/-- C90, rejected points: a call that raises adds no line; the file holds what it held, or the header. -/
theorem C90_rejected (h : List ℕ) (corder order nd k n : ℕ) (w amp : ℝ) (recov X : ℕ → ℝ) (outs : List ((ℕ → ℝ) × ℕ))
    (file : Option TextFile) (e : Err) :
    (∀ f, printEpmc n X file = (f, .error e) → f = file.getD epmcHeader) ∧
    (∀ f, printHbmAmp h order nd recov k n X file = (f, .error e) → f = file.getD (hbmAmpHeader order)) ∧
    (∀ f, printHbmAmpPhase w amp h order nd recov k n X file = (f, .error e) → f = file.getD (hbmAmpPhaseHeader order)) ∧
    (∀ f, printVprnm h order nd outs n X file = (f, .error e) → f = file.getD (vprnmHeader order outs)) ∧
    (∀ f, printVprnmAmpPhase h corder order nd outs n X file = (f, .error e)
      → f = file.getD (vprnmAmpPhaseHeader corder order outs)) := by
  have key : ∀ (hd : TextFile) (l : Except Err (List Cell)) (f : TextFile),
      appendLine hd l file = (f, .error e) → f = file.getD hd := by
    intro hd l f hf
    cases l <;> cases file <;> simp_all [appendLine]
  refine ⟨fun f hf => key _ _ f hf, fun f hf => key _ _ f hf, fun f hf => key _ _ f hf, fun f hf => ?_, fun f hf => ?_⟩
  · have := key _ _ f hf
    simpa only [vprnmHeader, List.map_const', harmonicLabels] using this
  · have := key _ _ f hf
    simpa only [vprnmAmpPhaseHeader, List.map_const', harmonicLabels] using this

theorem printAll_append (P : (ℕ → ℝ) → Option TextFile → TextFile × Except Err Unit) (as bs : List (ℕ → ℝ))
    (file g : Option TextFile) (ha : printAll P as file = (g, .ok ())) : printAll P (as ++ bs) file = printAll P bs g := by
  induction as generalizing file with
  | nil => simp only [printAll, Prod.mk.injEq, and_true] at ha; subst ha; rfl
  | cons X as ih =>
    rw [List.cons_append, printAll]
    rw [printAll] at ha
    rcases hP : P X file with ⟨g', _ | _⟩
    · rw [hP] at ha; simp at ha
    · rw [hP] at ha; exact ih _ ha

/-- C90, a run that is stopped by an exception: the file holds what it held (or the header) and the lines of the points
before; the points after are not looked at. The conditions on `P` hold for the five functions by the theorems above. -/
theorem C90_stops {P : (ℕ → ℝ) → Option TextFile → TextFile × Except Err Unit} {header : TextFile} {good : (ℕ → ℝ) → Prop}
    {rel : (ℕ → ℝ) → List Cell → Prop} (HP : Printed P header good rel)
    (hrej : ∀ X file f e, P X file = (f, .error e) → f = file.getD header) (file : Option TextFile)
    (pts : List (ℕ → ℝ)) (hg : ∀ X ∈ pts, good X) (X : ℕ → ℝ) (e : Err) (hX : ∀ file, (P X file).2 = .error e)
    (rest : List (ℕ → ℝ)) : ∃ rows,
      printAll P (pts ++ X :: rest) file = (some (file.getD header ++ rows), .error e) ∧ List.Forall₂ rel pts rows := by
  have hstop : ∀ g : Option TextFile, printAll P (X :: rest) g = (some (g.getD header), .error e) := by
    intro g
    have e1 : P X g = ((P X g).1, .error e) := Prod.ext rfl (hX g)
    rw [printAll, e1, ← hrej X g _ e e1]
  by_cases hp : pts = []
  · subst hp
    exact ⟨[], by rw [List.nil_append, hstop, List.append_nil], .nil⟩
  · obtain ⟨rows, e1, hr⟩ := HP file pts hp hg
    exact ⟨rows, by rw [printAll_append P pts _ _ _ e1, hstop]; rfl, hr⟩

/-- A point with two entries stops `print_epmc_stats`: a new file keeps the header. -/
example (X : ℕ → ℝ) (rest : List (ℕ → ℝ)) : printAll (printEpmc 2) (X :: rest) none = (some epmcHeader, .error .index) := by
  obtain ⟨rows, e, hr⟩ := C90_stops (P := printEpmc 2) (header := epmcHeader) (good := fun _ => False) (rel := fun _ _ => True)
    (fun file pts hp hg => absurd (List.eq_nil_iff_forall_not_mem.2 fun X hX => hg X hX) hp)
    (fun X file f e he => (C90_rejected [] 0 0 0 0 2 0 0 (fun _ => 0) X [] file e).1 f he) none [] (by simp) X .index
    (fun file => by simp [printEpmc, atEnd, appendLine]) rest
  cases hr
  simpa using e

theorem appendLine_inv {hd : TextFile} {line : Except Err (List Cell)} {file : Option TextFile} {f : TextFile}
    (hf : appendLine hd line file = (f, .ok ())) : ∃ l, line = .ok l ∧ f = file.getD hd ++ [l] := by
  cases line <;> cases file <;> simp_all [appendLine]

theorem ampList_length {n : ℕ} {X : ℕ → ℝ} {w : ℝ} {h : List ℕ} {order nd : ℕ} {outs : List ((ℕ → ℝ) × ℕ)}
    {l : List Cell} (hl : ampList n X w h order nd outs = .ok l) : l.length = outs.length := by
  induction outs generalizing l with
  | nil => simp only [ampList, Except.ok.injEq] at hl; subst hl; rfl
  | cons o outs ih =>
    unfold ampList at hl
    split at hl
    · simp at hl
    · split at hl
      · simp at hl
      · rename_i l' e'
        simp only [Except.ok.injEq] at hl
        subst hl
        simp [ih e']

/-- All lines of a file have `c` columns. -/
def Columns (c : ℕ) (f : TextFile) : Prop := ∀ l ∈ f, l.length = c

theorem columns_append {c : ℕ} {hd : TextFile} {file : Option TextFile} {line : Except Err (List Cell)} {f : TextFile}
    (hhd : Columns c hd) (hfile : ∀ g, file = some g → Columns c g) (hline : ∀ l, line = .ok l → l.length = c)
    (hf : appendLine hd line file = (f, .ok ())) : Columns c f := by
  obtain ⟨l, el, rfl⟩ := appendLine_inv hf
  intro r hr
  rw [List.mem_append, List.mem_singleton] at hr
  rcases hr with hr | rfl
  · cases file with
    | none => exact hhd r hr
    | some g => exact hfile g rfl r hr
  · exact hline _ el

/-- C90, columns: a call of the first four functions keeps all lines of the file, header lines included, at the same
number of columns, for every point. Missing for the full claim: `print_vprnm_amp_phase_stats`, see
`C90_columns_violated`. -/
theorem C90_columns_partial (h : List ℕ) (order nd k n : ℕ) (w amp : ℝ) (recov X : ℕ → ℝ) (outs : List ((ℕ → ℝ) × ℕ))
    (file : Option TextFile) (f : TextFile) :
    (printEpmc n X file = (f, .ok ()) → (∀ g, file = some g → Columns 3 g) → Columns 3 f) ∧
    (printHbmAmp h order nd recov k n X file = (f, .ok ()) → (∀ g, file = some g → Columns 3 g) → Columns 3 f) ∧
    (printHbmAmpPhase w amp h order nd recov k n X file = (f, .ok ()) → (∀ g, file = some g → Columns 5 g) →
      Columns 5 f) ∧
    (printVprnm h order nd outs n X file = (f, .ok ()) → (∀ g, file = some g → Columns (2 + outs.length) g) →
      Columns (2 + outs.length) f) := by
  refine ⟨fun hf hg => columns_append ?_ hg ?_ hf, fun hf hg => columns_append ?_ hg ?_ hf,
    fun hf hg => columns_append ?_ hg ?_ hf, fun hf hg => columns_append ?_ hg ?_ hf⟩
  · intro l hl; simp_all
  · intro l hl
    split at hl
    · simp only [Except.ok.injEq] at hl; subst hl; rfl
    · simp at hl
  · intro l hl; simp_all
  · intro l hl
    split at hl
    · split at hl
      · simp at hl
      · simp only [Except.ok.injEq] at hl; subst hl; rfl
    · simp at hl
  · intro l hl; simp_all
  · intro l hl
    split at hl
    · simp at hl
    · split at hl
      · simp only [Except.ok.injEq] at hl; subst hl; rfl
      · simp at hl
  · intro l hl
    simp only [List.mem_cons, List.not_mem_nil, or_false] at hl
    rcases hl with rfl | rfl <;> simp [harmonicLabels] <;> omega
  · intro l hl
    split at hl
    · split at hl
      · simp at hl
      · rename_i l' e'
        simp only [Except.ok.injEq] at hl; subst hl
        simp [ampList_length e']; omega
    · simp at hl

/-- C90 is false for the columns of `print_vprnm_amp_phase_stats`: the second header line lacks two columns, so that its
labels stand over the wrong numbers. A first call with one output and `h = [1]`. -/
theorem C90_columns_violated : ∃ f : TextFile,
    printVprnmAmpPhase [1] 0 0 1 [(fun _ => 1, 1)] 6 (fun _ => 1) none = (f, .ok ()) ∧ f.map List.length = [5, 3, 5] := by
  obtain ⟨rows, e, hr⟩ := C90_vprnm_amp_phase (h := [1]) (by simp) 1 0 0 [(fun _ => 1, 1)] (by simp) none [fun _ => 1]
    (by simp) (by simp)
  simp only [printAll] at e
  refine ⟨vprnmAmpPhaseHeader 0 0 [(fun _ => 1, 1)] ++ rows, ?_, ?_⟩
  · generalize hP : printVprnmAmpPhase [1] 0 0 1 [(fun _ => 1, 1)] (numCoeff [1] * 1 + 4) (fun _ => 1) none = P at e
    rcases P with ⟨g, _ | _⟩
    · simp at e
    · simp only [Prod.mk.injEq, Option.some.injEq, and_true, Option.getD_none] at e
      rw [← e]; exact hP
  · rcases hr with _ | ⟨⟨as, ha, hl⟩, _ | _⟩
    have := ha.length_eq
    simp only [List.length_cons, List.length_nil] at this
    simp [vprnmAmpPhaseHeader, hl, ← this]

/-- Two points of a one degree of freedom EPMC run with `h = [1]`: frequency `4 π` (2 Hz), `ξ = π`. -/
example : ∃ rows, printAll (printEpmc 5) [fun i => if i = 2 then 4 * Real.pi else if i = 3 then Real.pi else -1,
      fun i => if i = 2 then 4 * Real.pi else if i = 3 then 0 else 0] none = (some (epmcHeader ++ rows), .ok ()) ∧
    rows = [[.num (some (-1)), .num (some 2), .num (some (1 / 8))], [.num (some 0), .num (some 2), .num (some 0)]] := by
  have hp := Real.pi_ne_zero
  obtain ⟨rows, e, hr⟩ := C90_epmc 2 none [fun i => if i = 2 then 4 * Real.pi else if i = 3 then Real.pi else -1,
    fun i => if i = 2 then 4 * Real.pi else if i = 3 then 0 else 0] (by simp) (by simp [hp])
  refine ⟨rows, e, ?_⟩
  rcases hr with _ | ⟨h1, _ | ⟨h2, _ | _⟩⟩
  rw [h1, h2]
  have q1 : 4 * Real.pi / (2 * Real.pi) = 2 := by field_simp; norm_num
  have q2 : Real.pi / (2 * (4 * Real.pi)) = 1 / 8 := by field_simp; norm_num
  simp [q1]
  rw [q2]; norm_num

/-- Acceleration of the third harmonic: the unknowns `(1, 0, 3, 4)` for `h = [1, 3]`, `ω = 2`, give `5 · 36`. -/
example : calcHarmonicResp 6 (fun i => if i = 0 then 1 else if i = 2 then 3 else if i = 3 then 4 else 0) 2 [1, 3] 2 1
    (fun _ => 1) 3 = .ok 180 := by
  have h5 : Real.sqrt (3 ^ 2 + 4 ^ 2) = 5 := by
    rw [show (3:ℝ) ^ 2 + 4 ^ 2 = 5 ^ 2 by norm_num]; exact Real.sqrt_sq (by norm_num)
  unfold calcHarmonicResp
  simp [Nhc, vdot, sl, h5]
  norm_num

end

end TMD
