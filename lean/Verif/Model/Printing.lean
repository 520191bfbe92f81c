import Verif.Model.System

/-!
# Model of the summary files of `tmdsimpy/utils/continuation.py`, lines 118-776

A line of a summary file is a list of cells, separated by `&` in the text. Numbers are kept exactly; the rounding of the
formats `.3f` and `.3e` and the padding are not modelled. `none` stands for a printed `inf` or `nan`. A point `XlamP` is a
function with its length `n`; `XlamP[-k]` is entry `n - k`.
-/

namespace TMD

noncomputable section

/-- One column of a line. -/
inductive Cell where
  | text (s : String)
  | num (x : Option ℝ)

/-- The lines of a summary file. -/
abbrev TextFile := List (List Cell)

/-- `XlamP[-k]`. -/
def atEnd (n : ℕ) (X : ℕ → ℝ) (k : ℕ) : Except Err ℝ := if n < k then .error .index else .ok (X (n - k))

/-- Division of NumPy floats. -/
def npDiv (x y : ℝ) : Option ℝ :=
  open Classical in if y = 0 then none else some (x / y)

/-- `_calc_harmonic_resp`, lines 767-776. A slice that ends behind the vector is too short for the product
(`ValueError`). -/
def calcHarmonicResp (n : ℕ) (U : ℕ → ℝ) (w : ℝ) (h : List ℕ) (order nd : ℕ) (recov : ℕ → ℝ) (k : ℕ) : Except Err ℝ :=
  match Nhc (h.filter fun j => j < k) with
  | .error e => .error e
  | .ok p =>
    if n < (p + 2) * nd then .error .value
    else
      let ampCos := vdot nd recov (sl (p * nd) ((p + 1) * nd) U)
      let ampSin := vdot nd recov (sl ((p + 1) * nd) ((p + 2) * nd) U)
      .ok (Real.sqrt (ampCos ^ 2 + ampSin ^ 2) * ((k : ℝ) * w) ^ order)

/-- Frame of all five functions (lines 175-195 and the same in the others): the header if the file does not exist, then the
line. If the line cannot be computed the exception leaves the `with` block, which closes the file with what was written. -/
def appendLine (header : TextFile) (line : Except Err (List Cell)) (file : Option TextFile) : TextFile × Except Err Unit :=
  let start := match file with
    | none => header
    | some l => l
  match line with
  | .ok l => (start ++ [l], .ok ())
  | .error e => (start, .error e)

/-- `print_epmc_stats`, lines 175-195. -/
def printEpmc (n : ℕ) (X : ℕ → ℝ) (file : Option TextFile) : TextFile × Except Err Unit :=
  appendLine [[.text "Amplitude (log)", .text "Frequency [Hz]", .text "Damping [Frac Crit]"]]
    (match atEnd n X 1, atEnd n X 3, atEnd n X 2 with
      | .ok amp, .ok w, .ok xi => .ok [.num (some amp), .num (some (w / 2 / Real.pi)), .num (npDiv (xi / 2) w)]
      | _, _, _ => .error .index) file

/-- `print_hbm_amp_stats`, lines 282-304. -/
def printHbmAmp (h : List ℕ) (order nd : ℕ) (recov : ℕ → ℝ) (k n : ℕ) (X : ℕ → ℝ) (file : Option TextFile) :
    TextFile × Except Err Unit :=
  appendLine [[.text "Frequency [Hz]", .text "Force Scaling [N]", .text s!"Recov Amp [m/s^{order}]"]]
    (match atEnd n X 1, atEnd n X 2 with
      | .ok w, .ok force =>
        match calcHarmonicResp n X w h order nd recov k with
        | .error e => .error e
        | .ok amp => .ok [.num (some (w / 2 / Real.pi)), .num (some force), .num (some amp)]
      | _, _ => .error .index) file

/-- `print_hbm_amp_phase_stats`, lines 426-449. The frequency and the amplitude are arguments. -/
def printHbmAmpPhase (w amp : ℝ) (h : List ℕ) (order nd : ℕ) (recov : ℕ → ℝ) (k n : ℕ) (X : ℕ → ℝ)
    (file : Option TextFile) : TextFile × Except Err Unit :=
  appendLine [[.text "Frequency [Hz]", .text s!"Amplitude [m/s^{order}]", .text "Force Cosine [N]", .text "Force Sine [N]",
      .text s!"Recov Amp [m/s^{order}]"]]
    (match calcHarmonicResp n X w h order nd recov k with
      | .error e => .error e
      | .ok ampR =>
        match atEnd n X 3, atEnd n X 2 with
        | .ok fc, .ok fs =>
          .ok [.num (some (w / 2 / Real.pi)), .num (some amp), .num (some fc), .num (some fs), .num (some ampR)]
        | _, _ => .error .index) file

/-- The loop over `output_recov_harmonic_list`, lines 570-578 and 716-726 (all recovery vectors have `nd` entries). -/
def ampList (n : ℕ) (X : ℕ → ℝ) (w : ℝ) (h : List ℕ) (order nd : ℕ) : List ((ℕ → ℝ) × ℕ) → Except Err (List Cell)
  | [] => .ok []
  | rh :: rest =>
    match calcHarmonicResp n X w h order nd rh.1 rh.2 with
    | .error e => .error e
    | .ok a =>
      match ampList n X w h order nd rest with
      | .error e => .error e
      | .ok l => .ok (.num (some a) :: l)

/-- The labels of the second header line, lines 556-559 and 700-703. -/
def harmonicLabels (outs : List ((ℕ → ℝ) × ℕ)) : List Cell :=
  outs.zipIdx.map fun p => .text s!"dof={p.2}, h={p.1.2}"

/-- `print_vprnm_stats`, lines 540-582. -/
def printVprnm (h : List ℕ) (order nd : ℕ) (outs : List ((ℕ → ℝ) × ℕ)) (n : ℕ) (X : ℕ → ℝ) (file : Option TextFile) :
    TextFile × Except Err Unit :=
  appendLine
    [[.text "Force Scaling [N]", .text "Frequency [Hz]"] ++ List.replicate outs.length (.text s!"Recov Amp [m/s^{order}]"),
      [.text "", .text ""] ++ harmonicLabels outs]
    (match atEnd n X 1, atEnd n X 2 with
      | .ok force, .ok w =>
        match ampList n X w h order nd outs with
        | .error e => .error e
        | .ok l => .ok ([.num (some force), .num (some (w / 2 / Real.pi))] ++ l)
      | _, _ => .error .index) file

/-- `print_vprnm_amp_phase_stats`, lines 682-731. -/
def printVprnmAmpPhase (h : List ℕ) (corder order nd : ℕ) (outs : List ((ℕ → ℝ) × ℕ)) (n : ℕ) (X : ℕ → ℝ)
    (file : Option TextFile) : TextFile × Except Err Unit :=
  appendLine
    [[.text s!"Amp Control [m/s^{corder}]", .text "Force Cosine [N]", .text "Force Sine [N]", .text "Frequency [Hz]"]
        ++ List.replicate outs.length (.text s!"Recov Amp [m/s^{order}]"),
      [.text "", .text ""] ++ harmonicLabels outs]
    (match atEnd n X 1, atEnd n X 4, atEnd n X 3, atEnd n X 2 with
      | .ok amp, .ok fc, .ok fs, .ok w =>
        match ampList n X w h order nd outs with
        | .error e => .error e
        | .ok l => .ok ([.num (some amp), .num (some fc), .num (some fs), .num (some (w / 2 / Real.pi))] ++ l)
      | _, _, _, _ => .error .index) file

/-- A sequence of calls, one for each point, until one raises. -/
def printAll (P : (ℕ → ℝ) → Option TextFile → TextFile × Except Err Unit) :
    List (ℕ → ℝ) → Option TextFile → Option TextFile × Except Err Unit
  | [], f => (f, .ok ())
  | X :: rest, f =>
    match P X f with
    | (g, .error e) => (some g, .error e)
    | (g, .ok ()) => printAll P rest (some g)

end

end TMD
