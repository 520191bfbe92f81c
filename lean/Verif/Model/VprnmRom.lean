import Verif.Model.EpmcRom
import Mathlib.Data.Finset.Sort

/-!
# Model of `tmdsimpy/roms/vprnm.py`

`bbF`, `bbR`, `bbV` are the backbones of the fundamental mode, of the superharmonic mode and of VPRNM with `Mf`, `Mr`,
`Mv` rows; `nF = Nhc*Ndof`, `nR` likewise; `ncol` is the number of columns of `bbV`. Numbers are real, `none` stands for
NaN. Divisions by a zero frequency or a zero amplitude are not modelled. Columns of slices are assumed to exist, except
where harmonics are looked up by number. `rhi` is a natural number.
-/

namespace TMD

noncomputable section

/-- `hutils.Nhc(h[h < k])`; where it is used `Nhc(h)` has been called before, so the assertion on repeated harmonics
cannot fail. -/
def nhcBelow (h : List ℕ) (k : ℕ) : ℕ :=
  match Nhc (h.filter fun j => j < k) with
  | .ok p => p
  | .error _ => 0

/-- Position of harmonic `hi`, vprnm.py:479-487; too few columns are a `ValueError` of the product. -/
def ampIndex (Ndof ncol : ℕ) (h : List ℕ) (hi : ℕ) : Except Err ℕ :=
  match Nhc (h.filter fun k => k < hi) with
  | .error e => .error e
  | .ok p => if (p + 2) * Ndof ≤ ncol then .ok p else .error .value

/-- `U[p*Ndof:(p+1)*Ndof] @ recov`. -/
def blockDot (Ndof p : ℕ) (recov U : ℕ → ℝ) : ℝ := ∑ d ∈ Finset.range Ndof, U (p * Ndof + d) * recov d

/-- `_extract_harmonic_amplitude`, vprnm.py:479-494, for one row and known position; `q` is the factor of EPMC rows
(`1` otherwise). -/
def harmAmp (Ndof p : ℕ) (recov : ℕ → ℝ) (q : ℝ) (U : ℕ → ℝ) : ℝ :=
  Real.sqrt (blockDot Ndof p recov U ^ 2 + blockDot Ndof (p + 1) recov U ^ 2) * q

/-- Phase `arctan2(sin, cos)` of the harmonic at position `p`. -/
def harmPhase (Ndof p : ℕ) (recov U : ℕ → ℝ) : ℝ :=
  Complex.arg ⟨blockDot Ndof p recov U, blockDot Ndof (p + 1) recov U⟩

/-- The first row of the result of `linear_interp` for one value. -/
def firstRow : Except Err (List (Option (ℕ → ℝ))) → Except Err (Option (ℕ → ℝ))
  | .error e => .error e
  | .ok [] => .error .index
  | .ok (r :: _) => .ok r

/-- Step 1, vprnm.py:245-249: the VPRNM solution at the wanted amplitude. -/
def vprnmPoint (Ndof ncol Mv : ℕ) (bbV : ℕ → ℕ → ℝ) (hV : List ℕ) (c1 : ℕ → ℝ) (amp : ℝ) :
    Except Err (Option (ℕ → ℝ)) :=
  match ampIndex Ndof ncol hV 1 with
  | .error e => .error e
  | .ok p => firstRow (linearInterp Mv (ncol - 1) bbV [amp] (some (Mv, fun k => harmAmp Ndof p c1 1 (bbV k))))

/-- The backbone with linear modal amplitude, vprnm.py:239-240. -/
def linQ (n : ℕ) (bb : ℕ → ℕ → ℝ) : ℕ → ℕ → ℝ := fun k i => if i = n + 2 then (10 : ℝ) ^ bb k i else bb k i

/-- Step 2, vprnm.py:262-273: the superharmonic mode at amplitude `A` (`none` for NaN). -/
def superPoint (Ndof nR Mr : ℕ) (bbR : ℕ → ℕ → ℝ) (hR : List ℕ) (cr : ℕ → ℝ) (A : Option ℝ) :
    Except Err (Option (ℕ → ℝ)) :=
  match ampIndex Ndof (nR + 3) hR 1 with
  | .error e => .error e
  | .ok p =>
    match firstRow (linearInterp Mr (nR + 2) (linQ nR bbR) [A.getD 0]
      (some (Mr, fun k => harmAmp Ndof p cr ((10 : ℝ) ^ bbR k (nR + 2)) (bbR k)))) with
    | .error e => .error e
    | .ok r => if A.isNone then .ok none else .ok r

open Classical in
/-- Rows of the superharmonic backbone below the interpolated amplitude, vprnm.py:290. -/
def superKept (nR Mr : ℕ) (bbR : ℕ → ℕ → ℝ) (qS : ℝ) : List ℕ :=
  (List.range Mr).filter fun k => decide ((10 : ℝ) ^ bbR k (nR + 2) < qS)

/-- `epmc_rhi_bb_abbrev`, vprnm.py:292-300. -/
def superBB (nR : ℕ) (bbR : ℕ → ℕ → ℝ) (kept : List ℕ) (pR : ℕ → ℝ) : ℕ → ℕ → ℝ := fun j i =>
  let row := if j < kept.length then linQ nR bbR (kept.getD j 0) else pR
  if i = nR + 2 then Real.logb 10 (row i) else row i

/-- `w_abbrev`, vprnm.py:286, 302; `wv = rhi*Omega_VPRNM`. -/
def superW (nR : ℕ) (bbR : ℕ → ℕ → ℝ) (kept : List ℕ) (pR : ℕ → ℝ) (wv : ℝ) : ℕ → ℝ := fun j =>
  if j < kept.length then linQ nR bbR (kept.getD j 0) nR * wv / pR nR else wv

/-- Steps 3 and 4, vprnm.py:278-307: response of the superharmonic mode to the modal force of the VPRNM point. -/
def superFrc (Ndof nR Mr : ℕ) (bbR : ℕ → ℕ → ℝ) (hR : List ℕ) (pR : ℕ → ℝ) (wv : ℝ) : Except Err (List RomPoint) :=
  let qS := pR (nR + 2)
  let zS := pR (nR + 1) / (2 * pR nR)
  let P := 2 * qS * wv ^ 2 * zS
  let kept := superKept nR Mr bbR qS
  let bb := superBB nR bbR kept pR
  constantForce (kept.length + 1) Ndof hR bb none (some (superW nR bbR kept pR wv))
    (some fun j => bb j (nR + 1) / (2 * bb j nR)) (some fun _ => P) (some fun _ => 0)

open Classical in
/-- `np.argmin`: the first index of the smallest entry; an empty array is a `ValueError`. -/
def npArgmin (l : List ℝ) : Option ℕ :=
  (List.range l.length).find? fun i => decide (∀ j < l.length, l.getD i 0 ≤ l.getD j 0)

/-- The superharmonic part: frequencies, displacements (`none` for NaN), modal amplitudes, index of the peak. -/
structure SuperPart where
  w : List ℝ
  U : List (Option (ℕ → ℝ))
  q : List ℝ
  peak : ℕ

open Classical in
/-- Step 5, vprnm.py:312-336: find the peak, check it and rotate to the phase of the VPRNM point. `pv` is the position
of harmonic `rhi` in the VPRNM point. -/
def superRotate (Ndof nR : ℕ) (hR : List ℕ) (cr : ℕ → ℝ) (pV : ℕ → ℝ) (pv : ℕ) (wv qS : ℝ) (out : List RomPoint) :
    Except Err (List (ℕ → ℝ) × ℕ) :=
  match npArgmin (out.map fun x => |x.1 nR - wv|) with
  | none => .error .value
  | some i =>
    let x := out.getD i (fun _ => 0, 0, 0)
    if ¬ |x.2.1 - qS| ≤ 1 / 10 ^ 12 then .error .assertion
    else
      let phi := harmPhase Ndof pv cr pV - harmPhase Ndof (zi hR) cr x.1
      match mapE (fun x : RomPoint => rotateSubtractPhase x.1 Ndof hR phi 1) out with
      | .error e => .error e
      | .ok rows => .ok (rows, i)

open Classical in
/-- The extra frequencies, vprnm.py:342-351. -/
def superExtra (nR rhi : ℕ) (extra : Option (List ℝ)) (rows : List (ℕ → ℝ)) (q : List ℝ) (i : ℕ) :
    Except Err SuperPart :=
  let w := rows.map fun r => r nR
  match extra with
  | none => .ok ⟨w, rows.map some, q, i⟩
  | some ex =>
    let new := (ex.map (fun e => (rhi : ℝ) * e) ++ w).mergeSort (fun a b => decide (a ≤ b))
    let m := rows.length
    let X : ℕ → ℕ → ℝ := fun k => rows.getD k (fun _ => 0)
    let q' := new.map fun v => (npInterp m (fun k => w.getD k 0) (fun k => q.getD k 0) (some (q.getD 0 0))
      (some (q.getD (m - 1) 0)) v).getD 0
    match linearInterp m nR X new none with
    | .error e => .error e
    | .ok U => .ok ⟨new, U, q', i + (ex.filter fun e => decide (rhi * e < w.getD i 0)).length⟩

/-- The fundamental: step 6, scaling and step 7, vprnm.py:356-383. `none` for NaN. -/
def fundPart (Ndof nF Mf : ℕ) (bbF : ℕ → ℕ → ℝ) (hF hV : List ℕ) (Fl c1 : ℕ → ℝ) (amp : ℝ) (pV : ℕ → ℝ) :
    Except Err (Option ((ℝ → ℝ) × (ℕ → ℝ))) :=
  match constantDisplacement Mf Ndof nF hF bbF Fl c1 amp none none with
  | .error e => .error e
  | .ok none => .ok none
  | .ok (some (f, pt)) =>
    let p1 : ℕ → ℝ := fun i => if zi hF * Ndof ≤ i ∧ i < nF then pt i * (10 : ℝ) ^ pt (nF + 2) else pt i
    let phi := harmPhase Ndof (zi hV) c1 pV - harmPhase Ndof (zi hF) c1 p1
    match rotateSubtractPhase p1 Ndof hF phi 1 with
    | .error e => .error e
    | .ok p2 => .ok (some (f, p2))

/-- `np.unique(np.hstack((h_vprnm[0], h_fund, rhi*h_rhi)))`, vprnm.py:390-391. -/
def outHarmonics (hV hF hR : List ℕ) (rhi : ℕ) : List ℕ :=
  ((hV.headI :: hF ++ hR.map fun k => rhi * k).toFinset).sort (· ≤ ·)

/-- Sum with NaN. -/
def nanAdd (a b : Option ℝ) : Option ℝ := a.bind fun x => b.map fun y => x + y

/-- Loop over the harmonics of the fundamental, vprnm.py:401-408, on one row. -/
def addFund (Ndof : ℕ) (hF hO : List ℕ) (pF : Option (ℕ → ℝ)) (U : ℕ → Option ℝ) : ℕ → Option ℝ :=
  (List.range' (zi hF) (hF.length - zi hF)).foldl (fun U i =>
    let k := hF.getD i 0
    let a := nhcBelow hF k
    let b := nhcBelow hO k
    setSlice U (b * Ndof) ((b + 2) * Ndof) fun j => pF.map fun p => p (a * Ndof + j)) U

/-- Loop over the harmonics of the superharmonic mode, vprnm.py:411-419, on one row. -/
def addSuper (Ndof : ℕ) (hR hO : List ℕ) (rhi : ℕ) (uS : Option (ℕ → ℝ)) (U : ℕ → Option ℝ) : ℕ → Option ℝ :=
  (List.range' (zi hR) (hR.length - zi hR)).foldl (fun U i =>
    let k := hR.getD i 0
    let a := nhcBelow hR k
    let b := nhcBelow hO (k * rhi)
    setSlice U (b * Ndof) ((b + 2) * Ndof) fun j => nanAdd (U (b * Ndof + j)) (uS.map fun p => p (a * Ndof + j))) U

/-- One row of `Uw_out` without the last column, vprnm.py:395-419. -/
def assembleRow (Ndof : ℕ) (hV hF hR hO : List ℕ) (rhi : ℕ) (pV : ℕ → ℝ) (pF uS : Option (ℕ → ℝ)) : ℕ → Option ℝ :=
  let U0 : ℕ → Option ℝ := fun i => if zi hV = 1 ∧ i < Ndof then some (pV i) else some 0
  addSuper Ndof hR hO rhi uS (addFund Ndof hF hO pF U0)

/-- `q_S.max()`. -/
def npMax (l : List ℝ) : ℝ := l.foldl max (l.headD 0)

/-- Step 10, vprnm.py:426-432. -/
def forceOut (correct : Bool) (fv : ℝ) (fm : Option (ℝ → ℝ)) (Om q : List ℝ) (peak : ℕ) : List (Option ℝ) :=
  match fm with
  | none => Om.map fun _ => none
  | some f =>
    if correct then
      let delta := fv - f (Om.getD peak 0)
      List.zipWith (fun o q' => some (f o + delta * q' / npMax q)) Om q
    else Om.map fun o => some (f o)

/-- The result: rows (displacements and frequency), forces, harmonics. -/
structure VprnmRom where
  U : List (ℕ → Option ℝ)
  Om : List ℝ
  force : List (Option ℝ)
  h : List ℕ

/-- Frequency of a VPRNM point, vprnm.py:251. -/
def vprnmOm (ncol : ℕ) (pV : ℕ → ℝ) : ℝ := pV (ncol - 2)

/-- Force magnitude of a VPRNM point, vprnm.py:253-256. -/
def vprnmForce (ncol nV : ℕ) (pV : ℕ → ℝ) : ℝ :=
  if ncol = nV + 4 then Real.sqrt (pV (ncol - 4) ^ 2 + pV (ncol - 3) ^ 2) else pV (ncol - 1)

/-- Steps 1 to 5 of `constant_h1_displacement` with the extra frequencies: VPRNM point and superharmonic part. -/
def vprnmSuper (Ndof ncol Mv : ℕ) (bbV : ℕ → ℕ → ℝ) (hV : List ℕ) (Mr : ℕ) (bbR : ℕ → ℕ → ℝ) (hR : List ℕ) (rhi : ℕ)
    (c1 : ℕ → ℝ) (amp : ℝ) (cr : ℕ → ℝ) (extra : Option (List ℝ)) : Except Err ((ℕ → ℝ) × SuperPart) :=
  match Nhc hR with
  | .error e => .error e
  | .ok nhcR =>
    let nR := nhcR * Ndof
    match vprnmPoint Ndof ncol Mv bbV hV c1 amp with
    | .error e => .error e
    | .ok pV? =>
      match ampIndex Ndof ncol hV rhi with
      | .error e => .error e
      | .ok pv =>
        match superPoint Ndof nR Mr bbR hR cr (pV?.map fun p => harmAmp Ndof pv cr 1 p) with
        | .error e => .error e
        | .ok pR? =>
          if hR = [] then .error .index
          else
            match pV?, pR? with
            | some pV, some pR =>
              let wv := rhi * vprnmOm ncol pV
              match superFrc Ndof nR Mr bbR hR pR wv with
              | .error e => .error e
              | .ok out =>
                match superRotate Ndof nR hR cr pV pv wv (pR (nR + 2)) out with
                | .error e => .error e
                | .ok (rows, i) =>
                  match superExtra nR rhi extra rows (out.map fun x => x.2.1) i with
                  | .error e => .error e
                  | .ok s => .ok (pV, s)
            -- a NaN point leaves no row in `constant_force`, and `np.argmin` rejects an empty array
            | _, _ => .error .value

/-- `constant_h1_displacement`, vprnm.py:226-441. -/
def constantH1 (Ndof Mf : ℕ) (bbF : ℕ → ℕ → ℝ) (hF : List ℕ) (Mr : ℕ) (bbR : ℕ → ℕ → ℝ) (hR : List ℕ) (ncol Mv : ℕ)
    (bbV : ℕ → ℕ → ℝ) (hV : List ℕ) (rhi : ℕ) (c1 : ℕ → ℝ) (amp : ℝ) (cr Fl : ℕ → ℝ) (extra : Option (List ℝ))
    (correct : Bool) : Except Err VprnmRom :=
  match Nhc hV with
  | .error e => .error e
  | .ok nhcV =>
    if ¬ (ncol = nhcV * Ndof + 4 ∨ ncol = nhcV * Ndof + 2) then .error .assertion
    else
      match vprnmSuper Ndof ncol Mv bbV hV Mr bbR hR rhi c1 amp cr extra with
      | .error e => .error e
      | .ok (pV, s) =>
        match Nhc hF with
        | .error e => .error e
        | .ok nhcF =>
          match fundPart Ndof (nhcF * Ndof) Mf bbF hF hV Fl c1 amp pV with
          | .error e => .error e
          | .ok fund =>
            let Om := s.w.map fun w => w / (rhi : ℝ)
            let hO := outHarmonics hV hF hR rhi
            .ok ⟨s.U.map fun u => assembleRow Ndof hV hF hR hO rhi pV (fund.map Prod.snd) u, Om,
              forceOut correct (vprnmForce ncol (nhcV * Ndof) pV) (fund.map Prod.fst) Om s.q s.peak, hO⟩

end

end TMD
