import Verif.Model.SystemForces
import Verif.Lemmas.RoughContact
import Verif.Lemmas.Slider
import Mathlib.Tactic.Linarith
import Mathlib.Tactic.NormNum

/-!
# Properties C84 - C86: history and friction calls on a whole system
-/

namespace TMD

noncomputable section

/-! ## Objects as constructed, friction in use -/

/-- Objects as their constructors leave them. -/
inductive FObj.Fresh : FObj → Prop
  | inst (f) : Fresh (.inst f)
  | jenkins (n Q T kt Fs) : Fresh (.jenkins (Jenkins.new n Q T kt Fs))
  | iwan (q w) : Fresh (.iwan q w (0, fun _ => 0))
  | jaxJenkins (kt Fs) : Fresh (.jaxJenkins (JaxJenkins.new kt Fs))
  | jaxVector (kt Fs) : Fresh (.jaxVector kt Fs)
  | edf2 (q kt kn mu gap u0) : Fresh (.edf2 q (Edf2.new kt kn mu gap) u0)
  | edf3 (q kt kn mu gap u0) : Fresh (.edf3 q (Edf3.new kt kn mu gap) u0)
  | rough (q m g mu u0) : Fresh (.rough q m g (RoughObj.new mu) u0)

/-- Slip force or friction coefficient in use; `none` for elements without friction. -/
def FObj.friction : FObj → Option ℝ
  | .inst _ => none
  | .jenkins j => some j.Fs
  | .iwan _ w _ => some w.Fs
  | .jaxJenkins j => some j.Fs
  | .jaxVector _ Fs => some Fs
  | .edf2 _ o _ => some o.mu
  | .edf3 _ o _ => some o.mu
  | .rough _ _ _ o _ => some o.mu

def FObj.isIwan : FObj → Bool
  | .iwan _ _ _ => true
  | _ => false

def FObj.isJaxVector : FObj → Bool
  | .jaxVector _ _ => true
  | _ => false

def FObj.isJaxJenkins : FObj → Bool
  | .jaxJenkins _ => true
  | _ => false

/-- NumPy Jenkins and Iwan elements. -/
def FObj.isSerial : FObj → Bool
  | .jenkins _ => true
  | .iwan _ _ _ => true
  | _ => false

/-- The object with history, friction switch and AFT start put back. -/
def FObj.norm (o : FObj) : FObj :=
  (match o.resetRealMu.initHistory with | .ok o' => o' | .error _ => o.resetRealMu).setAftInitialize (fun _ => 0)

theorem norm_init (o o' : FObj) (h : o.initHistory = .ok o') : o'.norm = o.norm := by
  cases o <;> simp only [FObj.initHistory, Except.ok.injEq, reduceCtorEq] at h <;> subst h <;> rfl

theorem norm_force (o o' : FObj) (F : ℕ → Flt) (X : ℕ → ℝ) (b : Bool) (h : o.force X b = .ok (F, o')) :
    o'.norm = o.norm := by
  cases o with
  | jenkins j =>
    simp only [FObj.force, Jenkins.force] at h
    cases hh : j.hist with
    | none => rw [hh] at h; simp at h
    | some p =>
      rw [hh] at h
      simp only [Except.ok.injEq, Prod.mk.injEq] at h
      rw [← h.2]
      cases b <;> rfl
  | inst f => cases b <;> simp [FObj.force] at h; rw [← h.2]
  | jaxJenkins f => cases b <;> simp [FObj.force] at h; rw [← h.2]
  | jaxVector f => cases b <;> simp [FObj.force] at h; rw [← h.2]
  | iwan q w s => simp only [FObj.force, Except.ok.injEq, Prod.mk.injEq] at h; rw [← h.2]; cases b <;> rfl
  | edf2 q o u => simp only [FObj.force, Except.ok.injEq, Prod.mk.injEq] at h; rw [← h.2]; cases b <;> rfl
  | edf3 q o u => simp only [FObj.force, Except.ok.injEq, Prod.mk.injEq] at h; rw [← h.2]; cases b <;> rfl
  | rough q m g o u => simp only [FObj.force, Except.ok.injEq, Prod.mk.injEq] at h; rw [← h.2]; cases b <;> rfl

theorem norm_prestress (o o' : FObj) (h : o.setPrestressMu = .ok o') : o'.norm = o.norm := by
  cases o <;> simp only [FObj.setPrestressMu, Except.ok.injEq, reduceCtorEq] at h <;> subst h <;> rfl

theorem norm_reset (o : FObj) : o.resetRealMu.norm = o.norm := by cases o <;> rfl

theorem norm_setAft (o : FObj) (U : ℕ → ℝ) : (o.setAftInitialize U).norm = o.norm := by
  cases o <;> simp only [FObj.norm, FObj.setAftInitialize, FObj.resetRealMu, FObj.initHistory]

theorem norm_aft (p : AftPars) (o o' : FObj) (Ut : List (ℕ → ℝ)) (U0 : ℕ → ℝ) (h : o.aft p Ut U0 = .ok o') :
    o'.norm = o.norm := by
  cases o with
  | jenkins j =>
    cases Ut with
    | nil => simp [FObj.aft] at h
    | cons X Ut => simp only [FObj.aft, Except.ok.injEq] at h; rw [← h]; rfl
  | iwan q w s =>
    cases Ut with
    | nil => simp [FObj.aft] at h
    | cons X Ut => simp only [FObj.aft, Except.ok.injEq] at h; rw [← h]; rfl
  | _ => simp only [FObj.aft, Except.ok.injEq] at h; rw [← h]

theorem forAll_map {α : Type} (g : FObj → α) (f : FObj → Except Err FObj) (h : ∀ o o', f o = .ok o' → g o' = g o)
    (os : List FObj) : (forAll f os).2.map g = os.map g := by
  induction os with
  | nil => rfl
  | cons o os ih =>
    unfold forAll
    cases hf : f o with
    | error e => rfl
    | ok o' => simp only [List.map_cons, ih, h o o' hf]

theorem sysCall_norm (p : AftPars) (op : SysOp) (os : List FObj) :
    (sysCall p op os).2.map FObj.norm = os.map FObj.norm := by
  cases op with
  | initForceHistory =>
    refine forAll_map _ _ (fun o o' h => ?_) os
    split at h
    · exact norm_init o o' h
    · rw [Except.ok.injEq] at h; rw [h]
  | updateForceHistory U =>
    refine forAll_map _ _ (fun o o' h => ?_) os
    split at h
    · cases hf : o.force U true with
      | error e => rw [hf] at h; simp at h
      | ok r => rw [hf] at h; simp only [Except.ok.injEq] at h; rw [← h]; exact norm_force o r.2 r.1 U true hf
    · rw [Except.ok.injEq] at h; rw [h]
  | setPrestressMu => exact forAll_map _ _ norm_prestress os
  | resetRealMu => exact forAll_map _ _ (fun o o' h => by rw [Except.ok.injEq] at h; rw [← h]; exact norm_reset o) os
  | setAftInitialize U =>
    exact forAll_map _ _ (fun o o' h => by rw [Except.ok.injEq] at h; rw [← h]; exact norm_setAft o U) os
  | staticRes U =>
    refine forAll_map _ _ (fun o o' h => ?_) os
    cases hf : o.force U false with
    | error e => rw [hf] at h; simp at h
    | ok r => rw [hf] at h; simp only [Except.ok.injEq] at h; rw [← h]; exact norm_force o r.2 r.1 U false hf
  | totalAft Ut U0 => exact forAll_map _ _ (fun o o' h => norm_aft p o o' Ut U0 h) os

theorem sysRun_norm (p : AftPars) (ops : List SysOp) (os : List FObj) :
    (sysRun p os ops).map FObj.norm = os.map FObj.norm := by
  induction ops generalizing os with
  | nil => rfl
  | cons op ops ih => rw [sysRun, ih, sysCall_norm]

theorem forAll_ok (f : FObj → FObj) (os : List FObj) : forAll (fun o => .ok (f o)) os = (none, os.map f) := by
  induction os with
  | nil => rfl
  | cons o os ih => unfold forAll; simp only [ih, List.map_cons]

theorem forAll_ok' (f : FObj → Except Err FObj) (g : FObj → FObj) (os : List FObj) (h : ∀ o ∈ os, f o = .ok (g o)) :
    forAll f os = (none, os.map g) := by
  induction os with
  | nil => rfl
  | cons o os ih =>
    unfold forAll
    rw [h o (List.mem_cons_self ..)]
    simp only [ih fun x hx => h x (List.mem_cons_of_mem _ hx), List.map_cons]

/-! ## C84: prestress switch of the system -/

theorem friction_reset (o : FObj) : o.resetRealMu.friction = o.norm.friction := by cases o <;> rfl

theorem friction_fresh {o : FObj} (h : o.Fresh) : o.friction = o.norm.friction := by cases h <;> rfl

/-- C84: on a new system, after any sequence of calls (whether they raised or not), `reset_real_mu` succeeds and gives
each force the friction it was constructed with. -/
theorem C84_reset (p : AftPars) (os : List FObj) (hos : ∀ o ∈ os, o.Fresh) (ops : List SysOp) :
    ∃ os', sysCall p .resetRealMu (sysRun p os ops) = (none, os') ∧ os'.map FObj.friction = os.map FObj.friction := by
  refine ⟨_, forAll_ok _ _, ?_⟩
  rw [List.map_map]
  have e1 : (FObj.friction ∘ FObj.resetRealMu) = FObj.friction ∘ FObj.norm := funext friction_reset
  rw [e1, ← List.map_map, sysRun_norm, List.map_map]
  exact List.map_congr_left fun o ho => (friction_fresh (hos o ho)).symm

/-- Friction after the prestress switch. -/
def FObj.prestressed : FObj → FObj
  | .jenkins j => .jenkins j.setPrestressMu
  | .jaxJenkins j => .jaxJenkins { j with Fs := j.prestressFs }
  | .edf2 q o u0 => .edf2 q o.setPrestressMu u0
  | .edf3 q o u0 => .edf3 q { o with mu := o.prestressMu } u0
  | .rough q m g o u0 => .rough q m g o.setPrestressMu u0
  | o => o

theorem setPrestress_ok (o : FObj) (h : o.isIwan = false) : o.setPrestressMu = .ok o.prestressed := by
  cases o <;> first | rfl | simp [FObj.isIwan] at h

/-- Class of the object is kept. -/
def FObj.cls : FObj → ℕ
  | .inst _ => 0
  | .jenkins _ => 1
  | .iwan _ _ _ => 2
  | .jaxJenkins _ => 3
  | .jaxVector _ _ => 4
  | .edf2 _ _ _ => 5
  | .edf3 _ _ _ => 6
  | .rough _ _ _ _ _ => 7

theorem norm_cls (o : FObj) : o.norm.cls = o.cls := by cases o <;> rfl

theorem isIwan_cls (o : FObj) : o.isIwan = decide (o.cls = 2) := by cases o <;> rfl
theorem isJaxVector_cls (o : FObj) : o.isJaxVector = decide (o.cls = 4) := by cases o <;> rfl
theorem isJaxJenkins_cls (o : FObj) : o.isJaxJenkins = decide (o.cls = 3) := by cases o <;> rfl

theorem run_mem {p : AftPars} {os : List FObj} {ops : List SysOp} {o : FObj} (h : o ∈ sysRun p os ops) :
    ∃ o0 ∈ os, o0.norm = o.norm := by
  have := List.mem_map_of_mem (f := FObj.norm) h
  rw [sysRun_norm] at this
  exact List.mem_map.1 this

theorem run_cls {p : AftPars} {os : List FObj} {ops : List SysOp} {o : FObj} (h : o ∈ sysRun p os ops) :
    ∃ o0 ∈ os, o0.cls = o.cls := by
  obtain ⟨o0, h0, e⟩ := run_mem h
  exact ⟨o0, h0, by rw [← norm_cls, e, norm_cls]⟩

/-- What prestress uses is part of the construction data. -/
theorem prestressed_friction (o : FObj) : o.prestressed.friction = o.norm.prestressed.friction := by cases o <;> rfl

theorem prestressed_fresh {o : FObj} (h : o.Fresh) (h1 : o.isIwan = false) (h2 : o.isJaxVector = false) :
    o.norm.prestressed.friction = none ∨ o.norm.prestressed.friction = some 0 := by
  cases h <;> simp [FObj.isIwan, FObj.isJaxVector] at h1 h2 <;> first | exact Or.inl rfl | exact Or.inr rfl

/-- C84 (partial): on a system without Iwan and JAX `VectorJenkins` elements, after any sequence of calls,
`set_prestress_mu` succeeds and every friction element is frictionless. With an Iwan element see `C84_violated`. -/
theorem C84_set_partial (p : AftPars) (os : List FObj) (hos : ∀ o ∈ os, o.Fresh) (ops : List SysOp)
    (h1 : ∀ o ∈ os, o.isIwan = false) (h2 : ∀ o ∈ os, o.isJaxVector = false) :
    ∃ os', sysCall p .setPrestressMu (sysRun p os ops) = (none, os') ∧
      ∀ o ∈ os', o.friction = none ∨ o.friction = some 0 := by
  refine ⟨_, forAll_ok' _ FObj.prestressed _ fun o ho => setPrestress_ok o ?_, ?_⟩
  · obtain ⟨o0, h0, e⟩ := run_cls ho
    rw [isIwan_cls, ← e, ← isIwan_cls]
    exact h1 o0 h0
  · intro o ho
    obtain ⟨o1, ho1, rfl⟩ := List.mem_map.1 ho
    obtain ⟨o0, h0, e⟩ := run_mem ho1
    rw [prestressed_friction, ← e]
    exact prestressed_fresh (hos o0 h0) (h1 o0 h0) (h2 o0 h0)

theorem edf_zero (x N : ℝ) :
    (let fcurr := if x < 0 * N then x else 0 * N
     if fcurr > -0 * N then fcurr else -0 * N) = 0 := by
  simp only [zero_mul, neg_zero]
  split_ifs <;> linarith

/-- C84: an element without friction has no tangential force: local tangential forces are zero for elastic dry
friction, and zero unless NaN for rough contact; the Jenkins force is zero. -/
theorem C84_frictionless (X : ℕ → ℝ) (b : Bool) :
    (∀ (o : Edf2), o.mu = 0 → ∀ d, d % 2 = 0 → (o.force X b).1 d = 0) ∧
    (∀ (o : Edf3), o.mu = 0 → ∀ d, d % 3 ≠ 2 → (o.force X b).1 d = 0) ∧
    (∀ m g (o : RoughObj), o.mu = 0 → ∀ d < 2, ∀ f, (o.force m g X b).1 d = some f → f = 0) ∧
    (∀ (j j' : Jenkins) F, j.Fs = 0 → j.force X b = .ok (F, j') → ∀ i, F.1 i = 0) := by
  refine ⟨fun o h d hd => ?_, fun o h d hd => ?_, fun m g o h d hd f hf => ?_, fun j j' F h hf i => ?_⟩
  · unfold Edf2.force edf2Static
    simp only [if_pos hd, h]
    exact edf_zero _ _
  · unfold Edf3.force edf3Static
    simp only [if_pos hd, h]
    exact edf_zero _ _
  · unfold RoughObj.force staticRough at hf
    simp only [if_pos hd, h] at hf
    have hw : ∀ (w : ℕ → ℝ) (v : ℕ → Flt), (∀ k f, v k = some f → f = 0) → ∀ n f, weighted w v n = some f → f = 0 := by
      intro w v hv n
      induction n with
      | zero => intro f hf; simp only [weighted, Option.some.injEq] at hf; exact hf.symm
      | succ n ih =>
        intro f hf
        rw [weighted] at hf
        cases h1 : weighted w v n with
        | none => rw [h1] at hf; simp at hf
        | some s =>
          cases h2 : v n with
          | none => rw [h1, h2] at hf; simp at hf
          | some x =>
            rw [h1, h2] at hf
            simp only [Option.some.injEq] at hf
            rw [← hf, ih s h1, hv n x h2]
            ring
    refine hw _ _ (fun k f hk => ?_) _ f hf
    revert hk
    unfold tangentialAsp
    split
    · intro hk
      simp only [zero_mul, neg_zero, Option.some.injEq] at hk
      rw [← hk]
      exact max_eq_right (min_le_right _ _)
    · intro hk; simp at hk
  · unfold Jenkins.force at hf
    cases hh : j.hist with
    | none => rw [hh] at hf; simp at hf
    | some q =>
      rw [hh] at hf
      simp only [Except.ok.injEq, Prod.mk.injEq] at hf
      rw [← hf.1]
      simp only [h]
      unfold jenkinsLocal
      simp only
      split
      · simp
      · rename_i hc
        have := abs_nonpos_iff.1 (not_lt.1 hc)
        simp [this]

/-- A Jenkins element on one degree of freedom. -/
def oneJenkins (kt Fs : ℝ) : FObj := .jenkins (Jenkins.new 1 (fun _ => 1) (fun _ => 1) kt Fs)

/-- C84 is false with an Iwan element in the system: the call raises half way, with the forces before it switched and
those after it not. -/
theorem C84_violated (p : AftPars) : ∃ os : List FObj, (∀ o ∈ os, o.Fresh) ∧
    (sysCall p .setPrestressMu os).1 = some .assertion ∧
    (sysCall p .setPrestressMu os).2.map FObj.friction = [some 0, some 4, some 2] := by
  refine ⟨[oneJenkins 1 2, .iwan ⟨1, 1, fun _ _ => 1, fun _ _ => 1⟩ (Iwan.new 1 4 0 0 1 1) (0, fun _ => 0),
    oneJenkins 1 2], ?_, rfl, rfl⟩
  intro o ho
  simp only [List.mem_cons, List.not_mem_nil, or_false] at ho
  rcases ho with rfl | rfl | rfl
  · exact .jenkins ..
  · exact .iwan ..
  · exact .jenkins ..

/-- Switched twice, evaluated, then reset. -/
example (p : AftPars) : ∃ os', sysCall p .resetRealMu (sysRun p [oneJenkins 1 2]
    [.initForceHistory, .setPrestressMu, .updateForceHistory (fun _ => 1), .setPrestressMu]) = (none, os') ∧
      os'.map FObj.friction = [some 2] :=
  C84_reset p [oneJenkins 1 2] (fun o ho => by rw [List.mem_singleton.1 ho]; exact .jenkins ..) _

/-! ## C85: starting the history again -/

theorem init_total (o : FObj) (h : o.isJaxJenkins = false) :
    ∃ o', (if o.forceType = 1 then o.initHistory else .ok o) = .ok o' := by
  cases o <;> first | exact ⟨_, rfl⟩ | simp [FObj.isJaxJenkins] at h

/-- History put back. -/
def FObj.initialised (o : FObj) : FObj := match o.initHistory with | .ok o' => o' | .error _ => o

theorem init_initialised (o : FObj) (h : o.isJaxJenkins = false) :
    (if o.forceType = 1 then o.initHistory else .ok o) = .ok o.initialised := by
  cases o <;> first | rfl | simp [FObj.isJaxJenkins] at h

theorem static_aft (os : List FObj) (U V : ℕ → ℝ) :
    staticForces (os.map (FObj.setAftInitialize V)) U = staticForces os U := by
  induction os with
  | nil => rfl
  | cons o os ih =>
    have h : ((o.setAftInitialize V).force U false).map Prod.fst = (o.force U false).map Prod.fst := by cases o <;> rfl
    simp only [List.map_cons, staticForces]
    cases h1 : (o.setAftInitialize V).force U false with
    | error e =>
      cases h2 : o.force U false with
      | error e' => rw [h1, h2] at h; simpa [Except.map] using h
      | ok r => rw [h1, h2] at h; simp [Except.map] at h
    | ok r =>
      cases h2 : o.force U false with
      | error e' => rw [h1, h2] at h; simp [Except.map] at h
      | ok r' =>
        rw [h1, h2] at h
        simp only [Except.map, Except.ok.injEq] at h
        obtain ⟨a, b⟩ := r
        obtain ⟨a', b'⟩ := r'
        simp only at h ⊢
        rw [h, ih]

/-- C85 (partial): on a new system without JAX Jenkins elements, after any sequence of calls, `reset_real_mu` and
`init_force_history` succeed, and then the objects are those of a new system after `init_force_history`, except for the
AFT start that `set_aft_initialize` chose; every static evaluation gives the same. -/
theorem C85_restart_partial (p : AftPars) (os : List FObj) (hos : ∀ o ∈ os, o.Fresh)
    (hj : ∀ o ∈ os, o.isJaxJenkins = false) (ops : List SysOp) :
    ∃ os1 os2, sysCall p .initForceHistory (sysCall p .resetRealMu (sysRun p os ops)).2 = (none, os1) ∧
      sysCall p .initForceHistory os = (none, os2) ∧
      os1.map (FObj.setAftInitialize fun _ => 0) = os2.map (FObj.setAftInitialize fun _ => 0) ∧
      ∀ U, staticForces os1 U = staticForces os2 U := by
  have e1 : (sysCall p .resetRealMu (sysRun p os ops)).2 = (sysRun p os ops).map FObj.resetRealMu := by
    show (forAll _ _).2 = _
    rw [forAll_ok]
  have hm : (((sysRun p os ops).map FObj.resetRealMu).map FObj.initialised).map (FObj.setAftInitialize fun _ => 0)
      = (os.map FObj.initialised).map (FObj.setAftInitialize fun _ => 0) := by
    have : ((((sysRun p os ops).map FObj.resetRealMu).map FObj.initialised).map (FObj.setAftInitialize fun _ => 0))
        = (sysRun p os ops).map FObj.norm := by rw [List.map_map, List.map_map]; rfl
    rw [this, sysRun_norm, List.map_map]
    refine List.map_congr_left fun o ho => ?_
    cases hos o ho <;> rfl
  refine ⟨((sysRun p os ops).map FObj.resetRealMu).map FObj.initialised, os.map FObj.initialised, ?_, ?_, hm, ?_⟩
  · rw [e1]
    refine forAll_ok' _ _ _ fun o ho => init_initialised o ?_
    obtain ⟨o1, ho1, rfl⟩ := List.mem_map.1 ho
    obtain ⟨o0, h0, e⟩ := run_cls ho1
    have : o1.resetRealMu.cls = o1.cls := by cases o1 <;> rfl
    rw [isJaxJenkins_cls, this, ← e, ← isJaxJenkins_cls]
    exact hj o0 h0
  · exact forAll_ok' _ _ _ fun o ho => init_initialised o (hj o ho)
  · intro U
    rw [← static_aft _ U (fun _ => 0), hm, static_aft]

/-- C85 is false with a JAX Jenkins element in the system: `init_force_history` raises, the forces after it keep their
history, and a NumPy Jenkins element among them cannot be evaluated at all. -/
theorem C85_violated (p : AftPars) : ∃ os : List FObj, (∀ o ∈ os, o.Fresh) ∧
    (sysCall p .initForceHistory os).1 = some .attribute ∧
    ∀ U, staticForces (sysCall p .initForceHistory os).2 U = .error .attribute := by
  refine ⟨[.jaxJenkins (JaxJenkins.new 1 2), oneJenkins 1 2], ?_, rfl, fun U => rfl⟩
  intro o ho
  simp only [List.mem_cons, List.not_mem_nil, or_false] at ho
  rcases ho with rfl | rfl
  · exact .jaxJenkins ..
  · exact .jenkins ..

/-- A system with an elastic dry friction element restarted after loading. -/
example (p : AftPars) (q : Maps) : ∃ os1 os2,
    sysCall p .initForceHistory (sysCall p .resetRealMu (sysRun p [.edf2 q (Edf2.new 1 1 1 0) .none]
      [.setPrestressMu, .updateForceHistory (fun _ => 1)])).2 = (none, os1) ∧
      sysCall p .initForceHistory [.edf2 q (Edf2.new 1 1 1 0) .none] = (none, os2) ∧
      os1.map (FObj.setAftInitialize fun _ => 0) = os2.map (FObj.setAftInitialize fun _ => 0) ∧
      ∀ U, staticForces os1 U = staticForces os2 U :=
  C85_restart_partial p _ (fun o ho => by rw [List.mem_singleton.1 ho]; exact .edf2 ..)
    (fun o ho => by rw [List.mem_singleton.1 ho]; rfl) _

/-! ## C86: evaluations do not disturb the stored static state -/

/-- C86: `static_res` changes no object, whether it raises or not. -/
theorem C86_static (p : AftPars) (os : List FObj) (U : ℕ → ℝ) : (sysCall p (.staticRes U) os).2 = os := by
  have := forAll_map id (fun o : FObj => match o.force U false with | .error e => .error e | .ok (_, o') => .ok o')
    (fun o o' h => ?_) os
  · rw [List.map_id, List.map_id] at this
    exact this
  · cases o with
    | jenkins j =>
      simp only [FObj.force, Jenkins.force] at h
      cases hh : j.hist with
      | none => rw [hh] at h; simp at h
      | some q => rw [hh] at h; simp only [Except.ok.injEq] at h; rw [← h]; rfl
    | inst f => simp only [FObj.force] at h; simp at h; rw [h]
    | jaxJenkins f => simp only [FObj.force] at h; simp at h; rw [h]
    | jaxVector f => simp only [FObj.force] at h; simp at h; rw [h]
    | _ => simp only [FObj.force, Except.ok.injEq] at h; rw [← h]; rfl

/-- C86 (partial): on a system without NumPy Jenkins and Iwan elements, `total_aft` changes no object. -/
theorem C86_aft_partial (p : AftPars) (os : List FObj) (hs : ∀ o ∈ os, o.isSerial = false) (Ut : List (ℕ → ℝ))
    (U0 : ℕ → ℝ) : sysCall p (.totalAft Ut U0) os = (none, os) := by
  have := forAll_ok' (FObj.aft p Ut U0) id os fun o ho => by
    have := hs o ho
    cases o <;> first | rfl | simp [FObj.isSerial] at this
  rw [List.map_id] at this
  exact this

/-- A constant displacement leaves the state set by `init_history_harmonic`. -/
theorem jenkins_aft_const (p : AftPars) (j : Jenkins) (U : ℕ → ℝ) :
    FObj.aft p [U] U (.jenkins j) = .ok (.jenkins { j with hist := some (vdot j.n j.Q U, 0) }) := by
  simp only [FObj.aft, List.map_cons, List.map_nil]
  generalize hm : (jenkinsOps j.kt j.Fs (fun _ => 0) : HystOps (JHist Empty) Empty) = m
  have h := (hystLoop_inv m [(vdot j.n j.Q U, fun _ => 0)] p.maxRepeats p.atol p.rtol p.eps
    (fun s => s.obj.up = vdot j.n j.Q U ∧ s.obj.fp = 0) ?_
    { its := 0, obj := m.init (vdot j.n j.Q U), ft := [], fp := .val (m.fp (m.init (vdot j.n j.Q U))),
      aGt := False, rGt := False } ?_).1
  · rw [h.1, h.2]
  · intro s hs _
    subst hm
    refine ⟨rfl, ?_⟩
    show (jenkinsLocal j.kt j.Fs s.obj.up s.obj.fp (vdot j.n j.Q U)).f = 0
    rw [hs.1, hs.2]
    simp only [jenkinsLocal, sub_self, mul_zero, add_zero, Real.sign_zero, zero_mul]
    split <;> rfl
  · subst hm
    exact ⟨rfl, rfl⟩

/-- C86 is false for a NumPy Jenkins element: the force at the displacement of the last static update changes from 1 to
0 when a frequency-domain evaluation is made in between. -/
theorem C86_violated (p : AftPars) : ∃ (o : FObj) (ops : List SysOp) (U : ℕ → ℝ), o.Fresh ∧
    (staticForces (sysRun p [o] ops) U).map (fun l => l.map (· 0)) = .ok [some 1] ∧
    (staticForces (sysRun p [o] (ops ++ [.totalAft [U] U])) U).map (fun l => l.map (· 0)) = .ok [some 0] := by
  have hv : vdot 1 (fun _ => (1 : ℝ)) (fun _ => 1) = 1 := by simp [vdot]
  have h1 : sysRun p [oneJenkins 1 2] [.initForceHistory, .updateForceHistory (fun _ => 1)]
      = [.jenkins { Jenkins.new 1 (fun _ => 1) (fun _ => 1) 1 2 with hist := some (1, 1) }] := by
    simp [sysRun, sysCall, forAll, oneJenkins, FObj.forceType, FObj.initHistory, FObj.force, Jenkins.initHistory,
      Jenkins.new, Jenkins.force, Jenkins.updateHistory, jenkinsLocal, hv]
  have h2 : sysRun p [oneJenkins 1 2] ([.initForceHistory, .updateForceHistory (fun _ => 1)] ++
      [.totalAft [fun _ => 1] (fun _ => 1)])
      = [.jenkins { Jenkins.new 1 (fun _ => 1) (fun _ => 1) 1 2 with hist := some (1, 0) }] := by
    have e : ∀ (os : List FObj) (a b : List SysOp), sysRun p os (a ++ b) = sysRun p (sysRun p os a) b := by
      intro os a b
      induction a generalizing os with
      | nil => rfl
      | cons x a ih => exact ih _
    rw [e, h1]
    simp only [sysRun, sysCall, forAll]
    rw [jenkins_aft_const p _]
    simp only [Jenkins.new, hv]
  refine ⟨oneJenkins 1 2, [.initForceHistory, .updateForceHistory (fun _ => 1)], fun _ => 1, .jenkins .., ?_, ?_⟩
  · rw [h1]
    simp [staticForces, FObj.force, Jenkins.force, Jenkins.new, jenkinsLocal, hv, Except.map]
  · rw [h2]
    simp [staticForces, FObj.force, Jenkins.force, Jenkins.new, jenkinsLocal, hv, Except.map]
    split <;> rfl

/-- A system with a cubic spring and a JAX Jenkins element. -/
example (p : AftPars) (U : ℕ → ℝ) : sysCall p (.totalAft [U] U)
    [.inst (fun X i => X i ^ 3), .jaxJenkins (JaxJenkins.new 1 2)]
      = (none, [.inst (fun X i => X i ^ 3), .jaxJenkins (JaxJenkins.new 1 2)]) :=
  C86_aft_partial p _ (fun o ho => by
    simp only [List.mem_cons, List.not_mem_nil, or_false] at ho
    rcases ho with rfl | rfl <;> rfl) _ _

end

end TMD
