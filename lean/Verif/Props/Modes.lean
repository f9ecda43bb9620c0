import Verif.Modes
import Verif.Props.Session
/-!
# C51 and C44: what observes a parse does not change it

`Shared.parse F G n sh c` is one call of `parse` (`Session.lean`); `SameAnswer` compares what the caller gets (result, value, length,
recovery, user datum), `Unwatched G c` says that nothing can look at values (`Modes.lean`).
-/

namespace Verif.Props
open Verif Out

variable {V : Type}

/-- The same call with the values built in any case: `recognize_only` off. -/
def building (F : List Nat → Nat → List Bool) (G : Parser) (n : Nat) (sh : Shared) (c : Call V) : Out (Answer V) :=
  parserParse n { (sh.prepare F G c.start).cfg G c with recognizeOnly := false } c.start c.eoi c.log c.dt

/-- Same outcome: both not finished, both undefined, or the same answer. -/
def SameOut (x y : Out (Answer V)) : Prop :=
  match x, y with
  | .ok a, .ok b => SameAnswer a b
  | .ub _, .ub _ => True
  | .oof, .oof => True
  | _, _ => False

/-- **C51**: whatever was parsed before, a parse skips building values exactly when nothing can look at them. -/
theorem C51_mode_chosen (F : List Nat → Nat → List Bool) (G : Parser) (m : Nat) (h : List (Call V)) (c : Call V) :
    (((Shared.after F G m {} h).prepare F G c.start).cfg G c).recognizeOnly = true ↔ Unwatched G c := by
  have hi := (inv_fresh G).after F m h
  rw [← recognizes_iff]
  show recognizes ((((Shared.after F G m {} h).prepare F G c.start).ids c.start).getD {}) c = true ↔ _
  rw [prepare_ids_self F G c.start hi, Option.getD_some]

/-- **C51**: for every grammar, history, input and fuel, the answer is the one of the parse that builds all values.  Whether the parse
finishes and whether it is undefined is the same, too. -/
theorem C51_recognise_only_unobservable (F : List Nat → Nat → List Bool) (G : Parser) (n m : Nat) (h : List (Call V)) (c : Call V) :
    SameOut (Shared.parse F G n (Shared.after F G m {} h) c).1 (building F G n (Shared.after F G m {} h) c) := by
  have hi := (inv_fresh G).after F m h
  have hip := hi.prepare F c.start
  have hids := prepare_ids_self F G c.start hi
  have hmode := C51_mode_chosen F G m h c
  unfold Shared.parse building
  dsimp only
  generalize (Shared.after F G m {} h).prepare F G c.start = s at hip hids hmode
  by_cases hr : (s.cfg G c).recognizeOnly = true
  · have hu := hmode.1 hr
    have h1 : Alike false (G.reach c.start) (s.cfg G c) false false :=
      alike hip false false false hids (fun _ => hu) (by intro e; cases e) (by intro e; cases e)
    have hns : (s.cfg G c).needsRuleStack = false := by
      show (c.log || c.trace) = false
      rw [hu.log, hu.trace]; rfl
    have h2 : Alike false (G.reach c.start) ((s.cfg G c).mode false false) true false :=
      ⟨h1.closed, h1.ws, (by intro e; cases e), (by intro e; cases e), h1.quiet⟩
    have k1 := parserParse_lk h1 hns (G.reach_start c.start) n c.eoi false c.dt
    have k2 := parserParse_lk h2 rfl (G.reach_start c.start) n c.eoi false c.dt
    have e1 : (s.cfg G c).mode false false = { s.cfg G c with recognizeOnly := false } := by
      show ({ s.cfg G c with recognizeOnly := false, needsRuleStack := false } : Cfg V) = _
      rw [← hns]
    have e2 : ((s.cfg G c).mode false false).mode true false = s.cfg G c := by
      show ({ s.cfg G c with recognizeOnly := true, needsRuleStack := false } : Cfg V) = _
      rw [← hns, ← hr]
    rw [e2] at k2
    rw [e1] at k1 k2
    rw [hu.log]
    generalize parserParse n (s.cfg G c) c.start c.eoi false c.dt = x at k1 k2
    generalize parserParse n { s.cfg G c with recognizeOnly := false } c.start c.eoi false c.dt = y at k1 k2
    cases x with
    | ok a =>
      obtain ⟨b, hb, hs⟩ := k2
      rw [hb]
      exact hs.symm
    | ub m =>
      cases y with
      | ok b => obtain ⟨a, ha, -⟩ := k1; cases ha
      | ub m' => trivial
      | oof => have : (Out.ub m : Out (Answer V)) = .oof := k1; cases this
    | oof =>
      have : y = .oof := k2
      rw [this]
      trivial
  · rw [Bool.not_eq_true] at hr
    have e : ({ s.cfg G c with recognizeOnly := false } : Cfg V) = s.cfg G c := by rw [← hr]
    rw [e]
    generalize parserParse n (s.cfg G c) c.start c.eoi c.log c.dt = x
    cases x with
    | ok a => exact ⟨rfl, rfl, rfl, rfl, rfl⟩
    | ub m => trivial
    | oof => trivial

theorem watch_lk (F : List Nat → Nat → List Bool) (G : Parser) (n m : Nat) (h : List (Call V)) (c : Call V) (hg : LogSafe G c.start) (l t : Bool) (hlt : (l || t) = true) :
    Lk SameAnswer (Shared.parse F G n (Shared.after F G m {} h) { c with log := false, trace := false }).1
      (Shared.parse F G n (Shared.after F G m {} h) { c with log := l, trace := t }).1 := by
  have hi := (inv_fresh G).after F m h
  have hip := hi.prepare F c.start
  have hids := prepare_ids_self F G c.start hi
  have hmode := C51_mode_chosen F G m h { c with log := false, trace := false }
  unfold Shared.parse
  dsimp only at hmode ⊢
  generalize (Shared.after F G m {} h).prepare F G c.start = s at hip hids hmode
  have e : s.cfg G { c with log := l, trace := t } = (s.cfg G { c with log := false, trace := false }).mode false true := by
    unfold Shared.cfg
    dsimp only
    have : recognizes ((s.ids c.start).getD {}) { c with log := l, trace := t } = false := by unfold recognizes; simp [hlt]
    rw [this, hlt]
  rw [e]
  refine parserParse_lk (b := !(s.cfg G { c with log := false, trace := false }).recognizeOnly) (R := G.reach c.start) ?_ rfl (G.reach_start c.start) n c.eoi l c.dt
  refine alike (c := { c with log := false, trace := false }) hip _ false true hids (fun hb => hmode.1 ?_) ?_ fun _ => hg
  · rw [Bool.not_eq_false'] at hb; exact hb
  · intro hb
    rw [Bool.not_eq_true'] at hb
    exact hb.symm

theorem logging_lk (F : List Nat → Nat → List Bool) (G : Parser) (n m : Nat) (h : List (Call V)) (c : Call V) (ht : c.trace = false) (hg : LogSafe G c.start) :
    Lk SameAnswer (Shared.parse F G n (Shared.after F G m {} h) { c with log := false }).1
      (Shared.parse F G n (Shared.after F G m {} h) { c with log := true }).1 := by
  have := watch_lk F G n m h c hg true false rfl
  cases c
  cases ht
  exact this

/-- **C44**: for every grammar in which no left-recursive macro passes on its parameters without calling a macro (and whose white space
expression calls no macro), every history, input and fuel: if the parse with a logger gives an answer, the parse without logger gives the
same one.  Missing: the excluded grammars; there the property fails, see `C44_logger_changes_language`. -/
theorem C44_logger_removed_partial (F : List Nat → Nat → List Bool) (G : Parser) (n m : Nat) (h : List (Call V)) (c : Call V)
    (ht : c.trace = false) (hg : LogSafe G c.start) {ans : Answer V}
    (ha : (Shared.parse F G n (Shared.after F G m {} h) { c with log := true }).1 = .ok ans) :
    ∃ ans', (Shared.parse F G n (Shared.after F G m {} h) { c with log := false }).1 = .ok ans' ∧ SameAnswer ans' ans := by
  have := logging_lk F G n m h c ht hg
  rw [ha] at this
  exact this

/-- **C44**: conversely, if the parse without logger gives an answer then the parse with a logger gives the same answer, unless reporting an
error is undefined (a literal or rule that does not exist; excluded for loaded grammars). -/
theorem C44_logger_added_partial (F : List Nat → Nat → List Bool) (G : Parser) (n m : Nat) (h : List (Call V)) (c : Call V)
    (ht : c.trace = false) (hg : LogSafe G c.start) {ans : Answer V}
    (ha : (Shared.parse F G n (Shared.after F G m {} h) { c with log := false }).1 = .ok ans) :
    (∃ ans', (Shared.parse F G n (Shared.after F G m {} h) { c with log := true }).1 = .ok ans' ∧ SameAnswer ans ans') ∨
      ∃ s, (Shared.parse F G n (Shared.after F G m {} h) { c with log := true }).1 = .ub s := by
  have k := logging_lk F G n m h c ht hg
  generalize (Shared.parse F G n (Shared.after F G m {} h) { c with log := true }).1 = y at k
  cases y with
  | ok b =>
    obtain ⟨a, h1, h2⟩ := k
    rw [ha] at h1
    cases h1
    exact Or.inl ⟨b, rfl, h2⟩
  | ub s => exact Or.inr ⟨s, rfl⟩
  | oof => have := ha.symm.trans k; cases this

/-! ## C65: tracing -/

/-- **C65**: when errors are logged, attaching a tracer changes nothing at all: for every grammar, history and input the answer, the
reports and the state left behind are the same. -/
theorem C65_tracing_while_logging (F : List Nat → Nat → List Bool) (G : Parser) (n : Nat) (sh : Shared) (c : Call V) (hl : c.log = true) :
    Shared.parse F G n sh { c with trace := true } = Shared.parse F G n sh { c with trace := false } := by
  unfold Shared.parse Shared.cfg recognizes
  simp [hl]

/-- **C65**: if the traced parse gives an answer, the parse without a tracer gives the same one (same conditions as C44).  Missing: the excluded
grammars; there the property fails, see `C65_tracer_changes_language`. -/
theorem C65_tracer_removed_partial (F : List Nat → Nat → List Bool) (G : Parser) (n m : Nat) (h : List (Call V)) (c : Call V)
    (hg : LogSafe G c.start) {ans : Answer V}
    (ha : (Shared.parse F G n (Shared.after F G m {} h) { c with trace := true }).1 = .ok ans) :
    ∃ ans', (Shared.parse F G n (Shared.after F G m {} h) { c with trace := false }).1 = .ok ans' ∧ SameAnswer ans' ans := by
  have k := watch_lk F G n m h c hg false true rfl
  have e := C65_tracing_while_logging F G n (Shared.after F G m {} h) c
  cases c with
  | mk start input eoi log trace dt action predicate enter leave user =>
    cases log with
    | true =>
      rw [e rfl] at ha
      exact ⟨ans, ha, rfl, rfl, rfl, rfl, rfl⟩
    | false =>
      rw [ha] at k
      exact k

/-- **C65**: conversely, unless the traced parse is undefined. -/
theorem C65_tracer_added_partial (F : List Nat → Nat → List Bool) (G : Parser) (n m : Nat) (h : List (Call V)) (c : Call V)
    (hg : LogSafe G c.start) {ans : Answer V}
    (ha : (Shared.parse F G n (Shared.after F G m {} h) { c with trace := false }).1 = .ok ans) :
    (∃ ans', (Shared.parse F G n (Shared.after F G m {} h) { c with trace := true }).1 = .ok ans' ∧ SameAnswer ans ans') ∨
      ∃ s, (Shared.parse F G n (Shared.after F G m {} h) { c with trace := true }).1 = .ub s := by
  have k := watch_lk F G n m h c hg false true rfl
  have e := C65_tracing_while_logging F G n (Shared.after F G m {} h) c
  cases c with
  | mk start input eoi log trace dt action predicate enter leave user =>
    cases log with
    | true =>
      rw [e rfl]
      exact .inl ⟨ans, ha, rfl, rfl, rfl, rfl, rfl⟩
    | false =>
      dsimp only at k ha ⊢
      generalize (Shared.parse F G n (Shared.after F G m {} h) ⟨start, input, eoi, false, true, dt, action, predicate, enter, leave, user⟩).1 = y at k ⊢
      cases y with
      | ok b =>
        obtain ⟨a, h1, h2⟩ := k
        rw [ha] at h1
        cases h1
        exact Or.inl ⟨b, rfl, h2⟩
      | ub s => exact Or.inr ⟨s, rfl⟩
      | oof => have := ha.symm.trans k; cases this

/-! ## Concrete grammars -/

/-- `S <- T ('+' T)*;  T <- < [0-9] >;  %whitespace <- ' '*`, packrat on. -/
def modeGram : Parser where
  rules := arNames
  ws := fun _ => some (.ws (.ign (.rep (.lit " ".toUTF8.toList false) 0 none none)))
  packrat := fun r => r = 0
where arNames : List Def :=
  [{ name := "S".toUTF8.toList, ope := .seq [.ref 1 "T".toUTF8.toList [], .rep (.seq [.lit "+".toUTF8.toList false, .ref 1 "T".toUTF8.toList []] none) 0 none none] none },
   { name := "T".toUTF8.toList, ope := .tok (.cls ⟨[(48, 57)], false, false⟩) }]

def modeFilter : List Nat → Nat → List Bool := fun _ _ => [false, true]

def modeCall (log : Bool) (act : Bool) : Call Nat :=
  { start := 0, input := "1 + 2".toUTF8.toList, log := log
    action := fun _ => if act then some fun f _ _ => (some (f.tokens.length + f.vals.length), none) else none }

structure ModeObs where
  ok : Bool
  len : Nat
  val : Option Nat
  deriving DecidableEq

def modeObs : Out (Answer Nat) → Option ModeObs
  | .ok x => some ⟨x.ok, x.res.len, x.val⟩
  | _ => none

/-- The four combinations of logger and actions: the same results; only without both values are not built. -/
example : ∀ log : Bool, modeObs (Shared.parse modeFilter modeGram 40 {} (modeCall log false)).1 = some ⟨true, 5, none⟩ := by decide +kernel
example : ∀ log : Bool, modeObs (Shared.parse modeFilter modeGram 40 {} (modeCall log true)).1 = some ⟨true, 5, some 2⟩ := by decide +kernel
example : ∀ log act : Bool, (((({} : Shared).prepare modeFilter modeGram 0).cfg modeGram (modeCall log act)).recognizeOnly = (!log && !act)) := by
  decide +kernel

/-- The conditions of the theorems on C44 hold for it. -/
example : LogSafe modeGram 0 where
  ws := by intro w hw; cases hw; exact ⟨by decide, by decide⟩
  params := by
    intro r d _ hd hp
    have : r < 2 := by
      by_cases h : r < 2
      · exact h
      · rw [List.getElem?_eq_none_iff.2 (by show 2 ≤ r; omega)] at hd; cases hd
    rcases (show r = 0 ∨ r = 1 by omega) with e | e <;> subst e <;> cases hd <;> cases hp

/-- `S <- X('k');  X(y) <- A(M(v));  A(v) <- B 'c' / v;  B <- A('q') 'd' / 'e';  M(z) <- '(' z ')';  v <- 'q'`.
`A` and `B` are left-recursive; the body of `A` calls no macro, so that `A` is put on the rule stack only when a logger is installed. -/
def logGram : Parser where
  rules := [
    { name := "S".toUTF8.toList, ope := .ref 1 "X".toUTF8.toList [.lit "k".toUTF8.toList false] },
    { name := "X".toUTF8.toList, isMacro := true, params := ["y".toUTF8.toList],
      ope := .ref 2 "A".toUTF8.toList [.ref 4 "M".toUTF8.toList [.ref 5 "v".toUTF8.toList []]] },
    { name := "A".toUTF8.toList, isMacro := true, params := ["v".toUTF8.toList], isLR := true,
      ope := .cho [.seq [.ref 3 "B".toUTF8.toList [], .lit "c".toUTF8.toList false] none, .param 0 "v".toUTF8.toList] false [] },
    { name := "B".toUTF8.toList, isLR := true,
      ope := .cho [.seq [.ref 2 "A".toUTF8.toList [.lit "q".toUTF8.toList false], .lit "d".toUTF8.toList false] none, .lit "e".toUTF8.toList false] false [] },
    { name := "M".toUTF8.toList, isMacro := true, params := ["z".toUTF8.toList],
      ope := .seq [.lit "(".toUTF8.toList false, .param 0 "z".toUTF8.toList, .lit ")".toUTF8.toList false] none },
    { name := "v".toUTF8.toList, ope := .lit "q".toUTF8.toList false }]

def logCall (s : String) (log : Bool) : Call Nat := { start := 0, input := s.toUTF8.toList, log := log }

/-- C44 is false in general: this grammar accepts `(q)` and rejects `((q))`; with a logger installed it is the other way round. -/
theorem C44_logger_changes_language :
    (histObs (Shared.parse modeFilter logGram 60 {} (logCall "(q)" false)).1).map HistObs.ok = some true ∧
    (histObs (Shared.parse modeFilter logGram 60 {} (logCall "(q)" true)).1).map HistObs.ok = some false ∧
    (histObs (Shared.parse modeFilter logGram 60 {} (logCall "((q))" false)).1).map HistObs.ok = some false ∧
    (histObs (Shared.parse modeFilter logGram 60 {} (logCall "((q))" true)).1).map HistObs.ok = some true := by decide +kernel

/-- A traced parse. -/
def traced (s : String) (log trace : Bool) : Call Nat := { start := 0, input := s.toUTF8.toList, log := log, trace := trace }

/-- C65 is false in general: attaching a tracer changes what this grammar accepts. -/
theorem C65_tracer_changes_language :
    (histObs (Shared.parse modeFilter logGram 60 {} (traced "(q)" false false)).1).map HistObs.ok = some true ∧
    (histObs (Shared.parse modeFilter logGram 60 {} (traced "(q)" false true)).1).map HistObs.ok = some false ∧
    (histObs (Shared.parse modeFilter logGram 60 {} (traced "((q))" false false)).1).map HistObs.ok = some false ∧
    (histObs (Shared.parse modeFilter logGram 60 {} (traced "((q))" false true)).1).map HistObs.ok = some true := by decide +kernel

/-- A grammar to which the theorems apply, traced and not. -/
example : ∀ trace : Bool, modeObs (Shared.parse modeFilter modeGram 40 {} { modeCall false true with trace := trace }).1 = some ⟨true, 5, some 2⟩ := by
  decide +kernel

end Verif.Props
