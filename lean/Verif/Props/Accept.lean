import Verif.Enters
import Verif.Props.FirstSet
import Verif.Props.Derive
import Verif.Props.Analysis
/-!
# C22, C27, C30, C31: what the loader's checks guarantee

`infiniteLoop rules n start` is `detect_infiniteLoop` on the rule `start` (true: the grammar is refused); `markedLR rules t n r`
is the flag `is_left_recursive` computed for rule `r`.
-/

namespace Verif.Props
open Verif

variable {V : Type} {cfg : Cfg V}

theorem utf8_zero {recov : Bool} : ∀ i e g, (utf8Lg cfg recov).al i → e.single = some g → g (cfg.rest i) = some 0 →
    (fun _ : Ope => false) e = true := by
  intro i e g hi h1 h2
  exfalso
  have h3 := single_len h1 h2
  exact Text.len_ne hi.2 (by
    intro he
    have : cfg.rest i = [] := he
    rw [this] at h2
    cases e <;> simp only [Ope.single, Option.some.injEq, reduceCtorEq] at h1 <;> subst h1 <;>
      simp [CharClass.Cls.matchLen, CharClass.matchChar, CharClass.matchAny, Utf8.codepointLength] at h2) h3.symm

/-! ## C30 -/

/-- **C30**: in a grammar accepted by the loop check, no round of an unbounded repetition can match the empty string, at no position
of no text.  `e` is the expression repeated; `r` is the start rule or a rule reachable from it.  Missing for the full claim: the
grammars excluded by `LoopHyp`, for which it is false (below). -/
theorem C30_no_empty_iteration_partial (recov : Bool) (H : DerReady (utf8Node recov) cfg) (hu : UserBdry cfg) {t sm gd : Nat → Bool}
    (hh : LoopHyp cfg.rules (fun _ => false) t sm gd) {start : Nat}
    (hacc : infiniteLoop cfg.rules cfg.rules.length start = false) {r : Nat} {d : Def} (hr : r = start ∨ Reach cfg.rules start r)
    (hd : cfg.rules[r]? = some d) {e : Ope} {mn : Nat} {sp : Option CharClass.Cls} (he : .rep e mn none sp ∈ d.ope.nodes)
    {i : Nat} (hi : Bdry cfg.input i) (hil : i ≤ cfg.input.length) (E : DEnv) (hE : DEnv.Ok (utf8Lg cfg recov) E) (f f' : Frame V) :
    ¬ Der cfg (utf8Lg cfg recov).K E (.ope e) i f i f' := by
  intro h
  have HS := DShape.of_check (utf8Node_ok cfg recov) H.check H.slots H.user
  have HH := utf8Hyp HS hu
  have hcl := every_nodes _ (hh.clean r d hd) _ he
  have hsafe := every_nodes _ (infiniteLoop_sound hh hacc hr hd) _ he
  simp only [Ope.every, Bool.and_eq_true, safeNode, Bool.not_eq_true'] at hcl hsafe
  have hok : e.Ok (utf8Lg cfg recov) := by
    have := clean_bodyOk (HH.body r d hd) (hh.clean r d hd)
    exact (nodes_ok _ this _ he).2
  have := mayEmpty_cbe _ (holeFree_clean _ hcl.2) (Der.empty HH utf8_zero
    (fun r d hd hm => by rw [hh.fix r d hd]; exact mayEmpty_cbe _ (holeFree_clean _ (hh.clean r d hd)) hm)
    h hE (.inl hok) ⟨hil, hi⟩ rfl)
  rw [hsafe.1] at this
  cases this

/-- **C30** for the engine: a successful round of such a repetition consumes something, in every state the engine can be in (`DPre` is
the invariant of a run, true at its start). -/
theorem C30_round_consumes_partial (recov : Bool) (H : DerReady (utf8Node recov) cfg) (hu : UserBdry cfg) {t sm gd : Nat → Bool}
    (hh : LoopHyp cfg.rules (fun _ => false) t sm gd) {start : Nat}
    (hacc : infiniteLoop cfg.rules cfg.rules.length start = false) {r : Nat} {d : Def} (hr : r = start ∨ Reach cfg.rules start r)
    (hd : cfg.rules[r]? = some d) {e : Ope} {mn : Nat} {sp : Option CharClass.Cls} (he : .rep e mn none sp ∈ d.ope.nodes)
    {n i j : Nat} {st st' : St V} (hp : DPre cfg (utf8Lg cfg recov) i st) (h : run n cfg (.ope e) i st = .ok (some j, st')) : i < j := by
  have HS := DShape.of_check (utf8Node_ok cfg recov) H.check H.slots H.user
  have HH := utf8Hyp HS hu
  have hok : e.Ok (utf8Lg cfg recov) :=
    (nodes_ok _ (clean_bodyOk (HH.body r d hd) (hh.clean r d hd)) _ he).2
  have hder := ((run_goodD n) cfg (utf8Lg cfg recov) (.ope e) i st _ HH hp trivial (.inl hok) h).2 j rfl
  have hle := Der.le hder
  rcases Nat.lt_or_ge i j with h' | h'
  · exact h'
  · have : j = i := by omega
    subst this
    exact absurd hder (C30_no_empty_iteration_partial recov H hu hh hacc hr hd he hp.al.2 hp.al.1 _ hp.d.env _ _)

/-! ## C31 -/

/-- **C31**, statically: a rule that is not marked cannot call itself at the position where it starts, through whatever rules. -/
theorem C31_static_partial {rules : List Def} {z : Ope → Bool} {t : Nat → Bool} (H : LrHyp rules z t) {r : Nat}
    (h : markedLR rules t rules.length r = false) : ¬ LeftReach rules t r r := markedLR_sound H h

/-- **C31**, for texts: while an unmarked rule is evaluated at `i`, no derivation enters it again at `i`, and nothing is entered to the left
of `i`; other rules may be left-recursive. -/
theorem C31_not_entered_again_partial (recov : Bool) (H : DerReady (utf8Node recov) cfg) (hu : UserBdry cfg) {t : Nat → Bool}
    (hl : LrHyp cfg.rules (fun _ => false) t)
    (hs : cfg.ws ≠ none → ∀ (r : Nat) (d : Def), cfg.rules[r]? = some d →
      d.ope.every (noEarlySkip t) = true ∧ (d.noWs = true → t r = false))
    (hw : ∀ e, cfg.ws = some (.ws e) → e.every (cleanNode (fun _ => false) t) = true ∧ e.every (noEarlySkip t) = true)
    {r : Nat} {d : Def} (hd : cfg.rules[r]? = some d) (h : markedLR cfg.rules t cfg.rules.length r = false)
    {i : Nat} (hi : Bdry cfg.input i) (hil : i ≤ cfg.input.length) :
    ¬ Enters cfg (utf8Lg cfg recov).K (.ope d.ope) i r i := by
  have HS := DShape.of_check (utf8Node_ok cfg recov) H.check H.slots H.user
  exact Enters.not_again ⟨utf8Hyp HS hu, utf8_zero, hl.fix, hl.clean, hs, hw⟩ hd (markedLR_sound hl h) ⟨hil, hi⟩

section
variable {base : Cfg V} {wsR wordR : Option Nat} {rs : List Def} {t sm gd : Nat → Bool} {M : Nat → Mode → Bool} {start : Nat}

/-- What is asked of the rest: packrat numbering, word rule, callbacks, text. -/
structure Setup (base : Cfg V) (wordR : Option Nat) (rs : List Def) (M : Nat → Mode → Bool) (start : Nat) : Prop where
  pack : base.packrat = true → PackFits base rs M
  word : WordTested base wordR rs
  calls : CallsOk base
  slots : SlotsOk base
  text : Text base.input
  start : start < rs.length

theorem _root_.Verif.Accepted.ready (h : Accepted base wsR rs (fun _ => false) t sm gd M start) (s : Setup base wordR rs M start) (order : List Nat) :
    Ready (base.withRules wsR wordR (setupAll rs order)) (certOf rs t M false) (Bdry base.input) start :=
  (h.loaded s.pack s.word s.calls s.slots s.text s.start).ready order

theorem _root_.Verif.Accepted.trap (b : Bool) (h : Accepted base wsR rs (fun _ => false) t sm gd M start) :
    Accepted { base with trap := b } wsR rs (fun _ => false) t sm gd M start := { h with }

/-- **C31** for the engine, in grammars with no marked rule: with the re-entry guard replaced by a trap, every parse ends, the trap is never
hit, and the answer is the same as with the guard. -/
theorem C31_guard_unused_partial (h : Accepted base wsR rs (fun _ => false) t sm gd M start) (s : ∀ b, Setup { base with trap := b } wordR rs M start)
    (order : List Nat) (eoi : Bool) (dt : Option V) (log : Bool) :
    ∃ n n' res res',
      parseCore n (({ base with trap := true } : Cfg V).withRules wsR wordR (setupAll rs order)) start eoi { dt := dt, logOn := log } = .ok res ∧
      parseCore n' (({ base with trap := false } : Cfg V).withRules wsR wordR (setupAll rs order)) start eoi { dt := dt, logOn := log } =
        .ok res' ∧
      res'.ret = res.ret ∧ (res.ret = true → res'.len = res.len ∧ (base.recognizeOnly = false → res'.st.vs = res.st.vs)) ∧
      ∀ m e, parseCore m (({ base with trap := true } : Cfg V).withRules wsR wordR (setupAll rs order)) start eoi
        { dt := dt, logOn := log } ≠ .ub e := by
  obtain ⟨n, n', res, res', h1, h2, h3, -, h5⟩ :=
    same_result ((h.trap true).ready (s true) order) ((h.trap false).ready (s false) order) rfl eoi dt dt log log
  refine ⟨n, n', res, res', h1, h2, h3, fun a => ⟨(h5 a).1, fun b => (h5 a).2 b b⟩, ?_⟩
  intro m e he
  rcases Nat.le_total n m with hm | hm
  · rcases parseCore_le hm (({ base with trap := true } : Cfg V).withRules wsR wordR (setupAll rs order)) start eoi
      { dt := dt, logOn := log } with k | k
    · rw [h1] at k; cases k
    · rw [h1, he] at k; cases k
  · rcases parseCore_le hm (({ base with trap := true } : Cfg V).withRules wsR wordR (setupAll rs order)) start eoi
      { dt := dt, logOn := log } with k | k
    · rw [he] at k; cases k
    · rw [h1, he] at k; cases k

/-! ## C22, C27 -/

/-- **C22** for grammars accepted by the loader: every parse of every UTF-8 text finishes, with all annotations, with or without packrat
parsing. -/
theorem C22_accepted_terminates_partial (h : Accepted base wsR rs (fun _ => false) t sm gd M start) (s : Setup base wordR rs M start)
    (order : List Nat) (eoi : Bool) (dt : Option V) (log : Bool) :
    ∃ n res, parseCore n (base.withRules wsR wordR (setupAll rs order)) start eoi { dt := dt, logOn := log } = .ok res :=
  C22_certified_terminates_partial (h.ready s order) eoi dt log

/-- **C27** for grammars accepted by the loader: a parse with the annotations computed by the loader (in any order) gives the result of the
plain PEG semantics of the grammar as written. -/
theorem C27_accepted_is_plain_peg_partial (h : Accepted base wsR rs (fun _ => false) t sm gd M start) (s : Setup base wordR rs M start)
    (order : List Nat) (eoi : Bool) :
    ∃ x, PegParse (base.withRules wsR wordR rs).gram start eoi x ∧
      (∀ y, PegParse (base.withRules wsR wordR rs).gram start eoi y → y = x) ∧
      ∀ (dt : Option V) (log : Bool), ∃ n res,
        parseCore n (base.withRules wsR wordR (setupAll rs order)) start eoi { dt := dt, logOn := log } = .ok res ∧
        res.ret = x.isSome ∧ ∀ j f, x = some (j, f) → res.len = j ∧ (base.recognizeOnly = false → res.st.vs = f) :=
  C27_loaded_is_plain_peg_partial (h.loaded s.pack s.word s.calls s.slots s.text s.start) order eoi

end

/-! ## A concrete grammar

`Value <- Object / Array / String / Number   Object <- '{' (Pair (',' Pair)*)? '}'   Pair <- String ':' Value`
`Array <- '[' (Value (',' Value)*)? ']'   String <- < '"' (!'"' .)* '"' >   Number <- < [0-9]+ >   %whitespace <- [ \n]*` -/

def jsRules : List Def :=
  [{ name := [86], ope := .cho [.ref 1 [79] [], .ref 3 [65] [], .ref 4 [83] [], .ref 5 [78] []] false [] },
   { name := [79], ope := .seq [.lit [123] false, .rep (.seq [.ref 2 [80] [], .rep (.seq [.lit [44] false, .ref 2 [80] []] none) 0 none none] none)
      0 (some 1) none, .lit [125] false] none },
   { name := [80], ope := .seq [.ref 4 [83] [], .lit [58] false, .ref 0 [86] []] none },
   { name := [65], ope := .seq [.lit [91] false, .rep (.seq [.ref 0 [86] [], .rep (.seq [.lit [44] false, .ref 0 [86] []] none) 0 none none] none)
      0 (some 1) none, .lit [93] false] none },
   { name := [83], ope := .tok (.seq [.lit [34] false, .rep (.seq [.not_ (.lit [34] false), .dot] none) 0 none none, .lit [34] false] none) },
   { name := [78], ope := .tok (.rep (.cls ⟨[(48, 57)], false, false⟩) 1 none none) },
   { name := [37, 119], ope := .rep (.cls ⟨[(32, 32), (10, 10)], false, false⟩) 0 none none, ignoreSV := true }]

def jsBase (input : List Byte) : Cfg Nat := { input := input, rules := [] }

theorem forall_rules {rs : List Def} {P : Nat → Def → Prop} (h : ∀ x ∈ rs.zipIdx, P x.2 x.1) (r : Nat) (d : Def) (hd : rs[r]? = some d) :
    P r d := h (d, r) (List.mem_zipIdx_iff_getElem?.mpr hd)

/-- A rule from whose body no rule is referred to is not recursive. -/
theorem not_reach {rs : List Def} {r q : Nat} {d : Def} (hd : rs[r]? = some d) (hr : d.ope.refs = []) : ¬ Reach rs r q := by
  intro h
  induction h with
  | edge hd' hq => rw [hd] at hd'; cases hd'; rw [hr] at hq; cases hq
  | trans _ _ ih _ => exact ih hd

theorem jsAccepted (input : List Byte) : Accepted (jsBase input) (some 6) jsRules (fun _ => false) (· == 6) (fun _ => false)
    (fun _ => false) (fun _ _ => true) 0 where
  noLR := by
    have h : (List.range 7).all (fun r => !markedLR jsRules (· == 6) 7 r) = true := by decide +kernel
    intro r hr
    have h1 := List.all_eq_true.mp h r (List.mem_range.mpr hr)
    simp only [Bool.not_eq_true'] at h1
    exact h1
  noLoop := by decide +kernel
  noLoopWs := by intro w hw; cases hw; decide +kernel
  hyp := {
    fix := forall_rules (by decide +kernel)
    clean := forall_rules (P := fun _ d => _) (by decide +kernel)
    named := forall_rules (P := fun _ d => _) (by decide +kernel)
    inj := by
      intro r r' d d' h h' e
      have h0 : ∀ x ∈ jsRules.zipIdx, ∀ y ∈ jsRules.zipIdx, x.1.name = y.1.name → x.2 = y.2 := by decide +kernel
      exact h0 (d, r) (List.mem_zipIdx_iff_getElem?.mpr h) (d', r') (List.mem_zipIdx_iff_getElem?.mpr h') e
    nullRec := by
      intro r hr
      have : r = 6 := by simpa using hr
      subst this
      exact not_reach (d := jsRules[6]) rfl rfl
    simple := by intro r d _ h; cases h
    guarded := by intro r d _ h; cases h
    loops := forall_rules (P := fun _ d => _) (by decide +kernel) }
  last := forall_rules (P := fun _ d => _) (by decide +kernel)
  tame := forall_rules (P := fun _ d => d.ope.every (tameNode jsRules (· == 6) true false) = true) (by decide +kernel)
  plain := by
    have h : ∀ x ∈ jsRules, x.isMacro = false ∧ x.isLR = false ∧ x.noWs = false := by decide +kernel
    intro r d hd
    obtain ⟨h1, h2, h3⟩ := h d (List.mem_of_getElem? hd)
    exact ⟨h1, h2, fun h => by rw [h3] at h; cases h⟩
  used := by
    have e1 : Reach jsRules 0 1 := .edge (d := jsRules[0]) rfl (by decide +kernel)
    have e3 : Reach jsRules 0 3 := .edge (d := jsRules[0]) rfl (by decide +kernel)
    have e4 : Reach jsRules 0 4 := .edge (d := jsRules[0]) rfl (by decide +kernel)
    have e5 : Reach jsRules 0 5 := .edge (d := jsRules[0]) rfl (by decide +kernel)
    have e2 : Reach jsRules 1 2 := .edge (d := jsRules[1]) rfl (by decide +kernel)
    intro r hr
    have hr : r < 7 := hr
    rcases r with _ | _ | _ | _ | _ | _ | _ | r
    · exact .inl (.inl rfl)
    · exact .inl (.inr e1)
    · exact .inl (.inr (e1.trans e2))
    · exact .inl (.inr e3)
    · exact .inl (.inr e4)
    · exact .inl (.inr e5)
    · exact .inr ⟨6, rfl, .inl rfl⟩
    · omega
  modeStart := rfl
  modeRule := fun _ _ _ _ _ _ _ => rfl
  modeWs := fun _ _ _ _ _ _ => rfl
  modeUsed := fun _ _ => ⟨{}, rfl⟩

theorem jsSetup (input : List Byte) (ht : Text input) (b : Bool) :
    Setup { jsBase input with trap := b } none jsRules (fun _ _ => true) 0 where
  pack := fun h => by cases h
  word := by intro r d h; cases h
  calls := {
    user := fun _ _ _ _ => ⟨List.prefix_refl _, List.prefix_refl _, List.prefix_refl _, rfl⟩
    dt := ⟨fun r p h => (by cases h), fun r p h => (by cases h), fun r l h => (by cases h)⟩
    reco := fun h => by cases h }
  slots := slotsOk_of rfl
  text := ht
  start := by decide

/-- Every parse of every UTF-8 text with this grammar finishes, with first sets and span scans computed in any order. -/
example (input : List Byte) (ht : Text input) (order : List Nat) (eoi : Bool) :
    ∃ n res, parseCore n ((jsBase input).withRules (some 6) none (setupAll jsRules order)) 0 eoi {} = .ok res :=
  C22_accepted_terminates_partial (jsAccepted input) (jsSetup input ht false) order eoi none false

example (input : List Byte) (ht : Text input) (order : List Nat) (m : Nat) (e : String) :
    parseCore m (({ jsBase input with trap := true } : Cfg Nat).withRules (some 6) none (setupAll jsRules order)) 0 true {} ≠ .ub e := by
  obtain ⟨_, _, _, _, _, _, _, _, h⟩ := C31_guard_unused_partial (jsAccepted input) (jsSetup input ht) order true none false
  exact h m e

/-- `{"a" : [1, 2]}` is accepted. -/
example : (match parseCore 60 ((jsBase [123, 34, 97, 34, 32, 58, 32, 91, 49, 44, 32, 50, 93, 125]).withRules (some 6) none
    (setupAll jsRules [3, 1, 0, 2, 6, 5, 4])) 0 true {} with
    | .ok res => some (res.ret, res.len)
    | _ => none) = some (true, 14) := by decide +kernel

/-- The entry theorem applies, too. -/
example (input : List Byte) (r : Nat) (d : Def) (hd : jsRules[r]? = some d) (i : Nat) (hi : Bdry input i) (hil : i ≤ input.length) :
    ¬ Enters ((jsBase input).withRules (some 6) none jsRules) (utf8Lg ((jsBase input).withRules (some 6) none jsRules) false).K (.ope d.ope) i r i := by
  have A := jsAccepted input
  refine C31_not_entered_again_partial (t := (· == 6)) false ?_ ?_ ⟨A.hyp.fix, A.hyp.clean, A.hyp.named, A.last⟩ ?_ ?_ hd
    (A.noLR r (List.getElem?_eq_some_iff.mp hd).1) hi hil
  · exact {
      check := by
        have h : derCheck (utf8Node false) ((jsBase []).withRules (some 6) none jsRules) = true := by decide +kernel
        exact h
      slots := by intro h; cases h
      user := fun _ _ _ _ => ⟨List.prefix_refl _, List.prefix_refl _, List.prefix_refl _, rfl⟩ }
  · intro id i f dt k _ h; cases h
  · intro _
    have h : ∀ x ∈ jsRules, x.ope.every (noEarlySkip (· == 6)) = true ∧ x.noWs = false := by decide +kernel
    intro r d hd
    obtain ⟨h1, h2⟩ := h d (List.mem_of_getElem? hd)
    exact ⟨h1, fun h => by rw [h2] at h; cases h⟩
  · intro e he
    cases he
    decide +kernel

/-- And the one on repetitions. -/
example (input : List Byte) (e : Ope) (mn : Nat) (sp : Option CharClass.Cls) (he : .rep e mn none sp ∈ jsRules[4].ope.nodes) (i : Nat)
    (hi : Bdry input i) (hil : i ≤ input.length) (f f' : Frame Nat) :
    ¬ Der ((jsBase input).withRules (some 6) none jsRules) (utf8Lg ((jsBase input).withRules (some 6) none jsRules) false).K {} (.ope e)
      i f i f' := by
  refine C30_no_empty_iteration_partial (d := jsRules[4]) false ?_ ?_ (jsAccepted input).hyp (jsAccepted input).noLoop
    (r := 4) (.inr (.edge (d := jsRules[0]) rfl (by decide +kernel))) rfl he hi hil _ (by intro e he; cases he) f f'
  · exact {
      check := by
        have h : derCheck (utf8Node false) ((jsBase []).withRules (some 6) none jsRules) = true := by decide +kernel
        exact h
      slots := by intro h; cases h
      user := fun _ _ _ _ => ⟨List.prefix_refl _, List.prefix_refl _, List.prefix_refl _, rfl⟩ }
  · intro id i f dt k _ h; cases h

/-! ## Where the checks are wrong -/

section
variable {cfg : Cfg V}

/-- `e` matches the empty string at `i`, in every state. -/
def Stays (cfg : Cfg V) (e : Ope) (i : Nat) : Prop :=
  ∀ n st, run n cfg (.ope e) i st = .oof ∨ ∃ st', run n cfg (.ope e) i st = .ok (some i, st')

/-- Evaluating `e` at `i` does not end. -/
def Hangs (cfg : Cfg V) (e : Ope) (i : Nat) : Prop := ∀ n st, run n cfg (.ope e) i st = .oof

theorem Stays.forever {e : Ope} {i : Nat} (h : Stays cfg e i) : ∀ n c st, run n cfg (.rep e none c) i st = .oof
  | 0, _, _ => rfl
  | n + 1, c, st => by
    show repRound (run n) cfg e none c i st = .oof
    unfold repRound
    simp only [Option.all_none, if_true]
    rcases h n st with h' | ⟨st', h'⟩
    · rw [h']; rfl
    · rw [h']; exact Stays.forever h n (c + 1) st'

theorem Stays.hangs {e : Ope} (h : Stays cfg e 0) : Hangs cfg (.rep e 0 none none) 0
  | 0, _ => rfl
  | n + 1, st => by
    show parseRep (run n) cfg e 0 none none 0 st = .oof
    exact h.forever n 0 st

theorem Hangs.rep {e : Ope} (h : Hangs cfg e 0) : Hangs cfg (.rep e 0 none none) 0
  | 0, _ => rfl
  | 1, _ => rfl
  | n + 2, st => by
    show parseRep (run (n + 1)) cfg e 0 none none 0 st = .oof
    show repRound (run n) cfg e none 0 0 st = .oof
    unfold repRound
    simp only [Option.all_none, if_true]
    rw [h n st]; rfl

theorem Hangs.head {e : Ope} {es : List Ope} (h : Hangs cfg e 0) : Hangs cfg (.seq (e :: es) none) 0
  | 0, _ => rfl
  | n + 1, st => by
    show seqLoop (run n) cfg (e :: es) 0 st = .oof
    unfold seqLoop
    rw [h n st]; rfl

theorem stays_nil : Stays cfg (.seq [] none) 0
  | 0, _ => .inl rfl
  | _ + 1, st => .inr ⟨st, rfl⟩

theorem stays_cut : Stays cfg .cut 0
  | 0, _ => .inl rfl
  | _ + 1, _ => .inr ⟨_, rfl⟩

/-- The literal `s` is not there. -/
theorem lit_fails {s : List Byte} (h : litMatch s false (cfg.rest 0) = false) (n : Nat) (st : St V) :
    ∃ st', run (n + 1) cfg (.ope (.lit s false)) 0 st = .ok (none, st') ∧ st'.cut = st.cut := by
  refine ⟨setErr cfg st 0 (some (.lit s)), ?_, ?_⟩
  · show parseLiteral (run n) cfg s false (.lit s) 0 st = _
    unfold parseLiteral
    rw [h]; rfl
  · unfold setErr; split <;> rfl

theorem stays_opt {s : List Byte} (h : litMatch s false (cfg.rest 0) = false) :
    Stays cfg (.rep (.lit s false) 0 (some 1) none) 0
  | 0, _ => .inl rfl
  | 1, _ => .inl rfl
  | 2, _ => .inl rfl
  | n + 3, st => by
    right
    obtain ⟨st', h', -⟩ := lit_fails h n st
    refine ⟨st'.rollback st.snapshot, ?_⟩
    show repRound (run (n + 1)) cfg (.lit s false) (some 1) 0 0 st = _
    unfold repRound
    rw [if_pos (by decide)]
    simp only [h']
    rfl

/-- The first alternative is a literal that is not there; the second one hangs. -/
theorem Hangs.second {s : List Byte} {e : Ope} {es : List Ope} (h : litMatch s false (cfg.rest 0) = false)
    (hh : Hangs cfg e 0) (hc : cfg.hasCut = true) : Hangs cfg (.cho (.lit s false :: e :: es) false []) 0
  | 0, _ => rfl
  | 1, _ => rfl
  | n + 2, st => by
    show parseCho (run (n + 1)) cfg _ false [] 0 st = .oof
    unfold parseCho
    simp only [hc, Bool.not_false, Bool.and_true]
    obtain ⟨st', h', hcut⟩ := lit_fails h n ((resetCut cfg (pushCut true st)).setKeep false)
    have hz : st'.cut.headD false = false := by
      rw [hcut]
      simp [resetCut, hc, St.setCut, pushCut, St.setKeep]
    unfold choLoop
    simp only [fsSkip, List.getElem?_nil, Bool.false_eq_true, if_false]
    rw [show (decide (0 > 0)) = false from rfl, h']
    simp only [Out.bind]
    rw [if_neg (by simp [hc, St.rollback]; simpa using hz)]
    unfold choLoop
    simp only [fsSkip, List.getElem?_nil, Bool.false_eq_true, if_false]
    rw [hh]
    rfl

end

/-- A grammar (one rule) that the loader accepts without marking its rule, and a text on which parsing does not end. -/
def HangsAccepted (rules : List Def) (input : List Byte) : Prop :=
  infiniteLoop rules rules.length 0 = false ∧ (∃ t, Computed rules t ∧ markedLR rules t rules.length 0 = false) ∧
    ∀ n eoi, parseCore n ({ input := input, rules := rules } : Cfg Nat) 0 eoi {} = .oof

theorem hangs_of {d : Def} {input : List Byte} (hm : d.isMacro = false) (hl : d.isLR = false) (hn : d.noWs = false)
    (h1 : infiniteLoop [d] 1 0 = false)
    (h2 : ((cbeLoop [d] [0] 2 fun _ => false).map fun t => markedLR [d] t 1 0) = some false)
    (h : Hangs ({ input := input, rules := [d] } : Cfg Nat) d.ope 0) : HangsAccepted [d] input := by
  refine ⟨h1, ?_, ?_⟩
  · rw [Option.map_eq_some_iff] at h2
    obtain ⟨t, ht, ht'⟩ := h2
    exact ⟨t, ⟨_, _, fun r hr => by simpa using hr, ht⟩, ht'⟩
  · intro n eoi
    cases n with
    | zero => rfl
    | succ n =>
      unfold parseCore
      simp only [Out.bind]
      have : run (n + 1) ({ input := input, rules := [d] } : Cfg Nat) (.hold 0) 0 {} = .oof := by
        show holder (run n) ({ input := input, rules := [d] } : Cfg Nat) 0 0 {} = .oof
        unfold holder
        simp only [List.getElem?_cons_zero, hm, hl, Bool.false_eq_true, if_false, Bool.false_and]
        simp only [guarded, Bool.false_eq_true, if_false, List.lookup_nil, Option.isSome_none, doParse, opeBody, hn]
        rw [h n]
        rfl
      rw [this]

/-- **C30 and C22 fail in general**: `S <- ()*`, `S <- (↑)*`, `S <- (('a'?)* 'b')*`, `S <- ('x' / ('a'?)* 'y')*` are accepted, and
parsing the empty text does not end. -/
theorem C30_accepted_but_hangs :
    HangsAccepted [{ name := [83], ope := .rep (.seq [] none) 0 none none }] [] ∧
    HangsAccepted [{ name := [83], ope := .rep .cut 0 none none }] [] ∧
    HangsAccepted [{ name := [83], ope := .rep (.seq [.rep (.rep (.lit [97] false) 0 (some 1) none) 0 none none, .lit [98] false] none) 0 none none }] [] ∧
    HangsAccepted [{ name := [83], ope := .rep (.cho [.lit [120] false,
      .seq [.rep (.rep (.lit [97] false) 0 (some 1) none) 0 none none, .lit [121] false] none] false []) 0 none none }] [] := by
  refine ⟨hangs_of rfl rfl rfl (by decide +kernel) (by decide +kernel) stays_nil.hangs,
    hangs_of rfl rfl rfl (by decide +kernel) (by decide +kernel) stays_cut.hangs,
    hangs_of rfl rfl rfl (by decide +kernel) (by decide +kernel) (Hangs.rep (Hangs.head (stays_opt rfl).hangs)),
    hangs_of rfl rfl rfl (by decide +kernel) (by decide +kernel) (Hangs.rep (Hangs.second rfl (Hangs.head (stays_opt rfl).hangs) rfl))⟩

theorem C22_accepted_but_hangs : ∃ rules input, HangsAccepted rules input := ⟨_, _, C30_accepted_but_hangs.1⟩

/-- A grammar (one rule) that the loader accepts without marking its rule, and a text on which this rule is entered again at the same position
while it is evaluated. -/
def ReentersUnmarked (rules : List Def) (input : List Byte) : Prop :=
  infiniteLoop rules rules.length 0 = false ∧ (∃ t, Computed rules t ∧ markedLR rules t rules.length 0 = false) ∧
    ∃ n, parseCore n ({ input := input, rules := rules, trap := true } : Cfg Nat) 0 true {} = .ub "rule entered again at the same position"

theorem reenters_of {d : Def} {input : List Byte} (h1 : infiniteLoop [d] 1 0 = false)
    (h2 : ((cbeLoop [d] [0] 3 fun _ => false).map fun t => markedLR [d] t 1 0) = some false)
    (h : (match parseCore 20 ({ input := input, rules := [d], trap := true } : Cfg Nat) 0 true {} with
      | .ub e => e == "rule entered again at the same position"
      | _ => false) = true) : ReentersUnmarked [d] input := by
  refine ⟨h1, ?_, 20, ?_⟩
  · rw [Option.map_eq_some_iff] at h2
    obtain ⟨t, ht, ht'⟩ := h2
    exact ⟨t, ⟨_, _, fun r hr => by simpa using hr, ht⟩, ht'⟩
  · cases hp : parseCore 20 ({ input := input, rules := [d], trap := true } : Cfg Nat) 0 true {} with
    | ub e => rw [hp] at h; rw [beq_iff_eq.mp h]
    | _ => rw [hp] at h; cases h

/-- **C31 fails in general**: `S <- ('' / 'x') S / 'y'`, `S <- ('a'?){2} S / 'y'` and `S <- ↑ S / 'y'` are not marked left-recursive, but `S` is entered
again at position 0 while it is evaluated there. -/
theorem C31_unmarked_but_reentered :
    ReentersUnmarked [{ name := [83], ope := .cho [.seq [.cho [.lit [] false, .lit [120] false] false [], .ref 0 [83] []] none, .lit [121] false] false [] }] [121] ∧
    ReentersUnmarked [{ name := [83], ope := .cho [.seq [.rep (.rep (.lit [97] false) 0 (some 1) none) 2 (some 2) none, .ref 0 [83] []] none, .lit [121] false] false [] }] [121] ∧
    ReentersUnmarked [{ name := [83], ope := .cho [.seq [.cut, .ref 0 [83] []] none, .lit [121] false] false [] }] [121] :=
  ⟨reenters_of (by decide +kernel) (by decide +kernel) (by decide +kernel),
    reenters_of (by decide +kernel) (by decide +kernel) (by decide +kernel),
    reenters_of (by decide +kernel) (by decide +kernel) (by decide +kernel)⟩

/-! ## A left-recursive rule that does not end -/

/-- Sample, in the model of the loaded grammar (4101-4138, 1591-1649): `A / 'x'`. -/
def starBody : Ope := .cho [.ref 0 [65] [], .lit [120] false] false []
/-- Sample: the rule `A <- (A / 'x')*`. -/
def starRule : Def := { name := [65], ope := .rep starBody 0 none none, isLR := true }
/-- Sample: the parser with this rule only. -/
def starCfg (input : List Byte) : Cfg Nat := { input := input, rules := [starRule] }

theorem star_hold (inp : List Byte) (v : Option Nat) (n : Nat) (st : St Nat) (h : st.lrMemo.lookup (0, 0, 0) = some (some (0, v)))
    (ha : st.args.head? = some ([], 0)) :
    ∃ st', run (n + 1) (starCfg inp) (.hold 0) 0 st = .ok (some 0, st') ∧ st'.lrMemo = st.lrMemo := by
  refine ⟨emplace (starCfg inp) starRule v { st with lrRefs := setInsert (0, 0) st.lrRefs }, ?_, ?_⟩
  · show holder (run n) (starCfg inp) 0 0 st = _
    show lrHold (run n) (starCfg inp) 0 starRule 0 st = _
    unfold lrHold
    cases hs : st.args with
    | nil => rw [hs] at ha; cases ha
    | cons a as =>
      rw [hs] at ha
      obtain rfl : a = ([], 0) := by simpa using ha
      simp only [h]
  · unfold emplace; split <;> rfl

theorem star_round (inp : List Byte) (v : Option Nat) (n : Nat) (st : St Nat) (h : st.lrMemo.lookup (0, 0, 0) = some (some (0, v))) :
    ∃ st', run (n + 3) (starCfg inp) (.ope starBody) 0 st = .ok (some 0, st') ∧ st'.lrMemo.lookup (0, 0, 0) = some (some (0, v)) := by
  let s0 := (resetCut (starCfg inp) (pushCut true st)).setKeep false
  have hs0 : s0.lrMemo = st.lrMemo := rfl
  obtain ⟨s1, h1, h2⟩ := star_hold inp v n { s0 with args := ([], 0) :: s0.args } h rfl
  refine ⟨choExit true { s1 with args := s1.args.tail, vs := { s1.vs with choiceCount := 2, choice := 0 } }, ?_, ?_⟩
  · show parseCho (run (n + 2)) (starCfg inp) [.ref 0 [65] [], .lit [120] false] false [] 0 st = _
    unfold parseCho
    simp only [show (starCfg inp).hasCut = true from rfl, Bool.not_false, Bool.and_true]
    unfold choLoop
    simp only [fsSkip, List.getElem?_nil, Bool.false_eq_true, if_false]
    have hr : run (n + 2) (starCfg inp) (.ope (.ref 0 [65] [])) 0 s0 = .ok (some 0, { s1 with args := s1.args.tail }) := by
      show withArgs s0 ([], 0) (fun st => run (n + 1) (starCfg inp) (.hold 0) 0 st) = _
      unfold withArgs
      show (run (n + 1) (starCfg inp) (.hold 0) 0 { s0 with args := ([], 0) :: s0.args } |> after) _ = _
      rw [h1]; rfl
    rw [show (decide (0 > 0)) = false from rfl, hr]
    rfl
  · show s1.lrMemo.lookup _ = _
    rw [h2]; exact h

theorem star_forever (inp : List Byte) (v : Option Nat) : ∀ n c (st : St Nat), st.lrMemo.lookup (0, 0, 0) = some (some (0, v)) →
    run n (starCfg inp) (.rep starBody none c) 0 st = .oof
  | 0, _, _, _ => rfl
  | n + 1, c, st, h => by
    show repRound (run n) (starCfg inp) starBody none c 0 st = .oof
    unfold repRound
    simp only [Option.all_none, if_true]
    by_cases hp : run n (starCfg inp) (.ope starBody) 0 st = .oof
    · rw [hp]; rfl
    · obtain ⟨s1, h1, h2⟩ := star_round inp v n st h
      have := run_unique (n := n) (m := n + 3) hp (by rw [h1]; simp)
      rw [this, h1]
      exact star_forever inp v n (c + 1) s1 h2

theorem star_body (inp : List Byte) (v : Option Nat) : ∀ n (st : St Nat), st.lrMemo.lookup (0, 0, 0) = some (some (0, v)) →
    run n (starCfg inp) (.ope starRule.ope) 0 st = .oof
  | 0, _, _ => rfl
  | n + 1, st, h => by
    show parseRep (run n) (starCfg inp) starBody 0 none none 0 st = .oof
    exact star_forever inp v n 0 st h

theorem star_again (inp : List Byte) (v : Option Nat) (n : Nat) (cyc : List (Nat × Nat)) (st : St Nat)
    (h : st.lrMemo = [((0, 0, 0), some (0, v))]) : run n (starCfg inp) (.grow 0 0 cyc 0 v) 0 st = .oof := by
  match n with
  | 0 => rfl
  | n + 1 =>
    show growRound (run n) (starCfg inp) 0 0 cyc 0 v 0 st = .oof
    unfold growRound
    simp only [show (starCfg inp).rules[0]? = some starRule from rfl]
    unfold doParse opeBody
    simp only [show starRule.noWs = false from rfl, Bool.false_eq_true, if_false]
    rw [star_body inp v n _ (by
      show List.lookup _ (List.filter _ st.lrMemo) = _
      rw [h]; simp)]
    rfl

/-- The state in which the body of `A` is parsed for the first time (3943-3948). -/
def starInit : St Nat :=
  { lrMemo := [((0, 0, 0), none)], lrActive := [(0, 0, 0)], lrRefs := [] }

/-- The state after the first, empty match of the body. -/
def starFirst : St Nat :=
  match run 20 (starCfg []) (.ope starRule.ope) 0 starInit with
  | .ok x => x.2
  | _ => {}

theorem star_first : run 20 (starCfg []) (.ope starRule.ope) 0 starInit = .ok (some 0, starFirst) := rfl

theorem star_hangs (n : Nat) (eoi : Bool) : parseCore n (starCfg []) 0 eoi {} = .oof := by
  match n with
  | 0 => rfl
  | n + 1 =>
    unfold parseCore
    simp only [Out.bind]
    have : run (n + 1) (starCfg []) (.hold 0) 0 {} = .oof := by
      show lrHold (run n) (starCfg []) 0 starRule 0 {} = .oof
      unfold lrHold doParse opeBody
      simp only [show starRule.noWs = false from rfl, Bool.false_eq_true, if_false]
      show ((after (run n (starCfg []) (.ope starRule.ope) 0 starInit) _).bind _).bind _ = _
      by_cases hp : run n (starCfg []) (.ope starRule.ope) 0 starInit = .oof
      · rw [hp]; rfl
      · rw [run_unique (n := n) (m := 20) hp (by rw [star_first]; simp), star_first]
        show run n (starCfg []) (.grow 0 0 _ 0 _) 0 _ = .oof
        exact star_again [] _ n _ _ rfl
    simp only [show (starCfg []).ws = none from rfl]
    rw [this]

/-- **C22 and C30 fail in general, also for left recursion**: `A <- (A / 'x')*` is accepted and marked as left-recursive, and parsing the
empty text does not end: once `A` has matched nothing, the repetition takes this match again and again. -/
theorem C22_left_recursive_hangs :
    infiniteLoop [starRule] 1 0 = false ∧ (∃ t, Computed [starRule] t ∧ markedLR [starRule] t 1 0 = true) ∧
      ∀ n eoi, parseCore n ({ input := [], rules := [starRule] } : Cfg Nat) 0 eoi {} = .oof := by
  refine ⟨by decide +kernel, ?_, fun n eoi => star_hangs n eoi⟩
  have h2 : ((cbeLoop [starRule] [0] 3 fun _ => false).map fun t => markedLR [starRule] t 1 0) = some true := by decide +kernel
  rw [Option.map_eq_some_iff] at h2
  obtain ⟨t, ht, ht'⟩ := h2
  exact ⟨t, ⟨_, _, fun r hr => by simpa using hr, ht⟩, ht'⟩

end Verif.Props
