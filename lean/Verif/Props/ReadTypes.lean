import Verif.MetaChars
import Verif.Captures
import Verif.Props.Read
import Verif.Props.Link
/-!
# Properties: what reading can give (C54)

Specification: `Regular` and `GoodDef` (`MetaType.lean`), the form of definitions; `ShortEscapes` (`MetaChars.lean`), a condition on the bytes of
the text.
-/

namespace Verif.Meta
open Verif Utf8

/-- peglib.h 6176-6470, 6820-6828, 6970-6975: reading a text and loading what was read; `packrat`: whether `enable_packrat_parsing` is called.
Not modelled: rules passed by the user. -/
def loadText (fuel : Nat) (metaOrder : List Nat) (mark loops : List Def → Nat → Bool) (order : List Nat) (text : List Byte)
    (start : Option (List Byte)) (packrat leftRec : Bool) : Out (Option (Parser × Nat)) :=
  (readText fuel metaOrder text).bind fun r =>
    match r with
    | .refused => .ok none
    | .crash _ => .ub "reading the grammar"
    | .defs ds => if dupInstr ds || undefBref ds then .ok none else load mark loops order (toSource ds start (packrat && ownCaps ds) leftRec)

/-! ## Regular expressions -/

theorem recovsL_of : ∀ (es : List Src), (∀ e ∈ es, e.recovs = true) → Src.recovsL es = true
  | [], _ => rfl
  | e :: es, h => by
    simp only [Src.recovsL, Bool.and_eq_true]
    exact ⟨h e (by simp), recovsL_of es fun e' h' => h e' (by simp [h'])⟩

theorem Regular.recovs {e : Src} (h : Regular e) : e.recovs = true := by
  induction h with
  | seq _ _ ih => exact recovsL_of _ ih
  | cho _ _ ih => exact recovsL_of _ ih
  | label h ih => simp [Src.recovs, Src.recovsL, ih]
  | rep h _ _ ih => exact ih
  | and_ h ih => exact ih
  | not_ h ih => exact ih
  | capScope h ih => exact ih
  | cap h ih => exact ih
  | tok h ih => exact ih
  | call h1 h2 h3 ih => exact recovsL_of _ ih
  | recov => simp [Src.recovs, Src.recovsL]
  | recovCall h1 h2 ih => simp [Src.recovs, recovsL_of _ ih]
  | ign h1 h ih => exact ih
  | _ => rfl

theorem applyInstr_head (is : List Instr) : ∀ d : Def, (is.foldl applyInstr d).isMacro = d.isMacro ∧ (is.foldl applyInstr d).params = d.params ∧
    (is.foldl applyInstr d).name = d.name ∧ (is.foldl applyInstr d).ignoreSV = d.ignoreSV := by
  induction is with
  | nil => intro d; exact ⟨rfl, rfl, rfl, rfl⟩
  | cons i is ih =>
    intro d
    have h := ih (applyInstr d i)
    have h' : (applyInstr d i).isMacro = d.isMacro ∧ (applyInstr d i).params = d.params ∧ (applyInstr d i).name = d.name ∧
        (applyInstr d i).ignoreSV = d.ignoreSV := by
      cases i <;> exact ⟨rfl, rfl, rfl, rfl⟩
    exact ⟨h.1.trans h'.1, h.2.1.trans h'.2.1, h.2.2.1.trans h'.2.2.1, h.2.2.2.trans h'.2.2.2⟩

theorem toSDef_head (d : RDef) : d.toSDef.head.isMacro = d.params.isSome ∧ d.toSDef.head.params = d.params.getD [] ∧ d.toSDef.head.name = d.name ∧
    d.toSDef.head.ignoreSV = d.ign := applyInstr_head d.instrs _

/-- What is read is well-formed, unless a parameter is called `%recover`. -/
theorem toSource_wf {ds : List RDef} (h : ∀ d ∈ ds, GoodDef d) (hp : ∀ d ∈ ds, ∀ ps, d.params = some ps → recoverName ∉ ps)
    (start : Option (List Byte)) (packrat leftRec : Bool) : (toSource ds start packrat leftRec).Wf where
  recovs := by
    intro d hd
    obtain ⟨r, hr, rfl⟩ := List.mem_map.mp hd
    exact (h r hr).body.recovs
  names := by
    intro d hd
    obtain ⟨r, hr, rfl⟩ := List.mem_map.mp hd
    rw [(toSDef_head r).2.1]
    cases hs : r.params with
    | none => simp
    | some ps => exact hp r hr ps hs
  plain := by
    intro d hd hm
    obtain ⟨r, hr, rfl⟩ := List.mem_map.mp hd
    rw [(toSDef_head r).1] at hm
    rw [(toSDef_head r).2.1]
    cases hs : r.params with
    | none => rfl
    | some ps => rw [hs] at hm; cases hm

end Verif.Meta

namespace Verif.Props
open Verif Meta Utf8

/-- What the values of the start rule can be. -/
theorem verdict_typed {text : List Byte} (ht : Text text) {x : Option (Nat × Frame MV)} (hx : PegParse (MG text) rGrammar true x) :
    verdict x = .refused ∨ (verdict x = .crash .ub ∧ ¬ ShortEscapes text) ∨ ∃ ds, verdict x = .defs ds ∧ ds ≠ [] ∧ ∀ d ∈ ds, GoodDef d := by
  cases hx with
  | noSkip h => exact .inl rfl
  | noRule h1 h2 => exact .inl rfl
  | rest h1 h2 h3 h4 => exact .inl rfl
  | @ok i c s j c' s' h1 h2 h3 =>
    have h0 : s = {} := by
      generalize ho : PTask.skip = o at h1
      generalize hr : PRes.ok i c s = y at h1
      cases h1 <;> cases ho
      case skip_tok h => cases h
      case skip_none => cases hr; rfl
      case skip_ws hw _ _ => cases hw
    subst h0
    obtain ⟨-, -, vs, tk, h4, h5, h6⟩ := peg_adds (known_rule ht) (typed_text ht) h2 rfl (show rGrammar < metaRules.length by decide) j c' s' rfl
    obtain ⟨v, rfl, h7⟩ : ∃ v, vs = [v] ∧ Has (¬ ShortEscapes text) rGrammar v := h6
    rw [show (({} : PSt MV)).vs.vals = [] from rfl, List.nil_append] at h4
    rcases h7 with ⟨b, rfl, hb⟩ | h7
    · rcases hb with rfl | ⟨rfl, hb⟩
      · left; simp [verdict, h4]
      · right; left; exact ⟨by simp [verdict, h4], hb⟩
    · obtain ⟨ds, rfl, h8, h9⟩ : ∃ ds, v = some (.defns ds) ∧ ds ≠ [] ∧ ∀ d ∈ ds, GoodDef d := h7
      right; right
      exact ⟨ds, by simp [verdict, h4], h8, h9⟩

/-- **C54** Reading a UTF-8 text gives a syntax error or definitions of the regular form.  The only other outcome is undefined behaviour, and only if
the text has an escape with too many digits: no exception of another type, no access outside a list. -/
theorem C54_reading_is_typed (text : List Byte) (ht : Text text) : ∃ r, ReadsAs text r ∧
    (r = .refused ∨ (r = .crash .ub ∧ ¬ ShortEscapes text) ∨ ∃ ds, r = .defs ds ∧ ds ≠ [] ∧ ∀ d ∈ ds, GoodDef d) := by
  obtain ⟨y, h1, -, -⟩ := C27_loaded_is_plain_peg_partial (meta_loaded text ht) [] true
  rw [metaBase_with] at h1
  exact ⟨_, reads_peg ht h1, verdict_typed ht h1⟩

/-- C54: without such escapes reading never crashes. -/
theorem C54_reading_never_crashes (text : List Byte) (ht : Text text) (hs : ShortEscapes text) :
    ReadsAs text .refused ∨ ∃ ds, ReadsAs text (.defs ds) ∧ ds ≠ [] ∧ ∀ d ∈ ds, GoodDef d := by
  obtain ⟨r, h, rfl | ⟨-, h'⟩ | ⟨ds, rfl, h'⟩⟩ := C54_reading_is_typed text ht
  · exact .inl h
  · exact absurd hs h'
  · exact .inr ⟨ds, h, h'⟩

/-- C54: what is read is regular. -/
theorem C54_read_is_regular {text : List Byte} (ht : Text text) {ds : List RDef} (h : ReadsAs text (.defs ds)) : ds ≠ [] ∧ ∀ d ∈ ds, GoodDef d := by
  obtain ⟨r, h', hr⟩ := C54_reading_is_typed text ht
  cases h.det h'
  rcases hr with h | ⟨h, -⟩ | ⟨ds', h, h'⟩
  · cases h
  · cases h
  · cases h; exact h'

/-- C54: the crashes there are. -/
theorem C54_crash_needs_long_escape {text : List Byte} (ht : Text text) {b : Bad} (h : ReadsAs text (.crash b)) : b = .ub ∧ ¬ ShortEscapes text := by
  obtain ⟨r, h', hr⟩ := C54_reading_is_typed text ht
  cases h.det h'
  rcases hr with h | ⟨h, hu⟩ | ⟨ds', h, -⟩
  · cases h
  · cases h; exact ⟨rfl, hu⟩
  · cases h

/-! ## From the text to the parser -/

theorem findIdx_none {α : Type} {p : α → Bool} : ∀ {l : List α}, l.findIdx? p = none → ∀ x ∈ l, p x = false := by
  intro l h x hx
  rw [List.findIdx?_eq_none_iff] at h
  exact h x hx

theorem load_ends {mark loops : List Def → Nat → Bool} {order : List Nat} {S : Source}
    (h : ∀ r, load mark loops order S ≠ .ok r) : S.startRule = some none := by
  unfold load at h
  by_cases h0 : ¬ (S.all.map (·.head.name)).Nodup
  · rw [if_pos h0] at h; exact absurd rfl (h none)
  rw [if_neg h0] at h
  cases hs : S.startRule with
  | none => rw [hs] at h; exact absurd rfl (h none)
  | some o =>
    cases o with
    | none => rfl
    | some a =>
      exfalso
      rw [hs] at h
      simp only at h
      generalize linkAll S.all = rs at h
      by_cases c1 : ((S.all[a]?).map (·.head.ignoreSV)).getD false = true
      · rw [if_pos c1] at h; exact h none rfl
      rw [if_neg c1] at h
      by_cases c2 : (!refsOk S.all) = true
      · rw [if_pos c2] at h; exact h none rfl
      rw [if_neg c2] at h
      by_cases c3 : (!S.leftRec && (List.range rs.length).any (mark rs)) = true
      · rw [if_pos c3] at h; exact h none rfl
      rw [if_neg c3] at h
      generalize (if S.leftRec = true then rs.mapIdx fun r d => ({ d with isLR := mark rs r } : Def) else rs) = rs1 at h
      by_cases c4 : loops rs1 a = true
      · rw [if_pos c4] at h; exact h none rfl
      rw [if_neg c4] at h
      generalize (if (ruleNamed S.all whitespaceName).isSome = true then rs1.map tokLit else rs1) = rs2 at h
      by_cases c5 : ((ruleNamed S.all whitespaceName).map (loops rs2)).getD false = true
      · rw [if_pos c5] at h; exact h none rfl
      rw [if_neg c5] at h
      by_cases c6 : ((ruleNamed S.all wordName).map (loops rs2)).getD false = true
      · rw [if_pos c6] at h; exact h none rfl
      rw [if_neg c6] at h
      cases hp : precAll S.prec 0 rs2 with
      | none => rw [hp] at h; exact h none rfl
      | some rs3 => rw [hp] at h; exact h _ rfl

/-- C54: loading a UTF-8 text without long escapes ends, with a refusal or a parser, unless the names of all its rules begin with `%` and no start
rule is requested. -/
theorem C54_loading_ends (mark loops : List Def → Nat → Bool) (metaOrder order : List Nat) (text : List Byte) (start : Option (List Byte))
    (packrat leftRec : Bool) (ht : Text text) (hs : ShortEscapes text) :
    ∃ n, ∀ m, n ≤ m → (∃ r, loadText m metaOrder mark loops order text start packrat leftRec = .ok r) ∨
      (start = none ∧ ∃ ds, ReadsAs text (.defs ds) ∧ ∀ d ∈ ds, d.name.head? = some 37) := by
  rcases C54_reading_never_crashes text ht hs with h | ⟨ds, h, -, -⟩
  · obtain ⟨n, hn⟩ := h metaOrder
    refine ⟨n, fun m hm => .inl ⟨none, ?_⟩⟩
    unfold loadText
    rw [hn m hm]; rfl
  · obtain ⟨n, hn⟩ := h metaOrder
    refine ⟨n, fun m hm => ?_⟩
    unfold loadText
    rw [hn m hm]
    simp only [Out.bind]
    by_cases hd : (dupInstr ds || undefBref ds) = true
    · rw [if_pos hd]; exact .inl ⟨none, rfl⟩
    rw [if_neg hd]
    by_cases hl : ∃ r, load mark loops order (toSource ds start (packrat && ownCaps ds) leftRec) = .ok r
    · exact .inl hl
    · right
      have := load_ends (fun r hr => hl ⟨r, hr⟩)
      unfold Source.startRule at this
      cases start with
      | some nm =>
        exfalso
        simp only [toSource] at this
        cases hr : ruleNamed (Source.all (toSource ds (some nm) (packrat && ownCaps ds) leftRec)) nm with
        | none => simp only [toSource] at hr; rw [hr] at this; cases this
        | some r => simp only [toSource] at hr; rw [hr] at this; cases this
      | none =>
        refine ⟨rfl, ds, h, fun d hd => ?_⟩
        have h1 : ((ds.map RDef.toSDef).findIdx? fun d => decide (d.head.name.head? ≠ some 37)) = none := by
          simpa [toSource] using this
        have h2 := findIdx_none h1 d.toSDef (List.mem_map_of_mem hd)
        rw [(toSDef_head d).2.2.1] at h2
        simpa using h2

theorem loadText_inv {text : List Byte} {m : Nat} {metaOrder : List Nat} {mark loops : List Def → Nat → Bool} {order : List Nat} {start : Option (List Byte)}
    {packrat leftRec : Bool} {G : Parser} {a : Nat} (ht : Text text)
    (h : loadText m metaOrder mark loops order text start packrat leftRec = .ok (some (G, a))) :
    ∃ ds, ReadsAs text (.defs ds) ∧ (dupInstr ds = false ∧ undefBref ds = false) ∧
      load mark loops order (toSource ds start (packrat && ownCaps ds) leftRec) = .ok (some (G, a)) := by
  unfold loadText at h
  cases hr : readText m metaOrder text with
  | ub s => rw [hr] at h; cases h
  | oof => rw [hr] at h; cases h
  | ok r =>
    rw [hr] at h
    simp only [Out.bind] at h
    obtain ⟨r', h', -⟩ := C52_reading_ends text ht
    have e : r = r' := by
      obtain ⟨n, hn⟩ := h' metaOrder
      have h1 := hn (max n m) (Nat.le_max_left _ _)
      unfold readText at h1 hr
      rcases parseCore_le (Nat.le_max_right n m) (metaCfg metaOrder text) rGrammar true {} with h | h
      · rw [h] at hr; cases hr
      · rw [← h, hr] at h1; cases h1; rfl
    subst e
    cases r with
    | refused => cases h
    | crash b => cases h
    | defs ds =>
      simp only at h
      by_cases hd : (dupInstr ds || undefBref ds) = true
      · rw [if_pos hd] at h; cases h
      · rw [if_neg hd] at h
        exact ⟨ds, h', by simpa using hd, h⟩

/-- C54: every reference in a UTF-8 text that loads (no parameter being called `%recover`) resolves, to a parameter, or to a rule or macro with as
many parameters as arguments are given; and the result depends on the text only. -/
theorem C54_loaded_text_resolves {text : List Byte} {m : Nat} {metaOrder : List Nat} {mark loops : List Def → Nat → Bool} {order : List Nat}
    {start : Option (List Byte)} {packrat leftRec : Bool} {G : Parser} {a : Nat} (ht : Text text)
    (h : loadText m metaOrder mark loops order text start packrat leftRec = .ok (some (G, a))) :
    ∃ ds, ReadsAs text (.defs ds) ∧ ((∀ d ∈ ds, ∀ ps, d.params = some ps → recoverName ∉ ps) →
      ∀ d ∈ ds, ∀ x ∈ d.body.refs (d.params.getD []), x.1 ∈ d.params.getD [] ∨ x = (recoverName, true, 1) ∨
        ∃ e ∈ ds, e.name = x.1 ∧ (e.params.map List.length = if x.2.1 then some x.2.2 else none)) := by
  obtain ⟨ds, h1, h2, h3⟩ := loadText_inv ht h
  refine ⟨ds, h1, fun hp d hd x hx => ?_⟩
  have hw := toSource_wf (C54_read_is_regular ht h1).2 hp start (packrat && ownCaps ds) leftRec
  have hm : d.toSDef ∈ (toSource ds start (packrat && ownCaps ds) leftRec).defs := List.mem_map_of_mem hd
  rcases C36_references_resolve_partial hw h3 d.toSDef hm x (by rw [(toSDef_head d).2.1]; exact hx) with h | ⟨e, he, h4, h5⟩
  · left; rw [(toSDef_head d).2.1] at h; exact h
  · right
    rcases List.mem_cons.mp he with rfl | he
    · left
      obtain ⟨x1, x2, x3⟩ := x
      obtain ⟨h6, h7⟩ : x2 = true ∧ x3 = 1 := h5
      have h8 : recoverName = x1 := h4
      rw [h6, h7, h8]
    · right
      obtain ⟨e', he', rfl⟩ := List.mem_map.mp he
      refine ⟨e', he', by rw [← h4, (toSDef_head e').2.2.1], ?_⟩
      rw [(toSDef_head e').1, (toSDef_head e').2.1] at h5
      cases hq : e'.params with
      | none => rw [hq] at h5; simp at h5; simp [h5]
      | some ps => rw [hq] at h5; simp at h5; simp [h5]

/-- C54: parsers made of UTF-8 texts without macros, labels and precedence instructions are safe: no parse of any text does anything undefined. -/
theorem C54_loaded_text_safe_partial {text : List Byte} {m : Nat} {metaOrder : List Nat} {mark loops : List Def → Nat → Bool} {order : List Nat}
    {start : Option (List Byte)} {packrat leftRec : Bool} {G : Parser} {a : Nat} (ht : Text text)
    (h : loadText m metaOrder mark loops order text start packrat leftRec = .ok (some (G, a))) {ds : List RDef} (hr : ReadsAs text (.defs ds))
    (hm : ∀ d ∈ ds, d.params = none ∧ d.body.simple = true ∧ d.precInfo = none)
    {V : Type} (F : List Nat → Nat → List Bool) (n k : Nat) (hist : List (Call V)) (c : Call V) (ha : c.start = a) (hh : ∀ x ∈ hist, x.start = a) :
    NoUb c.log (Shared.parse F G n (Shared.after F G k {} hist) c).1 := by
  obtain ⟨ds', h1, h2, h3⟩ := loadText_inv ht h
  cases hr.det h1
  refine C36_simple_grammar_safe_partial ⟨?_, ?_, ?_⟩ h3 F n k hist c ha hh
  · intro d hd
    obtain ⟨r, hr, rfl⟩ := List.mem_map.mp hd
    rw [(toSDef_head r).1, (toSDef_head r).2.1, (hm r hr).1]
    exact ⟨rfl, rfl⟩
  · intro d hd
    obtain ⟨r, hr, rfl⟩ := List.mem_map.mp hd
    exact (hm r hr).2.1
  · intro r
    show (ds[r - 1]?).bind _ = none
    cases hx : ds[r - 1]? with
    | none => rfl
    | some d =>
      have := (hm d (List.mem_of_getElem? hx)).2.2
      simp [this]

/-- C54: the same for UTF-8 texts with macros, labels, captures, cuts and precedence instructions (no parameter being called `%recover`), if the loaded
rules meet `Careful`, conditions which the loader does not check (see C36; each is shown necessary there). -/
theorem C54_careful_text_safe_partial {text : List Byte} {m : Nat} {metaOrder : List Nat} {mark loops : List Def → Nat → Bool} {order : List Nat}
    {start : Option (List Byte)} {packrat leftRec : Bool} {G : Parser} {a : Nat} (ht : Text text)
    (h : loadText m metaOrder mark loops order text start packrat leftRec = .ok (some (G, a))) {ds : List RDef} (hr : ReadsAs text (.defs ds))
    (hp : ∀ d ∈ ds, ∀ ps, d.params = some ps → recoverName ∉ ps) (hc : Careful false G a)
    {V : Type} (F : List Nat → Nat → List Bool) (n k : Nat) (hist : List (Call V)) (c : Call V) (ha : c.start = a) (hh : ∀ x ∈ hist, x.start = a) :
    NoUb c.log (Shared.parse F G n (Shared.after F G k {} hist) c).1 := by
  obtain ⟨ds', h1, h2, h3⟩ := loadText_inv ht h
  cases hr.det h1
  exact C36_careful_grammar_safe_partial (toSource_wf (C54_read_is_regular ht h1).2 hp start (packrat && ownCaps ds) leftRec) h3 hc F n k hist c ha hh
    (by intro h; cases h)

/-! ## Examples and counterexamples -/

theorem shortEscapes_of {text : List Byte} (h : (92 : Byte) ∉ text) : ShortEscapes text := by
  refine ⟨fun a u e => ?_, fun a u e => ?_⟩
  · rcases e with rfl | rfl <;> simp at h
  · subst e; simp at h

/-- A text with a macro, a label and a precedence instruction. -/
def c54macros : List Byte := txt "E <- A (O A)* { precedence L + }  A <- M('a')^b  M(x) <- x  O <- '+'  b <- 'z'"

def paramsFine : Out Read → Bool
  | .ok (.defs ds) => ds.all fun d => decide (recoverName ∉ d.params.getD [])
  | _ => false

/-- It loads and meets the conditions, so all its parses are safe. -/
theorem C54_careful_sample : ∃ G a, loadText 600 [] (fun _ _ => false) (fun _ _ => false) (List.range 6) c54macros none false true = .ok (some (G, a)) ∧
    G.rules.length = 6 ∧ ∀ {V : Type} (F : List Nat → Nat → List Bool) (n k : Nat) (hist : List (Call V)) (c : Call V), c.start = a → (∀ x ∈ hist, x.start = a) →
      NoUb c.log (Shared.parse F G n (Shared.after F G k {} hist) c).1 := by
  have hl : (match loadText 600 [] (fun _ _ => false) (fun _ _ => false) (List.range 6) c54macros none false true with
    | .ok (some (G, a)) => decide (G.rules.length = 6) && carefulAll G a
    | _ => false) = true := by decide +kernel
  have hp : paramsFine (readText 600 [] c54macros) = true := by decide +kernel
  have ht : Text c54macros := text_of_isText (by decide +kernel)
  cases hld : loadText 600 [] (fun _ _ => false) (fun _ _ => false) (List.range 6) c54macros none false true with
  | ub s => rw [hld] at hl; cases hl
  | oof => rw [hld] at hl; cases hl
  | ok o =>
    rw [hld] at hl
    cases o with
    | none => cases hl
    | some y =>
      obtain ⟨G, a⟩ := y
      simp only [Bool.and_eq_true, decide_eq_true_eq] at hl
      obtain ⟨ds, hr, -, -⟩ := loadText_inv ht hld
      have hread : readText 600 [] c54macros = .ok (.defs ds) := by
        cases hq : readText 600 [] c54macros with
        | ub s => rw [hq] at hp; cases hp
        | oof => rw [hq] at hp; cases hp
        | ok r =>
          obtain ⟨n, hn⟩ := hr []
          have h1 := hn (max n 600) (Nat.le_max_left _ _)
          unfold readText at h1 hq
          rcases parseCore_le (Nat.le_max_right n 600) (metaCfg [] c54macros) rGrammar true {} with h | h
          · rw [h] at hq; cases hq
          · rw [← h, hq] at h1; cases h1; rfl
      rw [hread] at hp
      refine ⟨G, a, rfl, hl.1, fun F n k hist c ha hh => C54_careful_text_safe_partial ht hld hr ?_ (carefulAll_ok hl.2) F n k hist c ha hh⟩
      intro d hd ps hs
      have := List.all_eq_true.1 hp d hd
      rw [hs] at this
      simpa using this

/-- A text that loads: hypotheses of `C54_reading_never_crashes`, `C54_loading_ends`, `C54_loaded_text_resolves` and `C54_loaded_text_safe_partial`. -/
abbrev c54text : List Byte := txt "S <- A (',' A)*  A <- [a-z]+"

/-- What the text defines. -/
def c54defs : List RDef :=
  [⟨false, txt "S", none, .seq [.ref (txt "A") false [], .rep (.seq [.lit (txt ",") false, .ref (txt "A") false []]) 0 none], []⟩,
   ⟨false, txt "A", none, .rep (.cls ⟨[(97, 122)], false, false⟩) 1 none, []⟩]

/-- Whether loading gave a parser. -/
def loaded (x : Out (Option (Parser × Nat))) : Bool := match x with | .ok (some _) => true | _ => false

theorem loaded_iff {x : Out (Option (Parser × Nat))} (h : loaded x = true) : ∃ p, x = .ok (some p) := by
  unfold loaded at h
  split at h
  · exact ⟨_, rfl⟩
  · cases h

/-- Whether loading dereferenced the missing operator. -/
def noStart (x : Out (Option (Parser × Nat))) : Bool := match x with | .ub s => s == "the start rule has no operator" | _ => false

theorem noStart_iff {x : Out (Option (Parser × Nat))} (h : noStart x = true) : x = .ub "the start rule has no operator" := by
  unfold noStart at h
  split at h
  · rw [eq_of_beq h]
  · cases h

theorem loadText_run {packrat : Bool} {n : Nat} {order : List Nat} {text : List Byte} {ds : List RDef} (h : readIs (readText n [] text) (.defs ds) = true)
    (hd : (!dupInstr ds && !undefBref ds && ownCaps ds) = true) :
    loadText n [] (fun _ _ => false) (fun _ _ => false) order text none packrat true =
      load (fun _ _ => false) (fun _ _ => false) order (toSource ds none packrat true) := by
  unfold loadText
  rw [readIs_eq h]
  simp only [Bool.and_eq_true, Bool.not_eq_true'] at hd
  simp only [Out.bind, hd, Bool.and_true]
  rfl

theorem C54_sample : Text c54text ∧ ShortEscapes c54text ∧ ReadsAs c54text (.defs c54defs) ∧ (∀ d ∈ c54defs, d.params = none ∧ d.body.simple = true ∧ d.precInfo = none) ∧
    ∃ p, loadText 400 [] (fun _ _ => false) (fun _ _ => false) (List.range 3) c54text none false true = .ok (some p) := by
  refine ⟨enc_text (str_scalar _), shortEscapes_of (by decide +kernel), readsAs_run (n := 400) (by decide +kernel), ?_, ?_⟩
  · intro d hd
    simp only [c54defs, List.mem_cons, List.not_mem_nil, or_false] at hd
    rcases hd with rfl | rfl <;> exact ⟨rfl, rfl, rfl⟩
  · rw [loadText_run (ds := c54defs) (by decide +kernel) (by decide +kernel)]
    exact loaded_iff (by decide +kernel)

/-- A text with a long escape crashes the reader (undefined: the number overflows `int`). -/
theorem C54_counterexample_long_escape : Text (txt "A <- '\\x123456789'") ∧ ReadsAs (txt "A <- '\\x123456789'") (.crash .ub) :=
  ⟨enc_text (str_scalar _), readsAs_run (n := 400) (by decide +kernel)⟩

/-- A text in which all names begin with `%`: the start rule is `grammar[""]`, which has no operator. -/
theorem C54_counterexample_no_start : loadText 400 [] (fun _ _ => false) (fun _ _ => false) [0, 1] (txt "%whitespace <- ' '") none false true =
    .ub "the start rule has no operator" := by
  rw [loadText_run (ds := [⟨false, txt "%whitespace", none, .lit (txt " ") false, []⟩]) (by decide +kernel) (by decide +kernel)]
  exact noStart_iff (by decide +kernel)

end Verif.Props
