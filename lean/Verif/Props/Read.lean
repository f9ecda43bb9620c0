import Verif.MetaDef
import Verif.MetaPrint
import Verif.SrcEq
import Verif.Props.FirstSet
/-!
# Properties: reading grammar texts (C52, C53)

`readText n order text`: the reader of peglib.h 5371-6133 on a text; `order` is the order in which its map of rules is iterated when the first
sets are set up.
-/

namespace Verif.Props
open Verif Meta Utf8

/-- Reading the text ends with `r`, however long it takes and whatever the order of the map of rules. -/
def ReadsAs (text : List Byte) (r : Read) : Prop := ∀ order, ∃ n, ∀ m, n ≤ m → readText m order text = .ok r

theorem readsAs_of {text : List Byte} {r : Read} (h : ∀ order, ∃ n, readText n order text = .ok r) : ReadsAs text r := by
  intro order
  obtain ⟨n, hn⟩ := h order
  refine ⟨n, fun m hm => ?_⟩
  unfold readText at hn ⊢
  rcases parseCore_le hm (metaCfg order text) rGrammar true {} with h | h
  · rw [h] at hn; cases hn
  · rw [← h]; exact hn

theorem ReadsAs.det {text : List Byte} {r r' : Read} (h : ReadsAs text r) (h' : ReadsAs text r') : r = r' := by
  obtain ⟨n, hn⟩ := h []
  obtain ⟨n', hn'⟩ := h' []
  have h1 := hn (max n n') (Nat.le_max_left _ _)
  have h2 := hn' (max n n') (Nat.le_max_right _ _)
  rw [h1] at h2
  cases h2; rfl

/-- What the values of the start rule mean. -/
def verdict (x : Option (Nat × Frame MV)) : Read :=
  match x with
  | none => .refused
  | some (_, f) =>
    match f.vals.head? with
    | some (some (.defns ds)) => .defs ds
    | some (some (.bad .syntaxErr)) => .refused
    | some (some (.bad b)) => .crash b
    | _ => .crash .cast

/-- Reading a UTF-8 text is parsing it with the bootstrap grammar as a PEG. -/
theorem reads_peg {text : List Byte} (ht : Text text) {x : Option (Nat × Frame MV)} (hx : PegParse (MG text) rGrammar true x) :
    ReadsAs text (verdict x) := by
  refine readsAs_of fun order => ?_
  obtain ⟨y, h1, h2, h3⟩ := C27_loaded_is_plain_peg_partial (meta_loaded text ht) order true
  rw [metaBase_with] at h1 h2
  cases h2 x hx
  obtain ⟨n, res, k1, k2, k3⟩ := h3 none false
  rw [metaBase_with] at k1
  refine ⟨n, ?_⟩
  unfold readText metaCfg
  rw [show (({} : St MV)) = { dt := none, logOn := false } from rfl, k1]
  simp only [Out.bind]
  cases x with
  | none => rw [k2]; rfl
  | some p =>
    obtain ⟨j, f⟩ := p
    rw [k2]
    rw [(k3 j f rfl).2 rfl]
    rfl

/-- **C52** Reading any UTF-8 text ends, with a result that depends on the text only. -/
theorem C52_reading_ends (text : List Byte) (ht : Text text) : ∃ r, ReadsAs text r ∧ ∀ r', ReadsAs text r' → r' = r := by
  obtain ⟨y, h1, -, -⟩ := C27_loaded_is_plain_peg_partial (meta_loaded text ht) [] true
  rw [metaBase_with] at h1
  exact ⟨_, reads_peg ht h1, fun r' h => h.det (reads_peg ht h1)⟩

theorem enc_text {t : Str} (h : ∀ c ∈ t, IsScalar c) : Text (enc t) := ⟨t, h, rfl⟩

/-- **C53** A text that is written as the notation prescribes is read as the definitions it writes. -/
theorem C53_written_is_read {ds : List RDef} {t : Str} (h : Written ds t) (ht : ∀ c ∈ t, IsScalar c) : ReadsAs (enc t) (.defs ds) := by
  have hm : Mt (enc t) (.ref rGrammar nGrammar []) (enc t) (enc []) [some (.defns ds)] [] := by
    have := Mt.rule (text := enc t) (nm := nGrammar) (r := rGrammar) (d := dGrammar) rfl rfl (grammar_body h ht)
    have hv : pushed dGrammar (rv (enc t) rGrammar (ds.map defV ++ [none]) [] (enc t) (enc []) 0) = [some (.defns ds)] := by
      show [some (valueOf (ds.map defV ++ [none]) (do .ok (.defns (← castAll asDefn (ds.map defV ++ [none]).dropLast))))] = _
      unfold valueOf
      rw [poison_defs, List.dropLast_concat, castAll_defs]
      rfl
    rw [hv] at this
    exact this
  obtain ⟨s', p, -, hv, -⟩ := hm {} {}
  have hp0 : pos (enc t) (enc t) = 0 := by simp [pos]
  rw [hp0] at p
  have hd : (MG (enc t)).rules[rGrammar]? = some dGrammar := rfl
  have hx : PegParse (MG (enc t)) rGrammar true (some (pos (enc t) (enc []), s'.vs)) := by
    refine .ok (c' := false) (.skip_none rfl) ?_ (fun _ => show (enc t).length ≤ (enc t).length - 0 from Nat.le_refl _)
    generalize PRes.ok (pos (enc t) (enc [])) false s' = y at p ⊢
    generalize ho : PTask.ope (.ref rGrammar nGrammar []) = o at p
    cases p <;> cases ho
    case ref h1 h2 h3 => exact h3
    case call h1 h2 h3 => rw [hd] at h2; cases h2; cases h1
    case one_ok h1 => cases h1
    case one_fail h1 => cases h1
  have := reads_peg (enc_text ht) hx
  rw [show verdict (some (pos (enc t) (enc []), s'.vs)) = .defs ds from by simp [verdict, hv]] at this
  exact this

/-- The notation is unambiguous. -/
theorem C53_notation_unambiguous {ds ds' : List RDef} {t : Str} (h : Written ds t) (h' : Written ds' t) (ht : ∀ c ∈ t, IsScalar c) : ds = ds' := by
  have := (C53_written_is_read h ht).det (C53_written_is_read h' ht)
  cases this; rfl

/-- Every list of definitions that are expressible in the notation can be written so that it is read back. -/
theorem C53_every_grammar_can_be_written {ds : List RDef} (h0 : ds ≠ []) (h : ∀ d ∈ ds, Printable d) :
    ∃ t : Str, (∀ c ∈ t, IsScalar c) ∧ ReadsAs (enc t) (.defs ds) := by
  obtain ⟨t, ht, hs⟩ := printable_written h0 h
  exact ⟨t, hs, C53_written_is_read ht hs⟩

/-! ## Examples and counterexamples -/

/-- The characters of a string. -/
def str (s : String) : Str := s.toList.map Char.toNat

/-- The bytes of a string. -/
abbrev txt (s : String) : List Byte := enc (str s)

theorem str_scalar (s : String) : ∀ c ∈ str s, IsScalar c := by
  intro c hc
  obtain ⟨x, -, rfl⟩ := List.mem_map.mp hc
  have := x.valid
  rcases this with h | ⟨h1, h2⟩
  · exact ⟨Nat.lt_of_lt_of_le h (by decide), fun h' => by have : x.toNat < 0xD800 := h; omega⟩
  · have h3 : 0xDFFF < x.toNat := h1
    have h4 : x.toNat < 0x110000 := h2
    exact ⟨h4, fun h' => by omega⟩

/-- One run with one order settles what reading a text gives. -/
theorem readsAs_run {s : String} {n : Nat} {r : Read} (h : readIs (readText n [] (txt s)) r = true) : ReadsAs (txt s) r := by
  obtain ⟨r', hr', -⟩ := C52_reading_ends (txt s) (enc_text (str_scalar s))
  obtain ⟨k, hk⟩ := hr' []
  have h1 := hk (max k n) (Nat.le_max_left _ _)
  have h2 := readIs_eq h
  have h3 : readText (max k n) [] (txt s) = .ok r := by
    unfold readText at h2 ⊢
    rcases parseCore_le (Nat.le_max_right k n) (metaCfg [] (txt s)) rGrammar true {} with h | h
    · rw [h] at h2; cases h2
    · rw [← h]; exact h2
  rw [h1] at h3
  cases h3
  exact hr'

/-- A macro for separated lists, and a rule with a class, a label, a token and instructions. -/
def sampleDefs : List RDef :=
  [⟨false, txt "S", none, .seq [.ref (txt "LIST") true [.ref (txt "N") false [], .lit (txt ",") false], .not_ .dot], []⟩,
   ⟨true, txt "LIST", some [txt "x", txt "d"], .seq [.ref (txt "x") false [], .rep (.seq [.ref (txt "d") false [], .ref (txt "x") false []]) 0 none], []⟩,
   ⟨false, txt "N", none, labelled (.tok (.rep (.cls ⟨[(48, 57)], false, false⟩) 1 none)) (str "bad"),
    [.prec [(txt "^", 2, 82), (txt "-", 1, 76), (txt "+", 1, 76)], .astName (txt "N"), .noAstOpt, .msg (txt "no number at '%t'")]⟩]

theorem C53_sample_is_read : ReadsAs (txt "# lists
S <- LIST(N, ',') !.
~LIST(x, d) ← x (d x)*
N <- <[0-9]+>^bad { precedence L + '-' R '^'; # a comment
  ast_name : N; no_ast_opt; error_message \"no n\\x75mbe\\162 \\u0061t '%t'\" }") (.defs sampleDefs) := readsAs_run (n := 400) (by decide +kernel)

/-- The sample meets the hypotheses of `C53_every_grammar_can_be_written`. -/
theorem C53_sample_is_printable : sampleDefs ≠ [] ∧ ∀ d ∈ sampleDefs, Printable d := by
  have hn : ∀ s ∈ ["S", "LIST", "N", "x", "d", "bad"], GoodName (str s) := by
    intro s hs
    refine ⟨?_, str_scalar s⟩
    simp only [List.mem_cons, List.not_mem_nil, or_false] at hs
    rcases hs with rfl | rfl | rfl | rfl | rfl | rfl <;> (refine ⟨?_, ?_, ?_⟩ <;> decide +kernel)
  have hr : ∀ s ∈ ["N", "x", "d"], Expressible (.ref (txt s) false []) := by
    intro s hs
    have := Expressible.ref (ign := false) (hn s (by simp only [List.mem_cons, List.not_mem_nil, or_false] at hs ⊢; tauto))
    have h2 : refTo false (str s) none = .ref (txt s) false [] := by
      simp only [List.mem_cons, List.not_mem_nil, or_false] at hs
      rcases hs with rfl | rfl | rfl <;> exact srcEq_eq (by decide +kernel)
    rwa [h2] at this
  refine ⟨by simp [sampleDefs], fun d hd => ?_⟩
  simp only [sampleDefs, List.mem_cons, List.not_mem_nil, or_false] at hd
  rcases hd with rfl | rfl | rfl
  · refine ⟨⟨str "S", hn _ (by simp), rfl⟩, fun ps h => (by cases h), ?_, fun i hi => (by cases hi)⟩
    refine .seq (by simp) ?_
    intro e he
    simp only [List.mem_cons, List.not_mem_nil, or_false] at he
    rcases he with rfl | rfl
    · have := Expressible.call (ign := false) (nm := str "LIST") (as := [.ref (txt "N") false [], .lit (txt ",") false]) (hn _ (by simp)) (by simp) (by
        intro a ha
        simp only [List.mem_cons, List.not_mem_nil, or_false] at ha
        rcases ha with rfl | rfl
        · exact hr _ (by simp)
        · exact .lit (enc_text (str_scalar _)))
      rwa [show refTo false (str "LIST") (some [.ref (txt "N") false [], .lit (txt ",") false]) = .ref (txt "LIST") true [.ref (txt "N") false [], .lit (txt ",") false]
        from srcEq_eq (by decide +kernel)] at this
    · exact .not_ .dot
  · refine ⟨⟨str "LIST", hn _ (by simp), rfl⟩, ?_, ?_, fun i hi => (by cases hi)⟩
    · intro ps h
      cases h
      refine ⟨[str "x", str "d"], by simp, ?_, rfl⟩
      intro q hq
      simp only [List.mem_cons, List.not_mem_nil, or_false] at hq
      rcases hq with rfl | rfl
      · exact hn _ (by simp)
      · exact hn _ (by simp)
    · refine .seq (by simp) ?_
      intro e he
      simp only [List.mem_cons, List.not_mem_nil, or_false] at he
      rcases he with rfl | rfl
      · exact hr _ (by simp)
      · refine .rep (.seq (by simp) ?_) (by decide) (fun b h => by cases h)
        intro e he
        simp only [List.mem_cons, List.not_mem_nil, or_false] at he
        rcases he with rfl | rfl <;> exact hr _ (by simp)
  · refine ⟨⟨str "N", hn _ (by simp), rfl⟩, fun ps h => (by cases h), ?_, ?_⟩
    · refine .label (.tok (.rep (.cls (by simp) ?_) (by decide) (fun b h => by cases h))) (hn _ (by simp))
      intro r hr
      simp only [List.mem_cons, List.not_mem_nil, or_false] at hr
      subst hr
      decide
    · intro i hi
      simp only [List.mem_cons, List.not_mem_nil, or_false] at hi
      rcases hi with rfl | rfl | rfl | rfl
      · exact .prec (ls := [(true, [str "+", str "-"]), (false, [str "^"])]) (by simp) (by unfold GoodOp; decide +kernel)
      · exact .astName (hn _ (by simp))
      · exact .noAst
      · exact .msg (enc_text (str_scalar _))

/-- A count of repetitions that does not fit 64 bits is read as 0. -/
theorem C53_counterexample_big_count : ReadsAs (txt "A <- 'a'{18446744073709551616}")
    (.defs [⟨false, txt "A", none, .rep (.lit (txt "a") false) 0 (some 0), []⟩]) := readsAs_run (n := 400) (by decide +kernel)

/-- Undefined behaviour: a hexadecimal escape with nine digits overflows an `int`. -/
theorem C53_counterexample_escape_overflow : ReadsAs (txt "A <- '\\x123456789'") (.crash .ub) := readsAs_run (n := 400) (by decide +kernel)

/-- A hexadecimal escape goes on as long as there are hexadecimal digits. -/
theorem C53_counterexample_long_escape : ReadsAs (txt "A <- '\\x41B'") (.defs [⟨false, txt "A", none, .lit (txt "Л") false, []⟩]) :=
  readsAs_run (n := 400) (by decide +kernel)

/-- An empty alternative does not match the empty string, it matches nothing. -/
theorem C53_counterexample_empty_alternative : ReadsAs (txt "A <- 'a' /") 
    (.defs [⟨false, txt "A", none, .cho [.lit (txt "a") false, .not_ (.lit [] false)] false, []⟩]) := readsAs_run (n := 400) (by decide +kernel)

/-- Without a space the arrow `←` belongs to the name. -/
theorem C53_counterexample_glued_arrow : ReadsAs (txt "A←'b'") .refused ∧
    ReadsAs (txt "A ←'b'") (.defs [⟨false, txt "A", none, .lit (txt "b") false, []⟩]) :=
  ⟨readsAs_run (n := 400) (by decide +kernel), readsAs_run (n := 400) (by decide +kernel)⟩

/-- In a dictionary whose first word is case-sensitive the `i` after another word is a reference. -/
theorem C53_counterexample_mixed_dictionary : ReadsAs (txt "A <- 'a' | 'b'i")
    (.defs [⟨false, txt "A", none, .seq [.dict [txt "a", txt "b"] false, .ref (txt "i") false []], []⟩]) := readsAs_run (n := 400) (by decide +kernel)

/-- After `precedence`, the separator `;` and the next instruction are taken for operators. -/
theorem C53_counterexample_instruction_after_precedence : ReadsAs (txt "A <- B (O B)* { precedence L + - ; no_ast_opt }")
    (.defs [⟨false, txt "A", none, .seq [.ref (txt "B") false [], .rep (.seq [.ref (txt "O") false [], .ref (txt "B") false []]) 0 none],
      [.prec (["no_ast_opt", ";", "-", "+"].map fun o => (txt o, 1, 76))]⟩]) := readsAs_run (n := 400) (by decide +kernel)

end Verif.Props
