import Verif.Meta
/-!
# The language of a grammar text

The specification of C55: what the rules of a text recognise, as in a textbook (Ford 2004) plus white space and token boundaries, for
rules without macros, captures, cuts, labels and recovery.  With a rule `%word`, a literal that begins with a word, and every word of a dictionary, must
not be followed by a word.  Left recursion is direct: `A <- A r1 / ... / A rn / b1 / ... / bk` matches one of the
`b`s and then as many of the `r`s, one after the other, as make it longer.  `Sem ds T tok ws t i r`: with the rules `ds`, on `T`, `t` at offset `i` fails
(`r = none`) or matches up to `j` (`r = some j`).  `tok`: inside a token; `ws`: inside white space.
-/

namespace Verif.Meta
open Verif CharClass

/-- The rule of a name. -/
def ruleOf (ds : List RDef) (nm : List Byte) : Option RDef := ds.find? fun d => d.name == nm

def isNoWs : Instr → Bool
  | .noWs => true
  | _ => false

mutual
/-- A literal, a dictionary, or a choice of such. -/
def isLiteral : Src → Bool
  | .cho es _ => areLiterals es
  | .dict _ _ => true
  | .lit _ _ => true
  | _ => false
def areLiterals : List Src → Bool
  | [] => true
  | e :: es => isLiteral e && areLiterals es
end

/-- In grammars with white space, rules that are literals are tokens. -/
def litTok (ds : List RDef) (d : RDef) : Src :=
  if (ruleOf ds whitespaceName).isSome && isLiteral d.body then .tok d.body else d.body

/-- What a rule means: rules marked `no_whitespace` are tokens. -/
def meaning (ds : List RDef) (d : RDef) : Src := if d.instrs.any isNoWs then .tok (litTok ds d) else litTok ds d

/-- What follows the rule's own name in an alternative that begins with it. -/
def ownRest (nm : List Byte) : Src → Option (List Src)
  | .seq (.ref nm' false [] :: es) => if nm' = nm then some es else none
  | _ => none

/-- The alternatives `A r1 / ... / A rn / b1 / ... / bk` of rule `A`: the `r`s and the `b`s. -/
def lrAlts (nm : List Byte) : List Src → List (List Src) × List Src
  | [] => ([], [])
  | e :: es =>
    match ownRest nm e with
    | some r => (r :: (lrAlts nm es).1, (lrAlts nm es).2)
    | none => ([], e :: es)

/-- The `r`s and the `b`s of a left-recursive rule. -/
def lrParts (d : RDef) : Option (List (List Src) × List Src) :=
  match d.body with
  | .cho es false => if (lrAlts d.name es).1.isEmpty then none else some (lrAlts d.name es)
  | _ => none

inductive STask where
  | exp (e : Src)
  | seqs (es : List Src)
  | alts (es : List Src)
  /-- a repetition of which `n` rounds are done -/
  | loop (e : Src) (mn : Nat) (mx : Option Nat) (n : Nat)
  /-- a left-recursive rule that has matched up to here and goes on with one of `rs` -/
  | grow (rs : List (List Src))
  | skip

/-- Expressions for one character and the number of bytes they match. -/
def oneChar : Src → Option (List Byte → Option Nat)
  | .cls c => some c.matchLen
  | .chr c => some (matchChar c)
  | .dot => some matchAny
  | _ => none

/-- What is read: a text; `bare`: to see whether a word begins somewhere, where white space and words do not count. -/
structure Page where
  text : List Byte
  bare : Bool := false

inductive Sem (ds : List RDef) : Page → Bool → Bool → STask → Nat → Option Nat → Prop where
  -- white space
  | skip_tok {T ws i} : Sem ds T true ws .skip i (some i)
  | skip_in {T tok i} : Sem ds T tok true .skip i (some i)
  | skip_none {T tok ws i} : ruleOf ds whitespaceName = none → Sem ds T tok ws .skip i (some i)
  | skip_bare {T tok ws i} : T.bare = true → Sem ds T tok ws .skip i (some i)
  | skip {T d i r} : T.bare = false → ruleOf ds whitespaceName = some d → Sem ds T false true (.exp (litTok ds d)) i r → Sem ds T false false .skip i r
  -- characters, literals and dictionaries
  | one {T tok ws e f i r} : oneChar e = some f → (f (T.text.drop i)).map (i + ·) = r → Sem ds T tok ws (.exp e) i r
  | lit {T tok ws s ic i r} : litMatch s ic (T.text.drop i) = true → T.bare = true ∨ ruleOf ds wordName = none → Sem ds T tok ws .skip (i + s.length) r →
      Sem ds T tok ws (.exp (.lit s ic)) i r
  | lit_no {T tok ws s ic i} : litMatch s ic (T.text.drop i) = false → Sem ds T tok ws (.exp (.lit s ic)) i none
  /-- the literal does not begin with a word -/
  | lit_other {T tok ws s ic i d r} : litMatch s ic (T.text.drop i) = true → T.bare = false → ruleOf ds wordName = some d →
      Sem ds ⟨s, true⟩ false false (.exp (litTok ds d)) 0 none → Sem ds T tok ws .skip (i + s.length) r → Sem ds T tok ws (.exp (.lit s ic)) i r
  /-- it does, and no word follows -/
  | lit_word {T tok ws s ic i d j r} : litMatch s ic (T.text.drop i) = true → T.bare = false → ruleOf ds wordName = some d →
      Sem ds ⟨s, true⟩ false false (.exp (litTok ds d)) 0 (some j) → Sem ds ⟨T.text, true⟩ false false (.exp (litTok ds d)) (i + s.length) none →
      Sem ds T tok ws .skip (i + s.length) r → Sem ds T tok ws (.exp (.lit s ic)) i r
  /-- it does, and a word follows -/
  | lit_long {T tok ws s ic i d j k} : litMatch s ic (T.text.drop i) = true → T.bare = false → ruleOf ds wordName = some d →
      Sem ds ⟨s, true⟩ false false (.exp (litTok ds d)) 0 (some j) → Sem ds ⟨T.text, true⟩ false false (.exp (litTok ds d)) (i + s.length) (some k) →
      Sem ds T tok ws (.exp (.lit s ic)) i none
  | dict {T tok ws w ic i n r} : ((Trie.build w ic).matchText (T.text.drop i)).1 = n → n ≠ 0 → T.bare = true ∨ ruleOf ds wordName = none →
      Sem ds T tok ws .skip (i + n) r → Sem ds T tok ws (.exp (.dict w ic)) i r
  | dict_no {T tok ws w ic i} : ((Trie.build w ic).matchText (T.text.drop i)).1 = 0 → Sem ds T tok ws (.exp (.dict w ic)) i none
  /-- no word follows -/
  | dict_word {T tok ws w ic i n d r} : ((Trie.build w ic).matchText (T.text.drop i)).1 = n → n ≠ 0 → T.bare = false → ruleOf ds wordName = some d →
      Sem ds ⟨T.text, true⟩ false false (.exp (litTok ds d)) (i + n) none → Sem ds T tok ws .skip (i + n) r → Sem ds T tok ws (.exp (.dict w ic)) i r
  /-- a word follows -/
  | dict_long {T tok ws w ic i n d k} : ((Trie.build w ic).matchText (T.text.drop i)).1 = n → n ≠ 0 → T.bare = false → ruleOf ds wordName = some d →
      Sem ds ⟨T.text, true⟩ false false (.exp (litTok ds d)) (i + n) (some k) → Sem ds T tok ws (.exp (.dict w ic)) i none
  -- sequences
  | seq {T tok ws es i r} : Sem ds T tok ws (.seqs es) i r → Sem ds T tok ws (.exp (.seq es)) i r
  | seqs_nil {T tok ws i} : Sem ds T tok ws (.seqs []) i (some i)
  | seqs_cons {T tok ws e es i j r} : Sem ds T tok ws (.exp e) i (some j) → Sem ds T tok ws (.seqs es) j r → Sem ds T tok ws (.seqs (e :: es)) i r
  | seqs_fail {T tok ws e es i} : Sem ds T tok ws (.exp e) i none → Sem ds T tok ws (.seqs (e :: es)) i none
  -- ordered choices
  | cho {T tok ws es i r} : Sem ds T tok ws (.alts es) i r → Sem ds T tok ws (.exp (.cho es false)) i r
  | alts_nil {T tok ws i} : Sem ds T tok ws (.alts []) i none
  | alts_ok {T tok ws e es i j} : Sem ds T tok ws (.exp e) i (some j) → Sem ds T tok ws (.alts (e :: es)) i (some j)
  | alts_next {T tok ws e es i r} : Sem ds T tok ws (.exp e) i none → Sem ds T tok ws (.alts es) i r → Sem ds T tok ws (.alts (e :: es)) i r
  -- repetitions
  | rep {T tok ws e mn mx i r} : Sem ds T tok ws (.loop e mn mx 0) i r → Sem ds T tok ws (.exp (.rep e mn mx)) i r
  | loop_more {T tok ws e mn mx n i j r} : n < mn ∨ mx.all (n < ·) = true → Sem ds T tok ws (.exp e) i (some j) →
      Sem ds T tok ws (.loop e mn mx (n + 1)) j r → Sem ds T tok ws (.loop e mn mx n) i r
  | loop_few {T tok ws e mn mx n i} : n < mn → Sem ds T tok ws (.exp e) i none → Sem ds T tok ws (.loop e mn mx n) i none
  | loop_end {T tok ws e mn mx n i} : mn ≤ n → mx.all (n < ·) = true → Sem ds T tok ws (.exp e) i none → Sem ds T tok ws (.loop e mn mx n) i (some i)
  | loop_full {T tok ws e mn mx n i} : mn ≤ n → mx.all (n < ·) = false → Sem ds T tok ws (.loop e mn mx n) i (some i)
  -- predicates
  | and_ok {T tok ws e i j} : Sem ds T tok ws (.exp e) i (some j) → Sem ds T tok ws (.exp (.and_ e)) i (some i)
  | and_no {T tok ws e i} : Sem ds T tok ws (.exp e) i none → Sem ds T tok ws (.exp (.and_ e)) i none
  | not_ok {T tok ws e i} : Sem ds T tok ws (.exp e) i none → Sem ds T tok ws (.exp (.not_ e)) i (some i)
  | not_no {T tok ws e i j} : Sem ds T tok ws (.exp e) i (some j) → Sem ds T tok ws (.exp (.not_ e)) i none
  -- tokens, ignored values, rules
  | tok_ok {T tok ws e i j r} : Sem ds T true ws (.exp e) i (some j) → Sem ds T tok ws .skip j r → Sem ds T tok ws (.exp (.tok e)) i r
  | tok_no {T tok ws e i} : Sem ds T true ws (.exp e) i none → Sem ds T tok ws (.exp (.tok e)) i none
  | ign {T tok ws e i r} : Sem ds T tok ws (.exp e) i r → Sem ds T tok ws (.exp (.ign e)) i r
  | rule {T tok ws nm d i r} : ruleOf ds nm = some d → lrParts d = none → Sem ds T tok ws (.exp (meaning ds d)) i r →
      Sem ds T tok ws (.exp (.ref nm false [])) i r
  -- left-recursive rules
  | lr {T tok ws nm d p i j r} : ruleOf ds nm = some d → lrParts d = some p → Sem ds T tok ws (.alts p.2) i (some j) →
      Sem ds T tok ws (.grow p.1) j r → Sem ds T tok ws (.exp (.ref nm false [])) i r
  | lr_no {T tok ws nm d p i} : ruleOf ds nm = some d → lrParts d = some p → Sem ds T tok ws (.alts p.2) i none →
      Sem ds T tok ws (.exp (.ref nm false [])) i none
  | grow_more {T tok ws rs i j r} : Sem ds T tok ws (.alts (rs.map .seq)) i (some j) → i < j → Sem ds T tok ws (.grow rs) j r →
      Sem ds T tok ws (.grow rs) i r
  | grow_idle {T tok ws rs i j} : Sem ds T tok ws (.alts (rs.map .seq)) i (some j) → j ≤ i → Sem ds T tok ws (.grow rs) i (some i)
  | grow_stop {T tok ws rs i} : Sem ds T tok ws (.alts (rs.map .seq)) i none → Sem ds T tok ws (.grow rs) i (some i)

/-- A text is parsed with rule `start`; `eoi`: up to its end. -/
inductive Recog (ds : List RDef) (text : List Byte) (start : List Byte) (eoi : Bool) : Option Nat → Prop where
  | noSkip : Sem ds ⟨text, false⟩ false false .skip 0 none → Recog ds text start eoi none
  | noRule {i} : Sem ds ⟨text, false⟩ false false .skip 0 (some i) → Sem ds ⟨text, false⟩ false false (.exp (.ref start false [])) i none → Recog ds text start eoi none
  | rest {i j} : Sem ds ⟨text, false⟩ false false .skip 0 (some i) → Sem ds ⟨text, false⟩ false false (.exp (.ref start false [])) i (some j) →
      eoi = true → j < text.length → Recog ds text start eoi none
  | ok {i j} : Sem ds ⟨text, false⟩ false false .skip 0 (some i) → Sem ds ⟨text, false⟩ false false (.exp (.ref start false [])) i (some j) →
      (eoi = true → text.length ≤ j) → Recog ds text start eoi (some j)

/-! ## The meaning is unique -/

theorem noWord {ds : List RDef} {b : Bool} {d : RDef} (h : b = true ∨ ruleOf ds wordName = none) (hb : b = false) (hd : ruleOf ds wordName = some d) : False := by
  rcases h with h | h
  · rw [hb] at h; cases h
  · rw [hd] at h; cases h

theorem Sem.det {ds : List RDef} {T : Page} {tok ws : Bool} {t : STask} {i : Nat} {r r' : Option Nat} (h : Sem ds T tok ws t i r)
    (h' : Sem ds T tok ws t i r') : r = r' := by
  induction h generalizing r' with
  | skip_tok => cases h' <;> rfl
  | skip_in => cases h' <;> rfl
  | skip_none h =>
    cases h' with
    | skip _ h1 _ => rw [h] at h1; cases h1
    | _ => rfl
  | skip_bare h =>
    cases h' with
    | skip h1 _ _ => rw [h] at h1; cases h1
    | _ => rfl
  | skip hb h _ ih =>
    cases h' with
    | skip_none h1 => rw [h] at h1; cases h1
    | skip_bare h1 => rw [hb] at h1; cases h1
    | skip _ h1 h2 => rw [h] at h1; cases h1; exact ih h2
  | one he hf =>
    cases h' with
    | one he' hf' => rw [he] at he'; cases he'; exact hf.symm.trans hf'
    | _ => cases he
  | lit h hf _ ih =>
    cases h' with
    | lit h1 _ h2 => exact ih h2
    | lit_no h1 => rw [h] at h1; cases h1
    | lit_other _ h1 h2 _ _ => exact (noWord hf h1 h2).elim
    | lit_word _ h1 h2 _ _ _ => exact (noWord hf h1 h2).elim
    | lit_long _ h1 h2 _ _ => exact (noWord hf h1 h2).elim
    | one he _ => cases he
  | lit_no h =>
    cases h' with
    | lit h1 _ _ => rw [h] at h1; cases h1
    | lit_other h1 _ _ _ _ => rw [h] at h1; cases h1
    | lit_word h1 _ _ _ _ _ => rw [h] at h1; cases h1
    | lit_no h1 => rfl
    | lit_long _ _ _ _ _ => rfl
    | one he _ => cases he
  | lit_other h hb hd _ _ ih1 ih2 =>
    cases h' with
    | lit _ h1 _ => exact (noWord h1 hb hd).elim
    | lit_no h1 => rw [h] at h1; cases h1
    | lit_other _ _ h1 h2 h3 => exact ih2 h3
    | lit_word _ _ h1 h2 _ _ => rw [hd] at h1; cases h1; cases ih1 h2
    | lit_long _ _ h1 h2 _ => rw [hd] at h1; cases h1; cases ih1 h2
    | one he _ => cases he
  | lit_word h hb hd _ _ _ ih1 ih2 ih3 =>
    cases h' with
    | lit _ h1 _ => exact (noWord h1 hb hd).elim
    | lit_no h1 => rw [h] at h1; cases h1
    | lit_other _ _ h1 h2 h3 => rw [hd] at h1; cases h1; cases ih1 h2
    | lit_word _ _ h1 h2 _ h4 => exact ih3 h4
    | lit_long _ _ h1 h2 h3 => rw [hd] at h1; cases h1; cases ih2 h3
    | one he _ => cases he
  | lit_long h hb hd _ _ ih1 ih2 =>
    cases h' with
    | lit _ h1 _ => exact (noWord h1 hb hd).elim
    | lit_no h1 => rfl
    | lit_other _ _ h1 h2 h3 => rw [hd] at h1; cases h1; cases ih1 h2
    | lit_word _ _ h1 h2 h3 h4 => rw [hd] at h1; cases h1; cases ih2 h3
    | lit_long _ _ h1 h2 h3 => rfl
    | one he _ => cases he
  | dict h h0 hf _ ih =>
    cases h' with
    | dict h1 _ _ h2 => cases h.symm.trans h1; exact ih h2
    | dict_no h1 => exact absurd (h.symm.trans h1) h0
    | dict_word _ _ h1 h2 _ _ => exact (noWord hf h1 h2).elim
    | dict_long _ _ h1 h2 _ => exact (noWord hf h1 h2).elim
    | one he _ => cases he
  | dict_no h =>
    cases h' with
    | dict h1 h2 _ _ => exact absurd (h1.symm.trans h) h2
    | dict_word h1 h2 _ _ _ _ => exact absurd (h1.symm.trans h) h2
    | dict_no h1 => rfl
    | dict_long _ _ _ _ _ => rfl
    | one he _ => cases he
  | dict_word h h0 hb hd _ _ ih1 ih2 =>
    cases h' with
    | dict _ _ h1 _ => exact (noWord h1 hb hd).elim
    | dict_no h1 => exact absurd (h.symm.trans h1) h0
    | dict_word h1 _ _ _ _ h2 => cases h.symm.trans h1; exact ih2 h2
    | dict_long h1 _ _ h2 h3 => cases h.symm.trans h1; rw [hd] at h2; cases h2; cases ih1 h3
    | one he _ => cases he
  | dict_long h h0 hb hd _ ih1 =>
    cases h' with
    | dict _ _ h1 _ => exact (noWord h1 hb hd).elim
    | dict_no h1 => rfl
    | dict_word h1 _ _ h2 h3 _ => cases h.symm.trans h1; rw [hd] at h2; cases h2; cases ih1 h3
    | dict_long h1 _ _ h2 h3 => rfl
    | one he _ => cases he
  | seq _ ih =>
    cases h' with
    | seq h => exact ih h
    | one he _ => cases he
  | seqs_nil => cases h'; rfl
  | seqs_cons _ _ ih1 ih2 =>
    cases h' with
    | seqs_cons h1 h2 => cases ih1 h1; exact ih2 h2
    | seqs_fail h1 => cases ih1 h1
  | seqs_fail _ ih =>
    cases h' with
    | seqs_cons h1 h2 => cases ih h1
    | seqs_fail h1 => rfl
  | cho _ ih =>
    cases h' with
    | cho h => exact ih h
    | one he _ => cases he
  | alts_nil => cases h'; rfl
  | alts_ok _ ih =>
    cases h' with
    | alts_ok h => exact ih h
    | alts_next h _ => cases ih h
  | alts_next _ _ ih1 ih2 =>
    cases h' with
    | alts_ok h => cases ih1 h
    | alts_next _ h => exact ih2 h
  | rep _ ih =>
    cases h' with
    | rep h => exact ih h
    | one he _ => cases he
  | loop_more h _ _ ih1 ih2 =>
    cases h' with
    | loop_more _ h1 h2 => cases ih1 h1; exact ih2 h2
    | loop_few _ h1 => cases ih1 h1
    | loop_end _ _ h1 => cases ih1 h1
    | loop_full h1 h2 =>
      rcases h with h | h
      · omega
      · rw [h] at h2; cases h2
  | loop_few h _ ih =>
    cases h' with
    | loop_more _ h1 h2 => cases ih h1
    | loop_few _ h1 => rfl
    | loop_end h1 _ _ => omega
    | loop_full h1 h2 => omega
  | loop_end h h0 _ ih =>
    cases h' with
    | loop_more _ h1 h2 => cases ih h1
    | loop_few h1 _ => omega
    | loop_end h1 _ _ => rfl
    | loop_full h1 h2 => rfl
  | loop_full h h0 =>
    cases h' with
    | loop_more h1 _ _ =>
      rcases h1 with h1 | h1
      · omega
      · rw [h0] at h1; cases h1
    | loop_few h1 _ => omega
    | loop_end h1 _ _ => rfl
    | loop_full h1 h2 => rfl
  | and_ok _ ih =>
    cases h' with
    | and_ok h => rfl
    | and_no h => cases ih h
    | one he _ => cases he
  | and_no _ ih =>
    cases h' with
    | and_ok h => cases ih h
    | and_no h => rfl
    | one he _ => cases he
  | not_ok _ ih =>
    cases h' with
    | not_ok h => rfl
    | not_no h => cases ih h
    | one he _ => cases he
  | not_no _ ih =>
    cases h' with
    | not_ok h => cases ih h
    | not_no h => rfl
    | one he _ => cases he
  | tok_ok _ _ ih1 ih2 =>
    cases h' with
    | tok_ok h1 h2 => cases ih1 h1; exact ih2 h2
    | tok_no h1 => cases ih1 h1
    | one he _ => cases he
  | tok_no _ ih =>
    cases h' with
    | tok_ok h1 h2 => cases ih h1
    | tok_no h1 => rfl
    | one he _ => cases he
  | ign _ ih =>
    cases h' with
    | ign h => exact ih h
    | one he _ => cases he
  | rule h hl _ ih =>
    cases h' with
    | rule h1 _ h2 => rw [h] at h1; cases h1; exact ih h2
    | lr h1 hl' _ _ => rw [h] at h1; cases h1; rw [hl] at hl'; cases hl'
    | lr_no h1 hl' _ => rw [h] at h1; cases h1; rw [hl] at hl'; cases hl'
    | one he _ => cases he
  | lr h hl _ _ ih1 ih2 =>
    cases h' with
    | rule h1 hl' _ => rw [h] at h1; cases h1; rw [hl] at hl'; cases hl'
    | lr h1 hl' h2 h3 => rw [h] at h1; cases h1; rw [hl] at hl'; cases hl'; cases ih1 h2; exact ih2 h3
    | lr_no h1 hl' h2 => rw [h] at h1; cases h1; rw [hl] at hl'; cases hl'; cases ih1 h2
    | one he _ => cases he
  | lr_no h hl _ ih =>
    cases h' with
    | rule h1 hl' _ => rw [h] at h1; cases h1; rw [hl] at hl'; cases hl'
    | lr h1 hl' h2 h3 => rw [h] at h1; cases h1; rw [hl] at hl'; cases hl'; cases ih h2
    | lr_no h1 hl' h2 => rfl
    | one he _ => cases he
  | grow_more _ hj _ ih1 ih2 =>
    cases h' with
    | grow_more h1 _ h2 => cases ih1 h1; exact ih2 h2
    | grow_idle h1 h2 => cases ih1 h1; omega
    | grow_stop h1 => cases ih1 h1
  | grow_idle _ hj ih =>
    cases h' with
    | grow_more h1 hk h2 => cases ih h1; omega
    | grow_idle h1 h2 => rfl
    | grow_stop h1 => rfl
  | grow_stop _ ih =>
    cases h' with
    | grow_more h1 hk h2 => cases ih h1
    | grow_idle h1 h2 => rfl
    | grow_stop h1 => rfl

theorem Recog.det {ds : List RDef} {text start : List Byte} {eoi : Bool} {r r' : Option Nat} (h : Recog ds text start eoi r)
    (h' : Recog ds text start eoi r') : r = r' := by
  cases h with
  | noSkip h =>
    cases h' with
    | noSkip _ => rfl
    | noRule h1 _ => cases h.det h1
    | rest h1 => cases h.det h1
    | ok h1 => cases h.det h1
  | noRule h1 h2 =>
    cases h' with
    | noSkip h => rfl
    | noRule k1 k2 => rfl
    | rest k1 k2 => rfl
    | ok k1 k2 => cases h1.det k1; cases h2.det k2
  | rest h1 h2 h3 h4 =>
    cases h' with
    | noSkip h => rfl
    | noRule k1 k2 => rfl
    | rest k1 k2 => rfl
    | ok k1 k2 k3 => cases h1.det k1; cases h2.det k2; have := k3 h3; omega
  | ok h1 h2 h3 =>
    cases h' with
    | noSkip h => cases h.det h1
    | noRule k1 k2 => cases h1.det k1; cases h2.det k2
    | rest k1 k2 k3 k4 => cases h1.det k1; cases h2.det k2; have := h3 k3; omega
    | ok k1 k2 k3 => cases h1.det k1; cases h2.det k2; rfl

end Verif.Meta
