import Verif.PegDet
import Verif.Link
/-!
# Macros as textual substitution

`Expands rs es es'` is the specification: `es'` are the expressions `es` with every macro call replaced by the body of the macro in which the
arguments are substituted for the parameters, again and again.  The rest of the file shows that the reference semantics (which passes arguments in an
environment and resolves them by name, like the code) gives a grammar and its expansion the same meaning, for arguments of a certain form.
-/

namespace Verif
open CharClass

variable {V : Type}

/-! ## The specification -/

mutual
/-- The arguments `as` for the parameters. -/
def Ope.subst (as : List Ope) : Ope → Ope
  | .param k nm => (as[k]?).getD (.param k nm)
  | .ref r nm bs => .ref r nm (Ope.substL as bs)
  | .recov r nm bs => .recov r nm (Ope.substL as bs)
  | .seq es kw => .seq (Ope.substL as es) kw
  | .cho es l fs => .cho (Ope.substL as es) l fs
  | .rep e a b c => .rep (e.subst as) a b c
  | .and_ e => .and_ (e.subst as)
  | .not_ e => .not_ (e.subst as)
  | .capScope e => .capScope (e.subst as)
  | .cap nm e => .cap nm (e.subst as)
  | .tok e => .tok (e.subst as)
  | .ign e => .ign (e.subst as)
  | .ws e => .ws (e.subst as)
  | .prec a b info r => .prec (a.subst as) (b.subst as) info r
  | .dict wl ic => .dict wl ic
  | .lit s ic => .lit s ic
  | .cls c => .cls c
  | .chr c => .chr c
  | .dot => .dot
  | .usr id => .usr id
  | .weak r => .weak r
  | .bref nm => .bref nm
  | .cut => .cut
  | .null => .null

def Ope.substL (as : List Ope) : List Ope → List Ope
  | [] => []
  | e :: es => e.subst as :: Ope.substL as es
end

/-- Operators without operands that may stand in an expansion. -/
def Ope.leaf : Ope → Bool
  | .dict _ _ => true
  | .lit _ _ => true
  | .cls _ => true
  | .chr _ => true
  | .dot => true
  | .bref _ => true
  | .cut => true
  | _ => false

/-- `Expands rs es es'`: `es'` is `es` with all macro calls expanded (element by element).  Annotations (first sets, keyword guards, spans, the label flag) are
free: they have no meaning. -/
inductive Expands (rs : List Def) : List Ope → List Ope → Prop
  | nil : Expands rs [] []
  | cons {e es e' es'} : Expands rs [e] [e'] → Expands rs es es' → Expands rs (e :: es) (e' :: es')
  | call {r nm as d e'} : rs[r]? = some d → d.isMacro = true → Expands rs [d.ope.subst as] [e'] → Expands rs [.ref r nm as] [e']
  | ref {r nm as d} : rs[r]? = some d → d.isMacro = false → Expands rs [.ref r nm as] [.ref r nm []]
  | leaf {e} : e.leaf = true → Expands rs [e] [e]
  | seq {es es' kw kw'} : Expands rs es es' → Expands rs [.seq es kw] [.seq es' kw']
  | cho {es es' l l' fs fs'} : Expands rs es es' → Expands rs [.cho es l fs] [.cho es' l' fs']
  | rep {e e' a b c c'} : Expands rs [e] [e'] → Expands rs [.rep e a b c] [.rep e' a b c']
  | and_ {e e'} : Expands rs [e] [e'] → Expands rs [.and_ e] [.and_ e']
  | not_ {e e'} : Expands rs [e] [e'] → Expands rs [.not_ e] [.not_ e']
  | capScope {e e'} : Expands rs [e] [e'] → Expands rs [.capScope e] [.capScope e']
  | cap {nm e e'} : Expands rs [e] [e'] → Expands rs [.cap nm e] [.cap nm e']
  | tok {e e'} : Expands rs [e] [e'] → Expands rs [.tok e] [.tok e']
  | ign {e e'} : Expands rs [e] [e'] → Expands rs [.ign e] [.ign e']

/-! ## The same with environments -/

/-- The task `t` with arguments `v` in scope becomes `t'`. -/
inductive TRel (rs : List Def) : Env → PTask → PTask → Prop
  | nil {v} : TRel rs v (.seqL []) (.seqL [])
  | cons {v e es e' es'} : TRel rs v (.ope e) (.ope e') → TRel rs v (.seqL es) (.seqL es') → TRel rs v (.seqL (e :: es)) (.seqL (e' :: es'))
  | param {v k nm a e'} : v.args[k]? = some a → TRel rs v (.ope a) (.ope e') → TRel rs v (.ope (.param k nm)) (.ope e')
  | call {v r nm as d e'} : rs[r]? = some d → d.isMacro = true →
      TRel rs ⟨d.params, resolveList v.params v.args as⟩ (.ope d.ope) (.ope e') → TRel rs v (.ope (.ref r nm as)) (.ope e')
  | ref {v r nm as as' d} : rs[r]? = some d → d.isMacro = false → TRel rs v (.ope (.ref r nm as)) (.ope (.ref r nm as'))
  | leaf {v e} : e.leaf = true → TRel rs v (.ope e) (.ope e)
  | seq {v es es' kw kw'} : TRel rs v (.seqL es) (.seqL es') → TRel rs v (.ope (.seq es kw)) (.ope (.seq es' kw'))
  | cho {v es es' l l' fs fs'} : TRel rs v (.seqL es) (.seqL es') → TRel rs v (.ope (.cho es l fs)) (.ope (.cho es' l' fs'))
  | rep {v e e' a b c c'} : TRel rs v (.ope e) (.ope e') → TRel rs v (.ope (.rep e a b c)) (.ope (.rep e' a b c'))
  | and_ {v e e'} : TRel rs v (.ope e) (.ope e') → TRel rs v (.ope (.and_ e)) (.ope (.and_ e'))
  | not_ {v e e'} : TRel rs v (.ope e) (.ope e') → TRel rs v (.ope (.not_ e)) (.ope (.not_ e'))
  | capScope {v e e'} : TRel rs v (.ope e) (.ope e') → TRel rs v (.ope (.capScope e)) (.ope (.capScope e'))
  | cap {v nm e e'} : TRel rs v (.ope e) (.ope e') → TRel rs v (.ope (.cap nm e)) (.ope (.cap nm e'))
  | tok {v e e'} : TRel rs v (.ope e) (.ope e') → TRel rs v (.ope (.tok e)) (.ope (.tok e'))
  | ign {v e e'} : TRel rs v (.ope e) (.ope e') → TRel rs v (.ope (.ign e)) (.ope (.ign e'))
  | ws {v e e'} : TRel rs v (.ope e) (.ope e') → TRel rs v (.ope (.ws e)) (.ope (.ws e'))
  | choL {v es es' k n} : TRel rs v (.seqL es) (.seqL es') → TRel rs v (.choL es k n) (.choL es' k n)
  | loop {v e e' a b c} : TRel rs v (.ope e) (.ope e') → TRel rs v (.loop e a b c) (.loop e' a b c)
  | text {v t ic} : TRel rs v (.text t ic) (.text t ic)
  | skip {v} : TRel rs v .skip .skip
  | body {v d d'} : d'.noWs = d.noWs → TRel rs v (.ope d.ope) (.ope d'.ope) → TRel rs v (.body d) (.body d')
  | hold {r d} : rs[r]? = some d → d.isMacro = false → TRel rs {} (.hold r) (.hold r)

/-- `d'` is the rule `d` with its body expanded. -/
structure DefRel (rs : List Def) (d d' : Def) : Prop where
  same : d' = { d with ope := d'.ope }
  choice : d'.ope.choiceLikeTop = d.ope.choiceLikeTop
  body : TRel rs {} (.ope d.ope) (.ope d'.ope)

structure GramRel (G G' : Gram V) : Prop where
  input : G'.input = G.input
  action : G'.action = G.action
  predicate : G'.predicate = G.predicate
  leave : G'.leave = G.leave
  ws : G'.ws = G.ws
  word : G'.word = G.word
  wsRel : ∀ w, G.ws = some w → ∀ v, TRel G.rules v (.ope w) (.ope w)
  wordRel : ∀ w, G.word = some w → ∀ v, TRel G.rules v (.ope w) (.ope w)
  rule : ∀ (r : Nat) (d : Def), G.rules[r]? = some d → d.isMacro = false → ∃ d', G'.rules[r]? = some d' ∧ DefRel G.rules d d'
  noLR : ∀ (r : Nat) (d : Def), G.rules[r]? = some d → d.isMacro = false → d.isLR = false

theorem GramRel.bare {G G' : Gram V} (h : GramRel G G') (t t' : List Byte) (e : t' = t) : GramRel (G.bare t) (G'.bare t') := by
  subst e
  exact ⟨rfl, h.action, h.predicate, h.leave, rfl, rfl, (by intro w hw; cases hw), (by intro w hw; cases hw), h.rule, h.noLR⟩

theorem TRel.len {rs : List Def} {v : Env} {t t' : PTask} (h : TRel rs v t t') : ∀ es es', t = .seqL es → t' = .seqL es' → es'.length = es.length := by
  induction h with
  | nil => intro es es' h h'; cases h; cases h'; rfl
  | cons _ _ _ ih => intro es es' h h'; cases h; cases h'; simp [ih _ _ rfl rfl]
  | _ => intro es es' h h'; cases h

theorem GramRel.frame {G G' : Gram V} (h : GramRel G G') {d d' : Def} (hd : DefRel G.rules d d') (r i j : Nat) (f f0 : Frame V) (pd : Option V) :
    pushValue d' (ruleValue G' r d' i j (ruleFrame r d' i j f) pd) f0 = pushValue d (ruleValue G r d i j (ruleFrame r d i j f) pd) f0 ∧
      ruleFrame r d' i j f = ruleFrame r d i j f := by
  have h1 : ruleFrame r d' i j f = ruleFrame r d i j f := by unfold ruleFrame; rw [hd.choice]
  refine ⟨?_, h1⟩
  rw [h1]
  unfold pushValue ruleValue
  rw [hd.same, h.action, h.leave]

/-! ## From the grammar to its expansion -/

theorem TRel.forth {G G' : Gram V} (hg : GramRel G G') {v : Env} {m : Mode} {t : PTask} {i : Nat} {s : PSt V} {x : PRes V}
    (h : Peg G v m t i s x) {t' : PTask} (ht : TRel G.rules v t t') (u : Env) : Peg G' u m t' i s x := by
  induction h generalizing G' t' u with
  | skip_tok h => cases ht; exact .skip_tok h
  | skip_none h => cases ht; exact .skip_none (hg.ws.trans h)
  | skip_ws h1 h2 _ ih => cases ht; exact .skip_ws h1 (hg.ws.trans h2) (ih hg (hg.wsRel _ h2 _) u)
  | ws_in h => cases ht with
    | leaf h' => cases h'
    | ws _ => exact .ws_in h
  | ws_out h _ ih => cases ht with
    | leaf h' => cases h'
    | ws h' => exact .ws_out h (ih hg h' u)
  | @one_ok G v m e f k i s h1 h2 =>
    cases e <;> simp only [Ope.single, reduceCtorEq, Option.some.injEq] at h1 <;> subst h1 <;> cases ht <;>
      exact .one_ok rfl (by rw [hg.input]; exact h2)
  | @one_fail G v m e f i s h1 h2 =>
    cases e <;> simp only [Ope.single, reduceCtorEq, Option.some.injEq] at h1 <;> subst h1 <;> cases ht <;>
      exact .one_fail rfl (by rw [hg.input]; exact h2)
  | lit _ ih => cases ht; exact .lit (ih hg .text u)
  | text_no h => cases ht; exact .text_no (by rw [hg.input]; exact h)
  | text_plain h1 h2 _ ih => cases ht; exact .text_plain (by rw [hg.input]; exact h1) (hg.word.trans h2) (ih hg .skip u)
  | text_nonword h1 h2 _ _ ih1 ih2 =>
    cases ht
    exact .text_nonword (by rw [hg.input]; exact h1) (hg.word.trans h2) (ih1 (hg.bare _ _ rfl) (hg.wordRel _ h2 _) _) (ih2 hg .skip u)
  | text_word h1 h2 _ _ _ ih1 ih2 ih3 =>
    cases ht
    exact .text_word (by rw [hg.input]; exact h1) (hg.word.trans h2) (ih1 (hg.bare _ _ rfl) (hg.wordRel _ h2 _) _)
      (ih2 (hg.bare _ _ hg.input) (hg.wordRel _ h2 _) _) (ih3 hg .skip u)
  | text_longer h1 h2 _ _ ih1 ih2 =>
    cases ht
    exact .text_longer (by rw [hg.input]; exact h1) (hg.word.trans h2) (ih1 (hg.bare _ _ rfl) (hg.wordRel _ h2 _) _)
      (ih2 (hg.bare _ _ hg.input) (hg.wordRel _ h2 _) _)
  | dict_no h => cases ht; exact .dict_no (by rw [hg.input]; exact h)
  | dict_plain h1 h2 h3 _ ih => cases ht; exact .dict_plain (by rw [hg.input]; exact h1) h2 (hg.word.trans h3) (ih hg .skip u)
  | dict_word h1 h2 h3 _ _ ih1 ih2 =>
    cases ht
    exact .dict_word (by rw [hg.input]; exact h1) h2 (hg.word.trans h3) (ih1 (hg.bare _ _ hg.input) (hg.wordRel _ h3 _) _) (ih2 hg .skip u)
  | dict_longer h1 h2 h3 _ ih =>
    cases ht
    exact .dict_longer (by rw [hg.input]; exact h1) h2 (hg.word.trans h3) (ih (hg.bare _ _ hg.input) (hg.wordRel _ h3 _) _)
  | seq _ ih => cases ht with
    | leaf h' => cases h'
    | seq h' => exact .seq (ih hg h' u)
  | seq_nil => cases ht; exact .seq_nil
  | seq_fail _ ih => cases ht with | cons h1 h2 => exact .seq_fail (ih hg h1 u)
  | seq_cons _ _ ih1 ih2 => cases ht with | cons h1 h2 => exact .seq_cons (ih1 hg h1 u) (ih2 hg h2 u)
  | cho _ ih => cases ht with
    | leaf h' => cases h'
    | cho h' =>
      refine .cho ?_
      rw [h'.len _ _ rfl rfl]
      exact ih hg (.choL h') u
  | cho_nil => cases ht with | choL h => cases h; exact .cho_nil
  | cho_ok _ ih => cases ht with | choL h => cases h with | cons h1 h2 => exact .cho_ok (ih hg h1 u)
  | cho_cut _ ih => cases ht with | choL h => cases h with | cons h1 h2 => exact .cho_cut (ih hg h1 u)
  | cho_next _ _ ih1 ih2 => cases ht with | choL h => cases h with | cons h1 h2 => exact .cho_next (ih1 hg h1 u) (ih2 hg (.choL h2) u)
  | cut => cases ht; exact .cut
  | rep _ ih => cases ht with
    | leaf h' => cases h'
    | rep h' => exact .rep (ih hg (.loop h') u)
  | loop_must _ _ ih1 ih2 => cases ht with | loop h => exact .loop_must (ih1 hg h u) (ih2 hg (.loop h) u)
  | loop_fail _ ih => cases ht with | loop h => exact .loop_fail (ih hg h u)
  | loop_full h => cases ht with | loop _ => exact .loop_full h
  | loop_more h0 _ _ ih1 ih2 => cases ht with | loop h => exact .loop_more h0 (ih1 hg h u) (ih2 hg (.loop h) u)
  | loop_end h0 _ ih => cases ht with | loop h => exact .loop_end h0 (ih hg h u)
  | and_ok _ ih => cases ht with
    | leaf h' => cases h'
    | and_ h => exact .and_ok (ih hg h u)
  | and_fail _ ih => cases ht with
    | leaf h' => cases h'
    | and_ h => exact .and_fail (ih hg h u)
  | not_ok _ ih => cases ht with
    | leaf h' => cases h'
    | not_ h => exact .not_ok (ih hg h u)
  | not_fail _ ih => cases ht with
    | leaf h' => cases h'
    | not_ h => exact .not_fail (ih hg h u)
  | scope_ok _ ih => cases ht with
    | leaf h' => cases h'
    | capScope h => exact .scope_ok (ih hg h u)
  | scope_fail _ ih => cases ht with
    | leaf h' => cases h'
    | capScope h => exact .scope_fail (ih hg h u)
  | cap_ok _ ih => cases ht with
    | leaf h' => cases h'
    | cap h => rw [← hg.input]; exact .cap_ok (ih hg h u)
  | cap_fail _ ih => cases ht with
    | leaf h' => cases h'
    | cap h => exact .cap_fail (ih hg h u)
  | bref h _ ih => cases ht; exact .bref h (ih hg .text u)
  | bref_no h => cases ht; exact .bref_no h
  | tok_ok _ _ ih1 ih2 => cases ht with
    | leaf h' => cases h'
    | tok h => exact .tok_ok (ih1 hg h u) (ih2 hg .skip u)
  | tok_fail _ ih => cases ht with
    | leaf h' => cases h'
    | tok h => exact .tok_fail (ih hg h u)
  | ign_ok _ ih => cases ht with
    | leaf h' => cases h'
    | ign h => exact .ign_ok (ih hg h u)
  | ign_fail _ ih => cases ht with
    | leaf h' => cases h'
    | ign h => exact .ign_fail (ih hg h u)
  | ref h1 h2 _ ih => cases ht with
    | leaf h' => cases h'
    | call h3 h4 _ => rw [h1] at h3; cases h3; rw [h2] at h4; cases h4
    | ref h3 h4 =>
      obtain ⟨d', e1, e2⟩ := hg.rule _ _ h1 h2
      exact .ref e1 (by rw [e2.same]; exact h2) (ih hg (.hold h1 h2) {})
  | call h1 h2 _ ih => cases ht with
    | leaf h' => cases h'
    | ref h3 h4 => rw [h1] at h3; cases h3; rw [h2] at h4; cases h4
    | call h3 h4 h5 => rw [h1] at h3; cases h3; exact ih hg h5 u
  | param h1 _ ih => cases ht with
    | leaf h' => cases h'
    | param h2 h3 => rw [h1] at h2; cases h2; exact ih hg h3 u
  | body h _ ih => cases ht with | body h1 h2 => exact .body (h1.trans h) (ih hg h2 u)
  | body_ok h _ _ ih1 ih2 => cases ht with | body h1 h2 => exact .body_ok (h1.trans h) (ih1 hg h2 u) (ih2 hg .skip u)
  | body_fail h _ ih => cases ht with | body h1 h2 => exact .body_fail (h1.trans h) (ih hg h2 u)
  | rule_fail h hl _ ih => cases ht with
    | hold h1 h2 =>
      rw [h] at h1; cases h1
      obtain ⟨d', e1, e2⟩ := hg.rule _ _ h h2
      exact .rule_fail e1 (by rw [e2.same]; exact hl) (ih hg (.body (by rw [e2.same]) e2.body) u)
  | rule_ok h hl _ hp ih => cases ht with
    | hold h1 h2 =>
      rw [h] at h1; cases h1
      obtain ⟨d', e1, e2⟩ := hg.rule _ _ h h2
      rw [← (hg.frame e2 _ _ _ _ _ _).1]
      exact .rule_ok e1 (by rw [e2.same]; exact hl) (ih hg (.body (by rw [e2.same]) e2.body) u) (by rw [hg.predicate]; exact hp)
  | rule_pred h hl _ hp hq ih => cases ht with
    | hold h1 h2 =>
      rw [h] at h1; cases h1
      obtain ⟨d', e1, e2⟩ := hg.rule _ _ h h2
      rw [← (hg.frame e2 _ _ _ _ _ _).1, ← (hg.frame e2 _ _ _ _ {} none).2]
      exact .rule_pred e1 (by rw [e2.same]; exact hl) (ih hg (.body (by rw [e2.same]) e2.body) u) (by rw [hg.predicate]; exact hp)
        (by rw [(hg.frame e2 _ _ _ _ {} none).2]; exact hq)
  | rule_reject h hl _ hp hq ih => cases ht with
    | hold h1 h2 =>
      rw [h] at h1; cases h1
      obtain ⟨d', e1, e2⟩ := hg.rule _ _ h h2
      exact .rule_reject e1 (by rw [e2.same]; exact hl) (ih hg (.body (by rw [e2.same]) e2.body) u) (by rw [hg.predicate]; exact hp)
        (by rw [(hg.frame e2 _ _ _ _ {} none).2]; exact hq)
  | lr_fail h hl => cases ht with
    | hold h1 h2 => rw [h] at h1; cases h1; rw [hg.noLR _ _ h h2] at hl; cases hl
  | lr_ok h hl => cases ht with
    | hold h1 h2 => rw [h] at h1; cases h1; rw [hg.noLR _ _ h h2] at hl; cases hl
  | grow_stop => cases ht
  | grow_idle => cases ht
  | grow_more => cases ht
  | prec _ ih => cases ht with | leaf h' => cases h'
  | prec_fail _ _ => cases ht
  | prec_atom _ _ _ _ => cases ht
  | prec_eof _ => cases ht
  | prec_noOp _ _ _ => cases ht
  | prec_stop _ _ _ _ _ _ _ => cases ht
  | prec_noRhs _ _ _ _ _ _ _ _ _ _ => cases ht
  | prec_more _ _ _ _ _ _ _ _ _ _ _ _ _ _ => cases ht

/-! ## From the expansion to the grammar -/

/-- `TRel` at the level of one operator: neither a parameter nor a call on the left. -/
inductive Head (rs : List Def) (v : Env) : Ope → Ope → Prop
  | ref {r nm as as' d} : rs[r]? = some d → d.isMacro = false → Head rs v (.ref r nm as) (.ref r nm as')
  | leaf {e} : e.leaf = true → Head rs v e e
  | seq {es es' kw kw'} : TRel rs v (.seqL es) (.seqL es') → Head rs v (.seq es kw) (.seq es' kw')
  | cho {es es' l l' fs fs'} : TRel rs v (.seqL es) (.seqL es') → Head rs v (.cho es l fs) (.cho es' l' fs')
  | rep {e e' a b c c'} : TRel rs v (.ope e) (.ope e') → Head rs v (.rep e a b c) (.rep e' a b c')
  | and_ {e e'} : TRel rs v (.ope e) (.ope e') → Head rs v (.and_ e) (.and_ e')
  | not_ {e e'} : TRel rs v (.ope e) (.ope e') → Head rs v (.not_ e) (.not_ e')
  | capScope {e e'} : TRel rs v (.ope e) (.ope e') → Head rs v (.capScope e) (.capScope e')
  | cap {nm e e'} : TRel rs v (.ope e) (.ope e') → Head rs v (.cap nm e) (.cap nm e')
  | tok {e e'} : TRel rs v (.ope e) (.ope e') → Head rs v (.tok e) (.tok e')
  | ign {e e'} : TRel rs v (.ope e) (.ope e') → Head rs v (.ign e) (.ign e')
  | ws {e e'} : TRel rs v (.ope e) (.ope e') → Head rs v (.ws e) (.ws e')

/-- Calls and parameters are unfolded until an operator is met. -/
theorem TRel.unroll (G : Gram V) {v : Env} {t t' : PTask} (h : TRel G.rules v t t') : ∀ e e', t = .ope e → t' = .ope e' →
    ∃ v0 e0, Head G.rules v0 e0 e' ∧ ∀ m i s (x : PRes V), Peg G v0 m (.ope e0) i s x → Peg G v m (.ope e) i s x := by
  induction h with
  | param h1 _ ih =>
    intro e e' h h'; cases h; cases h'
    obtain ⟨v0, e0, a, b⟩ := ih _ _ rfl rfl
    exact ⟨v0, e0, a, fun m i s x hx => .param h1 (b _ _ _ _ hx)⟩
  | call h1 h2 _ ih =>
    intro e e' h h'; cases h; cases h'
    obtain ⟨v0, e0, a, b⟩ := ih _ _ rfl rfl
    exact ⟨v0, e0, a, fun m i s x hx => .call h1 h2 (b _ _ _ _ hx)⟩
  | ref h1 h2 => intro e e' h h'; cases h; cases h'; exact ⟨_, _, .ref h1 h2, fun _ _ _ _ h => h⟩
  | leaf h1 => intro e e' h h'; cases h; cases h'; exact ⟨_, _, .leaf h1, fun _ _ _ _ h => h⟩
  | seq h1 => intro e e' h h'; cases h; cases h'; exact ⟨_, _, .seq h1, fun _ _ _ _ h => h⟩
  | cho h1 => intro e e' h h'; cases h; cases h'; exact ⟨_, _, .cho h1, fun _ _ _ _ h => h⟩
  | rep h1 => intro e e' h h'; cases h; cases h'; exact ⟨_, _, .rep h1, fun _ _ _ _ h => h⟩
  | and_ h1 => intro e e' h h'; cases h; cases h'; exact ⟨_, _, .and_ h1, fun _ _ _ _ h => h⟩
  | not_ h1 => intro e e' h h'; cases h; cases h'; exact ⟨_, _, .not_ h1, fun _ _ _ _ h => h⟩
  | capScope h1 => intro e e' h h'; cases h; cases h'; exact ⟨_, _, .capScope h1, fun _ _ _ _ h => h⟩
  | cap h1 => intro e e' h h'; cases h; cases h'; exact ⟨_, _, .cap h1, fun _ _ _ _ h => h⟩
  | tok h1 => intro e e' h h'; cases h; cases h'; exact ⟨_, _, .tok h1, fun _ _ _ _ h => h⟩
  | ign h1 => intro e e' h h'; cases h; cases h'; exact ⟨_, _, .ign h1, fun _ _ _ _ h => h⟩
  | ws h1 => intro e e' h h'; cases h; cases h'; exact ⟨_, _, .ws h1, fun _ _ _ _ h => h⟩
  | _ => intro e e' h h'; cases h

theorem TRel.back {G G' : Gram V} (hg : GramRel G G') {u : Env} {m : Mode} {t' : PTask} {i : Nat} {s : PSt V} {x : PRes V}
    (h : Peg G' u m t' i s x) {t : PTask} {v : Env} (ht : TRel G.rules v t t') : Peg G v m t i s x := by
  have un : ∀ {G : Gram V} {v : Env} {t : PTask} {e' : Ope}, TRel G.rules v t (.ope e') → ∃ e, t = .ope e ∧ ∃ v0 e0, Head G.rules v0 e0 e' ∧
      ∀ m i s (x : PRes V), Peg G v0 m (.ope e0) i s x → Peg G v m (.ope e) i s x := by
    intro G v t e' h
    have : ∃ e, t = .ope e := by cases h <;> exact ⟨_, rfl⟩
    obtain ⟨e, rfl⟩ := this
    exact ⟨e, rfl, h.unroll G _ _ rfl rfl⟩
  induction h generalizing G t v with
  | skip_tok h => cases ht; exact .skip_tok h
  | skip_none h => cases ht; exact .skip_none (hg.ws.symm.trans h)
  | skip_ws h1 h2 _ ih =>
    cases ht
    have h2' := hg.ws.symm.trans h2
    exact .skip_ws h1 h2' (ih hg (hg.wsRel _ h2' _))
  | ws_in h =>
    obtain ⟨e, rfl, v0, e0, hh, hk⟩ := un ht
    refine hk _ _ _ _ ?_
    cases hh with
    | leaf h' => cases h'
    | ws h' => exact .ws_in h
  | ws_out h _ ih =>
    obtain ⟨e, rfl, v0, e0, hh, hk⟩ := un ht
    refine hk _ _ _ _ ?_
    cases hh with
    | leaf h' => cases h'
    | ws h' => exact .ws_out h (ih hg h')
  | @one_ok G' v m e f k i s h1 h2 =>
    obtain ⟨e1, rfl, v0, e0, hh, hk⟩ := un ht
    refine hk _ _ _ _ ?_
    cases e <;> simp only [Ope.single, reduceCtorEq, Option.some.injEq] at h1 <;> subst h1 <;> cases hh <;>
      exact .one_ok rfl (by rw [← hg.input]; exact h2)
  | @one_fail G' v m e f i s h1 h2 =>
    obtain ⟨e1, rfl, v0, e0, hh, hk⟩ := un ht
    refine hk _ _ _ _ ?_
    cases e <;> simp only [Ope.single, reduceCtorEq, Option.some.injEq] at h1 <;> subst h1 <;> cases hh <;>
      exact .one_fail rfl (by rw [← hg.input]; exact h2)
  | lit _ ih =>
    obtain ⟨e, rfl, v0, e0, hh, hk⟩ := un ht
    refine hk _ _ _ _ ?_
    cases hh with
    | leaf h' => exact .lit (ih hg .text)
  | text_no h1 => cases ht; exact .text_no (by rw [← hg.input]; exact h1)
  | text_plain h1 h2 _ ih => cases ht; exact .text_plain (by rw [← hg.input]; exact h1) (hg.word.symm.trans h2) (ih hg .skip)
  | text_nonword h1 h2 _ _ ih1 ih2 =>
    cases ht; exact .text_nonword (by rw [← hg.input]; exact h1) (hg.word.symm.trans h2) (ih1 (hg.bare _ _ rfl) (hg.wordRel _ (hg.word.symm.trans h2) _)) (ih2 hg .skip)
  | text_word h1 h2 _ _ _ ih1 ih2 ih3 =>
    cases ht; exact .text_word (by rw [← hg.input]; exact h1) (hg.word.symm.trans h2) (ih1 (hg.bare _ _ rfl) (hg.wordRel _ (hg.word.symm.trans h2) _)) (ih2 (hg.bare _ _ hg.input) (hg.wordRel _ (hg.word.symm.trans h2) _)) (ih3 hg .skip)
  | text_longer h1 h2 _ _ ih1 ih2 =>
    cases ht; exact .text_longer (by rw [← hg.input]; exact h1) (hg.word.symm.trans h2) (ih1 (hg.bare _ _ rfl) (hg.wordRel _ (hg.word.symm.trans h2) _)) (ih2 (hg.bare _ _ hg.input) (hg.wordRel _ (hg.word.symm.trans h2) _))
  | dict_no h1 =>
    obtain ⟨e, rfl, v0, e0, hh, hk⟩ := un ht
    refine hk _ _ _ _ ?_
    cases hh with
    | leaf h' => exact .dict_no (by rw [← hg.input]; exact h1)
  | dict_plain h1 h3 h2 _ ih =>
    obtain ⟨e, rfl, v0, e0, hh, hk⟩ := un ht
    refine hk _ _ _ _ ?_
    cases hh with
    | leaf h' => exact .dict_plain (by rw [← hg.input]; exact h1) h3 (hg.word.symm.trans h2) (ih hg .skip)
  | dict_word h1 h3 h2 _ _ ih1 ih2 =>
    obtain ⟨e, rfl, v0, e0, hh, hk⟩ := un ht
    refine hk _ _ _ _ ?_
    cases hh with
    | leaf h' => exact .dict_word (by rw [← hg.input]; exact h1) h3 (hg.word.symm.trans h2) (ih1 (hg.bare _ _ hg.input) (hg.wordRel _ (hg.word.symm.trans h2) _)) (ih2 hg .skip)
  | dict_longer h1 h3 h2 _ ih =>
    obtain ⟨e, rfl, v0, e0, hh, hk⟩ := un ht
    refine hk _ _ _ _ ?_
    cases hh with
    | leaf h' => exact .dict_longer (by rw [← hg.input]; exact h1) h3 (hg.word.symm.trans h2) (ih (hg.bare _ _ hg.input) (hg.wordRel _ (hg.word.symm.trans h2) _))
  | seq _ ih =>
    obtain ⟨e, rfl, v0, e0, hh, hk⟩ := un ht
    refine hk _ _ _ _ ?_
    cases hh with
    | leaf h' => cases h'
    | seq h' => exact .seq (ih hg h')
  | seq_nil => cases ht; exact .seq_nil
  | seq_fail _ ih => cases ht with | cons h1 h2 => exact .seq_fail (ih hg h1)
  | seq_cons _ _ ih1 ih2 => cases ht with | cons h1 h2 => exact .seq_cons (ih1 hg h1) (ih2 hg h2)
  | cho _ ih =>
    obtain ⟨e, rfl, v0, e0, hh, hk⟩ := un ht
    refine hk _ _ _ _ ?_
    cases hh with
    | leaf h' => cases h'
    | cho h' =>
      refine .cho ?_
      rw [h'.len _ _ rfl rfl] at ih
      exact ih hg (.choL h')
  | cho_nil => cases ht with | choL h => cases h; exact .cho_nil
  | cho_ok _ ih => cases ht with | choL h => cases h with | cons h1 h2 => exact .cho_ok (ih hg h1)
  | cho_cut _ ih => cases ht with | choL h => cases h with | cons h1 h2 => exact .cho_cut (ih hg h1)
  | cho_next _ _ ih1 ih2 => cases ht with | choL h => cases h with | cons h1 h2 => exact .cho_next (ih1 hg h1) (ih2 hg (.choL h2))
  | cut =>
    obtain ⟨e, rfl, v0, e0, hh, hk⟩ := un ht
    refine hk _ _ _ _ ?_
    cases hh with
    | leaf h' => exact .cut 
  | rep _ ih =>
    obtain ⟨e, rfl, v0, e0, hh, hk⟩ := un ht
    refine hk _ _ _ _ ?_
    cases hh with
    | leaf h' => cases h'
    | rep h' => exact .rep (ih hg (.loop h'))
  | loop_must _ _ ih1 ih2 => cases ht with | loop h => exact .loop_must (ih1 hg h) (ih2 hg (.loop h))
  | loop_fail _ ih => cases ht with | loop h => exact .loop_fail (ih hg h)
  | loop_full h => cases ht with | loop _ => exact .loop_full h
  | loop_more h0 _ _ ih1 ih2 => cases ht with | loop h => exact .loop_more h0 (ih1 hg h) (ih2 hg (.loop h))
  | loop_end h0 _ ih => cases ht with | loop h => exact .loop_end h0 (ih hg h)
  | and_ok _ ih =>
    obtain ⟨e, rfl, v0, e0, hh, hk⟩ := un ht
    refine hk _ _ _ _ ?_
    cases hh with
    | leaf h' => cases h'
    | and_ h' => exact .and_ok (ih hg h')
  | and_fail _ ih =>
    obtain ⟨e, rfl, v0, e0, hh, hk⟩ := un ht
    refine hk _ _ _ _ ?_
    cases hh with
    | leaf h' => cases h'
    | and_ h' => exact .and_fail (ih hg h')
  | not_ok _ ih =>
    obtain ⟨e, rfl, v0, e0, hh, hk⟩ := un ht
    refine hk _ _ _ _ ?_
    cases hh with
    | leaf h' => cases h'
    | not_ h' => exact .not_ok (ih hg h')
  | not_fail _ ih =>
    obtain ⟨e, rfl, v0, e0, hh, hk⟩ := un ht
    refine hk _ _ _ _ ?_
    cases hh with
    | leaf h' => cases h'
    | not_ h' => exact .not_fail (ih hg h')
  | scope_ok _ ih =>
    obtain ⟨e, rfl, v0, e0, hh, hk⟩ := un ht
    refine hk _ _ _ _ ?_
    cases hh with
    | leaf h' => cases h'
    | capScope h' => exact .scope_ok (ih hg h')
  | scope_fail _ ih =>
    obtain ⟨e, rfl, v0, e0, hh, hk⟩ := un ht
    refine hk _ _ _ _ ?_
    cases hh with
    | leaf h' => cases h'
    | capScope h' => exact .scope_fail (ih hg h')
  | cap_ok _ ih =>
    obtain ⟨e, rfl, v0, e0, hh, hk⟩ := un ht
    refine hk _ _ _ _ ?_
    cases hh with
    | leaf h' => cases h'
    | cap h' => rw [hg.input]; exact .cap_ok (ih hg h')
  | cap_fail _ ih =>
    obtain ⟨e, rfl, v0, e0, hh, hk⟩ := un ht
    refine hk _ _ _ _ ?_
    cases hh with
    | leaf h' => cases h'
    | cap h' => exact .cap_fail (ih hg h')
  | bref h _ ih =>
    obtain ⟨e, rfl, v0, e0, hh, hk⟩ := un ht
    refine hk _ _ _ _ ?_
    cases hh with
    | leaf h' => exact .bref h (ih hg .text)
  | bref_no h =>
    obtain ⟨e, rfl, v0, e0, hh, hk⟩ := un ht
    refine hk _ _ _ _ ?_
    cases hh with
    | leaf h' => exact .bref_no h
  | tok_ok _ _ ih1 ih2 =>
    obtain ⟨e, rfl, v0, e0, hh, hk⟩ := un ht
    refine hk _ _ _ _ ?_
    cases hh with
    | leaf h' => cases h'
    | tok h' => exact .tok_ok (ih1 hg h') (ih2 hg .skip)
  | tok_fail _ ih =>
    obtain ⟨e, rfl, v0, e0, hh, hk⟩ := un ht
    refine hk _ _ _ _ ?_
    cases hh with
    | leaf h' => cases h'
    | tok h' => exact .tok_fail (ih hg h')
  | ign_ok _ ih =>
    obtain ⟨e, rfl, v0, e0, hh, hk⟩ := un ht
    refine hk _ _ _ _ ?_
    cases hh with
    | leaf h' => cases h'
    | ign h' => exact .ign_ok (ih hg h')
  | ign_fail _ ih =>
    obtain ⟨e, rfl, v0, e0, hh, hk⟩ := un ht
    refine hk _ _ _ _ ?_
    cases hh with
    | leaf h' => cases h'
    | ign h' => exact .ign_fail (ih hg h')
  | ref h1 h2 _ ih =>
    obtain ⟨e, rfl, v0, e0, hh, hk⟩ := un ht
    refine hk _ _ _ _ ?_
    cases hh with
    | leaf h' => cases h'
    | ref h3 h4 => exact .ref h3 h4 (ih hg (.hold h3 h4))
  | call h1 h2 _ ih =>
    obtain ⟨e, rfl, v0, e0, hh, hk⟩ := un ht
    refine hk _ _ _ _ ?_
    cases hh with
    | leaf h' => cases h'
    | ref h3 h4 =>
      obtain ⟨d', e1, e2⟩ := hg.rule _ _ h3 h4
      rw [h1] at e1; cases e1
      rw [e2.same] at h2
      exact absurd (h4.symm.trans h2) (by simp)
  | param h1 _ ih =>
    obtain ⟨e, rfl, v0, e0, hh, hk⟩ := un ht
    cases hh with
    | leaf h' => cases h'
  | body h _ ih => cases ht with | body h1 h2 => exact .body (h1.symm.trans h) (ih hg h2)
  | body_ok h _ _ ih1 ih2 => cases ht with | body h1 h2 => exact .body_ok (h1.symm.trans h) (ih1 hg h2) (ih2 hg .skip)
  | body_fail h _ ih => cases ht with | body h1 h2 => exact .body_fail (h1.symm.trans h) (ih hg h2)
  | rule_fail h hl _ ih => cases ht with
    | hold h1 h2 =>
      obtain ⟨d', e1, e2⟩ := hg.rule _ _ h1 h2
      rw [h] at e1; cases e1
      exact .rule_fail h1 (by rw [e2.same] at hl; exact hl) (ih hg (.body (by rw [e2.same]) e2.body))
  | rule_ok h hl _ hp ih => cases ht with
    | hold h1 h2 =>
      obtain ⟨d', e1, e2⟩ := hg.rule _ _ h1 h2
      rw [h] at e1; cases e1
      rw [(hg.frame e2 _ _ _ _ _ _).1]
      exact .rule_ok h1 (by rw [e2.same] at hl; exact hl) (ih hg (.body (by rw [e2.same]) e2.body)) (by rw [← hg.predicate]; exact hp)
  | rule_pred h hl _ hp hq ih => cases ht with
    | hold h1 h2 =>
      obtain ⟨d', e1, e2⟩ := hg.rule _ _ h1 h2
      rw [h] at e1; cases e1
      rw [(hg.frame e2 _ _ _ _ _ _).1, (hg.frame e2 _ _ _ _ {} none).2]
      exact .rule_pred h1 (by rw [e2.same] at hl; exact hl) (ih hg (.body (by rw [e2.same]) e2.body)) (by rw [← hg.predicate]; exact hp)
        (by rw [← (hg.frame e2 _ _ _ _ {} none).2]; exact hq)
  | rule_reject h hl _ hp hq ih => cases ht with
    | hold h1 h2 =>
      obtain ⟨d', e1, e2⟩ := hg.rule _ _ h1 h2
      rw [h] at e1; cases e1
      exact .rule_reject h1 (by rw [e2.same] at hl; exact hl) (ih hg (.body (by rw [e2.same]) e2.body)) (by rw [← hg.predicate]; exact hp)
        (by rw [← (hg.frame e2 _ _ _ _ {} none).2]; exact hq)
  | lr_fail h hl => cases ht with
    | hold h1 h2 =>
      obtain ⟨d', e1, e2⟩ := hg.rule _ _ h1 h2
      rw [h] at e1; cases e1
      rw [e2.same] at hl
      exact absurd ((hg.noLR _ _ h1 h2).symm.trans hl) (by simp)
  | lr_ok h hl => cases ht with
    | hold h1 h2 =>
      obtain ⟨d', e1, e2⟩ := hg.rule _ _ h1 h2
      rw [h] at e1; cases e1
      rw [e2.same] at hl
      exact absurd ((hg.noLR _ _ h1 h2).symm.trans hl) (by simp)
  | grow_stop => cases ht
  | grow_idle => cases ht
  | grow_more => cases ht
  | prec _ ih =>
    obtain ⟨e, rfl, v0, e0, hh, hk⟩ := un ht
    cases hh with
    | leaf h' => cases h'
  | prec_fail _ _ => cases ht
  | prec_atom _ _ _ _ => cases ht
  | prec_eof _ => cases ht
  | prec_noOp _ _ _ => cases ht
  | prec_stop _ _ _ _ _ _ _ => cases ht
  | prec_noRhs _ _ _ _ _ _ _ _ _ _ => cases ht
  | prec_more _ _ _ _ _ _ _ _ _ _ _ _ _ _ => cases ht

end Verif
