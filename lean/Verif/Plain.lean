import Verif.PegDet
/-!
# Annotations have no meaning

The reference semantics ignores what the program computes in advance (first sets, keyword guards, span scans): erasing all
annotations of a grammar changes no result.
-/

namespace Verif
open CharClass

mutual
/-- The expression without annotations. -/
def Ope.plain : Ope → Ope
  | .seq es _ => .seq (Ope.plainL es) none
  | .cho es l _ => .cho (Ope.plainL es) l []
  | .rep e mn mx _ => .rep e.plain mn mx none
  | .and_ e => .and_ e.plain
  | .not_ e => .not_ e.plain
  | .dict w ic => .dict w ic
  | .lit s ic => .lit s ic
  | .cls c => .cls c
  | .chr c => .chr c
  | .dot => .dot
  | .capScope e => .capScope e.plain
  | .cap nm e => .cap nm e.plain
  | .tok e => .tok e.plain
  | .ign e => .ign e.plain
  | .usr id => .usr id
  | .weak r => .weak r
  | .ref r nm as => .ref r nm (Ope.plainL as)
  | .param k nm => .param k nm
  | .ws e => .ws e.plain
  | .bref nm => .bref nm
  | .prec a b info r => .prec a.plain b.plain info r
  | .recov r nm as => .recov r nm (Ope.plainL as)
  | .cut => .cut
  | .null => .null

def Ope.plainL : List Ope → List Ope
  | [] => []
  | e :: es => e.plain :: Ope.plainL es
end

/-- The rule without annotations. -/
def Def.plain (d : Def) : Def := { d with ope := d.ope.plain }

variable {V : Type}

/-- The grammar without annotations. -/
def Gram.plain (G : Gram V) : Gram V :=
  { G with rules := G.rules.map Def.plain, ws := G.ws.map Ope.plain, word := G.word.map Ope.plain }

def Env.plain (v : Env) : Env := { v with args := Ope.plainL v.args }

def PTask.plain : PTask → PTask
  | .ope e => .ope e.plain
  | .seqL es => .seqL (Ope.plainL es)
  | .choL es k n => .choL (Ope.plainL es) k n
  | .loop e need mx c => .loop e.plain need mx c
  | .text t ic => .text t ic
  | .skip => .skip
  | .body d => .body d.plain
  | .hold r => .hold r
  | .grow r i => .grow r i
  | .prec a b info r mp => .prec a.plain b.plain info r mp
  | .precL a b info r mp st => .precL a.plain b.plain info r mp st

theorem plainL_eq_map (es : List Ope) : Ope.plainL es = es.map Ope.plain := by
  induction es with
  | nil => rfl
  | cons e es ih => simp [Ope.plainL, ih]

theorem plain_isChoiceLike (e : Ope) : e.plain.isChoiceLike = e.isChoiceLike := by
  cases e <;> simp [Ope.plain, Ope.isChoiceLike]

theorem plain_choiceLikeTop (e : Ope) : e.plain.choiceLikeTop = e.choiceLikeTop := by
  cases e with
  | tok e => simp only [Ope.plain, Ope.choiceLikeTop]; exact plain_isChoiceLike e
  | _ => simp [Ope.plain, Ope.choiceLikeTop, Ope.isChoiceLike]

theorem single_plain {e : Ope} {f : List Byte → Option Nat} (h : e.single = some f) : e.plain.single = some f := by
  cases e <;> simp_all [Ope.plain, Ope.single]

theorem lookupArg_plain (ps : List (List Byte)) (as : List Ope) (nm : List Byte) :
    lookupArg ps (Ope.plainL as) nm = (lookupArg ps as nm).map Ope.plain := by
  unfold lookupArg
  rw [plainL_eq_map]
  induction ps generalizing as with
  | nil => simp
  | cons p ps ih =>
    cases as with
    | nil => simp
    | cons a as =>
      simp only [List.map_cons, List.zip_cons_cons, List.find?_cons]
      by_cases h : p = nm
      · simp [h]
      · simp [h, ih]

mutual
theorem resolve_plain (ps : List (List Byte)) (as : List Ope) : ∀ e : Ope,
    resolve ps (Ope.plainL as) e.plain = (resolve ps as e).plain
  | .seq es _ => by simp only [resolve, Ope.plain, resolveList_plain ps as es]
  | .cho es _ _ => by simp only [resolve, Ope.plain, resolveList_plain ps as es]
  | .rep e _ _ _ => by simp only [resolve, Ope.plain, resolve_plain ps as e]
  | .and_ e => by simp only [resolve, Ope.plain, resolve_plain ps as e]
  | .not_ e => by simp only [resolve, Ope.plain, resolve_plain ps as e]
  | .dict _ _ => by simp only [resolve, Ope.plain]
  | .lit _ _ => by simp only [resolve, Ope.plain]
  | .cls _ => by simp only [resolve, Ope.plain]
  | .chr _ => by simp only [resolve, Ope.plain]
  | .dot => by simp only [resolve, Ope.plain]
  | .capScope e => by simp only [resolve, Ope.plain, resolve_plain ps as e]
  | .cap _ e => by simp only [resolve, Ope.plain, resolve_plain ps as e]
  | .tok e => by simp only [resolve, Ope.plain, resolve_plain ps as e]
  | .ign e => by simp only [resolve, Ope.plain, resolve_plain ps as e]
  | .usr _ => by simp only [resolve, Ope.plain]
  | .weak _ => by simp only [resolve, Ope.plain]
  | .ref r nm xs => by
    simp only [resolve, Ope.plain, lookupArg_plain]
    cases lookupArg ps as nm <;> simp [Ope.plain]
  | .param k nm => by
    simp only [resolve, Ope.plain, lookupArg_plain]
    cases lookupArg ps as nm <;> simp [Ope.plain]
  | .ws e => by simp only [resolve, Ope.plain, resolve_plain ps as e]
  | .bref _ => by simp only [resolve, Ope.plain]
  | .prec a _ _ _ => by simp only [resolve, Ope.plain, resolve_plain ps as a]
  | .recov r nm xs => by
    simp only [resolve, Ope.plain, lookupArg_plain]
    cases h : lookupArg ps as nm with
    | none => simp [Ope.plain]
    | some a => cases a <;> simp [Ope.plain]
  | .cut => by simp only [resolve, Ope.plain]
  | .null => by simp only [resolve, Ope.plain]

theorem resolveList_plain (ps : List (List Byte)) (as : List Ope) : ∀ es : List Ope,
    resolveList ps (Ope.plainL as) (Ope.plainL es) = Ope.plainL (resolveList ps as es)
  | [] => rfl
  | e :: es => by simp only [resolveList, Ope.plainL, resolve_plain ps as e, resolveList_plain ps as es]
end

theorem plain_rules {G : Gram V} {r : Nat} {d : Def} (h : G.rules[r]? = some d) : G.plain.rules[r]? = some d.plain := by
  simp [Gram.plain, h]

theorem ruleFrame_plain (r : Nat) (d : Def) (i j : Nat) (f : Frame V) : ruleFrame r d.plain i j f = ruleFrame r d i j f := by
  unfold ruleFrame Def.plain
  simp only [plain_choiceLikeTop]

theorem ruleValue_plain (G : Gram V) (r : Nat) (d : Def) (i j : Nat) (f : Frame V) (pd : Option V) :
    ruleValue G.plain r d.plain i j f pd = ruleValue G r d i j f pd := rfl

theorem pushValue_plain (d : Def) (v : Option V) (f : Frame V) : pushValue d.plain v f = pushValue d v f := rfl

theorem lrSplit_plain (r : Nat) (es : List Ope) : lrSplit r (Ope.plainL es) =
    ((lrSplit r es).1.map Ope.plainL, Ope.plainL (lrSplit r es).2) := by
  induction es with
  | nil => rfl
  | cons e es ih =>
    cases e with
    | seq l kw =>
      cases l with
      | nil => rfl
      | cons a l =>
        cases a with
        | ref r' nm as =>
          cases as with
          | nil =>
            simp only [Ope.plainL, Ope.plain, lrSplit]
            by_cases h : r' = r
            · simp only [h, if_true, ih, List.map_cons]
            · simp only [h, if_false, List.map_nil, Ope.plainL, Ope.plain]
          | cons b as => rfl
        | _ => rfl
    | _ => rfl

theorem seqs_plain (ts : List (List Ope)) : (ts.map Ope.plainL).map (Ope.seq · none) = Ope.plainL (ts.map (.seq · none)) := by
  induction ts with
  | nil => rfl
  | cons t ts ih => simp only [List.map_cons, Ope.plainL, Ope.plain, ih]

theorem plainL_length (es : List Ope) : (Ope.plainL es).length = es.length := by simp [plainL_eq_map]

/-- Erasing annotations changes no result. -/
theorem Peg.plain {G : Gram V} {v : Env} {m : Mode} {t : PTask} {i : Nat} {s : PSt V} {x : PRes V}
    (h : Peg G v m t i s x) : Peg G.plain v.plain m t.plain i s x := by
  induction h with
  | skip_tok h => exact .skip_tok h
  | skip_none h => exact .skip_none (by simp [Gram.plain, h])
  | skip_ws h1 h2 _ ih => exact .skip_ws h1 (w := Ope.plain _) (by simp [Gram.plain, h2]) ih
  | ws_in h => exact .ws_in h
  | ws_out h _ ih => exact .ws_out h ih
  | one_ok h1 h2 => exact .one_ok (single_plain h1) h2
  | one_fail h1 h2 => exact .one_fail (single_plain h1) h2
  | lit _ ih => exact .lit ih
  | text_no h => exact .text_no h
  | text_plain h1 h2 _ ih => exact .text_plain h1 (by simp [Gram.plain, h2]) ih
  | text_nonword h1 h2 _ _ ih1 ih2 => exact .text_nonword h1 (w := Ope.plain _) (by simp [Gram.plain, h2]) ih1 ih2
  | text_word h1 h2 _ _ _ ih1 ih2 ih3 => exact .text_word h1 (w := Ope.plain _) (by simp [Gram.plain, h2]) ih1 ih2 ih3
  | text_longer h1 h2 _ _ ih1 ih2 => exact .text_longer h1 (w := Ope.plain _) (by simp [Gram.plain, h2]) ih1 ih2
  | dict_no h => exact .dict_no h
  | dict_plain h1 h2 h3 _ ih => exact .dict_plain h1 h2 (by simp [Gram.plain, h3]) ih
  | dict_word h1 h2 h3 _ _ ih1 ih2 => exact .dict_word h1 h2 (w := Ope.plain _) (by simp [Gram.plain, h3]) ih1 ih2
  | dict_longer h1 h2 h3 _ ih1 => exact .dict_longer h1 h2 (w := Ope.plain _) (by simp [Gram.plain, h3]) ih1
  | seq _ ih => exact .seq ih
  | seq_nil => exact .seq_nil
  | seq_fail _ ih => exact .seq_fail ih
  | seq_cons _ _ ih1 ih2 => exact .seq_cons ih1 ih2
  | @cho G v m es l fs i s x h ih =>
    have : (Ope.plainL es).length = es.length := by simp [plainL_eq_map]
    have ih' : Peg G.plain v.plain m (.choL (Ope.plainL es) 0 (Ope.plainL es).length) i s x := by rw [this]; exact ih
    exact .cho ih'
  | cho_nil => exact .cho_nil
  | cho_ok _ ih => exact .cho_ok ih
  | cho_cut _ ih => exact .cho_cut ih
  | cho_next _ _ ih1 ih2 => exact .cho_next ih1 ih2
  | cut => exact .cut
  | rep _ ih => exact .rep ih
  | loop_must _ _ ih1 ih2 => exact .loop_must ih1 ih2
  | loop_fail _ ih => exact .loop_fail ih
  | loop_full h => exact .loop_full h
  | loop_more h _ _ ih1 ih2 => exact .loop_more h ih1 ih2
  | loop_end h _ ih => exact .loop_end h ih
  | and_ok _ ih => exact .and_ok ih
  | and_fail _ ih => exact .and_fail ih
  | not_ok _ ih => exact .not_ok ih
  | not_fail _ ih => exact .not_fail ih
  | scope_ok _ ih => exact .scope_ok ih
  | scope_fail _ ih => exact .scope_fail ih
  | cap_ok _ ih => exact .cap_ok ih
  | cap_fail _ ih => exact .cap_fail ih
  | bref h _ ih => exact .bref h ih
  | bref_no h => exact .bref_no h
  | tok_ok _ _ ih1 ih2 => exact .tok_ok ih1 ih2
  | tok_fail _ ih => exact .tok_fail ih
  | ign_ok _ ih => exact .ign_ok ih
  | ign_fail _ ih => exact .ign_fail ih
  | ref h1 h2 _ ih => exact .ref (plain_rules h1) h2 ih
  | @call G v m r nm as d i s x h1 h2 _ ih =>
    refine .call (plain_rules h1) h2 ?_
    show Peg G.plain ⟨d.params, resolveList v.params (Ope.plainL v.args) (Ope.plainL as)⟩ m _ i s x
    rw [resolveList_plain]
    exact ih
  | @param G v m k nm e i s x h _ ih =>
    exact .param (e := e.plain) (by show (Ope.plainL v.args)[k]? = _; rw [plainL_eq_map]; simp [h]) ih
  | body h _ ih => exact .body h ih
  | body_ok h _ _ ih1 ih2 => exact .body_ok h ih1 ih2
  | body_fail h _ ih => exact .body_fail h ih
  | rule_fail h1 h2 _ ih => exact .rule_fail (plain_rules h1) h2 ih
  | @rule_ok G v m r d i s j c s' h1 h2 _ h3 ih =>
    have := Peg.rule_ok (plain_rules h1) h2 ih (show G.plain.predicate r = none from h3)
    rw [ruleFrame_plain, ruleValue_plain, pushValue_plain] at this
    exact this
  | @rule_pred G v m r d i s j c s' p h1 h2 _ h3 h4 ih =>
    have := Peg.rule_pred (plain_rules h1) h2 ih (show G.plain.predicate r = some p from h3) (by rw [ruleFrame_plain]; exact h4)
    rw [ruleFrame_plain, ruleValue_plain, pushValue_plain] at this
    exact this
  | @rule_reject G v m r d i s j c s' p h1 h2 _ h3 h4 ih =>
    exact Peg.rule_reject (plain_rules h1) h2 ih (show G.plain.predicate r = some p from h3) (by rw [ruleFrame_plain]; exact h4)
  | @lr_fail G v m r d es l fs i s c h1 h2 h3 h4 _ ih =>
    refine .lr_fail (es := Ope.plainL es) (l := l) (fs := []) (c := c) (plain_rules h1) h2 h3 (by simp [Def.plain, h4, Ope.plain]) ?_
    rw [lrSplit_plain, plainL_length, List.length_map]; exact ih
  | @lr_ok G v m r d es l fs i s j c s' k c' s'' h1 h2 h3 h4 h5 _ _ ih1 ih2 =>
    refine .lr_ok (es := Ope.plainL es) (l := l) (fs := []) (c := c) (plain_rules h1) h2 h3 (by simp [Def.plain, h4, Ope.plain]) h5 ?_ ?_ (s' := s') (c' := c') (j := j)
    · rw [lrSplit_plain, plainL_length, List.length_map]; exact ih1
    · rw [ruleFrame_plain, ruleValue_plain, pushValue_plain]; exact ih2
  | @grow_stop G v m r d es l fs i j s c h1 h2 _ ih =>
    refine .grow_stop (es := Ope.plainL es) (l := l) (fs := []) (c := c) (plain_rules h1) (by simp [Def.plain, h2, Ope.plain]) ?_
    rw [lrSplit_plain, plainL_length, seqs_plain]; exact ih
  | @grow_idle G v m r d es l fs i j s k c s' h1 h2 _ h3 ih =>
    refine .grow_idle (es := Ope.plainL es) (l := l) (fs := []) (c := c) (k := k) (s' := s') (plain_rules h1) (by simp [Def.plain, h2, Ope.plain]) ?_ h3
    rw [lrSplit_plain, plainL_length, seqs_plain]; exact ih
  | @grow_more G v m r d es l fs i j s k c s' x h1 h2 _ h3 _ ih1 ih2 =>
    refine .grow_more (es := Ope.plainL es) (l := l) (fs := []) (c := c) (k := k) (s' := s') (plain_rules h1) (by simp [Def.plain, h2, Ope.plain]) ?_ h3 ?_
    · rw [lrSplit_plain, plainL_length, seqs_plain]; exact ih1
    · rw [ruleFrame_plain, ruleValue_plain, pushValue_plain]; exact ih2
  | prec _ ih => exact .prec ih
  | prec_fail _ ih => exact .prec_fail ih
  | prec_atom _ _ ih1 ih2 => exact .prec_atom ih1 ih2
  | prec_eof h => exact .prec_eof h
  | prec_noOp h _ ih => exact .prec_noOp h ih
  | prec_stop h1 h2 _ _ h5 ih1 ih2 => exact .prec_stop h1 (plain_rules h2) ih1 ih2 (by rw [ruleFrame_plain]; exact h5)
  | prec_noRhs h1 h2 _ _ h5 h6 _ ih1 ih2 ih3 =>
    exact .prec_noRhs h1 (plain_rules h2) ih1 ih2 (by rw [ruleFrame_plain]; exact h5) h6 ih3
  | prec_more h1 h2 _ _ h5 h6 _ h7 h8 _ ih1 ih2 ih3 ih4 =>
    exact .prec_more h1 (plain_rules h2) ih1 ih2 (by rw [ruleFrame_plain]; exact h5) h6 ih3 h7 h8 ih4

end Verif
