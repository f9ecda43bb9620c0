import Verif.PegDet
import Verif.EngineFrame
/-!
# What has been collected before does not matter

Apart from precedence climbing, an expression adds the same values, tags and tokens to its scope whatever the scope holds already.
-/

namespace Verif
open CharClass

variable {V : Type}

/-- `f` is `p` and `g` is `q`, with the same values, tags and tokens added. -/
structure Over (p q f g : Frame V) : Prop where
  vals : ∃ a, f.vals = p.vals ++ a ∧ g.vals = q.vals ++ a
  tags : ∃ a, f.tags = p.tags ++ a ∧ g.tags = q.tags ++ a
  tokens : ∃ a, f.tokens = p.tokens ++ a ∧ g.tokens = q.tokens ++ a
  sv : f.sv = g.sv
  count : f.choiceCount = g.choiceCount
  choice : f.choice = g.choice
  name : f.name = g.name

def PRes.over (p q : Frame V) : PRes V → PRes V → Prop
  | .fail c, .fail c' => c = c'
  | .ok j c s, .ok j' c' s' => j = j' ∧ c = c' ∧ s.caps = s'.caps ∧ Over p q s.vs s'.vs
  | _, _ => False

section
variable {p q : Frame V}

theorem PRes.over_fail {c : Bool} {y : PRes V} (h : PRes.over p q (.fail c) y) : y = .fail c := by
  cases y with
  | fail c' => simp only [PRes.over] at h; rw [h]
  | ok => cases h

theorem PRes.over_ok {j : Nat} {c : Bool} {s : PSt V} {y : PRes V} (h : PRes.over p q (.ok j c s) y) :
    ∃ s2, y = .ok j c s2 ∧ s2.caps = s.caps ∧ Over p q s.vs s2.vs := by
  cases y with
  | fail => cases h
  | ok j' c' s' =>
    obtain ⟨rfl, rfl, h, h'⟩ := h
    exact ⟨s', rfl, h.symm, h'⟩

theorem PRes.over_orCut {c : Bool} {x y : PRes V} (h : PRes.over p q x y) : PRes.over p q (x.orCut c) (y.orCut c) := by
  cases x with
  | fail => rw [PRes.over_fail h]; rfl
  | ok => obtain ⟨s2, rfl, h1, h2⟩ := PRes.over_ok h; exact ⟨rfl, rfl, h1.symm, h2⟩

theorem PRes.over_noCut {x y : PRes V} (h : PRes.over p q x y) : PRes.over p q x.noCut y.noCut := by
  cases x with
  | fail => rw [PRes.over_fail h]; rfl
  | ok => obtain ⟨s2, rfl, h1, h2⟩ := PRes.over_ok h; exact ⟨rfl, rfl, h1.symm, h2⟩

theorem Over.choose {f g : Frame V} (h : Over p q f g) (n k : Nat) :
    Over p q { f with choiceCount := n, choice := k } { g with choiceCount := n, choice := k } :=
  ⟨h.vals, h.tags, h.tokens, h.sv, rfl, rfl, h.name⟩

theorem Over.token {f g : Frame V} (h : Over p q f g) (t : Nat × Nat) :
    Over p q { f with tokens := f.tokens ++ [t] } { g with tokens := g.tokens ++ [t] } := by
  obtain ⟨a, e1, e2⟩ := h.tokens
  exact ⟨h.vals, h.tags, ⟨a ++ [t], by simp [e1], by simp [e2]⟩, h.sv, h.count, h.choice, h.name⟩

theorem Over.push {f g : Frame V} (h : Over p q f g) (d : Def) (w : Option V) :
    Over p q (pushValue d w f) (pushValue d w g) := by
  unfold pushValue
  split
  · exact h
  · obtain ⟨a, e1, e2⟩ := h.vals
    obtain ⟨b, e3, e4⟩ := h.tags
    exact ⟨⟨a ++ [w], by simp [e1], by simp [e2]⟩, ⟨b ++ [str2tag d.name], by simp only [e3, List.append_assoc], by simp only [e4, List.append_assoc]⟩,
      h.tokens, h.sv, h.count, h.choice, h.name⟩

theorem Over.add {f g : Frame V} (h : Over p q f g) (k : Frame V) : Over p q (f.add k) (g.add k) := by
  obtain ⟨a, e1, e2⟩ := h.vals
  obtain ⟨b, e3, e4⟩ := h.tags
  exact ⟨⟨a ++ k.vals, by simp [Frame.add, e1], by simp [Frame.add, e2]⟩, ⟨b ++ k.tags, by simp [Frame.add, e3], by simp [Frame.add, e4]⟩,
    h.tokens, h.sv, h.count, h.choice, h.name⟩
end

/-- No precedence climbing in white space, word rule and macros. -/
structure Gram.Calm (G : Gram V) : Prop where
  ws : ∀ e, G.ws = some e → e.noPrec = true
  call : ∀ (r : Nat) (d : Def), G.rules[r]? = some d → d.isMacro = true → d.ope.noPrec = true

/-- No precedence climbing in the task itself. -/
def PTask.Calm : PTask → Prop
  | .ope e => e.noPrec = true
  | .seqL es => Ope.noPrecList es = true
  | .choL es _ _ => Ope.noPrecList es = true
  | .loop e _ _ _ => e.noPrec = true
  | .body d => d.ope.noPrec = true
  | .text .. => True
  | .skip => True
  | .hold _ => True
  | _ => False

theorem Peg.shift {G : Gram V} {v : Env} {m : Mode} {t : PTask} {i : Nat} {s : PSt V} {x : PRes V} (h : Peg G v m t i s x)
    (hG : G.Calm) (hv : ∀ e ∈ v.args, e.noPrec = true) (ht : t.Calm) (p q : Frame V) (s2 : PSt V) (e : s2.caps = s.caps)
    (ho : Over p q s.vs s2.vs) : ∃ x2, Peg G v m t i s2 x2 ∧ PRes.over p q x x2 := by
  induction h generalizing s2 with
  | skip_tok h => exact ⟨_, .skip_tok h, rfl, rfl, e.symm, ho⟩
  | skip_none h => exact ⟨_, .skip_none h, rfl, rfl, e.symm, ho⟩
  | skip_ws h1 h2 _ ih =>
    obtain ⟨x2, h, l⟩ := ih hG hv (hG.ws _ h2) s2 e ho
    exact ⟨_, .skip_ws h1 h2 h, l⟩
  | ws_in h => exact ⟨_, .ws_in h, rfl, rfl, e.symm, ho⟩
  | ws_out h1 _ ih =>
    obtain ⟨x2, h, l⟩ := ih hG hv (by simpa only [Ope.noPrec, Ope.noPrecList, Bool.and_eq_true, PTask.Calm] using ht) s2 e ho
    exact ⟨_, .ws_out h1 h, l⟩
  | one_ok h1 h2 => exact ⟨_, .one_ok h1 h2, rfl, rfl, e.symm, ho⟩
  | one_fail h1 h2 => exact ⟨_, .one_fail h1 h2, rfl⟩
  | lit  _ ih =>
    obtain ⟨x2, h, l⟩ := ih hG hv trivial s2 e ho
    exact ⟨_, .lit  h, l⟩
  | text_no h => exact ⟨_, .text_no h, rfl⟩
  | text_plain h1 h2 _ ih =>
    obtain ⟨x2, h, l⟩ := ih hG hv trivial s2 e ho
    exact ⟨_, .text_plain h1 h2 h, l⟩
  | text_nonword h1 h2 h3 _ _ ih =>
    obtain ⟨x2, h, l⟩ := ih hG hv trivial s2 e ho
    exact ⟨_, .text_nonword h1 h2 h3 h, l⟩
  | text_word h1 h2 h3 h4 _ _ _ ih =>
    obtain ⟨x2, h, l⟩ := ih hG hv trivial s2 e ho
    exact ⟨_, .text_word h1 h2 h3 h4 h, l⟩
  | text_longer h1 h2 h3 h4 => exact ⟨_, .text_longer h1 h2 h3 h4, rfl⟩
  | dict_no h => exact ⟨_, .dict_no h, rfl⟩
  | @dict_plain _ _ _ ws _ _ _ _ nn _ h1 h2 h3 _ ih =>
    obtain ⟨x2, h, l⟩ := ih hG hv trivial { s2 with vs := { s2.vs with choiceCount := ws.length, choice := nn } } e (ho.choose _ _)
    exact ⟨_, .dict_plain h1 h2 h3 h, l⟩
  | @dict_word _ _ _ ws _ _ _ _ nn _ _ _ h1 h2 h3 h4 _ _ ih =>
    obtain ⟨x2, h, l⟩ := ih hG hv trivial { s2 with vs := { s2.vs with choiceCount := ws.length, choice := nn } } e (ho.choose _ _)
    exact ⟨_, .dict_word h1 h2 h3 h4 h, l⟩
  | dict_longer h1 h2 h3 h4 => exact ⟨_, .dict_longer h1 h2 h3 h4, rfl⟩
  | seq  _ ih =>
    obtain ⟨x2, h, l⟩ := ih hG hv (by simpa only [Ope.noPrec, Ope.noPrecList, Bool.and_eq_true, PTask.Calm] using ht) s2 e ho
    exact ⟨_, .seq  h, l⟩
  | seq_nil  => exact ⟨_, .seq_nil , rfl, rfl, e.symm, ho⟩
  | seq_fail  _ ih =>
    obtain ⟨x2, h, l⟩ := ih hG hv (by simp only [Ope.noPrec, Ope.noPrecList, Bool.and_eq_true, PTask.Calm] at ht ⊢; exact ht.1) s2 e ho
    cases PRes.over_fail l
    exact ⟨_, .seq_fail  h, rfl⟩
  | seq_cons  _ _ ih1 ih2 =>
    obtain ⟨x1, h1, l1⟩ := ih1 hG hv (by simp only [Ope.noPrec, Ope.noPrecList, Bool.and_eq_true, PTask.Calm] at ht ⊢; exact ht.1) s2 e ho
    obtain ⟨s3, rfl, e3, l3⟩ := PRes.over_ok l1
    obtain ⟨x2, h2, l2⟩ := ih2 hG hv (by simp only [Ope.noPrec, Ope.noPrecList, Bool.and_eq_true, PTask.Calm] at ht ⊢; exact ht.2) s3 e3 l3
    exact ⟨_, .seq_cons  h1 h2, PRes.over_orCut l2⟩
  | cho _ ih =>
    obtain ⟨x2, h, l⟩ := ih hG hv (by simpa only [Ope.noPrec, Ope.noPrecList, Bool.and_eq_true, PTask.Calm] using ht) s2 e ho
    exact ⟨_, .cho h, PRes.over_noCut l⟩
  | cho_nil  => exact ⟨_, .cho_nil , rfl⟩
  | cho_ok _ ih =>
    obtain ⟨x2, h, l⟩ := ih hG hv (by simp only [Ope.noPrec, Ope.noPrecList, Bool.and_eq_true, PTask.Calm] at ht ⊢; exact ht.1) s2 e ho
    obtain ⟨s3, rfl, e3, l3⟩ := PRes.over_ok l
    exact ⟨_, .cho_ok h, rfl, rfl, e3.symm, l3.choose _ _⟩
  | cho_cut  _ ih =>
    obtain ⟨x2, h, l⟩ := ih hG hv (by simp only [Ope.noPrec, Ope.noPrecList, Bool.and_eq_true, PTask.Calm] at ht ⊢; exact ht.1) s2 e ho
    cases PRes.over_fail l
    exact ⟨_, .cho_cut  h, rfl⟩
  | cho_next _ _ ih1 ih2 =>
    obtain ⟨x2, h, l⟩ := ih1 hG hv (by simp only [Ope.noPrec, Ope.noPrecList, Bool.and_eq_true, PTask.Calm] at ht ⊢; exact ht.1) s2 e ho
    cases PRes.over_fail l
    obtain ⟨x3, h', l'⟩ := ih2 hG hv (by simp only [Ope.noPrec, Ope.noPrecList, Bool.and_eq_true, PTask.Calm] at ht ⊢; exact ht.2) s2 e ho
    exact ⟨_, .cho_next h h', l'⟩
  | cut  => exact ⟨_, .cut , rfl, rfl, e.symm, ho⟩
  | rep  _ ih =>
    obtain ⟨x2, h, l⟩ := ih hG hv (by simpa only [Ope.noPrec, Ope.noPrecList, Bool.and_eq_true, PTask.Calm] using ht) s2 e ho
    exact ⟨_, .rep  h, l⟩
  | loop_must  _ _ ih1 ih2 =>
    obtain ⟨x1, h1, l1⟩ := ih1 hG hv (by simpa only [Ope.noPrec, Ope.noPrecList, Bool.and_eq_true, PTask.Calm] using ht) s2 e ho
    obtain ⟨s3, rfl, e3, l3⟩ := PRes.over_ok l1
    obtain ⟨x2, h2, l2⟩ := ih2 hG hv (by simpa only [Ope.noPrec, Ope.noPrecList, Bool.and_eq_true, PTask.Calm] using ht) s3 e3 l3
    exact ⟨_, .loop_must  h1 h2, PRes.over_orCut l2⟩
  | loop_fail  _ ih =>
    obtain ⟨x2, h, l⟩ := ih hG hv (by simpa only [Ope.noPrec, Ope.noPrecList, Bool.and_eq_true, PTask.Calm] using ht) s2 e ho
    cases PRes.over_fail l
    exact ⟨_, .loop_fail  h, rfl⟩
  | loop_full h => exact ⟨_, .loop_full h, rfl, rfl, e.symm, ho⟩
  | loop_more hm _ _ ih1 ih2 =>
    obtain ⟨x1, h1, l1⟩ := ih1 hG hv (by simpa only [Ope.noPrec, Ope.noPrecList, Bool.and_eq_true, PTask.Calm] using ht) s2 e ho
    obtain ⟨s3, rfl, e3, l3⟩ := PRes.over_ok l1
    obtain ⟨x2, h2, l2⟩ := ih2 hG hv (by simpa only [Ope.noPrec, Ope.noPrecList, Bool.and_eq_true, PTask.Calm] using ht) s3 e3 l3
    exact ⟨_, .loop_more hm h1 h2, PRes.over_orCut l2⟩
  | loop_end hm _ ih =>
    obtain ⟨x2, h, l⟩ := ih hG hv (by simpa only [Ope.noPrec, Ope.noPrecList, Bool.and_eq_true, PTask.Calm] using ht) s2 e ho
    cases PRes.over_fail l
    exact ⟨_, .loop_end hm h, rfl, rfl, e.symm, ho⟩
  | and_ok  _ ih =>
    obtain ⟨x2, h, l⟩ := ih hG hv (by simpa only [Ope.noPrec, Ope.noPrecList, Bool.and_eq_true, PTask.Calm] using ht) s2 e ho
    obtain ⟨s3, rfl, e3, l3⟩ := PRes.over_ok l
    exact ⟨_, .and_ok  h, rfl, rfl, e.symm, ho⟩
  | and_fail  _ ih =>
    obtain ⟨x2, h, l⟩ := ih hG hv (by simpa only [Ope.noPrec, Ope.noPrecList, Bool.and_eq_true, PTask.Calm] using ht) s2 e ho
    cases PRes.over_fail l
    exact ⟨_, .and_fail  h, rfl⟩
  | not_ok  _ ih =>
    obtain ⟨x2, h, l⟩ := ih hG hv (by simpa only [Ope.noPrec, Ope.noPrecList, Bool.and_eq_true, PTask.Calm] using ht) s2 e ho
    cases PRes.over_fail l
    exact ⟨_, .not_ok  h, rfl, rfl, e.symm, ho⟩
  | not_fail  _ ih =>
    obtain ⟨x2, h, l⟩ := ih hG hv (by simpa only [Ope.noPrec, Ope.noPrecList, Bool.and_eq_true, PTask.Calm] using ht) s2 e ho
    obtain ⟨s3, rfl, e3, l3⟩ := PRes.over_ok l
    exact ⟨_, .not_fail  h, rfl⟩
  | scope_ok  _ ih =>
    obtain ⟨x2, h, l⟩ := ih hG hv (by simpa only [Ope.noPrec, Ope.noPrecList, Bool.and_eq_true, PTask.Calm] using ht) s2 e ho
    obtain ⟨s3, rfl, e3, l3⟩ := PRes.over_ok l
    exact ⟨_, .scope_ok  h, rfl, rfl, e.symm, l3⟩
  | scope_fail  _ ih =>
    obtain ⟨x2, h, l⟩ := ih hG hv (by simpa only [Ope.noPrec, Ope.noPrecList, Bool.and_eq_true, PTask.Calm] using ht) s2 e ho
    cases PRes.over_fail l
    exact ⟨_, .scope_fail  h, rfl⟩
  | cap_ok  _ ih =>
    obtain ⟨x2, h, l⟩ := ih hG hv (by simpa only [Ope.noPrec, Ope.noPrecList, Bool.and_eq_true, PTask.Calm] using ht) s2 e ho
    obtain ⟨s3, rfl, e3, l3⟩ := PRes.over_ok l
    exact ⟨_, .cap_ok  h, rfl, rfl, (by simp only [e3]), l3⟩
  | cap_fail  _ ih =>
    obtain ⟨x2, h, l⟩ := ih hG hv (by simpa only [Ope.noPrec, Ope.noPrecList, Bool.and_eq_true, PTask.Calm] using ht) s2 e ho
    cases PRes.over_fail l
    exact ⟨_, .cap_fail  h, rfl⟩
  | bref h1 _ ih =>
    obtain ⟨x2, h, l⟩ := ih hG hv trivial s2 e ho
    exact ⟨_, .bref (by rw [e]; exact h1) h, l⟩
  | bref_no h1 => exact ⟨_, .bref_no (by rw [e]; exact h1), rfl⟩
  | tok_ok  _ _ ih1 ih2 =>
    obtain ⟨x1, h1, l1⟩ := ih1 hG hv (by simpa only [Ope.noPrec, Ope.noPrecList, Bool.and_eq_true, PTask.Calm] using ht) s2 e ho
    obtain ⟨s3, rfl, e3, l3⟩ := PRes.over_ok l1
    obtain ⟨x2, h2, l2⟩ := ih2 hG hv trivial { s3 with vs := { s3.vs with tokens := s3.vs.tokens ++ [_] } } e3 (l3.token _)
    exact ⟨_, .tok_ok  h1 h2, PRes.over_orCut l2⟩
  | tok_fail  _ ih =>
    obtain ⟨x2, h, l⟩ := ih hG hv (by simpa only [Ope.noPrec, Ope.noPrecList, Bool.and_eq_true, PTask.Calm] using ht) s2 e ho
    cases PRes.over_fail l
    exact ⟨_, .tok_fail  h, rfl⟩
  | ign_ok h _ => exact ⟨_, .ign_ok (by rw [e]; exact h), rfl, rfl, rfl, ho⟩
  | ign_fail h _ => exact ⟨_, .ign_fail (by rw [e]; exact h), rfl⟩
  | ref h1 h2 _ ih =>
    obtain ⟨x2, h, l⟩ := ih hG (by intro e he; cases he) trivial s2 e ho
    exact ⟨_, .ref h1 h2 h, l⟩
  | call h1 h2 _ ih =>
    obtain ⟨x2, h, l⟩ := ih hG (by
      simp only [PTask.Calm, Ope.noPrec] at ht
      exact (noPrecList_iff _).1 (resolveList_noPrec hv _ ht)) (hG.call _ _ h1 h2) s2 e ho
    exact ⟨_, .call h1 h2 h, l⟩
  | param h1 _ ih =>
    obtain ⟨x2, h, l⟩ := ih hG hv (hv _ (List.mem_of_getElem? h1)) s2 e ho
    exact ⟨_, .param h1 h, l⟩
  | body h1 _ ih =>
    obtain ⟨x2, h, l⟩ := ih hG hv (by simpa only [Ope.noPrec, Ope.noPrecList, Bool.and_eq_true, PTask.Calm] using ht) s2 e ho
    exact ⟨_, .body h1 h, l⟩
  | body_ok hm _ _ ih1 ih2 =>
    obtain ⟨x1, h1, l1⟩ := ih1 hG hv (by simpa only [Ope.noPrec, Ope.noPrecList, Bool.and_eq_true, PTask.Calm] using ht) s2 e ho
    obtain ⟨s3, rfl, e3, l3⟩ := PRes.over_ok l1
    obtain ⟨x2, h2, l2⟩ := ih2 hG hv trivial s3 e3 l3
    exact ⟨_, .body_ok hm h1 h2, PRes.over_orCut l2⟩
  | body_fail hm _ ih =>
    obtain ⟨x2, h, l⟩ := ih hG hv (by simpa only [Ope.noPrec, Ope.noPrecList, Bool.and_eq_true, PTask.Calm] using ht) s2 e ho
    cases PRes.over_fail l
    exact ⟨_, .body_fail hm h, rfl⟩
  | rule_fail h1 h2 h => exact ⟨_, .rule_fail h1 h2 (by rw [e]; exact h), rfl⟩
  | rule_ok h1 h2 h h3 => exact ⟨_, .rule_ok h1 h2 (by rw [e]; exact h) h3, rfl, rfl, rfl, ho.push _ _⟩
  | rule_pred h1 h2 h h3 h4 => exact ⟨_, .rule_pred h1 h2 (by rw [e]; exact h) h3 h4, rfl, rfl, rfl, ho.push _ _⟩
  | rule_reject h1 h2 h h3 h4 => exact ⟨_, .rule_reject h1 h2 (by rw [e]; exact h) h3 h4, rfl⟩
  | lr_fail h1 h2 h3 h4 h => exact ⟨_, .lr_fail h1 h2 h3 h4 (by rw [e]; exact h), rfl⟩
  | lr_ok h1 h2 h3 h4 h5 h hg => exact ⟨_, .lr_ok h1 h2 h3 h4 h5 (by rw [e]; exact h) hg, rfl, rfl, rfl, ho.add _⟩
  | grow_stop => cases ht
  | grow_idle => cases ht
  | grow_more => cases ht
  | prec => simp [PTask.Calm, Ope.noPrec] at ht
  | prec_fail => cases ht
  | prec_atom => cases ht
  | prec_eof => cases ht
  | prec_noOp => cases ht
  | prec_stop => cases ht
  | prec_noRhs => cases ht
  | prec_more => cases ht

end Verif
