import Verif.PegDet
/-!
# Values do not steer a parse

Two grammars with the same rules whose predicates do not look at values accept the same and leave the same captures, whatever
values they compute.
-/

namespace Verif
open CharClass

variable {V W : Type}

/-- Same input, rules, white space and word rule, and predicates that agree and look only at the matched text and the tokens. -/
structure Twin (G : Gram V) (H : Gram W) : Prop where
  input : H.input = G.input
  rules : H.rules = G.rules
  ws : H.ws = G.ws
  word : H.word = G.word
  pred : ∀ q : Nat, (G.predicate q = none ∧ H.predicate q = none) ∨ ∃ p p', G.predicate q = some p ∧ H.predicate q = some p' ∧
    ∀ (f : Frame V) (g : Frame W), f.sv = g.sv → f.tokens = g.tokens → (p f).1 = (p' g).1

theorem Twin.bare {G : Gram V} {H : Gram W} (h : Twin G H) (t : List Byte) : Twin (G.bare t) (H.bare t) :=
  ⟨rfl, h.rules, rfl, rfl, h.pred⟩

/-- Same tokens and as many values. -/
def Frame.like (f : Frame V) (g : Frame W) : Prop := f.tokens = g.tokens ∧ f.vals.length = g.vals.length

/-- Same result and captures; scopes alike if `P`. -/
def PRes.like (P : Prop) : PRes V → PRes W → Prop
  | .fail c, .fail c' => c = c'
  | .ok j c s, .ok j' c' s' => j = j' ∧ c = c' ∧ s.caps = s'.caps ∧ (P → s.vs.like s'.vs)
  | _, _ => False

/-- The numbering of a choice replaced. -/
def PTask.reidx (k n : Nat) : PTask → PTask
  | .choL es _ _ => .choL es k n
  | t => t

theorem PRes.like_fail {P : Prop} {c : Bool} {y : PRes W} (h : PRes.like P (.fail c : PRes V) y) : y = .fail c := by
  cases y with
  | fail c' => simp only [PRes.like] at h; rw [h]
  | ok => cases h

theorem PRes.like_ok {P : Prop} {j : Nat} {c : Bool} {s : PSt V} {y : PRes W} (h : PRes.like P (.ok j c s) y) :
    ∃ s2, y = .ok j c s2 ∧ s2.caps = s.caps ∧ (P → s.vs.like s2.vs) := by
  cases y with
  | fail => cases h
  | ok j' c' s' =>
    obtain ⟨rfl, rfl, h, h'⟩ := h
    exact ⟨s', rfl, h.symm, h'⟩

theorem PRes.like_orCut {P : Prop} {c : Bool} {x : PRes V} {y : PRes W} (h : PRes.like P x y) :
    PRes.like P (x.orCut c) (y.orCut c) := by
  cases x with
  | fail => rw [PRes.like_fail h]; rfl
  | ok => obtain ⟨s2, rfl, h1, h2⟩ := PRes.like_ok h; exact ⟨rfl, rfl, h1.symm, h2⟩

theorem PRes.like_noCut {P : Prop} {x : PRes V} {y : PRes W} (h : PRes.like P x y) : PRes.like P x.noCut y.noCut := by
  cases x with
  | fail => rw [PRes.like_fail h]; rfl
  | ok => obtain ⟨s2, rfl, h1, h2⟩ := PRes.like_ok h; exact ⟨rfl, rfl, h1.symm, h2⟩

theorem PRes.like_imp {P Q : Prop} (hq : Q → P) {x : PRes V} {y : PRes W} (h : PRes.like P x y) : PRes.like Q x y := by
  cases x with
  | fail => rw [PRes.like_fail h]; rfl
  | ok => obtain ⟨s2, rfl, h1, h2⟩ := PRes.like_ok h; exact ⟨rfl, rfl, h1.symm, fun q => h2 (hq q)⟩

theorem like_nil : (({} : Frame V)).like ({} : Frame W) := ⟨rfl, rfl⟩

theorem like_push (d : Def) (w : Option V) (w' : Option W) {f : Frame V} {g : Frame W} (h : f.like g) :
    (pushValue d w f).like (pushValue d w' g) := by
  unfold pushValue
  split
  · exact h
  · exact ⟨h.1, by simp [h.2]⟩

theorem ruleFrame_sv (r : Nat) (d : Def) (i j : Nat) (f : Frame V) : (ruleFrame r d i j f).sv = (i, j - i) := by
  unfold ruleFrame; simp only; split <;> rfl

theorem ruleFrame_tokens (r : Nat) (d : Def) (i j : Nat) (f : Frame V) : (ruleFrame r d i j f).tokens = f.tokens := by
  unfold ruleFrame; simp only; split <;> rfl

theorem ruleFrame_vals (r : Nat) (d : Def) (i j : Nat) (f : Frame V) : (ruleFrame r d i j f).vals = f.vals := by
  unfold ruleFrame; simp only; split <;> rfl

theorem token_like {f : Frame V} {g : Frame W} (h : f.like g) (r : Nat) (d : Def) (i j : Nat) (inp : List Byte) :
    (ruleFrame r d i j g).token inp = (ruleFrame r d i j f).token inp := by
  unfold Frame.token
  rw [ruleFrame_sv, ruleFrame_sv, ruleFrame_tokens, ruleFrame_tokens, h.1]

theorem like_precFrame {G : Gram V} {H : Gram W} {r start j : Nat} {f : Frame V} {g : Frame W} (h : f.tokens = g.tokens) :
    (precFrame G r start j f).like (precFrame H r start j g) := by
  unfold precFrame
  cases G.action r <;> cases H.action r <;> exact ⟨h, rfl⟩

theorem len_cons {f : Frame V} {g : Frame W} (h : f.like g) {a : Option V} {as : List (Option V)} (hf : f.vals = a :: as) :
    ∃ b bs, g.vals = b :: bs := by
  have := h.2
  rw [hf] at this
  cases hg : g.vals with
  | nil => rw [hg] at this; simp at this
  | cons b bs => exact ⟨b, bs, rfl⟩

/-- What the induction shows. -/
def Twins (G : Gram V) (v : Env) (m : Mode) (t : PTask) (i : Nat) (s : PSt V) (x : PRes V) : Prop :=
  ∀ (H : Gram W), Twin G H → ∀ (k n : Nat) (s2 : PSt W), s2.caps = s.caps →
    ∃ x2, Peg H v m (t.reidx k n) i s2 x2 ∧ PRes.like (s.vs.like s2.vs) x x2

theorem Peg.twins {G : Gram V} {v : Env} {m : Mode} {t : PTask} {i : Nat} {s : PSt V} {x : PRes V} (h : Peg G v m t i s x) :
    Twins (W := W) G v m t i s x := by
  induction h with
  | skip_tok h => intro H hH k n s2 e; exact ⟨_, .skip_tok h, rfl, rfl, e.symm, id⟩
  | skip_none h => intro H hH k n s2 e; exact ⟨_, .skip_none (hH.ws.trans h), rfl, rfl, e.symm, id⟩
  | skip_ws h1 h2 _ ih =>
    intro H hH k n s2 e
    obtain ⟨x2, h, l⟩ := ih H hH 0 0 s2 e
    exact ⟨_, .skip_ws h1 (hH.ws.trans h2) h, l⟩
  | ws_in h => intro H hH k n s2 e; exact ⟨_, .ws_in h, rfl, rfl, e.symm, id⟩
  | ws_out h1 _ ih =>
    intro H hH k n s2 e
    obtain ⟨x2, h, l⟩ := ih H hH 0 0 s2 e
    exact ⟨_, .ws_out h1 h, l⟩
  | one_ok h1 h2 => intro H hH k n s2 e; exact ⟨_, .one_ok h1 (by rw [hH.input]; exact h2), rfl, rfl, e.symm, id⟩
  | one_fail h1 h2 => intro H hH k n s2 e; exact ⟨_, .one_fail h1 (by rw [hH.input]; exact h2), rfl⟩
  | lit _ ih =>
    intro H hH k n s2 e
    obtain ⟨x2, h, l⟩ := ih H hH 0 0 s2 e
    exact ⟨_, .lit h, l⟩
  | text_no h => intro H hH k n s2 e; exact ⟨_, .text_no (by rw [hH.input]; exact h), rfl⟩
  | text_plain h1 h2 _ ih =>
    intro H hH k n s2 e
    obtain ⟨x2, h, l⟩ := ih H hH 0 0 s2 e
    exact ⟨_, .text_plain (by rw [hH.input]; exact h1) (hH.word.trans h2) h, l⟩
  | text_nonword h1 h2 _ _ ih1 ih2 =>
    intro H hH k n s2 e
    obtain ⟨x1, h3, l3⟩ := ih1 _ (hH.bare _) 0 0 {} rfl
    cases PRes.like_fail l3
    obtain ⟨x2, h, l⟩ := ih2 H hH 0 0 s2 e
    exact ⟨_, .text_nonword (by rw [hH.input]; exact h1) (hH.word.trans h2) h3 h, l⟩
  | text_word h1 h2 _ _ _ ih1 ih2 ih3 =>
    intro H hH k n s2 e
    obtain ⟨x1, h3, l3⟩ := ih1 _ (hH.bare _) 0 0 {} rfl
    obtain ⟨s3, rfl, -⟩ := PRes.like_ok l3
    obtain ⟨x2, h4, l4⟩ := ih2 _ (hH.bare _) 0 0 {} rfl
    cases PRes.like_fail l4
    obtain ⟨x3, h, l⟩ := ih3 H hH 0 0 s2 e
    exact ⟨_, .text_word (by rw [hH.input]; exact h1) (hH.word.trans h2) h3 (by rw [hH.input]; exact h4) h, l⟩
  | text_longer h1 h2 _ _ ih1 ih2 =>
    intro H hH k n s2 e
    obtain ⟨x1, h3, l3⟩ := ih1 _ (hH.bare _) 0 0 {} rfl
    obtain ⟨s3, rfl, -⟩ := PRes.like_ok l3
    obtain ⟨x2, h4, l4⟩ := ih2 _ (hH.bare _) 0 0 {} rfl
    obtain ⟨s4, rfl, -⟩ := PRes.like_ok l4
    exact ⟨_, .text_longer (by rw [hH.input]; exact h1) (hH.word.trans h2) h3 (by rw [hH.input]; exact h4), rfl⟩
  | dict_no h => intro H hH k n s2 e; exact ⟨_, .dict_no (by rw [hH.input]; exact h), rfl⟩
  | @dict_plain _ _ _ ws _ _ _ _ nn _ h1 h2 h3 _ ih =>
    intro H hH k n s2 e
    obtain ⟨x2, h, l⟩ := ih H hH 0 0 { s2 with vs := { s2.vs with choiceCount := ws.length, choice := nn } } e
    exact ⟨_, .dict_plain (by rw [hH.input]; exact h1) h2 (hH.word.trans h3) h, l⟩
  | @dict_word _ _ _ ws _ _ _ _ nn _ _ _ h1 h2 h3 _ _ ih1 ih2 =>
    intro H hH k n s2 e
    obtain ⟨x1, h4, l4⟩ := ih1 _ (hH.bare _) 0 0 {} rfl
    cases PRes.like_fail l4
    obtain ⟨x2, h, l⟩ := ih2 H hH 0 0 { s2 with vs := { s2.vs with choiceCount := ws.length, choice := nn } } e
    exact ⟨_, .dict_word (by rw [hH.input]; exact h1) h2 (hH.word.trans h3) (by rw [hH.input]; exact h4) h, l⟩
  | dict_longer h1 h2 h3 _ ih1 =>
    intro H hH k n s2 e
    obtain ⟨x1, h4, l4⟩ := ih1 _ (hH.bare _) 0 0 {} rfl
    obtain ⟨s4, rfl, -⟩ := PRes.like_ok l4
    exact ⟨_, .dict_longer (by rw [hH.input]; exact h1) h2 (hH.word.trans h3) (by rw [hH.input]; exact h4), rfl⟩
  | seq _ ih =>
    intro H hH k n s2 e
    obtain ⟨x2, h, l⟩ := ih H hH 0 0 s2 e
    exact ⟨_, .seq h, l⟩
  | seq_nil => intro H hH k n s2 e; exact ⟨_, .seq_nil, rfl, rfl, e.symm, id⟩
  | seq_fail _ ih =>
    intro H hH k n s2 e
    obtain ⟨x2, h, l⟩ := ih H hH 0 0 s2 e
    cases PRes.like_fail l
    exact ⟨_, .seq_fail h, rfl⟩
  | seq_cons _ _ ih1 ih2 =>
    intro H hH k n s2 e
    obtain ⟨x1, h1, l1⟩ := ih1 H hH 0 0 s2 e
    obtain ⟨s3, rfl, e3, l3⟩ := PRes.like_ok l1
    obtain ⟨x2, h2, l2⟩ := ih2 H hH 0 0 s3 e3
    exact ⟨_, .seq_cons h1 h2, PRes.like_orCut (PRes.like_imp l3 l2)⟩
  | cho _ ih =>
    intro H hH k n s2 e
    obtain ⟨x2, h, l⟩ := ih H hH 0 _ s2 e
    exact ⟨_, .cho h, PRes.like_noCut l⟩
  | cho_nil => intro H hH k n s2 e; exact ⟨_, .cho_nil, rfl⟩
  | cho_ok _ ih =>
    intro H hH k n s2 e
    obtain ⟨x2, h, l⟩ := ih H hH 0 0 s2 e
    obtain ⟨s3, rfl, e3, l3⟩ := PRes.like_ok l
    exact ⟨_, .cho_ok h, rfl, rfl, e3.symm, l3⟩
  | cho_cut _ ih =>
    intro H hH k n s2 e
    obtain ⟨x2, h, l⟩ := ih H hH 0 0 s2 e
    cases PRes.like_fail l
    exact ⟨_, .cho_cut h, rfl⟩
  | cho_next _ _ ih1 ih2 =>
    intro H hH k n s2 e
    obtain ⟨x2, h, l⟩ := ih1 H hH 0 0 s2 e
    cases PRes.like_fail l
    obtain ⟨x3, h', l'⟩ := ih2 H hH (k + 1) n s2 e
    exact ⟨_, .cho_next h h', l'⟩
  | cut => intro H hH k n s2 e; exact ⟨_, .cut, rfl, rfl, e.symm, id⟩
  | rep _ ih =>
    intro H hH k n s2 e
    obtain ⟨x2, h, l⟩ := ih H hH 0 0 s2 e
    exact ⟨_, .rep h, l⟩
  | loop_must _ _ ih1 ih2 =>
    intro H hH k n s2 e
    obtain ⟨x1, h1, l1⟩ := ih1 H hH 0 0 s2 e
    obtain ⟨s3, rfl, e3, l3⟩ := PRes.like_ok l1
    obtain ⟨x2, h2, l2⟩ := ih2 H hH 0 0 s3 e3
    exact ⟨_, .loop_must h1 h2, PRes.like_orCut (PRes.like_imp l3 l2)⟩
  | loop_fail _ ih =>
    intro H hH k n s2 e
    obtain ⟨x2, h, l⟩ := ih H hH 0 0 s2 e
    cases PRes.like_fail l
    exact ⟨_, .loop_fail h, rfl⟩
  | loop_full h => intro H hH k n s2 e; exact ⟨_, .loop_full h, rfl, rfl, e.symm, id⟩
  | loop_more hm _ _ ih1 ih2 =>
    intro H hH k n s2 e
    obtain ⟨x1, h1, l1⟩ := ih1 H hH 0 0 s2 e
    obtain ⟨s3, rfl, e3, l3⟩ := PRes.like_ok l1
    obtain ⟨x2, h2, l2⟩ := ih2 H hH 0 0 s3 e3
    exact ⟨_, .loop_more hm h1 h2, PRes.like_orCut (PRes.like_imp l3 l2)⟩
  | loop_end hm _ ih =>
    intro H hH k n s2 e
    obtain ⟨x2, h, l⟩ := ih H hH 0 0 s2 e
    cases PRes.like_fail l
    exact ⟨_, .loop_end hm h, rfl, rfl, e.symm, id⟩
  | and_ok _ ih =>
    intro H hH k n s2 e
    obtain ⟨x2, h, l⟩ := ih H hH 0 0 s2 e
    obtain ⟨s3, rfl, e3, l3⟩ := PRes.like_ok l
    exact ⟨_, .and_ok h, rfl, rfl, e.symm, id⟩
  | and_fail _ ih =>
    intro H hH k n s2 e
    obtain ⟨x2, h, l⟩ := ih H hH 0 0 s2 e
    cases PRes.like_fail l
    exact ⟨_, .and_fail h, rfl⟩
  | not_ok _ ih =>
    intro H hH k n s2 e
    obtain ⟨x2, h, l⟩ := ih H hH 0 0 s2 e
    cases PRes.like_fail l
    exact ⟨_, .not_ok h, rfl, rfl, e.symm, id⟩
  | not_fail _ ih =>
    intro H hH k n s2 e
    obtain ⟨x2, h, l⟩ := ih H hH 0 0 s2 e
    obtain ⟨s3, rfl, e3, l3⟩ := PRes.like_ok l
    exact ⟨_, .not_fail h, rfl⟩
  | scope_ok _ ih =>
    intro H hH k n s2 e
    obtain ⟨x2, h, l⟩ := ih H hH 0 0 s2 e
    obtain ⟨s3, rfl, e3, l3⟩ := PRes.like_ok l
    exact ⟨_, .scope_ok h, rfl, rfl, e.symm, l3⟩
  | scope_fail _ ih =>
    intro H hH k n s2 e
    obtain ⟨x2, h, l⟩ := ih H hH 0 0 s2 e
    cases PRes.like_fail l
    exact ⟨_, .scope_fail h, rfl⟩
  | cap_ok _ ih =>
    intro H hH k n s2 e
    obtain ⟨x2, h, l⟩ := ih H hH 0 0 s2 e
    obtain ⟨s3, rfl, e3, l3⟩ := PRes.like_ok l
    exact ⟨_, .cap_ok h, rfl, rfl, (by simp only [e3, hH.input]), l3⟩
  | cap_fail _ ih =>
    intro H hH k n s2 e
    obtain ⟨x2, h, l⟩ := ih H hH 0 0 s2 e
    cases PRes.like_fail l
    exact ⟨_, .cap_fail h, rfl⟩
  | bref h1 _ ih =>
    intro H hH k n s2 e
    obtain ⟨x2, h, l⟩ := ih H hH 0 0 s2 e
    exact ⟨_, .bref (by rw [e]; exact h1) h, l⟩
  | bref_no h1 => intro H hH k n s2 e; exact ⟨_, .bref_no (by rw [e]; exact h1), rfl⟩
  | tok_ok _ _ ih1 ih2 =>
    intro H hH k n s2 e
    obtain ⟨x1, h1, l1⟩ := ih1 H hH 0 0 s2 e
    obtain ⟨s3, rfl, e3, l3⟩ := PRes.like_ok l1
    obtain ⟨x2, h2, l2⟩ := ih2 H hH 0 0 { s3 with vs := { s3.vs with tokens := s3.vs.tokens ++ [_] } } e3
    exact ⟨_, .tok_ok h1 h2, PRes.like_orCut (PRes.like_imp (fun q => ⟨by simp [(l3 q).1], (l3 q).2⟩) l2)⟩
  | tok_fail _ ih =>
    intro H hH k n s2 e
    obtain ⟨x2, h, l⟩ := ih H hH 0 0 s2 e
    cases PRes.like_fail l
    exact ⟨_, .tok_fail h, rfl⟩
  | ign_ok _ ih =>
    intro H hH k n s2 e
    obtain ⟨x2, h, l⟩ := ih H hH 0 0 { s2 with vs := {} } e
    obtain ⟨s3, rfl, e3, l3⟩ := PRes.like_ok l
    exact ⟨_, .ign_ok h, rfl, rfl, e3.symm, id⟩
  | ign_fail _ ih =>
    intro H hH k n s2 e
    obtain ⟨x2, h, l⟩ := ih H hH 0 0 { s2 with vs := {} } e
    cases PRes.like_fail l
    exact ⟨_, .ign_fail h, rfl⟩
  | ref h1 h2 _ ih =>
    intro H hH k n s2 e
    obtain ⟨x2, h, l⟩ := ih H hH 0 0 s2 e
    exact ⟨_, .ref (by rw [hH.rules]; exact h1) h2 h, l⟩
  | call h1 h2 _ ih =>
    intro H hH k n s2 e
    obtain ⟨x2, h, l⟩ := ih H hH 0 0 s2 e
    exact ⟨_, .call (by rw [hH.rules]; exact h1) h2 h, l⟩
  | param h1 _ ih =>
    intro H hH k n s2 e
    obtain ⟨x2, h, l⟩ := ih H hH 0 0 s2 e
    exact ⟨_, .param h1 h, l⟩
  | body h1 _ ih =>
    intro H hH k n s2 e
    obtain ⟨x2, h, l⟩ := ih H hH 0 0 s2 e
    exact ⟨_, .body h1 h, l⟩
  | body_ok hm _ _ ih1 ih2 =>
    intro H hH k n s2 e
    obtain ⟨x1, h1, l1⟩ := ih1 H hH 0 0 s2 e
    obtain ⟨s3, rfl, e3, l3⟩ := PRes.like_ok l1
    obtain ⟨x2, h2, l2⟩ := ih2 H hH 0 0 s3 e3
    exact ⟨_, .body_ok hm h1 h2, PRes.like_orCut (PRes.like_imp l3 l2)⟩
  | body_fail hm _ ih =>
    intro H hH k n s2 e
    obtain ⟨x2, h, l⟩ := ih H hH 0 0 s2 e
    cases PRes.like_fail l
    exact ⟨_, .body_fail hm h, rfl⟩
  | rule_fail h1 h2 _ ih =>
    intro H hH k n s2 e
    obtain ⟨x2, h, l⟩ := ih H hH 0 0 { s2 with vs := {} } e
    cases PRes.like_fail l
    exact ⟨_, .rule_fail (by rw [hH.rules]; exact h1) h2 h, rfl⟩
  | rule_ok h1 h2 _ h3 ih =>
    intro H hH k n s2 e
    obtain ⟨x2, h, l⟩ := ih H hH 0 0 { s2 with vs := {} } e
    obtain ⟨s3, rfl, e3, l3⟩ := PRes.like_ok l
    rcases hH.pred _ with ⟨a, b⟩ | ⟨p, p', a, b, c⟩
    · exact ⟨_, .rule_ok (by rw [hH.rules]; exact h1) h2 h b, rfl, rfl, e3.symm, like_push _ _ _⟩
    · rw [a] at h3; cases h3
  | rule_pred h1 h2 _ h3 h4 ih =>
    intro H hH k n s2 e
    obtain ⟨x2, h, l⟩ := ih H hH 0 0 { s2 with vs := {} } e
    obtain ⟨s3, rfl, e3, l3⟩ := PRes.like_ok l
    rcases hH.pred _ with ⟨a, b⟩ | ⟨p, p', a, b, c⟩
    · rw [a] at h3; cases h3
    · rw [a] at h3; cases h3
      refine ⟨_, .rule_pred (by rw [hH.rules]; exact h1) h2 h b ?_, rfl, rfl, e3.symm, like_push _ _ _⟩
      rw [← c _ _ ?_ ?_]
      · exact h4
      · rw [ruleFrame_sv, ruleFrame_sv]
      · rw [ruleFrame_tokens, ruleFrame_tokens, (l3 like_nil).1]
  | rule_reject h1 h2 _ h3 h4 ih =>
    intro H hH k n s2 e
    obtain ⟨x2, h, l⟩ := ih H hH 0 0 { s2 with vs := {} } e
    obtain ⟨s3, rfl, e3, l3⟩ := PRes.like_ok l
    rcases hH.pred _ with ⟨a, b⟩ | ⟨p, p', a, b, c⟩
    · rw [a] at h3; cases h3
    · rw [a] at h3; cases h3
      refine ⟨_, .rule_reject (by rw [hH.rules]; exact h1) h2 h b ?_, rfl⟩
      rw [← c _ _ ?_ ?_]
      · exact h4
      · rw [ruleFrame_sv, ruleFrame_sv]
      · rw [ruleFrame_tokens, ruleFrame_tokens, (l3 like_nil).1]
  | lr_fail h1 h2 h3 h4 _ ih =>
    intro H hH k n s2 e
    obtain ⟨x2, h, l⟩ := ih H hH _ _ { s2 with vs := {} } e
    cases PRes.like_fail l
    exact ⟨_, .lr_fail (by rw [hH.rules]; exact h1) h2 h3 h4 h, rfl⟩
  | @lr_ok _ _ _ _ d _ _ _ _ _ _ _ _ _ _ _ h1 h2 h3 h4 h5 _ hg ih1 ih2 =>
    intro H hH k n s2 e
    obtain ⟨x2, h, l⟩ := ih1 H hH _ _ { s2 with vs := {} } e
    obtain ⟨s3, rfl, e3, l3⟩ := PRes.like_ok l
    rcases hH.pred _ with ⟨a, b⟩ | ⟨p, p', a, b, c⟩
    · obtain ⟨x3, h', l'⟩ := ih2 H hH 0 0 { s3 with vs := pushValue d _ {} } e3
      obtain ⟨s4, rfl, e4, l4⟩ := PRes.like_ok l'
      refine ⟨_, .lr_ok (by rw [hH.rules]; exact h1) h2 h3 h4 b h h', rfl, rfl, e4.symm, fun q => ?_⟩
      obtain ⟨a1, a2⟩ := l4 (like_push _ _ _ like_nil)
      exact ⟨q.1, by simp [Frame.add, q.2, a2]⟩
    · rw [a] at h5; cases h5
  | grow_stop h1 h2 _ ih =>
    intro H hH k n s2 e
    obtain ⟨x2, h, l⟩ := ih H hH 0 _ s2 e
    cases PRes.like_fail l
    exact ⟨_, .grow_stop (by rw [hH.rules]; exact h1) h2 h, rfl, rfl, e.symm, id⟩
  | grow_idle h1 h2 _ h3 ih =>
    intro H hH k n s2 e
    obtain ⟨x2, h, l⟩ := ih H hH 0 _ s2 e
    obtain ⟨s3, rfl, e3, l3⟩ := PRes.like_ok l
    exact ⟨_, .grow_idle (by rw [hH.rules]; exact h1) h2 h h3, rfl, rfl, e.symm, id⟩
  | @grow_more _ _ _ _ d _ _ _ _ _ _ _ _ _ _ h1 h2 _ h3 _ ih1 ih2 =>
    intro H hH k n s2 e
    obtain ⟨x2, h, l⟩ := ih1 H hH 0 _ s2 e
    obtain ⟨s3, rfl, e3, l3⟩ := PRes.like_ok l
    obtain ⟨x3, h', l'⟩ := ih2 H hH 0 0 { s3 with vs := pushValue d _ {} } e3
    exact ⟨_, .grow_more (by rw [hH.rules]; exact h1) h2 h h3 h', PRes.like_imp (fun _ => like_push _ _ _ like_nil) l'⟩
  | prec _ ih =>
    intro H hH k n s2 e
    obtain ⟨x2, h, l⟩ := ih H hH 0 0 s2 e
    exact ⟨_, .prec h, l⟩
  | prec_fail _ ih =>
    intro H hH k n s2 e
    obtain ⟨x2, h, l⟩ := ih H hH 0 0 s2 e
    cases PRes.like_fail l
    exact ⟨_, .prec_fail h, rfl⟩
  | prec_atom _ _ ih1 ih2 =>
    intro H hH k n s2 e
    obtain ⟨x1, h1, l1⟩ := ih1 H hH 0 0 s2 e
    obtain ⟨s3, rfl, e3, l3⟩ := PRes.like_ok l1
    obtain ⟨x2, h2, l2⟩ := ih2 H hH 0 0 s3 e3
    exact ⟨_, .prec_atom h1 h2, PRes.like_orCut (PRes.like_imp l3 l2)⟩
  | prec_eof h => intro H hH k n s2 e; exact ⟨_, .prec_eof (by rw [hH.input]; exact h), rfl, rfl, e.symm, id⟩
  | prec_noOp h _ ih =>
    intro H hH k n s2 e
    obtain ⟨x2, h', l⟩ := ih H hH 0 0 { s2 with vs := {} } e
    cases PRes.like_fail l
    exact ⟨_, .prec_noOp (by rw [hH.input]; exact h) h', rfl, rfl, e.symm, id⟩
  | prec_stop h hd _ _ hl ih1 ih2 =>
    intro H hH k n s2 e
    obtain ⟨x1, h1, l1⟩ := ih1 H hH 0 0 { s2 with vs := {} } e
    obtain ⟨s3, rfl, e3, l3⟩ := PRes.like_ok l1
    obtain ⟨x2, h2, l2⟩ := ih2 H hH 0 0 { s2 with vs := {} } e
    obtain ⟨s4, rfl, e4, l4⟩ := PRes.like_ok l2
    refine ⟨_, .prec_stop (by rw [hH.input]; exact h) (by rw [hH.rules]; exact hd) h1 h2 ?_, rfl, rfl, e.symm, id⟩
    intro l as
    rw [hH.input, token_like (l3 like_nil)]
    exact hl l as
  | prec_noRhs h hd _ _ hl hm _ ih1 ih2 ih3 =>
    intro H hH k n s2 e
    obtain ⟨x1, h1, l1⟩ := ih1 H hH 0 0 { s2 with vs := {} } e
    obtain ⟨s3, rfl, e3, l3⟩ := PRes.like_ok l1
    obtain ⟨x2, h2, l2⟩ := ih2 H hH 0 0 { s2 with vs := {} } e
    obtain ⟨s4, rfl, e4, l4⟩ := PRes.like_ok l2
    obtain ⟨x5, h5, l5⟩ := ih3 H hH 0 0 { s4 with vs := {} } e4
    cases PRes.like_fail l5
    exact ⟨_, .prec_noRhs (by rw [hH.input]; exact h) (by rw [hH.rules]; exact hd) h1 h2
      (by rw [hH.input, token_like (l3 like_nil)]; exact hl) hm h5, rfl⟩
  | @prec_more _ _ _ _ _ _ _ _ r mp start i s j _ _ _ s1 _ _ _ kk s2' _ _ _ _ _ h hd _ _ hl hm _ hv1 hv2 _ ih1 ih2 ih3 ih4 =>
    intro H hH k n s2 e
    obtain ⟨x1, h1, l1⟩ := ih1 H hH 0 0 { s2 with vs := {} } e
    obtain ⟨s3, rfl, e3, l3⟩ := PRes.like_ok l1
    obtain ⟨x2, h2, l2⟩ := ih2 H hH 0 0 { s2 with vs := {} } e
    obtain ⟨s4, rfl, e4, l4⟩ := PRes.like_ok l2
    obtain ⟨x5, h5, l5⟩ := ih3 H hH 0 0 { s4 with vs := {} } e4
    obtain ⟨s5, rfl, e5, l5⟩ := PRes.like_ok l5
    obtain ⟨b1, bs1, hb1⟩ := len_cons (l4 like_nil) hv1
    obtain ⟨b2, bs2, hb2⟩ := len_cons (l5 like_nil) hv2
    obtain ⟨x6, h6, l6⟩ := ih4 H hH 0 0
      { s5 with vs := precFrame H r start kk { s2.vs with vals := s2.vs.vals ++ [b1, b2] } } e5
    exact ⟨_, .prec_more (by rw [hH.input]; exact h) (by rw [hH.rules]; exact hd) h1 h2
      (by rw [hH.input, token_like (l3 like_nil)]; exact hl) hm h5 hb1 hb2 h6,
      PRes.like_orCut (PRes.like_imp (fun q => like_precFrame q.1) l6)⟩

/-- A grammar whose predicates look at the matched text and the tokens only. -/
def Gram.Blind (G : Gram V) : Prop :=
  ∀ (q : Nat) p, G.predicate q = some p → ∀ f g : Frame V, f.sv = g.sv → f.tokens = g.tokens → (p f).1 = (p g).1

theorem Gram.Blind.twin {G : Gram V} (h : G.Blind) : Twin G G := by
  refine ⟨rfl, rfl, rfl, rfl, fun q => ?_⟩
  cases hp : G.predicate q with
  | none => exact .inl ⟨rfl, rfl⟩
  | some p => exact .inr ⟨p, p, rfl, rfl, h q p hp⟩

end Verif
