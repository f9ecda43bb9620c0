import Verif.MetaAlg
/-!
# The text the rules of the bootstrap grammar match

`Lg text R e i j`: bytes `i` to `j` can be matched by `e`, if those of rule `r` satisfy `R r`.  `TkIn text R e a n`: a token of `n` bytes at `a`
can be collected by `e`.
-/

namespace Verif.Meta
open Verif CharClass Utf8

/-- One or more stretches in a row. -/
inductive Star (P : Nat → Nat → Prop) : Nat → Nat → Prop where
  | nil {i} : Star P i i
  | cons {i j k} : P i j → Star P j k → Star P i k

mutual
def Lg (text : List Byte) (R : Nat → Nat → Nat → Prop) : Ope → Nat → Nat → Prop
  | .seq es _, i, j => LgL text R es i j
  | .cho es _ _, i, j => LgA text R es i j
  | .rep e _ _ _, i, j => Star (Lg text R e) i j
  | .tok e, i, j => Lg text R e i j
  | .ign e, i, j => Lg text R e i j
  | .not_ e, i, j => j = i ∧ ∀ f, e.single = some f → f (text.drop i) = none
  | .lit t ic, i, j => litMatch t ic (text.drop i) = true ∧ j = i + t.length
  | .ref r _ _, i, j => R r i j
  | .chr c, i, j => ∃ k, matchChar c (text.drop i) = some k ∧ j = i + k
  | .cls c, i, j => ∃ k, c.matchLen (text.drop i) = some k ∧ j = i + k
  | .dot, i, j => ∃ k, matchAny (text.drop i) = some k ∧ j = i + k
  | _, _, _ => False
def LgL (text : List Byte) (R : Nat → Nat → Nat → Prop) : List Ope → Nat → Nat → Prop
  | [], i, j => j = i
  | e :: es, i, j => ∃ k, Lg text R e i k ∧ LgL text R es k j
def LgA (text : List Byte) (R : Nat → Nat → Nat → Prop) : List Ope → Nat → Nat → Prop
  | [], _, _ => False
  | e :: es, i, j => Lg text R e i j ∨ LgA text R es i j
end

mutual
def TkIn (text : List Byte) (R : Nat → Nat → Nat → Prop) : Ope → Nat → Nat → Prop
  | .seq es _, a, n => TkInL text R es a n
  | .cho es _ _, a, n => TkInL text R es a n
  | .rep e _ _ _, a, n => TkIn text R e a n
  | .tok e, a, n => TkIn text R e a n ∨ Lg text R e a (a + n)
  | _, _, _ => False
def TkInL (text : List Byte) (R : Nat → Nat → Nat → Prop) : List Ope → Nat → Nat → Prop
  | [], _, _ => False
  | e :: es, a, n => TkIn text R e a n ∨ TkInL text R es a n
end

/-- The same for the tasks of the reference semantics. -/
def TLg (text : List Byte) (R : Nat → Nat → Nat → Prop) : PTask → Nat → Nat → Prop
  | .ope e, i, j => Lg text R e i j
  | .seqL es, i, j => LgL text R es i j
  | .choL es _ _, i, j => LgA text R es i j
  | .loop e _ _ _, i, j => Star (Lg text R e) i j
  | .text t ic, i, j => litMatch t ic (text.drop i) = true ∧ j = i + t.length
  | .skip, i, j => j = i
  | .body d, i, j => Lg text R d.ope i j
  | .hold r, i, j => R r i j
  | _, _, _ => True

def TTk (text : List Byte) (R : Nat → Nat → Nat → Prop) : PTask → Nat → Nat → Prop
  | .ope e, a, n => TkIn text R e a n
  | .seqL es, a, n => TkInL text R es a n
  | .choL es _ _, a, n => TkInL text R es a n
  | .loop e _ _ _, a, n => TkIn text R e a n
  | .body d, a, n => TkIn text R d.ope a n
  | _, _, _ => False

mutual
/-- The operators that occur in the bootstrap grammar. -/
def plainly : Ope → Bool
  | .seq es _ => plainlyL es
  | .cho es _ _ => plainlyL es
  | .rep e _ _ _ => plainly e
  | .tok e => plainly e
  | .ign e => plainly e
  | .not_ e => plainly e
  | .ref r _ _ => decide (r < metaRules.length)
  | .lit _ _ => true
  | .chr _ => true
  | .cls _ => true
  | .dot => true
  | _ => false
def plainlyL : List Ope → Bool
  | [] => true
  | e :: es => plainly e && plainlyL es
end

/-- Tasks over such operators. -/
def PTask.plainly : PTask → Prop
  | .ope e => Meta.plainly e = true
  | .seqL es => plainlyL es = true
  | .choL es _ _ => plainlyL es = true
  | .loop e _ _ _ => Meta.plainly e = true
  | .text _ _ => True
  | .skip => True
  | .body d => d ∈ metaRules
  | .hold r => r < metaRules.length
  | _ => False

theorem rules_plainly : ∀ d ∈ metaRules, plainly d.ope = true := by decide +kernel

theorem rules_noWs : ∀ d ∈ metaRules, d.noWs = false ∧ d.isMacro = false ∧ d.isLR = false := by decide +kernel

theorem peg_single_fail {G : Gram MV} {v : Env} {m : Mode} {e : Ope} {i : Nat} {s : PSt MV} {c : Bool} (h : Peg G v m (.ope e) i s (.fail c))
    {f : List Byte → Option Nat} (hf : e.single = some f) : f (G.input.drop i) = none := by
  generalize hx : PRes.fail c = x at h
  generalize ho : PTask.ope e = o at h
  cases h <;> cases ho <;> first
    | (cases hf; done)
    | skip
  case one_ok => cases hx
  case one_fail h2 h1 => rw [hf] at h1; cases h1; exact h2

/-- `P` of the stretch, tokens of the new scope from the old one or `Q`. -/
def Lies (text : List Byte) (R : Nat → Nat → Nat → Prop) (t : PTask) (i : Nat) (f : Frame MV) (x : PRes MV) : Prop :=
  ∀ j c s', x = .ok j c s' → i ≤ j ∧ TLg text R t i j ∧ ∀ p ∈ s'.vs.tokens, p ∈ f.tokens ∨ TTk text R t p.1 p.2

theorem Lies.fail {text : List Byte} {R : Nat → Nat → Nat → Prop} {t : PTask} {i : Nat} {f : Frame MV} {c : Bool} : Lies text R t i f (.fail c) := by
  intro j c s' e; cases e

theorem Lies.orCut {text : List Byte} {R : Nat → Nat → Nat → Prop} {t : PTask} {i : Nat} {f : Frame MV} {x : PRes MV} {c : Bool} (h : Lies text R t i f x) :
    Lies text R t i f (x.orCut c) := by
  intro j c' s' e
  cases x with
  | fail _ => cases e
  | ok j1 c1 s1 => cases e; exact h _ _ _ rfl

/-- Every match of the bootstrap grammar. -/
theorem peg_lies {text : List Byte} {R : Nat → Nat → Nat → Prop} (hR : ∀ (r : Nat) (d : Def) i j, metaRules[r]? = some d → Lg text R d.ope i j → R r i j)
    {G : Gram MV} {v : Env} {m : Mode} {t : PTask} {i : Nat} {s : PSt MV}
    {x : PRes MV} (h : Peg G v m t i s x) : G = MG text → PTask.plainly t → Lies text R t i s.vs x := by
  induction h
  case skip_tok => intro _ _ j c s' e; cases e; exact ⟨Nat.le_refl _, rfl, fun p h => .inl h⟩
  case skip_none => intro _ _ j c s' e; cases e; exact ⟨Nat.le_refl _, rfl, fun p h => .inl h⟩
  case skip_ws h1 _ _ => intro hG _; subst hG; cases h1
  case one_ok e f k i s h1 h2 =>
    intro hG hp j c s' e'
    cases e'
    subst hG
    refine ⟨Nat.le_add_right _ _, ?_, fun p h => .inl h⟩
    have h2 : f (text.drop i) = some k := h2
    cases e <;> simp only [Ope.single, reduceCtorEq] at h1
    · cases h1; exact ⟨k, h2, rfl⟩
    · cases h1; exact ⟨k, h2, rfl⟩
    · cases h1; exact ⟨k, h2, rfl⟩
  case lit t ic i s x _ ih =>
    intro hG hp j c s' e
    obtain ⟨h0, h1, h2⟩ := ih hG trivial j c s' e
    exact ⟨h0, h1, fun p hp => .inl ((h2 p hp).resolve_right id)⟩
  case text_plain t ic i s x hm _ _ ih =>
    intro hG hp j c s' e
    obtain ⟨h0, h1, h2⟩ := ih hG trivial j c s' e
    subst hG
    exact ⟨(by have : j = _ := h1; omega), ⟨hm, h1⟩, fun p hp => .inl ((h2 p hp).resolve_right id)⟩
  case text_nonword h1 _ _ _ _ => intro hG _; subst hG; cases h1
  case text_word h1 _ _ _ _ _ _ => intro hG _; subst hG; cases h1
  case seq es kw i s x _ ih =>
    intro hG hp j c s' e
    exact ih hG hp j c s' e
  case seq_nil => intro _ _ j c s' e; cases e; exact ⟨Nat.le_refl _, rfl, fun p h => .inl h⟩
  case seq_cons e es i s j c s1 x _ _ ih1 ih2 =>
    intro hG hp
    have hp' : plainly e = true ∧ plainlyL es = true := by simpa [PTask.plainly, plainlyL] using hp
    refine Lies.orCut ?_
    intro j' c' s' e'
    obtain ⟨h0, h1, h2⟩ := ih1 hG hp'.1 _ _ _ rfl
    obtain ⟨k0, k1, k2⟩ := ih2 hG hp'.2 _ _ _ e'
    refine ⟨Nat.le_trans h0 k0, ⟨j, h1, k1⟩, fun p hp => ?_⟩
    rcases k2 p hp with h | h
    · exact (h2 p h).imp id .inl
    · exact .inr (.inr h)
  case cho es l fs i s x _ ih =>
    intro hG hp j c s' e
    cases x with
    | fail _ => cases e
    | ok j1 c1 s1 =>
      cases e
      exact ih hG hp _ _ _ rfl
  case cho_ok e es k n i s j c s1 _ ih =>
    intro hG hp j' c' s' e'
    have hp' : plainly e = true ∧ plainlyL es = true := by simpa [PTask.plainly, plainlyL] using hp
    cases e'
    obtain ⟨h0, h1, h2⟩ := ih hG hp'.1 _ _ _ rfl
    exact ⟨h0, .inl h1, fun p hp => (h2 p hp).imp id .inl⟩
  case cho_next e es k n i s x _ _ _ ih =>
    intro hG hp j' c' s' e'
    have hp' : plainly e = true ∧ plainlyL es = true := by simpa [PTask.plainly, plainlyL] using hp
    obtain ⟨h0, h1, h2⟩ := ih hG hp'.2 _ _ _ e'
    exact ⟨h0, .inr h1, fun p hp => (h2 p hp).imp id .inr⟩
  case rep e mn mx sp i s x _ ih =>
    intro hG hp j c s' e'
    exact ih hG hp _ _ _ e'
  case loop_must e k mx n i s j c s1 x _ _ ih1 ih2 =>
    intro hG hp
    refine Lies.orCut ?_
    intro j' c' s' e'
    obtain ⟨h0, h1, h2⟩ := ih1 hG hp _ _ _ rfl
    obtain ⟨k0, k1, k2⟩ := ih2 hG hp _ _ _ e'
    exact ⟨Nat.le_trans h0 k0, .cons h1 k1, fun p hp => (k2 p hp).elim (h2 p) .inr⟩
  case loop_full => intro _ _ j c s' e; cases e; exact ⟨Nat.le_refl _, .nil, fun p h => .inl h⟩
  case loop_more e mx n i s j c s1 x hx _ _ ih1 ih2 =>
    intro hG hp
    refine Lies.orCut ?_
    intro j' c' s' e'
    obtain ⟨h0, h1, h2⟩ := ih1 hG hp _ _ _ rfl
    obtain ⟨k0, k1, k2⟩ := ih2 hG hp _ _ _ e'
    exact ⟨Nat.le_trans h0 k0, .cons h1 k1, fun p hp => (k2 p hp).elim (h2 p) .inr⟩
  case loop_end => intro _ _ j c s' e; cases e; exact ⟨Nat.le_refl _, .nil, fun p h => .inl h⟩
  case and_ok => intro _ hp; cases hp
  case not_ok e i s c h _ =>
    intro hG _ j c s' e; cases e
    subst hG
    exact ⟨Nat.le_refl _, ⟨rfl, fun f hf => peg_single_fail h hf⟩, fun p h => .inl h⟩
  case tok_ok e i s j c s1 x h _ ih1 ih2 =>
    intro hG hp
    refine Lies.orCut ?_
    intro j' c' s' e'
    obtain ⟨h0, h1, h2⟩ := ih1 hG hp _ _ _ rfl
    obtain ⟨k0, k1, k2⟩ := ih2 hG trivial _ _ _ e'
    cases (show j' = j from k1)
    refine ⟨h0, h1, fun p hp => ?_⟩
    rcases (k2 p hp).resolve_right id with h
    rcases List.mem_append.mp h with h | h
    · exact (h2 p h).imp id .inl
    · simp only [List.mem_singleton] at h
      subst h
      refine .inr (.inr ?_)
      show Lg text R e i (i + (j - i))
      rw [Nat.add_sub_cancel' (by omega)]
      exact h1
  case ign_ok e i s j c s1 _ ih =>
    intro hG hp j' c' s' e'
    cases e'
    obtain ⟨h0, h1, h2⟩ := ih hG hp _ _ _ rfl
    exact ⟨h0, h1, fun p h => .inl h⟩
  case ref r nm as d i s x h1 h2 _ ih =>
    intro hG hp j c s' e'
    obtain ⟨k0, k1, k2⟩ := ih hG (by simpa [PTask.plainly, plainly] using hp) _ _ _ e'
    exact ⟨k0, k1, fun p hp => .inl ((k2 p hp).resolve_right id)⟩
  case call h1 h2 _ _ =>
    intro hG hp
    subst hG
    have := (rules_noWs _ (List.mem_of_getElem? h1)).2.1
    rw [this] at h2; cases h2
  case body d i s x _ _ ih =>
    intro hG hp j c s' e'
    exact ih hG (rules_plainly d hp) _ _ _ e'
  case body_ok h1 _ _ _ _ =>
    intro hG hp
    have := (rules_noWs _ hp).1
    rw [this] at h1; cases h1
  case rule_ok r d i s j c s1 h1 h2 _ h3 ih =>
    intro hG hp j' c' s' e'
    cases e'
    subst hG
    have hd : metaRules[r]? = some d := h1
    obtain ⟨k0, k1, k2⟩ := ih rfl (List.mem_of_getElem? hd) _ _ _ rfl
    refine ⟨k0, hR r d i j hd k1, fun p hp => .inl ?_⟩
    unfold pushValue at hp
    split at hp <;> exact hp
  case rule_pred h1 h2 _ h3 _ _ => intro hG; subst hG; cases h3
  case lr_ok h1 h2 _ _ _ _ _ _ _ =>
    intro hG
    subst hG
    have := (rules_noWs _ (List.mem_of_getElem? h1)).2.2
    rw [this] at h2; cases h2
  all_goals first
    | (intro _ _; exact Lies.fail; done)
    | (intro _ hp; cases hp; done)

end Verif.Meta
