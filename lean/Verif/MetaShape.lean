import Verif.MetaLang
/-!
# The values the rules of the bootstrap grammar collect

`Sh H e vs`: matching expression `e` can add the values `vs`, if the value of each rule `r` satisfies `H r`.  `minLen`, `minTok`: at least so many bytes
and tokens.
-/

namespace Verif.Meta
open Verif CharClass Utf8

/-- Whether the values of rule `r` are dropped. -/
def dropped (r : Nat) : Bool := ((metaRules[r]?).map (·.ignoreSV)).getD true

/-- `c` times. -/
def Times (P : List Val → Prop) : Nat → List Val → Prop
  | 0, vs => vs = []
  | c + 1, vs => ∃ a b, P a ∧ Times P c b ∧ vs = a ++ b

mutual
def Sh (H : Nat → Val → Prop) : Ope → List Val → Prop
  | .seq es _, vs => ShL H es vs
  | .cho es _ _, vs => ShA H es vs
  | .rep e mn mx _, vs => ∃ c, mn ≤ c ∧ (mx.all (c ≤ ·) = true ∨ c = mn) ∧ Times (Sh H e) c vs
  | .tok e, vs => Sh H e vs
  | .ref r _ _, vs => if dropped r then vs = [] else ∃ v, vs = [v] ∧ H r v
  | _, vs => vs = []
def ShL (H : Nat → Val → Prop) : List Ope → List Val → Prop
  | [], vs => vs = []
  | e :: es, vs => ∃ a b, Sh H e a ∧ ShL H es b ∧ vs = a ++ b
def ShA (H : Nat → Val → Prop) : List Ope → List Val → Prop
  | [], _ => False
  | e :: es, vs => Sh H e vs ∨ ShA H es vs
end

mutual
def minLen : Ope → Nat
  | .seq es _ => minLenL es
  | .cho es _ _ => minLenA es
  | .rep e mn _ _ => mn * minLen e
  | .tok e => minLen e
  | .ign e => minLen e
  | .lit t _ => t.length
  | .chr c => if c = 0 then 0 else 1
  | .cls c => if c.negated || c.ranges.any (inRange c.ignoreCase · 0) then 0 else 1
  | _ => 0
def minLenL : List Ope → Nat
  | [] => 0
  | e :: es => minLen e + minLenL es
def minLenA : List Ope → Nat
  | [] => 0
  | [e] => minLen e
  | e :: es => min (minLen e) (minLenA es)
end

mutual
def minTok : Ope → Nat
  | .seq es _ => minTokL es
  | .cho es _ _ => minTokA es
  | .rep e mn _ _ => mn * minTok e
  | .tok e => minTok e + 1
  | _ => 0
def minTokL : List Ope → Nat
  | [] => 0
  | e :: es => minTok e + minTokL es
def minTokA : List Ope → Nat
  | [] => 0
  | [e] => minTok e
  | e :: es => min (minTok e) (minTokA es)
end

theorem minLenA_le {e : Ope} : ∀ {es : List Ope}, e ∈ es → minLenA es ≤ minLen e
  | [a], h => by simp at h; subst h; exact Nat.le_refl _
  | a :: b :: es, h => by
    rcases List.mem_cons.mp h with rfl | h
    · exact Nat.min_le_left _ _
    · exact Nat.le_trans (Nat.min_le_right _ _) (minLenA_le h)

theorem minTokA_le {e : Ope} : ∀ {es : List Ope}, e ∈ es → minTokA es ≤ minTok e
  | [a], h => by simp at h; subst h; exact Nat.le_refl _
  | a :: b :: es, h => by
    rcases List.mem_cons.mp h with rfl | h
    · exact Nat.min_le_left _ _
    · exact Nat.le_trans (Nat.min_le_right _ _) (minTokA_le h)

theorem ShA_of {H : Nat → Val → Prop} {e : Ope} {vs : List Val} (h : Sh H e vs) : ∀ {es : List Ope}, e ∈ es → ShA H es vs
  | a :: es, hm => by
    rcases List.mem_cons.mp hm with rfl | hm
    · exact .inl h
    · exact .inr (ShA_of h hm)

theorem plainlyL_mem {e : Ope} : ∀ {es : List Ope}, e ∈ es → plainlyL es = true → plainly e = true
  | a :: es, hm, h => by
    simp only [plainlyL, Bool.and_eq_true] at h
    rcases List.mem_cons.mp hm with rfl | hm
    · exact h.1
    · exact plainlyL_mem hm h.2

/-- What matching an expression adds to the scope; `ch` is the alternative if it is a choice. -/
structure OpeSh (H : Nat → Val → Prop) (e : Ope) (vs : List Val) (tk n ch : Nat) : Prop where
  vals : Sh H e vs
  len : minLen e ≤ n
  toks : minTok e ≤ tk
  alt : ∀ es l fs, e = .cho es l fs → ∃ e', es[ch]? = some e' ∧ Sh H e' vs
  noTok : ∀ c, e = .cls c → tk = 0

/-- The same for the tasks of the reference semantics. -/
def TSh (H : Nat → Val → Prop) : PTask → List Val → Nat → Nat → Nat → Prop
  | .ope e, vs, tk, n, ch => OpeSh H e vs tk n ch
  | .seqL es, vs, tk, n, _ => ShL H es vs ∧ minLenL es ≤ n ∧ minTokL es ≤ tk
  | .choL es k _, vs, tk, n, ch => ∃ m e, es[m]? = some e ∧ Sh H e vs ∧ minLen e ≤ n ∧ minTok e ≤ tk ∧ ch = k + m
  | .loop e need mx cnt, vs, tk, n, _ => ∃ c, need ≤ c ∧ (mx.all (cnt + c ≤ ·) = true ∨ c = need) ∧ Times (Sh H e) c vs ∧
      need * minLen e ≤ n ∧ need * minTok e ≤ tk
  | .text t _, vs, _, n, _ => vs = [] ∧ t.length ≤ n
  | .skip, vs, _, _, _ => vs = []
  | .body d, vs, tk, n, ch => OpeSh H d.ope vs tk n ch
  | .hold r, vs, _, _, _ => if dropped r then vs = [] else ∃ v, vs = [v] ∧ H r v
  | _, _, _, _, _ => True

/-- The scope after a match. -/
def Adds (H : Nat → Val → Prop) (N : Nat) (t : PTask) (i : Nat) (f : Frame MV) (x : PRes MV) : Prop :=
  ∀ j c s', x = .ok j c s' → i ≤ j ∧ j ≤ max i N ∧
    ∃ vs tk, s'.vs.vals = f.vals ++ vs ∧ s'.vs.tokens.length = f.tokens.length + tk ∧ TSh H t vs tk (j - i) s'.vs.choice

/-- `H` is what the actions make of such scopes. -/
def Typed (text : List Byte) (R : Nat → Nat → Nat → Prop) (H : Nat → Val → Prop) : Prop :=
  ∀ r d i j (g : Frame MV), metaRules[r]? = some d → i ≤ j → j ≤ max i text.length →
    Lg text R d.ope i j → (∀ p ∈ g.tokens, TkIn text R d.ope p.1 p.2) → OpeSh H d.ope g.vals g.tokens.length (j - i) g.choice →
    dropped r = false → H r (ruleValue (MG text) r d i j (ruleFrame r d i j g) none)

theorem decodeLenCp_zero {s : List Byte} (h : (decodeLenCp s).1 = 0) : (decodeLenCp s).2 = 0 := by
  unfold decodeLenCp at *
  cases hd : decodeCodepoint? s with
  | none => rfl
  | some r =>
    rw [hd] at h
    exfalso
    revert h
    show r.1 ≠ 0
    unfold decodeCodepoint? at hd
    grind

theorem single_minLen {e : Ope} {f : List Byte → Option Nat} (he : e.single = some f) {s : List Byte} {k : Nat} (h : f s = some k) : minLen e ≤ k := by
  cases e <;> simp only [Ope.single] at he <;> cases he
  case cls c =>
    simp only [minLen]
    split
    · omega
    · rename_i h0
      simp only [Bool.or_eq_true, not_or, Bool.not_eq_true] at h0
      unfold Cls.matchLen at h
      split at h
      · cases h
      · simp only at h
        by_cases hk : k = 0
        · subst hk
          exfalso
          split at h
          · rename_i h1
            rw [h0.1] at h
            simp only [Bool.false_eq_true, if_false, Option.some.injEq] at h
            rw [decodeLenCp_zero h, h0.2] at h1
            cases h1
          · rw [h0.1] at h; cases h
        · omega
  case chr c =>
    simp only [minLen]
    split
    · omega
    · rename_i h0
      unfold matchChar at h
      split at h
      · cases h
      · simp only at h
        by_cases hk : k = 0
        · subst hk
          exfalso
          split at h
          · cases h
          · rename_i h1
            simp only [Option.some.injEq] at h
            rw [decodeLenCp_zero h] at h1
            omega
        · omega
  case dot => exact Nat.zero_le _

theorem dropped_eq {r : Nat} {d : Def} (hd : metaRules[r]? = some d) : dropped r = d.ignoreSV := by
  simp [dropped, hd]

theorem Adds.fail {H : Nat → Val → Prop} {N : Nat} {t : PTask} {i : Nat} {f : Frame MV} {c : Bool} : Adds H N t i f (.fail c) := by
  intro j c s' h; cases h

theorem Adds.orCut {H : Nat → Val → Prop} {N : Nat} {t : PTask} {i : Nat} {f : Frame MV} {x : PRes MV} {c : Bool} (h : Adds H N t i f x) :
    Adds H N t i f (x.orCut c) := by
  cases x with
  | fail _ => exact .fail
  | ok j c' s =>
    intro j' c'' s' e
    cases e
    exact h _ _ _ rfl

/-- Every match of the bootstrap grammar. -/
theorem peg_adds {text : List Byte} {R : Nat → Nat → Nat → Prop} {H : Nat → Val → Prop}
    (hR : ∀ (r : Nat) (d : Def) i j, metaRules[r]? = some d → Lg text R d.ope i j → R r i j) (hH : Typed text R H) {G : Gram MV} {v : Env} {m : Mode} {t : PTask} {i : Nat} {s : PSt MV}
    {x : PRes MV} (h : Peg G v m t i s x) : G = MG text → PTask.plainly t → Adds H text.length t i s.vs x := by
  induction h
  case skip_tok => intro _ _ j c s' e; cases e; exact ⟨Nat.le_refl _, Nat.le_max_left _ _, [], 0, by simp, by simp, rfl⟩
  case skip_none => intro _ _ j c s' e; cases e; exact ⟨Nat.le_refl _, Nat.le_max_left _ _, [], 0, by simp, by simp, rfl⟩
  case skip_ws h1 _ _ => intro hG _; subst hG; cases h1
  case one_ok e f k i s h1 h2 =>
    intro hG hp j c s' e'
    cases e'
    subst hG
    have hl := single_le h1 h2
    simp only [List.length_drop] at hl
    refine ⟨Nat.le_add_right _ _, ?_, [], 0, by simp, by simp, ⟨?_, ?_, ?_, ?_, (by intro c e; cases e <;> rfl)⟩⟩
    · have : k ≤ text.length - i := hl
      omega
    · cases e <;> simp only [Ope.single] at h1 <;> first | (cases h1; done) | rfl
    · rw [Nat.add_sub_cancel_left]; exact single_minLen h1 h2
    · cases e <;> simp only [Ope.single] at h1 <;> first | (cases h1; done) | exact Nat.le_refl _
    · intro es l fs e'; subst e'; cases h1
  case lit t ic i s x _ ih =>
    intro hG hp j c s' e
    obtain ⟨h1, h2, vs, tk, h3, h4, h5, h6⟩ := ih hG trivial j c s' e
    subst h5
    refine ⟨h1, h2, [], tk, h3, h4, ⟨rfl, h6, Nat.zero_le _, ?_, (by intro c e; cases e <;> rfl)⟩⟩
    intro es l fs e'; cases e'
  case text_plain t ic i s x hm _ _ ih =>
    intro hG hp j c s' e
    obtain ⟨h1, h2, vs, tk, h3, h4, h5⟩ := ih hG trivial j c s' e
    subst h5
    subst hG
    have hl := litMatch_le hm
    simp only [List.length_drop] at hl
    have hl' : t.length ≤ text.length - i := hl
    refine ⟨by omega, (by omega), [], tk, h3, h4, ⟨rfl, by omega⟩⟩
  case text_nonword h1 _ _ _ _ => intro hG _; subst hG; cases h1
  case text_word h1 _ _ _ _ _ _ => intro hG _; subst hG; cases h1
  case seq es kw i s x _ ih =>
    intro hG hp j c s' e
    obtain ⟨h1, h2, vs, tk, h3, h4, h5, h6, h7⟩ := ih hG hp j c s' e
    refine ⟨h1, h2, vs, tk, h3, h4, ⟨h5, h6, h7, ?_, (by intro c e; cases e <;> rfl)⟩⟩
    intro es l fs e'; cases e'
  case seq_nil => intro _ _ j c s' e; cases e; exact ⟨Nat.le_refl _, Nat.le_max_left _ _, [], 0, by simp, by simp, rfl, Nat.zero_le _, Nat.zero_le _⟩
  case seq_cons e es i s j c s1 x _ _ ih1 ih2 =>
    intro hG hp
    have hp' : plainly e = true ∧ plainlyL es = true := by simpa [PTask.plainly, plainlyL] using hp
    refine Adds.orCut ?_
    intro j' c' s' e'
    obtain ⟨h1, h2, vs, tk, h3, h4, h5⟩ := ih1 hG hp'.1 _ _ _ rfl
    obtain ⟨k1, k2, vs', tk', k3, k4, k5, k6, k7⟩ := ih2 hG hp'.2 _ _ _ e'
    refine ⟨by omega, (by omega), vs ++ vs', tk + tk', by rw [k3, h3, List.append_assoc], by omega, ⟨vs, vs', h5.vals, k5, rfl⟩, ?_, ?_⟩
    · have := h5.len; simp only [minLenL]; omega
    · have := h5.toks; simp only [minTokL]; omega
  case cho es l fs i s x _ ih =>
    intro hG hp j c s' e
    cases x with
    | fail _ => cases e
    | ok j1 c1 s1 =>
      cases e
      obtain ⟨h1, h2, vs, tk, h3, h4, m, e, h5, h6, h7, h8, h9⟩ := ih hG hp _ _ _ rfl
      have hm := List.mem_of_getElem? h5
      refine ⟨h1, h2, vs, tk, h3, h4, ⟨ShA_of h6 hm, Nat.le_trans (minLenA_le hm) h7, Nat.le_trans (minTokA_le hm) h8, ?_, (by intro c e; cases e <;> rfl)⟩⟩
      intro es' l' fs' e'
      cases e'
      exact ⟨e, by rw [h9, Nat.zero_add]; exact h5, h6⟩
  case cho_ok e es k n i s j c s1 _ ih =>
    intro hG hp j' c' s' e'
    have hp' : plainly e = true ∧ plainlyL es = true := by simpa [PTask.plainly, plainlyL] using hp
    cases e'
    obtain ⟨h1, h2, vs, tk, h3, h4, h5⟩ := ih hG hp'.1 _ _ _ rfl
    exact ⟨h1, h2, vs, tk, h3, h4, 0, e, rfl, h5.vals, h5.len, h5.toks, rfl⟩
  case cho_next e es k n i s x _ _ _ ih =>
    intro hG hp j' c' s' e'
    have hp' : plainly e = true ∧ plainlyL es = true := by simpa [PTask.plainly, plainlyL] using hp
    obtain ⟨h1, h2, vs, tk, h3, h4, m, e, h5, h6, h7, h8, h9⟩ := ih hG hp'.2 _ _ _ e'
    exact ⟨h1, h2, vs, tk, h3, h4, m + 1, e, h5, h6, h7, h8, by omega⟩
  case rep e mn mx sp i s x _ ih =>
    intro hG hp j c s' e'
    obtain ⟨h1, h2, vs, tk, h3, h4, k, h5, h6, h7, h8, h9⟩ := ih hG hp _ _ _ e'
    refine ⟨h1, h2, vs, tk, h3, h4, ⟨⟨k, h5, ?_, h7⟩, h8, h9, ?_, (by intro c e; cases e <;> rfl)⟩⟩
    · simpa using h6
    · intro es l fs e'; cases e'
  case loop_must e k mx n i s j c s1 x _ _ ih1 ih2 =>
    intro hG hp
    refine Adds.orCut ?_
    intro j' c' s' e'
    obtain ⟨h1, h2, vs, tk, h3, h4, h5⟩ := ih1 hG hp _ _ _ rfl
    obtain ⟨k1, k2, vs', tk', k3, k4, q, k5, k6, k7, k8, k9⟩ := ih2 hG hp _ _ _ e'
    refine ⟨by omega, (by omega), vs ++ vs', tk + tk', by rw [k3, h3, List.append_assoc], by omega, q + 1, by omega, ?_, ⟨vs, vs', h5.vals, k7, rfl⟩, ?_, ?_⟩
    · rw [show n + (q + 1) = n + 1 + q by omega]
      rcases k6 with h | h
      · exact .inl h
      · exact .inr (by omega)
    · have := h5.len; rw [Nat.succ_mul]; omega
    · have := h5.toks; rw [Nat.succ_mul]; omega
  case loop_full =>
    intro _ _ j c s' e; cases e
    exact ⟨Nat.le_refl _, Nat.le_max_left _ _, [], 0, by simp, by simp, 0, Nat.le_refl _, .inr rfl, rfl, by simp, by simp⟩
  case loop_more e mx n i s j c s1 x hx _ _ ih1 ih2 =>
    intro hG hp
    refine Adds.orCut ?_
    intro j' c' s' e'
    obtain ⟨h1, h2, vs, tk, h3, h4, h5⟩ := ih1 hG hp _ _ _ rfl
    obtain ⟨k1, k2, vs', tk', k3, k4, q, k5, k6, k7, k8, k9⟩ := ih2 hG hp _ _ _ e'
    refine ⟨by omega, (by omega), vs ++ vs', tk + tk', by rw [k3, h3, List.append_assoc], by omega, q + 1, Nat.zero_le _, .inl ?_, ⟨vs, vs', h5.vals, k7, rfl⟩, by simp, by simp⟩
    rw [show n + (q + 1) = n + 1 + q by omega]
    rcases k6 with h | h
    · exact h
    · subst h
      cases mx with
      | none => rfl
      | some b => simp at hx ⊢; omega
  case loop_end =>
    intro _ _ j c s' e; cases e
    exact ⟨Nat.le_refl _, Nat.le_max_left _ _, [], 0, by simp, by simp, 0, Nat.le_refl _, .inr rfl, rfl, by simp, by simp⟩
  case and_ok => intro _ hp; cases hp
  case not_ok =>
    intro _ _ j c s' e; cases e
    refine ⟨Nat.le_refl _, Nat.le_max_left _ _, [], 0, by simp, by simp, ⟨rfl, Nat.zero_le _, Nat.zero_le _, ?_, (by intro c e; cases e <;> rfl)⟩⟩
    intro es l fs e'; cases e'
  case tok_ok e i s j c s1 x _ _ ih1 ih2 =>
    intro hG hp
    refine Adds.orCut ?_
    intro j' c' s' e'
    obtain ⟨h1, h2, vs, tk, h3, h4, h5⟩ := ih1 hG hp _ _ _ rfl
    obtain ⟨k1, k2, vs', tk', k3, k4, k5⟩ := ih2 hG trivial _ _ _ e'
    subst k5
    refine ⟨by omega, (by omega), vs, tk + 1 + tk', by rw [k3]; simp [h3], by simp at k4; omega, ⟨h5.vals, ?_, ?_, ?_, (by intro c e; cases e <;> rfl)⟩⟩
    · have := h5.len; simp only [minLen]; omega
    · have := h5.toks; simp only [minTok]; omega
    · intro es l fs e'; cases e'
  case ign_ok e i s j c s1 _ ih =>
    intro hG hp j' c' s' e'
    cases e'
    obtain ⟨h1, h2, vs, tk, h3, h4, h5⟩ := ih hG hp _ _ _ rfl
    refine ⟨h1, h2, [], 0, by simp, by simp, ⟨rfl, h5.len, Nat.zero_le _, ?_, (by intro c e; cases e <;> rfl)⟩⟩
    intro es l fs e'; cases e'
  case ref r nm as d i s x h1 h2 _ ih =>
    intro hG hp j c s' e'
    obtain ⟨k1, k2, vs, tk, k3, k4, k5⟩ := ih hG (by simpa [PTask.plainly, plainly] using hp) _ _ _ e'
    refine ⟨k1, k2, vs, tk, k3, k4, ⟨k5, Nat.zero_le _, Nat.zero_le _, ?_, (by intro c e; cases e <;> rfl)⟩⟩
    intro es l fs e'; cases e'
  case call h1 h2 _ _ =>
    intro hG hp
    subst hG
    have := (rules_noWs _ (List.mem_of_getElem? h1)).2.1
    rw [this] at h2; cases h2
  case body d i s x _ _ ih =>
    intro hG hp j c s' e'
    exact ih hG (rules_plainly d hp) _ _ _ e'
  case body_ok h1 _ _ _ _ =>
    intro hG hp
    have := (rules_noWs _ hp).1
    rw [this] at h1; cases h1
  case rule_ok r d i s j c s1 h1 h2 hb h3 ih =>
    intro hG hp j' c' s' e'
    cases e'
    subst hG
    have hd : metaRules[r]? = some d := h1
    obtain ⟨k1, k2, vs, tk, k3, k4, k5⟩ := ih rfl (List.mem_of_getElem? hd) _ _ _ rfl
    simp only [List.nil_append, List.length_nil, Nat.zero_add] at k3 k4
    subst k3
    subst k4
    obtain ⟨-, l1, l2⟩ := peg_lies hR hb rfl (List.mem_of_getElem? hd) _ _ _ rfl
    have hv := hH r d i j s1.vs hd k1 k2 l1 (fun p hp => (l2 p hp).resolve_left (by simp)) k5
    unfold pushValue
    by_cases hi : d.ignoreSV = true
    · rw [if_pos hi]
      refine ⟨k1, k2, [], 0, by simp, by simp, ?_⟩
      show if dropped r = true then _ else _
      rw [dropped_eq hd, if_pos hi]
    · rw [if_neg hi]
      refine ⟨k1, k2, [_], 0, rfl, by simp, ?_⟩
      show if dropped r = true then _ else _
      rw [dropped_eq hd, if_neg hi]
      exact ⟨_, rfl, hv (by rw [dropped_eq hd]; simpa using hi)⟩
  case rule_pred h1 h2 _ h3 _ _ => intro hG; subst hG; cases h3
  case lr_ok h1 h2 _ _ _ _ _ _ _ =>
    intro hG
    subst hG
    have := (rules_noWs _ (List.mem_of_getElem? h1)).2.2
    rw [this] at h2; cases h2
  all_goals first
    | (intro _ _; exact Adds.fail; done)
    | (intro _ hp; cases hp; done)

end Verif.Meta
