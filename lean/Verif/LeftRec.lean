import Verif.LoopProofs
/-!
# What `DetectLeftRecursion` guarantees
-/

namespace Verif

mutual
/-- The rules an expression may call at the position where it starts, `t` being the rules that may be empty. -/
def lefts (t : Nat → Bool) : Ope → List Nat
  | .seq es _ => leftsSeq t es
  | .cho es _ _ => leftsCho t es
  | .rep e _ _ _ => lefts t e
  | .and_ e => lefts t e
  | .not_ e => lefts t e
  | .capScope e => lefts t e
  | .cap _ e => lefts t e
  | .tok e => lefts t e
  | .ign e => lefts t e
  | .ws e => lefts t e
  | .weak r => [r]
  | .ref r _ _ => [r]
  | .recov r _ _ => [r]
  | .prec a b _ _ => lefts t a ++ if cbe t a then lefts t b else []
  | _ => []

def leftsSeq (t : Nat → Bool) : List Ope → List Nat
  | [] => []
  | e :: es => lefts t e ++ if cbe t e then leftsSeq t es else []

def leftsCho (t : Nat → Bool) : List Ope → List Nat
  | [] => []
  | e :: es => lefts t e ++ leftsCho t es
end

/-- Rule `r` may call rule `q` at the position where it starts, directly or through other rules. -/
inductive LeftReach (rules : List Def) (t : Nat → Bool) : Nat → Nat → Prop where
  | edge {r d q} : rules[r]? = some d → q ∈ lefts t d.ope → LeftReach rules t r q
  | trans {r p q} : LeftReach rules t r p → LeftReach rules t p q → LeftReach rules t r q

/-- The last alternative of a choice that may be empty may be empty. -/
def lastNode (t : Nat → Bool) : Ope → Bool
  | .cho es _ _ => !cbeAny t es || (es.getLast?.map (cbe t)).getD false
  | _ => true

section
variable {rules : List Def} {z : Ope → Bool} {t : Nat → Bool} {name : List Byte}

/-- Rule `q` is not the one looked for, and the rules it may call at its start have been visited. -/
def LrClosed (rules : List Def) (t : Nat → Bool) (name : List Byte) (vis : List Nat) (q : Nat) : Prop :=
  ∀ d, rules[q]? = some d → d.name ≠ name ∧ ∀ x ∈ lefts t d.ope, x ∈ vis

/-- What a visit without error does. -/
structure LrOut (rules : List Def) (t : Nat → Bool) (name : List Byte) (s s' : LrSt) (ls : List Nat) : Prop where
  err : s.err = false
  mono : ∀ q ∈ s.vis, q ∈ s'.vis
  closed : ∀ q ∈ s'.vis, q ∈ s.vis ∨ LrClosed rules t name s'.vis q
  seen : ∀ q ∈ ls, q ∈ s'.vis

theorem LrOut.same {s s' : LrSt} (h : s'.err = false) (he : s'.err = s.err) (hv : s'.vis = s.vis) : LrOut rules t name s s' [] :=
  ⟨he ▸ h, fun q hq => hv ▸ hq, fun q hq => .inl (hv ▸ hq), fun q hq => by cases hq⟩

theorem LrOut.comp {s s1 s2 : LrSt} {l1 l2 : List Nat} (h1 : LrOut rules t name s s1 l1) (h2 : LrOut rules t name s1 s2 l2) :
    LrOut rules t name s s2 (l1 ++ l2) where
  err := h1.err
  mono := fun q hq => h2.mono q (h1.mono q hq)
  closed := by
    intro q hq
    rcases h2.closed q hq with h | h
    · rcases h1.closed q h with h | h
      · exact .inl h
      · exact .inr fun d hd => ⟨(h d hd).1, fun x hx => h2.mono x ((h d hd).2 x hx)⟩
    · exact .inr h
  seen := by
    intro q hq
    rcases List.mem_append.mp hq with hq | hq
    · exact h2.mono q (h1.seen q hq)
    · exact h2.seen q hq

/-- Only `done` changes. -/
theorem LrOut.done {s s1 : LrSt} {l : List Nat} {b : Bool} (h : LrOut rules t name s s1 l) :
    LrOut rules t name s { s1 with done := b } l := ⟨h.err, h.mono, h.closed, h.seen⟩

/-- What visits of other rules do. -/
def VisitOk (rules : List Def) (t : Nat → Bool) (name : List Byte) (visit : Nat → LrSt → LrSt) : Prop :=
  ∀ r d s, rules[r]? = some d → (visit r s).err = false →
    LrOut rules t name s (visit r s) (lefts t d.ope) ∧ (cbe t d.ope = true → (visit r s).done = false)

theorem lrRef_ok (hf : ∀ r d, rules[r]? = some d → t r = cbe t d.ope) {visit : Nat → LrSt → LrSt} (hv : VisitOk rules t name visit)
    {r : Nat} {nm : List Byte} {as : List Ope} {s : LrSt} (hn : namedNode rules (.ref r nm as) = true)
    (h : (lrRef visit t name r nm s).err = false) :
    LrOut rules t name s (lrRef visit t name r nm s) [r] ∧ (t r = true → (lrRef visit t name r nm s).done = false) := by
  obtain ⟨d, hd, hnm⟩ := named_ref hn
  unfold lrRef at h ⊢
  by_cases h1 : nm = name
  · rw [if_pos h1] at h; cases h
  · rw [if_neg h1] at h ⊢
    by_cases h2 : r ∈ s.vis
    · rw [if_pos h2] at h ⊢
      exact ⟨⟨h, fun q hq => hq, fun q hq => .inl hq, fun q hq => by rw [List.mem_singleton.mp hq]; exact h2⟩,
        fun ht => by simp [ht]⟩
    · rw [if_neg h2] at h ⊢
      simp only at h ⊢
      have he : (visit r { s with vis := r :: s.vis }).err = false := by
        by_cases h3 : (visit r { s with vis := r :: s.vis }).done = true
        · rw [if_pos h3] at h; exact h
        · rw [if_neg h3] at h; exact h
      obtain ⟨k1, k2⟩ := hv r d _ hd he
      have hout : LrOut rules t name s (visit r { s with vis := r :: s.vis }) [r] := by
        refine ⟨k1.err, fun q hq => k1.mono q (List.mem_cons_of_mem _ hq), ?_, ?_⟩
        · intro q hq
          rcases k1.closed q hq with h | h
          · rcases List.mem_cons.mp h with rfl | h
            · right
              intro d' hd'
              rw [hd] at hd'; cases hd'
              exact ⟨by rw [hnm]; exact h1, k1.seen⟩
            · exact .inl h
          · exact .inr h
        · intro q hq
          rw [List.mem_singleton.mp hq]
          exact k1.mono r List.mem_cons_self
      by_cases h3 : (visit r { s with vis := r :: s.vis }).done = true
      · rw [if_pos h3]
        exact ⟨hout.done, fun ht => by simp [ht]⟩
      · rw [if_neg h3]
        exact ⟨hout, fun _ => by simpa using h3⟩

mutual
theorem dlr_ok (hf : ∀ r d, rules[r]? = some d → t r = cbe t d.ope) {visit : Nat → LrSt → LrSt} (hv : VisitOk rules t name visit) :
    ∀ (e : Ope) (s : LrSt), e.every (cleanNode z t) = true → e.every (namedNode rules) = true → e.every (lastNode t) = true →
      (dlr visit t name e s).err = false →
      LrOut rules t name s (dlr visit t name e s) (lefts t e) ∧ (cbe t e = true → (dlr visit t name e s).done = false)
  | .seq es _, s, hc, hn, hl, h => by
    simp only [Ope.every, Bool.and_eq_true] at hc hn hl
    simp only [dlr, lefts, cbe] at h ⊢
    obtain ⟨k1, k2⟩ := dlrSeq_ok hf hv es s hc.2 hn.2 hl.2 h
    exact ⟨k1, fun hb => k2 hb (by have := hc.1; rintro rfl; simp [cleanNode] at this)⟩
  | .cho es l fs, s, hc, hn, hl, h => by
    simp only [Ope.every, Bool.and_eq_true] at hc hn hl
    simp only [dlr, lefts, cbe] at h ⊢
    obtain ⟨k1, k2⟩ := dlrCho_ok hf hv es s hc.2 hn.2 hl.2 h
    refine ⟨k1, fun hb => ?_⟩
    have hlast := hl.1
    simp only [lastNode, hb, Bool.not_true, Bool.false_or] at hlast
    cases he : es.getLast? with
    | none => rw [he] at hlast; cases hlast
    | some e => rw [he] at hlast; exact k2 e he hlast
  | .rep e mn mx sp, s, hc, hn, hl, h => by
    simp only [Ope.every, Bool.and_eq_true] at hc hn hl
    simp only [dlr, lefts, cbe] at h ⊢
    refine ⟨(dlr_ok hf hv e s hc.2 hn.2 hl.2 h).1.done, fun hb => ?_⟩
    simp only [beq_iff_eq] at hb
    simp [hb]
  | .and_ e, s, hc, hn, hl, h => by
    simp only [Ope.every, Bool.and_eq_true] at hc hn hl
    simp only [dlr, lefts, cbe] at h ⊢
    exact ⟨(dlr_ok hf hv e s hc.2 hn.2 hl.2 h).1.done, fun _ => trivial⟩
  | .not_ e, s, hc, hn, hl, h => by
    simp only [Ope.every, Bool.and_eq_true] at hc hn hl
    simp only [dlr, lefts, cbe] at h ⊢
    exact ⟨(dlr_ok hf hv e s hc.2 hn.2 hl.2 h).1.done, fun _ => trivial⟩
  | .capScope e, s, hc, hn, hl, h => by
    simp only [Ope.every, Bool.and_eq_true] at hc hn hl
    simp only [dlr, lefts, cbe] at h ⊢
    exact dlr_ok hf hv e s hc.2 hn.2 hl.2 h
  | .cap _ e, s, hc, hn, hl, h => by
    simp only [Ope.every, Bool.and_eq_true] at hc hn hl
    simp only [dlr, lefts, cbe] at h ⊢
    exact dlr_ok hf hv e s hc.2 hn.2 hl.2 h
  | .tok e, s, hc, hn, hl, h => by
    simp only [Ope.every, Bool.and_eq_true] at hc hn hl
    simp only [dlr, lefts, cbe] at h ⊢
    exact dlr_ok hf hv e s hc.2 hn.2 hl.2 h
  | .ign e, s, hc, hn, hl, h => by
    simp only [Ope.every, Bool.and_eq_true] at hc hn hl
    simp only [dlr, lefts, cbe] at h ⊢
    exact dlr_ok hf hv e s hc.2 hn.2 hl.2 h
  | .dict .., s, _, _, _, h => ⟨LrOut.same h rfl rfl, fun hb => by simp [cbe] at hb⟩
  | .lit x _, s, _, _, _, h => ⟨LrOut.same h rfl rfl, fun hb => by simp only [cbe] at hb; simp [dlr, hb]⟩
  | .cls _, s, _, _, _, h => ⟨LrOut.same h rfl rfl, fun hb => by simp [cbe] at hb⟩
  | .chr _, s, _, _, _, h => ⟨LrOut.same h rfl rfl, fun hb => by simp [cbe] at hb⟩
  | .dot, s, _, _, _, h => ⟨LrOut.same h rfl rfl, fun hb => by simp [cbe] at hb⟩
  | .ref r nm as, s, _, hn, _, h => by
    simp only [Ope.every] at hn
    simp only [dlr, lefts, cbe] at h ⊢
    exact lrRef_ok hf hv hn h
  | .usr _, _, hc, _, _, _ => by simp [Ope.every, cleanNode] at hc
  | .weak _, _, hc, _, _, _ => by simp [Ope.every, cleanNode] at hc
  | .param .., _, hc, _, _, _ => by simp [Ope.every, cleanNode] at hc
  | .ws _, _, hc, _, _, _ => by simp [Ope.every, cleanNode] at hc
  | .bref _, _, hc, _, _, _ => by simp [Ope.every, cleanNode] at hc
  | .prec .., _, hc, _, _, _ => by simp [Ope.every, cleanNode] at hc
  | .recov .., _, hc, _, _, _ => by simp [Ope.every, cleanNode] at hc
  | .cut, _, hc, _, _, _ => by simp [Ope.every, cleanNode] at hc
  | .null, _, hc, _, _, _ => by simp [Ope.every, cleanNode] at hc

theorem dlrSeq_ok (hf : ∀ r d, rules[r]? = some d → t r = cbe t d.ope) {visit : Nat → LrSt → LrSt} (hv : VisitOk rules t name visit) :
    ∀ (es : List Ope) (s : LrSt), Ope.everyL (cleanNode z t) es = true → Ope.everyL (namedNode rules) es = true →
      Ope.everyL (lastNode t) es = true → (dlrSeq visit t name es s).err = false →
      LrOut rules t name s (dlrSeq visit t name es s) (leftsSeq t es) ∧
        (cbeAll t es = true → es ≠ [] → (dlrSeq visit t name es s).done = false)
  | [], s, _, _, _, h => ⟨LrOut.same h rfl rfl, fun _ h => absurd rfl h⟩
  | e :: es, s, hc, hn, hl, h => by
    simp only [Ope.everyL, Bool.and_eq_true] at hc hn hl
    simp only [dlrSeq, leftsSeq, cbeAll, Bool.and_eq_true] at h ⊢
    by_cases h1 : (dlr visit t name e s).done = true
    · rw [if_pos h1] at h ⊢
      obtain ⟨k1, k2⟩ := dlr_ok hf hv e s hc.1 hn.1 hl.1 h
      have hb : cbe t e = false := by
        cases hb : cbe t e with
        | false => rfl
        | true => rw [k2 hb] at h1; cases h1
      rw [hb]
      simp only [Bool.false_eq_true, if_false, List.append_nil, false_and]
      exact ⟨k1, fun h => h.elim⟩
    · rw [if_neg h1] at h ⊢
      by_cases h2 : (dlr visit t name e s).err = true
      · rw [if_pos h2] at h
        rw [show (dlr visit t name e s).err = false from h] at h2; cases h2
      · rw [if_neg h2] at h ⊢
        simp only [Bool.not_eq_true] at h1 h2
        obtain ⟨k1, -⟩ := dlr_ok hf hv e s hc.1 hn.1 hl.1 h2
        obtain ⟨m1, m2⟩ := dlrSeq_ok hf hv es _ hc.2 hn.2 hl.2 h
        constructor
        · have := k1.comp m1
          refine ⟨this.err, this.mono, this.closed, fun q hq => this.seen q ?_⟩
          rcases List.mem_append.mp hq with hq | hq
          · exact List.mem_append_left _ hq
          · split at hq
            · exact List.mem_append_right _ hq
            · cases hq
        · rintro ⟨-, hb⟩ -
          cases es with
          | nil => exact h1
          | cons a es => exact m2 hb (by simp)

theorem dlrCho_ok (hf : ∀ r d, rules[r]? = some d → t r = cbe t d.ope) {visit : Nat → LrSt → LrSt} (hv : VisitOk rules t name visit) :
    ∀ (es : List Ope) (s : LrSt), Ope.everyL (cleanNode z t) es = true → Ope.everyL (namedNode rules) es = true →
      Ope.everyL (lastNode t) es = true → (dlrCho visit t name es s).err = false →
      LrOut rules t name s (dlrCho visit t name es s) (leftsCho t es) ∧
        (∀ e, es.getLast? = some e → cbe t e = true → (dlrCho visit t name es s).done = false)
  | [], s, _, _, _, h => ⟨LrOut.same h rfl rfl, fun _ h => by cases h⟩
  | e :: es, s, hc, hn, hl, h => by
    simp only [Ope.everyL, Bool.and_eq_true] at hc hn hl
    simp only [dlrCho, leftsCho] at h ⊢
    by_cases h2 : (dlr visit t name e s).err = true
    · rw [if_pos h2] at h
      rw [show (dlr visit t name e s).err = false from h] at h2; cases h2
    · rw [if_neg h2] at h ⊢
      simp only [Bool.not_eq_true] at h2
      obtain ⟨k1, k2⟩ := dlr_ok hf hv e s hc.1 hn.1 hl.1 h2
      obtain ⟨m1, m2⟩ := dlrCho_ok hf hv es _ hc.2 hn.2 hl.2 h
      refine ⟨k1.comp m1, fun e' he' hb => ?_⟩
      cases es with
      | nil => simp only [List.getLast?_singleton, Option.some.injEq] at he'; subst he'; exact k2 hb
      | cons a es => exact m2 e' (by rw [← he', List.getLast?_cons_cons]) hb
end

/-- What is assumed of the grammar. -/
structure LrHyp (rules : List Def) (z : Ope → Bool) (t : Nat → Bool) : Prop where
  fix : ∀ r d, rules[r]? = some d → t r = cbe t d.ope
  clean : ∀ (r : Nat) (d : Def), rules[r]? = some d → d.ope.every (cleanNode z t) = true
  named : ∀ (r : Nat) (d : Def), rules[r]? = some d → d.ope.every (namedNode rules) = true
  last : ∀ (r : Nat) (d : Def), rules[r]? = some d → d.ope.every (lastNode t) = true

theorem lrVisit_ok (H : LrHyp rules z t) (name : List Byte) : ∀ n, VisitOk rules t name (lrVisit rules t name n)
  | 0 => by intro r d s hd h; cases h
  | n + 1 => by
    intro r d s hd h
    simp only [lrVisit, hd] at h ⊢
    exact dlr_ok H.fix (lrVisit_ok H name n) d.ope s (H.clean r d hd) (H.named r d hd) (H.last r d hd) h

/-- **A rule that is not marked left-recursive cannot call itself, directly or through other rules, at the position where it
starts.** -/
theorem markedLR_sound (H : LrHyp rules z t) {n r : Nat} (h : markedLR rules t n r = false) : ¬ LeftReach rules t r r := by
  unfold markedLR at h
  cases hd : rules[r]? with
  | none => rw [hd] at h; cases h
  | some d =>
    rw [hd] at h
    obtain ⟨k, -⟩ := dlr_ok H.fix (lrVisit_ok H d.name n) d.ope {} (H.clean r d hd) (H.named r d hd) (H.last r d hd) h
    have hcl : ∀ q ∈ (dlr (lrVisit rules t d.name n) t d.name d.ope {}).vis,
        LrClosed rules t d.name (dlr (lrVisit rules t d.name n) t d.name d.ope {}).vis q := by
      intro q hq
      exact (k.closed q hq).resolve_left (by simp)
    have key : ∀ a b, LeftReach rules t a b → (a = r ∨ a ∈ (dlr (lrVisit rules t d.name n) t d.name d.ope {}).vis) →
        b ∈ (dlr (lrVisit rules t d.name n) t d.name d.ope {}).vis := by
      intro a b hab
      induction hab with
      | edge hda hq =>
        rintro (rfl | ha)
        · rw [hd] at hda; cases hda; exact k.seen _ hq
        · exact (hcl _ ha _ hda).2 _ hq
      | trans _ _ ih1 ih2 => exact fun ha => ih2 (.inr (ih1 ha))
    intro hr
    exact (hcl r (key r r hr (.inl rfl)) d hd).1 rfl

end

end Verif
