import Verif.NoAlarm
import Verif.TextWf
/-!
# Well-formed grammar texts load

`realMark`, `realLoops`: the checks the loader makes.  `sane_text`: the rules of a well-formed text are `Sane`, before and after literals are made tokens.
`load_text`: loading them succeeds.
-/

namespace Verif

/-- peglib.h 6353-6375: the left-recursion check with the `can_be_empty` flags computed before; `ord`: the iteration order of the grammar map. -/
def realMark (ord : List Nat) (rs : List Def) (r : Nat) : Bool :=
  match cbeLoop rs ord (rs.length + 1) fun _ => false with
  | none => true
  | some t => markedLR rs t rs.length r

/-- peglib.h 6454-6470: the loop check. -/
def realLoops (rs : List Def) (r : Nat) : Bool := infiniteLoop rs rs.length r

namespace Meta
open Verif

section
variable {ds : List RDef} {ν : List Byte → Bool} {rank : List Byte → Nat} {μ : List Byte → Mode → Bool}

def nullAt (ds : List RDef) (ν : List Byte → Bool) (r : Nat) : Bool := r == 0 || ν (nameAt ds r)

def rankAt (ds : List RDef) (rank : List Byte → Nat) (r : Nat) : Nat := rank (nameAt ds r)

theorem nullAt_succ {k : Nat} {rd : RDef} (h : ds[k]? = some rd) : nullAt ds ν (k + 1) = ν rd.name := by
  unfold nullAt; rw [nameAt_succ h]; rfl

mutual
theorem nulO_link : ∀ (e : Src), plainText ds e = true → Regular e → nulO (nullAt ds ν) (e.link (allOf ds) []) = nullS ν e
  | .seq es, h, hr => by
    cases hr with
    | seq h1 h2 => exact nulOAll_link es h h2
  | .cho es l, h, hr => by
    simp only [plainText, Bool.and_eq_true, Bool.not_eq_true'] at h
    obtain ⟨rfl, h⟩ := h
    cases hr with
    | cho h1 h2 =>
      cases es with
      | nil => simp at h1
      | cons e es => exact nulOAny_link (e :: es) h h2
  | .rep e mn _, h, hr => by
    cases hr with
    | rep h1 h2 h3 =>
      simp only [Src.link, nulO, nullS]
      rw [nulO_link e h h1]
  | .and_ e, _, _ => rfl
  | .not_ e, _, _ => rfl
  | .tok e, h, hr => by
    cases hr with
    | tok h1 => exact nulO_link e h h1
  | .ign e, h, hr => by
    cases hr with
    | ign h1 h2 => exact nulO_link e h h2
  | .dict _ _, _, _ => rfl
  | .lit _ _, _, _ => rfl
  | .cls _, _, _ => rfl
  | .chr _, _, _ => rfl
  | .dot, _, _ => rfl
  | .ref nm mac as, h, _ => by
    obtain ⟨k, rd, h1, h2, h3⟩ := link_ref h
    rw [h1]
    simp only [nulO, nullS, nullAt_succ h2, h3]
  | .capScope _, h, _ => by cases h
  | .cap _ _, h, _ => by cases h
  | .usr _, h, _ => by cases h
  | .bref _, h, _ => by cases h
  | .cut, h, _ => by cases h
  | .recov _ _ _, h, _ => by cases h
theorem nulOAll_link : ∀ (es : List Src), plainTextL ds es = true → (∀ e ∈ es, Regular e) → nulOAll (nullAt ds ν) (Src.linkL (allOf ds) [] es) = nullSAll ν es
  | [], _, _ => rfl
  | e :: es, h, hr => by
    simp only [plainTextL, Bool.and_eq_true] at h
    simp only [Src.linkL, nulOAll, nullSAll]
    rw [nulO_link e h.1 (hr e List.mem_cons_self), nulOAll_link es h.2 fun x hx => hr x (List.mem_cons_of_mem _ hx)]
theorem nulOAny_link : ∀ (es : List Src), plainTextL ds es = true → (∀ e ∈ es, Regular e) → nulOAny (nullAt ds ν) (Src.linkL (allOf ds) [] es) = nullSAny ν es
  | [], _, _ => rfl
  | e :: es, h, hr => by
    simp only [plainTextL, Bool.and_eq_true] at h
    simp only [Src.linkL, nulOAny, nullSAny]
    rw [nulO_link e h.1 (hr e List.mem_cons_self), nulOAny_link es h.2 fun x hx => hr x (List.mem_cons_of_mem _ hx)]
end

mutual
theorem leftO_link : ∀ (e : Src), plainText ds e = true → Regular e → ∀ q ∈ leftO (nullAt ds ν) (e.link (allOf ds) []), ∃ n ∈ leftS ν e, ∃ k rd, q = k + 1 ∧ ds[k]? = some rd ∧ rd.name = n
  | .seq es, h, hr => by
    cases hr with
    | seq h1 h2 => exact leftOSeq_link es h h2
  | .cho es l, h, hr => by
    simp only [plainText, Bool.and_eq_true, Bool.not_eq_true'] at h
    obtain ⟨rfl, h⟩ := h
    cases hr with
    | cho h1 h2 => exact leftOAlts_link es h h2
  | .rep e mn _, h, hr => by
    cases hr with
    | rep h1 h2 h3 => exact leftO_link e h h1
  | .and_ e, h, hr => by
    cases hr with
    | and_ h1 => exact leftO_link e h h1
  | .not_ e, h, hr => by
    cases hr with
    | not_ h1 => exact leftO_link e h h1
  | .tok e, h, hr => by
    cases hr with
    | tok h1 => exact leftO_link e h h1
  | .ign e, h, hr => by
    cases hr with
    | ign h1 h2 => exact leftO_link e h h2
  | .dict _ _, _, _ => by intro q hq; cases hq
  | .lit _ _, _, _ => by intro q hq; cases hq
  | .cls _, _, _ => by intro q hq; cases hq
  | .chr _, _, _ => by intro q hq; cases hq
  | .dot, _, _ => by intro q hq; cases hq
  | .ref nm mac as, h, _ => by
    intro q hq
    obtain ⟨k, rd, h1, h2, h3⟩ := link_ref h
    rw [h1] at hq
    simp only [leftO, List.mem_singleton] at hq
    subst hq
    exact ⟨nm, List.mem_singleton.2 rfl, k, rd, rfl, h2, h3⟩
  | .capScope _, h, _ => by cases h
  | .cap _ _, h, _ => by cases h
  | .usr _, h, _ => by cases h
  | .bref _, h, _ => by cases h
  | .cut, h, _ => by cases h
  | .recov _ _ _, h, _ => by cases h
theorem leftOSeq_link : ∀ (es : List Src), plainTextL ds es = true → (∀ e ∈ es, Regular e) →
    ∀ q ∈ leftOSeq (nullAt ds ν) (Src.linkL (allOf ds) [] es), ∃ n ∈ leftSeq ν es, ∃ k rd, q = k + 1 ∧ ds[k]? = some rd ∧ rd.name = n
  | [], _, _ => by intro q hq; cases hq
  | e :: es, h, hr => by
    simp only [plainTextL, Bool.and_eq_true] at h
    intro q hq
    simp only [Src.linkL, leftOSeq, List.mem_append, nulO_link e h.1 (hr e List.mem_cons_self)] at hq
    simp only [leftSeq, List.mem_append]
    rcases hq with hq | hq
    · obtain ⟨n, h1, h2⟩ := leftO_link e h.1 (hr e List.mem_cons_self) q hq
      exact ⟨n, .inl h1, h2⟩
    · by_cases hn : nullS ν e = true
      · rw [if_pos hn] at hq ⊢
        obtain ⟨n, h1, h2⟩ := leftOSeq_link es h.2 (fun x hx => hr x (List.mem_cons_of_mem _ hx)) q hq
        exact ⟨n, .inr h1, h2⟩
      · rw [if_neg hn] at hq; cases hq
theorem leftOAlts_link : ∀ (es : List Src), plainTextL ds es = true → (∀ e ∈ es, Regular e) →
    ∀ q ∈ leftOAlts (nullAt ds ν) (Src.linkL (allOf ds) [] es), ∃ n ∈ leftAlts ν es, ∃ k rd, q = k + 1 ∧ ds[k]? = some rd ∧ rd.name = n
  | [], _, _ => by intro q hq; cases hq
  | e :: es, h, hr => by
    simp only [plainTextL, Bool.and_eq_true] at h
    intro q hq
    simp only [Src.linkL, leftOAlts, List.mem_append] at hq
    simp only [leftAlts, List.mem_append]
    rcases hq with hq | hq
    · obtain ⟨n, h1, h2⟩ := leftO_link e h.1 (hr e List.mem_cons_self) q hq
      exact ⟨n, .inl h1, h2⟩
    · obtain ⟨n, h1, h2⟩ := leftOAlts_link es h.2 (fun x hx => hr x (List.mem_cons_of_mem _ hx)) q hq
      exact ⟨n, .inr h1, h2⟩
end

mutual
theorem refs_link : ∀ (e : Src), plainText ds e = true → ∀ q ∈ (e.link (allOf ds) []).refs, q ≠ 0
  | .seq es, h => refsL_link es h
  | .cho es l, h => by
    simp only [plainText, Bool.and_eq_true] at h
    exact refsL_link es h.2
  | .rep e mn _, h => refs_link e h
  | .and_ e, h => refs_link e h
  | .not_ e, h => refs_link e h
  | .tok e, h => refs_link e h
  | .ign e, h => refs_link e h
  | .dict _ _, _ => by intro q hq; cases hq
  | .lit _ _, _ => by intro q hq; cases hq
  | .cls _, _ => by intro q hq; cases hq
  | .chr _, _ => by intro q hq; cases hq
  | .dot, _ => by intro q hq; cases hq
  | .ref nm mac as, h => by
    intro q hq
    obtain ⟨k, rd, h1, h2, h3⟩ := link_ref h
    rw [h1] at hq
    simp only [Ope.refs, Ope.refsL, List.mem_singleton] at hq
    omega
  | .capScope _, h => by cases h
  | .cap _ _, h => by cases h
  | .usr _, h => by cases h
  | .bref _, h => by cases h
  | .cut, h => by cases h
  | .recov _ _ _, h => by cases h
theorem refsL_link : ∀ (es : List Src), plainTextL ds es = true → ∀ q ∈ Ope.refsL (Src.linkL (allOf ds) [] es), q ≠ 0
  | [], _ => by intro q hq; cases hq
  | e :: es, h => by
    simp only [plainTextL, Bool.and_eq_true] at h
    intro q hq
    simp only [Src.linkL, Ope.refsL, List.mem_append] at hq
    rcases hq with hq | hq
    · exact refs_link e h.1 q hq
    · exact refsL_link es h.2 q hq
end

/-- The rules carry the names of the text. -/
def Named (ds : List RDef) (rs : List Def) : Prop := ∀ (k : Nat) (rd : RDef), ds[k]? = some rd → (rs[k + 1]?).map Def.name = some rd.name

mutual
theorem tidyO_link {rs : List Def} (hn : Named ds rs) {ws : Bool} : ∀ (e : Src), plainText ds e = true → Regular e → tidyS ν ws e = true →
    tidyO rs (nullAt ds ν) (e.link (allOf ds) []) = true
  | .seq es, h, hr, ht => by
    simp only [tidyS, Bool.and_eq_true] at ht
    cases hr with
    | seq h1 h2 => exact tidyOL_link hn es h h2 ht.2
  | .cho es l, h, hr, ht => by
    simp only [plainText, Bool.and_eq_true, Bool.not_eq_true'] at h
    obtain ⟨rfl, h⟩ := h
    cases hr with
    | cho h1 h2 => exact tidyOL_link hn es h h2 ht
  | .rep e mn mx, h, hr, ht => by
    simp only [tidyS, Bool.and_eq_true] at ht
    cases hr with
    | rep h1 h2 h3 =>
      simp only [Src.link, tidyO, nulO_link e h h1, Bool.and_eq_true]
      refine ⟨?_, tidyO_link hn e h h1 ht.2⟩
      have := ht.1.1
      rw [Bool.or_comm]; exact this
  | .and_ e, h, hr, ht => by
    cases hr with
    | and_ h1 => exact tidyO_link hn e h h1 ht
  | .not_ e, h, hr, ht => by
    cases hr with
    | not_ h1 => exact tidyO_link hn e h h1 ht
  | .tok e, h, hr, ht => by
    simp only [tidyS, Bool.and_eq_true] at ht
    cases hr with
    | tok h1 => exact tidyO_link hn e h h1 ht.2
  | .ign e, h, hr, ht => by
    cases hr with
    | ign h1 h2 => exact tidyO_link hn e h h2 ht
  | .dict _ _, _, _, _ => rfl
  | .lit _ _, _, _, _ => rfl
  | .cls _, _, _, _ => rfl
  | .chr _, _, _, _ => rfl
  | .dot, _, _, _ => rfl
  | .ref nm mac as, h, _, _ => by
    obtain ⟨k, rd, h1, h2, h3⟩ := link_ref h
    rw [h1]
    simp [tidyO, tidyOL, hn k rd h2, h3]
  | .capScope _, h, _, _ => by cases h
  | .cap _ _, h, _, _ => by cases h
  | .usr _, h, _, _ => by cases h
  | .bref _, h, _, _ => by cases h
  | .cut, h, _, _ => by cases h
  | .recov _ _ _, h, _, _ => by cases h
theorem tidyOL_link {rs : List Def} (hn : Named ds rs) {ws : Bool} : ∀ (es : List Src), plainTextL ds es = true → (∀ e ∈ es, Regular e) → tidySL ν ws es = true →
    tidyOL rs (nullAt ds ν) (Src.linkL (allOf ds) [] es) = true
  | [], _, _, _ => rfl
  | e :: es, h, hr, ht => by
    simp only [plainTextL, Bool.and_eq_true] at h
    simp only [tidySL, Bool.and_eq_true] at ht
    simp only [Src.linkL, tidyOL, Bool.and_eq_true]
    exact ⟨tidyO_link hn e h.1 (hr e List.mem_cons_self) ht.1, tidyOL_link hn es h.2 (fun x hx => hr x (List.mem_cons_of_mem _ hx)) ht.2⟩
end

mutual
theorem check_plain : ∀ (e : Src), plainText ds e = true → (∀ d ∈ ds, d.params = none) → e.check (allOf ds) [] = true
  | .seq es, h, hm => checkL_plain es h hm
  | .cho es l, h, hm => by
    simp only [plainText, Bool.and_eq_true] at h
    exact checkL_plain es h.2 hm
  | .rep e mn _, h, hm => check_plain e h hm
  | .and_ e, h, hm => check_plain e h hm
  | .not_ e, h, hm => check_plain e h hm
  | .tok e, h, hm => check_plain e h hm
  | .ign e, h, hm => check_plain e h hm
  | .dict _ _, _, _ => rfl
  | .lit _ _, _, _ => rfl
  | .cls _, _, _ => rfl
  | .chr _, _, _ => rfl
  | .dot, _, _ => rfl
  | .ref nm mac as, h, hm => by
    simp only [plainText, Bool.and_eq_true, Bool.not_eq_true', List.isEmpty_iff, decide_eq_true_eq, Option.isSome_iff_exists] at h
    obtain ⟨⟨⟨rfl, rfl⟩, hn⟩, rd, hr⟩ := h
    obtain ⟨k, h1, h2⟩ := ruleNamed_of hn hr
    have h3 : (allOf ds)[k + 1]? = some rd.toSDef := by simp [allOf, h2]
    have h4 : rd.toSDef.head.isMacro = false := by rw [(toSDef_head rd).1, hm rd (List.mem_of_getElem? h2)]; rfl
    simp [Src.check, h1, h3, h4, Src.checkL]
  | .capScope _, h, _ => by cases h
  | .cap _ _, h, _ => by cases h
  | .usr _, h, _ => by cases h
  | .bref _, h, _ => by cases h
  | .cut, h, _ => by cases h
  | .recov _ _ _, h, _ => by cases h
theorem checkL_plain : ∀ (es : List Src), plainTextL ds es = true → (∀ d ∈ ds, d.params = none) → Src.checkL (allOf ds) [] es = true
  | [], _, _ => rfl
  | e :: es, h, hm => by
    simp only [plainTextL, Bool.and_eq_true] at h
    simp only [Src.checkL, Bool.and_eq_true]
    exact ⟨check_plain e h.1 hm, checkL_plain es h.2 hm⟩
end

/-- The rules `rs` are those of the text, literals possibly made tokens. -/
structure RulesOf (ds : List RDef) (rs : List Def) : Prop where
  len : rs.length = ds.length + 1
  zero : ∃ d, rs[0]? = some d ∧ d.name = recoverName ∧ (d.ope = .param 0 "x".toUTF8.toList)
  rule : ∀ (k : Nat) (rd : RDef), ds[k]? = some rd → ∃ d, rs[k + 1]? = some d ∧ d.name = rd.name ∧
    (d.ope = rd.body.link (allOf ds) [] ∨ d.ope = .tok (rd.body.link (allOf ds) []))

theorem tidy_body {start : List Byte} (hw : WellFormed ds ν rank μ start) {rd : RDef} (hm : rd ∈ ds) :
    ∃ ws, tidyS ν ws rd.body = true ∧ nullS ν (meaning ds rd) = nullS ν rd.body ∧ leftS ν (meaning ds rd) = leftS ν rd.body := by
  have h := (hw.tidyTok hm).1
  rw [null_meaning, left_meaning]
  unfold litTok at h ⊢
  by_cases hl : ((ruleOf ds whitespaceName).isSome && isLiteral rd.body) = true
  · rw [if_pos hl] at h ⊢
    simp only [tidyS, Bool.and_eq_true] at h
    exact ⟨_, h.2, rfl, rfl⟩
  · rw [if_neg hl] at h ⊢
    exact ⟨_, h, rfl, rfl⟩

theorem leftAlts_own {nm : List Byte} (hν : ν nm = false) : ∀ (es : List Src), ∀ n ∈ leftAlts ν es, n = nm ∨ n ∈ leftAlts ν (lrAlts nm es).2
  | [], n, h => .inr h
  | e :: es, n, h => by
    unfold lrAlts
    cases ho : ownRest nm e with
    | none => exact .inr h
    | some r =>
      simp only [leftAlts, List.mem_append] at h
      rcases h with h | h
      · refine .inl ?_
        unfold ownRest at ho
        split at ho
        · next nm' es' =>
          split at ho
          · next e =>
            subst e
            simp only [leftS, leftSeq, nullS, hν, Bool.false_eq_true, if_false, List.append_nil, List.mem_singleton] at h
            exact h
          · cases ho
        · cases ho
      · exact leftAlts_own hν es n h

/-- A left-recursive rule calls itself, and what the other alternatives call, where it starts. -/
theorem left_own {rd : RDef} {p : List (List Src) × List Src} (hl : lrParts rd = some p) (hν : ν rd.name = false) :
    ∀ n ∈ leftS ν rd.body, n = rd.name ∨ n ∈ leftAlts ν p.2 := by
  unfold lrParts at hl
  split at hl
  · next es he =>
    split at hl
    · cases hl
    · cases hl
      rw [he]
      exact leftAlts_own hν es
  · cases hl

/-- The body of a left-recursive rule begins with the rule itself. -/
theorem own_link {rd : RDef} (hp : plainText ds rd.body = true) (hl : (lrParts rd).isSome = true) : ∃ q rest es, rd.body.link (allOf ds) [] = .cho (.seq (.ref q rd.name [] :: rest) none :: es) false [] := by
  unfold lrParts at hl
  split at hl
  · next es he =>
    rw [he]
    cases es with
    | nil => cases hl
    | cons e es =>
      unfold lrAlts at hl
      cases ho : ownRest rd.name e with
      | none => rw [ho] at hl; cases hl
      | some r =>
        unfold ownRest at ho
        split at ho
        · next nm' es' =>
          split at ho
          · next e =>
            subst e
            rw [he] at hp
            simp only [plainText, plainTextL, Bool.and_eq_true] at hp
            obtain ⟨k, rd', h1, -⟩ := link_ref (ds := ds) (nm := rd.name) (mac := false) (as := []) (by simp only [plainText, Bool.and_eq_true]; exact hp.2.1.1)
            exact ⟨k + 1, Src.linkL (allOf ds) [] es', Src.linkL (allOf ds) [] es, by simp only [Src.link, Src.linkL] at h1 ⊢; rw [h1]⟩
          · cases ho
        · cases ho
  · cases hl

theorem sane_text {start : List Byte} {rs : List Def} (hR : RulesOf ds rs) (hp : ∀ rd ∈ ds, plainText ds rd.body = true)
    (hg : ∀ rd ∈ ds, Regular rd.body) (hd : (recoverName :: ds.map (·.name)).Nodup) (hw : WellFormed ds ν rank μ start) :
    Sane rs (· ≠ 0) (nullAt ds ν) (rankAt ds rank) (lrAt ds) := by
  have hcase : ∀ (r : Nat) (d : Def), r ≠ 0 → rs[r]? = some d → ∃ k rd, r = k + 1 ∧ ds[k]? = some rd ∧ d.name = rd.name ∧
      (d.ope = rd.body.link (allOf ds) [] ∨ d.ope = .tok (rd.body.link (allOf ds) [])) := by
    intro r d h0 hr
    cases r with
    | zero => exact absurd rfl h0
    | succ k =>
      have hk : k < ds.length := by
        have := (List.getElem?_eq_some_iff.mp hr).1
        rw [hR.len] at this; omega
      obtain ⟨d', h1, h2, h3⟩ := hR.rule k _ (List.getElem?_eq_getElem hk)
      rw [hr] at h1; cases h1
      exact ⟨k, _, rfl, List.getElem?_eq_getElem hk, h2, h3⟩
  have hnamed : Named ds rs := by
    intro k rd hk
    obtain ⟨d, h1, h2, -⟩ := hR.rule k rd hk
    rw [h1, Option.map_some, h2]
  have hall : ∀ (r : Nat) (d : Def), rs[r]? = some d → (recoverName :: ds.map (·.name))[r]? = some d.name := by
    intro r d hr
    cases r with
    | zero =>
      obtain ⟨d', h1, h2, -⟩ := hR.zero
      rw [hr] at h1; cases h1
      rw [h2]; rfl
    | succ k =>
      obtain ⟨k', rd, h1, h2, h3, -⟩ := hcase (k + 1) d (by omega) hr
      cases h1
      rw [List.getElem?_cons_succ, List.getElem?_map, h2, h3]; rfl
  have hnul : ∀ (k : Nat) (rd : RDef) (d : Def), ds[k]? = some rd → (d.ope = rd.body.link (allOf ds) [] ∨ d.ope = .tok (rd.body.link (allOf ds) [])) →
      nulO (nullAt ds ν) d.ope = nullS ν rd.body := by
    intro k rd d hk h
    have hm := List.mem_of_getElem? hk
    have := nulO_link (ν := ν) rd.body (hp rd hm) (hg rd hm)
    rcases h with h | h
    · rw [h, this]
    · rw [h, ← this]; rfl
  refine ⟨fun r r' d d' h1 h2 h3 => ?_, fun r d h0 hr q hq => ?_, fun r d hr hn => ?_, fun r d h0 hr q hq => ?_, fun r d h0 hr => ?_⟩
  · have e1 := hall r d h1
    have e2 := hall r' d' h2
    rw [← h3] at e2
    exact (List.getElem?_inj (List.getElem?_eq_some_iff.mp e1).1 hd).1 (e1.trans e2.symm)
  · obtain ⟨k, rd, rfl, h2, h3, h4⟩ := hcase r d h0 hr
    have := refs_link rd.body (hp rd (List.mem_of_getElem? h2)) q
    rcases h4 with h4 | h4 <;> rw [h4] at hq <;> exact this hq
  · by_cases h0 : r = 0
    · subst h0; rfl
    · obtain ⟨k, rd, rfl, h2, h3, h4⟩ := hcase r d h0 hr
      have hm := List.mem_of_getElem? h2
      rw [hnul k rd d h2 h4] at hn
      rw [nullAt_succ h2]
      obtain ⟨ws, -, t2, -⟩ := tidy_body hw hm
      exact hw.null rd hm (by rw [t2]; exact hn)
  · obtain ⟨k, rd, rfl, h2, h3, h4⟩ := hcase r d h0 hr
    have hm := List.mem_of_getElem? h2
    have hq' : q ∈ leftO (nullAt ds ν) (rd.body.link (allOf ds) []) := by
      rcases h4 with h4 | h4 <;> rw [h4] at hq <;> exact hq
    obtain ⟨n, h5, k', rd', rfl, h6, h7⟩ := leftO_link rd.body (hp rd hm) (hg rd hm) q hq'
    obtain ⟨ws, -, -, t3⟩ := tidy_body hw hm
    unfold rankAt
    rw [nameAt_succ h6, nameAt_succ h2, h7]
    cases hl : lrParts rd with
    | none =>
      refine .inl (hw.left rd hm n ?_)
      unfold leftD
      rw [hl]
      show n ∈ leftS ν (meaning ds rd)
      rw [t3]; exact h5
    | some p =>
      have hν := (hw.leftRec rd hm (by rw [hl]; rfl)).1
      rcases left_own hl hν n h5 with h8 | h8
      · refine .inr ⟨?_, ?_⟩
        · have hd2 := (List.nodup_cons.1 hd).2
          have e1 : (ds.map (·.name))[k']? = (ds.map (·.name))[k]? := by
            rw [List.getElem?_map, List.getElem?_map, h6, h2, Option.map_some, Option.map_some, h7, h8]
          have := (List.getElem?_inj (by rw [List.length_map]; exact (List.getElem?_eq_some_iff.mp h6).1) hd2).1 e1
          omega
        · show (ds[k]?.bind lrParts).isSome = true
          rw [h2, Option.bind_some, hl]; rfl
      · refine .inl (hw.left rd hm n ?_)
        unfold leftD
        rw [hl]; exact h8
  · obtain ⟨k, rd, rfl, h2, h3, h4⟩ := hcase r d h0 hr
    have hm := List.mem_of_getElem? h2
    obtain ⟨ws, t1, -⟩ := tidy_body hw hm
    have := tidyO_link hnamed rd.body (hp rd hm) (hg rd hm) t1
    rcases h4 with h4 | h4 <;> rw [h4] <;> exact this

/-- The left-recursive rules of the text are marked, and no others. -/
theorem realMark_text {start : List Byte} {rs : List Def} (hR : RulesOf ds rs) (hp : ∀ rd ∈ ds, plainText ds rd.body = true)
    (hg : ∀ rd ∈ ds, Regular rd.body) (hd : (recoverName :: ds.map (·.name)).Nodup) (hw : WellFormed ds ν rank μ start) (ord : List Nat)
    {r : Nat} (hr : r < rs.length) : realMark ord rs r = lrAt ds r := by
  have H := sane_text hR hp hg hd hw
  obtain ⟨t, h1, -, -, -, h3⟩ := cbeLoop_spec rs ord (rs.length + 1) (fun _ => false) (fun r h => by cases h)
    (Nat.lt_succ_of_le (by unfold unmarked; exact Nat.le_trans List.countP_le_length (by simp)))
  have ht : ∀ r, t r = true → nullAt ds ν r = true := fun r =>
    h3 (nullAt ds ν) (fun r d hd hc => H.null r d hd (nul_of_cbe _ hc)) (fun r h => by cases h) r
  unfold realMark
  rw [h1]
  by_cases h0 : r = 0
  · subst h0
    obtain ⟨d, k1, k2, k3⟩ := hR.zero
    simp only [markedLR, k1, k3, dlr, k2]
    rw [if_neg (by decide +kernel)]
    rfl
  · cases hl : lrAt ds r with
    | false => exact markedLR_sane H ht h0 hr hl
    | true =>
      cases r with
      | zero => exact absurd rfl h0
      | succ k =>
        have hl : (ds[k]?.bind lrParts).isSome = true := hl
        cases hk : ds[k]? with
        | none => rw [hk] at hl; cases hl
        | some rd =>
          rw [hk] at hl
          obtain ⟨d, k1, k2, k3⟩ := hR.rule k rd hk
          obtain ⟨q, rest, es, e⟩ := own_link (hp rd (List.mem_of_getElem? hk)) hl
          rw [e, ← k2] at k3
          exact markedLR_own k1 k3 _

theorem realLoops_text {start : List Byte} {rs : List Def} (hR : RulesOf ds rs) (hp : ∀ rd ∈ ds, plainText ds rd.body = true)
    (hg : ∀ rd ∈ ds, Regular rd.body) (hd : (recoverName :: ds.map (·.name)).Nodup) (hw : WellFormed ds ν rank μ start) {r : Nat} (h0 : r ≠ 0)
    (hr : r < rs.length) : realLoops rs r = false :=
  infiniteLoop_sane (sane_text hR hp hg hd hw) h0 hr

theorem RulesOf.congr {rs rs' : List Def} (h : RulesOf ds rs) (hl : rs'.length = rs.length)
    (he : ∀ (r : Nat) (d : Def), rs[r]? = some d → ∃ d', rs'[r]? = some d' ∧ d'.name = d.name ∧ d'.ope = d.ope) : RulesOf ds rs' := by
  refine ⟨by rw [hl, h.len], ?_, fun k rd hk => ?_⟩
  · obtain ⟨d, h1, h2, h3⟩ := h.zero
    obtain ⟨d', k1, k2, k3⟩ := he 0 d h1
    exact ⟨d', k1, by rw [k2, h2], by rw [k3, h3]⟩
  · obtain ⟨d, h1, h2, h3⟩ := h.rule k rd hk
    obtain ⟨d', k1, k2, k3⟩ := he _ d h1
    exact ⟨d', k1, by rw [k2, h2], by rw [k3]; exact h3⟩

theorem rulesOf_link (hm : ∀ d ∈ ds, d.params = none) : RulesOf ds (linkAll (allOf ds)) := by
  refine ⟨by simp [linkAll, allOf], ?_, fun k rd hk => ?_⟩
  · refine ⟨_, linkAll_get (d := recoverDef) rfl, rfl, ?_⟩
    show Src.link (allOf ds) ["x".toUTF8.toList] (.ref "x".toUTF8.toList false []) = _
    have h0 : paramIdx ["x".toUTF8.toList] "x".toUTF8.toList = some 0 := by decide +kernel
    simp only [Src.link, h0]
  · have h0 : (allOf ds)[k + 1]? = some rd.toSDef := by simp [allOf, hk]
    have hps : rd.toSDef.head.params = [] := by rw [(toSDef_head rd).2.1, hm rd (List.mem_of_getElem? hk)]; rfl
    refine ⟨_, linkAll_get h0, (toSDef_head rd).2.2.1, .inl ?_⟩
    rw [hps]; rfl

theorem RulesOf.tokened {rs : List Def} (h : RulesOf ds rs) (hn : ∀ (k : Nat) (rd : RDef) (d : Def), ds[k]? = some rd → rs[k + 1]? = some d →
    d.ope = rd.body.link (allOf ds) []) : RulesOf ds (rs.map tokLit) := by
  have hname : ∀ d : Def, (tokLit d).name = d.name := by intro d; unfold tokLit; split <;> rfl
  refine ⟨by rw [List.length_map, h.len], ?_, fun k rd hk => ?_⟩
  · obtain ⟨d, h1, h2, h3⟩ := h.zero
    refine ⟨tokLit d, by rw [List.getElem?_map, h1]; rfl, by rw [hname, h2], ?_⟩
    unfold tokLit
    rw [h3]
    simp [Ope.isLitTok, h3]
  · obtain ⟨d, h1, h2, h3⟩ := h.rule k rd hk
    refine ⟨tokLit d, by rw [List.getElem?_map, h1]; rfl, by rw [hname, h2], ?_⟩
    have := hn k rd d hk h1
    unfold tokLit
    split
    · rw [this]; exact .inr rfl
    · rw [this]; exact .inl rfl

end
end Meta
end Verif
