import Verif.TextMeans
import Verif.LoadInv
import Verif.Reflag
import Verif.Props.ReadTypes
/-!
# The rules made of a grammar text

`madeOf`: what loading makes of a text without macros and the like is the grammar `MadeOf` the text.
-/

namespace Verif.Meta
open Verif

variable {V : Type}

mutual
/-- No macro calls, captures, cuts, labels, recovery. -/
def simpleText : Src → Bool
  | .seq es => simpleTextL es
  | .cho es l => !l && simpleTextL es
  | .rep e _ _ => simpleText e
  | .and_ e => simpleText e
  | .not_ e => simpleText e
  | .tok e => simpleText e
  | .ign e => simpleText e
  | .dict _ _ => true
  | .lit _ _ => true
  | .cls _ => true
  | .chr _ => true
  | .dot => true
  | .ref nm mac as => !mac && as.isEmpty
  | _ => false
def simpleTextL : List Src → Bool
  | [] => true
  | e :: es => simpleText e && simpleTextL es
end

mutual
theorem plainText_of {ds : List RDef} : ∀ (e : Src), simpleText e = true →
    (∀ x ∈ e.refs [], x.2.1 = false → x.1 ≠ recoverName ∧ (ruleOf ds x.1).isSome = true) → plainText ds e = true
  | .seq es, h, hr => plainTextL_of es h hr
  | .cho es l, h, hr => by
    simp only [simpleText, Bool.and_eq_true] at h
    simp only [plainText, Bool.and_eq_true]
    exact ⟨h.1, plainTextL_of es h.2 hr⟩
  | .rep e _ _, h, hr => plainText_of e h hr
  | .and_ e, h, hr => plainText_of e h hr
  | .not_ e, h, hr => plainText_of e h hr
  | .tok e, h, hr => plainText_of e h hr
  | .ign e, h, hr => plainText_of e h hr
  | .dict _ _, _, _ => rfl
  | .lit _ _, _, _ => rfl
  | .cls _, _, _ => rfl
  | .chr _, _, _ => rfl
  | .dot, _, _ => rfl
  | .ref nm mac as, h, hr => by
    simp only [simpleText, Bool.and_eq_true, Bool.not_eq_true'] at h
    have := hr (nm, mac, as.length) (by simp [Src.refs]) h.1
    simp only [plainText, Bool.and_eq_true, Bool.not_eq_true', decide_eq_true_eq]
    exact ⟨⟨⟨h.1, h.2⟩, this.1⟩, this.2⟩
  | .capScope _, h, _ => by cases h
  | .cap _ _, h, _ => by cases h
  | .usr _, h, _ => by cases h
  | .bref _, h, _ => by cases h
  | .cut, h, _ => by cases h
  | .recov _ _ _, h, _ => by cases h
theorem plainTextL_of {ds : List RDef} : ∀ (es : List Src), simpleTextL es = true →
    (∀ x ∈ Src.refsL [] es, x.2.1 = false → x.1 ≠ recoverName ∧ (ruleOf ds x.1).isSome = true) → plainTextL ds es = true
  | [], _, _ => rfl
  | e :: es, h, hr => by
    simp only [simpleTextL, Bool.and_eq_true] at h
    simp only [plainTextL, Bool.and_eq_true]
    exact ⟨plainText_of e h.1 fun x hx => hr x (by simp [Src.refsL, hx]), plainTextL_of es h.2 fun x hx => hr x (by simp [Src.refsL, hx])⟩
end

mutual
theorem isLitTok_link {ds : List RDef} : ∀ (e : Src), plainText ds e = true → (e.link (allOf ds) []).isLitTok = isLiteral e
  | .seq es, _ => rfl
  | .cho es l, h => by
    simp only [plainText, Bool.and_eq_true] at h
    exact isLitTokL_link es h.2
  | .rep e _ _, _ => rfl
  | .and_ e, _ => rfl
  | .not_ e, _ => rfl
  | .tok e, _ => rfl
  | .ign e, _ => rfl
  | .dict _ _, _ => rfl
  | .lit _ _, _ => rfl
  | .cls _, _ => rfl
  | .chr _, _ => rfl
  | .dot, _ => rfl
  | .ref nm mac as, h => by
    have := linkV _ h
    generalize Src.link (allOf ds) [] (.ref nm mac as) = o at this
    cases this with
    | ref => rfl
    | one _ _ _ h1 h2 => cases h1
  | .capScope _, h => by cases h
  | .cap _ _, h => by cases h
  | .usr _, h => by cases h
  | .bref _, h => by cases h
  | .cut, h => by cases h
  | .recov _ _ _, h => by cases h
theorem isLitTokL_link {ds : List RDef} : ∀ (es : List Src), plainTextL ds es = true → Ope.isLitTokL (Src.linkL (allOf ds) [] es) = areLiterals es
  | [], _ => rfl
  | e :: es, h => by
    simp only [plainTextL, Bool.and_eq_true] at h
    simp only [Src.linkL, Ope.isLitTokL, areLiterals]
    rw [isLitTok_link e h.1, isLitTokL_link es h.2]
end

theorem ruleNamed_none {ds : List RDef} {nm : List Byte} (hr : nm ≠ recoverName) (h : ruleOf ds nm = none) : ruleNamed (allOf ds) nm = none := by
  cases hs : ruleNamed (allOf ds) nm with
  | none => rfl
  | some r =>
    obtain ⟨d, h1, h2⟩ := ruleNamed_some hs
    have := List.mem_of_getElem? h1
    rcases List.mem_cons.mp this with rfl | hm
    · exact absurd h2.symm hr
    · obtain ⟨rd, h3, rfl⟩ := List.mem_map.mp hm
      rw [toSDef_name] at h2
      unfold ruleOf at h
      rw [List.find?_eq_none] at h
      exact absurd (by simpa using h2) (h rd h3)

theorem ruleNamed_ruleOf {ds : List RDef} {nm : List Byte} (hr : nm ≠ recoverName) : (ruleNamed (allOf ds) nm).isSome = (ruleOf ds nm).isSome := by
  cases h : ruleOf ds nm with
  | none => rw [ruleNamed_none hr h]; rfl
  | some rd =>
    obtain ⟨k, h1, -⟩ := ruleNamed_of hr h
    rw [h1]; rfl

/-- The start rule: the one asked for, else the first whose name does not begin with `%`. -/
def startName (ds : List RDef) : Option (List Byte) → Option (List Byte)
  | some nm => some nm
  | none => (ds.find? fun d => decide (d.name.head? ≠ some 37)).map (·.name)

theorem noWs_instrs (is : List Instr) : ∀ d : Def, (is.foldl applyInstr d).noWs = (d.noWs || is.any isNoWs) := by
  induction is with
  | nil => intro d; simp
  | cons i is ih =>
    intro d
    rw [List.foldl_cons, ih, List.any_cons]
    cases i <;> simp [applyInstr, isNoWs]

theorem isLR_instrs (is : List Instr) : ∀ d : Def, (is.foldl applyInstr d).isLR = d.isLR := by
  induction is with
  | nil => intro d; rfl
  | cons i is ih =>
    intro d
    rw [List.foldl_cons, ih]
    cases i <;> rfl

/-- A text in the fragment of `Sem`: no macros, captures, cuts, labels, recovery, precedence. -/
structure Fragment (ds : List RDef) : Prop where
  rules : ∀ d ∈ ds, d.params = none ∧ simpleText d.body = true ∧ d.precInfo = none

theorem Fragment.prec {ds : List RDef} (h : Fragment ds) (start : Option (List Byte)) (packrat leftRec : Bool) (r : Nat) :
    (toSource ds start packrat leftRec).prec r = none := by
  show (ds[r - 1]?).bind _ = none
  cases hx : ds[r - 1]? with
  | none => rfl
  | some d =>
    have := (h.rules d (List.mem_of_getElem? hx)).2.2
    simp [this]

/-! ### Texts without captures -/

mutual
theorem events_simple : ∀ (e : Src), simpleText e = true → Src.events e = []
  | .seq es, h => eventsL_simple es h
  | .cho es _, h => by
    simp only [simpleText, Bool.and_eq_true] at h
    exact eventsL_simple es h.2
  | .rep e _ _, h => events_simple e h
  | .and_ e, h => events_simple e h
  | .not_ e, h => events_simple e h
  | .tok e, h => events_simple e h
  | .ign e, h => events_simple e h
  | .ref _ _ as, h => by
    simp only [simpleText, Bool.and_eq_true, List.isEmpty_iff] at h
    rw [h.2]; rfl
  | .dict _ _, _ => rfl
  | .lit _ _, _ => rfl
  | .cls _, _ => rfl
  | .chr _, _ => rfl
  | .dot, _ => rfl
theorem eventsL_simple : ∀ (es : List Src), simpleTextL es = true → Src.eventsL es = []
  | [], _ => rfl
  | e :: es, h => by
    simp only [simpleTextL, Bool.and_eq_true] at h
    simp only [Src.eventsL]
    rw [events_simple e h.1, eventsL_simple es h.2]
    rfl
end

theorem Fragment.own {ds : List RDef} (h : Fragment ds) : ownCaps ds = true := by
  rw [ownCaps_iff]
  intro d hd p x q e
  rw [events_simple d.body (h.rules d hd).2.1] at e
  simp at e

theorem Fragment.defined {ds : List RDef} (h : Fragment ds) : undefBref ds = false := by
  rw [Bool.eq_false_iff]
  intro hu
  obtain ⟨p, x, q, e, -⟩ := (undefBref_iff ds).1 hu
  rw [List.flatMap_eq_nil_iff.2 fun d hd => events_simple d.body (h.rules d hd).2.1] at e
  simp at e

theorem precAll_id {prec : Nat → Option (List (List Byte × Nat × Byte))} (h : ∀ r, prec r = none) : ∀ (rs : List Def) (r : Nat), precAll prec r rs = some rs
  | [], _ => rfl
  | d :: rs, r => by
    unfold precAll
    rw [h r, precAll_id h rs (r + 1)]

/-- Whether the rule at index `r` is directly left-recursive. -/
def lrAt (ds : List RDef) : Nat → Bool
  | 0 => false
  | k + 1 => (ds[k]?.bind lrParts).isSome

/-- The rules before the first-set pass. -/
abbrev textRules (ds : List RDef) : List Def := (toSource ds none false true).tokened fun _ => lrAt ds

theorem linkAll_isLR {ds : List RDef} {r : Nat} {d : Def} (hr : (linkAll (allOf ds))[r]? = some d) : d.isLR = false := by
  unfold linkAll allOf at hr
  rw [List.getElem?_map] at hr
  cases hs : (recoverDef :: ds.map RDef.toSDef)[r]? with
  | none => rw [hs] at hr; cases hr
  | some s =>
    rw [hs] at hr
    cases hr
    rcases List.mem_cons.mp (List.mem_of_getElem? hs) with rfl | hm
    · rfl
    · obtain ⟨rd, -, rfl⟩ := List.mem_map.mp hm
      exact isLR_instrs _ _

/-- `mark`: the left-recursion check finds the directly left-recursive rules and nothing else; it is an error if the option is off. -/
theorem tokened_eq {ds : List RDef} {start : Option (List Byte)} {packrat leftRec : Bool} {mark : List Def → Nat → Bool}
    (hm : ∀ r < (allOf ds).length, mark (linkAll (allOf ds)) r = lrAt ds r) (ho : leftRec = false → ∀ r < (allOf ds).length, mark (linkAll (allOf ds)) r = false) :
    (toSource ds start packrat leftRec).tokened mark = textRules ds := by
  have h2 : (toSource ds start packrat leftRec).marked mark = (toSource ds none false true).marked fun _ => lrAt ds := by
    unfold Source.marked
    have h1 : (toSource ds start packrat leftRec).all = allOf ds := rfl
    have h1' : (toSource ds none false true).all = allOf ds := rfl
    rw [h1, h1']
    cases leftRec with
    | true =>
      show List.mapIdx _ _ = List.mapIdx _ _
      apply List.ext_getElem?
      intro r
      rw [List.getElem?_mapIdx, List.getElem?_mapIdx]
      cases hr : (linkAll (allOf ds))[r]? with
      | none => rfl
      | some d =>
        have hl : r < (allOf ds).length := by
          have := (List.getElem?_eq_some_iff.1 hr).1
          simpa [linkAll] using this
        simp only [Option.map_some, hm r hl]
    | false =>
      show linkAll (allOf ds) = List.mapIdx _ _
      apply List.ext_getElem?
      intro r
      rw [List.getElem?_mapIdx]
      cases hr : (linkAll (allOf ds))[r]? with
      | none => rfl
      | some d =>
        have hl : r < (allOf ds).length := by
          have := (List.getElem?_eq_some_iff.1 hr).1
          simpa [linkAll] using this
        have e := linkAll_isLR hr
        have e' := ho rfl r hl
        rw [hm r hl] at e'
        simp only [Option.map_some, e', Option.some.injEq]
        rw [← e]
  unfold Source.tokened
  rw [h2]
  rfl

theorem textRules_get {ds : List RDef} (hF : Fragment ds) (hp : ∀ rd ∈ ds, plainText ds rd.body = true) {k : Nat} {rd : RDef} (hk : ds[k]? = some rd) :
    ∃ d, (textRules ds)[k + 1]? = some d ∧ d.ope = (litTok ds rd).link (allOf ds) [] ∧ d.isMacro = false ∧
      d.isLR = (lrParts rd).isSome ∧ d.noWs = rd.instrs.any isNoWs := by
  have hm := List.mem_of_getElem? hk
  have h0 : (allOf ds)[k + 1]? = some rd.toSDef := by simp [allOf, hk]
  have h1 := linkAll_get h0
  have h1 : ((linkAll (allOf ds)).mapIdx fun r d => { d with isLR := lrAt ds r })[k + 1]? =
      some { { rd.toSDef.head with ope := Src.link (allOf ds) rd.toSDef.head.params rd.toSDef.body, isToken := rd.toSDef.body.isTok, errLit := rd.toSDef.body.litTok } with isLR := (lrParts rd).isSome } := by
    rw [List.getElem?_mapIdx, h1]
    simp only [Option.map_some, lrAt, hk, Option.bind_some]
  have hps : rd.toSDef.head.params = [] := by rw [(toSDef_head rd).2.1, (hF.rules rd hm).1]; rfl
  rw [hps] at h1
  have hbody : rd.toSDef.body = rd.body := rfl
  have hmac : rd.toSDef.head.isMacro = false := by rw [(toSDef_head rd).1, (hF.rules rd hm).1]; rfl
  have hnw : rd.toSDef.head.noWs = rd.instrs.any isNoWs := by
    show (rd.instrs.foldl applyInstr _).noWs = _
    rw [noWs_instrs]; rfl
  have hw : (ruleNamed (allOf ds) whitespaceName).isSome = (ruleOf ds whitespaceName).isSome := ruleNamed_ruleOf (by decide +kernel)
  have e : textRules ds = if (ruleOf ds whitespaceName).isSome = true then ((linkAll (allOf ds)).mapIdx fun r d => { d with isLR := lrAt ds r }).map tokLit
      else (linkAll (allOf ds)).mapIdx fun r d => { d with isLR := lrAt ds r } := by
    rw [← hw]; rfl
  rw [e]
  unfold litTok
  by_cases hs : (ruleOf ds whitespaceName).isSome = true
  · rw [if_pos hs, List.getElem?_map, h1]
    refine ⟨_, rfl, ?_⟩
    unfold tokLit
    rw [hs, Bool.true_and]
    dsimp only
    rw [hbody, isLitTok_link rd.body (hp rd hm)]
    by_cases hl : isLiteral rd.body = true
    · rw [if_pos hl, if_pos hl]
      exact ⟨rfl, hmac, rfl, hnw⟩
    · rw [if_neg hl, if_neg hl]
      exact ⟨rfl, hmac, rfl, hnw⟩
  · rw [if_neg hs, h1]
    simp only [Bool.not_eq_true] at hs
    rw [hs]
    exact ⟨_, rfl, rfl, hmac, rfl, hnw⟩

/-- **The loaded rules are made of the text.** -/
theorem madeOf {ds : List RDef} (hF : Fragment ds) (hd : (ds.map (·.name)).Nodup) (hp : ∀ rd ∈ ds, plainText ds rd.body = true) (m : Nat → Bool) (cfg : Cfg V) (hq : ∀ r, cfg.predicate r = none) :
    MadeOf (cfg.withRules (ruleNamed (allOf ds) whitespaceName) (ruleNamed (allOf ds) wordName) (reflag m (textRules ds))).gram ds false where
  rule := by
    intro k rd hk
    obtain ⟨d, h1, h2, h3, h4, h5⟩ := textRules_get hF hp hk
    refine ⟨{ d with hasMacroRef := m (k + 1) }, ?_, h2, h3, h4, h5⟩
    show (reflag m (textRules ds))[k + 1]? = _
    rw [reflag_get, h1]; rfl
  nodup := hd
  pred := by
    intro r
    show (cfg.predicate r).map _ = none
    rw [hq]; rfl
  ws := by
    show ((ruleNamed (allOf ds) whitespaceName).bind fun r => ((reflag m (textRules ds))[r]?).map fun d => Ope.ws (.ign d.ope)) = _
    cases hr : ruleOf ds whitespaceName with
    | none => rw [ruleNamed_none (by decide +kernel) hr]; rfl
    | some rd =>
      obtain ⟨k, h1, h2⟩ := ruleNamed_of (by decide +kernel) hr
      obtain ⟨d, h3, h4, -⟩ := textRules_get hF hp h2
      rw [h1]
      simp only [Option.bind_some, reflag_get, h3, Option.map_some, h4]
      rfl
  word := by
    show ((ruleNamed (allOf ds) wordName).bind fun r => ((reflag m (textRules ds))[r]?).map Def.ope) = _
    cases hr : ruleOf ds wordName with
    | none => rw [ruleNamed_none (by decide +kernel) hr]; rfl
    | some rd =>
      obtain ⟨k, h1, h2⟩ := ruleNamed_of (by decide +kernel) hr
      obtain ⟨d, h3, h4, -⟩ := textRules_get hF hp h2
      rw [h1]
      simp only [Option.bind_some, reflag_get, h3, Option.map_some, h4]
      rfl
  plain := hp

end Verif.Meta
