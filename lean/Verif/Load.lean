import Verif.Session
import Verif.FirstSet
import Verif.Plain
/-!
# From the rules as read to a parser object

`load` composes the steps of `perform_core` after reading (peglib.h 6237-6460): start rule, reference check, linking, left recursion and loop
checks, white space, word, precedence, first sets.
-/

namespace Verif
open Out

variable {V : Type}

/-- peglib.h 6184-6194: the built-in macro `%recover(x) <- x`. -/
def recoverDef : SDef where
  head := { name := recoverName, ope := .cut, isMacro := true, params := ["x".toUTF8.toList], ignoreSV := true }
  body := .ref "x".toUTF8.toList false []

/-- peglib.h 3099. -/
def whitespaceName : List Byte := "%whitespace".toUTF8.toList
/-- peglib.h 3100. -/
def wordName : List Byte := "%word".toUTF8.toList

mutual
/-- peglib.h 2462-2483 `IsLiteralToken`. -/
def Ope.isLitTok : Ope → Bool
  | .cho es _ _ => Ope.isLitTokL es
  | .dict _ _ => true
  | .lit _ _ => true
  | _ => false

def Ope.isLitTokL : List Ope → Bool
  | [] => true
  | e :: es => e.isLitTok && Ope.isLitTokL es
end

/-- peglib.h 6399-6403: a rule that is a literal becomes a token. -/
def tokLit (d : Def) : Def := if d.ope.isLitTok then { d with ope := .tok d.ope } else d

/-- peglib.h 2098-2140: The name of a `Reference`. -/
def Ope.refName : Ope → Option (List Byte)
  | .ref _ nm _ => some nm
  | .param _ nm => some nm
  | _ => none

mutual
/-- peglib.h 2485-2495, 4370-4378 `TokenChecker` on an operator.  A reference is written with arguments exactly if it has some (5604). -/
def Ope.tokScan : Ope → Bool × Bool
  | .seq es _ => Ope.tokScanL es
  | .cho es _ _ => Ope.tokScanL es
  | .rep e _ _ _ => e.tokScan
  | .capScope e => e.tokScan
  | .cap _ e => e.tokScan
  | .tok _ => (true, false)
  | .ign e => e.tokScan
  | .ref _ _ as => if as.isEmpty then (false, true) else Ope.tokScanL as
  | .param _ _ => (false, true)
  | .weak _ => (false, true)
  | .ws e => e.tokScan
  | .prec a _ _ _ => a.tokScan
  | .recov _ _ as => if as.isEmpty then (false, true) else Ope.tokScanL as
  | _ => (false, false)
def Ope.tokScanL : List Ope → Bool × Bool
  | [] => (false, false)
  | e :: es => (e.tokScan.1 || (Ope.tokScanL es).1, e.tokScan.2 || (Ope.tokScanL es).2)
end

/-- peglib.h 6136-6172 `apply_precedence_instruction` on rule `r`: the rule must be `atom (binop atom)*`; further elements of the two
sequences are ignored, as coded.  2494-2524: what `is_token` and `FindLiteralToken` say of the new operator. -/
def applyPrec (r : Nat) (info : List (List Byte × Nat × Byte)) (d : Def) : Option Def :=
  match d.ope with
  | .seq (a :: .rep (.seq (b :: a' :: _) _) 0 none _ :: _) _ =>
    match a.refName, b.refName, a'.refName with
    | some x, some y, some z =>
      if x = z ∧ x ≠ y then
        some { d with ope := .prec a b info r, disableAction := true, isToken := a.tokScan.1 || !a.tokScan.2, errLit := none }
      else none
    | _, _, _ => none
  | _ => none

/-- peglib.h 5428-5445, 6176-6200: What the reader of the grammar text hands over: the rules in the order of the text (a rule read twice appears twice), the requested
start rule, the `precedence` instructions by rule index (in `Source.all`), the options.  The other instructions only set fields of the rule
and are taken to be part of it. -/
structure Source where
  defs : List SDef
  start : Option (List Byte) := none
  prec : Nat → Option (List (List Byte × Nat × Byte)) := fun _ => none
  leftRec : Bool := true
  packrat : Bool := false

def Source.all (S : Source) : List SDef := recoverDef :: S.defs

/-- peglib.h 5700-5706, 6268-6285: the start rule; `none`: the name is refused, `some none`: `grammar[""]`, a rule without operator. -/
def Source.startRule (S : Source) : Option (Option Nat) :=
  match S.start with
  | some nm => (ruleNamed S.all nm).map some
  | none => some ((S.defs.findIdx? fun d => d.head.name.head? ≠ some 37).map (· + 1))

/-- peglib.h 6136-6172, 6420-6440: All instructions applied; `none` if one is refused. -/
def precAll (prec : Nat → Option (List (List Byte × Nat × Byte))) : Nat → List Def → Option (List Def)
  | _, [] => some []
  | r, d :: ds =>
    match (match prec r with | none => some d | some i => applyPrec r i d), precAll prec (r + 1) ds with
    | some d, some ds => some (d :: ds)
    | _, _ => none

/-- peglib.h 6237-6460.  `mark rs r`: the left-recursion check reports rule `r`; `loops rs r`: the loop check from rule `r` reports an error
(both arbitrary here, modelled for grammars without macros in `Analysis.lean`); `order`: the iteration order of the grammar map.  Simplified:
a `precedence` instruction on `%whitespace` or `%word` would not affect the operator the start rule got before; user-provided rules are
part of `S` (see `sourceWith`). -/
def load (mark loops : List Def → Nat → Bool) (order : List Nat) (S : Source) : Out (Option (Parser × Nat)) :=
  if ¬ (S.all.map (·.head.name)).Nodup then .ok none
  else match S.startRule with
  | none => .ok none
  | some none => .ub "the start rule has no operator"
  | some (some a) =>
    if ((S.all[a]?).map (·.head.ignoreSV)).getD false then .ok none
    else if !refsOk S.all then .ok none
    else
      let rs := linkAll S.all
      let lr := (List.range rs.length).any (mark rs)
      if !S.leftRec && lr then .ok none
      else
        let rs := if S.leftRec then rs.mapIdx fun r d => { d with isLR := mark rs r } else rs
        if loops rs a then .ok none
        else
          let w := ruleNamed S.all whitespaceName
          let rs := if w.isSome then rs.map tokLit else rs
          if (w.map (loops rs)).getD false then .ok none
          else
            let wd := ruleNamed S.all wordName
            if (wd.map (loops rs)).getD false then .ok none
            else match precAll S.prec 0 rs with
            | none => .ok none
            | some rs =>
              let rs := setupAll rs order
              .ok (some ({ rules := rs
                           ws := fun r => if r = a then (w.bind fun r => rs[r]?).map fun d => .ws (.ign d.ope) else none
                           word := fun r => if r = a then (wd.bind fun r => rs[r]?).map Def.ope else none
                           packrat := fun r => decide (r = a) && S.packrat }, a))

/-! ## Linked rules stay linked -/

/-- What linking looks at in a rule. -/
def Def.head3 (d : Def) : List Byte × Bool × List (List Byte) := (d.name, d.isMacro, d.params)

def SameHeads (rs rs' : List Def) : Prop := ∀ r : Nat, (rs[r]?).map Def.head3 = (rs'[r]?).map Def.head3

theorem sameHeads_of_map {rs : List Def} {f : Def → Def} (h : ∀ d, (f d).head3 = d.head3) : SameHeads (rs.map f) rs := by
  intro r
  rw [List.getElem?_map, Option.map_map]
  cases rs[r]? with
  | none => rfl
  | some d => exact congrArg some (h d)

theorem SameHeads.get {rs rs' : List Def} (h : SameHeads rs rs') {r : Nat} {d : Def} (hd : rs[r]? = some d) :
    ∃ d', rs'[r]? = some d' ∧ d.name = d'.name ∧ d.isMacro = d'.isMacro ∧ d.params = d'.params := by
  have := h r
  rw [hd] at this
  cases hd' : rs'[r]? with
  | none => rw [hd'] at this; cases this
  | some d' =>
    rw [hd'] at this
    simp only [Option.map_some, Option.some.injEq, Def.head3, Prod.mk.injEq] at this
    exact ⟨d', rfl, this.1, this.2.1, this.2.2⟩

theorem SameHeads.none {rs rs' : List Def} (h : SameHeads rs rs') {r : Nat} (hd : rs[r]? = none) : rs'[r]? = none := by
  have := h r
  rw [hd] at this
  cases hd' : rs'[r]? with
  | none => rfl
  | some d' => rw [hd'] at this; cases this

mutual
theorem linked_heads {rs rs' : List Def} (h : SameHeads rs rs') (ps : List (List Byte)) (e : Ope) : e.linked rs ps = e.linked rs' ps := by
  cases e with
  | seq es kw => exact linkedL_heads h ps es
  | cho es l fs => exact linkedL_heads h ps es
  | rep e a b c => exact linked_heads h ps e
  | and_ e => exact linked_heads h ps e
  | not_ e => exact linked_heads h ps e
  | capScope e => exact linked_heads h ps e
  | cap n e => exact linked_heads h ps e
  | tok e => exact linked_heads h ps e
  | ign e => exact linked_heads h ps e
  | ref r nm as =>
    simp only [Ope.linked]
    rw [linkedL_heads h ps as]
    cases hd : rs[r]? with
    | none => rw [h.none hd]
    | some d =>
      obtain ⟨d', e, h1, h2, h3⟩ := h.get hd
      simp only [e, h1, h2, h3]
  | recov r nm as =>
    simp only [Ope.linked]
    rw [linkedL_heads h ps as]
    cases hd : rs[r]? with
    | none => rw [h.none hd]
    | some d =>
      obtain ⟨d', e, h1, h2, h3⟩ := h.get hd
      simp only [e, h1, h2, h3]
  | prec a b info r =>
    simp only [Ope.linked]
    rw [linked_heads h ps a, linked_heads h ps b]
    cases hd : rs[r]? with
    | none => rw [h.none hd]
    | some d => obtain ⟨d', e, -⟩ := h.get hd; rw [e]; rfl
  | _ => rfl

theorem linkedL_heads {rs rs' : List Def} (h : SameHeads rs rs') (ps : List (List Byte)) (es : List Ope) :
    Ope.linkedL rs ps es = Ope.linkedL rs' ps es := by
  cases es with
  | nil => rfl
  | cons e es => simp only [Ope.linkedL]; rw [linked_heads h ps e, linkedL_heads h ps es]
end


mutual
theorem linked_plain (rs : List Def) (ps : List (List Byte)) (e : Ope) : e.plain.linked rs ps = e.linked rs ps := by
  cases e with
  | seq es kw => exact linkedL_plain rs ps es
  | cho es l fs => exact linkedL_plain rs ps es
  | rep e a b c => exact linked_plain rs ps e
  | and_ e => exact linked_plain rs ps e
  | not_ e => exact linked_plain rs ps e
  | capScope e => exact linked_plain rs ps e
  | cap n e => exact linked_plain rs ps e
  | tok e => exact linked_plain rs ps e
  | ign e => exact linked_plain rs ps e
  | ref r nm as => simp only [Ope.plain, Ope.linked, linkedL_plain rs ps as, plainL_length]
  | recov r nm as => simp only [Ope.plain, Ope.linked, linkedL_plain rs ps as, plainL_length]
  | prec a b info r => simp only [Ope.plain, Ope.linked, linked_plain rs ps a, linked_plain rs ps b]
  | _ => rfl

theorem linkedL_plain (rs : List Def) (ps : List (List Byte)) (es : List Ope) : Ope.linkedL rs ps (Ope.plainL es) = Ope.linkedL rs ps es := by
  cases es with
  | nil => rfl
  | cons e es => simp only [Ope.plainL, Ope.linkedL, linked_plain rs ps e, linkedL_plain rs ps es]
end

mutual
theorem recovNamed_plain (e : Ope) : e.plain.recovNamed = e.recovNamed := by
  cases e with
  | seq es kw => exact recovNamedL_plain es
  | cho es l fs => exact recovNamedL_plain es
  | rep e a b c => exact recovNamed_plain e
  | and_ e => exact recovNamed_plain e
  | not_ e => exact recovNamed_plain e
  | capScope e => exact recovNamed_plain e
  | cap n e => exact recovNamed_plain e
  | tok e => exact recovNamed_plain e
  | ign e => exact recovNamed_plain e
  | ws e => exact recovNamed_plain e
  | ref r nm as => exact recovNamedL_plain as
  | recov r nm as => simp only [Ope.plain, Ope.recovNamed, recovNamedL_plain as]
  | prec a b info r => simp only [Ope.plain, Ope.recovNamed, recovNamed_plain a, recovNamed_plain b]
  | _ => rfl

theorem recovNamedL_plain (es : List Ope) : Ope.recovNamedL (Ope.plainL es) = Ope.recovNamedL es := by
  cases es with
  | nil => rfl
  | cons e es => simp only [Ope.plainL, Ope.recovNamedL, recovNamed_plain e, recovNamedL_plain es]
end

/-- Every rule is linked. -/
def LinkedRules (rs : List Def) : Prop :=
  ∀ (r : Nat) (d : Def), rs[r]? = some d → d.ope.linked rs d.params = true ∧ d.ope.recovNamed = true

/-! ## The first-set pass only annotates -/

mutual
theorem setupOpe_plain (src : List Def) (ref : Nat → SetupSt → SetupSt) (e : Ope) (s : SetupSt) :
    (setupOpe src ref e s).1.plain = e.plain := by
  cases e with
  | seq es kw => simp only [setupOpe, Ope.plain]; rw [setupList_plain src ref es s]
  | cho es l fs => simp only [setupOpe, Ope.plain]; rw [setupList_plain src ref es _]
  | rep e a b c => simp only [setupOpe, Ope.plain]; rw [setupOpe_plain src ref e s]
  | and_ e => simp only [setupOpe, Ope.plain]; rw [setupOpe_plain src ref e s]
  | not_ e => simp only [setupOpe, Ope.plain]; rw [setupOpe_plain src ref e s]
  | capScope e => simp only [setupOpe, Ope.plain]; rw [setupOpe_plain src ref e s]
  | cap n e => simp only [setupOpe, Ope.plain]; rw [setupOpe_plain src ref e s]
  | tok e => simp only [setupOpe, Ope.plain]; rw [setupOpe_plain src ref e s]
  | ign e => simp only [setupOpe, Ope.plain]; rw [setupOpe_plain src ref e s]
  | ws e => simp only [setupOpe, Ope.plain]; rw [setupOpe_plain src ref e s]
  | ref r nm as => simp only [setupOpe, Ope.plain]
  | recov r nm as => simp only [setupOpe, Ope.plain]
  | prec a b info r => simp only [setupOpe, Ope.plain]; rw [setupOpe_plain src ref a _]
  | _ => simp only [setupOpe]

theorem setupList_plain (src : List Def) (ref : Nat → SetupSt → SetupSt) (es : List Ope) (s : SetupSt) :
    Ope.plainL (setupList src ref es s).1 = Ope.plainL es := by
  cases es with
  | nil => rfl
  | cons e es => simp only [setupList, Ope.plainL]; rw [setupOpe_plain src ref e s, setupList_plain src ref es _]
end

/-- The rules are those of `src` up to annotations. -/
def PlainOf (src rs : List Def) : Prop := ∀ r : Nat, (rs[r]?).map Def.plain = (src[r]?).map Def.plain

mutual
theorem setupOpe_keep {src : List Def} {ref : Nat → SetupSt → SetupSt} (hr : ∀ r s, PlainOf src s.rules → PlainOf src (ref r s).rules)
    (e : Ope) (s : SetupSt) (h : PlainOf src s.rules) : PlainOf src (setupOpe src ref e s).2.rules := by
  cases e with
  | seq es kw => exact setupList_keep hr es s h
  | cho es l fs => exact setupList_keep hr es _ h
  | rep e a b c => exact setupOpe_keep hr e s h
  | and_ e => exact setupOpe_keep hr e s h
  | not_ e => exact setupOpe_keep hr e s h
  | capScope e => exact setupOpe_keep hr e s h
  | cap n e => exact setupOpe_keep hr e s h
  | tok e => exact setupOpe_keep hr e s h
  | ign e => exact setupOpe_keep hr e s h
  | ws e => exact setupOpe_keep hr e s h
  | prec a b info r => exact setupOpe_keep hr a s h
  | ref r nm as => exact hr r s h
  | recov r nm as => exact hr r s h
  | weak r => exact hr r s h
  | _ => simp only [setupOpe]; exact h

theorem setupList_keep {src : List Def} {ref : Nat → SetupSt → SetupSt} (hr : ∀ r s, PlainOf src s.rules → PlainOf src (ref r s).rules)
    (es : List Ope) (s : SetupSt) (h : PlainOf src s.rules) : PlainOf src (setupList src ref es s).2.rules := by
  cases es with
  | nil => exact h
  | cons e es => exact setupList_keep hr es _ (setupOpe_keep hr e s h)
end

theorem setupRule_keep (src : List Def) (n r : Nat) (s : SetupSt) (h : PlainOf src s.rules) : PlainOf src (setupRule src n r s).rules := by
  induction n generalizing r s with
  | zero => exact h
  | succ n ih =>
    unfold setupRule
    cases hd : src[r]? with
    | none => exact h
    | some d =>
      dsimp only
      by_cases hv : r ∈ s.visited
      · rw [if_pos hv]; exact h
      · rw [if_neg hv]
        have h1 := setupOpe_keep (fun r s => ih r s) d.ope { s with visited := r :: s.visited } h
        intro q
        show (((setupOpe src (setupRule src n) d.ope { s with visited := r :: s.visited }).2.rules.set r
          { d with ope := (setupOpe src (setupRule src n) d.ope { s with visited := r :: s.visited }).1 })[q]?).map Def.plain = _
        have h2 := h1 q
        rw [List.getElem?_set]
        by_cases hq : r = q
        · subst hq
          rw [if_pos rfl]
          have hlt : r < (setupOpe src (setupRule src n) d.ope { s with visited := r :: s.visited }).2.rules.length := by
            by_contra hl
            rw [List.getElem?_eq_none_iff.2 (by omega), hd] at h2
            cases h2
          rw [if_pos hlt, hd]
          simp only [Option.map_some, Def.plain, setupOpe_plain]
        · rw [if_neg hq]; exact h2

/-- The pass computes annotations and nothing else. -/
theorem setupAll_plain (src : List Def) (order : List Nat) : PlainOf src (setupAll src order) := by
  have key : ∀ (l : List Nat) (s : SetupSt), PlainOf src s.rules →
      PlainOf src (l.foldl (fun s r => setupRule src (src.length + 1) r s) s).rules := by
    intro l
    induction l with
    | nil => intro s h; exact h
    | cons r l ih => intro s h; exact ih _ (setupRule_keep src _ r s h)
  exact key order { rules := src } fun r => rfl

theorem PlainOf.heads {src rs : List Def} (h : PlainOf src rs) : SameHeads rs src := by
  intro r
  have := congrArg (Option.map Def.head3) (h r)
  simp only [Option.map_map] at this
  exact this

theorem PlainOf.linked {src rs : List Def} (h : PlainOf src rs) (hl : LinkedRules src) : LinkedRules rs := by
  intro r d hd
  have h1 := h r
  rw [hd] at h1
  cases hs : src[r]? with
  | none => rw [hs] at h1; cases h1
  | some d' =>
    rw [hs] at h1
    simp only [Option.map_some, Option.some.injEq] at h1
    have h2 := congrArg Def.ope h1
    have h3 := congrArg Def.params h1
    simp only [Def.plain] at h2 h3
    obtain ⟨h4, h5⟩ := hl r d' hs
    constructor
    · rw [linked_heads h.heads, ← linked_plain, h2, h3, linked_plain]; exact h4
    · rw [← recovNamed_plain, h2, recovNamed_plain]; exact h5

/-! ## The other steps -/

/-- What the reader guarantees: recoveries are around `%recover` only, and plain rules have no parameters.  That no rule has a parameter
named `%recover` is an assumption. -/
structure Source.Wf (S : Source) : Prop where
  recovs : ∀ d ∈ S.defs, d.body.recovs = true
  names : ∀ d ∈ S.defs, recoverName ∉ d.head.params
  plain : ∀ d ∈ S.defs, d.head.isMacro = false → d.head.params = []

theorem Source.Wf.recovs' {S : Source} (h : S.Wf) : ∀ d ∈ S.all, d.body.recovs = true := by
  intro d hd
  rcases List.mem_cons.1 hd with e | e
  · subst e; decide
  · exact h.recovs d e

theorem Source.Wf.names' {S : Source} (h : S.Wf) : ∀ d ∈ S.all, recoverName ∉ d.head.params := by
  intro d hd
  rcases List.mem_cons.1 hd with e | e
  · subst e; decide +kernel
  · exact h.names d e

theorem Source.Wf.plain' {S : Source} (h : S.Wf) : ∀ d ∈ S.all, d.head.isMacro = false → d.head.params = [] := by
  intro d hd hm
  rcases List.mem_cons.1 hd with e | e
  · subst e; cases hm
  · exact h.plain d e hm

theorem linkAll_linked {S : Source} (h : S.Wf) (hr : refsOk S.all = true) : LinkedRules (linkAll S.all) := by
  intro r d hd
  cases hs : S.all[r]? with
  | none =>
    unfold linkAll at hd
    rw [List.getElem?_map, hs] at hd; cases hd
  | some s =>
    rw [linkAll_get hs] at hd
    cases hd
    have hm := List.mem_of_getElem? hs
    have hc := (check_iff S.all s.head.params s.body).1 (List.all_eq_true.1 hr s hm)
    exact ⟨link_linked S.all s.head.params (h.names' s hm) s.body (h.recovs' s hm) hc,
      link_recovNamed S.all s.head.params s.body (h.recovs' s hm)⟩

theorem LinkedRules.map {rs rs' : List Def} (hl : LinkedRules rs) (hs : SameHeads rs' rs)
    (h : ∀ (r : Nat) (d' : Def), rs'[r]? = some d' → ∃ d, rs[r]? = some d ∧ d'.params = d.params ∧
      (d.ope.linked rs d.params = true → d.ope.recovNamed = true → d'.ope.linked rs d.params = true ∧ d'.ope.recovNamed = true)) :
    LinkedRules rs' := by
  intro r d' hd'
  obtain ⟨d, hd, hp, hi⟩ := h r d' hd'
  rw [linked_heads hs, hp]
  exact hi (hl r d hd).1 (hl r d hd).2

theorem mapIdx_heads {rs : List Def} {f : Nat → Def → Def} (h : ∀ r d, (f r d).head3 = d.head3) : SameHeads (rs.mapIdx f) rs := by
  intro r
  rw [List.getElem?_mapIdx, Option.map_map]
  cases rs[r]? with
  | none => rfl
  | some d => exact congrArg some (h r d)

theorem tokLit_heads (d : Def) : (tokLit d).head3 = d.head3 := by
  unfold tokLit; split <;> rfl

theorem tokLit_linked {rs : List Def} (hl : LinkedRules rs) : LinkedRules (rs.map tokLit) := by
  refine hl.map (sameHeads_of_map tokLit_heads) ?_
  intro r d' hd'
  rw [List.getElem?_map] at hd'
  cases hd : rs[r]? with
  | none => rw [hd] at hd'; cases hd'
  | some d =>
    rw [hd] at hd'
    cases hd'
    refine ⟨d, rfl, ?_, ?_⟩
    · unfold tokLit; split <;> rfl
    · unfold tokLit
      intro h1 h2
      split
      · exact ⟨h1, h2⟩
      · exact ⟨h1, h2⟩

theorem applyPrec_spec {r : Nat} {info : List (List Byte × Nat × Byte)} {d d' : Def} (h : applyPrec r info d = some d') :
    d'.head3 = d.head3 ∧ ∃ a b, d'.ope = .prec a b info r ∧
      ∀ rs ps, (d.ope.linked rs ps = true → a.linked rs ps = true ∧ b.linked rs ps = true) ∧
        (d.ope.recovNamed = true → a.recovNamed = true ∧ b.recovNamed = true) := by
  unfold applyPrec at h
  split at h
  · rename_i a b a' t1 k1 t2 t3 k2 hd
    split at h
    · rename_i x y z hx hy hz
      split at h
      · cases h
        refine ⟨rfl, a, b, rfl, fun rs ps => ?_⟩
        rw [hd]
        simp only [Ope.linked, Ope.linkedL, Ope.recovNamed, Ope.recovNamedL, Bool.and_eq_true]
        exact ⟨fun h => ⟨h.1, h.2.1.1⟩, fun h => ⟨h.1, h.2.1.1⟩⟩
      · cases h
    · cases h
  · cases h

theorem precAll_get {prec : Nat → Option (List (List Byte × Nat × Byte))} : ∀ {rs rs' : List Def} {k : Nat}, precAll prec k rs = some rs' →
    ∀ r : Nat, (rs[r]? = none → rs'[r]? = none) ∧ ∀ d, rs[r]? = some d → ∃ d', rs'[r]? = some d' ∧
      ((prec (k + r) = none ∧ d' = d) ∨ ∃ i, prec (k + r) = some i ∧ applyPrec (k + r) i d = some d')
  | [], rs', k, h, r => by cases h; simp
  | d :: ds, rs', k, h, r => by
    unfold precAll at h
    split at h
    · rename_i d' ds' h1 h2
      cases h
      cases r with
      | zero =>
        refine ⟨(by intro h; cases h), ?_⟩
        intro x hx
        cases hx
        refine ⟨d', rfl, ?_⟩
        rw [Nat.add_zero]
        cases hp : prec k with
        | none => rw [hp] at h1; cases h1; exact Or.inl ⟨rfl, rfl⟩
        | some i => rw [hp] at h1; exact Or.inr ⟨i, rfl, h1⟩
      | succ r =>
        have := precAll_get h2 r
        rw [List.getElem?_cons_succ, List.getElem?_cons_succ]
        rw [show k + (r + 1) = k + 1 + r by omega]
        exact this
    · cases h

theorem precAll_heads {prec : Nat → Option (List (List Byte × Nat × Byte))} {rs rs' : List Def} (h : precAll prec 0 rs = some rs') :
    SameHeads rs' rs := by
  intro r
  obtain ⟨h1, h2⟩ := precAll_get h r
  cases hd : rs[r]? with
  | none => rw [h1 hd]
  | some d =>
    obtain ⟨d', e, h3⟩ := h2 d hd
    rw [e]
    rcases h3 with ⟨-, h3⟩ | ⟨i, -, h3⟩
    · rw [h3]
    · exact congrArg some (applyPrec_spec h3).1

theorem precAll_linked {prec : Nat → Option (List (List Byte × Nat × Byte))} {rs rs' : List Def} (h : precAll prec 0 rs = some rs')
    (hl : LinkedRules rs) : LinkedRules rs' := by
  refine hl.map (precAll_heads h) ?_
  intro r d' hd'
  obtain ⟨h1, h2⟩ := precAll_get h r
  cases hd : rs[r]? with
  | none => rw [h1 hd] at hd'; cases hd'
  | some d =>
    obtain ⟨d'', e, h3⟩ := h2 d hd
    rw [hd'] at e
    cases e
    refine ⟨d, rfl, ?_⟩
    rcases h3 with ⟨-, h3⟩ | ⟨i, -, h3⟩
    · subst h3; exact ⟨rfl, fun a b => ⟨a, b⟩⟩
    · obtain ⟨e1, a, b, e2, h4⟩ := applyPrec_spec h3
      refine ⟨congrArg (fun x => x.2.2) e1, fun h5 h6 => ?_⟩
      rw [e2]
      simp only [Ope.linked, Ope.recovNamed, Bool.and_eq_true]
      have h7 := (h4 rs d.params).1 h5
      have h8 := (h4 rs d.params).2 h6
      refine ⟨⟨⟨h7.1, h7.2⟩, ?_⟩, h8⟩
      rw [Nat.zero_add, hd]; rfl

/-- **What loading guarantees**: all rules linked, with the heads as written; the start rule exists, is not marked `~`; the operators of
the start rule are those of `%whitespace` and `%word`. -/
structure LoadOk (S : Source) (G : Parser) (a : Nat) : Prop where
  linked : LinkedRules G.rules
  heads : SameHeads G.rules (linkAll S.all)
  start : a < G.rules.length
  refs : refsOk S.all = true
  nodup : (S.all.map (·.head.name)).Nodup
  ws : ∀ w, G.ws a = some w → ∃ (r : Nat) (d : Def), G.rules[r]? = some d ∧ d.name = whitespaceName ∧ w = .ws (.ign d.ope)
  word : ∀ w, G.word a = some w → ∃ (r : Nat) (d : Def), G.rules[r]? = some d ∧ d.name = wordName ∧ w = d.ope
  shown : ∀ s, S.all[a]? = some s → s.head.ignoreSV = false
  bodies : ∀ (r : Nat) (d : Def) (s : SDef), G.rules[r]? = some d → S.all[r]? = some s → S.prec r = none →
    d.ope.plain = (s.body.link S.all s.head.params).plain ∨ d.ope.plain = .tok (s.body.link S.all s.head.params).plain

theorem SameHeads.trans {r1 r2 r3 : List Def} (h1 : SameHeads r1 r2) (h2 : SameHeads r2 r3) : SameHeads r1 r3 :=
  fun r => (h1 r).trans (h2 r)

theorem SameHeads.length {rs rs' : List Def} (h : SameHeads rs rs') : rs.length = rs'.length := by
  apply Nat.le_antisymm
  · by_contra hc
    have := h rs'.length
    rw [List.getElem?_eq_none_iff.2 (Nat.le_refl _), List.getElem?_eq_getElem (by omega)] at this
    cases this
  · by_contra hc
    have := h rs.length
    rw [List.getElem?_eq_none_iff.2 (Nat.le_refl _), List.getElem?_eq_getElem (by omega)] at this
    cases this

theorem named_rule {S : Source} {rs : List Def} (h : SameHeads rs (linkAll S.all)) {nm : List Byte} {r : Nat} {d : Def}
    (hr : ruleNamed S.all nm = some r) (hd : rs[r]? = some d) : d.name = nm := by
  obtain ⟨s, hs, hn⟩ := ruleNamed_some hr
  obtain ⟨d', e, h1, -⟩ := h.get hd
  rw [linkAll_get hs] at e
  cases e
  exact h1.trans hn

theorem load_ok {mark loops : List Def → Nat → Bool} {order : List Nat} {S : Source} (hw : S.Wf) {G : Parser} {a : Nat}
    (h : load mark loops order S = .ok (some (G, a))) : LoadOk S G a := by
  unfold load at h
  by_cases h0 : ¬ (S.all.map (·.head.name)).Nodup
  · rw [if_pos h0] at h; cases h
  rw [if_neg h0] at h
  cases hst : S.startRule with
  | none => rw [hst] at h; cases h
  | some o =>
    rw [hst] at h
    cases o with
    | none => cases h
    | some a' =>
      dsimp only at h
      split at h
      · cases h
      rename_i hshown
      split at h
      · cases h
      rename_i hrefs
      have hrefs : refsOk S.all = true := by simpa using hrefs
      split at h
      · cases h
      -- the rules with the left-recursion flags
      generalize hrs1 : (if S.leftRec = true then (linkAll S.all).mapIdx fun r d => { d with isLR := mark (linkAll S.all) r } else linkAll S.all) = rs1 at h
      have l0 := linkAll_linked hw hrefs
      have b1 : ∀ (r : Nat) (d : Def), rs1[r]? = some d → ∃ d0, (linkAll S.all)[r]? = some d0 ∧ d.ope = d0.ope := by
        subst hrs1
        intro r d hd
        split at hd
        · rw [List.getElem?_mapIdx] at hd
          cases h0 : (linkAll S.all)[r]? with
          | none => rw [h0] at hd; cases hd
          | some d0 => rw [h0] at hd; cases hd; exact ⟨d0, rfl, rfl⟩
        · exact ⟨d, hd, rfl⟩
      have s1 : SameHeads rs1 (linkAll S.all) ∧ LinkedRules rs1 := by
        subst hrs1
        split
        · have hh : SameHeads ((linkAll S.all).mapIdx fun r d => { d with isLR := mark (linkAll S.all) r }) (linkAll S.all) :=
            mapIdx_heads fun r d => rfl
          refine ⟨hh, l0.map hh ?_⟩
          intro r d' hd'
          rw [List.getElem?_mapIdx] at hd'
          cases hd : (linkAll S.all)[r]? with
          | none => rw [hd] at hd'; cases hd'
          | some d => rw [hd] at hd'; cases hd'; exact ⟨d, rfl, rfl, fun a b => ⟨a, b⟩⟩
        · exact ⟨fun r => rfl, l0⟩
      split at h
      · cases h
      generalize hrs2 : (if (ruleNamed S.all whitespaceName).isSome = true then rs1.map tokLit else rs1) = rs2 at h
      have b2 : ∀ (r : Nat) (d : Def), rs2[r]? = some d → ∃ d0, (linkAll S.all)[r]? = some d0 ∧ (d.ope = d0.ope ∨ d.ope = .tok d0.ope) := by
        subst hrs2
        intro r d hd
        split at hd
        · rw [List.getElem?_map] at hd
          cases h0 : rs1[r]? with
          | none => rw [h0] at hd; cases hd
          | some d1 =>
            rw [h0] at hd
            cases hd
            obtain ⟨d0, e1, e2⟩ := b1 r d1 h0
            refine ⟨d0, e1, ?_⟩
            unfold tokLit
            rw [← e2]
            split
            · exact Or.inr rfl
            · exact Or.inl rfl
        · obtain ⟨d0, e1, e2⟩ := b1 r d hd
          exact ⟨d0, e1, Or.inl e2⟩
      have s2 : SameHeads rs2 (linkAll S.all) ∧ LinkedRules rs2 := by
        subst hrs2
        split
        · exact ⟨(sameHeads_of_map tokLit_heads).trans s1.1, tokLit_linked s1.2⟩
        · exact s1
      split at h
      · cases h
      split at h
      · cases h
      cases hp : precAll S.prec 0 rs2 with
      | none => rw [hp] at h; cases h
      | some rs3 =>
        rw [hp] at h
        dsimp only at h
        have s3 : SameHeads rs3 (linkAll S.all) ∧ LinkedRules rs3 := ⟨(precAll_heads hp).trans s2.1, precAll_linked hp s2.2⟩
        have s4 : SameHeads (setupAll rs3 order) (linkAll S.all) ∧ LinkedRules (setupAll rs3 order) :=
          ⟨(setupAll_plain rs3 order).heads.trans s3.1, (setupAll_plain rs3 order).linked s3.2⟩
        have hG : ({ rules := setupAll rs3 order
                     ws := fun r => if r = a' then ((ruleNamed S.all whitespaceName).bind fun r => (setupAll rs3 order)[r]?).map fun d => Ope.ws (.ign d.ope) else none
                     word := fun r => if r = a' then ((ruleNamed S.all wordName).bind fun r => (setupAll rs3 order)[r]?).map Def.ope else none
                     packrat := fun r => decide (r = a') && S.packrat } : Parser) = G ∧ a' = a := by
          have := Out.ok.inj h
          have := Option.some.inj this
          exact ⟨congrArg Prod.fst this, congrArg Prod.snd this⟩
        obtain ⟨hG, ha⟩ := hG
        subst hG ha
        refine ⟨s4.2, s4.1, ?_, hrefs, Decidable.of_not_not h0, ?_, ?_, ?_, ?_⟩
        rotate_left 3
        · intro s hs
          rw [hs] at hshown
          simpa using hshown
        · intro r d s hd hs hpr
          have hd : (setupAll rs3 order)[r]? = some d := hd
          have e0 := setupAll_plain rs3 order r
          rw [hd] at e0
          cases h3 : rs3[r]? with
          | none => rw [h3] at e0; cases e0
          | some d3 =>
            rw [h3] at e0
            have e1 : d.ope.plain = d3.ope.plain := congrArg Def.ope (Option.some.inj e0)
            rw [e1]
            obtain ⟨g1, g2⟩ := precAll_get hp r
            cases h2 : rs2[r]? with
            | none => rw [g1 h2] at h3; cases h3
            | some d2 =>
              obtain ⟨d2', f1, f2⟩ := g2 d2 h2
              rw [h3] at f1
              cases f1
              rw [Nat.zero_add, hpr] at f2
              rcases f2 with ⟨-, f2⟩ | ⟨i, f2, -⟩
              · subst f2
                obtain ⟨d0, k1, k2⟩ := b2 r d3 h2
                rw [linkAll_get hs] at k1
                cases k1
                rcases k2 with k2 | k2
                · left; rw [k2]
                · right; rw [k2]; rfl
              · cases f2
        · show a' < (setupAll rs3 order).length
          rw [s4.1.length]
          unfold linkAll
          rw [List.length_map]
          unfold Source.startRule at hst
          cases hreq : S.start with
          | some nm =>
            rw [hreq] at hst
            dsimp only at hst
            cases hn : ruleNamed S.all nm with
            | none => rw [hn] at hst; cases hst
            | some r =>
              rw [hn] at hst
              cases hst
              obtain ⟨s, hs, -⟩ := ruleNamed_some hn
              exact (List.getElem?_eq_some_iff.1 hs).1
          | none =>
            rw [hreq] at hst
            dsimp only at hst
            cases hn : (S.defs.findIdx? fun d => d.head.name.head? ≠ some 37) with
            | none => rw [hn] at hst; cases hst
            | some r =>
              rw [hn] at hst
              simp only [Option.map_some, Option.some.injEq] at hst
              rw [List.findIdx?_eq_some_iff_getElem] at hn
              obtain ⟨hl, -⟩ := hn
              simp only [Source.all, List.length_cons]
              omega
        · intro w hw'
          dsimp only at hw'
          rw [if_pos rfl] at hw'
          cases hn : ruleNamed S.all whitespaceName with
          | none => rw [hn] at hw'; cases hw'
          | some r =>
            rw [hn] at hw'
            simp only [Option.bind_some] at hw'
            cases hd : (setupAll rs3 order)[r]? with
            | none => rw [hd] at hw'; cases hw'
            | some d => rw [hd] at hw'; cases hw'; exact ⟨r, d, hd, named_rule s4.1 hn hd, rfl⟩
        · intro w hw'
          dsimp only at hw'
          rw [if_pos rfl] at hw'
          cases hn : ruleNamed S.all wordName with
          | none => rw [hn] at hw'; cases hw'
          | some r =>
            rw [hn] at hw'
            simp only [Option.bind_some] at hw'
            cases hd : (setupAll rs3 order)[r]? with
            | none => rw [hd] at hw'; cases hw'
            | some d => rw [hd] at hw'; cases hw'; exact ⟨r, d, hd, named_rule s4.1 hn hd, rfl⟩

theorem LoadOk.env {S : Source} (hw : S.Wf) {G : Parser} {a : Nat} (h : LoadOk S G a) : LinkEnv G.rules := by
  have key : ∀ d ∈ G.rules, ∃ s ∈ S.all, d.name = s.head.name ∧ d.isMacro = s.head.isMacro ∧ d.params = s.head.params := by
    intro d hd
    obtain ⟨r, hr⟩ := List.mem_iff_getElem?.1 hd
    obtain ⟨d', e, h1, h2, h3⟩ := h.heads.get hr
    cases hs : S.all[r]? with
    | none => unfold linkAll at e; rw [List.getElem?_map, hs] at e; cases e
    | some s => rw [linkAll_get hs] at e; cases e; exact ⟨s, List.mem_of_getElem? hs, h1, h2, h3⟩
  constructor
  · intro d hd hn
    obtain ⟨s, hs, h1, h2, -⟩ := key d hd
    rcases List.mem_cons.1 hs with e | e
    · rw [h2, e]; rfl
    · exfalso
      have hnd := h.nodup
      unfold Source.all at hnd
      rw [List.map_cons, List.nodup_cons] at hnd
      exact hnd.1 (List.mem_map.2 ⟨s, e, h1.symm.trans hn⟩)
  · intro d hd
    obtain ⟨s, hs, -, -, h3⟩ := key d hd
    rw [h3]; exact hw.names' s hs

theorem LoadOk.params {S : Source} (hw : S.Wf) {G : Parser} {a : Nat} (h : LoadOk S G a) {r : Nat} {d : Def} (hd : G.rules[r]? = some d)
    (hm : d.isMacro = false) : d.params = [] := by
  obtain ⟨d', e, h1, h2, h3⟩ := h.heads.get hd
  cases hs : S.all[r]? with
  | none => unfold linkAll at e; rw [List.getElem?_map, hs] at e; cases e
  | some s =>
    rw [linkAll_get hs] at e
    cases e
    rw [h3]
    exact hw.plain' s (List.mem_of_getElem? hs) (h2.symm.trans hm)

end Verif
