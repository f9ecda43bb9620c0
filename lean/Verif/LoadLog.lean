import Verif.Props.ReadTypes
/-!
# What the loader says (peglib.h 6176-6470)

`loadLog` is `load` with the calls of the log callback.  Line and column of the messages are not modelled (the rules do not keep their places in
the text).  The specification is `Uses` (which rule refers to which name) and `LoadMsg.Justified` (what a message claims).
-/

namespace Verif
open Out

/-- The messages of `perform_core`, by kind, with the name in them. -/
inductive LoadMsg where
  /-- peglib.h 6203-6224: syntax errors, from the parse or from an exception -/
  | syntaxError
  /-- peglib.h 6246: "the definition '...' is already defined." -/
  | dupDef (nm : List Byte)
  /-- peglib.h 6258: "the instruction '...' is already defined." -/
  | dupInstr
  /-- peglib.h 6270: "the back reference '...' is undefined." -/
  | undefBref
  /-- peglib.h 6287: "the specified start rule '...' is undefined." -/
  | noStart (nm : List Byte)
  /-- peglib.h 6305: "ignore operator cannot be applied to '...'." -/
  | ignoredStart (nm : List Byte)
  /-- peglib.h 4564: "'...' is not defined." -/
  | undefined (nm : List Byte)
  /-- peglib.h 4571: "incorrect number of arguments." -/
  | arguments (nm : List Byte)
  /-- peglib.h 4575: "'...' is not macro." -/
  | notMacro (nm : List Byte)
  /-- peglib.h 6340: "'...' is not referenced." -/
  | unreferenced (nm : List Byte)
  /-- peglib.h 6384: "'...' is left recursive." -/
  | leftRec (nm : List Byte)
  /-- peglib.h 6463: "infinite loop is detected in '...'.", for the rule from which it was searched -/
  | loop (r : Nat)
  /-- peglib.h 6157, 6167: "'precedence' instruction cannot be applied to '...'." -/
  | precedence (nm : List Byte)
  deriving DecidableEq

/-- A reference: the name, whether it is written as a macro call, the number of arguments. -/
structure RefTo where
  name : List Byte
  mac : Bool
  args : Nat
  deriving DecidableEq

mutual
/-- peglib.h 4558-4581: the references `ReferenceChecker` looks at, except those to parameters.  It does not look into the arguments of parameters and of names that are not
defined. -/
def Src.refTos (ds : List SDef) (ps : List (List Byte)) : Src → List RefTo
  | .seq es => Src.refTosL ds ps es
  | .cho es _ => Src.refTosL ds ps es
  | .rep e _ _ => e.refTos ds ps
  | .and_ e => e.refTos ds ps
  | .not_ e => e.refTos ds ps
  | .capScope e => e.refTos ds ps
  | .cap _ e => e.refTos ds ps
  | .tok e => e.refTos ds ps
  | .ign e => e.refTos ds ps
  | .ref nm mac as => if nm ∈ ps then [] else ⟨nm, mac, as.length⟩ :: (if (ruleNamed ds nm).isSome then Src.refTosL ds ps as else [])
  | .recov nm mac as => if nm ∈ ps then [] else ⟨nm, mac, as.length⟩ :: (if (ruleNamed ds nm).isSome then Src.refTosL ds ps as else [])
  | .dict _ _ => []
  | .lit _ _ => []
  | .cls _ => []
  | .chr _ => []
  | .dot => []
  | .usr _ => []
  | .bref _ => []
  | .cut => []
def Src.refTosL (ds : List SDef) (ps : List (List Byte)) : List Src → List RefTo
  | [] => []
  | e :: es => e.refTos ds ps ++ Src.refTosL ds ps es
end

/-- peglib.h 4562-4576: the error about a reference, if any. -/
def RefTo.error (ds : List SDef) (u : RefTo) : Option LoadMsg :=
  match (ruleNamed ds u.name).bind fun r => ds[r]? with
  | none => some (.undefined u.name)
  | some d => if d.head.isMacro then (if u.mac && decide (u.args = d.head.params.length) then none else some (.arguments u.name))
    else if u.mac then some (.notMacro u.name) else none

/-- peglib.h 6320-6332: the errors of rule `r`.  The map of the code has one entry for each name; the kind of error depends only on the name. -/
def refMsgs (ds : List SDef) (r : Nat) : List LoadMsg :=
  match ds[r]? with
  | none => []
  | some d => ((d.body.refTos ds d.head.params).filterMap (·.error ds)).eraseDups

/-- peglib.h 6314-6319, 6323, 4566: the names that count as referenced. -/
def referenced (ds : List SDef) (order : List Nat) (start : List Byte) : List (List Byte) :=
  [whitespaceName, wordName, recoverName, start] ++
    order.flatMap fun r => ((ds[r]?).map fun d => ((d.body.refTos ds d.head.params).filter fun u => (ruleNamed ds u.name).isSome).map (·.name)).getD []

/-- peglib.h 6334-6342: the warnings. -/
def warnings (ds : List SDef) (order : List Nat) (start : List Byte) : List LoadMsg :=
  order.filterMap fun r => (ds[r]?).bind fun d => if d.head.name ∈ referenced ds order start then none else some (.unreferenced d.head.name)

/-- peglib.h 5707-5709: the definitions of names that have one already. -/
def dupNames (seen : List (List Byte)) : List (List Byte) → List (List Byte)
  | [] => []
  | n :: ns => if n ∈ seen then n :: dupNames seen ns else dupNames (n :: seen) ns

/-- The name of rule `r`. -/
def nameOf (ds : List SDef) (r : Nat) : List Byte := ((ds[r]?).map (·.head.name)).getD []

/-- peglib.h 6420-6428: the first instruction, in the order of the rules, that cannot be applied. -/
def precRefused (prec : Nat → Option (List (List Byte × Nat × Byte))) : Nat → List Def → List LoadMsg
  | _, [] => []
  | r, d :: ds =>
    match (match prec r with | none => some d | some i => applyPrec r i d) with
    | none => [.precedence d.name]
    | some _ => precRefused prec (r + 1) ds

/-- peglib.h 6237-6460: `load` with its messages, in order.  `before`: the messages about duplicate instructions and back references.  `order` is the iteration order of the
grammar map (for `data.instructions` the order of the rules is taken; at most one message is sent there). -/
def loadLog (mark loops : List Def → Nat → Bool) (order : List Nat) (S : Source) (before : List LoadMsg) : Out (List LoadMsg × Option (Parser × Nat)) :=
  let dup := (dupNames [] (S.all.map (·.head.name))).map .dupDef
  let st : List LoadMsg := match S.startRule with | none => [.noStart (S.start.getD [])] | some _ => []
  if dup ++ before ++ st ≠ [] then .ok (dup ++ before ++ st, none)
  else match S.startRule with
  | none => .ok ([], none)
  | some none => .ub "the start rule has no operator"
  | some (some a) =>
    if ((S.all[a]?).map (·.head.ignoreSV)).getD false then .ok ([.ignoredStart (nameOf S.all a)], none)
    else
      let errs := order.flatMap (refMsgs S.all)
      let warn := warnings S.all order (nameOf S.all a)
      if errs ≠ [] then .ok (errs ++ warn, none)
      else
        let rs := linkAll S.all
        let lr := order.filterMap fun r => if mark rs r then some (.leftRec (nameOf S.all r)) else none
        if !S.leftRec && !lr.isEmpty then .ok (warn ++ lr, none)
        else
          let rs := if S.leftRec then rs.mapIdx fun r d => { d with isLR := mark rs r } else rs
          if loops rs a then .ok (warn ++ [.loop a], none)
          else
            let w := ruleNamed S.all whitespaceName
            let rs := if w.isSome then rs.map tokLit else rs
            if (w.map (loops rs)).getD false then .ok (warn ++ [.loop (w.getD 0)], none)
            else
              let wd := ruleNamed S.all wordName
              if (wd.map (loops rs)).getD false then .ok (warn ++ [.loop (wd.getD 0)], none)
              else match precAll S.prec 0 rs with
              | none => .ok (warn ++ precRefused S.prec 0 rs, none)
              | some rs =>
                let rs := setupAll rs order
                .ok (warn, some ({ rules := rs
                                   ws := fun r => if r = a then (w.bind fun r => rs[r]?).map fun d => .ws (.ign d.ope) else none
                                   word := fun r => if r = a then (wd.bind fun r => rs[r]?).map Def.ope else none
                                   packrat := fun r => decide (r = a) && S.packrat }, a))

/-! ## Specification -/

/-- An expression of a rule with parameters `ps` refers to `u`; the arguments written after a parameter do not count. -/
inductive Uses (ps : List (List Byte)) (u : RefTo) : Src → Prop where
  | seq {es e} : e ∈ es → Uses ps u e → Uses ps u (.seq es)
  | cho {es l e} : e ∈ es → Uses ps u e → Uses ps u (.cho es l)
  | rep {e mn mx} : Uses ps u e → Uses ps u (.rep e mn mx)
  | and_ {e} : Uses ps u e → Uses ps u (.and_ e)
  | not_ {e} : Uses ps u e → Uses ps u (.not_ e)
  | capScope {e} : Uses ps u e → Uses ps u (.capScope e)
  | cap {nm e} : Uses ps u e → Uses ps u (.cap nm e)
  | tok {e} : Uses ps u e → Uses ps u (.tok e)
  | ign {e} : Uses ps u e → Uses ps u (.ign e)
  | ref {nm mac as} : nm ∉ ps → u = ⟨nm, mac, as.length⟩ → Uses ps u (.ref nm mac as)
  | recov {nm mac as} : nm ∉ ps → u = ⟨nm, mac, as.length⟩ → Uses ps u (.recov nm mac as)
  | refArg {nm mac as e} : nm ∉ ps → e ∈ as → Uses ps u e → Uses ps u (.ref nm mac as)
  | recovArg {nm mac as e} : nm ∉ ps → e ∈ as → Uses ps u e → Uses ps u (.recov nm mac as)

/-- Some rule refers to `u`. -/
def UsedIn (ds : List SDef) (u : RefTo) : Prop := ∃ d ∈ ds, Uses d.head.params u d.body

def Defined (ds : List SDef) (nm : List Byte) : Prop := ∃ d ∈ ds, d.head.name = nm

/-- peglib.h 6346-6381: the rules, linked and with the marks of the left-recursion check. -/
def Source.flagged (mark : List Def → Nat → Bool) (S : Source) : List Def :=
  if S.leftRec then (linkAll S.all).mapIdx fun r d => { d with isLR := mark (linkAll S.all) r } else linkAll S.all

/-- peglib.h 6397-6407: the same with literal rules made tokens if `%whitespace` is defined. -/
def Source.readied (mark : List Def → Nat → Bool) (S : Source) : List Def :=
  if (ruleNamed S.all whitespaceName).isSome then (S.flagged mark).map tokLit else S.flagged mark

/-- What a message about the rules claims. -/
def LoadMsg.Justified (mark loops : List Def → Nat → Bool) (S : Source) : LoadMsg → Prop
  | .dupDef nm => ∃ (r r' : Nat) (d d' : SDef), r < r' ∧ S.all[r]? = some d ∧ S.all[r']? = some d' ∧ d.head.name = nm ∧ d'.head.name = nm
  | .noStart nm => S.start = some nm ∧ ¬ Defined S.all nm
  | .ignoredStart nm => ∃ (r : Nat) (d : SDef), S.startRule = some (some r) ∧ S.all[r]? = some d ∧ d.head.name = nm ∧ d.head.ignoreSV = true
  | .undefined nm => ∃ (u : RefTo), u.name = nm ∧ UsedIn S.all u ∧ ¬ Defined S.all nm
  | .arguments nm => ∃ (u : RefTo) (d : SDef), u.name = nm ∧ UsedIn S.all u ∧ d ∈ S.all ∧ d.head.name = nm ∧ d.head.isMacro = true ∧
      (u.mac = false ∨ u.args ≠ d.head.params.length)
  | .notMacro nm => ∃ (u : RefTo) (d : SDef), u.name = nm ∧ UsedIn S.all u ∧ d ∈ S.all ∧ d.head.name = nm ∧ d.head.isMacro = false ∧ u.mac = true
  | .unreferenced nm => Defined S.all nm ∧ nm ∉ [whitespaceName, wordName, recoverName] ∧
      (∀ (r : Nat) (d : SDef), S.startRule = some (some r) → S.all[r]? = some d → d.head.name ≠ nm) ∧
      ((∀ (u : RefTo), UsedIn S.all u → Defined S.all u.name) → ∀ (u : RefTo), UsedIn S.all u → u.name ≠ nm)
  | .leftRec nm => S.leftRec = false ∧ ∃ (r : Nat), nameOf S.all r = nm ∧ mark (linkAll S.all) r = true
  | .loop r => (S.startRule = some (some r) ∧ loops (S.flagged mark) r = true) ∨
      ((ruleNamed S.all whitespaceName = some r ∨ ruleNamed S.all wordName = some r) ∧ loops (S.readied mark) r = true)
  | .precedence nm => ∃ (r : Nat) (d : Def) (info : List (List Byte × Nat × Byte)), (S.readied mark)[r]? = some d ∧ d.name = nm ∧
      S.prec r = some info ∧ applyPrec r info d = none
  | _ => True

/-! ## Proofs -/

theorem dupNames_nil : ∀ (ns seen : List (List Byte)), dupNames seen ns = [] ↔ ns.Nodup ∧ ∀ n ∈ ns, n ∉ seen
  | [], seen => by simp [dupNames]
  | n :: ns, seen => by
    unfold dupNames
    by_cases h : n ∈ seen
    · rw [if_pos h]
      constructor
      · intro e; cases e
      · intro e; exact absurd h (e.2 n List.mem_cons_self)
    · rw [if_neg h, dupNames_nil ns (n :: seen), List.nodup_cons]
      constructor
      · rintro ⟨h1, h2⟩
        refine ⟨⟨fun hm => h2 n hm List.mem_cons_self, h1⟩, ?_⟩
        intro m hm
        rcases List.mem_cons.1 hm with rfl | hm
        · exact h
        · exact fun hs => h2 m hm (List.mem_cons_of_mem _ hs)
      · rintro ⟨⟨h1, h2⟩, h3⟩
        refine ⟨h2, fun m hm hs => ?_⟩
        rcases List.mem_cons.1 hs with rfl | hs
        · exact h1 hm
        · exact h3 m (List.mem_cons_of_mem _ hm) hs

theorem dupNames_twice : ∀ (ns seen : List (List Byte)) (nm : List Byte), nm ∈ dupNames seen ns →
    (nm ∈ seen ∧ nm ∈ ns) ∨ ∃ r r' : Nat, r < r' ∧ ns[r]? = some nm ∧ ns[r']? = some nm
  | [], seen, nm, h => by cases h
  | n :: ns, seen, nm, h => by
    unfold dupNames at h
    by_cases hs : n ∈ seen
    · rw [if_pos hs] at h
      rcases List.mem_cons.1 h with rfl | h
      · exact .inl ⟨hs, List.mem_cons_self⟩
      · rcases dupNames_twice ns seen nm h with h | ⟨r, r', h1, h2, h3⟩
        · exact .inl ⟨h.1, List.mem_cons_of_mem _ h.2⟩
        · exact .inr ⟨r + 1, r' + 1, by omega, h2, h3⟩
    · rw [if_neg hs] at h
      rcases dupNames_twice ns (n :: seen) nm h with ⟨h1, h2⟩ | ⟨r, r', h1, h2, h3⟩
      · rcases List.mem_cons.1 h1 with rfl | h1
        · obtain ⟨k, hk⟩ := List.getElem?_of_mem h2
          exact .inr ⟨0, k + 1, by omega, rfl, hk⟩
        · exact .inl ⟨h1, List.mem_cons_of_mem _ h2⟩
      · exact .inr ⟨r + 1, r' + 1, by omega, h2, h3⟩

/-- Nothing is wrong with a reference. -/
theorem error_none {ds : List SDef} (u : RefTo) : u.error ds = none ↔
    (match (ruleNamed ds u.name).bind fun r => ds[r]? with
      | none => false
      | some d => (if d.head.isMacro then u.mac && decide (u.args = d.head.params.length) else !u.mac)) = true := by
  unfold RefTo.error
  cases (ruleNamed ds u.name).bind fun r => ds[r]? with
  | none => simp
  | some d =>
    dsimp only
    cases d.head.isMacro with
    | true =>
      simp only [if_true]
      cases u.mac && decide (u.args = d.head.params.length) <;> simp
    | false =>
      simp only [Bool.false_eq_true, if_false]
      cases u.mac <;> simp

theorem ruleAt {ds : List SDef} {nm : List Byte} : ((ruleNamed ds nm).bind fun r => ds[r]?).isSome = (ruleNamed ds nm).isSome := by
  cases h : ruleNamed ds nm with
  | none => rfl
  | some r =>
    obtain ⟨d, hd, -⟩ := ruleNamed_some h
    simp [hd]

mutual
theorem check_refs (ds : List SDef) (ps : List (List Byte)) : ∀ (e : Src), e.check ds ps = true ↔ ∀ u ∈ e.refTos ds ps, u.error ds = none
  | .seq es => by rw [Src.check, Src.refTos]; exact checkL_refs ds ps es
  | .cho es _ => by rw [Src.check, Src.refTos]; exact checkL_refs ds ps es
  | .rep e _ _ => by rw [Src.check, Src.refTos]; exact check_refs ds ps e
  | .and_ e => by rw [Src.check, Src.refTos]; exact check_refs ds ps e
  | .not_ e => by rw [Src.check, Src.refTos]; exact check_refs ds ps e
  | .capScope e => by rw [Src.check, Src.refTos]; exact check_refs ds ps e
  | .cap _ e => by rw [Src.check, Src.refTos]; exact check_refs ds ps e
  | .tok e => by rw [Src.check, Src.refTos]; exact check_refs ds ps e
  | .ign e => by rw [Src.check, Src.refTos]; exact check_refs ds ps e
  | .ref nm mac as => by
    rw [Src.check, Src.refTos]
    by_cases hp : nm ∈ ps
    · simp [hp]
    · rw [if_neg hp, if_neg hp]
      simp only [List.forall_mem_cons, error_none]
      cases hr : (ruleNamed ds nm).bind fun r => ds[r]? with
      | none => simp
      | some d =>
        have : (ruleNamed ds nm).isSome = true := by rw [← ruleAt, hr]; rfl
        rw [if_pos this]
        simp only [Bool.and_eq_true]
        rw [checkL_refs ds ps as]
        simp only [error_none]
  | .recov nm mac as => by
    rw [Src.check, Src.refTos]
    by_cases hp : nm ∈ ps
    · simp [hp]
    · rw [if_neg hp, if_neg hp]
      simp only [List.forall_mem_cons, error_none]
      cases hr : (ruleNamed ds nm).bind fun r => ds[r]? with
      | none => simp
      | some d =>
        have : (ruleNamed ds nm).isSome = true := by rw [← ruleAt, hr]; rfl
        rw [if_pos this]
        simp only [Bool.and_eq_true]
        rw [checkL_refs ds ps as]
        simp only [error_none]
  | .dict _ _ => by simp [Src.check, Src.refTos]
  | .lit _ _ => by simp [Src.check, Src.refTos]
  | .cls _ => by simp [Src.check, Src.refTos]
  | .chr _ => by simp [Src.check, Src.refTos]
  | .dot => by simp [Src.check, Src.refTos]
  | .usr _ => by simp [Src.check, Src.refTos]
  | .bref _ => by simp [Src.check, Src.refTos]
  | .cut => by simp [Src.check, Src.refTos]
theorem checkL_refs (ds : List SDef) (ps : List (List Byte)) : ∀ (es : List Src), Src.checkL ds ps es = true ↔ ∀ u ∈ Src.refTosL ds ps es, u.error ds = none
  | [] => by simp [Src.checkL, Src.refTosL]
  | e :: es => by
    rw [Src.checkL, Src.refTosL, Bool.and_eq_true, check_refs ds ps e, checkL_refs ds ps es]
    simp only [List.mem_append]
    exact ⟨fun h u hu => hu.elim (h.1 u) (h.2 u), fun h => ⟨fun u hu => h u (.inl hu), fun u hu => h u (.inr hu)⟩⟩
end

mutual
/-- What the checker looks at is used. -/
theorem uses_of_refs (ds : List SDef) (ps : List (List Byte)) (u : RefTo) : ∀ (e : Src), u ∈ e.refTos ds ps → Uses ps u e
  | .seq es, h => by rw [Src.refTos] at h; obtain ⟨e, h1, h2⟩ := usesL_of_refs ds ps u es h; exact .seq h1 h2
  | .cho es _, h => by rw [Src.refTos] at h; obtain ⟨e, h1, h2⟩ := usesL_of_refs ds ps u es h; exact .cho h1 h2
  | .rep e _ _, h => by rw [Src.refTos] at h; exact .rep (uses_of_refs ds ps u e h)
  | .and_ e, h => by rw [Src.refTos] at h; exact .and_ (uses_of_refs ds ps u e h)
  | .not_ e, h => by rw [Src.refTos] at h; exact .not_ (uses_of_refs ds ps u e h)
  | .capScope e, h => by rw [Src.refTos] at h; exact .capScope (uses_of_refs ds ps u e h)
  | .cap _ e, h => by rw [Src.refTos] at h; exact .cap (uses_of_refs ds ps u e h)
  | .tok e, h => by rw [Src.refTos] at h; exact .tok (uses_of_refs ds ps u e h)
  | .ign e, h => by rw [Src.refTos] at h; exact .ign (uses_of_refs ds ps u e h)
  | .ref nm mac as, h => by
    rw [Src.refTos] at h
    by_cases hp : nm ∈ ps
    · rw [if_pos hp] at h; cases h
    · rw [if_neg hp] at h
      rcases List.mem_cons.1 h with h | h
      · exact .ref hp h
      · by_cases hr : (ruleNamed ds nm).isSome = true
        · rw [if_pos hr] at h
          obtain ⟨e, h1, h2⟩ := usesL_of_refs ds ps u as h
          exact .refArg hp h1 h2
        · rw [if_neg hr] at h; cases h
  | .recov nm mac as, h => by
    rw [Src.refTos] at h
    by_cases hp : nm ∈ ps
    · rw [if_pos hp] at h; cases h
    · rw [if_neg hp] at h
      rcases List.mem_cons.1 h with h | h
      · exact .recov hp h
      · by_cases hr : (ruleNamed ds nm).isSome = true
        · rw [if_pos hr] at h
          obtain ⟨e, h1, h2⟩ := usesL_of_refs ds ps u as h
          exact .recovArg hp h1 h2
        · rw [if_neg hr] at h; cases h
  | .dict _ _, h => by cases h
  | .lit _ _, h => by cases h
  | .cls _, h => by cases h
  | .chr _, h => by cases h
  | .dot, h => by cases h
  | .usr _, h => by cases h
  | .bref _, h => by cases h
  | .cut, h => by cases h
theorem usesL_of_refs (ds : List SDef) (ps : List (List Byte)) (u : RefTo) : ∀ (es : List Src), u ∈ Src.refTosL ds ps es → ∃ e ∈ es, Uses ps u e
  | [], h => by cases h
  | e :: es, h => by
    rw [Src.refTosL] at h
    rcases List.mem_append.1 h with h | h
    · exact ⟨e, List.mem_cons_self, uses_of_refs ds ps u e h⟩
    · obtain ⟨e', h1, h2⟩ := usesL_of_refs ds ps u es h
      exact ⟨e', List.mem_cons_of_mem _ h1, h2⟩
end

theorem refsL_mem {ds : List SDef} {ps : List (List Byte)} {u : RefTo} {e : Src} : ∀ {es : List Src}, e ∈ es → u ∈ e.refTos ds ps → u ∈ Src.refTosL ds ps es
  | e' :: es, h, hu => by
    rw [Src.refTosL, List.mem_append]
    rcases List.mem_cons.1 h with rfl | h
    · exact .inl hu
    · exact .inr (refsL_mem h hu)

/-- If everything looked at is defined, everything used is looked at. -/
theorem refs_of_uses {ds : List SDef} {ps : List (List Byte)} {u : RefTo} {e : Src} (h : Uses ps u e)
    (hc : ∀ u' ∈ e.refTos ds ps, (ruleNamed ds u'.name).isSome = true) : u ∈ e.refTos ds ps := by
  induction h with
  | seq hm _ ih => rw [Src.refTos] at hc ⊢; exact refsL_mem hm (ih fun u' h' => hc u' (refsL_mem hm h'))
  | cho hm _ ih => rw [Src.refTos] at hc ⊢; exact refsL_mem hm (ih fun u' h' => hc u' (refsL_mem hm h'))
  | rep _ ih => rw [Src.refTos] at hc ⊢; exact ih hc
  | and_ _ ih => rw [Src.refTos] at hc ⊢; exact ih hc
  | not_ _ ih => rw [Src.refTos] at hc ⊢; exact ih hc
  | capScope _ ih => rw [Src.refTos] at hc ⊢; exact ih hc
  | cap _ ih => rw [Src.refTos] at hc ⊢; exact ih hc
  | tok _ ih => rw [Src.refTos] at hc ⊢; exact ih hc
  | ign _ ih => rw [Src.refTos] at hc ⊢; exact ih hc
  | ref hp hu => rw [Src.refTos, if_neg hp, hu]; exact List.mem_cons_self
  | recov hp hu => rw [Src.refTos, if_neg hp, hu]; exact List.mem_cons_self
  | refArg hp hm _ ih =>
    rw [Src.refTos, if_neg hp] at hc ⊢
    have h1 := hc _ List.mem_cons_self
    rw [if_pos h1] at hc ⊢
    exact List.mem_cons_of_mem _ (refsL_mem hm (ih fun u' h' => hc u' (List.mem_cons_of_mem _ (refsL_mem hm h'))))
  | recovArg hp hm _ ih =>
    rw [Src.refTos, if_neg hp] at hc ⊢
    have h1 := hc _ List.mem_cons_self
    rw [if_pos h1] at hc ⊢
    exact List.mem_cons_of_mem _ (refsL_mem hm (ih fun u' h' => hc u' (List.mem_cons_of_mem _ (refsL_mem hm h'))))

theorem defined_of_error {ds : List SDef} {u : RefTo} (h : u.error ds = none) : (ruleNamed ds u.name).isSome = true := by
  rw [error_none] at h
  rw [← ruleAt]
  cases hr : (ruleNamed ds u.name).bind fun r => ds[r]? with
  | none => rw [hr] at h; cases h
  | some d => rfl

theorem mem_refMsgs {ds : List SDef} {r : Nat} {m : LoadMsg} : m ∈ refMsgs ds r ↔ ∃ d, ds[r]? = some d ∧ ∃ u ∈ d.body.refTos ds d.head.params, u.error ds = some m := by
  unfold refMsgs
  cases h : ds[r]? with
  | none => simp
  | some d => simp [List.mem_eraseDups]

/-- The map is iterated over all rules. -/
def Covers (order : List Nat) (n : Nat) : Prop := ∀ r, r < n → r ∈ order

theorem refsOk_iff {ds : List SDef} {order : List Nat} (ho : Covers order ds.length) : refsOk ds = true ↔ order.flatMap (refMsgs ds) = [] := by
  rw [List.flatMap_eq_nil_iff]
  unfold refsOk
  rw [List.all_eq_true]
  constructor
  · intro h r _
    cases hm : refMsgs ds r with
    | nil => rfl
    | cons m ms =>
      obtain ⟨d, h1, u, h2, h3⟩ := mem_refMsgs.1 (show m ∈ refMsgs ds r by rw [hm]; exact List.mem_cons_self)
      rw [(check_refs ds d.head.params d.body).1 (h d (List.mem_of_getElem? h1)) u h2] at h3
      cases h3
  · intro h d hd
    obtain ⟨r, hr⟩ := List.getElem?_of_mem hd
    have hlt : r < ds.length := (List.getElem?_eq_some_iff.1 hr).1
    rw [check_refs]
    intro u hu
    cases he : u.error ds with
    | none => rfl
    | some m =>
      have := mem_refMsgs.2 ⟨d, hr, u, hu, he⟩
      rw [h r (ho r hlt)] at this
      cases this

theorem marked_iff {ds : List SDef} {mark : List Def → Nat → Bool} {order : List Nat} (ho : ∀ r, r ∈ order ↔ r < ds.length) :
    (order.filterMap fun r => if mark (linkAll ds) r then some (LoadMsg.leftRec (nameOf ds r)) else none).isEmpty =
      !(List.range (linkAll ds).length).any (mark (linkAll ds)) := by
  rw [Bool.eq_iff_iff, List.isEmpty_iff, List.filterMap_eq_nil_iff, Bool.not_eq_true', List.any_eq_false]
  have hl : (linkAll ds).length = ds.length := by simp [linkAll]
  constructor
  · intro h r hr hm
    have := h r ((ho r).2 (by rw [← hl]; exact List.mem_range.1 hr))
    rw [if_pos hm] at this
    cases this
  · intro h r hr
    rw [if_neg (h r (List.mem_range.2 (by rw [hl]; exact (ho r).1 hr)))]

/-- The messages change nothing. -/
theorem loadLog_load (mark loops : List Def → Nat → Bool) {order : List Nat} {S : Source} (ho : ∀ r, r ∈ order ↔ r < S.all.length) (before : List LoadMsg) :
    (loadLog mark loops order S before).bind (fun x => .ok x.2) = if before = [] then load mark loops order S else .ok none := by
  unfold loadLog load
  dsimp only
  have hdup : (dupNames [] (S.all.map (·.head.name))).map LoadMsg.dupDef = [] ↔ (S.all.map (·.head.name)).Nodup := by
    rw [List.map_eq_nil_iff, dupNames_nil]
    simp
  by_cases hd : (S.all.map (·.head.name)).Nodup
  · rw [if_neg (not_not_intro hd), hdup.2 hd, List.nil_append]
    by_cases hb : before = []
    · subst hb
      rw [if_pos rfl, List.nil_append]
      cases hs : S.startRule with
      | none => rfl
      | some a =>
        rw [if_neg (not_not_intro rfl)]
        cases a with
        | none => rfl
        | some a =>
          dsimp only
          by_cases hi : ((S.all[a]?).map (·.head.ignoreSV)).getD false = true
          · rw [if_pos hi, if_pos hi]; rfl
          · rw [if_neg hi, if_neg hi]
            have hr := refsOk_iff (order := order) fun r hr => (ho r).2 hr
            by_cases hc : refsOk S.all = true
            · rw [hc, hr.1 hc, if_neg (not_not_intro rfl), Bool.not_true, if_neg Bool.false_ne_true, marked_iff ho, Bool.not_not]
              by_cases hl : (!S.leftRec && (List.range (linkAll S.all).length).any (mark (linkAll S.all))) = true
              · rw [if_pos hl, if_pos hl]; rfl
              · rw [if_neg hl, if_neg hl]
                generalize (if S.leftRec = true then (linkAll S.all).mapIdx fun r d => { d with isLR := mark (linkAll S.all) r } else linkAll S.all) = rs
                by_cases h1 : loops rs a = true
                · rw [if_pos h1, if_pos h1]; rfl
                · rw [if_neg h1, if_neg h1]
                  generalize (if (ruleNamed S.all whitespaceName).isSome = true then rs.map tokLit else rs) = rs'
                  by_cases h2 : ((ruleNamed S.all whitespaceName).map (loops rs')).getD false = true
                  · rw [if_pos h2, if_pos h2]; rfl
                  · rw [if_neg h2, if_neg h2]
                    by_cases h3 : ((ruleNamed S.all wordName).map (loops rs')).getD false = true
                    · rw [if_pos h3, if_pos h3]; rfl
                    · rw [if_neg h3, if_neg h3]
                      cases precAll S.prec 0 rs' with
                      | none => rfl
                      | some rs2 => rfl
            · have hne : order.flatMap (refMsgs S.all) ≠ [] := fun e => hc (hr.2 e)
              rw [if_pos hne]
              rw [Bool.not_eq_true] at hc
              rw [hc]
              rfl
    · rw [if_neg hb, if_pos (by intro e; exact hb (List.append_eq_nil_iff.1 e).1)]
      rfl
  · rw [if_pos hd, if_pos (by intro e; exact hd (hdup.1 (List.append_eq_nil_iff.1 (List.append_eq_nil_iff.1 e).1).1))]
    by_cases hb : before = []
    · rw [if_pos hb]; rfl
    · rw [if_neg hb]; rfl

theorem precRefused_ne {prec : Nat → Option (List (List Byte × Nat × Byte))} : ∀ (ds : List Def) (r : Nat), precAll prec r ds = none → precRefused prec r ds ≠ []
  | [], r, h => by cases h
  | d :: ds, r, h => by
    unfold precAll at h
    unfold precRefused
    have rest : ∀ d' : Def, (match some d', precAll prec (r + 1) ds with | some d, some ds => some (d :: ds) | _, _ => none) = none → precAll prec (r + 1) ds = none := by
      intro d' h
      cases hy : precAll prec (r + 1) ds with
      | none => rfl
      | some ds' => rw [hy] at h; cases h
    cases hp : prec r with
    | none =>
      rw [hp] at h
      exact precRefused_ne ds (r + 1) (rest d h)
    | some i =>
      rw [hp] at h
      dsimp only at h ⊢
      cases ha : applyPrec r i d with
      | none => intro e; cases e
      | some d' =>
        rw [ha] at h
        exact precRefused_ne ds (r + 1) (rest d' h)

theorem precRefused_mem {prec : Nat → Option (List (List Byte × Nat × Byte))} {m : LoadMsg} : ∀ (ds : List Def) (r : Nat), m ∈ precRefused prec r ds →
    ∃ (k : Nat) (d : Def) (info : List (List Byte × Nat × Byte)), ds[k]? = some d ∧ m = .precedence d.name ∧ prec (r + k) = some info ∧
      applyPrec (r + k) info d = none
  | [], r, h => by cases h
  | d :: ds, r, h => by
    have rest : m ∈ precRefused prec (r + 1) ds → ∃ (k : Nat) (d' : Def) (info : List (List Byte × Nat × Byte)), (d :: ds)[k]? = some d' ∧
        m = .precedence d'.name ∧ prec (r + k) = some info ∧ applyPrec (r + k) info d' = none := by
      intro h
      obtain ⟨k, d', info, h1, h2, h3, h4⟩ := precRefused_mem ds (r + 1) h
      have e : r + 1 + k = r + (k + 1) := by omega
      rw [e] at h3 h4
      exact ⟨k + 1, d', info, h1, h2, h3, h4⟩
    unfold precRefused at h
    cases hp : prec r with
    | none =>
      rw [hp] at h
      exact rest h
    | some info =>
      rw [hp] at h
      dsimp only at h
      cases ha : applyPrec r info d with
      | none =>
        rw [ha] at h
        exact ⟨0, d, info, rfl, List.mem_singleton.1 h, hp, ha⟩
      | some d' =>
        rw [ha] at h
        exact rest h

/-- The cases of `loadLog`. -/
inductive LogCase (mark loops : List Def → Nat → Bool) (order : List Nat) (S : Source) (before : List LoadMsg) : List LoadMsg → Option (Parser × Nat) → Prop where
  | early {ms} : ms ≠ [] → (∀ m ∈ ms, m ∈ before ∨ (∃ nm ∈ dupNames [] (S.all.map (·.head.name)), m = .dupDef nm) ∨
      (S.startRule = none ∧ m = .noStart (S.start.getD []))) → LogCase mark loops order S before ms none
  | ignored {a} : S.startRule = some (some a) → ((S.all[a]?).map (·.head.ignoreSV)).getD false = true → LogCase mark loops order S before [.ignoredStart (nameOf S.all a)] none
  | refs {a} : S.startRule = some (some a) → order.flatMap (refMsgs S.all) ≠ [] → LogCase mark loops order S before (order.flatMap (refMsgs S.all) ++ warnings S.all order (nameOf S.all a)) none
  | leftRec {a ms} : S.startRule = some (some a) → order.flatMap (refMsgs S.all) = [] → S.leftRec = false → ms ≠ [] → (∀ m ∈ ms, ∃ r ∈ order, m = .leftRec (nameOf S.all r) ∧ mark (linkAll S.all) r = true) →
      LogCase mark loops order S before (warnings S.all order (nameOf S.all a) ++ ms) none
  | loop {a r} : S.startRule = some (some a) → order.flatMap (refMsgs S.all) = [] → (S.startRule = some (some r) ∧ loops (S.flagged mark) r = true) ∨
      ((ruleNamed S.all whitespaceName = some r ∨ ruleNamed S.all wordName = some r) ∧ loops (S.readied mark) r = true) → LogCase mark loops order S before (warnings S.all order (nameOf S.all a) ++ [.loop r]) none
  | prec {a} : S.startRule = some (some a) → order.flatMap (refMsgs S.all) = [] → precRefused S.prec 0 (S.readied mark) ≠ [] →
      LogCase mark loops order S before (warnings S.all order (nameOf S.all a) ++ precRefused S.prec 0 (S.readied mark)) none
  | ok {a p} : before = [] → (S.all.map (·.head.name)).Nodup → S.startRule = some (some a) → order.flatMap (refMsgs S.all) = [] →
      LogCase mark loops order S before (warnings S.all order (nameOf S.all a)) (some (p, a))

theorem loadLog_case {mark loops : List Def → Nat → Bool} {order : List Nat} {S : Source} {before ms : List LoadMsg} {x : Option (Parser × Nat)}
    (h : loadLog mark loops order S before = .ok (ms, x)) : LogCase mark loops order S before ms x := by
  unfold loadLog at h
  dsimp only at h
  by_cases h0 : ((dupNames [] (S.all.map (·.head.name))).map LoadMsg.dupDef ++ before ++
      (match S.startRule with | none => [LoadMsg.noStart (S.start.getD [])] | some _ => []) : List LoadMsg) ≠ []
  · rw [if_pos h0] at h
    cases h
    refine .early h0 fun m hm => ?_
    rcases List.mem_append.1 hm with hm | hm
    · rcases List.mem_append.1 hm with hm | hm
      · obtain ⟨nm, h1, h2⟩ := List.mem_map.1 hm
        exact .inr (.inl ⟨nm, h1, h2.symm⟩)
      · exact .inl hm
    · cases hs : S.startRule with
      | none => rw [hs] at hm; exact .inr (.inr ⟨rfl, List.mem_singleton.1 hm⟩)
      | some a => rw [hs] at hm; cases hm
  · rw [if_neg h0] at h
    have h0' := Classical.not_not.1 h0
    rw [List.append_eq_nil_iff, List.append_eq_nil_iff, List.map_eq_nil_iff, dupNames_nil] at h0'
    obtain ⟨⟨⟨hd, -⟩, hb⟩, hst⟩ := h0'
    cases hs : S.startRule with
    | none => rw [hs] at hst; cases hst
    | some a =>
      rw [hs] at h
      cases a with
      | none => cases h
      | some a =>
        dsimp only at h
        by_cases hi : ((S.all[a]?).map (·.head.ignoreSV)).getD false = true
        · rw [if_pos hi] at h; cases h; exact .ignored hs hi
        · rw [if_neg hi] at h
          by_cases hr : order.flatMap (refMsgs S.all) ≠ []
          · rw [if_pos hr] at h; cases h; exact .refs hs hr
          · rw [if_neg hr] at h
            rw [Classical.not_not] at hr
            by_cases hl : (!S.leftRec && !(order.filterMap fun r => if mark (linkAll S.all) r then some (LoadMsg.leftRec (nameOf S.all r)) else none).isEmpty) = true
            · rw [if_pos hl] at h
              cases h
              rw [Bool.and_eq_true, Bool.not_eq_true', Bool.not_eq_true', List.isEmpty_eq_false_iff] at hl
              refine .leftRec hs hr hl.1 hl.2 fun m hm => ?_
              obtain ⟨r, h1, h2⟩ := List.mem_filterMap.1 hm
              by_cases hmk : mark (linkAll S.all) r = true
              · rw [if_pos hmk] at h2; cases h2; exact ⟨r, h1, rfl, hmk⟩
              · rw [if_neg hmk] at h2; cases h2
            · rw [if_neg hl] at h
              change (if loops (S.flagged mark) a then _ else _) = _ at h
              by_cases h1 : loops (S.flagged mark) a = true
              · rw [if_pos h1] at h; cases h; exact .loop hs hr (.inl ⟨hs, h1⟩)
              · rw [if_neg h1] at h
                change (if ((ruleNamed S.all whitespaceName).map (loops (S.readied mark))).getD false then _ else
                  if ((ruleNamed S.all wordName).map (loops (S.readied mark))).getD false then _ else
                  match precAll S.prec 0 (S.readied mark) with | none => _ | some rs => _) = _ at h
                have some_of : ∀ (w : Option Nat), (w.map (loops (S.readied mark))).getD false = true →
                    w = some (w.getD 0) ∧ loops (S.readied mark) (w.getD 0) = true := by
                  intro w hw
                  cases w with
                  | none => cases hw
                  | some w => exact ⟨rfl, hw⟩
                by_cases h2 : ((ruleNamed S.all whitespaceName).map (loops (S.readied mark))).getD false = true
                · rw [if_pos h2] at h; cases h; exact .loop hs hr (.inr ⟨.inl (some_of _ h2).1, (some_of _ h2).2⟩)
                · rw [if_neg h2] at h
                  by_cases h3 : ((ruleNamed S.all wordName).map (loops (S.readied mark))).getD false = true
                  · rw [if_pos h3] at h; cases h; exact .loop hs hr (.inr ⟨.inr (some_of _ h3).1, (some_of _ h3).2⟩)
                  · rw [if_neg h3] at h
                    cases hp : precAll S.prec 0 (S.readied mark) with
                    | none => rw [hp] at h; cases h; exact .prec hs hr (precRefused_ne _ _ hp)
                    | some rs2 => rw [hp] at h; cases h; exact .ok hb hd hs hr

theorem defined_iff {ds : List SDef} {nm : List Byte} : Defined ds nm ↔ (ruleNamed ds nm).isSome = true := (ruleNamed_isSome ds nm).symm

theorem nameOf_get {ds : List SDef} {r : Nat} {d : SDef} (h : ds[r]? = some d) : nameOf ds r = d.head.name := by unfold nameOf; rw [h]; rfl

theorem error_justified {S : Source} (mark loops : List Def → Nat → Bool) {u : RefTo} (hu : UsedIn S.all u) {m : LoadMsg} (h : u.error S.all = some m) :
    m.Justified mark loops S := by
  unfold RefTo.error at h
  cases hr : (ruleNamed S.all u.name).bind fun r => S.all[r]? with
  | none =>
    rw [hr] at h
    cases h
    refine ⟨u, rfl, hu, ?_⟩
    rw [defined_iff, ← ruleAt, hr]
    exact Bool.false_ne_true
  | some d =>
    rw [hr] at h
    obtain ⟨r, h1, h2⟩ := Option.bind_eq_some_iff.1 hr
    obtain ⟨d', h3, h4⟩ := ruleNamed_some h1
    rw [h2] at h3
    cases h3
    have hm := List.mem_of_getElem? h2
    dsimp only at h
    cases hk : d.head.isMacro with
    | true =>
      rw [hk, if_pos rfl] at h
      by_cases hg : (u.mac && decide (u.args = d.head.params.length)) = true
      · rw [if_pos hg] at h; cases h
      · rw [if_neg hg] at h
        cases h
        refine ⟨u, d, rfl, hu, hm, h4, hk, ?_⟩
        rw [Bool.not_eq_true, Bool.and_eq_false_iff, decide_eq_false_iff_not] at hg
        exact hg
    | false =>
      rw [hk, if_neg Bool.false_ne_true] at h
      by_cases hg : u.mac = true
      · rw [if_pos hg] at h
        cases h
        exact ⟨u, d, rfl, hu, hm, h4, hk, hg⟩
      · rw [if_neg hg] at h; cases h

theorem mem_warnings {ds : List SDef} {order : List Nat} {start : List Byte} {m : LoadMsg} : m ∈ warnings ds order start ↔
    ∃ r ∈ order, ∃ d, ds[r]? = some d ∧ d.head.name ∉ referenced ds order start ∧ m = .unreferenced d.head.name := by
  unfold warnings
  rw [List.mem_filterMap]
  constructor
  · rintro ⟨r, h1, h2⟩
    obtain ⟨d, h3, h4⟩ := Option.bind_eq_some_iff.1 h2
    by_cases hn : d.head.name ∈ referenced ds order start
    · rw [if_pos hn] at h4; cases h4
    · rw [if_neg hn] at h4; cases h4; exact ⟨r, h1, d, h3, hn, rfl⟩
  · rintro ⟨r, h1, d, h3, hn, rfl⟩
    exact ⟨r, h1, by rw [h3]; exact if_neg hn⟩

theorem mem_referenced {ds : List SDef} {order : List Nat} {start nm : List Byte} : nm ∈ referenced ds order start ↔
    nm = whitespaceName ∨ nm = wordName ∨ nm = recoverName ∨ nm = start ∨
      ∃ r ∈ order, ∃ d, ds[r]? = some d ∧ ∃ u ∈ d.body.refTos ds d.head.params, (ruleNamed ds u.name).isSome = true ∧ u.name = nm := by
  unfold referenced
  rw [List.mem_append, List.mem_flatMap]
  simp only [List.mem_cons, List.not_mem_nil, or_false, or_assoc]
  refine or_congr Iff.rfl (or_congr Iff.rfl (or_congr Iff.rfl (or_congr Iff.rfl ?_)))
  constructor
  · rintro ⟨r, h1, h2⟩
    cases hd : ds[r]? with
    | none => rw [hd] at h2; cases h2
    | some d =>
      rw [hd] at h2
      obtain ⟨u, h3, h4⟩ := List.mem_map.1 h2
      rw [List.mem_filter] at h3
      exact ⟨r, h1, d, hd, u, h3.1, h3.2, h4⟩
  · rintro ⟨r, h1, d, hd, u, h2, h3, h4⟩
    refine ⟨r, h1, ?_⟩
    rw [hd]
    exact List.mem_map.2 ⟨u, List.mem_filter.2 ⟨h2, h3⟩, h4⟩

theorem usedIn_refs {ds : List SDef} {u : RefTo} (h : UsedIn ds u)
    (hc : ∀ d ∈ ds, ∀ u' ∈ d.body.refTos ds d.head.params, (ruleNamed ds u'.name).isSome = true) : ∃ d ∈ ds, u ∈ d.body.refTos ds d.head.params := by
  obtain ⟨d, h1, h2⟩ := h
  exact ⟨d, h1, refs_of_uses h2 (hc d h1)⟩

theorem warning_justified {S : Source} (mark loops : List Def → Nat → Bool) {order : List Nat} (ho : Covers order S.all.length) {a : Nat}
    (ha : S.startRule = some (some a)) {m : LoadMsg} (h : m ∈ warnings S.all order (nameOf S.all a)) : m.Justified mark loops S := by
  obtain ⟨r, -, d, h2, h3, rfl⟩ := mem_warnings.1 h
  rw [mem_referenced] at h3
  refine ⟨⟨d, List.mem_of_getElem? h2, rfl⟩, ?_, ?_, ?_⟩
  · simp only [List.mem_cons, List.not_mem_nil, or_false]
    rintro (h | h | h)
    · exact h3 (.inl h)
    · exact h3 (.inr (.inl h))
    · exact h3 (.inr (.inr (.inl h)))
  · intro r' d' h4 h5 h6
    rw [ha] at h4
    cases h4
    exact h3 (.inr (.inr (.inr (.inl (by rw [nameOf_get h5, h6])))))
  · intro hd u hu hn
    obtain ⟨d', h4, h5⟩ := usedIn_refs hu fun d' hd' u' hu' => defined_iff.1 (hd u' ⟨d', hd', uses_of_refs _ _ _ _ hu'⟩)
    obtain ⟨k, hk⟩ := List.getElem?_of_mem h4
    exact h3 (.inr (.inr (.inr (.inr ⟨k, ho k (List.getElem?_eq_some_iff.1 hk).1, d', hk, u, h5, defined_iff.1 (hd u hu), hn⟩))))

theorem nodup_names {ds : List SDef} (h : (ds.map (·.head.name)).Nodup) {r r' : Nat} {d d' : SDef} (h1 : ds[r]? = some d) (h2 : ds[r']? = some d')
    (e : d.head.name = d'.head.name) : r = r' := by
  have a1 : (ds.map (·.head.name))[r]? = some d.head.name := by rw [List.getElem?_map, h1]; rfl
  have a2 : (ds.map (·.head.name))[r']? = some d'.head.name := by rw [List.getElem?_map, h2]; rfl
  rw [← e, ← a1] at a2
  exact (List.getElem?_inj (by rw [List.length_map]; exact (List.getElem?_eq_some_iff.1 h1).1) h).1 a2.symm

/-- Every message is right. -/
theorem loadLog_justified {mark loops : List Def → Nat → Bool} {order : List Nat} {S : Source} (ho : Covers order S.all.length) {before ms : List LoadMsg}
    {x : Option (Parser × Nat)} (h : loadLog mark loops order S before = .ok (ms, x)) {m : LoadMsg} (hm : m ∈ ms) :
    m ∈ before ∨ m.Justified mark loops S := by
  cases loadLog_case h with
  | early _ h1 =>
    rcases h1 m hm with h | ⟨nm, h, rfl⟩ | ⟨h, rfl⟩
    · exact .inl h
    · right
      rcases dupNames_twice _ _ _ h with ⟨h, -⟩ | ⟨r, r', h1, h2, h3⟩
      · cases h
      · rw [List.getElem?_map] at h2 h3
        obtain ⟨d, h4, h5⟩ := Option.map_eq_some_iff.1 h2
        obtain ⟨d', h6, h7⟩ := Option.map_eq_some_iff.1 h3
        exact ⟨r, r', d, d', h1, h4, h6, h5, h7⟩
    · right
      unfold Source.startRule at h
      cases hs : S.start with
      | none => rw [hs] at h; cases h
      | some nm =>
        rw [hs] at h
        refine ⟨hs, ?_⟩
        rw [defined_iff]
        change Option.map some (ruleNamed S.all nm) = none at h
        rw [Option.map_eq_none_iff] at h
        show ¬ (ruleNamed S.all nm).isSome = true
        rw [h]
        exact Bool.false_ne_true
  | @ignored a hs hi =>
    right
    rw [List.mem_singleton.1 hm]
    cases hd : S.all[a]? with
    | none => rw [hd] at hi; cases hi
    | some d =>
      rw [hd] at hi
      exact ⟨a, d, hs, hd, (nameOf_get hd).symm, hi⟩
  | refs hs hne =>
    right
    rcases List.mem_append.1 hm with hm | hm
    · obtain ⟨r, -, h2⟩ := List.mem_flatMap.1 hm
      obtain ⟨d, h3, u, h4, h5⟩ := mem_refMsgs.1 h2
      exact error_justified mark loops ⟨d, List.mem_of_getElem? h3, uses_of_refs _ _ _ _ h4⟩ h5
    · exact warning_justified mark loops ho hs hm
  | leftRec hs _ h1 h2 h3 =>
    right
    rcases List.mem_append.1 hm with hm | hm
    · exact warning_justified mark loops ho hs hm
    · obtain ⟨r, h4, rfl, h5⟩ := h3 m hm
      exact ⟨h1, r, rfl, h5⟩
  | loop hs _ h1 =>
    right
    rcases List.mem_append.1 hm with hm | hm
    · exact warning_justified mark loops ho hs hm
    · rw [List.mem_singleton.1 hm]; exact h1
  | prec hs _ h1 =>
    right
    rcases List.mem_append.1 hm with hm | hm
    · exact warning_justified mark loops ho hs hm
    · obtain ⟨r, d, info, h1, rfl, h2, h3⟩ := precRefused_mem _ _ hm
      rw [Nat.zero_add] at h2 h3
      exact ⟨r, d, info, h1, rfl, h2, h3⟩
  | ok _ _ hs _ => exact .inr (warning_justified mark loops ho hs hm)

/-- The message is a warning. -/
def LoadMsg.isWarning : LoadMsg → Bool
  | .unreferenced _ => true
  | _ => false

theorem error_kinds {ds : List SDef} {u : RefTo} {m : LoadMsg} (h5 : u.error ds = some m) :
    m = .undefined u.name ∨ m = .arguments u.name ∨ m = .notMacro u.name := by
  unfold RefTo.error at h5
  cases hr : (ruleNamed ds u.name).bind fun r => ds[r]? with
  | none => rw [hr] at h5; cases h5; exact .inl rfl
  | some d =>
    rw [hr] at h5
    dsimp only at h5
    cases hk : d.head.isMacro with
    | true =>
      rw [hk, if_pos rfl] at h5
      by_cases hg : (u.mac && decide (u.args = d.head.params.length)) = true
      · rw [if_pos hg] at h5; cases h5
      · rw [if_neg hg] at h5; cases h5; exact .inr (.inl rfl)
    | false =>
      rw [hk, if_neg Bool.false_ne_true] at h5
      by_cases hg : u.mac = true
      · rw [if_pos hg] at h5; cases h5; exact .inr (.inr rfl)
      · rw [if_neg hg] at h5; cases h5

/-- Something other than a warning is said when the rules are refused. -/
theorem loadLog_explains {mark loops : List Def → Nat → Bool} {order : List Nat} {S : Source} {before ms : List LoadMsg} (hb : ∀ m ∈ before, m.isWarning = false)
    (h : loadLog mark loops order S before = .ok (ms, none)) : ∃ m ∈ ms, m.isWarning = false := by
  cases loadLog_case h with
  | early h1 h2 =>
    obtain ⟨m, hm⟩ := List.exists_mem_of_ne_nil _ h1
    refine ⟨m, hm, ?_⟩
    rcases h2 m hm with h | ⟨nm, -, rfl⟩ | ⟨-, rfl⟩
    · exact hb m h
    · rfl
    · rfl
  | ignored hs hi => exact ⟨_, List.mem_cons_self, rfl⟩
  | refs hs h1 =>
    obtain ⟨m, hm⟩ := List.exists_mem_of_ne_nil _ h1
    refine ⟨m, List.mem_append_left _ hm, ?_⟩
    obtain ⟨r, -, h2⟩ := List.mem_flatMap.1 hm
    obtain ⟨d, -, u, -, h5⟩ := mem_refMsgs.1 h2
    rcases error_kinds h5 with rfl | rfl | rfl <;> rfl
  | leftRec hs _ h1 h2 h3 =>
    obtain ⟨m, hm⟩ := List.exists_mem_of_ne_nil _ h2
    obtain ⟨r, -, rfl, -⟩ := h3 m hm
    exact ⟨_, List.mem_append_right _ hm, rfl⟩
  | loop hs _ h1 => exact ⟨_, List.mem_append_right _ List.mem_cons_self, rfl⟩
  | prec hs _ h1 =>
    obtain ⟨m, hm⟩ := List.exists_mem_of_ne_nil _ h1
    obtain ⟨r, d, info, -, rfl, -⟩ := precRefused_mem _ _ hm
    exact ⟨_, List.mem_append_right _ hm, rfl⟩

/-- The messages of a load that succeeds. -/
theorem loadLog_accepted {mark loops : List Def → Nat → Bool} {order : List Nat} {S : Source} (ho : Covers order S.all.length) {before ms : List LoadMsg}
    {G : Parser} {a : Nat} (h : loadLog mark loops order S before = .ok (ms, some (G, a))) (m : LoadMsg) : m ∈ ms ↔
    ∃ d ∈ S.all, m = .unreferenced d.head.name ∧ d.head.name ∉ [whitespaceName, wordName, recoverName] ∧
      (∀ d', S.all[a]? = some d' → d'.head.name ≠ d.head.name) ∧ ∀ u, UsedIn S.all u → u.name ≠ d.head.name := by
  cases loadLog_case h with
  | ok hb hn hs hr =>
    have hv : ∀ d ∈ S.all, ∀ u ∈ d.body.refTos S.all d.head.params, (ruleNamed S.all u.name).isSome = true := fun d hd u hu =>
      defined_of_error ((check_refs S.all d.head.params d.body).1 (List.all_eq_true.1 ((refsOk_iff ho).2 hr) d hd) u hu)
    constructor
    · intro hm
      obtain ⟨r, -, d, h2, -, e⟩ := mem_warnings.1 hm
      have hj := warning_justified mark loops ho hs hm
      subst e
      refine ⟨d, List.mem_of_getElem? h2, rfl, hj.2.1, fun d' hd' => hj.2.2.1 a d' hs hd', hj.2.2.2 fun u hu => ?_⟩
      obtain ⟨d', h4, h5⟩ := usedIn_refs hu hv
      exact defined_iff.2 (hv d' h4 u h5)
    · rintro ⟨d, hd, rfl, h1, h2, h3⟩
      obtain ⟨r, hr'⟩ := List.getElem?_of_mem hd
      refine mem_warnings.2 ⟨r, ho r (List.getElem?_eq_some_iff.1 hr').1, d, hr', ?_, rfl⟩
      rw [mem_referenced]
      simp only [List.mem_cons, List.not_mem_nil, or_false] at h1
      rintro (e | e | e | e | ⟨k, -, d', h4, u, h5, -, h7⟩)
      · exact h1 (.inl e)
      · exact h1 (.inr (.inl e))
      · exact h1 (.inr (.inr e))
      · have hdef : ∃ d', S.all[a]? = some d' := by
          unfold Source.startRule at hs
          cases hst : S.start with
          | some nm =>
            rw [hst] at hs
            obtain ⟨r', h6, h7⟩ := Option.map_eq_some_iff.1 hs
            cases h7
            obtain ⟨d', h8, -⟩ := ruleNamed_some h6
            exact ⟨d', h8⟩
          | none =>
            rw [hst] at hs
            obtain ⟨r', h6, h7⟩ := Option.map_eq_some_iff.1 (Option.some.inj hs)
            subst h7
            have hlt := (List.findIdx?_eq_some_iff_findIdx_eq.1 h6).1
            exact ⟨S.defs[r'], by rw [Source.all, List.getElem?_cons_succ, List.getElem?_eq_getElem hlt]⟩
        obtain ⟨d', hd'⟩ := hdef
        exact h2 d' hd' (by rw [e, nameOf_get hd'])
      · exact h3 u ⟨d', List.mem_of_getElem? h4, uses_of_refs _ _ _ _ h5⟩ h7

end Verif
