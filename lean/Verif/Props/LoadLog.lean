import Verif.LoadLog
import Verif.Props.Captures
/-!
# Properties: what loading a grammar text says (C66)

Specification: `Uses`, `UsedIn`, `Defined`, `LoadMsg.Justified` (`LoadLog.lean`), `Claims`.
-/

namespace Verif.Props
open Verif Meta Utf8

/-- peglib.h 6176-6470: `loadText` with the calls of the log callback. -/
def loadTextLog (fuel : Nat) (metaOrder : List Nat) (mark loops : List Def → Nat → Bool) (order : List Nat) (text : List Byte)
    (start : Option (List Byte)) (packrat leftRec : Bool) : Out (List LoadMsg × Option (Parser × Nat)) :=
  (readText fuel metaOrder text).bind fun r =>
    match r with
    | .refused => .ok ([.syntaxError], none)
    | .crash _ => .ub "reading the grammar"
    | .defs ds => loadLog mark loops order (toSource ds start (packrat && ownCaps ds) leftRec)
        ((if dupInstr ds then [.dupInstr] else []) ++ (if undefBref ds then [.undefBref] else []))

/-- `order` lists the rules of the text and `%recover`. -/
def MapOrder (text : List Byte) (order : List Nat) : Prop := ∀ ds, ReadsAs text (.defs ds) → ∀ r, r ∈ order ↔ r < ds.length + 1

/-- What a message claims about the text. -/
def Claims (text : List Byte) (mark loops : List Def → Nat → Bool) (start : Option (List Byte)) (packrat leftRec : Bool) : LoadMsg → Prop
  | .syntaxError => ReadsAs text .refused
  | .dupInstr => ∃ ds, ReadsAs text (.defs ds) ∧ ∃ d ∈ ds, ¬ (d.instrs.map Instr.kind).Nodup
  | .undefBref => ∃ ds, ReadsAs text (.defs ds) ∧ ∃ p x q, textEvents ds = p ++ .use x :: q ∧ ¬ Visible p x
  | m => ∃ ds, ReadsAs text (.defs ds) ∧ m.Justified mark loops (toSource ds start packrat leftRec)

theorem toSource_len (ds : List RDef) (start : Option (List Byte)) (packrat leftRec : Bool) : (toSource ds start packrat leftRec).all.length = ds.length + 1 := by
  simp [toSource, Source.all]

/-- What is read does not depend on the number of steps and the order of the map. -/
theorem readText_readsAs {text : List Byte} (ht : Text text) {m : Nat} {metaOrder : List Nat} {r : Read} (hr : readText m metaOrder text = .ok r) : ReadsAs text r := by
  obtain ⟨r', h', -⟩ := C52_reading_ends text ht
  have e : r = r' := by
    obtain ⟨n, hn⟩ := h' metaOrder
    have h1 := hn (max n m) (Nat.le_max_left _ _)
    unfold readText at h1 hr
    rcases parseCore_le (Nat.le_max_right n m) (metaCfg metaOrder text) rGrammar true {} with h | h
    · rw [h] at hr; cases hr
    · rw [← h, hr] at h1; cases h1; rfl
  subst e
  exact h'

/-- **C66** With or without a log callback, loading gives the same. -/
theorem C66_result_same {text : List Byte} (ht : Text text) {order : List Nat} (ho : MapOrder text order) (fuel : Nat) (metaOrder : List Nat)
    (mark loops : List Def → Nat → Bool) (start : Option (List Byte)) (packrat leftRec : Bool) :
    (loadTextLog fuel metaOrder mark loops order text start packrat leftRec).bind (fun x => .ok x.2) =
      loadText fuel metaOrder mark loops order text start packrat leftRec := by
  unfold loadTextLog loadText
  cases hr : readText fuel metaOrder text with
  | ub s => rfl
  | oof => rfl
  | ok r =>
    cases r with
    | refused => rfl
    | crash b => rfl
    | defs ds =>
      have h := ho ds (readText_readsAs ht hr)
      simp only [Out.bind]
      have hl := loadLog_load mark loops (order := order) (S := toSource ds start (packrat && ownCaps ds) leftRec)
        (by rw [toSource_len]; exact h) ((if dupInstr ds then [.dupInstr] else []) ++ (if undefBref ds then [.undefBref] else []))
      simp only [Out.bind] at hl
      rw [hl]
      cases dupInstr ds <;> cases undefBref ds <;> rfl

/-- The cases of a load with messages. -/
theorem loadTextLog_inv {text : List Byte} (ht : Text text) {order : List Nat} {fuel : Nat} {metaOrder : List Nat} {mark loops : List Def → Nat → Bool}
    {start : Option (List Byte)} {packrat leftRec : Bool} {ms : List LoadMsg} {x : Option (Parser × Nat)}
    (h : loadTextLog fuel metaOrder mark loops order text start packrat leftRec = .ok (ms, x)) :
    (ReadsAs text .refused ∧ ms = [.syntaxError] ∧ x = none) ∨
    ∃ ds, ReadsAs text (.defs ds) ∧ loadLog mark loops order (toSource ds start (packrat && ownCaps ds) leftRec)
        ((if dupInstr ds then [.dupInstr] else []) ++ (if undefBref ds then [.undefBref] else [])) = .ok (ms, x) := by
  unfold loadTextLog at h
  cases hr : readText fuel metaOrder text with
  | ub s => rw [hr] at h; cases h
  | oof => rw [hr] at h; cases h
  | ok r =>
    rw [hr] at h
    simp only [Out.bind] at h
    have ha := readText_readsAs ht hr
    cases r with
    | refused => cases h; exact .inl ⟨ha, rfl, rfl⟩
    | crash b => cases h
    | defs ds => exact .inr ⟨ds, ha, h⟩

/-- **C66** If a text is refused, something is said that is not a warning. -/
theorem C66_refusal_explained {text : List Byte} (ht : Text text) {order : List Nat} {fuel : Nat} {metaOrder : List Nat} {mark loops : List Def → Nat → Bool}
    {start : Option (List Byte)} {packrat leftRec : Bool} {ms : List LoadMsg}
    (h : loadTextLog fuel metaOrder mark loops order text start packrat leftRec = .ok (ms, none)) : ∃ m ∈ ms, ∀ nm, m ≠ .unreferenced nm := by
  rcases loadTextLog_inv ht h with ⟨-, rfl, -⟩ | ⟨ds, -, h1⟩
  · exact ⟨_, List.mem_cons_self, fun nm e => by cases e⟩
  · obtain ⟨m, h2, h3⟩ := loadLog_explains (by cases dupInstr ds <;> cases undefBref ds <;> simp [LoadMsg.isWarning]) h1
    exact ⟨m, h2, fun nm e => by subst e; cases h3⟩

/-- **C66** Every message is right about the text. -/
theorem C66_messages_justified {text : List Byte} (ht : Text text) {order : List Nat} (ho : MapOrder text order) {fuel : Nat} {metaOrder : List Nat}
    {mark loops : List Def → Nat → Bool} {start : Option (List Byte)} {packrat leftRec : Bool} {ms : List LoadMsg} {x : Option (Parser × Nat)}
    (h : loadTextLog fuel metaOrder mark loops order text start packrat leftRec = .ok (ms, x)) {m : LoadMsg} (hm : m ∈ ms) :
    ∃ p, Claims text mark loops start p leftRec m := by
  rcases loadTextLog_inv ht h with ⟨h1, rfl, -⟩ | ⟨ds, h1, h2⟩
  · rw [List.mem_singleton.1 hm]
    exact ⟨false, h1⟩
  · refine ⟨packrat && ownCaps ds, ?_⟩
    have hcov : Covers order (toSource ds start (packrat && ownCaps ds) leftRec).all.length := fun r hr => (ho ds h1 r).2 (by rw [toSource_len] at hr; exact hr)
    have notBefore : m ∈ (if dupInstr ds then [.dupInstr] else []) ++ (if undefBref ds then [.undefBref] else [] : List LoadMsg) →
        Claims text mark loops start (packrat && ownCaps ds) leftRec m := by
      intro h3
      rcases List.mem_append.1 h3 with h3 | h3
      · by_cases hd : dupInstr ds = true
        · rw [if_pos hd] at h3
          rw [List.mem_singleton.1 h3]
          obtain ⟨d, h4, h5⟩ := List.any_eq_true.1 hd
          exact ⟨ds, h1, d, h4, by simpa using h5⟩
        · rw [if_neg hd] at h3; cases h3
      · by_cases hd : undefBref ds = true
        · rw [if_pos hd] at h3
          rw [List.mem_singleton.1 h3]
          exact ⟨ds, h1, (undefBref_iff ds).1 hd⟩
        · rw [if_neg hd] at h3; cases h3
    rcases loadLog_justified hcov h2 hm with h3 | h3
    · exact notBefore h3
    · have plain : (∃ b : Bool, m = .syntaxError ∨ m = .dupInstr ∨ m = .undefBref) ∨ Claims text mark loops start (packrat && ownCaps ds) leftRec m := by
        cases m with
        | syntaxError => exact .inl ⟨true, .inl rfl⟩
        | dupInstr => exact .inl ⟨true, .inr (.inl rfl)⟩
        | undefBref => exact .inl ⟨true, .inr (.inr rfl)⟩
        | _ => exact .inr ⟨ds, h1, h3⟩
      rcases plain with ⟨-, hk⟩ | hk
      · apply notBefore
        cases loadLog_case h2 with
        | early _ h4 =>
          rcases h4 m hm with h5 | ⟨nm, -, rfl⟩ | ⟨-, rfl⟩
          · exact h5
          · rcases hk with hk | hk | hk <;> cases hk
          · rcases hk with hk | hk | hk <;> cases hk
        | ignored _ _ => rw [List.mem_singleton.1 hm] at hk; rcases hk with hk | hk | hk <;> cases hk
        | refs _ _ =>
          rcases List.mem_append.1 hm with hm | hm
          · obtain ⟨r, -, h2⟩ := List.mem_flatMap.1 hm
            obtain ⟨d, -, u, -, h5⟩ := mem_refMsgs.1 h2
            rcases error_kinds h5 with rfl | rfl | rfl <;> rcases hk with hk | hk | hk <;> cases hk
          · obtain ⟨r, -, d, -, -, rfl⟩ := mem_warnings.1 hm
            rcases hk with hk | hk | hk <;> cases hk
        | leftRec _ _ _ _ h4 =>
          rcases List.mem_append.1 hm with hm | hm
          · obtain ⟨r, -, d, -, -, rfl⟩ := mem_warnings.1 hm
            rcases hk with hk | hk | hk <;> cases hk
          · obtain ⟨r, -, rfl, -⟩ := h4 m hm
            rcases hk with hk | hk | hk <;> cases hk
        | loop _ _ _ =>
          rcases List.mem_append.1 hm with hm | hm
          · obtain ⟨r, -, d, -, -, rfl⟩ := mem_warnings.1 hm
            rcases hk with hk | hk | hk <;> cases hk
          · rw [List.mem_singleton.1 hm] at hk
            rcases hk with hk | hk | hk <;> cases hk
        | prec _ _ _ =>
          rcases List.mem_append.1 hm with hm | hm
          · obtain ⟨r, -, d, -, -, rfl⟩ := mem_warnings.1 hm
            rcases hk with hk | hk | hk <;> cases hk
          · obtain ⟨r, d, info, -, rfl, -⟩ := precRefused_mem _ _ hm
            rcases hk with hk | hk | hk <;> cases hk
        | ok _ _ _ _ =>
          obtain ⟨r, -, d, -, -, rfl⟩ := mem_warnings.1 hm
          rcases hk with hk | hk | hk <;> cases hk
      · exact hk

theorem usedIn_text {ds : List RDef} {u : RefTo} : UsedIn (recoverDef :: ds.map RDef.toSDef) u ↔ ∃ d ∈ ds, Uses (d.params.getD []) u d.body := by
  have e : ∀ d : RDef, d.toSDef.head.params = d.params.getD [] ∧ d.toSDef.body = d.body := fun d => ⟨(toSDef_head d).2.1, rfl⟩
  constructor
  · rintro ⟨d, hd, hu⟩
    rcases List.mem_cons.1 hd with rfl | hd
    · have hx : ∀ {e : Src}, Uses ["x".toUTF8.toList] u e → e = .ref "x".toUTF8.toList false [] → False := by
        intro e h he
        cases h with
        | ref hp _ => cases he; exact hp List.mem_cons_self
        | refArg _ hm _ => cases he; cases hm
        | _ => cases he
      exact (hx hu rfl).elim
    · obtain ⟨d0, hd0, rfl⟩ := List.mem_map.1 hd
      rw [(e d0).1] at hu
      exact ⟨d0, hd0, hu⟩
  · rintro ⟨d, hd, hu⟩
    refine ⟨d.toSDef, List.mem_cons_of_mem _ (List.mem_map_of_mem hd), ?_⟩
    rw [(e d).1]
    exact hu

/-- **C66** If a text loads, what is said is that certain rules are not referenced: exactly those that are not the start rule and not special and that no rule refers to. -/
theorem C66_warnings_exact {text : List Byte} (ht : Text text) {order : List Nat} (ho : MapOrder text order) {fuel : Nat} {metaOrder : List Nat}
    {mark loops : List Def → Nat → Bool} {start : Option (List Byte)} {packrat leftRec : Bool} {ms : List LoadMsg} {G : Parser} {a : Nat}
    (h : loadTextLog fuel metaOrder mark loops order text start packrat leftRec = .ok (ms, some (G, a))) :
    ∃ ds, ReadsAs text (.defs ds) ∧ ∀ m, m ∈ ms ↔ ∃ d ∈ ds, m = .unreferenced d.name ∧ d.name ∉ [whitespaceName, wordName, recoverName] ∧
      (∀ k d', a = k + 1 → ds[k]? = some d' → d'.name ≠ d.name) ∧
      ∀ d' ∈ ds, ∀ mac n, ¬ Uses (d'.params.getD []) ⟨d.name, mac, n⟩ d'.body := by
  rcases loadTextLog_inv ht h with ⟨-, -, h1⟩ | ⟨ds, h1, h2⟩
  · cases h1
  refine ⟨ds, h1, fun m => ?_⟩
  have hcov : Covers order (toSource ds start (packrat && ownCaps ds) leftRec).all.length := fun r hr => (ho ds h1 r).2 (by rw [toSource_len] at hr; exact hr)
  rw [loadLog_accepted hcov h2 m]
  have hall : (toSource ds start (packrat && ownCaps ds) leftRec).all = recoverDef :: ds.map RDef.toSDef := rfl
  rw [hall]
  constructor
  · rintro ⟨d, hd, rfl, h3, h4, h5⟩
    rcases List.mem_cons.1 hd with rfl | hd
    · exact absurd (show recoverDef.head.name ∈ [whitespaceName, wordName, recoverName] by simp [recoverDef]) h3
    · obtain ⟨d0, hd0, rfl⟩ := List.mem_map.1 hd
      rw [(toSDef_head d0).2.2.1] at h3 h4 h5 ⊢
      refine ⟨d0, hd0, rfl, h3, fun k d' e hk => ?_, fun d' hd' mac n hu => ?_⟩
      · have := h4 d'.toSDef (by rw [e, List.getElem?_cons_succ, List.getElem?_map, hk]; rfl)
        rw [(toSDef_head d').2.2.1] at this
        exact this
      · exact h5 _ (usedIn_text.2 ⟨d', hd', hu⟩) rfl
  · rintro ⟨d, hd, rfl, h3, h4, h5⟩
    refine ⟨d.toSDef, List.mem_cons_of_mem _ (List.mem_map_of_mem hd), ?_⟩
    rw [(toSDef_head d).2.2.1]
    refine ⟨rfl, h3, fun d' hd' => ?_, fun u hu e => ?_⟩
    · cases a with
      | zero =>
        rw [List.getElem?_cons_zero] at hd'
        cases hd'
        intro e
        exact h3 (by rw [← e]; simp [recoverDef])
      | succ k =>
        rw [List.getElem?_cons_succ, List.getElem?_map] at hd'
        obtain ⟨d0, h6, rfl⟩ := Option.map_eq_some_iff.1 hd'
        rw [(toSDef_head d0).2.2.1]
        exact h4 k d0 rfl h6
    · obtain ⟨d', h6, h7⟩ := usedIn_text.1 hu
      obtain ⟨nm, mac, n⟩ := u
      cases e
      exact h5 d' h6 mac n h7

theorem readsAs_unique {text : List Byte} {r r' : Read} (h : ReadsAs text r) (h' : ReadsAs text r') : r = r' := by
  obtain ⟨n, hn⟩ := h []
  obtain ⟨n', hn'⟩ := h' []
  have h1 := hn (max n n') (Nat.le_max_left _ _)
  rw [hn' (max n n') (Nat.le_max_right _ _)] at h1
  cases h1
  rfl

/-- How far a load gets: it is refused early, it is refused for its references, or there is nothing wrong with these. -/
theorem loadLog_stage {mark loops : List Def → Nat → Bool} {order : List Nat} {ds : List RDef} {S : Source} {ms : List LoadMsg} {x : Option (Parser × Nat)}
    (h : loadLog mark loops order S ((if dupInstr ds then [.dupInstr] else []) ++ (if undefBref ds then [.undefBref] else [])) = .ok (ms, x)) :
    (x = none ∧ ∃ m ∈ ms, (∃ nm, m = .undefined nm) ∨ (∃ nm, m = .dupDef nm) ∨ m = .dupInstr ∨ m = .undefBref ∨ (∃ nm, m = .noStart nm) ∨
      ∃ nm, m = .ignoredStart nm) ∨
    (x = none ∧ ∀ m ∈ order.flatMap (refMsgs S.all), m ∈ ms) ∨ order.flatMap (refMsgs S.all) = [] := by
  cases loadLog_case h with
  | early h1 h2 =>
    left
    obtain ⟨m, hm⟩ := List.exists_mem_of_ne_nil _ h1
    refine ⟨rfl, m, hm, ?_⟩
    rcases h2 m hm with hm | ⟨nm, -, e⟩ | ⟨-, e⟩
    · rcases List.mem_append.1 hm with hm | hm
      · by_cases hd : dupInstr ds = true
        · rw [if_pos hd] at hm; exact .inr (.inr (.inl (List.mem_singleton.1 hm)))
        · rw [if_neg hd] at hm; cases hm
      · by_cases hd : undefBref ds = true
        · rw [if_pos hd] at hm; exact .inr (.inr (.inr (.inl (List.mem_singleton.1 hm))))
        · rw [if_neg hd] at hm; cases hm
    · exact .inr (.inl ⟨nm, e⟩)
    · exact .inr (.inr (.inr (.inr (.inl ⟨_, e⟩))))
  | ignored _ _ => exact .inl ⟨rfl, _, List.mem_cons_self, .inr (.inr (.inr (.inr (.inr ⟨_, rfl⟩))))⟩
  | refs _ _ => exact .inr (.inl ⟨rfl, fun m hm => List.mem_append_left _ hm⟩)
  | leftRec _ hr _ _ _ => exact .inr (.inr hr)
  | loop _ hr _ => exact .inr (.inr hr)
  | prec _ hr _ => exact .inr (.inr hr)
  | ok _ _ _ hr => exact .inr (.inr hr)

/-- **C66** If some rule refers to a name that is not defined, the messages say that some name is not defined, unless the text is refused before for other reasons. -/
theorem C66_undefined_reported {text : List Byte} (ht : Text text) {order : List Nat} (ho : MapOrder text order) {fuel : Nat} {metaOrder : List Nat}
    {mark loops : List Def → Nat → Bool} {start : Option (List Byte)} {packrat leftRec : Bool} {ms : List LoadMsg} {x : Option (Parser × Nat)} {ds : List RDef}
    (hr : ReadsAs text (.defs ds)) {d : RDef} (hd : d ∈ ds) {u : RefTo} (hu : Uses (d.params.getD []) u d.body)
    (hn : ∀ d' ∈ ds, d'.name ≠ u.name) (hne : u.name ≠ recoverName)
    (h : loadTextLog fuel metaOrder mark loops order text start packrat leftRec = .ok (ms, x)) :
    x = none ∧ ∃ m ∈ ms, (∃ nm, m = .undefined nm) ∨ (∃ nm, m = .dupDef nm) ∨ m = .dupInstr ∨ m = .undefBref ∨ (∃ nm, m = .noStart nm) ∨
      ∃ nm, m = .ignoredStart nm := by
  rcases loadTextLog_inv ht h with ⟨h1, -, -⟩ | ⟨ds', h1, h2⟩
  · cases readsAs_unique h1 hr
  cases readsAs_unique h1 hr
  have hcov : Covers order (toSource ds start (packrat && ownCaps ds) leftRec).all.length := fun r hr' => (ho ds h1 r).2 (by rw [toSource_len] at hr'; exact hr')
  have hall : (toSource ds start (packrat && ownCaps ds) leftRec).all = recoverDef :: ds.map RDef.toSDef := rfl
  have hund : ¬ Defined (toSource ds start (packrat && ownCaps ds) leftRec).all u.name := by
    rintro ⟨d', h3, h4⟩
    rw [hall] at h3
    rcases List.mem_cons.1 h3 with rfl | h3
    · exact hne h4.symm
    · obtain ⟨d0, hd0, rfl⟩ := List.mem_map.1 h3
      rw [(toSDef_head d0).2.2.1] at h4
      exact hn d0 hd0 h4
  have huse : UsedIn (toSource ds start (packrat && ownCaps ds) leftRec).all u := usedIn_text.2 ⟨d, hd, hu⟩
  -- some reference that is looked at is not defined
  have hsome : ∃ nm, LoadMsg.undefined nm ∈ order.flatMap (refMsgs (toSource ds start (packrat && ownCaps ds) leftRec).all) := by
    refine Classical.byContradiction fun hno => ?_
    have hv : ∀ d' ∈ (toSource ds start (packrat && ownCaps ds) leftRec).all,
        ∀ u' ∈ d'.body.refTos (toSource ds start (packrat && ownCaps ds) leftRec).all d'.head.params,
          (ruleNamed (toSource ds start (packrat && ownCaps ds) leftRec).all u'.name).isSome = true := by
      intro d' hd' u' hu'
      cases hs : ruleNamed (toSource ds start (packrat && ownCaps ds) leftRec).all u'.name with
      | some r => rfl
      | none =>
        obtain ⟨k, hk⟩ := List.getElem?_of_mem hd'
        refine absurd ⟨u'.name, List.mem_flatMap.2 ⟨k, hcov k (List.getElem?_eq_some_iff.1 hk).1, mem_refMsgs.2 ⟨d', hk, u', hu', ?_⟩⟩⟩ hno
        unfold RefTo.error
        rw [hs]
        rfl
    obtain ⟨d', h3, h4⟩ := usedIn_refs huse hv
    exact hund (defined_iff.2 (hv d' h3 u h4))
  obtain ⟨nm, hnm⟩ := hsome
  have hnn : order.flatMap (refMsgs (toSource ds start (packrat && ownCaps ds) leftRec).all) ≠ [] := by
    intro e; rw [e] at hnm; cases hnm
  rcases loadLog_stage h2 with ⟨h3, m, h4, h5⟩ | ⟨h3, h4⟩ | h3
  · exact ⟨h3, m, h4, h5⟩
  · exact ⟨h3, _, h4 _ hnm, .inl ⟨nm, rfl⟩⟩
  · exact absurd h3 hnn

/-! ## Examples and counterexamples -/

/-- Messages and whether there is a parser. -/
def logIs (x : Out (List LoadMsg × Option (Parser × Nat))) (ms : List LoadMsg) (b : Bool) : Bool :=
  match x with | .ok (ms', r) => decide (ms' = ms) && (r.isSome == b) | _ => false

theorem logIs_none {x : Out (List LoadMsg × Option (Parser × Nat))} {ms : List LoadMsg} (h : logIs x ms false = true) : x = .ok (ms, none) := by
  unfold logIs at h
  rcases x with ⟨ms', _ | r⟩ | _ | _
  · simp at h; rw [h]
  · simp at h
  · cases h
  · cases h

theorem logIs_some {x : Out (List LoadMsg × Option (Parser × Nat))} {ms : List LoadMsg} (h : logIs x ms true = true) : ∃ G a, x = .ok (ms, some (G, a)) := by
  unfold logIs at h
  rcases x with ⟨ms', _ | ⟨G, a⟩⟩ | _ | _
  · simp at h
  · simp at h; exact ⟨G, a, by rw [h]⟩
  · cases h
  · cases h

theorem mapOrder_of {s : String} {n : Nat} {ds : List RDef} (h : readIs (readText n [] (txt s)) (.defs ds) = true) : MapOrder (txt s) (List.range (ds.length + 1)) := by
  intro ds' h' r
  have e := readsAs_unique h' (readsAs_run (n := n) h)
  injection e with e
  rw [e]
  exact List.mem_range

/-- A rule that is not used, and one that only uses itself. -/
abbrev c66text : List Byte := txt "S <- A+  A <- 'a'  B <- 'b' A  C <- 'c' C?"
def c66defs : List RDef :=
  [⟨false, txt "S", none, .rep (.ref (txt "A") false []) 1 none, []⟩, ⟨false, txt "A", none, .lit (txt "a") false, []⟩,
   ⟨false, txt "B", none, .seq [.lit (txt "b") false, .ref (txt "A") false []], []⟩,
   ⟨false, txt "C", none, .seq [.lit (txt "c") false, .rep (.ref (txt "C") false []) 0 (some 1)], []⟩]

theorem c66_reads : readIs (readText 400 [] c66text) (.defs c66defs) = true := by decide +kernel

/-- The hypotheses of `C66_result_same`, `C66_messages_justified`, `C66_warnings_exact`: the text loads with one warning. -/
theorem C66_sample_warning : Text c66text ∧ MapOrder c66text (List.range 5) ∧
    ∃ G a, loadTextLog 400 [] (fun _ _ => false) (fun _ _ => false) (List.range 5) c66text none false true = .ok ([.unreferenced (txt "B")], some (G, a)) :=
  ⟨enc_text (str_scalar _), mapOrder_of c66_reads, logIs_some (by decide +kernel)⟩

/-- `A` is used, as an argument of something that is not defined. -/
abbrev c66text2 : List Byte := txt "S <- M(A)  A <- 'a'"
def c66defs2 : List RDef :=
  [⟨false, txt "S", none, .ref (txt "M") true [.ref (txt "A") false []], []⟩, ⟨false, txt "A", none, .lit (txt "a") false, []⟩]

theorem c66_reads2 : readIs (readText 400 [] c66text2) (.defs c66defs2) = true := by decide +kernel

/-- **C66** Counterexample: the library says that `A` is not referenced, but it is.  Also the hypotheses of `C66_refusal_explained` and `C66_undefined_reported`. -/
theorem C66_counterexample_false_warning : Text c66text2 ∧ MapOrder c66text2 (List.range 3) ∧ ReadsAs c66text2 (.defs c66defs2) ∧
    loadTextLog 400 [] (fun _ _ => false) (fun _ _ => false) (List.range 3) c66text2 none false true = .ok ([.undefined (txt "M"), .unreferenced (txt "A")], none) ∧
    (∃ d ∈ c66defs2, Uses (d.params.getD []) ⟨txt "A", false, 0⟩ d.body) ∧
    (∃ d ∈ c66defs2, Uses (d.params.getD []) ⟨txt "M", true, 1⟩ d.body) := by
  refine ⟨enc_text (str_scalar _), mapOrder_of c66_reads2, readsAs_run c66_reads2, logIs_none (by decide +kernel), ?_, ?_⟩
  · exact ⟨_, List.mem_cons_self, .refArg (by simp) List.mem_cons_self (.ref (by simp) rfl)⟩
  · exact ⟨_, List.mem_cons_self, .ref (by simp) rfl⟩

/-- Two definitions of a rule and a start rule that does not exist: both are said. -/
example : logIs (loadTextLog 400 [] (fun _ _ => false) (fun _ _ => false) (List.range 3) (txt "A <- 'a'  A <- 'b'") (some (txt "S")) false true)
    [.dupDef (txt "A"), .noStart (txt "S")] false = true := by decide +kernel

end Verif.Props
