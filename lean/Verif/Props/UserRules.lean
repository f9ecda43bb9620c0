import Verif.BlobText
import Verif.Props.LoadLog
import Verif.Props.NoAlarm
/-!
# C67: rules supplied by the application

`parser::load_grammar(text, rules)`: operators made by the application, by rule name.  Specification: `target` (the rule meant by a supplied name),
`lookup` (the rule of a name), `supply` (what a supplied rule makes of the rule of the text, if there is one).
-/

namespace Verif.Meta
open Verif Out

/-- peglib.h 6227-6232: `~` at the beginning of a supplied name means: ignore the value. -/
def userName : List Byte → Bool × List Byte
  | [] => (false, [])
  | c :: nm => if c = 126 then (true, nm) else (false, c :: nm)

/-- The rule a supplied name stands for. -/
def target (u : List Byte × Src) : List Byte := (userName u.1).2

/-- peglib.h 6234-6238: the rule gets the operator, the name and the flag; everything else it has from the text stays. -/
def supply (base : Option Def) (u : List Byte × Src) : SDef :=
  { head := { base.getD { name := target u, ope := .cut } with ignoreSV := (userName u.1).1 }, body := u.2 }

/-- peglib.h 6226-6239, one round of the loop.  A new rule is put at the end (the code has a map).  Simplified: a supplied rule `%recover`
would replace the built-in macro in the code; here the load fails. -/
def addRule (ds : List SDef) (u : List Byte × Src) : List SDef :=
  if target u = [] then ds
  else if ds.any fun d => decide (d.head.name = target u) then ds.map fun d => if d.head.name = target u then supply (some d.head) u else d
  else ds ++ [supply none u]

/-- peglib.h 5700-5706: the start rule found in the text. -/
def textStart (ds : List RDef) : Option (List Byte) := (ds.find? fun d => d.name.head? ≠ some 37).map (·.name)

/-- What `load` gets. -/
def sourceWith (ds : List RDef) (us : List (List Byte × Src)) (start : Option (List Byte)) (packrat leftRec : Bool) : Source :=
  { toSource ds start packrat leftRec with defs := us.foldl addRule (ds.map RDef.toSDef), start := start.or (textStart ds) }

/-- peglib.h 6176-6452 `perform_core` with supplied rules `us`, in the order of the map `rules`. -/
def loadTextWith (fuel : Nat) (metaOrder : List Nat) (mark loops : List Def → Nat → Bool) (order : List Nat) (text : List Byte) (us : List (List Byte × Src))
    (start : Option (List Byte)) (packrat leftRec : Bool) : Out (Option (Parser × Nat)) :=
  (readText fuel metaOrder text).bind fun r =>
    match r with
    | .refused => .ok none
    | .crash _ => .ub "reading the grammar"
    | .defs ds =>
      if dupInstr ds || undefBref ds || !decide (recoverName :: ds.map (·.name)).Nodup then .ok none
      else if (start.or (textStart ds)).isNone then .ub "the start rule has no operator"
      else load mark loops order (sourceWith ds us start (packrat && ownCaps ds) leftRec)

/-! ## Specification -/

theorem eq_of_nodup_map {α β : Type} {f : α → β} : ∀ {l : List α}, (l.map f).Nodup → ∀ {x y : α}, x ∈ l → y ∈ l → f x = f y → x = y
  | z :: l, hn, x, y, hx, hy, e => by
    rw [List.map_cons, List.nodup_cons] at hn
    rcases List.mem_cons.1 hx with rfl | hx' <;> rcases List.mem_cons.1 hy with rfl | hy'
    · rfl
    · exact absurd (e ▸ List.mem_map_of_mem hy') hn.1
    · exact absurd (e ▸ List.mem_map_of_mem hx') hn.1
    · exact eq_of_nodup_map hn.2 hx' hy' e

/-- The rule of a name. -/
def lookup (ds : List SDef) (nm : List Byte) : Option SDef := ds.find? fun d => decide (d.head.name = nm)

theorem supply_name (base : Option Def) (u : List Byte × Src) (h : ∀ b, base = some b → b.name = target u) : (supply base u).head.name = target u := by
  cases base with
  | none => rfl
  | some b => exact h b rfl

theorem lookup_addRule (ds : List SDef) (u : List Byte × Src) {nm : List Byte} (hne : nm ≠ []) :
    lookup (addRule ds u) nm = if target u = nm then some (supply ((lookup ds nm).map (·.head)) u) else lookup ds nm := by
  have hl : ∀ {d : SDef} {nm}, lookup ds nm = some d → d.head.name = nm := by
    intro d nm h
    have := List.find?_some h
    simpa using this
  unfold addRule
  by_cases h0 : target u = []
  · rw [if_pos h0, if_neg (by rw [h0]; exact fun h => hne h.symm)]
  rw [if_neg h0]
  by_cases ha : (ds.any fun d => decide (d.head.name = target u)) = true
  · rw [if_pos ha]
    unfold lookup
    rw [List.find?_map]
    have hp : ((fun d : SDef => decide (d.head.name = nm)) ∘ fun d => if d.head.name = target u then supply (some d.head) u else d) =
        fun d : SDef => decide (d.head.name = nm) := by
      funext d
      by_cases h : d.head.name = target u
      · simp only [Function.comp, if_pos h]; rfl
      · simp only [Function.comp, if_neg h]
    rw [hp]
    cases hf : ds.find? fun d => decide (d.head.name = nm) with
    | none =>
      by_cases hn : target u = nm
      · exfalso
        rw [List.any_eq_true] at ha
        obtain ⟨d, hd, e⟩ := ha
        have := List.find?_eq_none.1 hf d hd
        rw [hn] at e
        exact this e
      · rw [if_neg hn]; rfl
    | some d =>
      have hd : d.head.name = nm := hl hf
      by_cases hn : target u = nm
      · rw [if_pos hn, Option.map_some, if_pos (by rw [hd, hn])]; rfl
      · rw [if_neg hn, Option.map_some, if_neg (by rw [hd]; exact fun h => hn h.symm)]
  · rw [if_neg ha]
    have ha' : ∀ d ∈ ds, d.head.name ≠ target u := by
      intro d hd e
      exact ha (List.any_eq_true.2 ⟨d, hd, by simpa using e⟩)
    unfold lookup
    rw [List.find?_append]
    by_cases hn : target u = nm
    · have : ds.find? (fun d => decide (d.head.name = nm)) = none := by
        rw [List.find?_eq_none]
        intro d hd
        rw [← hn]
        simpa using ha' d hd
      rw [this, if_pos hn, Option.none_or, List.find?_cons_of_pos (by rw [← hn]; exact decide_eq_true rfl)]
      rfl
    · rw [if_neg hn, List.find?_cons_of_neg (by
        have : ¬ (supply none u).head.name = nm := hn
        simpa using this), List.find?_nil, Option.or_none]

/-- **Each name has the supplied rule, if there is one, otherwise that of the text.** -/
theorem lookup_addRules : ∀ (us : List (List Byte × Src)) (ds : List SDef), (us.map target).Nodup → ∀ {nm : List Byte}, nm ≠ [] →
    lookup (us.foldl addRule ds) nm = match us.find? fun u => decide (target u = nm) with
      | some u => some (supply ((lookup ds nm).map (·.head)) u)
      | none => lookup ds nm
  | [], _, _, _, _ => rfl
  | u :: us, ds, hn, nm, hne => by
    rw [List.map_cons, List.nodup_cons] at hn
    rw [List.foldl_cons, lookup_addRules us (addRule ds u) hn.2 hne, lookup_addRule ds u hne]
    by_cases h : target u = nm
    · have : us.find? (fun u => decide (target u = nm)) = none := by
        rw [List.find?_eq_none]
        intro v hv
        have : target v ≠ nm := fun e => hn.1 (by rw [h, ← e]; exact List.mem_map_of_mem hv)
        simpa using this
      rw [this, List.find?_cons_of_pos (by simpa using h), if_pos h]
    · rw [List.find?_cons_of_neg (by simpa using h), if_neg h]

/-- The rules come from the text or are supplied. -/
theorem mem_addRules {d : SDef} : ∀ (us : List (List Byte × Src)) (ds : List SDef), d ∈ us.foldl addRule ds →
    d ∈ ds ∨ (∃ u ∈ us, d.body = u.2) ∧ ((d.head.isMacro = false ∧ d.head.params = []) ∨
      ∃ e ∈ ds, d.head.isMacro = e.head.isMacro ∧ d.head.params = e.head.params)
  | [], _, h => .inl h
  | u :: us, ds, h => by
    have step : ∀ {e : SDef}, e ∈ addRule ds u → e ∈ ds ∨ e.body = u.2 ∧ ((e.head.isMacro = false ∧ e.head.params = []) ∨
        ∃ f ∈ ds, e.head.isMacro = f.head.isMacro ∧ e.head.params = f.head.params) := by
      intro e he
      unfold addRule at he
      by_cases h0 : target u = []
      · rw [if_pos h0] at he; exact .inl he
      rw [if_neg h0] at he
      by_cases ha : (ds.any fun d => decide (d.head.name = target u)) = true
      · rw [if_pos ha] at he
        obtain ⟨f, hf, e1⟩ := List.mem_map.1 he
        by_cases hn : f.head.name = target u
        · rw [if_pos hn] at e1; subst e1; exact .inr ⟨rfl, .inr ⟨f, hf, rfl, rfl⟩⟩
        · rw [if_neg hn] at e1; subst e1; exact .inl hf
      · rw [if_neg ha] at he
        rcases List.mem_append.1 he with he | he
        · exact .inl he
        · rw [List.mem_singleton] at he; subst he; exact .inr ⟨rfl, .inl ⟨rfl, rfl⟩⟩
    rcases mem_addRules us (addRule ds u) h with h1 | ⟨⟨v, hv, hb⟩, h2⟩
    · rcases step h1 with h3 | ⟨h3, h4⟩
      · exact .inl h3
      · exact .inr ⟨⟨u, List.mem_cons_self .., h3⟩, h4⟩
    · refine .inr ⟨⟨v, List.mem_cons_of_mem _ hv, hb⟩, ?_⟩
      rcases h2 with h2 | ⟨e, he, k1, k2⟩
      · exact .inl h2
      · rcases step he with h3 | ⟨-, h4⟩
        · exact .inr ⟨e, h3, k1, k2⟩
        · rcases h4 with h4 | ⟨f, hf, q1, q2⟩
          · exact .inl ⟨k1.trans h4.1, k2.trans h4.2⟩
          · exact .inr ⟨f, hf, k1.trans q1, k2.trans q2⟩

theorem sourceWith_wf {ds : List RDef} (h : ∀ d ∈ ds, GoodDef d) (hp : ∀ d ∈ ds, ∀ ps, d.params = some ps → recoverName ∉ ps)
    {us : List (List Byte × Src)} (hu : ∀ u ∈ us, u.2.recovs = true) (start : Option (List Byte)) (packrat leftRec : Bool) :
    (sourceWith ds us start packrat leftRec).Wf := by
  have hw := toSource_wf h hp start packrat leftRec
  refine ⟨?_, ?_, ?_⟩
  · intro d hd
    rcases mem_addRules us _ hd with h1 | ⟨⟨u, h1, h2⟩, -⟩
    · exact hw.recovs d h1
    · rw [h2]; exact hu u h1
  · intro d hd
    rcases mem_addRules us _ hd with h1 | ⟨-, ⟨-, h1⟩ | ⟨e, h1, -, h2⟩⟩
    · exact hw.names d h1
    · rw [h1]; simp
    · rw [h2]; exact hw.names e h1
  · intro d hd hm
    rcases mem_addRules us _ hd with h1 | ⟨-, ⟨-, h1⟩ | ⟨e, h1, h2, h3⟩⟩
    · exact hw.plain d h1 hm
    · exact h1
    · rw [h3]; exact hw.plain e h1 (h2 ▸ hm)

end Verif.Meta

namespace Verif.Props
open Verif Meta

theorem loadTextWith_inv {text : List Byte} {m : Nat} {metaOrder : List Nat} {mark loops : List Def → Nat → Bool} {order : List Nat} {us : List (List Byte × Src)}
    {start : Option (List Byte)} {packrat leftRec : Bool} {G : Parser} {a : Nat} (ht : Text text)
    (h : loadTextWith m metaOrder mark loops order text us start packrat leftRec = .ok (some (G, a))) :
    ∃ ds, ReadsAs text (.defs ds) ∧ (recoverName :: ds.map (·.name)).Nodup ∧
      load mark loops order (sourceWith ds us start (packrat && ownCaps ds) leftRec) = .ok (some (G, a)) := by
  unfold loadTextWith at h
  cases hr : readText m metaOrder text with
  | ub s => rw [hr] at h; cases h
  | oof => rw [hr] at h; cases h
  | ok r =>
    rw [hr] at h
    simp only [Out.bind] at h
    obtain ⟨r', h', -⟩ := C52_reading_ends text ht
    have e : r = r' := by
      obtain ⟨n, hn⟩ := h' metaOrder
      have h1 := hn (max n m) (Nat.le_max_left _ _)
      unfold readText at h1 hr
      rcases parseCore_le (Nat.le_max_right n m) (metaCfg metaOrder text) rGrammar true {} with h | h
      · rw [h] at hr; cases hr
      · rw [← h, hr] at h1; cases h1; rfl
    subst e
    cases r with
    | refused => cases h
    | crash b => cases h
    | defs ds =>
      simp only at h
      by_cases hd : (dupInstr ds || undefBref ds || !decide (recoverName :: ds.map (·.name)).Nodup) = true
      · rw [if_pos hd] at h; cases h
      · rw [if_neg hd] at h
        by_cases hs : (start.or (textStart ds)).isNone = true
        · rw [if_pos hs] at h; cases h
        · rw [if_neg hs] at h
          refine ⟨ds, h', ?_, h⟩
          simp only [Bool.or_eq_true, Bool.not_eq_true', decide_eq_false_iff_not, not_or, Decidable.not_not] at hd
          exact hd.2

/-- **C67** A supplied name stands for the rule of that name; with `~` in front, for the rule of the rest of the name, with its value ignored. -/
theorem C67_supplied_names (nm : List Byte) (e : Src) :
    (target (126 :: nm, e) = nm ∧ (userName (126 :: nm)).1 = true) ∧
    (nm.head? ≠ some 126 → target (nm, e) = nm ∧ (userName nm).1 = false) := by
  refine ⟨⟨rfl, rfl⟩, fun h => ?_⟩
  cases nm with
  | nil => exact ⟨rfl, rfl⟩
  | cons c nm =>
    have hc : c ≠ 126 := fun e => h (by rw [e]; rfl)
    have : userName (c :: nm) = (false, c :: nm) := if_neg hc
    exact ⟨congrArg Prod.snd this, congrArg Prod.fst this⟩

/-- **C67** The rules of a parser made of a text and supplied rules are those of the text, those supplied, and `%recover`. -/
theorem C67_rules {text : List Byte} {m : Nat} {metaOrder : List Nat} {mark loops : List Def → Nat → Bool} {order : List Nat} {us : List (List Byte × Src)}
    {start : Option (List Byte)} {packrat leftRec : Bool} {G : Parser} {a : Nat} (ht : Text text)
    (h : loadTextWith m metaOrder mark loops order text us start packrat leftRec = .ok (some (G, a)))
    {ds : List RDef} (hr : ReadsAs text (.defs ds)) (hp : ∀ d ∈ ds, ∀ ps, d.params = some ps → recoverName ∉ ps)
    (hu : ∀ u ∈ us, u.2.recovs = true) (hn : (us.map target).Nodup) {nm : List Byte} (hne : nm ≠ []) (hnr : nm ≠ recoverName) :
    (∃ d ∈ G.rules, d.name = nm) ↔ (∃ e ∈ ds, e.name = nm) ∨ ∃ u ∈ us, target u = nm := by
  obtain ⟨ds', h1, -, h2⟩ := loadTextWith_inv ht h
  cases hr.det h1
  have hlo := load_ok (sourceWith_wf (C54_read_is_regular ht h1).2 hp hu start (packrat && ownCaps ds) leftRec) h2
  have hnames := names_nodup hlo.heads
  have e1 : (∃ d ∈ G.rules, d.name = nm) ↔ (lookup (us.foldl addRule (ds.map RDef.toSDef)) nm).isSome = true := by
    unfold lookup
    rw [List.find?_isSome]
    have : (∃ d ∈ G.rules, d.name = nm) ↔ nm ∈ G.rules.map Def.name := by simp
    rw [this, hnames]
    constructor
    · intro hm
      obtain ⟨d, hd, e⟩ := List.mem_map.1 hm
      rcases List.mem_cons.1 hd with rfl | hd
      · exact absurd e.symm hnr
      · exact ⟨d, hd, by simpa using e⟩
    · rintro ⟨d, hd, e⟩
      exact List.mem_map.2 ⟨d, List.mem_cons_of_mem _ hd, by simpa using e⟩
  rw [e1, lookup_addRules us _ hn hne]
  cases hf : us.find? fun u => decide (target u = nm) with
  | some u =>
    have := List.find?_some hf
    exact ⟨fun _ => .inr ⟨u, List.mem_of_find?_eq_some hf, by simpa using this⟩, fun _ => rfl⟩
  | none =>
    have hno : ¬ ∃ u ∈ us, target u = nm := by
      rintro ⟨u, hu, e⟩
      have := List.find?_eq_none.1 hf u hu
      exact this (by simpa using e)
    have : (lookup (ds.map RDef.toSDef) nm).isSome = true ↔ ∃ e ∈ ds, e.name = nm := by
      unfold lookup
      rw [List.find?_isSome]
      constructor
      · rintro ⟨d, hd, e⟩
        obtain ⟨r, hr, rfl⟩ := List.mem_map.1 hd
        exact ⟨r, hr, by rw [(toSDef_head r).2.2.1] at e; simpa using e⟩
      · rintro ⟨r, hr, e⟩
        exact ⟨r.toSDef, List.mem_map_of_mem hr, by rw [(toSDef_head r).2.2.1]; simpa using e⟩
    simp only [this, hno, or_false]

/-- What the loaded rule of a name is made of. -/
theorem loaded_rule {S : Source} (hw : S.Wf) {mark loops : List Def → Nat → Bool} {order : List Nat} {G : Parser} {a : Nat}
    (h : load mark loops order S = .ok (some (G, a))) {s : SDef} (hs : s ∈ S.all) :
    ∃ (r : Nat) (d t : Def), G.rules[r]? = some d ∧ S.all[r]? = some s ∧ Draft G.rules s S.all t ∧
      ((S.prec r = none ∧ d.plain = t.plain) ∨ ∃ i t', S.prec r = some i ∧ applyPrec r i t = some t' ∧ d.plain = t'.plain) := by
  obtain ⟨-, -, -, -, rs, hp, hrs, -, -, -⟩ := load_inv h
  have hpl : PlainOf rs G.rules := by rw [hrs]; exact setupAll_plain rs order
  obtain ⟨r, hr⟩ := List.getElem?_of_mem hs
  obtain ⟨g1, g2⟩ := precAll_get hp r
  have hlen : (S.tokened mark).length = S.all.length := by
    unfold Source.tokened Source.marked linkAll
    split <;> split <;> simp
  have hlt : r < S.all.length := (List.getElem?_eq_some_iff.1 hr).1
  obtain ⟨t, ht⟩ : ∃ t, (S.tokened mark)[r]? = some t := ⟨_, List.getElem?_eq_getElem (by omega)⟩
  obtain ⟨s', hs', hdr⟩ := tokened_draft G.rules ht
  rw [hr] at hs'
  cases hs'
  obtain ⟨d', f1, f2⟩ := g2 t ht
  have hq := hpl r
  rw [f1] at hq
  cases hd : G.rules[r]? with
  | none => rw [hd] at hq; cases hq
  | some d =>
    rw [hd] at hq
    have hq : d.plain = d'.plain := Option.some.inj hq
    refine ⟨r, d, t, hd, hr, hdr, ?_⟩
    rw [Nat.zero_add] at f2
    rcases f2 with ⟨k1, rfl⟩ | ⟨i, k1, k2⟩
    · exact .inl ⟨k1, hq⟩
    · exact .inr ⟨i, d', k1, k2, hq⟩

/-- Rules of the text stay where they are. -/
theorem addRules_name (us : List (List Byte × Src)) : ∀ (ds : List SDef) (i : Nat) (d : SDef), ds[i]? = some d →
    ∃ d', (us.foldl addRule ds)[i]? = some d' ∧ d'.head.name = d.head.name := by
  induction us with
  | nil => intro ds i d h; exact ⟨d, h, rfl⟩
  | cons u us ih =>
    intro ds i d h
    have step : ∃ d', (addRule ds u)[i]? = some d' ∧ d'.head.name = d.head.name := by
      unfold addRule
      by_cases h0 : target u = []
      · rw [if_pos h0]; exact ⟨d, h, rfl⟩
      rw [if_neg h0]
      by_cases ha : (ds.any fun d => decide (d.head.name = target u)) = true
      · rw [if_pos ha, List.getElem?_map, h]
        refine ⟨_, rfl, ?_⟩
        by_cases hn : d.head.name = target u
        · simp only [if_pos hn]; rfl
        · simp only [if_neg hn]
      · rw [if_neg ha]
        have hlt := (List.getElem?_eq_some_iff.1 h).1
        exact ⟨d, by rw [List.getElem?_append_left hlt]; exact h, rfl⟩
    obtain ⟨d1, h1, h2⟩ := step
    obtain ⟨d2, h3, h4⟩ := ih (addRule ds u) i d1 h1
    exact ⟨d2, h3, h4.trans h2⟩

/-- The supplied rule is among those that are loaded. -/
theorem supplied_mem {ds : List RDef} {us : List (List Byte × Src)} (hn : (us.map target).Nodup) {u : List Byte × Src} (hu : u ∈ us) (hne : target u ≠ [])
    (start : Option (List Byte)) (packrat leftRec : Bool) :
    supply ((lookup (ds.map RDef.toSDef) (target u)).map (·.head)) u ∈ (sourceWith ds us start packrat leftRec).all := by
  have hl := lookup_addRules us (ds.map RDef.toSDef) hn hne
  have hf : us.find? (fun v => decide (target v = target u)) = some u := by
    cases hf : us.find? (fun v => decide (target v = target u)) with
    | none =>
      have := List.find?_eq_none.1 hf u hu
      exact absurd (by simp) this
    | some v =>
      have hv := List.mem_of_find?_eq_some hf
      have he : target v = target u := by have := List.find?_some hf; simpa using this
      congr 1
      have := eq_of_nodup_map hn hv hu he
      exact this
  rw [hf] at hl
  exact List.mem_cons_of_mem _ (List.mem_of_find?_eq_some hl)

/-- **C67** A parser supplied for a rule is what the rule runs: the loaded rule's operator is exactly that parser, its value is ignored if the supplied name
begins with `~`; from the rule of the text, if there is one, only the remaining attributes are left (a macro stays a macro). -/
theorem C67_supplied_parser {text : List Byte} {m : Nat} {metaOrder : List Nat} {mark loops : List Def → Nat → Bool} {order : List Nat} {us : List (List Byte × Src)}
    {start : Option (List Byte)} {packrat leftRec : Bool} {G : Parser} {a : Nat} (ht : Text text)
    (h : loadTextWith m metaOrder mark loops order text us start packrat leftRec = .ok (some (G, a)))
    {ds : List RDef} (hr : ReadsAs text (.defs ds)) (hp : ∀ d ∈ ds, ∀ ps, d.params = some ps → recoverName ∉ ps)
    (hu : ∀ u ∈ us, u.2.recovs = true) (hn : (us.map target).Nodup) {u : List Byte × Src} (hm : u ∈ us) (hne : target u ≠ []) {id : Nat} (hb : u.2 = .usr id) :
    ∃ (r : Nat) (d : Def), G.rules[r]? = some d ∧ d.name = target u ∧ d.ope = .usr id ∧ d.ignoreSV = (userName u.1).1 ∧
      d.isMacro = ((ds.find? fun e => decide (e.name = target u)).map fun e => e.params.isSome).getD false := by
  obtain ⟨ds', h1, -, h2⟩ := loadTextWith_inv ht h
  cases hr.det h1
  have hw := sourceWith_wf (C54_read_is_regular ht h1).2 hp hu start (packrat && ownCaps ds) leftRec
  have hmem := supplied_mem (ds := ds) hn hm hne start (packrat && ownCaps ds) leftRec
  obtain ⟨r, d, t, k1, k2, k3, k4⟩ := loaded_rule hw h2 hmem
  have hto : t.ope = .usr id := by
    have hbody : (supply ((lookup (ds.map RDef.toSDef) (target u)).map (·.head)) u).body = .usr id := hb
    rcases k3.ope with e | ⟨-, e⟩
    · rw [e, hbody]; rfl
    · rw [hbody] at e; cases e
  have hname : (supply ((lookup (ds.map RDef.toSDef) (target u)).map (·.head)) u).head.name = target u := by
    refine supply_name _ u ?_
    intro b hb
    cases hl : lookup (ds.map RDef.toSDef) (target u) with
    | none => rw [hl] at hb; cases hb
    | some s => rw [hl] at hb; cases hb; have := List.find?_some hl; simpa using this
  obtain ⟨q1, q2, -, q4⟩ := k3.head
  rcases k4 with ⟨-, k4⟩ | ⟨i, t', -, k5, -⟩
  · have e1 : d.ope.plain = .usr id := by
      have := congrArg Def.ope k4
      rw [show t.plain.ope = t.ope.plain from rfl, hto] at this
      exact this
    refine ⟨r, d, k1, ?_, ?_, ?_, ?_⟩
    · exact ((congrArg Def.name k4 :).trans q4).trans hname
    · cases ho : d.ope <;> rw [ho] at e1 <;> first | exact e1 | cases e1
    · exact (congrArg Def.ignoreSV k4 :).trans q1
    · refine ((congrArg Def.isMacro k4 :).trans q2).trans ?_
      show ((((lookup (ds.map RDef.toSDef) (target u)).map (fun s : SDef => s.head)).getD ({ name := target u, ope := .cut } : Def)).isMacro) = _
      unfold lookup
      rw [List.find?_map]
      have : ((fun d : SDef => decide (d.head.name = target u)) ∘ RDef.toSDef) = fun e : RDef => decide (e.name = target u) := by
        funext e
        simp only [Function.comp, (toSDef_head e).2.2.1]
      rw [this]
      cases ds.find? fun e => decide (e.name = target u) with
      | none => rfl
      | some e => exact (toSDef_head e).1
  · unfold applyPrec at k5
    rw [hto] at k5
    cases k5

/-- **C67** A rule of the text for which nothing is supplied keeps its operator (if it has no precedence instruction). -/
theorem C67_text_rules_stay {text : List Byte} {m : Nat} {metaOrder : List Nat} {mark loops : List Def → Nat → Bool} {order : List Nat} {us : List (List Byte × Src)}
    {start : Option (List Byte)} {packrat leftRec : Bool} {G : Parser} {a : Nat} (ht : Text text)
    (h : loadTextWith m metaOrder mark loops order text us start packrat leftRec = .ok (some (G, a)))
    {ds : List RDef} (hr : ReadsAs text (.defs ds)) (hp : ∀ d ∈ ds, ∀ ps, d.params = some ps → recoverName ∉ ps)
    (hu : ∀ u ∈ us, u.2.recovs = true) (hn : (us.map target).Nodup) {e : RDef} (he : e ∈ ds) (hno : ∀ u ∈ us, target u ≠ e.name) (hne : e.name ≠ [])
    (hpi : e.precInfo = none) :
    ∃ (r : Nat) (d : Def) (names : List SDef), G.rules[r]? = some d ∧ d.name = e.name ∧ d.ignoreSV = e.ign ∧ d.params = e.params.getD [] ∧
      names.map (·.head.name) = G.rules.map Def.name ∧
      (d.ope.plain = (e.body.link names (e.params.getD [])).plain ∨ d.ope.plain = .tok (e.body.link names (e.params.getD [])).plain) := by
  obtain ⟨ds', h1, hnd, h2⟩ := loadTextWith_inv ht h
  cases hr.det h1
  have hw := sourceWith_wf (C54_read_is_regular ht h1).2 hp hu start (packrat && ownCaps ds) leftRec
  have hlk : lookup (ds.map RDef.toSDef) e.name = some e.toSDef := by
    unfold lookup
    rw [List.find?_map]
    have : ((fun d : SDef => decide (d.head.name = e.name)) ∘ RDef.toSDef) = fun f : RDef => decide (f.name = e.name) := by
      funext f
      simp only [Function.comp, (toSDef_head f).2.2.1]
    rw [this]
    cases hf : ds.find? fun f => decide (f.name = e.name) with
    | none => exact absurd (by simp) (List.find?_eq_none.1 hf e he)
    | some f =>
      have hfn : f.name = e.name := by have := List.find?_some hf; simpa using this
      rw [eq_of_nodup_map (List.nodup_cons.1 hnd).2 (List.mem_of_find?_eq_some hf) he hfn]
      rfl
  have hl := lookup_addRules us (ds.map RDef.toSDef) hn hne
  have hf : us.find? (fun v => decide (target v = e.name)) = none := by
    rw [List.find?_eq_none]
    intro v hv
    simpa using hno v hv
  rw [hf, hlk] at hl
  have hmem : e.toSDef ∈ (sourceWith ds us start (packrat && ownCaps ds) leftRec).all := List.mem_cons_of_mem _ (List.mem_of_find?_eq_some hl)
  obtain ⟨r, d, t, k1, k2, k3, k4⟩ := loaded_rule hw h2 hmem
  obtain ⟨q1, q2, q3, q4⟩ := k3.head
  rcases k4 with ⟨-, k4⟩ | ⟨i, t', k5, -, -⟩
  · have e1 : d.ope.plain = t.ope.plain := congrArg Def.ope k4
    refine ⟨r, d, (sourceWith ds us start (packrat && ownCaps ds) leftRec).all, k1, ?_, ?_, ?_, (names_nodup (load_ok hw h2).heads).symm, ?_⟩
    · exact ((congrArg Def.name k4 :).trans q4).trans (toSDef_head e).2.2.1
    · exact ((congrArg Def.ignoreSV k4 :).trans q1).trans (toSDef_head e).2.2.2
    · exact ((congrArg Def.params k4 :).trans q3).trans (toSDef_head e).2.1
    · rw [e1, ← (toSDef_head e).2.1]
      rcases k3.ope with x | ⟨x, -⟩
      · left; rw [x]; rfl
      · right; rw [x]; rfl
  · exfalso
    have : (sourceWith ds us start (packrat && ownCaps ds) leftRec).prec r = none := by
      obtain ⟨i', hi'⟩ := List.getElem?_of_mem he
      obtain ⟨e', g1, g2⟩ := addRules_name us (ds.map RDef.toSDef) i' e.toSDef (by rw [List.getElem?_map, hi']; rfl)
      have g3 : (sourceWith ds us start (packrat && ownCaps ds) leftRec).all[i' + 1]? = some e' := g1
      have hnd2 := (load_ok hw h2).nodup
      have hre : r = i' + 1 := by
        have z : ∀ (x y : Nat) (v w : SDef), x < y → (sourceWith ds us start (packrat && ownCaps ds) leftRec).all[x]? = some v →
            (sourceWith ds us start (packrat && ownCaps ds) leftRec).all[y]? = some w → v.head.name ≠ w.head.name := by
          intro x y v w hxy hv hw'
          obtain ⟨hx1, hx2⟩ := List.getElem?_eq_some_iff.1 hv
          obtain ⟨hy1, hy2⟩ := List.getElem?_eq_some_iff.1 hw'
          have := List.pairwise_iff_getElem.1 hnd2 x y (by simpa using hx1) (by simpa using hy1) hxy
          rw [List.getElem_map, List.getElem_map, hx2, hy2] at this
          exact this
        rcases Nat.lt_trichotomy r (i' + 1) with hlt | heq | hgt
        · exact absurd g2.symm (z r (i' + 1) _ _ hlt k2 g3)
        · exact heq
        · exact absurd g2 (z (i' + 1) r _ _ hgt g3 k2)
      subst hre
      show (ds[i' + 1 - 1]?).bind _ = none
      rw [Nat.add_sub_cancel, hi']
      simp [hpi]
    rw [this] at k5
    cases k5

/-- **C67** Every reference of a text resolves, to a parameter, to `%recover`, to a rule or macro of the text, or to a supplied rule. -/
theorem C67_references_resolve {text : List Byte} {m : Nat} {metaOrder : List Nat} {mark loops : List Def → Nat → Bool} {order : List Nat} {us : List (List Byte × Src)}
    {start : Option (List Byte)} {packrat leftRec : Bool} {G : Parser} {a : Nat} (ht : Text text)
    (h : loadTextWith m metaOrder mark loops order text us start packrat leftRec = .ok (some (G, a)))
    {ds : List RDef} (hr : ReadsAs text (.defs ds)) (hp : ∀ d ∈ ds, ∀ ps, d.params = some ps → recoverName ∉ ps)
    (hu : ∀ u ∈ us, u.2.recovs = true) (hn : (us.map target).Nodup) {e : RDef} (he : e ∈ ds) (hno : ∀ u ∈ us, target u ≠ e.name) (hne : e.name ≠ []) :
    ∀ x ∈ e.body.refs (e.params.getD []), x.1 ∈ e.params.getD [] ∨ ∃ d ∈ G.rules, d.name = x.1 ∧ d.isMacro = x.2.1 := by
  obtain ⟨ds', h1, hnd, h2⟩ := loadTextWith_inv ht h
  cases hr.det h1
  have hw := sourceWith_wf (C54_read_is_regular ht h1).2 hp hu start (packrat && ownCaps ds) leftRec
  have hlo := load_ok hw h2
  have hmem : e.toSDef ∈ us.foldl addRule (ds.map RDef.toSDef) := by
    have hl := lookup_addRules us (ds.map RDef.toSDef) hn hne
    have hf : us.find? (fun v => decide (target v = e.name)) = none := by
      rw [List.find?_eq_none]
      intro v hv
      simpa using hno v hv
    rw [hf] at hl
    have hlk : lookup (ds.map RDef.toSDef) e.name = some e.toSDef := by
      unfold lookup
      rw [List.find?_map]
      have : ((fun d : SDef => decide (d.head.name = e.name)) ∘ RDef.toSDef) = fun f : RDef => decide (f.name = e.name) := by
        funext f
        simp only [Function.comp, (toSDef_head f).2.2.1]
      rw [this]
      cases hf : ds.find? fun f => decide (f.name = e.name) with
      | none => exact absurd (by simp) (List.find?_eq_none.1 hf e he)
      | some f =>
        have hfn : f.name = e.name := by have := List.find?_some hf; simpa using this
        rw [eq_of_nodup_map (List.nodup_cons.1 hnd).2 (List.mem_of_find?_eq_some hf) he hfn]
        rfl
    rw [hlk] at hl
    exact List.mem_of_find?_eq_some hl
  intro x hx
  rcases C36_references_resolve_partial hw h2 e.toSDef hmem x (by rw [(toSDef_head e).2.1]; exact hx) with h3 | ⟨f, hf, h4, h5⟩
  · left; rw [(toSDef_head e).2.1] at h3; exact h3
  · right
    obtain ⟨r, hr⟩ := List.getElem?_of_mem hf
    have hh := hlo.heads r
    rw [linkAll_get hr] at hh
    cases hd : G.rules[r]? with
    | none => rw [hd] at hh; cases hh
    | some d =>
      rw [hd] at hh
      simp only [Option.map_some, Option.some.injEq, Def.head3, Prod.mk.injEq] at hh
      refine ⟨d, List.mem_of_getElem? hd, hh.1.trans h4, hh.2.1.trans ?_⟩
      show f.head.isMacro = _
      cases hk : f.head.isMacro with
      | true => rw [hk, if_pos rfl] at h5; exact h5.1.symm
      | false => rw [hk, if_neg Bool.false_ne_true] at h5; exact h5.symm

/-- **C67** Parsers of texts with supplied rules are safe under the conditions of C36 if the supplied parsers stay inside the input. -/
theorem C67_safe_partial {text : List Byte} {m : Nat} {metaOrder : List Nat} {mark loops : List Def → Nat → Bool} {order : List Nat} {us : List (List Byte × Src)}
    {start : Option (List Byte)} {packrat leftRec : Bool} {G : Parser} {a : Nat} (ht : Text text)
    (h : loadTextWith m metaOrder mark loops order text us start packrat leftRec = .ok (some (G, a)))
    {ds : List RDef} (hr : ReadsAs text (.defs ds)) (hp : ∀ d ∈ ds, ∀ ps, d.params = some ps → recoverName ∉ ps)
    (hu : ∀ u ∈ us, u.2.recovs = true) (hc : Careful true G a)
    {V : Type} (F : List Nat → Nat → List Bool) (n k : Nat) (hist : List (Call V)) (c : Call V) (ha : c.start = a) (hh : ∀ x ∈ hist, x.start = a)
    (hi : ∀ id i f dt k, (c.user id i f dt).1 = some k → i + k ≤ c.input.length) :
    NoUb c.log (Shared.parse F G n (Shared.after F G k {} hist) c).1 := by
  obtain ⟨ds', h1, -, h2⟩ := loadTextWith_inv ht h
  cases hr.det h1
  exact C36_careful_grammar_safe_partial (sourceWith_wf (C54_read_is_regular ht h1).2 hp hu start (packrat && ownCaps ds) leftRec) h2 hc F n k hist c ha hh
    (fun _ => hi)

/-- **C67** The order in which the supplied rules are listed does not matter if no two are for the same rule: every name means the same. -/
theorem C67_order {us us' : List (List Byte × Src)} (hp : us.Perm us') (hn : (us.map target).Nodup) (ds : List SDef) {nm : List Byte} (hne : nm ≠ []) :
    lookup (us.foldl addRule ds) nm = lookup (us'.foldl addRule ds) nm := by
  have hn' : (us'.map target).Nodup := (hp.map target).nodup_iff.1 hn
  rw [lookup_addRules us ds hn hne, lookup_addRules us' ds hn' hne]
  have : us.find? (fun u => decide (target u = nm)) = us'.find? (fun u => decide (target u = nm)) := by
    cases hf : us.find? (fun u => decide (target u = nm)) with
    | none =>
      refine (List.find?_eq_none.2 ?_).symm
      intro u hu
      exact List.find?_eq_none.1 hf u (hp.mem_iff.2 hu)
    | some u =>
      have hu := List.mem_of_find?_eq_some hf
      have he : target u = nm := by have := List.find?_some hf; simpa using this
      cases hf' : us'.find? (fun u => decide (target u = nm)) with
      | none => exact absurd (by simpa using he) (List.find?_eq_none.1 hf' u (hp.mem_iff.1 hu))
      | some v =>
        have hv := hp.mem_iff.2 (List.mem_of_find?_eq_some hf')
        have hev : target v = nm := by have := List.find?_some hf'; simpa using this
        rw [eq_of_nodup_map hn hu hv (he.trans hev.symm)]
  rw [this]

/-- **C67** Without supplied rules this is loading the text. -/
theorem C67_none_supplied (m : Nat) (metaOrder : List Nat) (mark loops : List Def → Nat → Bool) (order : List Nat) (text : List Byte)
    (start : Option (List Byte)) (packrat leftRec : Bool) :
    loadTextWith m metaOrder mark loops order text [] start packrat leftRec = loadText m metaOrder mark loops order text start packrat leftRec := by
  unfold loadTextWith loadText
  cases readText m metaOrder text with
  | ub s => rfl
  | oof => rfl
  | ok r =>
    simp only [Out.bind]
    cases r with
    | refused => rfl
    | crash b => rfl
    | defs ds =>
      simp only
      by_cases hd : (dupInstr ds || undefBref ds) = true
      · rw [hd]; rfl
      rw [Bool.not_eq_true] at hd
      rw [hd, Bool.false_or, if_neg (by decide : ¬ false = true)]
      have hnm : (toSource ds start (packrat && ownCaps ds) leftRec).all.map (·.head.name) = recoverName :: ds.map (·.name) := by
        show recoverDef.head.name :: (ds.map RDef.toSDef).map (·.head.name) = _
        rw [List.map_map]
        congr 1
        exact List.map_congr_left fun d _ => (toSDef_head d).2.2.1
      have hall : (sourceWith ds [] start (packrat && ownCaps ds) leftRec).all = (toSource ds start (packrat && ownCaps ds) leftRec).all := rfl
      by_cases hn : (recoverName :: ds.map (·.name)).Nodup
      · rw [decide_eq_true hn]
        simp only [Bool.not_true, Bool.false_eq_true, if_false]
        have key : ∀ (x : Option (List Byte)), x = start.or (textStart ds) → x.isNone = false →
            (sourceWith ds [] start (packrat && ownCaps ds) leftRec).startRule = (toSource ds start (packrat && ownCaps ds) leftRec).startRule := by
          intro x hx hs
          cases start with
          | some nm => rfl
          | none =>
            rw [Option.none_or] at hx
            show (match textStart ds with
              | some nm => (ruleNamed (toSource ds none (packrat && ownCaps ds) leftRec).all nm).map some
              | none => some (((ds.map RDef.toSDef).findIdx? fun d => d.head.name.head? ≠ some 37).map (· + 1))) =
              some (((ds.map RDef.toSDef).findIdx? fun d => d.head.name.head? ≠ some 37).map (· + 1))
            cases ht : textStart ds with
            | none => rfl
            | some nm =>
              unfold textStart at ht
              obtain ⟨d, hd, rfl⟩ := Option.map_eq_some_iff.1 ht
              have hh := List.find?_some hd
              rw [List.find?_eq_some_iff_getElem] at hd
              obtain ⟨h1, i, h2, h3, h4⟩ := hd
              have hne : recoverName ≠ d.name := by
                intro e
                rw [← e] at h1
                exact absurd h1 (by decide +kernel)
              have e1 : ruleNamed (toSource ds none (packrat && ownCaps ds) leftRec).all d.name = some (i + 1) := by
                unfold ruleNamed
                rw [List.findIdx?_eq_some_iff_getElem]
                refine ⟨by show i + 1 < (recoverDef :: ds.map RDef.toSDef).length; simp; omega, ?_, ?_⟩
                · show decide (((ds.map RDef.toSDef)[i]'(by simpa using h2)).head.name = d.name) = true
                  rw [List.getElem_map, (toSDef_head _).2.2.1, h3]; simp
                · intro j hj
                  cases j with
                  | zero => exact fun e => hne (of_decide_eq_true e)
                  | succ j =>
                    show ¬ decide (((ds.map RDef.toSDef)[j]'(by simp; omega)).head.name = d.name) = true
                    rw [List.getElem_map, (toSDef_head _).2.2.1]
                    intro e
                    have := h4 j (by omega)
                    have e : ds[j].name = d.name := by simpa using e
                    rw [e] at this
                    rw [h1] at this
                    cases this
              have e2 : ((ds.map RDef.toSDef).findIdx? fun d => decide (d.head.name.head? ≠ some 37)) = some i := by
                rw [List.findIdx?_eq_some_iff_getElem]
                refine ⟨by simpa using h2, ?_, ?_⟩
                · rw [List.getElem_map, (toSDef_head _).2.2.1, h3]; exact h1
                · intro j hj
                  rw [List.getElem_map, (toSDef_head _).2.2.1]
                  have := h4 j hj
                  simpa using this
              simp only [e1, e2, Option.map_some]
        by_cases hs : (start.or (textStart ds)).isNone = true
        · rw [if_pos hs]
          have hst : start = none ∧ textStart ds = none := by
            cases start with
            | some nm => cases hs
            | none => refine ⟨rfl, ?_⟩; rw [Option.none_or] at hs; simpa using hs
          obtain ⟨rfl, ht⟩ := hst
          have : (toSource ds none (packrat && ownCaps ds) leftRec).startRule = some none := by
            show some (((ds.map RDef.toSDef).findIdx? fun d => decide (d.head.name.head? ≠ some 37)).map (· + 1)) = _
            unfold textStart at ht
            rw [Option.map_eq_none_iff, List.find?_eq_none] at ht
            have : ((ds.map RDef.toSDef).findIdx? fun d => decide (d.head.name.head? ≠ some 37)) = none := by
              rw [List.findIdx?_eq_none_iff]
              intro d hd
              obtain ⟨r, hr, rfl⟩ := List.mem_map.1 hd
              rw [(toSDef_head _).2.2.1]
              simpa using ht r hr
            rw [this]; rfl
          unfold load
          rw [hnm, if_neg (by simpa using hn), this]
        · rw [if_neg hs]
          have hk := key _ rfl ((Bool.not_eq_true _).mp hs)
          unfold load
          rw [hk, hall]
          rfl
      · rw [decide_eq_false hn]
        simp only [Bool.not_false, if_true]
        unfold load
        rw [hnm, if_pos hn]

/-! ## Examples -/

/-- A list of words and a number, which the application reads. -/
def c67text : List Byte := txt "S <- A ',' N  A <- [a-z]+"

/-- Decimal digits. -/
def c67user (inp : List Byte) : Nat → Nat → Frame Unit → Option Unit → Option Nat × Frame Unit × Option Unit := fun _ i f d =>
  ((if ((inp.drop i).takeWhile fun c => 48 ≤ c && c ≤ 57).isEmpty then none else some ((inp.drop i).takeWhile fun c => 48 ≤ c && c ≤ 57).length), f, d)

def runWith (x : Out (Option (Parser × Nat))) (n : Nat) (inp : List Byte) : Option (Bool × Nat) :=
  match x with
  | .ok (some (G, a)) =>
    match (Shared.parse (fun _ _ => []) G n {} ({ start := a, input := inp, user := c67user inp } : Call Unit)).1 with
    | .ok ans => some (ans.ok, ans.res.len)
    | _ => none
  | _ => none

/-- `Careful` with supplied parsers, asked of all rules. -/
def carefulUser (G : Parser) (a : Nat) : Bool :=
  ((G.rules[a]?).map fun d => !d.isMacro).getD true && (G.word a).isNone &&
  G.rules.all fun d => d.ope.careful ⟨true, true⟩ G.rules && (!(d.isMacro && d.isLR) || d.ope.callsMacro G.rules) &&
    (!(decide (d.name = whitespaceName) || decide (d.name = wordName)) || (!d.isMacro && !d.ope.callsMacro G.rules))

theorem carefulUser_ok {G : Parser} {a : Nat} (h : carefulUser G a = true) : Careful true G a := by
  unfold carefulUser at h
  rw [Bool.and_eq_true, Bool.and_eq_true] at h
  obtain ⟨⟨h1, h3⟩, h2⟩ := h
  have key : ∀ (r : Nat) (d : Def), G.rules[r]? = some d → d.ope.careful ⟨true, true⟩ G.rules = true ∧
      (d.isMacro = true → d.isLR = true → d.ope.callsMacro G.rules = true) ∧
      (d.name = whitespaceName ∨ d.name = wordName → d.isMacro = false ∧ d.ope.callsMacro G.rules = false) := by
    intro r d hd
    have := List.all_eq_true.1 h2 d (List.mem_of_getElem? hd)
    rw [Bool.and_eq_true, Bool.and_eq_true] at this
    obtain ⟨⟨k1, k2⟩, k3⟩ := this
    refine ⟨k1, fun hm hl => ?_, fun hn => ?_⟩
    · rw [hm, hl] at k2; simpa using k2
    · have hn' : (decide (d.name = whitespaceName) || decide (d.name = wordName)) = true := by simpa using hn
      rw [hn'] at k3
      simpa using k3
  constructor
  · intro d hd
    rw [hd] at h1
    simpa using h1
  · intro r d _ hd; exact (key r d hd).1
  · intro r d _ hd; exact (key r d hd).2.1
  · intro r d hd hn; exact ⟨((key r d hd).2.2 hn).1, ((key r d hd).2.2 hn).2, (key r d hd).1⟩
  · intro _; simpa using h3

abbrev c67load : Out (Option (Parser × Nat)) :=
  loadTextWith 400 [] (fun _ _ => false) (fun _ _ => false) (List.range 4) c67text [(txt "N", .usr 0)] none false true

theorem c67_loads : (match c67load with
    | .ok (some (G, a)) => decide (G.rules.length = 4) && carefulUser G a
    | _ => false) = true := by decide +kernel

/-- It reads a number with the supplied parser, and refuses what that refuses. -/
theorem C67_sample_runs : runWith c67load 100 (txt "ab,42") = some (true, 5) ∧ (runWith c67load 100 (txt "ab,x")).map (·.1) = some false := by
  constructor <;> decide +kernel

/-- The text and the supplied rule meet the hypotheses. -/
theorem C67_sample : ∃ G a, c67load = .ok (some (G, a)) ∧ (∃ (r : Nat) (d : Def), G.rules[r]? = some d ∧ d.name = txt "N" ∧ d.ope = .usr 0 ∧ d.isMacro = false) ∧
    ∀ {V : Type} (F : List Nat → Nat → List Bool) (n k : Nat) (hist : List (Call V)) (c : Call V), c.start = a → (∀ x ∈ hist, x.start = a) →
      (∀ id i f dt k, (c.user id i f dt).1 = some k → i + k ≤ c.input.length) → NoUb c.log (Shared.parse F G n (Shared.after F G k {} hist) c).1 := by
  have hl := c67_loads
  have ht : Text c67text := text_of_isText (by decide +kernel)
  have hread : ReadsAs c67text (.defs [⟨false, txt "S", none, .seq [.ref (txt "A") false [], .lit (txt ",") false, .ref (txt "N") false []], []⟩,
      ⟨false, txt "A", none, .rep (.cls ⟨[(97, 122)], false, false⟩) 1 none, []⟩]) := readsAs_run (n := 400) (by decide +kernel)
  cases hld : c67load with
  | ub s => rw [hld] at hl; cases hl
  | oof => rw [hld] at hl; cases hl
  | ok o =>
    rw [hld] at hl
    cases o with
    | none => cases hl
    | some y =>
      obtain ⟨G, a⟩ := y
      simp only [Bool.and_eq_true, decide_eq_true_eq] at hl
      have hp : ∀ d ∈ [(⟨false, txt "S", none, .seq [.ref (txt "A") false [], .lit (txt ",") false, .ref (txt "N") false []], []⟩ : RDef),
          ⟨false, txt "A", none, .rep (.cls ⟨[(97, 122)], false, false⟩) 1 none, []⟩], ∀ ps, d.params = some ps → recoverName ∉ ps := by
        intro d hd ps hs
        simp only [List.mem_cons, List.not_mem_nil, or_false] at hd
        rcases hd with rfl | rfl <;> cases hs
      have hu : ∀ u ∈ [(txt "N", Src.usr 0)], u.2.recovs = true := by
        intro u hu
        simp only [List.mem_cons, List.not_mem_nil, or_false] at hu
        subst hu; rfl
      obtain ⟨r, d, h1, h2, h3, -, h5⟩ := C67_supplied_parser ht hld hread hp hu (by decide +kernel) (u := (txt "N", .usr 0)) (by simp)
        (by decide +kernel) rfl
      refine ⟨G, a, rfl, ⟨r, d, h1, h2.trans (by decide +kernel), h3, h5.trans (by decide +kernel)⟩, ?_⟩
      intro V F n k hist c ha hh hi
      exact C67_safe_partial ht hld hread hp hu (carefulUser_ok hl.2) F n k hist c ha hh hi

/-- A macro for which a parser is supplied stays a macro: it can be called only with arguments, which are then not used. -/
theorem C67_macro_stays_macro :
    (match loadTextWith 400 [] (fun _ _ => false) (fun _ _ => false) (List.range 3) (txt "S <- M('a')  M(x) <- x") [(txt "M", .usr 0)] none false true with
      | .ok (some (G, a)) => runWith (.ok (some (G, a))) 100 (txt "42")
      | _ => none) = some (true, 2) ∧
    refusedBy (loadTextWith 400 [] (fun _ _ => false) (fun _ _ => false) (List.range 3) (txt "S <- M  M(x) <- x") [(txt "M", .usr 0)] none false true) = true := by
  constructor <;> decide +kernel

/-- Two supplied rules for one name: the one listed last counts, and the order of the map is not specified. -/
theorem C67_counterexample_order : ∃ us us' : List (List Byte × Src), us.Perm us' ∧ (us.map (·.1)).Nodup ∧
    ∃ nm, (lookup (us.foldl addRule []) nm).map (·.head.ignoreSV) ≠ (lookup (us'.foldl addRule []) nm).map (·.head.ignoreSV) :=
  ⟨[([78], .usr 0), ([126, 78], .usr 1)], [([126, 78], .usr 1), ([78], .usr 0)], .swap .., by decide, [78], by decide⟩

end Verif.Props
