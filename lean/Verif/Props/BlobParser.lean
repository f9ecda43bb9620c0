import Verif.BlobParser
import Verif.Props.Blob
import Verif.Props.Link
/-!
# C63: the parser restored from a blob

Specification terms: `load` is loading a grammar (C36), `blobOf x G` the grammar map of the loaded parser as `serialize_grammar` sees it (`x`:
the options no parse depends on), `restore` the steps of `load_blob` after reading (linking, first sets, white space, word, packrat flag).
`Def.storable` is the set of restrictions of C40 (sizes, dictionaries, no captures); `Def.Computed` says that the two lazily computed
properties of a rule that only feed error reports and the AST are what the code computes.
-/

namespace Verif.Props
open Verif.Blob Verif.Trie

/-- C63 (what holds). Let a grammar be loaded, none of its rules exceeding the limits of blobs.  Then `serialize_grammar` succeeds;
`load_blob` accepts the bytes; and whatever the order in which the restored map is listed in memory (`g'`) and iterated (`order'`), the
restored parser *is* the parser that loading the grammar itself gives for that iteration order: same rules, flags, operators, references, first
sets, white space, word and packrat settings, so every parse of every text is the same.  In particular for `order' = order` it is the
original one.  (Missing for the full claim: captures and dictionaries with a word that is a prefix of an earlier one or, when case is
ignored, in upper case; the first two are refused or false, see `C63_captures_refused`, `C63_word_lost`.) -/
theorem C63_restored_parser_partial {mark loops : List Def → Nat → Bool} {order : List Nat} {S : Source} (hw : S.Wf) {G : Parser} {a : Nat}
    (h : load mark loops order S = .ok (some (G, a))) {d0 : Def} (ha : G.rules[a]? = some d0) (x : Nat → Extras)
    (hx : ∀ r, (x r).astName.length < 2 ^ 32) (hlen : G.rules.length < 2 ^ 32) (hs : ∀ d ∈ G.rules, d.storable = true)
    (hc : ∀ d ∈ G.rules, d.Computed G.rules) :
    ∃ blob g, serialize (blobOf x G) d0.name = some blob ∧ loadBlob blob = .ok (some (d0.name, g)) [] ∧
      ∀ (g' : List BDef), g'.Perm g → g'.map BDef.name = G.rules.map Def.name →
        restore order g' d0.name = some (G, a) ∧
        ∀ order', ∃ G', load mark loops order' S = .ok (some (G', a)) ∧ restore order' g' d0.name = some (G', a) := by
  have hlo := load_ok hw h
  have hst : ∀ d ∈ G.rules, d.ope.storable = true := by
    intro d hd
    have := hs d hd
    unfold Def.storable at this
    simp only [Bool.and_eq_true] at this
    exact this.2
  have hnodup : ((blobOf x G).map BDef.name).Nodup := by
    rw [blobOf_names, names_nodup hlo.heads]; exact hlo.nodup
  have hget : ∀ b ∈ blobOf x G, ∃ (r : Nat) (d : Def), G.rules[r]? = some d ∧ b = d.toB G.rules (G.packrat r) (x r) := by
    intro b hb
    obtain ⟨r, hr⟩ := List.mem_iff_getElem?.1 hb
    unfold blobOf at hr
    rw [List.getElem?_mapIdx] at hr
    cases hd : G.rules[r]? with
    | none => rw [hd] at hr; cases hr
    | some d => rw [hd] at hr; cases hr; exact ⟨r, d, hd, rfl⟩
  have hser : (serialize (blobOf x G) d0.name).isSome = true := by
    rw [C40_serializable_partial]
    intro b hb
    obtain ⟨r, d, hd, rfl⟩ := hget b hb
    exact storable_serial G.rules d.ope (hst d (List.mem_of_getElem? hd))
  obtain ⟨blob, hblob⟩ := Option.isSome_iff_exists.1 hser
  have hname : d0.name.length < 2 ^ 32 := by
    have := hs d0 (List.mem_of_getElem? ha)
    unfold Def.storable at this
    simp only [Bool.and_eq_true, decide_eq_true_eq] at this
    exact this.1.1.1.1
  obtain ⟨g, hg, hperm⟩ := C40_round_trip_partial (blobOf x G) d0.name blob hname (by unfold blobOf; rw [List.length_mapIdx]; exact hlen) hnodup
    (by
      intro b hb
      obtain ⟨r, d, hd, rfl⟩ := hget b hb
      have := hs d (List.mem_of_getElem? hd)
      unfold Def.storable at this
      simp only [Bool.and_eq_true, decide_eq_true_eq, List.all_eq_true] at this
      exact ⟨this.1.1.1.1, this.1.1.1.2, this.1.1.2, hx r, this.1.2, storable_fits G.rules d.ope this.2⟩)
    (by
      intro b hb
      obtain ⟨r, d, hd, rfl⟩ := hget b hb
      have hl := (hlo.linked r d hd).1
      unfold linkHitsNull
      show (hitsNull (d.ope.toB G.rules) || (match d.ope.toB G.rules with | .prec _ b _ => hitsNull b | _ => false)) = false
      rw [linked_noNull G.rules G.rules d.params d.ope hl, Bool.false_or]
      revert hl
      generalize d.ope = e
      intro hl
      cases e with
      | prec p q info r =>
        simp only [Ope.linked, Bool.and_eq_true] at hl
        exact linked_noNull G.rules G.rules d.params q hl.1.2
      | _ => rfl) hblob
  refine ⟨blob, g, hblob, hg, ?_⟩
  intro g' hp hn
  have hg' : g' = blobOf x G := listing_unique (hp.trans hperm) (hn.trans (blobOf_names x G).symm) hnodup
  subst hg'
  refine ⟨restore_blobOf hw h x hst hc ha, ?_⟩
  intro order'
  obtain ⟨G', h1, h2, h3⟩ := load_order h order'
  refine ⟨G', h1, ?_⟩
  have ha' : ∃ d1, G'.rules[a]? = some d1 ∧ d1.name = d0.name := by
    have := h2 a
    rw [ha] at this
    cases h4 : G'.rules[a]? with
    | none => rw [h4] at this; cases this
    | some d1 => rw [h4] at this; exact ⟨d1, rfl, (congrArg Def.name (Option.some.inj this) :)⟩
  obtain ⟨d1, ha1, hn1⟩ := ha'
  rw [← hn1, ← blobOf_plainOf (x := x) h2 h3]
  have back : ∀ d' ∈ G'.rules, ∃ d ∈ G.rules, d'.plain = d.plain ∧ d'.ope.toB G'.rules = d.ope.toB G.rules := by
    intro d' hd'
    obtain ⟨r, hr⟩ := List.mem_iff_getElem?.1 hd'
    have := h2 r
    rw [hr] at this
    cases h4 : G.rules[r]? with
    | none => rw [h4] at this; cases this
    | some d => exact ⟨d, List.mem_of_getElem? h4, toB_plainOf h2 h4 hr⟩
  refine restore_blobOf hw h1 x ?_ ?_ ha1
  · intro d' hd'
    obtain ⟨d, hd, e, -⟩ := back d' hd'
    have e1 : d'.ope.plain = d.ope.plain := congrArg Def.ope e
    rw [← storable_plain, e1, storable_plain]
    exact hst d hd
  · intro d' hd'
    obtain ⟨d, hd, e, e2⟩ := back d' hd'
    have hcd := hc d hd
    refine ⟨?_, ?_, ?_⟩
    · rw [e2, ← hcd.tok]; exact (congrArg Def.isToken e :)
    · rw [e2, ← hcd.lit]; exact (congrArg Def.errLit e :)
    · rw [← hcd.mac]; exact (congrArg Def.hasMacroRef e :)

/-! A grammar with most features, as the hypotheses require. -/

/-- `E <- A (O A)* { precedence L + };  A <- 'a' / LIST(['b-d']) / '(' E ')';  O <- '+';  LIST(x) <- x+ 'if'|'else';  %whitespace <- [ ]*`,
with error message and the lazily computed properties of the rules. -/
def c63Src : Source where
  defs := [c36d "E" (.seq [c36r "A", .rep (.seq [c36r "O", c36r "A"]) 0 none]),
    { c36d "A" (.cho [c36l "a", .ref (c36b "LIST") true [.cls ⟨[(98, 100)], false, false⟩], .seq [c36l "(", c36r "E", c36l ")"]] false) with
      head := { name := c36b "A", ope := .cut, errorMessage := c36b "no atom" } },
    { c36d "O" (c36l "+") with head := { name := c36b "O", ope := .cut, isToken := true, errLit := some (c36b "+") } },
    { head := { name := c36b "LIST", ope := .cut, isMacro := true, params := [c36b "x"] },
      body := .seq [.rep (c36r "x") 1 none, .dict [c36b "if", c36b "else"] false] },
    { c36d "%whitespace" (.rep (.cls ⟨[(32, 32)], false, false⟩) 0 none) with
      head := { name := c36b "%whitespace", ope := .cut, isToken := true } }]
  prec := fun k => if k = 1 then some [(c36b "+", 1, 76)] else none
  packrat := true

def c63Loaded : Option (Parser × Nat) :=
  match load (fun _ _ => false) (fun _ _ => false) (List.range 6) c63Src with
  | .ok (some x) => some x
  | _ => none

/-- It loads; the precedence operator, the first sets, the tokens are in place. -/
theorem c63_loads : (c63Loaded.map fun x => (x.2, x.1.rules.all fun d => d.storable && (d.isToken == tokB (d.ope.toB x.1.rules)) &&
      (d.errLit == litB (d.ope.toB x.1.rules)) && !d.hasMacroRef)) = some (1, true) := by decide +kernel

/-- It is stored, and every listing and iteration order gives the original parser. -/
theorem C63_sample : ∃ G d0 blob g, load (fun _ _ => false) (fun _ _ => false) (List.range 6) c63Src = .ok (some (G, 1)) ∧
    G.rules[1]? = some d0 ∧ G.rules.length = 6 ∧ serialize (blobOf (fun _ => {}) G) d0.name = some blob ∧
    loadBlob blob = .ok (some (d0.name, g)) [] ∧
    ∀ (g' : List BDef), g'.Perm g → g'.map BDef.name = G.rules.map Def.name → restore (List.range 6) g' d0.name = some (G, 1) := by
  have hl := c63_loads
  unfold c63Loaded at hl
  cases hld : load (fun _ _ => false) (fun _ _ => false) (List.range 6) c63Src with
  | ub s => rw [hld] at hl; cases hl
  | oof => rw [hld] at hl; cases hl
  | ok o =>
    rw [hld] at hl
    cases o with
    | none => cases hl
    | some y =>
      obtain ⟨G, a⟩ := y
      have hl := Option.some.inj hl
      have ha : a = 1 := congrArg Prod.fst hl
      have hall := congrArg Prod.snd hl
      subst ha
      simp only [List.all_eq_true, Bool.and_eq_true, beq_iff_eq, Bool.not_eq_true'] at hall
      have hw : c63Src.Wf := ⟨by decide, by decide +kernel, by decide +kernel⟩
      have hlo := load_ok hw hld
      have hlen : G.rules.length = 6 := by
        rw [hlo.heads.length]
        unfold linkAll
        rw [List.length_map]
        rfl
      obtain ⟨d0, hd0⟩ : ∃ d0, G.rules[1]? = some d0 := ⟨_, List.getElem?_eq_getElem (by omega)⟩
      obtain ⟨blob, g, h1, h2, h3⟩ := C63_restored_parser_partial hw hld hd0 (fun _ => {}) (fun _ => by decide) (by omega)
        (fun d hd => (hall d hd).1.1.1) (fun d hd => ⟨(hall d hd).1.1.2, (hall d hd).1.2, (hall d hd).2⟩)
      exact ⟨G, d0, blob, g, rfl, hd0, hlen, h1, h2, fun g' hp hn => (h3 g' hp hn).1⟩

/-! ## What is lost -/

mutual
/-- The operator contains a capture (or a user-defined operator, or a link to a rule object). -/
def _root_.Verif.Ope.hasCap : Ope → Bool
  | .seq es _ => Ope.hasCapL es
  | .cho es _ _ => Ope.hasCapL es
  | .rep e _ _ _ => e.hasCap
  | .and_ e => e.hasCap
  | .not_ e => e.hasCap
  | .capScope e => e.hasCap
  | .cap _ _ => true
  | .tok e => e.hasCap
  | .ign e => e.hasCap
  | .usr _ => true
  | .weak _ => true
  | .ref _ _ as => Ope.hasCapL as
  | .ws e => e.hasCap
  | .prec a b _ _ => a.hasCap || b.hasCap
  | .recov _ _ as => Ope.hasCapL as
  | _ => false

def _root_.Verif.Ope.hasCapL : List Ope → Bool
  | [] => false
  | e :: es => e.hasCap || Ope.hasCapL es
end

mutual
theorem serial_hasCap (rs : List Def) (e : Ope) : Serial (e.toB rs) = !e.hasCap := by
  cases e with
  | seq es kw => simp only [Ope.toB, Serial, Ope.hasCap, serialL_hasCap rs es]
  | cho es l fs => simp only [Ope.toB, Serial, Ope.hasCap, serialL_hasCap rs es]
  | rep e mn mx sp => simp only [Ope.toB, Serial, Ope.hasCap, serial_hasCap rs e]
  | and_ e => simp only [Ope.toB, Serial, Ope.hasCap, serial_hasCap rs e]
  | not_ e => simp only [Ope.toB, Serial, Ope.hasCap, serial_hasCap rs e]
  | capScope e => simp only [Ope.toB, Serial, Ope.hasCap, serial_hasCap rs e]
  | tok e => simp only [Ope.toB, Serial, Ope.hasCap, serial_hasCap rs e]
  | ign e => simp only [Ope.toB, Serial, Ope.hasCap, serial_hasCap rs e]
  | ws e => simp only [Ope.toB, Serial, Ope.hasCap, serial_hasCap rs e]
  | ref r nm as => simp only [Ope.toB, Serial, Ope.hasCap, serialL_hasCap rs as]
  | recov r nm as => simp only [Ope.toB, Serial, Ope.hasCap, serialL_hasCap rs as]
  | prec a b info r => simp only [Ope.toB, Serial, Ope.hasCap, serial_hasCap rs a, serial_hasCap rs b, Bool.not_or]
  | _ => simp [Ope.toB, Serial, SerialAll, Ope.hasCap]

theorem serialL_hasCap (rs : List Def) (es : List Ope) : SerialAll (Ope.toBL rs es) = !Ope.hasCapL es := by
  cases es with
  | nil => rfl
  | cons e es => simp only [Ope.toBL, SerialAll, Ope.hasCapL, serial_hasCap rs e, serialL_hasCap rs es, Bool.not_or]
end

/-- C63, the general claim is false for captures: `serialize_grammar` throws exactly when some rule of the loaded grammar contains a capture
(or a user-defined operator, which no grammar text contains). -/
theorem C63_captures_refused (x : Nat → Extras) (G : Parser) (start : List Byte) :
    serialize (blobOf x G) start = none ↔ ∃ d ∈ G.rules, d.ope.hasCap = true := by
  have := C40_serializable_partial (blobOf x G) start
  have h2 : (∀ b ∈ blobOf x G, Serial b.ope = true) ↔ ∀ d ∈ G.rules, d.ope.hasCap = false := by
    constructor
    · intro h d hd
      obtain ⟨r, hr⟩ := List.mem_iff_getElem?.1 hd
      have hm : (d.toB G.rules (G.packrat r) (x r)) ∈ blobOf x G := by
        apply List.mem_of_getElem? (i := r)
        unfold blobOf
        rw [List.getElem?_mapIdx, hr]; rfl
      have := h _ hm
      have h3 : Serial (d.ope.toB G.rules) = true := this
      rw [serial_hasCap] at h3
      simpa using h3
    · intro h b hb
      obtain ⟨r, hr⟩ := List.mem_iff_getElem?.1 hb
      unfold blobOf at hr
      rw [List.getElem?_mapIdx] at hr
      cases hd : G.rules[r]? with
      | none => rw [hd] at hr; cases hr
      | some d =>
        rw [hd] at hr
        cases hr
        show Serial (d.ope.toB G.rules) = true
        rw [serial_hasCap, h d (List.mem_of_getElem? hd)]; rfl
  rw [h2] at this
  rw [← Option.not_isSome_iff_eq_none, this]
  simp

/-- `S <- 'ab' | 'a'`. -/
def c63Dict : Source where
  defs := [c36d "S" (.dict [c36b "ab", c36b "a"] false)]

/-- Was the text accepted? -/
def c63Accepts (x : Parser × Nat) (input : List Byte) : Option Bool :=
  match (Shared.parse (fun _ _ => []) x.1 60 {} ({ start := x.2, input := input } : Call Unit)).1 with
  | .ok ans => some ans.ok
  | _ => none

def c63Orig : Option (Parser × Nat) :=
  match load (fun _ _ => false) (fun _ _ => false) (List.range 2) c63Dict with
  | .ok (some x) => some x
  | _ => none

/-- Stored and read again. -/
def c63Back (x : Parser × Nat) : Option (Parser × Nat) :=
  (serialize (blobOf (fun _ => {}) x.1) (c36b "S")).bind fun blob =>
    match loadBlob blob with
    | .ok (some y) _ => restore (List.range 2) y.2 y.1
    | _ => none

/-- C63, the general claim is false for dictionaries: the parser of `S <- 'ab' | 'a'` accepts "a" and "ab"; restored from its blob it accepts
"ab" and no longer "a". -/
theorem C63_word_lost :
    (c63Orig.map fun x => (c63Accepts x (c36b "a"), c63Accepts x (c36b "ab"))) = some (some true, some true) ∧
    ((c63Orig.bind c63Back).map fun x => (c63Accepts x (c36b "a"), c63Accepts x (c36b "ab"))) = some (some false, some true) := by
  decide +kernel

end Verif.Props
