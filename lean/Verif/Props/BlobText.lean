import Verif.BlobText
import Verif.Props.BlobParser
import Verif.Props.TextMeaning
/-!
# C63 for grammar texts

Specification terms: those of `Props/BlobParser.lean`, and `loadText` (C54), the whole of `load_grammar` on a text.
-/

namespace Verif.Meta
open Verif

theorem callsL_of (ps : List (List Byte)) : ∀ (es : List Src), (∀ e ∈ es, e.calls ps = true) → Src.callsL ps es = true
  | [], _ => rfl
  | e :: es, h => by
    simp only [Src.callsL, Bool.and_eq_true]
    exact ⟨h e (by simp), callsL_of ps es fun e' h' => h e' (by simp [h'])⟩

theorem mem_refsL {ps : List (List Byte)} {x : List Byte × Bool × Nat} : ∀ {es : List Src} {e : Src}, e ∈ es → x ∈ e.refs ps → x ∈ Src.refsL ps es
  | e' :: es, e, h, hx => by
    rw [Src.refsL, List.mem_append]
    rcases List.mem_cons.1 h with rfl | h
    · exact .inl hx
    · exact .inr (mem_refsL h hx)

/-- What is read has a call exactly where there are arguments, so only the parameters matter. -/
theorem Regular.calls {ps : List (List Byte)} (hp : recoverName ∉ ps) {e : Src} (h : Regular e) (hx : ∀ x ∈ e.refs ps, x.1 ∈ ps → x.2.1 = false) :
    e.calls ps = true := by
  have sub : ∀ {es : List Src}, (∀ e ∈ es, (∀ x ∈ e.refs ps, x.1 ∈ ps → x.2.1 = false) → e.calls ps = true) →
      (∀ x ∈ Src.refsL ps es, x.1 ∈ ps → x.2.1 = false) → Src.callsL ps es = true :=
    fun ih hx => callsL_of ps _ fun e he => ih e he fun x hxe => hx x (mem_refsL he hxe)
  induction h with
  | seq _ _ ih => exact sub ih hx
  | cho _ _ ih => exact sub ih hx
  | @label e l h ih =>
    rw [Src.calls, Src.callsL, Bool.and_eq_true]
    refine ⟨ih fun x hxe => hx x (mem_refsL (List.mem_cons_self ..) hxe), ?_⟩
    simp [Src.calls, Src.callsL, hp]
  | rep h _ _ ih => exact ih hx
  | and_ h ih => rfl
  | not_ h ih => rfl
  | capScope h ih => exact ih hx
  | cap h ih => exact ih hx
  | tok h ih => exact ih hx
  | ref h => simp [Src.calls, Src.callsL]
  | @call nm as h1 h2 h3 ih =>
    rw [Src.refs] at hx
    have hn : nm ∉ ps := fun hm => by
      have := hx _ (List.mem_cons_self ..) hm
      cases this
    rw [if_neg hn] at hx
    rw [Src.calls, sub ih fun x hxe => hx x (List.mem_cons_of_mem _ hxe)]
    cases as with
    | nil => exact absurd rfl h2
    | cons a as => simp [hn]
  | recov => simp [Src.calls, Src.callsL, hp]
  | @recovCall as h1 h2 ih =>
    rw [Src.refs, if_neg hp] at hx
    rw [Src.calls, sub ih fun x hxe => hx x (List.mem_cons_of_mem _ hxe)]
    cases as with
    | nil => exact absurd rfl h1
    | cons a as => simp [hp]
  | ign h1 h ih => exact ih hx
  | _ => rfl

theorem applyInstr_env (is : List Instr) : ∀ d : Def, (is.foldl applyInstr d).hasMacroRef = d.hasMacroRef := by
  induction is with
  | nil => intro d; rfl
  | cons i is ih => intro d; exact (ih _).trans (by cases i <;> rfl)

end Verif.Meta

namespace Verif.Props
open Verif Meta Blob

/-- Every loaded text has the properties that are computed when first asked for. -/
theorem computed_of_text {ds : List RDef} (hg : ∀ d ∈ ds, GoodDef d) (hp : ∀ d ∈ ds, ∀ ps, d.params = some ps → recoverName ∉ ps)
    (hx : ∀ d ∈ ds, ∀ x ∈ d.body.refs (d.params.getD []), x.1 ∈ d.params.getD [] → x.2.1 = false)
    {mark loops : List Def → Nat → Bool} {order : List Nat} {start : Option (List Byte)} {packrat leftRec : Bool} {G : Parser} {a : Nat}
    (h : load mark loops order (toSource ds start packrat leftRec) = .ok (some (G, a))) : ∀ d ∈ G.rules, d.Computed G.rules := by
  have hw := toSource_wf hg hp start packrat leftRec
  refine computed_of_load hw h ?_ ?_
  · intro s hs
    rcases List.mem_cons.1 hs with rfl | hs
    · simp [recoverDef, Src.calls, Src.callsL]
    · obtain ⟨d, hd, rfl⟩ := List.mem_map.1 hs
      rw [(toSDef_head d).2.1]
      refine Regular.calls ?_ (hg d hd).body (hx d hd)
      cases hq : d.params with
      | none => simp
      | some ps => exact hp d hd ps hq
  · intro s hs
    rcases List.mem_cons.1 hs with rfl | hs
    · rfl
    · obtain ⟨d, hd, rfl⟩ := List.mem_map.1 hs
      exact applyInstr_env d.instrs _

/-- C63 (what holds, for texts). Let a UTF-8 grammar text load, every rule of it being within the limits of blobs (`Def.storable`: no captures,
plain dictionaries, lengths below 2³²), and let no rule write arguments behind one of its own parameters or call a parameter `%recover`.
Then `serialize_grammar` succeeds, `load_blob` accepts the bytes, and whatever the order in which the restored map is listed in memory and
iterated, the restored parser is the one the text itself gives for that iteration order. -/
theorem C63_text_partial {text : List Byte} {m : Nat} {metaOrder : List Nat} {mark loops : List Def → Nat → Bool} {order : List Nat}
    {start : Option (List Byte)} {packrat leftRec : Bool} {G : Parser} {a : Nat} (ht : Text text)
    (h : loadText m metaOrder mark loops order text start packrat leftRec = .ok (some (G, a)))
    {ds : List RDef} (hr : ReadsAs text (.defs ds)) (hp : ∀ d ∈ ds, ∀ ps, d.params = some ps → recoverName ∉ ps)
    (hx : ∀ d ∈ ds, ∀ x ∈ d.body.refs (d.params.getD []), x.1 ∈ d.params.getD [] → x.2.1 = false)
    {d0 : Def} (ha : G.rules[a]? = some d0) (ex : Nat → Extras) (hex : ∀ r, (ex r).astName.length < 2 ^ 32) (hlen : G.rules.length < 2 ^ 32)
    (hs : ∀ d ∈ G.rules, d.storable = true) :
    ∃ blob g, serialize (blobOf ex G) d0.name = some blob ∧ loadBlob blob = .ok (some (d0.name, g)) [] ∧
      ∀ (g' : List BDef), g'.Perm g → g'.map BDef.name = G.rules.map Def.name →
        restore order g' d0.name = some (G, a) ∧
        ∀ order', ∃ G', loadText m metaOrder mark loops order' text start packrat leftRec = .ok (some (G', a)) ∧
          restore order' g' d0.name = some (G', a) := by
  have he : ∀ o, loadText m metaOrder mark loops o text start packrat leftRec = load mark loops o (toSource ds start (packrat && ownCaps ds) leftRec) := by
    intro o
    obtain ⟨ds', h1, ⟨h2, h3⟩, -⟩ := loadText_inv ht h
    cases hr.det h1
    have hread : readText m metaOrder text = .ok (.defs ds) := by
      unfold loadText at h
      cases hq : readText m metaOrder text with
      | ub s => rw [hq] at h; cases h
      | oof => rw [hq] at h; cases h
      | ok r =>
        obtain ⟨n, hn⟩ := hr metaOrder
        have h1 := hn (max n m) (Nat.le_max_left _ _)
        unfold readText at h1 hq
        rcases parseCore_le (Nat.le_max_right n m) (metaCfg metaOrder text) rGrammar true {} with h | h
        · rw [h] at hq; cases hq
        · rw [← h, hq] at h1; cases h1; rfl
    unfold loadText
    rw [hread]
    simp only [Out.bind, h2, h3, Bool.or_false, Bool.false_eq_true, if_false]
  rw [he] at h
  have hg := (C54_read_is_regular ht hr).2
  obtain ⟨blob, g, k1, k2, k3⟩ := C63_restored_parser_partial (toSource_wf hg hp start (packrat && ownCaps ds) leftRec) h ha ex hex hlen hs
    (computed_of_text hg hp hx h)
  refine ⟨blob, g, k1, k2, fun g' q1 q2 => ⟨(k3 g' q1 q2).1, fun order' => ?_⟩⟩
  rw [he]
  exact (k3 g' q1 q2).2 order'

/-! A text with a macro, white space, an error message, a dictionary and a precedence instruction. -/

def c63text : List Byte :=
  txt "E <- A (O A)* { precedence L + }\nA <- 'a' / M('b') { error_message \"no\" }\nO <- '+'\nM(x) <- x+ '1'|'2'\n%whitespace <- ' '*"

theorem c63text_loads : (match loadText 600 [] (fun _ _ => false) (fun _ _ => false) (List.range 6) c63text none false true with
    | .ok (some (G, a)) => some (a, G.rules.length, G.rules.all Def.storable, (G.rules[a]?).map Def.name)
    | _ => none) = some (1, 6, true, some (txt "E")) := by decide +kernel

def c63textDefs : Option (List RDef) :=
  match readText 600 [] c63text with
  | .ok (.defs ds) => some ds
  | _ => none

theorem c63textDefs_ok : (c63textDefs.map fun ds => ds.all fun d => decide (recoverName ∉ d.params.getD []) &&
    (d.body.refs (d.params.getD [])).all fun x => decide (x.1 ∉ d.params.getD []) || !x.2.1) = some true := by decide +kernel

/-- The text is stored and restored. -/
theorem C63_text_sample : ∃ G d0 blob g, loadText 600 [] (fun _ _ => false) (fun _ _ => false) (List.range 6) c63text none false true = .ok (some (G, 1)) ∧
    G.rules[1]? = some d0 ∧ d0.name = txt "E" ∧ G.rules.length = 6 ∧ serialize (blobOf (fun _ => {}) G) d0.name = some blob ∧
    loadBlob blob = .ok (some (d0.name, g)) [] ∧
    ∀ (g' : List BDef), g'.Perm g → g'.map BDef.name = G.rules.map Def.name → restore (List.range 6) g' d0.name = some (G, 1) := by
  have hl := c63text_loads
  cases hld : loadText 600 [] (fun _ _ => false) (fun _ _ => false) (List.range 6) c63text none false true with
  | ub s => rw [hld] at hl; cases hl
  | oof => rw [hld] at hl; cases hl
  | ok o =>
    rw [hld] at hl
    cases o with
    | none => cases hl
    | some y =>
      obtain ⟨G, a⟩ := y
      simp only [Option.some.injEq, Prod.mk.injEq] at hl
      obtain ⟨rfl, hlen, hst, hnm⟩ := hl
      have ht : Text c63text := text_of_isText (by decide +kernel)
      obtain ⟨ds, hr, -, -⟩ := loadText_inv ht hld
      have hds := c63textDefs_ok
      have hdq : c63textDefs = some ds := by
        cases hq : readText 600 [] c63text with
        | ub s => unfold c63textDefs at hds; rw [hq] at hds; cases hds
        | oof => unfold c63textDefs at hds; rw [hq] at hds; cases hds
        | ok r =>
          obtain ⟨n, hn⟩ := hr []
          have h1 := hn (max n 600) (Nat.le_max_left _ _)
          unfold c63textDefs
          unfold readText at h1 hq ⊢
          rcases parseCore_le (Nat.le_max_right n 600) (metaCfg [] c63text) rGrammar true {} with h | h
          · rw [h] at hq; cases hq
          · rw [← h, hq] at h1; cases h1; rw [hq]
      rw [hdq] at hds
      have hds := Option.some.inj hds
      simp only [List.all_eq_true, Bool.and_eq_true, Bool.or_eq_true, decide_eq_true_eq, Bool.not_eq_true'] at hds hst
      obtain ⟨d0, hd0⟩ : ∃ d0, G.rules[1]? = some d0 := ⟨_, List.getElem?_eq_getElem (by omega)⟩
      rw [hd0] at hnm
      obtain ⟨blob, g, h1, h2, h3⟩ := C63_text_partial ht hld hr (fun d hd ps hs => by have := (hds d hd).1; rw [hs] at this; exact this)
        (fun d hd x hx hm => by
          rcases (hds d hd).2 x hx with h | h
          · exact absurd hm h
          · exact h)
        hd0 (fun _ => {}) (fun _ => by decide) (by omega) (fun d hd => hst d hd)
      exact ⟨G, d0, blob, g, rfl, hd0, Option.some.inj hnm, hlen, h1, h2, fun g' hp hn => (h3 g' hp hn).1⟩

end Verif.Props
