import Verif.Loaded
import Verif.Props.Refine
/-!
# C27, C28: what the loader computes in advance

`Loaded base wsR wordR rs C F kw r`: the rules `rs` (as linked, without annotations) pass two computable tests (certificates `C`
and `F`), the input is UTF-8 and callbacks are well-behaved; `wsR`, `wordR` are the rules `%whitespace` and `%word`.
`setupAll rs order` are the same rules annotated by the loader with first sets, span scans and keyword guards; the loader walks
through an `unordered_map`, so `order` is arbitrary.
-/

namespace Verif.Props
open Verif

variable {V : Type} {base : Cfg V} {wsR wordR : Option Nat} {rs : List Def} {C : Cert} {F : FsCert} {kw : List Ope → Bool} {r : Nat}

/-- Every alternative in `e` that the program skips at a position because of its first set cannot match there: in the reference
semantics (which ignores annotations) it fails, without having passed a cut. -/
def SkipsOnlyFailing (G : Gram V) : Ope → Prop :=
  Ope.Each fun
    | .cho es _ fs => ∀ (k : Nat) (f : FirstSet) (e : Ope), fs[k]? = some f → es[k]? = some e → ∀ i, Bdry G.input i →
        fsSkip (some f) (G.input.drop i) = true → ∀ env mode s x, Peg G env mode (.ope e) i s x → x = .fail false
    | _ => True

mutual
theorem each_imp {p q : Ope → Prop} (h : ∀ e, p e → q e) : ∀ e : Ope, e.Each p → e.Each q
  | .seq _ _, hp => ⟨h _ hp.1, eachL_imp h _ hp.2⟩
  | .cho _ _ _, hp => ⟨h _ hp.1, eachL_imp h _ hp.2⟩
  | .rep e _ _ _, hp => ⟨h _ hp.1, each_imp h e hp.2⟩
  | .and_ e, hp => ⟨h _ hp.1, each_imp h e hp.2⟩
  | .not_ e, hp => ⟨h _ hp.1, each_imp h e hp.2⟩
  | .capScope e, hp => ⟨h _ hp.1, each_imp h e hp.2⟩
  | .cap _ e, hp => ⟨h _ hp.1, each_imp h e hp.2⟩
  | .tok e, hp => ⟨h _ hp.1, each_imp h e hp.2⟩
  | .ign e, hp => ⟨h _ hp.1, each_imp h e hp.2⟩
  | .ws e, hp => ⟨h _ hp.1, each_imp h e hp.2⟩
  | .ref _ _ _, hp => ⟨h _ hp.1, eachL_imp h _ hp.2⟩
  | .recov _ _ _, hp => ⟨h _ hp.1, eachL_imp h _ hp.2⟩
  | .dict .., hp => h _ hp
  | .lit .., hp => h _ hp
  | .cls _, hp => h _ hp
  | .chr _, hp => h _ hp
  | .dot, hp => h _ hp
  | .usr _, hp => h _ hp
  | .weak _, hp => h _ hp
  | .param .., hp => h _ hp
  | .bref _, hp => h _ hp
  | .prec .., hp => h _ hp
  | .cut, hp => h _ hp
  | .null, hp => h _ hp

theorem eachL_imp {p q : Ope → Prop} (h : ∀ e, p e → q e) : ∀ es : List Ope, Ope.EachL p es → Ope.EachL q es
  | [], _ => trivial
  | e :: es, hp => ⟨each_imp h e hp.1, eachL_imp h es hp.2⟩
end

/-- **C28**: in a loaded grammar, an alternative that is skipped because the next byte is not in its first set could not have
matched. -/
theorem C28_skipped_alternative_fails_partial (h : Loaded base wsR wordR rs C F kw r) (order : List Nat) :
    ∀ d ∈ setupAll rs order, SkipsOnlyFailing (base.withRules wsR wordR (setupAll rs order)).gram d.ope := by
  intro d hd
  obtain ⟨q, hq⟩ := List.mem_iff_getElem?.mp hd
  have hlen : (setupAll rs order).map Def.plain = rs :=
    (setupAll_ok (FsOkG.of_check h.tested.cert h.tested.first) (fun r d hd => (FsCert.check_rule h.tested.first hd).1) order).1
  have hd0 : rs[q]? = some d.plain := by rw [← hlen]; simp [hq]
  obtain ⟨m, hm⟩ := (FsCert.check_rule h.tested.first (r := q) hd0).2.2.2.2.1
  by_cases hnp : d.ope.isPrec = true
  · cases he : d.ope <;> simp only [he, Ope.isPrec, Bool.false_eq_true] at hnp
    trivial
  refine each_imp ?_ _ ((h.ready order).cert.node q d m hq hm (by simpa using hnp))
  intro e he
  cases e <;> try trivial
  intro k f e hf hes i hi hsk v m s x hp
  exact he k f e hf hes v m i s x hi hsk hp

/-- **C28**: annotating the grammar, in whatever order the rules are visited, changes neither the result of a parse, nor the
length, nor the values. -/
theorem C28_annotations_transparent_partial (h : Loaded base wsR wordR rs C F kw r) (order : List Nat) (eoi : Bool) (dt : Option V)
    (log : Bool) : ∃ n n' res res', parseCore n (base.withRules wsR wordR rs) r eoi { dt := dt, logOn := log } = .ok res ∧
      parseCore n' (base.withRules wsR wordR (setupAll rs order)) r eoi { dt := dt, logOn := log } = .ok res' ∧
      res'.ret = res.ret ∧ (res.ret = true → res'.len = res.len ∧ (base.recognizeOnly = false → res'.st.vs = res.st.vs)) := by
  have hlen : (setupAll rs order).map Def.plain = rs :=
    (setupAll_ok (FsOkG.of_check h.tested.cert h.tested.first) (fun r d hd => (FsCert.check_rule h.tested.first hd).1) order).1
  have hA := annOf (base := base) (wsR := wsR) (wordR := wordR) hlen
  have hA0 := annOf (base := base) (wsR := wsR) (wordR := wordR) (map_plain_self h.tested.first)
  obtain ⟨n, n', res, res', h1, h2, h3, -, h5⟩ :=
    same_result h.ready_plain (h.ready order) (hA.gram.trans hA0.gram.symm) eoi dt dt log log
  exact ⟨n, n', res, res', h1, h2, h3, fun a => ⟨(h5 a).1, fun b => (h5 a).2 b b⟩⟩

/-- **C28**: the order in which the loader visits the rules does not matter. -/
theorem C28_order_irrelevant_partial (h : Loaded base wsR wordR rs C F kw r) (order order' : List Nat) (eoi : Bool) (dt : Option V)
    (log : Bool) : ∃ n n' res res', parseCore n (base.withRules wsR wordR (setupAll rs order)) r eoi { dt := dt, logOn := log } = .ok res ∧
      parseCore n' (base.withRules wsR wordR (setupAll rs order')) r eoi { dt := dt, logOn := log } = .ok res' ∧
      res'.ret = res.ret ∧ (res.ret = true → res'.len = res.len ∧ (base.recognizeOnly = false → res'.st.vs = res.st.vs)) := by
  have hlen := fun order => (setupAll_ok (FsOkG.of_check h.tested.cert h.tested.first)
    (fun r d hd => (FsCert.check_rule h.tested.first hd).1) order).1
  have hA := annOf (base := base) (wsR := wsR) (wordR := wordR) (hlen order)
  have hA' := annOf (base := base) (wsR := wsR) (wordR := wordR) (hlen order')
  obtain ⟨n, n', res, res', h1, h2, h3, -, h5⟩ :=
    same_result (h.ready order) (h.ready order') (hA'.gram.trans hA.gram.symm) eoi dt dt log log
  exact ⟨n, n', res, res', h1, h2, h3, fun a => ⟨(h5 a).1, fun b => (h5 a).2 b b⟩⟩

/-- **C27** for loaded grammars: the parse with all annotations is the plain PEG parse of the rules as written. -/
theorem C27_loaded_is_plain_peg_partial (h : Loaded base wsR wordR rs C F kw r) (order : List Nat) (eoi : Bool) :
    ∃ x, PegParse (base.withRules wsR wordR rs).gram r eoi x ∧ (∀ y, PegParse (base.withRules wsR wordR rs).gram r eoi y → y = x) ∧
      ∀ (dt : Option V) (log : Bool), ∃ n res,
        parseCore n (base.withRules wsR wordR (setupAll rs order)) r eoi { dt := dt, logOn := log } = .ok res ∧
        res.ret = x.isSome ∧ ∀ j f, x = some (j, f) → res.len = j ∧ (base.recognizeOnly = false → res.st.vs = f) := by
  have hlen : (setupAll rs order).map Def.plain = rs :=
    (setupAll_ok (FsOkG.of_check h.tested.cert h.tested.first) (fun r d hd => (FsCert.check_rule h.tested.first hd).1) order).1
  have hA := annOf (base := base) (wsR := wsR) (wordR := wordR) hlen
  obtain ⟨x, h1, h2, h3⟩ := C27_parse_is_plain_peg_partial (h.ready order) eoi
  rw [hA.gram] at h1 h2
  exact ⟨x, h1, h2, fun dt log => let ⟨n, res, k1, k2, _, k4⟩ := h3 dt log; ⟨n, res, k1, k2, k4⟩⟩

/-! ## A concrete grammar

`S <- A ('+' A)*   A <- '(' S ')' / 'let' / < [0-9]+ >   %whitespace <- [ \t]*   %word <- [a-z]+`, on every UTF-8 input. -/

def ldRules : List Def :=
  [{ name := [83], ope := .seq [.ref 1 [65] [], .rep (.seq [.lit [43] false, .ref 1 [65] []] none) 0 none none] none },
   { name := [65], ope := .cho [.seq [.lit [40] false, .ref 0 [83] [], .lit [41] false] none, .lit [108, 101, 116] false,
                               .tok (.rep (.cls ⟨[(48, 57)], false, false⟩) 1 none none)] false [] },
   { name := [37, 119], ope := .rep (.cls ⟨[(32, 32), (9, 9)], false, false⟩) 0 none none, ignoreSV := true },
   { name := [37, 120], ope := .rep (.cls ⟨[(97, 122)], false, false⟩) 1 none none, ignoreSV := true }]

def ldBase (input : List Byte) : Cfg Nat :=
  { input := input, rules := []
    action := fun r => if r = 0 then some fun f _ _ => (some (f.vals.foldl (fun n v => n + v.getD 0) 0), none) else
      some fun f _ _ => (f.vals.head?.getD (some f.tokens.length), none) }

def ldCert : Cert :=
  { rank := fun r => if r = 0 then 1 else 0, null := fun r => r == 2, leak := fun _ => false, modes := fun _ m => m == {}, top := 2
    malformed := false }

def ldFs : FsCert := ⟨fun _ => true, fun _ => true⟩

theorem ldLoaded (input : List Byte) (ht : Text input) :
    Loaded (ldBase input) (some 2) (some 3) ldRules ldCert ldFs (noKw ldRules) 0 where
  tested := ⟨by rfl, by rfl⟩
  word := by
    intro r d hr hd
    cases hr; cases hd
    exact Or.inr rfl
  guards _ := kwSound_none _ _
  calls := {
    user := fun _ _ _ _ => ⟨List.prefix_refl _, List.prefix_refl _, List.prefix_refl _, rfl⟩
    dt := by
      refine ⟨?_, fun r p h => (by cases h), fun r l h => (by cases h)⟩
      intro r a h f d pd
      simp only [ldBase] at h
      split at h <;> (cases h; rfl)
    reco := fun h => by cases h }
  slots := slotsOk_of rfl
  text := ht
  rule := ⟨_, rfl, rfl⟩
  mode := rfl

/-- The annotations are there: the alternatives of `A` have three first sets, `[0-9]+` is a span scan. -/
example : ((setupAll ldRules [2, 0, 3, 1])[1]?.map Def.ope).map (fun e => match e with
    | .cho [_, _, .tok (.rep _ _ _ sp)] _ fs => (fs.map FirstSet.chars, sp.isSome)
    | _ => ([], false)) = some ([[40], [108], [48, 49, 50, 51, 52, 53, 54, 55, 56, 57]], true) := by decide +kernel

/-- On "(1 + let) + 3" the annotated grammar accepts. -/
example : (match parserParse 60 ((ldBase [40, 49, 32, 43, 32, 108, 101, 116, 41, 32, 43, 51]).withRules (some 2) (some 3)
      (setupAll ldRules [2, 0, 3, 1])) 0 true false none with
    | .ok a => some (a.ok, a.val)
    | _ => none) = some (true, some 2) := by decide +kernel

/-! ## Where first sets and keyword guards are wrong

Each certificate condition is necessary: for the grammars below, which the program loads without complaint, the annotated grammar
and the grammar as written give different answers. -/

/-- Whether the whole input is accepted with the rules as written, and with the rules annotated by the loader. -/
def bothAccept (input : List Byte) (rs : List Def) (wsR : Option Nat := none) : Option Bool × Option Bool :=
  (accepts 60 (({ input := input, rules := [] } : Cfg Nat).withRules wsR none rs),
   accepts 60 (({ input := input, rules := [] } : Cfg Nat).withRules wsR none (setupAll rs (List.range rs.length))))

/-- `B <- A 'z' / 'q'   A <- A 'x' / ''` -/
def nullLrRules : List Def :=
  [{ name := [66], ope := .cho [.seq [.ref 1 [65] [], .lit [122] false] none, .lit [113] false] false [] },
   { name := [65], ope := .cho [.seq [.ref 1 [65] [], .lit [120] false] none, .lit [] false] false [], isLR := true }]

/-- `S <- (↑ 'a' / 'b')` -/
def cutFirstRules : List Def :=
  [{ name := [83], ope := .cho [.seq [.cut, .lit [97] false] none, .lit [98] false] false [] }]

/-- `S <- [x] ('' 'a' / 'b')   %whitespace <- [ ]*` -/
def emptyLitRules : List Def :=
  [{ name := [83], ope := .seq [.cls ⟨[(120, 120)], false, false⟩, .cho [.seq [.lit [] false, .lit [97] false] none, .lit [98] false] false []] none },
   { name := [37], ope := .rep (.cls ⟨[(32, 32)], false, false⟩) 0 none none, ignoreSV := true }]

/-- `S <- [@-A]i 'x' / 'b'` -/
def crossCaseRules : List Def :=
  [{ name := [83], ope := .cho [.seq [.cls ⟨[(64, 65)], false, true⟩, .lit [120] false] none, .lit [98] false] false [] }]

/-- `S <- [\x00] / 'b'` -/
def nulRules : List Def := [{ name := [83], ope := .cho [.cls ⟨[(0, 0)], false, false⟩, .lit [98] false] false [] }]

/-- `S <- !K < [a-z] [a-z]* >   K <- 'select'i / 'from'i` -/
def kwPrefixRules : List Def :=
  [{ name := [83], ope := .seq [.not_ (.ref 1 [75] []), .tok (.seq [.cls ⟨[(97, 122)], false, false⟩,
                                  .rep (.cls ⟨[(97, 122)], false, false⟩) 0 none none] none)] none },
   { name := [75], ope := .cho [.lit [115, 101, 108, 101, 99, 116] true, .lit [102, 114, 111, 109] true] false [] }]

/-- `S <- !K < [a-z] [a-z]? >   K <- 'select'i / 'from'i` -/
def kwOptRules : List Def :=
  [{ name := [83], ope := .seq [.not_ (.ref 1 [75] []), .tok (.seq [.cls ⟨[(97, 122)], false, false⟩,
                                  .rep (.cls ⟨[(97, 122)], false, false⟩) 0 (some 1) none] none)] none },
   { name := [75], ope := .cho [.lit [115, 101, 108, 101, 99, 116] true, .lit [102, 114, 111, 109] true] false [] }]

/-- **C28 fails in general**: a nullable left-recursive rule ("xz"), a cut before the first character ("b"), white space
skipped after an empty literal ("x a"), a case-insensitive range across both cases ("[x"), an overlong encoding of U+0000. -/
theorem C28_first_sets_unsound :
    bothAccept [120, 122] nullLrRules = (some true, some false) ∧
    bothAccept [98] cutFirstRules = (some false, some true) ∧
    bothAccept [120, 32, 97] emptyLitRules (some 1) = (some true, some false) ∧
    bothAccept [91, 120] crossCaseRules = (some true, some false) ∧
    bothAccept [0xC0, 0x80] nulRules = (some true, some false) := by
  refine ⟨?_, ?_, ?_, ?_, ?_⟩ <;> decide +kernel

/-- **C27 fails in general** for keyword guards: "selectx" and "abc". -/
theorem C27_keyword_guard_unsound :
    bothAccept [115, 101, 108, 101, 99, 116, 120] kwPrefixRules = (some false, some true) ∧
    bothAccept [97, 98, 99] kwOptRules = (some false, some true) := by
  constructor <;> decide +kernel

end Verif.Props
