import Verif.Filter
import Verif.Props.TextMeaning
/-!
# Properties: captures in grammar texts (C61), and packrat parsing of texts (C15)

Specification: `Src.events`, `Visible` (`Captures.lean`).  `packratFilter` (`Filter.lean`) is the library's choice of rules to remember.
-/

namespace Verif.Props
open Verif Meta Utf8

/-- The scopes, captures and back references of a text, in its order. -/
def textEvents (ds : List RDef) : List Ev := ds.flatMap fun d => Src.events d.body

/-- **C61** In a UTF-8 text that loads, every back reference follows a capture of the same name in a scope that is still open. -/
theorem C61_back_references_defined {text : List Byte} {m : Nat} {metaOrder : List Nat} {mark loops : List Def → Nat → Bool} {order : List Nat}
    {start : Option (List Byte)} {packrat leftRec : Bool} {G : Parser} {a : Nat} (ht : Text text)
    (h : loadText m metaOrder mark loops order text start packrat leftRec = .ok (some (G, a))) :
    ∃ ds, ReadsAs text (.defs ds) ∧ ∀ p x q, textEvents ds = p ++ .use x :: q → Visible p x := by
  obtain ⟨ds, h1, ⟨-, h2⟩, -⟩ := loadText_inv ht h
  refine ⟨ds, h1, fun p x q e => Classical.byContradiction fun hv => ?_⟩
  have := (undefBref_iff ds).2 ⟨p, x, q, e, hv⟩
  rw [h2] at this
  cases this

/-- **C61** A text with a back reference that follows no such capture is refused. -/
theorem C61_undefined_refused {text : List Byte} {ds : List RDef} (hr : ReadsAs text (.defs ds)) {p q : List Ev} {x : List Byte}
    (he : textEvents ds = p ++ .use x :: q) (hv : ¬ Visible p x) (metaOrder : List Nat) (mark loops : List Def → Nat → Bool) (order : List Nat)
    (start : Option (List Byte)) (packrat leftRec : Bool) :
    ∃ n, ∀ m, n ≤ m → loadText m metaOrder mark loops order text start packrat leftRec = .ok none := by
  obtain ⟨n, hn⟩ := hr metaOrder
  refine ⟨n, fun m hm => ?_⟩
  have hu : undefBref ds = true := (undefBref_iff ds).2 ⟨p, x, q, he, hv⟩
  unfold loadText
  rw [hn m hm]
  simp only [Out.bind, hu, Bool.or_true]
  rfl

/-- **C61** `enable_packrat_parsing` has an effect exactly if every back reference follows a capture of its name in its own definition. -/
theorem C61_packrat_switch {text : List Byte} {m : Nat} {metaOrder : List Nat} {mark loops : List Def → Nat → Bool} {order : List Nat}
    {start : Option (List Byte)} {packrat leftRec : Bool} {G : Parser} {a : Nat} (ht : Text text)
    (h : loadText m metaOrder mark loops order text start packrat leftRec = .ok (some (G, a))) :
    ∃ ds, ReadsAs text (.defs ds) ∧
      (G.packrat a = true ↔ packrat = true ∧ ∀ d ∈ ds, ∀ p x q, Src.events d.body = p ++ .use x :: q → .cap x ∈ p) := by
  obtain ⟨ds, h1, -, h3⟩ := loadText_inv ht h
  refine ⟨ds, h1, ?_⟩
  obtain ⟨-, -, -, -, rs, -, -, -, -, hpk⟩ := load_inv h3
  rw [hpk, ← ownCaps_iff]
  show (decide (a = a) && (packrat && ownCaps ds)) = true ↔ _
  simp

/-- What a parse with the loaded parser gives, with the library's packrat filter. -/
def runFiltered (x : Out (Option (Parser × Nat))) (n : Nat) (inp : List Byte) : Option (Bool × Nat) :=
  match x with
  | .ok (some (G, a)) =>
    match (Shared.parse (packratFilter G) G n {} ({ start := a, input := inp } : Call Unit)).1 with
    | .ok ans => some (ans.ok, ans.res.len)
    | _ => none
  | _ => none

/-- A text loaded with all checks, and a parse of `inp`. -/
def tryText (text : String) (packrat : Bool) (inp : String) : Option (Bool × Nat) :=
  runFiltered (loadText 400 [] (fun _ _ => false) (fun _ _ => false) (List.range 8) (txt text) none packrat true) 100 (txt inp)

abbrev modeText : String := "S <- < A > 'x' / A 'b'  A <- 'a'  %whitespace <- ' '*"
abbrev cutText : String := "S <- (&A / 'q') A 'x' / (&A / 'r') A 'z' / 'a' 'y'   A <- 'a' ↑"
abbrev capText : String := "S <- $x<'bb'> T 'z' / $x<'b'> 'b' T   T <- A '1' / A   A <- $x<'q'> 'z' / $x"

theorem modeText_plain : tryText modeText false "a b" = some (true, 3) := by decide +kernel
theorem modeText_packrat : tryText modeText true "a b" = some (false, 0) := by decide +kernel
theorem cutText_plain : tryText cutText false "ay" = some (false, 0) := by decide +kernel
theorem cutText_packrat : tryText cutText true "ay" = some (true, 2) := by decide +kernel
theorem capText_plain : tryText capText false "bbb" = some (true, 3) := by decide +kernel
theorem capText_packrat : tryText capText true "bbb" = some (false, 0) := by decide +kernel

/-- **C15 fails in general**, from the text to the answer, with the rules the library chooses to remember: a rule called inside and outside a token boundary, a
rule with a cut, and a rule whose back reference finds a capture of another rule although a capture of that name stands before it in its own definition. -/
theorem C15_packrat_not_transparent_for_texts :
    (tryText modeText false "a b" = some (true, 3) ∧ tryText modeText true "a b" = some (false, 0)) ∧
    (tryText cutText false "ay" = some (false, 0) ∧ tryText cutText true "ay" = some (true, 2)) ∧
    (tryText capText false "bbb" = some (true, 3) ∧ tryText capText true "bbb" = some (false, 0)) :=
  ⟨⟨modeText_plain, modeText_packrat⟩, ⟨cutText_plain, cutText_packrat⟩, capText_plain, capText_packrat⟩

/-! ## Concrete texts -/

/-- A text with a capture, a scope and back references: hypotheses of `C61_back_references_defined` and `C61_packrat_switch`. -/
def c61text : String := "S <- $t<[a-z]+> '=' $($u<A> $u $t) A  A <- 'x' / $t"

def c61defs : List RDef :=
  [⟨false, txt "S", none, .seq [.cap (txt "t") (.rep (.cls ⟨[(97, 122)], false, false⟩) 1 none), .lit (txt "=") false,
      .capScope (.seq [.cap (txt "u") (.ref (txt "A") false []), .bref (txt "u"), .bref (txt "t")]), .ref (txt "A") false []], []⟩,
   ⟨false, txt "A", none, .cho [.lit (txt "x") false, .bref (txt "t")] false, []⟩]

theorem c61_reads : ReadsAs (txt c61text) (.defs c61defs) := readsAs_run (n := 400) (by decide +kernel)

/-- The back reference in `A` is to a capture in `S`: the text loads, but packrat parsing stays off. -/
example : tryText c61text true "ab=xxabab" = some (true, 9) ∧ undefBref c61defs = false ∧ ownCaps c61defs = false := by
  refine ⟨?_, ?_, ?_⟩ <;> decide +kernel

/-- The hypotheses of `C61_undefined_refused`: a capture inside a scope is not visible after it. -/
theorem C61_sample_refused (packrat : Bool) : ∃ n, ∀ m, n ≤ m →
    loadText m [] (fun _ _ => false) (fun _ _ => false) [0, 1] (txt "S <- $($x<'a'>) $x") none packrat true = .ok none := by
  refine C61_undefined_refused (ds := [⟨false, txt "S", none, .seq [.capScope (.cap (txt "x") (.lit (txt "a") false)), .bref (txt "x")], []⟩])
    (readsAs_run (n := 400) (by decide +kernel)) (p := [.opens, .cap (txt "x"), .closes]) (q := []) (x := txt "x") rfl ?_ [] _ _ _ _ _ _
  rintro ⟨p, q, h, hq⟩
  match p, h with
  | [.opens], h =>
    simp at h
    cases h
    have := hq [.closes] (List.prefix_refl _)
    exact absurd this (by decide)
  | [], h => simp at h
  | _ :: _ :: p, h =>
    rcases p with _ | ⟨_, _ | ⟨_, p⟩⟩ <;> simp at h

/-- The check is about the text, not about what has been matched: here the back reference is accepted, but when it is tried nothing has been captured. -/
theorem C61_counterexample_other_alternative : undefBref [⟨false, txt "S", none, .cho [.cap (txt "x") (.lit (txt "a") false), .bref (txt "x")] false, []⟩] = false ∧
    tryText "S <- $x<'a'> / $x" false "b" = some (false, 0) := by
  constructor <;> decide +kernel

end Verif.Props
