import Verif.LoadSimple
import Verif.LoadInv
/-!
# Loading: C36

`load mark loops order S` is the part of `load_grammar` after reading: duplicate check, start rule, reference check, linking, the
left-recursion and loop checks (arbitrary oracles here), white space, word, precedence, first sets.  `S` holds the rules as read.
-/

namespace Verif.Props
open Verif Out

variable {V : Type}

/-- C36: if the grammar loads, every reference in every rule names a parameter in scope, or a defined rule, with arguments exactly when the rule is
a macro and then as many as it has parameters.  Not covered: references inside the argument list of a reference to a parameter, which the check
skips (`C36_unchecked_argument`) and a parse never looks at. -/
theorem C36_references_resolve_partial {mark loops : List Def → Nat → Bool} {order : List Nat} {S : Source} (hw : S.Wf) {G : Parser} {a : Nat}
    (h : load mark loops order S = .ok (some (G, a))) (d : SDef) (hd : d ∈ S.defs) (x : List Byte × Bool × Nat) (hx : x ∈ d.body.refs d.head.params) :
    x.1 ∈ d.head.params ∨ ∃ e ∈ S.all, e.head.name = x.1 ∧
      if e.head.isMacro then x.2.1 = true ∧ x.2.2 = e.head.params.length else x.2.1 = false := by
  have hr := (load_ok hw h).refs
  have := (check_iff S.all d.head.params d.body).1 (List.all_eq_true.1 hr d (List.mem_cons_of_mem _ hd)) x hx
  rcases this with h | ⟨r, e, h1, h2, h3, h4⟩
  · exact Or.inl h
  · obtain ⟨e', h5, h6⟩ := ruleNamed_some h1
    rw [h2] at h5
    cases h5
    refine Or.inr ⟨e, List.mem_of_getElem? h2, h6, ?_⟩
    by_cases hm : e.head.isMacro = true
    · rw [if_pos hm]; exact h3 hm
    · rw [if_neg hm]; exact h4 (by simpa using hm)

/-- C36, the converse: a reference that does not resolve makes loading fail. -/
theorem C36_unresolved_refused {mark loops : List Def → Nat → Bool} {order : List Nat} {S : Source} (hw : S.Wf) (d : SDef) (hd : d ∈ S.defs)
    (x : List Byte × Bool × Nat) (hx : x ∈ d.body.refs d.head.params) (hp : x.1 ∉ d.head.params)
    (hn : ∀ e ∈ S.all, e.head.name = x.1 → ¬ if e.head.isMacro then x.2.1 = true ∧ x.2.2 = e.head.params.length else x.2.1 = false) :
    ∀ r, load mark loops order S = .ok (some r) → False := by
  rintro ⟨G, a⟩ h
  rcases C36_references_resolve_partial hw h d hd x hx with h | ⟨e, h1, h2, h3⟩
  · exact hp h
  · exact hn e h1 h2 h3

/-- C36: in the loaded grammar, every reference in every rule (arguments included) points to the rule it names, which has as many parameters as
arguments are given, or to a parameter of the rule it stands in. -/
theorem C36_linked {mark loops : List Def → Nat → Bool} {order : List Nat} {S : Source} (hw : S.Wf) {G : Parser} {a : Nat}
    (h : load mark loops order S = .ok (some (G, a))) (r : Nat) (d : Def) (hd : G.rules[r]? = some d) : d.ope.linked G.rules d.params = true :=
  ((load_ok hw h).linked r d hd).1

/-- C36: a grammar without macros, labels, user operators and precedence instructions that loads is safe: no parse of any text (any actions,
predicates, handlers, logging; any number of earlier parses) dereferences an unresolved rule, or does anything undefined; the only
exception is a throw by an action or the log of a text with invalid encoding (`NoUb`). -/
theorem C36_simple_grammar_safe_partial {mark loops : List Def → Nat → Bool} {order : List Nat} {S : Source} (hs : S.Simple) {G : Parser} {a : Nat}
    (h : load mark loops order S = .ok (some (G, a))) (F : List Nat → Nat → List Bool) (n m : Nat) (hist : List (Call V)) (c : Call V)
    (ha : c.start = a) (hh : ∀ x ∈ hist, x.start = a) :
    NoUb c.log (Shared.parse F G n (Shared.after F G m {} hist) c).1 := by
  have hl := load_ok hs.wf h
  have := parse_after_first F G n m [] hist c (by intro x hx; cases hx) (by rw [ha]; exact hh)
  rw [List.nil_append] at this
  rw [this]
  exact load_safe hs.wf hl (careful_of_simple hs hl) F n c ha (by intro h; cases h)

/-- C36 with macros, labels, user operators and precedence: the same for grammars that also meet `Careful`, conditions on the loaded rules which the
loader does not check: the start rule, `%whitespace` and `%word` are not macros, the latter two call no macros, arguments contain no back
references, user operators or precedence climbing, labels are rules, the operands of precedence climbing produce values. -/
theorem C36_careful_grammar_safe_partial {mark loops : List Def → Nat → Bool} {order : List Nat} {S : Source} (hw : S.Wf) {G : Parser} {a : Nat}
    (h : load mark loops order S = .ok (some (G, a))) {u : Bool} (hc : Careful u G a) (F : List Nat → Nat → List Bool) (n m : Nat)
    (hist : List (Call V)) (c : Call V) (ha : c.start = a) (hh : ∀ x ∈ hist, x.start = a)
    (hu : u = true → ∀ id i f dt k, (c.user id i f dt).1 = some k → i + k ≤ c.input.length) :
    NoUb c.log (Shared.parse F G n (Shared.after F G m {} hist) c).1 := by
  have := parse_after_first F G n m [] hist c (by intro x hx; cases hx) (by rw [ha]; exact hh)
  rw [List.nil_append] at this
  rw [this]
  exact load_safe hw (load_ok hw h) hc F n c ha hu

/-! ## The checks made while loading -/

theorem tokened_get {mark : List Def → Nat → Bool} {S : Source} {r : Nat} {d : Def} (h : (S.tokened mark)[r]? = some d) :
    ∃ d0, (linkAll S.all)[r]? = some d0 ∧ (d.ope = d0.ope ∨ d.ope = .tok d0.ope) ∧ (S.leftRec = true → d.isLR = mark (linkAll S.all) r) ∧
      d.disableAction = d0.disableAction := by
  have h1 : ∀ (d : Def), (S.marked mark)[r]? = some d → ∃ d0, (linkAll S.all)[r]? = some d0 ∧ d.ope = d0.ope ∧
      (S.leftRec = true → d.isLR = mark (linkAll S.all) r) ∧ d.disableAction = d0.disableAction := by
    intro d hd
    unfold Source.marked at hd
    split at hd
    · rw [List.getElem?_mapIdx] at hd
      cases h0 : (linkAll S.all)[r]? with
      | none => rw [h0] at hd; cases hd
      | some d0 => rw [h0] at hd; cases hd; exact ⟨d0, rfl, rfl, fun _ => rfl, rfl⟩
    · rename_i hl; exact ⟨d, hd, rfl, fun h => absurd h hl, rfl⟩
  unfold Source.tokened at h
  split at h
  · rw [List.getElem?_map] at h
    cases h0 : (S.marked mark)[r]? with
    | none => rw [h0] at h; cases h
    | some d1 =>
      rw [h0] at h
      cases h
      obtain ⟨d0, e1, e2, e3, e4⟩ := h1 d1 h0
      refine ⟨d0, e1, ?_, ?_, ?_⟩
      · unfold tokLit; split
        · exact Or.inr (congrArg Ope.tok e2)
        · exact Or.inl e2
      · intro hl; rw [← e3 hl]; unfold tokLit; split <;> rfl
      · rw [← e4]; unfold tokLit; split <;> rfl
  · obtain ⟨d0, e1, e2, e3, e4⟩ := h1 d h
    exact ⟨d0, e1, Or.inl e2, e3, e4⟩

/-- C31: with left recursion enabled the loaded rules are marked left-recursive exactly as the check on the linked grammar says; with left
recursion disabled a grammar in which the check finds any left-recursive rule does not load. -/
theorem C31_load_uses_the_check {mark loops : List Def → Nat → Bool} {order : List Nat} {S : Source} {G : Parser} {a : Nat}
    (h : load mark loops order S = .ok (some (G, a))) :
    (S.leftRec = true → ∀ (r : Nat) (d : Def), G.rules[r]? = some d → d.isLR = mark (linkAll S.all) r) ∧
    (S.leftRec = false → ∀ r : Nat, r < S.all.length → mark (linkAll S.all) r = false) := by
  obtain ⟨h1, -, -, -, rs, hp, hG, -⟩ := load_inv h
  refine ⟨fun hl r d hd => ?_, h1⟩
  rw [hG] at hd
  have e0 := setupAll_plain rs order r
  rw [hd] at e0
  cases h3 : rs[r]? with
  | none => rw [h3] at e0; cases e0
  | some d3 =>
    rw [h3] at e0
    have e1 : d.isLR = d3.isLR := congrArg (fun x : Option Def => (x.map Def.isLR).getD false) e0
    rw [e1]
    obtain ⟨g1, g2⟩ := precAll_get hp r
    cases h2 : (S.tokened mark)[r]? with
    | none => rw [g1 h2] at h3; cases h3
    | some d2 =>
      obtain ⟨d2', f1, f2⟩ := g2 d2 h2
      rw [h3] at f1
      cases f1
      obtain ⟨d0, -, -, k, -⟩ := tokened_get h2
      rw [← k hl]
      rcases f2 with ⟨-, f2⟩ | ⟨i, -, f2⟩
      · rw [f2]
      · obtain ⟨_, _, _, _, _, _, _, _, _, _, _, _, _, _, _, e⟩ := applyPrec_inv f2
        rw [e]

/-- C30: a grammar loads only if the loop check passes from the start rule, from `%whitespace` and from `%word`. -/
theorem C30_load_uses_the_check {mark loops : List Def → Nat → Bool} {order : List Nat} {S : Source} {G : Parser} {a : Nat}
    (h : load mark loops order S = .ok (some (G, a))) :
    loops (S.marked mark) a = false ∧ (∀ w, ruleNamed S.all whitespaceName = some w → loops (S.tokened mark) w = false) ∧
    (∀ w, ruleNamed S.all wordName = some w → loops (S.tokened mark) w = false) := by
  obtain ⟨-, h1, h2, h3, -⟩ := load_inv h
  exact ⟨h1, h2, h3⟩

/-- C34: a grammar with a precedence instruction on a rule loads only if that rule begins `A (O A …)* …` where `A` and `O` are references with
different names; the rule then climbs with operand `A`, operator `O` and the levels of the instruction.  (Elements where the dots are, which the
code drops, are allowed; without any the rule is `A (O A)*`.) -/
theorem C34_instruction_shape {mark loops : List Def → Nat → Bool} {order : List Nat} {S : Source} {G : Parser} {a : Nat}
    (h : load mark loops order S = .ok (some (G, a))) {r : Nat} {d : Def} (hd : G.rules[r]? = some d) {info : List (List Byte × Nat × Byte)}
    (hi : S.prec r = some info) :
    ∃ (d0 : Def) (A O A' : Ope) (x y : List Byte) (t1 t2 : List Ope) (k1 k2 : Option KwGuard) (sp : Option CharClass.Cls),
      (linkAll S.all)[r]? = some d0 ∧ d0.ope = .seq (A :: .rep (.seq (O :: A' :: t1) k1) 0 none sp :: t2) k2 ∧
      A.refName = some x ∧ O.refName = some y ∧ A'.refName = some x ∧ x ≠ y ∧
      d.ope.plain = (Ope.prec A O info r).plain ∧ d.disableAction = true := by
  obtain ⟨-, -, -, -, rs, hp, hG, -⟩ := load_inv h
  rw [hG] at hd
  have e0 := setupAll_plain rs order r
  rw [hd] at e0
  cases h3 : rs[r]? with
  | none => rw [h3] at e0; cases e0
  | some d3 =>
    rw [h3] at e0
    have e1 : d.ope.plain = d3.ope.plain := congrArg Def.ope (Option.some.inj e0)
    have e2 : d.disableAction = d3.disableAction := congrArg (fun x : Option Def => (x.map Def.disableAction).getD false) e0
    obtain ⟨g1, g2⟩ := precAll_get hp r
    cases h2 : (S.tokened mark)[r]? with
    | none => rw [g1 h2] at h3; cases h3
    | some d2 =>
      obtain ⟨d2', f1, f2⟩ := g2 d2 h2
      rw [h3] at f1
      cases f1
      rw [Nat.zero_add, hi] at f2
      rcases f2 with ⟨f2, -⟩ | ⟨i, f2, f3⟩
      · cases f2
      · cases f2
        obtain ⟨A, O, A', t1, t2, k1, k2, sp, x, y, s1, s2, s3, s4, s5, s6⟩ := applyPrec_inv f3
        obtain ⟨d0, l1, l2, -, -⟩ := tokened_get h2
        refine ⟨d0, A, O, A', x, y, t1, t2, k1, k2, sp, l1, ?_, s2, s3, s4, s5, ?_, ?_⟩
        · rcases l2 with l2 | l2
          · rw [← l2]; exact s1
          · rw [s1] at l2; cases l2
        · rw [e1, s6]
        · rw [e2, s6]

/-! ## Witnesses and counterexamples -/

def c36b (s : String) : List Byte := s.toUTF8.toList

/-- A rule: name, body, parameters, `~`. -/
def c36d (nm : String) (e : Src) (ps : List String := []) (ig : Bool := false) : SDef where
  head := { name := c36b nm, ope := .cut, isMacro := !ps.isEmpty, params := ps.map c36b, ignoreSV := ig }
  body := e

def c36l (s : String) : Src := .lit (c36b s) false
def c36r (s : String) (as : List Src := []) : Src := .ref (c36b s) (!as.isEmpty) as

inductive LoadObs where
  | refused
  | loadUb (s : String)
  | ub (s : String)
  | res (ok : Bool) (len : Nat)
  | other
  deriving DecidableEq

/-- Load (no rule left-recursive, no loop found), then parse. -/
def loadParse (S : Source) (inp : String) : LoadObs :=
  match load (fun _ _ => false) (fun _ _ => false) (List.range S.all.length) S with
  | .ub s => .loadUb s
  | .oof => .other
  | .ok none => .refused
  | .ok (some (G, a)) =>
    match (Shared.parse (V := Nat) (fun o _ => o.map fun _ => false) G 40 {} { start := a, input := c36b inp }).1 with
    | .ub s => .ub s
    | .oof => .other
    | .ok x => .res x.ok x.res.len

/-- `S <- A (',' A)* !.;  A <- 'a' / '(' S ')';  %whitespace <- ' '*;  %word <- [a]+`, a simple grammar. -/
def c36simple : Source where
  defs := [c36d "S" (.seq [c36r "A", .rep (.seq [c36l ",", c36r "A"]) 0 none]), c36d "A" (.cho [c36l "a", .seq [c36l "(", c36r "S", c36l ")"]] false),
    c36d "%whitespace" (.rep (c36l " ") 0 none), c36d "%word" (.rep (c36l "a") 1 none)]

theorem c36simple_simple : c36simple.Simple where
  noMacros := by intro d hd; revert d; decide +kernel
  bodies := by intro d hd; revert d; decide +kernel
  noPrec := fun _ => rfl

example : loadParse c36simple "a , ( a,a)" = .res true 10 := by decide +kernel

/-- `S <- L(A, ',');  L(x, s) <- x (s x)*;  A <- 'a'`. -/
def c36macro : Source where
  defs := [c36d "S" (c36r "L" [c36r "A", c36l ","]), c36d "L" (.seq [c36r "x", .rep (.seq [c36r "s", c36r "x"]) 0 none]) ["x", "s"], c36d "A" (c36l "a")]

theorem c36macro_wf : c36macro.Wf where
  recovs := by intro d hd; revert d; decide +kernel
  names := by intro d hd; revert d; decide +kernel
  plain := by intro d hd; revert d; decide +kernel

example : loadParse c36macro "a,a" = .res true 3 := by decide +kernel

/-- It loads and meets the conditions of `C36_careful_grammar_safe_partial`. -/
example : ∃ G a, load (fun _ _ => false) (fun _ _ => false) (List.range 4) c36macro = .ok (some (G, a)) ∧ Careful false G a := by
  have h : (match load (fun _ _ => false) (fun _ _ => false) (List.range 4) c36macro with
    | .ok (some (G, a)) => carefulAll G a
    | _ => false) = true := by decide +kernel
  split at h
  · rename_i G a e; exact ⟨G, a, e, carefulAll_ok h⟩
  · cases h

/-- The references of the second rule, checked by the loader. -/
example : ((c36macro.defs[1]?).map fun d => d.body.refs d.head.params) =
    some [(c36b "x", false, 0), (c36b "s", false, 0), (c36b "x", false, 0)] := by decide +kernel

/-- The counterpart of `C36_unresolved_refused`: an undefined name, a macro with too few arguments. -/
example : loadParse { defs := [c36d "S" (c36r "B")] } "" = .refused ∧
    loadParse { defs := [c36d "S" (c36r "L" [c36r "A"]), c36d "L" (c36r "x") ["x", "s"], c36d "A" (c36l "a")] } "" = .refused := by decide +kernel

/-- C36, literally, fails: `M(x) <- x(Undef)` loads although `Undef` is not defined. -/
theorem C36_unchecked_argument :
    loadParse { defs := [c36d "S" (c36r "M" [c36l "z"]), c36d "M" (c36r "x" [c36r "Undef"]) ["x"]] } "z" = .res true 1 := by decide +kernel

/-- C36 fails in general: these grammars load, and parsing dereferences something that is not there.
* `S(x) <- x`: the parameter of the start rule has no argument;
* `S <- 'a';  %whitespace <- M(' ')*;  M(x) <- x`: the macro call reads the rule stack, which is empty;
* `S <- $c<'a'> M($c);  M(x) <- x`: the back reference as an argument becomes a null operator. -/
theorem C36_loaded_but_unresolved :
    loadParse { defs := [c36d "S" (c36r "x") ["x"]] } "a" = .ub "argument index out of range" ∧
    loadParse { defs := [c36d "S" (c36l "a"), c36d "%whitespace" (.rep (c36r "M" [c36l " "]) 0 none), c36d "M" (c36r "x") ["x"]] } " a" =
      .ub "rule_stack.back() of an empty vector" ∧
    loadParse { defs := [c36d "S" (.seq [.cap (c36b "c") (c36l "a"), c36r "M" [.bref (c36b "c")]]), c36d "M" (c36r "x") ["x"]] } "aa" =
      .ub "null operator" := by decide +kernel

/-- A grammar with only `%` rules: the start rule is `grammar[""]`, without operator, which loading dereferences. -/
theorem C36_no_start_rule :
    loadParse { defs := [c36d "%whitespace" (c36l " ")] } "" = .loadUb "the start rule has no operator" := by decide +kernel

/-- Precedence climbing with an ignored operator rule: `E <- A (O A)* { precedence L + };  A <- 'a';  ~O <- '+'` reads the first of no values. -/
theorem C36_precedence_ignored_operator :
    loadParse { defs := [c36d "E" (.seq [c36r "A", .rep (.seq [c36r "O", c36r "A"]) 0 none]), c36d "A" (c36l "a"), c36d "O" (c36l "+") [] true],
                prec := fun k => if k = 1 then some [(c36b "+", 1, 76)] else none } "a+a" = .ub "chvs[0] of an empty vector" := by decide +kernel

/-- The hypotheses of `C34_instruction_shape` are met: `E <- A (O A)* { precedence L + };  A <- 'a';  O <- '+'` loads. -/
example : ∃ G a d, load (fun _ _ => false) (fun _ _ => false) (List.range 4)
      { defs := [c36d "E" (.seq [c36r "A", .rep (.seq [c36r "O", c36r "A"]) 0 none]), c36d "A" (c36l "a"), c36d "O" (c36l "+")],
        prec := fun k => if k = 1 then some [(c36b "+", 1, 76)] else none } = .ok (some (G, a)) ∧ G.rules[1]? = some d ∧ d.disableAction = true := by
  have h : (match load (fun _ _ => false) (fun _ _ => false) (List.range 4)
      { defs := [c36d "E" (.seq [c36r "A", .rep (.seq [c36r "O", c36r "A"]) 0 none]), c36d "A" (c36l "a"), c36d "O" (c36l "+")],
        prec := fun k => if k = 1 then some [(c36b "+", 1, 76)] else none } with
    | .ok (some (G, _)) => (G.rules[1]?).map Def.disableAction
    | _ => none) = some true := by decide +kernel
  split at h
  · rename_i G a e
    cases hd : G.rules[1]? with
    | none => rw [hd] at h; cases h
    | some d => rw [hd] at h; exact ⟨G, a, d, e, hd, by simpa using h⟩
  · cases h

end Verif.Props
