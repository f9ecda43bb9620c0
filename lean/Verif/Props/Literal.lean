import Verif.Props.ReadTypes
/-!
# The literal an error report shows for a rule

`FindLiteralToken` (peglib.h 2507-2524, 4380-4387) is run on the rule on top of the rule stack when something without a literal of its own fails and
errors are logged (3617-3629).  It follows calls of macros through `rule_`, which is null if the call is one of a parameter.  `Src.litScan` (used by
`linkAll`, and so by all claims about loaded parsers) leaves this out; here it is modelled, and the two are compared.
-/

namespace Verif

mutual
/-- peglib.h 2507-2524, 4380-4387 `FindLiteralToken` on a rule with parameters `ps`, for which `LinkReferences` (4917-4927) leaves `rule_` null. -/
def Src.litVisit (ps : List (List Byte)) : Src → Option (List Byte) → Out (Option (List Byte))
  | .lit s _, _ => .ok (some s)
  | .tok e, acc => e.litVisit ps acc
  | .ign e, acc => e.litVisit ps acc
  | .ref nm mac as, acc => if mac then if nm ∈ ps then .ub "null rule" else Src.litVisitL ps as acc else .ok acc
  | .recov nm mac as, acc => if mac then if nm ∈ ps then .ub "null rule" else Src.litVisitL ps as acc else .ok acc
  | _, acc => .ok acc
/-- The loop of 4383-4385. -/
def Src.litVisitL (ps : List (List Byte)) : List Src → Option (List Byte) → Out (Option (List Byte))
  | [], acc => .ok acc
  | e :: es, acc => (e.litVisit ps acc).bind (Src.litVisitL ps es)
end

mutual
theorem litVisit_cases (ps : List (List Byte)) : ∀ (e : Src) (acc : Option (List Byte)),
    e.litVisit ps acc = .ok (e.litScan acc) ∨ (e.litVisit ps acc = .ub "null rule" ∧ ∃ x ∈ e.refs ps, x.1 ∈ ps ∧ x.2.1 = true)
  | .lit s _, _ => .inl rfl
  | .tok e, acc => litVisit_cases ps e acc
  | .ign e, acc => litVisit_cases ps e acc
  | .ref nm mac as, acc => by
    simp only [Src.litVisit, Src.litScan, Src.refs]
    cases mac with
    | false => exact .inl rfl
    | true =>
      simp only [if_true]
      by_cases hn : nm ∈ ps
      · simp [hn]
      · simp only [hn, if_false]
        rcases litVisitL_cases ps as acc with h | ⟨h, x, hx, h'⟩
        · exact .inl h
        · exact .inr ⟨h, x, List.mem_cons_of_mem _ hx, h'⟩
  | .recov nm mac as, acc => by
    simp only [Src.litVisit, Src.litScan, Src.refs]
    cases mac with
    | false => exact .inl rfl
    | true =>
      simp only [if_true]
      by_cases hn : nm ∈ ps
      · simp [hn]
      · simp only [hn, if_false]
        rcases litVisitL_cases ps as acc with h | ⟨h, x, hx, h'⟩
        · exact .inl h
        · exact .inr ⟨h, x, List.mem_cons_of_mem _ hx, h'⟩
  | .seq _, _ => .inl rfl
  | .cho _ _, _ => .inl rfl
  | .rep _ _ _, _ => .inl rfl
  | .and_ _, _ => .inl rfl
  | .not_ _, _ => .inl rfl
  | .capScope _, _ => .inl rfl
  | .cap _ _, _ => .inl rfl
  | .dict _ _, _ => .inl rfl
  | .cls _, _ => .inl rfl
  | .chr _, _ => .inl rfl
  | .dot, _ => .inl rfl
  | .usr _, _ => .inl rfl
  | .bref _, _ => .inl rfl
  | .cut, _ => .inl rfl
theorem litVisitL_cases (ps : List (List Byte)) : ∀ (es : List Src) (acc : Option (List Byte)),
    Src.litVisitL ps es acc = .ok (Src.litScanL es acc) ∨
      (Src.litVisitL ps es acc = .ub "null rule" ∧ ∃ x ∈ Src.refsL ps es, x.1 ∈ ps ∧ x.2.1 = true)
  | [], _ => .inl rfl
  | e :: es, acc => by
    simp only [Src.litVisitL, Src.litScanL, Src.refsL]
    rcases litVisit_cases ps e acc with h | ⟨h, x, hx, h'⟩
    · rw [h]
      rcases litVisitL_cases ps es (e.litScan acc) with h | ⟨h, x, hx, h'⟩
      · exact .inl h
      · exact .inr ⟨h, x, List.mem_append_right _ hx, h'⟩
    · rw [h]
      exact .inr ⟨rfl, x, List.mem_append_left _ hx, h'⟩
end

namespace Props
open Out Meta

/-- **C36** If no rule of the grammar calls one of its parameters with arguments (`p('x')` in `M(p)`), looking up the literal of any rule for an error
report dereferences no null pointer, and finds what the model of the loaded grammar (`linkAll`) says. -/
theorem C36_literal_lookup_safe {S : Source} (hp : ∀ d ∈ S.all, ∀ x ∈ d.body.refs d.head.params, x.1 ∈ d.head.params → x.2.1 = false) :
    ∀ d ∈ S.all, d.body.litVisit d.head.params none = .ok (d.body.litScan none) := by
  intro d hd
  rcases litVisit_cases d.head.params d.body none with h | ⟨-, x, hx, h1, h2⟩
  · exact h
  · rw [hp d hd x hx h1] at h2; cases h2

/-- `S <- M([a])  M(p) <- p('x')`. -/
def c36call : List Byte := txt "S <- M([a])  M(p) <- p('x')"


/-- The parser of the text, with the literal `!` for the rule numbered `i`, parses `b` with logging; is `!` recorded as expected?  Then the literal of
that rule was asked for. -/
def asksLiteral (i : Nat) : Bool :=
  match loadText 600 [] (fun _ _ => false) (fun _ _ => false) (List.range 3) c36call none false true with
  | .ok (some (G, a)) =>
    let rules := G.rules.mapIdx fun k d => if k = i then { d with errLit := some [33] } else d
    match (Shared.parse (V := Nat) (fun o _ => o.map fun _ => false) { G with rules := rules } 60 {} { start := a, input := [98], log := true }).1 with
    | .ok r => r.res.st.fails.any fun f => decide (f.item.bind (·.1) = some (.lit [33]))
    | _ => false
  | _ => false

/-- Looking up the literal of the rule numbered `i` dereferences null. -/
def litCrashes (i : Nat) : Bool :=
  match readText 600 [] c36call with
  | .ok (.defs ds) => match (ds[i - 1]?).map fun d => d.toSDef.body.litVisit d.toSDef.head.params none with
    | some (Out.ub _) => true
    | _ => false
  | _ => false

/-- **C36 and C54 fail in general**: `S <- M([a])  M(p) <- p('x')` loads; parsing `b` with a logger asks for the literal of the rule `M`, and looking it up
dereferences null (rule 1 is `S`, rule 2 is `M`). -/
theorem C36_parameter_call_null : asksLiteral 2 = true ∧ litCrashes 2 = true ∧ asksLiteral 1 = false ∧ litCrashes 1 = false := by decide +kernel

/-- The condition of `C36_literal_lookup_safe` holds for a grammar with a macro. -/
example : ∀ d ∈ c36macro.all, d.body.litVisit d.head.params none = .ok (d.body.litScan none) :=
  C36_literal_lookup_safe (by
    have h : (c36macro.all.all fun d => (d.body.refs d.head.params).all fun x => decide (x.1 ∈ d.head.params → x.2.1 = false)) = true := by decide +kernel
    intro d hd x hx
    exact of_decide_eq_true (List.all_eq_true.1 (List.all_eq_true.1 h d hd) x hx))

end Props
end Verif
