import Verif.Cert
/-!
# Derivations: the grammar read as a context-free grammar with values

`Der cfg K E t i f j f'`: the text from `i` to `j` is derived by `t`, and while doing so the semantic values of the current
scope go from `f` to `f'`.  This is a plain generative reading of a grammar: a choice may take any alternative, a repetition any
number of rounds within its bounds, `!e` matches nothing and is always allowed, `&e` must derive something, white space may or may
not be skipped where the grammar allows it.  Left recursion, precedence climbing, error recovery and user-defined parsers are
included.  There is no state: no memo tables, no error data, no cut, no stacks.

`DerProofs.lean` shows that whatever the engine accepts has a derivation; properties of all matches are then proved by induction
on derivations.
-/

namespace Verif
open CharClass

variable {V : Type}

/-- What a derivation may use besides the grammar: the (name, text) pairs that can have been captured, and whether errors may be
recovered. -/
structure DCtx where
  cap : List Byte → List Byte → Prop := fun _ _ => True
  recov : Bool := true

/-- The rule whose parameters are in scope and the arguments in scope (peglib.h 4101-4143 `rule_stack.back()`,
`top_args()`). -/
structure DEnv where
  cur : Option Nat := none
  top : List Ope := []

/-- * `ope e` an expression, `seqL es` a sequence, `reps e n` exactly `n` rounds, `skip` white space, `body d` the body of a rule
* `rule r v` a call of the (non-macro) rule `r` with value `v`; its frames are empty
* `prec ..` an operator expression of level at least `mp`; `precLoop ..` its tail, the expression having started at `start`. -/
inductive DTask (V : Type) where
  | ope (e : Ope)
  | seqL (es : List Ope)
  | reps (e : Ope) (n : Nat)
  | skip
  | body (d : Def)
  | rule (r : Nat) (v : Option V)
  | prec (a b : Ope) (info : List (List Byte × Nat × Byte)) (rule mp : Nat)
  | precLoop (a b : Ope) (info : List (List Byte × Nat × Byte)) (rule mp start : Nat)

/-- The predicate of a rule accepts the scope; `pd` is the data it hands to the action. -/
def PredVal (cfg : Cfg V) (r : Nat) (f : Frame V) (pd : Option V) : Prop :=
  match cfg.predicate r with
  | none => pd = none
  | some p => ∃ dt, (p f dt).1 = true ∧ pd = (p f dt).2.2

/-- The value of rule `r` for the scope `f`: its action's result, or the first value; nothing once an error was recovered. -/
inductive ActVal (cfg : Cfg V) (K : DCtx) (r : Nat) (d : Def) (f : Frame V) (pd : Option V) : Option V → Prop where
  | act {a dt} : cfg.action r = some a → d.disableAction = false → ActVal cfg K r d f pd (a f dt pd).1
  | first : (cfg.action r = none ∨ d.disableAction = true) → ActVal cfg K r d f pd (f.vals.head?.getD none)
  | recovered : K.recov = true → ActVal cfg K r d f pd none

/-- The `leave` callback may replace the value. -/
inductive LeaveVal (cfg : Cfg V) (r i j : Nat) (v : Option V) : Option V → Prop where
  | none : cfg.leave r = none → LeaveVal cfg r i j v v
  | some {l dt} : cfg.leave r = some l → LeaveVal cfg r i j v (l i (some j) v dt).1

/-- peglib.h 4244-4253: the scope of an operator expression after combining the operands found so far. -/
inductive PrecVal (cfg : Cfg V) (rule start j : Nat) (f : Frame V) : Frame V → Prop where
  | act {a dt} : cfg.action rule = some a →
      PrecVal cfg rule start j f
        { f with sv := (start, j - start), vals := [(a { f with sv := (start, j - start) } dt none).1] }
  | firstSv : cfg.action rule = none →
      PrecVal cfg rule start j f { f with sv := (start, j - start), vals := [f.vals.head?.getD none] }
  | first : cfg.action rule = none → PrecVal cfg rule start j f { f with vals := [f.vals.head?.getD none] }

def Frame.addTok (f : Frame V) (t : Nat × Nat) : Frame V := { f with tokens := f.tokens ++ [t] }

def Frame.setCh (f : Frame V) (n k : Nat) : Frame V := { f with choiceCount := n, choice := k }

def Frame.addVal (f : Frame V) (v : Option V) : Frame V := { f with vals := f.vals ++ [v] }

inductive Der (cfg : Cfg V) (K : DCtx) : DEnv → DTask V → Nat → Frame V → Nat → Frame V → Prop where
  -- white space
  | noSkip {E i f} : Der cfg K E .skip i f i f
  | skip {E w i f j f'} : cfg.ws = some w → Der cfg K E (.ope w) i f j f' → Der cfg K E .skip i f j f'
  | wsIn {E e i f} : Der cfg K E (.ope (.ws e)) i f i f
  | ws {E e i f j f'} : Der cfg K E (.ope e) i f j f' → Der cfg K E (.ope (.ws e)) i f j f'
  -- terminals
  | one {E e g k i f} : e.single = some g → g (cfg.rest i) = some k → Der cfg K E (.ope e) i f (i + k) f
  | lit {E t ic i f j f'} : litMatch t ic (cfg.rest i) = true → Der cfg K E .skip (i + t.length) f j f' →
      Der cfg K E (.ope (.lit t ic)) i f j f'
  | dict {E wl ic k n i f j f'} : (Trie.build wl ic).matchText (cfg.rest i) = (k, n) → k ≠ 0 →
      Der cfg K E .skip (i + k) (f.setCh wl.length n) j f' → Der cfg K E (.ope (.dict wl ic)) i f j f'
  | bref {E nm t i f j f'} : K.cap nm t → litMatch t false (cfg.rest i) = true → Der cfg K E .skip (i + t.length) f j f' →
      Der cfg K E (.ope (.bref nm)) i f j f'
  | usr {E id i f dt k} : (cfg.user id i f dt).1 = some k → i + k ≤ cfg.input.length →
      Der cfg K E (.ope (.usr id)) i f (i + k) (cfg.user id i f dt).2.1
  -- sequences, choices, repetitions, predicates
  | seq {E es kw i f j f'} : Der cfg K E (.seqL es) i f j f' → Der cfg K E (.ope (.seq es kw)) i f j f'
  | word {E es kw k i f j f'} : kwScan kw (cfg.rest i) = some k → Der cfg K E .skip (i + k) (f.addTok (i, k)) j f' →
      Der cfg K E (.ope (.seq es (some kw))) i f j f'
  | nil {E i f} : Der cfg K E (.seqL []) i f i f
  | cons {E e es i f k g j f'} : Der cfg K E (.ope e) i f k g → Der cfg K E (.seqL es) k g j f' →
      Der cfg K E (.seqL (e :: es)) i f j f'
  | cho {E es l fs n e i f j f'} : es[n]? = some e → Der cfg K E (.ope e) i f j f' →
      Der cfg K E (.ope (.cho es l fs)) i f j (f'.setCh es.length n)
  | cut {E i f} : Der cfg K E (.ope .cut) i f i f
  | rep {E e mn mx sp n i f j f'} : mn ≤ n → mx.all (n ≤ ·) = true ∨ n = mn → Der cfg K E (.reps e n) i f j f' →
      Der cfg K E (.ope (.rep e mn mx sp)) i f j f'
  | span {E e mn mx c k i f} : mn ≤ k → mx.all (k ≤ ·) = true → k ≤ (cfg.rest i).length →
      (∀ b ∈ (cfg.rest i).take k, c.asciiBit b = true) → Der cfg K E (.ope (.rep e mn mx (some c))) i f (i + k) f
  | zero {E e i f} : Der cfg K E (.reps e 0) i f i f
  | succ {E e n i f k g j f'} : Der cfg K E (.ope e) i f k g → Der cfg K E (.reps e n) k g j f' →
      Der cfg K E (.reps e (n + 1)) i f j f'
  | and {E e i f j f'} : Der cfg K E (.ope e) i f j f' → Der cfg K E (.ope (.and_ e)) i f i f
  | not {E e i f} : Der cfg K E (.ope (.not_ e)) i f i f
  -- captures, tokens, ignored values
  | capScope {E e i f j f'} : Der cfg K E (.ope e) i f j f' → Der cfg K E (.ope (.capScope e)) i f j f'
  | cap {E nm e i f j f'} : Der cfg K E (.ope e) i f j f' → Der cfg K E (.ope (.cap nm e)) i f j f'
  | tok {E e i f k g j f'} : Der cfg K E (.ope e) i f k g → Der cfg K E .skip k (g.addTok (i, k - i)) j f' →
      Der cfg K E (.ope (.tok e)) i f j f'
  | ign {E e i f j g} : Der cfg K E (.ope e) i {} j g → Der cfg K E (.ope (.ign e)) i f j f
  -- rules and macros
  | ref {E r nm as d v i f j} : cfg.rules[r]? = some d → d.isMacro = false → Der cfg K E (.rule r v) i {} j {} →
      Der cfg K E (.ope (.ref r nm as)) i f j (pushValue d v f)
  | call {E r nm as d q c i f j f'} : cfg.rules[r]? = some d → d.isMacro = true → E.cur = some q → cfg.rules[q]? = some c →
      Der cfg K ⟨some r, resolveList c.params E.top as⟩ (.ope d.ope) i f j f' → Der cfg K E (.ope (.ref r nm as)) i f j f'
  | param {E k nm e i f j f'} : E.top[k]? = some e → Der cfg K E (.ope e) i f j f' → Der cfg K E (.ope (.param k nm)) i f j f'
  | body {E d i f j f'} : d.noWs = false → Der cfg K E (.ope d.ope) i f j f' → Der cfg K E (.body d) i f j f'
  | bodyWs {E d i f k g j f'} : d.noWs = true → Der cfg K E (.ope d.ope) i f k g → Der cfg K E .skip k g j f' →
      Der cfg K E (.body d) i f j f'
  | rule {E r d i j g pd v v'} : cfg.rules[r]? = some d → d.isMacro = false →
      Der cfg K ⟨some r, []⟩ (.body d) i {} j g →
      PredVal cfg r (ruleFrame r d i j g) pd → ActVal cfg K r d (ruleFrame r d i j g) pd v → LeaveVal cfg r i j v v' →
      Der cfg K E (.rule r v') i {} j {}
  -- operator expressions
  | precOpe {E a b info r i f j f'} : Der cfg K E (.prec a b info r 0) i f j f' → Der cfg K E (.ope (.prec a b info r)) i f j f'
  | prec {E a b info r mp i f k g j f'} : Der cfg K E (.ope a) i f k g → Der cfg K E (.precLoop a b info r mp i) k g j f' →
      Der cfg K E (.prec a b info r mp) i f j f'
  | precEnd {E a b info r mp s i f} : Der cfg K E (.precLoop a b info r mp s) i f i f
  | precMore {E a b info r mp s i f k g tok level assoc opv ops l h rv rvs f1 j f'} :
      Der cfg K E (.ope b) i {} k g → info.lookup tok = some (level, assoc) → mp ≤ level → g.vals = opv :: ops →
      Der cfg K E (.prec a b info r (if assoc = 76 then level + 1 else level)) k {} l h → h.vals = rv :: rvs →
      PrecVal cfg r s l ((f.addVal opv).addVal rv) f1 → Der cfg K E (.precLoop a b info r mp s) l f1 j f' →
      Der cfg K E (.precLoop a b info r mp s) i f j f'
  -- error recovery
  | recov {E r nm as i f j g} : K.recov = true → Der cfg K E (.ope (.ref r nm as)) i {} j g →
      Der cfg K E (.ope (.recov r nm as)) i f j f
  -- when values are not collected
  | anyFrame {E t i f j f' g g'} : cfg.recognizeOnly = true → Der cfg K E t i f j f' → Der cfg K E t i g j g'
  | ruleReco {E r d i f j g} : cfg.recognizeOnly = true → cfg.rules[r]? = some d → d.isMacro = false →
      Der cfg K ⟨some r, []⟩ (.body d) i f j g → Der cfg K E (.rule r none) i {} j {}

end Verif
