import Verif.Engine
/-!
# Reference semantics

The meaning of a grammar as a big-step relation: plain PEG (Ford 2004) with the extensions of cpp-peglib (semantic values,
captures, white space, word boundaries, token boundaries, cut, macros), and nothing else: no memo tables, no first sets,
no keyword guard, no span scan, no recognise-only mode, no error reports, no re-entry guard, no stacks.  A rule marked left
recursive has a meaning if it is directly left recursive, `A <- A r1 / ... / A rn / b`: `b` followed by as many of `r1 / ... / rn`
as there are, the value of each prefix being the first value of the next.  Error recovery, user-defined parsers and indirect
left recursion are not covered.

`Peg G env m t i s x`: in grammar `G`, with macro arguments `env` and mode `m`, task `t` at offset `i` with values and
captures `s` has result `x`.
-/

namespace Verif
open CharClass

/-- A grammar with its input and callbacks.  Callbacks do not see the user datum. -/
structure Gram (V : Type) where
  input : List Byte
  rules : List Def
  /-- scope, predicate data ↦ value -/
  action : Nat → Option (Frame V → Option V → Option V)
  /-- scope ↦ accepted?, predicate data -/
  predicate : Nat → Option (Frame V → Bool × Option V)
  /-- start, result, value ↦ value -/
  leave : Nat → Option (Nat → Option Nat → Option V → Option V)
  ws : Option Ope
  word : Option Ope

/-- The grammar in which `%word` is tested: on some input, without white space and word rule. -/
def Gram.bare {V : Type} (G : Gram V) (input : List Byte) : Gram V := { G with input := input, ws := none, word := none }

/-- Macro parameters and arguments in scope. -/
structure Env where
  params : List (List Byte) := []
  args : List Ope := []

/-- Inside a token boundary; inside white space. -/
structure Mode where
  tok : Bool := false
  ws : Bool := false
  deriving DecidableEq

/-- Captures and semantic values of the enclosing rule. -/
structure PSt (V : Type) where
  caps : List (List Byte × List Byte) := []
  vs : Frame V := {}

/-- `fail cut`, or success ending at `j` with new captures and values.  `cut`: a cut of the enclosing choice was
passed. -/
inductive PRes (V : Type) where
  | fail (cut : Bool)
  | ok (j : Nat) (cut : Bool) (s : PSt V)

def PRes.orCut {V : Type} (c : Bool) : PRes V → PRes V
  | .fail c' => .fail (c || c')
  | .ok j c' s => .ok j (c || c') s

/-- A choice keeps its cuts to itself. -/
def PRes.noCut {V : Type} : PRes V → PRes V
  | .fail _ => .fail false
  | .ok j _ s => .ok j false s

/-- * `ope e`: an expression;  `seqL`, `choL es k n`: the rest of a sequence / of a choice between `n` alternatives (the next
  one is number `k`);  `loop e need max count`: a repetition that still needs `need` matches and has made `count`
* `prec a b info r mp`: operands `a` joined by operators `b` of level at least `mp`;  `precL a b info r mp start`: the same
  when the expression from `start` up to here has been read and is the only value of the scope
* `text t ic`: a literal or back reference;  `skip`: white space;  `body d`: the body of a rule;  `hold r`: a call of rule
  `r`
* `grow r i`: a call of the left-recursive rule `r` that started at `i` and has come here; the value of what it has read is
  the only value of the scope. -/
inductive PTask where
  | ope (e : Ope)
  | seqL (es : List Ope)
  | choL (es : List Ope) (k n : Nat)
  | loop (e : Ope) (need : Nat) (max : Option Nat) (count : Nat)
  | text (t : List Byte) (ic : Bool)
  | skip
  | body (d : Def)
  | hold (r : Nat)
  | grow (r i : Nat)
  | prec (a b : Ope) (info : List (List Byte × Nat × Byte)) (r mp : Nat)
  | precL (a b : Ope) (info : List (List Byte × Nat × Byte)) (r mp start : Nat)

/-- The operators that look at one character. -/
def Ope.single : Ope → Option (List Byte → Option Nat)
  | .cls c => some c.matchLen
  | .chr c => some (matchChar c)
  | .dot => some matchAny
  | _ => none

/-- The scope of a rule when its body has matched `[i, j)`: `choice()` is kept only if the body is a choice. -/
def ruleFrame (r : Nat) (d : Def) (i j : Nat) (f : Frame V) : Frame V :=
  let f := { f with sv := (i, j - i), name := some r }
  if d.ope.choiceLikeTop then f else { f with choiceCount := 0, choice := 0 }

/-- The value of a rule: its action applied to the scope, or the first value. -/
def ruleValue (G : Gram V) (r : Nat) (d : Def) (i j : Nat) (f : Frame V) (pd : Option V) : Option V :=
  let v := match G.action r with
    | some a => if d.disableAction then f.vals.head?.getD none else a f pd
    | none => f.vals.head?.getD none
  match G.leave r with
  | some l => l i (some j) v
  | none => v

/-- The caller's scope after a successful rule. -/
def pushValue (d : Def) (v : Option V) (f : Frame V) : Frame V :=
  if d.ignoreSV then f else { f with vals := f.vals ++ [v], tags := f.tags ++ [str2tag d.name] }

/-- The alternatives of a left-recursive rule `A <- A r1 / ... / A rn / b1 / ... / bk`: what follows `A` in the first ones, and
the others. -/
def lrSplit (r : Nat) : List Ope → List (List Ope) × List Ope
  | [] => ([], [])
  | e :: rest =>
    match e with
    | .seq (.ref r' _ [] :: es) _ => if r' = r then (es :: (lrSplit r rest).1, (lrSplit r rest).2) else ([], e :: rest)
    | _ => ([], e :: rest)

/-- The scope `f` with the values of `g` added. -/
def Frame.add (f g : Frame V) : Frame V := { f with vals := f.vals ++ g.vals, tags := f.tags ++ g.tags }

/-- Operand, operator and operand (the values of the scope) combined to one value by the action of rule `r`. -/
def precFrame (G : Gram V) (r start j : Nat) (f : Frame V) : Frame V :=
  match G.action r with
  | some a => { f with sv := (start, j - start), vals := [a { f with sv := (start, j - start) } none] }
  | none => { f with vals := [f.vals.head?.getD none] }

/-- The lowest level allowed on the right of an operator of level `l` and associativity `as` (76 is `L`). -/
def nextLevel (l : Nat) (as : Byte) : Nat := if as = 76 then l + 1 else l

variable {V : Type}

inductive Peg : Gram V → Env → Mode → PTask → Nat → PSt V → PRes V → Prop where
  -- white space
  | skip_tok {G v m i s} : m.tok = true → Peg G v m .skip i s (.ok i false s)
  | skip_none {G v m i s} : G.ws = none → Peg G v m .skip i s (.ok i false s)
  | skip_ws {G v m i s w x} : m.tok = false → G.ws = some w → Peg G v m (.ope w) i s x → Peg G v m .skip i s x
  | ws_in {G v m e i s} : m.ws = true → Peg G v m (.ope (.ws e)) i s (.ok i false s)
  | ws_out {G v m e i s x} : m.ws = false → Peg G v { m with ws := true } (.ope e) i s x →
      Peg G v m (.ope (.ws e)) i s x
  -- characters
  | one_ok {G v m e f k i s} : e.single = some f → f (G.input.drop i) = some k →
      Peg G v m (.ope e) i s (.ok (i + k) false s)
  | one_fail {G v m e f i s} : e.single = some f → f (G.input.drop i) = none → Peg G v m (.ope e) i s (.fail false)
  -- literals
  | lit {G v m t ic i s x} : Peg G v m (.text t ic) i s x → Peg G v m (.ope (.lit t ic)) i s x
  | text_no {G v m t ic i s} : litMatch t ic (G.input.drop i) = false → Peg G v m (.text t ic) i s (.fail false)
  | text_plain {G v m t ic i s x} : litMatch t ic (G.input.drop i) = true → G.word = none →
      Peg G v m .skip (i + t.length) s x → Peg G v m (.text t ic) i s x
  | text_nonword {G v m t ic i s w c x} : litMatch t ic (G.input.drop i) = true → G.word = some w →
      Peg (G.bare t) {} {} (.ope w) 0 {} (.fail c) → Peg G v m .skip (i + t.length) s x → Peg G v m (.text t ic) i s x
  | text_word {G v m t ic i s w j c s' c' x} : litMatch t ic (G.input.drop i) = true → G.word = some w →
      Peg (G.bare t) {} {} (.ope w) 0 {} (.ok j c s') →
      Peg (G.bare G.input) {} {} (.ope w) (i + t.length) {} (.fail c') →
      Peg G v m .skip (i + t.length) s x → Peg G v m (.text t ic) i s x
  | text_longer {G v m t ic i s w j c s' j' c' s''} : litMatch t ic (G.input.drop i) = true → G.word = some w →
      Peg (G.bare t) {} {} (.ope w) 0 {} (.ok j c s') →
      Peg (G.bare G.input) {} {} (.ope w) (i + t.length) {} (.ok j' c' s'') → Peg G v m (.text t ic) i s (.fail false)
  -- dictionaries: `matchText` finds the longest word (theorems C09_...)
  | dict_no {G v m ws ic i s} : ((Trie.build ws ic).matchText (G.input.drop i)).1 = 0 →
      Peg G v m (.ope (.dict ws ic)) i s (.fail false)
  | dict_plain {G v m ws ic i s k n x} : (Trie.build ws ic).matchText (G.input.drop i) = (k, n) → k ≠ 0 → G.word = none →
      Peg G v m .skip (i + k) { s with vs := { s.vs with choiceCount := ws.length, choice := n } } x →
      Peg G v m (.ope (.dict ws ic)) i s x
  | dict_word {G v m ws ic i s k n w c x} : (Trie.build ws ic).matchText (G.input.drop i) = (k, n) → k ≠ 0 →
      G.word = some w → Peg (G.bare G.input) {} {} (.ope w) (i + k) {} (.fail c) →
      Peg G v m .skip (i + k) { s with vs := { s.vs with choiceCount := ws.length, choice := n } } x →
      Peg G v m (.ope (.dict ws ic)) i s x
  | dict_longer {G v m ws ic i s k n w j c s'} : (Trie.build ws ic).matchText (G.input.drop i) = (k, n) → k ≠ 0 →
      G.word = some w → Peg (G.bare G.input) {} {} (.ope w) (i + k) {} (.ok j c s') →
      Peg G v m (.ope (.dict ws ic)) i s (.fail false)
  -- sequence
  | seq {G v m es kw i s x} : Peg G v m (.seqL es) i s x → Peg G v m (.ope (.seq es kw)) i s x
  | seq_nil {G v m i s} : Peg G v m (.seqL []) i s (.ok i false s)
  | seq_fail {G v m e es i s c} : Peg G v m (.ope e) i s (.fail c) → Peg G v m (.seqL (e :: es)) i s (.fail c)
  | seq_cons {G v m e es i s j c s' x} : Peg G v m (.ope e) i s (.ok j c s') → Peg G v m (.seqL es) j s' x →
      Peg G v m (.seqL (e :: es)) i s (x.orCut c)
  -- ordered choice
  | cho {G v m es l fs i s x} : Peg G v m (.choL es 0 es.length) i s x → Peg G v m (.ope (.cho es l fs)) i s x.noCut
  | cho_nil {G v m k n i s} : Peg G v m (.choL [] k n) i s (.fail false)
  | cho_ok {G v m e es k n i s j c s'} : Peg G v m (.ope e) i s (.ok j c s') →
      Peg G v m (.choL (e :: es) k n) i s (.ok j c { s' with vs := { s'.vs with choiceCount := n, choice := k } })
  | cho_cut {G v m e es k n i s} : Peg G v m (.ope e) i s (.fail true) → Peg G v m (.choL (e :: es) k n) i s (.fail true)
  | cho_next {G v m e es k n i s x} : Peg G v m (.ope e) i s (.fail false) → Peg G v m (.choL es (k + 1) n) i s x →
      Peg G v m (.choL (e :: es) k n) i s x
  | cut {G v m i s} : Peg G v m (.ope .cut) i s (.ok i true s)
  -- repetition
  | rep {G v m e mn mx sp i s x} : Peg G v m (.loop e mn mx 0) i s x → Peg G v m (.ope (.rep e mn mx sp)) i s x
  | loop_must {G v m e k mx n i s j c s' x} : Peg G v m (.ope e) i s (.ok j c s') → Peg G v m (.loop e k mx (n + 1)) j s' x →
      Peg G v m (.loop e (k + 1) mx n) i s (x.orCut c)
  | loop_fail {G v m e k mx n i s c} : Peg G v m (.ope e) i s (.fail c) → Peg G v m (.loop e (k + 1) mx n) i s (.fail c)
  | loop_full {G v m e mx n i s} : mx.all (n < ·) = false → Peg G v m (.loop e 0 mx n) i s (.ok i false s)
  | loop_more {G v m e mx n i s j c s' x} : mx.all (n < ·) = true → Peg G v m (.ope e) i s (.ok j c s') →
      Peg G v m (.loop e 0 mx (n + 1)) j s' x → Peg G v m (.loop e 0 mx n) i s (x.orCut c)
  | loop_end {G v m e mx n i s c} : mx.all (n < ·) = true → Peg G v m (.ope e) i s (.fail c) →
      Peg G v m (.loop e 0 mx n) i s (.ok i c s)
  -- predicates
  | and_ok {G v m e i s j c s'} : Peg G v m (.ope e) i s (.ok j c s') → Peg G v m (.ope (.and_ e)) i s (.ok i c s)
  | and_fail {G v m e i s c} : Peg G v m (.ope e) i s (.fail c) → Peg G v m (.ope (.and_ e)) i s (.fail c)
  | not_ok {G v m e i s c} : Peg G v m (.ope e) i s (.fail c) → Peg G v m (.ope (.not_ e)) i s (.ok i c s)
  | not_fail {G v m e i s j c s'} : Peg G v m (.ope e) i s (.ok j c s') → Peg G v m (.ope (.not_ e)) i s (.fail c)
  -- captures
  | scope_ok {G v m e i s j c s'} : Peg G v m (.ope e) i s (.ok j c s') →
      Peg G v m (.ope (.capScope e)) i s (.ok j c { s' with caps := s.caps })
  | scope_fail {G v m e i s c} : Peg G v m (.ope e) i s (.fail c) → Peg G v m (.ope (.capScope e)) i s (.fail c)
  | cap_ok {G v m nm e i s j c s'} : Peg G v m (.ope e) i s (.ok j c s') →
      Peg G v m (.ope (.cap nm e)) i s (.ok j c { s' with caps := s'.caps ++ [(nm, (G.input.drop i).take (j - i))] })
  | cap_fail {G v m nm e i s c} : Peg G v m (.ope e) i s (.fail c) → Peg G v m (.ope (.cap nm e)) i s (.fail c)
  | bref {G v m nm t i s x} : findCap s.caps nm = some t → Peg G v m (.text t false) i s x → Peg G v m (.ope (.bref nm)) i s x
  | bref_no {G v m nm i s} : findCap s.caps nm = none → Peg G v m (.ope (.bref nm)) i s (.fail false)
  -- tokens and ignored values
  | tok_ok {G v m e i s j c s' x} : Peg G v { m with tok := true } (.ope e) i s (.ok j c s') →
      Peg G v m .skip j { s' with vs := { s'.vs with tokens := s'.vs.tokens ++ [(i, j - i)] } } x →
      Peg G v m (.ope (.tok e)) i s (x.orCut c)
  | tok_fail {G v m e i s c} : Peg G v { m with tok := true } (.ope e) i s (.fail c) →
      Peg G v m (.ope (.tok e)) i s (.fail c)
  | ign_ok {G v m e i s j c s'} : Peg G v m (.ope e) i { s with vs := {} } (.ok j c s') →
      Peg G v m (.ope (.ign e)) i s (.ok j c { s' with vs := s.vs })
  | ign_fail {G v m e i s c} : Peg G v m (.ope e) i { s with vs := {} } (.fail c) →
      Peg G v m (.ope (.ign e)) i s (.fail c)
  -- rules and macros
  | ref {G v m r nm as d i s x} : G.rules[r]? = some d → d.isMacro = false → Peg G {} m (.hold r) i s x →
      Peg G v m (.ope (.ref r nm as)) i s x
  | call {G v m r nm as d i s x} : G.rules[r]? = some d → d.isMacro = true →
      Peg G ⟨d.params, resolveList v.params v.args as⟩ m (.ope d.ope) i s x → Peg G v m (.ope (.ref r nm as)) i s x
  | param {G v m k nm e i s x} : v.args[k]? = some e → Peg G v m (.ope e) i s x → Peg G v m (.ope (.param k nm)) i s x
  | body {G v m d i s x} : d.noWs = false → Peg G v m (.ope d.ope) i s x → Peg G v m (.body d) i s x
  | body_ok {G v m d i s j c s' x} : d.noWs = true → Peg G v { m with tok := true } (.ope d.ope) i s (.ok j c s') →
      Peg G v m .skip j s' x → Peg G v m (.body d) i s (x.orCut c)
  | body_fail {G v m d i s c} : d.noWs = true → Peg G v { m with tok := true } (.ope d.ope) i s (.fail c) →
      Peg G v m (.body d) i s (.fail c)
  | rule_fail {G v m r d i s c} : G.rules[r]? = some d → d.isLR = false →
      Peg G v m (.body d) i { s with vs := {} } (.fail c) → Peg G v m (.hold r) i s (.fail c)
  | rule_ok {G v m r d i s j c s'} : G.rules[r]? = some d → d.isLR = false →
      Peg G v m (.body d) i { s with vs := {} } (.ok j c s') →
      G.predicate r = none →
      Peg G v m (.hold r) i s (.ok j c { caps := s'.caps
                                         vs := pushValue d (ruleValue G r d i j (ruleFrame r d i j s'.vs) none) s.vs })
  | rule_pred {G v m r d i s j c s' p} : G.rules[r]? = some d → d.isLR = false →
      Peg G v m (.body d) i { s with vs := {} } (.ok j c s') →
      G.predicate r = some p → (p (ruleFrame r d i j s'.vs)).1 = true →
      Peg G v m (.hold r) i s (.ok j c { caps := s'.caps
                                         vs := pushValue d (ruleValue G r d i j (ruleFrame r d i j s'.vs)
                                           (p (ruleFrame r d i j s'.vs)).2) s.vs })
  | rule_reject {G v m r d i s j c s' p} : G.rules[r]? = some d → d.isLR = false →
      Peg G v m (.body d) i { s with vs := {} } (.ok j c s') →
      G.predicate r = some p → (p (ruleFrame r d i j s'.vs)).1 = false → Peg G v m (.hold r) i s (.fail c)
  -- left-recursive rules
  | lr_fail {G v m r d es l fs i s c} : G.rules[r]? = some d → d.isLR = true → d.noWs = false → d.ope = .cho es l fs →
      Peg G v m (.choL (lrSplit r es).2 (lrSplit r es).1.length es.length) i { s with vs := {} } (.fail c) →
      Peg G v m (.hold r) i s (.fail false)
  | lr_ok {G v m r d es l fs i s j c s' k c' s''} : G.rules[r]? = some d → d.isLR = true → d.noWs = false →
      d.ope = .cho es l fs → G.predicate r = none →
      Peg G v m (.choL (lrSplit r es).2 (lrSplit r es).1.length es.length) i { s with vs := {} } (.ok j c s') →
      Peg G v m (.grow r i) j { s' with vs := pushValue d (ruleValue G r d i j (ruleFrame r d i j s'.vs) none) {} } (.ok k c' s'') →
      Peg G v m (.hold r) i s (.ok k false { s'' with vs := s.vs.add s''.vs })
  | grow_stop {G v m r d es l fs i j s c} : G.rules[r]? = some d → d.ope = .cho es l fs →
      Peg G v m (.choL ((lrSplit r es).1.map (.seq · none)) 0 es.length) j s (.fail c) →
      Peg G v m (.grow r i) j s (.ok j false s)
  | grow_idle {G v m r d es l fs i j s k c s'} : G.rules[r]? = some d → d.ope = .cho es l fs →
      Peg G v m (.choL ((lrSplit r es).1.map (.seq · none)) 0 es.length) j s (.ok k c s') → k ≤ j →
      Peg G v m (.grow r i) j s (.ok j false s)
  | grow_more {G v m r d es l fs i j s k c s' x} : G.rules[r]? = some d → d.ope = .cho es l fs →
      Peg G v m (.choL ((lrSplit r es).1.map (.seq · none)) 0 es.length) j s (.ok k c s') → j < k →
      Peg G v m (.grow r i) k { s' with vs := pushValue d (ruleValue G r d i k (ruleFrame r d i k s'.vs) none) {} } x →
      Peg G v m (.grow r i) j s x
  -- precedence climbing
  | prec {G v m a b info r i s x} : Peg G v m (.prec a b info r 0) i s x → Peg G v m (.ope (.prec a b info r)) i s x
  | prec_fail {G v m a b info r mp i s c} : Peg G v m (.ope a) i s (.fail c) → Peg G v m (.prec a b info r mp) i s (.fail c)
  | prec_atom {G v m a b info r mp i s j c s' x} : Peg G v m (.ope a) i s (.ok j c s') →
      Peg G v m (.precL a b info r mp i) j s' x → Peg G v m (.prec a b info r mp) i s (x.orCut c)
  | prec_eof {G v m a b info r mp start i s} : G.input.length ≤ i → Peg G v m (.precL a b info r mp start) i s (.ok i false s)
  | prec_noOp {G v m a b info r mp start i s c} : i < G.input.length → Peg G v m (.ope b) i { s with vs := {} } (.fail c) →
      Peg G v m (.precL a b info r mp start) i s (.ok i c s)
  | prec_stop {G v m a q nm d info r mp start i s j cb sb c s1} : i < G.input.length → G.rules[q]? = some d →
      Peg G {} m (.body d) i { s with vs := {} } (.ok j cb sb) →
      Peg G v m (.ope (.ref q nm [])) i { s with vs := {} } (.ok j c s1) →
      (∀ l as, info.lookup ((ruleFrame q d i j sb.vs).token G.input) = some (l, as) → l < mp) →
      Peg G v m (.precL a (.ref q nm []) info r mp start) i s (.ok i c s)
  | prec_noRhs {G v m a q nm d info r mp start i s j cb sb c s1 l as c'} : i < G.input.length → G.rules[q]? = some d →
      Peg G {} m (.body d) i { s with vs := {} } (.ok j cb sb) →
      Peg G v m (.ope (.ref q nm [])) i { s with vs := {} } (.ok j c s1) →
      info.lookup ((ruleFrame q d i j sb.vs).token G.input) = some (l, as) → mp ≤ l →
      Peg G v m (.prec a (.ref q nm []) info r (nextLevel l as)) j { s1 with vs := {} } (.fail c') →
      Peg G v m (.precL a (.ref q nm []) info r mp start) i s (.fail (c || c'))
  | prec_more {G v m a q nm d info r mp start i s j cb sb c s1 l as c' k s2 ov ovs rv rvs x} : i < G.input.length →
      G.rules[q]? = some d → Peg G {} m (.body d) i { s with vs := {} } (.ok j cb sb) →
      Peg G v m (.ope (.ref q nm [])) i { s with vs := {} } (.ok j c s1) →
      info.lookup ((ruleFrame q d i j sb.vs).token G.input) = some (l, as) → mp ≤ l →
      Peg G v m (.prec a (.ref q nm []) info r (nextLevel l as)) j { s1 with vs := {} } (.ok k c' s2) →
      s1.vs.vals = ov :: ovs → s2.vs.vals = rv :: rvs →
      Peg G v m (.precL a (.ref q nm []) info r mp start) k
        { s2 with vs := precFrame G r start k { s.vs with vals := s.vs.vals ++ [ov, rv] } } x →
      Peg G v m (.precL a (.ref q nm []) info r mp start) i s (x.orCut (c || c'))

/-- What a parse of the whole input with start rule `r` yields: white space is skipped, the rule is called, and if `eoi` the
rule must end at the end of the input.  `none`: the parse fails; `some (j, f)`: it succeeds, the rule ends at `j` and the
outermost scope is `f`. -/
inductive PegParse (G : Gram V) (r : Nat) (eoi : Bool) : Option (Nat × Frame V) → Prop where
  | noSkip {c} : Peg G {} {} .skip 0 {} (.fail c) → PegParse G r eoi none
  | noRule {i c s c'} : Peg G {} {} .skip 0 {} (.ok i c s) → Peg G {} {} (.hold r) i s (.fail c') → PegParse G r eoi none
  | rest {i c s j c' s'} : Peg G {} {} .skip 0 {} (.ok i c s) → Peg G {} {} (.hold r) i s (.ok j c' s') →
      eoi = true → j < G.input.length → PegParse G r eoi none
  | ok {i c s j c' s'} : Peg G {} {} .skip 0 {} (.ok i c s) → Peg G {} {} (.hold r) i s (.ok j c' s') →
      (eoi = true → G.input.length ≤ j) → PegParse G r eoi (some (j, s'.vs))

end Verif
