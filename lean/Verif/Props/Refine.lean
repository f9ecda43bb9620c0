import Verif.Check
import Verif.Plain
/-!
# C15, C22, C27, C44: the optimised engine and the reference semantics

`Ready cfg C al r`: the grammar of `cfg` is well-formed (certificate `C`, a computable test), its annotations are right, and
start rule `r` is an ordinary rule.  Which grammars the loader accepts satisfy it, and which do not, is the subject of
C28-C31.
-/

namespace Verif.Props
open Verif

variable {V : Type} {cfg cfg' : Cfg V} {C C' : Cert} {al al' : Nat → Prop} {r : Nat}

/-- **C27**: with whatever annotations (first sets, keyword guards, span scans), packrat parsing on or off, values collected or
not, logging on or off and any user datum, a parse finishes, succeeds exactly if the plain PEG semantics of the grammar
without annotations does, consumes the same length and yields the same scope.  The reference result exists and is unique. -/
theorem C27_parse_is_plain_peg_partial (h : Ready cfg C al r) (eoi : Bool) :
    ∃ x, PegParse cfg.gram.plain r eoi x ∧ (∀ y, PegParse cfg.gram.plain r eoi y → y = x) ∧
      ∀ (dt : Option V) (log : Bool), ∃ n res, parseCore n cfg r eoi { dt := dt, logOn := log } = .ok res ∧
        res.ret = x.isSome ∧ res.recovered = false ∧
        ∀ j f, x = some (j, f) → res.len = j ∧ (cfg.recognizeOnly = false → res.st.vs = f) := by
  obtain ⟨x, _, _, hx, -⟩ := parseCore_peg h eoi none false
  refine ⟨x, hx.plain, fun y hy => hy.det hx.plain, fun dt log => ?_⟩
  obtain ⟨y, n, res, hy, h1, h2⟩ := parseCore_peg h eoi dt log
  cases hy.det hx
  exact ⟨n, res, h1, h2⟩

/-- The same for `parser::parse` without logger: the returned truth value and the value delivered. -/
theorem C27_parser_is_plain_peg_partial (h : Ready cfg C al r) (eoi : Bool) (dt : Option V) :
    ∃ x a, PegParse cfg.gram.plain r eoi x ∧ Answers cfg r eoi false dt a ∧ a.ok = x.isSome ∧
      (cfg.recognizeOnly = false → a.val = x.bind fun p => p.2.vals.head?.getD none) := by
  obtain ⟨x, hx, -, hp⟩ := C27_parse_is_plain_peg_partial h eoi
  obtain ⟨n, res, h1, h2, h3, h4⟩ := hp dt false
  refine ⟨x, ⟨res.ret && !res.recovered, deliver res, res.st.logs, res⟩, hx, ⟨n, ?_⟩, ?_, ?_⟩
  · unfold parserParse
    rw [h1]
    simp [Out.bind, postProcess]
  · simp only [h2, h3, Bool.not_false, Bool.and_true]
  · intro hr
    unfold deliver
    cases x with
    | none => rw [h2]; rfl
    | some p => simp only [h2, Option.isSome_some, if_true, (h4 p.1 p.2 rfl).2 hr]; rfl

/-- **C22** for certified grammars: every parse finishes. -/
theorem C22_certified_terminates_partial (h : Ready cfg C al r) (eoi : Bool) (dt : Option V) (log : Bool) :
    ∃ n res, parseCore n cfg r eoi { dt := dt, logOn := log } = .ok res :=
  let ⟨_, _, _, hp⟩ := C27_parse_is_plain_peg_partial h eoi
  let ⟨n, res, h1, _⟩ := hp dt log
  ⟨n, res, h1⟩

/-- Two configurations of one grammar (same rules up to annotations, same callbacks up to the user datum). -/
def SameGrammar (cfg cfg' : Cfg V) : Prop := cfg'.gram.plain = cfg.gram.plain

theorem same_result (h : Ready cfg C al r) (h' : Ready cfg' C' al' r) (hg : SameGrammar cfg cfg') (eoi : Bool) (dt dt' : Option V)
    (log log' : Bool) : ∃ n n' res res', parseCore n cfg r eoi { dt := dt, logOn := log } = .ok res ∧
      parseCore n' cfg' r eoi { dt := dt', logOn := log' } = .ok res' ∧ res'.ret = res.ret ∧ res'.recovered = res.recovered ∧
      (res.ret = true → res'.len = res.len ∧
        (cfg.recognizeOnly = false → cfg'.recognizeOnly = false → res'.st.vs = res.st.vs)) := by
  obtain ⟨x, hx, -, hp⟩ := C27_parse_is_plain_peg_partial h eoi
  obtain ⟨x', hx', -, hp'⟩ := C27_parse_is_plain_peg_partial h' eoi
  rw [hg] at hx'
  cases hx'.det hx
  obtain ⟨n, res, h1, h2, h3, h4⟩ := hp dt log
  obtain ⟨n', res', k1, k2, k3, k4⟩ := hp' dt' log'
  refine ⟨n, n', res, res', h1, k1, k2.trans h2.symm, k3.trans h3.symm, fun hr => ?_⟩
  rw [h2, Option.isSome_iff_exists] at hr
  obtain ⟨⟨j, f⟩, rfl⟩ := hr
  obtain ⟨a1, a2⟩ := h4 j f rfl
  obtain ⟨b1, b2⟩ := k4 j f rfl
  exact ⟨b1.trans a1.symm, fun c c' => (b2 c').trans (a2 c).symm⟩

/-- **C15** for certified grammars: packrat parsing changes neither the result, nor the length, nor the values.  `cfg'` is `cfg`
with packrat parsing (and whatever numbering and selection of rules the program made for it). -/
theorem C15_packrat_transparent_partial (h : Ready cfg C al r) (h' : Ready cfg' C' al' r) (hg : SameGrammar cfg cfg')
    (_ : cfg.packrat = false) (_ : cfg'.packrat = true) (hr : cfg'.recognizeOnly = cfg.recognizeOnly) (eoi : Bool) (dt : Option V)
    (log : Bool) : ∃ n n' res res', parseCore n cfg r eoi { dt := dt, logOn := log } = .ok res ∧
      parseCore n' cfg' r eoi { dt := dt, logOn := log } = .ok res' ∧ res'.ret = res.ret ∧
      (res.ret = true → res'.len = res.len ∧ (cfg.recognizeOnly = false → res'.st.vs = res.st.vs)) := by
  obtain ⟨n, n', res, res', h1, h2, h3, -, h5⟩ := same_result h h' hg eoi dt dt log log
  exact ⟨n, n', res, res', h1, h2, h3, fun a => ⟨(h5 a).1, fun b => (h5 a).2 b (hr.trans b)⟩⟩

/-- **C44** for certified grammars: installing a log callback changes neither the result nor the values. -/
theorem C44_logging_transparent_partial (h : Ready cfg C al r) (eoi : Bool) (dt : Option V) :
    ∃ n n' res res', parseCore n cfg r eoi { dt := dt, logOn := false } = .ok res ∧
      parseCore n' cfg r eoi { dt := dt, logOn := true } = .ok res' ∧ res'.ret = res.ret ∧ res'.recovered = res.recovered ∧
      (res.ret = true → res'.len = res.len ∧ (cfg.recognizeOnly = false → res'.st.vs = res.st.vs)) := by
  obtain ⟨n, n', res, res', h1, h2, h3, h4, h5⟩ := same_result h h rfl eoi dt dt false true
  exact ⟨n, n', res, res', h1, h2, h3, h4, fun a => ⟨(h5 a).1, fun b => (h5 a).2 b b⟩⟩

/-! ## Concrete grammars

`S <- A ('+' A)*   A <- '(' S ')' / < [0-9]+ >   %whitespace <- ' '*`, on every input, plain and with packrat parsing. -/

def arRules : List Def :=
  [{ name := [83], ope := .seq [.ref 1 [65] [], .rep (.seq [.lit [43] false, .ref 1 [65] []] none) 0 none none] none },
   { name := [65], ope := .cho [.seq [.lit [40] false, .ref 0 [83] [], .lit [41] false] none,
                               .tok (.rep (.cls ⟨[(48, 57)], false, false⟩) 1 none none)] false [] }]

def arCfg (input : List Byte) : Cfg Nat :=
  { input := input, rules := arRules, ws := some (.ws (.ign (.rep (.lit [32] false) 0 none none)))
    action := fun r => if r = 0 then some fun f _ _ => (some (f.vals.foldl (fun n v => n + v.getD 0) 0), none) else
      some fun f _ _ => (f.vals.head?.getD (some f.tokens.length), none) }

def arPack (input : List Byte) : Cfg Nat :=
  { arCfg input with packrat := true, defCount := 2, packratIndex := some [some 0, some 1], cachedCount := 2 }

def arCert : Cert :=
  { rank := fun r => 1 - r, null := fun _ => false, leak := fun _ => false, modes := fun _ m => m == {}, top := 2 }

theorem dtFree_ar (input : List Byte) : DtFree (arCfg input) := by
  refine ⟨?_, fun r p h => (by cases h), fun r l h => (by cases h)⟩
  intro r a h f d pd
  simp only [arCfg] at h
  split at h <;> (cases h; rfl)

theorem arReady (input : List Byte) : Ready (arCfg input) arCert (fun _ => True) 0 where
  cert := by
    refine CertOk.of_check ?_ (slotsOk_of rfl) (fun _ _ _ _ => ⟨List.prefix_refl _, List.prefix_refl _, List.prefix_refl _, rfl⟩)
      (dtFree_ar input) (AlOk.trivial _ _ rfl (fun _ _ h => by cases h)) (fun h => by cases h) ?_ ?_ ?_
    · rfl
    · exact noLR_of (show ∀ d ∈ arRules, d.isLR = false by decide)
    · intro r d m hd _ _
      exact bare_nodeOk (fun _ _ h => by cases h) _ (by
        have : ∀ d ∈ arRules, d.ope.bare = true := by decide
        exact this d (List.mem_of_getElem? hd))
    · intro e he
      cases he
      exact bare_nodeOk (fun _ _ h => by cases h) _ rfl
  word := by intro _ _ w h; cases h
  start := trivial
  rule := ⟨_, rfl, rfl⟩
  mode := rfl

theorem arPackReady (input : List Byte) : Ready (arPack input) arCert (fun _ => True) 0 where
  cert := by
    refine CertOk.of_check ?_ ?_ (fun _ _ _ _ => ⟨List.prefix_refl _, List.prefix_refl _, List.prefix_refl _, rfl⟩)
      ⟨(dtFree_ar input).action, (dtFree_ar input).predicate, (dtFree_ar input).leave⟩ (AlOk.trivial _ _ rfl (fun _ _ h => by cases h))
      (fun h => by cases h) ?_ ?_ ?_
    · rfl
    · intro _ r s h
      simp only [Cfg.slot, arPack, arCfg] at h
      rcases r with _ | _ | r
      · simp at h; show s < 2; omega
      · simp at h; show s < 2; omega
      · simp at h
    · exact noLR_of (show ∀ d ∈ arRules, d.isLR = false by decide)
    · intro r d m hd _ _
      exact bare_nodeOk (fun _ _ h => by cases h) _ (by
        have : ∀ d ∈ arRules, d.ope.bare = true := by decide
        exact this d (List.mem_of_getElem? hd))
    · intro e he
      cases he
      exact bare_nodeOk (fun _ _ h => by cases h) _ rfl
  word := by intro _ _ w h; cases h
  start := trivial
  rule := ⟨_, rfl, rfl⟩
  mode := rfl

/-- Packrat parsing is transparent for the example grammar, on every input. -/
example (input : List Byte) (eoi : Bool) (dt : Option Nat) (log : Bool) :
    ∃ n n' res res', parseCore n (arCfg input) 0 eoi { dt := dt, logOn := log } = .ok res ∧
      parseCore n' (arPack input) 0 eoi { dt := dt, logOn := log } = .ok res' ∧ res'.ret = res.ret ∧
      (res.ret = true → res'.len = res.len ∧ ((arCfg input).recognizeOnly = false → res'.st.vs = res.st.vs)) :=
  C15_packrat_transparent_partial (arReady input) (arPackReady input) rfl rfl rfl rfl eoi dt log

/-- On "(1 + 2) + 3" both accept, with value 3 (the number of tokens). -/
example : (match parserParse 60 (arPack [40, 49, 32, 43, 32, 50, 41, 32, 43, 51]) 0 true false none with
    | .ok a => some (a.ok, a.val)
    | _ => none) = some (true, some 3) := by decide +kernel

/-! ## Where packrat parsing is not transparent

The certificate asks that a memoised rule is called in one mode only and leaves no cut.  Both are necessary. -/

/-- `S <- < A > 'x' / A 'b'   A <- 'a'   %whitespace <- ' '*` -/
def modeCfg (input : List Byte) : Cfg Nat :=
  { input := input
    rules := [{ name := [83], ope := .cho [.seq [.tok (.ref 1 [65] []), .lit [120] false] none,
                                           .seq [.ref 1 [65] [], .lit [98] false] none] false [] },
              { name := [65], ope := .lit [97] false }]
    ws := some (.ws (.ign (.rep (.lit [32] false) 0 none none))) }

/-- `S <- (&A / 'q') A 'x' / (&A / 'r') A 'z' / 'a' 'y'   A <- 'a' ↑` (two alternatives begin with `A`, so the library's filter keeps it) -/
def cutCfg (input : List Byte) : Cfg Nat :=
  { input := input
    rules := [{ name := [83], ope := .cho [.seq [.cho [.and_ (.ref 1 [65] []), .lit [113] false] false [],
                                                 .ref 1 [65] [], .lit [120] false] none,
                                           .seq [.cho [.and_ (.ref 1 [65] []), .lit [114] false] false [],
                                                 .ref 1 [65] [], .lit [122] false] none,
                                           .seq [.lit [97] false, .lit [121] false] none] false [] },
              { name := [65], ope := .seq [.lit [97] false, .cut] none }] }

/-- The same with packrat parsing of rule 1. -/
def withPack (cfg : Cfg Nat) : Cfg Nat :=
  { cfg with packrat := true, defCount := 2, packratIndex := some [none, some 0], cachedCount := 1 }

def accepts (n : Nat) (cfg : Cfg Nat) : Option Bool :=
  match parseCore n cfg 0 true {} with
  | .ok res => some res.ret
  | _ => none

/-- **C15 fails in general**: a rule that is called inside and outside a token boundary, and a rule that leaves a cut, give
different results with and without packrat parsing: "a b" and "ay". -/
theorem C15_packrat_not_transparent :
    (SameGrammar (modeCfg [97, 32, 98]) (withPack (modeCfg [97, 32, 98])) ∧
      accepts 40 (modeCfg [97, 32, 98]) = some true ∧ accepts 40 (withPack (modeCfg [97, 32, 98])) = some false) ∧
    (SameGrammar (cutCfg [97, 121]) (withPack (cutCfg [97, 121])) ∧
      accepts 40 (cutCfg [97, 121]) = some false ∧ accepts 40 (withPack (cutCfg [97, 121])) = some true) :=
  ⟨⟨rfl, by decide +kernel, by decide +kernel⟩, ⟨rfl, by decide +kernel, by decide +kernel⟩⟩

end Verif.Props
