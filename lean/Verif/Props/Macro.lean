import Verif.MacroSubst
import Verif.Props.Refine
/-!
# C35: macros are textual substitution

The specification is `Expands` (Verif/Macro.lean): a call is replaced by the body of the macro with the arguments for the parameters.
-/

namespace Verif

mutual
/-- The expression calls no macro and uses no parameter (white space and word expressions). -/
def Ope.macroFree (rs : List Def) : Ope → Bool
  | .seq es _ => Ope.macroFreeL rs es
  | .cho es _ _ => Ope.macroFreeL rs es
  | .rep e _ _ _ => e.macroFree rs
  | .and_ e => e.macroFree rs
  | .not_ e => e.macroFree rs
  | .capScope e => e.macroFree rs
  | .cap _ e => e.macroFree rs
  | .tok e => e.macroFree rs
  | .ign e => e.macroFree rs
  | .ws e => e.macroFree rs
  | .dict _ _ => true
  | .lit _ _ => true
  | .cls _ => true
  | .chr _ => true
  | .dot => true
  | .cut => true
  | .bref _ => true
  | .ref r _ _ => (match rs[r]? with | some d => !d.isMacro | none => false)
  | .param _ _ => false
  | .usr _ => false
  | .weak _ => false
  | .prec _ _ _ _ => false
  | .recov _ _ _ => false
  | .null => false

def Ope.macroFreeL (rs : List Def) : List Ope → Bool
  | [] => true
  | e :: es => e.macroFree rs && Ope.macroFreeL rs es
end

mutual
theorem macroFree_trel {rs : List Def} (v : Env) (e : Ope) (h : e.macroFree rs = true) : TRel rs v (.ope e) (.ope e) := by
  cases e with
  | seq es kw => simp only [Ope.macroFree] at h; exact .seq (macroFree_trelL v es h)
  | cho es l fs => simp only [Ope.macroFree] at h; exact .cho (macroFree_trelL v es h)
  | rep e a b c => simp only [Ope.macroFree] at h; exact .rep (macroFree_trel v e h)
  | and_ e => simp only [Ope.macroFree] at h; exact .and_ (macroFree_trel v e h)
  | not_ e => simp only [Ope.macroFree] at h; exact .not_ (macroFree_trel v e h)
  | capScope e => simp only [Ope.macroFree] at h; exact .capScope (macroFree_trel v e h)
  | cap nm e => simp only [Ope.macroFree] at h; exact .cap (macroFree_trel v e h)
  | tok e => simp only [Ope.macroFree] at h; exact .tok (macroFree_trel v e h)
  | ign e => simp only [Ope.macroFree] at h; exact .ign (macroFree_trel v e h)
  | ws e => simp only [Ope.macroFree] at h; exact .ws (macroFree_trel v e h)
  | ref r nm as =>
    simp only [Ope.macroFree] at h
    cases hd : rs[r]? with
    | none => simp [hd] at h
    | some d => simp only [hd, Bool.not_eq_true'] at h; exact .ref hd h
  | dict _ _ => exact .leaf rfl
  | lit _ _ => exact .leaf rfl
  | cls _ => exact .leaf rfl
  | chr _ => exact .leaf rfl
  | dot => exact .leaf rfl
  | cut => exact .leaf rfl
  | bref _ => exact .leaf rfl
  | param _ _ => cases h
  | usr _ => cases h
  | weak _ => cases h
  | prec _ _ _ _ => cases h
  | recov _ _ _ => cases h
  | null => cases h

theorem macroFree_trelL {rs : List Def} (v : Env) (es : List Ope) (h : Ope.macroFreeL rs es = true) : TRel rs v (.seqL es) (.seqL es) := by
  cases es with
  | nil => exact .nil
  | cons e es =>
    simp only [Ope.macroFreeL, Bool.and_eq_true] at h
    exact .cons (macroFree_trel v e h.1) (macroFree_trelL v es h.2)
end

namespace Props

variable {V : Type}

/-- `G'` is `G` with all macro calls in its rules expanded.  `choice`: whether `choice()` of a rule is kept depends on the operator at its top, which
must not be changed by the expansion (i.e. the body of a rule is not just a macro call that expands to a choice). -/
structure Expansion (G G' : Gram V) : Prop where
  same : G' = { G with rules := G'.rules }
  rule : ∀ (r : Nat) (d : Def), G.rules[r]? = some d → d.isMacro = false →
    ∃ e', G'.rules[r]? = some { d with ope := e' } ∧ Expands G.rules [d.ope] [e'] ∧ e'.choiceLikeTop = d.ope.choiceLikeTop

/-- The restrictions: macro arguments are `flat` (no references named like macro parameters, no parameters inside the arguments of a call that is itself an
argument, no back references); white space and word rule call no macros; no rule is left recursive. -/
structure MacroGram (G : Gram V) (P : List (List Byte)) : Prop where
  rules : MacroOk G.rules P
  ws : ∀ w, G.ws = some w → w.macroFree G.rules = true
  word : ∀ w, G.word = some w → w.macroFree G.rules = true
  noLR : ∀ (r : Nat) (d : Def), G.rules[r]? = some d → d.isMacro = false → d.isLR = false

theorem Expansion.rel {G G' : Gram V} {P : List (List Byte)} (h : Expansion G G') (hg : MacroGram G P) : GramRel G G' := by
  have hs := h.same
  refine ⟨?_, ?_, ?_, ?_, ?_, ?_, fun w hw v => macroFree_trel v w (hg.ws w hw), fun w hw v => macroFree_trel v w (hg.word w hw), ?_, hg.noLR⟩
  · rw [hs]
  · rw [hs]
  · rw [hs]
  · rw [hs]
  · rw [hs]
  · rw [hs]
  · intro r d hd hm
    obtain ⟨e', h1, h2, h3⟩ := h.rule r d hd hm
    refine ⟨_, h1, rfl, h3, ?_⟩
    have := expands_trel hg.rules h2 {} [d.ope] ⟨(by intro p hp; cases hp), rfl, Nat.le_refl _⟩ ?_ ?_
    · cases this with | cons h _ => exact h
    · have hb := hg.rules.bodies r d hd
      rw [hg.rules.plain r d hd hm] at hb
      simp only [Ope.flatArgsL, Bool.and_eq_true, and_true]; exact hb
    · simp only [Ope.substL, Ope.bonesL, List.cons.injEq, and_true]
      have hb := hg.rules.bodies r d hd
      rw [hg.rules.plain r d hd hm] at hb
      exact subst_nil d.ope

/-- **C35** for the reference semantics: a grammar and its expansion have the same meaning — the same texts are accepted, with the same lengths,
values, tokens, choices and captures. -/
theorem C35_expansion_same_meaning_partial {G G' : Gram V} {P : List (List Byte)} (h : Expansion G G') (hg : MacroGram G P) {r : Nat} {d : Def}
    (hr : G.rules[r]? = some d) (hm : d.isMacro = false) (eoi : Bool) (x : Option (Nat × Frame V)) :
    PegParse G r eoi x ↔ PegParse G' r eoi x := by
  have hR := h.rel hg
  have hi : G'.input = G.input := hR.input
  constructor
  · intro hp
    cases hp with
    | noSkip h1 => exact .noSkip (TRel.forth hR h1 .skip _)
    | noRule h1 h2 => exact .noRule (TRel.forth hR h1 .skip _) (TRel.forth hR h2 (.hold hr hm) _)
    | rest h1 h2 e l => exact .rest (TRel.forth hR h1 .skip _) (TRel.forth hR h2 (.hold hr hm) _) e (by rw [hi]; exact l)
    | ok h1 h2 l => exact .ok (TRel.forth hR h1 .skip _) (TRel.forth hR h2 (.hold hr hm) _) (by rw [hi]; exact l)
  · intro hp
    cases hp with
    | noSkip h1 => exact .noSkip (TRel.back hR h1 .skip)
    | noRule h1 h2 => exact .noRule (TRel.back hR h1 .skip) (TRel.back hR h2 (.hold hr hm))
    | rest h1 h2 e l => exact .rest (TRel.back hR h1 .skip) (TRel.back hR h2 (.hold hr hm)) e (by rw [← hi]; exact l)
    | ok h1 h2 l => exact .ok (TRel.back hR h1 .skip) (TRel.back hR h2 (.hold hr hm)) (by rw [← hi]; exact l)

/-- **C35** for the program: parsing with a certified grammar gives the result, the length and the values of parsing with its expansion. -/
theorem C35_expansion_same_parse_partial {cfg cfg' : Cfg V} {C C' : Cert} {al al' : Nat → Prop} {P : List (List Byte)} {r : Nat}
    (h : Ready cfg C al r) (h' : Ready cfg' C' al' r) (hx : Expansion cfg.gram cfg'.gram) (hg : MacroGram cfg.gram P) (eoi : Bool) (dt dt' : Option V)
    (log log' : Bool) : ∃ n n' res res', parseCore n cfg r eoi { dt := dt, logOn := log } = .ok res ∧
      parseCore n' cfg' r eoi { dt := dt', logOn := log' } = .ok res' ∧ res'.ret = res.ret ∧ res'.recovered = res.recovered ∧
      (res.ret = true → res'.len = res.len ∧
        (cfg.recognizeOnly = false → cfg'.recognizeOnly = false → res'.st.vs = res.st.vs)) := by
  obtain ⟨d, hd, hm⟩ := h.rule
  obtain ⟨x, n, res, hp, h1, h2, h3, h4⟩ := parseCore_peg h eoi dt log
  obtain ⟨x', n', res', hp', k1, k2, k3, k4⟩ := parseCore_peg h' eoi dt' log'
  cases ((C35_expansion_same_meaning_partial hx hg hd hm eoi x).1 hp).det hp'
  refine ⟨n, n', res, res', h1, k1, k2.trans h2.symm, k3.trans h3.symm, fun hr => ?_⟩
  rw [h2, Option.isSome_iff_exists] at hr
  obtain ⟨⟨j, f⟩, rfl⟩ := hr
  obtain ⟨a1, a2⟩ := h4 j f rfl
  obtain ⟨b1, b2⟩ := k4 j f rfl
  exact ⟨b1.trans a1.symm, fun c c' => (b2 c').trans (a2 c).symm⟩

/-! ## A concrete grammar

`S <- L(N, ',')   L(i, s) <- i (s i)*   N <- < [0-9]+ >   %whitespace <- ' '*` and its expansion `S <- N (',' N)*`. -/

def listRules : List Def :=
  [{ name := [83], ope := .ref 1 [76] [.ref 2 [78] [], .lit [44] false], hasMacroRef := true },
   { name := [76], ope := .seq [.param 0 [105], .rep (.seq [.param 1 [115], .param 0 [105]] none) 0 none none] none, isMacro := true,
     params := [[105], [115]] },
   { name := [78], ope := .tok (.rep (.cls ⟨[(48, 57)], false, false⟩) 1 none none) }]

def listExpanded : Ope := .seq [.ref 2 [78] [], .rep (.seq [.lit [44] false, .ref 2 [78] []] none) 0 none none] none

def listCfg (input : List Byte) : Cfg Nat :=
  { input := input, rules := listRules, ws := some (.ws (.ign (.rep (.lit [32] false) 0 none none)))
    action := fun r => if r = 0 then some fun f _ _ => (some f.vals.length, none) else none }

def listCfg' (input : List Byte) : Cfg Nat :=
  { listCfg input with rules := [{ name := [83], ope := listExpanded, hasMacroRef := true }] ++ listRules.tail }

theorem list_expands : Expands listRules [.ref 1 [76] [.ref 2 [78] [], .lit [44] false]] [listExpanded] := by
  have n : Expands listRules [.ref 2 [78] []] [.ref 2 [78] []] := .ref rfl rfl
  exact .call rfl rfl (.seq (.cons n (.cons (.rep (.seq (.cons (.leaf rfl) (.cons n .nil)))) .nil)))

theorem list_expansion (input : List Byte) : Expansion (listCfg input).gram (listCfg' input).gram where
  same := rfl
  rule := by
    intro r d hd hm
    have hd' : listRules[r]? = some d := hd
    rcases r with _ | _ | _ | r
    · cases hd'; exact ⟨_, rfl, list_expands, rfl⟩
    · cases hd'; cases hm
    · cases hd'; exact ⟨_, rfl, .tok (.rep (.leaf rfl)), rfl⟩
    · simp [listRules] at hd'

theorem list_macroGram (input : List Byte) : MacroGram (listCfg input).gram [[105], [115]] where
  rules := by
    refine ⟨?_, ?_, ?_⟩
    · intro r d hd hm p hp
      have hd' : listRules[r]? = some d := hd
      rcases r with _ | _ | _ | r
      · cases hd'; cases hp
      · cases hd'; exact hp
      · cases hd'; cases hp
      · simp [listRules] at hd'
    · intro r d hd hm
      have hd' : listRules[r]? = some d := hd
      rcases r with _ | _ | _ | r
      · cases hd'; rfl
      · cases hd'; cases hm
      · cases hd'; rfl
      · simp [listRules] at hd'
    · intro r d hd
      have : ∀ d ∈ listRules, d.ope.flatArgs listRules [[105], [115]] d.params = true := by decide
      exact this d (List.mem_of_getElem? hd)
  ws := by intro w hw; cases hw; rfl
  word := by intro w hw; cases hw
  noLR r d hd _ := (show ∀ d ∈ listRules, d.isLR = false by decide) d (List.mem_of_getElem? hd)

def listCert : Cert :=
  { rank := fun r => if r = 0 then 3 else if r = 1 then 2 else 0, null := fun _ => false, leak := fun _ => false, modes := fun _ m => m == {},
    abound := fun _ => 1, anull := fun _ => false, aleak := fun _ => false, amodes := fun _ m => m == {}, top := 4, malformed := true
    names := [[105], [115]] }

theorem dtFree_list (input : List Byte) : DtFree (listCfg input) := by
  refine ⟨?_, fun r p h => (by cases h), fun r l h => (by cases h)⟩
  intro r a h f d pd
  simp only [listCfg] at h
  split at h <;> (cases h; try rfl)

theorem listReady (input : List Byte) : Ready (listCfg input) listCert (fun _ => True) 0 where
  cert := by
    refine CertOk.of_check ?_ (slotsOk_of rfl) (fun _ _ _ _ => ⟨List.prefix_refl _, List.prefix_refl _, List.prefix_refl _, rfl⟩)
      (dtFree_list input) (AlOk.trivial _ _ rfl (fun _ _ h => by cases h)) (fun h => by cases h) ?_ ?_ ?_
    · rfl
    · exact noLR_of (show ∀ d ∈ listRules, d.isLR = false by decide)
    · intro r d m hd _ _
      exact bare_nodeOk (fun _ _ h => by cases h) _ (by
        have : ∀ d ∈ listRules, d.ope.bare = true := by decide
        exact this d (List.mem_of_getElem? hd))
    · intro e he
      cases he
      exact bare_nodeOk (fun _ _ h => by cases h) _ rfl
  word := by intro _ _ w h; cases h
  start := trivial
  rule := ⟨_, rfl, rfl⟩
  mode := rfl

theorem listReady' (input : List Byte) : Ready (listCfg' input) listCert (fun _ => True) 0 where
  cert := by
    refine CertOk.of_check ?_ (slotsOk_of rfl) (fun _ _ _ _ => ⟨List.prefix_refl _, List.prefix_refl _, List.prefix_refl _, rfl⟩)
      ⟨(dtFree_list input).action, (dtFree_list input).predicate, (dtFree_list input).leave⟩
      (AlOk.trivial _ _ rfl (fun _ _ h => by cases h)) (fun h => by cases h) ?_ ?_ ?_
    · rfl
    · exact noLR_of (show ∀ d ∈ (listCfg' []).rules, d.isLR = false by decide)
    · intro r d m hd _ _
      exact bare_nodeOk (fun _ _ h => by cases h) _ (by
        have : ∀ d ∈ (listCfg' input).rules, d.ope.bare = true := by
          show ∀ d ∈ (listCfg' []).rules, d.ope.bare = true
          decide
        exact this d (List.mem_of_getElem? hd))
    · intro e he
      cases he
      exact bare_nodeOk (fun _ _ h => by cases h) _ rfl
  word := by intro _ _ w h; cases h
  start := trivial
  rule := ⟨_, rfl, rfl⟩
  mode := rfl

/-- The theorem applies: on every text the list grammar and its expansion give the same result. -/
example (input : List Byte) (eoi : Bool) (dt dt' : Option Nat) (log log' : Bool) :
    ∃ n n' res res', parseCore n (listCfg input) 0 eoi { dt := dt, logOn := log } = .ok res ∧
      parseCore n' (listCfg' input) 0 eoi { dt := dt', logOn := log' } = .ok res' ∧ res'.ret = res.ret ∧ res'.recovered = res.recovered ∧
      (res.ret = true → res'.len = res.len ∧
        ((listCfg input).recognizeOnly = false → (listCfg' input).recognizeOnly = false → res'.st.vs = res.st.vs)) :=
  C35_expansion_same_parse_partial (listReady input) (listReady' input) (list_expansion input) (list_macroGram input) eoi dt dt' log log'

/-- What a parse shows: the Boolean result and the value of the start rule. -/
def macroShown (n : Nat) (cfg : Cfg Nat) : Out (Bool × Option Nat) := (parserParse n cfg 0 true false none).bind fun a => .ok (a.ok, a.val)

instance : DecidableEq (Out (Bool × Option Nat)) := fun a b =>
  match a, b with
  | .ok x, .ok y => if h : x = y then isTrue (by rw [h]) else isFalse (by intro e; cases e; exact h rfl)
  | .ub x, .ub y => if h : x = y then isTrue (by rw [h]) else isFalse (by intro e; cases e; exact h rfl)
  | .oof, .oof => isTrue rfl
  | .ok _, .ub _ => isFalse (by intro e; cases e)
  | .ok _, .oof => isFalse (by intro e; cases e)
  | .ub _, .ok _ => isFalse (by intro e; cases e)
  | .ub _, .oof => isFalse (by intro e; cases e)
  | .oof, .ok _ => isFalse (by intro e; cases e)
  | .oof, .ub _ => isFalse (by intro e; cases e)

/-- "1, 23,4": both accept, with three values. -/
example : macroShown 60 (listCfg "1, 23,4".toUTF8.toList) = .ok (true, some 3) ∧ macroShown 60 (listCfg' "1, 23,4".toUTF8.toList) = .ok (true, some 3) := by
  decide +kernel

/-! ## Where macros are not substitution -/

/-- The name of a rule is captured by a macro's parameter: `S <- M(K(y))   M(y) <- y   K(z) <- '(' z ')'   y <- 'q'`. -/
def captureRules : List Def :=
  [{ name := [83], ope := .ref 1 [77] [.ref 2 [75] [.ref 3 [121] []]], hasMacroRef := true },
   { name := [77], ope := .param 0 [121], isMacro := true, params := [[121]] },
   { name := [75], ope := .seq [.lit [40] false, .param 0 [122], .lit [41] false] none, isMacro := true, params := [[122]] },
   { name := [121], ope := .lit [113] false }]

/-- **C35 fails in general**: the expansion of `S` is `'(' y ')'`, but the grammar rejects "(q)" and accepts "((q))". -/
theorem C35_capture : Expands captureRules [.ref 1 [77] [.ref 2 [75] [.ref 3 [121] []]]]
      [.seq [.lit [40] false, .ref 3 [121] [], .lit [41] false] none] ∧
    macroShown 40 { input := "(q)".toUTF8.toList, rules := { name := [83], ope := .seq [.lit [40] false, .ref 3 [121] [], .lit [41] false] none } ::
      captureRules.tail } = .ok (true, none) ∧
    macroShown 40 { input := "(q)".toUTF8.toList, rules := captureRules } = .ok (false, none) ∧
    macroShown 40 { input := "((q))".toUTF8.toList, rules := captureRules } = .ok (true, none) := by
  refine ⟨?_, by decide +kernel, by decide +kernel, by decide +kernel⟩
  exact .call rfl rfl (.call rfl rfl (.seq (.cons (.leaf rfl) (.cons (.ref rfl rfl) (.cons (.leaf rfl) .nil)))))

/-- A call inside the argument of a call: `S <- K('q')   K(x) <- M(M(x))   M(y) <- y`. -/
def nestedRules : List Def :=
  [{ name := [83], ope := .ref 1 [75] [.lit [113] false], hasMacroRef := true },
   { name := [75], ope := .ref 2 [77] [.ref 2 [77] [.param 0 [120]]], isMacro := true, params := [[120]] },
   { name := [77], ope := .param 0 [121], isMacro := true, params := [[121]] }]

section
variable {cfg : Cfg Nat}

theorem loops_self (n : Nat) (nm : List Byte) (i : Nat) (st : St Nat) (inst : Nat) (rest : List (List Ope × Nat))
    (h : st.args = ([.param 0 [120]], inst) :: rest) (hi : i ≤ cfg.input.length) : run n cfg (.ope (.param 0 nm)) i st = .oof := by
  induction n generalizing nm with
  | zero => rfl
  | succ n ih =>
    show parseOpe (run n) cfg (.param 0 nm) i st = .oof
    unfold parseOpe
    rw [if_neg (by omega)]
    simp only [parseParam, h, List.getElem?_cons_zero]
    exact ih [120]

theorem loops_ope (hr : cfg.rules = nestedRules) {e : Ope} {i : Nat} {st : St Nat} (hi : i ≤ cfg.input.length)
    (h : ∀ n, parseOpe (run n) cfg e i st = .oof) (n : Nat) : run n cfg (.ope e) i st = .oof := by
  cases n with
  | zero => rfl
  | succ n => exact h n

/-- Calling the macro `M` with an argument that does not end. -/
theorem loops_hold (hr : cfg.rules = nestedRules) {i : Nat} {st : St Nat}
    (h : ∀ n, run n cfg (.ope (.param 0 [121])) i { st with ruleStack := 2 :: st.ruleStack } = .oof) (n : Nat) :
    run n cfg (.hold 2) i st = .oof := by
  cases n with
  | zero => rfl
  | succ n =>
    show holder (run n) cfg 2 i st = .oof
    unfold holder
    rw [hr]
    simp only [nestedRules, List.getElem?_cons_succ, List.getElem?_cons_zero, Bool.not_false, Bool.and_self, if_true]
    rw [h n]; rfl

/-- Inside `M`, whose argument is `M(x)` where `x` was a parameter of another macro. -/
theorem loops_inner (hr : cfg.rules = nestedRules) {i : Nat} {st : St Nat} (hi : i ≤ cfg.input.length) {inst : Nat} {rest : List (List Ope × Nat)}
    (ha : st.args = ([.ref 2 [77] [.param 0 [120]]], inst) :: rest) {rs : List Nat} (hs : st.ruleStack = 2 :: rs) (n : Nat) :
    run n cfg (.ope (.param 0 [121])) i st = .oof := by
  refine loops_ope hr hi (fun n => ?_) n
  unfold parseOpe
  rw [if_neg (by omega)]
  simp only [parseParam, ha, List.getElem?_cons_zero]
  refine loops_ope hr hi (fun n => ?_) n
  unfold parseOpe
  rw [if_neg (by omega)]
  simp only [refer, hr, ha, hs]
  show withArgs st ([.param 0 [120]], 0) _ = .oof
  unfold withArgs
  rw [loops_hold hr (fun n => loops_self n _ _ _ _ _ rfl hi)]
  rfl

end

/-- The call of `K` in the body of `S`. -/
theorem loops_call (input : List Byte) (st : St Nat) {rest : List (List Ope × Nat)} (ha : st.args = ([], 0) :: rest) {rs : List Nat}
    (hs : st.ruleStack = 0 :: rs) (n : Nat) :
    run n ({ input := input, rules := nestedRules } : Cfg Nat) (.ope (.ref 1 [75] [.lit [113] false])) 0 st = .oof := by
  refine loops_ope rfl (Nat.zero_le _) (fun n => ?_) n
  unfold parseOpe
  rw [if_neg (by omega)]
  simp only [refer, ha, hs]
  show withArgs st ([.lit [113] false], 0) _ = .oof
  unfold withArgs
  have h1 : ∀ n st', st'.args = ([.lit [113] false], 0) :: st.args →
      run n ({ input := input, rules := nestedRules } : Cfg Nat) (.hold 1) 0 st' = .oof := by
    intro n st' ha'
    cases n with
    | zero => rfl
    | succ n =>
      show holder (run n) ({ input := input, rules := nestedRules } : Cfg Nat) 1 0 st' = .oof
      unfold holder
      have hd : nestedRules[1]? = some ⟨[75], .ref 2 [77] [.ref 2 [77] [.param 0 [120]]], true, [[120]], false, false, false, false, false, [], false, false,
        none⟩ := rfl
      simp only [hd, Bool.not_false, Bool.and_self, if_true]
      rw [loops_ope rfl (Nat.zero_le _) (fun n => ?_) n]
      · rfl
      · unfold parseOpe
        rw [if_neg (by omega)]
        simp only [refer, ha']
        show withArgs _ ([.ref 2 [77] [.param 0 [120]]], 0) _ = .oof
        unfold withArgs
        rw [loops_hold rfl (fun n => loops_inner rfl (Nat.zero_le _) rfl rfl n)]
        rfl
  rw [h1 n _ rfl]
  rfl

/-- **C35 fails in general**: the expansion of `S` is `'q'`, which accepts "q", but parsing with the grammar ends on no text at all (the program exhausts its
stack). -/
theorem C35_nested_call_hangs : Expands nestedRules [.ref 1 [75] [.lit [113] false]] [.lit [113] false] ∧
    macroShown 40 { input := [113], rules := { name := [83], ope := .lit [113] false } :: nestedRules.tail } = .ok (true, none) ∧
    ∀ (input : List Byte) (n : Nat) (eoi : Bool), parseCore n ({ input := input, rules := nestedRules } : Cfg Nat) 0 eoi {} = .oof := by
  refine ⟨.call rfl rfl (.call rfl rfl (.call rfl rfl (.leaf rfl))), by decide +kernel, ?_⟩
  intro input n eoi
  cases n with
  | zero => rfl
  | succ n =>
    unfold parseCore
    simp only [Out.bind]
    have : run (n + 1) ({ input := input, rules := nestedRules } : Cfg Nat) (.hold 0) 0 {} = .oof := by
      show holder (run n) ({ input := input, rules := nestedRules } : Cfg Nat) 0 0 {} = .oof
      unfold holder
      simp only [nestedRules, List.getElem?_cons_zero, Bool.false_eq_true, if_false, Bool.false_and]
      simp only [guarded, Bool.false_eq_true, if_false, List.lookup_nil, Option.isSome_none, doParse, opeBody]
      rw [show ([({ name := [83], ope := .ref 1 [75] [.lit [113] false], hasMacroRef := true } : Def),
          { name := [75], ope := .ref 2 [77] [.ref 2 [77] [.param 0 [120]]], isMacro := true, params := [[120]] },
          { name := [77], ope := .param 0 [121], isMacro := true, params := [[121]] }] : List Def) = nestedRules from rfl]
      rw [loops_call input _ rfl rfl n]
      rfl
    rw [this]

/-- A back reference as argument: `S <- $c<'a'> M($c)   M(x) <- x`. -/
def brefRules : List Def :=
  [{ name := [83], ope := .seq [.cap [99] (.lit [97] false), .ref 1 [77] [.bref [99]]] none, hasMacroRef := true },
   { name := [77], ope := .param 0 [120], isMacro := true, params := [[120]] }]

/-- **C35 fails in general**: the expansion of `S` accepts "aa"; with the grammar the program follows a null pointer. -/
theorem C35_back_reference : Expands brefRules [.seq [.cap [99] (.lit [97] false), .ref 1 [77] [.bref [99]]] none]
      [.seq [.cap [99] (.lit [97] false), .bref [99]] none] ∧
    macroShown 40 { input := [97, 97], rules := { name := [83], ope := .seq [.cap [99] (.lit [97] false), .bref [99]] none } :: brefRules.tail } =
      .ok (true, none) ∧
    macroShown 40 { input := [97, 97], rules := brefRules } = .ub "null operator" := by
  refine ⟨?_, by decide +kernel, by decide +kernel⟩
  exact .seq (.cons (.cap (.leaf rfl)) (.cons (.call rfl rfl (.leaf rfl)) .nil))

/-- A rule whose body is just a macro call: `S <- M('b')   M(x) <- 'a' / x`, with an action that returns `choice()`. -/
def choiceRules : List Def :=
  [{ name := [83], ope := .ref 1 [77] [.lit [98] false], hasMacroRef := true },
   { name := [77], ope := .cho [.lit [97] false, .param 0 [120]] false [], isMacro := true, params := [[120]] }]

def choiceAction : Nat → Option (Frame Nat → Option Nat → Option Nat → Option Nat × Option Nat) :=
  fun _ => some fun f _ _ => (some f.choice, none)

/-- **C35 fails in general** for `choice()`: the rule's action sees 0 instead of 1, because `choice()` is kept only for rules whose body is itself
a choice. -/
theorem C35_choice : Expands choiceRules [.ref 1 [77] [.lit [98] false]] [.cho [.lit [97] false, .lit [98] false] false []] ∧
    macroShown 40 { input := [98], action := choiceAction, rules := { name := [83], ope := .cho [.lit [97] false, .lit [98] false] false [] } :: choiceRules.tail } = .ok (true, some 1) ∧
    macroShown 40 { input := [98], action := choiceAction, rules := choiceRules } = .ok (true, some 0) := by
  refine ⟨?_, by decide +kernel, by decide +kernel⟩
  exact .call rfl rfl (.cho (.cons (.leaf rfl) (.cons (.leaf rfl) .nil)))

end Props
end Verif
