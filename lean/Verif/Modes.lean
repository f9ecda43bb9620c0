import Verif.Lockstep
import Verif.Session
/-!
# The two ways `parse_core` sets up a parse, for a parser object with any history

Links `Lockstep` (two engines side by side) with `Session` (how the configuration of a parse is computed, peglib.h 3348-3396).
-/

namespace Verif

variable {V : Type}

mutual
/-- The flags that parses leave in the rules do not matter here. -/
theorem callsMacro_rules (sh : Shared) (rs : List Def) (e : Ope) : e.callsMacro (sh.rules rs) = e.callsMacro rs := by
  have key : ∀ r : Nat, (((sh.rules rs)[r]?).map Def.isMacro).getD false = ((rs[r]?).map Def.isMacro).getD false := by
    intro r; rw [rules_get]; cases rs[r]? <;> rfl
  cases e with
  | seq es kw => exact callsMacroL_rules sh rs es
  | cho es l fs => exact callsMacroL_rules sh rs es
  | rep e a b c => exact callsMacro_rules sh rs e
  | and_ e => exact callsMacro_rules sh rs e
  | not_ e => exact callsMacro_rules sh rs e
  | capScope e => exact callsMacro_rules sh rs e
  | cap n e => exact callsMacro_rules sh rs e
  | tok e => exact callsMacro_rules sh rs e
  | ign e => exact callsMacro_rules sh rs e
  | ws e => exact callsMacro_rules sh rs e
  | ref r nm as => simp only [Ope.callsMacro]; rw [key, callsMacroL_rules sh rs as]
  | recov r nm as => simp only [Ope.callsMacro]; rw [key, callsMacroL_rules sh rs as]
  | prec a b info r => simp only [Ope.callsMacro]; rw [callsMacro_rules sh rs a, callsMacro_rules sh rs b]
  | param k nm => rfl
  | dict a b => rfl
  | lit a b => rfl
  | cls a => rfl
  | chr a => rfl
  | dot => rfl
  | cut => rfl
  | usr a => rfl
  | bref a => rfl
  | weak a => rfl
  | null => rfl
theorem callsMacroL_rules (sh : Shared) (rs : List Def) (es : List Ope) : Ope.callsMacroL (sh.rules rs) es = Ope.callsMacroL rs es := by
  cases es with
  | nil => rfl
  | cons e es => simp only [Ope.callsMacroL]; rw [callsMacro_rules sh rs e, callsMacroL_rules sh rs es]
end

/-- The rules that a parse from `a` can reach. -/
def Parser.Used (G : Parser) (a r : Nat) : Prop := Reaches G.rules (idRoots a (G.ws a) (G.word a)) r

/-- Nothing can look at the values of a parse from `c.start`: no logger, no tracer, no callback on a reachable rule, no user operator and no precedence
climbing in a reachable expression. -/
structure Unwatched (G : Parser) (c : Call V) : Prop where
  log : c.log = false
  trace : c.trace = false
  rules : ∀ (r : Nat) (d : Def), G.Used c.start r → G.rules[r]? = some d →
    c.action r = none ∧ c.predicate r = none ∧ c.enter r = none ∧ c.leave r = none ∧ d.ope.opqs = false
  ws : ∀ w, G.ws c.start = some w → w.opqs = false
  word : ∀ w, G.word c.start = some w → w.opqs = false

theorem reaches_lt {rs : List Def} {us : List Nat} {r : Nat} (h : Reaches rs us r) : r < rs.length := by cases h <;> assumption

theorem optOpqs_false {e : Option Ope} : optOpqs e = false ↔ ∀ w, e = some w → w.opqs = false := by
  cases e with
  | none => simp [optOpqs]
  | some e => simp [optOpqs]

theorem recognizes_iff (G : Parser) (c : Call V) :
    recognizes (initIds G.rules c.start (G.ws c.start) (G.word c.start)) c = true ↔ Unwatched G c := by
  unfold recognizes
  simp only [Bool.and_eq_true, Bool.not_eq_true', Bool.or_eq_false_iff, List.all_eq_true, Option.isNone_iff_eq_none]
  have hop := initIds_opq G.rules c.start (G.ws c.start) (G.word c.start)
  constructor
  · rintro ⟨⟨h1, h2, h2'⟩, h3⟩
    rw [h1] at hop
    have hno := fun h => Bool.false_ne_true (hop.2 h)
    refine ⟨h2, h2', ?_, ?_, ?_⟩
    · intro r d hr hd
      obtain ⟨⟨⟨q1, q2⟩, q3⟩, q4⟩ := h3 r ((initIds_mem ..).2 hr)
      refine ⟨q1, q4, q2, q3, ?_⟩
      cases ho : d.ope.opqs with
      | false => rfl
      | true => exact (hno (Or.inr ⟨r, d, hr, hd, ho⟩)).elim
    · refine optOpqs_false.1 ?_
      cases ho : optOpqs (G.ws c.start) with
      | false => rfl
      | true => exact (hno (Or.inl (Or.inl ho))).elim
    · refine optOpqs_false.1 ?_
      cases ho : optOpqs (G.word c.start) with
      | false => rfl
      | true => exact (hno (Or.inl (Or.inr ho))).elim
  · intro h
    refine ⟨⟨?_, h.log, h.trace⟩, ?_⟩
    · rw [← Bool.not_eq_true]
      intro ho
      rcases hop.1 ho with (h1 | h1) | ⟨r, d, h1, h2, h3⟩
      · rw [optOpqs_false.2 h.ws] at h1; cases h1
      · rw [optOpqs_false.2 h.word] at h1; cases h1
      · rw [(h.rules r d h1 h2).2.2.2.2] at h3; cases h3
    · intro r hr
      have hr' := (initIds_mem ..).1 hr
      have hlt := reaches_lt hr'
      obtain ⟨q1, q2, q3, q4, -⟩ := h.rules r G.rules[r] hr' (List.getElem?_eq_getElem hlt)
      exact ⟨⟨⟨q1, q3⟩, q4⟩, q2⟩

/-- What logging needs: the expression for white space calls no macro and is not part of one; only macros mention parameters, and a
left-recursive macro that mentions its parameters calls a macro itself. -/
structure LogSafe (G : Parser) (a : Nat) : Prop where
  ws : ∀ w, G.ws a = some w → w.callsMacro G.rules = false ∧ w.hasParam = false
  params : ∀ (r : Nat) (d : Def), G.Used a r → G.rules[r]? = some d → d.ope.hasParam = true →
    d.isMacro = true ∧ (d.isLR = true → d.ope.callsMacro G.rules = true)

theorem cfg_rules_get {G : Parser} {sh : Shared} {c : Call V} {r : Nat} {d : Def} (hd : (sh.cfg G c).rules[r]? = some d) :
    ∃ d0, G.rules[r]? = some d0 ∧ d = { d0 with hasMacroRef := sh.mem.macroRef r } := by
  have hd' : (sh.rules G.rules)[r]? = some d := hd
  rw [rules_get] at hd'
  cases hg : G.rules[r]? with
  | none => rw [hg] at hd'; cases hd'
  | some d0 => rw [hg] at hd'; cases hd'; exact ⟨d0, rfl, rfl⟩

theorem reach_used {G : Parser} {a r : Nat} (h : G.reach a r) {d : Def} (hd : G.rules[r]? = some d) : G.Used a r := by
  rcases h with h | h
  · exact (initIds_mem ..).1 h
  · rw [List.getElem?_eq_none_iff.2 h] at hd; cases hd

theorem used_reach {G : Parser} {a r : Nat} (h : r < G.rules.length → G.Used a r) : G.reach a r := by
  by_cases hl : r < G.rules.length
  · exact Or.inl ((initIds_mem ..).2 (h hl))
  · exact Or.inr (by omega)

/-- The conditions of `Lockstep`. -/
theorem alike {G : Parser} {sh : Shared} (hi : sh.Inv G) {c : Call V} (b ro ns : Bool)
    (ids : sh.ids c.start = some (initIds G.rules c.start (G.ws c.start) (G.word c.start)))
    (hb : b = false → Unwatched G c) (hro : b = true → ro = (sh.cfg G c).recognizeOnly) (hns : ns = true → LogSafe G c.start) :
    Alike b (G.reach c.start) (sh.cfg G c) ro ns := by
  constructor
  · intro r d hr hd
    obtain ⟨d0, hg, rfl⟩ := cfg_rules_get hd
    have hu := reach_used hr hg
    refine ⟨?_, fun hb' => ((hb hb').rules r d0 hu hg).2.2.2.2⟩
    intro u huu
    exact used_reach fun hl => .step hu hg huu hl
  · intro w hw
    have hw' : G.ws c.start = some w := hw
    refine ⟨⟨?_, fun hb' => (hb hb').ws w hw'⟩, ?_⟩
    · intro u hu
      exact used_reach fun hl => .base (by simp [idRoots, optUses, hw', hu]) hl
    · intro h
      obtain ⟨h1, h2⟩ := (hns h).ws w hw'
      show (w.callsMacro (sh.rules G.rules) || w.hasParam) = false
      rw [callsMacro_rules, h1, h2]; rfl
  · intro h r d hr hd hs
    obtain ⟨d0, hg, rfl⟩ := cfg_rules_get hd
    have hu := reach_used hr hg
    have hs' : (d0.ope.callsMacro (sh.rules G.rules) || d0.ope.hasParam) = true := hs
    rw [callsMacro_rules, Bool.or_eq_true] at hs'
    have hf : sh.mem.macroRef r = d0.ope.callsMacro G.rules := hi.flag c.start _ ids r d0 ((initIds_mem ..).2 hu) hg
    show sh.mem.macroRef r = true ∨ (d0.isMacro = true ∧ d0.isLR = false)
    rw [hf]
    rcases hs' with hc | hp
    · exact Or.inl hc
    · obtain ⟨h1, h2⟩ := (hns h).params r d0 hu hg hp
      cases hl : d0.isLR with
      | true => exact Or.inl (h2 hl)
      | false => exact Or.inr ⟨h1, rfl⟩
  · exact hro
  · intro hb' r d hr hd
    obtain ⟨d0, hg, rfl⟩ := cfg_rules_get hd
    obtain ⟨q1, q2, q3, q4, -⟩ := (hb hb').rules r d0 (reach_used hr hg) hg
    exact ⟨q1, q2, q3, q4⟩

/-- What the caller of `parse` sees, the error reports aside. -/
structure SameAnswer (x y : Answer V) : Prop where
  ok : y.ok = x.ok
  val : y.val = x.val
  len : y.res.len = x.res.len
  recovered : y.res.recovered = x.res.recovered
  dt : y.res.st.dt = x.res.st.dt

theorem SameAnswer.symm {x y : Answer V} (h : SameAnswer x y) : SameAnswer y x :=
  ⟨h.ok.symm, h.val.symm, h.len.symm, h.recovered.symm, h.dt.symm⟩

theorem deliver_nov {res : Result V} (h : NoV res.st.vs) : deliver res = none := by
  unfold deliver
  split
  · cases hv : res.st.vs.vals with
    | nil => rfl
    | cons v t => simp [h v (by simp [hv])]
  · rfl

theorem LP.deliver {b : Bool} {r r' : Result V} (h : LP b r r') : deliver r' = deliver r := by
  obtain ⟨h1, -, -, y, h4, h5⟩ := h
  cases b with
  | true =>
    unfold Verif.deliver
    rw [h1, h4]
    simp only [h5.2.1 rfl]
  | false =>
    have h6 := h5.2.2 rfl
    rw [deliver_nov h6.1, deliver_nov (res := r') (by rw [h4]; exact h6.2.1)]

theorem LP.same {b : Bool} {r r' : Result V} (h : LP b r r') (l l' : List Report) :
    SameAnswer ⟨r.ret && !r.recovered, Verif.deliver r, l, r⟩ ⟨r'.ret && !r'.recovered, Verif.deliver r', l', r'⟩ := by
  refine ⟨?_, h.deliver, h.2.2.1, h.2.1, ?_⟩
  · simp only [h.1, h.2.1]
  · obtain ⟨-, -, -, y, h4, -⟩ := h
    simp only [h4]

theorem parserParse_lk {b : Bool} {R : Nat → Prop} {cfg : Cfg V} {ro ns : Bool} (h : Alike b R cfg ro ns) (hns : cfg.needsRuleStack = false) {r : Nat}
    (hR : R r) (n : Nat) (eoi log : Bool) (dt : Option V) :
    Lk SameAnswer (parserParse n cfg r eoi false dt) (parserParse n (cfg.mode ro ns) r eoi log dt) := by
  have ht : Par b ({ dt := dt, logOn := false } : St V) ⟨{}, {}, [], [], [], log⟩ :=
    ⟨rfl, fun _ => rfl, fun _ => ⟨nov_empty, nov_empty, ⟨(by intro k j v h; cases h), (by intro k j v h; cases h), rfl⟩⟩⟩
  have key := parseCore_lk h hns hR n eoi ht rfl rfl
  unfold parserParse
  refine Lk.bind key fun x x' hx => ?_
  unfold postProcess
  simp only [Bool.false_and, Bool.false_eq_true, if_false]
  split
  · cases ho : x'.st.err.output cfg.rules with
    | ok o => simp only [Out.bind]; exact Lk.ok (hx.same _ _)
    | ub s => exact Lk.ub _
    | oof => exact (output_ne_oof _ _ ho).elim
  · exact Lk.ok (hx.same _ _)

end Verif
