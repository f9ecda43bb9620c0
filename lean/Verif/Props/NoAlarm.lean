import Verif.TextSane
import Verif.Props.TextMeaning
import Verif.Props.Accept
/-!
# Properties: well-formed grammar texts are accepted (C60)

Specification: `WellFormed` (`TextWf.lean`), `startName`, `Fragment` (`TextMade.lean`).  `realMark` and `realLoops` (`TextSane.lean`) are the loader's checks for
left recursion and infinite loops.
-/

namespace Verif.Props
open Verif Meta Utf8

variable {V : Type}

/-- The rules of a text that has no defect of the kinds the loader looks for before the checks: all names different (and not that of the built-in
macro), every reference names a rule, the start rule exists and is not ignored, no instruction is given twice. -/
structure Complete (ds : List RDef) (start : Option (List Byte)) (nm : List Byte) : Prop where
  names : (recoverName :: ds.map (·.name)).Nodup
  refs : ∀ d ∈ ds, ∀ x ∈ d.body.refs [], ∃ d' ∈ ds, d'.name = x.1
  start : startName ds start = some nm
  rule : ∃ rd ∈ ds, rd.name = nm ∧ rd.ign = false
  instrs : dupInstr ds = false

theorem start_to {ds : List RDef} {start : Option (List Byte)} {nm : List Byte} (h : Complete ds start nm) (packrat leftRec : Bool) :
    ∃ k rd, (toSource ds start packrat leftRec).startRule = some (some (k + 1)) ∧ ds[k]? = some rd ∧ rd.name = nm ∧ rd.ign = false := by
  have hnd := (List.nodup_cons.1 h.names).2
  obtain ⟨rd, hm, hn, hi⟩ := h.rule
  obtain ⟨j, hj⟩ := List.getElem?_of_mem hm
  have hf : ruleOf ds nm = some rd := hn ▸ nodup_find hnd hj
  have hne : nm ≠ recoverName := by
    intro e
    refine (List.nodup_cons.1 h.names).1 ?_
    rw [← e, ← hn]
    exact List.mem_map_of_mem hm
  have hs := h.start
  cases start with
  | some nm' =>
    cases hs
    obtain ⟨k, h1, h2⟩ := ruleNamed_of hne hf
    refine ⟨k, rd, ?_, h2, hn, hi⟩
    show (ruleNamed (allOf ds) nm).map some = _
    rw [h1]; rfl
  | none =>
    have e : ((fun d : SDef => decide (d.head.name.head? ≠ some 37)) ∘ RDef.toSDef) = fun d : RDef => decide (d.name.head? ≠ some 37) := by
      funext d; simp only [Function.comp, toSDef_name]
    unfold startName at hs
    cases hq : ds.findIdx? (fun d => decide (d.name.head? ≠ some 37)) with
    | none =>
      have : ds.find? (fun d => decide (d.name.head? ≠ some 37)) = none := by
        rw [List.findIdx?_eq_none_iff] at hq
        rw [List.find?_eq_none]
        intro x hx; rw [hq x hx]; simp
      rw [this] at hs; cases hs
    | some k =>
      obtain ⟨x, h1, h2⟩ := findIdx_find hq
      rw [h2] at hs
      have hxn : x.name = nm := Option.some.inj hs
      have hx : x = rd := by
        have := nodup_find hnd h1
        rw [hxn, hf] at this
        exact (Option.some.inj this).symm
      subst hx
      refine ⟨k, x, ?_, h1, hxn, hi⟩
      show some (((ds.map RDef.toSDef).findIdx? fun d => decide (d.head.name.head? ≠ some 37)).map (· + 1)) = _
      rw [List.findIdx?_map, e, hq]; rfl

theorem Complete.plain {ds : List RDef} {start : Option (List Byte)} {nm : List Byte} (h : Complete ds start nm) (hF : Fragment ds) :
    ∀ rd ∈ ds, plainText ds rd.body = true := by
  intro rd hd
  refine plainText_of rd.body (hF.rules rd hd).2.1 fun x hx hm => ?_
  obtain ⟨d', h1, h2⟩ := h.refs rd hd x hx
  constructor
  · intro e
    refine (List.nodup_cons.1 h.names).1 ?_
    rw [← e, ← h2]
    exact List.mem_map_of_mem h1
  · unfold ruleOf
    rw [List.find?_isSome]
    exact ⟨d', h1, by simpa using h2⟩

/-- Loading the rules of a well-formed text. -/
theorem load_sane {ds : List RDef} {start : Option (List Byte)} {nm : List Byte} (hF : Fragment ds) (hg : ∀ rd ∈ ds, Regular rd.body)
    (hc : Complete ds start nm) {ν : List Byte → Bool} {rank : List Byte → Nat} {μ : List Byte → Mode → Bool} (hw : WellFormed ds ν rank μ nm)
    (ord order : List Nat) (packrat leftRec : Bool) (hlr : leftRec = false → ∀ d ∈ ds, lrParts d = none) :
    (∃ G a, load (realMark ord) realLoops order (toSource ds start packrat leftRec) = .ok (some (G, a))) ∧
      ∀ r < (allOf ds).length, realMark ord (linkAll (allOf ds)) r = lrAt ds r := by
  have hp := hc.plain hF
  have hm : ∀ d ∈ ds, d.params = none := fun d hd => (hF.rules d hd).1
  have hall : (toSource ds start packrat leftRec).all = allOf ds := rfl
  have hL := rulesOf_link hm
  have hlen : (allOf ds).length = ds.length + 1 := by simp [allOf]
  have hmark : ∀ r < (allOf ds).length, realMark ord (linkAll (allOf ds)) r = lrAt ds r := fun r hr =>
    realMark_text hL hp hg hc.names hw ord (by rw [hL.len, ← hlen]; exact hr)
  refine ⟨?_, hmark⟩
  obtain ⟨k, rd, h1, h2, h3, h4⟩ := start_to hc packrat leftRec
  have hk : k < ds.length := (List.getElem?_eq_some_iff.mp h2).1
  unfold load
  rw [h1]
  have e : (toSource ds start packrat leftRec).all.map (·.head.name) = recoverName :: ds.map (·.name) := by
    show (recoverDef :: ds.map RDef.toSDef).map _ = _
    rw [List.map_cons, List.map_map]
    congr 1
    exact List.map_congr_left fun d _ => toSDef_name d
  rw [e, if_neg (not_not_intro hc.names)]
  dsimp only
  have hign : (((toSource ds start packrat leftRec).all[k + 1]?).map (·.head.ignoreSV)).getD false = false := by
    rw [hall]
    simp [allOf, h2, (toSDef_head rd).2.2.2, h4]
  rw [if_neg (by rw [hign]; exact Bool.false_ne_true)]
  have hrefs : refsOk (toSource ds start packrat leftRec).all = true := by
    rw [hall]
    unfold refsOk allOf
    rw [List.all_cons, Bool.and_eq_true]
    refine ⟨by simp [recoverDef, Src.check], List.all_eq_true.2 fun d hd => ?_⟩
    obtain ⟨d', k1, rfl⟩ := List.mem_map.1 hd
    have hps : d'.toSDef.head.params = [] := by rw [(toSDef_head d').2.1, hm d' k1]; rfl
    rw [hps]
    exact check_plain d'.body (hp d' k1) hm
  rw [hrefs, hall]
  simp only [Bool.not_true, Bool.false_eq_true, if_false]
  have hany : (!(toSource ds start packrat leftRec).leftRec && (List.range (linkAll (allOf ds)).length).any (realMark ord (linkAll (allOf ds)))) = false := by
    cases leftRec with
    | true => rfl
    | false =>
      refine (Bool.true_and _).trans ?_
      rw [List.any_eq_false]
      intro r hr
      rw [hmark r (by rw [hlen, ← hL.len]; exact List.mem_range.1 hr)]
      cases r with
      | zero => exact Bool.false_ne_true
      | succ k =>
        show ¬ (ds[k]?.bind lrParts).isSome = true
        cases hk : ds[k]? with
        | none => exact Bool.false_ne_true
        | some rd => rw [Option.bind_some, hlr rfl rd (List.mem_of_getElem? hk)]; exact Bool.false_ne_true
  rw [hany]
  simp only [Bool.false_eq_true, if_false]
  generalize hrs : (if (toSource ds start packrat leftRec).leftRec = true then
    (linkAll (allOf ds)).mapIdx fun r d => { d with isLR := realMark ord (linkAll (allOf ds)) r } else linkAll (allOf ds)) = rs
  have hstep : rs.length = (linkAll (allOf ds)).length ∧ ∀ (r : Nat) (d : Def), (linkAll (allOf ds))[r]? = some d → ∃ d', rs[r]? = some d' ∧ d'.name = d.name ∧ d'.ope = d.ope := by
    rw [← hrs]
    split
    · exact ⟨List.length_mapIdx, fun r d hd => ⟨{ d with isLR := realMark ord (linkAll (allOf ds)) r }, by rw [List.getElem?_mapIdx, hd]; rfl, rfl, rfl⟩⟩
    · exact ⟨rfl, fun r d hd => ⟨d, hd, rfl, rfl⟩⟩
  have hR : RulesOf ds rs := hL.congr hstep.1 hstep.2
  rw [realLoops_text hR hp hg hc.names hw (r := k + 1) (by omega) (by rw [hR.len]; omega)]
  simp only [Bool.false_eq_true, if_false]
  generalize hrs' : (if (ruleNamed (allOf ds) whitespaceName).isSome = true then rs.map tokLit else rs) = rs'
  have hR' : RulesOf ds rs' := by
    rw [← hrs']
    split
    · refine hR.tokened fun k rd d hk hd => ?_
      have h0 : (allOf ds)[k + 1]? = some rd.toSDef := by simp [allOf, hk]
      obtain ⟨d', k1, k2, k3⟩ := hstep.2 _ _ (linkAll_get h0)
      rw [hd] at k1; cases k1
      have hps : rd.toSDef.head.params = [] := by rw [(toSDef_head rd).2.1, hm rd (List.mem_of_getElem? hk)]; rfl
      rw [k3, hps]; rfl
    · exact hR
  have hws : ((ruleNamed (allOf ds) whitespaceName).map (realLoops rs')).getD false = false := by
    cases hr : ruleOf ds whitespaceName with
    | none => rw [ruleNamed_none (by decide +kernel) hr]; rfl
    | some rd =>
      obtain ⟨j, k1, k2⟩ := ruleNamed_of (by decide +kernel) hr
      have hj : j < ds.length := (List.getElem?_eq_some_iff.mp k2).1
      rw [k1]
      exact realLoops_text hR' hp hg hc.names hw (r := j + 1) (by omega) (by rw [hR'.len]; omega)
  have hwd : ((ruleNamed (allOf ds) wordName).map (realLoops rs')).getD false = false := by
    cases hr : ruleOf ds wordName with
    | none => rw [ruleNamed_none (by decide +kernel) hr]; rfl
    | some rd =>
      obtain ⟨j, k1, k2⟩ := ruleNamed_of (by decide +kernel) hr
      have hj : j < ds.length := (List.getElem?_eq_some_iff.mp k2).1
      rw [k1]
      exact realLoops_text hR' hp hg hc.names hw (r := j + 1) (by omega) (by rw [hR'.len]; omega)
  rw [hws, hwd]
  simp only [Bool.false_eq_true, if_false]
  rw [precAll_id (hF.prec start packrat leftRec)]
  exact ⟨_, _, rfl⟩

theorem loadText_of {n : Nat} {metaOrder order : List Nat} {gram : List Byte} {ds : List RDef} (h : readText n metaOrder gram = .ok (.defs ds))
    (hd : dupInstr ds = false) (hF : Fragment ds) (mark loops : List Def → Nat → Bool) (start : Option (List Byte)) (packrat leftRec : Bool) :
    loadText n metaOrder mark loops order gram start packrat leftRec = load mark loops order (toSource ds start packrat leftRec) := by
  unfold loadText
  rw [h]
  simp only [Out.bind, hd, hF.defined, hF.own, Bool.and_true]
  rfl

/-- **C60** A well-formed UTF-8 grammar text is accepted: the loader, with its checks for left recursion and infinite loops, in whatever order it visits the
rules, makes a parser of it.  `hlr`: if left recursion is switched off, the text has none. -/
theorem C60_well_formed_text_loads {gram : List Byte} (ht : Text gram) {ds : List RDef} (hr : ReadsAs gram (.defs ds)) (hF : Fragment ds)
    {start : Option (List Byte)} {nm : List Byte} (hc : Complete ds start nm)
    {ν : List Byte → Bool} {rank : List Byte → Nat} {μ : List Byte → Mode → Bool} (hw : WellFormed ds ν rank μ nm)
    (metaOrder ord order : List Nat) (packrat leftRec : Bool) (hlr : leftRec = false → ∀ d ∈ ds, lrParts d = none) :
    ∃ m G a, loadText m metaOrder (realMark ord) realLoops order gram start packrat leftRec = .ok (some (G, a)) := by
  obtain ⟨⟨G, a, h⟩, -⟩ := load_sane hF (fun rd hd => ((C54_read_is_regular ht hr).2 rd hd).body) hc hw ord order packrat leftRec hlr
  obtain ⟨n, hn⟩ := hr metaOrder
  exact ⟨n, G, a, by rw [loadText_of (hn n (Nat.le_refl n)) hc.instrs hF]; exact h⟩

/-- **C60 and C55** Every well-formed UTF-8 grammar text makes a parser, and the parser answers every parse of every UTF-8 text, whatever it parsed
before, as the rules of the text say. -/
theorem C60_well_formed_text_works {gram : List Byte} (ht : Text gram) {ds : List RDef} (hr : ReadsAs gram (.defs ds)) (hF : Fragment ds)
    {start : Option (List Byte)} {nm : List Byte} (hc : Complete ds start nm)
    {ν : List Byte → Bool} {rank : List Byte → Nat} {μ : List Byte → Mode → Bool} (hw : WellFormed ds ν rank μ nm) {packrat : Bool}
    (h1 : packrat = true → ∀ q m m', μ q m = true → μ q m' = true → m = m') (metaOrder ord order : List Nat) (leftRec : Bool)
    (hlr : leftRec = false → ∀ d ∈ ds, lrParts d = none) :
    ∃ m G a, loadText m metaOrder (realMark ord) realLoops order gram start packrat leftRec = .ok (some (G, a)) ∧
      ∀ (flt : List Nat → Nat → List Bool) (k : Nat) (hist : List (Call V)), (∀ x ∈ hist, x.start = a) →
      ∀ c : Call V, c.start = a → Text c.input → Calm c →
        ∃ r, Recog ds c.input nm c.eoi r ∧ ∃ n ans, (Shared.parse flt G n (Shared.after flt G k {} hist) c).1 = .ok ans ∧ ans.ok = r.isSome ∧
          ∀ j, r = some j → ans.res.len = j := by
  obtain ⟨⟨G, a, h⟩, hmark⟩ := load_sane hF (fun rd hd => ((C54_read_is_regular ht hr).2 rd hd).body) hc hw ord order packrat leftRec hlr
  obtain ⟨m, hm⟩ := hr metaOrder
  have hL := loadText_of (order := order) (hm m (Nat.le_refl m)) hc.instrs hF
  refine ⟨m, G, a, by rw [hL]; exact h, fun flt k hist hh c ha hi hq => ?_⟩
  obtain ⟨nm', r, k1, k2, k3⟩ := C55_well_formed_text_partial ht (by rw [hL]; exact h) hr hF hmark (ν := ν) (rank := rank) (μ := μ)
    (fun nm' e => by rw [hc.start] at e; cases e; exact hw) h1 flt k hist hh c ha hi hq
  rw [hc.start] at k1
  cases k1
  exact ⟨r, k2, k3⟩

/-- **C60** The check for left recursion finds exactly the rules whose alternatives begin with the rule itself. -/
theorem C60_left_recursion_found {ds : List RDef} {start : Option (List Byte)} {nm : List Byte} (hF : Fragment ds) (hg : ∀ rd ∈ ds, Regular rd.body)
    (hc : Complete ds start nm) {ν : List Byte → Bool} {rank : List Byte → Nat} {μ : List Byte → Mode → Bool} (hw : WellFormed ds ν rank μ nm)
    (ord : List Nat) {k : Nat} {rd : RDef} (hk : ds[k]? = some rd) : realMark ord (linkAll (allOf ds)) (k + 1) = (lrParts rd).isSome := by
  have hL := rulesOf_link (ds := ds) fun d hd => (hF.rules d hd).1
  rw [realMark_text hL (hc.plain hF) hg hc.names hw ord (by rw [hL.len]; have := (List.getElem?_eq_some_iff.mp hk).1; omega)]
  show (ds[k]?.bind lrParts).isSome = _
  rw [hk]; rfl

/-- **C60** The same for rules in general (all operators except macros): if the rules are well-formed (`Sane`), no rule is taken for left-recursive, whatever
order the `can_be_empty` flags are computed in, except those that call themselves where they start (`lr`), and no start rule is found to loop. -/
theorem C60_checks_are_silent {rules : List Def} {ν : Nat → Bool} {rank : Nat → Nat} {lr : Nat → Bool} (h : Sane rules (fun _ => True) ν rank lr) (ord : List Nat) {r : Nat}
    (hr : r < rules.length) : (lr r = false → realMark ord rules r = false) ∧ realLoops rules r = false := by
  refine ⟨fun hl => ?_, infiniteLoop_sane h trivial hr⟩
  obtain ⟨t, h1, -, -, -, h3⟩ := cbeLoop_spec rules ord (rules.length + 1) (fun _ => false) (fun r h => by cases h)
    (Nat.lt_succ_of_le (by unfold unmarked; exact Nat.le_trans List.countP_le_length (by simp)))
  unfold realMark
  rw [h1]
  exact markedLR_sane h (fun r => h3 ν (fun r d hd hc => h.null r d hd (nul_of_cbe _ hc)) (fun r h => by cases h) r) trivial hr hl

/-- A rule of a sample passes the three tests of `Sane`. -/
def saneAt (rules : List Def) (ν : Nat → Bool) (rank : Nat → Nat) (r : Nat) : Bool :=
  match rules[r]? with
  | none => true
  | some d => (!nulO ν d.ope || ν r) && (leftO ν d.ope).all (fun q => decide (rank q < rank r)) && tidyO rules ν d.ope

theorem sane_of {rules : List Def} {ν : Nat → Bool} {rank : Nat → Nat} (hn : (rules.map (·.name)).Nodup)
    (h : (List.range rules.length).all (saneAt rules ν rank) = true) : Sane rules (fun _ => True) ν rank fun _ => false := by
  have key : ∀ (r : Nat) (d : Def), rules[r]? = some d →
      ((nulO ν d.ope = false ∨ ν r = true) ∧ ∀ q ∈ leftO ν d.ope, rank q < rank r) ∧ tidyO rules ν d.ope = true := by
    intro r d hd
    have := List.all_eq_true.1 h r (List.mem_range.2 (List.getElem?_eq_some_iff.mp hd).1)
    unfold saneAt at this
    rw [hd] at this
    simpa using this
  refine ⟨fun r r' d d' h1 h2 e => ?_, fun _ _ _ _ _ _ => trivial, fun r d hd hnul => ?_, fun r d _ hd q hq => .inl ((key r d hd).1.2 q hq),
    fun r d _ hd => (key r d hd).2⟩
  · refine (List.getElem?_inj (by rw [List.length_map]; exact (List.getElem?_eq_some_iff.mp h1).1) hn).1 ?_
    rw [List.getElem?_map, List.getElem?_map, h1, h2]
    exact congrArg some e
  · rcases (key r d hd).1.1 with h | h
    · rw [h] at hnul; cases hnul
    · exact h

/-- The hypotheses of `C60_checks_are_silent`: the JSON grammar of `Props/Accept.lean`, recursive through brackets. -/
example (ord : List Nat) : realMark ord jsRules 0 = false ∧ realLoops jsRules 0 = false :=
  (C60_checks_are_silent (sane_of (ν := (· == 6)) (rank := fun r => if r = 0 then 3 else if r = 2 then 2 else 1) (by decide +kernel) (by decide +kernel)) ord
    (by decide +kernel)).imp_left fun h => h rfl

/-! ## Concrete texts -/

/-- Nothing is missing in the concrete text. -/
theorem c60_complete : Complete c55defs none [83] where
  names := by decide +kernel
  refs := by decide +kernel
  start := by decide +kernel
  rule := ⟨c55defs[0], List.mem_cons_self, rfl, rfl⟩
  instrs := by decide +kernel

/-- The hypotheses of `C60_well_formed_text_works`: a text with white space and tokens loads, with both checks, and works. -/
theorem C60_sample (packrat leftRec : Bool) (metaOrder ord order : List Nat) :
    ∃ m G a, loadText m metaOrder (realMark ord) realLoops order c55text none packrat leftRec = .ok (some (G, a)) ∧
      ∀ c : Call V, c.start = a → Text c.input → Calm c →
        ∃ r, Recog c55defs c.input [83] c.eoi r ∧ ∃ n ans, (Shared.parse (fun _ _ => []) G n {} c).1 = .ok ans ∧ ans.ok = r.isSome ∧ ∀ j, r = some j → ans.res.len = j := by
  obtain ⟨m, G, a, h1, h2⟩ := C60_well_formed_text_works (V := V) (enc_text (str_scalar _)) c55_reads c55_fragment c60_complete c55_well_formed (packrat := packrat)
    (fun _ _ m m' h h' => (eq_of_beq h).trans (eq_of_beq h').symm) metaOrder ord order leftRec
    (fun _ d hd => by
      simp only [c55defs, List.mem_cons, List.not_mem_nil, or_false] at hd
      rcases hd with rfl | rfl | rfl <;> rfl)
  exact ⟨m, G, a, h1, fun c ha hi hq => h2 (fun _ _ => []) 0 [] (fun x hx => by cases hx) c ha hi hq⟩

/-- Was the text refused? -/
def refusedBy (x : Out (Option (Parser × Nat))) : Bool := match x with | .ok none => true | _ => false

/-- Expressions, left-recursive on two levels. -/
abbrev c60lrText : List Byte := txt "E <- E '+' T / E '-' T / T  T <- T '*' F / F  F <- < [0-9]+ > / '(' E ')'  %whitespace <- [ ]*"

def c60lrDefs : List RDef :=
  [⟨false, [69], none, .cho [.seq [.ref [69] false [], .lit [43] false, .ref [84] false []], .seq [.ref [69] false [], .lit [45] false, .ref [84] false []],
      .ref [84] false []] false, []⟩,
   ⟨false, [84], none, .cho [.seq [.ref [84] false [], .lit [42] false, .ref [70] false []], .ref [70] false []] false, []⟩,
   ⟨false, [70], none, .cho [.tok (.rep (.cls ⟨[(48, 57)], false, false⟩) 1 none), .seq [.lit [40] false, .ref [69] false [], .lit [41] false]] false, []⟩,
   ⟨false, [37, 119, 104, 105, 116, 101, 115, 112, 97, 99, 101], none, .rep (.cls ⟨[(32, 32)], false, false⟩) 0 none, []⟩]

theorem c60lr_reads : ReadsAs c60lrText (.defs c60lrDefs) := readsAs_run (n := 400) (by decide +kernel)

theorem c60lr_fragment : Fragment c60lrDefs where
  rules := by
    intro d hd
    simp only [c60lrDefs, List.mem_cons, List.not_mem_nil, or_false] at hd
    rcases hd with rfl | rfl | rfl | rfl <;> exact ⟨rfl, rfl, rfl⟩

theorem c60lr_complete : Complete c60lrDefs none [69] where
  names := by decide +kernel
  refs := by decide +kernel
  start := by decide +kernel
  rule := ⟨c60lrDefs[0], List.mem_cons_self, rfl, rfl⟩
  instrs := by decide +kernel

theorem c60lr_well_formed : WellFormed c60lrDefs (· == [37, 119, 104, 105, 116, 101, 115, 112, 97, 99, 101])
    (fun n => if n == [69] then 3 else if n == [84] then 2 else if n == [70] then 1 else 0) (fun _ m => m == {}) [69] where
  null := by decide +kernel
  left := by decide +kernel
  tidy := by decide +kernel
  modeStart := rfl
  modeRule := by
    intro d hd m hm x hx
    have e : m = {} := eq_of_beq hm
    subst e
    simp only [c60lrDefs, List.mem_cons, List.not_mem_nil, or_false] at hd
    rcases hd with rfl | rfl | rfl | rfl <;> revert x <;> decide +kernel
  modeWs := by
    intro d hd x hx
    have hn : (d.name == whitespaceName) = true := by
      unfold ruleOf at hd
      simpa using List.find?_some hd
    have hm := List.mem_of_find?_eq_some hd
    simp only [c60lrDefs, List.mem_cons, List.not_mem_nil, or_false] at hm
    rcases hm with rfl | rfl | rfl | rfl
    · exact absurd hn (by decide +kernel)
    · exact absurd hn (by decide +kernel)
    · exact absurd hn (by decide +kernel)
    · revert x; decide +kernel
  modeWord := fun d hd => by
    have : ruleOf c60lrDefs wordName = none := by decide +kernel
    rw [this] at hd; cases hd
  modeUsed := fun d hd => ⟨{}, rfl⟩
  leftRec := by
    intro d hd _
    refine ⟨?_, ?_, fun m m' h h' => (eq_of_beq h).trans (eq_of_beq h').symm⟩
    · simp only [c60lrDefs, List.mem_cons, List.not_mem_nil, or_false] at hd
      rcases hd with rfl | rfl | rfl | rfl
      · rfl
      · rfl
      · rfl
      · next h => exact absurd h (by decide +kernel)
    · simp only [c60lrDefs, List.mem_cons, List.not_mem_nil, or_false] at hd
      rcases hd with rfl | rfl | rfl | rfl <;> rfl

/-- A left-recursive text loads, with both checks and with or without packrat parsing, and works. -/
theorem C60_sample_left_recursive (packrat : Bool) (metaOrder ord order : List Nat) :
    ∃ m G a, loadText m metaOrder (realMark ord) realLoops order c60lrText none packrat true = .ok (some (G, a)) ∧
      ∀ c : Call V, c.start = a → Text c.input → Calm c →
        ∃ r, Recog c60lrDefs c.input [69] c.eoi r ∧ ∃ n ans, (Shared.parse (fun _ _ => []) G n {} c).1 = .ok ans ∧ ans.ok = r.isSome ∧ ∀ j, r = some j → ans.res.len = j := by
  obtain ⟨m, G, a, h1, h2⟩ := C60_well_formed_text_works (V := V) (enc_text (str_scalar _)) c60lr_reads c60lr_fragment c60lr_complete c60lr_well_formed (packrat := packrat)
    (fun _ _ m m' h h' => (eq_of_beq h).trans (eq_of_beq h').symm) metaOrder ord order true (fun h => by cases h)
  exact ⟨m, G, a, h1, fun c ha hi hq => h2 (fun _ _ => []) 0 [] (fun x hx => by cases hx) c ha hi hq⟩

/-- With left recursion switched off the same text is refused. -/
theorem C60_sample_left_recursion_off :
    refusedBy (load (realMark (List.range 5)) realLoops (List.range 5) (toSource c60lrDefs none false false)) = true := by decide +kernel

/-- The parser accepts an expression that needs both operators at both levels. -/
theorem C60_sample_left_recursive_run :
    runLoaded (load (realMark (List.range 5)) realLoops (List.range 5) (toSource c60lrDefs none false true)) 200 (txt " 1 - 2*3 + (4)") = some (true, 14) := by
  decide +kernel

/-- A keyword and a name; `%word` keeps them apart. -/
abbrev c60wordText : List Byte := txt "S <- 'let' < L+ >  L <- [a-z]  %whitespace <- [ ]*  %word <- L+"

def c60wordDefs : List RDef :=
  [⟨false, [83], none, .seq [.lit [108, 101, 116] false, .tok (.rep (.ref [76] false []) 1 none)], []⟩,
   ⟨false, [76], none, .cls ⟨[(97, 122)], false, false⟩, []⟩,
   ⟨false, [37, 119, 104, 105, 116, 101, 115, 112, 97, 99, 101], none, .rep (.cls ⟨[(32, 32)], false, false⟩) 0 none, []⟩,
   ⟨false, [37, 119, 111, 114, 100], none, .rep (.ref [76] false []) 1 none, []⟩]

theorem c60word_reads : ReadsAs c60wordText (.defs c60wordDefs) := readsAs_run (n := 400) (by decide +kernel)

theorem c60word_fragment : Fragment c60wordDefs where
  rules := by
    intro d hd
    simp only [c60wordDefs, List.mem_cons, List.not_mem_nil, or_false] at hd
    rcases hd with rfl | rfl | rfl | rfl <;> exact ⟨rfl, rfl, rfl⟩

theorem c60word_complete : Complete c60wordDefs none [83] where
  names := by decide +kernel
  refs := by decide +kernel
  start := by decide +kernel
  rule := ⟨c60wordDefs[0], List.mem_cons_self, rfl, rfl⟩
  instrs := by decide +kernel

/-- `L` is called inside tokens; the start rule and `%whitespace` outside. -/
abbrev c60wordWays (n : List Byte) (m : Mode) : Bool := if n == [76] || n == [37, 119, 111, 114, 100] then m == ⟨true, false⟩ else m == {}

theorem c60word_rules {μ : List Byte → Mode → Bool} (h1 : ∀ d ∈ c60wordDefs, ∀ m, μ d.name m = true → ∀ x ∈ callsS m (meaning c60wordDefs d), μ x.1 x.2 = true)
    (h2 : ∀ d ∈ c60wordDefs, ∃ m, μ d.name m = true) :
    RulesWf c60wordDefs (· == [37, 119, 104, 105, 116, 101, 115, 112, 97, 99, 101]) (fun n => if n == [76] then 0 else 1) μ where
  null := by decide +kernel
  left := by decide +kernel
  tidy := by decide +kernel
  modeRule := h1
  modeUsed := h2
  leftRec := by
    intro d hd h
    simp only [c60wordDefs, List.mem_cons, List.not_mem_nil, or_false] at hd
    rcases hd with rfl | rfl | rfl | rfl <;> exact absurd h (by decide +kernel)

theorem c60word_well_formed : WellFormed c60wordDefs (· == [37, 119, 104, 105, 116, 101, 115, 112, 97, 99, 101]) (fun n => if n == [76] then 0 else 1) c60wordWays [83] where
  toRulesWf := c60word_rules (by
    intro d hd m hm x hx
    rcases m with ⟨a, b⟩
    revert x
    revert hm
    simp only [c60wordDefs, List.mem_cons, List.not_mem_nil, or_false] at hd
    rcases hd with rfl | rfl | rfl | rfl <;> cases a <;> cases b <;> decide +kernel) (by
    intro d hd
    simp only [c60wordDefs, List.mem_cons, List.not_mem_nil, or_false] at hd
    rcases hd with rfl | rfl | rfl | rfl
    · exact ⟨{}, by decide +kernel⟩
    · exact ⟨⟨true, false⟩, by decide +kernel⟩
    · exact ⟨{}, by decide +kernel⟩
    · exact ⟨⟨true, false⟩, by decide +kernel⟩)
  modeStart := by decide +kernel
  modeWs := by
    intro d hd x hx
    have hn : (d.name == whitespaceName) = true := by
      unfold ruleOf at hd
      simpa using List.find?_some hd
    have hm := List.mem_of_find?_eq_some hd
    simp only [c60wordDefs, List.mem_cons, List.not_mem_nil, or_false] at hm
    rcases hm with rfl | rfl | rfl | rfl
    · exact absurd hn (by decide +kernel)
    · exact absurd hn (by decide +kernel)
    · revert x; decide +kernel
    · exact absurd hn (by decide +kernel)
  modeWord := fun d hd => ⟨fun _ _ => true, c60word_rules (fun _ _ _ _ _ _ => rfl) fun _ _ => ⟨{}, rfl⟩, fun _ _ => rfl⟩

/-- A text with `%word` loads, with both checks and with or without packrat parsing, and works. -/
theorem C60_sample_word (packrat leftRec : Bool) (metaOrder ord order : List Nat) :
    ∃ m G a, loadText m metaOrder (realMark ord) realLoops order c60wordText none packrat leftRec = .ok (some (G, a)) ∧
      ∀ c : Call V, c.start = a → Text c.input → Calm c →
        ∃ r, Recog c60wordDefs c.input [83] c.eoi r ∧ ∃ n ans, (Shared.parse (fun _ _ => []) G n {} c).1 = .ok ans ∧ ans.ok = r.isSome ∧ ∀ j, r = some j → ans.res.len = j := by
  obtain ⟨m, G, a, h1, h2⟩ := C60_well_formed_text_works (V := V) (enc_text (str_scalar _)) c60word_reads c60word_fragment c60word_complete c60word_well_formed (packrat := packrat)
    (fun _ q m m' h h' => by
      unfold c60wordWays at h h'
      by_cases e : (q == [76] || q == [37, 119, 111, 114, 100]) = true
      · rw [if_pos e] at h h'; exact (eq_of_beq h).trans (eq_of_beq h').symm
      · rw [if_neg e] at h h'; exact (eq_of_beq h).trans (eq_of_beq h').symm) metaOrder ord order leftRec
    (fun _ d hd => by
      simp only [c60wordDefs, List.mem_cons, List.not_mem_nil, or_false] at hd
      rcases hd with rfl | rfl | rfl | rfl <;> rfl)
  exact ⟨m, G, a, h1, fun c ha hi hq => h2 (fun _ _ => []) 0 [] (fun x hx => by cases hx) c ha hi hq⟩

/-- "let x" is in the language. -/
theorem C60_sample_word_run :
    runLoaded (load (realMark (List.range 5)) realLoops (List.range 5) (toSource c60wordDefs none false true)) 200 (txt "let x") = some (true, 5) := by
  decide +kernel

/-- "letx" is not: a word follows the word "let". -/
theorem C60_sample_word_stops :
    (runLoaded (load (realMark (List.range 5)) realLoops (List.range 5) (toSource c60wordDefs none false true)) 200 (txt "letx")).map (·.1) = some false := by
  decide +kernel

theorem c60word_meaning (d : RDef) (hd : d ∈ c60wordDefs) : meaning c60wordDefs d = d.body ∧ litTok c60wordDefs d = d.body := by
  simp only [c60wordDefs, List.mem_cons, List.not_mem_nil, or_false] at hd
  rcases hd with rfl | rfl | rfl | rfl <;> exact ⟨by simp [meaning, litTok, isLiteral], by simp [litTok, isLiteral]⟩

theorem c60word_letter {T : Page} {tok ws : Bool} {i : Nat} {r : Option Nat} (h : ((⟨[(97, 122)], false, false⟩ : CharClass.Cls).matchLen (T.text.drop i)).map (i + ·) = r) :
    Sem c60wordDefs T tok ws (.exp (.ref [76] false [])) i r := by
  refine .rule (d := c60wordDefs[1]) rfl rfl ?_
  rw [(c60word_meaning _ (by simp [c60wordDefs])).1]
  exact .one rfl h

/-- The rules say so: the literal "let" is a word, and a word follows it. -/
theorem C60_sample_word_meaning : Recog c60wordDefs (txt "letx") [83] true none := by
  have hw : ruleOf c60wordDefs wordName = some c60wordDefs[3] := by
    have e : (c60wordDefs[3]).name = wordName := by decide +kernel
    rw [← e]; exact nodup_find (k := 3) (by decide +kernel) rfl
  have hs : ruleOf c60wordDefs whitespaceName = some c60wordDefs[2] := by
    have e : (c60wordDefs[2]).name = whitespaceName := by decide +kernel
    rw [← e]; exact nodup_find (k := 2) (by decide +kernel) rfl
  refine .noRule (i := 0) (.skip rfl hs ?_) (.rule (d := c60wordDefs[0]) rfl rfl ?_)
  · rw [(c60word_meaning _ (by simp [c60wordDefs])).2]
    exact .rep (.loop_end (Nat.le_refl _) rfl (.one rfl (by decide +kernel)))
  · rw [(c60word_meaning _ (by simp [c60wordDefs])).1]
    refine .seq (.seqs_fail (.lit_long (j := 3) (k := 4) (by decide +kernel) rfl hw ?_ ?_))
    · rw [(c60word_meaning _ (by simp [c60wordDefs])).2]
      exact .rep (.loop_more (.inl (by decide)) (c60word_letter (r := some 1) (by decide +kernel))
        (.loop_more (.inr rfl) (c60word_letter (r := some 2) (by decide +kernel)) (.loop_more (.inr rfl) (c60word_letter (r := some 3) (by decide +kernel))
          (.loop_end (by decide) rfl (c60word_letter (by decide +kernel))))))
    · rw [(c60word_meaning _ (by simp [c60wordDefs])).2]
      exact .rep (.loop_more (.inl (by decide)) (c60word_letter (r := some 4) (by decide +kernel)) (.loop_end (by decide) rfl (c60word_letter (by decide +kernel))))

/-- **Macros are outside**: a macro whose parameter is called like the rule using it makes the check for left recursion report that rule; with another name for
the parameter the text is accepted. -/
theorem C60_counterexample_parameter_name :
    refusedBy (loadText 400 [] (realMark [0, 1, 2]) realLoops [0, 1, 2] (txt "S <- M('a')  M(S) <- S 'b'") none false false) = true ∧
    runLoaded (loadText 400 [] (realMark [0, 1, 2]) realLoops [0, 1, 2] (txt "S <- M('a')  M(X) <- X 'b'") none false false) 100 (txt "ab") = some (true, 2) := by
  constructor
  · decide +kernel
  · decide +kernel

end Verif.Props
