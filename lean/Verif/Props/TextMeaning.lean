import Verif.TextWf
import Verif.Props.Session
/-!
# Properties: a parser recognises the language of its grammar text (C55)

Specification: `Sem`, `Recog` (`TextSem.lean`), the textbook meaning of the rules read from the text; `startName` and `Fragment` (`TextMade.lean`).
-/

namespace Verif.Props
open Verif Meta Utf8

variable {V : Type}

/-- C55: the rules of a text give at most one answer on a text. -/
theorem C55_meaning_is_unique {ds : List RDef} {text start : List Byte} {eoi : Bool} {r r' : Option Nat} (h : Recog ds text start eoi r)
    (h' : Recog ds text start eoi r') : r = r' := h.det h'

theorem nodup_find {ds : List RDef} (h : (ds.map (·.name)).Nodup) {k : Nat} {rd : RDef} (hk : ds[k]? = some rd) : ruleOf ds rd.name = some rd := by
  induction ds generalizing k with
  | nil => cases hk
  | cons d ds ih =>
    rw [List.map_cons, List.nodup_cons] at h
    unfold ruleOf
    rw [List.find?_cons]
    cases k with
    | zero => cases hk; simp
    | succ k =>
      have hm := List.mem_of_getElem? (show ds[k]? = some rd from hk)
      have : (d.name == rd.name) = false := by
        rw [beq_eq_false_iff_ne]
        intro e
        exact h.1 (e ▸ List.mem_map_of_mem hm)
      rw [this]
      exact ih h.2 hk

theorem findIdx_find {α : Type} {p : α → Bool} : ∀ {l : List α} {k : Nat}, l.findIdx? p = some k → ∃ x, l[k]? = some x ∧ l.find? p = some x := by
  intro l
  induction l with
  | nil => intro k h; cases h
  | cons a l ih =>
    intro k h
    rw [List.findIdx?_cons] at h
    rw [List.find?_cons]
    by_cases hp : p a = true
    · rw [if_pos hp] at h; cases h
      rw [hp]; exact ⟨a, rfl, rfl⟩
    · rw [if_neg hp] at h
      rw [Bool.not_eq_true] at hp
      rw [hp]
      cases hq : l.findIdx? p with
      | none => rw [hq] at h; cases h
      | some q =>
        rw [hq] at h
        cases h
        exact ih hq

theorem load_start {mark loops : List Def → Nat → Bool} {order : List Nat} {S : Source} {G : Parser} {a : Nat}
    (h : load mark loops order S = .ok (some (G, a))) : S.startRule = some (some a) := by
  unfold load at h
  by_cases h0 : ¬ (S.all.map (·.head.name)).Nodup
  · rw [if_pos h0] at h; cases h
  rw [if_neg h0] at h
  cases hs : S.startRule with
  | none => rw [hs] at h; cases h
  | some o =>
    cases o with
    | none => rw [hs] at h; cases h
    | some a' =>
      rw [hs] at h
      simp only at h
      generalize linkAll S.all = rs at h
      by_cases c1 : ((S.all[a']?).map (·.head.ignoreSV)).getD false = true
      · rw [if_pos c1] at h; cases h
      rw [if_neg c1] at h
      by_cases c2 : (!refsOk S.all) = true
      · rw [if_pos c2] at h; cases h
      rw [if_neg c2] at h
      by_cases c3 : (!S.leftRec && (List.range rs.length).any (mark rs)) = true
      · rw [if_pos c3] at h; cases h
      rw [if_neg c3] at h
      generalize (if S.leftRec = true then rs.mapIdx fun r d => ({ d with isLR := mark rs r } : Def) else rs) = rs1 at h
      by_cases c4 : loops rs1 a' = true
      · rw [if_pos c4] at h; cases h
      rw [if_neg c4] at h
      generalize (if (ruleNamed S.all whitespaceName).isSome = true then rs1.map tokLit else rs1) = rs2 at h
      by_cases c5 : ((ruleNamed S.all whitespaceName).map (loops rs2)).getD false = true
      · rw [if_pos c5] at h; cases h
      rw [if_neg c5] at h
      by_cases c6 : ((ruleNamed S.all wordName).map (loops rs2)).getD false = true
      · rw [if_pos c6] at h; cases h
      rw [if_neg c6] at h
      cases hp : precAll S.prec 0 rs2 with
      | none => rw [hp] at h; cases h
      | some rs3 => rw [hp] at h; cases h; rfl

/-- The rules of a text that loads have different names. -/
theorem nodup_of {ds : List RDef} {start : Option (List Byte)} {packrat leftRec : Bool} {mark loops : List Def → Nat → Bool} {order : List Nat} {G : Parser} {a : Nat}
    (hw : (toSource ds start packrat leftRec).Wf) (h : load mark loops order (toSource ds start packrat leftRec) = .ok (some (G, a))) :
    (ds.map (·.name)).Nodup := by
  have := (load_ok hw h).nodup
  have e : (toSource ds start packrat leftRec).all.map (·.head.name) = recoverName :: ds.map (·.name) := by
    show (recoverDef :: ds.map RDef.toSDef).map _ = _
    rw [List.map_cons, List.map_map]
    congr 1
    exact List.map_congr_left fun d _ => toSDef_name d
  rw [e, List.nodup_cons] at this
  exact this.2

/-- The start rule of a text that loads. -/
theorem start_of {ds : List RDef} {start : Option (List Byte)} {packrat leftRec : Bool} {mark loops : List Def → Nat → Bool} {order : List Nat} {G : Parser} {a : Nat}
    (hw : (toSource ds start packrat leftRec).Wf) (h : load mark loops order (toSource ds start packrat leftRec) = .ok (some (G, a))) :
    ∃ k rd nm, a = k + 1 ∧ ds[k]? = some rd ∧ startName ds start = some nm ∧ ruleOf ds nm = some rd := by
  have hok := load_ok hw h
  have hst := load_start h
  have hnd := nodup_of hw h
  unfold Source.startRule at hst
  cases start with
  | some nm =>
    have hst : (ruleNamed (allOf ds) nm).map some = some (some a) := hst
    cases hr : ruleNamed (allOf ds) nm with
    | none => rw [hr] at hst; cases hst
    | some r =>
      rw [hr] at hst
      cases hst
      have hne : nm ≠ recoverName := by
        intro e
        subst e
        have h0 : ruleNamed (allOf ds) recoverName = some 0 := by
          unfold ruleNamed allOf
          rw [List.findIdx?_cons]
          simp [recoverDef]
        rw [h0] at hr
        cases hr
        have := hok.shown recoverDef rfl
        cases this
      cases hf : ruleOf ds nm with
      | none => rw [ruleNamed_none hne hf] at hr; cases hr
      | some rd =>
        obtain ⟨k, h1, h2⟩ := ruleNamed_of hne hf
        rw [h1] at hr
        cases hr
        exact ⟨k, rd, nm, rfl, h2, rfl, hf⟩
  | none =>
    have hst : ((ds.map RDef.toSDef).findIdx? fun d => decide (d.head.name.head? ≠ some 37)).map (· + 1) = some a := Option.some.inj hst
    rw [List.findIdx?_map] at hst
    have e : ((fun d : SDef => decide (d.head.name.head? ≠ some 37)) ∘ RDef.toSDef) = fun d : RDef => decide (d.name.head? ≠ some 37) := by
      funext d; simp only [Function.comp, toSDef_name]
    rw [e] at hst
    cases hf : ds.findIdx? (fun d => decide (d.name.head? ≠ some 37)) with
    | none => rw [hf] at hst; cases hst
    | some k =>
      rw [hf] at hst
      cases hst
      obtain ⟨rd, h1, h2⟩ := findIdx_find hf
      refine ⟨k, rd, rd.name, rfl, h1, ?_, nodup_find hnd h1⟩
      unfold startName
      rw [h2]; rfl

/-- References of a text that loads are to its rules. -/
theorem plain_of {ds : List RDef} {start : Option (List Byte)} {packrat leftRec : Bool} {mark loops : List Def → Nat → Bool} {order : List Nat} {G : Parser} {a : Nat}
    (hF : Fragment ds) (hw : (toSource ds start packrat leftRec).Wf) (h : load mark loops order (toSource ds start packrat leftRec) = .ok (some (G, a))) :
    ∀ rd ∈ ds, plainText ds rd.body = true := by
  intro rd hd
  refine plainText_of rd.body (hF.rules rd hd).2.1 fun x hx hm => ?_
  have hps : rd.toSDef.head.params = [] := by rw [(toSDef_head rd).2.1, (hF.rules rd hd).1]; rfl
  rcases C36_references_resolve_partial hw h rd.toSDef (List.mem_map_of_mem hd) x (by rw [hps]; exact hx) with h1 | ⟨e, he, h1, h2⟩
  · rw [hps] at h1; cases h1
  · rcases List.mem_cons.mp he with rfl | he
    · have h2 : x.2.1 = true ∧ _ := h2
      rw [hm] at h2; cases h2.1
    · obtain ⟨e', he', rfl⟩ := List.mem_map.mp he
      have hnd := (load_ok hw h).nodup
      rw [toSDef_name] at h1
      constructor
      · intro hx0
        have e : (toSource ds start packrat leftRec).all.map (·.head.name) = recoverName :: (ds.map RDef.toSDef).map (·.head.name) := rfl
        rw [e, List.nodup_cons] at hnd
        refine hnd.1 (List.mem_map.mpr ⟨_, he, ?_⟩)
        rw [toSDef_name, h1, hx0]
      · unfold ruleOf
        rw [List.find?_isSome]
        exact ⟨e', he', by simpa using h1⟩

/-- A configuration whose rules are those given. -/
theorem withRules_self {cfg : Cfg V} {wsR wordR : Option Nat} {rs : List Def} (e1 : cfg.rules = rs)
    (e2 : cfg.ws = wsR.bind fun r => (rs[r]?).map fun d => Ope.ws (.ign d.ope)) (e3 : cfg.word = wordR.bind fun r => (rs[r]?).map Def.ope) :
    cfg = cfg.withRules wsR wordR rs := by
  cases cfg
  simp only at e1 e2 e3
  subst e1 e2 e3
  rfl

/-- The configuration of a parse is one with the rules of the text annotated by the loader. -/
theorem text_cfg {ds : List RDef} {start : Option (List Byte)} {packrat leftRec : Bool} {mark loops : List Def → Nat → Bool} {order : List Nat} {G : Parser} {a : Nat}
    (hF : Fragment ds) (h : load mark loops order (toSource ds start packrat leftRec) = .ok (some (G, a)))
    (hlr : ∀ r < (allOf ds).length, mark (linkAll (allOf ds)) r = lrAt ds r) (sh : Shared) (c : Call V) (ha : c.start = a) :
    sh.cfg G c = (sh.cfg G c).withRules (ruleNamed (allOf ds) whitespaceName) (ruleNamed (allOf ds) wordName) (setupAll (reflag sh.mem.macroRef (textRules ds)) order) := by
  obtain ⟨h0, -, -, -, rs, h1, h2, h3, h4, h5⟩ := load_inv h
  rw [precAll_id (hF.prec start packrat leftRec), tokened_eq (leftRec := leftRec) hlr h0] at h1
  cases h1
  have e1 : (sh.cfg G c).rules = setupAll (reflag sh.mem.macroRef (textRules ds)) order := by
    rw [setupAll_reflag, ← h2]; rfl
  have e2 : (sh.cfg G c).ws = (ruleNamed (allOf ds) whitespaceName).bind fun r =>
      ((setupAll (reflag sh.mem.macroRef (textRules ds)) order)[r]?).map fun d => Ope.ws (.ign d.ope) := by
    show G.ws c.start = _
    rw [h3, ha, setupAll_reflag]
    show (if a = a then _ else _) = _
    rw [if_pos rfl]
    show ((ruleNamed (allOf ds) whitespaceName).bind fun r => (setupAll (textRules ds) order)[r]?).map _ = _
    cases ruleNamed (allOf ds) whitespaceName with
    | none => rfl
    | some w =>
      simp only [Option.bind_some]
      rw [reflag_get]
      cases (setupAll (textRules ds) order)[w]? <;> rfl
  have e3 : (sh.cfg G c).word = (ruleNamed (allOf ds) wordName).bind fun r =>
      ((setupAll (reflag sh.mem.macroRef (textRules ds)) order)[r]?).map Def.ope := by
    show G.word c.start = _
    rw [h4, ha, setupAll_reflag]
    show (if a = a then _ else _) = _
    rw [if_pos rfl]
    show ((ruleNamed (allOf ds) wordName).bind fun r => (setupAll (textRules ds) order)[r]?).map _ = _
    cases ruleNamed (allOf ds) wordName with
    | none => rfl
    | some w =>
      simp only [Option.bind_some]
      rw [reflag_get]
      cases (setupAll (textRules ds) order)[w]? <;> rfl
  exact withRules_self e1 e2 e3

/-- The certificates of `C27` for the rules of a text: a test of the rules, of ranks, nullability, modes and first sets; it looks at nothing else,
except that packrat parsing (`packrat`) may be on if rules are numbered without clash.  `%word`, if there is one, has certificates of its own. -/
def Certified (V : Type) (ds : List RDef) (packrat : Bool) (a : Nat) (C : Cert) (F : FsCert) : Prop :=
  (∀ (cfg : Cfg V) (m : Nat → Bool), (cfg.packrat = true → packrat = true) → (∀ r, cfg.predicate r = none) →
    Numbered (cfg.withRules (ruleNamed (allOf ds) whitespaceName) (ruleNamed (allOf ds) wordName) (reflag m (textRules ds))) →
    Tested (cfg.withRules (ruleNamed (allOf ds) whitespaceName) (ruleNamed (allOf ds) wordName) (reflag m (textRules ds))) C F (noKw (textRules ds))) ∧ C.modes a {} = true ∧
  ∀ (cfg : Cfg V) (m : Nat → Bool), (∀ r, cfg.predicate r = none) → WordTested cfg (ruleNamed (allOf ds) wordName) (reflag m (textRules ds))

/-- Callbacks that do not make the outcome depend on them: no predicates, values independent of the user datum, user-defined operators only append. -/
structure Calm (c : Call V) : Prop where
  predicate : ∀ r, c.predicate r = none
  action : ∀ r a, c.action r = some a → ∀ f d pd, (a f d pd).1 = (a f none pd).1
  leave : ∀ r l, c.leave r = some l → ∀ i x v d, (l i x v d).1 = (l i x v none).1
  user : ∀ id i f dt, f.vals <+: (c.user id i f dt).2.1.vals ∧ f.tags <+: (c.user id i f dt).2.1.tags ∧
      f.tokens <+: (c.user id i f dt).2.1.tokens ∧ (c.user id i f dt).2.1.name = f.name

theorem loaded_peg {base : Cfg V} {wsR wordR : Option Nat} {rs : List Def} {C : Cert} {F : FsCert} {kw : List Ope → Bool} {r : Nat}
    (h : Loaded base wsR wordR rs C F kw r) (order : List Nat) (eoi : Bool) :
    ∃ x, PegParse (base.withRules wsR wordR rs).gram r eoi x ∧
      ∀ (dt : Option V) (log : Bool), ∃ n res, parseCore n (base.withRules wsR wordR (setupAll rs order)) r eoi { dt := dt, logOn := log } = .ok res ∧
        res.ret = x.isSome ∧ res.recovered = false ∧ ∀ j f, x = some (j, f) → res.len = j := by
  have hlen : (setupAll rs order).map Def.plain = rs :=
    (setupAll_ok (FsOkG.of_check h.tested.cert h.tested.first) (fun r d hd => (FsCert.check_rule h.tested.first hd).1) order).1
  have hA := annOf (base := base) (wsR := wsR) (wordR := wordR) hlen
  obtain ⟨x, h1, h2, h3⟩ := C27_parse_is_plain_peg_partial (h.ready order) eoi
  rw [hA.gram] at h1
  exact ⟨x, h1, fun dt log => let ⟨n, res, k1, k2, k3, k4⟩ := h3 dt log; ⟨n, res, k1, k2, k3, fun j f e => (k4 j f e).1⟩⟩

/-- **C55** A parser made of a UTF-8 grammar text, in the fragment, without left recursion and passing the certificate test, answers every parse of
every UTF-8 text, whatever was parsed before, and the answer is the one the rules of the text denote: it succeeds exactly if the start rule matches,
and consumes what the rule matches. -/
theorem C55_parser_recognises_its_text_partial {gram : List Byte} {m : Nat} {metaOrder : List Nat} {mark loops : List Def → Nat → Bool} {order : List Nat}
    {start : Option (List Byte)} {packrat leftRec : Bool} {G : Parser} {a : Nat} (ht : Text gram)
    (h : loadText m metaOrder mark loops order gram start packrat leftRec = .ok (some (G, a)))
    {ds : List RDef} (hr : ReadsAs gram (.defs ds)) (hF : Fragment ds) (hlr : ∀ r < (allOf ds).length, mark (linkAll (allOf ds)) r = lrAt ds r)
    {C : Cert} {F : FsCert} (hC : Certified V ds packrat a C F)
    (flt : List Nat → Nat → List Bool) (k : Nat) (hist : List (Call V)) (hh : ∀ x ∈ hist, x.start = a)
    (c : Call V) (ha : c.start = a) (hi : Text c.input) (hq : Calm c) :
    ∃ nm r, startName ds start = some nm ∧ Recog ds c.input nm c.eoi r ∧
      ∃ n ans, (Shared.parse flt G n (Shared.after flt G k {} hist) c).1 = .ok ans ∧ ans.ok = r.isSome ∧ ∀ j, r = some j → ans.res.len = j := by
  obtain ⟨ds', h1, h2, h3⟩ := loadText_inv ht h
  cases hr.det h1
  rw [hF.own, Bool.and_true] at h3
  have hw : (toSource ds start packrat leftRec).Wf := toSource_wf (C54_read_is_regular ht h1).2
    (fun d hd ps hs => by rw [(hF.rules d hd).1] at hs; cases hs) start packrat leftRec
  obtain ⟨q, rd, nm, rfl, h4, h5, h6⟩ := start_of hw h3
  have hp := plain_of hF hw h3
  have hcfg0 := text_cfg hF h3 hlr (({} : Shared).prepare flt G c.start) c ha
  have hrest : ∀ n, (Shared.parse flt G n (Shared.after flt G k {} hist) c).1 = (Shared.parse flt G n {} c).1 :=
    fun n => parse_after_first flt G n k [] hist c (fun x hx => by cases hx) (fun x hx => (hh x hx).trans ha.symm)
  obtain ⟨-, -, -, -, rs, -, -, -, -, hpk⟩ := load_inv h3
  have hpk : ((({} : Shared).prepare flt G c.start).repack G c).packrat = true → packrat = true := by
    intro h
    have h : G.packrat c.start = true := h
    rw [hpk] at h
    have h : (decide (c.start = q + 1) && packrat) = true := h
    cases packrat with
    | true => rfl
    | false => rw [Bool.and_false] at h; cases h
  have hnum := repack_numbered flt G c
  have hans := fun n => parse_repack flt G n c
  generalize hsh : ({} : Shared).prepare flt G c.start = sh at hcfg0 hpk hnum hans
  have hpred : ∀ r, (sh.repack G c).predicate r = none := hq.predicate
  have hcfg : sh.repack G c = (sh.repack G c).withRules (ruleNamed (allOf ds) whitespaceName) (ruleNamed (allOf ds) wordName) (setupAll (reflag sh.mem.macroRef (textRules ds)) order) :=
    withRules_self (congrArg (·.rules) hcfg0 :) (congrArg (·.ws) hcfg0 :) (congrArg (·.word) hcfg0 :)
  have hcall : sh.repack G c = sh.repack G c ∧ (sh.repack G c).input = c.input ∧ (sh.repack G c).user = c.user ∧ (sh.repack G c).action = c.action ∧
      (sh.repack G c).leave = c.leave := ⟨rfl, rfl, rfl, rfl, rfl⟩
  generalize sh.repack G c = cfg at hcfg hpk hnum hans hpred hcall
  obtain ⟨-, ci, cu, ca, cl⟩ := hcall
  have hlen : (setupAll (reflag sh.mem.macroRef (textRules ds)) order).length = (reflag sh.mem.macroRef (textRules ds)).length := by
    have := setupAll_plain (reflag sh.mem.macroRef (textRules ds)) order
    refine Nat.le_antisymm ?_ ?_ <;> refine Nat.not_lt.1 fun hlt => ?_
    · have := this (reflag sh.mem.macroRef (textRules ds)).length
      rw [List.getElem?_eq_none_iff.2 (Nat.le_refl _), List.getElem?_eq_getElem hlt] at this
      cases this
    · have := this (setupAll (reflag sh.mem.macroRef (textRules ds)) order).length
      rw [List.getElem?_eq_none_iff.2 (Nat.le_refl _), List.getElem?_eq_getElem hlt] at this
      cases this
  have hnum' : Numbered (cfg.withRules (ruleNamed (allOf ds) whitespaceName) (ruleNamed (allOf ds) wordName) (reflag sh.mem.macroRef (textRules ds))) :=
    hnum.of_len (by rw [hcfg]; exact hlen.symm) rfl rfl rfl rfl rfl
  have hL : Loaded cfg (ruleNamed (allOf ds) whitespaceName) (ruleNamed (allOf ds) wordName) (reflag sh.mem.macroRef (textRules ds)) C F (noKw (textRules ds)) (q + 1) := {
    tested := hC.1 _ _ hpk hpred hnum'
    word := hC.2.2 _ _ hpred
    guards := by
      intro order
      have := kwSound_none (cfg.withRules (ruleNamed (allOf ds) whitespaceName) (ruleNamed (allOf ds) wordName) (reflag sh.mem.macroRef (textRules ds)))
        (cfg.withRules (ruleNamed (allOf ds) whitespaceName) (ruleNamed (allOf ds) wordName) (setupAll (reflag sh.mem.macroRef (textRules ds)) order))
      have e : (fun es => (kwSetup (reflag sh.mem.macroRef (textRules ds)) es).isNone) = noKw (textRules ds) := by
        funext es; rw [kwSetup_reflag]; rfl
      rw [← e]; exact this
    calls := ⟨by rw [cu]; exact hq.user, ⟨by rw [ca]; exact hq.action, fun r p hp => (by rw [hpred] at hp; cases hp), by rw [cl]; exact hq.leave⟩, fun _ => hpred⟩
    slots := hnum.slots
    text := by rw [ci]; exact hi
    rule := by
      obtain ⟨d, h7, -, h8, -⟩ := textRules_get hF hp h4
      exact ⟨{ d with hasMacroRef := sh.mem.macroRef (q + 1) }, by rw [reflag_get, h7]; rfl, h8⟩
    mode := hC.2.1 }
  obtain ⟨x, h7, h8⟩ := loaded_peg hL order c.eoi
  rw [← hcfg] at h8
  have h9 : Recog ds c.input nm c.eoi (x.map (·.1)) := ci ▸ parse_recog (madeOf hF (nodup_of hw h3) hp sh.mem.macroRef cfg hpred) h4 h6 h7
  have hplain : (setupAll (reflag sh.mem.macroRef (textRules ds)) order).map Def.plain = reflag sh.mem.macroRef (textRules ds) :=
    (setupAll_ok (FsOkG.of_check hL.tested.cert hL.tested.first) (fun r d hd => (FsCert.check_rule hL.tested.first hd).1) order).1
  have hS := text_shape hF hp hplain (cfg := cfg) (by rw [← hcfg]; exact hnum) (by show ∀ _ _ _ _, _; rw [cu]; exact hq.user)
  rw [← hcfg] at hS
  obtain ⟨n, res, k1, k2, k3, k4⟩ := h8 c.dt c.log
  have hmac : ∀ d, cfg.rules[q + 1]? = some d → d.isMacro = false := by
    intro d hd
    obtain ⟨d0, e1, -, e2, -⟩ := textRules_get hF hp h4
    rw [hcfg] at hd
    have hd : (setupAll (reflag sh.mem.macroRef (textRules ds)) order)[q + 1]? = some d := hd
    have := congrArg (·[q + 1]?) hplain
    simp only [List.getElem?_map, hd, reflag_get, e1, Option.map_some, Option.some.injEq] at this
    show d.plain.isMacro = false
    rw [this]; exact e2
  obtain ⟨ans, k5, rfl, k6⟩ := answer_ok hS hmac k1
  refine ⟨nm, x.map (·.1), h5, h9, n, ans, ?_, ?_, ?_⟩
  · rw [hrest]
    show parserParse n ((({} : Shared).prepare flt G c.start).cfg G c) c.start c.eoi c.log c.dt = _
    rw [hsh, ← hans n, ha]
    exact k5
  · rw [k6]
    simp only [k2, k3, Bool.not_false, Bool.and_true, Option.isSome_map]
  · intro j hj
    cases x with
    | none => cases hj
    | some p => cases hj; exact k4 p.1 p.2 rfl

/-- **C15 and C55** Packrat parsing makes no difference: the parsers made of one such text with and without it give the same answer to every parse. -/
theorem C15_packrat_for_texts_partial {gram : List Byte} {m m' : Nat} {metaOrder metaOrder' : List Nat} {mark loops loops' : List Def → Nat → Bool}
    {order order' : List Nat} {start : Option (List Byte)} {leftRec leftRec' : Bool} {G G' : Parser} {a a' : Nat} (ht : Text gram)
    (h : loadText m metaOrder mark loops order gram start true leftRec = .ok (some (G, a)))
    (h' : loadText m' metaOrder' mark loops' order' gram start false leftRec' = .ok (some (G', a')))
    {ds : List RDef} (hr : ReadsAs gram (.defs ds)) (hF : Fragment ds) (hlr : ∀ r < (allOf ds).length, mark (linkAll (allOf ds)) r = lrAt ds r)
    {C : Cert} {F : FsCert} (hC : Certified V ds true a C F)
    (flt flt' : List Nat → Nat → List Bool) (k k' : Nat) (hist hist' : List (Call V)) (hh : ∀ x ∈ hist, x.start = a) (hh' : ∀ x ∈ hist', x.start = a)
    (c : Call V) (ha : c.start = a) (hi : Text c.input) (hq : Calm c) :
    a' = a ∧ ∃ n n' ans ans', (Shared.parse flt G n (Shared.after flt G k {} hist) c).1 = .ok ans ∧
      (Shared.parse flt' G' n' (Shared.after flt' G' k' {} hist') c).1 = .ok ans' ∧ ans.ok = ans'.ok ∧ (ans.ok = true → ans.res.len = ans'.res.len) := by
  obtain ⟨ds1, h1, -, h3⟩ := loadText_inv ht h
  obtain ⟨ds2, h1', -, h3'⟩ := loadText_inv ht h'
  cases hr.det h1
  cases hr.det h1'
  rw [hF.own, Bool.and_true] at h3 h3'
  have e0 := load_start h3'
  have e : (toSource ds start true leftRec).startRule = some (some a') := e0
  rw [load_start h3] at e
  simp only [Option.some.injEq] at e
  subst e
  obtain ⟨nm, r, k1, k2, n, ans, k3, k4, k5⟩ := C55_parser_recognises_its_text_partial ht h hr hF hlr hC flt k hist hh c ha hi hq
  obtain ⟨nm', r', k1', k2', n', ans', k3', k4', k5'⟩ := C55_parser_recognises_its_text_partial ht h' hr hF hlr
    (⟨fun cfg m hp => hC.1 cfg m (fun _ => rfl), hC.2⟩ : Certified V ds false _ C F) flt' k' hist' hh' c ha hi hq
  rw [k1] at k1'
  cases k1'
  cases k2.det k2'
  refine ⟨rfl, n, n', ans, ans', k3, k3', k4.trans k4'.symm, fun hok => ?_⟩
  rw [k4] at hok
  obtain ⟨j, hj⟩ := Option.isSome_iff_exists.1 hok
  rw [k5 j hj, k5' j hj]

/-! ## Well-formed texts -/

/-- Well-formed texts pass the test of certificates.  With packrat parsing each rule is to be called in one way only: always inside tokens, always inside
white space, or never. -/
theorem certified_of {ds : List RDef} (hF : Fragment ds) (hnd : (ds.map (·.name)).Nodup) (hp : ∀ rd ∈ ds, plainText ds rd.body = true) {ν : List Byte → Bool} {rank : List Byte → Nat}
    {μ : List Byte → Mode → Bool} {nm : List Byte} (hw : WellFormed ds ν rank μ nm) {packrat : Bool}
    (h1 : packrat = true → ∀ q m m', μ q m = true → μ q m' = true → m = m') {k : Nat} {rd : RDef} (hk : ds[k]? = some rd) (hn : rd.name = nm) :
    Certified V ds packrat (k + 1) (certS ds ν rank μ (allParams (textRules ds))) firstS := by
  refine ⟨fun cfg m hpk hq hnum => tested_text hF hnd hp hw.toRulesWf true (fun _ => hw.modeWs) cfg m hq _ (fun _ => hnum) fun h => h1 (hpk h), ?_, fun cfg m hq => ?_⟩
  · show (if k + 1 = 0 then (({} : Mode) == ({} : Mode)) else μ (nameAt ds (k + 1)) {}) = true
    rw [if_neg (by omega), nameAt_succ hk, hn]
    exact hw.modeStart
  · intro r d hr hd
    cases hr0 : ruleOf ds wordName with
    | none => rw [ruleNamed_none (by decide +kernel) hr0] at hr; cases hr
    | some wd =>
      obtain ⟨k', h3, h4⟩ := ruleNamed_of (by decide +kernel) hr0
      rw [h3] at hr
      cases hr
      obtain ⟨μ', hw', hcalls⟩ := hw.modeWord wd hr0
      obtain ⟨d', h5, h6, -⟩ := textRules_get hF hp h4
      rw [reflag_get, h5] at hd
      cases hd
      have hR : RulesOk ds ((cfg.dummy []).withRules none none (reflag m (textRules ds))) := by
        refine ⟨fun k hk => ?_⟩
        obtain ⟨d, k1, -, k3, -⟩ := textRules_get hF hp (List.getElem?_eq_getElem hk)
        refine ⟨{ d with hasMacroRef := m (k + 1) }, ?_, k3⟩
        show (reflag m (textRules ds))[k + 1]? = _
        rw [reflag_get, k1]; rfl
      have hmem := List.mem_of_getElem? h4
      have hpl := litTok_plain (hp wd hmem)
      have e : noKw (reflag m (textRules ds)) = noKw (textRules ds) := by
        funext es; unfold noKw; rw [kwSetup_reflag]
      refine .inl ⟨certS ds ν rank μ' (allParams (textRules ds)), firstS, topRank ds rank, ?_, ?_, ?_⟩
      · rw [e]
        exact tested_text hF hnd hp hw' false (fun h => by cases h) (cfg.dummy []) m hq none (fun h => by cases h) (fun h => by cases h)
      · show wf _ _ {} false {} _ d'.ope = true
        rw [h6]
        refine wf_link hR (ws := (ruleOf ds whitespaceName).isSome) (fun h => by cases h) _ _ _ hpl (hw'.tidyTok hmem).1 (fun q hq => ?_) hcalls
        obtain ⟨d, hd, rfl⟩ := leftS_rule _ hpl q hq
        exact lt_topRank hd
      · show usesEnv _ d'.ope = false
        rw [h6]
        exact (flat_link hR.macroFree _ hpl).env

/-- **C55** A parser made of a well-formed UTF-8 grammar text of the fragment (`WellFormed`, a condition on the rules of the text alone) answers every
parse of every UTF-8 text, whatever was parsed before, and the answer is the one the rules of the text denote. -/
theorem C55_well_formed_text_partial {gram : List Byte} {m : Nat} {metaOrder : List Nat} {mark loops : List Def → Nat → Bool} {order : List Nat}
    {start : Option (List Byte)} {packrat leftRec : Bool} {G : Parser} {a : Nat} (ht : Text gram)
    (h : loadText m metaOrder mark loops order gram start packrat leftRec = .ok (some (G, a)))
    {ds : List RDef} (hr : ReadsAs gram (.defs ds)) (hF : Fragment ds) (hlr : ∀ r < (allOf ds).length, mark (linkAll (allOf ds)) r = lrAt ds r)
    {ν : List Byte → Bool} {rank : List Byte → Nat} {μ : List Byte → Mode → Bool} (hw : ∀ nm, startName ds start = some nm → WellFormed ds ν rank μ nm)
    (h1 : packrat = true → ∀ q m m', μ q m = true → μ q m' = true → m = m')
    (flt : List Nat → Nat → List Bool) (k : Nat) (hist : List (Call V)) (hh : ∀ x ∈ hist, x.start = a)
    (c : Call V) (ha : c.start = a) (hi : Text c.input) (hq : Calm c) :
    ∃ nm r, startName ds start = some nm ∧ Recog ds c.input nm c.eoi r ∧
      ∃ n ans, (Shared.parse flt G n (Shared.after flt G k {} hist) c).1 = .ok ans ∧ ans.ok = r.isSome ∧ ∀ j, r = some j → ans.res.len = j := by
  obtain ⟨ds', k1, k2, k3⟩ := loadText_inv ht h
  cases hr.det k1
  rw [hF.own, Bool.and_true] at k3
  have hwf : (toSource ds start packrat leftRec).Wf := toSource_wf (C54_read_is_regular ht k1).2
    (fun d hd ps hs => by rw [(hF.rules d hd).1] at hs; cases hs) start packrat leftRec
  obtain ⟨q, rd, nm, rfl, k4, k5, k6⟩ := start_of hwf k3
  exact C55_parser_recognises_its_text_partial ht h hr hF hlr (certified_of hF (nodup_of hwf k3) (plain_of hF hwf k3) (hw nm k5) h1 k4 (by simpa using List.find?_some k6)) flt k hist hh c ha hi hq

/-- **C15 and C55** The same for well-formed texts in which each rule is called in one way only. -/
theorem C15_packrat_well_formed_text_partial {gram : List Byte} {m m' : Nat} {metaOrder metaOrder' : List Nat} {mark loops loops' : List Def → Nat → Bool}
    {order order' : List Nat} {start : Option (List Byte)} {leftRec leftRec' : Bool} {G G' : Parser} {a a' : Nat} (ht : Text gram)
    (h : loadText m metaOrder mark loops order gram start true leftRec = .ok (some (G, a)))
    (h' : loadText m' metaOrder' mark loops' order' gram start false leftRec' = .ok (some (G', a')))
    {ds : List RDef} (hr : ReadsAs gram (.defs ds)) (hF : Fragment ds) (hlr : ∀ r < (allOf ds).length, mark (linkAll (allOf ds)) r = lrAt ds r)
    {ν : List Byte → Bool} {rank : List Byte → Nat} {μ : List Byte → Mode → Bool} (hw : ∀ nm, startName ds start = some nm → WellFormed ds ν rank μ nm)
    (h1 : ∀ q m m', μ q m = true → μ q m' = true → m = m')
    (flt flt' : List Nat → Nat → List Bool) (k k' : Nat) (hist hist' : List (Call V)) (hh : ∀ x ∈ hist, x.start = a) (hh' : ∀ x ∈ hist', x.start = a)
    (c : Call V) (ha : c.start = a) (hi : Text c.input) (hq : Calm c) :
    a' = a ∧ ∃ n n' ans ans', (Shared.parse flt G n (Shared.after flt G k {} hist) c).1 = .ok ans ∧
      (Shared.parse flt' G' n' (Shared.after flt' G' k' {} hist') c).1 = .ok ans' ∧ ans.ok = ans'.ok ∧ (ans.ok = true → ans.res.len = ans'.res.len) := by
  obtain ⟨ds', k1, k2, k3⟩ := loadText_inv ht h
  cases hr.det k1
  rw [hF.own, Bool.and_true] at k3
  have hwf : (toSource ds start true leftRec).Wf := toSource_wf (C54_read_is_regular ht k1).2
    (fun d hd ps hs => by rw [(hF.rules d hd).1] at hs; cases hs) start true leftRec
  obtain ⟨q, rd, nm, rfl, k4, k5, k6⟩ := start_of hwf k3
  exact C15_packrat_for_texts_partial ht h h' hr hF hlr (certified_of hF (nodup_of hwf k3) (plain_of hF hwf k3) (hw nm k5) (fun _ => h1) k4 (by simpa using List.find?_some k6))
    flt flt' k k' hist hist' hh hh' c ha hi hq

/-! ## A concrete text -/

/-- A grammar text with white space and tokens. -/
abbrev c55text : List Byte := txt "S <- A (',' A)*  A <- '(' S ')' / < [a-z]+ >  %whitespace <- [ ]*"

/-- What the text defines. -/
def c55defs : List RDef :=
  [⟨false, [83], none, .seq [.ref [65] false [], .rep (.seq [.lit [44] false, .ref [65] false []]) 0 none], []⟩,
   ⟨false, [65], none, .cho [.seq [.lit [40] false, .ref [83] false [], .lit [41] false],
      .tok (.rep (.cls ⟨[(97, 122)], false, false⟩) 1 none)] false, []⟩,
   ⟨false, [37, 119, 104, 105, 116, 101, 115, 112, 97, 99, 101], none, .rep (.cls ⟨[(32, 32)], false, false⟩) 0 none, []⟩]

theorem c55_reads : ReadsAs c55text (.defs c55defs) := readsAs_run (n := 400) (by decide +kernel)

theorem c55_fragment : Fragment c55defs where
  rules := by
    intro d hd
    simp only [c55defs, List.mem_cons, List.not_mem_nil, or_false] at hd
    rcases hd with rfl | rfl | rfl <;> exact ⟨rfl, rfl, rfl⟩

/-- The concrete text is well-formed: hypotheses of `C55_well_formed_text_partial`, with and without packrat parsing. -/
theorem c55_well_formed : WellFormed c55defs (· == [37, 119, 104, 105, 116, 101, 115, 112, 97, 99, 101]) (fun n => if n == [83] then 1 else 0) (fun _ m => m == {}) [83] where
  null := by decide +kernel
  left := by decide +kernel
  tidy := by decide +kernel
  modeStart := rfl
  modeRule := by
    intro d hd m hm x hx
    have e : m = {} := eq_of_beq hm
    subst e
    simp only [c55defs, List.mem_cons, List.not_mem_nil, or_false] at hd
    rcases hd with rfl | rfl | rfl <;> revert x <;> decide +kernel
  modeWs := by
    intro d hd x hx
    have hn : (d.name == whitespaceName) = true := by
      unfold ruleOf at hd
      simpa using List.find?_some hd
    have hm := List.mem_of_find?_eq_some hd
    simp only [c55defs, List.mem_cons, List.not_mem_nil, or_false] at hm
    rcases hm with rfl | rfl | rfl
    · exact absurd hn (by decide +kernel)
    · exact absurd hn (by decide +kernel)
    · revert x; decide +kernel
  modeWord := fun d hd => by
    have : ruleOf c55defs wordName = none := by decide +kernel
    rw [this] at hd; cases hd
  modeUsed := fun d hd => ⟨{}, rfl⟩
  leftRec := by
    intro d hd h
    simp only [c55defs, List.mem_cons, List.not_mem_nil, or_false] at hd
    rcases hd with rfl | rfl | rfl <;> exact absurd h (by decide +kernel)

theorem c55_certified {packrat : Bool} :
    Certified V c55defs packrat 1 (certS c55defs (· == [37, 119, 104, 105, 116, 101, 115, 112, 97, 99, 101]) (fun n => if n == [83] then 1 else 0) (fun _ m => m == {})
      (allParams (textRules c55defs))) firstS :=
  certified_of (rd := c55defs[0]) c55_fragment (by decide +kernel) (by decide +kernel) c55_well_formed (fun _ _ m m' h h' => (eq_of_beq h).trans (eq_of_beq h').symm) rfl rfl

/-- On every UTF-8 text, the parser made of `c55text`, with or without packrat parsing, answers as its rules say: hypotheses of `C55_parser_recognises_its_text_partial`. -/
theorem C55_sample (packrat : Bool) (c : Call V) (ha : c.start = 1) (hi : Text c.input) (hq : Calm c) :
    ∃ G, loadText 400 [] (fun _ _ => false) (fun _ _ => false) (List.range 4) c55text none packrat true = .ok (some (G, 1)) ∧
    ∃ r, Recog c55defs c.input [83] c.eoi r ∧ ∃ n ans, (Shared.parse (fun _ _ => []) G n {} c).1 = .ok ans ∧ ans.ok = r.isSome ∧
      ∀ j, r = some j → ans.res.len = j := by
  obtain ⟨⟨G, a⟩, hG⟩ := loaded_iff (x := loadText 400 [] (fun _ _ => false) (fun _ _ => false) (List.range 4) c55text none packrat true) (by
    cases packrat <;> rw [loadText_run (ds := c55defs) (by decide +kernel) (by decide +kernel)] <;> decide +kernel)
  have ht : Text c55text := enc_text (str_scalar _)
  obtain ⟨ds, h1, -, h3⟩ := loadText_inv ht hG
  cases c55_reads.det h1
  rw [c55_fragment.own, Bool.and_true] at h3
  have h4 := load_start h3
  have h5 : (toSource c55defs none packrat true).startRule = some (some 1) := by cases packrat <;> decide +kernel
  rw [h5] at h4
  cases h4
  obtain ⟨nm, r, h6, h7, h8⟩ := C55_parser_recognises_its_text_partial ht hG h1 c55_fragment (by decide +kernel) c55_certified (fun _ _ => []) 0 []
    (fun x hx => by cases hx) c ha hi hq
  have h9 : startName c55defs none = some [83] := by decide +kernel
  rw [h9] at h6
  cases h6
  exact ⟨G, hG, r, h7, h8⟩

/-- What a parse with the loaded parser gives. -/
def runLoaded (x : Out (Option (Parser × Nat))) (n : Nat) (inp : List Byte) : Option (Bool × Nat) :=
  match x with
  | .ok (some (G, a)) =>
    match (Shared.parse (fun _ _ => []) G n {} ({ start := a, input := inp } : Call Unit)).1 with
    | .ok ans => some (ans.ok, ans.res.len)
    | _ => none
  | _ => none

theorem recog_run {n : Nat} {inp : List Byte} {j : Nat} (hi : Text inp)
    (h : runLoaded (load (fun _ _ => false) (fun _ _ => false) (List.range 4) (toSource c55defs none false true)) n inp = some (true, j)) :
    Recog c55defs inp [83] true (some j) := by
  obtain ⟨G, hG, r, h1, k, ans, h2, h3, h4⟩ := C55_sample false ({ start := 1, input := inp } : Call Unit) rfl hi
    ⟨fun _ => rfl, (fun r a h => by cases h), (fun r l h => by cases h), fun _ _ _ _ => ⟨List.prefix_refl _, List.prefix_refl _, List.prefix_refl _, rfl⟩⟩
  rw [loadText_run (ds := c55defs) (by decide +kernel) (by decide +kernel)] at hG
  rw [hG] at h
  simp only [runLoaded] at h
  cases hp : (Shared.parse (fun _ _ => []) G n {} ({ start := 1, input := inp } : Call Unit)).1 with
  | ub s => rw [hp] at h; cases h
  | oof => rw [hp] at h; cases h
  | ok ans' =>
    rw [hp] at h
    have e : ans' = ans := by
      have k1 : Out.Le ((Shared.parse (fun _ _ => []) G n {} ({ start := 1, input := inp } : Call Unit)).1) ((Shared.parse (fun _ _ => []) G (max n k) {} ({ start := 1, input := inp } : Call Unit)).1) :=
        Out.Le.bind (parseCore_le (Nat.le_max_left n k) _ _ _ _) fun _ => Out.Le.refl _
      have k2 : Out.Le ((Shared.parse (fun _ _ => []) G k {} ({ start := 1, input := inp } : Call Unit)).1) ((Shared.parse (fun _ _ => []) G (max n k) {} ({ start := 1, input := inp } : Call Unit)).1) :=
        Out.Le.bind (parseCore_le (Nat.le_max_right n k) _ _ _ _) fun _ => Out.Le.refl _
      rw [hp] at k1
      rw [h2] at k2
      rcases k1 with k1 | k1
      · cases k1
      · rcases k2 with k2 | k2
        · cases k2
        · rw [← k1] at k2; cases k2; rfl
    subst e
    simp only [Option.some.injEq, Prod.mk.injEq] at h
    rw [h.1] at h3
    cases r with
    | none => cases h3
    | some q => rw [← h4 q rfl, h.2] at h1; exact h1

/-- " (ab, c) ,d" is in the language of the text. -/
theorem C55_sample_accepts : Recog c55defs (txt " (ab, c) ,d") [83] true (some 11) :=
  recog_run (n := 100) (enc_text (str_scalar _)) (by decide +kernel)

/-! ## Where the parser deviates from its text -/

/-- An identifier that is not a keyword. -/
abbrev c55kwText : List Byte := txt "S <- !K < [a-z] [a-z]* >  K <- 'select'i / 'from'i"

def c55kwDefs : List RDef :=
  [⟨false, [83], none, .seq [.not_ (.ref [75] false []), .tok (.seq [.cls ⟨[(97, 122)], false, false⟩, .rep (.cls ⟨[(97, 122)], false, false⟩) 0 none])], []⟩,
   ⟨false, [75], none, .cho [.lit [115, 101, 108, 101, 99, 116] true, .lit [102, 114, 111, 109] true] false, []⟩]

/-- **C55 fails in general**: the text says that "selectx" is not an `S`, because a keyword matches at its beginning; the parser accepts it. -/
theorem C55_counterexample_keyword : ReadsAs c55kwText (.defs c55kwDefs) ∧ Fragment c55kwDefs ∧
    Recog c55kwDefs (txt "selectx") [83] true none ∧
    runLoaded (loadText 400 [] (fun _ _ => false) (fun _ _ => false) (List.range 3) c55kwText none false true) 100 (txt "selectx") = some (true, 7) := by
  refine ⟨readsAs_run (n := 400) (by decide +kernel), ⟨?_⟩, ?_, ?_⟩
  · intro d hd
    simp only [c55kwDefs, List.mem_cons, List.not_mem_nil, or_false] at hd
    rcases hd with rfl | rfl <;> exact ⟨rfl, rfl, rfl⟩
  · have hw : ruleOf c55kwDefs whitespaceName = none := by decide +kernel
    have hm : ∀ d ∈ c55kwDefs, meaning c55kwDefs d = d.body := by
      intro d hd
      simp only [c55kwDefs, List.mem_cons, List.not_mem_nil, or_false] at hd
      rcases hd with rfl | rfl <;> simp [meaning, litTok, hw]
    refine .noRule (.skip_none hw) (.rule (d := c55kwDefs[0]) rfl rfl ?_)
    rw [hm _ (by simp [c55kwDefs])]
    refine .seq (.seqs_fail (.not_no (j := 6) (.rule (d := c55kwDefs[1]) rfl rfl ?_)))
    rw [hm _ (by simp [c55kwDefs])]
    exact .cho (.alts_ok (.lit (by decide +kernel) (.inr (by decide +kernel)) (.skip_none hw)))
  · rw [loadText_run (ds := c55kwDefs) (by decide +kernel) (by decide +kernel)]
    decide +kernel

end Verif.Props
