import Verif.TextSem
import Verif.Spec
/-!
# The reference semantics of the loaded rules and the meaning of the text

`peg_sem`: on rules made of a text without macros, captures, cuts, labels and recovery, a derivation of the reference semantics is a derivation
of the specification `Sem`.
-/

namespace Verif.Meta
open Verif CharClass

variable {V : Type}

/-- The rules as linked: the built-in macro first. -/
abbrev allOf (ds : List RDef) : List SDef := recoverDef :: ds.map RDef.toSDef

mutual
/-- No macro calls, captures, cuts, labels, recovery; names are defined. -/
def plainText (ds : List RDef) : Src → Bool
  | .seq es => plainTextL ds es
  | .cho es l => !l && plainTextL ds es
  | .rep e _ _ => plainText ds e
  | .and_ e => plainText ds e
  | .not_ e => plainText ds e
  | .tok e => plainText ds e
  | .ign e => plainText ds e
  | .dict _ _ => true
  | .lit _ _ => true
  | .cls _ => true
  | .chr _ => true
  | .dot => true
  | .ref nm mac as => !mac && as.isEmpty && decide (nm ≠ recoverName) && (ruleOf ds nm).isSome
  | _ => false
def plainTextL (ds : List RDef) : List Src → Bool
  | [] => true
  | e :: es => plainText ds e && plainTextL ds es
end

/-- The grammar `G` is made of the rules `ds`; `b`: without white space and `%word`, to test for words. -/
structure MadeOf (G : Gram V) (ds : List RDef) (b : Bool) : Prop where
  rule : ∀ (k : Nat) (rd : RDef), ds[k]? = some rd → ∃ d, G.rules[k + 1]? = some d ∧ d.ope = (litTok ds rd).link (allOf ds) [] ∧ d.isMacro = false ∧
    d.isLR = (lrParts rd).isSome ∧ d.noWs = rd.instrs.any isNoWs
  nodup : (ds.map (·.name)).Nodup
  pred : ∀ r, G.predicate r = none
  ws : G.ws = if b then none else (ruleOf ds whitespaceName).map fun rd => .ws (.ign ((litTok ds rd).link (allOf ds) []))
  word : G.word = if b then none else (ruleOf ds wordName).map fun rd => (litTok ds rd).link (allOf ds) []
  plain : ∀ rd ∈ ds, plainText ds rd.body = true

theorem MadeOf.bare {G : Gram V} {ds : List RDef} {b : Bool} (h : MadeOf G ds b) (t : List Byte) : MadeOf (G.bare t) ds true :=
  ⟨h.rule, h.nodup, h.pred, rfl, rfl, h.plain⟩

/-- Where words are tested for, there is a word rule. -/
theorem MadeOf.wordRule {G : Gram V} {ds : List RDef} {b : Bool} (h : MadeOf G ds b) {w : Ope} (hw : G.word = some w) :
    b = false ∧ ∃ rd, ruleOf ds wordName = some rd ∧ w = (litTok ds rd).link (allOf ds) [] := by
  have := h.word
  rw [hw] at this
  cases b with
  | true => cases this
  | false =>
    rw [if_neg Bool.false_ne_true] at this
    obtain ⟨rd, h1, h2⟩ := Option.map_eq_some_iff.1 this.symm
    exact ⟨rfl, rd, h1, h2.symm⟩

theorem MadeOf.noWord {G : Gram V} {ds : List RDef} {b : Bool} (h : MadeOf G ds b) (hw : G.word = none) : b = true ∨ ruleOf ds wordName = none := by
  have := h.word
  rw [hw] at this
  cases b with
  | true => exact .inl rfl
  | false => exact .inr (Option.map_eq_none_iff.1 this.symm)

theorem toSDef_name (d : RDef) : d.toSDef.head.name = d.name := by
  have : ∀ (is : List Instr) (e : Def), (is.foldl applyInstr e).name = e.name := by
    intro is
    induction is with
    | nil => intro e; rfl
    | cons i is ih => intro e; rw [List.foldl_cons, ih]; cases i <;> rfl
  exact this _ _

/-- The rule a name is linked to. -/
theorem ruleNamed_of {ds : List RDef} {nm : List Byte} (hr : nm ≠ recoverName) {rd : RDef} (h : ruleOf ds nm = some rd) :
    ∃ k, ruleNamed (allOf ds) nm = some (k + 1) ∧ ds[k]? = some rd := by
  unfold ruleNamed allOf
  rw [List.findIdx?_cons]
  have h0 : decide (recoverDef.head.name = nm) = false := by
    rw [decide_eq_false_iff_not]; exact fun e => hr e.symm
  rw [h0]
  simp only [Bool.false_eq_true, if_false]
  clear h0
  induction ds with
  | nil => cases h
  | cons d ds ih =>
    rw [List.map_cons, List.findIdx?_cons, toSDef_name]
    unfold ruleOf at h
    rw [List.find?_cons] at h
    by_cases hn : d.name = nm
    · simp only [hn, beq_self_eq_true, Option.some.injEq] at h
      subst h
      simp only [hn, decide_true, if_true, Option.map_some]
      exact ⟨0, rfl, rfl⟩
    · have h1 : (d.name == nm) = false := by simpa using hn
      rw [h1] at h
      obtain ⟨k, h2, h3⟩ := ih h
      simp only [hn, decide_false, Bool.false_eq_true, if_false]
      refine ⟨k + 1, ?_, h3⟩
      rw [h2]; rfl

theorem ruleOf_mem {ds : List RDef} {nm : List Byte} {rd : RDef} (h : ruleOf ds nm = some rd) : rd ∈ ds := List.mem_of_find?_eq_some h

theorem litTok_plain {ds : List RDef} {rd : RDef} (h : plainText ds rd.body = true) : plainText ds (litTok ds rd) = true := by
  unfold litTok
  split
  · exact h
  · exact h

/-- Whether a cut was passed. -/
def _root_.Verif.PRes.cutFlag : PRes V → Bool
  | .fail c => c
  | .ok _ c _ => c

/-- Where the match ends. -/
def _root_.Verif.PRes.endPos : PRes V → Option Nat
  | .fail _ => none
  | .ok j _ _ => some j

/-- `x` means `P`, and no cut was passed. -/
def Says (x : PRes V) (P : Option Nat → Prop) : Prop := x.cutFlag = false ∧ P x.endPos

/-- What a task of the reference semantics says. -/
def Task.says (ds : List RDef) (T : Page) (m : Mode) (i : Nat) (x : PRes V) : PTask → Prop
  | .ope e =>
    (∀ src, plainText ds src = true → e = src.link (allOf ds) [] → Says x (Sem ds T m.tok m.ws (.exp src) i)) ∧
    (∀ rd, ruleOf ds whitespaceName = some rd → e = .ws (.ign ((litTok ds rd).link (allOf ds) [])) → m.tok = false → T.bare = false →
      Says x (Sem ds T m.tok m.ws .skip i))
  | .seqL es => ∀ ss, plainTextL ds ss = true → es = Src.linkL (allOf ds) [] ss → Says x (Sem ds T m.tok m.ws (.seqs ss) i)
  | .choL es _ _ => ∀ ss, plainTextL ds ss = true → es = Src.linkL (allOf ds) [] ss → Says x (Sem ds T m.tok m.ws (.alts ss) i)
  | .loop e need mx n => ∀ src mn, plainText ds src = true → e = src.link (allOf ds) [] → need = mn - n →
      Says x (Sem ds T m.tok m.ws (.loop src mn mx n) i)
  | .text t ic => Says x (Sem ds T m.tok m.ws (.exp (.lit t ic)) i)
  | .skip => Says x (Sem ds T m.tok m.ws .skip i)
  | .body d => ∀ rd, rd ∈ ds → d.ope = (litTok ds rd).link (allOf ds) [] → d.noWs = rd.instrs.any isNoWs →
      Says x (Sem ds T m.tok m.ws (.exp (meaning ds rd)) i)
  | .grow r _ => ∀ k rd p, r = k + 1 → ds[k]? = some rd → lrParts rd = some p → Says x (Sem ds T m.tok m.ws (.grow p.1) i)
  | .hold r => ∀ k rd nm, r = k + 1 → ds[k]? = some rd → ruleOf ds nm = some rd → Says x (Sem ds T m.tok m.ws (.exp (.ref nm false [])) i)
  | _ => True

theorem Says.orCut {x : PRes V} {c : Bool} {P : Option Nat → Prop} (h : Says x P) (hc : c = false) : Says (x.orCut c) P := by
  subst hc
  cases x <;> exact h

theorem Says.noCut {x : PRes V} {P : Option Nat → Prop} (h : Says x P) : Says x.noCut P := by
  cases x <;> exact ⟨rfl, h.2⟩

/-- How an expression without macros is linked. -/
inductive LinkV (ds : List RDef) : Src → Ope → Prop where
  | seq (ss : List Src) : plainTextL ds ss = true → LinkV ds (.seq ss) (.seq (Src.linkL (allOf ds) [] ss) none)
  | cho (ss : List Src) : plainTextL ds ss = true → LinkV ds (.cho ss false) (.cho (Src.linkL (allOf ds) [] ss) false [])
  | rep (e : Src) (mn : Nat) (mx : Option Nat) : plainText ds e = true → LinkV ds (.rep e mn mx) (.rep (e.link (allOf ds) []) mn mx none)
  | and_ (e : Src) : plainText ds e = true → LinkV ds (.and_ e) (.and_ (e.link (allOf ds) []))
  | not_ (e : Src) : plainText ds e = true → LinkV ds (.not_ e) (.not_ (e.link (allOf ds) []))
  | tok (e : Src) : plainText ds e = true → LinkV ds (.tok e) (.tok (e.link (allOf ds) []))
  | ign (e : Src) : plainText ds e = true → LinkV ds (.ign e) (.ign (e.link (allOf ds) []))
  | dict (w : List (List Byte)) (ic : Bool) : LinkV ds (.dict w ic) (.dict w ic)
  | lit (t : List Byte) (ic : Bool) : LinkV ds (.lit t ic) (.lit t ic)
  | one (e : Src) (o : Ope) (f : List Byte → Option Nat) : oneChar e = some f → o.single = some f → LinkV ds e o
  | ref (nm : List Byte) (k : Nat) (rd : RDef) : ruleOf ds nm = some rd → ds[k]? = some rd → LinkV ds (.ref nm false []) (.ref (k + 1) nm [])

theorem linkV {ds : List RDef} : ∀ (src : Src), plainText ds src = true → LinkV ds src (src.link (allOf ds) []) := by
  intro src hp
  cases src with
  | seq ss => exact .seq ss hp
  | cho ss l =>
    simp only [plainText, Bool.and_eq_true, Bool.not_eq_true'] at hp
    obtain ⟨rfl, hp⟩ := hp
    exact .cho ss hp
  | rep e mn mx => exact .rep e mn mx hp
  | and_ e => exact .and_ e hp
  | not_ e => exact .not_ e hp
  | tok e => exact .tok e hp
  | ign e => exact .ign e hp
  | dict w ic => exact .dict w ic
  | lit t ic => exact .lit t ic
  | cls c => exact .one _ _ _ rfl rfl
  | chr c => exact .one _ _ _ rfl rfl
  | dot => exact .one _ _ _ rfl rfl
  | ref nm mac as =>
    simp only [plainText, Bool.and_eq_true, Bool.not_eq_true', List.isEmpty_iff, decide_eq_true_eq, Option.isSome_iff_exists] at hp
    obtain ⟨⟨⟨rfl, rfl⟩, hn⟩, rd, hr⟩ := hp
    obtain ⟨k, h1, h2⟩ := ruleNamed_of hn hr
    have : Src.link (allOf ds) [] (.ref nm false []) = .ref (k + 1) nm [] := by
      simp only [Src.link, paramIdx, List.findIdx?_nil, h1, Src.linkL]
    rw [this]
    exact .ref nm k rd hr h2
  | _ => cases hp

/-- A task that is not white space. -/
theorem says_ope {ds : List RDef} {T : Page} {m : Mode} {i : Nat} {x : PRes V} {e : Ope} (hw : ∀ e', e ≠ .ws e')
    (h : ∀ src, LinkV ds src e → Says x (Sem ds T m.tok m.ws (.exp src) i)) : Task.says ds T m i x (.ope e) := by
  refine ⟨fun src hp he => h src ?_, fun rd _ he => absurd he (hw _)⟩
  rw [he]
  exact linkV src hp

theorem says_src {ds : List RDef} {T : Page} {m : Mode} {i : Nat} {x : PRes V} {e : Src} (h : Task.says ds T m i x (.ope (e.link (allOf ds) [])))
    (hp : plainText ds e = true) : Says x (Sem ds T m.tok m.ws (.exp e) i) := h.1 e hp rfl

theorem linkL_cons {ds : List RDef} {e : Ope} {es : List Ope} {ss : List Src} (h : e :: es = Src.linkL (allOf ds) [] ss) (hp : plainTextL ds ss = true) :
    ∃ s ss', ss = s :: ss' ∧ e = s.link (allOf ds) [] ∧ es = Src.linkL (allOf ds) [] ss' ∧ plainText ds s = true ∧ plainTextL ds ss' = true := by
  cases ss with
  | nil => cases h
  | cons s ss =>
    simp only [plainTextL, Bool.and_eq_true] at hp
    cases h
    exact ⟨s, ss, rfl, rfl, rfl, hp⟩

/-! ### Left-recursive rules -/

theorem index_of_name {ds : List RDef} (hn : (ds.map (·.name)).Nodup) {k k' : Nat} {rd rd' : RDef} (h : ds[k]? = some rd) (h' : ds[k']? = some rd')
    (e : rd.name = rd'.name) : k = k' := by
  have h1 : (ds.map (·.name))[k]? = some rd.name := by rw [List.getElem?_map, h]; rfl
  have h2 : (ds.map (·.name))[k']? = some rd.name := by rw [List.getElem?_map, h', e]; rfl
  obtain ⟨l1, e1⟩ := List.getElem?_eq_some_iff.1 h1
  obtain ⟨l2, e2⟩ := List.getElem?_eq_some_iff.1 h2
  exact (List.getElem_inj (h₀ := l1) (h₁ := l2) hn).1 (e1.trans e2.symm)

/-- How linking treats an alternative that begins with the rule's own name. -/
theorem ownRest_link {ds : List RDef} (hn : (ds.map (·.name)).Nodup) {k : Nat} {rd : RDef} (hk : ds[k]? = some rd) {e : Src} (hp : plainText ds e = true) :
    (∀ ss, ownRest rd.name e = some ss → ∃ nm, e.link (allOf ds) [] = .seq (.ref (k + 1) nm [] :: Src.linkL (allOf ds) [] ss) none ∧ plainTextL ds ss = true) ∧
    (ownRest rd.name e = none → ∀ nm os kw, e.link (allOf ds) [] ≠ .seq (.ref (k + 1) nm [] :: os) kw) := by
  have hname : ∀ {nm' : List Byte} {rd' : RDef}, ruleOf ds nm' = some rd' → rd'.name = nm' := by
    intro nm' rd' h
    unfold ruleOf at h
    simpa using List.find?_some h
  constructor
  · intro ss h
    unfold ownRest at h
    split at h
    · rename_i nm' es
      by_cases he : nm' = rd.name
      · rw [if_pos he] at h
        cases h
        simp only [plainText, plainTextL, Bool.and_eq_true] at hp
        have hv := linkV (.ref nm' false []) (by simp only [plainText, Bool.and_eq_true]; exact hp.1)
        rw [show Src.link (allOf ds) [] (.seq (.ref nm' false [] :: ss)) = .seq (Src.link (allOf ds) [] (.ref nm' false []) :: Src.linkL (allOf ds) [] ss) none from rfl]
        generalize Src.link (allOf ds) [] (.ref nm' false []) = o at hv
        cases hv with
        | ref _ k' rd' h1 h2 =>
          cases index_of_name hn h2 hk ((hname h1).trans he)
          exact ⟨nm', rfl, hp.2⟩
        | one _ _ _ h1 h2 => cases h1
      · rw [if_neg he] at h; cases h
    · cases h
  · intro h nm os kw hl
    have hv := linkV e hp
    rw [hl] at hv
    generalize ho : Ope.seq (.ref (k + 1) nm [] :: os) kw = o at hv
    cases hv with
    | seq ss hss =>
      cases ss with
      | nil => cases ho
      | cons s ss =>
        simp only [plainTextL, Bool.and_eq_true] at hss
        have hs := linkV s hss.1
        simp only [Src.linkL, Ope.seq.injEq, List.cons.injEq] at ho
        rw [← ho.1.1] at hs
        generalize ho' : Ope.ref (k + 1) nm [] = o at hs
        cases hs with
        | ref nm' k' rd' h1 h2 =>
          simp only [Ope.ref.injEq] at ho'
          obtain rfl : k = k' := by omega
          rw [hk] at h2
          cases h2
          unfold ownRest at h
          simp only [hname h1, if_true] at h
          cases h
        | one _ _ _ h1 h2 => subst ho'; cases h2
        | _ => cases ho'
    | one _ _ _ h1 h2 => subst ho; cases h2
    | _ => cases ho

theorem lrAlts_link {ds : List RDef} (hn : (ds.map (·.name)).Nodup) {k : Nat} {rd : RDef} (hk : ds[k]? = some rd) : ∀ (es : List Src), plainTextL ds es = true →
    (lrSplit (k + 1) (Src.linkL (allOf ds) [] es)).1.map (.seq · none) = Src.linkL (allOf ds) [] ((lrAlts rd.name es).1.map .seq) ∧
    (lrSplit (k + 1) (Src.linkL (allOf ds) [] es)).2 = Src.linkL (allOf ds) [] (lrAlts rd.name es).2 ∧
    plainTextL ds ((lrAlts rd.name es).1.map .seq) = true ∧ plainTextL ds (lrAlts rd.name es).2 = true
  | [], _ => ⟨rfl, rfl, rfl, rfl⟩
  | e :: es, hp => by
    have hp' := hp
    simp only [plainTextL, Bool.and_eq_true] at hp
    obtain ⟨h1, h2⟩ := ownRest_link hn hk hp.1
    unfold lrAlts
    cases ho : ownRest rd.name e with
    | some ss =>
      obtain ⟨nm, h3, h4⟩ := h1 ss ho
      obtain ⟨i1, i2, i3, i4⟩ := lrAlts_link hn hk es hp.2
      simp only [Src.linkL, h3, lrSplit, if_true, List.map_cons, i1, i2, plainTextL, i3, i4]
      refine ⟨rfl, trivial, ?_⟩
      simp only [plainText, h4, Bool.and_self, and_self]
    | none =>
      have h3 := h2 ho
      refine ⟨?_, ?_, rfl, hp'⟩
      · simp only [Src.linkL]
        generalize Src.link (allOf ds) [] e = o at h3
        unfold lrSplit
        split
        · rename_i r' nm' es' kw'
          rw [if_neg (fun e => h3 nm' es' kw' (by rw [e]))]
          rfl
        · rfl
      · simp only [Src.linkL]
        generalize Src.link (allOf ds) [] e = o at h3
        unfold lrSplit
        split
        · rename_i r' nm' es' kw'
          rw [if_neg (fun e => h3 nm' es' kw' (by rw [e]))]
        · rfl

/-- The parts of a left-recursive rule, linked. -/
theorem lrParts_link {ds : List RDef} (hn : (ds.map (·.name)).Nodup) {k : Nat} {rd : RDef} (hk : ds[k]? = some rd) (hp : plainText ds rd.body = true)
    {p : List (List Src) × List Src} (h : lrParts rd = some p) {os : List Ope} {l : Bool} {fs : List FirstSet}
    (ho : (litTok ds rd).link (allOf ds) [] = .cho os l fs) :
    (lrSplit (k + 1) os).1.map (.seq · none) = Src.linkL (allOf ds) [] (p.1.map .seq) ∧ (lrSplit (k + 1) os).2 = Src.linkL (allOf ds) [] p.2 ∧
    plainTextL ds (p.1.map .seq) = true ∧ plainTextL ds p.2 = true := by
  unfold lrParts at h
  split at h
  · rename_i es hb
    split at h
    · cases h
    · cases h
      have hlt : litTok ds rd = rd.body ∨ litTok ds rd = .tok rd.body := by
        unfold litTok; split
        · exact .inr rfl
        · exact .inl rfl
      rcases hlt with e | e
      · rw [e, hb] at ho
        rw [hb] at hp
        simp only [plainText, Bool.and_eq_true] at hp
        simp only [Src.link, Ope.cho.injEq] at ho
        rw [← ho.1]
        exact lrAlts_link hn hk es hp.2
      · rw [e] at ho; cases ho
  · cases h

theorem peg_sem {ds : List RDef} {b : Bool} {G : Gram V} {v : Env} {m : Mode} {t : PTask} {i : Nat} {s : PSt V} {x : PRes V} (h : Peg G v m t i s x) :
    MadeOf G ds b → Task.says ds ⟨G.input, b⟩ m i x t := by
  induction h generalizing b
  all_goals intro hG
  case skip_tok hm => refine ⟨rfl, ?_⟩; rw [hm]; exact .skip_tok
  case skip_none hw =>
    rw [hG.ws] at hw
    cases b with
    | true => exact ⟨rfl, .skip_bare rfl⟩
    | false =>
      refine ⟨rfl, .skip_none ?_⟩
      simpa using hw
  case skip_ws hm hw _ ih =>
    rw [hG.ws] at hw
    cases b with
    | true => cases hw
    | false =>
      rw [if_neg Bool.false_ne_true] at hw
      cases hr : ruleOf ds whitespaceName with
      | none => rw [hr] at hw; cases hw
      | some rd =>
        rw [hr] at hw
        cases hw
        exact (ih hG).2 rd hr rfl hm rfl
  case ws_in hm =>
    refine ⟨fun src hp he => ?_, fun rd hr he ht _ => ⟨rfl, by rw [hm]; exact .skip_in⟩⟩
    have := linkV src hp
    rw [← he] at this
    cases this
    case one h1 h2 => cases h2
  case ws_out hm _ ih =>
    refine ⟨fun src hp he => ?_, fun rd hr he ht hb => ?_⟩
    · have := linkV src hp
      rw [← he] at this
      cases this
      case one h1 h2 => cases h2
    · cases he
      have hp := litTok_plain (hG.plain rd (ruleOf_mem hr))
      obtain ⟨h1, h2⟩ := (ih hG).1 (.ign (litTok ds rd)) hp rfl
      refine ⟨h1, ?_⟩
      rw [ht, hm]
      rw [ht] at h2
      refine .skip hb hr ?_
      cases h2 with
      | ign h => exact h
      | one h _ => cases h
  case one_ok e f k i s he hf =>
    refine says_ope (fun e' h => by subst h; cases he) fun src hl => ?_
    cases hl
    case one f' h1 h2 =>
      rw [he] at h2; cases h2
      exact ⟨rfl, .one h1 (by rw [hf]; rfl)⟩
    all_goals cases he
  case one_fail e f i s he hf =>
    refine says_ope (fun e' h => by subst h; cases he) fun src hl => ?_
    cases hl
    case one f' h1 h2 =>
      rw [he] at h2; cases h2
      exact ⟨rfl, .one h1 (by rw [hf]; rfl)⟩
    all_goals cases he
  case lit ih =>
    refine says_ope (fun e' h => by cases h) fun src hl => ?_
    cases hl
    case lit => exact ih hG
    case one h1 h2 => cases h2
  case text_no h => exact ⟨rfl, .lit_no h⟩
  case text_plain h hw _ ih => exact ⟨(ih hG).1, .lit h (hG.noWord hw) (ih hG).2⟩
  case text_nonword h hw _ _ ih1 ih2 =>
    obtain ⟨rfl, rd, hr, rfl⟩ := hG.wordRule hw
    have h1 := says_src (ih1 (hG.bare _)) (litTok_plain (hG.plain rd (ruleOf_mem hr)))
    exact ⟨(ih2 hG).1, .lit_other h rfl hr h1.2 (ih2 hG).2⟩
  case text_word h hw _ _ _ ih1 ih2 ih3 =>
    obtain ⟨rfl, rd, hr, rfl⟩ := hG.wordRule hw
    have h1 := says_src (ih1 (hG.bare _)) (litTok_plain (hG.plain rd (ruleOf_mem hr)))
    have h2 := says_src (ih2 (hG.bare _)) (litTok_plain (hG.plain rd (ruleOf_mem hr)))
    exact ⟨(ih3 hG).1, .lit_word h rfl hr h1.2 h2.2 (ih3 hG).2⟩
  case text_longer h hw _ _ ih1 ih2 =>
    obtain ⟨rfl, rd, hr, rfl⟩ := hG.wordRule hw
    have h1 := says_src (ih1 (hG.bare _)) (litTok_plain (hG.plain rd (ruleOf_mem hr)))
    have h2 := says_src (ih2 (hG.bare _)) (litTok_plain (hG.plain rd (ruleOf_mem hr)))
    exact ⟨rfl, .lit_long h rfl hr h1.2 h2.2⟩
  case dict_no h =>
    refine says_ope (fun e' h => by cases h) fun src hl => ?_
    cases hl
    case dict => exact ⟨rfl, .dict_no h⟩
    case one h1 h2 => cases h2
  case dict_plain h h0 hw _ ih =>
    refine says_ope (fun e' h => by cases h) fun src hl => ?_
    cases hl
    case dict => exact ⟨(ih hG).1, .dict (by rw [h]) h0 (hG.noWord hw) (ih hG).2⟩
    case one h1 h2 => cases h2
  case dict_word h h0 hw _ _ ih1 ih2 =>
    refine says_ope (fun e' h => by cases h) fun src hl => ?_
    obtain ⟨rfl, rd, hr, rfl⟩ := hG.wordRule hw
    have h1 := says_src (ih1 (hG.bare _)) (litTok_plain (hG.plain rd (ruleOf_mem hr)))
    cases hl
    case dict => exact ⟨(ih2 hG).1, .dict_word (by rw [h]) h0 rfl hr h1.2 (ih2 hG).2⟩
    case one h1 h2 => cases h2
  case dict_longer h h0 hw _ ih1 =>
    refine says_ope (fun e' h => by cases h) fun src hl => ?_
    obtain ⟨rfl, rd, hr, rfl⟩ := hG.wordRule hw
    have h1 := says_src (ih1 (hG.bare _)) (litTok_plain (hG.plain rd (ruleOf_mem hr)))
    cases hl
    case dict => exact ⟨rfl, .dict_long (by rw [h]) h0 rfl hr h1.2⟩
    case one h1 h2 => cases h2
  case seq ih =>
    refine says_ope (fun e' h => by cases h) fun src hl => ?_
    cases hl with
    | seq ss hp => exact ⟨(ih hG ss hp rfl).1, .seq (ih hG ss hp rfl).2⟩
    | one _ _ _ h1 h2 => cases h2
  case seq_nil =>
    intro ss hp he
    cases ss with
    | nil => exact ⟨rfl, .seqs_nil⟩
    | cons s ss => cases he
  case seq_fail ih =>
    intro ss hp he
    obtain ⟨s, ss, rfl, rfl, rfl, h1, h2⟩ := linkL_cons he hp
    obtain ⟨h3, h4⟩ := says_src (ih hG) h1
    exact ⟨h3, .seqs_fail h4⟩
  case seq_cons ih1 ih2 =>
    intro ss hp he
    obtain ⟨s, ss, rfl, rfl, rfl, h1, h2⟩ := linkL_cons he hp
    obtain ⟨h3, h4⟩ := says_src (ih1 hG) h1
    obtain ⟨h5, h6⟩ := ih2 hG ss h2 rfl
    exact Says.orCut ⟨h5, .seqs_cons h4 h6⟩ h3
  case cho ih =>
    refine says_ope (fun e' h => by cases h) fun src hl => ?_
    cases hl with
    | cho ss hp =>
      have := ih hG ss hp rfl
      exact Says.noCut ⟨this.1, .cho this.2⟩
    | one _ _ _ h1 h2 => cases h2
  case cho_nil =>
    intro ss hp he
    cases ss with
    | nil => exact ⟨rfl, .alts_nil⟩
    | cons s ss => cases he
  case cho_ok ih =>
    intro ss hp he
    obtain ⟨s, ss, rfl, rfl, rfl, h1, h2⟩ := linkL_cons he hp
    obtain ⟨h3, h4⟩ := says_src (ih hG) h1
    exact ⟨h3, .alts_ok h4⟩
  case cho_cut ih =>
    intro ss hp he
    obtain ⟨s, ss, rfl, rfl, rfl, h1, h2⟩ := linkL_cons he hp
    obtain ⟨h3, h4⟩ := says_src (ih hG) h1
    cases h3
  case cho_next ih1 ih2 =>
    intro ss hp he
    obtain ⟨s, ss, rfl, rfl, rfl, h1, h2⟩ := linkL_cons he hp
    obtain ⟨h3, h4⟩ := says_src (ih1 hG) h1
    obtain ⟨h5, h6⟩ := ih2 hG ss h2 rfl
    exact ⟨h5, .alts_next h4 h6⟩
  case cut =>
    refine says_ope (fun e' h => by cases h) fun src hl => ?_
    cases hl
    case one h1 h2 => cases h2
  case rep ih =>
    refine says_ope (fun e' h => by cases h) fun src hl => ?_
    cases hl with
    | rep e mn mx hp =>
      have := ih hG e _ hp rfl rfl
      exact ⟨this.1, .rep this.2⟩
    | one _ _ _ h1 h2 => cases h2
  case loop_must ih1 ih2 =>
    intro src mn hp he hn
    subst he
    obtain ⟨h3, h4⟩ := says_src (ih1 hG) hp
    obtain ⟨h5, h6⟩ := ih2 hG src mn hp rfl (by omega)
    exact Says.orCut ⟨h5, .loop_more (.inl (by omega)) h4 h6⟩ h3
  case loop_fail ih =>
    intro src mn hp he hn
    subst he
    obtain ⟨h3, h4⟩ := says_src (ih hG) hp
    exact ⟨h3, .loop_few (by omega) h4⟩
  case loop_full h =>
    intro src mn hp he hn
    exact ⟨rfl, .loop_full (by omega) h⟩
  case loop_more h _ _ ih1 ih2 =>
    intro src mn hp he hn
    subst he
    obtain ⟨h3, h4⟩ := says_src (ih1 hG) hp
    obtain ⟨h5, h6⟩ := ih2 hG src mn hp rfl (by omega)
    exact Says.orCut ⟨h5, .loop_more (.inr h) h4 h6⟩ h3
  case loop_end h _ ih =>
    intro src mn hp he hn
    subst he
    obtain ⟨h3, h4⟩ := says_src (ih hG) hp
    exact ⟨h3, .loop_end (by omega) h h4⟩
  case and_ok ih =>
    refine says_ope (fun e' h => by cases h) fun src hl => ?_
    cases hl with
    | and_ e hp => exact ⟨(says_src (ih hG) hp).1, .and_ok (says_src (ih hG) hp).2⟩
    | one _ _ _ h1 h2 => cases h2
  case and_fail ih =>
    refine says_ope (fun e' h => by cases h) fun src hl => ?_
    cases hl with
    | and_ e hp => exact ⟨(says_src (ih hG) hp).1, .and_no (says_src (ih hG) hp).2⟩
    | one _ _ _ h1 h2 => cases h2
  case not_ok ih =>
    refine says_ope (fun e' h => by cases h) fun src hl => ?_
    cases hl with
    | not_ e hp => exact ⟨(says_src (ih hG) hp).1, .not_ok (says_src (ih hG) hp).2⟩
    | one _ _ _ h1 h2 => cases h2
  case not_fail ih =>
    refine says_ope (fun e' h => by cases h) fun src hl => ?_
    cases hl with
    | not_ e hp => exact ⟨(says_src (ih hG) hp).1, .not_no (says_src (ih hG) hp).2⟩
    | one _ _ _ h1 h2 => cases h2
  case scope_ok =>
    refine says_ope (fun e' h => by cases h) fun src hl => ?_
    cases hl
    case one h1 h2 => cases h2
  case scope_fail =>
    refine says_ope (fun e' h => by cases h) fun src hl => ?_
    cases hl
    case one h1 h2 => cases h2
  case cap_ok =>
    refine says_ope (fun e' h => by cases h) fun src hl => ?_
    cases hl
    case one h1 h2 => cases h2
  case cap_fail =>
    refine says_ope (fun e' h => by cases h) fun src hl => ?_
    cases hl
    case one h1 h2 => cases h2
  case bref =>
    refine says_ope (fun e' h => by cases h) fun src hl => ?_
    cases hl
    case one h1 h2 => cases h2
  case bref_no =>
    refine says_ope (fun e' h => by cases h) fun src hl => ?_
    cases hl
    case one h1 h2 => cases h2
  case tok_ok ih1 ih2 =>
    refine says_ope (fun e' h => by cases h) fun src hl => ?_
    cases hl with
    | tok e hp =>
      have h1 := says_src (ih1 hG) hp
      have h2 := ih2 hG
      exact Says.orCut ⟨h2.1, .tok_ok h1.2 h2.2⟩ h1.1
    | one _ _ _ h1 h2 => cases h2
  case tok_fail ih =>
    refine says_ope (fun e' h => by cases h) fun src hl => ?_
    cases hl with
    | tok e hp => exact ⟨(says_src (ih hG) hp).1, .tok_no (says_src (ih hG) hp).2⟩
    | one _ _ _ h1 h2 => cases h2
  case ign_ok ih =>
    refine says_ope (fun e' h => by cases h) fun src hl => ?_
    cases hl with
    | ign e hp => exact ⟨(says_src (ih hG) hp).1, .ign (says_src (ih hG) hp).2⟩
    | one _ _ _ h1 h2 => cases h2
  case ign_fail ih =>
    refine says_ope (fun e' h => by cases h) fun src hl => ?_
    cases hl with
    | ign e hp => exact ⟨(says_src (ih hG) hp).1, .ign (says_src (ih hG) hp).2⟩
    | one _ _ _ h1 h2 => cases h2
  case ref ih =>
    refine says_ope (fun e' h => by cases h) fun src hl => ?_
    cases hl with
    | ref nm k rd h1 h2 => exact ih hG k rd _ rfl h2 h1
    | one _ _ _ h1 h2 => cases h2
  case call hd hm _ _ =>
    refine says_ope (fun e' h => by cases h) fun src hl => ?_
    cases hl with
    | ref nm k rd h1 h2 =>
      obtain ⟨d', h3, -, h4, -⟩ := hG.rule k rd h2
      rw [hd] at h3; cases h3
      rw [hm] at h4; cases h4
    | one _ _ _ h1 h2 => cases h2
  case param =>
    refine says_ope (fun e' h => by cases h) fun src hl => ?_
    cases hl
    case one h1 h2 => cases h2
  case body hn _ ih =>
    intro rd hr ho hw
    rw [hn] at hw
    unfold meaning
    rw [← hw]
    rw [ho] at ih
    exact says_src (ih hG) (litTok_plain (hG.plain rd hr))
  case body_ok hn _ _ ih1 ih2 =>
    intro rd hr ho hw
    rw [hn] at hw
    unfold meaning
    rw [← hw]
    rw [ho] at ih1
    have h1 := says_src (ih1 hG) (litTok_plain (hG.plain rd hr))
    have h2 := ih2 hG
    exact Says.orCut ⟨h2.1, .tok_ok h1.2 h2.2⟩ h1.1
  case body_fail hn _ ih =>
    intro rd hr ho hw
    rw [hn] at hw
    unfold meaning
    rw [← hw]
    rw [ho] at ih
    have h1 := says_src (ih hG) (litTok_plain (hG.plain rd hr))
    exact ⟨h1.1, .tok_no h1.2⟩
  case rule_fail hd hlr _ ih =>
    intro k rd nm hr h1 h2
    subst hr
    obtain ⟨d', h3, h4, -, h6, h5⟩ := hG.rule k rd h1
    rw [hd] at h3; cases h3
    have := ih hG rd (List.mem_of_getElem? h1) h4 h5
    exact ⟨this.1, .rule h2 (by rw [hlr] at h6; simpa using h6.symm) this.2⟩
  case rule_ok hd hlr _ _ ih =>
    intro k rd nm hr h1 h2
    subst hr
    obtain ⟨d', h3, h4, -, h6, h5⟩ := hG.rule k rd h1
    rw [hd] at h3; cases h3
    have := ih hG rd (List.mem_of_getElem? h1) h4 h5
    exact ⟨this.1, .rule h2 (by rw [hlr] at h6; simpa using h6.symm) this.2⟩
  case rule_pred hp _ _ => rw [hG.pred] at hp; cases hp
  case rule_reject hp _ _ => rw [hG.pred] at hp; cases hp
  case lr_fail hd hl _ ho _ ih =>
    intro k rd nm hr h1 h2
    subst hr
    obtain ⟨d', h3, h5, -, h4, -⟩ := hG.rule k rd h1
    rw [hd] at h3; cases h3
    rw [hl] at h4
    obtain ⟨p, hp⟩ := Option.isSome_iff_exists.1 h4.symm
    rw [h5] at ho
    obtain ⟨-, e2, -, e4⟩ := lrParts_link hG.nodup h1 (hG.plain rd (List.mem_of_getElem? h1)) hp ho
    have := ih hG p.2 e4 e2
    exact ⟨rfl, .lr_no h2 hp this.2⟩
  case lr_ok hd hl _ ho _ _ _ ih1 ih2 =>
    intro k rd nm hr h1 h2
    subst hr
    obtain ⟨d', h3, h5, -, h4, -⟩ := hG.rule k rd h1
    rw [hd] at h3; cases h3
    rw [hl] at h4
    obtain ⟨p, hp⟩ := Option.isSome_iff_exists.1 h4.symm
    rw [h5] at ho
    obtain ⟨-, e2, -, e4⟩ := lrParts_link hG.nodup h1 (hG.plain rd (List.mem_of_getElem? h1)) hp ho
    exact ⟨rfl, .lr h2 hp (ih1 hG p.2 e4 e2).2 (ih2 hG k rd p rfl h1 hp).2⟩
  case grow_stop hd ho _ ih =>
    intro k rd p hr h1 hp
    subst hr
    obtain ⟨d', h3, h5, -, h4, -⟩ := hG.rule k rd h1
    rw [hd] at h3; cases h3
    rw [h5] at ho
    obtain ⟨e1, -, e3, -⟩ := lrParts_link hG.nodup h1 (hG.plain rd (List.mem_of_getElem? h1)) hp ho
    exact ⟨rfl, .grow_stop (ih hG _ e3 e1).2⟩
  case grow_idle hd ho _ hj ih =>
    intro k rd p hr h1 hp
    subst hr
    obtain ⟨d', h3, h5, -, h4, -⟩ := hG.rule k rd h1
    rw [hd] at h3; cases h3
    rw [h5] at ho
    obtain ⟨e1, -, e3, -⟩ := lrParts_link hG.nodup h1 (hG.plain rd (List.mem_of_getElem? h1)) hp ho
    exact ⟨rfl, .grow_idle (ih hG _ e3 e1).2 hj⟩
  case grow_more hd ho _ hj _ ih1 ih2 =>
    intro k rd p hr h1 hp
    subst hr
    obtain ⟨d', h3, h5, -, h4, -⟩ := hG.rule k rd h1
    rw [hd] at h3; cases h3
    rw [h5] at ho
    obtain ⟨e1, -, e3, -⟩ := lrParts_link hG.nodup h1 (hG.plain rd (List.mem_of_getElem? h1)) hp ho
    exact ⟨(ih2 hG k rd p rfl h1 hp).1, .grow_more (ih1 hG _ e3 e1).2 hj (ih2 hG k rd p rfl h1 hp).2⟩
  case prec =>
    refine says_ope (fun e' h => by cases h) fun src hl => ?_
    cases hl
    case one h1 h2 => cases h2
  all_goals trivial

theorem parse_recog {ds : List RDef} {G : Gram V} (hG : MadeOf G ds false) {k : Nat} {rd : RDef} {nm : List Byte} (hk : ds[k]? = some rd) (hn : ruleOf ds nm = some rd) {eoi : Bool}
    {x : Option (Nat × Frame V)} (h : PegParse G (k + 1) eoi x) : Recog ds G.input nm eoi (x.map (·.1)) := by
  cases h with
  | noSkip h => exact .noSkip (peg_sem h hG).2
  | noRule h1 h2 => exact .noRule (peg_sem h1 hG).2 (peg_sem h2 hG k rd nm rfl hk hn).2
  | rest h1 h2 h3 h4 => exact .rest (peg_sem h1 hG).2 (peg_sem h2 hG k rd nm rfl hk hn).2 h3 h4
  | ok h1 h2 h3 => exact .ok (peg_sem h1 hG).2 (peg_sem h2 hG k rd nm rfl hk hn).2 h3

end Verif.Meta
