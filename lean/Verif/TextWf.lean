import Verif.TextQuiet
/-!
# Well-formed grammar texts

The hypothesis of C55, in terms of the text: `nullS`, `leftS`, `tidyS` and `WellFormed` (as in Ford 2004: no repetition of what may match nothing, no
rule that calls itself at its own position, except direct left recursion), plus what excludes the optimisations that are wrong in general (keyword guards, classes that ignore case
across cases) and white space skipped without progress.  `certified`: then the certificates of C27 exist.
-/

namespace Verif.Meta
open Verif CharClass

variable {V : Type}

mutual
/-- May the expression match nothing?  `ν`: the rules that may. -/
def nullS (ν : List Byte → Bool) : Src → Bool
  | .seq es => nullSAll ν es
  | .cho es _ => nullSAny ν es
  | .rep e mn _ => mn == 0 || nullS ν e
  | .dict _ _ => false
  | .lit s _ => s.isEmpty
  | .cls _ => false
  | .chr _ => false
  | .dot => false
  | .tok e => nullS ν e
  | .ign e => nullS ν e
  | .ref nm _ _ => ν nm
  | _ => true
def nullSAll (ν : List Byte → Bool) : List Src → Bool
  | [] => true
  | e :: es => nullS ν e && nullSAll ν es
def nullSAny (ν : List Byte → Bool) : List Src → Bool
  | [] => false
  | e :: es => nullS ν e || nullSAny ν es
end

mutual
/-- The rules the expression may call at the position where it starts. -/
def leftS (ν : List Byte → Bool) : Src → List (List Byte)
  | .seq es => leftSeq ν es
  | .cho es _ => leftAlts ν es
  | .rep e _ _ => leftS ν e
  | .and_ e => leftS ν e
  | .not_ e => leftS ν e
  | .tok e => leftS ν e
  | .ign e => leftS ν e
  | .ref nm _ _ => [nm]
  | _ => []
def leftSeq (ν : List Byte → Bool) : List Src → List (List Byte)
  | [] => []
  | e :: es => leftS ν e ++ if nullS ν e then leftSeq ν es else []
def leftAlts (ν : List Byte → Bool) : List Src → List (List Byte)
  | [] => []
  | e :: es => leftS ν e ++ leftAlts ν es
end

mutual
/-- The rules the expression calls, and how: inside a token, inside white space. -/
def callsS (m : Mode) : Src → List (List Byte × Mode)
  | .seq es => callsSL m es
  | .cho es _ => callsSL m es
  | .rep e _ _ => callsS m e
  | .and_ e => callsS m e
  | .not_ e => callsS m e
  | .tok e => callsS { m with tok := true } e
  | .ign e => callsS m e
  | .ref nm _ _ => [(nm, m)]
  | _ => []
def callsSL (m : Mode) : List Src → List (List Byte × Mode)
  | [] => []
  | e :: es => callsS m e ++ callsSL m es
end

/-- `!Keyword < [..] [..]* >`, which gets a keyword guard. -/
def guardShape : List Src → Bool
  | [.not_ (.ref _ _ _), .tok (.seq [.cls _, .rep (.cls _) _ _])] => true
  | _ => false

/-- The bounds of a repeated class are in order. -/
def spanShape (e : Src) (mn : Nat) (mx : Option Nat) : Bool :=
  match e with
  | .cls _ => mx.all (mn ≤ ·)
  | _ => true

mutual
/-- `ws`: there is white space. -/
def tidyS (ν : List Byte → Bool) (ws : Bool) : Src → Bool
  | .seq es => !guardShape es && tidySL ν ws es
  | .cho es _ => tidySL ν ws es
  | .rep e mn mx => (!nullS ν e || mx.isSome) && spanShape e mn mx && tidyS ν ws e
  | .and_ e => tidyS ν ws e
  | .not_ e => tidyS ν ws e
  | .tok e => (!ws || !nullS ν e) && tidyS ν ws e
  | .ign e => tidyS ν ws e
  | .dict words _ => words.all isText
  | .lit s _ => isText s && (!ws || !s.isEmpty)
  | .cls c => Cls.uniform c
  | _ => true
def tidySL (ν : List Byte → Bool) (ws : Bool) : List Src → Bool
  | [] => true
  | e :: es => tidyS ν ws e && tidySL ν ws es
end

/-- The rules a rule may call at the position where it starts, apart from the own name in front of the alternatives of a left-recursive rule. -/
def leftD (ds : List RDef) (ν : List Byte → Bool) (d : RDef) : List (List Byte) :=
  match lrParts d with
  | some p => leftAlts ν p.2
  | none => leftS ν (meaning ds d)

/-- The rules of a text are well-formed, whatever the start rule, white space and `%word`: `ν` names the rules that may match nothing, `rank` orders the
rules by which may be called at the position where another starts, `μ` says how they are called. -/
structure RulesWf (ds : List RDef) (ν : List Byte → Bool) (rank : List Byte → Nat) (μ : List Byte → Mode → Bool) : Prop where
  null : ∀ d ∈ ds, nullS ν (meaning ds d) = true → ν d.name = true
  left : ∀ d ∈ ds, ∀ q ∈ leftD ds ν d, rank q < rank d.name
  tidy : ∀ d ∈ ds, tidyS ν (ruleOf ds whitespaceName).isSome (meaning ds d) = true
  modeRule : ∀ d ∈ ds, ∀ m, μ d.name m = true → ∀ x ∈ callsS m (meaning ds d), μ x.1 x.2 = true
  modeUsed : ∀ d ∈ ds, ∃ m, μ d.name m = true
  /-- a left-recursive rule matches something, is not marked `no_whitespace`, and is called in one way only -/
  leftRec : ∀ d ∈ ds, (lrParts d).isSome = true → ν d.name = false ∧ d.instrs.any isNoWs = false ∧ ∀ m m', μ d.name m = true → μ d.name m' = true → m = m'

/-- The rules of a text are well-formed. -/
structure WellFormed (ds : List RDef) (ν : List Byte → Bool) (rank : List Byte → Nat) (μ : List Byte → Mode → Bool) (start : List Byte) : Prop extends RulesWf ds ν rank μ where
  modeStart : μ start {} = true
  modeWs : ∀ d, ruleOf ds whitespaceName = some d → ∀ x ∈ callsS ⟨false, true⟩ (litTok ds d), μ x.1 x.2 = true
  /-- the ways rules are called in tests for words may be different -/
  modeWord : ∀ d, ruleOf ds wordName = some d → ∃ μ', RulesWf ds ν rank μ' ∧ ∀ x ∈ callsS {} (litTok ds d), μ' x.1 x.2 = true

/-! ## The certificate -/

def nameAt (ds : List RDef) (r : Nat) : List Byte := ((ds[r - 1]?).map RDef.name).getD []

def topRank (ds : List RDef) (rank : List Byte → Nat) : Nat := (ds.map fun d => rank d.name + 1).foldr max 0

theorem lt_topRank {ds : List RDef} {rank : List Byte → Nat} {d : RDef} (h : d ∈ ds) : rank d.name < topRank ds rank := by
  unfold topRank
  induction ds with
  | nil => cases h
  | cons x xs ih =>
    rw [List.map_cons, List.foldr_cons]
    rcases List.mem_cons.1 h with rfl | h
    · omega
    · have := ih h; omega

/-- The certificate of a well-formed text. -/
def certS (ds : List RDef) (ν : List Byte → Bool) (rank : List Byte → Nat) (μ : List Byte → Mode → Bool) (names : List (List Byte)) : Cert where
  rank := fun r => if r = 0 then 1 else rank (nameAt ds r)
  null := fun r => r != 0 && ν (nameAt ds r)
  leak := fun _ => false
  modes := fun r m => if r = 0 then m == {} else μ (nameAt ds r) m
  anull := fun _ => false
  aleak := fun _ => false
  wsBound := topRank ds rank
  top := topRank ds rank
  malformed := false
  names := names
  capless := true

section
variable {ds : List RDef} {ν : List Byte → Bool} {rank : List Byte → Nat} {μ : List Byte → Mode → Bool} {names : List (List Byte)}

theorem nameAt_succ {k : Nat} {rd : RDef} (h : ds[k]? = some rd) : nameAt ds (k + 1) = rd.name := by
  unfold nameAt
  rw [Nat.add_sub_cancel, h]; rfl

/-- What linking makes of a reference. -/
theorem link_ref {nm : List Byte} {mac : Bool} {as : List Src} (h : plainText ds (.ref nm mac as) = true) :
    ∃ k rd, Src.link (allOf ds) [] (.ref nm mac as) = .ref (k + 1) nm [] ∧ ds[k]? = some rd ∧ rd.name = nm := by
  have := linkV _ h
  generalize Src.link (allOf ds) [] (.ref nm mac as) = o at this
  cases this with
  | ref _ k rd h1 h2 =>
    refine ⟨k, rd, rfl, h2, ?_⟩
    unfold ruleOf at h1
    have := List.find?_some h1
    simpa using this
  | one _ _ _ h1 h2 => cases h1

mutual
theorem nul_link (p : Bool) : ∀ (e : Src), plainText ds e = true → (certS ds ν rank μ names).nul p (e.link (allOf ds) []) = nullS ν e
  | .seq es, h => nulAll_link p es h
  | .cho es l, h => by
    simp only [plainText, Bool.and_eq_true] at h
    exact nulAny_link p es h.2
  | .rep e mn _, h => by
    simp only [Src.link, Cert.nul, nullS]
    rw [nul_link p e h]
  | .and_ e, _ => rfl
  | .not_ e, _ => rfl
  | .tok e, h => nul_link p e h
  | .ign e, h => nul_link p e h
  | .dict _ _, _ => rfl
  | .lit _ _, _ => rfl
  | .cls _, _ => by simp [Src.link, Cert.nul, nullS, certS]
  | .chr _, _ => by simp [Src.link, Cert.nul, nullS, certS]
  | .dot, _ => rfl
  | .ref nm mac as, h => by
    obtain ⟨k, rd, h1, h2, h3⟩ := link_ref h
    rw [h1]
    simp only [Cert.nul, certS, nullS, nameAt_succ h2, h3]
    simp
  | .capScope _, h => by cases h
  | .cap _ _, h => by cases h
  | .usr _, h => by cases h
  | .bref _, h => by cases h
  | .cut, h => by cases h
  | .recov _ _ _, h => by cases h
theorem nulAll_link (p : Bool) : ∀ (es : List Src), plainTextL ds es = true → (certS ds ν rank μ names).nulAll p (Src.linkL (allOf ds) [] es) = nullSAll ν es
  | [], _ => rfl
  | e :: es, h => by
    simp only [plainTextL, Bool.and_eq_true] at h
    simp only [Src.linkL, Cert.nulAll, nullSAll]
    rw [nul_link p e h.1, nulAll_link p es h.2]
theorem nulAny_link (p : Bool) : ∀ (es : List Src), plainTextL ds es = true → (certS ds ν rank μ names).nulAny p (Src.linkL (allOf ds) [] es) = nullSAny ν es
  | [], _ => rfl
  | e :: es, h => by
    simp only [plainTextL, Bool.and_eq_true] at h
    simp only [Src.linkL, Cert.nulAny, nullSAny]
    rw [nul_link p e h.1, nulAny_link p es h.2]
end

/-- What does not depend on ranks and modes: no cuts, no macro arguments, no annotations. -/
structure Flat (cfg : Cfg V) (o : Ope) : Prop where
  lk : ∀ (C : Cert) (p : Bool), (∀ r, r ≠ 0 → C.leak r = false) → C.lk p o = false
  env : usesEnv cfg o = false
  bare : o.bare = true
  noWs : o.noWsO = true

structure FlatL (cfg : Cfg V) (os : List Ope) : Prop where
  lk : ∀ (C : Cert) (p : Bool), (∀ r, r ≠ 0 → C.leak r = false) → C.lkAny p os = false
  env : usesEnvList cfg os = false
  bare : Ope.bareL os = true
  noWs : Ope.noWsL os = true

mutual
theorem flat_link {cfg : Cfg V} (hr : ∀ k < ds.length, ∃ d, cfg.rules[k + 1]? = some d ∧ d.isMacro = false) :
    ∀ (e : Src), plainText ds e = true → Flat cfg (e.link (allOf ds) [])
  | .seq es, h => let x := flatL_link hr es h; ⟨x.lk, x.env, by simp only [Src.link, Ope.bare, x.bare]; rfl, x.noWs⟩
  | .cho es l, h => by
    simp only [plainText, Bool.and_eq_true] at h
    have x := flatL_link hr es h.2
    exact ⟨fun _ _ _ => rfl, x.env, (by simp only [Src.link, Ope.bare, x.bare]; rfl), x.noWs⟩
  | .rep e _ _, h => let x := flat_link hr e h; ⟨x.lk, x.env, by simp only [Src.link, Ope.bare, x.bare]; rfl, x.noWs⟩
  | .and_ e, h => let x := flat_link hr e h; ⟨x.lk, x.env, x.bare, x.noWs⟩
  | .not_ e, h => let x := flat_link hr e h; ⟨x.lk, x.env, x.bare, x.noWs⟩
  | .tok e, h => let x := flat_link hr e h; ⟨x.lk, x.env, x.bare, x.noWs⟩
  | .ign e, h => let x := flat_link hr e h; ⟨x.lk, x.env, x.bare, x.noWs⟩
  | .dict _ _, _ => ⟨fun _ _ _ => rfl, rfl, rfl, rfl⟩
  | .lit _ _, _ => ⟨fun _ _ _ => rfl, rfl, rfl, rfl⟩
  | .cls _, _ => ⟨fun _ _ _ => rfl, rfl, rfl, rfl⟩
  | .chr _, _ => ⟨fun _ _ _ => rfl, rfl, rfl, rfl⟩
  | .dot, _ => ⟨fun _ _ _ => rfl, rfl, rfl, rfl⟩
  | .ref nm mac as, h => by
    obtain ⟨k, rd, h1, h2, h3⟩ := link_ref h
    rw [h1]
    obtain ⟨d, hd, hm⟩ := hr k (List.getElem?_eq_some_iff.1 h2).1
    exact ⟨fun _ _ hl => hl _ (by omega), by simp [usesEnv, hd, hm], rfl, rfl⟩
  | .capScope _, h => by cases h
  | .cap _ _, h => by cases h
  | .usr _, h => by cases h
  | .bref _, h => by cases h
  | .cut, h => by cases h
  | .recov _ _ _, h => by cases h
theorem flatL_link {cfg : Cfg V} (hr : ∀ k < ds.length, ∃ d, cfg.rules[k + 1]? = some d ∧ d.isMacro = false) :
    ∀ (es : List Src), plainTextL ds es = true → FlatL cfg (Src.linkL (allOf ds) [] es)
  | [], _ => ⟨fun _ _ _ => rfl, rfl, rfl, rfl⟩
  | e :: es, h => by
    simp only [plainTextL, Bool.and_eq_true] at h
    have x := flat_link hr e h.1
    have y := flatL_link hr es h.2
    refine ⟨fun C p hl => ?_, ?_, ?_, ?_⟩
    · simp only [Src.linkL, Cert.lkAny, x.lk C p hl, y.lk C p hl, Bool.or_false]
    · simp only [Src.linkL, usesEnvList, x.env, y.env, Bool.or_false]
    · simp only [Src.linkL, Ope.bareL, x.bare, y.bare, Bool.and_true]
    · simp only [Src.linkL, Ope.noWsL, x.noWs, y.noWs, Bool.and_true]
end

/-- The rules as far as references see them. -/
structure RulesOk (ds : List RDef) (cfg : Cfg V) : Prop where
  rule : ∀ k < ds.length, ∃ d, cfg.rules[k + 1]? = some d ∧ d.isMacro = false

theorem RulesOk.macroFree {cfg : Cfg V} (h : RulesOk ds cfg) : ∀ k < ds.length, ∃ d, cfg.rules[k + 1]? = some d ∧ d.isMacro = false :=
  h.rule

mutual
/-- Rules called are rules of the text. -/
theorem leftS_rule : ∀ (e : Src), plainText ds e = true → ∀ q ∈ leftS ν e, ∃ d ∈ ds, d.name = q
  | .seq es, h => leftSeq_rule es h
  | .cho es l, h => by
    simp only [plainText, Bool.and_eq_true] at h
    exact leftAlts_rule es h.2
  | .rep e _ _, h => leftS_rule e h
  | .and_ e, h => leftS_rule e h
  | .not_ e, h => leftS_rule e h
  | .tok e, h => leftS_rule e h
  | .ign e, h => leftS_rule e h
  | .dict _ _, _ => by intro q hq; cases hq
  | .lit _ _, _ => by intro q hq; cases hq
  | .cls _, _ => by intro q hq; cases hq
  | .chr _, _ => by intro q hq; cases hq
  | .dot, _ => by intro q hq; cases hq
  | .ref nm mac as, h => by
    intro q hq
    simp only [leftS, List.mem_singleton] at hq
    subst hq
    obtain ⟨k, rd, h1, h2, h3⟩ := link_ref h
    exact ⟨rd, List.mem_of_getElem? h2, h3⟩
  | .capScope _, h => by cases h
  | .cap _ _, h => by cases h
  | .usr _, h => by cases h
  | .bref _, h => by cases h
  | .cut, h => by cases h
  | .recov _ _ _, h => by cases h
theorem leftSeq_rule : ∀ (es : List Src), plainTextL ds es = true → ∀ q ∈ leftSeq ν es, ∃ d ∈ ds, d.name = q
  | [], _ => by intro q hq; cases hq
  | e :: es, h => by
    simp only [plainTextL, Bool.and_eq_true] at h
    intro q hq
    simp only [leftSeq, List.mem_append] at hq
    rcases hq with hq | hq
    · exact leftS_rule e h.1 q hq
    · by_cases hn : nullS ν e = true
      · rw [if_pos hn] at hq; exact leftSeq_rule es h.2 q hq
      · rw [if_neg hn] at hq; cases hq
theorem leftAlts_rule : ∀ (es : List Src), plainTextL ds es = true → ∀ q ∈ leftAlts ν es, ∃ d ∈ ds, d.name = q
  | [], _ => by intro q hq; cases hq
  | e :: es, h => by
    simp only [plainTextL, Bool.and_eq_true] at h
    intro q hq
    simp only [leftAlts, List.mem_append] at hq
    rcases hq with hq | hq
    · exact leftS_rule e h.1 q hq
    · exact leftAlts_rule es h.2 q hq
end

mutual
theorem wf_link {cfg : Cfg V} (hr : RulesOk ds cfg) {ws : Bool} (hws : cfg.ws.isSome = true → ws = true) : ∀ (e : Src) (m : Mode) (b : Nat), plainText ds e = true → tidyS ν ws e = true →
    (∀ q ∈ leftS ν e, rank q < b) → (∀ x ∈ callsS m e, μ x.1 x.2 = true) →
    wf cfg (certS ds ν rank μ names) {} false m b (e.link (allOf ds) []) = true
  | .seq es, m, b, h, ht, hl, hc => by
    simp only [tidyS, Bool.and_eq_true] at ht
    exact wfSeq_link hr hws es m b h ht.2 hl hc
  | .cho es l, m, b, h, ht, hl, hc => by
    simp only [plainText, Bool.and_eq_true] at h
    have x := flatL_link hr.macroFree es h.2
    simp only [Src.link, wf, Bool.and_eq_true, Bool.or_eq_true, Bool.not_eq_true']
    exact ⟨⟨by simpa using h.1, wfAll_link hr hws es m b h.2 ht hl hc⟩, Or.inr (x.lk _ _ fun _ _ => rfl)⟩
  | .rep e mn mx, m, b, h, ht, hl, hc => by
    simp only [tidyS, Bool.and_eq_true] at ht
    simp only [Src.link, wf, Bool.and_eq_true]
    refine ⟨wf_link hr hws e m b h ht.2 hl hc, ?_⟩
    rw [nul_link _ e h]
    exact ht.1.1
  | .and_ e, m, b, h, ht, hl, hc => wf_link hr hws e m b h ht hl hc
  | .not_ e, m, b, h, ht, hl, hc => wf_link hr hws e m b h ht hl hc
  | .tok e, m, b, h, ht, hl, hc => by
    simp only [tidyS, Bool.and_eq_true] at ht
    simp only [Src.link, wf, Bool.and_eq_true, Bool.or_eq_true]
    refine ⟨wf_link hr hws e { m with tok := true } b h ht.2 hl hc, ?_⟩
    rw [nul_link _ e h]
    cases hw : cfg.ws.isSome with
    | false =>
      right
      unfold Cert.skipOk
      simp [Option.isSome_eq_false_iff.1 hw]
    | true =>
      left
      have h1 := ht.1
      rw [hws hw] at h1
      simpa using h1
  | .ign e, m, b, h, ht, hl, hc => wf_link hr hws e m b h ht hl hc
  | .dict _ _, _, _, _, _, _, _ => rfl
  | .lit s _, m, b, _, ht, _, _ => by
    simp only [tidyS, Bool.and_eq_true] at ht
    simp only [Src.link, wf, Bool.or_eq_true]
    cases hw : cfg.ws.isSome with
    | false =>
      right
      unfold Cert.skipOk
      simp [Option.isSome_eq_false_iff.1 hw]
    | true =>
      left
      have h1 := ht.2
      rw [hws hw] at h1
      simpa using h1
  | .cls _, _, _, _, _, _, _ => rfl
  | .chr _, _, _, _, _, _, _ => rfl
  | .dot, _, _, _, _, _, _ => rfl
  | .ref nm mac as, m, b, h, ht, hl, hc => by
    obtain ⟨k, rd, h1, h2, h3⟩ := link_ref h
    obtain ⟨d, hd, hm⟩ := hr.rule k (List.getElem?_eq_some_iff.1 h2).1
    rw [h1]
    have e1 := hl nm (by simp [leftS])
    have e2 := hc (nm, m) (by simp [callsS])
    simp [wf, hd, hm, certS, nameAt_succ h2, h3, e1, e2]
  | .capScope _, _, _, h, _, _, _ => by cases h
  | .cap _ _, _, _, h, _, _, _ => by cases h
  | .usr _, _, _, h, _, _, _ => by cases h
  | .bref _, _, _, h, _, _, _ => by cases h
  | .cut, _, _, h, _, _, _ => by cases h
  | .recov _ _ _, _, _, h, _, _, _ => by cases h
theorem wfSeq_link {cfg : Cfg V} (hr : RulesOk ds cfg) {ws : Bool} (hws : cfg.ws.isSome = true → ws = true) : ∀ (es : List Src) (m : Mode) (b : Nat), plainTextL ds es = true → tidySL ν ws es = true →
    (∀ q ∈ leftSeq ν es, rank q < b) → (∀ x ∈ callsSL m es, μ x.1 x.2 = true) →
    wfSeq cfg (certS ds ν rank μ names) {} false m b (Src.linkL (allOf ds) [] es) = true
  | [], _, _, _, _, _, _ => rfl
  | e :: es, m, b, h, ht, hl, hc => by
    simp only [plainTextL, Bool.and_eq_true] at h
    simp only [tidySL, Bool.and_eq_true] at ht
    simp only [leftSeq, List.mem_append] at hl
    simp only [callsSL, List.mem_append] at hc
    simp only [Src.linkL, wfSeq, Bool.and_eq_true, Bool.or_eq_true, Bool.not_eq_true']
    refine ⟨⟨wf_link hr hws e m b h.1 ht.1 (fun q hq => hl q (.inl hq)) fun x hx => hc x (.inl hx), ?_⟩, ?_⟩
    · refine wfSeq_link hr hws es m _ h.2 ht.2 (fun q hq => ?_) fun x hx => hc x (.inr hx)
      obtain ⟨d, hd, rfl⟩ := leftSeq_rule es h.2 q hq
      exact lt_topRank hd
    · rw [nul_link _ e h.1]
      cases hn : nullS ν e with
      | false => exact .inl rfl
      | true =>
        rw [hn] at hl
        exact .inr (wfSeq_link hr hws es m b h.2 ht.2 (fun q hq => hl q (.inr hq)) fun x hx => hc x (.inr hx))
theorem wfAll_link {cfg : Cfg V} (hr : RulesOk ds cfg) {ws : Bool} (hws : cfg.ws.isSome = true → ws = true) : ∀ (es : List Src) (m : Mode) (b : Nat), plainTextL ds es = true → tidySL ν ws es = true →
    (∀ q ∈ leftAlts ν es, rank q < b) → (∀ x ∈ callsSL m es, μ x.1 x.2 = true) →
    wfAll cfg (certS ds ν rank μ names) {} false m b (Src.linkL (allOf ds) [] es) = true
  | [], _, _, _, _, _, _ => rfl
  | e :: es, m, b, h, ht, hl, hc => by
    simp only [plainTextL, Bool.and_eq_true] at h
    simp only [tidySL, Bool.and_eq_true] at ht
    simp only [leftAlts, List.mem_append] at hl
    simp only [callsSL, List.mem_append] at hc
    simp only [Src.linkL, wfAll, Bool.and_eq_true]
    exact ⟨wf_link hr hws e m b h.1 ht.1 (fun q hq => hl q (.inl hq)) fun x hx => hc x (.inl hx),
      wfAll_link hr hws es m b h.2 ht.2 (fun q hq => hl q (.inr hq)) fun x hx => hc x (.inr hx)⟩
end

/-! ## First sets, span scans, keyword guards -/

/-- The certificate for the first sets. -/
def firstS : FsCert := ⟨fun r => r != 0, fun _ => true⟩

theorem firstS_leak (r : Nat) (h : r ≠ 0) : firstS.q.leak r = false := by
  simp [FsCert.q, firstS, h]

theorem link_cls {e : Src} (h : plainText ds e = true) {c : Cls} (he : e.link (allOf ds) [] = .cls c) : e = .cls c := by
  cases e with
  | cls c' => simp only [Src.link, Ope.cls.injEq] at he; rw [he]
  | ref nm mac as => obtain ⟨k, rd, h1, -⟩ := link_ref h; rw [h1] at he; cases he
  | capScope _ => cases h
  | cap _ _ => cases h
  | usr _ => cases h
  | bref _ => cases h
  | cut => cases h
  | recov _ _ _ => cases h
  | _ => simp [Src.link] at he

theorem link_rep {e : Src} (h : plainText ds e = true) {o : Ope} {mn : Nat} {mx : Option Nat} {sp : Option Cls} (he : e.link (allOf ds) [] = .rep o mn mx sp) :
    ∃ e', e = .rep e' mn mx ∧ plainText ds e' = true ∧ e'.link (allOf ds) [] = o := by
  cases e with
  | rep e' mn' mx' => simp only [Src.link, Ope.rep.injEq] at he; obtain ⟨h1, rfl, rfl, -⟩ := he; exact ⟨e', rfl, h, h1⟩
  | ref nm mac as => obtain ⟨k, rd, h1, -⟩ := link_ref h; rw [h1] at he; cases he
  | capScope _ => cases h
  | cap _ _ => cases h
  | usr _ => cases h
  | bref _ => cases h
  | cut => cases h
  | recov _ _ _ => cases h
  | _ => simp [Src.link] at he

theorem link_tok {e : Src} (h : plainText ds e = true) {o : Ope} (he : e.link (allOf ds) [] = .tok o) :
    ∃ e', e = .tok e' ∧ plainText ds e' = true ∧ e'.link (allOf ds) [] = o := by
  cases e with
  | tok e' => simp only [Src.link, Ope.tok.injEq] at he; exact ⟨e', rfl, h, he⟩
  | ref nm mac as => obtain ⟨k, rd, h1, -⟩ := link_ref h; rw [h1] at he; cases he
  | capScope _ => cases h
  | cap _ _ => cases h
  | usr _ => cases h
  | bref _ => cases h
  | cut => cases h
  | recov _ _ _ => cases h
  | _ => simp [Src.link] at he

theorem link_not {e : Src} (h : plainText ds e = true) {o : Ope} (he : e.link (allOf ds) [] = .not_ o) :
    ∃ e', e = .not_ e' ∧ plainText ds e' = true ∧ e'.link (allOf ds) [] = o := by
  cases e with
  | not_ e' => simp only [Src.link, Ope.not_.injEq] at he; exact ⟨e', rfl, h, he⟩
  | ref nm mac as => obtain ⟨k, rd, h1, -⟩ := link_ref h; rw [h1] at he; cases he
  | capScope _ => cases h
  | cap _ _ => cases h
  | usr _ => cases h
  | bref _ => cases h
  | cut => cases h
  | recov _ _ _ => cases h
  | _ => simp [Src.link] at he

theorem link_seq {e : Src} (h : plainText ds e = true) {os : List Ope} {kw : Option KwGuard} (he : e.link (allOf ds) [] = .seq os kw) :
    ∃ es, e = .seq es ∧ plainTextL ds es = true ∧ Src.linkL (allOf ds) [] es = os := by
  cases e with
  | seq es => simp only [Src.link, Ope.seq.injEq] at he; exact ⟨es, rfl, h, he.1⟩
  | ref nm mac as => obtain ⟨k, rd, h1, -⟩ := link_ref h; rw [h1] at he; cases he
  | capScope _ => cases h
  | cap _ _ => cases h
  | usr _ => cases h
  | bref _ => cases h
  | cut => cases h
  | recov _ _ _ => cases h
  | _ => simp [Src.link] at he

theorem link_isRef {e : Src} (h : plainText ds e = true) {r : Nat} {nm : List Byte} {as : List Ope} (he : e.link (allOf ds) [] = .ref r nm as) :
    ∃ nm' mac' as', e = .ref nm' mac' as' := by
  cases e with
  | ref nm mac as => exact ⟨nm, mac, as, rfl⟩
  | capScope _ => cases h
  | cap _ _ => cases h
  | usr _ => cases h
  | bref _ => cases h
  | cut => cases h
  | recov _ _ _ => cases h
  | _ => simp [Src.link] at he

theorem linkL_two {es : List Src} (h : plainTextL ds es = true) {o o' : Ope} (he : Src.linkL (allOf ds) [] es = [o, o']) :
    ∃ a b, es = [a, b] ∧ plainText ds a = true ∧ plainText ds b = true ∧ a.link (allOf ds) [] = o ∧ b.link (allOf ds) [] = o' := by
  match es, h, he with
  | [], _, he => cases he
  | [a], _, he => simp [Src.linkL] at he
  | [a, b], h, he =>
    simp only [plainTextL, Bool.and_eq_true, and_true] at h
    simp only [Src.linkL, List.cons.injEq, and_true] at he
    exact ⟨a, b, rfl, h.1, h.2, he.1, he.2⟩
  | a :: b :: c :: t, _, he => simp [Src.linkL] at he

/-- Without the shape there is no guard. -/
theorem noKw_link (rs : List Def) {es : List Src} (h : plainTextL ds es = true) (hg : guardShape es = false) : noKw rs (Src.linkL (allOf ds) [] es) = true := by
  unfold noKw
  rw [Option.isNone_iff_eq_none]
  generalize ho : Src.linkL (allOf ds) [] es = os
  unfold kwSetup
  split
  · rename_i r nm as t
    obtain ⟨a, b, rfl, ha, hb, h1, h2⟩ := linkL_two h ho
    split
    · split
      · rename_i hk
        exfalso
        unfold kwClasses at hk
        split at hk
        · obtain ⟨a', rfl, ha', h1⟩ := link_not ha h1
          obtain ⟨_, _, _, rfl⟩ := link_isRef ha' h1
          obtain ⟨b', rfl, hb', h2⟩ := link_tok hb h2
          obtain ⟨bs, rfl, hbs, h2⟩ := link_seq hb' h2
          obtain ⟨x, y, rfl, hx, hy, h3, h4⟩ := linkL_two hbs h2
          obtain rfl := link_cls hx h3
          obtain ⟨y', rfl, hy', h4⟩ := link_rep hy h4
          obtain rfl := link_cls hy' h4
          cases hg
        · cases hk
      · rfl
    · rfl
  · rfl

theorem span_link {e : Src} (h : plainText ds e = true) {mn : Nat} {mx : Option Nat} (hs : spanShape e mn mx = true) {ws : Bool} (ht : tidyS ν ws e = true) :
    spanOkB (e.link (allOf ds) []) mn mx = true := by
  unfold spanOkB
  split
  · rename_i c he
    obtain rfl := link_cls h he
    simp only [tidyS] at ht
    simp only [spanShape] at hs
    rw [ht, hs]
    simp
  · rfl

mutual
theorem safe_link {cfg : Cfg V} (hr : RulesOk ds cfg) {ws ws' : Bool} (hws : ws' = true → ws = true) : ∀ (e : Src), plainText ds e = true → tidyS ν ws e = true →
    firstS.safeO (certS ds ν rank μ names) ws' (e.link (allOf ds) []) = true
  | .seq es, h, ht => by
    simp only [tidyS, Bool.and_eq_true] at ht
    exact safeSeq_link hr hws es h ht.2
  | .cho es l, h, ht => by
    simp only [plainText, Bool.and_eq_true] at h
    exact safeAll_link hr hws es h.2 ht
  | .rep e _ _, h, ht => by
    simp only [tidyS, Bool.and_eq_true] at ht
    exact safe_link hr hws e h ht.2
  | .and_ e, h, ht => by
    simp only [Src.link, FsCert.safeO]
    rw [(flat_link hr.macroFree e h).lk _ _ firstS_leak]; rfl
  | .not_ e, h, ht => by
    simp only [Src.link, FsCert.safeO]
    rw [(flat_link hr.macroFree e h).lk _ _ firstS_leak]; rfl
  | .tok e, h, ht => by
    simp only [tidyS, Bool.and_eq_true, Bool.or_eq_true, Bool.not_eq_true'] at ht
    simp only [Src.link, FsCert.safeO, Bool.and_eq_true, Bool.or_eq_true, Bool.not_eq_true']
    refine ⟨safe_link hr hws e h ht.2, ?_⟩
    rw [nul_link _ e h]
    cases hw : ws' with
    | false => exact .inr rfl
    | true => exact .inl (ht.1.resolve_left (by rw [hws hw]; decide))
  | .ign e, h, ht => safe_link hr hws e h ht
  | .dict _ _, _, _ => rfl
  | .lit s _, _, ht => by
    simp only [tidyS, Bool.and_eq_true, Bool.or_eq_true, Bool.not_eq_true'] at ht
    simp only [Src.link, FsCert.safeO, Bool.or_eq_true, Bool.not_eq_true']
    cases hw : ws' with
    | false => exact .inr rfl
    | true => exact .inl (ht.2.resolve_left (by rw [hws hw]; decide))
  | .cls _, _, ht => ht
  | .chr _, _, _ => rfl
  | .dot, _, _ => rfl
  | .ref nm mac as, h, ht => by
    obtain ⟨k, rd, h1, h2, h3⟩ := link_ref h
    rw [h1]; rfl
  | .capScope _, h, _ => by cases h
  | .cap _ _, h, _ => by cases h
  | .usr _, h, _ => by cases h
  | .bref _, h, _ => by cases h
  | .cut, h, _ => by cases h
  | .recov _ _ _, h, _ => by cases h
theorem safeSeq_link {cfg : Cfg V} (hr : RulesOk ds cfg) {ws ws' : Bool} (hws : ws' = true → ws = true) : ∀ (es : List Src), plainTextL ds es = true → tidySL ν ws es = true →
    firstS.safeSeq (certS ds ν rank μ names) ws' (Src.linkL (allOf ds) [] es) = true
  | [], _, _ => rfl
  | e :: es, h, ht => by
    simp only [plainTextL, Bool.and_eq_true] at h
    simp only [tidySL, Bool.and_eq_true] at ht
    simp only [Src.linkL, FsCert.safeSeq, safe_link hr hws e h.1 ht.1, safeSeq_link hr hws es h.2 ht.2, Bool.or_true, Bool.and_true]
theorem safeAll_link {cfg : Cfg V} (hr : RulesOk ds cfg) {ws ws' : Bool} (hws : ws' = true → ws = true) : ∀ (es : List Src), plainTextL ds es = true → tidySL ν ws es = true →
    firstS.safeAll (certS ds ν rank μ names) ws' (Src.linkL (allOf ds) [] es) = true
  | [], _, _ => rfl
  | e :: es, h, ht => by
    simp only [plainTextL, Bool.and_eq_true] at h
    simp only [tidySL, Bool.and_eq_true] at ht
    simp only [Src.linkL, FsCert.safeAll, safe_link hr hws e h.1 ht.1, safeAll_link hr hws es h.2 ht.2, Bool.and_true]
end

mutual
theorem ok_link {cfg : Cfg V} (hr : RulesOk ds cfg) {ws ws' : Bool} (hws : ws' = true → ws = true) (rs : List Def) : ∀ (e : Src), plainText ds e = true → tidyS ν ws e = true →
    firstS.okO (certS ds ν rank μ names) ws' (noKw rs) (e.link (allOf ds) []) = true ∧ (e.link (allOf ds) []).litsO = true
  | .seq es, h, ht => by
    simp only [tidyS, Bool.and_eq_true, Bool.not_eq_true'] at ht
    have x := okL_link hr hws rs es h ht.2
    exact ⟨by simp only [Src.link, FsCert.okO, noKw_link rs h ht.1, x.1, Bool.and_true], x.2.1⟩
  | .cho es l, h, ht => by
    simp only [plainText, Bool.and_eq_true] at h
    have x := okL_link hr hws rs es h.2 ht
    exact ⟨by simp only [Src.link, FsCert.okO, x.1, x.2.2, Bool.and_true], x.2.1⟩
  | .rep e mn mx, h, ht => by
    simp only [tidyS, Bool.and_eq_true] at ht
    have x := ok_link hr hws rs e h ht.2
    have y := span_link (ds := ds) (ν := ν) (ws := ws) (e := e) h ht.1.2 ht.2
    exact ⟨by simp only [Src.link, FsCert.okO, x.1, y, Bool.and_true], x.2⟩
  | .and_ e, h, ht => ok_link hr hws rs e h ht
  | .not_ e, h, ht => ok_link hr hws rs e h ht
  | .tok e, h, ht => by
    simp only [tidyS, Bool.and_eq_true] at ht
    exact ok_link hr hws rs e h ht.2
  | .ign e, h, ht => ok_link hr hws rs e h ht
  | .dict _ _, _, ht => ⟨rfl, ht⟩
  | .lit s _, _, ht => by
    simp only [tidyS, Bool.and_eq_true] at ht
    exact ⟨rfl, ht.1⟩
  | .cls _, _, ht => ⟨rfl, rfl⟩
  | .chr _, _, _ => ⟨rfl, rfl⟩
  | .dot, _, _ => ⟨rfl, rfl⟩
  | .ref nm mac as, h, ht => by
    obtain ⟨k, rd, h1, h2, h3⟩ := link_ref h
    rw [h1]; exact ⟨rfl, rfl⟩
  | .capScope _, h, _ => by cases h
  | .cap _ _, h, _ => by cases h
  | .usr _, h, _ => by cases h
  | .bref _, h, _ => by cases h
  | .cut, h, _ => by cases h
  | .recov _ _ _, h, _ => by cases h
theorem okL_link {cfg : Cfg V} (hr : RulesOk ds cfg) {ws ws' : Bool} (hws : ws' = true → ws = true) (rs : List Def) : ∀ (es : List Src), plainTextL ds es = true → tidySL ν ws es = true →
    firstS.okL (certS ds ν rank μ names) ws' (noKw rs) (Src.linkL (allOf ds) [] es) = true ∧ Ope.litsL (Src.linkL (allOf ds) [] es) = true ∧
      (Src.linkL (allOf ds) [] es).all (fun e => e.emptyO || firstS.safeO (certS ds ν rank μ names) ws' e) = true
  | [], _, _ => ⟨rfl, rfl, rfl⟩
  | e :: es, h, ht => by
    simp only [plainTextL, Bool.and_eq_true] at h
    simp only [tidySL, Bool.and_eq_true] at ht
    have x := ok_link hr hws rs e h.1 ht.1
    have y := okL_link hr hws rs es h.2 ht.2
    refine ⟨by simp only [Src.linkL, FsCert.okL, x.1, y.1, Bool.and_true], by simp only [Src.linkL, Ope.litsL, x.2, y.2.1, Bool.and_true], ?_⟩
    simp only [Src.linkL, List.all_cons, y.2.2, safe_link hr hws e h.1 ht.1, Bool.or_true, Bool.and_true]
end


/-! ## The certificate is right -/

theorem mode_or (m : Mode) (b : Bool) (h : b = false) : { m with tok := m.tok || b } = m := by
  rw [h, Bool.or_false]

theorem mode_true (m : Mode) (b : Bool) (h : b = true) : { m with tok := m.tok || b } = { m with tok := true } := by
  rw [h, Bool.or_true]

theorem flat_noPrec {o : Ope} (h : o.bare = true) : o.isPrec = false ∧ o.noPrec = true ∧ o.bareR = true := by
  refine ⟨?_, Ope.noPrec_of_bare o h, ?_⟩ <;> cases o <;> first | rfl | exact h | cases h

theorem textRules_recover (ds : List RDef) : ∃ d, (textRules ds)[0]? = some d ∧ d.isMacro = true ∧ d.isLR = false ∧ d.ope = .param 0 "x".toUTF8.toList ∧
    d.params.length = 1 := by
  have h : (linkAll (allOf ds))[0]? = some { recoverDef.head with ope := .param 0 "x".toUTF8.toList, isToken := recoverDef.body.isTok, errLit := recoverDef.body.litTok } := by
    have := linkAll_get (show (allOf ds)[0]? = some recoverDef from rfl)
    rw [this, show Src.link (allOf ds) recoverDef.head.params recoverDef.body = .param 0 "x".toUTF8.toList by simp [recoverDef, Src.link, paramIdx, List.findIdx?_cons]]
  have e : textRules ds = if (ruleNamed (allOf ds) whitespaceName).isSome = true then ((linkAll (allOf ds)).mapIdx fun r d => { d with isLR := lrAt ds r }).map tokLit
      else (linkAll (allOf ds)).mapIdx fun r d => { d with isLR := lrAt ds r } := rfl
  rw [e]
  split
  · rw [List.getElem?_map, List.getElem?_mapIdx, h]
    exact ⟨_, rfl, rfl, rfl, rfl, rfl⟩
  · rw [List.getElem?_mapIdx, h]
    exact ⟨_, rfl, rfl, rfl, rfl, rfl⟩

theorem textRules_length (ds : List RDef) : (textRules ds).length = ds.length + 1 := textRules_len ds

/-- What the conditions on a text say of the expression of a rule. -/
theorem RulesWf.tidyTok (hw : RulesWf ds ν rank μ) {rd : RDef} (hm : rd ∈ ds) :
    tidyS ν (ruleOf ds whitespaceName).isSome (litTok ds rd) = true ∧
      (rd.instrs.any isNoWs = true → (ruleOf ds whitespaceName).isSome = true → nullS ν (litTok ds rd) = false) := by
  have h := hw.tidy rd hm
  unfold meaning at h
  cases hn : rd.instrs.any isNoWs with
  | false =>
    rw [hn] at h
    exact ⟨h, fun e => by cases e⟩
  | true =>
    rw [hn, if_pos rfl] at h
    simp only [tidyS, Bool.and_eq_true, Bool.or_eq_true, Bool.not_eq_true'] at h
    refine ⟨h.2, fun _ e => ?_⟩
    rcases h.1 with h1 | h1
    · rw [e] at h1; cases h1
    · exact h1

theorem null_meaning (rd : RDef) : nullS ν (meaning ds rd) = nullS ν (litTok ds rd) := by
  unfold meaning; split <;> rfl

theorem left_meaning (rd : RDef) : leftS ν (meaning ds rd) = leftS ν (litTok ds rd) := by
  unfold meaning; split <;> rfl

theorem calls_meaning (rd : RDef) (m : Mode) : callsS m (meaning ds rd) = callsS { m with tok := m.tok || rd.instrs.any isNoWs } (litTok ds rd) := by
  unfold meaning
  cases hn : rd.instrs.any isNoWs with
  | false => rw [mode_or _ _ rfl]; rfl
  | true => rw [mode_true _ _ rfl]; rfl

/-! ### The parts of a left-recursive rule -/

theorem ownRest_tidy {nm : List Byte} {e : Src} {r : List Src} (h : ownRest nm e = some r) {ws : Bool} (ht : tidyS ν ws e = true) : tidySL ν ws r = true := by
  unfold ownRest at h
  split at h
  · split at h
    · cases h
      simp only [tidyS, tidySL, Bool.and_eq_true] at ht
      exact ht.2.2
    · cases h
  · cases h

theorem ownRest_calls {nm : List Byte} {e : Src} {r : List Src} (h : ownRest nm e = some r) (m : Mode) : ∀ x ∈ callsSL m r, x ∈ callsS m e := by
  unfold ownRest at h
  split at h
  · split at h
    · cases h
      intro x hx
      simp only [callsS, callsSL, List.mem_append]
      exact .inr hx
    · cases h
  · cases h

theorem lrAlts_parts {nm : List Byte} {ws : Bool} : ∀ (es : List Src), tidySL ν ws es = true →
    (∀ r ∈ (lrAlts nm es).1, tidySL ν ws r = true ∧ ∀ m, ∀ x ∈ callsSL m r, x ∈ callsSL m es) ∧
    tidySL ν ws (lrAlts nm es).2 = true ∧ ∀ m, ∀ x ∈ callsSL m (lrAlts nm es).2, x ∈ callsSL m es
  | [], _ => ⟨(fun r hr => by cases hr), rfl, (fun _ x hx => hx)⟩
  | e :: es, ht => by
    have ht' := ht
    simp only [tidySL, Bool.and_eq_true] at ht
    unfold lrAlts
    cases ho : ownRest nm e with
    | none => exact ⟨(fun r hr => by cases hr), ht', (fun _ x hx => hx)⟩
    | some r =>
      obtain ⟨i1, i2, i3⟩ := lrAlts_parts (nm := nm) es ht.2
      refine ⟨fun r' hr => ?_, i2, fun m x hx => ?_⟩
      · rcases List.mem_cons.1 hr with rfl | hr
        · refine ⟨ownRest_tidy ho ht.1, fun m x hx => ?_⟩
          simp only [callsSL, List.mem_append]
          exact .inl (ownRest_calls ho m x hx)
        · refine ⟨(i1 r' hr).1, fun m x hx => ?_⟩
          simp only [callsSL, List.mem_append]
          exact .inr ((i1 r' hr).2 m x hx)
      · simp only [callsSL, List.mem_append]
        exact .inr (i3 m x hx)

theorem lrParts_inv {d : RDef} {p : List (List Src) × List Src} (h : lrParts d = some p) : ∃ es, d.body = .cho es false ∧ p = lrAlts d.name es := by
  unfold lrParts at h
  split at h
  · rename_i es hb
    split at h
    · cases h
    · cases h; exact ⟨es, hb, rfl⟩
  · cases h

theorem isLiteral_own {nm : List Byte} {e : Src} {r : List Src} (h : ownRest nm e = some r) : isLiteral e = false := by
  unfold ownRest at h
  split at h
  · rfl
  · cases h

/-- A left-recursive rule is not a literal. -/
theorem lrParts_litTok {d : RDef} {p : List (List Src) × List Src} (h : lrParts d = some p) : litTok ds d = d.body := by
  unfold litTok
  have : isLiteral d.body = false := by
    unfold lrParts at h
    split at h
    · rename_i es hb
      split at h
      · cases h
      · rename_i hne
        rw [hb]
        cases es with
        | nil => simp [lrAlts] at hne
        | cons e es =>
          unfold lrAlts at hne
          cases ho : ownRest d.name e with
          | none => rw [ho] at hne; simp at hne
          | some r => simp [isLiteral, areLiterals, isLiteral_own ho]
    · cases h
  rw [this, Bool.and_false]
  rfl

theorem linkL_seqs (as : List (List Src)) : Src.linkL (allOf ds) [] (as.map .seq) = as.map fun a => .seq (Src.linkL (allOf ds) [] a) none := by
  induction as with
  | nil => rfl
  | cons a as ih => simp only [List.map_cons, Src.linkL, ih]; rfl

theorem plainL_seqs {as : List (List Src)} (h : plainTextL ds (as.map .seq) = true) : ∀ a ∈ as, plainTextL ds a = true := by
  induction as with
  | nil => intro a ha; cases ha
  | cons x as ih =>
    simp only [List.map_cons, plainTextL, Bool.and_eq_true] at h
    intro a ha
    rcases List.mem_cons.1 ha with rfl | ha
    · exact h.1
    · exact ih h.2 a ha

theorem map_seq_inj : ∀ {as bs : List (List Ope)}, as.map (Ope.seq · none) = bs.map (Ope.seq · none) → as = bs
  | [], [], _ => rfl
  | [], _ :: _, h => by cases h
  | _ :: _, [], h => by cases h
  | a :: as, b :: bs, h => by
    simp only [List.map_cons, List.cons.injEq, Ope.seq.injEq, and_true] at h
    rw [h.1, map_seq_inj h.2]

/-- The first alternatives have no guards. -/
theorem unguarded_link (es : List Src) (hp : plainTextL ds es = true) : ∀ e ∈ Src.linkL (allOf ds) [] es, e.unguarded = true := by
  induction es with
  | nil => intro e he; cases he
  | cons s es ih =>
    simp only [plainTextL, Bool.and_eq_true] at hp
    intro e he
    rcases List.mem_cons.1 he with rfl | he
    · have := linkV s hp.1
      generalize s.link (allOf ds) [] = o at this
      cases this with
      | one _ _ f h1 h2 => cases o <;> first | rfl | cases h2
      | _ => rfl
    · exact ih hp.2 e he

/-- The certificate of a left-recursive rule. -/
theorem lrOk_text {cfg : Cfg V} (hr : RulesOk ds cfg) (hws : cfg.ws.isSome = true → (ruleOf ds whitespaceName).isSome = true) (hq : ∀ r, cfg.predicate r = none) (hd : (ds.map (·.name)).Nodup)
    (hw : RulesWf ds ν rank μ) {k : Nat} {rd : RDef} (hk : ds[k]? = some rd) (hp : plainText ds rd.body = true)
    {p : List (List Src) × List Src} (hlr : lrParts rd = some p) {d : Def} (ho : d.ope = (litTok ds rd).link (allOf ds) [])
    (hm : d.isMacro = false) (hn : d.noWs = rd.instrs.any isNoWs) {m : Mode} (hmo : μ rd.name m = true) :
    (certS ds ν rank μ names).lrOk cfg m (k + 1) d = true := by
  have hmem := List.mem_of_getElem? hk
  obtain ⟨l1, l2, l3⟩ := hw.leftRec rd hmem (by rw [hlr]; rfl)
  obtain ⟨es, hb, rfl⟩ := lrParts_inv hlr
  have ho' : d.ope = .cho (Src.linkL (allOf ds) [] es) false [] := by rw [ho, lrParts_litTok hlr, hb]; rfl
  obtain ⟨e1, e2, e3, e4⟩ := lrParts_link hd hk hp hlr (by rw [← ho, ho'])
  rw [linkL_seqs] at e1
  have e1 : (lrSplit (k + 1) (Src.linkL (allOf ds) [] es)).1 = (lrAlts rd.name es).1.map (Src.linkL (allOf ds) []) :=
    map_seq_inj (by rw [e1, List.map_map]; rfl)
  rw [hb] at hp
  simp only [plainText, Bool.and_eq_true] at hp
  have ht : tidySL ν (ruleOf ds whitespaceName).isSome es = true := by
    have := hw.tidy rd hmem
    unfold meaning at this
    rw [l2, lrParts_litTok hlr, hb] at this
    exact this
  have hcalls : ∀ x ∈ callsSL m es, μ x.1 x.2 = true := by
    have := hw.modeRule rd hmem m hmo
    unfold meaning at this
    rw [l2, lrParts_litTok hlr, hb] at this
    exact this
  have hleft : ∀ q ∈ leftAlts ν (lrAlts rd.name es).2, rank q < rank rd.name := by
    have := hw.left rd hmem
    unfold leftD at this
    rw [hlr] at this
    exact this
  obtain ⟨t1, t2, t3⟩ := lrAlts_parts (ν := ν) (nm := rd.name) es ht
  have hrank : (certS ds ν rank μ names).rank (k + 1) = rank rd.name := by
    show (if k + 1 = 0 then 1 else rank (nameAt ds (k + 1))) = _
    rw [if_neg (by omega), nameAt_succ hk]
  have hnull : (certS ds ν rank μ names).null (k + 1) = false := by
    show ((k + 1 != 0) && ν (nameAt ds (k + 1))) = _
    rw [nameAt_succ hk, l1, Bool.and_false]
  unfold Cert.lrOk
  rw [ho']
  simp only [hq, hn, l2, hm, hnull, e1, e2, hrank, Bool.and_eq_true, List.all_eq_true, Bool.not_eq_true', Bool.or_eq_true]
  refine ⟨⟨⟨⟨⟨⟨⟨⟨⟨⟨rfl, trivial⟩, trivial⟩, trivial⟩, rfl⟩, trivial⟩, ?_⟩, ?_⟩, ?_⟩, ?_⟩, ?_⟩
  · intro e he
    exact unguarded_link es hp.2 e (List.mem_of_mem_take he)
  · exact wfAll_link hr hws _ m _ e4 t2 hleft fun x hx => hcalls x (t3 m x hx)
  · intro x hx
    obtain ⟨a, ha, rfl⟩ := List.mem_map.1 hx
    have hpa := plainL_seqs e3 a ha
    refine wfSeq_link hr hws a m _ hpa (t1 a ha).1 (fun q hq => ?_) fun x hx => hcalls x ((t1 a ha).2 m x hx)
    obtain ⟨d, hd, rfl⟩ := leftSeq_rule a hpa q hq
    exact lt_topRank hd
  · exact .inr ((flatL_link hr.macroFree es hp.2).lk _ _ fun _ _ => rfl)
  · intro m' _
    have : (certS ds ν rank μ names).modes (k + 1) m' = μ rd.name m' := by
      show (if k + 1 = 0 then (m' == ({} : Mode)) else μ (nameAt ds (k + 1)) m') = _
      rw [if_neg (by omega), nameAt_succ hk]
    rw [this]
    cases hm' : μ rd.name m' with
    | false => exact .inl rfl
    | true => exact .inr (by rw [l3 m' m hm' hmo]; simp)

/-- Certificates exist for well-formed texts.  `skips`: with white space. -/
theorem tested_text (hF : Fragment ds) (hnd : (ds.map (·.name)).Nodup) (hp : ∀ rd ∈ ds, plainText ds rd.body = true) (hw : RulesWf ds ν rank μ) (skips : Bool)
    (hmw : skips = true → ∀ d, ruleOf ds whitespaceName = some d → ∀ x ∈ callsS ⟨false, true⟩ (litTok ds d), μ x.1 x.2 = true)
    (cfg : Cfg V) (m : Nat → Bool) (hq : ∀ r, cfg.predicate r = none) (wordR : Option Nat)
    (hn : cfg.packrat = true → Numbered (cfg.withRules (if skips then ruleNamed (allOf ds) whitespaceName else none) wordR (reflag m (textRules ds))))
    (h1 : cfg.packrat = true → ∀ nm m m', μ nm m = true → μ nm m' = true → m = m') :
    Tested (cfg.withRules (if skips then ruleNamed (allOf ds) whitespaceName else none) wordR (reflag m (textRules ds))) (certS ds ν rank μ (allParams (textRules ds))) firstS
      (noKw (textRules ds)) := by
  have hwsE : (cfg.withRules (if skips then ruleNamed (allOf ds) whitespaceName else none) wordR (reflag m (textRules ds))).ws =
      if skips then (ruleOf ds whitespaceName).map fun rd => .ws (.ign ((litTok ds rd).link (allOf ds) [])) else none := by
    cases skips with
    | false => rfl
    | true => exact (madeOf hF hnd hp m cfg hq).ws
  generalize hcfg : cfg.withRules (if skips then ruleNamed (allOf ds) whitespaceName else none) wordR (reflag m (textRules ds)) = cfg' at hn hwsE ⊢
  have hrules : cfg'.rules = reflag m (textRules ds) := by rw [← hcfg]; rfl
  have hq' : ∀ r, cfg'.predicate r = none := by rw [← hcfg]; exact hq
  have hpack : cfg'.packrat = cfg.packrat := by rw [← hcfg]; rfl
  have hws : cfg'.ws.isSome = true → (ruleOf ds whitespaceName).isSome = true := by
    rw [hwsE]
    cases skips with
    | false => intro h; cases h
    | true => rw [if_pos rfl, Option.isSome_map]; exact id
  have hR : RulesOk ds cfg' := by
    refine ⟨fun k hk => ?_⟩
    obtain ⟨d, k1, -, k3, -⟩ := textRules_get hF hp (List.getElem?_eq_getElem hk)
    exact ⟨{ d with hasMacroRef := m (k + 1) }, by rw [hrules, reflag_get, k1]; rfl, k3⟩
  have hcase : ∀ (r : Nat) (d : Def), cfg'.rules[r]? = some d →
      (r = 0 ∧ d.isMacro = true ∧ d.isLR = false ∧ d.ope = .param 0 "x".toUTF8.toList ∧ d.params.length = 1) ∨
      ∃ k rd, r = k + 1 ∧ ds[k]? = some rd ∧ d.ope = (litTok ds rd).link (allOf ds) [] ∧ d.isMacro = false ∧ d.isLR = (lrParts rd).isSome ∧ d.noWs = rd.instrs.any isNoWs := by
    intro r d hd
    rw [hrules, reflag_get] at hd
    cases r with
    | zero =>
      obtain ⟨d0, k1, k2⟩ := textRules_recover ds
      rw [k1] at hd
      cases hd
      exact .inl ⟨rfl, k2⟩
    | succ k =>
      have hk : k < ds.length := by
        rcases Nat.lt_or_ge k ds.length with h | h
        · exact h
        · rw [List.getElem?_eq_none (by rw [textRules_length]; omega)] at hd; cases hd
      obtain ⟨d0, k1, k2⟩ := textRules_get hF hp (List.getElem?_eq_getElem hk)
      rw [k1] at hd
      cases hd
      exact .inr ⟨k, _, rfl, List.getElem?_eq_getElem hk, k2⟩
  have hparams : ∀ (r : Nat) (d : Def), cfg'.rules[r]? = some d → d.params.all ((allParams (textRules ds)).contains ·) = true := by
    intro r d hd
    rw [hrules, reflag_get, Option.map_eq_some_iff] at hd
    obtain ⟨d0, k1, k2⟩ := hd
    subst k2
    rw [List.all_eq_true]
    intro q hq
    rw [List.contains_iff_mem]
    exact List.mem_flatMap.2 ⟨d0, List.mem_of_getElem? k1, hq⟩
  have hskip : ∀ (m : Mode) (b : Nat), cfg'.ws.isSome = false → (certS ds ν rank μ (allParams (textRules ds))).skipOk cfg' m b = true := by
    intro m b e
    unfold Cert.skipOk
    simp [Option.isSome_eq_false_iff.1 e]
  have hflat : ∀ rd ∈ ds, Flat cfg' ((litTok ds rd).link (allOf ds) []) := fun rd hm => flat_link hR.macroFree _ (litTok_plain (hp rd hm))
  have hfirst : firstS.check (certS ds ν rank μ (allParams (textRules ds))) cfg' (noKw (textRules ds)) = true := by
    unfold FsCert.check
    simp only [Bool.and_eq_true, List.all_eq_true]
    refine ⟨fun x hx => ?_, ?_⟩
    · obtain ⟨d, r⟩ := x
      have hd := List.mem_zipIdx_iff_getElem?.mp hx
      rcases hcase r d hd with ⟨rfl, k1, k2, k3, k4⟩ | ⟨k, rd, rfl, k1, k2, k3, k4, k5⟩
      · simp only [k3, k1]
        refine ⟨⟨⟨⟨⟨⟨rfl, rfl⟩, rfl⟩, rfl⟩, rfl⟩, rfl⟩, rfl⟩
      · have hm := List.mem_of_getElem? k1
        have hpl := litTok_plain (hp rd hm)
        have hf := hflat rd hm
        obtain ⟨t1, t2⟩ := hw.tidyTok hm
        obtain ⟨o1, o2⟩ := ok_link (ν := ν) (rank := rank) (μ := μ) (names := allParams (textRules ds)) hR (ws' := cfg'.ws.isSome) hws (textRules ds) _ hpl t1
        simp only [k2, k5, k3]
        refine ⟨⟨⟨⟨⟨⟨(flat_noPrec hf.bare).2.2, hf.noWs⟩, o2⟩, o1⟩, ?_⟩, ?_⟩, ?_⟩
        · obtain ⟨mo, hmo⟩ := hw.modeUsed rd hm
          rw [List.any_eq_true]
          refine ⟨mo, mem_allModes mo, ?_⟩
          show (if k + 1 = 0 then (mo == ({} : Mode)) else μ (nameAt ds (k + 1)) mo) = true
          rw [if_neg (by omega), nameAt_succ k1]; exact hmo
        · rw [hf.lk firstS.q true firstS_leak]; rfl
        · rw [Bool.or_eq_true, Bool.and_eq_true]
          refine .inr ⟨safe_link hR hws _ hpl t1, ?_⟩
          rw [nul_link _ _ hpl]
          cases hnw : rd.instrs.any isNoWs with
          | false => rfl
          | true =>
            cases hs : cfg'.ws.isSome with
            | false => simp [Option.isSome_eq_false_iff.1 hs]
            | true => rw [t2 hnw (hws hs)]; rfl
    · rw [hwsE]
      cases skips with
      | false => rfl
      | true =>
      rw [if_pos rfl]
      cases hr : ruleOf ds whitespaceName with
      | none => rfl
      | some rd =>
        have := (hflat rd (List.mem_of_find?_eq_some hr)).lk firstS.q true firstS_leak
        simp only [Option.map_some, Option.all_some, Bool.not_eq_true']
        exact this
  refine ⟨?_, hfirst⟩
  unfold Cert.check
  simp only [Bool.and_eq_true, List.all_eq_true]
  refine ⟨⟨fun x hx => ?_, ?_⟩, ?_⟩
  · obtain ⟨d, r⟩ := x
    have hd := List.mem_zipIdx_iff_getElem?.mp hx
    have hpar := hparams r d hd
    unfold Cert.ruleOk
    rcases hcase r d hd with ⟨rfl, k1, k2, k3, k4⟩ | ⟨k, rd, rfl, k1, k2, k3, k4, k5⟩
    · have hctx : (certS ds ν rank μ (allParams (textRules ds))).ctx 0 d = ⟨d.params, 0, false, false, fun _ => true⟩ := by
        unfold Cert.ctx; rw [k1]; rfl
      simp only [hctx, k1, k3]
      simp [wf, certS, k4, Cert.nul, Cert.lk, allModes, Ope.noPrec]
      exact fun q hq => by
        rw [List.all_eq_true] at hpar
        exact List.contains_iff_mem.1 (hpar q hq)
    · have hm := List.mem_of_getElem? k1
      have hpl := litTok_plain (hp rd hm)
      have hf := hflat rd hm
      obtain ⟨t1, t2⟩ := hw.tidyTok hm
      have hctx : (certS ds ν rank μ (allParams (textRules ds))).ctx (k + 1) d = {} := by
        unfold Cert.ctx; rw [k3]; rfl
      obtain ⟨p1, p2, p3⟩ := flat_noPrec hf.bare
      have hcm : ∀ mo, (certS ds ν rank μ (allParams (textRules ds))).modes (k + 1) mo = μ rd.name mo := by
        intro mo
        show (if k + 1 = 0 then (mo == ({} : Mode)) else μ (nameAt ds (k + 1)) mo) = _
        rw [if_neg (by omega), nameAt_succ k1]
      have hcn : (certS ds ν rank μ (allParams (textRules ds))).null (k + 1) = ν rd.name := by
        show ((k + 1 != 0) && ν (nameAt ds (k + 1))) = _
        rw [nameAt_succ k1]; simp
      have hcr : (certS ds ν rank μ (allParams (textRules ds))).rank (k + 1) = rank rd.name := by
        show (if k + 1 = 0 then 1 else rank (nameAt ds (k + 1))) = _
        rw [if_neg (by omega), nameAt_succ k1]
      have hpar' : d.params.all ((certS ds ν rank μ (allParams (textRules ds))).names.contains ·) = true := hpar
      simp only [hctx, k2, k3, k4, k5, hpar', p1, p2, hf.env, nul_link _ _ hpl, hf.lk (certS ds ν rank μ (allParams (textRules ds))) _ (fun _ _ => rfl), hcm, hcn, hcr,
        Bool.and_true, Bool.not_false, Bool.or_true, Bool.true_or, Bool.and_eq_true, Bool.false_eq_true, if_false, List.all_eq_true, Bool.or_eq_true, Bool.not_eq_true']
      refine ⟨fun mo _ => ?_, ?_⟩
      · cases hmo : μ rd.name mo with
        | false => exact .inl rfl
        | true =>
          cases hlr : lrParts rd with
          | some p =>
            exact .inr (lrOk_text hR hws hq' hnd hw k1 (hp rd hm) hlr k2 k3 k5 hmo)
          | none =>
            have hleft := hw.left rd hm
            unfold leftD at hleft
            rw [hlr] at hleft
            have hleft : ∀ q ∈ leftS ν (meaning ds rd), rank q < rank rd.name := hleft
            refine .inr ?_
            rw [if_neg (by simp)]
            simp only [Bool.and_eq_true, Bool.or_eq_true, Bool.not_eq_true']
            refine ⟨wf_link hR hws _ _ _ hpl t1 (by rw [← left_meaning]; exact hleft) (by rw [← calls_meaning]; exact hw.modeRule rd hm mo hmo), ?_⟩
            cases hnw : rd.instrs.any isNoWs with
            | false => exact .inl rfl
            | true =>
              cases hs : cfg'.ws.isSome with
              | false => exact .inr (hskip _ _ hs)
              | true => rw [t2 hnw (hws hs)]; exact .inl rfl
      · cases hnl : nullS ν (litTok ds rd) with
        | false => exact .inl rfl
        | true => exact .inr (hw.null rd hm (by rw [null_meaning]; exact hnl))
  · unfold Cert.wsOk
    rw [hwsE]
    cases skips with
    | false => rfl
    | true =>
    rw [if_pos rfl]
    cases hr : ruleOf ds whitespaceName with
    | none => rfl
    | some rd =>
      have hm := List.mem_of_find?_eq_some hr
      have hpl := litTok_plain (hp rd hm)
      have hf := hflat rd hm
      obtain ⟨t1, t2⟩ := hw.tidyTok hm
      have hwf : wf cfg' (certS ds ν rank μ (allParams (textRules ds))) {} false ⟨false, true⟩ (topRank ds rank) ((litTok ds rd).link (allOf ds) []) = true := by
        refine wf_link hR hws _ _ _ hpl t1 (fun q hq => ?_) (hmw rfl rd hr)
        obtain ⟨d, hd, rfl⟩ := leftS_rule _ hpl q hq
        exact lt_topRank hd
      show (wf cfg' _ {} false ⟨false, true⟩ (topRank ds rank) (.ign _) && _ && _ && _) = true
      simp only [wf, Cert.lk, usesEnv, Ope.noPrec, hwf, hf.env, (flat_noPrec hf.bare).2.1, hf.lk (certS ds ν rank μ (allParams (textRules ds))) _ (fun _ _ => rfl)]
      rfl
  · cases hpk : cfg.packrat with
    | false => unfold Cert.packOk; rw [hpack, hpk]; rfl
    | true =>
      refine (hn hpk).packOk (fun _ => rfl) (fun r m m' e e' => ?_)
      by_cases h0 : r = 0
      · have e1 : (m == ({} : Mode)) = true := by
          have e : (if r = 0 then m == ({} : Mode) else μ (nameAt ds r) m) = true := e
          rwa [if_pos h0] at e
        have e2 : (m' == ({} : Mode)) = true := by
          have e : (if r = 0 then m' == ({} : Mode) else μ (nameAt ds r) m') = true := e'
          rwa [if_pos h0] at e
        exact (eq_of_beq e1).trans (eq_of_beq e2).symm
      · have e1 : (if r = 0 then m == ({} : Mode) else μ (nameAt ds r) m) = true := e
        have e2 : (if r = 0 then m' == ({} : Mode) else μ (nameAt ds r) m') = true := e'
        rw [if_neg h0] at e1 e2
        exact h1 hpk _ m m' e1 e2

end
end Verif.Meta
