import Verif.Spec
import Verif.Parses
/-!
# Certificates of well-formed grammars

A certificate assigns to each rule a rank (a rule may call at its own position only rules of smaller rank), whether it may
succeed without consuming input, whether it may leave a cut behind, and in which modes it is called; and the same for the
arguments of each macro.  `wf` checks an expression against a certificate; it is a computable test.

The annotations the program computes in advance (first sets, keyword guards, span scans) are covered by `nodeOk`: they must
agree with the reference semantics.
-/

namespace Verif
open CharClass

structure Cert where
  /-- rule `r` calls, at the position where it starts, only rules of smaller rank -/
  rank : Nat → Nat
  null : Nat → Bool
  leak : Nat → Bool
  modes : Nat → Mode → Bool := fun _ _ => true
  /-- bound on the ranks of rules an argument of macro `r` calls at its start -/
  abound : Nat → Nat := fun _ => 0
  anull : Nat → Bool := fun _ => true
  aleak : Nat → Bool := fun _ => true
  amodes : Nat → Mode → Bool := fun _ _ => true
  wsBound : Nat := 0
  top : Nat
  /-- does the input contain positions where no character can be decoded? -/
  malformed : Bool := true
  /-- all macro parameter names of the grammar -/
  names : List (List Byte) := []
  /-- the grammar has no captures -/
  capless : Bool := false

/-- What is known about the macro arguments in scope. -/
structure MCtx where
  params : List (List Byte) := []
  bound : Nat := 0
  null : Bool := false
  leak : Bool := false
  modes : Mode → Bool := fun _ => false

def Cert.ctx (C : Cert) (r : Nat) (d : Def) : MCtx :=
  if d.isMacro then ⟨d.params, C.abound r, C.anull r, C.aleak r, C.amodes r⟩ else {}

mutual
/-- May the expression succeed without consuming input? -/
def Cert.nul (C : Cert) (p : Bool) : Ope → Bool
  | .seq es _ => C.nulAll p es
  | .cho es _ _ => C.nulAny p es
  | .rep e mn _ _ => mn == 0 || C.nul p e
  | .dict .. => false
  | .lit t _ => t.isEmpty
  | .cls c => C.malformed && (c.ranges.any (inRange c.ignoreCase · 0) != c.negated)
  | .chr c => C.malformed && c == 0
  | .dot => false
  | .capScope e => C.nul p e
  | .cap _ e => C.nul p e
  | .tok e => C.nul p e
  | .ign e => C.nul p e
  | .ref r _ _ => C.null r
  | .param .. => p
  | .prec a _ _ _ => C.nul p a
  | _ => true

def Cert.nulAll (C : Cert) (p : Bool) : List Ope → Bool
  | [] => true
  | e :: es => C.nul p e && C.nulAll p es

def Cert.nulAny (C : Cert) (p : Bool) : List Ope → Bool
  | [] => false
  | e :: es => C.nul p e || C.nulAny p es
end

mutual
/-- May the expression leave a cut for the enclosing choice? -/
def Cert.lk (C : Cert) (p : Bool) : Ope → Bool
  | .seq es _ => C.lkAny p es
  | .rep e _ _ _ => C.lk p e
  | .and_ e => C.lk p e
  | .not_ e => C.lk p e
  | .capScope e => C.lk p e
  | .cap _ e => C.lk p e
  | .tok e => C.lk p e
  | .ign e => C.lk p e
  | .ws e => C.lk p e
  | .ref r _ _ => C.leak r
  | .param .. => p
  | .prec a b _ _ => C.lk p a || C.lk p b
  | .cut => true
  | _ => false

def Cert.lkAny (C : Cert) (p : Bool) : List Ope → Bool
  | [] => false
  | e :: es => C.lk p e || C.lkAny p es
end

variable {V : Type}

/-- White space skipped at the same position is harmless. -/
def Cert.skipOk (C : Cert) (cfg : Cfg V) (m : Mode) (b : Nat) : Bool :=
  m.tok || m.ws || cfg.ws.isNone || decide (C.wsBound < b)

def allModes : List Mode := [⟨false, false⟩, ⟨false, true⟩, ⟨true, false⟩, ⟨true, true⟩]

mutual
/-- The test.  `κ`: the macro arguments in scope; `arg`: the expression is (inside) an argument of a macro call;
`m`: the mode it is executed in; `b`: at the current position only rules of rank below `b` may be called. -/
def wf (cfg : Cfg V) (C : Cert) (κ : MCtx) (arg : Bool) (m : Mode) (b : Nat) : Ope → Bool
  | .seq es _ => wfSeq cfg C κ arg m b es
  | .cho es l _ => !l && wfAll cfg C κ arg m b es && (cfg.hasCut || !C.lkAny κ.leak es)
  | .rep e _ mx _ => wf cfg C κ arg m b e && (!C.nul κ.null e || mx.isSome)
  | .and_ e => wf cfg C κ arg m b e
  | .not_ e => wf cfg C κ arg m b e
  | .dict .. => true
  | .lit t _ => !t.isEmpty || C.skipOk cfg m b
  | .cls _ => true
  | .chr _ => true
  | .dot => true
  | .capScope e => wf cfg C κ arg m b e
  | .cap _ e => !cfg.packrat && !C.capless && wf cfg C κ arg m b e
  | .tok e => wf cfg C κ arg { m with tok := true } b e && (!C.nul κ.null e || C.skipOk cfg m b)
  | .ign e => wf cfg C κ arg m b e
  | .ws e => !arg && (m.ws || wf cfg C κ arg { m with ws := true } b e)
  | .ref r nm as =>
    match cfg.rules[r]? with
    | none => false
    | some d => (!d.isLR || !d.isMacro) && C.modes r m && !(arg && C.names.contains nm) && decide (C.rank r < b) &&
        (!d.isMacro || (as.length == d.params.length && allModes.any (C.amodes r) && wfArgs cfg C (if arg then {} else κ) r as))
  | .param k nm => κ.modes m &&
      (if arg then κ.params.contains nm && decide (κ.bound ≤ b) else decide (k < κ.params.length) && decide (κ.bound < b))
  | .bref _ => !arg && !cfg.packrat && C.skipOk cfg m b
  | .cut => cfg.hasCut
  | _ => false

def wfSeq (cfg : Cfg V) (C : Cert) (κ : MCtx) (arg : Bool) (m : Mode) (b : Nat) : List Ope → Bool
  | [] => true
  | e :: es => wf cfg C κ arg m b e && wfSeq cfg C κ arg m C.top es && (!C.nul κ.null e || wfSeq cfg C κ arg m b es)

def wfAll (cfg : Cfg V) (C : Cert) (κ : MCtx) (arg : Bool) (m : Mode) (b : Nat) : List Ope → Bool
  | [] => true
  | e :: es => wf cfg C κ arg m b e && wfAll cfg C κ arg m b es

/-- The arguments of a call of macro `r`. -/
def wfArgs (cfg : Cfg V) (C : Cert) (κ : MCtx) (r : Nat) : List Ope → Bool
  | [] => true
  | a :: as =>
    (!C.nul κ.null a || C.anull r) && (!C.lk κ.leak a || C.aleak r) &&
    (!C.amodes r ⟨false, false⟩ || wf cfg C κ true ⟨false, false⟩ (C.abound r) a) &&
    (!C.amodes r ⟨false, true⟩ || wf cfg C κ true ⟨false, true⟩ (C.abound r) a) &&
    (!C.amodes r ⟨true, false⟩ || wf cfg C κ true ⟨true, false⟩ (C.abound r) a) &&
    (!C.amodes r ⟨true, true⟩ || wf cfg C κ true ⟨true, true⟩ (C.abound r) a) && wfArgs cfg C κ r as
end

mutual
/-- Does the expression use the macro arguments in scope (a parameter, or a macro call)? -/
def usesEnv (cfg : Cfg V) : Ope → Bool
  | .seq es _ => usesEnvList cfg es
  | .cho es _ _ => usesEnvList cfg es
  | .rep e _ _ _ => usesEnv cfg e
  | .and_ e => usesEnv cfg e
  | .not_ e => usesEnv cfg e
  | .capScope e => usesEnv cfg e
  | .cap _ e => usesEnv cfg e
  | .tok e => usesEnv cfg e
  | .ign e => usesEnv cfg e
  | .ws e => usesEnv cfg e
  | .ref r _ _ => (cfg.rules[r]?.map (·.isMacro)).getD false
  | .param .. => true
  | _ => false

def usesEnvList (cfg : Cfg V) : List Ope → Bool
  | [] => false
  | e :: es => usesEnv cfg e || usesEnvList cfg es
end

mutual
/-- `p` holds of every subexpression, arguments of references included. -/
def Ope.Each (p : Ope → Prop) : Ope → Prop
  | .seq es kw => p (.seq es kw) ∧ Ope.EachL p es
  | .cho es l fs => p (.cho es l fs) ∧ Ope.EachL p es
  | .rep e mn mx sp => p (.rep e mn mx sp) ∧ e.Each p
  | .and_ e => p (.and_ e) ∧ e.Each p
  | .not_ e => p (.not_ e) ∧ e.Each p
  | .capScope e => p (.capScope e) ∧ e.Each p
  | .cap nm e => p (.cap nm e) ∧ e.Each p
  | .tok e => p (.tok e) ∧ e.Each p
  | .ign e => p (.ign e) ∧ e.Each p
  | .ws e => p (.ws e) ∧ e.Each p
  | .ref r nm as => p (.ref r nm as) ∧ Ope.EachL p as
  | .recov r nm as => p (.recov r nm as) ∧ Ope.EachL p as
  | e => p e

def Ope.EachL (p : Ope → Prop) : List Ope → Prop
  | [] => True
  | e :: es => e.Each p ∧ Ope.EachL p es
end

/-! ## Precedence operators

A precedence operator is accepted as the whole body of a rule, in a grammar without captures and without packrat parsing
(a failing operator rule leaves its captures behind, and a memoised one does not report its token). -/

def Ope.isPrec : Ope → Bool
  | .prec .. => true
  | _ => false

/-- An operand or operator rule: it has a value. -/
def hasValue (cfg : Cfg V) (r : Nat) : Bool := (cfg.rules[r]?.map fun d => !d.isMacro && !d.ignoreSV).getD false

/-- An operator rule's own body is not a precedence operator, and the rule is not left recursive. -/
def flatBody (cfg : Cfg V) (r : Nat) : Bool := (cfg.rules[r]?.map fun d => !d.ope.isPrec && !d.isLR).getD false

def actionOff (cfg : Cfg V) (r : Nat) (off : Bool) : Bool := (cfg.rules[r]?.map fun d => d.disableAction == off).getD false

/-- The test for the body of rule `r`. -/
def Cert.precOk (cfg : Cfg V) (C : Cert) (m : Mode) (r : Nat) : Ope → Bool
  | .prec (.ref a anm []) (.ref b bnm []) _ rule =>
    !cfg.packrat && !cfg.recognizeOnly && C.capless && rule == r && actionOff cfg r true && actionOff cfg b false &&
    hasValue cfg a && hasValue cfg b && flatBody cfg b && !C.null b &&
    wf cfg C {} false m (C.rank r) (.ref a anm []) && wf cfg C {} false m C.top (.ref a anm []) &&
    wf cfg C {} false m C.top (.ref b bnm []) && (!C.null a || wf cfg C {} false m (C.rank r) (.ref b bnm []))
  | _ => false

/-! ## Left-recursive rules

A left-recursive rule `A <- A r1 / ... / A rn / b1 / ... / bk` is accepted if it always consumes input, is called in one mode
only (the engine remembers its results regardless of the mode), and the grammar has no captures. -/

/-- The sequence has no keyword guard. -/
def Ope.unguarded : Ope → Bool
  | .seq _ kw => kw.isNone
  | _ => true

/-- The test for the left-recursive rule `r` in mode `m`. -/
def Cert.lrOk (cfg : Cfg V) (C : Cert) (m : Mode) (r : Nat) (d : Def) : Bool :=
  match d.ope with
  | .cho es l _ =>
    (cfg.predicate r).isNone && !l && !d.noWs && !d.isMacro && C.capless && !C.null r && (es.take (lrSplit r es).1.length).all Ope.unguarded &&
    wfAll cfg C {} false m (C.rank r) (lrSplit r es).2 && (lrSplit r es).1.all (wfSeq cfg C {} false m C.top) &&
    (cfg.hasCut || !C.lkAny false es) && allModes.all fun m' => !C.modes r m' || m' == m
  | _ => false

/-! ## From the program's configuration to the reference grammar -/

/-- The reference grammar of a parse: the callbacks are called with an empty user datum. -/
def Cfg.gram (cfg : Cfg V) : Gram V where
  input := cfg.input
  rules := cfg.rules
  action r := (cfg.action r).map fun a f pd => (a f none pd).1
  predicate r := (cfg.predicate r).map fun p f => ((p f none).1, (p f none).2.2)
  leave r := (cfg.leave r).map fun l i x v => (l i x v none).1
  ws := cfg.ws
  word := cfg.word

/-- The callbacks' answers do not depend on the user datum. -/
structure DtFree (cfg : Cfg V) : Prop where
  action : ∀ r a, cfg.action r = some a → ∀ f d pd, (a f d pd).1 = (a f none pd).1
  predicate : ∀ r p, cfg.predicate r = some p → ∀ f d, (p f d).1 = (p f none).1 ∧ (p f d).2.2 = (p f none).2.2
  leave : ∀ r l, cfg.leave r = some l → ∀ i x v d, (l i x v d).1 = (l i x v none).1

/-! ## Annotations -/

def PRes.pos : PRes V → Option Nat
  | .fail _ => none
  | .ok j _ _ => some j

/-- The word rule gives an answer at position `i` of `inp` in the bare context the engine makes for it, and it is the
reference's. -/
def WordAt (cfg : Cfg V) (inp : List Byte) (i : Nat) : Prop :=
  ∀ w, cfg.word = some w → ∃ (x : PRes V) (n : Nat) (st' : St V),
    Peg (cfg.gram.bare inp) {} {} (.ope w) i {} x ∧ run n (cfg.dummy inp) (.ope w) i {} = .ok (x.pos, st')

/-- A position predicate `al` (for example: character boundaries of a UTF-8 text) is kept when text `t` matches, and it can be
decided whether `t` is a word. -/
def TextOk (cfg : Cfg V) (al : Nat → Prop) (t : List Byte) (ic : Bool) : Prop :=
  (∀ i, al i → i ≤ cfg.input.length → litMatch t ic (cfg.rest i) = true → al (i + t.length)) ∧ WordAt cfg t 0

/-- The first set is right: an alternative skipped because of it would have failed (and passed no cut). -/
def FsOk (cfg : Cfg V) (al : Nat → Prop) (f : FirstSet) (e : Ope) : Prop :=
  ∀ v m i s x, al i → fsSkip (some f) (cfg.rest i) = true → Peg cfg.gram v m (.ope e) i s x → x = .fail false

/-- The keyword guard is right: it answers what the sequence would. -/
def KwOk (cfg : Cfg V) (al : Nat → Prop) (kw : KwGuard) (es : List Ope) : Prop :=
  ∀ v m i s, al i → i ≤ cfg.input.length →
    match kwScan kw (cfg.rest i) with
    | none => Peg cfg.gram v m (.seqL es) i s (.fail false)
    | some k =>
      let word := Trie.toLower ((cfg.rest i).take k)
      if (kw.minLen ≤ k ∧ k ≤ kw.maxLen) ∧ word ∈ kw.exact then Peg cfg.gram v m (.seqL es) i s (.fail false)
      else (kw.minLen ≤ k ∧ k ≤ kw.maxLen) ∧ word ∈ kw.pref ∨
        al (i + k) ∧ ∀ x, Peg cfg.gram v m .skip (i + k) { s with vs := { s.vs with tokens := s.vs.tokens ++ [(i, k)] } } x →
          Peg cfg.gram v m (.seqL es) i s x

/-- The span scan is right: it answers what repeating the class would. -/
def SpanOk (cfg : Cfg V) (al : Nat → Prop) (e : Ope) (mn : Nat) (mx : Option Nat) (c : Cls) : Prop :=
  ∀ v m i s, al i → i ≤ cfg.input.length →
    match spanScan c.asciiBit mn mx (cfg.rest i) with
    | none => Peg cfg.gram v m (.loop e mn mx 0) i s (.fail false)
    | some k => al (i + k) ∧ (k = 0 → mn = 0) ∧ Peg cfg.gram v m (.loop e mn mx 0) i s (.ok (i + k) false s)

/-- The annotation of one node. -/
def nodeOk (cfg : Cfg V) (al : Nat → Prop) : Ope → Prop
  | .seq es (some kw) => KwOk cfg al kw es
  | .cho es _ fs => ∀ (k : Nat) (f : FirstSet) (e : Ope), fs[k]? = some f → es[k]? = some e → FsOk cfg al f e
  | .rep e mn mx (some c) => SpanOk cfg al e mn mx c
  | .lit t ic => TextOk cfg al t ic
  | .dict ws ic => ∀ i, al i → i ≤ cfg.input.length → al (i + ((Trie.build ws ic).matchText (cfg.rest i)).1)
  | .prec .. => False
  | _ => True

/-- The first sets of the left-recursive alternatives of rule `r` are right: if such an alternative is skipped, the other
alternatives fail. -/
def LrFs (cfg : Cfg V) (al : Nat → Prop) (r : Nat) : Ope → Prop
  | .cho es _ fs => ∀ (k : Nat) (f : FirstSet), fs[k]? = some f → k < (lrSplit r es).1.length →
      ∀ v m i s x, al i → fsSkip (some f) (cfg.rest i) = true →
        Peg cfg.gram v m (.choL (lrSplit r es).2 (lrSplit r es).1.length es.length) i s x → x.pos = none
  | _ => True

/-- The position predicate is kept by single characters and by repeating captured text, and characters can be decoded at
such positions unless `malformed`. -/
structure AlOk (cfg : Cfg V) (C : Cert) (al : Nat → Prop) : Prop where
  char : ∀ e f i k, Ope.single e = some f → al i → f (cfg.rest i) = some k → al (i + k)
  slice : ∀ i j, al i → al j → i ≤ j → TextOk cfg al ((cfg.rest i).take (j - i)) false
  dec : C.malformed = false → ∀ i, al i → i < cfg.input.length → (Utf8.decodeLenCp (cfg.rest i)).1 ≠ 0

/-- Without any requirement on positions. -/
theorem AlOk.trivial (cfg : Cfg V) (C : Cert) (h : C.malformed = true) (hw : ∀ t, WordAt cfg t 0) : AlOk cfg C fun _ => True :=
  ⟨fun _ _ _ _ _ _ _ => True.intro, fun _ _ _ _ _ => ⟨fun _ _ _ _ => True.intro, hw _⟩, fun h' => by rw [h] at h'; cases h'⟩

/-- The grammar and its certificate. -/
structure CertOk (cfg : Cfg V) (C : Cert) (al : Nat → Prop) : Prop where
  frame : FrameOk cfg
  slots : SlotsOk cfg
  dt : DtFree cfg
  pos : AlOk cfg C al
  /-- rules -/
  body : ∀ (r : Nat) (d : Def), cfg.rules[r]? = some d → d.isMacro = false → d.isLR = false → ∀ m, C.modes r m = true →
    (if d.ope.isPrec then Cert.precOk cfg C { m with tok := m.tok || d.noWs } r d.ope
      else wf cfg C {} false { m with tok := m.tok || d.noWs } (C.rank r) d.ope) = true ∧
      (d.noWs = true → C.nul false d.ope = true → C.skipOk cfg m (C.rank r) = true)
  lr : ∀ (r : Nat) (d : Def), cfg.rules[r]? = some d → d.isMacro = false → d.isLR = true → ∀ m, C.modes r m = true →
    LrFs cfg al r d.ope ∧ Cert.lrOk cfg C m r d = true
  macro_ : ∀ (r : Nat) (d : Def), cfg.rules[r]? = some d → d.isMacro = true → ∀ m, C.modes r m = true →
    wf cfg C (C.ctx r d) false m (C.rank r) d.ope = true
  null : ∀ (r : Nat) (d : Def), cfg.rules[r]? = some d → C.nul (C.ctx r d).null d.ope = true → C.null r = true
  leak : ∀ (r : Nat) (d : Def), cfg.rules[r]? = some d → C.lk (C.ctx r d).leak d.ope = true → C.leak r = true
  names : ∀ (r : Nat) (d : Def), cfg.rules[r]? = some d → ∀ p ∈ d.params, p ∈ C.names
  env : ∀ (r : Nat) (d : Def), cfg.rules[r]? = some d → d.isMacro = false → usesEnv cfg d.ope = true → d.hasMacroRef = true
  node : ∀ (r : Nat) (d : Def) (m : Mode), cfg.rules[r]? = some d → C.modes r m = true → d.ope.isPrec = false →
    d.ope.Each (nodeOk cfg al)
  /-- white space -/
  ws : ∀ w, cfg.ws = some w → ∃ e, w = .ws e ∧ wf cfg C {} false ⟨false, true⟩ C.wsBound e = true ∧
    C.lk false e = false ∧ usesEnv cfg e = false ∧ e.Each (nodeOk cfg al)
  /-- without value collection no predicate is called -/
  reco : cfg.recognizeOnly = true → ∀ r, cfg.predicate r = none
  /-- packrat parsing: rules are numbered without clash, memoised rules leave no cut and are called in one mode -/
  ids : cfg.packrat = true → ∀ (r r' : Nat) (d d' : Def), cfg.rules[r]? = some d → cfg.rules[r']? = some d' → cfg.defId r = cfg.defId r' →
    r = r'
  idLt : cfg.packrat = true → ∀ (r : Nat) (d : Def), cfg.rules[r]? = some d → cfg.defId r < cfg.defCount
  slotInj : cfg.packrat = true → ∀ (r r' : Nat) (d d' : Def) (s : Nat), cfg.rules[r]? = some d → cfg.rules[r']? = some d' →
    cfg.slot (cfg.defId r) = some s → cfg.slot (cfg.defId r') = some s → r = r'
  cached : cfg.packrat = true → ∀ (r : Nat) (d : Def) (s : Nat), cfg.rules[r]? = some d → cfg.slot (cfg.defId r) = some s →
    C.leak r = false ∧ ∀ m m', C.modes r m = true → C.modes r m' = true → m = m'

/-! ## Facts about the test -/

theorem skipOk_mono {C : Cert} {cfg : Cfg V} {m : Mode} {b b' : Nat} (h : C.skipOk cfg m b = true) (hb : b ≤ b') :
    C.skipOk cfg m b' = true := by
  unfold Cert.skipOk at h ⊢
  simp only [Bool.or_eq_true, decide_eq_true_eq] at h ⊢
  rcases h with h | h
  · exact Or.inl h
  · exact Or.inr (by omega)

mutual
theorem wf_mono {cfg : Cfg V} {C : Cert} {κ : MCtx} {arg : Bool} {m : Mode} {b b' : Nat} (hb : b ≤ b') :
    ∀ (e : Ope), wf cfg C κ arg m b e = true → wf cfg C κ arg m b' e = true
  | .seq es _, h => wfSeq_mono hb es h
  | .cho es l fs, h => by
    simp only [wf, Bool.and_eq_true] at h ⊢
    exact ⟨⟨h.1.1, wfAll_mono hb es h.1.2⟩, h.2⟩
  | .rep e mn mx sp, h => by
    simp only [wf, Bool.and_eq_true] at h ⊢
    exact ⟨wf_mono hb e h.1, h.2⟩
  | .and_ e, h => by simp only [wf] at h ⊢; exact wf_mono hb e h
  | .not_ e, h => by simp only [wf] at h ⊢; exact wf_mono hb e h
  | .dict _ _, h => by simp only [wf]
  | .lit t ic, h => by
    simp only [wf, Bool.or_eq_true] at h ⊢
    exact h.imp id fun h => skipOk_mono h hb
  | .cls _, h => by simp only [wf]
  | .chr _, h => by simp only [wf]
  | .dot, h => by simp only [wf]
  | .capScope e, h => by simp only [wf] at h ⊢; exact wf_mono hb e h
  | .cap _ e, h => by
    simp only [wf, Bool.and_eq_true] at h ⊢
    exact ⟨h.1, wf_mono hb e h.2⟩
  | .tok e, h => by
    simp only [wf, Bool.and_eq_true, Bool.or_eq_true] at h ⊢
    exact ⟨wf_mono hb e h.1, h.2.imp id fun h => skipOk_mono h hb⟩
  | .ign e, h => by simp only [wf] at h ⊢; exact wf_mono hb e h
  | .ws e, h => by
    simp only [wf, Bool.and_eq_true, Bool.or_eq_true] at h ⊢
    exact ⟨h.1, h.2.imp id fun h => wf_mono hb e h⟩
  | .ref r nm as, h => by
    simp only [wf] at h ⊢
    cases hr : cfg.rules[r]? with
    | none => rw [hr] at h; cases h
    | some d =>
      rw [hr] at h
      simp only [Bool.and_eq_true, decide_eq_true_eq] at h ⊢
      exact ⟨⟨h.1.1, by omega⟩, h.2⟩
  | .param k nm, h => by
    cases arg <;> simp only [wf, Bool.and_eq_true, decide_eq_true_eq, if_true, if_false, Bool.false_eq_true] at h ⊢
    · exact ⟨h.1, h.2.1, by omega⟩
    · exact ⟨h.1, h.2.1, by omega⟩
  | .bref _, h => by
    simp only [wf, Bool.and_eq_true] at h ⊢
    exact ⟨h.1, skipOk_mono h.2 hb⟩
  | .cut, h => by simp only [wf] at h ⊢; exact h
  | .usr _, h => by simp only [wf] at h; cases h
  | .weak _, h => by simp only [wf] at h; cases h
  | .prec _ _ _ _, h => by simp only [wf] at h; cases h
  | .recov _ _ _, h => by simp only [wf] at h; cases h
  | .null, h => by simp only [wf] at h; cases h

theorem wfSeq_mono {cfg : Cfg V} {C : Cert} {κ : MCtx} {arg : Bool} {m : Mode} {b b' : Nat} (hb : b ≤ b') :
    ∀ (es : List Ope), wfSeq cfg C κ arg m b es = true → wfSeq cfg C κ arg m b' es = true
  | [], _ => by simp only [wfSeq]
  | e :: es, h => by
    simp only [wfSeq, Bool.and_eq_true, Bool.or_eq_true] at h ⊢
    exact ⟨⟨wf_mono hb e h.1.1, h.1.2⟩, h.2.imp id fun h => wfSeq_mono hb es h⟩

theorem wfAll_mono {cfg : Cfg V} {C : Cert} {κ : MCtx} {arg : Bool} {m : Mode} {b b' : Nat} (hb : b ≤ b') :
    ∀ (es : List Ope), wfAll cfg C κ arg m b es = true → wfAll cfg C κ arg m b' es = true
  | [], _ => by simp only [wfAll]
  | e :: es, h => by
    simp only [wfAll, Bool.and_eq_true] at h ⊢
    exact ⟨wf_mono hb e h.1, wfAll_mono hb es h.2⟩
end

/-- What is required of a macro argument in scope. -/
structure ArgOk (cfg : Cfg V) (C : Cert) (al : Nat → Prop) (κ : MCtx) (a : Ope) : Prop where
  wf : ∀ m, κ.modes m = true → wf cfg C {} true m κ.bound a = true
  null : C.nul false a = true → κ.null = true
  leak : C.lk false a = true → κ.leak = true
  node : a.Each (nodeOk cfg al)

/-- The macro arguments in scope fit their description. -/
structure EnvOk (cfg : Cfg V) (C : Cert) (al : Nat → Prop) (κ : MCtx) (v : Env) : Prop where
  names : ∀ p ∈ v.params, p ∈ C.names
  byName : ∀ nm ∈ κ.params, ∃ a, lookupArg v.params v.args nm = some a ∧ ArgOk cfg C al κ a
  byPos : ∀ k, k < κ.params.length → ∃ a, v.args[k]? = some a ∧ ArgOk cfg C al κ a

theorem EnvOk.empty {cfg : Cfg V} {C : Cert} {al : Nat → Prop} {κ : MCtx} {v : Env} (h : EnvOk cfg C al κ v) :
    EnvOk cfg C al {} v := ⟨h.names, fun _ h => (by cases h), fun _ h => (by cases h)⟩

theorem EnvOk.none (cfg : Cfg V) (C : Cert) (al : Nat → Prop) : EnvOk cfg C al {} {} :=
  ⟨fun _ h => (by cases h), fun _ h => (by cases h), fun _ h => (by cases h)⟩

theorem lookupArg_not_mem {ps : List (List Byte)} {as : List Ope} {nm : List Byte} (h : nm ∉ ps) :
    lookupArg ps as nm = Option.none := by
  unfold lookupArg
  rw [Option.map_eq_none_iff, List.find?_eq_none]
  intro p hp
  simp only [decide_eq_true_eq]
  intro e
  subst e
  exact h (List.of_mem_zip hp).1

section
variable {cfg : Cfg V} {C : Cert} {al : Nat → Prop} {κ : MCtx} {v : Env}

mutual
theorem nul_resolve (hv : EnvOk cfg C al κ v) : ∀ (e : Ope) {m : Mode} {b : Nat}, wf cfg C κ true m b e = true →
    C.nul false (resolve v.params v.args e) = true → C.nul κ.null e = true
  | .seq es _, m, b, h, hn => by
    simp only [resolve, Cert.nul, wf] at h hn ⊢; exact nulAll_resolve hv es h hn
  | .cho es _ _, m, b, h, hn => by
    simp only [resolve, Cert.nul, wf, Bool.and_eq_true] at h hn ⊢; exact nulAny_resolve hv es h.1.2 hn
  | .rep e mn _ _, m, b, h, hn => by
    simp only [resolve, Cert.nul, wf, Bool.and_eq_true, Bool.or_eq_true] at h hn ⊢
    exact hn.imp id fun hn => nul_resolve hv e h.1 hn
  | .and_ e, _, _, _, _ => by simp only [Cert.nul]
  | .not_ e, _, _, _, _ => by simp only [Cert.nul]
  | .dict _ _, _, _, _, hn => by simp only [resolve, Cert.nul] at hn ⊢; exact hn
  | .lit _ _, _, _, _, hn => by simp only [resolve, Cert.nul] at hn ⊢; exact hn
  | .cls _, _, _, _, hn => by simp only [resolve, Cert.nul] at hn ⊢; exact hn
  | .chr _, _, _, _, hn => by simp only [resolve, Cert.nul] at hn ⊢; exact hn
  | .dot, _, _, _, hn => by simp only [resolve, Cert.nul] at hn ⊢; exact hn
  | .capScope e, _, _, h, hn => by simp only [resolve, Cert.nul, wf] at h hn ⊢; exact nul_resolve hv e h hn
  | .cap _ e, _, _, h, hn => by
    simp only [resolve, Cert.nul, wf, Bool.and_eq_true] at h hn ⊢; exact nul_resolve hv e h.2 hn
  | .tok e, _, _, h, hn => by
    simp only [resolve, Cert.nul, wf, Bool.and_eq_true] at h hn ⊢; exact nul_resolve hv e h.1 hn
  | .ign e, _, _, h, hn => by simp only [resolve, Cert.nul, wf] at h hn ⊢; exact nul_resolve hv e h hn
  | .ws e, _, _, _, _ => by simp only [Cert.nul]
  | .ref r nm as, m, b, h, hn => by
    have hm : nm ∉ v.params := by
      intro hm
      have := hv.names nm hm
      simp only [wf] at h
      cases hr : cfg.rules[r]? with
      | none => rw [hr] at h; cases h
      | some d => rw [hr] at h; simp [this] at h
    simp only [resolve, lookupArg_not_mem hm, Option.getD_none, Cert.nul] at hn ⊢
    exact hn
  | .param k nm, m, b, h, hn => by
    simp only [wf, Bool.and_eq_true, if_true, List.contains_iff_mem] at h
    obtain ⟨a, ha, hok⟩ := hv.byName nm h.2.1
    simp only [resolve, ha, Option.getD_some] at hn
    exact hok.null hn
  | .bref _, _, _, h, _ => by simp [wf] at h
  | .cut, _, _, _, _ => by simp only [Cert.nul]
  | .usr _, _, _, h, _ => by simp only [wf] at h; cases h
  | .weak _, _, _, h, _ => by simp only [wf] at h; cases h
  | .prec _ _ _ _, _, _, h, _ => by simp only [wf] at h; cases h
  | .recov _ _ _, _, _, h, _ => by simp only [wf] at h; cases h
  | .null, _, _, h, _ => by simp only [wf] at h; cases h

theorem nulAll_resolve (hv : EnvOk cfg C al κ v) : ∀ (es : List Ope) {m : Mode} {b : Nat},
    wfSeq cfg C κ true m b es = true →
    C.nulAll false (resolveList v.params v.args es) = true → C.nulAll κ.null es = true
  | [], _, _, _, _ => by simp only [Cert.nulAll]
  | e :: es, m, b, h, hn => by
    simp only [wfSeq, resolveList, Cert.nulAll, Bool.and_eq_true] at h hn ⊢
    exact ⟨nul_resolve hv e h.1.1 hn.1, nulAll_resolve hv es h.1.2 hn.2⟩

theorem nulAny_resolve (hv : EnvOk cfg C al κ v) : ∀ (es : List Ope) {m : Mode} {b : Nat},
    wfAll cfg C κ true m b es = true →
    C.nulAny false (resolveList v.params v.args es) = true → C.nulAny κ.null es = true
  | [], _, _, _, hn => by simp only [resolveList, Cert.nulAny] at hn; cases hn
  | e :: es, m, b, h, hn => by
    simp only [wfAll, resolveList, Cert.nulAny, Bool.and_eq_true, Bool.or_eq_true] at h hn ⊢
    exact hn.imp (nul_resolve hv e h.1) (nulAny_resolve hv es h.2)
end

mutual
theorem lk_resolve (hv : EnvOk cfg C al κ v) : ∀ (e : Ope) {m : Mode} {b : Nat}, wf cfg C κ true m b e = true →
    C.lk false (resolve v.params v.args e) = true → C.lk κ.leak e = true
  | .seq es _, m, b, h, hn => by
    simp only [resolve, Cert.lk, wf] at h hn ⊢; exact lkSeq_resolve hv es h hn
  | .cho es _ _, m, b, h, hn => by simp only [resolve, Cert.lk] at hn; cases hn
  | .rep e mn _ _, m, b, h, hn => by
    simp only [resolve, Cert.lk, wf, Bool.and_eq_true] at h hn ⊢; exact lk_resolve hv e h.1 hn
  | .and_ e, _, _, h, hn => by simp only [resolve, Cert.lk, wf] at h hn ⊢; exact lk_resolve hv e h hn
  | .not_ e, _, _, h, hn => by simp only [resolve, Cert.lk, wf] at h hn ⊢; exact lk_resolve hv e h hn
  | .dict _ _, _, _, _, hn => by simp only [resolve, Cert.lk] at hn; cases hn
  | .lit _ _, _, _, _, hn => by simp only [resolve, Cert.lk] at hn; cases hn
  | .cls _, _, _, _, hn => by simp only [resolve, Cert.lk] at hn; cases hn
  | .chr _, _, _, _, hn => by simp only [resolve, Cert.lk] at hn; cases hn
  | .dot, _, _, _, hn => by simp only [resolve, Cert.lk] at hn; cases hn
  | .capScope e, _, _, h, hn => by simp only [resolve, Cert.lk, wf] at h hn ⊢; exact lk_resolve hv e h hn
  | .cap _ e, _, _, h, hn => by
    simp only [resolve, Cert.lk, wf, Bool.and_eq_true] at h hn ⊢; exact lk_resolve hv e h.2 hn
  | .tok e, _, _, h, hn => by
    simp only [resolve, Cert.lk, wf, Bool.and_eq_true] at h hn ⊢; exact lk_resolve hv e h.1 hn
  | .ign e, _, _, h, hn => by simp only [resolve, Cert.lk, wf] at h hn ⊢; exact lk_resolve hv e h hn
  | .ws e, _, _, h, _ => by simp [wf] at h
  | .ref r nm as, m, b, h, hn => by
    have hm : nm ∉ v.params := by
      intro hm
      have := hv.names nm hm
      simp only [wf] at h
      cases hr : cfg.rules[r]? with
      | none => rw [hr] at h; cases h
      | some d => rw [hr] at h; simp [this] at h
    simp only [resolve, lookupArg_not_mem hm, Option.getD_none, Cert.lk] at hn ⊢
    exact hn
  | .param k nm, m, b, h, hn => by
    simp only [wf, Bool.and_eq_true, if_true, List.contains_iff_mem] at h
    obtain ⟨a, ha, hok⟩ := hv.byName nm h.2.1
    simp only [resolve, ha, Option.getD_some] at hn
    exact hok.leak hn
  | .bref _, _, _, h, _ => by simp [wf] at h
  | .cut, _, _, _, _ => by simp only [Cert.lk]
  | .usr _, _, _, h, _ => by simp only [wf] at h; cases h
  | .weak _, _, _, h, _ => by simp only [wf] at h; cases h
  | .prec _ _ _ _, _, _, h, _ => by simp only [wf] at h; cases h
  | .recov _ _ _, _, _, h, _ => by simp only [wf] at h; cases h
  | .null, _, _, h, _ => by simp only [wf] at h; cases h

theorem lkSeq_resolve (hv : EnvOk cfg C al κ v) : ∀ (es : List Ope) {m : Mode} {b : Nat},
    wfSeq cfg C κ true m b es = true →
    C.lkAny false (resolveList v.params v.args es) = true → C.lkAny κ.leak es = true
  | [], _, _, _, hn => by simp only [resolveList, Cert.lkAny] at hn; cases hn
  | e :: es, m, b, h, hn => by
    simp only [wfSeq, resolveList, Cert.lkAny, Bool.and_eq_true, Bool.or_eq_true] at h hn ⊢
    exact hn.imp (lk_resolve hv e h.1.1) (lkSeq_resolve hv es h.1.2)
end

theorem lkAny_resolve (hv : EnvOk cfg C al κ v) : ∀ (es : List Ope) {m : Mode} {b : Nat},
    wfAll cfg C κ true m b es = true →
    C.lkAny false (resolveList v.params v.args es) = true → C.lkAny κ.leak es = true
  | [], _, _, _, hn => by simp only [resolveList, Cert.lkAny] at hn; cases hn
  | e :: es, m, b, h, hn => by
    simp only [wfAll, resolveList, Cert.lkAny, Bool.and_eq_true, Bool.or_eq_true] at h hn ⊢
    exact hn.imp (lk_resolve hv e h.1) (lkAny_resolve hv es h.2)

theorem not_or_imp {a b c : Bool} (h : a = true → b = true) (h' : (!b || c) = true) : (!a || c) = true := by
  cases a <;> simp_all

mutual
/-- Replacing the parameters in an argument by arguments that fit yields an argument that fits. -/
theorem wf_resolve (hv : EnvOk cfg C al κ v) : ∀ (e : Ope) {m : Mode} {b : Nat}, wf cfg C κ true m b e = true →
    wf cfg C {} true m b (resolve v.params v.args e) = true
  | .seq es _, m, b, h => by
    simp only [resolve, wf] at h ⊢; exact wfSeq_resolve hv es h
  | .cho es _ _, m, b, h => by
    simp only [resolve, wf, Bool.and_eq_true] at h ⊢
    refine ⟨⟨by simp, wfAll_resolve hv es h.1.2⟩, ?_⟩
    rw [Bool.or_comm]
    exact not_or_imp (lkAny_resolve hv es h.1.2) (by rw [Bool.or_comm]; exact h.2)
  | .rep e mn mx _, m, b, h => by
    simp only [resolve, wf, Bool.and_eq_true] at h ⊢
    exact ⟨wf_resolve hv e h.1, not_or_imp (nul_resolve hv e h.1) h.2⟩
  | .and_ e, _, _, h => by simp only [resolve, wf] at h ⊢; exact wf_resolve hv e h
  | .not_ e, _, _, h => by simp only [resolve, wf] at h ⊢; exact wf_resolve hv e h
  | .dict _ _, _, _, _ => by simp only [resolve, wf]
  | .lit _ _, _, _, h => by simp only [resolve, wf] at h ⊢; exact h
  | .cls _, _, _, _ => by simp only [resolve, wf]
  | .chr _, _, _, _ => by simp only [resolve, wf]
  | .dot, _, _, _ => by simp only [resolve, wf]
  | .capScope e, _, _, h => by simp only [resolve, wf] at h ⊢; exact wf_resolve hv e h
  | .cap _ e, _, _, h => by
    simp only [resolve, wf, Bool.and_eq_true] at h ⊢; exact ⟨h.1, wf_resolve hv e h.2⟩
  | .tok e, _, _, h => by
    simp only [resolve, wf, Bool.and_eq_true] at h ⊢
    exact ⟨wf_resolve hv e h.1, not_or_imp (nul_resolve hv e h.1) h.2⟩
  | .ign e, _, _, h => by simp only [resolve, wf] at h ⊢; exact wf_resolve hv e h
  | .ws e, _, _, h => by simp [wf] at h
  | .ref r nm as, m, b, h => by
    have hm : nm ∉ v.params := by
      intro hm
      have := hv.names nm hm
      simp only [wf] at h
      cases hr : cfg.rules[r]? with
      | none => rw [hr] at h; cases h
      | some d => rw [hr] at h; simp [this] at h
    simp only [resolve, lookupArg_not_mem hm, Option.getD_none, wf] at h ⊢
    exact h
  | .param k nm, m, b, h => by
    simp only [wf, Bool.and_eq_true, if_true, List.contains_iff_mem, decide_eq_true_eq] at h
    obtain ⟨a, ha, hok⟩ := hv.byName nm h.2.1
    simp only [resolve, ha, Option.getD_some]
    exact wf_mono h.2.2 a (hok.wf m h.1)
  | .bref _, _, _, h => by simp [wf] at h
  | .cut, _, _, h => by simp only [resolve, wf] at h ⊢; exact h
  | .usr _, _, _, h => by simp only [wf] at h; cases h
  | .weak _, _, _, h => by simp only [wf] at h; cases h
  | .prec _ _ _ _, _, _, h => by simp only [wf] at h; cases h
  | .recov _ _ _, _, _, h => by simp only [wf] at h; cases h
  | .null, _, _, h => by simp only [wf] at h; cases h

theorem wfSeq_resolve (hv : EnvOk cfg C al κ v) : ∀ (es : List Ope) {m : Mode} {b : Nat},
    wfSeq cfg C κ true m b es = true → wfSeq cfg C {} true m b (resolveList v.params v.args es) = true
  | [], _, _, _ => by simp only [resolveList, wfSeq]
  | e :: es, m, b, h => by
    simp only [wfSeq, resolveList, Bool.and_eq_true, Bool.or_eq_true] at h ⊢
    refine ⟨⟨wf_resolve hv e h.1.1, wfSeq_resolve hv es h.1.2⟩, ?_⟩
    rcases h.2 with h2 | h2
    · left
      cases hn : C.nul false (resolve v.params v.args e) with
      | false => rfl
      | true => rw [nul_resolve hv e h.1.1 hn] at h2; cases h2
    · exact Or.inr (wfSeq_resolve hv es h2)

theorem wfAll_resolve (hv : EnvOk cfg C al κ v) : ∀ (es : List Ope) {m : Mode} {b : Nat},
    wfAll cfg C κ true m b es = true → wfAll cfg C {} true m b (resolveList v.params v.args es) = true
  | [], _, _, _ => by simp only [resolveList, wfAll]
  | e :: es, m, b, h => by
    simp only [wfAll, resolveList, Bool.and_eq_true] at h ⊢
    exact ⟨wf_resolve hv e h.1, wfAll_resolve hv es h.2⟩
end

mutual
theorem each_resolve (hv : EnvOk cfg C al κ v) : ∀ (e : Ope) {m : Mode} {b : Nat}, wf cfg C κ true m b e = true →
    e.Each (nodeOk cfg al) → (resolve v.params v.args e).Each (nodeOk cfg al)
  | .seq es _, m, b, h, hn => by
    simp only [resolve, wf, Ope.Each] at h hn ⊢
    exact ⟨by simp [nodeOk], eachSeq_resolve hv es h hn.2⟩
  | .cho es _ _, m, b, h, hn => by
    simp only [resolve, wf, Ope.Each, Bool.and_eq_true] at h hn ⊢
    exact ⟨by simp [nodeOk], eachAll_resolve hv es h.1.2 hn.2⟩
  | .rep e mn mx _, m, b, h, hn => by
    simp only [resolve, wf, Ope.Each, Bool.and_eq_true] at h hn ⊢
    exact ⟨by simp [nodeOk], each_resolve hv e h.1 hn.2⟩
  | .and_ e, _, _, h, hn => by
    simp only [resolve, wf, Ope.Each] at h hn ⊢; exact ⟨by simp [nodeOk], each_resolve hv e h hn.2⟩
  | .not_ e, _, _, h, hn => by
    simp only [resolve, wf, Ope.Each] at h hn ⊢; exact ⟨by simp [nodeOk], each_resolve hv e h hn.2⟩
  | .dict _ _, _, _, _, hn => by simp only [resolve]; exact hn
  | .lit _ _, _, _, h, hn => by simp only [resolve]; exact hn
  | .cls _, _, _, _, hn => by simp only [resolve]; exact hn
  | .chr _, _, _, _, hn => by simp only [resolve]; exact hn
  | .dot, _, _, _, hn => by simp only [resolve]; exact hn
  | .capScope e, _, _, h, hn => by
    simp only [resolve, wf, Ope.Each] at h hn ⊢; exact ⟨by simp [nodeOk], each_resolve hv e h hn.2⟩
  | .cap _ e, _, _, h, hn => by
    simp only [resolve, wf, Ope.Each, Bool.and_eq_true] at h hn ⊢; exact ⟨by simp [nodeOk], each_resolve hv e h.2 hn.2⟩
  | .tok e, _, _, h, hn => by
    simp only [resolve, wf, Ope.Each, Bool.and_eq_true] at h hn ⊢; exact ⟨by simp [nodeOk], each_resolve hv e h.1 hn.2⟩
  | .ign e, _, _, h, hn => by
    simp only [resolve, wf, Ope.Each] at h hn ⊢; exact ⟨by simp [nodeOk], each_resolve hv e h hn.2⟩
  | .ws e, _, _, h, _ => by simp [wf] at h
  | .ref r nm as, m, b, h, hn => by
    have hm : nm ∉ v.params := by
      intro hm
      have := hv.names nm hm
      simp only [wf] at h
      cases hr : cfg.rules[r]? with
      | none => rw [hr] at h; cases h
      | some d => rw [hr] at h; simp [this] at h
    simp only [resolve, lookupArg_not_mem hm, Option.getD_none]
    exact hn
  | .param k nm, m, b, h, hn => by
    simp only [wf, Bool.and_eq_true, if_true, List.contains_iff_mem, decide_eq_true_eq] at h
    obtain ⟨a, ha, hok⟩ := hv.byName nm h.2.1
    simp only [resolve, ha, Option.getD_some]
    exact hok.node
  | .bref _, _, _, h, _ => by simp [wf] at h
  | .cut, _, _, h, hn => by simp only [resolve]; exact hn
  | .usr _, _, _, h, _ => by simp only [wf] at h; cases h
  | .weak _, _, _, h, _ => by simp only [wf] at h; cases h
  | .prec _ _ _ _, _, _, h, _ => by simp only [wf] at h; cases h
  | .recov _ _ _, _, _, h, _ => by simp only [wf] at h; cases h
  | .null, _, _, h, _ => by simp only [wf] at h; cases h

theorem eachSeq_resolve (hv : EnvOk cfg C al κ v) : ∀ (es : List Ope) {m : Mode} {b : Nat},
    wfSeq cfg C κ true m b es = true → Ope.EachL (nodeOk cfg al) es →
    Ope.EachL (nodeOk cfg al) (resolveList v.params v.args es)
  | [], _, _, _, _ => by simp only [resolveList, Ope.EachL]
  | e :: es, m, b, h, hn => by
    simp only [wfSeq, resolveList, Ope.EachL, Bool.and_eq_true] at h hn ⊢
    exact ⟨each_resolve hv e h.1.1 hn.1, eachSeq_resolve hv es h.1.2 hn.2⟩

theorem eachAll_resolve (hv : EnvOk cfg C al κ v) : ∀ (es : List Ope) {m : Mode} {b : Nat},
    wfAll cfg C κ true m b es = true → Ope.EachL (nodeOk cfg al) es →
    Ope.EachL (nodeOk cfg al) (resolveList v.params v.args es)
  | [], _, _, _, _ => by simp only [resolveList, Ope.EachL]
  | e :: es, m, b, h, hn => by
    simp only [wfAll, resolveList, Ope.EachL, Bool.and_eq_true] at h hn ⊢
    exact ⟨each_resolve hv e h.1 hn.1, eachAll_resolve hv es h.2 hn.2⟩
end

theorem wfArgs_mem {r : Nat} : ∀ {as : List Ope}, wfArgs cfg C κ r as = true → ∀ a ∈ as,
    (C.nul κ.null a = true → C.anull r = true) ∧ (C.lk κ.leak a = true → C.aleak r = true) ∧
    ∀ m, C.amodes r m = true → wf cfg C κ true m (C.abound r) a = true
  | [], _, a, ha => by cases ha
  | x :: as, h, a, ha => by
    simp only [wfArgs, Bool.and_eq_true, Bool.or_eq_true, Bool.not_eq_true'] at h
    obtain ⟨⟨⟨⟨⟨⟨h1, h2⟩, h3⟩, h4⟩, h5⟩, h6⟩, h7⟩ := h
    rw [List.mem_cons] at ha
    rcases ha with rfl | ha
    · refine ⟨fun h => h1.resolve_left (by rw [h]; simp), fun h => h2.resolve_left (by rw [h]; simp), ?_⟩
      rintro ⟨_ | _, _ | _⟩ hm
      · exact h3.resolve_left (by rw [hm]; simp)
      · exact h4.resolve_left (by rw [hm]; simp)
      · exact h5.resolve_left (by rw [hm]; simp)
      · exact h6.resolve_left (by rw [hm]; simp)
    · exact wfArgs_mem h7 a ha

theorem resolveList_eq_map (ps : List (List Byte)) (as es : List Ope) : resolveList ps as es = es.map (resolve ps as) := by
  induction es with
  | nil => rfl
  | cons e es ih => simp [resolveList, ih]

theorem eachL_iff {p : Ope → Prop} : ∀ {es : List Ope}, Ope.EachL p es ↔ ∀ e ∈ es, e.Each p
  | [] => by simp [Ope.EachL]
  | e :: es => by simp [Ope.EachL, eachL_iff (es := es)]

/-- Every argument of a well-formed call (not only those that are ever executed) fits, if the macro's arguments are executed
at all in some mode. -/
theorem args_ok (hv : EnvOk cfg C al κ v) {r : Nat} {d : Def} {as : List Ope} (hd : d.isMacro = true)
    (hw : wfArgs cfg C κ r as = true) (hn : Ope.EachL (nodeOk cfg al) as)
    (hex : ∃ m, C.amodes r m = true) :
    ∀ a ∈ resolveList v.params v.args as, ArgOk cfg C al (C.ctx r d) a := by
  intro a ha
  rw [resolveList_eq_map, List.mem_map] at ha
  obtain ⟨a0, ha0, rfl⟩ := ha
  obtain ⟨h1, h2, h3⟩ := wfArgs_mem hw a0 ha0
  obtain ⟨m0, hm0⟩ := hex
  have hw0 := h3 m0 hm0
  have hc : C.ctx r d = ⟨d.params, C.abound r, C.anull r, C.aleak r, C.amodes r⟩ := by simp [Cert.ctx, hd]
  rw [hc]
  exact ⟨fun m hm => wf_resolve hv a0 (h3 m hm), fun h => h1 (nul_resolve hv a0 hw0 h), fun h => h2 (lk_resolve hv a0 hw0 h),
    each_resolve hv a0 hw0 (eachL_iff.mp hn a0 ha0)⟩

theorem lookupArg_mem {ps : List (List Byte)} {as : List Ope} {nm : List Byte} (h : nm ∈ ps) (hl : as.length = ps.length) :
    ∃ a ∈ as, lookupArg ps as nm = some a := by
  unfold lookupArg
  obtain ⟨k, hk, e⟩ := List.mem_iff_getElem.mp h
  have hm : (nm, as[k]'(by omega)) ∈ ps.zip as := by
    rw [List.mem_iff_getElem]
    exact ⟨k, by simp; omega, by simp [e]⟩
  cases hf : (ps.zip as).find? fun p => p.1 = nm with
  | none =>
    rw [List.find?_eq_none] at hf
    have := hf _ hm
    simp at this
  | some p => exact ⟨p.2, (List.of_mem_zip (List.mem_of_find?_eq_some hf)).2, rfl⟩

/-- The arguments of a call describe the callee's scope. -/
theorem call_env (hv : EnvOk cfg C al κ v) {r : Nat} {d : Def} {as : List Ope} (hd : d.isMacro = true)
    (hnames : ∀ p ∈ d.params, p ∈ C.names) (hl : as.length = d.params.length)
    (hw : wfArgs cfg C κ r as = true) (hn : Ope.EachL (nodeOk cfg al) as) (hex : ∃ m, C.amodes r m = true) :
    EnvOk cfg C al (C.ctx r d) ⟨d.params, resolveList v.params v.args as⟩ := by
  have ha := args_ok hv (d := d) hd hw hn hex
  have hp : (C.ctx r d).params = d.params := by simp [Cert.ctx, hd]
  have hl' : (resolveList v.params v.args as).length = d.params.length := by rw [resolveList_eq_map]; simpa using hl
  refine ⟨hnames, ?_, ?_⟩
  · intro nm hm
    rw [hp] at hm
    obtain ⟨a, h1, h2⟩ := lookupArg_mem hm hl'
    exact ⟨a, h2, ha a h1⟩
  · intro k hk
    rw [hp] at hk
    refine ⟨(resolveList v.params v.args as)[k]'(by omega), by simp, ?_⟩
    exact ha _ (List.getElem_mem _)

mutual
theorem noPrec_of_each : ∀ (e : Ope), e.Each (nodeOk cfg al) → e.noPrec = true
  | .seq es _, h => by simp only [Ope.Each, Ope.noPrec] at h ⊢; exact noPrecL_of_each es h.2
  | .cho es _ _, h => by simp only [Ope.Each, Ope.noPrec] at h ⊢; exact noPrecL_of_each es h.2
  | .rep e _ _ _, h => by simp only [Ope.Each, Ope.noPrec] at h ⊢; exact noPrec_of_each e h.2
  | .and_ e, h => by simp only [Ope.Each, Ope.noPrec] at h ⊢; exact noPrec_of_each e h.2
  | .not_ e, h => by simp only [Ope.Each, Ope.noPrec] at h ⊢; exact noPrec_of_each e h.2
  | .capScope e, h => by simp only [Ope.Each, Ope.noPrec] at h ⊢; exact noPrec_of_each e h.2
  | .cap _ e, h => by simp only [Ope.Each, Ope.noPrec] at h ⊢; exact noPrec_of_each e h.2
  | .tok e, h => by simp only [Ope.Each, Ope.noPrec] at h ⊢; exact noPrec_of_each e h.2
  | .ign e, h => by simp only [Ope.Each, Ope.noPrec] at h ⊢; exact noPrec_of_each e h.2
  | .ws e, h => by simp only [Ope.Each, Ope.noPrec] at h ⊢; exact noPrec_of_each e h.2
  | .ref _ _ as, h => by simp only [Ope.Each, Ope.noPrec] at h ⊢; exact noPrecL_of_each as h.2
  | .recov _ _ as, h => by simp only [Ope.Each, Ope.noPrec] at h ⊢; exact noPrecL_of_each as h.2
  | .prec _ _ _ _, h => by simp only [Ope.Each, nodeOk] at h
  | .dict _ _, _ => rfl
  | .lit _ _, _ => rfl
  | .cls _, _ => rfl
  | .chr _, _ => rfl
  | .dot, _ => rfl
  | .param _ _, _ => rfl
  | .bref _, _ => rfl
  | .cut, _ => rfl
  | .usr _, _ => rfl
  | .weak _, _ => rfl
  | .null, _ => rfl

theorem noPrecL_of_each : ∀ (es : List Ope), Ope.EachL (nodeOk cfg al) es → Ope.noPrecList es = true
  | [], _ => rfl
  | e :: es, h => by
    simp only [Ope.EachL, Ope.noPrecList, Bool.and_eq_true] at h ⊢
    exact ⟨noPrec_of_each e h.1, noPrecL_of_each es h.2⟩
end
end
end Verif
