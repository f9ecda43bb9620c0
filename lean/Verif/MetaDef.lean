import Verif.MetaInstr
/-!
# Reading what is written: definitions and whole texts
-/

namespace Verif.Meta
open Verif CharClass Utf8 Props

section
variable {T : Str}

theorem leftarrow_read {uni : Bool} {ks : List Tok} {sp u t : Str} (hk : Tk T (.arrow uni) ks sp u t) : Rd T gLEFTARROW t u [none] [] := by
  have hs : Sub T t := hk.eq ▸ hk.sub
  have h0 := hk.sub
  refine Rd.ruleX (d := dLEFTARROW) (vs := []) (tk := []) rfl rfl hs ⟨_, hk.split⟩ ?_ fun _ => rfl
  rw [hk.eq]
  refine Mt.seq (MtL.cons (v := []) (tk := []) (t1 := enc (sp ++ u)) ?_ (MtL.cons (v := []) (tk := []) (spacing_read hk.spc hk.stop h0.tail) .nil))
  cases uni with
  | false => exact Mt.cho (.here (Rd.lit [60, 45] (by decide) h0))
  | true => exact Mt.cho (.next (Fl.cs (l := [(0x2190, 0x2190)]) (by decide +kernel) h0 (by decide)) (.here (Rd.lit [0x2190] (by decide) h0)))

theorem arrow_first {uni : Bool} : ∀ c, (Tok.arrow uni).chars.head? = some c → inCs [(60, 60), (0x2190, 0x2190)] c = true := by
  intro c hc
  cases uni <;> (cases hc; decide)

/-- The head of a definition is recognised. -/
theorem hd_read {uni : Bool} {ks : List Tok} {sp u t : Str} (hk : Tk T (.arrow uni) ks sp u t) : Rd T hdOpe t u [none] [] :=
  Mt.seq (MtL.cons (v := []) (tk := []) (Mt.opt_none (hk.fail (l := [(60, 60), (0x2190, 0x2190)]) (by decide +kernel) arrow_first))
    (MtL.cons (v := [none]) (tk := []) (leftarrow_read hk) .nil))

/-! ## Parameters -/

def moreParams (ps : List Str) : List Tok := ps.flatMap fun p => [.sym 44, .ident false p]

theorem Tk.param {p : Str} {ks : List Tok} {sp u t : Str} (hk : Tk T (.ident false p) ks sp u t) : Rd T gIdentifier t u [some (.str (enc p))] [] := by
  rw [hk.eq]
  exact identifier_read hk.ok (fun c hc => (idRest_not (hk.glue c hc)).1) hk.spc hk.stop hk.sub

theorem params_star : ∀ (ps : List Str) {rest : List Tok} {t : Str}, Lay (moreParams ps ++ .sym 41 :: rest) t → Sub T t →
    ∃ c t', t = c ++ t' ∧ Lay (.sym 41 :: rest) t' ∧
      MtStar (enc T) (seq [gCOMMA, gIdentifier]) (enc t) (enc t') (ps.map fun p => some (.str (enc p))) []
  | [], rest, t, hl, hs => by
    obtain ⟨sp, u, hk⟩ := Lay.tk (ks := rest) hl hs
    exact ⟨[], t, rfl, hl, .stop (hk.fail (l := [(41, 41)]) (by decide +kernel) (by intro c hc; cases hc; decide))⟩
  | p :: ps, rest, t, hl, hs => by
    have hl' : Lay (.sym 44 :: .ident false p :: (moreParams ps ++ .sym 41 :: rest)) t := by simpa [moreParams] using hl
    obtain ⟨sp, u, hk⟩ := hl'.tk hs
    obtain ⟨sp', u', hk'⟩ := hk.lay.tk hk.next
    obtain ⟨c, t', h1, h2, h3⟩ := params_star ps hk'.lay hk'.next
    refine ⟨(Tok.sym 44).chars ++ sp ++ ((Tok.ident false p).chars ++ sp' ++ c), t', by rw [hk.eq, hk'.eq, h1]; simp, h2, ?_⟩
    exact .more (v := [some (.str (enc p))]) (tk := []) (Mt.seq (MtL.cons (v := []) (tk := []) (hk.symbol (d := dCOMMA) rfl rfl rfl)
      (MtL.cons (v := [some (.str (enc p))]) (tk := []) hk'.param .nil))) h3

/-- A name alone is an expression where `,` or `)` follows. -/
theorem name_exp {p : Str} {ks ks' : List Tok} {sp u t : Str} {c : Nat} (hk : Tk T (.ident false p) (.sym c :: ks') sp u t) (hc : c = 44 ∨ c = 41) :
    Rd T gExpression t u [opeV (refTo false p none)] [] := by
  have hs : Sub T t := hk.eq ▸ hk.sub
  obtain ⟨sp', u', hk'⟩ := hk.lay.tk hk.next
  have hcc : ∃ c, t = c ++ u := ⟨_, hk.split⟩
  have hf : ∀ e ∈ [hdOpe, gLoop, gLABEL, cho [gCUT, gPrefix], seq [gSLASH, gSequence]], Fl T e u :=
    hk'.prims (l := [(44, 44), (41, 41)]) (by decide +kernel) (by intro d hd; cases hd; rcases hc with rfl | rfl <;> decide)
  have hg : ∀ e ∈ [cho [gAND, gNOT], gCUT], Fl T e t :=
    hk.prims (l := (126, 126) :: idStart) (by decide +kernel) (fun d hd => name_first (ign := false) (v := []) hk.ok d (by simpa [Tok.chars] using hd))
  have h1 := prim_ref hk (hf _ (by simp))
  have h2 := suf_step h1 (hf _ (by simp)) hs hcc
  have h3 := lab_step h2 (hf _ (by simp)) hs hcc
  have h4 := pre_step h3 (hg _ (by simp)) (hg _ (by simp)) hs hcc
  have h5 : Rd T gSequence t u [opeV (refTo false p none)] [] :=
    sqn_step (es := [refTo false p none]) (.more (v := [opeV _]) (tk := []) h4 (.stop (hf _ (by simp)))) hs hcc
  exact exp_step (es := []) h5 (.stop (hf _ (by simp))) hs hcc

/-- Parameters can be read as arguments. -/
theorem params_args : ∀ (ps : List Str) {rest : List Tok} {t : Str}, Lay (moreParams ps ++ .sym 41 :: rest) t → Sub T t →
    ∃ c t', t = c ++ t' ∧ Lay (.sym 41 :: rest) t' ∧
      MtStar (enc T) (seq [gCOMMA, gExpression]) (enc t) (enc t') ((ps.map fun p => refTo false p none).map opeV) []
  | [], rest, t, hl, hs => by
    obtain ⟨sp, u, hk⟩ := Lay.tk (ks := rest) hl hs
    exact ⟨[], t, rfl, hl, .stop (hk.fail (l := [(41, 41)]) (by decide +kernel) (by intro c hc; cases hc; decide))⟩
  | p :: ps, rest, t, hl, hs => by
    have hl' : Lay (.sym 44 :: .ident false p :: (moreParams ps ++ .sym 41 :: rest)) t := by simpa [moreParams] using hl
    obtain ⟨sp, u, hk⟩ := hl'.tk hs
    obtain ⟨sp', u', hk'⟩ := hk.lay.tk hk.next
    obtain ⟨c, t', h1, h2, h3⟩ := params_args ps hk'.lay hk'.next
    have he : Rd T gExpression u u' [opeV (refTo false p none)] [] := by
      cases ps with
      | nil => exact name_exp (ks := []) hk' (Or.inr rfl)
      | cons p' ps => exact name_exp (ks := []) hk' (Or.inl rfl)
    refine ⟨(Tok.sym 44).chars ++ sp ++ ((Tok.ident false p).chars ++ sp' ++ c), t', by rw [hk.eq, hk'.eq, h1]; simp, h2, ?_⟩
    exact .more (v := [opeV (refTo false p none)]) (tk := []) (Mt.seq (MtL.cons (v := []) (tk := []) (hk.symbol (d := dCOMMA) rfl rfl rfl)
      (MtL.cons (v := [opeV (refTo false p none)]) (tk := []) he .nil))) h3

/-! ## Definitions end expressions -/

theorem head_first {ks : List Tok} (h : Head ks) : FirstIn ((126, 126) :: idStart) ks := by
  cases h with
  | rule => exact ⟨_, _, rfl, fun hk c hc => name_first (v := []) hk c (by simpa [Tok.chars] using hc)⟩
  | macro_ => exact ⟨_, _, rfl, fun hk c hc => name_first (v := [40]) hk c (by simpa [Tok.chars] using hc)⟩

/-- No element of a sequence is read where a definition starts. -/
theorem head_prefix {ks : List Tok} (h : Head ks) {t : Str} (hl : Lay ks t) (hs : Sub T t) : Fl T gPrefix t := by
  have hfirst := Cnd.first (T := T) (L := cho [gAND, gNOT] :: primAlts.tail) (head_first h) (by decide +kernel) t hl hs
  suffices h0 : Fl T (seq [gIgnore, gIdentCont, opt gArguments, gSpacing, npd hdOpe]) t by
    have hprim : Fl T gPrimary t := by
      refine Mf.rule (d := dPrimary) rfl (Mf.cho fun e he => ?_)
      rcases List.mem_cons.mp he with rfl | he
      · exact h0
      · exact hfirst e (List.mem_cons_of_mem _ he)
    refine Mf.rule (d := dPrefix) rfl (Mf.seq (.tail (Mt.opt_none (hfirst _ (by simp))) (.head ?_)))
    exact Mf.rule (d := dSuffixWithLabel) rfl (Mf.seq (.head (Mf.rule (d := dSuffix) rfl (Mf.seq (.head hprim)))))
  cases h with
  | @rule ign nm uni ks =>
    obtain ⟨sp, u, hk⟩ := hl.tk hs
    obtain ⟨sp', u', hk'⟩ := hk.lay.tk hk.next
    have hg := fun c hc => idRest_not (hk.glue c hc)
    rw [hk.eq]
    refine Mf.seq (front_fail hk.ok (fun c hc => (hg c hc).1) hk.sub ?_)
    exact .tail (Mt.opt_none (noParen (by decide +kernel) hk.sub.tail fun c hc => (hg c hc).2))
      (.tail (spacing_read hk.spc hk.stop hk.sub.tail) (.head (Mf.npd (hd_read hk'))))
  | @macro_ ign nm p ps uni ks =>
    obtain ⟨sp, u, hk⟩ := hl.tk hs
    obtain ⟨sp1, u1, hk1⟩ := hk.lay.tk hk.next
    obtain ⟨c, v, e1, l1, r1⟩ := params_args ps hk1.lay hk1.next
    obtain ⟨sp2, w, hk2⟩ := l1.tk (sub_of hk1.next e1)
    obtain ⟨sp3, x, hk3⟩ := hk2.lay.tk hk2.next
    obtain ⟨e0, hs0, ho⟩ := call_open hk
    have he : Rd T gExpression u u1 [opeV (refTo false p none)] [] := by
      cases ps with
      | nil => exact name_exp (ks := []) hk1 (Or.inr rfl)
      | cons p' ps => exact name_exp (ks := []) hk1 (Or.inl rfl)
    have harg := arguments_read ho he r1 (hk2.symbol (d := dCLOSE) rfl rfl rfl) hs0.tail
      ⟨40 :: (sp ++ ((Tok.ident false p).chars ++ (sp1 ++ (c ++ ((Tok.sym 41).chars ++ sp2))))), by rw [hk1.eq, e1, hk2.eq]; simp⟩
    rw [e0]
    refine Mf.seq (front_fail (by have := hk.ok; exact this) (by intro c hc; cases hc; decide) hs0 ?_)
    exact .tail (Mt.opt harg) (.tail hk2.stop_nil (.head (Mf.npd (hd_read hk3))))

theorem head_cnd {ks : List Tok} (h : ks = [] ∨ Head ks) : Cnd T (gInstruction :: lExp) ks := by
  rcases h with rfl | h
  · intro t hl hs e he
    rw [show t = [] from hl]
    have : ∀ e ∈ gInstruction :: lExp, ab 50 .eof e = .fail := by decide +kernel
    exact Fl.eof (this e he)
  · intro t hl hs e he
    have h1 := Cnd.first (T := T) (L := [gInstruction, gSLASH, gCUT, gLABEL, gLoop, gPIPE]) (head_first h) (by decide +kernel) t hl hs
    by_cases hp : e = gPrefix
    · subst hp; exact head_prefix h hl hs
    · refine h1 e ?_
      simp only [lExp, lSqn, lLab, lSuf, lPrim, List.mem_cons, List.not_mem_nil, or_false] at he ⊢
      tauto

/-! ## Definitions -/

theorem WritesDef.head {d : RDef} {ts : List Tok} (h : WritesDef d ts) (rest : List Tok) : Head (ts ++ rest) := by
  cases h with
  | rule _ _ => exact .rule
  | macro_ _ _ =>
    simp only [List.cons_append, List.append_assoc]
    exact .macro_

theorem params_read {p : Str} {ps : List Str} {ign : Bool} {nm : Str} {rest : List Tok} {sp u t : Str}
    (hk : Tk T (.call ign nm) (.ident false p :: (moreParams ps ++ .sym 41 :: rest)) sp u t) :
    ∃ c x, 40 :: (sp ++ u) = c ++ x ∧ Lay rest x ∧ Stop x ∧ Rd T gParameters (40 :: (sp ++ u)) x [some (.strs ((p :: ps).map enc))] [] := by
  obtain ⟨e0, hs0, ho⟩ := call_open hk
  obtain ⟨sp1, u1, hk1⟩ := hk.lay.tk hk.next
  obtain ⟨c, v, e1, l1, r1⟩ := params_star ps hk1.lay hk1.next
  obtain ⟨sp2, w, hk2⟩ := l1.tk (sub_of hk1.next e1)
  have e2 : 40 :: (sp ++ u) = (40 :: (sp ++ ((Tok.ident false p).chars ++ (sp1 ++ (c ++ ((Tok.sym 41).chars ++ sp2)))))) ++ w := by
    rw [hk1.eq, e1, hk2.eq]; simp
  refine ⟨_, w, e2, hk2.lay, hk2.stop, ?_⟩
  have hvs : ([some (.str (enc p))] : List Val) ++ ((ps.map fun p => some (.str (enc p))) ++ []) = ((p :: ps).map enc).map fun s => some (.str s) := by simp
  refine Rd.ruleX (d := dParameters) (vs := ((p :: ps).map enc).map fun s => some (.str s)) (tk := []) rfl rfl hs0.tail ⟨_, e2⟩ ?_ fun c => ?_
  · rw [← hvs]
    exact Mt.seq (MtL.cons (v := []) (tk := []) ho (MtL.cons (v := [_]) (tk := []) hk1.param (MtL.cons (tk := []) (Mt.zom r1)
      (MtL.cons (v := []) (tk := []) (hk2.symbol (d := dCLOSE) rfl rfl rfl) .nil))))
  · show [some (valueOf _ (do .ok (.strs (← castAll asStr (((p :: ps).map enc).map fun s => some (.str s))))))] = _
    unfold valueOf
    rw [poison_strs, castAll_strs]
    rfl

/-- Instructions or none, at the end of a definition. -/
theorem Ending.reads {is : List Instr} {te rest : List Tok} (h : Ending is te) (hr : rest = [] ∨ Head rest) :
    Tail (te ++ rest) ∧ Cnd T lExp (te ++ rest) ∧ ∀ t, Lay (te ++ rest) t → Sub T t →
      ∃ c t' vs, t = c ++ t' ∧ Lay rest t' ∧ Rd T (opt gInstruction) t t' vs [] ∧ (vs = [] ∧ is = [] ∨ vs = [some (.instrs is)]) := by
  have ht : Tail rest := by rcases hr with rfl | hr; exact .nil; exact .head hr
  have hcnd := head_cnd (T := T) hr
  cases h with
  | none =>
    refine ⟨ht, hcnd.sub (by intro e he; exact List.mem_cons_of_mem _ he), fun t hl hs => ?_⟩
    exact ⟨[], t, [], rfl, hl, Mt.opt_none (hcnd t hl hs gInstruction (by simp)), Or.inl ⟨rfl, rfl⟩⟩
  | @block b =>
    refine ⟨Tail.prepend (a := [.block b]) (.cons (by simp) .nil) ht, block_cnd, fun t hl hs => ?_⟩
    obtain ⟨sp, u, hk⟩ := Lay.tk (ks := rest) hl hs
    exact ⟨_, u, _, hk.split, hk.lay, Mt.opt (block_read hk), Or.inr rfl⟩

theorem WritesDef.reads {d : RDef} {ts : List Tok} (h : WritesDef d ts) {rest : List Tok} (hr : rest = [] ∨ Head rest) {t : Str}
    (hl : Lay (ts ++ rest) t) (hs : Sub T t) : ∃ c t', t = c ++ t' ∧ Lay rest t' ∧ Rd T gDefinition t t' [some (.defn d)] [] := by
  cases h with
  | @rule ign uni nm e is ts te w en =>
    have hl' : Lay (.ident ign nm :: .arrow uni :: (ts ++ (te ++ rest))) t := by simpa using hl
    obtain ⟨ht, hcnd, hend⟩ := en.reads (T := T) hr
    obtain ⟨sp, u, hk⟩ := hl'.tk hs
    obtain ⟨sp1, u1, hk1⟩ := hk.lay.tk hk.next
    obtain ⟨c, t1, e1, l1, r1⟩ := w.reads (te ++ rest) u1 ht hcnd hk1.lay hk1.next
    obtain ⟨c2, t', vs, e3, l3, r3, hvs⟩ := hend t1 l1 (sub_of hk1.next e1)
    have hg := fun c hc => idRest_not (hk.glue c hc)
    have e2 : t = ((Tok.ident ign nm).chars ++ sp ++ ((Tok.arrow uni).chars ++ sp1 ++ (c ++ c2))) ++ t' := by rw [hk.eq, hk1.eq, e1, e3]; simp
    refine ⟨_, t', e2, l3, Rd.ruleX (d := dDefinition) (vs := [some (.flag ign), some (.str (enc nm)), none, opeV e] ++ (vs ++ [])) (tk := []) rfl rfl hs ⟨_, e2⟩ ?_ ?_⟩
    · rw [hk.eq]
      refine Mt.seq (front_read hk.ok (fun c hc => (hg c hc).1) hk.sub ?_)
      exact MtL.cons (v := []) (tk := []) (Mt.opt_none (noParen (by decide +kernel) hk.sub.tail fun c hc => (hg c hc).2))
        (MtL.cons (v := []) (tk := []) (spacing_read hk.spc hk.stop hk.sub.tail) (MtL.cons (v := [none]) (tk := []) (leftarrow_read hk1)
        (MtL.cons (v := [opeV e]) (tk := []) r1 (MtL.cons (tk := []) r3 .nil))))
    · intro c
      rcases hvs with ⟨rfl, rfl⟩ | rfl <;> rfl
  | @macro_ ign uni nm p ps e is ts te w en =>
    have hl' : Lay (.call ign nm :: .ident false p :: (moreParams ps ++ .sym 41 :: .arrow uni :: (ts ++ (te ++ rest)))) t := by simpa [moreParams] using hl
    obtain ⟨ht, hcnd, hend⟩ := en.reads (T := T) hr
    obtain ⟨sp, u, hk⟩ := hl'.tk hs
    obtain ⟨c0, x, e0, l0, st0, rp⟩ := params_read hk
    obtain ⟨e00, hs0, -⟩ := call_open hk
    have hsx : Sub T x := by rw [e0] at hs0; exact hs0.tail.tail
    obtain ⟨sp1, u1, hk1⟩ := l0.tk hsx
    obtain ⟨c, t1, e1, l1, r1⟩ := w.reads (te ++ rest) u1 ht hcnd hk1.lay hk1.next
    obtain ⟨c2, t', vs, e3, l3, r3, hvs⟩ := hend t1 l1 (sub_of hk1.next e1)
    have e2 : t = (tilde ign ++ nm ++ (c0 ++ ((Tok.arrow uni).chars ++ sp1 ++ (c ++ c2)))) ++ t' := by
      rw [e00, e0, hk1.eq, e1, e3]; simp
    refine ⟨_, t', e2, l3, Rd.ruleX (d := dDefinition)
      (vs := [some (.flag ign), some (.str (enc nm)), some (.strs ((p :: ps).map enc)), none, opeV e] ++ (vs ++ [])) (tk := []) rfl rfl hs ⟨_, e2⟩ ?_ ?_⟩
    · rw [e00]
      refine Mt.seq (front_read (by have := hk.ok; exact this) (by intro c hc; cases hc; decide) hs0 ?_)
      exact MtL.cons (v := [_]) (tk := []) (Mt.opt rp)
        (MtL.cons (v := []) (tk := []) (spacing_read (sp := []) .nil st0 hsx) (MtL.cons (v := [none]) (tk := []) (leftarrow_read hk1)
        (MtL.cons (v := [opeV e]) (tk := []) r1 (MtL.cons (tk := []) r3 .nil))))
    · intro c
      rcases hvs with ⟨rfl, rfl⟩ | rfl <;> rfl

/-! ## Texts -/

def defV (d : RDef) : Val := some (.defn d)

theorem WritesDefs.reads {ds : List RDef} {ts : List Tok} (h : WritesDefs ds ts) : ∀ {t : Str}, Lay ts t → Sub T t →
    ∃ v vs t1, v ++ vs = ds.map defV ∧ Mt (enc T) gDefinition (enc t) t1 v [] ∧ MtStar (enc T) gDefinition t1 (enc []) vs [] := by
  induction h with
  | @one d ts w =>
    intro t hl hs
    obtain ⟨c, t', e1, l1, r1⟩ := w.reads (rest := []) (Or.inl rfl) (by simpa using hl) hs
    obtain rfl : t' = [] := l1
    exact ⟨[defV d], [], _, rfl, r1, .stop (Fl.eof (T := T) (by decide +kernel))⟩
  | @more d ds ts ts' w w' ih =>
    intro t hl hs
    have hh : Head ts' := by
      cases w' with
      | one w => simpa using w.head []
      | more w _ => exact w.head _
    obtain ⟨c, t', e1, l1, r1⟩ := w.reads (Or.inr hh) hl hs
    obtain ⟨v, vs, t1, k1, k2, k3⟩ := ih l1 (sub_of hs e1)
    exact ⟨[defV d], ds.map defV, _, rfl, r1, by rw [← k1]; exact .more (tk := []) k2 k3⟩

theorem castAll_defs (ds : List RDef) : castAll asDefn (ds.map defV) = .ok ds := by
  induction ds with
  | nil => rfl
  | cons e es ih =>
    show (do let x ← asDefn (defV e); let y ← castAll asDefn (es.map defV); Except.ok (x :: y)) = _
    rw [ih]; rfl

theorem poison_defs (ds : List RDef) : poison (ds.map defV ++ [none]) = none :=
  poison_none fun v hv b hb => by
    simp only [List.mem_append, List.mem_map, List.mem_cons, List.not_mem_nil, or_false] at hv
    rcases hv with ⟨i, -, rfl⟩ | rfl <;> cases hb

/-- Spacing, definitions and the end of the text. -/
theorem grammar_body {ds : List RDef} (h : Written ds T) (hT : ∀ c ∈ T, IsScalar c) : Rd T dGrammar.ope T [] (ds.map defV ++ [none]) [] := by
  have hs : Sub T T := ⟨List.suffix_refl _, hT⟩
  obtain ⟨sp, u, ts, e1, h1, h2, h3⟩ := h
  have hsu : Sub T (sp ++ u) := e1 ▸ hs
  obtain ⟨v, vs, t1, k1, k2, k3⟩ := h3.reads h2 hsu.tail
  have heof : Rd T gEndOfFile [] [] [none] [] :=
    Rd.rule (c := []) (d := dEndOfFile) (vs := []) (tk := []) rfl rfl ⟨List.nil_suffix, hT⟩ (Mt.npd (Fl.eof (by decide +kernel))) rfl
  have hsp : Rd T gSpacing T u [] [] := by
    have := spacing_read h1 h2.stop hsu
    rwa [← e1] at this
  rw [← k1]
  have := MtL.cons (v := []) (tk := []) hsp (MtL.cons (tk := []) (Mt.oom (tk := []) (tks := []) k2 k3) (MtL.cons (tk := []) heof .nil))
  exact Mt.seq (by simpa using this)

end

end Verif.Meta
