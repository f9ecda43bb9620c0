import Verif.MetaRead
/-!
# Reading what is written: operands
-/

namespace Verif.Meta
open Verif CharClass Utf8 Props

section
variable {T : Str}

/-- The alternatives of `Primary` (peglib.h 5478-5487). -/
abbrev primAlts : List Ope := [seq [gIgnore, gIdentCont, opt gArguments, gSpacing, npd hdOpe], seq [gOPEN, gExpression, gCLOSE],
  seq [gBeginTok, gExpression, gEndTok], gCapScope, seq [gBeginCap, gExpression, gEndCap], gBackRef, gDictionaryI, gLiteralI, gDictionary, gLiteral,
  gNegatedClassI, gNegatedClass, gClassI, gClass, gDOT]

theorem MtC.at {text t s : List Byte} {e : Ope} {vs : List Val} {tk : List (Nat × Nat)} : ∀ {es : List Ope} {k : Nat}, es[k]? = some e →
    (∀ x ∈ es.take k, Mf text x t) → Mt text e t s vs tk → MtC text es k t s vs tk
  | [], _, h, _, _ => by simp at h
  | x :: es, 0, h, _, hm => by cases h; exact .here hm
  | x :: es, k + 1, h, hp, hm => .next (hp x (by simp)) (MtC.at (by simpa using h) (fun y hy => hp y (by simp [hy])) hm)

theorem prim_read (k : Nat) {e : Ope} {t u : Str} {vs : List Val} {tk : List (Nat × Nat)} {w : List Val} (he : primAlts[k]? = some e)
    (hp : ∀ x ∈ primAlts.take k, Fl T x t) (h : Rd T e t u vs tk) (hs : Sub T t) (hc : ∃ c, t = c ++ u)
    (hw : ∀ c, pushed dPrimary (rvS T rPrimary vs tk c k) = w) : Rd T gPrimary t u w [] :=
  Rd.ruleCX (d := dPrimary) rfl rfl hs hc (MtC.at he hp h) hw

/-- The alternatives before the `n`-th fail because of the first character. -/
theorem Tk.prims {k : Tok} {ks : List Tok} {sp u t : Str} (h : Tk T k ks sp u t) {l : List (Nat × Nat)} {es : List Ope}
    (ha : ∀ e ∈ es, ab 50 (.cs l) e = .fail) (hc : ∀ c, k.chars.head? = some c → inCs l c = true) : ∀ e ∈ es, Fl T e t :=
  fun e he => h.fail (ha e he) hc

/-! ## References -/

theorem ignore_read {ign : Bool} {v : Str} (hv : ign = false → ∀ c, v.head? = some c → c ≠ 126) (hs : Sub T (tilde ign ++ v)) :
    Rd T gIgnore (tilde ign ++ v) v [some (.flag ign)] [] := by
  cases ign with
  | true =>
    have hs' : Sub T (126 :: v) := hs
    exact Rd.rule (c := [126]) (d := dIgnore) rfl rfl hs (vs := [none]) (tk := [])
      (Mt.opt (Rd.rule (c := [126]) (d := dIGNORE) rfl rfl hs' (vs := []) (tk := []) (Rd.chr hs') rfl)) rfl
  | false =>
    exact Rd.rule (c := []) (d := dIgnore) rfl rfl hs (vs := []) (tk := [])
      (Mt.opt_none (Fl.no (l := [(126, 126)]) (by decide +kernel) hs (fun c hc => inCs_one.mpr (hv rfl c hc)))) rfl

theorem name_no_tilde {ign : Bool} {nm v : Str} (hn : NameOk nm) : ign = false → ∀ c, (nm ++ v).head? = some c → c ≠ 126 := by
  intro _ c hc
  obtain ⟨d, ds, rfl, h2, -⟩ := name_head hn
  cases hc
  rintro rfl
  exact absurd h2 (by decide)

/-- `~` and the name. -/
theorem front_read {ign : Bool} {nm v : Str} {es : List Ope} {s' : List Byte} {vs : List Val} {tk : List (Nat × Nat)} (hn : NameOk nm)
    (hv : ∀ c, v.head? = some c → inCs idRest c = false) (hs : Sub T (tilde ign ++ nm ++ v)) (h : MtL (enc T) es (enc v) s' vs tk) :
    MtL (enc T) (gIgnore :: gIdentCont :: es) (enc (tilde ign ++ nm ++ v)) s' (some (.flag ign) :: some (.str (enc nm)) :: vs) tk := by
  rw [List.append_assoc] at hs ⊢
  exact MtL.cons (v := [_]) (tk := []) (ignore_read (name_no_tilde hn) hs) (MtL.cons (v := [_]) (tk := []) (identCont_read hn hv hs.tail) h)

theorem front_fail {ign : Bool} {nm v : Str} {es : List Ope} (hn : NameOk nm)
    (hv : ∀ c, v.head? = some c → inCs idRest c = false) (hs : Sub T (tilde ign ++ nm ++ v)) (h : MfL (enc T) es (enc v)) :
    MfL (enc T) (gIgnore :: gIdentCont :: es) (enc (tilde ign ++ nm ++ v)) := by
  rw [List.append_assoc] at hs ⊢
  exact .tail (ignore_read (name_no_tilde hn) hs) (.tail (identCont_read hn hv hs.tail) h)

theorem noParen {e : Ope} {v : Str} (h : ab 50 (.no [(40, 40)]) e = .fail) (hs : Sub T v) (hv : ∀ c, v.head? = some c → c ≠ 40) : Fl T e v :=
  Fl.no h hs fun c hc => inCs_one.mpr (hv c hc)

theorem prim_ref {ign : Bool} {nm : Str} {ks : List Tok} {sp u t : Str} (hk : Tk T (.ident ign nm) ks sp u t) (hf : Fl T hdOpe u) :
    Rd T gPrimary t u [opeV (refTo ign nm none)] [] := by
  have hg := fun c hc => idRest_not (hk.glue c hc)
  have hs : Sub T t := hk.eq ▸ hk.sub
  refine prim_read 0 rfl (by simp) (vs := [some (.flag ign), some (.str (enc nm))]) (tk := []) ?_ hs ⟨_, hk.split⟩ ?_
  · rw [hk.eq]
    refine Mt.seq (front_read hk.ok (fun c hc => (hg c hc).1) hk.sub ?_)
    exact MtL.cons (v := []) (tk := []) (Mt.opt_none (noParen (by decide +kernel) hk.sub.tail fun c hc => (hg c hc).2))
      (MtL.cons (v := []) (tk := []) (spacing_read hk.spc hk.stop hk.sub.tail) (MtL.cons (v := []) (tk := []) (Mt.npd hf) .nil))
  · intro c
    show [some (valueOf _ (aPrimary _ 0))] = _
    cases ign <;> rfl

theorem Tk.stop_nil {k : Tok} {ks : List Tok} {sp u t : Str} (hk : Tk T k ks sp u t) : Rd T gSpacing u u [] [] :=
  spacing_read (sp := []) .nil hk.stop hk.next

/-- `Arguments`. -/
theorem arguments_read {a : Src} {as : List Src} {t u v w x : Str} (h0 : Rd T gOPEN t u [] []) (h1 : Rd T gExpression u v [opeV a] [])
    (h2 : MtStar (enc T) (seq [gCOMMA, gExpression]) (enc v) (enc w) (as.map opeV) []) (h3 : Rd T gCLOSE w x [] []) (hs : Sub T t)
    (hc : ∃ c, t = c ++ x) : Rd T gArguments t x [some (.opes (a :: as))] [] := by
  refine Rd.ruleX (d := dArguments) (vs := (a :: as).map opeV) (tk := []) rfl rfl hs hc ?_ fun c => ?_
  · exact Mt.seq (MtL.cons (v := []) (tk := []) h0 (MtL.cons (v := [opeV a]) (tk := []) h1
      (by simpa using MtL.cons (v := as.map opeV) (tk := []) (Mt.zom h2) (MtL.cons (v := []) (tk := []) h3 .nil))))
  · show [some (valueOf ((a :: as).map opeV) (do .ok (.opes (← castAll asOpe ((a :: as).map opeV)))))] = _
    unfold valueOf
    rw [poison_opes, castAll_opes]
    rfl

theorem call_open {ign : Bool} {nm : Str} {ks : List Tok} {sp u t : Str} (hk : Tk T (.call ign nm) ks sp u t) :
    t = tilde ign ++ nm ++ (40 :: (sp ++ u)) ∧ Sub T (tilde ign ++ nm ++ (40 :: (sp ++ u))) ∧ Rd T gOPEN (40 :: (sp ++ u)) u [] [] := by
  have e1 : t = tilde ign ++ nm ++ (40 :: (sp ++ u)) := by rw [hk.eq]; simp [Tok.chars]
  have hs : Sub T t := hk.eq ▸ hk.sub
  rw [e1] at hs
  exact ⟨e1, hs, sym_read (d := dOPEN) rfl rfl hk.spc hk.stop hs.tail rfl⟩

theorem prim_call {ign : Bool} {nm : Str} {a : Src} {as : List Src} {ks ks' : List Tok} {sp u t v w sp' x : Str} (hk : Tk T (.call ign nm) ks sp u t)
    (h1 : Rd T gExpression u v [opeV a] []) (h2 : MtStar (enc T) (seq [gCOMMA, gExpression]) (enc v) (enc w) (as.map opeV) [])
    (hk' : Tk T (.sym 41) ks' sp' x w) (hf : Fl T hdOpe x) (hc : ∃ c, u = c ++ x) :
    Rd T gPrimary t x [opeV (refTo ign nm (some (a :: as)))] [] := by
  obtain ⟨e1, hs, ho⟩ := call_open hk
  obtain ⟨c, hc⟩ := hc
  have hs' : Sub T t := hk.eq ▸ hk.sub
  have harg := arguments_read ho h1 h2 (hk'.symbol (d := dCLOSE) rfl rfl rfl) hs.tail ⟨40 :: (sp ++ c), by rw [hc]; simp⟩
  refine prim_read 0 rfl (by simp) (vs := [some (.flag ign), some (.str (enc nm)), some (.opes (a :: as))]) (tk := []) ?_ hs'
    ⟨tilde ign ++ nm ++ (40 :: (sp ++ c)), by rw [e1, hc]; simp⟩ ?_
  · rw [e1]
    refine Mt.seq (front_read (by have := hk.ok; exact this) (by intro c hc; cases hc; decide) hs ?_)
    exact MtL.cons (v := [_]) (tk := []) (Mt.opt harg) (MtL.cons (v := []) (tk := []) hk'.stop_nil (MtL.cons (v := []) (tk := []) (Mt.npd hf) .nil))
  · intro c
    show [some (valueOf _ (aPrimary _ 0))] = _
    cases ign <;> rfl

/-! ## Brackets -/

theorem prim_group {e : Src} {ks ks' : List Tok} {sp u t v sp' x : Str} (hk : Tk T (.sym 40) ks sp u t) (h : Rd T gExpression u v [opeV e] [])
    (hk' : Tk T (.sym 41) ks' sp' x v) (hc : ∃ c, u = c ++ x) : Rd T gPrimary t x [opeV e] [] := by
  obtain ⟨c, hc⟩ := hc
  have hs : Sub T t := hk.eq ▸ hk.sub
  refine prim_read 1 rfl (hk.prims (l := [(40, 40)]) (by decide +kernel) (by intro c hc; cases hc; decide)) (vs := [opeV e]) (tk := []) ?_ hs
    ⟨(Tok.sym 40).chars ++ (sp ++ c), by rw [hk.eq, hc]; simp⟩ fun c => rfl
  exact Mt.seq (MtL.cons (v := []) (tk := []) (hk.symbol (d := dOPEN) rfl rfl rfl) (MtL.cons (v := [_]) (tk := []) h
    (MtL.cons (v := []) (tk := []) (hk'.symbol (d := dCLOSE) rfl rfl rfl) .nil)))

theorem prim_token {e : Src} {ks ks' : List Tok} {sp u t v sp' x : Str} (hk : Tk T (.sym 60) ks sp u t) (h : Rd T gExpression u v [opeV e] [])
    (hk' : Tk T (.sym 62) ks' sp' x v) (hc : ∃ c, u = c ++ x) : Rd T gPrimary t x [opeV (.tok e)] [] := by
  obtain ⟨c, hc⟩ := hc
  have hs : Sub T t := hk.eq ▸ hk.sub
  refine prim_read 2 rfl (hk.prims (l := [(60, 60)]) (by decide +kernel) (by intro c hc; cases hc; decide)) (vs := [opeV e]) (tk := []) ?_ hs
    ⟨(Tok.sym 60).chars ++ (sp ++ c), by rw [hk.eq, hc]; simp⟩ fun c => rfl
  exact Mt.seq (MtL.cons (v := []) (tk := []) (hk.symbol (d := dBeginTok) rfl rfl rfl) (MtL.cons (v := [_]) (tk := []) h
    (MtL.cons (v := []) (tk := []) (hk'.symbol (d := dEndTok) rfl rfl rfl) .nil)))

theorem prim_scope {e : Src} {ks ks' : List Tok} {sp u t v sp' x : Str} (hk : Tk T .scope ks sp u t) (h : Rd T gExpression u v [opeV e] [])
    (hk' : Tk T (.sym 41) ks' sp' x v) (hc : ∃ c, u = c ++ x) : Rd T gPrimary t x [opeV (.capScope e)] [] := by
  obtain ⟨c, hc⟩ := hc
  have hs : Sub T t := hk.eq ▸ hk.sub
  have hs1 : Sub T (36 :: 40 :: (sp ++ u)) := hk.sub
  have hcc : ∃ c, t = c ++ x := ⟨Tok.scope.chars ++ (sp ++ c), by rw [hk.eq, hc]; simp⟩
  have h0 : Rd T gBeginCapScope t u [] [] := by
    refine Rd.ruleX (d := dBeginCapScope) (vs := []) (tk := []) rfl rfl hs ⟨_, hk.split⟩ ?_ fun _ => rfl
    rw [hk.eq]
    exact Mt.seq (MtL.cons (v := []) (tk := []) (Rd.chr hs1) (MtL.cons (v := []) (tk := []) (Rd.chr hs1.tail1)
      (MtL.cons (v := []) (tk := []) (spacing_read (sp := sp) (u := u) hk.spc hk.stop hs1.tail1.tail1) .nil)))
  refine prim_read 3 rfl (hk.prims (l := [(36, 36)]) (by decide +kernel) (by intro c hc; cases hc; decide)) (vs := [opeV e]) (tk := []) ?_ hs
    hcc fun c => rfl
  exact Rd.ruleX (d := dCapScope) (vs := [opeV e]) (tk := []) rfl rfl hs hcc (Mt.seq (MtL.cons (v := []) (tk := []) h0 (MtL.cons (v := [_]) (tk := []) h
    (MtL.cons (v := []) (tk := []) (hk'.symbol (d := dEndCapScope) rfl rfl rfl) .nil)))) fun _ => rfl

/-! ## Captures -/

theorem dollar_name {nm v : Str} {es : List Ope} {s' : List Byte} {vs : List Val} {tk : List (Nat × Nat)} (hn : NameOk nm)
    (hv : ∀ c, v.head? = some c → inCs idRest c = false) (hs : Sub T (36 :: nm ++ v)) (h : MtL (enc T) es (enc v) s' vs tk) :
    MtL (enc T) (.chr 36 :: .tok gIdentCont :: es) (enc (36 :: nm ++ v)) s' (some (.str (enc nm)) :: vs)
      ((pos (enc T) (enc (nm ++ v)), pos (enc T) (enc v) - pos (enc T) (enc (nm ++ v))) :: tk) := by
  have hs1 : Sub T (36 :: (nm ++ v)) := hs
  exact MtL.cons (v := []) (tk := []) (Rd.chr hs1) (MtL.cons (v := [_]) (tk := [_]) (Mt.tok (identCont_read hn hv hs1.tail1)) h)

theorem prim_capture {nm : Str} {e : Src} {ks ks' : List Tok} {sp u t v sp' x : Str} (hk : Tk T (.capOpen nm) ks sp u t)
    (h : Rd T gExpression u v [opeV e] []) (hk' : Tk T (.sym 62) ks' sp' x v) (hc : ∃ c, u = c ++ x) : Rd T gPrimary t x [opeV (.cap (enc nm) e)] [] := by
  obtain ⟨c, hc⟩ := hc
  have hok : NameOk nm := hk.ok
  have hs : Sub T t := hk.eq ▸ hk.sub
  have e1 : t = 36 :: nm ++ (60 :: (sp ++ u)) := by rw [hk.eq]; simp [Tok.chars]
  have hs1 : Sub T (36 :: nm ++ (60 :: (sp ++ u))) := e1 ▸ hs
  have hs2 : Sub T (nm ++ (60 :: (sp ++ u))) := hs1.tail1
  have hlt : ∀ c, (60 :: (sp ++ u)).head? = some c → inCs idRest c = false := by intro c hc; cases hc; decide
  have hcc : ∃ c, t = c ++ x := ⟨(Tok.capOpen nm).chars ++ (sp ++ c), by rw [hk.eq, hc]; simp⟩
  have hbody : MtL (enc T) [.chr 60, gSpacing] (enc (60 :: (sp ++ u))) (enc u) [] [] :=
    MtL.cons (v := []) (tk := []) (Rd.chr hs2.tail) (MtL.cons (v := []) (tk := []) (spacing_read hk.spc hk.stop hs2.tail.tail1) .nil)
  have h0 : Rd T gBeginCap t u [some (.view (enc nm))] [] := by
    refine Rd.ruleX (d := dBeginCap) (vs := [some (.str (enc nm))])
      (tk := [(pos (enc T) (enc (nm ++ (60 :: (sp ++ u)))), pos (enc T) (enc (60 :: (sp ++ u))) - pos (enc T) (enc (nm ++ (60 :: (sp ++ u)))))])
      rfl rfl hs ⟨_, hk.split⟩ ?_ fun c => ?_
    · rw [e1]; exact Mt.seq (dollar_name hok hlt hs1 hbody)
    · show [some (valueOf _ (.ok (.view (token [slice (enc T) _] _))))] = _
      rw [slice_tok hs2]
      rfl
  have hcs : Fl T gCapScope t := by
    refine Mf.rule (d := dCapScope) rfl (Mf.seq (.head (Mf.rule (d := dBeginCapScope) rfl (Mf.seq ?_))))
    rw [e1]
    refine .tail (Rd.chr (show Sub T (36 :: (nm ++ (60 :: (sp ++ u)))) from hs1)) (.head ?_)
    obtain ⟨d, ds, rfl, h2, -⟩ := name_head hok
    exact Fl.cs (l := idStart) (by decide +kernel) hs2 h2
  refine prim_read 4 rfl ?_ (vs := [some (.view (enc nm)), opeV e]) (tk := []) ?_ hs hcc fun c => rfl
  · intro y hy
    have : y ∈ primAlts.take 3 ∨ y = gCapScope := by
      simp only [primAlts, List.take, List.mem_cons, List.not_mem_nil, or_false] at hy ⊢
      tauto
    rcases this with hy | rfl
    · exact hk.prims (l := [(36, 36)]) (by decide +kernel) (by intro c hc; cases hc; decide) y hy
    · exact hcs
  · exact Mt.seq (MtL.cons (v := [_]) (tk := []) h0 (MtL.cons (v := [_]) (tk := []) h
      (MtL.cons (v := []) (tk := []) (hk'.symbol (d := dEndCap) rfl rfl rfl) .nil)))

theorem prim_bref {nm : Str} {ks : List Tok} {sp u t : Str} (hk : Tk T (.bref nm) ks sp u t) : Rd T gPrimary t u [opeV (.bref (enc nm))] [] := by
  have hok : NameOk nm := hk.ok
  have hs : Sub T t := hk.eq ▸ hk.sub
  have e1 : t = 36 :: nm ++ (sp ++ u) := by rw [hk.eq]; simp [Tok.chars]
  have hs1 : Sub T (36 :: nm ++ (sp ++ u)) := e1 ▸ hs
  have hs2 : Sub T (nm ++ (sp ++ u)) := hs1.tail1
  have hg : ∀ c, (sp ++ u).head? = some c → inCs idRest c = false ∧ c ≠ 60 := by
    intro c hc
    have h := hk.glue c hc
    simp only [Tok.glue, inCs, List.any_cons, Bool.or_eq_false_iff] at h
    refine ⟨by simpa only [inCs] using h.2, ?_⟩
    rintro rfl
    exact absurd h.1 (by decide)
  have hcs : Fl T gCapScope t := by
    refine Mf.rule (d := dCapScope) rfl (Mf.seq (.head (Mf.rule (d := dBeginCapScope) rfl (Mf.seq ?_))))
    rw [e1]
    refine .tail (Rd.chr (show Sub T (36 :: (nm ++ (sp ++ u))) from hs1)) (.head ?_)
    obtain ⟨d, ds, rfl, h2, -⟩ := name_head hok
    exact Fl.cs (l := idStart) (by decide +kernel) hs2 h2
  have hbc : Fl T (seq [gBeginCap, gExpression, gEndCap]) t := by
    refine Mf.seq (.head (Mf.rule (d := dBeginCap) rfl (Mf.seq ?_)))
    rw [e1]
    refine .tail (Rd.chr (show Sub T (36 :: (nm ++ (sp ++ u))) from hs1)) (.tail (Mt.tok (identCont_read hok (fun c hc => (hg c hc).1) hs2)) (.head ?_))
    exact Fl.no (l := [(60, 60)]) (by decide +kernel) hs2.tail fun c hc => inCs_one.mpr (hg c hc).2
  refine prim_read 5 rfl ?_ (vs := [opeV (.bref (enc nm))]) (tk := []) ?_ hs ⟨_, hk.split⟩ fun c => rfl
  · intro y hy
    have : y ∈ primAlts.take 3 ∨ y = gCapScope ∨ y = seq [gBeginCap, gExpression, gEndCap] := by
      simp only [primAlts, List.take, List.mem_cons, List.not_mem_nil, or_false] at hy ⊢
      tauto
    rcases this with hy | rfl | rfl
    · exact hk.prims (l := [(36, 36)]) (by decide +kernel) (by intro c hc; cases hc; decide) y hy
    · exact hcs
    · exact hbc
  · refine Rd.ruleX (d := dBackRef) (vs := [some (.str (enc nm))])
      (tk := [(pos (enc T) (enc (nm ++ (sp ++ u))), pos (enc T) (enc (sp ++ u)) - pos (enc T) (enc (nm ++ (sp ++ u))))])
      rfl rfl hs ⟨_, hk.split⟩ ?_ fun c => ?_
    · rw [e1]
      exact Mt.seq (dollar_name hok (fun c hc => (hg c hc).1) hs1 (MtL.cons (v := []) (tk := []) (spacing_read hk.spc hk.stop hs2.tail) .nil))
    · show [some (valueOf _ (.ok (.ope (.bref (token [slice (enc T) _] _)))))] = _
      rw [slice_tok hs2]
      rfl

theorem prim_dot {ks : List Tok} {sp u t : Str} (hk : Tk T (.sym 46) ks sp u t) : Rd T gPrimary t u [opeV .dot] [] := by
  have hs : Sub T t := hk.eq ▸ hk.sub
  refine prim_read 14 rfl (hk.prims (l := [(46, 46)]) (by decide +kernel) (by intro c hc; cases hc; decide)) (vs := [opeV .dot]) (tk := []) ?_ hs
    ⟨_, hk.split⟩ fun c => rfl
  rw [hk.eq]
  exact sym_read (d := dDOT) rfl rfl hk.spc hk.stop hk.sub rfl

/-! ## Literals and dictionaries -/

/-- The rule that reads the words of a dictionary. -/
def gWord (ic : Bool) : Ope := if ic then gLiteralID else gLiteralD

theorem word_read {q : Nat} {us : List Chr} {ic : Bool} {ks : List Tok} {sp u t : Str} (hk : Tk T (.lit q us ic) ks sp u t) :
    Rd T (gWord ic) t u [some (.str (litVal us))] [] := by
  rw [hk.eq]
  cases ic with
  | true => exact literal_read (d := dLiteralID) (mk := .str) rfl rfl rfl rfl (fun _ _ _ _ => rfl) hk.ok hk.spc hk.stop hk.sub
  | false => exact literal_read (d := dLiteralD) (mk := .str) rfl rfl rfl rfl (fun _ _ _ _ => rfl) hk.ok hk.spc hk.stop hk.sub

theorem lit_first {q : Nat} {us : List Chr} {ic : Bool} (hk : (Tok.lit q us ic).Ok) : ∀ c, (Tok.lit q us ic).chars.head? = some c → inCs [(39, 39), (34, 34)] c = true := by
  intro c hc
  have := hk.1
  cases hc
  simp at this
  rcases this with rfl | rfl <;> decide

/-- The alternatives of `Primary` before those for literals, and those for case-insensitive ones at a plain literal. -/
theorem lit_skip {q : Nat} {us : List Chr} {ks : List Tok} {sp u t : Str} (hk : Tk T (.lit q us false) ks sp u t) : ∀ e ∈ primAlts.take 8, Fl T e t := by
  intro e he
  have hw : ∀ c, (sp ++ u).head? = some c → inCs [(105, 105)] c = false := hk.glue
  have : e ∈ primAlts.take 6 ∨ e = gDictionaryI ∨ e = gLiteralI := by
    simp only [primAlts, List.take, List.mem_cons, List.not_mem_nil, or_false] at he ⊢
    tauto
  rcases this with he | rfl | rfl
  · exact hk.prims (l := [(39, 39), (34, 34)]) (by decide +kernel) (lit_first hk.ok) e he
  · refine Mf.rule (d := dDictionaryI) rfl (Mf.seq (.head ?_))
    rw [hk.eq]
    exact literalI_fail (d := dLiteralID) rfl rfl hk.ok hw hk.sub
  · rw [hk.eq]
    exact literalI_fail (d := dLiteralI) rfl rfl hk.ok hw hk.sub

theorem prim_lit {q : Nat} {us : List Chr} {ic : Bool} {ks : List Tok} {sp u t : Str} (hk : Tk T (.lit q us ic) ks sp u t) (hp : Fl T gPIPE u) :
    Rd T gPrimary t u [opeV (.lit (litVal us) ic)] [] := by
  have hs : Sub T t := hk.eq ▸ hk.sub
  have hno : ∀ {e : Ope}, Fl T (oom (seq [gPIPE, e])) u := Mf.oom (Mf.seq (.head hp))
  cases ic with
  | true =>
    refine prim_read 7 rfl ?_ (vs := [opeV (.lit (litVal us) true)]) (tk := []) ?_ hs ⟨_, hk.split⟩ fun c => rfl
    · intro e he
      have : e ∈ primAlts.take 6 ∨ e = gDictionaryI := by
        simp only [primAlts, List.take, List.mem_cons, List.not_mem_nil, or_false] at he ⊢
        tauto
      rcases this with he | rfl
      · exact hk.prims (l := [(39, 39), (34, 34)]) (by decide +kernel) (lit_first hk.ok) e he
      · exact Mf.rule (d := dDictionaryI) rfl (Mf.seq (.tail (word_read hk) (.head hno)))
    · rw [hk.eq]
      exact literal_read (d := dLiteralI) (mk := fun s => .ope (.lit s true)) rfl rfl rfl rfl (fun _ _ _ _ => rfl) hk.ok hk.spc hk.stop hk.sub
  | false =>
    refine prim_read 9 rfl ?_ (vs := [opeV (.lit (litVal us) false)]) (tk := []) ?_ hs ⟨_, hk.split⟩ fun c => rfl
    · intro e he
      have : e ∈ primAlts.take 8 ∨ e = gDictionary := by
        simp only [primAlts, List.take, List.mem_cons, List.not_mem_nil, or_false] at he ⊢
        tauto
      rcases this with he | rfl
      · exact lit_skip hk e he
      · exact Mf.rule (d := dDictionary) rfl (Mf.seq (.tail (word_read hk) (.head hno)))
    · rw [hk.eq]
      exact literal_read (d := dLiteral) (mk := fun s => .ope (.lit s false)) rfl rfl rfl rfl (fun _ _ _ _ => rfl) hk.ok hk.spc hk.stop hk.sub

/-- What `rest` must not begin with, as far as it is laid out in the text. -/
def Cnd (T : Str) (L : List Ope) (rest : List Tok) : Prop := ∀ t, Lay rest t → Sub T t → ∀ e ∈ L, Fl T e t

theorem words_read {ic : Bool} : ∀ (ws : List (Nat × List Chr)) {rest : List Tok} {t : Str}, Lay (moreWords ic ws ++ rest) t → Sub T t → Cnd T [gPIPE] rest →
    ∃ c t', t = c ++ t' ∧ Lay rest t' ∧ MtStar (enc T) (seq [gPIPE, gWord ic]) (enc t) (enc t') (ws.map fun w => some (.str (litVal w.2))) []
  | [], rest, t, hl, hs, hp => ⟨[], t, rfl, hl, .stop (Mf.seq (.head (hp t hl hs gPIPE (by simp))))⟩
  | w :: ws, rest, t, hl, hs, hp => by
    have hl' : Lay (.sym 124 :: .lit w.1 w.2 ic :: (moreWords ic ws ++ rest)) t := by simpa [moreWords] using hl
    obtain ⟨sp, u, hk⟩ := hl'.tk hs
    obtain ⟨sp', u', hk'⟩ := hk.lay.tk hk.next
    obtain ⟨c, t', h1, h2, h3⟩ := words_read ws hk'.lay hk'.next hp
    refine ⟨(Tok.sym 124).chars ++ sp ++ ((Tok.lit w.1 w.2 ic).chars ++ sp' ++ c), t', ?_, h2, ?_⟩
    · rw [hk.eq, hk'.eq, h1]; simp
    · exact .more (v := [some (.str (litVal w.2))]) (tk := []) (Mt.seq (MtL.cons (v := []) (tk := []) (hk.symbol (d := dPIPE) rfl rfl rfl)
        (MtL.cons (v := [some (.str (litVal w.2))]) (tk := []) (word_read hk') .nil))) h3

theorem dict_value (ic : Bool) (l : List (List Byte)) :
    valueOf (l.map fun s => some (.str s)) (do .ok (.ope (.dict (← castAll asStr (l.map fun s => some (.str s))) ic))) = .ope (.dict l ic) := by
  unfold valueOf
  rw [poison_strs, castAll_strs]
  rfl

theorem prim_dict {q : Nat} {us : List Chr} {ic : Bool} {w : Nat × List Chr} {ws : List (Nat × List Chr)} {rest : List Tok} {t : Str}
    (hl : Lay (.lit q us ic :: (moreWords ic (w :: ws) ++ rest)) t) (hs : Sub T t) (hp : Cnd T [gPIPE] rest) :
    ∃ c t', t = c ++ t' ∧ Lay rest t' ∧ Rd T gPrimary t t' [opeV (.dict (litVal us :: (w :: ws).map fun w => litVal w.2) ic)] [] := by
  obtain ⟨sp, u, hk⟩ := hl.tk hs
  have hl' : Lay (.sym 124 :: .lit w.1 w.2 ic :: (moreWords ic ws ++ rest)) u := by simpa [moreWords] using hk.lay
  obtain ⟨sp1, u1, hk1⟩ := hl'.tk hk.next
  obtain ⟨sp2, u2, hk2⟩ := hk1.lay.tk hk1.next
  obtain ⟨c, t', h1, h2, h3⟩ := words_read ws hk2.lay hk2.next hp
  have hcc : ∃ c, t = c ++ t' :=
    ⟨(Tok.lit q us ic).chars ++ sp ++ ((Tok.sym 124).chars ++ sp1 ++ ((Tok.lit w.1 w.2 ic).chars ++ sp2 ++ c)), by rw [hk.eq, hk1.eq, hk2.eq, h1]; simp⟩
  obtain ⟨cc, hcc'⟩ := hcc
  refine ⟨cc, t', hcc', h2, ?_⟩
  have hvs : (([some (.str (litVal us))] : List Val) ++ (([some (.str (litVal w.2))] : List Val) ++ (ws.map fun w => some (.str (litVal w.2))) ++ [])) =
      ((litVal us :: (w :: ws).map fun w => litVal w.2).map fun s => some (.str s)) := by simp
  have hbody : Mt (enc T) (seq [gWord ic, oom (seq [gPIPE, gWord ic])]) (enc t) (enc t')
      ((litVal us :: (w :: ws).map fun w => litVal w.2).map fun s => some (.str s)) [] := by
    rw [← hvs]
    exact Mt.seq (MtL.cons (tk := []) (word_read hk) (MtL.cons (tk := []) (Mt.oom (v := [_]) (tk := []) (Mt.seq (MtL.cons (v := []) (tk := [])
      (hk1.symbol (d := dPIPE) rfl rfl rfl) (MtL.cons (v := [_]) (tk := []) (word_read hk2) .nil))) h3) .nil))
  cases ic with
  | true =>
    refine prim_read 6 rfl (hk.prims (l := [(39, 39), (34, 34)]) (by decide +kernel) (lit_first hk.ok)) (vs := [opeV _]) (tk := []) ?_ hs ⟨cc, hcc'⟩ fun c => rfl
    refine Rd.ruleX (d := dDictionaryI) rfl rfl hs ⟨cc, hcc'⟩ hbody fun c => ?_
    exact congrArg (fun x => [some x]) (dict_value true _)
  | false =>
    refine prim_read 8 rfl (lit_skip hk) (vs := [opeV _]) (tk := []) ?_ hs ⟨cc, hcc'⟩ fun c => rfl
    refine Rd.ruleX (d := dDictionary) rfl rfl hs ⟨cc, hcc'⟩ hbody fun c => ?_
    exact congrArg (fun x => [some x]) (dict_value false _)

/-! ## Classes -/

theorem prim_cls {neg ic : Bool} {is : List Item} {ks : List Tok} {sp u t : Str} (hk : Tk T (.cls neg is ic) ks sp u t) :
    Rd T gPrimary t u [opeV (.cls ⟨is.flatMap Item.ranges, neg, ic⟩)] [] := by
  have hs : Sub T t := hk.eq ▸ hk.sub
  have hok := hk.ok
  have hfirst : ∀ c, (Tok.cls neg is ic).chars.head? = some c → inCs [(91, 91)] c = true := by intro c hc; cases hc; decide
  have hpre : ∀ e ∈ primAlts.take 10, Fl T e t := hk.prims (l := [(91, 91)]) (by decide +kernel) hfirst
  have hmem : ∀ n e, e ∈ primAlts.take (10 + n) → e ∈ primAlts.take 10 ∨ e ∈ [gNegatedClassI, gNegatedClass, gClassI, gClass, gDOT].take n := by
    intro n e he
    have : primAlts.take (10 + n) = primAlts.take 10 ++ [gNegatedClassI, gNegatedClass, gClassI, gClass, gDOT].take n := by
      rw [List.take_add]; rfl
    rw [this] at he
    exact List.mem_append.mp he
  cases neg <;> cases ic
  · refine prim_read 13 rfl ?_ (vs := [opeV _]) (tk := []) ?_ hs ⟨_, hk.split⟩ fun c => rfl
    · intro e he
      rcases hmem 3 e he with he | he
      · exact hpre e he
      · simp at he
        rw [hk.eq]
        rcases he with rfl | rfl | rfl
        · exact negated_fail (d := dNegatedClassI) (ic' := true) rfl rfl hok hk.sub
        · exact negated_fail (d := dNegatedClass) (ic' := false) rfl rfl hok hk.sub
        · exact classI_fail (d := dClassI) rfl rfl hok hk.glue hk.sub
    · rw [hk.eq]
      exact class_read (d := dClass) rfl rfl rfl rfl (fun _ _ _ _ => rfl) hok hk.spc hk.stop hk.sub
  · refine prim_read 12 rfl ?_ (vs := [opeV _]) (tk := []) ?_ hs ⟨_, hk.split⟩ fun c => rfl
    · intro e he
      rcases hmem 2 e he with he | he
      · exact hpre e he
      · simp at he
        rw [hk.eq]
        rcases he with rfl | rfl
        · exact negated_fail (d := dNegatedClassI) (ic' := true) rfl rfl hok hk.sub
        · exact negated_fail (d := dNegatedClass) (ic' := false) rfl rfl hok hk.sub
    · rw [hk.eq]
      exact class_read (d := dClassI) rfl rfl rfl rfl (fun _ _ _ _ => rfl) hok hk.spc hk.stop hk.sub
  · refine prim_read 11 rfl ?_ (vs := [opeV _]) (tk := []) ?_ hs ⟨_, hk.split⟩ fun c => rfl
    · intro e he
      rcases hmem 1 e he with he | he
      · exact hpre e he
      · simp at he
        rw [hk.eq, he]
        exact classI_fail (d := dNegatedClassI) rfl rfl hok hk.glue hk.sub
    · rw [hk.eq]
      exact class_read (d := dNegatedClass) rfl rfl rfl rfl (fun _ _ _ _ => rfl) hok hk.spc hk.stop hk.sub
  · refine prim_read 10 rfl hpre (vs := [opeV _]) (tk := []) ?_ hs ⟨_, hk.split⟩ fun c => rfl
    rw [hk.eq]
    exact class_read (d := dNegatedClassI) rfl rfl rfl rfl (fun _ _ _ _ => rfl) hok hk.spc hk.stop hk.sub

/-! ## Repetition operators -/

theorem Tk.number {ds : Str} {ks : List Tok} {sp u t : Str} (hk : Tk T (.num ds) ks sp u t) (hn : NumOk ds) :
    Rd T gNumber t u [some (.num (numVal ds))] [] := by
  rw [hk.eq]
  exact number_read hk.ok hn hk.glue hk.spc hk.stop hk.sub

theorem number_no {k : Tok} {ks : List Tok} {sp u t : Str} (hk : Tk T k ks sp u t) (h : k = .sym 44 ∨ k = .sym 125) : Fl T gNumber t := by
  refine hk.fail (l := [(44, 44), (125, 125)]) (by decide +kernel) ?_
  rcases h with rfl | rfl <;> (intro c hc; cases hc; decide)

theorem bound_num {ds : Str} (h : NumOk ds) : bound (numVal ds) = some (numVal ds) := by
  unfold NumOk at h
  unfold bound
  rw [if_neg (by omega)]

/-- `{…}` around a range. -/
theorem repetition_read {a b : Nat} {ks ks' : List Tok} {sp u t v sp' x : Str} (hk : Tk T (.sym 123) ks sp u t)
    (h : Rd T gRepetitionRange u v [some (.pair a b)] []) (hk' : Tk T (.sym 125) ks' sp' x v) (hc : ∃ c, u = c ++ x) :
    (∃ c, t = c ++ x) ∧ Rd T gLoop t x [some (.loop a (bound b))] [] := by
  obtain ⟨c, hc⟩ := hc
  have hs : Sub T t := hk.eq ▸ hk.sub
  have hcc : ∃ c, t = c ++ x := ⟨(Tok.sym 123).chars ++ sp ++ c, by rw [hk.eq, hc]; simp⟩
  have hf : ∀ e ∈ [gQUESTION, gSTAR, gPLUS], Fl T e t := hk.prims (l := [(123, 123)]) (by decide +kernel) (by intro c hc; cases hc; decide)
  refine ⟨hcc, Rd.ruleCX (d := dLoop) (k := 3) (vs := [some (.pair a b)]) (tk := []) rfl rfl hs hcc (MtC.at rfl hf ?_) fun c => rfl⟩
  refine Rd.ruleX (d := dRepetition) (vs := [some (.pair a b)]) (tk := []) rfl rfl hs hcc ?_ fun c => rfl
  exact Mt.seq (MtL.cons (v := []) (tk := []) (hk.symbol (d := dBeginBracket) rfl rfl rfl) (MtL.cons (v := [_]) (tk := []) h
    (MtL.cons (v := []) (tk := []) (hk'.symbol (d := dEndBracket) rfl rfl rfl) .nil)))

theorem loop_read {mn : Nat} {mx : Option Nat} {lt rest : List Tok} (hb : Bounds mn mx lt) {t : Str} (hl : Lay (lt ++ rest) t) (hs : Sub T t) :
    ∃ c t', t = c ++ t' ∧ Lay rest t' ∧ Rd T gLoop t t' [some (.loop mn mx)] [] := by
  have hrr : metaRules[rRepetitionRange]? = some dRepetitionRange := rfl
  cases hb with
  | quest =>
    obtain ⟨sp, u, hk⟩ := hl.tk hs
    refine ⟨_, u, hk.split, hk.lay, Rd.ruleCX (d := dLoop) (k := 0) (vs := [some (.chr 63)]) (tk := []) rfl rfl hs ⟨_, hk.split⟩ (.here ?_) fun c => rfl⟩
    rw [hk.eq]; exact sym_read (d := dQUESTION) rfl rfl hk.spc hk.stop hk.sub rfl
  | star =>
    obtain ⟨sp, u, hk⟩ := hl.tk hs
    refine ⟨_, u, hk.split, hk.lay, Rd.ruleCX (d := dLoop) (k := 1) (vs := [some (.chr 42)]) (tk := []) rfl rfl hs ⟨_, hk.split⟩
      (MtC.at rfl (hk.prims (l := [(42, 42)]) (by decide +kernel) (by intro c hc; cases hc; decide)) ?_) fun c => rfl⟩
    rw [hk.eq]; exact sym_read (d := dSTAR) rfl rfl hk.spc hk.stop hk.sub rfl
  | plus =>
    obtain ⟨sp, u, hk⟩ := hl.tk hs
    refine ⟨_, u, hk.split, hk.lay, Rd.ruleCX (d := dLoop) (k := 2) (vs := [some (.chr 43)]) (tk := []) rfl rfl hs ⟨_, hk.split⟩
      (MtC.at rfl (hk.prims (l := [(43, 43)]) (by decide +kernel) (by intro c hc; cases hc; decide)) ?_) fun c => rfl⟩
    rw [hk.eq]; exact sym_read (d := dPLUS) rfl rfl hk.spc hk.stop hk.sub rfl
  | @both a b ha hb =>
    obtain ⟨sp, u, hk⟩ := hl.tk hs
    obtain ⟨sp1, u1, hk1⟩ := hk.lay.tk hk.next
    obtain ⟨sp2, u2, hk2⟩ := hk1.lay.tk hk1.next
    obtain ⟨sp3, u3, hk3⟩ := hk2.lay.tk hk2.next
    obtain ⟨sp4, u4, hk4⟩ := hk3.lay.tk hk3.next
    have e3 : u = ((Tok.num a).chars ++ sp1 ++ ((Tok.sym 44).chars ++ sp2 ++ ((Tok.num b).chars ++ sp3))) ++ u3 := by rw [hk1.eq, hk2.eq, hk3.eq]; simp
    have e4 : u = ((Tok.num a).chars ++ sp1 ++ ((Tok.sym 44).chars ++ sp2 ++ ((Tok.num b).chars ++ sp3 ++ ((Tok.sym 125).chars ++ sp4)))) ++ u4 := by
      rw [hk1.eq, hk2.eq, hk3.eq, hk4.eq]; simp
    have h := repetition_read hk (Rd.ruleCX (k := 0) (vs := [some (.num (numVal a)), some (.num (numVal b))]) (tk := []) hrr rfl hk.next ⟨_, e3⟩
      (.here (Mt.seq (MtL.cons (v := [_]) (tk := []) (hk1.number ha) (MtL.cons (v := []) (tk := []) (hk2.symbol (d := dCOMMA) rfl rfl rfl)
        (MtL.cons (v := [_]) (tk := []) (hk3.number hb) .nil))))) fun _ => rfl) hk4 ⟨_, e4⟩
    rw [bound_num hb] at h
    obtain ⟨⟨c, hc⟩, h⟩ := h
    exact ⟨c, u4, hc, hk4.lay, h⟩
  | @least a ha =>
    obtain ⟨sp, u, hk⟩ := hl.tk hs
    obtain ⟨sp1, u1, hk1⟩ := hk.lay.tk hk.next
    obtain ⟨sp2, u2, hk2⟩ := hk1.lay.tk hk1.next
    obtain ⟨sp4, u4, hk4⟩ := hk2.lay.tk hk2.next
    have e3 : u = ((Tok.num a).chars ++ sp1 ++ ((Tok.sym 44).chars ++ sp2)) ++ u2 := by rw [hk1.eq, hk2.eq]; simp
    have e4 : u = ((Tok.num a).chars ++ sp1 ++ ((Tok.sym 44).chars ++ sp2 ++ ((Tok.sym 125).chars ++ sp4))) ++ u4 := by rw [hk1.eq, hk2.eq, hk4.eq]; simp
    have hn := hk1.number ha
    have hcm : Rd T gCOMMA u1 u2 [] [] := hk2.symbol (d := dCOMMA) rfl rfl rfl
    have h := repetition_read hk (Rd.ruleCX (k := 1) (vs := [some (.num (numVal a))]) (tk := []) hrr rfl hk.next ⟨_, e3⟩
      (.next (Mf.seq (.tail hn (.tail hcm (.head (number_no hk4 (Or.inr rfl)))))) (.here (Mt.seq (MtL.cons (v := [_]) (tk := []) hn
        (MtL.cons (v := []) (tk := []) hcm .nil))))) fun _ => rfl) hk4 ⟨_, e4⟩
    obtain ⟨⟨c, hc⟩, h⟩ := h
    exact ⟨c, u4, hc, hk4.lay, h⟩
  | @exactly a ha =>
    obtain ⟨sp, u, hk⟩ := hl.tk hs
    obtain ⟨sp1, u1, hk1⟩ := hk.lay.tk hk.next
    obtain ⟨sp4, u4, hk4⟩ := hk1.lay.tk hk1.next
    have e4 : u = ((Tok.num a).chars ++ sp1 ++ ((Tok.sym 125).chars ++ sp4)) ++ u4 := by rw [hk1.eq, hk4.eq]; simp
    have hn := hk1.number ha
    have hcm : Fl T gCOMMA u1 := hk4.fail (l := [(125, 125)]) (by decide +kernel) (by intro c hc; cases hc; decide)
    have h := repetition_read hk (Rd.ruleCX (k := 2) (vs := [some (.num (numVal a))]) (tk := []) hrr rfl hk.next ⟨_, hk1.split⟩
      (.next (Mf.seq (.tail hn (.head hcm))) (.next (Mf.seq (.tail hn (.head hcm))) (.here hn))) fun _ => rfl) hk4 ⟨_, e4⟩
    rw [bound_num ha] at h
    obtain ⟨⟨c, hc⟩, h⟩ := h
    exact ⟨c, u4, hc, hk4.lay, h⟩
  | @most b hb =>
    obtain ⟨sp, u, hk⟩ := hl.tk hs
    obtain ⟨sp2, u2, hk2⟩ := hk.lay.tk hk.next
    obtain ⟨sp3, u3, hk3⟩ := hk2.lay.tk hk2.next
    obtain ⟨sp4, u4, hk4⟩ := hk3.lay.tk hk3.next
    have e3 : u = ((Tok.sym 44).chars ++ sp2 ++ ((Tok.num b).chars ++ sp3)) ++ u3 := by rw [hk2.eq, hk3.eq]; simp
    have e4 : u = ((Tok.sym 44).chars ++ sp2 ++ ((Tok.num b).chars ++ sp3 ++ ((Tok.sym 125).chars ++ sp4))) ++ u4 := by
      rw [hk2.eq, hk3.eq, hk4.eq]; simp
    have hn := number_no hk2 (Or.inl rfl)
    have h := repetition_read hk (Rd.ruleCX (k := 3) (vs := [some (.num (numVal b))]) (tk := []) hrr rfl hk.next ⟨_, e3⟩
      (.next (Mf.seq (.head hn)) (.next (Mf.seq (.head hn)) (.next hn (.here (Mt.seq (MtL.cons (v := []) (tk := []) (hk2.symbol (d := dCOMMA) rfl rfl rfl)
        (MtL.cons (v := [_]) (tk := []) (hk3.number hb) .nil))))))) fun _ => rfl) hk4 ⟨_, e4⟩
    rw [bound_num hb] at h
    obtain ⟨⟨c, hc⟩, h⟩ := h
    exact ⟨c, u4, hc, hk4.lay, h⟩

end

end Verif.Meta
