import Verif.MetaLex2
/-!
# Reading what is written: expressions
-/

namespace Verif.Meta
open Verif CharClass Utf8 Props

section
variable {T : Str}

/-! ## Tokens in a text -/

theorem name_head {nm : Str} (h : NameOk nm) : ∃ c cs, nm = c :: cs ∧ inCs idStart c = true ∧ c ≠ 0x2190 := by
  cases nm with
  | nil => exact h.elim
  | cons c cs => exact ⟨c, cs, rfl, h.1, h.2.1⟩

/-- What a token starts with. -/
theorem tok_head {k : Tok} (h : k.Ok) : ∃ c cs, k.chars = c :: cs ∧ inCs noStart c = false := by
  have hid : ∀ c, inCs idStart c = true → inCs noStart c = false := fun c hc => disj_sound (by decide) hc
  cases k with
  | ident ign nm =>
    cases ign with
    | true => exact ⟨126, nm, rfl, by decide⟩
    | false => obtain ⟨c, cs, h1, h2, -⟩ := name_head h; exact ⟨c, cs, h1, hid c h2⟩
  | call ign nm =>
    cases ign with
    | true => exact ⟨126, nm ++ [40], rfl, by decide⟩
    | false => obtain ⟨c, cs, h1, h2, -⟩ := name_head h; exact ⟨c, cs ++ [40], by simp [Tok.chars, tilde, h1], hid c h2⟩
  | sym c =>
    refine ⟨c, [], rfl, ?_⟩
    have : ∀ c ∈ symbols, inCs noStart c = false := by decide
    exact this c h
  | arrow u => cases u <;> exact ⟨_, _, rfl, by decide⟩
  | scope => exact ⟨_, _, rfl, by decide⟩
  | capOpen nm => exact ⟨_, _, rfl, by decide⟩
  | bref nm => exact ⟨_, _, rfl, by decide⟩
  | num ds =>
    cases ds with
    | nil => exact absurd rfl h.1
    | cons c ds =>
      refine ⟨c, ds, rfl, ?_⟩
      have := h.2 c (by simp)
      simp [inCs, noStart]; omega
  | lit q us ic =>
    refine ⟨q, _, rfl, ?_⟩
    have := h.1
    simp at this
    rcases this with rfl | rfl <;> decide
  | cls neg is ic => exact ⟨91, _, rfl, by decide⟩
  | block b => cases b <;> exact ⟨123, _, rfl, by decide⟩

theorem Lay.stop {ks : List Tok} {u : Str} (h : Lay ks u) : Stop u := by
  cases ks with
  | nil => intro c hc; rw [show u = [] from h] at hc; cases hc
  | cons k ks =>
    obtain ⟨sp, v, rfl, hk, -⟩ := h
    obtain ⟨c, cs, hc, hn⟩ := tok_head hk
    intro d hd
    rw [hc] at hd; cases hd; exact hn

theorem Sp.head {sp u : Str} (h : Sp sp u) {c : Nat} (hc : sp.head? = some c) : inCs noStart c = true ∧ c ≠ 45 := by
  cases h with
  | nil => cases hc
  | blank hb _ =>
    cases hc
    have : ∀ c ∈ blanks, inCs noStart c = true ∧ c ≠ 45 := by decide
    exact this _ hb
  | comment _ _ _ => cases hc; decide
  | last _ => cases hc; decide

theorem glue_start (k : Tok) : disj [(9, 10), (13, 13), (32, 32), (35, 35)] k.glue = true := by
  cases k with
  | lit q us ic => cases ic <;> rfl
  | cls n is ic => cases ic <;> rfl
  | _ => rfl

/-- The first token, its spacing and the rest. -/
structure Tk (T : Str) (k : Tok) (ks : List Tok) (sp u t : Str) : Prop where
  eq : t = k.chars ++ (sp ++ u)
  ok : k.Ok
  spc : Sp sp u
  stop : Stop u
  glue : ∀ c, (sp ++ u).head? = some c → inCs k.glue c = false
  minus : ∀ c, (sp ++ u).head? = some c → c ≠ 45
  lay : Lay ks u
  sub : Sub T (k.chars ++ (sp ++ u))

theorem Lay.tk {k : Tok} {ks : List Tok} {t : Str} (h : Lay (k :: ks) t) (hs : Sub T t) : ∃ sp u, Tk T k ks sp u t := by
  obtain ⟨sp, u, rfl, hk, hsp, hg, hl⟩ := h
  refine ⟨sp, u, rfl, hk, hsp, hl.stop, ?_, ?_, hl, hs⟩
  · intro c hc
    cases hsp' : sp with
    | nil =>
      rw [hsp', List.nil_append] at hc
      cases ks with
      | nil => rw [show u = [] from hl] at hc; cases hc
      | cons k' ks =>
        obtain ⟨sp2, u2, rfl, hk2, -⟩ := hl
        obtain ⟨d, ds, hd, -⟩ := tok_head hk2
        rw [hd] at hc
        cases hc
        exact hg hsp' k' rfl c (by rw [hd]; rfl)
    | cons a sp' =>
      rw [hsp'] at hc
      cases hc
      have h1 := hsp.head (c := c) (by rw [hsp']; rfl)
      refine disj_sound (glue_start k) ?_
      simp only [inCs, noStart, List.any_cons, List.any_nil, Bool.or_false, Bool.or_eq_true, decide_eq_true_eq] at h1 ⊢
      omega
  · intro c hc
    cases hsp' : sp with
    | nil =>
      rw [hsp', List.nil_append] at hc
      have := hl.stop c hc
      rintro rfl
      exact absurd this (by decide)
    | cons a sp' =>
      rw [hsp'] at hc
      cases hc
      exact (hsp.head (c := c) (by rw [hsp']; rfl)).2

theorem Tk.next {k : Tok} {ks : List Tok} {sp u t : Str} (h : Tk T k ks sp u t) : Sub T u := h.sub.tail.tail

theorem Tk.split {k : Tok} {ks : List Tok} {sp u t : Str} (h : Tk T k ks sp u t) : t = (k.chars ++ sp) ++ u := by rw [h.eq]; simp

/-- An expression that can be told to fail from the first character of the token. -/
theorem Tk.fail {k : Tok} {ks : List Tok} {sp u t : Str} (h : Tk T k ks sp u t) {l : List (Nat × Nat)} {e : Ope} (ha : ab 50 (.cs l) e = .fail)
    (hc : ∀ c, k.chars.head? = some c → inCs l c = true) : Fl T e t := by
  obtain ⟨c, cs, hcc, -⟩ := tok_head h.ok
  have hs := h.sub
  rw [h.eq]
  rw [hcc] at hs ⊢
  exact Fl.cs ha hs (hc c (by rw [hcc]; rfl))

theorem Fl.stopped {e : Ope} {u : Str} (h : ab 50 (.no noStart) e = .fail) (hs : Sub T u) (hu : Stop u) : Fl T e u := Fl.no h hs hu

/-! ## Rules whose value does not depend on the text -/

theorem Rd.ruleX {r : Nat} {d : Def} {nm : List Byte} {t s : Str} {vs : List Val} {tk : List (Nat × Nat)} {w : List Val}
    (hd : metaRules[r]? = some d) (hc : d.ope.choiceLikeTop = false) (hs : Sub T t) (hsp : ∃ c, t = c ++ s) (h : Rd T d.ope t s vs tk)
    (hw : ∀ c, pushed d (rvS T r vs tk c 0) = w) : Rd T (.ref r nm []) t s w [] := by
  obtain ⟨c, rfl⟩ := hsp
  exact Rd.rule hd hc hs h (hw c)

theorem Rd.ruleCX {r : Nat} {d : Def} {nm : List Byte} {t s : Str} {vs : List Val} {tk : List (Nat × Nat)} {w : List Val} {es : List Ope} {k : Nat}
    (hd : metaRules[r]? = some d) (he : d.ope = Meta.cho es) (hs : Sub T t) (hsp : ∃ c, t = c ++ s)
    (h : MtC (enc T) es k (enc t) (enc s) vs tk) (hw : ∀ c, pushed d (rvS T r vs tk c k) = w) : Rd T (.ref r nm []) t s w [] := by
  obtain ⟨c, rfl⟩ := hsp
  exact Rd.ruleC hd he hs h (hw c)

theorem MtC.skip {text t s : List Byte} {pre post : List Ope} {e : Ope} {vs : List Val} {tk : List (Nat × Nat)} (hp : ∀ x ∈ pre, Mf text x t)
    (h : Mt text e t s vs tk) : MtC text (pre ++ e :: post) pre.length t s vs tk := by
  induction pre with
  | nil => exact .here h
  | cons x pre ih => exact .next (hp x (by simp)) (ih fun y hy => hp y (by simp [hy]))

/-- A symbol token, read by a rule that leaves no value. -/
theorem Tk.symbol {r c : Nat} {d : Def} {nm : List Byte} {ks : List Tok} {sp u t : Str} (h : Tk T (.sym c) ks sp u t) (hd : metaRules[r]? = some d)
    (he : d.ope = seq [.chr c, gSpacing]) (hi : d.ignoreSV = true) : Rd T (.ref r nm []) t u [] [] := by
  rw [h.eq]
  exact sym_read hd he h.spc h.stop h.sub (by simp [pushed, hi])

/-! ## Values -/

abbrev opeV (e : Src) : Val := some (.ope e)

theorem poison_opes (es : List Src) : poison (es.map opeV) = none :=
  poison_none fun v hv b hb => by
    simp only [List.mem_map] at hv
    obtain ⟨i, -, rfl⟩ := hv
    cases hb

theorem castAll_opes (es : List Src) : castAll asOpe (es.map opeV) = .ok es := by
  induction es with
  | nil => rfl
  | cons e es ih =>
    show (do let x ← asOpe (opeV e); let y ← castAll asOpe (es.map opeV); Except.ok (x :: y)) = _
    rw [ih]; rfl

theorem castAll_strs (es : List (List Byte)) : castAll asStr (es.map fun s => some (.str s)) = .ok es := by
  induction es with
  | nil => rfl
  | cons e es ih =>
    show (do let x ← asStr (some (.str e)); let y ← castAll asStr (es.map fun s => some (.str s)); Except.ok (x :: y)) = _
    rw [ih]; rfl

theorem poison_strs (es : List (List Byte)) : poison (es.map fun s => some (.str s)) = none :=
  poison_none fun v hv b hb => by
    simp only [List.mem_map] at hv
    obtain ⟨i, -, rfl⟩ := hv
    cases hb

/-! ## From operands to expressions -/

theorem suf_step {e : Src} {t u : Str} (h : Rd T gPrimary t u [opeV e] []) (hf : Fl T gLoop u) (hs : Sub T t) (hc : ∃ c, t = c ++ u) :
    Rd T gSuffix t u [opeV e] [] :=
  Rd.ruleX (d := dSuffix) rfl rfl hs hc (Mt.seq (MtL.cons (v := [_]) (tk := []) h (MtL.cons (v := []) (tk := []) (Mt.opt_none hf) .nil))) fun _ => rfl

theorem rep_step {e : Src} {t u w : Str} {mn : Nat} {mx : Option Nat} (h : Rd T gPrimary t u [opeV e] []) (hf : Rd T gLoop u w [some (.loop mn mx)] [])
    (hs : Sub T t) (hc : ∃ c, t = c ++ w) : Rd T gSuffix t w [opeV (.rep e mn mx)] [] :=
  Rd.ruleX (d := dSuffix) rfl rfl hs hc (Mt.seq (MtL.cons (v := [_]) (tk := []) h (MtL.cons (v := [_]) (tk := []) (Mt.opt hf) .nil))) fun _ => rfl

theorem lab_step {e : Src} {t u : Str} (h : Rd T gSuffix t u [opeV e] []) (hf : Fl T gLABEL u) (hs : Sub T t) (hc : ∃ c, t = c ++ u) :
    Rd T gSuffixWithLabel t u [opeV e] [] :=
  Rd.ruleX (d := dSuffixWithLabel) rfl rfl hs hc
    (Mt.seq (MtL.cons (v := [_]) (tk := []) h (MtL.cons (v := []) (tk := []) (Mt.opt_none (Mf.seq (.head hf))) .nil))) fun _ => rfl

theorem label_step {e : Src} {l : Str} {t u v w : Str} (h : Rd T gSuffix t u [opeV e] []) (hl : Rd T gLABEL u v [] [])
    (hi : Rd T gIdentifier v w [some (.str (enc l))] []) (hs : Sub T t) (hc : ∃ c, t = c ++ w) :
    Rd T gSuffixWithLabel t w [opeV (labelled e l)] [] :=
  Rd.ruleX (d := dSuffixWithLabel) rfl rfl hs hc
    (Mt.seq (MtL.cons (v := [_]) (tk := []) h (MtL.cons (v := [_]) (tk := []) (Mt.opt (Mt.seq (MtL.cons (v := []) (tk := []) hl
      (MtL.cons (v := [_]) (tk := []) hi .nil)))) .nil))) fun _ => rfl

/-- No `&`, `!` or cut here. -/
theorem pre_step {e : Src} {t u : Str} (h : Rd T gSuffixWithLabel t u [opeV e] []) (ha : Fl T (cho [gAND, gNOT]) t) (hcut : Fl T gCUT t)
    (hs : Sub T t) (hc : ∃ c, t = c ++ u) : Rd T (cho [gCUT, gPrefix]) t u [opeV e] [] :=
  Mt.cho (.next hcut (.here (Rd.ruleX (d := dPrefix) rfl rfl hs hc
    (Mt.seq (MtL.cons (v := []) (tk := []) (Mt.opt_none ha) (MtL.cons (v := [_]) (tk := []) h .nil))) fun _ => rfl)))

theorem and_step {e : Src} {ks : List Tok} {sp u t w : Str} (hk : Tk T (.sym 38) ks sp u t) (h : Rd T gSuffixWithLabel u w [opeV e] [])
    (hs : Sub T t) (hc : ∃ c, t = c ++ w) : Rd T (cho [gCUT, gPrefix]) t w [opeV (.and_ e)] [] := by
  have h1 : Rd T gAND t u [some (.chr 38)] [] := by
    rw [hk.eq]
    exact sym_read (d := dAND) rfl rfl hk.spc hk.stop hk.sub rfl
  refine Mt.cho (.next (hk.fail (l := [(38, 38)]) (by decide +kernel) (by intro c hc; cases hc; decide)) (.here (Rd.ruleX (d := dPrefix) rfl rfl hs hc
    (Mt.seq (MtL.cons (v := [_]) (tk := []) (Mt.opt (Mt.cho (.here h1))) (MtL.cons (v := [_]) (tk := []) h .nil))) fun _ => rfl)))

theorem not_step {e : Src} {ks : List Tok} {sp u t w : Str} (hk : Tk T (.sym 33) ks sp u t) (h : Rd T gSuffixWithLabel u w [opeV e] [])
    (hs : Sub T t) (hc : ∃ c, t = c ++ w) : Rd T (cho [gCUT, gPrefix]) t w [opeV (.not_ e)] [] := by
  have h1 : Rd T gNOT t u [some (.chr 33)] [] := by
    rw [hk.eq]
    exact sym_read (d := dNOT) rfl rfl hk.spc hk.stop hk.sub rfl
  have h2 : Fl T gAND t := hk.fail (l := [(33, 33)]) (by decide +kernel) (by intro c hc; cases hc; decide)
  refine Mt.cho (.next (hk.fail (l := [(33, 33)]) (by decide +kernel) (by intro c hc; cases hc; decide)) (.here (Rd.ruleX (d := dPrefix) rfl rfl hs hc
    (Mt.seq (MtL.cons (v := [_]) (tk := []) (Mt.opt (Mt.cho (.next h2 (.here h1)))) (MtL.cons (v := [_]) (tk := []) h .nil))) fun _ => rfl)))

theorem cut_step {ks : List Tok} {sp u t : Str} (hk : Tk T (.sym 0x2191) ks sp u t) (hs : Sub T t) : Rd T (cho [gCUT, gPrefix]) t u [opeV .cut] [] := by
  refine Mt.cho (.here (Rd.ruleX (d := dCUT) (vs := []) (tk := []) rfl rfl hs ⟨_, hk.split⟩ ?_ fun _ => rfl))
  have h0 := hk.sub
  rw [hk.eq]
  exact Mt.seq (MtL.cons (v := []) (tk := []) (Rd.lit [0x2191] (by decide) h0) (MtL.cons (v := []) (tk := []) (spacing_read hk.spc hk.stop h0.tail) .nil))

theorem sqn_step {es : List Src} {t u : Str} (h : MtStar (enc T) (cho [gCUT, gPrefix]) (enc t) (enc u) (es.map opeV) []) (hs : Sub T t)
    (hc : ∃ c, t = c ++ u) : Rd T gSequence t u [opeV (seqOf es)] [] := by
  refine Rd.ruleX (d := dSequence) (vs := es.map opeV) (tk := []) rfl rfl hs hc (Mt.zom h) fun c => ?_
  show [some (valueOf (es.map opeV) (aSequence (es.map opeV)))] = _
  unfold valueOf
  rw [poison_opes]
  match es with
  | [] => rfl
  | [e] => rfl
  | a :: b :: es =>
    show [some (match (do let x ← castAll asOpe ((a :: b :: es).map opeV); Except.ok (MV.ope (.seq x))) with
      | .ok v => v
      | .error b => .bad b)] = _
    rw [castAll_opes]
    rfl

theorem exp_step {e : Src} {es : List Src} {t u v : Str} (h1 : Rd T gSequence t u [opeV e] [])
    (h2 : MtStar (enc T) (seq [gSLASH, gSequence]) (enc u) (enc v) (es.map opeV) []) (hs : Sub T t) (hc : ∃ c, t = c ++ v) :
    Rd T gExpression t v [opeV (choOf (e :: es))] [] := by
  refine Rd.ruleX (d := dExpression) (vs := (e :: es).map opeV) (tk := []) rfl rfl hs hc
    (Mt.seq (MtL.cons (v := [opeV e]) (tk := []) h1 (by simpa using MtL.cons (v := es.map opeV) (tk := []) (Mt.zom h2) .nil))) fun c => ?_
  show [some (valueOf ((e :: es).map opeV) (aExpression ((e :: es).map opeV)))] = _
  unfold valueOf
  rw [poison_opes]
  match es with
  | [] => rfl
  | a :: es =>
    show [some (match (do let x ← castAll asOpe ((e :: a :: es).map opeV); Except.ok (MV.ope (.cho x false))) with
      | .ok v => v
      | .error b => .bad b)] = _
    rw [castAll_opes]
    rfl

/-! ## What follows a reference -/

/-- Where this matches, a name before it is that of the next definition. -/
abbrev hdOpe : Ope := seq [opt gParameters, gLEFTARROW]

def NoArrow (a : List Tok) : Prop := ∀ k ∈ a, ∀ u, k ≠ .arrow u

/-- The beginning of a definition. -/
inductive Head : List Tok → Prop where
  | rule {ign : Bool} {nm : Str} {u : Bool} {ks : List Tok} : Head (.ident ign nm :: .arrow u :: ks)
  | macro_ {ign : Bool} {nm p : Str} {ps : List Str} {u : Bool} {ks : List Tok} :
      Head (.call ign nm :: .ident false p :: (ps.flatMap (fun p => [.sym 44, .ident false p]) ++ .sym 41 :: .arrow u :: ks))

/-- The next arrow belongs to the head of a definition. -/
def Tail (rest : List Tok) : Prop := ∃ a b, rest = a ++ b ∧ NoArrow a ∧ (b = [] ∨ Head b)

theorem Tail.nil : Tail [] := ⟨[], [], rfl, by simp [NoArrow], Or.inl rfl⟩
theorem Tail.head {b : List Tok} (h : Head b) : Tail b := ⟨[], b, rfl, by simp [NoArrow], Or.inr h⟩
theorem Tail.prepend {a b : List Tok} (ha : NoArrow a) (h : Tail b) : Tail (a ++ b) := by
  obtain ⟨a', b', rfl, h1, h2⟩ := h
  refine ⟨a ++ a', b', by simp, ?_, h2⟩
  intro k hk u
  rcases List.mem_append.mp hk with hk | hk
  · exact ha k hk u
  · exact h1 k hk u

theorem Tail.not_arrow {u : Bool} {ks : List Tok} : ¬ Tail (.arrow u :: ks) := by
  rintro ⟨a, b, h, h1, h2⟩
  cases a with
  | nil =>
    rcases h2 with rfl | h2
    · cases h
    · rw [List.nil_append] at h; rw [← h] at h2; cases h2
  | cons k a => cases h; exact h1 _ (by simp) u rfl

theorem Tail.symbol {c : Nat} {ks : List Tok} (h : Tail (.sym c :: ks)) : Tail ks := by
  obtain ⟨a, b, h, h1, h2⟩ := h
  cases a with
  | nil =>
    rcases h2 with rfl | h2
    · cases h
    · rw [List.nil_append] at h; rw [← h] at h2; cases h2
  | cons k a => cases h; exact ⟨a, b, rfl, fun k hk => h1 k (by simp [hk]), h2⟩

theorem Tail.ident {ign : Bool} {nm : Str} {ks : List Tok} (h : Tail (.ident ign nm :: ks)) : Tail ks ∨ ∃ u ks', ks = .arrow u :: ks' := by
  obtain ⟨a, b, h, h1, h2⟩ := h
  cases a with
  | nil =>
    rcases h2 with rfl | h2
    · cases h
    · rw [List.nil_append] at h; rw [← h] at h2; cases h2; exact Or.inr ⟨_, _, rfl⟩
  | cons k a => cases h; exact Or.inl ⟨a, b, rfl, fun k hk => h1 k (by simp [hk]), h2⟩

/-- Characters other than those of the two arrows. -/
def noArrowCh : List (Nat × Nat) := [(0, 59), (61, 0x218F), (0x2191, 0x10FFFF)]

theorem leftarrow_fail {ks : List Tok} {t : Str} (ht : ∀ u ks', ks ≠ .arrow u :: ks') (hl : Lay ks t) (hs : Sub T t) : Fl T gLEFTARROW t := by
  cases ks with
  | nil => rw [show t = [] from hl]; exact Fl.eof (by decide +kernel)
  | cons k ks =>
    obtain ⟨sp, u, hk⟩ := hl.tk hs
    by_cases h60 : k = .sym 60
    · subst h60
      have hsub : Sub T (60 :: (sp ++ u)) := hk.sub
      refine Mf.rule (d := dLEFTARROW) rfl (Mf.seq (.head (Mf.cho fun e he => ?_)))
      simp only [List.mem_cons, List.not_mem_nil, or_false] at he
      rw [hk.eq]
      rcases he with rfl | rfl
      · refine Fl.lit [60, 45] (by decide) (by decide) hsub ?_
        rintro ⟨w, hw⟩
        simp only [List.cons_append, List.nil_append, List.cons.injEq, true_and] at hw
        exact hk.minus 45 (by show (sp ++ u).head? = _; rw [← show 45 :: w = sp ++ u from by simpa [Tok.chars] using hw]; rfl) rfl
      · exact Fl.cs (l := [(60, 60)]) (by decide +kernel) hsub (by decide)
    · refine hk.fail (l := noArrowCh) (by decide +kernel) ?_
      intro c hc
      have hsc : IsScalar c := hk.sub.scalar (by
        obtain ⟨d, ds, hd, -⟩ := tok_head hk.ok
        rw [hd] at hc ⊢; cases hc; simp)
      have : c ≠ 60 ∧ c ≠ 0x2190 := by
        have hok := hk.ok
        cases k with
        | ident ign nm =>
          cases ign with
          | true => cases hc; decide
          | false =>
            obtain ⟨d, ds, rfl, h2, h3⟩ := name_head hok
            cases hc
            refine ⟨?_, h3⟩
            rintro rfl
            exact absurd h2 (by decide)
        | call ign nm =>
          cases ign with
          | true => cases hc; decide
          | false =>
            obtain ⟨d, ds, rfl, h2, h3⟩ := name_head hok
            cases hc
            refine ⟨?_, h3⟩
            rintro rfl
            exact absurd h2 (by decide)
        | sym d =>
          cases hc
          refine ⟨fun h => h60 (by rw [h]), ?_⟩
          rintro rfl
          exact absurd (show 0x2190 ∈ symbols from hok) (by decide)
        | arrow u => exact absurd rfl (ht u ks)
        | scope => cases hc; decide
        | capOpen nm => cases hc; decide
        | bref nm => cases hc; decide
        | num ds =>
          cases ds with
          | nil => exact absurd rfl hok.1
          | cons d ds => cases hc; have := hok.2 c (by simp); omega
        | lit q us ic =>
          cases hc
          have := hok.1
          simp at this
          omega
        | cls neg is ic => cases hc; decide
        | block b => cases b <;> (cases hc; decide)
      simp [inCs, noArrowCh]
      have := hsc.1
      omega

/-- A character that starts no name. -/
theorem identifier_fail {v : Str} (hs : Sub T v) (hv : ∀ c, v.head? = some c → inCs idStart c = false) : Fl T gIdentifier v :=
  Mf.rule (d := dIdentifier) rfl (Mf.seq (.head (Mf.rule (d := dIdentCont) rfl (Mf.tok (Mf.seq (.head (identStart_fail hs hv)))))))

theorem idRest_not {c : Nat} (h : inCs ((40, 40) :: idRest) c = false) : inCs idRest c = false ∧ c ≠ 40 := by
  simp only [inCs, List.any_cons, Bool.or_eq_false_iff] at h ⊢
  refine ⟨h.2, ?_⟩
  rintro rfl
  exact absurd h.1 (by decide)

/-- What `Identifier` does at a token. -/
theorem identifier_cases {ks : List Tok} {t : Str} (ht : ∀ u ks', ks ≠ .arrow u :: ks') (hl : Lay ks t) (hs : Sub T t) :
    Fl T gIdentifier t ∨ (∃ nm ks' u, ks = .ident false nm :: ks' ∧ Lay ks' u ∧ Sub T u ∧ (∃ c, t = c ++ u) ∧
      Rd T gIdentifier t u [some (.str (enc nm))] []) ∨
    (∃ nm v, Sub T (40 :: v) ∧ (∃ c, t = c ++ 40 :: v) ∧ Rd T gIdentifier t (40 :: v) [some (.str (enc nm))] []) := by
  have hno : ∀ c, inCs [(0, 36), (38, 64), (91, 94), (96, 96), (123, 127), (0x2191, 0x2191), (0x21D1, 0x21D1)] c = true → inCs idStart c = false :=
    fun c hc => disj_sound (by decide) hc
  cases ks with
  | nil => rw [show t = [] from hl]; exact Or.inl (Fl.eof (by decide +kernel))
  | cons k ks =>
    obtain ⟨sp, u, hk⟩ := hl.tk hs
    have hok := hk.ok
    have hfail : (∀ c, k.chars.head? = some c → inCs idStart c = false) → Fl T gIdentifier t := by
      intro h
      refine identifier_fail hs ?_
      intro c hc
      refine h c ?_
      obtain ⟨d, ds, hd, -⟩ := tok_head hok
      rw [hk.eq, hd] at hc
      rw [hd]; exact hc
    cases k with
    | ident ign nm =>
      cases ign with
      | true => exact Or.inl (hfail (by intro c hc; cases hc; decide))
      | false =>
        refine Or.inr (Or.inl ⟨nm, ks, u, rfl, hk.lay, hk.next, ⟨_, hk.split⟩, ?_⟩)
        rw [hk.eq]
        exact identifier_read hok (fun c hc => (idRest_not (hk.glue c hc)).1) hk.spc hk.stop hk.sub
    | call ign nm =>
      cases ign with
      | true => exact Or.inl (hfail (by intro c hc; cases hc; decide))
      | false =>
        have e1 : t = nm ++ (40 :: (sp ++ u)) := by rw [hk.eq]; simp [Tok.chars, tilde]
        have hsub : Sub T (nm ++ ([] ++ (40 :: (sp ++ u)))) := by rw [e1] at hs; exact hs
        refine Or.inr (Or.inr ⟨nm, sp ++ u, hsub.tail.tail, ⟨nm, e1⟩, ?_⟩)
        rw [e1]
        exact identifier_read (sp := []) hok (by intro c hc; cases hc; decide) .nil (by intro c hc; cases hc; decide) hsub
    | sym c =>
      refine Or.inl (hfail ?_)
      intro d hd
      cases hd
      have : ∀ c ∈ symbols, inCs idStart c = false := by decide
      exact this _ hok
    | arrow u => exact absurd rfl (ht u ks)
    | scope => exact Or.inl (hfail (by intro c hc; cases hc; decide))
    | capOpen nm => exact Or.inl (hfail (by intro c hc; cases hc; decide))
    | bref nm => exact Or.inl (hfail (by intro c hc; cases hc; decide))
    | num ds =>
      refine Or.inl (hfail ?_)
      intro d hd
      cases ds with
      | nil => exact absurd rfl hok.1
      | cons e ds =>
        cases hd
        have := hok.2 d (by simp)
        refine hno d ?_
        simp [inCs]; omega
    | lit q us ic =>
      refine Or.inl (hfail ?_)
      intro d hd
      cases hd
      have := hok.1
      simp at this
      rcases this with rfl | rfl <;> decide
    | cls neg is ic => exact Or.inl (hfail (by intro c hc; cases hc; decide))
    | block b => exact Or.inl (hfail (by intro c hc; cases b <;> (cases hc; decide)))

/-- Parameters as far as they go. -/
theorem params_scan (n : Nat) : ∀ (ks : List Tok) (t : Str), ks.length ≤ n → (Tail ks ∨ ∃ u ks', ks = .arrow u :: ks') → Lay ks t → Sub T t →
    ∃ t2 vs, MtStar (enc T) (seq [gCOMMA, gIdentifier]) (enc t) (enc t2) vs [] ∧
      (Fl T gCLOSE t2 ∨ ∃ ks2 t3, Rd T gCLOSE t2 t3 [] [] ∧ Lay ks2 t3 ∧ Sub T t3 ∧ Tail ks2) := by
  induction n with
  | zero =>
    intro ks t hn _ hl hs
    obtain rfl : ks = [] := List.length_eq_zero_iff.mp (by omega)
    rw [show t = [] from hl]
    exact ⟨[], [], .stop (Fl.eof (by decide +kernel)), Or.inl (Fl.eof (by decide +kernel))⟩
  | succ n ih =>
    intro ks t hn htail hl hs
    cases ks with
    | nil =>
      rw [show t = [] from hl]
      exact ⟨[], [], .stop (Fl.eof (by decide +kernel)), Or.inl (Fl.eof (by decide +kernel))⟩
    | cons k ks =>
      obtain ⟨sp, u, hk⟩ := hl.tk hs
      have hcl : ∀ l, (∀ c, k.chars.head? = some c → inCs l c = true) → ab 50 (.cs l) gCLOSE = .fail → ab 50 (.cs l) (seq [gCOMMA, gIdentifier]) = .fail →
          ∃ t2 vs, MtStar (enc T) (seq [gCOMMA, gIdentifier]) (enc t) (enc t2) vs [] ∧
          (Fl T gCLOSE t2 ∨ ∃ ks2 t3, Rd T gCLOSE t2 t3 [] [] ∧ Lay ks2 t3 ∧ Sub T t3 ∧ Tail ks2) := fun l h1 h2 h3 =>
        ⟨t, [], .stop (hk.fail h3 h1), Or.inl (hk.fail h2 h1)⟩
      by_cases h44 : k = .sym 44
      · subst h44
        have ht : Tail (.sym 44 :: ks) := by
          rcases htail with h | ⟨u, ks', h⟩
          · exact h
          · cases h
        have ht' := ht.symbol
        have hcomma : Rd T gCOMMA t u [] [] := hk.symbol (d := dCOMMA) rfl rfl rfl
        rcases identifier_cases (fun v ks' h => by rw [h] at ht'; exact ht'.not_arrow) hk.lay hk.next with h | ⟨nm, ks', w, rfl, h2, h3, -, h4⟩ | ⟨nm, v, h2, -, h4⟩
        · exact ⟨t, [], .stop (Mf.seq (.tail hcomma (.head h))), Or.inl (hk.fail (l := [(44, 44)]) (by decide +kernel) (by intro c hc; cases hc; decide))⟩
        · obtain ⟨t2, vs, k1, k2⟩ := ih ks' w (by simp at hn; omega) ht'.ident h2 h3
          exact ⟨t2, _, .more (tk := []) (Mt.seq (MtL.cons (v := []) (tk := []) hcomma (MtL.cons (v := [some (.str (enc nm))]) (tk := []) h4 .nil))) k1, k2⟩
        · refine ⟨40 :: v, _, .more (tk := []) (tks := []) (Mt.seq (MtL.cons (v := []) (tk := []) hcomma (MtL.cons (v := [some (.str (enc nm))]) (tk := []) h4 .nil)))
            (.stop (Fl.cs (l := [(40, 40)]) (by decide +kernel) h2 (by decide))), Or.inl (Fl.cs (l := [(40, 40)]) (by decide +kernel) h2 (by decide))⟩
      by_cases h41 : k = .sym 41
      · subst h41
        have ht : Tail (.sym 41 :: ks) := by
          rcases htail with h | ⟨u, ks', h⟩
          · exact h
          · cases h
        exact ⟨t, [], .stop (hk.fail (l := [(41, 41)]) (by decide +kernel) (by intro c hc; cases hc; decide)),
          Or.inr ⟨ks, u, hk.symbol (d := dCLOSE) rfl rfl rfl, hk.lay, hk.next, ht.symbol⟩⟩
      · refine hcl [(0, 40), (42, 43), (45, 0x10FFFF)] ?_ (by decide +kernel) (by decide +kernel)
        intro c hc
        have hsc : IsScalar c := hk.sub.scalar (by
          obtain ⟨d, ds, hd, -⟩ := tok_head hk.ok
          rw [hd] at hc ⊢; cases hc; simp)
        have hok := hk.ok
        have : c ≠ 41 ∧ c ≠ 44 := by
          have hid : ∀ c, inCs idStart c = true → c ≠ 41 ∧ c ≠ 44 := by
            intro c hc
            constructor <;> (rintro rfl; exact absurd hc (by decide))
          cases k with
          | ident ign nm =>
            cases ign with
            | true => cases hc; decide
            | false => obtain ⟨d, ds, rfl, h2, h3⟩ := name_head hok; cases hc; exact hid _ h2
          | call ign nm =>
            cases ign with
            | true => cases hc; decide
            | false => obtain ⟨d, ds, rfl, h2, h3⟩ := name_head hok; cases hc; exact hid _ h2
          | sym d => cases hc; exact ⟨fun h => h41 (by rw [h]), fun h => h44 (by rw [h])⟩
          | arrow u => cases u <;> (cases hc; decide)
          | scope => cases hc; decide
          | capOpen nm => cases hc; decide
          | bref nm => cases hc; decide
          | num ds =>
            cases ds with
            | nil => exact absurd rfl hok.1
            | cons d ds => cases hc; have := hok.2 c (by simp); omega
          | lit q us ic =>
            cases hc
            have := hok.1
            simp at this
            omega
          | cls neg is ic => cases hc; decide
          | block b => cases b <;> (cases hc; decide)
        have := hsc.1
        simp [inCs]
        omega

/-- After a reference there is no head of a definition. -/
theorem hd_fail {ks : List Tok} {t : Str} (ht : Tail ks) (hl : Lay ks t) (hs : Sub T t) : Fl T hdOpe t := by
  have hna : ∀ {ks : List Tok}, Tail ks → ∀ u ks', ks ≠ .arrow u :: ks' := fun h u ks' e => by rw [e] at h; exact h.not_arrow
  have harr := leftarrow_fail (hna ht) hl hs
  have hfail : Fl T gParameters t → Fl T hdOpe t := fun h => Mf.seq (.tail (Mt.opt_none h) (.head harr))
  cases ks with
  | nil => rw [show t = [] from hl]; exact Fl.eof (by decide +kernel)
  | cons k ks =>
    obtain ⟨sp, u, hk⟩ := hl.tk hs
    by_cases h40 : k = .sym 40
    · subst h40
      have hopen : Rd T gOPEN t u [] [] := hk.symbol (d := dOPEN) rfl rfl rfl
      have ht' := ht.symbol
      rcases identifier_cases (hna ht') hk.lay hk.next with h | ⟨nm, ks', w, rfl, h2, h3, ⟨cc, hcc⟩, h4⟩ | ⟨nm, v, h2, -, h4⟩
      · exact hfail (Mf.rule (d := dParameters) rfl (Mf.seq (.tail hopen (.head h))))
      · obtain ⟨t2, vs, k1, k2⟩ := params_scan ks'.length ks' w (Nat.le_refl _) ht'.ident h2 h3
        rcases k2 with k2 | ⟨ks2, t3, k3, k4, k5, k6⟩
        · exact hfail (Mf.rule (d := dParameters) rfl (Mf.seq (.tail hopen (.tail h4 (.tail (Mt.zom k1) (.head k2))))))
        · have hp := Mt.rule (text := enc T) (nm := nParameters) (r := rParameters) (d := dParameters) rfl rfl
            (Mt.seq (MtL.cons hopen (MtL.cons h4 (MtL.cons (Mt.zom k1) (MtL.cons k3 .nil)))))
          exact Mf.seq (.tail (Mt.opt hp) (.head (leftarrow_fail (hna k6) k4 k5)))
      · refine hfail (Mf.rule (d := dParameters) rfl (Mf.seq (.tail hopen (.tail h4 (.tail (Mt.zom (.stop ?_)) (.head ?_))))))
        · exact Fl.cs (l := [(40, 40)]) (by decide +kernel) h2 (by decide)
        · exact Fl.cs (l := [(40, 40)]) (by decide +kernel) h2 (by decide)
    · refine hfail (hk.fail (l := [(0, 39), (41, 0x10FFFF)]) (by decide +kernel) ?_)
      intro c hc
      have hsc : IsScalar c := hk.sub.scalar (by
        obtain ⟨d, ds, hd, -⟩ := tok_head hk.ok
        rw [hd] at hc ⊢; cases hc; simp)
      have hok := hk.ok
      have : c ≠ 40 := by
        have hid : ∀ c, inCs idStart c = true → c ≠ 40 := by
          intro c hc
          rintro rfl; exact absurd hc (by decide)
        cases k with
        | ident ign nm =>
          cases ign with
          | true => cases hc; decide
          | false => obtain ⟨d, ds, rfl, h2, h3⟩ := name_head hok; cases hc; exact hid _ h2
        | call ign nm =>
          cases ign with
          | true => cases hc; decide
          | false => obtain ⟨d, ds, rfl, h2, h3⟩ := name_head hok; cases hc; exact hid _ h2
        | sym d => cases hc; exact fun h => h40 (by rw [h])
        | arrow u => cases u <;> (cases hc; decide)
        | scope => cases hc; decide
        | capOpen nm => cases hc; decide
        | bref nm => cases hc; decide
        | num ds =>
          cases ds with
          | nil => exact absurd rfl hok.1
          | cons d ds => cases hc; have := hok.2 c (by simp); omega
        | lit q us ic =>
          cases hc
          have := hok.1
          simp at this
          omega
        | cls neg is ic => cases hc; decide
        | block b => cases b <;> (cases hc; decide)
      have := hsc.1
      simp [inCs]
      omega

end

end Verif.Meta
