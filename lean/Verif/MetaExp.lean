import Verif.MetaPrim
/-!
# Reading what is written: expressions and definitions
-/

namespace Verif.Meta
open Verif CharClass Utf8 Props

/-! ## Facts on tokens -/

theorem NoArrow.append {a b : List Tok} (ha : NoArrow a) (hb : NoArrow b) : NoArrow (a ++ b) := by
  intro k hk u
  rcases List.mem_append.mp hk with hk | hk
  · exact ha k hk u
  · exact hb k hk u

theorem NoArrow.cons {k : Tok} {b : List Tok} (hk : ∀ u, k ≠ .arrow u) (hb : NoArrow b) : NoArrow (k :: b) := by
  intro k' hk' u
  rcases List.mem_cons.mp hk' with rfl | hk'
  · exact hk u
  · exact hb k' hk' u

theorem NoArrow.nil : NoArrow [] := by simp [NoArrow]

theorem NoArrow.words (ic : Bool) (ws : List (Nat × List Chr)) : NoArrow (moreWords ic ws) := by
  intro k hk u
  simp only [moreWords, List.mem_flatMap, List.mem_cons, List.not_mem_nil, or_false] at hk
  obtain ⟨w, -, rfl | rfl⟩ := hk <;> simp

theorem Bounds.noArrow {mn : Nat} {mx : Option Nat} {lt : List Tok} (h : Bounds mn mx lt) : NoArrow lt := by
  cases h <;> (intro k hk u; simp at hk; rcases hk with rfl | rfl | rfl | rfl | rfl <;> simp)

theorem Writes.noArrow {f : Form} {ts : List Tok} (h : Writes f ts) : NoArrow ts := by
  have h1 : ∀ {k : Tok}, (∀ u, k ≠ .arrow u) → NoArrow [k] := fun hk => .cons hk .nil
  induction h with
  | ref => exact h1 (by simp)
  | call _ _ ih1 ih2 => exact .cons (by simp) (.append ih1 (.append ih2 (h1 (by simp))))
  | group _ ih => exact .cons (by simp) (.append ih (h1 (by simp)))
  | token _ ih => exact .cons (by simp) (.append ih (h1 (by simp)))
  | scope _ ih => exact .cons (by simp) (.append ih (h1 (by simp)))
  | capture _ ih => exact .cons (by simp) (.append ih (h1 (by simp)))
  | bref => exact h1 (by simp)
  | lit => exact h1 (by simp)
  | dict => exact .cons (by simp) (.words _ _)
  | cls => exact h1 (by simp)
  | dot => exact h1 (by simp)
  | suf _ ih => exact ih
  | rep _ hb ih => exact .append ih hb.noArrow
  | lab _ ih => exact ih
  | label _ _ ih => exact .append ih (.cons (by simp) (h1 (by simp)))
  | item _ ih => exact ih
  | and_ _ ih => exact .cons (by simp) ih
  | not_ _ ih => exact .cons (by simp) ih
  | cut => exact h1 (by simp)
  | none => exact .nil
  | more _ _ ih1 ih2 => exact .append ih1 ih2
  | sqn _ ih => exact ih
  | noAlt => exact .nil
  | alt _ _ ih1 ih2 => exact .cons (by simp) (.append ih1 ih2)
  | exp _ _ ih1 ih2 => exact .append ih1 ih2
  | noArg => exact .nil
  | arg _ _ ih1 ih2 => exact .cons (by simp) (.append ih1 ih2)

/-- First characters of operands. -/
def primFirst : List (Nat × Nat) := [(126, 126), (40, 40), (60, 60), (36, 36), (39, 39), (34, 34), (91, 91), (46, 46)] ++ idStart
/-- First characters of elements of sequences. -/
def itemFirst : List (Nat × Nat) := [(38, 38), (33, 33), (0x2191, 0x2191)] ++ primFirst

/-- The tokens start with a character of `l`. -/
def FirstIn (l : List (Nat × Nat)) (ts : List Tok) : Prop := ∃ k ks, ts = k :: ks ∧ (k.Ok → ∀ c, k.chars.head? = some c → inCs l c = true)

theorem FirstIn.append {l : List (Nat × Nat)} {a : List Tok} (b : List Tok) (h : FirstIn l a) : FirstIn l (a ++ b) := by
  obtain ⟨k, ks, rfl, h⟩ := h
  exact ⟨k, ks ++ b, rfl, h⟩

theorem name_first {ign : Bool} {nm v : Str} (h : NameOk nm) : ∀ c, (tilde ign ++ nm ++ v).head? = some c → inCs ((126, 126) :: idStart) c = true := by
  intro c hc
  cases ign with
  | true => cases hc; decide
  | false =>
    obtain ⟨d, ds, rfl, h2, -⟩ := name_head h
    cases hc
    simp only [inCs, List.any_cons, Bool.or_eq_true] at h2 ⊢
    exact Or.inr h2

theorem idStart_first {c : Nat} (h : inCs ((126, 126) :: idStart) c = true) : inCs primFirst c = true := by
  simp only [inCs, primFirst, List.any_cons, List.any_append, Bool.or_eq_true, List.any_nil] at h ⊢
  tauto

theorem prim_item {c : Nat} (h : inCs primFirst c = true) : inCs itemFirst c = true := by
  simp only [inCs, itemFirst, List.any_append, Bool.or_eq_true] at h ⊢
  exact Or.inr h

def Form.first : Form → List Tok → Prop
  | .prim _, ts | .suf _, ts | .lab _, ts => FirstIn primFirst ts
  | .item _, ts => FirstIn itemFirst ts
  | .items _, ts => ts = [] ∨ FirstIn itemFirst ts
  | .alts _, ts => ts = [] ∨ ∃ ks, ts = .sym 47 :: ks
  | .args _, ts => ts = [] ∨ ∃ ks, ts = .sym 44 :: ks
  | _, _ => True

theorem Writes.first {f : Form} {ts : List Tok} (h : Writes f ts) : f.first ts := by
  have hsym : ∀ {k : Tok} {ks : List Tok}, (∀ c, k.chars.head? = some c → inCs primFirst c = true) → FirstIn primFirst (k :: ks) := fun h => ⟨_, _, rfl, fun _ => h⟩
  have hlit : ∀ {q : Nat} {us : List Chr} {ic : Bool} {ks : List Tok}, FirstIn primFirst (.lit q us ic :: ks) := fun {q us ic ks} =>
    ⟨_, _, rfl, fun hk c hc => by
      have := lit_first hk c hc
      simp only [inCs, primFirst, List.any_cons, List.any_append, Bool.or_eq_true, List.any_nil] at this ⊢
      tauto⟩
  induction h with
  | ref => exact ⟨_, _, rfl, fun hk c hc => idStart_first (name_first (v := []) hk c (by simpa [Tok.chars] using hc))⟩
  | call _ _ _ _ => exact ⟨_, _, rfl, fun hk c hc => idStart_first (name_first (v := [40]) hk c (by simpa [Tok.chars] using hc))⟩
  | group _ _ => exact hsym (by intro c hc; cases hc; decide)
  | token _ _ => exact hsym (by intro c hc; cases hc; decide)
  | scope _ _ => exact hsym (by intro c hc; cases hc; decide)
  | capture _ _ => exact hsym (by intro c hc; cases hc; decide)
  | bref => exact hsym (by intro c hc; cases hc; decide)
  | lit => exact hlit
  | dict => exact hlit
  | cls => exact hsym (by intro c hc; cases hc; decide)
  | dot => exact hsym (by intro c hc; cases hc; decide)
  | suf _ ih => exact ih
  | rep _ hb ih => exact FirstIn.append _ ih
  | lab _ ih => exact ih
  | label _ _ ih => exact FirstIn.append _ ih
  | item _ ih => obtain ⟨k, ks, h1, h2⟩ := ih; exact ⟨k, ks, h1, fun hk c hc => prim_item (h2 hk c hc)⟩
  | and_ _ ih => exact ⟨_, _, rfl, fun _ => by intro c hc; cases hc; decide⟩
  | not_ _ ih => exact ⟨_, _, rfl, fun _ => by intro c hc; cases hc; decide⟩
  | cut => exact ⟨_, _, rfl, fun _ => by intro c hc; cases hc; decide⟩
  | none => exact Or.inl rfl
  | more _ _ ih1 ih2 => exact Or.inr (FirstIn.append _ ih1)
  | sqn _ ih => trivial
  | noAlt => exact Or.inl rfl
  | alt _ _ ih1 ih2 => exact Or.inr ⟨_, rfl⟩
  | exp _ _ ih1 ih2 => trivial
  | noArg => exact Or.inl rfl
  | arg _ _ ih1 ih2 => exact Or.inr ⟨_, rfl⟩

section
variable {T : Str}

theorem Cnd.first {L : List Ope} {l : List (Nat × Nat)} {ts : List Tok} (h : FirstIn l ts) (ha : ∀ e ∈ L, ab 50 (.cs l) e = .fail) : Cnd T L ts := by
  obtain ⟨k, ks, rfl, h⟩ := h
  intro t hl hs e he
  obtain ⟨sp, u, hk⟩ := hl.tk hs
  exact hk.fail (ha e he) (h hk.ok)

theorem Cnd.sym {L : List Ope} {c : Nat} {ks : List Tok} (ha : ∀ e ∈ L, ab 50 (.cs [(c, c)]) e = .fail) : Cnd T L (.sym c :: ks) :=
  Cnd.first ⟨_, _, rfl, fun _ d hd => by cases hd; simp [inCs]⟩ ha

theorem Cnd.sub {L L' : List Ope} {ts : List Tok} (h : Cnd T L ts) (hs : ∀ e ∈ L', e ∈ L) : Cnd T L' ts := fun t hl hsub e he => h t hl hsub e (hs e he)

/-! ## What must not follow -/

def lPrim : List Ope := [gPIPE]
def lSuf : List Ope := gLoop :: lPrim
def lLab : List Ope := gLABEL :: lSuf
def lSqn : List Ope := gCUT :: gPrefix :: lLab
def lExp : List Ope := gSLASH :: lSqn
def lArgs : List Ope := gCOMMA :: lExp

def Form.after : Form → List Ope
  | .prim _ => lPrim
  | .suf _ => lSuf
  | .lab _ | .item _ => lLab
  | .items _ | .sqn _ => lSqn
  | .alts _ | .exp _ => lExp
  | .args _ => lArgs

def Form.reads (T : Str) (t t' : Str) : Form → Prop
  | .prim e => Rd T gPrimary t t' [opeV e] []
  | .suf e => Rd T gSuffix t t' [opeV e] []
  | .lab e => Rd T gSuffixWithLabel t t' [opeV e] []
  | .item e => Rd T (cho [gCUT, gPrefix]) t t' [opeV e] []
  | .items es => MtStar (enc T) (cho [gCUT, gPrefix]) (enc t) (enc t') (es.map opeV) []
  | .sqn e => Rd T gSequence t t' [opeV e] []
  | .alts es => MtStar (enc T) (seq [gSLASH, gSequence]) (enc t) (enc t') (es.map opeV) []
  | .exp e => Rd T gExpression t t' [opeV e] []
  | .args es => MtStar (enc T) (seq [gCOMMA, gExpression]) (enc t) (enc t') (es.map opeV) []

/-- What is written is read, whatever follows, provided it cannot be taken as a continuation. -/
def Reads (T : Str) (f : Form) (ts : List Tok) : Prop :=
  ∀ (rest : List Tok) (t : Str), Tail rest → Cnd T f.after rest → Lay (ts ++ rest) t → Sub T t →
    ∃ c t', t = c ++ t' ∧ Lay rest t' ∧ f.reads T t t'

theorem sub_of {t c t' : Str} (hs : Sub T t) (h : t = c ++ t') : Sub T t' := by subst h; exact hs.tail

theorem Writes.reads {f : Form} {ts : List Tok} (h : Writes f ts) : Reads T f ts := by
  induction h with
  | @ref ign nm =>
    intro rest t ht _ hl hs
    obtain ⟨sp, u, hk⟩ := hl.tk hs
    exact ⟨_, u, hk.split, hk.lay, prim_ref hk (hd_fail ht hk.lay hk.next)⟩
  | @call ign nm a as ts ts' w1 w2 ih1 ih2 =>
    intro rest t ht _ hl hs
    have hl' : Lay (.call ign nm :: (ts ++ (ts' ++ (.sym 41 :: rest)))) t := by simpa using hl
    obtain ⟨sp, u, hk⟩ := hl'.tk hs
    have ht1 : Tail (.sym 41 :: rest) := Tail.prepend (a := [.sym 41]) (.cons (by simp) .nil) ht
    have hcnd : Cnd T lExp (ts' ++ (.sym 41 :: rest)) := by
      rcases w2.first with rfl | ⟨ks, rfl⟩
      · exact Cnd.sym (by decide +kernel)
      · exact Cnd.sym (by decide +kernel)
    obtain ⟨c1, v, e1, l1, r1⟩ := ih1 _ u (Tail.prepend w2.noArrow ht1) hcnd hk.lay hk.next
    have hsv := sub_of hk.next e1
    obtain ⟨c2, w, e2, l2, r2⟩ := ih2 _ v ht1 (Cnd.sym (L := lArgs) (by decide +kernel)) l1 hsv
    have hsw := sub_of hsv e2
    obtain ⟨sp', x, hk'⟩ := l2.tk hsw
    have e3 : u = (c1 ++ (c2 ++ ((Tok.sym 41).chars ++ sp'))) ++ x := by rw [e1, e2, hk'.eq]; simp
    exact ⟨(Tok.call ign nm).chars ++ (sp ++ (c1 ++ (c2 ++ ((Tok.sym 41).chars ++ sp')))), x, by rw [hk.eq, e3]; simp, hk'.lay,
      prim_call hk r1 r2 hk' (hd_fail ht hk'.lay hk'.next) ⟨_, e3⟩⟩
  | @group e ts w1 ih1 =>
    intro rest t ht _ hl hs
    have hl' : Lay (.sym 40 :: (ts ++ (.sym 41 :: rest))) t := by simpa using hl
    obtain ⟨sp, u, hk⟩ := hl'.tk hs
    obtain ⟨c1, v, e1, l1, r1⟩ := ih1 _ u (Tail.prepend (a := [.sym 41]) (.cons (by simp) .nil) ht) (Cnd.sym (L := lExp) (by decide +kernel)) hk.lay hk.next
    obtain ⟨sp', x, hk'⟩ := l1.tk (sub_of hk.next e1)
    have e3 : u = (c1 ++ ((Tok.sym 41).chars ++ sp')) ++ x := by rw [e1, hk'.eq]; simp
    exact ⟨(Tok.sym 40).chars ++ (sp ++ (c1 ++ ((Tok.sym 41).chars ++ sp'))), x, by rw [hk.eq, e3]; simp, hk'.lay, prim_group hk r1 hk' ⟨_, e3⟩⟩
  | @token e ts w1 ih1 =>
    intro rest t ht _ hl hs
    have hl' : Lay (.sym 60 :: (ts ++ (.sym 62 :: rest))) t := by simpa using hl
    obtain ⟨sp, u, hk⟩ := hl'.tk hs
    obtain ⟨c1, v, e1, l1, r1⟩ := ih1 _ u (Tail.prepend (a := [.sym 62]) (.cons (by simp) .nil) ht) (Cnd.sym (L := lExp) (by decide +kernel)) hk.lay hk.next
    obtain ⟨sp', x, hk'⟩ := l1.tk (sub_of hk.next e1)
    have e3 : u = (c1 ++ ((Tok.sym 62).chars ++ sp')) ++ x := by rw [e1, hk'.eq]; simp
    exact ⟨(Tok.sym 60).chars ++ (sp ++ (c1 ++ ((Tok.sym 62).chars ++ sp'))), x, by rw [hk.eq, e3]; simp, hk'.lay, prim_token hk r1 hk' ⟨_, e3⟩⟩
  | @scope e ts w1 ih1 =>
    intro rest t ht _ hl hs
    have hl' : Lay (.scope :: (ts ++ (.sym 41 :: rest))) t := by simpa using hl
    obtain ⟨sp, u, hk⟩ := hl'.tk hs
    obtain ⟨c1, v, e1, l1, r1⟩ := ih1 _ u (Tail.prepend (a := [.sym 41]) (.cons (by simp) .nil) ht) (Cnd.sym (L := lExp) (by decide +kernel)) hk.lay hk.next
    obtain ⟨sp', x, hk'⟩ := l1.tk (sub_of hk.next e1)
    have e3 : u = (c1 ++ ((Tok.sym 41).chars ++ sp')) ++ x := by rw [e1, hk'.eq]; simp
    exact ⟨Tok.scope.chars ++ (sp ++ (c1 ++ ((Tok.sym 41).chars ++ sp'))), x, by rw [hk.eq, e3]; simp, hk'.lay, prim_scope hk r1 hk' ⟨_, e3⟩⟩
  | @capture nm e ts w1 ih1 =>
    intro rest t ht _ hl hs
    have hl' : Lay (.capOpen nm :: (ts ++ (.sym 62 :: rest))) t := by simpa using hl
    obtain ⟨sp, u, hk⟩ := hl'.tk hs
    obtain ⟨c1, v, e1, l1, r1⟩ := ih1 _ u (Tail.prepend (a := [.sym 62]) (.cons (by simp) .nil) ht) (Cnd.sym (L := lExp) (by decide +kernel)) hk.lay hk.next
    obtain ⟨sp', x, hk'⟩ := l1.tk (sub_of hk.next e1)
    have e3 : u = (c1 ++ ((Tok.sym 62).chars ++ sp')) ++ x := by rw [e1, hk'.eq]; simp
    exact ⟨(Tok.capOpen nm).chars ++ (sp ++ (c1 ++ ((Tok.sym 62).chars ++ sp'))), x, by rw [hk.eq, e3]; simp, hk'.lay, prim_capture hk r1 hk' ⟨_, e3⟩⟩
  | @bref nm =>
    intro rest t ht _ hl hs
    obtain ⟨sp, u, hk⟩ := hl.tk hs
    exact ⟨_, u, hk.split, hk.lay, prim_bref hk⟩
  | lit =>
    intro rest t ht hc hl hs
    obtain ⟨sp, u, hk⟩ := hl.tk hs
    exact ⟨_, u, hk.split, hk.lay, prim_lit hk (hc u hk.lay hk.next gPIPE (by simp [Form.after, lPrim]))⟩
  | dict =>
    intro rest t ht hc hl hs
    exact prim_dict hl hs hc
  | cls =>
    intro rest t ht hc hl hs
    obtain ⟨sp, u, hk⟩ := hl.tk hs
    exact ⟨_, u, hk.split, hk.lay, prim_cls hk⟩
  | dot =>
    intro rest t ht hc hl hs
    obtain ⟨sp, u, hk⟩ := hl.tk hs
    exact ⟨_, u, hk.split, hk.lay, prim_dot hk⟩
  | suf w1 ih =>
    intro rest t ht hc hl hs
    obtain ⟨c, t', e1, l1, r1⟩ := ih rest t ht (hc.sub (by intro e he; exact List.mem_cons_of_mem _ he)) hl hs
    exact ⟨c, t', e1, l1, suf_step r1 (hc t' l1 (sub_of hs e1) gLoop (by simp [Form.after, lSuf])) hs ⟨c, e1⟩⟩
  | @rep e ts lt mn mx w1 hb ih =>
    intro rest t ht hc hl hs
    have hcnd : Cnd T lPrim (lt ++ rest) := by
      cases hb <;> exact Cnd.sym (by decide +kernel)
    obtain ⟨c, t', e1, l1, r1⟩ := ih (lt ++ rest) t (Tail.prepend hb.noArrow ht) hcnd (by simpa using hl) hs
    obtain ⟨c2, t2, e2, l2, r2⟩ := loop_read hb l1 (sub_of hs e1)
    have e3 : t = (c ++ c2) ++ t2 := by rw [e1, e2]; simp
    exact ⟨_, t2, e3, l2, rep_step r1 r2 hs ⟨_, e3⟩⟩
  | lab w1 ih =>
    intro rest t ht hc hl hs
    obtain ⟨c, t', e1, l1, r1⟩ := ih rest t ht (hc.sub (by intro e he; exact List.mem_cons_of_mem _ he)) hl hs
    exact ⟨c, t', e1, l1, lab_step r1 (hc t' l1 (sub_of hs e1) gLABEL (by simp [Form.after, lLab])) hs ⟨c, e1⟩⟩
  | @label e ts ch l w1 hch ih =>
    intro rest t ht hc hl hs
    have hl' : Lay (ts ++ (.sym ch :: .ident false l :: rest)) t := by simpa using hl
    have hcnd : Cnd T lSuf (.sym ch :: .ident false l :: rest) := by
      rcases hch with rfl | rfl <;> exact Cnd.sym (by decide +kernel)
    obtain ⟨c, u, e1, l1, r1⟩ := ih _ t (Tail.prepend (a := [.sym ch, .ident false l]) (.cons (by simp) (.cons (by simp) .nil)) ht) hcnd hl' hs
    obtain ⟨sp1, u1, hk1⟩ := l1.tk (sub_of hs e1)
    obtain ⟨sp2, u2, hk2⟩ := hk1.lay.tk hk1.next
    have e3 : t = (c ++ ((Tok.sym ch).chars ++ sp1 ++ ((Tok.ident false l).chars ++ sp2))) ++ u2 := by rw [e1, hk1.eq, hk2.eq]; simp
    have rl : Rd T gLABEL u u1 [] [] := by
      have h0 := hk1.sub
      refine Rd.ruleX (d := dLABEL) (vs := []) (tk := []) rfl rfl (sub_of hs e1) ⟨_, hk1.split⟩ ?_ fun _ => rfl
      rw [hk1.eq]
      refine Mt.seq (MtL.cons (v := []) (tk := []) (t1 := enc (sp1 ++ u1)) ?_ (MtL.cons (v := []) (tk := []) (spacing_read hk1.spc hk1.stop h0.tail) .nil))
      rcases hch with rfl | rfl
      · exact Mt.cho (.here (Rd.chr h0))
      · exact Mt.cho (.next (Fl.cs (l := [(0x21D1, 0x21D1)]) (by decide +kernel) h0 (by decide)) (.here (Rd.lit [0x21D1] (by decide) h0)))
    have ri : Rd T gIdentifier u1 u2 [some (.str (enc l))] [] := by
      rw [hk2.eq]
      exact identifier_read hk2.ok (fun c hc => (idRest_not (hk2.glue c hc)).1) hk2.spc hk2.stop hk2.sub
    exact ⟨_, u2, e3, hk2.lay, label_step r1 rl ri hs ⟨_, e3⟩⟩
  | item w1 ih =>
    intro rest t ht hc hl hs
    obtain ⟨c, t', e1, l1, r1⟩ := ih rest t ht hc hl hs
    have hf := Cnd.first (T := T) (L := [cho [gAND, gNOT], gCUT]) (w1.first.append rest) (by decide +kernel) t hl hs
    exact ⟨c, t', e1, l1, pre_step r1 (hf _ (by simp)) (hf _ (by simp)) hs ⟨c, e1⟩⟩
  | @and_ e ts w1 ih =>
    intro rest t ht hc hl hs
    obtain ⟨sp, u, hk⟩ := hl.tk hs
    obtain ⟨c, t', e1, l1, r1⟩ := ih rest u ht hc hk.lay hk.next
    have e3 : t = ((Tok.sym 38).chars ++ sp ++ c) ++ t' := by rw [hk.eq, e1]; simp
    exact ⟨_, t', e3, l1, and_step hk r1 hs ⟨_, e3⟩⟩
  | @not_ e ts w1 ih =>
    intro rest t ht hc hl hs
    obtain ⟨sp, u, hk⟩ := hl.tk hs
    obtain ⟨c, t', e1, l1, r1⟩ := ih rest u ht hc hk.lay hk.next
    have e3 : t = ((Tok.sym 33).chars ++ sp ++ c) ++ t' := by rw [hk.eq, e1]; simp
    exact ⟨_, t', e3, l1, not_step hk r1 hs ⟨_, e3⟩⟩
  | cut =>
    intro rest t ht hc hl hs
    obtain ⟨sp, u, hk⟩ := hl.tk hs
    exact ⟨_, u, hk.split, hk.lay, cut_step hk hs⟩
  | none =>
    intro rest t ht hc hl hs
    have hf := hc t hl hs
    refine ⟨[], t, rfl, hl, .stop (Mf.cho fun e he => ?_)⟩
    simp only [List.mem_cons, List.not_mem_nil, or_false] at he
    rcases he with rfl | rfl <;> exact hf _ (by simp [Form.after, lSqn])
  | @more e es ts ts' w1 w2 ih1 ih2 =>
    intro rest t ht hc hl hs
    have hcnd : Cnd T lLab (ts' ++ rest) := by
      rcases w2.first with rfl | h
      · exact Cnd.sub hc (by intro e he; exact List.mem_cons_of_mem _ (List.mem_cons_of_mem _ he))
      · exact Cnd.first (h.append rest) (by decide +kernel)
    obtain ⟨c, u, e1, l1, r1⟩ := ih1 (ts' ++ rest) t (Tail.prepend w2.noArrow ht) hcnd (by simpa using hl) hs
    obtain ⟨c2, t', e2, l2, r2⟩ := ih2 rest u ht hc l1 (sub_of hs e1)
    exact ⟨c ++ c2, t', by rw [e1, e2]; simp, l2, .more (v := [opeV e]) (tk := []) r1 r2⟩
  | sqn w1 ih =>
    intro rest t ht hc hl hs
    obtain ⟨c, t', e1, l1, r1⟩ := ih rest t ht hc hl hs
    exact ⟨c, t', e1, l1, sqn_step r1 hs ⟨c, e1⟩⟩
  | noAlt =>
    intro rest t ht hc hl hs
    exact ⟨[], t, rfl, hl, .stop (Mf.seq (.head (hc t hl hs gSLASH (by simp [Form.after, lExp]))))⟩
  | @alt e es ts ts' w1 w2 ih1 ih2 =>
    intro rest t ht hc hl hs
    have hl' : Lay (.sym 47 :: (ts ++ (ts' ++ rest))) t := by simpa using hl
    obtain ⟨sp, u, hk⟩ := hl'.tk hs
    have hcnd : Cnd T lSqn (ts' ++ rest) := by
      rcases w2.first with rfl | ⟨ks, rfl⟩
      · exact Cnd.sub hc (by intro e he; exact List.mem_cons_of_mem _ he)
      · exact Cnd.sym (by decide +kernel)
    obtain ⟨c, v, e1, l1, r1⟩ := ih1 _ u (Tail.prepend w2.noArrow ht) hcnd hk.lay hk.next
    obtain ⟨c2, t', e2, l2, r2⟩ := ih2 rest v ht hc l1 (sub_of hk.next e1)
    exact ⟨(Tok.sym 47).chars ++ sp ++ (c ++ c2), t', by rw [hk.eq, e1, e2]; simp, l2, .more (v := [opeV e]) (tk := [])
      (Mt.seq (MtL.cons (v := []) (tk := []) (hk.symbol (d := dSLASH) rfl rfl rfl) (MtL.cons (v := [opeV e]) (tk := []) r1 .nil))) r2⟩
  | @exp e es ts ts' w1 w2 ih1 ih2 =>
    intro rest t ht hc hl hs
    have hcnd : Cnd T lSqn (ts' ++ rest) := by
      rcases w2.first with rfl | ⟨ks, rfl⟩
      · exact Cnd.sub hc (by intro e he; exact List.mem_cons_of_mem _ he)
      · exact Cnd.sym (by decide +kernel)
    obtain ⟨c, v, e1, l1, r1⟩ := ih1 _ t (Tail.prepend w2.noArrow ht) hcnd (by simpa using hl) hs
    obtain ⟨c2, t', e2, l2, r2⟩ := ih2 rest v ht hc l1 (sub_of hs e1)
    have e3 : t = (c ++ c2) ++ t' := by rw [e1, e2]; simp
    exact ⟨_, t', e3, l2, exp_step r1 r2 hs ⟨_, e3⟩⟩
  | noArg =>
    intro rest t ht hc hl hs
    exact ⟨[], t, rfl, hl, .stop (Mf.seq (.head (hc t hl hs gCOMMA (by simp [Form.after, lArgs]))))⟩
  | @arg e es ts ts' w1 w2 ih1 ih2 =>
    intro rest t ht hc hl hs
    have hl' : Lay (.sym 44 :: (ts ++ (ts' ++ rest))) t := by simpa using hl
    obtain ⟨sp, u, hk⟩ := hl'.tk hs
    have hcnd : Cnd T lExp (ts' ++ rest) := by
      rcases w2.first with rfl | ⟨ks, rfl⟩
      · exact Cnd.sub hc (by intro e he; exact List.mem_cons_of_mem _ he)
      · exact Cnd.sym (by decide +kernel)
    obtain ⟨c, v, e1, l1, r1⟩ := ih1 _ u (Tail.prepend w2.noArrow ht) hcnd hk.lay hk.next
    obtain ⟨c2, t', e2, l2, r2⟩ := ih2 rest v ht hc l1 (sub_of hk.next e1)
    exact ⟨(Tok.sym 44).chars ++ sp ++ (c ++ c2), t', by rw [hk.eq, e1, e2]; simp, l2, .more (v := [opeV e]) (tk := [])
      (Mt.seq (MtL.cons (v := []) (tk := []) (hk.symbol (d := dCOMMA) rfl rfl rfl) (MtL.cons (v := [opeV e]) (tk := []) r1 .nil))) r2⟩

end

end Verif.Meta
