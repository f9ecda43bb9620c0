import Verif.MetaExp
/-!
# Reading what is written: instructions
-/

namespace Verif.Meta
open Verif CharClass Utf8 Props

theorem Mt.ign {text : List Byte} {e : Ope} {t t' : List Byte} {vs : List Val} {tk : List (Nat × Nat)} (h : Mt text e t t' vs tk) :
    Mt text (.ign e) t t' [] [] := by
  intro m s
  obtain ⟨s1, p1, c1, -, -⟩ := h m { s with vs := {} }
  exact ⟨{ s1 with vs := s.vs }, .ign_ok p1, c1, by simp, by simp⟩

theorem Mf.ign {text : List Byte} {e : Ope} {t : List Byte} (h : Mf text e t) : Mf text (.ign e) t := fun m _ => .ign_fail (h m _)

theorem Sp.other {s u u' : Str} (h : Sp s u) (hu : u ≠ []) : Sp s u' := by
  induction h with
  | nil => exact .nil
  | blank hc _ ih => exact .blank hc (ih hu)
  | comment h1 h2 _ ih => exact .comment h1 h2 (ih hu)
  | last => exact absurd rfl hu

section
variable {T : Str}

/-! ## Blanks -/

theorem space_read {c : Nat} {s : Str} (hc : c ∈ blanks) (hs : Sub T (c :: s)) :
    ∃ s', (s' = s ∨ s = 10 :: s') ∧ Rd T gSpace (c :: s) s' [none] [] := by
  have hdS : metaRules[rSpace]? = some dSpace := rfl
  by_cases he : c = 10 ∨ c = 13
  · obtain ⟨s', hs', hr⟩ := eol_read he hs
    refine ⟨s', hs', ?_⟩
    rcases hs' with rfl | hs'
    · refine Rd.ruleC (c := [c]) hdS rfl hs (.next ?_ (.next ?_ (.here hr))) rfl
      · exact Fl.cs (l := [(10, 10), (13, 13)]) (by decide +kernel) hs (by rcases he with rfl | rfl <;> decide)
      · exact Fl.cs (l := [(10, 10), (13, 13)]) (by decide +kernel) hs (by rcases he with rfl | rfl <;> decide)
    · have h2 := hs
      rw [hs'] at h2
      rw [hs'] at hr ⊢
      refine Rd.ruleC (c := [c, 10]) hdS rfl h2 (.next ?_ (.next ?_ (.here hr))) rfl
      · exact Fl.cs (l := [(10, 10), (13, 13)]) (by decide +kernel) h2 (by rcases he with rfl | rfl <;> decide)
      · exact Fl.cs (l := [(10, 10), (13, 13)]) (by decide +kernel) h2 (by rcases he with rfl | rfl <;> decide)
  · refine ⟨s, Or.inl rfl, ?_⟩
    have : c = 32 ∨ c = 9 := by simp [blanks] at hc; omega
    rcases this with rfl | rfl
    · exact Rd.ruleC (c := [32]) hdS rfl hs (.here (Rd.chr hs)) rfl
    · refine Rd.ruleC (c := [9]) hdS rfl hs (.next ?_ (.here (Rd.chr hs))) rfl
      exact Fl.cs (l := [(9, 9)]) (by decide +kernel) hs (by decide)

/-- No blank comes next. -/
def Solid (v : Str) : Prop := ∀ c, v.head? = some c → inCs [(9, 10), (13, 13), (32, 32)] c = false

theorem Solid.cons {c : Nat} {v : Str} (h : inCs [(9, 10), (13, 13), (32, 32)] c = false) : Solid (c :: v) := by
  intro d hd; cases hd; exact h

theorem blanks_step {c : Nat} {b v : Str} (hb : ∀ d ∈ c :: b, d ∈ blanks) (hv : Solid v) (hs : Sub T (c :: b ++ v)) :
    ∃ a b', c :: b = a ++ b' ∧ b'.length ≤ b.length ∧ Rd T gSpace (c :: b ++ v) (b' ++ v) [none] [] := by
  obtain ⟨s', hs', hr⟩ := space_read (s := b ++ v) (hb c (by simp)) hs
  rcases hs' with rfl | hs'
  · exact ⟨[c], b, rfl, Nat.le_refl _, hr⟩
  · cases b with
    | nil =>
      have := hv 10 (by rw [List.nil_append] at hs'; rw [hs']; rfl)
      exact absurd this (by decide)
    | cons d b =>
      simp only [List.cons_append, List.cons.injEq] at hs'
      obtain ⟨rfl, rfl⟩ := hs'
      exact ⟨[c, 10], b, rfl, by simp, hr⟩

theorem blanks_star (n : Nat) : ∀ (b v : Str), b.length ≤ n → (∀ d ∈ b, d ∈ blanks) → Solid v → Sub T (b ++ v) →
    ∃ vs, MtStar (enc T) gSpace (enc (b ++ v)) (enc v) vs [] := by
  induction n with
  | zero =>
    intro b v hn _ hv hs
    obtain rfl : b = [] := List.length_eq_zero_iff.mp (by omega)
    exact ⟨[], .stop (Fl.no (l := [(9, 10), (13, 13), (32, 32)]) (by decide +kernel) hs hv)⟩
  | succ n ih =>
    intro b v hn hb hv hs
    cases b with
    | nil => exact ⟨[], .stop (Fl.no (l := [(9, 10), (13, 13), (32, 32)]) (by decide +kernel) hs hv)⟩
    | cons c b =>
      obtain ⟨a, b', e1, e2, h1⟩ := blanks_step hb hv hs
      have hs' : Sub T (b' ++ v) := by
        rw [e1, List.append_assoc] at hs; exact hs.tail
      obtain ⟨vs, h2⟩ := ih b' v (by simp at hn; omega) (fun d hd => hb d (by rw [e1]; simp [hd])) hv hs'
      exact ⟨_, .more (tk := []) h1 h2⟩

theorem zom_read {b v : Str} (hb : ∀ d ∈ b, d ∈ blanks) (hv : Solid v) (hs : Sub T (b ++ v)) : Rd T gSpacesZom (b ++ v) v [] [] := by
  obtain ⟨vs, h⟩ := blanks_star b.length b v (Nat.le_refl _) hb hv hs
  exact Rd.rule (d := dSpacesZom) rfl rfl hs (Mt.zom h) rfl

theorem oom_read {b v : Str} (hb : Gap b) (hv : Solid v) (hs : Sub T (b ++ v)) : Rd T gSpacesOom (b ++ v) v [] [] := by
  obtain ⟨hne, hb⟩ := hb
  cases b with
  | nil => exact absurd rfl hne
  | cons c b =>
    obtain ⟨a, b', e1, e2, h1⟩ := blanks_step hb hv hs
    have hs' : Sub T (b' ++ v) := by
      have h := hs
      rw [e1, List.append_assoc] at h; exact h.tail
    obtain ⟨vs, h2⟩ := blanks_star b'.length b' v (Nat.le_refl _) (fun d hd => hb d (by rw [e1]; simp [hd])) hv hs'
    exact Rd.rule (d := dSpacesOom) rfl rfl hs (Mt.oom (tk := []) h1 h2) rfl

/-! ## Operators -/

theorem assoc_read {c : Nat} {v : Str} (hc : c = 76 ∨ c = 82) (hs : Sub T (c :: v)) : Rd T gPrecedenceAssoc (c :: v) v [some (.view [toByte c])] [] := by
  refine Rd.rule (c := [c]) (d := dPrecedenceAssoc) (vs := []) (tk := []) rfl rfl hs (Rd.cls hs (by rcases hc with rfl | rfl <;> decide)) ?_
  rcases hc with rfl | rfl <;> rfl

/-- The characters a bare operator ends at. -/
theorem bare_end {c : Nat} {v : Str} (hc : c ∈ 76 :: 82 :: 125 :: blanks) (hs : Sub T (c :: v)) :
    ∃ t' vs tk, Rd T (cho [gPrecedenceAssoc, gSpace, .chr 125]) (c :: v) t' vs tk := by
  by_cases h1 : c = 76 ∨ c = 82
  · exact ⟨_, _, _, Mt.cho (.here (assoc_read h1 hs))⟩
  · have hna : Fl T gPrecedenceAssoc (c :: v) := by
      refine Fl.no (l := [(76, 76), (82, 82)]) (by decide +kernel) hs ?_
      intro d hd; cases hd
      simp [inCs]; omega
    by_cases h2 : c = 125
    · subst h2
      exact ⟨_, _, _, Mt.cho (.next hna (.next (Fl.cs (l := [(125, 125)]) (by decide +kernel) hs (by decide)) (.here (Rd.chr hs))))⟩
    · have hb : c ∈ blanks := by
        simp only [List.mem_cons] at hc
        rcases hc with h | h | h | h
        · exact absurd (Or.inl h) h1
        · exact absurd (Or.inr h) h1
        · exact absurd h h2
        · simpa [blanks] using h
      obtain ⟨s', -, h⟩ := space_read hb hs
      exact ⟨_, _, _, Mt.cho (.next hna (.here h))⟩

theorem bare_star {s v : Str} (h : ∀ c ∈ s, c ∉ 76 :: 82 :: 125 :: blanks) (hv : ∀ c, v.head? = some c → c ∈ 76 :: 82 :: 125 :: blanks) (hs : Sub T (s ++ v)) :
    MtStar (enc T) (seq [npd (cho [gPrecedenceAssoc, gSpace, .chr 125]), .dot]) (enc (s ++ v)) (enc v) [] [] := by
  induction s with
  | nil =>
    cases v with
    | nil => exact .stop (Mf.seq (.tail (Mt.npd (Fl.eof (by decide +kernel))) (.head (Fl.eof (by decide +kernel)))))
    | cons c v =>
      obtain ⟨t', vs, tk, hr⟩ := bare_end (hv c rfl) hs
      exact .stop (Mf.seq (.head (Mf.npd hr)))
  | cons c s ih =>
    refine .more (v := []) (tk := []) (Mt.seq (MtL.cons (v := []) (tk := []) (Mt.npd ?_) (MtL.cons (v := []) (tk := []) (Rd.dot hs) .nil)))
      (ih (fun d hd => h d (by simp [hd])) hs.tail1)
    refine Fl.no (l := [(76, 76), (82, 82), (125, 125), (9, 10), (13, 13), (32, 32)]) (by decide +kernel) hs ?_
    intro d hd; cases hd
    have := h c (by simp)
    simp [blanks] at this
    simp [inCs]; omega

theorem op_quoted {q : Nat} {us : List Chr} {v : Str} (hq : q = 39 ∨ q = 34) (h : UnitsOk (q :: blanks) us) (hs : Sub T (q :: (us.flatMap Chr.chars ++ q :: v))) :
    ∃ vs, poison vs = none ∧ Rd T (seq [cls [(q, q)], .tok (zom (seq [npd (cho [gSpace, cls [(q, q)]]), gChar])), cls [(q, q)]])
      (q :: (us.flatMap Chr.chars ++ q :: v)) v vs [(pos (enc T) (enc (us.flatMap Chr.chars ++ q :: v)), pos (enc T) (enc (q :: v)) - pos (enc T) (enc (us.flatMap Chr.chars ++ q :: v)))] := by
  have hq1 : inCs [(q, q)] q = true := by simp [inCs]
  obtain ⟨vs, k1, k2⟩ := units_until (bad := q :: blanks) (x := cho [gSpace, cls [(q, q)]]) (q := q) (v := v) (t' := v) (vs' := []) (tk' := [])
    (by rcases hq with rfl | rfl <;> decide) (fun c w hc hsc => by
      simp only [blanks, List.mem_cons, List.not_mem_nil, or_false, not_or] at hc
      refine Mf.cho fun e he => ?_
      simp only [List.mem_cons, List.not_mem_nil, or_false] at he
      rcases he with rfl | rfl
      · refine Fl.no (l := [(9, 10), (13, 13), (32, 32)]) (by decide +kernel) hsc ?_
        intro d hd; cases hd
        simp [inCs]; omega
      · exact Fl.clsC hsc (inCs_one.mpr hc.1))
    (Mt.cho (.next (by
      rcases hq with rfl | rfl
      · exact Fl.cs (l := [(39, 39)]) (by decide +kernel) hs.tail1.tail (by decide)
      · exact Fl.cs (l := [(34, 34)]) (by decide +kernel) hs.tail1.tail (by decide)) (.here (Rd.cls hs.tail1.tail hq1))))
    (open_ascii (by rcases hq with rfl | rfl <;> decide)) h hs.tail1
  refine ⟨[] ++ (vs ++ ([] ++ [])), by simpa using k1, ?_⟩
  exact Mt.seq (MtL.cons (tk := []) (Rd.cls hs hq1) (MtL.cons (Mt.tok (tk := []) (Mt.zom k2)) (MtL.cons (tk := []) (Rd.cls hs.tail1.tail hq1) .nil)))

theorem op_read {o : OpTok} {v : Str} (ho : o.Ok) (hv : (∃ q us, o = .quoted q us) ∨ ∀ c, v.head? = some c → c ∈ 76 :: 82 :: 125 :: blanks)
    (hs : Sub T (o.chars ++ v)) : Rd T gPrecedenceOpe (o.chars ++ v) v [some (.view o.val)] [] := by
  have hd : metaRules[rPrecedenceOpe]? = some dPrecedenceOpe := rfl
  cases o with
  | quoted q us =>
    have hq : q = 39 ∨ q = 34 := by simpa using ho.1
    have e1 : (OpTok.quoted q us).chars ++ v = q :: (us.flatMap Chr.chars ++ q :: v) := by simp [OpTok.chars]
    have hs' : Sub T (q :: (us.flatMap Chr.chars ++ q :: v)) := by rw [← e1]; exact hs
    obtain ⟨vs, k1, k2⟩ := op_quoted hq ho.2 hs'
    rw [← e1] at k2
    have hw : ∀ k, pushed dPrecedenceOpe (rvS T rPrecedenceOpe vs [(pos (enc T) (enc (us.flatMap Chr.chars ++ q :: v)), pos (enc T) (enc (q :: v)) -
        pos (enc T) (enc (us.flatMap Chr.chars ++ q :: v)))] (OpTok.quoted q us).chars k) = [some (.view (OpTok.quoted q us).val)] := by
      intro k
      show [some (valueOf vs (.ok (.view (slice (enc T) (pos (enc T) (enc (us.flatMap Chr.chars ++ q :: v)), pos (enc T) (enc (q :: v)) -
        pos (enc T) (enc (us.flatMap Chr.chars ++ q :: v)))))))] = _
      rw [slice_tok hs'.tail1]
      unfold valueOf
      rw [k1]
      rfl
    rcases hq with rfl | rfl
    · exact Rd.ruleC hd rfl hs (.here k2) (hw 0)
    · refine Rd.ruleC hd rfl hs (.next ?_ (.here k2)) (hw 1)
      rw [e1]
      exact Mf.seq (.head (Fl.cs (l := [(34, 34)]) (by decide +kernel) hs' (by decide)))
  | bare s =>
    obtain ⟨h1, h2, h3⟩ := ho
    have hv' : ∀ c, v.head? = some c → c ∈ 76 :: 82 :: 125 :: blanks := by
      rcases hv with ⟨q, us, h⟩ | h
      · cases h
      · exact h
    have hs' : Sub T (s ++ v) := hs
    cases s with
    | nil => exact absurd rfl h1
    | cons c s =>
      have hq : ∀ q, q = 39 ∨ q = 34 → ∀ es, Fl T (seq (cls [(q, q)] :: es)) (c :: (s ++ v)) := by
        intro q hq es
        refine Mf.seq (.head (Fl.clsC hs' (inCs_one.mpr ?_)))
        rintro rfl
        refine h3 c rfl ?_
        rcases hq with rfl | rfl <;> simp
      have hstar := bare_star h2 hv' hs'
      have hoom : Rd T (oom (seq [npd (cho [gPrecedenceAssoc, gSpace, .chr 125]), .dot])) (c :: (s ++ v)) v [] [] := by
        refine Mt.oom (v := []) (tk := []) (Mt.seq (MtL.cons (v := []) (tk := []) (Mt.npd ?_) (MtL.cons (v := []) (tk := []) (Rd.dot hs') .nil)))
          (bare_star (fun d hd => h2 d (by simp [hd])) hv' hs'.tail1)
        refine Fl.no (l := [(76, 76), (82, 82), (125, 125), (9, 10), (13, 13), (32, 32)]) (by decide +kernel) hs' ?_
        intro d hd; cases hd
        have := h2 c (by simp)
        simp [blanks] at this
        simp [inCs]; omega
      refine Rd.ruleC hd rfl hs (.next (hq 39 (Or.inl rfl) _) (.next (hq 34 (Or.inr rfl) _) (.here (Mt.tok (tk := []) hoom)))) ?_
      show [some (valueOf [] (.ok (.view (slice (enc T) _))))] = _
      have := slice_tok (c := c :: s) (s := v) hs'
      exact congrArg (fun x => [some (MV.view x)]) this

/-- No operator here. -/
theorem op_none {c : Nat} {v : Str} (hc : c = 76 ∨ c = 82 ∨ c = 125) (hs : Sub T (c :: v)) : Fl T gPrecedenceOpe (c :: v) := by
  refine Mf.rule (d := dPrecedenceOpe) rfl (Mf.cho fun e he => ?_)
  simp only [List.mem_cons, List.not_mem_nil, or_false] at he
  have hcl : inCs [(76, 76), (82, 82), (125, 125)] c = true := by rcases hc with rfl | rfl | rfl <;> decide
  rcases he with rfl | rfl | rfl
  · exact Fl.cs (l := [(76, 76), (82, 82), (125, 125)]) (by decide +kernel) hs hcl
  · exact Fl.cs (l := [(76, 76), (82, 82), (125, 125)]) (by decide +kernel) hs hcl
  · obtain ⟨t', vs, tk, h⟩ := bare_end (c := c) (by rcases hc with rfl | rfl | rfl <;> simp) hs
    exact Mf.tok (Mf.oom (Mf.seq (.head (Mf.npd h))))

/-! ## Tables of precedences -/

/-- What may follow the operators of a level. -/
def OpsEnd (ops : List (Str × OpTok)) (v : Str) : Prop :=
  (∃ b d w, v = b ++ d :: w ∧ (∀ c ∈ b, c ∈ blanks) ∧ (d = 125 ∨ b ≠ [] ∧ (d = 76 ∨ d = 82))) ∨
  (∃ w, v = 59 :: w ∧ ∀ o, ops.getLast? = some o → ∃ q us, o.2 = .quoted q us)

abbrev opsOpe : Ope := seq [.ign gSpacesOom, gPrecedenceOpe]

theorem ops_stop {ops : List (Str × OpTok)} {v : Str} (h : OpsEnd ops v) (hs : Sub T v) : Fl T opsOpe v := by
  rcases h with ⟨b, d, w, rfl, hb, hd⟩ | ⟨w, rfl, -⟩
  · have hd3 : d = 76 ∨ d = 82 ∨ d = 125 := by rcases hd with h | ⟨-, h | h⟩ <;> simp [h]
    cases b with
    | nil =>
      obtain rfl : d = 125 := by rcases hd with h | ⟨h, -⟩; exact h; exact absurd rfl h
      exact Mf.seq (.head (Mf.ign (Fl.cs (l := [(125, 125)]) (by decide +kernel) hs (by decide))))
    | cons c b =>
      have hg : Gap (c :: b) := ⟨by simp, hb⟩
      exact Mf.seq (.tail (Mt.ign (oom_read hg (Solid.cons (by rcases hd3 with rfl | rfl | rfl <;> decide)) hs)) (.head (op_none hd3 hs.tail)))
  · exact Mf.seq (.head (Mf.ign (Fl.cs (l := [(59, 59)]) (by decide +kernel) hs (by decide))))

theorem OpsEnd.last {ops : List (Str × OpTok)} {o : Str × OpTok} {v : Str} (h : OpsEnd ops v) (ho : ops.getLast? = some o) :
    (∃ q us, o.2 = .quoted q us) ∨ ∀ c, v.head? = some c → c ∈ 76 :: 82 :: 125 :: blanks := by
  rcases h with ⟨b, d, w, rfl, hb, hd⟩ | ⟨w, rfl, h⟩
  · refine Or.inr fun c hc => ?_
    cases b with
    | nil =>
      cases hc
      rcases hd with rfl | ⟨-, rfl | rfl⟩ <;> simp
    | cons a b =>
      cases hc
      have := hb c (by simp)
      simp only [List.mem_cons]
      exact Or.inr (Or.inr (Or.inr (by simpa [blanks] using this)))
  · exact Or.inl (h o ho)

theorem op_solid {o : OpTok} (ho : o.Ok) {v : Str} : Solid (o.chars ++ v) := by
  cases o with
  | quoted q us =>
    have hq : q = 39 ∨ q = 34 := by simpa using ho.1
    exact Solid.cons (v := us.flatMap Chr.chars ++ [q] ++ v) (by rcases hq with rfl | rfl <;> decide)
  | bare s =>
    cases s with
    | nil => exact absurd rfl ho.1
    | cons c s =>
      refine Solid.cons (v := s ++ v) ?_
      have := ho.2.1 c (by simp)
      simp [blanks] at this
      simp [inCs]; omega

def opsChars (ops : List (Str × OpTok)) : Str := ops.flatMap fun o => o.1 ++ o.2.chars

theorem op_step {o : Str × OpTok} {v : Str} (hg : Gap o.1) (ho : o.2.Ok)
    (hv : (∃ q us, o.2 = .quoted q us) ∨ ∀ c, v.head? = some c → c ∈ 76 :: 82 :: 125 :: blanks) (hs : Sub T (o.1 ++ (o.2.chars ++ v))) :
    Rd T opsOpe (o.1 ++ (o.2.chars ++ v)) v [some (.view o.2.val)] [] :=
  Mt.seq (MtL.cons (v := []) (tk := []) (Mt.ign (oom_read hg (op_solid ho) hs)) (MtL.cons (v := [_]) (tk := []) (op_read ho hv hs.tail) .nil))

theorem ops_front {o : Str × OpTok} {ops : List (Str × OpTok)} {v : Str} (h : ∀ o' ∈ o :: ops, Gap o'.1 ∧ o'.2.Ok) (he : OpsEnd (o :: ops) v) :
    (∃ q us, o.2 = .quoted q us) ∨ ∀ c, (opsChars ops ++ v).head? = some c → c ∈ 76 :: 82 :: 125 :: blanks := by
  cases ops with
  | nil => exact he.last rfl
  | cons p ops =>
    refine Or.inr fun c hc => ?_
    obtain ⟨h1, h2⟩ := (h p (by simp)).1
    cases hp : p.1 with
    | nil => exact absurd hp h1
    | cons a b =>
      simp only [opsChars, List.flatMap_cons, hp, List.cons_append, List.head?_cons, Option.some.injEq] at hc
      subst hc
      have := h2 a (by rw [hp]; simp)
      simp only [List.mem_cons]
      exact Or.inr (Or.inr (Or.inr (by simpa [blanks] using this)))

theorem OpsEnd.tail {o : Str × OpTok} {ops : List (Str × OpTok)} {v : Str} (he : OpsEnd (o :: ops) v) (hne : ops ≠ []) : OpsEnd ops v := by
  rcases he with h | ⟨w, rfl, h⟩
  · exact Or.inl h
  · refine Or.inr ⟨w, rfl, fun p hp => h p ?_⟩
    cases ops with
    | nil => exact absurd rfl hne
    | cons a l => rw [List.getLast?_cons_cons]; exact hp

theorem ops_star : ∀ (ops : List (Str × OpTok)) {v : Str}, (∀ o ∈ ops, Gap o.1 ∧ o.2.Ok) → (ops ≠ [] → OpsEnd ops v) → (Fl T opsOpe v) → Sub T (opsChars ops ++ v) →
    MtStar (enc T) opsOpe (enc (opsChars ops ++ v)) (enc v) (ops.map fun o => some (.view o.2.val)) []
  | [], v, _, _, hf, hs => .stop hf
  | o :: ops, v, h, he, hf, hs => by
    have e1 : opsChars (o :: ops) ++ v = o.1 ++ (o.2.chars ++ (opsChars ops ++ v)) := by simp [opsChars]
    rw [e1] at hs ⊢
    have ho := h o (by simp)
    exact .more (v := [some (.view o.2.val)]) (tk := []) (op_step ho.1 ho.2 (ops_front h (he (by simp))) hs)
      (ops_star ops (fun p hp => h p (by simp [hp])) (he (by simp)).tail hf hs.tail.tail)

theorem castAll_views (es : List (List Byte)) : castAll asView (es.map fun s => some (.view s)) = .ok es := by
  induction es with
  | nil => rfl
  | cons e es ih =>
    show (do let x ← asView (some (.view e)); let y ← castAll asView (es.map fun s => some (.view s)); Except.ok (x :: y)) = _
    rw [ih]; rfl

theorem poison_views (es : List (List Byte)) : poison (es.map fun s => some (.view s)) = none :=
  poison_none fun v hv b hb => by
    simp only [List.mem_map] at hv
    obtain ⟨i, -, rfl⟩ := hv
    cases hb

def Level.letter (l : Level) : Nat := if l.left then 76 else 82

/-- What the reader makes of a level. -/
def Level.views (l : Level) : List (List Byte) := [toByte l.letter] :: l.ops.map fun o => o.2.val

theorem Level.letter_or (l : Level) : l.letter = 76 ∨ l.letter = 82 := by unfold Level.letter; split <;> simp

theorem level_read {l : Level} {v : Str} (hl : l.Ok) (he : OpsEnd l.ops v) (hs : Sub T (l.chars ++ v)) :
    Rd T gPrecedenceInfo (l.chars ++ v) v [some (.views l.views)] [] := by
  obtain ⟨hne, h⟩ := hl
  have e1 : l.chars ++ v = l.letter :: (opsChars l.ops ++ v) := rfl
  have hs' : Sub T (l.letter :: (opsChars l.ops ++ v)) := hs
  have hvs : ([some (.view [toByte l.letter])] : List Val) ++ ((l.ops.map fun o => some (.view o.2.val)) ++ []) = l.views.map fun s => some (.view s) := by
    simp [Level.views]
  have hoom : Rd T (oom opsOpe) (opsChars l.ops ++ v) v (l.ops.map fun o => some (.view o.2.val)) [] := by
    clear e1 hs
    revert hs' he
    revert h hne
    generalize l.ops = ops
    intro hne h he hs'
    cases ops with
    | nil => exact absurd rfl hne
    | cons o ops =>
      have e1 : opsChars (o :: ops) ++ v = o.1 ++ (o.2.chars ++ (opsChars ops ++ v)) := by simp [opsChars]
      have hs2 := hs'.tail1
      rw [e1] at hs2 ⊢
      have ho := h o (by simp)
      exact Mt.oom (v := [some (.view o.2.val)]) (tk := []) (op_step ho.1 ho.2 (ops_front h he) hs2)
        (ops_star ops (fun p hp => h p (by simp [hp])) he.tail (ops_stop he hs2.tail.tail.tail) hs2.tail.tail)
  refine Rd.rule (d := dPrecedenceInfo) (vs := l.views.map fun s => some (.view s)) (tk := []) rfl rfl hs ?_ ?_
  · rw [e1, ← hvs]
    exact Mt.seq (MtL.cons (v := [_]) (tk := []) (assoc_read l.letter_or hs') (MtL.cons (tk := []) hoom .nil))
  · show [some (valueOf _ (do .ok (.views (← castAll asView (l.views.map fun s => some (.view s))))))] = _
    unfold valueOf
    rw [poison_views, castAll_views]
    rfl

/-- What may follow the levels. -/
def LsEnd (ls : List (Str × Level)) (v : Str) : Prop :=
  (∃ b w, v = b ++ 125 :: w ∧ ∀ c ∈ b, c ∈ blanks) ∨
  (∃ w, v = 59 :: w ∧ ∀ l, ls.getLast? = some l → ∀ o, l.2.ops.getLast? = some o → ∃ q us, o.2 = .quoted q us)

abbrev lsOpe : Ope := seq [gSpacesOom, gPrecedenceInfo]

def lsChars (ls : List (Str × Level)) : Str := ls.flatMap fun l => l.1 ++ l.2.chars

theorem ls_stop {ls : List (Str × Level)} {v : Str} (h : LsEnd ls v) (hs : Sub T v) : Fl T lsOpe v := by
  rcases h with ⟨b, w, rfl, hb⟩ | ⟨w, rfl, -⟩
  · cases b with
    | nil => exact Fl.cs (l := [(125, 125)]) (by decide +kernel) hs (by decide)
    | cons c b =>
      exact Mf.seq (.tail (oom_read (b := c :: b) ⟨by simp, hb⟩ (Solid.cons (by decide)) hs) (.head (Fl.cs (l := [(125, 125)]) (by decide +kernel) hs.tail (by decide))))
  · exact Fl.cs (l := [(59, 59)]) (by decide +kernel) hs (by decide)

theorem LsEnd.tail {l : Str × Level} {ls : List (Str × Level)} {v : Str} (he : LsEnd (l :: ls) v) (hne : ls ≠ []) : LsEnd ls v := by
  rcases he with h | ⟨w, rfl, h⟩
  · exact Or.inl h
  · refine Or.inr ⟨w, rfl, fun p hp => h p ?_⟩
    cases ls with
    | nil => exact absurd rfl hne
    | cons a l => rw [List.getLast?_cons_cons]; exact hp

theorem ls_front {l : Str × Level} {ls : List (Str × Level)} {v : Str} (h : ∀ k ∈ l :: ls, Gap k.1 ∧ k.2.Ok) (he : LsEnd (l :: ls) v) :
    OpsEnd l.2.ops (lsChars ls ++ v) := by
  cases ls with
  | nil =>
    rcases he with ⟨b, w, rfl, hb⟩ | ⟨w, rfl, h⟩
    · exact Or.inl ⟨b, 125, w, rfl, hb, Or.inl rfl⟩
    · exact Or.inr ⟨w, rfl, h l rfl⟩
  | cons k ls =>
    obtain ⟨hg, -⟩ := h k (by simp)
    refine Or.inl ⟨k.1, k.2.letter, opsChars k.2.ops ++ (lsChars ls ++ v), ?_, hg.2, Or.inr ⟨hg.1, k.2.letter_or⟩⟩
    simp [lsChars, Level.chars, Level.letter, opsChars]

theorem level_solid (l : Level) (v : Str) : Solid (l.chars ++ v) := by
  refine Solid.cons (c := l.letter) (v := opsChars l.ops ++ v) ?_
  rcases l.letter_or with h | h <;> (rw [h]; decide)

theorem level_step {l : Str × Level} {v : Str} (hg : Gap l.1) (hl : l.2.Ok) (he : OpsEnd l.2.ops v) (hs : Sub T (l.1 ++ (l.2.chars ++ v))) :
    Rd T lsOpe (l.1 ++ (l.2.chars ++ v)) v [some (.views l.2.views)] [] :=
  Mt.seq (MtL.cons (v := []) (tk := []) (oom_read hg (level_solid l.2 v) hs) (MtL.cons (v := [_]) (tk := []) (level_read hl he hs.tail) .nil))

theorem ls_star : ∀ (ls : List (Str × Level)) {v : Str}, (∀ l ∈ ls, Gap l.1 ∧ l.2.Ok) → (ls ≠ [] → LsEnd ls v) → Fl T lsOpe v → Sub T (lsChars ls ++ v) →
    MtStar (enc T) lsOpe (enc (lsChars ls ++ v)) (enc v) (ls.map fun l => some (.views l.2.views)) []
  | [], v, _, _, hf, hs => .stop hf
  | l :: ls, v, h, he, hf, hs => by
    have e1 : lsChars (l :: ls) ++ v = l.1 ++ (l.2.chars ++ (lsChars ls ++ v)) := by simp [lsChars]
    rw [e1] at hs ⊢
    have hl := h l (by simp)
    exact .more (v := [some (.views l.2.views)]) (tk := []) (level_step hl.1 hl.2 (ls_front h (he (by simp))) hs)
      (ls_star ls (fun p hp => h p (by simp [hp])) (he (by simp)).tail hf hs.tail.tail)

theorem castAll_viewss (es : List (List (List Byte))) : castAll asViews (es.map fun s => some (.views s)) = .ok es := by
  induction es with
  | nil => rfl
  | cons e es ih =>
    show (do let x ← asViews (some (.views e)); let y ← castAll asViews (es.map fun s => some (.views s)); Except.ok (x :: y)) = _
    rw [ih]; rfl

theorem poison_viewss (es : List (List (List Byte))) : poison (es.map fun s => some (.views s)) = none :=
  poison_none fun v hv b hb => by
    simp only [List.mem_map] at hv
    obtain ⟨i, -, rfl⟩ := hv
    cases hb

theorem levels_entries (ls : List (Str × Level)) : ∀ n, levels n (ls.map fun l => l.2.views) = .ok (entries n ls) := by
  induction ls with
  | nil => intro n; rfl
  | cons l ls ih =>
    intro n
    show (do let x ← levels (n + 1) (ls.map fun (l : Str × Level) => l.2.views); Except.ok (((l.2.ops.map fun (o : Str × OpTok) => o.2.val).map fun o => (o, n, toByte l.2.letter)) ++ x)) = _
    rw [ih]
    simp only [bind, Except.bind, entries, Level.entries, List.map_map]
    congr 2
    refine List.map_congr_left fun o _ => ?_
    simp only [Function.comp, Level.letter]
    cases l.2.left <;> rfl

theorem prec_read {ls : List (Str × Level)} {b v : Str} (hne : ls ≠ []) (h : ∀ l ∈ ls, Gap l.1 ∧ l.2.Ok) (hb : ∀ c ∈ b, c ∈ blanks)
    (he : LsEnd ls (b ++ v)) (hv : Solid v) (hs : Sub T ((InstrTok.prec ls b).chars ++ v)) :
    Rd T gPrecedenceClimbing ((InstrTok.prec ls b).chars ++ v) v [some (.instr (InstrTok.prec ls b).val)] [] := by
  cases ls with
  | nil => exact absurd rfl hne
  | cons l ls =>
    have e1 : (InstrTok.prec (l :: ls) b).chars ++ v = wPrecedence ++ (l.1 ++ (l.2.chars ++ (lsChars ls ++ (b ++ v)))) := by
      simp [InstrTok.chars, lsChars]
    have hs' := hs
    rw [e1] at hs'
    have hl := h l (by simp)
    have h2 := hs'.tail
    have hvs : ([some (.views l.2.views)] : List Val) ++ ((ls.map fun l => some (.views l.2.views)) ++ ([] ++ [])) =
        ((l :: ls).map fun l => l.2.views).map fun s => some (.views s) := by simp
    refine Rd.rule (d := dPrecedenceClimbing) (vs := ((l :: ls).map fun l => l.2.views).map fun s => some (.views s)) (tk := []) rfl rfl hs ?_ ?_
    · rw [e1, ← hvs]
      exact Mt.seq (MtL.cons (v := []) (tk := []) (Rd.lit wPrecedence (by decide) hs') (MtL.cons (v := []) (tk := []) (oom_read hl.1 (level_solid l.2 _) h2)
        (MtL.cons (v := [_]) (tk := []) (level_read hl.2 (ls_front h he) h2.tail)
        (MtL.cons (tk := []) (Mt.zom (ls_star ls (fun p hp => h p (by simp [hp])) he.tail (ls_stop he h2.tail.tail.tail) h2.tail.tail))
        (MtL.cons (v := []) (tk := []) (zom_read hb hv h2.tail.tail.tail) .nil)))))
    · show [some (valueOf _ (do .ok (.instr (.prec (lastWins (← levels 1 (← castAll asViews (((l :: ls).map fun l => l.2.views).map fun s => some (.views s)))))))))] = _
      unfold valueOf
      rw [poison_viewss, castAll_viewss]
      show [some (match (do let x ← levels 1 ((l :: ls).map fun (l : Str × Level) => l.2.views); Except.ok (MV.instr (.prec (lastWins x)))) with
        | .ok v => v
        | .error b => .bad b)] = _
      rw [levels_entries]
      rfl

/-! ## Instructions -/

theorem Solid.close {d : Nat} {w : Str} (hd : d = 125 ∨ d = 59) : Solid (d :: w) := Solid.cons (by rcases hd with rfl | rfl <;> decide)

theorem Stop.close {d : Nat} {w : Str} (hd : d = 125 ∨ d = 59) : Stop (d :: w) := by
  intro c hc; cases hc; rcases hd with rfl | rfl <;> decide

/-- One instruction, followed by `;` or `}`. -/
theorem instr_read {i : InstrTok} {d : Nat} {w : Str} (hi : i.Ok) (hd : d = 125 ∨ d = 59 ∧ i.Closed) (hs : Sub T (i.chars ++ d :: w)) :
    Rd T gInstructionItem (i.chars ++ d :: w) (d :: w) [some (.instr i.val)] [] := by
  have hdi : metaRules[rInstructionItem]? = some dInstructionItem := rfl
  have hd2 : d = 125 ∨ d = 59 := hd.imp id fun h => h.1
  have hnil : Rd T gSpacesZom (d :: w) (d :: w) [] [] := zom_read (b := []) (by simp) (Solid.close hd2) hs.tail
  cases i with
  | prec ls b =>
    obtain ⟨h1, h2, h3⟩ := hi
    refine Rd.ruleC hdi rfl hs (k := 0) (vs := [_]) (tk := []) (.here (prec_read h1 h2 h3 ?_ (Solid.close hd2) hs)) rfl
    rcases hd with rfl | ⟨rfl, hc⟩
    · exact Or.inl ⟨b, w, rfl, h3⟩
    · obtain ⟨rfl, hc⟩ := hc
      exact Or.inr ⟨w, rfl, hc⟩
  | msg b q us sp =>
    obtain ⟨h1, h2, h3, h4⟩ := hi
    have e1 : (InstrTok.msg b q us sp).chars ++ d :: w = wMessage ++ (b ++ ((Tok.lit q us false).chars ++ (sp ++ d :: w))) := by
      simp [InstrTok.chars, Tok.chars, suffixI]
    have hs' := hs
    rw [e1] at hs'
    have hlit := literal_read (d := dLiteralD) (nm := nLiteralD) (mk := .str) (r := rLiteralD) rfl rfl rfl rfl (fun _ _ _ _ => rfl) (show (Tok.lit q us false).Ok from ⟨h2, h3⟩)
      (h4.other (by simp)) (Stop.close hd2) hs'.tail.tail
    have hq : q = 39 ∨ q = 34 := by simpa using h2
    refine Rd.ruleC hdi rfl hs (k := 1) (vs := [some (.instr (.msg (litVal us)))]) (tk := []) (.next ?_ (.here ?_)) rfl
    · rw [e1]; exact Fl.cs (l := [(101, 101)]) (by decide +kernel) hs' (by decide)
    · refine Rd.ruleX (d := dErrorMessage) (vs := [some (.str (litVal us))]) (tk := []) rfl rfl hs ⟨_, rfl⟩ ?_ fun _ => rfl
      rw [e1]
      exact Mt.seq (MtL.cons (v := []) (tk := []) (Rd.lit wMessage (by decide) hs') (MtL.cons (v := []) (tk := [])
        (oom_read h1 (Solid.cons (v := us.flatMap Chr.chars ++ [q] ++ (sp ++ d :: w)) (by rcases hq with rfl | rfl <;> decide) |> fun h => by simpa [Tok.chars, suffixI] using h) hs'.tail)
        (MtL.cons (v := [_]) (tk := []) hlit (MtL.cons (v := []) (tk := []) hnil .nil))))
  | noAst b =>
    have e1 : (InstrTok.noAst b).chars ++ d :: w = wNoAst ++ (b ++ d :: w) := by simp [InstrTok.chars]
    have hs' := hs
    rw [e1] at hs'
    refine Rd.ruleC hdi rfl hs (k := 2) (vs := [some (.instr .noAstOpt)]) (tk := []) (.next ?_ (.next ?_ (.here ?_))) rfl
    · rw [e1]; exact Fl.cs (l := [(110, 110)]) (by decide +kernel) hs' (by decide)
    · rw [e1]; exact Fl.cs (l := [(110, 110)]) (by decide +kernel) hs' (by decide)
    · refine Rd.ruleX (d := dNoAstOpt) (vs := []) (tk := []) rfl rfl hs ⟨_, rfl⟩ ?_ fun _ => rfl
      rw [e1]
      exact Mt.seq (MtL.cons (v := []) (tk := []) (Rd.lit wNoAst (by decide) hs') (MtL.cons (v := []) (tk := []) (zom_read hi (Solid.close hd2) hs'.tail) .nil))
  | noWs b =>
    have e1 : (InstrTok.noWs b).chars ++ d :: w = wNoWs ++ (b ++ d :: w) := by simp [InstrTok.chars]
    have hs' := hs
    rw [e1] at hs'
    refine Rd.ruleC hdi rfl hs (k := 3) (vs := [some (.instr .noWs)]) (tk := []) (.next ?_ (.next ?_ (.next ?_ (.here ?_)))) rfl
    · rw [e1]; exact Fl.cs (l := [(110, 110)]) (by decide +kernel) hs' (by decide)
    · rw [e1]; exact Fl.cs (l := [(110, 110)]) (by decide +kernel) hs' (by decide)
    · rw [e1]
      refine Mf.rule (d := dNoAstOpt) rfl (Mf.seq (.head (Fl.lit wNoAst (by decide) (by decide) hs' ?_)))
      rintro ⟨x, hx⟩
      simp [wNoAst, wNoWs] at hx
    · refine Rd.ruleX (d := dNoWhitespace) (vs := []) (tk := []) rfl rfl hs ⟨_, rfl⟩ ?_ fun _ => rfl
      rw [e1]
      exact Mt.seq (MtL.cons (v := []) (tk := []) (Rd.lit wNoWs (by decide) hs') (MtL.cons (v := []) (tk := []) (zom_read hi (Solid.close hd2) hs'.tail) .nil))
  | astName b b' nm sp =>
    obtain ⟨h1, h2, h3, h4⟩ := hi
    have e1 : (InstrTok.astName b b' nm sp).chars ++ d :: w = wAstName ++ (b ++ ([58] ++ (b' ++ (nm ++ (sp ++ d :: w))))) := by simp [InstrTok.chars]
    have hs' := hs
    rw [e1] at hs'
    have hsp : Sp sp (d :: w) := h4.other (by simp)
    have hid : Rd T gIdentifier (nm ++ (sp ++ d :: w)) (d :: w) [some (.str (enc nm))] [] := by
      refine identifier_read h3 ?_ hsp (Stop.close hd2) hs'.tail.tail.tail.tail
      intro c hc
      cases sp with
      | nil => cases hc; rcases hd2 with rfl | rfl <;> decide
      | cons a sp =>
        cases hc
        have := (h4.head (c := c) rfl).1
        exact disj_sound (l := noStart) (by decide) this
    have hnm : Solid (nm ++ (sp ++ d :: w)) := by
      obtain ⟨c, cs, rfl, hc, -⟩ := name_head h3
      exact Solid.cons (disj_sound (l := idStart) (by decide) hc)
    refine Rd.ruleC hdi rfl hs (k := 4) (vs := [some (.instr (.astName (enc nm)))]) (tk := []) (.next ?_ (.next ?_ (.next ?_ (.next ?_ (.here ?_))))) rfl
    · rw [e1]; exact Fl.cs (l := [(97, 97)]) (by decide +kernel) hs' (by decide)
    · rw [e1]; exact Fl.cs (l := [(97, 97)]) (by decide +kernel) hs' (by decide)
    · rw [e1]; exact Fl.cs (l := [(97, 97)]) (by decide +kernel) hs' (by decide)
    · rw [e1]; exact Fl.cs (l := [(97, 97)]) (by decide +kernel) hs' (by decide)
    · refine Rd.ruleX (d := dAstName) (vs := [some (.str (enc nm))]) (tk := []) rfl rfl hs ⟨_, rfl⟩ ?_ fun _ => rfl
      rw [e1]
      exact Mt.seq (MtL.cons (v := []) (tk := []) (Rd.lit wAstName (by decide) hs') (MtL.cons (v := []) (tk := []) (zom_read h1 (Solid.cons (by decide)) hs'.tail)
        (MtL.cons (v := []) (tk := []) (Rd.lit [58] (by decide) hs'.tail.tail) (MtL.cons (v := []) (tk := []) (zom_read h2 hnm hs'.tail.tail.tail)
        (MtL.cons (v := [_]) (tk := []) hid (MtL.cons (v := []) (tk := []) hnil .nil))))))

/-- What an instruction starts with. -/
theorem instr_first (i : InstrTok) : ∃ c cs, i.chars = c :: cs ∧ inCs [(97, 122)] c = true ∧ inCs noStart c = false := by
  cases i <;> exact ⟨_, _, rfl, by decide, by decide⟩

theorem instr_stop (i : InstrTok) (v : Str) : Stop (i.chars ++ v) := by
  obtain ⟨c, cs, h, -, hn⟩ := instr_first i
  rw [h]
  intro d hd; cases hd; exact hn

abbrev itemsOpe : Ope := seq [gInstructionItemSeparator, gInstructionItem]

theorem instrs_read : ∀ (is : List (Str × InstrTok)) (i : InstrTok) {w : Str}, InstrsOk i is → Sub T (i.chars ++ (moreInstr is ++ 125 :: w)) →
    Rd T gInstructionItem (i.chars ++ (moreInstr is ++ 125 :: w)) (moreInstr is ++ 125 :: w) [some (.instr i.val)] [] ∧
    MtStar (enc T) itemsOpe (enc (moreInstr is ++ 125 :: w)) (enc (125 :: w)) (is.map fun i => some (.instr i.2.val)) []
  | [], i, w, h, hs => ⟨instr_read h (Or.inl rfl) hs, .stop (Fl.cs (l := [(125, 125)]) (by decide +kernel) hs.tail (by decide))⟩
  | k :: is, i, w, h, hs => by
    obtain ⟨h1, h2, h3, h4⟩ := h
    have e1 : moreInstr (k :: is) ++ 125 :: w = 59 :: (k.1 ++ (k.2.chars ++ (moreInstr is ++ 125 :: w))) := by simp [moreInstr]
    rw [e1] at hs ⊢
    have hs2 := hs.tail
    obtain ⟨k1, k2⟩ := instrs_read is k.2 h4 hs2.tail1.tail
    have hsep : Rd T gInstructionItemSeparator (59 :: (k.1 ++ (k.2.chars ++ (moreInstr is ++ 125 :: w)))) (k.2.chars ++ (moreInstr is ++ 125 :: w)) [] [] :=
      sym_read (d := dInstructionItemSeparator) rfl rfl (h3.other (by simp)) (instr_stop _ _) hs2 rfl
    exact ⟨instr_read h1 (Or.inr ⟨rfl, h2⟩) hs,
      .more (v := [some (.instr k.2.val)]) (tk := []) (Mt.seq (MtL.cons (v := []) (tk := []) hsep (MtL.cons (v := [_]) (tk := []) k1 .nil))) k2⟩

theorem castAll_instrs (es : List Instr) : castAll asInstr (es.map fun s => some (.instr s)) = .ok es := by
  induction es with
  | nil => rfl
  | cons e es ih =>
    show (do let x ← asInstr (some (.instr e)); let y ← castAll asInstr (es.map fun s => some (.instr s)); Except.ok (x :: y)) = _
    rw [ih]; rfl

theorem poison_instrs (es : List Instr) : poison (es.map fun s => some (.instr s)) = none :=
  poison_none fun v hv b hb => by
    simp only [List.mem_map] at hv
    obtain ⟨i, -, rfl⟩ := hv
    cases hb

/-- `Instruction`. -/
theorem block_read {b : Block} {ks : List Tok} {sp u t : Str} (hk : Tk T (.block b) ks sp u t) : Rd T gInstruction t u [some (.instrs b.vals)] [] := by
  have hs : Sub T t := hk.eq ▸ hk.sub
  have hok : b.Ok := hk.ok
  suffices h : Rd T dInstruction.ope t u (b.vals.map fun i => some (.instr i)) [] by
    refine Rd.ruleX (d := dInstruction) (vs := b.vals.map fun i => some (.instr i)) (tk := []) rfl rfl hs ⟨_, hk.split⟩ h fun c => ?_
    show [some (valueOf _ (do .ok (.instrs (← castAll asInstr (b.vals.map fun i => some (.instr i))))))] = _
    unfold valueOf
    rw [poison_instrs, castAll_instrs]
    rfl
  cases b with
  | empty s =>
    have e1 : t = 123 :: (s ++ (125 :: (sp ++ u))) := by rw [hk.eq]; simp [Tok.chars, Block.chars]
    rw [e1] at hs ⊢
    have hend := hs.tail1.tail
    exact Mt.seq (MtL.cons (v := []) (tk := []) (sym_read (d := dBeginBracket) rfl rfl (Sp.other hok (by simp)) (Stop.close (Or.inl rfl)) hs rfl)
      (MtL.cons (v := []) (tk := []) (Mt.opt_none (Fl.cs (l := [(125, 125)]) (by decide +kernel) hend (by decide)))
      (MtL.cons (v := []) (tk := []) (sym_read (d := dEndBracket) rfl rfl hk.spc hk.stop hend rfl) .nil)))
  | items s i is =>
    have e1 : t = 123 :: (s ++ (i.chars ++ (moreInstr is ++ 125 :: (sp ++ u)))) := by rw [hk.eq]; simp [Tok.chars, Block.chars]
    rw [e1] at hs ⊢
    have hend := hs.tail1.tail.tail.tail
    obtain ⟨k1, k2⟩ := instrs_read is i hok.2 hs.tail1.tail
    have hvs : ([] : List Val) ++ (([some (.instr i.val)] ++ ((is.map fun i => some (.instr i.2.val)) ++ [])) ++ ([] ++ [])) =
        (Block.items s i is).vals.map fun i => some (.instr i) := by simp [Block.vals]
    rw [← hvs]
    exact Mt.seq (MtL.cons (tk := []) (sym_read (d := dBeginBracket) rfl rfl (hok.1.other (by simp)) (instr_stop _ _) hs rfl)
      (MtL.cons (tk := []) (Mt.opt (Mt.seq (MtL.cons (tk := []) k1 (MtL.cons (tk := []) (Mt.zom k2) .nil))))
      (MtL.cons (tk := []) (sym_read (d := dEndBracket) rfl rfl hk.spc hk.stop hend rfl) .nil)))

/-- An expression ends where instructions begin. -/
theorem block_cnd {b : Block} {ks : List Tok} : Cnd T lExp (.block b :: ks) := by
  intro t hl hs e he
  obtain ⟨sp, u, hk⟩ := hl.tk hs
  have h1 : ∀ e ∈ [gSLASH, gCUT, gPrefix, gLABEL, gPIPE, gQUESTION, gSTAR, gPLUS], Fl T e t :=
    hk.prims (l := [(123, 123)]) (by decide +kernel) (by intro c hc; cases b <;> (cases hc; decide))
  by_cases hp : e = gLoop
  · subst hp
    refine Mf.rule (d := dLoop) rfl (Mf.cho fun e he => ?_)
    simp only [List.mem_cons, List.not_mem_nil, or_false] at he
    rcases he with rfl | rfl | rfl | rfl
    · exact h1 _ (by simp)
    · exact h1 _ (by simp)
    · exact h1 _ (by simp)
    · have hok : b.Ok := hk.ok
      cases b with
      | empty s =>
        have e1 : t = 123 :: (s ++ (125 :: (sp ++ u))) := by rw [hk.eq]; simp [Tok.chars, Block.chars]
        rw [e1] at hs ⊢
        exact Mf.rule (d := dRepetition) rfl (Mf.seq (.tail (sym_read (d := dBeginBracket) (w := []) rfl rfl (Sp.other hok (by simp)) (Stop.close (Or.inl rfl)) hs rfl)
          (.head (Fl.cs (l := [(125, 125)]) (by decide +kernel) hs.tail1.tail (by decide)))))
      | items s i is =>
        have e1 : t = 123 :: (s ++ (i.chars ++ (moreInstr is ++ 125 :: (sp ++ u)))) := by rw [hk.eq]; simp [Tok.chars, Block.chars]
        rw [e1] at hs ⊢
        refine Mf.rule (d := dRepetition) rfl (Mf.seq (.tail (sym_read (d := dBeginBracket) (w := []) rfl rfl (hok.1.other (by simp)) (instr_stop _ _) hs rfl)
          (.head ?_)))
        obtain ⟨c, cs, hc, hf, -⟩ := instr_first i
        have hs2 := hs.tail1.tail
        rw [hc] at hs2 ⊢
        exact Fl.cs (l := [(97, 122)]) (by decide +kernel) hs2 hf
  · refine h1 e ?_
    simp only [lExp, lSqn, lLab, lSuf, lPrim, List.mem_cons, List.not_mem_nil, or_false] at he ⊢
    tauto

end

end Verif.Meta
