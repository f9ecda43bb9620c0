import Verif.MetaAlg
import Verif.Props.Escape
/-!
# How the reader reads tokens and spacing
-/

namespace Verif.Meta
open Verif CharClass Utf8 Props

@[simp] theorem enc_nil : enc [] = [] := rfl
theorem enc_cons (c : Nat) (s : Str) : enc (c :: s) = encodeCodepoint c ++ enc s := by simp [enc]
theorem enc_append (a b : Str) : enc (a ++ b) = enc a ++ enc b := by simp [enc]

/-- `Mt` on characters. -/
abbrev Rd (T : Str) (e : Ope) (s s' : Str) (vs : List Val) (tk : List (Nat × Nat)) : Prop := Mt (enc T) e (enc s) (enc s') vs tk
/-- `Mf` on characters. -/
abbrev Fl (T : Str) (e : Ope) (s : Str) : Prop := Mf (enc T) e (enc s)

/-- `s` is the end of the text `T`. -/
structure Sub (T s : Str) : Prop where
  suf : s <:+ T
  ok : ∀ c ∈ T, IsScalar c

section
variable {T : Str}

theorem Sub.tail {a s : Str} (h : Sub T (a ++ s)) : Sub T s := ⟨(List.suffix_append a s).trans h.suf, h.ok⟩
theorem Sub.tail1 {a : Nat} {s : Str} (h : Sub T (a :: s)) : Sub T s := Sub.tail (a := [a]) h
theorem Sub.bytes {s : Str} (h : Sub T s) : enc s <:+ enc T := by
  obtain ⟨a, rfl⟩ := h.suf
  exact ⟨enc a, (enc_append a s).symm⟩
theorem Sub.scalar {s : Str} (h : Sub T s) {c : Nat} (hc : c ∈ s) : IsScalar c := h.ok c (h.suf.subset hc)
theorem Sub.head {c : Nat} {s : Str} (h : Sub T (c :: s)) : IsScalar c := h.scalar (by simp)

theorem enc_isEmpty {s : Str} (h : ∀ c ∈ s, IsScalar c) (he : enc s = []) : s = [] := by
  cases s with
  | nil => rfl
  | cons c s => rw [enc_cons] at he; exact absurd he (encode_append_ne (h c (by simp)) _)

theorem enc_prefix {l s : Str} (hl : ∀ c ∈ l, IsScalar c) (hs : ∀ c ∈ s, IsScalar c) (h : enc l <+: enc s) : l <+: s := by
  induction l generalizing s with
  | nil => exact List.nil_prefix
  | cons c l ih =>
    obtain ⟨w, hw⟩ := h
    rw [enc_cons, List.append_assoc] at hw
    cases s with
    | nil => exact absurd hw (encode_append_ne (hl c (by simp)) _)
    | cons d s =>
      rw [enc_cons] at hw
      obtain rfl := encode_inj (hl c (by simp)) (hs d (by simp)) hw
      have hw := List.append_cancel_left hw
      obtain ⟨x, hx⟩ := ih (s := s) (fun c hc => hl c (by simp [hc])) (fun c hc => hs c (by simp [hc])) ⟨w, hw⟩
      exact ⟨x, by rw [List.cons_append, hx]⟩

/-! ## The next character -/

theorem of_eof : Nx.eof.Of (enc []) := rfl

theorem of_cs {c : Nat} {s : Str} (hs : Sub T (c :: s)) {l : List (Nat × Nat)} (h : inCs l c = true) : (Nx.cs l).Of (enc (c :: s)) :=
  ⟨c, enc s, hs.head, h, enc_cons c s⟩

theorem of_no {s : Str} (hs : Sub T s) {l : List (Nat × Nat)} (h : ∀ c, s.head? = some c → inCs l c = false) : (Nx.no l).Of (enc s) := by
  cases s with
  | nil => exact Or.inl rfl
  | cons c s => exact Or.inr ⟨c, enc s, hs.head, h c rfl, enc_cons c s⟩

theorem Fl.eof {e : Ope} (h : ab 50 .eof e = .fail) : Fl T e [] := Mf.ab h of_eof ⟨enc T, by simp⟩

theorem Fl.cs {e : Ope} {c : Nat} {s : Str} {l : List (Nat × Nat)} (h : ab 50 (.cs l) e = .fail) (hs : Sub T (c :: s)) (hc : inCs l c = true) :
    Fl T e (c :: s) := Mf.ab h (of_cs hs hc) hs.bytes

theorem Fl.no {e : Ope} {s : Str} {l : List (Nat × Nat)} (h : ab 50 (.no l) e = .fail) (hs : Sub T s)
    (hc : ∀ c, s.head? = some c → inCs l c = false) : Fl T e s := Mf.ab h (of_no hs hc) hs.bytes

theorem Rd.passNo {e : Ope} {s : Str} {l : List (Nat × Nat)} (h : ab 50 (.no l) e = .pass) (hs : Sub T s)
    (hc : ∀ c, s.head? = some c → inCs l c = false) : Rd T e s s [] [] := Mt.pass h (of_no hs hc) hs.bytes

theorem Rd.passCs {e : Ope} {c : Nat} {s : Str} {l : List (Nat × Nat)} (h : ab 50 (.cs l) e = .pass) (hs : Sub T (c :: s)) (hc : inCs l c = true) :
    Rd T e (c :: s) (c :: s) [] [] := Mt.pass h (of_cs hs hc) hs.bytes

/-! ## Single characters -/

theorem Rd.chr {c : Nat} {s : Str} (hs : Sub T (c :: s)) : Rd T (.chr c) (c :: s) s [] [] := by
  have h := hs.bytes
  unfold Rd
  rw [enc_cons] at h ⊢
  exact Mt.chr hs.head h

theorem Rd.dot {c : Nat} {s : Str} (hs : Sub T (c :: s)) : Rd T .dot (c :: s) s [] [] := by
  have h := hs.bytes
  unfold Rd
  rw [enc_cons] at h ⊢
  exact Mt.dot hs.head h

theorem Rd.cls {c : Nat} {s : Str} {rs : List (Nat × Nat)} (hs : Sub T (c :: s)) (hr : inCs rs c = true) : Rd T (Meta.cls rs) (c :: s) s [] [] := by
  have h := hs.bytes
  unfold Rd
  rw [enc_cons] at h ⊢
  exact Mt.cls hs.head hr h

theorem Fl.clsC {c : Nat} {s : Str} {rs : List (Nat × Nat)} (hs : Sub T (c :: s)) (hr : inCs rs c = false) : Fl T (Meta.cls rs) (c :: s) := by
  have h := hs.bytes
  unfold Fl
  rw [enc_cons] at h ⊢
  exact Mf.one rfl h (matchCls_none hs.head hr _)

theorem Rd.lit (l : Str) {bl : List Byte} {s : Str} (hb : enc l = bl) (hs : Sub T (l ++ s)) : Rd T (Meta.lit bl) (l ++ s) s [] [] := by
  have h := hs.bytes
  unfold Rd
  subst hb
  rw [enc_append] at h ⊢
  exact Mt.lit h

theorem Fl.lit (l : Str) {bl : List Byte} {s : Str} (hb : enc l = bl) (hl : ∀ c ∈ l, IsScalar c) (hs : Sub T s) (hn : ¬ l <+: s) :
    Fl T (Meta.lit bl) s := by
  subst hb
  exact Mf.lit hs.bytes fun h => hn (enc_prefix hl (fun c hc => hs.scalar hc) h)

/-! ## Rules -/

/-- The value of rule `r` for the text `c`. -/
def rvS (T : Str) (r : Nat) (vs : List Val) (tk : List (Nat × Nat)) (c : Str) (k : Nat) : Val :=
  if hasAct r then (act r vs (tk.map (slice (enc T))) (enc c) k).map (valueOf vs) else vs.head?.getD none

theorem rv_eq {r : Nat} {vs : List Val} {tk : List (Nat × Nat)} {c s : Str} {k : Nat} (hs : Sub T (c ++ s)) :
    rv (enc T) r vs tk (enc (c ++ s)) (enc s) k = rvS T r vs tk c k := by
  unfold rv rvS
  have h := hs.bytes
  rw [enc_append] at h ⊢
  rw [slice_pos h]

theorem Rd.rule {r : Nat} {d : Def} {nm : List Byte} {c s : Str} {vs : List Val} {tk : List (Nat × Nat)} {w : List Val}
    (hd : metaRules[r]? = some d) (hc : d.ope.choiceLikeTop = false) (hs : Sub T (c ++ s)) (h : Rd T d.ope (c ++ s) s vs tk)
    (hw : pushed d (rvS T r vs tk c 0) = w) : Rd T (.ref r nm []) (c ++ s) s w [] := by
  have := Mt.rule hd hc (nm := nm) h
  rw [rv_eq hs, hw] at this
  exact this

theorem Rd.ruleC {r : Nat} {d : Def} {nm : List Byte} {c s : Str} {vs : List Val} {tk : List (Nat × Nat)} {w : List Val} {es : List Ope} {k : Nat}
    (hd : metaRules[r]? = some d) (he : d.ope = Meta.cho es) (hs : Sub T (c ++ s)) (h : MtC (enc T) es k (enc (c ++ s)) (enc s) vs tk)
    (hw : pushed d (rvS T r vs tk c k) = w) : Rd T (.ref r nm []) (c ++ s) s w [] := by
  have := Mt.ruleC hd he (nm := nm) h
  rw [rv_eq hs, hw] at this
  exact this

/-- The token between two places. -/
theorem slice_tok {c s : Str} (hs : Sub T (c ++ s)) :
    slice (enc T) (pos (enc T) (enc (c ++ s)), pos (enc T) (enc s) - pos (enc T) (enc (c ++ s))) = enc c := by
  have h := hs.bytes
  rw [enc_append] at h ⊢
  exact slice_pos h

/-! ## Spacing -/

/-- Characters no token starts with. -/
def noStart : List (Nat × Nat) := [(9, 10), (13, 13), (32, 32), (35, 35), (45, 45)]

/-- `u` does not start with spacing. -/
def Stop (u : Str) : Prop := ∀ c, u.head? = some c → inCs noStart c = false

/-- The end of a line; a line feed after a carriage return belongs to it. -/
theorem eol_read {e : Nat} {s : Str} (he : e = 10 ∨ e = 13) (hs : Sub T (e :: s)) :
    ∃ s', (s' = s ∨ s = 10 :: s') ∧ Rd T gEndOfLine (e :: s) s' [none] [] := by
  have hd : metaRules[rEndOfLine]? = some dEndOfLine := rfl
  rcases he with rfl | rfl
  · refine ⟨s, Or.inl rfl, Rd.ruleC (c := [10]) hd rfl hs (.next ?_ (.here (Rd.chr hs))) rfl⟩
    exact Fl.cs (l := [(10, 10)]) (by decide +kernel) hs (by decide)
  · by_cases h : ∃ s', s = 10 :: s'
    · obtain ⟨s', rfl⟩ := h
      exact ⟨s', Or.inr rfl, Rd.ruleC (c := [13, 10]) hd rfl hs (.here (Rd.lit [13, 10] (by decide) hs)) rfl⟩
    · refine ⟨s, Or.inl rfl, Rd.ruleC (c := [13]) hd rfl hs (.next ?_ (.next ?_ (.here (Rd.chr hs)))) rfl⟩
      · refine Fl.lit [13, 10] (by decide) (by decide) hs fun hp => h ?_
        obtain ⟨w, hw⟩ := hp
        exact ⟨w, by simpa using hw.symm⟩
      · exact Fl.cs (l := [(13, 13)]) (by decide +kernel) hs (by decide)

theorem Sp.inv10 {s u : Str} (h : Sp (10 :: s) u) : Sp s u := by
  cases h with
  | blank _ h => exact h

/-- The characters of a comment. -/
theorem comment_read {cs v : Str} (hcs : ∀ c ∈ cs, c ≠ 10 ∧ c ≠ 13) (hv : ∀ c, v.head? = some c → c = 10 ∨ c = 13) (hs : Sub T (cs ++ v)) :
    MtStar (enc T) (seq [npd gEndOfLine, .dot]) (enc (cs ++ v)) (enc v) [] [] := by
  induction cs with
  | nil =>
    cases v with
    | nil => exact .stop (Fl.eof (by decide +kernel))
    | cons c v =>
      obtain ⟨s', -, h⟩ := eol_read (hv c rfl) hs
      exact .stop (Mf.seq (.head (Mf.npd h)))
  | cons c cs ih =>
    refine MtStar.more (v := []) (tk := []) (Mt.seq (MtL.cons (v := []) (tk := []) (Mt.npd ?_) (MtL.cons (Rd.dot hs) .nil)))
      (ih (fun c hc => hcs c (by simp [hc])) hs.tail1)
    refine Fl.no (l := [(10, 10), (13, 13)]) (by decide +kernel) hs fun d hd => ?_
    cases hd
    have := hcs c (by simp)
    simp [inCs]
    omega

theorem spaces_read (n : Nat) : ∀ (sp u : Str), sp.length ≤ n → Sp sp u → Stop u → Sub T (sp ++ u) →
    ∃ vs tk, MtStar (enc T) (cho [gSpace, gComment]) (enc (sp ++ u)) (enc u) vs tk := by
  induction n with
  | zero =>
    intro sp u hn _ hu hs
    obtain rfl : sp = [] := List.length_eq_zero_iff.mp (by omega)
    exact ⟨[], [], .stop (Fl.no (l := noStart) (by decide +kernel) hs hu)⟩
  | succ n ih =>
    intro sp u hn hsp hu hs
    cases hsp with
    | nil => exact ⟨[], [], .stop (Fl.no (l := noStart) (by decide +kernel) hs hu)⟩
    | @blank c s _ hc h =>
      have hl : s.length ≤ n := by simp at hn; omega
      have hdS : metaRules[rSpace]? = some dSpace := rfl
      have hs : Sub T (c :: (s ++ u)) := hs
      by_cases he : c = 10 ∨ c = 13
      · obtain ⟨s', hs', hr⟩ := eol_read he hs
        have hsp : Rd T gSpace (c :: (s ++ u)) s' [none] [] := by
          rcases hs' with rfl | hs'
          · refine Rd.ruleC (c := [c]) hdS rfl hs (.next ?_ (.next ?_ (.here hr))) rfl
            · exact Fl.cs (l := [(10, 10), (13, 13)]) (by decide +kernel) hs (by rcases he with rfl | rfl <;> decide)
            · exact Fl.cs (l := [(10, 10), (13, 13)]) (by decide +kernel) hs (by rcases he with rfl | rfl <;> decide)
          · have h2 := hs
            rw [hs'] at h2
            rw [hs'] at hr ⊢
            refine Rd.ruleC (c := [c, 10]) hdS rfl h2 (.next ?_ (.next ?_ (.here hr))) rfl
            · exact Fl.cs (l := [(10, 10), (13, 13)]) (by decide +kernel) h2 (by rcases he with rfl | rfl <;> decide)
            · exact Fl.cs (l := [(10, 10), (13, 13)]) (by decide +kernel) h2 (by rcases he with rfl | rfl <;> decide)
        have hrest : ∃ vs tk, MtStar (enc T) (cho [gSpace, gComment]) (enc s') (enc u) vs tk := by
          rcases hs' with rfl | hs'
          · exact ih s u hl h hu hs.tail1
          · cases s with
            | nil =>
              have := hu 10 (by rw [List.nil_append] at hs'; rw [hs']; rfl)
              exact absurd this (by decide)
            | cons a s =>
              simp only [List.cons_append, List.cons.injEq] at hs'
              obtain ⟨rfl, rfl⟩ := hs'
              exact ih s u (by simp at hl; omega) h.inv10 hu (hs.tail (a := [c, 10]))
        obtain ⟨vs, tk, hrest⟩ := hrest
        exact ⟨_, _, .more (Mt.cho (.here hsp)) hrest⟩
      · obtain ⟨vs, tk, hrest⟩ := ih s u hl h hu hs.tail1
        refine ⟨[none] ++ vs, [] ++ tk, .more (Mt.cho (.here ?_)) hrest⟩
        have : c = 32 ∨ c = 9 := by simp [blanks] at hc; omega
        rcases this with rfl | rfl
        · exact Rd.ruleC (c := [32]) hdS rfl hs (.here (Rd.chr hs)) rfl
        · refine Rd.ruleC (c := [9]) hdS rfl hs (.next ?_ (.here (Rd.chr hs))) rfl
          exact Fl.cs (l := [(9, 9)]) (by decide +kernel) hs (by decide)
    | @comment cs e s _ hcs he h =>
      have hdC : metaRules[rComment]? = some dComment := rfl
      have hs : Sub T (35 :: (cs ++ (e :: (s ++ u)))) := by simpa using hs
      have h0 := comment_read (v := e :: (s ++ u)) hcs (by intro c hc; cases hc; exact he) hs.tail1
      obtain ⟨s', hs', hr⟩ := eol_read he (hs.tail1.tail (a := cs))
      have hbody : Rd T dComment.ope (35 :: (cs ++ (e :: (s ++ u)))) s' [none] [] :=
        Mt.seq (MtL.cons (v := []) (tk := []) (Rd.chr hs) (MtL.cons (v := []) (tk := []) (Mt.zom h0) (MtL.cons (v := [none]) (tk := []) (Mt.opt hr) .nil)))
      have hnS : Fl T gSpace (35 :: (cs ++ (e :: (s ++ u)))) := Fl.cs (l := [(35, 35)]) (by decide +kernel) hs (by decide)
      have hcm : Rd T gComment (35 :: (cs ++ (e :: (s ++ u)))) s' [none] [] := by
        rcases hs' with rfl | hs'
        · have e1 : 35 :: (cs ++ (e :: (s ++ u))) = (35 :: cs ++ [e]) ++ (s ++ u) := by simp
          rw [e1] at hs hbody ⊢
          exact Rd.rule hdC rfl hs hbody rfl
        · rw [hs'] at hs hbody ⊢
          have e1 : 35 :: (cs ++ (e :: 10 :: s')) = (35 :: cs ++ [e, 10]) ++ s' := by simp
          rw [e1] at hs hbody ⊢
          exact Rd.rule hdC rfl hs hbody rfl
      have hrest : ∃ vs tk, MtStar (enc T) (cho [gSpace, gComment]) (enc s') (enc u) vs tk := by
        rcases hs' with rfl | hs'
        · exact ih s u (by simp at hn; omega) h hu (hs.tail1.tail (a := cs)).tail1
        · have hs2 : Sub T s' := by
            have := (hs.tail1.tail (a := cs)).tail1
            rw [hs'] at this
            exact this.tail1
          cases s with
          | nil =>
            have := hu 10 (by rw [List.nil_append] at hs'; rw [hs']; rfl)
            exact absurd this (by decide)
          | cons a s =>
            simp only [List.cons_append, List.cons.injEq] at hs'
            obtain ⟨rfl, rfl⟩ := hs'
            exact ih s u (by simp at hn; omega) h.inv10 hu hs2
      obtain ⟨vs, tk, hrest⟩ := hrest
      have e2 : (35 :: cs ++ e :: s) ++ u = 35 :: (cs ++ (e :: (s ++ u))) := by simp
      rw [e2]
      exact ⟨_, _, .more (Mt.cho (.next hnS (.here hcm))) hrest⟩
    | @last cs hcs =>
      have hdC : metaRules[rComment]? = some dComment := rfl
      have h0 := comment_read (v := []) hcs (by intro c hc; cases hc) hs.tail1
      have hbody : Rd T dComment.ope ((35 :: cs) ++ []) [] [] [] :=
        Mt.seq (MtL.cons (v := []) (tk := []) (Rd.chr hs) (MtL.cons (v := []) (tk := []) (Mt.zom h0)
          (MtL.cons (v := []) (tk := []) (Mt.opt_none (Fl.eof (by decide +kernel))) .nil)))
      have hcm : Rd T gComment ((35 :: cs) ++ []) [] [none] [] := Rd.rule hdC rfl hs hbody rfl
      exact ⟨_, _, .more (Mt.cho (.next (Fl.cs (l := [(35, 35)]) (by decide +kernel) hs (by decide)) (.here hcm)))
        (.stop (Fl.eof (by decide +kernel)))⟩

/-- Spacing is read as such. -/
theorem spacing_read {sp u : Str} (h : Sp sp u) (hu : Stop u) (hs : Sub T (sp ++ u)) : Rd T gSpacing (sp ++ u) u [] [] := by
  obtain ⟨vs, tk, h⟩ := spaces_read sp.length sp u (Nat.le_refl _) h hu hs
  exact Rd.rule (d := dSpacing) rfl rfl hs (Mt.zom h) rfl

end

end Verif.Meta
