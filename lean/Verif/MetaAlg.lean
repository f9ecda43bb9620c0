import Verif.MetaReady
import Verif.MetaSpec
/-!
# Reading, piece by piece

`Mt text e t t' vs tk`: expression `e` of the bootstrap grammar matches the text from suffix `t` to suffix `t'`, adding the values `vs` and the
tokens `tk`.  `Mf text e t`: it fails at `t`.  Both in the reference semantics.  `ab`: what an expression does can often be told from a set the next
character is in.
-/

namespace Verif.Meta
open Verif CharClass Utf8 Props

/-- The reader as reference grammar. -/
abbrev MG (text : List Byte) : Gram MV := (metaCfgOf metaRules text).gram

/-- The offset of a suffix. -/
def pos (text t : List Byte) : Nat := text.length - t.length

theorem drop_pos {text t : List Byte} (h : t <:+ text) : text.drop (pos text t) = t := by
  obtain ⟨c, rfl⟩ := h
  simp [pos]

theorem pos_append {text c t : List Byte} (h : c ++ t <:+ text) : pos text t = pos text (c ++ t) + c.length := by
  have := h.length_le
  simp only [pos, List.length_append] at *
  omega

theorem suffix_tail {text c t : List Byte} (h : c ++ t <:+ text) : t <:+ text := (List.suffix_append c t).trans h

theorem slice_pos {text c t : List Byte} (h : c ++ t <:+ text) : slice text (pos text (c ++ t), pos text t - pos text (c ++ t)) = c := by
  unfold slice
  dsimp only
  rw [drop_pos h, pos_append h, Nat.add_sub_cancel_left, List.take_left']
  rfl

def Mt (text : List Byte) (e : Ope) (t t' : List Byte) (vs : List Val) (tk : List (Nat × Nat)) : Prop :=
  ∀ (m : Mode) (s : PSt MV), ∃ s', Peg (MG text) {} m (.ope e) (pos text t) s (.ok (pos text t') false s') ∧ s'.caps = s.caps ∧
    s'.vs.vals = s.vs.vals ++ vs ∧ s'.vs.tokens = s.vs.tokens ++ tk

/-- The same for the rest of a sequence. -/
def MtL (text : List Byte) (es : List Ope) (t t' : List Byte) (vs : List Val) (tk : List (Nat × Nat)) : Prop :=
  ∀ (m : Mode) (s : PSt MV), ∃ s', Peg (MG text) {} m (.seqL es) (pos text t) s (.ok (pos text t') false s') ∧ s'.caps = s.caps ∧
    s'.vs.vals = s.vs.vals ++ vs ∧ s'.vs.tokens = s.vs.tokens ++ tk

/-- The same for the rest of a choice; alternative `k` of the list matches. -/
def MtC (text : List Byte) (es : List Ope) (k : Nat) (t t' : List Byte) (vs : List Val) (tk : List (Nat × Nat)) : Prop :=
  ∀ (k0 n : Nat) (m : Mode) (s : PSt MV), ∃ s', Peg (MG text) {} m (.choL es k0 n) (pos text t) s (.ok (pos text t') false s') ∧ s'.caps = s.caps ∧
    s'.vs.vals = s.vs.vals ++ vs ∧ s'.vs.tokens = s.vs.tokens ++ tk ∧ s'.vs.choice = k0 + k

/-- As often as possible. -/
inductive MtStar (text : List Byte) (e : Ope) : List Byte → List Byte → List Val → List (Nat × Nat) → Prop where
  | stop {t} : (∀ (m : Mode) (s : PSt MV), Peg (MG text) {} m (.ope e) (pos text t) s (.fail false)) → MtStar text e t t [] []
  | more {t t1 t' v tk vs tks} : Mt text e t t1 v tk → MtStar text e t1 t' vs tks → MtStar text e t t' (v ++ vs) (tk ++ tks)

def Mf (text : List Byte) (e : Ope) (t : List Byte) : Prop :=
  ∀ (m : Mode) (s : PSt MV), Peg (MG text) {} m (.ope e) (pos text t) s (.fail false)

def MfL (text : List Byte) (es : List Ope) (t : List Byte) : Prop :=
  ∀ (m : Mode) (s : PSt MV), Peg (MG text) {} m (.seqL es) (pos text t) s (.fail false)

section
variable {text : List Byte}

/-! ## Sequences -/

theorem MtL.nil {t : List Byte} : MtL text [] t t [] [] := fun _ s => ⟨s, .seq_nil, rfl, by simp, by simp⟩

theorem MtL.cons {e : Ope} {es : List Ope} {t t1 t' : List Byte} {v vs : List Val} {tk tks : List (Nat × Nat)}
    (h1 : Mt text e t t1 v tk) (h2 : MtL text es t1 t' vs tks) : MtL text (e :: es) t t' (v ++ vs) (tk ++ tks) := by
  intro m s
  obtain ⟨s1, p1, c1, v1, k1⟩ := h1 m s
  obtain ⟨s2, p2, c2, v2, k2⟩ := h2 m s1
  exact ⟨s2, Peg.seq_cons p1 p2, c2.trans c1, by rw [v2, v1, List.append_assoc], by rw [k2, k1, List.append_assoc]⟩

theorem Mt.seq {es : List Ope} {t t' : List Byte} {vs : List Val} {tk : List (Nat × Nat)} (h : MtL text es t t' vs tk) :
    Mt text (seq es) t t' vs tk := by
  intro m s
  obtain ⟨s1, p1, h⟩ := h m s
  exact ⟨s1, .seq p1, h⟩

theorem MfL.head {e : Ope} {es : List Ope} {t : List Byte} (h : Mf text e t) : MfL text (e :: es) t := fun m s => .seq_fail (h m s)

theorem MfL.tail {e : Ope} {es : List Ope} {t t1 : List Byte} {v : List Val} {tk : List (Nat × Nat)} (h1 : Mt text e t t1 v tk)
    (h2 : MfL text es t1) : MfL text (e :: es) t := by
  intro m s
  obtain ⟨s1, p1, -⟩ := h1 m s
  exact Peg.seq_cons p1 (h2 m s1)

theorem Mf.seq {es : List Ope} {t : List Byte} (h : MfL text es t) : Mf text (seq es) t := fun m s => .seq (h m s)

/-! ## Choices -/

theorem MtC.here {e : Ope} {es : List Ope} {t t' : List Byte} {vs : List Val} {tk : List (Nat × Nat)} (h : Mt text e t t' vs tk) :
    MtC text (e :: es) 0 t t' vs tk := by
  intro k0 n m s
  obtain ⟨s1, p1, c1, v1, k1⟩ := h m s
  exact ⟨_, Peg.cho_ok p1, c1, v1, k1, rfl⟩

theorem MtC.next {e : Ope} {es : List Ope} {k : Nat} {t t' : List Byte} {vs : List Val} {tk : List (Nat × Nat)} (h1 : Mf text e t)
    (h2 : MtC text es k t t' vs tk) : MtC text (e :: es) (k + 1) t t' vs tk := by
  intro k0 n m s
  obtain ⟨s1, p1, c1, v1, k1, k2⟩ := h2 (k0 + 1) n m s
  exact ⟨s1, Peg.cho_next (h1 m s) p1, c1, v1, k1, by omega⟩

theorem Mt.cho {es : List Ope} {k : Nat} {t t' : List Byte} {vs : List Val} {tk : List (Nat × Nat)} (h : MtC text es k t t' vs tk) :
    Mt text (cho es) t t' vs tk := by
  intro m s
  obtain ⟨s1, p1, c1, v1, k1, -⟩ := h 0 es.length m s
  exact ⟨s1, Peg.cho p1, c1, v1, k1⟩

theorem Mf.cho {es : List Ope} {t : List Byte} (h : ∀ e ∈ es, Mf text e t) : Mf text (cho es) t := by
  intro m s
  have : ∀ (es : List Ope) (k n : Nat), (∀ e ∈ es, Mf text e t) → Peg (MG text) {} m (.choL es k n) (pos text t) s (.fail false) := by
    intro es
    induction es with
    | nil => intro k n _; exact .cho_nil
    | cons e es ih => intro k n h; exact .cho_next (h e (by simp) m s) (ih (k + 1) n fun e' he => h e' (by simp [he]))
  exact Peg.cho (this es 0 es.length h)

/-! ## Repetitions and predicates -/

theorem MtStar.loop {e : Ope} {t t' : List Byte} {vs : List Val} {tk : List (Nat × Nat)} (h : MtStar text e t t' vs tk) :
    ∀ (n : Nat) (m : Mode) (s : PSt MV), ∃ s', Peg (MG text) {} m (.loop e 0 none n) (pos text t) s (.ok (pos text t') false s') ∧ s'.caps = s.caps ∧
    s'.vs.vals = s.vs.vals ++ vs ∧ s'.vs.tokens = s.vs.tokens ++ tk := by
  induction h with
  | stop h => exact fun n m s => ⟨s, .loop_end rfl (h m s), rfl, by simp, by simp⟩
  | more h1 _ ih =>
    intro n m s
    obtain ⟨s1, p1, c1, v1, k1⟩ := h1 m s
    obtain ⟨s2, p2, c2, v2, k2⟩ := ih (n + 1) m s1
    exact ⟨s2, Peg.loop_more rfl p1 p2, c2.trans c1, by rw [v2, v1, List.append_assoc], by rw [k2, k1, List.append_assoc]⟩

theorem Mt.zom {e : Ope} {t t' : List Byte} {vs : List Val} {tk : List (Nat × Nat)} (h : MtStar text e t t' vs tk) : Mt text (zom e) t t' vs tk := by
  intro m s
  obtain ⟨s1, p1, h⟩ := h.loop 0 m s
  exact ⟨s1, .rep p1, h⟩

theorem Mt.oom {e : Ope} {t t1 t' : List Byte} {v vs : List Val} {tk tks : List (Nat × Nat)} (h1 : Mt text e t t1 v tk)
    (h2 : MtStar text e t1 t' vs tks) : Mt text (oom e) t t' (v ++ vs) (tk ++ tks) := by
  intro m s
  obtain ⟨s1, p1, c1, v1, k1⟩ := h1 m s
  obtain ⟨s2, p2, c2, v2, k2⟩ := h2.loop 1 m s1
  exact ⟨s2, .rep (Peg.loop_must p1 p2), c2.trans c1, by rw [v2, v1, List.append_assoc], by rw [k2, k1, List.append_assoc]⟩

theorem Mf.oom {e : Ope} {t : List Byte} (h : Mf text e t) : Mf text (oom e) t := fun m s => .rep (.loop_fail (h m s))

/-- A bounded repetition from its `n`-th round on, `mn` more rounds being compulsory; no values. -/
def MtLoop (text : List Byte) (e : Ope) (mn : Nat) (mx : Option Nat) (n : Nat) (t t' : List Byte) : Prop :=
  ∀ (m : Mode) (s : PSt MV), ∃ s', Peg (MG text) {} m (.loop e mn mx n) (pos text t) s (.ok (pos text t') false s') ∧ s'.caps = s.caps ∧
    s'.vs.vals = s.vs.vals ∧ s'.vs.tokens = s.vs.tokens

/-- The repetition fails. -/
def MfLoop (text : List Byte) (e : Ope) (mn : Nat) (mx : Option Nat) (n : Nat) (t : List Byte) : Prop :=
  ∀ (m : Mode) (s : PSt MV), Peg (MG text) {} m (.loop e mn mx n) (pos text t) s (.fail false)

theorem MtLoop.must {e : Ope} {k n : Nat} {mx : Option Nat} {t t1 t' : List Byte} (h1 : Mt text e t t1 [] []) (h2 : MtLoop text e k mx (n + 1) t1 t') :
    MtLoop text e (k + 1) mx n t t' := by
  intro m s
  obtain ⟨s1, p1, c1, v1, k1⟩ := h1 m s
  obtain ⟨s2, p2, c2, v2, k2⟩ := h2 m s1
  exact ⟨s2, Peg.loop_must p1 p2, c2.trans c1, by rw [v2, v1, List.append_nil], by rw [k2, k1, List.append_nil]⟩

theorem MtLoop.more {e : Ope} {n : Nat} {mx : Option Nat} {t t1 t' : List Byte} (hm : mx.all (n < ·) = true) (h1 : Mt text e t t1 [] [])
    (h2 : MtLoop text e 0 mx (n + 1) t1 t') : MtLoop text e 0 mx n t t' := by
  intro m s
  obtain ⟨s1, p1, c1, v1, k1⟩ := h1 m s
  obtain ⟨s2, p2, c2, v2, k2⟩ := h2 m s1
  exact ⟨s2, Peg.loop_more hm p1 p2, c2.trans c1, by rw [v2, v1, List.append_nil], by rw [k2, k1, List.append_nil]⟩

theorem MtLoop.full {e : Ope} {n : Nat} {mx : Option Nat} {t : List Byte} (hm : mx.all (n < ·) = false) : MtLoop text e 0 mx n t t :=
  fun _ s => ⟨s, .loop_full hm, rfl, rfl, rfl⟩

theorem MtLoop.stop {e : Ope} {n : Nat} {mx : Option Nat} {t : List Byte} (hm : mx.all (n < ·) = true) (h : Mf text e t) : MtLoop text e 0 mx n t t :=
  fun m s => ⟨s, .loop_end hm (h m s), rfl, rfl, rfl⟩

theorem Mt.rep {e : Ope} {mn : Nat} {mx : Option Nat} {t t' : List Byte} (h : MtLoop text e mn mx 0 t t') : Mt text (.rep e mn mx none) t t' [] [] := by
  intro m s
  obtain ⟨s1, p1, c1, v1, k1⟩ := h m s
  exact ⟨s1, .rep p1, c1, by rw [v1, List.append_nil], by rw [k1, List.append_nil]⟩

theorem MfLoop.must {e : Ope} {k n : Nat} {mx : Option Nat} {t t1 : List Byte} (h1 : Mt text e t t1 [] []) (h2 : MfLoop text e k mx (n + 1) t1) :
    MfLoop text e (k + 1) mx n t := by
  intro m s
  obtain ⟨s1, p1, -⟩ := h1 m s
  exact Peg.loop_must p1 (h2 m s1)

theorem MfLoop.here {e : Ope} {k n : Nat} {mx : Option Nat} {t : List Byte} (h : Mf text e t) : MfLoop text e (k + 1) mx n t :=
  fun m s => .loop_fail (h m s)

theorem Mf.rep {e : Ope} {mn : Nat} {mx : Option Nat} {t : List Byte} (h : MfLoop text e mn mx 0 t) : Mf text (.rep e mn mx none) t :=
  fun m s => .rep (h m s)

theorem Mt.opt {e : Ope} {t t' : List Byte} {vs : List Val} {tk : List (Nat × Nat)} (h : Mt text e t t' vs tk) : Mt text (Meta.opt e) t t' vs tk := by
  intro m s
  obtain ⟨s1, p1, h⟩ := h m s
  exact ⟨s1, .rep (Peg.loop_more rfl p1 (Peg.loop_full rfl)), h⟩

theorem Mt.opt_none {e : Ope} {t : List Byte} (h : Mf text e t) : Mt text (Meta.opt e) t t [] [] :=
  fun m s => ⟨s, .rep (.loop_end rfl (h m s)), rfl, by simp, by simp⟩

theorem Mt.npd {e : Ope} {t : List Byte} (h : Mf text e t) : Mt text (Meta.npd e) t t [] [] := fun m s => ⟨s, .not_ok (h m s), rfl, by simp, by simp⟩

theorem Mf.npd {e : Ope} {t t' : List Byte} {vs : List Val} {tk : List (Nat × Nat)} (h : Mt text e t t' vs tk) : Mf text (Meta.npd e) t := by
  intro m s
  obtain ⟨s1, p1, -⟩ := h m s
  exact .not_fail p1

theorem Mt.tok {e : Ope} {t t' : List Byte} {vs : List Val} {tk : List (Nat × Nat)} (h : Mt text e t t' vs tk) :
    Mt text (.tok e) t t' vs (tk ++ [(pos text t, pos text t' - pos text t)]) := by
  intro m s
  obtain ⟨s1, p1, c1, v1, k1⟩ := h { m with tok := true } s
  refine ⟨_, Peg.tok_ok p1 (.skip_none rfl), c1, v1, ?_⟩
  show s1.vs.tokens ++ _ = _
  rw [k1, List.append_assoc]

theorem Mf.tok {e : Ope} {t : List Byte} (h : Mf text e t) : Mf text (.tok e) t := fun m s => .tok_fail (h _ s)

/-! ## Rules -/

/-- The value of rule `r` on values, tokens, text and choice. -/
def rv (text : List Byte) (r : Nat) (vs : List Val) (tk : List (Nat × Nat)) (t t' : List Byte) (k : Nat) : Val :=
  if hasAct r then (act r vs (tk.map (slice text)) (slice text (pos text t, pos text t' - pos text t)) k).map (valueOf vs) else vs.head?.getD none

/-- What the rule adds to its caller's values. -/
def pushed (d : Def) (v : Val) : List Val := if d.ignoreSV then [] else [v]

/-- What holds of every rule of the bootstrap grammar. -/
def Def.simple (d : Def) : Bool := !d.isMacro && !d.isLR && !d.noWs && !d.disableAction

theorem simple_of {r : Nat} {d : Def} (hd : metaRules[r]? = some d) :
    d.isMacro = false ∧ d.isLR = false ∧ d.noWs = false ∧ d.disableAction = false := by
  have : ∀ d ∈ metaRules, Def.simple d = true := by decide +kernel
  have := this d (List.mem_of_getElem? hd)
  simp only [Def.simple, Bool.and_eq_true, Bool.not_eq_true'] at this
  exact ⟨this.1.1.1, this.1.1.2, this.1.2, this.2⟩

theorem ruleValue_eq {r : Nat} {d : Def} (hd : d.disableAction = false) (i j : Nat) (f : Frame MV) :
    ruleValue (MG text) r d i j f none = if hasAct r then onFrame text r f else f.vals.head?.getD none := by
  unfold ruleValue
  simp only [MG, Cfg.gram, metaCfgOf, metaBase, hd]
  by_cases h : hasAct r = true
  · simp [h]
  · simp [h]

theorem Mt.rule_aux {r : Nat} {d : Def} (hd : metaRules[r]? = some d) {nm : List Byte} {t t' : List Byte} {vs : List Val}
    {tk : List (Nat × Nat)} {k : Nat}
    (h : ∀ (m : Mode) (s : PSt MV), ∃ s', Peg (MG text) {} m (.ope d.ope) (pos text t) s (.ok (pos text t') false s') ∧ s'.caps = s.caps ∧
      s'.vs.vals = s.vs.vals ++ vs ∧ s'.vs.tokens = s.vs.tokens ++ tk ∧ (d.ope.choiceLikeTop = true → s'.vs.choice = k))
    (hk : d.ope.choiceLikeTop = false → k = 0) :
    Mt text (.ref r nm []) t t' (pushed d (rv text r vs tk t t' k)) [] := by
  intro m s
  obtain ⟨h1, h2, h3, h4⟩ := simple_of hd
  obtain ⟨s1, p1, c1, v1, k1, ch⟩ := h m { s with vs := {} }
  refine ⟨_, Peg.ref hd h1 (Peg.rule_ok hd h2 (Peg.body h3 p1) rfl), c1, ?_, ?_⟩
  · rw [ruleValue_eq h4]
    have hf : (ruleFrame r d (pos text t) (pos text t') s1.vs).vals = vs ∧ (ruleFrame r d (pos text t) (pos text t') s1.vs).tokens = tk ∧
        (ruleFrame r d (pos text t) (pos text t') s1.vs).sv = (pos text t, pos text t' - pos text t) ∧
        (ruleFrame r d (pos text t) (pos text t') s1.vs).choice = k := by
      unfold ruleFrame
      by_cases hc : d.ope.choiceLikeTop = true
      · rw [if_pos hc]
        exact ⟨by simpa using v1, by simpa using k1, rfl, ch hc⟩
      · rw [if_neg hc]
        exact ⟨by simpa using v1, by simpa using k1, rfl, (hk (by simpa using hc)).symm⟩
    have hv : (if hasAct r then onFrame text r (ruleFrame r d (pos text t) (pos text t') s1.vs) else
        (ruleFrame r d (pos text t) (pos text t') s1.vs).vals.head?.getD none) = rv text r vs tk t t' k := by
      unfold rv onFrame
      rw [hf.1, hf.2.1, hf.2.2.1, hf.2.2.2]
    rw [hv]
    unfold pushValue pushed
    by_cases hi : d.ignoreSV = true
    · rw [if_pos hi, if_pos hi]; simp
    · rw [if_neg hi, if_neg hi]
  · unfold pushValue
    split <;> simp

/-- A rule whose body is not a choice. -/
theorem Mt.rule {r : Nat} {d : Def} (hd : metaRules[r]? = some d) (hc : d.ope.choiceLikeTop = false) {nm : List Byte} {t t' : List Byte}
    {vs : List Val} {tk : List (Nat × Nat)} (h : Mt text d.ope t t' vs tk) :
    Mt text (.ref r nm []) t t' (pushed d (rv text r vs tk t t' 0)) [] := by
  refine Mt.rule_aux hd ?_ (fun _ => rfl)
  intro m s
  obtain ⟨s1, p1, c1, v1, k1⟩ := h m s
  exact ⟨s1, p1, c1, v1, k1, fun h => by rw [hc] at h; cases h⟩

/-- A rule whose body is a choice. -/
theorem Mt.ruleC {r : Nat} {d : Def} (hd : metaRules[r]? = some d) {es : List Ope} (he : d.ope = Meta.cho es) {nm : List Byte} {k : Nat} {t t' : List Byte}
    {vs : List Val} {tk : List (Nat × Nat)} (h : MtC text es k t t' vs tk) :
    Mt text (.ref r nm []) t t' (pushed d (rv text r vs tk t t' k)) [] := by
  refine Mt.rule_aux hd ?_ (fun h => by rw [he] at h; cases h)
  intro m s
  obtain ⟨s1, p1, c1, v1, k1, k2⟩ := h 0 es.length m s
  rw [he]
  exact ⟨s1, Peg.cho p1, c1, v1, k1, fun _ => by omega⟩

theorem Mf.rule {r : Nat} {d : Def} (hd : metaRules[r]? = some d) {nm : List Byte} {t : List Byte} (h : Mf text d.ope t) : Mf text (.ref r nm []) t := by
  obtain ⟨h1, h2, h3, -⟩ := simple_of hd
  exact fun m s => .ref hd h1 (.rule_fail hd h2 (.body h3 (h m _)))

/-! ## Characters -/

theorem Mt.one {e : Ope} {f : List Byte → Option Nat} {c : List Byte} {t : List Byte} (h : e.single = some f) (hs : c ++ t <:+ text)
    (hf : f (c ++ t) = some c.length) : Mt text e (c ++ t) t [] [] := by
  intro m s
  refine ⟨s, ?_, rfl, by simp, by simp⟩
  rw [pos_append hs]
  exact .one_ok h (by show f (text.drop _) = _; rw [drop_pos hs, hf])

theorem Mf.one {e : Ope} {f : List Byte → Option Nat} {t : List Byte} (h : e.single = some f) (hs : t <:+ text) (hf : f t = none) : Mf text e t :=
  fun _ _ => .one_fail h (by show f (text.drop _) = _; rw [drop_pos hs, hf])

theorem Mt.lit {l t : List Byte} (hs : l ++ t <:+ text) : Mt text (lit l) (l ++ t) t [] [] := by
  intro m s
  refine ⟨s, ?_, rfl, by simp, by simp⟩
  rw [pos_append hs]
  refine .lit (.text_plain ?_ rfl (.skip_none rfl))
  show litMatch l false (text.drop _) = true
  rw [drop_pos hs]
  simp [litMatch]

theorem Mf.lit {l t : List Byte} (hs : t <:+ text) (h : ¬ l <+: t) : Mf text (lit l) t := by
  intro m s
  refine .lit (.text_no ?_)
  show litMatch l false (text.drop _) = false
  rw [drop_pos hs]
  unfold litMatch
  simp only [Bool.false_eq_true, if_false]
  rw [Bool.eq_false_iff]
  intro h'
  exact h (List.isPrefixOf_iff_prefix.mp h')

theorem decodeLenCp_encode {c : Nat} (hc : IsScalar c) (t : List Byte) : decodeLenCp (encodeCodepoint c ++ t) = ((encodeCodepoint c).length, c) := by
  simp only [decodeLenCp, decode_encode_append c hc t]

theorem encode_append_ne {c : Nat} (hc : IsScalar c) (t : List Byte) : encodeCodepoint c ++ t ≠ [] := by
  have := encode_length_pos hc
  intro h
  have := congrArg List.length h
  simp only [List.length_append, List.length_nil] at this
  omega

theorem Mt.chr {c : Nat} (hc : IsScalar c) {t : List Byte} (hs : encodeCodepoint c ++ t <:+ text) :
    Mt text (.chr c) (encodeCodepoint c ++ t) t [] [] := by
  refine Mt.one rfl hs ?_
  have hn := encode_append_ne hc t
  generalize hx : encodeCodepoint c ++ t = x at hn
  cases x with
  | nil => exact absurd rfl hn
  | cons a x => simp only [matchChar]; rw [← hx, decodeLenCp_encode hc]; simp

theorem Mt.dot {c : Nat} (hc : IsScalar c) {t : List Byte} (hs : encodeCodepoint c ++ t <:+ text) :
    Mt text .dot (encodeCodepoint c ++ t) t [] [] := by
  refine Mt.one rfl hs ?_
  have := encode_length_pos hc
  simp only [matchAny]
  rw [codepointLength_encode c hc]
  rw [if_neg (by omega)]

theorem Mt.cls {c : Nat} (hc : IsScalar c) {rs : List (Nat × Nat)} (hr : rs.any (fun r => decide (r.1 ≤ c ∧ c ≤ r.2)) = true) {t : List Byte}
    (hs : encodeCodepoint c ++ t <:+ text) : Mt text (cls rs) (encodeCodepoint c ++ t) t [] [] := by
  refine Mt.one rfl hs ?_
  have hn := encode_append_ne hc t
  generalize hx : encodeCodepoint c ++ t = x at hn
  cases x with
  | nil => exact absurd rfl hn
  | cons a x =>
    simp only [Cls.matchLen]; rw [← hx, decodeLenCp_encode hc]
    have : rs.any (inRange false · c) = true := by
      rw [← hr]; congr 1; funext r; simp [inRange]
    simp [this]

/-! ## Telling from the next character -/

/-- What is known of the next character: there is none, or it lies in one of the intervals. -/
inductive Nx where
  | eof
  | cs (l : List (Nat × Nat))
  /-- there is none, or it lies in none of the intervals -/
  | no (l : List (Nat × Nat))

def Nx.Of : Nx → List Byte → Prop
  | .eof, t => t = []
  | .cs l, t => ∃ c u, IsScalar c ∧ inCs l c = true ∧ t = encodeCodepoint c ++ u
  | .no l, t => t = [] ∨ ∃ c u, IsScalar c ∧ inCs l c = false ∧ t = encodeCodepoint c ++ u

/-- Disjointness of two lists of intervals. -/
def disj (l l' : List (Nat × Nat)) : Bool := l.all fun r => l'.all fun q => decide (r.2 < q.1 ∨ q.2 < r.1)

theorem disj_sound {l l' : List (Nat × Nat)} (h : disj l l' = true) {c : Nat} (hc : inCs l c = true) : inCs l' c = false := by
  rw [Bool.eq_false_iff]
  intro h'
  simp only [disj, List.all_eq_true, decide_eq_true_eq] at h
  simp only [inCs, List.any_eq_true, decide_eq_true_eq] at hc h'
  obtain ⟨r, hr, h1, h2⟩ := hc
  obtain ⟨q, hq, h3, h4⟩ := h'
  have := h r hr q hq
  omega

/-- All intervals of `l'` are parts of intervals of `l`. -/
def covers (l l' : List (Nat × Nat)) : Bool := l'.all fun q => l.any fun r => decide (r.1 ≤ q.1 ∧ q.2 ≤ r.2)

theorem covers_sound {l l' : List (Nat × Nat)} (h : covers l l' = true) {c : Nat} (hc : inCs l c = false) : inCs l' c = false := by
  rw [Bool.eq_false_iff] at hc ⊢
  intro h'
  simp only [covers, List.all_eq_true, List.any_eq_true, decide_eq_true_eq] at h
  simp only [inCs, List.any_eq_true, decide_eq_true_eq] at h'
  obtain ⟨q, hq, h3, h4⟩ := h'
  obtain ⟨r, hr, h5, h6⟩ := h q hq
  apply hc
  simp only [inCs, List.any_eq_true, decide_eq_true_eq]
  exact ⟨r, hr, by omega, by omega⟩

/-- The next character is not in `l'`. -/
def Nx.avoids : Nx → List (Nat × Nat) → Bool
  | .eof, _ => true
  | .cs l, l' => disj l l'
  | .no l, l' => covers l l'

theorem Nx.avoids_sound {x : Nx} {l : List (Nat × Nat)} (h : x.avoids l = true) {t : List Byte} (ht : x.Of t) :
    t = [] ∨ ∃ c u, IsScalar c ∧ inCs l c = false ∧ t = encodeCodepoint c ++ u := by
  cases x with
  | eof => exact Or.inl ht
  | cs l' => obtain ⟨c, u, h1, h2, h3⟩ := ht; exact Or.inr ⟨c, u, h1, disj_sound h h2, h3⟩
  | no l' =>
    rcases ht with ht | ⟨c, u, h1, h2, h3⟩
    · exact Or.inl ht
    · exact Or.inr ⟨c, u, h1, covers_sound h h2, h3⟩

/-- The literal `s` starts with a character that is not the next one. -/
def litDisj (x : Nx) (s : List Byte) : Bool :=
  let c := (decodeLenCp s).2
  decide (IsScalar c) && (encodeCodepoint c).isPrefixOf s && x.avoids [(c, c)]

/-- Fails; matches nothing with unknown effect on the values; matches nothing and adds nothing; unknown. -/
inductive Abs where
  | fail
  | skip
  | pass
  | unk
  deriving DecidableEq, Repr

mutual
/-- What `e` does where the next character is as `x` says; fuel `n`. -/
def ab : Nat → Nx → Ope → Abs
  | 0, _, _ => .unk
  | n + 1, x, e =>
    match e with
    | .chr c => if x.avoids [(c, c)] then .fail else .unk
    | .cls ⟨rs, false, false⟩ => if x.avoids rs then .fail else .unk
    | .dot => match x with
      | .eof => .fail
      | _ => .unk
    | .lit (b :: s) false => if litDisj x (b :: s) then .fail else .unk
    | .seq es none => abSeq n x es
    | .cho es false [] => abCho n x es
    | .rep e 0 none none => match ab n x e with
      | .fail => .pass
      | _ => .unk
    | .rep e 0 (some 1) none => match ab n x e with
      | .fail => .pass
      | _ => .unk
    | .rep e 1 none none => match ab n x e with
      | .fail => .fail
      | _ => .unk
    | .not_ e => match ab n x e with
      | .fail => .pass
      | .skip => .fail
      | .pass => .fail
      | .unk => .unk
    | .tok e => match ab n x e with
      | .fail => .fail
      | .pass => .skip
      | .skip => .skip
      | .unk => .unk
    | .ref r _ [] => match metaRules[r]? with
      | none => .unk
      | some d => match ab n x d.ope with
        | .fail => .fail
        | .unk => .unk
        | _ => if d.ope.choiceLikeTop then .unk else if d.ignoreSV then .pass else .skip
    | _ => .unk

def abSeq : Nat → Nx → List Ope → Abs
  | 0, _, _ => .unk
  | _ + 1, _, [] => .pass
  | n + 1, x, e :: es => match ab n x e with
    | .fail => .fail
    | .unk => .unk
    | .pass => abSeq n x es
    | .skip => match abSeq n x es with
      | .fail => .fail
      | .unk => .unk
      | _ => .skip

def abCho : Nat → Nx → List Ope → Abs
  | 0, _, _ => .unk
  | _ + 1, _, [] => .fail
  | n + 1, x, e :: es => match ab n x e with
    | .fail => abCho n x es
    | _ => .unk
end

theorem encode_inj {c c' : Nat} (hc : IsScalar c) (hc' : IsScalar c') {u v : List Byte} (h : encodeCodepoint c ++ u = encodeCodepoint c' ++ v) :
    c = c' := by
  have h1 := decodeLenCp_encode hc u
  rw [h, decodeLenCp_encode hc'] at h1
  exact (congrArg Prod.snd h1).symm

theorem nil_matchChar {c : Nat} : matchChar c [] = none := rfl

theorem matchChar_none {c c' : Nat} (hc' : IsScalar c') (hne : c' ≠ c) (u : List Byte) : matchChar c (encodeCodepoint c' ++ u) = none := by
  have hn := encode_append_ne hc' u
  generalize hx : encodeCodepoint c' ++ u = x at hn
  cases x with
  | nil => exact absurd rfl hn
  | cons a x => simp only [matchChar]; rw [← hx, decodeLenCp_encode hc']; simp [hne]

theorem matchCls_none {rs : List (Nat × Nat)} {c' : Nat} (hc' : IsScalar c') (hne : inCs rs c' = false) (u : List Byte) :
    Cls.matchLen ⟨rs, false, false⟩ (encodeCodepoint c' ++ u) = none := by
  have hn := encode_append_ne hc' u
  generalize hx : encodeCodepoint c' ++ u = x at hn
  cases x with
  | nil => exact absurd rfl hn
  | cons a x =>
    simp only [Cls.matchLen]; rw [← hx, decodeLenCp_encode hc']
    have : rs.any (inRange false · c') = false := by
      refine Eq.trans ?_ hne
      unfold inCs; congr 1; funext r; simp [inRange]
    simp [this]

theorem inCs_one {c c' : Nat} : inCs [(c, c)] c' = false ↔ c' ≠ c := by
  simp only [inCs, List.any_cons, List.any_nil, Bool.or_false, decide_eq_false_iff_not]
  omega

/-- What the answer of `ab` says of an expression. -/
def Abs.Says (text : List Byte) (e : Ope) (t : List Byte) : Abs → Prop
  | .fail => Mf text e t
  | .pass => Mt text e t t [] []
  | .skip => ∃ vs tk, Mt text e t t vs tk
  | .unk => True

def Abs.SaysL (text : List Byte) (es : List Ope) (t : List Byte) : Abs → Prop
  | .fail => MfL text es t
  | .pass => MtL text es t t [] []
  | .skip => ∃ vs tk, MtL text es t t vs tk
  | .unk => True

theorem ab_sound (n : Nat) : ∀ (x : Nx) (t : List Byte), x.Of t → t <:+ text →
    (∀ e, (ab n x e).Says text e t) ∧ (∀ es, (abSeq n x es).SaysL text es t) ∧
    (∀ es, abCho n x es = .fail → ∀ e ∈ es, Mf text e t) ∧ (∀ es, abCho n x es = .fail ∨ abCho n x es = .unk) := by
  induction n with
  | zero => exact fun x t _ _ => ⟨fun e => trivial, fun es => trivial, fun es h => (by cases h), fun es => Or.inr rfl⟩
  | succ n ih =>
    intro x t hx hs
    obtain ⟨ih1, ih2, ih3, ih4⟩ := ih x t hx hs
    refine ⟨?_, ?_, ?_, ?_⟩
    · intro e
      unfold ab
      split
      · split
        · rename_i hd
          rcases Nx.avoids_sound hd hx with rfl | ⟨c', u, h1, h2, rfl⟩
          · exact Mf.one rfl hs rfl
          · exact Mf.one rfl hs (matchChar_none h1 (inCs_one.mp h2) u)
        · trivial
      · split
        · rename_i hd
          rcases Nx.avoids_sound hd hx with rfl | ⟨c', u, h1, h2, rfl⟩
          · exact Mf.one rfl hs rfl
          · exact Mf.one rfl hs (matchCls_none h1 h2 u)
        · trivial
      · cases x with
        | eof => exact Mf.one rfl hs (by cases hx; rfl)
        | cs l => trivial
        | no l => trivial
      · split
        · rename_i hd
          simp only [litDisj, Bool.and_eq_true, decide_eq_true_eq] at hd
          obtain ⟨⟨hd1, hd2⟩, hd3⟩ := hd
          rcases Nx.avoids_sound hd3 hx with rfl | ⟨c', u, h1, h2, rfl⟩
          · exact Mf.lit hs (by simp)
          · refine Mf.lit hs fun hp => ?_
            obtain ⟨v, hv⟩ := List.isPrefixOf_iff_prefix.mp hd2
            obtain ⟨w, hw⟩ := hp
            rw [← hv, List.append_assoc] at hw
            exact inCs_one.mp h2 (encode_inj hd1 h1 hw).symm
        · trivial
      · rename_i es
        have := ih2 es
        generalize abSeq n x es = a at this
        cases a with
        | fail => exact Mf.seq this
        | pass => exact Mt.seq this
        | skip => obtain ⟨vs, tk, h⟩ := this; exact ⟨vs, tk, Mt.seq h⟩
        | unk => trivial
      · rename_i es
        rcases ih4 es with h | h
        · rw [h]; exact Mf.cho (ih3 es h)
        · rw [h]; trivial
      · rename_i e
        have := ih1 e
        generalize ab n x e = a at this
        cases a <;> try trivial
        exact Mt.zom (.stop this)
      · rename_i e
        have := ih1 e
        generalize ab n x e = a at this
        cases a <;> try trivial
        exact Mt.opt_none this
      · rename_i e
        have := ih1 e
        generalize ab n x e = a at this
        cases a <;> try trivial
        exact Mf.oom this
      · rename_i e
        have := ih1 e
        generalize ab n x e = a at this
        cases a with
        | fail => exact Mt.npd this
        | pass => exact Mf.npd this
        | skip => obtain ⟨vs, tk, h⟩ := this; exact Mf.npd h
        | unk => trivial
      · rename_i e
        have := ih1 e
        generalize ab n x e = a at this
        cases a with
        | fail => exact Mf.tok this
        | pass => exact ⟨_, _, Mt.tok this⟩
        | skip => obtain ⟨vs, tk, h⟩ := this; exact ⟨_, _, Mt.tok h⟩
        | unk => trivial
      · rename_i r nm
        cases hd : metaRules[r]? with
        | none => trivial
        | some d =>
          simp only
          have := ih1 d.ope
          generalize ab n x d.ope = a at this
          cases a with
          | fail => exact Mf.rule hd this
          | unk => trivial
          | pass =>
            simp only
            by_cases hc : d.ope.choiceLikeTop = true
            · rw [if_pos hc]; trivial
            · rw [if_neg hc]
              have h := Mt.rule hd (by simpa using hc) (nm := nm) this
              by_cases hi : d.ignoreSV = true
              · rw [if_pos hi]; simp only [pushed, if_pos hi] at h; exact h
              · rw [if_neg hi]; exact ⟨_, _, h⟩
          | skip =>
            simp only
            obtain ⟨vs, tk, this⟩ := this
            by_cases hc : d.ope.choiceLikeTop = true
            · rw [if_pos hc]; trivial
            · rw [if_neg hc]
              have h := Mt.rule hd (by simpa using hc) (nm := nm) this
              by_cases hi : d.ignoreSV = true
              · rw [if_pos hi]; simp only [pushed, if_pos hi] at h; exact h
              · rw [if_neg hi]; exact ⟨_, _, h⟩
      · trivial
    · intro es
      unfold abSeq
      cases es with
      | nil => exact MtL.nil
      | cons e es =>
        have h1 := ih1 e
        have h2 := ih2 es
        simp only
        generalize ab n x e = a at h1
        generalize abSeq n x es = b at h2
        cases a with
        | fail => exact MfL.head h1
        | unk => trivial
        | pass => cases b with
          | fail => exact MfL.tail h1 h2
          | unk => trivial
          | pass => exact MtL.cons h1 h2
          | skip => obtain ⟨vs, tk, h2⟩ := h2; exact ⟨_, _, MtL.cons h1 h2⟩
        | skip =>
          obtain ⟨vs, tk, h1⟩ := h1
          cases b with
          | fail => exact MfL.tail h1 h2
          | unk => trivial
          | pass => exact ⟨_, _, MtL.cons h1 h2⟩
          | skip => obtain ⟨vs, tk, h2⟩ := h2; exact ⟨_, _, MtL.cons h1 h2⟩
    · intro es h
      unfold abCho at h
      cases es with
      | nil => simp
      | cons e es =>
        have h1 := ih1 e
        simp only at h
        generalize ab n x e = a at h1 h
        cases a <;> simp only [reduceCtorEq] at h
        intro e' he'
        rcases List.mem_cons.mp he' with rfl | he'
        · exact h1
        · exact ih3 es h e' he'
    · intro es
      unfold abCho
      cases es with
      | nil => exact Or.inl rfl
      | cons e es =>
        simp only
        generalize ab n x e = a
        cases a <;> simp only [reduceCtorEq, or_true]
        exact ih4 es

theorem Mf.ab {e : Ope} {x : Nx} {t : List Byte} (h : ab 50 x e = .fail) (hx : x.Of t) (hs : t <:+ text) : Mf text e t := by
  have := (ab_sound 50 x t hx hs).1 e
  rw [h] at this; exact this

theorem Mt.pass {e : Ope} {x : Nx} {t : List Byte} (h : Meta.ab 50 x e = .pass) (hx : x.Of t) (hs : t <:+ text) : Mt text e t t [] [] := by
  have := (ab_sound 50 x t hx hs).1 e
  rw [h] at this; exact this

end

end Verif.Meta
