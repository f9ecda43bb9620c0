import Verif.LoadSafe
/-!
# Grammars without macros: the loader's checks suffice

`Source.Simple` is a condition on the text alone; every simple grammar that loads is `Careful`.
-/

namespace Verif
open Out

variable {V : Type}

mutual
/-- No macro calls, labels or user operators. -/
def Src.simple : Src → Bool
  | .seq es => Src.simpleL es
  | .cho es _ => Src.simpleL es
  | .rep e _ _ => e.simple
  | .and_ e => e.simple
  | .not_ e => e.simple
  | .capScope e => e.simple
  | .cap _ e => e.simple
  | .tok e => e.simple
  | .ign e => e.simple
  | .ref _ mac as => !mac && as.isEmpty
  | .recov _ _ _ => false
  | .usr _ => false
  | .dict _ _ => true
  | .lit _ _ => true
  | .cls _ => true
  | .chr _ => true
  | .dot => true
  | .bref _ => true
  | .cut => true

def Src.simpleL : List Src → Bool
  | [] => true
  | e :: es => e.simple && Src.simpleL es
end

/-- No macros, labels, user operators or `precedence` instructions. -/
structure Source.Simple (S : Source) : Prop where
  noMacros : ∀ d ∈ S.defs, d.head.isMacro = false ∧ d.head.params = []
  bodies : ∀ d ∈ S.defs, d.body.simple = true
  noPrec : ∀ r, S.prec r = none

mutual
theorem simple_recovs (e : Src) (h : e.simple = true) : e.recovs = true := by
  cases e with
  | seq es => exact simpleL_recovs es h
  | cho es l => exact simpleL_recovs es h
  | rep e a b => exact simple_recovs e h
  | and_ e => exact simple_recovs e h
  | not_ e => exact simple_recovs e h
  | capScope e => exact simple_recovs e h
  | cap n e => exact simple_recovs e h
  | tok e => exact simple_recovs e h
  | ign e => exact simple_recovs e h
  | ref nm mac as =>
    simp only [Src.simple, Bool.and_eq_true, List.isEmpty_iff] at h
    rw [h.2]; rfl
  | recov _ _ _ => cases h
  | usr _ => cases h
  | _ => rfl

theorem simpleL_recovs (es : List Src) (h : Src.simpleL es = true) : Src.recovsL es = true := by
  cases es with
  | nil => rfl
  | cons e es =>
    simp only [Src.simpleL, Src.recovsL, Bool.and_eq_true] at h ⊢
    exact ⟨simple_recovs e h.1, simpleL_recovs es h.2⟩
end

theorem Source.Simple.wf {S : Source} (h : S.Simple) : S.Wf where
  recovs := fun d hd => simple_recovs _ (h.bodies d hd)
  names := fun d hd => by rw [(h.noMacros d hd).2]; exact List.not_mem_nil
  plain := fun d hd _ => (h.noMacros d hd).2

/-! ## On operators -/

mutual
/-- References are to plain rules, without arguments; no labels, user operators, precedence climbing. -/
def Ope.basic (rs : List Def) : Ope → Bool
  | .seq es _ => Ope.basicL rs es
  | .cho es _ _ => Ope.basicL rs es
  | .rep e _ _ _ => e.basic rs
  | .and_ e => e.basic rs
  | .not_ e => e.basic rs
  | .capScope e => e.basic rs
  | .cap _ e => e.basic rs
  | .tok e => e.basic rs
  | .ign e => e.basic rs
  | .ref r _ as => as.isEmpty && (match rs[r]? with | some d => !d.isMacro | none => false)
  | .param _ _ => true
  | .dict _ _ => true
  | .lit _ _ => true
  | .cls _ => true
  | .chr _ => true
  | .dot => true
  | .bref _ => true
  | .cut => true
  | .recov _ _ _ => false
  | .usr _ => false
  | .ws _ => false
  | .weak _ => false
  | .prec _ _ _ _ => false
  | .null => false

def Ope.basicL (rs : List Def) : List Ope → Bool
  | [] => true
  | e :: es => e.basic rs && Ope.basicL rs es
end

mutual
theorem basic_plain (rs : List Def) (e : Ope) : e.plain.basic rs = e.basic rs := by
  cases e with
  | seq es kw => exact basicL_plain rs es
  | cho es l fs => exact basicL_plain rs es
  | rep e a b c => exact basic_plain rs e
  | and_ e => exact basic_plain rs e
  | not_ e => exact basic_plain rs e
  | capScope e => exact basic_plain rs e
  | cap n e => exact basic_plain rs e
  | tok e => exact basic_plain rs e
  | ign e => exact basic_plain rs e
  | ref r nm as =>
    simp only [Ope.plain, Ope.basic]
    cases as with
    | nil => rfl
    | cons x xs => rfl
  | _ => rfl

theorem basicL_plain (rs : List Def) (es : List Ope) : Ope.basicL rs (Ope.plainL es) = Ope.basicL rs es := by
  cases es with
  | nil => rfl
  | cons e es => simp only [Ope.plainL, Ope.basicL, basic_plain rs e, basicL_plain rs es]
end

mutual
theorem basic_careful (o : SafeOpt) (rs rs' : List Def) (e : Ope) (h : e.basic rs = true) : e.careful o rs' = true := by
  cases e with
  | seq es kw => exact basicL_careful o rs rs' es h
  | cho es l fs => exact basicL_careful o rs rs' es h
  | rep e a b c => exact basic_careful o rs rs' e h
  | and_ e => exact basic_careful o rs rs' e h
  | not_ e => exact basic_careful o rs rs' e h
  | capScope e => exact basic_careful o rs rs' e h
  | cap n e => exact basic_careful o rs rs' e h
  | tok e => exact basic_careful o rs rs' e h
  | ign e => exact basic_careful o rs rs' e h
  | ref r nm as =>
    simp only [Ope.basic, Bool.and_eq_true, List.isEmpty_iff] at h
    rw [h.1]; rfl
  | recov _ _ _ => cases h
  | usr _ => cases h
  | ws _ => cases h
  | prec _ _ _ _ => cases h
  | _ => rfl

theorem basicL_careful (o : SafeOpt) (rs rs' : List Def) (es : List Ope) (h : Ope.basicL rs es = true) : Ope.carefulL o rs' es = true := by
  cases es with
  | nil => rfl
  | cons e es =>
    simp only [Ope.basicL, Ope.carefulL, Bool.and_eq_true] at h ⊢
    exact ⟨basic_careful o rs rs' e h.1, basicL_careful o rs rs' es h.2⟩
end

mutual
theorem basic_calls (rs : List Def) (e : Ope) (h : e.basic rs = true) :
    e.callsMacro rs = false ∧ ∀ u ∈ e.uses, ∃ d, rs[u]? = some d ∧ d.isMacro = false := by
  cases e with
  | seq es kw => exact basicL_calls rs es h
  | cho es l fs => exact basicL_calls rs es h
  | rep e a b c => exact basic_calls rs e h
  | and_ e => exact basic_calls rs e h
  | not_ e => exact basic_calls rs e h
  | capScope e => exact basic_calls rs e h
  | cap n e => exact basic_calls rs e h
  | tok e => exact basic_calls rs e h
  | ign e => exact basic_calls rs e h
  | ref r nm as =>
    simp only [Ope.basic, Bool.and_eq_true, List.isEmpty_iff] at h
    obtain ⟨rfl, h2⟩ := h
    cases hd : rs[r]? with
    | none => rw [hd] at h2; cases h2
    | some d =>
      rw [hd] at h2
      have h2 : d.isMacro = false := by simpa using h2
      refine ⟨by simp [Ope.callsMacro, Ope.callsMacroL, hd, h2], ?_⟩
      intro u hu
      simp only [Ope.uses, Ope.usesL, List.mem_cons, List.not_mem_nil, or_false] at hu
      subst hu
      exact ⟨d, hd, h2⟩
  | recov _ _ _ => cases h
  | usr _ => cases h
  | ws _ => cases h
  | weak _ => cases h
  | prec _ _ _ _ => cases h
  | _ => exact ⟨rfl, by intro u hu; cases hu⟩

theorem basicL_calls (rs : List Def) (es : List Ope) (h : Ope.basicL rs es = true) :
    Ope.callsMacroL rs es = false ∧ ∀ u ∈ Ope.usesL es, ∃ d, rs[u]? = some d ∧ d.isMacro = false := by
  cases es with
  | nil => exact ⟨rfl, by intro u hu; cases hu⟩
  | cons e es =>
    simp only [Ope.basicL, Bool.and_eq_true] at h
    obtain ⟨h1, h2⟩ := basic_calls rs e h.1
    obtain ⟨h3, h4⟩ := basicL_calls rs es h.2
    refine ⟨by simp [Ope.callsMacroL, h1, h3], ?_⟩
    intro u hu
    simp only [Ope.usesL, List.mem_append] at hu
    rcases hu with hu | hu
    · exact h2 u hu
    · exact h4 u hu
end

mutual
/-- A simple expression whose references resolve links to a basic operator. -/
theorem link_basic (ds : List SDef) (rs : List Def) (hrs : ∀ (r : Nat) (s : SDef), ds[r]? = some s → ∃ d, rs[r]? = some d ∧ d.isMacro = s.head.isMacro)
    (e : Src) (h : e.simple = true) (hr : ∀ x ∈ e.refs [], Resolves ds [] x) : (e.link ds []).basic rs = true := by
  cases e with
  | seq es => exact linkL_basic ds rs hrs es h hr
  | cho es l => exact linkL_basic ds rs hrs es h hr
  | rep e a b => exact link_basic ds rs hrs e h hr
  | and_ e => exact link_basic ds rs hrs e h hr
  | not_ e => exact link_basic ds rs hrs e h hr
  | capScope e => exact link_basic ds rs hrs e h hr
  | cap n e => exact link_basic ds rs hrs e h hr
  | tok e => exact link_basic ds rs hrs e h hr
  | ign e => exact link_basic ds rs hrs e h hr
  | ref nm mac as =>
    simp only [Src.simple, Bool.and_eq_true, List.isEmpty_iff, Bool.not_eq_true'] at h
    obtain ⟨rfl, rfl⟩ := h
    have := hr (nm, false, 0) (by simp [Src.refs])
    rcases this with h | ⟨r, s, h1, h2, h3, -⟩
    · cases h
    · have hm : s.head.isMacro = false := by
        cases hm : s.head.isMacro with
        | false => rfl
        | true => exact absurd (h3 hm).1 (by simp)
      obtain ⟨d, e1, e2⟩ := hrs r s h2
      simp only [Src.link, show paramIdx [] nm = none from rfl]
      dsimp only at h1
      rw [h1]
      simp [Ope.basic, Src.linkL, e1, e2, hm]
  | recov _ _ _ => cases h
  | usr _ => cases h
  | _ => rfl

theorem linkL_basic (ds : List SDef) (rs : List Def) (hrs : ∀ (r : Nat) (s : SDef), ds[r]? = some s → ∃ d, rs[r]? = some d ∧ d.isMacro = s.head.isMacro)
    (es : List Src) (h : Src.simpleL es = true) (hr : ∀ x ∈ Src.refsL [] es, Resolves ds [] x) : Ope.basicL rs (Src.linkL ds [] es) = true := by
  cases es with
  | nil => rfl
  | cons e es =>
    simp only [Src.simpleL, Src.linkL, Ope.basicL, Bool.and_eq_true] at h ⊢
    exact ⟨link_basic ds rs hrs e h.1 fun x hx => hr x (by simp [Src.refsL, hx]), linkL_basic ds rs hrs es h.2 fun x hx => hr x (by simp [Src.refsL, hx])⟩
end

theorem LoadOk.rule {S : Source} {G : Parser} {a : Nat} (h : LoadOk S G a) (r : Nat) :
    (∀ s, S.all[r]? = some s → ∃ d, G.rules[r]? = some d ∧ d.name = s.head.name ∧ d.isMacro = s.head.isMacro ∧ d.params = s.head.params) ∧
    (∀ d, G.rules[r]? = some d → ∃ s, S.all[r]? = some s ∧ d.name = s.head.name ∧ d.isMacro = s.head.isMacro ∧ d.params = s.head.params) := by
  have hh := h.heads r
  constructor
  · intro s hs
    rw [linkAll_get hs] at hh
    cases hd : G.rules[r]? with
    | none => rw [hd] at hh; cases hh
    | some d =>
      obtain ⟨d', e, h1, h2, h3⟩ := h.heads.get hd
      rw [linkAll_get hs] at e
      cases e
      exact ⟨d, rfl, h1, h2, h3⟩
  · intro d hd
    obtain ⟨d', e, h1, h2, h3⟩ := h.heads.get hd
    cases hs : S.all[r]? with
    | none => unfold linkAll at e; rw [List.getElem?_map, hs] at e; cases e
    | some s => rw [linkAll_get hs] at e; cases e; exact ⟨s, rfl, h1, h2, h3⟩

/-- Rule 0 of a loaded grammar is the built-in `%recover`. -/
theorem LoadOk.simple_rule {S : Source} (hs : S.Simple) {G : Parser} {a : Nat} (h : LoadOk S G a) {r : Nat} {d : Def}
    (hd : G.rules[r]? = some d) : r = 0 ∨ (d.isMacro = false ∧ d.ope.basic G.rules = true) := by
  cases r with
  | zero => exact Or.inl rfl
  | succ r =>
    right
    obtain ⟨s, e, -, h2, -⟩ := (h.rule (r + 1)).2 d hd
    have hm : s ∈ S.defs := by
      have e' : (recoverDef :: S.defs)[r + 1]? = some s := e
      rw [List.getElem?_cons_succ] at e'
      exact List.mem_of_getElem? e'
    refine ⟨h2.trans (hs.noMacros s hm).1, ?_⟩
    have hp := (hs.noMacros s hm).2
    have hc : ∀ x ∈ s.body.refs [], Resolves S.all [] x := by
      have := List.all_eq_true.1 h.refs s (List.mem_of_getElem? e)
      rw [hp] at this
      exact (check_iff _ _ _).1 this
    have hb := link_basic S.all G.rules (fun r s hs => by
      obtain ⟨d, e, -, e2, -⟩ := (h.rule r).1 s hs; exact ⟨d, e, e2⟩) s.body (hs.bodies s hm) hc
    rw [← basic_plain]
    rcases h.bodies (r + 1) d s hd e (hs.noPrec _) with k | k
    · rw [k, hp, basic_plain]; exact hb
    · rw [k, hp]; show (Ope.plain _).basic _ = true; rw [basic_plain]; exact hb

/-- **Every simple grammar that loads is careful.** -/
theorem careful_of_simple {S : Source} (hs : S.Simple) {G : Parser} {a : Nat} (h : LoadOk S G a) : Careful false G a := by
  have ha : a ≠ 0 := by
    intro e
    subst e
    have := h.shown recoverDef rfl
    cases this
  have hspecial : ∀ (r : Nat) (d : Def), G.rules[r]? = some d → d.name = whitespaceName ∨ d.name = wordName →
      d.isMacro = false ∧ d.ope.basic G.rules = true := by
    intro r d hd hn
    rcases h.simple_rule hs hd with e | e
    · subst e
      obtain ⟨s, e, h1, -⟩ := (h.rule 0).2 d hd
      cases e
      rw [h1] at hn
      exact absurd hn (by decide +kernel)
    · exact e
  have hreach : ∀ r, Reaches G.rules (idRoots a (G.ws a) (G.word a)) r → ∀ d, G.rules[r]? = some d →
      d.isMacro = false ∧ d.ope.basic G.rules = true := by
    intro r hr
    have nz : ∀ (u : Nat) (d : Def), (∃ d : Def, G.rules[u]? = some d ∧ d.isMacro = false) → G.rules[u]? = some d → d.isMacro = false ∧ d.ope.basic G.rules = true := by
      rintro u d ⟨d', e, hm⟩ hd
      rw [hd] at e
      cases e
      rcases h.simple_rule hs hd with e | e
      · subst e
        obtain ⟨s, e, -, h2, -⟩ := (h.rule 0).2 d hd
        cases e
        rw [h2] at hm
        cases hm
      · exact e
    induction hr with
    | @base r h1 h2 =>
      intro d hd
      simp only [idRoots, List.mem_cons, List.mem_append] at h1
      rcases h1 with h1 | h1 | h1
      · subst h1
        exact (h.simple_rule hs hd).resolve_left ha
      · cases hw : G.ws a with
        | none => rw [hw] at h1; cases h1
        | some w =>
          obtain ⟨q, dq, e1, e2, e3⟩ := h.ws w hw
          rw [hw, e3] at h1
          exact nz r d ((basic_calls _ _ (hspecial q dq e1 (Or.inl e2)).2).2 r h1) hd
      · cases hw : G.word a with
        | none => rw [hw] at h1; cases h1
        | some w =>
          obtain ⟨q, dq, e1, e2, e3⟩ := h.word w hw
          rw [hw, e3] at h1
          exact nz r d ((basic_calls _ _ (hspecial q dq e1 (Or.inr e2)).2).2 r h1) hd
    | @step r r' d0 _ h1 h2 h3 ih =>
      intro d hd
      exact nz r' d ((basic_calls _ _ (ih d0 h1).2).2 r' h2) hd
  constructor
  · intro d hd
    exact ((h.simple_rule hs hd).resolve_left ha).1
  · intro r d hr hd
    exact basic_careful _ _ _ _ (hreach r hr d hd).2
  · intro r d hr hd hm _
    rw [(hreach r hr d hd).1] at hm; cases hm
  · intro r d hd hn
    obtain ⟨h1, h2⟩ := hspecial r d hd hn
    exact ⟨h1, (basic_calls _ _ h2).1, basic_careful _ _ _ _ h2⟩
  · intro h; cases h

end Verif
