import Verif.Utf8Der
import Verif.Plain
/-!
# Grammars without back references: error reports are always defined

The only fault in making a report is an expected literal that was a capture (`BackReference`, peglib.h 4150-4168).
-/

namespace Verif
open Out

variable {V : Type}

/-- All grammars without back references. -/
def quietLg (cfg : Cfg V) (recov : Bool) : Lg := { plainLg cfg recov with bref := False }

/-- No back references. -/
def quietNode (recov : Bool) : Ope → Bool
  | .bref _ => false
  | e => plainNode recov e

theorem quietNode_ok (cfg : Cfg V) (recov : Bool) (e : Ope) (h : quietNode recov e = true) : (quietLg cfg recov).node e := by
  cases e with
  | seq es kw => cases kw <;> trivial
  | rep e mn mx sp => cases sp <;> trivial
  | recov r nm as => exact h
  | weak r => cases h
  | prec => cases h
  | bref nm => cases h
  | _ => trivial

theorem quietHyp {cfg : Cfg V} {recov : Bool} (H : DShape cfg (quietLg cfg recov)) : DHyp cfg (quietLg cfg recov) where
  frame := H.frame
  slots := H.slots
  body := H.body
  lr := H.lr
  env := H.env
  ws := H.ws
  slotInj := H.slotInj
  closed := fun _ _ _ _ _ _ _ _ hi h => h.inside hi
  cap := fun _ _ _ _ _ _ _ _ _ _ _ => trivial

theorem expected_ok (rules : List Def) : ∀ (ts : List (Option ErrLit × Option Nat)) (label : List Byte),
    (∀ t ∈ ts, ∀ c, t.1 ≠ some (.cap c)) → ∃ x, expected rules ts label = .ok x := by
  intro ts
  induction ts with
  | nil => intro label _; exact ⟨_, rfl⟩
  | cons t ts ih =>
    intro label h
    obtain ⟨el, er⟩ := t
    have ih := fun label => ih label fun t ht => h t (List.mem_cons_of_mem _ ht)
    have h0 := h (el, er) (List.mem_cons_self ..)
    unfold expected
    simp only
    split
    · exact ih label
    · cases el with
      | none =>
        obtain ⟨x, hx⟩ := ih (if label = [] then (er.bind fun r => rules[r]?.map (·.name)).getD [] else label)
        rw [hx]; exact ⟨_, rfl⟩
      | some l =>
        cases l with
        | cap c => exact absurd rfl (h0 c)
        | lit l =>
          obtain ⟨x, hx⟩ := ih label
          simp only [hx, Out.bind]; exact ⟨_, rfl⟩

theorem output_ok (rules : List Def) (e : Err) (h : ∀ t ∈ e.toks, ∀ c, t.1 ≠ some (.cap c)) : ∃ o, e.output rules = .ok o := by
  unfold Err.output
  cases e.msgPos with
  | some p => simp only; split <;> exact ⟨_, rfl⟩
  | none =>
    simp only
    cases e.pos with
    | none => exact ⟨_, rfl⟩
    | some p =>
      simp only
      split
      · obtain ⟨x, hx⟩ := expected_ok rules e.toks e.label h
        rw [hx]; exact ⟨_, rfl⟩
      · exact ⟨_, rfl⟩

/-- **Logging adds nothing but the reports**: without back references the answer of `parser::parse` is defined whenever the parse is. -/
theorem answer_ok {cfg : Cfg V} {recov : Bool} (H : DShape cfg (quietLg cfg recov)) {n r : Nat} {eoi log : Bool} {dt : Option V}
    {res : Result V} (hm : ∀ d, cfg.rules[r]? = some d → d.isMacro = false)
    (h : parseCore n cfg r eoi { dt := dt, logOn := log } = .ok res) :
    ∃ a, parserParse n cfg r eoi log dt = .ok a ∧ a.res = res ∧ a.ok = (res.ret && !res.recovered) := by
  have E := parseCore_errD (quietHyp H) (Nat.zero_le _) hm h
  obtain ⟨o, ho⟩ := output_ok cfg.rules res.st.err fun t ht c hc => E.toks t ht c hc
  unfold parserParse postProcess
  rw [h]
  simp only [Out.bind]
  split
  · rw [ho]; exact ⟨_, rfl, rfl, rfl⟩
  · exact ⟨_, rfl, rfl, rfl⟩

/-! ## Annotations do not matter -/

/-- Nothing is asked of annotations. -/
structure Lg.Bare (L : Lg) : Prop where
  kw : ∀ g, L.kw g
  span : ∀ c, L.span c

theorem quiet_bare (cfg : Cfg V) (recov : Bool) : (quietLg cfg recov).Bare := ⟨fun _ => trivial, fun _ => trivial⟩

mutual
theorem Ope.Ok.of_plain {L : Lg} (hb : L.Bare) : ∀ (e : Ope), e.plain.Ok L → e.Ok L
  | .seq es kw, h => by simp only [Ope.plain, Ope.Ok] at h ⊢; exact ⟨fun k _ => hb.kw k, Ope.OkL.of_plain hb es h.2⟩
  | .cho es _ _, h => by simp only [Ope.plain, Ope.Ok] at h ⊢; exact Ope.OkL.of_plain hb es h
  | .rep e mn mx sp, h => by simp only [Ope.plain, Ope.Ok] at h ⊢; exact ⟨fun k _ => hb.span k, Ope.Ok.of_plain hb e h.2⟩
  | .and_ e, h => by simp only [Ope.plain, Ope.Ok] at h ⊢; exact Ope.Ok.of_plain hb e h
  | .not_ e, h => by simp only [Ope.plain, Ope.Ok] at h ⊢; exact Ope.Ok.of_plain hb e h
  | .dict w ic, h => h
  | .lit s ic, h => h
  | .cls c, h => h
  | .chr c, h => h
  | .dot, h => h
  | .capScope e, h => by simp only [Ope.plain, Ope.Ok] at h ⊢; exact Ope.Ok.of_plain hb e h
  | .cap _ e, h => by simp only [Ope.plain, Ope.Ok] at h ⊢; exact Ope.Ok.of_plain hb e h
  | .tok e, h => by simp only [Ope.plain, Ope.Ok] at h ⊢; exact Ope.Ok.of_plain hb e h
  | .ign e, h => by simp only [Ope.plain, Ope.Ok] at h ⊢; exact Ope.Ok.of_plain hb e h
  | .usr id, h => h
  | .weak _, h => h
  | .ref _ _ as, h => by simp only [Ope.plain, Ope.Ok] at h ⊢; exact Ope.OkL.of_plain hb as h
  | .param .., h => h
  | .ws e, h => by simp only [Ope.plain, Ope.Ok] at h ⊢; exact Ope.Ok.of_plain hb e h
  | .bref _, h => h
  | .prec .., h => by simp only [Ope.plain, Ope.Ok] at h
  | .recov r nm as, h => by simp only [Ope.plain, Ope.Ok] at h ⊢; exact ⟨h.1, Ope.OkL.of_plain hb as h.2⟩
  | .cut, h => h
  | .null, h => h
theorem Ope.OkL.of_plain {L : Lg} (hb : L.Bare) : ∀ (es : List Ope), Ope.OkL L (Ope.plainL es) → Ope.OkL L es
  | [], h => h
  | e :: es, h => by simp only [Ope.plainL, Ope.OkL] at h ⊢; exact ⟨Ope.Ok.of_plain hb e h.1, Ope.OkL.of_plain hb es h.2⟩
end

theorem macro_plain (rs : List Def) (r : Nat) : ((rs.map Def.plain)[r]?).map (·.isMacro) = (rs[r]?).map (·.isMacro) := by
  rw [List.getElem?_map]
  cases rs[r]? <;> rfl

mutual
theorem envFree_plain (rs : List Def) : ∀ (e : Ope), envFree (rs.map Def.plain) e.plain = envFree rs e
  | .seq es kw => by simp only [Ope.plain, envFree]; exact envFreeL_plain rs es
  | .cho es _ _ => by simp only [Ope.plain, envFree]; exact envFreeL_plain rs es
  | .rep e mn mx sp => by simp only [Ope.plain, envFree]; exact envFree_plain rs e
  | .and_ e => by simp only [Ope.plain, envFree]; exact envFree_plain rs e
  | .not_ e => by simp only [Ope.plain, envFree]; exact envFree_plain rs e
  | .dict w ic => rfl
  | .lit s ic => rfl
  | .cls c => rfl
  | .chr c => rfl
  | .dot => rfl
  | .capScope e => by simp only [Ope.plain, envFree]; exact envFree_plain rs e
  | .cap _ e => by simp only [Ope.plain, envFree]; exact envFree_plain rs e
  | .tok e => by simp only [Ope.plain, envFree]; exact envFree_plain rs e
  | .ign e => by simp only [Ope.plain, envFree]; exact envFree_plain rs e
  | .usr id => rfl
  | .weak _ => rfl
  | .ref r _ as => by simp only [Ope.plain, envFree, macro_plain]
  | .param .. => rfl
  | .ws e => by simp only [Ope.plain, envFree]; exact envFree_plain rs e
  | .bref _ => rfl
  | .prec a b _ _ => by simp only [Ope.plain, envFree, envFree_plain rs a, envFree_plain rs b]
  | .recov r nm as => by simp only [Ope.plain, envFree, macro_plain]
  | .cut => rfl
  | .null => rfl
theorem envFreeL_plain (rs : List Def) : ∀ (es : List Ope), envFreeL (rs.map Def.plain) (Ope.plainL es) = envFreeL rs es
  | [] => rfl
  | e :: es => by simp only [Ope.plainL, envFreeL, envFree_plain rs e, envFreeL_plain rs es]
end

end Verif
