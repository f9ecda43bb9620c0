import Verif.Der
/-!
# Conditions on grammars for the derivation theorem
-/

namespace Verif
open Out CharClass

variable {V : Type}

/-- Which leaves may occur in the grammar, which positions may be reached, what a derivation may use. -/
structure Lg where
  al : Nat → Prop := fun _ => True
  K : DCtx := {}
  lit : List Byte → Bool → Prop := fun _ _ => True
  dict : List (List Byte) → Bool → Prop := fun _ _ => True
  kw : KwGuard → Prop := fun _ => True
  span : Cls → Prop := fun _ => True
  one : Ope → Prop := fun _ => True
  usr : Nat → Prop := fun _ => True
  /-- back references may occur -/
  bref : Prop := True

mutual
/-- All leaves are allowed, there is no precedence climbing inside, and rules are called by references. -/
def Ope.Ok (L : Lg) : Ope → Prop
  | .seq es kw => (∀ k, kw = some k → L.kw k) ∧ Ope.OkL L es
  | .cho es _ _ => Ope.OkL L es
  | .rep e _ _ sp => (∀ c, sp = some c → L.span c) ∧ e.Ok L
  | .and_ e => e.Ok L
  | .not_ e => e.Ok L
  | .dict w ic => L.dict w ic
  | .lit s ic => L.lit s ic
  | .cls c => L.one (.cls c)
  | .chr c => L.one (.chr c)
  | .dot => L.one .dot
  | .capScope e => e.Ok L
  | .cap _ e => e.Ok L
  | .tok e => e.Ok L
  | .ign e => e.Ok L
  | .usr id => L.usr id
  | .weak _ => False
  | .ref _ _ as => Ope.OkL L as
  | .param .. => True
  | .ws e => e.Ok L
  | .bref _ => L.bref
  | .prec .. => False
  | .recov _ _ as => L.K.recov = true ∧ Ope.OkL L as
  | .cut => True
  | .null => True

def Ope.OkL (L : Lg) : List Ope → Prop
  | [] => True
  | e :: es => e.Ok L ∧ Ope.OkL L es
end

theorem okL_iff {L : Lg} {es : List Ope} : Ope.OkL L es ↔ ∀ e ∈ es, e.Ok L := by
  induction es with
  | nil => simp [Ope.OkL]
  | cons e es ih => simp [Ope.OkL, ih]

mutual
theorem Ope.Ok.noPrec {L : Lg} : ∀ {e : Ope}, e.Ok L → e.noPrec = true
  | .seq es kw, h => by simp only [Ope.Ok] at h; simp only [Ope.noPrec]; exact Ope.OkL.noPrec h.2
  | .cho es l fs, h => by simp only [Ope.Ok] at h; simp only [Ope.noPrec]; exact Ope.OkL.noPrec h
  | .rep e _ _ _, h => by simp only [Ope.Ok] at h; simp only [Ope.noPrec]; exact Ope.Ok.noPrec h.2
  | .and_ e, h => by simp only [Ope.Ok] at h; simp only [Ope.noPrec]; exact Ope.Ok.noPrec h
  | .not_ e, h => by simp only [Ope.Ok] at h; simp only [Ope.noPrec]; exact Ope.Ok.noPrec h
  | .dict .., _ => rfl
  | .lit .., _ => rfl
  | .cls _, _ => rfl
  | .chr _, _ => rfl
  | .dot, _ => rfl
  | .capScope e, h => by simp only [Ope.Ok] at h; simp only [Ope.noPrec]; exact Ope.Ok.noPrec h
  | .cap _ e, h => by simp only [Ope.Ok] at h; simp only [Ope.noPrec]; exact Ope.Ok.noPrec h
  | .tok e, h => by simp only [Ope.Ok] at h; simp only [Ope.noPrec]; exact Ope.Ok.noPrec h
  | .ign e, h => by simp only [Ope.Ok] at h; simp only [Ope.noPrec]; exact Ope.Ok.noPrec h
  | .usr _, _ => rfl
  | .weak _, _ => rfl
  | .ref _ _ as, h => by simp only [Ope.Ok] at h; simp only [Ope.noPrec]; exact Ope.OkL.noPrec h
  | .param .., _ => rfl
  | .ws e, h => by simp only [Ope.Ok] at h; simp only [Ope.noPrec]; exact Ope.Ok.noPrec h
  | .bref _, _ => rfl
  | .prec .., h => by simp only [Ope.Ok] at h
  | .recov _ _ as, h => by simp only [Ope.Ok] at h; simp only [Ope.noPrec]; exact Ope.OkL.noPrec h.2
  | .cut, _ => rfl
  | .null, _ => rfl

theorem Ope.OkL.noPrec {L : Lg} : ∀ {es : List Ope}, Ope.OkL L es → Ope.noPrecList es = true
  | [], _ => rfl
  | e :: es, h => by
    simp only [Ope.OkL] at h
    simp only [Ope.noPrecList, Bool.and_eq_true]; exact ⟨Ope.Ok.noPrec h.1, Ope.OkL.noPrec h.2⟩
end

theorem lookupArg_ok {L : Lg} {ps : List (List Byte)} {as : List Ope} {nm : List Byte} {e : Ope}
    (h : ∀ e ∈ as, e.Ok L) (hl : lookupArg ps as nm = some e) : e.Ok L := by
  unfold lookupArg at hl
  rw [Option.map_eq_some_iff] at hl
  obtain ⟨p, hp, rfl⟩ := hl
  exact h _ (List.of_mem_zip (List.mem_of_find?_eq_some hp)).2

mutual
theorem resolve_ok {L : Lg} {ps : List (List Byte)} {as : List Ope} (h : ∀ e ∈ as, e.Ok L) (e : Ope)
    (he : e.Ok L) : (resolve ps as e).Ok L := by
  cases e with
  | seq es kw => simp only [resolve, Ope.Ok] at he ⊢; exact ⟨by simp, resolveList_ok h es he.2⟩
  | cho es l fs => simp only [resolve, Ope.Ok] at he ⊢; exact resolveList_ok h es he
  | rep e mn mx sp => simp only [resolve, Ope.Ok] at he ⊢; exact ⟨by simp, resolve_ok h e he.2⟩
  | and_ e => simp only [resolve, Ope.Ok] at he ⊢; exact resolve_ok h e he
  | not_ e => simp only [resolve, Ope.Ok] at he ⊢; exact resolve_ok h e he
  | dict w ic => exact he
  | lit s ic => exact he
  | cls c => exact he
  | chr c => exact he
  | dot => exact he
  | capScope e => simp only [resolve, Ope.Ok] at he ⊢; exact resolve_ok h e he
  | cap nm e => simp only [resolve, Ope.Ok] at he ⊢; exact resolve_ok h e he
  | tok e => simp only [resolve, Ope.Ok] at he ⊢; exact resolve_ok h e he
  | ign e => simp only [resolve, Ope.Ok] at he ⊢; exact resolve_ok h e he
  | usr id => simp only [resolve, Ope.Ok]
  | weak r => simp only [Ope.Ok] at he
  | ref r nm as' =>
    simp only [resolve]
    cases hl : lookupArg ps as nm with
    | none => exact he
    | some e => exact lookupArg_ok h hl
  | param k nm =>
    simp only [resolve]
    cases hl : lookupArg ps as nm with
    | none => exact he
    | some e => exact lookupArg_ok h hl
  | ws e => simp only [resolve, Ope.Ok] at he ⊢; exact resolve_ok h e he
  | bref nm => simp only [resolve, Ope.Ok]
  | prec a b info r => simp only [Ope.Ok] at he
  | recov r nm as' =>
    simp only [resolve]
    cases hl : lookupArg ps as nm with
    | none => exact he
    | some e =>
      have := lookupArg_ok h hl
      simp only [Ope.Ok] at he
      cases e <;> simp only [Ope.Ok] at this ⊢
      exact ⟨he.1, this⟩
  | cut => exact he
  | null => exact he

theorem resolveList_ok {L : Lg} {ps : List (List Byte)} {as : List Ope} (h : ∀ e ∈ as, e.Ok L) (es : List Ope)
    (he : Ope.OkL L es) : Ope.OkL L (resolveList ps as es) := by
  cases es with
  | nil => simp only [resolveList, Ope.OkL]
  | cons e es =>
    simp only [resolveList, Ope.OkL] at he ⊢
    exact ⟨resolve_ok h e he.1, resolveList_ok h es he.2⟩
end

mutual
/-- The expression uses no macro arguments: no parameter, no macro call. -/
def envFree (rules : List Def) : Ope → Bool
  | .seq es _ => envFreeL rules es
  | .cho es _ _ => envFreeL rules es
  | .rep e _ _ _ => envFree rules e
  | .and_ e => envFree rules e
  | .not_ e => envFree rules e
  | .capScope e => envFree rules e
  | .cap _ e => envFree rules e
  | .tok e => envFree rules e
  | .ign e => envFree rules e
  | .ws e => envFree rules e
  | .ref r _ _ => !(rules[r]?.map (·.isMacro)).getD false
  | .recov r _ _ => !(rules[r]?.map (·.isMacro)).getD false
  | .param .. => false
  | .prec a b _ _ => envFree rules a && envFree rules b
  | _ => true

def envFreeL (rules : List Def) : List Ope → Bool
  | [] => true
  | e :: es => envFree rules e && envFreeL rules es
end

theorem envFreeL_iff {rules : List Def} {es : List Ope} : envFreeL rules es = true ↔ ∀ e ∈ es, envFree rules e = true := by
  induction es with
  | nil => simp [envFreeL]
  | cons e es ih => simp [envFreeL, ih]

/-- The body of a rule: an allowed expression, or one operator expression. -/
def BodyOk (L : Lg) (e : Ope) : Prop := e.Ok L ∨ ∃ a b info q, e = .prec a b info q ∧ a.Ok L ∧ b.Ok L

def DTask.Ok (L : Lg) : DTask V → Prop
  | .ope e => BodyOk L e
  | .seqL es => Ope.OkL L es
  | .reps e _ => e.Ok L
  | .skip => True
  | .body d => BodyOk L d.ope
  | .rule .. => True
  | .prec a b _ _ _ => a.Ok L ∧ b.Ok L
  | .precLoop a b _ _ _ _ => a.Ok L ∧ b.Ok L

def DEnv.Ok (L : Lg) (E : DEnv) : Prop := ∀ e ∈ E.top, e.Ok L

/-- Hypotheses on grammar, numbering and callbacks. -/
structure DHyp (cfg : Cfg V) (L : Lg) : Prop where
  frame : FrameOk cfg
  slots : SlotsOk cfg
  body : ∀ (r : Nat) (d : Def), cfg.rules[r]? = some d → BodyOk L d.ope
  /-- macros are not left-recursive and are not operator expressions -/
  lr : ∀ (r : Nat) (d : Def), cfg.rules[r]? = some d → d.isMacro = true → d.isLR = false ∧ d.ope.Ok L
  /-- `has_macro_ref` is right -/
  env : ∀ (r : Nat) (d : Def), cfg.rules[r]? = some d → d.isMacro = false → d.hasMacroRef = false →
    envFree cfg.rules d.ope = true
  ws : ∀ w, cfg.ws = some w → w.Ok L ∧ envFree cfg.rules w = true
  /-- memoised rules are numbered without clash -/
  slotInj : cfg.packrat = true → ∀ (r r' : Nat) (d d' : Def) (s : Nat), cfg.rules[r]? = some d → cfg.rules[r']? = some d' →
    cfg.slot (cfg.defId r) = some s → cfg.slot (cfg.defId r') = some s → r = r'
  /-- derivations lead from allowed positions to allowed positions -/
  closed : ∀ E (t : DTask V) i f j f', DEnv.Ok L E → t.Ok L → L.al i → Der cfg L.K E t i f j f' → L.al j
  /-- what is derived inside a capture may be captured -/
  cap : ∀ E nm e i f j f', DEnv.Ok L E → Ope.Ok L e → L.al i → Der cfg L.K E (.ope e) i f j f' →
    L.K.cap nm ((cfg.rest i).take (j - i))

/-! ## Derivations and the environment -/

def DTask.envFree (rules : List Def) : DTask V → Bool
  | .ope e => Verif.envFree rules e
  | .seqL es => envFreeL rules es
  | .reps e _ => Verif.envFree rules e
  | .skip => true
  | .body d => Verif.envFree rules d.ope
  | .rule .. => true
  | .prec a b _ _ _ => Verif.envFree rules a && Verif.envFree rules b
  | .precLoop a b _ _ _ _ => Verif.envFree rules a && Verif.envFree rules b

/-- Without parameters and macro calls the arguments in scope do not matter. -/
theorem Der.env {cfg : Cfg V} {K : DCtx} (hw : ∀ w, cfg.ws = some w → envFree cfg.rules w = true) {E : DEnv} {t : DTask V}
    {i : Nat} {f : Frame V} {j : Nat} {f' : Frame V} (h : Der cfg K E t i f j f') (ht : t.envFree cfg.rules = true) (E' : DEnv) :
    Der cfg K E' t i f j f' := by
  induction h generalizing E' with
  | noSkip => exact .noSkip
  | skip hs _ ih => exact .skip hs (ih (hw _ hs) _)
  | wsIn => exact .wsIn
  | ws _ ih => exact .ws (ih (by simpa only [DTask.envFree, envFree] using ht) _)
  | one h1 h2 => exact .one h1 h2
  | lit h1 _ ih => exact .lit h1 (ih rfl _)
  | dict h1 h2 _ ih => exact .dict h1 h2 (ih rfl _)
  | bref h1 h2 _ ih => exact .bref h1 h2 (ih rfl _)
  | usr h1 h2 => exact .usr h1 h2
  | seq _ ih => exact .seq (ih (by simpa only [DTask.envFree, envFree] using ht) _)
  | word h1 _ ih => exact .word h1 (ih rfl _)
  | nil => exact .nil
  | cons _ _ ih1 ih2 =>
    simp only [DTask.envFree, envFreeL, Bool.and_eq_true] at ht
    exact .cons (ih1 ht.1 _) (ih2 ht.2 _)
  | cho h1 _ ih =>
    simp only [DTask.envFree, envFree] at ht
    exact .cho h1 (ih (envFreeL_iff.mp ht _ (List.mem_of_getElem? h1)) _)
  | cut => exact .cut
  | rep h1 h2 _ ih => exact .rep h1 h2 (ih (by simpa only [DTask.envFree, envFree] using ht) _)
  | span h1 h2 h3 h4 => exact .span h1 h2 h3 h4
  | zero => exact .zero
  | succ _ _ ih1 ih2 => exact .succ (ih1 ht _) (ih2 ht _)
  | and _ ih => exact .and (ih (by simpa only [DTask.envFree, envFree] using ht) _)
  | not => exact .not
  | capScope _ ih => exact .capScope (ih (by simpa only [DTask.envFree, envFree] using ht) _)
  | cap _ ih => exact .cap (ih (by simpa only [DTask.envFree, envFree] using ht) _)
  | tok _ _ ih1 ih2 => exact .tok (ih1 (by simpa only [DTask.envFree, envFree] using ht) _) (ih2 rfl _)
  | ign _ ih => exact .ign (ih (by simpa only [DTask.envFree, envFree] using ht) _)
  | ref h1 h2 _ ih => exact .ref h1 h2 (ih rfl _)
  | call h1 h2 => simp [DTask.envFree, Verif.envFree, h1, h2] at ht
  | param => simp [DTask.envFree, Verif.envFree] at ht
  | body h1 _ ih => exact .body h1 (ih ht _)
  | bodyWs h1 _ _ ih1 ih2 => exact .bodyWs h1 (ih1 ht _) (ih2 rfl _)
  | rule h1 h2 h3 h4 h5 h6 => exact .rule h1 h2 h3 h4 h5 h6
  | precOpe _ ih => exact .precOpe (ih (by simpa only [DTask.envFree, envFree] using ht) _)
  | prec _ _ ih1 ih2 =>
    have ht' := ht
    simp only [DTask.envFree, Bool.and_eq_true] at ht'
    exact .prec (ih1 ht'.1 _) (ih2 ht _)
  | precEnd => exact .precEnd
  | precMore _ h2 h3 h4 _ h6 h7 _ ih1 ih2 ih3 =>
    have ht' := ht
    simp only [DTask.envFree, Bool.and_eq_true] at ht'
    exact .precMore (ih1 ht'.2 _) h2 h3 h4 (ih2 ht _) h6 h7 (ih3 ht _)
  | recov h1 _ ih => exact .recov h1 (ih (by simpa only [DTask.envFree, envFree] using ht) _)
  | anyFrame h1 _ ih => exact .anyFrame h1 (ih ht _)
  | ruleReco h1 h2 h3 h4 => exact .ruleReco h1 h2 h3 h4

theorem Der.ruleEnv {cfg : Cfg V} {K : DCtx} (hw : ∀ w, cfg.ws = some w → envFree cfg.rules w = true) {E : DEnv} {r : Nat}
    {v : Option V} {i : Nat} {f : Frame V} {j : Nat} {f' : Frame V} (h : Der cfg K E (.rule r v) i f j f') (E' : DEnv) :
    Der cfg K E' (.rule r v) i f j f' := h.env hw rfl E'

/-- Derivations go forward. -/
theorem Der.le {cfg : Cfg V} {K : DCtx} {E : DEnv} {t : DTask V} {i : Nat} {f : Frame V} {j : Nat} {f' : Frame V}
    (h : Der cfg K E t i f j f') : i ≤ j := by
  induction h <;> omega

end Verif
