import Verif.MetaType
/-!
# The actions of the reader are well typed

Each action, given values of the types its rule collects, gives a value of the type its own rule has (`act_ok`).
-/

namespace Verif.Meta
open Verif CharClass Utf8

variable {U : Prop}

/-- What an action must do (no action: the first value). -/
def ActOk (U : Prop) (r : Nat) (vs : List Val) : Option Act → Prop
  | some (.ok v) => Good r (some v)
  | some (.error b) => Excused U b
  | none => Good r (vs.head?.getD none)

theorem dropped_tab : (List.range 76).map dropped = metaRules.map (·.ignoreSV) := by decide +kernel

theorem sh_ref {H : Nat → Val → Prop} {r : Nat} {nm : List Byte} {as : List Ope} {vs : List Val} (hd : dropped r = false) (h : Sh H (.ref r nm as) vs) :
    ∃ v, vs = [v] ∧ H r v := by
  simpa only [Sh, hd, Bool.false_eq_true, if_false] using h

theorem sh_drop {H : Nat → Val → Prop} {r : Nat} {nm : List Byte} {as : List Ope} {vs : List Val} (hd : dropped r = true) (h : Sh H (.ref r nm as) vs) :
    vs = [] := by
  simpa only [Sh, hd, if_true] using h

theorem sh_opt {H : Nat → Val → Prop} {e : Ope} {vs : List Val} (h : Sh H (opt e) vs) : vs = [] ∨ Sh H e vs := by
  obtain ⟨c, h1, h2, h3⟩ := (show ∃ c, 0 ≤ c ∧ _ ∧ _ from h)
  have : c ≤ 1 := by simp at h2; omega
  rcases c with _ | _ | c
  · exact .inl h3
  · obtain ⟨a, b, h4, h5, h6⟩ := h3
    rw [show b = [] from h5] at h6
    simp at h6
    subst h6
    exact .inr h4
  · omega

theorem Times.one {P : List Val → Prop} {Q : Val → Prop} (h : ∀ vs, P vs → ∃ v, vs = [v] ∧ Q v) : ∀ c vs, Times P c vs → vs.length = c ∧ ∀ v ∈ vs, Q v
  | 0, vs, h' => by rw [show vs = [] from h']; simp
  | c + 1, vs, ⟨a, b, h1, h2, h3⟩ => by
    subst h3
    obtain ⟨v, rfl, hv⟩ := h a h1
    obtain ⟨h4, h5⟩ := Times.one h c b h2
    exact ⟨by simp [h4, Nat.add_comm], by simp; exact ⟨hv, h5⟩⟩

theorem sh_zom {H : Nat → Val → Prop} {Q : Val → Prop} {e : Ope} {vs : List Val} {mn : Nat} {sp : Option Cls} (he : ∀ vs, Sh H e vs → ∃ v, vs = [v] ∧ Q v)
    (h : Sh H (.rep e mn none sp) vs) : mn ≤ vs.length ∧ ∀ v ∈ vs, Q v := by
  obtain ⟨c, h1, -, h3⟩ := (show ∃ c, mn ≤ c ∧ _ ∧ _ from h)
  obtain ⟨h4, h5⟩ := Times.one he c vs h3
  exact ⟨by omega, h5⟩

theorem castAll_ok {f : Val → Except Bad α} {P : α → Prop} : ∀ {vs : List Val}, (∀ v ∈ vs, ∃ x, f v = .ok x ∧ P x) →
    ∃ xs, castAll f vs = .ok xs ∧ xs.length = vs.length ∧ ∀ x ∈ xs, P x
  | [], _ => ⟨[], rfl, rfl, by simp⟩
  | v :: vs, h => by
    obtain ⟨x, hx, hp⟩ := h v (by simp)
    obtain ⟨xs, h1, h2, h3⟩ := castAll_ok (f := f) (P := P) (vs := vs) fun v hv => h v (by simp [hv])
    refine ⟨x :: xs, ?_, by simp [h2], by simp; exact ⟨hp, h3⟩⟩
    simp only [castAll, hx, h1]
    rfl

theorem asOpe_ok {v : Val} (h : IsOpe v) : ∃ e, asOpe v = .ok e ∧ Regular e := by
  obtain ⟨e, rfl, he⟩ := h
  exact ⟨e, rfl, he⟩

/-- Splitting the values of a sequence whose elements are rules. -/
theorem shL_cons {H : Nat → Val → Prop} {e : Ope} {es : List Ope} {vs : List Val} (h : ShL H (e :: es) vs) :
    ∃ a b, Sh H e a ∧ ShL H es b ∧ vs = a ++ b := h

theorem shL_nil {H : Nat → Val → Prop} {vs : List Val} (h : ShL H [] vs) : vs = [] := h

theorem shL_ref {H : Nat → Val → Prop} {r : Nat} {nm : List Byte} {as : List Ope} {es : List Ope} {vs : List Val} (h : ShL H (.ref r nm as :: es) vs)
    (hd : dropped r = false) : ∃ v b, H r v ∧ ShL H es b ∧ vs = v :: b := by
  obtain ⟨a, b, h1, h2, h3⟩ := h
  obtain ⟨v, rfl, hv⟩ := sh_ref hd h1
  exact ⟨v, b, hv, h2, h3⟩

theorem shL_drop {H : Nat → Val → Prop} {r : Nat} {nm : List Byte} {as : List Ope} {es : List Ope} {vs : List Val} (h : ShL H (.ref r nm as :: es) vs)
    (hd : dropped r = true) : ShL H es vs := by
  obtain ⟨a, b, h1, h2, h3⟩ := h
  rw [sh_drop hd h1] at h3
  simp at h3
  subst h3
  exact h2

theorem shL_none {H : Nat → Val → Prop} {e : Ope} {es : List Ope} {vs : List Val} (h : ShL H (e :: es) vs) (he : ∀ a, Sh H e a → a = []) : ShL H es vs := by
  obtain ⟨a, b, h1, h2, h3⟩ := h
  rw [he a h1] at h3
  simp at h3
  subst h3
  exact h2

theorem ok_Grammar {vs : List Val} (h : Sh Good dGrammar.ope vs) (tk : List (List Byte)) (sv : List Byte) (k : Nat) : ActOk U rGrammar vs (act rGrammar vs tk sv k) := by
  replace h := shL_drop (show ShL Good [gSpacing, oom gDefinition, gEndOfFile] vs from h) rfl
  obtain ⟨a, b, h1, h2, rfl⟩ := h
  obtain ⟨v, b', -, h3, rfl⟩ := shL_ref h2 rfl
  rw [shL_nil h3]
  obtain ⟨h4, h5⟩ := sh_zom (Q := Good rDefinition) (fun vs h => sh_ref rfl h) h1
  obtain ⟨ds, e1, e2, e3⟩ := castAll_ok (f := asDefn) (P := GoodDef) (vs := a) fun v hv => by
    obtain ⟨d, rfl, hd⟩ := h5 v hv
    exact ⟨d, rfl, hd⟩
  simp only [act, List.dropLast_concat, e1]
  refine ⟨ds, rfl, ?_, e3⟩
  intro e
  subst e
  simp at e2
  omega

theorem ok_Definition {vs : List Val} (h : Sh Good dDefinition.ope vs) (tk : List (List Byte)) (sv : List Byte) (k : Nat) :
    ActOk U rDefinition vs (act rDefinition vs tk sv k) := by
  replace h := shL_ref (show ShL Good [gIgnore, gIdentCont, opt gParameters, gSpacing, gLEFTARROW, gExpression, opt gInstruction] vs from h) rfl
  obtain ⟨v0, b, ⟨ig, rfl⟩, h, rfl⟩ := h
  replace h := shL_ref h rfl
  obtain ⟨v1, b, ⟨nm, rfl⟩, h, rfl⟩ := h
  replace h := shL_cons h
  obtain ⟨a, b, hp, h, rfl⟩ := h
  replace h := shL_drop h rfl
  replace h := shL_ref h rfl
  obtain ⟨v3, b, hla, h, rfl⟩ := h
  cases (show v3 = none from hla)
  replace h := shL_ref h rfl
  obtain ⟨v4, b, ⟨e, rfl, he⟩, h, rfl⟩ := h
  replace h := shL_cons h
  obtain ⟨c, b, hi, h, rfl⟩ := h
  rw [shL_nil h]
  have hi' : c = [] ∨ ∃ is, c = [some (.instrs is)] := by
    rcases sh_opt hi with rfl | hi
    · exact .inl rfl
    · obtain ⟨v, rfl, is, rfl⟩ := sh_ref rfl hi
      exact .inr ⟨is, rfl⟩
  rcases sh_opt hp with rfl | hp
  · rcases hi' with rfl | ⟨is, rfl⟩
    · exact ⟨_, rfl, he, by simp⟩
    · exact ⟨_, rfl, he, by simp⟩
  · obtain ⟨v, rfl, ps, rfl, hps⟩ := sh_ref rfl hp
    rcases hi' with rfl | ⟨is, rfl⟩
    · exact ⟨_, rfl, he, fun ps' e => by cases e; exact hps⟩
    · exact ⟨_, rfl, he, fun ps' e => by cases e; exact hps⟩

theorem castOpe {vs : List Val} (h : ∀ v ∈ vs, IsOpe v) : ∃ es, castAll asOpe vs = .ok es ∧ es.length = vs.length ∧ ∀ e ∈ es, Regular e :=
  castAll_ok fun v hv => asOpe_ok (h v hv)

theorem castStr {vs : List Val} (h : ∀ v ∈ vs, ∃ s, v = some (.str s)) : ∃ es, castAll asStr vs = .ok es ∧ es.length = vs.length := by
  obtain ⟨a, b, c, -⟩ := castAll_ok (f := asStr) (P := fun _ => True) (vs := vs) fun v hv => by obtain ⟨s, rfl⟩ := h v hv; exact ⟨s, rfl, trivial⟩
  exact ⟨a, b, c⟩

/-- A list `x (sep x)*`. -/
theorem sh_list {Q : Val → Prop} {r s : Nat} {nm ns : List Byte} {mn : Nat} {vs : List Val} (hs : dropped s = true) (hr : dropped r = false) (hQ : ∀ v, Good r v → Q v)
    (h : ShL Good [.ref r nm [], .rep (seq [.ref s ns [], .ref r nm []]) mn none none] vs) : mn + 1 ≤ vs.length ∧ ∀ v ∈ vs, Q v := by
  replace h := shL_ref h hr
  obtain ⟨v, b, h1, h2, rfl⟩ := h
  obtain ⟨c, b, h3, h4, rfl⟩ := shL_cons h2
  rw [shL_nil h4]
  obtain ⟨h5, h6⟩ := sh_zom (Q := Q) (fun vs h => by
    replace h := shL_drop (show ShL Good [_, _] vs from h) hs
    replace h := shL_ref h hr
    obtain ⟨v, b, h1, h2, rfl⟩ := h
    rw [shL_nil h2]
    exact ⟨v, rfl, hQ v h1⟩) h3
  refine ⟨by simp; exact h5, ?_⟩
  simp
  exact ⟨hQ v h1, h6⟩

theorem ok_Expression {vs : List Val} (h : Sh Good dExpression.ope vs) (tk : List (List Byte)) (sv : List Byte) (k : Nat) :
    ActOk U rExpression vs (act rExpression vs tk sv k) := by
  obtain ⟨h1, h2⟩ := sh_list (Q := IsOpe) (r := rSequence) rfl rfl (fun v h => h) (show ShL Good [gSequence, zom (seq [gSLASH, gSequence])] vs from h)
  show ActOk U _ _ (some (aExpression vs))
  match vs, h1, h2 with
  | [v], _, h2 =>
    obtain ⟨e, rfl, he⟩ := h2 v (by simp)
    exact ⟨e, rfl, he⟩
  | v :: w :: vs, _, h2 =>
    obtain ⟨es, e1, e2, e3⟩ := castOpe h2
    simp only [aExpression, e1]
    exact ⟨_, rfl, .cho (by rw [e2]; simp) e3⟩

theorem ok_Sequence {vs : List Val} (h : Sh Good dSequence.ope vs) (tk : List (List Byte)) (sv : List Byte) (k : Nat) :
    ActOk U rSequence vs (act rSequence vs tk sv k) := by
  obtain ⟨-, h2⟩ := sh_zom (Q := IsOpe) (fun vs h => by
    rcases (show Sh Good gCUT vs ∨ Sh Good gPrefix vs ∨ False from h) with h | h | h
    · exact sh_ref rfl h
    · exact sh_ref rfl h
    · cases h) (show Sh Good (zom (cho [gCUT, gPrefix])) vs from h)
  show ActOk U _ _ (some (aSequence vs))
  match vs, h2 with
  | [], _ => exact ⟨_, rfl, .not_ .lit⟩
  | [v], h2 =>
    obtain ⟨e, rfl, he⟩ := h2 v (by simp)
    exact ⟨e, rfl, he⟩
  | v :: w :: vs, h2 =>
    obtain ⟨es, e1, e2, e3⟩ := castOpe h2
    simp only [aSequence, e1]
    exact ⟨_, rfl, .seq (by rw [e2]; simp) e3⟩

theorem ok_Prefix {vs : List Val} (h : Sh Good dPrefix.ope vs) (tk : List (List Byte)) (sv : List Byte) (k : Nat) : ActOk U rPrefix vs (act rPrefix vs tk sv k) := by
  replace h := shL_cons (show ShL Good [opt (cho [gAND, gNOT]), gSuffixWithLabel] vs from h)
  obtain ⟨a, b, h1, h2, rfl⟩ := h
  obtain ⟨v, b, ⟨e, rfl, he⟩, h3, rfl⟩ := shL_ref h2 rfl
  rw [shL_nil h3]
  rcases sh_opt h1 with rfl | h1
  · exact ⟨e, rfl, he⟩
  · have : ∃ c, a = [some (.chr c)] := by
      rcases (show Sh Good gAND a ∨ Sh Good gNOT a ∨ False from h1) with h | h | h
      · obtain ⟨v, rfl, c, rfl⟩ := sh_ref rfl h; exact ⟨c, rfl⟩
      · obtain ⟨v, rfl, c, rfl⟩ := sh_ref rfl h; exact ⟨c, rfl⟩
      · cases h
    obtain ⟨c, rfl⟩ := this
    show ActOk U _ _ (some (if c = 38 then .ok (.ope (.and_ e)) else .ok (.ope (.not_ e))))
    split
    · exact ⟨_, rfl, .and_ he⟩
    · exact ⟨_, rfl, .not_ he⟩

theorem ok_SuffixWithLabel {vs : List Val} (h : Sh Good dSuffixWithLabel.ope vs) (tk : List (List Byte)) (sv : List Byte) (k : Nat) :
    ActOk U rSuffixWithLabel vs (act rSuffixWithLabel vs tk sv k) := by
  replace h := shL_ref (show ShL Good [gSuffix, opt (seq [gLABEL, gIdentifier])] vs from h) rfl
  obtain ⟨v, b, ⟨e, rfl, he⟩, h, rfl⟩ := h
  replace h := shL_cons h
  obtain ⟨a, b, h1, h2, rfl⟩ := h
  rw [shL_nil h2]
  rcases sh_opt h1 with rfl | h1
  · exact ⟨e, rfl, he⟩
  · obtain ⟨v, b, ⟨l, rfl⟩, h, rfl⟩ := shL_ref (shL_drop (show ShL Good [gLABEL, gIdentifier] a from h1) rfl) rfl
    rw [shL_nil h]
    exact ⟨_, rfl, .label he⟩

theorem ok_Suffix {vs : List Val} (h : Sh Good dSuffix.ope vs) (tk : List (List Byte)) (sv : List Byte) (k : Nat) : ActOk U rSuffix vs (act rSuffix vs tk sv k) := by
  replace h := shL_ref (show ShL Good [gPrimary, opt gLoop] vs from h) rfl
  obtain ⟨v, b, ⟨e, rfl, he⟩, h, rfl⟩ := h
  replace h := shL_cons h
  obtain ⟨a, b, h1, h2, rfl⟩ := h
  rw [shL_nil h2]
  rcases sh_opt h1 with rfl | h1
  · exact ⟨e, rfl, he⟩
  · obtain ⟨v, rfl, mn, mx, rfl, hmn, hmx⟩ := sh_ref rfl h1
    exact ⟨_, rfl, .rep he hmn hmx⟩

theorem sizeMax_pos : 1 < sizeMax := by decide

theorem bound_lt {n m : Nat} (hn : n ≤ sizeMax) (h : bound n = some m) : m < sizeMax := by
  unfold bound at h
  split at h
  · cases h
  · cases h; omega

theorem ok_Loop {vs : List Val} {t n k : Nat} (h : OpeSh Good dLoop.ope vs t n k) (tk : List (List Byte)) (sv : List Byte) : ActOk U rLoop vs (act rLoop vs tk sv k) := by
  obtain ⟨e', h1, h2⟩ := h.alt _ _ _ rfl
  clear h
  show ActOk U _ _ (some (aLoop vs k))
  match k, h1 with
  | 0, _ => exact ⟨_, _, rfl, by decide, by intro m e; cases e; decide⟩
  | 1, _ => exact ⟨_, _, rfl, by decide, by intro m e; cases e⟩
  | 2, _ => exact ⟨_, _, rfl, by decide, by intro m e; cases e⟩
  | 3, h1 =>
    cases h1
    obtain ⟨v, rfl, a, b, rfl, ha, hb⟩ := sh_ref (r := rRepetition) rfl h2
    exact ⟨_, _, rfl, ha, fun m e => bound_lt hb e⟩
  | k + 4, h1 => simp at h1

theorem ok_Primary {vs : List Val} {t n k : Nat} (h : OpeSh Good dPrimary.ope vs t n k) (tk : List (List Byte)) (sv : List Byte) :
    ActOk U rPrimary vs (act rPrimary vs tk sv k) := by
  obtain ⟨e', h1, h2⟩ := h.alt _ _ _ rfl
  clear h
  have one : ∀ {r nm}, dropped r = false → (∀ v, Good r v → IsOpe v) → Sh Good (.ref r nm []) vs → ∃ e, vs = [some (.ope e)] ∧ Regular e := by
    intro r nm hd hv h
    obtain ⟨v, rfl, h'⟩ := sh_ref hd h
    replace h := h'
    obtain ⟨e, rfl, he⟩ := hv v h
    exact ⟨e, rfl, he⟩
  have brack : ∀ {a b na nb}, dropped a = true → dropped b = true → Sh Good (seq [.ref a na [], gExpression, .ref b nb []]) vs →
      ∃ e, vs = [some (.ope e)] ∧ Regular e := by
    intro a b na nb ha hb h
    replace h := shL_ref (shL_drop (show ShL Good [_, _, _] vs from h) ha) rfl
    obtain ⟨v, c, ⟨e, rfl, he⟩, h, rfl⟩ := h
    rw [shL_nil (shL_drop h hb)]
    exact ⟨e, rfl, he⟩
  show ActOk U _ _ (some (aPrimary vs k))
  match k, h1 with
  | 0, h1 =>
    cases h1
    obtain ⟨v0, b, ⟨ig, rfl⟩, h, rfl⟩ := shL_ref (show ShL Good [gIgnore, gIdentCont, opt gArguments, gSpacing, npd (seq [opt gParameters, gLEFTARROW])] vs from h2) rfl
    replace h := shL_ref h rfl
    obtain ⟨v1, b, ⟨nm, rfl⟩, h, rfl⟩ := h
    replace h := shL_cons h
    obtain ⟨a, b, h3, h, rfl⟩ := h
    replace h := shL_nil (shL_none (shL_drop h rfl) (fun a h => h))
    subst h
    rcases sh_opt h3 with rfl | h3
    · show IsOpe (some (.ope (if ig then .ign (if nm = recoverName then Src.recov nm false [] else Src.ref nm false []) else
        (if nm = recoverName then Src.recov nm false [] else Src.ref nm false []))))
      by_cases hr : nm = recoverName
      · rw [if_pos hr, hr]
        split
        · exact ⟨_, rfl, .ign (.inr rfl) .recov⟩
        · exact ⟨_, rfl, .recov⟩
      · rw [if_neg hr]
        split
        · exact ⟨_, rfl, .ign (.inl rfl) (.ref hr)⟩
        · exact ⟨_, rfl, .ref hr⟩
    · obtain ⟨v, rfl, as, rfl, ha0, has⟩ := sh_ref rfl h3
      show IsOpe (some (.ope (if ig then .ign (if nm = recoverName then Src.recov nm true as else Src.ref nm true as) else
        (if nm = recoverName then Src.recov nm true as else Src.ref nm true as))))
      by_cases hr : nm = recoverName
      · rw [if_pos hr, hr]
        split
        · exact ⟨_, rfl, .ign (.inr rfl) (.recovCall ha0 has)⟩
        · exact ⟨_, rfl, .recovCall ha0 has⟩
      · rw [if_neg hr]
        split
        · exact ⟨_, rfl, .ign (.inl rfl) (.call hr ha0 has)⟩
        · exact ⟨_, rfl, .call hr ha0 has⟩
  | 1, h1 =>
    cases h1
    obtain ⟨e, rfl, he⟩ := brack rfl rfl h2
    exact ⟨_, rfl, he⟩
  | 2, h1 =>
    cases h1
    obtain ⟨e, rfl, he⟩ := brack rfl rfl h2
    exact ⟨_, rfl, .tok he⟩
  | 3, h1 =>
    cases h1
    obtain ⟨e, rfl, he⟩ := one (r := rCapScope) rfl (fun v h => h) h2
    exact ⟨_, rfl, .capScope he⟩
  | 4, h1 =>
    cases h1
    obtain ⟨v, c, ⟨nm, rfl⟩, h, rfl⟩ := shL_ref (show ShL Good [gBeginCap, gExpression, gEndCap] vs from h2) rfl
    replace h := shL_ref h rfl
    obtain ⟨v, c, ⟨e, rfl, he⟩, h, rfl⟩ := h
    rw [shL_nil (shL_drop h rfl)]
    exact ⟨_, rfl, .cap he⟩
  | 5, h1 => cases h1; obtain ⟨e, rfl, he⟩ := one (r := rBackRef) rfl (fun v h => h) h2; exact ⟨_, rfl, he⟩
  | 6, h1 => cases h1; obtain ⟨e, rfl, he⟩ := one (r := rDictionaryI) rfl (fun v h => h) h2; exact ⟨_, rfl, he⟩
  | 7, h1 => cases h1; obtain ⟨e, rfl, he⟩ := one (r := rLiteralI) rfl (fun v h => h) h2; exact ⟨_, rfl, he⟩
  | 8, h1 => cases h1; obtain ⟨e, rfl, he⟩ := one (r := rDictionary) rfl (fun v h => h) h2; exact ⟨_, rfl, he⟩
  | 9, h1 => cases h1; obtain ⟨e, rfl, he⟩ := one (r := rLiteral) rfl (fun v h => h) h2; exact ⟨_, rfl, he⟩
  | 10, h1 => cases h1; obtain ⟨e, rfl, he⟩ := one (r := rNegatedClassI) rfl (fun v h => h) h2; exact ⟨_, rfl, he⟩
  | 11, h1 => cases h1; obtain ⟨e, rfl, he⟩ := one (r := rNegatedClass) rfl (fun v h => h) h2; exact ⟨_, rfl, he⟩
  | 12, h1 => cases h1; obtain ⟨e, rfl, he⟩ := one (r := rClassI) rfl (fun v h => h) h2; exact ⟨_, rfl, he⟩
  | 13, h1 => cases h1; obtain ⟨e, rfl, he⟩ := one (r := rClass) rfl (fun v h => h) h2; exact ⟨_, rfl, he⟩
  | 14, h1 => cases h1; obtain ⟨e, rfl, he⟩ := one (r := rDOT) rfl (fun v h => h) h2; exact ⟨_, rfl, he⟩
  | k + 15, h1 => simp at h1

theorem unescape_cases (s : List Byte) : (∃ r, unescape s = .ok r) ∨ unescape s = .error .ub := by
  unfold unescape
  split
  · exact .inl ⟨_, rfl⟩
  · exact .inr rfl

theorem ok_lit {r : Nat} {vs : List Val} {tk : List (List Byte)} (ic : Bool) (hr : ∀ v, IsOpe v → Good r v) (hu : ¬ U → ∀ t ∈ tk, ∃ s, unescape t = .ok s) (h : 1 ≤ tk.length) :
    ActOk U r vs (some (do .ok (.ope (.lit (← unescape (← frontTok tk)) ic)))) := by
  match tk, h with
  | t :: tk, _ =>
    rcases unescape_cases t with ⟨s, hs⟩ | hs
    · simp only [frontTok, bind, Except.bind, hs]
      exact hr _ ⟨_, rfl, .lit⟩
    · simp only [frontTok, bind, Except.bind, hs]
      refine .inr ⟨rfl, ?_⟩
      apply Classical.byContradiction
      intro hU
      obtain ⟨s, h'⟩ := hu hU t (by simp)
      rw [hs] at h'
      cases h'

theorem ok_litD {r : Nat} {vs : List Val} {tk : List (List Byte)} (hr : ∀ s, Good r (some (.str s))) (hu : ¬ U → ∀ t ∈ tk, ∃ s, unescape t = .ok s) (h : 1 ≤ tk.length) :
    ActOk U r vs (some (do .ok (.str (← unescape (← frontTok tk))))) := by
  match tk, h with
  | t :: tk, _ =>
    rcases unescape_cases t with ⟨s, hs⟩ | hs
    · simp only [frontTok, bind, Except.bind, hs]
      exact hr _
    · simp only [frontTok, bind, Except.bind, hs]
      refine .inr ⟨rfl, ?_⟩
      apply Classical.byContradiction
      intro hU
      obtain ⟨s, h'⟩ := hu hU t (by simp)
      rw [hs] at h'
      cases h'

theorem ok_dict {r s : Nat} {nm ns : List Byte} {vs : List Val} (ic : Bool) (hr : ∀ v, IsOpe v → Good r v) (hs : dropped s = true) {l : Nat} (hl : dropped l = false)
    (hQ : ∀ v, Good l v → ∃ s, v = some (.str s)) (h : ShL Good [.ref l nm [], oom (seq [.ref s ns [], .ref l nm []])] vs) :
    ActOk U r vs (some (do .ok (.ope (.dict (← castAll asStr vs) ic)))) := by
  obtain ⟨h1, h2⟩ := sh_list hs hl hQ h
  obtain ⟨es, e1, e2⟩ := castStr h2
  simp only [e1]
  exact hr _ ⟨_, rfl, .dict (by omega)⟩

theorem collect_ok : ∀ {vs : List Val}, (∀ v ∈ vs, IsRng v) → ∃ rs, collect vs = .ok rs ∧ (vs ≠ [] → rs ≠ []) ∧ ∀ r ∈ rs, r.1 ≤ r.2
  | [], _ => ⟨[], rfl, by simp, by simp⟩
  | v :: vs, h => by
    obtain ⟨rs, h1, h2, h3⟩ := collect_ok (vs := vs) fun v hv => h v (by simp [hv])
    rcases h v (by simp) with ⟨a, b, rfl, hab⟩ | ⟨rs', rfl, hn, hr⟩
    · refine ⟨(a, b) :: rs, by simp only [collect, h1]; rfl, by simp, ?_⟩
      intro r hr
      rcases List.mem_cons.mp hr with rfl | hr
      · exact hab
      · exact h3 r hr
    · refine ⟨rs' ++ rs, by simp only [collect, h1]; rfl, by simp [hn], ?_⟩
      intro r hr'
      rcases List.mem_append.mp hr' with h' | h'
      · exact hr r h'
      · exact h3 r h'

theorem ok_cls {r : Nat} {vs : List Val} (neg ic : Bool) (hr : ∀ v, IsOpe v → Good r v) (h : Sh Good (.tok (oom (seq [npd (.chr 93), gRange]))) vs) :
    ActOk U r vs (some (do .ok (.ope (.cls ⟨← collect vs, neg, ic⟩)))) := by
  obtain ⟨h1, h2⟩ := sh_zom (Q := IsRng) (fun vs h => by
    replace h := shL_ref (shL_none (show ShL Good [npd (.chr 93), gRange] vs from h) (fun a h => h)) rfl
    obtain ⟨v, b, hv, h, rfl⟩ := h
    rw [shL_nil h]
    exact ⟨v, rfl, hv⟩) (show Sh Good (oom (seq [npd (.chr 93), gRange])) vs from h)
  obtain ⟨rs, e1, e2, e3⟩ := collect_ok h2
  simp only [e1]
  exact hr _ ⟨_, rfl, .cls (e2 (by intro e; subst e; simp at h1)) e3⟩

theorem ok_Range {vs : List Val} {t n k : Nat} (h : OpeSh Good dRange.ope vs t n k) (tk : List (List Byte)) (sv : List Byte) : ActOk U rRange vs (act rRange vs tk sv k) := by
  obtain ⟨e', h1, h2⟩ := h.alt _ _ _ rfl
  clear h
  show ActOk U _ _ (some (aRange vs k))
  have one : ∀ {r nm}, dropped r = false → (∀ v, Good r v → IsRng v) → Sh Good (.ref r nm []) vs → ∃ v, vs = [some v] ∧ IsRng (some v) := by
    intro r nm hd hv h
    obtain ⟨v, rfl, h'⟩ := sh_ref hd h
    replace h := h'
    have := hv v h
    rcases hv v h with ⟨a, b, rfl, hab⟩ | ⟨rs, rfl, hrs⟩
    · exact ⟨_, rfl, this⟩
    · exact ⟨_, rfl, this⟩
  match k, h1 with
  | 0, h1 =>
    cases h1
    obtain ⟨v, b, ⟨s1, rfl⟩, h, rfl⟩ := shL_ref (show ShL Good [gChar, .chr 45, npd (.chr 93), gChar] vs from h2) rfl
    replace h := shL_none (shL_none h (fun a h => h)) (fun a h => h)
    replace h := shL_ref h rfl
    obtain ⟨v, b, ⟨s2, rfl⟩, h, rfl⟩ := h
    rw [shL_nil h]
    show ActOk U _ _ (some (if decodeOr0 s2 < decodeOr0 s1 then .error .syntaxErr else .ok (.rng (decodeOr0 s1, decodeOr0 s2))))
    split
    · exact .inl rfl
    · rename_i h
      exact .inl ⟨_, _, rfl, by omega⟩
  | 1, h1 =>
    cases h1
    obtain ⟨v, rfl, hv⟩ := one (r := rClassEscape) rfl (fun v h => h) h2
    exact hv
  | 2, h1 =>
    cases h1
    obtain ⟨v, rfl, hv⟩ := one (r := rPosixClass) rfl (fun v h => h) h2
    exact hv
  | 3, h1 =>
    cases h1
    obtain ⟨v, rfl, s, rfl⟩ := sh_ref (r := rChar) rfl h2
    exact .inl ⟨_, _, rfl, by omega⟩
  | k + 4, h1 => simp at h1

theorem predefined_ok : ∀ p ∈ predefined, p.2 ≠ [] ∧ (∀ r ∈ p.2, r.1 ≤ r.2) ∧ complement p.2 ≠ [] ∧ ∀ r ∈ complement p.2, r.1 ≤ r.2 := by decide +kernel

theorem lookup_mem [BEq α] [LawfulBEq α] {a : α} {b : β} : ∀ {l : List (α × β)}, l.lookup a = some b → (a, b) ∈ l
  | (a', b') :: l, h => by
    simp only [List.lookup] at h
    split at h
    · rename_i h'
      cases h
      simp at h'
      simp [h']
    · exact List.mem_cons_of_mem _ (lookup_mem h)

theorem predefined_rng {nm : String} {r : List Range} {c : Prop} [Decidable c] (h : (nm, r) ∈ predefined) : IsRng (some (.rngs (if c then complement r else r))) := by
  obtain ⟨h1, h2, h3, h4⟩ := predefined_ok _ h
  split
  · exact .inr ⟨_, rfl, h3, h4⟩
  · exact .inr ⟨_, rfl, h1, h2⟩

theorem ok_ClassEscape {vs : List Val} {sv : List Byte} (h : 2 ≤ sv.length) (tk : List (List Byte)) (k : Nat) : ActOk U rClassEscape vs (act rClassEscape vs tk sv k) := by
  show ActOk U _ _ (some (aClassEscape sv))
  unfold aClassEscape
  rw [List.getElem?_eq_getElem (by omega)]
  simp only
  cases hl : predefined.lookup (if sv[1] = 100 ∨ sv[1] = 68 then "digit" else if sv[1] = 115 ∨ sv[1] = 83 then "space" else "word") with
  | none =>
    exfalso
    revert hl
    split
    · decide
    · split <;> decide
  | some r => exact predefined_rng (lookup_mem hl)

theorem ok_PosixClass (vs : List Val) (sv : List Byte) (tk : List (List Byte)) (k : Nat) : ActOk U rPosixClass vs (act rPosixClass vs tk sv k) := by
  show ActOk U _ _ (some (aPosixClass sv))
  unfold aPosixClass
  simp only
  split
  · exact .inl rfl
  · rename_i r hr
    have := lookup_mem hr
    obtain ⟨p, hp, e⟩ := List.mem_map.mp this
    rw [← (Prod.mk.inj e).2]
    exact predefined_rng (nm := p.1) (c := decide (sv[2]? = some 94) = true) hp

theorem ok_RepetitionRange {vs : List Val} {t n k : Nat} (h : OpeSh Good dRepetitionRange.ope vs t n k) (tk : List (List Byte)) (sv : List Byte) :
    ActOk U rRepetitionRange vs (act rRepetitionRange vs tk sv k) := by
  obtain ⟨e', h1, h2⟩ := h.alt _ _ _ rfl
  clear h
  show ActOk U _ _ (some (aRepetitionRange vs k))
  match k, h1 with
  | 0, h1 =>
    cases h1
    obtain ⟨v, b, ⟨n1, rfl, hn1⟩, h, rfl⟩ := shL_ref (show ShL Good [gNumber, gCOMMA, gNumber] vs from h2) rfl
    replace h := shL_ref (shL_drop h rfl) rfl
    obtain ⟨v, b, ⟨n2, rfl, hn2⟩, h, rfl⟩ := h
    rw [shL_nil h]
    exact ⟨_, _, rfl, hn1, hn2⟩
  | 1, h1 =>
    cases h1
    obtain ⟨v, b, ⟨n1, rfl, hn1⟩, h, rfl⟩ := shL_ref (show ShL Good [gNumber, gCOMMA] vs from h2) rfl
    rw [shL_nil (shL_drop h rfl)]
    exact ⟨_, _, rfl, hn1, Nat.le_refl _⟩
  | 2, h1 =>
    cases h1
    obtain ⟨v, rfl, n1, rfl, hn1⟩ := sh_ref (r := rNumber) rfl h2
    exact ⟨_, _, rfl, hn1, hn1⟩
  | 3, h1 =>
    cases h1
    obtain ⟨v, b, ⟨n1, rfl, hn1⟩, h, rfl⟩ := shL_ref (shL_drop (show ShL Good [gCOMMA, gNumber] vs from h2) rfl) rfl
    rw [shL_nil h]
    exact ⟨_, _, rfl, Nat.zero_le _, hn1⟩
  | k + 4, h1 => simp at h1

theorem toNumber_le (s : List Byte) : toNumber s ≤ sizeMax := by
  unfold toNumber
  simp only
  split
  · assumption
  · exact Nat.zero_le _

theorem ok_chr {r : Nat} {vs : List Val} {sv : List Byte} {a : Act} (hr : ∀ c, Good r (some (.chr c))) (ha : ∀ c t, sv = c :: t → a = .ok (.chr c))
    (h : 1 ≤ sv.length) : ActOk U r vs (some a) := by
  match sv, h, ha with
  | c :: sv, _, ha => rw [ha c sv rfl]; exact hr c

theorem ok_Parameters {vs : List Val} (h : Sh Good dParameters.ope vs) (tk : List (List Byte)) (sv : List Byte) (k : Nat) :
    ActOk U rParameters vs (act rParameters vs tk sv k) := by
  replace h := shL_drop (show ShL Good [gOPEN, gIdentifier, zom (seq [gCOMMA, gIdentifier]), gCLOSE] vs from h) rfl
  replace h := shL_ref h rfl
  obtain ⟨v, b, hv, h, rfl⟩ := h
  replace h := shL_cons h
  obtain ⟨c, b, hc, h, rfl⟩ := h
  rw [shL_nil (shL_drop h rfl)]
  obtain ⟨h1, h2⟩ := sh_list (r := rIdentifier) (Q := fun v => ∃ s, v = some (.str s)) rfl rfl (fun v h => h)
    (show ShL Good [gIdentifier, zom (seq [gCOMMA, gIdentifier])] (v :: (c ++ [])) from ⟨[v], c ++ [], ⟨v, rfl, hv⟩, ⟨c, [], hc, rfl, rfl⟩, rfl⟩)
  obtain ⟨es, e1, e2⟩ := castStr h2
  simp only [act, e1]
  exact ⟨_, rfl, by intro e; subst e; simp at e2⟩

theorem ok_Arguments {vs : List Val} (h : Sh Good dArguments.ope vs) (tk : List (List Byte)) (sv : List Byte) (k : Nat) :
    ActOk U rArguments vs (act rArguments vs tk sv k) := by
  replace h := shL_drop (show ShL Good [gOPEN, gExpression, zom (seq [gCOMMA, gExpression]), gCLOSE] vs from h) rfl
  replace h := shL_ref h rfl
  obtain ⟨v, b, hv, h, rfl⟩ := h
  replace h := shL_cons h
  obtain ⟨c, b, hc, h, rfl⟩ := h
  rw [shL_nil (shL_drop h rfl)]
  obtain ⟨h1, h2⟩ := sh_list (r := rExpression) (Q := IsOpe) rfl rfl (fun v h => h)
    (show ShL Good [gExpression, zom (seq [gCOMMA, gExpression])] (v :: (c ++ [])) from ⟨[v], c ++ [], ⟨v, rfl, hv⟩, ⟨c, [], hc, rfl, rfl⟩, rfl⟩)
  obtain ⟨es, e1, e2, e3⟩ := castOpe h2
  simp only [act, e1]
  exact ⟨_, rfl, by intro e; subst e; simp at e2, e3⟩

theorem levels_ok : ∀ {l : List (List (List Byte))} (n : Nat), (∀ x ∈ l, ∃ a s, x = a :: s ∧ a ≠ []) → ∃ r, levels n l = .ok r
  | [], _, _ => ⟨[], rfl⟩
  | x :: l, n, h => by
    obtain ⟨a, s, rfl, ha⟩ := h x (by simp)
    obtain ⟨r, hr⟩ := levels_ok (l := l) (n + 1) fun x hx => h x (by simp [hx])
    cases a with
    | nil => exact absurd rfl ha
    | cons c a => exact ⟨_, by simp only [levels, hr]; rfl⟩

theorem ok_PrecedenceClimbing {vs : List Val} (h : Sh Good dPrecedenceClimbing.ope vs) (tk : List (List Byte)) (sv : List Byte) (k : Nat) :
    ActOk U rPrecedenceClimbing vs (act rPrecedenceClimbing vs tk sv k) := by
  replace h := shL_drop (shL_none (show ShL Good [lit [112, 114, 101, 99, 101, 100, 101, 110, 99, 101], gSpacesOom, gPrecedenceInfo, zom (seq [gSpacesOom, gPrecedenceInfo]),
      gSpacesZom] vs from h) (fun a h => h)) rfl
  replace h := shL_ref h rfl
  obtain ⟨v, b, hv, h, rfl⟩ := h
  replace h := shL_cons h
  obtain ⟨c, b, hc, h, rfl⟩ := h
  rw [shL_nil (shL_drop h rfl)]
  obtain ⟨h1, h2⟩ := sh_list (r := rPrecedenceInfo) (Q := fun v => ∃ x, v = some (.views x) ∧ ∃ a s, x = a :: s ∧ a ≠ []) rfl rfl
    (fun v ⟨a, s, e, h⟩ => ⟨_, e, a, s, rfl, h⟩)
    (show ShL Good [gPrecedenceInfo, zom (seq [gSpacesOom, gPrecedenceInfo])] (v :: (c ++ [])) from ⟨[v], c ++ [], ⟨v, rfl, hv⟩, ⟨c, [], hc, rfl, rfl⟩, rfl⟩)
  obtain ⟨xs, e1, -, e3⟩ := castAll_ok (f := asViews) (P := fun x => ∃ a s, x = a :: s ∧ a ≠ []) (vs := v :: (c ++ [])) fun v hv => by
    obtain ⟨x, rfl, hx⟩ := h2 v hv
    exact ⟨x, rfl, hx⟩
  obtain ⟨r, hr⟩ := levels_ok 1 e3
  simp only [act, e1, bind, Except.bind, hr]
  exact ⟨_, rfl⟩

theorem ok_PrecedenceInfo {vs : List Val} (h : Sh Good dPrecedenceInfo.ope vs) (tk : List (List Byte)) (sv : List Byte) (k : Nat) :
    ActOk U rPrecedenceInfo vs (act rPrecedenceInfo vs tk sv k) := by
  replace h := shL_ref (show ShL Good [gPrecedenceAssoc, oom (seq [.ign gSpacesOom, gPrecedenceOpe])] vs from h) rfl
  obtain ⟨v, b, ⟨a, rfl, ha⟩, h, rfl⟩ := h
  replace h := shL_cons h
  obtain ⟨c, b, hc, h, rfl⟩ := h
  rw [shL_nil h]
  obtain ⟨-, h2⟩ := sh_zom (Q := fun v => ∃ s, v = some (.view s)) (fun vs h => by
    replace h := shL_ref (shL_none (show ShL Good [.ign gSpacesOom, gPrecedenceOpe] vs from h) (fun a h => h)) rfl
    obtain ⟨v, b, hv, h, rfl⟩ := h
    rw [shL_nil h]
    exact ⟨v, rfl, hv⟩) hc
  obtain ⟨xs, e1, -, -⟩ := castAll_ok (f := asView) (P := fun _ => True) (vs := c ++ []) fun v hv => by
    obtain ⟨x, rfl⟩ := h2 v (by simpa using hv)
    exact ⟨x, rfl, trivial⟩
  simp only [act, castAll, e1]
  exact ⟨_, _, rfl, ha⟩

theorem ok_ErrorMessage {vs : List Val} (h : Sh Good dErrorMessage.ope vs) (tk : List (List Byte)) (sv : List Byte) (k : Nat) :
    ActOk U rErrorMessage vs (act rErrorMessage vs tk sv k) := by
  replace h := shL_drop (shL_none (show ShL Good [lit [101, 114, 114, 111, 114, 95, 109, 101, 115, 115, 97, 103, 101], gSpacesOom, gLiteralD, gSpacesZom] vs from h)
    (fun a h => h)) rfl
  replace h := shL_ref h rfl
  obtain ⟨v, b, ⟨s, rfl⟩, h, rfl⟩ := h
  exact ⟨_, rfl⟩

theorem ok_AstName {vs : List Val} (h : Sh Good dAstName.ope vs) (tk : List (List Byte)) (sv : List Byte) (k : Nat) :
    ActOk U rAstName vs (act rAstName vs tk sv k) := by
  replace h := shL_drop (shL_none (shL_drop (shL_none (show ShL Good [lit [97, 115, 116, 95, 110, 97, 109, 101], gSpacesZom, lit [58], gSpacesZom, gIdentifier, gSpacesZom]
    vs from h) (fun a h => h)) rfl) (fun a h => h)) rfl
  replace h := shL_ref h rfl
  obtain ⟨v, b, ⟨s, rfl⟩, h, rfl⟩ := h
  exact ⟨_, rfl⟩

theorem ok_Instruction {vs : List Val} (h : Sh Good dInstruction.ope vs) (tk : List (List Byte)) (sv : List Byte) (k : Nat) :
    ActOk U rInstruction vs (act rInstruction vs tk sv k) := by
  replace h := shL_drop (show ShL Good [gBeginBracket, opt (seq [gInstructionItem, zom (seq [gInstructionItemSeparator, gInstructionItem])]), gEndBracket] vs from h) rfl
  replace h := shL_cons h
  obtain ⟨a, b, h1, h, rfl⟩ := h
  rw [shL_nil (shL_drop h rfl)]
  have h2 : ∀ v ∈ a ++ [], ∃ i, v = some (.instr i) := by
    rcases sh_opt h1 with rfl | h1
    · simp
    · obtain ⟨-, h2⟩ := sh_list (r := rInstructionItem) (Q := fun v => ∃ i, v = some (.instr i)) rfl rfl (fun v h => h)
        (show ShL Good [gInstructionItem, zom (seq [gInstructionItemSeparator, gInstructionItem])] a from h1)
      simpa using h2
  obtain ⟨xs, e1, -, -⟩ := castAll_ok (f := asInstr) (P := fun _ => True) (vs := a ++ []) fun v hv => by
    obtain ⟨x, rfl⟩ := h2 v hv
    exact ⟨x, rfl, trivial⟩
  simp only [act, e1]
  exact ⟨_, rfl⟩

/-! ## Rules without action -/

theorem ok_first {r l : Nat} {nm : List Byte} {es : List Ope} {vs : List Val} (hd : dropped l = false) (hg : ∀ v, Good l v → Good r v)
    (h : ShL Good (.ref l nm [] :: es) vs) : ActOk U r vs none := by
  obtain ⟨v, b, hv, -, rfl⟩ := shL_ref h hd
  exact hg v hv

theorem ok_blank {r : Nat} {vs : List Val} (hg : Good r none) (h : ∀ v ∈ vs, v = none) : ActOk U r vs none := by
  match vs, h with
  | [], _ => exact hg
  | v :: vs, h => rw [ActOk, List.head?_cons, Option.getD_some, h v (by simp)]; exact hg

mutual
/-- Expressions that collect only values of the rules that give none. -/
def blank : Ope → Bool
  | .seq es _ => blankL es
  | .cho es _ _ => blankL es
  | .rep e _ _ _ => blank e
  | .tok e => blank e
  | .ref r _ _ => dropped r || decide (r ∈ [rIdentStart, rIdentRest, rLEFTARROW, rComment, rSpace, rEndOfLine, rEndOfFile, rIGNORE])
  | _ => true
def blankL : List Ope → Bool
  | [] => true
  | e :: es => blank e && blankL es
end

theorem good_blank {r : Nat} (h : r ∈ [rIdentStart, rIdentRest, rLEFTARROW, rComment, rSpace, rEndOfLine, rEndOfFile, rIGNORE]) (v : Val) : Good r v ↔ v = none := by
  simp only [List.mem_cons, List.not_mem_nil, or_false] at h
  rcases h with rfl | rfl | rfl | rfl | rfl | rfl | rfl | rfl <;> exact Iff.rfl

mutual
theorem blank_sh {H : Nat → Val → Prop} {P : Val → Prop} (hP : ∀ r ∈ [rIdentStart, rIdentRest, rLEFTARROW, rComment, rSpace, rEndOfLine, rEndOfFile, rIGNORE], ∀ v, H r v → P v) : ∀ (e : Ope) (vs : List Val), blank e = true → Sh H e vs → ∀ v ∈ vs, P v := by
  intro e vs hb h
  cases e with
  | seq es kw =>
    simp only [blank] at hb
    exact blank_shL hP es vs hb h
  | cho es l fs =>
    simp only [blank] at hb
    exact blank_shA hP es vs hb h
  | rep e mn mx sp =>
    simp only [blank] at hb
    obtain ⟨c, -, -, h3⟩ := h
    exact Times.mem (fun vs => blank_sh hP e vs hb) c vs h3
  | tok e =>
    simp only [blank] at hb
    exact blank_sh hP e vs hb h
  | ref r nm as =>
    simp only [Sh] at h
    split at h
    · subst h; simp
    · rename_i hd
      obtain ⟨v, rfl, hv⟩ := h
      simp only [blank, Bool.or_eq_true, decide_eq_true_eq] at hb
      rcases hb with hb | hb
      · exact absurd hb hd
      · intro w hw
        simp at hw
        rw [hw]
        exact hP r hb v hv
  | _ => rw [show vs = [] from h]; simp
theorem blank_shL {H : Nat → Val → Prop} {P : Val → Prop} (hP : ∀ r ∈ [rIdentStart, rIdentRest, rLEFTARROW, rComment, rSpace, rEndOfLine, rEndOfFile, rIGNORE], ∀ v, H r v → P v) : ∀ (es : List Ope) (vs : List Val), blankL es = true → ShL H es vs → ∀ v ∈ vs, P v := by
  intro es vs hb h
  cases es with
  | nil => rw [show vs = [] from h]; simp
  | cons e es =>
    simp only [blankL, Bool.and_eq_true] at hb
    obtain ⟨a, b, h1, h2, rfl⟩ := h
    intro v hv
    rcases List.mem_append.mp hv with hv | hv
    · exact blank_sh hP e a hb.1 h1 v hv
    · exact blank_shL hP es b hb.2 h2 v hv
theorem blank_shA {H : Nat → Val → Prop} {P : Val → Prop} (hP : ∀ r ∈ [rIdentStart, rIdentRest, rLEFTARROW, rComment, rSpace, rEndOfLine, rEndOfFile, rIGNORE], ∀ v, H r v → P v) : ∀ (es : List Ope) (vs : List Val), blankL es = true → ShA H es vs → ∀ v ∈ vs, P v := by
  intro es vs hb h
  cases es with
  | nil => cases h
  | cons e es =>
    simp only [blankL, Bool.and_eq_true] at hb
    rcases h with h | h
    · exact blank_sh hP e vs hb.1 h
    · exact blank_shA hP es vs hb.2 h
end

theorem ok_none {r : Nat} {d : Def} {vs : List Val} (hr : r ∈ [rIdentStart, rIdentRest, rLEFTARROW, rComment, rSpace, rEndOfLine, rEndOfFile, rIGNORE])
    (hb : blank d.ope = true) (h : Sh Good d.ope vs) : ActOk U r vs none :=
  ok_blank ((good_blank hr none).mpr rfl) (blank_sh (fun r hr v => (good_blank hr v).mp) _ _ hb h)

theorem ok_InstructionItem {vs : List Val} (h : Sh Good dInstructionItem.ope vs) : ActOk U rInstructionItem vs none := by
  rcases (show Sh Good gPrecedenceClimbing vs ∨ Sh Good gErrorMessage vs ∨ Sh Good gNoAstOpt vs ∨ Sh Good gNoWhitespace vs ∨ Sh Good gAstName vs ∨ False from h)
    with h | h | h | h | h | h
  · obtain ⟨v, rfl, hv⟩ := sh_ref rfl h; exact hv
  · obtain ⟨v, rfl, hv⟩ := sh_ref rfl h; exact hv
  · obtain ⟨v, rfl, hv⟩ := sh_ref rfl h; exact hv
  · obtain ⟨v, rfl, hv⟩ := sh_ref rfl h; exact hv
  · obtain ⟨v, rfl, hv⟩ := sh_ref rfl h; exact hv
  · cases h

theorem ok_PrecedenceAssoc {vs : List Val} {tk : List (List Byte)} {sv : List Byte} (k : Nat) (h0 : tk = []) (h : 1 ≤ sv.length) :
    ActOk U rPrecedenceAssoc vs (act rPrecedenceAssoc vs tk sv k) := by
  subst h0
  exact ⟨sv, rfl, by intro e; subst e; simp at h⟩

theorem cls_vals {e : Ope} {t : Ope} {vs : List Val} (h : ShL Good [e, t, gSpacing] vs) (ht : ∀ a, Sh Good t a → a = []) : Sh Good e vs := by
  obtain ⟨a, b, h1, h2, rfl⟩ := shL_cons h
  have := shL_nil (shL_drop (shL_none h2 ht) rfl)
  subst this
  simpa using h1

theorem ok_Char (vs : List Val) (sv : List Byte) (hu : ¬ U → ∃ s, unescape sv = .ok s) (tk : List (List Byte)) (k : Nat) : ActOk U rChar vs (act rChar vs tk sv k) := by
  show ActOk U _ _ (some (do .ok (.str (← unescape sv))))
  rcases unescape_cases sv with ⟨s, hs⟩ | hs
  · rw [hs]; exact ⟨_, rfl⟩
  · rw [hs]
    refine .inr ⟨rfl, ?_⟩
    apply Classical.byContradiction
    intro hU
    obtain ⟨s, h'⟩ := hu hU
    rw [hs] at h'
    cases h'

theorem act_ok {d : Def} {vs : List Val} {tk : List (List Byte)} {sv : List Byte} {k : Nat} : ∀ (r : Nat), metaRules[r]? = some d → dropped r = false →
    OpeSh Good d.ope vs tk.length sv.length k → (¬ U → (r = rChar → ∃ s, unescape sv = .ok s) ∧
      (r ∈ [rLiteral, rLiteralI, rLiteralD, rLiteralID] → ∀ t ∈ tk, ∃ s, unescape t = .ok s)) → ActOk U r vs (act r vs tk sv k)
  | 0, hd, _, h, hu => by cases hd; exact ok_Grammar h.vals tk sv k
  | 1, hd, _, h, hu => by cases hd; exact ok_Definition h.vals tk sv k
  | 2, hd, _, h, hu => by cases hd; exact ok_Expression h.vals tk sv k
  | 3, hd, _, h, hu => by cases hd; exact ok_Sequence h.vals tk sv k
  | 4, hd, _, h, hu => by cases hd; exact ok_Prefix h.vals tk sv k
  | 5, hd, _, h, hu => by cases hd; exact ok_SuffixWithLabel h.vals tk sv k
  | 6, hd, _, h, hu => by cases hd; exact ok_Suffix h.vals tk sv k
  | 7, hd, _, h, hu => by cases hd; exact ok_Loop h tk sv
  | 8, hd, _, h, hu => by cases hd; exact ok_Primary h tk sv
  | 9, hd, _, h, hu => by cases hd; exact ok_first (l := rIdentCont) rfl (fun v h => h) h.vals
  | 10, hd, _, h, hu => by cases hd; exact ⟨_, rfl⟩
  | 11, hd, _, h, hu => by cases hd; exact ok_none (d := dIdentStart) (by decide) rfl h.vals
  | 12, hd, _, h, hu => by cases hd; exact ok_none (d := dIdentRest) (by decide) rfl h.vals
  | 13, hd, _, h, hu => by cases hd; exact ok_dict (r := rDictionary) (l := rLiteralD) false (fun v h => h) rfl rfl (fun v h => h) h.vals
  | 14, hd, _, h, hu => by cases hd; exact ok_dict (r := rDictionaryI) (l := rLiteralID) true (fun v h => h) rfl rfl (fun v h => h) h.vals
  | 15, hd, _, h, hu => by cases hd; exact ok_lit (r := rLiteral) false (fun v h => h) (fun h => (hu h).2 (by decide)) h.toks
  | 16, hd, _, h, hu => by cases hd; exact ok_litD (r := rLiteralD) (fun s => ⟨s, rfl⟩) (fun h => (hu h).2 (by decide)) h.toks
  | 17, hd, _, h, hu => by cases hd; exact ok_lit (r := rLiteralI) true (fun v h => h) (fun h => (hu h).2 (by decide)) h.toks
  | 18, hd, _, h, hu => by cases hd; exact ok_litD (r := rLiteralID) (fun s => ⟨s, rfl⟩) (fun h => (hu h).2 (by decide)) h.toks
  | 19, hd, _, h, hu => by cases hd; exact ok_cls (r := rClass) false false (fun v h => h) (cls_vals (shL_none (shL_none h.vals (fun a h => h)) (fun a h => h)) (fun a h => h))
  | 20, hd, _, h, hu => by cases hd; exact ok_cls (r := rClassI) false true (fun v h => h) (cls_vals (shL_none (shL_none h.vals (fun a h => h)) (fun a h => h)) (fun a h => h))
  | 21, hd, _, h, hu => by cases hd; exact ok_cls (r := rNegatedClass) true false (fun v h => h) (cls_vals (shL_none h.vals (fun a h => h)) (fun a h => h))
  | 22, hd, _, h, hu => by cases hd; exact ok_cls (r := rNegatedClassI) true true (fun v h => h) (cls_vals (shL_none h.vals (fun a h => h)) (fun a h => h))
  | 23, hd, _, h, hu => by cases hd; exact ok_Range h tk sv
  | 24, hd, _, h, hu => by cases hd; exact ok_ClassEscape h.len tk k
  | 25, hd, _, h, hu => by cases hd; exact ok_PosixClass vs sv tk k
  | 26, hd, _, h, hu => by cases hd; exact ok_Char vs sv (fun h => (hu h).1 rfl) tk k
  | 27, hd, _, h, hu => by cases hd; exact ok_first (l := rRepetitionRange) rfl (fun v h => h) (shL_drop h.vals rfl)
  | 28, hd, _, h, hu => by cases hd; exact ok_RepetitionRange h tk sv
  | 29, hd, _, h, hu => by cases hd; exact ⟨_, rfl, toNumber_le _⟩
  | 30, hd, _, h, hu => by cases hd; exact ok_first (l := rExpression) rfl (fun v h => h) (shL_drop h.vals rfl)
  | 31, hd, _, h, hu => by cases hd; exact ok_none (d := dLEFTARROW) (by decide) rfl h.vals
  | 32, hd, hn, _, hu => by cases hn
  | 33, hd, hn, _, hu => by cases hn
  | 34, hd, _, h, hu => by cases hd; exact ok_chr (r := rAND) (fun c => ⟨c, rfl⟩) (by intro c t e; subst e; rfl) h.len
  | 35, hd, _, h, hu => by cases hd; exact ok_chr (r := rNOT) (fun c => ⟨c, rfl⟩) (by intro c t e; subst e; rfl) h.len
  | 36, hd, _, h, hu => by cases hd; exact ok_chr (r := rQUESTION) (fun c => ⟨c, rfl⟩) (by intro c t e; subst e; rfl) h.len
  | 37, hd, _, h, hu => by cases hd; exact ok_chr (r := rSTAR) (fun c => ⟨c, rfl⟩) (by intro c t e; subst e; rfl) h.len
  | 38, hd, _, h, hu => by cases hd; exact ok_chr (r := rPLUS) (fun c => ⟨c, rfl⟩) (by intro c t e; subst e; rfl) h.len
  | 39, hd, hn, _, hu => by cases hn
  | 40, hd, hn, _, hu => by cases hn
  | 41, hd, _, h, hu => by cases hd; exact ⟨_, rfl, .dot⟩
  | 42, hd, _, h, hu => by cases hd; exact ⟨_, rfl, .cut⟩
  | 43, hd, hn, _, hu => by cases hn
  | 44, hd, hn, _, hu => by cases hn
  | 45, hd, _, h, hu => by cases hd; exact ok_none (d := dComment) (by decide) rfl h.vals
  | 46, hd, _, h, hu => by cases hd; exact ok_none (d := dSpace) (by decide) rfl h.vals
  | 47, hd, _, h, hu => by cases hd; exact ok_none (d := dEndOfLine) (by decide) rfl h.vals
  | 48, hd, _, h, hu => by cases hd; exact ok_none (d := dEndOfFile) (by decide) rfl h.vals
  | 49, hd, hn, _, hu => by cases hn
  | 50, hd, hn, _, hu => by cases hn
  | 51, hd, hn, _, hu => by cases hn
  | 52, hd, hn, _, hu => by cases hn
  | 53, hd, _, h, hu => by cases hd; exact ⟨_, rfl⟩
  | 54, hd, hn, _, hu => by cases hn
  | 55, hd, _, h, hu => by cases hd; exact ⟨_, rfl, .bref⟩
  | 56, hd, _, h, hu => by cases hd; exact ok_none (d := dIGNORE) (by decide) rfl h.vals
  | 57, hd, _, h, hu => by cases hd; exact ⟨_, rfl⟩
  | 58, hd, _, h, hu => by cases hd; exact ok_Parameters h.vals tk sv k
  | 59, hd, _, h, hu => by cases hd; exact ok_Arguments h.vals tk sv k
  | 60, hd, hn, _, hu => by cases hn
  | 61, hd, _, h, hu => by cases hd; exact ok_Instruction h.vals tk sv k
  | 62, hd, _, h, hu => by cases hd; exact ok_InstructionItem h.vals
  | 63, hd, hn, _, hu => by cases hn
  | 64, hd, hn, _, hu => by cases hn
  | 65, hd, hn, _, hu => by cases hn
  | 66, hd, hn, _, hu => by cases hn
  | 67, hd, hn, _, hu => by cases hn
  | 68, hd, _, h, hu => by cases hd; exact ok_PrecedenceClimbing h.vals tk sv k
  | 69, hd, _, h, hu => by cases hd; exact ok_PrecedenceInfo h.vals tk sv k
  | 70, hd, _, h, hu => by cases hd; exact ⟨_, rfl⟩
  | 71, hd, _, h, hu => by cases hd; exact ok_PrecedenceAssoc k (List.length_eq_zero_iff.mp (h.noTok _ rfl)) h.len
  | 72, hd, _, h, hu => by cases hd; exact ok_ErrorMessage h.vals tk sv k
  | 73, hd, _, h, hu => by cases hd; exact ⟨_, rfl⟩
  | 74, hd, _, h, hu => by cases hd; exact ⟨_, rfl⟩
  | 75, hd, _, h, hu => by cases hd; exact ok_AstName h.vals tk sv k
  | r + 76, hd, _, _, hu => by cases hd

theorem hasAct_iff (r : Nat) (vs : List Val) (tk : List (List Byte)) (sv : List Byte) (k : Nat) : (act r vs tk sv k).isSome = hasAct r := by
  unfold hasAct act
  split <;> rfl

theorem has_first {r l : Nat} {nm : List Byte} {es : List Ope} {vs : List Val} (hd : dropped l = false) (hg : ∀ v, Good l v → Good r v)
    (h : ShL (Has U) (.ref l nm [] :: es) vs) : Has U r (vs.head?.getD none) := by
  obtain ⟨v, b, hv, -, rfl⟩ := shL_ref h hd
  exact hv.imp id (hg v)

theorem has_none {r : Nat} {d : Def} {vs : List Val} (hr : r ∈ [rIdentStart, rIdentRest, rLEFTARROW, rComment, rSpace, rEndOfLine, rEndOfFile, rIGNORE])
    (hb : blank d.ope = true) (h : Sh (Has U) d.ope vs) : Has U r (vs.head?.getD none) := by
  have h := blank_sh (P := fun v => (∃ b, v = some (.bad b) ∧ Excused U b) ∨ v = none) (fun r hr v h => h.imp id (good_blank hr v).mp) _ _ hb h
  match vs, h with
  | [], _ => exact .inr ((good_blank hr _).mpr rfl)
  | v :: vs, h => exact (h v (by simp)).imp id (good_blank hr _).mpr

theorem has_InstructionItem {vs : List Val} (h : Sh (Has U) dInstructionItem.ope vs) : Has U rInstructionItem (vs.head?.getD none) := by
  rcases (show Sh (Has U) gPrecedenceClimbing vs ∨ Sh (Has U) gErrorMessage vs ∨ Sh (Has U) gNoAstOpt vs ∨ Sh (Has U) gNoWhitespace vs ∨ Sh (Has U) gAstName vs ∨ False from h)
    with h | h | h | h | h | h
  · obtain ⟨v, rfl, hv⟩ := sh_ref rfl h; exact hv
  · obtain ⟨v, rfl, hv⟩ := sh_ref rfl h; exact hv
  · obtain ⟨v, rfl, hv⟩ := sh_ref rfl h; exact hv
  · obtain ⟨v, rfl, hv⟩ := sh_ref rfl h; exact hv
  · obtain ⟨v, rfl, hv⟩ := sh_ref rfl h; exact hv
  · cases h

theorem noAct_rules : ∀ r, r < 76 → dropped r = false → hasAct r = false →
    r ∈ [rIdentStart, rIdentRest, rLEFTARROW, rComment, rSpace, rEndOfLine, rEndOfFile, rIGNORE] ∨ r ∈ [rIdentifier, rRepetition, rCapScope, rInstructionItem] := by
  decide +kernel

theorem blank_rules : ∀ r ∈ [rIdentStart, rIdentRest, rLEFTARROW, rComment, rSpace, rEndOfLine, rEndOfFile, rIGNORE], ((metaRules[r]?).all fun d => blank d.ope) = true := by
  decide +kernel

theorem noAct_head {r : Nat} {d : Def} {vs : List Val} (hd : metaRules[r]? = some d) (hn : dropped r = false) (ha : hasAct r = false) (h : Sh (Has U) d.ope vs) :
    Has U r (vs.head?.getD none) := by
  rcases noAct_rules r (List.getElem?_eq_some_iff.mp hd).1 hn ha with hr | hr
  · have := blank_rules r hr
    rw [hd] at this
    exact has_none hr this h
  · simp only [List.mem_cons, List.not_mem_nil, or_false] at hr
    rcases hr with rfl | rfl | rfl | rfl <;> cases hd
    · exact has_first (l := rIdentCont) rfl (fun v h => h) h
    · exact has_first (l := rRepetitionRange) rfl (fun v h => h) (shL_drop h rfl)
    · exact has_first (l := rExpression) rfl (fun v h => h) (shL_drop h rfl)
    · exact has_InstructionItem h

/-- The values of the rules have the types the actions expect. -/
theorem typed_has {text : List Byte} {R : Nat → Nat → Nat → Prop} (hu : ¬ U → ∀ (r : Nat) (d : Def) (i j : Nat) (tk : List (Nat × Nat)), metaRules[r]? = some d →
    i ≤ j → Lg text R d.ope i j → (∀ p ∈ tk, TkIn text R d.ope p.1 p.2) → (r = rChar → ∃ s, unescape (slice text (i, j - i)) = .ok s) ∧
      (r ∈ [rLiteral, rLiteralI, rLiteralD, rLiteralID] → ∀ t ∈ tk, ∃ s, unescape (slice text t) = .ok s)) : Typed text R (Has U) := by
  intro r d i j g hd hij hle hl hk h hn
  rw [ruleValue_eq (simple_of hd).2.2.2]
  have hv : (ruleFrame r d i j g).vals = g.vals := by unfold ruleFrame; split <;> rfl
  have ht : (ruleFrame r d i j g).tokens = g.tokens := by unfold ruleFrame; split <;> rfl
  have hs : (ruleFrame r d i j g).sv = (i, j - i) := by unfold ruleFrame; split <;> rfl
  have hlen : (slice text (i, j - i)).length = j - i := by
    unfold slice
    simp only [List.length_take, List.length_drop]
    omega
  have h' : OpeSh (Has U) d.ope g.vals (g.tokens.map (slice text)).length (slice text (i, j - i)).length (ruleFrame r d i j g).choice := by
    rw [List.length_map, hlen]
    refine ⟨h.vals, h.len, h.toks, ?_, h.noTok⟩
    intro es l fs e
    have : (ruleFrame r d i j g).choice = g.choice := by
      unfold ruleFrame
      rw [e]
      rfl
    rw [this]
    exact h.alt es l fs e
  cases hp : poison g.vals with
  | some b =>
    by_cases ha : hasAct r = true
    · rw [if_pos ha]
      left
      refine ⟨b, ?_, h.poison hp⟩
      unfold onFrame
      rw [hv]
      have := hasAct_iff r g.vals ((ruleFrame r d i j g).tokens.map (slice text)) (slice text (ruleFrame r d i j g).sv) (ruleFrame r d i j g).choice
      rw [ha] at this
      obtain ⟨a, e⟩ := Option.isSome_iff_exists.mp this
      rw [e]
      simp [valueOf, hp]
    · rw [if_neg ha, hv]
      exact noAct_head hd hn (by simpa using ha) h.vals
  | none =>
    have hg := act_ok r hd hn (h'.good hp) (U := U) fun hU => by
      obtain ⟨h1, h2⟩ := hu hU r d i j g.tokens hd hij hl hk
      refine ⟨h1, fun hr t ht => ?_⟩
      obtain ⟨p, hp, rfl⟩ := List.mem_map.mp ht
      exact h2 hr p hp
    by_cases ha : hasAct r = true
    · rw [if_pos ha]
      unfold onFrame
      rw [hv, ht, hs]
      have := hasAct_iff r g.vals (g.tokens.map (slice text)) (slice text (i, j - i)) (ruleFrame r d i j g).choice
      rw [ha] at this
      obtain ⟨a, e⟩ := Option.isSome_iff_exists.mp this
      rw [e] at hg ⊢
      simp only [Option.map_some, valueOf, hp]
      cases a with
      | ok v => exact .inr hg
      | error b => exact .inl ⟨b, rfl, hg⟩
    · rw [if_neg ha, hv]
      have := hasAct_iff r g.vals (g.tokens.map (slice text)) (slice text (i, j - i)) (ruleFrame r d i j g).choice
      simp only [Bool.not_eq_true] at ha
      rw [ha] at this
      rw [show act r g.vals (g.tokens.map (slice text)) (slice text (i, j - i)) (ruleFrame r d i j g).choice = none from
        Option.not_isSome_iff_eq_none.mp (by rw [this]; simp)] at hg
      exact .inr hg

end Verif.Meta
