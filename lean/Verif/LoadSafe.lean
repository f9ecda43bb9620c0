import Verif.Load
/-!
# Loaded grammars run without undefined behaviour

The conditions that the loader does not check are collected in `Careful`.
-/

namespace Verif
open Out

variable {V : Type}

/-! ## Safety only depends on the heads -/

def Def.headS (d : Def) : Bool × List (List Byte) × Bool := (d.isMacro, d.params, d.ignoreSV)

def SameS (rs rs' : List Def) : Prop := ∀ r : Nat, (rs[r]?).map Def.headS = (rs'[r]?).map Def.headS

theorem SameS.get {rs rs' : List Def} (h : SameS rs rs') {r : Nat} {d : Def} (hd : rs[r]? = some d) :
    ∃ d', rs'[r]? = some d' ∧ d.isMacro = d'.isMacro ∧ d.params = d'.params ∧ d.ignoreSV = d'.ignoreSV := by
  have := h r
  rw [hd] at this
  cases hd' : rs'[r]? with
  | none => rw [hd'] at this; cases this
  | some d' =>
    rw [hd'] at this
    simp only [Option.map_some, Option.some.injEq, Def.headS, Prod.mk.injEq] at this
    exact ⟨d', rfl, this.1, this.2.1, this.2.2⟩

theorem SameS.none {rs rs' : List Def} (h : SameS rs rs') {r : Nat} (hd : rs[r]? = none) : rs'[r]? = none := by
  have := h r
  rw [hd] at this
  cases hd' : rs'[r]? with
  | none => rfl
  | some d' => rw [hd'] at this; cases this

theorem SameS.symm {rs rs' : List Def} (h : SameS rs rs') : SameS rs' rs := fun r => (h r).symm

theorem SameS.isSome {rs rs' : List Def} (h : SameS rs rs') (r : Nat) : (rs[r]?).isSome = (rs'[r]?).isSome := by
  cases hd : rs[r]? with
  | none => rw [h.none hd]
  | some d => obtain ⟨d', e, -⟩ := h.get hd; rw [e]; rfl

theorem SameS.all {rs rs' : List Def} (h : SameS rs rs') (nm : List Byte) (ha : (rs.all fun d => decide (nm ∉ d.params)) = true) :
    (rs'.all fun d => decide (nm ∉ d.params)) = true := by
  rw [List.all_eq_true] at ha ⊢
  intro d' hd'
  obtain ⟨r, hr⟩ := List.mem_iff_getElem?.1 hd'
  obtain ⟨d, e, -, h2, -⟩ := h.symm.get hr
  rw [h2]; exact ha d (List.mem_of_getElem? e)

theorem SameS.label {rs rs' : List Def} (h : SameS rs rs') (as : List Ope) :
    (match as with | .ref l _ _ :: _ => (rs[l]?).isSome | _ => false) = true →
    (match as with | .ref l _ _ :: _ => (rs'[l]?).isSome | _ => false) = true := by
  intro ha
  cases as with
  | nil => exact ha
  | cons a t =>
    cases a with
    | ref l _ _ => dsimp only at ha ⊢; rw [← h.isSome]; exact ha
    | _ => exact ha

mutual
theorem argSafe_heads {rs rs' : List Def} (h : SameS rs rs') (ps : List (List Byte)) (e : Ope) (he : e.argSafe rs ps = true) :
    e.argSafe rs' ps = true := by
  cases e with
  | seq es kw => exact argSafeL_heads h ps es he
  | cho es l fs => exact argSafeL_heads h ps es he
  | rep e a b c => exact argSafe_heads h ps e he
  | and_ e => exact argSafe_heads h ps e he
  | not_ e => exact argSafe_heads h ps e he
  | capScope e => exact argSafe_heads h ps e he
  | cap n e => exact argSafe_heads h ps e he
  | tok e => exact argSafe_heads h ps e he
  | ign e => exact argSafe_heads h ps e he
  | ws e => exact argSafe_heads h ps e he
  | ref r nm as =>
    simp only [Ope.argSafe] at he ⊢
    cases hd : rs[r]? with
    | none => rw [hd] at he; cases he
    | some d =>
      obtain ⟨d', e, h1, h2, -⟩ := h.get hd
      simp only [hd, e, h1, h2, Bool.or_eq_true, Bool.and_eq_true] at he ⊢
      rcases he with he | he
      · exact Or.inl he
      · exact Or.inr ⟨he.1, argSafeL_heads h [] as he.2⟩
  | recov r nm as =>
    simp only [Ope.argSafe, Bool.and_eq_true] at he ⊢
    refine ⟨⟨?_, h.label as he.1.2⟩, h.all nm he.2⟩
    have h0 := he.1.1
    cases hd : rs[r]? with
    | none => rw [hd] at h0; cases h0
    | some d =>
      obtain ⟨d', e, h1, h2, -⟩ := h.get hd
      simp only [hd, e, h1, h2, Bool.and_eq_true] at h0 ⊢
      exact ⟨h0.1, argSafeL_heads h [] as h0.2⟩
  | _ => exact he

theorem argSafeL_heads {rs rs' : List Def} (h : SameS rs rs') (ps : List (List Byte)) (es : List Ope) (he : Ope.argSafeL rs ps es = true) :
    Ope.argSafeL rs' ps es = true := by
  cases es with
  | nil => rfl
  | cons e es =>
    simp only [Ope.argSafeL, Bool.and_eq_true] at he ⊢
    exact ⟨argSafe_heads h ps e he.1, argSafeL_heads h ps es he.2⟩
end

theorem valueRef_heads {rs rs' : List Def} (h : SameS rs rs') (e : Ope) (he : e.valueRef rs = true) : e.valueRef rs' = true := by
  cases e with
  | ref r nm as =>
    simp only [Ope.valueRef] at he ⊢
    cases hd : rs[r]? with
    | none => rw [hd] at he; cases he
    | some d =>
      obtain ⟨d', e, h1, -, h3⟩ := h.get hd
      simp only [hd, e, h1, h3] at he ⊢
      exact he
  | _ => exact he

mutual
theorem safe_heads (o : SafeOpt) {rs rs' : List Def} (h : SameS rs rs') (m : Bool) (ps : List (List Byte)) (e : Ope)
    (he : e.safe o rs m ps = true) : e.safe o rs' m ps = true := by
  cases e with
  | seq es kw => exact safeL_heads o h m ps es he
  | cho es l fs => exact safeL_heads o h m ps es he
  | rep e a b c => exact safe_heads o h m ps e he
  | and_ e => exact safe_heads o h m ps e he
  | not_ e => exact safe_heads o h m ps e he
  | capScope e => exact safe_heads o h m ps e he
  | cap n e => exact safe_heads o h m ps e he
  | tok e => exact safe_heads o h m ps e he
  | ign e => exact safe_heads o h m ps e he
  | ws e => exact safe_heads o h m ps e he
  | ref r nm as =>
    simp only [Ope.safe] at he ⊢
    cases hd : rs[r]? with
    | none => rw [hd] at he; cases he
    | some d =>
      obtain ⟨d', e, h1, h2, -⟩ := h.get hd
      simp only [hd, e, h1, h2, Bool.or_eq_true, Bool.and_eq_true] at he ⊢
      rcases he with he | he
      · exact Or.inl he
      · exact Or.inr ⟨he.1, argSafeL_heads h ps as he.2⟩
  | recov r nm as =>
    simp only [Ope.safe, Bool.and_eq_true] at he ⊢
    refine ⟨?_, h.label as he.2⟩
    have h0 := he.1
    cases hd : rs[r]? with
    | none => rw [hd] at h0; cases h0
    | some d =>
      obtain ⟨d', e, h1, h2, -⟩ := h.get hd
      simp only [hd, e, h1, h2, Bool.and_eq_true] at h0 ⊢
      exact ⟨h0.1, argSafeL_heads h ps as h0.2⟩
  | prec a b info r =>
    simp only [Ope.safe, Bool.and_eq_true] at he ⊢
    refine ⟨⟨⟨he.1.1.1, valueRef_heads h a he.1.1.2⟩, valueRef_heads h b he.1.2⟩, ?_⟩
    have h0 := he.2
    cases hd : rs[r]? with
    | none => rw [hd] at h0; cases h0
    | some d =>
      obtain ⟨d', e, h1, -⟩ := h.get hd
      simp only [hd, e, h1] at h0 ⊢
      exact h0
  | _ => exact he

theorem safeL_heads (o : SafeOpt) {rs rs' : List Def} (h : SameS rs rs') (m : Bool) (ps : List (List Byte)) (es : List Ope)
    (he : Ope.safeL o rs m ps es = true) : Ope.safeL o rs' m ps es = true := by
  cases es with
  | nil => rfl
  | cons e es =>
    simp only [Ope.safeL, Bool.and_eq_true] at he ⊢
    exact ⟨safe_heads o h m ps e he.1, safeL_heads o h m ps es he.2⟩
end

/-! ## Without precedence climbing -/

mutual
theorem careful_noOpq (u : Bool) (rs : List Def) (e : Ope) (h : e.careful ⟨u, true⟩ rs = true) (hq : e.opqs = false) :
    e.careful ⟨u, false⟩ rs = true := by
  cases e with
  | seq es kw => exact carefulL_noOpq u rs es h hq
  | cho es l fs => exact carefulL_noOpq u rs es h hq
  | rep e a b c => exact careful_noOpq u rs e h hq
  | and_ e => exact careful_noOpq u rs e h hq
  | not_ e => exact careful_noOpq u rs e h hq
  | capScope e => exact careful_noOpq u rs e h hq
  | cap n e => exact careful_noOpq u rs e h hq
  | tok e => exact careful_noOpq u rs e h hq
  | ign e => exact careful_noOpq u rs e h hq
  | ws e => exact careful_noOpq u rs e h hq
  | prec a b info r => cases hq
  | _ => exact h

theorem carefulL_noOpq (u : Bool) (rs : List Def) (es : List Ope) (h : Ope.carefulL ⟨u, true⟩ rs es = true) (hq : Ope.opqsL es = false) :
    Ope.carefulL ⟨u, false⟩ rs es = true := by
  cases es with
  | nil => rfl
  | cons e es =>
    simp only [Ope.carefulL, Ope.opqsL, Bool.and_eq_true, Bool.or_eq_false_iff] at h hq ⊢
    exact ⟨careful_noOpq u rs e h.1 hq.1, carefulL_noOpq u rs es h.2 hq.2⟩
end

/-! ## The conditions the loader does not check -/

/-- `u`: user operators are allowed.  Asked of the start rule, of the rules a parse from it can reach, and of the two special rules. -/
structure Careful (u : Bool) (G : Parser) (a : Nat) : Prop where
  start : ∀ d, G.rules[a]? = some d → d.isMacro = false
  bodies : ∀ (r : Nat) (d : Def), Reaches G.rules (idRoots a (G.ws a) (G.word a)) r → G.rules[r]? = some d →
    d.ope.careful ⟨u, true⟩ G.rules = true
  lrMacros : ∀ (r : Nat) (d : Def), Reaches G.rules (idRoots a (G.ws a) (G.word a)) r → G.rules[r]? = some d →
    d.isMacro = true → d.isLR = true → d.ope.callsMacro G.rules = true
  special : ∀ (r : Nat) (d : Def), G.rules[r]? = some d → d.name = whitespaceName ∨ d.name = wordName →
    d.isMacro = false ∧ d.ope.callsMacro G.rules = false ∧ d.ope.careful ⟨u, true⟩ G.rules = true
  word : u = true → G.word a = none

/-- The rules of a configuration with the unreachable bodies removed. -/
def pruned (G : Parser) (a : Nat) (sh : Shared) : List Def :=
  (sh.rules G.rules).mapIdx fun r d =>
    if r ∈ (Verif.initIds G.rules a (G.ws a) (G.word a)).order then d else { d with ope := .cut }

theorem pruned_get (G : Parser) (a : Nat) (sh : Shared) (r : Nat) :
    (pruned G a sh)[r]? = (G.rules[r]?).map fun d =>
      { d with
        hasMacroRef := sh.mem.macroRef r
        ope := if r ∈ (Verif.initIds G.rules a (G.ws a) (G.word a)).order then d.ope else .cut } := by
  unfold pruned
  rw [List.getElem?_mapIdx, rules_get, Option.map_map]
  cases G.rules[r]? with
  | none => rfl
  | some d =>
    simp only [Option.map_some, Function.comp]
    split <;> rfl

theorem pruned_same (G : Parser) (a : Nat) (sh : Shared) : SameS G.rules (pruned G a sh) := by
  intro r
  rw [pruned_get, Option.map_map]
  cases G.rules[r]? <;> rfl

theorem pruned_agree {G : Parser} {sh : Shared} (c : Call V) :
    Agree (G.reach c.start) (sh.cfg G c) (pruned G c.start sh) sh.mem.id (sh.cfg G c).defCount := by
  have hmem : ∀ u, u ∈ (Verif.initIds G.rules c.start (G.ws c.start) (G.word c.start)).order →
      ∀ d, G.rules[u]? = some d → ∀ v ∈ d.ope.uses, G.reach c.start v := by
    intro u hu d hd v hv
    by_cases hl : v < G.rules.length
    · exact Or.inl ((initIds_mem ..).2 (.step ((initIds_mem ..).1 hu) hd hv hl))
    · exact Or.inr (by omega)
  constructor
  · intro r hr
    show _ = (sh.rules G.rules)[r]?
    rw [pruned_get, rules_get]
    rcases hr with hr | hr
    · simp only [if_pos hr]
    · rw [List.getElem?_eq_none_iff.2 hr]; rfl
  · intro r
    show _ = ((sh.rules G.rules)[r]?).map Def.erase
    rw [pruned_get, rules_get]
    cases G.rules[r]? with
    | none => rfl
    | some d => rfl
  · intro _ r d _ _; rfl
  · intro _ _ _ _ _; exact Iff.rfl
  · intro r d hr hd
    have hd' : (sh.rules G.rules)[r]? = some d := hd
    rw [rules_get] at hd'
    cases hg : G.rules[r]? with
    | none => rw [hg] at hd'; cases hd'
    | some d0 =>
      rw [hg] at hd'
      cases hd'
      rcases hr with hr | hr
      · exact hmem r hr d0 hg
      · rw [List.getElem?_eq_none_iff.2 hr] at hg; cases hg
  · intro w hw u hu
    have hw' : G.ws c.start = some w := hw
    by_cases hl : u < G.rules.length
    · exact Or.inl ((initIds_mem ..).2 (.base (by simp [idRoots, optUses, hw', hu]) hl))
    · exact Or.inr (by omega)
  · intro w hw u hu
    have hw' : G.word c.start = some w := hw
    by_cases hl : u < G.rules.length
    · exact Or.inl ((initIds_mem ..).2 (.base (by simp [idRoots, optUses, hw', hu]) hl))
    · exact Or.inr (by omega)

theorem opq_recognizes {s : IdSt} (h : s.opq = true) (c : Call V) : recognizes s c = false := by
  unfold recognizes; rw [h]; rfl

/-- The configuration of a first parse, with the unreachable rules emptied, is safe. -/
theorem safeCfg_of_load {S : Source} (hw : S.Wf) {G : Parser} {a : Nat} (hl : LoadOk S G a) {u : Bool} (hc : Careful u G a)
    (F : List Nat → Nat → List Bool) (c : Call V) (ha : c.start = a)
    (hu : u = true → ∀ id i f dt k, (c.user id i f dt).1 = some k → i + k ≤ c.input.length) :
    ∃ p, SafeCfg ⟨u, p⟩ (((({} : Shared).prepare F G a).cfg G c).swap (pruned G a (({} : Shared).prepare F G a))
      (({} : Shared).prepare F G a).mem.id ((({} : Shared).prepare F G a).cfg G c).defCount) := by
  subst ha
  have hinv := (inv_fresh G).prepare F c.start
  have hids := prepare_ids_self F G c.start (inv_fresh G)
  have hE := hl.env hw
  generalize hsh : ({} : Shared).prepare F G c.start = sh at hinv hids ⊢
  have hmr : ∀ r, r ∉ (Verif.initIds G.rules c.start (G.ws c.start) (G.word c.start)).order → sh.mem.macroRef r = true := by
    intro r hr
    rw [← hsh, prepare_mem]
    unfold Shared.initIds
    dsimp only
    simp only [RuleMem.assign, if_neg hr]
  have hid : ∀ r, sh.mem.id r < (Verif.initIds G.rules c.start (G.ws c.start) (G.word c.start)).order.length := by
    intro r
    rw [← hsh, prepare_mem]
    unfold Shared.initIds
    dsimp only
    by_cases hr : r ∈ (Verif.initIds G.rules c.start (G.ws c.start) (G.word c.start)).order
    · exact assign_id_lt _ _ hr
    · simp only [RuleMem.assign, if_neg hr]
      exact List.length_pos_of_mem ((initIds_mem ..).2 (.base (by simp [idRoots]) hl.start))
  -- whether precedence climbing can be reached
  have hp : ∃ p : Bool, (p = true → (Verif.initIds G.rules c.start (G.ws c.start) (G.word c.start)).opq = true) ∧
      (∀ (r : Nat) (d : Def), r ∈ (Verif.initIds G.rules c.start (G.ws c.start) (G.word c.start)).order → G.rules[r]? = some d →
        d.ope.careful ⟨u, p⟩ G.rules = true) ∧
      (∀ (r : Nat) (d : Def), G.rules[r]? = some d → (G.ws c.start = some (.ws (.ign d.ope)) ∧ d.name = whitespaceName) ∨
        (G.word c.start = some d.ope ∧ d.name = wordName) → d.ope.careful ⟨u, p⟩ G.rules = true) := by
    cases hq : (Verif.initIds G.rules c.start (G.ws c.start) (G.word c.start)).opq with
    | true =>
      refine ⟨true, fun _ => rfl, fun r d hr hd => hc.bodies r d ((initIds_mem ..).1 hr) hd, ?_⟩
      rintro r d hd (⟨-, h⟩ | ⟨-, h⟩)
      · exact (hc.special r d hd (Or.inl h)).2.2
      · exact (hc.special r d hd (Or.inr h)).2.2
    | false =>
      have hno : ¬ ((optOpqs (G.ws c.start) = true ∨ optOpqs (G.word c.start) = true) ∨
          ∃ (r : Nat) (d : Def), Reaches G.rules (idRoots c.start (G.ws c.start) (G.word c.start)) r ∧ G.rules[r]? = some d ∧ d.ope.opqs = true) := by
        rw [← initIds_opq, hq]; decide
      refine ⟨false, (by intro h; cases h), fun r d hr hd => ?_, ?_⟩
      · refine careful_noOpq u _ _ (hc.bodies r d ((initIds_mem ..).1 hr) hd) ?_
        cases ho : d.ope.opqs with
        | false => rfl
        | true => exact absurd (Or.inr ⟨r, d, (initIds_mem ..).1 hr, hd, ho⟩) hno
      · rintro r d hd (⟨h', h⟩ | ⟨h', h⟩)
        · refine careful_noOpq u _ _ (hc.special r d hd (Or.inl h)).2.2 ?_
          cases ho : d.ope.opqs with
          | false => rfl
          | true => exact absurd (Or.inl (Or.inl (by simp [optOpqs, h', Ope.opqs, ho]))) hno
        · refine careful_noOpq u _ _ (hc.special r d hd (Or.inr h)).2.2 ?_
          cases ho : d.ope.opqs with
          | false => rfl
          | true => exact absurd (Or.inl (Or.inr (by simp [optOpqs, h', ho]))) hno
  obtain ⟨p, hp1, hp2, hp3⟩ := hp
  have hsame := pruned_same G c.start sh
  refine ⟨p, ?_⟩
  constructor
  · intro hpk r s hs
    have hpk' : G.packrat c.start = true := hpk
    have h1 : (sh.cfg G c).slot (sh.mem.id r) = some s := hs
    show s < (sh.cfg G c).cachedCount
    unfold Shared.cfg at h1 ⊢
    simp only [Cfg.slot, hpk', if_true] at h1 ⊢
    have h2 : (compact ((sh.filt c.start).getD []) 0)[sh.mem.id r]? = some (some s) := by
      cases hx : (compact ((sh.filt c.start).getD []) 0)[sh.mem.id r]? with
      | none => rw [hx] at h1; simp at h1
      | some y => rw [hx] at h1; simpa using h1
    have := (compact_bounds _ _ _ _ h2).2
    simpa using this
  · intro _ r d _
    show sh.mem.id r < (sh.cfg G c).defCount
    unfold Shared.cfg
    rw [hids]
    exact hid r
  · intro r d hd
    have hd' : (pruned G c.start sh)[r]? = some d := hd
    show d.safe _ (pruned G c.start sh) = true
    rw [pruned_get] at hd'
    cases hg : G.rules[r]? with
    | none => rw [hg] at hd'; cases hd'
    | some d0 =>
      rw [hg] at hd'
      simp only [Option.map_some, Option.some.injEq] at hd'
      subst hd'
      unfold Def.safe
      by_cases hr : r ∈ (Verif.initIds G.rules c.start (G.ws c.start) (G.word c.start)).order
      · simp only [if_pos hr]
        have hflag := hinv.flag c.start _ hids r d0 hr hg
        have hlk := hl.linked r d0 hg
        have hcf := hp2 r d0 hr hg
        cases hm : d0.isMacro with
        | true =>
          simp only [if_true, Bool.and_eq_true, Bool.or_eq_true]
          constructor
          · cases hlr : d0.isLR with
            | false => exact Or.inl rfl
            | true => right; rw [hflag]; exact hc.lrMacros r d0 ((initIds_mem ..).1 hr) hg hm hlr
          · exact safe_heads _ hsame _ _ _
              (safe_of_linked hE ⟨u, p⟩ true d0.params (by intro h; cases h) d0.ope (fun _ => rfl) hlk.1 hcf hlk.2)
        | false =>
          simp only [Bool.false_eq_true, if_false]
          have hps := hl.params hw hg hm
          rw [hps] at hlk
          exact safe_heads _ hsame _ _ _
            (safe_of_linked hE ⟨u, p⟩ (sh.mem.macroRef r) [] (fun _ => rfl) d0.ope (fun h => hflag.trans h) hlk.1 hcf hlk.2)
      · simp only [if_neg hr]
        have hm := hmr r hr
        split
        · simp [hm, Ope.safe]
        · simp [Ope.safe]
  · intro w hw'
    have hw1 : G.ws c.start = some w := hw'
    obtain ⟨r, d, hd, hn, he⟩ := hl.ws w hw1
    obtain ⟨h1, h2, -⟩ := hc.special r d hd (Or.inl hn)
    have hlk := hl.linked r d hd
    rw [hl.params hw hd h1] at hlk
    subst he
    show d.ope.safe ⟨u, p⟩ (pruned G c.start sh) false [] = true
    exact safe_heads _ hsame _ _ _
      (safe_of_linked hE ⟨u, p⟩ false [] (fun _ => rfl) d.ope (fun h => by rw [h2] at h; cases h) hlk.1 (hp3 r d hd (Or.inl ⟨hw1, hn⟩)) hlk.2)
  · intro w hw'
    have hw1 : G.word c.start = some w := hw'
    obtain ⟨r, d, hd, hn, he⟩ := hl.word w hw1
    obtain ⟨h1, h2, -⟩ := hc.special r d hd (Or.inr hn)
    have hlk := hl.linked r d hd
    rw [hl.params hw hd h1] at hlk
    subst he
    show d.ope.safe ⟨u, p⟩ (pruned G c.start sh) false [] = true
    exact safe_heads _ hsame _ _ _
      (safe_of_linked hE ⟨u, p⟩ false [] (fun _ => rfl) d.ope (fun h => by rw [h2] at h; cases h) hlk.1 (hp3 r d hd (Or.inr ⟨hw1, hn⟩)) hlk.2)
  · intro h
    exact ⟨hc.word h, hu h⟩
  · intro h
    show (sh.cfg G c).recognizeOnly = false
    unfold Shared.cfg
    rw [hids]
    exact opq_recognizes (hp1 h) c
  · rfl

/-- **Parses with a loaded, careful grammar never touch undefined operations.** -/
theorem load_safe {S : Source} (hw : S.Wf) {G : Parser} {a : Nat} (hl : LoadOk S G a) {u : Bool} (hc : Careful u G a)
    (F : List Nat → Nat → List Bool) (n : Nat) (c : Call V) (ha : c.start = a)
    (hu : u = true → ∀ id i f dt k, (c.user id i f dt).1 = some k → i + k ≤ c.input.length) :
    NoUb c.log (Shared.parse F G n {} c).1 := by
  obtain ⟨p, hs⟩ := safeCfg_of_load hw hl hc F c ha hu
  subst ha
  have hst := hl.start
  have hrule : (pruned G c.start (({} : Shared).prepare F G c.start))[c.start]? =
      some { G.rules[c.start] with
        hasMacroRef := (({} : Shared).prepare F G c.start).mem.macroRef c.start
        ope := if c.start ∈ (Verif.initIds G.rules c.start (G.ws c.start) (G.word c.start)).order then G.rules[c.start].ope else .cut } := by
    rw [pruned_get, List.getElem?_eq_getElem hst]; rfl
  have := parserParse_safe n c.eoi c.log c.dt hs hrule (hc.start G.rules[c.start] (List.getElem?_eq_getElem hst))
  rw [parserParse_cg (pruned_agree c) (G.reach_start c.start)] at this
  exact this

/-- `Careful` (without user operators), asked of all rules. -/
def carefulAll (G : Parser) (a : Nat) : Bool :=
  ((G.rules[a]?).map fun d => !d.isMacro).getD true &&
  G.rules.all fun d => d.ope.careful ⟨false, true⟩ G.rules && (!(d.isMacro && d.isLR) || d.ope.callsMacro G.rules) &&
    (!(decide (d.name = whitespaceName) || decide (d.name = wordName)) || (!d.isMacro && !d.ope.callsMacro G.rules))

theorem carefulAll_ok {G : Parser} {a : Nat} (h : carefulAll G a = true) : Careful false G a := by
  unfold carefulAll at h
  rw [Bool.and_eq_true] at h
  obtain ⟨h1, h2⟩ := h
  have key : ∀ (r : Nat) (d : Def), G.rules[r]? = some d → d.ope.careful ⟨false, true⟩ G.rules = true ∧
      (d.isMacro = true → d.isLR = true → d.ope.callsMacro G.rules = true) ∧
      (d.name = whitespaceName ∨ d.name = wordName → d.isMacro = false ∧ d.ope.callsMacro G.rules = false) := by
    intro r d hd
    have := List.all_eq_true.1 h2 d (List.mem_of_getElem? hd)
    rw [Bool.and_eq_true, Bool.and_eq_true] at this
    obtain ⟨⟨k1, k2⟩, k3⟩ := this
    refine ⟨k1, fun hm hl => ?_, fun hn => ?_⟩
    · rw [hm, hl] at k2; simpa using k2
    · have hn' : (decide (d.name = whitespaceName) || decide (d.name = wordName)) = true := by simpa using hn
      rw [hn'] at k3
      simpa using k3
  constructor
  · intro d hd
    rw [hd] at h1
    simpa using h1
  · intro r d _ hd; exact (key r d hd).1
  · intro r d _ hd; exact (key r d hd).2.1
  · intro r d hd hn; exact ⟨((key r d hd).2.2 hn).1, ((key r d hd).2.2 hn).2, (key r d hd).1⟩
  · intro h; cases h

end Verif
