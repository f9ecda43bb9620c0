import Verif.Session
import Verif.Check
/-!
# Numbers of rules that are not reached

`initialize_definition_ids` (peglib.h 3331-3343) numbers the rules reached from the start rule; the others keep what they had, so that their numbers may
clash with those of the former. No parse looks at them: a parse is what it would be if they had numbers of their own, beyond the memo tables.
-/

namespace Verif
variable {V : Type}

/-- Numbers without clash. -/
structure Numbered (cfg : Cfg V) : Prop where
  slots : SlotsOk cfg
  ids : cfg.packrat = true → ∀ (r r' : Nat) (d d' : Def), cfg.rules[r]? = some d → cfg.rules[r']? = some d' → cfg.defId r = cfg.defId r' →
    r = r'
  idLt : cfg.packrat = true → ∀ (r : Nat) (d : Def), cfg.rules[r]? = some d → cfg.defId r < cfg.defCount
  slotInj : cfg.packrat = true → ∀ (r r' : Nat) (d d' : Def) (s : Nat), cfg.rules[r]? = some d → cfg.rules[r']? = some d' →
    cfg.slot (cfg.defId r) = some s → cfg.slot (cfg.defId r') = some s → r = r'

/-- The numbers do not depend on the rules. -/
theorem Numbered.of_len {cfg cfg' : Cfg V} (h : Numbered cfg) (hl : cfg'.rules.length = cfg.rules.length) (h1 : cfg'.packrat = cfg.packrat)
    (h2 : cfg'.defId = cfg.defId) (h3 : cfg'.defCount = cfg.defCount) (h4 : cfg'.packratIndex = cfg.packratIndex)
    (h5 : cfg'.cachedCount = cfg.cachedCount) : Numbered cfg' := by
  have hg : ∀ (r : Nat) (d : Def), cfg'.rules[r]? = some d → ∃ d', cfg.rules[r]? = some d' := fun r d hd =>
    ⟨_, List.getElem?_eq_getElem (hl ▸ (List.getElem?_eq_some_iff.mp hd).1)⟩
  have hs : ∀ k, cfg'.slot k = cfg.slot k := fun k => by unfold Cfg.slot; rw [h4]
  refine ⟨fun hp r s e => ?_, fun hp r r' d d' a b e => ?_, fun hp r d a => ?_, fun hp r r' d d' s a b e e' => ?_⟩
  · rw [hs, h2] at e; rw [h5]; exact h.slots (h1 ▸ hp) r s e
  · obtain ⟨_, a⟩ := hg r d a
    obtain ⟨_, b⟩ := hg r' d' b
    rw [h2] at e
    exact h.ids (h1 ▸ hp) r r' _ _ a b e
  · obtain ⟨_, a⟩ := hg r d a
    rw [h2, h3]; exact h.idLt (h1 ▸ hp) r _ a
  · obtain ⟨_, a⟩ := hg r d a
    obtain ⟨_, b⟩ := hg r' d' b
    rw [hs, h2] at e e'
    exact h.slotInj (h1 ▸ hp) r r' _ _ s a b e e'

/-- With such numbers, certificates without cuts left behind and with one mode for each rule pass the test for packrat parsing. -/
theorem Numbered.packOk {cfg : Cfg V} (h : Numbered cfg) {C : Cert} (hl : ∀ r, C.leak r = false)
    (hm : ∀ r m m', C.modes r m = true → C.modes r m' = true → m = m') : C.packOk cfg = true := by
  unfold Cert.packOk
  cases hp : cfg.packrat with
  | false => rfl
  | true =>
    simp only [Bool.not_true, Bool.false_or, List.all_eq_true, List.mem_range, Bool.and_eq_true, decide_eq_true_eq,
      Bool.or_eq_true, beq_iff_eq, bne_iff_ne, Option.isNone_iff_eq_none, Bool.not_eq_true']
    intro r hr
    have hd := List.getElem?_eq_getElem hr
    refine ⟨⟨h.idLt hp r _ hd, fun r' hr' => ?_⟩, Or.inr ⟨hl r, fun m _ m' _ => ?_⟩⟩
    · have hd' := List.getElem?_eq_getElem hr'
      by_cases e : r = r'
      · exact Or.inl e
      refine Or.inr ⟨fun e' => e (h.ids hp r r' _ _ hd hd' e'), ?_⟩
      cases hs : cfg.slot (cfg.defId r) with
      | none => exact Or.inl rfl
      | some s => exact Or.inr fun e' => e (h.slotInj hp r r' _ _ s hd hd' hs e'.symm)
    · cases h1 : C.modes r m with
      | false => exact Or.inl (Or.inl rfl)
      | true =>
        cases h2 : C.modes r m' with
        | false => exact Or.inl (Or.inr rfl)
        | true => exact Or.inr (hm r m m' h1 h2)

/-- The numbers, with others for what is not reached. -/
def Shared.renum (G : Parser) (sh : Shared) (a r : Nat) : Nat :=
  if r ∈ (Verif.initIds G.rules a (G.ws a) (G.word a)).order then sh.mem.id r
  else (compact ((sh.filt a).getD []) 0).length + (Verif.initIds G.rules a (G.ws a) (G.word a)).order.length + r

/-- The configuration of a parse with those numbers. -/
@[reducible] def Shared.repack (G : Parser) (sh : Shared) (c : Call V) : Cfg V :=
  (sh.cfg G c).swap (sh.cfg G c).rules (sh.renum G c.start)
    ((compact ((sh.filt c.start).getD []) 0).length + (Verif.initIds G.rules c.start (G.ws c.start) (G.word c.start)).order.length + G.rules.length)

theorem prepare_mem_id (F : List Nat → Nat → List Bool) (G : Parser) (a : Nat) {r : Nat}
    (hr : r ∈ (Verif.initIds G.rules a (G.ws a) (G.word a)).order) :
    (({} : Shared).prepare F G a).mem.id r = (Verif.initIds G.rules a (G.ws a) (G.word a)).order.idxOf r := by
  have : (({} : Shared).prepare F G a).mem = (({} : Shared).initIds G a).mem := by
    unfold Shared.prepare Shared.initFilt
    split
    · split <;> rfl
    · rfl
  rw [this]
  exact assign_id_mem _ _ hr

/-- A parse is what it would be with those numbers. -/
theorem parse_repack (F : List Nat → Nat → List Bool) (G : Parser) (n : Nat) (c : Call V) :
    parserParse n ((({} : Shared).prepare F G c.start).repack G c) c.start c.eoi c.log c.dt =
      parserParse n ((({} : Shared).prepare F G c.start).cfg G c) c.start c.eoi c.log c.dt := by
  refine parserParse_cg (R := G.reach c.start) ?_ (G.reach_start c.start) n c.eoi c.log c.dt
  have hids := prepare_ids_self F G c.start (inv_fresh G)
  have hnum : ∀ r ∈ (Verif.initIds G.rules c.start (G.ws c.start) (G.word c.start)).order, _ := fun r hr => prepare_mem_id F G c.start hr
  generalize hsh : ({} : Shared).prepare F G c.start = sh at hids hnum ⊢
  have hmem : ∀ u, u ∈ (Verif.initIds G.rules c.start (G.ws c.start) (G.word c.start)).order →
      ∀ d, G.rules[u]? = some d → ∀ v ∈ d.ope.uses, G.reach c.start v := by
    intro u hu d hd v hv
    by_cases hl : v < G.rules.length
    · exact Or.inl ((initIds_mem ..).2 (.step ((initIds_mem ..).1 hu) hd hv hl))
    · exact Or.inr (by omega)
  have hin : ∀ (r : Nat) (d : Def), G.reach c.start r → (sh.cfg G c).rules[r]? = some d →
      r ∈ (Verif.initIds G.rules c.start (G.ws c.start) (G.word c.start)).order := by
    intro r d hr hd
    rcases hr with hr | hr
    · exact hr
    · have hd' : (sh.rules G.rules)[r]? = some d := hd
      rw [rules_get, List.getElem?_eq_none_iff.2 hr] at hd'; cases hd'
  constructor
  · intro r _; rfl
  · intro r; rfl
  · intro _ r d hr hd
    unfold Shared.renum
    rw [if_pos (hin r d hr hd)]; rfl
  · intro _ r d hr hd
    have h1 := hin r d hr hd
    have h2 := List.idxOf_lt_length_iff.2 h1
    have h3 : (sh.cfg G c).defId r = _ := hnum r h1
    have h4 : (sh.cfg G c).defCount = (Verif.initIds G.rules c.start (G.ws c.start) (G.word c.start)).order.length := by
      unfold Shared.cfg; rw [hids]; rfl
    rw [h3, h4]
    omega
  · intro r d hr hd
    have hd' : (sh.rules G.rules)[r]? = some d := hd
    rw [rules_get] at hd'
    cases hg : G.rules[r]? with
    | none => rw [hg] at hd'; cases hd'
    | some d0 =>
      rw [hg] at hd'
      cases hd'
      rcases hr with hr | hr
      · exact hmem r hr d0 hg
      · rw [List.getElem?_eq_none_iff.2 hr] at hg; cases hg
  · intro w hw u hu
    have hw' : G.ws c.start = some w := hw
    by_cases hl : u < G.rules.length
    · exact Or.inl ((initIds_mem ..).2 (.base (by simp [idRoots, optUses, hw', hu]) hl))
    · exact Or.inr (by omega)
  · intro w hw u hu
    have hw' : G.word c.start = some w := hw
    by_cases hl : u < G.rules.length
    · exact Or.inl ((initIds_mem ..).2 (.base (by simp [idRoots, optUses, hw', hu]) hl))
    · exact Or.inr (by omega)

theorem slot_get {cfg : Cfg V} {ix : List (Option Nat)} (h : cfg.packratIndex = some ix) {k s : Nat} (hs : cfg.slot k = some s) :
    ix[k]? = some (some s) := by
  unfold Cfg.slot at hs
  rw [h] at hs
  simp only at hs
  cases hx : ix[k]? with
  | none => rw [hx] at hs; cases hs
  | some y => rw [hx] at hs; simpa using hs

/-- Those numbers do not clash. -/
theorem repack_numbered (F : List Nat → Nat → List Bool) (G : Parser) (c : Call V) :
    Numbered ((({} : Shared).prepare F G c.start).repack G c) := by
  have hids := prepare_ids_self F G c.start (inv_fresh G)
  have hnum : ∀ r ∈ (Verif.initIds G.rules c.start (G.ws c.start) (G.word c.start)).order, _ := fun r hr => prepare_mem_id F G c.start hr
  generalize hsh : ({} : Shared).prepare F G c.start = sh at hids hnum ⊢
  have hix : G.packrat c.start = true → (sh.repack G c).packratIndex = some (compact ((sh.filt c.start).getD []) 0) := by
    intro hp; show (sh.cfg G c).packratIndex = _; unfold Shared.cfg; simp only [hp, if_true]
  have hcc : G.packrat c.start = true → (sh.repack G c).cachedCount = ((sh.filt c.start).getD []).countP id := by
    intro hp; show (sh.cfg G c).cachedCount = _; unfold Shared.cfg; simp only [hp, if_true]
  have hlt : ∀ (r : Nat) (d : Def), (sh.repack G c).rules[r]? = some d → r < G.rules.length := by
    intro r d hd
    have hd : (sh.rules G.rules)[r]? = some d := hd
    rw [rules_get] at hd
    cases hg : G.rules[r]? with
    | none => rw [hg] at hd; cases hd
    | some d0 => exact (List.getElem?_eq_some_iff.1 hg).1
  have hinj : ∀ r r', sh.renum G c.start r = sh.renum G c.start r' → r = r' := by
    intro r r' h
    unfold Shared.renum at h
    by_cases h1 : r ∈ (Verif.initIds G.rules c.start (G.ws c.start) (G.word c.start)).order
    · have a1 := List.idxOf_lt_length_iff.2 h1
      rw [if_pos h1, hnum r h1] at h
      by_cases h2 : r' ∈ (Verif.initIds G.rules c.start (G.ws c.start) (G.word c.start)).order
      · rw [if_pos h2, hnum r' h2] at h
        exact (List.idxOf_inj h1).1 h
      · rw [if_neg h2] at h; omega
    · rw [if_neg h1] at h
      by_cases h2 : r' ∈ (Verif.initIds G.rules c.start (G.ws c.start) (G.word c.start)).order
      · have a1 := List.idxOf_lt_length_iff.2 h2
        rw [if_pos h2, hnum r' h2] at h; omega
      · rw [if_neg h2] at h; omega
  refine ⟨?_, fun _ r r' _ _ _ _ h => hinj r r' h, ?_, ?_⟩
  · intro hp r s hs
    have hp : G.packrat c.start = true := hp
    have := (compact_bounds _ _ _ _ (slot_get (hix hp) hs)).2
    rw [hcc hp]
    simpa using this
  · intro _ r d hd
    have h0 := hlt r d hd
    show sh.renum G c.start r < _
    unfold Shared.renum
    by_cases h1 : r ∈ (Verif.initIds G.rules c.start (G.ws c.start) (G.word c.start)).order
    · have a1 := List.idxOf_lt_length_iff.2 h1
      rw [if_pos h1, hnum r h1]; show _ < _ + _ + _; omega
    · rw [if_neg h1]; show _ < _ + _ + _; omega
  · intro hp r r' _ _ s _ _ hs hs'
    have hp : G.packrat c.start = true := hp
    exact hinj r r' (compact_inj _ _ _ _ _ (slot_get (hix hp) hs) (slot_get (hix hp) hs'))

end Verif
