import Verif.Congr
/-!
# A parser object over its life: several parses, one after the other

What a parse leaves behind in the (logically constant) grammar: the numbers and flags in the rules and the lazily initialised members of
the rule used as start rule (peglib.h 3285-3300, 3331-3345, 3348-3396, 4753-4915).

The packrat filter (4753-4903: which rules are worth caching) is a parameter `F` of the model: it may depend in any way on the current
numbers of the rules reachable from the start rule (the visitors follow references from the start rule, `%whitespace` and `%word`) and on
the start rule.  Of a tracer (`enable_trace`) only the presence is modelled: its callbacks get constant references.
-/

namespace Verif

variable {V : Type}

/-- The grammar after loading: the rules and, for every rule, the members used when a parse starts there (`parser` sets them for its start
rule only, peglib.h 6398-6416, 7000-7010).  `hasMacroRef` in `rules` is not used: the flag lives in `Shared`. -/
structure Parser where
  rules : List Def
  ws : Nat → Option Ope := fun _ => none
  word : Nat → Option Ope := fun _ => none
  packrat : Nat → Bool := fun _ => false

/-- peglib.h 3290-3320, 3348-3425: What parses leave in the grammar: `Definition::id`, `has_macro_ref`; per start rule the result of the numbering (`definition_ids_`,
`has_cut_`, `has_opaque_ope_`) and of the packrat filter, once initialised. -/
structure Shared where
  mem : RuleMem := {}
  ids : Nat → Option IdSt := fun _ => none
  filt : Nat → Option (List Bool) := fun _ => none

/-- peglib.h 6865-6960: One parse: start rule, input, end-of-input check, whether a logger is installed, whether a tracer is attached (1131-1135, 3308-3312), user datum, and the callbacks attached at that time. -/
structure Call (V : Type) where
  start : Nat
  input : List Byte
  eoi : Bool := true
  log : Bool := false
  trace : Bool := false
  dt : Option V := none
  action : Nat → Option (Frame V → Option V → Option V → Option V × Option V) := fun _ => none
  predicate : Nat → Option (Frame V → Option V → Bool × List Byte × Option V) := fun _ => none
  enter : Nat → Option (Nat → Option V → Option V) := fun _ => none
  leave : Nat → Option (Nat → Option Nat → Option V → Option V → Option V × Option V) := fun _ => none
  user : Nat → Nat → Frame V → Option V → Option Nat × Frame V × Option V := fun _ _ f d => (none, f, d)

/-- peglib.h 3331-3343 `initialize_definition_ids`: once per start rule. -/
def Shared.initIds (G : Parser) (a : Nat) (sh : Shared) : Shared :=
  match sh.ids a with
  | some _ => sh
  | none =>
    let s := Verif.initIds G.rules a (G.ws a) (G.word a)
    { sh with mem := sh.mem.assign s, ids := fun x => if x = a then some s else sh.ids x }

/-- peglib.h 4753-4915 `initialize_packrat_filter`: once per start rule, when packrat parsing is on. -/
def Shared.initFilt (F : List Nat → Nat → List Bool) (G : Parser) (a : Nat) (sh : Shared) : Shared :=
  if G.packrat a then
    match sh.filt a with
    | some _ => sh
    | none => { sh with filt := fun x => if x = a then some (F (((sh.ids a).getD {}).order.map sh.mem.id) a) else sh.filt x }
  else sh

/-- The initialisation before a parse from `a` (peglib.h 3351, 3363). -/
def Shared.prepare (F : List Nat → Nat → List Bool) (G : Parser) (a : Nat) (sh : Shared) : Shared :=
  (sh.initIds G a).initFilt F G a

/-- peglib.h 3383-3396: nothing observes values. -/
def recognizes (s : IdSt) (c : Call V) : Bool :=
  !s.opq && !(c.log || c.trace) && s.order.all fun r => (c.action r).isNone && (c.enter r).isNone && (c.leave r).isNone && (c.predicate r).isNone

/-- peglib.h 3306: The rules as the engine sees them: the flag is the shared one. -/
def Shared.rules (sh : Shared) (rs : List Def) : List Def :=
  rs.mapIdx fun r d => { d with hasMacroRef := sh.mem.macroRef r }

/-- peglib.h 1183-1186, 3348-3396: the context of a parse, from the shared state after `prepare`. -/
def Shared.cfg (G : Parser) (sh : Shared) (c : Call V) : Cfg V :=
  let s := (sh.ids c.start).getD {}
  let b := (sh.filt c.start).getD []
  { input := c.input
    rules := sh.rules G.rules
    action := c.action
    predicate := c.predicate
    enter := c.enter
    leave := c.leave
    user := c.user
    ws := G.ws c.start
    word := G.word c.start
    packrat := G.packrat c.start
    defCount := s.order.length
    defId := sh.mem.id
    packratIndex := if G.packrat c.start then some (compact b 0) else none
    cachedCount := if G.packrat c.start then b.countP id else s.order.length
    recognizeOnly := recognizes s c
    hasCut := s.hasCut
    needsRuleStack := c.log || c.trace }

/-- peglib.h 3348-3425, 6865-6960: One parse with the object in state `sh`: the answer and the state left behind. -/
def Shared.parse (F : List Nat → Nat → List Bool) (G : Parser) (n : Nat) (sh : Shared) (c : Call V) : Out (Answer V) × Shared :=
  let sh' := sh.prepare F G c.start
  (parserParse n (sh'.cfg G c) c.start c.eoi c.log c.dt, sh')

/-- The state after a series of parses. -/
def Shared.after (F : List Nat → Nat → List Bool) (G : Parser) (n : Nat) (sh : Shared) (h : List (Call V)) : Shared :=
  h.foldl (fun s c => (s.parse F G n c).2) sh

/-! ## Repeated parses from one start rule -/

theorem prepare_idem (F : List Nat → Nat → List Bool) (G : Parser) (a : Nat) (sh : Shared) :
    (sh.prepare F G a).prepare F G a = sh.prepare F G a := by
  have h1 : ((sh.prepare F G a).ids a).isSome = true := by
    unfold Shared.prepare Shared.initFilt Shared.initIds
    cases h : sh.ids a with
    | some s =>
      dsimp only
      split
      · split <;> simp [h]
      · simp [h]
    | none =>
      dsimp only
      split
      · split <;> simp
      · simp
  have h2 : (sh.prepare F G a).initIds G a = sh.prepare F G a := by
    conv => lhs; unfold Shared.initIds
    cases h : (sh.prepare F G a).ids a with
    | none => rw [h] at h1; cases h1
    | some s => rfl
  have h3 : (sh.prepare F G a).initFilt F G a = sh.prepare F G a := by
    conv => lhs; unfold Shared.initFilt
    by_cases hp : G.packrat a = true
    · rw [if_pos hp]
      have : ((sh.prepare F G a).filt a).isSome = true := by
        unfold Shared.prepare Shared.initFilt
        rw [if_pos hp]
        cases h : (sh.initIds G a).filt a with
        | some s => simp [h]
        | none => simp
      cases h : (sh.prepare F G a).filt a with
      | none => rw [h] at this; cases this
      | some s => rfl
    · rw [if_neg hp]
  show ((sh.prepare F G a).initIds G a).initFilt F G a = _
  rw [h2, h3]

theorem after_cons (F : List Nat → Nat → List Bool) (G : Parser) (n : Nat) (sh : Shared) (c : Call V) (h : List (Call V)) :
    sh.after F G n (c :: h) = (sh.prepare F G c.start).after F G n h := rfl

theorem after_append (F : List Nat → Nat → List Bool) (G : Parser) (n : Nat) (sh : Shared) (h h' : List (Call V)) :
    sh.after F G n (h ++ h') = (sh.after F G n h).after F G n h' := by
  unfold Shared.after; rw [List.foldl_append]

theorem after_sameStart (F : List Nat → Nat → List Bool) (G : Parser) (n : Nat) (a : Nat) (sh : Shared) (h : List (Call V))
    (hh : ∀ c ∈ h, c.start = a) : (sh.after F G n h).prepare F G a = sh.prepare F G a := by
  induction h generalizing sh with
  | nil => rfl
  | cons c h ih =>
    rw [after_cons, ih _ fun c hc => hh c (by simp [hc]), hh c (by simp), prepare_idem]

/-! ## What every state satisfies -/

/-- Initialised start rules have the result of the numbering; the flags of the rules they reach are right. -/
structure Shared.Inv (G : Parser) (sh : Shared) : Prop where
  ids : ∀ x s, sh.ids x = some s → s = Verif.initIds G.rules x (G.ws x) (G.word x)
  flag : ∀ x s, sh.ids x = some s → ∀ (r : Nat) (d : Def), r ∈ s.order → G.rules[r]? = some d → sh.mem.macroRef r = d.ope.callsMacro G.rules

theorem inv_fresh (G : Parser) : Shared.Inv G {} := ⟨(by intro x s h; cases h), (by intro x s h; cases h)⟩

theorem assign_flag (G : Parser) (m : RuleMem) (a : Nat) (r : Nat) (d : Def)
    (hr : r ∈ (Verif.initIds G.rules a (G.ws a) (G.word a)).order) (hd : G.rules[r]? = some d) :
    (m.assign (Verif.initIds G.rules a (G.ws a) (G.word a))).macroRef r = d.ope.callsMacro G.rules := by
  simp only [RuleMem.assign, if_pos hr]
  have := initIds_macroRef G.rules a (G.ws a) (G.word a) hr hd
  by_cases hm : d.ope.callsMacro G.rules = true
  · rw [hm]; exact decide_eq_true (this.2 hm)
  · rw [Bool.not_eq_true] at hm
    rw [hm]; exact decide_eq_false fun h => by rw [this.1 h] at hm; cases hm

theorem Shared.Inv.initIds {G : Parser} {sh : Shared} (h : sh.Inv G) (a : Nat) : (sh.initIds G a).Inv G := by
  unfold Shared.initIds
  cases ha : sh.ids a with
  | some s => exact h
  | none =>
    constructor
    · intro x s hs
      dsimp only at hs
      by_cases hx : x = a
      · subst hx; rw [if_pos rfl] at hs; cases hs; rfl
      · rw [if_neg hx] at hs; exact h.ids x s hs
    · intro x s hs r d hr hd
      dsimp only at hs ⊢
      by_cases hra : r ∈ (Verif.initIds G.rules a (G.ws a) (G.word a)).order
      · exact assign_flag G sh.mem a r d hra hd
      · by_cases hx : x = a
        · subst hx; rw [if_pos rfl] at hs; cases hs; exact absurd hr hra
        · rw [if_neg hx] at hs
          simp only [RuleMem.assign, if_neg hra]
          exact h.flag x s hs r d hr hd

theorem Shared.Inv.prepare {G : Parser} {sh : Shared} (h : sh.Inv G) (F : List Nat → Nat → List Bool) (a : Nat) : (sh.prepare F G a).Inv G := by
  have h1 := h.initIds a
  unfold Shared.prepare Shared.initFilt
  split
  · split
    · exact h1
    · exact ⟨h1.ids, h1.flag⟩
  · exact h1

theorem Shared.Inv.after {G : Parser} {sh : Shared} (h : sh.Inv G) (F : List Nat → Nat → List Bool) (n : Nat) (hs : List (Call V)) :
    (sh.after F G n hs).Inv G := by
  induction hs generalizing sh with
  | nil => exact h
  | cons c cs ih => rw [after_cons]; exact ih (h.prepare F c.start)

theorem prepare_ids (F : List Nat → Nat → List Bool) (G : Parser) (a : Nat) (sh : Shared) : (sh.prepare F G a).ids = (sh.initIds G a).ids := by
  unfold Shared.prepare Shared.initFilt
  split
  · split <;> rfl
  · rfl

theorem prepare_mem (F : List Nat → Nat → List Bool) (G : Parser) (a : Nat) (sh : Shared) : (sh.prepare F G a).mem = (sh.initIds G a).mem := by
  unfold Shared.prepare Shared.initFilt
  split
  · split <;> rfl
  · rfl

theorem prepare_ids_self (F : List Nat → Nat → List Bool) (G : Parser) (a : Nat) {sh : Shared} (h : sh.Inv G) :
    (sh.prepare F G a).ids a = some (Verif.initIds G.rules a (G.ws a) (G.word a)) := by
  rw [prepare_ids]
  unfold Shared.initIds
  cases ha : sh.ids a with
  | some s => dsimp only; rw [ha, h.ids a s ha]
  | none => simp

/-! ## Two states that a parse cannot distinguish -/

/-- The rules that a parse from `a` can reach (numbers without a rule included). -/
def Parser.reach (G : Parser) (a : Nat) (r : Nat) : Prop :=
  r ∈ (Verif.initIds G.rules a (G.ws a) (G.word a)).order ∨ G.rules.length ≤ r

theorem Parser.reach_start (G : Parser) (a : Nat) : G.reach a a := by
  by_cases h : a < G.rules.length
  · exact Or.inl ((initIds_mem ..).2 (.base (by simp [idRoots]) h))
  · exact Or.inr (by omega)

theorem rules_get (sh : Shared) (rs : List Def) (r : Nat) :
    (sh.rules rs)[r]? = (rs[r]?).map fun d => { d with hasMacroRef := sh.mem.macroRef r } := by
  unfold Shared.rules
  rw [List.getElem?_mapIdx]

/-- States with the same initialised members for `a` and the same numbers on what `a` reaches give the same answers. -/
theorem parse_eq {G : Parser} {s t : Shared} {a : Nat} (hs : s.Inv G) (ht : t.Inv G)
    (ids : s.ids a = some (Verif.initIds G.rules a (G.ws a) (G.word a))) (idt : t.ids a = some (Verif.initIds G.rules a (G.ws a) (G.word a)))
    (num : G.packrat a = true → ∀ r ∈ (Verif.initIds G.rules a (G.ws a) (G.word a)).order, s.mem.id r = t.mem.id r)
    (filt : G.packrat a = true → s.filt a = t.filt a) (n : Nat) (c : Call V) (hc : c.start = a) :
    parserParse n (s.cfg G c) c.start c.eoi c.log c.dt = parserParse n (t.cfg G c) c.start c.eoi c.log c.dt := by
  subst hc
  have e : s.cfg G c = (t.cfg G c).swap (s.rules G.rules) s.mem.id (t.cfg G c).defCount := by
    unfold Shared.cfg
    rw [ids, idt]
    by_cases hp : G.packrat c.start = true
    · rw [filt hp]
    · simp only [hp, Bool.false_eq_true, if_false, Cfg.swap]
  rw [e]
  have hmem : ∀ u, u ∈ (Verif.initIds G.rules c.start (G.ws c.start) (G.word c.start)).order →
      ∀ d, G.rules[u]? = some d → ∀ v ∈ d.ope.uses, G.reach c.start v := by
    intro u hu d hd v hv
    by_cases hl : v < G.rules.length
    · exact Or.inl ((initIds_mem ..).2 (.step ((initIds_mem ..).1 hu) hd hv hl))
    · exact Or.inr (by omega)
  refine parserParse_cg (R := G.reach c.start) ?_ (G.reach_start c.start) n c.eoi c.log c.dt
  constructor
  · intro r hr
    show (s.rules G.rules)[r]? = (t.rules G.rules)[r]?
    rw [rules_get, rules_get]
    cases hd : G.rules[r]? with
    | none => rfl
    | some d =>
      rcases hr with hr | hr
      · simp only [Option.map_some]
        rw [hs.flag c.start _ ids r d hr hd, ht.flag c.start _ idt r d hr hd]
      · rw [List.getElem?_eq_none_iff.2 hr] at hd; cases hd
  · intro r
    show ((s.rules G.rules)[r]?).map Def.erase = ((t.rules G.rules)[r]?).map Def.erase
    rw [rules_get, rules_get]
    cases G.rules[r]? with
    | none => rfl
    | some d => rfl
  · intro hp r d hr hd
    rcases hr with hr | hr
    · exact num hp r hr
    · have hd' : (t.rules G.rules)[r]? = some d := hd
      rw [rules_get, List.getElem?_eq_none_iff.2 hr] at hd'; cases hd'
  · intro _ _ _ _ _; exact Iff.rfl
  · intro r d hr hd
    have hd' : (t.rules G.rules)[r]? = some d := hd
    rw [rules_get] at hd'
    cases hg : G.rules[r]? with
    | none => rw [hg] at hd'; cases hd'
    | some d0 =>
      rw [hg] at hd'
      cases hd'
      rcases hr with hr | hr
      · exact hmem r hr d0 hg
      · rw [List.getElem?_eq_none_iff.2 hr] at hg; cases hg
  · intro w hw u hu
    have hw' : G.ws c.start = some w := hw
    by_cases hl : u < G.rules.length
    · exact Or.inl ((initIds_mem ..).2 (.base (by simp [idRoots, optUses, hw', hu]) hl))
    · exact Or.inr (by omega)
  · intro w hw u hu
    have hw' : G.word c.start = some w := hw
    by_cases hl : u < G.rules.length
    · exact Or.inl ((initIds_mem ..).2 (.base (by simp [idRoots, optUses, hw', hu]) hl))
    · exact Or.inr (by omega)

/-- Without packrat parsing for `a` the whole history is irrelevant. -/
theorem parse_after_plain (F : List Nat → Nat → List Bool) (G : Parser) (n m : Nat) (h : List (Call V)) (c : Call V)
    (hp : G.packrat c.start = false) :
    (Shared.parse F G n (Shared.after F G m {} h) c).1 = (Shared.parse F G n {} c).1 := by
  have hi := (inv_fresh G).after F m h
  unfold Shared.parse
  dsimp only
  exact parse_eq (hi.prepare F c.start) ((inv_fresh G).prepare F c.start) (prepare_ids_self F G c.start hi)
    (prepare_ids_self F G c.start (inv_fresh G)) (by intro e; rw [hp] at e; cases e) (by intro e; rw [hp] at e; cases e) n c rfl

theorem after_other_filt (F : List Nat → Nat → List Bool) (G : Parser) (n a : Nat) (h : List (Call V)) (hh : ∀ c ∈ h, c.start ≠ a)
    (sh : Shared) : (sh.after F G n h).filt a = sh.filt a ∧ (sh.after F G n h).ids a = sh.ids a := by
  induction h generalizing sh with
  | nil => exact ⟨rfl, rfl⟩
  | cons c h ih =>
    rw [after_cons]
    have h1 := ih (fun c hc => hh c (by simp [hc])) (sh.prepare F G c.start)
    rw [h1.1, h1.2]
    have hne : a ≠ c.start := fun e => hh c (by simp) e.symm
    constructor
    · unfold Shared.prepare Shared.initFilt
      have : (sh.initIds G c.start).filt = sh.filt := by unfold Shared.initIds; split <;> rfl
      split
      · split
        · rw [this]
        · dsimp only; rw [if_neg hne, this]
      · rw [this]
    · rw [prepare_ids]
      unfold Shared.initIds
      split
      · rfl
      · dsimp only; rw [if_neg hne]

/-- With packrat parsing, parses from other start rules do no harm before the first parse from `a`. -/
theorem parse_after_first (F : List Nat → Nat → List Bool) (G : Parser) (n m : Nat) (h h' : List (Call V)) (c : Call V)
    (ho : ∀ x ∈ h, x.start ≠ c.start) (hs : ∀ x ∈ h', x.start = c.start) :
    (Shared.parse F G n (Shared.after F G m {} (h ++ h')) c).1 = (Shared.parse F G n {} c).1 := by
  have hi := (inv_fresh G).after F m h
  unfold Shared.parse
  dsimp only
  rw [after_append, after_sameStart F G m c.start _ h' hs]
  obtain ⟨hf, hids⟩ := after_other_filt F G m c.start h ho {}
  generalize Shared.after F G m {} h = s at hi hf hids
  have hids' : s.ids c.start = none := hids
  have hf' : s.filt c.start = none := hf
  have num : ∀ r ∈ (Verif.initIds G.rules c.start (G.ws c.start) (G.word c.start)).order,
      (s.prepare F G c.start).mem.id r = (({} : Shared).prepare F G c.start).mem.id r := by
    intro r hr
    rw [prepare_mem, prepare_mem]
    unfold Shared.initIds
    rw [hids']
    dsimp only
    rw [assign_id_mem _ _ hr, assign_id_mem _ _ hr]
  refine parse_eq (hi.prepare F c.start) ((inv_fresh G).prepare F c.start) (prepare_ids_self F G c.start hi)
    (prepare_ids_self F G c.start (inv_fresh G)) (fun _ => num) ?_ n c rfl
  intro hp
  have key : ∀ t : Shared, t.ids c.start = none → t.filt c.start = none → (t.prepare F G c.start).filt c.start =
      some (F ((Verif.initIds G.rules c.start (G.ws c.start) (G.word c.start)).order.map (t.prepare F G c.start).mem.id) c.start) := by
    intro t h1 h2
    rw [prepare_mem]
    unfold Shared.prepare Shared.initFilt Shared.initIds
    rw [h1]
    dsimp only
    rw [if_pos hp, h2]
    simp
  rw [key s hids' hf', key {} rfl rfl]
  congr 2
  exact List.map_congr_left num

end Verif
