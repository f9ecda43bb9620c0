import Verif.Handlers
import Verif.Props.Errors
import Verif.Props.Modes
import Verif.Props.Link
import Verif.LoadInv
import Verif.Annotate
/-!
# `enter`, `leave` and action handlers are called in matching pairs: C57

`Traced cfg evs`: every handler notes its call in the user datum; `evs dt` are the notes.  `noteAll A P ex [] w = some []` says that the
notes `w` are properly nested calls: read from left to right with a stack of open calls, every `leave` closes the innermost open call,
which is one of the same rule at the same position; a rule's action runs inside a call of that rule, after all calls made by it, at most
once, and only if the call then succeeds — if nothing was recovered (`ex`), whenever it succeeds.  For rules with a precedence
instruction (`P`) only the first part is claimed: their action also combines operands.  `S` are the watched rules: those with both
handlers.
-/

namespace Verif.Props
open Verif Out

variable {V : Type}

/-- C57: whatever the grammar, the input and the result of the parse, the handler calls are properly nested: every `enter` is matched by
a `leave`, also in abandoned alternatives and predicates, with packrat parsing and with left recursion.  Calls made while recovering
from an error are given a datum of their own and are not seen here. -/
theorem C57_handlers_nest {cfg : Cfg V} {evs : Option V → List Ev} {S P : Nat → Bool} {n r : Nat} {eoi log : Bool} {dt : Option V}
    {a : Answer V} (ht : Traced cfg evs) (hp : PrecOk cfg P) (hn : cfg.recognizeOnly = false)
    (hS : ∀ r, S r = true → (cfg.enter r).isSome = true ∧ (cfg.leave r).isSome = true)
    (h0 : evs dt = []) (h : parserParse n cfg r eoi log dt = .ok a) :
    noteAll (acts cfg) P (!a.res.st.recovered) [] ((evs a.res.st.dt).filter fun e => S e.rule) = some [] := by
  unfold parserParse at h
  obtain ⟨res, hr, h⟩ := Out.bind_eq_ok.1 h
  have hres : a.res = res := by
    unfold postProcess at h
    split at h
    · obtain ⟨o, -, h⟩ := Out.bind_eq_ok.1 h; cases h; rfl
    · cases h; rfl
  have H := parseCore_H ht hS hp hn n r eoi { dt := dt, logOn := log } (by intro f hf; simp at hf; subst hf; simp) res hr
  obtain ⟨w, e, hw⟩ := H.calls
  have e : evs res.st.dt = evs dt ++ w := e
  rw [hres, e, h0, List.nil_append]
  exact hw _ (fun x => by simpa using x) [] ⟨rfl, fun r hr _ => by cases hr⟩

/-! ## In numbers -/

def Ev.isEnter : Ev → Bool
  | .enter .. => true
  | _ => false

def Ev.isLeave : Ev → Bool
  | .leave .. => true
  | _ => false

def Ev.isAct : Ev → Bool
  | .act _ => true
  | _ => false

/-- A `leave` call after a match. -/
def Ev.isMatch : Ev → Bool
  | .leave _ _ res => res.isSome
  | _ => false

theorem noteAll_depth {A P : Nat → Bool} {ex : Bool} {w : List Ev} {s s' : List Open} (h : noteAll A P ex s w = some s') :
    w.countP Ev.isEnter + s.length = w.countP Ev.isLeave + s'.length := by
  induction w generalizing s with
  | nil => cases h; simp
  | cons e w ih =>
    unfold noteAll at h
    cases hs : noteStep A P ex s e with
    | none => rw [hs] at h; cases h
    | some t =>
      rw [hs] at h
      have := ih h
      cases e with
      | enter r i =>
        simp only [noteStep] at hs
        split at hs
        · cases hs
        · cases hs
          simp [Ev.isEnter, Ev.isLeave, List.countP_cons] at this ⊢
          omega
      | act r =>
        cases s with
        | nil => cases hs
        | cons o s =>
          obtain ⟨q, i, b⟩ := o
          simp only [noteStep] at hs
          split at hs
          · cases hs
            simp [Ev.isEnter, Ev.isLeave, List.countP_cons] at this ⊢
            omega
          · cases hs
      | leave r i res =>
        cases s with
        | nil => cases hs
        | cons o s =>
          obtain ⟨q, k, b⟩ := o
          simp only [noteStep, Option.ite_none_right_eq_some] at hs
          obtain ⟨-, hs⟩ := hs
          cases hs
          simp [Ev.isEnter, Ev.isLeave, List.countP_cons] at this ⊢
          omega

theorem noteAll_prefix {A P : Nat → Bool} {ex : Bool} {u w : List Ev} {s s' : List Open} (hu : u <+: w)
    (h : noteAll A P ex s w = some s') : ∃ t, noteAll A P ex s u = some t := by
  obtain ⟨v, rfl⟩ := hu
  rw [noteAll_append] at h
  cases hs : noteAll A P ex s u with
  | none => rw [hs] at h; cases h
  | some t => exact ⟨t, rfl⟩

/-- How many open calls have had their action run. -/
def opened (s : List Open) : Nat := s.countP fun o => o.2.2

theorem noteAll_acts {A P : Nat → Bool} {ex : Bool} {r : Nat} {w : List Ev} {s s' : List Open} (hA : A r = true) (hP : P r = false)
    (hr : ∀ e ∈ w, e.rule = r) (h : noteAll A P ex s w = some s') :
    w.countP Ev.isAct + opened s ≤ w.countP Ev.isMatch + opened s' ∧
    (ex = true → w.countP Ev.isAct + opened s = w.countP Ev.isMatch + opened s') := by
  induction w generalizing s with
  | nil => cases h; simp
  | cons e w ih =>
    unfold noteAll at h
    have hre : e.rule = r := hr e (by simp)
    cases hs : noteStep A P ex s e with
    | none => rw [hs] at h; cases h
    | some t =>
      rw [hs] at h
      have := ih (fun e he => hr e (by simp [he])) h
      cases e with
      | enter q i =>
        simp only [noteStep] at hs
        split at hs
        · cases hs
        · cases hs
          simp [opened, Ev.isAct, Ev.isMatch, List.countP_cons] at this ⊢
          exact this
      | act q =>
        cases s with
        | nil => cases hs
        | cons o s =>
          obtain ⟨q', i, b⟩ := o
          simp only [noteStep] at hs
          split at hs
          · rename_i hb
            simp only [Bool.and_eq_true, decide_eq_true_eq, Bool.not_eq_true'] at hb
            cases hs
            have hq : q = r := hre
            subst hq
            simp [opened, Ev.isAct, Ev.isMatch, List.countP_cons, hP, hb.2] at this ⊢
            constructor
            · omega
            · intro hx; have := this.2 hx; omega
          · cases hs
      | leave q i res =>
        cases s with
        | nil => cases hs
        | cons o s =>
          obtain ⟨q', k, b⟩ := o
          simp only [noteStep, Option.ite_none_right_eq_some] at hs
          obtain ⟨hb, hs⟩ := hs
          cases hs
          have hq : q = r := hre
          subst hq
          simp only [hP, hA, Bool.false_or, Bool.and_true, Bool.and_eq_true] at hb
          simp only [opened, Ev.isAct, Ev.isMatch, List.countP_cons] at this ⊢
          cases b <;> cases res <;> cases ex <;> simp at hb this ⊢ <;> omega

/-- C57: at any moment of a parse at least as many calls of a rule's `enter` as of its `leave` were made, and at the end equally many. -/
theorem C57_enter_leave_paired {cfg : Cfg V} {evs : Option V → List Ev} {P : Nat → Bool} {n r q : Nat} {eoi log : Bool} {dt : Option V}
    {a : Answer V} (ht : Traced cfg evs) (hp : PrecOk cfg P) (hn : cfg.recognizeOnly = false)
    (he : (cfg.enter q).isSome = true) (hl : (cfg.leave q).isSome = true)
    (h0 : evs dt = []) (h : parserParse n cfg r eoi log dt = .ok a) (u : List Ev) (hu : u <+: evs a.res.st.dt) :
    (u.filter (·.rule = q)).countP Ev.isLeave ≤ (u.filter (·.rule = q)).countP Ev.isEnter ∧
    (u = evs a.res.st.dt → (u.filter (·.rule = q)).countP Ev.isLeave = (u.filter (·.rule = q)).countP Ev.isEnter) := by
  have H := C57_handlers_nest (S := fun x => decide (x = q)) ht hp hn (fun x hx => by simp at hx; subst hx; exact ⟨he, hl⟩) h0 h
  constructor
  · obtain ⟨t, h1⟩ := noteAll_prefix (hu.filter _) H
    have := noteAll_depth h1
    simp only [List.length_nil] at this
    omega
  · rintro rfl
    have := noteAll_depth H
    simp only [List.length_nil] at this
    omega

/-- C57: in a parse that recovered from nothing the action of a rule (without precedence instruction) is run exactly as often as a call of
the rule succeeds; otherwise at most as often.  "Succeeds" is what its `leave` handler is told. -/
theorem C57_action_once_per_match {cfg : Cfg V} {evs : Option V → List Ev} {P : Nat → Bool} {n r q : Nat} {eoi log : Bool}
    {dt : Option V} {a : Answer V} (ht : Traced cfg evs) (hp : PrecOk cfg P) (hn : cfg.recognizeOnly = false)
    (he : (cfg.enter q).isSome = true) (hl : (cfg.leave q).isSome = true) (ha : acts cfg q = true) (hq : P q = false)
    (h0 : evs dt = []) (h : parserParse n cfg r eoi log dt = .ok a) :
    let w := (evs a.res.st.dt).filter (·.rule = q)
    w.countP Ev.isAct ≤ w.countP Ev.isMatch ∧
    (a.res.st.recovered = false → w.countP Ev.isAct = w.countP Ev.isMatch) := by
  have H := C57_handlers_nest (S := fun x => decide (x = q)) ht hp hn (fun x hx => by simp at hx; subst hx; exact ⟨he, hl⟩) h0 h
  have := noteAll_acts ha hq (fun e he => by simpa using (List.mem_filter.1 he).2) H
  simp only [opened, List.countP_nil, Nat.add_zero] at this
  exact ⟨this.1, fun hx => this.2 (by rw [hx]; rfl)⟩

/-! ## Grammars that load

Loading only puts precedence operators at the top of the rule they belong to. -/

mutual
theorem precIn_plain (O : Nat → Bool) : ∀ e : Ope, e.plain.precIn O = e.precIn O
  | .seq es _ => by simp only [Ope.plain, Ope.precIn, precInL_plain O es]
  | .cho es _ _ => by simp only [Ope.plain, Ope.precIn, precInL_plain O es]
  | .rep e _ _ _ => by simp only [Ope.plain, Ope.precIn, precIn_plain O e]
  | .capScope e => by simp only [Ope.plain, Ope.precIn, precIn_plain O e]
  | .cap _ e => by simp only [Ope.plain, Ope.precIn, precIn_plain O e]
  | .tok e => by simp only [Ope.plain, Ope.precIn, precIn_plain O e]
  | .ign e => by simp only [Ope.plain, Ope.precIn, precIn_plain O e]
  | .and_ e => by simp only [Ope.plain, Ope.precIn, precIn_plain O e]
  | .not_ e => by simp only [Ope.plain, Ope.precIn, precIn_plain O e]
  | .ws e => by simp only [Ope.plain, Ope.precIn, precIn_plain O e]
  | .ref _ _ as => by simp only [Ope.plain, Ope.precIn, noPrecL_plain as]
  | .recov _ _ as => by simp only [Ope.plain, Ope.precIn, noPrecL_plain as]
  | .prec a b _ _ => by simp only [Ope.plain, Ope.precIn, precIn_plain O a, precIn_plain O b]
  | .dict .. => rfl
  | .lit .. => rfl
  | .cls _ => rfl
  | .chr _ => rfl
  | .dot => rfl
  | .param .. => rfl
  | .usr _ => rfl
  | .weak _ => rfl
  | .bref _ => rfl
  | .cut => rfl
  | .null => rfl

theorem precInL_plain (O : Nat → Bool) : ∀ es : List Ope, Ope.precInList O (Ope.plainL es) = Ope.precInList O es
  | [] => rfl
  | e :: es => by simp only [Ope.plainL, Ope.precInList, precIn_plain O e, precInL_plain O es]
end

mutual
theorem link_noPrec (ds : List SDef) (ps : List (List Byte)) : ∀ e : Src, (e.link ds ps).noPrec = true
  | .seq es => by simp only [Src.link, Ope.noPrec]; exact linkL_noPrec ds ps es
  | .cho es _ => by simp only [Src.link, Ope.noPrec]; exact linkL_noPrec ds ps es
  | .rep e _ _ => by simp only [Src.link, Ope.noPrec]; exact link_noPrec ds ps e
  | .and_ e => by simp only [Src.link, Ope.noPrec]; exact link_noPrec ds ps e
  | .not_ e => by simp only [Src.link, Ope.noPrec]; exact link_noPrec ds ps e
  | .capScope e => by simp only [Src.link, Ope.noPrec]; exact link_noPrec ds ps e
  | .cap _ e => by simp only [Src.link, Ope.noPrec]; exact link_noPrec ds ps e
  | .tok e => by simp only [Src.link, Ope.noPrec]; exact link_noPrec ds ps e
  | .ign e => by simp only [Src.link, Ope.noPrec]; exact link_noPrec ds ps e
  | .ref nm _ as => by
    simp only [Src.link]
    split
    · rfl
    · split
      · simp only [Ope.noPrec]; exact linkL_noPrec ds ps as
      · rfl
  | .recov nm _ as => by
    simp only [Src.link]
    split
    · rfl
    · split
      · simp only [Ope.noPrec]; exact linkL_noPrec ds ps as
      · rfl
  | .dict .. => rfl
  | .lit .. => rfl
  | .cls _ => rfl
  | .chr _ => rfl
  | .dot => rfl
  | .usr _ => rfl
  | .bref _ => rfl
  | .cut => rfl

theorem linkL_noPrec (ds : List SDef) (ps : List (List Byte)) : ∀ es : List Src, Ope.noPrecList (Src.linkL ds ps es) = true
  | [] => rfl
  | e :: es => by simp only [Src.linkL, Ope.noPrecList, link_noPrec ds ps e, linkL_noPrec ds ps es, Bool.and_self]
end

theorem tokened_noPrec (mark : List Def → Nat → Bool) (S : Source) : ∀ d ∈ S.tokened mark, d.ope.noPrec = true := by
  have h1 : ∀ d ∈ linkAll S.all, d.ope.noPrec = true := by
    intro d hd
    unfold linkAll at hd
    obtain ⟨s, -, rfl⟩ := List.mem_map.1 hd
    exact link_noPrec _ _ _
  have h2 : ∀ d ∈ S.marked mark, d.ope.noPrec = true := by
    intro d hd
    unfold Source.marked at hd
    split at hd
    · obtain ⟨r, hr, rfl⟩ := List.mem_mapIdx.1 hd
      exact h1 (linkAll S.all)[r] (List.getElem_mem _)
    · exact h1 d hd
  intro d hd
  unfold Source.tokened at hd
  split at hd
  · obtain ⟨c, hc, rfl⟩ := List.mem_map.1 hd
    have := h2 c hc
    unfold tokLit
    split
    · simp only [Ope.noPrec]; exact this
    · exact this
  · exact h2 d hd

/-- The precedence operators of a grammar that loads. -/
theorem load_precIn {mark loops : List Def → Nat → Bool} {order : List Nat} {S : Source} {G : Parser} {a : Nat}
    (h : load mark loops order S = .ok (some (G, a))) (r : Nat) (d : Def) (hd : G.rules[r]? = some d) :
    (S.prec r = none → d.ope.noPrec = true) ∧ d.ope.precIn (fun q => decide (q = r) && (S.prec r).isSome) = true := by
  obtain ⟨-, -, -, -, rs, hp, hG, -⟩ := load_inv h
  rw [hG] at hd
  have hk := setupAll_plain rs order r
  rw [hd] at hk
  cases hd0 : rs[r]? with
  | none => rw [hd0] at hk; cases hk
  | some d0 =>
    rw [hd0] at hk
    have hk : d.ope.plain = d0.ope.plain := congrArg Def.ope (Option.some.inj hk)
    have hk1 : d.ope.noPrec = d0.ope.noPrec := by rw [← noPrec_plain, hk, noPrec_plain]
    have hk2 : ∀ O, d.ope.precIn O = d0.ope.precIn O := fun O => by rw [← precIn_plain, hk, precIn_plain]
    obtain ⟨g1, g2⟩ := precAll_get hp r
    cases ht : (S.tokened mark)[r]? with
    | none => rw [g1 ht] at hd0; cases hd0
    | some t =>
      obtain ⟨d', e, g3⟩ := g2 t ht
      rw [hd0] at e
      cases e
      have hn := tokened_noPrec mark S t (List.mem_of_getElem? ht)
      rw [Nat.zero_add] at g3
      rcases g3 with ⟨g4, rfl⟩ | ⟨i, g4, g5⟩
      · refine ⟨fun _ => by rw [hk1]; exact hn, by rw [hk2]; exact precIn_of_noPrec _ _ hn⟩
      · refine ⟨fun x => (by rw [x] at g4; cases g4), ?_⟩
        obtain ⟨a, b, a', t1, t2, k1, k2, sp, x, y, e1, -, -, -, -, rfl⟩ := applyPrec_inv g5
        rw [hk2, g4]
        rw [e1] at hn
        simp only [Ope.noPrec, Ope.noPrecList, Bool.and_eq_true] at hn
        simp only [Ope.precIn, Bool.and_eq_true, decide_true, Option.isSome_some, and_self, true_and]
        exact ⟨precIn_of_noPrec _ _ hn.1, precIn_of_noPrec _ _ hn.2.1.1⟩

/-- C57 for parser objects: a grammar that loads (its macros and `%whitespace` have no `precedence` instruction), any history of parses with
the object, any parse that some handler or action watches: the calls of the handlers are properly nested. -/
theorem C57_handlers_nest_loaded {mark loops : List Def → Nat → Bool} {order : List Nat} {S : Source} {G : Parser} {a : Nat}
    (hl : load mark loops order S = .ok (some (G, a)))
    (hm : ∀ (r : Nat) (d : Def), G.rules[r]? = some d → d.isMacro = true → S.prec r = none)
    (hw : ∀ w, ruleNamed S.all whitespaceName = some w → S.prec w = none)
    (F : List Nat → Nat → List Bool) (n m : Nat) (hist : List (Call V)) (c : Call V) (hc : ¬ Unwatched G c)
    {evs : Option V → List Ev} {W : Nat → Bool} {ans : Answer V}
    (hW : ∀ r, W r = true → (c.enter r).isSome = true ∧ (c.leave r).isSome = true)
    (ht : ∀ cfg : Cfg V, cfg.enter = c.enter → cfg.leave = c.leave → cfg.action = c.action → cfg.user = c.user → Traced cfg evs)
    (h0 : evs c.dt = []) (h : (Shared.parse F G n (Shared.after F G m {} hist) c).1 = .ok ans) :
    noteAll (fun r => (c.action r).isSome && !((G.rules[r]?.map (·.disableAction)).getD false)) (fun r => (S.prec r).isSome)
      (!ans.res.st.recovered) [] ((evs ans.res.st.dt).filter fun e => W e.rule) = some [] := by
  have hmode := C51_mode_chosen F G m hist c
  unfold Shared.parse at h
  dsimp only at h
  generalize (Shared.after F G m {} hist).prepare F G c.start = s at h hmode
  have hget : ∀ r, (s.cfg G c).rules[r]? = (G.rules[r]?).map fun (d : Def) => { d with hasMacroRef := s.mem.macroRef r } := fun r => rules_get s G.rules r
  have hA : acts (s.cfg G c) = fun r => (c.action r).isSome && !((G.rules[r]?.map (·.disableAction)).getD false) := by
    funext r
    unfold acts
    rw [hget, Option.map_map]
    rfl
  rw [← hA]
  refine C57_handlers_nest (ht _ rfl rfl rfl rfl) ⟨?_, ?_, ?_⟩ ?_ hW h0 h
  · intro r d hd
    rw [hget] at hd
    obtain ⟨d0, hd0, rfl⟩ := Option.map_eq_some_iff.1 hd
    exact (load_precIn hl r d0 hd0).2
  · intro r d hd hx _
    rw [hget] at hd
    obtain ⟨d0, hd0, rfl⟩ := Option.map_eq_some_iff.1 hd
    exact (load_precIn hl r d0 hd0).1 (hm r d0 hd0 hx)
  · intro w hws
    obtain ⟨-, -, -, -, rs, hp, hG, hGw, -⟩ := load_inv hl
    have hws : G.ws c.start = some w := hws
    rw [hGw] at hws
    dsimp only at hws
    split at hws
    · obtain ⟨d, hd, rfl⟩ := Option.map_eq_some_iff.1 hws
      obtain ⟨x, hx, hd⟩ := Option.bind_eq_some_iff.1 hd
      rw [← hG] at hd
      simp only [Ope.noPrec]
      exact (load_precIn hl x d hd).1 (hw x hx)
    · cases hws
  · cases hr : (s.cfg G c).recognizeOnly with
    | false => rfl
    | true => exact absurd (hmode.1 hr) hc

/-! ## Witnesses

A parser whose handlers all append their note to the datum. -/

def noteEvs : Option (List Ev) → List Ev := fun d => d.getD []

/-- Handlers on every rule. -/
def noting (rules : List Def) (input : List Byte) : Cfg (List Ev) where
  rules := rules
  input := input
  defCount := rules.length
  enter := fun r => some fun i dt => some (noteEvs dt ++ [.enter r i])
  leave := fun r => some fun i res v dt => (v, some (noteEvs dt ++ [.leave r i res]))
  action := fun r => some fun _ dt _ => (none, some (noteEvs dt ++ [.act r]))

theorem noting_traced (rules : List Def) (input : List Byte) : Traced (noting rules input) noteEvs := by
  constructor
  · intro r f h i dt; cases h; rfl
  · intro r f h fr dt pd; cases h; rfl
  · intro r f h i res v dt; cases h; rfl
  · intro id i f dt; rfl

/-- `S <- A 'x' / !A 'b' / A 'y';  A <- 'a'` -/
def c57Rules : List Def := [
  { name := [83], ope := .cho [.seq [.ref 1 [65] [], .lit [120] false] none, .seq [.not_ (.ref 1 [65] []), .lit [98] false] none,
      .seq [.ref 1 [65] [], .lit [121] false] none] false [] },
  { name := [65], ope := .lit [97] false }]

theorem c57_precOk (input : List Byte) : PrecOk (noting c57Rules input) (fun _ => false) := by
  constructor
  · intro r d h
    match r, h with
    | 0, h => cases h; rfl
    | 1, h => cases h; rfl
    | n + 2, h => cases h
  · intro r d h hm _
    match r, h with
    | 0, h => cases h; cases hm
    | 1, h => cases h; cases hm
    | n + 2, h => cases h
  · intro w h; cases h

def notes {V : Type} (f : Option V → List Ev) (x : Out (Answer V)) : Option (Bool × List Ev) :=
  match x with
  | .ok a => some (a.ok, f a.res.st.dt)
  | _ => none

/-- The calls made when parsing "ay": those of the first alternative and those inside the predicate are not taken back. -/
theorem C57_abandoned_calls_stay :
    notes noteEvs (parserParse 20 (noting c57Rules [97, 121]) 0 true false none) = some (true,
      [.enter 0 0, .enter 1 0, .act 1, .leave 1 0 (some 1), .enter 1 0, .act 1, .leave 1 0 (some 1),
       .enter 1 0, .act 1, .leave 1 0 (some 1), .act 0, .leave 0 0 (some 2)]) := by decide +kernel

/-- The theorems apply to it: three matches of `A`, three actions. -/
example (a : Answer (List Ev)) (h : parserParse 20 (noting c57Rules [97, 121]) 0 true false none = .ok a) :
    noteAll (acts (noting c57Rules [97, 121])) (fun _ => false) (!a.res.st.recovered) []
      ((noteEvs a.res.st.dt).filter fun _ => true) = some [] :=
  C57_handlers_nest (S := fun _ => true) (noting_traced _ _) (c57_precOk _) rfl (fun _ _ => ⟨rfl, rfl⟩) rfl h

example : acts (noting c57Rules [97, 121]) 1 = true := rfl

/-- The specification rejects a missing `leave`, a `leave` of another rule or place, an action outside its call and one after a failure. -/
example : noteAll (fun _ => true) (fun _ => false) true [] [.enter 0 0, .enter 1 0, .act 1, .leave 1 0 (some 1), .act 0] ≠ some [] ∧
    noteAll (fun _ => true) (fun _ => false) true [] [.enter 0 0, .enter 1 0, .leave 0 0 none, .leave 1 0 none] = none ∧
    noteAll (fun _ => true) (fun _ => false) true [] [.enter 0 0, .act 0, .leave 0 1 (some 1)] = none ∧
    noteAll (fun _ => true) (fun _ => false) true [] [.enter 0 0, .act 1, .leave 0 0 (some 1)] = none ∧
    noteAll (fun _ => true) (fun _ => false) true [] [.enter 0 0, .act 0, .leave 0 0 none] = none ∧
    noteAll (fun _ => true) (fun _ => false) true [] [.enter 0 0, .leave 0 0 (some 1)] = none ∧
    noteAll (fun _ => true) (fun _ => false) false [] [.enter 0 0, .leave 0 0 (some 1)] = some [] := by decide

/-- `S <- (A ';' / %recover(e))*;  A <- 'a';  e <- (!';' .)* ';'` on "b;a;": the calls made while recovering at 0 are not noted (the datum
they are given is another one), and from then on no action is run, although `A` and `S` succeed. -/
theorem C57_recovery_unseen :
    notes noteEvs (parserParse 60 { noting (rvCfg []).rules [98, 59, 97, 59] with needsRuleStack := true } 0 true false none) =
      some (false, [.enter 0 0, .enter 1 0, .leave 1 0 none, .enter 1 2, .leave 1 2 (some 3), .enter 1 4, .leave 1 4 none,
        .leave 0 0 (some 4)]) := by decide +kernel

/-- `E <- T (O T)* { precedence L + }`;  `T <- 'a'`;  `O <- '+'`: the action of `E` is run for each operator instead of at the end. -/
def c57Prec : List Def := [
  { name := [69], disableAction := true, ope := .prec (.ref 1 [84] []) (.ref 2 [79] []) [([43], 1, 76)] 0 },
  { name := [84], ope := .lit [97] false },
  { name := [79], ope := .tok (.lit [43] false) }]

theorem C57_precedence_actions :
    notes noteEvs (parserParse 60 (noting c57Prec [97, 43, 97]) 0 true false none) = some (true,
      [.enter 0 0, .enter 1 0, .act 1, .leave 1 0 (some 1), .enter 2 1, .act 2, .leave 2 1 (some 2), .enter 1 2, .act 1,
       .leave 1 2 (some 3), .act 0, .leave 0 0 (some 3)]) := by decide +kernel

theorem c57Prec_ok (input : List Byte) : PrecOk (noting c57Prec input) (fun r => r == 0) := by
  constructor
  · intro r d h
    match r, h with
    | 0, h => cases h; rfl
    | 1, h => cases h; rfl
    | 2, h => cases h; rfl
    | n + 3, h => cases h
  · intro r d h hm _
    match r, h with
    | 0, h => cases h; cases hm
    | 1, h => cases h; cases hm
    | 2, h => cases h; cases hm
    | n + 3, h => cases h
  · intro w h; cases h

/-- The theorems apply to it. -/
example (a : Answer (List Ev)) (h : parserParse 60 (noting c57Prec [97, 43, 97]) 0 true false none = .ok a) (u : List Ev)
    (hu : u <+: noteEvs a.res.st.dt) :
    (u.filter (·.rule = 2)).countP Ev.isLeave ≤ (u.filter (·.rule = 2)).countP Ev.isEnter :=
  (C57_enter_leave_paired (q := 2) (noting_traced _ _) (c57Prec_ok _) rfl rfl rfl rfl h u hu).1

/-- The grammar of `C57_handlers_nest_loaded` in the witness: `E <- A (O A)* { precedence L + };  A <- 'a';  O <- '+'`. -/
def c57Src : Source where
  defs := [c36d "E" (.seq [c36r "A", .rep (.seq [c36r "O", c36r "A"]) 0 none]), c36d "A" (c36l "a"), c36d "O" (c36l "+")]
  prec := fun k => if k = 1 then some [(c36b "+", 1, 76)] else none

/-- A parse with all handlers noting their calls. -/
def c57Call : Call (List Ev) :=
  let x := noting [] []
  { start := 1, input := [97, 43, 97], enter := x.enter, leave := x.leave, action := x.action }

def c57Loaded : Option (Parser × Nat) :=
  match load (fun _ _ => false) (fun _ _ => false) (List.range 4) c57Src with
  | .ok (some x) => some x
  | _ => none

/-- It loads; its only macro (the predefined `%recover`) and `%whitespace` (there is none) have no instruction; the parse is watched. -/
example : (c57Loaded.map fun x => (x.2, x.1.rules.map (·.isMacro), (x.1.rules.map (·.name)).head?)) =
    some (1, [true, false, false, false], some recoverName) ∧ c57Src.prec 0 = none ∧ ruleNamed c57Src.all whitespaceName = none ∧
    (c57Call.enter 1).isSome = true := by decide +kernel

/-- And its calls are those of the operator-precedence witness (rules numbered from 1). -/
example : (c57Loaded.bind fun x => notes noteEvs (Shared.parse (fun _ _ => []) x.1 60 {} c57Call).1) = some (true,
      [.enter 1 0, .enter 2 0, .act 2, .leave 2 0 (some 1), .enter 3 1, .act 3, .leave 3 1 (some 2), .enter 2 2, .act 2,
       .leave 2 2 (some 3), .act 1, .leave 1 0 (some 3)]) := by decide +kernel

end Verif.Props
