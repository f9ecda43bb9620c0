import Verif.EngineFrame
import Verif.ErrTrace
/-!
# The order in which `enter`, `leave` and action handlers are called

The handlers are given the user datum `dt`; a handler that appends a note of itself to `dt` shows the order of the calls.  `Traced cfg
evs` says that all handlers do so, `evs dt` being the notes found in `dt`.
-/

namespace Verif
open Out CharClass

variable {V : Type}

/-- A handler call: `enter` of a rule at a position, its action, `leave` of a rule at a position with the result (end position). -/
inductive Ev where
  | enter (r i : Nat)
  | act (r : Nat)
  | leave (r i : Nat) (res : Option Nat)
  deriving DecidableEq

def Ev.rule : Ev → Nat
  | .enter r _ => r
  | .act r => r
  | .leave r _ _ => r

/-- Every handler notes its call in the user datum (user-defined parsers leave the notes alone). -/
structure Traced (cfg : Cfg V) (evs : Option V → List Ev) : Prop where
  enter : ∀ r f, cfg.enter r = some f → ∀ i dt, evs (f i dt) = evs dt ++ [.enter r i]
  act : ∀ r f, cfg.action r = some f → ∀ fr dt pd, evs (f fr dt pd).2 = evs dt ++ [.act r]
  leave : ∀ r f, cfg.leave r = some f → ∀ i res v dt, evs (f i res v dt).2 = evs dt ++ [.leave r i res]
  user : ∀ id i f dt, evs (cfg.user id i f dt).2.2 = evs dt

/-! ## The specification: a stack of open calls -/

/-- A rule has an action that is not disabled. -/
def acts (cfg : Cfg V) (r : Nat) : Bool := (cfg.action r).isSome && !((cfg.rules[r]?.map (·.disableAction)).getD false)

/-- An open call: rule, position, and whether its action was run. -/
abbrev Open := Nat × Nat × Bool

/-- What each note does to the stack of open calls; `none` if it is out of place.  `P` are the rules with a precedence instruction
(their action may also run within the call), `ex` says that nothing was recovered: then an action runs if and only if the call
succeeds. -/
def noteStep (A : Nat → Bool) (P : Nat → Bool) (ex : Bool) (s : List Open) : Ev → Option (List Open)
  | .enter r i =>
    if (s.head?.map (·.2.2)).getD false then none else some ((r, i, false) :: s)
  | .act r =>
    match s with
    | (q, i, b) :: s => if q = r && !b then some ((q, i, !P r) :: s) else none
    | [] => none
  | .leave r i res =>
    match s with
    | (q, k, b) :: s =>
      if q = r && k = i && (P r || (if ex then b == (res.isSome && A r) else !b || (res.isSome && A r))) then some s else none
    | [] => none

def noteAll (A : Nat → Bool) (P : Nat → Bool) (ex : Bool) : List Open → List Ev → Option (List Open)
  | s, [] => some s
  | s, e :: es => (noteStep A P ex s e).bind fun s => noteAll A P ex s es

theorem noteAll_append (A P : Nat → Bool) (ex : Bool) (s : List Open) (u w : List Ev) :
    noteAll A P ex s (u ++ w) = (noteAll A P ex s u).bind fun s => noteAll A P ex s w := by
  induction u generalizing s with
  | nil => rfl
  | cons e u ih =>
    simp only [List.cons_append, noteAll]
    cases noteStep A P ex s e with
    | none => rfl
    | some t => exact ih t

/-! ## Precedence operators stay inside their rule -/

mutual
/-- The precedence operators inside belong to rules in `O`; none in the arguments of references. -/
def Ope.precIn (O : Nat → Bool) : Ope → Bool
  | .seq es _ => Ope.precInList O es
  | .cho es _ _ => Ope.precInList O es
  | .rep e _ _ _ => e.precIn O
  | .and_ e => e.precIn O
  | .not_ e => e.precIn O
  | .capScope e => e.precIn O
  | .cap _ e => e.precIn O
  | .tok e => e.precIn O
  | .ign e => e.precIn O
  | .ws e => e.precIn O
  | .ref _ _ as => Ope.noPrecList as
  | .recov _ _ as => Ope.noPrecList as
  | .prec a b _ r => O r && a.precIn O && b.precIn O
  | _ => true

def Ope.precInList (O : Nat → Bool) : List Ope → Bool
  | [] => true
  | e :: es => e.precIn O && Ope.precInList O es
end

mutual
theorem precIn_of_noPrec (O : Nat → Bool) (e : Ope) (h : e.noPrec = true) : e.precIn O = true := by
  cases e with
  | seq es kw => simp only [Ope.noPrec] at h; simp only [Ope.precIn]; exact precInList_of_noPrec O es h
  | cho es l fs => simp only [Ope.noPrec] at h; simp only [Ope.precIn]; exact precInList_of_noPrec O es h
  | rep e mn mx sp => simp only [Ope.noPrec] at h; simp only [Ope.precIn]; exact precIn_of_noPrec O e h
  | and_ e => simp only [Ope.noPrec] at h; simp only [Ope.precIn]; exact precIn_of_noPrec O e h
  | not_ e => simp only [Ope.noPrec] at h; simp only [Ope.precIn]; exact precIn_of_noPrec O e h
  | capScope e => simp only [Ope.noPrec] at h; simp only [Ope.precIn]; exact precIn_of_noPrec O e h
  | cap nm e => simp only [Ope.noPrec] at h; simp only [Ope.precIn]; exact precIn_of_noPrec O e h
  | tok e => simp only [Ope.noPrec] at h; simp only [Ope.precIn]; exact precIn_of_noPrec O e h
  | ign e => simp only [Ope.noPrec] at h; simp only [Ope.precIn]; exact precIn_of_noPrec O e h
  | ws e => simp only [Ope.noPrec] at h; simp only [Ope.precIn]; exact precIn_of_noPrec O e h
  | ref r nm as => exact h
  | recov r nm as => exact h
  | prec a b info r => simp [Ope.noPrec] at h
  | _ => rfl

theorem precInList_of_noPrec (O : Nat → Bool) (es : List Ope) (h : Ope.noPrecList es = true) : Ope.precInList O es = true := by
  cases es with
  | nil => rfl
  | cons e es =>
    simp only [Ope.noPrecList, Bool.and_eq_true] at h
    simp only [Ope.precInList, Bool.and_eq_true]
    exact ⟨precIn_of_noPrec O e h.1, precInList_of_noPrec O es h.2⟩
end

/-- Where precedence operators may be: in the definition of the rule they belong to; not in (other) macros, not in whitespace. -/
structure PrecOk (cfg : Cfg V) (P : Nat → Bool) : Prop where
  own : ∀ (r : Nat) (d : Def), cfg.rules[r]? = some d → d.ope.precIn (fun q => decide (q = r) && P r) = true
  macro_ : ∀ (r : Nat) (d : Def), cfg.rules[r]? = some d → d.isMacro = true → d.isLR = false → d.ope.noPrec = true
  ws : ∀ w, cfg.ws = some w → w.noPrec = true

/-! ## The invariant -/

/-- The calls seen are those of rule `o`'s definition: the innermost open call is `o` (if it is watched). -/
def AtCall (S : Nat → Bool) (o : Option Nat) (s : List Open) : Prop :=
  (s.head?.map (·.2.2)).getD false = false ∧ ∀ r, o = some r → S r = true → ∃ i t, s = (r, i, false) :: t

/-- From `st` to `st'` the handlers of the watched rules `S` were called in order. -/
structure Hn (cfg : Cfg V) (evs : Option V → List Ev) (S P : Nat → Bool) (o : Option Nat) (st st' : St V) : Prop where
  args : st'.args = st.args
  recov : st.recovered = true → st'.recovered = true
  calls : ∃ w, evs st'.dt = evs st.dt ++ w ∧ ∀ ex : Bool, (ex = true → st'.recovered = false) → ∀ s, AtCall S o s →
    noteAll (acts cfg) P ex s (w.filter fun e => S e.rule) = some s

section
variable {cfg : Cfg V} {evs : Option V → List Ev} {S P : Nat → Bool} {o : Option Nat}

theorem Hn.same {st st' : St V} (h1 : st'.args = st.args) (h2 : st'.recovered = st.recovered) (h3 : st'.dt = st.dt) :
    Hn cfg evs S P o st st' :=
  ⟨h1, by rw [h2]; exact id, [], by simp [h3], fun _ _ _ _ => rfl⟩

theorem Hn.refl (st : St V) : Hn cfg evs S P o st st := .same rfl rfl rfl

theorem Hn.trans {a b c : St V} (h : Hn cfg evs S P o a b) (h' : Hn cfg evs S P o b c) : Hn cfg evs S P o a c := by
  obtain ⟨w, e, hw⟩ := h.calls
  obtain ⟨w', e', hw'⟩ := h'.calls
  refine ⟨h'.args.trans h.args, fun x => h'.recov (h.recov x), w ++ w', by rw [e', e, List.append_assoc], fun ex hex s hs => ?_⟩
  rw [List.filter_append, noteAll_append, hw ex (fun x => ?_) s hs]
  · exact hw' ex hex s hs
  · have := hex x
    cases hb : b.recovered with
    | false => rfl
    | true => rw [h'.recov hb] at this; cases this

def HnO (cfg : Cfg V) (evs : Option V → List Ev) (S P : Nat → Bool) (o : Option Nat) (st : St V) (x : Out (Res V)) : Prop :=
  x.All fun r => Hn cfg evs S P o st r.2
def HnV (cfg : Cfg V) (evs : Option V → List Ev) (S P : Nat → Bool) (o : Option Nat) (st : St V) (x : Out (VRes V)) : Prop :=
  x.All fun r => Hn cfg evs S P o st r.2.2

theorem HnO.pre {a b : St V} {x : Out (Res V)} (h : Hn cfg evs S P o a b) (hx : HnO cfg evs S P o b x) :
    HnO cfg evs S P o a x := hx.imp fun _ => h.trans
theorem HnV.pre {a b : St V} {x : Out (VRes V)} (h : Hn cfg evs S P o a b) (hx : HnV cfg evs S P o b x) :
    HnV cfg evs S P o a x := hx.imp fun _ => h.trans

theorem HnO.okr {st st' : St V} {r : Option Nat} (h : Hn cfg evs S P o st st') : HnO cfg evs S P o st (.ok (r, st')) := .ok h

theorem HnO.after {st : St V} {x : Out (Res V)} {g : St V → St V} (h : HnO cfg evs S P o st x)
    (hg : ∀ s, Hn cfg evs S P o s (g s)) : HnO cfg evs S P o st (after x g) := by
  cases x with
  | ok a => exact .ok ((h a rfl).trans (hg _))
  | ub s => exact .ub
  | oof => exact .oof

theorem Hn.top {st st' : St V} (h : Hn cfg evs S P o st st') (t : TopOk st) : TopOk st' := t.of_args h.args

theorem HnO.andThen {st : St V} {x : Out (Res V)} {k : Nat → St V → Out (Res V)} (t : TopOk st) (h : HnO cfg evs S P o st x)
    (hk : ∀ j s, TopOk s → HnO cfg evs S P o s (k j s)) : HnO cfg evs S P o st (andThen x k) := by
  cases x with
  | ok a =>
    obtain ⟨r, s⟩ := a
    cases r with
    | none => exact .ok (h _ rfl)
    | some j => exact (hk j s ((h _ rfl).top t)).pre (h _ rfl)
  | ub s => exact .ub
  | oof => exact .oof

end

macro "hsame" : term => `(by exact Hn.same rfl rfl rfl)

/-- The operators of a task are in order for rule `o`. -/
def TaskAt (P : Nat → Bool) (o : Option Nat) : Task V → Prop
  | .ope e => e.precIn (fun q => decide (o = some q) && P q) = true
  | .rep e _ _ => e.precIn (fun q => decide (o = some q) && P q) = true
  | .hold _ => True
  | .grow .. => True
  | .prec a b _ r _ => o = some r ∧ P r = true ∧ a.precIn (fun q => decide (o = some q) && P q) = true ∧
      b.precIn (fun q => decide (o = some q) && P q) = true
  | .precLoop a b _ r _ _ _ => o = some r ∧ P r = true ∧ a.precIn (fun q => decide (o = some q) && P q) = true ∧
      b.precIn (fun q => decide (o = some q) && P q) = true

section
variable {cfg : Cfg V} {evs : Option V → List Ev} {S P : Nat → Bool} {rec : Rec V}
  (tr : Traced cfg evs) (both : ∀ r, S r = true → (cfg.enter r).isSome = true ∧ (cfg.leave r).isSome = true) (pk : PrecOk cfg P)
  (nr : cfg.recognizeOnly = false)
  (ih : ∀ o t i st, TopOk st → TaskAt P o t → HnO cfg evs S P o st (rec cfg t i st))
include tr both pk nr ih
variable (o : Option Nat)

omit both nr tr in
theorem skipWs_H (i : Nat) (st : St V) (t : TopOk st) : HnO cfg evs S P o st (skipWs rec cfg i st) := by
  unfold skipWs
  split
  · exact .okr (Hn.refl _)
  · split
    · exact .okr (Hn.refl _)
    · rename_i w hw
      exact ih o _ _ _ t (precIn_of_noPrec _ _ (pk.ws w hw))

omit tr both pk nr ih in
theorem hn_setErr (st : St V) (i : Nat) (l : Option ErrLit) : Hn cfg evs S P o st (setErr cfg st i l) := by
  unfold setErr; split <;> exact hsame

omit tr both pk nr ih in
theorem hn_fsErr (st : St V) (fs : FirstSet) (id i : Nat) : Hn cfg evs S P o st (fsErr st fs id i) := by
  unfold fsErr; repeat' split
  all_goals first | exact Hn.refl _ | exact hsame

omit tr both pk nr ih in
theorem terminal_H (i : Nat) (st : St V) (m : Option Nat) : HnO cfg evs S P o st (terminal cfg i st m) := by
  unfold terminal
  split
  · exact HnO.okr (hn_setErr _ _ _ _)
  · exact .okr (Hn.refl _)

omit both nr tr in
theorem parseLiteral_H (lit : List Byte) (ic : Bool) (el : ErrLit) (i : Nat) (st : St V) (t : TopOk st) :
    HnO cfg evs S P o st (parseLiteral rec cfg lit ic el i st) := by
  unfold parseLiteral
  split
  · split
    · exact skipWs_H pk ih _ _ _ t
    · refine Out.All.bind (p := fun _ => True) (fun _ _ => trivial) fun b _ => ?_
      split
      · refine Out.All.bind (p := fun _ => True) (fun _ _ => trivial) fun b _ => ?_
        split
        · exact skipWs_H pk ih _ _ _ t
        · exact HnO.okr (hn_setErr _ _ _ _)
      · exact skipWs_H pk ih _ _ _ t
  · exact HnO.okr (hn_setErr _ _ _ _)

omit both nr tr in
theorem parseDict_H (ws : List (List Byte)) (ic : Bool) (i : Nat) (st : St V) (t : TopOk st) :
    HnO cfg evs S P o st (parseDict rec cfg ws ic i st) := by
  unfold parseDict
  simp only
  split
  · exact HnO.okr (hn_setErr _ _ _ _)
  · refine HnO.pre (b := st.setChoice ws.length ((Trie.build ws ic).matchText (cfg.rest i)).2) hsame ?_
    split
    · exact skipWs_H pk ih _ _ _ t
    · refine Out.All.bind (p := fun _ => True) (fun _ _ => trivial) fun b _ => ?_
      split
      · exact skipWs_H pk ih _ _ _ t
      · exact HnO.okr (hn_setErr _ _ _ _)

omit both nr tr in
theorem parseBref_H (nm : List Byte) (i : Nat) (st : St V) (t : TopOk st) : HnO cfg evs S P o st (parseBref rec cfg nm i st) := by
  unfold parseBref
  split
  · exact parseLiteral_H pk ih _ _ _ _ _ _ t
  · exact .okr hsame

omit tr both pk nr ih in
theorem hn_addToken (t : Nat × Nat) (st : St V) : Hn cfg evs S P o st (addToken cfg t st) := by
  unfold addToken; split
  · exact Hn.refl _
  · exact hsame

omit tr both pk nr ih in
theorem top_addToken {t : Nat × Nat} {st : St V} (h : TopOk st) : TopOk (addToken cfg t st) := by
  unfold addToken; split <;> exact h

omit both nr tr in
theorem tokenBody_H (e : Ope) (i : Nat) (st : St V) (t : TopOk st) (he : TaskAt P o (.ope e : Task V)) :
    HnO cfg evs S P o st (tokenBody rec cfg e i st) := by
  unfold tokenBody
  refine HnO.andThen t (HnO.after (.pre (b := { st with tokCount := st.tokCount + 1 }) hsame (ih _ _ _ _ t he)) fun _ => hsame) fun j s hs => ?_
  exact (skipWs_H pk ih _ _ _ (top_addToken hs)).pre (hn_addToken _ _ _)

omit tr both pk nr in
theorem seqLoop_H (es : List Ope) (i : Nat) (st : St V) (t : TopOk st)
    (he : Ope.precInList (fun q => decide (o = some q) && P q) es = true) : HnO cfg evs S P o st (seqLoop rec cfg es i st) := by
  induction es generalizing i st with
  | nil => exact .okr (Hn.refl _)
  | cons e es ih' =>
    simp only [Ope.precInList, Bool.and_eq_true] at he
    exact HnO.andThen t (ih _ _ _ _ t he.1) fun j s hs => ih' j s hs he.2

omit both nr tr in
theorem parseSeq_H (es : List Ope) (kw : Option KwGuard) (i : Nat) (st : St V) (t : TopOk st)
    (he : Ope.precInList (fun q => decide (o = some q) && P q) es = true) :
    HnO cfg evs S P o st (parseSeq rec cfg es kw i st) := by
  unfold parseSeq
  split
  · rename_i r h
    cases kw with
    | none => cases h
    | some k =>
      simp only [Option.bind_some] at h
      unfold kwGuarded at h
      split at h
      · cases h; exact HnO.okr (hn_setErr _ _ _ _)
      · simp only at h
        split at h
        · cases h; exact HnO.okr (hn_setErr _ _ _ _)
        · split at h
          · cases h
          · cases h; exact (skipWs_H pk ih _ _ _ (top_addToken t)).pre (hn_addToken _ _ _)
  · exact seqLoop_H ih _ _ _ _ t he

omit tr both pk nr ih in
theorem hn_setCut (st : St V) (b : Bool) : Hn cfg evs S P o st (st.setCut b) := by
  unfold St.setCut; split
  · exact Hn.refl _
  · exact hsame

omit tr both pk nr ih in
theorem hn_resetCut (st : St V) : Hn cfg evs S P o st (resetCut cfg st) := by
  unfold resetCut; split
  · exact hn_setCut _ _ _
  · exact Hn.refl _

omit tr both pk nr in
theorem choLoop_H (total : Nat) (fs : List FirstSet) (es : List Ope) (id i : Nat) (st : St V) (t : TopOk st)
    (he : Ope.precInList (fun q => decide (o = some q) && P q) es = true) :
    HnO cfg evs S P o st (choLoop rec cfg total fs es id i st) := by
  induction es generalizing id st with
  | nil => exact .okr (Hn.refl _)
  | cons e es ih' =>
    simp only [Ope.precInList, Bool.and_eq_true] at he
    unfold choLoop
    split
    · exact (ih' _ _ ((hn_fsErr (cfg := cfg) (evs := evs) (S := S) (P := P) o _ _ _ _).top t) he.2).pre (hn_fsErr _ _ _ _ _)
    · have hr : Hn cfg evs S P o st ((resetCut cfg st).setKeep (id > 0)) := (hn_resetCut o st).trans hsame
      refine Out.All.bind (p := fun r => Hn cfg evs S P o st r.2) ?_ fun r hr => ?_
      · exact HnO.pre hr (ih _ _ _ _ (hr.top t) he.1)
      · split
        · exact .ok (hr.trans hsame)
        · split
          · exact .ok (hr.trans hsame)
          · exact (ih' _ (r.2.rollback st.snapshot) ((hr.top t).of_args rfl) he.2).pre (hr.trans hsame)

omit tr both pk nr in
theorem parseCho_H (es : List Ope) (l : Bool) (fs : List FirstSet) (i : Nat) (st : St V) (t : TopOk st)
    (he : Ope.precInList (fun q => decide (o = some q) && P q) es = true) :
    HnO cfg evs S P o st (parseCho rec cfg es l fs i st) := by
  unfold parseCho
  have h0 : ∀ b, Hn cfg evs S P o st (pushCut b st) := by
    intro b; unfold pushCut; split
    · exact hsame
    · exact Hn.refl _
  refine HnO.after (HnO.pre (h0 _) (choLoop_H ih _ _ _ _ _ _ _ ((h0 _).top t) he)) fun s => ?_
  unfold choExit; split <;> exact hsame

omit tr both pk nr in
theorem repMin_H (e : Ope) (k i : Nat) (st : St V) (t : TopOk st) (he : TaskAt P o (.ope e : Task V)) :
    HnO cfg evs S P o st (repMin rec cfg e k i st) := by
  induction k generalizing i st with
  | zero => exact .okr (Hn.refl _)
  | succ k ih' => exact HnO.andThen t (ih _ _ _ _ t he) fun j s hs => ih' j s hs

omit tr both pk nr in
theorem repRound_H (e : Ope) (mx : Option Nat) (c i : Nat) (st : St V) (t : TopOk st) (he : TaskAt P o (.ope e : Task V)) :
    HnO cfg evs S P o st (repRound rec cfg e mx c i st) := by
  unfold repRound
  split
  · refine Out.All.bind (ih _ _ _ _ t he) fun r hr => ?_
    split
    · exact .ok (hr.trans hsame)
    · exact (ih o (.rep e mx (c + 1)) _ _ (hr.top t) he).pre hr
  · exact .okr (Hn.refl _)

omit tr both pk nr in
theorem parseRep_H (e : Ope) (mn : Nat) (mx : Option Nat) (sp : Option Cls) (i : Nat) (st : St V) (t : TopOk st)
    (he : TaskAt P o (.ope e : Task V)) : HnO cfg evs S P o st (parseRep rec cfg e mn mx sp i st) := by
  unfold parseRep
  split
  · simp only
    split <;> split <;> first
      | exact HnO.okr (hn_setErr _ _ _ _)
      | exact .okr (Hn.refl _)
  · exact HnO.andThen t (repMin_H ih _ _ _ _ _ t he) fun j s hs => ih _ _ _ _ hs he

omit tr both pk nr in
theorem parseAnd_H (e : Ope) (i : Nat) (st : St V) (t : TopOk st) (he : TaskAt P o (.ope e : Task V)) :
    HnO cfg evs S P o st (parseAnd rec cfg e i st) := by
  unfold parseAnd
  exact Out.All.bind (ih _ _ _ _ t he) fun r hr => .ok (hr.trans hsame)

omit tr both pk nr in
theorem parseNot_H (e : Ope) (i : Nat) (st : St V) (t : TopOk st) (he : TaskAt P o (.ope e : Task V)) :
    HnO cfg evs S P o st (parseNot rec cfg e i st) := by
  unfold parseNot
  refine Out.All.bind (ih _ _ _ _ t he) fun r hr => ?_
  have : Hn cfg evs S P o st (r.2.rollback st.snapshot) := hr.trans hsame
  simp only
  split
  · exact .ok (this.trans (hn_setErr _ _ _ _))
  · exact .ok this

omit tr both pk nr in
theorem parseCapScope_H (e : Ope) (i : Nat) (st : St V) (t : TopOk st) (he : TaskAt P o (.ope e : Task V)) :
    HnO cfg evs S P o st (parseCapScope rec cfg e i st) := HnO.after (ih _ _ _ _ t he) fun _ => hsame

omit tr both pk nr in
theorem parseCap_H (nm : List Byte) (e : Ope) (i : Nat) (st : St V) (t : TopOk st) (he : TaskAt P o (.ope e : Task V)) :
    HnO cfg evs S P o st (parseCap rec cfg nm e i st) := HnO.andThen t (ih _ _ _ _ t he) fun _ _ _ => .okr hsame

omit tr both pk nr in
theorem parseIgn_H (e : Ope) (i : Nat) (st : St V) (t : TopOk st) (he : TaskAt P o (.ope e : Task V)) :
    HnO cfg evs S P o st (parseIgn rec cfg e i st) := by
  unfold parseIgn inScope
  exact HnO.after (HnO.pre (a := st) (b := { st with vs := {} }) hsame (ih o _ _ _ t he)) fun _ => hsame

omit both pk nr ih in
theorem parseUsr_H (id i : Nat) (st : St V) : HnO cfg evs S P o st (parseUsr cfg id i st) := by
  have h : ∀ f : Frame V, Hn cfg evs S P o st { st with vs := f, dt := (cfg.user id i st.vs st.dt).2.2 } := fun f =>
    ⟨rfl, _root_.id, [], by simp [tr.user], fun _ _ _ _ => rfl⟩
  unfold parseUsr
  simp only
  split
  · exact .okr (h _)
  · split
    · exact .okr (h _)
    · exact .ub

omit tr both pk nr in
theorem parseWs_H (e : Ope) (i : Nat) (st : St V) (t : TopOk st) (he : TaskAt P o (.ope e : Task V)) :
    HnO cfg evs S P o st (parseWs rec cfg e i st) := by
  unfold parseWs
  split
  · exact .okr (Hn.refl _)
  · exact HnO.after (HnO.pre (b := { st with inWs := true }) hsame (ih o _ _ _ t he)) fun _ => hsame

omit tr both pk nr ih in
theorem hn_pushRule (b : Bool) (r : Nat) (st : St V) : Hn cfg evs S P o st (pushRule b r st) := by
  unfold pushRule; split
  · exact hsame
  · exact Hn.refl _

omit tr both pk nr ih in
theorem hn_popRule (b : Bool) (st : St V) : Hn cfg evs S P o st (popRule b st) := by
  unfold popRule; split
  · exact hsame
  · exact Hn.refl _

omit tr both nr in
/-- The definition of rule `r`, run for a call of it. -/
theorem opeBody_H (r : Nat) (d : Def) (i : Nat) (st : St V) (t : TopOk st) (hd : cfg.rules[r]? = some d) :
    HnO cfg evs S P (some r) st (opeBody rec cfg r d i st) := by
  have he : TaskAt P (some r) (.ope d.ope : Task V) := by
    have := pk.own r d hd
    have e : (fun q => decide (q = r) && P r) = (fun q => decide (some r = some q) && P q) := by
      funext q
      by_cases h : q = r
      · subst h; simp
      · simp [h, Ne.symm h]
    rw [e] at this; exact this
  have hp : ∀ b, TopOk (pushRule b r st) := fun b => (hn_pushRule (cfg := cfg) (evs := evs) (S := S) (P := P) none b r st).top t
  unfold opeBody
  refine HnO.after ?_ (hn_popRule _ _)
  split
  · refine HnO.andThen t (HnO.after (HnO.pre ((hn_pushRule _ (cfg.needsRuleStack || d.hasMacroRef) r st).trans hsame) (ih _ _ _ _ (hp _) he)) fun _ => hsame) fun j s hs => skipWs_H pk ih _ _ _ hs
  · exact (ih _ _ _ _ (hp _) he).pre (hn_pushRule _ _ _ _)

omit both pk nr ih in
/-- What running an action does to the notes. -/
theorem callAction_dt (r : Nat) (f : Frame V) (pd : Option V) (st : St V) :
    evs (callAction cfg r f pd st).2.dt = evs st.dt ++ (if (cfg.action r).isSome then [.act r] else []) ∧
    (callAction cfg r f pd st).2.args = st.args ∧ (callAction cfg r f pd st).2.recovered = st.recovered := by
  unfold callAction
  simp only
  cases h : cfg.action r with
  | none => simp
  | some a => exact ⟨by rw [tr.act r a h]; simp, rfl, rfl⟩

omit both pk nr ih in
theorem reduce_dt (r : Nat) (d : Def) (hd : cfg.rules[r]? = some d) (f : Frame V) (pd : Option V) (st : St V) :
    evs (reduce cfg r d f pd st).2.dt = evs st.dt ++ (if acts cfg r then [.act r] else []) ∧
    (reduce cfg r d f pd st).2.args = st.args ∧ (reduce cfg r d f pd st).2.recovered = st.recovered := by
  unfold reduce acts hasAction
  rw [hd]
  simp only [Option.map_some, Option.getD_some]
  by_cases h : ((cfg.action r).isSome || st.precToks.any (·.1 = r)) = true ∧ d.disableAction = false
  · rw [if_pos (by simpa using h)]
    have := callAction_dt tr r f pd st
    simpa [h.2] using this
  · rw [if_neg (by simpa using h)]
    refine ⟨?_, rfl, rfl⟩
    rw [if_neg]
    · simp
    · intro hx
      simp only [Bool.and_eq_true, Bool.not_eq_true'] at hx
      exact h ⟨by rw [hx.1]; rfl, hx.2⟩

omit both pk nr ih in
/-- The end of a call: the action is run if it succeeded and nothing was recovered. -/
theorem finishRule_dt (r : Nat) (d : Def) (hd : cfg.rules[r]? = some d) (i : Nat) (x : Option Nat) (st : St V) :
    evs (finishRule cfg r d i x st).2.2.dt =
      evs st.dt ++ (if (finishRule cfg r d i x st).1.isSome && acts cfg r && !st.recovered then [.act r] else []) ∧
    (finishRule cfg r d i x st).2.2.args = st.args ∧ (finishRule cfg r d i x st).2.2.recovered = st.recovered := by
  unfold finishRule
  cases x with
  | none => simp only; split <;> simp
  | some j =>
    simp only
    cases cfg.predicate r with
    | none =>
      simp only
      cases hr : st.recovered with
      | true => simp
      | false =>
        have := reduce_dt tr r d hd (finishFrame r d i j st.vs) none { st with vs := finishFrame r d i j st.vs }
        simpa [hr] using this
    | some p =>
      simp only
      by_cases hq : (p (finishFrame r d i j st.vs) st.dt).1 = true
      · simp only [hq, if_true]
        cases hr : st.recovered with
        | true => simp
        | false =>
          have := reduce_dt tr r d hd (finishFrame r d i j st.vs) (p (finishFrame r d i j st.vs) st.dt).2.2
            { st with vs := finishFrame r d i j st.vs }
          simpa [hr] using this
      · simp only [hq, Bool.false_eq_true, if_false]
        split <;> simp

omit nr in
theorem doParse_H (r : Nat) (d : Def) (i : Nat) (st : St V) (t : TopOk st) (hd : cfg.rules[r]? = some d) :
    HnV cfg evs S P o st (doParse rec cfg r d i st) := by
  -- the start of the call
  have he : evs (callEnter cfg r i st).dt = evs st.dt ++ (if (cfg.enter r).isSome then [.enter r i] else []) ∧
      (callEnter cfg r i st).args = st.args ∧ (callEnter cfg r i st).recovered = st.recovered := by
    unfold callEnter
    cases h : cfg.enter r with
    | none => simp
    | some f => exact ⟨by simpa using tr.enter r f h i st.dt, rfl, rfl⟩
  unfold doParse
  refine Out.All.bind (p := fun x : Res V => Hn cfg evs S P (some r) { callEnter cfg r i st with vs := {} } x.2)
    (opeBody_H pk ih r d i _ (t.of_args he.2.1) hd) fun x hx => ?_
  obtain ⟨w, ew, hw⟩ := hx.calls
  have fin := finishRule_dt tr r d hd i x.1 x.2
  generalize hy : finishRule cfg r d i x.1 x.2 = y at fin ⊢
  -- the whole call
  have done : ∀ st' : St V, st'.args = y.2.2.args → st'.recovered = y.2.2.recovered →
      evs st'.dt = evs y.2.2.dt ++ (if (cfg.leave r).isSome then [.leave r i y.1] else []) → Hn cfg evs S P o st st' := by
    intro st' h1 h2 h3
    refine ⟨by rw [h1, fin.2.1, hx.args]; exact he.2.1, fun h => ?_, ?_⟩
    · rw [h2, fin.2.2]; exact hx.recov (by show (callEnter cfg r i st).recovered = true; rw [he.2.2]; exact h)
    · have ew : evs x.2.dt = evs (callEnter cfg r i st).dt ++ w := ew
      refine ⟨_, by rw [h3, fin.1, ew, he.1, List.append_assoc, List.append_assoc, List.append_assoc], fun ex hex s hs => ?_⟩
      rw [h2, fin.2.2] at hex
      cases hS : S r with
      | false =>
        -- not watched: only the calls inside
        have hw := hw ex hex s ⟨hs.1, fun q hq hqs => by cases hq; rw [hS] at hqs; cases hqs⟩
        have e1 : (if (cfg.enter r).isSome then [Ev.enter r i] else []).filter (fun e => S e.rule) = [] := by
          split <;> simp [Ev.rule, hS]
        have e2 : (if y.1.isSome && acts cfg r && !x.2.recovered then [Ev.act r] else []).filter (fun e => S e.rule) = [] := by
          split <;> simp [Ev.rule, hS]
        have e3 : (if (cfg.leave r).isSome then [Ev.leave r i y.1] else []).filter (fun e => S e.rule) = [] := by
          split <;> simp [Ev.rule, hS]
        rw [List.filter_append, List.filter_append, List.filter_append, e1, e2, e3]
        simpa using hw
      | true =>
        have hw := hw ex hex ((r, i, false) :: s) ⟨rfl, fun q hq _ => by cases hq; exact ⟨i, s, rfl⟩⟩
        rw [if_pos (both r hS).1, if_pos (both r hS).2, List.filter_append, List.filter_append, List.filter_append]
        have e1 : [Ev.enter r i].filter (fun e => S e.rule) = [Ev.enter r i] := by simp [Ev.rule, hS]
        have e3 : [Ev.leave r i y.1].filter (fun e => S e.rule) = [Ev.leave r i y.1] := by simp [Ev.rule, hS]
        have e2 : (if y.1.isSome && acts cfg r && !x.2.recovered then [Ev.act r] else []).filter (fun e => S e.rule) =
            (if y.1.isSome && acts cfg r && !x.2.recovered then [Ev.act r] else []) := by
          split <;> simp [Ev.rule, hS]
        rw [e1, e2, e3]
        simp only [List.cons_append, List.nil_append, noteAll, noteStep, hs.1, Option.bind_some, noteAll_append, hw,
          Bool.false_eq_true, if_false]
        cases hc : (y.1.isSome && acts cfg r && !x.2.recovered) with
        | true =>
          simp only [Bool.and_eq_true] at hc
          simp only [if_true, noteAll, noteStep, decide_true, Bool.and_self, Bool.not_false, Option.bind_some, Bool.true_and]
          rw [if_pos]
          · rfl
          · cases hP : P r with
            | true => simp
            | false => cases ex <;> simp [hc.1.1, hc.1.2]
        | false =>
          simp only [Bool.false_eq_true, if_false, noteAll, noteStep, decide_true, Bool.and_self, Bool.true_and, Option.bind_some]
          rw [if_pos]
          · rfl
          · cases hP : P r with
            | true => simp
            | false =>
              cases ex with
              | false => simp
              | true =>
                have := hex rfl
                rw [this] at hc
                simp only [Bool.not_false, Bool.and_true] at hc
                simp [hc]
  simp only
  cases hl : cfg.leave r with
  | none => exact .ok (done _ rfl rfl (by simp [hl]))
  | some f => exact .ok (done _ rfl rfl (by rw [hl]; exact tr.leave r f hl i y.1 y.2.1 y.2.2.dt))

omit tr both pk nr ih in
theorem hn_writeMemo (r i j : Nat) (v : Option V) (st : St V) : Hn cfg evs S P o st (writeMemo cfg r i j v st) := by
  unfold writeMemo
  repeat' split
  all_goals first | exact Hn.refl _ | exact hsame

omit tr both pk nr ih in
theorem hn_clearMemo (r i : Nat) (st : St V) : Hn cfg evs S P o st (clearMemo cfg r i st) := by
  unfold clearMemo
  repeat' split
  all_goals first | exact Hn.refl _ | exact hsame

omit tr both pk nr ih in
theorem reentered_H (st : St V) : HnV cfg evs S P o st (reentered cfg st) := fun r h => by
  rw [reentered_ok h]; exact Hn.refl _

omit tr both pk nr ih in
theorem guarded_H (r i : Nat) (st : St V) (t : TopOk st) (fn : St V → Out (VRes V)) (hf : ∀ s, TopOk s → HnV cfg evs S P o s (fn s)) :
    HnV cfg evs S P o st (guarded cfg r i st fn) := by
  unfold guarded
  split
  · split
    · split
      · exact .ub
      · split
        · exact reentered_H _ _
        · exact Out.All.bind ((hf _ (by exact t.of_args rfl)).pre (a := st) hsame) fun x hx => .ok (hx.trans hsame)
    · split
      · exact .ub
      · split
        · exact .ok (Hn.refl _)
        · exact .ok (Hn.refl _)
        · refine Out.All.bind ((hf _ (by exact t.of_args rfl)).pre (a := st) hsame) fun x hx => ?_
          split
          · exact .ok (hx.trans (hn_writeMemo _ _ _ _ _ _))
          · exact .ok hx
  · split
    · exact .ub
    · split
      · exact reentered_H _ _
      · rename_i fs _ ha _
        refine Out.All.bind ((hf _ ?_).pre (a := st) hsame) fun x hx => .ok (hx.trans hsame)
        exact t.of_args rfl

omit tr both pk nr ih in
theorem hn_emplace (d : Def) (v : Option V) (st : St V) : Hn cfg evs S P o st (emplace cfg d v st) := by
  unfold emplace; split
  · exact hsame
  · exact Hn.refl _

omit tr both pk nr ih in
theorem hn_growDone (r inst : Nat) (d : Def) (i j : Nat) (v : Option V) (st : St V) :
    Hn cfg evs S P o st (growDone cfg r inst d i j v st).2 := by
  unfold growDone
  simp only
  refine Hn.trans ?_ (hn_emplace _ _ _ _)
  split
  · exact hsame
  · exact (hn_writeMemo _ _ _ _ _ _).trans hsame

omit nr in
theorem growRound_H (r inst : Nat) (cyc : List (Nat × Nat)) (j : Nat) (v : Option V) (i : Nat) (st : St V) (t : TopOk st) :
    HnO cfg evs S P o st (growRound rec cfg r inst cyc j v i st) := by
  unfold growRound
  split
  · exact .ub
  · rename_i d hd
    have h0 : Hn cfg evs S P o st (if d.isMacro then st else clearMemo cfg r i st) := by
      split
      · exact Hn.refl _
      · exact hn_clearMemo _ _ _ _
    simp only
    refine Out.All.bind (p := fun x : VRes V => Hn cfg evs S P o st x.2.2)
      (HnV.pre (h0.trans ?_) (doParse_H tr both pk ih _ _ _ _ _ (h0.top t) hd)) fun x hx => ?_
    · exact hsame
    · split
      · exact .ok (hx.trans (hn_growDone _ _ _ _ _ _ _ _))
      · split
        · exact .ok (hx.trans (hn_growDone _ _ _ _ _ _ _ _))
        · exact (ih o _ _ _ (by exact (hx.top t).of_args rfl) (by exact trivial)).pre (hx.trans hsame)

omit nr in
theorem lrHold_H (r : Nat) (d : Def) (i : Nat) (st : St V) (t : TopOk st) (hd : cfg.rules[r]? = some d) :
    HnO cfg evs S P o st (lrHold rec cfg r d i st) := by
  unfold lrHold
  split
  · exact .ub
  · split
    · simp only
      split
      · exact Out.All.ok (Hn.trans hsame (hn_emplace o d _ _))
      · exact .okr hsame
    · refine Out.All.bind (p := fun x : VRes V => Hn cfg evs S P o st x.2.2)
        (HnV.pre ?_ (doParse_H tr both pk ih _ _ _ _ _ (t.of_args rfl) hd)) fun x hx => ?_
      · exact hsame
      · simp only
        split
        · exact .ok (hx.trans hsame)
        · exact (ih o _ _ _ (by exact (hx.top t).of_args rfl) (by exact trivial)).pre (hx.trans hsame)

theorem holder_H (r i : Nat) (st : St V) (t : TopOk st) : HnO cfg evs S P o st (holder rec cfg r i st) := by
  unfold holder
  split
  · exact .ub
  · rename_i d hd
    split
    · rename_i hm
      simp only [Bool.and_eq_true, Bool.not_eq_true'] at hm
      exact HnO.after ((ih o (.ope d.ope) _ _ (by exact t.of_args rfl) (precIn_of_noPrec _ _ (pk.macro_ r d hd hm.1 hm.2))).pre (a := st) hsame) fun _ => hsame
    · split
      · exact lrHold_H tr both pk ih _ _ _ _ _ t hd
      · rw [if_neg (by rw [nr]; simp)]
        refine Out.All.bind (guarded_H o _ _ _ t _ fun s hs => doParse_H tr both pk ih _ _ _ _ _ hs hd) fun x hx => ?_
        split
        · exact .ok (hx.trans (hn_emplace _ _ _ _))
        · exact .ok hx

omit tr both pk nr ih in
theorem withArgs_H (st : St V) (f : List Ope × Nat) (hf : ∀ e ∈ f.1, e.noPrec = true) (x : St V → Out (Res V))
    (hx : ∀ s, TopOk s → HnO cfg evs S P o s (x s)) : HnO cfg evs S P o st (withArgs st f x) := by
  unfold withArgs
  have h := hx { st with args := f :: st.args } (by intro g hg; simp at hg; subst hg; exact hf)
  cases he : x { st with args := f :: st.args } with
  | ub s => exact .ub
  | oof => exact .oof
  | ok a =>
    rw [he] at h
    have := h a rfl
    refine Out.All.ok ⟨?_, this.recov, this.calls⟩
    show a.2.args.tail = st.args
    rw [this.args]; rfl

omit tr both pk nr in
theorem refer_H (r : Nat) (as : List Ope) (i : Nat) (st : St V) (t : TopOk st) (he : Ope.noPrecList as = true) :
    HnO cfg evs S P o st (refer rec cfg r as i st) := by
  have hx : ∀ s : St V, TopOk s → HnO cfg evs S P o s (rec cfg (.hold r) i s) := fun s hs => ih o _ _ _ hs trivial
  unfold refer
  split
  · exact .ub
  · split
    · split
      · exact .ub
      · exact .ub
      · rename_i cur _ top inst rest _ ha
        have ht : ∀ e ∈ top, e.noPrec = true := t (top, inst) (by rw [ha]; rfl)
        split
        · exact .ub
        · rename_i c hc
          split
          · exact .ub
          · have hr := (noPrecList_iff _).mp (resolveList_noPrec (ps := c.params) ht as he)
            simp only
            split
            · exact (withArgs_H o _ _ hr _ hx).pre (a := st) hsame
            · exact withArgs_H o _ _ hr _ hx
    · split
      · exact hx _ t
      · exact withArgs_H o _ _ (by intro e he; cases he) _ hx

omit tr both pk nr in
theorem parseParam_H (k i : Nat) (st : St V) (t : TopOk st) : HnO cfg evs S P o st (parseParam rec cfg k i st) := by
  unfold parseParam
  split
  · exact .ub
  · rename_i top _ _ ha
    split
    · exact .ub
    · rename_i e hke
      exact ih o _ _ _ t (precIn_of_noPrec _ _ (t (_, _) (by rw [ha]; rfl) e (List.mem_of_getElem? hke)))

omit tr both pk nr in
theorem parsePrec_H (a b : Ope) (info : List (List Byte × Nat × Byte)) (r mp i : Nat) (st : St V) (t : TopOk st)
    (ht : TaskAt P o (.prec a b info r mp : Task V)) : HnO cfg evs S P o st (parsePrec rec cfg a b info r mp i st) := by
  unfold parsePrec
  refine HnO.andThen t (ih _ _ _ _ t ht.2.2.1) fun j s hs => ?_
  refine Out.All.bind (p := fun _ => True) (fun _ _ => trivial) fun q _ => ?_
  exact HnO.after ((ih o (.precLoop a b info r mp q i) _ _ (by exact hs.of_args rfl) ht).pre (a := s) hsame) fun _ => hsame

omit both pk nr ih in
theorem hn_precReduce (r s j : Nat) (st : St V) (hP : P r = true) : Hn cfg evs S P (some r) st (precReduce cfg r s j st) := by
  unfold precReduce
  split
  · simp only
    have h := callAction_dt tr r { st.vs with sv := (s, j - s) } none st
    refine ⟨h.2.1, fun x => by simpa [h.2.2] using x, _, h.1, fun ex _ u hu => ?_⟩
    split
    · cases hS : S r with
      | false => simp [Ev.rule, hS, noteAll]
      | true =>
        obtain ⟨i, v, rfl⟩ := hu.2 r rfl hS
        simp [Ev.rule, hS, noteAll, noteStep, hP]
    · rfl
  · exact hsame

omit both pk nr in
theorem precRound_H (a b : Ope) (info : List (List Byte × Nat × Byte)) (r mp q s i : Nat) (st : St V) (t : TopOk st)
    (ht : TaskAt P o (.precLoop a b info r mp q s : Task V)) :
    HnO cfg evs S P o st (precRound rec cfg a b info r mp q s i st) := by
  have hor := ht.1
  subst hor
  unfold precRound
  split
  · refine Out.All.bind (p := fun x : Res V => Hn cfg evs S P (some r) st x.2)
      ((ih (some r) (.ope b) _ _ (by exact t.of_args rfl) ht.2.2.2).pre (a := st) hsame) fun x hx => ?_
    simp only
    split
    · exact .ok (hx.trans hsame)
    · split
      · exact .ok (hx.trans hsame)
      · split
        · exact .ok (hx.trans hsame)
        · split
          · exact .ub
          · refine Out.All.bind (p := fun y : Res V => Hn cfg evs S P (some r) st y.2)
              ((ih (some r) (.prec a b info r _) _ _ (by exact (hx.top t).of_args rfl) ht).pre (hx.trans hsame)) fun y hy => ?_
            split
            · exact .ok (hy.trans hsame)
            · split
              · exact .ub
              · have h3 : ∀ (k : Nat) (z : St V), Hn cfg evs S P (some r) st z → Hn cfg evs S P (some r) st (precReduce cfg r s k z) :=
                  fun k z h => h.trans (hn_precReduce tr r s k z ht.2.1)
                intro z hz
                have h4 := fun vs => h3 ‹_› { y.2 with vs := vs } (hy.trans hsame)
                exact (ih (some r) (.precLoop a b info r mp q s) _ _ (by exact (h4 _).top t) ht).pre (h4 _) z hz
  · exact .okr (Hn.refl _)

omit tr both pk nr in
theorem parseRecov_H (r : Nat) (nm : List Byte) (as : List Ope) (i : Nat) (st : St V) (t : TopOk st) (he : Ope.noPrecList as = true) :
    HnO cfg evs S P o st (parseRecov rec cfg r nm as i st) := by
  unfold parseRecov
  simp only
  refine Out.All.bind (p := fun s => Hn cfg evs S P o st s) ?_ fun s hs => ?_
  · split
    · split
      · exact .ub
      · split
        · exact .ub
        · split
          · exact .ok hsame
          · exact .ok (Hn.refl _)
      · exact .ub
      · exact .ok (Hn.refl _)
    · exact .ok (Hn.refl _)
  · refine Out.All.bind (p := fun x : Res V => x.2.args = s.args ∧ (s.recovered = true → x.2.recovered = true))
      (fun x hx => ?_) fun x hx => ?_
    · have := ih o (.ope (.ref r nm as)) _ _ (by exact (hs.top t).of_args rfl) he x hx
      exact ⟨this.args, this.recov⟩
    have h1 : Hn cfg evs S P o s { x.2 with logOn := s.logOn, vs := s.vs, dt := s.dt } :=
      ⟨hx.1, hx.2, [], by simp, fun _ _ _ _ => rfl⟩
    have h2 : ∀ l e, Hn cfg evs S P o s { x.2 with logOn := s.logOn, vs := s.vs, dt := s.dt, recovered := true, logs := l, err := e } :=
      fun _ _ => ⟨hx.1, fun _ => rfl, [], by simp, fun _ _ _ _ => rfl⟩
    refine Out.All.bind (p := fun s' => Hn cfg evs S P o st s') ?_ fun s' hs' => ?_
    · split
      · split
        · intro s' h'
          obtain ⟨u, hu, he⟩ := Out.bind_eq_ok.1 h'
          cases he
          exact hs.trans (h2 _ _)
        · exact .ok (hs.trans (h2 _ _))
      · exact .ok (hs.trans h1)
    · exact .ok (hs'.trans (hn_setCut _ _ _))

omit nr both in
theorem parseOpe_H (e : Ope) (i : Nat) (st : St V) (t : TopOk st) (he : TaskAt P o (.ope e : Task V)) :
    HnO cfg evs S P o st (parseOpe rec cfg e i st) := by
  unfold parseOpe
  split
  · exact .ub
  · cases e with
    | seq es kw => simp only [TaskAt, Ope.precIn] at he; exact parseSeq_H pk ih _ _ _ _ _ t he
    | cho es l fs => simp only [TaskAt, Ope.precIn] at he; exact parseCho_H ih _ _ _ _ _ _ t he
    | rep e mn mx sp => simp only [TaskAt, Ope.precIn] at he; exact parseRep_H ih _ _ _ _ _ _ _ t he
    | and_ e => simp only [TaskAt, Ope.precIn] at he; exact parseAnd_H ih _ _ _ _ t he
    | not_ e => simp only [TaskAt, Ope.precIn] at he; exact parseNot_H ih _ _ _ _ t he
    | dict w ic => exact parseDict_H pk ih _ _ _ _ _ t
    | lit s ic => exact parseLiteral_H pk ih _ _ _ _ _ _ t
    | cls c => exact terminal_H _ _ _ _
    | chr c => exact terminal_H _ _ _ _
    | dot => exact terminal_H _ _ _ _
    | capScope e => simp only [TaskAt, Ope.precIn] at he; exact parseCapScope_H ih _ _ _ _ t he
    | cap nm e => simp only [TaskAt, Ope.precIn] at he; exact parseCap_H ih _ _ _ _ _ t he
    | tok e => simp only [TaskAt, Ope.precIn] at he; exact tokenBody_H pk ih _ _ _ _ t he
    | ign e => simp only [TaskAt, Ope.precIn] at he; exact parseIgn_H ih _ _ _ _ t he
    | usr id => exact parseUsr_H tr _ _ _ _
    | weak r => exact ih o _ _ _ t trivial
    | ref r nm as => simp only [TaskAt, Ope.precIn] at he; exact refer_H ih _ _ _ _ _ t he
    | param k nm => exact parseParam_H ih _ _ _ _ t
    | ws e => simp only [TaskAt, Ope.precIn] at he; exact parseWs_H ih _ _ _ _ t he
    | bref nm => exact parseBref_H pk ih _ _ _ _ t
    | prec a b info r =>
      simp only [TaskAt, Ope.precIn, Bool.and_eq_true, decide_eq_true_eq] at he
      exact ih o _ _ _ t ⟨he.1.1.1, he.1.1.2, he.1.2, he.2⟩
    | recov r nm as => simp only [TaskAt, Ope.precIn] at he; exact parseRecov_H ih _ _ _ _ _ _ t he
    | cut => exact .okr (hn_setCut _ _ _)
    | null => exact .ub

theorem step_H (k : Task V) (i : Nat) (st : St V) (t : TopOk st) (he : TaskAt P o k) :
    HnO cfg evs S P o st (step rec cfg k i st) := by
  cases k with
  | ope e => exact parseOpe_H tr pk ih _ _ _ _ t he
  | rep e mx c => exact repRound_H ih _ _ _ _ _ _ t he
  | hold r => exact holder_H tr both pk nr ih _ _ _ _ t
  | grow r inst cyc j v => exact growRound_H tr both pk ih _ _ _ _ _ _ _ _ t
  | prec a b info r mp => exact parsePrec_H ih _ _ _ _ _ _ _ _ t he
  | precLoop a b info r mp bin s => exact precRound_H tr ih _ _ _ _ _ _ _ _ _ _ t he

end

section
variable {cfg : Cfg V} {evs : Option V → List Ev} {S P : Nat → Bool}
  (tr : Traced cfg evs) (both : ∀ r, S r = true → (cfg.enter r).isSome = true ∧ (cfg.leave r).isSome = true) (pk : PrecOk cfg P)
  (nr : cfg.recognizeOnly = false)
include tr both pk nr

theorem run_H (n : Nat) (o : Option Nat) (k : Task V) (i : Nat) (st : St V) (t : TopOk st) (he : TaskAt P o k) :
    HnO cfg evs S P o st (run n cfg k i st) := by
  induction n generalizing o k i st with
  | zero => exact .oof
  | succ n ih => exact step_H tr both pk nr ih _ _ _ _ t he

/-- A whole parse. -/
theorem parseCore_H (n : Nat) (r : Nat) (eoi : Bool) (st : St V) (t : TopOk st) :
    (parseCore n cfg r eoi st).All fun res => Hn cfg evs S P none st res.st := by
  unfold parseCore
  refine Out.All.bind (p := fun x : Res V => Hn cfg evs S P none st x.2) ?_ fun x hx => ?_
  · split
    · exact .ok (Hn.refl _)
    · rename_i w hw
      exact run_H tr both pk nr _ _ _ _ _ t (precIn_of_noPrec _ _ (pk.ws w hw))
  · split
    · exact .ok hx
    · refine Out.All.bind (p := fun x : Res V => Hn cfg evs S P none st x.2)
        ((run_H tr both pk nr n none (.hold r) _ _ (hx.top t) trivial).pre hx) fun y hy => ?_
      split
      · exact .ok hy
      · unfold eoiCheck
        split
        · simp only
          split
          · exact .ok (hy.trans hsame)
          · exact .ok hy
        · exact .ok hy

end
end Verif
