import Verif.Session
/-!
# Two parses in lock step: recognise-only mode, the rule stack and logging

A parse with a logger and one without, or a parse in recognise-only mode and one that builds values, go through the same positions: the
results agree and the states differ only in the values, the error data, the rule stack and the logging switch (`run_lk`).  The parse without
logger is the reference; the one with logger may run into undefined behaviour of its own (reports that point into destroyed captures).
-/

namespace Verif
open Out

variable {V : Type}

/-! ## Which expressions look at the rule stack -/

mutual
/-- The expression contains a macro parameter outside the arguments of references. -/
def Ope.hasParam : Ope → Bool
  | .seq es _ => Ope.hasParamL es
  | .cho es _ _ => Ope.hasParamL es
  | .rep e _ _ _ => e.hasParam
  | .and_ e => e.hasParam
  | .not_ e => e.hasParam
  | .capScope e => e.hasParam
  | .cap _ e => e.hasParam
  | .tok e => e.hasParam
  | .ign e => e.hasParam
  | .ws e => e.hasParam
  | .ref _ _ _ => false
  | .recov _ _ _ => false
  | .prec a b _ _ => a.hasParam || b.hasParam
  | .param _ _ => true
  | .cut => false
  | .weak _ => false
  | .usr _ => false
  | .dict _ _ => false
  | .lit _ _ => false
  | .cls _ => false
  | .chr _ => false
  | .dot => false
  | .bref _ => false
  | .null => false

def Ope.hasParamL : List Ope → Bool
  | [] => false
  | e :: es => e.hasParam || Ope.hasParamL es
end

/-- Evaluating the expression may look at the top of the rule stack. -/
def Ope.sees (rs : List Def) (e : Ope) : Bool := e.callsMacro rs || e.hasParam
def Ope.seesL (rs : List Def) (es : List Ope) : Bool := Ope.callsMacroL rs es || Ope.hasParamL es

/-! ## The two states -/

/-- What may differ between the two states. -/
structure Dress (V : Type) where
  vs : Frame V
  err : Err
  logs : List Report
  fails : List Fail
  ruleStack : List Nat
  logOn : Bool

/-- The other state. -/
@[reducible] def St.dress (st : St V) (y : Dress V) : St V :=
  { st with vs := y.vs, err := y.err, logs := y.logs, fails := y.fails, ruleStack := y.ruleStack, logOn := y.logOn }

/-- The other configuration. -/
@[reducible] def Cfg.mode (cfg : Cfg V) (ro ns : Bool) : Cfg V := { cfg with recognizeOnly := ro, needsRuleStack := ns }

def NoV (f : Frame V) : Prop := ∀ v ∈ f.vals, v = none

/-- No values in the tables. -/
def Blank (s : St V) : Prop :=
  (∀ k j v, s.memo k = some (some (j, v)) → v = none) ∧ (∀ k j v, (k, some (j, v)) ∈ s.lrMemo → v = none) ∧ s.precToks = []

/-- With `b` both parses build the same values, without it nothing builds or observes values. -/
def Par (b : Bool) (s : St V) (y : Dress V) : Prop :=
  s.logOn = false ∧ (b = true → y.vs = s.vs) ∧ (b = false → NoV s.vs ∧ NoV y.vs ∧ Blank s)

/-- The states before a task: argument stack `a` and the two rule stacks. -/
def Mate (b : Bool) (a : List (List Ope × Nat)) (k k' : List Nat) (s : St V) (y : Dress V) : Prop :=
  Par b s y ∧ s.args = a ∧ s.ruleStack = k ∧ y.ruleStack = k'

/-- The two outcomes: the second may be undefined on its own account. -/
def Lk {α : Type} (p : α → α → Prop) (x x' : Out α) : Prop :=
  match x' with
  | .ok r' => ∃ r, x = .ok r ∧ p r r'
  | .ub _ => True
  | .oof => x = .oof

/-- Related results. -/
def LR (b : Bool) (a : List (List Ope × Nat)) (k k' : List Nat) (r r' : Res V) : Prop :=
  r'.1 = r.1 ∧ ∃ y, r'.2 = r.2.dress y ∧ Mate b a k k' r.2 y

def LV (b : Bool) (a : List (List Ope × Nat)) (k k' : List Nat) (r r' : VRes V) : Prop :=
  r'.1 = r.1 ∧ r'.2.1 = r.2.1 ∧ (b = false → r.2.1 = none) ∧ ∃ y, r'.2.2 = r.2.2.dress y ∧ Mate b a k k' r.2.2 y

theorem Lk.ok {α : Type} {p : α → α → Prop} {r r' : α} (h : p r r') : Lk p (.ok r) (.ok r') := ⟨r, rfl, h⟩
theorem Lk.ub {α : Type} {p : α → α → Prop} {x : Out α} (s : String) : Lk p x (.ub s) := trivial

theorem Lk.bind {α β : Type} {p : α → α → Prop} {q : β → β → Prop} {x x' : Out α} {f f' : α → Out β} (h : Lk p x x')
    (hf : ∀ r r', p r r' → Lk q (f r) (f' r')) : Lk q (x.bind f) (x'.bind f') := by
  cases x' with
  | ub s => exact trivial
  | oof => have h : x = .oof := h; subst h; exact rfl
  | ok r' =>
    obtain ⟨r, rfl, hp⟩ := h
    exact hf r r' hp

/-- Both go through the same computation first. -/
theorem Lk.same {α β : Type} {q : β → β → Prop} (x : Out α) {f f' : α → Out β} (hf : ∀ r, Lk q (f r) (f' r)) : Lk q (x.bind f) (x.bind f') := by
  cases x with
  | ub s => exact trivial
  | oof => exact rfl
  | ok r => exact hf r

theorem LR.mk {b : Bool} {a : List (List Ope × Nat)} {k k' : List Nat} {o : Option Nat} {s : St V} {y : Dress V} (h : Mate b a k k' s y) :
    LR b a k k' (o, s) (o, s.dress y) := ⟨rfl, y, rfl, h⟩

theorem Lk.andThen {b : Bool} {a : List (List Ope × Nat)} {k k' : List Nat} {q : Res V → Res V → Prop} {x x' : Out (Res V)} {f f' : Nat → St V → Out (Res V)}
    (h : Lk (LR b a k k') x x') (hn : ∀ s y, Mate b a k k' s y → q (none, s) (none, s.dress y))
    (hf : ∀ j s y, Mate b a k k' s y → Lk q (f j s) (f' j (s.dress y))) : Lk q (andThen x f) (andThen x' f') := by
  refine Lk.bind h fun r r' hr => ?_
  obtain ⟨o, s⟩ := r
  obtain ⟨o', s'⟩ := r'
  obtain ⟨h1, y, h2, h3⟩ := hr
  dsimp only at h1 h2 h3
  subst h1; subst h2
  cases o' with
  | none => exact Lk.ok (hn s y h3)
  | some j => exact hf j s y h3

theorem Lk.then' {b : Bool} {a : List (List Ope × Nat)} {k k' : List Nat} {x x' : Out (Res V)} {f f' : Nat → St V → Out (Res V)}
    (h : Lk (LR b a k k') x x') (hf : ∀ j s y, Mate b a k k' s y → Lk (LR b a k k') (f j s) (f' j (s.dress y))) :
    Lk (LR b a k k') (Verif.andThen x f) (Verif.andThen x' f') := Lk.andThen h (fun _ _ ht => LR.mk ht) hf

theorem Lk.after {b : Bool} {a a' : List (List Ope × Nat)} {k k' l l' : List Nat} {x x' : Out (Res V)} {f f' : St V → St V}
    (h : Lk (LR b a k k') x x') (hf : ∀ s y, Mate b a k k' s y → ∃ z, f' (s.dress y) = (f s).dress z ∧ Mate b a' l l' (f s) z) :
    Lk (LR b a' l l') (after x f) (after x' f') := by
  refine Lk.bind h fun r r' hr => ?_
  obtain ⟨h1, y, h2, h3⟩ := hr
  obtain ⟨z, h4, h5⟩ := hf _ _ h3
  refine Lk.ok ⟨h1, z, ?_, h5⟩
  show f' r'.2 = _
  rw [h2]; exact h4

/-- With both components named. -/
theorem Lk.res {b : Bool} {a : List (List Ope × Nat)} {k k' : List Nat} {q : Res V → Res V → Prop} {x x' : Out (Res V)} {f f' : Res V → Out (Res V)}
    (h : Lk (LR b a k k') x x') (hf : ∀ o s y, Mate b a k k' s y → Lk q (f (o, s)) (f' (o, s.dress y))) : Lk q (x.bind f) (x'.bind f') := by
  refine Lk.bind h fun r r' hr => ?_
  obtain ⟨o, s⟩ := r
  obtain ⟨o', s'⟩ := r'
  obtain ⟨h1, y, h2, h3⟩ := hr
  dsimp only at h1 h2 h3
  subst h1; subst h2
  exact hf o' s y h3

/-! ## The conditions -/

/-- Only rules of `R` and, when nothing may look at values, no precedence climbing and no user operator. -/
def Fit (b : Bool) (R : Nat → Prop) (e : Ope) : Prop := OpeIn R e ∧ (b = false → e.opqs = false)
def FitL (b : Bool) (R : Nat → Prop) (es : List Ope) : Prop := OpesIn R es ∧ (b = false → Ope.opqsL es = false)
def ArgsFit (b : Bool) (R : Nat → Prop) (a : List (List Ope × Nat)) : Prop := ∀ fr ∈ a, FitL b R fr.1

/-- The rule stacks have the same top, if the expression looks at it. -/
def Heads (sees : Bool) (k k' : List Nat) : Prop := sees = true → k.head? = k'.head?

/-- Arguments and rule stacks; when the second parse does not keep a full rule stack either, the stacks are the same. -/
def Around (b : Bool) (R : Nat → Prop) (ns : Bool) (a : List (List Ope × Nat)) (k k' : List Nat) : Prop := ArgsFit b R a ∧ (ns = false → k = k')

/-- The second parse keeps a full rule stack only where the first one keeps what is looked at. -/
structure Alike (b : Bool) (R : Nat → Prop) (cfg : Cfg V) (ro ns : Bool) : Prop where
  closed : ∀ (r : Nat) (d : Def), R r → cfg.rules[r]? = some d → Fit b R d.ope
  ws : ∀ w, cfg.ws = some w → Fit b R w ∧ (ns = true → w.sees cfg.rules = false)
  pushed : ns = true → ∀ (r : Nat) (d : Def), R r → cfg.rules[r]? = some d → d.ope.sees cfg.rules = true → d.hasMacroRef = true ∨ (d.isMacro = true ∧ d.isLR = false)
  same : b = true → ro = cfg.recognizeOnly
  quiet : b = false → ∀ (r : Nat) (d : Def), R r → cfg.rules[r]? = some d → cfg.action r = none ∧ cfg.predicate r = none ∧ cfg.enter r = none ∧ cfg.leave r = none

def TaskFit (b : Bool) (R : Nat → Prop) (rs : List Def) : Task V → Prop
  | .ope e => Fit b R e
  | .rep e _ _ => Fit b R e
  | .hold r => R r
  | .grow r _ _ _ v => (R r ∧ (b = false → v = none)) ∧ ∀ d, rs[r]? = some d → (d.isMacro && !d.isLR) = false
  | .prec x z _ _ _ => b = true ∧ OpeIn R x ∧ OpeIn R z
  | .precLoop x z _ _ _ _ _ => b = true ∧ OpeIn R x ∧ OpeIn R z

def Task.sees (rs : List Def) : Task V → Bool
  | .ope e => e.sees rs
  | .rep e _ _ => e.sees rs
  | .hold _ => false
  | .grow _ _ _ _ _ => false
  | .prec x z _ _ _ => x.sees rs || z.sees rs
  | .precLoop x z _ _ _ _ _ => x.sees rs || z.sees rs

def LkRec (b : Bool) (R : Nat → Prop) (rec : Rec V) : Prop :=
  ∀ cfg ro ns t i st y a k k', Alike b R cfg ro ns → cfg.needsRuleStack = false → TaskFit b R cfg.rules t → Around b R ns a k k' → Heads (t.sees cfg.rules) k k' → Mate b a k k' st y →
    Lk (LR b a k k') (rec cfg t i st) (rec (cfg.mode ro ns) t i (st.dress y))

/-! ## Small facts -/

theorem heads_left {s t : Bool} {k k' : List Nat} (h : Heads (s || t) k k') : Heads s k k' := fun e => h (by simp [e])
theorem heads_right {s t : Bool} {k k' : List Nat} (h : Heads (s || t) k k') : Heads t k k' := fun e => h (by simp [e])

theorem heads_cons {rs : List Def} {e : Ope} {es : List Ope} {k k' : List Nat} (h : Heads (Ope.seesL rs (e :: es)) k k') :
    Heads (e.sees rs) k k' ∧ Heads (Ope.seesL rs es) k k' := by
  constructor <;> intro x <;> apply h <;> simp only [Ope.seesL, Ope.sees, Ope.callsMacroL, Ope.hasParamL, Bool.or_eq_true] at x ⊢ <;> tauto

theorem fitL_cons {b : Bool} {R : Nat → Prop} {e : Ope} {es : List Ope} (h : FitL b R (e :: es)) : Fit b R e ∧ FitL b R es := by
  refine ⟨⟨fun u hu => h.1 u (List.mem_append_left _ hu), fun hb => ?_⟩, ⟨fun u hu => h.1 u (List.mem_append_right _ hu), fun hb => ?_⟩⟩
  all_goals
    have := h.2 hb
    simp only [Ope.opqsL, Bool.or_eq_false_iff] at this
  · exact this.1
  · exact this.2

theorem Mate.vs {b : Bool} {a : List (List Ope × Nat)} {k k' : List Nat} {s : St V} {y : Dress V} (h : Mate b a k k' s y) (f f' : Frame V)
    (h1 : b = true → f' = f) (h2 : b = false → NoV f ∧ NoV f') : Mate b a k k' { s with vs := f } { y with vs := f' } :=
  ⟨⟨h.1.1, h1, fun hb => ⟨(h2 hb).1, (h2 hb).2, (h.1.2.2 hb).2.2⟩⟩, h.2⟩

theorem Mate.errs {b : Bool} {a : List (List Ope × Nat)} {k k' : List Nat} {s : St V} {y : Dress V} (h : Mate b a k k' s y) (e e' : Err) (l l' : List Report) (f f' : List Fail) (g : Bool) :
    Mate b a k k' { s with err := e, logs := l, fails := f } { y with err := e', logs := l', fails := f', logOn := g } := h

theorem nov_empty : NoV ({} : Frame V) := by intro v hv; cases hv

theorem nov_resize {l : List (Option V)} (h : ∀ v ∈ l, v = none) (n : Nat) : ∀ v ∈ resize l n none, v = none := by
  intro v hv
  unfold resize at hv
  rcases List.mem_append.1 hv with hv | hv
  · exact h v (List.mem_of_mem_take hv)
  · exact (List.mem_replicate.1 hv).2

/-- Rolling back to where two related states were. -/
theorem mate_rollback {b : Bool} {a a' : List (List Ope × Nat)} {k k' l l' : List Nat} {s s0 : St V} {y y0 : Dress V}
    (h : Mate b a k k' s y) (h0 : Mate b a' l l' s0 y0) :
    ∃ z, (s.dress y).rollback (s0.dress y0).snapshot = (s.rollback s0.snapshot).dress z ∧ Mate b a k k' (s.rollback s0.snapshot) z := by
  refine ⟨{ y with vs := ((s.dress y).rollback (s0.dress y0).snapshot).vs }, rfl, ⟨h.1.1, fun hb => ?_, fun hb => ?_⟩, h.2⟩
  · have e1 := h.1.2.1 hb
    have e2 := h0.1.2.1 hb
    show ((s.dress y).rollback (s0.dress y0).snapshot).vs = (s.rollback s0.snapshot).vs
    unfold St.rollback St.snapshot
    simp only [St.dress, e1, e2]
  · exact ⟨nov_resize (h.1.2.2 hb).1 _, nov_resize (h.1.2.2 hb).2.1 _, (h.1.2.2 hb).2.2⟩

/-- Recording an error. -/
theorem mate_setErr {b : Bool} {a : List (List Ope × Nat)} {k k' : List Nat} {s : St V} {y : Dress V} (h : Mate b a k k' s y)
    (cfg cfg' : Cfg V) (i : Nat) (x : Option ErrLit) : ∃ z, setErr cfg' (s.dress y) i x = (setErr cfg s i x).dress z ∧ Mate b a k k' (setErr cfg s i x) z := by
  have e : setErr cfg s i x = s := by unfold setErr; rw [if_neg (by rw [h.1.1]; simp)]
  rw [e]
  unfold setErr
  split
  · exact ⟨{ y with err := _, fails := _ }, rfl, h⟩
  · exact ⟨y, rfl, h⟩

theorem lk_fail {b : Bool} {a : List (List Ope × Nat)} {k k' : List Nat} {s : St V} {y : Dress V} (h : Mate b a k k' s y)
    (cfg cfg' : Cfg V) (i : Nat) (x : Option ErrLit) : Lk (LR b a k k') (.ok (none, setErr cfg s i x)) (.ok (none, setErr cfg' (s.dress y) i x)) := by
  obtain ⟨z, h1, h2⟩ := mate_setErr h cfg cfg' i x
  exact Lk.ok ⟨rfl, z, h1, h2⟩

theorem mate_fsErr {b : Bool} {a : List (List Ope × Nat)} {k k' : List Nat} {s : St V} {y : Dress V} (h : Mate b a k k' s y)
    (fs : FirstSet) (id i : Nat) : ∃ z, fsErr (s.dress y) fs id i = (fsErr s fs id i).dress z ∧ Mate b a k k' (fsErr s fs id i) z := by
  have e : fsErr s fs id i = s := by unfold fsErr; rw [if_neg (by rw [h.1.1]; simp)]
  rw [e]
  unfold fsErr
  split
  · exact ⟨{ y with err := _, fails := _ }, rfl, h⟩
  · exact ⟨y, rfl, h⟩

theorem mate_setCut {b : Bool} {a : List (List Ope × Nat)} {k k' : List Nat} {s : St V} {y : Dress V} (h : Mate b a k k' s y) (c : Bool) :
    (s.dress y).setCut c = (s.setCut c).dress y ∧ Mate b a k k' (s.setCut c) y := by
  unfold St.setCut
  show (match s.cut with | [] => _ | _ :: t => _) = _ ∧ _
  cases hc : s.cut with
  | nil => exact ⟨rfl, h⟩
  | cons x t => exact ⟨rfl, h⟩

theorem mate_resetCut {b : Bool} {a : List (List Ope × Nat)} {k k' : List Nat} {s : St V} {y : Dress V} (h : Mate b a k k' s y) (cfg : Cfg V) (ro ns : Bool) :
    resetCut (cfg.mode ro ns) (s.dress y) = (resetCut cfg s).dress y ∧ Mate b a k k' (resetCut cfg s) y := by
  unfold resetCut
  show (if cfg.hasCut then _ else _) = _ ∧ _
  split
  · exact mate_setCut h false
  · exact ⟨rfl, h⟩

theorem nov_append {f : Frame V} (h : NoV f) {vs : List (Option V)} (hv : ∀ v ∈ vs, v = none) (t : List UInt32) :
    NoV { f with vals := f.vals ++ vs, tags := t } := by
  intro v hm
  rcases List.mem_append.1 hm with hm | hm
  · exact h v hm
  · exact hv v hm

theorem mate_addToken {b : Bool} {a : List (List Ope × Nat)} {k k' : List Nat} {s : St V} {y : Dress V} (h : Mate b a k k' s y) {cfg : Cfg V} {ro : Bool} (ns : Bool)
    (hro : b = true → ro = cfg.recognizeOnly) (t : Nat × Nat) :
    ∃ z, addToken (cfg.mode ro ns) t (s.dress y) = (addToken cfg t s).dress z ∧ Mate b a k k' (addToken cfg t s) z := by
  unfold addToken
  show ∃ z, (if ro = true then s.dress y else { s.dress y with vs := { y.vs with tokens := y.vs.tokens ++ [t] } }) = _ ∧ _
  cases b with
  | true =>
    rw [hro rfl]
    split
    · exact ⟨y, rfl, h⟩
    · exact ⟨{ y with vs := { y.vs with tokens := y.vs.tokens ++ [t] } }, rfl, h.vs _ _ (fun hb => by rw [h.1.2.1 hb]) (by intro e; cases e)⟩
  | false =>
    have h2 := h.1.2.2 rfl
    by_cases h1 : cfg.recognizeOnly = true <;> by_cases h3 : ro = true
    · rw [if_pos h1, if_pos h3]; exact ⟨y, rfl, h⟩
    · rw [if_pos h1, if_neg h3]
      exact ⟨{ y with vs := { y.vs with tokens := y.vs.tokens ++ [t] } }, rfl, h.vs s.vs _ (by intro e; cases e) (fun _ => ⟨h2.1, h2.2.1⟩)⟩
    · rw [if_neg h1, if_pos h3]
      exact ⟨y, rfl, h.vs _ y.vs (by intro e; cases e) (fun _ => ⟨h2.1, h2.2.1⟩)⟩
    · rw [if_neg h1, if_neg h3]
      exact ⟨{ y with vs := { y.vs with tokens := y.vs.tokens ++ [t] } }, rfl, h.vs _ _ (by intro e; cases e) (fun _ => ⟨h2.1, h2.2.1⟩)⟩

theorem mate_setChoice {b : Bool} {a : List (List Ope × Nat)} {k k' : List Nat} {s : St V} {y : Dress V} (h : Mate b a k k' s y) (c d : Nat) :
    ∃ z, (s.dress y).setChoice c d = (s.setChoice c d).dress z ∧ Mate b a k k' (s.setChoice c d) z :=
  ⟨{ y with vs := { y.vs with choiceCount := c, choice := d } }, rfl,
    h.vs _ _ (fun hb => by rw [h.1.2.1 hb]) fun hb => ⟨(h.1.2.2 hb).1, (h.1.2.2 hb).2.1⟩⟩


section
variable {b : Bool} {R : Nat → Prop} {rec : Rec V} (ih : LkRec b R rec) {cfg : Cfg V} {ro ns : Bool} (h : Alike b R cfg ro ns) (hns : cfg.needsRuleStack = false)
  {a : List (List Ope × Nat)} {k k' : List Nat} (hr : Around b R ns a k k')
include ih h hns hr

theorem LkRec.ope {e : Ope} (he : Fit b R e) (hk : Heads (e.sees cfg.rules) k k') (i : Nat) {st : St V} {y : Dress V} (ht : Mate b a k k' st y) :
    Lk (LR b a k k') (rec cfg (.ope e) i st) (rec (cfg.mode ro ns) (.ope e) i (st.dress y)) :=
  ih cfg ro ns (.ope e) i st y a k k' h hns he hr hk ht

theorem LkRec.hold {r : Nat} (he : R r) (i : Nat) {st : St V} {y : Dress V} (ht : Mate b a k k' st y) :
    Lk (LR b a k k') (rec cfg (.hold r) i st) (rec (cfg.mode ro ns) (.hold r) i (st.dress y)) :=
  ih cfg ro ns (.hold r) i st y a k k' h hns he hr (by intro e; cases e) ht

theorem skipWs_lk (i : Nat) {st : St V} {y : Dress V} (ht : Mate b a k k' st y) :
    Lk (LR b a k k') (skipWs rec cfg i st) (skipWs rec (cfg.mode ro ns) i (st.dress y)) := by
  unfold skipWs
  show Lk _ (if st.tokCount ≠ 0 then _ else _) (if st.tokCount ≠ 0 then _ else _)
  by_cases hc : st.tokCount ≠ 0
  · rw [if_pos hc, if_pos hc]; exact Lk.ok (LR.mk ht)
  · rw [if_neg hc, if_neg hc]
    show Lk _ (match cfg.ws with | none => _ | some w => _) (match cfg.ws with | none => _ | some w => _)
    cases hw : cfg.ws with
    | none => exact Lk.ok (LR.mk ht)
    | some w =>
      refine LkRec.ope ih h hns hr (h.ws w hw).1 ?_ i ht
      cases hn : ns with
      | false => intro _; rw [hr.2 hn]
      | true => intro e; rw [(h.ws w hw).2 hn] at e; cases e

theorem parseLiteral_lk (l : List Byte) (ic : Bool) (el : ErrLit) (i : Nat) {st : St V} {y : Dress V} (ht : Mate b a k k' st y) :
    Lk (LR b a k k') (parseLiteral rec cfg l ic el i st) (parseLiteral rec (cfg.mode ro ns) l ic el i (st.dress y)) := by
  have hs := skipWs_lk ih h hns hr (ns := ns) (i + l.length) ht
  have hf := lk_fail ht cfg (cfg.mode ro ns) i (some el)
  unfold parseLiteral
  show Lk _ _ (if litMatch l ic (cfg.rest i) = true then (match cfg.word with | none => _ | some w => _) else _)
  by_cases hm : litMatch l ic (cfg.rest i) = true
  · rw [if_pos hm, if_pos hm]
    cases cfg.word with
    | none => exact hs
    | some w =>
      refine Lk.same (isWord rec cfg w l) fun c => ?_
      cases c with
      | false => exact hs
      | true =>
        refine Lk.same (wordCheck rec cfg w (i + l.length)) fun c => ?_
        cases c with
        | false => exact hf
        | true => exact hs
  · rw [if_neg hm, if_neg hm]; exact hf

theorem parseDict_lk (wl : List (List Byte)) (ic : Bool) (i : Nat) {st : St V} {y : Dress V} (ht : Mate b a k k' st y) :
    Lk (LR b a k k') (parseDict rec cfg wl ic i st) (parseDict rec (cfg.mode ro ns) wl ic i (st.dress y)) := by
  unfold parseDict
  show Lk _ (if ((Trie.build wl ic).matchText (cfg.rest i)).1 = 0 then _ else _) (if ((Trie.build wl ic).matchText (cfg.rest i)).1 = 0 then _ else _)
  by_cases hm : ((Trie.build wl ic).matchText (cfg.rest i)).1 = 0
  · rw [if_pos hm, if_pos hm]; exact lk_fail ht _ _ _ _
  · rw [if_neg hm, if_neg hm]
    obtain ⟨z, e, ht'⟩ := mate_setChoice ht wl.length ((Trie.build wl ic).matchText (cfg.rest i)).2
    have hrest : (cfg.mode ro ns).rest i = cfg.rest i := rfl
    rw [hrest, e]
    have hs := skipWs_lk ih h hns hr (ns := ns) (i + ((Trie.build wl ic).matchText (cfg.rest i)).1) ht'
    show Lk _ (match cfg.word with | none => _ | some w => _) (match cfg.word with | none => _ | some w => _)
    cases cfg.word with
    | none => exact hs
    | some w =>
      refine Lk.same (wordCheck rec cfg w _) fun c => ?_
      cases c with
      | false => exact lk_fail ht' _ _ _ _
      | true => exact hs

theorem parseBref_lk (nm : List Byte) (i : Nat) {st : St V} {y : Dress V} (ht : Mate b a k k' st y) :
    Lk (LR b a k k') (parseBref rec cfg nm i st) (parseBref rec (cfg.mode ro ns) nm i (st.dress y)) := by
  unfold parseBref
  show Lk _ (match findCap st.caps nm with | some t => _ | none => _) (match findCap st.caps nm with | some t => _ | none => _)
  cases findCap st.caps nm with
  | some t => exact parseLiteral_lk ih h hns hr t false (.cap t) i ht
  | none => exact Lk.ok ⟨rfl, { y with err := _ }, rfl, ht⟩

theorem tokenBody_lk {e : Ope} (he : Fit b R e) (hk : Heads (e.sees cfg.rules) k k') (i : Nat) {st : St V} {y : Dress V} (ht : Mate b a k k' st y) :
    Lk (LR b a k k') (tokenBody rec cfg e i st) (tokenBody rec (cfg.mode ro ns) e i (st.dress y)) := by
  unfold tokenBody
  refine Lk.then' (Lk.after (LkRec.ope ih h hns hr he hk i (st := { st with tokCount := st.tokCount + 1 }) (y := y) ht) fun s z hz => ⟨z, rfl, hz⟩) fun j s z hz => ?_
  obtain ⟨z', e', hz'⟩ := mate_addToken hz ns h.same (i, j - i)
  rw [e']
  exact skipWs_lk ih h hns hr j hz'

theorem seqLoop_lk (es : List Ope) (he : FitL b R es) (hk : Heads (Ope.seesL cfg.rules es) k k') (i : Nat) {st : St V} {y : Dress V} (ht : Mate b a k k' st y) :
    Lk (LR b a k k') (seqLoop rec cfg es i st) (seqLoop rec (cfg.mode ro ns) es i (st.dress y)) := by
  induction es generalizing i st y with
  | nil => exact Lk.ok (LR.mk ht)
  | cons e es ihe =>
    unfold seqLoop
    exact Lk.then' (LkRec.ope ih h hns hr (fitL_cons he).1 (heads_cons hk).1 i ht) fun j s z hz => ihe (fitL_cons he).2 (heads_cons hk).2 j hz

theorem parseSeq_lk (es : List Ope) (kw : Option KwGuard) (he : FitL b R es) (hk : Heads (Ope.seesL cfg.rules es) k k') (i : Nat) {st : St V} {y : Dress V}
    (ht : Mate b a k k' st y) : Lk (LR b a k k') (parseSeq rec cfg es kw i st) (parseSeq rec (cfg.mode ro ns) es kw i (st.dress y)) := by
  unfold parseSeq
  have hl := seqLoop_lk ih h hns hr (ns := ns) es he hk i ht
  cases kw with
  | none => exact hl
  | some w =>
    simp only [Option.bind_some]
    unfold kwGuarded
    have hrest : (cfg.mode ro ns).rest i = cfg.rest i := rfl
    rw [hrest]
    cases kwScan w (cfg.rest i) with
    | none => exact lk_fail ht _ _ _ _
    | some n =>
      dsimp only
      by_cases h1 : (w.minLen ≤ n ∧ n ≤ w.maxLen) ∧ Trie.toLower ((cfg.rest i).take n) ∈ w.exact
      · simp only [h1, and_self, if_true]; exact lk_fail ht _ _ _ _
      · simp only [if_neg h1]
        by_cases h2 : (w.minLen ≤ n ∧ n ≤ w.maxLen) ∧ Trie.toLower ((cfg.rest i).take n) ∈ w.pref
        · simp only [if_pos h2]; exact hl
        · simp only [if_neg h2]
          obtain ⟨z', e', hz'⟩ := mate_addToken ht ns h.same (i, n)
          rw [e']
          exact skipWs_lk ih h hns hr _ hz'

theorem choLoop_lk (total : Nat) (fs : List FirstSet) (es : List Ope) (he : FitL b R es) (hk : Heads (Ope.seesL cfg.rules es) k k') (id i : Nat)
    {st : St V} {y : Dress V} (ht : Mate b a k k' st y) :
    Lk (LR b a k k') (choLoop rec cfg total fs es id i st) (choLoop rec (cfg.mode ro ns) total fs es id i (st.dress y)) := by
  induction es generalizing id st y with
  | nil => exact Lk.ok (LR.mk ht)
  | cons e es ihe =>
    have he2 := (fitL_cons he).2
    have hk2 := (heads_cons hk).2
    unfold choLoop
    have hrest : (cfg.mode ro ns).rest i = cfg.rest i := rfl
    rw [hrest]
    by_cases hf : fsSkip fs[id]? (cfg.rest i) = true
    · rw [if_pos hf, if_pos hf]
      obtain ⟨z, e', hz⟩ := mate_fsErr ht (fs[id]?.getD {}) id i
      rw [e']
      exact ihe he2 hk2 (id + 1) hz
    · rw [if_neg hf, if_neg hf]
      obtain ⟨e1, h1⟩ := mate_resetCut ht cfg ro ns
      rw [e1]
      refine Lk.res (LkRec.ope ih h hns hr (fitL_cons he).1 (heads_cons hk).1 i (st := (resetCut cfg st).setKeep (id > 0)) (y := { y with err := _ }) h1) fun o s z hz => ?_
      cases o with
      | some j =>
        exact Lk.ok ⟨rfl, { z with vs := { z.vs with choiceCount := total, choice := id } }, rfl,
          hz.vs _ _ (fun hb => by simp only [hz.1.2.1 hb]) fun hb => ⟨(hz.1.2.2 hb).1, (hz.1.2.2 hb).2.1⟩⟩
      | none =>
        dsimp only
        obtain ⟨w, e2, hw⟩ := mate_rollback hz ht
        rw [e2]
        show Lk _ _ (if (cfg.hasCut && (s.rollback st.snapshot).cut.headD false) = true then _ else _)
        by_cases hc : (cfg.hasCut && (s.rollback st.snapshot).cut.headD false) = true
        · rw [if_pos hc, if_pos hc]; exact Lk.ok (LR.mk hw)
        · rw [if_neg hc, if_neg hc]; exact ihe he2 hk2 (id + 1) hw

theorem parseCho_lk (es : List Ope) (fl : Bool) (fs : List FirstSet) (he : FitL b R es) (hk : Heads (Ope.seesL cfg.rules es) k k') (i : Nat)
    {st : St V} {y : Dress V} (ht : Mate b a k k' st y) : Lk (LR b a k k') (parseCho rec cfg es fl fs i st) (parseCho rec (cfg.mode ro ns) es fl fs i (st.dress y)) := by
  unfold parseCho
  have e : ∀ t, pushCut t (st.dress y) = (pushCut t st).dress y ∧ Mate b a k k' (pushCut t st) y := by
    intro t; cases t <;> exact ⟨rfl, ht⟩
  show Lk _ _ (after (choLoop rec (cfg.mode ro ns) es.length fs es 0 i (pushCut (cfg.hasCut && !fl) (st.dress y))) (choExit (cfg.hasCut && !fl)))
  rw [(e _).1]
  refine Lk.after (choLoop_lk ih h hns hr es.length fs es he hk 0 i (e _).2) fun s z hz => ?_
  cases cfg.hasCut && !fl
  · exact ⟨{ z with err := _ }, rfl, hz⟩
  · exact ⟨{ z with err := _ }, rfl, hz⟩

theorem repMin_lk {e : Ope} (he : Fit b R e) (hk : Heads (e.sees cfg.rules) k k') (n i : Nat) {st : St V} {y : Dress V} (ht : Mate b a k k' st y) :
    Lk (LR b a k k') (repMin rec cfg e n i st) (repMin rec (cfg.mode ro ns) e n i (st.dress y)) := by
  induction n generalizing i st y with
  | zero => exact Lk.ok (LR.mk ht)
  | succ n ihn =>
    unfold repMin
    exact Lk.then' (LkRec.ope ih h hns hr he hk i ht) fun j s z hz => ihn j hz

theorem repRound_lk {e : Ope} (he : Fit b R e) (hk : Heads (e.sees cfg.rules) k k') (mx : Option Nat) (c i : Nat) {st : St V} {y : Dress V} (ht : Mate b a k k' st y) :
    Lk (LR b a k k') (repRound rec cfg e mx c i st) (repRound rec (cfg.mode ro ns) e mx c i (st.dress y)) := by
  unfold repRound
  by_cases hm : mx.all (c < ·) = true
  · rw [if_pos hm, if_pos hm]
    refine Lk.res (LkRec.ope ih h hns hr he hk i ht) fun o s z hz => ?_
    cases o with
    | none =>
      dsimp only
      obtain ⟨w, e2, hw⟩ := mate_rollback hz ht
      rw [e2]
      exact Lk.ok (LR.mk hw)
    | some j => exact ih cfg ro ns (.rep e mx (c + 1)) j s z a k k' h hns he hr hk hz
  · rw [if_neg hm, if_neg hm]; exact Lk.ok (LR.mk ht)

theorem parseRep_lk {e : Ope} (he : Fit b R e) (hk : Heads (e.sees cfg.rules) k k') (mn : Nat) (mx : Option Nat) (sp : Option CharClass.Cls) (i : Nat)
    {st : St V} {y : Dress V} (ht : Mate b a k k' st y) : Lk (LR b a k k') (parseRep rec cfg e mn mx sp i st) (parseRep rec (cfg.mode ro ns) e mn mx sp i (st.dress y)) := by
  unfold parseRep
  cases sp with
  | some c =>
    have hrest : (cfg.mode ro ns).rest i = cfg.rest i := rfl
    rw [hrest]
    cases mx <;> dsimp only <;> split <;> first | exact lk_fail ht _ _ _ _ | exact Lk.ok (LR.mk ht)
  | none =>
    refine Lk.then' (repMin_lk ih h hns hr he hk mn i ht) fun j s z hz => ?_
    exact ih cfg ro ns (.rep e mx mn) j s z a k k' h hns he hr hk hz

end


/-! ## Rules -/

theorem mate_stack {b : Bool} {a : List (List Ope × Nat)} {k k' : List Nat} {s : St V} {y : Dress V} (h : Mate b a k k' s y) (l l' : List Nat) :
    Mate b a l l' { s with ruleStack := l } { y with ruleStack := l' } := ⟨h.1, h.2.1, rfl, rfl⟩

theorem push_dress (p p' : Bool) (r : Nat) (st : St V) (y : Dress V) :
    pushRule p' r (st.dress y) = (pushRule p r st).dress { y with ruleStack := if p' then r :: y.ruleStack else y.ruleStack } := by
  cases p <;> cases p' <;> rfl

theorem pop_dress (p p' : Bool) (st : St V) (y : Dress V) :
    popRule p' (st.dress y) = (popRule p st).dress { y with ruleStack := if p' then y.ruleStack.tail else y.ruleStack } := by
  cases p <;> cases p' <;> rfl

/-- The rule is pushed by both or by neither where it matters. -/
theorem mate_push {b : Bool} {a : List (List Ope × Nat)} {k k' : List Nat} {st : St V} {y : Dress V} (ht : Mate b a k k' st y) (p p' : Bool) (r : Nat) :
    Mate b a (if p then r :: k else k) (if p' then r :: k' else k') (pushRule p r st) { y with ruleStack := if p' then r :: y.ruleStack else y.ruleStack } := by
  obtain ⟨h1, h2, h3, h4⟩ := ht
  subst h3; subst h4
  cases p <;> cases p' <;> exact ⟨h1, h2, rfl, rfl⟩

theorem mate_pop {b : Bool} {a : List (List Ope × Nat)} {k k' : List Nat} {st : St V} {y : Dress V} (p p' : Bool) (r : Nat)
    (ht : Mate b a (if p then r :: k else k) (if p' then r :: k' else k') st y) :
    Mate b a k k' (popRule p st) { y with ruleStack := if p' then y.ruleStack.tail else y.ruleStack } := by
  obtain ⟨h1, h2, h3, h4⟩ := ht
  cases p <;> cases p' <;> refine ⟨h1, h2, ?_, ?_⟩ <;> simp_all [popRule]

section
variable {b : Bool} {R : Nat → Prop} {rec : Rec V} (ih : LkRec b R rec) {cfg : Cfg V} {ro ns : Bool} (h : Alike b R cfg ro ns) (hns : cfg.needsRuleStack = false)
  {a : List (List Ope × Nat)} {k k' : List Nat} (hr : Around b R ns a k k')
include ih h hns hr

theorem opeBody_lk {r : Nat} {d : Def} (hR : R r) (hd : cfg.rules[r]? = some d) (hm : (d.isMacro && !d.isLR) = false) (i : Nat) {st : St V} {y : Dress V}
    (ht : Mate b a k k' st y) : Lk (LR b a k k') (opeBody rec cfg r d i st) (opeBody rec (cfg.mode ro ns) r d i (st.dress y)) := by
  unfold opeBody
  have hk : Heads (d.ope.sees cfg.rules) (if (cfg.needsRuleStack || d.hasMacroRef) then r :: k else k) (if (ns || d.hasMacroRef) then r :: k' else k') := by
    intro e
    cases hn : ns with
    | false => rw [hr.2 hn, hns]
    | true =>
      rcases h.pushed hn r d hR hd e with e | ⟨e1, e2⟩
      · simp [e]
      · rw [e1, e2] at hm; cases hm
  have hr' : Around b R ns a (if (cfg.needsRuleStack || d.hasMacroRef) then r :: k else k) (if (ns || d.hasMacroRef) then r :: k' else k') :=
    ⟨hr.1, fun e => by rw [hr.2 e, e, hns]⟩
  have hb := mate_push ht (cfg.needsRuleStack || d.hasMacroRef) (ns || d.hasMacroRef) r
  have hf := h.closed r d hR hd
  refine Lk.after (k := if (cfg.needsRuleStack || d.hasMacroRef) then r :: k else k) (k' := if (ns || d.hasMacroRef) then r :: k' else k') ?_
    fun s z hz => ⟨_, pop_dress (cfg.needsRuleStack || d.hasMacroRef) (ns || d.hasMacroRef) s z, mate_pop _ _ r hz⟩
  by_cases hn : d.noWs = true
  · rw [if_pos hn, if_pos hn]
    show Lk _ _ (andThen (after (rec (cfg.mode ro ns) (.ope d.ope) i { pushRule (ns || d.hasMacroRef) r (st.dress y) with tokCount := st.tokCount + 1 }) _) _)
    rw [push_dress (cfg.needsRuleStack || d.hasMacroRef)]
    refine Lk.then' (Lk.after (LkRec.ope ih h hns hr' hf hk i
      (st := { pushRule (cfg.needsRuleStack || d.hasMacroRef) r st with tokCount := st.tokCount + 1 }) hb) fun s z hz => ⟨z, rfl, hz⟩) fun j s z hz => ?_
    exact skipWs_lk ih h hns hr' j hz
  · rw [if_neg hn, if_neg hn]
    show Lk _ _ (rec (cfg.mode ro ns) (.ope d.ope) i (pushRule (ns || d.hasMacroRef) r (st.dress y)))
    rw [push_dress (cfg.needsRuleStack || d.hasMacroRef)]
    exact LkRec.ope ih h hns hr' hf hk i hb

omit ih hns hr in
theorem reduce_lk {r : Nat} (d : Def) (hR : R r) (hd : cfg.rules[r]? = some d) (f f' : Frame V) (p : Option V) (h1 : b = true → f' = f) (h2 : b = false → NoV f ∧ NoV f')
    {st : St V} {y : Dress V} (ht : Mate b a k k' st y) :
    (reduce (cfg.mode ro ns) r d f' p (st.dress y)).1 = (reduce cfg r d f p st).1 ∧ (b = false → (reduce cfg r d f p st).1 = none) ∧
      (reduce (cfg.mode ro ns) r d f' p (st.dress y)).2 = (reduce cfg r d f p st).2.dress y ∧ Mate b a k k' (reduce cfg r d f p st).2 y := by
  cases b with
  | true =>
    cases h1 rfl
    unfold reduce
    have e0 : hasAction (cfg.mode ro ns) r (st.dress y) = hasAction cfg r st := rfl
    rw [e0]
    split
    · unfold callAction
      dsimp only
      cases cfg.action r with
      | none => exact ⟨rfl, (by intro e; cases e), rfl, ⟨ht.1.1, ht.1.2.1, (by intro e; cases e)⟩, ht.2⟩
      | some q => exact ⟨rfl, (by intro e; cases e), rfl, ⟨ht.1.1, ht.1.2.1, (by intro e; cases e)⟩, ht.2⟩
    · exact ⟨rfl, (by intro e; cases e), rfl, ht⟩
  | false =>
    have hp := (ht.1.2.2 rfl).2.2.2.2
    have ha := (h.quiet rfl r d hR hd).1
    have e : hasAction cfg r st = false := by unfold hasAction; rw [hp, ha]; rfl
    have e' : hasAction (cfg.mode ro ns) r (st.dress y) = false := e
    have hn : ∀ g : Frame V, NoV g → g.vals.head?.getD none = none := by
      intro g hg
      cases hv : g.vals with
      | nil => rfl
      | cons v l => exact hg v (by rw [hv]; simp)
    unfold reduce
    rw [e, e']
    rw [if_neg (by simp), if_neg (by simp)]
    dsimp only
    rw [hn _ (h2 rfl).1, hn _ (h2 rfl).2]
    exact ⟨rfl, fun _ => rfl, rfl, ht⟩

omit ih hns hr in
theorem finishRule_lk {r : Nat} (d : Def) (hR : R r) (hd : cfg.rules[r]? = some d) (i : Nat) (x : Option Nat) {st : St V} {y : Dress V} (ht : Mate b a k k' st y) :
    LV b a k k' (finishRule cfg r d i x st) (finishRule (cfg.mode ro ns) r d i x (st.dress y)) := by
  have hf1 : ∀ j, b = true → finishFrame r d i j y.vs = finishFrame r d i j st.vs := fun j hb => by rw [ht.1.2.1 hb]
  have hfn : ∀ (g : Frame V) j, NoV g → NoV (finishFrame r d i j g) := by
    intro g j hg; unfold finishFrame; dsimp only; split <;> exact hg
  have hf2 : ∀ j, b = false → NoV (finishFrame r d i j st.vs) ∧ NoV (finishFrame r d i j y.vs) :=
    fun j hb => ⟨hfn _ _ (ht.1.2.2 hb).1, hfn _ _ (ht.1.2.2 hb).2.1⟩
  have red : ∀ j p, LV b a k k'
      (if st.recovered then (some j, none, { st with vs := finishFrame r d i j st.vs })
        else (some j, (reduce cfg r d (finishFrame r d i j st.vs) p { st with vs := finishFrame r d i j st.vs }).1,
          (reduce cfg r d (finishFrame r d i j st.vs) p { st with vs := finishFrame r d i j st.vs }).2))
      (if st.recovered then (some j, none, { st.dress y with vs := finishFrame r d i j y.vs })
        else (some j, (reduce (cfg.mode ro ns) r d (finishFrame r d i j y.vs) p { st.dress y with vs := finishFrame r d i j y.vs }).1,
          (reduce (cfg.mode ro ns) r d (finishFrame r d i j y.vs) p { st.dress y with vs := finishFrame r d i j y.vs }).2)) := by
    intro j p
    have ht' := ht.vs _ _ (hf1 j) (hf2 j)
    split
    · exact ⟨rfl, rfl, fun _ => rfl, _, rfl, ht'⟩
    · obtain ⟨e1, e2, e3, e4⟩ := reduce_lk h (ns := ns) d hR hd _ _ p (hf1 j) (hf2 j) ht'
      exact ⟨rfl, e1, e2, _, e3, e4⟩
  unfold finishRule
  cases x with
  | some j =>
    dsimp only
    cases hp : cfg.predicate r with
    | none => exact red j none
    | some p =>
      dsimp only
      cases b with
      | false => rw [(h.quiet rfl r d hR hd).2.1] at hp; cases hp
      | true =>
        have ef := hf1 j rfl
        have hq : p (finishFrame r d i j y.vs) st.dt = p (finishFrame r d i j st.vs) st.dt := by rw [ef]
        rw [hq]
        by_cases h1 : (p (finishFrame r d i j st.vs) st.dt).1 = true
        · rw [if_pos h1, if_pos h1]; exact red j _
        · rw [if_neg h1, if_neg h1]
          have ht' := ht.vs _ _ (hf1 j) (hf2 j)
          refine ⟨rfl, rfl, fun _ => rfl, ?_⟩
          dsimp only
          rw [if_neg (c := (st.logOn && _) = true) (by rw [ht.1.1]; simp)]
          split
          · exact ⟨{ y with vs := _, err := _ }, rfl, ht'⟩
          · exact ⟨{ y with vs := _ }, rfl, ht'⟩
  | none =>
    refine ⟨rfl, rfl, fun _ => rfl, ?_⟩
    dsimp only
    rw [if_neg (c := (st.logOn && _) = true) (by rw [ht.1.1]; simp)]
    split
    · exact ⟨{ y with err := y.err.note ⟨i, resolvePlaceholders st.caps d.errorMessage.length d.errorMessage, some d.name, false⟩ }, rfl, ht⟩
    · exact ⟨y, rfl, ht⟩

end


/-- Without callbacks and values the end of a rule changes nothing but the scope and the error data. -/
theorem finishRule_blank {cfg : Cfg V} {r : Nat} (ha : cfg.action r = none) (hp : cfg.predicate r = none) (d : Def) (i : Nat) (x : Option Nat) {s : St V}
    (hv : NoV s.vs) (hb : Blank s) : ∃ f e, NoV f ∧ finishRule cfg r d i x s = (x, none, { s with vs := f, err := e }) := by
  unfold finishRule
  cases x with
  | none =>
    dsimp only
    split
    · exact ⟨s.vs, _, hv, rfl⟩
    · exact ⟨s.vs, s.err, hv, rfl⟩
  | some j =>
    have hn : NoV (finishFrame r d i j s.vs) := by unfold finishFrame; dsimp only; split <;> exact hv
    dsimp only
    rw [hp]
    dsimp only
    split
    · exact ⟨_, s.err, hn, rfl⟩
    · have e : hasAction cfg r { s with vs := finishFrame r d i j s.vs } = false := by
        unfold hasAction; rw [ha]; show (_ || s.precToks.any _) = false; rw [hb.2.2]; rfl
      unfold reduce
      rw [e, if_neg (by simp)]
      refine ⟨_, s.err, hn, ?_⟩
      dsimp only
      have : (finishFrame r d i j s.vs).vals.head?.getD none = none := by
        cases hv : (finishFrame r d i j s.vs).vals with
        | nil => rfl
        | cons v l => exact hn v (by rw [hv]; simp)
      rw [this]

theorem LV.mk {b : Bool} {a : List (List Ope × Nat)} {k k' : List Nat} {o : Option Nat} {v : Option V} {s : St V} {y : Dress V} (hv : b = false → v = none) (h : Mate b a k k' s y) :
    LV b a k k' (o, v, s) (o, v, s.dress y) := ⟨rfl, rfl, hv, y, rfl, h⟩

theorem Lk.vres {b : Bool} {a : List (List Ope × Nat)} {k k' : List Nat} {β : Type} {q : β → β → Prop} {x x' : Out (VRes V)} {f f' : VRes V → Out β}
    (h : Lk (LV b a k k') x x') (hf : ∀ o v s y, (b = false → v = none) → Mate b a k k' s y → Lk q (f (o, v, s)) (f' (o, v, s.dress y))) : Lk q (x.bind f) (x'.bind f') := by
  refine Lk.bind h fun r r' hr => ?_
  obtain ⟨o, v, s⟩ := r
  obtain ⟨o', v', s'⟩ := r'
  obtain ⟨h1, h2, h3, y, h4, h5⟩ := hr
  dsimp only at h1 h2 h3 h4 h5
  subst h1; subst h2; subst h4
  exact hf o' v' s y h3 h5

theorem Lk.resv {b : Bool} {a : List (List Ope × Nat)} {k k' : List Nat} {β : Type} {q : β → β → Prop} {x x' : Out (Res V)} {f f' : Res V → Out β}
    (h : Lk (LR b a k k') x x') (hf : ∀ o s y, Mate b a k k' s y → Lk q (f (o, s)) (f' (o, s.dress y))) : Lk q (x.bind f) (x'.bind f') := by
  refine Lk.bind h fun r r' hr => ?_
  obtain ⟨o, s⟩ := r
  obtain ⟨o', s'⟩ := r'
  obtain ⟨h1, y, h2, h3⟩ := hr
  dsimp only at h1 h2 h3
  subst h1; subst h2
  exact hf o' s y h3

theorem Mate.tabs {b : Bool} {a : List (List Ope × Nat)} {k k' : List Nat} {s : St V} {y : Dress V} (h : Mate b a k k' s y)
    (m : Nat → Option (Option (Nat × Option V))) (ac : Nat → Option Nat) (ins : List (Nat × List Ope)) (lm : List (LRKey × Option (Nat × Option V)))
    (lf : List (Nat × Nat)) (la : List LRKey) (hm : b = false → ∀ k j v, m k = some (some (j, v)) → v = none)
    (hl : b = false → ∀ k j v, (k, some (j, v)) ∈ lm → v = none) :
    Mate b a k k' { s with memo := m, active := ac, insts := ins, lrMemo := lm, lrRefs := lf, lrActive := la } y :=
  ⟨⟨h.1.1, h.1.2.1, fun hb => ⟨(h.1.2.2 hb).1, (h.1.2.2 hb).2.1, hm hb, hl hb, (h.1.2.2 hb).2.2.2.2⟩⟩, h.2⟩

theorem Mate.memoB {b : Bool} {a : List (List Ope × Nat)} {k k' : List Nat} {s : St V} {y : Dress V} (h : Mate b a k k' s y) :
    b = false → ∀ k j v, s.memo k = some (some (j, v)) → v = none := fun hb => (h.1.2.2 hb).2.2.1
theorem Mate.lrB {b : Bool} {a : List (List Ope × Nat)} {k k' : List Nat} {s : St V} {y : Dress V} (h : Mate b a k k' s y) :
    b = false → ∀ k j v, (k, some (j, v)) ∈ s.lrMemo → v = none := fun hb => (h.1.2.2 hb).2.2.2.1

theorem fset_blank {m : Nat → Option (Option (Nat × Option V))} (hm : ∀ k j v, m k = some (some (j, v)) → v = none) (x : Nat) (o : Option (Option (Nat × Option V)))
    (ho : ∀ j v, o = some (some (j, v)) → v = none) : ∀ k j v, fset m x o k = some (some (j, v)) → v = none := by
  intro k j v e
  unfold fset at e
  split at e
  · exact ho j v e
  · exact hm k j v e

theorem mate_writeMemo {b : Bool} {a : List (List Ope × Nat)} {k k' : List Nat} {s : St V} {y : Dress V} (h : Mate b a k k' s y) (cfg : Cfg V) (ro ns : Bool)
    (r i j : Nat) {v : Option V} (hv : b = false → v = none) :
    writeMemo (cfg.mode ro ns) r i j v (s.dress y) = (writeMemo cfg r i j v s).dress y ∧ Mate b a k k' (writeMemo cfg r i j v s) y := by
  unfold writeMemo
  show (if cfg.packrat = true then (match cfg.slot (cfg.defId r) with | some s => _ | none => _) else _) = _ ∧ _
  by_cases hp : cfg.packrat = true
  · rw [if_pos hp, if_pos hp]
    cases cfg.slot (cfg.defId r) with
    | none => exact ⟨rfl, h⟩
    | some q =>
      dsimp only
      show (if cfg.memoIdx q i < cfg.memoSize then _ else _) = _ ∧ _
      by_cases h1 : cfg.memoIdx q i < cfg.memoSize
      · rw [if_pos h1, if_pos h1]
        by_cases h2 : j - i ≤ 4294967295
        · rw [if_pos h2, if_pos h2]
          exact ⟨rfl, h.tabs _ _ _ _ _ _ (fun hb => fset_blank (h.memoB hb) _ _ (by intro j v e; cases e; exact hv hb)) h.lrB⟩
        · rw [if_neg h2, if_neg h2]
          exact ⟨rfl, h.tabs _ _ _ _ _ _ (fun hb => fset_blank (h.memoB hb) _ _ (by intro j v e; cases e)) h.lrB⟩
      · rw [if_neg h1, if_neg h1]; exact ⟨rfl, h⟩
  · rw [if_neg hp, if_neg hp]; exact ⟨rfl, h⟩

theorem mate_clearMemo {b : Bool} {a : List (List Ope × Nat)} {k k' : List Nat} {s : St V} {y : Dress V} (h : Mate b a k k' s y) (cfg : Cfg V) (ro ns : Bool)
    (r i : Nat) : clearMemo (cfg.mode ro ns) r i (s.dress y) = (clearMemo cfg r i s).dress y ∧ Mate b a k k' (clearMemo cfg r i s) y := by
  unfold clearMemo
  show (if cfg.packrat = true then (match cfg.slot (cfg.defId r) with | some s => _ | none => _) else _) = _ ∧ _
  by_cases hp : cfg.packrat = true
  · rw [if_pos hp, if_pos hp]
    cases cfg.slot (cfg.defId r) with
    | none => exact ⟨rfl, h⟩
    | some q => exact ⟨rfl, h.tabs _ _ _ _ _ _ (fun hb => fset_blank (h.memoB hb) _ _ (by intro j v e; cases e)) h.lrB⟩
  · rw [if_neg hp, if_neg hp]; exact ⟨rfl, h⟩

theorem mate_emplace {b : Bool} {a : List (List Ope × Nat)} {k k' : List Nat} {s : St V} {y : Dress V} (h : Mate b a k k' s y) {cfg : Cfg V} {ro : Bool} (ns : Bool)
    (hro : b = true → ro = cfg.recognizeOnly) (d : Def) {v : Option V} (hv : b = false → v = none) :
    ∃ z, emplace (cfg.mode ro ns) d v (s.dress y) = (emplace cfg d v s).dress z ∧ Mate b a k k' (emplace cfg d v s) z := by
  unfold emplace
  show ∃ z, (if (!d.ignoreSV && !ro) = true then _ else _) = _ ∧ _
  cases b with
  | true =>
    rw [hro rfl]
    split
    · refine ⟨{ y with vs := { y.vs with vals := y.vs.vals ++ [v], tags := y.vs.tags ++ [str2tag d.name] } }, rfl, h.vs _ _ (fun hb => ?_) (by intro e; cases e)⟩
      simp only [h.1.2.1 hb]
    · exact ⟨y, rfl, h⟩
  | false =>
    have h2 := h.1.2.2 rfl
    have na : ∀ (f : Frame V), NoV f → NoV { f with vals := f.vals ++ [v], tags := f.tags ++ [str2tag d.name] } := by
      intro f hf
      refine nov_append hf (fun w hw => ?_) _
      rw [List.mem_singleton.1 hw]; exact hv rfl
    by_cases h1 : (!d.ignoreSV && !cfg.recognizeOnly) = true <;> by_cases h3 : (!d.ignoreSV && !ro) = true
    · rw [if_pos h1, if_pos h3]
      exact ⟨{ y with vs := _ }, rfl, h.vs _ { y.vs with vals := y.vs.vals ++ [v], tags := y.vs.tags ++ [str2tag d.name] } (by intro e; cases e) (fun _ => ⟨na _ h2.1, na _ h2.2.1⟩)⟩
    · rw [if_pos h1, if_neg h3]
      exact ⟨y, rfl, h.vs _ y.vs (by intro e; cases e) (fun _ => ⟨na _ h2.1, h2.2.1⟩)⟩
    · rw [if_neg h1, if_pos h3]
      exact ⟨{ y with vs := _ }, rfl, h.vs s.vs { y.vs with vals := y.vs.vals ++ [v], tags := y.vs.tags ++ [str2tag d.name] } (by intro e; cases e) (fun _ => ⟨h2.1, na _ h2.2.1⟩)⟩
    · rw [if_neg h1, if_neg h3]; exact ⟨y, rfl, h⟩

theorem guarded_lk {b : Bool} {cfg : Cfg V} {ro ns : Bool} {a : List (List Ope × Nat)} {k k' : List Nat} (r i : Nat) {fn fn' : St V → Out (VRes V)}
    (hf : ∀ s y, Mate b a k k' s y → Lk (LV b a k k') (fn s) (fn' (s.dress y))) {st : St V} {y : Dress V} (ht : Mate b a k k' st y) :
    Lk (LV b a k k') (guarded cfg r i st fn) (guarded (cfg.mode ro ns) r i (st.dress y) fn') := by
  have hre : Lk (LV b a k k') (reentered cfg st) (reentered (cfg.mode ro ns) (st.dress y)) := by
    unfold reentered
    show Lk _ _ (if cfg.trap = true then _ else _)
    split
    · exact Lk.ub _
    · exact Lk.ok (LV.mk (fun _ => rfl) ht)
  unfold guarded
  show Lk _ _ (if cfg.packrat = true then (match cfg.slot (cfg.defId r) with | none => _ | some s => _) else _)
  by_cases hp : cfg.packrat = true
  · rw [if_pos hp, if_pos hp]
    cases cfg.slot (cfg.defId r) with
    | none =>
      dsimp only
      by_cases h1 : cfg.defCount ≤ cfg.defId r
      · rw [if_pos h1, if_pos h1]; exact Lk.ub _
      · rw [if_neg h1, if_neg h1]
        by_cases h2 : st.active (cfg.defId r) = some i
        · rw [if_pos h2, if_pos h2]; exact hre
        · rw [if_neg h2, if_neg h2]
          exact Lk.vres (hf _ y (ht.tabs _ _ _ _ _ _ ht.memoB ht.lrB)) fun o v s z hv hz => Lk.ok (LV.mk hv (hz.tabs _ _ _ _ _ _ hz.memoB hz.lrB))
    | some q =>
      dsimp only
      show Lk _ _ (if cfg.memoSize ≤ cfg.memoIdx q i then _ else match st.memo (cfg.memoIdx q i) with | some (some (len, v)) => _ | some none => _ | none => _)
      by_cases h1 : cfg.memoSize ≤ cfg.memoIdx q i
      · rw [if_pos h1, if_pos h1]; exact Lk.ub _
      · rw [if_neg h1, if_neg h1]
        cases hm : st.memo (cfg.memoIdx q i) with
        | some o =>
          cases o with
          | none => exact Lk.ok (LV.mk (fun _ => rfl) ht)
          | some p =>
            obtain ⟨len, v⟩ := p
            exact Lk.ok (LV.mk (fun hb => ht.memoB hb _ _ _ hm) ht)
        | none =>
          dsimp only
          refine Lk.vres (hf _ y (ht.tabs _ _ _ _ _ _ (fun hb => fset_blank (ht.memoB hb) _ _ (by intro j v e; cases e)) ht.lrB)) fun o v s z hv hz => ?_
          cases o with
          | none => exact Lk.ok (LV.mk hv hz)
          | some j =>
            dsimp only
            obtain ⟨e1, e2⟩ := mate_writeMemo hz cfg ro ns r i j hv
            rw [e1]
            exact Lk.ok (LV.mk hv e2)
  · rw [if_neg hp, if_neg hp]
    show Lk _ _ (match st.args with | [] => _ | (_, inst) :: _ => _)
    cases hst : st.args with
    | nil => exact Lk.ub _
    | cons fr tl =>
      obtain ⟨x, inst⟩ := fr
      dsimp only
      by_cases h1 : (st.lrMemo.lookup (r, inst, i)).isSome = true
      · rw [if_pos h1, if_pos h1]; exact hre
      · rw [if_neg h1, if_neg h1]
        have := ht.tabs st.memo st.active st.insts (((r, inst, i), none) :: st.lrMemo) st.lrRefs st.lrActive ht.memoB (fun hb k j v hm => by
          rcases List.mem_cons.1 hm with e | hm
          · cases e
          · exact ht.lrB hb _ _ _ hm)
        rw [hst] at this
        have h4 := hf _ y this
        refine Lk.vres h4 fun o v s z hv hz => Lk.ok (LV.mk hv ?_)
        exact hz.tabs _ _ _ _ _ _ hz.memoB fun hb k j v hm => hz.lrB hb k j v (List.mem_filter.1 hm).1

section
variable {b : Bool} {R : Nat → Prop} {rec : Rec V} (ih : LkRec b R rec) {cfg : Cfg V} {ro ns : Bool} (h : Alike b R cfg ro ns) (hns : cfg.needsRuleStack = false)
  {a : List (List Ope × Nat)} {k k' : List Nat} (hr : Around b R ns a k k')
include ih h hns hr

theorem doParse_lk {r : Nat} {d : Def} (hR : R r) (hd : cfg.rules[r]? = some d) (hm : (d.isMacro && !d.isLR) = false) (i : Nat) {st : St V} {y : Dress V}
    (ht : Mate b a k k' st y) : Lk (LV b a k k') (doParse rec cfg r d i st) (doParse rec (cfg.mode ro ns) r d i (st.dress y)) := by
  have he : callEnter (cfg.mode ro ns) r i (st.dress y) = (callEnter cfg r i st).dress y ∧ Mate b a k k' (callEnter cfg r i st) y := by
    unfold callEnter
    dsimp only
    cases cfg.enter r with
    | none => exact ⟨rfl, ht⟩
    | some f => exact ⟨rfl, ht⟩
  unfold doParse
  rw [he.1]
  refine Lk.resv (opeBody_lk ih h hns hr hR hd hm i (st := { callEnter cfg r i st with vs := {} }) (y := { y with vs := {} })
    (he.2.vs _ _ (fun _ => rfl) (fun _ => ⟨nov_empty, nov_empty⟩))) fun o s z hz => ?_
  obtain ⟨e1, e2, e3, w, e4, e5⟩ := finishRule_lk h (ns := ns) d hR hd i o hz
  dsimp only
  have hw : Mate b a k k' { (finishRule cfg r d i o s).2.2 with vs := st.vs } { w with vs := y.vs } :=
    e5.vs _ _ ht.1.2.1 fun hb => ⟨(ht.1.2.2 hb).1, (ht.1.2.2 hb).2.1⟩
  rw [e4, e1, e2]
  cases hl : cfg.leave r with
  | none => exact Lk.ok (LV.mk e3 hw)
  | some f =>
    cases b with
    | false => rw [(h.quiet rfl r d hR hd).2.2.2] at hl; cases hl
    | true => exact Lk.ok ⟨rfl, rfl, (by intro e; cases e), { w with vs := y.vs }, rfl, hw⟩

/-- The part of `Holder::parse_core` that is memoised. -/
def holdBody (rec : Rec V) (cfg : Cfg V) (r : Nat) (d : Def) (i : Nat) (st : St V) : Out (VRes V) :=
  if cfg.recognizeOnly then (opeBody rec cfg r d i st).bind fun x => .ok (x.1, none, x.2) else doParse rec cfg r d i st

theorem holdBody_lk {r : Nat} {d : Def} (hR : R r) (hd : cfg.rules[r]? = some d) (hm : (d.isMacro && !d.isLR) = false) (i : Nat) {st : St V} {y : Dress V}
    (ht : Mate b a k k' st y) : Lk (LV b a k k') (holdBody rec cfg r d i st) (holdBody rec (cfg.mode ro ns) r d i (st.dress y)) := by
  unfold holdBody
  show Lk _ (if cfg.recognizeOnly = true then _ else _) (if ro = true then _ else _)
  have hsame := h.same
  by_cases h1 : cfg.recognizeOnly = true <;> by_cases h2 : ro = true
  · rw [if_pos h1, if_pos h2]
    exact Lk.resv (opeBody_lk ih h hns hr hR hd hm i ht) fun o s z hz => Lk.ok (LV.mk (fun _ => rfl) hz)
  · rw [if_pos h1, if_neg h2]
    have hb : b = false := by cases b with | false => rfl | true => exact absurd ((hsame rfl).trans h1) h2
    subst hb
    obtain ⟨q1, q2, q3, q4⟩ := h.quiet rfl r d hR hd
    have hm2 := ht.1.2.2 rfl
    unfold doParse
    have e0 : callEnter (cfg.mode ro ns) r i (st.dress y) = st.dress y := by
      unfold callEnter; show (match cfg.enter r with | some f => _ | none => _) = _; rw [q3]
    rw [e0]
    refine Lk.resv (opeBody_lk ih h hns hr hR hd hm i (y := { y with vs := {} }) (ht.vs st.vs {} (by intro e; cases e) (fun _ => ⟨hm2.1, nov_empty⟩))) fun o s z hz => ?_
    have hz2 := hz.1.2.2 rfl
    obtain ⟨f, e, hf, hfe⟩ := finishRule_blank (cfg := cfg.mode ro ns) (r := r) q1 q2 d i o (s := s.dress z) hz2.2.1 hz2.2.2
    dsimp only
    rw [hfe]
    dsimp only
    rw [q4]
    exact Lk.ok (LV.mk (y := { z with vs := y.vs, err := e }) (fun _ => rfl) (hz.vs s.vs y.vs (by intro e; cases e) fun _ => ⟨hz2.1, hm2.2.1⟩))
  · rw [if_neg h1, if_pos h2]
    have hb : b = false := by cases b with | false => rfl | true => exact absurd ((hsame rfl).symm.trans h2) h1
    subst hb
    obtain ⟨q1, q2, q3, q4⟩ := h.quiet rfl r d hR hd
    have hm2 := ht.1.2.2 rfl
    unfold doParse
    have e0 : callEnter cfg r i st = st := by
      unfold callEnter; rw [q3]
    rw [e0]
    refine Lk.resv (opeBody_lk ih h hns hr hR hd hm i (st := { st with vs := {} }) (y := y) (ht.vs {} y.vs (by intro e; cases e) (fun _ => ⟨nov_empty, hm2.2.1⟩))) fun o s z hz => ?_
    have hz2 := hz.1.2.2 rfl
    obtain ⟨f, e, hf, hfe⟩ := finishRule_blank (cfg := cfg) (r := r) q1 q2 d i o (s := s) hz2.1 hz2.2.2
    dsimp only
    rw [hfe]
    dsimp only
    rw [q4]
    exact Lk.ok ⟨rfl, rfl, fun _ => rfl, z, rfl, hz.vs st.vs z.vs (by intro e; cases e) fun _ => ⟨hm2.1, hz2.2.1⟩⟩
  · rw [if_neg h1, if_neg h2]
    exact doParse_lk ih h hns hr hR hd hm i ht

omit ih hns hr in
theorem growDone_lk (r inst : Nat) (d : Def) (i j : Nat) {v : Option V} (hv : b = false → v = none) {st : St V} {y : Dress V} (ht : Mate b a k k' st y) :
    Lk (LR b a k k') (.ok (growDone cfg r inst d i j v st)) (.ok (growDone (cfg.mode ro ns) r inst d i j v (st.dress y))) := by
  unfold growDone
  dsimp only
  have e : (if d.isMacro = true then st.dress y else writeMemo (cfg.mode ro ns) r i j v (st.dress y)) = (if d.isMacro = true then st else writeMemo cfg r i j v st).dress y ∧
      Mate b a k k' (if d.isMacro = true then st else writeMemo cfg r i j v st) y := by
    split
    · exact ⟨rfl, ht⟩
    · exact mate_writeMemo ht cfg ro ns r i j hv
  rw [e.1]
  obtain ⟨z, e1, e2⟩ := mate_emplace (e.2.tabs _ _ _ _ _ ((if d.isMacro = true then st else writeMemo cfg r i j v st).lrActive.filter (· ≠ (r, inst, i))) e.2.memoB e.2.lrB) ns h.same d hv
  refine Lk.ok ⟨rfl, z, ?_, e2⟩
  exact e1

theorem growRound_lk {r : Nat} (hR : R r) (hm : ∀ d, cfg.rules[r]? = some d → (d.isMacro && !d.isLR) = false) (inst : Nat) (cyc : List (Nat × Nat)) (j : Nat) {v : Option V} (hv : b = false → v = none) (i : Nat)
    {st : St V} {y : Dress V} (ht : Mate b a k k' st y) :
    Lk (LR b a k k') (growRound rec cfg r inst cyc j v i st) (growRound rec (cfg.mode ro ns) r inst cyc j v i (st.dress y)) := by
  unfold growRound
  show Lk _ (match cfg.rules[r]? with | none => _ | some d => _) (match cfg.rules[r]? with | none => _ | some d => _)
  cases hd : cfg.rules[r]? with
  | none => exact Lk.ub _
  | some d =>
    dsimp only
    have e : (if d.isMacro = true then st.dress y else clearMemo (cfg.mode ro ns) r i (st.dress y)) = (if d.isMacro = true then st else clearMemo cfg r i st).dress y ∧
        Mate b a k k' (if d.isMacro = true then st else clearMemo cfg r i st) y := by
      split
      · exact ⟨rfl, ht⟩
      · exact mate_clearMemo ht cfg ro ns r i
    rw [e.1]
    generalize (if d.isMacro = true then st else clearMemo cfg r i st) = s0 at e
    have h0 := e.2.tabs s0.memo s0.active s0.insts (s0.lrMemo.filter fun e =>
      !(e.1.2.2 = i && (e.1.1, e.1.2.1) ≠ (r, inst) && (e.1.1, e.1.2.1) ∈ cyc && e.1 ∉ s0.lrActive)) s0.lrRefs s0.lrActive e.2.memoB
      fun hb k j v hm => e.2.lrB hb k j v (List.mem_filter.1 hm).1
    refine Lk.vres (doParse_lk ih h hns hr hR hd (hm d hd) i h0) fun o w s z hw hz => ?_
    cases o with
    | none => exact growDone_lk h r inst d i j hv hz
    | some j' =>
      dsimp only
      by_cases hj : j' ≤ j
      · rw [if_pos hj, if_pos hj]; exact growDone_lk h r inst d i j hv hz
      · rw [if_neg hj, if_neg hj]
        refine ih cfg ro ns (.grow r inst cyc j' w) i { s with lrMemo := lrSet (r, inst, i) (some (j', w)) s.lrMemo } z a k k' h hns ⟨⟨hR, hw⟩, fun d' hd' => by rw [hd] at hd'; cases hd'; exact hm d hd⟩ hr (by intro e; cases e) ?_
        refine hz.tabs _ _ _ _ _ _ hz.memoB fun hb k j v hm => ?_
        rcases List.mem_cons.1 hm with e | hm
        · cases e; exact hw hb
        · exact hz.lrB hb k j v (List.mem_filter.1 hm).1

theorem lrHold_lk {r : Nat} {d : Def} (hR : R r) (hd : cfg.rules[r]? = some d) (hm : (d.isMacro && !d.isLR) = false) (i : Nat) {st : St V} {y : Dress V}
    (ht : Mate b a k k' st y) : Lk (LR b a k k') (lrHold rec cfg r d i st) (lrHold rec (cfg.mode ro ns) r d i (st.dress y)) := by
  unfold lrHold
  show Lk _ (match st.args with | [] => _ | (_, inst) :: _ => _) (match st.args with | [] => _ | (_, inst) :: _ => _)
  cases hst : st.args with
  | nil => exact Lk.ub _
  | cons fr tl =>
    obtain ⟨x, inst⟩ := fr
    dsimp only
    cases hl : st.lrMemo.lookup (r, inst, i) with
    | some m =>
      dsimp only
      have h1 := ht.tabs st.memo st.active st.insts st.lrMemo (setInsert (r, inst) st.lrRefs) st.lrActive ht.memoB ht.lrB
      rw [hst] at h1
      cases m with
      | none => exact Lk.ok (LR.mk h1)
      | some p =>
        obtain ⟨j, v⟩ := p
        dsimp only
        have hv : b = false → v = none := fun hb => ht.lrB hb (r, inst, i) j v (by
          have := List.lookup_eq_some_iff.1 hl
          obtain ⟨l1, l2, e, _⟩ := this
          rw [e]; simp)
        obtain ⟨z, e1, e2⟩ := mate_emplace h1 ns h.same d hv
        refine Lk.ok ⟨rfl, z, e1, e2⟩
    | none =>
      dsimp only
      have h1 := ht.tabs st.memo st.active st.insts (lrSet (r, inst, i) none st.lrMemo) [] (setInsert (r, inst, i) st.lrActive) ht.memoB
        fun hb k j v hm => by
          rcases List.mem_cons.1 hm with e | hm
          · cases e
          · exact ht.lrB hb k j v (List.mem_filter.1 hm).1
      rw [hst] at h1
      refine Lk.vres (doParse_lk ih h hns hr hR hd hm i h1) fun o w s z hw hz => ?_
      cases o with
      | none => exact Lk.ok (LR.mk (hz.tabs _ _ _ _ _ _ hz.memoB hz.lrB))
      | some j =>
        dsimp only
        refine ih cfg ro ns (.grow r inst _ j w) i { s with lrRefs := _, lrMemo := lrSet (r, inst, i) (some (j, w)) s.lrMemo } z a k k' h hns ⟨⟨hR, hw⟩, fun d' hd' => by rw [hd] at hd'; cases hd'; exact hm⟩ hr (by intro e; cases e) ?_
        refine hz.tabs _ _ _ _ _ _ hz.memoB fun hb k j v hm => ?_
        rcases List.mem_cons.1 hm with e | hm
        · cases e; exact hw hb
        · exact hz.lrB hb k j v (List.mem_filter.1 hm).1

end


mutual
theorem resolve_opqs {b : Bool} (ps : List (List Byte)) (as : List Ope) (ha : b = false → ∀ x ∈ as, x.opqs = false) (e : Ope) (he : b = false → e.opqs = false) :
    b = false → (resolve ps as e).opqs = false := by
  intro hb
  cases e with
  | seq es kw => exact resolveList_opqs ps as ha es he hb
  | cho es l fs => exact resolveList_opqs ps as ha es he hb
  | rep e a b c => exact resolve_opqs ps as ha e he hb
  | and_ e => exact resolve_opqs ps as ha e he hb
  | not_ e => exact resolve_opqs ps as ha e he hb
  | capScope e => exact resolve_opqs ps as ha e he hb
  | cap k e => exact resolve_opqs ps as ha e he hb
  | tok e => exact resolve_opqs ps as ha e he hb
  | ign e => exact resolve_opqs ps as ha e he hb
  | ws e => exact resolve_opqs ps as ha e he hb
  | prec a b info r => cases he hb
  | ref r nm bs =>
    simp only [resolve]
    cases hl : lookupArg ps as nm with
    | none => exact he hb
    | some x => exact ha hb x (lookupArg_mem_safe hl).1
  | param k nm =>
    simp only [resolve]
    cases hl : lookupArg ps as nm with
    | none => exact he hb
    | some x => exact ha hb x (lookupArg_mem_safe hl).1
  | recov r nm bs =>
    simp only [resolve]
    cases hl : lookupArg ps as nm with
    | none => exact he hb
    | some x =>
      have hx := ha hb x (lookupArg_mem_safe hl).1
      cases x with
      | ref r' nm' as' => exact hx
      | _ => rfl
  | usr k => cases he hb
  | weak r => rfl
  | bref r => rfl
  | _ => exact he hb

theorem resolveList_opqs {b : Bool} (ps : List (List Byte)) (as : List Ope) (ha : b = false → ∀ x ∈ as, x.opqs = false) (es : List Ope)
    (he : b = false → Ope.opqsL es = false) : b = false → Ope.opqsL (resolveList ps as es) = false := by
  intro hb
  cases es with
  | nil => rfl
  | cons e es =>
    have := he hb
    simp only [Ope.opqsL, Bool.or_eq_false_iff] at this
    simp only [resolveList, Ope.opqsL, Bool.or_eq_false_iff]
    exact ⟨resolve_opqs ps as ha e (fun _ => this.1) hb, resolveList_opqs ps as ha es (fun _ => this.2) hb⟩
end

theorem opqsL_mem {es : List Ope} (h : Ope.opqsL es = false) {e : Ope} (he : e ∈ es) : e.opqs = false := by
  induction es with
  | nil => cases he
  | cons x es ih =>
    simp only [Ope.opqsL, Bool.or_eq_false_iff] at h
    rcases List.mem_cons.1 he with rfl | he
    · exact h.1
    · exact ih h.2 he

theorem FitL.mem {b : Bool} {R : Nat → Prop} {es : List Ope} (h : FitL b R es) {e : Ope} (he : e ∈ es) : Fit b R e :=
  ⟨fun _ hu => h.1 _ (mem_usesL he hu), fun hb => opqsL_mem (h.2 hb) he⟩

theorem resolveList_fit {b : Bool} {R : Nat → Prop} {ps : List (List Byte)} {as es : List Ope} (ha : FitL b R as) (he : FitL b R es) :
    FitL b R (resolveList ps as es) :=
  ⟨resolveList_in ps as ha.1 es he.1, resolveList_opqs ps as (fun hb _ hx => opqsL_mem (ha.2 hb) hx) es he.2⟩

section
variable {b : Bool} {R : Nat → Prop} {rec : Rec V} (ih : LkRec b R rec) {cfg : Cfg V} {ro ns : Bool} (h : Alike b R cfg ro ns) (hns : cfg.needsRuleStack = false)
  {a : List (List Ope × Nat)} {k k' : List Nat} (hr : Around b R ns a k k')
include ih h hns hr

omit ih h hns hr in
/-- Storing the value is part of both branches: in recognise-only mode it does nothing. -/
theorem holder_plain {c : Cfg V} {r : Nat} {d : Def} (hd : c.rules[r]? = some d) (h1 : ¬ (d.isMacro && !d.isLR) = true) (h2 : ¬ d.isLR = true) (i : Nat) (s : St V) :
    holder rec c r i s = (guarded c r i s fun st => holdBody rec c r d i st).bind fun x =>
      .ok (x.1, if x.1.isSome then emplace c d x.2.1 x.2.2 else x.2.2) := by
  unfold holder
  rw [hd]
  dsimp only
  rw [if_neg h1, if_neg h2]
  unfold holdBody
  by_cases hc : c.recognizeOnly = true
  · simp only [hc, if_true]
    congr 1
    funext x
    obtain ⟨o, v, s'⟩ := x
    cases o with
    | none => rfl
    | some j => simp [emplace, hc]
  · simp only [hc, if_false, Bool.false_eq_true]
    congr 1
    funext x
    obtain ⟨o, v, s'⟩ := x
    cases o <;> rfl

theorem holder_lk {r : Nat} (hR : R r) (i : Nat) {st : St V} {y : Dress V} (ht : Mate b a k k' st y) :
    Lk (LR b a k k') (holder rec cfg r i st) (holder rec (cfg.mode ro ns) r i (st.dress y)) := by
  unfold holder
  show Lk _ (match cfg.rules[r]? with | none => _ | some d => _) (match cfg.rules[r]? with | none => _ | some d => _)
  cases hd : cfg.rules[r]? with
  | none => exact Lk.ub _
  | some d =>
    dsimp only
    by_cases h1 : (d.isMacro && !d.isLR) = true
    · rw [if_pos h1, if_pos h1]
      have hb := mate_stack ht (r :: k) (r :: k')
      obtain ⟨m1, m2, m3, m4⟩ := ht
      subst m3; subst m4
      refine Lk.after (LkRec.ope ih h hns (k := r :: st.ruleStack) (k' := r :: y.ruleStack) ⟨hr.1, fun e => by rw [hr.2 e]⟩ (h.closed r d hR hd) (fun _ => rfl) i hb) fun s z hz => ?_
      refine ⟨{ z with ruleStack := z.ruleStack.tail }, rfl, hz.1, hz.2.1, ?_, ?_⟩
      · show s.ruleStack.tail = _; rw [hz.2.2.1]; rfl
      · show z.ruleStack.tail = _; rw [hz.2.2.2]; rfl
    · rw [if_neg h1, if_neg h1]
      have hm : (d.isMacro && !d.isLR) = false := by simpa using h1
      by_cases h2 : d.isLR = true
      · rw [if_pos h2, if_pos h2]; exact lrHold_lk ih h hns hr hR hd hm i ht
      · have e1 := holder_plain (rec := rec) hd h1 h2 i st
        have e2 := holder_plain (rec := rec) (c := cfg.mode ro ns) hd h1 h2 i (st.dress y)
        unfold holder at e1 e2
        rw [hd] at e1
        rw [show (cfg.mode ro ns).rules[r]? = some d from hd] at e2
        dsimp only at e1 e2
        rw [if_neg h1] at e1 e2
        rw [e1, e2]
        refine Lk.vres (guarded_lk r i (fun s z hz => holdBody_lk ih h hns hr hR hd hm i hz) ht) fun o v s z hv hz => ?_
        cases o with
        | none => exact Lk.ok (LR.mk hz)
        | some j =>
          obtain ⟨w, e1, e2⟩ := mate_emplace hz ns h.same d hv
          exact Lk.ok ⟨rfl, w, e1, e2⟩

theorem withArgs_lk {r : Nat} (hR : R r) (i : Nat) (fr : List Ope × Nat) (hfr : FitL b R fr.1) {st : St V} {y : Dress V} (ht : Mate b a k k' st y) :
    Lk (LR b a k k') (withArgs st fr fun st => rec cfg (.hold r) i st) (withArgs (st.dress y) fr fun st => rec (cfg.mode ro ns) (.hold r) i st) := by
  unfold withArgs
  refine Lk.after (a := fr :: a) (LkRec.hold ih h hns ⟨?_, hr.2⟩ hR i (st := { st with args := fr :: st.args }) (y := y) ⟨ht.1, by show fr :: st.args = _; rw [ht.2.1], ht.2.2⟩) fun s z hz => ?_
  · intro x hx
    rcases List.mem_cons.1 hx with rfl | hx
    · exact hfr
    · exact hr.1 x hx
  · exact ⟨z, rfl, hz.1, by show s.args.tail = a; rw [hz.2.1]; rfl, hz.2.2⟩

theorem refer_lk {r : Nat} (hR : R r) (as : List Ope) (has : FitL b R as)
    (hk : Heads (((cfg.rules[r]?).map Def.isMacro).getD false) k k') (i : Nat) {st : St V} {y : Dress V} (ht : Mate b a k k' st y) :
    Lk (LR b a k k') (refer rec cfg r as i st) (refer rec (cfg.mode ro ns) r as i (st.dress y)) := by
  unfold refer
  show Lk _ (match cfg.rules[r]? with | none => _ | some d => _) (match cfg.rules[r]? with | none => _ | some d => _)
  cases hd : cfg.rules[r]? with
  | none => exact Lk.ub _
  | some d =>
    dsimp only
    by_cases hm : d.isMacro = true
    · rw [if_pos hm, if_pos hm]
      have hh : st.ruleStack.head? = y.ruleStack.head? := by
        rw [ht.2.2.1, ht.2.2.2]
        exact hk (by rw [hd]; exact hm)
      cases hs' : y.ruleStack with
      | nil => exact Lk.ub _
      | cons cur stk =>
        rw [hs'] at hh
        cases hs : st.ruleStack with
        | nil => rw [hs] at hh; cases hh
        | cons cur0 stk0 =>
          rw [hs] at hh
          cases hh
          cases hst : st.args with
          | nil => exact Lk.ub _
          | cons fr tl =>
            obtain ⟨top, inst⟩ := fr
            dsimp only
            have htop : FitL b R top := hr.1 (top, inst) (by rw [← ht.2.1, hst]; simp)
            cases hc : cfg.rules[cur]? with
            | none => exact Lk.ub _
            | some c =>
              dsimp only
              split
              · exact Lk.ub _
              · have hin : FitL b R (resolveList c.params top as) := resolveList_fit htop has
                have hw : st.dress y = { st with args := (top, inst) :: tl, ruleStack := cur :: stk0 }.dress { y with ruleStack := cur :: stk } := by
                  show _ = St.mk _ _ _ _ _ _ _ _ _ _ _ _ _ _ _ _ _ _ _ _
                  rw [← hst, ← hs']
                have hs0 : st = { st with args := (top, inst) :: tl, ruleStack := cur :: stk0 } := by
                  rw [← hst, ← hs]
                have ht' : Mate b a k k' { st with args := (top, inst) :: tl, ruleStack := cur :: stk0 } { y with ruleStack := cur :: stk } :=
                  ⟨ht.1, by rw [← hst]; exact ht.2.1, by rw [← hs]; exact ht.2.2.1, by rw [← hs']; exact ht.2.2.2⟩
                by_cases hl : d.isLR = true
                · rw [if_pos hl, if_pos hl]
                  exact withArgs_lk ih h hns hr hR i _ hin (ht'.tabs _ _ _ _ _ _ ht'.memoB ht'.lrB)
                · rw [if_neg hl, if_neg hl]
                  exact withArgs_lk ih h hns hr hR i _ hin ht
    · rw [if_neg hm, if_neg hm]
      show Lk _ _ (if (!d.hasMacroRef && !d.isLR && cfg.packrat) = true then _ else _)
      by_cases hp : (!d.hasMacroRef && !d.isLR && cfg.packrat) = true
      · rw [if_pos hp, if_pos hp]; exact LkRec.hold ih h hns hr hR i ht
      · rw [if_neg hp, if_neg hp]
        exact withArgs_lk ih h hns hr hR i ([], 0) ⟨(by intro u hu; cases hu), fun _ => rfl⟩ ht

theorem parseParam_lk (n i : Nat) (hk : k.head? = k'.head?) {st : St V} {y : Dress V} (ht : Mate b a k k' st y) :
    Lk (LR b a k k') (parseParam rec cfg n i st) (parseParam rec (cfg.mode ro ns) n i (st.dress y)) := by
  unfold parseParam
  show Lk _ (match st.args with | [] => _ | (top, _) :: _ => _) (match st.args with | [] => _ | (top, _) :: _ => _)
  cases hst : st.args with
  | nil => exact Lk.ub _
  | cons fr tl =>
    obtain ⟨top, inst⟩ := fr
    dsimp only
    have htop : FitL b R top := hr.1 (top, inst) (by rw [← ht.2.1, hst]; simp)
    cases hn : top[n]? with
    | none => exact Lk.ub _
    | some e =>
      exact LkRec.ope ih h hns hr (htop.mem (List.mem_of_getElem? hn)) (fun _ => hk) i ht

end


/-! ## Precedence climbing and recovery -/

theorem expected_ne_oof (rs : List Def) (ts : List (Option ErrLit × Option Nat)) (l : List Byte) : expected rs ts l ≠ .oof := by
  induction ts generalizing l with
  | nil => intro e; cases e
  | cons t ts ih =>
    obtain ⟨el, er⟩ := t
    simp only [expected]
    split
    · exact ih l
    · cases el with
      | none =>
        dsimp only
        intro e
        cases hx : expected rs ts (if l = [] then (er.bind fun r => (rs[r]?).map (·.name)).getD [] else l) with
        | ok x => rw [hx] at e; cases e
        | ub m => rw [hx] at e; cases e
        | oof => exact ih _ hx
      | some x =>
        cases x with
        | cap c => intro e; cases e
        | lit c =>
          dsimp only
          intro e
          cases hx : expected rs ts l with
          | ok x => rw [hx] at e; cases e
          | ub m => rw [hx] at e; cases e
          | oof => exact ih _ hx

theorem output_ne_oof (rs : List Def) (e : Err) : e.output rs ≠ .oof := by
  unfold Err.output
  cases e.msgPos with
  | some p => dsimp only; split <;> (intro h; cases h)
  | none =>
    cases e.pos with
    | none => intro h; cases h
    | some p =>
      dsimp only
      split
      · intro h
        cases hx : expected rs e.toks e.label with
        | ok x => rw [hx] at h; cases h
        | ub m => rw [hx] at h; cases h
        | oof => exact expected_ne_oof _ _ _ hx
      · intro h; cases h

section
variable {b : Bool} {R : Nat → Prop} {rec : Rec V} (ih : LkRec b R rec) {cfg : Cfg V} {ro ns : Bool} (h : Alike b R cfg ro ns) (hns : cfg.needsRuleStack = false)
  {a : List (List Ope × Nat)} {k k' : List Nat} (hr : Around b R ns a k k')
include ih h hns hr

theorem parsePrec_lk (hb : b = true) {x w : Ope} (hx : OpeIn R x) (hw : OpeIn R w) (hk : Heads (x.sees cfg.rules || w.sees cfg.rules) k k')
    (info : List (List Byte × Nat × Byte)) (r mp i : Nat) {st : St V} {y : Dress V} (ht : Mate b a k k' st y) :
    Lk (LR b a k k') (parsePrec rec cfg x w info r mp i st) (parsePrec rec (cfg.mode ro ns) x w info r mp i (st.dress y)) := by
  subst hb
  unfold parsePrec
  refine Lk.then' (LkRec.ope ih h hns hr ⟨hx, by intro e; cases e⟩ (heads_left hk) i ht) fun j s z hz => ?_
  have e : binopRule (cfg.mode ro ns) w r (s.dress z) = binopRule cfg w r s := rfl
  rw [e]
  refine Lk.same _ fun q => ?_
  refine Lk.after (ih cfg ro ns (.precLoop x w info r mp q i) j { s with precToks := (q, []) :: s.precToks } z a k k' h hns ⟨rfl, hx, hw⟩ hr hk ?_) fun s z hz => ?_
  · exact ⟨⟨hz.1.1, hz.1.2.1, by intro e; cases e⟩, hz.2⟩
  · exact ⟨z, rfl, ⟨hz.1.1, hz.1.2.1, by intro e; cases e⟩, hz.2⟩

omit ih hns hr h in
theorem precReduce_lk (r q j : Nat) {st : St V} {y : Dress V} (ht : Mate true a k k' st y) :
    ∃ z, precReduce (cfg.mode ro ns) r q j (st.dress y) = (precReduce cfg r q j st).dress z ∧ Mate true a k k' (precReduce cfg r q j st) z := by
  have ev := ht.1.2.1 rfl
  unfold precReduce
  have e0 : hasAction (cfg.mode ro ns) r (st.dress y) = hasAction cfg r st := rfl
  rw [e0]
  by_cases ha : hasAction cfg r st = true
  · rw [if_pos ha, if_pos ha]
    dsimp only
    rw [ev]
    unfold callAction
    dsimp only
    cases cfg.action r with
    | none => exact ⟨{ y with vs := _ }, rfl, ⟨ht.1.1, fun _ => rfl, by intro e; cases e⟩, ht.2⟩
    | some f => exact ⟨{ y with vs := _ }, rfl, ⟨ht.1.1, fun _ => rfl, by intro e; cases e⟩, ht.2⟩
  · rw [if_neg ha, if_neg ha]
    exact ⟨{ y with vs := { st.vs with vals := [st.vs.vals.head?.getD none] } }, by rw [← ev], ⟨ht.1.1, fun _ => rfl, by intro e; cases e⟩, ht.2⟩

theorem precRound_lk (hb : b = true) {x w : Ope} (hx : OpeIn R x) (hw : OpeIn R w) (hk : Heads (x.sees cfg.rules || w.sees cfg.rules) k k')
    (info : List (List Byte × Nat × Byte)) (r mp q s0 i : Nat) {st : St V} {y : Dress V} (ht : Mate b a k k' st y) :
    Lk (LR b a k k') (precRound rec cfg x w info r mp q s0 i st) (precRound rec (cfg.mode ro ns) x w info r mp q s0 i (st.dress y)) := by
  subst hb
  have ev := ht.1.2.1 rfl
  unfold precRound
  show Lk _ _ (if i < cfg.input.length then _ else _)
  by_cases hi : i < cfg.input.length
  · rw [if_pos hi, if_pos hi]
    refine Lk.res (LkRec.ope ih h hns hr ⟨hw, by intro e; cases e⟩ (heads_right hk) i (st := { st with vs := {} }) (y := { y with vs := {} })
      (ht.vs {} {} (fun _ => rfl) (by intro e; cases e))) fun o s z hz => ?_
    have ez := hz.1.2.1 rfl
    have h1 : Mate true a k k' { s with vs := st.vs } { z with vs := y.vs } := hz.vs _ _ (fun _ => ev) (by intro e; cases e)
    dsimp only
    cases o with
    | none => exact Lk.ok (LR.mk h1)
    | some j =>
      dsimp only
      cases info.lookup ((s.precToks.head?.map (·.2)).getD []) with
      | none => exact Lk.ok (LR.mk h1)
      | some la =>
        obtain ⟨level, assoc⟩ := la
        dsimp only
        by_cases hl : level < mp
        · rw [if_pos hl, if_pos hl]; exact Lk.ok (LR.mk h1)
        · rw [if_neg hl, if_neg hl, ez]
          cases hv : s.vs.vals with
          | nil => exact Lk.ub _
          | cons opv tl =>
            dsimp only
            have := ih cfg ro ns (.prec x w info r (if assoc = 76 then level + 1 else level)) j { s with vs := {} } { z with vs := {} } a k k' h hns ⟨rfl, hx, hw⟩ hr hk
              (hz.vs {} {} (fun _ => rfl) (by intro e; cases e))
            refine Lk.res this fun o2 s2 z2 hz2 => ?_
            have ez2 := hz2.1.2.1 rfl
            cases o2 with
            | none => exact Lk.ok ⟨rfl, { z2 with vs := y.vs }, rfl, hz2.vs _ _ (fun _ => ev) (by intro e; cases e)⟩
            | some n =>
              dsimp only
              rw [ez2]
              cases hv2 : s2.vs.vals with
              | nil => exact Lk.ub _
              | cons rv tl' =>
                dsimp only
                rw [ev]
                obtain ⟨z3, e3, h3⟩ := precReduce_lk (cfg := cfg) (ro := ro) (ns := ns) r s0 n
                  (hz2.vs { st.vs with vals := st.vs.vals ++ [opv] ++ [rv] } { st.vs with vals := st.vs.vals ++ [opv] ++ [rv] } (fun _ => rfl) (by intro e; cases e))
                have := ih cfg ro ns (.precLoop x w info r mp q s0) n _ z3 a k k' h hns ⟨rfl, hx, hw⟩ hr hk h3
                rw [← e3] at this
                exact this
  · rw [if_neg hi, if_neg hi]; exact Lk.ok (LR.mk ht)

theorem parseRecov_lk {r : Nat} (nm : List Byte) (as : List Ope) (hf : Fit b R (.ref r nm as)) (hk : Heads ((Ope.ref r nm as).sees cfg.rules) k k') (i : Nat)
    {st : St V} {y : Dress V} (ht : Mate b a k k' st y) : Lk (LR b a k k') (parseRecov rec cfg r nm as i st) (parseRecov rec (cfg.mode ro ns) r nm as i (st.dress y)) := by
  unfold parseRecov
  dsimp only
  refine Lk.bind (p := fun s s' => ∃ z, s' = s.dress z ∧ Mate b a k k' s z) ?_ fun s s' hs => ?_
  · rw [if_neg (c := st.logOn = true) (by rw [ht.1.1]; simp)]
    by_cases hl : y.logOn = true
    · rw [if_pos hl]
      cases as with
      | nil => exact Lk.ub _
      | cons e es =>
        cases e with
        | ref l nm' bs =>
          dsimp only
          cases cfg.rules[l]? with
          | none => exact Lk.ub _
          | some ld =>
            dsimp only
            split
            · exact Lk.ok ⟨{ y with err := y.err.note ⟨i, resolvePlaceholders st.caps ld.errorMessage.length ld.errorMessage, some ld.name, true⟩ }, rfl, ht⟩
            · exact Lk.ok ⟨y, rfl, ht⟩
        | param n nm' => exact Lk.ub _
        | _ => exact Lk.ok ⟨y, rfl, ht⟩
    · rw [if_neg hl]; exact Lk.ok ⟨y, rfl, ht⟩
  · obtain ⟨z, rfl, hz⟩ := hs
    refine Lk.res (LkRec.ope ih h hns hr hf hk i (st := { s with logOn := false, vs := {}, dt := none }) (y := { z with logOn := false, vs := {} })
      ⟨⟨rfl, fun _ => rfl, fun hb => ⟨nov_empty, nov_empty, (hz.1.2.2 hb).2.2⟩⟩, hz.2⟩) fun o s2 z2 hz2 => ?_
    dsimp only
    have h1 : ∀ (rc : Bool) (e e' : Err) (l l' : List Report), Mate b a k k' { s2 with logOn := s.logOn, vs := s.vs, dt := s.dt, recovered := rc, err := e, logs := l }
        { z2 with logOn := z.logOn, vs := z.vs, err := e', logs := l' } := fun _ _ _ _ _ =>
      ⟨⟨hz.1.1, hz.1.2.1, fun hb => ⟨(hz.1.2.2 hb).1, (hz.1.2.2 hb).2.1, (hz2.1.2.2 hb).2.2⟩⟩, hz2.2⟩
    refine Lk.bind (p := fun s s' => ∃ z, s' = s.dress z ∧ Mate b a k k' s z) ?_ fun s3 s3' hs => ?_
    · by_cases ho : o.isSome = true
      · rw [if_pos ho, if_pos ho, if_neg (c := s.logOn = true) (by rw [hz.1.1]; simp)]
        by_cases hl : z.logOn = true
        · rw [if_pos hl]
          cases ho : z2.err.output cfg.rules with
          | ub m => exact Lk.ub _
          | oof => exact absurd ho (output_ne_oof _ _)
          | ok q =>
            simp only [Out.bind]
            exact Lk.ok ⟨_, rfl, h1 true s2.err _ s2.logs _⟩
        · rw [if_neg hl]; exact Lk.ok ⟨_, rfl, h1 true s2.err z2.err s2.logs z2.logs⟩
      · rw [if_neg ho, if_neg ho]; exact Lk.ok ⟨_, rfl, h1 s2.recovered s2.err z2.err s2.logs z2.logs⟩
    · obtain ⟨z3, rfl, hz3⟩ := hs
      obtain ⟨e1, e2⟩ := mate_setCut hz3 true
      rw [e1]
      exact Lk.ok (LR.mk e2)

end


/-! ## The engine -/

section
variable {b : Bool} {R : Nat → Prop} {rec : Rec V} (ih : LkRec b R rec) {cfg : Cfg V} {ro ns : Bool} (h : Alike b R cfg ro ns) (hns : cfg.needsRuleStack = false)
  {a : List (List Ope × Nat)} {k k' : List Nat} (hr : Around b R ns a k k')
include ih h hns hr

theorem parseOpe_lk {e : Ope} (he : Fit b R e) (hk : Heads (e.sees cfg.rules) k k') (i : Nat) {st : St V} {y : Dress V} (ht : Mate b a k k' st y) :
    Lk (LR b a k k') (parseOpe rec cfg e i st) (parseOpe rec (cfg.mode ro ns) e i (st.dress y)) := by
  unfold parseOpe
  show Lk _ _ (if cfg.input.length < i then _ else _)
  by_cases hi : cfg.input.length < i
  · rw [if_pos hi, if_pos hi]; exact Lk.ub _
  · rw [if_neg hi, if_neg hi]
    have htm : ∀ m, Lk (LR b a k k') (terminal cfg i st m) (terminal (cfg.mode ro ns) i (st.dress y) m) := by
      intro m
      unfold terminal
      cases m with
      | none => exact lk_fail ht _ _ _ _
      | some n => exact Lk.ok (LR.mk ht)
    cases e with
    | seq es kw => exact parseSeq_lk ih h hns hr es kw he hk i ht
    | cho es l fs => exact parseCho_lk ih h hns hr es l fs he hk i ht
    | rep e mn mx sp => exact parseRep_lk ih h hns hr (e := e) he hk mn mx sp i ht
    | and_ e =>
      show Lk _ (parseAnd ..) (parseAnd ..)
      unfold parseAnd
      refine Lk.res (LkRec.ope ih h hns hr (e := e) he hk i ht) fun o s z hz => ?_
      obtain ⟨w, e1, e2⟩ := mate_rollback hz ht
      exact Lk.ok ⟨rfl, w, e1, e2⟩
    | not_ e =>
      show Lk _ (parseNot ..) (parseNot ..)
      unfold parseNot
      refine Lk.res (LkRec.ope ih h hns hr (e := e) he hk i ht) fun o s z hz => ?_
      obtain ⟨w, e1, e2⟩ := mate_rollback hz ht
      dsimp only
      rw [e1]
      cases o with
      | none => exact Lk.ok (LR.mk e2)
      | some j => exact lk_fail e2 _ _ _ _
    | dict w ic => exact parseDict_lk ih h hns hr w ic i ht
    | lit s ic => exact parseLiteral_lk ih h hns hr s ic (.lit s) i ht
    | cls c => exact htm _
    | chr c => exact htm _
    | dot => exact htm _
    | capScope e =>
      show Lk _ (parseCapScope ..) (parseCapScope ..)
      unfold parseCapScope
      exact Lk.after (LkRec.ope ih h hns hr (e := e) he hk i ht) fun s z hz => ⟨z, rfl, hz⟩
    | cap nm e =>
      show Lk _ (parseCap ..) (parseCap ..)
      unfold parseCap
      exact Lk.then' (LkRec.ope ih h hns hr (e := e) he hk i ht) fun j s z hz => Lk.ok ⟨rfl, z, rfl, hz⟩
    | tok e => exact tokenBody_lk ih h hns hr (e := e) he hk i ht
    | ign e =>
      show Lk _ (parseIgn ..) (parseIgn ..)
      unfold parseIgn inScope
      refine Lk.after (LkRec.ope ih h hns hr (e := e) he hk i (st := { st with vs := {} }) (y := { y with vs := {} })
        (ht.vs {} {} (fun _ => rfl) (fun _ => ⟨nov_empty, nov_empty⟩))) fun s z hz => ?_
      exact ⟨{ z with vs := y.vs }, rfl, hz.vs _ _ ht.1.2.1 fun hb => ⟨(ht.1.2.2 hb).1, (ht.1.2.2 hb).2.1⟩⟩
    | usr id =>
      cases b with
      | false => cases he.2 rfl
      | true =>
        have ev := ht.1.2.1 rfl
        show Lk _ (parseUsr ..) (parseUsr ..)
        unfold parseUsr
        dsimp only
        rw [ev]
        cases (cfg.user id i st.vs st.dt).1 with
        | none => exact Lk.ok ⟨rfl, { y with vs := _ }, rfl, ht.vs _ _ (fun _ => rfl) (by intro e; cases e)⟩
        | some n =>
          dsimp only
          split
          · exact Lk.ok ⟨rfl, { y with vs := _ }, rfl, ht.vs _ _ (fun _ => rfl) (by intro e; cases e)⟩
          · exact Lk.ub _
    | weak r => exact LkRec.hold ih h hns hr (he.1 r (by simp [Ope.uses])) i ht
    | ref r nm as =>
      refine refer_lk ih h hns hr (he.1 r (by simp [Ope.uses])) as ⟨fun u hu => he.1 u (by simp [Ope.uses, hu]), he.2⟩ (fun e => hk ?_) i ht
      simp [Ope.sees, Ope.callsMacro, e]
    | param n nm => exact parseParam_lk ih h hns hr n i (hk (by simp [Ope.sees, Ope.hasParam])) ht
    | ws e =>
      show Lk _ (parseWs ..) (parseWs ..)
      unfold parseWs
      show Lk _ _ (if st.inWs = true then _ else _)
      by_cases hw : st.inWs = true
      · rw [if_pos hw, if_pos hw]; exact Lk.ok (LR.mk ht)
      · rw [if_neg hw, if_neg hw]
        exact Lk.after (LkRec.ope ih h hns hr (e := e) he hk i (st := { st with inWs := true }) (y := y) ht) fun s z hz => ⟨z, rfl, hz⟩
    | bref nm => exact parseBref_lk ih h hns hr nm i ht
    | prec x w info r =>
      cases b with
      | false => cases he.2 rfl
      | true =>
        refine ih cfg ro ns (.prec x w info r 0) i st y a k k' h hns
          ⟨rfl, fun u hu => he.1 u (by simp [Ope.uses, hu]), fun u hu => he.1 u (by simp [Ope.uses, hu])⟩ hr (fun e => hk ?_) ht
        simp only [Task.sees, Ope.sees, Ope.callsMacro, Ope.hasParam, Bool.or_eq_true] at e ⊢
        tauto
    | recov r nm as =>
      refine parseRecov_lk ih h hns hr nm as ⟨fun u hu => he.1 u (by simpa [Ope.uses] using hu), he.2⟩ (fun e => hk ?_) i ht
      simpa [Ope.sees, Ope.callsMacro, Ope.hasParam] using e
    | cut =>
      obtain ⟨e1, e2⟩ := mate_setCut ht true
      show Lk _ (.ok (some i, _)) (.ok (some i, (st.dress y).setCut true))
      rw [e1]
      exact Lk.ok (LR.mk e2)
    | null => exact Lk.ub _

end

theorem step_lk {b : Bool} {R : Nat → Prop} {rec : Rec V} (ih : LkRec b R rec) : LkRec b R (step rec) := by
  intro cfg ro ns t i st y a k k' h hns hf hr hk ht
  cases t with
  | ope e => exact parseOpe_lk ih h hns hr hf hk i ht
  | rep e mx c => exact repRound_lk ih h hns hr (e := e) hf hk mx c i ht
  | hold r => exact holder_lk ih h hns hr hf i ht
  | grow r inst cyc j v => exact growRound_lk ih h hns hr hf.1.1 hf.2 inst cyc j hf.1.2 i ht
  | prec x w info r mp => exact parsePrec_lk ih h hns hr hf.1 hf.2.1 hf.2.2 hk info r mp i ht
  | precLoop x w info r mp q s => exact precRound_lk ih h hns hr hf.1 hf.2.1 hf.2.2 hk info r mp q s i ht

theorem run_lk (b : Bool) (R : Nat → Prop) (n : Nat) : LkRec b R (run (V := V) n) := by
  induction n with
  | zero => intro cfg ro ns t i st y a k k' h hns hf hr hk ht; exact rfl
  | succ n ih => exact step_lk ih

/-! ## Whole parses -/

/-- Related results of `parse_core`. -/
def LP (b : Bool) (r r' : Result V) : Prop :=
  r'.ret = r.ret ∧ r'.recovered = r.recovered ∧ r'.len = r.len ∧ ∃ y, r'.st = r.st.dress y ∧ Par b r.st y

theorem parseCore_lk {b : Bool} {R : Nat → Prop} {cfg : Cfg V} {ro ns : Bool} (h : Alike b R cfg ro ns) (hns : cfg.needsRuleStack = false) {r : Nat} (hR : R r)
    (n : Nat) (eoi : Bool) {st : St V} {y : Dress V} (ht : Par b st y) (ha : st.args = [([], 0)]) (hk : y.ruleStack = st.ruleStack) :
    Lk (LP b) (parseCore n cfg r eoi st) (parseCore n (cfg.mode ro ns) r eoi (st.dress y)) := by
  have hr : Around b R ns [([], 0)] st.ruleStack y.ruleStack := by
    refine ⟨?_, fun _ => hk.symm⟩
    intro fr hfr
    have : fr = ([], 0) := by simpa using hfr
    subst this
    exact ⟨(by intro u hu; cases hu), fun _ => rfl⟩
  have hmt : Mate b [([], 0)] st.ruleStack y.ruleStack st y := ⟨ht, ha, rfl, rfl⟩
  unfold parseCore
  dsimp only
  have hlead : Lk (LR b [([], 0)] st.ruleStack y.ruleStack) (match cfg.ws with | none => (.ok (some 0, st) : Out (Res V)) | some w => run n cfg (.ope w) 0 st)
      (match cfg.ws with | none => (.ok (some 0, st.dress y) : Out (Res V)) | some w => run n (cfg.mode ro ns) (.ope w) 0 (st.dress y)) := by
    cases hw : cfg.ws with
    | none => exact Lk.ok (LR.mk hmt)
    | some w => exact LkRec.ope (run_lk b R n) h hns hr (h.ws w hw).1 (fun _ => by rw [hk]) 0 hmt
  refine Lk.resv hlead fun o s z hz => ?_
  cases o with
  | none => exact Lk.ok ⟨rfl, rfl, rfl, z, rfl, hz.1⟩
  | some i =>
    dsimp only
    refine Lk.resv (LkRec.hold (run_lk b R n) h hns hr hR i hz) fun o s z hz => ?_
    cases o with
    | none => exact Lk.ok ⟨rfl, rfl, rfl, z, rfl, hz.1⟩
    | some j =>
      dsimp only
      unfold eoiCheck
      show Lk _ (.ok (if (eoi && decide (j < cfg.input.length)) = true then _ else _)) (.ok (if (eoi && decide (j < cfg.input.length)) = true then _ else _))
      by_cases hj : (eoi && decide (j < cfg.input.length)) = true
      · rw [if_pos hj, if_pos hj]
        refine Lk.ok ⟨rfl, ?_, rfl, ?_⟩
        · dsimp only; split <;> split <;> rfl
        · dsimp only
          by_cases c1 : optLt s.err.pos j = true <;> by_cases c2 : optLt z.err.pos j = true
          · rw [if_pos c1, if_pos c2]; exact ⟨{ z with err := z.err.note ⟨j, "expected end of input".toUTF8.toList, none, true⟩ }, rfl, hz.1⟩
          · rw [if_pos c1, if_neg c2]; exact ⟨z, rfl, hz.1⟩
          · rw [if_neg c1, if_pos c2]; exact ⟨{ z with err := z.err.note ⟨j, "expected end of input".toUTF8.toList, none, true⟩ }, rfl, hz.1⟩
          · rw [if_neg c1, if_neg c2]; exact ⟨z, rfl, hz.1⟩
      · rw [if_neg hj, if_neg hj]; exact Lk.ok ⟨rfl, rfl, rfl, z, rfl, hz.1⟩

end Verif
