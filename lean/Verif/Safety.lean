import Verif.EngineInv
/-!
# Linked grammars run without undefined behaviour

Static conditions on a linked grammar (all of them decidable) under which no parse reaches one of the undefined operations of the
model: a missing rule, an argument or parameter index out of range, an empty stack, a null operator, a position beyond the end,
an index outside the memo tables, the first value of an empty scope.
-/

namespace Verif
open Out CharClass

variable {V : Type}

/-- The only fault left: the text of a captured string is read by the error report after the capture is gone. -/
def capFault : String := "expected literal points into a destroyed capture"

/-- No undefined behaviour, except for `capFault` while logging (`l`). -/
def NoUb {α : Type} (l : Bool) (x : Out α) : Prop := ∀ s, x = .ub s → l = true ∧ s = capFault

/-! ## Static conditions -/

/-- What may occur in the grammar: `User` operators, precedence climbing. -/
structure SafeOpt where
  usr : Bool := false
  prec : Bool := false

mutual
/-- An expression that may be passed to a macro from a body with parameters `ps`: `FindReference` has no null result on it, and
the arguments of macro calls in it do not mention parameters. -/
def Ope.argSafe (rs : List Def) (ps : List (List Byte)) : Ope → Bool
  | .seq es _ => Ope.argSafeL rs ps es
  | .cho es _ _ => Ope.argSafeL rs ps es
  | .rep e _ _ _ => e.argSafe rs ps
  | .and_ e => e.argSafe rs ps
  | .not_ e => e.argSafe rs ps
  | .capScope e => e.argSafe rs ps
  | .cap _ e => e.argSafe rs ps
  | .tok e => e.argSafe rs ps
  | .ign e => e.argSafe rs ps
  | .ws e => e.argSafe rs ps
  | .dict _ _ => true
  | .lit _ _ => true
  | .cls _ => true
  | .chr _ => true
  | .dot => true
  | .cut => true
  | .param _ nm => decide (nm ∈ ps)
  | .ref r _ as =>
    match rs[r]? with
    | none => false
    | some d => !d.isMacro || (decide (as.length = d.params.length) && Ope.argSafeL rs [] as)
  | .recov r nm as =>
    (match rs[r]? with
    | none => false
    | some d => d.isMacro && decide (as.length = d.params.length) && Ope.argSafeL rs [] as) &&
    (match as with
    | .ref l _ _ :: _ => (rs[l]?).isSome
    | _ => false) && rs.all fun d => decide (nm ∉ d.params)
  | .usr _ => false
  | .weak _ => false
  | .bref _ => false
  | .prec .. => false
  | .null => false

def Ope.argSafeL (rs : List Def) (ps : List (List Byte)) : List Ope → Bool
  | [] => true
  | e :: es => e.argSafe rs ps && Ope.argSafeL rs ps es
end

/-- A reference to a rule that is not a macro and whose value is kept. -/
def Ope.valueRef (rs : List Def) : Ope → Bool
  | .ref r _ _ =>
    match rs[r]? with
    | none => false
    | some d => !d.isMacro && !d.ignoreSV
  | _ => false

mutual
/-- An expression that may be executed; `m`: macro calls and parameters are allowed, the parameters being `ps`. -/
def Ope.safe (o : SafeOpt) (rs : List Def) (m : Bool) (ps : List (List Byte)) : Ope → Bool
  | .seq es _ => Ope.safeL o rs m ps es
  | .cho es _ _ => Ope.safeL o rs m ps es
  | .rep e _ _ _ => e.safe o rs m ps
  | .and_ e => e.safe o rs m ps
  | .not_ e => e.safe o rs m ps
  | .capScope e => e.safe o rs m ps
  | .cap _ e => e.safe o rs m ps
  | .tok e => e.safe o rs m ps
  | .ign e => e.safe o rs m ps
  | .ws e => e.safe o rs m ps
  | .dict _ _ => true
  | .lit _ _ => true
  | .cls _ => true
  | .chr _ => true
  | .dot => true
  | .cut => true
  | .bref _ => true
  | .usr _ => o.usr
  | .weak _ => false
  | .param k _ => m && decide (k < ps.length)
  | .ref r _ as =>
    match rs[r]? with
    | none => false
    | some d => !d.isMacro || (m && decide (as.length = d.params.length) && Ope.argSafeL rs ps as)
  | .recov r _ as =>
    (match rs[r]? with
    | none => false
    | some d => d.isMacro && m && decide (as.length = d.params.length) && Ope.argSafeL rs ps as) &&
    (match as with
    | .ref l _ _ :: _ => (rs[l]?).isSome
    | _ => false)
  | .prec a b _ r =>
    o.prec && a.valueRef rs && b.valueRef rs &&
    (match rs[r]? with
    | none => false
    | some d => !d.isMacro)
  | .null => false

def Ope.safeL (o : SafeOpt) (rs : List Def) (m : Bool) (ps : List (List Byte)) : List Ope → Bool
  | [] => true
  | e :: es => e.safe o rs m ps && Ope.safeL o rs m ps es
end

/-- The body of a rule: a macro may use its parameters (a left-recursive one must be flagged as calling macros, else it is not
on the rule stack), another rule may call macros if it is flagged so. -/
def Def.safe (o : SafeOpt) (rs : List Def) (d : Def) : Bool :=
  if d.isMacro then (!d.isLR || d.hasMacroRef) && d.ope.safe o rs true d.params else d.ope.safe o rs d.hasMacroRef []

theorem argSafeL_iff (rs : List Def) (ps : List (List Byte)) (es : List Ope) :
    Ope.argSafeL rs ps es = true ↔ ∀ e ∈ es, e.argSafe rs ps = true := by
  induction es with
  | nil => simp [Ope.argSafeL]
  | cons e es ih => simp [Ope.argSafeL, ih]

theorem safeL_iff (o : SafeOpt) (rs : List Def) (m : Bool) (ps : List (List Byte)) (es : List Ope) :
    Ope.safeL o rs m ps es = true ↔ ∀ e ∈ es, e.safe o rs m ps = true := by
  induction es with
  | nil => simp [Ope.safeL]
  | cons e es ih => simp [Ope.safeL, ih]

mutual
/-- A closed argument may be passed on from anywhere, -/
theorem argSafe_closed (rs : List Def) (ps : List (List Byte)) (e : Ope) (h : e.argSafe rs [] = true) : e.argSafe rs ps = true := by
  cases e with
  | seq es kw => exact argSafeL_closed rs ps es h
  | cho es l fs => exact argSafeL_closed rs ps es h
  | rep e a b c => exact argSafe_closed rs ps e h
  | and_ e => exact argSafe_closed rs ps e h
  | not_ e => exact argSafe_closed rs ps e h
  | capScope e => exact argSafe_closed rs ps e h
  | cap n e => exact argSafe_closed rs ps e h
  | tok e => exact argSafe_closed rs ps e h
  | ign e => exact argSafe_closed rs ps e h
  | ws e => exact argSafe_closed rs ps e h
  | param k nm => simp [Ope.argSafe] at h
  | _ => exact h

theorem argSafeL_closed (rs : List Def) (ps : List (List Byte)) (es : List Ope) (h : Ope.argSafeL rs [] es = true) :
    Ope.argSafeL rs ps es = true := by
  cases es with
  | nil => rfl
  | cons e es =>
    simp only [Ope.argSafeL, Bool.and_eq_true] at h ⊢
    exact ⟨argSafe_closed rs ps e h.1, argSafeL_closed rs ps es h.2⟩
end

mutual
/-- and executed where macro calls are allowed. -/
theorem safe_closed (o : SafeOpt) (rs : List Def) (e : Ope) (h : e.argSafe rs [] = true) : e.safe o rs true [] = true := by
  cases e with
  | seq es kw => exact safeL_closed o rs es h
  | cho es l fs => exact safeL_closed o rs es h
  | rep e a b c => exact safe_closed o rs e h
  | and_ e => exact safe_closed o rs e h
  | not_ e => exact safe_closed o rs e h
  | capScope e => exact safe_closed o rs e h
  | cap n e => exact safe_closed o rs e h
  | tok e => exact safe_closed o rs e h
  | ign e => exact safe_closed o rs e h
  | ws e => exact safe_closed o rs e h
  | param k nm => simp [Ope.argSafe] at h
  | ref r nm as =>
    simp only [Ope.argSafe, Ope.safe] at h ⊢
    cases hd : rs[r]? with
    | none => rw [hd] at h; cases h
    | some d => rw [hd] at h; simpa using h
  | recov r nm as =>
    simp only [Ope.argSafe, Ope.safe, Bool.and_eq_true] at h ⊢
    refine ⟨?_, h.1.2⟩
    have h1 := h.1.1
    cases hd : rs[r]? with
    | none => rw [hd] at h1; cases h1
    | some d => rw [hd] at h1; simpa using h1
  | _ => first | rfl | cases h

theorem safeL_closed (o : SafeOpt) (rs : List Def) (es : List Ope) (h : Ope.argSafeL rs [] es = true) :
    Ope.safeL o rs true [] es = true := by
  cases es with
  | nil => rfl
  | cons e es =>
    simp only [Ope.argSafeL, Ope.safeL, Bool.and_eq_true] at h ⊢
    exact ⟨safe_closed o rs e h.1, safeL_closed o rs es h.2⟩
end

theorem lookupArg_mem_safe {ps : List (List Byte)} {as : List Ope} {nm : List Byte} {e : Ope} (h : lookupArg ps as nm = some e) :
    e ∈ as ∧ nm ∈ ps := by
  unfold lookupArg at h
  cases hf : (ps.zip as).find? fun p => decide (p.1 = nm) with
  | none => rw [hf] at h; cases h
  | some q =>
    rw [hf] at h
    simp only [Option.map_some, Option.some.injEq] at h
    have h1 := List.mem_of_find?_eq_some hf
    have h2 := List.find?_some hf
    simp only [decide_eq_true_eq] at h2
    have h3 := List.of_mem_zip h1
    exact ⟨h ▸ h3.2, h2 ▸ h3.1⟩

theorem lookupArg_some {ps : List (List Byte)} {as : List Ope} {nm : List Byte} (h : nm ∈ ps) (hl : as.length = ps.length) :
    ∃ e, lookupArg ps as nm = some e := by
  induction ps generalizing as with
  | nil => cases h
  | cons p ps ih =>
    cases as with
    | nil => cases hl
    | cons a as =>
      unfold lookupArg
      rw [List.zip_cons_cons, List.find?_cons]
      by_cases hp : p = nm
      · simp [hp]
      · simp only [hp, decide_false]
        rcases List.mem_cons.1 h with h | h
        · exact absurd h.symm hp
        · exact ih h (by simpa using hl)

mutual
/-- `FindReference` closes an argument. -/
theorem resolve_closed (rs : List Def) (ps : List (List Byte)) (as : List Ope) (ha : ∀ a ∈ as, a.argSafe rs [] = true)
    (qs : List (List Byte)) (hq : qs = [] ∨ qs = ps ∧ as.length = ps.length) (hps : ps = [] ∨ ∃ d ∈ rs, d.params = ps) (e : Ope)
    (h : e.argSafe rs qs = true) : (resolve ps as e).argSafe rs [] = true := by
  cases e with
  | seq es kw => exact resolveList_closed rs ps as ha qs hq hps es h
  | cho es l fs => exact resolveList_closed rs ps as ha qs hq hps es h
  | rep e a b c => exact resolve_closed rs ps as ha qs hq hps e h
  | and_ e => exact resolve_closed rs ps as ha qs hq hps e h
  | not_ e => exact resolve_closed rs ps as ha qs hq hps e h
  | capScope e => exact resolve_closed rs ps as ha qs hq hps e h
  | cap n e => exact resolve_closed rs ps as ha qs hq hps e h
  | tok e => exact resolve_closed rs ps as ha qs hq hps e h
  | ign e => exact resolve_closed rs ps as ha qs hq hps e h
  | ws e => exact resolve_closed rs ps as ha qs hq hps e h
  | param k nm =>
    simp only [Ope.argSafe, decide_eq_true_eq] at h
    rcases hq with hq | ⟨hq, hl⟩
    · rw [hq] at h; cases h
    · rw [hq] at h
      obtain ⟨a, he⟩ := lookupArg_some h hl
      simp only [resolve, he, Option.getD_some]
      exact ha a (lookupArg_mem_safe he).1
  | ref r nm bs =>
    simp only [resolve]
    cases he : lookupArg ps as nm with
    | none => exact h
    | some a => exact ha a (lookupArg_mem_safe he).1
  | recov r nm bs =>
    simp only [resolve]
    cases he : lookupArg ps as nm with
    | none => exact h
    | some a =>
      exfalso
      have hm := (lookupArg_mem_safe he).2
      simp only [Ope.argSafe, Bool.and_eq_true, List.all_eq_true, decide_eq_true_eq] at h
      rcases hps with hp | ⟨d, hd, hp⟩
      · rw [hp] at hm; cases hm
      · exact h.2 d hd (hp ▸ hm)
  | _ => first | exact h | cases h

theorem resolveList_closed (rs : List Def) (ps : List (List Byte)) (as : List Ope) (ha : ∀ a ∈ as, a.argSafe rs [] = true)
    (qs : List (List Byte)) (hq : qs = [] ∨ qs = ps ∧ as.length = ps.length) (hps : ps = [] ∨ ∃ d ∈ rs, d.params = ps) (es : List Ope)
    (h : Ope.argSafeL rs qs es = true) : Ope.argSafeL rs [] (resolveList ps as es) = true := by
  cases es with
  | nil => rfl
  | cons e es =>
    simp only [resolveList, Ope.argSafeL, Bool.and_eq_true] at h ⊢
    exact ⟨resolve_closed rs ps as ha qs hq hps e h.1, resolveList_closed rs ps as ha qs hq hps es h.2⟩
end

theorem resolveList_length (ps : List (List Byte)) (as : List Ope) (es : List Ope) : (resolveList ps as es).length = es.length := by
  induction es with
  | nil => rfl
  | cons e es ih => simp [resolveList, ih]

/-! ## Contexts -/

/-- The rule on top of the rule stack and the argument frame belong together, and the arguments are closed. -/
def Ctx (cfg : Cfg V) (m : Bool) (ps : List (List Byte)) (st : St V) : Prop :=
  m = true → ∃ cur c top inst, st.ruleStack.head? = some cur ∧ st.args.head? = some (top, inst) ∧ cfg.rules[cur]? = some c ∧
    top.length ≤ c.params.length ∧ (∀ a ∈ top, a.argSafe cfg.rules [] = true) ∧ (ps = [] ∨ ps = c.params ∧ top.length = ps.length)

theorem Ctx.congr {cfg : Cfg V} {m : Bool} {ps : List (List Byte)} {st st' : St V} (h : Ctx cfg m ps st)
    (hr : st'.ruleStack = st.ruleStack) (ha : st'.args = st.args) : Ctx cfg m ps st' := by
  intro hm
  obtain ⟨cur, c, top, inst, h1, h2, h3⟩ := h hm
  exact ⟨cur, c, top, inst, by rw [hr]; exact h1, by rw [ha]; exact h2, h3⟩

theorem Ctx.keep {cfg : Cfg V} {m : Bool} {ps : List (List Byte)} {st st' : St V} (h : Ctx cfg m ps st) (k : Keep st st') :
    Ctx cfg m ps st' := h.congr k.ruleStack k.args

theorem Ctx.off (cfg : Cfg V) (ps : List (List Byte)) (st : St V) : Ctx cfg false ps st := by intro h; cases h

/-- The arguments a rule finds when it is entered. -/
def Entry (cfg : Cfg V) (d : Def) (st : St V) : Prop :=
  if d.isMacro then ∃ top inst, st.args.head? = some (top, inst) ∧ top.length = d.params.length ∧
    ∀ a ∈ top, a.argSafe cfg.rules [] = true
  else d.hasMacroRef = true → ∃ inst, st.args.head? = some ([], inst)

theorem Entry.congr {cfg : Cfg V} {d : Def} {st st' : St V} (h : Entry cfg d st) (ha : st'.args = st.args) : Entry cfg d st' := by
  unfold Entry at h ⊢; rw [ha]; exact h

/-- The configuration is safe: the static conditions, the numbering fits the tables, the user's parsers keep their contract. -/
structure SafeCfg (o : SafeOpt) (cfg : Cfg V) : Prop where
  slots : SlotsOk cfg
  ids : cfg.packrat = true → ∀ (r : Nat) (d : Def), cfg.rules[r]? = some d → cfg.defId r < cfg.defCount
  rules : ∀ (r : Nat) (d : Def), cfg.rules[r]? = some d → d.safe o cfg.rules = true
  ws : ∀ w, cfg.ws = some w → w.safe o cfg.rules false [] = true
  word : ∀ w, cfg.word = some w → w.safe o cfg.rules false [] = true
  usr : o.usr = true → cfg.word = none ∧ ∀ id i f dt k, (cfg.user id i f dt).1 = some k → i + k ≤ cfg.input.length
  prec : o.prec = true → cfg.recognizeOnly = false
  trap : cfg.trap = false

/-- A task that may be run. -/
def TaskSafe (o : SafeOpt) (cfg : Cfg V) (st : St V) : Task V → Prop
  | .ope e => ∃ m ps, e.safe o cfg.rules m ps = true ∧ Ctx cfg m ps st
  | .rep e _ _ => ∃ m ps, e.safe o cfg.rules m ps = true ∧ Ctx cfg m ps st
  | .hold r => ∃ d, cfg.rules[r]? = some d ∧ Entry cfg d st
  | .grow r _ _ _ _ => ∃ d, cfg.rules[r]? = some d ∧ (d.isMacro = true → d.isLR = true) ∧ Entry cfg d st
  | .prec a b info r _ => Ope.safe o cfg.rules false [] (.prec a b info r) = true
  | .precLoop a b info r _ _ _ => Ope.safe o cfg.rules false [] (.prec a b info r) = true

/-- The engine is safe. -/
def SafeRec (rec : Rec V) : Prop :=
  ∀ o cfg t i st, SafeCfg o cfg → StOk cfg st → i ≤ cfg.input.length → TaskPre cfg t i st → st.args ≠ [] → TaskSafe o cfg st t →
    NoUb st.logOn (rec cfg t i st)

/-! ## Values -/

/-- A rule that keeps its value leaves one; a precedence expression too. -/
def EmitTask (cfg : Cfg V) (st : St V) : Task V → Prop
  | .ope e => e.valueRef cfg.rules = true
  | .hold r => ∃ d, cfg.rules[r]? = some d ∧ d.isMacro = false ∧ d.ignoreSV = false
  | .grow r _ _ _ _ => ∃ d, cfg.rules[r]? = some d ∧ d.isMacro = false ∧ d.ignoreSV = false
  | .prec a _ _ _ _ => a.valueRef cfg.rules = true
  | .precLoop _ _ _ _ _ _ _ => st.vs.vals ≠ []
  | .rep _ _ _ => False

def Emits (rec : Rec V) : Prop :=
  ∀ cfg t i st j st', cfg.recognizeOnly = false → EmitTask cfg st t → rec cfg t i st = .ok (some j, st') → st'.vs.vals ≠ []

theorem emplace_vals {cfg : Cfg V} {d : Def} {v : Option V} {st : St V} (hd : d.ignoreSV = false) (hc : cfg.recognizeOnly = false) :
    (emplace cfg d v st).vs.vals ≠ [] := by
  unfold emplace; simp [hd, hc]

theorem withArgs_vals {st : St V} {f : List Ope × Nat} {x : St V → Out (Res V)} {j : Nat} {st' : St V}
    (h : withArgs st f x = .ok (some j, st')) : ∃ s, x { st with args := f :: st.args } = .ok (some j, s) ∧ st'.vs = s.vs := by
  unfold withArgs at h
  rw [after_ok] at h
  obtain ⟨a, s, h, e⟩ := h
  cases e
  exact ⟨s, h, rfl⟩

theorem growDone_vals {cfg : Cfg V} {r inst : Nat} {d : Def} {i j : Nat} {v : Option V} {st : St V} (hd : d.ignoreSV = false)
    (hc : cfg.recognizeOnly = false) : (growDone cfg r inst d i j v st).2.vs.vals ≠ [] := emplace_vals hd hc

theorem step_emits {rec : Rec V} (ih : Emits rec) : Emits (step rec) := by
  intro cfg t i st j st' hc ht h
  cases t with
  | ope e =>
    cases e with
    | ref r nm as =>
      simp only [EmitTask, Ope.valueRef] at ht
      have h : parseOpe rec cfg (.ref r nm as) i st = _ := h
      unfold parseOpe at h
      split at h
      · cases h
      · have h : refer rec cfg r as i st = _ := h
        cases hd : cfg.rules[r]? with
        | none => rw [hd] at ht; cases ht
        | some d =>
          simp only [hd, Bool.and_eq_true, Bool.not_eq_true'] at ht
          unfold refer at h
          simp only [hd, ht.1, Bool.false_eq_true, if_false] at h
          split at h
          · exact ih cfg (.hold r) i st j st' hc (show EmitTask cfg st (.hold r) from ⟨d, hd, ht⟩) h
          · obtain ⟨s, h, e⟩ := withArgs_vals h
            rw [e]; exact ih cfg (.hold r) i _ j s hc (show EmitTask cfg _ (.hold r) from ⟨d, hd, ht⟩) h
    | _ => cases ht
  | rep e mx c => cases ht
  | hold r =>
    obtain ⟨d, hd, hm, hi⟩ := ht
    have h : holder rec cfg r i st = _ := h
    unfold holder at h
    simp only [hd, hm, Bool.false_and, Bool.false_eq_true, if_false, hc] at h
    split at h
    · unfold lrHold at h
      split at h
      · cases h
      · split at h
        · simp only at h
          split at h
          · cases h; exact emplace_vals hi hc
          · cases h
        · rw [bind_eq_ok] at h
          obtain ⟨x, -, h⟩ := h
          simp only at h
          split at h
          · cases h
          · exact ih cfg (.grow _ _ _ _ _) i _ j st' hc (show EmitTask cfg _ (.grow _ _ _ _ _) from ⟨d, hd, hm, hi⟩) h
    · rw [bind_eq_ok] at h
      obtain ⟨x, -, h⟩ := h
      split at h
      · cases h; exact emplace_vals hi hc
      · cases h
  | grow r inst cyc k v =>
    obtain ⟨d, hd, hm, hi⟩ := ht
    have h : growRound rec cfg r inst cyc k v i st = _ := h
    unfold growRound at h
    simp only [hd] at h
    rw [bind_eq_ok] at h
    obtain ⟨x, -, h⟩ := h
    split at h
    · have := (Out.ok.inj h); have e := congrArg Prod.snd this; simp only at e; rw [← e]; exact growDone_vals hi hc
    · split at h
      · have := (Out.ok.inj h); have e := congrArg Prod.snd this; simp only at e; rw [← e]; exact growDone_vals hi hc
      · exact ih cfg (.grow _ _ _ _ _) i _ j st' hc (show EmitTask cfg _ (.grow _ _ _ _ _) from ⟨d, hd, hm, hi⟩) h
  | prec a b info r mp =>
    have h : parsePrec rec cfg a b info r mp i st = _ := h
    unfold parsePrec at h
    rw [andThen_ok] at h
    rcases h with ⟨st1, -, e⟩ | ⟨k, st1, h1, h⟩
    · cases e
    · have hv := ih _ _ _ _ _ _ hc (by exact ht) h1
      rw [bind_eq_ok] at h
      obtain ⟨q, -, h⟩ := h
      rw [after_ok] at h
      obtain ⟨x, st2, h2, e⟩ := h
      cases e
      exact ih _ (.precLoop a b info r mp q i) k { st1 with precToks := (q, []) :: st1.precToks } j st2 hc hv h2
  | precLoop a b info r mp q s =>
    have ht : st.vs.vals ≠ [] := ht
    have h : precRound rec cfg a b info r mp q s i st = _ := h
    unfold precRound at h
    split at h
    · rw [bind_eq_ok] at h
      obtain ⟨x, -, h⟩ := h
      simp only at h
      split at h
      · cases h; exact ht
      · split at h
        · cases h; exact ht
        · split at h
          · cases h; exact ht
          · split at h
            · cases h
            · rw [bind_eq_ok] at h
              obtain ⟨y, -, h⟩ := h
              split at h
              · cases h
              · split at h
                · cases h
                · refine ih _ _ _ _ _ _ hc ?_ h
                  show (precReduce cfg r s _ _).vs.vals ≠ []
                  unfold precReduce
                  split <;> exact List.cons_ne_nil _ _
    · cases h; exact ht

theorem run_emits (n : Nat) : Emits (run (V := V) n) := by
  induction n with
  | zero => intro cfg t i st j st' _ _ h; cases h
  | succ n ih => exact step_emits ih

/-! ## Composition -/

theorem NoUb.ok {α : Type} {l : Bool} (a : α) : NoUb l (.ok a) := by intro s h; cases h

theorem NoUb.bind {α β : Type} {l : Bool} {x : Out α} {f : α → Out β} (hx : NoUb l x) (hf : ∀ a, x = .ok a → NoUb l (f a)) :
    NoUb l (x.bind f) := by
  cases x with
  | ok a => exact hf a rfl
  | ub s => intro t h; cases h; exact hx s rfl
  | oof => intro t h; cases h

theorem NoUb.weaken {α : Type} {x : Out α} (l : Bool) (h : NoUb false x) : NoUb l x := by
  intro s e; exact absurd (h s e).1 (by decide)

theorem NoUb.andThen {l : Bool} {x : Out (Res V)} {f : Nat → St V → Out (Res V)} (hx : NoUb l x)
    (hf : ∀ j st, x = .ok (some j, st) → NoUb l (f j st)) : NoUb l (andThen x f) := by
  unfold Verif.andThen
  refine hx.bind ?_
  rintro ⟨a, st⟩ e
  cases a with
  | none => exact NoUb.ok _
  | some j => exact hf j st e

theorem NoUb.after {l : Bool} {x : Out (Res V)} {f : St V → St V} (hx : NoUb l x) : NoUb l (after x f) := by
  unfold Verif.after
  exact hx.bind fun _ _ => NoUb.ok _

/-- Where a task is run. -/
structure SafeEnv (o : SafeOpt) (cfg : Cfg V) (l : Bool) (i : Nat) (st : St V) : Prop where
  safe : SafeCfg o cfg
  ok : StOk cfg st
  le : i ≤ cfg.input.length
  args : st.args ≠ []
  log : st.logOn = l

theorem SafeEnv.next {o : SafeOpt} {cfg : Cfg V} {l : Bool} {i j : Nat} {st st' : St V} (h : SafeEnv o cfg l i st)
    (p : P cfg i st (some j, st')) : SafeEnv o cfg l j st' :=
  ⟨h.safe, p.ok, (p.bounds j rfl).2, by rw [p.keep.args]; exact h.args, by rw [p.keep.logOn]; exact h.log⟩

theorem SafeEnv.back {o : SafeOpt} {cfg : Cfg V} {l : Bool} {i : Nat} {a : Option Nat} {st st' : St V} (h : SafeEnv o cfg l i st)
    (p : P cfg i st (a, st')) : SafeEnv o cfg l i st' :=
  ⟨h.safe, p.ok, h.le, by rw [p.keep.args]; exact h.args, by rw [p.keep.logOn]; exact h.log⟩

theorem SafeEnv.same {o : SafeOpt} {cfg : Cfg V} {l : Bool} {i : Nat} {st st' : St V} (h : SafeEnv o cfg l i st) (s : SameMemo st st')
    (a : st'.args = st.args) (g : st'.logOn = st.logOn) : SafeEnv o cfg l i st' :=
  ⟨h.safe, h.ok.same s, h.le, by rw [a]; exact h.args, by rw [g]; exact h.log⟩

theorem SafeEnv.keep {o : SafeOpt} {cfg : Cfg V} {l : Bool} {i : Nat} {st st' : St V} (h : SafeEnv o cfg l i st) (s : SameMemo st st')
    (k : Keep st st') : SafeEnv o cfg l i st' := h.same s k.args k.logOn

theorem SafeEnv.at {o : SafeOpt} {cfg : Cfg V} {l : Bool} {i j : Nat} {st : St V} (h : SafeEnv o cfg l i st) (hj : j ≤ cfg.input.length) :
    SafeEnv o cfg l j st := ⟨h.safe, h.ok, hj, h.args, h.log⟩


theorem expected_fault {rules : List Def} {ts : List (Option ErrLit × Option Nat)} {lb : List Byte} {s : String}
    (h : expected rules ts lb = .ub s) : s = capFault := by
  have hb : ∀ {α β : Type} {x : Out α} {f : α → β}, (x.bind fun a => Out.ok (f a)) = .ub s → x = .ub s := by
    intro α β x f hx
    cases x with
    | ok a => cases hx
    | ub w => cases hx; rfl
    | oof => cases hx
  induction ts generalizing lb with
  | nil => cases h
  | cons t ts ih =>
    obtain ⟨el, er⟩ := t
    unfold expected at h
    dsimp only at h
    split at h
    · exact ih h
    · split at h
      · cases h; rfl
      · exact ih (hb h)
      · exact ih (hb h)

theorem output_fault {rules : List Def} {e : Err} {s : String} (h : e.output rules = .ub s) : s = capFault := by
  unfold Err.output at h
  split at h
  · split at h <;> cases h
  · split at h
    · split at h
      · cases hx : expected rules e.toks e.label with
        | ok a => rw [hx] at h; cases h
        | ub w => rw [hx] at h; cases h; exact expected_fault hx
        | oof => rw [hx] at h; cases h
      · cases h
    · cases h


theorem valueRef_safe {o : SafeOpt} {rs : List Def} {x : Ope} (h : x.valueRef rs = true) : x.safe o rs false [] = true := by
  cases x with
  | ref r nm as =>
    simp only [Ope.valueRef, Ope.safe] at h ⊢
    cases hd : rs[r]? with
    | none => rw [hd] at h; cases h
    | some d => simp only [hd, Bool.and_eq_true, Bool.not_eq_true'] at h; simp [h.1]
  | _ => cases h

theorem terminal_U {cfg : Cfg V} {l : Bool} (i : Nat) (st : St V) (m : Option Nat) : NoUb l (terminal cfg i st m) := by
  unfold terminal; cases m <;> exact NoUb.ok _

section
variable {rec : Rec V} (hg : Good rec) (hu : SafeRec rec) (he : Emits rec)

include hu

theorem SafeRec.task {o : SafeOpt} {cfg : Cfg V} {l : Bool} {t : Task V} {i : Nat} {st : St V} (e : SafeEnv o cfg l i st)
    (hp : TaskPre cfg t i st) (ht : TaskSafe o cfg st t) : NoUb l (rec cfg t i st) :=
  e.log ▸ hu o cfg t i st e.safe e.ok e.le hp e.args ht

theorem SafeRec.ope {o : SafeOpt} {cfg : Cfg V} {l : Bool} {x : Ope} {i : Nat} {st : St V} {m : Bool} {ps : List (List Byte)}
    (e : SafeEnv o cfg l i st) (hx : x.safe o cfg.rules m ps = true) (hc : Ctx cfg m ps st) : NoUb l (rec cfg (.ope x) i st) :=
  hu.task e trivial ⟨m, ps, hx, hc⟩

theorem skipWs_U {o : SafeOpt} {cfg : Cfg V} {l : Bool} {i : Nat} {st : St V} (e : SafeEnv o cfg l i st) :
    NoUb l (skipWs rec cfg i st) := by
  unfold skipWs
  split
  · exact NoUb.ok _
  · split
    · exact NoUb.ok _
    · rename_i w hw
      exact hu.ope e (e.safe.ws w hw) (Ctx.off _ _ _)

omit hu in
theorem SafeCfg.dummy {o : SafeOpt} {cfg : Cfg V} (h : SafeCfg o cfg) {w : Ope} (hw : cfg.word = some w) (s : List Byte) :
    SafeCfg o (cfg.dummy s) :=
  ⟨fun h => (by cases h), fun h => (by cases h), h.rules, fun _ h => (by cases h), fun _ h => (by cases h),
   fun hu => (by rw [(h.usr hu).1] at hw; cases hw), fun _ => rfl, h.trap⟩

omit hu in
theorem stOk_empty (cfg : Cfg V) : StOk cfg ({} : St V) :=
  ⟨fun _ _ _ h => (by cases h), fun _ _ _ _ _ h => (by cases h), fun _ h => (by cases h)⟩

theorem word_U {o : SafeOpt} {cfg : Cfg V} (h : SafeCfg o cfg) {w : Ope} (hw : cfg.word = some w) (s : List Byte) (i : Nat)
    (hi : i ≤ s.length) : NoUb false (rec (cfg.dummy s) (.ope w) i {}) :=
  hu.ope (o := o) (m := false) (ps := []) ⟨h.dummy hw s, stOk_empty _, hi, by simp, rfl⟩ (h.word w hw) (Ctx.off _ _ _)

theorem parseLiteral_U {o : SafeOpt} {cfg : Cfg V} {l : Bool} {i : Nat} {st : St V} (e : SafeEnv o cfg l i st) (s : List Byte) (ic : Bool)
    (el : ErrLit) : NoUb l (parseLiteral rec cfg s ic el i st) := by
  unfold parseLiteral
  split
  · rename_i hm
    have hl := litMatch_le hm
    rw [rest_length] at hl
    have e' : SafeEnv o cfg l (i + s.length) st := e.at (by have := e.le; omega)
    split
    · exact skipWs_U hu e'
    · rename_i w hw
      refine NoUb.bind ?_ ?_
      · exact ((word_U hu e.safe hw s 0 (Nat.zero_le _)).bind fun _ _ => NoUb.ok _).weaken l
      · intro b _
        split
        · refine NoUb.bind ?_ ?_
          · exact ((word_U hu e.safe hw cfg.input _ e'.le).bind fun _ _ => NoUb.ok _).weaken l
          · intro b _
            split
            · exact skipWs_U hu e'
            · exact NoUb.ok _
        · exact skipWs_U hu e'
  · exact NoUb.ok _

theorem parseDict_U {o : SafeOpt} {cfg : Cfg V} {l : Bool} {i : Nat} {st : St V} (e : SafeEnv o cfg l i st) (wl : List (List Byte))
    (ic : Bool) : NoUb l (parseDict rec cfg wl ic i st) := by
  unfold parseDict
  have hl := dict_le wl ic (cfg.rest i)
  rw [rest_length] at hl
  by_cases hm : ((Trie.build wl ic).matchText (cfg.rest i)).1 = 0
  · simp only [hm, if_true]; exact NoUb.ok _
  · simp only [hm, if_false]
    have e' : SafeEnv o cfg l (i + ((Trie.build wl ic).matchText (cfg.rest i)).1)
      (st.setChoice wl.length ((Trie.build wl ic).matchText (cfg.rest i)).2) :=
      (e.same (st' := st.setChoice wl.length ((Trie.build wl ic).matchText (cfg.rest i)).2) ⟨rfl, rfl, rfl⟩ rfl rfl).at (by have := e.le; omega)
    split
    · exact skipWs_U hu e'
    · rename_i w hw
      refine NoUb.bind ?_ ?_
      · exact ((word_U hu e.safe hw cfg.input _ e'.le).bind fun _ _ => NoUb.ok _).weaken l
      · intro b _
        split
        · exact skipWs_U hu e'
        · exact NoUb.ok _

theorem parseBref_U {o : SafeOpt} {cfg : Cfg V} {l : Bool} {i : Nat} {st : St V} (e : SafeEnv o cfg l i st) (nm : List Byte) :
    NoUb l (parseBref rec cfg nm i st) := by
  unfold parseBref
  split
  · exact parseLiteral_U hu e _ _ _
  · exact NoUb.ok _

include hg

theorem tokenBody_U {o : SafeOpt} {cfg : Cfg V} {l : Bool} {x : Ope} {i : Nat} {st : St V} {m : Bool} {ps : List (List Byte)}
    (e : SafeEnv o cfg l i st) (hx : x.safe o cfg.rules m ps = true) (hc : Ctx cfg m ps st) : NoUb l (tokenBody rec cfg x i st) := by
  unfold tokenBody
  have e1 : SafeEnv o cfg l i { st with tokCount := st.tokCount + 1 } := e.same ⟨rfl, rfl, rfl⟩ rfl rfl
  refine NoUb.andThen ?_ ?_
  · exact NoUb.after (hu.ope e1 hx (hc.congr rfl rfl))
  · intro j st1 h
    rw [after_ok] at h
    obtain ⟨a, st2, h, he⟩ := h
    cases he
    have p := tokUp_P hg (hg.ope e.safe.slots e1.ok e.le h)
    exact skipWs_U hu (e.next (p.post (keep_addToken _ _ _) (same_addToken _ _ _)))

theorem seqLoop_U {o : SafeOpt} {cfg : Cfg V} {l : Bool} {m : Bool} {ps : List (List Byte)} (es : List Ope) (i : Nat) (st : St V)
    (e : SafeEnv o cfg l i st) (hx : ∀ x ∈ es, x.safe o cfg.rules m ps = true) (hc : Ctx cfg m ps st) :
    NoUb l (seqLoop rec cfg es i st) := by
  induction es generalizing i st with
  | nil => exact NoUb.ok _
  | cons x es ih =>
    unfold seqLoop
    refine NoUb.andThen (hu.ope e (hx x (List.mem_cons_self ..)) hc) ?_
    intro j st1 h
    have p := hg.ope e.safe.slots e.ok e.le h
    exact ih j st1 (e.next p) (fun x hm => hx x (List.mem_cons_of_mem _ hm)) (hc.keep p.keep)

theorem parseSeq_U {o : SafeOpt} {cfg : Cfg V} {l : Bool} {m : Bool} {ps : List (List Byte)} {es : List Ope} {kw : Option KwGuard}
    {i : Nat} {st : St V} (e : SafeEnv o cfg l i st) (hx : ∀ x ∈ es, x.safe o cfg.rules m ps = true) (hc : Ctx cfg m ps st) :
    NoUb l (parseSeq rec cfg es kw i st) := by
  unfold parseSeq
  have hs := seqLoop_U hg hu es i st e hx hc
  cases kw with
  | none => exact hs
  | some k =>
    simp only [Option.bind_some, kwGuarded]
    cases hk : kwScan k (cfg.rest i) with
    | none => exact NoUb.ok _
    | some n =>
      have hn := kwScan_le hg hk
      rw [rest_length] at hn
      dsimp only
      by_cases h1 : (k.minLen ≤ n ∧ n ≤ k.maxLen) ∧ Trie.toLower ((cfg.rest i).take n) ∈ k.exact
      · simp only [if_pos h1]; exact NoUb.ok _
      · simp only [if_neg h1]
        by_cases h2 : (k.minLen ≤ n ∧ n ≤ k.maxLen) ∧ Trie.toLower ((cfg.rest i).take n) ∈ k.pref
        · simp only [if_pos h2]; exact hs
        · simp only [if_neg h2]
          exact skipWs_U hu ((e.keep (same_addToken _ _ _) (keep_addToken _ _ _)).at (by have := e.le; omega))

theorem choLoop_U {o : SafeOpt} {cfg : Cfg V} {l : Bool} {m : Bool} {ps : List (List Byte)} (total : Nat) (fs : List FirstSet)
    (es : List Ope) (id i : Nat) (st : St V) (e : SafeEnv o cfg l i st) (hx : ∀ x ∈ es, x.safe o cfg.rules m ps = true)
    (hc : Ctx cfg m ps st) : NoUb l (choLoop rec cfg total fs es id i st) := by
  induction es generalizing id st with
  | nil => exact NoUb.ok _
  | cons x es ih =>
    unfold choLoop
    have hx' : ∀ x ∈ es, x.safe o cfg.rules m ps = true := fun x hm => hx x (List.mem_cons_of_mem _ hm)
    split
    · exact ih _ _ (e.keep (same_fsErr _ _ _ _) (keep_fsErr _ _ _ _)) hx' (hc.keep (keep_fsErr _ _ _ _))
    · have k1 : Keep st ((resetCut cfg st).setKeep (id > 0)) := (keep_resetCut _ _).trans (keep_setKeep _ _)
      have s1 : SameMemo st ((resetCut cfg st).setKeep (id > 0)) := SameMemo.trans' (same_resetCut _ _) (same_setKeep _ _)
      have e1 := e.keep s1 k1
      refine NoUb.bind (hu.ope e1 (hx x (List.mem_cons_self ..)) (hc.keep k1)) ?_
      rintro ⟨a, st1⟩ h
      have p := P.pre k1 s1.lrActive (hg.ope e.safe.slots e1.ok e.le h)
      cases a with
      | some j => exact NoUb.ok _
      | none =>
        dsimp only
        split
        · exact NoUb.ok _
        · have kr := keep_rollback p.keep
          exact ih _ _ ⟨e.safe, p.ok.same (same_rollback _ _), e.le, by rw [kr.args]; exact e.args, by rw [kr.logOn]; exact e.log⟩ hx'
            (hc.keep kr)

theorem parseCho_U {o : SafeOpt} {cfg : Cfg V} {l : Bool} {m : Bool} {ps : List (List Byte)} {es : List Ope} {fl : Bool}
    {fs : List FirstSet} {i : Nat} {st : St V} (e : SafeEnv o cfg l i st) (hx : ∀ x ∈ es, x.safe o cfg.rules m ps = true)
    (hc : Ctx cfg m ps st) : NoUb l (parseCho rec cfg es fl fs i st) := by
  unfold parseCho
  refine NoUb.after (choLoop_U hg hu _ fs es 0 i _ ?_ hx ?_)
  · unfold pushCut; split
    · exact e.same ⟨rfl, rfl, rfl⟩ rfl rfl
    · exact e
  · unfold pushCut; split
    · exact hc.congr rfl rfl
    · exact hc

theorem repMin_U {o : SafeOpt} {cfg : Cfg V} {l : Bool} {m : Bool} {ps : List (List Byte)} {x : Ope} (n i : Nat) (st : St V)
    (e : SafeEnv o cfg l i st) (hx : x.safe o cfg.rules m ps = true) (hc : Ctx cfg m ps st) : NoUb l (repMin rec cfg x n i st) := by
  induction n generalizing i st with
  | zero => exact NoUb.ok _
  | succ n ih =>
    unfold repMin
    refine NoUb.andThen (hu.ope e hx hc) ?_
    intro j st1 h
    have p := hg.ope e.safe.slots e.ok e.le h
    exact ih j st1 (e.next p) (hc.keep p.keep)

theorem repRound_U {o : SafeOpt} {cfg : Cfg V} {l : Bool} {m : Bool} {ps : List (List Byte)} {x : Ope} {mx : Option Nat} {c i : Nat}
    {st : St V} (e : SafeEnv o cfg l i st) (hx : x.safe o cfg.rules m ps = true) (hc : Ctx cfg m ps st) :
    NoUb l (repRound rec cfg x mx c i st) := by
  unfold repRound
  split
  · refine NoUb.bind (hu.ope e hx hc) ?_
    rintro ⟨a, st1⟩ h
    have p := hg.ope e.safe.slots e.ok e.le h
    cases a with
    | none => exact NoUb.ok _
    | some j => exact hu.task (e.next p) trivial ⟨m, ps, hx, hc.keep p.keep⟩
  · exact NoUb.ok _

theorem parseRep_U {o : SafeOpt} {cfg : Cfg V} {l : Bool} {m : Bool} {ps : List (List Byte)} {x : Ope} {mn : Nat} {mx : Option Nat}
    {sp : Option Cls} {i : Nat} {st : St V} (e : SafeEnv o cfg l i st) (hx : x.safe o cfg.rules m ps = true) (hc : Ctx cfg m ps st) :
    NoUb l (parseRep rec cfg x mn mx sp i st) := by
  unfold parseRep
  cases sp with
  | some c =>
    cases mx <;> dsimp only <;> (split <;> exact NoUb.ok _)
  | none =>
    dsimp only
    refine NoUb.andThen (repMin_U hg hu mn i st e hx hc) ?_
    intro j st1 h
    have p := repMin_P hg e.safe.slots e.ok e.le h
    exact hu.task (e.next p) trivial ⟨m, ps, hx, hc.keep p.keep⟩

theorem opeBody_U {o : SafeOpt} {cfg : Cfg V} {l : Bool} {r : Nat} {d : Def} {i : Nat} {st : St V} (e : SafeEnv o cfg l i st)
    (hd : cfg.rules[r]? = some d) (hm : d.isMacro = true → d.isLR = true) (hy : Entry cfg d st) :
    NoUb l (opeBody rec cfg r d i st) := by
  have hsafe := e.safe.rules r d hd
  obtain ⟨m, ps, hx, hc⟩ : ∃ m ps, d.ope.safe o cfg.rules m ps = true ∧
      Ctx cfg m ps (pushRule (cfg.needsRuleStack || d.hasMacroRef) r st) := by
    unfold Def.safe at hsafe
    unfold Entry at hy
    by_cases h : d.isMacro = true
    · rw [if_pos h] at hsafe hy
      simp only [Bool.and_eq_true, Bool.or_eq_true, Bool.not_eq_true', hm h] at hsafe
      have hr : d.hasMacroRef = true := by simpa using hsafe.1
      obtain ⟨top, inst, h1, h2, h3⟩ := hy
      refine ⟨true, d.params, hsafe.2, ?_⟩
      intro _
      refine ⟨r, d, top, inst, ?_, ?_, hd, by omega, h3, Or.inr ⟨rfl, h2⟩⟩
      · simp [pushRule, hr]
      · simpa [pushRule, hr] using h1
    · rw [if_neg h] at hsafe hy
      refine ⟨_, _, hsafe, ?_⟩
      intro hr
      obtain ⟨inst, h1⟩ := hy hr
      refine ⟨r, d, [], inst, ?_, ?_, hd, Nat.zero_le _, by simp, Or.inl rfl⟩
      · simp [pushRule, hr]
      · simpa [pushRule, hr] using h1
  have e' : SafeEnv o cfg l i (pushRule (cfg.needsRuleStack || d.hasMacroRef) r st) := by
    unfold pushRule; split
    · exact e.same ⟨rfl, rfl, rfl⟩ rfl rfl
    · exact e
  unfold opeBody
  refine NoUb.after ?_
  split
  · have e2 : (pushRule (cfg.needsRuleStack || d.hasMacroRef) r st).tokCount = st.tokCount := by
      unfold pushRule; split <;> rfl
    rw [← e2]
    generalize pushRule (cfg.needsRuleStack || d.hasMacroRef) r st = st0 at *
    have e1 : SafeEnv o cfg l i { st0 with tokCount := st0.tokCount + 1 } := e'.same ⟨rfl, rfl, rfl⟩ rfl rfl
    refine NoUb.andThen (NoUb.after (hu.ope e1 hx (hc.congr rfl rfl))) ?_
    intro j st1 h
    rw [after_ok] at h
    obtain ⟨a, st2, h, he⟩ := h
    cases he
    exact skipWs_U hu (e'.next (tokUp_P hg (hg.ope e.safe.slots e1.ok e.le h)))
  · exact hu.ope e' hx hc

theorem doParse_U {o : SafeOpt} {cfg : Cfg V} {l : Bool} {r : Nat} {d : Def} {i : Nat} {st : St V} (e : SafeEnv o cfg l i st)
    (hd : cfg.rules[r]? = some d) (hm : d.isMacro = true → d.isLR = true) (hy : Entry cfg d st) :
    NoUb l (doParse rec cfg r d i st) := by
  unfold doParse
  have hst : SameMemo st { callEnter cfg r i st with vs := {} } ∧ (callEnter cfg r i st).args = st.args ∧
      (callEnter cfg r i st).logOn = st.logOn := by
    unfold callEnter; split <;> exact ⟨⟨rfl, rfl, rfl⟩, rfl, rfl⟩
  refine NoUb.bind (opeBody_U hg hu (e.same hst.1 hst.2.1 hst.2.2) hd hm (hy.congr hst.2.1)) ?_
  intro x _
  simp only
  split <;> exact NoUb.ok _

omit hg hu in
theorem guarded_U {o : SafeOpt} {cfg : Cfg V} {l : Bool} {r : Nat} {d : Def} {i : Nat} {st : St V} {fn : St V → Out (VRes V)}
    (e : SafeEnv o cfg l i st) (hd : cfg.rules[r]? = some d) (hq : ¬ isLRRule cfg r)
    (hfn : ∀ st1, SafeEnv o cfg l i st1 → st1.args = st.args → NoUb l (fn st1)) : NoUb l (guarded cfg r i st fn) := by
  have hre : NoUb l (reentered cfg st) := by
    unfold reentered; rw [e.safe.trap]; exact NoUb.ok _
  unfold guarded
  by_cases hp : cfg.packrat = true
  · rw [if_pos hp]
    cases hs : cfg.slot (cfg.defId r) with
    | none =>
      dsimp only
      rw [if_neg (by have := e.safe.ids hp r d hd; omega)]
      split
      · exact hre
      · refine NoUb.bind (hfn _ ?_ ?_) fun _ _ => NoUb.ok _
        · exact e.same ⟨rfl, rfl, rfl⟩ rfl rfl
        · rfl
    | some s =>
      dsimp only
      have hb : cfg.memoIdx s i < cfg.memoSize := by
        have h1 := e.safe.slots hp r s hs
        have h2 := e.le
        unfold Cfg.memoIdx Cfg.memoSize
        have : cfg.cachedCount * (i + 1) ≤ cfg.cachedCount * (cfg.input.length + 1) := Nat.mul_le_mul_left _ (by omega)
        rw [Nat.mul_add] at this
        omega
      rw [if_neg (by omega)]
      split
      · exact NoUb.ok _
      · exact NoUb.ok _
      · refine NoUb.bind (hfn _ ?_ ?_) ?_
        · exact ⟨e.safe, e.ok.fset _ _ (by intro _ _ h; cases h), e.le, e.args, e.log⟩
        · rfl
        · intro x _
          cases x.1 <;> exact NoUb.ok _
  · rw [if_neg hp]
    cases ha : st.args with
    | nil => exact absurd ha e.args
    | cons f t =>
      obtain ⟨top, inst⟩ := f
      dsimp only
      split
      · exact hre
      · rename_i hn
        refine NoUb.bind (hfn _ ?_ ?_) fun _ _ => NoUb.ok _
        · refine ⟨e.safe, ⟨e.ok.memo, ?_, ?_⟩, e.le, by simp, e.log⟩
          · intro r' n p j v hm
            rcases List.mem_cons.1 hm with hm | hm
            · cases hm
            · exact e.ok.lr _ _ _ _ _ hm
          · intro k hk
            have h := e.ok.act k hk
            refine ⟨?_, h.2⟩
            show (List.lookup k (((r, inst, i), none) :: st.lrMemo)).isSome = true
            rw [List.lookup_cons]
            split
            · rfl
            · exact h.1
        · exact ha.symm

omit hg hu in
theorem setErr_upd {cfg : Cfg V} {st : St V} (i : Nat) (x : Option ErrLit) :
    (setErr cfg st i x).args = st.args := (keep_setErr cfg st i x).args

theorem growRound_U {o : SafeOpt} {cfg : Cfg V} {l : Bool} {r inst : Nat} {cyc : List (Nat × Nat)} {j : Nat} {v : Option V} {d : Def}
    {i : Nat} {st : St V} (e : SafeEnv o cfg l i st) (hd : cfg.rules[r]? = some d) (hm : d.isMacro = true → d.isLR = true)
    (hy : Entry cfg d st) : NoUb l (growRound rec cfg r inst cyc j v i st) := by
  unfold growRound
  simp only [hd]
  obtain ⟨st0, he0, k0, a0, o0⟩ : ∃ st0, (if d.isMacro = true then st else clearMemo cfg r i st) = st0 ∧ Keep st st0 ∧
      st0.lrActive = st.lrActive ∧ StOk cfg st0 := by
    split
    · exact ⟨_, rfl, Keep.refl _, rfl, e.ok⟩
    · obtain ⟨a, b, c⟩ := keep_clearMemo cfg r i st
      exact ⟨_, rfl, a, b, c e.ok⟩
  rw [he0]
  have o1 : StOk cfg { st0 with lrMemo := st0.lrMemo.filter fun x =>
      !(x.1.2.2 = i && (x.1.1, x.1.2.1) ≠ (r, inst) && (x.1.1, x.1.2.1) ∈ cyc && x.1 ∉ st0.lrActive) } :=
    o0.lrFilter _ (by intro e he; simp [he])
  generalize hst : ({ st0 with lrMemo := st0.lrMemo.filter fun x =>
      !(x.1.2.2 = i && (x.1.1, x.1.2.1) ≠ (r, inst) && (x.1.1, x.1.2.1) ∈ cyc && x.1 ∉ st0.lrActive) } : St V) = st1 at o1 ⊢
  have ha1 : st1.args = st.args := by rw [← hst]; exact k0.args
  have e1 : SafeEnv o cfg l i st1 := ⟨e.safe, o1, e.le, by rw [ha1]; exact e.args, by rw [← hst]; exact k0.logOn.trans e.log⟩
  refine NoUb.bind (doParse_U hg hu e1 hd hm (hy.congr ha1)) ?_
  rintro ⟨a, v1, st2⟩ hx
  have p := doParse_P hg e.safe.slots o1 e.le hx
  cases a with
  | none => exact NoUb.ok _
  | some j' =>
    dsimp only
    split
    · exact NoUb.ok _
    · have b := p.bounds j' rfl
      refine hu.task ⟨e.safe, p.ok.lrSet r inst i (some (j', v1)) (by intro j v e; cases e; exact b), e.le, ?_, ?_⟩ b ?_
      · show st2.args ≠ []; rw [p.keep.args]; exact e1.args
      · show st2.logOn = l; rw [p.keep.logOn]; exact e1.log
      · exact ⟨d, hd, hm, hy.congr (by show st2.args = _; rw [p.keep.args]; exact ha1)⟩

theorem lrHold_U {o : SafeOpt} {cfg : Cfg V} {l : Bool} {r : Nat} {d : Def} {i : Nat} {st : St V} (e : SafeEnv o cfg l i st)
    (hd : cfg.rules[r]? = some d) (hl : d.isLR = true) (hy : Entry cfg d st) : NoUb l (lrHold rec cfg r d i st) := by
  unfold lrHold
  cases ha : st.args with
  | nil => exact absurd ha e.args
  | cons f t =>
    obtain ⟨top, inst⟩ := f
    dsimp only
    cases hmm : st.lrMemo.lookup (r, inst, i) with
    | some m => dsimp only; cases m <;> exact NoUb.ok _
    | none =>
      dsimp only
      have hna : (r, inst, i) ∉ st.lrActive := by
        intro hc; have := (e.ok.act _ hc).1; rw [hmm] at this; cases this
      have hsi : setInsert (r, inst, i) st.lrActive = (r, inst, i) :: st.lrActive := if_neg hna
      rw [hsi]
      have o1 : StOk cfg { st with
          lrMemo := Verif.lrSet (r, inst, i) none st.lrMemo
          lrActive := (r, inst, i) :: st.lrActive
          lrRefs := [] } := by
        have o := e.ok.lrSet r inst i none (by intro j v e; cases e)
        refine ⟨o.memo, o.lr, ?_⟩
        intro k hk
        rcases List.mem_cons.mp hk with rfl | hk
        · refine ⟨?_, d, hd, hl⟩
          show (List.lookup _ (Verif.lrSet _ _ _)).isSome = true
          rw [lrSet_lookup]; simp
        · exact o.act k hk
      have e1 : SafeEnv o cfg l i { st with
          lrMemo := Verif.lrSet (r, inst, i) none st.lrMemo
          lrActive := (r, inst, i) :: st.lrActive
          lrRefs := [] } := ⟨e.safe, o1, e.le, e.args, e.log⟩
      refine NoUb.bind ?_ ?_
      · have := doParse_U hg hu e1 hd (fun _ => hl) (hy.congr rfl)
        rw [ha] at this
        exact this
      · rintro ⟨a, v1, st1⟩ hx
        have hx' : doParse rec cfg r d i { st with
          lrMemo := Verif.lrSet (r, inst, i) none st.lrMemo
          lrActive := (r, inst, i) :: st.lrActive
          lrRefs := [] } = .ok (a, v1, st1) := by rw [ha]; exact hx
        have p := doParse_P hg e.safe.slots o1 e.le hx'
        cases a with
        | none => exact NoUb.ok _
        | some j =>
          dsimp only
          have b := p.bounds j rfl
          have po : StOk cfg st1 := p.ok
          refine hu.task ⟨e.safe, ?_, e.le, ?_, ?_⟩ b ?_
          · have o := po.lrSet r inst i (some (j, v1)) (by intro j v e; cases e; exact b)
            exact ⟨o.memo, o.lr, o.act⟩
          · show st1.args ≠ []; rw [p.keep.args]; exact e1.args
          · show st1.logOn = l; rw [p.keep.logOn]; exact e1.log
          · exact ⟨d, hd, fun _ => hl, hy.congr (by show st1.args = _; rw [p.keep.args])⟩

theorem holder_U {o : SafeOpt} {cfg : Cfg V} {l : Bool} {r : Nat} {d : Def} {i : Nat} {st : St V} (e : SafeEnv o cfg l i st)
    (hd : cfg.rules[r]? = some d) (hy : Entry cfg d st) : NoUb l (holder rec cfg r i st) := by
  unfold holder
  simp only [hd]
  by_cases hm : (d.isMacro && !d.isLR) = true
  · rw [if_pos hm]
    refine NoUb.after ?_
    have hsafe := e.safe.rules r d hd
    simp only [Bool.and_eq_true] at hm
    unfold Def.safe at hsafe
    unfold Entry at hy
    rw [if_pos hm.1] at hsafe hy
    simp only [Bool.and_eq_true] at hsafe
    obtain ⟨top, inst, h1, h2, h3⟩ := hy
    refine hu.ope (e.same ⟨rfl, rfl, rfl⟩ rfl rfl) hsafe.2 ?_
    intro _
    exact ⟨r, d, top, inst, rfl, h1, hd, by omega, h3, Or.inr ⟨rfl, h2⟩⟩
  · rw [if_neg hm]
    by_cases hl : d.isLR = true
    · rw [if_pos hl]; exact lrHold_U hg hu e hd hl hy
    · rw [if_neg hl]
      have hq : ¬ isLRRule cfg r := by
        rintro ⟨d', h1, h2⟩; rw [hd] at h1; cases h1; exact hl h2
      have hm' : d.isMacro = true → d.isLR = true := by
        intro h; rw [h] at hm; simpa using hm
      split
      · refine NoUb.bind (guarded_U e hd hq ?_) fun _ _ => NoUb.ok _
        intro st1 e1 h1
        exact NoUb.bind (opeBody_U hg hu e1 hd hm' (hy.congr h1)) fun _ _ => NoUb.ok _
      · refine NoUb.bind (guarded_U e hd hq ?_) ?_
        · intro st1 e1 h1
          exact doParse_U hg hu e1 hd hm' (hy.congr h1)
        · intro x _
          cases x.1 <;> exact NoUb.ok _

omit hg in
theorem withArgs_U {o : SafeOpt} {cfg : Cfg V} {l : Bool} {r i : Nat} {d : Def} {st : St V} {f : List Ope × Nat} (e : SafeEnv o cfg l i st)
    (hd : cfg.rules[r]? = some d) (hy : Entry cfg d { st with args := f :: st.args }) :
    NoUb l (withArgs st f fun st => rec cfg (.hold r) i st) := by
  unfold withArgs
  refine NoUb.after (hu.task ⟨e.safe, e.ok.same ⟨rfl, rfl, rfl⟩, e.le, List.cons_ne_nil _ _, e.log⟩ trivial ⟨d, hd, hy⟩)

omit hg in
theorem refer_U {o : SafeOpt} {cfg : Cfg V} {l : Bool} {r i : Nat} {nm : List Byte} {as : List Ope} {st : St V} {m : Bool}
    {ps : List (List Byte)} (e : SafeEnv o cfg l i st) (hx : Ope.safe o cfg.rules m ps (.ref r nm as) = true) (hc : Ctx cfg m ps st) :
    NoUb l (refer rec cfg r as i st) := by
  simp only [Ope.safe] at hx
  unfold refer
  cases hd : cfg.rules[r]? with
  | none => rw [hd] at hx; cases hx
  | some d =>
    simp only [hd, Bool.or_eq_true, Bool.not_eq_true', Bool.and_eq_true, decide_eq_true_eq] at hx
    dsimp only
    by_cases hm : d.isMacro = true
    · rw [if_pos hm]
      simp only [hm, Bool.true_eq_false, false_or] at hx
      obtain ⟨⟨hmm, hlen⟩, has⟩ := hx
      obtain ⟨cur, c, top, inst, h1, h2, h3, h4, h5, h6⟩ := hc hmm
      cases hrs : st.ruleStack with
      | nil => rw [hrs] at h1; cases h1
      | cons cu t =>
        cases har : st.args with
        | nil => rw [har] at h2; cases h2
        | cons f t2 =>
          rw [hrs] at h1; rw [har] at h2
          cases h1
          cases h2
          dsimp only
          simp only [h3]
          rw [if_neg (by simp; intro; omega)]
          have hcl : ∀ a ∈ resolveList c.params top as, a.argSafe cfg.rules [] = true := by
            rw [← argSafeL_iff]
            refine resolveList_closed cfg.rules c.params top h5 ps ?_ (Or.inr ⟨c, List.mem_of_getElem? h3, rfl⟩) as has
            rcases h6 with h | ⟨h, h'⟩
            · exact Or.inl h
            · exact Or.inr ⟨h, by rw [← h]; exact h'⟩
          have hy : ∀ (st1 : St V) n, Entry cfg d { st1 with args := (resolveList c.params top as, n) :: st1.args } := by
            intro st1 n
            unfold Entry; rw [if_pos hm]
            exact ⟨_, _, rfl, by rw [resolveList_length]; exact hlen, hcl⟩
          split
          · exact withArgs_U hu (e.same ⟨rfl, rfl, rfl⟩ har.symm rfl) hd (hy _ _)
          · exact withArgs_U hu e hd (hy _ _)
    · rw [if_neg hm]
      split
      · rename_i hf
        simp only [Bool.and_eq_true, Bool.not_eq_true'] at hf
        refine hu.task e trivial ⟨d, hd, ?_⟩
        unfold Entry; rw [if_neg hm]; intro h; rw [hf.1.1] at h; cases h
      · refine withArgs_U hu e hd ?_
        unfold Entry; rw [if_neg hm]; intro _; exact ⟨0, rfl⟩

omit hg in
theorem parseParam_U {o : SafeOpt} {cfg : Cfg V} {l : Bool} {k i : Nat} {nm : List Byte} {st : St V} {m : Bool}
    {ps : List (List Byte)} (e : SafeEnv o cfg l i st) (hx : Ope.safe o cfg.rules m ps (.param k nm) = true) (hc : Ctx cfg m ps st) :
    NoUb l (parseParam rec cfg k i st) := by
  simp only [Ope.safe, Bool.and_eq_true, decide_eq_true_eq] at hx
  obtain ⟨cur, c, top, inst, h1, h2, h3, h4, h5, h6⟩ := hc hx.1
  unfold parseParam
  cases har : st.args with
  | nil => rw [har] at h2; cases h2
  | cons f t =>
    rw [har] at h2
    cases h2
    dsimp only
    rcases h6 with h | ⟨h, h'⟩
    · have := hx.2; rw [h] at this; cases this
    · have hk : k < top.length := by rw [h']; exact hx.2
      rw [List.getElem?_eq_getElem hk]
      dsimp only
      refine hu.ope e (safe_closed o cfg.rules _ (h5 _ (List.getElem_mem hk))) (m := true) (ps := []) ?_
      intro _
      exact ⟨cur, c, top, inst, h1, by rw [har]; rfl, h3, h4, h5, Or.inl rfl⟩

theorem parseRecov_U {o : SafeOpt} {cfg : Cfg V} {l : Bool} {r i : Nat} {nm : List Byte} {as : List Ope} {st : St V} {m : Bool}
    {ps : List (List Byte)} (e : SafeEnv o cfg l i st) (hx : Ope.safe o cfg.rules m ps (.recov r nm as) = true) (hc : Ctx cfg m ps st) :
    NoUb l (parseRecov rec cfg r nm as i st) := by
  simp only [Ope.safe, Bool.and_eq_true] at hx
  obtain ⟨hr, hlab⟩ := hx
  have href : Ope.safe o cfg.rules m ps (.ref r nm as) = true := by
    simp only [Ope.safe]
    cases hd : cfg.rules[r]? with
    | none => rw [hd] at hr; cases hr
    | some d =>
      simp only [hd, Bool.and_eq_true] at hr
      simp [hr]
  unfold parseRecov
  dsimp only
  refine NoUb.bind ?_ ?_
  · split
    · cases as with
      | nil => cases hlab
      | cons a t =>
        cases a with
        | ref lb _ _ =>
          dsimp only at hlab ⊢
          cases hld : cfg.rules[lb]? with
          | none => rw [hld] at hlab; cases hlab
          | some ld =>
            dsimp only
            split <;> exact NoUb.ok _
        | _ => cases hlab
    · exact NoUb.ok _
  intro st0 h0
  have e0 : ∃ e, st0 = { st with err := e } := by
    split at h0
    · split at h0
      · cases h0
      · split at h0
        · cases h0
        · split at h0
          · cases h0; exact ⟨_, rfl⟩
          · cases h0; exact ⟨_, rfl⟩
      · cases h0
      · cases h0; exact ⟨_, rfl⟩
    · cases h0; exact ⟨_, rfl⟩
  obtain ⟨er, rfl⟩ := e0
  have e1 : SafeEnv o cfg false i { st with err := er, logOn := false, vs := {}, dt := none } :=
    ⟨e.safe, e.ok.same ⟨rfl, rfl, rfl⟩, e.le, e.args, rfl⟩
  refine NoUb.bind ((hu.ope e1 href (hc.congr rfl rfl)).weaken l) ?_
  rintro ⟨a, st1⟩ h
  dsimp only
  refine NoUb.bind ?_ fun _ _ => NoUb.ok _
  split
  · split
    · rename_i hlog
      have hl : l = true := by rw [← e.log]; exact hlog
      refine NoUb.bind ?_ fun _ _ => NoUb.ok _
      intro s hs
      exact ⟨hl, output_fault hs⟩
    · exact NoUb.ok _
  · exact NoUb.ok _

theorem parsePrec_U {o : SafeOpt} {cfg : Cfg V} {l : Bool} {a b : Ope} {info : List (List Byte × Nat × Byte)} {r mp i : Nat}
    {st : St V} (e : SafeEnv o cfg l i st) (hx : Ope.safe o cfg.rules false [] (.prec a b info r) = true) :
    NoUb l (parsePrec rec cfg a b info r mp i st) := by
  have hx0 := hx
  simp only [Ope.safe, Bool.and_eq_true] at hx
  unfold parsePrec
  refine NoUb.andThen (hu.ope e (valueRef_safe hx.1.1.2) (Ctx.off cfg [] st)) ?_
  intro j st1 h
  have p := hg.ope e.safe.slots e.ok e.le h
  have hb : ∃ q, binopRule cfg b r st1 = .ok q := by
    unfold binopRule
    cases hd : cfg.rules[r]? with
    | none => rw [hd] at hx; cases hx.2
    | some d =>
      have h2 := hx.2
      simp only [hd, Bool.not_eq_true'] at h2
      dsimp only
      rw [if_neg (by simp [h2])]
      cases b with
      | ref q _ _ => exact ⟨q, rfl⟩
      | _ => cases hx.1.2
  obtain ⟨q, hq⟩ := hb
  rw [hq]
  rw [Out.ok_bind]
  exact NoUb.after (hu.task ((e.next p).same ⟨rfl, rfl, rfl⟩ rfl rfl) trivial hx0)

include he

theorem precRound_U {o : SafeOpt} {cfg : Cfg V} {l : Bool} {a b : Ope} {info : List (List Byte × Nat × Byte)} {r mp q s i : Nat}
    {st : St V} (e : SafeEnv o cfg l i st) (hx : Ope.safe o cfg.rules false [] (.prec a b info r) = true) :
    NoUb l (precRound rec cfg a b info r mp q s i st) := by
  have hx0 := hx
  simp only [Ope.safe, Bool.and_eq_true] at hx
  have hro := e.safe.prec hx.1.1.1
  unfold precRound
  split
  · have e1 : SafeEnv o cfg l i { st with vs := {} } := e.same ⟨rfl, rfl, rfl⟩ rfl rfl
    refine NoUb.bind (hu.ope e1 (valueRef_safe hx.1.2) (Ctx.off cfg [] _)) ?_
    rintro ⟨c, st1⟩ h
    have p := hg.ope e.safe.slots e1.ok e.le h
    dsimp only
    cases c with
    | none => exact NoUb.ok _
    | some j =>
      dsimp only
      split
      · exact NoUb.ok _
      · split
        · exact NoUb.ok _
        · have hv := he _ (.ope b) _ _ _ _ hro hx.1.2 h
          split
          · rename_i hn; exact absurd hn hv
          · have e2 := e1.next p
            have e3 : SafeEnv o cfg l j { st1 with vs := {} } := e2.same ⟨rfl, rfl, rfl⟩ rfl rfl
            refine NoUb.bind (hu.task e3 trivial hx0) ?_
            rintro ⟨c, st2⟩ h2
            have p2 := Good.task (st := { st1 with vs := {} }) hg e.safe.slots e3.ok e3.le h2 trivial (fun _ => rfl)
            dsimp only
            cases c with
            | none => exact NoUb.ok _
            | some k =>
              dsimp only
              have hv2 := he _ (.prec a b info r _) _ _ _ _ hro hx.1.1.2 h2
              split
              · rename_i hn; exact absurd hn hv2
              · have e4 := e3.next p2
                have kr := fun f => keep_precReduce hg cfg r s k { st2 with vs := f }
                have e5 : ∀ f, SafeEnv o cfg l k { st2 with vs := f } := fun f => e4.same ⟨rfl, rfl, rfl⟩ rfl rfl
                exact hu.task ((e5 _).keep (kr _).2 (kr _).1) trivial hx0
  · exact NoUb.ok _

theorem parseOpe_U {o : SafeOpt} {cfg : Cfg V} {l : Bool} {x : Ope} {i : Nat} {st : St V} {m : Bool} {ps : List (List Byte)}
    (e : SafeEnv o cfg l i st) (hx : x.safe o cfg.rules m ps = true) (hc : Ctx cfg m ps st) : NoUb l (parseOpe rec cfg x i st) := by
  unfold parseOpe
  rw [if_neg (by have := e.le; omega)]
  cases x with
  | seq es kw => exact parseSeq_U hg hu e ((safeL_iff ..).1 hx) hc
  | cho es fl fs => exact parseCho_U hg hu e ((safeL_iff ..).1 hx) hc
  | rep x mn mx sp => exact parseRep_U hg hu e hx hc
  | and_ x => exact NoUb.bind (hu.ope e hx hc) fun _ _ => NoUb.ok _
  | not_ x =>
    refine NoUb.bind (hu.ope e hx hc) ?_
    intro y _
    dsimp only
    cases y.1 <;> exact NoUb.ok _
  | dict w ic => exact parseDict_U hu e w ic
  | lit s ic => exact parseLiteral_U hu e s ic _
  | cls c => exact terminal_U _ _ _
  | chr c => exact terminal_U _ _ _
  | dot => exact terminal_U _ _ _
  | capScope x => exact NoUb.after (hu.ope e hx hc)
  | cap nm x => exact NoUb.andThen (hu.ope e hx hc) fun _ _ _ => NoUb.ok _
  | tok x => exact tokenBody_U hg hu e hx hc
  | ign x =>
    show NoUb l (parseIgn rec cfg x i st)
    unfold parseIgn inScope
    refine NoUb.after (hu.ope (x := x) (m := m) (ps := ps) ?_ hx ?_)
    · exact e.same ⟨rfl, rfl, rfl⟩ rfl rfl
    · exact hc.congr rfl rfl
  | usr n =>
    have hc := (e.safe.usr hx).2
    dsimp only
    unfold parseUsr
    dsimp only
    cases hr : (cfg.user n i st.vs st.dt).1 with
    | none => exact NoUb.ok _
    | some k => dsimp only; rw [if_pos (hc _ _ _ _ _ hr)]; exact NoUb.ok _
  | weak q => cases hx
  | ref q nm as => exact refer_U hu e hx hc
  | param k nm => exact parseParam_U hu e hx hc
  | ws x =>
    dsimp only
    unfold parseWs
    split
    · exact NoUb.ok _
    · exact NoUb.after (hu.ope (e.same ⟨rfl, rfl, rfl⟩ rfl rfl) hx (hc.congr rfl rfl))
  | bref nm => exact parseBref_U hu e nm
  | prec a b info q => exact hu.task e trivial hx
  | recov q nm as => exact parseRecov_U hg hu e hx hc
  | cut => exact NoUb.ok _
  | null => cases hx

theorem step_safe : SafeRec (step rec) := by
  intro o cfg t i st hcfg ho hi hp ha ht
  have e : SafeEnv o cfg st.logOn i st := ⟨hcfg, ho, hi, ha, rfl⟩
  cases t with
  | ope x => obtain ⟨m, ps, hx, hc⟩ := ht; exact parseOpe_U hg hu he e hx hc
  | rep x mx c => obtain ⟨m, ps, hx, hc⟩ := ht; exact repRound_U hg hu e hx hc
  | hold r => obtain ⟨d, hd, hy⟩ := ht; exact holder_U hg hu e hd hy
  | grow r inst cyc j v => obtain ⟨d, hd, hm, hy⟩ := ht; exact growRound_U hg hu e hd hm hy
  | prec a b info r mp => exact parsePrec_U hg hu e ht
  | precLoop a b info r mp q s => exact precRound_U hg hu he e ht

end

theorem run_safe (n : Nat) : SafeRec (run (V := V) n) := by
  induction n with
  | zero => intro o cfg t i st _ _ _ _ _ _ s h; cases h
  | succ n ih => exact step_safe (run_good n) ih (run_emits n)

/-- Parsing with a safe configuration and a start rule that is not a macro. -/
theorem parseCore_safe {o : SafeOpt} {cfg : Cfg V} {l : Bool} {r : Nat} {d : Def} {st : St V} (n : Nat) (eoi : Bool)
    (e : SafeEnv o cfg l 0 st) (hd : cfg.rules[r]? = some d) (hm : d.isMacro = false) (ha : ∃ inst, st.args.head? = some ([], inst)) :
    NoUb l (parseCore n cfg r eoi st) := by
  unfold parseCore
  dsimp only
  have hy : ∀ st1 : St V, st1.args = st.args → Entry cfg d st1 := by
    intro st1 h1
    unfold Entry; rw [if_neg (by simp [hm])]; intro _; rw [h1]; exact ha
  have fin : ∀ i st1, SafeEnv o cfg l i st1 → st1.args = st.args → NoUb l ((run n cfg (.hold r) i st1).bind fun y =>
      match y.1 with
      | none => .ok (⟨false, y.2.recovered, i, y.2⟩ : Result V)
      | some j => .ok (eoiCheck cfg eoi j y.2)) := by
    intro i st1 e1 h1
    refine NoUb.bind ((run_safe n).task e1 trivial ⟨d, hd, hy _ h1⟩) ?_
    intro y _
    cases y.1 <;> exact NoUb.ok _
  cases hw : cfg.ws with
  | none => exact fin 0 st e rfl
  | some w =>
    dsimp only
    refine NoUb.bind ((run_safe n).ope e (e.safe.ws w hw) (Ctx.off _ _ _)) ?_
    rintro ⟨a, st1⟩ h
    have p := (run_good n).ope e.safe.slots e.ok e.le h
    cases a with
    | none => exact NoUb.ok _
    | some i => exact fin i st1 (e.next p) p.keep.args

theorem parserParse_safe {o : SafeOpt} {cfg : Cfg V} {r : Nat} {d : Def} (n : Nat) (eoi log : Bool) (dt : Option V)
    (hc : SafeCfg o cfg) (hd : cfg.rules[r]? = some d) (hm : d.isMacro = false) : NoUb log (parserParse n cfg r eoi log dt) := by
  unfold parserParse
  refine NoUb.bind (parseCore_safe n eoi ⟨hc, ?_, Nat.zero_le _, by simp, rfl⟩ hd hm ⟨0, rfl⟩) ?_
  · exact ⟨fun _ _ _ h => (by cases h), fun _ _ _ _ _ h => (by cases h), fun _ h => (by cases h)⟩
  · intro res _
    unfold postProcess
    split
    · rename_i h
      simp only [Bool.and_eq_true] at h
      refine NoUb.bind ?_ fun _ _ => NoUb.ok _
      intro s hs
      exact ⟨h.1, output_fault hs⟩
    · exact NoUb.ok _

end Verif
