import Verif.Ids
/-!
# What a parse does not depend on

A parse only looks at the body, the number and the `has_macro_ref` flag of rules reachable from where it starts: changing them elsewhere changes
nothing (`run_cg`, `parserParse_cg`).
-/

namespace Verif
open Out

variable {V : Type}

/-- Equal outcomes, with a property of the result. -/
def Cg {α : Type} (p : α → Prop) (x' x : Out α) : Prop := x' = x ∧ ∀ r, x = .ok r → p r

theorem Cg.ok {α : Type} {p : α → Prop} {a : α} (h : p a) : Cg p (.ok a) (.ok a) := ⟨rfl, by intro r e; cases e; exact h⟩

theorem Cg.ub {α : Type} {p : α → Prop} (s : String) : Cg p (.ub s : Out α) (.ub s) := ⟨rfl, by intro r e; cases e⟩

theorem Cg.bind {α β : Type} {p : α → Prop} {q : β → Prop} {x' x : Out α} {f' f : α → Out β} (h : Cg p x' x)
    (hf : ∀ r, p r → Cg q (f' r) (f r)) : Cg q (x'.bind f') (x.bind f) := by
  obtain ⟨h1, h2⟩ := h
  subst h1
  cases x' with
  | ub s => exact ⟨rfl, by intro r e; cases e⟩
  | oof => exact ⟨rfl, by intro r e; cases e⟩
  | ok a => exact hf a (h2 a rfl)

/-- The argument stack is as before. -/
abbrev A (a : List (List Ope × Nat)) : Res V → Prop := fun r => r.2.args = a
abbrev AV (a : List (List Ope × Nat)) : VRes V → Prop := fun r => r.2.2.args = a

theorem Cg.andThen {a b : List (List Ope × Nat)} {x' x : Out (Res V)} {f' f : Nat → St V → Out (Res V)} (h : Cg (A a) x' x)
    (hab : a = b) (hf : ∀ j st, st.args = a → Cg (A b) (f' j st) (f j st)) : Cg (A b) (andThen x' f') (andThen x f) := by
  subst hab
  refine Cg.bind h fun r hr => ?_
  rcases r with ⟨_ | j, st⟩
  · exact Cg.ok hr
  · exact hf j st hr

theorem Cg.after {a b : List (List Ope × Nat)} {x' x : Out (Res V)} {f : St V → St V} (h : Cg (A a) x' x)
    (hf : ∀ st : St V, st.args = a → (f st).args = b) : Cg (A b) (after x' f) (after x f) :=
  Cg.bind h fun r hr => Cg.ok (hf _ hr)

/-- A rule without its flag and body. -/
def Def.erase (d : Def) : Def := { d with hasMacroRef := false, ope := .cut }

/-- The same configuration with other rules and numbers. -/
@[reducible] def Cfg.swap (cfg : Cfg V) (rs : List Def) (f : Nat → Nat) (cnt : Nat) : Cfg V := { cfg with rules := rs, defId := f, defCount := cnt }

/-- The rules `R` are the same, the others too except for flag and body; `R` is closed. -/
structure Agree (R : Nat → Prop) (cfg : Cfg V) (rs : List Def) (f : Nat → Nat) (cnt : Nat) : Prop where
  same : ∀ r, R r → rs[r]? = cfg.rules[r]?
  erase : ∀ r : Nat, (rs[r]?).map Def.erase = (cfg.rules[r]?).map Def.erase
  num : cfg.packrat = true → ∀ (r : Nat) (d : Def), R r → cfg.rules[r]? = some d → f r = cfg.defId r
  count : cfg.packrat = true → ∀ (r : Nat) (d : Def), R r → cfg.rules[r]? = some d → (cnt ≤ cfg.defId r ↔ cfg.defCount ≤ cfg.defId r)
  closed : ∀ (r : Nat) (d : Def), R r → cfg.rules[r]? = some d → ∀ u ∈ d.ope.uses, R u
  ws : ∀ w, cfg.ws = some w → ∀ u ∈ w.uses, R u
  word : ∀ w, cfg.word = some w → ∀ u ∈ w.uses, R u

def OpeIn (R : Nat → Prop) (e : Ope) : Prop := ∀ u ∈ e.uses, R u
def OpesIn (R : Nat → Prop) (es : List Ope) : Prop := ∀ u ∈ Ope.usesL es, R u

def ArgsIn (R : Nat → Prop) (a : List (List Ope × Nat)) : Prop := ∀ fr ∈ a, OpesIn R fr.1

def TaskIn (R : Nat → Prop) : Task V → Prop
  | .ope e => OpeIn R e
  | .rep e _ _ => OpeIn R e
  | .hold r => R r
  | .grow r _ _ _ _ => R r
  | .prec a b _ _ _ => OpeIn R a ∧ OpeIn R b
  | .precLoop a b _ _ _ _ _ => OpeIn R a ∧ OpeIn R b

/-- The engines agree. -/
def CgRec (R : Nat → Prop) (rec : Rec V) : Prop :=
  ∀ cfg rs f cnt t i st, Agree R cfg rs f cnt → TaskIn R t → ArgsIn R st.args → Cg (A st.args) (rec (cfg.swap rs f cnt) t i st) (rec cfg t i st)

/-! ## Pieces that look at the rules -/

theorem Agree.field {R : Nat → Prop} {cfg : Cfg V} {rs : List Def} {f : Nat → Nat} {cnt : Nat} (h : Agree R cfg rs f cnt) {β : Type} (g : Def → β)
    (hg : ∀ d, g d.erase = g d) (r : Nat) : (rs[r]?).map g = (cfg.rules[r]?).map g := by
  have he := h.erase r
  have : ∀ o : Option Def, o.map g = (o.map Def.erase).map g := by
    intro o; cases o <;> simp [hg]
  rw [this, he, ← this]

theorem errRule_cg {R : Nat → Prop} {cfg : Cfg V} {rs : List Def} {f : Nat → Nat} {cnt : Nat} (h : Agree R cfg rs f cnt) (l : List Nat) (c : Option Nat) :
    errRule rs l c = errRule cfg.rules l c := by
  induction l generalizing c with
  | nil => rfl
  | cons r l ih =>
    simp only [errRule]
    rw [h.field (·.isToken) (fun _ => rfl), ih]

theorem bind_map_get {α β : Type} (o : Option α) (g : α → Option β) : o.bind g = (o.map g).getD none := by
  cases o <;> rfl

theorem expectation_cg {R : Nat → Prop} {cfg : Cfg V} {rs : List Def} {f : Nat → Nat} {cnt : Nat} (h : Agree R cfg rs f cnt) (l : List Nat)
    (x : Option ErrLit) : expectation rs l x = expectation cfg.rules l x := by
  unfold expectation
  rw [errRule_cg h]
  have : (l.head?.bind fun r => rs[r]?.bind (·.errLit)) = (l.head?.bind fun r => cfg.rules[r]?.bind (·.errLit)) := by
    congr 1
    funext r
    rw [bind_map_get, bind_map_get, h.field (·.errLit) (fun _ => rfl)]
  rw [this]

theorem setErr_cg {R : Nat → Prop} {cfg : Cfg V} {rs : List Def} {f : Nat → Nat} {cnt : Nat} (h : Agree R cfg rs f cnt) (st : St V) (i : Nat)
    (x : Option ErrLit) : setErr (cfg.swap rs f cnt) st i x = setErr cfg st i x := by
  unfold setErr Err.setPos
  simp only [expectation_cg h]

theorem setErr_args (cfg : Cfg V) (st : St V) (i : Nat) (x : Option ErrLit) : (setErr cfg st i x).args = st.args := by
  unfold setErr; split <;> rfl

theorem expected_cg {R : Nat → Prop} {cfg : Cfg V} {rs : List Def} {f : Nat → Nat} {cnt : Nat} (h : Agree R cfg rs f cnt)
    (ts : List (Option ErrLit × Option Nat)) (lb : List Byte) : expected rs ts lb = expected cfg.rules ts lb := by
  induction ts generalizing lb with
  | nil => rfl
  | cons t ts ih =>
    obtain ⟨el, er⟩ := t
    simp only [expected]
    have : (er.bind fun r => rs[r]?.map (·.name)) = (er.bind fun r => cfg.rules[r]?.map (·.name)) := by
      congr 1
      funext r
      exact h.field (·.name) (fun _ => rfl) r
    rw [this]
    simp only [ih]

theorem output_cg {R : Nat → Prop} {cfg : Cfg V} {rs : List Def} {f : Nat → Nat} {cnt : Nat} (h : Agree R cfg rs f cnt) (e : Err) :
    e.output rs = e.output cfg.rules := by
  unfold Err.output
  simp only [expected_cg h]

theorem Agree.dummy {R : Nat → Prop} {cfg : Cfg V} {rs : List Def} {f : Nat → Nat} {cnt : Nat} (h : Agree R cfg rs f cnt) (s : List Byte) :
    Agree R (cfg.dummy s) rs f 0 where
  same := h.same
  erase := h.erase
  num := by intro e; cases e
  count := by intro e; cases e
  closed := h.closed
  ws := by intro w e; cases e
  word := by intro w e; cases e

theorem argsIn_empty (R : Nat → Prop) : ArgsIn R ({} : St V).args := by
  intro fr hfr
  have : fr = ([], 0) := by simpa using hfr
  subst this
  intro u hu; cases hu

section
variable {R : Nat → Prop} {rec : Rec V} (ih : CgRec R rec) {cfg : Cfg V} {rs : List Def} {f : Nat → Nat} {cnt : Nat} (h : Agree R cfg rs f cnt)
include ih h

theorem CgRec.task (t : Task V) (i : Nat) (st : St V) {a : List (List Ope × Nat)} (ha : st.args = a) (ht : TaskIn R t) (hr : ArgsIn R a) :
    Cg (A a) (rec (cfg.swap rs f cnt) t i st) (rec cfg t i st) := by
  subst ha; exact ih cfg rs f cnt t i st h ht hr

theorem CgRec.ope {e : Ope} (i : Nat) (st : St V) {a : List (List Ope × Nat)} (ha : st.args = a) (he : OpeIn R e) (hr : ArgsIn R a) :
    Cg (A a) (rec (cfg.swap rs f cnt) (.ope e) i st) (rec cfg (.ope e) i st) := by
  subst ha; exact ih cfg rs f cnt (.ope e) i st h he hr

theorem CgRec.hold {r : Nat} (i : Nat) (st : St V) {a : List (List Ope × Nat)} (ha : st.args = a) (he : R r) (hr : ArgsIn R a) :
    Cg (A a) (rec (cfg.swap rs f cnt) (.hold r) i st) (rec cfg (.hold r) i st) := by
  subst ha; exact ih cfg rs f cnt (.hold r) i st h he hr

theorem skipWs_cg (i : Nat) (st : St V) {a : List (List Ope × Nat)} (ha : st.args = a) (hr : ArgsIn R a) :
    Cg (A a) (skipWs rec (cfg.swap rs f cnt) i st) (skipWs rec cfg i st) := by
  unfold skipWs
  by_cases ht : st.tokCount ≠ 0
  · rw [if_pos ht, if_pos ht]; exact Cg.ok ha
  · rw [if_neg ht, if_neg ht]
    cases hw : cfg.ws with
    | none => simp only [hw]; exact Cg.ok ha
    | some w => simp only [hw]; exact CgRec.ope ih h i st ha (h.ws w hw) hr

theorem isWord_cg {w : Ope} (hw : cfg.word = some w) (l : List Byte) :
    isWord rec (cfg.swap rs f cnt) w l = isWord rec cfg w l := by
  unfold isWord
  have := ih (cfg.dummy l) rs f 0 (.ope w) 0 {} (h.dummy l) (h.word w hw) (argsIn_empty R)
  have e : rec ((cfg.swap rs f cnt).dummy l) (.ope w) 0 {} = rec (cfg.dummy l) (.ope w) 0 {} := this.1
  rw [e]

theorem wordCheck_cg {w : Ope} (hw : cfg.word = some w) (i : Nat) :
    wordCheck rec (cfg.swap rs f cnt) w i = wordCheck rec cfg w i := by
  unfold wordCheck
  have := ih (cfg.dummy cfg.input) rs f 0 (.ope w) i {} (h.dummy _) (h.word w hw) (argsIn_empty R)
  have e : rec ((cfg.swap rs f cnt).dummy cfg.input) (.ope w) i {} = rec (cfg.dummy cfg.input) (.ope w) i {} := this.1
  rw [e]

theorem parseLiteral_cg (l : List Byte) (ic : Bool) (el : ErrLit) (i : Nat) (st : St V) {a : List (List Ope × Nat)} (ha : st.args = a)
    (hr : ArgsIn R a) : Cg (A a) (parseLiteral rec (cfg.swap rs f cnt) l ic el i st) (parseLiteral rec cfg l ic el i st) := by
  unfold parseLiteral
  rw [setErr_cg h]
  have hs := skipWs_cg ih h (i + l.length) st ha hr
  have hf : Cg (A a) (.ok (none, setErr cfg st i (some el)) : Out (Res V)) (.ok (none, setErr cfg st i (some el))) :=
    Cg.ok ((setErr_args ..).trans ha)
  show Cg (A a) (if litMatch l ic (cfg.rest i) = true then _ else _) _
  by_cases hm : litMatch l ic (cfg.rest i) = true
  · rw [if_pos hm, if_pos hm]
    cases hw : cfg.word with
    | none => exact hs
    | some w =>
      show Cg _ ((isWord rec (cfg.swap rs f cnt) w l).bind _) ((isWord rec cfg w l).bind _)
      rw [isWord_cg ih h hw]
      refine Cg.bind (p := fun _ => True) ⟨rfl, fun _ _ => trivial⟩ fun b _ => ?_
      cases b with
      | false => exact hs
      | true =>
        show Cg _ ((wordCheck rec (cfg.swap rs f cnt) w _).bind _) ((wordCheck rec cfg w _).bind _)
        rw [wordCheck_cg ih h hw]
        refine Cg.bind (p := fun _ => True) ⟨rfl, fun _ _ => trivial⟩ fun b _ => ?_
        cases b with
        | false => exact hf
        | true => exact hs
  · rw [if_neg hm, if_neg hm]; exact hf

theorem parseDict_cg (wl : List (List Byte)) (ic : Bool) (i : Nat) (st : St V) {a : List (List Ope × Nat)} (ha : st.args = a)
    (hr : ArgsIn R a) : Cg (A a) (parseDict rec (cfg.swap rs f cnt) wl ic i st) (parseDict rec cfg wl ic i st) := by
  unfold parseDict
  simp only [setErr_cg h]
  show Cg (A a) (if ((Trie.build wl ic).matchText (cfg.rest i)).1 = 0 then _ else _) _
  by_cases hm : ((Trie.build wl ic).matchText (cfg.rest i)).1 = 0
  · rw [if_pos hm, if_pos hm]
    exact Cg.ok ((setErr_args ..).trans ha)
  · rw [if_neg hm, if_neg hm]
    have hs := skipWs_cg ih h (i + ((Trie.build wl ic).matchText (cfg.rest i)).1)
      (st.setChoice wl.length ((Trie.build wl ic).matchText (cfg.rest i)).2) (a := a) ha hr
    cases hw : cfg.word with
    | none => exact hs
    | some w =>
      show Cg _ ((wordCheck rec (cfg.swap rs f cnt) w _).bind _) ((wordCheck rec cfg w _).bind _)
      rw [wordCheck_cg ih h hw]
      refine Cg.bind (p := fun _ => True) ⟨rfl, fun _ _ => trivial⟩ fun b _ => ?_
      cases b with
      | false => exact Cg.ok ((setErr_args ..).trans ha)
      | true => exact hs

theorem parseBref_cg (nm : List Byte) (i : Nat) (st : St V) {a : List (List Ope × Nat)} (ha : st.args = a)
    (hr : ArgsIn R a) : Cg (A a) (parseBref rec (cfg.swap rs f cnt) nm i st) (parseBref rec cfg nm i st) := by
  unfold parseBref
  cases findCap st.caps nm with
  | some t => exact parseLiteral_cg ih h t false (.cap t) i st ha hr
  | none => exact Cg.ok ha

theorem tokenBody_cg (e : Ope) (he : OpeIn R e) (i : Nat) (st : St V) {a : List (List Ope × Nat)} (ha : st.args = a)
    (hr : ArgsIn R a) : Cg (A a) (tokenBody rec (cfg.swap rs f cnt) e i st) (tokenBody rec cfg e i st) := by
  unfold tokenBody
  refine Cg.andThen (Cg.after (CgRec.ope ih h i _ (a := a) ha he hr) fun s hs => hs) rfl fun j s hs => ?_
  refine skipWs_cg ih h j _ ?_ hr
  unfold addToken; split <;> exact hs

theorem seqLoop_cg (es : List Ope) (he : OpesIn R es) (i : Nat) (st : St V) {a : List (List Ope × Nat)} (ha : st.args = a)
    (hr : ArgsIn R a) : Cg (A a) (seqLoop rec (cfg.swap rs f cnt) es i st) (seqLoop rec cfg es i st) := by
  induction es generalizing i st with
  | nil => exact Cg.ok ha
  | cons e es ihe =>
    unfold seqLoop
    refine Cg.andThen (CgRec.ope ih h i st ha (fun u hu => he u (List.mem_append_left _ hu)) hr) rfl fun j s hs => ?_
    exact ihe (fun u hu => he u (List.mem_append_right _ hu)) j s hs

theorem parseSeq_cg (es : List Ope) (kw : Option KwGuard) (he : OpesIn R es) (i : Nat) (st : St V) {a : List (List Ope × Nat)}
    (ha : st.args = a) (hr : ArgsIn R a) : Cg (A a) (parseSeq rec (cfg.swap rs f cnt) es kw i st) (parseSeq rec cfg es kw i st) := by
  unfold parseSeq
  have hl := seqLoop_cg ih h es he i st ha hr
  cases kw with
  | none => exact hl
  | some k =>
    simp only [Option.bind_some]
    unfold kwGuarded
    simp only [setErr_cg h]
    have hrest : (cfg.swap rs f cnt).rest i = cfg.rest i := rfl
    rw [hrest]
    have hf : Cg (A a) (.ok (none, setErr cfg st i) : Out (Res V)) (.ok (none, setErr cfg st i)) :=
      Cg.ok ((setErr_args ..).trans ha)
    cases kwScan k (cfg.rest i) with
    | none => exact hf
    | some n =>
      dsimp only
      by_cases h1 : (k.minLen ≤ n ∧ n ≤ k.maxLen) ∧ Trie.toLower ((cfg.rest i).take n) ∈ k.exact
      · simp only [h1, and_self, if_true]; exact hf
      · simp only [if_neg h1]
        by_cases h2 : (k.minLen ≤ n ∧ n ≤ k.maxLen) ∧ Trie.toLower ((cfg.rest i).take n) ∈ k.pref
        · simp only [if_pos h2]; exact hl
        · simp only [if_neg h2]
          refine skipWs_cg ih h _ _ ?_ hr
          unfold addToken; split <;> exact ha

theorem choLoop_cg (total : Nat) (fs : List FirstSet) (es : List Ope) (he : OpesIn R es) (id i : Nat) (st : St V)
    {a : List (List Ope × Nat)} (ha : st.args = a) (hr : ArgsIn R a) :
    Cg (A a) (choLoop rec (cfg.swap rs f cnt) total fs es id i st) (choLoop rec cfg total fs es id i st) := by
  induction es generalizing id st with
  | nil => exact Cg.ok ha
  | cons e es ihe =>
    have he2 : OpesIn R es := fun u hu => he u (List.mem_append_right _ hu)
    unfold choLoop
    have hrest : (cfg.swap rs f cnt).rest i = cfg.rest i := rfl
    rw [hrest]
    by_cases hk : fsSkip fs[id]? (cfg.rest i) = true
    · rw [if_pos hk, if_pos hk]
      refine ihe he2 _ _ ?_
      unfold fsErr
      dsimp only
      split <;> exact ha
    · rw [if_neg hk, if_neg hk]
      refine Cg.bind (p := A a) (CgRec.ope ih h i _ ?_ (fun u hu => he u (List.mem_append_left _ hu)) hr) fun r hr' => ?_
      · show (resetCut cfg st).args = a
        unfold resetCut St.setCut
        split
        · split <;> exact ha
        · exact ha
      · obtain ⟨o, s⟩ := r
        cases o with
        | some j => exact Cg.ok hr'
        | none =>
          dsimp only
          split
          · exact Cg.ok hr'
          · exact ihe he2 _ _ hr'

theorem parseCho_cg (es : List Ope) (fl : Bool) (fs : List FirstSet) (he : OpesIn R es) (i : Nat) (st : St V) {a : List (List Ope × Nat)}
    (ha : st.args = a) (hr : ArgsIn R a) : Cg (A a) (parseCho rec (cfg.swap rs f cnt) es fl fs i st) (parseCho rec cfg es fl fs i st) := by
  unfold parseCho
  refine Cg.after (choLoop_cg ih h es.length fs es he 0 i _ (a := a) ?_ hr) ?_
  · unfold pushCut; split <;> exact ha
  · intro s hs; unfold choExit; split <;> exact hs

theorem repMin_cg (e : Ope) (he : OpeIn R e) (n i : Nat) (st : St V) {a : List (List Ope × Nat)} (ha : st.args = a) (hr : ArgsIn R a) :
    Cg (A a) (repMin rec (cfg.swap rs f cnt) e n i st) (repMin rec cfg e n i st) := by
  induction n generalizing i st with
  | zero => exact Cg.ok ha
  | succ n ihn =>
    unfold repMin
    exact Cg.andThen (CgRec.ope ih h i st ha he hr) rfl fun j s hs => ihn j s hs

theorem repRound_cg (e : Ope) (he : OpeIn R e) (mx : Option Nat) (c i : Nat) (st : St V) {a : List (List Ope × Nat)} (ha : st.args = a)
    (hr : ArgsIn R a) : Cg (A a) (repRound rec (cfg.swap rs f cnt) e mx c i st) (repRound rec cfg e mx c i st) := by
  unfold repRound
  split
  · refine Cg.bind (p := A a) (CgRec.ope ih h i st ha he hr) fun r hr' => ?_
    obtain ⟨o, s⟩ := r
    cases o with
    | none => exact Cg.ok hr'
    | some j =>
      have hs : s.args = a := hr'
      subst hs
      exact ih cfg rs f cnt (.rep e mx (c + 1)) j s h he hr
  · exact Cg.ok ha

theorem parseRep_cg (e : Ope) (he : OpeIn R e) (mn : Nat) (mx : Option Nat) (sp : Option CharClass.Cls) (i : Nat) (st : St V)
    {a : List (List Ope × Nat)} (ha : st.args = a) (hr : ArgsIn R a) :
    Cg (A a) (parseRep rec (cfg.swap rs f cnt) e mn mx sp i st) (parseRep rec cfg e mn mx sp i st) := by
  unfold parseRep
  cases sp with
  | some c =>
    have hrest : (cfg.swap rs f cnt).rest i = cfg.rest i := rfl
    rw [hrest]
    simp only [setErr_cg h]
    cases mx <;> dsimp only <;> split <;> first | exact Cg.ok ((setErr_args ..).trans ha) | exact Cg.ok ha
  | none =>
    refine Cg.andThen (repMin_cg ih h e he mn i st ha hr) rfl fun j s hs => ?_
    subst hs
    exact ih cfg rs f cnt (.rep e mx mn) j s h he hr


theorem opeBody_cg {r : Nat} {d : Def} (hR : R r) (hd : cfg.rules[r]? = some d) (i : Nat) (st : St V) {a : List (List Ope × Nat)}
    (ha : st.args = a) (hr : ArgsIn R a) : Cg (A a) (opeBody rec (cfg.swap rs f cnt) r d i st) (opeBody rec cfg r d i st) := by
  unfold opeBody
  have he : OpeIn R d.ope := h.closed r d hR hd
  have hp : ∀ b, (pushRule b r st).args = a := by intro b; unfold pushRule; split <;> exact ha
  refine Cg.after (a := a) ?_ ?_
  · by_cases hn : d.noWs = true
    · rw [if_pos hn, if_pos hn]
      refine Cg.andThen (Cg.after (CgRec.ope ih h i _ (a := a) (hp _) he hr) fun s hs => hs) rfl fun j s hs => ?_
      exact skipWs_cg ih h j s hs hr
    · rw [if_neg hn, if_neg hn]
      exact CgRec.ope ih h i _ (hp _) he hr
  · intro s hs; unfold popRule; split <;> exact hs

omit ih h in
theorem callAction_args (r : Nat) (fr : Frame V) (p : Option V) (st : St V) : (callAction cfg r fr p st).2.args = st.args := by
  unfold callAction
  dsimp only
  split <;> rfl

omit ih h in
theorem reduce_args (r : Nat) (d : Def) (fr : Frame V) (p : Option V) (st : St V) : (reduce cfg r d fr p st).2.args = st.args := by
  unfold reduce
  split
  · exact callAction_args ..
  · rfl

omit ih h in
theorem finishRule_args (r : Nat) (d : Def) (i : Nat) (x : Option Nat) (st : St V) : (finishRule cfg r d i x st).2.2.args = st.args := by
  unfold finishRule
  cases x with
  | none => dsimp only; split <;> rfl
  | some j =>
    dsimp only
    split
    · split
      · split
        · rfl
        · exact reduce_args ..
      · split <;> rfl
    · split
      · rfl
      · exact reduce_args ..

theorem doParse_cg {r : Nat} {d : Def} (hR : R r) (hd : cfg.rules[r]? = some d) (i : Nat) (st : St V) {a : List (List Ope × Nat)}
    (ha : st.args = a) (hr : ArgsIn R a) : Cg (AV a) (doParse rec (cfg.swap rs f cnt) r d i st) (doParse rec cfg r d i st) := by
  unfold doParse
  refine Cg.bind (p := A a) (opeBody_cg ih h hR hd i _ (a := a) ?_ hr) fun x hx => ?_
  · show (callEnter cfg r i st).args = a
    unfold callEnter; split <;> exact ha
  · have hf := finishRule_args (cfg := cfg) r d i x.1 x.2
    have e : finishRule (cfg.swap rs f cnt) r d i x.1 x.2 = finishRule cfg r d i x.1 x.2 := rfl
    dsimp only
    rw [e]
    split
    · exact Cg.ok (hf.trans hx)
    · exact Cg.ok (hf.trans hx)

omit ih in
theorem slot_cg {r : Nat} {d : Def} (hR : R r) (hd : cfg.rules[r]? = some d) (hp : cfg.packrat = true) : f r = cfg.defId r :=
  h.num hp r d hR hd

omit ih in
theorem writeMemo_cg {r : Nat} {d : Def} (hR : R r) (hd : cfg.rules[r]? = some d) (i j : Nat) (v : Option V) (st : St V) :
    writeMemo (cfg.swap rs f cnt) r i j v st = writeMemo cfg r i j v st := by
  unfold writeMemo
  show (if cfg.packrat = true then _ else _) = _
  by_cases hp : cfg.packrat = true
  · rw [if_pos hp, if_pos hp]
    show (match Cfg.slot (cfg.swap rs f cnt) (f r) with | some s => _ | none => _) = _
    rw [h.num hp r d hR hd]
    rfl
  · rw [if_neg hp, if_neg hp]

omit ih in
theorem clearMemo_cg {r : Nat} {d : Def} (hR : R r) (hd : cfg.rules[r]? = some d) (i : Nat) (st : St V) :
    clearMemo (cfg.swap rs f cnt) r i st = clearMemo cfg r i st := by
  unfold clearMemo
  show (if cfg.packrat = true then _ else _) = _
  by_cases hp : cfg.packrat = true
  · rw [if_pos hp, if_pos hp]
    show (match Cfg.slot (cfg.swap rs f cnt) (f r) with | some s => _ | none => _) = _
    rw [h.num hp r d hR hd]
    rfl
  · rw [if_neg hp, if_neg hp]

omit ih h in
theorem writeMemo_args (r i j : Nat) (v : Option V) (st : St V) : (writeMemo cfg r i j v st).args = st.args := by
  unfold writeMemo
  split
  · split
    · split
      · split <;> rfl
      · rfl
    · rfl
  · rfl

omit ih h in
theorem clearMemo_args (r i : Nat) (st : St V) : (clearMemo cfg r i st).args = st.args := by
  unfold clearMemo
  split
  · split <;> rfl
  · rfl

omit ih in
theorem guarded_cg {r : Nat} {d : Def} (hR : R r) (hd : cfg.rules[r]? = some d) (i : Nat) (st : St V) {fn' fn : St V → Out (VRes V)}
    {a : List (List Ope × Nat)} (ha : st.args = a) (hfn : ∀ s, s.args = a → Cg (AV a) (fn' s) (fn s)) :
    Cg (AV a) (guarded (cfg.swap rs f cnt) r i st fn') (guarded cfg r i st fn) := by
  have hre : Cg (AV a) (reentered (cfg.swap rs f cnt) st) (reentered cfg st) := by
    unfold reentered
    show Cg (AV a) (if cfg.trap = true then _ else _) _
    split
    · exact Cg.ub _
    · exact Cg.ok ha
  unfold guarded
  by_cases hp : cfg.packrat = true
  · have e : f r = cfg.defId r := h.num hp r d hR hd
    rw [if_pos (show (cfg.swap rs f cnt).packrat = true from hp), if_pos hp]
    simp only [e]
    have hs : Cfg.slot (cfg.swap rs f cnt) (cfg.defId r) = Cfg.slot cfg (cfg.defId r) := rfl
    rw [hs]
    cases hsl : Cfg.slot cfg (cfg.defId r) with
    | none =>
      dsimp only
      by_cases h1 : cfg.defCount ≤ cfg.defId r
      · rw [if_pos h1, if_pos ((h.count hp r d hR hd).2 h1)]; exact Cg.ub _
      · rw [if_neg h1, if_neg (fun e => h1 ((h.count hp r d hR hd).1 e))]
        by_cases h2 : st.active (cfg.defId r) = some i
        · rw [if_pos h2, if_pos h2]; exact hre
        · rw [if_neg h2, if_neg h2]
          exact Cg.bind (p := AV a) (hfn _ ha) fun x hx => Cg.ok hx
    | some s =>
      dsimp only
      show Cg _ (if cfg.memoSize ≤ cfg.memoIdx s i then _ else match st.memo (cfg.memoIdx s i) with
        | some (some (len, v)) => _ | some none => _ | none => _) _
      by_cases h1 : cfg.memoSize ≤ cfg.memoIdx s i
      · rw [if_pos h1, if_pos h1]; exact Cg.ub _
      · rw [if_neg h1, if_neg h1]
        cases hm : st.memo (cfg.memoIdx s i) with
        | some o =>
          cases o with
          | none => exact Cg.ok ha
          | some p => exact Cg.ok ha
        | none =>
          dsimp only
          refine Cg.bind (p := AV a) (hfn _ ha) fun x hx => ?_
          cases x.1 with
          | none => exact Cg.ok hx
          | some j =>
            dsimp only
            rw [writeMemo_cg h hR hd]
            exact Cg.ok ((writeMemo_args ..).trans hx)
  · rw [if_neg (show ¬ (cfg.swap rs f cnt).packrat = true from hp), if_neg hp]
    cases hst : st.args with
    | nil => exact Cg.ub _
    | cons fr tl =>
      obtain ⟨x, inst⟩ := fr
      dsimp only
      by_cases h1 : (st.lrMemo.lookup (r, inst, i)).isSome = true
      · rw [if_pos h1, if_pos h1]; exact hre
      · rw [if_neg h1, if_neg h1]
        exact Cg.bind (p := AV a) (hfn _ (hst.symm.trans ha)) fun x hx => Cg.ok hx

omit ih h in
theorem emplace_args (d : Def) (v : Option V) (st : St V) : (emplace cfg d v st).args = st.args := by
  unfold emplace; split <;> rfl

omit ih in
theorem growDone_cg {r : Nat} {d : Def} (hR : R r) (hd : cfg.rules[r]? = some d) (inst i j : Nat) (v : Option V) (st : St V)
    {a : List (List Ope × Nat)} (ha : st.args = a) :
    Cg (A a) (.ok (growDone (cfg.swap rs f cnt) r inst d i j v st)) (.ok (growDone cfg r inst d i j v st)) := by
  have e : growDone (cfg.swap rs f cnt) r inst d i j v st = growDone cfg r inst d i j v st := by
    unfold growDone
    rw [writeMemo_cg h hR hd]
    rfl
  rw [e]
  refine Cg.ok ?_
  unfold growDone
  dsimp only
  show (emplace ..).args = a
  rw [emplace_args]
  dsimp only
  split
  · exact ha
  · rw [writeMemo_args]; exact ha

theorem growRound_cg {r : Nat} (hR : R r) (inst : Nat) (cyc : List (Nat × Nat)) (j : Nat) (v : Option V) (i : Nat) (st : St V)
    {a : List (List Ope × Nat)} (ha : st.args = a) (hr : ArgsIn R a) :
    Cg (A a) (growRound rec (cfg.swap rs f cnt) r inst cyc j v i st) (growRound rec cfg r inst cyc j v i st) := by
  unfold growRound
  show Cg (A a) (match rs[r]? with | none => _ | some d => _) _
  rw [h.same r hR]
  cases hd : cfg.rules[r]? with
  | none => exact Cg.ub _
  | some d =>
    dsimp only
    rw [clearMemo_cg h hR hd]
    refine Cg.bind (p := AV a) (doParse_cg ih h hR hd i _ ?_ hr) fun x hx => ?_
    · dsimp only; split
      · exact ha
      · rw [clearMemo_args]; exact ha
    · cases x.1 with
      | none => exact growDone_cg h hR hd inst i j v _ hx
      | some j' =>
        dsimp only
        by_cases hj : j' ≤ j
        · rw [if_pos hj, if_pos hj]; exact growDone_cg h hR hd inst i j v _ hx
        · rw [if_neg hj, if_neg hj]
          have hs : x.2.2.args = a := hx
          subst hs
          exact ih cfg rs f cnt (.grow r inst cyc j' x.2.1) i _ h hR hr

theorem lrHold_cg {r : Nat} {d : Def} (hR : R r) (hd : cfg.rules[r]? = some d) (i : Nat) (st : St V)
    {a : List (List Ope × Nat)} (ha : st.args = a) (hr : ArgsIn R a) :
    Cg (A a) (lrHold rec (cfg.swap rs f cnt) r d i st) (lrHold rec cfg r d i st) := by
  unfold lrHold
  cases hst : st.args with
  | nil => exact Cg.ub _
  | cons fr tl =>
    obtain ⟨x, inst⟩ := fr
    dsimp only
    cases hl : st.lrMemo.lookup (r, inst, i) with
    | some m =>
      dsimp only
      cases m with
      | none => exact Cg.ok (hst.symm.trans ha)
      | some p =>
        dsimp only
        exact Cg.ok ((emplace_args ..).trans (hst.symm.trans ha))
    | none =>
      dsimp only
      refine Cg.bind (p := AV a) (doParse_cg ih h hR hd i _ (a := a) ?_ hr) fun x hx => ?_
      · exact hst.symm.trans ha
      · cases x.1 with
        | none => exact Cg.ok hx
        | some j =>
          dsimp only
          have hs : x.2.2.args = a := hx
          subst hs
          exact ih cfg rs f cnt (.grow r inst _ j x.2.1) i _ h hR hr

theorem holder_cg {r : Nat} (hR : R r) (i : Nat) (st : St V) {a : List (List Ope × Nat)} (ha : st.args = a) (hr : ArgsIn R a) :
    Cg (A a) (holder rec (cfg.swap rs f cnt) r i st) (holder rec cfg r i st) := by
  unfold holder
  show Cg (A a) (match rs[r]? with | none => _ | some d => _) _
  rw [h.same r hR]
  cases hd : cfg.rules[r]? with
  | none => exact Cg.ub _
  | some d =>
    dsimp only
    by_cases h1 : (d.isMacro && !d.isLR) = true
    · rw [if_pos h1, if_pos h1]
      exact Cg.after (CgRec.ope ih h i _ (a := a) ha (h.closed r d hR hd) hr) fun s hs => hs
    · rw [if_neg h1, if_neg h1]
      by_cases h2 : d.isLR = true
      · rw [if_pos h2, if_pos h2]
        exact lrHold_cg ih h hR hd i st ha hr
      · rw [if_neg h2, if_neg h2]
        by_cases h3 : cfg.recognizeOnly = true
        · rw [if_pos h3, if_pos h3]
          refine Cg.bind (p := AV a) (guarded_cg h hR hd i st ha fun s hs => ?_) fun x hx => Cg.ok hx
          exact Cg.bind (p := A a) (opeBody_cg ih h hR hd i s hs hr) fun x hx => Cg.ok hx
        · rw [if_neg h3, if_neg h3]
          refine Cg.bind (p := AV a) (guarded_cg h hR hd i st ha fun s hs => doParse_cg ih h hR hd i s hs hr) fun x hx => ?_
          cases x.1 with
          | none => exact Cg.ok hx
          | some j => exact Cg.ok ((emplace_args ..).trans hx)

end

theorem lookupArg_in {R : Nat → Prop} {ps : List (List Byte)} {as : List Ope} {nm : List Byte} {e : Ope} (ha : OpesIn R as)
    (h : lookupArg ps as nm = some e) : OpeIn R e := by
  have hm := (lookupArg_mem_safe h).1
  have : ∀ (l : List Ope), e ∈ l → ∀ u ∈ e.uses, u ∈ Ope.usesL l := by
    intro l
    induction l with
    | nil => intro h; cases h
    | cons x l ihl =>
      intro hx u hu
      simp only [Ope.usesL, List.mem_append]
      rcases List.mem_cons.1 hx with rfl | hx
      · exact Or.inl hu
      · exact Or.inr (ihl hx u hu)
  intro u hu
  exact ha u (this as hm u hu)

theorem mem_usesL {l : List Ope} {e : Ope} (h : e ∈ l) {u : Nat} (hu : u ∈ e.uses) : u ∈ Ope.usesL l := by
  induction l with
  | nil => cases h
  | cons x l ih =>
    simp only [Ope.usesL, List.mem_append]
    rcases List.mem_cons.1 h with rfl | h
    · exact Or.inl hu
    · exact Or.inr (ih h)

mutual
theorem resolve_in {R : Nat → Prop} (ps : List (List Byte)) (as : List Ope) (ha : OpesIn R as) (e : Ope) (he : OpeIn R e) :
    OpeIn R (resolve ps as e) := by
  cases e with
  | seq es kw => exact resolveList_in ps as ha es he
  | cho es l fs => exact resolveList_in ps as ha es he
  | rep e a b c => exact resolve_in ps as ha e he
  | and_ e => exact resolve_in ps as ha e he
  | not_ e => exact resolve_in ps as ha e he
  | capScope e => exact resolve_in ps as ha e he
  | cap k e => exact resolve_in ps as ha e he
  | tok e => exact resolve_in ps as ha e he
  | ign e => exact resolve_in ps as ha e he
  | ws e => exact resolve_in ps as ha e he
  | prec a b info r => exact resolve_in ps as ha a fun u hu => he u (List.mem_append_left _ hu)
  | ref r nm bs =>
    simp only [resolve]
    cases hl : lookupArg ps as nm with
    | none => exact he
    | some x => exact lookupArg_in ha hl
  | param k nm =>
    simp only [resolve]
    cases hl : lookupArg ps as nm with
    | none => exact he
    | some x => exact lookupArg_in ha hl
  | recov r nm bs =>
    simp only [resolve]
    cases hl : lookupArg ps as nm with
    | none => exact he
    | some x =>
      have hx := lookupArg_in ha hl
      cases x with
      | ref r' nm' as' => exact hx
      | _ => intro u hu; cases hu
  | usr k => intro u hu; cases hu
  | weak r => intro u hu; cases hu
  | bref r => intro u hu; cases hu
  | _ => exact he

theorem resolveList_in {R : Nat → Prop} (ps : List (List Byte)) (as : List Ope) (ha : OpesIn R as) (es : List Ope) (he : OpesIn R es) :
    OpesIn R (resolveList ps as es) := by
  cases es with
  | nil => exact he
  | cons e es =>
    intro u hu
    simp only [resolveList, Ope.usesL, List.mem_append] at hu
    rcases hu with hu | hu
    · exact resolve_in ps as ha e (fun u hu => he u (List.mem_append_left _ hu)) u hu
    · exact resolveList_in ps as ha es (fun u hu => he u (List.mem_append_right _ hu)) u hu
end


section
variable {R : Nat → Prop} {rec : Rec V} (ih : CgRec R rec) {cfg : Cfg V} {rs : List Def} {f : Nat → Nat} {cnt : Nat} (h : Agree R cfg rs f cnt)
include ih h

theorem withArgs_cg {r : Nat} (hR : R r) (i : Nat) (st : St V) (fr : List Ope × Nat) (hfr : OpesIn R fr.1) {a : List (List Ope × Nat)}
    (ha : st.args = a) (hr : ArgsIn R a) :
    Cg (A a) (withArgs st fr fun st => rec (cfg.swap rs f cnt) (.hold r) i st) (withArgs st fr fun st => rec cfg (.hold r) i st) := by
  unfold withArgs
  refine Cg.after (CgRec.hold ih h i _ (a := fr :: a) (by show fr :: st.args = _; rw [ha]) hR ?_) ?_
  · intro x hx
    rcases List.mem_cons.1 hx with rfl | hx
    · exact hfr
    · exact hr x hx
  · intro s hs
    show s.args.tail = a
    rw [hs]; rfl

theorem refer_cg {r : Nat} (hR : R r) (as : List Ope) (has : OpesIn R as) (i : Nat) (st : St V) {a : List (List Ope × Nat)}
    (ha : st.args = a) (hr : ArgsIn R a) : Cg (A a) (refer rec (cfg.swap rs f cnt) r as i st) (refer rec cfg r as i st) := by
  unfold refer
  show Cg (A a) (match rs[r]? with | none => _ | some d => _) _
  rw [h.same r hR]
  cases hd : cfg.rules[r]? with
  | none => exact Cg.ub _
  | some d =>
    dsimp only
    by_cases hm : d.isMacro = true
    · rw [if_pos hm, if_pos hm]
      cases hs : st.ruleStack with
      | nil => exact Cg.ub _
      | cons cur stk =>
        cases hst : st.args with
        | nil => exact Cg.ub _
        | cons fr tl =>
          obtain ⟨top, inst⟩ := fr
          dsimp only
          have htop : OpesIn R top := hr (top, inst) (by rw [← ha, hst]; simp)
          have hmain : ∀ ps : List (List Byte), Cg (A a)
              (if d.isLR = true then withArgs { st with insts := (intern st.insts (r, (resolveList ps top as).map instArg)).2 }
                  (resolveList ps top as, (intern st.insts (r, (resolveList ps top as).map instArg)).1)
                  fun st => rec (cfg.swap rs f cnt) (.hold r) i st
                else withArgs st (resolveList ps top as, 0) fun st => rec (cfg.swap rs f cnt) (.hold r) i st)
              (if d.isLR = true then withArgs { st with insts := (intern st.insts (r, (resolveList ps top as).map instArg)).2 }
                  (resolveList ps top as, (intern st.insts (r, (resolveList ps top as).map instArg)).1)
                  fun st => rec cfg (.hold r) i st
                else withArgs st (resolveList ps top as, 0) fun st => rec cfg (.hold r) i st) := by
            intro ps
            have hin := resolveList_in ps top htop as has
            by_cases hl : d.isLR = true
            · rw [if_pos hl, if_pos hl]; exact withArgs_cg ih h hR i _ _ hin ha hr
            · rw [if_neg hl, if_neg hl]; exact withArgs_cg ih h hR i _ _ hin ha hr
          have he := h.erase cur
          cases hc : cfg.rules[cur]? with
          | none =>
            rw [hc] at he
            cases hc' : rs[cur]? with
            | none => exact Cg.ub _
            | some c' => rw [hc'] at he; cases he
          | some c =>
            rw [hc] at he
            cases hc' : rs[cur]? with
            | none => rw [hc'] at he; cases he
            | some c' =>
              rw [hc'] at he
              have hp : c'.params = c.params := by
                have := congrArg (Option.map Def.params) he
                simpa [Def.erase] using this
              dsimp only
              rw [hp]
              split
              · exact Cg.ub _
              · have := hmain c.params
                rw [hst, hs] at this; exact this
    · rw [if_neg hm, if_neg hm]
      have he : OpesIn R ([] : List Ope) := by intro u hu; cases hu
      by_cases hp : (!d.hasMacroRef && !d.isLR && cfg.packrat) = true
      · rw [if_pos hp, if_pos hp]; exact CgRec.hold ih h i st ha hR hr
      · rw [if_neg hp, if_neg hp]; exact withArgs_cg ih h hR i st ([], 0) he ha hr

theorem parseParam_cg (k i : Nat) (st : St V) {a : List (List Ope × Nat)}
    (ha : st.args = a) (hr : ArgsIn R a) : Cg (A a) (parseParam rec (cfg.swap rs f cnt) k i st) (parseParam rec cfg k i st) := by
  unfold parseParam
  cases hst : st.args with
  | nil => exact Cg.ub _
  | cons fr tl =>
    obtain ⟨top, inst⟩ := fr
    dsimp only
    have htop : OpesIn R top := hr (top, inst) (by rw [← ha, hst]; simp)
    cases hk : top[k]? with
    | none => exact Cg.ub _
    | some e => exact CgRec.ope ih h i st ha (fun u hu => htop u (mem_usesL (List.mem_of_getElem? hk) hu)) hr

omit ih in
theorem binopRule_cg (b : Ope) (r : Nat) (st : St V) : binopRule (cfg.swap rs f cnt) b r st = binopRule cfg b r st := by
  unfold binopRule
  have hm := h.field (·.isMacro) (fun _ => rfl) r
  show (match rs[r]? with | none => _ | some d => _) = _
  cases hc : cfg.rules[r]? with
  | none =>
    rw [hc] at hm
    cases hc' : rs[r]? with
    | none => rfl
    | some c' => rw [hc'] at hm; cases hm
  | some c =>
    rw [hc] at hm
    cases hc' : rs[r]? with
    | none => rw [hc'] at hm; cases hm
    | some c' =>
      rw [hc'] at hm
      have e : c'.isMacro = c.isMacro := by simpa using hm
      dsimp only
      rw [e]

theorem parsePrec_cg (x b : Ope) (hx : OpeIn R x) (hb : OpeIn R b) (info : List (List Byte × Nat × Byte)) (r mp i : Nat) (st : St V)
    {a : List (List Ope × Nat)} (ha : st.args = a) (hr : ArgsIn R a) :
    Cg (A a) (parsePrec rec (cfg.swap rs f cnt) x b info r mp i st) (parsePrec rec cfg x b info r mp i st) := by
  unfold parsePrec
  refine Cg.andThen (CgRec.ope ih h i st ha hx hr) rfl fun j s hs => ?_
  rw [binopRule_cg h]
  refine Cg.bind (p := fun _ => True) ⟨rfl, fun _ _ => trivial⟩ fun q _ => ?_
  refine Cg.after (a := a) ?_ fun s hs => hs
  exact CgRec.task ih h (.precLoop x b info r mp q i) j _ hs ⟨hx, hb⟩ hr

omit ih h in
theorem precReduce_args (r q j : Nat) (st : St V) : (precReduce cfg r q j st).args = st.args := by
  unfold precReduce
  split
  · exact callAction_args ..
  · rfl

theorem precRound_cg (x b : Ope) (hx : OpeIn R x) (hb : OpeIn R b) (info : List (List Byte × Nat × Byte)) (r mp q s0 i : Nat) (st : St V)
    {a : List (List Ope × Nat)} (ha : st.args = a) (hr : ArgsIn R a) :
    Cg (A a) (precRound rec (cfg.swap rs f cnt) x b info r mp q s0 i st) (precRound rec cfg x b info r mp q s0 i st) := by
  unfold precRound
  show Cg (A a) (if i < cfg.input.length then _ else _) _
  by_cases hi : i < cfg.input.length
  · rw [if_pos hi, if_pos hi]
    refine Cg.bind (p := A a) (CgRec.ope ih h i _ (a := a) ha hb hr) fun y hy => ?_
    dsimp only
    cases y.1 with
    | none => exact Cg.ok hy
    | some j =>
      dsimp only
      cases info.lookup ((y.2.precToks.head?.map (·.2)).getD []) with
      | none => exact Cg.ok hy
      | some la =>
        obtain ⟨level, assoc⟩ := la
        dsimp only
        split
        · exact Cg.ok hy
        · cases y.2.vs.vals with
          | nil => exact Cg.ub _
          | cons opv tl =>
            dsimp only
            refine Cg.bind (p := A a) (?_ : Cg (A a) _ _) fun z hz => ?_
            · exact CgRec.task ih h (.prec x b info r (if assoc = 76 then level + 1 else level)) j _ hy ⟨hx, hb⟩ hr
            · cases z.1 with
              | none => exact Cg.ok hz
              | some k =>
                dsimp only
                cases z.2.vs.vals with
                | nil => exact Cg.ub _
                | cons rv tl' =>
                  dsimp only
                  have e0 : ∀ st3 : St V, precReduce (cfg.swap rs f cnt) r s0 k st3 = precReduce cfg r s0 k st3 := fun _ => rfl
                  rw [e0]
                  exact CgRec.task ih h (.precLoop x b info r mp q s0) k _ ((precReduce_args ..).trans hz) ⟨hx, hb⟩ hr
  · rw [if_neg hi, if_neg hi]; exact Cg.ok ha

theorem parseRecov_cg {r : Nat} (hR : R r) (nm : List Byte) (as : List Ope) (has : OpesIn R as) (i : Nat) (st : St V)
    {a : List (List Ope × Nat)} (ha : st.args = a) (hr : ArgsIn R a) :
    Cg (A a) (parseRecov rec (cfg.swap rs f cnt) r nm as i st) (parseRecov rec cfg r nm as i st) := by
  unfold parseRecov
  dsimp only
  refine Cg.bind (p := fun s : St V => s.args = a) ?_ fun s hs => ?_
  · by_cases hl : st.logOn = true
    · rw [if_pos hl, if_pos hl]
      cases as with
      | nil => exact Cg.ub _
      | cons e es =>
        cases e with
        | ref l nm' bs =>
          show Cg _ (match rs[l]? with | none => _ | some ld => _) (match cfg.rules[l]? with | none => _ | some ld => _)
          have h1 := h.field (·.errorMessage) (fun _ => rfl) l
          have h2 := h.field (·.name) (fun _ => rfl) l
          cases hc : cfg.rules[l]? with
          | none =>
            rw [hc] at h1
            cases hc' : rs[l]? with
            | none => exact Cg.ub _
            | some c' => rw [hc'] at h1; cases h1
          | some c =>
            rw [hc] at h1 h2
            cases hc' : rs[l]? with
            | none => rw [hc'] at h1; cases h1
            | some c' =>
              rw [hc'] at h1 h2
              have e1 : c'.errorMessage = c.errorMessage := by simpa using h1
              have e2 : c'.name = c.name := by simpa using h2
              dsimp only
              rw [e1, e2]
              split
              · exact Cg.ok ha
              · exact Cg.ok ha
        | param k nm' => exact Cg.ub _
        | _ => exact Cg.ok ha
    · rw [if_neg hl, if_neg hl]; exact Cg.ok ha
  · refine Cg.bind (p := A a) (CgRec.ope ih h i _ (a := a) hs ?_ hr) fun x hx => ?_
    · intro u hu
      simp only [Ope.uses, List.mem_cons] at hu
      rcases hu with rfl | hu
      · exact hR
      · exact has u hu
    · have hx' : x.2.args = a := hx
      refine Cg.bind (p := fun s : St V => s.args = a) ?_ fun s2 hs2 => ?_
      · split
        · split
          · show Cg _ ((Err.output rs _).bind _) ((Err.output cfg.rules _).bind _)
            rw [output_cg h]
            exact Cg.bind (p := fun _ => True) ⟨rfl, fun _ _ => trivial⟩ fun o _ => Cg.ok hx'
          · exact Cg.ok hx'
        · exact Cg.ok hx'
      · refine Cg.ok ?_
        show (s2.setCut true).args = a
        unfold St.setCut; split <;> exact hs2

theorem parseOpe_cg (e : Ope) (he : OpeIn R e) (i : Nat) (st : St V) {a : List (List Ope × Nat)} (ha : st.args = a) (hr : ArgsIn R a) :
    Cg (A a) (parseOpe rec (cfg.swap rs f cnt) e i st) (parseOpe rec cfg e i st) := by
  unfold parseOpe
  show Cg (A a) (if cfg.input.length < i then _ else _) _
  by_cases hi : cfg.input.length < i
  · rw [if_pos hi, if_pos hi]; exact Cg.ub _
  · rw [if_neg hi, if_neg hi]
    have ht : ∀ m, Cg (A a) (terminal (cfg.swap rs f cnt) i st m) (terminal cfg i st m) := by
      intro m
      unfold terminal
      rw [setErr_cg h]
      cases m with
      | none => exact Cg.ok ((setErr_args ..).trans ha)
      | some k => exact Cg.ok ha
    cases e with
    | seq es kw => exact parseSeq_cg ih h es kw he i st ha hr
    | cho es l fs => exact parseCho_cg ih h es l fs he i st ha hr
    | rep e mn mx sp => exact parseRep_cg ih h e he mn mx sp i st ha hr
    | and_ e =>
      show Cg _ (parseAnd ..) (parseAnd ..)
      unfold parseAnd
      exact Cg.bind (p := A a) (CgRec.ope ih h i st ha he hr) fun x hx => Cg.ok hx
    | not_ e =>
      show Cg _ (parseNot ..) (parseNot ..)
      unfold parseNot
      refine Cg.bind (p := A a) (CgRec.ope ih h i st ha he hr) fun x hx => ?_
      cases x.1 with
      | none => exact Cg.ok hx
      | some j =>
        dsimp only
        rw [setErr_cg h]
        exact Cg.ok ((setErr_args ..).trans hx)
    | dict w ic => exact parseDict_cg ih h w ic i st ha hr
    | lit s ic => exact parseLiteral_cg ih h s ic (.lit s) i st ha hr
    | cls c => exact ht _
    | chr c => exact ht _
    | dot => exact ht _
    | capScope e =>
      show Cg _ (parseCapScope ..) (parseCapScope ..)
      exact Cg.after (CgRec.ope ih h i st ha he hr) fun s hs => hs
    | cap nm e =>
      show Cg _ (parseCap ..) (parseCap ..)
      exact Cg.andThen (CgRec.ope ih h i st ha he hr) rfl fun j s hs => Cg.ok hs
    | tok e => exact tokenBody_cg ih h e he i st ha hr
    | ign e =>
      show Cg _ (parseIgn ..) (parseIgn ..)
      unfold parseIgn inScope
      have he : OpeIn R e := he
      exact Cg.after (CgRec.ope ih h i _ (a := a) ha he hr) fun s hs => hs
    | usr id =>
      show Cg _ (parseUsr cfg id i st) (parseUsr cfg id i st)
      unfold parseUsr
      dsimp only
      cases (cfg.user id i st.vs st.dt).1 with
      | none => exact Cg.ok ha
      | some k =>
        dsimp only
        split
        · exact Cg.ok ha
        · exact Cg.ub _
    | weak r => exact CgRec.hold ih h i st ha (he r (by simp [Ope.uses])) hr
    | ref r nm as =>
      exact refer_cg ih h (he r (by simp [Ope.uses])) as (fun u hu => he u (by simp [Ope.uses, hu])) i st ha hr
    | param k nm => exact parseParam_cg ih h k i st ha hr
    | ws e =>
      show Cg _ (parseWs ..) (parseWs ..)
      unfold parseWs
      split
      · exact Cg.ok ha
      · exact Cg.after (CgRec.ope ih h i _ (a := a) ha he hr) fun s hs => hs
    | bref nm => exact parseBref_cg ih h nm i st ha hr
    | prec x b info r =>
      subst ha
      exact ih cfg rs f cnt (.prec x b info r 0) i st h
        ⟨fun u hu => he u (List.mem_append_left _ hu), fun u hu => he u (List.mem_append_right _ hu)⟩ hr
    | recov r nm as =>
      exact parseRecov_cg ih h (he r (by simp [Ope.uses])) nm as (fun u hu => he u (by simp [Ope.uses, hu])) i st ha hr
    | cut =>
      refine Cg.ok ?_
      show (st.setCut true).args = a
      unfold St.setCut; split <;> exact ha
    | null => exact Cg.ub _

end

theorem step_cg {R : Nat → Prop} {rec : Rec V} (ih : CgRec R rec) : CgRec R (step rec) := by
  intro cfg rs f cnt t i st h ht hr
  cases t with
  | ope e => exact parseOpe_cg ih h e ht i st rfl hr
  | rep e mx c => exact repRound_cg ih h e ht mx c i st rfl hr
  | hold r => exact holder_cg ih h ht i st rfl hr
  | grow r inst cyc j v => exact growRound_cg ih h ht inst cyc j v i st rfl hr
  | prec x b info r mp => exact parsePrec_cg ih h x b ht.1 ht.2 info r mp i st rfl hr
  | precLoop x b info r mp q s => exact precRound_cg ih h x b ht.1 ht.2 info r mp q s i st rfl hr

theorem run_cg (R : Nat → Prop) (n : Nat) : CgRec R (run (V := V) n) := by
  induction n with
  | zero => intro cfg rs f cnt t i st _ _ _; exact ⟨rfl, by intro r e; cases e⟩
  | succ n ih => exact step_cg ih

/-- A parse is not affected by changes to the numbers and flags of rules it cannot reach. -/
theorem parserParse_cg {R : Nat → Prop} {cfg : Cfg V} {rs : List Def} {f : Nat → Nat} {cnt : Nat} (h : Agree R cfg rs f cnt) {r : Nat} (hR : R r)
    (n : Nat) (eoi log : Bool) (dt : Option V) :
    parserParse n (cfg.swap rs f cnt) r eoi log dt = parserParse n cfg r eoi log dt := by
  have hcore : parseCore n (cfg.swap rs f cnt) r eoi { dt := dt, logOn := log } = parseCore n cfg r eoi { dt := dt, logOn := log } := by
    have hfin : ∀ i (st : St V), st.args = [([], 0)] → run n (cfg.swap rs f cnt) (.hold r) i st = run n cfg (.hold r) i st := by
      intro i st hs
      exact (run_cg R n cfg rs f cnt (.hold r) i st h hR (by rw [hs]; exact argsIn_empty (V := V) R)).1
    have hfin' : ∀ i (st : St V), st.args = [([], 0)] →
        ((run n (cfg.swap rs f cnt) (.hold r) i st).bind fun y => match y.1 with
          | none => .ok ⟨false, y.2.recovered, i, y.2⟩
          | some j => .ok (eoiCheck (cfg.swap rs f cnt) eoi j y.2)) =
        ((run n cfg (.hold r) i st).bind fun y => match y.1 with
          | none => .ok ⟨false, y.2.recovered, i, y.2⟩
          | some j => .ok (eoiCheck cfg eoi j y.2)) := by
      intro i st hs
      rw [hfin i st hs]
      rfl
    unfold parseCore
    cases hw : cfg.ws with
    | none =>
      simp only [hw]
      exact hfin' 0 { dt := dt, logOn := log } rfl
    | some w =>
      simp only [hw]
      have hc := run_cg R n cfg rs f cnt (.ope w) 0 { dt := dt, logOn := log } h (h.ws w hw) (argsIn_empty (V := V) R)
      rw [hc.1]
      cases hx : run n cfg (.ope w) 0 { dt := dt, logOn := log } with
      | ub s => rfl
      | oof => rfl
      | ok y =>
        have ha := hc.2 y hx
        obtain ⟨o, s⟩ := y
        cases o with
        | none => rfl
        | some i => exact hfin' i s ha
  unfold parserParse
  rw [hcore]
  have hpost : postProcess (cfg.swap rs f cnt) log = postProcess cfg log := by
    funext res
    unfold postProcess
    show (if (log && !res.ret) = true then (res.st.err.output rs).bind _ else _) = _
    rw [output_cg h]
  rw [hpost]

end Verif
