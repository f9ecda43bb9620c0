import Verif.EngineMono
import Verif.Props.CharClass
import Verif.Props.Trie
/-!
# Invariants of the engine

Every finished (sub)parse: the match stays inside the input, the stacks and flags of the `Context` are what they were,
captures and logs are only appended to, the memo tables stay sane.
-/

namespace Verif
open Out CharClass

variable {V : Type}

/-! ## Inversion lemmas -/

theorem andThen_ok {x : Out (Res V)} {f : Nat → St V → Out (Res V)} {r : Res V} :
    andThen x f = .ok r ↔
      (∃ st, x = .ok (none, st) ∧ r = (none, st)) ∨ (∃ j st, x = .ok (some j, st) ∧ f j st = .ok r) := by
  unfold andThen
  rw [bind_eq_ok]
  constructor
  · rintro ⟨⟨_ | j, st⟩, hx, hf⟩
    · left; exact ⟨st, hx, by simpa using hf.symm⟩
    · right; exact ⟨j, st, hx, hf⟩
  · rintro (⟨st, hx, rfl⟩ | ⟨j, st, hx, hf⟩)
    · exact ⟨_, hx, rfl⟩
    · exact ⟨_, hx, hf⟩

theorem after_ok {x : Out (Res V)} {f : St V → St V} {r : Res V} :
    after x f = .ok r ↔ ∃ a st, x = .ok (a, st) ∧ r = (a, f st) := by
  unfold after
  rw [bind_eq_ok]
  constructor
  · rintro ⟨⟨a, st⟩, hx, hf⟩; exact ⟨a, st, hx, by simpa using hf.symm⟩
  · rintro ⟨a, st, hx, rfl⟩; exact ⟨_, hx, rfl⟩

/-! ## The relations -/

/-- What a finished (sub)parse leaves as it found it, or only extends. -/
structure Keep (st st' : St V) : Prop where
  cutLen : st'.cut.length = st.cut.length
  cutTail : st'.cut.tail = st.cut.tail
  args : st'.args = st.args
  ruleStack : st'.ruleStack = st.ruleStack
  tokCount : st'.tokCount = st.tokCount
  inWs : st'.inWs = st.inWs
  logOn : st'.logOn = st.logOn
  active : st'.active = st.active
  precToks : st'.precToks.map (·.1) = st.precToks.map (·.1)
  caps : st.caps <+: st'.caps
  logs : st.logs <+: st'.logs
  insts : st.insts <+: st'.insts
  recovered : st.recovered = true → st'.recovered = true

theorem Keep.refl (st : St V) : Keep st st :=
  ⟨rfl, rfl, rfl, rfl, rfl, rfl, rfl, rfl, rfl, List.prefix_refl _, List.prefix_refl _, List.prefix_refl _, id⟩

theorem Keep.trans {a b c : St V} (h : Keep a b) (h' : Keep b c) : Keep a c :=
  ⟨h'.cutLen.trans h.cutLen, h'.cutTail.trans h.cutTail, h'.args.trans h.args, h'.ruleStack.trans h.ruleStack,
   h'.tokCount.trans h.tokCount, h'.inWs.trans h.inWs, h'.logOn.trans h.logOn, h'.active.trans h.active,
   h'.precToks.trans h.precToks, h.caps.trans h'.caps, h.logs.trans h'.logs, h.insts.trans h'.insts,
   fun x => h'.recovered (h.recovered x)⟩

def isLRRule (cfg : Cfg V) (r : Nat) : Prop := ∃ d, cfg.rules[r]? = some d ∧ d.isLR = true

/-- The memo numbering fits the tables: every memoised rule's slot is below the number of columns (true of the numbers
`initialize_definition_ids`/`initialize_packrat_filter` compute for this start rule). -/
def SlotsOk (cfg : Cfg V) : Prop :=
  cfg.packrat = true → ∀ r s, cfg.slot (cfg.defId r) = some s → s < cfg.cachedCount

/-- Sanity of the memo tables. -/
structure StOk (cfg : Cfg V) (st : St V) : Prop where
  memo : ∀ idx len v, st.memo idx = some (some (len, v)) → idx / cfg.cachedCount + len ≤ cfg.input.length
  lr : ∀ r inst p j v, ((r, inst, p), some (j, v)) ∈ st.lrMemo → p ≤ j ∧ j ≤ cfg.input.length
  act : ∀ k ∈ st.lrActive, (st.lrMemo.lookup k).isSome = true ∧ isLRRule cfg k.1

/-- Nothing the memo tables depend on has changed. -/
structure SameMemo (st st' : St V) : Prop where
  memo : st'.memo = st.memo
  lrMemo : st'.lrMemo = st.lrMemo
  lrActive : st'.lrActive = st.lrActive

theorem StOk.same {cfg : Cfg V} {st st' : St V} (h : StOk cfg st) (hs : SameMemo st st') : StOk cfg st' :=
  ⟨by rw [hs.memo]; exact h.memo, by rw [hs.lrMemo]; exact h.lr, by rw [hs.lrActive, hs.lrMemo]; exact h.act⟩

def inBounds (cfg : Cfg V) (i : Nat) (r : Option Nat) : Prop := ∀ j, r = some j → i ≤ j ∧ j ≤ cfg.input.length

/-- The lrActive list after a task: growing removes its own seed. -/
def activeAfter (t : Task V) (i : Nat) (l : List LRKey) : List LRKey :=
  match t with
  | .grow r inst _ _ _ => l.filter (· ≠ (r, inst, i))
  | _ => l

/-- Preconditions on a task. -/
def TaskPre (cfg : Cfg V) (t : Task V) (i : Nat) (_st : St V) : Prop :=
  match t with
  | .grow _ _ _ j _ => i ≤ j ∧ j ≤ cfg.input.length
  | _ => True

structure Post (cfg : Cfg V) (t : Task V) (i : Nat) (st : St V) (r : Res V) : Prop where
  ok : StOk cfg r.2
  keep : Keep st r.2
  act : r.2.lrActive = activeAfter t i st.lrActive
  bounds : inBounds cfg i r.1

/-- The engine satisfies its postcondition. -/
def Good (rec : Rec V) : Prop :=
  ∀ cfg t i st r, SlotsOk cfg → StOk cfg st → i ≤ cfg.input.length → TaskPre cfg t i st →
    rec cfg t i st = .ok r → Post cfg t i st r

/-- The postcondition without the task (everything but growing). -/
structure P (cfg : Cfg V) (i : Nat) (st : St V) (r : Res V) : Prop where
  ok : StOk cfg r.2
  keep : Keep st r.2
  act : r.2.lrActive = st.lrActive
  bounds : inBounds cfg i r.1

theorem P.fail {cfg : Cfg V} {i : Nat} {st st' : St V} (h : StOk cfg st') (k : Keep st st')
    (a : st'.lrActive = st.lrActive) : P cfg i st (none, st') := ⟨h, k, a, by intro j hj; cases hj⟩

theorem P.succ {cfg : Cfg V} {i j : Nat} {st st' : St V} (h : StOk cfg st') (k : Keep st st')
    (a : st'.lrActive = st.lrActive) (h1 : i ≤ j) (h2 : j ≤ cfg.input.length) : P cfg i st (some j, st') :=
  ⟨h, k, a, by intro j' hj; cases hj; exact ⟨h1, h2⟩⟩

theorem P.stay {cfg : Cfg V} {i : Nat} {st : St V} (h : StOk cfg st) (h2 : i ≤ cfg.input.length) :
    P cfg i st (some i, st) := P.succ h (Keep.refl _) rfl (Nat.le_refl _) h2

/-- Sequential composition. -/
theorem P.seq {cfg : Cfg V} {i j : Nat} {st st' : St V} {r : Res V} (h : P cfg i st (some j, st'))
    (h' : P cfg j st' r) : P cfg i st r :=
  ⟨h'.ok, h.keep.trans h'.keep, h'.act.trans h.act, fun k hk =>
    ⟨Nat.le_trans (h.bounds j rfl).1 (h'.bounds k hk).1, (h'.bounds k hk).2⟩⟩

theorem Good.ope {rec : Rec V} (h : Good rec) {cfg : Cfg V} {e : Ope} {i : Nat} {st : St V} {r : Res V}
    (hs : SlotsOk cfg) (ho : StOk cfg st) (hi : i ≤ cfg.input.length) (hr : rec cfg (.ope e) i st = .ok r) :
    P cfg i st r :=
  let p := h cfg (.ope e) i st r hs ho hi trivial hr
  ⟨p.ok, p.keep, p.act, p.bounds⟩

theorem Good.hold {rec : Rec V} (h : Good rec) {cfg : Cfg V} {e : Nat} {i : Nat} {st : St V} {r : Res V}
    (hs : SlotsOk cfg) (ho : StOk cfg st) (hi : i ≤ cfg.input.length) (hr : rec cfg (.hold e) i st = .ok r) :
    P cfg i st r :=
  let p := h cfg (.hold e) i st r hs ho hi trivial hr
  ⟨p.ok, p.keep, p.act, p.bounds⟩

/-! ## Small state changes -/

theorem resize_prefix {α : Type} {l l' : List α} (h : l <+: l') (d : α) : resize l' l.length d = l := by
  obtain ⟨t, rfl⟩ := h
  simp [resize]

theorem keep_setErr (cfg : Cfg V) (st : St V) (i : Nat) (l : Option ErrLit) : Keep st (setErr cfg st i l) := by
  unfold setErr; split
  · exact ⟨rfl, rfl, rfl, rfl, rfl, rfl, rfl, rfl, rfl, List.prefix_refl _, List.prefix_refl _, List.prefix_refl _, id⟩
  · exact Keep.refl _

theorem same_setErr (cfg : Cfg V) (st : St V) (i : Nat) (l : Option ErrLit) : SameMemo st (setErr cfg st i l) := by
  unfold setErr; split <;> exact ⟨rfl, rfl, rfl⟩

theorem keep_fsErr (st : St V) (fs : FirstSet) (id i : Nat) : Keep st (fsErr st fs id i) := by
  unfold fsErr; split
  · exact ⟨rfl, rfl, rfl, rfl, rfl, rfl, rfl, rfl, rfl, List.prefix_refl _, List.prefix_refl _, List.prefix_refl _,
      fun h => h⟩
  · exact Keep.refl _

theorem same_fsErr (st : St V) (fs : FirstSet) (id i : Nat) : SameMemo st (fsErr st fs id i) := by
  unfold fsErr; split <;> exact ⟨rfl, rfl, rfl⟩

theorem keep_setCut (st : St V) (b : Bool) : Keep st (st.setCut b) := by
  unfold St.setCut
  split
  · exact Keep.refl _
  · rename_i h
    exact ⟨by simp [h], by simp [h], rfl, rfl, rfl, rfl, rfl, rfl, rfl, List.prefix_refl _, List.prefix_refl _,
      List.prefix_refl _, id⟩

theorem same_setCut (st : St V) (b : Bool) : SameMemo st (st.setCut b) := by
  unfold St.setCut; split <;> exact ⟨rfl, rfl, rfl⟩

theorem keep_setKeep (st : St V) (b : Bool) : Keep st (st.setKeep b) :=
  ⟨rfl, rfl, rfl, rfl, rfl, rfl, rfl, rfl, rfl, List.prefix_refl _, List.prefix_refl _, List.prefix_refl _, id⟩

theorem same_setKeep (st : St V) (b : Bool) : SameMemo st (st.setKeep b) := ⟨rfl, rfl, rfl⟩

theorem keep_resetCut (cfg : Cfg V) (st : St V) : Keep st (resetCut cfg st) := by
  unfold resetCut; split
  · exact keep_setCut _ _
  · exact Keep.refl _

theorem same_resetCut (cfg : Cfg V) (st : St V) : SameMemo st (resetCut cfg st) := by
  unfold resetCut; split
  · exact same_setCut _ _
  · exact ⟨rfl, rfl, rfl⟩

theorem keep_rollback {st st' : St V} (h : Keep st st') : Keep st (st'.rollback st.snapshot) :=
  ⟨h.cutLen, h.cutTail, h.args, h.ruleStack, h.tokCount, h.inWs, h.logOn, h.active, h.precToks,
   by show st.caps <+: resize st'.caps st.caps.length _; rw [resize_prefix h.caps]; exact List.prefix_refl _,
   h.logs, h.insts, h.recovered⟩

theorem same_rollback (st : St V) (s : Snap) : SameMemo st (st.rollback s) := ⟨rfl, rfl, rfl⟩

theorem keep_vs (st : St V) (f : Frame V) : Keep st { st with vs := f } :=
  ⟨rfl, rfl, rfl, rfl, rfl, rfl, rfl, rfl, rfl, List.prefix_refl _, List.prefix_refl _, List.prefix_refl _, id⟩

theorem keep_vs_dt (st : St V) (f : Frame V) (d : Option V) : Keep st { st with vs := f, dt := d } :=
  ⟨rfl, rfl, rfl, rfl, rfl, rfl, rfl, rfl, rfl, List.prefix_refl _, List.prefix_refl _, List.prefix_refl _, id⟩

theorem keep_addToken (cfg : Cfg V) (t : Nat × Nat) (st : St V) : Keep st (addToken cfg t st) := by
  unfold addToken; split
  · exact Keep.refl _
  · exact keep_vs _ _

theorem same_addToken (cfg : Cfg V) (t : Nat × Nat) (st : St V) : SameMemo st (addToken cfg t st) := by
  unfold addToken; split <;> exact ⟨rfl, rfl, rfl⟩

/-- Changing the starting state by something that keeps it. -/
theorem P.pre {cfg : Cfg V} {i : Nat} {st st1 : St V} {r : Res V} (k : Keep st st1) (a : st1.lrActive = st.lrActive)
    (h : P cfg i st1 r) : P cfg i st r := ⟨h.ok, k.trans h.keep, h.act.trans a, h.bounds⟩

/-- Changing the final state by something that keeps it. -/
theorem P.post {cfg : Cfg V} {i : Nat} {st st1 : St V} {r : Option Nat} (h : P cfg i st (r, st1)) {st2 : St V}
    (k : Keep st1 st2) (s : SameMemo st1 st2) : P cfg i st (r, st2) :=
  ⟨h.ok.same s, h.keep.trans k, s.lrActive.trans h.act, h.bounds⟩

/-! ## Terminals -/

theorem rest_length (cfg : Cfg V) (i : Nat) : (cfg.rest i).length = cfg.input.length - i := by
  simp [Cfg.rest]

theorem terminal_P {cfg : Cfg V} {i : Nat} {st : St V} {m : Option Nat} {r : Res V} (ho : StOk cfg st)
    (hi : i ≤ cfg.input.length) (hm : ∀ k, m = some k → k ≤ (cfg.rest i).length)
    (h : terminal cfg i st m = .ok r) : P cfg i st r := by
  unfold terminal at h
  cases m with
  | none => cases h; exact P.fail (ho.same (same_setErr _ _ _ _)) (keep_setErr _ _ _ _) (same_setErr _ _ _ _).lrActive
  | some k =>
    cases h
    have := hm k rfl
    rw [rest_length] at this
    exact P.succ ho (Keep.refl _) rfl (by omega) (by omega)

theorem matchChar_le {c : Nat} {s : List Byte} {k : Nat} (h : matchChar c s = some k) : k ≤ s.length := by
  cases s with
  | nil => simp [matchChar] at h
  | cons b t =>
    unfold matchChar at h
    simp only at h
    split at h
    · cases h
    · cases h; rw [Utf8.decodeLen_eq_length]; exact Utf8.codepointLength_le _

theorem matchAny_le {s : List Byte} {k : Nat} (h : matchAny s = some k) : k ≤ s.length := by
  unfold matchAny at h
  simp only at h
  split at h
  · cases h
  · cases h; exact Utf8.codepointLength_le _

theorem litMatch_le {l : List Byte} {ic : Bool} {s : List Byte} (h : litMatch l ic s = true) : l.length ≤ s.length := by
  unfold litMatch at h
  split at h
  · have := (List.isPrefixOf_iff_prefix.mp h).length_le
    simpa [Trie.toLower] using this
  · exact (List.isPrefixOf_iff_prefix.mp h).length_le

theorem dict_le (ws : List (List Byte)) (ic : Bool) (s : List Byte) :
    ((Trie.build ws ic).matchText s).1 ≤ s.length := by
  by_cases h : ((Trie.build ws ic).matchText s).1 = 0
  · omega
  · exact (Props.C09_longest ws ic s _ _ rfl h).2.2

section
variable {rec : Rec V} (hg : Good rec)
include hg

theorem skipWs_P {cfg : Cfg V} {i : Nat} {st : St V} {r : Res V} (hs : SlotsOk cfg) (ho : StOk cfg st)
    (hi : i ≤ cfg.input.length) (h : skipWs rec cfg i st = .ok r) : P cfg i st r := by
  unfold skipWs at h
  split at h
  · cases h; exact P.stay ho hi
  · split at h
    · cases h; exact P.stay ho hi
    · exact hg.ope hs ho hi h

theorem fail_P {cfg : Cfg V} {i p : Nat} {st : St V} {l : Option ErrLit} (ho : StOk cfg st) :
    P cfg i st (none, setErr cfg st p l) :=
  P.fail (ho.same (same_setErr _ _ _ _)) (keep_setErr _ _ _ _) (same_setErr _ _ _ _).lrActive

theorem P.skip {cfg : Cfg V} {i j : Nat} {st st' : St V} {r : Res V} (hs : SlotsOk cfg)
    (h : P cfg i st (some j, st')) (h' : skipWs rec cfg j st' = .ok r) : P cfg i st r :=
  h.seq (skipWs_P hg hs h.ok (h.bounds j rfl).2 h')

theorem parseLiteral_P {cfg : Cfg V} {l : List Byte} {ic : Bool} {el : ErrLit} {i : Nat} {st : St V} {r : Res V}
    (hs : SlotsOk cfg) (ho : StOk cfg st) (hi : i ≤ cfg.input.length)
    (h : parseLiteral rec cfg l ic el i st = .ok r) : P cfg i st r := by
  unfold parseLiteral at h
  split at h
  · rename_i hm
    have hl := litMatch_le hm
    rw [rest_length] at hl
    have hp : P cfg i st (some (i + l.length), st) := P.succ ho (Keep.refl _) rfl (by omega) (by omega)
    split at h
    · exact P.skip hg hs hp h
    · rw [bind_eq_ok] at h
      obtain ⟨b, -, h⟩ := h
      cases b
      · exact P.skip hg hs hp h
      · simp only [if_true] at h
        rw [bind_eq_ok] at h
        obtain ⟨b, -, h⟩ := h
        cases b
        · cases h; exact fail_P hg ho
        · exact P.skip hg hs hp h
  · cases h; exact fail_P hg ho

theorem parseDict_P {cfg : Cfg V} {wl : List (List Byte)} {ic : Bool} {i : Nat} {st : St V} {r : Res V}
    (hs : SlotsOk cfg) (ho : StOk cfg st) (hi : i ≤ cfg.input.length)
    (h : parseDict rec cfg wl ic i st = .ok r) : P cfg i st r := by
  unfold parseDict at h
  have hl := dict_le wl ic (cfg.rest i)
  rw [rest_length] at hl
  by_cases hm : ((Trie.build wl ic).matchText (cfg.rest i)).1 = 0
  · simp only [hm, if_true] at h; cases h; exact fail_P hg ho
  · simp only [hm, if_false] at h
    have k1 : Keep st (st.setChoice wl.length ((Trie.build wl ic).matchText (cfg.rest i)).2) := keep_vs _ _
    have s1 : SameMemo st (st.setChoice wl.length ((Trie.build wl ic).matchText (cfg.rest i)).2) := ⟨rfl, rfl, rfl⟩
    generalize st.setChoice wl.length ((Trie.build wl ic).matchText (cfg.rest i)).2 = st1 at h k1 s1
    have ho' := ho.same s1
    refine P.pre k1 s1.lrActive ?_
    have hp : P cfg i st1 (some (i + ((Trie.build wl ic).matchText (cfg.rest i)).1), st1) :=
      P.succ ho' (Keep.refl _) rfl (by omega) (by omega)
    split at h
    · exact P.skip hg hs hp h
    · rw [bind_eq_ok] at h
      obtain ⟨b, -, h⟩ := h
      cases b
      · cases h; exact fail_P hg ho'
      · exact P.skip hg hs hp h

theorem parseBref_P {cfg : Cfg V} {nm : List Byte} {i : Nat} {st : St V} {r : Res V}
    (hs : SlotsOk cfg) (ho : StOk cfg st) (hi : i ≤ cfg.input.length)
    (h : parseBref rec cfg nm i st = .ok r) : P cfg i st r := by
  unfold parseBref at h
  split at h
  · exact parseLiteral_P hg hs ho hi h
  · cases h
    exact P.fail (ho.same ⟨rfl, rfl, rfl⟩) ⟨rfl, rfl, rfl, rfl, rfl, rfl, rfl, rfl, rfl, List.prefix_refl _,
      List.prefix_refl _, List.prefix_refl _, id⟩ rfl

/-- Running something with a state whose token counter is one higher. -/
theorem tokUp_P {cfg : Cfg V} {i : Nat} {st st1 : St V} {a : Option Nat}
    (h : P cfg i { st with tokCount := st.tokCount + 1 } (a, st1)) :
    P cfg i st (a, { st1 with tokCount := st1.tokCount - 1 }) := by
  refine ⟨h.ok.same ⟨rfl, rfl, rfl⟩, ?_, h.act, h.bounds⟩
  have k := h.keep
  exact ⟨k.cutLen, k.cutTail, k.args, k.ruleStack, by show st1.tokCount - 1 = _; rw [k.tokCount]; simp, k.inWs, k.logOn,
    k.active, k.precToks, k.caps, k.logs, k.insts, k.recovered⟩

theorem tokenBody_P {cfg : Cfg V} {e : Ope} {i : Nat} {st : St V} {r : Res V}
    (hs : SlotsOk cfg) (ho : StOk cfg st) (hi : i ≤ cfg.input.length)
    (h : tokenBody rec cfg e i st = .ok r) : P cfg i st r := by
  unfold tokenBody at h
  rw [andThen_ok] at h
  rcases h with ⟨st1, h, rfl⟩ | ⟨j, st1, h, h2⟩
  · rw [after_ok] at h
    obtain ⟨a, st2, h, he⟩ := h
    cases he
    exact tokUp_P hg (hg.ope hs (ho.same ⟨rfl, rfl, rfl⟩) hi h)
  · rw [after_ok] at h
    obtain ⟨a, st2, h, he⟩ := h
    cases he
    have p := tokUp_P hg (hg.ope hs (ho.same ⟨rfl, rfl, rfl⟩) hi h)
    exact P.skip hg hs (p.post (keep_addToken _ _ _) (same_addToken _ _ _)) h2

/-! ## Composite operators -/

theorem seqLoop_P {cfg : Cfg V} {es : List Ope} {i : Nat} {st : St V} {r : Res V}
    (hs : SlotsOk cfg) (ho : StOk cfg st) (hi : i ≤ cfg.input.length)
    (h : seqLoop rec cfg es i st = .ok r) : P cfg i st r := by
  induction es generalizing i st with
  | nil => cases h; exact P.stay ho hi
  | cons e es ih =>
    unfold seqLoop at h
    rw [andThen_ok] at h
    rcases h with ⟨st1, h, rfl⟩ | ⟨j, st1, h, h2⟩
    · exact hg.ope hs ho hi h
    · have p := hg.ope hs ho hi h
      exact p.seq (ih p.ok (p.bounds j rfl).2 h2)

theorem kwScan_le {kw : KwGuard} {s : List Byte} {k : Nat} (h : kwScan kw s = some k) : k ≤ s.length := by
  unfold kwScan at h
  split at h
  · cases h
  · split at h
    · cases h
      rename_i b t _
      have := (List.takeWhile_prefix (l := t) (fun x => decide (x ∈ kw.rest))).length_le
      simp only [List.length_cons]; omega
    · cases h

theorem parseSeq_P {cfg : Cfg V} {es : List Ope} {kw : Option KwGuard} {i : Nat} {st : St V} {r : Res V}
    (hs : SlotsOk cfg) (ho : StOk cfg st) (hi : i ≤ cfg.input.length)
    (h : parseSeq rec cfg es kw i st = .ok r) : P cfg i st r := by
  unfold parseSeq at h
  cases kw with
  | none => exact seqLoop_P hg hs ho hi h
  | some k =>
    simp only [Option.bind_some, kwGuarded] at h
    cases hk : kwScan k (cfg.rest i) with
    | none => rw [hk] at h; cases h; exact fail_P hg ho
    | some n =>
      have hn := kwScan_le hg hk
      rw [rest_length] at hn
      rw [hk] at h
      dsimp only at h
      by_cases h1 : (k.minLen ≤ n ∧ n ≤ k.maxLen) ∧ Trie.toLower ((cfg.rest i).take n) ∈ k.exact
      · simp only [if_pos h1] at h; cases h; exact fail_P hg ho
      · simp only [if_neg h1] at h
        by_cases h2 : (k.minLen ≤ n ∧ n ≤ k.maxLen) ∧ Trie.toLower ((cfg.rest i).take n) ∈ k.pref
        · simp only [if_pos h2] at h; exact seqLoop_P hg hs ho hi h
        · simp only [if_neg h2] at h
          exact P.skip hg hs ((P.succ (i := i) (j := i + n) ho (Keep.refl _) rfl (by omega) (by omega)).post
            (keep_addToken _ _ _) (same_addToken _ _ _)) h

theorem choLoop_P {cfg : Cfg V} {total : Nat} {fs : List FirstSet} {es : List Ope} {id i : Nat} {st : St V} {r : Res V}
    (hs : SlotsOk cfg) (ho : StOk cfg st) (hi : i ≤ cfg.input.length)
    (h : choLoop rec cfg total fs es id i st = .ok r) : P cfg i st r := by
  induction es generalizing id st with
  | nil => cases h; exact P.fail ho (Keep.refl _) rfl
  | cons e es ih =>
    unfold choLoop at h
    by_cases hsk : fsSkip fs[id]? (cfg.rest i) = true
    · simp only [hsk, if_true] at h
      exact P.pre (keep_fsErr _ _ _ _) (same_fsErr _ _ _ _).lrActive (ih (ho.same (same_fsErr _ _ _ _)) h)
    · simp only [hsk] at h
      simp only [Bool.false_eq_true, if_false] at h
      rw [bind_eq_ok] at h
      obtain ⟨⟨a, st1⟩, h1, h⟩ := h
      have p1 := hg.ope hs ((ho.same (same_resetCut cfg st)).same (same_setKeep _ _)) hi h1
      have p : P cfg i st (a, st1) := P.pre ((keep_resetCut cfg st).trans (keep_setKeep _ (decide (id > 0))))
        (same_resetCut cfg st).lrActive p1
      cases a with
      | some j => cases h; exact p.post (keep_vs _ _) ⟨rfl, rfl, rfl⟩
      | none =>
        dsimp only at h
        have p2 : P cfg i st (none, st1.rollback st.snapshot) :=
          P.fail (p.ok.same (same_rollback _ _)) (keep_rollback p.keep) p.act
        split at h
        · cases h; exact p2
        · exact P.pre p2.keep p2.act (ih p2.ok h)

theorem parseCho_P {cfg : Cfg V} {es : List Ope} {l : Bool} {fs : List FirstSet} {i : Nat} {st : St V} {r : Res V}
    (hs : SlotsOk cfg) (ho : StOk cfg st) (hi : i ≤ cfg.input.length)
    (h : parseCho rec cfg es l fs i st = .ok r) : P cfg i st r := by
  unfold parseCho at h
  rw [after_ok] at h
  obtain ⟨a, st1, h, rfl⟩ := h
  cases ht : (cfg.hasCut && !l) with
  | false =>
    simp only [ht, pushCut] at h
    simp only [choExit, Bool.false_eq_true, if_false]
    exact (choLoop_P hg hs ho hi h).post (keep_setKeep _ _) (same_setKeep _ _)
  | true =>
    simp only [ht, pushCut, if_true] at h
    simp only [choExit, if_true]
    have p := choLoop_P (st := { st with cut := false :: st.cut }) hg hs (ho.same ⟨rfl, rfl, rfl⟩) hi h
    have k := p.keep
    refine ⟨p.ok.same ⟨rfl, rfl, rfl⟩, ⟨?_, ?_, k.args, k.ruleStack, k.tokCount, k.inWs, k.logOn, k.active, k.precToks,
      k.caps, k.logs, k.insts, k.recovered⟩, p.act, p.bounds⟩
    · have := k.cutTail; simp only [List.tail_cons] at this
      show st1.cut.tail.length = _; rw [this]
    · have := k.cutTail; simp only [List.tail_cons] at this
      show st1.cut.tail.tail = _; rw [this]

theorem repMin_P {cfg : Cfg V} {e : Ope} {n i : Nat} {st : St V} {r : Res V}
    (hs : SlotsOk cfg) (ho : StOk cfg st) (hi : i ≤ cfg.input.length)
    (h : repMin rec cfg e n i st = .ok r) : P cfg i st r := by
  induction n generalizing i st with
  | zero => cases h; exact P.stay ho hi
  | succ n ih =>
    unfold repMin at h
    rw [andThen_ok] at h
    rcases h with ⟨st1, h, rfl⟩ | ⟨j, st1, h, h2⟩
    · exact hg.ope hs ho hi h
    · have p := hg.ope hs ho hi h
      exact p.seq (ih p.ok (p.bounds j rfl).2 h2)

theorem repRound_P {cfg : Cfg V} {e : Ope} {mx : Option Nat} {c i : Nat} {st : St V} {r : Res V}
    (hs : SlotsOk cfg) (ho : StOk cfg st) (hi : i ≤ cfg.input.length)
    (h : repRound rec cfg e mx c i st = .ok r) : P cfg i st r := by
  unfold repRound at h
  split at h
  · rw [bind_eq_ok] at h
    obtain ⟨⟨a, st1⟩, h1, h⟩ := h
    have p := hg.ope hs ho hi h1
    cases a with
    | none =>
      cases h
      exact P.succ (p.ok.same (same_rollback _ _)) (keep_rollback p.keep) p.act (Nat.le_refl _) hi
    | some j =>
      have q := hg cfg (.rep e mx (c + 1)) j st1 r hs p.ok (p.bounds j rfl).2 trivial h
      exact p.seq ⟨q.ok, q.keep, q.act, q.bounds⟩
  · cases h; exact P.stay ho hi

theorem parseRep_P {cfg : Cfg V} {e : Ope} {mn : Nat} {mx : Option Nat} {sp : Option Cls} {i : Nat} {st : St V}
    {r : Res V} (hs : SlotsOk cfg) (ho : StOk cfg st) (hi : i ≤ cfg.input.length)
    (h : parseRep rec cfg e mn mx sp i st = .ok r) : P cfg i st r := by
  unfold parseRep at h
  cases sp with
  | some c =>
    simp only at h
    have key : ∀ k, k ≤ (cfg.rest i).length →
        (if k < mn then (.ok (none, setErr cfg st (i + k)) : Out (Res V)) else .ok (some (i + k), st)) = .ok r →
        P cfg i st r := by
      intro k hk h
      rw [rest_length] at hk
      split at h
      · cases h; exact fail_P hg ho
      · cases h; exact P.succ ho (Keep.refl _) rfl (by omega) (by omega)
    cases mx with
    | none => exact key _ (List.takeWhile_prefix _).length_le h
    | some m =>
      exact key _ (Nat.le_trans (List.takeWhile_prefix _).length_le (by simp; omega)) h
  | none =>
    simp only at h
    rw [andThen_ok] at h
    rcases h with ⟨st1, h, rfl⟩ | ⟨j, st1, h, h2⟩
    · exact repMin_P hg hs ho hi h
    · have p := repMin_P hg hs ho hi h
      have q := hg cfg (.rep e mx mn) j st1 r hs p.ok (p.bounds j rfl).2 trivial h2
      exact p.seq ⟨q.ok, q.keep, q.act, q.bounds⟩

theorem parseAnd_P {cfg : Cfg V} {e : Ope} {i : Nat} {st : St V} {r : Res V}
    (hs : SlotsOk cfg) (ho : StOk cfg st) (hi : i ≤ cfg.input.length)
    (h : parseAnd rec cfg e i st = .ok r) : P cfg i st r := by
  unfold parseAnd at h
  rw [bind_eq_ok] at h
  obtain ⟨⟨a, st1⟩, h1, h⟩ := h
  have p := hg.ope hs ho hi h1
  cases h
  cases a with
  | none => exact P.fail (p.ok.same (same_rollback _ _)) (keep_rollback p.keep) p.act
  | some j => exact P.succ (p.ok.same (same_rollback _ _)) (keep_rollback p.keep) p.act (Nat.le_refl _) hi

theorem parseNot_P {cfg : Cfg V} {e : Ope} {i : Nat} {st : St V} {r : Res V}
    (hs : SlotsOk cfg) (ho : StOk cfg st) (hi : i ≤ cfg.input.length)
    (h : parseNot rec cfg e i st = .ok r) : P cfg i st r := by
  unfold parseNot at h
  rw [bind_eq_ok] at h
  obtain ⟨⟨a, st1⟩, h1, h⟩ := h
  have p := hg.ope hs ho hi h1
  cases a with
  | none =>
    cases h
    exact P.succ (p.ok.same (same_rollback _ _)) (keep_rollback p.keep) p.act (Nat.le_refl _) hi
  | some j =>
    cases h
    exact (P.fail (p.ok.same (same_rollback _ _)) (keep_rollback p.keep) p.act).post (keep_setErr _ _ _ _)
      (same_setErr _ _ _ _)

theorem parseCapScope_P {cfg : Cfg V} {e : Ope} {i : Nat} {st : St V} {r : Res V}
    (hs : SlotsOk cfg) (ho : StOk cfg st) (hi : i ≤ cfg.input.length)
    (h : parseCapScope rec cfg e i st = .ok r) : P cfg i st r := by
  unfold parseCapScope at h
  rw [after_ok] at h
  obtain ⟨a, st1, h, rfl⟩ := h
  have p := hg.ope hs ho hi h
  have k := p.keep
  exact ⟨p.ok.same ⟨rfl, rfl, rfl⟩, ⟨k.cutLen, k.cutTail, k.args, k.ruleStack, k.tokCount, k.inWs, k.logOn, k.active,
    k.precToks, by
      show st.caps <+: resize st1.caps st.caps.length _
      rw [resize_prefix k.caps]; exact List.prefix_refl _, k.logs, k.insts, k.recovered⟩, p.act, p.bounds⟩

theorem parseCap_P {cfg : Cfg V} {nm : List Byte} {e : Ope} {i : Nat} {st : St V} {r : Res V}
    (hs : SlotsOk cfg) (ho : StOk cfg st) (hi : i ≤ cfg.input.length)
    (h : parseCap rec cfg nm e i st = .ok r) : P cfg i st r := by
  unfold parseCap at h
  rw [andThen_ok] at h
  rcases h with ⟨st1, h, rfl⟩ | ⟨j, st1, h, h2⟩
  · exact hg.ope hs ho hi h
  · have p := hg.ope hs ho hi h
    cases h2
    exact p.post ⟨rfl, rfl, rfl, rfl, rfl, rfl, rfl, rfl, rfl, List.prefix_append _ _, List.prefix_refl _,
      List.prefix_refl _, id⟩ ⟨rfl, rfl, rfl⟩

/-- Running in another scope and coming back. -/
theorem scope_P {cfg : Cfg V} {i : Nat} {st st1 : St V} {a : Option Nat} {f : Frame V} {d : Option V}
    (h : P cfg i { st with vs := f, dt := d } (a, st1)) (g : Frame V) (d' : Option V) :
    P cfg i st (a, { st1 with vs := g, dt := d' }) :=
  (P.pre (keep_vs_dt st f d) rfl h).post (keep_vs_dt _ _ _) ⟨rfl, rfl, rfl⟩

theorem parseIgn_P {cfg : Cfg V} {e : Ope} {i : Nat} {st : St V} {r : Res V}
    (hs : SlotsOk cfg) (ho : StOk cfg st) (hi : i ≤ cfg.input.length)
    (h : parseIgn rec cfg e i st = .ok r) : P cfg i st r := by
  unfold parseIgn inScope at h
  rw [after_ok] at h
  obtain ⟨a, st1, h, rfl⟩ := h
  exact (P.pre (keep_vs st {}) rfl (hg.ope hs (ho.same ⟨rfl, rfl, rfl⟩) hi h)).post (keep_vs _ _) ⟨rfl, rfl, rfl⟩

theorem parseUsr_P {cfg : Cfg V} {n i : Nat} {st : St V} {r : Res V} (ho : StOk cfg st)
    (h : parseUsr cfg n i st = .ok r) : P cfg i st r := by
  unfold parseUsr at h
  simp only at h
  split at h
  · cases h
    exact P.fail (ho.same ⟨rfl, rfl, rfl⟩) (keep_vs_dt _ _ _) rfl
  · split at h
    · cases h
      exact P.succ (ho.same ⟨rfl, rfl, rfl⟩) (keep_vs_dt _ _ _) rfl (by omega) (by omega)
    · cases h

theorem parseWs_P {cfg : Cfg V} {e : Ope} {i : Nat} {st : St V} {r : Res V}
    (hs : SlotsOk cfg) (ho : StOk cfg st) (hi : i ≤ cfg.input.length)
    (h : parseWs rec cfg e i st = .ok r) : P cfg i st r := by
  unfold parseWs at h
  split at h
  · cases h; exact P.stay ho hi
  · rename_i hw
    rw [after_ok] at h
    obtain ⟨a, st1, h, rfl⟩ := h
    have p := hg.ope (st := { st with inWs := true }) hs (ho.same ⟨rfl, rfl, rfl⟩) hi h
    have k := p.keep
    refine ⟨p.ok.same ⟨rfl, rfl, rfl⟩, ⟨k.cutLen, k.cutTail, k.args, k.ruleStack, k.tokCount, ?_, k.logOn, k.active,
      k.precToks, k.caps, k.logs, k.insts, k.recovered⟩, p.act, p.bounds⟩
    simp at hw; exact hw.symm

/-! ## Rules -/

theorem keep_pushRule_back {st st1 : St V} {b : Bool} {r : Nat} (h : Keep (pushRule b r st) st1) :
    Keep st (popRule b st1) := by
  cases b with
  | false => exact h
  | true =>
    exact ⟨h.cutLen, h.cutTail, h.args, by show st1.ruleStack.tail = _; rw [h.ruleStack]; rfl, h.tokCount, h.inWs, h.logOn,
      h.active, h.precToks, h.caps, h.logs, h.insts, h.recovered⟩

theorem same_pushRule (b : Bool) (r : Nat) (st : St V) : SameMemo st (pushRule b r st) := by
  cases b <;> exact ⟨rfl, rfl, rfl⟩

theorem same_popRule (b : Bool) (st : St V) : SameMemo st (popRule b st) := by
  cases b <;> exact ⟨rfl, rfl, rfl⟩

theorem P.popRule {cfg : Cfg V} {i : Nat} {st st1 : St V} {a : Option Nat} {b : Bool} {r : Nat}
    (h : P cfg i (pushRule b r st) (a, st1)) : P cfg i st (a, Verif.popRule b st1) :=
  ⟨h.ok.same (same_popRule hg _ _), keep_pushRule_back hg h.keep,
   ((same_popRule hg b st1).lrActive.trans h.act).trans (same_pushRule hg b r st).lrActive, h.bounds⟩

theorem opeBody_P {cfg : Cfg V} {q : Nat} {d : Def} {i : Nat} {st : St V} {r : Res V}
    (hs : SlotsOk cfg) (ho : StOk cfg st) (hi : i ≤ cfg.input.length)
    (h : opeBody rec cfg q d i st = .ok r) : P cfg i st r := by
  unfold opeBody at h
  rw [after_ok] at h
  obtain ⟨a, st1, h, rfl⟩ := h
  refine P.popRule hg (r := q) ?_
  have ho' := ho.same (same_pushRule hg (cfg.needsRuleStack || d.hasMacroRef) q st)
  split at h
  · have e : (pushRule (cfg.needsRuleStack || d.hasMacroRef) q st).tokCount = st.tokCount := by
      unfold pushRule; split <;> rfl
    rw [← e] at h
    rw [andThen_ok] at h
    rcases h with ⟨st2, h, he⟩ | ⟨j, st2, h, h2⟩
    · cases he
      rw [after_ok] at h
      obtain ⟨a, st3, h, he⟩ := h
      cases he
      exact tokUp_P hg (hg.ope hs (ho'.same ⟨rfl, rfl, rfl⟩) hi h)
    · rw [after_ok] at h
      obtain ⟨a, st3, h, he⟩ := h
      cases he
      exact P.skip hg hs (tokUp_P hg (hg.ope hs (ho'.same ⟨rfl, rfl, rfl⟩) hi h)) h2
  · exact hg.ope hs ho' hi h

theorem keep_callAction (cfg : Cfg V) (r : Nat) (f : Frame V) (pd : Option V) (st : St V) :
    Keep st (callAction cfg r f pd st).2 ∧ SameMemo st (callAction cfg r f pd st).2 := by
  have e : (st.precToks.map fun e => if e.1 = r then (e.1, f.token cfg.input) else e).map (·.1)
      = st.precToks.map (·.1) := by
    rw [List.map_map]; apply List.map_congr_left; intro x _; simp only [Function.comp_apply]; split <;> rfl
  unfold callAction
  cases cfg.action r with
  | none => exact ⟨⟨rfl, rfl, rfl, rfl, rfl, rfl, rfl, rfl, e, List.prefix_refl _, List.prefix_refl _,
      List.prefix_refl _, id⟩, ⟨rfl, rfl, rfl⟩⟩
  | some a => exact ⟨⟨rfl, rfl, rfl, rfl, rfl, rfl, rfl, rfl, e, List.prefix_refl _, List.prefix_refl _,
      List.prefix_refl _, id⟩, ⟨rfl, rfl, rfl⟩⟩

theorem keep_reduce (cfg : Cfg V) (r : Nat) (d : Def) (f : Frame V) (pd : Option V) (st : St V) :
    Keep st (reduce cfg r d f pd st).2 ∧ SameMemo st (reduce cfg r d f pd st).2 := by
  unfold reduce
  split
  · exact keep_callAction hg _ _ _ _ _
  · exact ⟨Keep.refl _, ⟨rfl, rfl, rfl⟩⟩

omit hg in
theorem SameMemo.trans' {a b c : St V} (h : SameMemo a b) (h' : SameMemo b c) : SameMemo a c :=
  ⟨h'.memo.trans h.memo, h'.lrMemo.trans h.lrMemo, h'.lrActive.trans h.lrActive⟩

theorem keep_err (st : St V) (e : Err) : Keep st { st with err := e } ∧ SameMemo st { st with err := e } :=
  ⟨⟨rfl, rfl, rfl, rfl, rfl, rfl, rfl, rfl, rfl, List.prefix_refl _, List.prefix_refl _, List.prefix_refl _, id⟩,
    ⟨rfl, rfl, rfl⟩⟩

/-- `finishRule` keeps everything and only turns a success into a failure. -/
theorem keep_finishRule (cfg : Cfg V) (r : Nat) (d : Def) (i : Nat) (x : Option Nat) (st : St V) :
    (Keep st (finishRule cfg r d i x st).2.2 ∧ SameMemo st (finishRule cfg r d i x st).2.2) ∧
      ((finishRule cfg r d i x st).1 = x ∨ (finishRule cfg r d i x st).1 = none) := by
  unfold finishRule
  cases x with
  | none =>
    refine ⟨?_, Or.inr rfl⟩
    dsimp only
    split
    · exact keep_err hg _ _
    · exact ⟨Keep.refl _, ⟨rfl, rfl, rfl⟩⟩
  | some j =>
    dsimp only
    have kv := keep_vs st (finishFrame r d i j st.vs)
    have sv : SameMemo st { st with vs := finishFrame r d i j st.vs } := ⟨rfl, rfl, rfl⟩
    cases cfg.predicate r with
    | none =>
      dsimp only
      split
      · exact ⟨⟨kv, sv⟩, Or.inl rfl⟩
      · have k := keep_reduce hg cfg r d (finishFrame r d i j st.vs) none { st with vs := finishFrame r d i j st.vs }
        exact ⟨⟨kv.trans k.1, SameMemo.trans' sv k.2⟩, Or.inl rfl⟩
    | some p =>
      dsimp only
      split
      · split
        · exact ⟨⟨kv, sv⟩, Or.inl rfl⟩
        · have k := keep_reduce hg cfg r d (finishFrame r d i j st.vs) (p (finishFrame r d i j st.vs) st.dt).2.2
            { st with vs := finishFrame r d i j st.vs }
          exact ⟨⟨kv.trans k.1, SameMemo.trans' sv k.2⟩, Or.inl rfl⟩
      · refine ⟨?_, Or.inr rfl⟩
        split
        · have k := keep_err hg { st with vs := finishFrame r d i j st.vs }
            (st.err.note ⟨i, (p (finishFrame r d i j st.vs) st.dt).2.1, some d.name, false⟩)
          exact ⟨kv.trans k.1, SameMemo.trans' sv k.2⟩
        · exact ⟨kv, sv⟩

theorem doParse_P {cfg : Cfg V} {q : Nat} {d : Def} {i : Nat} {st : St V} {r : VRes V}
    (hs : SlotsOk cfg) (ho : StOk cfg st) (hi : i ≤ cfg.input.length)
    (h : doParse rec cfg q d i st = .ok r) : P cfg i st (r.1, r.2.2) := by
  unfold doParse at h
  simp only at h
  rw [bind_eq_ok] at h
  obtain ⟨⟨x, st1⟩, h1, h⟩ := h
  obtain ⟨dd, hd⟩ : ∃ dd : Option V, callEnter cfg q i st = { st with dt := dd } := by
    unfold callEnter
    cases cfg.enter q with
    | none => exact ⟨st.dt, rfl⟩
    | some f => exact ⟨f i st.dt, rfl⟩
  rw [hd] at h1
  have p := opeBody_P (st := { st with dt := dd, vs := {} }) hg hs (ho.same ⟨rfl, rfl, rfl⟩) hi h1
  have p : P cfg i st (x, st1) := P.pre (keep_vs_dt st {} dd) rfl p
  obtain ⟨⟨k1, k2⟩, k3⟩ := keep_finishRule hg cfg q d i x st1
  have p2 : P cfg i st ((finishRule cfg q d i x st1).1, (finishRule cfg q d i x st1).2.2) := by
    have := p.post k1 k2
    rcases k3 with e | e
    · rw [e]; exact this
    · rw [e]; exact P.fail this.ok this.keep this.act
  cases hl : cfg.leave q with
  | none =>
    rw [hl] at h; cases h
    exact p2.post (keep_vs _ _) ⟨rfl, rfl, rfl⟩
  | some f =>
    rw [hl] at h; cases h
    exact p2.post (keep_vs_dt _ _ _) ⟨rfl, rfl, rfl⟩

/-! ## Memo tables -/

omit hg in
theorem memoIdx_div {cfg : Cfg V} {s i : Nat} (h : s < cfg.cachedCount) : cfg.memoIdx s i / cfg.cachedCount = i := by
  unfold Cfg.memoIdx
  rw [Nat.mul_add_div (by omega), Nat.div_eq_of_lt h]; rfl

omit hg in
theorem keep_writeMemo (cfg : Cfg V) (q i j : Nat) (v : Option V) (st : St V) : Keep st (writeMemo cfg q i j v st) := by
  have : ∃ m, writeMemo cfg q i j v st = { st with memo := m } := by
    unfold writeMemo
    split
    · split
      · split
        · split <;> exact ⟨_, rfl⟩
        · exact ⟨st.memo, rfl⟩
      · exact ⟨st.memo, rfl⟩
    · exact ⟨st.memo, rfl⟩
  obtain ⟨m, e⟩ := this
  rw [e]
  exact ⟨rfl, rfl, rfl, rfl, rfl, rfl, rfl, rfl, rfl, List.prefix_refl _, List.prefix_refl _, List.prefix_refl _, id⟩

omit hg in
theorem writeMemo_rest (cfg : Cfg V) (q i j : Nat) (v : Option V) (st : St V) :
    (writeMemo cfg q i j v st).lrMemo = st.lrMemo ∧ (writeMemo cfg q i j v st).lrActive = st.lrActive := by
  unfold writeMemo
  split
  · split
    · split
      · split <;> exact ⟨rfl, rfl⟩
      · exact ⟨rfl, rfl⟩
    · exact ⟨rfl, rfl⟩
  · exact ⟨rfl, rfl⟩

omit hg in
theorem StOk.fset {cfg : Cfg V} {st : St V} (h : StOk cfg st) (idx : Nat) (e : Option (Option (Nat × Option V)))
    (he : ∀ len v, e = some (some (len, v)) → idx / cfg.cachedCount + len ≤ cfg.input.length) :
    StOk cfg { st with memo := Verif.fset st.memo idx e } := by
  refine ⟨?_, h.lr, h.act⟩
  intro k len v hk
  simp only [Verif.fset] at hk
  split at hk
  · rename_i hx; subst hx; exact he len v hk
  · exact h.memo k len v hk

omit hg in
theorem ok_writeMemo {cfg : Cfg V} {q i j : Nat} {v : Option V} {st : St V} (hs : SlotsOk cfg) (h : StOk cfg st)
    (h1 : i ≤ j) (h2 : j ≤ cfg.input.length) : StOk cfg (writeMemo cfg q i j v st) := by
  unfold writeMemo
  split
  · rename_i hp
    split
    · rename_i s hsl
      split
      · split
        · apply h.fset
          intro len v' e
          cases e
          rw [memoIdx_div (hs hp q s hsl)]; omega
        · apply h.fset
          intro len v' e; cases e
      · exact h
    · exact h
  · exact h

omit hg in
theorem keep_clearMemo (cfg : Cfg V) (q i : Nat) (st : St V) :
    Keep st (clearMemo cfg q i st) ∧ (clearMemo cfg q i st).lrActive = st.lrActive ∧
      (StOk cfg st → StOk cfg (clearMemo cfg q i st)) := by
  unfold clearMemo
  split
  · split
    · refine ⟨⟨rfl, rfl, rfl, rfl, rfl, rfl, rfl, rfl, rfl, List.prefix_refl _, List.prefix_refl _, List.prefix_refl _, id⟩,
        rfl, fun h => h.fset _ _ ?_⟩
      intro len v' e; cases e
    · exact ⟨Keep.refl _, rfl, id⟩
  · exact ⟨Keep.refl _, rfl, id⟩

omit hg in
theorem lookup_filter_ne {α β : Type} [BEq α] [LawfulBEq α] (l : List (α × β)) (p : α × β → Bool) (k : α)
    (h : ∀ e ∈ l, e.1 = k → p e = true) : (l.filter p).lookup k = l.lookup k := by
  induction l with
  | nil => rfl
  | cons e l ih =>
    have ih := ih fun e he => h e (List.mem_cons_of_mem _ he)
    by_cases hk : k = e.1
    · have hp := h e List.mem_cons_self hk.symm
      rw [List.filter_cons_of_pos hp]
      obtain ⟨a, b⟩ := e
      simp only at hk; subst hk
      simp
    · have hk' : (k == e.1) = false := by simpa using hk
      obtain ⟨a, b⟩ := e
      by_cases hp : p (a, b) = true
      · rw [List.filter_cons_of_pos hp, List.lookup_cons, List.lookup_cons, hk', ih]
      · rw [List.filter_cons_of_neg hp, List.lookup_cons, hk', ih]

omit hg in
theorem lookup_mem {α β : Type} [BEq α] [LawfulBEq α] {l : List (α × β)} {k : α} {v : β} (h : l.lookup k = some v) :
    (k, v) ∈ l := by
  induction l with
  | nil => cases h
  | cons e l ih =>
    obtain ⟨a, b⟩ := e
    rw [List.lookup_cons] at h
    by_cases hk : k = a
    · subst hk; simp at h; subst h; exact List.mem_cons_self
    · rw [show (k == a) = false by simpa using hk] at h
      exact List.mem_cons_of_mem _ (ih h)

omit hg in
theorem lrSet_lookup (k k' : LRKey) (v : Option (Nat × Option V)) (l : List (LRKey × Option (Nat × Option V))) :
    (lrSet k v l).lookup k' = if k' = k then some v else l.lookup k' := by
  unfold lrSet
  rw [List.lookup_cons]
  by_cases h : k' = k
  · subst h; simp
  · rw [if_neg h, show (k' == k) = false by simpa using h]
    refine lookup_filter_ne _ _ _ ?_
    intro e _ he; simp; rintro rfl; exact h he.symm

omit hg in
/-- Setting an LR memo entry. -/
theorem StOk.lrSet {cfg : Cfg V} {st : St V} (h : StOk cfg st) (q inst i : Nat) (e : Option (Nat × Option V))
    (he : ∀ j v, e = some (j, v) → i ≤ j ∧ j ≤ cfg.input.length) :
    StOk cfg { st with lrMemo := Verif.lrSet (q, inst, i) e st.lrMemo } := by
  refine ⟨h.memo, ?_, ?_⟩
  · intro r inst' p j v hm
    simp only [Verif.lrSet, List.mem_cons, List.mem_filter] at hm
    rcases hm with hm | hm
    · cases hm; exact he j v rfl
    · exact h.lr r inst' p j v hm.1
  · intro k hk
    refine ⟨?_, (h.act k hk).2⟩
    rw [lrSet_lookup]
    split
    · rfl
    · exact (h.act k hk).1

omit hg in
theorem StOk.lrFilter {cfg : Cfg V} {st : St V} (h : StOk cfg st)
    (p : LRKey × Option (Nat × Option V) → Bool) (hp : ∀ e, e.1 ∈ st.lrActive → p e = true) :
    StOk cfg { st with lrMemo := st.lrMemo.filter p } := by
  refine ⟨h.memo, fun r inst q j v hm => h.lr r inst q j v (List.mem_filter.mp hm).1, fun k hk => ⟨?_, (h.act k hk).2⟩⟩
  show (List.lookup k (st.lrMemo.filter p)).isSome = true
  rw [lookup_filter_ne]
  · exact (h.act k hk).1
  · intro e _ he; subst he; exact hp e hk

omit hg in
theorem StOk.actFilter {cfg : Cfg V} {st : St V} (h : StOk cfg st) (p : LRKey → Bool) :
    StOk cfg { st with lrActive := st.lrActive.filter p } :=
  ⟨h.memo, h.lr, fun k hk => h.act k (List.mem_filter.mp hk).1⟩

omit hg in
theorem guarded_P {cfg : Cfg V} {q : Nat} {i : Nat} {st : St V} {fn : St V → Out (VRes V)} {r : VRes V}
    (hs : SlotsOk cfg) (ho : StOk cfg st) (hq : ¬ isLRRule cfg q)
    (hfn : ∀ st1 x, StOk cfg st1 → fn st1 = .ok x → P cfg i st1 (x.1, x.2.2))
    (h : guarded cfg q i st fn = .ok r) : P cfg i st (r.1, r.2.2) := by
  unfold guarded at h
  by_cases hp : cfg.packrat = true
  · simp only [hp, if_true] at h
    cases hsl : cfg.slot (cfg.defId q) with
    | none =>
      simp only [hsl] at h
      split at h
      · cases h
      · split at h
        · cases reentered_ok h; exact P.fail ho (Keep.refl _) rfl
        · rw [bind_eq_ok] at h
          obtain ⟨x, hx, h⟩ := h
          cases h
          have p := hfn _ _ (StOk.same (st' := { st with active := Verif.fset st.active (cfg.defId q) (some i) }) ho ⟨rfl, rfl, rfl⟩) hx
          have k := p.keep
          refine ⟨p.ok.same ⟨rfl, rfl, rfl⟩, ⟨k.cutLen, k.cutTail, k.args, k.ruleStack, k.tokCount, k.inWs, k.logOn, ?_,
            k.precToks, k.caps, k.logs, k.insts, k.recovered⟩, p.act, p.bounds⟩
          show Verif.fset x.2.2.active _ _ = _
          rw [k.active]
          funext a
          simp only [Verif.fset]
          split
          · rename_i e; rw [e]
          · rfl
    | some s =>
      simp only [hsl] at h
      have hs' := hs hp q s hsl
      split at h
      · cases h
      · split at h
        · rename_i len v hm
          cases h
          have := ho.memo _ _ _ hm
          rw [memoIdx_div hs'] at this
          exact P.succ ho (Keep.refl _) rfl (by omega) this
        · cases h; exact P.fail ho (Keep.refl _) rfl
        · rw [bind_eq_ok] at h
          obtain ⟨x, hx, h⟩ := h
          have p := hfn _ _ (ho.fset _ _ (by intro len v e; cases e)) hx
          have k := p.keep
          have p' : P cfg i st (x.1, x.2.2) := ⟨p.ok, ⟨k.cutLen, k.cutTail, k.args, k.ruleStack, k.tokCount, k.inWs,
            k.logOn, k.active, k.precToks, k.caps, k.logs, k.insts, k.recovered⟩, p.act, p.bounds⟩
          obtain ⟨a, v, st1⟩ := x
          cases a with
          | none => cases h; exact p'
          | some j =>
            cases h
            have b := p'.bounds j rfl
            exact ⟨ok_writeMemo hs p'.ok b.1 b.2, p'.keep.trans (keep_writeMemo _ _ _ _ _ _),
              (writeMemo_rest _ _ _ _ _ _).2.trans p'.act, p'.bounds⟩
  · simp only [hp] at h
    simp only [Bool.false_eq_true, if_false] at h
    split at h
    · cases h
    · split at h
      · cases reentered_ok h; exact P.fail ho (Keep.refl _) rfl
      · rename_i inst _ _ hn
        rw [bind_eq_ok] at h
        obtain ⟨x, hx, h⟩ := h
        cases h
        have hne : ∀ k ∈ st.lrActive, k ≠ (q, inst, i) := by
          intro k hk e; subst e; exact hq (ho.act _ hk).2
        have ho1 : StOk cfg { st with lrMemo := ((q, inst, i), none) :: st.lrMemo } := by
          refine ⟨ho.memo, ?_, ?_⟩
          · intro r inst' p j v hm
            rcases List.mem_cons.mp hm with hm | hm
            · cases hm
            · exact ho.lr r inst' p j v hm
          · intro k hk
            refine ⟨?_, (ho.act k hk).2⟩
            show (List.lookup k (_ :: _)).isSome = true
            rw [List.lookup_cons]
            split
            · rfl
            · exact (ho.act k hk).1
        have p := hfn _ _ ho1 hx
        have k := p.keep
        refine ⟨p.ok.lrFilter _ ?_, ⟨k.cutLen, k.cutTail, k.args, k.ruleStack, k.tokCount, k.inWs,
            k.logOn, k.active, k.precToks, k.caps, k.logs, k.insts, k.recovered⟩, p.act, p.bounds⟩
        intro e he
        rw [p.act] at he
        simpa using hne _ he

omit hg in
theorem keep_emplace (cfg : Cfg V) (d : Def) (v : Option V) (st : St V) :
    Keep st (emplace cfg d v st) ∧ SameMemo st (emplace cfg d v st) := by
  unfold emplace
  split
  · exact ⟨keep_vs _ _, ⟨rfl, rfl, rfl⟩⟩
  · exact ⟨Keep.refl _, ⟨rfl, rfl, rfl⟩⟩

/-! ## Left recursion -/

omit hg in
theorem growDone_post {cfg : Cfg V} {q inst : Nat} {d : Def} {i j : Nat} {v : Option V} {cyc : List (Nat × Nat)}
    {j0 : Nat} {v0 : Option V} {st st1 : St V}
    (hs : SlotsOk cfg) (h1 : i ≤ j) (h2 : j ≤ cfg.input.length) (ho : StOk cfg st1) (hk : Keep st st1)
    (ha : st1.lrActive = st.lrActive) : Post cfg (.grow q inst cyc j0 v0) i st (growDone cfg q inst d i j v st1) := by
  unfold growDone
  simp only
  have key : ∀ st2 : St V, StOk cfg st2 → Keep st st2 → st2.lrActive = st.lrActive →
      Post cfg (.grow q inst cyc j0 v0) i st
        (some j, emplace cfg d v { st2 with lrActive := st2.lrActive.filter (· ≠ (q, inst, i)) }) := by
    intro st2 ho k a
    have e := keep_emplace cfg d v { st2 with lrActive := st2.lrActive.filter (· ≠ (q, inst, i)) }
    refine ⟨(ho.actFilter _).same e.2, Keep.trans (b := { st2 with lrActive := st2.lrActive.filter (· ≠ (q, inst, i)) })
        ⟨k.cutLen, k.cutTail, k.args, k.ruleStack, k.tokCount, k.inWs,
            k.logOn, k.active, k.precToks, k.caps, k.logs, k.insts, k.recovered⟩ e.1, ?_, ?_⟩
    · rw [e.2.lrActive]; simp only [activeAfter, a]
    · intro j' hj; cases hj; exact ⟨h1, h2⟩
  split
  · exact key _ ho hk ha
  · exact key _ (ok_writeMemo hs ho h1 h2) (hk.trans (keep_writeMemo _ _ _ _ _ _))
      ((writeMemo_rest _ _ _ _ _ _).2.trans ha)

theorem growRound_post {cfg : Cfg V} {q inst : Nat} {cyc : List (Nat × Nat)} {j : Nat} {v : Option V} {i : Nat} {st : St V}
    {r : Res V} (hs : SlotsOk cfg) (ho : StOk cfg st) (hi : i ≤ cfg.input.length) (h1 : i ≤ j)
    (h2 : j ≤ cfg.input.length) (h : growRound rec cfg q inst cyc j v i st = .ok r) :
    Post cfg (.grow q inst cyc j v) i st r := by
  unfold growRound at h
  cases hd : cfg.rules[q]? with
  | none => rw [hd] at h; cases h
  | some d =>
    simp only [hd] at h
    rw [bind_eq_ok] at h
    obtain ⟨⟨a, v1, st1⟩, hx, h⟩ := h
    have hc : ∃ st0, (if d.isMacro = true then st else clearMemo cfg q i st) = st0 ∧ Keep st st0 ∧
        st0.lrActive = st.lrActive ∧ StOk cfg st0 := by
      split
      · exact ⟨_, rfl, Keep.refl _, rfl, ho⟩
      · obtain ⟨a, b, c⟩ := keep_clearMemo cfg q i st
        exact ⟨_, rfl, a, b, c ho⟩
    obtain ⟨st0, he, k0, a0, o0⟩ := hc
    rw [he] at hx
    have p := doParse_P hg hs (o0.lrFilter _ (by intro e he; simp [he])) hi hx
    have kp := p.keep
    have k1 : Keep st st1 := k0.trans ⟨kp.cutLen, kp.cutTail, kp.args, kp.ruleStack, kp.tokCount, kp.inWs,
            kp.logOn, kp.active, kp.precToks, kp.caps, kp.logs, kp.insts, kp.recovered⟩
    have a1 : st1.lrActive = st.lrActive := p.act.trans a0
    cases a with
    | none => cases h; exact growDone_post hs h1 h2 p.ok k1 a1
    | some j' =>
      dsimp only at h
      split at h
      · cases h; exact growDone_post hs h1 h2 p.ok k1 a1
      · have b := p.bounds j' rfl
        have p2 := hg cfg (.grow q inst cyc j' v1) i _ r hs
          (p.ok.lrSet q inst i (some (j', v1)) (by intro j v e; cases e; exact b)) hi b h
        have k2 := p2.keep
        refine ⟨p2.ok, k1.trans ⟨k2.cutLen, k2.cutTail, k2.args, k2.ruleStack, k2.tokCount, k2.inWs,
            k2.logOn, k2.active, k2.precToks, k2.caps, k2.logs, k2.insts, k2.recovered⟩, ?_, p2.bounds⟩
        rw [p2.act]; simp only [activeAfter, a1]

omit hg in
theorem filter_cons_ne {α : Type} [DecidableEq α] {a : α} {l : List α} (h : a ∉ l) :
    (a :: l).filter (· ≠ a) = l := by
  rw [List.filter_cons_of_neg (by simp)]
  apply List.filter_eq_self.mpr
  intro b hb
  have : b ≠ a := by rintro rfl; exact h hb
  simpa using this

theorem lrHold_P {cfg : Cfg V} {q : Nat} {d : Def} {i : Nat} {st : St V} {r : Res V}
    (hs : SlotsOk cfg) (ho : StOk cfg st) (hi : i ≤ cfg.input.length) (hd : cfg.rules[q]? = some d) (hl : d.isLR = true)
    (h : lrHold rec cfg q d i st = .ok r) : P cfg i st r := by
  unfold lrHold at h
  split at h
  · cases h
  · rename_i inst _ _
    cases hm : st.lrMemo.lookup (q, inst, i) with
    | some m =>
      simp only [hm] at h
      have kr : ∀ x, Keep st { st with lrRefs := x } := fun x => ⟨rfl, rfl, rfl, rfl, rfl, rfl, rfl, rfl, rfl,
        List.prefix_refl _, List.prefix_refl _, List.prefix_refl _, id⟩
      split at h
      · rename_i j v
        cases h
        obtain ⟨e1, e2⟩ := keep_emplace cfg d v { st with lrRefs := setInsert (q, inst) st.lrRefs }
        have b := ho.lr _ _ _ _ _ (lookup_mem hm)
        refine P.succ (st := st) ?_ ((kr _).trans e1) e2.lrActive b.1 b.2
        exact StOk.same (st := { st with lrRefs := setInsert (q, inst) st.lrRefs }) (ho.same ⟨rfl, rfl, rfl⟩) e2
      · cases h
        exact P.fail (ho.same ⟨rfl, rfl, rfl⟩) (kr _) rfl
    | none =>
      simp only [hm] at h
      have hna : (q, inst, i) ∉ st.lrActive := by
        intro hc; have := (ho.act _ hc).1; rw [hm] at this; cases this
      rw [bind_eq_ok] at h
      obtain ⟨⟨a, v1, st1⟩, hx, h⟩ := h
      have hsi : setInsert (q, inst, i) st.lrActive = (q, inst, i) :: st.lrActive := if_neg hna
      rw [hsi] at hx
      have o1 : StOk cfg { st with
          lrMemo := Verif.lrSet (q, inst, i) none st.lrMemo
          lrActive := (q, inst, i) :: st.lrActive
          lrRefs := [] } := by
        have o := ho.lrSet q inst i none (by intro j v e; cases e)
        refine ⟨o.memo, o.lr, ?_⟩
        intro k hk
        rcases List.mem_cons.mp hk with rfl | hk
        · refine ⟨?_, d, hd, hl⟩
          show (List.lookup _ (Verif.lrSet _ _ _)).isSome = true
          rw [lrSet_lookup]; simp
        · exact o.act k hk
      have p := doParse_P hg hs o1 hi hx
      have k := p.keep
      have pa : st1.lrActive = (q, inst, i) :: st.lrActive := p.act
      have kk : Keep st st1 := ⟨k.cutLen, k.cutTail, k.args, k.ruleStack, k.tokCount, k.inWs,
            k.logOn, k.active, k.precToks, k.caps, k.logs, k.insts, k.recovered⟩
      have po : StOk cfg st1 := p.ok
      cases a with
      | none =>
        cases h
        refine P.fail ?_ ?_ ?_
        · have o := po.actFilter (· ≠ (q, inst, i))
          exact ⟨o.memo, o.lr, o.act⟩
        · exact ⟨kk.cutLen, kk.cutTail, kk.args, kk.ruleStack, kk.tokCount, kk.inWs,
            kk.logOn, kk.active, kk.precToks, kk.caps, kk.logs, kk.insts, kk.recovered⟩
        · show st1.lrActive.filter _ = _
          rw [pa]; exact filter_cons_ne hna
      | some j =>
        dsimp only at h
        have b := p.bounds j rfl
        have o2 : ∀ x, StOk cfg { st1 with
            lrRefs := x, lrMemo := Verif.lrSet (q, inst, i) (some (j, v1)) st1.lrMemo } := by
          intro x
          have o := po.lrSet q inst i (some (j, v1)) (by intro j v e; cases e; exact b)
          exact ⟨o.memo, o.lr, o.act⟩
        have p2 := hg cfg (.grow q inst _ j v1) i _ r hs (o2 _) hi b h
        have k2 := p2.keep
        refine ⟨p2.ok, kk.trans ⟨k2.cutLen, k2.cutTail, k2.args, k2.ruleStack, k2.tokCount, k2.inWs,
            k2.logOn, k2.active, k2.precToks, k2.caps, k2.logs, k2.insts, k2.recovered⟩, ?_, p2.bounds⟩
        rw [p2.act]
        show st1.lrActive.filter _ = _
        rw [pa]; exact filter_cons_ne hna

theorem holder_P {cfg : Cfg V} {q : Nat} {i : Nat} {st : St V} {r : Res V}
    (hs : SlotsOk cfg) (ho : StOk cfg st) (hi : i ≤ cfg.input.length)
    (h : holder rec cfg q i st = .ok r) : P cfg i st r := by
  unfold holder at h
  cases hd : cfg.rules[q]? with
  | none => rw [hd] at h; cases h
  | some d =>
    simp only [hd] at h
    by_cases hm : (d.isMacro && !d.isLR) = true
    · simp only [hm, if_true] at h
      rw [after_ok] at h
      obtain ⟨a, st1, h, rfl⟩ := h
      exact P.popRule (b := true) (r := q) hg (hg.ope (st := pushRule true q st) hs (ho.same (same_pushRule hg _ _ _)) hi h)
    · simp only [hm] at h
      simp only [Bool.false_eq_true, if_false] at h
      by_cases hl : d.isLR = true
      · simp only [hl, if_true] at h
        exact lrHold_P hg hs ho hi hd hl h
      · simp only [hl] at h
        simp only [Bool.false_eq_true, if_false] at h
        have hq : ¬ isLRRule cfg q := by
          rintro ⟨d', h1, h2⟩; rw [hd] at h1; cases h1; exact hl h2
        split at h
        · rw [bind_eq_ok] at h
          obtain ⟨x, hx, h⟩ := h
          cases h
          refine guarded_P hs ho hq ?_ hx
          intro st1 y ho1 hy
          rw [bind_eq_ok] at hy
          obtain ⟨z, hz, hy⟩ := hy
          cases hy
          exact opeBody_P hg hs ho1 hi hz
        · rw [bind_eq_ok] at h
          obtain ⟨⟨a, v, st1⟩, hx, h⟩ := h
          have p : P cfg i st (a, st1) := guarded_P hs ho hq (fun st1 y ho1 hy => doParse_P hg hs ho1 hi hy) hx
          cases a with
          | none => cases h; exact p
          | some j =>
            cases h
            exact p.post (keep_emplace _ _ _ _).1 (keep_emplace _ _ _ _).2

/-! ## References and macros -/

omit hg in
theorem withArgs_P {cfg : Cfg V} {i : Nat} {st : St V} {f : List Ope × Nat} {x : St V → Out (Res V)} {r : Res V}
    (ho : StOk cfg st) (hx : ∀ st1 r, StOk cfg st1 → x st1 = .ok r → P cfg i st1 r)
    (h : withArgs st f x = .ok r) : P cfg i st r := by
  unfold withArgs at h
  rw [after_ok] at h
  obtain ⟨a, st1, h, rfl⟩ := h
  have p := hx _ _ (StOk.same (st' := { st with args := f :: st.args }) ho ⟨rfl, rfl, rfl⟩) h
  have k := p.keep
  refine ⟨p.ok.same ⟨rfl, rfl, rfl⟩, ⟨k.cutLen, k.cutTail, ?_, k.ruleStack, k.tokCount, k.inWs,
            k.logOn, k.active, k.precToks, k.caps, k.logs, k.insts, k.recovered⟩, p.act, p.bounds⟩
  show st1.args.tail = _
  rw [k.args]; rfl

omit hg in
theorem intern_prefix (l : List (Nat × List Ope)) (k : Nat × List Ope) : l <+: (intern l k).2 := by
  unfold intern
  split
  · exact List.prefix_refl _
  · exact List.prefix_append _ _

theorem refer_P {cfg : Cfg V} {q : Nat} {as : List Ope} {i : Nat} {st : St V} {r : Res V}
    (hs : SlotsOk cfg) (ho : StOk cfg st) (hi : i ≤ cfg.input.length)
    (h : refer rec cfg q as i st = .ok r) : P cfg i st r := by
  unfold refer at h
  have hx : ∀ st1 r, StOk cfg st1 → rec cfg (.hold q) i st1 = .ok r → P cfg i st1 r :=
    fun st1 r ho1 h1 => hg.hold hs ho1 hi h1
  split at h
  · cases h
  · split at h
    · split at h
      · cases h
      · cases h
      · split at h
        · cases h
        · split at h
          · cases h
          · simp only at h
            split at h
            · have k : ∀ x, st.insts <+: x → Keep st { st with insts := x } := fun x hx =>
                ⟨rfl, rfl, rfl, rfl, rfl, rfl, rfl, rfl, rfl, List.prefix_refl _, List.prefix_refl _, hx, id⟩
              exact P.pre (k _ (intern_prefix _ _)) rfl
                (withArgs_P (StOk.same (st' := { st with insts := _ }) ho ⟨rfl, rfl, rfl⟩) hx h)
            · exact withArgs_P ho hx h
    · split at h
      · exact hx _ _ ho h
      · exact withArgs_P ho hx h

theorem parseParam_P {cfg : Cfg V} {k : Nat} {i : Nat} {st : St V} {r : Res V}
    (hs : SlotsOk cfg) (ho : StOk cfg st) (hi : i ≤ cfg.input.length)
    (h : parseParam rec cfg k i st = .ok r) : P cfg i st r := by
  unfold parseParam at h
  split at h
  · cases h
  · split at h
    · cases h
    · exact hg.ope hs ho hi h

/-! ## Precedence climbing and recovery -/

theorem Good.task {t : Task V} {cfg : Cfg V} {i : Nat} {st : St V} {r : Res V}
    (hs : SlotsOk cfg) (ho : StOk cfg st) (hi : i ≤ cfg.input.length) (hr : rec cfg t i st = .ok r)
    (ht : TaskPre cfg t i st) (ha : ∀ l, activeAfter t i l = l) : P cfg i st r :=
  let p := hg cfg t i st r hs ho hi ht hr
  ⟨p.ok, p.keep, p.act.trans (ha _), p.bounds⟩

theorem parsePrec_P {cfg : Cfg V} {at_ bo : Ope} {info : List (List Byte × Nat × Byte)} {rl mp : Nat} {i : Nat}
    {st : St V} {r : Res V} (hs : SlotsOk cfg) (ho : StOk cfg st) (hi : i ≤ cfg.input.length)
    (h : parsePrec rec cfg at_ bo info rl mp i st = .ok r) : P cfg i st r := by
  unfold parsePrec at h
  rw [andThen_ok] at h
  rcases h with ⟨st1, h, rfl⟩ | ⟨j, st1, h, h2⟩
  · exact hg.ope hs ho hi h
  · have p := hg.ope hs ho hi h
    rw [bind_eq_ok] at h2
    obtain ⟨b, -, h2⟩ := h2
    rw [after_ok] at h2
    obtain ⟨a, st2, h2, rfl⟩ := h2
    have q := Good.task (st := { st1 with precToks := (b, []) :: st1.precToks }) hg hs
      (p.ok.same ⟨rfl, rfl, rfl⟩) (p.bounds j rfl).2 h2 trivial (fun _ => rfl)
    have k := q.keep
    refine p.seq ⟨q.ok.same ⟨rfl, rfl, rfl⟩, ⟨k.cutLen, k.cutTail, k.args, k.ruleStack, k.tokCount, k.inWs,
            k.logOn, k.active, ?_, k.caps, k.logs, k.insts, k.recovered⟩, q.act, q.bounds⟩
    have e := congrArg List.tail k.precToks
    simp only [List.map_cons, List.tail_cons] at e
    rw [← e]
    show List.map _ st2.precToks.tail = _
    cases st2.precToks <;> rfl

theorem keep_precReduce (cfg : Cfg V) (rl s j : Nat) (st : St V) :
    Keep st (precReduce cfg rl s j st) ∧ SameMemo st (precReduce cfg rl s j st) := by
  unfold precReduce
  split
  · have k := keep_callAction hg cfg rl { st.vs with sv := (s, j - s) } none st
    exact ⟨k.1.trans (keep_vs _ _), SameMemo.trans' k.2 ⟨rfl, rfl, rfl⟩⟩
  · exact ⟨keep_vs _ _, ⟨rfl, rfl, rfl⟩⟩

theorem precRound_P {cfg : Cfg V} {at_ bo : Ope} {info : List (List Byte × Nat × Byte)} {rl mp b s : Nat} {i : Nat}
    {st : St V} {r : Res V} (hs : SlotsOk cfg) (ho : StOk cfg st) (hi : i ≤ cfg.input.length)
    (h : precRound rec cfg at_ bo info rl mp b s i st = .ok r) : P cfg i st r := by
  unfold precRound at h
  split at h
  · rw [bind_eq_ok] at h
    obtain ⟨⟨a, st1⟩, h1, h⟩ := h
    have p := hg.ope (st := { st with vs := {} }) hs (ho.same ⟨rfl, rfl, rfl⟩) hi h1
    have p' : P cfg i st (a, { st1 with vs := st.vs }) := (P.pre (keep_vs st {}) rfl p).post (keep_vs _ _) ⟨rfl, rfl, rfl⟩
    have stop : P cfg i st (some i, { st1 with vs := st.vs }) :=
      P.succ p'.ok p'.keep p'.act (Nat.le_refl _) hi
    cases a with
    | none => cases h; exact stop
    | some j =>
      dsimp only at h
      have b1 := p'.bounds j rfl
      split at h
      · cases h; exact stop
      · split at h
        · cases h; exact stop
        · split at h
          · cases h
          · rw [bind_eq_ok] at h
            obtain ⟨⟨a, st2⟩, h2, h⟩ := h
            have q := Good.task (st := { st1 with vs := {} }) hg hs
              (p'.ok.same ⟨rfl, rfl, rfl⟩) b1.2 h2 trivial (fun _ => rfl)
            have q' : P cfg j { st1 with vs := st.vs } (a, st2) := P.pre (keep_vs { st1 with vs := st.vs } {}) rfl q
            cases a with
            | none => cases h; exact p'.seq (q'.post (keep_vs _ _) ⟨rfl, rfl, rfl⟩)
            | some k =>
              dsimp only at h
              split at h
              · cases h
              · have b2 := q'.bounds k rfl
                have kr := fun f => keep_precReduce hg cfg rl s k { st2 with vs := f }
                have q2 := fun f => (q'.post (keep_vs st2 f) ⟨rfl, rfl, rfl⟩).post (kr f).1 (kr f).2
                exact p'.seq ((q2 _).seq (Good.task hg hs (q2 _).ok b2.2 h trivial (fun _ => rfl)))
  · cases h; exact P.stay ho hi

theorem parseRecov_P {cfg : Cfg V} {q : Nat} {nm : List Byte} {as : List Ope} {i : Nat} {st : St V} {r : Res V}
    (hs : SlotsOk cfg) (ho : StOk cfg st) (hi : i ≤ cfg.input.length)
    (h : parseRecov rec cfg q nm as i st = .ok r) : P cfg i st r := by
  unfold parseRecov at h
  simp only at h
  rw [bind_eq_ok] at h
  obtain ⟨st0, h0, h⟩ := h
  have e0 : ∃ e, st0 = { st with err := e } := by
    split at h0
    · split at h0
      · cases h0
      · split at h0
        · cases h0
        · split at h0
          · cases h0; exact ⟨_, rfl⟩
          · cases h0; exact ⟨_, rfl⟩
      · cases h0
      · cases h0; exact ⟨_, rfl⟩
    · cases h0; exact ⟨_, rfl⟩
  obtain ⟨e, rfl⟩ := e0
  rw [bind_eq_ok] at h
  obtain ⟨⟨a, st1⟩, h1, h⟩ := h
  have p := hg.ope (st := { st with err := e, logOn := false, vs := {}, dt := none }) hs (ho.same ⟨rfl, rfl, rfl⟩) hi h1
  have k := p.keep
  have key : ∀ rc er lg, st1.logs <+: lg → (st1.recovered = true → rc = true) →
      P cfg i st (a, ({ st1 with logOn := st.logOn, vs := st.vs, dt := st.dt, recovered := rc, err := er, logs := lg } :
        St V)) := by
    intro rc er lg hlg hrc
    exact ⟨p.ok.same ⟨rfl, rfl, rfl⟩, ⟨k.cutLen, k.cutTail, k.args, k.ruleStack, k.tokCount, k.inWs,
            rfl, k.active, k.precToks, k.caps, k.logs.trans hlg, k.insts, fun x => hrc (k.recovered x)⟩, p.act, p.bounds⟩
  rw [bind_eq_ok] at h
  obtain ⟨st2, h2, h⟩ := h
  cases h
  refine P.post ?_ (keep_setCut st2 true) (same_setCut st2 true)
  split at h2
  · split at h2
    · rw [bind_eq_ok] at h2
      obtain ⟨o, -, h2⟩ := h2
      cases h2
      exact key true _ _ (List.prefix_append _ _) (fun _ => rfl)
    · cases h2
      exact key true _ _ (List.prefix_refl _) (fun _ => rfl)
  · cases h2
    exact key _ _ _ (List.prefix_refl _) id

/-! ## The engine -/

theorem parseOpe_P {cfg : Cfg V} {e : Ope} {i : Nat} {st : St V} {r : Res V}
    (hs : SlotsOk cfg) (ho : StOk cfg st) (hi : i ≤ cfg.input.length)
    (h : parseOpe rec cfg e i st = .ok r) : P cfg i st r := by
  unfold parseOpe at h
  rw [if_neg (by omega)] at h
  cases e with
  | seq es kw => exact parseSeq_P hg hs ho hi h
  | cho es l fs => exact parseCho_P hg hs ho hi h
  | rep e mn mx sp => exact parseRep_P hg hs ho hi h
  | and_ e => exact parseAnd_P hg hs ho hi h
  | not_ e => exact parseNot_P hg hs ho hi h
  | dict w ic => exact parseDict_P hg hs ho hi h
  | lit s ic => exact parseLiteral_P hg hs ho hi h
  | cls c => exact terminal_P ho hi (fun k hk => Props.C07_class_bounds _ _ _ hk |>.2) h
  | chr c => exact terminal_P ho hi (fun k hk => matchChar_le hk) h
  | dot => exact terminal_P ho hi (fun k hk => matchAny_le hk) h
  | capScope e => exact parseCapScope_P hg hs ho hi h
  | cap nm e => exact parseCap_P hg hs ho hi h
  | tok e => exact tokenBody_P hg hs ho hi h
  | ign e => exact parseIgn_P hg hs ho hi h
  | usr n => exact parseUsr_P hg ho h
  | weak q => exact hg.hold hs ho hi h
  | ref q nm as => exact refer_P hg hs ho hi h
  | param k nm => exact parseParam_P hg hs ho hi h
  | ws e => exact parseWs_P hg hs ho hi h
  | bref nm => exact parseBref_P hg hs ho hi h
  | prec a b info q => exact Good.task hg hs ho hi h trivial (fun _ => rfl)
  | recov q nm as => exact parseRecov_P hg hs ho hi h
  | cut =>
    cases h
    exact (P.stay ho hi).post (keep_setCut _ _) (same_setCut _ _)
  | null => cases h

theorem step_good : Good (step rec) := by
  intro cfg t i st r hs ho hi ht h
  have key : ∀ t, (∀ l, activeAfter t i l = l) → P cfg i st r → Post cfg t i st r :=
    fun t ha p => ⟨p.ok, p.keep, p.act.trans (ha _).symm, p.bounds⟩
  cases t with
  | ope e => exact key _ (fun _ => rfl) (parseOpe_P hg hs ho hi h)
  | rep e mx c => exact key _ (fun _ => rfl) (repRound_P hg hs ho hi h)
  | hold q => exact key _ (fun _ => rfl) (holder_P hg hs ho hi h)
  | grow q inst cyc j v => exact growRound_post hg hs ho hi ht.1 ht.2 h
  | prec a b info q mp => exact key _ (fun _ => rfl) (parsePrec_P hg hs ho hi h)
  | precLoop a b info q mp bn s => exact key _ (fun _ => rfl) (precRound_P hg hs ho hi h)

end

/-- Every finished run keeps the invariants. -/
theorem run_good (n : Nat) : Good (run (V := V) n) := by
  induction n with
  | zero => intro cfg t i st r _ _ _ _ h; cases h
  | succ n ih => exact step_good ih

end Verif
