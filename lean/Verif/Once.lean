import Verif.Handlers
/-!
# A remembered rule is evaluated at most once at each position

With packrat parsing the first call of a remembered rule at a position marks its table entry before the rule is evaluated; nothing unmarks it (unless the rule is
left-recursive, or its match is longer than the table can hold).  `On`: the number of `enter` notes of the rule at the position grows only when the entry goes
from unmarked to marked.
-/

namespace Verif
open Out CharClass

variable {V : Type}

/-- Whether table entry `K` is marked. -/
def marked (K : Nat) (st : St V) : Nat := if (st.memo K).isSome then 1 else 0

/-- From `st` to `st'` rule `q` was entered at position `p` at most as often as entry `K` was newly marked; a marked entry stays so; and never
behind the end of the input. -/
structure On (cfg : Cfg V) (evs : Option V → List Ev) (q p K : Nat) (st st' : St V) : Prop where
  mono : marked K st ≤ marked K st'
  cnt : (evs st'.dt).count (.enter q p) + marked K st ≤ (evs st.dt).count (.enter q p) + marked K st'
  far : cfg.input.length < p → (evs st'.dt).count (.enter q p) ≤ (evs st.dt).count (.enter q p)

section
variable {cfg : Cfg V} {evs : Option V → List Ev} {q p K : Nat}

theorem On.same {st st' : St V} (h1 : st'.memo = st.memo) (h2 : st'.dt = st.dt) : On cfg evs q p K st st' := by
  have : marked K st' = marked K st := by unfold marked; rw [h1]
  exact ⟨by rw [this]; exact Nat.le_refl _, by rw [this, h2]; exact Nat.le_refl _, fun _ => by rw [h2]; exact Nat.le_refl _⟩

theorem On.refl (st : St V) : On cfg evs q p K st st := .same rfl rfl

theorem On.trans {a b c : St V} (h : On cfg evs q p K a b) (h' : On cfg evs q p K b c) : On cfg evs q p K a c :=
  ⟨Nat.le_trans h.mono h'.mono, by have := h.cnt; have := h'.cnt; omega, fun hp => Nat.le_trans (h'.far hp) (h.far hp)⟩

def OnO (cfg : Cfg V) (evs : Option V → List Ev) (q p K : Nat) (st : St V) (x : Out (Res V)) : Prop := x.All fun r => On cfg evs q p K st r.2
def OnV (cfg : Cfg V) (evs : Option V → List Ev) (q p K : Nat) (st : St V) (x : Out (VRes V)) : Prop := x.All fun r => On cfg evs q p K st r.2.2

theorem OnO.pre {a b : St V} {x : Out (Res V)} (h : On cfg evs q p K a b) (hx : OnO cfg evs q p K b x) : OnO cfg evs q p K a x :=
  hx.imp fun _ => h.trans
theorem OnV.pre {a b : St V} {x : Out (VRes V)} (h : On cfg evs q p K a b) (hx : OnV cfg evs q p K b x) : OnV cfg evs q p K a x :=
  hx.imp fun _ => h.trans

theorem OnO.okr {st st' : St V} {r : Option Nat} (h : On cfg evs q p K st st') : OnO cfg evs q p K st (.ok (r, st')) := .ok h

theorem OnO.after {st : St V} {x : Out (Res V)} {g : St V → St V} (h : OnO cfg evs q p K st x)
    (hg : ∀ s, On cfg evs q p K s (g s)) : OnO cfg evs q p K st (after x g) := by
  cases x with
  | ok a => exact .ok ((h a rfl).trans (hg _))
  | ub s => exact .ub
  | oof => exact .oof

theorem OnO.andThen {i : Nat} {st : St V} {x : Out (Res V)} {k : Nat → St V → Out (Res V)} (hP : ∀ r, x = .ok r → P cfg i st r)
    (h : OnO cfg evs q p K st x) (hk : ∀ j s, StOk cfg s → j ≤ cfg.input.length → OnO cfg evs q p K s (k j s)) :
    OnO cfg evs q p K st (andThen x k) := by
  cases x with
  | ok a =>
    obtain ⟨r, s⟩ := a
    cases r with
    | none => exact .ok (h _ rfl)
    | some j => exact (hk j s (hP _ rfl).ok ((hP _ rfl).bounds j rfl).2).pre (h _ rfl)
  | ub s => exact .ub
  | oof => exact .oof

end

macro "osame" : term => `(by exact On.same rfl rfl)
macro "okk" : term => `(by exact StOk.same ‹_› ⟨rfl, rfl, rfl⟩)

/-- What is asked of the tables: entry `s` of a row belongs to rule `q` alone, `q` is not left-recursive, matches fit. -/
structure OwnSlot (cfg : Cfg V) (q s : Nat) : Prop where
  pack : cfg.packrat = true
  slots : SlotsOk cfg
  slot : cfg.slot (cfg.defId q) = some s
  own : ∀ r, cfg.slot (cfg.defId r) = some s → r = q
  lr : ¬ isLRRule cfg q
  fits : cfg.input.length ≤ 4294967295

/-- Preconditions on a task: growing concerns left-recursive rules. -/
def OPre (cfg : Cfg V) (t : Task V) (i : Nat) : Prop :=
  match t with
  | .grow r _ _ j _ => (i ≤ j ∧ j ≤ cfg.input.length) ∧ isLRRule cfg r
  | _ => True

theorem memoIdx_inj2 {c a b i j : Nat} (ha : a < c) (hb : b < c) (h : c * i + a = c * j + b) : a = b ∧ i = j := by
  have hc : 0 < c := by omega
  have h1 : (c * i + a) / c = i := by rw [Nat.mul_add_div hc, Nat.div_eq_of_lt ha]; omega
  have h2 : (c * j + b) / c = j := by rw [Nat.mul_add_div hc, Nat.div_eq_of_lt hb]; omega
  have : i = j := by rw [← h1, ← h2, h]
  subst this
  exact ⟨by omega, rfl⟩

section
variable {cfg : Cfg V} {evs : Option V → List Ev} {q p s : Nat} {rec : Rec V}
local notation "K" => cfg.memoIdx s p
variable (tr : Traced cfg evs) (hw : OwnSlot cfg q s) (hg : Good rec)
  (ih : ∀ t i st, StOk cfg st → i ≤ cfg.input.length → OPre cfg t i → OnO cfg evs q p (cfg.memoIdx s p) st (rec cfg t i st))
include tr hw hg ih

omit tr in
theorem ope_PO (e : Ope) (i : Nat) (st : St V) (ho : StOk cfg st) (hi : i ≤ cfg.input.length) :
    (∀ r, rec cfg (.ope e) i st = .ok r → P cfg i st r) ∧ OnO cfg evs q p K st (rec cfg (.ope e) i st) :=
  ⟨fun _ h => hg.ope hw.slots ho hi h, ih _ _ _ ho hi trivial⟩

omit tr hw hg in
theorem skipWs_O (i : Nat) (st : St V) (ho : StOk cfg st) (hi : i ≤ cfg.input.length) : OnO cfg evs q p K st (skipWs rec cfg i st) := by
  unfold skipWs
  split
  · exact .okr (On.refl _)
  · split
    · exact .okr (On.refl _)
    · exact ih _ _ _ ho hi trivial

omit tr hw hg ih in
theorem on_setErr (k : Nat) (st : St V) (i : Nat) (l : Option ErrLit) : On cfg evs q p k st (setErr cfg st i l) := by
  unfold setErr; split <;> exact osame

omit tr hw hg ih in
theorem on_fsErr (k : Nat) (st : St V) (fs : FirstSet) (id i : Nat) : On cfg evs q p k st (fsErr st fs id i) := by
  unfold fsErr; repeat' split
  all_goals first | exact On.refl _ | exact osame

omit tr hw hg ih in
theorem terminal_O (k i : Nat) (st : St V) (m : Option Nat) : OnO cfg evs q p k st (terminal cfg i st m) := by
  unfold terminal
  split
  · exact OnO.okr (on_setErr _ _ _ _)
  · exact .okr (On.refl _)

omit tr hw hg in
theorem parseLiteral_O (lit : List Byte) (ic : Bool) (el : ErrLit) (i : Nat) (st : St V) (ho : StOk cfg st) (hi : i ≤ cfg.input.length) :
    OnO cfg evs q p K st (parseLiteral rec cfg lit ic el i st) := by
  unfold parseLiteral
  split
  · rename_i hm
    have hl := litMatch_le hm
    rw [rest_length] at hl
    have hj : i + lit.length ≤ cfg.input.length := by omega
    split
    · exact skipWs_O ih _ _ ho hj
    · refine Out.All.bind (p := fun _ => True) (fun _ _ => trivial) fun b _ => ?_
      split
      · refine Out.All.bind (p := fun _ => True) (fun _ _ => trivial) fun b _ => ?_
        split
        · exact skipWs_O ih _ _ ho hj
        · exact OnO.okr (on_setErr _ _ _ _)
      · exact skipWs_O ih _ _ ho hj
  · exact OnO.okr (on_setErr _ _ _ _)

omit tr hw hg in
theorem parseDict_O (ws : List (List Byte)) (ic : Bool) (i : Nat) (st : St V) (ho : StOk cfg st) (hi : i ≤ cfg.input.length) :
    OnO cfg evs q p K st (parseDict rec cfg ws ic i st) := by
  have hl := dict_le ws ic (cfg.rest i)
  rw [rest_length] at hl
  unfold parseDict
  simp only
  split
  · exact OnO.okr (on_setErr _ _ _ _)
  · refine OnO.pre (b := st.setChoice ws.length ((Trie.build ws ic).matchText (cfg.rest i)).2) osame ?_
    have ho' : StOk cfg (st.setChoice ws.length ((Trie.build ws ic).matchText (cfg.rest i)).2) := ho.same ⟨rfl, rfl, rfl⟩
    split
    · exact skipWs_O ih _ _ ho' (by omega)
    · refine Out.All.bind (p := fun _ => True) (fun _ _ => trivial) fun b _ => ?_
      split
      · exact skipWs_O ih _ _ ho' (by omega)
      · exact OnO.okr (on_setErr _ _ _ _)

omit tr hw hg in
theorem parseBref_O (nm : List Byte) (i : Nat) (st : St V) (ho : StOk cfg st) (hi : i ≤ cfg.input.length) :
    OnO cfg evs q p K st (parseBref rec cfg nm i st) := by
  unfold parseBref
  split
  · exact parseLiteral_O ih _ _ _ _ _ ho hi
  · exact .okr osame

omit tr hw hg ih in
theorem on_addToken (k : Nat) (t : Nat × Nat) (st : St V) : On cfg evs q p k st (addToken cfg t st) := by
  unfold addToken; split
  · exact On.refl _
  · exact osame

omit tr in
theorem tokenBody_O (e : Ope) (i : Nat) (st : St V) (ho : StOk cfg st) (hi : i ≤ cfg.input.length) :
    OnO cfg evs q p K st (tokenBody rec cfg e i st) := by
  unfold tokenBody
  have ho' : StOk cfg { st with tokCount := st.tokCount + 1 } := ho.same ⟨rfl, rfl, rfl⟩
  have h := ope_PO hw hg ih e i _ ho' hi
  refine OnO.andThen (cfg := cfg) (i := i) ?_ (OnO.after (OnO.pre (b := { st with tokCount := st.tokCount + 1 }) osame h.2) fun _ => osame) fun j s hs hj => ?_
  · intro r hr
    rw [after_ok] at hr
    obtain ⟨a, st1, hr, rfl⟩ := hr
    exact tokUp_P hg (h.1 _ hr)
  · exact (skipWs_O ih _ _ (hs.same (same_addToken _ _ _)) hj).pre (on_addToken _ _ _)

omit tr in
theorem seqLoop_O (es : List Ope) (i : Nat) (st : St V) (ho : StOk cfg st) (hi : i ≤ cfg.input.length) :
    OnO cfg evs q p K st (seqLoop rec cfg es i st) := by
  induction es generalizing i st with
  | nil => exact .okr (On.refl _)
  | cons e es ih' =>
    have h := ope_PO hw hg ih e i _ ho hi
    exact OnO.andThen h.1 h.2 fun j s hs hj => ih' j s hs hj

omit tr in
theorem parseSeq_O (es : List Ope) (kw : Option KwGuard) (i : Nat) (st : St V) (ho : StOk cfg st) (hi : i ≤ cfg.input.length) :
    OnO cfg evs q p K st (parseSeq rec cfg es kw i st) := by
  unfold parseSeq
  split
  · rename_i r h
    cases kw with
    | none => cases h
    | some k =>
      simp only [Option.bind_some] at h
      unfold kwGuarded at h
      split at h
      · cases h; exact OnO.okr (on_setErr _ _ _ _)
      · rename_i n hk
        have hn := kwScan_le hg hk
        rw [rest_length] at hn
        simp only at h
        split at h
        · cases h; exact OnO.okr (on_setErr _ _ _ _)
        · split at h
          · cases h
          · cases h; exact (skipWs_O ih _ _ (ho.same (same_addToken _ _ _)) (by omega)).pre (on_addToken _ _ _)
  · exact seqLoop_O hw hg ih _ _ _ ho hi

omit tr hw hg ih in
theorem on_setCut (k : Nat) (st : St V) (b : Bool) : On cfg evs q p k st (st.setCut b) := by
  unfold St.setCut; split
  · exact On.refl _
  · exact osame

omit tr hw hg ih in
theorem on_resetCut (k : Nat) (st : St V) : On cfg evs q p k st (resetCut cfg st) := by
  unfold resetCut; split
  · exact on_setCut _ _ _
  · exact On.refl _

omit tr in
theorem choLoop_O (total : Nat) (fs : List FirstSet) (es : List Ope) (id i : Nat) (st : St V) (ho : StOk cfg st) (hi : i ≤ cfg.input.length) :
    OnO cfg evs q p K st (choLoop rec cfg total fs es id i st) := by
  induction es generalizing id st with
  | nil => exact .okr (On.refl _)
  | cons e es ih' =>
    unfold choLoop
    split
    · exact (ih' _ _ (ho.same (same_fsErr _ _ _ _))).pre (on_fsErr _ _ _ _ _)
    · have hr : On cfg evs q p K st ((resetCut cfg st).setKeep (id > 0)) := (on_resetCut K st).trans osame
      have ho' : StOk cfg ((resetCut cfg st).setKeep (id > 0)) := (ho.same (same_resetCut _ _)).same (same_setKeep _ _)
      refine Out.All.bind (p := fun r => On cfg evs q p K st r.2 ∧ StOk cfg r.2) (fun r h => ?_) fun r hr => ?_
      · exact ⟨hr.trans (ih (.ope e) _ _ ho' hi trivial r h), (hg.ope hw.slots ho' hi h).ok⟩
      · obtain ⟨hr, hk⟩ := hr
        split
        · exact .ok (hr.trans osame)
        · split
          · exact .ok (hr.trans osame)
          · exact (ih' _ (r.2.rollback st.snapshot) (hk.same (same_rollback _ _))).pre (hr.trans osame)

omit tr in
theorem parseCho_O (es : List Ope) (l : Bool) (fs : List FirstSet) (i : Nat) (st : St V) (ho : StOk cfg st) (hi : i ≤ cfg.input.length) :
    OnO cfg evs q p K st (parseCho rec cfg es l fs i st) := by
  unfold parseCho
  have h0 : ∀ b, On cfg evs q p K st (pushCut b st) ∧ StOk cfg (pushCut b st) := by
    intro b; unfold pushCut; split
    · exact ⟨osame, ho.same ⟨rfl, rfl, rfl⟩⟩
    · exact ⟨On.refl _, ho⟩
  refine OnO.after (OnO.pre (h0 _).1 (choLoop_O hw hg ih _ _ _ _ _ _ (h0 _).2 hi)) fun s => ?_
  unfold choExit; split <;> exact osame

omit tr in
theorem repMin_O (e : Ope) (k i : Nat) (st : St V) (ho : StOk cfg st) (hi : i ≤ cfg.input.length) :
    OnO cfg evs q p K st (repMin rec cfg e k i st) := by
  induction k generalizing i st with
  | zero => exact .okr (On.refl _)
  | succ k ih' =>
    have h := ope_PO hw hg ih e i _ ho hi
    exact OnO.andThen h.1 h.2 fun j s hs hj => ih' j s hs hj

omit tr in
theorem repRound_O (e : Ope) (mx : Option Nat) (c i : Nat) (st : St V) (ho : StOk cfg st) (hi : i ≤ cfg.input.length) :
    OnO cfg evs q p K st (repRound rec cfg e mx c i st) := by
  unfold repRound
  have h := ope_PO hw hg ih e i _ ho hi
  split
  · refine Out.All.bind (p := fun r => On cfg evs q p K st r.2 ∧ P cfg i st r) (fun r hr => ⟨h.2 r hr, h.1 r hr⟩) fun r hr => ?_
    obtain ⟨hr, hp⟩ := hr
    split
    · exact .ok (hr.trans osame)
    · rename_i j hj
      exact (ih (.rep e mx (c + 1)) _ _ hp.ok (hp.bounds j hj).2 trivial).pre hr
  · exact .okr (On.refl _)

omit tr in
theorem parseRep_O (e : Ope) (mn : Nat) (mx : Option Nat) (sp : Option Cls) (i : Nat) (st : St V) (ho : StOk cfg st)
    (hi : i ≤ cfg.input.length) : OnO cfg evs q p K st (parseRep rec cfg e mn mx sp i st) := by
  unfold parseRep
  split
  · simp only
    split <;> split <;> first
      | exact OnO.okr (on_setErr _ _ _ _)
      | exact .okr (On.refl _)
  · exact OnO.andThen (fun r h => repMin_P hg hw.slots ho hi h) (repMin_O hw hg ih _ _ _ _ ho hi) fun j s hs hj => ih _ _ _ hs hj trivial

omit tr hw hg in
theorem parseAnd_O (e : Ope) (i : Nat) (st : St V) (ho : StOk cfg st) (hi : i ≤ cfg.input.length) :
    OnO cfg evs q p K st (parseAnd rec cfg e i st) := by
  unfold parseAnd
  exact Out.All.bind (ih _ _ _ ho hi trivial) fun r hr => .ok (hr.trans osame)

omit tr hw hg in
theorem parseNot_O (e : Ope) (i : Nat) (st : St V) (ho : StOk cfg st) (hi : i ≤ cfg.input.length) :
    OnO cfg evs q p K st (parseNot rec cfg e i st) := by
  unfold parseNot
  refine Out.All.bind (ih _ _ _ ho hi trivial) fun r hr => ?_
  have : On cfg evs q p K st (r.2.rollback st.snapshot) := hr.trans osame
  simp only
  split
  · exact .ok (this.trans (on_setErr _ _ _ _))
  · exact .ok this

omit tr hw hg in
theorem parseCapScope_O (e : Ope) (i : Nat) (st : St V) (ho : StOk cfg st) (hi : i ≤ cfg.input.length) :
    OnO cfg evs q p K st (parseCapScope rec cfg e i st) := OnO.after (ih _ _ _ ho hi trivial) fun _ => osame

omit tr in
theorem parseCap_O (nm : List Byte) (e : Ope) (i : Nat) (st : St V) (ho : StOk cfg st) (hi : i ≤ cfg.input.length) :
    OnO cfg evs q p K st (parseCap rec cfg nm e i st) := by
  have h := ope_PO hw hg ih e i _ ho hi
  exact OnO.andThen h.1 h.2 fun _ _ _ _ => .okr osame

omit tr hw hg in
theorem parseIgn_O (e : Ope) (i : Nat) (st : St V) (ho : StOk cfg st) (hi : i ≤ cfg.input.length) :
    OnO cfg evs q p K st (parseIgn rec cfg e i st) := by
  unfold parseIgn inScope
  exact OnO.after (OnO.pre (a := st) (b := { st with vs := {} }) osame (ih _ _ _ (ho.same ⟨rfl, rfl, rfl⟩) hi trivial)) fun _ => osame

omit hw hg ih in
theorem parseUsr_O (k id i : Nat) (st : St V) : OnO cfg evs q p k st (parseUsr cfg id i st) := by
  have h : ∀ f : Frame V, On cfg evs q p k st { st with vs := f, dt := (cfg.user id i st.vs st.dt).2.2 } := fun f =>
    ⟨Nat.le_refl _, by simp only [tr.user]; exact Nat.le_refl _, fun _ => by simp only [tr.user]; exact Nat.le_refl _⟩
  unfold parseUsr
  simp only
  split
  · exact .okr (h _)
  · split
    · exact .okr (h _)
    · exact .ub

omit tr hw hg in
theorem parseWs_O (e : Ope) (i : Nat) (st : St V) (ho : StOk cfg st) (hi : i ≤ cfg.input.length) :
    OnO cfg evs q p K st (parseWs rec cfg e i st) := by
  unfold parseWs
  split
  · exact .okr (On.refl _)
  · exact OnO.after (OnO.pre (b := { st with inWs := true }) osame (ih _ _ _ (ho.same ⟨rfl, rfl, rfl⟩) hi trivial)) fun _ => osame

omit tr hw hg ih in
theorem on_pushRule (k : Nat) (b : Bool) (r : Nat) (st : St V) : On cfg evs q p k st (pushRule b r st) := by
  unfold pushRule; split
  · exact osame
  · exact On.refl _

omit tr hw hg ih in
theorem on_popRule (k : Nat) (b : Bool) (st : St V) : On cfg evs q p k st (popRule b st) := by
  unfold popRule; split
  · exact osame
  · exact On.refl _

omit tr in
theorem opeBody_O (r : Nat) (d : Def) (i : Nat) (st : St V) (ho : StOk cfg st) (hi : i ≤ cfg.input.length) :
    OnO cfg evs q p K st (opeBody rec cfg r d i st) := by
  have hp : ∀ b, StOk cfg (pushRule b r st) := fun b => ho.same (same_pushRule hg b r st)
  unfold opeBody
  refine OnO.after ?_ (on_popRule _ _)
  split
  · have e : (pushRule (cfg.needsRuleStack || d.hasMacroRef) r st).tokCount = st.tokCount := by
      unfold pushRule; split <;> rfl
    rw [← e]
    have ho' : StOk cfg { pushRule (cfg.needsRuleStack || d.hasMacroRef) r st with
        tokCount := (pushRule (cfg.needsRuleStack || d.hasMacroRef) r st).tokCount + 1 } := (hp _).same ⟨rfl, rfl, rfl⟩
    have h := ope_PO hw hg ih d.ope i _ ho' hi
    refine OnO.pre (on_pushRule _ (cfg.needsRuleStack || d.hasMacroRef) r st) ?_
    refine OnO.andThen (cfg := cfg) (i := i) ?_ (OnO.after (OnO.pre ?_ h.2) fun _ => osame) fun j s hs hj => skipWs_O ih _ _ hs hj
    · intro x hx
      rw [after_ok] at hx
      obtain ⟨a, st1, hx, rfl⟩ := hx
      exact tokUp_P hg (h.1 _ hx)
    · exact osame
  · exact (ih (.ope d.ope) _ _ (hp _) hi trivial).pre (on_pushRule _ _ _ _)

/-! The notes of `action` and `leave` are no `enter` notes. -/

omit hw hg ih in
theorem finishRule_cnt (r : Nat) (d : Def) (hd : cfg.rules[r]? = some d) (i : Nat) (x : Option Nat) (st : St V) :
    (evs (finishRule cfg r d i x st).2.2.dt).count (.enter q p) = (evs st.dt).count (.enter q p) := by
  rw [(finishRule_dt tr r d hd i x st).1, List.count_append]
  split <;> simp

omit tr hw hg ih in
theorem finishRule_memo (r : Nat) (d : Def) (i : Nat) (x : Option Nat) (st : St V) :
    (finishRule cfg r d i x st).2.2.memo = st.memo := by
  have hr : ∀ f pd (s : St V), (reduce cfg r d f pd s).2.memo = s.memo := by
    intro f pd s
    unfold reduce callAction
    split
    · simp only; split <;> rfl
    · rfl
  unfold finishRule
  cases x with
  | none => simp only; split <;> rfl
  | some j =>
    simp only
    cases cfg.predicate r with
    | none =>
      simp only
      split
      · rfl
      · exact hr _ _ _
    | some f =>
      simp only
      repeat' split
      all_goals first | rfl | exact hr _ _ _

/-- One more `enter` of `q` at `p` if this is the call of `q` at `p`. -/
def oneIf (q p r i : Nat) : Nat := if r = q ∧ i = p then 1 else 0

theorem doParse_O (r : Nat) (d : Def) (i : Nat) (st : St V) (ho : StOk cfg st) (hi : i ≤ cfg.input.length) (hd : cfg.rules[r]? = some d) :
    (doParse rec cfg r d i st).All fun x => marked K st ≤ marked K x.2.2 ∧
      (evs x.2.2.dt).count (.enter q p) + marked K st ≤ (evs st.dt).count (.enter q p) + oneIf q p r i + marked K x.2.2 ∧
      (cfg.input.length < p → (evs x.2.2.dt).count (.enter q p) ≤ (evs st.dt).count (.enter q p)) := by
  have he : (evs (callEnter cfg r i st).dt).count (.enter q p) ≤ (evs st.dt).count (.enter q p) + oneIf q p r i := by
    unfold callEnter
    cases h : cfg.enter r with
    | none => exact Nat.le_add_right _ _
    | some f =>
      simp only [tr.enter r f h, List.count_append]
      unfold oneIf
      by_cases hc : r = q ∧ i = p
      · simp [hc]
      · simp only [hc, if_false, Nat.add_zero]
        have h0 : List.count (Ev.enter q p) [Ev.enter r i] = 0 := by
          refine List.count_eq_zero_of_not_mem fun hm => ?_
          have hm := List.mem_singleton.1 hm
          cases hm
          exact hc ⟨rfl, rfl⟩
        omega
  have hm : (callEnter cfg r i st).memo = st.memo ∧ (callEnter cfg r i st).lrMemo = st.lrMemo ∧ (callEnter cfg r i st).lrActive = st.lrActive := by
    unfold callEnter; cases cfg.enter r <;> exact ⟨rfl, rfl, rfl⟩
  have hm' : marked K (callEnter cfg r i st) = marked K st := by unfold marked; rw [hm.1]
  unfold doParse
  refine Out.All.bind (p := fun x : Res V => On cfg evs q p K { callEnter cfg r i st with vs := {} } x.2)
    (opeBody_O hw hg ih r d i _ (by exact ho.same ⟨hm.1, hm.2.1, hm.2.2⟩) hi) fun x hx => ?_
  have fc : (evs (finishRule cfg r d i x.1 x.2).2.2.dt).count (.enter q p) = (evs x.2.dt).count (.enter q p) := finishRule_cnt tr r d hd i x.1 x.2
  have fm : (finishRule cfg r d i x.1 x.2).2.2.memo = x.2.memo := finishRule_memo r d i x.1 x.2
  generalize hy : finishRule cfg r d i x.1 x.2 = y at fc fm ⊢
  have done : ∀ st' : St V, st'.memo = y.2.2.memo → (evs st'.dt).count (.enter q p) = (evs y.2.2.dt).count (.enter q p) →
      marked K st ≤ marked K st' ∧ (evs st'.dt).count (.enter q p) + marked K st ≤ (evs st.dt).count (.enter q p) + oneIf q p r i + marked K st' ∧
      (cfg.input.length < p → (evs st'.dt).count (.enter q p) ≤ (evs st.dt).count (.enter q p)) := by
    intro st' h1 h2
    have m1 : marked K st' = marked K x.2 := by unfold marked; rw [h1, fm]
    have a := hx.mono
    have b := hx.cnt
    have e1 : marked K { callEnter cfg r i st with vs := {} } = marked K st := hm'
    rw [e1] at a b
    rw [h2, fc, m1]
    refine ⟨a, ?_, fun hp => ?_⟩
    · have b : (evs x.2.dt).count (.enter q p) + marked K st ≤ (evs (callEnter cfg r i st).dt).count (.enter q p) + marked K x.2 := b
      omega
    · have b : (evs x.2.dt).count (.enter q p) ≤ (evs (callEnter cfg r i st).dt).count (.enter q p) := hx.far hp
      have : oneIf q p r i = 0 := by unfold oneIf; rw [if_neg]; rintro ⟨-, rfl⟩; omega
      omega
  simp only
  cases hl : cfg.leave r with
  | none => exact .ok (done _ rfl rfl)
  | some f => exact .ok (done _ rfl (by simp [tr.leave r f hl, List.count_append]))

/-- A rule other than `q`, or another position. -/
theorem doParse_other (r : Nat) (d : Def) (i : Nat) (st : St V) (ho : StOk cfg st) (hi : i ≤ cfg.input.length) (hd : cfg.rules[r]? = some d)
    (hne : ¬ (r = q ∧ i = p)) : OnV cfg evs q p K st (doParse rec cfg r d i st) := by
  refine (doParse_O tr hw hg ih r d i st ho hi hd).imp fun x hx => ⟨hx.1, ?_, hx.2.2⟩
  have := hx.2.1
  simp only [oneIf, if_neg hne, Nat.add_zero] at this
  exact this

omit tr ih hg in
/-- A match fits into its table entry. -/
theorem on_writeMemo (r i j : Nat) (v : Option V) (st : St V) (hj : j ≤ cfg.input.length) : On cfg evs q p K st (writeMemo cfg r i j v st) := by
  have hf := hw.fits
  unfold writeMemo
  rw [if_pos hw.pack]
  split
  · rename_i a ha
    split
    · rw [if_pos (by omega)]
      have : marked K st ≤ marked K { st with memo := fset st.memo (cfg.memoIdx a i) (some (some (j - i, v))) } := by
        unfold marked fset
        by_cases h : K = cfg.memoIdx a i
        · simp [h]; split <;> simp
        · simp [h]
      exact ⟨this, by show List.count _ (evs st.dt) + _ ≤ List.count _ (evs st.dt) + _; omega, fun _ => Nat.le_refl _⟩
    · exact On.refl _
  · exact On.refl _

omit tr hg ih in
theorem slot_other {r a : Nat} (ha : cfg.slot (cfg.defId r) = some a) (hr : r ≠ q) (i : Nat) : K ≠ cfg.memoIdx a i := by
  intro h
  have := memoIdx_inj2 (hw.slots hw.pack q s hw.slot) (hw.slots hw.pack r a ha) h
  exact hr (hw.own r (this.1 ▸ ha))

omit tr hg ih in
theorem on_clearMemo (r i : Nat) (st : St V) (hr : r ≠ q) : On cfg evs q p K st (clearMemo cfg r i st) := by
  unfold clearMemo
  rw [if_pos hw.pack]
  split
  · rename_i a ha
    have e : marked K { st with memo := fset st.memo (cfg.memoIdx a i) none } = marked K st := by
      unfold marked fset
      simp [slot_other hw ha hr i]
    refine ⟨by rw [e]; exact Nat.le_refl _, by rw [e]; exact Nat.le_refl _, fun _ => Nat.le_refl _⟩
  · exact On.refl _

omit tr hw hg ih in
theorem reentered_O (k : Nat) (st : St V) : OnV cfg evs q p k st (reentered cfg st) := fun r h => by
  rw [reentered_ok h]; exact On.refl _

omit tr hg ih in
/-- The call of a rule through its table entry, or past it. -/
theorem guarded_O (r i : Nat) (st : St V) (ho : StOk cfg st) (fn : St V → Out (VRes V))
    (hP : ∀ st1 x, StOk cfg st1 → fn st1 = .ok x → P cfg i st1 (x.1, x.2.2))
    (hf : ∀ s, StOk cfg s → (fn s).All fun x => marked K s ≤ marked K x.2.2 ∧
      (evs x.2.2.dt).count (.enter q p) + marked K s ≤ (evs s.dt).count (.enter q p) + oneIf q p r i + marked K x.2.2 ∧
      (cfg.input.length < p → (evs x.2.2.dt).count (.enter q p) ≤ (evs s.dt).count (.enter q p))) :
    OnV cfg evs q p K st (guarded cfg r i st fn) := by
  unfold guarded
  rw [if_pos hw.pack]
  split
  · rename_i hs
    have hne : ¬ (r = q ∧ i = p) := by
      rintro ⟨rfl, -⟩; rw [hw.slot] at hs; cases hs
    split
    · exact .ub
    · split
      · exact reentered_O _ _
      · refine Out.All.bind (p := fun x : VRes V => On cfg evs q p K st x.2.2) ?_ fun x hx => .ok (hx.trans osame)
        have := hf { st with active := fset st.active (cfg.defId r) (some i) } (ho.same ⟨rfl, rfl, rfl⟩)
        exact this.imp fun x hx => ⟨hx.1, by have := hx.2.1; simp only [oneIf, if_neg hne, Nat.add_zero] at this; exact this, hx.2.2⟩
  · rename_i a ha
    split
    · exact .ub
    · split
      · exact .ok (On.refl _)
      · exact .ok (On.refl _)
      · rename_i hnone
        have ho1 : StOk cfg { st with memo := fset st.memo (cfg.memoIdx a i) (some none) } := ho.fset _ _ (by intro len v e; cases e)
        have key : ∀ x : VRes V, fn { st with memo := fset st.memo (cfg.memoIdx a i) (some none) } = .ok x → On cfg evs q p K st x.2.2 := by
          intro x hx
          have h := hf _ ho1 x hx
          by_cases hc : r = q ∧ i = p
          · obtain ⟨rfl, rfl⟩ := hc
            rw [hw.slot] at ha; cases ha
            have e1 : marked (cfg.memoIdx s i) { st with memo := fset st.memo (cfg.memoIdx s i) (some none) } = 1 := by
              simp [marked, fset]
            have e0 : marked (cfg.memoIdx s i) st = 0 := by simp [marked, hnone]
            rw [e1] at h
            simp only [oneIf, and_self, if_true] at h
            refine ⟨by omega, ?_, h.2.2⟩
            have := h.2.1
            have : (evs x.2.2.dt).count (.enter r i) + 1 ≤ (evs st.dt).count (.enter r i) + 1 + marked (cfg.memoIdx s i) x.2.2 := this
            omega
          · have e1 : marked K { st with memo := fset st.memo (cfg.memoIdx a i) (some none) } = marked K st := by
              have : K ≠ cfg.memoIdx a i := by
                intro h
                have := memoIdx_inj2 (hw.slots hw.pack q s hw.slot) (hw.slots hw.pack r a ha) h
                exact hc ⟨hw.own r (this.1 ▸ ha), this.2.symm⟩
              simp [marked, fset, this]
            rw [e1] at h
            simp only [oneIf, if_neg hc, Nat.add_zero] at h
            exact ⟨h.1, h.2.1, h.2.2⟩
        refine Out.All.bind (p := fun x : VRes V => On cfg evs q p K st x.2.2 ∧ P cfg i _ (x.1, x.2.2)) (fun x hx => ⟨key x hx, hP _ x ho1 hx⟩) fun x hx => ?_
        split
        · rename_i j hj
          exact .ok (hx.1.trans (on_writeMemo hw _ _ _ _ _ (hx.2.bounds j hj).2))
        · exact .ok hx.1

omit tr hw hg ih in
theorem on_emplace (k : Nat) (d : Def) (v : Option V) (st : St V) : On cfg evs q p k st (emplace cfg d v st) := by
  unfold emplace; split
  · exact osame
  · exact On.refl _

omit tr ih hg in
theorem on_growDone (r inst : Nat) (d : Def) (i j : Nat) (v : Option V) (st : St V) (hj : j ≤ cfg.input.length) :
    On cfg evs q p K st (growDone cfg r inst d i j v st).2 := by
  unfold growDone
  simp only
  refine On.trans ?_ (on_emplace _ _ _ _)
  split
  · exact osame
  · exact (on_writeMemo hw _ _ _ _ _ hj).trans osame

theorem growRound_O (r inst : Nat) (cyc : List (Nat × Nat)) (j : Nat) (v : Option V) (i : Nat) (st : St V) (ho : StOk cfg st)
    (hi : i ≤ cfg.input.length) (hj : i ≤ j ∧ j ≤ cfg.input.length) (hr : isLRRule cfg r) :
    OnO cfg evs q p K st (growRound rec cfg r inst cyc j v i st) := by
  unfold growRound
  split
  · exact .ub
  · rename_i d hd
    have hne : r ≠ q := by
      rintro rfl
      exact hw.lr hr
    have h0 : On cfg evs q p K st (if d.isMacro then st else clearMemo cfg r i st) ∧ StOk cfg (if d.isMacro then st else clearMemo cfg r i st) := by
      split
      · exact ⟨On.refl _, ho⟩
      · exact ⟨on_clearMemo hw _ _ _ hne, (keep_clearMemo cfg r i st).2.2 ho⟩
    simp only
    generalize (if d.isMacro then st else clearMemo cfg r i st) = st0 at h0 ⊢
    have o1 := h0.2.lrFilter (fun e => !(e.1.2.2 = i && (e.1.1, e.1.2.1) ≠ (r, inst) && (e.1.1, e.1.2.1) ∈ cyc && e.1 ∉ st0.lrActive))
      (by intro e he; simp [he])
    have hx := doParse_other tr hw hg ih r d i _ o1 hi hd (fun h => hne h.1)
    refine Out.All.bind (p := fun x : VRes V => On cfg evs q p K st x.2.2 ∧ StOk cfg x.2.2 ∧ ∀ j, x.1 = some j → i ≤ j ∧ j ≤ cfg.input.length)
      (fun x h => ⟨(h0.1.trans osame).trans (hx x h), ?_⟩) fun x hx => ?_
    · have := doParse_P hg hw.slots o1 hi h
      exact ⟨this.ok, this.bounds⟩
    · obtain ⟨hx, xo, xb⟩ := hx
      split
      · exact .ok (hx.trans (on_growDone hw _ _ _ _ _ _ _ hj.2))
      · rename_i j' hj'
        split
        · exact .ok (hx.trans (on_growDone hw _ _ _ _ _ _ _ hj.2))
        · have b := xb j' hj'
          refine (ih (.grow r inst cyc j' x.2.1) _ _ ?_ hi ⟨b, hr⟩).pre (hx.trans osame)
          exact xo.lrSet r inst i (some (j', x.2.1)) (by intro j v e; cases e; exact b)

theorem lrHold_O (r : Nat) (d : Def) (i : Nat) (st : St V) (ho : StOk cfg st) (hi : i ≤ cfg.input.length) (hd : cfg.rules[r]? = some d)
    (hl : d.isLR = true) : OnO cfg evs q p K st (lrHold rec cfg r d i st) := by
  have hr : isLRRule cfg r := ⟨d, hd, hl⟩
  have hne : r ≠ q := by rintro rfl; exact hw.lr hr
  unfold lrHold
  split
  · exact .ub
  · rename_i inst _ _
    cases hm : st.lrMemo.lookup (r, inst, i) with
    | some m =>
      simp only
      split
      · exact Out.All.ok (On.trans osame (on_emplace _ d _ _))
      · exact .okr osame
    | none =>
      simp only
      have o1 : StOk cfg { st with
          lrMemo := Verif.lrSet (r, inst, i) none st.lrMemo
          lrActive := setInsert (r, inst, i) st.lrActive
          lrRefs := [] } := by
        have o := ho.lrSet r inst i none (by intro j v e; cases e)
        refine ⟨o.memo, o.lr, ?_⟩
        intro k hk
        have hk : k = (r, inst, i) ∨ k ∈ st.lrActive := by
          have hk : k ∈ setInsert (r, inst, i) st.lrActive := hk
          unfold setInsert at hk
          split at hk
          · exact .inr hk
          · exact List.mem_cons.1 hk
        rcases hk with rfl | hk
        · refine ⟨?_, hr⟩
          show (List.lookup _ (Verif.lrSet _ _ _)).isSome = true
          rw [lrSet_lookup]; simp
        · exact o.act k hk
      have hx := doParse_other tr hw hg ih r d i _ o1 hi hd (fun h => hne h.1)
      refine Out.All.bind (p := fun x : VRes V => On cfg evs q p K st x.2.2 ∧ StOk cfg x.2.2 ∧ ∀ j, x.1 = some j → i ≤ j ∧ j ≤ cfg.input.length)
        (fun x h => ⟨On.trans osame (hx x h), ?_⟩) fun x hx => ?_
      · have := doParse_P hg hw.slots o1 hi h
        exact ⟨this.ok, this.bounds⟩
      · obtain ⟨hx, xo, xb⟩ := hx
        split
        · exact .ok (hx.trans osame)
        · rename_i j hj
          have b := xb j hj
          refine OnO.pre (hx.trans ?_) (ih (.grow r inst _ j x.2.1) _ _ ?_ hi ⟨b, hr⟩)
          · exact osame
          · have o := xo.lrSet r inst i (some (j, x.2.1)) (by intro j v e; cases e; exact b)
            exact ⟨o.memo, o.lr, o.act⟩

theorem holder_O (r i : Nat) (st : St V) (ho : StOk cfg st) (hi : i ≤ cfg.input.length) : OnO cfg evs q p K st (holder rec cfg r i st) := by
  unfold holder
  split
  · exact .ub
  · rename_i d hd
    split
    · exact OnO.after ((ih (.ope d.ope) _ _ (by exact ho.same ⟨rfl, rfl, rfl⟩) hi trivial).pre (a := st) osame) fun _ => osame
    · split
      · rename_i hl
        exact lrHold_O tr hw hg ih _ _ _ _ ho hi hd hl
      · split
        · refine Out.All.bind (guarded_O hw r i st ho _ (fun st1 y ho1 hy => ?_) fun s hs => ?_) fun x hx => .ok hx
          · rw [Out.bind_eq_ok] at hy
            obtain ⟨z, hz, hy⟩ := hy
            cases hy
            exact opeBody_P hg hw.slots ho1 hi hz
          · exact Out.All.bind (opeBody_O hw hg ih r d i s hs hi) fun x hx => .ok ⟨hx.mono, by
              have := hx.cnt
              show List.count _ (evs x.2.dt) + _ ≤ _ + _ + marked _ x.2
              omega, hx.far⟩
        · refine Out.All.bind (guarded_O hw r i st ho _ (fun st1 y ho1 hy => doParse_P hg hw.slots ho1 hi hy)
            fun s hs => doParse_O tr hw hg ih _ _ _ _ hs hi hd) fun x hx => ?_
          split
          · exact .ok (hx.trans (on_emplace _ _ _ _))
          · exact .ok hx

omit tr hw hg ih in
theorem withArgs_O (k : Nat) (st : St V) (f : List Ope × Nat) (ho : StOk cfg st) (x : St V → Out (Res V))
    (hx : ∀ s, StOk cfg s → OnO cfg evs q p k s (x s)) : OnO cfg evs q p k st (withArgs st f x) := by
  unfold withArgs
  exact OnO.after ((hx _ (by exact ho.same ⟨rfl, rfl, rfl⟩)).pre (a := st) osame) fun _ => osame

omit tr hw hg in
theorem refer_O (r : Nat) (as : List Ope) (i : Nat) (st : St V) (ho : StOk cfg st) (hi : i ≤ cfg.input.length) :
    OnO cfg evs q p K st (refer rec cfg r as i st) := by
  have hx : ∀ s : St V, StOk cfg s → OnO cfg evs q p K s (rec cfg (.hold r) i s) := fun s hs => ih _ _ _ hs hi trivial
  unfold refer
  split
  · exact .ub
  · split
    · split
      · exact .ub
      · exact .ub
      · split
        · exact .ub
        · split
          · exact .ub
          · simp only
            split
            · exact (withArgs_O _ _ _ (by exact ho.same ⟨rfl, rfl, rfl⟩) _ hx).pre (a := st) osame
            · exact withArgs_O _ _ _ ho _ hx
    · split
      · exact hx _ ho
      · exact withArgs_O _ _ _ ho _ hx

omit tr hw hg in
theorem parseParam_O (k i : Nat) (st : St V) (ho : StOk cfg st) (hi : i ≤ cfg.input.length) : OnO cfg evs q p K st (parseParam rec cfg k i st) := by
  unfold parseParam
  split
  · exact .ub
  · split
    · exact .ub
    · exact ih _ _ _ ho hi trivial

omit tr in
theorem parsePrec_O (a b : Ope) (info : List (List Byte × Nat × Byte)) (r mp i : Nat) (st : St V) (ho : StOk cfg st)
    (hi : i ≤ cfg.input.length) : OnO cfg evs q p K st (parsePrec rec cfg a b info r mp i st) := by
  unfold parsePrec
  have h := ope_PO hw hg ih a i _ ho hi
  refine OnO.andThen h.1 h.2 fun j s hs hj => ?_
  refine Out.All.bind (p := fun _ => True) (fun _ _ => trivial) fun q _ => ?_
  exact OnO.after ((ih (.precLoop a b info r mp q i) _ _ (by exact hs.same ⟨rfl, rfl, rfl⟩) hj trivial).pre (a := s) osame) fun _ => osame

omit hw hg ih in
theorem on_precReduce (k r s j : Nat) (st : St V) : On cfg evs q p k st (precReduce cfg r s j st) := by
  unfold precReduce
  split
  · simp only
    have h := (callAction_dt tr r { st.vs with sv := (s, j - s) } none st).1
    have m : (callAction cfg r { st.vs with sv := (s, j - s) } none st).2.memo = st.memo := by
      unfold callAction; simp only; split <;> rfl
    refine ⟨?_, ?_, fun _ => ?_⟩
    · unfold marked; simp only [m]; exact Nat.le_refl _
    · simp only [h, List.count_append]
      unfold marked
      simp only [m]
      split <;> simp
    · simp only [h, List.count_append]
      split <;> simp
  · exact osame

theorem precRound_O (a b : Ope) (info : List (List Byte × Nat × Byte)) (r mp bn t i : Nat) (st : St V) (ho : StOk cfg st)
    (hi : i ≤ cfg.input.length) : OnO cfg evs q p K st (precRound rec cfg a b info r mp bn t i st) := by
  unfold precRound
  split
  · have h1 := ope_PO hw hg ih b i { st with vs := {} } (ho.same ⟨rfl, rfl, rfl⟩) hi
    refine Out.All.bind (p := fun x : Res V => On cfg evs q p K st x.2 ∧ P cfg i { st with vs := {} } x)
      (fun x hx => ⟨On.trans osame (h1.2 x hx), h1.1 x hx⟩) fun x hx => ?_
    obtain ⟨hx, hp⟩ := hx
    simp only
    split
    · exact .ok (hx.trans osame)
    · rename_i j hj
      split
      · exact .ok (hx.trans osame)
      · split
        · exact .ok (hx.trans osame)
        · split
          · exact .ub
          · refine Out.All.bind (p := fun y : Res V => On cfg evs q p K st y.2 ∧ StOk cfg y.2 ∧ ∀ j, y.1 = some j → j ≤ cfg.input.length)
              (fun y hy => ?_) fun y hy => ?_
            · have ho2 : StOk cfg { x.2 with vs := {} } := hp.ok.same ⟨rfl, rfl, rfl⟩
              have h2 := ih _ j { x.2 with vs := {} } ho2 (hp.bounds j hj).2 (by exact trivial) y hy
              have p2 := Good.task hg hw.slots ho2 (hp.bounds j hj).2 hy trivial (fun _ => rfl)
              exact ⟨(hx.trans osame).trans h2, p2.ok, fun k hk => (p2.bounds k hk).2⟩
            · obtain ⟨hy, oy, by_⟩ := hy
              split
              · exact .ok (hy.trans osame)
              · rename_i k hk
                split
                · exact .ub
                · have h3 : ∀ f, On cfg evs q p K st (precReduce cfg r t k { y.2 with vs := f }) ∧ StOk cfg (precReduce cfg r t k { y.2 with vs := f }) :=
                    fun f => ⟨(hy.trans osame).trans (on_precReduce tr _ r t k { y.2 with vs := f }),
                      StOk.same (st := { y.2 with vs := f }) (oy.same ⟨rfl, rfl, rfl⟩) (keep_precReduce hg cfg r t k { y.2 with vs := f }).2⟩
                  exact (ih (.precLoop a b info r mp bn t) _ _ (h3 _).2 (by_ k hk) trivial).pre (h3 _).1
  · exact .okr (On.refl _)

omit tr hw hg in
theorem parseRecov_O (r : Nat) (nm : List Byte) (as : List Ope) (i : Nat) (st : St V) (ho : StOk cfg st) (hi : i ≤ cfg.input.length) :
    OnO cfg evs q p K st (parseRecov rec cfg r nm as i st) := by
  unfold parseRecov
  simp only
  refine Out.All.bind (p := fun s => On cfg evs q p K st s ∧ StOk cfg s) ?_ fun s hs => ?_
  · split
    · split
      · exact .ub
      · split
        · exact .ub
        · split
          · exact .ok ⟨osame, ho.same ⟨rfl, rfl, rfl⟩⟩
          · exact .ok ⟨On.refl _, ho⟩
      · exact .ub
      · exact .ok ⟨On.refl _, ho⟩
    · exact .ok ⟨On.refl _, ho⟩
  · obtain ⟨hs, os⟩ := hs
    refine Out.All.bind (p := fun x : Res V => marked K s ≤ marked K x.2) (fun x hx => ?_) fun x hx => ?_
    · exact (ih (.ope (.ref r nm as)) _ _ (by exact os.same ⟨rfl, rfl, rfl⟩) hi trivial x hx).mono
    have h1 : ∀ s' : St V, s'.dt = s.dt → s'.memo = x.2.memo → On cfg evs q p K s s' := by
      intro s' e1 e2
      have e : marked K s' = marked K x.2 := by unfold marked; rw [e2]
      exact ⟨by rw [e]; exact hx, by rw [e, e1]; omega, fun _ => by rw [e1]; exact Nat.le_refl _⟩
    refine Out.All.bind (p := fun s' => On cfg evs q p K st s') ?_ fun s' hs' => ?_
    · split
      · split
        · intro s' h'
          obtain ⟨u, hu, he⟩ := Out.bind_eq_ok.1 h'
          cases he
          exact hs.trans (h1 _ rfl rfl)
        · exact .ok (hs.trans (h1 _ rfl rfl))
      · exact .ok (hs.trans (h1 _ rfl rfl))
    · exact .ok (hs'.trans (on_setCut _ _ _))

theorem parseOpe_O (e : Ope) (i : Nat) (st : St V) (ho : StOk cfg st) (hi : i ≤ cfg.input.length) :
    OnO cfg evs q p K st (parseOpe rec cfg e i st) := by
  unfold parseOpe
  split
  · exact .ub
  · cases e with
    | seq es kw => exact parseSeq_O hw hg ih _ _ _ _ ho hi
    | cho es l fs => exact parseCho_O hw hg ih _ _ _ _ _ ho hi
    | rep e mn mx sp => exact parseRep_O hw hg ih _ _ _ _ _ _ ho hi
    | and_ e => exact parseAnd_O ih _ _ _ ho hi
    | not_ e => exact parseNot_O ih _ _ _ ho hi
    | dict w ic => exact parseDict_O ih _ _ _ _ ho hi
    | lit s ic => exact parseLiteral_O ih _ _ _ _ _ ho hi
    | cls c => exact terminal_O _ _ _ _
    | chr c => exact terminal_O _ _ _ _
    | dot => exact terminal_O _ _ _ _
    | capScope e => exact parseCapScope_O ih _ _ _ ho hi
    | cap nm e => exact parseCap_O hw hg ih _ _ _ _ ho hi
    | tok e => exact tokenBody_O hw hg ih _ _ _ ho hi
    | ign e => exact parseIgn_O ih _ _ _ ho hi
    | usr id => exact parseUsr_O tr _ _ _ _
    | weak r => exact ih (.hold r) _ _ ho hi trivial
    | ref r nm as => exact refer_O ih _ _ _ _ ho hi
    | param k nm => exact parseParam_O ih _ _ _ ho hi
    | ws e => exact parseWs_O ih _ _ _ ho hi
    | bref nm => exact parseBref_O ih _ _ _ ho hi
    | prec a b info r => exact ih (.prec a b info r 0) _ _ ho hi trivial
    | recov r nm as => exact parseRecov_O ih _ _ _ _ _ ho hi
    | cut => exact .okr (on_setCut _ _ _)
    | null => exact .ub

theorem step_O (k : Task V) (i : Nat) (st : St V) (ho : StOk cfg st) (hi : i ≤ cfg.input.length) (hk : OPre cfg k i) :
    OnO cfg evs q p K st (step rec cfg k i st) := by
  cases k with
  | ope e => exact parseOpe_O tr hw hg ih _ _ _ ho hi
  | rep e mx c => exact repRound_O hw hg ih _ _ _ _ _ ho hi
  | hold r => exact holder_O tr hw hg ih _ _ _ ho hi
  | grow r inst cyc j v => exact growRound_O tr hw hg ih _ _ _ _ _ _ _ ho hi hk.1 hk.2
  | prec a b info r mp => exact parsePrec_O hw hg ih _ _ _ _ _ _ _ ho hi
  | precLoop a b info r mp bin s => exact precRound_O tr hw hg ih _ _ _ _ _ _ _ _ _ ho hi

end

section
variable {cfg : Cfg V} {evs : Option V → List Ev} {q p s : Nat} (tr : Traced cfg evs) (hw : OwnSlot cfg q s)
include tr hw

theorem run_O (n : Nat) (k : Task V) (i : Nat) (st : St V) (ho : StOk cfg st) (hi : i ≤ cfg.input.length) (hk : OPre cfg k i) :
    OnO cfg evs q p (cfg.memoIdx s p) st (run n cfg k i st) := by
  induction n generalizing k i st with
  | zero => exact .oof
  | succ n ih => exact step_O tr hw (run_good n) ih _ _ _ ho hi hk

/-- A whole parse. -/
theorem parseCore_O (n : Nat) (r : Nat) (eoi : Bool) (st : St V) (ho : StOk cfg st) :
    (parseCore n cfg r eoi st).All fun res => On cfg evs q p (cfg.memoIdx s p) st res.st := by
  unfold parseCore
  refine Out.All.bind (p := fun x : Res V => On cfg evs q p (cfg.memoIdx s p) st x.2 ∧ P cfg 0 st x) ?_ fun x hx => ?_
  · split
    · exact .ok ⟨On.refl _, P.stay ho (Nat.zero_le _)⟩
    · intro x hx
      exact ⟨run_O tr hw _ _ _ _ ho (Nat.zero_le _) (by exact trivial) x hx, (run_good n).ope hw.slots ho (Nat.zero_le _) hx⟩
  · obtain ⟨hx, hp⟩ := hx
    split
    · exact .ok hx
    · rename_i j hj
      refine Out.All.bind (p := fun x : Res V => On cfg evs q p (cfg.memoIdx s p) st x.2)
        ((run_O tr hw n (.hold r) _ _ hp.ok (hp.bounds j hj).2 trivial).pre hx) fun y hy => ?_
      split
      · exact .ok hy
      · unfold eoiCheck
        split
        · simp only
          split
          · exact .ok (hy.trans osame)
          · exact .ok hy
        · exact .ok hy

end
end Verif
