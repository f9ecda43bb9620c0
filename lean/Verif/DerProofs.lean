import Verif.DerOk
/-!
# Every match has a derivation
-/

namespace Verif
open Out CharClass

variable {V : Type}

/-- The scope of macro arguments of a state. -/
def St.env (st : St V) : DEnv := ⟨st.ruleStack.head?, (st.args.head?.map (·.1)).getD []⟩

theorem Keep.env {st st' : St V} (h : Keep st st') : st'.env = st.env := by
  unfold St.env; rw [h.ruleStack, h.args]

/-- What is remembered of errors: positions are allowed ones, and literals of captures are expected only if back references occur. -/
structure ErrD (L : Lg) (e : Err) (logs : List Report) : Prop where
  pos : ∀ p, e.pos = some p → L.al p
  msgPos : ∀ p, e.msgPos = some p → L.al p
  toks : ∀ t ∈ e.toks, ∀ c, t.1 = some (.cap c) → L.bref
  logs : ∀ rep ∈ logs, L.al rep.pos

/-- Everything remembered in the state is justified by a derivation. -/
structure StD (cfg : Cfg V) (L : Lg) (st : St V) : Prop where
  caps : ∀ c ∈ st.caps, L.K.cap c.1 c.2
  memo : cfg.packrat = true → ∀ (q : Nat) (d : Def) (s p len : Nat) (v : Option V), cfg.rules[q]? = some d →
    cfg.slot (cfg.defId q) = some s → st.memo (cfg.memoIdx s p) = some (some (len, v)) →
    ∀ E, Der cfg L.K E (.rule q v) p {} (p + len) {}
  lr : ∀ (q inst p j : Nat) (v : Option V), ((q, inst, p), some (j, v)) ∈ st.lrMemo → ∀ E, Der cfg L.K E (.rule q v) p {} j {}
  args : ∀ fr ∈ st.args.head?, ∀ e ∈ fr.1, e.Ok L
  reco : L.K.recov = false → st.recovered = false
  err : ErrD L st.err st.logs

/-- The parts of the state the invariant is about. -/
structure SameD (st st' : St V) : Prop where
  caps : st'.caps = st.caps
  memo : st'.memo = st.memo
  lrMemo : st'.lrMemo = st.lrMemo
  args : st'.args = st.args
  recovered : st'.recovered = st.recovered
  pos : st'.err.pos = st.err.pos
  msgPos : st'.err.msgPos = st.err.msgPos
  toks : st'.err.toks = st.err.toks
  logs : st'.logs = st.logs

theorem StD.same {cfg : Cfg V} {L : Lg} {st st' : St V} (h : StD cfg L st) (s : SameD st st') : StD cfg L st' :=
  ⟨by rw [s.caps]; exact h.caps, by rw [s.memo]; exact h.memo, by rw [s.lrMemo]; exact h.lr, by rw [s.args]; exact h.args,
   by rw [s.recovered]; exact h.reco,
   ⟨by rw [s.pos]; exact h.err.pos, by rw [s.msgPos]; exact h.err.msgPos, by rw [s.toks]; exact h.err.toks, by rw [s.logs]; exact h.err.logs⟩⟩

theorem StD.withErr {cfg : Cfg V} {L : Lg} {st : St V} (h : StD cfg L st) {e : Err} {l : List Report} {fl : List Fail} (he : ErrD L e l) :
    StD cfg L { st with err := e, logs := l, fails := fl } := ⟨h.caps, h.memo, h.lr, h.args, h.reco, he⟩

theorem ErrD.add {L : Lg} {e : Err} {l : List Report} (h : ErrD L e l) {t : Option ErrLit × Option Nat} (ht : ∀ c, t.1 = some (.cap c) → L.bref) :
    ErrD L (e.add t) l := by
  unfold Err.add
  split
  · exact h
  · refine ⟨h.pos, h.msgPos, ?_, h.logs⟩
    intro t' ht' c hc
    rcases List.mem_append.mp ht' with h' | h'
    · exact h.toks t' h' c hc
    · rw [List.mem_singleton] at h'; subst h'; exact ht c hc

theorem ErrD.at {L : Lg} {e : Err} {l : List Report} (h : ErrD L e l) {i : Nat} (hi : L.al i) : ErrD L { e with pos := some i, toks := [] } l :=
  ⟨(fun p hp => by cases hp; exact hi), h.msgPos, (fun t ht => by cases ht), h.logs⟩

theorem ErrD.note {L : Lg} {e : Err} {l : List Report} (h : ErrD L e l) {n : Note} (hi : L.al n.pos) : ErrD L (e.note n) l := by
  unfold Err.note
  split
  · exact ⟨h.pos, (fun p hp => by cases hp; exact hi), h.toks, h.logs⟩
  · exact ⟨h.pos, h.msgPos, h.toks, h.logs⟩

/-- The position of a report is one of the positions remembered. -/
theorem ErrD.output {L : Lg} {e : Err} {l : List Report} (h : ErrD L e l) {rules : List Def} {o : Option Report × Err} (ho : e.output rules = .ok o) :
    ∀ rep, o.1 = some rep → L.al rep.pos := by
  intro rep hr
  unfold Err.output at ho
  cases hm : e.msgPos with
  | some p =>
    rw [hm] at ho
    simp only at ho
    split at ho
    · cases ho; cases hr; exact h.msgPos p hm
    · cases ho; cases hr
  | none =>
    rw [hm] at ho
    cases hp : e.pos with
    | none => rw [hp] at ho; cases ho; cases hr
    | some p =>
      rw [hp] at ho
      simp only at ho
      split at ho
      · rw [Out.bind_eq_ok] at ho
        obtain ⟨x, -, ho⟩ := ho
        cases ho; cases hr; exact h.pos p hp
      · cases ho; cases hr

theorem StD.note {cfg : Cfg V} {L : Lg} {st : St V} (h : StD cfg L st) {n : Note} (hi : L.al n.pos) :
    StD cfg L { st with err := st.err.note n } := ⟨h.caps, h.memo, h.lr, h.args, h.reco, h.err.note hi⟩

theorem StD.setErr {cfg : Cfg V} {L : Lg} {st : St V} (h : StD cfg L st) {i : Nat} {l : Option ErrLit} (hi : L.al i)
    (hl : ∀ c, l = some (.cap c) → L.bref) : StD cfg L (Verif.setErr cfg st i l) := by
  unfold Verif.setErr
  split
  · refine h.withErr ?_
    have ht : ∀ t, expectation cfg.rules st.ruleStack l = some t → ∀ c, t.1 = some (.cap c) → L.bref := by
      intro t ht c hc
      unfold expectation at ht
      cases l with
      | some l =>
        simp only [Option.isSome_some, Bool.true_or, if_true] at ht
        cases ht
        exact hl c hc
      | none =>
        simp only at ht
        generalize (st.ruleStack.head?.bind fun r => cfg.rules[r]?.bind (·.errLit)) = o at ht
        by_cases hb : ((o.map ErrLit.lit).isSome || (errRule cfg.rules st.ruleStack.reverse none).isSome) = true
        · rw [if_pos hb] at ht
          cases ht
          cases o <;> cases hc
        · rw [if_neg hb] at ht; cases ht
    unfold Err.setPos
    split
    · have key : ∀ e, ErrD L e st.logs → ErrD L (match expectation cfg.rules st.ruleStack l with | some t => e.add t | none => e) st.logs := by
        intro e he
        cases hx : expectation cfg.rules st.ruleStack l with
        | none => exact he
        | some t => exact he.add (ht t hx)
      refine key _ ?_
      split
      · exact h.err.at hi
      · exact h.err
    · exact h.err
  · exact h

theorem StD.fsErr {cfg : Cfg V} {L : Lg} {st : St V} (h : StD cfg L st) {fs : FirstSet} {id i : Nat} (hi : L.al i) :
    StD cfg L (Verif.fsErr st fs id i) := by
  unfold Verif.fsErr
  split
  · refine h.withErr ?_
    split
    · refine ErrD.add ?_ ?_
      · split
        · exact h.err.at hi
        · exact h.err
      · intro c hc
        split at hc <;> cases hc
    · exact h.err
  · exact h

theorem StD.env {cfg : Cfg V} {L : Lg} {st : St V} (h : StD cfg L st) : DEnv.Ok L st.env := by
  intro e he
  unfold St.env at he
  cases ha : st.args with
  | nil => simp [ha] at he
  | cons fr tl =>
    simp [ha] at he
    exact h.args fr (by rw [ha]; rfl) e he

structure DPre (cfg : Cfg V) (L : Lg) (i : Nat) (st : St V) : Prop where
  ok : StOk cfg st
  le : i ≤ cfg.input.length
  d : StD cfg L st
  al : L.al i

theorem DPre.pre {cfg : Cfg V} {L : Lg} {i : Nat} {st : St V} (H : DHyp cfg L) (h : DPre cfg L i st) : Pre cfg i st :=
  ⟨H.slots, h.ok, h.le, fun f hf e he => (h.d.args f hf e he).noPrec⟩

theorem DPre.same {cfg : Cfg V} {L : Lg} {i : Nat} {st st' : St V} (h : DPre cfg L i st) (m : SameMemo st st')
    (s : SameD st st') : DPre cfg L i st' := ⟨h.ok.same m, h.le, h.d.same s, h.al⟩

/-- The postcondition. -/
structure DQ (cfg : Cfg V) (L : Lg) (t : DTask V) (i : Nat) (st : St V) (r : Res V) : Prop where
  d : StD cfg L r.2
  der : ∀ j, r.1 = some j → Der cfg L.K st.env t i st.vs j r.2.vs

theorem DQ.fail {cfg : Cfg V} {L : Lg} {t : DTask V} {i : Nat} {st st' : St V} (h : StD cfg L st') :
    DQ cfg L t i st (none, st') := ⟨h, by intro j e; cases e⟩

theorem DQ.ok {cfg : Cfg V} {L : Lg} {t : DTask V} {i j : Nat} {st st' : St V} (h : StD cfg L st')
    (hd : Der cfg L.K st.env t i st.vs j st'.vs) : DQ cfg L t i st (some j, st') :=
  ⟨h, by intro j' e; cases e; exact hd⟩

/-- Going on after a successful step. -/
theorem DPre.step {cfg : Cfg V} {L : Lg} {t : DTask V} {i j : Nat} {st st' : St V} (H : DHyp cfg L) (h : DPre cfg L i st)
    (ht : t.Ok L) (p : P cfg i st (some j, st')) (q : DQ cfg L t i st (some j, st')) : DPre cfg L j st' :=
  ⟨p.ok, (p.bounds j rfl).2, q.d, H.closed _ _ _ _ _ _ h.d.env ht h.al (q.der j rfl)⟩

theorem DPre.after {cfg : Cfg V} {L : Lg} {i : Nat} {st st' : St V} {r : Option Nat} (h : DPre cfg L i st)
    (p : P cfg i st (r, st')) (d : StD cfg L st') : DPre cfg L i st' := ⟨p.ok, h.le, d, h.al⟩

/-- A rule is called: if its body uses macro arguments, none are in scope (macros excepted). -/
def HoldPre (cfg : Cfg V) (q : Nat) (st : St V) : Prop :=
  ∀ d, cfg.rules[q]? = some d → d.isMacro = false → d.hasMacroRef = true → st.env.top = []

/-- What a rule call yields. -/
def HoldD (cfg : Cfg V) (L : Lg) (q i : Nat) (st : St V) (j : Nat) (st' : St V) : Prop :=
  ∃ d, cfg.rules[q]? = some d ∧
    ((d.isMacro = false ∧ ∃ v, (∀ E, Der cfg L.K E (.rule q v) i {} j {}) ∧
        (cfg.recognizeOnly = true ∨ st'.vs = pushValue d v st.vs)) ∨
     (d.isMacro = true ∧ Der cfg L.K ⟨some q, st.env.top⟩ (.ope d.ope) i st.vs j st'.vs))

def TaskD (cfg : Cfg V) (L : Lg) (t : Task V) (i : Nat) (st : St V) : Prop :=
  match t with
  | .ope e => BodyOk L e
  | .rep e _ _ => e.Ok L
  | .hold q => HoldPre cfg q st
  | .grow q _ _ j v => HoldPre cfg q st ∧ (∃ d, cfg.rules[q]? = some d ∧ d.isMacro = false ∧ d.isLR = true) ∧
      ∀ E, Der cfg L.K E (.rule q v) i {} j {}
  | .prec a b _ _ _ => a.Ok L ∧ b.Ok L
  | .precLoop a b _ _ _ _ _ => a.Ok L ∧ b.Ok L

def PostD (cfg : Cfg V) (L : Lg) (t : Task V) (i : Nat) (st : St V) (j : Nat) (st' : St V) : Prop :=
  match t with
  | .ope e => Der cfg L.K st.env (.ope e) i st.vs j st'.vs
  | .rep e mx c => ∃ n, Der cfg L.K st.env (.reps e n) i st.vs j st'.vs ∧ (n = 0 ∨ mx.all (c + n ≤ ·) = true)
  | .hold q => HoldD cfg L q i st j st'
  | .grow q _ _ _ _ => HoldD cfg L q i st j st'
  | .prec a b info q mp => Der cfg L.K st.env (.prec a b info q mp) i st.vs j st'.vs
  | .precLoop a b info q mp _ s => Der cfg L.K st.env (.precLoop a b info q mp s) i st.vs j st'.vs

def GoodD (rec : Rec V) : Prop :=
  ∀ cfg L t i st r, DHyp cfg L → DPre cfg L i st → TaskPre cfg t i st → TaskD cfg L t i st → rec cfg t i st = .ok r →
    StD cfg L r.2 ∧ ∀ j, r.1 = some j → PostD cfg L t i st j r.2

theorem sameD_addToken (cfg : Cfg V) (t : Nat × Nat) (st : St V) : SameD st (addToken cfg t st) := by
  unfold addToken; split <;> exact ⟨rfl, rfl, rfl, rfl, rfl, rfl, rfl, rfl, rfl⟩

theorem sameD_setCut (st : St V) (b : Bool) : SameD st (st.setCut b) := by
  unfold St.setCut; split <;> exact ⟨rfl, rfl, rfl, rfl, rfl, rfl, rfl, rfl, rfl⟩

theorem sameD_resetCut (cfg : Cfg V) (st : St V) : SameD st (resetCut cfg st) := by
  unfold resetCut; split
  · exact sameD_setCut _ _
  · exact ⟨rfl, rfl, rfl, rfl, rfl, rfl, rfl, rfl, rfl⟩

theorem sameD_pushCut (b : Bool) (st : St V) : SameD st (pushCut b st) := by
  unfold pushCut; split <;> exact ⟨rfl, rfl, rfl, rfl, rfl, rfl, rfl, rfl, rfl⟩

theorem sameD_choExit (b : Bool) (st : St V) : SameD st (choExit b st) := by
  unfold choExit; split <;> exact ⟨rfl, rfl, rfl, rfl, rfl, rfl, rfl, rfl, rfl⟩

theorem SameD.trans {a b c : St V} (h : SameD a b) (h' : SameD b c) : SameD a c :=
  ⟨h'.caps.trans h.caps, h'.memo.trans h.memo, h'.lrMemo.trans h.lrMemo, h'.args.trans h.args,
   h'.recovered.trans h.recovered, h'.pos.trans h.pos, h'.msgPos.trans h.msgPos, h'.toks.trans h.toks, h'.logs.trans h.logs⟩

/-- Abandoning what was done since a snapshot. -/
theorem StD.rollback {cfg : Cfg V} {L : Lg} {st st1 : St V} (h : StD cfg L st) (h1 : StD cfg L st1)
    (x : Ext st st1) (hc : st.caps <+: st1.caps) : StD cfg L (st1.rollback st.snapshot) := by
  refine ⟨?_, h1.memo, h1.lr, h1.args, h1.reco, h1.err⟩
  rw [(rollback_exact x hc).2]; exact h.caps

theorem Der.append {cfg : Cfg V} {K : DCtx} {E : DEnv} {e : Ope} {m n i k j : Nat} {f g f' : Frame V}
    (h1 : Der cfg K E (.reps e m) i f k g) (h2 : Der cfg K E (.reps e n) k g j f') : Der cfg K E (.reps e (m + n)) i f j f' := by
  generalize ht : (DTask.reps e m : DTask V) = t at h1
  induction h1 generalizing m f' with
  | zero => cases ht; rw [Nat.zero_add]; exact h2
  | succ ha _ _ ih =>
    cases ht
    rw [Nat.add_right_comm]
    exact .succ ha (ih h2 rfl)
  | anyFrame hr _ ih => exact .anyFrame (f' := f') hr (ih (.anyFrame hr h2) ht)
  | _ => cases ht

section
variable {rec : Rec V} (hg : Good rec) (hf : GoodF rec) (hd : GoodD rec)
include hg hf hd

theorem body_D {cfg : Cfg V} {L : Lg} {e : Ope} {i : Nat} {st : St V} {r : Res V} (H : DHyp cfg L) (hp : DPre cfg L i st)
    (he : BodyOk L e) (h : rec cfg (.ope e) i st = .ok r) : DQ cfg L (.ope e) i st r :=
  let x := hd cfg L (.ope e) i st r H hp trivial he h
  ⟨x.1, x.2⟩

theorem ope_D {cfg : Cfg V} {L : Lg} {e : Ope} {i : Nat} {st : St V} {r : Res V} (H : DHyp cfg L) (hp : DPre cfg L i st)
    (he : e.Ok L) (h : rec cfg (.ope e) i st = .ok r) : DQ cfg L (.ope e) i st r :=
  body_D hg hf hd H hp (.inl he) h

theorem skipWs_D {cfg : Cfg V} {L : Lg} {i : Nat} {st : St V} {r : Res V} (H : DHyp cfg L) (hp : DPre cfg L i st)
    (h : skipWs rec cfg i st = .ok r) : DQ cfg L .skip i st r := by
  unfold skipWs at h
  split at h
  · cases h; exact .ok hp.d .noSkip
  · split at h
    · cases h; exact .ok hp.d .noSkip
    · rename_i w hw
      have q := ope_D hg hf hd H hp (H.ws w hw).1 h
      exact ⟨q.d, fun j e => .skip hw (q.der j e)⟩

theorem terminal_D {cfg : Cfg V} {L : Lg} {e : Ope} {g : List Byte → Option Nat} {i : Nat} {st : St V} {r : Res V}
    (hp : DPre cfg L i st) (hs : e.single = some g)
    (h : terminal cfg i st (g (cfg.rest i)) = .ok r) : DQ cfg L (.ope e) i st r := by
  unfold terminal at h
  cases hm : g (cfg.rest i) with
  | none => rw [hm] at h; cases h; exact .fail (hp.d.setErr hp.al (fun _ e => by cases e))
  | some k => rw [hm] at h; cases h; exact .ok hp.d (.one hs hm)

/-- The position after a literal that matched is an allowed one. -/
theorem lit_al {cfg : Cfg V} {L : Lg} {l : List Byte} {ic : Bool} {i : Nat} {st : St V} {e : Ope} (H : DHyp cfg L)
    (hp : DPre cfg L i st) (he : BodyOk L e) (hm : litMatch l ic (cfg.rest i) = true)
    (mk : ∀ E (f : Frame V), Der cfg L.K E .skip (i + l.length) f (i + l.length) f → Der cfg L.K E (.ope e) i f (i + l.length) f) :
    DPre cfg L (i + l.length) st := by
  have hl := litMatch_le hm
  rw [rest_length] at hl
  exact ⟨hp.ok, by have := hp.le; omega, hp.d,
    H.closed {} (.ope e) i {} (i + l.length) {} (by intro e he; cases he) he hp.al (mk _ _ .noSkip)⟩

theorem parseLiteral_D {cfg : Cfg V} {L : Lg} {l : List Byte} {ic : Bool} {el : ErrLit} {i : Nat} {st : St V} {r : Res V}
    {e : Ope} (H : DHyp cfg L) (hp : DPre cfg L i st) (he : BodyOk L e) (hel : ∀ c, el = .cap c → L.bref)
    (mk : ∀ E (f : Frame V) j f', litMatch l ic (cfg.rest i) = true → Der cfg L.K E .skip (i + l.length) f j f' →
      Der cfg L.K E (.ope e) i f j f')
    (h : parseLiteral rec cfg l ic el i st = .ok r) : DQ cfg L (.ope e) i st r := by
  unfold parseLiteral at h
  split at h
  · rename_i hm
    have hp' := lit_al hg hf hd H hp he hm (fun E f => mk E f _ _ hm)
    have key : ∀ r, skipWs rec cfg (i + l.length) st = .ok r → DQ cfg L (.ope e) i st r := by
      intro r h
      have q := skipWs_D hg hf hd H hp' h
      exact ⟨q.d, fun j e => mk _ _ _ _ hm (q.der j e)⟩
    split at h
    · exact key _ h
    · rw [bind_eq_ok] at h
      obtain ⟨b, -, h⟩ := h
      cases b
      · exact key _ h
      · simp only [if_true] at h
        rw [bind_eq_ok] at h
        obtain ⟨b, -, h⟩ := h
        cases b
        · cases h; exact .fail (hp.d.setErr hp.al (fun c e => hel c (Option.some.inj e)))
        · exact key _ h
  · cases h; exact .fail (hp.d.setErr hp.al (fun c e => hel c (Option.some.inj e)))

theorem parseDict_D {cfg : Cfg V} {L : Lg} {wl : List (List Byte)} {ic : Bool} {i : Nat} {st : St V} {r : Res V}
    (H : DHyp cfg L) (hp : DPre cfg L i st) (he : L.dict wl ic) (h : parseDict rec cfg wl ic i st = .ok r) :
    DQ cfg L (.ope (.dict wl ic)) i st r := by
  unfold parseDict at h
  have hl := dict_le wl ic (cfg.rest i)
  rw [rest_length] at hl
  by_cases hm : ((Trie.build wl ic).matchText (cfg.rest i)).1 = 0
  · simp only [hm, if_true] at h; cases h; exact .fail (hp.d.setErr hp.al (fun _ e => by cases e))
  · simp only [hm, if_false] at h
    obtain ⟨k, n, hkn⟩ : ∃ k n, (Trie.build wl ic).matchText (cfg.rest i) = (k, n) := ⟨_, _, rfl⟩
    simp only [hkn] at h hl hm
    have hp' : DPre cfg L (i + k) (st.setChoice wl.length n) := by
      refine ⟨hp.ok.same ⟨rfl, rfl, rfl⟩, by have := hp.le; omega, hp.d.same ⟨rfl, rfl, rfl, rfl, rfl, rfl, rfl, rfl, rfl⟩, ?_⟩
      exact H.closed {} (.ope (.dict wl ic)) i {} (i + k) _ (by intro e he; cases he)
        (.inl (by simp only [Ope.Ok]; exact he)) hp.al (.dict hkn hm .noSkip)
    have key : ∀ r, skipWs rec cfg (i + k) (st.setChoice wl.length n) = .ok r → DQ cfg L (.ope (.dict wl ic)) i st r := by
      intro r h
      have q := skipWs_D hg hf hd H hp' h
      exact ⟨q.d, fun j e => .dict hkn hm (q.der j e)⟩
    split at h
    · exact key _ h
    · rw [bind_eq_ok] at h
      obtain ⟨b, -, h⟩ := h
      cases b
      · cases h; exact .fail (hp'.d.setErr hp.al (fun _ e => by cases e))
      · exact key _ h

theorem findCap_mem {caps : List (List Byte × List Byte)} {nm t : List Byte} (h : findCap caps nm = some t) :
    (nm, t) ∈ caps := by
  unfold findCap at h
  rw [Option.map_eq_some_iff] at h
  obtain ⟨a, ha, rfl⟩ := h
  have h1 := List.mem_of_find?_eq_some ha
  have h2 := List.find?_some ha
  simp only [decide_eq_true_eq] at h2
  rw [← h2]
  exact List.mem_reverse.mp h1

theorem parseBref_D {cfg : Cfg V} {L : Lg} {nm : List Byte} {i : Nat} {st : St V} {r : Res V}
    (H : DHyp cfg L) (hp : DPre cfg L i st) (hb : L.bref) (h : parseBref rec cfg nm i st = .ok r) : DQ cfg L (.ope (.bref nm)) i st r := by
  unfold parseBref at h
  split at h
  · rename_i t ht
    have hc := hp.d.caps _ (findCap_mem hg hf hd ht)
    exact parseLiteral_D hg hf hd H hp (.inl (by simp only [Ope.Ok]; exact hb)) (fun _ _ => hb) (fun E f j f' h1 h2 => .bref hc h1 h2) h
  · cases h; exact .fail (hp.d.note hp.al)

/-- Rewriting the scope when it does not matter or is already right. -/
theorem der_addToken {cfg : Cfg V} {K : DCtx} {E : DEnv} {t : DTask V} {i : Nat} {k : Nat × Nat} {st : St V} {j : Nat} {f' : Frame V}
    (h : Der cfg K E t i (addToken cfg k st).vs j f') : Der cfg K E t i (st.vs.addTok k) j f' := by
  unfold addToken at h
  split at h
  · rename_i hr; exact .anyFrame hr h
  · exact h

theorem tokenBody_D {cfg : Cfg V} {L : Lg} {e : Ope} {i : Nat} {st : St V} {r : Res V} (H : DHyp cfg L) (hp : DPre cfg L i st)
    (he : e.Ok L) (h : tokenBody rec cfg e i st = .ok r) : DQ cfg L (.ope (.tok e)) i st r := by
  unfold tokenBody at h
  rw [andThen_ok] at h
  have hp' : DPre cfg L i { st with tokCount := st.tokCount + 1 } := hp.same ⟨rfl, rfl, rfl⟩ ⟨rfl, rfl, rfl, rfl, rfl, rfl, rfl, rfl, rfl⟩
  rcases h with ⟨st1, h, rfl⟩ | ⟨j, st1, h, h2⟩
  · rw [after_ok] at h
    obtain ⟨a, st2, h, e2⟩ := h
    cases e2
    exact .fail ((ope_D hg hf hd H hp' he h).d.same ⟨rfl, rfl, rfl, rfl, rfl, rfl, rfl, rfl, rfl⟩)
  · rw [after_ok] at h
    obtain ⟨a, st2, h, e2⟩ := h
    cases e2
    have q := ope_D hg hf hd H hp' he h
    have p0 := hg.ope H.slots hp'.ok hp'.le h
    have hp2 := hp'.step H (t := .ope e) (.inl he) p0 q
    have p := tokUp_P hg p0
    have hp3 : DPre cfg L j (addToken cfg (i, j - i) { st2 with tokCount := st2.tokCount - 1 }) :=
      (hp2.same (st' := { st2 with tokCount := st2.tokCount - 1 }) ⟨rfl, rfl, rfl⟩ ⟨rfl, rfl, rfl, rfl, rfl, rfl, rfl, rfl, rfl⟩).same
        (same_addToken _ _ _) (sameD_addToken _ _ _)
    have q2 := skipWs_D hg hf hd H hp3 h2
    refine ⟨q2.d, fun k e => ?_⟩
    have d2 := q2.der k e
    have ke : (addToken cfg (i, j - i) { st2 with tokCount := st2.tokCount - 1 }).env = st.env :=
      (p.keep.trans (keep_addToken _ _ _)).env
    rw [ke] at d2
    exact .tok (q.der j rfl) (der_addToken (st := { st2 with tokCount := st2.tokCount - 1 }) hg hf hd d2)

theorem seqLoop_D {cfg : Cfg V} {L : Lg} {es : List Ope} {i : Nat} {st : St V} {r : Res V} (H : DHyp cfg L) (hp : DPre cfg L i st)
    (he : Ope.OkL L es) (h : seqLoop rec cfg es i st = .ok r) : DQ cfg L (.seqL es) i st r := by
  induction es generalizing i st with
  | nil => cases h; exact .ok hp.d .nil
  | cons e es ih =>
    simp only [Ope.OkL] at he
    unfold seqLoop at h
    rw [andThen_ok] at h
    rcases h with ⟨st1, h, rfl⟩ | ⟨j, st1, h, h2⟩
    · exact .fail (ope_D hg hf hd H hp he.1 h).d
    · have q := ope_D hg hf hd H hp he.1 h
      have p := hg.ope H.slots hp.ok hp.le h
      have q2 := ih (hp.step H (t := .ope e) (.inl he.1) p q) he.2 h2
      refine ⟨q2.d, fun k e => ?_⟩
      have := q2.der k e
      rw [p.keep.env] at this
      exact .cons (q.der j rfl) this

theorem parseSeq_D {cfg : Cfg V} {L : Lg} {es : List Ope} {kw : Option KwGuard} {i : Nat} {st : St V} {r : Res V}
    (H : DHyp cfg L) (hp : DPre cfg L i st) (he : Ope.Ok L (.seq es kw)) (h : parseSeq rec cfg es kw i st = .ok r) :
    DQ cfg L (.ope (.seq es kw)) i st r := by
  unfold parseSeq at h
  have he' := he
  simp only [Ope.Ok] at he'
  have key : seqLoop rec cfg es i st = .ok r → DQ cfg L (.ope (.seq es kw)) i st r := by
    intro h
    have q := seqLoop_D hg hf hd H hp he'.2 h
    exact ⟨q.d, fun j e => .seq (q.der j e)⟩
  cases kw with
  | none => exact key h
  | some k =>
    simp only [Option.bind_some, kwGuarded] at h
    cases hks : kwScan k (cfg.rest i) with
    | none => rw [hks] at h; cases h; exact .fail (hp.d.setErr hp.al (fun _ e => by cases e))
    | some n =>
      have hn := kwScan_le hg hks
      rw [rest_length] at hn
      rw [hks] at h
      dsimp only at h
      by_cases h1 : (k.minLen ≤ n ∧ n ≤ k.maxLen) ∧ Trie.toLower ((cfg.rest i).take n) ∈ k.exact
      · simp only [if_pos h1] at h; cases h; exact .fail (hp.d.setErr hp.al (fun _ e => by cases e))
      · simp only [if_neg h1] at h
        by_cases h2 : (k.minLen ≤ n ∧ n ≤ k.maxLen) ∧ Trie.toLower ((cfg.rest i).take n) ∈ k.pref
        · simp only [if_pos h2] at h; exact key h
        · simp only [if_neg h2] at h
          have hal : L.al (i + n) := H.closed {} (.ope (.seq es (some k))) i {} (i + n) _ (by intro e he; cases he)
            (.inl he) hp.al (.word hks .noSkip)
          have hp1 := hp.same (same_addToken cfg (i, n) st) (sameD_addToken cfg (i, n) st)
          have q := skipWs_D hg hf hd H ⟨hp1.ok, by have := hp.le; omega, hp1.d, hal⟩ h
          refine ⟨q.d, fun j e => ?_⟩
          have d2 := q.der j e
          rw [(keep_addToken cfg (i, n) st).env] at d2
          exact .word hks (der_addToken hg hf hd d2)

theorem choLoop_D {cfg : Cfg V} {L : Lg} {es0 : List Ope} {l : Bool} {fs0 : List FirstSet} {fs : List FirstSet} {es : List Ope} {id i : Nat} {st : St V} {r : Res V}
    (H : DHyp cfg L) (hp : DPre cfg L i st) (he : Ope.OkL L es) (hid : es0.drop id = es)
    (h : choLoop rec cfg es0.length fs es id i st = .ok r) : DQ cfg L (.ope (.cho es0 l fs0)) i st r := by
  induction es generalizing id st with
  | nil => cases h; exact .fail hp.d
  | cons e es ih =>
    have hid0 : es0[id]? = some e := by
      have : (es0.drop id)[0]? = some e := by rw [hid]; rfl
      simpa using this
    have hid1 : es0.drop (id + 1) = es := by
      rw [← List.drop_drop, hid]; rfl
    simp only [Ope.OkL] at he
    unfold choLoop at h
    by_cases hsk : fsSkip fs[id]? (cfg.rest i) = true
    · simp only [hsk, if_true] at h
      have q := ih ⟨hp.ok.same (same_fsErr _ _ _ _), hp.le, hp.d.fsErr hp.al, hp.al⟩ he.2 hid1 h
      refine ⟨q.d, fun j e => ?_⟩
      have d := q.der j e
      rw [(keep_fsErr _ _ _ _).env, show (fsErr st (fs[id]?.getD {}) id i).vs = st.vs by unfold fsErr; split <;> rfl] at d
      exact d
    · simp only [hsk] at h
      simp only [Bool.false_eq_true, if_false] at h
      rw [bind_eq_ok] at h
      obtain ⟨⟨a, st1⟩, h1, h⟩ := h
      have hq : DPre cfg L i ((resetCut cfg st).setKeep (decide (id > 0))) :=
        (hp.same (same_resetCut cfg st) (sameD_resetCut cfg st)).same (same_setKeep _ _) ⟨rfl, rfl, rfl, rfl, rfl, rfl, rfl, rfl, rfl⟩
      have kq : Keep st ((resetCut cfg st).setKeep (decide (id > 0))) :=
        (keep_resetCut cfg st).trans (keep_setKeep _ (decide (id > 0)))
      have p1 := hg.ope H.slots hq.ok hq.le h1
      have p : P cfg i st (a, st1) := P.pre kq (same_resetCut cfg st).lrActive p1
      have q1 := ope_D hg hf hd H hq he.1 h1
      have ev : ((resetCut cfg st).setKeep (decide (id > 0))).vs = st.vs := vs_resetCut hg hf cfg st
      have x1 := ope_E hg hf H.frame (hq.pre H) he.1.noPrec h1
      have x : Ext st st1 := (Ext.of_vs ev).trans x1
      cases a with
      | some j =>
        cases h
        refine .ok (q1.d.same ⟨rfl, rfl, rfl, rfl, rfl, rfl, rfl, rfl, rfl⟩) ?_
        have d := q1.der j rfl
        rw [kq.env, ev] at d
        exact .cho hid0 d
      | none =>
        dsimp only at h
        have e1 := rollback_exact x p.keep.caps
        have d2 : StD cfg L (st1.rollback st.snapshot) := hp.d.rollback q1.d x p.keep.caps
        have p2 : P cfg i st (none, st1.rollback st.snapshot) :=
          P.fail (p.ok.same (same_rollback _ _)) (keep_rollback p.keep) p.act
        split at h
        · cases h; exact .fail d2
        · have q := ih (hp.after p2 d2) he.2 hid1 h
          refine ⟨q.d, fun j e => ?_⟩
          have d := q.der j e
          rw [p2.keep.env, e1.1] at d
          exact d

theorem parseCho_D {cfg : Cfg V} {L : Lg} {es : List Ope} {l : Bool} {fs : List FirstSet} {i : Nat} {st : St V} {r : Res V}
    (H : DHyp cfg L) (hp : DPre cfg L i st) (he : Ope.OkL L es)
    (h : parseCho rec cfg es l fs i st = .ok r) : DQ cfg L (.ope (.cho es l fs)) i st r := by
  unfold parseCho at h
  rw [after_ok] at h
  obtain ⟨a, st1, h, rfl⟩ := h
  have hq : DPre cfg L i (pushCut (cfg.hasCut && !l) st) := by
    refine hp.same ?_ (sameD_pushCut _ _)
    unfold pushCut; split <;> exact ⟨rfl, rfl, rfl⟩
  have q := choLoop_D (l := l) (fs0 := fs) hg hf hd H hq he (List.drop_zero ..) h
  have e1 : (pushCut (cfg.hasCut && !l) st).vs = st.vs := by unfold pushCut; split <;> rfl
  have e2 : (choExit (cfg.hasCut && !l) st1).vs = st1.vs := by unfold choExit; split <;> rfl
  have e3 : (pushCut (cfg.hasCut && !l) st).env = st.env := by unfold pushCut; split <;> rfl
  refine ⟨q.d.same (sameD_choExit _ _), fun j e => ?_⟩
  have d := q.der j e
  rw [e1, e3] at d
  rw [e2]; exact d

theorem repMin_D {cfg : Cfg V} {L : Lg} {e : Ope} {n i : Nat} {st : St V} {r : Res V}
    (H : DHyp cfg L) (hp : DPre cfg L i st) (he : e.Ok L)
    (h : repMin rec cfg e n i st = .ok r) : DQ cfg L (.reps e n) i st r := by
  induction n generalizing i st with
  | zero => cases h; exact .ok hp.d .zero
  | succ n ih =>
    unfold repMin at h
    rw [andThen_ok] at h
    rcases h with ⟨st1, h, rfl⟩ | ⟨j, st1, h, h2⟩
    · exact .fail (ope_D hg hf hd H hp he h).d
    · have q := ope_D hg hf hd H hp he h
      have p := hg.ope H.slots hp.ok hp.le h
      have q2 := ih (hp.step H (t := .ope e) (.inl he) p q) h2
      refine ⟨q2.d, fun k e => ?_⟩
      have := q2.der k e
      rw [p.keep.env] at this
      exact .succ (q.der j rfl) this

theorem repRound_D {cfg : Cfg V} {L : Lg} {e : Ope} {mx : Option Nat} {c i : Nat} {st : St V} {r : Res V}
    (H : DHyp cfg L) (hp : DPre cfg L i st) (he : e.Ok L)
    (h : repRound rec cfg e mx c i st = .ok r) :
    StD cfg L r.2 ∧ ∀ j, r.1 = some j → PostD cfg L (.rep e mx c) i st j r.2 := by
  unfold repRound at h
  split at h
  · rename_i hmx
    rw [bind_eq_ok] at h
    obtain ⟨⟨a, st1⟩, h1, h⟩ := h
    have p := hg.ope H.slots hp.ok hp.le h1
    have q := ope_D hg hf hd H hp he h1
    cases a with
    | none =>
      cases h
      have x := ope_E hg hf H.frame (hp.pre H) he.noPrec h1
      refine ⟨hp.d.rollback q.d x p.keep.caps, ?_⟩
      intro j e
      cases e
      refine ⟨0, ?_, .inl rfl⟩
      rw [(rollback_exact x p.keep.caps).1]
      exact .zero
    | some k =>
      obtain ⟨d, y⟩ := hd cfg L (.rep e mx (c + 1)) k st1 r H (hp.step H (t := .ope e) (.inl he) p q) trivial he h
      refine ⟨d, fun j e => ?_⟩
      obtain ⟨n, hn, hb⟩ := y j e
      rw [p.keep.env] at hn
      refine ⟨n + 1, .succ (q.der k rfl) hn, .inr ?_⟩
      cases mx with
      | none => rfl
      | some m =>
        simp only [Option.all_some, decide_eq_true_eq] at hmx hb ⊢
        omega
  · cases h
    exact ⟨hp.d, fun j e => by cases e; exact ⟨0, .zero, .inl rfl⟩⟩

theorem takeWhile_take_all {α : Type} (p : α → Bool) (s : List α) : ∀ b ∈ s.take (s.takeWhile p).length, p b = true := by
  intro b hb
  have : s.take (s.takeWhile p).length = s.takeWhile p := by
    have := List.prefix_iff_eq_take.mp (List.takeWhile_prefix p (l := s))
    exact this.symm
  rw [this] at hb
  clear this
  induction s with
  | nil => cases hb
  | cons a s ih =>
    rw [List.takeWhile_cons] at hb
    split at hb
    · rename_i ha
      rcases List.mem_cons.mp hb with rfl | hb
      · exact ha
      · exact ih hb
    · cases hb

theorem parseRep_D {cfg : Cfg V} {L : Lg} {e : Ope} {mn : Nat} {mx : Option Nat} {sp : Option Cls} {i : Nat} {st : St V}
    {r : Res V} (H : DHyp cfg L) (hp : DPre cfg L i st) (he : Ope.Ok L (.rep e mn mx sp))
    (h : parseRep rec cfg e mn mx sp i st = .ok r) : DQ cfg L (.ope (.rep e mn mx sp)) i st r := by
  unfold parseRep at h
  simp only [Ope.Ok] at he
  cases sp with
  | some c =>
    have key : ∀ k, mx.all (k ≤ ·) = true → k ≤ (cfg.rest i).length → (∀ b ∈ (cfg.rest i).take k, c.asciiBit b = true) →
        (if k < mn then (.ok (none, setErr cfg st (i + k)) : Out (Res V)) else .ok (some (i + k), st)) = .ok r →
        DQ cfg L (.ope (.rep e mn mx (some c))) i st r := by
      intro k h1 h2 h3 h
      split at h
      · cases h
        have hal : L.al (i + k) := H.closed {} (.ope (.rep e 0 mx (some c))) i {} (i + k) {} (by intro e he; cases he)
          (.inl (by simp only [Ope.Ok]; exact he)) hp.al (.span (Nat.zero_le _) h1 h2 h3)
        exact .fail (hp.d.setErr hal (fun _ e => by cases e))
      · cases h; exact .ok hp.d (.span (by omega) h1 h2 h3)
    cases mx with
    | none =>
      exact key _ rfl (List.Sublist.length_le (List.takeWhile_sublist _)) (takeWhile_take_all hg hf hd _ _) h
    | some m =>
      have hl : (((cfg.rest i).take m).takeWhile c.asciiBit).length ≤ ((cfg.rest i).take m).length :=
        List.Sublist.length_le (List.takeWhile_sublist _)
      have hl2 : ((cfg.rest i).take m).length ≤ m := by rw [List.length_take]; omega
      have hl3 : ((cfg.rest i).take m).length ≤ (cfg.rest i).length := by rw [List.length_take]; omega
      refine key (((cfg.rest i).take m).takeWhile c.asciiBit).length
        (by simp only [Option.all_some, decide_eq_true_eq]; omega) (by omega) ?_ h
      intro b hb
      refine takeWhile_take_all hg hf hd _ ((cfg.rest i).take m) b ?_
      rw [List.take_take, Nat.min_eq_left (by omega)]
      exact hb
  | none =>
    simp only at h
    rw [andThen_ok] at h
    rcases h with ⟨st1, h, rfl⟩ | ⟨k, st1, h, h2⟩
    · exact .fail (repMin_D hg hf hd H hp he.2 h).d
    · have q := repMin_D hg hf hd H hp he.2 h
      have p := repMin_P hg H.slots hp.ok hp.le h
      obtain ⟨d, y⟩ := hd cfg L (.rep e mx mn) k st1 r H (hp.step H (t := .reps e mn) he.2 p q) trivial he.2 h2
      refine ⟨d, fun j hj => ?_⟩
      obtain ⟨n, hn, hb⟩ := y j hj
      rw [p.keep.env] at hn
      refine .rep (n := mn + n) (by omega) ?_ ((q.der k rfl).append hn)
      rcases hb with rfl | hb
      · exact .inr rfl
      · exact .inl hb

theorem parseAnd_D {cfg : Cfg V} {L : Lg} {e : Ope} {i : Nat} {st : St V} {r : Res V}
    (H : DHyp cfg L) (hp : DPre cfg L i st) (he : e.Ok L)
    (h : parseAnd rec cfg e i st = .ok r) : DQ cfg L (.ope (.and_ e)) i st r := by
  unfold parseAnd at h
  rw [bind_eq_ok] at h
  obtain ⟨⟨a, st1⟩, h1, h⟩ := h
  cases h
  have x := ope_E hg hf H.frame (hp.pre H) he.noPrec h1
  have p := hg.ope H.slots hp.ok hp.le h1
  have q := ope_D hg hf hd H hp he h1
  refine ⟨hp.d.rollback q.d x p.keep.caps, fun j hj => ?_⟩
  show Der _ _ _ _ _ _ _ (st1.rollback st.snapshot).vs
  rw [(rollback_exact x p.keep.caps).1]
  cases a with
  | none => cases hj
  | some k => cases hj; exact .and (q.der k rfl)

theorem parseNot_D {cfg : Cfg V} {L : Lg} {e : Ope} {i : Nat} {st : St V} {r : Res V}
    (H : DHyp cfg L) (hp : DPre cfg L i st) (he : e.Ok L)
    (h : parseNot rec cfg e i st = .ok r) : DQ cfg L (.ope (.not_ e)) i st r := by
  unfold parseNot at h
  rw [bind_eq_ok] at h
  obtain ⟨⟨a, st1⟩, h1, h⟩ := h
  have x := ope_E hg hf H.frame (hp.pre H) he.noPrec h1
  have p := hg.ope H.slots hp.ok hp.le h1
  have q := ope_D hg hf hd H hp he h1
  have d := hp.d.rollback q.d x p.keep.caps
  cases a with
  | some j => cases h; exact .fail (d.setErr hp.al (fun _ e => by cases e))
  | none =>
    cases h
    refine .ok d ?_
    rw [(rollback_exact x p.keep.caps).1]
    exact .not

theorem parseCapScope_D {cfg : Cfg V} {L : Lg} {e : Ope} {i : Nat} {st : St V} {r : Res V}
    (H : DHyp cfg L) (hp : DPre cfg L i st) (he : e.Ok L)
    (h : parseCapScope rec cfg e i st = .ok r) : DQ cfg L (.ope (.capScope e)) i st r := by
  unfold parseCapScope at h
  rw [after_ok] at h
  obtain ⟨a, st1, h, rfl⟩ := h
  have p := hg.ope H.slots hp.ok hp.le h
  have q := ope_D hg hf hd H hp he h
  refine ⟨⟨?_, q.d.memo, q.d.lr, q.d.args, q.d.reco, q.d.err⟩, fun j e => .capScope (q.der j e)⟩
  show ∀ c ∈ resize st1.caps st.caps.length ([], []), L.K.cap c.1 c.2
  rw [resize_prefix p.keep.caps]
  exact hp.d.caps

theorem parseCap_D {cfg : Cfg V} {L : Lg} {nm : List Byte} {e : Ope} {i : Nat} {st : St V} {r : Res V}
    (H : DHyp cfg L) (hp : DPre cfg L i st) (he : e.Ok L)
    (h : parseCap rec cfg nm e i st = .ok r) : DQ cfg L (.ope (.cap nm e)) i st r := by
  unfold parseCap at h
  rw [andThen_ok] at h
  rcases h with ⟨st1, h, rfl⟩ | ⟨j, st1, h, h2⟩
  · exact .fail (ope_D hg hf hd H hp he h).d
  · cases h2
    have q := ope_D hg hf hd H hp he h
    refine .ok ⟨?_, q.d.memo, q.d.lr, q.d.args, q.d.reco, q.d.err⟩ (.cap (q.der j rfl))
    intro c hc
    rcases List.mem_append.mp hc with hc | hc
    · exact q.d.caps c hc
    · rw [List.mem_singleton] at hc
      subst hc
      exact H.cap _ _ _ _ _ _ _ hp.d.env he hp.al (q.der j rfl)

theorem parseIgn_D {cfg : Cfg V} {L : Lg} {e : Ope} {i : Nat} {st : St V} {r : Res V}
    (H : DHyp cfg L) (hp : DPre cfg L i st) (he : e.Ok L)
    (h : parseIgn rec cfg e i st = .ok r) : DQ cfg L (.ope (.ign e)) i st r := by
  unfold parseIgn inScope at h
  rw [after_ok] at h
  obtain ⟨a, st1, h, rfl⟩ := h
  have q := ope_D hg hf hd H (hp.same (st' := { st with vs := {} }) ⟨rfl, rfl, rfl⟩ ⟨rfl, rfl, rfl, rfl, rfl, rfl, rfl, rfl, rfl⟩) he h
  exact ⟨q.d.same ⟨rfl, rfl, rfl, rfl, rfl, rfl, rfl, rfl, rfl⟩, fun j e => .ign (q.der j e)⟩

theorem parseUsr_D {cfg : Cfg V} {L : Lg} {n i : Nat} {st : St V} {r : Res V} (hp : DPre cfg L i st)
    (h : parseUsr cfg n i st = .ok r) : DQ cfg L (.ope (.usr n)) i st r := by
  unfold parseUsr at h
  simp only at h
  have d : StD cfg L { st with vs := (cfg.user n i st.vs st.dt).2.1, dt := (cfg.user n i st.vs st.dt).2.2 } :=
    hp.d.same ⟨rfl, rfl, rfl, rfl, rfl, rfl, rfl, rfl, rfl⟩
  split at h
  · cases h; exact .fail d
  · rename_i k hk
    split at h
    · rename_i hl
      cases h; exact .ok d (.usr hk hl)
    · cases h

theorem parseWs_D {cfg : Cfg V} {L : Lg} {e : Ope} {i : Nat} {st : St V} {r : Res V}
    (H : DHyp cfg L) (hp : DPre cfg L i st) (he : e.Ok L)
    (h : parseWs rec cfg e i st = .ok r) : DQ cfg L (.ope (.ws e)) i st r := by
  unfold parseWs at h
  split at h
  · cases h; exact .ok hp.d .wsIn
  · rw [after_ok] at h
    obtain ⟨a, st1, h, rfl⟩ := h
    have q := ope_D hg hf hd H (hp.same (st' := { st with inWs := true }) ⟨rfl, rfl, rfl⟩ ⟨rfl, rfl, rfl, rfl, rfl, rfl, rfl, rfl, rfl⟩) he h
    exact ⟨q.d.same ⟨rfl, rfl, rfl, rfl, rfl, rfl, rfl, rfl, rfl⟩, fun j e => .ws (q.der j e)⟩

/-! ## Rules -/

omit hg hf hd in
theorem sameD_pushRule (b : Bool) (q : Nat) (st : St V) : SameD st (pushRule b q st) := by
  cases b <;> exact ⟨rfl, rfl, rfl, rfl, rfl, rfl, rfl, rfl, rfl⟩

omit hg hf hd in
theorem sameD_popRule (b : Bool) (st : St V) : SameD st (popRule b st) := by
  cases b <;> exact ⟨rfl, rfl, rfl, rfl, rfl, rfl, rfl, rfl, rfl⟩

/-- The body of a rule. -/
theorem opeBody_D {cfg : Cfg V} {L : Lg} {q : Nat} {d : Def} {i : Nat} {st : St V} {r : Res V}
    (H : DHyp cfg L) (hp : DPre cfg L i st) (hq : cfg.rules[q]? = some d) (hm : d.isMacro = false) (hh : HoldPre cfg q st)
    (h : opeBody rec cfg q d i st = .ok r) :
    StD cfg L r.2 ∧ ∀ j, r.1 = some j → Der cfg L.K ⟨some q, []⟩ (.body d) i st.vs j r.2.vs := by
  unfold opeBody at h
  rw [after_ok] at h
  obtain ⟨a, st1, h, rfl⟩ := h
  have ev : ∀ st : St V, (popRule (cfg.needsRuleStack || d.hasMacroRef) st).vs = st.vs := by
    intro st; unfold popRule; split <;> rfl
  have ev' : (pushRule (cfg.needsRuleStack || d.hasMacroRef) q st).vs = st.vs := by
    unfold pushRule; split <;> rfl
  have hq0 := hp.same (same_pushRule hg (cfg.needsRuleStack || d.hasMacroRef) q st) (sameD_pushRule _ _ _)
  -- the environment of the body
  have henv : ∀ j f', Der cfg L.K (pushRule (cfg.needsRuleStack || d.hasMacroRef) q st).env (.body d) i st.vs j f' →
      Der cfg L.K ⟨some q, []⟩ (.body d) i st.vs j f' := by
    intro j f' hd
    cases hr : d.hasMacroRef with
    | true =>
      have e : (pushRule (cfg.needsRuleStack || d.hasMacroRef) q st).env = ⟨some q, []⟩ := by
        have := hh d hq hm hr
        simp only [St.env] at this
        simp only [hr, Bool.or_true, pushRule, if_true, St.env, List.head?_cons, this]
      rw [e] at hd; exact hd
    | false => exact hd.env (fun w hw => (H.ws w hw).2) (by simp only [DTask.envFree]; exact H.env q d hq hm hr) _
  suffices hs : StD cfg L st1 ∧ ∀ j, a = some j →
      Der cfg L.K (pushRule (cfg.needsRuleStack || d.hasMacroRef) q st).env (.body d) i st.vs j st1.vs by
    refine ⟨hs.1.same (sameD_popRule _ _), fun j e => ?_⟩
    show Der _ _ _ _ _ _ _ (popRule _ st1).vs
    rw [ev]
    exact henv _ _ (hs.2 j e)
  rw [← ev']
  have ht : (pushRule (cfg.needsRuleStack || d.hasMacroRef) q st).tokCount = st.tokCount := by
    unfold pushRule; split <;> rfl
  rw [← ht] at h
  generalize pushRule (cfg.needsRuleStack || d.hasMacroRef) q st = st0 at h hq0
  have hb := H.body q d hq
  by_cases hw : d.noWs = true
  · simp only [hw, if_true] at h
    have hq2 : DPre cfg L i { st0 with tokCount := st0.tokCount + 1 } := hq0.same ⟨rfl, rfl, rfl⟩ ⟨rfl, rfl, rfl, rfl, rfl, rfl, rfl, rfl, rfl⟩
    rw [andThen_ok] at h
    rcases h with ⟨st2, h, e2⟩ | ⟨j, st2, h, h2⟩
    · cases e2
      rw [after_ok] at h
      obtain ⟨a, st3, h, e2⟩ := h
      cases e2
      exact ⟨(body_D hg hf hd H hq2 hb h).d.same ⟨rfl, rfl, rfl, rfl, rfl, rfl, rfl, rfl, rfl⟩, by intro j e; cases e⟩
    · rw [after_ok] at h
      obtain ⟨a', st3, h, e2⟩ := h
      cases e2
      have q1 := body_D hg hf hd H hq2 hb h
      have p0 := hg.ope H.slots hq2.ok hq2.le h
      have hq3 := hq2.step H (t := .ope d.ope) hb p0 q1
      have p := tokUp_P hg p0
      have hq4 : DPre cfg L j { st3 with tokCount := st3.tokCount - 1 } := hq3.same ⟨rfl, rfl, rfl⟩ ⟨rfl, rfl, rfl, rfl, rfl, rfl, rfl, rfl, rfl⟩
      have q2 := skipWs_D hg hf hd H hq4 h2
      refine ⟨q2.d, fun k e => ?_⟩
      have d2 := q2.der k e
      have ke : ({ st3 with tokCount := st3.tokCount - 1 } : St V).env = st0.env := p.keep.env
      rw [ke] at d2
      exact .bodyWs hw (q1.der j rfl) d2
  · simp only [hw] at h
    simp only [Bool.false_eq_true, if_false] at h
    have q1 := body_D hg hf hd H hq0 hb h
    exact ⟨q1.d, fun j e => .body (by simpa using hw) (q1.der j e)⟩

omit hg hf hd in
theorem sameD_callAction (cfg : Cfg V) (r : Nat) (f : Frame V) (pd : Option V) (st : St V) :
    SameD st (callAction cfg r f pd st).2 := by
  unfold callAction
  cases cfg.action r <;> exact ⟨rfl, rfl, rfl, rfl, rfl, rfl, rfl, rfl, rfl⟩

omit hg hf hd in
theorem sameD_reduce (cfg : Cfg V) (r : Nat) (d : Def) (f : Frame V) (pd : Option V) (st : St V) :
    SameD st (reduce cfg r d f pd st).2 := by
  unfold reduce
  split
  · exact sameD_callAction _ _ _ _ _
  · exact ⟨rfl, rfl, rfl, rfl, rfl, rfl, rfl, rfl, rfl⟩

omit hg hf hd in
theorem reduce_val_D (cfg : Cfg V) (K : DCtx) (r : Nat) (d : Def) (f : Frame V) (pd : Option V) (st : St V) :
    ActVal cfg K r d f pd (reduce cfg r d f pd st).1 := by
  unfold reduce
  by_cases h : (hasAction cfg r st && !d.disableAction) = true
  · rw [if_pos h]
    unfold callAction
    cases ha : cfg.action r with
    | none => exact .first (.inl ha)
    | some a =>
      simp only [Bool.and_eq_true, Bool.not_eq_true'] at h
      exact .act ha h.2
  · rw [if_neg h]
    refine .first ?_
    cases ha : cfg.action r with
    | none => exact .inl rfl
    | some a =>
      simp only [hasAction, ha, Option.isSome_some, Bool.true_or, Bool.true_and, Bool.not_eq_true, Bool.not_eq_false'] at h
      exact .inr h

omit hg hf hd in
theorem finishRule_D {cfg : Cfg V} {L : Lg} {q : Nat} {d : Def} {i : Nat} {x : Option Nat} {st : St V} (hs : StD cfg L st) (hi : L.al i) :
    StD cfg L (finishRule cfg q d i x st).2.2 ∧ ∀ j, (finishRule cfg q d i x st).1 = some j →
      x = some j ∧ ∃ pd, PredVal cfg q (ruleFrame q d i j st.vs) pd ∧
        ActVal cfg L.K q d (ruleFrame q d i j st.vs) pd (finishRule cfg q d i x st).2.1 := by
  have hrec : st.recovered = true → L.K.recov = true := by
    intro h
    cases hk : L.K.recov with
    | true => rfl
    | false => rw [hs.reco hk] at h; cases h
  unfold finishRule
  cases x with
  | none =>
    refine ⟨?_, by intro j e; cases e⟩
    dsimp only
    split
    · exact hs.note hi
    · exact hs
  | some j =>
    dsimp only
    have s1 : SameD st { st with vs := finishFrame q d i j st.vs } := ⟨rfl, rfl, rfl, rfl, rfl, rfl, rfl, rfl, rfl⟩
    cases hpr : cfg.predicate q with
    | none =>
      dsimp only
      by_cases hr : st.recovered = true
      · rw [if_pos hr]
        exact ⟨(hs.same s1), fun j' e => by
          cases e; exact ⟨rfl, none, by simp only [PredVal, hpr], .recovered (hrec hr)⟩⟩
      · rw [if_neg hr]
        refine ⟨hs.same (s1.trans (sameD_reduce _ _ _ _ _ _)), fun j' e => ?_⟩
        cases e
        exact ⟨rfl, none, by simp only [PredVal, hpr], reduce_val_D _ _ _ _ _ _ _⟩
    | some p =>
      dsimp only
      by_cases hp : (p (finishFrame q d i j st.vs) st.dt).1 = true
      · simp only [hp, if_true]
        have hpv : PredVal cfg q (ruleFrame q d i j st.vs) (p (finishFrame q d i j st.vs) st.dt).2.2 := by
          simp only [PredVal, hpr]; exact ⟨st.dt, hp, rfl⟩
        by_cases hr : st.recovered = true
        · rw [if_pos hr]
          exact ⟨(hs.same s1), fun j' e => by cases e; exact ⟨rfl, _, hpv, .recovered (hrec hr)⟩⟩
        · rw [if_neg hr]
          refine ⟨hs.same (s1.trans (sameD_reduce _ _ _ _ _ _)), fun j' e => ?_⟩
          cases e
          exact ⟨rfl, _, hpv, reduce_val_D _ _ _ _ _ _ _⟩
      · simp only [hp]
        refine ⟨?_, by intro j e; cases e⟩
        simp only [Bool.false_eq_true, if_false]
        split
        · exact (hs.same s1).note hi
        · exact hs.same s1

theorem doParse_D {cfg : Cfg V} {L : Lg} {q : Nat} {d : Def} {i : Nat} {st : St V} {r : VRes V}
    (H : DHyp cfg L) (hp : DPre cfg L i st) (hq : cfg.rules[q]? = some d) (hm : d.isMacro = false) (hh : HoldPre cfg q st)
    (h : doParse rec cfg q d i st = .ok r) :
    StD cfg L r.2.2 ∧ ∀ j, r.1 = some j → ∀ E, Der cfg L.K E (.rule q r.2.1) i {} j {} := by
  unfold doParse at h
  simp only at h
  rw [bind_eq_ok] at h
  obtain ⟨⟨x, st1⟩, h1, h⟩ := h
  obtain ⟨dd, hdd⟩ : ∃ dd : Option V, callEnter cfg q i st = { st with dt := dd } := by
    unfold callEnter
    cases cfg.enter q with
    | none => exact ⟨st.dt, rfl⟩
    | some f => exact ⟨f i st.dt, rfl⟩
  rw [hdd] at h1
  have hp' : DPre cfg L i { st with dt := dd, vs := {} } := hp.same ⟨rfl, rfl, rfl⟩ ⟨rfl, rfl, rfl, rfl, rfl, rfl, rfl, rfl, rfl⟩
  obtain ⟨s1, d1⟩ := opeBody_D (st := { st with dt := dd, vs := {} }) hg hf hd H hp' hq hm hh h1
  obtain ⟨s2, d2⟩ := finishRule_D (q := q) (d := d) (i := i) (x := x) s1 hp.al
  dsimp only at d1 s2 d2
  generalize hy : finishRule cfg q d i x st1 = y at h s2 d2
  cases hl : cfg.leave q with
  | none =>
    rw [hl] at h; cases h
    refine ⟨s2.same ⟨rfl, rfl, rfl, rfl, rfl, rfl, rfl, rfl, rfl⟩, fun j e E => ?_⟩
    obtain ⟨ex, pd, h3, h4⟩ := d2 j e
    exact .rule hq hm (d1 j ex) h3 h4 (.none hl)
  | some f =>
    rw [hl] at h; cases h
    refine ⟨s2.same ⟨rfl, rfl, rfl, rfl, rfl, rfl, rfl, rfl, rfl⟩, fun j e E => ?_⟩
    obtain ⟨ex, pd, h3, h4⟩ := d2 j e
    dsimp only at e ⊢
    rw [e]
    exact .rule hq hm (d1 j ex) h3 h4 (.some hl)

/-! ## Memo tables -/

omit hg hf hd in
theorem memoIdx_inj_D {cfg : Cfg V} {s s' p p' : Nat} (h : s < cfg.cachedCount) (h' : s' < cfg.cachedCount)
    (e : cfg.memoIdx s p = cfg.memoIdx s' p') : s = s' ∧ p = p' := by
  have e1 : p = p' := by rw [← memoIdx_div h (i := p), e, memoIdx_div h']
  subst e1
  refine ⟨?_, rfl⟩
  unfold Cfg.memoIdx at e; omega

omit hg hf hd in
theorem StD.fset {cfg : Cfg V} {L : Lg} {st : St V} (h : StD cfg L st) (H : DHyp cfg L) {q : Nat} {s p : Nat} {d : Def}
    {e : Option (Option (Nat × Option V))} (hpk : cfg.packrat = true) (hq : cfg.rules[q]? = some d)
    (hs : cfg.slot (cfg.defId q) = some s)
    (he : ∀ len v, e = some (some (len, v)) → ∀ E, Der cfg L.K E (.rule q v) p {} (p + len) {}) :
    StD cfg L { st with memo := Verif.fset st.memo (cfg.memoIdx s p) e } := by
  refine ⟨h.caps, ?_, h.lr, h.args, h.reco, h.err⟩
  intro _ q' d' s' p' len v hq' hs' hm
  simp only [Verif.fset] at hm
  split at hm
  · rename_i hx
    obtain ⟨rfl, rfl⟩ := memoIdx_inj_D (H.slots hpk q' s' hs') (H.slots hpk q s hs) hx
    cases H.slotInj hpk q q' d d' s' hq hq' hs hs'
    exact he len v hm
  · exact h.memo hpk q' d' s' p' len v hq' hs' hm

omit hg hf hd in
theorem StD.writeMemo {cfg : Cfg V} {L : Lg} {st : St V} (h : StD cfg L st) (H : DHyp cfg L) {q i j : Nat} {v : Option V} {d : Def}
    (hq : cfg.rules[q]? = some d) (hij : i ≤ j) (hd : ∀ E, Der cfg L.K E (.rule q v) i {} j {}) :
    StD cfg L (Verif.writeMemo cfg q i j v st) := by
  unfold Verif.writeMemo
  by_cases hpk : cfg.packrat = true
  · simp only [hpk, if_true]
    cases hs : cfg.slot (cfg.defId q) with
    | none => exact h
    | some s =>
      dsimp only
      split
      · split
        · refine h.fset H hpk hq hs ?_
          intro len v' e; cases e
          rw [show i + (j - i) = j by omega]; exact hd
        · exact h.fset H hpk hq hs (by intro len v' e; cases e)
      · exact h
  · simp only [hpk]; exact h

omit hg hf hd in
theorem StD.clearMemo {cfg : Cfg V} {L : Lg} {st : St V} (h : StD cfg L st) (H : DHyp cfg L) {q i : Nat} {d : Def}
    (hq : cfg.rules[q]? = some d) : StD cfg L (Verif.clearMemo cfg q i st) := by
  unfold Verif.clearMemo
  by_cases hpk : cfg.packrat = true
  · simp only [hpk, if_true]
    cases hs : cfg.slot (cfg.defId q) with
    | none => exact h
    | some s => exact h.fset H hpk hq hs (by intro len v' e; cases e)
  · simp only [hpk]; exact h

omit hg hf hd in
theorem StD.lrSub {cfg : Cfg V} {L : Lg} {st : St V} (h : StD cfg L st) (l : List (LRKey × Option (Nat × Option V)))
    (hl : ∀ q inst p j v, ((q, inst, p), some (j, v)) ∈ l →
      ((q, inst, p), some (j, v)) ∈ st.lrMemo ∨ ∀ E, Der cfg L.K E (.rule q v) p {} j {}) :
    StD cfg L { st with lrMemo := l } := by
  refine ⟨h.caps, h.memo, ?_, h.args, h.reco, h.err⟩
  intro q inst p j v hm
  rcases hl q inst p j v hm with h1 | h1
  · exact h.lr q inst p j v h1
  · exact h1

omit hg hf hd in
theorem StD.lrFilter {cfg : Cfg V} {L : Lg} {st : St V} (h : StD cfg L st) (p : LRKey × Option (Nat × Option V) → Bool) :
    StD cfg L { st with lrMemo := st.lrMemo.filter p } :=
  h.lrSub _ fun _ _ _ _ _ hm => .inl (List.mem_filter.mp hm).1

omit hg hf hd in
theorem StD.lrSet {cfg : Cfg V} {L : Lg} {st : St V} (h : StD cfg L st) (q inst i : Nat) (e : Option (Nat × Option V))
    (he : ∀ j v, e = some (j, v) → ∀ E, Der cfg L.K E (.rule q v) i {} j {}) :
    StD cfg L { st with lrMemo := Verif.lrSet (q, inst, i) e st.lrMemo } := by
  refine h.lrSub _ fun q' inst' p j v hm => ?_
  simp only [Verif.lrSet, List.mem_cons, List.mem_filter] at hm
  rcases hm with hm | hm
  · cases hm; exact .inr (he j v rfl)
  · exact .inl hm.1

theorem guarded_D {cfg : Cfg V} {L : Lg} {q : Nat} {d : Def} {i : Nat} {st : St V} {fn : St V → Out (VRes V)} {r : VRes V}
    (H : DHyp cfg L) (hp : DPre cfg L i st) (hq : cfg.rules[q]? = some d) (hlr : ¬ isLRRule cfg q)
    (hP : ∀ (st1 : St V) x, StOk cfg st1 → fn st1 = .ok x → P cfg i st1 (x.1, x.2.2))
    (hfn : ∀ (st1 : St V) x, DPre cfg L i st1 → st1.env = st.env → fn st1 = .ok x →
      StD cfg L x.2.2 ∧ (∀ j, x.1 = some j → ∀ E, Der cfg L.K E (.rule q x.2.1) i {} j {}) ∧
        (cfg.recognizeOnly = true ∨ x.2.2.vs = st1.vs))
    (h : guarded cfg q i st fn = .ok r) :
    StD cfg L r.2.2 ∧ (∀ j, r.1 = some j → ∀ E, Der cfg L.K E (.rule q r.2.1) i {} j {}) ∧
      (cfg.recognizeOnly = true ∨ r.2.2.vs = st.vs) := by
  unfold guarded at h
  by_cases hpk : cfg.packrat = true
  · simp only [hpk, if_true] at h
    cases hsl : cfg.slot (cfg.defId q) with
    | none =>
      simp only [hsl] at h
      split at h
      · cases h
      · split at h
        · cases reentered_ok h; exact ⟨hp.d, (by intro j e; cases e), .inr rfl⟩
        · rw [bind_eq_ok] at h
          obtain ⟨x, hx, h⟩ := h
          cases h
          obtain ⟨a, b, c⟩ := hfn { st with active := Verif.fset st.active (cfg.defId q) (some i) } _
            (hp.same ⟨rfl, rfl, rfl⟩ ⟨rfl, rfl, rfl, rfl, rfl, rfl, rfl, rfl, rfl⟩) rfl hx
          exact ⟨a.same ⟨rfl, rfl, rfl, rfl, rfl, rfl, rfl, rfl, rfl⟩, b, c⟩
    | some s =>
      simp only [hsl] at h
      split at h
      · cases h
      · split at h
        · rename_i len v hmm
          cases h
          refine ⟨hp.d, ?_, .inr rfl⟩
          intro j e; cases e
          exact hp.d.memo hpk q d s i len v hq hsl hmm
        · cases h; exact ⟨hp.d, (by intro j e; cases e), .inr rfl⟩
        · rw [bind_eq_ok] at h
          obtain ⟨x, hx, h⟩ := h
          have ho := hp.ok.fset (cfg.memoIdx s i) (some none) (by intro len v e; cases e)
          obtain ⟨a, b, c⟩ := hfn { st with memo := Verif.fset st.memo (cfg.memoIdx s i) (some none) } _
            ⟨ho, hp.le, hp.d.fset H hpk hq hsl (by intro len v e; cases e), hp.al⟩ rfl hx
          have p := hP _ _ ho hx
          obtain ⟨x1, v, st1⟩ := x
          cases x1 with
          | none => cases h; exact ⟨a, (by intro j e; cases e), c⟩
          | some j =>
            cases h
            refine ⟨a.writeMemo H hq (p.bounds j rfl).1 (b j rfl), b, ?_⟩
            rcases c with c | c
            · exact .inl c
            · exact .inr ((vs_writeMemo hg hf _ _ _ _ _ _).trans c)
  · simp only [hpk] at h
    simp only [Bool.false_eq_true, if_false] at h
    split at h
    · cases h
    · split at h
      · cases reentered_ok h; exact ⟨hp.d, (by intro j e; cases e), .inr rfl⟩
      · rename_i inst _ _ hn
        rw [bind_eq_ok] at h
        obtain ⟨x, hx, h⟩ := h
        cases h
        have ho := hp.ok
        have ho1 : StOk cfg { st with lrMemo := ((q, inst, i), none) :: st.lrMemo } := by
          refine ⟨ho.memo, ?_, ?_⟩
          · intro r inst' p j v hm
            rcases List.mem_cons.mp hm with hm | hm
            · cases hm
            · exact ho.lr r inst' p j v hm
          · intro k hk
            refine ⟨?_, (ho.act k hk).2⟩
            show (List.lookup k (_ :: _)).isSome = true
            rw [List.lookup_cons]
            split
            · rfl
            · exact (ho.act k hk).1
        have hd1 : StD cfg L { st with lrMemo := ((q, inst, i), none) :: st.lrMemo } := by
          refine hp.d.lrSub _ fun q' inst' p j v hm => ?_
          rcases List.mem_cons.mp hm with hm | hm
          · cases hm
          · exact .inl hm
        obtain ⟨a, b, c⟩ := hfn { st with lrMemo := ((q, inst, i), none) :: st.lrMemo } _ ⟨ho1, hp.le, hd1, hp.al⟩ rfl hx
        exact ⟨a.lrFilter _, b, c⟩

omit hg hf hd in
theorem sameD_emplace (cfg : Cfg V) (d : Def) (v : Option V) (st : St V) : SameD st (emplace cfg d v st) := by
  unfold emplace
  split <;> exact ⟨rfl, rfl, rfl, rfl, rfl, rfl, rfl, rfl, rfl⟩

omit hg hf hd in
theorem emplace_vs (cfg : Cfg V) (d : Def) (v : Option V) (st : St V) :
    cfg.recognizeOnly = true ∨ (emplace cfg d v st).vs = pushValue d v st.vs := by
  cases hr : cfg.recognizeOnly with
  | true => exact .inl rfl
  | false =>
    refine .inr ?_
    unfold emplace pushValue
    cases hi : d.ignoreSV <;> simp [hr]

/-! ## Left recursion -/

theorem growDone_D {cfg : Cfg V} {L : Lg} {q inst : Nat} {d : Def} {i j : Nat} {v : Option V} {st st1 : St V}
    (H : DHyp cfg L) (hq : cfg.rules[q]? = some d) (hm : d.isMacro = false) (hs : StD cfg L st1) (hij : i ≤ j)
    (hv : st1.vs = st.vs) (hder : ∀ E, Der cfg L.K E (.rule q v) i {} j {}) :
    StD cfg L (growDone cfg q inst d i j v st1).2 ∧ ∀ j', (growDone cfg q inst d i j v st1).1 = some j' →
      HoldD cfg L q i st j' (growDone cfg q inst d i j v st1).2 := by
  unfold growDone
  simp only [hm, Bool.false_eq_true, if_false]
  have h1 := hs.writeMemo H hq hij hder
  have e1 : (writeMemo cfg q i j v st1).vs = st.vs := (vs_writeMemo hg hf _ _ _ _ _ _).trans hv
  generalize writeMemo cfg q i j v st1 = st2 at h1 e1
  refine ⟨(h1.same (st' := { st2 with lrActive := st2.lrActive.filter (· ≠ (q, inst, i)) })
    ⟨rfl, rfl, rfl, rfl, rfl, rfl, rfl, rfl, rfl⟩).same (sameD_emplace _ _ _ _), ?_⟩
  intro j' e; cases e
  refine ⟨d, hq, .inl ⟨hm, v, hder, ?_⟩⟩
  rw [← e1]
  exact emplace_vs _ _ _ _

theorem growRound_D {cfg : Cfg V} {L : Lg} {q inst : Nat} {cyc : List (Nat × Nat)} {j : Nat} {v : Option V} {i : Nat} {st : St V}
    {r : Res V} (H : DHyp cfg L) (hp : DPre cfg L i st) (hb : i ≤ j ∧ j ≤ cfg.input.length)
    (ht : TaskD cfg L (.grow q inst cyc j v) i st) (h : growRound rec cfg q inst cyc j v i st = .ok r) :
    StD cfg L r.2 ∧ ∀ j', r.1 = some j' → HoldD cfg L q i st j' r.2 := by
  obtain ⟨hh, ⟨d, hq, hm, hl⟩, hder⟩ := ht
  unfold growRound at h
  simp only [hq, hm, Bool.false_eq_true, if_false] at h
  rw [bind_eq_ok] at h
  obtain ⟨⟨a, v1, st1⟩, hx, h⟩ := h
  obtain ⟨k0, a0, o0⟩ := keep_clearMemo cfg q i st
  have o0 := o0 hp.ok
  have s0 := hp.d.clearMemo H (i := i) hq
  have e0 : (clearMemo cfg q i st).vs = st.vs := by
    unfold clearMemo; split
    · split <;> rfl
    · rfl
  generalize clearMemo cfg q i st = st0 at hx k0 a0 o0 s0 e0
  have o1 := o0.lrFilter (fun e => !(e.1.2.2 = i && (e.1.1, e.1.2.1) ≠ (q, inst) && (e.1.1, e.1.2.1) ∈ cyc && e.1 ∉ st0.lrActive))
    (by intro e he; simp [he])
  have hp1 : DPre cfg L i { st0 with lrMemo := st0.lrMemo.filter fun e =>
      !(e.1.2.2 = i && (e.1.1, e.1.2.1) ≠ (q, inst) && (e.1.1, e.1.2.1) ∈ cyc && e.1 ∉ st0.lrActive) } :=
    ⟨o1, hp.le, s0.lrFilter _, hp.al⟩
  have hh1 : HoldPre cfg q { st0 with lrMemo := st0.lrMemo.filter fun e =>
      !(e.1.2.2 = i && (e.1.1, e.1.2.1) ≠ (q, inst) && (e.1.1, e.1.2.1) ∈ cyc && e.1 ∉ st0.lrActive) } := by
    intro d' h1 h2 h3
    have := hh d' h1 h2 h3
    rw [← k0.env] at this
    exact this
  obtain ⟨s1, d1⟩ := doParse_D hg hf hd H hp1 hq hm hh1 hx
  have p := doParse_P hg H.slots o1 hp.le hx
  have e1 : st1.vs = st.vs := (doParse_E hg hf hx).trans e0
  cases a with
  | none => cases h; exact growDone_D hg hf hd H hq hm s1 hb.1 e1 hder
  | some j' =>
    dsimp only at h
    split at h
    · cases h; exact growDone_D hg hf hd H hq hm s1 hb.1 e1 hder
    · have b := p.bounds j' rfl
      have o2 := p.ok.lrSet q inst i (some (j', v1)) (by intro j v e; cases e; exact b)
      have s2 := s1.lrSet q inst i (some (j', v1)) (by intro j v e; cases e; exact d1 j' rfl)
      have ke : ({ st1 with lrMemo := lrSet (q, inst, i) (some (j', v1)) st1.lrMemo } : St V).env = st.env := by
        have h1 := p.keep.env
        exact h1.trans k0.env
      obtain ⟨a1, a2⟩ := hd cfg L (.grow q inst cyc j' v1) i _ r H ⟨o2, hp.le, s2, hp.al⟩ b
        ⟨by intro d' h1 h2 h3; rw [ke]; exact hh d' h1 h2 h3, ⟨d, hq, hm, hl⟩, d1 j' rfl⟩ h
      refine ⟨a1, fun j2 e => ?_⟩
      obtain ⟨d', hq', y⟩ := a2 j2 e
      refine ⟨d', hq', ?_⟩
      rw [hq] at hq'; cases hq'
      rcases y with ⟨hm', v', y1, y2⟩ | ⟨hm', _⟩
      · exact .inl ⟨hm', v', y1, by
          rcases y2 with y2 | y2
          · exact .inl y2
          · refine .inr (y2.trans ?_)
            show pushValue d v' st1.vs = _
            rw [e1]⟩
      · rw [hm] at hm'; cases hm'

theorem lrHold_D {cfg : Cfg V} {L : Lg} {q : Nat} {d : Def} {i : Nat} {st : St V} {r : Res V}
    (H : DHyp cfg L) (hp : DPre cfg L i st) (hq : cfg.rules[q]? = some d) (hm : d.isMacro = false) (hl : d.isLR = true)
    (hh : HoldPre cfg q st) (h : lrHold rec cfg q d i st = .ok r) :
    StD cfg L r.2 ∧ ∀ j', r.1 = some j' → HoldD cfg L q i st j' r.2 := by
  unfold lrHold at h
  have ho := hp.ok
  split at h
  · cases h
  · rename_i inst _ _
    cases hmm : st.lrMemo.lookup (q, inst, i) with
    | some m =>
      simp only [hmm] at h
      have s1 : StD cfg L { st with lrRefs := setInsert (q, inst) st.lrRefs } := hp.d.same ⟨rfl, rfl, rfl, rfl, rfl, rfl, rfl, rfl, rfl⟩
      split at h
      · rename_i j v
        cases h
        refine ⟨s1.same (sameD_emplace _ _ _ _), ?_⟩
        intro j' e; cases e
        exact ⟨d, hq, .inl ⟨hm, v, hp.d.lr _ _ _ _ _ (lookup_mem hmm),
          emplace_vs cfg d v { st with lrRefs := setInsert (q, inst) st.lrRefs }⟩⟩
      · cases h; exact ⟨s1, by intro j e; cases e⟩
    | none =>
      simp only [hmm] at h
      have hna : (q, inst, i) ∉ st.lrActive := by
        intro hc; have := (ho.act _ hc).1; rw [hmm] at this; cases this
      rw [bind_eq_ok] at h
      obtain ⟨⟨a, v1, st1⟩, hx, h⟩ := h
      have hsi : setInsert (q, inst, i) st.lrActive = (q, inst, i) :: st.lrActive := if_neg hna
      rw [hsi] at hx
      have o1 : StOk cfg { st with
          lrMemo := Verif.lrSet (q, inst, i) none st.lrMemo
          lrActive := (q, inst, i) :: st.lrActive
          lrRefs := [] } := by
        have o := ho.lrSet q inst i none (by intro j v e; cases e)
        refine ⟨o.memo, o.lr, ?_⟩
        intro k hk
        rcases List.mem_cons.mp hk with rfl | hk
        · refine ⟨?_, d, hq, hl⟩
          show (List.lookup _ (Verif.lrSet _ _ _)).isSome = true
          rw [lrSet_lookup]; simp
        · exact o.act k hk
      have s1 : StD cfg L { st with
          lrMemo := Verif.lrSet (q, inst, i) none st.lrMemo
          lrActive := (q, inst, i) :: st.lrActive
          lrRefs := [] } := by
        have s := hp.d.lrSet q inst i none (by intro j v e; cases e)
        exact ⟨s.caps, s.memo, s.lr, s.args, s.reco, s.err⟩
      have p := doParse_P hg H.slots o1 hp.le hx
      obtain ⟨s2, d2⟩ := doParse_D hg hf hd H ⟨o1, hp.le, s1, hp.al⟩ hq hm hh hx
      have e1 : st1.vs = st.vs := doParse_E hg hf hx
      have po : StOk cfg st1 := p.ok
      cases a with
      | none => cases h; exact ⟨s2.same ⟨rfl, rfl, rfl, rfl, rfl, rfl, rfl, rfl, rfl⟩, by intro j e; cases e⟩
      | some j =>
        dsimp only at h
        have b := p.bounds j rfl
        have o2 : ∀ x, StOk cfg { st1 with
            lrRefs := x, lrMemo := Verif.lrSet (q, inst, i) (some (j, v1)) st1.lrMemo } := by
          intro x
          have o := po.lrSet q inst i (some (j, v1)) (by intro j v e; cases e; exact b)
          exact ⟨o.memo, o.lr, o.act⟩
        have s3 : ∀ x, StD cfg L { st1 with
            lrRefs := x, lrMemo := Verif.lrSet (q, inst, i) (some (j, v1)) st1.lrMemo } := by
          intro x
          have s := s2.lrSet q inst i (some (j, v1)) (by intro j v e; cases e; exact d2 j rfl)
          exact ⟨s.caps, s.memo, s.lr, s.args, s.reco, s.err⟩
        have ke : st1.env = st.env := p.keep.env
        obtain ⟨a1, a2⟩ := hd cfg L (.grow q inst _ j v1) i _ r H ⟨o2 _, hp.le, s3 _, hp.al⟩ b
          ⟨by intro d' h1 h2 h3; have := hh d' h1 h2 h3; rw [← ke] at this; exact this, ⟨d, hq, hm, hl⟩, d2 j rfl⟩ h
        refine ⟨a1, fun j2 e => ?_⟩
        obtain ⟨d', hq', y⟩ := a2 j2 e
        refine ⟨d', hq', ?_⟩
        rw [hq] at hq'; cases hq'
        rcases y with ⟨hm', v', y1, y2⟩ | ⟨hm', _⟩
        · exact .inl ⟨hm', v', y1, by
            rcases y2 with y2 | y2
            · exact .inl y2
            · refine .inr (y2.trans ?_)
              show pushValue d v' st1.vs = _
              rw [e1]⟩
        · rw [hm] at hm'; cases hm'

theorem holder_D {cfg : Cfg V} {L : Lg} {q : Nat} {i : Nat} {st : St V} {r : Res V}
    (H : DHyp cfg L) (hp : DPre cfg L i st) (hh : HoldPre cfg q st) (h : holder rec cfg q i st = .ok r) :
    StD cfg L r.2 ∧ ∀ j', r.1 = some j' → HoldD cfg L q i st j' r.2 := by
  unfold holder at h
  cases hq : cfg.rules[q]? with
  | none => rw [hq] at h; cases h
  | some d =>
    simp only [hq] at h
    cases hm : d.isMacro with
    | true =>
      obtain ⟨hl, hok⟩ := H.lr q d hq hm
      simp only [hm, hl, Bool.not_false, Bool.and_true, if_true] at h
      rw [after_ok] at h
      obtain ⟨a, st1, h, rfl⟩ := h
      have q1 := ope_D hg hf hd H (hp.same (st' := { st with ruleStack := q :: st.ruleStack }) ⟨rfl, rfl, rfl⟩
        ⟨rfl, rfl, rfl, rfl, rfl, rfl, rfl, rfl, rfl⟩) hok h
      exact ⟨q1.d.same ⟨rfl, rfl, rfl, rfl, rfl, rfl, rfl, rfl, rfl⟩, fun j e => ⟨d, hq, .inr ⟨hm, q1.der j e⟩⟩⟩
    | false =>
      simp only [hm, Bool.false_and] at h
      simp only [Bool.false_eq_true, if_false] at h
      by_cases hl : d.isLR = true
      · simp only [hl, if_true] at h
        exact lrHold_D hg hf hd H hp hq hm hl hh h
      · simp only [hl] at h
        simp only [Bool.false_eq_true, if_false] at h
        have hlq : ¬ isLRRule cfg q := by
          rintro ⟨d', h1, h2⟩; rw [hq] at h1; cases h1; exact hl h2
        by_cases hro : cfg.recognizeOnly = true
        · simp only [hro, if_true] at h
          rw [bind_eq_ok] at h
          obtain ⟨x, hx, h⟩ := h
          cases h
          obtain ⟨a, b, c⟩ := guarded_D hg hf hd H hp hq hlq (fun st1 y ho1 hy => by
              rw [bind_eq_ok] at hy
              obtain ⟨z, hz, hy⟩ := hy
              cases hy
              exact opeBody_P hg H.slots ho1 hp.le hz)
            (fun st1 y hp1 he hy => by
              rw [bind_eq_ok] at hy
              obtain ⟨z, hz, hy⟩ := hy
              cases hy
              obtain ⟨s, dd⟩ := opeBody_D hg hf hd H hp1 hq hm
                (by intro d' h1 h2 h3; rw [he]; exact hh d' h1 h2 h3) hz
              exact ⟨s, fun j e E => .ruleReco hro hq hm (dd j e), .inl hro⟩) hx
          exact ⟨a, fun j e => ⟨d, hq, .inl ⟨hm, _, b j e, .inl hro⟩⟩⟩
        · simp only [hro] at h
          simp only [Bool.false_eq_true, if_false] at h
          rw [bind_eq_ok] at h
          obtain ⟨⟨a, v, st1⟩, hx, h⟩ := h
          obtain ⟨s, dd, c⟩ := guarded_D hg hf hd H hp hq hlq (fun st1 y ho1 hy => doParse_P hg H.slots ho1 hp.le hy)
            (fun st1 y hp1 he hy => by
              obtain ⟨s, dd⟩ := doParse_D hg hf hd H hp1 hq hm
                (by intro d' h1 h2 h3; rw [he]; exact hh d' h1 h2 h3) hy
              exact ⟨s, dd, .inr (doParse_E hg hf hy)⟩) hx
          cases a with
          | none => cases h; exact ⟨s, by intro j e; cases e⟩
          | some j =>
            cases h
            refine ⟨s.same (sameD_emplace _ _ _ _), ?_⟩
            intro j' e; cases e
            refine ⟨d, hq, .inl ⟨hm, v, dd j rfl, ?_⟩⟩
            rcases c with c | c
            · exact .inl c
            · have := emplace_vs cfg d v st1
              rw [c] at this
              exact this

/-! ## References and macros -/

theorem hold_call_D {cfg : Cfg V} {L : Lg} {q : Nat} {i : Nat} {st : St V} {fr : List Ope × Nat} {r : Res V}
    (H : DHyp cfg L) (hp : DPre cfg L i st) (hfr : ∀ e ∈ fr.1, e.Ok L)
    (hh : ∀ d, cfg.rules[q]? = some d → d.isMacro = false → fr.1 = [])
    (h : withArgs st fr (fun st => rec cfg (.hold q) i st) = .ok r) :
    StD cfg L r.2 ∧ ∀ j, r.1 = some j → HoldD cfg L q i { st with args := fr :: st.args } j r.2 := by
  unfold withArgs at h
  rw [after_ok] at h
  obtain ⟨a, st1, h, rfl⟩ := h
  have s1 : StD cfg L { st with args := fr :: st.args } :=
    ⟨hp.d.caps, hp.d.memo, hp.d.lr, by intro f hf; simp at hf; subst hf; exact hfr, hp.d.reco, hp.d.err⟩
  have o1 : StOk cfg { st with args := fr :: st.args } := hp.ok.same ⟨rfl, rfl, rfl⟩
  have p := hg.hold (st := { st with args := fr :: st.args }) H.slots o1 hp.le h
  obtain ⟨a1, a2⟩ := hd cfg L (.hold q) i { st with args := fr :: st.args } _ H ⟨o1, hp.le, s1, hp.al⟩ trivial
    (by intro d h1 h2 h3; exact hh d h1 h2) h
  refine ⟨⟨a1.caps, a1.memo, a1.lr, ?_, a1.reco, a1.err⟩, fun j e => a2 j e⟩
  show ∀ f ∈ st1.args.tail.head?, _
  rw [p.keep.args]
  exact hp.d.args

theorem refer_D {cfg : Cfg V} {L : Lg} {q : Nat} {nm : List Byte} {as : List Ope} {i : Nat} {st : St V} {r : Res V}
    (H : DHyp cfg L) (hp : DPre cfg L i st) (he : Ope.OkL L as)
    (h : refer rec cfg q as i st = .ok r) : DQ cfg L (.ope (.ref q nm as)) i st r := by
  unfold refer at h
  cases hq : cfg.rules[q]? with
  | none => simp only [hq] at h; cases h
  | some d =>
    simp only [hq] at h
    cases hm : d.isMacro with
    | true =>
      simp only [hm, if_true] at h
      split at h
      · cases h
      · cases h
      · rename_i cur rs top inst rest hrs ha
        have ht : ∀ e ∈ top, e.Ok L := hp.d.args (top, inst) (by rw [ha]; rfl)
        cases hc : cfg.rules[cur]? with
        | none => simp only [hc] at h; cases h
        | some c =>
          simp only [hc] at h
          split at h
          · cases h
          · have hr := okL_iff.mp (resolveList_ok (ps := c.params) ht as he)
            simp only [(H.lr q d hq hm).1, Bool.false_eq_true, if_false] at h
            obtain ⟨a1, a2⟩ := hold_call_D hg hf hd H hp (fr := (resolveList c.params top as, 0)) hr
              (by intro d' h1 h2; rw [hq] at h1; cases h1; rw [hm] at h2; cases h2) h
            refine ⟨a1, fun j e => ?_⟩
            obtain ⟨d', hq', y⟩ := a2 j e
            rw [hq] at hq'; cases hq'
            rcases y with ⟨hm', _⟩ | ⟨_, y⟩
            · rw [hm] at hm'; cases hm'
            · refine .call (q := cur) (c := c) hq hm (by simp [St.env, hrs]) hc ?_
              have e2 : st.env.top = top := by simp [St.env, ha]
              rw [e2]; exact y
    | false =>
      have fin : ∀ st' : St V, st'.vs = st.vs → ∀ j, HoldD cfg L q i st' j r.2 →
          Der cfg L.K st.env (.ope (.ref q nm as)) i st.vs j r.2.vs := by
        intro st' hv j y
        obtain ⟨d', hq', y⟩ := y
        rw [hq] at hq'; cases hq'
        rcases y with ⟨_, v, y1, y2⟩ | ⟨hm', _⟩
        · have base : Der cfg L.K st.env (.ope (.ref q nm as)) i st.vs j (pushValue d v st.vs) := .ref hq hm (y1 _)
          rcases y2 with y2 | y2
          · exact .anyFrame y2 base
          · rw [y2, hv]; exact base
        · rw [hm] at hm'; cases hm'
      simp only [hm, Bool.false_eq_true, if_false] at h
      split at h
      · rename_i hc
        simp only [Bool.and_eq_true, Bool.not_eq_true'] at hc
        obtain ⟨a1, a2⟩ := hd cfg L (.hold q) i st _ H hp trivial
          (by intro d' h1 h2 h3; rw [hq] at h1; cases h1; rw [hc.1.1] at h3; cases h3) h
        exact ⟨a1, fun j e => fin st rfl j (a2 j e)⟩
      · obtain ⟨a1, a2⟩ := hold_call_D hg hf hd H hp (fr := ([], 0)) (by intro e he; cases he) (fun _ _ _ => rfl) h
        exact ⟨a1, fun j e => fin { st with args := ([], 0) :: st.args } rfl j (a2 j e)⟩

theorem parseParam_D {cfg : Cfg V} {L : Lg} {k : Nat} {nm : List Byte} {i : Nat} {st : St V} {r : Res V}
    (H : DHyp cfg L) (hp : DPre cfg L i st) (h : parseParam rec cfg k i st = .ok r) : DQ cfg L (.ope (.param k nm)) i st r := by
  unfold parseParam at h
  split at h
  · cases h
  · rename_i top inst rest ha
    split at h
    · cases h
    · rename_i e hke
      have q := ope_D hg hf hd H hp (hp.d.args (_, _) (by rw [ha]; rfl) e (List.mem_of_getElem? hke)) h
      refine ⟨q.d, fun j ej => .param (e := e) ?_ (q.der j ej)⟩
      simp [St.env, ha, hke]

/-! ## Precedence climbing and recovery -/

theorem parsePrec_D {cfg : Cfg V} {L : Lg} {at_ bo : Ope} {info : List (List Byte × Nat × Byte)} {rl mp : Nat} {i : Nat}
    {st : St V} {r : Res V} (H : DHyp cfg L) (hp : DPre cfg L i st) (he : at_.Ok L ∧ bo.Ok L)
    (h : parsePrec rec cfg at_ bo info rl mp i st = .ok r) : DQ cfg L (.prec at_ bo info rl mp) i st r := by
  unfold parsePrec at h
  rw [andThen_ok] at h
  rcases h with ⟨st1, h, rfl⟩ | ⟨j, st1, h, h2⟩
  · exact .fail (ope_D hg hf hd H hp he.1 h).d
  · have q1 := ope_D hg hf hd H hp he.1 h
    have p := hg.ope H.slots hp.ok hp.le h
    rw [bind_eq_ok] at h2
    obtain ⟨b, -, h2⟩ := h2
    rw [after_ok] at h2
    obtain ⟨a, st2, h2, rfl⟩ := h2
    have hp1 := hp.step H (t := .ope at_) (.inl he.1) p q1
    obtain ⟨a1, a2⟩ := hd cfg L (.precLoop at_ bo info rl mp b i) j { st1 with precToks := (b, []) :: st1.precToks } _ H
      (hp1.same ⟨rfl, rfl, rfl⟩ ⟨rfl, rfl, rfl, rfl, rfl, rfl, rfl, rfl, rfl⟩) trivial he h2
    refine ⟨a1.same ⟨rfl, rfl, rfl, rfl, rfl, rfl, rfl, rfl, rfl⟩, fun k e => .prec (q1.der j rfl) ?_⟩
    have := a2 k e
    rw [← p.keep.env]
    exact this

theorem precReduce_D (cfg : Cfg V) (rl s j : Nat) (st : St V) :
    SameD st (precReduce cfg rl s j st) ∧ PrecVal cfg rl s j st.vs (precReduce cfg rl s j st).vs := by
  unfold precReduce
  cases ha : cfg.action rl with
  | some a =>
    have : hasAction cfg rl st = true := by simp [hasAction, ha]
    simp only [this, if_true]
    refine ⟨(sameD_callAction _ _ _ _ _).trans ⟨rfl, rfl, rfl, rfl, rfl, rfl, rfl, rfl, rfl⟩, ?_⟩
    unfold callAction
    simp only [ha]
    exact .act ha
  | none =>
    by_cases h : hasAction cfg rl st = true
    · simp only [h, if_true]
      refine ⟨(sameD_callAction _ _ _ _ _).trans ⟨rfl, rfl, rfl, rfl, rfl, rfl, rfl, rfl, rfl⟩, ?_⟩
      unfold callAction
      simp only [ha]
      exact .firstSv ha
    · simp only [h]
      exact ⟨⟨rfl, rfl, rfl, rfl, rfl, rfl, rfl, rfl, rfl⟩, .first ha⟩

theorem precRound_D {cfg : Cfg V} {L : Lg} {at_ bo : Ope} {info : List (List Byte × Nat × Byte)} {rl mp b s : Nat} {i : Nat}
    {st : St V} {r : Res V} (H : DHyp cfg L) (hp : DPre cfg L i st) (he : at_.Ok L ∧ bo.Ok L)
    (h : precRound rec cfg at_ bo info rl mp b s i st = .ok r) : DQ cfg L (.precLoop at_ bo info rl mp s) i st r := by
  unfold precRound at h
  split at h
  · rw [bind_eq_ok] at h
    obtain ⟨⟨a, st1⟩, h1, h⟩ := h
    have hp0 : DPre cfg L i { st with vs := {} } := hp.same ⟨rfl, rfl, rfl⟩ ⟨rfl, rfl, rfl, rfl, rfl, rfl, rfl, rfl, rfl⟩
    have p := hg.ope (st := { st with vs := {} }) H.slots hp0.ok hp.le h1
    have q := ope_D (st := { st with vs := {} }) hg hf hd H hp0 he.2 h1
    have stop : DQ cfg L (.precLoop at_ bo info rl mp s) i st (some i, { st1 with vs := st.vs }) :=
      .ok (q.d.same ⟨rfl, rfl, rfl, rfl, rfl, rfl, rfl, rfl, rfl⟩) .precEnd
    cases a with
    | none => cases h; exact stop
    | some j =>
      dsimp only at h
      have hp1 := hp0.step H (t := .ope bo) (.inl he.2) p q
      split at h
      · cases h; exact stop
      · rename_i level assoc hinfo
        split at h
        · cases h; exact stop
        · rename_i hlv
          split at h
          · cases h
          · rename_i opv ops hopv
            rw [bind_eq_ok] at h
            obtain ⟨⟨a, st2⟩, h2, h⟩ := h
            have hp2 : DPre cfg L j { st1 with vs := {} } := hp1.same ⟨rfl, rfl, rfl⟩ ⟨rfl, rfl, rfl, rfl, rfl, rfl, rfl, rfl, rfl⟩
            have p2 := Good.task (st := { st1 with vs := {} }) hg H.slots hp2.ok hp2.le h2 trivial (fun _ => rfl)
            obtain ⟨s2, d2⟩ := hd cfg L (.prec at_ bo info rl (if assoc = 76 then level + 1 else level)) j
              { st1 with vs := {} } _ H hp2 trivial he h2
            cases a with
            | none => cases h; exact .fail (s2.same ⟨rfl, rfl, rfl, rfl, rfl, rfl, rfl, rfl, rfl⟩)
            | some k =>
              dsimp only at h
              split at h
              · cases h
              · rename_i rv rvs hrv
                have q2 : DQ cfg L (.prec at_ bo info rl (if assoc = 76 then level + 1 else level)) j
                  { st1 with vs := {} } (some k, st2) := ⟨s2, d2⟩
                have hp3 := hp2.step H (t := .prec at_ bo info rl _) he p2 q2
                obtain ⟨r1, r2⟩ := precReduce_D hg hf hd cfg rl s k
                  { st2 with vs := (st.vs.addVal opv).addVal rv }
                have r3 := (keep_precReduce hg cfg rl s k { st2 with vs := (st.vs.addVal opv).addVal rv })
                have hp4 : DPre cfg L k (precReduce cfg rl s k { st2 with vs := (st.vs.addVal opv).addVal rv }) :=
                  (hp3.same (st' := { st2 with vs := (st.vs.addVal opv).addVal rv }) ⟨rfl, rfl, rfl⟩
                    ⟨rfl, rfl, rfl, rfl, rfl, rfl, rfl, rfl, rfl⟩).same r3.2 r1
                obtain ⟨s4, d4⟩ := hd cfg L (.precLoop at_ bo info rl mp b s) k _ r H hp4 trivial he h
                refine ⟨s4, fun j' e => ?_⟩
                have d5 := d4 j' e
                have ke1 : st1.env = st.env := p.keep.env
                have ke2 : st2.env = st.env := by
                  have := p2.keep.env
                  exact this.trans ke1
                have ke3 : (precReduce cfg rl s k { st2 with vs := (st.vs.addVal opv).addVal rv }).env = st.env :=
                  r3.1.env.trans ke2
                have d5 : Der cfg L.K st.env (.precLoop at_ bo info rl mp s) k
                    (precReduce cfg rl s k { st2 with vs := (st.vs.addVal opv).addVal rv }).vs j' r.2.vs := by
                  rw [← ke3]; exact d5
                have d6 : Der cfg L.K st.env (.prec at_ bo info rl (if assoc = 76 then level + 1 else level)) j {} k st2.vs := by
                  rw [← ke1]; exact d2 k rfl
                exact .precMore (q.der j rfl) hinfo (by omega) hopv d6 hrv r2 d5
  · cases h; exact .ok hp.d .precEnd

theorem parseRecov_D {cfg : Cfg V} {L : Lg} {q : Nat} {nm : List Byte} {as : List Ope} {i : Nat} {st : St V} {r : Res V}
    (H : DHyp cfg L) (hp : DPre cfg L i st) (he : Ope.Ok L (.recov q nm as))
    (h : parseRecov rec cfg q nm as i st = .ok r) : DQ cfg L (.ope (.recov q nm as)) i st r := by
  have hv := parseRecov_E hg hf h
  unfold parseRecov at h
  simp only [Ope.Ok] at he
  simp only at h
  rw [bind_eq_ok] at h
  obtain ⟨st0, h0, h⟩ := h
  have e0 : ∃ e, st0 = { st with err := e } ∧ ErrD L e st.logs := by
    split at h0
    · split at h0
      · cases h0
      · split at h0
        · cases h0
        · split at h0
          · cases h0; exact ⟨_, rfl, hp.d.err.note hp.al⟩
          · cases h0; exact ⟨_, rfl, hp.d.err⟩
      · cases h0
      · cases h0; exact ⟨_, rfl, hp.d.err⟩
    · cases h0; exact ⟨_, rfl, hp.d.err⟩
  obtain ⟨e, rfl, hee⟩ := e0
  rw [bind_eq_ok] at h
  obtain ⟨⟨a, st1⟩, h1, h⟩ := h
  have q1 := ope_D (st := { st with err := e, logOn := false, vs := {}, dt := none }) hg hf hd H
    ⟨hp.ok.same ⟨rfl, rfl, rfl⟩, hp.le, ⟨hp.d.caps, hp.d.memo, hp.d.lr, hp.d.args, hp.d.reco, hee⟩, hp.al⟩ (e := .ref q nm as) (by simp only [Ope.Ok]; exact he.2) h1
  rw [bind_eq_ok] at h
  obtain ⟨st2, h2, h⟩ := h
  cases h
  have key : ∀ rc er lg, (rc = st1.recovered ∨ rc = true) → ErrD L er lg → StD cfg L ({ st1 with logOn := st.logOn, vs := st.vs, dt := st.dt, recovered := rc, err := er, logs := lg } : St V) := by
    intro rc er lg hrc hel
    refine ⟨q1.d.caps, q1.d.memo, q1.d.lr, q1.d.args, ?_, hel⟩
    intro hr; rw [he.1] at hr; cases hr
  have s2 : StD cfg L st2 := by
    split at h2
    · split at h2
      · rw [bind_eq_ok] at h2
        obtain ⟨o, ho, h2⟩ := h2
        cases h2
        refine key true _ _ (.inr rfl) ⟨fun p hp => (by cases hp), fun p hp => (by cases hp), fun t ht => (by cases ht), ?_⟩
        intro rep hrep
        rcases List.mem_append.mp hrep with hrep | hrep
        · exact q1.d.err.logs rep hrep
        · exact q1.d.err.output ho rep (by simpa using hrep)
      · cases h2
        exact key true _ _ (.inr rfl) q1.d.err
    · cases h2
      exact key _ _ _ (.inl rfl) q1.d.err
  refine ⟨s2.same (sameD_setCut _ _), fun j ej => ?_⟩
  rw [hv]
  exact .recov he.1 (q1.der j ej)

/-! ## The engine -/

theorem parseOpe_D {cfg : Cfg V} {L : Lg} {e : Ope} {i : Nat} {st : St V} {r : Res V}
    (H : DHyp cfg L) (hp : DPre cfg L i st) (hb : BodyOk L e)
    (h : parseOpe rec cfg e i st = .ok r) : DQ cfg L (.ope e) i st r := by
  unfold parseOpe at h
  rw [if_neg (by have := hp.le; omega)] at h
  rcases hb with he | ⟨a, b, info, q, rfl, ha, hbo⟩
  · have he' := he
    cases e with
    | seq es kw => exact parseSeq_D hg hf hd H hp he h
    | cho es l fs => simp only [Ope.Ok] at he; exact parseCho_D hg hf hd H hp he h
    | rep e mn mx sp => exact parseRep_D hg hf hd H hp he h
    | and_ e => simp only [Ope.Ok] at he; exact parseAnd_D hg hf hd H hp he h
    | not_ e => simp only [Ope.Ok] at he; exact parseNot_D hg hf hd H hp he h
    | dict w ic => simp only [Ope.Ok] at he; exact parseDict_D hg hf hd H hp he h
    | lit s ic => exact parseLiteral_D hg hf hd H hp (.inl he') (fun _ e => by cases e) (fun E f j f' h1 h2 => .lit h1 h2) h
    | cls c => exact terminal_D hg hf hd (e := .cls c) hp rfl h
    | chr c => exact terminal_D hg hf hd (e := .chr c) hp rfl h
    | dot => exact terminal_D hg hf hd (e := .dot) hp rfl h
    | capScope e => simp only [Ope.Ok] at he; exact parseCapScope_D hg hf hd H hp he h
    | cap nm e => simp only [Ope.Ok] at he; exact parseCap_D hg hf hd H hp he h
    | tok e => simp only [Ope.Ok] at he; exact tokenBody_D hg hf hd H hp he h
    | ign e => simp only [Ope.Ok] at he; exact parseIgn_D hg hf hd H hp he h
    | usr n => exact parseUsr_D hg hf hd hp h
    | weak q => simp only [Ope.Ok] at he
    | ref q nm as => simp only [Ope.Ok] at he; exact refer_D hg hf hd H hp he h
    | param k nm => exact parseParam_D hg hf hd H hp h
    | ws e => simp only [Ope.Ok] at he; exact parseWs_D hg hf hd H hp he h
    | bref nm => exact parseBref_D hg hf hd H hp (by simpa only [Ope.Ok] using he') h
    | prec a b info q => simp only [Ope.Ok] at he
    | recov q nm as => exact parseRecov_D hg hf hd H hp he h
    | cut =>
      cases h
      refine .ok (hp.d.same (sameD_setCut _ _)) ?_
      rw [vs_setCut hg hf]; exact .cut
    | null => cases h
  · obtain ⟨a1, a2⟩ := hd cfg L (.prec a b info q 0) i st r H hp trivial ⟨ha, hbo⟩ h
    exact ⟨a1, fun j e => .precOpe (a2 j e)⟩

theorem step_goodD : GoodD (step rec) := by
  intro cfg L t i st r H hp ht htd h
  cases t with
  | ope e => let x := parseOpe_D hg hf hd H hp htd h; exact ⟨x.d, x.der⟩
  | rep e mx c => exact repRound_D hg hf hd H hp htd h
  | hold q => exact holder_D hg hf hd H hp htd h
  | grow q inst cyc j v => exact growRound_D hg hf hd H hp ht htd h
  | prec a b info q mp => let x := parsePrec_D hg hf hd H hp htd h; exact ⟨x.d, x.der⟩
  | precLoop a b info q mp bn s => let x := precRound_D hg hf hd H hp htd h; exact ⟨x.d, x.der⟩

end

theorem run_goodD (n : Nat) : GoodD (run (V := V) n) := by
  induction n with
  | zero => intro cfg L t i st r _ _ _ _ h; cases h
  | succ n ih => exact step_goodD (run_good n) (run_goodF n) ih

end Verif
