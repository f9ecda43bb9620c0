import Verif.Object
import Verif.Props.Blob
/-!
# C68: a parser object is what its last successful load made it

Specification: `lastLeftRec` (the last setting of left recursion), `Op.quiet`, `Op.isPackrat`, `Op.isNoEoi` (kinds of calls).
-/

namespace Verif.Object
open Verif Out Meta Blob

variable {V : Type}

theorem bind_inv {α β : Type} {x : Out α} {f : α → Out β} {b : β} (h : x.bind f = .ok b) : ∃ a, x = .ok a ∧ f a = .ok b := by
  cases x with
  | ok a => exact ⟨a, rfl, h⟩
  | ub s => cases h
  | oof => cases h

theorem parse_leftRec {E : Given} {n : Nat} {o : Obj} {c : Call V} {r : Option (Answer V) × Obj} (h : o.parse E n c = .ok r) :
    r.2.leftRec = o.leftRec ∧ r.2.start = o.start ∧ r.2.allow = o.allow := by
  unfold Obj.parse at h
  cases hg : o.gram with
  | none => rw [hg] at h; cases h; exact ⟨rfl, rfl, rfl⟩
  | some g =>
    rw [hg] at h
    simp only at h
    cases hf : g.find o.start with
    | none => rw [hf] at h; cases h
    | some a =>
      rw [hf] at h
      obtain ⟨ans, -, h⟩ := bind_inv h
      cases h
      exact ⟨rfl, rfl, rfl⟩

theorem atStart_leftRec (o : Obj) (f : Held → Nat → Held) : (o.atStart f).leftRec = o.leftRec := by
  unfold Obj.atStart
  cases o.gram with
  | none => rfl
  | some g => simp only; cases g.find o.start <;> rfl

theorem step_leftRec {E : Given} {o o' : Obj} {x : Op V} (h : o.step E x = .ok o') :
    o'.leftRec = match x with | .leftRec b => b | _ => o.leftRec := by
  cases x with
  | load text us start =>
    obtain ⟨r, -, h⟩ := bind_inv h
    cases r with
    | none => cases h; rfl
    | some y => cases h; rfl
  | blob b =>
    unfold Obj.step Obj.blob at h
    simp only at h
    cases hb : loadBlob b with
    | ok y r =>
      rw [hb] at h
      cases y with
      | none => cases h; rfl
      | some y =>
        obtain ⟨st, g⟩ := y
        simp only at h
        cases hr : restore E.order g st with
        | none => rw [hr] at h; cases h
        | some z => rw [hr] at h; cases h; rfl
    | fail => rw [hb] at h; cases h
    | over n r => rw [hb] at h; cases h
    | nullDeref => rw [hb] at h; cases h
    | oof => rw [hb] at h; cases h
  | packrat => cases h; exact atStart_leftRec _ _
  | noEoi => cases h; exact atStart_leftRec _ _
  | leftRec b => cases h; rfl
  | touch nm =>
    show o'.leftRec = o.leftRec
    unfold Obj.step at h
    cases hg : o.gram with
    | none => simp only [hg] at h; cases h
    | some g =>
      simp only [hg] at h
      by_cases hc : ((g.find nm).isSome || g.extra.contains nm) = true
      · rw [if_pos hc] at h; cases h; rfl
      · rw [if_neg hc] at h; cases h; rfl
  | parse n c =>
    obtain ⟨r, h1, h2⟩ := bind_inv h
    cases h2
    exact (parse_leftRec h1).1

theorem run_leftRec {E : Given} : ∀ (h : List (Op V)) {o o' : Obj}, o.run E h = .ok o' →
    o'.leftRec = ((h.filterMap fun | .leftRec b => some b | _ => none).getLast?).getD o.leftRec
  | [], _, _, h => by cases h; rfl
  | x :: xs, o, o', h => by
    obtain ⟨o1, h1, h2⟩ := bind_inv h
    rw [run_leftRec xs h2, step_leftRec h1]
    cases x <;> first
      | rfl
      | (rename_i b
         show _ = (((b :: xs.filterMap _).getLast?).getD _ : Bool)
         rw [List.getLast?_cons]
         rfl)

/-- The option for packrat parsing only goes into the parser made. -/
theorem load_packrat {mark loops : List Def → Nat → Bool} {order : List Nat} {S : Source} {G : Parser} {a : Nat}
    (h : load mark loops order S = .ok (some (G, a))) (p : Bool) :
    load mark loops order { S with packrat := p } = .ok (some ({ G with packrat := fun r => decide (r = a) && p }, a)) := by
  have e1 : ({ S with packrat := p } : Source).all = S.all := rfl
  have e2 : ({ S with packrat := p } : Source).startRule = S.startRule := rfl
  unfold load at h ⊢
  rw [e1, e2]
  by_cases h1 : ¬ (S.all.map (·.head.name)).Nodup
  · rw [if_pos h1] at h; cases h
  rw [if_neg h1] at h ⊢
  cases hs : S.startRule with
  | none => rw [hs] at h; cases h
  | some o =>
    rw [hs] at h
    cases o with
    | none => cases h
    | some b =>
      simp only at h ⊢
      by_cases h2 : ((S.all[b]?).map (·.head.ignoreSV)).getD false = true
      · rw [if_pos h2] at h; cases h
      rw [if_neg h2] at h ⊢
      by_cases h3 : (!refsOk S.all) = true
      · rw [if_pos h3] at h; cases h
      rw [if_neg h3] at h ⊢
      by_cases h4 : (!S.leftRec && (List.range (linkAll S.all).length).any (mark (linkAll S.all))) = true
      · rw [if_pos h4] at h; cases h
      rw [if_neg h4] at h ⊢
      generalize (if S.leftRec then (linkAll S.all).mapIdx fun r d => { d with isLR := mark (linkAll S.all) r } else linkAll S.all) = rs at h ⊢
      by_cases h5 : loops rs b = true
      · rw [if_pos h5] at h; cases h
      rw [if_neg h5] at h ⊢
      generalize (if (ruleNamed S.all whitespaceName).isSome then rs.map tokLit else rs) = rs2 at h ⊢
      by_cases h6 : ((ruleNamed S.all whitespaceName).map (loops rs2)).getD false = true
      · rw [if_pos h6] at h; cases h
      rw [if_neg h6] at h ⊢
      by_cases h7 : ((ruleNamed S.all wordName).map (loops rs2)).getD false = true
      · rw [if_pos h7] at h; cases h
      rw [if_neg h7] at h ⊢
      cases hp : precAll S.prec 0 rs2 with
      | none => rw [hp] at h; cases h
      | some rs3 => rw [hp] at h; cases h; rfl

/-- The parser loaded, with packrat parsing on or off for its start rule. -/
def withPk (G : Parser) (a : Nat) (p : Bool) : Parser := { G with packrat := fun r => decide (r = a) && p }

theorem initIds_isSome (G : Parser) (a : Nat) (sh : Shared) : ((sh.initIds G a).ids a).isSome = true := by
  unfold Shared.initIds
  cases h : sh.ids a with
  | some s => simp [h]
  | none => simp

theorem initIds_idem (G : Parser) (a : Nat) (sh : Shared) : (sh.initIds G a).initIds G a = sh.initIds G a := by
  have h1 := initIds_isSome G a sh
  revert h1
  generalize sh.initIds G a = s
  intro h1
  unfold Shared.initIds
  cases h : s.ids a with
  | none => rw [h] at h1; cases h1
  | some t => rfl

/-- A start rule used without packrat parsing first is as if it had not been used. -/
theorem prepare_plain_then (F : List Nat → Nat → List Bool) (G : Parser) (a : Nat) (p q : Bool) (hpq : q = true → p = true) (sh : Shared) :
    (sh.prepare F (withPk G a q) a).prepare F (withPk G a p) a = sh.prepare F (withPk G a p) a := by
  cases q with
  | true => cases hpq rfl; exact prepare_idem F _ a sh
  | false =>
    have e : sh.prepare F (withPk G a false) a = sh.initIds G a := by
      unfold Shared.prepare Shared.initFilt
      rw [if_neg (by simp [withPk])]
      rfl
    rw [e]
    unfold Shared.prepare
    have e2 : ∀ s : Shared, s.initIds (withPk G a p) a = s.initIds G a := fun s => rfl
    rw [e2, e2, initIds_idem]

/-- The object after a text was loaded and calls were made that neither load nor look up rules. -/
structure Since (E : Given) (G : Parser) (a : Nat) (allow p e : Bool) (o : Obj) : Prop where
  gram : ∃ h, o.gram = some h ∧ h.G = withPk G a (p && allow) ∧ h.eoi a = !e ∧
    ∀ p', (p = true → p' = true) → h.sh.prepare E.F (withPk G a (p' && allow)) a = ({} : Shared).prepare E.F (withPk G a (p' && allow)) a
  allow : o.allow = allow
  start : ∀ h, o.gram = some h → h.find o.start = some a

theorem since_step {E : Given} {G : Parser} {a : Nat} {allow p e : Bool} {o o' : Obj} (hs : Since E G a allow p e o) {x : Op V} (hq : x.quiet = true)
    (h : o.step E x = .ok o') : Since E G a allow (p || x.isPackrat) (e || x.isNoEoi) o' := by
  obtain ⟨g, hg, k1, k2, k3⟩ := hs.gram
  have hf := hs.start g hg
  cases x with
  | load => cases hq
  | blob => cases hq
  | touch => cases hq
  | leftRec b =>
    cases h
    simp only [Op.isPackrat, Op.isNoEoi, Bool.or_false]
    exact ⟨⟨g, hg, k1, k2, k3⟩, hs.allow, hs.start⟩
  | packrat =>
    unfold Obj.step Obj.atStart at h
    rw [hg] at h
    simp only [hf] at h
    cases h
    simp only [Op.isPackrat, Op.isNoEoi, Bool.or_false, Bool.or_true]
    refine ⟨⟨_, rfl, ?_, k2, ?_⟩, hs.allow, ?_⟩
    · have e1 : (fun r => if r = a then o.allow else g.G.packrat r) = fun r => decide (r = a) && (true && allow) := by
        funext r
        rw [hs.allow, k1]
        by_cases hr : r = a
        · simp [hr]
        · simp [withPk, hr]
      show ({ g.G with packrat := fun r => if r = a then o.allow else g.G.packrat r } : Parser) = _
      rw [e1, k1]
      rfl
    · intro p' hp'
      cases hp' rfl
      exact k3 true (fun _ => rfl)
    · intro h' e'
      cases e'
      exact hf
  | noEoi =>
    unfold Obj.step Obj.atStart at h
    rw [hg] at h
    simp only [hf] at h
    cases h
    simp only [Op.isPackrat, Op.isNoEoi, Bool.or_false, Bool.or_true]
    refine ⟨⟨_, rfl, k1, by simp, k3⟩, hs.allow, ?_⟩
    intro h' e'
    cases e'
    exact hf
  | parse n c =>
    simp only [Op.isPackrat, Op.isNoEoi, Bool.or_false]
    obtain ⟨r, h1, h2⟩ := bind_inv h
    cases h2
    unfold Obj.parse at h1
    rw [hg] at h1
    simp only [hf] at h1
    obtain ⟨ans, -, h1⟩ := bind_inv h1
    cases h1
    refine ⟨⟨_, rfl, k1, k2, ?_⟩, hs.allow, ?_⟩
    · intro p' hp'
      show (g.sh.prepare E.F g.G a).prepare E.F (withPk G a (p' && allow)) a = _
      rw [k1, prepare_plain_then E.F G a (p' && allow) (p && allow) (by
        intro hb
        rw [Bool.and_eq_true] at hb ⊢
        exact ⟨hp' hb.1, hb.2⟩)]
      exact k3 p' hp'
    · intro h' e'
      cases e'
      exact hf

theorem since_run {E : Given} {G : Parser} {a : Nat} {allow : Bool} : ∀ (hist : List (Op V)) {p e : Bool} {o o' : Obj}, Since E G a allow p e o →
    (∀ x ∈ hist, x.quiet = true) → o.run E hist = .ok o' → Since E G a allow (p || hist.any Op.isPackrat) (e || hist.any Op.isNoEoi) o'
  | [], p, e, o, o', hs, _, h => by cases h; simpa using hs
  | x :: xs, p, e, o, o', hs, hq, h => by
    obtain ⟨o1, h1, h2⟩ := bind_inv h
    have := since_run xs (since_step hs (hq x (by simp)) h1) (fun y hy => hq y (List.mem_cons_of_mem _ hy)) h2
    rw [List.any_cons, List.any_cons, ← Bool.or_assoc, ← Bool.or_assoc]
    exact this

theorem since_parse {E : Given} {G : Parser} {a : Nat} {allow p e : Bool} {o : Obj} (hs : Since E G a allow p e o) (n : Nat) (c : Call V) :
    (o.parse E n c).bind (fun r => .ok r.1) =
      (Shared.parse E.F (withPk G a (p && allow)) n {} { c with start := a, eoi := !e }).1.bind fun ans => .ok (some ans) := by
  obtain ⟨g, hg, k1, k2, k3⟩ := hs.gram
  have hf := hs.start g hg
  unfold Obj.parse
  rw [hg]
  simp only [hf]
  unfold Shared.parse
  simp only
  rw [k1, k2, k3 p id]
  cases parserParse n (Shared.cfg (withPk G a (p && allow)) (Shared.prepare E.F (withPk G a (p && allow)) a {}) { c with start := a, eoi := !e }) a (!e) c.log c.dt <;> rfl

end Verif.Object

namespace Verif.Props
open Verif Out Meta Blob Object

variable {V : Type}

/-- **C68** What was done with a parser object before has no influence on what `load_grammar` makes of it, accepted or refused, except the last
setting of `enable_left_recursion`: no rule, callback, option or cache of an earlier grammar survives. -/
theorem C68_last_load {E : Given} {h : List (Op V)} {o : Obj} (hr : Obj.run E {} h = .ok o) (text : List Byte) (us : List (List Byte × Src))
    (start : Option (List Byte)) : o.step E (.load text us start : Op V) = Obj.step E { leftRec := lastLeftRec h } (.load text us start : Op V) := by
  have e : o.leftRec = lastLeftRec h := run_leftRec h hr
  show o.load E text us start = Obj.load E { leftRec := lastLeftRec h } text us start
  unfold Obj.load
  rw [e]

/-- **C68** The same for a blob that is accepted. -/
theorem C68_last_blob {E : Given} {h : List (Op V)} {o o' : Obj} (hr : Obj.run E {} h = .ok o) {bytes : List Byte} {g : List Byte × List BDef} {rest : List Byte}
    (hb : loadBlob bytes = .ok (some g) rest) : o.step E (.blob bytes : Op V) = Obj.step E { leftRec := lastLeftRec h } (.blob bytes : Op V) := by
  have e : o.leftRec = lastLeftRec h := run_leftRec h hr
  show o.blob E bytes = Obj.blob E { leftRec := lastLeftRec h } bytes
  unfold Obj.blob
  rw [hb]
  simp only
  rw [e]

/-- **C68** After a refused text the object has no grammar: whatever settings are made, every parse is defined and answers false without a report. -/
theorem C68_refused_text {E : Given} {o : Obj} {text : List Byte} {us : List (List Byte × Src)} {start : Option (List Byte)}
    (h : loadTextWith E.fuel E.metaOrder E.mark E.loops E.order text us start false o.leftRec = .ok none) (hist : List (Op V))
    (hq : ∀ x ∈ hist, x.quiet = true) :
    ∃ o2, o.run E (.load text us start :: hist) = .ok o2 ∧ ∀ n (c : Call V), o2.parse E n c = .ok (none, o2) := by
  have e : o.step E (.load text us start : Op V) = .ok { leftRec := o.leftRec } := by
    show o.load E text us start = _
    unfold Obj.load
    rw [h]
    rfl
  have key : ∀ (hist : List (Op V)) {o' : Obj}, o'.gram = none → (∀ x ∈ hist, x.quiet = true) →
      ∃ o2, o'.run E hist = .ok o2 ∧ ∀ n (c : Call V), o2.parse E n c = .ok (none, o2) := by
    intro hist
    induction hist with
    | nil => intro o' hg _; exact ⟨o', rfl, fun n c => by unfold Obj.parse; rw [hg]⟩
    | cons x xs ih =>
      intro o' hg hq
      have key : ∃ o1, o'.step E x = .ok o1 ∧ o1.gram = none := by
        have hx := hq x (by simp)
        cases x with
        | load => cases hx
        | blob => cases hx
        | touch => cases hx
        | packrat => exact ⟨o', by unfold Obj.step Obj.atStart; rw [hg], hg⟩
        | noEoi => exact ⟨o', by unfold Obj.step Obj.atStart; rw [hg], hg⟩
        | leftRec b => exact ⟨_, rfl, hg⟩
        | parse n c => exact ⟨o', by unfold Obj.step Obj.parse; rw [hg]; rfl, hg⟩
      obtain ⟨o1, h1, h2⟩ := key
      obtain ⟨o2, h3, h4⟩ := ih h2 fun y hy => hq y (List.mem_cons_of_mem _ hy)
      exact ⟨o2, by unfold Obj.run; rw [h1]; exact h3, h4⟩
  obtain ⟨o2, h1, h2⟩ := key hist (o' := { leftRec := o.leftRec }) rfl hq
  exact ⟨o2, by unfold Obj.run; rw [e]; exact h1, h2⟩

theorem load_since {E : Given} {o o1 : Obj} {text : List Byte} {us : List (List Byte × Src)} {start : Option (List Byte)} (ht : Text text)
    (hp : ∀ ds, ReadsAs text (.defs ds) → ∀ d ∈ ds, ∀ ps, d.params = some ps → recoverName ∉ ps) (hu : ∀ u ∈ us, u.2.recovs = true)
    (h : o.load E text us start = .ok o1) (hg : o1.gram ≠ none) :
    ∃ G a, (∀ p, loadTextWith E.fuel E.metaOrder E.mark E.loops E.order text us start p o.leftRec = .ok (some (withPk G a (p && allowed E text), a))) ∧
      Since E G a (allowed E text) false false o1 := by
  unfold Obj.load at h
  obtain ⟨r, h1, h2⟩ := bind_inv h
  cases r with
  | none => cases h2; exact absurd rfl hg
  | some y =>
    obtain ⟨G, a⟩ := y
    cases h2
    obtain ⟨ds, k1, k2, k3⟩ := loadTextWith_inv ht h1
    have hlo := load_ok (sourceWith_wf (C54_read_is_regular ht k1).2 (hp ds k1) hu start (false && ownCaps ds) o.leftRec) k3
    have hnames := names_nodup hlo.heads
    have hpk : G = withPk G a false := by
      obtain ⟨-, -, -, -, rs, -, -, -, -, e⟩ := load_inv k3
      unfold withPk
      have : (fun r => decide (r = a) && false) = G.packrat := by rw [e]; funext r; rfl
      rw [this]
    refine ⟨G, a, ?_, ⟨⟨_, rfl, hpk, rfl, fun _ _ => rfl⟩, rfl, ?_⟩⟩
    · intro p
      unfold loadTextWith at h1 ⊢
      unfold allowed
      cases hr : readText E.fuel E.metaOrder text with
      | ub s => rw [hr] at h1; cases h1
      | oof => rw [hr] at h1; cases h1
      | ok r =>
        rw [hr] at h1
        simp only [Out.bind] at h1 ⊢
        cases r with
        | refused => cases h1
        | crash b => cases h1
        | defs ds' =>
          simp only at h1 ⊢
          by_cases hd : (dupInstr ds' || undefBref ds' || !decide (recoverName :: ds'.map (·.name)).Nodup) = true
          · rw [if_pos hd] at h1; cases h1
          · rw [if_neg hd] at h1 ⊢
            by_cases hs : (start.or (textStart ds')).isNone = true
            · rw [if_pos hs] at h1; cases h1
            · rw [if_neg hs] at h1 ⊢
              exact load_packrat h1 (p && ownCaps ds')
    · intro h' e'
      cases e'
      obtain ⟨d, hd⟩ : ∃ d, G.rules[a]? = some d := ⟨_, List.getElem?_eq_getElem hlo.start⟩
      show G.rules.findIdx? (fun e => decide (e.name = ((G.rules[a]?).map Def.name).getD [])) = some a
      rw [hd]
      have hnd : (G.rules.map Def.name).Nodup := by rw [hnames]; exact hlo.nodup
      rw [List.findIdx?_eq_some_iff_getElem]
      have hlt := hlo.start
      have hda : G.rules[a] = d := (List.getElem?_eq_some_iff.1 hd).2
      refine ⟨hlt, by simp [hda], ?_⟩
      intro j hj
      have hj' : j < G.rules.length := by omega
      intro hc
      have hc : G.rules[j].name = d.name := by simpa using hc
      have hne := List.pairwise_iff_getElem.1 hnd j a (by simpa using hj') (by simpa using hlt) hj
      rw [List.getElem_map, List.getElem_map, hda] at hne
      exact hne hc

/-- **C68** Settings act as if made before the first parse, whenever they are made: after a text was loaded and any parses and settings, in any order, a
parse answers as the first parse of the parser the text gives, with packrat parsing on iff it was enabled (and the text allows it) and the end
of the input asked for unless that was disabled.  What came before the load does not matter. -/
theorem C68_settings {E : Given} {o o2 : Obj} {text : List Byte} {us : List (List Byte × Src)} {start : Option (List Byte)} (ht : Text text)
    (hp : ∀ ds, ReadsAs text (.defs ds) → ∀ d ∈ ds, ∀ ps, d.params = some ps → recoverName ∉ ps) (hu : ∀ u ∈ us, u.2.recovs = true)
    (hist : List (Op V)) (hq : ∀ x ∈ hist, x.quiet = true) (hr : o.run E (.load text us start :: hist) = .ok o2) (hg : o2.gram ≠ none) :
    ∃ G a, loadTextWith E.fuel E.metaOrder E.mark E.loops E.order text us start (hist.any Op.isPackrat) o.leftRec = .ok (some (G, a)) ∧
      ∀ n (c : Call V), (o2.parse E n c).bind (fun r => .ok r.1) =
        (Shared.parse E.F G n {} { c with start := a, eoi := !hist.any Op.isNoEoi }).1.bind fun ans => .ok (some ans) := by
  obtain ⟨o1, h1, h2⟩ := bind_inv hr
  have h1 : o.load E text us start = .ok o1 := h1
  have hg1 : o1.gram ≠ none := by
    intro hn
    obtain ⟨r, k1, k2⟩ := bind_inv h1
    cases r with
    | none =>
      obtain ⟨o3, q1, q2⟩ := C68_refused_text k1 hist hq
      have : (.ok o3 : Out Obj) = .ok o2 := q1.symm.trans hr
      cases this
      have := q2 0 ({ start := 0, input := [] } : Call V)
      unfold Obj.parse at this
      cases hgg : o2.gram with
      | none => exact hg hgg
      | some g =>
        rw [hgg] at this
        simp only at this
        cases hf : g.find o2.start with
        | none => rw [hf] at this; cases this
        | some a =>
          rw [hf] at this
          obtain ⟨ans, -, e⟩ := bind_inv this
          cases e
    | some y => cases k2; cases hn
  obtain ⟨G, a, q1, q2⟩ := load_since ht hp hu h1 hg1
  have q3 := since_run hist q2 hq h2
  rw [Bool.false_or, Bool.false_or] at q3
  exact ⟨_, a, q1 _, fun n c => since_parse q3 n c⟩

/-- **C68** A refused blob leaves an object as it was, if the bytes do not begin with the magic number. -/
theorem C68_refused_blob_partial (E : Given) (o : Obj) (bytes : List Byte) (h : ¬ u32 magic <+: bytes) : o.step E (.blob bytes : Op V) = .ok o := by
  show o.blob E bytes = .ok o
  unfold Obj.blob
  rw [C41_magic_partial bytes h]
  have : storedStart bytes = none := by
    unfold storedStart Rd.bind
    have g := good_rle bytes.length 4 bytes (Nat.le_refl _)
    cases hr : ru32 bytes with
    | ok m r =>
      have hm : m ≠ magic := by
        intro hm
        subst hm
        obtain ⟨e, -⟩ := rle_ok hr
        exact h ⟨r, by rw [e]; rfl⟩
      simp only
      rw [if_pos hm]
      rfl
    | fail => rfl
    | over n r => rfl
    | nullDeref => rfl
    | oof => rfl
  simp only [this]
  rfl

theorem deserialize_null (g : List BDef) (start blob : List Byte) (hs : start.length < 2 ^ 32)
    (hg : g.length < 2 ^ 32) (hn : (g.map (·.name)).Nodup) (hf : ∀ d ∈ g, FitsDef d)
    (hnull : ∃ d ∈ g, linkHitsNull d = true) (hw : serialize g start = some blob) : loadBlob blob = .nullDeref := by
  have : deserialize blob = .nullDeref := by
    unfold serialize at hw
    rw [Option.map_eq_some_iff] at hw
    obtain ⟨c, hc, rfl⟩ := hw
    have hperm := sortBy_perm (·.name) g
    unfold deserialize
    generalize hN : (u32 magic ++ wstr start ++ u32 g.length ++ c).length + 1 = N
    have hcN : c.length ≤ N := by
      rw [← hN]; simp only [List.length_append]; omega
    have hread : readGrammar N (u32 magic ++ wstr start ++ u32 g.length ++ c) = .ok (start, sortBy (·.name) g) [] := by
      unfold readGrammar
      simp only [List.append_assoc]
      rw [bind_ok (ru32_u32 magic (by decide) _)]
      rw [if_neg (by simp)]
      rw [bind_ok (rstr_wstr start hs _), bind_ok (ru32_u32 _ hg _)]
      have hrd := readDefs_write (sortBy (·.name) g) c hc (fun d hd => hf d (hperm.mem_iff.mp hd)) N hcN []
      rw [List.append_nil, hperm.length_eq] at hrd
      rw [bind_ok hrd]
      rfl
    rw [bind_ok hread]
    have hput := putDef_all (sortBy (·.name) g) [] (by
      rw [List.nil_append]
      exact (hperm.map _).nodup_iff.mpr hn)
    rw [List.nil_append] at hput
    simp only [hput]
    rw [if_pos]
    simp only [List.any_eq_true]
    obtain ⟨d, hd, hh⟩ := hnull
    exact ⟨d, hperm.mem_iff.mpr hd, hh⟩
  unfold loadBlob
  rw [this]

/-- **C68** (what fails) Asking a parser for a rule that does not exist (`parser["typo"]`), then saving the parser (which succeeds), gives a blob the library
crashes on: whatever the parser, if it can be saved at all. -/
theorem C68_counterexample_unknown_rule (E : Given) {o : Obj} {h : Held} {nm : List Byte} (hg : o.gram = some h) (hx : h.extra = []) (hf : h.find nm = none)
    (hnm : nm.length < 2 ^ 32) (hs : o.start.length < 2 ^ 32) (hlen : h.G.rules.length + 1 < 2 ^ 32) (hn : (h.G.rules.map Def.name).Nodup)
    (hst : ∀ d ∈ h.G.rules, d.storable = true) (x : Nat → Extras) (hex : ∀ r, (x r).astName.length < 2 ^ 32) :
    ∃ o' blob, o.step E (.touch nm : Op V) = .ok o' ∧ o'.serialize x = some blob ∧ loadBlob blob = .nullDeref := by
  refine ⟨{ o with gram := some { h with extra := [nm] } }, ?_⟩
  have e1 : o.step E (.touch nm : Op V) = .ok { o with gram := some { h with extra := [nm] } } := by
    unfold Obj.step
    simp only [hg]
    rw [hf, hx]
    rfl
  generalize hy : (fun r => { x r with eoi := h.eoi r }) = y
  have hy2 : ∀ r, (y r).astName.length < 2 ^ 32 := by
    subst hy
    exact hex
  have hget : ∀ b ∈ blobOf y h.G, ∃ (r : Nat) (d : Def), h.G.rules[r]? = some d ∧ b = d.toB h.G.rules (h.G.packrat r) (y r) := by
    intro b hb
    obtain ⟨r, hr⟩ := List.mem_iff_getElem?.1 hb
    unfold blobOf at hr
    rw [List.getElem?_mapIdx] at hr
    cases hd : h.G.rules[r]? with
    | none => rw [hd] at hr; cases hr
    | some d => rw [hd] at hr; cases hr; exact ⟨r, d, hd, rfl⟩
  have hser : (serialize (blobOf y h.G ++ [{ name := nm, ope := .null }]) o.start).isSome = true := by
    rw [C40_serializable_partial]
    intro b hb
    rcases List.mem_append.1 hb with hb | hb
    · obtain ⟨r, d, hd, rfl⟩ := hget b hb
      have := hst d (List.mem_of_getElem? hd)
      unfold Def.storable at this
      simp only [Bool.and_eq_true] at this
      exact storable_serial h.G.rules d.ope this.2
    · rw [List.mem_singleton] at hb
      subst hb
      rfl
  obtain ⟨blob, hblob⟩ := Option.isSome_iff_exists.1 hser
  refine ⟨blob, e1, ?_, ?_⟩
  · unfold Obj.serialize
    simp only [hy]
    exact hblob
  · have hlb : (blobOf y h.G).length = h.G.rules.length := by unfold blobOf; rw [List.length_mapIdx]
    refine deserialize_null _ o.start blob hs ?_ ?_ ?_ ⟨_, List.mem_append_right _ (List.mem_singleton_self _), rfl⟩ hblob
    · rw [List.length_append, hlb]; exact hlen
    · rw [List.map_append, blobOf_names]
      rw [List.nodup_append]
      refine ⟨hn, by simp, ?_⟩
      intro a ha b hb
      have hb : b = nm := by simpa using hb
      subst hb
      rintro rfl
      unfold Held.find at hf
      rw [List.findIdx?_eq_none_iff] at hf
      obtain ⟨d, hd, e⟩ := List.mem_map.1 ha
      have := hf d hd
      simp [e] at this
    · intro b hb
      rcases List.mem_append.1 hb with hb | hb
      · obtain ⟨r, d, hd, rfl⟩ := hget b hb
        have := hst d (List.mem_of_getElem? hd)
        unfold Def.storable at this
        simp only [Bool.and_eq_true, decide_eq_true_eq, List.all_eq_true] at this
        exact ⟨this.1.1.1.1, this.1.1.1.2, this.1.1.2, hy2 r, this.1.2, storable_fits h.G.rules d.ope this.2⟩
      · rw [List.mem_singleton] at hb
        subst hb
        exact ⟨hnm, by simp, by simp, by simp, by simp, trivial⟩

/-- **C68** `enable_packrat_parsing()` has no effect on a parser restored from a blob: packrat parsing is on iff it was when the blob was made. -/
theorem C68_blob_packrat {E : Given} {o o1 : Obj} {bytes : List Byte} {y : List Byte × List BDef} {rest : List Byte} (hb : loadBlob bytes = .ok (some y) rest)
    (h : o.step E (.blob bytes : Op V) = .ok o1) : o1.step E (.packrat : Op V) = .ok o1 := by
  have h : o.blob E bytes = .ok o1 := h
  unfold Obj.blob at h
  rw [hb] at h
  obtain ⟨st, g⟩ := y
  simp only at h
  cases hr : restore E.order g st with
  | none => rw [hr] at h; cases h
  | some z =>
    obtain ⟨G, a⟩ := z
    rw [hr] at h
    cases h
    unfold restore at hr
    cases hd : defNamed g st with
    | none => rw [hd] at hr; cases hr
    | some a' =>
      rw [hd] at hr
      cases hr
      have hnm : (setupAll (g.mapIdx (BDef.restore g)) E.order).map Def.name = g.map BDef.name := by
        have hp := setupAll_plain (g.mapIdx (BDef.restore g)) E.order
        apply List.ext_getElem?
        intro i
        have := congrArg (Option.map Def.name) (hp i)
        rw [Option.map_map, Option.map_map] at this
        rw [List.getElem?_map, List.getElem?_map]
        refine this.trans ?_
        rw [List.getElem?_mapIdx]
        cases g[i]? <;> rfl
      unfold Obj.step Obj.atStart
      simp only
      have hf : (setupAll (g.mapIdx (BDef.restore g)) E.order).findIdx? (fun d => decide (d.name = st)) = some a := by
        have e1 : (fun d : Def => decide (d.name = st)) = (fun n => decide (n = st)) ∘ Def.name := rfl
        have e2 : (fun d : BDef => decide (d.name = st)) = (fun n => decide (n = st)) ∘ BDef.name := rfl
        rw [e1, ← List.findIdx?_map, hnm, List.findIdx?_map, ← e2]
        exact hd
      unfold Held.find
      simp only [hf]
      congr 4
      congr 1
      funext r
      by_cases hra : r = a
      · rw [if_pos hra, hra]
      · rw [if_neg hra]

/-! ## Samples -/

def c68E : Given := ⟨400, [], fun _ _ => false, fun _ _ => false, List.range 3, fun _ _ => []⟩

abbrev c68text : List Byte := txt "A <- 'a'  B <- 'b'"

/-- The answer to a text after a series of calls: `none` if something undefined happens or the fuel is spent. -/
def c68ask (ops : List (Op Unit)) (inp : List Byte) : Option (Option Bool) :=
  match Obj.run c68E {} ops with
  | .ok o =>
    match o.parse c68E 60 ({ start := 0, input := inp } : Call Unit) with
    | .ok r => some (r.1.map (·.ok))
    | _ => none
  | _ => none

/-- A blob with an unknown operator in its only rule, the start rule being named `nm`. -/
def c68blob (nm : List Byte) : List Byte :=
  u32 magic ++ wstr nm ++ u32 1 ++ (wstr nm ++ [8, 0] ++ u32 0 ++ wstr [] ++ wstr [] ++ [255])

def c68ops : List (Op Unit) := [.noEoi, .parse 60 { start := 0, input := txt "ab" }, .packrat]

theorem c68_runs : (match Obj.run c68E {} (.load c68text [] none :: c68ops) with | .ok o => o.gram.isSome | _ => false) = true := by
  decide +kernel

/-- The calls meet the hypotheses: the parse made before packrat parsing is enabled does not matter. -/
theorem C68_sample : ∃ o2 G a, Obj.run c68E {} (.load c68text [] none :: c68ops) = .ok o2 ∧
    loadTextWith 400 [] (fun _ _ => false) (fun _ _ => false) (List.range 3) c68text [] none true true = .ok (some (G, a)) ∧
    ∀ n (c : Call Unit), (o2.parse c68E n c).bind (fun r => .ok r.1) =
      (Shared.parse (fun _ _ => []) G n {} { c with start := a, eoi := false }).1.bind fun ans => .ok (some ans) := by
  have ht : Text c68text := text_of_isText (by decide +kernel)
  have hread : ReadsAs c68text (.defs [⟨false, txt "A", none, .lit (txt "a") false, []⟩, ⟨false, txt "B", none, .lit (txt "b") false, []⟩]) :=
    readsAs_run (n := 400) (by decide +kernel)
  have hr := c68_runs
  cases h : Obj.run c68E {} (.load c68text [] none :: c68ops) with
  | ub s => rw [h] at hr; cases hr
  | oof => rw [h] at hr; cases hr
  | ok o2 =>
    rw [h] at hr
    have hg : o2.gram ≠ none := by
      intro e
      simp only [e] at hr
      cases hr
    obtain ⟨G, a, h1, h2⟩ := C68_settings ht (fun ds hds d hd ps hps => by
        cases hread.det hds
        simp only [List.mem_cons, List.not_mem_nil, or_false] at hd
        rcases hd with rfl | rfl <;> cases hps) (by simp) c68ops (by
        intro x hx
        simp only [c68ops, List.mem_cons, List.not_mem_nil, or_false] at hx
        rcases hx with rfl | rfl | rfl <;> rfl) h hg
    exact ⟨o2, G, a, rfl, h1, h2⟩

/-- Settings, a second load and parses, carried out. -/
theorem C68_sample_runs : c68ask (.load c68text [] none :: c68ops) (txt "ab") = some (some true) ∧
    c68ask (.load c68text [] none :: c68ops ++ [.load c68text [] none]) (txt "ab") = some (some false) ∧
    c68ask [.load c68text [] none, .load (txt "A <- (") [] none, .packrat] (txt "a") = some none := by
  refine ⟨?_, ?_, ?_⟩ <;> decide +kernel

/-- **C68** (what fails) A blob that `load_blob` refuses, returning false, changes the parser: its start rule is now the one the blob names (here `B`
instead of `A`); and if the old grammar has no such rule, the next parse is undefined. -/
theorem C68_counterexample_refused_blob :
    (match loadBlob (c68blob (txt "B")) with | .ok none _ => true | _ => false) = true ∧
    c68ask [.load c68text [] none] (txt "a") = some (some true) ∧ c68ask [.load c68text [] none] (txt "b") = some (some false) ∧
    c68ask [.load c68text [] none, .blob (c68blob (txt "B"))] (txt "a") = some (some false) ∧
    c68ask [.load c68text [] none, .blob (c68blob (txt "B"))] (txt "b") = some (some true) ∧
    (match Obj.run c68E {} [(.load c68text [] none : Op Unit), .blob (c68blob (txt "Z"))] with
      | .ok o => (match o.parse c68E 60 ({ start := 0, input := txt "a" } : Call Unit) with | .ub _ => true | _ => false)
      | _ => false) = true := by
  refine ⟨?_, ?_, ?_, ?_, ?_, ?_⟩ <;> decide +kernel

/-- A misspelt rule name, carried out; and a parser saved and restored, for which `enable_packrat_parsing()` is called. -/
theorem C68_unknown_rule_runs :
    (match Obj.run c68E {} [(.load c68text [] none : Op Unit), .touch (txt "C")] with
      | .ok o => (match o.serialize (fun _ => {}) with | some b => (match loadBlob b with | .nullDeref => true | _ => false) | none => false)
      | _ => false) = true ∧
    (match Obj.run c68E {} [(.load c68text [] none : Op Unit), .packrat, .noEoi] with
      | .ok o => (match o.serialize (fun _ => {}) with
        | some b => decide (c68ask [.blob b, .packrat] (txt "ab") = some (some true))
        | none => false)
      | _ => false) = true := by
  constructor <;> decide +kernel

end Verif.Props
