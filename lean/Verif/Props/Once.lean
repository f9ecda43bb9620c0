import Verif.Once
import Verif.TextSane
import Verif.Props.Handlers
import Verif.Props.Captures
/-!
# With packrat parsing a remembered rule is evaluated at most once at each position: C62

`evs dt` are the calls of the handlers noted in the user datum (`Traced`); `.enter q p` is the note of the `enter` handler of rule `q`, called before the body of
the rule is tried at position `p`.
-/

namespace Verif.Props
open Verif Out Meta

variable {V : Type}

theorem stOk_fresh (cfg : Cfg V) (dt : Option V) (log : Bool) : StOk cfg { dt := dt, logOn := log } :=
  ⟨(by intro _ _ _ h; cases h), (by intro _ _ _ _ _ h; cases h), (by intro _ h; cases h)⟩

/-- C62, for any configuration of the engine: rule `q` has a table column of its own and is not left-recursive; matches fit into the table. -/
theorem C62_evaluated_once {cfg : Cfg V} {evs : Option V → List Ev} {q s n r : Nat} {eoi log : Bool} {dt : Option V} {a : Answer V}
    (ht : Traced cfg evs) (hw : OwnSlot cfg q s) (h0 : evs dt = []) (h : parserParse n cfg r eoi log dt = .ok a) (p : Nat) :
    (evs a.res.st.dt).count (.enter q p) ≤ 1 := by
  unfold parserParse at h
  obtain ⟨res, hr, h⟩ := Out.bind_eq_ok.1 h
  have hres : a.res = res := by
    unfold postProcess at h
    split at h
    · obtain ⟨o, -, h⟩ := Out.bind_eq_ok.1 h; cases h; rfl
    · cases h; rfl
  have H := (parseCore_O (p := p) ht hw n r eoi { dt := dt, logOn := log } (stOk_fresh cfg dt log) res hr).cnt
  have H : (evs res.st.dt).count (.enter q p) + marked _ _ ≤ (evs dt).count (.enter q p) + marked _ res.st := H
  rw [h0] at H
  have : marked (cfg.memoIdx s p) res.st ≤ 1 := by unfold marked; split <;> omega
  rw [hres]
  simp at H
  omega

/-- Nothing is evaluated behind the end of the input. -/
theorem never_behind {cfg : Cfg V} {evs : Option V → List Ev} {q s n r : Nat} {eoi log : Bool} {dt : Option V} {a : Answer V}
    (ht : Traced cfg evs) (hw : OwnSlot cfg q s) (h0 : evs dt = []) (h : parserParse n cfg r eoi log dt = .ok a) (p : Nat)
    (hp : cfg.input.length < p) : .enter q p ∉ evs a.res.st.dt := by
  unfold parserParse at h
  obtain ⟨res, hr, h⟩ := Out.bind_eq_ok.1 h
  have hres : a.res = res := by
    unfold postProcess at h
    split at h
    · obtain ⟨o, -, h⟩ := Out.bind_eq_ok.1 h; cases h; rfl
    · cases h; rfl
  have H := (parseCore_O (p := p) ht hw n r eoi { dt := dt, logOn := log } (stOk_fresh cfg dt log) res hr).far hp
  have H : (evs res.st.dt).count (.enter q p) ≤ (evs dt).count (.enter q p) := H
  rw [h0] at H
  rw [hres]
  intro hm
  have := List.count_pos_iff.2 hm
  simp at H
  omega

/-- The number of evaluations of rules in `Q`. -/
def evaluations (Q : Nat → Bool) (l : List Ev) : Nat := l.countP fun e => match e with | .enter r _ => Q r | _ => false

theorem countP_or {α : Type} (A B C : α → Bool) (l : List α) (h : ∀ x ∈ l, A x = true → B x = true ∨ C x = true) :
    l.countP A ≤ l.countP B + l.countP C := by
  induction l with
  | nil => simp
  | cons x l ih =>
    have := ih fun y hy => h y (List.mem_cons_of_mem _ hy)
    have hx := h x List.mem_cons_self
    simp only [List.countP_cons]
    cases hA : A x with
    | false => simp; omega
    | true =>
      rcases hx hA with hB | hC
      · simp [hB]; omega
      · simp [hC]; omega

/-- At most once at each of the positions up to `N`. -/
theorem evaluations_le (q N : Nat) (l : List Ev) (h1 : ∀ p, l.count (.enter q p) ≤ 1) (h2 : ∀ p, N < p → .enter q p ∉ l) :
    evaluations (· == q) l ≤ N + 1 := by
  have below : ∀ M, l.countP (fun e => match e with | .enter r p => r == q && decide (p < M) | _ => false) ≤ M := by
    intro M
    induction M with
    | zero =>
      refine Nat.le_of_eq (List.countP_eq_zero.2 fun e _ => ?_)
      cases e <;> simp
    | succ M ih =>
      refine Nat.le_trans (countP_or _ (fun e => match e with | .enter r p => r == q && decide (p < M) | _ => false) (fun e => e == Ev.enter q M) l
        fun e _ he => ?_) (Nat.add_le_add ih (by have := h1 M; unfold List.count at this; exact this))
      cases e with
      | enter r p =>
        simp only [Bool.and_eq_true, beq_iff_eq, decide_eq_true_eq] at he ⊢
        by_cases hp : p < M
        · exact .inl ⟨he.1, hp⟩
        · exact .inr (by rw [he.1, show p = M by omega])
      | act => cases he
      | leave => cases he
  refine Nat.le_trans ?_ (below (N + 1))
  refine List.countP_mono_left fun e hm he => ?_
  cases e with
  | enter r p =>
    simp only [Bool.and_eq_true, beq_iff_eq, decide_eq_true_eq] at he ⊢
    refine ⟨he, ?_⟩
    subst he
    exact Classical.byContradiction fun hp => h2 p (by omega) hm
  | act => cases he
  | leave => cases he

theorem evaluations_list (N : Nat) (l : List Ev) : ∀ Q : List Nat, (∀ q ∈ Q, evaluations (· == q) l ≤ N) →
    evaluations (fun r => decide (r ∈ Q)) l ≤ Q.length * N
  | [], _ => by
    refine Nat.le_of_eq ?_
    rw [List.length_nil, Nat.zero_mul]
    refine List.countP_eq_zero.2 fun e _ => ?_
    cases e <;> simp
  | q :: Q, h => by
    have ih := evaluations_list N l Q fun x hx => h x (List.mem_cons_of_mem _ hx)
    have hq := h q List.mem_cons_self
    rw [List.length_cons, Nat.succ_mul, Nat.add_comm]
    refine Nat.le_trans (countP_or _ _ _ l fun e _ he => ?_) (Nat.add_le_add hq ih)
    cases e with
    | enter r p =>
      simp only [List.mem_cons, decide_eq_true_eq, beq_iff_eq] at he ⊢
      exact he
    | act => cases he
    | leave => cases he

/-! ## Parser objects -/

/-- The rules reachable from start rule `a`, in the order of their numbers. -/
def Parser.order (G : Parser) (a : Nat) : List Nat := (Verif.initIds G.rules a (G.ws a) (G.word a)).order

/-- The filter keeps rule `q` when parsing from `a`. -/
def Remembered (F : List Nat → Nat → List Bool) (G : Parser) (a q : Nat) : Prop :=
  q ∈ Parser.order G a ∧ (F (List.range (Parser.order G a).length) a)[(Parser.order G a).idxOf q]? = some true

theorem order_ids {G : Parser} {a : Nat} : (Parser.order G a).map (fun r => (Parser.order G a).idxOf r) = List.range (Parser.order G a).length := by
  have hn : (Parser.order G a).Nodup := initIds_nodup ..
  refine List.ext_getElem (by simp) fun i h1 h2 => ?_
  simp only [List.getElem_map, List.getElem_range]
  exact hn.idxOf_getElem i _

theorem fresh_ids (F : List Nat → Nat → List Bool) (G : Parser) (a : Nat) (hp : G.packrat a = true) :
    (({} : Shared).prepare F G a).ids a = some (Verif.initIds G.rules a (G.ws a) (G.word a)) ∧
    (∀ r ∈ Parser.order G a, (({} : Shared).prepare F G a).mem.id r = (Parser.order G a).idxOf r) ∧
    (({} : Shared).prepare F G a).filt a = some (F (List.range (Parser.order G a).length) a) := by
  have hm : ∀ r ∈ Parser.order G a, ((({} : Shared).initIds G a)).mem.id r = (Parser.order G a).idxOf r := by
    intro r hr
    unfold Shared.initIds
    dsimp only
    rw [assign_id_mem _ _ hr]
    rfl
  refine ⟨prepare_ids_self F G a (inv_fresh G), fun r hr => ?_, ?_⟩
  · rw [prepare_mem]; exact hm r hr
  · rw [← order_ids, ← List.map_congr_left hm]
    unfold Shared.prepare Shared.initFilt
    rw [if_pos hp]
    unfold Shared.initIds
    dsimp only
    simp only [if_true, Option.getD_some]
    rfl

theorem remembered_slot (F : List Nat → Nat → List Bool) (G : Parser) (n m : Nat) (hist hist' : List (Call V)) (c : Call V)
    (hb : ∀ x ∈ hist, x.start ≠ c.start) (ha : ∀ x ∈ hist', x.start = c.start)
    {q : Nat} (hp : G.packrat c.start = true) (hq : Remembered F G c.start q) (hlr : ∀ d, G.rules[q]? = some d → d.isLR = false)
    (hlen : c.input.length < 4 * 1024 ^ 3) {evs : Option V → List Ev}
    (ht : ∀ cfg : Cfg V, cfg.enter = c.enter → cfg.leave = c.leave → cfg.action = c.action → cfg.user = c.user → Traced cfg evs)
    (h0 : evs c.dt = []) {ans : Answer V} (h : (Shared.parse F G n (Shared.after F G m {} (hist ++ hist')) c).1 = .ok ans) :
    (∀ p, (evs ans.res.st.dt).count (.enter q p) ≤ 1) ∧ ∀ p, c.input.length < p → .enter q p ∉ evs ans.res.st.dt := by
  rw [parse_after_first F G n m hist hist' c hb ha] at h
  unfold Shared.parse at h
  dsimp only at h
  obtain ⟨f1, f2, f3⟩ := fresh_ids F G c.start hp
  have hinv := (inv_fresh G).prepare F c.start
  generalize hsh : ({} : Shared).prepare F G c.start = sh at h f1 f2 f3 hinv
  -- rules that are not reachable get a number without a column
  obtain ⟨N, hN⟩ : ∃ N, (F (List.range (Parser.order G c.start).length) c.start).length ≤ N := ⟨_, Nat.le_refl _⟩
  let t : Shared := { sh with mem := { sh.mem with id := fun r => if r ∈ Parser.order G c.start then (Parser.order G c.start).idxOf r else N } }
  have ht' : t.Inv G := ⟨hinv.ids, hinv.flag⟩
  rw [parse_eq (t := t) hinv ht' f1 f1 (fun _ r hr => by
    rw [f2 r hr]; show _ = if r ∈ Parser.order G c.start then _ else _; rw [if_pos (show r ∈ Parser.order G c.start from hr)]) (fun _ => rfl) n c rfl] at h
  obtain ⟨hq1, hq2⟩ := hq
  generalize hB : F (List.range (Parser.order G c.start).length) c.start = B at *
  have hcfg : (t.cfg G c).packratIndex = some (compact B 0) ∧ (t.cfg G c).cachedCount = B.countP id ∧
      (∀ r, (t.cfg G c).defId r = if r ∈ Parser.order G c.start then (Parser.order G c.start).idxOf r else N) ∧ (t.cfg G c).packrat = true := by
    have e : t.filt c.start = some B := f3
    unfold Shared.cfg
    rw [e]
    simp only [hp, if_true, Option.getD_some]
    exact ⟨trivial, trivial, fun r => rfl, trivial⟩
  have hslot : ∀ r s, (t.cfg G c).slot ((t.cfg G c).defId r) = some s → r ∈ Parser.order G c.start ∧ (compact B 0)[(Parser.order G c.start).idxOf r]? = some (some s) := by
    intro r s hs
    unfold Cfg.slot at hs
    rw [hcfg.1] at hs
    dsimp only at hs
    rw [hcfg.2.2.1] at hs
    have hg : (compact B 0)[if r ∈ Parser.order G c.start then (Parser.order G c.start).idxOf r else N]? = some (some s) := by
      cases hx : (compact B 0)[if r ∈ Parser.order G c.start then (Parser.order G c.start).idxOf r else N]? with
      | none => rw [hx] at hs; cases hs
      | some o => rw [hx] at hs; simpa using hs
    by_cases hr : r ∈ Parser.order G c.start
    · rw [if_pos hr] at hg; exact ⟨hr, hg⟩
    · rw [if_neg hr] at hg
      have := (compact_get B 0 N).1 ⟨s, hg⟩
      have := (List.getElem?_eq_some_iff.1 this).1
      omega
  obtain ⟨s, hs⟩ := (compact_get B 0 _).2 hq2
  have own : OwnSlot (t.cfg G c) q s := by
   refine ⟨hcfg.2.2.2, ?_, ?_, ?_, ?_, ?_⟩
   · intro _ r x hx
     rw [hcfg.2.1]
     have := (compact_bounds B 0 _ x (hslot r x hx).2).2
     omega
   · unfold Cfg.slot
     rw [hcfg.1]
     dsimp only
     rw [hcfg.2.2.1, if_pos hq1, hs]
     rfl
   · intro r hr
     obtain ⟨h1, h2⟩ := hslot r s hr
     exact (List.idxOf_inj h1).1 (compact_inj B 0 _ _ s h2 hs)
   · rintro ⟨d, hd, hl⟩
     have hd : (t.rules G.rules)[q]? = some d := hd
     rw [rules_get] at hd
     obtain ⟨d0, hd0, rfl⟩ := Option.map_eq_some_iff.1 hd
     rw [show ({ d0 with hasMacroRef := t.mem.macroRef q } : Def).isLR = d0.isLR from rfl, hlr d0 hd0] at hl
     cases hl
   · show c.input.length ≤ _
     omega
  exact ⟨C62_evaluated_once (ht _ rfl rfl rfl rfl) own h0 h, never_behind (ht _ rfl rfl rfl rfl) own h0 h⟩

/-- C62 for parser objects: a rule that the filter keeps and that is not left-recursive is evaluated at most once at each position, in any parse with packrat
parsing of an input of less than 4 GiB, whatever handlers are installed, as long as all parses before the first one from this start rule started elsewhere. -/
theorem C62_remembered_evaluated_once (F : List Nat → Nat → List Bool) (G : Parser) (n m : Nat) (hist hist' : List (Call V)) (c : Call V)
    (hb : ∀ x ∈ hist, x.start ≠ c.start) (ha : ∀ x ∈ hist', x.start = c.start)
    {q : Nat} (hp : G.packrat c.start = true) (hq : Remembered F G c.start q) (hlr : ∀ d, G.rules[q]? = some d → d.isLR = false)
    (hlen : c.input.length < 4 * 1024 ^ 3) {evs : Option V → List Ev}
    (ht : ∀ cfg : Cfg V, cfg.enter = c.enter → cfg.leave = c.leave → cfg.action = c.action → cfg.user = c.user → Traced cfg evs)
    (h0 : evs c.dt = []) {ans : Answer V} (h : (Shared.parse F G n (Shared.after F G m {} (hist ++ hist')) c).1 = .ok ans) (p : Nat) :
    (evs ans.res.st.dt).count (.enter q p) ≤ 1 :=
  (remembered_slot F G n m hist hist' c hb ha hp hq hlr hlen ht h0 h).1 p

/-- C62: the remembered rules that are not left-recursive cost a number of evaluations linear in the length of the input. -/
theorem C62_linear (F : List Nat → Nat → List Bool) (G : Parser) (n m : Nat) (hist hist' : List (Call V)) (c : Call V)
    (hb : ∀ x ∈ hist, x.start ≠ c.start) (ha : ∀ x ∈ hist', x.start = c.start)
    {Q : List Nat} (hp : G.packrat c.start = true) (hq : ∀ q ∈ Q, Remembered F G c.start q)
    (hlr : ∀ q ∈ Q, ∀ d, G.rules[q]? = some d → d.isLR = false)
    (hlen : c.input.length < 4 * 1024 ^ 3) {evs : Option V → List Ev}
    (ht : ∀ cfg : Cfg V, cfg.enter = c.enter → cfg.leave = c.leave → cfg.action = c.action → cfg.user = c.user → Traced cfg evs)
    (h0 : evs c.dt = []) {ans : Answer V} (h : (Shared.parse F G n (Shared.after F G m {} (hist ++ hist')) c).1 = .ok ans) :
    evaluations (fun r => decide (r ∈ Q)) (evs ans.res.st.dt) ≤ Q.length * (c.input.length + 1) :=
  evaluations_list _ _ Q fun q hm =>
    have H := remembered_slot F G n m hist hist' c hb ha hp (hq q hm) (hlr q hm) hlen ht h0 h
    evaluations_le q _ _ H.1 H.2

/-! ## Texts

A grammar text is loaded and an input parsed, with handlers on every rule that note their calls; the library's own choice of the rules to remember. -/

/-- How often the rule named `nm` is evaluated at position `p`, and whether the filter keeps it. -/
def countEntered (x : Out (Option (Parser × Nat))) (n : Nat) (inp nm : List Byte) (p : Nat) : Option (Nat × Bool) :=
  match x with
  | .ok (some (G, a)) =>
    let call : Call (List Verif.Ev) :=
      { start := a, input := inp, enter := (noting [] []).enter, leave := (noting [] []).leave, action := (noting [] []).action }
    let q := G.rules.findIdx fun d => d.name == nm
    match (Shared.parse (packratFilter G) G n {} call).1 with
    | .ok ans => some ((noteEvs ans.res.st.dt).count (.enter q p),
        decide (q ∈ Parser.order G a) && (packratFilter G (List.range (Parser.order G a).length) a)[(Parser.order G a).idxOf q]?.getD false)
    | _ => none
  | _ => none

def timesEntered (text : String) (packrat : Bool) (inp nm : String) (p : Nat) : Option (Nat × Bool) :=
  countEntered (loadText 400 [] (realMark (List.range 8)) realLoops (List.range 8) (txt text) none packrat true) 100 (txt inp) (txt nm) p

/-- A text whose rule `A` is remembered: once with packrat parsing, twice without (hypotheses of `C62_remembered_evaluated_once`). -/
theorem C62_sample_once : timesEntered "S <- A 'b' / A 'c'   A <- 'a'+" true "aac" "A" 0 = some (1, true) := by decide +kernel
theorem C62_sample_plain : timesEntered "S <- A 'b' / A 'c'   A <- 'a'+" false "aac" "A" 0 = some (2, true) := by decide +kernel

/-- The filter compares the alternatives of choices only.  A rule tried by a predicate and then again is not remembered: with packrat parsing every nesting level
doubles the number of evaluations at the same position. -/
theorem C62_filter_misses_predicates_1 : timesEntered "S <- &A A   A <- '(' S ')' / 'x'" true "(x)" "A" 1 = some (4, false) := by decide +kernel
theorem C62_filter_misses_predicates_2 : timesEntered "S <- &A A   A <- '(' S ')' / 'x'" true "((x))" "A" 2 = some (8, false) := by decide +kernel
theorem C62_filter_misses_predicates_3 : timesEntered "S <- &A A   A <- '(' S ')' / 'x'" true "(((x)))" "A" 3 = some (16, false) := by decide +kernel

/-- A left-recursive rule is remembered, but evaluated again to grow its match. -/
theorem C62_left_recursion_again : timesEntered "S <- S 'a' / 'a'" true "aaa" "S" 0 = some (4, true) := by decide +kernel

end Verif.Props
