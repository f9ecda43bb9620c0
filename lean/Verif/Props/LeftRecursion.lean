import Verif.PegErase
import Verif.PegShift
import Verif.PegSolid
import Verif.Props.Refine
/-!
# C32: direct left recursion

`A <- A r1 / ... / A rn / b1 / ... / bk` accepts what `(b1 / ... / bk) (r1 / ... / rn)*` accepts, and its values nest to the left.
-/

namespace Verif.Props
open Verif

variable {V : Type} {G : Gram V} {r : Nat} {d : Def} {rs : List (List Ope)} {bs : List Ope}

/-! ## Specification -/

/-- `es` is `A r1 / ... / A rn / b1 / ... / bk` for the rule `A` with number `r`; `b1` is not of the form `A ...`. -/
inductive Alternatives (r : Nat) : List Ope → List (List Ope) → List Ope → Prop where
  | base {bs : List Ope} : (∀ nm es kw, bs.head? ≠ some (.seq (.ref r nm [] :: es) kw)) → Alternatives r bs [] bs
  | more {nm es kw rest} {rs : List (List Ope)} {bs : List Ope} : Alternatives r rest rs bs → Alternatives r (.seq (.ref r nm [] :: es) kw :: rest) (es :: rs) bs

/-- Rule `r` is `A <- A r1 / ... / A rn / b1 / ... / bk`. -/
structure DirectLR (G : Gram V) (r : Nat) (d : Def) (rs : List (List Ope)) (bs : List Ope) : Prop where
  rule : G.rules[r]? = some d
  isRule : d.isMacro = false
  marked : d.isLR = true
  spaces : d.noWs = false
  noPredicate : G.predicate r = none
  shape : ∃ es l fs, d.ope = .cho es l fs ∧ Alternatives r es rs bs

/-- `b1 / ... / bk` -/
def bases (bs : List Ope) : Ope := .cho bs false []

/-- `r1 / ... / rn` -/
def rests (rs : List (List Ope)) : Ope := .cho (rs.map fun es => .seq es none) false []

/-- `(b1 / ... / bk) (r1 / ... / rn)*` -/
def iteration (rs : List (List Ope)) (bs : List Ope) : Ope := .seq [bases bs, .rep (rests rs) 0 none none] none

/-- `r1 / ... / rn` does not match the empty string (a repetition of it would be rejected as an infinite loop otherwise). -/
def Consumes (G : Gram V) (e : Ope) : Prop := ∀ m j s k c s', Peg G {} m (.ope e) j s (.ok k c s') → j < k

/-! ## Acceptance -/

theorem Alternatives.split {es : List Ope} (h : Alternatives r es rs bs) : lrSplit r es = (rs, bs) := by
  induction h with
  | @base bs h =>
    cases bs with
    | nil => rfl
    | cons e bs =>
      unfold lrSplit
      split
      · next r' nm es kw =>
        split
        · next h' => subst h'; exact absurd rfl (h nm es kw)
        · rfl
      · rfl
  | more _ ih => simp only [lrSplit, if_true, ih]

theorem Alternatives.length {es : List Ope} (h : Alternatives r es rs bs) : es.length = rs.length + bs.length := by
  induction h with
  | base => simp
  | more _ ih => simp only [List.length_cons, ih]; omega

theorem choL_of_ope {v : Env} {m : Mode} {es : List Ope} {l : Bool} {fs} {i : Nat} {s : PSt V} {x : PRes V}
    (h : Peg G v m (.ope (.cho es l fs)) i s x) : ∃ y, Peg G v m (.choL es 0 es.length) i s y ∧ x = y.noCut := by
  cases h with
  | one_ok h => simp [Ope.single] at h
  | one_fail h => simp [Ope.single] at h
  | cho h => exact ⟨_, h, rfl⟩

/-- A round of the growing loop, seen as the choice between the rests. -/
theorem choL_cho {v : Env} {m : Mode} (hb : G.Blind) {es : List Ope} {k n i : Nat} {s s2 : PSt V} {x : PRes V}
    (h : Peg G v m (.choL es k n) i s x) (e : s2.caps = s.caps) :
    ∃ x2, Peg G v m (.ope (.cho es false [])) i s2 x2 ∧ PRes.like False x.noCut x2 := by
  obtain ⟨x2, h2, l⟩ := h.twins (W := V) G hb.twin 0 es.length s2 e
  exact ⟨_, .cho h2, PRes.like_noCut (PRes.like_imp False.elim l)⟩

theorem cho_choL {v : Env} {m : Mode} (hb : G.Blind) {es : List Ope} (k n : Nat) {i : Nat} {s s2 : PSt V} {x : PRes V}
    (h : Peg G v m (.ope (.cho es false [])) i s x) (e : s2.caps = s.caps) :
    ∃ x2, Peg G v m (.choL es k n) i s2 x2 ∧ PRes.like False x x2.noCut := by
  obtain ⟨y, hy, rfl⟩ := choL_of_ope h
  obtain ⟨x2, h2, l⟩ := hy.twins (W := V) G hb.twin k n s2 e
  exact ⟨_, h2, PRes.like_noCut (PRes.like_imp False.elim l)⟩

section
variable (hA : DirectLR G r d rs bs) (hb : G.Blind) {m : Mode}
include hA hb

theorem grow_loop (hc : Consumes G (rests rs)) {i j : Nat} {s : PSt V} {x : PRes V} (h : Peg G {} m (.grow r i) j s x) (n : Nat)
    (s2 : PSt V) (e : s2.caps = s.caps) :
    ∃ k s' c s3, x = .ok k false s' ∧ Peg G {} m (.loop (rests rs) 0 none n) j s2 (.ok k c s3) ∧ s3.caps = s'.caps := by
  obtain ⟨es, l, fs, hes, hsp⟩ := hA.shape
  have hd := hA.rule
  generalize ht : PTask.grow r i = t at h
  generalize hv : ({} : Env) = v at h ⊢
  induction h generalizing n s2 with
  | @grow_stop G v m r' d' es' l' fs' i' j' s' c h1 h2 h3 _ =>
    cases ht; subst hv
    rw [hd] at h1; cases h1; rw [hes] at h2; cases h2
    rw [hsp.split] at h3
    obtain ⟨x2, h4, l4⟩ := choL_cho hb h3 e
    cases PRes.like_fail l4
    exact ⟨_, _, _, _, rfl, .loop_end rfl h4, e⟩
  | @grow_idle G v m r' d' es' l' fs' i' j' s' k c s'' h1 h2 h3 hk _ =>
    cases ht; subst hv
    rw [hd] at h1; cases h1; rw [hes] at h2; cases h2
    rw [hsp.split] at h3
    obtain ⟨x2, h4, l4⟩ := choL_cho (s2 := s2) hb h3 e
    obtain ⟨s3, rfl, -⟩ := PRes.like_ok l4
    have := hc _ _ _ _ _ _ h4
    omega
  | @grow_more G v m r' d' es' l' fs' i' j' s' k c s'' x h1 h2 h3 hk _ _ ih =>
    cases ht; subst hv
    rw [hd] at h1; cases h1; rw [hes] at h2; cases h2
    rw [hsp.split] at h3
    obtain ⟨x2, h4, l4⟩ := choL_cho (s2 := s2) hb h3 e
    obtain ⟨s3, rfl, e3, -⟩ := PRes.like_ok l4
    obtain ⟨k', s4, c', s5, rfl, a, b⟩ := ih hA hb hc (n + 1) s3 e3 hd rfl rfl
    exact ⟨k', s4, _, s5, rfl, .loop_more rfl h4 a, b⟩
  | _ => cases ht

theorem loop_grow (hc : Consumes G (rests rs)) (i : Nat) {n j : Nat} {s : PSt V} {x : PRes V}
    (h : Peg G {} m (.loop (rests rs) 0 none n) j s x) :
    ∃ k c s', x = .ok k c s' ∧ ∀ s2 : PSt V, s2.caps = s.caps →
      ∃ s3, Peg G {} m (.grow r i) j s2 (.ok k false s3) ∧ s3.caps = s'.caps := by
  obtain ⟨es, l, fs, hes, hsp⟩ := hA.shape
  have hd := hA.rule
  generalize ht : PTask.loop (rests rs) 0 none n = t at h
  generalize hv : ({} : Env) = v at h
  induction h generalizing n with
  | loop_must => cases ht
  | loop_fail => cases ht
  | loop_full h => cases ht; cases h
  | @loop_more G _ _ _ _ _ _ _ j1 _ _ _ h1 h2 h3 _ ih =>
    cases ht; subst hv
    obtain ⟨k, c, s', rfl, hg⟩ := ih hA hb hc hd rfl rfl
    refine ⟨k, _, s', rfl, fun s2 e => ?_⟩
    have hlt := hc _ _ _ _ _ _ h2
    obtain ⟨x2, h4, l4⟩ := cho_choL (s2 := s2) hb 0 es.length h2 e
    cases x2 with
    | fail c => cases l4
    | ok k2 c2 s3 =>
      obtain ⟨rfl, -, e3, -⟩ := l4
      obtain ⟨s4, a, b⟩ := hg { s3 with vs := pushValue d (ruleValue G r d i j1 (ruleFrame r d i j1 s3.vs) none) {} } e3.symm
      exact ⟨s4, .grow_more hd hes (by rw [hsp.split]; exact h4) hlt a, b⟩
  | loop_end h1 h2 =>
    cases ht; subst hv
    refine ⟨_, _, _, rfl, fun s2 e => ?_⟩
    obtain ⟨x2, h4, l4⟩ := cho_choL (s2 := s2) hb 0 es.length h2 e
    cases x2 with
    | ok => cases l4
    | fail c => exact ⟨s2, .grow_stop hd hes (by rw [hsp.split]; exact h4), e⟩
  | _ => cases ht

omit hA hb in
theorem hold_of_ref {v : Env} (hd : G.rules[r]? = some d) (hm : d.isMacro = false) {nm as} {i : Nat} {s : PSt V} {x : PRes V}
    (h : Peg G v m (.ope (.ref r nm as)) i s x) : Peg G {} m (.hold r) i s x := by
  cases h with
  | one_ok h => simp [Ope.single] at h
  | one_fail h => simp [Ope.single] at h
  | ref _ _ h => exact h
  | call h1 h2 => rw [hd] at h1; cases h1; rw [hm] at h2; cases h2

omit hA hb in
theorem iteration_ok {v : Env} {i : Nat} {s : PSt V} {k : Nat} {c : Bool} {s' : PSt V}
    (h : Peg G v m (.ope (iteration rs bs)) i s (.ok k c s')) :
    ∃ j c1 s1 c2 c3, Peg G v m (.ope (bases bs)) i s (.ok j c1 s1) ∧ c2 = c3 ∧
      Peg G v m (.loop (rests rs) 0 none 0) j s1 (.ok k c3 s') := by
  unfold iteration at h
  generalize hx : PRes.ok k c s' = x at h
  cases h with
  | one_ok h => simp [Ope.single] at h
  | one_fail h => simp [Ope.single] at h
  | seq h =>
    cases h with
    | seq_fail => cases hx
    | seq_cons h1 h2 =>
      cases h2 with
      | seq_fail => cases hx
      | seq_cons h3 h4 =>
        cases h4
        simp only [PRes.orCut, PRes.ok.injEq] at hx
        obtain ⟨rfl, -, rfl⟩ := hx
        cases h3 with
        | one_ok h => simp [Ope.single] at h
        | rep h3 => exact ⟨_, _, _, _, _, h1, rfl, h3⟩

/-- **C32**: at every position the left-recursive rule matches exactly what `(b1 / ... / bk) (r1 / ... / rn)*` matches, leaves the
same captures, and fails exactly where that expression fails.  Predicates may look at the matched text and the tokens, not at
values (the values of the two are different). -/
theorem C32_accepts_the_same_as_iteration (hc : Consumes G (rests rs)) (v : Env) (nm : List Byte) (i : Nat) (s : PSt V) :
    (∀ k κ, (∃ c s', Peg G v m (.ope (.ref r nm [])) i s (.ok k c s') ∧ s'.caps = κ) ↔
      ∃ c s', Peg G {} m (.ope (iteration rs bs)) i s (.ok k c s') ∧ s'.caps = κ) ∧
    ((∃ c, Peg G v m (.ope (.ref r nm [])) i s (.fail c)) ↔ ∃ c, Peg G {} m (.ope (iteration rs bs)) i s (.fail c)) := by
  obtain ⟨es, l, fs, hes, hsp⟩ := hA.shape
  have hd := hA.rule
  refine ⟨fun k κ => ⟨?_, ?_⟩, ?_, ?_⟩
  · rintro ⟨c, s', h, rfl⟩
    cases hold_of_ref hd hA.isRule h with
    | rule_ok h1 h2 => rw [hd] at h1; cases h1; rw [hA.marked] at h2; cases h2
    | rule_pred h1 h2 => rw [hd] at h1; cases h1; rw [hA.marked] at h2; cases h2
    | lr_ok h1 _ _ h2 _ h3 h4 =>
      rw [hd] at h1; cases h1; rw [hes] at h2; cases h2
      rw [hsp.split] at h3
      obtain ⟨x2, h5, l5⟩ := choL_cho (s2 := s) hb h3 rfl
      obtain ⟨s5, rfl, e5, -⟩ := PRes.like_ok l5
      obtain ⟨k', s6, c7, s7, e6, a, b⟩ := grow_loop hA hb hc h4 0 s5 e5
      cases e6
      exact ⟨_, s7, .seq (.seq_cons h5 (.seq_cons (.rep a) .seq_nil)), b⟩
  · rintro ⟨c, s', h, rfl⟩
    obtain ⟨j, c1, s1, -, c3, h1, -, h3⟩ := iteration_ok h
    obtain ⟨x2, h4, l4⟩ := cho_choL (s2 := { s with vs := {} }) hb rs.length es.length h1 rfl
    cases x2 with
    | fail c => cases l4
    | ok k2 c2 s3 =>
      obtain ⟨rfl, -, e3, -⟩ := l4
      obtain ⟨k', c', s5, e5, hg⟩ := loop_grow hA hb hc i h3
      cases e5
      obtain ⟨s6, a, b⟩ := hg { s3 with vs := pushValue d (ruleValue G r d i j (ruleFrame r d i j s3.vs) none) {} } e3.symm
      exact ⟨_, _, .ref hd hA.isRule (.lr_ok hd hA.marked hA.spaces hes hA.noPredicate (by rw [hsp.split]; exact h4) a), b⟩
  · rintro ⟨c, h⟩
    cases hold_of_ref hd hA.isRule h with
    | rule_fail h1 h2 => rw [hd] at h1; cases h1; rw [hA.marked] at h2; cases h2
    | rule_reject h1 h2 => rw [hd] at h1; cases h1; rw [hA.marked] at h2; cases h2
    | lr_fail h1 _ _ h2 h3 =>
      rw [hd] at h1; cases h1; rw [hes] at h2; cases h2
      rw [hsp.split] at h3
      obtain ⟨x2, h5, l5⟩ := choL_cho (s2 := s) hb h3 rfl
      cases PRes.like_fail l5
      exact ⟨_, .seq (.seq_fail h5)⟩
  · rintro ⟨c, h⟩
    unfold iteration at h
    generalize hx : PRes.fail c = x at h
    cases h with
    | one_ok h => simp [Ope.single] at h
    | one_fail h => simp [Ope.single] at h
    | seq h =>
      cases h with
      | seq_fail h1 =>
        obtain ⟨x2, h4, l4⟩ := cho_choL (s2 := { s with vs := {} }) hb rs.length es.length h1 rfl
        cases x2 with
        | ok => cases l4
        | fail c => exact ⟨_, .ref hd hA.isRule (.lr_fail hd hA.marked hA.spaces hes (by rw [hsp.split]; exact h4))⟩
      | seq_cons h1 h2 =>
        cases h2 with
        | seq_fail h3 =>
          cases h3 with
          | one_fail h => simp [Ope.single] at h
          | rep h3 =>
            obtain ⟨k', c', s5, e5, hg⟩ := loop_grow hA hb hc i h3
            cases e5
        | seq_cons h3 h4 => cases h4; cases hx
end

/-! ## Values -/

/-- The scope the action sees when the rule has matched `b` on `[i, k)`: `n` alternatives, the first `a` of them left recursive. -/
def baseScope (r n a i k : Nat) (g : Frame V) : Frame V :=
  { g with sv := (i, k - i), name := some r, choiceCount := n, choice := a + g.choice }

/-- The scope the action sees when the rule has matched `A r` on `[i, k)`, where `w` is the value of `A` and `g` what `r` collected:
`w` is the first value. -/
def roundScope (r : Nat) (d : Def) (n i k : Nat) (w : Option V) (g : Frame V) : Frame V :=
  { g with vals := w :: g.vals, tags := str2tag d.name :: g.tags, sv := (i, k - i), name := some r, choiceCount := n }

/-- `LeftNest .. i j κ w k κ' w'`: from a match of `[i, j)` with value `w`, as many rounds as there are lead to a match of `[i, k)`
with value `w'`.  Every round takes the value so far as first value. -/
inductive LeftNest (G : Gram V) (r : Nat) (d : Def) (rs : List (List Ope)) (n : Nat) (m : Mode) (i : Nat) :
    Nat → List (List Byte × List Byte) → Option V → Nat → List (List Byte × List Byte) → Option V → Prop where
  | done {j κ w c} : Peg G {} m (.ope (rests rs)) j ⟨κ, {}⟩ (.fail c) → LeftNest G r d rs n m i j κ w j κ w
  | idle {j κ w k c s} : Peg G {} m (.ope (rests rs)) j ⟨κ, {}⟩ (.ok k c s) → k ≤ j → LeftNest G r d rs n m i j κ w j κ w
  | more {j κ w k c κ' g k' κ'' w'} : Peg G {} m (.ope (rests rs)) j ⟨κ, {}⟩ (.ok k c ⟨κ', g⟩) → j < k →
      LeftNest G r d rs n m i k κ' (ruleValue G r d i k (roundScope r d n i k w g) none) k' κ'' w' →
      LeftNest G r d rs n m i j κ w k' κ'' w'

/-- Same result, alternatives numbered differently. -/
def Renum (k n k' n' : Nat) : PRes V → PRes V → Prop
  | .fail c, .fail c' => c = c'
  | .ok j c s, .ok j' c' s' => j = j' ∧ c = c' ∧ ∃ (κ : List (List Byte × List Byte)) (f : Frame V) (a : Nat), s = ⟨κ, { f with choiceCount := n, choice := k + a }⟩ ∧
      s' = ⟨κ, { f with choiceCount := n', choice := k' + a }⟩
  | _, _ => False

theorem choL_renum {v : Env} {m : Mode} : ∀ {es : List Ope} {k n : Nat} (k' n' : Nat) {i : Nat} {s : PSt V} {x : PRes V},
    Peg G v m (.choL es k n) i s x → ∃ y, Peg G v m (.choL es k' n') i s y ∧ Renum k n k' n' x y := by
  intro es
  induction es with
  | nil => intro k n k' n' i s x h; cases h; exact ⟨_, .cho_nil, rfl⟩
  | cons e es ih =>
    intro k n k' n' i s x h
    cases h with
    | @cho_ok _ _ _ _ _ _ _ _ _ j c s1 h => exact ⟨_, .cho_ok h, rfl, rfl, s1.caps, s1.vs, 0, rfl, rfl⟩
    | cho_cut h => exact ⟨_, .cho_cut h, rfl⟩
    | cho_next h1 h2 =>
      obtain ⟨y, h3, h4⟩ := ih (k' + 1) n' h2
      refine ⟨y, .cho_next h1 h3, ?_⟩
      cases x with
      | fail => cases y <;> first | exact h4 | cases h4
      | ok =>
        cases y with
        | fail => cases h4
        | ok =>
          obtain ⟨a1, a2, κ, f, a, a3, a4⟩ := h4
          exact ⟨a1, a2, κ, f, a + 1, by rw [a3, Nat.add_right_comm, Nat.add_assoc k a 1], by rw [a4, Nat.add_right_comm, Nat.add_assoc k' a 1]⟩

section
variable (hA : DirectLR G r d rs bs) (hG : G.Calm) (hr : ∀ es ∈ rs, Ope.noPrecList es = true) (hs : d.ignoreSV = false) {m : Mode}
include hA hG hr hs

omit hA hs hG in
theorem rests_calm : Ope.noPrecList (rs.map fun es => Ope.seq es none) = true := by
  rw [noPrecList_iff]
  intro e he
  obtain ⟨es, h1, rfl⟩ := List.mem_map.1 he
  exact hr es h1

omit hA hr hG in
theorem over_push (w : Option V) : Over (pushValue d w {}) {} (pushValue d w {}) ({} : Frame V) :=
  ⟨⟨[], by simp, rfl⟩, ⟨[], by simp, rfl⟩, ⟨[], by simp, rfl⟩, by unfold pushValue; rw [hs]; rfl, by unfold pushValue; rw [hs]; rfl,
    by unfold pushValue; rw [hs]; rfl, by unfold pushValue; rw [hs]; rfl⟩

omit hA hr hG in
theorem over_pull (w : Option V) : Over {} (pushValue d w {}) ({} : Frame V) (pushValue d w {}) :=
  ⟨⟨[], rfl, by simp⟩, ⟨[], rfl, by simp⟩, ⟨[], rfl, by simp⟩, by unfold pushValue; rw [hs]; rfl, by unfold pushValue; rw [hs]; rfl,
    by unfold pushValue; rw [hs]; rfl, by unfold pushValue; rw [hs]; rfl⟩

omit hG hr in
theorem frame_round {n i k a : Nat} {w : Option V} {f f3 : Frame V} (hf : f.choiceCount = n) (hc : f.choice = a)
    (hv : ∃ u, f.vals = w :: u ∧ f3.vals = u) (ht : ∃ u, f.tags = str2tag d.name :: u ∧ f3.tags = u)
    (hk : f.tokens = f3.tokens) :
    ruleFrame r d i k f = roundScope r d n i k w { f3 with choiceCount := rs.length, choice := a } := by
  obtain ⟨es, l, fs, hes, hsp⟩ := hA.shape
  obtain ⟨u, h1, rfl⟩ := hv
  obtain ⟨u', h2, rfl⟩ := ht
  cases f
  simp only at hf hc h1 h2 hk
  subst hf hc h1 h2 hk
  simp [ruleFrame, hes, Ope.choiceLikeTop, Ope.isChoiceLike, roundScope]

/-- A round that succeeds, from the value so far and from nothing. -/
theorem round_fwd (i : Nat) {n j k : Nat} {κ : List (List Byte × List Byte)} {w : Option V} {c : Bool} {s' : PSt V}
    (h : Peg G {} m (.choL (rs.map fun es => .seq es none) 0 n) j ⟨κ, pushValue d w {}⟩ (.ok k c s')) :
      ∃ g, Peg G {} m (.ope (rests rs)) j ⟨κ, {}⟩ (.ok k false ⟨s'.caps, g⟩) ∧ ruleFrame r d i k s'.vs = roundScope r d n i k w g := by
  obtain ⟨x2, h2, l2⟩ := h.shift hG (by intro e he; cases he) (rests_calm hr) (pushValue d w {}) {} ⟨κ, {}⟩ rfl (over_push hs w)
  obtain ⟨s2, rfl, e2, o2⟩ := PRes.over_ok l2
  obtain ⟨y, h3, l3⟩ := choL_renum 0 rs.length h2
  cases y with
  | fail => cases l3
  | ok k3 c3 s3 =>
    obtain ⟨rfl, rfl, κ3, f3, a3, rfl, rfl⟩ := l3
    simp only at e2
    subst e2
    refine ⟨{ f3 with choiceCount := rs.length, choice := 0 + a3 }, .cho (by rw [List.length_map]; exact h3), ?_⟩
    obtain ⟨a, b1, b2⟩ := o2.vals
    obtain ⟨a', b3, b4⟩ := o2.tags
    obtain ⟨a'', b5, b6⟩ := o2.tokens
    simp only [pushValue, hs, Bool.false_eq_true, if_false] at b1 b2 b3 b4 b5 b6
    exact frame_round hA hs o2.count o2.choice ⟨a, b1, b2⟩ ⟨a', b3, b4⟩ (b5.trans b6.symm)

theorem round_bwd (i n : Nat) (w : Option V) {j k : Nat} {κ κ' : List (List Byte × List Byte)} {c : Bool} {g : Frame V}
    (h : Peg G {} m (.ope (rests rs)) j ⟨κ, {}⟩ (.ok k c ⟨κ', g⟩)) :
    ∃ c' s', Peg G {} m (.choL (rs.map fun es => .seq es none) 0 n) j ⟨κ, pushValue d w {}⟩ (.ok k c' s') ∧ s'.caps = κ' ∧
      ruleFrame r d i k s'.vs = roundScope r d n i k w g := by
  obtain ⟨y, hy, e⟩ := choL_of_ope h
  cases y with
  | fail => cases e
  | ok k1 c1 s1 =>
    cases e
    obtain ⟨x2, h2, l2⟩ := hy.shift hG (by intro e he; cases he) (rests_calm hr) {} (pushValue d w {}) ⟨κ, pushValue d w {}⟩ rfl
      (over_pull hs w)
    obtain ⟨s2, rfl, e2, o2⟩ := PRes.over_ok l2
    obtain ⟨y, h3, l3⟩ := choL_renum 0 n h2
    obtain ⟨z, h4, l4⟩ := choL_renum 0 rs.length hy
    cases hy.det (by rw [← List.length_map (f := fun es => Ope.seq es none) (as := rs)] at h4; exact h4)
    cases y with
    | fail => cases l3
    | ok k3 c3 s3 =>
      obtain ⟨rfl, rfl, κ3, f3, a3, rfl, rfl⟩ := l3
      obtain ⟨-, -, κ4, f4, a4, e4, e5⟩ := l4
      simp only [PSt.mk.injEq] at e2 e4
      obtain ⟨rfl, rfl⟩ := e4
      refine ⟨_, _, h3, e2, ?_⟩
      obtain ⟨a, b1, b2⟩ := o2.vals
      obtain ⟨a', b3, b4⟩ := o2.tags
      obtain ⟨a'', b5, b6⟩ := o2.tokens
      have hch := o2.choice
      have hcc := o2.count
      simp only [pushValue, hs, Bool.false_eq_true, if_false, List.nil_append] at b1 b2 b3 b4 b5 b6 hch hcc
      have hm : (rs.map fun es => Ope.seq es none).length = rs.length := List.length_map ..
      have := frame_round (r := r) (rs := rs) (i := i) (k := k) (w := w) (n := n)
        (f := { f3 with choiceCount := n, choice := 0 + a3 }) (f3 := f4) hA hs rfl rfl ⟨a, b2, b1⟩ ⟨a', b4, b3⟩ (b6.trans b5.symm)
      rw [this, ← hch, hm]

theorem round_fail {n j : Nat} {κ : List (List Byte × List Byte)} {w : Option V} :
    (∃ c, Peg G {} m (.choL (rs.map fun es => .seq es none) 0 n) j ⟨κ, pushValue d w {}⟩ (.fail c)) ↔
      ∃ c, Peg G {} m (.ope (rests rs)) j ⟨κ, {}⟩ (.fail c) := by
  constructor
  · rintro ⟨c, h⟩
    obtain ⟨x2, h2, l2⟩ := h.shift hG (by intro e he; cases he) (rests_calm hr) (pushValue d w {}) {} ⟨κ, {}⟩ rfl (over_push hs w)
    cases PRes.over_fail l2
    obtain ⟨y, h3, l3⟩ := choL_renum 0 (rs.map fun es => Ope.seq es none).length h2
    cases y with
    | ok => cases l3
    | fail c' => exact ⟨_, .cho h3⟩
  · rintro ⟨c, h⟩
    obtain ⟨y, hy, e⟩ := choL_of_ope h
    cases y with
    | ok => cases e
    | fail c' =>
      obtain ⟨x2, h2, l2⟩ := hy.shift hG (by intro e he; cases he) (rests_calm hr) {} (pushValue d w {}) ⟨κ, pushValue d w {}⟩ rfl
        (over_pull hs w)
      cases PRes.over_fail l2
      obtain ⟨y, h3, l3⟩ := choL_renum 0 n h2
      cases y with
      | ok => cases l3
      | fail c' => exact ⟨_, h3⟩

theorem grow_nest {n : Nat} (hn : n = rs.length + bs.length) {i j : Nat} {κ : List (List Byte × List Byte)} {w : Option V} {x : PRes V}
    (h : Peg G {} m (.grow r i) j ⟨κ, pushValue d w {}⟩ x) :
    ∃ k κ' w', x = .ok k false ⟨κ', pushValue d w' {}⟩ ∧ LeftNest G r d rs n m i j κ w k κ' w' := by
  obtain ⟨es, l, fs, hes, hsp⟩ := hA.shape
  have hd := hA.rule
  have hlen := hsp.length
  generalize ht : PTask.grow r i = t at h
  generalize hv : ({} : Env) = v at h
  generalize hs0 : PSt.mk κ (pushValue d w {}) = s at h
  induction h generalizing κ w with
  | grow_stop h1 h2 h3 _ =>
    cases ht; subst hv; subst hs0
    rw [hd] at h1; cases h1; rw [hes] at h2; cases h2
    rw [hsp.split] at h3
    obtain ⟨c, h4⟩ := (round_fail hA hG hr hs).1 ⟨_, h3⟩
    exact ⟨_, _, _, rfl, .done h4⟩
  | grow_idle h1 h2 h3 hk _ =>
    cases ht; subst hv; subst hs0
    rw [hd] at h1; cases h1; rw [hes] at h2; cases h2
    rw [hsp.split] at h3
    obtain ⟨g, h4, -⟩ := round_fwd hA hG hr hs i h3
    exact ⟨_, _, _, rfl, .idle h4 hk⟩
  | grow_more h1 h2 h3 hk _ _ ih =>
    cases ht; subst hv; subst hs0
    rw [hd] at h1; cases h1; rw [hes] at h2; cases h2
    rw [hsp.split] at h3
    obtain ⟨g, h4, e4⟩ := round_fwd hA hG hr hs i h3
    obtain ⟨k', κ', w', e, hnest⟩ := ih hA hG hd rfl rfl rfl
    rw [e4, hlen, ← hn] at hnest
    exact ⟨k', κ', w', e, .more h4 hk hnest⟩
  | _ => cases ht

theorem nest_grow {n : Nat} (hn : n = rs.length + bs.length) {i j k : Nat} {κ κ' : List (List Byte × List Byte)} {w w' : Option V}
    (h : LeftNest G r d rs n m i j κ w k κ' w') :
    Peg G {} m (.grow r i) j ⟨κ, pushValue d w {}⟩ (.ok k false ⟨κ', pushValue d w' {}⟩) := by
  obtain ⟨es, l, fs, hes, hsp⟩ := hA.shape
  have hd := hA.rule
  have hlen := hsp.length.trans hn.symm
  induction h with
  | done h =>
    obtain ⟨c, h⟩ := (round_fail (n := es.length) hA hG hr hs).2 ⟨_, h⟩
    exact .grow_stop hd hes (by rw [hsp.split]; exact h)
  | idle h hk =>
    obtain ⟨c, s', h, -⟩ := round_bwd hA hG hr hs 0 es.length _ h
    exact .grow_idle hd hes (by rw [hsp.split]; exact h) hk
  | more h hk _ ih =>
    obtain ⟨c, s', h, e, e'⟩ := round_bwd hA hG hr hs i es.length _ h
    subst e
    rw [hlen] at e'
    rw [← e'] at ih
    exact .grow_more hd hes (by rw [hsp.split]; exact h) hk ih

/-- **C32**: the values nest to the left.  The rule matches `[i, k)` exactly if `b1 / ... / bk` matches `[i, j)`, giving the value `w`
(the action on what `b` collected), and from there the rounds lead to `k`, each applying the action to the value so far followed
by what its `r` collected; the last value is the one the caller gets. -/
theorem C32_values_nest_to_the_left (v : Env) (nm : List Byte) (i : Nat) (s : PSt V) (k : Nat) (c : Bool) (s' : PSt V) :
    Peg G v m (.ope (.ref r nm [])) i s (.ok k c s') ↔
      ∃ j c1 κ1 g κ' w', Peg G {} m (.ope (bases bs)) i ⟨s.caps, {}⟩ (.ok j c1 ⟨κ1, g⟩) ∧
        LeftNest G r d rs (rs.length + bs.length) m i j κ1
          (ruleValue G r d i j (baseScope r (rs.length + bs.length) rs.length i j g) none) k κ' w' ∧
        c = false ∧ s' = ⟨κ', { s.vs with vals := s.vs.vals ++ [w'], tags := s.vs.tags ++ [str2tag d.name] }⟩ := by
  obtain ⟨es, l, fs, hes, hsp⟩ := hA.shape
  have hd := hA.rule
  have hlen := hsp.length
  have hframe : ∀ j (f : Frame V) a, ruleFrame r d i j { f with choiceCount := es.length, choice := rs.length + a } =
      baseScope r (rs.length + bs.length) rs.length i j { f with choiceCount := bs.length, choice := 0 + a } := by
    intro j f a
    simp [ruleFrame, hes, Ope.choiceLikeTop, Ope.isChoiceLike, baseScope, hlen]
  constructor
  · intro h
    cases hold_of_ref hd hA.isRule h with
    | rule_ok h1 h2 => rw [hd] at h1; cases h1; rw [hA.marked] at h2; cases h2
    | rule_pred h1 h2 => rw [hd] at h1; cases h1; rw [hA.marked] at h2; cases h2
    | lr_ok h1 _ _ h2 _ h3 h4 =>
      rw [hd] at h1; cases h1; rw [hes] at h2; cases h2
      rw [hsp.split] at h3
      obtain ⟨y, h5, l5⟩ := choL_renum 0 bs.length h3
      cases y with
      | fail => cases l5
      | ok j' c' s5 =>
        obtain ⟨rfl, rfl, κ3, f3, a3, rfl, rfl⟩ := l5
        obtain ⟨k', κ', w', e, hnest⟩ := grow_nest hA hG hr hs rfl h4
        cases e
        rw [hframe] at hnest
        refine ⟨_, _, _, _, κ', w', .cho h5, hnest, rfl, ?_⟩
        simp [Frame.add, pushValue, hs]
  · rintro ⟨j, c1, κ1, g, κ', w', h1, h2, rfl, rfl⟩
    obtain ⟨y, hy, e⟩ := choL_of_ope h1
    cases y with
    | fail => cases e
    | ok j1 c1 s1 =>
      cases e
      obtain ⟨z, h4, l4⟩ := choL_renum rs.length es.length hy
      cases z with
      | fail => cases l4
      | ok j2 c2 s2 =>
        obtain ⟨rfl, rfl, κ3, f3, a3, e1, e2⟩ := l4
        simp only [PSt.mk.injEq] at e1
        obtain ⟨rfl, rfl⟩ := e1
        rw [← hframe] at h2
        have hg := nest_grow hA hG hr hs rfl h2
        subst e2
        have := Peg.lr_ok (s := s) hd hA.marked hA.spaces hes hA.noPredicate (by rw [hsp.split]; exact h4) hg
        refine .ref hd hA.isRule ?_
        simpa [Frame.add, pushValue, hs] using this
end

/-! ## The engine -/

/-- **C32** for the engine: a parse whose start rule is left recursive finishes, and it succeeds exactly if white space followed by
`(b1 / ... / bk) (r1 / ... / rn)*` matches (up to the end of the input if that is asked for), with the same length. -/
theorem C32_parse_accepts_the_same_as_iteration_partial {cfg : Cfg V} {C : Cert} {al : Nat → Prop} (h : Ready cfg C al r)
    (hA : DirectLR cfg.gram r d rs bs) (hb : cfg.gram.Blind) (hc : Consumes cfg.gram (rests rs)) (eoi : Bool) (dt : Option V) (log : Bool) :
    ∃ n res, parseCore n cfg r eoi { dt := dt, logOn := log } = .ok res ∧
      ∀ k, (res.ret = true ∧ res.len = k) ↔ ∃ i c s c' s', Peg cfg.gram {} {} .skip 0 {} (.ok i c s) ∧
        Peg cfg.gram {} {} (.ope (iteration rs bs)) i s (.ok k c' s') ∧ (eoi = true → cfg.input.length ≤ k) := by
  obtain ⟨x, n, res, hx, h1, h2, h3, h4⟩ := parseCore_peg h eoi dt log
  refine ⟨n, res, h1, fun k => ⟨?_, ?_⟩⟩
  · rintro ⟨hret, rfl⟩
    rw [h2] at hret
    cases hx with
    | noSkip => cases hret
    | noRule => cases hret
    | rest => cases hret
    | @ok i c s j c' s' a b e =>
      obtain ⟨c2, s2, g, -⟩ := ((C32_accepts_the_same_as_iteration hA hb hc {} [] i s).1 j s'.caps).1
        ⟨_, _, .ref hA.rule hA.isRule b, rfl⟩
      rw [(h4 j _ rfl).1]
      exact ⟨i, c, s, c2, s2, a, g, e⟩
  · rintro ⟨i, c, s, c', s', a, b, e⟩
    obtain ⟨c2, s2, g, -⟩ := ((C32_accepts_the_same_as_iteration hA hb hc {} [] i s).1 k s'.caps).2 ⟨_, _, b, rfl⟩
    have hy : PegParse cfg.gram r eoi (some (k, s2.vs)) := .ok a (hold_of_ref hA.rule hA.isRule g) e
    cases hx.det hy
    exact ⟨h2, (h4 _ _ rfl).1⟩

/-- **C32** for the engine, values: on success the value delivered is the one built by nesting to the left. -/
theorem C32_parse_value_nests_to_the_left_partial {cfg : Cfg V} {C : Cert} {al : Nat → Prop} (h : Ready cfg C al r)
    (hA : DirectLR cfg.gram r d rs bs) (hG : cfg.gram.Calm) (hr : ∀ es ∈ rs, Ope.noPrecList es = true) (hs : d.ignoreSV = false)
    (hrec : cfg.recognizeOnly = false) (eoi : Bool) (dt : Option V) (log : Bool) :
    ∃ n res, parseCore n cfg r eoi { dt := dt, logOn := log } = .ok res ∧
      (res.ret = true → ∃ i c s j c1 κ1 g κ' w, Peg cfg.gram {} {} .skip 0 {} (.ok i c s) ∧
        Peg cfg.gram {} {} (.ope (bases bs)) i ⟨s.caps, {}⟩ (.ok j c1 ⟨κ1, g⟩) ∧
        LeftNest cfg.gram r d rs (rs.length + bs.length) {} i j κ1
          (ruleValue cfg.gram r d i j (baseScope r (rs.length + bs.length) rs.length i j g) none) res.len κ' w ∧
        res.st.vs.vals = s.vs.vals ++ [w]) := by
  obtain ⟨x, n, res, hx, h1, h2, h3, h4⟩ := parseCore_peg h eoi dt log
  refine ⟨n, res, h1, fun hret => ?_⟩
  rw [h2] at hret
  cases hx with
  | noSkip => cases hret
  | noRule => cases hret
  | rest => cases hret
  | @ok i c s j c' s' a b e =>
    obtain ⟨j1, c1, κ1, g, κ', w, k1, k2, -, k4⟩ := (C32_values_nest_to_the_left hA hG hr hs {} [] i s j c' s').1
      (.ref hA.rule hA.isRule b)
    obtain ⟨e1, e2⟩ := h4 j _ rfl
    rw [e1, e2 hrec, k4]
    exact ⟨i, c, s, j1, c1, κ1, g, κ', w, a, k1, k2, rfl⟩

/-! ## A concrete grammar

`E <- E '-' T / T   T <- T '*' F / F   F <- '(' E ')' / < [0-9] >   %whitespace <- ' '*` with the obvious actions. -/

def subRules : List Def :=
  [{ name := [69], ope := .cho [.seq [.ref 0 [69] [], .lit [45] false, .ref 1 [84] []] none, .ref 1 [84] []] false [], isLR := true },
   { name := [84], ope := .cho [.seq [.ref 1 [84] [], .lit [42] false, .ref 2 [70] []] none, .ref 2 [70] []] false [], isLR := true },
   { name := [70], ope := .cho [.seq [.lit [40] false, .ref 0 [69] [], .lit [41] false] none,
                               .tok (.cls ⟨[(48, 57)], false, false⟩)] false [] }]

def subAct (input : List Byte) (r : Nat) (f : Frame Int) : Option Int :=
  match r, f.vals with
  | 0, [some a, some b] => some (a - b)
  | 1, [some a, some b] => some (a * b)
  | 2, [] => some ((input.getD f.sv.1 48).toNat - 48)
  | _, v => v.head?.getD none

def subCfg (input : List Byte) : Cfg Int :=
  { input := input, rules := subRules, ws := some (.ws (.ign (.rep (.lit [32] false) 0 none none)))
    action := fun r => some fun f _ _ => (subAct input r f, none) }

def subCert : Cert :=
  { rank := fun r => 2 - r, null := fun _ => false, leak := fun _ => false, modes := fun _ m => m == {}, top := 3, malformed := true,
    capless := true }

theorem subReady (input : List Byte) : Ready (subCfg input) subCert (fun _ => True) 0 where
  cert := by
    refine CertOk.of_check ?_ (slotsOk_of rfl) (fun _ _ _ _ => ⟨List.prefix_refl _, List.prefix_refl _, List.prefix_refl _, rfl⟩)
      ⟨(fun r a h => by cases h; exact fun _ _ _ => rfl), (fun _ _ h => by cases h), (fun _ _ h => by cases h)⟩
      (AlOk.trivial _ _ rfl (fun _ _ h => by cases h)) (fun h => by cases h) ?_ ?_ ?_
    · rfl
    · intro r d m hd _ _ _
      exact lrFs_bare (by
        have : ∀ d ∈ subRules, d.ope.bare = true := by decide
        exact this d (List.mem_of_getElem? hd))
    · intro r d m hd _ _
      exact bare_nodeOk (fun _ _ h => by cases h) _ (by
        have : ∀ d ∈ subRules, d.ope.bare = true := by decide
        exact this d (List.mem_of_getElem? hd))
    · intro e he
      cases he
      exact bare_nodeOk (fun _ _ h => by cases h) _ rfl
  word := by intro _ _ w h; cases h
  start := trivial
  rule := ⟨_, rfl, rfl⟩
  mode := rfl

/-- `E` is `E ('-' T) / T`. -/
theorem subDirect (input : List Byte) : DirectLR (subCfg input).gram 0 subRules[0] [[.lit [45] false, .ref 1 [84] []]] [.ref 1 [84] []] where
  rule := rfl
  isRule := rfl
  marked := rfl
  spaces := rfl
  noPredicate := rfl
  shape := ⟨_, _, _, rfl, .more (.base (by intro nm es kw h; cases h))⟩

theorem subConsumes (input : List Byte) : Consumes (subCfg input).gram (rests [[.lit [45] false, .ref 1 [84] []]]) := by
  intro m j s k c s' h
  exact h.consumes (z := fun _ => false) (by intro r d _ h; cases h) (by rfl) _ _ _ rfl

theorem subCalm (input : List Byte) : (subCfg input).gram.Calm where
  ws := by intro e h; cases h; rfl
  call := by
    intro r d hd hm
    have : ∀ d ∈ subRules, d.isMacro = false := by decide
    rw [this d (List.mem_of_getElem? hd)] at hm
    cases hm

/-- The hypotheses of the theorems above are met by the example, on every input. -/
example (input : List Byte) (eoi : Bool) (dt : Option Int) (log : Bool) :
    ∃ n res, parseCore n (subCfg input) 0 eoi { dt := dt, logOn := log } = .ok res ∧
      ∀ k, (res.ret = true ∧ res.len = k) ↔ ∃ i c s c' s', Peg (subCfg input).gram {} {} .skip 0 {} (.ok i c s) ∧
        Peg (subCfg input).gram {} {} (.ope (iteration [[.lit [45] false, .ref 1 [84] []]] [.ref 1 [84] []])) i s (.ok k c' s') ∧
        (eoi = true → input.length ≤ k) :=
  C32_parse_accepts_the_same_as_iteration_partial (subReady input) (subDirect input) (by intro q p h; cases h) (subConsumes input) eoi dt log

example (input : List Byte) (eoi : Bool) (dt : Option Int) (log : Bool) :=
  C32_parse_value_nests_to_the_left_partial (subReady input) (subDirect input) (subCalm input)
    (by intro es he; cases he with | head => rfl | tail _ h => cases h) rfl rfl eoi dt log

/-- "9 - 2 - 2*(3-1)" is (9 - 2) - 4 = 3. -/
example : (match parserParse 120 (subCfg [57, 32, 45, 32, 50, 32, 45, 32, 50, 42, 40, 51, 45, 49, 41]) 0 true false none with
    | .ok a => some (a.ok, a.val)
    | _ => none) = some (true, some 3) := by decide +kernel

/-! ## Where left recursion differs

The engine's table of left-recursive results is kept for the whole parse, also without packrat parsing, and is not told apart by
mode; the certificate asks that a left-recursive rule is called in one mode only. -/

/-- `S <- &< A > A 'b'   A <- A 'x' / 'a'   %whitespace <- ' '*`; with `lr = false` the second rule is `A <- 'a' 'x'*`. -/
def lrStaleCfg (lr : Bool) (input : List Byte) : Cfg Nat :=
  { input := input
    rules := [{ name := [83], ope := .seq [.and_ (.tok (.ref 1 [65] [])), .ref 1 [65] [], .lit [98] false] none },
              if lr then { name := [65], ope := .cho [.seq [.ref 1 [65] [], .lit [120] false] none, .lit [97] false] false [], isLR := true }
              else { name := [65], ope := .seq [.lit [97] false, .rep (.lit [120] false) 0 none none] none }]
    ws := some (.ws (.ign (.rep (.lit [32] false) 0 none none))) }

/-- **C32 fails in general**: a left-recursive rule called at one position inside and outside a token boundary reports the length
found first: `A <- A 'x' / 'a'` rejects "a b" where `A <- 'a' 'x'*` accepts it. -/
theorem C32_mode_blind_table :
    accepts 60 (lrStaleCfg true [97, 32, 98]) = some false ∧ accepts 60 (lrStaleCfg false [97, 32, 98]) = some true := by
  exact ⟨by decide +kernel, by decide +kernel⟩

/-- `S <- A $n   A <- A $n<'x'?> / 'a'` -/
def lrLeakCfg (input : List Byte) : Cfg Nat :=
  { input := input
    rules := [{ name := [83], ope := .seq [.ref 1 [65] [], .bref [110], .lit [98] false] none },
              { name := [65], ope := .cho [.seq [.ref 1 [65] [], .cap [110] (.rep (.lit [120] false) 0 (some 1) none)] none, .lit [97] false]
                  false [], isLR := true }] }

/-- The reference semantics keeps the captures of the last round that advanced; the engine keeps those of the round after it, which
did not advance and was given up: the back reference finds a capture. -/
theorem C32_given_up_round_leaves_capture :
    accepts 60 (lrLeakCfg [97, 98]) = some true ∧ ¬ ∃ x, PegParse (lrLeakCfg [97, 98]).gram 0 true (some x) := by
  refine ⟨by decide +kernel, ?_⟩
  rintro ⟨x, hx⟩
  have hbase : Peg (lrLeakCfg [97, 98]).gram {} {} (.choL [.lit [97] false] 1 2) 0 {} (.ok 1 false ⟨[], { choiceCount := 2, choice := 1 }⟩) :=
    .cho_ok (.lit (.text_plain rfl rfl (.skip_none rfl)))
  have hx0 : Peg (lrLeakCfg [97, 98]).gram {} {} (.text [120] false) 1 ⟨[], { vals := [none], tags := [str2tag [65]] }⟩ (.fail false) :=
    .text_no rfl
  have hround : Peg (lrLeakCfg [97, 98]).gram {} {} (.choL [.seq [.cap [110] (.rep (.lit [120] false) 0 (some 1) none)] none] 0 2) 1
      ⟨[], { vals := [none], tags := [str2tag [65]] }⟩ (.ok 1 false _) :=
    .cho_ok (.seq (.seq_cons (.cap_ok (.rep (.loop_end rfl (.lit hx0)))) .seq_nil))
  have hA : Peg (lrLeakCfg [97, 98]).gram {} {} (.hold 1) 0 {} (.ok 1 false ⟨[], { vals := [none], tags := [str2tag [65]] }⟩) := by
    have hd : (lrLeakCfg [97, 98]).gram.rules[1]? = some (lrLeakCfg [97, 98]).rules[1] := rfl
    have hg : Peg (lrLeakCfg [97, 98]).gram {} {} (.grow 1 0) 1 ⟨[], { vals := [none], tags := [str2tag [65]] }⟩
        (.ok 1 false ⟨[], { vals := [none], tags := [str2tag [65]] }⟩) := .grow_idle hd rfl hround (Nat.le_refl 1)
    exact .lr_ok (s := {}) (s' := ⟨[], { choiceCount := 2, choice := 1 }⟩) hd rfl rfl rfl rfl hbase hg
  have hS : PegParse (lrLeakCfg [97, 98]).gram 0 true none :=
    .noRule (.skip_none rfl) (.rule_fail rfl rfl (.body rfl (.seq (.seq_cons (.ref rfl rfl hA) (.seq_fail (.bref_no rfl))))))
  cases hx.det hS

end Verif.Props
