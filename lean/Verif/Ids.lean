import Verif.Link
import Mathlib.Data.List.Perm.Subperm
/-!
# Numbering of rules and the compact packrat index (peglib.h 2438-2456, 4338-4369, 3331-3343, 4905-4914)

`visitRule`/`Ope.visitIds` are `AssignIDToDefinition`, `initIds` is `initialize_definition_ids`.  The recursion of the visitor
is over the rules not numbered yet; it is written with fuel, and `rs.length` fuel is shown to be enough.
-/

namespace Verif
open CharClass

/-- peglib.h 2438-2470: The visitor's state: the rules numbered so far (the number of a rule is its position), the rules with `has_macro_ref` set, `has_cut`,
`has_opaque_ope`. -/
structure IdSt where
  order : List Nat := []
  macroRef : List Nat := []
  hasCut : Bool := false
  opq : Bool := false
  deriving DecidableEq, Repr

/-- peglib.h 4353-4355: `current_def->has_macro_ref = true`. -/
def IdSt.mark (s : IdSt) : Option Nat → IdSt
  | none => s
  | some c => { s with macroRef := c :: s.macroRef }

mutual
/-- peglib.h 2438-2456, 4351-4369 `AssignIDToDefinition` on an operator of rule `cur`; `go` is the visit of a rule.  A null operator is
skipped (the code would crash). -/
def Ope.visitIds (rs : List Def) (go : Nat → IdSt → IdSt) (cur : Option Nat) : Ope → IdSt → IdSt
  | .seq es _, s => Ope.visitIdsL rs go cur es s
  | .cho es _ _, s => Ope.visitIdsL rs go cur es s
  | .rep e _ _ _, s => e.visitIds rs go cur s
  | .and_ e, s => e.visitIds rs go cur s
  | .not_ e, s => e.visitIds rs go cur s
  | .capScope e, s => e.visitIds rs go cur s
  | .cap _ e, s => e.visitIds rs go cur s
  | .tok e, s => e.visitIds rs go cur s
  | .ign e, s => e.visitIds rs go cur s
  | .ws e, s => e.visitIds rs go cur s
  | .ref r _ as, s => go r (Ope.visitIdsL rs go cur as (if ((rs[r]?).map Def.isMacro).getD false then s.mark cur else s))
  | .recov r _ as, s =>
    go r (Ope.visitIdsL rs go cur as
      (if ((rs[r]?).map Def.isMacro).getD false then ({ s with hasCut := true } : IdSt).mark cur else { s with hasCut := true }))
  | .prec a b _ _, s => b.visitIds rs go cur (a.visitIds rs go cur { s with opq := true })
  | .weak r, s => go r s
  | .usr _, s => { s with opq := true }
  | .cut, s => { s with hasCut := true }
  | .param _ _, s => s
  | .dict _ _, s => s
  | .lit _ _, s => s
  | .cls _, s => s
  | .chr _, s => s
  | .dot, s => s
  | .bref _, s => s
  | .null, s => s

def Ope.visitIdsL (rs : List Def) (go : Nat → IdSt → IdSt) (cur : Option Nat) : List Ope → IdSt → IdSt
  | [], s => s
  | e :: es, s => Ope.visitIdsL rs go cur es (e.visitIds rs go cur s)
end

/-- peglib.h 4338-4349 `AssignIDToDefinition::visit(Holder &)`. -/
def visitRule (rs : List Def) : Nat → Nat → IdSt → IdSt
  | 0, _, s => s
  | n + 1, r, s =>
    if r ∈ s.order then s
    else match rs[r]? with
      | none => s
      | some d => d.ope.visitIds rs (visitRule rs n) (some r) { s with order := s.order ++ [r] }

/-- peglib.h 3335-3345: An optional operator (`%whitespace`, `%word`). -/
def visitOpt (rs : List Def) (e : Option Ope) (s : IdSt) : IdSt :=
  match e with
  | none => s
  | some e => e.visitIds rs (visitRule rs rs.length) none s

/-- peglib.h 3331-3343 `initialize_definition_ids` of the start rule. -/
def initIds (rs : List Def) (start : Nat) (ws word : Option Ope) : IdSt :=
  visitOpt rs word (visitOpt rs ws (visitRule rs rs.length start {}))

/-! ## What is visited -/

mutual
/-- The rules an expression refers to, the arguments of references included. -/
def Ope.uses : Ope → List Nat
  | .seq es _ => Ope.usesL es
  | .cho es _ _ => Ope.usesL es
  | .rep e _ _ _ => e.uses
  | .and_ e => e.uses
  | .not_ e => e.uses
  | .capScope e => e.uses
  | .cap _ e => e.uses
  | .tok e => e.uses
  | .ign e => e.uses
  | .ws e => e.uses
  | .ref r _ as => r :: Ope.usesL as
  | .recov r _ as => r :: Ope.usesL as
  | .prec a b _ _ => a.uses ++ b.uses
  | .weak r => [r]
  | .usr _ => []
  | .cut => []
  | .param _ _ => []
  | .dict _ _ => []
  | .lit _ _ => []
  | .cls _ => []
  | .chr _ => []
  | .dot => []
  | .bref _ => []
  | .null => []

def Ope.usesL : List Ope → List Nat
  | [] => []
  | e :: es => e.uses ++ Ope.usesL es
end

mutual
/-- The expression contains a cut operator or a recovery. -/
def Ope.cuts : Ope → Bool
  | .seq es _ => Ope.cutsL es
  | .cho es _ _ => Ope.cutsL es
  | .rep e _ _ _ => e.cuts
  | .and_ e => e.cuts
  | .not_ e => e.cuts
  | .capScope e => e.cuts
  | .cap _ e => e.cuts
  | .tok e => e.cuts
  | .ign e => e.cuts
  | .ws e => e.cuts
  | .ref _ _ as => Ope.cutsL as
  | .recov _ _ _ => true
  | .prec a b _ _ => a.cuts || b.cuts
  | .cut => true
  | .weak _ => false
  | .usr _ => false
  | .param _ _ => false
  | .dict _ _ => false
  | .lit _ _ => false
  | .cls _ => false
  | .chr _ => false
  | .dot => false
  | .bref _ => false
  | .null => false

def Ope.cutsL : List Ope → Bool
  | [] => false
  | e :: es => e.cuts || Ope.cutsL es
end

mutual
/-- The expression contains precedence climbing or a user operator. -/
def Ope.opqs : Ope → Bool
  | .seq es _ => Ope.opqsL es
  | .cho es _ _ => Ope.opqsL es
  | .rep e _ _ _ => e.opqs
  | .and_ e => e.opqs
  | .not_ e => e.opqs
  | .capScope e => e.opqs
  | .cap _ e => e.opqs
  | .tok e => e.opqs
  | .ign e => e.opqs
  | .ws e => e.opqs
  | .ref _ _ as => Ope.opqsL as
  | .recov _ _ as => Ope.opqsL as
  | .prec _ _ _ _ => true
  | .cut => false
  | .weak _ => false
  | .usr _ => true
  | .param _ _ => false
  | .dict _ _ => false
  | .lit _ _ => false
  | .cls _ => false
  | .chr _ => false
  | .dot => false
  | .bref _ => false
  | .null => false

def Ope.opqsL : List Ope → Bool
  | [] => false
  | e :: es => e.opqs || Ope.opqsL es
end

/-- `r` is reachable from the rules `us`. -/
inductive Reaches (rs : List Def) (us : List Nat) : Nat → Prop
  | base {r} : r ∈ us → r < rs.length → Reaches rs us r
  | step {r r' d} : Reaches rs us r → rs[r]? = some d → r' ∈ d.ope.uses → r' < rs.length → Reaches rs us r'

theorem Reaches.mono {rs : List Def} {us vs : List Nat} (h : ∀ u ∈ us, u ∈ vs) {r : Nat} (hr : Reaches rs us r) : Reaches rs vs r := by
  induction hr with
  | base h1 h2 => exact .base (h _ h1) h2
  | step _ h1 h2 h3 ih => exact .step ih h1 h2 h3

theorem Reaches.lt {rs : List Def} {us : List Nat} {r : Nat} (hr : Reaches rs us r) : r < rs.length := by
  cases hr with
  | base h1 h2 => exact h2
  | step _ h1 h2 h3 => exact h3

/-- The invariant of the state. -/
structure IdOk (rs : List Def) (s : IdSt) : Prop where
  nodup : s.order.Nodup
  bound : ∀ r ∈ s.order, r < rs.length
  refs : ∀ r ∈ s.macroRef, r ∈ s.order

/-- What visiting expressions of rule `cur` does which use the rules `us`, call a macro (`m`), contain a cut (`cut`), an opaque
operator (`q`). -/
structure Visits (rs : List Def) (cur : Option Nat) (us : List Nat) (m cut q : Bool) (s s' : IdSt) : Prop where
  ok : IdOk rs s'
  old : ∃ new, s'.order = s.order ++ new
  seen : ∀ u ∈ us, u < rs.length → u ∈ s'.order
  closed : ∀ (r : Nat) (d : Def), r ∈ s'.order → r ∉ s.order → rs[r]? = some d → ∀ u ∈ d.ope.uses, u < rs.length → u ∈ s'.order
  reach : ∀ r ∈ s'.order, r ∉ s.order → Reaches rs us r
  newRef : ∀ (r : Nat) (d : Def), r ∈ s'.order → r ∉ s.order → rs[r]? = some d → (r ∈ s'.macroRef ↔ d.ope.callsMacro rs = true)
  curRef : ∀ c, cur = some c → (c ∈ s'.macroRef ↔ c ∈ s.macroRef ∨ m = true)
  oldRef : ∀ r ∈ s.order, cur ≠ some r → (r ∈ s'.macroRef ↔ r ∈ s.macroRef)
  cut : s'.hasCut = true ↔ s.hasCut = true ∨ cut = true ∨
    ∃ (r : Nat) (d : Def), r ∈ s'.order ∧ r ∉ s.order ∧ rs[r]? = some d ∧ d.ope.cuts = true
  opq : s'.opq = true ↔ s.opq = true ∨ q = true ∨
    ∃ (r : Nat) (d : Def), r ∈ s'.order ∧ r ∉ s.order ∧ rs[r]? = some d ∧ d.ope.opqs = true

theorem Visits.mem {rs : List Def} {cur : Option Nat} {us : List Nat} {m c q : Bool} {s s' : IdSt} (h : Visits rs cur us m c q s s')
    {r : Nat} (hr : r ∈ s.order) : r ∈ s'.order := by
  obtain ⟨new, hn⟩ := h.old
  rw [hn]; exact List.mem_append_left _ hr

theorem Visits.rfl' {rs : List Def} {cur : Option Nat} {s : IdSt} (ho : IdOk rs s) : Visits rs cur [] false false false s s where
  ok := ho
  old := ⟨[], by simp⟩
  seen := by intro u hu; cases hu
  closed := by intro r d h1 h2; exact absurd h1 h2
  reach := by intro r h1 h2; exact absurd h1 h2
  newRef := by intro r d h1 h2; exact absurd h1 h2
  curRef := by intro c _; simp
  oldRef := by intro r _ _; rfl
  cut := by
    constructor
    · exact Or.inl
    · rintro (h | h | ⟨r, d, h1, h2, -⟩)
      · exact h
      · cases h
      · exact absurd h1 h2
  opq := by
    constructor
    · exact Or.inl
    · rintro (h | h | ⟨r, d, h1, h2, -⟩)
      · exact h
      · cases h
      · exact absurd h1 h2

theorem Visits.trans {rs : List Def} {cur : Option Nat} {us vs : List Nat} {m1 m2 c1 c2 q1 q2 : Bool} {s s1 s2 : IdSt}
    (hc : ∀ c, cur = some c → c ∈ s.order)
    (h1 : Visits rs cur us m1 c1 q1 s s1) (h2 : Visits rs cur vs m2 c2 q2 s1 s2) : Visits rs cur (us ++ vs) (m1 || m2) (c1 || c2) (q1 || q2) s s2 where
  ok := h2.ok
  old := by
    obtain ⟨n1, e1⟩ := h1.old
    obtain ⟨n2, e2⟩ := h2.old
    exact ⟨n1 ++ n2, by rw [e2, e1, List.append_assoc]⟩
  seen := by
    intro u hu hl
    rcases List.mem_append.1 hu with h | h
    · exact h2.mem (h1.seen u h hl)
    · exact h2.seen u h hl
  closed := by
    intro r d hr hn hd u hu hl
    by_cases h : r ∈ s1.order
    · exact h2.mem (h1.closed r d h hn hd u hu hl)
    · exact h2.closed r d hr h hd u hu hl
  reach := by
    intro r hr hn
    by_cases h : r ∈ s1.order
    · exact (h1.reach r h hn).mono fun u hu => List.mem_append_left _ hu
    · exact (h2.reach r hr h).mono fun u hu => List.mem_append_right _ hu
  newRef := by
    intro r d hr hn hd
    by_cases h : r ∈ s1.order
    · rw [h2.oldRef r h (fun e => hn (hc r e))]; exact h1.newRef r d h hn hd
    · exact h2.newRef r d hr h hd
  curRef := by
    intro c e
    rw [h2.curRef c e, h1.curRef c e, Bool.or_eq_true, or_assoc]
  oldRef := by
    intro r hr hn
    rw [h2.oldRef r (h1.mem hr) hn, h1.oldRef r hr hn]
  cut := by
    rw [h2.cut, h1.cut, Bool.or_eq_true]
    constructor
    · rintro ((h | h | ⟨r, d, a, b, c⟩) | h | ⟨r, d, a, b, c⟩)
      · exact Or.inl h
      · exact Or.inr (Or.inl (Or.inl h))
      · exact Or.inr (Or.inr ⟨r, d, h2.mem a, b, c⟩)
      · exact Or.inr (Or.inl (Or.inr h))
      · exact Or.inr (Or.inr ⟨r, d, a, fun h => b (h1.mem h), c⟩)
    · rintro (h | (h | h) | ⟨r, d, a, b, c⟩)
      · exact Or.inl (Or.inl h)
      · exact Or.inl (Or.inr (Or.inl h))
      · exact Or.inr (Or.inl h)
      · by_cases h : r ∈ s1.order
        · exact Or.inl (Or.inr (Or.inr ⟨r, d, h, b, c⟩))
        · exact Or.inr (Or.inr ⟨r, d, a, h, c⟩)
  opq := by
    rw [h2.opq, h1.opq, Bool.or_eq_true]
    constructor
    · rintro ((h | h | ⟨r, d, a, b, c⟩) | h | ⟨r, d, a, b, c⟩)
      · exact Or.inl h
      · exact Or.inr (Or.inl (Or.inl h))
      · exact Or.inr (Or.inr ⟨r, d, h2.mem a, b, c⟩)
      · exact Or.inr (Or.inl (Or.inr h))
      · exact Or.inr (Or.inr ⟨r, d, a, fun h => b (h1.mem h), c⟩)
    · rintro (h | (h | h) | ⟨r, d, a, b, c⟩)
      · exact Or.inl (Or.inl h)
      · exact Or.inl (Or.inr (Or.inl h))
      · exact Or.inr (Or.inl h)
      · by_cases h : r ∈ s1.order
        · exact Or.inl (Or.inr (Or.inr ⟨r, d, h, b, c⟩))
        · exact Or.inr (Or.inr ⟨r, d, a, h, c⟩)

/-- The visit of a rule does what it should. -/
def GoOk (rs : List Def) (n : Nat) (go : Nat → IdSt → IdSt) : Prop :=
  ∀ cur r s, IdOk rs s → rs.length ≤ n + s.order.length → (∀ c, cur = some c → c ∈ s.order) → Visits rs cur [r] false false false s (go r s)

theorem Visits.len {rs : List Def} {cur : Option Nat} {us : List Nat} {m c q : Bool} {s s' : IdSt} (h : Visits rs cur us m c q s s') :
    s.order.length ≤ s'.order.length := by
  obtain ⟨new, hn⟩ := h.old
  rw [hn, List.length_append]; omega

theorem Visits.perm {rs : List Def} {cur : Option Nat} {us vs : List Nat} {m c q : Bool} {s s' : IdSt} (h : Visits rs cur us m c q s s')
    (hv : ∀ u, u ∈ us ↔ u ∈ vs) : Visits rs cur vs m c q s s' :=
  { h with
    seen := fun u hu hl => h.seen u ((hv u).2 hu) hl
    reach := fun r h1 h2 => (h.reach r h1 h2).mono fun u hu => (hv u).1 hu }

theorem mark_visits {rs : List Def} {cur : Option Nat} {s : IdSt} (ho : IdOk rs s) (hc : ∀ c, cur = some c → c ∈ s.order) (b : Bool) :
    Visits rs cur [] b false false s (if b then s.mark cur else s) := by
  cases b with
  | false => exact Visits.rfl' ho
  | true =>
    simp only [if_true]
    cases cur with
    | none =>
      exact { Visits.rfl' (cur := none) ho with curRef := by intro c h; cases h }
    | some k =>
      refine { ok := ⟨ho.nodup, ho.bound, ?_⟩, old := ⟨[], by simp [IdSt.mark]⟩, seen := (by intro u hu; cases hu), closed := ?_, reach := ?_, newRef := ?_, curRef := ?_, oldRef := ?_, cut := ?_, opq := ?_ }
      · intro r hr
        rcases List.mem_cons.1 hr with h | h
        · subst h; exact hc _ rfl
        · exact ho.refs r h
      · intro r d h1 h2; exact absurd h1 h2
      · intro r h1 h2; exact absurd h1 h2
      · intro r d h1 h2; exact absurd h1 h2
      · intro c h; cases h; simp [IdSt.mark]
      · intro r hr hn
        have : r ≠ k := fun e => hn (by rw [e])
        simp [IdSt.mark, this]
      · constructor
        · exact Or.inl
        · rintro (h | h | ⟨r, d, h1, h2, -⟩)
          · exact h
          · cases h
          · exact absurd h1 h2
      · constructor
        · exact Or.inl
        · rintro (h | h | ⟨r, d, h1, h2, -⟩)
          · exact h
          · cases h
          · exact absurd h1 h2

theorem setCut_visits {rs : List Def} {cur : Option Nat} {s : IdSt} (ho : IdOk rs s) :
    Visits rs cur [] false true false s { s with hasCut := true } :=
  { Visits.rfl' (cur := cur) ho with ok := ⟨ho.nodup, ho.bound, ho.refs⟩, cut := by simp }

theorem setOpq_visits {rs : List Def} {cur : Option Nat} {s : IdSt} (ho : IdOk rs s) :
    Visits rs cur [] false false true s { s with opq := true } :=
  { Visits.rfl' (cur := cur) ho with ok := ⟨ho.nodup, ho.bound, ho.refs⟩, opq := by simp }

mutual
theorem visitIds_ok {rs : List Def} {n : Nat} {go : Nat → IdSt → IdSt} (hg : GoOk rs n go) (cur : Option Nat) (e : Ope) (s : IdSt)
    (ho : IdOk rs s) (hn : rs.length ≤ n + s.order.length) (hc : ∀ c, cur = some c → c ∈ s.order) :
    Visits rs cur e.uses (e.callsMacro rs) e.cuts e.opqs s (e.visitIds rs go cur s) := by
  cases e with
  | seq es kw => exact visitIdsL_ok hg cur es s ho hn hc
  | cho es l fs => exact visitIdsL_ok hg cur es s ho hn hc
  | rep e a b c => exact visitIds_ok hg cur e s ho hn hc
  | and_ e => exact visitIds_ok hg cur e s ho hn hc
  | not_ e => exact visitIds_ok hg cur e s ho hn hc
  | capScope e => exact visitIds_ok hg cur e s ho hn hc
  | cap k e => exact visitIds_ok hg cur e s ho hn hc
  | tok e => exact visitIds_ok hg cur e s ho hn hc
  | ign e => exact visitIds_ok hg cur e s ho hn hc
  | ws e => exact visitIds_ok hg cur e s ho hn hc
  | ref r nm as =>
    have h1 := mark_visits ho hc (((rs[r]?).map Def.isMacro).getD false)
    have h2 := visitIdsL_ok hg cur as _ h1.ok (by have := h1.len; omega) fun c e => h1.mem (hc c e)
    have h12 := h1.trans hc h2
    have h3 := hg cur r _ h12.ok (by have := h12.len; omega) fun c e => h12.mem (hc c e)
    have := (h12.trans hc h3).perm (vs := r :: Ope.usesL as) (by intro u; simp [or_comm])
    simpa [Ope.uses, Ope.callsMacro, Ope.cuts, Ope.opqs, Ope.visitIds] using this
  | recov r nm as =>
    have h0 := setCut_visits (cur := cur) ho
    have h1 := h0.trans hc (mark_visits h0.ok (fun c e => h0.mem (hc c e)) (((rs[r]?).map Def.isMacro).getD false))
    have h2 := visitIdsL_ok hg cur as _ h1.ok (by have := h1.len; omega) fun c e => h1.mem (hc c e)
    have h12 := h1.trans hc h2
    have h3 := hg cur r _ h12.ok (by have := h12.len; omega) fun c e => h12.mem (hc c e)
    have := (h12.trans hc h3).perm (vs := r :: Ope.usesL as) (by intro u; simp [or_comm])
    simpa [Ope.uses, Ope.callsMacro, Ope.cuts, Ope.opqs, Ope.visitIds] using this
  | prec a b i r =>
    have h0 := setOpq_visits (cur := cur) ho
    have h1 := h0.trans hc (visitIds_ok hg cur a _ h0.ok (by have := h0.len; omega) (fun c e => h0.mem (hc c e)))
    have h2 := h1.trans hc (visitIds_ok hg cur b _ h1.ok (by have := h1.len; omega) (fun c e => h1.mem (hc c e)))
    simpa [Ope.uses, Ope.callsMacro, Ope.cuts, Ope.opqs, Ope.visitIds] using h2
  | weak r => exact hg cur r s ho hn hc
  | usr k => exact setOpq_visits ho
  | cut => exact setCut_visits ho
  | param _ _ => exact Visits.rfl' ho
  | dict _ _ => exact Visits.rfl' ho
  | lit _ _ => exact Visits.rfl' ho
  | cls _ => exact Visits.rfl' ho
  | chr _ => exact Visits.rfl' ho
  | dot => exact Visits.rfl' ho
  | bref _ => exact Visits.rfl' ho
  | null => exact Visits.rfl' ho

theorem visitIdsL_ok {rs : List Def} {n : Nat} {go : Nat → IdSt → IdSt} (hg : GoOk rs n go) (cur : Option Nat) (es : List Ope) (s : IdSt)
    (ho : IdOk rs s) (hn : rs.length ≤ n + s.order.length) (hc : ∀ c, cur = some c → c ∈ s.order) :
    Visits rs cur (Ope.usesL es) (Ope.callsMacroL rs es) (Ope.cutsL es) (Ope.opqsL es) s (Ope.visitIdsL rs go cur es s) := by
  cases es with
  | nil => exact Visits.rfl' ho
  | cons e es =>
    have h1 := visitIds_ok hg cur e s ho hn hc
    exact h1.trans hc (visitIdsL_ok hg cur es _ h1.ok (by have := h1.len; omega) fun c e => h1.mem (hc c e))
end

theorem full_order {rs : List Def} {s : IdSt} (ho : IdOk rs s) (hn : rs.length ≤ s.order.length) {r : Nat} (hr : r < rs.length) :
    r ∈ s.order := by
  by_contra h
  have hsub : (r :: s.order).Subperm (List.range rs.length) :=
    List.subperm_of_subset (List.nodup_cons.2 ⟨h, ho.nodup⟩) (by
      intro x hx
      rcases List.mem_cons.1 hx with e | e
      · subst e; exact List.mem_range.2 hr
      · exact List.mem_range.2 (ho.bound x e))
  have := hsub.length_le
  simp at this
  omega

theorem visitRule_ok (rs : List Def) (n : Nat) : GoOk rs n (visitRule rs n) := by
  induction n with
  | zero =>
    intro cur r s ho hn hcur
    have h := Visits.rfl' (cur := cur) ho
    exact { h with
      seen := by
        intro u _ hl
        exact full_order ho (by omega) hl
      reach := by intro r h1 h2; exact absurd h1 h2 }
  | succ n ih =>
    intro cur r s ho hn hcur
    unfold visitRule
    by_cases hr : r ∈ s.order
    · rw [if_pos hr]
      have h := Visits.rfl' (cur := cur) ho
      exact { h with
        seen := by intro u hu _; rw [List.mem_singleton] at hu; rw [hu]; exact hr
        reach := by intro r h1 h2; exact absurd h1 h2 }
    · rw [if_neg hr]
      cases hd : rs[r]? with
      | none =>
        have h := Visits.rfl' (cur := cur) ho
        exact { h with
          seen := by
            intro u hu hl
            rw [List.mem_singleton] at hu
            rw [List.getElem?_eq_none_iff] at hd
            omega
          reach := by intro r h1 h2; exact absurd h1 h2 }
      | some d =>
        have hlt : r < rs.length := (List.getElem?_eq_some_iff.1 hd).1
        have ho' : IdOk rs { s with order := s.order ++ [r] } := by
          refine ⟨?_, ?_, ?_⟩
          · rw [List.nodup_append]
            refine ⟨ho.nodup, by simp, ?_⟩
            intro a ha b hb
            rw [List.mem_singleton] at hb
            intro e; rw [e, hb] at ha; exact hr ha
          · intro x hx
            rcases List.mem_append.1 hx with h | h
            · exact ho.bound x h
            · rw [List.mem_singleton] at h; rw [h]; exact hlt
          · intro x hx; exact List.mem_append_left _ (ho.refs x hx)
        have h := visitIds_ok ih (some r) d.ope { s with order := s.order ++ [r] } ho'
          (by simp only [List.length_append, List.length_singleton]; omega) (by intro c e; cases e; simp)
        dsimp only
        refine { ok := h.ok, old := ?_, seen := ?_, closed := ?_, reach := ?_, newRef := ?_, curRef := ?_, oldRef := ?_, cut := ?_, opq := ?_ }
        · obtain ⟨new, e⟩ := h.old
          exact ⟨r :: new, by rw [e]; simp⟩
        · intro u hu _
          rw [List.mem_singleton] at hu
          rw [hu]; exact h.mem (by simp)
        · intro x dx hx hn' hdx u hu hl
          by_cases e : x = r
          · subst e; rw [hd] at hdx; cases hdx
            exact h.seen u hu hl
          · exact h.closed x dx hx (by simp [hn', e]) hdx u hu hl
        · intro x hx hn'
          by_cases e : x = r
          · subst e; exact .base (by simp) hlt
          · have := h.reach x hx (by simp [hn', e])
            clear hx hn' e
            induction this with
            | base h1 h2 => exact .step (.base (by simp) hlt) hd h1 h2
            | step _ h1 h2 h3 ih => exact .step ih h1 h2 h3
        · intro x dx hx hn' hdx
          by_cases e : x = r
          · subst e; rw [hd] at hdx; cases hdx
            rw [h.curRef x rfl]
            constructor
            · rintro (hh | hh)
              · exact absurd (ho.refs x hh) hn'
              · exact hh
            · exact Or.inr
          · exact h.newRef x dx hx (by simp [hn', e]) hdx
        · intro c e
          have hcs := hcur c e
          rw [h.oldRef c (by simp [hcs]) (by intro h'; cases h'; exact hr hcs)]
          simp
        · intro x hx _
          exact h.oldRef x (by simp [hx]) (by intro h'; cases h'; exact hr hx)
        · rw [h.cut]
          constructor
          · rintro (hh | hh | ⟨x, dx, h1, h2, h3, h4⟩)
            · exact Or.inl hh
            · exact Or.inr (Or.inr ⟨r, d, h.mem (by simp), hr, hd, hh⟩)
            · exact Or.inr (Or.inr ⟨x, dx, h1, fun hh => h2 (by simp [hh]), h3, h4⟩)
          · rintro (hh | hh | ⟨x, dx, h1, h2, h3, h4⟩)
            · exact Or.inl hh
            · cases hh
            · by_cases e : x = r
              · subst e; rw [hd] at h3; cases h3
                exact Or.inr (Or.inl h4)
              · exact Or.inr (Or.inr ⟨x, dx, h1, by simp [h2, e], h3, h4⟩)
        · rw [h.opq]
          constructor
          · rintro (hh | hh | ⟨x, dx, h1, h2, h3, h4⟩)
            · exact Or.inl hh
            · exact Or.inr (Or.inr ⟨r, d, h.mem (by simp), hr, hd, hh⟩)
            · exact Or.inr (Or.inr ⟨x, dx, h1, fun hh => h2 (by simp [hh]), h3, h4⟩)
          · rintro (hh | hh | ⟨x, dx, h1, h2, h3, h4⟩)
            · exact Or.inl hh
            · cases hh
            · by_cases e : x = r
              · subst e; rw [hd] at h3; cases h3
                exact Or.inr (Or.inl h4)
              · exact Or.inr (Or.inr ⟨x, dx, h1, by simp [h2, e], h3, h4⟩)

/-! ## The numbering -/

theorem idOk_empty (rs : List Def) : IdOk rs {} := by
  refine ⟨List.nodup_nil, ?_, ?_⟩ <;> intro r hr <;> cases hr

/-- The rules an optional operator refers to. -/
def optUses (e : Option Ope) : List Nat := (e.map Ope.uses).getD []

def optCuts (e : Option Ope) : Bool := (e.map Ope.cuts).getD false

def optOpqs (e : Option Ope) : Bool := (e.map Ope.opqs).getD false

theorem visitOpt_ok {rs : List Def} (e : Option Ope) (s : IdSt) (ho : IdOk rs s) :
    ∃ m, Visits rs none (optUses e) m (optCuts e) (optOpqs e) s (visitOpt rs e s) := by
  cases e with
  | none => exact ⟨false, Visits.rfl' ho⟩
  | some e => exact ⟨_, visitIds_ok (visitRule_ok rs rs.length) none e s ho (by omega) (by intro c h; cases h)⟩

/-- The rules the numbering starts from. -/
def idRoots (start : Nat) (ws word : Option Ope) : List Nat := start :: (optUses ws ++ optUses word)

theorem initIds_ok (rs : List Def) (start : Nat) (ws word : Option Ope) :
    ∃ m, Visits rs none (idRoots start ws word) m (optCuts ws || optCuts word) (optOpqs ws || optOpqs word) {} (initIds rs start ws word) := by
  have hn : ∀ s : IdSt, ∀ c, (none : Option Nat) = some c → c ∈ s.order := by intro s c h; cases h
  have h1 := visitRule_ok rs rs.length none start {} (idOk_empty rs) (by simp) (hn _)
  obtain ⟨m2, h2⟩ := visitOpt_ok ws _ h1.ok
  have h12 := h1.trans (hn _) h2
  obtain ⟨m3, h3⟩ := visitOpt_ok word _ h12.ok
  refine ⟨m2 || m3, ?_⟩
  have := h12.trans (hn _) h3
  simpa [idRoots, initIds] using this

/-- The numbered rules are those reachable from the start rule, `%whitespace` and `%word`; -/
theorem initIds_mem (rs : List Def) (start : Nat) (ws word : Option Ope) (r : Nat) :
    r ∈ (initIds rs start ws word).order ↔ Reaches rs (idRoots start ws word) r := by
  obtain ⟨m, h⟩ := initIds_ok rs start ws word
  constructor
  · intro hr; exact h.reach r hr (by simp)
  · intro hr
    induction hr with
    | base h1 h2 => exact h.seen _ h1 h2
    | step _ h1 h2 h3 ih => exact h.closed _ _ ih (by simp) h1 _ h2 h3

/-- each is numbered once, -/
theorem initIds_nodup (rs : List Def) (start : Nat) (ws word : Option Ope) : (initIds rs start ws word).order.Nodup := by
  obtain ⟨m, h⟩ := initIds_ok rs start ws word
  exact h.ok.nodup

/-- and flagged when its body calls a macro; -/
theorem initIds_macroRef (rs : List Def) (start : Nat) (ws word : Option Ope) {r : Nat} {d : Def}
    (hr : r ∈ (initIds rs start ws word).order) (hd : rs[r]? = some d) :
    r ∈ (initIds rs start ws word).macroRef ↔ d.ope.callsMacro rs = true := by
  obtain ⟨m, h⟩ := initIds_ok rs start ws word
  exact h.newRef r d hr (by simp) hd

/-- the cut flag tells whether a reachable rule, `%whitespace` or `%word` contains a cut. -/
theorem initIds_cut (rs : List Def) (start : Nat) (ws word : Option Ope) :
    (initIds rs start ws word).hasCut = true ↔ (optCuts ws = true ∨ optCuts word = true) ∨
      ∃ (r : Nat) (d : Def), Reaches rs (idRoots start ws word) r ∧ rs[r]? = some d ∧ d.ope.cuts = true := by
  obtain ⟨m, h⟩ := initIds_ok rs start ws word
  rw [h.cut, Bool.or_eq_true]
  constructor
  · rintro (h' | h' | ⟨r, d, h1, h2, h3, h4⟩)
    · cases h'
    · exact Or.inl h'
    · exact Or.inr ⟨r, d, (initIds_mem ..).1 h1, h3, h4⟩
  · rintro (h' | ⟨r, d, h1, h3, h4⟩)
    · exact Or.inr (Or.inl h')
    · exact Or.inr (Or.inr ⟨r, d, (initIds_mem ..).2 h1, by simp, h3, h4⟩)

/-- the last flag tells whether one of them contains an operator that needs values. -/
theorem initIds_opq (rs : List Def) (start : Nat) (ws word : Option Ope) :
    (initIds rs start ws word).opq = true ↔ (optOpqs ws = true ∨ optOpqs word = true) ∨
      ∃ (r : Nat) (d : Def), Reaches rs (idRoots start ws word) r ∧ rs[r]? = some d ∧ d.ope.opqs = true := by
  obtain ⟨m, h⟩ := initIds_ok rs start ws word
  rw [h.opq, Bool.or_eq_true]
  constructor
  · rintro (h' | h' | ⟨r, d, h1, h2, h3, h4⟩)
    · cases h'
    · exact Or.inl h'
    · exact Or.inr ⟨r, d, (initIds_mem ..).1 h1, h3, h4⟩
  · rintro (h' | ⟨r, d, h1, h3, h4⟩)
    · exact Or.inr (Or.inl h')
    · exact Or.inr (Or.inr ⟨r, d, (initIds_mem ..).2 h1, by simp, h3, h4⟩)

/-! ## The shared fields of the rules -/

/-- peglib.h 3290-3306: `Definition::id` and `Definition::has_macro_ref` of all rules. -/
structure RuleMem where
  id : Nat → Nat := fun _ => 0
  macroRef : Nat → Bool := fun _ => true

/-- peglib.h 4338-4361: what the visitor writes into the rules. -/
def RuleMem.assign (m : RuleMem) (s : IdSt) : RuleMem where
  id r := if r ∈ s.order then s.order.idxOf r else m.id r
  macroRef r := if r ∈ s.order then decide (r ∈ s.macroRef) else m.macroRef r

theorem assign_id_mem (m : RuleMem) (s : IdSt) {r : Nat} (h : r ∈ s.order) : (m.assign s).id r = s.order.idxOf r := by
  simp only [RuleMem.assign, if_pos h]

theorem assign_id_lt (m : RuleMem) (s : IdSt) {r : Nat} (h : r ∈ s.order) : (m.assign s).id r < s.order.length := by
  rw [assign_id_mem m s h]; exact List.idxOf_lt_length_of_mem h

/-- Numbered rules have different numbers. -/
theorem assign_id_inj (m : RuleMem) (s : IdSt) {r r' : Nat} (h : r ∈ s.order) (h' : r' ∈ s.order)
    (e : (m.assign s).id r = (m.assign s).id r') : r = r' := by
  rw [assign_id_mem m s h, assign_id_mem m s h'] at e
  exact (List.idxOf_inj h).1 e

/-! ## The compact index (peglib.h 4905-4914) -/

/-- peglib.h 4905-4914: Positions marked in the filter get consecutive slots from `k` on. -/
def compact : List Bool → Nat → List (Option Nat)
  | [], _ => []
  | true :: bs, k => some k :: compact bs (k + 1)
  | false :: bs, k => none :: compact bs k

theorem compact_bounds (bs : List Bool) (k i s : Nat) (h : (compact bs k)[i]? = some (some s)) :
    k ≤ s ∧ s < k + bs.countP id := by
  induction bs generalizing k i with
  | nil => simp [compact] at h
  | cons b bs ih =>
    cases b with
    | false =>
      cases i with
      | zero => simp [compact] at h
      | succ i =>
        simp only [compact, List.getElem?_cons_succ] at h
        have := ih _ _ h
        simpa using this
    | true =>
      cases i with
      | zero =>
        simp only [compact, List.getElem?_cons_zero, Option.some.injEq] at h
        subst h; simp
      | succ i =>
        simp only [compact, List.getElem?_cons_succ] at h
        have := ih _ _ h
        simp only [List.countP_cons, id_eq, if_true]
        omega

theorem compact_inj (bs : List Bool) (k i j s : Nat) (hi : (compact bs k)[i]? = some (some s)) (hj : (compact bs k)[j]? = some (some s)) :
    i = j := by
  induction bs generalizing k i j with
  | nil => simp [compact] at hi
  | cons b bs ih =>
    cases b with
    | false =>
      cases i with
      | zero => simp [compact] at hi
      | succ i =>
        cases j with
        | zero => simp [compact] at hj
        | succ j =>
          simp only [compact, List.getElem?_cons_succ] at hi hj
          rw [ih _ _ _ hi hj]
    | true =>
      cases i with
      | zero =>
        simp only [compact, List.getElem?_cons_zero, Option.some.injEq] at hi
        subst hi
        cases j with
        | zero => rfl
        | succ j =>
          simp only [compact, List.getElem?_cons_succ] at hj
          have := (compact_bounds _ _ _ _ hj).1
          omega
      | succ i =>
        simp only [compact, List.getElem?_cons_succ] at hi
        cases j with
        | zero =>
          simp only [compact, List.getElem?_cons_zero, Option.some.injEq] at hj
          subst hj
          have := (compact_bounds _ _ _ _ hi).1
          omega
        | succ j =>
          simp only [compact, List.getElem?_cons_succ] at hj
          rw [ih _ _ _ hi hj]

/-- Marked positions are cached, the others are not. -/
theorem compact_get (bs : List Bool) (k i : Nat) : (∃ s, (compact bs k)[i]? = some (some s)) ↔ bs[i]? = some true := by
  induction bs generalizing k i with
  | nil => simp [compact]
  | cons b bs ih =>
    cases b <;> cases i <;> simp [compact, ih]
