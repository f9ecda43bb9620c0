/-!
# Expression trees

The specification of operator precedence, independent of the parser: binary trees whose inner nodes are operators with a level
(higher binds tighter) and an associativity, and what it means that a tree respects levels and associativity.

Theorems: for every sequence of operands and operators there is exactly one tree that respects them.
-/

namespace Verif

/-- An operator: its level, whether it is left-associative, and whatever else is known about it. -/
structure OpInfo (ω : Type) where
  level : Nat
  left : Bool
  data : ω

/-- Expressions with operands `α` and operators `ω`. -/
inductive ETree (α ω : Type) where
  | leaf (x : α)
  | node (l : ETree α ω) (o : OpInfo ω) (r : ETree α ω)

namespace ETree
variable {α ω : Type}

/-- The operators, from left to right. -/
def ops : ETree α ω → List (OpInfo ω)
  | leaf _ => []
  | node l o r => l.ops ++ o :: r.ops

/-- The leftmost operand. -/
def first : ETree α ω → α
  | leaf x => x
  | node l _ _ => l.first

/-- What follows the leftmost operand: operators and operands in turn, from left to right. -/
def tail : ETree α ω → List (OpInfo ω × α)
  | leaf _ => []
  | node l o r => l.tail ++ (o, r.first) :: r.tail

/-- **Specification.** Everything below an operator binds tighter than it does; operators of its own level may be on its left if they
associate to the left, and on its right if it associates to the right. -/
def Respects : ETree α ω → Prop
  | leaf _ => True
  | node l o r => l.Respects ∧ r.Respects ∧
      (∀ p ∈ l.ops, o.level < p.level ∨ (p.level = o.level ∧ p.left = true)) ∧
      (∀ p ∈ r.ops, o.level < p.level ∨ (p.level = o.level ∧ o.left = false))

theorem ops_tail : ∀ t : ETree α ω, t.ops = t.tail.map Prod.fst
  | leaf _ => rfl
  | node l o r => by simp [ops, tail, ops_tail l, ops_tail r]

/-- At most one tree: two trees that respect levels and associativity and read the same from left to right are equal. -/
theorem respects_unique : ∀ {t u : ETree α ω}, t.Respects → u.Respects → t.first = u.first → t.tail = u.tail → t = u
  | leaf x, leaf y, _, _, h, _ => by simp only [first] at h; rw [h]
  | leaf x, node l o r, _, _, _, h => by simp [tail] at h
  | node l o r, leaf x, _, _, _, h => by simp [tail] at h
  | node l o r, node l' o' r', ht, hu, hf, htl => by
    simp only [tail, first] at htl hf
    obtain ⟨h1, h2, h3, h4⟩ := ht
    obtain ⟨k1, k2, k3, k4⟩ := hu
    rcases List.append_eq_append_iff.mp htl with ⟨as, ha, hb⟩ | ⟨as, ha, hb⟩
    · cases as with
      | nil =>
        simp only [List.append_nil] at ha
        simp only [List.nil_append, List.cons.injEq, Prod.mk.injEq] at hb
        rw [respects_unique h1 k1 hf ha.symm, hb.1.1, respects_unique h2 k2 hb.1.2 hb.2]
      | cons a as =>
        exfalso
        simp only [List.cons_append, List.cons.injEq] at hb
        have hin : o ∈ l'.ops := by rw [ops_tail, ha]; simp [← hb.1]
        have hout : o' ∈ r.ops := by rw [ops_tail, hb.2]; simp
        rcases k3 o hin with p | ⟨p, p'⟩ <;> rcases h4 o' hout with q | ⟨q, q'⟩
        · omega
        · omega
        · omega
        · rw [p'] at q'; cases q'
    · cases as with
      | nil =>
        simp only [List.append_nil] at ha
        simp only [List.nil_append, List.cons.injEq, Prod.mk.injEq] at hb
        rw [respects_unique h1 k1 hf ha, ← hb.1.1, respects_unique h2 k2 hb.1.2.symm hb.2.symm]
      | cons a as =>
        exfalso
        simp only [List.cons_append, List.cons.injEq] at hb
        have hin : o' ∈ l.ops := by rw [ops_tail, ha]; simp [← hb.1]
        have hout : o ∈ r'.ops := by rw [ops_tail, hb.2]; simp
        rcases h3 o' hin with p | ⟨p, p'⟩ <;> rcases k4 o hout with q | ⟨q, q'⟩
        · omega
        · omega
        · omega
        · rw [p'] at q'; cases q'

/-- Append an operator and an operand on the right. -/
def push : ETree α ω → OpInfo ω → α → ETree α ω
  | leaf y, o, x => node (leaf y) o (leaf x)
  | node l p r, o, x =>
    if o.level < p.level ∨ (p.level = o.level ∧ p.left = true) then node (node l p r) o (leaf x) else node l p (r.push o x)

theorem first_push (o : OpInfo ω) (x : α) : ∀ t : ETree α ω, (t.push o x).first = t.first
  | leaf y => rfl
  | node l p r => by unfold push; split <;> rfl

theorem tail_push (o : OpInfo ω) (x : α) : ∀ t : ETree α ω, (t.push o x).tail = t.tail ++ [(o, x)]
  | leaf y => rfl
  | node l p r => by
    unfold push
    split
    · rfl
    · simp [tail, tail_push o x r, first_push]

theorem ops_push (o : OpInfo ω) (x : α) (t : ETree α ω) : (t.push o x).ops = t.ops ++ [o] := by
  rw [ops_tail, tail_push, ops_tail]; simp

theorem respects_push (o : OpInfo ω) (x : α) : ∀ t : ETree α ω, t.Respects → (t.push o x).Respects
  | leaf y, _ => ⟨trivial, trivial, (fun p h => by cases h), (fun p h => by cases h)⟩
  | node l p r, h => by
    unfold push
    obtain ⟨h1, h2, h3, h4⟩ := h
    split
    · rename_i hc
      refine ⟨⟨h1, h2, h3, h4⟩, trivial, ?_, (fun p h => by cases h)⟩
      intro q hq
      simp only [ops, List.mem_append, List.mem_cons] at hq
      rcases hq with hq | rfl | hq
      · rcases h3 q hq with a | ⟨a, a'⟩ <;> rcases hc with b | ⟨b, b'⟩
        · left; omega
        · left; omega
        · left; omega
        · right; exact ⟨by omega, a'⟩
      · exact hc
      · rcases h4 q hq with a | ⟨a, a'⟩ <;> rcases hc with b | ⟨b, b'⟩
        · left; omega
        · left; omega
        · left; omega
        · rw [a'] at b'; cases b'
    · rename_i hc
      refine ⟨h1, respects_push o x r h2, h3, ?_⟩
      intro q hq
      rw [ops_push] at hq
      simp only [List.mem_append, List.mem_singleton] at hq
      rcases hq with hq | rfl
      · exact h4 q hq
      · by_cases hl : p.level < q.level
        · exact .inl hl
        · have e : q.level = p.level := by
            have : ¬ q.level < p.level := fun h => hc (.inl h)
            omega
          refine .inr ⟨e, ?_⟩
          cases hp : p.left with
          | false => rfl
          | true => exact absurd (.inr ⟨e.symm, hp⟩) hc

/-- The tree of a sequence of operands and operators. -/
def build (x : α) (l : List (OpInfo ω × α)) : ETree α ω := l.foldl (fun t y => t.push y.1 y.2) (leaf x)

theorem build_spec (x : α) (l : List (OpInfo ω × α)) :
    (build x l).Respects ∧ (build x l).first = x ∧ (build x l).tail = l := by
  unfold build
  have key : ∀ (l : List (OpInfo ω × α)) (t : ETree α ω), t.Respects →
      (l.foldl (fun t y => t.push y.1 y.2) t).Respects ∧ (l.foldl (fun t y => t.push y.1 y.2) t).first = t.first ∧
      (l.foldl (fun t y => t.push y.1 y.2) t).tail = t.tail ++ l := by
    intro l
    induction l with
    | nil => intro t h; exact ⟨h, rfl, by simp⟩
    | cons y l ih =>
      intro t h
      obtain ⟨k1, k2, k3⟩ := ih (t.push y.1 y.2) (respects_push _ _ t h)
      exact ⟨k1, k2.trans (first_push _ _ _), by rw [List.foldl_cons, k3, tail_push]; simp⟩
  obtain ⟨h1, h2, h3⟩ := key l (leaf x) trivial
  exact ⟨h1, h2, by rw [h3]; rfl⟩

/-- **Exactly one tree** respects levels and associativity and reads `x`, `l` from left to right. -/
theorem exists_unique (x : α) (l : List (OpInfo ω × α)) :
    ∃ t : ETree α ω, (t.Respects ∧ t.first = x ∧ t.tail = l) ∧ ∀ u : ETree α ω, u.Respects → u.first = x → u.tail = l → u = t :=
  ⟨build x l, build_spec x l, fun u h1 h2 h3 =>
    respects_unique h1 (build_spec x l).1 (h2.trans (build_spec x l).2.1.symm) (h3.trans (build_spec x l).2.2.symm)⟩

end ETree
end Verif
