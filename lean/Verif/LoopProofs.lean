import Verif.NullProofs
/-!
# What `DetectInfiniteLoop` guarantees
-/

namespace Verif

mutual
/-- The rules an expression refers to, anywhere inside. -/
def Ope.refs : Ope → List Nat
  | .seq es _ => Ope.refsL es
  | .cho es _ _ => Ope.refsL es
  | .rep e _ _ _ => e.refs
  | .and_ e => e.refs
  | .not_ e => e.refs
  | .capScope e => e.refs
  | .cap _ e => e.refs
  | .tok e => e.refs
  | .ign e => e.refs
  | .ws e => e.refs
  | .ref r _ as => r :: Ope.refsL as
  | .recov r _ as => r :: Ope.refsL as
  | .prec a b _ _ => a.refs ++ b.refs
  | _ => []

def Ope.refsL : List Ope → List Nat
  | [] => []
  | e :: es => e.refs ++ Ope.refsL es
end

/-- Rule `r` refers to rule `q`, directly or through other rules. -/
inductive Reach (rules : List Def) : Nat → Nat → Prop where
  | edge {r d q} : rules[r]? = some d → q ∈ d.ope.refs → Reach rules r q
  | trans {r p q} : Reach rules r p → Reach rules p q → Reach rules r q

/-- One node: nothing the nullability analysis gets wrong, no empty sequence, no label choice, no macro call, no operator
expression, no recovery. -/
def cleanNode (z : Ope → Bool) (t : Nat → Bool) : Ope → Bool
  | .seq es _ => !es.isEmpty
  | .cho es l _ => !l && !es.isEmpty
  | .rep e mn _ _ => mn == 0 || !cbe t e
  | .and_ _ => true
  | .not_ _ => true
  | .dict .. => true
  | .lit .. => true
  | .cls c => !z (.cls c)
  | .chr c => !z (.chr c)
  | .dot => !z .dot
  | .capScope _ => true
  | .cap .. => true
  | .tok _ => true
  | .ign _ => true
  | .ref _ _ as => as.isEmpty
  | _ => false

/-- References carry the name of the rule they refer to. -/
def namedNode (rules : List Def) : Ope → Bool
  | .ref r nm _ =>
    match rules[r]? with
    | none => false
    | some d => d.name == nm
  | _ => true

/-- The operator consumes something whenever it matches, whatever the grammar. -/
def Ope.solid : Ope → Bool
  | .dict .. => true
  | .lit s _ => !s.isEmpty
  | .cls _ => true
  | .chr _ => true
  | .dot => true
  | _ => false

/-- Simple expressions: unbounded repetitions only of single terminals, and references only to simple rules. -/
def simpleNode (sm : Nat → Bool) : Ope → Bool
  | .rep e _ none _ => e.solid
  | .ref r _ _ => sm r
  | _ => true

mutual
/-- `p` at every node (references have no arguments). -/
def Ope.every (p : Ope → Bool) : Ope → Bool
  | .seq es kw => p (.seq es kw) && Ope.everyL p es
  | .cho es l fs => p (.cho es l fs) && Ope.everyL p es
  | .rep e mn mx sp => p (.rep e mn mx sp) && e.every p
  | .and_ e => p (.and_ e) && e.every p
  | .not_ e => p (.not_ e) && e.every p
  | .capScope e => p (.capScope e) && e.every p
  | .cap nm e => p (.cap nm e) && e.every p
  | .tok e => p (.tok e) && e.every p
  | .ign e => p (.ign e) && e.every p
  | e => p e

def Ope.everyL (p : Ope → Bool) : List Ope → Bool
  | [] => true
  | e :: es => e.every p && Ope.everyL p es
end

mutual
/-- An expression that may be repeated without bound so that the analysis sees all of it: every alternative begins with a simple
part, up to and including the first element that consumes something; a final element, and a rule standing for an alternative,
may be of this kind again (`gd`). -/
def guardB (t sm gd : Nat → Bool) : Ope → Bool
  | .seq es _ => guardSeq t sm gd es
  | .cho es _ _ => guardAll t sm gd es
  | .rep e mn _ _ => mn == 0 || guardB t sm gd e
  | .capScope e => guardB t sm gd e
  | .cap _ e => guardB t sm gd e
  | .tok e => guardB t sm gd e
  | .ign e => guardB t sm gd e
  | .ref r _ _ => sm r || gd r
  | _ => true

def guardSeq (t sm gd : Nat → Bool) : List Ope → Bool
  | [] => true
  | [e] => guardB t sm gd e
  | e :: e' :: es => e.every (simpleNode sm) && (!cbe t e || guardSeq t sm gd (e' :: es))

def guardAll (t sm gd : Nat → Bool) : List Ope → Bool
  | [] => true
  | e :: es => guardB t sm gd e && guardAll t sm gd es
end

/-- Unbounded repetitions are of guarded expressions. -/
def loopNode (t sm gd : Nat → Bool) : Ope → Bool
  | .rep e _ none _ => guardB t sm gd e
  | _ => true

/-- Unbounded repetitions are of expressions that are not flagged as possibly empty. -/
def safeNode (t : Nat → Bool) : Ope → Bool
  | .rep e _ none _ => !cbe t e
  | _ => true

structure LoopHyp (rules : List Def) (z : Ope → Bool) (t sm gd : Nat → Bool) : Prop where
  fix : ∀ r d, rules[r]? = some d → t r = cbe t d.ope
  clean : ∀ (r : Nat) (d : Def), rules[r]? = some d → d.ope.every (cleanNode z t) = true
  named : ∀ (r : Nat) (d : Def), rules[r]? = some d → d.ope.every (namedNode rules) = true
  inj : ∀ (r r' : Nat) (d d' : Def), rules[r]? = some d → rules[r']? = some d' → d.name = d'.name → r = r'
  nullRec : ∀ r, t r = true → ¬ Reach rules r r
  simple : ∀ (r : Nat) (d : Def), rules[r]? = some d → sm r = true → d.ope.every (simpleNode sm) = true
  guarded : ∀ (r : Nat) (d : Def), rules[r]? = some d → gd r = true → guardB t sm gd d.ope = true
  loops : ∀ (r : Nat) (d : Def), rules[r]? = some d → d.ope.every (loopNode t sm gd) = true

section
variable {rules : List Def} {z : Ope → Bool} {t sm gd : Nat → Bool}

/-- The rule's name is on the path. -/
def OnPath (rules : List Def) (path : List (List Byte)) (r : Nat) : Prop := ∃ d, rules[r]? = some d ∧ d.name ∈ path

/-- The path: names of different rules, not too many for the remaining depth `n`; every rule on it refers to whatever the
expression refers to. -/
structure PathOk (rules : List Def) (n : Nat) (path : List (List Byte)) (rs : List Nat) : Prop where
  nodup : path.Nodup
  sub : ∀ nm ∈ path, nm ∈ rules.map Def.name
  len : rules.length < path.length + n
  reach : ∀ p, OnPath rules path p → ∀ q ∈ rs, Reach rules p q

theorem PathOk.of {n : Nat} {path : List (List Byte)} {rs rs' : List Nat} (h : PathOk rules n path rs) (hs : ∀ q ∈ rs', q ∈ rs) :
    PathOk rules n path rs' := ⟨h.nodup, h.sub, h.len, fun p hp q hq => h.reach p hp q (hs q hq)⟩

theorem nodup_sub_length {α : Type} [DecidableEq α] : ∀ {l m : List α}, l.Nodup → (∀ x ∈ l, x ∈ m) → l.length ≤ m.length
  | [], _, _, _ => Nat.zero_le _
  | a :: l, m, hn, hs => by
    rw [List.nodup_cons] at hn
    have h1 := nodup_sub_length (m := m.erase a) hn.2 (by
      intro x hx
      have hxa : x ≠ a := by rintro rfl; exact hn.1 hx
      exact (List.mem_erase_of_ne hxa).mpr (hs x (List.mem_cons_of_mem _ hx)))
    have ha := hs a List.mem_cons_self
    rw [List.length_erase_of_mem ha] at h1
    have := List.length_pos_of_mem ha
    simp only [List.length_cons]
    omega

theorem PathOk.pos {path : List (List Byte)} {rs : List Nat} (h : PathOk rules 0 path rs) : False := by
  have := nodup_sub_length h.nodup h.sub
  have := h.len
  simp at *
  omega

/-- The invariant: `F` are the rules known to be safe, whose references are in `F`, on the path, or simple. -/
structure LoopInv (rules : List Def) (t sm : Nat → Bool) (c : LoopCache) (path : List (List Byte)) (F : Nat → Prop) : Prop where
  cache : ∀ (r : Nat) (d : Def), rules[r]? = some d → c.lookup d.name = some false → F r ∨ sm r = true
  simple : ∀ (r : Nat) (d : Def), rules[r]? = some d → sm r = true → c.lookup d.name ≠ some true
  safe : ∀ (r : Nat) (d : Def), F r → rules[r]? = some d → d.ope.every (safeNode t) = true ∧
    ∀ q ∈ d.ope.refs, F q ∨ OnPath rules path q ∨ sm q = true

/-- What is known of an expression that has been visited without error. -/
structure Seen (rules : List Def) (t sm : Nat → Bool) (path : List (List Byte)) (F : Nat → Prop) (safe : Bool) (rs : List Nat) :
    Prop where
  safe : safe = true
  refs : ∀ q ∈ rs, F q ∨ OnPath rules path q ∨ sm q = true

theorem Seen.mono {path : List (List Byte)} {F F' : Nat → Prop} {b : Bool} {rs : List Nat} (h : Seen rules t sm path F b rs)
    (hF : ∀ r, F r → F' r) : Seen rules t sm path F' b rs :=
  ⟨h.safe, fun q hq => (h.refs q hq).imp (hF q) id⟩

/-- What a visit of a simple expression does. -/
structure SimpleOut (rules : List Def) (t sm : Nat → Bool) (path : List (List Byte)) (F : Nat → Prop) (x : Bool × LoopCache)
    (b : Bool) : Prop where
  res : x.1 = b
  inv : LoopInv rules t sm x.2 path F

/-- What a visit without error does. -/
def GuardOut (rules : List Def) (t sm : Nat → Bool) (path : List (List Byte)) (F : Nat → Prop) (x : Bool × LoopCache)
    (nul safe : Bool) (rs : List Nat) : Prop :=
  x.1 = false → nul = false ∧ ∃ F' : Nat → Prop, (∀ r, F r → F' r) ∧ LoopInv rules t sm x.2 path F' ∧
    Seen rules t sm path F' safe rs

/-- What visits of other rules do. -/
structure RecOk (rules : List Def) (t sm gd : Nat → Bool) (n : Nat) (R : LoopRec) : Prop where
  heS : ∀ path r d c F, rules[r]? = some d → sm r = true → PathOk rules n path d.ope.refs → LoopInv rules t sm c path F →
    SimpleOut rules t sm path F (R.he path r c) (t r)
  dilS : ∀ path r d c F, rules[r]? = some d → sm r = true → PathOk rules n path d.ope.refs → LoopInv rules t sm c path F →
    SimpleOut rules t sm path F (R.dil path r false c) false
  heG : ∀ path r d c F, rules[r]? = some d → gd r = true → PathOk rules n path d.ope.refs → LoopInv rules t sm c path F →
    GuardOut rules t sm path F (R.he path r c) (t r) (d.ope.every (safeNode t)) d.ope.refs
  dilG : ∀ path r d c F, rules[r]? = some d → PathOk rules n path d.ope.refs → LoopInv rules t sm c path F →
    GuardOut rules t sm path F (R.dil path r false c) false (d.ope.every (safeNode t)) d.ope.refs

/-! ### Entering and leaving a rule -/

theorem onPath_snoc {path : List (List Byte)} {nm : List Byte} {r q : Nat} {d : Def} (H : LoopHyp rules z t sm gd)
    (hd : rules[r]? = some d) (hn : d.name = nm) : OnPath rules (path ++ [nm]) q ↔ OnPath rules path q ∨ q = r := by
  constructor
  · rintro ⟨d', hd', hm⟩
    rcases List.mem_append.mp hm with hm | hm
    · exact .inl ⟨d', hd', hm⟩
    · right
      exact H.inj _ _ _ _ hd' hd (by rw [List.mem_singleton.mp hm, hn])
  · rintro (⟨d', hd', hm⟩ | rfl)
    · exact ⟨d', hd', List.mem_append_left _ hm⟩
    · exact ⟨d, hd, by simp [hn]⟩

theorem PathOk.enter {n : Nat} {path : List (List Byte)} {nm : List Byte} {r : Nat} {d : Def} (H : LoopHyp rules z t sm gd)
    (h : PathOk rules (n + 1) path [r]) (hd : rules[r]? = some d) (hn : d.name = nm) (hm : nm ∉ path) :
    PathOk rules n (path ++ [nm]) d.ope.refs where
  nodup := by
    rw [List.nodup_append]
    refine ⟨h.nodup, by simp, ?_⟩
    intro a ha b hb
    rw [List.mem_singleton.mp hb]
    rintro rfl
    exact hm ha
  sub := by
    intro x hx
    rcases List.mem_append.mp hx with hx | hx
    · exact h.sub x hx
    · rw [List.mem_singleton.mp hx, ← hn]
      exact List.mem_map_of_mem (List.mem_of_getElem? hd)
  len := by have := h.len; simp; omega
  reach := by
    intro p hp q hq
    rcases (onPath_snoc H hd hn).mp hp with hp | rfl
    · exact (h.reach p hp r (by simp)).trans (.edge hd hq)
    · exact .edge hd hq

theorem LoopInv.enter {c : LoopCache} {path : List (List Byte)} {F : Nat → Prop} {nm : List Byte}
    (h : LoopInv rules t sm c path F) : LoopInv rules t sm c (path ++ [nm]) F where
  cache := h.cache
  simple := h.simple
  safe := fun r d hF hd => ⟨(h.safe r d hF hd).1, fun q hq => ((h.safe r d hF hd).2 q hq).imp id (Or.imp
    (fun ⟨d', hd', hm⟩ => ⟨d', hd', List.mem_append_left _ hm⟩) id)⟩

/-- Leaving a simple rule. -/
theorem LoopInv.leaveS {c : LoopCache} {path : List (List Byte)} {F : Nat → Prop} {nm : List Byte} {r : Nat} {d : Def}
    (H : LoopHyp rules z t sm gd) (hd : rules[r]? = some d) (hn : d.name = nm) (hs : sm r = true)
    (h : LoopInv rules t sm c (path ++ [nm]) F) : LoopInv rules t sm c path F where
  cache := h.cache
  simple := h.simple
  safe := fun r' d' hF hd' => ⟨(h.safe r' d' hF hd').1, fun q hq => by
    rcases (h.safe r' d' hF hd').2 q hq with h1 | h1 | h1
    · exact .inl h1
    · rcases (onPath_snoc H hd hn).mp h1 with h1 | rfl
      · exact .inr (.inl h1)
      · exact .inr (.inr hs)
    · exact .inr (.inr h1)⟩

theorem lookup_cons {nm nm' : List Byte} {b : Bool} {c : LoopCache} :
    List.lookup nm' ((nm, b) :: c) = if nm' = nm then some b else List.lookup nm' c := by
  rw [List.lookup_cons]
  by_cases h : nm' = nm
  · simp [h]
  · have : (nm' == nm) = false := by simpa using h
    rw [this, if_neg h]

theorem LoopInv.cacheS {c : LoopCache} {path : List (List Byte)} {F : Nat → Prop} {nm : List Byte} {r : Nat} {d : Def}
    (H : LoopHyp rules z t sm gd) (hd : rules[r]? = some d) (hn : d.name = nm) (hr : F r ∨ sm r = true)
    (h : LoopInv rules t sm c path F) : LoopInv rules t sm ((nm, false) :: c) path F where
  cache := by
    intro r' d' hd' hl
    rw [lookup_cons] at hl
    split at hl
    · rename_i he
      have := H.inj _ _ _ _ hd' hd (he.trans hn.symm)
      subst this
      exact hr
    · exact h.cache r' d' hd' hl
  simple := by
    intro r' d' hd' hs
    rw [lookup_cons]
    split
    · simp
    · exact h.simple r' d' hd' hs
  safe := h.safe

/-- Leaving a rule that was seen to be safe. -/
theorem LoopInv.leaveG {c : LoopCache} {path : List (List Byte)} {F : Nat → Prop} {nm : List Byte} {r : Nat} {d : Def}
    (H : LoopHyp rules z t sm gd) (hd : rules[r]? = some d) (hn : d.name = nm)
    (hs : Seen rules t sm (path ++ [nm]) F (d.ope.every (safeNode t)) d.ope.refs)
    (h : LoopInv rules t sm c (path ++ [nm]) F) : LoopInv rules t sm c path (fun q => F q ∨ q = r) where
  cache := fun r' d' hd' hl => (h.cache r' d' hd' hl).imp .inl id
  simple := h.simple
  safe := by
    have key : ∀ q, (F q ∨ OnPath rules (path ++ [nm]) q ∨ sm q = true) → (F q ∨ q = r) ∨ OnPath rules path q ∨ sm q = true := by
      rintro q (h1 | h1 | h1)
      · exact .inl (.inl h1)
      · rcases (onPath_snoc H hd hn).mp h1 with h1 | h1
        · exact .inr (.inl h1)
        · exact .inl (.inr h1)
      · exact .inr (.inr h1)
    rintro r' d' (hF | rfl) hd'
    · exact ⟨(h.safe r' d' hF hd').1, fun q hq => key q ((h.safe r' d' hF hd').2 q hq)⟩
    · rw [hd] at hd'; cases hd'
      exact ⟨hs.safe, fun q hq => key q (hs.refs q hq)⟩

/-! ### Simple expressions -/

mutual
theorem simple_refs : ∀ (e : Ope), e.every (cleanNode z t) = true → e.every (simpleNode sm) = true → ∀ q ∈ e.refs, sm q = true
  | .seq es _, hc, h => by
    simp only [Ope.every, Bool.and_eq_true] at hc h; simp only [Ope.refs]; exact simple_refsL es hc.2 h.2
  | .cho es _ _, hc, h => by
    simp only [Ope.every, Bool.and_eq_true] at hc h; simp only [Ope.refs]; exact simple_refsL es hc.2 h.2
  | .rep e _ _ _, hc, h => by
    simp only [Ope.every, Bool.and_eq_true] at hc h; simp only [Ope.refs]; exact simple_refs e hc.2 h.2
  | .and_ e, hc, h => by
    simp only [Ope.every, Bool.and_eq_true] at hc h; simp only [Ope.refs]; exact simple_refs e hc.2 h.2
  | .not_ e, hc, h => by
    simp only [Ope.every, Bool.and_eq_true] at hc h; simp only [Ope.refs]; exact simple_refs e hc.2 h.2
  | .capScope e, hc, h => by
    simp only [Ope.every, Bool.and_eq_true] at hc h; simp only [Ope.refs]; exact simple_refs e hc.2 h.2
  | .cap _ e, hc, h => by
    simp only [Ope.every, Bool.and_eq_true] at hc h; simp only [Ope.refs]; exact simple_refs e hc.2 h.2
  | .tok e, hc, h => by
    simp only [Ope.every, Bool.and_eq_true] at hc h; simp only [Ope.refs]; exact simple_refs e hc.2 h.2
  | .ign e, hc, h => by
    simp only [Ope.every, Bool.and_eq_true] at hc h; simp only [Ope.refs]; exact simple_refs e hc.2 h.2
  | .ref r nm as, hc, h => by
    simp only [Ope.every, cleanNode, simpleNode, List.isEmpty_iff] at hc h
    subst hc
    simpa [Ope.refs, Ope.refsL] using h
  | .dict .., _, _ => by simp [Ope.refs]
  | .lit .., _, _ => by simp [Ope.refs]
  | .cls _, _, _ => by simp [Ope.refs]
  | .chr _, _, _ => by simp [Ope.refs]
  | .dot, _, _ => by simp [Ope.refs]
  | .usr _, _, _ => by simp [Ope.refs]
  | .weak _, _, _ => by simp [Ope.refs]
  | .param .., _, _ => by simp [Ope.refs]
  | .bref _, _, _ => by simp [Ope.refs]
  | .cut, _, _ => by simp [Ope.refs]
  | .null, _, _ => by simp [Ope.refs]
  | .ws e, hc, _ => by simp [Ope.every, cleanNode] at hc
  | .prec .., hc, _ => by simp [Ope.every, cleanNode] at hc
  | .recov .., hc, _ => by simp [Ope.every, cleanNode] at hc

theorem simple_refsL : ∀ (es : List Ope), Ope.everyL (cleanNode z t) es = true → Ope.everyL (simpleNode sm) es = true →
    ∀ q ∈ Ope.refsL es, sm q = true
  | [], _, _ => by simp [Ope.refsL]
  | e :: es, hc, h => by
    simp only [Ope.everyL, Bool.and_eq_true] at hc h
    intro q hq
    simp only [Ope.refsL, List.mem_append] at hq
    exact hq.elim (simple_refs e hc.1 h.1 q) (simple_refsL es hc.2 h.2 q)
end

theorem solid_cbe {e : Ope} (h : e.solid = true) : cbe t e = false := by
  cases e <;> simp_all [Ope.solid, cbe]

theorem solid_he {e : Ope} (h : e.solid = true) (R : LoopRec) (path : List (List Byte)) (c : LoopCache) :
    he R path e c = (false, c) := by
  cases e <;> simp_all [Ope.solid, he]

mutual
theorem simple_safe : ∀ (e : Ope), e.every (simpleNode sm) = true → e.every (safeNode t) = true
  | .seq es _, h => by
    simp only [Ope.every, Bool.and_eq_true] at h ⊢; exact ⟨rfl, simple_safeL es h.2⟩
  | .cho es _ _, h => by
    simp only [Ope.every, Bool.and_eq_true] at h ⊢; exact ⟨rfl, simple_safeL es h.2⟩
  | .rep e mn mx sp, h => by
    simp only [Ope.every, Bool.and_eq_true] at h ⊢
    refine ⟨?_, simple_safe e h.2⟩
    cases mx with
    | none => simp only [simpleNode] at h; simp only [safeNode, solid_cbe h.1, Bool.not_false]
    | some _ => rfl
  | .and_ e, h => by simp only [Ope.every, Bool.and_eq_true] at h ⊢; exact ⟨rfl, simple_safe e h.2⟩
  | .not_ e, h => by simp only [Ope.every, Bool.and_eq_true] at h ⊢; exact ⟨rfl, simple_safe e h.2⟩
  | .capScope e, h => by simp only [Ope.every, Bool.and_eq_true] at h ⊢; exact ⟨rfl, simple_safe e h.2⟩
  | .cap _ e, h => by simp only [Ope.every, Bool.and_eq_true] at h ⊢; exact ⟨rfl, simple_safe e h.2⟩
  | .tok e, h => by simp only [Ope.every, Bool.and_eq_true] at h ⊢; exact ⟨rfl, simple_safe e h.2⟩
  | .ign e, h => by simp only [Ope.every, Bool.and_eq_true] at h ⊢; exact ⟨rfl, simple_safe e h.2⟩
  | .ref .., _ => rfl
  | .dict .., _ => rfl
  | .lit .., _ => rfl
  | .cls _, _ => rfl
  | .chr _, _ => rfl
  | .dot, _ => rfl
  | .usr _, _ => rfl
  | .weak _, _ => rfl
  | .param .., _ => rfl
  | .bref _, _ => rfl
  | .cut, _ => rfl
  | .null, _ => rfl
  | .ws e, _ => rfl
  | .prec .., _ => rfl
  | .recov .., _ => rfl

theorem simple_safeL : ∀ (es : List Ope), Ope.everyL (simpleNode sm) es = true → Ope.everyL (safeNode t) es = true
  | [], _ => rfl
  | e :: es, h => by
    simp only [Ope.everyL, Bool.and_eq_true] at h ⊢
    exact ⟨simple_safe e h.1, simple_safeL es h.2⟩
end

theorem named_ref {r : Nat} {nm : List Byte} {as : List Ope} (h : namedNode rules (.ref r nm as) = true) :
    ∃ d, rules[r]? = some d ∧ d.name = nm := by
  simp only [namedNode] at h
  cases hd : rules[r]? with
  | none => rw [hd] at h; cases h
  | some d => rw [hd] at h; exact ⟨d, rfl, by simpa using h⟩

/-- A rule on the path is recursive, so it is not flagged. -/
theorem onPath_not_null {n : Nat} {path : List (List Byte)} {r : Nat} {rs : List Nat} (H : LoopHyp rules z t sm gd)
    (hp : PathOk rules n path rs) (hr : r ∈ rs) (ho : OnPath rules path r) : t r = false := by
  cases h : t r with
  | false => rfl
  | true => exact absurd (hp.reach r ho r hr) (H.nullRec r h)

variable {n : Nat} {R : LoopRec} {path : List (List Byte)} {F : Nat → Prop}

mutual
theorem heS (H : LoopHyp rules z t sm gd) (hR : RecOk rules t sm gd n R) : ∀ (e : Ope) (c : LoopCache),
    e.every (cleanNode z t) = true → e.every (namedNode rules) = true → e.every (simpleNode sm) = true →
    PathOk rules (n + 1) path e.refs → LoopInv rules t sm c path F → SimpleOut rules t sm path F (he R path e c) (cbe t e)
  | .seq es _, c, hc, hn, hs, hp, hi => by
    simp only [Ope.every, Bool.and_eq_true] at hc hn hs
    simp only [he, cbe]
    exact heSeqS H hR es c false (by simpa [cleanNode] using hc.1) hc.2 hn.2 hs.2 hp hi
  | .cho es _ _, c, hc, hn, hs, hp, hi => by
    simp only [Ope.every, Bool.and_eq_true] at hc hn hs
    simp only [he, cbe]
    exact heChoS H hR es c hc.2 hn.2 hs.2 hp hi
  | .rep e mn _ _, c, hc, hn, hs, hp, hi => by
    simp only [Ope.every, Bool.and_eq_true] at hc hn hs
    simp only [he, cbe]
    by_cases h0 : mn = 0
    · rw [if_pos h0, h0]; exact ⟨rfl, hi⟩
    · rw [if_neg h0]
      have h1 := heS H hR e c hc.2 hn.2 hs.2 hp hi
      have h2 : cbe t e = false := by
        have := hc.1
        simp only [cleanNode, Bool.or_eq_true, beq_iff_eq, Bool.not_eq_true'] at this
        exact this.resolve_left h0
      have h3 : (mn == 0) = false := by simpa using h0
      rw [h3]; rw [h2] at h1
      exact h1
  | .and_ e, c, _, _, _, _, hi => ⟨rfl, hi⟩
  | .not_ e, c, _, _, _, _, hi => ⟨rfl, hi⟩
  | .dict .., c, _, _, _, _, hi => ⟨rfl, hi⟩
  | .lit s _, c, _, _, _, _, hi => by simp only [he, cbe]; exact ⟨rfl, hi⟩
  | .cls _, c, _, _, _, _, hi => ⟨rfl, hi⟩
  | .chr _, c, _, _, _, _, hi => ⟨rfl, hi⟩
  | .dot, c, _, _, _, _, hi => ⟨rfl, hi⟩
  | .capScope e, c, hc, hn, hs, hp, hi => by
    simp only [Ope.every, Bool.and_eq_true] at hc hn hs; simp only [he, cbe]; exact heS H hR e c hc.2 hn.2 hs.2 hp hi
  | .cap _ e, c, hc, hn, hs, hp, hi => by
    simp only [Ope.every, Bool.and_eq_true] at hc hn hs; simp only [he, cbe]; exact heS H hR e c hc.2 hn.2 hs.2 hp hi
  | .tok e, c, hc, hn, hs, hp, hi => by
    simp only [Ope.every, Bool.and_eq_true] at hc hn hs; simp only [he, cbe]; exact heS H hR e c hc.2 hn.2 hs.2 hp hi
  | .ign e, c, hc, hn, hs, hp, hi => by
    simp only [Ope.every, Bool.and_eq_true] at hc hn hs; simp only [he, cbe]; exact heS H hR e c hc.2 hn.2 hs.2 hp hi
  | .ref r nm as, c, hc, hn, hs, hp, hi => by
    simp only [Ope.every] at hc hn hs
    simp only [simpleNode] at hs
    obtain ⟨d, hd, hnm⟩ := named_ref hn
    simp only [he, cbe, heRef]
    by_cases hm : nm ∈ path
    · rw [if_pos hm, onPath_not_null H hp (by simp [Ope.refs]) ⟨d, hd, hnm ▸ hm⟩]
      exact ⟨rfl, hi⟩
    · rw [if_neg hm]
      have h1 := hR.heS _ _ _ c F hd hs ((hp.of (by simp [Ope.refs])).enter H hd hnm hm) hi.enter
      exact ⟨h1.res, h1.inv.leaveS H hd hnm hs⟩
  | .usr _, _, hc, _, _, _, _ => by simp [Ope.every, cleanNode] at hc
  | .weak _, _, hc, _, _, _, _ => by simp [Ope.every, cleanNode] at hc
  | .param .., _, hc, _, _, _, _ => by simp [Ope.every, cleanNode] at hc
  | .ws _, _, hc, _, _, _, _ => by simp [Ope.every, cleanNode] at hc
  | .bref _, _, hc, _, _, _, _ => by simp [Ope.every, cleanNode] at hc
  | .prec .., _, hc, _, _, _, _ => by simp [Ope.every, cleanNode] at hc
  | .recov .., _, hc, _, _, _, _ => by simp [Ope.every, cleanNode] at hc
  | .cut, _, hc, _, _, _, _ => by simp [Ope.every, cleanNode] at hc
  | .null, _, hc, _, _, _, _ => by simp [Ope.every, cleanNode] at hc

theorem heSeqS (H : LoopHyp rules z t sm gd) (hR : RecOk rules t sm gd n R) : ∀ (es : List Ope) (c : LoopCache) (save : Bool),
    (es = [] → save = true) → Ope.everyL (cleanNode z t) es = true → Ope.everyL (namedNode rules) es = true →
    Ope.everyL (simpleNode sm) es = true → PathOk rules (n + 1) path (Ope.refsL es) → LoopInv rules t sm c path F →
    SimpleOut rules t sm path F (heSeq R path save es c) (cbeAll t es)
  | [], c, save, h0, _, _, _, _, hi => by rw [h0 rfl]; exact ⟨rfl, hi⟩
  | e :: es, c, save, _, hc, hn, hs, hp, hi => by
    simp only [Ope.everyL, Bool.and_eq_true] at hc hn hs
    have h1 := heS H hR e c hc.1 hn.1 hs.1 (hp.of (by simp +contextual [Ope.refsL])) hi
    simp only [heSeq, cbeAll]
    rw [h1.res]
    cases hb : cbe t e with
    | true =>
      simp only [if_true, Bool.true_and]
      exact heSeqS H hR es _ true (fun _ => rfl) hc.2 hn.2 hs.2 (hp.of (by simp +contextual [Ope.refsL])) h1.inv
    | false =>
      simp only [Bool.false_eq_true, if_false, Bool.false_and]
      exact dilRestS H hR es _ hc.2 hn.2 hs.2 (hp.of (by simp +contextual [Ope.refsL])) h1.inv

theorem heChoS (H : LoopHyp rules z t sm gd) (hR : RecOk rules t sm gd n R) : ∀ (es : List Ope) (c : LoopCache),
    Ope.everyL (cleanNode z t) es = true → Ope.everyL (namedNode rules) es = true →
    Ope.everyL (simpleNode sm) es = true → PathOk rules (n + 1) path (Ope.refsL es) → LoopInv rules t sm c path F →
    SimpleOut rules t sm path F (heCho R path es c) (cbeAny t es)
  | [], c, _, _, _, _, hi => ⟨rfl, hi⟩
  | e :: es, c, hc, hn, hs, hp, hi => by
    simp only [Ope.everyL, Bool.and_eq_true] at hc hn hs
    have h1 := heS H hR e c hc.1 hn.1 hs.1 (hp.of (by simp +contextual [Ope.refsL])) hi
    simp only [heCho, cbeAny]
    rw [h1.res]
    cases hb : cbe t e with
    | true =>
      simp only [if_true, Bool.true_or]
      rw [hb] at h1
      exact h1
    | false =>
      simp only [Bool.false_eq_true, if_false, Bool.false_or]
      exact heChoS H hR es _ hc.2 hn.2 hs.2 (hp.of (by simp +contextual [Ope.refsL])) h1.inv

theorem dilRestS (H : LoopHyp rules z t sm gd) (hR : RecOk rules t sm gd n R) : ∀ (es : List Ope) (c : LoopCache),
    Ope.everyL (cleanNode z t) es = true → Ope.everyL (namedNode rules) es = true →
    Ope.everyL (simpleNode sm) es = true → PathOk rules (n + 1) path (Ope.refsL es) → LoopInv rules t sm c path F →
    SimpleOut rules t sm path F (dilRest R path es c) false
  | [], c, _, _, _, _, hi => ⟨rfl, hi⟩
  | e :: es, c, hc, hn, hs, hp, hi => by
    simp only [Ope.everyL, Bool.and_eq_true] at hc hn hs
    have h1 := dilS H hR e c hc.1 hn.1 hs.1 (hp.of (by simp +contextual [Ope.refsL])) hi
    have h2 := dilRestS H hR es _ hc.2 hn.2 hs.2 (hp.of (by simp +contextual [Ope.refsL])) h1.inv
    simp only [dilRest]
    exact ⟨by rw [h1.res, h2.res]; rfl, h2.inv⟩

theorem dilAllS (H : LoopHyp rules z t sm gd) (hR : RecOk rules t sm gd n R) : ∀ (es : List Ope) (c : LoopCache),
    Ope.everyL (cleanNode z t) es = true → Ope.everyL (namedNode rules) es = true →
    Ope.everyL (simpleNode sm) es = true → PathOk rules (n + 1) path (Ope.refsL es) → LoopInv rules t sm c path F →
    SimpleOut rules t sm path F (dilAll R path false es c) false
  | [], c, _, _, _, _, hi => ⟨rfl, hi⟩
  | e :: es, c, hc, hn, hs, hp, hi => by
    simp only [Ope.everyL, Bool.and_eq_true] at hc hn hs
    have h1 := dilS H hR e c hc.1 hn.1 hs.1 (hp.of (by simp +contextual [Ope.refsL])) hi
    have h2 := dilAllS H hR es _ hc.2 hn.2 hs.2 (hp.of (by simp +contextual [Ope.refsL])) h1.inv
    simp only [dilAll]
    rw [h1.res]
    simp only [Bool.false_eq_true, if_false]
    exact h2

theorem dilS (H : LoopHyp rules z t sm gd) (hR : RecOk rules t sm gd n R) : ∀ (e : Ope) (c : LoopCache),
    e.every (cleanNode z t) = true → e.every (namedNode rules) = true → e.every (simpleNode sm) = true →
    PathOk rules (n + 1) path e.refs → LoopInv rules t sm c path F → SimpleOut rules t sm path F (dil R path false e c) false
  | .seq es _, c, hc, hn, hs, hp, hi => by
    simp only [Ope.every, Bool.and_eq_true] at hc hn hs; simp only [dil]; exact dilAllS H hR es c hc.2 hn.2 hs.2 hp hi
  | .cho es _ _, c, hc, hn, hs, hp, hi => by
    simp only [Ope.every, Bool.and_eq_true] at hc hn hs; simp only [dil]; exact dilAllS H hR es c hc.2 hn.2 hs.2 hp hi
  | .rep e mn none _, c, hc, hn, hs, hp, hi => by
    simp only [Ope.every, Bool.and_eq_true, simpleNode] at hc hn hs
    simp only [dil, solid_he hs.1]
    exact ⟨rfl, hi⟩
  | .rep e mn (some _) _, c, hc, hn, hs, hp, hi => by
    simp only [Ope.every, Bool.and_eq_true] at hc hn hs; simp only [dil]; exact dilS H hR e c hc.2 hn.2 hs.2 hp hi
  | .and_ e, c, hc, hn, hs, hp, hi => by
    simp only [Ope.every, Bool.and_eq_true] at hc hn hs; simp only [dil]; exact dilS H hR e c hc.2 hn.2 hs.2 hp hi
  | .not_ e, c, hc, hn, hs, hp, hi => by
    simp only [Ope.every, Bool.and_eq_true] at hc hn hs; simp only [dil]; exact dilS H hR e c hc.2 hn.2 hs.2 hp hi
  | .dict .., c, _, _, _, _, hi => ⟨rfl, hi⟩
  | .lit s _, c, _, _, _, _, hi => ⟨rfl, hi⟩
  | .cls _, c, _, _, _, _, hi => ⟨rfl, hi⟩
  | .chr _, c, _, _, _, _, hi => ⟨rfl, hi⟩
  | .dot, c, _, _, _, _, hi => ⟨rfl, hi⟩
  | .capScope e, c, hc, hn, hs, hp, hi => by
    simp only [Ope.every, Bool.and_eq_true] at hc hn hs; simp only [dil]; exact dilS H hR e c hc.2 hn.2 hs.2 hp hi
  | .cap _ e, c, hc, hn, hs, hp, hi => by
    simp only [Ope.every, Bool.and_eq_true] at hc hn hs; simp only [dil]; exact dilS H hR e c hc.2 hn.2 hs.2 hp hi
  | .tok e, c, hc, hn, hs, hp, hi => by
    simp only [Ope.every, Bool.and_eq_true] at hc hn hs; simp only [dil]; exact dilS H hR e c hc.2 hn.2 hs.2 hp hi
  | .ign e, c, hc, hn, hs, hp, hi => by
    simp only [Ope.every, Bool.and_eq_true] at hc hn hs; simp only [dil]; exact dilS H hR e c hc.2 hn.2 hs.2 hp hi
  | .ref r nm as, c, hc, hn, hs, hp, hi => by
    simp only [Ope.every] at hc hn hs
    simp only [simpleNode] at hs
    simp only [cleanNode, List.isEmpty_iff] at hc
    subst hc
    obtain ⟨d, hd, hnm⟩ := named_ref hn
    simp only [dil, dilArgs]
    by_cases hm : nm ∈ path
    · rw [if_pos hm]; exact ⟨rfl, hi⟩
    · rw [if_neg hm]
      unfold dilRef
      cases hl : c.lookup nm with
      | some b =>
        cases b with
        | true => exact absurd (hnm ▸ hl) (hi.simple r d hd hs)
        | false => exact ⟨rfl, hi⟩
      | none =>
        have h1 := hR.dilS _ _ _ c F hd hs ((hp.of (by simp [Ope.refs])).enter H hd hnm hm) hi.enter
        refine ⟨h1.res, ?_⟩
        show LoopInv rules t sm ((nm, (R.dil (path ++ [nm]) r false c).1) :: _) path F
        rw [h1.res]
        exact (h1.inv.leaveS H hd hnm hs).cacheS H hd hnm (.inr hs)
  | .usr _, _, hc, _, _, _, _ => by simp [Ope.every, cleanNode] at hc
  | .weak _, _, hc, _, _, _, _ => by simp [Ope.every, cleanNode] at hc
  | .param .., _, hc, _, _, _, _ => by simp [Ope.every, cleanNode] at hc
  | .ws _, _, hc, _, _, _, _ => by simp [Ope.every, cleanNode] at hc
  | .bref _, _, hc, _, _, _, _ => by simp [Ope.every, cleanNode] at hc
  | .prec .., _, hc, _, _, _, _ => by simp [Ope.every, cleanNode] at hc
  | .recov .., _, hc, _, _, _, _ => by simp [Ope.every, cleanNode] at hc
  | .cut, _, hc, _, _, _, _ => by simp [Ope.every, cleanNode] at hc
  | .null, _, hc, _, _, _, _ => by simp [Ope.every, cleanNode] at hc
end

/-! ### Guarded expressions, and what `DetectInfiniteLoop` walks through -/

theorem GuardOut.keep {x : Bool × LoopCache} (hi : LoopInv rules t sm x.2 path F) {nul safe : Bool} {rs : List Nat}
    (h : x.1 = false → nul = false) (hs : safe = true) (hr : ∀ q ∈ rs, F q ∨ OnPath rules path q ∨ sm q = true) :
    GuardOut rules t sm path F x nul safe rs :=
  fun hx => ⟨h hx, F, fun _ h => h, hi, hs, hr⟩

/-- One visit after another. -/
theorem GuardOut.andThen {x y : Bool × LoopCache} {nul nul' safe safe' : Bool} {rs rs' : List Nat}
    (h1 : GuardOut rules t sm path F x nul safe rs) (hx : x.1 = false)
    (h2 : ∀ F', LoopInv rules t sm x.2 path F' → GuardOut rules t sm path F' y nul' safe' rs') :
    GuardOut rules t sm path F y (nul || nul') (safe && safe') (rs ++ rs') := by
  intro hy
  obtain ⟨a1, F1, a2, a3, a4⟩ := h1 hx
  obtain ⟨b1, F2, b2, b3, b4⟩ := h2 F1 a3 hy
  refine ⟨by rw [a1, b1]; rfl, F2, fun r h => b2 r (a2 r h), b3, by rw [a4.safe, b4.safe]; rfl, ?_⟩
  intro q hq
  rcases List.mem_append.mp hq with hq | hq
  · exact (a4.refs q hq).imp (b2 q) id
  · exact b4.refs q hq

mutual
theorem heG (H : LoopHyp rules z t sm gd) (hR : RecOk rules t sm gd n R) {F : Nat → Prop} : ∀ (e : Ope) (c : LoopCache),
    e.every (cleanNode z t) = true → e.every (namedNode rules) = true → e.every (loopNode t sm gd) = true →
    guardB t sm gd e = true → PathOk rules (n + 1) path e.refs → LoopInv rules t sm c path F →
    GuardOut rules t sm path F (he R path e c) (cbe t e) (e.every (safeNode t)) e.refs
  | .seq es _, c, hc, hn, hl, hg, hp, hi => by
    simp only [Ope.every, Bool.and_eq_true] at hc hn hl; simp only [guardB] at hg
    simp only [he, cbe, Ope.every, safeNode, Bool.true_and, Ope.refs]
    exact heSeqG H hR es c false (by simpa [cleanNode] using hc.1) hc.2 hn.2 hl.2 hg hp hi
  | .cho es _ _, c, hc, hn, hl, hg, hp, hi => by
    simp only [Ope.every, Bool.and_eq_true] at hc hn hl; simp only [guardB] at hg
    simp only [he, cbe, Ope.every, safeNode, Bool.true_and, Ope.refs]
    exact heChoG H hR es c hc.2 hn.2 hl.2 hg hp hi
  | .rep e mn mx sp, c, hc, hn, hl, hg, hp, hi => by
    simp only [Ope.every, Bool.and_eq_true] at hc hn hl; simp only [guardB, Bool.or_eq_true, beq_iff_eq] at hg
    simp only [he, cbe, Ope.every, Ope.refs]
    by_cases h0 : mn = 0
    · rw [if_pos h0]; intro hx; cases hx
    · rw [if_neg h0]
      intro hx
      obtain ⟨a1, F1, a2, a3, a4⟩ := heG H hR e c hc.2 hn.2 hl.2 (hg.resolve_left h0) hp hi hx
      refine ⟨by simpa using h0, F1, a2, a3, ?_, a4.refs⟩
      rw [a4.safe, Bool.and_true]
      cases mx with
      | none => simp only [safeNode, a1, Bool.not_false]
      | some _ => rfl
  | .and_ e, c, _, _, _, _, _, _ => by intro hx; cases hx
  | .not_ e, c, _, _, _, _, _, _ => by intro hx; cases hx
  | .dict .., c, _, _, _, _, _, hi => GuardOut.keep hi (fun _ => rfl) rfl (by simp [Ope.refs])
  | .lit s _, c, _, _, _, _, _, hi => GuardOut.keep hi (fun h => h) rfl (by simp [Ope.refs])
  | .cls _, c, _, _, _, _, _, hi => GuardOut.keep hi (fun _ => rfl) rfl (by simp [Ope.refs])
  | .chr _, c, _, _, _, _, _, hi => GuardOut.keep hi (fun _ => rfl) rfl (by simp [Ope.refs])
  | .dot, c, _, _, _, _, _, hi => GuardOut.keep hi (fun _ => rfl) rfl (by simp [Ope.refs])
  | .capScope e, c, hc, hn, hl, hg, hp, hi => by
    simp only [Ope.every, Bool.and_eq_true] at hc hn hl; simp only [guardB] at hg
    simp only [he, cbe, Ope.every, safeNode, Bool.true_and, Ope.refs]; exact heG H hR e c hc.2 hn.2 hl.2 hg hp hi
  | .cap _ e, c, hc, hn, hl, hg, hp, hi => by
    simp only [Ope.every, Bool.and_eq_true] at hc hn hl; simp only [guardB] at hg
    simp only [he, cbe, Ope.every, safeNode, Bool.true_and, Ope.refs]; exact heG H hR e c hc.2 hn.2 hl.2 hg hp hi
  | .tok e, c, hc, hn, hl, hg, hp, hi => by
    simp only [Ope.every, Bool.and_eq_true] at hc hn hl; simp only [guardB] at hg
    simp only [he, cbe, Ope.every, safeNode, Bool.true_and, Ope.refs]; exact heG H hR e c hc.2 hn.2 hl.2 hg hp hi
  | .ign e, c, hc, hn, hl, hg, hp, hi => by
    simp only [Ope.every, Bool.and_eq_true] at hc hn hl; simp only [guardB] at hg
    simp only [he, cbe, Ope.every, safeNode, Bool.true_and, Ope.refs]; exact heG H hR e c hc.2 hn.2 hl.2 hg hp hi
  | .ref r nm as, c, hc, hn, hl, hg, hp, hi => by
    simp only [guardB, Bool.or_eq_true] at hg
    rcases hg with hs | hg
    · have h1 := heS H hR (.ref r nm as) c hc hn hs hp hi
      exact GuardOut.keep h1.inv (fun hx => by rw [← h1.res]; exact hx) rfl
        (fun q hq => .inr (.inr (simple_refs (z := z) (t := t) _ hc (sm := sm) hs q hq)))
    · simp only [Ope.every] at hc hn hl
      simp only [cleanNode, List.isEmpty_iff] at hc
      subst hc
      obtain ⟨d, hd, hnm⟩ := named_ref hn
      simp only [he, cbe, heRef, Ope.refs, Ope.refsL]
      by_cases hm : nm ∈ path
      · rw [if_pos hm, onPath_not_null H hp (by simp [Ope.refs]) ⟨d, hd, hnm ▸ hm⟩]
        refine GuardOut.keep hi (fun _ => rfl) rfl ?_
        intro q hq
        rw [List.mem_singleton.mp hq]
        exact .inr (.inl ⟨d, hd, hnm ▸ hm⟩)
      · rw [if_neg hm]
        intro hx
        obtain ⟨a1, F1, a2, a3, a4⟩ := hR.heG _ _ _ c F hd hg ((hp.of (by simp [Ope.refs])).enter H hd hnm hm) hi.enter hx
        refine ⟨a1, _, fun q hq => .inl (a2 q hq), a3.leaveG H hd hnm a4, rfl, ?_⟩
        intro q hq
        exact .inl (.inr (List.mem_singleton.mp hq))
  | .usr _, _, hc, _, _, _, _, _ => by simp [Ope.every, cleanNode] at hc
  | .weak _, _, hc, _, _, _, _, _ => by simp [Ope.every, cleanNode] at hc
  | .param .., _, hc, _, _, _, _, _ => by simp [Ope.every, cleanNode] at hc
  | .ws _, _, hc, _, _, _, _, _ => by simp [Ope.every, cleanNode] at hc
  | .bref _, _, hc, _, _, _, _, _ => by simp [Ope.every, cleanNode] at hc
  | .prec .., _, hc, _, _, _, _, _ => by simp [Ope.every, cleanNode] at hc
  | .recov .., _, hc, _, _, _, _, _ => by simp [Ope.every, cleanNode] at hc
  | .cut, _, hc, _, _, _, _, _ => by simp [Ope.every, cleanNode] at hc
  | .null, _, hc, _, _, _, _, _ => by simp [Ope.every, cleanNode] at hc

theorem heSeqG (H : LoopHyp rules z t sm gd) (hR : RecOk rules t sm gd n R) {F : Nat → Prop} : ∀ (es : List Ope) (c : LoopCache)
    (save : Bool), (es = [] → save = true) → Ope.everyL (cleanNode z t) es = true → Ope.everyL (namedNode rules) es = true →
    Ope.everyL (loopNode t sm gd) es = true → guardSeq t sm gd es = true →
    PathOk rules (n + 1) path (Ope.refsL es) → LoopInv rules t sm c path F →
    GuardOut rules t sm path F (heSeq R path save es c) (cbeAll t es) (Ope.everyL (safeNode t) es) (Ope.refsL es)
  | [], c, save, h0, _, _, _, _, _, hi => by rw [h0 rfl]; intro hx; cases hx
  | [e], c, save, _, hc, hn, hl, hg, hp, hi => by
    simp only [Ope.everyL, Bool.and_eq_true] at hc hn hl
    simp only [guardSeq] at hg
    have h1 := heG H hR e c hc.1 hn.1 hl.1 hg (hp.of (by simp +contextual [Ope.refsL])) hi
    simp only [heSeq, cbeAll, dilRest, Ope.everyL, Ope.refsL, Bool.and_true, List.append_nil]
    cases hb : (he R path e c).1 with
    | true => intro hx; cases hx
    | false =>
      intro _
      exact h1 hb
  | e :: e' :: es, c, save, _, hc, hn, hl, hg, hp, hi => by
    have hc' := hc
    have hn' := hn
    have hl' := hl
    rw [Ope.everyL] at hc' hn' hl'
    rw [Bool.and_eq_true] at hc' hn' hl'
    simp only [guardSeq, Bool.and_eq_true, Bool.or_eq_true, Bool.not_eq_true'] at hg
    have hpe : PathOk rules (n + 1) path e.refs := hp.of (by intro q hq; rw [Ope.refsL]; exact List.mem_append_left _ hq)
    have hpr : PathOk rules (n + 1) path (Ope.refsL (e' :: es)) :=
      hp.of (by intro q hq; rw [Ope.refsL]; exact List.mem_append_right _ hq)
    have h1 := heS H hR e c hc'.1 hn'.1 hg.1 hpe hi
    have hx1 : ∀ q ∈ e.refs, F q ∨ OnPath rules path q ∨ sm q = true := fun q hq => .inr (.inr (simple_refs e hc'.1 hg.1 q hq))
    have hsafe : e.every (safeNode t) = true := simple_safe e hg.1
    rw [heSeq, cbeAll, Ope.everyL, Ope.refsL]
    rw [h1.res, hsafe]
    simp only [Bool.true_and]
    cases hb : cbe t e with
    | true =>
      simp only [if_true, Bool.true_and]
      have h2 := heSeqG H hR (e' :: es) (he R path e c).2 true (fun h => by cases h) hc'.2 hn'.2 hl'.2
        (hg.2.resolve_left (by rw [hb]; simp)) hpr h1.inv
      intro hx
      obtain ⟨a1, F1, a2, a3, a4⟩ := h2 hx
      refine ⟨a1, F1, a2, a3, a4.safe, ?_⟩
      intro q hq
      rcases List.mem_append.mp hq with hq | hq
      · exact (hx1 q hq).imp (a2 q) id
      · exact a4.refs q hq
    | false =>
      simp only [Bool.false_eq_true, if_false, Bool.false_and]
      have h2 := dilRestG H hR (e' :: es) (he R path e c).2 hc'.2 hn'.2 hl'.2 hpr h1.inv
      intro hx
      obtain ⟨a1, F1, a2, a3, a4⟩ := h2 hx
      refine ⟨rfl, F1, a2, a3, a4.safe, ?_⟩
      intro q hq
      rcases List.mem_append.mp hq with hq | hq
      · exact (hx1 q hq).imp (a2 q) id
      · exact a4.refs q hq

theorem heChoG (H : LoopHyp rules z t sm gd) (hR : RecOk rules t sm gd n R) {F : Nat → Prop} : ∀ (es : List Ope) (c : LoopCache),
    Ope.everyL (cleanNode z t) es = true → Ope.everyL (namedNode rules) es = true →
    Ope.everyL (loopNode t sm gd) es = true → guardAll t sm gd es = true →
    PathOk rules (n + 1) path (Ope.refsL es) → LoopInv rules t sm c path F →
    GuardOut rules t sm path F (heCho R path es c) (cbeAny t es) (Ope.everyL (safeNode t) es) (Ope.refsL es)
  | [], c, _, _, _, _, _, hi => GuardOut.keep hi (fun _ => rfl) rfl (by simp [Ope.refsL])
  | e :: es, c, hc, hn, hl, hg, hp, hi => by
    simp only [Ope.everyL, Bool.and_eq_true] at hc hn hl
    simp only [guardAll, Bool.and_eq_true] at hg
    have h1 := heG H hR e c hc.1 hn.1 hl.1 hg.1 (hp.of (by simp +contextual [Ope.refsL])) hi
    simp only [heCho, cbeAny, Ope.everyL, Ope.refsL]
    cases hb : (he R path e c).1 with
    | true =>
      simp only [if_true]
      intro hx; rw [hb] at hx; cases hx
    | false =>
      simp only [Bool.false_eq_true, if_false]
      exact h1.andThen hb fun F' hi' => heChoG H hR es _ hc.2 hn.2 hl.2 hg.2 (hp.of (by simp +contextual [Ope.refsL])) hi'

theorem dilRestG (H : LoopHyp rules z t sm gd) (hR : RecOk rules t sm gd n R) {F : Nat → Prop} : ∀ (es : List Ope) (c : LoopCache),
    Ope.everyL (cleanNode z t) es = true → Ope.everyL (namedNode rules) es = true →
    Ope.everyL (loopNode t sm gd) es = true →
    PathOk rules (n + 1) path (Ope.refsL es) → LoopInv rules t sm c path F →
    GuardOut rules t sm path F (dilRest R path es c) false (Ope.everyL (safeNode t) es) (Ope.refsL es)
  | [], c, _, _, _, _, hi => GuardOut.keep hi (fun _ => rfl) rfl (by simp [Ope.refsL])
  | e :: es, c, hc, hn, hl, hp, hi => by
    simp only [Ope.everyL, Bool.and_eq_true] at hc hn hl
    have h1 := dilG H hR e c hc.1 hn.1 hl.1 (hp.of (by simp +contextual [Ope.refsL])) hi
    simp only [dilRest, Ope.everyL, Ope.refsL]
    intro hx
    simp only [Bool.or_eq_false_iff] at hx
    exact (h1.andThen (y := dilRest R path es (dil R path false e c).2) hx.1
      (fun F' hi' => dilRestG H hR es _ hc.2 hn.2 hl.2 (hp.of (by simp +contextual [Ope.refsL])) hi')) hx.2

theorem dilAllG (H : LoopHyp rules z t sm gd) (hR : RecOk rules t sm gd n R) {F : Nat → Prop} : ∀ (es : List Ope) (c : LoopCache),
    Ope.everyL (cleanNode z t) es = true → Ope.everyL (namedNode rules) es = true →
    Ope.everyL (loopNode t sm gd) es = true →
    PathOk rules (n + 1) path (Ope.refsL es) → LoopInv rules t sm c path F →
    GuardOut rules t sm path F (dilAll R path false es c) false (Ope.everyL (safeNode t) es) (Ope.refsL es)
  | [], c, _, _, _, _, hi => GuardOut.keep hi (fun _ => rfl) rfl (by simp [Ope.refsL])
  | e :: es, c, hc, hn, hl, hp, hi => by
    simp only [Ope.everyL, Bool.and_eq_true] at hc hn hl
    have h1 := dilG H hR e c hc.1 hn.1 hl.1 (hp.of (by simp +contextual [Ope.refsL])) hi
    simp only [dilAll, Ope.everyL, Ope.refsL]
    cases hb : (dil R path false e c).1 with
    | true =>
      simp only [if_true]
      intro hx; rw [hb] at hx; cases hx
    | false =>
      simp only [Bool.false_eq_true, if_false]
      exact h1.andThen hb fun F' hi' => dilAllG H hR es _ hc.2 hn.2 hl.2 (hp.of (by simp +contextual [Ope.refsL])) hi'

theorem dilG (H : LoopHyp rules z t sm gd) (hR : RecOk rules t sm gd n R) {F : Nat → Prop} : ∀ (e : Ope) (c : LoopCache),
    e.every (cleanNode z t) = true → e.every (namedNode rules) = true → e.every (loopNode t sm gd) = true →
    PathOk rules (n + 1) path e.refs → LoopInv rules t sm c path F →
    GuardOut rules t sm path F (dil R path false e c) false (e.every (safeNode t)) e.refs
  | .seq es _, c, hc, hn, hl, hp, hi => by
    simp only [Ope.every, Bool.and_eq_true] at hc hn hl
    simp only [dil, Ope.every, safeNode, Bool.true_and, Ope.refs]
    exact dilAllG H hR es c hc.2 hn.2 hl.2 hp hi
  | .cho es _ _, c, hc, hn, hl, hp, hi => by
    simp only [Ope.every, Bool.and_eq_true] at hc hn hl
    simp only [dil, Ope.every, safeNode, Bool.true_and, Ope.refs]
    exact dilAllG H hR es c hc.2 hn.2 hl.2 hp hi
  | .rep e mn none sp, c, hc, hn, hl, hp, hi => by
    simp only [Ope.every, Bool.and_eq_true] at hc hn hl
    simp only [dil, Ope.every, Ope.refs, Bool.false_or]
    intro hx
    obtain ⟨a1, F1, a2, a3, a4⟩ := heG H hR e c hc.2 hn.2 hl.2 hl.1 hp hi hx
    exact ⟨rfl, F1, a2, a3, by simp only [safeNode, a1, a4.safe]; rfl, a4.refs⟩
  | .rep e mn (some mx) sp, c, hc, hn, hl, hp, hi => by
    simp only [Ope.every, Bool.and_eq_true] at hc hn hl
    simp only [dil, Ope.every, safeNode, Bool.true_and, Ope.refs]
    exact dilG H hR e c hc.2 hn.2 hl.2 hp hi
  | .and_ e, c, hc, hn, hl, hp, hi => by
    simp only [Ope.every, Bool.and_eq_true] at hc hn hl
    simp only [dil, Ope.every, safeNode, Bool.true_and, Ope.refs]; exact dilG H hR e c hc.2 hn.2 hl.2 hp hi
  | .not_ e, c, hc, hn, hl, hp, hi => by
    simp only [Ope.every, Bool.and_eq_true] at hc hn hl
    simp only [dil, Ope.every, safeNode, Bool.true_and, Ope.refs]; exact dilG H hR e c hc.2 hn.2 hl.2 hp hi
  | .capScope e, c, hc, hn, hl, hp, hi => by
    simp only [Ope.every, Bool.and_eq_true] at hc hn hl
    simp only [dil, Ope.every, safeNode, Bool.true_and, Ope.refs]; exact dilG H hR e c hc.2 hn.2 hl.2 hp hi
  | .cap _ e, c, hc, hn, hl, hp, hi => by
    simp only [Ope.every, Bool.and_eq_true] at hc hn hl
    simp only [dil, Ope.every, safeNode, Bool.true_and, Ope.refs]; exact dilG H hR e c hc.2 hn.2 hl.2 hp hi
  | .tok e, c, hc, hn, hl, hp, hi => by
    simp only [Ope.every, Bool.and_eq_true] at hc hn hl
    simp only [dil, Ope.every, safeNode, Bool.true_and, Ope.refs]; exact dilG H hR e c hc.2 hn.2 hl.2 hp hi
  | .ign e, c, hc, hn, hl, hp, hi => by
    simp only [Ope.every, Bool.and_eq_true] at hc hn hl
    simp only [dil, Ope.every, safeNode, Bool.true_and, Ope.refs]; exact dilG H hR e c hc.2 hn.2 hl.2 hp hi
  | .dict .., c, _, _, _, _, hi => GuardOut.keep hi (fun _ => rfl) rfl (by simp [Ope.refs])
  | .lit s _, c, _, _, _, _, hi => GuardOut.keep hi (fun _ => rfl) rfl (by simp [Ope.refs])
  | .cls _, c, _, _, _, _, hi => GuardOut.keep hi (fun _ => rfl) rfl (by simp [Ope.refs])
  | .chr _, c, _, _, _, _, hi => GuardOut.keep hi (fun _ => rfl) rfl (by simp [Ope.refs])
  | .dot, c, _, _, _, _, hi => GuardOut.keep hi (fun _ => rfl) rfl (by simp [Ope.refs])
  | .ref r nm as, c, hc, hn, hl, hp, hi => by
    simp only [Ope.every] at hc hn hl
    simp only [cleanNode, List.isEmpty_iff] at hc
    subst hc
    obtain ⟨d, hd, hnm⟩ := named_ref hn
    simp only [dil, dilArgs, Ope.refs, Ope.refsL]
    by_cases hm : nm ∈ path
    · rw [if_pos hm]
      refine GuardOut.keep hi (fun _ => rfl) rfl ?_
      intro q hq
      rw [List.mem_singleton.mp hq]
      exact .inr (.inl ⟨d, hd, hnm ▸ hm⟩)
    · rw [if_neg hm]
      unfold dilRef
      cases hlk : c.lookup nm with
      | some b =>
        cases b with
        | true => intro hx; cases hx
        | false =>
          refine GuardOut.keep hi (fun _ => rfl) rfl ?_
          intro q hq
          rw [List.mem_singleton.mp hq]
          exact (hi.cache r d hd (hnm ▸ hlk)).imp id .inr
      | none =>
        intro hx
        have hx : (R.dil (path ++ [nm]) r false c).1 = false := hx
        obtain ⟨a1, F1, a2, a3, a4⟩ := hR.dilG _ _ _ c F hd ((hp.of (by simp [Ope.refs])).enter H hd hnm hm) hi.enter hx
        refine ⟨rfl, (fun q => F1 q ∨ q = r), fun q hq => .inl (a2 q hq), ?_, rfl, fun q hq => .inl (.inr (List.mem_singleton.mp hq))⟩
        show LoopInv rules t sm ((nm, (R.dil (path ++ [nm]) r false c).1) :: _) path _
        rw [hx]
        exact (a3.leaveG H hd hnm a4).cacheS H hd hnm (.inl (.inr rfl))
  | .usr _, _, hc, _, _, _, _ => by simp [Ope.every, cleanNode] at hc
  | .weak _, _, hc, _, _, _, _ => by simp [Ope.every, cleanNode] at hc
  | .param .., _, hc, _, _, _, _ => by simp [Ope.every, cleanNode] at hc
  | .ws _, _, hc, _, _, _, _ => by simp [Ope.every, cleanNode] at hc
  | .bref _, _, hc, _, _, _, _ => by simp [Ope.every, cleanNode] at hc
  | .prec .., _, hc, _, _, _, _ => by simp [Ope.every, cleanNode] at hc
  | .recov .., _, hc, _, _, _, _ => by simp [Ope.every, cleanNode] at hc
  | .cut, _, hc, _, _, _, _ => by simp [Ope.every, cleanNode] at hc
  | .null, _, hc, _, _, _, _ => by simp [Ope.every, cleanNode] at hc
end

theorem recOk (H : LoopHyp rules z t sm gd) : ∀ n, RecOk rules t sm gd n (loopRec rules n)
  | 0 => ⟨fun _ _ _ _ _ _ _ hp => absurd hp.pos (fun h => h), fun _ _ _ _ _ _ _ hp => absurd hp.pos (fun h => h),
      fun _ _ _ _ _ _ _ hp => absurd hp.pos (fun h => h), fun _ _ _ _ _ _ hp => absurd hp.pos (fun h => h)⟩
  | n + 1 => by
    have ih := recOk H n
    refine ⟨?_, ?_, ?_, ?_⟩
    · intro path r d c F hd hs hp hi
      simp only [loopRec, hd]
      rw [H.fix r d hd]
      exact heS H ih d.ope c (H.clean r d hd) (H.named r d hd) (H.simple r d hd hs) hp hi
    · intro path r d c F hd hs hp hi
      simp only [loopRec, hd]
      exact dilS H ih d.ope c (H.clean r d hd) (H.named r d hd) (H.simple r d hd hs) hp hi
    · intro path r d c F hd hg hp hi
      simp only [loopRec, hd]
      rw [H.fix r d hd]
      exact heG H ih d.ope c (H.clean r d hd) (H.named r d hd) (H.loops r d hd) (H.guarded r d hd hg) hp hi
    · intro path r d c F hd hp hi
      simp only [loopRec, hd]
      exact dilG H ih d.ope c (H.clean r d hd) (H.named r d hd) (H.loops r d hd) hp hi

/-- **If no infinite loop is reported for the start rule, then in every rule it refers to, the repeated expressions are not flagged
as possibly empty.** -/
theorem infiniteLoop_sound (H : LoopHyp rules z t sm gd) {start : Nat}
    (h : infiniteLoop rules rules.length start = false) {r : Nat} {d : Def} (hr : r = start ∨ Reach rules start r)
    (hd : rules[r]? = some d) : d.ope.every (safeNode t) = true := by
  unfold infiniteLoop at h
  cases hs : rules[start]? with
  | none => rw [hs] at h; cases h
  | some ds =>
    rw [hs] at h
    have hon : ∀ p, OnPath rules [ds.name] p → p = start := by
      rintro p ⟨d', hd', hm⟩
      exact H.inj _ _ _ _ hd' hs (List.mem_singleton.mp hm)
    have hp : PathOk rules (rules.length + 1) [ds.name] ds.ope.refs := by
      refine ⟨by simp, ?_, by simp only [List.length_singleton]; omega, ?_⟩
      · intro nm hm
        rw [List.mem_singleton.mp hm]
        exact List.mem_map_of_mem (List.mem_of_getElem? hs)
      · intro p hp q hq
        rw [hon p hp]
        exact .edge hs hq
    have hi : LoopInv rules t sm [] [ds.name] (fun _ => False) :=
      ⟨fun _ _ _ h => by simp at h, fun _ _ _ _ h => by simp at h, fun _ _ h => h.elim⟩
    obtain ⟨-, F, -, b3, b4⟩ := dilG H (recOk H rules.length) ds.ope [] (H.clean _ _ hs) (H.named _ _ hs) (H.loops _ _ hs) hp hi h
    -- the rules that are safe, the start rule and the simple rules are closed under references
    let S : Nat → Prop := fun q => F q ∨ q = start ∨ sm q = true
    have hS : ∀ q dq, S q → rules[q]? = some dq → dq.ope.every (safeNode t) = true ∧ ∀ x ∈ dq.ope.refs, S x := by
      rintro q dq (hq | rfl | hq) hdq
      · obtain ⟨k1, k2⟩ := b3.safe q dq hq hdq
        exact ⟨k1, fun x hx => (k2 x hx).imp id (Or.imp (hon x) id)⟩
      · rw [hs] at hdq; cases hdq
        exact ⟨b4.safe, fun x hx => (b4.refs x hx).imp id (Or.imp (hon x) id)⟩
      · exact ⟨simple_safe _ (H.simple q dq hdq hq), fun x hx => .inr (.inr (simple_refs _ (H.clean q dq hdq) (H.simple q dq hdq hq) x hx))⟩
    have hreach : ∀ a b, Reach rules a b → S a → S b := by
      intro a b hab
      induction hab with
      | edge hda hq => exact fun ha => (hS _ _ ha hda).2 _ hq
      | trans _ _ ih1 ih2 => exact fun ha => ih2 (ih1 ha)
    have hSr : S r := by
      rcases hr with rfl | hr
      · exact .inr (.inl rfl)
      · exact hreach _ _ hr (.inr (.inl rfl))
    exact (hS r d hSr hd).1
end

end Verif
