import Verif.Meta
/-!
# The check of back references when a text is read

Model of `captures_stack`, `captures_in_current_definition`, `undefined_back_references` and `enablePackratParsing` of `ParserGenerator::Data`
(peglib.h 5436-5445), which the reader's actions maintain (5723-5727, 5860-5871, 6014-6024, 6037-6065), and what is done with them
(6264-6273, 6453).

The actions run while the text is read.  Here the trees that were read are walked, in the order of the text.  In a text that is read to its end no capture,
back reference or scope is read in an attempt that is given up, so these are the same steps.
-/

namespace Verif.Meta
open Verif

/-- The part of `Data` concerned (5436-5445). -/
structure CapSt where
  /-- `captures_stack`, the innermost scope first -/
  stack : List (List (List Byte)) := [[]]
  /-- `captures_in_current_definition` -/
  cur : List (List Byte) := []
  /-- `!undefined_back_references.empty()` -/
  undef : Bool := false
  /-- `enablePackratParsing` -/
  own : Bool := true

/-- peglib.h 5864-5865: a capture has been read. -/
def CapSt.insert (x : List Byte) (s : CapSt) : CapSt :=
  { s with stack := (match s.stack with | [] => [] | t :: ts => (x :: t) :: ts), cur := x :: s.cur }

/-- peglib.h 6037-6063: a back reference has been read. -/
def CapSt.look (x : List Byte) (s : CapSt) : CapSt :=
  { s with undef := s.undef || !(s.stack.any fun t => decide (x ∈ t)), own := s.own && decide (x ∈ s.cur) }

mutual
/-- The steps of the actions for one expression, in the order of the text. -/
def Src.scan : Src → CapSt → CapSt
  | .seq es, s => Src.scanL es s
  | .cho es _, s => Src.scanL es s
  | .rep e _ _, s => Src.scan e s
  | .and_ e, s => Src.scan e s
  | .not_ e, s => Src.scan e s
  | .tok e, s => Src.scan e s
  | .ign e, s => Src.scan e s
  -- peglib.h 6014-6024
  | .capScope e, s =>
    let s := Src.scan e { s with stack := [] :: s.stack }
    { s with stack := s.stack.tail }
  | .cap x e, s => (Src.scan e s).insert x
  | .ref _ _ as, s => Src.scanL as s
  | .recov _ _ as, s => Src.scanL as s
  | .bref x, s => s.look x
  | _, s => s

def Src.scanL : List Src → CapSt → CapSt
  | [], s => s
  | e :: es, s => Src.scanL es (Src.scan e s)
end

/-- One definition; peglib.h 5723-5727: entering it forgets the captures of the one before. -/
def scanDef (s : CapSt) (d : RDef) : CapSt := Src.scan d.body { s with cur := [] }

/-- The whole text. -/
def scanAll (ds : List RDef) : CapSt := ds.foldl scanDef {}

/-- peglib.h 6264-6273: the text is refused. -/
def undefBref (ds : List RDef) : Bool := (scanAll ds).undef

/-- peglib.h 6061-6063, 6453: packrat parsing can be enabled. -/
def ownCaps (ds : List RDef) : Bool := (scanAll ds).own

/-! ## Specification: what is read, in order -/

/-- What matters for captures in a text. -/
inductive Ev where
  /-- `$(` -/
  | opens
  /-- the `)` of a scope -/
  | closes
  /-- the end of `$x<…>` -/
  | cap (x : List Byte)
  /-- `$x` -/
  | use (x : List Byte)
  deriving DecidableEq

mutual
/-- The scopes, captures and back references in an expression, in the order of the text. -/
def Src.events : Src → List Ev
  | .seq es => Src.eventsL es
  | .cho es _ => Src.eventsL es
  | .rep e _ _ => Src.events e
  | .and_ e => Src.events e
  | .not_ e => Src.events e
  | .tok e => Src.events e
  | .ign e => Src.events e
  | .capScope e => .opens :: Src.events e ++ [.closes]
  | .cap x e => Src.events e ++ [.cap x]
  | .ref _ _ as => Src.eventsL as
  | .recov _ _ as => Src.eventsL as
  | .bref x => [.use x]
  | _ => []

def Src.eventsL : List Src → List Ev
  | [] => []
  | e :: es => Src.events e ++ Src.eventsL es
end

def opensIn (es : List Ev) : Nat := es.countP (· = .opens)
def closesIn (es : List Ev) : Nat := es.countP (· = .closes)

/-- After `pre`, a capture named `x` has been read in a scope that is still open: no more scopes were closed than opened since. -/
def Visible (pre : List Ev) (x : List Byte) : Prop :=
  ∃ p q, pre = p ++ .cap x :: q ∧ ∀ q', q' <+: q → closesIn q' ≤ opensIn q'

/-! ## Proofs -/

/-- One step. -/
def CapSt.step (s : CapSt) : Ev → CapSt
  | .opens => { s with stack := [] :: s.stack }
  | .closes => { s with stack := s.stack.tail }
  | .cap x => s.insert x
  | .use x => s.look x

mutual
theorem scan_events : ∀ (e : Src) (s : CapSt), Src.scan e s = (Src.events e).foldl CapSt.step s
  | .seq es, s => scanL_events es s
  | .cho es _, s => scanL_events es s
  | .rep e _ _, s => scan_events e s
  | .and_ e, s => scan_events e s
  | .not_ e, s => scan_events e s
  | .tok e, s => scan_events e s
  | .ign e, s => scan_events e s
  | .capScope e, s => by
    simp only [Src.scan, Src.events, List.cons_append, List.foldl_cons, List.foldl_append, List.foldl_nil, CapSt.step]
    rw [scan_events e]
  | .cap x e, s => by
    simp only [Src.scan, Src.events, List.foldl_append, List.foldl_cons, List.foldl_nil, CapSt.step]
    rw [scan_events e]
  | .ref _ _ as, s => scanL_events as s
  | .recov _ _ as, s => scanL_events as s
  | .bref _, _ => rfl
  | .dict _ _, _ => rfl
  | .lit _ _, _ => rfl
  | .cls _, _ => rfl
  | .chr _, _ => rfl
  | .dot, _ => rfl
  | .usr _, _ => rfl
  | .cut, _ => rfl
theorem scanL_events : ∀ (es : List Src) (s : CapSt), Src.scanL es s = (Src.eventsL es).foldl CapSt.step s
  | [], _ => rfl
  | e :: es, s => by
    simp only [Src.scanL, Src.eventsL, List.foldl_append]
    rw [scan_events e, scanL_events es]
end

theorem opensIn_append (a b : List Ev) : opensIn (a ++ b) = opensIn a + opensIn b := List.countP_append
theorem closesIn_append (a b : List Ev) : closesIn (a ++ b) = closesIn a + closesIn b := List.countP_append

/-- No prefix closes more scopes than it opens. -/
def NoDip (es : List Ev) : Prop := ∀ p, p <+: es → closesIn p ≤ opensIn p

theorem NoDip.nil : NoDip [] := by
  intro p hp
  rw [List.prefix_nil.1 hp]
  exact Nat.le_refl _

theorem NoDip.append {a b : List Ev} (ha : NoDip a) (hb : NoDip b) : NoDip (a ++ b) := by
  intro p hp
  have hcase : p <+: a ∨ ∃ t, p = a ++ t ∧ t <+: b := by
    rcases Nat.le_total p.length a.length with h | h
    · exact .inl (List.prefix_of_prefix_length_le hp (List.prefix_append a b) h)
    · obtain ⟨t, rfl⟩ := List.prefix_of_prefix_length_le (List.prefix_append a b) hp h
      exact .inr ⟨t, rfl, (List.prefix_append_right_inj a).1 hp⟩
  rcases hcase with h | ⟨t, rfl, h⟩
  · exact ha p h
  · rw [opensIn_append, closesIn_append]
    exact Nat.add_le_add (ha a (List.prefix_refl a)) (hb t h)

/-- A prefix of a list with one more element at the end. -/
theorem prefix_snoc {a p : List Ev} {e : Ev} : p <+: a ++ [e] ↔ p <+: a ∨ p = a ++ [e] := by
  rw [List.prefix_concat_iff, or_comm]

theorem NoDip.snoc {a : List Ev} {e : Ev} : NoDip (a ++ [e]) ↔ NoDip a ∧ closesIn (a ++ [e]) ≤ opensIn (a ++ [e]) := by
  constructor
  · exact fun h => ⟨fun p hp => h p (prefix_snoc.2 (.inl hp)), h _ (List.prefix_refl _)⟩
  · rintro ⟨h1, h2⟩ p hp
    rcases prefix_snoc.1 hp with h | rfl
    · exact h1 p h
    · exact h2

mutual
theorem events_bal : ∀ (e : Src), NoDip (Src.events e) ∧ opensIn (Src.events e) = closesIn (Src.events e)
  | .seq es => eventsL_bal es
  | .cho es _ => eventsL_bal es
  | .rep e _ _ => events_bal e
  | .and_ e => events_bal e
  | .not_ e => events_bal e
  | .tok e => events_bal e
  | .ign e => events_bal e
  | .capScope e => by
    obtain ⟨h1, h2⟩ := events_bal e
    have h3 : opensIn (.opens :: Src.events e ++ [.closes]) = opensIn (Src.events e) + 1 := by simp [opensIn]
    have h4 : closesIn (.opens :: Src.events e ++ [.closes]) = closesIn (Src.events e) + 1 := by simp [closesIn]
    refine ⟨?_, ?_⟩
    · simp only [Src.events]
      rw [NoDip.snoc]
      refine ⟨fun p hp => ?_, by rw [h3, h4, h2]; exact Nat.le_refl _⟩
      cases p with
      | nil => exact Nat.le_refl _
      | cons x p =>
        obtain ⟨rfl, hp'⟩ := List.cons_prefix_cons.1 hp
        have := h1 p hp'
        have k3 : opensIn (.opens :: p) = opensIn p + 1 := by simp [opensIn]
        have k4 : closesIn (.opens :: p) = closesIn p := by simp [closesIn]
        omega
    · simp only [Src.events]; rw [h3, h4, h2]
  | .cap x e => by
    obtain ⟨h1, h2⟩ := events_bal e
    have h3 : opensIn (Src.events e ++ [.cap x]) = opensIn (Src.events e) := by simp [opensIn]
    have h4 : closesIn (Src.events e ++ [.cap x]) = closesIn (Src.events e) := by simp [closesIn]
    exact ⟨NoDip.snoc.2 ⟨h1, by rw [h3, h4, h2]; exact Nat.le_refl _⟩, by simp only [Src.events]; rw [h3, h4, h2]⟩
  | .ref _ _ as => eventsL_bal as
  | .recov _ _ as => eventsL_bal as
  | .bref x => ⟨(NoDip.snoc (a := [])).2 ⟨.nil, Nat.le_refl 0⟩, rfl⟩
  | .dict _ _ => ⟨.nil, rfl⟩
  | .lit _ _ => ⟨.nil, rfl⟩
  | .cls _ => ⟨.nil, rfl⟩
  | .chr _ => ⟨.nil, rfl⟩
  | .dot => ⟨.nil, rfl⟩
  | .usr _ => ⟨.nil, rfl⟩
  | .cut => ⟨.nil, rfl⟩
theorem eventsL_bal : ∀ (es : List Src), NoDip (Src.eventsL es) ∧ opensIn (Src.eventsL es) = closesIn (Src.eventsL es)
  | [] => ⟨.nil, rfl⟩
  | e :: es => by
    obtain ⟨h1, h2⟩ := events_bal e
    obtain ⟨h3, h4⟩ := eventsL_bal es
    refine ⟨h1.append h3, ?_⟩
    simp only [Src.eventsL]
    rw [opensIn_append, closesIn_append, h2, h4]
end

/-- `Visible`, in the `k`-th scope from the innermost. -/
def VisAt (k : Nat) (pre : List Ev) (x : List Byte) : Prop :=
  ∃ p q, pre = p ++ .cap x :: q ∧ NoDip q ∧ opensIn q = closesIn q + k

theorem visible_iff (pre : List Ev) (x : List Byte) : Visible pre x ↔ ∃ k, VisAt k pre x := by
  constructor
  · rintro ⟨p, q, h1, h2⟩
    exact ⟨opensIn q - closesIn q, p, q, h1, h2, by have := h2 q (List.prefix_refl q); omega⟩
  · rintro ⟨k, p, q, h1, h2, -⟩
    exact ⟨p, q, h1, h2⟩

theorem snoc_split {pre p q : List Ev} {e f : Ev} (h : pre ++ [e] = p ++ f :: q) :
    (q = [] ∧ e = f ∧ pre = p) ∨ ∃ q', q = q' ++ [e] ∧ pre = p ++ f :: q' := by
  rcases List.eq_nil_or_concat q with rfl | ⟨q', b, rfl⟩
  · left
    have := List.append_inj' h rfl
    exact ⟨rfl, by simpa using this.2, this.1⟩
  · right
    rw [List.concat_eq_append] at h ⊢
    have h : pre ++ [e] = (p ++ f :: q') ++ [b] := by rw [h]; simp
    have := List.append_inj' h rfl
    obtain rfl : e = b := by simpa using this.2
    exact ⟨q', rfl, this.1⟩

theorem visAt_cap {pre : List Ev} {x y : List Byte} {k : Nat} : VisAt k (pre ++ [.cap y]) x ↔ VisAt k pre x ∨ (k = 0 ∧ x = y) := by
  constructor
  · rintro ⟨p, q, h, h1, h2⟩
    rcases snoc_split h with ⟨rfl, h3, rfl⟩ | ⟨q', rfl, rfl⟩
    · right
      cases h3
      exact ⟨by simp [opensIn, closesIn] at h2; exact h2.symm, rfl⟩
    · left
      refine ⟨p, q', rfl, (NoDip.snoc.1 h1).1, ?_⟩
      simpa [opensIn, closesIn] using h2
  · rintro (⟨p, q, rfl, h1, h2⟩ | ⟨rfl, rfl⟩)
    · refine ⟨p, q ++ [.cap y], by simp, NoDip.snoc.2 ⟨h1, ?_⟩, by simpa [opensIn, closesIn] using h2⟩
      have := h1 q (List.prefix_refl q)
      simpa [opensIn, closesIn] using this
    · exact ⟨pre, [], rfl, .nil, rfl⟩

theorem visAt_use {pre : List Ev} {x y : List Byte} {k : Nat} : VisAt k (pre ++ [.use y]) x ↔ VisAt k pre x := by
  constructor
  · rintro ⟨p, q, h, h1, h2⟩
    rcases snoc_split h with ⟨rfl, h3, rfl⟩ | ⟨q', rfl, rfl⟩
    · cases h3
    · refine ⟨p, q', rfl, (NoDip.snoc.1 h1).1, ?_⟩
      simpa [opensIn, closesIn] using h2
  · rintro ⟨p, q, rfl, h1, h2⟩
    refine ⟨p, q ++ [.use y], by simp, NoDip.snoc.2 ⟨h1, ?_⟩, by simpa [opensIn, closesIn] using h2⟩
    have := h1 q (List.prefix_refl q)
    simpa [opensIn, closesIn] using this

theorem visAt_opens {pre : List Ev} {x : List Byte} {k : Nat} : VisAt k (pre ++ [.opens]) x ↔ ∃ k', k = k' + 1 ∧ VisAt k' pre x := by
  constructor
  · rintro ⟨p, q, h, h1, h2⟩
    rcases snoc_split h with ⟨rfl, h3, rfl⟩ | ⟨q', rfl, rfl⟩
    · cases h3
    · have h1' := (NoDip.snoc.1 h1).1
      have := h1' q' (List.prefix_refl q')
      have h2 : opensIn q' + 1 = closesIn q' + k := by simpa [opensIn, closesIn] using h2
      exact ⟨k - 1, by omega, p, q', rfl, h1', by omega⟩
  · rintro ⟨k', rfl, p, q, rfl, h1, h2⟩
    have := h1 q (List.prefix_refl q)
    have e1 : opensIn (q ++ [.opens]) = opensIn q + 1 := by simp [opensIn]
    have e2 : closesIn (q ++ [.opens]) = closesIn q := by simp [closesIn]
    exact ⟨p, q ++ [.opens], by simp, NoDip.snoc.2 ⟨h1, by omega⟩, by omega⟩

theorem visAt_closes {pre : List Ev} {x : List Byte} {k : Nat} : VisAt k (pre ++ [.closes]) x ↔ VisAt (k + 1) pre x := by
  constructor
  · rintro ⟨p, q, h, h1, h2⟩
    rcases snoc_split h with ⟨rfl, h3, rfl⟩ | ⟨q', rfl, rfl⟩
    · cases h3
    · have e1 : opensIn (q' ++ [.closes]) = opensIn q' := by simp [opensIn]
      have e2 : closesIn (q' ++ [.closes]) = closesIn q' + 1 := by simp [closesIn]
      exact ⟨p, q', rfl, (NoDip.snoc.1 h1).1, by omega⟩
  · rintro ⟨p, q, rfl, h1, h2⟩
    have e1 : opensIn (q ++ [.closes]) = opensIn q := by simp [opensIn]
    have e2 : closesIn (q ++ [.closes]) = closesIn q + 1 := by simp [closesIn]
    exact ⟨p, q ++ [.closes], by simp, NoDip.snoc.2 ⟨h1, by omega⟩, by omega⟩

/-- The innermost scopes first, the stack holds the visible captures. -/
theorem stack_spec : ∀ (n : Nat) (pre : List Ev) (s : CapSt), pre.length = n → s.stack = [[]] → NoDip pre →
    (pre.foldl CapSt.step s).stack.length + closesIn pre = opensIn pre + 1 ∧
      ∀ k x, (∃ t, (pre.foldl CapSt.step s).stack[k]? = some t ∧ x ∈ t) ↔ VisAt k pre x := by
  intro n
  induction n with
  | zero =>
    intro pre s hn hs _
    cases List.length_eq_zero_iff.1 hn
    refine ⟨by simp [hs, closesIn, opensIn], fun k x => ⟨?_, ?_⟩⟩
    · rintro ⟨t, h1, h2⟩
      simp only [List.foldl_nil, hs] at h1
      cases k with
      | zero => cases h1; cases h2
      | succ k => simp at h1
    · rintro ⟨p, q, h, -⟩
      simp at h
  | succ n ih =>
    intro pre s hn hs hd
    rcases List.eq_nil_or_concat pre with rfl | ⟨pre, e, rfl⟩
    · cases hn
    rw [List.concat_eq_append] at hn hd ⊢
    have hd' := NoDip.snoc.1 hd
    obtain ⟨h1, h2⟩ := ih pre s (by simpa using hn) hs hd'.1
    rw [List.foldl_append, List.foldl_cons, List.foldl_nil]
    generalize pre.foldl CapSt.step s = s' at h1 h2
    have hb := hd'.1 pre (List.prefix_refl pre)
    cases e with
    | opens =>
      have e1 : opensIn (pre ++ [.opens]) = opensIn pre + 1 := by simp [opensIn]
      have e2 : closesIn (pre ++ [.opens]) = closesIn pre := by simp [closesIn]
      refine ⟨by simp only [CapSt.step, List.length_cons]; omega, fun k x => ?_⟩
      rw [visAt_opens]
      simp only [CapSt.step]
      cases k with
      | zero =>
        constructor
        · rintro ⟨t, ht, hx⟩; cases ht; cases hx
        · rintro ⟨k', h, -⟩; cases h
      | succ k =>
        simp only [List.getElem?_cons_succ]
        rw [h2 k x]
        constructor
        · exact fun h => ⟨k, rfl, h⟩
        · rintro ⟨k', h, h'⟩; cases h; exact h'
    | closes =>
      have e1 : opensIn (pre ++ [.closes]) = opensIn pre := by simp [opensIn]
      have e2 : closesIn (pre ++ [.closes]) = closesIn pre + 1 := by simp [closesIn]
      have := hd'.2
      refine ⟨by simp only [CapSt.step, List.length_tail]; omega, fun k x => ?_⟩
      rw [visAt_closes, ← h2 (k + 1) x]
      simp only [CapSt.step, List.getElem?_tail]
    | use y =>
      have e1 : opensIn (pre ++ [.use y]) = opensIn pre := by simp [opensIn]
      have e2 : closesIn (pre ++ [.use y]) = closesIn pre := by simp [closesIn]
      refine ⟨by simp only [CapSt.step, CapSt.look]; omega, fun k x => ?_⟩
      rw [visAt_use, ← h2 k x]
      simp only [CapSt.step, CapSt.look]
    | cap y =>
      have e1 : opensIn (pre ++ [.cap y]) = opensIn pre := by simp [opensIn]
      have e2 : closesIn (pre ++ [.cap y]) = closesIn pre := by simp [closesIn]
      obtain ⟨t, ts, hst⟩ : ∃ t ts, s'.stack = t :: ts := by
        cases hst : s'.stack with
        | nil => rw [hst] at h1; simp at h1; omega
        | cons t ts => exact ⟨t, ts, rfl⟩
      refine ⟨by simp only [CapSt.step, CapSt.insert, hst, List.length_cons] at h1 ⊢; omega, fun k x => ?_⟩
      rw [visAt_cap, ← h2 k x]
      simp only [CapSt.step, CapSt.insert, hst]
      cases k with
      | zero => simp [or_comm]
      | succ k => simp

theorem stack_any {pre : List Ev} {s : CapSt} (hs : s.stack = [[]]) (hd : NoDip pre) (x : List Byte) :
    ((pre.foldl CapSt.step s).stack.any fun t => decide (x ∈ t)) = true ↔ Visible pre x := by
  rw [visible_iff, List.any_eq_true]
  obtain ⟨-, h⟩ := stack_spec pre.length pre s rfl hs hd
  constructor
  · rintro ⟨t, ht, hx⟩
    obtain ⟨k, hk⟩ := List.getElem?_of_mem ht
    exact ⟨k, (h k x).1 ⟨t, hk, of_decide_eq_true hx⟩⟩
  · rintro ⟨k, hk⟩
    obtain ⟨t, ht, hx⟩ := (h k x).2 hk
    exact ⟨t, List.mem_of_getElem? ht, decide_eq_true hx⟩

/-- What is recorded as undefined. -/
theorem undef_spec : ∀ (n : Nat) (pre : List Ev) (s : CapSt), pre.length = n → s.stack = [[]] → NoDip pre →
    ((pre.foldl CapSt.step s).undef = true ↔ s.undef = true ∨ ∃ p x q, pre = p ++ .use x :: q ∧ ¬ Visible p x) := by
  intro n
  induction n with
  | zero =>
    intro pre s hn hs _
    cases List.length_eq_zero_iff.1 hn
    simp
  | succ n ih =>
    intro pre s hn hs hd
    rcases List.eq_nil_or_concat pre with rfl | ⟨pre, e, rfl⟩
    · cases hn
    rw [List.concat_eq_append] at hn hd ⊢
    have hd' := NoDip.snoc.1 hd
    have h1 := ih pre s (by simpa using hn) hs hd'.1
    have h2 := stack_any hs hd'.1
    rw [List.foldl_append, List.foldl_cons, List.foldl_nil]
    generalize pre.foldl CapSt.step s = s' at h1 h2
    have key : (∃ p x q, pre ++ [e] = p ++ .use x :: q ∧ ¬ Visible p x) ↔
        (∃ p x q, pre = p ++ .use x :: q ∧ ¬ Visible p x) ∨ ∃ x, e = .use x ∧ ¬ Visible pre x := by
      constructor
      · rintro ⟨p, x, q, h, hv⟩
        rcases snoc_split h with ⟨rfl, h3, rfl⟩ | ⟨q', rfl, rfl⟩
        · exact .inr ⟨x, h3, hv⟩
        · exact .inl ⟨p, x, q', rfl, hv⟩
      · rintro (⟨p, x, q, rfl, hv⟩ | ⟨x, rfl, hv⟩)
        · exact ⟨p, x, q ++ [e], by simp, hv⟩
        · exact ⟨pre, x, [], rfl, hv⟩
    rw [key, ← or_assoc, ← h1]
    cases e with
    | opens => simp [CapSt.step]
    | closes => simp [CapSt.step]
    | cap y => simp [CapSt.step, CapSt.insert]
    | use y =>
      simp only [CapSt.step, CapSt.look, Bool.or_eq_true, Bool.not_eq_true', Ev.use.injEq, ← h2]
      constructor
      · rintro (h | h)
        · exact .inl h
        · exact .inr ⟨y, rfl, by rw [h]; exact Bool.false_ne_true⟩
      · rintro (h | ⟨x, rfl, h⟩)
        · exact .inl h
        · exact .inr (by simpa using h)

/-- What the current definition has captured. -/
theorem cur_spec : ∀ (evs : List Ev) (s : CapSt) (x : List Byte), x ∈ (evs.foldl CapSt.step s).cur ↔ x ∈ s.cur ∨ .cap x ∈ evs
  | [], s, x => by simp
  | e :: evs, s, x => by
    rw [List.foldl_cons, cur_spec evs]
    cases e <;> simp [CapSt.step, CapSt.insert, CapSt.look, or_assoc, or_left_comm]

theorem own_spec : ∀ (n : Nat) (pre : List Ev) (s : CapSt), pre.length = n → s.cur = [] →
    ((pre.foldl CapSt.step s).own = true ↔ s.own = true ∧ ∀ p x q, pre = p ++ .use x :: q → .cap x ∈ p) := by
  intro n
  induction n with
  | zero =>
    intro pre s hn _
    cases List.length_eq_zero_iff.1 hn
    simp
  | succ n ih =>
    intro pre s hn hs
    rcases List.eq_nil_or_concat pre with rfl | ⟨pre, e, rfl⟩
    · cases hn
    rw [List.concat_eq_append] at hn ⊢
    have h1 := ih pre s (by simpa using hn) hs
    have h2 := fun x => cur_spec pre s x
    rw [List.foldl_append, List.foldl_cons, List.foldl_nil]
    generalize pre.foldl CapSt.step s = s' at h1 h2
    have key : (∀ p x q, pre ++ [e] = p ++ .use x :: q → .cap x ∈ p) ↔
        (∀ p x q, pre = p ++ .use x :: q → .cap x ∈ p) ∧ ∀ x, e = .use x → .cap x ∈ pre := by
      constructor
      · intro h
        exact ⟨fun p x q e' => h p x (q ++ [e]) (by rw [e']; simp), fun x e' => h pre x [] (by rw [e'])⟩
      · rintro ⟨ha, hb⟩ p x q h
        rcases snoc_split h with ⟨rfl, h3, rfl⟩ | ⟨q', rfl, rfl⟩
        · exact hb x h3
        · exact ha p x q' rfl
    rw [key, ← and_assoc, ← h1]
    cases e with
    | opens => simp [CapSt.step]
    | closes => simp [CapSt.step]
    | cap y => simp [CapSt.step, CapSt.insert]
    | use y =>
      have h2 : y ∈ s'.cur ↔ .cap y ∈ pre := by rw [h2 y, hs]; simp
      simp [CapSt.step, CapSt.look, h2]

/-- Forgetting the captures of the definition before does not change the other fields. -/
theorem step_cur (s : CapSt) (c : List (List Byte)) (e : Ev) : (CapSt.step { s with cur := c } e).stack = (CapSt.step s e).stack ∧
    (CapSt.step { s with cur := c } e).undef = (CapSt.step s e).undef := by
  cases e <;> exact ⟨rfl, rfl⟩

theorem foldl_same : ∀ (evs : List Ev) (s s' : CapSt), s.stack = s'.stack → s.undef = s'.undef →
    (evs.foldl CapSt.step s).stack = (evs.foldl CapSt.step s').stack ∧ (evs.foldl CapSt.step s).undef = (evs.foldl CapSt.step s').undef
  | [], _, _, h1, h2 => ⟨h1, h2⟩
  | e :: evs, s, s', h1, h2 => by
    rw [List.foldl_cons, List.foldl_cons]
    refine foldl_same evs _ _ ?_ ?_ <;> cases e <;> simp [CapSt.step, CapSt.insert, CapSt.look, h1, h2]

theorem scanAll_same (ds : List RDef) : ∀ (s s' : CapSt), s.stack = s'.stack → s.undef = s'.undef →
    (ds.foldl scanDef s).undef = ((ds.flatMap fun d => Src.events d.body).foldl CapSt.step s').undef := by
  induction ds with
  | nil => intro s s' _ h; exact h
  | cons d ds ih =>
    intro s s' h1 h2
    rw [List.foldl_cons, List.flatMap_cons, List.foldl_append]
    obtain ⟨k1, k2⟩ := foldl_same (Src.events d.body) { s with cur := [] } s' h1 h2
    refine ih _ _ ?_ ?_
    · unfold scanDef; rw [scan_events]; exact k1
    · unfold scanDef; rw [scan_events]; exact k2

theorem allEvents_bal (ds : List RDef) : NoDip (ds.flatMap fun d => Src.events d.body) := by
  induction ds with
  | nil => exact .nil
  | cons d ds ih => rw [List.flatMap_cons]; exact (events_bal d.body).1.append ih

/-- The text is refused exactly if some back reference names no visible capture. -/
theorem undefBref_iff (ds : List RDef) : undefBref ds = true ↔
    ∃ p x q, (ds.flatMap fun d => Src.events d.body) = p ++ .use x :: q ∧ ¬ Visible p x := by
  unfold undefBref scanAll
  rw [scanAll_same ds {} {} rfl rfl, undef_spec _ _ _ rfl rfl (allEvents_bal ds)]
  simp

theorem own_all : ∀ (ds : List RDef) (s : CapSt), (ds.foldl scanDef s).own = true ↔
    s.own = true ∧ ∀ d ∈ ds, ∀ p x q, Src.events d.body = p ++ .use x :: q → .cap x ∈ p
  | [], s => by simp
  | d :: ds, s => by
    rw [List.foldl_cons, own_all ds]
    unfold scanDef
    rw [scan_events, own_spec _ _ _ rfl rfl]
    simp [and_assoc]

/-- Packrat parsing is possible exactly if every back reference follows a capture of its name in its own definition. -/
theorem ownCaps_iff (ds : List RDef) : ownCaps ds = true ↔ ∀ d ∈ ds, ∀ p x q, Src.events d.body = p ++ .use x :: q → .cap x ∈ p := by
  unfold ownCaps scanAll
  rw [own_all]
  simp

end Verif.Meta
