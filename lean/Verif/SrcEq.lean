import Verif.Meta
/-!
# Equality of expressions as read, decided by a function

Only used to evaluate examples.
-/

namespace Verif.Meta
open Verif

def allEq (f : α → α → Bool) : List α → List α → Bool
  | [], [] => true
  | a :: as, b :: bs => f a b && allEq f as bs
  | _, _ => false

theorem allEq_eq {f : α → α → Bool} (h : ∀ a b, f a b = true → a = b) : ∀ {a b : List α}, allEq f a b = true → a = b
  | [], [], _ => rfl
  | a :: as, b :: bs, h' => by
    simp only [allEq, Bool.and_eq_true] at h'
    rw [h a b h'.1, allEq_eq h h'.2]

def byteEq (a b : Byte) : Bool := Nat.beq a.toNat b.toNat

theorem byteEq_eq (a b : Byte) (h : byteEq a b = true) : a = b := UInt8.toNat_inj.mp (Nat.eq_of_beq_eq_true h)

def bytesEq : List Byte → List Byte → Bool := allEq byteEq

theorem bytesEq_eq {a b : List Byte} (h : bytesEq a b = true) : a = b := allEq_eq byteEq_eq h

def boolEq : Bool → Bool → Bool
  | true, true => true
  | false, false => true
  | _, _ => false

theorem boolEq_eq {a b : Bool} (h : boolEq a b = true) : a = b := by cases a <;> cases b <;> first | rfl | cases h

def optEq (f : α → α → Bool) : Option α → Option α → Bool
  | none, none => true
  | some a, some b => f a b
  | _, _ => false

theorem optEq_eq {f : α → α → Bool} (h : ∀ a b, f a b = true → a = b) {a b : Option α} (h' : optEq f a b = true) : a = b := by
  cases a <;> cases b <;> simp only [optEq, Bool.false_eq_true] at h'
  · rfl
  · rw [h _ _ h']

def pairEq (a b : Nat × Nat) : Bool := Nat.beq a.1 b.1 && Nat.beq a.2 b.2

theorem pairEq_eq (a b : Nat × Nat) (h : pairEq a b = true) : a = b := by
  simp only [pairEq, Bool.and_eq_true] at h
  exact Prod.ext (Nat.eq_of_beq_eq_true h.1) (Nat.eq_of_beq_eq_true h.2)

def levelEq (a b : List Byte × Nat × Byte) : Bool := bytesEq a.1 b.1 && (Nat.beq a.2.1 b.2.1 && byteEq a.2.2 b.2.2)

theorem levelEq_eq (a b : List Byte × Nat × Byte) (h : levelEq a b = true) : a = b := by
  simp only [levelEq, Bool.and_eq_true] at h
  exact Prod.ext (bytesEq_eq h.1) (Prod.ext (Nat.eq_of_beq_eq_true h.2.1) (byteEq_eq _ _ h.2.2))

def instrEq : Instr → Instr → Bool
  | .prec a, .prec b => allEq levelEq a b
  | .msg a, .msg b => bytesEq a b
  | .noAstOpt, .noAstOpt => true
  | .noWs, .noWs => true
  | .astName a, .astName b => bytesEq a b
  | _, _ => false

theorem instrEq_eq (a b : Instr) (h : instrEq a b = true) : a = b := by
  cases a <;> cases b <;> simp only [instrEq, Bool.false_eq_true] at h
  · rw [allEq_eq levelEq_eq h]
  · rw [bytesEq_eq h]
  · rfl
  · rfl
  · rw [bytesEq_eq h]

mutual
def srcEq : Src → Src → Bool
  | .seq a, .seq b => srcsEq a b
  | .cho a f, .cho b g => srcsEq a b && boolEq f g
  | .rep a n m, .rep b n' m' => srcEq a b && (Nat.beq n n' && optEq Nat.beq m m')
  | .and_ a, .and_ b => srcEq a b
  | .not_ a, .not_ b => srcEq a b
  | .dict a f, .dict b g => allEq bytesEq a b && boolEq f g
  | .lit a f, .lit b g => bytesEq a b && boolEq f g
  | .cls a, .cls b => allEq pairEq a.ranges b.ranges && (boolEq a.negated b.negated && boolEq a.ignoreCase b.ignoreCase)
  | .chr a, .chr b => Nat.beq a b
  | .dot, .dot => true
  | .capScope a, .capScope b => srcEq a b
  | .cap n a, .cap m b => bytesEq n m && srcEq a b
  | .tok a, .tok b => srcEq a b
  | .ign a, .ign b => srcEq a b
  | .usr a, .usr b => Nat.beq a b
  | .ref n f a, .ref m g b => bytesEq n m && (boolEq f g && srcsEq a b)
  | .bref n, .bref m => bytesEq n m
  | .recov n f a, .recov m g b => bytesEq n m && (boolEq f g && srcsEq a b)
  | .cut, .cut => true
  | _, _ => false
def srcsEq : List Src → List Src → Bool
  | [], [] => true
  | a :: as, b :: bs => srcEq a b && srcsEq as bs
  | _, _ => false
end

mutual
theorem srcEq_eq : ∀ {a b : Src}, srcEq a b = true → a = b := by
  intro a b h
  cases a <;> cases b <;> simp only [srcEq, Bool.and_eq_true, decide_eq_true_eq, Bool.false_eq_true] at h
  case seq.seq a b => rw [srcsEq_eq h]
  case cho.cho a f b g => rw [srcsEq_eq h.1, boolEq_eq h.2]
  case rep.rep a n m b n' m' => rw [srcEq_eq h.1, Nat.eq_of_beq_eq_true h.2.1, optEq_eq (fun _ _ => Nat.eq_of_beq_eq_true) h.2.2]
  case and_.and_ a b => rw [srcEq_eq h]
  case not_.not_ a b => rw [srcEq_eq h]
  case dict.dict a f b g => rw [allEq_eq (fun _ _ => bytesEq_eq) h.1, boolEq_eq h.2]
  case lit.lit a f b g => rw [bytesEq_eq h.1, boolEq_eq h.2]
  case cls.cls a b =>
    obtain ⟨r, n, i⟩ := a
    obtain ⟨r', n', i'⟩ := b
    simp only at h
    rw [allEq_eq pairEq_eq h.1, boolEq_eq h.2.1, boolEq_eq h.2.2]
  case chr.chr a b => rw [Nat.eq_of_beq_eq_true h]
  case capScope.capScope a b => rw [srcEq_eq h]
  case cap.cap n a m b => rw [bytesEq_eq h.1, srcEq_eq h.2]
  case tok.tok a b => rw [srcEq_eq h]
  case ign.ign a b => rw [srcEq_eq h]
  case usr.usr a b => rw [Nat.eq_of_beq_eq_true h]
  case ref.ref n f a m g b => rw [bytesEq_eq h.1, boolEq_eq h.2.1, srcsEq_eq h.2.2]
  case bref.bref a b => rw [bytesEq_eq h]
  case recov.recov n f a m g b => rw [bytesEq_eq h.1, boolEq_eq h.2.1, srcsEq_eq h.2.2]
  all_goals rfl
theorem srcsEq_eq : ∀ {a b : List Src}, srcsEq a b = true → a = b := by
  intro a b h
  cases a <;> cases b <;> simp only [srcsEq, Bool.and_eq_true, Bool.false_eq_true] at h
  · rfl
  · rw [srcEq_eq h.1, srcsEq_eq h.2]
end

def defEq (a b : RDef) : Bool :=
  boolEq a.ign b.ign && (bytesEq a.name b.name && (optEq (allEq bytesEq) a.params b.params && (srcEq a.body b.body && allEq instrEq a.instrs b.instrs)))

theorem defEq_eq {a b : RDef} (h : defEq a b = true) : a = b := by
  obtain ⟨i, n, p, e, s⟩ := a
  obtain ⟨i', n', p', e', s'⟩ := b
  simp only [defEq, Bool.and_eq_true] at h
  rw [boolEq_eq h.1, bytesEq_eq h.2.1, optEq_eq (fun _ _ => allEq_eq fun _ _ => bytesEq_eq) h.2.2.1, srcEq_eq h.2.2.2.1, allEq_eq instrEq_eq h.2.2.2.2]

def defsEq : List RDef → List RDef → Bool
  | [], [] => true
  | a :: as, b :: bs => defEq a b && defsEq as bs
  | _, _ => false

theorem defsEq_eq : ∀ {a b : List RDef}, defsEq a b = true → a = b
  | [], [], _ => rfl
  | a :: as, b :: bs, h => by
    simp only [defsEq, Bool.and_eq_true] at h
    rw [defEq_eq h.1, defsEq_eq h.2]

/-- The result of reading is `r`. -/
def readIs (o : Out Read) (r : Read) : Bool :=
  match o, r with
  | .ok .refused, .refused => true
  | .ok (.crash a), .crash b => decide (a = b)
  | .ok (.defs a), .defs b => defsEq a b
  | _, _ => false

theorem readIs_eq {o : Out Read} {r : Read} (h : readIs o r = true) : o = .ok r := by
  unfold readIs at h
  split at h
  · rfl
  · rw [of_decide_eq_true h]
  · rw [defsEq_eq h]
  · cases h

end Verif.Meta
