import Verif.Basic
/-!
# The packrat value table (peglib.h 898-1000, class PackratCache)

Memory of the two parallel vectors `keys_` and `vals_` is a function of the index together with the common size `cap`
(`cap = 0` is the state before the first `grow`, where both vectors are empty).  Indices are always reduced by
`& mask`, and `mask_lt` below shows they stay inside.  `V` is the type of a stored `std::any` that has a value;
`size_t` keys are natural numbers below 2^64 - 2 (`idx < cache_registered.size()` in every caller).
-/
namespace Verif.Packrat

/-- peglib.h 966: `kEmpty = static_cast<size_t>(-1)`. -/
def kEmpty : Nat := 2 ^ 64 - 1
/-- peglib.h 967: `kTombstone = static_cast<size_t>(-2)`. -/
def kTombstone : Nat := 2 ^ 64 - 2

/-- peglib.h 969-974: `mix`, 64-bit target. -/
def mix (key : Nat) : Nat :=
  let h := key * 0x9E3779B97F4A7C15 % 2 ^ 64
  h ^^^ (h >>> 32)

/-- peglib.h 996-999: the data members (`initial_capacity_`, `keys_`, `vals_`, `used_`). -/
structure Cache (V : Type) where
  initCap : Nat
  cap : Nat
  keys : Nat → Nat
  vals : Nat → Option V
  used : Nat

variable {V : Type}

/-- Model only: assignment to an array element (peglib.h 898-1000). -/
def upd {α : Type} (f : Nat → α) (i : Nat) (x : α) : Nat → α := fun j => if j = i then x else f j

/-- peglib.h 907-911: the constructor doubles 1024 until it reaches the expected number of entries.  Structural on a
fuel: `expected` doublings are enough. -/
def initCapLoop : Nat → Nat → Nat → Nat
  | 0, c, _ => c
  | f + 1, c, expected => if c < expected then initCapLoop f (c * 2) expected else c

/-- peglib.h 907-911: the constructor. -/
def Cache.new (expected : Nat) : Cache V :=
  { initCap := initCapLoop expected 1024 expected, cap := 0, keys := fun _ => kEmpty, vals := fun _ => none, used := 0 }

/-- peglib.h 917-924: the probe loop of `find`; `oof` = still running after `fuel` probes. -/
def findLoop (c : Cache V) (key : Nat) : Nat → Nat → Out (Option (Option V))
  | 0, _ => .oof
  | f + 1, i =>
    if c.keys i = key then .ok (some (c.vals i))
    else if c.keys i = kEmpty then .ok none
    else findLoop c key f ((i + 1) &&& (c.cap - 1))

/-- peglib.h 913-925: `find`. -/
def Cache.find (c : Cache V) (key : Nat) : Out (Option (Option V)) :=
  if c.cap = 0 then .ok none
  else findLoop c key c.cap (mix key &&& (c.cap - 1))

/-- peglib.h 987-989: `while (keys_[i] != kEmpty) i = (i + 1) & mask` inside `grow`. -/
def growProbe (c : Cache V) : Nat → Nat → Out Nat
  | 0, _ => .oof
  | f + 1, i => if c.keys i ≠ kEmpty then growProbe c f ((i + 1) &&& (c.cap - 1)) else .ok i

/-- peglib.h 984-993: the loop over the old slots, `j` counting up. -/
def growLoop (okeys : Nat → Nat) (ovals : Nat → Option V) : Nat → Nat → Cache V → Out (Cache V)
  | 0, _, c => .ok c
  | n + 1, j, c =>
    if okeys j = kEmpty ∨ okeys j = kTombstone then growLoop okeys ovals n (j + 1) c
    else (growProbe c c.cap (mix (okeys j) &&& (c.cap - 1))).bind fun i =>
      growLoop okeys ovals n (j + 1)
        { c with keys := upd c.keys i (okeys j), vals := upd c.vals i (ovals j), used := c.used + 1 }

/-- peglib.h 976-994: `grow`. -/
def Cache.grow (c : Cache V) : Out (Cache V) :=
  let newCap := if c.cap = 0 then c.initCap else c.cap * 2
  growLoop c.keys c.vals c.cap 0
    { c with cap := newCap, keys := fun _ => kEmpty, vals := fun _ => none, used := 0 }

/-- peglib.h 932-945: the probe loop of `insert_or_assign`: the slot to write and the new `used_`.
`ip` is the local `insert_pos` (`kEmpty` = not set). -/
def insLoop (c : Cache V) (key : Nat) : Nat → Nat → Nat → Out (Nat × Nat)
  | 0, _, _ => .oof
  | f + 1, i, ip =>
    if c.keys i = key then .ok (i, c.used)
    else if c.keys i = kTombstone then
      insLoop c key f ((i + 1) &&& (c.cap - 1)) (if ip = kEmpty then i else ip)
    else if c.keys i = kEmpty then
      let ip := if ip = kEmpty then i else ip
      .ok (ip, if c.keys ip = kEmpty then c.used + 1 else c.used)
    else insLoop c key f ((i + 1) &&& (c.cap - 1)) ip

/-- peglib.h 927-948: `insert_or_assign`. -/
def Cache.insertOrAssign (c : Cache V) (key : Nat) (val : Option V) : Out (Cache V) :=
  (if c.cap = 0 ∨ (c.used + 1) * 4 > c.cap * 3 then c.grow else .ok c).bind fun c =>
    (insLoop c key c.cap (mix key &&& (c.cap - 1)) kEmpty).bind fun (ip, used) =>
      .ok { c with keys := upd c.keys ip key, vals := upd c.vals ip val, used := used }

/-- peglib.h 954-962: the probe loop of `erase`. -/
def eraseLoop (c : Cache V) (key : Nat) : Nat → Nat → Out (Cache V)
  | 0, _ => .oof
  | f + 1, i =>
    if c.keys i = key then .ok { c with keys := upd c.keys i kTombstone, vals := upd c.vals i none }
    else if c.keys i = kEmpty then .ok c
    else eraseLoop c key f ((i + 1) &&& (c.cap - 1))

/-- peglib.h 950-963: `erase`. -/
def Cache.erase (c : Cache V) (key : Nat) : Out (Cache V) :=
  if c.cap = 0 then .ok c
  else eraseLoop c key c.cap (mix key &&& (c.cap - 1))

/-! ## The memo tables of a Context (peglib.h 1037-1053, 1085-1130, 1214-1272) -/

/-- peglib.h 1037-1053: `packrat_cached_count`, the two bit vectors, `cache_len` and `cache_values`.
`size` is the length of the vectors, `packrat_cached_count * (l + 1)`. -/
structure Store (V : Type) where
  count : Nat
  size : Nat
  registered : Nat → Bool
  success : Nat → Bool
  len : Nat → Nat
  values : Cache V

/-- peglib.h 1169-1182: the constructor's initialisation of those members. -/
def Store.new (count l expected : Nat) : Store V :=
  { count, size := count * (l + 1), registered := fun _ => false, success := fun _ => false, len := fun _ => 0,
    values := Cache.new expected }

/-- `idx` of peglib.h 1095, 1109-1110, 1243-1244. -/
def Store.idx (s : Store V) (col slot : Nat) : Nat := s.count * col + slot

/-- peglib.h 1090-1101: `clear_packrat_cache` for a memoised rule (`slot >= 0`). -/
def Store.clear (s : Store V) (col slot : Nat) : Out (Store V) :=
  let i := s.idx col slot
  let s := if i < s.size then { s with registered := upd s.registered i false, success := upd s.success i false } else s
  (s.values.erase i).bind fun v => .ok { s with values := v }

/-- peglib.h 1103-1130: `write_packrat_cache` for a memoised rule on a 64-bit target. -/
def Store.write (s : Store V) (col slot len : Nat) (val : Option V) : Out (Store V) :=
  let i := s.idx col slot
  if i ≥ s.size then .ok s
  else if len > 2 ^ 32 - 1 then .ok { s with registered := upd s.registered i false }
  else
    let s := { s with registered := upd s.registered i true, success := upd s.success i true, len := upd s.len i len }
    match val with
    | some v => (s.values.insertOrAssign i (some v)).bind fun c => .ok { s with values := c }
    | none => (s.values.erase i).bind fun c => .ok { s with values := c }

/-- peglib.h 1258-1260: registering the failure before the rule body runs (indexing a vector: out of range is
undefined). -/
def Store.begin (s : Store V) (col slot : Nat) : Out (Store V) :=
  let i := s.idx col slot
  if i < s.size then .ok { s with registered := upd s.registered i true, success := upd s.success i false }
  else .ub "cache_registered out of range"

/-- peglib.h 1246-1256: what a rule invocation reads: not registered, a failure, or a length with its value. -/
def Store.lookup (s : Store V) (col slot : Nat) : Out (Option (Option (Nat × Option V))) :=
  let i := s.idx col slot
  if i < s.size then
    if s.registered i then
      if s.success i then (s.values.find i).bind fun r => .ok (some (some (s.len i, r.join)))
      else .ok (some none)
    else .ok none
  else .ub "cache_registered out of range"

/-- peglib.h 1090-1135: One operation of a Context on the memo tables. -/
inductive Op (V : Type) where
  | begin (col slot : Nat)
  | write (col slot len : Nat) (val : Option V)
  | clear (col slot : Nat)

/-- Model only: a sequence of the operations of peglib.h 1090-1135. -/
def Store.run (s : Store V) : List (Op V) → Out (Store V)
  | [] => .ok s
  | .begin c r :: t => (s.begin c r).bind fun s => s.run t
  | .write c r l v :: t => (s.write c r l v).bind fun s => s.run t
  | .clear c r :: t => (s.clear c r).bind fun s => s.run t

end Verif.Packrat
