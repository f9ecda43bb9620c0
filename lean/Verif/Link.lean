import Verif.Safety
/-!
# From the front end's tree to linked rules (peglib.h 2829-2859, 4558-4580, 4917-4939, 6310-6351)

`Src` is the operator tree the grammar reader builds, references by name.  `Src.check` is `ReferenceChecker`, `Src.link` is
`LinkReferences`.  Operators that only appear later (precedence climbing, the white-space wrapper, holders) are not in `Src`.
-/

namespace Verif
open CharClass

/-- The tree the grammar reader builds (peglib.h 5700-6060): like `Ope`, references carry the name, whether an argument list was
written, and the arguments. -/
inductive Src where
  | seq (es : List Src)
  | cho (es : List Src) (forLabel : Bool)
  | rep (e : Src) (min : Nat) (max : Option Nat)
  | and_ (e : Src)
  | not_ (e : Src)
  | dict (words : List (List Byte)) (ic : Bool)
  | lit (s : List Byte) (ic : Bool)
  | cls (c : Cls)
  | chr (c : Nat)
  | dot
  | capScope (e : Src)
  | cap (name : List Byte) (e : Src)
  | tok (e : Src)
  | ign (e : Src)
  | usr (id : Nat)
  | ref (name : List Byte) (mac : Bool) (args : List Src)
  | bref (name : List Byte)
  | recov (name : List Byte) (mac : Bool) (args : List Src)
  | cut
  deriving Inhabited

/-- peglib.h 3106-3330, 5428-5445: A rule before linking: its attributes (`head`; the operator in it is not used) and its body. -/
structure SDef where
  head : Def
  body : Src
  deriving Inhabited

/-- peglib.h 4919-4940: `grammar_.count(name)` / `grammar_.at(name)`: names are unique in the map, so the first rule with the name is the rule. -/
def ruleNamed (ds : List SDef) (nm : List Byte) : Option Nat := ds.findIdx? fun d => d.head.name = nm

/-- peglib.h 4917-4927: the position of a parameter. -/
def paramIdx (ps : List (List Byte)) (nm : List Byte) : Option Nat := ps.findIdx? fun p => p = nm

mutual
/-- peglib.h 2829-2845, 4558-4580 `ReferenceChecker`: no error is recorded.  A reference named like a parameter is accepted at
once, its arguments are not looked at. -/
def Src.check (ds : List SDef) (ps : List (List Byte)) : Src → Bool
  | .seq es => Src.checkL ds ps es
  | .cho es _ => Src.checkL ds ps es
  | .rep e _ _ => e.check ds ps
  | .and_ e => e.check ds ps
  | .not_ e => e.check ds ps
  | .capScope e => e.check ds ps
  | .cap _ e => e.check ds ps
  | .tok e => e.check ds ps
  | .ign e => e.check ds ps
  | .ref nm mac as =>
    if nm ∈ ps then true
    else match (ruleNamed ds nm).bind fun r => ds[r]? with
      | none => false
      | some d => (if d.head.isMacro then mac && decide (as.length = d.head.params.length) else !mac) && Src.checkL ds ps as
  | .recov nm mac as =>
    if nm ∈ ps then true
    else match (ruleNamed ds nm).bind fun r => ds[r]? with
      | none => false
      | some d => (if d.head.isMacro then mac && decide (as.length = d.head.params.length) else !mac) && Src.checkL ds ps as
  | .dict _ _ => true
  | .lit _ _ => true
  | .cls _ => true
  | .chr _ => true
  | .dot => true
  | .usr _ => true
  | .bref _ => true
  | .cut => true

def Src.checkL (ds : List SDef) (ps : List (List Byte)) : List Src → Bool
  | [] => true
  | e :: es => e.check ds ps && Src.checkL ds ps es
end

mutual
/-- peglib.h 2847-2859, 4917-4939 `LinkReferences`.  A reference to a parameter keeps its (never used) arguments in the code; a
reference that is neither a parameter nor a rule keeps `rule_ = nullptr` and `iarg_ = 0`, so it behaves as parameter 0. A
recovery around a reference that does not name a rule is not represented (`null`); the reader only builds recoveries around
`%recover`. -/
def Src.link (ds : List SDef) (ps : List (List Byte)) : Src → Ope
  | .seq es => .seq (Src.linkL ds ps es) none
  | .cho es l => .cho (Src.linkL ds ps es) l []
  | .rep e mn mx => .rep (e.link ds ps) mn mx none
  | .and_ e => .and_ (e.link ds ps)
  | .not_ e => .not_ (e.link ds ps)
  | .capScope e => .capScope (e.link ds ps)
  | .cap nm e => .cap nm (e.link ds ps)
  | .tok e => .tok (e.link ds ps)
  | .ign e => .ign (e.link ds ps)
  | .ref nm _ as =>
    match paramIdx ps nm with
    | some k => .param k nm
    | none =>
      match ruleNamed ds nm with
      | some r => .ref r nm (Src.linkL ds ps as)
      | none => .param 0 nm
  | .recov nm _ as =>
    match paramIdx ps nm with
    | some _ => .null
    | none =>
      match ruleNamed ds nm with
      | some r => .recov r nm (Src.linkL ds ps as)
      | none => .null
  | .dict w ic => .dict w ic
  | .lit s ic => .lit s ic
  | .cls c => .cls c
  | .chr c => .chr c
  | .dot => .dot
  | .usr id => .usr id
  | .bref nm => .bref nm
  | .cut => .cut

def Src.linkL (ds : List SDef) (ps : List (List Byte)) : List Src → List Ope
  | [] => []
  | e :: es => e.link ds ps :: Src.linkL ds ps es
end

/-- peglib.h 6320-6332: every rule passes the reference check. -/
def refsOk (ds : List SDef) : Bool := ds.all fun d => d.body.check ds d.head.params

mutual
/-- peglib.h 2462-2483 `IsLiteralToken::check`. -/
def Src.isLitTok : Src → Bool
  | .cho es _ => Src.isLitTokL es
  | .dict _ _ => true
  | .lit _ _ => true
  | _ => false
def Src.isLitTokL : List Src → Bool
  | [] => true
  | e :: es => e.isLitTok && Src.isLitTokL es
end

mutual
/-- peglib.h 2485-2495, 4370-4378 `TokenChecker`: `has_token_boundary_`, `has_rule_`. -/
def Src.tokScan : Src → Bool × Bool
  | .seq es => Src.tokScanL es
  | .cho es _ => Src.tokScanL es
  | .rep e _ _ => e.tokScan
  | .capScope e => e.tokScan
  | .cap _ e => e.tokScan
  | .tok _ => (true, false)
  | .ign e => e.tokScan
  | .ref _ mac as => if mac then Src.tokScanL as else (false, true)
  | .recov _ mac as => if mac then Src.tokScanL as else (false, true)
  | _ => (false, false)
def Src.tokScanL : List Src → Bool × Bool
  | [] => (false, false)
  | e :: es => (e.tokScan.1 || (Src.tokScanL es).1, e.tokScan.2 || (Src.tokScanL es).2)
end

/-- peglib.h 2494-2500, 3272-3279 `is_token`. -/
def Src.isTok (e : Src) : Bool := e.isLitTok || e.tokScan.1 || !e.tokScan.2

mutual
/-- peglib.h 2507-2524, 4380-4387 `FindLiteralToken` (the visit of the called rule does nothing).  For a parameter that is called with arguments the code
uses a null pointer, if the call is all there is in the rule (not modelled). -/
def Src.litScan : Src → Option (List Byte) → Option (List Byte)
  | .lit s _, _ => some s
  | .tok e, acc => e.litScan acc
  | .ign e, acc => e.litScan acc
  | .ref _ mac as, acc => if mac then Src.litScanL as acc else acc
  | .recov _ mac as, acc => if mac then Src.litScanL as acc else acc
  | _, acc => acc
def Src.litScanL : List Src → Option (List Byte) → Option (List Byte)
  | [], acc => acc
  | e :: es, acc => Src.litScanL es (e.litScan acc)
end

/-- peglib.h 3623-3629: the literal as a C string, if it is not empty. -/
def Src.litTok (e : Src) : Option (List Byte) :=
  match e.litScan none with
  | none => none
  | some s => if (s.takeWhile (· ≠ 0)).isEmpty then none else some (s.takeWhile (· ≠ 0))

/-- peglib.h 6345-6351: all rules linked.  `isToken` and `errLit` are computed when they are first needed, which is later; they depend on the operator only,
and the only step that changes it so that they change is `applyPrec`. -/
def linkAll (ds : List SDef) : List Def :=
  ds.map fun d => { d.head with ope := d.body.link ds d.head.params, isToken := d.body.isTok, errLit := d.body.litTok }

/-! ## What the check establishes -/

mutual
/-- The references in an expression: name, whether an argument list was written, number of arguments.  Those inside the argument
list of a reference to a parameter (which is never used) are left out. -/
def Src.refs (ps : List (List Byte)) : Src → List (List Byte × Bool × Nat)
  | .seq es => Src.refsL ps es
  | .cho es _ => Src.refsL ps es
  | .rep e _ _ => e.refs ps
  | .and_ e => e.refs ps
  | .not_ e => e.refs ps
  | .capScope e => e.refs ps
  | .cap _ e => e.refs ps
  | .tok e => e.refs ps
  | .ign e => e.refs ps
  | .ref nm mac as => (nm, mac, as.length) :: if nm ∈ ps then [] else Src.refsL ps as
  | .recov nm mac as => (nm, mac, as.length) :: if nm ∈ ps then [] else Src.refsL ps as
  | .dict _ _ => []
  | .lit _ _ => []
  | .cls _ => []
  | .chr _ => []
  | .dot => []
  | .usr _ => []
  | .bref _ => []
  | .cut => []

def Src.refsL (ps : List (List Byte)) : List Src → List (List Byte × Bool × Nat)
  | [] => []
  | e :: es => e.refs ps ++ Src.refsL ps es
end

/-- What a reference in a rule with parameters `ps` must be: a parameter, or a defined rule, called with arguments exactly when it
is a macro, and then with the right number. -/
def Resolves (ds : List SDef) (ps : List (List Byte)) (x : List Byte × Bool × Nat) : Prop :=
  x.1 ∈ ps ∨ ∃ (r : Nat) (d : SDef), ruleNamed ds x.1 = some r ∧ ds[r]? = some d ∧
    (d.head.isMacro = true → x.2.1 = true ∧ x.2.2 = d.head.params.length) ∧ (d.head.isMacro = false → x.2.1 = false)

theorem ruleNamed_some {ds : List SDef} {nm : List Byte} {r : Nat} (h : ruleNamed ds nm = some r) :
    ∃ d, ds[r]? = some d ∧ d.head.name = nm := by
  unfold ruleNamed at h
  rw [List.findIdx?_eq_some_iff_getElem] at h
  obtain ⟨h1, h2, -⟩ := h
  exact ⟨ds[r], List.getElem?_eq_getElem h1, by simpa using h2⟩

theorem ruleNamed_isSome (ds : List SDef) (nm : List Byte) : (ruleNamed ds nm).isSome = true ↔ ∃ d ∈ ds, d.head.name = nm := by
  unfold ruleNamed
  rw [List.findIdx?_isSome]
  simp

theorem refCheck_iff (ds : List SDef) (ps : List (List Byte)) (nm : List Byte) (mac : Bool) (n : Nat) (c : Bool) (P : Prop)
    (hc : c = true ↔ P) :
    (if nm ∈ ps then true
    else match (ruleNamed ds nm).bind fun r => ds[r]? with
      | none => false
      | some d => (if d.head.isMacro then mac && decide (n = d.head.params.length) else !mac) && c) = true ↔
    Resolves ds ps (nm, mac, n) ∧ (nm ∉ ps → P) := by
  by_cases hp : nm ∈ ps
  · rw [if_pos hp]
    exact ⟨fun _ => ⟨Or.inl hp, fun h => absurd hp h⟩, fun _ => rfl⟩
  · rw [if_neg hp]
    cases hr : ruleNamed ds nm with
    | none =>
      constructor
      · intro h; cases h
      · rintro ⟨h | ⟨r, d, h, -⟩, -⟩
        · exact absurd h hp
        · dsimp only at h; rw [hr] at h; cases h
    | some r =>
      obtain ⟨d, hd, hn⟩ := ruleNamed_some hr
      rw [Option.bind_some, hd]
      dsimp only
      rw [Bool.and_eq_true, hc]
      constructor
      · rintro ⟨h1, h2⟩
        refine ⟨Or.inr ⟨r, d, hr, hd, ?_, ?_⟩, fun _ => h2⟩
        · intro hm; rw [if_pos hm] at h1
          simpa using h1
        · intro hm; rw [if_neg (by simp [hm])] at h1
          simpa using h1
      · rintro ⟨h | ⟨r', d', h1, h2, h3, h4⟩, h5⟩
        · exact absurd h hp
        · dsimp only at h1
          rw [hr] at h1; cases h1
          rw [hd] at h2; cases h2
          refine ⟨?_, h5 hp⟩
          by_cases hm : d.head.isMacro = true
          · rw [if_pos hm]; have := h3 hm; simpa using this
          · rw [if_neg hm]; have := h4 (by simpa using hm); simpa using this

mutual
/-- The check succeeds exactly when all (used) references resolve. -/
theorem check_iff (ds : List SDef) (ps : List (List Byte)) (e : Src) : e.check ds ps = true ↔ ∀ x ∈ e.refs ps, Resolves ds ps x := by
  cases e with
  | seq es => exact checkL_iff ds ps es
  | cho es l => exact checkL_iff ds ps es
  | rep e a b => exact check_iff ds ps e
  | and_ e => exact check_iff ds ps e
  | not_ e => exact check_iff ds ps e
  | capScope e => exact check_iff ds ps e
  | cap n e => exact check_iff ds ps e
  | tok e => exact check_iff ds ps e
  | ign e => exact check_iff ds ps e
  | ref nm mac as =>
    simp only [Src.check, Src.refs]
    rw [refCheck_iff ds ps nm mac as.length _ _ (checkL_iff ds ps as)]
    by_cases hp : nm ∈ ps <;> simp [hp]
  | recov nm mac as =>
    simp only [Src.check, Src.refs]
    rw [refCheck_iff ds ps nm mac as.length _ _ (checkL_iff ds ps as)]
    by_cases hp : nm ∈ ps <;> simp [hp]
  | _ => simp [Src.check, Src.refs]

theorem checkL_iff (ds : List SDef) (ps : List (List Byte)) (es : List Src) :
    Src.checkL ds ps es = true ↔ ∀ x ∈ Src.refsL ps es, Resolves ds ps x := by
  cases es with
  | nil => simp [Src.checkL, Src.refsL]
  | cons e es =>
    simp only [Src.checkL, Src.refsL, Bool.and_eq_true, List.mem_append]
    rw [check_iff ds ps e, checkL_iff ds ps es]
    constructor
    · rintro ⟨h1, h2⟩ x (h | h)
      · exact h1 x h
      · exact h2 x h
    · intro h
      exact ⟨fun x hx => h x (Or.inl hx), fun x hx => h x (Or.inr hx)⟩
end

/-! ## What linked references are -/

mutual
/-- Every reference of a linked expression, its arguments included, designates a rule with the right number of arguments or a
parameter, and there is no null operator.  (Operators the linker does not produce count as unlinked.) -/
def Ope.linked (rs : List Def) (ps : List (List Byte)) : Ope → Bool
  | .seq es _ => Ope.linkedL rs ps es
  | .cho es _ _ => Ope.linkedL rs ps es
  | .rep e _ _ _ => e.linked rs ps
  | .and_ e => e.linked rs ps
  | .not_ e => e.linked rs ps
  | .capScope e => e.linked rs ps
  | .cap _ e => e.linked rs ps
  | .tok e => e.linked rs ps
  | .ign e => e.linked rs ps
  | .dict _ _ => true
  | .lit _ _ => true
  | .cls _ => true
  | .chr _ => true
  | .dot => true
  | .cut => true
  | .usr _ => true
  | .bref _ => true
  | .param k nm => ps[k]? == some nm
  | .ref r nm as =>
    (match rs[r]? with
    | none => false
    | some d => decide (d.name = nm) && (!d.isMacro || decide (as.length = d.params.length))) && Ope.linkedL rs ps as
  | .recov r nm as =>
    (match rs[r]? with
    | none => false
    | some d => decide (d.name = nm) && (!d.isMacro || decide (as.length = d.params.length))) && Ope.linkedL rs ps as
  | .prec a b _ r => a.linked rs ps && b.linked rs ps && (rs[r]?).isSome
  | .weak _ => false
  | .ws _ => false
  | .null => false

def Ope.linkedL (rs : List Def) (ps : List (List Byte)) : List Ope → Bool
  | [] => true
  | e :: es => e.linked rs ps && Ope.linkedL rs ps es
end

theorem linkAll_get {ds : List SDef} {r : Nat} {d : SDef} (h : ds[r]? = some d) :
    (linkAll ds)[r]? = some { d.head with ope := d.body.link ds d.head.params, isToken := d.body.isTok, errLit := d.body.litTok } := by
  unfold linkAll; rw [List.getElem?_map, h]; rfl

theorem linkL_length (ds : List SDef) (ps : List (List Byte)) (es : List Src) : (Src.linkL ds ps es).length = es.length := by
  induction es with
  | nil => rfl
  | cons e es ih => simp [Src.linkL, ih]

theorem paramIdx_some {ps : List (List Byte)} {nm : List Byte} {k : Nat} (h : paramIdx ps nm = some k) : ps[k]? = some nm := by
  unfold paramIdx at h
  rw [List.findIdx?_eq_some_iff_getElem] at h
  obtain ⟨h1, h2, -⟩ := h
  rw [List.getElem?_eq_getElem h1]
  simpa using h2

theorem paramIdx_none {ps : List (List Byte)} {nm : List Byte} (h : paramIdx ps nm = none) : nm ∉ ps := by
  unfold paramIdx at h
  rw [List.findIdx?_eq_none_iff] at h
  intro hm
  have := h nm hm
  simp at this

theorem paramIdx_mem {ps : List (List Byte)} {nm : List Byte} (h : nm ∈ ps) : ∃ k, paramIdx ps nm = some k := by
  cases hk : paramIdx ps nm with
  | none => exact absurd h (paramIdx_none hk)
  | some k => exact ⟨k, rfl⟩

/-- peglib.h 3101: The parameters' names do not hide `%recover`, the only name recoveries refer to. -/
def recoverName : List Byte := "%recover".toUTF8.toList

mutual
/-- Recoveries are built around `%recover` only (peglib.h 5785-5787, 5847). -/
def Src.recovs : Src → Bool
  | .seq es => Src.recovsL es
  | .cho es _ => Src.recovsL es
  | .rep e _ _ => e.recovs
  | .and_ e => e.recovs
  | .not_ e => e.recovs
  | .capScope e => e.recovs
  | .cap _ e => e.recovs
  | .tok e => e.recovs
  | .ign e => e.recovs
  | .ref _ _ as => Src.recovsL as
  | .recov nm _ as => decide (nm = recoverName) && Src.recovsL as
  | .dict _ _ => true
  | .lit _ _ => true
  | .cls _ => true
  | .chr _ => true
  | .dot => true
  | .usr _ => true
  | .bref _ => true
  | .cut => true

def Src.recovsL : List Src → Bool
  | [] => true
  | e :: es => e.recovs && Src.recovsL es
end

theorem resolve_name {ds : List SDef} {ps : List (List Byte)} {nm : List Byte} {mac : Bool} {n : Nat}
    (h : Resolves ds ps (nm, mac, n)) (hp : nm ∉ ps) : ∃ r d, ruleNamed ds nm = some r ∧ ds[r]? = some d ∧ d.head.name = nm ∧
      (d.head.isMacro = true → mac = true ∧ n = d.head.params.length) := by
  rcases h with h | ⟨r, d, h1, h2, h3, -⟩
  · exact absurd h hp
  · obtain ⟨d', hd, hn⟩ := ruleNamed_some h1
    rw [h2] at hd; cases hd
    exact ⟨r, d, h1, h2, hn, h3⟩

mutual
theorem link_linked (ds : List SDef) (ps : List (List Byte)) (hp : recoverName ∉ ps) (e : Src) (hr : e.recovs = true)
    (h : ∀ x ∈ e.refs ps, Resolves ds ps x) : (e.link ds ps).linked (linkAll ds) ps = true := by
  cases e with
  | seq es => exact linkL_linked ds ps hp es hr h
  | cho es l => exact linkL_linked ds ps hp es hr h
  | rep e a b => exact link_linked ds ps hp e hr h
  | and_ e => exact link_linked ds ps hp e hr h
  | not_ e => exact link_linked ds ps hp e hr h
  | capScope e => exact link_linked ds ps hp e hr h
  | cap n e => exact link_linked ds ps hp e hr h
  | tok e => exact link_linked ds ps hp e hr h
  | ign e => exact link_linked ds ps hp e hr h
  | ref nm mac as =>
    simp only [Src.link]
    cases hk : paramIdx ps nm with
    | some k => simp only [Ope.linked]; rw [paramIdx_some hk]; simp
    | none =>
      have hn := paramIdx_none hk
      simp only [Src.refs, if_neg hn] at h
      obtain ⟨r, d, h1, h2, h3, h4⟩ := resolve_name (h _ (List.mem_cons_self ..)) hn
      simp only [h1, Ope.linked, linkAll_get h2, linkL_length, Bool.and_eq_true]
      refine ⟨?_, linkL_linked ds ps hp as hr fun x hx => h x (List.mem_cons_of_mem _ hx)⟩
      rw [Bool.or_eq_true, decide_eq_true_eq, decide_eq_true_eq, Bool.not_eq_true']
      refine ⟨h3, ?_⟩
      cases hm : d.head.isMacro with
      | false => exact Or.inl rfl
      | true => exact Or.inr (h4 hm).2
  | recov nm mac as =>
    simp only [Src.recovs, Bool.and_eq_true, decide_eq_true_eq] at hr
    have hn : nm ∉ ps := by rw [hr.1]; exact hp
    simp only [Src.link]
    cases hk : paramIdx ps nm with
    | some k => exact absurd (List.mem_of_getElem? (paramIdx_some hk)) hn
    | none =>
      simp only [Src.refs, if_neg hn] at h
      obtain ⟨r, d, h1, h2, h3, h4⟩ := resolve_name (h _ (List.mem_cons_self ..)) hn
      simp only [h1, Ope.linked, linkAll_get h2, linkL_length, Bool.and_eq_true]
      refine ⟨?_, linkL_linked ds ps hp as hr.2 fun x hx => h x (List.mem_cons_of_mem _ hx)⟩
      rw [Bool.or_eq_true, decide_eq_true_eq, decide_eq_true_eq, Bool.not_eq_true']
      refine ⟨h3, ?_⟩
      cases hm : d.head.isMacro with
      | false => exact Or.inl rfl
      | true => exact Or.inr (h4 hm).2
  | _ => rfl

theorem linkL_linked (ds : List SDef) (ps : List (List Byte)) (hp : recoverName ∉ ps) (es : List Src) (hr : Src.recovsL es = true)
    (h : ∀ x ∈ Src.refsL ps es, Resolves ds ps x) : Ope.linkedL (linkAll ds) ps (Src.linkL ds ps es) = true := by
  cases es with
  | nil => rfl
  | cons e es =>
    simp only [Src.recovsL, Bool.and_eq_true] at hr
    simp only [Src.linkL, Ope.linkedL, Bool.and_eq_true]
    simp only [Src.refsL, List.mem_append] at h
    exact ⟨link_linked ds ps hp e hr.1 fun x hx => h x (Or.inl hx), linkL_linked ds ps hp es hr.2 fun x hx => h x (Or.inr hx)⟩
end

/-! ## From linked to safe

The remaining conditions, on linked rules: they concern what the loader does not check. -/

/-- The first argument is a reference to a rule. -/
def startsRef : List Ope → Bool
  | .ref _ _ _ :: _ => true
  | _ => false

mutual
/-- Allowed in an argument of a macro call: no back reference and no user operator; parameters only outside the arguments of
further calls (`top`); recoveries with a rule as label. -/
def Ope.argCareful (top : Bool) : Ope → Bool
  | .seq es _ => Ope.argCarefulL top es
  | .cho es _ _ => Ope.argCarefulL top es
  | .rep e _ _ _ => e.argCareful top
  | .and_ e => e.argCareful top
  | .not_ e => e.argCareful top
  | .capScope e => e.argCareful top
  | .cap _ e => e.argCareful top
  | .tok e => e.argCareful top
  | .ign e => e.argCareful top
  | .param _ _ => top
  | .ref _ _ as => Ope.argCarefulL false as
  | .recov _ _ as =>
    startsRef as && Ope.argCarefulL false as
  | .bref _ => false
  | .usr _ => false
  | .dict _ _ => true
  | .lit _ _ => true
  | .cls _ => true
  | .chr _ => true
  | .dot => true
  | .cut => true
  | .weak _ => false
  | .ws _ => false
  | .prec .. => false
  | .null => false

def Ope.argCarefulL (top : Bool) : List Ope → Bool
  | [] => true
  | e :: es => e.argCareful top && Ope.argCarefulL top es
end

mutual
/-- Every argument list in an expression is careful, recoveries have a rule as label, user operators are allowed (`o.usr`) or absent,
precedence climbing (if allowed) is over rules that are not macros and whose values are kept. -/
def Ope.careful (o : SafeOpt) (rs : List Def) : Ope → Bool
  | .seq es _ => Ope.carefulL o rs es
  | .cho es _ _ => Ope.carefulL o rs es
  | .rep e _ _ _ => e.careful o rs
  | .and_ e => e.careful o rs
  | .not_ e => e.careful o rs
  | .capScope e => e.careful o rs
  | .cap _ e => e.careful o rs
  | .tok e => e.careful o rs
  | .ign e => e.careful o rs
  | .param _ _ => true
  | .ref _ _ as => Ope.argCarefulL true as
  | .recov _ _ as =>
    startsRef as && Ope.argCarefulL true as
  | .bref _ => true
  | .usr _ => o.usr
  | .dict _ _ => true
  | .lit _ _ => true
  | .cls _ => true
  | .chr _ => true
  | .dot => true
  | .cut => true
  | .weak _ => true
  | .ws e => e.careful o rs
  | .prec a b _ r =>
    o.prec && a.valueRef rs && b.valueRef rs &&
    (match rs[r]? with
    | none => false
    | some d => !d.isMacro)
  | .null => true

def Ope.carefulL (o : SafeOpt) (rs : List Def) : List Ope → Bool
  | [] => true
  | e :: es => e.careful o rs && Ope.carefulL o rs es
end

mutual
/-- peglib.h 4351-4361: a macro is called in this expression (arguments of calls included). -/
def Ope.callsMacro (rs : List Def) : Ope → Bool
  | .seq es _ => Ope.callsMacroL rs es
  | .cho es _ _ => Ope.callsMacroL rs es
  | .rep e _ _ _ => e.callsMacro rs
  | .and_ e => e.callsMacro rs
  | .not_ e => e.callsMacro rs
  | .capScope e => e.callsMacro rs
  | .cap _ e => e.callsMacro rs
  | .tok e => e.callsMacro rs
  | .ign e => e.callsMacro rs
  | .ws e => e.callsMacro rs
  | .ref r _ as => ((rs[r]?).map Def.isMacro).getD false || Ope.callsMacroL rs as
  | .recov r _ as => ((rs[r]?).map Def.isMacro).getD false || Ope.callsMacroL rs as
  | .prec a b _ _ => a.callsMacro rs || b.callsMacro rs
  | .param _ _ => false
  | .dict _ _ => false
  | .lit _ _ => false
  | .cls _ => false
  | .chr _ => false
  | .dot => false
  | .cut => false
  | .usr _ => false
  | .bref _ => false
  | .weak _ => false
  | .null => false

def Ope.callsMacroL (rs : List Def) : List Ope → Bool
  | [] => false
  | e :: es => e.callsMacro rs || Ope.callsMacroL rs es
end

/-- Facts about the rules used below. -/
structure LinkEnv (rs : List Def) : Prop where
  recov : ∀ d ∈ rs, d.name = recoverName → d.isMacro = true
  names : ∀ d ∈ rs, recoverName ∉ d.params

theorem linked_label {rs : List Def} {ps : List (List Byte)} {as : List Ope} : Ope.linkedL rs ps as = true → startsRef as = true →
    (match as with | .ref l _ _ :: _ => (rs[l]?).isSome | _ => false) = true := by
  intro h hc
  cases as with
  | nil => cases hc
  | cons a t =>
    cases a with
    | ref l nm bs =>
      simp only [Ope.linkedL, Ope.linked, Bool.and_eq_true] at h
      dsimp only
      cases hd : rs[l]? with
      | none => rw [hd] at h; cases h.1.1
      | some d => rfl
    | _ => cases hc

mutual
/-- All recoveries refer to `%recover`. -/
def Ope.recovNamed : Ope → Bool
  | .seq es _ => Ope.recovNamedL es
  | .cho es _ _ => Ope.recovNamedL es
  | .rep e _ _ _ => e.recovNamed
  | .and_ e => e.recovNamed
  | .not_ e => e.recovNamed
  | .capScope e => e.recovNamed
  | .cap _ e => e.recovNamed
  | .tok e => e.recovNamed
  | .ign e => e.recovNamed
  | .ws e => e.recovNamed
  | .ref _ _ as => Ope.recovNamedL as
  | .recov _ nm as => decide (nm = recoverName) && Ope.recovNamedL as
  | .prec a b _ _ => a.recovNamed && b.recovNamed
  | .param _ _ => true
  | .dict _ _ => true
  | .lit _ _ => true
  | .cls _ => true
  | .chr _ => true
  | .dot => true
  | .cut => true
  | .usr _ => true
  | .bref _ => true
  | .weak _ => true
  | .null => true

def Ope.recovNamedL : List Ope → Bool
  | [] => true
  | e :: es => e.recovNamed && Ope.recovNamedL es
end

mutual
theorem link_recovNamed (ds : List SDef) (ps : List (List Byte)) (e : Src) (hr : e.recovs = true) : (e.link ds ps).recovNamed = true := by
  cases e with
  | seq es => exact linkL_recovNamed ds ps es hr
  | cho es l => exact linkL_recovNamed ds ps es hr
  | rep e a b => exact link_recovNamed ds ps e hr
  | and_ e => exact link_recovNamed ds ps e hr
  | not_ e => exact link_recovNamed ds ps e hr
  | capScope e => exact link_recovNamed ds ps e hr
  | cap n e => exact link_recovNamed ds ps e hr
  | tok e => exact link_recovNamed ds ps e hr
  | ign e => exact link_recovNamed ds ps e hr
  | ref nm mac as =>
    simp only [Src.link]
    cases paramIdx ps nm with
    | some k => rfl
    | none =>
      cases ruleNamed ds nm with
      | none => rfl
      | some r => exact linkL_recovNamed ds ps as hr
  | recov nm mac as =>
    simp only [Src.recovs, Bool.and_eq_true] at hr
    simp only [Src.link]
    cases paramIdx ps nm with
    | some k => rfl
    | none =>
      cases ruleNamed ds nm with
      | none => rfl
      | some r =>
        simp only [Ope.recovNamed, Bool.and_eq_true]
        exact ⟨hr.1, linkL_recovNamed ds ps as hr.2⟩
  | _ => rfl

theorem linkL_recovNamed (ds : List SDef) (ps : List (List Byte)) (es : List Src) (hr : Src.recovsL es = true) :
    Ope.recovNamedL (Src.linkL ds ps es) = true := by
  cases es with
  | nil => rfl
  | cons e es =>
    simp only [Src.recovsL, Bool.and_eq_true] at hr
    simp only [Src.linkL, Ope.recovNamedL, Bool.and_eq_true]
    exact ⟨link_recovNamed ds ps e hr.1, linkL_recovNamed ds ps es hr.2⟩
end

mutual
theorem argSafe_of_linked {rs : List Def} (hE : LinkEnv rs) (ps : List (List Byte)) (top : Bool) (e : Ope)
    (hl : e.linked rs ps = true) (hc : e.argCareful top = true) (hn : e.recovNamed = true) :
    e.argSafe rs (if top then ps else []) = true := by
  cases e with
  | seq es kw => exact argSafeL_of_linked hE ps top es hl hc hn
  | cho es l fs => exact argSafeL_of_linked hE ps top es hl hc hn
  | rep e a b c => exact argSafe_of_linked hE ps top e hl hc hn
  | and_ e => exact argSafe_of_linked hE ps top e hl hc hn
  | not_ e => exact argSafe_of_linked hE ps top e hl hc hn
  | capScope e => exact argSafe_of_linked hE ps top e hl hc hn
  | cap n e => exact argSafe_of_linked hE ps top e hl hc hn
  | tok e => exact argSafe_of_linked hE ps top e hl hc hn
  | ign e => exact argSafe_of_linked hE ps top e hl hc hn
  | param k nm =>
    simp only [Ope.argCareful] at hc
    simp only [Ope.linked, beq_iff_eq] at hl
    simp only [Ope.argSafe, hc, if_true, decide_eq_true_eq]
    exact List.mem_of_getElem? hl
  | ref r nm as =>
    simp only [Ope.linked, Bool.and_eq_true] at hl
    simp only [Ope.argSafe]
    cases hd : rs[r]? with
    | none => rw [hd] at hl; cases hl.1
    | some d =>
      simp only [hd, Bool.and_eq_true] at hl
      dsimp only
      have := argSafeL_of_linked hE ps false as hl.2 hc hn
      simp only [Bool.false_eq_true, if_false] at this
      rw [this, Bool.and_true]
      exact hl.1.2
  | recov r nm as =>
    simp only [Ope.linked, Bool.and_eq_true] at hl
    simp only [Ope.argCareful, Bool.and_eq_true] at hc
    simp only [Ope.recovNamed, Bool.and_eq_true, decide_eq_true_eq] at hn
    simp only [Ope.argSafe, Bool.and_eq_true]
    cases hd : rs[r]? with
    | none => rw [hd] at hl; cases hl.1
    | some d =>
      simp only [hd, Bool.and_eq_true, decide_eq_true_eq] at hl
      have hm := hE.recov d (List.mem_of_getElem? hd) (hl.1.1.trans hn.1)
      have := argSafeL_of_linked hE ps false as hl.2 hc.2 hn.2
      simp only [Bool.false_eq_true, if_false] at this
      have h2 := hl.1.2
      simp only [hm, Bool.not_true, Bool.false_or] at h2
      simp only [Bool.and_eq_true]
      refine ⟨⟨⟨⟨hm, h2⟩, this⟩, linked_label hl.2 hc.1⟩, ?_⟩
      rw [List.all_eq_true]
      intro d' hd'
      rw [hn.1]
      exact decide_eq_true (hE.names d' hd')
  | usr n => cases hc
  | bref n => cases hc
  | prec a b info r => cases hc
  | _ => first | rfl | cases hl

theorem argSafeL_of_linked {rs : List Def} (hE : LinkEnv rs) (ps : List (List Byte)) (top : Bool) (es : List Ope)
    (hl : Ope.linkedL rs ps es = true) (hc : Ope.argCarefulL top es = true) (hn : Ope.recovNamedL es = true) :
    Ope.argSafeL rs (if top then ps else []) es = true := by
  cases es with
  | nil => rfl
  | cons e es =>
    simp only [Ope.linkedL, Ope.argCarefulL, Ope.recovNamedL, Ope.argSafeL, Bool.and_eq_true] at hl hc hn ⊢
    exact ⟨argSafe_of_linked hE ps top e hl.1 hc.1 hn.1, argSafeL_of_linked hE ps top es hl.2 hc.2 hn.2⟩
end

mutual
/-- A linked expression may be executed where macro calls are allowed if they are, or none is made. -/
theorem safe_of_linked {rs : List Def} (hE : LinkEnv rs) (o : SafeOpt) (m : Bool) (ps : List (List Byte))
    (hm : m = false → ps = []) (e : Ope) (hcall : e.callsMacro rs = true → m = true)
    (hl : e.linked rs ps = true) (hc : e.careful o rs = true) (hn : e.recovNamed = true) : e.safe o rs m ps = true := by
  cases e with
  | seq es kw => exact safeL_of_linked hE o m ps hm es hcall hl hc hn
  | cho es l fs => exact safeL_of_linked hE o m ps hm es hcall hl hc hn
  | rep e a b c => exact safe_of_linked hE o m ps hm e hcall hl hc hn
  | and_ e => exact safe_of_linked hE o m ps hm e hcall hl hc hn
  | not_ e => exact safe_of_linked hE o m ps hm e hcall hl hc hn
  | capScope e => exact safe_of_linked hE o m ps hm e hcall hl hc hn
  | cap n e => exact safe_of_linked hE o m ps hm e hcall hl hc hn
  | tok e => exact safe_of_linked hE o m ps hm e hcall hl hc hn
  | ign e => exact safe_of_linked hE o m ps hm e hcall hl hc hn
  | usr n => exact hc
  | prec a b info r => exact hc
  | param k nm =>
    simp only [Ope.linked, beq_iff_eq] at hl
    simp only [Ope.safe, Bool.and_eq_true, decide_eq_true_eq]
    obtain ⟨hk, -⟩ := List.getElem?_eq_some_iff.1 hl
    refine ⟨?_, hk⟩
    cases m with
    | true => rfl
    | false => rw [hm rfl] at hk; cases hk
  | ref r nm as =>
    simp only [Ope.linked, Bool.and_eq_true] at hl
    simp only [Ope.safe]
    cases hd : rs[r]? with
    | none => rw [hd] at hl; cases hl.1
    | some d =>
      simp only [hd, Bool.and_eq_true] at hl
      dsimp only
      cases hmac : d.isMacro with
      | false => rfl
      | true =>
        have hm' : m = true := hcall (by simp [Ope.callsMacro, hd, hmac])
        have := argSafeL_of_linked hE ps true as hl.2 hc hn
        simp only [if_true] at this
        have h2 := hl.1.2
        simp only [hmac, Bool.not_true, Bool.false_or] at h2
        simp [hm', this, h2]
  | recov r nm as =>
    simp only [Ope.linked, Bool.and_eq_true] at hl
    simp only [Ope.careful, Bool.and_eq_true] at hc
    simp only [Ope.recovNamed, Bool.and_eq_true, decide_eq_true_eq] at hn
    simp only [Ope.safe, Bool.and_eq_true]
    cases hd : rs[r]? with
    | none => rw [hd] at hl; cases hl.1
    | some d =>
      simp only [hd, Bool.and_eq_true, decide_eq_true_eq] at hl
      have hmac := hE.recov d (List.mem_of_getElem? hd) (hl.1.1.trans hn.1)
      have hm' : m = true := hcall (by simp [Ope.callsMacro, hd, hmac])
      have := argSafeL_of_linked hE ps true as hl.2 hc.2 hn.2
      simp only [if_true] at this
      have h2 := hl.1.2
      simp only [hmac, Bool.not_true, Bool.false_or] at h2
      simp only [Bool.and_eq_true]
      exact ⟨⟨⟨⟨hmac, hm'⟩, h2⟩, this⟩, linked_label hl.2 hc.1⟩
  | _ => first | rfl | cases hl

theorem safeL_of_linked {rs : List Def} (hE : LinkEnv rs) (o : SafeOpt) (m : Bool) (ps : List (List Byte))
    (hm : m = false → ps = []) (es : List Ope) (hcall : Ope.callsMacroL rs es = true → m = true)
    (hl : Ope.linkedL rs ps es = true) (hc : Ope.carefulL o rs es = true) (hn : Ope.recovNamedL es = true) :
    Ope.safeL o rs m ps es = true := by
  cases es with
  | nil => rfl
  | cons e es =>
    simp only [Ope.linkedL, Ope.carefulL, Ope.recovNamedL, Ope.safeL, Bool.and_eq_true] at hl hc hn ⊢
    exact ⟨safe_of_linked hE o m ps hm e (fun h => hcall (by simp [Ope.callsMacroL, h])) hl.1 hc.1 hn.1,
      safeL_of_linked hE o m ps hm es (fun h => hcall (by simp [Ope.callsMacroL, h])) hl.2 hc.2 hn.2⟩
end

end Verif
