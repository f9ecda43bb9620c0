import Verif.BlobRound
import Verif.LoadInv
/-!
# The parser restored from a blob

`blobOf` is what `serialize_grammar` sees of a loaded parser, `restore` what `load_blob` makes of the definitions read (peglib.h
5334-5363, 6852-6864).  `restore_blobOf`: nothing a parse depends on is lost.
-/

namespace Verif
open Blob (BOpe BDef trieWords)

/-! ## What the writer sees -/

mutual
/-- The operator object of a loaded grammar as `write_ope` sees it (peglib.h 5009-5119): names instead of links, no first sets, keyword
guards or spans.  A capture made by the grammar reader carries its match action (5865-5870).  The never used arguments of a reference to a
parameter are not kept in `Ope`, so none are written here. -/
def Ope.toB (rs : List Def) : Ope → BOpe
  | .seq es _ => .seq (Ope.toBL rs es)
  | .cho es l _ => .cho l (Ope.toBL rs es)
  | .rep e mn mx _ => .rep mn (mx.getD (2 ^ 64 - 1)) (e.toB rs)
  | .and_ e => .and_ (e.toB rs)
  | .not_ e => .not_ (e.toB rs)
  | .dict w ic => .dict (Trie.build w ic)
  | .lit s ic => .lit s ic
  | .cls c => .cls c
  | .chr c => .chr c
  | .dot => .dot
  | .capScope e => .capScope (e.toB rs)
  | .cap _ e => .cap true (e.toB rs)
  | .tok e => .tok (e.toB rs)
  | .ign e => .ign (e.toB rs)
  | .usr _ => .usr
  | .weak _ => .usr
  | .ref r nm as => .ref (((rs[r]?).map Def.isMacro).getD false) nm (Ope.toBL rs as)
  | .param _ nm => .ref false nm []
  | .ws e => .wsp (e.toB rs)
  | .bref nm => .bref nm
  | .prec a b info _ => .prec (a.toB rs) (b.toB rs) info
  | .recov r nm as => .recov (.ref (((rs[r]?).map Def.isMacro).getD false) nm (Ope.toBL rs as))
  | .cut => .cut
  | .null => .null

def Ope.toBL (rs : List Def) : List Ope → List BOpe
  | [] => []
  | e :: es => e.toB rs :: Ope.toBL rs es
end

/-- The fields of a rule that no parse outcome of `Parser` depends on and that are stored all the same (peglib.h 5275-5287): the
end-of-input check and the AST options. -/
structure Extras where
  eoi : Bool := true
  noAstOpt : Bool := false
  astName : List Byte := []

/-- peglib.h 5271-5289: the stored fields of one rule. -/
def Def.toB (rs : List Def) (packrat : Bool) (x : Extras) (d : Def) : BDef where
  name := d.name
  ignoreSV := d.ignoreSV
  isMacro := d.isMacro
  noAstOpt := x.noAstOpt
  eoi := x.eoi
  packrat := packrat
  isLR := d.isLR
  canBeEmpty := d.canBeEmpty
  disableAction := d.disableAction
  noWs := d.noWs
  params := d.params
  astName := x.astName
  errorMessage := d.errorMessage
  ope := d.ope.toB rs

/-- peglib.h 5253-5292, 6846: the grammar `serialize_grammar` writes. -/
def blobOf (x : Nat → Extras) (G : Parser) : List BDef := G.rules.mapIdx fun r d => d.toB G.rules (G.packrat r) (x r)

/-! ## What is recomputed -/

mutual
/-- peglib.h 2462-2483 `IsLiteralToken`. -/
def isLitB : BOpe → Bool
  | .cho _ es => isLitBL es
  | .dict _ => true
  | .lit _ _ => true
  | _ => false

def isLitBL : List BOpe → Bool
  | [] => true
  | e :: es => isLitB e && isLitBL es
end

mutual
/-- peglib.h 2485-2505, 4369-4377 `TokenChecker`: (`has_token_boundary_`, `has_rule_`). -/
def tokScan : BOpe → Bool × Bool
  | .seq es => tokScanL es
  | .cho _ es => tokScanL es
  | .rep _ _ e => tokScan e
  | .capScope e => tokScan e
  | .cap _ e => tokScan e
  | .tok _ => (true, false)
  | .ign e => tokScan e
  | .ref mac _ as => if mac then tokScanL as else (false, true)
  | .wsp e => tokScan e
  | .recov e => tokScan e
  | .prec a _ _ => tokScan a
  | _ => (false, false)

def tokScanL : List BOpe → Bool × Bool
  | [] => (false, false)
  | e :: es => ((tokScan e).1 || (tokScanL es).1, (tokScan e).2 || (tokScanL es).2)
end

/-- peglib.h 2494-2500, 3274-3279 `is_token`. -/
def tokB (e : BOpe) : Bool := isLitB e || (tokScan e).1 || !(tokScan e).2

mutual
/-- peglib.h 2507-2524, 4380-4387 `FindLiteralToken` with `acc` found so far: the last literal reached through token boundaries, `~` and the
arguments of macro calls.  (Entering the macro itself, 4382, has no effect: `visit(Holder &)` is not overridden.) -/
def litScan : BOpe → Option (List Byte) → Option (List Byte)
  | .lit s _, _ => some s
  | .tok e, acc => litScan e acc
  | .ign e, acc => litScan e acc
  | .recov e, acc => litScan e acc
  | .ref mac _ as, acc => if mac then litScanL as acc else acc
  | _, acc => acc

def litScanL : List BOpe → Option (List Byte) → Option (List Byte)
  | [], acc => acc
  | e :: es, acc => litScanL es (litScan e acc)
end

/-- peglib.h 3624-3628: the literal as a C string, if not empty. -/
def litB (e : BOpe) : Option (List Byte) :=
  match litScan e none with
  | none => none
  | some s => if (s.takeWhile (· ≠ 0)).isEmpty then none else some (s.takeWhile (· ≠ 0))

/-! ## What the reader makes of it -/

/-- peglib.h 4919-4940: `grammar_.count(name)`, `grammar_.at(name)`. -/
def defNamed (g : List BDef) (nm : List Byte) : Option Nat := g.findIdx? fun d => d.name = nm

mutual
/-- peglib.h 5334-5337, 4919-4939: the operators read, linked (parameters before rules; a reference to neither behaves as parameter 0, see
`Src.link`).  Not represented (`null`): a precedence operator that is not a whole rule (its binary operator stays unlinked), a recovery
around anything but a reference to a rule (neither is built from a grammar text), a `User` operator (the reader never makes one).  A capture
without match action only runs its operand (1993-1998). -/
def BOpe.link (g : List BDef) (ps : List (List Byte)) : BOpe → Ope
  | .null => .null
  | .seq es => .seq (BOpe.linkL g ps es) none
  | .cho l es => .cho (BOpe.linkL g ps es) l []
  | .rep mn mx e => .rep (BOpe.link g ps e) mn (if mx = 2 ^ 64 - 1 then none else some mx) none
  | .and_ e => .and_ (BOpe.link g ps e)
  | .not_ e => .not_ (BOpe.link g ps e)
  | .dict t => .dict (trieWords t) t.ignoreCase
  | .lit s ic => .lit s ic
  | .cls c => .cls c
  | .chr c => .chr c
  | .dot => .dot
  | .capScope e => .capScope (BOpe.link g ps e)
  | .cap _ e => BOpe.link g ps e
  | .tok e => .tok (BOpe.link g ps e)
  | .ign e => .ign (BOpe.link g ps e)
  | .bref nm => .bref nm
  | .ref _ nm as =>
    match paramIdx ps nm with
    | some k => .param k nm
    | none =>
      match defNamed g nm with
      | some r => .ref r nm (BOpe.linkL g ps as)
      | none => .param 0 nm
  | .wsp e => .ws (BOpe.link g ps e)
  | .recov (.ref _ nm as) =>
    match paramIdx ps nm, defNamed g nm with
    | none, some r => .recov r nm (BOpe.linkL g ps as)
    | _, _ => .null
  | .recov _ => .null
  | .cut => .cut
  | .prec _ _ _ => .null
  | .usr => .null

def BOpe.linkL (g : List BDef) (ps : List (List Byte)) : List BOpe → List Ope
  | [] => []
  | e :: es => BOpe.link g ps e :: BOpe.linkL g ps es
end

/-- peglib.h 5315-5345: rule number `r` of the restored grammar; the core operator's binary operator is linked too.  `isToken` and `errLit`
are computed when first asked for; `hasMacroRef` is computed when the first parse starts (4342-4358, `initIds`) and is not read before. -/
def BDef.restore (g : List BDef) (r : Nat) (d : BDef) : Def where
  name := d.name
  ope := match d.ope with
    | .prec a b info => .prec (BOpe.link g d.params a) (BOpe.link g d.params b) info r
    | e => BOpe.link g d.params e
  isMacro := d.isMacro
  params := d.params
  isLR := d.isLR
  ignoreSV := d.ignoreSV
  noWs := d.noWs
  canBeEmpty := d.canBeEmpty
  errorMessage := d.errorMessage
  disableAction := d.disableAction
  isToken := tokB d.ope
  errLit := litB d.ope

/-- peglib.h 5334-5363, 6852-6864: the parser made of the definitions read, listed in any order (the list plays the role of the map); `order`
is the order in which the map is iterated.  `none`: no definition has the name of the start rule (the code makes an empty one). -/
def restore (order : List Nat) (g : List BDef) (start : List Byte) : Option (Parser × Nat) :=
  match defNamed g start with
  | none => none
  | some a =>
    let rs := setupAll (g.mapIdx (BDef.restore g)) order
    some ({ rules := rs
            ws := fun r => if r = a then ((defNamed g whitespaceName).bind fun r => rs[r]?).map fun d => .ws (.ign d.ope) else none
            word := fun r => if r = a then ((defNamed g wordName).bind fun r => rs[r]?).map Def.ope else none
            packrat := fun r => ((g[r]?).map BDef.packrat).getD false }, a)

/-! ## What can be stored -/

/-- A dictionary that survives: words in lower case when case is ignored, no word equal to an earlier one or a prefix of one. -/
def wordsOk (w : List (List Byte)) (ic : Bool) : Bool :=
  decide (w.Pairwise fun x y => ¬ y <+: x) && (!ic || decide (w.map Trie.toLower = w))

mutual
/-- The sizes fit, repetition counts are below `size_t`'s maximum, dictionaries survive, operator tables have distinct keys, and there are
no captures and user-defined operators. -/
def Ope.storable : Ope → Bool
  | .seq es _ => decide (es.length < 2 ^ 32) && Ope.storableL es
  | .cho es _ _ => decide (es.length < 2 ^ 32) && Ope.storableL es
  | .rep e mn mx _ => decide (mn < 2 ^ 64) && (mx.all fun m => decide (m < 2 ^ 64 - 1)) && e.storable
  | .and_ e => e.storable
  | .not_ e => e.storable
  | .dict w ic => wordsOk w ic && decide (w.length < 2 ^ 32) && w.all fun s => decide (s.length < 2 ^ 32)
  | .lit s _ => decide (s.length < 2 ^ 32)
  | .cls c => decide (c.ranges.length < 2 ^ 32) && c.ranges.all fun r => decide (r.1 < 2 ^ 32) && decide (r.2 < 2 ^ 32)
  | .chr c => decide (c < 2 ^ 32)
  | .dot => true
  | .capScope e => e.storable
  | .cap _ _ => false
  | .tok e => e.storable
  | .ign e => e.storable
  | .usr _ => false
  | .weak _ => false
  | .ref _ nm as => decide (nm.length < 2 ^ 32) && decide (as.length < 2 ^ 32) && Ope.storableL as
  | .param _ nm => decide (nm.length < 2 ^ 32)
  | .ws e => e.storable
  | .bref nm => decide (nm.length < 2 ^ 32)
  | .prec a b info _ => a.storable && b.storable && decide (info.length < 2 ^ 32) && decide ((info.map (·.1)).Nodup) &&
      info.all fun i => decide (i.1.length < 2 ^ 32) && decide (i.2.1 < 2 ^ 64)
  | .recov _ nm as => decide (nm.length < 2 ^ 32) && decide (as.length < 2 ^ 32) && Ope.storableL as
  | .cut => true
  | .null => true

def Ope.storableL : List Ope → Bool
  | [] => true
  | e :: es => e.storable && Ope.storableL es
end

/-- The same for a rule. -/
def Def.storable (d : Def) : Bool :=
  decide (d.name.length < 2 ^ 32) && decide (d.params.length < 2 ^ 32) && (d.params.all fun p => decide (p.length < 2 ^ 32)) &&
    decide (d.errorMessage.length < 2 ^ 32) && d.ope.storable

/-! ## Annotations are not written -/

mutual
theorem toB_plain (rs : List Def) (e : Ope) : e.plain.toB rs = e.toB rs := by
  cases e with
  | seq es kw => simp only [Ope.plain, Ope.toB, toBL_plain rs es]
  | cho es l fs => simp only [Ope.plain, Ope.toB, toBL_plain rs es]
  | rep e mn mx sp => simp only [Ope.plain, Ope.toB, toB_plain rs e]
  | and_ e => simp only [Ope.plain, Ope.toB, toB_plain rs e]
  | not_ e => simp only [Ope.plain, Ope.toB, toB_plain rs e]
  | capScope e => simp only [Ope.plain, Ope.toB, toB_plain rs e]
  | cap nm e => simp only [Ope.plain, Ope.toB, toB_plain rs e]
  | tok e => simp only [Ope.plain, Ope.toB, toB_plain rs e]
  | ign e => simp only [Ope.plain, Ope.toB, toB_plain rs e]
  | ws e => simp only [Ope.plain, Ope.toB, toB_plain rs e]
  | ref r nm as => simp only [Ope.plain, Ope.toB, toBL_plain rs as]
  | recov r nm as => simp only [Ope.plain, Ope.toB, toBL_plain rs as]
  | prec a b info r => simp only [Ope.plain, Ope.toB, toB_plain rs a, toB_plain rs b]
  | _ => simp only [Ope.plain, Ope.toB]

theorem toBL_plain (rs : List Def) (es : List Ope) : Ope.toBL rs (Ope.plainL es) = Ope.toBL rs es := by
  cases es with
  | nil => rfl
  | cons e es => simp only [Ope.plainL, Ope.toBL, toB_plain rs e, toBL_plain rs es]
end

mutual
theorem toB_macros {rs rs' : List Def} (h : ∀ r : Nat, (rs[r]?).map Def.isMacro = (rs'[r]?).map Def.isMacro) (e : Ope) :
    e.toB rs = e.toB rs' := by
  cases e with
  | seq es kw => simp only [Ope.toB, toBL_macros h es]
  | cho es l fs => simp only [Ope.toB, toBL_macros h es]
  | rep e mn mx sp => simp only [Ope.toB, toB_macros h e]
  | and_ e => simp only [Ope.toB, toB_macros h e]
  | not_ e => simp only [Ope.toB, toB_macros h e]
  | capScope e => simp only [Ope.toB, toB_macros h e]
  | cap nm e => simp only [Ope.toB, toB_macros h e]
  | tok e => simp only [Ope.toB, toB_macros h e]
  | ign e => simp only [Ope.toB, toB_macros h e]
  | ws e => simp only [Ope.toB, toB_macros h e]
  | ref r nm as => simp only [Ope.toB, toBL_macros h as, h r]
  | recov r nm as => simp only [Ope.toB, toBL_macros h as, h r]
  | prec a b info r => simp only [Ope.toB, toB_macros h a, toB_macros h b]
  | _ => simp only [Ope.toB]

theorem toBL_macros {rs rs' : List Def} (h : ∀ r : Nat, (rs[r]?).map Def.isMacro = (rs'[r]?).map Def.isMacro) (es : List Ope) :
    Ope.toBL rs es = Ope.toBL rs' es := by
  cases es with
  | nil => rfl
  | cons e es => simp only [Ope.toBL, toB_macros h e, toBL_macros h es]
end

mutual
theorem storable_plain (e : Ope) : e.plain.storable = e.storable := by
  cases e with
  | seq es kw => simp only [Ope.plain, Ope.storable, storableL_plain es, plainL_eq_map, List.length_map]
  | cho es l fs => simp only [Ope.plain, Ope.storable, storableL_plain es, plainL_eq_map, List.length_map]
  | rep e mn mx sp => simp only [Ope.plain, Ope.storable, storable_plain e]
  | and_ e => simp only [Ope.plain, Ope.storable, storable_plain e]
  | not_ e => simp only [Ope.plain, Ope.storable, storable_plain e]
  | capScope e => simp only [Ope.plain, Ope.storable, storable_plain e]
  | cap nm e => simp only [Ope.plain, Ope.storable]
  | tok e => simp only [Ope.plain, Ope.storable, storable_plain e]
  | ign e => simp only [Ope.plain, Ope.storable, storable_plain e]
  | ws e => simp only [Ope.plain, Ope.storable, storable_plain e]
  | ref r nm as => simp only [Ope.plain, Ope.storable, storableL_plain as, plainL_eq_map, List.length_map]
  | recov r nm as => simp only [Ope.plain, Ope.storable, storableL_plain as, plainL_eq_map, List.length_map]
  | prec a b info r => simp only [Ope.plain, Ope.storable, storable_plain a, storable_plain b]
  | _ => simp only [Ope.plain, Ope.storable]

theorem storableL_plain (es : List Ope) : Ope.storableL (es.map Ope.plain) = Ope.storableL es := by
  cases es with
  | nil => rfl
  | cons e es => simp only [List.map_cons, Ope.storableL, storable_plain e, storableL_plain es]
end

/-! ## Dictionaries -/

theorem wordsOk_words {w : List (List Byte)} {ic : Bool} (h : wordsOk w ic = true) : trieWords (Trie.build w ic) = w := by
  unfold wordsOk at h
  rw [Bool.and_eq_true] at h
  obtain ⟨h1, h2⟩ := h
  have h1 := of_decide_eq_true h1
  have hst : Blob.stored w ic = w := by
    unfold Blob.stored
    cases ic with
    | false => simp
    | true => simpa using h2
  have hlt : ∀ (i j : Nat) (wi wj : List Byte), w[i]? = some wi → w[j]? = some wj → i < j → ¬ wj <+: wi := by
    intro i j wi wj hi hj hij
    rw [List.pairwise_iff_getElem] at h1
    obtain ⟨li, ei⟩ := List.getElem?_eq_some_iff.1 hi
    obtain ⟨lj, ej⟩ := List.getElem?_eq_some_iff.1 hj
    have := h1 i j li lj hij
    rw [ei, ej] at this
    exact this
  have hf : Blob.Faithful (Blob.stored w ic) := by
    rw [hst]
    intro i j wi wj hi hj hij hp
    exact absurd hp (hlt i j wi wj hi hj hij)
  rw [Blob.build_eq, Blob.trieWords_faithful _ ic _ hf, hst]
  apply List.ext_getElem?
  intro i
  rw [List.getElem?_mapIdx]
  cases hi : w[i]? with
  | none => rfl
  | some x =>
    have : w.findIdx? (x.isPrefixOf ·) = some i := by
      obtain ⟨li, ei⟩ := List.getElem?_eq_some_iff.1 hi
      rw [List.findIdx?_eq_some_iff_getElem]
      refine ⟨li, by rw [ei]; simp, ?_⟩
      intro k hk
      rw [List.isPrefixOf_iff_prefix]
      exact hlt k i _ x (List.getElem?_eq_getElem (by omega)) hi hk
    simp only [Option.map_some, Blob.slotWord, this, if_true]

theorem build_ic (w : List (List Byte)) (ic : Bool) : (Trie.build w ic).ignoreCase = ic := by
  rw [Blob.build_eq]

/-! ## Linked again -/

mutual
/-- Operators as the linker leaves them: no annotations, every reference resolved by its name, precedence operators only as whole rules. -/
def Ope.fresh (nms ps : List (List Byte)) : Ope → Bool
  | .seq es kw => kw.isNone && Ope.freshL nms ps es
  | .cho es _ fs => fs.isEmpty && Ope.freshL nms ps es
  | .rep e _ _ sp => sp.isNone && e.fresh nms ps
  | .and_ e => e.fresh nms ps
  | .not_ e => e.fresh nms ps
  | .capScope e => e.fresh nms ps
  | .cap _ e => e.fresh nms ps
  | .tok e => e.fresh nms ps
  | .ign e => e.fresh nms ps
  | .ws e => e.fresh nms ps
  | .ref r nm as => (paramIdx ps nm).isNone && (nms.findIdx? fun n => n = nm) == some r && Ope.freshL nms ps as
  | .recov r nm as => (paramIdx ps nm).isNone && (nms.findIdx? fun n => n = nm) == some r && Ope.freshL nms ps as
  | .param k nm => paramIdx ps nm == some k
  | .prec _ _ _ _ => false
  | _ => true

def Ope.freshL (nms ps : List (List Byte)) : List Ope → Bool
  | [] => true
  | e :: es => e.fresh nms ps && Ope.freshL nms ps es
end

theorem ruleNamed_names (ds : List SDef) (nm : List Byte) :
    (ds.map (·.head.name)).findIdx? (fun n => n = nm) = ruleNamed ds nm := by
  unfold ruleNamed
  rw [List.findIdx?_map]
  rfl

theorem defNamed_names (g : List BDef) (nm : List Byte) : (g.map BDef.name).findIdx? (fun n => n = nm) = defNamed g nm := by
  unfold defNamed
  rw [List.findIdx?_map]
  rfl

mutual
theorem link_fresh (ds : List SDef) (rs : List Def) (ps : List (List Byte)) (e : Src) (h : (e.link ds ps).linked rs ps = true) :
    (e.link ds ps).fresh (ds.map (·.head.name)) ps = true := by
  cases e with
  | seq es => simp only [Src.link, Ope.linked, Ope.fresh] at h ⊢; simp [linkL_fresh ds rs ps es h]
  | cho es l => simp only [Src.link, Ope.linked, Ope.fresh] at h ⊢; simp [linkL_fresh ds rs ps es h]
  | rep e mn mx => simp only [Src.link, Ope.linked, Ope.fresh] at h ⊢; simp [link_fresh ds rs ps e h]
  | and_ e => simp only [Src.link, Ope.linked, Ope.fresh] at h ⊢; exact link_fresh ds rs ps e h
  | not_ e => simp only [Src.link, Ope.linked, Ope.fresh] at h ⊢; exact link_fresh ds rs ps e h
  | capScope e => simp only [Src.link, Ope.linked, Ope.fresh] at h ⊢; exact link_fresh ds rs ps e h
  | cap nm e => simp only [Src.link, Ope.linked, Ope.fresh] at h ⊢; exact link_fresh ds rs ps e h
  | tok e => simp only [Src.link, Ope.linked, Ope.fresh] at h ⊢; exact link_fresh ds rs ps e h
  | ign e => simp only [Src.link, Ope.linked, Ope.fresh] at h ⊢; exact link_fresh ds rs ps e h
  | ref nm mac as =>
    simp only [Src.link] at h ⊢
    cases hp : paramIdx ps nm with
    | some k => simp only [hp, Ope.fresh, beq_self_eq_true]
    | none =>
      rw [hp] at h
      cases hr : ruleNamed ds nm with
      | some r =>
        rw [hr] at h
        simp only [Ope.linked, Bool.and_eq_true] at h
        simp only [Ope.fresh, hp, ruleNamed_names, hr, linkL_fresh ds rs ps as h.2]
        simp
      | none =>
        rw [hr] at h
        simp only [Ope.linked, beq_iff_eq] at h
        exfalso
        unfold paramIdx at hp
        rw [List.findIdx?_eq_none_iff] at hp
        have := hp nm (List.mem_of_getElem? h)
        simp at this
  | recov nm mac as =>
    simp only [Src.link] at h ⊢
    cases hp : paramIdx ps nm with
    | some k => rw [hp] at h; simp [Ope.linked] at h
    | none =>
      rw [hp] at h
      cases hr : ruleNamed ds nm with
      | some r =>
        rw [hr] at h
        simp only [Ope.linked, Bool.and_eq_true] at h
        simp only [Ope.fresh, hp, ruleNamed_names, hr, linkL_fresh ds rs ps as h.2]
        simp
      | none => rw [hr] at h; simp [Ope.linked] at h
  | _ => simp only [Src.link, Ope.fresh]

theorem linkL_fresh (ds : List SDef) (rs : List Def) (ps : List (List Byte)) (es : List Src)
    (h : Ope.linkedL rs ps (Src.linkL ds ps es) = true) : Ope.freshL (ds.map (·.head.name)) ps (Src.linkL ds ps es) = true := by
  cases es with
  | nil => rfl
  | cons e es =>
    simp only [Src.linkL, Ope.linkedL, Ope.freshL, Bool.and_eq_true] at h ⊢
    exact ⟨link_fresh ds rs ps e h.1, linkL_fresh ds rs ps es h.2⟩
end

mutual
/-- Writing and linking again gives the same operator. -/
theorem relink (rs : List Def) (g : List BDef) (ps : List (List Byte)) (e : Ope) (hf : e.fresh (g.map BDef.name) ps = true)
    (hs : e.storable = true) (hl : e.linked rs ps = true) : BOpe.link g ps (e.toB rs) = e := by
  cases e with
  | seq es kw =>
    simp only [Ope.fresh, Ope.storable, Ope.linked, Bool.and_eq_true, Option.isNone_iff_eq_none] at hf hs hl
    simp only [Ope.toB, BOpe.link, relinkL rs g ps es hf.2 hs.2 hl, hf.1]
  | cho es l fs =>
    simp only [Ope.fresh, Ope.storable, Ope.linked, Bool.and_eq_true, List.isEmpty_iff] at hf hs hl
    simp only [Ope.toB, BOpe.link, relinkL rs g ps es hf.2 hs.2 hl, hf.1]
  | rep e mn mx sp =>
    simp only [Ope.fresh, Ope.storable, Ope.linked, Bool.and_eq_true, Option.isNone_iff_eq_none] at hf hs hl
    simp only [Ope.toB, BOpe.link, relink rs g ps e hf.2 hs.2 hl, hf.1]
    cases mx with
    | none => simp
    | some m =>
      have : m < 2 ^ 64 - 1 := by simpa using hs.1.2
      simp only [Option.getD_some]
      rw [if_neg (by omega)]
  | and_ e => simp only [Ope.fresh, Ope.storable, Ope.linked] at hf hs hl; simp only [Ope.toB, BOpe.link, relink rs g ps e hf hs hl]
  | not_ e => simp only [Ope.fresh, Ope.storable, Ope.linked] at hf hs hl; simp only [Ope.toB, BOpe.link, relink rs g ps e hf hs hl]
  | capScope e => simp only [Ope.fresh, Ope.storable, Ope.linked] at hf hs hl; simp only [Ope.toB, BOpe.link, relink rs g ps e hf hs hl]
  | tok e => simp only [Ope.fresh, Ope.storable, Ope.linked] at hf hs hl; simp only [Ope.toB, BOpe.link, relink rs g ps e hf hs hl]
  | ign e => simp only [Ope.fresh, Ope.storable, Ope.linked] at hf hs hl; simp only [Ope.toB, BOpe.link, relink rs g ps e hf hs hl]
  | dict w ic =>
    simp only [Ope.storable, Bool.and_eq_true] at hs
    simp only [Ope.toB, BOpe.link, wordsOk_words hs.1.1, build_ic]
  | param k nm =>
    simp only [Ope.fresh, beq_iff_eq] at hf
    simp only [Ope.toB, BOpe.link, hf]
  | ref r nm as =>
    simp only [Ope.fresh, Ope.storable, Ope.linked, Bool.and_eq_true, Option.isNone_iff_eq_none, defNamed_names, beq_iff_eq] at hf hs hl
    simp only [Ope.toB, BOpe.link, hf.1.1, hf.1.2, relinkL rs g ps as hf.2 hs.2 hl.2]
  | recov r nm as =>
    simp only [Ope.fresh, Ope.storable, Ope.linked, Bool.and_eq_true, Option.isNone_iff_eq_none, defNamed_names, beq_iff_eq] at hf hs hl
    simp only [Ope.toB, BOpe.link, hf.1.1, hf.1.2, relinkL rs g ps as hf.2 hs.2 hl.2]
  | cap nm e => simp [Ope.storable] at hs
  | usr id => simp [Ope.storable] at hs
  | weak r => simp [Ope.storable] at hs
  | ws e => simp [Ope.linked] at hl
  | null => simp [Ope.linked] at hl
  | prec a b info r => simp [Ope.fresh] at hf
  | _ => simp only [Ope.toB, BOpe.link]

theorem relinkL (rs : List Def) (g : List BDef) (ps : List (List Byte)) (es : List Ope) (hf : Ope.freshL (g.map BDef.name) ps es = true)
    (hs : Ope.storableL es = true) (hl : Ope.linkedL rs ps es = true) : BOpe.linkL g ps (Ope.toBL rs es) = es := by
  cases es with
  | nil => rfl
  | cons e es =>
    simp only [Ope.freshL, Ope.storableL, Ope.linkedL, Bool.and_eq_true] at hf hs hl
    simp only [Ope.toBL, BOpe.linkL, relink rs g ps e hf.1 hs.1 hl.1, relinkL rs g ps es hf.2 hs.2 hl.2]
end

/-! ## The writer accepts it -/

mutual
theorem storable_serial (rs : List Def) (e : Ope) (h : e.storable = true) : Blob.Serial (e.toB rs) = true := by
  cases e with
  | seq es kw => simp only [Ope.storable, Bool.and_eq_true] at h; simp only [Ope.toB, Blob.Serial, storableL_serial rs es h.2]
  | cho es l fs => simp only [Ope.storable, Bool.and_eq_true] at h; simp only [Ope.toB, Blob.Serial, storableL_serial rs es h.2]
  | rep e mn mx sp => simp only [Ope.storable, Bool.and_eq_true] at h; simp only [Ope.toB, Blob.Serial, storable_serial rs e h.2]
  | and_ e => simp only [Ope.storable] at h; simp only [Ope.toB, Blob.Serial, storable_serial rs e h]
  | not_ e => simp only [Ope.storable] at h; simp only [Ope.toB, Blob.Serial, storable_serial rs e h]
  | capScope e => simp only [Ope.storable] at h; simp only [Ope.toB, Blob.Serial, storable_serial rs e h]
  | tok e => simp only [Ope.storable] at h; simp only [Ope.toB, Blob.Serial, storable_serial rs e h]
  | ign e => simp only [Ope.storable] at h; simp only [Ope.toB, Blob.Serial, storable_serial rs e h]
  | ws e => simp only [Ope.storable] at h; simp only [Ope.toB, Blob.Serial, storable_serial rs e h]
  | ref r nm as => simp only [Ope.storable, Bool.and_eq_true] at h; simp only [Ope.toB, Blob.Serial, storableL_serial rs as h.2]
  | recov r nm as => simp only [Ope.storable, Bool.and_eq_true] at h; simp only [Ope.toB, Blob.Serial, storableL_serial rs as h.2]
  | prec a b info r =>
    simp only [Ope.storable, Bool.and_eq_true] at h
    simp only [Ope.toB, Blob.Serial, storable_serial rs a h.1.1.1.1, storable_serial rs b h.1.1.1.2, Bool.and_self]
  | cap nm e => simp [Ope.storable] at h
  | usr id => simp [Ope.storable] at h
  | weak r => simp [Ope.storable] at h
  | _ => simp [Ope.toB, Blob.Serial, Blob.SerialAll]

theorem storableL_serial (rs : List Def) (es : List Ope) (h : Ope.storableL es = true) : Blob.SerialAll (Ope.toBL rs es) = true := by
  cases es with
  | nil => rfl
  | cons e es =>
    simp only [Ope.storableL, Bool.and_eq_true] at h
    simp only [Ope.toBL, Blob.SerialAll, storable_serial rs e h.1, storableL_serial rs es h.2, Bool.and_self]
end

theorem toBL_length (rs : List Def) (es : List Ope) : (Ope.toBL rs es).length = es.length := by
  induction es with
  | nil => rfl
  | cons e es ih => simp [Ope.toBL, ih]

mutual
theorem storable_fits (rs : List Def) (e : Ope) (h : e.storable = true) : Blob.Fits (e.toB rs) := by
  cases e with
  | seq es kw =>
    simp only [Ope.storable, Bool.and_eq_true, decide_eq_true_eq] at h
    simp only [Ope.toB, Blob.Fits, toBL_length]
    exact ⟨h.1, storableL_fits rs es h.2⟩
  | cho es l fs =>
    simp only [Ope.storable, Bool.and_eq_true, decide_eq_true_eq] at h
    simp only [Ope.toB, Blob.Fits, toBL_length]
    exact ⟨h.1, storableL_fits rs es h.2⟩
  | rep e mn mx sp =>
    simp only [Ope.storable, Bool.and_eq_true, decide_eq_true_eq] at h
    simp only [Ope.toB, Blob.Fits]
    refine ⟨h.1.1, ?_, storable_fits rs e h.2⟩
    cases mx with
    | none => simp
    | some m =>
      have : m < 2 ^ 64 - 1 := by simpa using h.1.2
      simp only [Option.getD_some]
      omega
  | and_ e => simp only [Ope.storable] at h; simp only [Ope.toB, Blob.Fits]; exact storable_fits rs e h
  | not_ e => simp only [Ope.storable] at h; simp only [Ope.toB, Blob.Fits]; exact storable_fits rs e h
  | capScope e => simp only [Ope.storable] at h; simp only [Ope.toB, Blob.Fits]; exact storable_fits rs e h
  | tok e => simp only [Ope.storable] at h; simp only [Ope.toB, Blob.Fits]; exact storable_fits rs e h
  | ign e => simp only [Ope.storable] at h; simp only [Ope.toB, Blob.Fits]; exact storable_fits rs e h
  | ws e => simp only [Ope.storable] at h; simp only [Ope.toB, Blob.Fits]; exact storable_fits rs e h
  | dict w ic =>
    simp only [Ope.storable, Bool.and_eq_true, decide_eq_true_eq, List.all_eq_true] at h
    simp only [Ope.toB, Blob.Fits]
    refine ⟨w, ic, rfl, ?_, h.1.2, h.2⟩
    rw [← Blob.rebuild_iff, wordsOk_words h.1.1]
  | lit s ic => simpa [Ope.storable, Ope.toB, Blob.Fits] using h
  | cls c =>
    simp only [Ope.storable, Bool.and_eq_true, decide_eq_true_eq, List.all_eq_true] at h
    simp only [Ope.toB, Blob.Fits]
    exact h
  | chr c => simpa [Ope.storable, Ope.toB, Blob.Fits] using h
  | bref nm => simpa [Ope.storable, Ope.toB, Blob.Fits] using h
  | param k nm => simpa [Ope.storable, Ope.toB, Blob.Fits, Blob.FitsAll] using h
  | ref r nm as =>
    simp only [Ope.storable, Bool.and_eq_true, decide_eq_true_eq] at h
    simp only [Ope.toB, Blob.Fits, toBL_length]
    exact ⟨h.1.1, h.1.2, storableL_fits rs as h.2⟩
  | recov r nm as =>
    simp only [Ope.storable, Bool.and_eq_true, decide_eq_true_eq] at h
    simp only [Ope.toB, Blob.Fits, toBL_length]
    exact ⟨h.1.1, h.1.2, storableL_fits rs as h.2⟩
  | prec a b info r =>
    simp only [Ope.storable, Bool.and_eq_true, decide_eq_true_eq, List.all_eq_true] at h
    simp only [Ope.toB, Blob.Fits]
    exact ⟨storable_fits rs a h.1.1.1.1, storable_fits rs b h.1.1.1.2, h.1.1.2, h.1.2, h.2⟩
  | cap nm e => simp [Ope.storable] at h
  | usr id => simp [Ope.storable] at h
  | weak r => simp [Ope.storable] at h
  | _ => simp [Ope.toB, Blob.Fits]

theorem storableL_fits (rs : List Def) (es : List Ope) (h : Ope.storableL es = true) : Blob.FitsAll (Ope.toBL rs es) := by
  cases es with
  | nil => simp [Ope.toBL, Blob.FitsAll]
  | cons e es =>
    simp only [Ope.storableL, Bool.and_eq_true] at h
    simp only [Ope.toBL, Blob.FitsAll]
    exact ⟨storable_fits rs e h.1, storableL_fits rs es h.2⟩
end

mutual
theorem linked_noNull (rs rs' : List Def) (ps : List (List Byte)) (e : Ope) (h : e.linked rs ps = true) : Blob.hitsNull (e.toB rs') = false := by
  cases e with
  | seq es kw => simp only [Ope.linked] at h; simp only [Ope.toB, Blob.hitsNull, linkedL_noNull rs rs' ps es h]
  | cho es l fs => simp only [Ope.linked] at h; simp only [Ope.toB, Blob.hitsNull, linkedL_noNull rs rs' ps es h]
  | rep e mn mx sp => simp only [Ope.linked] at h; simp only [Ope.toB, Blob.hitsNull, linked_noNull rs rs' ps e h]
  | and_ e => simp only [Ope.linked] at h; simp only [Ope.toB, Blob.hitsNull, linked_noNull rs rs' ps e h]
  | not_ e => simp only [Ope.linked] at h; simp only [Ope.toB, Blob.hitsNull, linked_noNull rs rs' ps e h]
  | capScope e => simp only [Ope.linked] at h; simp only [Ope.toB, Blob.hitsNull, linked_noNull rs rs' ps e h]
  | cap nm e => simp only [Ope.linked] at h; simp only [Ope.toB, Blob.hitsNull, linked_noNull rs rs' ps e h]
  | tok e => simp only [Ope.linked] at h; simp only [Ope.toB, Blob.hitsNull, linked_noNull rs rs' ps e h]
  | ign e => simp only [Ope.linked] at h; simp only [Ope.toB, Blob.hitsNull, linked_noNull rs rs' ps e h]
  | ref r nm as =>
    simp only [Ope.linked, Bool.and_eq_true] at h; simp only [Ope.toB, Blob.hitsNull, linkedL_noNull rs rs' ps as h.2]
  | recov r nm as =>
    simp only [Ope.linked, Bool.and_eq_true] at h; simp only [Ope.toB, Blob.hitsNull, linkedL_noNull rs rs' ps as h.2]
  | prec a b info r =>
    simp only [Ope.linked, Bool.and_eq_true] at h; simp only [Ope.toB, Blob.hitsNull, linked_noNull rs rs' ps a h.1.1]
  | ws e => simp [Ope.linked] at h
  | null => simp [Ope.linked] at h
  | _ => simp [Ope.toB, Blob.hitsNull, Blob.hitsNulls]

theorem linkedL_noNull (rs rs' : List Def) (ps : List (List Byte)) (es : List Ope) (h : Ope.linkedL rs ps es = true) :
    Blob.hitsNulls (Ope.toBL rs' es) = false := by
  cases es with
  | nil => rfl
  | cons e es =>
    simp only [Ope.linkedL, Bool.and_eq_true] at h
    simp only [Ope.toBL, Blob.hitsNulls, linked_noNull rs rs' ps e h.1, linkedL_noNull rs rs' ps es h.2, Bool.or_self]
end

/-! ## The parser comes back -/

/-- What the reader computes for a rule when first asked (peglib.h 3274-3279, 3624-3628), and the field set when the first parse starts. -/
structure Def.Computed (rs : List Def) (d : Def) : Prop where
  tok : d.isToken = tokB (d.ope.toB rs)
  lit : d.errLit = litB (d.ope.toB rs)
  mac : d.hasMacroRef = false

/-- A rule as it is before first sets are computed. -/
def Def.FreshRule (nms : List (List Byte)) (r : Nat) (d : Def) : Prop :=
  d.ope.fresh nms d.params = true ∨
    ∃ a b info, d.ope = .prec a b info r ∧ a.fresh nms d.params = true ∧ b.fresh nms d.params = true

theorem restore_fresh {rs : List Def} {g : List BDef} {r : Nat} {d : Def} {pk : Bool} {x : Extras} (hf : d.FreshRule (g.map BDef.name) r)
    (hs : d.ope.storable = true) (hl : d.ope.linked rs d.params = true) (hc : d.Computed rs) :
    BDef.restore g r (d.toB rs pk x) = d := by
  have key : (match (d.toB rs pk x).ope with
      | .prec a b info => Ope.prec (BOpe.link g (d.toB rs pk x).params a) (BOpe.link g (d.toB rs pk x).params b) info r
      | e => BOpe.link g (d.toB rs pk x).params e) = d.ope := by
    show (match d.ope.toB rs with
      | .prec a b info => Ope.prec (BOpe.link g d.params a) (BOpe.link g d.params b) info r
      | e => BOpe.link g d.params e) = d.ope
    rcases hf with hf | ⟨a, b, info, he, ha, hb⟩
    · have := relink rs g d.params d.ope hf hs hl
      revert this
      generalize d.ope = e at hf
      intro this
      cases e with
      | prec a b info r => simp [Ope.fresh] at hf
      | _ => exact this
    · rw [he] at hs hl ⊢
      simp only [Ope.storable, Ope.linked, Bool.and_eq_true] at hs hl
      show Ope.prec (BOpe.link g d.params (a.toB rs)) (BOpe.link g d.params (b.toB rs)) info r = _
      rw [relink rs g d.params a ha hs.1.1.1.1 hl.1.1, relink rs g d.params b hb hs.1.1.1.2 hl.1.2]
  unfold BDef.restore
  rw [key]
  have h1 := hc.tok
  have h2 := hc.lit
  have h3 := hc.mac
  cases d
  simp only at h1 h2 h3
  simp only [Def.toB, ← h1, ← h2, h3]

theorem tokened_src {mark : List Def → Nat → Bool} {S : Source} {r : Nat} {d : Def} (h : (S.tokened mark)[r]? = some d) :
    ∃ s, S.all[r]? = some s ∧ d.params = s.head.params ∧ d.name = s.head.name ∧
      (d.ope = s.body.link S.all s.head.params ∨ d.ope = .tok (s.body.link S.all s.head.params)) := by
  have h1 : ∀ (r : Nat) (d : Def), (S.marked mark)[r]? = some d → ∃ s, S.all[r]? = some s ∧ d.params = s.head.params ∧ d.name = s.head.name ∧
      d.ope = s.body.link S.all s.head.params := by
    intro r d h
    have h0 : ∀ (r : Nat) (d : Def), (linkAll S.all)[r]? = some d → ∃ s, S.all[r]? = some s ∧ d.params = s.head.params ∧ d.name = s.head.name ∧
        d.ope = s.body.link S.all s.head.params := by
      intro r d h
      cases hs : S.all[r]? with
      | none => unfold linkAll at h; rw [List.getElem?_map, hs] at h; cases h
      | some s => rw [linkAll_get hs] at h; cases h; exact ⟨s, rfl, rfl, rfl, rfl⟩
    unfold Source.marked at h
    split at h
    · rw [List.getElem?_mapIdx] at h
      cases hl : (linkAll S.all)[r]? with
      | none => rw [hl] at h; cases h
      | some d0 =>
        rw [hl] at h
        cases h
        obtain ⟨s, e1, e2, e3, e4⟩ := h0 r d0 hl
        exact ⟨s, e1, e2, e3, e4⟩
    · exact h0 r d h
  unfold Source.tokened at h
  split at h
  · rw [List.getElem?_map] at h
    cases hm : (S.marked mark)[r]? with
    | none => rw [hm] at h; cases h
    | some d0 =>
      rw [hm] at h
      cases h
      obtain ⟨s, e1, e2, e3, e4⟩ := h1 r d0 hm
      refine ⟨s, e1, ?_, ?_, ?_⟩
      · unfold tokLit; split <;> exact e2
      · unfold tokLit; split <;> exact e3
      · unfold tokLit
        split
        · right; rw [← e4]
        · left; exact e4
  · obtain ⟨s, e1, e2, e3, e4⟩ := h1 r d h
    exact ⟨s, e1, e2, e3, Or.inl e4⟩

/-- `linked` of a rule's operator survives forgetting the annotations and back. -/
theorem fresh_of_load {mark : List Def → Nat → Bool} {S : Source} (hw : S.Wf) (hr : refsOk S.all = true) {rs : List Def}
    (hp : precAll S.prec 0 (S.tokened mark) = some rs) : ∀ (r : Nat) (d : Def), rs[r]? = some d →
    d.FreshRule (S.all.map (·.head.name)) r := by
  intro r d hd
  obtain ⟨g1, g2⟩ := precAll_get hp r
  cases ht : (S.tokened mark)[r]? with
  | none => rw [g1 ht] at hd; cases hd
  | some t =>
    obtain ⟨d', f1, f2⟩ := g2 t ht
    rw [hd] at f1
    cases f1
    obtain ⟨s, e1, e2, -, e4⟩ := tokened_src ht
    have hl := (linkAll_linked hw hr r _ (linkAll_get e1)).1
    have hf := link_fresh S.all (linkAll S.all) s.head.params s.body hl
    have htf : t.ope.fresh (S.all.map (·.head.name)) t.params = true := by
      rw [e2]
      rcases e4 with e | e
      · rw [e]; exact hf
      · rw [e]; exact hf
    rcases f2 with ⟨-, f2⟩ | ⟨i, -, f2⟩
    · subst f2
      exact Or.inl htf
    · obtain ⟨a, b, a', t1, t2, k1, k2, sp, x, y, q1, -, -, -, -, q2⟩ := applyPrec_inv f2
      right
      rw [q1] at htf
      simp only [Ope.fresh, Ope.freshL, Bool.and_eq_true] at htf
      rw [q2]
      exact ⟨a, b, i, by simp, htf.2.1, htf.2.2.1.2.2.1⟩

theorem blobOf_names (x : Nat → Extras) (G : Parser) : (blobOf x G).map BDef.name = G.rules.map Def.name := by
  unfold blobOf
  apply List.ext_getElem?
  intro i
  simp only [List.getElem?_map, List.getElem?_mapIdx, Option.map_map]
  cases G.rules[i]? <;> rfl

theorem names_nodup {S : Source} {rs : List Def} (h : SameHeads rs (linkAll S.all)) : rs.map Def.name = S.all.map (·.head.name) := by
  apply List.ext_getElem?
  intro i
  have := h i
  rw [List.getElem?_map, List.getElem?_map]
  unfold linkAll at this
  rw [List.getElem?_map, Option.map_map] at this
  cases h1 : rs[i]? with
  | none =>
    rw [h1] at this
    cases h2 : S.all[i]? with
    | none => rfl
    | some s => rw [h2] at this; cases this
  | some d =>
    rw [h1] at this
    cases h2 : S.all[i]? with
    | none => rw [h2] at this; cases this
    | some s =>
      rw [h2] at this
      simp only [Option.map_some, Option.some.injEq] at this
      exact congrArg some (congrArg (fun x => x.1) this)

theorem defNamed_of_names {g : List BDef} {S : Source} (h : g.map BDef.name = S.all.map (·.head.name)) (nm : List Byte) :
    defNamed g nm = ruleNamed S.all nm := by
  rw [← defNamed_names, h, ruleNamed_names]

/-- A loaded parser is restored exactly. -/
theorem restore_blobOf {mark loops : List Def → Nat → Bool} {order : List Nat} {S : Source} (hw : S.Wf) {G : Parser} {a : Nat}
    (h : load mark loops order S = .ok (some (G, a))) (x : Nat → Extras) (hs : ∀ d ∈ G.rules, d.ope.storable = true)
    (hc : ∀ d ∈ G.rules, d.Computed G.rules) {d0 : Def} (ha : G.rules[a]? = some d0) :
    restore order (blobOf x G) d0.name = some (G, a) := by
  have hlo := load_ok hw h
  obtain ⟨-, -, -, -, rs, hp, hrs, hws, hwd, hpk⟩ := load_inv h
  have hfr := fresh_of_load hw hlo.refs hp
  have hpl : PlainOf rs G.rules := by rw [hrs]; exact setupAll_plain rs order
  have hnm : (blobOf x G).map BDef.name = S.all.map (·.head.name) := (blobOf_names x G).trans (names_nodup hlo.heads)
  have hmac : ∀ r : Nat, (G.rules[r]?).map Def.isMacro = (rs[r]?).map Def.isMacro := by
    intro r
    have := congrArg (Option.map Def.isMacro) (hpl r)
    rw [Option.map_map, Option.map_map] at this
    exact this
  have key : (blobOf x G).mapIdx (BDef.restore (blobOf x G)) = rs := by
    apply List.ext_getElem?
    intro r
    have hr := hpl r
    unfold blobOf
    rw [List.getElem?_mapIdx, List.getElem?_mapIdx, Option.map_map]
    cases hd : G.rules[r]? with
    | none =>
      rw [hd] at hr
      cases hd3 : rs[r]? with
      | none => rfl
      | some d3 => rw [hd3] at hr; cases hr
    | some d =>
      rw [hd] at hr
      cases hd3 : rs[r]? with
      | none => rw [hd3] at hr; cases hr
      | some d3 =>
        rw [hd3] at hr
        have hr := Option.some.inj hr
        have e1 : d.ope.plain = d3.ope.plain := congrArg Def.ope hr
        have e2 : d.ope.toB G.rules = d3.ope.toB rs := by
          rw [← toB_plain G.rules d.ope, e1, toB_plain, toB_macros hmac]
        have e3 : d.toB G.rules (G.packrat r) (x r) = d3.toB rs (G.packrat r) (x r) := by
          unfold Def.toB
          rw [e2]
          have f1 : d.name = d3.name := (congrArg Def.name hr :)
          have f2 : d.ignoreSV = d3.ignoreSV := (congrArg Def.ignoreSV hr :)
          have f3 : d.isMacro = d3.isMacro := (congrArg Def.isMacro hr :)
          have f4 : d.isLR = d3.isLR := (congrArg Def.isLR hr :)
          have f5 : d.canBeEmpty = d3.canBeEmpty := (congrArg Def.canBeEmpty hr :)
          have f6 : d.disableAction = d3.disableAction := (congrArg Def.disableAction hr :)
          have f7 : d.noWs = d3.noWs := (congrArg Def.noWs hr :)
          have f8 : d.params = d3.params := (congrArg Def.params hr :)
          have f9 : d.errorMessage = d3.errorMessage := (congrArg Def.errorMessage hr :)
          rw [f1, f2, f3, f4, f5, f6, f7, f8, f9]
        have hmem := List.mem_of_getElem? hd
        have hcd := hc d hmem
        show some (BDef.restore (blobOf x G) r (d.toB G.rules (G.packrat r) (x r))) = some d3
        rw [e3]
        congr 1
        apply restore_fresh
        · rw [hnm]; exact hfr r d3 hd3
        · rw [← storable_plain, ← e1, storable_plain]; exact hs d hmem
        · have hl : LinkedRules rs := by
            have hpp : PlainOf G.rules rs := fun r => (hpl r).symm
            exact hpp.linked hlo.linked
          exact (hl r d3 hd3).1
        · refine ⟨?_, ?_, ?_⟩
          · rw [← e2, ← hcd.tok]; exact (congrArg Def.isToken hr).symm
          · rw [← e2, ← hcd.lit]; exact (congrArg Def.errLit hr).symm
          · rw [← hcd.mac]; exact (congrArg Def.hasMacroRef hr).symm
  have hst : defNamed (blobOf x G) d0.name = some a := by
    rw [defNamed_of_names hnm]
    have hnd := hlo.nodup
    obtain ⟨d', e, hn, -, -⟩ := hlo.heads.get ha
    cases hsa : S.all[a]? with
    | none => unfold linkAll at e; rw [List.getElem?_map, hsa] at e; cases e
    | some s =>
      rw [linkAll_get hsa] at e
      cases e
      have hn : d0.name = s.head.name := hn
      rw [hn]
      cases hrn : ruleNamed S.all s.head.name with
      | none =>
        exfalso
        have := (ruleNamed_isSome S.all s.head.name).2 ⟨s, List.mem_of_getElem? hsa, rfl⟩
        rw [hrn] at this; cases this
      | some b =>
        obtain ⟨s', hb, hbn⟩ := ruleNamed_some hrn
        have g1 : (S.all.map (·.head.name))[a]? = some s.head.name := by rw [List.getElem?_map, hsa]; rfl
        have g2 : (S.all.map (·.head.name))[b]? = some s.head.name := by rw [List.getElem?_map, hb]; exact congrArg some hbn
        have l2 := (List.getElem?_eq_some_iff.1 g2).1
        rw [(List.getElem?_inj l2 hnd).1 (g2.trans g1.symm)]
  have hw1 : G.ws = fun r => if r = a then ((defNamed (blobOf x G) whitespaceName).bind fun r => G.rules[r]?).map fun d => Ope.ws (.ign d.ope) else none := by
    rw [defNamed_of_names hnm, hws, hrs]
  have hw2 : G.word = fun r => if r = a then ((defNamed (blobOf x G) wordName).bind fun r => G.rules[r]?).map Def.ope else none := by
    rw [defNamed_of_names hnm, hwd, hrs]
  have hw3 : G.packrat = fun r => (((blobOf x G)[r]?).map BDef.packrat).getD false := by
    funext r
    unfold blobOf
    rw [List.getElem?_mapIdx]
    cases hd : G.rules[r]? with
    | some d => rfl
    | none =>
      have : r ≠ a := by
        rintro rfl
        rw [ha] at hd
        cases hd
      rw [hpk]
      simp [this]
  unfold restore
  rw [hst]
  simp only [key]
  rw [← hrs, ← hw1, ← hw2, ← hw3]

/-! ## Any iteration order -/

/-- The iteration order of the map decides neither whether a grammar loads nor what is written. -/
theorem load_order {mark loops : List Def → Nat → Bool} {order : List Nat} {S : Source} {G : Parser} {a : Nat}
    (h : load mark loops order S = .ok (some (G, a))) (order' : List Nat) :
    ∃ G', load mark loops order' S = .ok (some (G', a)) ∧ PlainOf G.rules G'.rules ∧ G'.packrat = G.packrat := by
  obtain ⟨-, -, -, -, rs, hp, hrs, hws, hwd, hpk⟩ := load_inv h
  have main : ∀ o, load mark loops o S = .ok (some ({
      rules := setupAll rs o
      ws := fun r => if r = a then ((ruleNamed S.all whitespaceName).bind fun r => (setupAll rs o)[r]?).map fun d => .ws (.ign d.ope) else none
      word := fun r => if r = a then ((ruleNamed S.all wordName).bind fun r => (setupAll rs o)[r]?).map Def.ope else none
      packrat := fun r => decide (r = a) && S.packrat }, a)) := by
    intro o
    unfold load at h ⊢
    by_cases h0 : ¬ (S.all.map (·.head.name)).Nodup
    · rw [if_pos h0] at h; cases h
    rw [if_neg h0] at h ⊢
    cases hst : S.startRule with
    | none => rw [hst] at h; cases h
    | some q =>
      rw [hst] at h
      cases q with
      | none => cases h
      | some a' =>
        dsimp only at h ⊢
        split at h
        · cases h
        rename_i c1
        rw [if_neg c1]
        split at h
        · cases h
        rename_i c2
        rw [if_neg c2]
        split at h
        · cases h
        rename_i c3
        rw [if_neg c3]
        have e1 : (if S.leftRec = true then (linkAll S.all).mapIdx fun r d => { d with isLR := mark (linkAll S.all) r } else linkAll S.all) =
            S.marked mark := rfl
        rw [e1] at h ⊢
        split at h
        · cases h
        rename_i c4
        rw [if_neg c4]
        have e2 : (if (ruleNamed S.all whitespaceName).isSome = true then (S.marked mark).map tokLit else S.marked mark) = S.tokened mark := rfl
        rw [e2] at h ⊢
        split at h
        · cases h
        rename_i c5
        rw [if_neg c5]
        split at h
        · cases h
        rename_i c6
        rw [if_neg c6]
        rw [hp] at h ⊢
        have ha : a' = a := congrArg Prod.snd (Option.some.inj (Out.ok.inj h))
        subst ha
        rfl
  refine ⟨_, main order', ?_, ?_⟩
  · intro r
    rw [hrs]
    exact (setupAll_plain rs order' r).trans (setupAll_plain rs order r).symm
  · rw [hpk]

theorem toB_plainOf {rs rs' : List Def} (h : PlainOf rs rs') {r : Nat} {d d' : Def} (hd : rs[r]? = some d) (hd' : rs'[r]? = some d') :
    d'.plain = d.plain ∧ d'.ope.toB rs' = d.ope.toB rs := by
  have hr := h r
  rw [hd, hd'] at hr
  have hr := Option.some.inj hr
  have e1 : d'.ope.plain = d.ope.plain := congrArg Def.ope hr
  refine ⟨hr, ?_⟩
  rw [← toB_plain rs' d'.ope, e1, toB_plain]
  apply toB_macros
  intro r
  have := congrArg (Option.map Def.isMacro) (h r)
  rw [Option.map_map, Option.map_map] at this
  exact this

theorem blobOf_plainOf {x : Nat → Extras} {G G' : Parser} (h : PlainOf G.rules G'.rules) (hp : G'.packrat = G.packrat) :
    blobOf x G' = blobOf x G := by
  apply List.ext_getElem?
  intro r
  unfold blobOf
  rw [List.getElem?_mapIdx, List.getElem?_mapIdx]
  have hr := h r
  cases hd : G.rules[r]? with
  | none =>
    rw [hd] at hr
    cases hd' : G'.rules[r]? with
    | none => rfl
    | some d' => rw [hd'] at hr; cases hr
  | some d =>
    rw [hd] at hr
    cases hd' : G'.rules[r]? with
    | none => rw [hd'] at hr; cases hr
    | some d' =>
      obtain ⟨e, e2⟩ := toB_plainOf h hd hd'
      show some (d'.toB G'.rules (G'.packrat r) (x r)) = some (d.toB G.rules (G.packrat r) (x r))
      congr 1
      unfold Def.toB
      rw [e2, hp]
      have f1 : d'.name = d.name := (congrArg Def.name e :)
      have f2 : d'.ignoreSV = d.ignoreSV := (congrArg Def.ignoreSV e :)
      have f3 : d'.isMacro = d.isMacro := (congrArg Def.isMacro e :)
      have f4 : d'.isLR = d.isLR := (congrArg Def.isLR e :)
      have f5 : d'.canBeEmpty = d.canBeEmpty := (congrArg Def.canBeEmpty e :)
      have f6 : d'.disableAction = d.disableAction := (congrArg Def.disableAction e :)
      have f7 : d'.noWs = d.noWs := (congrArg Def.noWs e :)
      have f8 : d'.params = d.params := (congrArg Def.params e :)
      have f9 : d'.errorMessage = d.errorMessage := (congrArg Def.errorMessage e :)
      rw [f1, f2, f3, f4, f5, f6, f7, f8, f9]

/-- A list of definitions is determined by the map it lists and the order of the names. -/
theorem listing_unique {g g' : List BDef} (hp : g'.Perm g) (hn : g'.map BDef.name = g.map BDef.name) (hd : (g.map BDef.name).Nodup) : g' = g := by
  apply List.ext_getElem?
  intro i
  have hi : (g'.map BDef.name)[i]? = (g.map BDef.name)[i]? := by rw [hn]
  rw [List.getElem?_map, List.getElem?_map] at hi
  cases h' : g'[i]? with
  | none =>
    rw [h'] at hi
    cases h : g[i]? with
    | none => rfl
    | some d => rw [h] at hi; cases hi
  | some d' =>
    rw [h'] at hi
    cases h : g[i]? with
    | none => rw [h] at hi; cases hi
    | some d =>
      rw [h] at hi
      have hi := Option.some.inj hi
      obtain ⟨j, hj⟩ := List.mem_iff_getElem?.1 (hp.mem_iff.1 (List.mem_of_getElem? h'))
      have g1 : (g.map BDef.name)[j]? = some d'.name := by rw [List.getElem?_map, hj]; rfl
      have g2 : (g.map BDef.name)[i]? = some d'.name := by rw [List.getElem?_map, h]; exact congrArg some hi.symm
      have l1 := (List.getElem?_eq_some_iff.1 g1).1
      have := (List.getElem?_inj l1 hd).1 (g1.trans g2.symm)
      subst this
      rw [h] at hj
      exact hj.symm

end Verif
