import Verif.MetaLex
/-!
# Literals, classes and numbers as the reader reads them
-/

namespace Verif.Meta
open Verif CharClass Utf8 Props

section
variable {T : Str}

/-! ## Literals -/

/-- The end of a literal, with or without `i`. -/
def closeOf (q : Nat) (ic : Bool) : Ope := if ic then lit [toByte q, 105] else cls [(q, q)]

def litBody (q : Nat) (ic : Bool) : Ope := seq [cls [(q, q)], .tok (zom (seq [npd (cls [(q, q)]), gChar])), closeOf q ic, gSpacing]

def litOpe (ic : Bool) : Ope := cho [litBody 39 ic, litBody 34 ic]

theorem lit_body {q : Nat} {us : List Chr} {ic : Bool} {sp u : Str} (hq : q = 39 ∨ q = 34) (h : LitOk q us) (hsp : Sp sp u) (hu : Stop u)
    (hs : Sub T ((Tok.lit q us ic).chars ++ (sp ++ u))) :
    ∃ vs tk, poison vs = none ∧ (tk.map (slice (enc T))).head? = some (enc (us.flatMap Chr.chars)) ∧
      Rd T (litBody q ic) ((Tok.lit q us ic).chars ++ (sp ++ u)) u vs tk := by
  have e1 : (Tok.lit q us ic).chars ++ (sp ++ u) = q :: (us.flatMap Chr.chars ++ (q :: (suffixI ic ++ (sp ++ u)))) := by simp [Tok.chars]
  rw [e1] at hs ⊢
  obtain ⟨vs, k1, k2⟩ := units_read hq h hs.tail1
  have hclose : Rd T (closeOf q ic) (q :: (suffixI ic ++ (sp ++ u))) (sp ++ u) [] [] := by
    have hs2 := hs.tail1.tail
    cases ic with
    | false => exact Rd.cls hs2 (by simp [inCs])
    | true =>
      refine Rd.lit [q, 105] ?_ hs2
      rw [enc_cons, encode_ascii (by omega)]; rfl
  have hs3 : Sub T (sp ++ u) := hs.tail1.tail.tail1.tail
  refine ⟨[] ++ (vs ++ ([] ++ ([] ++ []))), _, by simpa using k1, ?_, Mt.seq (MtL.cons (tk := []) (Rd.cls hs (by simp [inCs])) (MtL.cons (Mt.tok (Mt.zom k2))
    (MtL.cons hclose (MtL.cons (spacing_read hsp hu hs3) .nil))))⟩
  simp only [List.nil_append, List.append_nil, List.map_cons, List.map_nil, List.head?_cons]
  rw [slice_tok hs.tail1]

theorem lit_other {q q' : Nat} {us : List Chr} {ic ic' : Bool} {v : Str} (hne : q ≠ q') (hs : Sub T ((Tok.lit q us ic).chars ++ v)) :
    Fl T (litBody q' ic') ((Tok.lit q us ic).chars ++ v) := by
  have e1 : (Tok.lit q us ic).chars ++ v = q :: (us.flatMap Chr.chars ++ (q :: (suffixI ic ++ v))) := by simp [Tok.chars]
  rw [e1] at hs ⊢
  exact Mf.seq (.head (Fl.clsC hs (inCs_one.mpr hne)))

/-- The rules `Literal`, `LiteralD`, `LiteralI`, `LiteralID`. -/
theorem literal_read {r : Nat} {d : Def} {nm : List Byte} {q : Nat} {us : List Chr} {ic : Bool} {sp u : Str} {mk : List Byte → MV}
    (hd : metaRules[r]? = some d) (he : d.ope = litOpe ic) (hi : d.ignoreSV = false) (hh : hasAct r = true)
    (ha : ∀ vs tk sv k, act r vs tk sv k = some (do .ok (mk (← unescape (← frontTok tk)))))
    (hk : (Tok.lit q us ic).Ok) (hsp : Sp sp u) (hu : Stop u) (hs : Sub T ((Tok.lit q us ic).chars ++ (sp ++ u))) :
    Rd T (.ref r nm []) ((Tok.lit q us ic).chars ++ (sp ++ u)) u [some (mk (litVal us))] [] := by
  have hq : q = 39 ∨ q = 34 := by simpa using hk.1
  obtain ⟨vs, tk, h1, h2, h3⟩ := lit_body hq hk.2 hsp hu hs
  have hres := lit_resolve hk.2 (fun c hc => hs.scalar (by simp [Tok.chars]; right; left; simpa using hc))
  have e1 : (Tok.lit q us ic).chars ++ (sp ++ u) = ((Tok.lit q us ic).chars ++ sp) ++ u := by simp
  have hw : ∀ k, pushed d (rvS T r vs tk ((Tok.lit q us ic).chars ++ sp) k) = [some (mk (litVal us))] := by
    intro k
    unfold pushed rvS
    rw [if_pos hh, ha, hi]
    cases htk : tk.map (slice (enc T)) with
    | nil => rw [htk] at h2; cases h2
    | cons x xs =>
      rw [htk] at h2
      cases h2
      simp only [Option.map_some, valueOf, h1, frontTok, unescape, bind, Except.bind, hres]
      rfl
  rcases hq with rfl | rfl
  · rw [e1] at hs h3 ⊢
    exact Rd.ruleC hd he hs (.here h3) (hw _)
  · have h4 := lit_other (q' := 39) (ic' := ic) (by decide) hs
    rw [e1] at hs h3 h4 ⊢
    exact Rd.ruleC hd he hs (.next h4 (.here h3)) (hw _)

/-- Without `i`, the rules `LiteralI` and `LiteralID` fail. -/
theorem literalI_fail {r : Nat} {d : Def} {nm : List Byte} {q : Nat} {us : List Chr} {v : Str}
    (hd : metaRules[r]? = some d) (he : d.ope = litOpe true) (hk : (Tok.lit q us false).Ok) (hv : ∀ c, v.head? = some c → inCs [(105, 105)] c = false)
    (hs : Sub T ((Tok.lit q us false).chars ++ v)) : Fl T (.ref r nm []) ((Tok.lit q us false).chars ++ v) := by
  have hq : q = 39 ∨ q = 34 := by simpa using hk.1
  have hself : Fl T (litBody q true) ((Tok.lit q us false).chars ++ v) := by
    have e1 : (Tok.lit q us false).chars ++ v = q :: (us.flatMap Chr.chars ++ (q :: v)) := by simp [Tok.chars, suffixI]
    rw [e1] at hs ⊢
    obtain ⟨vs, k1, k2⟩ := units_read hq hk.2 hs.tail1
    refine Mf.seq (.tail (Rd.cls hs (by simp [inCs])) (.tail (Mt.tok (Mt.zom k2)) (.head ?_)))
    refine Fl.lit [q, 105] ?_ (by rcases hq with rfl | rfl <;> decide) hs.tail1.tail ?_
    · rw [enc_cons, encode_ascii (by omega)]; rfl
    · rintro ⟨w, hw⟩
      simp only [List.cons_append, List.nil_append, List.cons.injEq, true_and] at hw
      have := hv 105 (by rw [← hw]; rfl)
      exact absurd this (by decide)
  refine Mf.rule hd ?_
  rw [he]
  refine Mf.cho fun e he => ?_
  simp only [List.mem_cons, List.not_mem_nil, or_false] at he
  rcases he with rfl | rfl
  · rcases hq with rfl | rfl
    · exact hself
    · exact lit_other (by decide) hs
  · rcases hq with rfl | rfl
    · exact lit_other (by decide) hs
    · exact hself

/-! ## Classes -/

theorem chr_scalar {bad : List Nat} {u : Chr} (hu : u.Ok bad) (hc : ∀ c ∈ u.chars, IsScalar c) : IsScalar u.val := by
  cases u with
  | raw c => exact hc c (by simp [Chr.chars])
  | esc e => have := (esc_facts e hu).2.2.1; simp only [IsScalar, Chr.val]; omega
  | hex ds =>
    have hlt := digits_lt 16 ds fun d hd => (hex_facts d (hu.2 d hd)).2.2.1
    simp only [IsScalar, Chr.val]
    rcases hu.1 with h | h <;> (rw [h] at hlt; omega)
  | uni ds => exact hu.2.2
  | oct ds =>
    have hlt := digits_lt 8 ds fun d hd => (oct_facts d (hu.2 d hd)).2.2
    simp only [IsScalar, Chr.val]
    rcases hu.1 with h | h | ⟨h, -⟩ <;> (rw [h] at hlt; omega)

theorem decodeOr0_encode {c : Nat} (hc : IsScalar c) : decodeOr0 (encodeCodepoint c) = c := by
  have := decodeLenCp_encode hc []
  rw [List.append_nil] at this
  unfold decodeOr0; rw [this]

/-- The value of an element. -/
def Item.mv : Item → MV
  | .one u => .rng (u.val, u.val)
  | .range a b => .rng (a.val, b.val)
  | .pre c => .rngs (Item.pre c).ranges
  | .posix n nm => .rngs (Item.posix n nm).ranges

theorem collect_items (is : List Item) : collect (is.map fun i => some i.mv) = .ok (is.flatMap Item.ranges) := by
  induction is with
  | nil => rfl
  | cons i is ih =>
    rw [List.map_cons, List.flatMap_cons]
    cases i with
    | one u =>
      show (do let x ← collect (is.map fun (i : Item) => some i.mv); Except.ok ((u.val, u.val) :: x)) = _
      rw [ih]; rfl
    | range a b =>
      show (do let x ← collect (is.map fun (i : Item) => some i.mv); Except.ok ((a.val, b.val) :: x)) = _
      rw [ih]; rfl
    | pre c =>
      show (do let x ← collect (is.map fun (i : Item) => some i.mv); Except.ok ((Item.pre c).ranges ++ x)) = _
      rw [ih]; rfl
    | posix n nm =>
      show (do let x ← collect (is.map fun (i : Item) => some i.mv); Except.ok ((Item.posix n nm).ranges ++ x)) = _
      rw [ih]; rfl

theorem enc_letters {nm : Str} (h : ∀ c ∈ nm, 97 ≤ c ∧ c ≤ 122) : enc nm = nm.map toByte := by
  induction nm with
  | nil => rfl
  | cons c nm ih =>
    have := h c (by simp)
    rw [enc_cons, ih fun c hc => h c (by simp [hc]), encode_ascii (by omega)]; rfl

theorem posix_value {neg : Bool} {nm : Str} (h : (Item.posix neg nm).Ok) :
    aPosixClass (enc (Item.posix neg nm).chars) = .ok (Item.posix neg nm).mv := by
  obtain ⟨h1, h2, h3⟩ := h
  have hl := enc_letters h2
  obtain ⟨r, hr⟩ := Option.isSome_iff_exists.mp h3
  cases neg with
  | false =>
    cases nm with
    | nil => exact absurd rfl h1
    | cons c cs =>
      have hc := h2 c (by simp)
      have e1 : enc (Item.posix false (c :: cs)).chars = 91 :: 58 :: (enc (c :: cs) ++ [58, 93]) := by
        simp only [Item.chars, enc_append]; rfl
      have e2 : (enc (Item.posix false (c :: cs)).chars)[2]? = some (toByte c) := by rw [e1, hl]; rfl
      have e3 : toByte c ≠ 94 := by
        intro h'
        have := congrArg UInt8.toNat h'
        rw [toByte_toNat (by omega)] at this
        have h94 : (94 : UInt8).toNat = 94 := rfl
        omega
      unfold aPosixClass
      rw [e2]
      have e4 : decide (some (toByte c) = some (94 : Byte)) = false := by simpa using e3
      simp only [e4, Bool.false_eq_true, if_false]
      have e5 : (List.drop 2 (enc (Item.posix false (c :: cs)).chars)).take ((enc (Item.posix false (c :: cs)).chars).length - 4) = enc (c :: cs) := by
        rw [e1]
        simp
      rw [e5, hr]
      simp [Item.mv, Item.ranges, hr]
  | true =>
    have e1 : enc (Item.posix true nm).chars = 91 :: 58 :: 94 :: (enc nm ++ [58, 93]) := by
      simp only [Item.chars, enc_append]; rfl
    unfold aPosixClass
    have e2 : decide ((enc (Item.posix true nm).chars)[2]? = some (94 : Byte)) = true := by rw [e1]; rfl
    simp only [e2, if_true]
    have e5 : (List.drop 3 (enc (Item.posix true nm).chars)).take ((enc (Item.posix true nm).chars).length - 5) = enc nm := by
      rw [e1]
      simp
    rw [e5, hr]
    simp [Item.mv, Item.ranges, hr]

theorem range_fail_escape {u : Chr} {v : Str} (hu : u.Ok [93, 91]) (hs : Sub T (u.chars ++ v)) : Fl T gClassEscape (u.chars ++ v) := by
  have hd : metaRules[rClassEscape]? = some dClassEscape := rfl
  cases u with
  | raw c =>
    have hs' : Sub T (c :: v) := hs
    refine Fl.no (l := [(92, 92)]) (by decide +kernel) hs' ?_
    intro d hd; cases hd; exact inCs_one.mpr hu.1
  | esc e =>
    have hs' : Sub T (92 :: e :: v) := hs
    refine Mf.rule hd (Mf.seq (.tail (Rd.chr hs') (.head (Fl.clsC hs'.tail1 ?_))))
    have := (esc_facts e hu).2.2.2
    simp [inCs] at this ⊢
    omega
  | hex ds =>
    have hs' : Sub T (92 :: 120 :: (ds ++ v)) := hs
    exact Mf.rule hd (Mf.seq (.tail (Rd.chr hs') (.head (Fl.clsC hs'.tail1 (by decide)))))
  | uni ds =>
    have hs' : Sub T (92 :: 117 :: (ds ++ v)) := hs
    exact Mf.rule hd (Mf.seq (.tail (Rd.chr hs') (.head (Fl.clsC hs'.tail1 (by decide)))))
  | oct ds =>
    cases ds with
    | nil => rcases hu.1 with h | h | ⟨h, -⟩ <;> cases h
    | cons d ds =>
      have hs' : Sub T (92 :: d :: (ds ++ v)) := hs
      refine Mf.rule hd (Mf.seq (.tail (Rd.chr hs') (.head (Fl.clsC hs'.tail1 ?_))))
      have := hu.2 d (by simp)
      simp [octDigit, inCs] at this ⊢
      omega

theorem range_fail_posix {u : Chr} {v : Str} (hu : u.Ok [93, 91]) (hs : Sub T (u.chars ++ v)) : Fl T gPosixClass (u.chars ++ v) := by
  cases u with
  | raw c =>
    have hs' : Sub T (c :: v) := hs
    refine Fl.no (l := [(91, 91)]) (by decide +kernel) hs' ?_
    intro d hd; cases hd
    have := hu.2
    simp at this
    exact inCs_one.mpr this.2
  | esc e =>
    have hs' : Sub T (92 :: e :: v) := hs
    exact Fl.cs (l := [(92, 92)]) (by decide +kernel) hs' (by decide)
  | hex ds =>
    have hs' : Sub T (92 :: 120 :: (ds ++ v)) := hs
    exact Fl.cs (l := [(92, 92)]) (by decide +kernel) hs' (by decide)
  | uni ds =>
    have hs' : Sub T (92 :: 117 :: (ds ++ v)) := hs
    exact Fl.cs (l := [(92, 92)]) (by decide +kernel) hs' (by decide)
  | oct ds =>
    have hs' : Sub T (92 :: (ds ++ v)) := hs
    exact Fl.cs (l := [(92, 92)]) (by decide +kernel) hs' (by decide)

theorem chr_ne93 {u : Chr} (hu : u.Ok [93, 91]) : ∃ c cs, u.chars = c :: cs ∧ c ≠ 93 := by
  obtain ⟨c, cs, hc, h⟩ := chr_first hu
  refine ⟨c, cs, hc, ?_⟩
  rcases h with rfl | ⟨h, -⟩
  · decide
  · simp at h; exact h.1

/-- An element that is not followed by `-` (unless the class ends there). -/
theorem range_read {i : Item} {v : Str} (hi : i.Ok) (hv : ∀ u, i = .one u → v.head? = some 45 → ∃ w, v = 45 :: 93 :: w)
    (hop : ∀ c, v.head? = some c → inCs i.open_ c = false) (hs : Sub T (i.chars ++ v)) :
    Rd T gRange (i.chars ++ v) v [some i.mv] [] := by
  have hd : metaRules[rRange]? = some dRange := rfl
  cases i with
  | one u =>
    have hs' : Sub T (u.chars ++ v) := hs
    have hsc := chr_scalar hi fun c hc => hs'.scalar (by simp [hc])
    refine Rd.ruleC hd rfl hs (k := 3) (vs := [some (.str (encodeCodepoint u.val))]) (tk := [])
      (.next ?_ (.next (range_fail_escape hi hs') (.next (range_fail_posix hi hs') (.here (char_read hi hop hs'))))) ?_
    · by_cases h : v.head? = some 45
      · obtain ⟨w, rfl⟩ := hv u rfl h
        exact Mf.seq (.tail (char_read hi hop hs') (.tail (Rd.chr hs'.tail) (.head (Mf.npd (Rd.chr hs'.tail.tail1)))))
      · refine Mf.seq (.tail (char_read hi hop hs') (.head (Fl.no (l := [(45, 45)]) (by decide +kernel) hs'.tail ?_)))
        intro d hd
        refine inCs_one.mpr fun h' => h ?_
        rw [hd, h']
    · show [some (valueOf [some (.str (encodeCodepoint u.val))] (do let x ← Except.ok (encodeCodepoint u.val); Except.ok (.rng (decodeOr0 x, decodeOr0 x))))] = _
      simp only [bind, Except.bind, valueOf, poison, decodeOr0_encode hsc]
      rfl
  | range a b =>
    obtain ⟨h1, h2, h3⟩ := hi
    have e1 : (Item.range a b).chars ++ v = a.chars ++ (45 :: (b.chars ++ v)) := by simp [Item.chars]
    have hs' : Sub T (a.chars ++ (45 :: (b.chars ++ v))) := by rw [← e1]; exact hs
    have ha := chr_scalar h1 fun c hc => hs'.scalar (by simp [hc])
    have hb := chr_scalar h2 fun c hc => hs'.scalar (by simp [hc])
    refine Rd.ruleC hd rfl hs (k := 0) (vs := [some (.str (encodeCodepoint a.val)), some (.str (encodeCodepoint b.val))]) (tk := []) (.here ?_) ?_
    · rw [e1]
      refine Mt.seq (MtL.cons (v := [_]) (tk := []) (char_read h1 (fun c hc => by cases hc; exact open_ascii (by decide) a) hs') (MtL.cons (v := []) (tk := []) (Rd.chr hs'.tail)
        (MtL.cons (v := []) (tk := []) (Mt.npd ?_) (MtL.cons (v := [_]) (tk := []) (char_read h2 hop hs'.tail.tail1) .nil))))
      have hs2 := hs'.tail.tail1
      have : ∃ c cs, b.chars = c :: cs ∧ c ≠ 93 := chr_ne93 h2
      obtain ⟨c, cs, hc, hne⟩ := this
      rw [hc] at hs2 ⊢
      refine Fl.no (l := [(93, 93)]) (by decide +kernel) hs2 ?_
      intro d hd; cases hd; exact inCs_one.mpr hne
    · show [some (valueOf [some (.str (encodeCodepoint a.val)), some (.str (encodeCodepoint b.val))]
        (do let x ← Except.ok (encodeCodepoint a.val); let y ← Except.ok (encodeCodepoint b.val)
            if decodeOr0 y < decodeOr0 x then .error .syntaxErr else .ok (.rng (decodeOr0 x, decodeOr0 y))))] = _
      simp only [bind, Except.bind, valueOf, poison, decodeOr0_encode ha, decodeOr0_encode hb]
      rw [if_neg (by omega)]
      rfl
  | pre c =>
    have hs' : Sub T (92 :: c :: v) := hs
    have hc : inCs [(100, 100), (68, 68), (119, 119), (87, 87), (115, 115), (83, 83)] c = true := by
      simp only [Item.Ok, List.mem_cons, List.not_mem_nil, or_false] at hi
      rcases hi with rfl | rfl | rfl | rfl | rfl | rfl <;> decide
    have hch : Fl T gChar (92 :: c :: v) := by
      refine Mf.rule (d := dChar) rfl (Mf.cho fun e he => ?_)
      have hne : c ≠ 120 ∧ c ≠ 117 := by simp [inCs] at hc; omega
      simp only [List.mem_cons, List.not_mem_nil, or_false] at he
      rcases he with rfl | rfl | rfl | rfl | rfl | rfl
      · exact Mf.seq (.tail (Rd.chr hs') (.head (Fl.cs (l := [(100, 100), (68, 68), (119, 119), (87, 87), (115, 115), (83, 83)]) (by decide +kernel) hs'.tail1 hc)))
      · exact Mf.seq (.tail (Rd.chr hs') (.head (Fl.cs (l := [(100, 100), (68, 68), (119, 119), (87, 87), (115, 115), (83, 83)]) (by decide +kernel) hs'.tail1 hc)))
      · exact Mf.seq (.tail (Rd.chr hs') (.head (Fl.cs (l := [(100, 100), (68, 68), (119, 119), (87, 87), (115, 115), (83, 83)]) (by decide +kernel) hs'.tail1 hc)))
      · refine Mf.seq (.head (Fl.lit [92, 120] (by decide) (by decide) hs' ?_))
        rintro ⟨w, hw⟩; simp at hw; exact hne.1 hw.1.symm
      · refine Mf.seq (.head (Fl.lit [92, 117] (by decide) (by decide) hs' ?_))
        rintro ⟨w, hw⟩; simp at hw; exact hne.2 hw.1.symm
      · exact Mf.seq (.head (Mf.npd (Rd.chr hs')))
    have hce : Rd T gClassEscape ([92, c] ++ v) v [some (Item.pre c).mv] [] := by
      refine Rd.rule (d := dClassEscape) (vs := []) (tk := []) rfl rfl hs
        (Mt.seq (MtL.cons (v := []) (tk := []) (Rd.chr hs') (MtL.cons (v := []) (tk := []) (Rd.cls hs'.tail1 hc) .nil))) ?_
      simp only [Item.Ok, List.mem_cons, List.not_mem_nil, or_false] at hi
      rcases hi with rfl | rfl | rfl | rfl | rfl | rfl <;> rfl
    exact Rd.ruleC hd rfl hs (k := 1) (vs := [some (Item.pre c).mv]) (tk := []) (.next (Mf.seq (.head hch)) (.here hce)) rfl
  | posix neg nm =>
    have hval := posix_value hi
    obtain ⟨h1, h2, h3⟩ := hi
    have e1 : (Item.posix neg nm).chars ++ v = 91 :: 58 :: ((if neg then [94] else []) ++ (nm ++ (58 :: 93 :: v))) := by simp [Item.chars]
    have hs' : Sub T (91 :: 58 :: ((if neg then [94] else []) ++ (nm ++ (58 :: 93 :: v)))) := by rw [← e1]; exact hs
    have hletters : ∀ nm : Str, (∀ c ∈ nm, 97 ≤ c ∧ c ≤ 122) → Sub T (nm ++ (58 :: 93 :: v)) →
        MtStar (enc T) (cls [(97, 122)]) (enc (nm ++ (58 :: 93 :: v))) (enc (58 :: 93 :: v)) [] [] := by
      intro nm
      induction nm with
      | nil => exact fun _ hs => .stop (Fl.cs (l := [(58, 58)]) (by decide +kernel) hs (by decide))
      | cons c nm ih =>
        intro h hs
        refine MtStar.more (v := []) (tk := []) (Rd.cls hs ?_) (ih (fun c hc => h c (by simp [hc])) hs.tail1)
        simpa [inCs] using h c (by simp)
    have hpx : Rd T gPosixClass ((Item.posix neg nm).chars ++ v) v [some (Item.posix neg nm).mv] [] := by
      refine Rd.rule (d := dPosixClass) (vs := []) (tk := []) rfl rfl hs ?_ ?_
      · rw [e1]
        have hs2 := hs'.tail1.tail1
        have hopt : Rd T (opt (.chr 94)) ((if neg then [94] else []) ++ (nm ++ (58 :: 93 :: v))) (nm ++ (58 :: 93 :: v)) [] [] := by
          cases neg with
          | true => exact Mt.opt (Rd.chr hs2)
          | false =>
            refine Mt.opt_none (Fl.no (l := [(94, 94)]) (by decide +kernel) hs2 ?_)
            intro d hd
            refine inCs_one.mpr fun h' => ?_
            cases nm with
            | nil => exact h1 rfl
            | cons c cs => simp at hd; have := h2 c (by simp); omega
        have hs3 := hs2.tail
        cases nm with
        | nil => exact absurd rfl h1
        | cons c cs =>
          refine Mt.seq (MtL.cons (v := []) (tk := []) (Rd.lit [91, 58] (by decide) hs') (MtL.cons (v := []) (tk := []) hopt
            (MtL.cons (v := []) (tk := []) (Mt.oom (v := []) (tk := []) (Rd.cls hs3 ?_) (hletters cs (fun d hd => h2 d (by simp [hd])) hs3.tail1))
              (MtL.cons (v := []) (tk := []) (Rd.lit [58, 93] (by decide) (hs3.tail)) .nil))))
          simpa [inCs] using h2 c (by simp)
      · show [some (valueOf [] (aPosixClass (enc (Item.posix neg nm).chars)))] = _
        rw [hval]; rfl
    refine Rd.ruleC hd rfl hs (k := 2) (vs := [some (Item.posix neg nm).mv]) (tk := []) (.next ?_ (.next ?_ (.here hpx))) ?_
    · rw [e1]
      exact Mf.seq (.tail (char_read (bad := []) (u := .raw 91) ⟨by decide, by simp⟩ (fun _ _ => rfl) hs') (.head (Fl.cs (l := [(58, 58)]) (by decide +kernel) hs'.tail1 (by decide))))
    · rw [e1]
      exact Fl.cs (l := [(91, 91)]) (by decide +kernel) hs' (by decide)
    · rfl

theorem item_head {i : Item} (hi : i.Ok) : ∃ c cs, i.chars = c :: cs ∧ c ≠ 93 := by
  cases i with
  | one u => exact chr_ne93 hi
  | range u b =>
    obtain ⟨c, cs, hc, h⟩ := chr_ne93 hi.1
    exact ⟨c, cs ++ 45 :: b.chars, by simp [Item.chars, hc], h⟩
  | pre c => exact ⟨92, [c], rfl, by decide⟩
  | posix n nm => exact ⟨91, _, rfl, by decide⟩

theorem item_step {i : Item} {is : List Item} {v : Str} (h : ItemsOk (i :: is)) (hs : Sub T (i.chars ++ (is.flatMap Item.chars ++ 93 :: v))) :
    Rd T (seq [npd (.chr 93), gRange]) (i.chars ++ (is.flatMap Item.chars ++ 93 :: v)) (is.flatMap Item.chars ++ 93 :: v) [some i.mv] [] := by
  obtain ⟨h1, h2, h4, h3⟩ := h
  have hop : ∀ c, (is.flatMap Item.chars ++ 93 :: v).head? = some c → inCs i.open_ c = false := by
    intro c hc
    cases is with
    | nil =>
      cases hc
      cases i with
      | one u => exact open_ascii (by decide) u
      | range a b => exact open_ascii (by decide) b
      | pre c => rfl
      | posix n nm => rfl
    | cons k is =>
      obtain ⟨d, ds, hd, -⟩ := item_head h3.1
      rw [List.flatMap_cons, hd] at hc
      cases hc
      exact h4 k rfl _ (by rw [hd]; rfl)
  refine Mt.seq (MtL.cons (v := []) (tk := []) (Mt.npd ?_) (MtL.cons (v := [some i.mv]) (tk := []) (range_read h1 ?_ hop hs) .nil))
  · obtain ⟨c, cs, hc, hne⟩ := item_head h1
    rw [hc] at hs ⊢
    refine Fl.no (l := [(93, 93)]) (by decide +kernel) hs ?_
    intro d hd; cases hd; exact inCs_one.mpr hne
  · intro u hu hh
    cases is with
    | nil => simp at hh
    | cons k is =>
      have hk : k.chars.head? = some 45 := by
        obtain ⟨c, cs, hc, -⟩ := item_head h3.1
        rw [List.flatMap_cons, hc] at hh
        rw [hc]
        exact hh
      rw [h2 u hu k rfl hk]
      exact ⟨v, rfl⟩

theorem items_read {is : List Item} {v : Str} (h : ItemsOk is) (hs : Sub T (is.flatMap Item.chars ++ 93 :: v)) :
    MtStar (enc T) (seq [npd (.chr 93), gRange]) (enc (is.flatMap Item.chars ++ 93 :: v)) (enc (93 :: v)) (is.map fun i => some i.mv) [] := by
  induction is with
  | nil => exact .stop (Mf.seq (.head (Mf.npd (Rd.chr hs))))
  | cons i is ih =>
    have e1 : (i :: is).flatMap Item.chars ++ 93 :: v = i.chars ++ (is.flatMap Item.chars ++ 93 :: v) := by simp
    rw [e1] at hs ⊢
    exact .more (v := [some i.mv]) (tk := []) (item_step h hs) (ih h.2.2.2 hs.tail)

theorem poison_items (is : List Item) : poison (is.map fun i => some i.mv) = none :=
  poison_none fun v hv b hb => by
    simp only [List.mem_map] at hv
    obtain ⟨i, -, rfl⟩ := hv
    cases i <;> cases hb

/-- The four rules of classes. -/
def clsOpe (neg ic : Bool) : Ope :=
  let open_ := if neg then [lit [91, 94]] else [.chr 91, npd (.chr 94)]
  let close := if ic then lit [93, 105] else .chr 93
  seq (open_ ++ [.tok (oom (seq [npd (.chr 93), gRange])), close, gSpacing])

/-- Opening bracket and elements. -/
theorem class_front {neg : Bool} {is : List Item} {v : Str} {es : List Ope} (hne : is ≠ []) (hk : ItemsOk is)
    (hneg : neg = false → (is.flatMap Item.chars).head? ≠ some 94)
    (hs : Sub T (91 :: (if neg then [94] else []) ++ (is.flatMap Item.chars ++ 93 :: v))) :
    (∀ {vs tk s'}, MtL (enc T) es (enc (93 :: v)) s' vs tk → ∃ tk', MtL (enc T) ((if neg then [lit [91, 94]] else [.chr 91, npd (.chr 94)]) ++
      (.tok (oom (seq [npd (.chr 93), gRange])) :: es)) (enc (91 :: (if neg then [94] else []) ++ (is.flatMap Item.chars ++ 93 :: v))) s'
        ((is.map fun i => some i.mv) ++ vs) tk') ∧
    (MfL (enc T) es (enc (93 :: v)) → MfL (enc T) ((if neg then [lit [91, 94]] else [.chr 91, npd (.chr 94)]) ++
      (.tok (oom (seq [npd (.chr 93), gRange])) :: es)) (enc (91 :: (if neg then [94] else []) ++ (is.flatMap Item.chars ++ 93 :: v)))) := by
  have hsI : Sub T (is.flatMap Item.chars ++ 93 :: v) := by
    have := hs.tail (a := 91 :: (if neg then [94] else []))
    exact this
  have hit : Rd T (oom (seq [npd (.chr 93), gRange])) (is.flatMap Item.chars ++ 93 :: v) (93 :: v) (is.map fun i => some i.mv) [] := by
    cases is with
    | nil => exact absurd rfl hne
    | cons i is =>
      have e1 : (i :: is).flatMap Item.chars ++ 93 :: v = i.chars ++ (is.flatMap Item.chars ++ 93 :: v) := by simp
      rw [e1] at hsI ⊢
      exact Mt.oom (v := [some i.mv]) (tk := []) (item_step hk hsI) (items_read hk.2.2.2 hsI.tail)
  cases neg with
  | true =>
    refine ⟨?_, ?_⟩
    · intro vs tk s' h
      exact ⟨_, MtL.cons (v := []) (tk := []) (Rd.lit [91, 94] (by decide) hs) (MtL.cons (Mt.tok hit) h)⟩
    · intro h
      exact .tail (Rd.lit [91, 94] (by decide) hs) (.tail (Mt.tok hit) h)
  | false =>
    have hs' : Sub T (91 :: (is.flatMap Item.chars ++ 93 :: v)) := hs
    have hn : Rd T (npd (.chr 94)) (is.flatMap Item.chars ++ 93 :: v) (is.flatMap Item.chars ++ 93 :: v) [] [] := by
      refine Mt.npd (Fl.no (l := [(94, 94)]) (by decide +kernel) hsI ?_)
      intro c hc
      refine inCs_one.mpr fun h' => hneg rfl ?_
      cases is with
      | nil => exact absurd rfl hne
      | cons i is =>
        obtain ⟨d, ds, hd, -⟩ := item_head hk.1
        simp [hd] at hc ⊢
        omega
    refine ⟨?_, ?_⟩
    · intro vs tk s' h
      exact ⟨_, MtL.cons (v := []) (tk := []) (Rd.chr hs') (MtL.cons (v := []) (tk := []) hn (MtL.cons (Mt.tok hit) h))⟩
    · intro h
      exact .tail (Rd.chr hs') (.tail hn (.tail (Mt.tok hit) h))

theorem cls_chars (neg : Bool) (is : List Item) (ic : Bool) (v : Str) :
    (Tok.cls neg is ic).chars ++ v = 91 :: (if neg then [94] else []) ++ (is.flatMap Item.chars ++ 93 :: (suffixI ic ++ v)) := by
  simp [Tok.chars]

theorem class_read {r : Nat} {d : Def} {nm : List Byte} {neg ic : Bool} {is : List Item} {sp u : Str}
    (hd : metaRules[r]? = some d) (he : d.ope = clsOpe neg ic) (hi : d.ignoreSV = false) (hh : hasAct r = true)
    (ha : ∀ vs tk sv k, act r vs tk sv k = some (do .ok (.ope (.cls ⟨← collect vs, neg, ic⟩))))
    (hk : (Tok.cls neg is ic).Ok) (hsp : Sp sp u) (hu : Stop u) (hs : Sub T ((Tok.cls neg is ic).chars ++ (sp ++ u))) :
    Rd T (.ref r nm []) ((Tok.cls neg is ic).chars ++ (sp ++ u)) u [some (.ope (.cls ⟨is.flatMap Item.ranges, neg, ic⟩))] [] := by
  obtain ⟨k1, k2, k3⟩ := hk
  have hs0 := hs
  rw [cls_chars] at hs0
  have hsI : Sub T (93 :: (suffixI ic ++ (sp ++ u))) :=
    (hs0.tail (a := 91 :: (if neg then [94] else []))).tail
  have hclose : Rd T (if ic then lit [93, 105] else .chr 93) (93 :: (suffixI ic ++ (sp ++ u))) (sp ++ u) [] [] := by
    cases ic with
    | true => exact Rd.lit [93, 105] (by decide) hsI
    | false => exact Rd.chr hsI
  have hend : MtL (enc T) [if ic then lit [93, 105] else .chr 93, gSpacing] (enc (93 :: (suffixI ic ++ (sp ++ u)))) (enc u) [] [] :=
    MtL.cons (v := []) (tk := []) hclose (MtL.cons (v := []) (tk := []) (spacing_read hsp hu hsI.tail1.tail) .nil)
  obtain ⟨tk, hbody⟩ := (class_front k1 k2 k3 hs0).1 hend
  rw [← cls_chars] at hbody
  have e1 : (Tok.cls neg is ic).chars ++ (sp ++ u) = ((Tok.cls neg is ic).chars ++ sp) ++ u := by simp
  rw [e1] at hs hbody ⊢
  refine Rd.rule hd (by rw [he]; cases neg <;> rfl) hs (vs := (is.map fun i => some i.mv) ++ []) (tk := tk) ?_ ?_
  · rw [he]
    cases neg <;> exact Mt.seq hbody
  · unfold pushed rvS
    rw [if_pos hh, ha, hi]
    simp only [List.append_nil, Option.map_some, valueOf, poison_items, collect_items]
    rfl

/-- Without `i`, the rules of classes with `i` fail. -/
theorem classI_fail {r : Nat} {d : Def} {nm : List Byte} {neg : Bool} {is : List Item} {v : Str}
    (hd : metaRules[r]? = some d) (he : d.ope = clsOpe neg true) (hk : (Tok.cls neg is false).Ok)
    (hv : ∀ c, v.head? = some c → inCs [(105, 105)] c = false) (hs : Sub T ((Tok.cls neg is false).chars ++ v)) :
    Fl T (.ref r nm []) ((Tok.cls neg is false).chars ++ v) := by
  obtain ⟨k1, k2, k3⟩ := hk
  rw [cls_chars] at hs ⊢
  have hsI : Sub T (93 :: v) := (hs.tail (a := 91 :: (if neg then [94] else []))).tail
  have hend : MfL (enc T) [lit [93, 105], gSpacing] (enc (93 :: v)) := by
    refine .head (Fl.lit [93, 105] (by decide) (by decide) hsI ?_)
    rintro ⟨w, hw⟩
    simp only [List.cons_append, List.nil_append, List.cons.injEq, true_and] at hw
    exact absurd (hv 105 (by rw [← hw]; rfl)) (by decide)
  refine Mf.rule hd ?_
  rw [he]
  have := (class_front (v := v) k1 k2 k3 hs).2 hend
  cases neg <;> exact Mf.seq this

/-- A class that is not negated is not read as negated. -/
theorem negated_fail {r : Nat} {d : Def} {nm : List Byte} {ic ic' : Bool} {is : List Item} {v : Str}
    (hd : metaRules[r]? = some d) (he : d.ope = clsOpe true ic') (hk : (Tok.cls false is ic).Ok)
    (hs : Sub T ((Tok.cls false is ic).chars ++ v)) : Fl T (.ref r nm []) ((Tok.cls false is ic).chars ++ v) := by
  obtain ⟨k1, k2, k3⟩ := hk
  refine Mf.rule hd ?_
  rw [he]
  rw [cls_chars] at hs ⊢
  refine Mf.seq (.head (Fl.lit [91, 94] (by decide) (by decide) hs ?_))
  rintro ⟨w, hw⟩
  cases is with
  | nil => exact k1 rfl
  | cons i is =>
    obtain ⟨c, cs, hc, -⟩ := item_head k2.1
    simp [hc] at hw
    refine k3 rfl ?_
    simp [hc]
    exact hw.1.symm

/-! ## Numbers -/

theorem digits_read {ds v : Str} (h : ∀ c ∈ ds, 48 ≤ c ∧ c ≤ 57) (hv : ∀ c, v.head? = some c → inCs [(48, 57)] c = false) (hs : Sub T (ds ++ v)) :
    MtStar (enc T) (cls [(48, 57)]) (enc (ds ++ v)) (enc v) [] [] := by
  induction ds with
  | nil => exact .stop (Fl.no (l := [(48, 57)]) (by decide +kernel) hs hv)
  | cons c ds ih =>
    refine MtStar.more (v := []) (tk := []) (Rd.cls hs ?_) (ih (fun c hc => h c (by simp [hc])) hs.tail1)
    simpa [inCs] using h c (by simp)

theorem toNumber_digits {ds sp : Str} (hsc : ∀ c ∈ ds ++ sp, IsScalar c) (h : ∀ c ∈ ds, 48 ≤ c ∧ c ≤ 57)
    (hv : ∀ c, sp.head? = some c → inCs [(48, 57)] c = false) (hn : NumOk ds) : toNumber (enc (ds ++ sp)) = numVal ds := by
  have h1 : ∀ ds : Str, (∀ c ∈ ds, 48 ≤ c ∧ c ≤ 57) → (enc (ds ++ sp)).takeWhile (fun b => decide (48 ≤ b ∧ b ≤ 57)) = ds.map toByte := by
    intro ds
    induction ds with
    | nil =>
      intro _
      cases hsp : enc ([] ++ sp) with
      | nil => rfl
      | cons b t =>
        have : ¬ (48 ≤ b ∧ b ≤ 57) := by
          intro hb
          have hb' : 48 ≤ b.toNat ∧ b.toNat ≤ 57 := by
            simpa [UInt8.le_iff_toNat_le] using hb
          have hh := enc_head (s := sp) (fun c hc => hsc c (by simp [hc])) (b := b) (by rw [List.nil_append] at hsp; rw [hsp]; rfl) (by omega)
          have := hv _ hh
          simp [inCs] at this
          omega
        simp [this]
    | cons c ds ih =>
      intro h
      have hc := h c (by simp)
      rw [List.cons_append, enc_cons, encode_ascii (by omega)]
      have hb : (48 ≤ toByte c ∧ toByte c ≤ 57) := by
        simp only [UInt8.le_iff_toNat_le]
        rw [toByte_toNat (by omega)]
        exact hc
      simp only [List.singleton_append, List.takeWhile_cons, hb, and_self, decide_true, if_true, List.map_cons]
      rw [ih fun c hc => h c (by simp [hc])]
  have h2 : ∀ (ds : Str) (a : Nat), (∀ c ∈ ds, 48 ≤ c ∧ c ≤ 57) →
      (ds.map toByte).foldl (fun n b => n * 10 + (b.toNat - 48)) a = ds.foldl (fun n d => n * 10 + (d - 48)) a := by
    intro ds
    induction ds with
    | nil => intros; rfl
    | cons c ds ih =>
      intro a h
      have hc := h c (by simp)
      simp only [List.map_cons, List.foldl_cons]
      rw [toByte_toNat (by omega)]
      exact ih _ fun c hc => h c (by simp [hc])
  unfold toNumber
  simp only [h1 ds h, h2 ds 0 h]
  unfold NumOk numVal at *
  rw [if_pos (by omega)]

theorem number_read {ds sp u : Str} (hk : (Tok.num ds).Ok) (hn : NumOk ds) (hv : ∀ c, (sp ++ u).head? = some c → inCs [(48, 57)] c = false)
    (hsp : Sp sp u) (hu : Stop u) (hs : Sub T (ds ++ (sp ++ u))) : Rd T gNumber (ds ++ (sp ++ u)) u [some (.num (numVal ds))] [] := by
  obtain ⟨h1, h2⟩ := hk
  have hbody : Rd T dNumber.ope (ds ++ (sp ++ u)) u [] [] := by
    cases ds with
    | nil => exact absurd rfl h1
    | cons c ds =>
      refine Mt.seq (MtL.cons (v := []) (tk := []) (Mt.oom (v := []) (tk := []) (Rd.cls hs ?_) (digits_read (fun c hc => h2 c (by simp [hc])) hv hs.tail1))
        (MtL.cons (v := []) (tk := []) (spacing_read hsp hu hs.tail) .nil))
      simpa [inCs] using h2 c (by simp)
  rw [← List.append_assoc] at hs hbody ⊢
  refine Rd.rule (d := dNumber) rfl rfl hs hbody ?_
  show [some (MV.num (toNumber (enc (ds ++ sp))))] = _
  rw [toNumber_digits (fun c hc => hs.scalar (by simp [hc]; simp at hc; rcases hc with h | h <;> simp [h])) h2 ?_ hn]
  intro c hc
  refine hv c ?_
  cases sp with
  | nil => cases hc
  | cons a sp => exact hc

end

end Verif.Meta
