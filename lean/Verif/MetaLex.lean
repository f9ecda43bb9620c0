import Verif.MetaTok
/-!
# Names, literals, classes and numbers as the reader reads them
-/

namespace Verif.Meta
open Verif CharClass Utf8 Props

section
variable {T : Str}

/-! ## Bytes of a character -/

theorem encode_ascii {c : Nat} (h : c < 128) : encodeCodepoint c = [toByte c] := by
  rw [encode_eq, if_pos (by omega)]

/-- Above ASCII all bytes are at least 128. -/
theorem encode_high {c : Nat} (hc : IsScalar c) (h : 128 ≤ c) {b : Byte} (hb : b ∈ encodeCodepoint c) : 128 ≤ b.toNat := by
  rcases encode_cases hc with ⟨h1, e⟩ | ⟨h0, h1, e⟩ | ⟨h0, h1, e⟩ | ⟨h0, h1, e⟩ <;> rw [e] at hb <;> simp at hb
  · omega
  all_goals
    rcases hb with rfl | rfl | rfl | rfl <;> rw [toByte_toNat (by omega)] <;> omega

theorem encode_mem_ascii {c : Nat} (hc : IsScalar c) {b : Byte} (hb : b ∈ encodeCodepoint c) (h : b.toNat < 128) : c = b.toNat := by
  by_cases h' : c < 128
  · rw [encode_ascii h'] at hb
    simp at hb
    rw [hb, toByte_toNat (by omega)]
  · have := encode_high hc (by omega) hb
    omega

theorem enc_mem_ascii {s : Str} (hs : ∀ c ∈ s, IsScalar c) {b : Byte} (hb : b ∈ enc s) (h : b.toNat < 128) : b.toNat ∈ s := by
  simp only [enc, List.mem_flatMap] at hb
  obtain ⟨c, hc, hb⟩ := hb
  rw [← encode_mem_ascii (hs c hc) hb h]
  exact hc

/-- The first byte is that of the first character, if that is ASCII. -/
theorem enc_head {s : Str} (hs : ∀ c ∈ s, IsScalar c) {b : Byte} (hb : (enc s).head? = some b) (h : b.toNat < 128) : s.head? = some b.toNat := by
  cases s with
  | nil => cases hb
  | cons c s =>
    rw [enc_cons] at hb
    have hl := encode_length_pos (hs c (by simp))
    cases he : encodeCodepoint c with
    | nil => rw [he] at hl; simp at hl
    | cons a t =>
      rw [he] at hb
      simp only [List.cons_append, List.head?_cons, Option.some.injEq] at hb
      subst hb
      rw [encode_mem_ascii (hs c (by simp)) (b := a) (by rw [he]; simp) h]
      rfl

/-! ## Names -/

theorem poison_none {vs : List Val} (h : ∀ v ∈ vs, ∀ b, v ≠ some (.bad b)) : poison vs = none := by
  induction vs with
  | nil => rfl
  | cons v vs ih =>
    have ih := ih fun v hv => h v (by simp [hv])
    have h0 := h v (by simp)
    match v with
    | none => exact ih
    | some (.bad b) => exact absurd rfl (h0 b)
    | some (.ope _) | some (.opes _) | some (.str _) | some (.strs _) | some (.view _) | some (.views _) | some (.flag _) | some (.chr _)
    | some (.num _) | some (.pair _ _) | some (.loop _ _) | some (.rng _) | some (.rngs _) | some (.instr _) | some (.instrs _)
    | some (.defn _) | some (.defns _) => exact ih

theorem identStart_read {c : Nat} {v : Str} (hc : inCs idStart c = true) (hs : Sub T (c :: v)) : Rd T gIdentStart (c :: v) v [none] [] := by
  refine Rd.rule (c := [c]) (d := dIdentStart) rfl rfl hs (vs := []) (tk := []) ?_ rfl
  refine Mt.seq (MtL.cons (v := []) (tk := []) (Mt.npd ?_) (MtL.cons (v := []) (tk := []) (Mt.npd ?_) (MtL.cons (v := []) (tk := []) ?_ .nil)))
  · exact Fl.cs (l := idStart) (by decide +kernel) hs hc
  · exact Fl.cs (l := idStart) (by decide +kernel) hs hc
  · by_cases h : inCs [(97, 122), (65, 90), (95, 95), (37, 37)] c = true
    · exact Mt.cho (.here (Rd.cls hs h))
    · refine Mt.cho (.next (Fl.clsC hs (by simpa using h)) (.here (Rd.cls hs ?_)))
      simp [inCs, idStart] at hc h ⊢
      omega

/-- A character that is not part of a name ends it. -/
theorem identStart_fail {v : Str} (hs : Sub T v) (hv : ∀ c, v.head? = some c → inCs idStart c = false) : Fl T gIdentStart v := by
  cases v with
  | nil => exact Fl.eof (by decide +kernel)
  | cons c v =>
    have hc := hv c rfl
    by_cases h1 : c = 0x2191
    · subst h1
      exact Mf.rule (d := dIdentStart) rfl (Mf.seq (.head (Mf.npd (Rd.lit [0x2191] (by decide) hs))))
    by_cases h2 : c = 0x21D1
    · subst h2
      refine Mf.rule (d := dIdentStart) rfl (Mf.seq (.tail (Mt.npd ?_) (.head (Mf.npd (Rd.lit [0x21D1] (by decide) hs)))))
      exact Fl.cs (l := [(0x21D1, 0x21D1)]) (by decide +kernel) hs (by decide)
    · refine Fl.no (l := [(97, 122), (65, 90), (95, 95), (37, 37), (128, 65535), (0x2191, 0x2191), (0x21D1, 0x21D1)]) (by decide +kernel) hs fun d hd => ?_
      cases hd
      simp [inCs, idStart] at hc ⊢
      omega

theorem identRest_fail {v : Str} (hs : Sub T v) (hv : ∀ c, v.head? = some c → inCs idRest c = false) : Fl T gIdentRest v := by
  have h1 : ∀ c, v.head? = some c → inCs idStart c = false ∧ inCs [(48, 57)] c = false := by
    intro c hc
    have := hv c hc
    simp only [idRest, inCs, List.any_cons, Bool.or_eq_false_iff] at this
    exact ⟨this.2, by simpa [inCs] using this.1⟩
  refine Mf.rule (d := dIdentRest) rfl (Mf.cho fun e he => ?_)
  simp only [List.mem_cons, List.not_mem_nil, or_false] at he
  rcases he with rfl | rfl
  · exact identStart_fail hs fun c hc => (h1 c hc).1
  · exact Fl.no (l := [(48, 57)]) (by decide +kernel) hs fun c hc => (h1 c hc).2

theorem identRest_read {c : Nat} {v : Str} (hc : inCs idRest c = true) (hs : Sub T (c :: v)) : Rd T gIdentRest (c :: v) v [none] [] := by
  by_cases h : inCs idStart c = true
  · exact Rd.ruleC (c := [c]) (d := dIdentRest) rfl rfl hs (.here (identStart_read h hs)) rfl
  · have hd : inCs [(48, 57)] c = true := by
      simp only [idRest, inCs, List.any_cons, Bool.or_eq_true] at hc
      rcases hc with hc | hc
      · simp [inCs]; simpa using hc
      · exact absurd hc h
    refine Rd.ruleC (c := [c]) (d := dIdentRest) rfl rfl hs (.next ?_ (.here (Rd.cls hs hd))) rfl
    exact Fl.cs (l := [(48, 57)]) (by decide +kernel) hs hd

theorem nones {vs : List Val} (h : ∀ v ∈ vs, v = none) : poison vs = none :=
  poison_none fun v hv b hb => by rw [h v hv] at hb; cases hb

theorem identCont_read {nm v : Str} (hn : NameOk nm) (hv : ∀ c, v.head? = some c → inCs idRest c = false) (hs : Sub T (nm ++ v)) :
    Rd T gIdentCont (nm ++ v) v [some (.str (enc nm))] [] := by
  cases nm with
  | nil => exact hn.elim
  | cons c cs =>
    obtain ⟨h1, -, h2⟩ := hn
    have hrest : ∀ cs : Str, (∀ d ∈ cs, inCs idRest d = true) → Sub T (cs ++ v) →
        ∃ vs, (∀ x ∈ vs, x = none) ∧ MtStar (enc T) gIdentRest (enc (cs ++ v)) (enc v) vs [] := by
      intro cs
      induction cs with
      | nil => intro _ hs; exact ⟨[], by simp, .stop (identRest_fail hs hv)⟩
      | cons d cs ih =>
        intro hcs hs
        obtain ⟨vs, k1, k2⟩ := ih (fun d hd => hcs d (by simp [hd])) hs.tail1
        exact ⟨[none] ++ vs, by simpa using k1, .more (tk := []) (identRest_read (hcs d (by simp)) hs) k2⟩
    obtain ⟨vs, k1, k2⟩ := hrest cs h2 hs.tail1
    refine Rd.rule (c := c :: cs) (d := dIdentCont) rfl rfl hs (Mt.tok (Mt.seq (MtL.cons (identStart_read h1 hs) (MtL.cons (Mt.zom k2) .nil)))) ?_
    show [some (valueOf ([none] ++ (vs ++ [])) _)] = _
    unfold valueOf
    rw [nones (by simpa using k1)]

/-- `Identifier`. -/
theorem identifier_read {nm sp u : Str} (hn : NameOk nm) (hv : ∀ c, (sp ++ u).head? = some c → inCs idRest c = false) (hsp : Sp sp u) (hu : Stop u)
    (hs : Sub T (nm ++ (sp ++ u))) : Rd T gIdentifier (nm ++ (sp ++ u)) u [some (.str (enc nm))] [] := by
  have h := Mt.seq (MtL.cons (identCont_read hn hv hs) (MtL.cons (spacing_read hsp hu hs.tail) .nil))
  rw [← List.append_assoc] at hs h ⊢
  exact Rd.rule (d := dIdentifier) rfl rfl hs h rfl

/-! ## Symbols -/

/-- Rules of the form `'c' Spacing`. -/
theorem sym_read {r c : Nat} {d : Def} {nm : List Byte} {sp u : Str} {w : List Val} (hd : metaRules[r]? = some d)
    (he : d.ope = seq [.chr c, gSpacing]) (hsp : Sp sp u) (hu : Stop u) (hs : Sub T (c :: (sp ++ u)))
    (hw : pushed d (rvS T r [] [] (c :: sp) 0) = w) : Rd T (.ref r nm []) (c :: (sp ++ u)) u w [] := by
  refine Rd.rule (c := c :: sp) hd (by rw [he]; rfl) hs ?_ hw
  rw [he]
  exact Mt.seq (MtL.cons (v := []) (tk := []) (Rd.chr hs) (MtL.cons (v := []) (tk := []) (spacing_read hsp hu hs.tail1) .nil))

/-! ## Characters -/

theorem raw_resolve {c : Nat} (hc : IsScalar c) (h : c ≠ 92) : (92 : Byte) ∉ encodeCodepoint c := fun hm =>
  h (encode_mem_ascii hc hm (by decide))

theorem resolve_append_plain {l : List Byte} (h : (92 : Byte) ∉ l) (t : List Byte) :
    Escape.resolve (l ++ t) = (Escape.resolve t).bind fun r => .ok (l ++ r) := by
  induction l with
  | nil => cases hr : Escape.resolve t <;> simp [hr, Out.bind]
  | cons a l ih =>
    simp only [List.mem_cons, not_or] at h
    rw [List.cons_append, Props.resolve_plain a _ (fun e => h.1 e.symm), ih h.2]
    cases Escape.resolve t <;> simp [Out.bind]

theorem esc_facts : ∀ e : Nat, (escapes.lookup e).isSome = true →
    e < 128 ∧ Escape.simpleEscape (toByte e) = some (toByte ((escapes.lookup e).getD 0)) ∧ (escapes.lookup e).getD 0 < 128 ∧
    inCs [(102, 102), (110, 110), (114, 114), (116, 116), (118, 118), (39, 39), (34, 34), (91, 91), (93, 93), (92, 92), (94, 94), (45, 45)] e = true := by
  intro e he
  have hm : e ∈ escapes.map Prod.fst := by
    rw [Option.isSome_iff_exists] at he
    obtain ⟨v, hv⟩ := he
    have := List.lookup_eq_some_iff.mp hv
    obtain ⟨l1, l2, h, -⟩ := this
    rw [h]; simp
  have : ∀ e ∈ escapes.map Prod.fst, e < 128 ∧ Escape.simpleEscape (toByte e) = some (toByte ((escapes.lookup e).getD 0)) ∧ (escapes.lookup e).getD 0 < 128 ∧
    inCs [(102, 102), (110, 110), (114, 114), (116, 116), (118, 118), (39, 39), (34, 34), (91, 91), (93, 93), (92, 92), (94, 94), (45, 45)] e = true := by
    decide +kernel
  exact this e hm

theorem hex_facts : ∀ a : Nat, hexDigit a = true → a < 128 ∧ hexTable.lookup (toByte a) = some (hexVal a) ∧ hexVal a < 16 ∧ a ≠ 92 := by
  intro a ha
  have hlt : a < 128 := by simp [hexDigit, inCs] at ha; omega
  have : ∀ a : Fin 128, hexDigit a.val = true → hexTable.lookup (toByte a.val) = some (hexVal a.val) ∧ hexVal a.val < 16 ∧ a.val ≠ 92 := by decide +kernel
  exact ⟨hlt, this ⟨a, hlt⟩ ha⟩

theorem oct_facts : ∀ a : Nat, octDigit a = true → a < 128 ∧ decTable.lookup (toByte a) = some (hexVal a) ∧ hexVal a < 8 := by
  intro a ha
  have hlt : a < 128 := by simp [octDigit, inCs] at ha; omega
  have : ∀ a : Fin 128, octDigit a.val = true → decTable.lookup (toByte a.val) = some (hexVal a.val) ∧ hexVal a.val < 8 := by decide +kernel
  exact ⟨hlt, this ⟨a, hlt⟩ ha⟩

theorem enc_ascii {ds : Str} (h : ∀ d ∈ ds, d < 128) : enc ds = ds.map toByte := by
  induction ds with
  | nil => rfl
  | cons d ds ih => rw [enc_cons, encode_ascii (h d (by simp)), ih fun d hd => h d (by simp [hd])]; rfl

theorem digits_eq (base : Nat) (ds : Str) : digitsValue base (ds.map hexVal) = digitsVal base ds := by
  simp [digitsValue, digitsVal, List.foldl_map]

theorem digits_lt (base : Nat) (ds : Str) (h : ∀ d ∈ ds, hexVal d < base) : digitsVal base ds < base ^ ds.length := by
  suffices ∀ (k n : Nat), k < base ^ n → ds.foldl (fun n d => n * base + hexVal d) k < base ^ (n + ds.length) by
    simpa [digitsVal] using this 0 0 (by simp)
  induction ds with
  | nil => intro k n hk; simpa using hk
  | cons d ds ih =>
    intro k n hk
    have hd := h d (by simp)
    have := ih (fun d hd => h d (by simp [hd])) (k * base + hexVal d) (n + 1) (by
      rw [Nat.pow_succ]
      calc k * base + hexVal d < k * base + base := by omega
        _ = (k + 1) * base := by rw [Nat.add_mul, Nat.one_mul]
        _ ≤ base ^ n * base := Nat.mul_le_mul_right _ hk)
    simpa [Nat.add_assoc, Nat.add_comm 1] using this

theorem map_lookup {tb : List (Byte × Nat)} {ds : Str} (h : ∀ d ∈ ds, tb.lookup (toByte d) = some (hexVal d)) :
    (ds.map toByte).map (fun b => tb.lookup b) = (ds.map hexVal).map some := by
  simp only [List.map_map]
  exact List.map_congr_left fun d hd => h d hd

/-- Bytes that would be taken to belong to the escape. -/
def Chr.Runs (u : Chr) (c : Byte) : Prop := inCs u.runs c.toNat = true

theorem hexs_lookup : ∀ c : Byte, inCs hexs c.toNat = false → hexTable.lookup c = none :=
  byte_forall (p := fun c => inCs hexs c.toNat = false → hexTable.lookup c = none) (by decide +kernel)

theorem decs_lookup : ∀ c : Byte, inCs [(48, 57)] c.toNat = false → decTable.lookup c = none :=
  byte_forall (p := fun c => inCs [(48, 57)] c.toNat = false → decTable.lookup c = none) (by decide +kernel)

/-- What a character of a literal, followed by more, denotes. -/
theorem chr_resolve {bad : List Nat} {u : Chr} (hu : u.Ok bad) (hc : ∀ c ∈ u.chars, IsScalar c) (t : List Byte)
    (ht : ∀ c, t.head? = some c → inCs u.runs c.toNat = false) {r : List Byte} (hr : Escape.resolve t = .ok r) :
    Escape.resolve (enc u.chars ++ t) = .ok (encodeCodepoint u.val ++ r) := by
  have hnum : ∀ (e : Byte) (x : Nat) (ds : Str), e = 120 ∨ e = 117 → x < 128 → toByte x = e → (∀ d ∈ ds, hexDigit d = true) → digitsVal 16 ds ≤ 2147483647 →
      (∀ c, t.head? = some c → hexTable.lookup c = none) →
      Escape.resolve (enc (92 :: x :: ds) ++ t) = .ok (encodeCodepoint (digitsVal 16 ds) ++ r) := by
    intro e x ds he hx hxe hds hv hth
    have e1 : enc (92 :: x :: ds) ++ t = 92 :: e :: (ds.map toByte ++ t) := by
      rw [enc_cons, enc_cons, encode_ascii hx, encode_ascii (by decide), enc_ascii fun d hd => (hex_facts d (hds d hd)).1, hxe]; rfl
    have := C05_hex_partial e he (ds.map toByte) (ds.map hexVal) t (map_lookup fun d hd => (hex_facts d (hds d hd)).2.1) hth
      (by rw [digits_eq]; exact hv) r hr
    rw [digits_eq] at this
    rw [e1, this]
  cases u with
  | raw c =>
    have := resolve_append_plain (raw_resolve (hc c (by simp [Chr.chars])) hu.1) t
    simp only [Chr.chars, enc, List.flatMap_cons, List.flatMap_nil, List.append_nil, Chr.val]
    rw [this, hr]; rfl
  | esc e =>
    obtain ⟨h1, h2, h3, -⟩ := esc_facts e hu
    have e1 : enc (Chr.esc e).chars ++ t = 92 :: toByte e :: t := by
      show enc [92, e] ++ t = _
      rw [enc_cons, enc_cons, encode_ascii h1, encode_ascii (by decide)]; rfl
    rw [e1, Props.resolve_simple _ _ _ h2, hr]
    show _ = Out.ok (encodeCodepoint ((escapes.lookup e).getD 0) ++ r)
    rw [encode_ascii h3]; rfl
  | hex ds =>
    have hlt := digits_lt 16 ds fun d hd => (hex_facts d (hu.2 d hd)).2.2.1
    refine hnum 120 120 ds (Or.inl rfl) (by decide) (by decide) hu.2 ?_ fun c hc => hexs_lookup c (ht c hc)
    rcases hu.1 with h | h <;> (rw [h] at hlt; omega)
  | uni ds =>
    have := hu.2.2.1
    exact hnum 117 117 ds (Or.inr rfl) (by decide) (by decide) hu.2.1 (by omega) fun c hc => hexs_lookup c (ht c hc)
  | oct ds =>
    have hlt := digits_lt 8 ds fun d hd => (oct_facts d (hu.2 d hd)).2.2
    have hle : digitsVal 8 ds ≤ 2147483647 := by
      rcases hu.1 with h | h | ⟨h, -⟩ <;> (rw [h] at hlt; omega)
    cases ds with
    | nil => rcases hu.1 with h | h | ⟨h, -⟩ <;> cases h
    | cons d ds =>
      have e1 : enc (Chr.oct (d :: ds)).chars ++ t = 92 :: toByte d :: (ds.map toByte ++ t) := by
        show enc (92 :: (d :: ds)) ++ t = _
        rw [enc_cons, encode_ascii (by decide), enc_ascii fun d hd => (oct_facts d (hu.2 d hd)).1]; rfl
      have := C05_octal_partial (toByte d) (ds.map toByte) (hexVal d) (ds.map hexVal) t (oct_facts d (hu.2 d (by simp))).2.1
        (map_lookup fun d hd => (oct_facts d (hu.2 d (by simp [hd]))).2.1) (fun c hc => decs_lookup c (ht c hc))
        (by rw [← List.map_cons, digits_eq]; exact hle) r hr
      rw [← List.map_cons, digits_eq] at this
      rw [e1, this]
      rfl

theorem open_hexs {u : Chr} {v : Str} {l : List (Nat × Nat)} (h : u.open_ = l) (hv : ∀ c, v.head? = some c → inCs u.open_ c = false) :
    ∀ c, v.head? = some c → inCs l c = false := h ▸ hv

/-- Hexadecimal digits in a row. -/
theorem hex_loop {ds v : Str} {mx n : Nat} (hds : ∀ d ∈ ds, hexDigit d = true) (hn : ds.length + n = mx ∨ ds.length + n < mx ∧ ∀ c, v.head? = some c → inCs hexs c = false)
    (hs : Sub T (ds ++ v)) (mn : Nat) (hmn : mn ≤ ds.length) : MtLoop (enc T) (cls [(48, 57), (97, 102), (65, 70)]) mn (some mx) n (enc (ds ++ v)) (enc v) := by
  induction ds generalizing n mn with
  | nil =>
    obtain rfl : mn = 0 := by simpa using hmn
    rcases hn with hn | ⟨hn, hv⟩
    · exact .full (by simp at hn ⊢; omega)
    · exact .stop (by simp at hn ⊢; omega) (Fl.no (l := hexs) (by decide +kernel) hs hv)
  | cons d ds ih =>
    have h1 : Rd T (cls [(48, 57), (97, 102), (65, 70)]) (d :: (ds ++ v)) (ds ++ v) [] [] := Rd.cls hs (hds d (by simp))
    simp only [List.length_cons] at hn hmn
    have ih := fun mn hmn => ih (n := n + 1) (fun d hd => hds d (by simp [hd])) (hn.imp (fun h => by omega) (fun h => ⟨by omega, h.2⟩)) hs.tail1 mn hmn
    have hlt : n < mx := by rcases hn with h | ⟨h, -⟩ <;> omega
    cases mn with
    | zero => exact .more (by simpa using hlt) h1 (ih 0 (by omega))
    | succ mn => exact .must h1 (ih mn (by omega))

/-- Too few hexadecimal digits. -/
theorem hex_short {ds v : Str} {mx : Option Nat} {n : Nat} (hds : ∀ d ∈ ds, hexDigit d = true) (hv : ∀ c, v.head? = some c → inCs hexs c = false)
    (hs : Sub T (ds ++ v)) (mn : Nat) (hmn : ds.length < mn) : MfLoop (enc T) (cls [(48, 57), (97, 102), (65, 70)]) mn mx n (enc (ds ++ v)) := by
  induction ds generalizing n mn with
  | nil =>
    cases mn with
    | zero => simp at hmn
    | succ mn => exact .here (Fl.no (l := hexs) (by decide +kernel) hs hv)
  | cons d ds ih =>
    cases mn with
    | zero => simp at hmn
    | succ mn => exact .must (Rd.cls hs (hds d (by simp))) (ih (fun d hd => hds d (by simp [hd])) hs.tail1 mn (by simpa using hmn))

theorem char_read {bad : List Nat} {u : Chr} {v : Str} (hu : u.Ok bad) (hv : ∀ c, v.head? = some c → inCs u.open_ c = false) (hs : Sub T (u.chars ++ v)) :
    Rd T gChar (u.chars ++ v) v [some (.str (encodeCodepoint u.val))] [] := by
  have hval : Escape.resolve (enc u.chars) = .ok (encodeCodepoint u.val) := by
    have := chr_resolve hu (fun c hc => hs.scalar (by simp [hc])) [] (by simp) Props.resolve_nil
    simpa using this
  have hw : ∀ k, pushed dChar (rvS T rChar [] [] u.chars k) = [some (.str (encodeCodepoint u.val))] := by
    intro k
    show [some (valueOf [] (do let x ← unescape (enc u.chars); Except.ok (.str x)))] = _
    simp only [unescape, hval]
    rfl
  cases u with
  | raw c =>
    have hs' : Sub T (c :: v) := hs
    have hn : inCs [(92, 92)] c = false := inCs_one.mpr hu.1
    have hno : ∀ d, (c :: v).head? = some d → inCs [(92, 92)] d = false := by intro d hd; cases hd; exact hn
    refine Rd.ruleC (c := (Chr.raw c).chars) (d := dChar) (k := 5) (vs := []) (tk := []) rfl rfl hs
      (.next ?_ (.next ?_ (.next ?_ (.next ?_ (.next ?_ (.here (Mt.seq (MtL.cons (v := []) (tk := []) ?_ (MtL.cons (Rd.dot hs') .nil))))))))) (hw 5)
    iterate 5 exact Fl.no (l := [(92, 92)]) (by decide +kernel) hs' hno
    exact Mt.npd (Fl.no (l := [(92, 92)]) (by decide +kernel) hs' hno)
  | esc e =>
    have hs' : Sub T (92 :: e :: v) := hs
    exact Rd.ruleC (c := (Chr.esc e).chars) (d := dChar) (k := 0) (vs := []) (tk := []) rfl rfl hs
      (.here (Mt.seq (MtL.cons (v := []) (tk := []) (Rd.chr hs') (MtL.cons (Rd.cls hs'.tail1 (esc_facts e hu).2.2.2) .nil)))) (hw 0)
  | hex ds =>
    have hs' : Sub T (92 :: 120 :: (ds ++ v)) := hs
    have hx : ∀ e es, ab 50 (.cs [(120, 120)]) e = .fail → Fl T (seq (.chr 92 :: e :: es)) (92 :: 120 :: (ds ++ v)) := fun e es h =>
      Mf.seq (.tail (Rd.chr hs') (.head (Fl.cs h hs'.tail1 (by decide))))
    refine Rd.ruleC (c := (Chr.hex ds).chars) (d := dChar) (k := 3) (vs := []) (tk := []) rfl rfl hs
      (.next (hx _ _ (by decide +kernel)) (.next (hx _ _ (by decide +kernel)) (.next (hx _ _ (by decide +kernel)) (.here (Mt.seq ?_))))) (hw 3)
    refine MtL.cons (v := []) (tk := []) (Rd.lit [92, 120] (by decide) hs') ?_
    obtain ⟨hl, hd⟩ := hu
    match ds, hl, hd, hs', hv with
    | [a], _, hd, hs', hv =>
      exact MtL.cons (v := []) (tk := []) (Rd.cls hs'.tail1.tail1 (hd a (by simp))) (MtL.cons (v := []) (tk := [])
        (Mt.opt_none (Fl.no (l := hexs) (by decide +kernel) hs'.tail1.tail1.tail1 hv)) .nil)
    | [a, b], _, hd, hs', hv =>
      exact MtL.cons (v := []) (tk := []) (Rd.cls hs'.tail1.tail1 (hd a (by simp))) (MtL.cons (v := []) (tk := [])
        (Mt.opt (Rd.cls hs'.tail1.tail1.tail1 (hd b (by simp)))) .nil)
    | [], hl, _, _, _ => simp at hl
    | _ :: _ :: _ :: _, hl, _, _, _ => simp at hl
  | uni ds =>
    have hs' : Sub T (92 :: 117 :: (ds ++ v)) := hs
    have hx : ∀ e es, ab 50 (.cs [(117, 117)]) e = .fail → Fl T (seq (.chr 92 :: e :: es)) (92 :: 117 :: (ds ++ v)) := fun e es h =>
      Mf.seq (.tail (Rd.chr hs') (.head (Fl.cs h hs'.tail1 (by decide))))
    have hx2 : ∀ es, Fl T (seq (lit [92, 120] :: es)) (92 :: 117 :: (ds ++ v)) := fun es =>
      Mf.seq (.head (Fl.lit [92, 120] (by decide) (by decide) hs' (by rintro ⟨w, hw⟩; simp at hw)))
    refine Rd.ruleC (c := (Chr.uni ds).chars) (d := dChar) (k := 4) (vs := []) (tk := []) rfl rfl hs
      (.next (hx _ _ (by decide +kernel)) (.next (hx _ _ (by decide +kernel)) (.next (hx _ _ (by decide +kernel)) (.next (hx2 _) (.here (Mt.seq ?_)))))) (hw 4)
    refine MtL.cons (v := []) (tk := []) (Rd.lit [92, 117] (by decide) hs') (MtL.cons (v := []) (tk := []) ?_ .nil)
    have hs2 : Sub T (ds ++ v) := hs'.tail1.tail1
    obtain ⟨hl, hd, -⟩ := hu
    by_cases h6 : ds.length = 6
    · -- six digits
      have hp : ds.head? = some 48 ∨ ds.take 2 = [49, 48] := by
        rcases hl with h | h | ⟨-, h⟩
        · omega
        · omega
        · exact h
      refine Mt.cho (.here (Mt.seq ?_))
      match ds, h6, hd, hs2, hp with
      | [a, b, c, d, e, f], _, hd, hs2, hp =>
        refine MtL.cons (v := []) (tk := []) (t1 := enc ([c, d, e, f] ++ v)) ?_ (MtL.cons (v := []) (tk := []) (Mt.rep
          (hex_loop (ds := [c, d, e, f]) (n := 0) (mx := 4) (fun x hx => hd x (List.mem_cons_of_mem _ (List.mem_cons_of_mem _ hx))) (Or.inl rfl) hs2.tail1.tail1 4 (by simp))) .nil)
        rcases hp with hp | hp
        · cases hp
          exact Mt.cho (.here (Mt.seq (MtL.cons (v := []) (tk := []) (Rd.chr hs2) (MtL.cons (v := []) (tk := []) (Rd.cls hs2.tail1 (hd b (by simp))) .nil))))
        · simp only [List.take_succ_cons, List.take_zero, List.cons.injEq, and_true] at hp
          obtain ⟨rfl, rfl⟩ := hp
          exact Mt.cho (.next (Mf.seq (.head (Fl.cs (l := [(49, 49)]) (by decide +kernel) hs2 (by decide)))) (.here (Rd.lit [49, 48] (by decide) hs2)))
    · have h45 : ds.length = 4 ∨ ds.length = 5 := by
        rcases hl with h | h | ⟨h, -⟩
        · exact Or.inl h
        · exact Or.inr h
        · exact absurd h h6
      have hop : ∀ c, v.head? = some c → inCs hexs c = false := by
        refine open_hexs (u := .uni ds) ?_ hv
        simp only [Chr.open_]
        rw [if_pos (by omega)]
      refine Mt.cho (.next ?_ (.here (Mt.rep (hex_loop hd (h45.elim (fun h => Or.inr ⟨by omega, hop⟩) (fun h => Or.inl (by omega))) hs2 4 (by omega)))))
      match ds, h45, hd, hs2 with
      | a :: b :: ds, h45, hd, hs2 =>
        have hshort : Fl T (.rep (cls [(48, 57), (97, 102), (65, 70)]) 4 (some 4) none) (ds ++ v) :=
          Mf.rep (hex_short (fun x hx => hd x (by simp [hx])) hop hs2.tail1.tail1 4 (by simp at h45; omega))
        by_cases h0 : a = 48
        · subst h0
          exact Mf.seq (.tail (t1 := enc (ds ++ v)) (Mt.cho (.here (Mt.seq (MtL.cons (v := []) (tk := []) (Rd.chr hs2) (MtL.cons (v := []) (tk := [])
            (Rd.cls hs2.tail1 (hd b (by simp))) .nil))))) (.head hshort))
        · have hn0 : Fl T (seq [.chr 48, cls [(48, 57), (97, 102), (65, 70)]]) (a :: b :: (ds ++ v)) := Mf.seq (.head (Fl.no (l := [(48, 48)]) (by decide +kernel) hs2 (by
            intro c hc; cases hc; exact inCs_one.mpr h0)))
          by_cases h1 : a = 49 ∧ b = 48
          · obtain ⟨rfl, rfl⟩ := h1
            exact Mf.seq (.tail (t1 := enc (ds ++ v)) (Mt.cho (.next hn0 (.here (Rd.lit [49, 48] (by decide) hs2)))) (.head hshort))
          · refine Mf.seq (.head (Mf.cho fun e he => ?_))
            simp only [List.mem_cons, List.not_mem_nil, or_false] at he
            rcases he with rfl | rfl
            · exact hn0
            · refine Fl.lit [49, 48] (by decide) (by decide) hs2 ?_
              rintro ⟨w, hw⟩
              simp at hw
              exact h1 ⟨hw.1.symm, hw.2.1.symm⟩
      | [], h45, _, _ => simp at h45
      | [_], h45, _, _ => simp at h45
  | oct ds =>
    have hs' : Sub T (92 :: (ds ++ v)) := hs
    obtain ⟨hl, hd⟩ := hu
    have hesc : ∀ d w, Sub T (92 :: d :: w) → octDigit d = true → Fl T (seq [.chr 92, cls [(102, 102), (110, 110), (114, 114), (116, 116), (118, 118), (39, 39), (34, 34), (91, 91), (93, 93), (92, 92), (94,
      94), (45, 45)]]) (92 :: d :: w) := fun d w hs hd => Mf.seq (.tail (Rd.chr hs) (.head (Fl.cs (l := [(48, 55)]) (by decide +kernel) hs.tail1 hd)))
    match ds, hl, hd, hs', hv, hw with
    | [a], _, hd, hs', hv, hw =>
      have ha := hd a (by simp)
      refine Rd.ruleC (c := (Chr.oct [a]).chars) (d := dChar) (k := 2) (vs := []) (tk := []) rfl rfl hs
        (.next (hesc a v hs' ha) (.next ?_ (.here (Mt.seq (MtL.cons (v := []) (tk := []) (Rd.chr hs') (MtL.cons (v := []) (tk := []) (Rd.cls hs'.tail1 ha)
          (MtL.cons (v := []) (tk := []) (Mt.opt_none (Fl.no (l := [(48, 55)]) (by decide +kernel) hs'.tail1.tail1 hv)) .nil))))))) (hw 2)
      by_cases h3 : inCs [(48, 51)] a = true
      · exact Mf.seq (.tail (Rd.chr hs') (.tail (Rd.cls hs'.tail1 h3) (.head (Fl.no (l := [(48, 55)]) (by decide +kernel) hs'.tail1.tail1 hv))))
      · exact Mf.seq (.tail (Rd.chr hs') (.head (Fl.clsC hs'.tail1 (by simpa using h3))))
    | [a, b], _, hd, hs', hv, hw =>
      have ha := hd a (by simp)
      have hb := hd b (by simp)
      refine Rd.ruleC (c := (Chr.oct [a, b]).chars) (d := dChar) (k := 2) (vs := []) (tk := []) rfl rfl hs
        (.next (hesc a (b :: v) hs' ha) (.next ?_ (.here (Mt.seq (MtL.cons (v := []) (tk := []) (Rd.chr hs') (MtL.cons (v := []) (tk := []) (Rd.cls hs'.tail1 ha)
          (MtL.cons (v := []) (tk := []) (Mt.opt (Rd.cls hs'.tail1.tail1 hb)) .nil))))))) (hw 2)
      by_cases h3 : inCs [(48, 51)] a = true
      · have hle : a ≤ 51 := by simp [inCs] at h3; omega
        have hop : ∀ c, v.head? = some c → inCs [(48, 55)] c = false := open_hexs (u := .oct [a, b]) (by simp [Chr.open_, hle]) hv
        exact Mf.seq (.tail (Rd.chr hs') (.tail (Rd.cls hs'.tail1 h3) (.tail (Rd.cls hs'.tail1.tail1 hb) (.head
          (Fl.no (l := [(48, 55)]) (by decide +kernel) hs'.tail1.tail1.tail1 hop)))))
      · exact Mf.seq (.tail (Rd.chr hs') (.head (Fl.clsC hs'.tail1 (by simpa using h3))))
    | [a, b, c], hl, hd, hs', hv, hw =>
      have ha := hd a (by simp)
      have hle : a ≤ 51 := by
        rcases hl with h | h | ⟨-, h⟩
        · simp at h
        · simp at h
        · exact h a rfl
      have h3 : inCs [(48, 51)] a = true := by simp [octDigit, inCs] at ha ⊢; omega
      exact Rd.ruleC (c := (Chr.oct [a, b, c]).chars) (d := dChar) (k := 1) (vs := []) (tk := []) rfl rfl hs
        (.next (hesc a (b :: c :: v) hs' ha) (.here (Mt.seq (MtL.cons (v := []) (tk := []) (Rd.chr hs') (MtL.cons (v := []) (tk := []) (Rd.cls hs'.tail1 h3)
          (MtL.cons (v := []) (tk := []) (Rd.cls hs'.tail1.tail1 (hd b (by simp))) (MtL.cons (v := []) (tk := []) (Rd.cls hs'.tail1.tail1.tail1 (hd c (by simp))) .nil))))))) (hw 1)
    | [], hl, _, _, _, _ => simp at hl
    | _ :: _ :: _ :: _ :: _, hl, _, _, _, _ => simp at hl

/-- The first character. -/
theorem chr_first {bad : List Nat} {u : Chr} (hu : u.Ok bad) : ∃ c cs, u.chars = c :: cs ∧ (c = 92 ∨ c ∉ bad ∧ cs = []) := by
  cases u with
  | raw c => exact ⟨c, [], rfl, Or.inr ⟨hu.2, rfl⟩⟩
  | esc e => exact ⟨92, [e], rfl, Or.inl rfl⟩
  | hex ds => exact ⟨92, _, rfl, Or.inl rfl⟩
  | uni ds => exact ⟨92, _, rfl, Or.inl rfl⟩
  | oct ds => exact ⟨92, _, rfl, Or.inl rfl⟩

/-! ## Literals -/

theorem open_runs {u : Chr} {c : Nat} (h : inCs u.runs c = false) : inCs u.open_ c = false := by
  cases u with
  | raw c => rfl
  | esc e => rfl
  | hex ds => simp only [Chr.open_]; split; exact h; rfl
  | uni ds => simp only [Chr.open_]; split; exact h; rfl
  | oct ds =>
    simp only [Chr.open_]
    split
    · simp [Chr.runs, inCs] at h ⊢; omega
    · rfl

theorem LitOk.units {q : Nat} : ∀ {us : List Chr}, LitOk q us → UnitsOk [q] us
  | [], _ => trivial
  | _ :: _, h => ⟨h.1, fun w hw c hc => open_runs (h.2.1 w hw c hc), h.2.2.units⟩

theorem runs_high : ∀ (u : Chr) (c : Nat), ¬ c < 128 → inCs u.runs c = false := by
  intro u c h
  cases u with
  | raw c => rfl
  | esc e => rfl
  | hex ds => simp [Chr.runs, hexs, inCs]; omega
  | uni ds => simp [Chr.runs, hexs, inCs]; omega
  | oct ds => simp [Chr.runs, inCs]; omega

theorem lit_resolve {q : Nat} {us : List Chr} (h : LitOk q us) (hc : ∀ c ∈ us.flatMap Chr.chars, IsScalar c) :
    Escape.resolve (enc (us.flatMap Chr.chars)) = .ok (litVal us) := by
  induction us with
  | nil => exact Props.resolve_nil
  | cons u us ih =>
    obtain ⟨h1, h2, h3⟩ := h
    have hc' : ∀ c ∈ us.flatMap Chr.chars, IsScalar c := fun c hcc => hc c (by simp only [List.flatMap_cons, List.mem_append]; exact Or.inr hcc)
    rw [List.flatMap_cons, enc_append]
    rw [chr_resolve h1 (fun c hcc => hc c (by simp [hcc])) _ ?_ (ih h3 hc')]
    · simp [litVal, enc]
    · intro c hcc
      cases us with
      | nil => cases hcc
      | cons w us =>
        by_cases hlt : c.toNat < 128
        · have := enc_head hc' hcc hlt
          obtain ⟨d, ds, hd, -⟩ := chr_first h3.1
          rw [List.flatMap_cons, hd] at this
          cases this
          exact h2 w rfl _ (by rw [hd]; rfl)
        · exact runs_high u _ hlt

/-- Characters up to one that ends them. -/
theorem units_until {bad : List Nat} {us : List Chr} {q : Nat} {v : Str} {x : Ope} (hb : 92 ∉ bad) (hx : ∀ c w, c ∉ bad → Sub T (c :: w) → Fl T x (c :: w))
    {t' : Str} {vs' : List Val} {tk' : List (Nat × Nat)} (hq : Rd T x (q :: v) t' vs' tk') (hqo : ∀ u : Chr, inCs u.open_ q = false)
    (h : UnitsOk bad us) (hs : Sub T (us.flatMap Chr.chars ++ q :: v)) :
    ∃ vs, poison vs = none ∧ MtStar (enc T) (seq [npd x, gChar]) (enc (us.flatMap Chr.chars ++ q :: v)) (enc (q :: v)) vs [] := by
  suffices ∃ vs, (∀ x ∈ vs, ∃ s, x = some (.str s)) ∧
      MtStar (enc T) (seq [npd x, gChar]) (enc (us.flatMap Chr.chars ++ q :: v)) (enc (q :: v)) vs [] by
    obtain ⟨vs, k1, k2⟩ := this
    refine ⟨vs, poison_none fun x hx b hb => ?_, k2⟩
    obtain ⟨s, hs⟩ := k1 x hx
    rw [hs] at hb; cases hb
  induction us with
  | nil => exact ⟨[], by simp, .stop (Mf.seq (.head (Mf.npd hq)))⟩
  | cons u us ih =>
    obtain ⟨h1, h2, h3⟩ := h
    have e1 : (u :: us).flatMap Chr.chars ++ q :: v = u.chars ++ (us.flatMap Chr.chars ++ q :: v) := by simp
    rw [e1] at hs ⊢
    obtain ⟨vs, k1, k2⟩ := ih h3 hs.tail
    have hop : ∀ c, (us.flatMap Chr.chars ++ q :: v).head? = some c → inCs u.open_ c = false := by
      intro c hc
      cases us with
      | nil => cases hc; exact hqo u
      | cons w us =>
        obtain ⟨d, ds, hd, -⟩ := chr_first h3.1
        rw [List.flatMap_cons, hd] at hc
        cases hc
        exact h2 w rfl _ (by rw [hd]; rfl)
    refine ⟨_ ++ vs, ?_, .more (tk := []) (Mt.seq (MtL.cons (v := []) (tk := []) (Mt.npd ?_) (MtL.cons (char_read h1 hop hs) .nil))) k2⟩
    · intro x hx
      simp only [List.append_nil, List.nil_append, List.singleton_append, List.mem_cons] at hx
      rcases hx with rfl | hx
      · exact ⟨_, rfl⟩
      · exact k1 x hx
    · obtain ⟨c, cs, hc, hne⟩ := chr_first h1
      rw [hc] at hs ⊢
      refine hx c _ ?_ hs
      rcases hne with rfl | ⟨h, -⟩
      · exact hb
      · exact h

theorem open_ascii {c : Nat} (hc : inCs ((48, 57) :: hexs) c = false) (u : Chr) : inCs u.open_ c = false := by
  refine open_runs ?_
  cases u with
  | raw c => rfl
  | esc e => rfl
  | hex ds => show inCs hexs c = false; exact covers_sound (l := (48, 57) :: hexs) (by decide +kernel) hc
  | uni ds => show inCs hexs c = false; exact covers_sound (l := (48, 57) :: hexs) (by decide +kernel) hc
  | oct ds => show inCs [(48, 57)] c = false; exact covers_sound (l := (48, 57) :: hexs) (by decide +kernel) hc

/-- The characters between the quotes. -/
theorem units_read {q : Nat} {us : List Chr} {v : Str} (hq : q = 39 ∨ q = 34) (h : LitOk q us) (hs : Sub T (us.flatMap Chr.chars ++ q :: v)) :
    ∃ vs, poison vs = none ∧
      MtStar (enc T) (seq [npd (cls [(q, q)]), gChar]) (enc (us.flatMap Chr.chars ++ q :: v)) (enc (q :: v)) vs [] :=
  units_until (by rcases hq with rfl | rfl <;> decide) (fun c w hc hs => Fl.clsC hs (inCs_one.mpr (by simpa using hc))) (Rd.cls hs.tail (by simp [inCs]))
    (open_ascii (by rcases hq with rfl | rfl <;> decide)) h.units hs

end

end Verif.Meta
