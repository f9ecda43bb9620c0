import Verif.MetaSpec
/-!
# Every grammar can be written

`Expressible e`: an expression the notation can write; `printable`: the same for definitions.  For each there is a text that writes it, with a space
after every token.
-/

namespace Verif.Meta
open Verif CharClass Utf8

/-- A name made of Unicode scalar values. -/
def GoodName (nm : Str) : Prop := NameOk nm ∧ ∀ c ∈ nm, IsScalar c

/-- The expressions that can be written: sequences and choices have at least two elements, literals are UTF-8 texts, classes are not empty and
consist of ordered ranges, repetition counts are below 2^64 - 1, names are names. -/
inductive Expressible : Src → Prop where
  | seq {es : List Src} : 2 ≤ es.length → (∀ e ∈ es, Expressible e) → Expressible (.seq es)
  | cho {es : List Src} : 2 ≤ es.length → (∀ e ∈ es, Expressible e) → Expressible (.cho es false)
  | label {e : Src} {l : Str} : Expressible e → GoodName l → Expressible (labelled e l)
  | rep {e : Src} {mn : Nat} {mx : Option Nat} : Expressible e → mn < sizeMax → (∀ b, mx = some b → b < sizeMax) → Expressible (.rep e mn mx)
  | and_ {e : Src} : Expressible e → Expressible (.and_ e)
  | not_ {e : Src} : Expressible e → Expressible (.not_ e)
  | dict {ws : List (List Byte)} {ic : Bool} : 2 ≤ ws.length → (∀ w ∈ ws, Text w) → Expressible (.dict ws ic)
  | lit {s : List Byte} {ic : Bool} : Text s → Expressible (.lit s ic)
  | cls {rs : List (Nat × Nat)} {neg ic : Bool} : rs ≠ [] → (∀ r ∈ rs, IsScalar r.1 ∧ IsScalar r.2 ∧ r.1 ≤ r.2) → Expressible (.cls ⟨rs, neg, ic⟩)
  | dot : Expressible .dot
  | cut : Expressible .cut
  | capScope {e : Src} : Expressible e → Expressible (.capScope e)
  | cap {nm : Str} {e : Src} : GoodName nm → Expressible e → Expressible (.cap (enc nm) e)
  | tok {e : Src} : Expressible e → Expressible (.tok e)
  | bref {nm : Str} : GoodName nm → Expressible (.bref (enc nm))
  | ref {ign : Bool} {nm : Str} : GoodName nm → Expressible (refTo ign nm none)
  | call {ign : Bool} {nm : Str} {as : List Src} : GoodName nm → as ≠ [] → (∀ a ∈ as, Expressible a) → Expressible (refTo ign nm (some as))

/-- The entries of a table of precedences, level `n` first: operator, level, `L` or `R`. -/
def tableOf : Nat → List (Bool × List Str) → List (List Byte × Nat × Byte)
  | _, [] => []
  | n, l :: ls => l.2.map (fun o => (enc o, n, if l.1 then 76 else 82)) ++ tableOf (n + 1) ls

/-- Operators that can be written in single quotes. -/
def GoodOp (o : Str) : Prop := ∀ c ∈ o, IsScalar c ∧ c ∉ [92, 39, 32, 9, 10, 13]

/-- The instructions that can be written: messages are UTF-8 texts, names are names, tables of precedences have levels `1`, `2`, … with operators. -/
inductive GoodInstr : Instr → Prop where
  | prec {ls : List (Bool × List Str)} : ls ≠ [] → (∀ l ∈ ls, l.2 ≠ [] ∧ ∀ o ∈ l.2, GoodOp o) → GoodInstr (.prec (tableOf 1 ls).reverse)
  | msg {s : List Byte} : Text s → GoodInstr (.msg s)
  | noAst : GoodInstr .noAstOpt
  | noWs : GoodInstr .noWs
  | astName {nm : Str} : GoodName nm → GoodInstr (.astName (enc nm))

/-- The definitions that can be written. -/
structure Printable (d : RDef) : Prop where
  name : ∃ nm, GoodName nm ∧ d.name = enc nm
  params : ∀ ps, d.params = some ps → ∃ qs : List Str, qs ≠ [] ∧ (∀ q ∈ qs, GoodName q) ∧ ps = qs.map enc
  body : Expressible d.body
  instrs : ∀ i ∈ d.instrs, GoodInstr i

/-! ## Tokens -/

def GoodToks (ts : List Tok) : Prop := ∀ k ∈ ts, k.Ok ∧ ∀ c ∈ k.chars, IsScalar c

theorem GoodToks.append {a b : List Tok} (ha : GoodToks a) (hb : GoodToks b) : GoodToks (a ++ b) := by
  intro k hk
  rcases List.mem_append.mp hk with hk | hk
  · exact ha k hk
  · exact hb k hk

theorem GoodToks.cons {k : Tok} {b : List Tok} (hk : k.Ok ∧ ∀ c ∈ k.chars, IsScalar c) (hb : GoodToks b) : GoodToks (k :: b) := by
  intro k' hk'
  rcases List.mem_cons.mp hk' with rfl | hk'
  · exact hk
  · exact hb k' hk'

theorem GoodToks.nil : GoodToks [] := by simp [GoodToks]

theorem good_sym {c : Nat} (h : c ∈ symbols) : (Tok.sym c).Ok ∧ ∀ d ∈ (Tok.sym c).chars, IsScalar d := by
  refine ⟨h, fun d hd => ?_⟩
  simp only [Tok.chars, List.mem_singleton] at hd
  subst hd
  have : ∀ c ∈ symbols, IsScalar c := by decide
  exact this _ h

theorem good_ident {ign : Bool} {nm : Str} (h : GoodName nm) : (Tok.ident ign nm).Ok ∧ ∀ d ∈ (Tok.ident ign nm).chars, IsScalar d := by
  refine ⟨h.1, fun d hd => ?_⟩
  rcases List.mem_append.mp hd with hd | hd
  · cases ign <;> simp [tilde] at hd; subst hd; decide
  · exact h.2 d hd

theorem good_call {ign : Bool} {nm : Str} (h : GoodName nm) : (Tok.call ign nm).Ok ∧ ∀ d ∈ (Tok.call ign nm).chars, IsScalar d := by
  refine ⟨h.1, fun d hd => ?_⟩
  rcases List.mem_append.mp hd with hd | hd
  · exact (good_ident (ign := ign) h).2 d hd
  · simp at hd; subst hd; decide

/-- The tokens, each followed by a space. -/
def spaced (ts : List Tok) : Str := ts.flatMap fun k => k.chars ++ [32]

theorem lay_spaced : ∀ {ts : List Tok}, GoodToks ts → Lay ts (spaced ts)
  | [], _ => rfl
  | k :: ks, h => by
    refine ⟨[32], spaced ks, by simp [spaced], (h k (by simp)).1, .blank (by decide) .nil, fun h => (by cases h), lay_spaced fun k' hk' => h k' (by simp [hk'])⟩

theorem spaced_scalar {ts : List Tok} (h : GoodToks ts) : ∀ c ∈ spaced ts, IsScalar c := by
  intro c hc
  simp only [spaced, List.mem_flatMap, List.mem_append, List.mem_singleton] at hc
  obtain ⟨k, hk, hc | rfl⟩ := hc
  · exact (h k hk).2 c hc
  · decide

/-! ## Literals, classes, numbers -/

/-- A character in single quotes. -/
def litChr (c : Nat) : Chr := if c = 39 ∨ c = 92 then .esc c else .raw c

theorem litChr_val (c : Nat) : (litChr c).val = c := by
  unfold litChr
  split
  · rename_i h; rcases h with rfl | rfl <;> rfl
  · rfl

theorem litChr_scalar {c : Nat} (hc : IsScalar c) : ∀ d ∈ (litChr c).chars, IsScalar d := by
  unfold litChr
  split
  · intro d hd; simp [Chr.chars] at hd; rcases hd with rfl | rfl; decide; exact hc
  · intro d hd; simp [Chr.chars] at hd; subst hd; exact hc

theorem litChr_runs (c : Nat) : (litChr c).runs = [] := by
  unfold litChr; split <;> rfl

theorem litOk_map (cs : Str) : LitOk 39 (cs.map litChr) := by
  induction cs with
  | nil => trivial
  | cons c cs ih =>
    refine ⟨?_, ?_, ih⟩
    · unfold litChr
      split
      · rename_i h; rcases h with rfl | rfl <;> rfl
      · rename_i h; exact ⟨fun e => h (Or.inr e), by simpa using fun e => h (Or.inl e)⟩
    · intro _ _ d _
      rw [litChr_runs]; rfl

theorem litVal_map (cs : Str) : litVal (cs.map litChr) = enc cs := by
  unfold litVal
  rw [List.map_map]
  congr 1
  induction cs with
  | nil => rfl
  | cons c cs ih => rw [List.map_cons, ih, Function.comp, litChr_val]

theorem good_lit {cs : Str} (h : ∀ c ∈ cs, IsScalar c) (ic : Bool) :
    (Tok.lit 39 (cs.map litChr) ic).Ok ∧ ∀ d ∈ (Tok.lit 39 (cs.map litChr) ic).chars, IsScalar d := by
  refine ⟨⟨by simp, litOk_map cs⟩, fun d hd => ?_⟩
  simp only [Tok.chars, List.mem_append, List.mem_cons, List.mem_flatMap, List.mem_map] at hd
  rcases hd with (rfl | ⟨u, ⟨c, hc, rfl⟩, hu⟩) | rfl | hd
  · decide
  · exact litChr_scalar (h c hc) d hu
  · decide
  · cases ic <;> simp [suffixI] at hd; subst hd; decide

/-- A character in a class. -/
def clsChr (c : Nat) : Chr := if c = 93 ∨ c = 91 ∨ c = 92 ∨ c = 94 ∨ c = 45 then .esc c else .raw c

theorem clsChr_val (c : Nat) : (clsChr c).val = c := by
  unfold clsChr
  split
  · rename_i h; rcases h with rfl | rfl | rfl | rfl | rfl <;> rfl
  · rfl

theorem clsChr_ok (c : Nat) : (clsChr c).Ok [93, 91] := by
  unfold clsChr
  split
  · rename_i h; rcases h with rfl | rfl | rfl | rfl | rfl <;> rfl
  · rename_i h; simp only [not_or] at h; exact ⟨h.2.2.1, by simp; exact ⟨h.1, h.2.1⟩⟩

theorem clsChr_head (c : Nat) : ∃ d ds, (clsChr c).chars = d :: ds ∧ d ≠ 45 ∧ d ≠ 94 := by
  unfold clsChr
  split
  · exact ⟨92, _, rfl, by decide, by decide⟩
  · rename_i h; simp only [not_or] at h; exact ⟨c, [], rfl, h.2.2.2.2, h.2.2.2.1⟩

theorem clsChr_scalar {c : Nat} (hc : IsScalar c) : ∀ d ∈ (clsChr c).chars, IsScalar d := by
  unfold clsChr
  split
  · intro d hd; simp [Chr.chars] at hd; rcases hd with rfl | rfl; decide; exact hc
  · intro d hd; simp [Chr.chars] at hd; subst hd; exact hc

def rangeItem (r : Nat × Nat) : Item := .range (clsChr r.1) (clsChr r.2)

theorem rangeItem_head (r : Nat × Nat) : ∃ d ds, (rangeItem r).chars = d :: ds ∧ d ≠ 45 ∧ d ≠ 94 := by
  obtain ⟨d, ds, h1, h2⟩ := clsChr_head r.1
  exact ⟨d, ds ++ 45 :: (clsChr r.2).chars, by simp [rangeItem, Item.chars, h1], h2⟩

theorem clsChr_open (c : Nat) : (clsChr c).open_ = [] := by
  unfold clsChr; split <;> rfl

theorem itemsOk_map {rs : List (Nat × Nat)} (h : ∀ r ∈ rs, r.1 ≤ r.2) : ItemsOk (rs.map rangeItem) := by
  induction rs with
  | nil => trivial
  | cons r rs ih =>
    refine ⟨⟨clsChr_ok _, clsChr_ok _, ?_⟩, fun u hu => (by cases hu), fun _ _ d _ => (by show inCs (clsChr r.2).open_ d = false; rw [clsChr_open]; rfl), ih fun r hr => h r (by simp [hr])⟩
    rw [clsChr_val, clsChr_val]
    exact h r (by simp)

theorem ranges_map (rs : List (Nat × Nat)) : (rs.map rangeItem).flatMap Item.ranges = rs := by
  induction rs with
  | nil => rfl
  | cons r rs ih =>
    rw [List.map_cons, List.flatMap_cons, ih]
    simp [rangeItem, Item.ranges, clsChr_val]

theorem good_cls {rs : List (Nat × Nat)} (hne : rs ≠ []) (h : ∀ r ∈ rs, IsScalar r.1 ∧ IsScalar r.2 ∧ r.1 ≤ r.2) (neg ic : Bool) :
    (Tok.cls neg (rs.map rangeItem) ic).Ok ∧ ∀ d ∈ (Tok.cls neg (rs.map rangeItem) ic).chars, IsScalar d := by
  refine ⟨⟨by simpa using hne, itemsOk_map fun r hr => (h r hr).2.2, fun _ => ?_⟩, fun d hd => ?_⟩
  · cases rs with
    | nil => exact absurd rfl hne
    | cons r rs =>
      obtain ⟨d, ds, h1, -, h3⟩ := rangeItem_head r
      simp only [List.map_cons, List.flatMap_cons, h1, List.cons_append, List.head?_cons]
      intro e; cases e; exact h3 rfl
  · simp only [Tok.chars, List.mem_append, List.mem_cons, List.mem_flatMap, List.mem_map] at hd
    rcases hd with ((rfl | hd) | ⟨u, ⟨r, hr, rfl⟩, hu⟩) | rfl | hd
    · decide
    · cases neg <;> simp at hd; subst hd; decide
    · simp only [rangeItem, Item.chars, List.mem_append, List.mem_cons] at hu
      rcases hu with hu | rfl | hu
      · exact clsChr_scalar (h r hr).1 d hu
      · decide
      · exact clsChr_scalar (h r hr).2.1 d hu
    · decide
    · cases ic <;> simp [suffixI] at hd; subst hd; decide

/-- Decimal digits. -/
def dec (n : Nat) : Str := if h : n < 10 then [48 + n] else dec (n / 10) ++ [48 + n % 10]
termination_by n

theorem dec_val (n : Nat) : numVal (dec n) = n ∧ dec n ≠ [] ∧ ∀ c ∈ dec n, 48 ≤ c ∧ c ≤ 57 := by
  induction n using Nat.strongRecOn with
  | _ n ih =>
    unfold dec
    split
    · rename_i h
      refine ⟨by simp [numVal], by simp, ?_⟩
      intro c hc; simp at hc; omega
    · rename_i h
      obtain ⟨h1, h2, h3⟩ := ih (n / 10) (by omega)
      refine ⟨?_, by simp, ?_⟩
      · unfold numVal at h1 ⊢
        rw [List.foldl_append, h1]
        simp
        omega
      · intro c hc
        rcases List.mem_append.mp hc with hc | hc
        · exact h3 c hc
        · simp at hc; omega

theorem good_num (n : Nat) : (Tok.num (dec n)).Ok ∧ ∀ d ∈ (Tok.num (dec n)).chars, IsScalar d := by
  obtain ⟨-, h2, h3⟩ := dec_val n
  refine ⟨⟨h2, h3⟩, fun d hd => ?_⟩
  have := h3 d hd
  unfold IsScalar
  omega

/-! ## Expressions -/

/-- Tokens that write the form. -/
def Can (f : Form) : Prop := ∃ ts, Writes f ts ∧ GoodToks ts

theorem Can.group {e : Src} (h : Can (.exp e)) : Can (.prim e) := by
  obtain ⟨ts, h1, h2⟩ := h
  exact ⟨_, .group h1, .cons (good_sym (by decide)) (h2.append (.cons (good_sym (by decide)) .nil))⟩

theorem Can.lab {e : Src} (h : Can (.suf e)) : Can (.lab e) := by obtain ⟨ts, h1, h2⟩ := h; exact ⟨ts, .lab h1, h2⟩
theorem Can.suf {e : Src} (h : Can (.prim e)) : Can (.suf e) := by obtain ⟨ts, h1, h2⟩ := h; exact ⟨ts, .suf h1, h2⟩
theorem Can.item {e : Src} (h : Can (.lab e)) : Can (.item e) := by obtain ⟨ts, h1, h2⟩ := h; exact ⟨ts, .item h1, h2⟩

theorem Can.exp {e : Src} (h : Can (.item e)) : Can (.exp e) := by
  obtain ⟨ts, h1, h2⟩ := h
  exact ⟨_, .exp (.sqn (.more h1 .none)) .noAlt, (h2.append .nil).append .nil⟩

theorem Can.prim {e : Src} (h : Can (.prim e)) : Can (.exp e) := h.suf.lab.item.exp

theorem can_items : ∀ {es : List Src}, (∀ e ∈ es, Can (.exp e)) → Can (.items es)
  | [], _ => ⟨[], .none, .nil⟩
  | e :: es, h => by
    obtain ⟨ts, h1, h2⟩ := (h e (by simp)).group.suf.lab.item
    obtain ⟨ts', h3, h4⟩ := can_items (es := es) fun e he => h e (by simp [he])
    exact ⟨_, .more h1 h3, h2.append h4⟩

theorem can_sqn {e : Src} (h : Can (.exp e)) : Can (.sqn e) := by
  obtain ⟨ts, h1, h2⟩ := h.group.suf.lab.item
  exact ⟨_, .sqn (.more h1 .none), h2.append .nil⟩

theorem can_alts : ∀ {es : List Src}, (∀ e ∈ es, Can (.exp e)) → Can (.alts es)
  | [], _ => ⟨[], .noAlt, .nil⟩
  | e :: es, h => by
    obtain ⟨ts, h1, h2⟩ := can_sqn (h e (by simp))
    obtain ⟨ts', h3, h4⟩ := can_alts (es := es) fun e he => h e (by simp [he])
    exact ⟨_, .alt h1 h3, .cons (good_sym (by decide)) (h2.append h4)⟩

theorem can_args : ∀ {es : List Src}, (∀ e ∈ es, Can (.exp e)) → Can (.args es)
  | [], _ => ⟨[], .noArg, .nil⟩
  | e :: es, h => by
    obtain ⟨ts, h1, h2⟩ := h e (by simp)
    obtain ⟨ts', h3, h4⟩ := can_args (es := es) fun e he => h e (by simp [he])
    exact ⟨_, .arg h1 h3, .cons (good_sym (by decide)) (h2.append h4)⟩

theorem text_litVal {w : List Byte} (h : Text w) : ∃ cs : Str, (∀ c ∈ cs, IsScalar c) ∧ w = litVal (cs.map litChr) := by
  obtain ⟨cs, h1, h2⟩ := h
  exact ⟨cs, h1, by rw [litVal_map]; exact h2⟩

theorem words_of {ws : List (List Byte)} (h : ∀ w ∈ ws, Text w) (ic : Bool) :
    ∃ us : List (Nat × List Chr), us.map (fun w => litVal w.2) = ws ∧ GoodToks (moreWords ic us) := by
  induction ws with
  | nil => exact ⟨[], rfl, .nil⟩
  | cons w ws ih =>
    obtain ⟨us, h1, h2⟩ := ih fun w hw => h w (by simp [hw])
    obtain ⟨cs, h3, h4⟩ := text_litVal (h w (by simp))
    refine ⟨(39, cs.map litChr) :: us, by simp [h1, h4], ?_⟩
    exact GoodToks.append (a := [_, _]) (.cons (good_sym (by decide)) (.cons (good_lit h3 ic) .nil)) h2

theorem Expressible.can {e : Src} (h : Expressible e) : Can (.exp e) := by
  induction h with
  | @seq es hl _ ih =>
    obtain ⟨ts, h1, h2⟩ := can_items ih
    refine ⟨_, .exp (.sqn h1) .noAlt, h2.append .nil⟩ |> fun (h : Can (.exp (choOf [seqOf es]))) => ?_
    match es, hl with
    | a :: b :: es, _ => exact h
  | @cho es hl _ ih =>
    match es, hl, ih with
    | a :: b :: es, _, ih =>
      obtain ⟨ts, h1, h2⟩ := can_sqn (ih a (by simp))
      obtain ⟨ts', h3, h4⟩ := can_alts (es := b :: es) fun e he => ih e (by simp [he])
      exact ⟨_, .exp h1 h3, h2.append h4⟩
  | label _ hl ih =>
    obtain ⟨ts, h1, h2⟩ := ih.group.suf
    exact Can.exp (Can.item ⟨_, .label h1 (Or.inl rfl), h2.append (.cons (good_sym (by decide)) (.cons (good_ident hl) .nil))⟩)
  | @rep e mn mx _ h1 h2 ih =>
    obtain ⟨ts, k1, k2⟩ := ih.group
    have hn : NumOk (dec mn) := by unfold NumOk; rw [(dec_val mn).1]; exact h1
    cases mx with
    | none =>
      have hb := Bounds.least hn
      rw [(dec_val mn).1] at hb
      exact Can.exp (Can.item (Can.lab ⟨_, .rep k1 hb, k2.append (.cons (good_sym (by decide)) (.cons (good_num mn) (.cons (good_sym (by decide))
        (.cons (good_sym (by decide)) .nil))))⟩))
    | some b =>
      have hn' : NumOk (dec b) := by unfold NumOk; rw [(dec_val b).1]; exact h2 b rfl
      have hb := Bounds.both hn hn'
      rw [(dec_val mn).1, (dec_val b).1] at hb
      exact Can.exp (Can.item (Can.lab ⟨_, .rep k1 hb, k2.append (.cons (good_sym (by decide)) (.cons (good_num mn) (.cons (good_sym (by decide))
        (.cons (good_num b) (.cons (good_sym (by decide)) .nil)))))⟩))
  | and_ _ ih =>
    obtain ⟨ts, h1, h2⟩ := ih.group.suf.lab
    exact Can.exp ⟨_, .and_ h1, .cons (good_sym (by decide)) h2⟩
  | not_ _ ih =>
    obtain ⟨ts, h1, h2⟩ := ih.group.suf.lab
    exact Can.exp ⟨_, .not_ h1, .cons (good_sym (by decide)) h2⟩
  | @dict ws ic hl ht =>
    match ws, hl, ht with
    | a :: b :: ws, _, ht =>
      obtain ⟨cs, h1, h2⟩ := text_litVal (ht a (by simp))
      obtain ⟨us, h3, h4⟩ := words_of (ws := b :: ws) (fun w hw => ht w (by simp [hw])) ic
      match us, h3, h4 with
      | u :: us, h3, h4 =>
        have := Writes.dict (q := 39) (us := cs.map litChr) (w := u) (ws := us) (ic := ic)
        rw [h3, ← h2] at this
        exact Can.prim ⟨_, this, .cons (good_lit h1 ic) h4⟩
  | @lit s ic ht =>
    obtain ⟨cs, h1, h2⟩ := text_litVal ht
    rw [h2]
    exact Can.prim ⟨_, .lit (q := 39), .cons (good_lit h1 ic) .nil⟩
  | @cls rs neg ic hne h =>
    have := Writes.cls (neg := neg) (is := rs.map rangeItem) (ic := ic)
    rw [ranges_map] at this
    exact Can.prim ⟨_, this, .cons (good_cls hne h neg ic) .nil⟩
  | dot => exact Can.prim ⟨_, .dot, .cons (good_sym (by decide)) .nil⟩
  | cut => exact Can.exp ⟨_, .cut, .cons (good_sym (by decide)) .nil⟩
  | capScope _ ih =>
    obtain ⟨ts, h1, h2⟩ := ih
    exact Can.prim ⟨_, .scope h1, .cons ⟨trivial, by decide⟩ (h2.append (.cons (good_sym (by decide)) .nil))⟩
  | @cap nm e hn _ ih =>
    obtain ⟨ts, h1, h2⟩ := ih
    refine Can.prim ⟨_, .capture h1, .cons ⟨hn.1, fun d hd => ?_⟩ (h2.append (.cons (good_sym (by decide)) .nil))⟩
    simp [Tok.chars] at hd
    rcases hd with rfl | hd | rfl
    · decide
    · exact hn.2 d hd
    · decide
  | tok _ ih =>
    obtain ⟨ts, h1, h2⟩ := ih
    exact Can.prim ⟨_, .token h1, .cons (good_sym (by decide)) (h2.append (.cons (good_sym (by decide)) .nil))⟩
  | @bref nm hn =>
    refine Can.prim ⟨_, .bref, .cons ⟨hn.1, fun d hd => ?_⟩ .nil⟩
    simp [Tok.chars] at hd
    rcases hd with rfl | hd
    · decide
    · exact hn.2 d hd
  | ref hn => exact Can.prim ⟨_, .ref, .cons (good_ident hn) .nil⟩
  | @call ign nm as hn hne _ ih =>
    match as, hne, ih with
    | a :: as, _, ih =>
      obtain ⟨ts, h1, h2⟩ := ih a (by simp)
      obtain ⟨ts', h3, h4⟩ := can_args (es := as) fun e he => ih e (by simp [he])
      exact Can.prim ⟨_, .call h1 h3, .cons (good_call hn) (h2.append (h4.append (.cons (good_sym (by decide)) .nil)))⟩

/-! ## Instructions -/

/-- An operator in single quotes, after a space. -/
def opOf (o : Str) : Str × OpTok := ([32], .quoted 39 (o.map .raw))

theorem raw_chars (o : Str) : (o.map Chr.raw).flatMap Chr.chars = o := by
  induction o with
  | nil => rfl
  | cons c o ih => rw [List.map_cons, List.flatMap_cons, ih]; rfl

theorem units_raw {o : Str} (h : GoodOp o) : UnitsOk (39 :: blanks) (o.map .raw) := by
  induction o with
  | nil => trivial
  | cons c o ih =>
    have hc := (h c (by simp)).2
    refine ⟨⟨?_, ?_⟩, fun _ _ _ _ => rfl, ih fun c hc => h c (by simp [hc])⟩
    · rintro rfl; simp at hc
    · simp only [blanks]
      simp only [List.mem_cons, List.not_mem_nil, or_false, not_or] at hc ⊢
      exact hc.2

/-- A level, after a space. -/
def levelOf (l : Bool × List Str) : Str × Level := ([32], ⟨l.1, l.2.map opOf⟩)

theorem gap_space : Gap [32] := ⟨by simp, by decide⟩

theorem level_entries (n : Nat) (l : Bool × List Str) : (levelOf l).2.entries n = l.2.map fun o => (enc o, n, if l.1 then 76 else 82) := by
  simp only [levelOf, Level.entries, List.map_map]
  apply List.map_congr_left
  intro o _
  simp only [Function.comp, opOf, OpTok.val, raw_chars]
  rfl

theorem entries_table (ls : List (Bool × List Str)) : ∀ n, entries n (ls.map levelOf) = tableOf n ls := by
  induction ls with
  | nil => intro n; rfl
  | cons l ls ih => intro n; rw [List.map_cons, entries, ih, level_entries]; rfl

theorem scalars_append {a b : Str} (ha : ∀ c ∈ a, IsScalar c) (hb : ∀ c ∈ b, IsScalar c) : ∀ c ∈ a ++ b, IsScalar c := by
  intro c hc
  rcases List.mem_append.mp hc with h | h
  · exact ha c h
  · exact hb c h

theorem scalars_flatMap {α : Type} {f : α → Str} {l : List α} (h : ∀ a ∈ l, ∀ c ∈ f a, IsScalar c) : ∀ c ∈ l.flatMap f, IsScalar c := by
  intro c hc
  obtain ⟨a, ha, hc⟩ := List.mem_flatMap.mp hc
  exact h a ha c hc

theorem level_scalar {l : Bool × List Str} (h : ∀ o ∈ l.2, GoodOp o) : ∀ c ∈ (levelOf l).2.chars, IsScalar c := by
  have : (levelOf l).2.chars = [if l.1 then 76 else 82] ++ (l.2.map opOf).flatMap fun o => o.1 ++ o.2.chars := rfl
  rw [this]
  refine scalars_append ?_ (scalars_flatMap ?_)
  · cases l.1 <;> decide
  · intro a ha
    obtain ⟨o, ho, rfl⟩ := List.mem_map.mp ha
    have : (opOf o).1 ++ (opOf o).2.chars = [32, 39] ++ (o ++ [39]) := by
      simp only [opOf, OpTok.chars, raw_chars]; simp
    rw [this]
    exact scalars_append (by decide) (scalars_append (fun c hc => (h o ho c hc).1) (by decide))

theorem GoodInstr.can {i : Instr} (h : GoodInstr i) : ∃ k : InstrTok, k.val = i ∧ k.Ok ∧ k.Closed ∧ ∀ c ∈ k.chars, IsScalar c := by
  cases h with
  | @prec ls h1 h2 =>
    refine ⟨.prec (ls.map levelOf) [], ?_, ⟨by simpa using h1, ?_, by simp⟩, ⟨rfl, ?_⟩, ?_⟩
    · simp only [InstrTok.val, entries_table]
    · intro l' hl'
      obtain ⟨l, hl, rfl⟩ := List.mem_map.mp hl'
      refine ⟨gap_space, by simpa [levelOf] using (h2 l hl).1, ?_⟩
      intro o' ho'
      obtain ⟨o, ho, rfl⟩ := List.mem_map.mp ho'
      exact ⟨gap_space, by simp, units_raw ((h2 l hl).2 o ho)⟩
    · intro l hl o ho
      have hl := List.mem_of_getLast? hl
      obtain ⟨l, hl, rfl⟩ := List.mem_map.mp hl
      have ho := List.mem_of_getLast? ho
      obtain ⟨o, ho, rfl⟩ := List.mem_map.mp ho
      exact ⟨_, _, rfl⟩
    · refine scalars_append (by decide) (scalars_append (scalars_flatMap ?_) (by simp))
      intro a ha
      obtain ⟨l, hl, rfl⟩ := List.mem_map.mp ha
      exact scalars_append (by intro c hc; simp [levelOf] at hc; subst hc; decide) (level_scalar (h2 l hl).2)
  | @msg s ht =>
    obtain ⟨cs, h1, h2⟩ := text_litVal ht
    refine ⟨.msg [32] 39 (cs.map litChr) [], ?_, ⟨gap_space, by simp, litOk_map cs, .nil⟩, trivial, ?_⟩
    · rw [h2]; rfl
    · refine scalars_append (by decide) (scalars_append (by decide) ?_)
      intro d hd
      rcases List.mem_append.mp hd with hd | hd
      · rcases List.mem_cons.mp hd with rfl | hd
        · decide
        · obtain ⟨u, hu, hd⟩ := List.mem_flatMap.mp hd
          obtain ⟨c, hc, rfl⟩ := List.mem_map.mp hu
          exact litChr_scalar (h1 c hc) d hd
      · simp at hd; subst hd; decide
  | noAst => exact ⟨.noAst [], rfl, (by simp [InstrTok.Ok]), trivial, by decide⟩
  | noWs => exact ⟨.noWs [], rfl, (by simp [InstrTok.Ok]), trivial, by decide⟩
  | @astName nm hn =>
    refine ⟨.astName [32] [32] nm [], rfl, ⟨by decide, by decide, hn.1, .nil⟩, trivial, ?_⟩
    refine scalars_append (by decide) (scalars_append (by decide) ?_)
    intro d hd
    simp at hd
    rcases hd with rfl | rfl | hd
    · decide
    · decide
    · exact hn.2 d hd

theorem can_instrs : ∀ {is : List Instr}, (∀ i ∈ is, GoodInstr i) → ∀ {k : InstrTok}, k.Ok → k.Closed →
    ∃ ks : List (Str × InstrTok), ks.map (fun i => i.2.val) = is ∧ InstrsOk k ks ∧ ∀ c ∈ moreInstr ks, IsScalar c
  | [], _, _, hk, _ => ⟨[], rfl, hk, by simp [moreInstr]⟩
  | i :: is, h, k, hk, hc => by
    obtain ⟨k', h1, h2, h3, h4⟩ := (h i (by simp)).can
    obtain ⟨ks, h5, h6, h7⟩ := can_instrs (is := is) (fun i hi => h i (by simp [hi])) h2 h3
    refine ⟨([], k') :: ks, by simp [h1, h5], ⟨hk, hc, .nil, h6⟩, ?_⟩
    have : moreInstr (([], k') :: ks) = [59] ++ (k'.chars ++ moreInstr ks) := by simp [moreInstr]
    rw [this]
    exact scalars_append (by decide) (scalars_append h4 h7)

theorem can_ending {is : List Instr} (h : ∀ i ∈ is, GoodInstr i) : ∃ ts, Ending is ts ∧ GoodToks ts := by
  cases is with
  | nil => exact ⟨[], .none, .nil⟩
  | cons i is =>
    obtain ⟨k, h1, h2, h3, h4⟩ := (h i (by simp)).can
    obtain ⟨ks, h5, h6, h7⟩ := can_instrs (is := is) (fun i hi => h i (by simp [hi])) h2 h3
    have hv : (Block.items [] k ks).vals = i :: is := by simp only [Block.vals, h1, h5]
    refine ⟨[.block (.items [] k ks)], hv ▸ .block, .cons ⟨⟨.nil, h6⟩, ?_⟩ .nil⟩
    have : (Tok.block (.items [] k ks)).chars = [123] ++ (k.chars ++ (moreInstr ks ++ [125])) := rfl
    rw [this]
    exact scalars_append (by decide) (scalars_append h4 (scalars_append h7 (by decide)))

/-! ## Definitions -/

theorem Printable.can {d : RDef} (h : Printable d) : ∃ ts, WritesDef d ts ∧ GoodToks ts := by
  obtain ⟨⟨nm, hn, h1⟩, h2, h3, h4⟩ := h
  obtain ⟨ts, k1, k2⟩ := h3.can
  obtain ⟨ign, name, params, body, instrs⟩ := d
  simp only at h1 h2 k1 h4
  subst h1
  obtain ⟨te, e1, e2⟩ := can_ending h4
  cases params with
  | none => exact ⟨_, .rule (uni := false) k1 e1, .cons (good_ident hn) (.cons ⟨trivial, by decide⟩ (k2.append e2))⟩
  | some ps =>
    obtain ⟨qs, q1, q2, rfl⟩ := h2 ps rfl
    match qs, q1, q2 with
    | q :: qs, _, q2 =>
      refine ⟨_, .macro_ (uni := false) k1 e1, .cons (good_call hn) (.cons (good_ident (q2 q (by simp))) (.append ?_ (.cons (good_sym (by decide))
        (.cons ⟨trivial, by decide⟩ (k2.append e2)))))⟩
      intro k hk
      simp only [List.mem_flatMap, List.mem_cons, List.not_mem_nil, or_false] at hk
      obtain ⟨p, hp, rfl | rfl⟩ := hk
      · exact good_sym (by decide)
      · exact good_ident (q2 p (by simp [hp]))

theorem printable_written : ∀ {ds : List RDef}, ds ≠ [] → (∀ d ∈ ds, Printable d) → ∃ t, Written ds t ∧ ∀ c ∈ t, IsScalar c := by
  suffices h : ∀ {ds : List RDef}, ds ≠ [] → (∀ d ∈ ds, Printable d) → ∃ ts, WritesDefs ds ts ∧ GoodToks ts by
    intro ds h1 h2
    obtain ⟨ts, k1, k2⟩ := h h1 h2
    exact ⟨spaced ts, ⟨[], spaced ts, ts, rfl, .nil, lay_spaced k2, k1⟩, spaced_scalar k2⟩
  intro ds
  induction ds with
  | nil => exact fun h => absurd rfl h
  | cons d ds ih =>
    intro _ h
    obtain ⟨ts, k1, k2⟩ := (h d (by simp)).can
    cases ds with
    | nil => exact ⟨ts, .one k1, k2⟩
    | cons d' ds =>
      obtain ⟨ts', k3, k4⟩ := ih (by simp) fun d hd => h d (by simp [hd])
      exact ⟨_, .more k1 k3, k2.append k4⟩

end Verif.Meta
