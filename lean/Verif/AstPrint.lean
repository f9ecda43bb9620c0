import Verif.Ast
/-!
# Printing an AST (peglib.h 6548-6580)

`astToS` is the function as written.  The specification is below it: `Ast.view` is what a node shows, `lines` the nodes in the order of a
text written top down, with their depths.
-/

namespace Verif

/-- peglib.h 6558 `std::to_string` of a `size_t`. -/
def decimal (n : Nat) : List Byte := if n < 10 then [UInt8.ofNat (48 + n)] else decimal (n / 10) ++ [UInt8.ofNat (48 + n % 10)]

/-- peglib.h 6552-6554: two blanks for every level. -/
def indent : Nat → List Byte
  | 0 => []
  | n + 1 => indent n ++ [32, 32]

/-- peglib.h 6555-6559: `name`, with the alternative and the name of the node it was merged with. -/
def AInfo.label (x : AInfo) : List Byte :=
  x.origName ++ (if x.origChoiceCount > 0 then 47 :: decimal x.origChoice else []) ++ (if x.name ≠ x.origName then 91 :: x.name ++ [93] else [])

/-- peglib.h 1530, 6517: the characters of a `string_view` token. -/
def AInfo.tokenText (input : List Byte) (x : AInfo) : List Byte := (input.drop x.token.1).take x.token.2

/-- peglib.h 6560-6566: the line of a node, without indentation. -/
def AInfo.headline (input : List Byte) (x : AInfo) : List Byte :=
  if x.isToken then [45, 32] ++ x.label ++ [32, 40] ++ x.tokenText input ++ [41, 10] else [43, 32] ++ x.label ++ [10]

mutual
/-- peglib.h 6548-6571 `ast_to_s_core`. -/
def astToSCore (input : List Byte) (fn : Option (Ast → Nat → List Byte)) (level : Nat) : Ast → List Byte
  | .node x ns => indent level ++ x.headline input ++ (match fn with | some f => f (.node x ns) (level + 1) | none => []) ++ astsToS input fn (level + 1) ns
/-- peglib.h 6568-6570: the loop over the children. -/
def astsToS (input : List Byte) (fn : Option (Ast → Nat → List Byte)) (level : Nat) : List Ast → List Byte
  | [] => []
  | n :: ns => astToSCore input fn level n ++ astsToS input fn level ns
end

/-- peglib.h 6573-6580 `ast_to_s`. -/
def astToS (input : List Byte) (fn : Option (Ast → Nat → List Byte)) (t : Ast) : List Byte := astToSCore input fn 0 t

/-! ## Specification -/

/-- What is shown of a node: the rule, which of its alternatives (if it has several), the rule of the node it was merged with, the
text of a token. -/
structure Shown where
  rule : List Byte
  alternative : Option Nat
  merged : List Byte
  token : Option (List Byte)
  deriving DecidableEq

inductive View where
  | node (s : Shown) (kids : List View)

def AInfo.shown (input : List Byte) (x : AInfo) : Shown where
  rule := x.origName
  alternative := if x.origChoiceCount > 0 then some x.origChoice else none
  merged := x.name
  token := if x.isToken then some (x.tokenText input) else none

mutual
/-- The tree of what is shown. -/
def Ast.view (input : List Byte) : Ast → View
  | .node x ns => .node (x.shown input) (Ast.views input ns)
def Ast.views (input : List Byte) : List Ast → List View
  | [] => []
  | n :: ns => n.view input :: Ast.views input ns
end

mutual
/-- The nodes, parents before their children, each with its depth. -/
def Ast.lines (depth : Nat) : Ast → List (Nat × Ast)
  | .node x ns => (depth, .node x ns) :: Ast.linesL (depth + 1) ns
def Ast.linesL (depth : Nat) : List Ast → List (Nat × Ast)
  | [] => []
  | n :: ns => n.lines depth ++ Ast.linesL depth ns
end

/-- A name as in a grammar: no blank, line end, `(`, `/`, `[`, `]`. -/
def NameLike (s : List Byte) : Prop := ∀ c ∈ s, c ≠ 32 ∧ c ≠ 10 ∧ c ≠ 40 ∧ c ≠ 47 ∧ c ≠ 91 ∧ c ≠ 93

mutual
/-- Names are names and no token has a line end in it. -/
def Ast.OneLine (input : List Byte) : Ast → Prop
  | .node x ns => NameLike x.name ∧ NameLike x.origName ∧ (x.isToken = true → 10 ∉ x.tokenText input) ∧ Ast.OneLineL input ns
def Ast.OneLineL (input : List Byte) : List Ast → Prop
  | [] => True
  | n :: ns => n.OneLine input ∧ Ast.OneLineL input ns
end

/-! ## Proofs -/

/-- The line of a node in terms of what is shown. -/
def Shown.label (s : Shown) : List Byte :=
  s.rule ++ (match s.alternative with | some k => 47 :: decimal k | none => []) ++ (if s.merged ≠ s.rule then 91 :: s.merged ++ [93] else [])

def Shown.text (s : Shown) : List Byte :=
  match s.token with
  | some t => 45 :: 32 :: (s.label ++ 32 :: 40 :: (t ++ [41]))
  | none => 43 :: 32 :: s.label

theorem headline_eq (input : List Byte) (x : AInfo) : x.headline input = (x.shown input).text ++ [10] := by
  have hl : x.label = (x.shown input).label := by
    unfold AInfo.label Shown.label AInfo.shown
    dsimp only
    by_cases h : x.origChoiceCount > 0
    · simp only [h, if_true]
    · simp only [h, if_false]
  unfold AInfo.headline Shown.text
  rw [hl]
  cases hk : x.isToken <;> simp [AInfo.shown, hk]

/-- The value of decimal digits. -/
def decVal (l : List Byte) : Nat := l.foldl (fun a c => 10 * a + (c.toNat - 48)) 0

theorem decVal_decimal (n : Nat) : decVal (decimal n) = n := by
  induction n using decimal.induct with
  | case1 n h =>
    unfold decimal
    rw [if_pos h]
    show 10 * 0 + ((UInt8.ofNat (48 + n)).toNat - 48) = n
    rw [UInt8.toNat_ofNat_of_lt' (by show 48 + n < 256; omega)]
    omega
  | case2 n h ih =>
    unfold decimal
    rw [if_neg h]
    unfold decVal at ih ⊢
    rw [List.foldl_append, ih, List.foldl_cons, List.foldl_nil, UInt8.toNat_ofNat_of_lt' (by show 48 + n % 10 < 256; omega)]
    omega

theorem decimal_digits (n : Nat) : ∀ c ∈ decimal n, c ≠ 32 ∧ c ≠ 10 ∧ c ≠ 91 := by
  induction n using decimal.induct with
  | case1 n h =>
    unfold decimal
    rw [if_pos h]
    intro c hc
    cases List.mem_singleton.1 hc
    have : (UInt8.ofNat (48 + n)).toNat = 48 + n := UInt8.toNat_ofNat_of_lt' (by show 48 + n < 256; omega)
    refine ⟨?_, ?_, ?_⟩ <;> (intro e; rw [e] at this; simp at this; omega)
  | case2 n h ih =>
    unfold decimal
    rw [if_neg h]
    intro c hc
    rcases List.mem_append.1 hc with hc | hc
    · exact ih c hc
    · cases List.mem_singleton.1 hc
      have : (UInt8.ofNat (48 + n % 10)).toNat = 48 + n % 10 := UInt8.toNat_ofNat_of_lt' (by show 48 + n % 10 < 256; omega)
      refine ⟨?_, ?_, ?_⟩ <;> (intro e; rw [e] at this; simp at this; omega)

/-- Two texts that go on with a stop character or end, and avoid stop characters before. -/
theorem stop_inj {p : Byte → Prop} : ∀ {a b r s : List Byte}, (∀ c ∈ a, ¬ p c) → (∀ c ∈ b, ¬ p c) → (∀ c, r.head? = some c → p c) →
    (∀ c, s.head? = some c → p c) → a ++ r = b ++ s → a = b ∧ r = s
  | [], [], _, _, _, _, _, _, h => ⟨rfl, h⟩
  | [], b :: bs, r, s, _, hb, hr, _, h => by
    cases (h : r = b :: (bs ++ s))
    exact absurd (hr b rfl) (hb b List.mem_cons_self)
  | a :: as, [], r, s, ha, _, _, hs, h => by
    cases (h : a :: (as ++ r) = s)
    exact absurd (hs a rfl) (ha a List.mem_cons_self)
  | a :: as, b :: bs, r, s, ha, hb, hr, hs, h => by
    simp only [List.cons_append, List.cons.injEq] at h
    obtain ⟨h1, h2⟩ := stop_inj (fun c hc => ha c (List.mem_cons_of_mem _ hc)) (fun c hc => hb c (List.mem_cons_of_mem _ hc)) hr hs h.2
    exact ⟨by rw [h.1, h1], h2⟩

def Shown.Fine (s : Shown) : Prop := NameLike s.rule ∧ NameLike s.merged ∧ ∀ t, s.token = some t → 10 ∉ t

/-- Blank, `/` and `[` end a name. -/
def ends (c : Byte) : Prop := c = 32 ∨ c = 47 ∨ c = 91

theorem NameLike.noEnd {s : List Byte} (h : NameLike s) : ∀ c ∈ s, ¬ ends c := by
  intro c hc he
  obtain ⟨h1, -, -, h2, h3, -⟩ := h c hc
  rcases he with e | e | e
  · exact h1 e
  · exact h2 e
  · exact h3 e

/-- The label and what follows it (nothing or a blank) are found again. -/
theorem label_inj {s t : Shown} (hs : s.Fine) (ht : t.Fine) {r r' : List Byte} (hr : ∀ c, r.head? = some c → c = 32) (hr' : ∀ c, r'.head? = some c → c = 32)
    (h : s.label ++ r = t.label ++ r') : s.rule = t.rule ∧ s.alternative = t.alternative ∧ s.merged = t.merged ∧ r = r' := by
  unfold Shown.label at h
  simp only [List.append_assoc] at h
  -- the merged name and the rest
  have hm : ∀ (s : Shown) (r : List Byte), (∀ c, r.head? = some c → c = 32) →
      ∀ c, ((if s.merged ≠ s.rule then 91 :: s.merged ++ [93] else []) ++ r).head? = some c → c = 32 ∨ c = 91 := by
    intro s r hr c hc
    by_cases hn : s.merged ≠ s.rule
    · rw [if_pos hn] at hc; cases hc; exact .inr rfl
    · rw [if_neg hn] at hc; exact .inl (hr c hc)
  have ha : ∀ (s : Shown) (r : List Byte), (∀ c, r.head? = some c → c = 32) →
      ∀ c, ((match s.alternative with | some k => 47 :: decimal k | none => []) ++ ((if s.merged ≠ s.rule then 91 :: s.merged ++ [93] else []) ++ r)).head? = some c → ends c := by
    intro s r hr c hc
    cases hk : s.alternative with
    | some k => rw [hk] at hc; cases hc; exact .inr (.inl rfl)
    | none =>
      rw [hk] at hc
      rcases hm s r hr c hc with e | e
      · exact .inl e
      · exact .inr (.inr e)
  obtain ⟨h1, h2⟩ := stop_inj hs.1.noEnd ht.1.noEnd (ha s r hr) (ha t r' hr') h
  have key : s.alternative = t.alternative ∧
      (if s.merged ≠ s.rule then 91 :: s.merged ++ [93] else []) ++ r = (if t.merged ≠ t.rule then 91 :: t.merged ++ [93] else []) ++ r' := by
    cases hk : s.alternative with
    | some k =>
      cases hk' : t.alternative with
      | some k' =>
        rw [hk, hk'] at h2
        simp only [List.cons_append, List.cons.injEq, true_and] at h2
        have hd : ∀ k, ∀ c ∈ decimal k, ¬ (c = 32 ∨ c = 91) := by
          intro k c hc he
          obtain ⟨h1, -, h2⟩ := decimal_digits k c hc
          rcases he with e | e
          · exact h1 e
          · exact h2 e
        obtain ⟨h3, h4⟩ := stop_inj (hd k) (hd k') (hm s r hr) (hm t r' hr') h2
        have h5 := congrArg decVal h3
        rw [decVal_decimal, decVal_decimal] at h5
        exact ⟨by rw [h5], h4⟩
      | none =>
        rw [hk, hk'] at h2
        exfalso
        rcases hm t r' hr' 47 (congrArg List.head? h2).symm with e | e <;> cases e
    | none =>
      cases hk' : t.alternative with
      | some k' =>
        rw [hk, hk'] at h2
        exfalso
        rcases hm s r hr 47 (congrArg List.head? h2) with e | e <;> cases e
      | none => rw [hk, hk'] at h2; exact ⟨rfl, h2⟩
  obtain ⟨h3, h4⟩ := key
  by_cases hn : s.merged ≠ s.rule
  · by_cases hn' : t.merged ≠ t.rule
    · rw [if_pos hn, if_pos hn'] at h4
      simp only [List.cons_append, List.cons.injEq, true_and, List.append_assoc, List.nil_append] at h4
      have hb : ∀ {u : Shown}, u.Fine → ∀ c ∈ u.merged, ¬ c = 93 := fun hu c hc => (hu.2.1 c hc).2.2.2.2.2
      obtain ⟨h5, h6⟩ := stop_inj (hb hs) (hb ht) (fun c hc => by cases hc; rfl) (fun c hc => by cases hc; rfl) h4
      cases h6
      exact ⟨h1, h3, h5, rfl⟩
    · rw [if_pos hn, if_neg hn'] at h4
      cases hr' 91 (by rw [← show _ = r' from h4]; rfl)
  · by_cases hn' : t.merged ≠ t.rule
    · rw [if_neg hn, if_pos hn'] at h4
      cases hr 91 (by rw [show r = _ from h4]; rfl)
    · rw [if_neg hn, if_neg hn'] at h4
      rw [Decidable.not_not] at hn hn'
      exact ⟨h1, h3, by rw [hn, hn', h1], h4⟩

theorem text_inj {s t : Shown} (hs : s.Fine) (ht : t.Fine) (h : s.text = t.text) : s = t := by
  unfold Shown.text at h
  cases hk : s.token with
  | some u =>
    cases hk' : t.token with
    | some u' =>
      rw [hk, hk'] at h
      simp only [List.cons.injEq, true_and] at h
      obtain ⟨h1, h2, h3, h4⟩ := label_inj hs ht (fun c hc => by cases hc; rfl) (fun c hc => by cases hc; rfl) h
      simp only [List.cons.injEq, true_and, List.append_cancel_right_eq] at h4
      cases s; cases t
      simp only at h1 h2 h3 hk hk'
      rw [h1, h2, h3, hk, hk', h4]
    | none => rw [hk, hk'] at h; simp at h
  | none =>
    cases hk' : t.token with
    | some u' => rw [hk, hk'] at h; simp at h
    | none =>
      rw [hk, hk'] at h
      simp only [List.cons.injEq, true_and] at h
      have h' : s.label ++ [] = t.label ++ [] := by rw [List.append_nil, List.append_nil, h]
      obtain ⟨h1, h2, h3, -⟩ := label_inj hs ht (fun c hc => by cases hc) (fun c hc => by cases hc) h'
      cases s; cases t
      simp only at h1 h2 h3 hk hk'
      rw [h1, h2, h3, hk, hk']

theorem indent_blank (n : Nat) : ∀ c ∈ indent n, c = 32 := by
  induction n with
  | zero => intro c hc; cases hc
  | succ n ih =>
    intro c hc
    rcases List.mem_append.1 hc with hc | hc
    · exact ih c hc
    · simpa using hc

theorem indent_length (n : Nat) : (indent n).length = 2 * n := by
  induction n with
  | zero => rfl
  | succ n ih => rw [indent, List.length_append, ih]; simp; omega

theorem NameLike.noLf {s : List Byte} (h : NameLike s) : 10 ∉ s := fun hc => (h 10 hc).2.1 rfl

theorem text_noLf {s : Shown} (hs : s.Fine) : 10 ∉ s.text := by
  have hl : 10 ∉ s.label := by
    unfold Shown.label
    intro h
    rcases List.mem_append.1 h with h | h
    · rcases List.mem_append.1 h with h | h
      · exact hs.1.noLf h
      · cases hk : s.alternative with
        | some k =>
          rw [hk] at h
          rcases List.mem_cons.1 h with h | h
          · cases h
          · exact (decimal_digits k 10 h).2.1 rfl
        | none => rw [hk] at h; cases h
    · by_cases hn : s.merged ≠ s.rule
      · rw [if_pos hn] at h
        rcases List.mem_cons.1 h with h | h
        · cases h
        · rcases List.mem_append.1 h with h | h
          · exact hs.2.1.noLf h
          · simp at h
      · rw [if_neg hn] at h; cases h
  unfold Shown.text
  cases hk : s.token with
  | some t =>
    have := hs.2.2 t hk
    simp [hl, this]
  | none => simp [hl]

/-- A line of the printed text. -/
def lineOf (d : Nat) (s : Shown) : List Byte := indent d ++ s.text

theorem lineOf_inj {d d' : Nat} {s t : Shown} (hs : s.Fine) (ht : t.Fine) (h : lineOf d s = lineOf d' t) : d = d' ∧ s = t := by
  have hh : ∀ (s : Shown) c, s.text.head? = some c → ¬ c = 32 := by
    intro s c hc e
    unfold Shown.text at hc
    cases hk : s.token <;> (rw [hk] at hc; cases hc; cases e)
  obtain ⟨h1, h2⟩ := stop_inj (p := fun c => ¬ c = 32) (fun c hc => by simp [indent_blank d c hc]) (fun c hc => by simp [indent_blank d' c hc]) (hh s) (hh t) h
  refine ⟨?_, text_inj hs ht h2⟩
  have := congrArg List.length h1
  rw [indent_length, indent_length] at this
  omega

theorem lineOf_noLf {d : Nat} {s : Shown} (hs : s.Fine) : 10 ∉ lineOf d s := by
  intro h
  rcases List.mem_append.1 h with h | h
  · cases indent_blank d 10 h
  · exact text_noLf hs h

mutual
def View.pre (d : Nat) : View → List (Nat × Shown)
  | .node s ks => (d, s) :: View.preL (d + 1) ks
def View.preL (d : Nat) : List View → List (Nat × Shown)
  | [] => []
  | k :: ks => k.pre d ++ View.preL d ks
end

/-- A printed list of lines is read back. -/
theorem print_inj : ∀ {l l' : List (Nat × Shown)}, (∀ x ∈ l, x.2.Fine) → (∀ x ∈ l', x.2.Fine) →
    (l.flatMap fun x => lineOf x.1 x.2 ++ [10]) = (l'.flatMap fun x => lineOf x.1 x.2 ++ [10]) → l = l'
  | [], [], _, _, _ => rfl
  | [], y :: ys, _, _, h => by simp at h
  | x :: xs, [], _, _, h => by simp at h
  | x :: xs, y :: ys, hx, hy, h => by
    simp only [List.flatMap_cons, List.append_assoc, List.cons_append, List.nil_append] at h
    have f1 := hx x List.mem_cons_self
    have f2 := hy y List.mem_cons_self
    obtain ⟨h1, h2⟩ := stop_inj (p := fun c => c = 10) (fun c hc e => lineOf_noLf f1 (e ▸ hc)) (fun c hc e => lineOf_noLf f2 (e ▸ hc))
      (fun c hc => by cases hc; rfl) (fun c hc => by cases hc; rfl) h
    simp only [List.cons.injEq, true_and] at h2
    have h3 := print_inj (fun z hz => hx z (List.mem_cons_of_mem _ hz)) (fun z hz => hy z (List.mem_cons_of_mem _ hz)) h2
    obtain ⟨h4, h5⟩ := lineOf_inj f1 f2 h1
    rw [h3, show x = y from Prod.ext h4 h5]

/-- The depth of the first line, if any, is less than `d`. -/
def Above (d : Nat) (l : List (Nat × Shown)) : Prop := ∀ x, l.head? = some x → x.1 < d

theorem pre_ne (d : Nat) (v : View) (r : List (Nat × Shown)) : ∃ s ks, v = .node s ks ∧ v.pre d ++ r = (d, s) :: (View.preL (d + 1) ks ++ r) := by
  cases v with
  | node s ks => exact ⟨s, ks, rfl, by rw [View.pre]; rfl⟩

mutual
theorem pre_inj : ∀ (v : View) (d : Nat) {v' : View} {r r' : List (Nat × Shown)}, Above (d + 1) r → Above (d + 1) r' → v.pre d ++ r = v'.pre d ++ r' →
    v = v' ∧ r = r'
  | .node s ks, d, v', r, r', hr, hr', h => by
    cases v' with
    | node s' ks' =>
      simp only [View.pre, List.cons_append, List.cons.injEq, Prod.mk.injEq, true_and] at h
      obtain ⟨h1, h2⟩ := preL_inj ks (d + 1) hr hr' h.2
      rw [h.1, h1]
      exact ⟨rfl, h2⟩
theorem preL_inj : ∀ (ks : List View) (d : Nat) {ks' : List View} {r r' : List (Nat × Shown)}, Above d r → Above d r' → View.preL d ks ++ r = View.preL d ks' ++ r' →
    ks = ks' ∧ r = r'
  | [], d, [], r, r', _, _, h => ⟨rfl, h⟩
  | [], d, k' :: ks', r, r', hr, _, h => by
    rw [View.preL, View.preL, List.append_assoc] at h
    obtain ⟨s, ks, -, e⟩ := pre_ne d k' (View.preL d ks' ++ r')
    rw [e, List.nil_append] at h
    have := hr (d, s) (by rw [h]; rfl)
    simp at this
  | k :: ks, d, [], r, r', _, hr', h => by
    rw [View.preL, View.preL, List.append_assoc] at h
    obtain ⟨s, ks', -, e⟩ := pre_ne d k (View.preL d ks ++ r)
    rw [e, List.nil_append] at h
    have := hr' (d, s) (by rw [← h]; rfl)
    simp at this
  | k :: ks, d, k' :: ks', r, r', hr, hr', h => by
    rw [View.preL, View.preL, List.append_assoc, List.append_assoc] at h
    have ha : ∀ (ks : List View) (r : List (Nat × Shown)), Above d r → Above (d + 1) (View.preL d ks ++ r) := by
      intro ks r hr x hx
      cases ks with
      | nil => have := hr x hx; omega
      | cons k ks =>
        rw [View.preL, List.append_assoc] at hx
        obtain ⟨s, ks', -, e⟩ := pre_ne d k (View.preL d ks ++ r)
        rw [e] at hx
        cases hx
        exact Nat.lt_succ_self d
    obtain ⟨h1, h2⟩ := pre_inj k d (ha ks r hr) (ha ks' r' hr') h
    obtain ⟨h3, h4⟩ := preL_inj ks d hr hr' h2
    rw [h1, h3]
    exact ⟨rfl, h4⟩
end

mutual
theorem view_fine (input : List Byte) : ∀ (t : Ast) (d : Nat), t.OneLine input → ∀ x ∈ (t.view input).pre d, x.2.Fine
  | .node x ns, d, h => by
    intro y hy
    rw [Ast.view, View.pre] at hy
    rw [Ast.OneLine] at h
    rcases List.mem_cons.1 hy with rfl | hy
    · refine ⟨h.2.1, h.1, fun t ht => ?_⟩
      simp only [AInfo.shown] at ht
      by_cases hk : x.isToken = true
      · rw [if_pos hk] at ht; cases ht; exact h.2.2.1 hk
      · rw [if_neg hk] at ht; cases ht
    · exact views_fine input ns (d + 1) h.2.2.2 y hy
theorem views_fine (input : List Byte) : ∀ (ns : List Ast) (d : Nat), Ast.OneLineL input ns → ∀ x ∈ View.preL d (Ast.views input ns), x.2.Fine
  | [], d, _ => by intro y hy; cases hy
  | n :: ns, d, h => by
    intro y hy
    rw [Ast.views, View.preL] at hy
    rw [Ast.OneLineL] at h
    rcases List.mem_append.1 hy with hy | hy
    · exact view_fine input n d h.1 y hy
    · exact views_fine input ns d h.2 y hy
end

mutual
theorem core_pre (input : List Byte) : ∀ (t : Ast) (d : Nat), astToSCore input none d t = ((t.view input).pre d).flatMap fun x => lineOf x.1 x.2 ++ [10]
  | .node x ns, d => by
    rw [astToSCore, Ast.view, View.pre, List.flatMap_cons, asts_pre input ns (d + 1), headline_eq]
    simp [lineOf]
theorem asts_pre (input : List Byte) : ∀ (ns : List Ast) (d : Nat), astsToS input none d ns = (View.preL d (Ast.views input ns)).flatMap fun x => lineOf x.1 x.2 ++ [10]
  | [], d => by rw [astsToS, Ast.views, View.preL]; rfl
  | n :: ns, d => by rw [astsToS, Ast.views, View.preL, List.flatMap_append, core_pre input n d, asts_pre input ns d]
end

mutual
theorem core_lines (input : List Byte) (f : Ast → Nat → List Byte) : ∀ (t : Ast) (d : Nat),
    astToSCore input (some f) d t = (t.lines d).flatMap fun x => indent x.1 ++ x.2.info.headline input ++ f x.2 (x.1 + 1)
  | .node x ns, d => by
    rw [astToSCore, Ast.lines, List.flatMap_cons, asts_lines input f ns (d + 1)]
    rfl
theorem asts_lines (input : List Byte) (f : Ast → Nat → List Byte) : ∀ (ns : List Ast) (d : Nat),
    astsToS input (some f) d ns = (Ast.linesL d ns).flatMap fun x => indent x.1 ++ x.2.info.headline input ++ f x.2 (x.1 + 1)
  | [], d => by rw [astsToS, Ast.linesL]; rfl
  | n :: ns, d => by rw [astsToS, Ast.linesL, List.flatMap_append, core_lines input f n d, asts_lines input f ns d]
end

mutual
theorem core_none (input : List Byte) : ∀ (t : Ast) (d : Nat), astToSCore input none d t = astToSCore input (some fun _ _ => []) d t
  | .node x ns, d => by rw [astToSCore, astToSCore, asts_none input ns (d + 1)]
theorem asts_none (input : List Byte) : ∀ (ns : List Ast) (d : Nat), astsToS input none d ns = astsToS input (some fun _ _ => []) d ns
  | [], d => by rw [astsToS, astsToS]
  | n :: ns, d => by rw [astsToS, astsToS, core_none input n d, asts_none input ns d]
end

end Verif
