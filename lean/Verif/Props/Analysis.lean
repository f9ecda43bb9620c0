import Verif.NullProofs
import Verif.Props.Derive
/-!
# C29: nullability

`can_be_empty` of every rule is computed at load time by the loop of peglib.h 6353-6367 (`cbeLoop`); `cbe t e` is
`ComputeCanBeEmpty` on the expression `e` with the flags `t`.
-/

namespace Verif.Props
open Verif

variable {V : Type} {cfg : Cfg V} {n r : Nat} {d : Def} {eoi log : Bool} {dt : Option V} {res : Result V}

/-- `t` is what the loop leaves in the `can_be_empty` flags, the rules being visited in some order. -/
def Computed (rules : List Def) (t : Nat → Bool) : Prop :=
  ∃ ord fuel, (∀ r, r < rules.length → r ∈ ord) ∧ cbeLoop rules ord fuel (fun _ => false) = some t

/-- **C29**: the loop ends, for every grammar and every order of its rules, and the flags it leaves are the least ones closed
under the rules: a rule is flagged exactly if its body, read with the flags, is. -/
theorem C29_fixed_point (rules : List Def) (ord : List Nat) (ho : ∀ r, r < rules.length → r ∈ ord) :
    ∃ t, cbeLoop rules ord (rules.length + 1) (fun _ => false) = some t ∧
      (∀ r d, rules[r]? = some d → t r = cbe t d.ope) ∧
      ∀ t', (∀ r d, rules[r]? = some d → cbe t' d.ope = true → t' r = true) → ∀ r, t r = true → t' r = true := by
  obtain ⟨t, h1, h2, -, h4, h5⟩ := cbeLoop_spec rules ord (rules.length + 1) (fun _ => false) (fun _ h => by cases h)
    (Nat.lt_succ_of_le (by unfold unmarked; exact Nat.le_trans List.countP_le_length (by simp)))
  exact ⟨t, h1, fun r d hd => (h4 r (ho r (List.getElem?_eq_some_iff.mp hd).1) d hd).symm,
    fun t' ht' => h5 t' ht' (fun _ h => by cases h)⟩

theorem loop_more {rules : List Def} {ord : List Nat} {n m : Nat} {s t : Nat → Bool} (h : cbeLoop rules ord n s = some t)
    (hm : n ≤ m) : cbeLoop rules ord m s = some t := by
  induction n generalizing s m with
  | zero => simp [cbeLoop] at h
  | succ n ih =>
    cases m with
    | zero => omega
    | succ m =>
      unfold cbeLoop at h ⊢
      simp only at h ⊢
      split at h
      · rename_i hc; rw [if_pos hc]; exact ih h (by omega)
      · rename_i hc; rw [if_neg hc]; exact h

theorem Computed.spec {rules : List Def} {t : Nat → Bool} (h : Computed rules t) :
    (∀ r d, rules[r]? = some d → t r = cbe t d.ope) ∧
      ∀ t', (∀ r d, rules[r]? = some d → cbe t' d.ope = true → t' r = true) → ∀ r, t r = true → t' r = true := by
  obtain ⟨ord, fuel, ho, hl⟩ := h
  obtain ⟨t', h1, h2, h3⟩ := C29_fixed_point rules ord ho
  have := (loop_more hl (Nat.le_max_left fuel (rules.length + 1))).symm.trans (loop_more h1 (Nat.le_max_right fuel _))
  cases this
  exact ⟨h2, h3⟩

/-- **C29**: the flags do not depend on the order in which the hash map is traversed. -/
theorem C29_order_irrelevant {rules : List Def} {t t' : Nat → Bool} (h : Computed rules t) (h' : Computed rules t') (r : Nat) :
    t r = t' r := by
  have a := h.spec.2 t' (fun r d hd hc => by rw [h'.spec.1 r d hd]; exact hc) r
  have b := h'.spec.2 t (fun r d hd hc => by rw [h.spec.1 r d hd]; exact hc) r
  cases hr : t r <;> cases hr' : t' r
  · rfl
  · rw [b hr'] at hr; cases hr
  · rw [a hr] at hr'; cases hr'
  · rfl

/-- The analysis is conservative for this grammar: `holeFree` looks at every node of every rule. -/
def Conservative (z : Ope → Bool) (rules : List Def) (t : Nat → Bool) : Prop :=
  ∀ (r : Nat) (d : Def), rules[r]? = some d → holeFree z t d.ope = true

/-- **C29**, for UTF-8 input and grammars without the nodes the analysis gets wrong: whatever derives the empty string is called
possibly empty, for every expression `e` in any rule and for every rule. -/
theorem C29_derivation_partial (recov : Bool) (H : DerReady (utf8Node recov) cfg) (hu : UserBdry cfg) {t : Nat → Bool}
    (ht : Computed cfg.rules t) (hc : Conservative (fun _ => false) cfg.rules t) {i : Nat} (hi : Bdry cfg.input i)
    (hil : i ≤ cfg.input.length) :
    (∀ r v f f', Der cfg (utf8Lg cfg recov).K {} (.rule r v) i f i f' → t r = true) ∧
    (∀ E e f f', e.Ok (utf8Lg cfg recov) → DEnv.Ok (utf8Lg cfg recov) E → holeFree (fun _ => false) t e = true →
      Der cfg (utf8Lg cfg recov).K E (.ope e) i f i f' → cbe t e = true) := by
  have HS := DShape.of_check (utf8Node_ok cfg recov) H.check H.slots H.user
  have HH := utf8Hyp HS hu
  have hz : ∀ i e g, (utf8Lg cfg recov).al i → e.single = some g → g (cfg.rest i) = some 0 → (fun _ : Ope => false) e = true := by
    intro i e g hi h1 h2
    exfalso
    have h3 := single_len h1 h2
    exact Text.len_ne hi.2 (by
      intro he
      have : cfg.rest i = [] := he
      rw [this] at h2
      cases e <;> simp only [Ope.single, Option.some.injEq, reduceCtorEq] at h1 <;> subst h1 <;>
        simp [CharClass.Cls.matchLen, CharClass.matchChar, CharClass.matchAny, Utf8.codepointLength] at h2) h3.symm
  have htt : ∀ (r : Nat) (d : Def), cfg.rules[r]? = some d → mayEmpty (fun _ => false) t d.ope = true → t r = true := by
    intro r d hd hm
    rw [ht.spec.1 r d hd]
    exact mayEmpty_cbe _ (hc r d hd) hm
  constructor
  · intro r v f f' h
    exact Der.empty HH hz htt h (by intro e he; cases he) trivial ⟨hil, hi⟩ rfl
  · intro E e f f' hok hE hh h
    exact mayEmpty_cbe _ hh (Der.empty HH hz htt h hE (.inl hok) ⟨hil, hi⟩ rfl)

/-- **C29**, parses of UTF-8 text: if `can_be_empty` is false for the start rule, every successful parse consumes something
after the leading white space. -/
theorem C29_parse_partial (recov : Bool) (H : DerReady (utf8Node recov) cfg) (hu : UserBdry cfg) (hi : Text cfg.input)
    {t : Nat → Bool} (ht : Computed cfg.rules t) (hc : Conservative (fun _ => false) cfg.rules t) (hr0 : t r = false)
    (hd : cfg.rules[r]? = some d) (hm : d.isMacro = false)
    (h : parseCore n cfg r eoi { dt := dt, logOn := log } = .ok res) (hr : res.ret = true) :
    ∃ i v, DerParse cfg (utf8Lg cfg recov).K r i res.len v res.st.vs ∧ i < res.len := by
  have HS := DShape.of_check (utf8Node_ok cfg recov) H.check H.slots H.user
  have HH := utf8Hyp HS hu
  have h0 : (utf8Lg cfg recov).al 0 := ⟨Nat.zero_le _, hi⟩
  obtain ⟨i, v, h1, h2, h3, -⟩ := parseCore_D HH h0 (by intro d' hd'; rw [hd] at hd'; cases hd'; exact hm) h hr
  refine ⟨i, v, h1, ?_⟩
  have h1' := h1
  obtain ⟨_, _, _, _, h6, h7, _⟩ := h1
  have hbi : (utf8Lg cfg recov).al i := HH.closed _ .skip _ _ _ _ (by intro e he; cases he) trivial h0 h6
  rcases Nat.lt_or_ge i res.len with hlt | hge
  · exact hlt
  · have : res.len = i := by omega
    rw [this] at h7
    have := (C29_derivation_partial recov H hu ht hc hbi.2 hbi.1).1 _ _ _ _ h7
    rw [hr0] at this; cases this

/-- **C29**, arbitrary bytes: the same, if no one-character operator accepts U+0000. -/
theorem C29_bytes_partial (recov : Bool) (H : DerReady (plainNode recov) cfg) {t : Nat → Bool}
    (ht : Computed cfg.rules t) (hc : Conservative zeroByte cfg.rules t) (hr0 : t r = false)
    (hd : cfg.rules[r]? = some d) (hm : d.isMacro = false)
    (h : parseCore n cfg r eoi { dt := dt, logOn := log } = .ok res) (hr : res.ret = true) :
    ∃ i v, DerParse cfg { recov := recov } r i res.len v res.st.vs ∧ i < res.len := by
  have HH := plainHyp (DShape.of_check (plainNode_ok cfg recov) H.check H.slots H.user)
  obtain ⟨i, v, h1, h2, h3, -⟩ := parseCore_D HH (Nat.zero_le _) (by intro d' hd'; rw [hd] at hd'; cases hd'; exact hm) h hr
  refine ⟨i, v, h1, ?_⟩
  obtain ⟨_, _, _, _, h6, h7, _⟩ := h1
  have htt : ∀ (r : Nat) (d : Def), cfg.rules[r]? = some d → mayEmpty zeroByte t d.ope = true → t r = true := by
    intro r d hd hm
    rw [ht.spec.1 r d hd]
    exact mayEmpty_cbe _ (hc r d hd) hm
  rcases Nat.lt_or_ge i res.len with hlt | hge
  · exact hlt
  · have : res.len = i := by omega
    have := Der.empty HH (fun _ _ _ _ => zeroByte_of) htt h7 (by intro e he; cases he) trivial
      (show i ≤ cfg.input.length by omega) this
    rw [show t r = true from this] at hr0; cases hr0

/-! ## Where the analysis is wrong

Each grammar is a list of rules; its first rule matches the empty text, but `can_be_empty` is false. -/

/-- The first rule accepts the empty text although its flag is computed to be false. -/
def WronglyNonEmpty (rules : List Def) : Prop :=
  (∃ t, Computed rules t ∧ t 0 = false) ∧
    ∃ n res, parseCore n ({ input := [], rules := rules } : Cfg Nat) 0 true {} = .ok res ∧ res.ret = true ∧ res.len = 0

theorem wrong_of {rules : List Def} (h1 : ((cbeLoop rules (List.range rules.length) 5 fun _ => false).map (· 0)) = some false)
    (h2 : (match parseCore 20 ({ input := [], rules := rules } : Cfg Nat) 0 true {} with
      | .ok res => res.ret && res.len == 0
      | _ => false) = true) : WronglyNonEmpty rules := by
  rw [Option.map_eq_some_iff] at h1
  obtain ⟨t, ht, ht0⟩ := h1
  refine ⟨⟨t, ⟨_, _, fun r hr => List.mem_range.mpr hr, ht⟩, ht0⟩, ?_⟩
  cases hp : parseCore 20 ({ input := [], rules := rules } : Cfg Nat) 0 true {} with
  | ok res =>
    rw [hp] at h2
    simp only [Bool.and_eq_true, beq_iff_eq] at h2
    exact ⟨20, res, hp, h2.1, h2.2⟩
  | _ => rw [hp] at h2; cases h2

/-- `S <- ↑` -/
theorem C29_cut_wrong : WronglyNonEmpty [{ name := [83], ope := .cut }] := wrong_of (by decide +kernel) (by decide +kernel)

/-- `S <- ('a'?){2}` -/
theorem C29_bounded_repetition_wrong : WronglyNonEmpty
    [{ name := [83], ope := .rep (.rep (.lit [97] false) 0 (some 1) none) 2 (some 2) none }] :=
  wrong_of (by decide +kernel) (by decide +kernel)

/-- `S <- ''{1,3}` -/
theorem C29_empty_literal_wrong : WronglyNonEmpty [{ name := [83], ope := .rep (.lit [] false) 1 (some 3) none }] :=
  wrong_of (by decide +kernel) (by decide +kernel)

/-- `S <- $x<''> $x` -/
theorem C29_back_reference_wrong : WronglyNonEmpty
    [{ name := [83], ope := .seq [.cap [120] (.lit [] false), .bref [120]] none }] :=
  wrong_of (by decide +kernel) (by decide +kernel)

/-- `S <- M('a'?)   M(x) <- x` -/
theorem C29_macro_wrong : WronglyNonEmpty
    [{ name := [83], hasMacroRef := true, ope := .ref 1 [77] [.rep (.lit [97] false) 0 (some 1) none] },
     { name := [77], isMacro := true, params := [[120]], ope := .param 0 [120] }] :=
  wrong_of (by decide +kernel) (by decide +kernel)

/-- On malformed UTF-8 a negated class matches zero bytes: `S <- [^a]` accepts the byte FF without consuming it. -/
theorem C29_malformed_wrong : (∃ t, Computed [{ name := [83], ope := .cls ⟨[(97, 97)], true, false⟩ }] t ∧ t 0 = false) ∧
    ∃ n res, parseCore n ({ input := [255], rules := [{ name := [83], ope := .cls ⟨[(97, 97)], true, false⟩ }] } : Cfg Nat) 0 false {}
      = .ok res ∧ res.ret = true ∧ res.len = 0 := by
  constructor
  · have h : ((cbeLoop [{ name := [83], ope := .cls ⟨[(97, 97)], true, false⟩ }] (List.range 1) 5 fun _ => false).map (· 0)) =
      some false := by decide +kernel
    rw [Option.map_eq_some_iff] at h
    obtain ⟨t, ht, ht0⟩ := h
    exact ⟨t, ⟨_, _, fun r hr => List.mem_range.mpr hr, ht⟩, ht0⟩
  · have h : (match parseCore 20 ({ input := [255], rules := [{ name := [83], ope := .cls ⟨[(97, 97)], true, false⟩ }] } : Cfg Nat)
      0 false {} with
      | .ok res => res.ret && res.len == 0
      | _ => false) = true := by decide +kernel
    cases hp : parseCore 20 ({ input := [255], rules := [{ name := [83], ope := .cls ⟨[(97, 97)], true, false⟩ }] } : Cfg Nat)
      0 false {} with
    | ok res =>
      rw [hp] at h
      simp only [Bool.and_eq_true, beq_iff_eq] at h
      exact ⟨20, res, hp, h.1, h.2⟩
    | _ => rw [hp] at h; cases h

/-! ## A concrete grammar

`E <- E '+' T / T   T <- F ('*' F)*   F <- '(' E ')' / < [0-9]+ > / Sign F   Sign <- '-'?   %whitespace <- ' '*` -/

def nuCfg (input : List Byte) : Cfg Nat :=
  { input := input
    rules := [{ name := [69], isLR := true, ope := .cho [.seq [.ref 0 [69] [], .lit [43] false, .ref 1 [84] []] none, .ref 1 [84] []] false [] },
      { name := [84], ope := .seq [.ref 2 [70] [], .rep (.seq [.lit [42] false, .ref 2 [70] []] none) 0 none none] none },
      { name := [70], ope := .cho [.seq [.lit [40] false, .ref 0 [69] [], .lit [41] false] none,
        .tok (.rep (.cls ⟨[(48, 57)], false, false⟩) 1 none none), .seq [.ref 3 [83] [], .lit [35] false] none] false [] },
      { name := [83], ope := .rep (.lit [45] false) 0 (some 1) none }]
    ws := some (.ws (.ign (.rep (.lit [32] false) 0 none none)))
    defCount := 4 }

/-- Of these rules only `Sign` may be empty, and no parse of any text succeeds without consuming something but white space. -/
example (input : List Byte) (n : Nat) (res : Result Nat) (h : parseCore n (nuCfg input) 0 true {} = .ok res) (hr : res.ret = true) :
    0 < res.len := by
  have hl : ((cbeLoop (nuCfg []).rules (List.range 4) 5 fun _ => false).map fun t => [t 0, t 1, t 2, t 3]) =
    some [false, false, false, true] := by decide +kernel
  rw [Option.map_eq_some_iff] at hl
  obtain ⟨t, ht, hv⟩ := hl
  simp only [List.cons.injEq, and_true] at hv
  have hc : Conservative zeroByte (nuCfg input).rules t := by
    intro r d hd
    rcases r with _ | _ | _ | _ | r
    · cases hd; rfl
    · cases hd; rfl
    · cases hd; simp only [holeFree, holeFreeL, cbe]; decide
    · cases hd; rfl
    · cases hd
  have H : DerReady (plainNode false) (nuCfg input) := {
    check := by
      have h : derCheck (plainNode false) (nuCfg []) = true := by decide +kernel
      exact h
    slots := by intro h; cases h
    user := fun _ _ _ _ => ⟨List.prefix_refl _, List.prefix_refl _, List.prefix_refl _, rfl⟩ }
  obtain ⟨i, v, -, hlt⟩ := C29_bytes_partial false H ⟨_, _, fun r hr => List.mem_range.mpr hr, ht⟩ hc hv.1 rfl rfl h hr
  omega

end Verif.Props
