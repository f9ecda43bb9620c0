import Verif.AstBuild
import Verif.Props.Refine
/-!
# C47, C48: matches are derivations; UTF-8

`Der` (Der.lean) reads a grammar as a context-free grammar with values: it has no memo tables, no error state, no cut and no
stacks.  Unlike C27 these theorems need no certificate: they cover left recursion, operator precedence, error recovery, macros,
captures, user-defined parsers and packrat parsing.

The computable test `derCheck` asks: operator expressions are bodies of ordinary rules, macros are not left-recursive,
`has_macro_ref` is set where macros are used, memoised rules have different numbers.
-/

namespace Verif.Props
open Verif

variable {V : Type} {cfg : Cfg V} {n r : Nat} {d : Def} {eoi log : Bool} {dt : Option V} {res : Result V}

/-- What C47 and C48 assume of grammar and callbacks; `p` is tested at every node. -/
structure DerReady (p : Ope → Bool) (cfg : Cfg V) : Prop where
  check : derCheck p cfg = true
  slots : SlotsOk cfg
  user : UserAppends cfg

/-- **C47**: whatever a parse accepts is derived by the grammar: white space up to `i`, then the start rule from `i` to the
reported end, and the values in the final scope are the values of that derivation. -/
theorem C47_parse_is_derivation (recov : Bool) (H : DerReady (plainNode recov) cfg) (hd : cfg.rules[r]? = some d) (hm : d.isMacro = false)
    (h : parseCore n cfg r eoi { dt := dt, logOn := log } = .ok res) (hr : res.ret = true) :
    ∃ i v, DerParse cfg { recov := recov } r i res.len v res.st.vs ∧ i ≤ res.len ∧ res.len ≤ cfg.input.length := by
  have := parseCore_D (plainHyp (DShape.of_check (plainNode_ok cfg recov) H.check H.slots H.user)) (Nat.zero_le _)
    (by intro d' hd'; rw [hd] at hd'; cases hd'; exact hm) h hr
  obtain ⟨i, v, h1, h2, h3, -⟩ := this
  exact ⟨i, v, h1, h2, h3⟩

/-- Without `%recover` nothing is ever recovered. -/
theorem C47_no_recovery (H : DerReady (plainNode false) cfg) (hd : cfg.rules[r]? = some d) (hm : d.isMacro = false)
    (h : parseCore n cfg r eoi { dt := dt, logOn := log } = .ok res) (hr : res.ret = true) : res.recovered = false := by
  have := parseCore_D (plainHyp (DShape.of_check (plainNode_ok cfg false) H.check H.slots H.user)) (Nat.zero_le _)
    (by intro d' hd'; rw [hd] at hd'; cases hd'; exact hm) h hr
  obtain ⟨i, v, -, -, -, h4⟩ := this
  exact h4 rfl

/-- **C47**, values: an invariant of values that holds for the result of every action whose scope's values satisfy it (and are
values of consecutive stretches of the scope's text, with all tokens inside it) holds for the value of the parse. -/
theorem C47_values (Inv : Nat → Nat → Option V → Prop) (H : DerReady (plainNode false) cfg)
    (HV : ValInv cfg (plainLg cfg false) Inv) (hro : cfg.recognizeOnly = false) (hd : cfg.rules[r]? = some d)
    (hm : d.isMacro = false) (h : parseCore n cfg r eoi { dt := dt, logOn := log } = .ok res) (hr : res.ret = true) :
    ∃ i v, DerParse cfg { recov := false } r i res.len v res.st.vs ∧ ∃ a c, i ≤ a ∧ a ≤ c ∧ c ≤ res.len ∧ Inv a c v := by
  have HH := plainHyp (DShape.of_check (plainNode_ok cfg false) H.check H.slots H.user)
  obtain ⟨i, v, h1, h2, h3, -⟩ := parseCore_D HH (Nat.zero_le _) (by intro d' hd'; rw [hd] at hd'; cases hd'; exact hm) h hr
  have h1' := h1
  obtain ⟨_, _, _, _, _, h7, _⟩ := h1
  obtain ⟨a, c, k1, k2, k3, -, -, k6⟩ :=
    (Der.vals HH HV hro h7 (by intro e he; cases he) trivial (show i ≤ cfg.input.length by omega)).2 _ _ rfl
  exact ⟨i, v, h1', a, c, k1, k2, k3, k6⟩

/-- **C48**: in well-formed UTF-8 input, with a grammar whose literals are UTF-8, a match ends at a character boundary; so do the
leading white space and every token and value: invariants of values may assume that all scopes and tokens begin and end at
character boundaries. -/
theorem C48_utf8_boundaries (recov : Bool) (H : DerReady (utf8Node recov) cfg) (hu : UserBdry cfg) (hi : Text cfg.input)
    (hd : cfg.rules[r]? = some d) (hm : d.isMacro = false)
    (h : parseCore n cfg r eoi { dt := dt, logOn := log } = .ok res) (hr : res.ret = true) :
    Text (cfg.input.take res.len) ∧ Text (cfg.input.drop res.len) ∧
    ∃ i v, DerParse cfg (utf8Lg cfg recov).K r i res.len v res.st.vs ∧ i ≤ res.len ∧ Bdry cfg.input i ∧
      ∀ Inv, ValInv cfg (utf8Lg cfg recov) Inv → cfg.recognizeOnly = false →
        ∃ a c, i ≤ a ∧ a ≤ c ∧ c ≤ res.len ∧ Bdry cfg.input a ∧ Bdry cfg.input c ∧ Inv a c v := by
  have HS := DShape.of_check (utf8Node_ok cfg recov) H.check H.slots H.user
  have HH := utf8Hyp HS hu
  have h0 : (utf8Lg cfg recov).al 0 := ⟨Nat.zero_le _, hi⟩
  obtain ⟨i, v, h1, h2, h3, -⟩ := parseCore_D HH h0 (by intro d' hd'; rw [hd] at hd'; cases hd'; exact hm) h hr
  have h1' := h1
  obtain ⟨_, _, _, _, h6, h7, _⟩ := h1
  have hE : DEnv.Ok (utf8Lg cfg recov) {} := by intro e he; cases he
  have hbi : (utf8Lg cfg recov).al i := HH.closed _ .skip _ _ _ _ hE trivial h0 h6
  have hbj : (utf8Lg cfg recov).al res.len := HH.closed _ (.rule r v) _ _ _ _ hE trivial hbi h7
  refine ⟨text_take hi hbj.2, hbj.2, i, v, h1', h2, hbi.2, fun Inv HV hro => ?_⟩
  obtain ⟨a, c, k1, k2, k3, k4, k5, k6⟩ := (Der.vals HH HV hro h7 hE trivial hbi).2 _ _ rfl
  exact ⟨a, c, k1, k2, k3, k4.2, k5.2, k6⟩

/-! ## A concrete grammar

`E <- E '+' T / T   T <- '(' E ')' / M(E) / < [é0-9]+ > / $x< 'ü' > $x   M(y) <- '«' y '»'   %whitespace <- ' '*`, left-recursive,
with packrat parsing. -/

def deCfg (input : List Byte) : Cfg Nat :=
  { input := input
    rules := [{ name := [69], isLR := true, hasMacroRef := true, ope := .cho [.seq [.ref 0 [69] [], .lit [43] false, .ref 1 [84] []] none, .ref 1 [84] []] false [] },
      { name := [84], hasMacroRef := true, ope := .cho [.seq [.lit [40] false, .ref 0 [69] [], .lit [41] false] none, .ref 2 [77] [.ref 0 [69] []],
        .tok (.rep (.cls ⟨[(0xE9, 0xE9), (48, 57)], false, false⟩) 1 none none),
        .seq [.cap [120] (.lit [0xC3, 0xBC] false), .bref [120]] none] false [] },
      { name := [77], isMacro := true, params := [[121]],
        ope := .seq [.lit [0xC2, 0xAB] false, .param 0 [121], .lit [0xC2, 0xBB] false] none }]
    ws := some (.ws (.ign (.rep (.lit [32] false) 0 none none)))
    action := fun r => if r = 0 then some fun f _ _ => (some (f.vals.foldl (fun n v => n + v.getD 0) 0), none) else
      some fun f _ _ => (f.vals.head?.getD (some f.tokens.length), none)
    packrat := true
    defCount := 3
    packratIndex := some [some 0, some 1, none]
    cachedCount := 2 }

theorem deReady (recov : Bool) (input : List Byte) : DerReady (utf8Node recov) (deCfg input) where
  check := by
    have h : ∀ recov, derCheck (utf8Node recov) (deCfg []) = true := by decide +kernel
    exact h recov
  slots := by
    intro _ r s h
    simp only [Cfg.slot, deCfg] at h
    rcases r with _ | _ | _ | r
    · simp at h; show s < 2; omega
    · simp at h; show s < 2; omega
    · simp at h
    · simp at h
  user := fun _ _ _ _ => ⟨List.prefix_refl _, List.prefix_refl _, List.prefix_refl _, rfl⟩

/-- Every UTF-8 text is matched by this grammar, if at all, up to a character boundary. -/
example (input : List Byte) (hi : Text input) (n : Nat) (res : Result Nat) (h : parseCore n (deCfg input) 0 false {} = .ok res)
    (hr : res.ret = true) : Text (input.take res.len) ∧ Text (input.drop res.len) :=
  let this := C48_utf8_boundaries false (deReady false input) (fun _ _ _ _ _ _ h _ => by cases h) hi rfl rfl h hr
  ⟨this.1, this.2.1⟩

/-- "é1 + «(2)» + üü" is accepted. -/
example : (match parserParse 60 (deCfg [0xC3, 0xA9, 49, 32, 43, 0xC2, 0xAB, 40, 50, 41, 0xC2, 0xBB, 43, 0xC3, 0xBC, 0xC3, 0xBC]) 0 true
    false none with
    | .ok a => some (a.ok, a.val)
    | _ => none) = some (true, some 2) := by decide +kernel

end Verif.Props
