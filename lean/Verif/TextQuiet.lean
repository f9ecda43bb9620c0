import Verif.TextMade
import Verif.Quiet
import Verif.Loaded
import Verif.Repack
/-!
# The rules of a simple grammar text meet the hypotheses of the derivation theorem
-/

namespace Verif.Meta
open Verif

variable {V : Type}

/-- The rule is linked from a simple text: an expression without parameters and back references. -/
structure OkRule (L : Verif.Lg) (rs : List Def) (e : Ope) : Prop where
  ok : e.Ok L
  free : envFree rs e = true

theorem textRules_len (ds : List RDef) : (textRules ds).length = ds.length + 1 := by
  show ((toSource ds none false true).tokened fun _ => lrAt ds).length = _
  unfold Source.tokened
  split <;> simp [Source.marked, toSource, linkAll, Source.all]

theorem textRules_zero (ds : List RDef) : ∃ d, (textRules ds)[0]? = some d ∧ d.isMacro = true ∧ d.isLR = false ∧ d.ope = .param 0 "x".toUTF8.toList := by
  have h : (linkAll (allOf ds))[0]? = some { recoverDef.head with ope := .param 0 "x".toUTF8.toList, isToken := recoverDef.body.isTok, errLit := recoverDef.body.litTok } := by
    have := linkAll_get (show (allOf ds)[0]? = some recoverDef from rfl)
    rw [this, show Src.link (allOf ds) recoverDef.head.params recoverDef.body = .param 0 "x".toUTF8.toList by simp [recoverDef, Src.link, paramIdx, List.findIdx?_cons]]
  have e : textRules ds = if (ruleNamed (allOf ds) whitespaceName).isSome = true then ((linkAll (allOf ds)).mapIdx fun r d => { d with isLR := lrAt ds r }).map tokLit
      else (linkAll (allOf ds)).mapIdx fun r d => { d with isLR := lrAt ds r } := rfl
  rw [e]
  split
  · rw [List.getElem?_map, List.getElem?_mapIdx, h]
    exact ⟨_, rfl, rfl, rfl, rfl⟩
  · rw [List.getElem?_mapIdx, h]
    exact ⟨_, rfl, rfl, rfl, rfl⟩

mutual
theorem link_ok {ds : List RDef} {rs : List Def} (hr : ∀ k < ds.length, ∃ d, rs[k + 1]? = some d ∧ d.isMacro = false) (cfg : Cfg V) (recov : Bool) :
    ∀ (e : Src), plainText ds e = true → OkRule (quietLg cfg recov) rs (e.link (allOf ds) [])
  | .seq es, h => by
    have := linkL_ok hr cfg recov es h
    exact ⟨⟨(fun _ e => by cases e), okL_iff.2 fun e he => (this e he).ok⟩, envFreeL_iff.2 fun e he => (this e he).free⟩
  | .cho es l, h => by
    simp only [plainText, Bool.and_eq_true] at h
    have := linkL_ok hr cfg recov es h.2
    exact ⟨okL_iff.2 fun e he => (this e he).ok, envFreeL_iff.2 fun e he => (this e he).free⟩
  | .rep e _ _, h => let x := link_ok hr cfg recov e h; ⟨⟨(fun _ e => by cases e), x.ok⟩, x.free⟩
  | .and_ e, h => let x := link_ok hr cfg recov e h; ⟨x.ok, x.free⟩
  | .not_ e, h => let x := link_ok hr cfg recov e h; ⟨x.ok, x.free⟩
  | .tok e, h => let x := link_ok hr cfg recov e h; ⟨x.ok, x.free⟩
  | .ign e, h => let x := link_ok hr cfg recov e h; ⟨x.ok, x.free⟩
  | .dict _ _, _ => ⟨trivial, rfl⟩
  | .lit _ _, _ => ⟨trivial, rfl⟩
  | .cls _, _ => ⟨trivial, rfl⟩
  | .chr _, _ => ⟨trivial, rfl⟩
  | .dot, _ => ⟨trivial, rfl⟩
  | .ref nm mac as, h => by
    have := linkV _ h
    generalize Src.link (allOf ds) [] (.ref nm mac as) = o at this
    cases this with
    | ref _ k rd h1 h2 =>
      refine ⟨trivial, ?_⟩
      obtain ⟨d, hd, hm⟩ := hr k (List.getElem?_eq_some_iff.1 h2).1
      simp only [envFree, hd, Option.map_some, Option.getD_some, hm, Bool.not_false]
    | one _ _ _ h1 h2 => cases h1
  | .capScope _, h => by cases h
  | .cap _ _, h => by cases h
  | .usr _, h => by cases h
  | .bref _, h => by cases h
  | .cut, h => by cases h
  | .recov _ _ _, h => by cases h
theorem linkL_ok {ds : List RDef} {rs : List Def} (hr : ∀ k < ds.length, ∃ d, rs[k + 1]? = some d ∧ d.isMacro = false) (cfg : Cfg V) (recov : Bool) :
    ∀ (es : List Src), plainTextL ds es = true → ∀ e ∈ Src.linkL (allOf ds) [] es, OkRule (quietLg cfg recov) rs e
  | [], _ => by intro e he; cases he
  | e :: es, h => by
    simp only [plainTextL, Bool.and_eq_true] at h
    intro x hx
    rcases List.mem_cons.1 hx with rfl | hx
    · exact link_ok hr cfg recov e h.1
    · exact linkL_ok hr cfg recov es h.2 x hx
end

/-- **The parser of a simple text meets the hypotheses of the derivation theorem.** -/
theorem text_shape {ds : List RDef} (hF : Fragment ds) (hp : ∀ rd ∈ ds, plainText ds rd.body = true) {cfg : Cfg V} {m : Nat → Bool} {wordR : Option Nat}
    {rs : List Def} (hrs : rs.map Def.plain = reflag m (textRules ds))
    (hs : Numbered (cfg.withRules (ruleNamed (allOf ds) whitespaceName) wordR rs)) (hu : UserAppends cfg) :
    DShape (cfg.withRules (ruleNamed (allOf ds) whitespaceName) wordR rs)
      (quietLg (cfg.withRules (ruleNamed (allOf ds) whitespaceName) wordR rs) false) := by
  generalize hC : cfg.withRules (ruleNamed (allOf ds) whitespaceName) wordR rs = C at hs ⊢
  have hrules : C.rules = rs := by rw [← hC]; rfl
  have hr : ∀ k < ds.length, ∃ d, (rs.map Def.plain)[k + 1]? = some d ∧ d.isMacro = false := by
    intro k hk
    obtain ⟨d, h1, -, h2, -⟩ := textRules_get hF hp (List.getElem?_eq_getElem hk)
    rw [hrs]
    exact ⟨{ d with hasMacroRef := m (k + 1) }, by rw [reflag_get, h1]; rfl, h2⟩
  have key : ∀ (r : Nat) (d : Def), rs[r]? = some d → (d.isMacro = true ∧ d.isLR = false ∧ d.ope.Ok (quietLg C false)) ∨
      (d.isMacro = false ∧ d.ope.Ok (quietLg C false) ∧ envFree rs d.ope = true) := by
    intro r d hd
    have hd' : (reflag m (textRules ds))[r]? = some d.plain := by rw [← hrs, List.getElem?_map, hd]; rfl
    rw [reflag_get] at hd'
    cases r with
    | zero =>
      obtain ⟨d0, h0, h1, h2, h3⟩ := textRules_zero ds
      rw [h0] at hd'
      have he : { d0 with hasMacroRef := m 0 } = d.plain := by simpa using hd'
      have ho : d.plain.ope = d0.ope := by rw [← he]
      refine .inl ⟨?_, ?_, .of_plain (quiet_bare _ _) _ ?_⟩
      · show d.plain.isMacro = true
        rw [← he]; exact h1
      · show d.plain.isLR = false
        rw [← he]; exact h2
      · show d.plain.ope.Ok _
        rw [ho, h3]; trivial
    | succ k =>
      have hk : k < ds.length := by
        have := (List.getElem?_eq_some_iff.1 hd).1
        have h2 := congrArg List.length hrs
        rw [List.length_map, reflag_length, textRules_len] at h2
        omega
      obtain ⟨d0, h0, h1, h2, h3, -⟩ := textRules_get hF hp (List.getElem?_eq_getElem hk)
      rw [h0] at hd'
      have ok := link_ok hr C false (litTok ds ds[k]) (litTok_plain (hp _ (List.getElem_mem hk)))
      rw [← h1] at ok
      have he : { d0 with hasMacroRef := m (k + 1) } = d.plain := by simpa using hd'
      have ho : d.plain.ope = d0.ope := by rw [← he]
      refine .inr ⟨?_, .of_plain (quiet_bare _ _) _ ?_, ?_⟩
      · show d.plain.isMacro = false
        rw [← he]; exact h2
      · show d.plain.ope.Ok _
        rw [ho]; exact ok.ok
      · rw [← envFree_plain]
        show envFree _ d.plain.ope = true
        rw [ho]; exact ok.free
  have hok : ∀ (r : Nat) (d : Def), C.rules[r]? = some d → d.ope.Ok (quietLg C false) := by
    intro r d hd
    rw [hrules] at hd
    rcases key r d hd with ⟨_, _, h⟩ | ⟨_, h, _⟩ <;> exact h
  have hws : ∀ w, C.ws = some w → w.Ok (quietLg C false) ∧ envFree C.rules w = true := by
    intro w hw
    rw [← hC] at hw
    have hw : ((ruleNamed (allOf ds) whitespaceName).bind fun r => (rs[r]?).map fun d => Ope.ws (.ign d.ope)) = some w := hw
    cases hn : ruleNamed (allOf ds) whitespaceName with
    | none => rw [hn] at hw; cases hw
    | some q =>
      rw [hn] at hw
      simp only [Option.bind_some] at hw
      cases hq : rs[q]? with
      | none => rw [hq] at hw; cases hw
      | some d =>
        rw [hq] at hw
        cases hw
        rcases key q d hq with ⟨h1, -, -⟩ | ⟨_, h, h'⟩
        · exfalso
          cases hr0 : ruleOf ds whitespaceName with
          | none => rw [ruleNamed_none (by decide +kernel) hr0] at hn; cases hn
          | some rd =>
            obtain ⟨k, h3, h4⟩ := ruleNamed_of (by decide +kernel) hr0
            rw [hn] at h3
            cases h3
            obtain ⟨d', h5, h6⟩ := hr k (List.getElem?_eq_some_iff.1 h4).1
            rw [List.getElem?_map, hq] at h5
            cases h5
            have h6 : d.isMacro = false := h6
            rw [h6] at h1; cases h1
        · rw [hrules]; exact ⟨h, h'⟩
  refine ⟨⟨fun r d hd _ _ => (hok r d hd).noPrec, fun _ r d hd => (hok r d hd).noPrec, fun w hw => (hws w hw).1.noPrec, ?_⟩, hs.slots,
    fun r d hd => .inl (hok r d hd), ?_, ?_, hws, hs.slotInj⟩
  · rw [← hC]; exact hu
  · intro r d hd hm
    refine ⟨?_, hok r d hd⟩
    rw [hrules] at hd
    rcases key r d hd with ⟨_, h, _⟩ | ⟨h, _⟩
    · exact h
    · rw [hm] at h; cases h
  · intro r d hd hm _
    rw [hrules] at hd ⊢
    rcases key r d hd with ⟨h, _⟩ | ⟨_, _, h⟩
    · rw [hm] at h; cases h
    · exact h

end Verif.Meta
