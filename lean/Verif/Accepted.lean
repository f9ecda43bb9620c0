import Verif.LeftRec
import Verif.Loaded
/-!
# Grammars accepted by the loader's checks are well-formed

From the verdicts of the loader's analyses (nullability, left recursion, infinite loops) a certificate is built.
-/

namespace Verif
open CharClass

variable {V : Type}

/-- One node, as written in a grammar without annotations: texts are UTF-8, classes ignoring case do not straddle cases, no
sequence gets a keyword guard, captures only without packrat parsing; when white space is skipped automatically (`ws`), literals
and token boundaries are not empty. -/
def tameNode (rs : List Def) (t : Nat → Bool) (ws packrat : Bool) : Ope → Bool
  | .seq es kw => kw.isNone && noKw rs es
  | .cho _ _ fs => fs.isEmpty
  | .rep e mn mx sp => sp.isNone && spanOkB e mn mx
  | .dict words _ => words.all isText
  | .lit s _ => isText s && (!ws || !s.isEmpty)
  | .cls c => Cls.uniform c
  | .cap _ _ => !packrat
  | .tok e => !ws || !cbe t e
  | _ => true

mutual
/-- The rules an expression evaluated in mode `m` calls, with their modes. -/
def Ope.calls (m : Mode) : Ope → List (Nat × Mode)
  | .seq es _ => Ope.callsL m es
  | .cho es _ _ => Ope.callsL m es
  | .rep e _ _ _ => e.calls m
  | .and_ e => e.calls m
  | .not_ e => e.calls m
  | .capScope e => e.calls m
  | .cap _ e => e.calls m
  | .tok e => e.calls { m with tok := true }
  | .ign e => e.calls m
  | .ref r _ _ => [(r, m)]
  | _ => []

def Ope.callsL (m : Mode) : List Ope → List (Nat × Mode)
  | [] => []
  | e :: es => e.calls m ++ Ope.callsL m es
end

section
variable {rs : List Def} {z : Ope → Bool} {t : Nat → Bool} {C : Cert} {cfg : Cfg V} {ws packrat : Bool}

/-- The certificate and the analysis agree on which one-character operators may match nothing. -/
def ZeroOk (C : Cert) (z : Ope → Bool) : Prop :=
  (∀ c, C.nul true (.cls c) = true → z (.cls c) = true) ∧ ∀ c, C.nul true (.chr c) = true → z (.chr c) = true

mutual
theorem nul_clean (hn : ∀ r, C.null r = t r) (hz : ZeroOk C z) {p : Bool} : ∀ (e : Ope), e.every (cleanNode z t) = true →
    C.nul p e = true → cbe t e = true
  | .seq es _, hc, h => by
    simp only [Ope.every, Bool.and_eq_true] at hc; simp only [Cert.nul, cbe] at h ⊢; exact nulAll_clean hn hz es hc.2 h
  | .cho es _ _, hc, h => by
    simp only [Ope.every, Bool.and_eq_true] at hc; simp only [Cert.nul, cbe] at h ⊢; exact nulAny_clean hn hz es hc.2 h
  | .rep e mn _ _, hc, h => by
    simp only [Ope.every, Bool.and_eq_true, cleanNode, Bool.or_eq_true] at hc
    simp only [Cert.nul, cbe, Bool.or_eq_true] at h ⊢
    rcases h with h | h
    · exact h
    · rcases hc.1 with k | k
      · exact k
      · rw [nul_clean hn hz e hc.2 h] at k; cases k
  | .and_ e, hc, h => rfl
  | .not_ e, hc, h => rfl
  | .dict .., _, h => by simp [Cert.nul] at h
  | .lit .., _, h => h
  | .cls c, hc, h => by
    simp only [Ope.every, cleanNode] at hc
    rw [hz.1 c h] at hc; cases hc
  | .chr c, hc, h => by
    simp only [Ope.every, cleanNode] at hc
    rw [hz.2 c h] at hc; cases hc
  | .dot, _, h => by simp [Cert.nul] at h
  | .capScope e, hc, h => by
    simp only [Ope.every, Bool.and_eq_true] at hc; simp only [Cert.nul, cbe] at h ⊢; exact nul_clean hn hz e hc.2 h
  | .cap _ e, hc, h => by
    simp only [Ope.every, Bool.and_eq_true] at hc; simp only [Cert.nul, cbe] at h ⊢; exact nul_clean hn hz e hc.2 h
  | .tok e, hc, h => by
    simp only [Ope.every, Bool.and_eq_true] at hc; simp only [Cert.nul, cbe] at h ⊢; exact nul_clean hn hz e hc.2 h
  | .ign e, hc, h => by
    simp only [Ope.every, Bool.and_eq_true] at hc; simp only [Cert.nul, cbe] at h ⊢; exact nul_clean hn hz e hc.2 h
  | .ref r _ _, _, h => by simp only [Cert.nul, cbe] at h ⊢; rw [← hn]; exact h
  | .usr _, hc, _ => by simp [Ope.every, cleanNode] at hc
  | .weak _, hc, _ => by simp [Ope.every, cleanNode] at hc
  | .param .., hc, _ => by simp [Ope.every, cleanNode] at hc
  | .ws _, hc, _ => by simp [Ope.every, cleanNode] at hc
  | .bref _, hc, _ => by simp [Ope.every, cleanNode] at hc
  | .prec .., hc, _ => by simp [Ope.every, cleanNode] at hc
  | .recov .., hc, _ => by simp [Ope.every, cleanNode] at hc
  | .cut, hc, _ => by simp [Ope.every, cleanNode] at hc
  | .null, hc, _ => by simp [Ope.every, cleanNode] at hc

theorem nulAll_clean (hn : ∀ r, C.null r = t r) (hz : ZeroOk C z) {p : Bool} : ∀ (es : List Ope),
    Ope.everyL (cleanNode z t) es = true → C.nulAll p es = true → cbeAll t es = true
  | [], _, _ => rfl
  | e :: es, hc, h => by
    simp only [Ope.everyL, Bool.and_eq_true] at hc
    simp only [Cert.nulAll, cbeAll, Bool.and_eq_true] at h ⊢
    exact ⟨nul_clean hn hz e hc.1 h.1, nulAll_clean hn hz es hc.2 h.2⟩

theorem nulAny_clean (hn : ∀ r, C.null r = t r) (hz : ZeroOk C z) {p : Bool} : ∀ (es : List Ope),
    Ope.everyL (cleanNode z t) es = true → C.nulAny p es = true → cbeAny t es = true
  | [], _, h => h
  | e :: es, hc, h => by
    simp only [Ope.everyL, Bool.and_eq_true] at hc
    simp only [Cert.nulAny, cbeAny, Bool.or_eq_true] at h ⊢
    exact h.imp (nul_clean hn hz e hc.1) (nulAny_clean hn hz es hc.2)
end

mutual
theorem lk_clean (hl : ∀ r, C.leak r = false) {p : Bool} : ∀ (e : Ope), e.every (cleanNode z t) = true → C.lk p e = false
  | .seq es _, hc => by
    simp only [Ope.every, Bool.and_eq_true] at hc; simp only [Cert.lk, Cert.lkAny]; exact lkAny_clean hl es hc.2
  | .cho es _ _, hc => rfl
  | .rep e _ _ _, hc => by
    simp only [Ope.every, Bool.and_eq_true] at hc; simp only [Cert.lk, Cert.lkAny]; exact lk_clean hl e hc.2
  | .and_ e, hc => by
    simp only [Ope.every, Bool.and_eq_true] at hc; simp only [Cert.lk, Cert.lkAny]; exact lk_clean hl e hc.2
  | .not_ e, hc => by
    simp only [Ope.every, Bool.and_eq_true] at hc; simp only [Cert.lk, Cert.lkAny]; exact lk_clean hl e hc.2
  | .capScope e, hc => by
    simp only [Ope.every, Bool.and_eq_true] at hc; simp only [Cert.lk, Cert.lkAny]; exact lk_clean hl e hc.2
  | .cap _ e, hc => by
    simp only [Ope.every, Bool.and_eq_true] at hc; simp only [Cert.lk, Cert.lkAny]; exact lk_clean hl e hc.2
  | .tok e, hc => by
    simp only [Ope.every, Bool.and_eq_true] at hc; simp only [Cert.lk, Cert.lkAny]; exact lk_clean hl e hc.2
  | .ign e, hc => by
    simp only [Ope.every, Bool.and_eq_true] at hc; simp only [Cert.lk, Cert.lkAny]; exact lk_clean hl e hc.2
  | .dict .., hc => rfl
  | .lit .., hc => rfl
  | .cls _, hc => rfl
  | .chr _, hc => rfl
  | .dot, hc => rfl
  | .ref r nm as, hc => by simp only [Cert.lk, hl]
  | .usr _, hc => by simp [Ope.every, cleanNode] at hc
  | .weak _, hc => by simp [Ope.every, cleanNode] at hc
  | .param .., hc => by simp [Ope.every, cleanNode] at hc
  | .ws _, hc => by simp [Ope.every, cleanNode] at hc
  | .bref _, hc => by simp [Ope.every, cleanNode] at hc
  | .prec .., hc => by simp [Ope.every, cleanNode] at hc
  | .recov .., hc => by simp [Ope.every, cleanNode] at hc
  | .cut, hc => by simp [Ope.every, cleanNode] at hc
  | .null, hc => by simp [Ope.every, cleanNode] at hc

theorem lkAny_clean (hl : ∀ r, C.leak r = false) {p : Bool} : ∀ (es : List Ope), Ope.everyL (cleanNode z t) es = true → C.lkAny p es = false
  | [], _ => rfl
  | e :: es, hc => by
    simp only [Ope.everyL, Bool.and_eq_true] at hc
    simp only [Cert.lk, Cert.lkAny, lk_clean hl e hc.1, lkAny_clean hl es hc.2]; rfl
end

mutual
theorem usesEnv_clean (hm : ∀ (r : Nat) (d : Def), cfg.rules[r]? = some d → d.isMacro = false) : ∀ (e : Ope), e.every (cleanNode z t) = true → usesEnv cfg e = false
  | .seq es _, hc => by
    simp only [Ope.every, Bool.and_eq_true] at hc; simp only [usesEnv, usesEnvList]; exact usesEnvL_clean hm es hc.2
  | .cho es _ _, hc => by
    simp only [Ope.every, Bool.and_eq_true] at hc; simp only [usesEnv, usesEnvList]; exact usesEnvL_clean hm es hc.2
  | .rep e _ _ _, hc => by
    simp only [Ope.every, Bool.and_eq_true] at hc; simp only [usesEnv, usesEnvList]; exact usesEnv_clean hm e hc.2
  | .and_ e, hc => by
    simp only [Ope.every, Bool.and_eq_true] at hc; simp only [usesEnv, usesEnvList]; exact usesEnv_clean hm e hc.2
  | .not_ e, hc => by
    simp only [Ope.every, Bool.and_eq_true] at hc; simp only [usesEnv, usesEnvList]; exact usesEnv_clean hm e hc.2
  | .capScope e, hc => by
    simp only [Ope.every, Bool.and_eq_true] at hc; simp only [usesEnv, usesEnvList]; exact usesEnv_clean hm e hc.2
  | .cap _ e, hc => by
    simp only [Ope.every, Bool.and_eq_true] at hc; simp only [usesEnv, usesEnvList]; exact usesEnv_clean hm e hc.2
  | .tok e, hc => by
    simp only [Ope.every, Bool.and_eq_true] at hc; simp only [usesEnv, usesEnvList]; exact usesEnv_clean hm e hc.2
  | .ign e, hc => by
    simp only [Ope.every, Bool.and_eq_true] at hc; simp only [usesEnv, usesEnvList]; exact usesEnv_clean hm e hc.2
  | .dict .., hc => rfl
  | .lit .., hc => rfl
  | .cls _, hc => rfl
  | .chr _, hc => rfl
  | .dot, hc => rfl
  | .ref r nm as, hc => by
    simp only [usesEnv]
    cases hd : cfg.rules[r]? with
    | none => rfl
    | some d => simp only [Option.map_some, Option.getD_some, hm r d hd]
  | .usr _, hc => by simp [Ope.every, cleanNode] at hc
  | .weak _, hc => by simp [Ope.every, cleanNode] at hc
  | .param .., hc => by simp [Ope.every, cleanNode] at hc
  | .ws _, hc => by simp [Ope.every, cleanNode] at hc
  | .bref _, hc => by simp [Ope.every, cleanNode] at hc
  | .prec .., hc => by simp [Ope.every, cleanNode] at hc
  | .recov .., hc => by simp [Ope.every, cleanNode] at hc
  | .cut, hc => by simp [Ope.every, cleanNode] at hc
  | .null, hc => by simp [Ope.every, cleanNode] at hc

theorem usesEnvL_clean (hm : ∀ (r : Nat) (d : Def), cfg.rules[r]? = some d → d.isMacro = false) : ∀ (es : List Ope), Ope.everyL (cleanNode z t) es = true → usesEnvList cfg es = false
  | [], _ => rfl
  | e :: es, hc => by
    simp only [Ope.everyL, Bool.and_eq_true] at hc
    simp only [usesEnv, usesEnvList, usesEnv_clean hm e hc.1, usesEnvL_clean hm es hc.2]; rfl
end

mutual
theorem noPrec_clean  : ∀ (e : Ope), e.every (cleanNode z t) = true → e.noPrec = true
  | .seq es _, hc => by
    simp only [Ope.every, Bool.and_eq_true] at hc; simp only [Ope.noPrec, Ope.noPrecList]; exact noPrecL_clean  es hc.2
  | .cho es _ _, hc => by
    simp only [Ope.every, Bool.and_eq_true] at hc; simp only [Ope.noPrec, Ope.noPrecList]; exact noPrecL_clean  es hc.2
  | .rep e _ _ _, hc => by
    simp only [Ope.every, Bool.and_eq_true] at hc; simp only [Ope.noPrec, Ope.noPrecList]; exact noPrec_clean  e hc.2
  | .and_ e, hc => by
    simp only [Ope.every, Bool.and_eq_true] at hc; simp only [Ope.noPrec, Ope.noPrecList]; exact noPrec_clean  e hc.2
  | .not_ e, hc => by
    simp only [Ope.every, Bool.and_eq_true] at hc; simp only [Ope.noPrec, Ope.noPrecList]; exact noPrec_clean  e hc.2
  | .capScope e, hc => by
    simp only [Ope.every, Bool.and_eq_true] at hc; simp only [Ope.noPrec, Ope.noPrecList]; exact noPrec_clean  e hc.2
  | .cap _ e, hc => by
    simp only [Ope.every, Bool.and_eq_true] at hc; simp only [Ope.noPrec, Ope.noPrecList]; exact noPrec_clean  e hc.2
  | .tok e, hc => by
    simp only [Ope.every, Bool.and_eq_true] at hc; simp only [Ope.noPrec, Ope.noPrecList]; exact noPrec_clean  e hc.2
  | .ign e, hc => by
    simp only [Ope.every, Bool.and_eq_true] at hc; simp only [Ope.noPrec, Ope.noPrecList]; exact noPrec_clean  e hc.2
  | .dict .., hc => rfl
  | .lit .., hc => rfl
  | .cls _, hc => rfl
  | .chr _, hc => rfl
  | .dot, hc => rfl
  | .ref r nm as, hc => by
    simp only [Ope.every, cleanNode, List.isEmpty_iff] at hc; subst hc; rfl
  | .usr _, hc => by simp [Ope.every, cleanNode] at hc
  | .weak _, hc => by simp [Ope.every, cleanNode] at hc
  | .param .., hc => by simp [Ope.every, cleanNode] at hc
  | .ws _, hc => by simp [Ope.every, cleanNode] at hc
  | .bref _, hc => by simp [Ope.every, cleanNode] at hc
  | .prec .., hc => by simp [Ope.every, cleanNode] at hc
  | .recov .., hc => by simp [Ope.every, cleanNode] at hc
  | .cut, hc => by simp [Ope.every, cleanNode] at hc
  | .null, hc => by simp [Ope.every, cleanNode] at hc

theorem noPrecL_clean  : ∀ (es : List Ope), Ope.everyL (cleanNode z t) es = true → Ope.noPrecList es = true
  | [], _ => rfl
  | e :: es, hc => by
    simp only [Ope.everyL, Bool.and_eq_true] at hc
    simp only [Ope.noPrec, Ope.noPrecList, noPrec_clean  e hc.1, noPrecL_clean  es hc.2]; rfl
end

mutual
theorem noWsO_clean  : ∀ (e : Ope), e.every (cleanNode z t) = true → e.noWsO = true
  | .seq es _, hc => by
    simp only [Ope.every, Bool.and_eq_true] at hc; simp only [Ope.noWsO, Ope.noWsL]; exact noWsL_clean  es hc.2
  | .cho es _ _, hc => by
    simp only [Ope.every, Bool.and_eq_true] at hc; simp only [Ope.noWsO, Ope.noWsL]; exact noWsL_clean  es hc.2
  | .rep e _ _ _, hc => by
    simp only [Ope.every, Bool.and_eq_true] at hc; simp only [Ope.noWsO, Ope.noWsL]; exact noWsO_clean  e hc.2
  | .and_ e, hc => by
    simp only [Ope.every, Bool.and_eq_true] at hc; simp only [Ope.noWsO, Ope.noWsL]; exact noWsO_clean  e hc.2
  | .not_ e, hc => by
    simp only [Ope.every, Bool.and_eq_true] at hc; simp only [Ope.noWsO, Ope.noWsL]; exact noWsO_clean  e hc.2
  | .capScope e, hc => by
    simp only [Ope.every, Bool.and_eq_true] at hc; simp only [Ope.noWsO, Ope.noWsL]; exact noWsO_clean  e hc.2
  | .cap _ e, hc => by
    simp only [Ope.every, Bool.and_eq_true] at hc; simp only [Ope.noWsO, Ope.noWsL]; exact noWsO_clean  e hc.2
  | .tok e, hc => by
    simp only [Ope.every, Bool.and_eq_true] at hc; simp only [Ope.noWsO, Ope.noWsL]; exact noWsO_clean  e hc.2
  | .ign e, hc => by
    simp only [Ope.every, Bool.and_eq_true] at hc; simp only [Ope.noWsO, Ope.noWsL]; exact noWsO_clean  e hc.2
  | .dict .., hc => rfl
  | .lit .., hc => rfl
  | .cls _, hc => rfl
  | .chr _, hc => rfl
  | .dot, hc => rfl
  | .ref r nm as, hc => rfl
  | .usr _, hc => by simp [Ope.every, cleanNode] at hc
  | .weak _, hc => by simp [Ope.every, cleanNode] at hc
  | .param .., hc => by simp [Ope.every, cleanNode] at hc
  | .ws _, hc => by simp [Ope.every, cleanNode] at hc
  | .bref _, hc => by simp [Ope.every, cleanNode] at hc
  | .prec .., hc => by simp [Ope.every, cleanNode] at hc
  | .recov .., hc => by simp [Ope.every, cleanNode] at hc
  | .cut, hc => by simp [Ope.every, cleanNode] at hc
  | .null, hc => by simp [Ope.every, cleanNode] at hc

theorem noWsL_clean  : ∀ (es : List Ope), Ope.everyL (cleanNode z t) es = true → Ope.noWsL es = true
  | [], _ => rfl
  | e :: es, hc => by
    simp only [Ope.everyL, Bool.and_eq_true] at hc
    simp only [Ope.noWsO, Ope.noWsL, noWsO_clean  e hc.1, noWsL_clean  es hc.2]; rfl
end

mutual
theorem bare_tame  : ∀ (e : Ope), e.every (cleanNode z t) = true → e.every (tameNode rs t ws packrat) = true → e.bare = true
  | .seq es _, hc, ht => by
    simp only [Ope.every, Bool.and_eq_true, tameNode] at hc ht; simp only [Ope.bare, Bool.and_eq_true]; exact ⟨ht.1.1, bareL_tame es hc.2 ht.2⟩
  | .cho es _ _, hc, ht => by
    simp only [Ope.every, Bool.and_eq_true, tameNode] at hc ht; simp only [Ope.bare, Bool.and_eq_true]; exact ⟨ht.1, bareL_tame es hc.2 ht.2⟩
  | .rep e _ _ _, hc, ht => by
    simp only [Ope.every, Bool.and_eq_true, tameNode] at hc ht; simp only [Ope.bare, Bool.and_eq_true]; exact ⟨ht.1.1, bare_tame e hc.2 ht.2⟩
  | .and_ e, hc, ht => by
    simp only [Ope.every, Bool.and_eq_true] at hc ht; simp only [Ope.bare, Ope.bareL]; exact bare_tame  e hc.2 ht.2
  | .not_ e, hc, ht => by
    simp only [Ope.every, Bool.and_eq_true] at hc ht; simp only [Ope.bare, Ope.bareL]; exact bare_tame  e hc.2 ht.2
  | .capScope e, hc, ht => by
    simp only [Ope.every, Bool.and_eq_true] at hc ht; simp only [Ope.bare, Ope.bareL]; exact bare_tame  e hc.2 ht.2
  | .cap _ e, hc, ht => by
    simp only [Ope.every, Bool.and_eq_true] at hc ht; simp only [Ope.bare, Ope.bareL]; exact bare_tame  e hc.2 ht.2
  | .tok e, hc, ht => by
    simp only [Ope.every, Bool.and_eq_true] at hc ht; simp only [Ope.bare, Ope.bareL]; exact bare_tame  e hc.2 ht.2
  | .ign e, hc, ht => by
    simp only [Ope.every, Bool.and_eq_true] at hc ht; simp only [Ope.bare, Ope.bareL]; exact bare_tame  e hc.2 ht.2
  | .dict .., hc, ht => rfl
  | .lit .., hc, ht => rfl
  | .cls _, hc, ht => rfl
  | .chr _, hc, ht => rfl
  | .dot, hc, ht => rfl
  | .ref r nm as, hc, ht => by
    simp only [Ope.every, cleanNode, List.isEmpty_iff] at hc; subst hc; rfl
  | .usr _, hc, _ => by simp [Ope.every, cleanNode] at hc
  | .weak _, hc, _ => by simp [Ope.every, cleanNode] at hc
  | .param .., hc, _ => by simp [Ope.every, cleanNode] at hc
  | .ws _, hc, _ => by simp [Ope.every, cleanNode] at hc
  | .bref _, hc, _ => by simp [Ope.every, cleanNode] at hc
  | .prec .., hc, _ => by simp [Ope.every, cleanNode] at hc
  | .recov .., hc, _ => by simp [Ope.every, cleanNode] at hc
  | .cut, hc, _ => by simp [Ope.every, cleanNode] at hc
  | .null, hc, _ => by simp [Ope.every, cleanNode] at hc

theorem bareL_tame  : ∀ (es : List Ope), Ope.everyL (cleanNode z t) es = true → Ope.everyL (tameNode rs t ws packrat) es = true → Ope.bareL es = true
  | [], _, _ => rfl
  | e :: es, hc, ht => by
    simp only [Ope.everyL, Bool.and_eq_true] at hc ht
    simp only [Ope.bare, Ope.bareL, bare_tame  e hc.1 ht.1, bareL_tame  es hc.2 ht.2]; rfl
end

mutual
theorem lits_tame  : ∀ (e : Ope), e.every (cleanNode z t) = true → e.every (tameNode rs t ws packrat) = true → e.litsO = true
  | .seq es _, hc, ht => by
    simp only [Ope.every, Bool.and_eq_true] at hc ht; simp only [Ope.litsO, Ope.litsL]; exact litsL_tame  es hc.2 ht.2
  | .cho es _ _, hc, ht => by
    simp only [Ope.every, Bool.and_eq_true] at hc ht; simp only [Ope.litsO, Ope.litsL]; exact litsL_tame  es hc.2 ht.2
  | .rep e _ _ _, hc, ht => by
    simp only [Ope.every, Bool.and_eq_true] at hc ht; simp only [Ope.litsO, Ope.litsL]; exact lits_tame  e hc.2 ht.2
  | .and_ e, hc, ht => by
    simp only [Ope.every, Bool.and_eq_true] at hc ht; simp only [Ope.litsO, Ope.litsL]; exact lits_tame  e hc.2 ht.2
  | .not_ e, hc, ht => by
    simp only [Ope.every, Bool.and_eq_true] at hc ht; simp only [Ope.litsO, Ope.litsL]; exact lits_tame  e hc.2 ht.2
  | .capScope e, hc, ht => by
    simp only [Ope.every, Bool.and_eq_true] at hc ht; simp only [Ope.litsO, Ope.litsL]; exact lits_tame  e hc.2 ht.2
  | .cap _ e, hc, ht => by
    simp only [Ope.every, Bool.and_eq_true] at hc ht; simp only [Ope.litsO, Ope.litsL]; exact lits_tame  e hc.2 ht.2
  | .tok e, hc, ht => by
    simp only [Ope.every, Bool.and_eq_true] at hc ht; simp only [Ope.litsO, Ope.litsL]; exact lits_tame  e hc.2 ht.2
  | .ign e, hc, ht => by
    simp only [Ope.every, Bool.and_eq_true] at hc ht; simp only [Ope.litsO, Ope.litsL]; exact lits_tame  e hc.2 ht.2
  | .dict .., hc, ht => by simpa only [Ope.every, tameNode, Ope.litsO] using ht
  | .lit .., hc, ht => by
    simp only [Ope.every, tameNode, Bool.and_eq_true] at ht; exact ht.1
  | .cls _, hc, ht => rfl
  | .chr _, hc, ht => rfl
  | .dot, hc, ht => rfl
  | .ref r nm as, hc, ht => by
    simp only [Ope.every, cleanNode, List.isEmpty_iff] at hc; subst hc; rfl
  | .usr _, hc, _ => by simp [Ope.every, cleanNode] at hc
  | .weak _, hc, _ => by simp [Ope.every, cleanNode] at hc
  | .param .., hc, _ => by simp [Ope.every, cleanNode] at hc
  | .ws _, hc, _ => by simp [Ope.every, cleanNode] at hc
  | .bref _, hc, _ => by simp [Ope.every, cleanNode] at hc
  | .prec .., hc, _ => by simp [Ope.every, cleanNode] at hc
  | .recov .., hc, _ => by simp [Ope.every, cleanNode] at hc
  | .cut, hc, _ => by simp [Ope.every, cleanNode] at hc
  | .null, hc, _ => by simp [Ope.every, cleanNode] at hc

theorem litsL_tame  : ∀ (es : List Ope), Ope.everyL (cleanNode z t) es = true → Ope.everyL (tameNode rs t ws packrat) es = true → Ope.litsL es = true
  | [], _, _ => rfl
  | e :: es, hc, ht => by
    simp only [Ope.everyL, Bool.and_eq_true] at hc ht
    simp only [Ope.litsO, Ope.litsL, lits_tame  e hc.1 ht.1, litsL_tame  es hc.2 ht.2]; rfl
end

mutual
theorem safe_tame {F : FsCert} (hs : ∀ r, F.safe r = true) (hq : ∀ r, F.quiet r = true) (hn : ∀ r, C.null r = t r) (hz : ZeroOk C z) : ∀ (e : Ope), e.every (cleanNode z t) = true → e.every (tameNode rs t ws packrat) = true → F.safeO C ws e = true
  | .seq es _, hc, ht => by
    simp only [Ope.every, Bool.and_eq_true] at hc ht; simp only [FsCert.safeO]; exact (safeL_tame hs hq hn hz es hc.2 ht.2).2
  | .cho es _ _, hc, ht => by
    simp only [Ope.every, Bool.and_eq_true] at hc ht; simp only [FsCert.safeO]; exact (safeL_tame hs hq hn hz es hc.2 ht.2).1
  | .rep e _ _ _, hc, ht => by
    simp only [Ope.every, Bool.and_eq_true] at hc ht; simp only [FsCert.safeO, FsCert.safeAll, FsCert.safeSeq]; exact safe_tame hs hq hn hz e hc.2 ht.2
  | .and_ e, hc, ht => by
    simp only [Ope.every, Bool.and_eq_true] at hc; simp only [FsCert.safeO, lk_clean (C := F.q) (fun r => by simp [FsCert.q, hq]) e hc.2]; rfl
  | .not_ e, hc, ht => by
    simp only [Ope.every, Bool.and_eq_true] at hc; simp only [FsCert.safeO, lk_clean (C := F.q) (fun r => by simp [FsCert.q, hq]) e hc.2]; rfl
  | .capScope e, hc, ht => by
    simp only [Ope.every, Bool.and_eq_true] at hc ht; simp only [FsCert.safeO, FsCert.safeAll, FsCert.safeSeq]; exact safe_tame hs hq hn hz e hc.2 ht.2
  | .cap _ e, hc, ht => by
    simp only [Ope.every, Bool.and_eq_true] at hc ht; simp only [FsCert.safeO, FsCert.safeAll, FsCert.safeSeq]; exact safe_tame hs hq hn hz e hc.2 ht.2
  | .tok e, hc, ht => by
    simp only [Ope.every, Bool.and_eq_true, tameNode, Bool.or_eq_true, Bool.not_eq_true'] at hc ht
    simp only [FsCert.safeO, Bool.and_eq_true, Bool.or_eq_true, Bool.not_eq_true']
    refine ⟨safe_tame hs hq hn hz e hc.2 ht.2, ht.1.symm.imp (fun h => ?_) id⟩
    rw [Bool.eq_false_iff] at h ⊢
    exact fun hh => h (nul_clean hn hz e hc.2 hh)
  | .ign e, hc, ht => by
    simp only [Ope.every, Bool.and_eq_true] at hc ht; simp only [FsCert.safeO, FsCert.safeAll, FsCert.safeSeq]; exact safe_tame hs hq hn hz e hc.2 ht.2
  | .dict .., hc, ht => rfl
  | .lit .., hc, ht => by
    simp only [Ope.every, tameNode, Bool.and_eq_true, Bool.or_eq_true] at ht; simp only [FsCert.safeO, Bool.or_eq_true]; exact ht.2.symm
  | .cls _, hc, ht => by simpa only [Ope.every, tameNode, FsCert.safeO] using ht
  | .chr _, hc, ht => rfl
  | .dot, hc, ht => rfl
  | .ref r nm as, hc, ht => hs r
  | .usr _, hc, _ => by simp [Ope.every, cleanNode] at hc
  | .weak _, hc, _ => by simp [Ope.every, cleanNode] at hc
  | .param .., hc, _ => by simp [Ope.every, cleanNode] at hc
  | .ws _, hc, _ => by simp [Ope.every, cleanNode] at hc
  | .bref _, hc, _ => by simp [Ope.every, cleanNode] at hc
  | .prec .., hc, _ => by simp [Ope.every, cleanNode] at hc
  | .recov .., hc, _ => by simp [Ope.every, cleanNode] at hc
  | .cut, hc, _ => by simp [Ope.every, cleanNode] at hc
  | .null, hc, _ => by simp [Ope.every, cleanNode] at hc

theorem safeL_tame {F : FsCert} (hs : ∀ r, F.safe r = true) (hq : ∀ r, F.quiet r = true) (hn : ∀ r, C.null r = t r) (hz : ZeroOk C z) : ∀ (es : List Ope), Ope.everyL (cleanNode z t) es = true → Ope.everyL (tameNode rs t ws packrat) es = true → F.safeAll C ws es = true ∧ F.safeSeq C ws es = true
  | [], _, _ => ⟨rfl, rfl⟩
  | e :: es, hc, ht => by
    simp only [Ope.everyL, Bool.and_eq_true] at hc ht
    have h1 := safe_tame hs hq hn hz e hc.1 ht.1
    obtain ⟨h2, h3⟩ := safeL_tame hs hq hn hz es hc.2 ht.2
    simp only [FsCert.safeAll, FsCert.safeSeq, h1, h2, h3, Bool.or_true, Bool.and_self, and_self]
end

theorem safeAll_mem {F : FsCert} {es : List Ope} {e : Ope} (h : F.safeAll C ws es = true) (he : e ∈ es) : F.safeO C ws e = true := by
  induction es with
  | nil => cases he
  | cons a es ih =>
    simp only [FsCert.safeAll, Bool.and_eq_true] at h
    rcases List.mem_cons.mp he with rfl | he
    · exact h.1
    · exact ih h.2 he

mutual
theorem ok_tame {F : FsCert} (hs : ∀ r, F.safe r = true) (hq : ∀ r, F.quiet r = true) (hn : ∀ r, C.null r = t r) (hz : ZeroOk C z) : ∀ (e : Ope), e.every (cleanNode z t) = true → e.every (tameNode rs t ws packrat) = true → F.okO C ws (noKw rs) e = true
  | .seq es _, hc, ht => by
    simp only [Ope.every, Bool.and_eq_true, tameNode] at hc ht; simp only [FsCert.okO, Bool.and_eq_true]; exact ⟨ht.1.2, okL_tame hs hq hn hz es hc.2 ht.2⟩
  | .cho es _ _, hc, ht => by
    simp only [Ope.every, Bool.and_eq_true] at hc ht
    simp only [FsCert.okO, Bool.and_eq_true, List.all_eq_true, Bool.or_eq_true]
    refine ⟨fun e he => .inr ?_, okL_tame hs hq hn hz es hc.2 ht.2⟩
    exact safeAll_mem (safeL_tame hs hq hn hz es hc.2 ht.2).1 he
  | .rep e _ _ _, hc, ht => by
    simp only [Ope.every, Bool.and_eq_true, tameNode] at hc ht; simp only [FsCert.okO, Bool.and_eq_true]; exact ⟨ht.1.2, ok_tame hs hq hn hz e hc.2 ht.2⟩
  | .and_ e, hc, ht => by
    simp only [Ope.every, Bool.and_eq_true] at hc ht; simp only [FsCert.okO, FsCert.okL]; exact ok_tame hs hq hn hz e hc.2 ht.2
  | .not_ e, hc, ht => by
    simp only [Ope.every, Bool.and_eq_true] at hc ht; simp only [FsCert.okO, FsCert.okL]; exact ok_tame hs hq hn hz e hc.2 ht.2
  | .capScope e, hc, ht => by
    simp only [Ope.every, Bool.and_eq_true] at hc ht; simp only [FsCert.okO, FsCert.okL]; exact ok_tame hs hq hn hz e hc.2 ht.2
  | .cap _ e, hc, ht => by
    simp only [Ope.every, Bool.and_eq_true] at hc ht; simp only [FsCert.okO, FsCert.okL]; exact ok_tame hs hq hn hz e hc.2 ht.2
  | .tok e, hc, ht => by
    simp only [Ope.every, Bool.and_eq_true] at hc ht; simp only [FsCert.okO, FsCert.okL]; exact ok_tame hs hq hn hz e hc.2 ht.2
  | .ign e, hc, ht => by
    simp only [Ope.every, Bool.and_eq_true] at hc ht; simp only [FsCert.okO, FsCert.okL]; exact ok_tame hs hq hn hz e hc.2 ht.2
  | .dict .., hc, ht => rfl
  | .lit .., hc, ht => rfl
  | .cls _, hc, ht => rfl
  | .chr _, hc, ht => rfl
  | .dot, hc, ht => rfl
  | .ref r nm as, hc, ht => rfl
  | .usr _, hc, _ => by simp [Ope.every, cleanNode] at hc
  | .weak _, hc, _ => by simp [Ope.every, cleanNode] at hc
  | .param .., hc, _ => by simp [Ope.every, cleanNode] at hc
  | .ws _, hc, _ => by simp [Ope.every, cleanNode] at hc
  | .bref _, hc, _ => by simp [Ope.every, cleanNode] at hc
  | .prec .., hc, _ => by simp [Ope.every, cleanNode] at hc
  | .recov .., hc, _ => by simp [Ope.every, cleanNode] at hc
  | .cut, hc, _ => by simp [Ope.every, cleanNode] at hc
  | .null, hc, _ => by simp [Ope.every, cleanNode] at hc

theorem okL_tame {F : FsCert} (hs : ∀ r, F.safe r = true) (hq : ∀ r, F.quiet r = true) (hn : ∀ r, C.null r = t r) (hz : ZeroOk C z) : ∀ (es : List Ope), Ope.everyL (cleanNode z t) es = true → Ope.everyL (tameNode rs t ws packrat) es = true → F.okL C ws (noKw rs) es = true
  | [], _, _ => rfl
  | e :: es, hc, ht => by
    simp only [Ope.everyL, Bool.and_eq_true] at hc ht
    simp only [FsCert.okO, FsCert.okL, ok_tame hs hq hn hz e hc.1 ht.1, okL_tame hs hq hn hz es hc.2 ht.2]; rfl
end

mutual
/-- What an expression calls exists. -/
theorem lefts_lt {rules : List Def} : ∀ (e : Ope), e.every (cleanNode z t) = true → e.every (namedNode rules) = true →
    ∀ q ∈ lefts t e, q < rules.length
  | .seq es _, hc, h, q, hq => by
    simp only [Ope.every, Bool.and_eq_true] at hc h; simp only [lefts] at hq; exact leftsSeq_lt es hc.2 h.2 q hq
  | .cho es _ _, hc, h, q, hq => by
    simp only [Ope.every, Bool.and_eq_true] at hc h; simp only [lefts] at hq; exact leftsCho_lt es hc.2 h.2 q hq
  | .rep e _ _ _, hc, h, q, hq => by
    simp only [Ope.every, Bool.and_eq_true] at hc h; simp only [lefts] at hq; exact lefts_lt e hc.2 h.2 q hq
  | .and_ e, hc, h, q, hq => by
    simp only [Ope.every, Bool.and_eq_true] at hc h; simp only [lefts] at hq; exact lefts_lt e hc.2 h.2 q hq
  | .not_ e, hc, h, q, hq => by
    simp only [Ope.every, Bool.and_eq_true] at hc h; simp only [lefts] at hq; exact lefts_lt e hc.2 h.2 q hq
  | .capScope e, hc, h, q, hq => by
    simp only [Ope.every, Bool.and_eq_true] at hc h; simp only [lefts] at hq; exact lefts_lt e hc.2 h.2 q hq
  | .cap _ e, hc, h, q, hq => by
    simp only [Ope.every, Bool.and_eq_true] at hc h; simp only [lefts] at hq; exact lefts_lt e hc.2 h.2 q hq
  | .tok e, hc, h, q, hq => by
    simp only [Ope.every, Bool.and_eq_true] at hc h; simp only [lefts] at hq; exact lefts_lt e hc.2 h.2 q hq
  | .ign e, hc, h, q, hq => by
    simp only [Ope.every, Bool.and_eq_true] at hc h; simp only [lefts] at hq; exact lefts_lt e hc.2 h.2 q hq
  | .dict .., _, _, q, hq => by cases hq
  | .lit .., _, _, q, hq => by cases hq
  | .cls _, _, _, q, hq => by cases hq
  | .chr _, _, _, q, hq => by cases hq
  | .dot, _, _, q, hq => by cases hq
  | .ref r nm as, _, h, q, hq => by
    simp only [Ope.every] at h
    obtain ⟨d, hd, -⟩ := named_ref h
    simp only [lefts, List.mem_singleton] at hq
    subst hq
    exact (List.getElem?_eq_some_iff.mp hd).1
  | .usr _, hc, _, _, _ => by simp [Ope.every, cleanNode] at hc
  | .weak _, hc, _, _, _ => by simp [Ope.every, cleanNode] at hc
  | .param .., hc, _, _, _ => by simp [Ope.every, cleanNode] at hc
  | .ws _, hc, _, _, _ => by simp [Ope.every, cleanNode] at hc
  | .bref _, hc, _, _, _ => by simp [Ope.every, cleanNode] at hc
  | .prec .., hc, _, _, _ => by simp [Ope.every, cleanNode] at hc
  | .recov .., hc, _, _, _ => by simp [Ope.every, cleanNode] at hc
  | .cut, hc, _, _, _ => by simp [Ope.every, cleanNode] at hc
  | .null, hc, _, _, _ => by simp [Ope.every, cleanNode] at hc

theorem leftsSeq_lt {rules : List Def} : ∀ (es : List Ope), Ope.everyL (cleanNode z t) es = true →
    Ope.everyL (namedNode rules) es = true → ∀ q ∈ leftsSeq t es, q < rules.length
  | [], _, _, q, hq => by cases hq
  | e :: es, hc, h, q, hq => by
    simp only [Ope.everyL, Bool.and_eq_true] at hc h
    rw [leftsSeq] at hq
    rcases List.mem_append.mp hq with hq | hq
    · exact lefts_lt e hc.1 h.1 q hq
    · split at hq
      · exact leftsSeq_lt es hc.2 h.2 q hq
      · cases hq

theorem leftsCho_lt {rules : List Def} : ∀ (es : List Ope), Ope.everyL (cleanNode z t) es = true →
    Ope.everyL (namedNode rules) es = true → ∀ q ∈ leftsCho t es, q < rules.length
  | [], _, _, q, hq => by cases hq
  | e :: es, hc, h, q, hq => by
    simp only [Ope.everyL, Bool.and_eq_true] at hc h
    rw [leftsCho] at hq
    rcases List.mem_append.mp hq with hq | hq
    · exact lefts_lt e hc.1 h.1 q hq
    · exact leftsCho_lt es hc.2 h.2 q hq
end

mutual
/-- The certificate test on an expression whose calls have modes and, at its start, ranks below `b`. -/
theorem wf_clean (hn : ∀ r, C.null r = t r) (hz : ZeroOk C z) (hl : ∀ r, C.leak r = false)
    (hm : ∀ (r : Nat) (d : Def), cfg.rules[r]? = some d → d.isMacro = false ∧ d.isLR = false)
    (htop : ∀ r, r < cfg.rules.length → C.rank r < C.top) (hws : cfg.ws.isSome = true → ws = true) (hpk : cfg.packrat = true → packrat = true)
    (hcl : C.capless = false) :
    ∀ (e : Ope) (m : Mode) (b : Nat), e.every (cleanNode z t) = true → e.every (tameNode rs t ws packrat) = true →
      e.every (namedNode cfg.rules) = true → e.every (safeNode t) = true → (∀ q ∈ lefts t e, C.rank q < b) →
      (∀ x ∈ e.calls m, C.modes x.1 x.2 = true) → wf cfg C {} false m b e = true
  | .seq es _, m, b, hc, ht, hn', hs, hb, hcall => by
    simp only [Ope.every, Bool.and_eq_true] at hc ht hn' hs
    simp only [wf]
    exact wfSeq_clean hn hz hl hm htop hws hpk hcl es m b hc.2 ht.2 hn'.2 hs.2 hb hcall
  | .cho es l fs, m, b, hc, ht, hn', hs, hb, hcall => by
    simp only [Ope.every, Bool.and_eq_true, cleanNode] at hc ht hn' hs
    simp only [wf, Bool.and_eq_true, Bool.or_eq_true, lkAny_clean hl es hc.2]
    exact ⟨⟨hc.1.1, wfAll_clean hn hz hl hm htop hws hpk hcl es m b hc.2 ht.2 hn'.2 hs.2 hb hcall⟩, .inr rfl⟩
  | .rep e mn mx sp, m, b, hc, ht, hn', hs, hb, hcall => by
    simp only [Ope.every, Bool.and_eq_true] at hc ht hn' hs
    simp only [wf, Bool.and_eq_true, Bool.or_eq_true, Bool.not_eq_true']
    refine ⟨wf_clean hn hz hl hm htop hws hpk hcl e m b hc.2 ht.2 hn'.2 hs.2 hb hcall, ?_⟩
    cases mx with
    | some _ => exact .inr rfl
    | none =>
      left
      have h1 := hs.1
      simp only [safeNode, Bool.not_eq_true'] at h1
      rw [Bool.eq_false_iff] at h1 ⊢
      exact fun hh => h1 (nul_clean hn hz e hc.2 hh)
  | .and_ e, m, b, hc, ht, hn', hs, hb, hcall => by
    simp only [Ope.every, Bool.and_eq_true] at hc ht hn' hs
    simp only [wf]; exact wf_clean hn hz hl hm htop hws hpk hcl e m b hc.2 ht.2 hn'.2 hs.2 hb hcall
  | .not_ e, m, b, hc, ht, hn', hs, hb, hcall => by
    simp only [Ope.every, Bool.and_eq_true] at hc ht hn' hs
    simp only [wf]; exact wf_clean hn hz hl hm htop hws hpk hcl e m b hc.2 ht.2 hn'.2 hs.2 hb hcall
  | .capScope e, m, b, hc, ht, hn', hs, hb, hcall => by
    simp only [Ope.every, Bool.and_eq_true] at hc ht hn' hs
    simp only [wf]; exact wf_clean hn hz hl hm htop hws hpk hcl e m b hc.2 ht.2 hn'.2 hs.2 hb hcall
  | .ign e, m, b, hc, ht, hn', hs, hb, hcall => by
    simp only [Ope.every, Bool.and_eq_true] at hc ht hn' hs
    simp only [wf]; exact wf_clean hn hz hl hm htop hws hpk hcl e m b hc.2 ht.2 hn'.2 hs.2 hb hcall
  | .cap _ e, m, b, hc, ht, hn', hs, hb, hcall => by
    simp only [Ope.every, Bool.and_eq_true, tameNode] at hc ht hn' hs
    simp only [wf, Bool.and_eq_true]
    refine ⟨?_, wf_clean hn hz hl hm htop hws hpk hcl e m b hc.2 ht.2 hn'.2 hs.2 hb hcall⟩
    rw [hcl]
    refine ⟨?_, rfl⟩
    cases hp : cfg.packrat with
    | false => rfl
    | true => rw [hpk hp] at ht; exact ht.1
  | .tok e, m, b, hc, ht, hn', hs, hb, hcall => by
    simp only [Ope.every, Bool.and_eq_true, tameNode, Bool.or_eq_true, Bool.not_eq_true'] at hc ht hn' hs
    simp only [wf, Bool.and_eq_true, Bool.or_eq_true, Bool.not_eq_true']
    refine ⟨wf_clean hn hz hl hm htop hws hpk hcl e { m with tok := true } b hc.2 ht.2 hn'.2 hs.2 hb hcall, ?_⟩
    cases hw : cfg.ws with
    | none => right; simp [Cert.skipOk, hw]
    | some w =>
      left
      have h1 := ht.1.resolve_left (by rw [hws (by rw [hw]; rfl)]; simp)
      rw [Bool.eq_false_iff] at h1 ⊢
      exact fun hh => h1 (nul_clean hn hz e hc.2 hh)
  | .dict .., _, _, _, _, _, _, _, _ => rfl
  | .lit s _, m, b, hc, ht, _, _, _, _ => by
    simp only [Ope.every, tameNode, Bool.and_eq_true, Bool.or_eq_true] at ht
    simp only [wf, Bool.or_eq_true]
    cases hw : cfg.ws with
    | none => right; simp [Cert.skipOk, hw]
    | some w => left; exact ht.2.resolve_left (by rw [hws (by rw [hw]; rfl)]; simp)
  | .cls _, _, _, _, _, _, _, _, _ => rfl
  | .chr _, _, _, _, _, _, _, _, _ => rfl
  | .dot, _, _, _, _, _, _, _, _ => rfl
  | .ref r nm as, m, b, hc, ht, hn', hs, hb, hcall => by
    simp only [Ope.every] at hn'
    obtain ⟨d, hd, -⟩ := named_ref hn'
    have h1 := hm r d hd
    have h2 := hb r (by simp [lefts])
    have h3 := hcall (r, m) (by simp [Ope.calls])
    simp only [wf, hd, h1.1, h1.2, h3]
    simpa using h2
  | .usr _, _, _, hc, _, _, _, _, _ => by simp [Ope.every, cleanNode] at hc
  | .weak _, _, _, hc, _, _, _, _, _ => by simp [Ope.every, cleanNode] at hc
  | .param .., _, _, hc, _, _, _, _, _ => by simp [Ope.every, cleanNode] at hc
  | .ws _, _, _, hc, _, _, _, _, _ => by simp [Ope.every, cleanNode] at hc
  | .bref _, _, _, hc, _, _, _, _, _ => by simp [Ope.every, cleanNode] at hc
  | .prec .., _, _, hc, _, _, _, _, _ => by simp [Ope.every, cleanNode] at hc
  | .recov .., _, _, hc, _, _, _, _, _ => by simp [Ope.every, cleanNode] at hc
  | .cut, _, _, hc, _, _, _, _, _ => by simp [Ope.every, cleanNode] at hc
  | .null, _, _, hc, _, _, _, _, _ => by simp [Ope.every, cleanNode] at hc

theorem wfSeq_clean (hn : ∀ r, C.null r = t r) (hz : ZeroOk C z) (hl : ∀ r, C.leak r = false)
    (hm : ∀ (r : Nat) (d : Def), cfg.rules[r]? = some d → d.isMacro = false ∧ d.isLR = false)
    (htop : ∀ r, r < cfg.rules.length → C.rank r < C.top) (hws : cfg.ws.isSome = true → ws = true) (hpk : cfg.packrat = true → packrat = true)
    (hcl : C.capless = false) :
    ∀ (es : List Ope) (m : Mode) (b : Nat), Ope.everyL (cleanNode z t) es = true → Ope.everyL (tameNode rs t ws packrat) es = true →
      Ope.everyL (namedNode cfg.rules) es = true → Ope.everyL (safeNode t) es = true → (∀ q ∈ leftsSeq t es, C.rank q < b) →
      (∀ x ∈ Ope.callsL m es, C.modes x.1 x.2 = true) → wfSeq cfg C {} false m b es = true
  | [], _, _, _, _, _, _, _, _ => rfl
  | e :: es, m, b, hc, ht, hn', hs, hb, hcall => by
    simp only [Ope.everyL, Bool.and_eq_true] at hc ht hn' hs
    simp only [Ope.callsL] at hcall
    simp only [wfSeq, Bool.and_eq_true, Bool.or_eq_true, Bool.not_eq_true']
    refine ⟨⟨?_, ?_⟩, ?_⟩
    · exact wf_clean hn hz hl hm htop hws hpk hcl e m b hc.1 ht.1 hn'.1 hs.1 (fun q hq => hb q (by rw [leftsSeq]; exact List.mem_append_left _ hq))
        (fun x hx => hcall x (List.mem_append_left _ hx))
    · refine wfSeq_clean hn hz hl hm htop hws hpk hcl es m C.top hc.2 ht.2 hn'.2 hs.2 (fun q hq => htop q ?_) (fun x hx => hcall x (List.mem_append_right _ hx))
      exact leftsSeq_lt es hc.2 hn'.2 q hq
    · cases hb' : C.nul ({} : MCtx).null e with
      | false => exact .inl rfl
      | true =>
        right
        have h1 := nul_clean hn hz e hc.1 hb'
        refine wfSeq_clean hn hz hl hm htop hws hpk hcl es m b hc.2 ht.2 hn'.2 hs.2 (fun q hq => hb q ?_) (fun x hx => hcall x (List.mem_append_right _ hx))
        rw [leftsSeq, h1, if_pos rfl]
        exact List.mem_append_right _ hq

theorem wfAll_clean (hn : ∀ r, C.null r = t r) (hz : ZeroOk C z) (hl : ∀ r, C.leak r = false)
    (hm : ∀ (r : Nat) (d : Def), cfg.rules[r]? = some d → d.isMacro = false ∧ d.isLR = false)
    (htop : ∀ r, r < cfg.rules.length → C.rank r < C.top) (hws : cfg.ws.isSome = true → ws = true) (hpk : cfg.packrat = true → packrat = true)
    (hcl : C.capless = false) :
    ∀ (es : List Ope) (m : Mode) (b : Nat), Ope.everyL (cleanNode z t) es = true → Ope.everyL (tameNode rs t ws packrat) es = true →
      Ope.everyL (namedNode cfg.rules) es = true → Ope.everyL (safeNode t) es = true → (∀ q ∈ leftsCho t es, C.rank q < b) →
      (∀ x ∈ Ope.callsL m es, C.modes x.1 x.2 = true) → wfAll cfg C {} false m b es = true
  | [], _, _, _, _, _, _, _, _ => rfl
  | e :: es, m, b, hc, ht, hn', hs, hb, hcall => by
    simp only [Ope.everyL, Bool.and_eq_true] at hc ht hn' hs
    simp only [Ope.callsL] at hcall
    simp only [wfAll, Bool.and_eq_true]
    exact ⟨wf_clean hn hz hl hm htop hws hpk hcl e m b hc.1 ht.1 hn'.1 hs.1 (fun q hq => hb q (by rw [leftsCho]; exact List.mem_append_left _ hq))
        (fun x hx => hcall x (List.mem_append_left _ hx)),
      wfAll_clean hn hz hl hm htop hws hpk hcl es m b hc.2 ht.2 hn'.2 hs.2 (fun q hq => hb q (by rw [leftsCho]; exact List.mem_append_right _ hq))
        (fun x hx => hcall x (List.mem_append_right _ hx))⟩
end

end

mutual
theorem every_imp {p q : Ope → Bool} (h : ∀ e, p e = true → q e = true) : ∀ (e : Ope), e.every p = true → e.every q = true
  | .seq es _, k => by
    simp only [Ope.every, Bool.and_eq_true] at k ⊢; exact ⟨h _ k.1, everyL_imp h es k.2⟩
  | .cho es _ _, k => by
    simp only [Ope.every, Bool.and_eq_true] at k ⊢; exact ⟨h _ k.1, everyL_imp h es k.2⟩
  | .rep e _ _ _, k => by
    simp only [Ope.every, Bool.and_eq_true] at k ⊢; exact ⟨h _ k.1, every_imp h e k.2⟩
  | .and_ e, k => by
    simp only [Ope.every, Bool.and_eq_true] at k ⊢; exact ⟨h _ k.1, every_imp h e k.2⟩
  | .not_ e, k => by
    simp only [Ope.every, Bool.and_eq_true] at k ⊢; exact ⟨h _ k.1, every_imp h e k.2⟩
  | .capScope e, k => by
    simp only [Ope.every, Bool.and_eq_true] at k ⊢; exact ⟨h _ k.1, every_imp h e k.2⟩
  | .cap _ e, k => by
    simp only [Ope.every, Bool.and_eq_true] at k ⊢; exact ⟨h _ k.1, every_imp h e k.2⟩
  | .tok e, k => by
    simp only [Ope.every, Bool.and_eq_true] at k ⊢; exact ⟨h _ k.1, every_imp h e k.2⟩
  | .ign e, k => by
    simp only [Ope.every, Bool.and_eq_true] at k ⊢; exact ⟨h _ k.1, every_imp h e k.2⟩
  | .dict .., k => by simp only [Ope.every] at k ⊢; exact h _ k
  | .lit .., k => by simp only [Ope.every] at k ⊢; exact h _ k
  | .cls _, k => by simp only [Ope.every] at k ⊢; exact h _ k
  | .chr _, k => by simp only [Ope.every] at k ⊢; exact h _ k
  | .dot, k => by simp only [Ope.every] at k ⊢; exact h _ k
  | .ref .., k => by simp only [Ope.every] at k ⊢; exact h _ k
  | .usr _, k => by simp only [Ope.every] at k ⊢; exact h _ k
  | .weak _, k => by simp only [Ope.every] at k ⊢; exact h _ k
  | .param .., k => by simp only [Ope.every] at k ⊢; exact h _ k
  | .ws _, k => by simp only [Ope.every] at k ⊢; exact h _ k
  | .bref _, k => by simp only [Ope.every] at k ⊢; exact h _ k
  | .prec .., k => by simp only [Ope.every] at k ⊢; exact h _ k
  | .recov .., k => by simp only [Ope.every] at k ⊢; exact h _ k
  | .cut, k => by simp only [Ope.every] at k ⊢; exact h _ k
  | .null, k => by simp only [Ope.every] at k ⊢; exact h _ k

theorem everyL_imp {p q : Ope → Bool} (h : ∀ e, p e = true → q e = true) : ∀ (es : List Ope), Ope.everyL p es = true →
    Ope.everyL q es = true
  | [], _ => rfl
  | e :: es, k => by
    simp only [Ope.everyL, Bool.and_eq_true] at k ⊢; exact ⟨every_imp h e k.1, everyL_imp h es k.2⟩
end

/-! ## The certificate -/

open Classical in
/-- How many rules rule `r` may call at the position where it starts. -/
noncomputable def leftRank (rs : List Def) (t : Nat → Bool) (r : Nat) : Nat :=
  ((List.range rs.length).filter fun q => decide (LeftReach rs t r q)).length

theorem leftRank_le (rs : List Def) (t : Nat → Bool) (r : Nat) : leftRank rs t r ≤ rs.length := by
  classical
  unfold leftRank
  exact Nat.le_trans (List.length_filter_le _ _) (by simp)

theorem leftRank_lt {rs : List Def} {t : Nat → Bool} {r q : Nat} (hrq : LeftReach rs t r q) (hq : q < rs.length)
    (hqq : ¬ LeftReach rs t q q) : leftRank rs t q < leftRank rs t r := by
  classical
  unfold leftRank
  have hm : q ∈ List.range rs.length := List.mem_range.mpr hq
  obtain ⟨l1, l2, hl⟩ := List.append_of_mem hm
  have mono : ∀ l : List Nat, (l.filter fun x => decide (LeftReach rs t q x)).length ≤
      (l.filter fun x => decide (LeftReach rs t r x)).length := by
    intro l
    induction l with
    | nil => exact Nat.le_refl _
    | cons a l ih =>
      by_cases h : LeftReach rs t q a
      · simp only [List.filter_cons, decide_eq_true h, decide_eq_true (hrq.trans h), if_true, List.length_cons]; omega
      · by_cases h' : LeftReach rs t r a
        · simp only [List.filter_cons, decide_eq_false h, decide_eq_true h', if_true, List.length_cons, Bool.false_eq_true, if_false]; omega
        · simp only [List.filter_cons, decide_eq_false h, decide_eq_false h', Bool.false_eq_true, if_false]; exact ih
  rw [hl, List.filter_append, List.filter_append, List.length_append, List.length_append]
  have a1 := mono l1
  have a2 := mono l2
  simp only [List.filter_cons, decide_eq_false hqq, decide_eq_true hrq, if_true, List.length_cons, Bool.false_eq_true, if_false]
  omega

/-- The certificate made of the loader's verdicts. -/
noncomputable def certOf (rs : List Def) (t : Nat → Bool) (M : Nat → Mode → Bool) (malformed : Bool) : Cert where
  rank := leftRank rs t
  null := t
  leak := fun _ => false
  modes := M
  wsBound := rs.length + 1
  top := rs.length + 1
  malformed := malformed
  names := allParams rs

/-- The grammar has been accepted by the loader: its start rule, white space rule and word rule; and it is one of those for which
the analyses are right. -/
structure Accepted (base : Cfg V) (wsR : Option Nat) (rs : List Def) (z : Ope → Bool) (t sm gd : Nat → Bool)
    (M : Nat → Mode → Bool) (start : Nat) : Prop where
  /-- no rule is marked left-recursive -/
  noLR : ∀ r, r < rs.length → markedLR rs t rs.length r = false
  /-- no infinite loop is reported -/
  noLoop : infiniteLoop rs rs.length start = false
  noLoopWs : ∀ w, wsR = some w → infiniteLoop rs rs.length w = false
  hyp : LoopHyp rs z t sm gd
  last : ∀ (r : Nat) (d : Def), rs[r]? = some d → d.ope.every (lastNode t) = true
  tame : ∀ (r : Nat) (d : Def), rs[r]? = some d → d.ope.every (tameNode rs t wsR.isSome base.packrat) = true
  plain : ∀ (r : Nat) (d : Def), rs[r]? = some d → d.isMacro = false ∧ d.isLR = false ∧ (d.noWs = true → t r = true → wsR = none)
  /-- every rule is used -/
  used : ∀ r, r < rs.length → (r = start ∨ Reach rs start r) ∨ ∃ w, wsR = some w ∧ (r = w ∨ Reach rs w r)
  /-- the modes in which rules are called -/
  modeStart : M start {} = true
  modeRule : ∀ (r : Nat) (d : Def) (m : Mode), rs[r]? = some d → M r m = true →
    ∀ x ∈ d.ope.calls { m with tok := m.tok || d.noWs }, M x.1 x.2 = true
  modeWs : ∀ (w : Nat) (d : Def), wsR = some w → rs[w]? = some d → ∀ x ∈ d.ope.calls ⟨false, true⟩, M x.1 x.2 = true
  modeUsed : ∀ r, r < rs.length → ∃ m, M r m = true

section
variable {base : Cfg V} {wsR wordR : Option Nat} {rs : List Def} {z : Ope → Bool} {t sm gd : Nat → Bool}
  {M : Nat → Mode → Bool} {start : Nat} {b : Bool}

theorem Accepted.safe (h : Accepted base wsR rs z t sm gd M start) {r : Nat} {d : Def} (hd : rs[r]? = some d) :
    d.ope.every (safeNode t) = true := by
  rcases h.used r (List.getElem?_eq_some_iff.mp hd).1 with hr | ⟨w, hw, hr⟩
  · exact infiniteLoop_sound h.hyp h.noLoop hr hd
  · exact infiniteLoop_sound h.hyp (h.noLoopWs w hw) hr hd

theorem Accepted.rank (h : Accepted base wsR rs z t sm gd M start) {r : Nat} {d : Def} (hd : rs[r]? = some d) :
    ∀ q ∈ lefts t d.ope, leftRank rs t q < leftRank rs t r := by
  intro q hq
  have hlt := lefts_lt (z := z) d.ope (h.hyp.clean r d hd) (h.hyp.named r d hd) q hq
  exact leftRank_lt (.edge hd hq) hlt (markedLR_sound ⟨h.hyp.fix, h.hyp.clean, h.hyp.named, h.last⟩ (h.noLR q hlt))

theorem zeroOk_certOf (hz : b = true → ∀ e, zeroByte e = true → z e = true) : ZeroOk (certOf rs t M b) z := by
  constructor
  · intro c hc
    simp only [Cert.nul, certOf, Bool.and_eq_true] at hc
    exact hz hc.1 _ (by simpa only [zeroByte] using hc.2)
  · intro c hc
    simp only [Cert.nul, certOf, Bool.and_eq_true] at hc
    exact hz hc.1 _ (by simpa only [zeroByte] using hc.2)

theorem withRules_ws_isSome (h : (base.withRules wsR wordR rs).ws.isSome = true) : wsR.isSome = true := by
  cases wsR with
  | none => cases h
  | some r => rfl

/-- The memo columns of an accepted grammar: rules have different numbers, and a memoised rule is called in one mode. -/
structure PackFits (base : Cfg V) (rs : List Def) (M : Nat → Mode → Bool) : Prop where
  idLt : ∀ r, r < rs.length → base.defId r < base.defCount
  ids : ∀ r r', r < rs.length → r' < rs.length → base.defId r = base.defId r' → r = r'
  slots : ∀ r r' s, r < rs.length → r' < rs.length → base.slot (base.defId r) = some s → base.slot (base.defId r') = some s → r = r'
  modes : ∀ r s, r < rs.length → base.slot (base.defId r) = some s → ∀ m m', M r m = true → M r m' = true → m = m'

/-- **The certificate test succeeds.** -/
theorem Accepted.check (h : Accepted base wsR rs z t sm gd M start) (hz : b = true → ∀ e, zeroByte e = true → z e = true)
    (hp : base.packrat = true → PackFits base rs M) :
    (certOf rs t M b).check (base.withRules wsR wordR rs) = true := by
  have hzo := zeroOk_certOf (rs := rs) (t := t) (M := M) hz
  have hmac : ∀ (r : Nat) (d : Def), (base.withRules wsR wordR rs).rules[r]? = some d → d.isMacro = false ∧ d.isLR = false :=
    fun r d hd => ⟨(h.plain r d hd).1, (h.plain r d hd).2.1⟩
  have htop : ∀ r, r < (base.withRules wsR wordR rs).rules.length → (certOf rs t M b).rank r < (certOf rs t M b).top :=
    fun r _ => Nat.lt_succ_of_le (leftRank_le rs t r)
  have hwf := fun (e : Ope) (m : Mode) (c : Nat) => wf_clean (C := certOf rs t M b) (cfg := base.withRules wsR wordR rs) (z := z) (t := t)
    (rs := rs) (fun _ => rfl) hzo (fun _ => rfl) hmac htop withRules_ws_isSome (fun h => h) rfl e m c
  have hlk : ∀ (r : Nat) (d : Def), rs[r]? = some d → ∀ p, (certOf rs t M b).lk p d.ope = false :=
    fun r d hd p => lk_clean (z := z) (t := t) (fun _ => rfl) d.ope (h.hyp.clean r d hd)
  have hue : ∀ (r : Nat) (d : Def), rs[r]? = some d → usesEnv (base.withRules wsR wordR rs) d.ope = false :=
    fun r d hd => usesEnv_clean (z := z) (t := t) (fun r d hd => (hmac r d hd).1) d.ope (h.hyp.clean r d hd)
  have hnp : ∀ (r : Nat) (d : Def), rs[r]? = some d → d.ope.noPrec = true :=
    fun r d hd => noPrec_clean (z := z) (t := t) d.ope (h.hyp.clean r d hd)
  unfold Cert.check
  rw [Bool.and_eq_true, Bool.and_eq_true]
  refine ⟨⟨?_, ?_⟩, ?_⟩
  · rw [List.all_eq_true]
    rintro ⟨d, r⟩ hmem
    have hd : rs[r]? = some d := List.mem_zipIdx_iff_getElem?.mp hmem
    have hc := h.hyp.clean r d hd
    have hpl := h.plain r d hd
    unfold Cert.ruleOk
    simp only [Bool.and_eq_true]
    refine ⟨⟨⟨⟨⟨?_, ?_⟩, ?_⟩, ?_⟩, ?_⟩, by rw [hnp r d hd]; rfl⟩
    · rw [List.all_eq_true]
      intro m _
      rw [Bool.or_eq_true]
      cases hm : (certOf rs t M b).modes r m with
      | false => exact .inl rfl
      | true =>
        right
        rw [hpl.1, hpl.2.1, isPrec_of_noPrec (hnp r d hd)]
        simp only [Bool.false_eq_true, if_false, Bool.and_eq_true, Bool.or_eq_true, Bool.not_eq_true']
        refine ⟨hwf d.ope _ _ hc (h.tame r d hd) (h.hyp.named r d hd) (h.safe hd) (h.rank hd) (h.modeRule r d m hd hm), ?_⟩
        cases hno : d.noWs with
        | false => exact .inl rfl
        | true =>
          simp only [Bool.true_and]
          cases hnl : (certOf rs t M b).nul false d.ope with
          | false => exact .inl rfl
          | true =>
            right
            have h1 : cbe t d.ope = true := nul_clean (C := certOf rs t M b) (fun _ => rfl) hzo d.ope hc hnl
            rw [← h.hyp.fix r d hd] at h1
            have := hpl.2.2 hno h1
            subst this
            simp [Cert.skipOk, Cfg.withRules]
    · rw [Bool.or_eq_true]
      cases hnl : (certOf rs t M b).nul ((certOf rs t M b).ctx r d).null d.ope with
      | false => exact .inl rfl
      | true =>
        right
        have h1 : cbe t d.ope = true := nul_clean (C := certOf rs t M b) (fun _ => rfl) hzo d.ope hc hnl
        rw [← h.hyp.fix r d hd] at h1
        exact h1
    · rw [hlk r d hd]; rfl
    · rw [List.all_eq_true]
      intro p hp
      rw [List.contains_iff_mem]
      exact List.mem_flatMap.mpr ⟨d, List.mem_of_getElem? hd, hp⟩
    · rw [hue r d hd, hpl.1]; rfl
  · unfold Cert.wsOk
    cases hw : wsR with
    | none => simp [Cfg.withRules]
    | some w =>
      cases hd : rs[w]? with
      | none => simp [Cfg.withRules, hd]
      | some d =>
        have e : (base.withRules (some w) wordR rs).ws = some (.ws (.ign d.ope)) := by simp [Cfg.withRules, hd]
        rw [e]
        subst hw
        simp only [Bool.and_eq_true, Bool.not_eq_true']
        refine ⟨⟨⟨?_, ?_⟩, ?_⟩, ?_⟩
        · simp only [wf]
          refine hwf d.ope ⟨false, true⟩ _ (h.hyp.clean w d hd) (h.tame w d hd) (h.hyp.named w d hd) (h.safe hd) ?_ (h.modeWs w d rfl hd)
          intro q _
          exact Nat.lt_succ_of_le (leftRank_le rs t q)
        · simp only [Cert.lk]; exact hlk w d hd false
        · simp only [usesEnv]; exact hue w d hd
        · simp only [Ope.noPrec]; exact hnp w d hd
  · unfold Cert.packOk
    rw [Bool.or_eq_true]
    cases hpk : (base.withRules wsR wordR rs).packrat with
    | false => exact .inl rfl
    | true =>
      right
      have P := hp hpk
      rw [List.all_eq_true]
      intro r hr
      have hr : r < rs.length := List.mem_range.mp hr
      simp only [Bool.and_eq_true, decide_eq_true_eq]
      refine ⟨⟨P.idLt r hr, ?_⟩, ?_⟩
      · rw [List.all_eq_true]
        intro r' hr'
        have hr' : r' < rs.length := List.mem_range.mp hr'
        rw [Bool.or_eq_true]
        by_cases hrr : r = r'
        · exact .inl (by simp [hrr])
        · right
          rw [Bool.and_eq_true, Bool.or_eq_true]
          refine ⟨?_, ?_⟩
          · rw [bne_iff_ne]; exact fun hh => hrr (P.ids r r' hr hr' hh)
          · show (base.slot (base.defId r)).isNone = true ∨ (base.slot (base.defId r) != base.slot (base.defId r')) = true
            cases hs : base.slot (base.defId r) with
            | none => exact .inl rfl
            | some s =>
              right
              rw [bne_iff_ne]
              exact fun hh => hrr (P.slots r r' s hr hr' hs hh.symm)
      · rw [Bool.or_eq_true]
        show (base.slot (base.defId r)).isNone = true ∨ _
        cases hs : base.slot (base.defId r) with
        | none => exact .inl rfl
        | some s =>
          right
          simp only [Bool.and_eq_true, List.all_eq_true, Bool.or_eq_true, Bool.not_eq_true', beq_iff_eq]
          refine ⟨rfl, fun m _ m' _ => ?_⟩
          cases hm : (certOf rs t M b).modes r m with
          | false => exact .inl (.inl rfl)
          | true =>
            cases hm' : (certOf rs t M b).modes r m' with
            | false => exact .inl (.inr rfl)
            | true => exact .inr (P.modes r s hr hs m m' hm hm')

/-- **The test for the annotations succeeds.** -/
theorem Accepted.first (h : Accepted base wsR rs z t sm gd M start) (hz : b = true → ∀ e, zeroByte e = true → z e = true) :
    (⟨fun _ => true, fun _ => true⟩ : FsCert).check (certOf rs t M b) (base.withRules wsR wordR rs) (noKw rs) = true := by
  have hzo := zeroOk_certOf (rs := rs) (t := t) (M := M) hz
  have hq : ∀ (r : Nat) (d : Def), rs[r]? = some d →
      (⟨fun _ => true, fun _ => true⟩ : FsCert).q.lk true d.ope = false :=
    fun r d hd => lk_clean (z := z) (t := t) (fun _ => rfl) d.ope (h.hyp.clean r d hd)
  have hsome : (base.withRules wsR wordR rs).ws.isSome = true → wsR.isSome = true := withRules_ws_isSome
  have htame : ∀ (r : Nat) (d : Def), rs[r]? = some d →
      d.ope.every (tameNode rs t (base.withRules wsR wordR rs).ws.isSome base.packrat) = true := by
    intro r d hd
    have := h.tame r d hd
    cases hw : (base.withRules wsR wordR rs).ws.isSome with
    | true => rw [hsome hw] at this; exact this
    | false =>
      refine every_imp ?_ d.ope this
      intro e he
      cases e <;> simp only [tameNode, Bool.and_eq_true, Bool.or_eq_true, Bool.not_false, Bool.true_or, and_true] at he ⊢ <;>
        first | exact he | exact he.1
  unfold FsCert.check
  rw [Bool.and_eq_true]
  constructor
  · rw [List.all_eq_true]
    rintro ⟨d, r⟩ hmem
    have hd : rs[r]? = some d := List.mem_zipIdx_iff_getElem?.mp hmem
    have hc := h.hyp.clean r d hd
    simp only [Bool.and_eq_true]
    refine ⟨⟨⟨⟨⟨⟨Ope.bareR_of_bare (bare_tame d.ope hc (h.tame r d hd)), noWsO_clean d.ope hc⟩, lits_tame d.ope hc (h.tame r d hd)⟩, ?_⟩, ?_⟩, ?_⟩, ?_⟩
    · exact ok_tame (fun _ => rfl) (fun _ => rfl) (fun _ => rfl) hzo d.ope hc (htame r d hd)
    · obtain ⟨m, hm⟩ := h.modeUsed r (List.getElem?_eq_some_iff.mp hd).1
      exact List.any_eq_true.mpr ⟨m, mem_allModes m, hm⟩
    · rw [hq r d hd]; rfl
    · simp only [Bool.not_true, Bool.false_or, Bool.and_eq_true]
      refine ⟨safe_tame (fun _ => rfl) (fun _ => rfl) (fun _ => rfl) hzo d.ope hc (htame r d hd), ?_⟩
      cases hno : d.noWs with
      | false => simp
      | true =>
        cases hnl : (certOf rs t M b).nul true d.ope with
        | false => simp
        | true =>
          have h1 : cbe t d.ope = true := nul_clean (C := certOf rs t M b) (fun _ => rfl) hzo d.ope hc hnl
          rw [← h.hyp.fix r d hd] at h1
          have := (h.plain r d hd).2.2 hno h1
          subst this
          simp [Cfg.withRules]
  · cases hw : wsR with
    | none => simp [Cfg.withRules]
    | some w =>
      cases hd : rs[w]? with
      | none => simp [Cfg.withRules, hd]
      | some d =>
        have e : (base.withRules (some w) wordR rs).ws = some (.ws (.ign d.ope)) := by simp [Cfg.withRules, hd]
        rw [e]
        simp only [Option.all_some, Cert.lk, hq w d hd, Bool.not_false]

/-- **A grammar accepted by the loader is ready to parse UTF-8 text, with all annotations.** -/
theorem Accepted.loaded (h : Accepted base wsR rs (fun _ => false) t sm gd M start) (hp : base.packrat = true → PackFits base rs M)
    (hword : WordTested base wordR rs) (hcalls : CallsOk base) (hslots : SlotsOk base) (htext : Text base.input)
    (hs : start < rs.length) :
    Loaded base wsR wordR rs (certOf rs t M false) ⟨fun _ => true, fun _ => true⟩ (noKw rs) start where
  tested := ⟨h.check (fun h => by cases h) hp, h.first (fun h => by cases h)⟩
  word := hword
  guards order := kwSound_none (base.withRules wsR wordR rs) _
  calls := hcalls
  slots := hslots
  text := htext
  rule := ⟨rs[start], List.getElem?_eq_getElem hs, (h.plain start _ (List.getElem?_eq_getElem hs)).1⟩
  mode := h.modeStart

end

end Verif
