import Verif.FirstSetProofs
/-!
# Annotated grammars mean the same

What `SetupFirstSets` writes into a grammar (first sets of alternatives, span scans, keyword guards) agrees with the reference
semantics on UTF-8 text, provided the computable test `FsCert.check` succeeds.
-/

namespace Verif
open CharClass Props Utf8

variable {V : Type}

/-! ## Test of UTF-8 -/

/-- A computable test of `Text`. -/
def isTextF : Nat → List Byte → Bool
  | _, [] => true
  | 0, _ :: _ => false
  | n + 1, b :: t =>
    let s := b :: t
    let k := (decodeLenCp s).1
    let c := (decodeLenCp s).2
    decide (IsScalar c) && (encodeCodepoint c == s.take k) && isTextF n (s.drop k)

def isText (s : List Byte) : Bool := isTextF s.length s

theorem text_of_isTextF : ∀ (n : Nat) (s : List Byte), isTextF n s = true → Text s
  | _, [], _ => Text.nil
  | 0, _ :: _, h => by simp [isTextF] at h
  | n + 1, b :: t, h => by
    simp only [isTextF, Bool.and_eq_true, decide_eq_true_eq, beq_iff_eq] at h
    have := Text.cons h.1.1 (text_of_isTextF n _ h.2)
    rwa [h.1.2, List.take_append_drop] at this

theorem text_of_isText {s : List Byte} (h : isText s = true) : Text s := text_of_isTextF _ _ h

/-! ## Span scans -/

theorem uniform_spec {c : Cls} (hu : Cls.uniform c = true) :
    c.ignoreCase = true → ∀ r ∈ c.ranges, CaseUniform r ∧ r.1 ≤ r.2 := by
  intro hic r hr
  unfold Cls.uniform at hu
  simp only [hic, Bool.not_true, Bool.false_or, List.all_eq_true, Bool.and_eq_true, Bool.or_eq_true, decide_eq_true_eq] at hu
  obtain ⟨h3, h4⟩ := hu r hr
  refine ⟨?_, h3⟩
  unfold CaseUniform
  rcases h4 with (h4 | h4) | h4
  · exact Or.inl fun x _ _ _ => by omega
  · exact Or.inl fun x _ _ _ => by omega
  · exact Or.inr h4

/-- The number of bytes scanned. -/
def spanCount (bit : Byte → Bool) (max : Option Nat) (s : List Byte) : Nat :=
  match max with
  | none => (s.takeWhile bit).length
  | some m => ((s.take m).takeWhile bit).length

theorem spanScan_count (bit : Byte → Bool) (min : Nat) (max : Option Nat) (s : List Byte) :
    spanScan bit min max s = if spanCount bit max s < min then none else some (spanCount bit max s) := by
  unfold spanScan spanCount
  cases max <;> rfl

/-- Repeating an ASCII class at a character boundary is a scan. -/
theorem span_peg {G : Gram V} {c : Cls} (ha : c.isAsciiOnly = true) (hu : Cls.uniform c = true) {v : Env} {m : Mode} {s : PSt V}
    {mx : Option Nat} : ∀ (len i need n : Nat), (G.input.drop i).length = len → Bdry G.input i →
      (∀ M, mx = some M → n + need ≤ M) →
      match spanScan c.asciiBit need (mx.map (· - n)) (G.input.drop i) with
      | none => Peg G v m (.loop (.cls c) need mx n) i s (.fail false)
      | some k => Bdry G.input (i + k) ∧ Peg G v m (.loop (.cls c) need mx n) i s (.ok (i + k) false s) := by
  intro len
  induction len with
  | zero =>
    intro i need n hl hb hM
    have hnil : G.input.drop i = [] := List.length_eq_zero_iff.mp hl
    have hz : spanCount c.asciiBit (mx.map (· - n)) [] = 0 := by
      cases mx <;> simp [spanCount]
    have hfail : Peg G v m (.ope (.cls c)) i s (.fail false) := .one_fail rfl (by rw [hnil]; rfl)
    rw [spanScan_count]
    rw [hnil]
    simp only [hz]
    cases need with
    | zero =>
      simp only [Nat.lt_irrefl, if_false]
      refine ⟨hb, ?_⟩
      by_cases hf : mx.all (n < ·) = true
      · exact .loop_end hf hfail
      · exact .loop_full (by simpa using hf)
    | succ k =>
      rw [if_pos (by omega)]
      exact .loop_fail hfail
  | succ len ih =>
    intro i need n hl hb hM
    obtain ⟨b, t, hs⟩ : ∃ b t, G.input.drop i = b :: t := by
      cases h : G.input.drop i with
      | nil => rw [h] at hl; simp at hl
      | cons b t => exact ⟨b, t, rfl⟩
    have ht : G.input.drop (i + 1) = t := by
      rw [← List.drop_drop, hs]; rfl
    have hm := C07_bitset_agrees c ha (uniform_spec hu) b t (hs ▸ Text.proper hb)
    by_cases hfull : mx = some n
    · -- the maximum is reached
      subst hfull
      have h0 := hM n rfl
      have : need = 0 := by omega
      subst this
      rw [spanScan_count]
      simp only [spanCount, Option.map_some, Nat.sub_self, List.take_zero, List.takeWhile_nil, List.length_nil, Nat.lt_irrefl, if_false]
      exact ⟨hb, .loop_full (by simp)⟩
    · have hall : mx.all (n < ·) = true ∨ mx.all (n < ·) = false ∧ False := by
        left
        cases mx with
        | none => rfl
        | some M =>
          have := hM M rfl
          have : n ≠ M := fun h => hfull (by rw [h])
          simp only [Option.all_some, decide_eq_true_eq]
          omega
      have hall := hall.resolve_right (fun h => h.2)
      cases hbit : c.asciiBit b with
      | false =>
        rw [hbit] at hm
        have hfail : Peg G v m (.ope (.cls c)) i s (.fail false) := .one_fail rfl (by rw [hs]; exact hm)
        have hz : spanCount c.asciiBit (mx.map (· - n)) (b :: t) = 0 := by
          unfold spanCount
          cases mx with
          | none => simp [hbit]
          | some M =>
            simp only [Option.map_some]
            cases M - n with
            | zero => simp
            | succ q => simp [hbit]
        rw [spanScan_count]
        rw [hs]
        simp only [hz]
        cases need with
        | zero =>
          simp only [Nat.lt_irrefl, if_false]
          exact ⟨hb, .loop_end hall hfail⟩
        | succ k =>
          rw [if_pos (by omega)]
          exact .loop_fail hfail
      | true =>
        rw [hbit] at hm
        have hone : Peg G v m (.ope (.cls c)) i s (.ok (i + 1) false s) := .one_ok rfl (by rw [hs]; exact hm)
        have hb1 : Bdry G.input (i + 1) := by
          have h1 := single_len (e := .cls c) (f := c.matchLen) (s := b :: t) (k := 1) rfl hm
          unfold Bdry at hb ⊢
          have := hb.drop_len
          rw [hs, ← h1] at this
          rw [ht]
          simpa using this
        have hz : spanCount c.asciiBit (mx.map (· - n)) (b :: t) =
            spanCount c.asciiBit (mx.map (· - (n + 1))) t + 1 := by
          unfold spanCount
          cases mx with
          | none => simp [hbit]
          | some M =>
            have : n < M := by simpa using hall
            simp only [Option.map_some]
            obtain ⟨q, hq⟩ : ∃ q, M - n = q + 1 := ⟨M - n - 1, by omega⟩
            have hq' : M - (n + 1) = q := by omega
            rw [hq, hq']
            simp [hbit]
        have hlen : (G.input.drop (i + 1)).length = len := by rw [ht]; rw [hs] at hl; simpa using hl
        cases need with
        | zero =>
          have := ih (i + 1) 0 (n + 1) hlen hb1 (by
            intro M e; subst e
            have : n < M := by simpa using hall
            omega)
          rw [spanScan_count] at this ⊢
          rw [hs]
          rw [ht] at this
          simp only [hz, Nat.not_lt_zero, if_false] at this ⊢
          obtain ⟨h1, h2⟩ := this
          have h3 := Peg.loop_more hall hone h2
          exact ⟨by rw [Nat.add_comm _ 1, ← Nat.add_assoc]; exact h1, by rw [Nat.add_comm _ 1, ← Nat.add_assoc]; exact h3⟩
        | succ k =>
          have := ih (i + 1) k (n + 1) hlen hb1 (by intro M e; have := hM M e; omega)
          rw [spanScan_count] at this ⊢
          rw [hs]
          rw [ht] at this
          simp only [hz] at this ⊢
          by_cases hlt : spanCount c.asciiBit (mx.map (· - (n + 1))) t < k
          · rw [if_pos hlt] at this
            rw [if_pos (by omega)]
            exact .loop_must hone this
          · rw [if_neg hlt] at this
            rw [if_neg (by omega)]
            obtain ⟨h1, h2⟩ := this
            have h3 := Peg.loop_must hone h2
            have hk : i + (spanCount c.asciiBit (mx.map (· - (n + 1))) t + 1) =
              i + 1 + spanCount c.asciiBit (mx.map (· - (n + 1))) t := by omega
            simp only
            rw [hk]
            exact ⟨h1, h3⟩

theorem span_ok {cfg : Cfg V} {c : Cls} (ha : c.isAsciiOnly = true) (hu : Cls.uniform c = true) {mn : Nat} {mx : Option Nat}
    (hM : ∀ M, mx = some M → mn ≤ M) : SpanOk cfg (Bdry cfg.input) (.cls c) mn mx c := by
  intro v m i s hi hl
  have := span_peg (G := cfg.gram) ha hu (v := v) (m := m) (s := s) (mx := mx) _ i mn 0 rfl hi (by simpa using hM)
  have hmap : mx.map (· - 0) = mx := by cases mx <;> simp
  rw [hmap] at this
  show match spanScan c.asciiBit mn mx (cfg.rest i) with | none => _ | some k => _
  have he : cfg.gram.input.drop i = cfg.rest i := rfl
  rw [he] at this
  cases hs : spanScan c.asciiBit mn mx (cfg.rest i) with
  | none => rw [hs] at this; exact this
  | some k =>
    rw [hs] at this
    refine ⟨this.1, fun h0 => ?_, this.2⟩
    rw [spanScan_count] at hs
    split at hs
    · cases hs
    · cases hs; omega

/-! ## Erasing annotations keeps the test -/

mutual
theorem nul_plain (C : Cert) (p : Bool) : ∀ e : Ope, C.nul p e.plain = C.nul p e
  | .seq es _ => by simp only [Ope.plain, Cert.nul, nulAll_plain C p es]
  | .cho es _ _ => by simp only [Ope.plain, Cert.nul, nulAny_plain C p es]
  | .rep e _ _ _ => by simp only [Ope.plain, Cert.nul, nul_plain C p e]
  | .capScope e => by simp only [Ope.plain, Cert.nul, nul_plain C p e]
  | .cap _ e => by simp only [Ope.plain, Cert.nul, nul_plain C p e]
  | .tok e => by simp only [Ope.plain, Cert.nul, nul_plain C p e]
  | .ign e => by simp only [Ope.plain, Cert.nul, nul_plain C p e]
  | .dict .. => by simp only [Ope.plain]
  | .lit .. => by simp only [Ope.plain]
  | .cls _ => by simp only [Ope.plain]
  | .chr _ => by simp only [Ope.plain]
  | .dot => by simp only [Ope.plain]
  | .ref .. => by simp only [Ope.plain, Cert.nul]
  | .param .. => by simp only [Ope.plain]
  | .and_ _ => by simp only [Ope.plain, Cert.nul]
  | .not_ _ => by simp only [Ope.plain, Cert.nul]
  | .usr _ => by simp only [Ope.plain]
  | .weak _ => by simp only [Ope.plain]
  | .ws _ => by simp only [Ope.plain, Cert.nul]
  | .bref _ => by simp only [Ope.plain]
  | .prec a _ _ _ => by simp only [Ope.plain, Cert.nul, nul_plain C p a]
  | .recov .. => by simp only [Ope.plain, Cert.nul]
  | .cut => by simp only [Ope.plain]
  | .null => by simp only [Ope.plain]

theorem nulAll_plain (C : Cert) (p : Bool) : ∀ es : List Ope, C.nulAll p (Ope.plainL es) = C.nulAll p es
  | [] => rfl
  | e :: es => by simp only [Ope.plainL, Cert.nulAll, nul_plain C p e, nulAll_plain C p es]

theorem nulAny_plain (C : Cert) (p : Bool) : ∀ es : List Ope, C.nulAny p (Ope.plainL es) = C.nulAny p es
  | [] => rfl
  | e :: es => by simp only [Ope.plainL, Cert.nulAny, nul_plain C p e, nulAny_plain C p es]
end

mutual
theorem lk_plain (C : Cert) (p : Bool) : ∀ e : Ope, C.lk p e.plain = C.lk p e
  | .seq es _ => by simp only [Ope.plain, Cert.lk, lkAny_plain C p es]
  | .cho es _ _ => by simp only [Ope.plain, Cert.lk]
  | .rep e _ _ _ => by simp only [Ope.plain, Cert.lk, lk_plain C p e]
  | .capScope e => by simp only [Ope.plain, Cert.lk, lk_plain C p e]
  | .cap _ e => by simp only [Ope.plain, Cert.lk, lk_plain C p e]
  | .tok e => by simp only [Ope.plain, Cert.lk, lk_plain C p e]
  | .ign e => by simp only [Ope.plain, Cert.lk, lk_plain C p e]
  | .and_ e => by simp only [Ope.plain, Cert.lk, lk_plain C p e]
  | .not_ e => by simp only [Ope.plain, Cert.lk, lk_plain C p e]
  | .ws e => by simp only [Ope.plain, Cert.lk, lk_plain C p e]
  | .dict .. => by simp only [Ope.plain]
  | .lit .. => by simp only [Ope.plain]
  | .cls _ => by simp only [Ope.plain]
  | .chr _ => by simp only [Ope.plain]
  | .dot => by simp only [Ope.plain]
  | .ref .. => by simp only [Ope.plain, Cert.lk]
  | .param .. => by simp only [Ope.plain]
  | .usr _ => by simp only [Ope.plain]
  | .weak _ => by simp only [Ope.plain]
  | .bref _ => by simp only [Ope.plain]
  | .prec a b _ _ => by simp only [Ope.plain, Cert.lk, lk_plain C p a, lk_plain C p b]
  | .recov .. => by simp only [Ope.plain, Cert.lk]
  | .cut => by simp only [Ope.plain]
  | .null => by simp only [Ope.plain]

theorem lkAny_plain (C : Cert) (p : Bool) : ∀ es : List Ope, C.lkAny p (Ope.plainL es) = C.lkAny p es
  | [] => rfl
  | e :: es => by simp only [Ope.plainL, Cert.lkAny, lk_plain C p e, lkAny_plain C p es]
end

mutual
theorem noPrec_plain : ∀ e : Ope, e.plain.noPrec = e.noPrec
  | .seq es _ => by simp only [Ope.plain, Ope.noPrec, noPrecL_plain es]
  | .cho es _ _ => by simp only [Ope.plain, Ope.noPrec, noPrecL_plain es]
  | .rep e _ _ _ => by simp only [Ope.plain, Ope.noPrec, noPrec_plain e]
  | .capScope e => by simp only [Ope.plain, Ope.noPrec, noPrec_plain e]
  | .cap _ e => by simp only [Ope.plain, Ope.noPrec, noPrec_plain e]
  | .tok e => by simp only [Ope.plain, Ope.noPrec, noPrec_plain e]
  | .ign e => by simp only [Ope.plain, Ope.noPrec, noPrec_plain e]
  | .and_ e => by simp only [Ope.plain, Ope.noPrec, noPrec_plain e]
  | .not_ e => by simp only [Ope.plain, Ope.noPrec, noPrec_plain e]
  | .ws e => by simp only [Ope.plain, Ope.noPrec, noPrec_plain e]
  | .ref _ _ as => by simp only [Ope.plain, Ope.noPrec, noPrecL_plain as]
  | .recov _ _ as => by simp only [Ope.plain, Ope.noPrec, noPrecL_plain as]
  | .dict .. => by simp only [Ope.plain]
  | .lit .. => by simp only [Ope.plain]
  | .cls _ => by simp only [Ope.plain]
  | .chr _ => by simp only [Ope.plain]
  | .dot => by simp only [Ope.plain]
  | .param .. => by simp only [Ope.plain]
  | .usr _ => by simp only [Ope.plain]
  | .weak _ => by simp only [Ope.plain]
  | .bref _ => by simp only [Ope.plain]
  | .prec .. => by simp only [Ope.plain, Ope.noPrec]
  | .cut => by simp only [Ope.plain]
  | .null => by simp only [Ope.plain]

theorem noPrecL_plain : ∀ es : List Ope, Ope.noPrecList (Ope.plainL es) = Ope.noPrecList es
  | [] => rfl
  | e :: es => by simp only [Ope.plainL, Ope.noPrecList, noPrec_plain e, noPrecL_plain es]
end

/-- `cfg` is `cfg0` with annotations. -/
structure Annotates (cfg0 cfg : Cfg V) : Prop where
  rules : cfg.rules.map Def.plain = cfg0.rules.map Def.plain
  ws : cfg.ws.map Ope.plain = cfg0.ws.map Ope.plain
  hasCut : cfg.hasCut = cfg0.hasCut
  packrat : cfg.packrat = cfg0.packrat

theorem Annotates.get {cfg0 cfg : Cfg V} (h : Annotates cfg0 cfg) (r : Nat) :
    cfg.rules[r]?.map Def.plain = cfg0.rules[r]?.map Def.plain := by
  have := congrArg (fun l => l[r]?) h.rules
  simpa using this

theorem Annotates.isMacro {cfg0 cfg : Cfg V} (h : Annotates cfg0 cfg) (r : Nat) :
    cfg.rules[r]?.map (·.isMacro) = cfg0.rules[r]?.map (·.isMacro) := by
  have := congrArg (Option.map (·.isMacro)) (h.get r)
  simp only [Option.map_map] at this
  exact this

mutual
theorem usesEnv_plain {cfg0 cfg : Cfg V} (h : Annotates cfg0 cfg) : ∀ e : Ope, usesEnv cfg0 e.plain = usesEnv cfg e
  | .seq es _ => by simp only [Ope.plain, usesEnv, usesEnvL_plain h es]
  | .cho es _ _ => by simp only [Ope.plain, usesEnv, usesEnvL_plain h es]
  | .rep e _ _ _ => by simp only [Ope.plain, usesEnv, usesEnv_plain h e]
  | .capScope e => by simp only [Ope.plain, usesEnv, usesEnv_plain h e]
  | .cap _ e => by simp only [Ope.plain, usesEnv, usesEnv_plain h e]
  | .tok e => by simp only [Ope.plain, usesEnv, usesEnv_plain h e]
  | .ign e => by simp only [Ope.plain, usesEnv, usesEnv_plain h e]
  | .and_ e => by simp only [Ope.plain, usesEnv, usesEnv_plain h e]
  | .not_ e => by simp only [Ope.plain, usesEnv, usesEnv_plain h e]
  | .ws e => by simp only [Ope.plain, usesEnv, usesEnv_plain h e]
  | .ref r _ as => by simp only [Ope.plain, usesEnv, h.isMacro r]
  | .recov _ _ as => by simp only [Ope.plain, usesEnv]
  | .dict .. => by simp only [Ope.plain, usesEnv]
  | .lit .. => by simp only [Ope.plain, usesEnv]
  | .cls _ => by simp only [Ope.plain, usesEnv]
  | .chr _ => by simp only [Ope.plain, usesEnv]
  | .dot => by simp only [Ope.plain, usesEnv]
  | .param .. => by simp only [Ope.plain, usesEnv]
  | .usr _ => by simp only [Ope.plain, usesEnv]
  | .weak _ => by simp only [Ope.plain, usesEnv]
  | .bref _ => by simp only [Ope.plain, usesEnv]
  | .prec .. => by simp only [Ope.plain, usesEnv]
  | .cut => by simp only [Ope.plain, usesEnv]
  | .null => by simp only [Ope.plain, usesEnv]

theorem usesEnvL_plain {cfg0 cfg : Cfg V} (h : Annotates cfg0 cfg) : ∀ es : List Ope,
    usesEnvList cfg0 (Ope.plainL es) = usesEnvList cfg es
  | [] => rfl
  | e :: es => by simp only [Ope.plainL, usesEnvList, usesEnv_plain h e, usesEnvL_plain h es]
end

theorem skipOk_plain {cfg0 cfg : Cfg V} (h : Annotates cfg0 cfg) (C : Cert) (m : Mode) (b : Nat) :
    C.skipOk cfg0 m b = C.skipOk cfg m b := by
  have : cfg0.ws.isNone = cfg.ws.isNone := by
    have := congrArg Option.isNone h.ws
    simpa using this.symm
  unfold Cert.skipOk; rw [this]

mutual
theorem wf_plain {cfg0 cfg : Cfg V} (h : Annotates cfg0 cfg) (C : Cert) (κ : MCtx) (arg : Bool) (m : Mode) (b : Nat) : ∀ e : Ope,
    wf cfg0 C κ arg m b e.plain = wf cfg C κ arg m b e
  | .seq es _ => by simp only [Ope.plain, wf]; exact wfSeq_plain h C κ arg m b es
  | .cho es l fs => by simp only [Ope.plain, wf, wfAll_plain h C κ arg m b es, h.hasCut, lkAny_plain]
  | .rep e mn mx sp => by simp only [Ope.plain, wf, wf_plain h C κ arg m b e, nul_plain]
  | .and_ e => by simp only [Ope.plain, wf, wf_plain h C κ arg m b e]
  | .not_ e => by simp only [Ope.plain, wf, wf_plain h C κ arg m b e]
  | .dict _ _ => by simp only [Ope.plain, wf]
  | .lit t ic => by simp only [Ope.plain, wf, skipOk_plain h]
  | .cls _ => by simp only [Ope.plain, wf]
  | .chr _ => by simp only [Ope.plain, wf]
  | .dot => by simp only [Ope.plain, wf]
  | .capScope e => by simp only [Ope.plain, wf, wf_plain h C κ arg m b e]
  | .cap _ e => by simp only [Ope.plain, wf, wf_plain h C κ arg m b e, h.packrat]
  | .tok e => by simp only [Ope.plain, wf, wf_plain h C κ arg { m with tok := true } b e, skipOk_plain h, nul_plain]
  | .ign e => by simp only [Ope.plain, wf, wf_plain h C κ arg m b e]
  | .usr _ => by simp only [Ope.plain, wf]
  | .weak _ => by simp only [Ope.plain, wf]
  | .ref r nm as => by
    have hg := h.get r
    have hlen : (Ope.plainL as).length = as.length := by simp [plainL_eq_map]
    simp only [Ope.plain, wf]
    cases hd : cfg.rules[r]? with
    | none =>
      rw [hd] at hg
      cases hd0 : cfg0.rules[r]? with
      | none => rfl
      | some d0 => rw [hd0] at hg; cases hg
    | some d =>
      rw [hd] at hg
      cases hd0 : cfg0.rules[r]? with
      | none => rw [hd0] at hg; cases hg
      | some d0 =>
        rw [hd0] at hg
        simp only [Option.map_some, Option.some.injEq] at hg
        have h1 : d.isLR = d0.isLR := by have := congrArg Def.isLR hg; exact this
        have h2 : d.isMacro = d0.isMacro := by have := congrArg Def.isMacro hg; exact this
        have h3 : d.params = d0.params := by have := congrArg Def.params hg; exact this
        simp only [h1, h2, h3, hlen, wfArgs_plain h C (if arg then {} else κ) r as]
  | .param k nm => by simp only [Ope.plain, wf]
  | .ws e => by simp only [Ope.plain, wf, wf_plain h C κ arg { m with ws := true } b e]
  | .bref _ => by simp only [Ope.plain, wf, skipOk_plain h, h.packrat]
  | .prec .. => by simp only [Ope.plain, wf]
  | .recov .. => by simp only [Ope.plain, wf]
  | .cut => by simp only [Ope.plain, wf, h.hasCut]
  | .null => by simp only [Ope.plain, wf]

theorem wfSeq_plain {cfg0 cfg : Cfg V} (h : Annotates cfg0 cfg) (C : Cert) (κ : MCtx) (arg : Bool) (m : Mode) (b : Nat) :
    ∀ es : List Ope, wfSeq cfg0 C κ arg m b (Ope.plainL es) = wfSeq cfg C κ arg m b es
  | [] => by simp only [Ope.plainL, wfSeq]
  | e :: es => by
    simp only [Ope.plainL, wfSeq, wf_plain h C κ arg m b e, wfSeq_plain h C κ arg m b es, wfSeq_plain h C κ arg m C.top es,
      nul_plain]

theorem wfAll_plain {cfg0 cfg : Cfg V} (h : Annotates cfg0 cfg) (C : Cert) (κ : MCtx) (arg : Bool) (m : Mode) (b : Nat) :
    ∀ es : List Ope, wfAll cfg0 C κ arg m b (Ope.plainL es) = wfAll cfg C κ arg m b es
  | [] => by simp only [Ope.plainL, wfAll]
  | e :: es => by simp only [Ope.plainL, wfAll, wf_plain h C κ arg m b e, wfAll_plain h C κ arg m b es]

theorem wfArgs_plain {cfg0 cfg : Cfg V} (h : Annotates cfg0 cfg) (C : Cert) (κ : MCtx) (r : Nat) :
    ∀ as : List Ope, wfArgs cfg0 C κ r (Ope.plainL as) = wfArgs cfg C κ r as
  | [] => by simp only [Ope.plainL, wfArgs]
  | a :: as => by
    simp only [Ope.plainL, wfArgs, wf_plain h C κ true ⟨false, false⟩ (C.abound r) a,
      wf_plain h C κ true ⟨false, true⟩ (C.abound r) a, wf_plain h C κ true ⟨true, false⟩ (C.abound r) a,
      wf_plain h C κ true ⟨true, true⟩ (C.abound r) a, wfArgs_plain h C κ r as, nul_plain, lk_plain]
end

mutual
/-- An expression without annotations is plain. -/
theorem plain_bare : ∀ e : Ope, e.bare = true → e.plain = e
  | .seq es kw, h => by
    simp only [Ope.bare, Bool.and_eq_true, Option.isNone_iff_eq_none] at h
    rw [h.1]; simp only [Ope.plain, plainL_bare es h.2]
  | .cho es l fs, h => by
    simp only [Ope.bare, Bool.and_eq_true, List.isEmpty_iff] at h
    rw [h.1]; simp only [Ope.plain, plainL_bare es h.2]
  | .rep e mn mx sp, h => by
    simp only [Ope.bare, Bool.and_eq_true, Option.isNone_iff_eq_none] at h
    rw [h.1]; simp only [Ope.plain, plain_bare e h.2]
  | .and_ e, h => by simp only [Ope.bare] at h; simp only [Ope.plain, plain_bare e h]
  | .not_ e, h => by simp only [Ope.bare] at h; simp only [Ope.plain, plain_bare e h]
  | .capScope e, h => by simp only [Ope.bare] at h; simp only [Ope.plain, plain_bare e h]
  | .cap _ e, h => by simp only [Ope.bare] at h; simp only [Ope.plain, plain_bare e h]
  | .tok e, h => by simp only [Ope.bare] at h; simp only [Ope.plain, plain_bare e h]
  | .ign e, h => by simp only [Ope.bare] at h; simp only [Ope.plain, plain_bare e h]
  | .ws e, h => by simp only [Ope.bare] at h; simp only [Ope.plain, plain_bare e h]
  | .ref _ _ as, h => by simp only [Ope.bare] at h; simp only [Ope.plain, plainL_bare as h]
  | .recov _ _ as, h => by simp only [Ope.bare] at h; simp only [Ope.plain, plainL_bare as h]
  | .prec .., h => by simp [Ope.bare] at h
  | .dict .., _ => by simp only [Ope.plain]
  | .lit .., _ => by simp only [Ope.plain]
  | .cls _, _ => by simp only [Ope.plain]
  | .chr _, _ => by simp only [Ope.plain]
  | .dot, _ => by simp only [Ope.plain]
  | .param .., _ => by simp only [Ope.plain]
  | .usr _, _ => by simp only [Ope.plain]
  | .weak _, _ => by simp only [Ope.plain]
  | .bref _, _ => by simp only [Ope.plain]
  | .cut, _ => by simp only [Ope.plain]
  | .null, _ => by simp only [Ope.plain]

theorem plainL_bare : ∀ es : List Ope, Ope.bareL es = true → Ope.plainL es = es
  | [], _ => rfl
  | e :: es, h => by
    simp only [Ope.bareL, Bool.and_eq_true] at h
    simp only [Ope.plainL, plain_bare e h.1, plainL_bare es h.2]
end

/-! ## What is written into the grammar -/

mutual
/-- The first set says that the expression may be empty. -/
def Ope.emptyO : Ope → Bool
  | .seq es _ => Ope.emptyAll es
  | .cho es _ _ => Ope.emptyAny es
  | .rep e mn _ _ => mn == 0 || e.emptyO
  | .and_ _ => true
  | .not_ _ => true
  | .lit t _ => t.isEmpty
  | .cut => true
  | .capScope e => e.emptyO
  | .cap _ e => e.emptyO
  | .tok e => e.emptyO
  | .ign e => e.emptyO
  | .ws e => e.emptyO
  | _ => false

def Ope.emptyAll : List Ope → Bool
  | [] => true
  | e :: es => e.emptyO && Ope.emptyAll es

def Ope.emptyAny : List Ope → Bool
  | [] => false
  | e :: es => e.emptyO || Ope.emptyAny es
end

mutual
theorem fsOpe_empty (ref : Nat → FsSt → FirstSet × FsSt) : ∀ (e : Ope) (s : FsSt), e.emptyO = true →
    (fsOpe ref e s).1.canBeEmpty = true
  | .seq es _, s, h => by
    simp only [Ope.emptyO] at h
    simp only [fsOpe]
    exact fsSeq_empty ref es _ s h
  | .cho es _ _, s, h => by
    simp only [Ope.emptyO] at h
    simp only [fsOpe]
    exact fsCho_empty ref es _ s (Or.inr h)
  | .rep e mn _ _, s, h => by
    simp only [Ope.emptyO, Bool.or_eq_true] at h
    simp only [fsOpe, Bool.or_eq_true]
    exact h.symm.imp (fsOpe_empty ref e s) id
  | .and_ _, s, h => by simp only [fsOpe]
  | .not_ _, s, h => by simp only [fsOpe]
  | .lit [] _, s, h => by simp only [fsOpe]
  | .lit (_ :: _) _, s, h => by simp [Ope.emptyO] at h
  | .cut, s, h => by simp only [fsOpe]
  | .capScope e, s, h => by simp only [Ope.emptyO] at h; simp only [fsOpe]; exact fsOpe_empty ref e s h
  | .cap _ e, s, h => by simp only [Ope.emptyO] at h; simp only [fsOpe]; exact fsOpe_empty ref e s h
  | .tok e, s, h => by simp only [Ope.emptyO] at h; simp only [fsOpe]; exact fsOpe_empty ref e s h
  | .ign e, s, h => by simp only [Ope.emptyO] at h; simp only [fsOpe]; exact fsOpe_empty ref e s h
  | .ws e, s, h => by simp only [Ope.emptyO] at h; simp only [fsOpe]; exact fsOpe_empty ref e s h
  | .dict .., s, h => by simp [Ope.emptyO] at h
  | .cls _, s, h => by simp [Ope.emptyO] at h
  | .chr _, s, h => by simp [Ope.emptyO] at h
  | .dot, s, h => by simp [Ope.emptyO] at h
  | .usr _, s, h => by simp [Ope.emptyO] at h
  | .weak _, s, h => by simp [Ope.emptyO] at h
  | .ref .., s, h => by simp [Ope.emptyO] at h
  | .param .., s, h => by simp [Ope.emptyO] at h
  | .bref _, s, h => by simp [Ope.emptyO] at h
  | .prec .., s, h => by simp [Ope.emptyO] at h
  | .recov .., s, h => by simp [Ope.emptyO] at h
  | .null, s, h => by simp [Ope.emptyO] at h

theorem fsSeq_empty (ref : Nat → FsSt → FirstSet × FsSt) : ∀ (es : List Ope) (acc : FirstSet) (s : FsSt),
    Ope.emptyAll es = true → (fsSeq ref es acc s).1.canBeEmpty = true
  | [], acc, s, _ => by simp only [fsSeq]
  | e :: es, acc, s, h => by
    simp only [Ope.emptyAll, Bool.and_eq_true] at h
    simp only [fsSeq]
    rw [if_pos (fsOpe_empty ref e s h.1)]
    exact fsSeq_empty ref es _ _ h.2

theorem fsCho_empty (ref : Nat → FsSt → FirstSet × FsSt) : ∀ (es : List Ope) (acc : FirstSet) (s : FsSt),
    acc.canBeEmpty = true ∨ Ope.emptyAny es = true → (fsCho ref es acc s).1.canBeEmpty = true
  | [], acc, s, h => by
    simp only [fsCho]
    exact h.resolve_right (by simp [Ope.emptyAny])
  | e :: es, acc, s, h => by
    simp only [Ope.emptyAny, Bool.or_eq_true] at h
    simp only [fsCho]
    refine fsCho_empty ref es _ _ ?_
    rcases h with h | h | h
    · left; simp [FirstSet.merge, h]
    · left; simp [FirstSet.merge, fsOpe_empty ref e s h]
    · exact Or.inr h
end

section
variable {cfg : Cfg V} {C : Cert} {F : FsCert} {al : Nat → Prop}

/-- What is known about the annotation of a node of a grammar annotated from `cfg`. -/
def AnnNode (cfg : Cfg V) (C : Cert) (F : FsCert) (al : Nat → Prop) : Ope → Prop
  | .seq es (some kw) => kwSetup cfg.rules (Ope.plainL es) = some kw
  | .cho es _ fs => ∀ (k : Nat) (f : FirstSet) (e : Ope), fs[k]? = some f → es[k]? = some e →
      (e.plain.emptyO = true → f.canBeEmpty = true) ∧
      (F.safeO C cfg.ws.isSome e.plain = true → Snd cfg.gram al f (.ope e.plain)) ∧
      (∀ (r : Nat) (nm : List Byte) (ts : List Ope) (g : Option KwGuard), e.plain = .seq (.ref r nm [] :: ts) g → F.safe r = true →
        LrSnd cfg al r f)
  | .rep e _ _ (some c) => e = .cls c ∧ c.isAsciiOnly = true
  | .ref _ _ as => Ope.bareL as = true
  | .recov _ _ as => Ope.bareL as = true
  | _ => True

mutual
theorem ann_bare : ∀ e : Ope, e.bare = true → e.Each (AnnNode cfg C F al)
  | .seq es kw, h => by
    simp only [Ope.bare, Bool.and_eq_true, Option.isNone_iff_eq_none] at h
    rw [h.1]
    exact ⟨trivial, ann_bareL es h.2⟩
  | .cho es l fs, h => by
    simp only [Ope.bare, Bool.and_eq_true, List.isEmpty_iff] at h
    rw [h.1]
    exact ⟨(fun k f e h => by simp at h), ann_bareL es h.2⟩
  | .rep e mn mx sp, h => by
    simp only [Ope.bare, Bool.and_eq_true, Option.isNone_iff_eq_none] at h
    rw [h.1]
    exact ⟨trivial, ann_bare e h.2⟩
  | .and_ e, h => ⟨trivial, ann_bare e (by simpa only [Ope.bare] using h)⟩
  | .not_ e, h => ⟨trivial, ann_bare e (by simpa only [Ope.bare] using h)⟩
  | .dict _ _, _ => trivial
  | .lit _ _, _ => trivial
  | .cls _, _ => trivial
  | .chr _, _ => trivial
  | .dot, _ => trivial
  | .capScope e, h => ⟨trivial, ann_bare e (by simpa only [Ope.bare] using h)⟩
  | .cap _ e, h => ⟨trivial, ann_bare e (by simpa only [Ope.bare] using h)⟩
  | .tok e, h => ⟨trivial, ann_bare e (by simpa only [Ope.bare] using h)⟩
  | .ign e, h => ⟨trivial, ann_bare e (by simpa only [Ope.bare] using h)⟩
  | .usr _, _ => trivial
  | .weak _, _ => trivial
  | .ref _ _ as, h => ⟨(by simp only [Ope.bare] at h; exact h), ann_bareL as (by simpa only [Ope.bare] using h)⟩
  | .param _ _, _ => trivial
  | .ws e, h => ⟨trivial, ann_bare e (by simpa only [Ope.bare] using h)⟩
  | .bref _, _ => trivial
  | .prec .., h => by simp [Ope.bare] at h
  | .recov _ _ as, h => ⟨(by simp only [Ope.bare] at h; exact h), ann_bareL as (by simpa only [Ope.bare] using h)⟩
  | .cut, _ => trivial
  | .null, _ => trivial

theorem ann_bareL : ∀ es : List Ope, Ope.bareL es = true → Ope.EachL (AnnNode cfg C F al) es
  | [], _ => trivial
  | e :: es, h => by
    simp only [Ope.bareL, Bool.and_eq_true] at h
    exact ⟨ann_bare e h.1, ann_bareL es h.2⟩
end

/-- The state of the annotation. -/
structure SetupInv (cfg : Cfg V) (C : Cert) (F : FsCert) (al : Nat → Prop) (s : SetupSt) : Prop where
  plain : s.rules.map Def.plain = cfg.rules
  ann : ∀ d ∈ s.rules, d.ope.Each (AnnNode cfg C F al)
  cache : ∀ r f, (r, f) ∈ s.cache → RuleFs cfg C F al r f

theorem fsAlts_ok (hG : FsOkG cfg C F al) {b : Nat} {κ : MCtx} {m : Mode} : ∀ (es : List Ope) (c : List (Nat × FirstSet)),
    wfAll cfg C κ false m b es = true → Ope.noWsL es = true → (∀ r f, (r, f) ∈ c → RuleFs cfg C F al r f) →
    (∀ r f, (r, f) ∈ (fsAlts cfg.rules es c).2 → RuleFs cfg C F al r f) ∧
      ∀ (k : Nat) (f : FirstSet) (e : Ope), (fsAlts cfg.rules es c).1[k]? = some f → es[k]? = some e →
        (e.emptyO = true → f.canBeEmpty = true) ∧ (F.safeO C cfg.ws.isSome e = true → Snd cfg.gram al f (.ope e)) ∧
        (∀ (r : Nat) (nm : List Byte) (ts : List Ope) (g : Option KwGuard), e = .seq (.ref r nm [] :: ts) g → F.safe r = true →
          LrSnd cfg al r f)
  | [], c, _, _, hc => ⟨hc, fun k f e h => by simp [fsAlts] at h⟩
  | e :: es, c, hw, hn, hc => by
    simp only [wfAll, Bool.and_eq_true] at hw
    simp only [Ope.noWsL, Bool.and_eq_true] at hn
    obtain ⟨h1, -, h3⟩ := fsAlt_ok hG hw.1 hn.1 hc
    obtain ⟨k1, k2⟩ := fsAlts_ok hG es _ hw.2 hn.2 h1
    simp only [fsAlts]
    refine ⟨k1, fun k f e' hf he => ?_⟩
    cases k with
    | zero =>
      simp only [List.getElem?_cons_zero, Option.some.injEq] at hf he
      subst hf; subst he
      refine ⟨fun h => fsOpe_empty _ _ _ h, h3, ?_⟩
      rintro r nm ts g rfl hs
      exact fsAlt_lr hG hw.1 hc hs
    | succ k =>
      simp only [List.getElem?_cons_succ] at hf he
      exact k2 k f e' hf he

theorem wf_subSeq {κ : MCtx} {m : Mode} {b : Nat} {e : Ope} {es : List Ope} (h : wfSeq cfg C κ false m b (e :: es) = true) :
    wf cfg C κ false m b e = true ∧ wfSeq cfg C κ false m C.top es = true := by
  simp only [wfSeq, Bool.and_eq_true] at h
  exact h.1

mutual
theorem setupOpe_ok (hG : FsOkG cfg C F al) {ref : Nat → SetupSt → SetupSt}
    (href : ∀ r s, SetupInv cfg C F al s → SetupInv cfg C F al (ref r s)) :
    ∀ (e : Ope) (b : Nat) (κ : MCtx) (m : Mode) (s : SetupSt), wf cfg C κ false m b e = true → e.noWsO = true → e.bare = true →
      SetupInv cfg C F al s →
      (setupOpe cfg.rules ref e s).1.plain = e ∧ (setupOpe cfg.rules ref e s).1.Each (AnnNode cfg C F al) ∧
        SetupInv cfg C F al (setupOpe cfg.rules ref e s).2
  | .seq es kw, b, κ, m, s, hw, hn, hb, hi => by
    simp only [wf] at hw
    simp only [Ope.noWsO] at hn
    simp only [Ope.bare, Bool.and_eq_true, Option.isNone_iff_eq_none] at hb
    obtain ⟨h1, h2, h3⟩ := setupSeq_ok hG href es b κ m s hw hn hb.2 hi
    simp only [setupOpe]
    refine ⟨by simp only [Ope.plain, h1, hb.1], ?_, h3⟩
    simp only [Ope.Each]
    refine ⟨?_, h2⟩
    cases hk : kwSetup cfg.rules es with
    | none => trivial
    | some kw => simp only [AnnNode, h1, hk]
  | .cho es l fs, b, κ, m, s, hw, hn, hb, hi => by
    simp only [wf, Bool.and_eq_true] at hw
    simp only [Ope.noWsO] at hn
    simp only [Ope.bare, Bool.and_eq_true, List.isEmpty_iff] at hb
    obtain ⟨k1, k2⟩ := fsAlts_ok hG es s.cache hw.1.2 hn hi.cache
    obtain ⟨h1, h2, h3⟩ := setupCho_ok hG href es b κ m { s with cache := (fsAlts cfg.rules es s.cache).2 } hw.1.2 hn hb.2
      ⟨hi.plain, hi.ann, k1⟩
    simp only [setupOpe]
    refine ⟨by simp only [Ope.plain, h1, hb.1], ?_, h3⟩
    simp only [Ope.Each]
    refine ⟨?_, h2⟩
    intro k f e hf he
    refine k2 k f e.plain hf ?_
    have := congrArg (fun l => l[k]?) h1
    simp only [plainL_eq_map, List.getElem?_map, he, Option.map_some] at this
    exact this.symm
  | .rep e mn mx sp, b, κ, m, s, hw, hn, hb, hi => by
    simp only [wf, Bool.and_eq_true] at hw
    simp only [Ope.noWsO] at hn
    simp only [Ope.bare, Bool.and_eq_true, Option.isNone_iff_eq_none] at hb
    obtain ⟨h1, h2, h3⟩ := setupOpe_ok hG href e b κ m s hw.1 hn hb.2 hi
    simp only [setupOpe]
    refine ⟨by simp only [Ope.plain, h1, hb.1], ?_, h3⟩
    simp only [Ope.Each]
    refine ⟨?_, h2⟩
    cases e with
    | cls c =>
      simp only [setupOpe]
      by_cases hc : c.isAsciiOnly = true
      · rw [if_pos hc]; exact ⟨rfl, hc⟩
      · rw [if_neg hc]; trivial
    | _ => trivial
  | .and_ e, b, κ, m, s, hw, hn, hb, hi => by
    simp only [wf] at hw; simp only [Ope.noWsO] at hn; simp only [Ope.bare] at hb
    obtain ⟨h1, h2, h3⟩ := setupOpe_ok hG href e b κ m s hw hn hb hi
    simp only [setupOpe]
    exact ⟨by simp only [Ope.plain, h1], ⟨trivial, h2⟩, h3⟩
  | .not_ e, b, κ, m, s, hw, hn, hb, hi => by
    simp only [wf] at hw; simp only [Ope.noWsO] at hn; simp only [Ope.bare] at hb
    obtain ⟨h1, h2, h3⟩ := setupOpe_ok hG href e b κ m s hw hn hb hi
    simp only [setupOpe]
    exact ⟨by simp only [Ope.plain, h1], ⟨trivial, h2⟩, h3⟩
  | .capScope e, b, κ, m, s, hw, hn, hb, hi => by
    simp only [wf] at hw; simp only [Ope.noWsO] at hn; simp only [Ope.bare] at hb
    obtain ⟨h1, h2, h3⟩ := setupOpe_ok hG href e b κ m s hw hn hb hi
    simp only [setupOpe]
    exact ⟨by simp only [Ope.plain, h1], ⟨trivial, h2⟩, h3⟩
  | .cap nm e, b, κ, m, s, hw, hn, hb, hi => by
    simp only [wf, Bool.and_eq_true] at hw; simp only [Ope.noWsO] at hn; simp only [Ope.bare] at hb
    obtain ⟨h1, h2, h3⟩ := setupOpe_ok hG href e b κ m s hw.2 hn hb hi
    simp only [setupOpe]
    exact ⟨by simp only [Ope.plain, h1], ⟨trivial, h2⟩, h3⟩
  | .tok e, b, κ, m, s, hw, hn, hb, hi => by
    simp only [wf, Bool.and_eq_true] at hw; simp only [Ope.noWsO] at hn; simp only [Ope.bare] at hb
    obtain ⟨h1, h2, h3⟩ := setupOpe_ok hG href e b κ _ s hw.1 hn hb hi
    simp only [setupOpe]
    exact ⟨by simp only [Ope.plain, h1], ⟨trivial, h2⟩, h3⟩
  | .ign e, b, κ, m, s, hw, hn, hb, hi => by
    simp only [wf] at hw; simp only [Ope.noWsO] at hn; simp only [Ope.bare] at hb
    obtain ⟨h1, h2, h3⟩ := setupOpe_ok hG href e b κ m s hw hn hb hi
    simp only [setupOpe]
    exact ⟨by simp only [Ope.plain, h1], ⟨trivial, h2⟩, h3⟩
  | .ws e, b, κ, m, s, hw, hn, hb, hi => by simp [Ope.noWsO] at hn
  | .ref r nm as, b, κ, m, s, hw, hn, hb, hi => by
    simp only [setupOpe]
    exact ⟨plain_bare _ hb, ann_bare _ hb, href r s hi⟩
  | .dict _ _, b, κ, m, s, hw, hn, hb, hi => ⟨rfl, trivial, hi⟩
  | .lit _ _, b, κ, m, s, hw, hn, hb, hi => ⟨rfl, trivial, hi⟩
  | .cls _, b, κ, m, s, hw, hn, hb, hi => ⟨rfl, trivial, hi⟩
  | .chr _, b, κ, m, s, hw, hn, hb, hi => ⟨rfl, trivial, hi⟩
  | .dot, b, κ, m, s, hw, hn, hb, hi => ⟨rfl, trivial, hi⟩
  | .param _ _, b, κ, m, s, hw, hn, hb, hi => ⟨rfl, trivial, hi⟩
  | .bref _, b, κ, m, s, hw, hn, hb, hi => ⟨rfl, trivial, hi⟩
  | .cut, b, κ, m, s, hw, hn, hb, hi => ⟨rfl, trivial, hi⟩
  | .usr _, b, κ, m, s, hw, hn, hb, hi => by simp [wf] at hw
  | .weak _, b, κ, m, s, hw, hn, hb, hi => by simp [wf] at hw
  | .prec .., b, κ, m, s, hw, hn, hb, hi => by simp [wf] at hw
  | .recov .., b, κ, m, s, hw, hn, hb, hi => by simp [wf] at hw
  | .null, b, κ, m, s, hw, hn, hb, hi => by simp [wf] at hw

theorem setupSeq_ok (hG : FsOkG cfg C F al) {ref : Nat → SetupSt → SetupSt}
    (href : ∀ r s, SetupInv cfg C F al s → SetupInv cfg C F al (ref r s)) :
    ∀ (es : List Ope) (b : Nat) (κ : MCtx) (m : Mode) (s : SetupSt), wfSeq cfg C κ false m b es = true → Ope.noWsL es = true →
      Ope.bareL es = true → SetupInv cfg C F al s →
      Ope.plainL (setupList cfg.rules ref es s).1 = es ∧ Ope.EachL (AnnNode cfg C F al) (setupList cfg.rules ref es s).1 ∧
        SetupInv cfg C F al (setupList cfg.rules ref es s).2
  | [], b, κ, m, s, hw, hn, hb, hi => ⟨rfl, trivial, hi⟩
  | e :: es, b, κ, m, s, hw, hn, hb, hi => by
    obtain ⟨w1, w2⟩ := wf_subSeq hw
    simp only [Ope.noWsL, Bool.and_eq_true] at hn
    simp only [Ope.bareL, Bool.and_eq_true] at hb
    obtain ⟨h1, h2, h3⟩ := setupOpe_ok hG href e b κ m s w1 hn.1 hb.1 hi
    obtain ⟨k1, k2, k3⟩ := setupSeq_ok hG href es C.top κ m _ w2 hn.2 hb.2 h3
    simp only [setupList]
    exact ⟨by simp only [Ope.plainL, h1, k1], ⟨h2, k2⟩, k3⟩

theorem setupCho_ok (hG : FsOkG cfg C F al) {ref : Nat → SetupSt → SetupSt}
    (href : ∀ r s, SetupInv cfg C F al s → SetupInv cfg C F al (ref r s)) :
    ∀ (es : List Ope) (b : Nat) (κ : MCtx) (m : Mode) (s : SetupSt), wfAll cfg C κ false m b es = true → Ope.noWsL es = true →
      Ope.bareL es = true → SetupInv cfg C F al s →
      Ope.plainL (setupList cfg.rules ref es s).1 = es ∧ Ope.EachL (AnnNode cfg C F al) (setupList cfg.rules ref es s).1 ∧
        SetupInv cfg C F al (setupList cfg.rules ref es s).2
  | [], b, κ, m, s, hw, hn, hb, hi => ⟨rfl, trivial, hi⟩
  | e :: es, b, κ, m, s, hw, hn, hb, hi => by
    simp only [wfAll, Bool.and_eq_true] at hw
    simp only [Ope.noWsL, Bool.and_eq_true] at hn
    simp only [Ope.bareL, Bool.and_eq_true] at hb
    obtain ⟨h1, h2, h3⟩ := setupOpe_ok hG href e b κ m s hw.1 hn.1 hb.1 hi
    obtain ⟨k1, k2, k3⟩ := setupCho_ok hG href es b κ m _ hw.2 hn.2 hb.2 h3
    simp only [setupList]
    exact ⟨by simp only [Ope.plainL, h1, k1], ⟨h2, k2⟩, k3⟩
end

theorem plain_bareR {e : Ope} (h : e.bareR = true) : e.plain = e := by
  by_cases hp : e.isPrec = false
  · exact plain_bare e (Ope.bare_of_bareR h hp)
  · cases e with
    | prec a b info r =>
      simp only [Ope.bareR, Bool.and_eq_true] at h
      simp only [Ope.plain, plain_bare a h.1, plain_bare b h.2]
    | _ => simp [Ope.isPrec] at hp

theorem ann_bareR {e : Ope} (h : e.bareR = true) : e.Each (AnnNode cfg C F al) := by
  by_cases hp : e.isPrec = false
  · exact ann_bare e (Ope.bare_of_bareR h hp)
  · cases e with
    | prec a b info r => trivial
    | _ => simp [Ope.isPrec] at hp

theorem wfAll_lead {r : Nat} {m : Mode} (href : ∀ nm, wf cfg C {} false m (C.rank r + 1) (.ref r nm []) = true) (hnull : C.null r = false) :
    ∀ es : List Ope, wfAll cfg C {} false m (C.rank r) (lrSplit r es).2 = true →
      (∀ x ∈ (lrSplit r es).1, wfSeq cfg C {} false m C.top x = true) → wfAll cfg C {} false m (C.rank r + 1) es = true
  | [], _, _ => rfl
  | e :: rest, h1, h2 => by
    unfold lrSplit at h1 h2
    split at h1
    · rename_i r' nm es kw
      by_cases he : r' = r
      · subst he
        simp only [if_true] at h1 h2
        simp only [wfAll, wf, Bool.and_eq_true]
        refine ⟨?_, wfAll_lead href hnull rest h1 fun x hx => h2 x (List.mem_cons_of_mem _ hx)⟩
        simp only [wfSeq, Bool.and_eq_true, Cert.nul, hnull]
        exact ⟨⟨href nm, h2 es (List.mem_cons_self ..)⟩, by simp⟩
      · rw [if_neg he] at h1
        exact wfAll_mono (Nat.le_succ _) _ h1
    · exact wfAll_mono (Nat.le_succ _) _ h1

/-- The body of a rule passes the test in some context. -/
theorem ruleWf (hG : FsOkG cfg C F al) {r : Nat} {d : Def} (hd : cfg.rules[r]? = some d) (hp : d.ope.isPrec = false) :
    ∃ b κ m', wf cfg C κ false m' b d.ope = true := by
  have hrule := Cert.ruleOk_of hG.check hd
  simp only [Cert.ruleOk, Bool.and_eq_true, List.all_eq_true, Bool.or_eq_true, Bool.not_eq_true'] at hrule
  obtain ⟨m, hm⟩ := hG.used r d hd
  have h1 := hrule.1.1.1.1.1 m (mem_allModes m)
  rw [hm] at h1
  simp only [Bool.true_eq_false, false_or] at h1
  by_cases hmac : d.isMacro = true
  · rw [if_pos hmac] at h1
    exact ⟨_, _, _, h1⟩
  · rw [if_neg hmac] at h1
    by_cases hlr : d.isLR = true
    · rw [if_pos hlr] at h1
      refine ⟨C.rank r + 1, {}, m, ?_⟩
      unfold Cert.lrOk at h1
      split at h1
      case h_2 => cases h1
      rename_i es l fs ho
      simp only [Bool.and_eq_true, Bool.not_eq_true', List.all_eq_true] at h1
      obtain ⟨⟨⟨⟨⟨⟨⟨⟨⟨⟨-, e1⟩, -⟩, -⟩, -⟩, e5⟩, -⟩, e7⟩, e8⟩, e9⟩, -⟩ := h1
      rw [ho]
      simp only [wf, Bool.and_eq_true, Bool.not_eq_true']
      refine ⟨⟨e1, ?_⟩, e9⟩
      have hplain : d.isMacro = false := by simpa using hmac
      have hpar : ∀ nm, wf cfg C {} false m (C.rank r + 1) (.ref r nm []) = true := by
        intro nm
        simp only [wf, hd, hplain, hm]
        simp
      exact wfAll_lead hpar e5 es e7 e8
    rw [if_neg hlr] at h1
    simp only [Bool.and_eq_true, hp, Bool.false_eq_true, if_false] at h1
    exact ⟨_, _, _, h1.1⟩

/-- The body of a precedence rule passes its test. -/
theorem rulePrec (hG : FsOkG cfg C F al) {r : Nat} {d : Def} (hd : cfg.rules[r]? = some d) (hp : d.ope.isPrec = true) :
    ∃ m', Cert.precOk cfg C m' r d.ope = true := by
  have hrule := Cert.ruleOk_of hG.check hd
  simp only [Cert.ruleOk, Bool.and_eq_true, List.all_eq_true, Bool.or_eq_true, Bool.not_eq_true'] at hrule
  obtain ⟨m, hm⟩ := hG.used r d hd
  have h1 := hrule.1.1.1.1.1 m (mem_allModes m)
  rw [hm] at h1
  simp only [Bool.true_eq_false, false_or] at h1
  by_cases hmac : d.isMacro = true
  · rw [if_pos hmac] at h1
    cases he : d.ope <;> simp only [he, Ope.isPrec, Bool.false_eq_true] at hp
    rw [he] at h1
    simp [wf] at h1
  · rw [if_neg hmac] at h1
    by_cases hlr : d.isLR = true
    · rw [if_pos hlr] at h1
      unfold Cert.lrOk at h1
      cases he : d.ope <;> simp only [he, Ope.isPrec, Bool.false_eq_true] at hp
      rw [he] at h1
      cases h1
    rw [if_neg hlr] at h1
    simp only [Bool.and_eq_true, hp, if_true] at h1
    exact ⟨_, h1.1⟩

/-- A rule's body, annotated. -/
theorem setupBody_ok (hG : FsOkG cfg C F al) {ref : Nat → SetupSt → SetupSt}
    (href : ∀ r s, SetupInv cfg C F al s → SetupInv cfg C F al (ref r s)) {r : Nat} {d : Def} (hd : cfg.rules[r]? = some d)
    (hb : d.ope.bareR = true) (s : SetupSt) (hi : SetupInv cfg C F al s) :
    (setupOpe cfg.rules ref d.ope s).1.plain = d.ope ∧ (setupOpe cfg.rules ref d.ope s).1.Each (AnnNode cfg C F al) ∧
      SetupInv cfg C F al (setupOpe cfg.rules ref d.ope s).2 := by
  by_cases hp : d.ope.isPrec = false
  · obtain ⟨b, κ, m', hw⟩ := ruleWf hG hd hp
    exact setupOpe_ok hG href d.ope _ κ m' s hw (hG.noWs r d hd) (Ope.bare_of_bareR hb hp) hi
  · obtain ⟨m', hw⟩ := rulePrec hG hd (by simpa using hp)
    have hn := hG.noWs r d hd
    unfold Cert.precOk at hw
    split at hw
    · rename_i e a anm b bnm info rule he
      rw [he] at hb hn ⊢
      simp only [Bool.and_eq_true] at hw
      simp only [Ope.bareR, Bool.and_eq_true] at hb
      obtain ⟨h1, h2, h3⟩ := setupOpe_ok hG href (.ref a anm []) _ {} m' s hw.1.1.1.2 rfl hb.1 hi
      simp only [setupOpe] at h1 h2 h3 ⊢
      exact ⟨by simp only [Ope.plain, Ope.plainL], trivial, h3⟩
    · cases hw

theorem setupRule_ok (hG : FsOkG cfg C F al) (hbare : ∀ (r : Nat) (d : Def), cfg.rules[r]? = some d → d.ope.bareR = true) :
    ∀ (n r : Nat) (s : SetupSt), SetupInv cfg C F al s → SetupInv cfg C F al (setupRule cfg.rules n r s)
  | 0, r, s, hi => hi
  | n + 1, r, s, hi => by
    simp only [setupRule]
    cases hd : cfg.rules[r]? with
    | none => exact hi
    | some d =>
      simp only
      by_cases hv : r ∈ s.visited
      · rw [if_pos hv]; exact hi
      · rw [if_neg hv]
        obtain ⟨h1, h2, h3⟩ := setupBody_ok hG (setupRule_ok hG hbare n) hd (hbare r d hd) { s with visited := r :: s.visited }
          ⟨hi.plain, hi.ann, hi.cache⟩
        refine ⟨?_, ?_, h3.cache⟩
        · simp only [List.map_set, h3.plain, Def.plain, h1]
          refine List.ext_getElem? fun q => ?_
          by_cases hq : r = q
          · subst hq
            have hlt : r < cfg.rules.length := (List.getElem?_eq_some_iff.mp hd).1
            rw [List.getElem?_set_self hlt, hd]
          · rw [List.getElem?_set_ne hq]
        · intro d' hd'
          rcases List.mem_or_eq_of_mem_set hd' with h | h
          · exact h3.ann d' h
          · rw [h]; exact h2

theorem setupAll_ok (hG : FsOkG cfg C F al) (hbare : ∀ (r : Nat) (d : Def), cfg.rules[r]? = some d → d.ope.bareR = true)
    (order : List Nat) : (setupAll cfg.rules order).map Def.plain = cfg.rules ∧
      ∀ d ∈ setupAll cfg.rules order, d.ope.Each (AnnNode cfg C F al) := by
  have key : ∀ (l : List Nat) (s : SetupSt), SetupInv cfg C F al s →
      SetupInv cfg C F al (l.foldl (fun s r => setupRule cfg.rules (cfg.rules.length + 1) r s) s) := by
    intro l
    induction l with
    | nil => intro s h; exact h
    | cons r l ih => intro s h; exact ih _ (setupRule_ok hG hbare _ r s h)
  have h0 : SetupInv cfg C F al { rules := cfg.rules } := by
    refine ⟨?_, ?_, fun r f h => by cases h⟩
    · refine (List.map_congr_left fun d hd => ?_).trans (List.map_id _)
      obtain ⟨r, hr⟩ := List.mem_iff_getElem?.mp hd
      simp only [Def.plain, plain_bareR (hbare r d hr), id]
    · intro d hd
      obtain ⟨r, hr⟩ := List.mem_iff_getElem?.mp hd
      exact ann_bareR (hbare r d hr)
  have := key order _ h0
  exact ⟨this.plain, this.ann⟩

/-! ## The test of a grammar without annotations -/

mutual
/-- All literals and dictionary words are UTF-8. -/
def Ope.litsO : Ope → Bool
  | .seq es _ => Ope.litsL es
  | .cho es _ _ => Ope.litsL es
  | .rep e _ _ _ => e.litsO
  | .and_ e => e.litsO
  | .not_ e => e.litsO
  | .dict words _ => words.all isText
  | .lit t _ => isText t
  | .capScope e => e.litsO
  | .cap _ e => e.litsO
  | .tok e => e.litsO
  | .ign e => e.litsO
  | .ws e => e.litsO
  | .ref _ _ as => Ope.litsL as
  | .recov _ _ as => Ope.litsL as
  | _ => true

def Ope.litsL : List Ope → Bool
  | [] => true
  | e :: es => e.litsO && Ope.litsL es
end

/-- The span scan of `e{mn,mx}` is right (or there is none). -/
def spanOkB (e : Ope) (mn : Nat) (mx : Option Nat) : Bool :=
  match e with
  | .cls c => !c.isAsciiOnly || (Cls.uniform c && mx.all (mn ≤ ·))
  | _ => true

mutual
/-- First sets, span scans and keyword guards of the expression are right; `kw` tests sequences that get a keyword guard. -/
def FsCert.okO (F : FsCert) (C : Cert) (ws : Bool) (kw : List Ope → Bool) : Ope → Bool
  | .seq es _ => kw es && F.okL C ws kw es
  | .cho es _ _ => (es.all fun e => e.emptyO || F.safeO C ws e) && F.okL C ws kw es
  | .rep e mn mx _ => spanOkB e mn mx && F.okO C ws kw e
  | .and_ e => F.okO C ws kw e
  | .not_ e => F.okO C ws kw e
  | .capScope e => F.okO C ws kw e
  | .cap _ e => F.okO C ws kw e
  | .tok e => F.okO C ws kw e
  | .ign e => F.okO C ws kw e
  | .ws e => F.okO C ws kw e
  | _ => true

def FsCert.okL (F : FsCert) (C : Cert) (ws : Bool) (kw : List Ope → Bool) : List Ope → Bool
  | [] => true
  | e :: es => F.okO C ws kw e && F.okL C ws kw es
end

/-- The test.  It does not look at the input. -/
def FsCert.check (F : FsCert) (C : Cert) (cfg : Cfg V) (kw : List Ope → Bool) : Bool :=
  (cfg.rules.zipIdx.all fun (d, r) => d.ope.bareR && d.ope.noWsO && d.ope.litsO && F.okO C cfg.ws.isSome kw d.ope &&
    allModes.any (C.modes r) && (!F.q.lk true d.ope || !F.quiet r) &&
    (!F.safe r || (F.safeO C cfg.ws.isSome d.ope && (d.isMacro || !d.noWs || !C.nul true d.ope || cfg.ws.isNone)))) &&
  (cfg.ws.all fun w => !F.q.lk true w)

theorem FsCert.check_rule {kw : List Ope → Bool} (h : F.check C cfg kw = true) {r : Nat} {d : Def} (hd : cfg.rules[r]? = some d) :
    d.ope.bareR = true ∧ d.ope.noWsO = true ∧ d.ope.litsO = true ∧ F.okO C cfg.ws.isSome kw d.ope = true ∧
      (∃ m, C.modes r m = true) ∧ (F.q.lk true d.ope = true → F.quiet r = false) ∧
      (F.safe r = true → F.safeO C cfg.ws.isSome d.ope = true ∧
        (d.isMacro = false → d.noWs = true → (!C.nul true d.ope || cfg.ws.isNone) = true)) := by
  unfold FsCert.check at h
  simp only [Bool.and_eq_true, List.all_eq_true] at h
  have := h.1 (d, r) (List.mem_zipIdx_iff_getElem?.mpr hd)
  simp only [Bool.and_eq_true, Bool.or_eq_true, Bool.not_eq_true', List.any_eq_true] at this
  obtain ⟨⟨⟨⟨⟨⟨h1, h2⟩, h3⟩, h4⟩, h5⟩, h6⟩, h7⟩ := this
  obtain ⟨m, -, hm⟩ := h5
  refine ⟨h1, h2, h3, h4, ⟨m, hm⟩, fun h => h6.resolve_left (by rw [h]; simp), fun h => ?_⟩
  rcases h7 with h7 | h7
  · rw [h] at h7; cases h7
  · refine ⟨h7.1, fun a b => ?_⟩
    rw [a, b] at h7
    simpa using h7.2

theorem FsOkG.of_check {kw : List Ope → Bool} (hc : C.check cfg = true) (h : F.check C cfg kw = true) :
    FsOkG cfg C F (Bdry cfg.input) where
  check := hc
  used r d hd := (FsCert.check_rule h hd).2.2.2.2.1
  noWs r d hd := (FsCert.check_rule h hd).2.1
  proper i hi := Text.proper hi
  quiet := by
    refine ⟨fun r d hd hl => ?_, fun w hw => ?_⟩
    · simp only [FsCert.q, (FsCert.check_rule h hd).2.2.2.2.2.1 hl, Bool.not_false]
    · have hw' : cfg.ws = some w := hw
      unfold FsCert.check at h
      rw [hw'] at h
      simp only [Bool.and_eq_true, Option.all_some, Bool.not_eq_true'] at h
      exact h.2
  safe r d hd := (FsCert.check_rule h hd).2.2.2.2.2.2

/-- `cfg'` is `cfg` with annotations. -/
structure AnnOf (cfg cfg' : Cfg V) : Prop where
  input : cfg'.input = cfg.input
  gram : cfg'.gram.plain = cfg.gram

/-- The keyword guards of sequences accepted by `kw` are right. -/
def KwSound (cfg cfg' : Cfg V) (kw : List Ope → Bool) : Prop :=
  ∀ (es : List Ope) (g : KwGuard), kw (Ope.plainL es) = true → kwSetup cfg.rules (Ope.plainL es) = some g →
    KwOk cfg' (Bdry cfg'.input) g es

/-- If no sequence gets a guard. -/
theorem kwSound_none (cfg cfg' : Cfg V) : KwSound cfg cfg' fun es => (kwSetup cfg.rules es).isNone := by
  intro es g h1 h2
  simp only [h2] at h1; cases h1

variable {cfg' : Cfg V}

theorem fsOk_of {f : FirstSet} {e : Ope} (hA : AnnOf cfg cfg') (h1 : e.plain.emptyO = true → f.canBeEmpty = true)
    (h2 : F.safeO C cfg.ws.isSome e.plain = true → Snd cfg.gram (Bdry cfg.input) f (.ope e.plain))
    (h3 : (e.plain.emptyO || F.safeO C cfg.ws.isSome e.plain) = true) : FsOk cfg' (Bdry cfg'.input) f e := by
  intro v m i s x hi hsk hp
  unfold fsSkip at hsk
  cases hr : cfg'.rest i with
  | nil => rw [hr] at hsk; cases hsk
  | cons b t =>
    rw [hr] at hsk
    simp only [Bool.and_eq_true, Bool.not_eq_true', decide_eq_true_eq] at hsk
    obtain ⟨⟨k1, k2⟩, k3⟩ := hsk
    rcases Bool.or_eq_true_iff.mp h3 with h3 | h3
    · rw [h1 h3] at k2; cases k2
    · have hp' := hp.plain
      rw [hA.gram] at hp'
      have hdrop : cfg.gram.input.drop i = b :: t := by
        rw [← hr]; show cfg.input.drop i = cfg'.input.drop i; rw [hA.input]
      rcases h2 h3 _ _ i s x (by rw [hA.input] at hi; exact hi) ⟨k1, b, t, hdrop, k3⟩ hp' with h | ⟨h, -⟩
      · exact h
      · rw [k2] at h; cases h

mutual
theorem bare_lits_nodeOk (hw : ∀ t, Text t → WordAt cfg' t 0) : ∀ e : Ope, e.bare = true → e.litsO = true →
    e.Each (nodeOk cfg' (Bdry cfg'.input))
  | .seq es kw, h, hl => by
    simp only [Ope.bare, Bool.and_eq_true, Option.isNone_iff_eq_none] at h
    rw [h.1]
    exact ⟨trivial, bareL_lits_nodeOk hw es h.2 (by simpa only [Ope.litsO] using hl)⟩
  | .cho es l fs, h, hl => by
    simp only [Ope.bare, Bool.and_eq_true, List.isEmpty_iff] at h
    rw [h.1]
    exact ⟨(fun k f e h => by simp at h), bareL_lits_nodeOk hw es h.2 (by simpa only [Ope.litsO] using hl)⟩
  | .rep e mn mx sp, h, hl => by
    simp only [Ope.bare, Bool.and_eq_true, Option.isNone_iff_eq_none] at h
    rw [h.1]
    exact ⟨trivial, bare_lits_nodeOk hw e h.2 (by simpa only [Ope.litsO] using hl)⟩
  | .and_ e, h, hl => ⟨trivial, bare_lits_nodeOk hw e (by simpa only [Ope.bare] using h) (by simpa only [Ope.litsO] using hl)⟩
  | .not_ e, h, hl => ⟨trivial, bare_lits_nodeOk hw e (by simpa only [Ope.bare] using h) (by simpa only [Ope.litsO] using hl)⟩
  | .dict ws ic, _, hl => by
    simp only [Ope.litsO, List.all_eq_true] at hl
    exact fun i hi _ => bdry_dict (fun w hw => text_of_isText (hl w hw)) ic hi
  | .lit t ic, _, hl => by
    have ht := text_of_isText (by simpa only [Ope.litsO] using hl : isText t = true)
    exact bdry_lit ht ic (hw t ht)
  | .cls _, _, _ => trivial
  | .chr _, _, _ => trivial
  | .dot, _, _ => trivial
  | .capScope e, h, hl => ⟨trivial, bare_lits_nodeOk hw e (by simpa only [Ope.bare] using h) (by simpa only [Ope.litsO] using hl)⟩
  | .cap _ e, h, hl => ⟨trivial, bare_lits_nodeOk hw e (by simpa only [Ope.bare] using h) (by simpa only [Ope.litsO] using hl)⟩
  | .tok e, h, hl => ⟨trivial, bare_lits_nodeOk hw e (by simpa only [Ope.bare] using h) (by simpa only [Ope.litsO] using hl)⟩
  | .ign e, h, hl => ⟨trivial, bare_lits_nodeOk hw e (by simpa only [Ope.bare] using h) (by simpa only [Ope.litsO] using hl)⟩
  | .usr _, _, _ => trivial
  | .weak _, _, _ => trivial
  | .ref _ _ as, h, hl => ⟨trivial, bareL_lits_nodeOk hw as (by simpa only [Ope.bare] using h) (by simpa only [Ope.litsO] using hl)⟩
  | .param _ _, _, _ => trivial
  | .ws e, h, hl => ⟨trivial, bare_lits_nodeOk hw e (by simpa only [Ope.bare] using h) (by simpa only [Ope.litsO] using hl)⟩
  | .bref _, _, _ => trivial
  | .prec .., h, _ => by simp [Ope.bare] at h
  | .recov _ _ as, h, hl => ⟨trivial, bareL_lits_nodeOk hw as (by simpa only [Ope.bare] using h) (by simpa only [Ope.litsO] using hl)⟩
  | .cut, _, _ => trivial
  | .null, _, _ => trivial

theorem bareL_lits_nodeOk (hw : ∀ t, Text t → WordAt cfg' t 0) : ∀ es : List Ope, Ope.bareL es = true → Ope.litsL es = true →
    Ope.EachL (nodeOk cfg' (Bdry cfg'.input)) es
  | [], _, _ => trivial
  | e :: es, h, hl => by
    simp only [Ope.bareL, Bool.and_eq_true] at h
    simp only [Ope.litsL, Bool.and_eq_true] at hl
    exact ⟨bare_lits_nodeOk hw e h.1 hl.1, bareL_lits_nodeOk hw es h.2 hl.2⟩
end

mutual
theorem nodeOk_of_ann {kw : List Ope → Bool} (hA : AnnOf cfg cfg') (hkw : KwSound cfg cfg' kw)
    (hw : ∀ t, Text t → WordAt cfg' t 0) : ∀ e : Ope, e.Each (AnnNode cfg C F (Bdry cfg.input)) → e.noPrec = true →
      e.plain.litsO = true → F.okO C cfg.ws.isSome kw e.plain = true → e.Each (nodeOk cfg' (Bdry cfg'.input))
  | .seq es g, h, hp, hl, ho => by
    simp only [Ope.plain, Ope.litsO] at hl
    simp only [Ope.plain, FsCert.okO, Bool.and_eq_true] at ho
    simp only [Ope.noPrec] at hp
    simp only [Ope.Each] at h ⊢
    refine ⟨?_, nodeOkL_of_ann hA hkw hw es h.2 hp hl ho.2⟩
    cases g with
    | none => trivial
    | some g => exact hkw es g ho.1 h.1
  | .cho es l fs, h, hp, hl, ho => by
    simp only [Ope.plain, Ope.litsO] at hl
    simp only [Ope.plain, FsCert.okO, Bool.and_eq_true, List.all_eq_true] at ho
    simp only [Ope.noPrec] at hp
    simp only [Ope.Each] at h ⊢
    refine ⟨?_, nodeOkL_of_ann hA hkw hw es h.2 hp hl ho.2⟩
    intro k f e hf he
    obtain ⟨h1, h2, -⟩ := h.1 k f e hf he
    refine fsOk_of hA h1 h2 (ho.1 e.plain ?_)
    rw [plainL_eq_map]
    exact List.mem_map_of_mem (List.mem_of_getElem? he)
  | .rep e mn mx sp, h, hp, hl, ho => by
    simp only [Ope.plain, Ope.litsO] at hl
    simp only [Ope.plain, FsCert.okO, Bool.and_eq_true] at ho
    simp only [Ope.noPrec] at hp
    simp only [Ope.Each] at h ⊢
    refine ⟨?_, nodeOk_of_ann hA hkw hw e h.2 hp hl ho.2⟩
    cases sp with
    | none => trivial
    | some c =>
      obtain ⟨rfl, hasc⟩ := h.1
      have h1 := ho.1
      simp only [Ope.plain, spanOkB, hasc, Bool.not_true, Bool.false_or, Bool.and_eq_true] at h1
      exact span_ok hasc h1.1 (by rintro M rfl; simpa using h1.2)
  | .and_ e, h, hp, hl, ho => by
    simp only [Ope.plain, Ope.litsO] at hl
    simp only [Ope.plain, FsCert.okO] at ho
    simp only [Ope.noPrec] at hp
    exact ⟨trivial, nodeOk_of_ann hA hkw hw e h.2 hp hl ho⟩
  | .not_ e, h, hp, hl, ho => by
    simp only [Ope.plain, Ope.litsO] at hl
    simp only [Ope.plain, FsCert.okO] at ho
    simp only [Ope.noPrec] at hp
    exact ⟨trivial, nodeOk_of_ann hA hkw hw e h.2 hp hl ho⟩
  | .capScope e, h, hp, hl, ho => by
    simp only [Ope.plain, Ope.litsO] at hl
    simp only [Ope.plain, FsCert.okO] at ho
    simp only [Ope.noPrec] at hp
    exact ⟨trivial, nodeOk_of_ann hA hkw hw e h.2 hp hl ho⟩
  | .cap _ e, h, hp, hl, ho => by
    simp only [Ope.plain, Ope.litsO] at hl
    simp only [Ope.plain, FsCert.okO] at ho
    simp only [Ope.noPrec] at hp
    exact ⟨trivial, nodeOk_of_ann hA hkw hw e h.2 hp hl ho⟩
  | .tok e, h, hp, hl, ho => by
    simp only [Ope.plain, Ope.litsO] at hl
    simp only [Ope.plain, FsCert.okO] at ho
    simp only [Ope.noPrec] at hp
    exact ⟨trivial, nodeOk_of_ann hA hkw hw e h.2 hp hl ho⟩
  | .ign e, h, hp, hl, ho => by
    simp only [Ope.plain, Ope.litsO] at hl
    simp only [Ope.plain, FsCert.okO] at ho
    simp only [Ope.noPrec] at hp
    exact ⟨trivial, nodeOk_of_ann hA hkw hw e h.2 hp hl ho⟩
  | .ws e, h, hp, hl, ho => by
    simp only [Ope.plain, Ope.litsO] at hl
    simp only [Ope.plain, FsCert.okO] at ho
    simp only [Ope.noPrec] at hp
    exact ⟨trivial, nodeOk_of_ann hA hkw hw e h.2 hp hl ho⟩
  | .dict ws ic, h, hp, hl, ho => bare_lits_nodeOk hw _ rfl hl
  | .lit t ic, h, hp, hl, ho => bare_lits_nodeOk hw _ rfl hl
  | .ref r nm as, h, hp, hl, ho => by
    have hb : Ope.bareL as = true := h.1
    have := plainL_bare as hb
    simp only [Ope.plain, this] at hl
    exact bare_lits_nodeOk hw _ (by simpa only [Ope.bare] using hb) hl
  | .recov r nm as, h, hp, hl, ho => by
    have hb : Ope.bareL as = true := h.1
    have := plainL_bare as hb
    simp only [Ope.plain, this] at hl
    exact bare_lits_nodeOk hw _ (by simpa only [Ope.bare] using hb) hl
  | .prec .., h, hp, hl, ho => by simp [Ope.noPrec] at hp
  | .cls _, _, _, _, _ => trivial
  | .chr _, _, _, _, _ => trivial
  | .dot, _, _, _, _ => trivial
  | .usr _, _, _, _, _ => trivial
  | .weak _, _, _, _, _ => trivial
  | .param _ _, _, _, _, _ => trivial
  | .bref _, _, _, _, _ => trivial
  | .cut, _, _, _, _ => trivial
  | .null, _, _, _, _ => trivial

theorem nodeOkL_of_ann {kw : List Ope → Bool} (hA : AnnOf cfg cfg') (hkw : KwSound cfg cfg' kw)
    (hw : ∀ t, Text t → WordAt cfg' t 0) : ∀ es : List Ope, Ope.EachL (AnnNode cfg C F (Bdry cfg.input)) es →
      Ope.noPrecList es = true → Ope.litsL (Ope.plainL es) = true → F.okL C cfg.ws.isSome kw (Ope.plainL es) = true →
      Ope.EachL (nodeOk cfg' (Bdry cfg'.input)) es
  | [], _, _, _, _ => trivial
  | e :: es, h, hp, hl, ho => by
    simp only [Ope.plainL, Ope.litsL, Bool.and_eq_true] at hl
    simp only [Ope.plainL, FsCert.okL, Bool.and_eq_true] at ho
    simp only [Ope.noPrecList, Bool.and_eq_true] at hp
    exact ⟨nodeOk_of_ann hA hkw hw e h.1 hp.1 hl.1 ho.1, nodeOkL_of_ann hA hkw hw es h.2 hp.2 hl.2 ho.2⟩
end

/-- What follows a left-recursive call stands in an alternative. -/
theorem lrSplit_get (r : Nat) : ∀ (es : List Ope) (k : Nat), k < (lrSplit r es).1.length →
    ∃ nm ts g, es[k]? = some (.seq (.ref r nm [] :: ts) g)
  | [], k, h => by simp [lrSplit] at h
  | e :: rest, k, h => by
    unfold lrSplit at h
    split at h
    · rename_i r' nm es kw
      by_cases he : r' = r
      · subst he
        simp only [if_true, List.length_cons] at h
        cases k with
        | zero => exact ⟨nm, es, kw, rfl⟩
        | succ k => exact lrSplit_get r' rest k (by omega)
      · rw [if_neg he] at h; simp at h
    · simp at h

/-- The first sets of left-recursive alternatives are right in the annotated grammar. -/
theorem lrFs_of_ann {kw : List Ope → Bool} (hA : AnnOf cfg cfg') {r : Nat} {d : Def} (hd : cfg.rules[r]? = some d.plain)
    (hm : d.isMacro = false) (hl : d.isLR = true) (h : d.ope.Each (AnnNode cfg C F (Bdry cfg.input)))
    (ho : F.okO C cfg.ws.isSome kw d.ope.plain = true) : LrFs cfg' (Bdry cfg'.input) r d.ope := by
  cases he : d.ope with
  | cho es l fs =>
    rw [he] at h ho
    simp only [Ope.plain, FsCert.okO, Bool.and_eq_true, List.all_eq_true] at ho
    intro k f hf hk v m i s x hi hsk hp
    obtain ⟨nm, ts, g, hes⟩ := lrSplit_get r es k hk
    obtain ⟨-, -, h3⟩ := h.1 k f _ hf hes
    have hsafe : F.safe r = true := by
      have := ho.1 (Ope.seq (.ref r nm [] :: ts) g).plain (by rw [plainL_eq_map]; exact List.mem_map_of_mem (List.mem_of_getElem? hes))
      simp only [Ope.plain, Ope.plainL, Ope.emptyO, Ope.emptyAll, FsCert.safeO, FsCert.safeSeq, Bool.false_and, Bool.false_or,
        Bool.and_eq_true] at this
      exact this.1
    unfold fsSkip at hsk
    cases hr : cfg'.rest i with
    | nil => rw [hr] at hsk; cases hsk
    | cons b t =>
      rw [hr] at hsk
      simp only [Bool.and_eq_true, Bool.not_eq_true', decide_eq_true_eq] at hsk
      obtain ⟨⟨k1, k2⟩, k3⟩ := hsk
      have hdrop : cfg.gram.input.drop i = b :: t := by
        rw [← hr]; show cfg.input.drop i = cfg'.input.drop i; rw [hA.input]
      have hp' := hp.plain
      rw [hA.gram] at hp'
      have hope : d.plain.ope = .cho (Ope.plainL es) l [] := by simp only [Def.plain, he, Ope.plain]
      refine h3 r nm (Ope.plainL ts) none (by simp only [Ope.plain, Ope.plainL]) hsafe d.plain _ _ _ hd hm hl hope _ _ i s x _ _
        (by rw [hA.input] at hi; exact hi) ⟨k1, b, t, hdrop, k3⟩ (by rw [lrSplit_plain]; exact hp')
  | _ => trivial

end

end Verif
