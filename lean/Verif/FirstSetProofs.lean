import Verif.FirstSet
import Verif.Utf8Pos
import Mathlib.Data.List.Perm.Subperm
/-!
# First sets are right

For a certified grammar without annotations, the first sets computed by the program are right at character boundaries,
provided that no cut and no white space skipping can happen before the first character is consumed (`FsCert.safeO`).
-/

namespace Verif
open CharClass Props

variable {V : Type}

/-! ## Rules that leave no cut -/

/-- May the task leave a cut?  Macro parameters count as leaving one; `Q.leak` bounds the rules. -/
def PTask.loud (Q : Cert) : PTask → Bool
  | .ope e => Q.lk true e
  | .seqL es => Q.lkAny true es
  | .choL .. => true
  | .loop e .. => Q.lk true e
  | .text .. => false
  | .skip => false
  | .body d => Q.lk true d.ope
  | .hold r => Q.leak r
  | .grow .. => false
  | .prec a b .. => Q.lk true a || Q.lk true b
  | .precL a b .. => Q.lk true a || Q.lk true b

theorem cutOf_orCut (c : Bool) (x : PRes V) : (x.orCut c).cutOf = (c || x.cutOf) := by cases x <;> rfl

theorem cutOf_noCut (x : PRes V) : x.noCut.cutOf = false := by cases x <;> rfl

/-- Quiet grammars: `Q.leak` is right. -/
structure Quiet (Q : Cert) (G : Gram V) : Prop where
  rule : ∀ (r : Nat) (d : Def), G.rules[r]? = some d → Q.lk true d.ope = true → Q.leak r = true
  ws : ∀ w, G.ws = some w → Q.lk true w = false

theorem Peg.quiet {Q : Cert} {G : Gram V} {v : Env} {m : Mode} {t : PTask} {i : Nat} {s : PSt V} {x : PRes V}
    (h : Peg G v m t i s x) : Quiet Q G → t.loud Q = false → x.cutOf = false := by
  induction h with
  | skip_ws h1 h2 h3 ih => intro hq _; exact ih hq (hq.ws _ h2)
  | ws_out h1 h2 ih => intro hq hl; exact ih hq (by simpa [PTask.loud, Cert.lk] using hl)
  | lit _ ih => intro hq _; exact ih hq rfl
  | text_plain _ _ _ ih => intro hq _; exact ih hq rfl
  | text_nonword _ _ _ _ _ ih => intro hq _; exact ih hq rfl
  | text_word _ _ _ _ _ _ _ ih => intro hq _; exact ih hq rfl
  | dict_plain _ _ _ _ ih => intro hq _; exact ih hq rfl
  | dict_word _ _ _ _ _ _ ih => intro hq _; exact ih hq rfl
  | seq _ ih => intro hq hl; exact ih hq (by simpa [PTask.loud, Cert.lk] using hl)
  | seq_fail _ ih =>
    intro hq hl
    simp only [PTask.loud, Cert.lkAny, Bool.or_eq_false_iff] at hl
    exact ih hq hl.1
  | seq_cons _ _ ih1 ih2 =>
    intro hq hl
    simp only [PTask.loud, Cert.lkAny, Bool.or_eq_false_iff] at hl
    rw [cutOf_orCut]
    have a := ih1 hq hl.1
    have b := ih2 hq hl.2
    simp only [PRes.cutOf] at a
    simp [a, b]
  | cho _ _ => intro _ _; exact cutOf_noCut _
  | cho_ok => intro _ h; cases h
  | cho_cut => intro _ h; cases h
  | cho_next => intro _ h; cases h
  | cut => intro _ h; simp [PTask.loud, Cert.lk] at h
  | rep _ ih => intro hq hl; exact ih hq (by simpa [PTask.loud, Cert.lk] using hl)
  | loop_must _ _ ih1 ih2 =>
    intro hq hl
    rw [cutOf_orCut]
    have a := ih1 hq hl
    have b := ih2 hq hl
    simp only [PRes.cutOf] at a
    simp [a, b]
  | loop_fail _ ih => intro hq hl; exact ih hq hl
  | loop_more _ _ _ ih1 ih2 =>
    intro hq hl
    rw [cutOf_orCut]
    have a := ih1 hq hl
    have b := ih2 hq hl
    simp only [PRes.cutOf] at a
    simp [a, b]
  | loop_end _ _ ih => intro hq hl; exact ih hq hl
  | and_ok _ ih => intro hq hl; exact ih hq (by simpa [PTask.loud, Cert.lk] using hl)
  | and_fail _ ih => intro hq hl; exact ih hq (by simpa [PTask.loud, Cert.lk] using hl)
  | not_ok _ ih => intro hq hl; exact ih hq (by simpa [PTask.loud, Cert.lk] using hl)
  | not_fail _ ih => intro hq hl; exact ih hq (by simpa [PTask.loud, Cert.lk] using hl)
  | scope_ok _ ih => intro hq hl; exact ih hq (by simpa [PTask.loud, Cert.lk] using hl)
  | scope_fail _ ih => intro hq hl; exact ih hq (by simpa [PTask.loud, Cert.lk] using hl)
  | cap_ok _ ih => intro hq hl; exact ih hq (by simpa [PTask.loud, Cert.lk] using hl)
  | cap_fail _ ih => intro hq hl; exact ih hq (by simpa [PTask.loud, Cert.lk] using hl)
  | bref _ _ ih => intro hq _; exact ih hq rfl
  | tok_ok _ _ ih1 ih2 =>
    intro hq hl
    rw [cutOf_orCut]
    have a := ih1 hq (by simpa [PTask.loud, Cert.lk] using hl)
    have b := ih2 hq rfl
    simp only [PRes.cutOf] at a
    simp [a, b]
  | tok_fail _ ih => intro hq hl; exact ih hq (by simpa [PTask.loud, Cert.lk] using hl)
  | ign_ok _ ih => intro hq hl; exact ih hq (by simpa [PTask.loud, Cert.lk] using hl)
  | ign_fail _ ih => intro hq hl; exact ih hq (by simpa [PTask.loud, Cert.lk] using hl)
  | ref _ _ _ ih => intro hq hl; exact ih hq (by simpa [PTask.loud, Cert.lk] using hl)
  | call hd _ _ ih =>
    intro hq hl
    simp only [PTask.loud, Cert.lk] at hl
    refine ih hq ?_
    simp only [PTask.loud]
    rw [Bool.eq_false_iff]
    intro h
    rw [hq.rule _ _ hd h] at hl
    cases hl
  | param => intro _ h; simp [PTask.loud, Cert.lk] at h
  | body _ _ ih => intro hq hl; exact ih hq hl
  | body_ok _ _ _ ih1 ih2 =>
    intro hq hl
    rw [cutOf_orCut]
    have a := ih1 hq hl
    have b := ih2 hq rfl
    simp only [PRes.cutOf] at a
    simp [a, b]
  | body_fail _ _ ih => intro hq hl; exact ih hq hl
  | rule_fail hd _ _ ih =>
    intro hq hl
    refine ih hq ?_
    simp only [PTask.loud] at hl ⊢
    rw [Bool.eq_false_iff]; intro h; rw [hq.rule _ _ hd h] at hl; cases hl
  | rule_ok hd _ _ _ ih =>
    intro hq hl
    refine ih hq ?_
    simp only [PTask.loud] at hl ⊢
    rw [Bool.eq_false_iff]; intro h; rw [hq.rule _ _ hd h] at hl; cases hl
  | rule_pred hd _ _ _ _ ih =>
    intro hq hl
    refine ih hq ?_
    simp only [PTask.loud] at hl ⊢
    rw [Bool.eq_false_iff]; intro h; rw [hq.rule _ _ hd h] at hl; cases hl
  | rule_reject hd _ _ _ _ ih =>
    intro hq hl
    refine ih hq ?_
    simp only [PTask.loud] at hl ⊢
    rw [Bool.eq_false_iff]; intro h; rw [hq.rule _ _ hd h] at hl; cases hl
  | grow_more _ _ _ _ _ _ ih => intro hq hl; exact ih hq rfl
  | prec _ ih => intro hq hl; exact ih hq (by simpa [PTask.loud, Cert.lk] using hl)
  | prec_fail _ ih =>
    intro hq hl
    simp only [PTask.loud, Bool.or_eq_false_iff] at hl
    exact ih hq hl.1
  | prec_atom _ _ ih1 ih2 =>
    intro hq hl
    have b := ih2 hq (by simpa [PTask.loud] using hl)
    simp only [PTask.loud, Bool.or_eq_false_iff] at hl
    have a := ih1 hq hl.1
    rw [cutOf_orCut]
    simp only [PRes.cutOf] at a
    simp [a, b]
  | prec_noOp _ _ ih =>
    intro hq hl
    simp only [PTask.loud, Bool.or_eq_false_iff] at hl
    exact ih hq hl.2
  | prec_stop _ _ _ _ _ _ ih =>
    intro hq hl
    simp only [PTask.loud, Bool.or_eq_false_iff] at hl
    exact ih hq hl.2
  | prec_noRhs _ _ _ _ _ _ _ _ ih1 ih2 =>
    intro hq hl
    have b := ih2 hq (by simpa [PTask.loud] using hl)
    simp only [PTask.loud, Bool.or_eq_false_iff] at hl
    have a := ih1 hq hl.2
    simp only [PRes.cutOf] at a b ⊢
    simp [a, b]
  | prec_more _ _ _ _ _ _ _ _ _ _ _ ih1 ih2 ih3 =>
    intro hq hl
    have b := ih2 hq (by simpa [PTask.loud] using hl)
    have e := ih3 hq (by simpa [PTask.loud] using hl)
    simp only [PTask.loud, Bool.or_eq_false_iff] at hl
    have a := ih1 hq hl.2
    rw [cutOf_orCut]
    simp only [PRes.cutOf] at a b
    simp [a, b, e]
  | _ => intro _ _; rfl

/-! ## The soundness of a first set -/

/-- The next byte is not in the first set. -/
def Blocked (f : FirstSet) (s : List Byte) : Prop := f.anyChar = false ∧ ∃ b t, s = b :: t ∧ b ∉ f.chars

/-- Failure without cut, or (if the first set says so) success without consuming anything and without cut. -/
def Stays (empty : Bool) (i : Nat) (x : PRes V) : Prop := x = .fail false ∨ empty = true ∧ ∃ s, x = .ok i false s

def Snd (G : Gram V) (al : Nat → Prop) (f : FirstSet) (t : PTask) : Prop :=
  ∀ v m i s x, al i → Blocked f (G.input.drop i) → Peg G v m t i s x → Stays f.canBeEmpty i x

/-- Which rules leave no cut, and which consume a character before passing a cut or skipping white space (if they consume
at all). -/
structure FsCert where
  quiet : Nat → Bool
  safe : Nat → Bool

def FsCert.q (F : FsCert) : Cert := { rank := fun _ => 0, null := fun _ => false, leak := fun r => !F.quiet r, top := 0 }

/-- The ranges of a class that ignores case lie within one case (otherwise bitset and range test differ, C07). -/
def Cls.uniform (c : Cls) : Bool :=
  !c.ignoreCase || c.ranges.all fun r => decide (r.1 ≤ r.2) &&
    ((decide (r.2 < 65) || decide (90 < r.1)) || (decide (65 ≤ r.1) && decide (r.2 ≤ 90)))

mutual
/-- The expression consumes a character before passing a cut or skipping white space. -/
def FsCert.safeO (F : FsCert) (C : Cert) (ws : Bool) : Ope → Bool
  | .seq es _ => F.safeSeq C ws es
  | .cho es _ _ => F.safeAll C ws es
  | .rep e _ _ _ => F.safeO C ws e
  | .and_ e => !F.q.lk true e
  | .not_ e => !F.q.lk true e
  | .dict .. => true
  | .lit t _ => !t.isEmpty || !ws
  | .cls c => Cls.uniform c
  | .chr _ => true
  | .dot => true
  | .capScope e => F.safeO C ws e
  | .cap _ e => F.safeO C ws e
  | .tok e => F.safeO C ws e && (!C.nul true e || !ws)
  | .ign e => F.safeO C ws e
  | .ref r _ _ => F.safe r
  | .param .. => true
  | .bref _ => true
  | .prec a _ _ _ => F.safeO C ws a && !C.nul true a
  | _ => false

def FsCert.safeSeq (F : FsCert) (C : Cert) (ws : Bool) : List Ope → Bool
  | [] => true
  | e :: es => F.safeO C ws e && (!C.nul true e || F.safeSeq C ws es)

def FsCert.safeAll (F : FsCert) (C : Cert) (ws : Bool) : List Ope → Bool
  | [] => true
  | e :: es => F.safeO C ws e && F.safeAll C ws es
end

mutual
theorem nul_mono {C : Cert} {p : Bool} : ∀ e : Ope, C.nul p e = true → C.nul true e = true
  | .seq es _, h => by simp only [Cert.nul] at h ⊢; exact nulAll_mono es h
  | .cho es _ _, h => by simp only [Cert.nul] at h ⊢; exact nulAny_mono es h
  | .rep e _ _ _, h => by
    simp only [Cert.nul, Bool.or_eq_true] at h ⊢
    exact h.imp id (nul_mono e)
  | .dict .., h => by simp [Cert.nul] at h
  | .lit .., h => by simpa only [Cert.nul] using h
  | .cls _, h => by simpa only [Cert.nul] using h
  | .chr _, h => by simpa only [Cert.nul] using h
  | .dot, h => by simp [Cert.nul] at h
  | .capScope e, h => by simp only [Cert.nul] at h ⊢; exact nul_mono e h
  | .cap _ e, h => by simp only [Cert.nul] at h ⊢; exact nul_mono e h
  | .tok e, h => by simp only [Cert.nul] at h ⊢; exact nul_mono e h
  | .ign e, h => by simp only [Cert.nul] at h ⊢; exact nul_mono e h
  | .ref .., h => by simpa only [Cert.nul] using h
  | .param .., _ => by simp only [Cert.nul]
  | .and_ _, _ => by simp only [Cert.nul]
  | .not_ _, _ => by simp only [Cert.nul]
  | .usr _, _ => by simp only [Cert.nul]
  | .weak _, _ => by simp only [Cert.nul]
  | .ws _, _ => by simp only [Cert.nul]
  | .bref _, _ => by simp only [Cert.nul]
  | .prec a _ _ _, h => by simp only [Cert.nul] at h ⊢; exact nul_mono a h
  | .recov .., _ => by simp only [Cert.nul]
  | .cut, _ => by simp only [Cert.nul]
  | .null, _ => by simp only [Cert.nul]

theorem nulAll_mono {C : Cert} {p : Bool} : ∀ es : List Ope, C.nulAll p es = true → C.nulAll true es = true
  | [], _ => by simp only [Cert.nulAll]
  | e :: es, h => by
    simp only [Cert.nulAll, Bool.and_eq_true] at h ⊢
    exact ⟨nul_mono e h.1, nulAll_mono es h.2⟩

theorem nulAny_mono {C : Cert} {p : Bool} : ∀ es : List Ope, C.nulAny p es = true → C.nulAny true es = true
  | [], h => by simp [Cert.nulAny] at h
  | e :: es, h => by
    simp only [Cert.nulAny, Bool.or_eq_true] at h ⊢
    exact h.imp (nul_mono e) (nulAny_mono es)
end

section
variable {G : Gram V} {al : Nat → Prop}

/-- Only bytes, `anyChar` and `canBeEmpty` matter. -/
theorem Snd.congr {f f' : FirstSet} {t : PTask} (h : Snd G al f t) (h1 : f'.chars = f.chars) (h2 : f'.anyChar = f.anyChar)
    (h3 : f'.canBeEmpty = f.canBeEmpty) : Snd G al f' t := by
  intro v m i s x ha hb hp
  rw [h3]
  exact h v m i s x ha (by unfold Blocked at hb ⊢; rw [← h1, ← h2]; exact hb) hp

theorem snd_any {f : FirstSet} {t : PTask} (h : f.anyChar = true) : Snd G al f t := by
  intro v m i s x _ hb
  rw [hb.1] at h; cases h

theorem skip_still {v : Env} {m : Mode} {i : Nat} {s : PSt V} {x : PRes V} (hw : G.ws = none) (h : Peg G v m .skip i s x) :
    x = .ok i false s := by
  cases h with
  | skip_tok => rfl
  | skip_none => rfl
  | skip_ws _ h => rw [hw] at h; cases h

theorem snd_cls (hproper : ∀ i, al i → Proper (G.input.drop i)) (c : Cls) (hu : Cls.uniform c = true) :
    Snd G al (fsCls c) (.ope (.cls c)) := by
  intro v m i s x ha hb hp
  have hb' := hb
  obtain ⟨hany, b, t, hs, hnb⟩ := hb
  unfold fsCls at hany hnb
  by_cases h1 : (c.ranges.any fun r => decide (r.1 > 0x7F) || decide (r.2 > 0x7F)) = true
  · rw [if_pos h1] at hany; cases hany
  rw [if_neg h1] at hany hnb
  by_cases h2 : c.negated = true
  · rw [if_pos h2] at hany; cases hany
  rw [if_neg h2] at hnb
  have hasc : c.isAsciiOnly = true := by
    unfold Cls.isAsciiOnly
    simp only [Bool.and_eq_true, Bool.not_eq_true', List.all_eq_true, decide_eq_true_eq]
    refine ⟨Bool.eq_false_iff.mpr h2, fun r hr => ?_⟩
    simp only [List.any_eq_true, not_exists, not_and, Bool.or_eq_true, decide_eq_true_eq, not_or, Nat.not_lt] at h1
    exact h1 r hr
  have hbit : c.asciiBit b = false := by
    rw [Bool.eq_false_iff]
    intro h
    refine hnb (List.mem_filter.mpr ⟨List.mem_map.mpr ⟨b.toNat, ?_, by simp⟩, h⟩)
    exact List.mem_range.mpr (Utf8.byte_lt b)
  have hm := C07_bitset_agrees c hasc (by
    intro hic r hr
    unfold Cls.uniform at hu
    simp only [hic, Bool.not_true, Bool.false_or, List.all_eq_true, Bool.and_eq_true, Bool.or_eq_true, decide_eq_true_eq] at hu
    obtain ⟨h3, h4⟩ := hu r hr
    refine ⟨?_, h3⟩
    unfold CaseUniform
    rcases h4 with (h4 | h4) | h4
    · exact Or.inl fun x _ _ _ => by omega
    · exact Or.inl fun x _ _ _ => by omega
    · exact Or.inr h4) b t (hs ▸ hproper i ha)
  rw [hbit] at hm
  cases hp with
  | one_ok h3 h4 =>
    simp only [Ope.single, Option.some.injEq] at h3
    subst h3
    rw [hs, hm] at h4
    cases h4
  | one_fail => exact Or.inl rfl

theorem snd_chr (hproper : ∀ i, al i → Proper (G.input.drop i)) (c : Nat) (h : ¬ c > 0x7F) :
    Snd G al { chars := [UInt8.ofNat c] } (.ope (.chr c)) := by
  intro v m i s x ha hb hp
  obtain ⟨-, b, t, hs, hnb⟩ := hb
  cases hp with
  | one_ok h3 h4 =>
    exfalso
    simp only [Ope.single, Option.some.injEq] at h3
    subst h3
    rw [hs] at h4
    have hp := hproper i ha
    rw [hs] at hp
    simp only [matchChar] at h4
    split at h4
    · cases h4
    · rename_i hc
      simp only [ne_eq, Decidable.not_not] at hc
      rcases hp b t rfl with h5 | h5
      · rw [decodeLenCp_ascii b t h5] at hc
        simp only at hc
        refine hnb ?_
        rw [← hc]
        simp
      · omega
  | one_fail => exact Or.inl rfl

theorem fsByte_lower (b : Byte) : b ∈ fsByte (Trie.lowerByte b) true := by
  have key : ∀ n : Fin 256, UInt8.ofNat n.val ∈ fsByte (Trie.lowerByte (UInt8.ofNat n.val)) true := by decide +kernel
  have := key ⟨b.toNat, Utf8.byte_lt b⟩
  simpa using this

theorem fsByte_of_lower {b c : Byte} (h : Trie.lowerByte b = Trie.lowerByte c) : b ∈ fsByte c true := by
  have key : ∀ n m : Fin 256, Trie.lowerByte (UInt8.ofNat n.val) = Trie.lowerByte (UInt8.ofNat m.val) →
      UInt8.ofNat n.val ∈ fsByte (UInt8.ofNat m.val) true := by decide +kernel
  have := key ⟨b.toNat, Utf8.byte_lt b⟩ ⟨c.toNat, Utf8.byte_lt c⟩
  simpa using this (by simpa using h)

theorem snd_lit (c : Byte) (r : List Byte) (ic : Bool) (l : Option (List Byte)) :
    Snd G al { chars := fsByte c ic, firstLit := l } (.ope (.lit (c :: r) ic)) := by
  intro v m i s x ha hb hp
  obtain ⟨-, b, t, hs, hnb⟩ := hb
  have hno : litMatch (c :: r) ic (G.input.drop i) = false := by
    rw [Bool.eq_false_iff, hs]
    intro h
    unfold litMatch at h
    cases ic with
    | true =>
      simp only [if_true, Trie.toLower, List.map_cons, List.isPrefixOf, Bool.and_eq_true, beq_iff_eq] at h
      exact hnb (fsByte_of_lower h.1.symm)
    | false =>
      simp only [Bool.false_eq_true, if_false, List.isPrefixOf, Bool.and_eq_true, beq_iff_eq] at h
      exact hnb (by simp [fsByte, h.1])
  cases hp with
  | one_ok h => simp [Ope.single] at h
  | one_fail h => simp [Ope.single] at h
  | lit h =>
    cases h with
    | text_no => exact Or.inl rfl
    | text_plain h => rw [hno] at h; cases h
    | text_nonword h => rw [hno] at h; cases h
    | text_word h => rw [hno] at h; cases h
    | text_longer h => exact Or.inl rfl

theorem snd_lit_nil (hw : G.ws = none) (ic : Bool) : Snd G al { canBeEmpty := true } (.ope (.lit [] ic)) := by
  intro v m i s x ha hb hp
  cases hp with
  | one_ok h => simp [Ope.single] at h
  | one_fail h => simp [Ope.single] at h
  | lit h =>
    cases h with
    | text_no => exact Or.inl rfl
    | text_plain _ _ h => exact Or.inr ⟨rfl, s, by simpa using skip_still hw h⟩
    | text_nonword _ _ _ h => exact Or.inr ⟨rfl, s, by simpa using skip_still hw h⟩
    | text_word _ _ _ _ h => exact Or.inr ⟨rfl, s, by simpa using skip_still hw h⟩
    | text_longer h => exact Or.inl rfl

theorem snd_dict (ws : List (List Byte)) (ic : Bool) : Snd G al { chars := fsDict ws ic } (.ope (.dict ws ic)) := by
  intro v m i s x ha hb hp
  obtain ⟨-, b, t, hs, hnb⟩ := hb
  have h0 : ((Trie.build ws ic).matchText (G.input.drop i)).1 = 0 := by
    rw [C09_match_iff]
    rintro w hw ⟨h1, h2⟩
    rw [hs] at h2
    refine hnb ?_
    unfold fsDict
    rw [List.mem_flatMap]
    cases w with
    | nil => exact absurd rfl h1
    | cons c r =>
      refine ⟨_, List.mem_map.mpr ⟨_, hw, rfl⟩, ?_⟩
      cases ic with
      | true =>
        simp only [norm, if_true, Trie.toLower, List.map_cons, List.cons_prefix_cons] at h2
        simp only [if_true, Trie.toLower, List.map_cons]
        rw [h2.1]
        exact fsByte_lower b
      | false =>
        simp only [norm, Bool.false_eq_true, if_false, List.cons_prefix_cons] at h2
        simp [fsByte, h2.1]
  cases hp with
  | one_ok h => simp [Ope.single] at h
  | one_fail h => simp [Ope.single] at h
  | dict_no => exact Or.inl rfl
  | dict_plain h h' => rw [h] at h0; exact absurd h0 h'
  | dict_word h h' => rw [h] at h0; exact absurd h0 h'
  | dict_longer h h' => exact Or.inl rfl

theorem snd_and {Q : Cert} (hq : Quiet Q G) {e : Ope} (hl : Q.lk true e = false) :
    Snd G al { canBeEmpty := true } (.ope (.and_ e)) := by
  intro v m i s x ha hb hp
  cases hp with
  | one_ok h => simp [Ope.single] at h
  | one_fail h => simp [Ope.single] at h
  | and_ok h => have := h.quiet hq hl; simp only [PRes.cutOf] at this; subst this; exact Or.inr ⟨rfl, _, rfl⟩
  | and_fail h => have := h.quiet hq hl; simp only [PRes.cutOf] at this; subst this; exact Or.inl rfl

theorem snd_not {Q : Cert} (hq : Quiet Q G) {e : Ope} (hl : Q.lk true e = false) :
    Snd G al { canBeEmpty := true } (.ope (.not_ e)) := by
  intro v m i s x ha hb hp
  cases hp with
  | one_ok h => simp [Ope.single] at h
  | one_fail h => simp [Ope.single] at h
  | not_ok h => have := h.quiet hq hl; simp only [PRes.cutOf] at this; subst this; exact Or.inr ⟨rfl, _, rfl⟩
  | not_fail h => have := h.quiet hq hl; simp only [PRes.cutOf] at this; subst this; exact Or.inl rfl

theorem snd_loop {f : FirstSet} {e : Ope} (h : Snd G al f (.ope e)) {v : Env} {m : Mode} {t : PTask} {i : Nat} {s : PSt V}
    {x : PRes V} (ha : al i) (hb : Blocked f (G.input.drop i)) (hp : Peg G v m t i s x) :
    ∀ need mx n, t = .loop e need mx n → x = .fail false ∨ (f.canBeEmpty = true ∨ need = 0) ∧ ∃ s', x = .ok i false s' := by
  induction hp with
  | @loop_must G v m e' k mx n i s j c s' x h1 h2 ih1 ih2 =>
    intro need mx' n' ht
    cases ht
    rcases h v m i s _ ha hb h1 with h3 | ⟨h3, s3, h4⟩
    · cases h3
    · cases h4
      rcases ih2 h ha hb _ _ _ rfl with h5 | ⟨h5, s5, h6⟩
      · subst h5; exact Or.inl rfl
      · subst h6; exact Or.inr ⟨Or.inl h3, s5, rfl⟩
  | @loop_fail G v m e' k mx n i s c h1 ih =>
    intro need mx' n' ht
    cases ht
    rcases h v m i s _ ha hb h1 with h3 | ⟨h3, s3, h4⟩
    · cases h3; exact Or.inl rfl
    · cases h4
  | @loop_full G v m e' mx n i s h1 =>
    intro need mx' n' ht
    cases ht
    exact Or.inr ⟨Or.inr rfl, s, rfl⟩
  | @loop_more G v m e' mx n i s j c s' x h0 h1 h2 ih1 ih2 =>
    intro need mx' n' ht
    cases ht
    rcases h v m i s _ ha hb h1 with h3 | ⟨h3, s3, h4⟩
    · cases h3
    · cases h4
      rcases ih2 h ha hb _ _ _ rfl with h5 | ⟨h5, s5, h6⟩
      · subst h5; exact Or.inl rfl
      · subst h6; exact Or.inr ⟨Or.inl h3, s5, rfl⟩
  | @loop_end G v m e' mx n i s c h0 h1 ih =>
    intro need mx' n' ht
    cases ht
    rcases h v m i s _ ha hb h1 with h3 | ⟨h3, s3, h4⟩
    · cases h3; exact Or.inr ⟨Or.inr rfl, s, rfl⟩
    · cases h4
  | _ => intro _ _ _ ht; cases ht

theorem snd_rep {f : FirstSet} {e : Ope} (h : Snd G al f (.ope e)) (mn : Nat) (mx : Option Nat) (sp : Option Cls) :
    Snd G al { f with canBeEmpty := f.canBeEmpty || mn == 0 } (.ope (.rep e mn mx sp)) := by
  intro v m i s x ha hb hp
  cases hp with
  | one_ok h => simp [Ope.single] at h
  | one_fail h => simp [Ope.single] at h
  | rep hp =>
    rcases snd_loop h ha hb hp _ _ _ rfl with h1 | ⟨h1, h2⟩
    · exact Or.inl h1
    · exact Or.inr ⟨by simpa using h1, h2⟩

theorem snd_tok {f : FirstSet} {e : Ope} (h : Snd G al f (.ope e)) (hw : f.canBeEmpty = true → G.ws = none) :
    Snd G al f (.ope (.tok e)) := by
  intro v m i s x ha hb hp
  cases hp with
  | one_ok h => simp [Ope.single] at h
  | one_fail h => simp [Ope.single] at h
  | tok_ok h1 h2 =>
    rcases h _ _ _ _ _ ha hb h1 with h3 | ⟨h3, s3, h4⟩
    · cases h3
    · cases h4
      rw [skip_still (hw h3) h2]
      exact Or.inr ⟨h3, _, rfl⟩
  | tok_fail h1 =>
    rcases h _ _ _ _ _ ha hb h1 with h3 | ⟨h3, s3, h4⟩
    · cases h3; exact Or.inl rfl
    · cases h4

theorem snd_ign {f : FirstSet} {e : Ope} (h : Snd G al f (.ope e)) : Snd G al f (.ope (.ign e)) := by
  intro v m i s x ha hb hp
  cases hp with
  | one_ok h => simp [Ope.single] at h
  | one_fail h => simp [Ope.single] at h
  | ign_ok h1 =>
    rcases h _ _ _ _ _ ha hb h1 with h3 | ⟨h3, s3, h4⟩
    · cases h3
    · cases h4; exact Or.inr ⟨h3, _, rfl⟩
  | ign_fail h1 =>
    rcases h _ _ _ _ _ ha hb h1 with h3 | ⟨h3, s3, h4⟩
    · cases h3; exact Or.inl rfl
    · cases h4

theorem snd_cap {f : FirstSet} {e : Ope} (h : Snd G al f (.ope e)) (nm : List Byte) : Snd G al f (.ope (.cap nm e)) := by
  intro v m i s x ha hb hp
  cases hp with
  | one_ok h => simp [Ope.single] at h
  | one_fail h => simp [Ope.single] at h
  | cap_ok h1 =>
    rcases h _ _ _ _ _ ha hb h1 with h3 | ⟨h3, s3, h4⟩
    · cases h3
    · cases h4; exact Or.inr ⟨h3, _, rfl⟩
  | cap_fail h1 =>
    rcases h _ _ _ _ _ ha hb h1 with h3 | ⟨h3, s3, h4⟩
    · cases h3; exact Or.inl rfl
    · cases h4

theorem snd_scope {f : FirstSet} {e : Ope} (h : Snd G al f (.ope e)) : Snd G al f (.ope (.capScope e)) := by
  intro v m i s x ha hb hp
  cases hp with
  | one_ok h => simp [Ope.single] at h
  | one_fail h => simp [Ope.single] at h
  | scope_ok h1 =>
    rcases h _ _ _ _ _ ha hb h1 with h3 | ⟨h3, s3, h4⟩
    · cases h3
    · cases h4; exact Or.inr ⟨h3, _, rfl⟩
  | scope_fail h1 =>
    rcases h _ _ _ _ _ ha hb h1 with h3 | ⟨h3, s3, h4⟩
    · cases h3; exact Or.inl rfl
    · cases h4

theorem snd_seq {f : FirstSet} {es : List Ope} (h : Snd G al f (.seqL es)) (kw : Option KwGuard) :
    Snd G al f (.ope (.seq es kw)) := by
  intro v m i s x ha hb hp
  cases hp with
  | one_ok h => simp [Ope.single] at h
  | one_fail h => simp [Ope.single] at h
  | seq h1 => exact h _ _ _ _ _ ha hb h1

/-- A choice between the rest of the alternatives. -/
def SndCho (G : Gram V) (al : Nat → Prop) (f : FirstSet) (es : List Ope) : Prop :=
  ∀ v m i s x k n, al i → Blocked f (G.input.drop i) → Peg G v m (.choL es k n) i s x → Stays f.canBeEmpty i x.noCut

theorem snd_cho {f : FirstSet} {es : List Ope} (h : SndCho G al f es) (l : Bool) (fs : List FirstSet) :
    Snd G al f (.ope (.cho es l fs)) := by
  intro v m i s x ha hb hp
  cases hp with
  | one_ok h => simp [Ope.single] at h
  | one_fail h => simp [Ope.single] at h
  | cho h1 => exact h _ _ _ _ _ _ _ ha hb h1

/-- A call of a left-recursive rule. -/
theorem snd_lr {f : FirstSet} {r : Nat} {d : Def} (hd : G.rules[r]? = some d) (hlr : d.isLR = true)
    (h : ∀ es l fs, d.ope = .cho es l fs → SndCho G al f (lrSplit r es).2) (he : f.canBeEmpty = false) : Snd G al f (.hold r) := by
  intro v m i s x ha hb hp
  cases hp with
  | lr_fail hd' h' h'' => exact Or.inl rfl
  | lr_ok hd' _ _ ho _ h1 h2 =>
    rw [hd] at hd'; cases hd'
    rcases h _ _ _ ho _ _ _ _ _ _ _ ha hb h1 with h3 | ⟨h3, -⟩
    · cases h3
    · rw [he] at h3; cases h3
  | rule_fail hd' h' => rw [hd] at hd'; cases hd'; rw [hlr] at h'; cases h'
  | rule_ok hd' h' => rw [hd] at hd'; cases hd'; rw [hlr] at h'; cases h'
  | rule_pred hd' h' => rw [hd] at hd'; cases hd'; rw [hlr] at h'; cases h'
  | rule_reject hd' h' => rw [hd] at hd'; cases hd'; rw [hlr] at h'; cases h'

theorem snd_lr_ref {f : FirstSet} {r : Nat} {d : Def} (hd : G.rules[r]? = some d) (hm : d.isMacro = false) (h : Snd G al f (.hold r))
    (nm : List Byte) (as : List Ope) : Snd G al f (.ope (.ref r nm as)) := by
  intro v m i s x ha hb hp
  cases hp with
  | one_ok h => simp [Ope.single] at h
  | one_fail h => simp [Ope.single] at h
  | ref hd' hm h1 => exact h _ _ _ _ _ ha hb h1
  | call hd' hm' h1 => rw [hd] at hd'; cases hd'; rw [hm] at hm'; cases hm'

/-- A call of a rule. -/
theorem snd_hold {f : FirstSet} {r : Nat} {d : Def} (hd : G.rules[r]? = some d) (hlr : d.isLR = false) (h : Snd G al f (.ope d.ope))
    (hw : d.noWs = true → f.canBeEmpty = true → G.ws = none) : Snd G al f (.hold r) := by
  have hbody : Snd G al f (.body d) := by
    intro v m i s x ha hb hp
    cases hp with
    | body _ h1 => exact h _ _ _ _ _ ha hb h1
    | body_ok hn h1 h2 =>
      rcases h _ _ _ _ _ ha hb h1 with h3 | ⟨h3, s3, h4⟩
      · cases h3
      · cases h4
        rw [skip_still (hw hn h3) h2]
        exact Or.inr ⟨h3, _, rfl⟩
    | body_fail hn h1 =>
      rcases h _ _ _ _ _ ha hb h1 with h3 | ⟨h3, s3, h4⟩
      · cases h3; exact Or.inl rfl
      · cases h4
  intro v m i s x ha hb hp
  cases hp with
  | lr_fail hd' h' => rw [hd] at hd'; cases hd'; rw [hlr] at h'; cases h'
  | lr_ok hd' h' => rw [hd] at hd'; cases hd'; rw [hlr] at h'; cases h'
  | rule_fail hd' _ h1 =>
    rw [hd] at hd'; cases hd'
    rcases hbody _ _ _ _ _ ha hb h1 with h3 | ⟨h3, s3, h4⟩
    · cases h3; exact Or.inl rfl
    · cases h4
  | rule_ok hd' _ h1 h2 =>
    rw [hd] at hd'; cases hd'
    rcases hbody _ _ _ _ _ ha hb h1 with h3 | ⟨h3, s3, h4⟩
    · cases h3
    · cases h4; exact Or.inr ⟨h3, _, rfl⟩
  | rule_pred hd' _ h1 h2 =>
    rw [hd] at hd'; cases hd'
    rcases hbody _ _ _ _ _ ha hb h1 with h3 | ⟨h3, s3, h4⟩
    · cases h3
    · cases h4; exact Or.inr ⟨h3, _, rfl⟩
  | rule_reject hd' _ h1 h2 =>
    rw [hd] at hd'; cases hd'
    rcases hbody _ _ _ _ _ ha hb h1 with h3 | ⟨h3, s3, h4⟩
    · cases h3
    · cases h4; exact Or.inl rfl

theorem snd_ref {f : FirstSet} {r : Nat} {d : Def} (hd : G.rules[r]? = some d) (hlr : d.isMacro = false → d.isLR = false) (h : Snd G al f (.ope d.ope))
    (hw : d.isMacro = false → d.noWs = true → f.canBeEmpty = true → G.ws = none) (nm : List Byte) (as : List Ope) :
    Snd G al f (.ope (.ref r nm as)) := by
  intro v m i s x ha hb hp
  cases hp with
  | one_ok h => simp [Ope.single] at h
  | one_fail h => simp [Ope.single] at h
  | ref hd' hm h1 =>
    rw [hd] at hd'; cases hd'
    exact snd_hold hd (hlr hm) h (hw hm) _ _ _ _ _ ha hb h1
  | call hd' hm h1 =>
    rw [hd] at hd'; cases hd'
    exact h _ _ _ _ _ ha hb h1

end

/-! ## The computation -/

mutual
/-- No white space operator inside (it only occurs in the white space expression of the parser). -/
def Ope.noWsO : Ope → Bool
  | .seq es _ => Ope.noWsL es
  | .cho es _ _ => Ope.noWsL es
  | .rep e _ _ _ => e.noWsO
  | .and_ e => e.noWsO
  | .not_ e => e.noWsO
  | .capScope e => e.noWsO
  | .cap _ e => e.noWsO
  | .tok e => e.noWsO
  | .ign e => e.noWsO
  | .ws _ => false
  | _ => true

def Ope.noWsL : List Ope → Bool
  | [] => true
  | e :: es => e.noWsO && Ope.noWsL es
end

/-- A grammar without annotations, its certificate, and the certificate for the first sets. -/
structure FsOkG (cfg : Cfg V) (C : Cert) (F : FsCert) (al : Nat → Prop) : Prop where
  check : C.check cfg = true
  used : ∀ (r : Nat) (d : Def), cfg.rules[r]? = some d → ∃ m, C.modes r m = true
  noWs : ∀ (r : Nat) (d : Def), cfg.rules[r]? = some d → d.ope.noWsO = true
  proper : ∀ i, al i → Proper (cfg.input.drop i)
  quiet : Quiet F.q cfg.gram
  safe : ∀ (r : Nat) (d : Def), cfg.rules[r]? = some d → F.safe r = true →
    F.safeO C cfg.ws.isSome d.ope = true ∧ (d.isMacro = false → d.noWs = true → (!C.nul true d.ope || cfg.ws.isNone) = true)

section
variable {cfg : Cfg V} {C : Cert} {F : FsCert} {al : Nat → Prop}

/-- A first set is right for the alternatives of the left-recursive rule `r` that are not left recursive. -/
def LrSnd (cfg : Cfg V) (al : Nat → Prop) (r : Nat) (f : FirstSet) : Prop :=
  ∀ (d : Def) (es : List Ope) (l : Bool) (fs : List FirstSet), cfg.rules[r]? = some d → d.isMacro = false → d.isLR = true →
    d.ope = .cho es l fs → ∀ v m i s x k n, al i → Blocked f (cfg.gram.input.drop i) →
    Peg cfg.gram v m (.choL (lrSplit r es).2 k n) i s x → x.pos = none

/-- A first set is right for rule `r`. -/
def RuleFs (cfg : Cfg V) (C : Cert) (F : FsCert) (al : Nat → Prop) (r : Nat) (f : FirstSet) : Prop :=
  (f.canBeEmpty = true → C.null r = true) ∧
  (F.safe r = true → (∀ nm as, Snd cfg.gram al f (.ope (.ref r nm as))) ∧ LrSnd cfg al r f)

theorem blocked_congr {f f' : FirstSet} {s : List Byte} (h1 : f'.chars = f.chars) (h2 : f'.anyChar = f.anyChar) (h : Blocked f' s) :
    Blocked f s := by
  unfold Blocked at h ⊢
  rw [h1, h2] at h
  exact h

theorem RuleFs.congr {r : Nat} {f f' : FirstSet} (h : RuleFs cfg C F al r f) (h1 : f'.chars = f.chars)
    (h2 : f'.anyChar = f.anyChar) (h3 : f'.canBeEmpty = f.canBeEmpty) : RuleFs cfg C F al r f' :=
  ⟨fun h' => h.1 (h3 ▸ h'), fun hs =>
    ⟨fun nm as => ((h.2 hs).1 nm as).congr h1 h2 h3,
      fun d es l fs e1 e2 e3 e4 v m i s x k n ha hb => (h.2 hs).2 d es l fs e1 e2 e3 e4 v m i s x k n ha (blocked_congr h1 h2 hb)⟩⟩

/-- `b`: the rules being computed have at least this rank. -/
structure FsInv (cfg : Cfg V) (C : Cert) (F : FsCert) (al : Nat → Prop) (b n : Nat) (s : FsSt) : Prop where
  cache : ∀ r f, (r, f) ∈ s.cache → RuleFs cfg C F al r f
  refs : ∀ r ∈ s.refs, b ≤ C.rank r
  nodup : s.refs.Nodup
  lt : ∀ r ∈ s.refs, r < cfg.rules.length
  fuel : cfg.rules.length + 1 ≤ s.refs.length + n

theorem FsInv.mono {b b' n : Nat} {s : FsSt} (h : FsInv cfg C F al b n s) (hb : b' ≤ b) : FsInv cfg C F al b' n s :=
  { h with refs := fun r hr => Nat.le_trans hb (h.refs r hr) }

/-- Computations only add to the cache. -/
structure FsPost (cfg : Cfg V) (C : Cert) (F : FsCert) (al : Nat → Prop) (s s' : FsSt) : Prop where
  refs : s'.refs = s.refs
  cache : ∀ r f, (r, f) ∈ s'.cache → RuleFs cfg C F al r f

theorem FsInv.post {b n : Nat} {s s' : FsSt} (h : FsInv cfg C F al b n s) (p : FsPost cfg C F al s s') :
    FsInv cfg C F al b n s' := by
  refine ⟨p.cache, ?_, ?_, ?_, ?_⟩ <;> rw [p.refs]
  · exact h.refs
  · exact h.nodup
  · exact h.lt
  · exact h.fuel

theorem FsPost.refl {b n : Nat} {s : FsSt} (h : FsInv cfg C F al b n s) : FsPost cfg C F al s s := ⟨rfl, h.cache⟩

theorem FsPost.trans {a b c : FsSt} (h : FsPost cfg C F al a b) (h' : FsPost cfg C F al b c) : FsPost cfg C F al a c :=
  ⟨h'.refs.trans h.refs, h'.cache⟩

/-- What a visit of a reference does. -/
def RefGood (cfg : Cfg V) (C : Cert) (F : FsCert) (al : Nat → Prop) (n : Nat) (ref : Nat → FsSt → FirstSet × FsSt) : Prop :=
  ∀ (r : Nat) (d : Def) (s : FsSt) (b : Nat), cfg.rules[r]? = some d → C.rank r < b → FsInv cfg C F al b n s →
    FsPost cfg C F al s (ref r s).2 ∧ RuleFs cfg C F al r (ref r s).1

theorem blocked_left {a f : FirstSet} {s : List Byte} (h : Blocked f s) (h1 : a.anyChar = true → f.anyChar = true)
    (h2 : ∀ b ∈ a.chars, b ∈ f.chars) : Blocked a s := by
  obtain ⟨h3, b, t, h4, h5⟩ := h
  refine ⟨?_, b, t, h4, fun h => h5 (h2 b h)⟩
  rw [Bool.eq_false_iff]
  intro h
  rw [h1 h] at h3
  cases h3

theorem wfRef {κ : MCtx} {m : Mode} {b r : Nat} {nm : List Byte} {as : List Ope} (h : wf cfg C κ false m b (.ref r nm as) = true) :
    ∃ d, cfg.rules[r]? = some d ∧ C.rank r < b ∧ C.modes r m = true := by
  simp only [wf] at h
  cases hd : cfg.rules[r]? with
  | none => rw [hd] at h; cases h
  | some d =>
    rw [hd] at h
    simp only [Bool.and_eq_true, decide_eq_true_eq] at h
    exact ⟨d, rfl, h.1.2, h.1.1.1.2⟩

mutual
theorem fsOpe_ok (hG : FsOkG cfg C F al) {n : Nat} {ref : Nat → FsSt → FirstSet × FsSt} (href : RefGood cfg C F al n ref) :
    ∀ (e : Ope) (b : Nat) (κ : MCtx) (m : Mode) (s : FsSt), wf cfg C κ false m b e = true → e.noWsO = true →
      FsInv cfg C F al b n s →
      FsPost cfg C F al s (fsOpe ref e s).2 ∧ ((fsOpe ref e s).1.canBeEmpty = true → C.nul κ.null e = true) ∧
        (F.safeO C cfg.ws.isSome e = true → Snd cfg.gram al (fsOpe ref e s).1 (.ope e))
  | .seq es kw, b, κ, m, s, hw, hn, hi => by
    simp only [wf] at hw
    simp only [Ope.noWsO] at hn
    obtain ⟨h1, -, -, h2, h3⟩ := fsSeq_ok hG href es b κ m {} s hw hn hi
    simp only [fsOpe]
    refine ⟨h1, fun h => ?_, fun h => ?_⟩
    · simp only [Cert.nul]; exact h2 rfl h
    · simp only [FsCert.safeO] at h
      exact snd_seq (h3 rfl h) kw
  | .cho es l fs, b, κ, m, s, hw, hn, hi => by
    simp only [wf, Bool.and_eq_true] at hw
    simp only [Ope.noWsO] at hn
    obtain ⟨h1, -, -, -, h2, h3⟩ := fsCho_ok hG href es b κ m {} s hw.1.2 hn hi
    simp only [fsOpe]
    refine ⟨h1, fun h => ?_, fun h => ?_⟩
    · simp only [Cert.nul]; exact (h2 h).resolve_left (by simp)
    · simp only [FsCert.safeO] at h
      exact snd_cho (h3 h) l fs
  | .rep e mn mx sp, b, κ, m, s, hw, hn, hi => by
    simp only [wf, Bool.and_eq_true] at hw
    simp only [Ope.noWsO] at hn
    obtain ⟨h1, h2, h3⟩ := fsOpe_ok hG href e b κ m s hw.1 hn hi
    simp only [fsOpe]
    refine ⟨h1, fun h => ?_, fun h => ?_⟩
    · simp only [Bool.or_eq_true, beq_iff_eq] at h
      simp only [Cert.nul, Bool.or_eq_true, beq_iff_eq]
      exact h.symm.imp id h2
    · simp only [FsCert.safeO] at h
      exact snd_rep (h3 h) mn mx sp
  | .and_ e, b, κ, m, s, hw, hn, hi => by
    simp only [fsOpe]
    refine ⟨FsPost.refl hi, fun _ => by simp only [Cert.nul], fun h => ?_⟩
    simp only [FsCert.safeO, Bool.not_eq_true'] at h
    exact snd_and hG.quiet h
  | .not_ e, b, κ, m, s, hw, hn, hi => by
    simp only [fsOpe]
    refine ⟨FsPost.refl hi, fun _ => by simp only [Cert.nul], fun h => ?_⟩
    simp only [FsCert.safeO, Bool.not_eq_true'] at h
    exact snd_not hG.quiet h
  | .dict ws ic, b, κ, m, s, hw, hn, hi => by
    simp only [fsOpe]
    exact ⟨FsPost.refl hi, fun h => (by cases h), fun _ => snd_dict ws ic⟩
  | .lit [] ic, b, κ, m, s, hw, hn, hi => by
    simp only [fsOpe]
    refine ⟨FsPost.refl hi, fun _ => by simp only [Cert.nul, List.isEmpty_nil], fun h => ?_⟩
    simp only [FsCert.safeO, List.isEmpty_nil, Bool.not_true, Bool.false_or, Bool.not_eq_true', Option.isSome_eq_false_iff,
      Option.isNone_iff_eq_none] at h
    exact snd_lit_nil h ic
  | .lit (c :: t) ic, b, κ, m, s, hw, hn, hi => by
    simp only [fsOpe]
    exact ⟨FsPost.refl hi, fun h => (by cases h), fun _ => snd_lit c t ic _⟩
  | .cls c, b, κ, m, s, hw, hn, hi => by
    simp only [fsOpe]
    refine ⟨FsPost.refl hi, fun h => ?_, fun h => snd_cls hG.proper c (by simpa only [FsCert.safeO] using h)⟩
    unfold fsCls at h
    split at h
    · cases h
    · split at h <;> cases h
  | .chr c, b, κ, m, s, hw, hn, hi => by
    simp only [fsOpe]
    by_cases hc : c > 0x7F
    · rw [if_pos hc]
      exact ⟨FsPost.refl hi, fun h => (by cases h), fun _ => snd_any rfl⟩
    · rw [if_neg hc]
      exact ⟨FsPost.refl hi, fun h => (by cases h), fun _ => snd_chr hG.proper c hc⟩
  | .dot, b, κ, m, s, hw, hn, hi => by
    simp only [fsOpe]
    exact ⟨FsPost.refl hi, fun h => (by cases h), fun _ => snd_any rfl⟩
  | .usr _, b, κ, m, s, hw, hn, hi => by simp [wf] at hw
  | .bref _, b, κ, m, s, hw, hn, hi => by
    simp only [fsOpe]
    exact ⟨FsPost.refl hi, fun h => (by cases h), fun _ => snd_any rfl⟩
  | .cut, b, κ, m, s, hw, hn, hi => by
    simp only [fsOpe]
    exact ⟨FsPost.refl hi, fun _ => by simp only [Cert.nul], fun h => by simp [FsCert.safeO] at h⟩
  | .capScope e, b, κ, m, s, hw, hn, hi => by
    simp only [wf] at hw
    simp only [Ope.noWsO] at hn
    obtain ⟨h1, h2, h3⟩ := fsOpe_ok hG href e b κ m s hw hn hi
    simp only [fsOpe]
    refine ⟨h1, fun h => by simp only [Cert.nul]; exact h2 h, fun h => ?_⟩
    simp only [FsCert.safeO] at h
    exact snd_scope (h3 h)
  | .cap nm e, b, κ, m, s, hw, hn, hi => by
    simp only [wf, Bool.and_eq_true] at hw
    simp only [Ope.noWsO] at hn
    obtain ⟨h1, h2, h3⟩ := fsOpe_ok hG href e b κ m s hw.2 hn hi
    simp only [fsOpe]
    refine ⟨h1, fun h => by simp only [Cert.nul]; exact h2 h, fun h => ?_⟩
    simp only [FsCert.safeO] at h
    exact snd_cap (h3 h) nm
  | .tok e, b, κ, m, s, hw, hn, hi => by
    simp only [wf, Bool.and_eq_true] at hw
    simp only [Ope.noWsO] at hn
    obtain ⟨h1, h2, h3⟩ := fsOpe_ok hG href e b κ _ s hw.1 hn hi
    simp only [fsOpe]
    refine ⟨h1, fun h => by simp only [Cert.nul]; exact h2 h, fun h => ?_⟩
    simp only [FsCert.safeO, Bool.and_eq_true, Bool.or_eq_true, Bool.not_eq_true', Option.isSome_eq_false_iff,
      Option.isNone_iff_eq_none] at h
    refine snd_tok (h3 h.1) fun h4 => ?_
    rcases h.2 with h5 | h5
    · rw [nul_mono e (h2 h4)] at h5; cases h5
    · exact h5
  | .ign e, b, κ, m, s, hw, hn, hi => by
    simp only [wf] at hw
    simp only [Ope.noWsO] at hn
    obtain ⟨h1, h2, h3⟩ := fsOpe_ok hG href e b κ m s hw hn hi
    simp only [fsOpe]
    refine ⟨h1, fun h => by simp only [Cert.nul]; exact h2 h, fun h => ?_⟩
    simp only [FsCert.safeO] at h
    exact snd_ign (h3 h)
  | .ws e, b, κ, m, s, hw, hn, hi => by simp [Ope.noWsO] at hn
  | .prec .., b, κ, m, s, hw, hn, hi => by simp [wf] at hw
  | .recov .., b, κ, m, s, hw, hn, hi => by simp [wf] at hw
  | .weak _, b, κ, m, s, hw, hn, hi => by simp [wf] at hw
  | .null, b, κ, m, s, hw, hn, hi => by simp [wf] at hw
  | .ref r nm as, b, κ, m, s, hw, hn, hi => by
    obtain ⟨d, hd, hr, -⟩ := wfRef hw
    obtain ⟨h1, h2⟩ := href r d s b hd hr hi
    simp only [fsOpe]
    refine ⟨h1, fun h => by simp only [Cert.nul]; exact h2.1 h, fun h => ?_⟩
    simp only [FsCert.safeO] at h
    exact (h2.2 h).1 nm as
  | .param _ _, b, κ, m, s, hw, hn, hi => by
    simp only [fsOpe]
    exact ⟨FsPost.refl hi, fun h => (by cases h), fun _ => snd_any rfl⟩

theorem fsSeq_ok (hG : FsOkG cfg C F al) {n : Nat} {ref : Nat → FsSt → FirstSet × FsSt} (href : RefGood cfg C F al n ref) :
    ∀ (es : List Ope) (b : Nat) (κ : MCtx) (m : Mode) (acc : FirstSet) (s : FsSt), wfSeq cfg C κ false m b es = true →
      Ope.noWsL es = true → FsInv cfg C F al b n s →
      FsPost cfg C F al s (fsSeq ref es acc s).2 ∧
      (acc.anyChar = true → (fsSeq ref es acc s).1.anyChar = true) ∧
      (∀ b ∈ acc.chars, b ∈ (fsSeq ref es acc s).1.chars) ∧
      (acc.canBeEmpty = false → (fsSeq ref es acc s).1.canBeEmpty = true → C.nulAll κ.null es = true) ∧
      (acc.canBeEmpty = false → F.safeSeq C cfg.ws.isSome es = true → Snd cfg.gram al (fsSeq ref es acc s).1 (.seqL es))
  | [], b, κ, m, acc, s, hw, hn, hi => by
    simp only [fsSeq]
    refine ⟨FsPost.refl hi, id, fun _ => id, fun _ _ => by simp only [Cert.nulAll], fun _ _ => ?_⟩
    intro v m i s x ha hb hp
    cases hp
    exact Or.inr ⟨rfl, s, rfl⟩
  | e :: es, b, κ, m, acc, s, hw, hn, hi => by
    simp only [wfSeq, Bool.and_eq_true, Bool.or_eq_true, Bool.not_eq_true'] at hw
    simp only [Ope.noWsL, Bool.and_eq_true] at hn
    obtain ⟨h1, h2, h3⟩ := fsOpe_ok hG href e b κ m s hw.1.1 hn.1 hi
    simp only [fsSeq]
    by_cases he : (fsOpe ref e s).1.canBeEmpty = true
    · rw [if_pos he]
      have hw2 : wfSeq cfg C κ false m b es = true := by
        rcases hw.2 with h | h
        · rw [h2 he] at h; cases h
        · exact h
      obtain ⟨k1, k2, k3, k4, k5⟩ := fsSeq_ok hG href es b κ m { acc with
        chars := acc.chars ++ (fsOpe ref e s).1.chars, anyChar := acc.anyChar || (fsOpe ref e s).1.anyChar
        firstLit := acc.firstLit.or (fsOpe ref e s).1.firstLit
        firstRule := acc.firstRule.or (fsOpe ref e s).1.firstRule } (fsOpe ref e s).2 hw2 hn.2 (hi.post h1)
      refine ⟨h1.trans k1, fun h => k2 (by simp [h]), fun b hb => k3 b (by simp [hb]), fun ha h => ?_, fun ha h => ?_⟩
      · simp only [Cert.nulAll, Bool.and_eq_true]
        exact ⟨h2 he, k4 ha h⟩
      · simp only [FsCert.safeSeq, Bool.and_eq_true, Bool.or_eq_true, Bool.not_eq_true'] at h
        have hs2 : F.safeSeq C cfg.ws.isSome es = true := by
          rcases h.2 with h | h
          · rw [nul_mono e (h2 he)] at h; cases h
          · exact h
        intro v m' i' s' x hal hb hp
        have hb1 := blocked_left hb (a := (fsOpe ref e s).1) (fun h => k2 (by simp [h])) (fun b hb => k3 b (by simp [hb]))
        cases hp with
        | seq_fail h4 =>
          rcases h3 h.1 v m' i' s' _ hal hb1 h4 with h5 | ⟨h5, s5, h6⟩
          · cases h5; exact Or.inl rfl
          · cases h6
        | seq_cons h4 h5 =>
          rcases h3 h.1 v m' i' s' _ hal hb1 h4 with h6 | ⟨h6, s6, h7⟩
          · cases h6
          · cases h7
            rcases k5 ha hs2 v m' i' _ _ hal hb h5 with h8 | ⟨h8, s8, h9⟩
            · subst h8; exact Or.inl rfl
            · subst h9; exact Or.inr ⟨h8, s8, rfl⟩
    · rw [if_neg he]
      refine ⟨h1, fun h => by simp [h], fun b hb => by simp [hb], fun ha h => ?_, fun ha h => ?_⟩
      · rw [ha] at h; cases h
      · simp only [FsCert.safeSeq, Bool.and_eq_true] at h
        intro v m' i' s' x hal hb hp
        have hb1 := blocked_left hb (a := (fsOpe ref e s).1) (fun h => by simp [h]) (fun b hb => by simp [hb])
        cases hp with
        | seq_fail h4 =>
          rcases h3 h.1 v m' i' s' _ hal hb1 h4 with h5 | ⟨h5, s5, h6⟩
          · cases h5; exact Or.inl rfl
          · cases h6
        | seq_cons h4 h5 =>
          rcases h3 h.1 v m' i' s' _ hal hb1 h4 with h6 | ⟨h6, s6, h7⟩
          · cases h6
          · exact absurd h6 he

theorem fsCho_ok (hG : FsOkG cfg C F al) {n : Nat} {ref : Nat → FsSt → FirstSet × FsSt} (href : RefGood cfg C F al n ref) :
    ∀ (es : List Ope) (b : Nat) (κ : MCtx) (m : Mode) (acc : FirstSet) (s : FsSt), wfAll cfg C κ false m b es = true →
      Ope.noWsL es = true → FsInv cfg C F al b n s →
      FsPost cfg C F al s (fsCho ref es acc s).2 ∧
      (acc.anyChar = true → (fsCho ref es acc s).1.anyChar = true) ∧
      (acc.canBeEmpty = true → (fsCho ref es acc s).1.canBeEmpty = true) ∧
      (∀ b ∈ acc.chars, b ∈ (fsCho ref es acc s).1.chars) ∧
      ((fsCho ref es acc s).1.canBeEmpty = true → acc.canBeEmpty = true ∨ C.nulAny κ.null es = true) ∧
      (F.safeAll C cfg.ws.isSome es = true → SndCho cfg.gram al (fsCho ref es acc s).1 es)
  | [], b, κ, m, acc, s, hw, hn, hi => by
    simp only [fsCho]
    refine ⟨FsPost.refl hi, id, id, fun _ => id, Or.inl, fun _ => ?_⟩
    intro v m i s x k n ha hb hp
    cases hp
    exact Or.inl rfl
  | e :: es, b, κ, m, acc, s, hw, hn, hi => by
    simp only [wfAll, Bool.and_eq_true] at hw
    simp only [Ope.noWsL, Bool.and_eq_true] at hn
    obtain ⟨h1, h2, h3⟩ := fsOpe_ok hG href e b κ m s hw.1 hn.1 hi
    obtain ⟨k1, k2, k3, k4, k5, k6⟩ := fsCho_ok hG href es b κ m (acc.merge (fsOpe ref e s).1) (fsOpe ref e s).2 hw.2 hn.2
      (hi.post h1)
    simp only [fsCho]
    refine ⟨h1.trans k1, fun h => k2 (by simp [FirstSet.merge, h]), fun h => k3 (by simp [FirstSet.merge, h]),
      fun b hb => k4 b (by simp [FirstSet.merge, hb]), fun h => ?_, fun h => ?_⟩
    · rcases k5 h with h | h
      · simp only [FirstSet.merge, Bool.or_eq_true] at h
        exact h.imp id fun h => by simp [Cert.nulAny, h2 h]
      · exact Or.inr (by simp [Cert.nulAny, h])
    · simp only [FsCert.safeAll, Bool.and_eq_true] at h
      intro v m' i' s' x k n hal hb hp
      have hb1 := blocked_left hb (a := (fsOpe ref e s).1) (fun h => k2 (by simp [FirstSet.merge, h]))
        (fun b hb => k4 b (by simp [FirstSet.merge, hb]))
      cases hp with
      | cho_ok h4 =>
        rcases h3 h.1 v m' i' s' _ hal hb1 h4 with h5 | ⟨h5, s5, h6⟩
        · cases h5
        · cases h6
          exact Or.inr ⟨k3 (by simp [FirstSet.merge, h5]), _, rfl⟩
      | cho_cut h4 => exact Or.inl rfl
      | cho_next h4 h5 => exact k6 h.2 v m' i' s' x _ _ hal hb h5
end

/-- A precedence operator starts as its operand does. -/
theorem snd_prec {f : FirstSet} {a b : Ope} {info : List (List Byte × Nat × Byte)} {r : Nat} {G : Gram V} (h : Snd G al f (.ope a))
    (he : f.canBeEmpty = false) : Snd G al f (.ope (.prec a b info r)) := by
  intro v m i s x ha hb hp
  cases hp with
  | one_ok h => simp [Ope.single] at h
  | one_fail h => simp [Ope.single] at h
  | prec h1 =>
    cases h1 with
    | prec_fail h2 => exact h _ _ _ _ _ ha hb h2
    | prec_atom h2 h3 =>
      rcases h _ _ _ _ _ ha hb h2 with h4 | ⟨h4, -⟩
      · cases h4
      · rw [he] at h4; cases h4

theorem fsPrec_ok (hG : FsOkG cfg C F al) {n r : Nat} {m : Mode} {ref : Nat → FsSt → FirstSet × FsSt} (href : RefGood cfg C F al n ref)
    (e : Ope) (s : FsSt) (hw : C.precOk cfg m r e = true) (hi : FsInv cfg C F al (C.rank r) n s) :
    FsPost cfg C F al s (fsOpe ref e s).2 ∧ ((fsOpe ref e s).1.canBeEmpty = true → C.nul ({} : MCtx).null e = true) ∧
      (F.safeO C cfg.ws.isSome e = true → Snd cfg.gram al (fsOpe ref e s).1 (.ope e)) := by
  unfold Cert.precOk at hw
  split at hw
  case h_2 => cases hw
  rename_i a anm b bnm info rule
  simp only [Bool.and_eq_true] at hw
  obtain ⟨k1, k2, k3⟩ := fsOpe_ok hG href (.ref a anm []) _ {} m s hw.1.1.1.2 rfl hi
  simp only [fsOpe] at k1 k2 k3 ⊢
  refine ⟨k1, fun h => ?_, fun h => ?_⟩
  · simp only [Cert.nul] at k2 ⊢; exact k2 h
  · simp only [FsCert.safeO, Bool.and_eq_true, Bool.not_eq_true'] at h k3
    refine snd_prec (k3 h.1) ?_
    cases hce : (ref a s).1.canBeEmpty with
    | false => rfl
    | true =>
      have := k2 hce
      rw [nul_mono _ this] at h
      exact absurd h.2 (by simp)

theorem lrSplit_append (r : Nat) : ∀ es : List Ope, ∃ pre, es = pre ++ (lrSplit r es).2
  | [] => ⟨[], rfl⟩
  | e :: rest => by
    obtain ⟨pre, h⟩ := lrSplit_append r rest
    unfold lrSplit
    split
    · split
      · exact ⟨_ :: pre, by simp only [List.cons_append]; rw [← h]⟩
      · exact ⟨[], rfl⟩
    · exact ⟨[], rfl⟩

theorem noWsL_split {r : Nat} {es : List Ope} (h : Ope.noWsL es = true) : Ope.noWsL (lrSplit r es).2 = true := by
  obtain ⟨pre, hp⟩ := lrSplit_append r es
  rw [hp] at h
  generalize (lrSplit r es).2 = bs at h
  clear hp
  induction pre with
  | nil => exact h
  | cons e pre ih => simp only [List.cons_append, Ope.noWsL, Bool.and_eq_true] at h; exact ih h.2

theorem safeAll_split {F : FsCert} {C : Cert} {w : Bool} {r : Nat} {es : List Ope} (h : F.safeAll C w es = true) :
    F.safeAll C w (lrSplit r es).2 = true := by
  obtain ⟨pre, hp⟩ := lrSplit_append r es
  rw [hp] at h
  generalize (lrSplit r es).2 = bs at h
  clear hp
  induction pre with
  | nil => exact h
  | cons e pre ih => simp only [List.cons_append, FsCert.safeAll, Bool.and_eq_true] at h; exact ih h.2

theorem nulAny_split {C : Cert} {p : Bool} {r : Nat} {es : List Ope} (h : C.nulAny p (lrSplit r es).2 = true) :
    C.nulAny p es = true := by
  obtain ⟨pre, hp⟩ := lrSplit_append r es
  rw [hp]
  generalize (lrSplit r es).2 = bs at h
  clear hp
  induction pre with
  | nil => exact h
  | cons e pre ih => simp only [List.cons_append, Cert.nulAny, ih, Bool.or_true]

/-- While the first set of a left-recursive rule is computed, its left-recursive alternatives contribute nothing. -/
theorem fsCho_lr {rules : List Def} {n r : Nat} {d : Def} (hd : rules[r]? = some d) : ∀ (es : List Ope) (acc : FirstSet) (s : FsSt),
    r ∈ s.refs → s.cache.lookup r = none →
    ∃ acc' s', fsCho (fsRule rules n) es acc s = fsCho (fsRule rules n) (lrSplit r es).2 acc' s' ∧ acc'.chars = acc.chars ∧
      acc'.anyChar = acc.anyChar ∧ acc'.canBeEmpty = acc.canBeEmpty ∧ s'.refs = s.refs ∧ s'.cache = s.cache
  | [], acc, s, _, _ => ⟨acc, s, rfl, rfl, rfl, rfl, rfl, rfl⟩
  | e :: rest, acc, s, hr, hc => by
    unfold lrSplit
    split
    · rename_i r' nm es kw
      split
      · rename_i he
        subst he
        have hrule : fsRule rules n r' s = ({}, { s with cycles := s.cycles + 1 }) := by
          cases n with
          | zero => rfl
          | succ n => simp only [fsRule, hd, hc, if_pos hr]
        obtain ⟨acc', s', h1, h2, h3, h4, h5, h6⟩ := fsCho_lr (n := n) hd rest
          (acc.merge (fsOpe (fsRule rules n) (.seq (.ref r' nm [] :: es) kw) s).1) { s with cycles := s.cycles + 1 } hr hc
        have hx : fsOpe (fsRule rules n) (.seq (.ref r' nm [] :: es) kw) s = ({}, { s with cycles := s.cycles + 1 }) := by
          simp only [fsOpe, fsSeq, hrule]
          rfl
        refine ⟨acc', s', ?_, ?_, ?_, ?_, h5, h6⟩
        · rw [← h1]
          simp only [fsCho, hx]
        · rw [h2, hx]; simp [FirstSet.merge]
        · rw [h3, hx]; simp [FirstSet.merge]
        · rw [h4, hx]; simp [FirstSet.merge]
      · exact ⟨acc, s, rfl, rfl, rfl, rfl, rfl, rfl⟩
    · exact ⟨acc, s, rfl, rfl, rfl, rfl, rfl, rfl⟩

theorem fsRule_ok (hG : FsOkG cfg C F al) : ∀ n, RefGood cfg C F al n (fsRule cfg.rules n)
  | 0 => by
    intro r d s b hd hr hi
    exfalso
    have := hi.fuel
    have h2 : s.refs.length ≤ cfg.rules.length := by
      have : s.refs ⊆ List.range cfg.rules.length := fun r hr => List.mem_range.mpr (hi.lt r hr)
      simpa using (hi.nodup.subperm this).length_le
    omega
  | n + 1 => by
    intro r d s b hd hr hi
    have huse : ∀ f, RuleFs cfg C F al r f → RuleFs cfg C F al r (fsUse d r f) := fun f h => h.congr rfl rfl rfl
    simp only [fsRule, hd]
    cases hc : s.cache.lookup r with
    | some f =>
      have hmem : (r, f) ∈ s.cache := by
        have := List.lookup_eq_some_iff.mp hc
        obtain ⟨l1, l2, h1, -⟩ := this
        rw [h1]; simp
      exact ⟨FsPost.refl hi, huse f (hi.cache r f hmem)⟩
    | none =>
      have hnr : r ∉ s.refs := fun h => by have := hi.refs r h; omega
      simp only
      rw [if_neg hnr]
      have hlt : r < cfg.rules.length := (List.getElem?_eq_some_iff.mp hd).1
      have hi' : FsInv cfg C F al (C.rank r) n { s with refs := r :: s.refs } := by
        refine ⟨hi.cache, ?_, ?_, ?_, ?_⟩
        · intro q hq
          rcases List.mem_cons.mp hq with rfl | hq
          · exact Nat.le_refl _
          · have := hi.refs q hq; omega
        · exact List.nodup_cons.mpr ⟨hnr, hi.nodup⟩
        · intro q hq
          rcases List.mem_cons.mp hq with rfl | hq
          · exact hlt
          · exact hi.lt q hq
        · have := hi.fuel
          simp only [List.length_cons]
          omega
      have hrule := Cert.ruleOk_of hG.check hd
      simp only [Cert.ruleOk, Bool.and_eq_true, List.all_eq_true, Bool.or_eq_true, Bool.not_eq_true'] at hrule
      obtain ⟨m, hm⟩ := hG.used r d hd
      have h1 := hrule.1.1.1.1.1 m (mem_allModes m)
      rw [hm] at h1
      simp only [Bool.true_eq_false, false_or] at h1
      have hnull : C.nul (C.ctx r d).null d.ope = true → C.null r = true := by
        intro h
        rcases hrule.1.1.1.1.2 with h' | h'
        · rw [h] at h'; cases h'
        · exact h'
      have key : FsPost cfg C F al { s with refs := r :: s.refs } (fsOpe (fsRule cfg.rules n) d.ope { s with refs := r :: s.refs }).2 ∧
          RuleFs cfg C F al r (fsOpe (fsRule cfg.rules n) d.ope { s with refs := r :: s.refs }).1 := by
        by_cases hL : d.isMacro = false ∧ d.isLR = true
        · obtain ⟨hmac, hlr⟩ := hL
          rw [hmac, hlr] at h1
          simp only [Bool.false_eq_true, if_false, if_true] at h1
          unfold Cert.lrOk at h1
          split at h1
          case h_2 => cases h1
          rename_i es l fs ho
          simp only [Bool.and_eq_true, Bool.not_eq_true'] at h1
          obtain ⟨⟨⟨⟨⟨⟨⟨⟨⟨⟨-, -⟩, -⟩, -⟩, -⟩, hnul⟩, -⟩, hwf⟩, -⟩, -⟩, -⟩ := h1
          have hnw := hG.noWs r d hd
          rw [ho] at hnw ⊢
          simp only [Ope.noWsO] at hnw
          obtain ⟨acc, s', e1, e2, e3, e4, e5, e6⟩ := fsCho_lr (n := n) hd es {} { s with refs := r :: s.refs }
            (List.mem_cons_self ..) hc
          have hi2 : FsInv cfg C F al (C.rank r) n s' := by
            refine ⟨?_, ?_, ?_, ?_, ?_⟩
            · rw [e6]; exact hi'.cache
            · rw [e5]; exact hi'.refs
            · rw [e5]; exact hi'.nodup
            · rw [e5]; exact hi'.lt
            · rw [e5]; exact hi'.fuel
          obtain ⟨k1, -, -, -, k2, k3⟩ := fsCho_ok hG (fsRule_ok hG n) (lrSplit r es).2 _ {} m acc s' hwf (noWsL_split hnw) hi2
          simp only [fsOpe, e1]
          have hne : (fsCho (fsRule cfg.rules n) (lrSplit r es).2 acc s').1.canBeEmpty = false := by
            rw [Bool.eq_false_iff]
            intro h
            have hh := (k2 h).resolve_left (by rw [e4]; simp)
            have : C.nul (C.ctx r d).null d.ope = true := by
              simp only [Cert.ctx, hmac]
              rw [ho]
              simp only [Cert.nul]
              exact nulAny_split hh
            rw [hnull this] at hnul
            cases hnul
          refine ⟨⟨k1.refs.trans e5, k1.cache⟩, fun h => (by rw [hne] at h; cases h), fun hs => ?_⟩
          have hsafe := (hG.safe r d hd hs).1
          rw [ho] at hsafe
          simp only [FsCert.safeO] at hsafe
          have hsnd := k3 (safeAll_split hsafe)
          refine ⟨?_, ?_⟩
          · refine snd_lr_ref (G := cfg.gram) hd hmac (snd_lr (G := cfg.gram) hd hlr ?_ hne)
            intro es' l' fs' ho'
            rw [ho] at ho'; cases ho'
            exact hsnd
          · intro d' es' l' fs' hd' _ _ ho' v' m' i' s2 x k n' ha hb hp
            rw [hd] at hd'; cases hd'
            rw [ho] at ho'; cases ho'
            rcases hsnd v' m' i' s2 x k n' ha hb hp with h | ⟨h, -⟩
            · cases x with
              | fail c => rfl
              | ok j c s => cases h
            · rw [hne] at h; cases h
        · have hnl : d.isMacro = false → d.isLR = false := by
            intro h
            cases hl : d.isLR with
            | false => rfl
            | true => exact absurd ⟨h, hl⟩ hL
          have hwf : ∃ κ : MCtx, κ.null = (C.ctx r d).null ∧
              FsPost cfg C F al { s with refs := r :: s.refs } (fsOpe (fsRule cfg.rules n) d.ope { s with refs := r :: s.refs }).2 ∧
              ((fsOpe (fsRule cfg.rules n) d.ope { s with refs := r :: s.refs }).1.canBeEmpty = true → C.nul κ.null d.ope = true) ∧
              (F.safeO C cfg.ws.isSome d.ope = true →
                Snd cfg.gram al (fsOpe (fsRule cfg.rules n) d.ope { s with refs := r :: s.refs }).1 (.ope d.ope)) := by
            by_cases hmac : d.isMacro = true
            · rw [if_pos hmac] at h1
              exact ⟨_, rfl, fsOpe_ok hG (fsRule_ok hG n) d.ope _ _ _ _ h1 (hG.noWs r d hd) hi'⟩
            · rw [if_neg hmac, hnl (by simpa using hmac), if_neg (by simp)] at h1
              simp only [Bool.and_eq_true] at h1
              by_cases hpr : d.ope.isPrec = true
              · rw [if_pos hpr] at h1
                refine ⟨{}, by simp [Cert.ctx, hmac], ?_⟩
                exact fsPrec_ok hG (fsRule_ok hG n) d.ope _ h1.1 hi'
              · rw [if_neg hpr] at h1
                exact ⟨{}, by simp [Cert.ctx, hmac], fsOpe_ok hG (fsRule_ok hG n) d.ope _ _ _ _ h1.1 (hG.noWs r d hd) hi'⟩
          obtain ⟨κ, hκ, k1, k2, k3⟩ := hwf
          refine ⟨k1, fun h => hnull (by rw [← hκ]; exact k2 h), fun h => ⟨fun nm as => ?_, ?_⟩⟩
          · obtain ⟨h1, h2⟩ := hG.safe r d hd h
            refine snd_ref (G := cfg.gram) hd hnl (k3 h1) (fun hm hn he => ?_) nm as
            have := h2 hm hn
            rw [nul_mono _ (k2 he)] at this
            show cfg.ws = none
            simpa using this
          · intro d' es' l' fs' hd' hm' hl'
            rw [hd] at hd'; cases hd'
            rw [hnl hm'] at hl'; cases hl'
      obtain ⟨k1, hfs⟩ := key
      by_cases hcyc : (fsOpe (fsRule cfg.rules n) d.ope { s with refs := r :: s.refs }).2.cycles = s.cycles
      · rw [if_pos hcyc]
        refine ⟨⟨?_, ?_⟩, huse _ hfs⟩
        · simp only [k1.refs]; simp
        · intro q f hq
          rcases List.mem_cons.mp hq with hq | hq
          · cases hq; exact hfs
          · exact k1.cache q f hq
      · rw [if_neg hcyc]
        exact ⟨⟨by simp only [k1.refs]; simp, k1.cache⟩, huse _ hfs⟩

/-- The first set of an alternative, computed with any sound cache. -/
theorem fsAlt_ok (hG : FsOkG cfg C F al) {e : Ope} {b : Nat} {κ : MCtx} {m : Mode} {cache : List (Nat × FirstSet)}
    (hw : wf cfg C κ false m b e = true) (hn : e.noWsO = true) (hc : ∀ r f, (r, f) ∈ cache → RuleFs cfg C F al r f) :
    (∀ r f, (r, f) ∈ (fsAlt cfg.rules e cache).2 → RuleFs cfg C F al r f) ∧
      ((fsAlt cfg.rules e cache).1.canBeEmpty = true → C.nul κ.null e = true) ∧
      (F.safeO C cfg.ws.isSome e = true → Snd cfg.gram al (fsAlt cfg.rules e cache).1 (.ope e)) := by
  obtain ⟨h1, h2, h3⟩ := fsOpe_ok hG (fsRule_ok hG (cfg.rules.length + 1)) e b κ m { cache := cache } hw hn
    ⟨hc, (by intro r h; cases h), List.nodup_nil, (by intro r h; cases h), by simp⟩
  exact ⟨h1.cache, h2, h3⟩

/-- The first set of a left-recursive alternative `r ...`: if it excludes the next byte, the other alternatives of rule `r` fail. -/
theorem fsAlt_lr (hG : FsOkG cfg C F al) {r : Nat} {nm : List Byte} {es : List Ope} {g : Option KwGuard} {b : Nat} {κ : MCtx} {m : Mode}
    {cache : List (Nat × FirstSet)} (hw : wf cfg C κ false m b (.seq (.ref r nm [] :: es) g) = true)
    (hc : ∀ r f, (r, f) ∈ cache → RuleFs cfg C F al r f) (hs : F.safe r = true) :
    LrSnd cfg al r (fsAlt cfg.rules (.seq (.ref r nm [] :: es) g) cache).1 := by
  intro d es' l fs hd hm hl ho v m' i s x k n ha hb hp
  simp only [wf] at hw
  have hw1 : wf cfg C κ false m b (.ref r nm []) = true := by
    simp only [wfSeq, Bool.and_eq_true] at hw; exact hw.1.1
  obtain ⟨d', hd', hr, -⟩ := wfRef hw1
  have hi : FsInv cfg C F al b (cfg.rules.length + 1) { cache := cache } :=
    ⟨hc, (by intro r h; cases h), List.nodup_nil, (by intro r h; cases h), by simp⟩
  obtain ⟨-, k1, k2⟩ := fsRule_ok hG (cfg.rules.length + 1) r d' { cache := cache } b hd' hr hi
  have hne : (fsRule cfg.rules (cfg.rules.length + 1) r { cache := cache }).1.canBeEmpty = false := by
    rw [Bool.eq_false_iff]
    intro h
    have hrule := Cert.ruleOk_of hG.check hd
    simp only [Cert.ruleOk, Bool.and_eq_true, List.all_eq_true, Bool.or_eq_true, Bool.not_eq_true'] at hrule
    obtain ⟨m, hmm⟩ := hG.used r d hd
    have h1 := hrule.1.1.1.1.1 m (mem_allModes m)
    rw [hmm, hm, hl] at h1
    simp only [Bool.true_eq_false, false_or, Bool.false_eq_true, if_false, if_true, Cert.lrOk, ho, Bool.and_eq_true,
      Bool.not_eq_true'] at h1
    have := h1.1.1.1.1.1.2
    rw [k1 h] at this
    cases this
  refine (k2 hs).2 d es' l fs hd hm hl ho v m' i s x k n ha ?_ hp
  refine blocked_left hb ?_ ?_
  · intro h; simp [fsAlt, fsOpe, fsSeq, hne, h]
  · intro c h; simp [fsAlt, fsOpe, fsSeq, hne, h]

end

end Verif
