import Verif.DerVals
import Verif.Utf8Pos
/-!
# Derivations in UTF-8 text stay on character boundaries
-/

namespace Verif
open Utf8 CharClass

variable {V : Type}

/-- Computable test for well-formed UTF-8 (`n` bounds the number of characters). -/
def textB : Nat → List Byte → Bool
  | _, [] => true
  | 0, _ :: _ => false
  | n + 1, s =>
    match decodeCodepoint? s with
    | none => false
    | some (k, cp) => decide (IsScalar cp) && encodeCodepoint cp == s.take k && textB n (s.drop k)

theorem textB_sound {n : Nat} {s : List Byte} (h : textB n s = true) : Text s := by
  induction n generalizing s with
  | zero => cases s with
    | nil => exact Text.nil
    | cons b t => simp [textB] at h
  | succ n ih => cases s with
    | nil => exact Text.nil
    | cons b t =>
      simp only [textB] at h
      cases hd : decodeCodepoint? (b :: t) with
      | none => simp [hd] at h
      | some p =>
        simp only [hd, Bool.and_eq_true, decide_eq_true_eq, beq_iff_eq] at h
        have := Text.cons h.1.1 (ih h.2)
        rw [h.1.2, List.take_append_drop] at this
        exact this

/-- One ASCII byte is one character. -/
theorem Text.tail {b : Byte} {t : List Byte} (h : Text (b :: t)) (hb : b.toNat < 128) : Text t := by
  have := h.drop_len
  rw [decodeLen_eq_length] at this
  have h1 : codepointLength (b :: t) = 1 := by
    unfold codepointLength
    simp only
    rw [if_pos ((and80 b).mpr hb)]
  rw [h1] at this
  simpa using this

theorem Text.drop_ascii {s : List Byte} {k : Nat} (h : Text s) (hk : ∀ b ∈ s.take k, b.toNat < 128) : Text (s.drop k) := by
  induction k generalizing s with
  | zero => simpa using h
  | succ k ih => cases s with
    | nil => simpa using h
    | cons b t =>
      simp only [List.take_succ_cons, List.mem_cons, forall_eq_or_imp] at hk
      exact ih (h.tail hk.1) hk.2

theorem asciiBit_lt {c : Cls} {b : Byte} (h : c.asciiBit b = true) : b.toNat < 128 := by
  unfold Cls.asciiBit Cls.isAsciiOnly at h
  simp only [Bool.and_eq_true, List.any_eq_true, List.all_eq_true, List.mem_range', Bool.or_eq_true, decide_eq_true_eq] at h
  obtain ⟨⟨_, h1⟩, r, hr, cp, ⟨k, hk, rfl⟩, h2⟩ := h
  have := h1 r hr
  unfold toUpper toLower at h2
  split at h2 <;> split at h2 <;> omega

/-- Derivations stay inside the input. -/
theorem Der.inside {cfg : Cfg V} {K : DCtx} {E : DEnv} {t : DTask V} {i : Nat} {f : Frame V} {j : Nat} {f' : Frame V}
    (h : Der cfg K E t i f j f') (hi : i ≤ cfg.input.length) : j ≤ cfg.input.length := by
  have hl : ∀ i, (cfg.rest i).length = cfg.input.length - i := fun i => by simp [Cfg.rest]
  induction h with
  | noSkip | wsIn | nil | cut | zero | and | not | precEnd => exact hi
  | skip _ _ ih | ws _ ih | seq _ ih | cho _ _ ih | rep _ _ _ ih | capScope _ ih | cap _ ih | ign _ ih | ref _ _ _ ih
  | call _ _ _ _ _ ih | param _ _ ih | body _ _ ih | precOpe _ ih | recov _ _ ih | anyFrame _ _ ih => exact ih hi
  | rule _ _ _ _ _ _ ih => exact ih hi
  | ruleReco _ _ _ _ ih => exact ih hi
  | one h1 h2 => have := single_le h1 h2; rw [hl] at this; omega
  | lit h1 _ ih => have := litMatch_le h1; rw [hl] at this; exact ih (by omega)
  | @dict E wl ic k n i f j f' h1 h2 _ ih =>
    have := dict_le wl ic (cfg.rest i)
    rw [h1, hl] at this
    exact ih (by omega)
  | bref _ h1 _ ih => have := litMatch_le h1; rw [hl] at this; exact ih (by omega)
  | usr _ h2 => exact h2
  | word h1 _ ih => have := (kwScan_bounds h1).2; rw [hl] at this; exact ih (by omega)
  | cons _ _ ih1 ih2 | succ _ _ ih1 ih2 | tok _ _ ih1 ih2 | bodyWs _ _ _ ih1 ih2 | prec _ _ ih1 ih2 => exact ih2 (ih1 hi)
  | span _ _ h3 _ => rw [hl] at h3; omega
  | precMore _ _ _ _ _ _ _ _ ih1 ih2 ih3 => exact ih3 (ih2 (ih1 hi))

/-- All grammars. -/
def plainLg (cfg : Cfg V) (recov : Bool) : Lg where
  al := (· ≤ cfg.input.length)
  K := { recov := recov }

/-- Error recovery only where allowed. -/
def plainNode (recov : Bool) : Ope → Bool
  | .recov .. => recov
  | .weak _ => false
  | .prec .. => false
  | _ => true

theorem plainNode_ok (cfg : Cfg V) (recov : Bool) (e : Ope) (h : plainNode recov e = true) : (plainLg cfg recov).node e := by
  cases e with
  | seq es kw => cases kw <;> trivial
  | rep e mn mx sp => cases sp <;> trivial
  | recov r nm as => exact h
  | weak r => cases h
  | prec => cases h
  | _ => trivial

theorem plainHyp {cfg : Cfg V} {recov : Bool} (H : DShape cfg (plainLg cfg recov)) : DHyp cfg (plainLg cfg recov) where
  frame := H.frame
  slots := H.slots
  body := H.body
  lr := H.lr
  env := H.env
  ws := H.ws
  slotInj := H.slotInj
  closed := fun _ _ _ _ _ _ _ _ hi h => h.inside hi
  cap := fun _ _ _ _ _ _ _ _ _ _ _ => trivial

/-- The language of grammars whose literals are UTF-8. -/
def utf8Lg (cfg : Cfg V) (recov : Bool) : Lg where
  al := fun i => i ≤ cfg.input.length ∧ Bdry cfg.input i
  K := { cap := fun _ t => Text t, recov := recov }
  lit := fun t _ => Text t
  dict := fun ws _ => ∀ w ∈ ws, Text w
  kw := fun g => ∀ b ∈ g.first ++ g.rest, b.toNat < 128

/-- User-defined parsers stop at character boundaries. -/
def UserBdry (cfg : Cfg V) : Prop :=
  ∀ id i f dt k, Bdry cfg.input i → (cfg.user id i f dt).1 = some k → i + k ≤ cfg.input.length → Bdry cfg.input (i + k)

/-- Literals and dictionary words are UTF-8, keyword guards scan ASCII identifiers. -/
def utf8Node (recov : Bool) : Ope → Bool
  | .lit t _ => textB t.length t
  | .dict ws _ => ws.all fun w => textB w.length w
  | .seq _ (some g) => (g.first ++ g.rest).all fun b => b.toNat < 128
  | .recov .. => recov
  | .weak _ => false
  | .prec .. => false
  | _ => true

theorem utf8Node_ok (cfg : Cfg V) (recov : Bool) (e : Ope) (h : utf8Node recov e = true) : (utf8Lg cfg recov).node e := by
  cases e with
  | lit t ic => exact textB_sound h
  | dict ws ic =>
    simp only [utf8Node, List.all_eq_true] at h
    exact fun w hw => textB_sound (h w hw)
  | seq es kw =>
    cases kw with
    | none => trivial
    | some g =>
      simp only [utf8Node, List.all_eq_true, decide_eq_true_eq] at h
      exact h
  | rep e mn mx sp => cases sp <;> trivial
  | recov r nm as => exact h
  | weak r => cases h
  | prec => cases h
  | _ => trivial

theorem kwScan_ascii {g : KwGuard} (hg : ∀ b ∈ g.first ++ g.rest, b.toNat < 128) {s : List Byte} {k : Nat}
    (h : kwScan g s = some k) : ∀ b ∈ s.take k, b.toNat < 128 := by
  cases s with
  | nil => simp [kwScan] at h
  | cons b t =>
    simp only [kwScan] at h
    split at h
    · rename_i hb
      cases h
      intro c hc
      rw [Nat.add_comm, List.take_succ_cons, List.mem_cons] at hc
      rcases hc with rfl | hc
      · exact hg _ (by simp [hb])
      · have : t.take (t.takeWhile (· ∈ g.rest)).length = t.takeWhile (· ∈ g.rest) :=
          (List.prefix_iff_eq_take.mp (List.takeWhile_prefix _)).symm
        rw [this] at hc
        have h1 := List.all_eq_true.mp (List.all_takeWhile (p := (· ∈ g.rest)) (l := t)) c hc
        simp only [decide_eq_true_eq] at h1
        exact hg _ (List.mem_append_right _ h1)
    · cases h

theorem Bdry.add {input : List Byte} {i k : Nat} (h : Text ((input.drop i).drop k)) : Bdry input (i + k) := by
  unfold Bdry; rwa [← List.drop_drop]

/-- **Derivations lead from character boundary to character boundary.** -/
theorem der_bdry {cfg : Cfg V} {recov : Bool} (H : DShape cfg (utf8Lg cfg recov)) (hu : UserBdry cfg) {E : DEnv} {t : DTask V}
    {i : Nat} {f : Frame V} {j : Nat} {f' : Frame V} (h : Der cfg (utf8Lg cfg recov).K E t i f j f')
    (hE : DEnv.Ok (utf8Lg cfg recov) E) (ht : t.Ok (utf8Lg cfg recov)) (hi : Bdry cfg.input i) : Bdry cfg.input j := by
  induction h with
  | noSkip => exact hi
  | skip hw _ ih => exact ih hE (.inl (H.ws _ hw).1) hi
  | wsIn => exact hi
  | ws _ ih =>
    have hk := Ope.Ok.not_prec ht (by intro _ _ _ _ e; cases e)
    simp only [Ope.Ok] at hk
    exact ih hE (.inl hk) hi
  | one h1 h2 =>
    rw [single_len h1 h2]
    exact Bdry.add (Text.drop_len hi)
  | lit h1 _ ih =>
    have hk := Ope.Ok.not_prec ht (by intro _ _ _ _ e; cases e)
    simp only [Ope.Ok, utf8Lg] at hk
    refine ih hE trivial (Bdry.add ?_)
    unfold litMatch at h1
    split at h1
    · exact text_prefix_lower hk hi (List.isPrefixOf_iff_prefix.mp (by simpa [Cfg.rest] using h1))
    · exact text_prefix hk hi (List.isPrefixOf_iff_prefix.mp (by simpa [Cfg.rest] using h1))
  | @dict E wl ic k n i f j f' h1 h2 _ ih =>
    have hk := Ope.Ok.not_prec ht (by intro _ _ _ _ e; cases e)
    simp only [Ope.Ok, utf8Lg] at hk
    refine ih hE trivial ?_
    have := bdry_dict (cfg := cfg) hk ic hi
    rwa [h1] at this
  | bref h1 h2 _ ih =>
    refine ih hE trivial (Bdry.add ?_)
    unfold litMatch at h2
    exact text_prefix h1 hi (List.isPrefixOf_iff_prefix.mp (by simpa [Cfg.rest] using h2))
  | usr h1 h2 => exact hu _ _ _ _ _ hi h1 h2
  | seq _ ih =>
    have hk := Ope.Ok.not_prec ht (by intro _ _ _ _ e; cases e)
    simp only [Ope.Ok] at hk
    exact ih hE hk.2 hi
  | word h1 _ ih =>
    have hk := Ope.Ok.not_prec ht (by intro _ _ _ _ e; cases e)
    simp only [Ope.Ok] at hk
    exact ih hE trivial (Bdry.add (Text.drop_ascii hi (kwScan_ascii (hk.1 _ rfl) h1)))
  | nil => exact hi
  | cons _ _ ih1 ih2 =>
    simp only [DTask.Ok, Ope.OkL] at ht
    exact ih2 hE ht.2 (ih1 hE (.inl ht.1) hi)
  | cho h1 _ ih =>
    have hk := Ope.Ok.not_prec ht (by intro _ _ _ _ e; cases e)
    simp only [Ope.Ok] at hk
    exact ih hE (.inl (okL_iff.mp hk _ (List.mem_of_getElem? h1))) hi
  | cut => exact hi
  | rep _ _ _ ih =>
    have hk := Ope.Ok.not_prec ht (by intro _ _ _ _ e; cases e)
    simp only [Ope.Ok] at hk
    exact ih hE hk.2 hi
  | span _ _ _ h4 => exact Bdry.add (Text.drop_ascii hi (fun b hb => asciiBit_lt (h4 b hb)))
  | zero => exact hi
  | succ _ _ ih1 ih2 => exact ih2 hE ht (ih1 hE (.inl ht) hi)
  | and => exact hi
  | not => exact hi
  | capScope _ ih =>
    have hk := Ope.Ok.not_prec ht (by intro _ _ _ _ e; cases e)
    simp only [Ope.Ok] at hk
    exact ih hE (.inl hk) hi
  | cap _ ih =>
    have hk := Ope.Ok.not_prec ht (by intro _ _ _ _ e; cases e)
    simp only [Ope.Ok] at hk
    exact ih hE (.inl hk) hi
  | tok _ _ ih1 ih2 =>
    have hk := Ope.Ok.not_prec ht (by intro _ _ _ _ e; cases e)
    simp only [Ope.Ok] at hk
    exact ih2 hE trivial (ih1 hE (.inl hk) hi)
  | ign _ ih =>
    have hk := Ope.Ok.not_prec ht (by intro _ _ _ _ e; cases e)
    simp only [Ope.Ok] at hk
    exact ih hE (.inl hk) hi
  | ref _ _ _ ih => exact ih hE trivial hi
  | call h1 h2 h3 h4 h5 ih =>
    have hk := Ope.Ok.not_prec ht (by intro _ _ _ _ e; cases e)
    simp only [Ope.Ok] at hk
    exact ih (okL_iff.mp (resolveList_ok hE _ hk)) (.inl (H.lr _ _ h1 h2).2) hi
  | param h1 _ ih => exact ih hE (.inl (hE _ (List.mem_of_getElem? h1))) hi
  | body _ _ ih => exact ih hE ht hi
  | bodyWs _ _ _ ih1 ih2 => exact ih2 hE trivial (ih1 hE ht hi)
  | rule h1 h2 h3 h4 h5 h6 ih => exact ih (by intro e he; cases he) (H.body _ _ h1) hi
  | precOpe _ ih =>
    rcases ht with ht | ⟨a, b, info, q, e, ha, hb⟩
    · simp only [Ope.Ok] at ht
    · cases e
      exact ih hE ⟨ha, hb⟩ hi
  | prec _ _ ih1 ih2 => exact ih2 hE ht (ih1 hE (.inl ht.1) hi)
  | precEnd => exact hi
  | precMore _ _ _ _ _ _ _ _ ih1 ih2 ih3 => exact ih3 hE ht (ih2 hE ht (ih1 hE (.inl ht.2) hi))
  | recov h1 h2 ih =>
    have hk := Ope.Ok.not_prec ht (by intro _ _ _ _ e; cases e)
    simp only [Ope.Ok] at hk
    exact ih hE (.inl (by simp only [Ope.Ok]; exact hk.2)) hi
  | anyFrame _ _ ih => exact ih hE ht hi
  | ruleReco h1 h2 h3 h4 ih => exact ih (by intro e he; cases he) (H.body _ _ h2) hi

theorem utf8Hyp {cfg : Cfg V} {recov : Bool} (H : DShape cfg (utf8Lg cfg recov)) (hu : UserBdry cfg) :
    DHyp cfg (utf8Lg cfg recov) where
  frame := H.frame
  slots := H.slots
  body := H.body
  lr := H.lr
  env := H.env
  ws := H.ws
  slotInj := H.slotInj
  closed := fun _ _ _ _ _ _ hE ht hi h => ⟨h.inside hi.1, der_bdry H hu h hE ht hi.2⟩
  cap := by
    intro E nm e i f j f' hE he hi h
    have hj : Bdry cfg.input j := der_bdry H hu h hE (.inl he) hi.2
    refine text_take hi.2 ?_
    show Text ((cfg.input.drop i).drop (j - i))
    rw [List.drop_drop, Nat.add_sub_cancel' h.le]
    exact hj

end Verif
