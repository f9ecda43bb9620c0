import Verif.Props.ErrText
import Verif.Props.Derive
/-!
# Error reports in UTF-8 text: C59
-/

namespace Verif.Props
open Verif Out Utf8 ErrText

variable {V : Type}

/-! ## Positions in text, counted in characters -/

/-- The line (from 1) of the position behind the characters `cs`. -/
def lineOf (cs : List Nat) : Nat := 1 + cs.count 10

/-- The characters of the last line of `cs`. -/
def lineText (cs : List Nat) : List Nat := (cs.reverse.takeWhile (· ≠ 10)).reverse

/-- The column (from 1) of the position behind the characters `cs`. -/
def colOf (cs : List Nat) : Nat := (lineText cs).length + 1

/-- The UTF-8 encoding. -/
def enc (cs : List Nat) : List Byte := cs.flatMap encodeCodepoint

theorem enc_append (a b : List Nat) : enc (a ++ b) = enc a ++ enc b := List.flatMap_append

theorem nl_enc {c : Nat} (h : IsScalar c) (hc : c ≠ 10) : (10 : Byte) ∉ encodeCodepoint c := by
  rcases enc_bytes h with ⟨h1, h2⟩ | ⟨h1, h2⟩
  · rw [h2]
    intro hm
    rw [List.mem_singleton] at hm
    have := congrArg UInt8.toNat hm
    unfold toByte at this
    simp at this
    omega
  · intro hm
    have := h2.2 _ hm
    revert this; decide

theorem nl_enc' : encodeCodepoint 10 = [10] := by decide

theorem count_nl (cs : List Nat) (h : ∀ c ∈ cs, IsScalar c) : (enc cs).count 10 = cs.count 10 := by
  induction cs with
  | nil => rfl
  | cons c cs ih =>
    have := ih fun c hc => h c (List.mem_cons_of_mem _ hc)
    rw [show enc (c :: cs) = encodeCodepoint c ++ enc cs from List.flatMap_cons, List.count_append, this]
    by_cases hc : c = 10
    · subst hc
      rw [nl_enc', List.count_cons_self]
      simp; omega
    · rw [List.count_eq_zero_of_not_mem (nl_enc (h c (by simp)) hc), List.count_cons_of_ne (by omega), Nat.zero_add]

theorem snocInd {α : Type} {P : List α → Prop} (h0 : P []) (h1 : ∀ l a, P l → P (l ++ [a])) (l : List α) : P l := by
  have : ∀ l : List α, P l.reverse := by
    intro l
    induction l with
    | nil => exact h0
    | cons a l ih => rw [List.reverse_cons]; exact h1 _ _ ih
  simpa using this l.reverse

theorem lastLine_enc (cs : List Nat) (h : ∀ c ∈ cs, IsScalar c) : LineInfo.lastLine (enc cs) = enc (lineText cs) := by
  induction cs using snocInd with
  | h0 => rfl
  | h1 cs c ih =>
    have hc : IsScalar c := h c (by simp)
    have ih := ih fun c hc => h c (List.mem_append_left _ hc)
    rw [enc_append, show enc [c] = encodeCodepoint c from List.append_nil _]
    by_cases h10 : c = 10
    · subst h10
      rw [nl_enc', show ([10] : List Byte) = 10 :: [] from rfl, LineInfo.lastLine_append_nl _ [] (by simp)]
      simp [lineText, enc]
    · unfold LineInfo.lastLine lineText
      unfold LineInfo.lastLine lineText at ih
      rw [List.reverse_append, List.takeWhile_append_of_pos, List.reverse_append, List.reverse_reverse, ih]
      · rw [List.reverse_append, List.reverse_singleton, List.singleton_append, List.takeWhile_cons_of_pos (by simpa using h10),
          List.reverse_cons, enc_append, show enc [c] = encodeCodepoint c from List.append_nil _]
      · intro b hb
        have hb := List.mem_reverse.1 hb
        have := nl_enc hc h10
        simp only [ne_eq, decide_not, Bool.not_eq_true', decide_eq_false_iff_not]
        rintro rfl
        exact this hb

/-- **C59**: in well-formed UTF-8 input, with a grammar whose literals are UTF-8, every error report - of an error that was recovered
from or of the failure of the parse - is at a character boundary; the line and the column of the message count characters, and the
unexpected token consists of whole characters. -/
theorem C59_reports_at_characters (recov : Bool) {cfg : Cfg V} {r : Nat} {d : Def} {eoi log : Bool} {dt : Option V} {a : Answer V}
    (H : DerReady (utf8Node recov) cfg) (hu : UserBdry cfg) (hi : Text cfg.input) (hd : cfg.rules[r]? = some d) (hm : d.isMacro = false)
    (h : Answers cfg r eoi log dt a) {rep : Report} (hr : rep ∈ a.logs) :
    ∃ before after : List Nat, (∀ c ∈ before ++ after, IsScalar c) ∧ cfg.input = enc before ++ enc after ∧
      rep.pos = (enc before).length ∧
      LineInfo.lineInfo cfg.input rep.pos = (lineOf before, colOf before) ∧
      heuristicToken cfg.input rep.pos = .ok (Escape.escapeCharacters (enc (tokenOf after))) := by
  have hin := C50_reports_inside h hr
  have hal : Bdry cfg.input rep.pos := by
    have HS := DShape.of_check (utf8Node_ok cfg recov) H.check H.slots H.user
    have h0 : (utf8Lg cfg recov).al 0 := ⟨Nat.zero_le _, hi⟩
    obtain ⟨n, h⟩ := h
    unfold parserParse at h
    obtain ⟨res, h1, h2⟩ := Out.bind_eq_ok.1 h
    have E := parseCore_errD (utf8Hyp HS hu) h0 (by intro d' hd'; rw [hd] at hd'; cases hd'; exact hm) h1
    unfold postProcess at h2
    split at h2
    · obtain ⟨o, ho, e⟩ := Out.bind_eq_ok.1 h2
      cases e
      rcases List.mem_append.1 hr with hr | hr
      · exact (E.logs rep hr).2
      · rw [Option.mem_toList] at hr
        exact (E.output ho rep hr).2
    · cases h2
      exact (E.logs rep hr).2
  obtain ⟨after, ha1, ha2⟩ := hal
  obtain ⟨before, hb1, hb2⟩ := text_take hi ⟨after, ha1, ha2⟩
  have he : cfg.input = enc before ++ enc after := by
    have := List.take_append_drop rep.pos cfg.input
    rw [hb2, ha2] at this
    exact this.symm
  have hl : rep.pos = (enc before).length := by
    have := congrArg List.length hb2
    rw [List.length_take, Nat.min_eq_left hin] at this
    exact this
  refine ⟨before, after, ?_, he, hl, ?_, ?_⟩
  · intro c hc
    rcases List.mem_append.1 hc with hc | hc
    · exact hb1 c hc
    · exact ha1 c hc
  · rw [C11_line_info cfg.input rep.pos hin, hb2, show before.flatMap encodeCodepoint = enc before from rfl, lastLine_enc _ hb1,
      count_nl _ hb1]
    have hs : ∀ c ∈ lineText before, IsScalar c := by
      intro c hc
      unfold lineText at hc
      exact hb1 c (by simpa using (List.takeWhile_prefix _).subset (List.mem_reverse.1 hc))
    unfold enc colOf lineOf
    rw [C03_count_encoded _ hs]
  · rw [he, hl]
    exact C56_unexpected_token (enc before) after ha1

/-- Every parse of a UTF-8 text by the grammar of `deCfg` reports errors at whole characters. -/
example (input : List Byte) (hi : Text input) (a : Answer Nat) (h : Answers (deCfg input) 0 true true none a) (rep : Report) (hr : rep ∈ a.logs) :
    Text (input.take rep.pos) ∧ Text (input.drop rep.pos) := by
  obtain ⟨b, c, h1, h2, h3, -⟩ := C59_reports_at_characters false (deReady false input) (fun _ _ _ _ _ _ h _ => by cases h) hi rfl rfl h hr
  have h2 : input = enc b ++ enc c := h2
  rw [h2, h3, List.take_left, List.drop_left]
  exact ⟨⟨b, fun x hx => h1 x (List.mem_append_left _ hx), rfl⟩, ⟨c, fun x hx => h1 x (List.mem_append_right _ hx), rfl⟩⟩

/-- "«é +éü": the error is behind five characters (eight bytes), in line 1, column 6. -/
example : (match parserParse 60 (deCfg [0xC2, 0xAB, 0xC3, 0xA9, 32, 43, 0xC3, 0xA9, 0xC3, 0xBC]) 0 true true none with
    | .ok a => a.logs.map fun rep => (rep.pos, LineInfo.lineInfo [0xC2, 0xAB, 0xC3, 0xA9, 32, 43, 0xC3, 0xA9, 0xC3, 0xBC] rep.pos)
    | _ => []) = [(8, 1, 6)] := by decide +kernel

/-- A literal that is half a character (`S <- '\xC3' 'x'` on "é"): the report is inside the character. -/
theorem C59_half_character_witness :
    (match parserParse 20 ({ input := [0xC3, 0xA9], needsRuleStack := true, rules := [{ name := [83], ope := .seq [.lit [0xC3] false, .lit [120] false] none }] } : Cfg Nat) 0 true true none with
      | .ok a => a.logs.map (·.pos)
      | _ => []) = [1] ∧ ¬ Bdry [0xC3, 0xA9] 1 := by
  refine ⟨by decide +kernel, ?_⟩
  rintro ⟨cs, h1, h2⟩
  cases cs with
  | nil => cases h2
  | cons c cs =>
    have h2 : [(0xA9 : Byte)] = encodeCodepoint c ++ cs.flatMap encodeCodepoint := h2
    have hc := h1 c (by simp)
    have hp := encode_length_pos hc
    have he : encodeCodepoint c = [0xA9] := by
      have : (encodeCodepoint c).length ≤ 1 := by
        have := congrArg List.length h2
        simp only [List.length_append, List.length_singleton] at this
        omega
      cases hx : encodeCodepoint c with
      | nil => rw [hx] at hp; simp at hp
      | cons b t =>
        rw [hx] at h2 this
        have : t = [] := by cases t with
          | nil => rfl
          | cons _ _ => simp at this
        subst this
        simp only [List.cons_append, List.nil_append, List.cons.injEq] at h2
        rw [← h2.1]
    have := codepointLength_encode c hc []
    rw [he] at this
    revert this; decide

end Verif.Props
