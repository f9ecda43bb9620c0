import Verif.PegDet
import Verif.Plain
/-!
# Matches go forward, and some always consume
-/

namespace Verif
open CharClass

variable {V : Type}

/-- A match ends where it starts or later. -/
theorem Peg.le {G : Gram V} {v : Env} {m : Mode} {t : PTask} {i : Nat} {s : PSt V} {x : PRes V} (h : Peg G v m t i s x) :
    ∀ j c s', x = .ok j c s' → i ≤ j := by
  induction h
  case seq_cons x _ _ _ _ => intro j c s' e; cases x <;> simp_all [PRes.orCut]; omega
  case tok_ok x _ _ _ _ => intro j c s' e; cases x <;> simp_all [PRes.orCut]; omega
  case body_ok x _ _ _ _ _ => intro j c s' e; cases x <;> simp_all [PRes.orCut]; omega
  case loop_must x _ _ _ _ => intro j c s' e; cases x <;> simp_all [PRes.orCut]; omega
  case loop_more x _ _ _ _ _ => intro j c s' e; cases x <;> simp_all [PRes.orCut]; omega
  case prec_atom x _ _ _ _ => intro j c s' e; cases x <;> simp_all [PRes.orCut]; omega
  case prec_more x _ _ _ _ _ _ _ _ _ _ _ _ _ _ => intro j c s' e; cases x <;> simp_all [PRes.orCut]; omega
  case cho x _ _ => intro j c s' e; cases x <;> simp_all [PRes.noCut]
  all_goals (intro j c s' e; first | (cases e; done) | (cases e; simp; done) | (cases e; simp_all; done) | (simp_all; omega) | skip)
  all_goals grind

mutual
/-- The expression matches no empty string if the rules in `z` do not. -/
def Ope.alwaysEats (z : Nat → Bool) : Ope → Bool
  | .lit t _ => !t.isEmpty
  | .seq es _ => Ope.eatsAny z es
  | .cho es _ _ => Ope.eatsAll z es
  | .rep e mn _ _ => decide (0 < mn) && e.alwaysEats z
  | .capScope e => e.alwaysEats z
  | .cap _ e => e.alwaysEats z
  | .tok e => e.alwaysEats z
  | .ign e => e.alwaysEats z
  | .dict .. => true
  | .ref r _ _ => z r
  | _ => false

def Ope.eatsAny (z : Nat → Bool) : List Ope → Bool
  | [] => false
  | e :: es => e.alwaysEats z || Ope.eatsAny z es

def Ope.eatsAll (z : Nat → Bool) : List Ope → Bool
  | [] => true
  | e :: es => e.alwaysEats z && Ope.eatsAll z es
end

/-- The rules in `z` match no empty string. -/
def EatingRules (rules : List Def) (z : Nat → Bool) : Prop :=
  ∀ (r : Nat) (d : Def), rules[r]? = some d → z r = true → d.ope.alwaysEats z = true

theorem eatsAll_split {z : Nat → Bool} (r : Nat) : ∀ es : List Ope, Ope.eatsAll z es = true → Ope.eatsAll z (lrSplit r es).2 = true
  | [], _ => rfl
  | e :: rest, h => by
    unfold lrSplit
    split
    · split
      · simp only [Ope.eatsAll, Bool.and_eq_true] at h
        exact eatsAll_split r rest h.2
      · exact h
    · exact h

/-- Task `t` always consumes. -/
def PTask.alwaysEats (z : Nat → Bool) : PTask → Prop
  | .ope e => e.alwaysEats z = true
  | .seqL es => Ope.eatsAny z es = true
  | .choL es _ _ => Ope.eatsAll z es = true
  | .loop e need _ _ => 0 < need ∧ e.alwaysEats z = true
  | .text t _ => t ≠ []
  | .body d => d.ope.alwaysEats z = true
  | .hold r => z r = true
  | _ => False

theorem Peg.consumes {G : Gram V} {v : Env} {m : Mode} {t : PTask} {i : Nat} {s : PSt V} {x : PRes V} (h : Peg G v m t i s x)
    {z : Nat → Bool} (hz : EatingRules G.rules z) (ht : t.alwaysEats z) : ∀ j c s', x = .ok j c s' → i < j := by
  induction h with
  | skip_tok | skip_none | skip_ws | grow_stop | grow_idle | grow_more => exact ht.elim
  | prec_fail | prec_atom | prec_eof | prec_noOp | prec_stop | prec_noRhs | prec_more => exact ht.elim
  | ws_in | ws_out | cut | and_ok | and_fail | not_ok | not_fail | bref | bref_no | param | prec => simp [PTask.alwaysEats, Ope.alwaysEats] at ht
  | @one_ok G v m e f k i s h1 h2 => cases e <;> simp [Ope.single] at h1 <;> simp [PTask.alwaysEats, Ope.alwaysEats] at ht
  | lit _ ih => exact ih hz (by simpa [PTask.alwaysEats, Ope.alwaysEats] using ht)
  | text_plain _ _ h _ =>
    intro j c s' e
    have := h.le _ _ _ e
    have := List.length_pos_iff.2 ht
    omega
  | text_nonword _ _ _ h _ _ =>
    intro j c s' e
    have := h.le _ _ _ e
    have := List.length_pos_iff.2 ht
    omega
  | text_word _ _ _ _ h _ _ _ =>
    intro j c s' e
    have := h.le _ _ _ e
    have := List.length_pos_iff.2 ht
    omega
  | dict_plain _ _ _ h _ => intro j c s' e; have := h.le _ _ _ e; omega
  | dict_word _ _ _ _ h _ _ => intro j c s' e; have := h.le _ _ _ e; omega
  | seq _ ih => exact ih hz (by simpa [PTask.alwaysEats, Ope.alwaysEats] using ht)
  | seq_nil => simp [PTask.alwaysEats, Ope.eatsAny] at ht
  | @seq_cons _ _ _ _ _ _ _ _ _ _ x h1 h2 ih1 ih2 =>
    intro j c s' e
    cases x with
    | fail => cases e
    | ok j' c' s'' =>
      cases e
      have a := h1.le _ _ _ rfl
      have b := h2.le _ _ _ rfl
      simp only [PTask.alwaysEats, Ope.eatsAny, Bool.or_eq_true] at ht ih1 ih2
      rcases ht with ht | ht
      · have := ih1 hz ht _ _ _ rfl; omega
      · have := ih2 hz ht _ _ _ rfl; omega
  | @cho _ _ _ _ _ _ _ _ x _ ih =>
    intro j c s' e
    cases x with
    | fail => cases e
    | ok j' c' s'' => cases e; exact ih hz (by simpa [PTask.alwaysEats, Ope.alwaysEats] using ht) _ _ _ rfl
  | cho_ok _ ih =>
    intro j c s' e
    cases e
    simp only [PTask.alwaysEats, Ope.eatsAll, Bool.and_eq_true] at ht
    exact ih hz ht.1 _ _ _ rfl
  | cho_next _ _ _ ih =>
    simp only [PTask.alwaysEats, Ope.eatsAll, Bool.and_eq_true] at ht
    exact ih hz ht.2
  | rep _ ih => exact ih hz (by simpa [PTask.alwaysEats, Ope.alwaysEats] using ht)
  | @loop_must _ _ _ _ _ _ _ _ _ _ _ _ x h1 h2 ih1 _ =>
    intro j c s' e
    cases x with
    | fail => cases e
    | ok j' c' s'' =>
      cases e
      have a := ih1 hz ht.2 _ _ _ rfl
      have b := h2.le _ _ _ rfl
      omega
  | loop_full => exact absurd ht.1 (Nat.lt_irrefl _)
  | loop_more => exact absurd ht.1 (Nat.lt_irrefl _)
  | loop_end => exact absurd ht.1 (Nat.lt_irrefl _)
  | scope_ok _ ih => intro j c s' e; cases e; exact ih hz (by simpa [PTask.alwaysEats, Ope.alwaysEats] using ht) _ _ _ rfl
  | cap_ok _ ih => intro j c s' e; cases e; exact ih hz (by simpa [PTask.alwaysEats, Ope.alwaysEats] using ht) _ _ _ rfl
  | @tok_ok _ _ _ _ _ _ _ _ _ x h1 h2 ih1 _ =>
    intro j c s' e
    cases x with
    | fail => cases e
    | ok j' c' s'' =>
      cases e
      have a := ih1 hz (by simpa [PTask.alwaysEats, Ope.alwaysEats] using ht) _ _ _ rfl
      have b := h2.le _ _ _ rfl
      omega
  | ign_ok _ ih => intro j c s' e; cases e; exact ih hz (by simpa [PTask.alwaysEats, Ope.alwaysEats] using ht) _ _ _ rfl
  | ref _ _ _ ih => exact ih hz (by simpa [PTask.alwaysEats, Ope.alwaysEats] using ht)
  | call h1 _ _ ih => exact ih hz (hz _ _ h1 (by simpa [PTask.alwaysEats, Ope.alwaysEats] using ht))
  | body _ _ ih => exact ih hz ht
  | @body_ok _ _ _ _ _ _ _ _ _ x _ h1 h2 ih1 _ =>
    intro j c s' e
    cases x with
    | fail => cases e
    | ok j' c' s'' =>
      cases e
      have a := ih1 hz ht _ _ _ rfl
      have b := h2.le _ _ _ rfl
      omega
  | rule_ok h1 _ _ _ ih => intro j c s' e; cases e; exact ih hz (hz _ _ h1 ht) _ _ _ rfl
  | rule_pred h1 _ _ _ _ ih => intro j c s' e; cases e; exact ih hz (hz _ _ h1 ht) _ _ _ rfl
  | lr_ok h1 _ _ h2 _ _ hg ih _ =>
    intro j c s' e
    cases e
    have hs := hz _ _ h1 ht
    rw [h2] at hs
    have a := ih hz (eatsAll_split _ _ (by simpa [Ope.alwaysEats] using hs)) _ _ _ rfl
    have b := hg.le _ _ _ rfl
    omega
  | _ => intro j c s' e; cases e

end Verif
