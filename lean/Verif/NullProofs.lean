import Verif.Analysis
import Verif.Utf8Der
/-!
# Nullability: the fixed point, and what it says about matches
-/

namespace Verif
open CharClass Utf8

variable {V : Type}

/-! ## Monotonicity and the fixed point -/

def TblLe (s t : Nat → Bool) : Prop := ∀ r, s r = true → t r = true

mutual
theorem cbe_mono {s t : Nat → Bool} (h : TblLe s t) : ∀ (e : Ope), cbe s e = true → cbe t e = true
  | .seq es _, hh => by simp only [cbe] at hh ⊢; exact cbeAll_mono h es hh
  | .cho es _ _, hh => by simp only [cbe] at hh ⊢; exact cbeAny_mono h es hh
  | .rep .., hh => by simpa only [cbe] using hh
  | .and_ _, _ => rfl
  | .not_ _, _ => rfl
  | .dict .., hh => by simp [cbe] at hh
  | .lit .., hh => by simpa only [cbe] using hh
  | .cls _, hh => by simp [cbe] at hh
  | .chr _, hh => by simp [cbe] at hh
  | .dot, hh => by simp [cbe] at hh
  | .capScope e, hh => by simp only [cbe] at hh ⊢; exact cbe_mono h e hh
  | .cap _ e, hh => by simp only [cbe] at hh ⊢; exact cbe_mono h e hh
  | .tok e, hh => by simp only [cbe] at hh ⊢; exact cbe_mono h e hh
  | .ign e, hh => by simp only [cbe] at hh ⊢; exact cbe_mono h e hh
  | .usr _, hh => by simp [cbe] at hh
  | .weak r, hh => by simp only [cbe] at hh ⊢; exact h r hh
  | .ref r _ _, hh => by simp only [cbe] at hh ⊢; exact h r hh
  | .param .., hh => by simp [cbe] at hh
  | .ws e, hh => by simp only [cbe] at hh ⊢; exact cbe_mono h e hh
  | .bref _, hh => by simp [cbe] at hh
  | .prec a _ _ _, hh => by simp only [cbe] at hh ⊢; exact cbe_mono h a hh
  | .recov r _ _, hh => by simp only [cbe] at hh ⊢; exact h r hh
  | .cut, hh => by simp [cbe] at hh
  | .null, hh => by simp [cbe] at hh

theorem cbeAll_mono {s t : Nat → Bool} (h : TblLe s t) : ∀ (es : List Ope), cbeAll s es = true → cbeAll t es = true
  | [], _ => rfl
  | e :: es, hh => by
    simp only [cbeAll, Bool.and_eq_true] at hh ⊢
    exact ⟨cbe_mono h e hh.1, cbeAll_mono h es hh.2⟩

theorem cbeAny_mono {s t : Nat → Bool} (h : TblLe s t) : ∀ (es : List Ope), cbeAny s es = true → cbeAny t es = true
  | [], hh => by simp [cbeAny] at hh
  | e :: es, hh => by
    simp only [cbeAny, Bool.or_eq_true] at hh ⊢
    exact hh.imp (cbe_mono h e) (cbeAny_mono h es)
end

/-- Closed under the rules: whatever body is empty makes its rule empty. -/
def TblClosed (rules : List Def) (t : Nat → Bool) : Prop :=
  ∀ (r : Nat) (d : Def), rules[r]? = some d → cbe t d.ope = true → t r = true

/-- The table only claims what its own evaluation confirms. -/
def TblJust (rules : List Def) (t : Nat → Bool) : Prop :=
  ∀ r, t r = true → ∃ d, rules[r]? = some d ∧ cbe t d.ope = true

theorem step_props {rules : List Def} {s : (Nat → Bool) × Bool} {r : Nat} (h : TblJust rules s.1) :
    TblJust rules (cbeStep rules s r).1 ∧ TblLe s.1 (cbeStep rules s r).1 ∧
    (∀ t, TblClosed rules t → TblLe s.1 t → TblLe (cbeStep rules s r).1 t) ∧
    (s.2 = true → (cbeStep rules s r).2 = true) ∧
    ((cbeStep rules s r).2 = false → (cbeStep rules s r).1 = s.1 ∧
      ∀ d, rules[r]? = some d → cbe s.1 d.ope = s.1 r) ∧
    (s.2 = false → (cbeStep rules s r).2 = true →
      ∃ q, q < rules.length ∧ s.1 q = false ∧ (cbeStep rules s r).1 q = true) := by
  cases hr : rules[r]? with
  | none =>
    have e : cbeStep rules s r = s := by unfold cbeStep; rw [hr]
    rw [e]
    refine ⟨h, fun _ hh => hh, fun _ _ hh => hh, id, fun _ => ⟨rfl, fun d hd => by cases hd⟩, ?_⟩
    intro h1 h2; rw [h1] at h2; cases h2
  | some d =>
    by_cases hc : cbe s.1 d.ope = s.1 r
    · have e : cbeStep rules s r = s := by
        unfold cbeStep; rw [hr]; simp [hc]
      rw [e]
      refine ⟨h, fun _ hh => hh, fun _ _ hh => hh, id, fun _ => ⟨rfl, fun d' hd' => ?_⟩, ?_⟩
      · cases hd'; exact hc
      · intro h1 h2; rw [h1] at h2; cases h2
    · have e : cbeStep rules s r = (setTbl s.1 r (cbe s.1 d.ope), true) := by
        unfold cbeStep; rw [hr]; simp [hc]
      rw [e]
      -- the flag can only be raised
      have hf : s.1 r = false ∧ cbe s.1 d.ope = true := by
        cases hs : s.1 r with
        | false =>
          rw [hs] at hc
          exact ⟨rfl, by simpa using hc⟩
        | true =>
          obtain ⟨d', hd', hcb⟩ := h r hs
          rw [hr] at hd'; cases hd'
          exact absurd (hcb.trans hs.symm) hc
      have hle : TblLe s.1 (setTbl s.1 r (cbe s.1 d.ope)) := by
        intro q hq
        unfold setTbl
        split
        · exact hf.2
        · exact hq
      refine ⟨?_, hle, ?_, fun _ => rfl, (fun hh => (by cases hh)), ?_⟩
      · intro q hq
        by_cases hqr : q = r
        · subst hqr
          exact ⟨d, hr, cbe_mono hle _ hf.2⟩
        · have : s.1 q = true := by
            simp only [setTbl, if_neg hqr] at hq; exact hq
          obtain ⟨d', hd', hcb⟩ := h q this
          exact ⟨d', hd', cbe_mono hle _ hcb⟩
      · intro t ht hst q hq
        by_cases hqr : q = r
        · subst hqr
          exact ht q d hr (cbe_mono hst _ hf.2)
        · simp only [setTbl, if_neg hqr] at hq
          exact hst q hq
      · intro _ _
        refine ⟨r, (List.getElem?_eq_some_iff.mp hr).1, hf.1, ?_⟩
        simp only [setTbl, if_true]; exact hf.2

theorem round_props {rules : List Def} (ord : List Nat) (s : (Nat → Bool) × Bool) (h : TblJust rules s.1) :
    TblJust rules (ord.foldl (cbeStep rules) s).1 ∧ TblLe s.1 (ord.foldl (cbeStep rules) s).1 ∧
    (∀ t, TblClosed rules t → TblLe s.1 t → TblLe (ord.foldl (cbeStep rules) s).1 t) ∧
    (s.2 = true → (ord.foldl (cbeStep rules) s).2 = true) ∧
    ((ord.foldl (cbeStep rules) s).2 = false → (ord.foldl (cbeStep rules) s).1 = s.1 ∧
      ∀ r ∈ ord, ∀ d, rules[r]? = some d → cbe s.1 d.ope = s.1 r) ∧
    (s.2 = false → (ord.foldl (cbeStep rules) s).2 = true →
      ∃ q, q < rules.length ∧ s.1 q = false ∧ (ord.foldl (cbeStep rules) s).1 q = true) := by
  induction ord generalizing s with
  | nil =>
    refine ⟨h, fun _ hh => hh, fun _ _ hh => hh, id, fun _ => ⟨rfl, by simp⟩, ?_⟩
    intro h1 h2; simp only [List.foldl_nil] at h2; rw [h1] at h2; cases h2
  | cons r ord ih =>
    obtain ⟨a1, a2, a3, a4, a5, a6⟩ := step_props (r := r) h
    obtain ⟨b1, b2, b3, b4, b5, b6⟩ := ih (cbeStep rules s r) a1
    simp only [List.foldl_cons]
    refine ⟨b1, fun q hq => b2 q (a2 q hq), fun t ht hs => b3 t ht (a3 t ht hs), fun hh => b4 (a4 hh), ?_, ?_⟩
    · intro hh
      have hs2 : (cbeStep rules s r).2 = false := by
        cases hx : (cbeStep rules s r).2 with
        | false => rfl
        | true => rw [b4 hx] at hh; cases hh
      obtain ⟨e1, e2⟩ := a5 hs2
      obtain ⟨c1, c2⟩ := b5 hh
      refine ⟨c1.trans e1, ?_⟩
      intro q hq d hd
      rcases List.mem_cons.mp hq with rfl | hq
      · exact e2 d hd
      · rw [← e1]; exact c2 q hq d hd
    · intro h1 h2
      cases hx : (cbeStep rules s r).2 with
      | false =>
        obtain ⟨e1, e2⟩ := a5 hx
        obtain ⟨q, hq, h3, h4⟩ := b6 hx h2
        rw [e1] at h3
        exact ⟨q, hq, h3, h4⟩
      | true =>
        obtain ⟨q, hq, h3, h4⟩ := a6 h1 hx
        exact ⟨q, hq, h3, b2 q h4⟩

/-- How many of the first `n` rules are not marked. -/
def unmarked (t : Nat → Bool) (n : Nat) : Nat := (List.range n).countP fun r => !t r

theorem unmarked_lt {s t : Nat → Bool} {n q : Nat} (h : TblLe s t) (hq : q < n) (h1 : s q = false) (h2 : t q = true) :
    unmarked t n < unmarked s n := by
  unfold unmarked
  have mono : ∀ l : List Nat, l.countP (fun r => !t r) ≤ l.countP (fun r => !s r) := by
    intro l
    apply List.countP_mono_left
    intro x _ hx
    simp only [Bool.not_eq_true'] at hx ⊢
    cases hs : s x with
    | false => rfl
    | true => rw [h x hs] at hx; cases hx
  have hm : q ∈ List.range n := List.mem_range.mpr hq
  obtain ⟨l1, l2, hl⟩ := List.append_of_mem hm
  rw [hl, List.countP_append, List.countP_append, List.countP_cons, List.countP_cons]
  have := mono l1
  have := mono l2
  simp only [h1, h2, Bool.not_true, Bool.not_false, if_true, Bool.false_eq_true, if_false]
  omega

/-- The loop ends, with the least table closed under the rules. -/
theorem cbeLoop_spec (rules : List Def) (ord : List Nat) (fuel : Nat) (s : Nat → Bool) (h : TblJust rules s)
    (hf : unmarked s rules.length < fuel) :
    ∃ t, cbeLoop rules ord fuel s = some t ∧ TblJust rules t ∧ TblLe s t ∧
      (∀ r ∈ ord, ∀ d, rules[r]? = some d → cbe t d.ope = t r) ∧
      ∀ t', TblClosed rules t' → TblLe s t' → TblLe t t' := by
  induction fuel generalizing s with
  | zero => omega
  | succ fuel ih =>
    obtain ⟨b1, b2, b3, b4, b5, b6⟩ := round_props ord (s, false) h
    unfold cbeLoop
    simp only
    cases hx : (cbeRound rules ord s).2 with
    | false =>
      obtain ⟨c1, c2⟩ := b5 hx
      refine ⟨(cbeRound rules ord s).1, by simp, b1, b2, ?_, b3⟩
      intro r hr d hd
      show cbe (ord.foldl (cbeStep rules) (s, false)).1 d.ope = (ord.foldl (cbeStep rules) (s, false)).1 r
      rw [c1]; exact c2 r hr d hd
    | true =>
      obtain ⟨q, hq, h3, h4⟩ := b6 rfl hx
      have hlt : _ < unmarked s rules.length := unmarked_lt b2 hq h3 h4
      simp only [if_true]
      obtain ⟨t, ht, k1, k2, k3, k4⟩ := ih (cbeRound rules ord s).1 b1 (by
        show unmarked (ord.foldl (cbeStep rules) (s, false)).1 rules.length < fuel
        omega)
      exact ⟨t, ht, k1, fun r hr => k2 r (b2 r hr), k3, fun t' ht' hs => k4 t' ht' (b3 t' ht' hs)⟩

/-! ## What may match the empty string -/

mutual
/-- Can the operator match without consuming, judged conservatively?  `z` says which one-character operators may match
zero bytes, `tbl` which rules may be empty.  Cuts, back references, parameters, user-defined parsers and null pointers
count as possibly empty; so does `x{n}` when `x` does. -/
def mayEmpty (z : Ope → Bool) (tbl : Nat → Bool) : Ope → Bool
  | .seq es _ => mayEmptyAll z tbl es
  | .cho es _ _ => mayEmptyAny z tbl es
  | .rep e mn _ _ => mn == 0 || mayEmpty z tbl e
  | .and_ _ => true
  | .not_ _ => true
  | .dict _ _ => false
  | .lit s _ => s.isEmpty
  | .cls c => z (.cls c)
  | .chr c => z (.chr c)
  | .dot => z .dot
  | .capScope e => mayEmpty z tbl e
  | .cap _ e => mayEmpty z tbl e
  | .tok e => mayEmpty z tbl e
  | .ign e => mayEmpty z tbl e
  | .usr _ => true
  | .weak _ => true
  | .ref r _ _ => tbl r
  | .param _ _ => true
  | .ws _ => true
  | .bref _ => true
  | .prec a _ _ _ => mayEmpty z tbl a
  | .recov r _ _ => tbl r
  | .cut => true
  | .null => true

def mayEmptyAll (z : Ope → Bool) (tbl : Nat → Bool) : List Ope → Bool
  | [] => true
  | e :: es => mayEmpty z tbl e && mayEmptyAll z tbl es

def mayEmptyAny (z : Ope → Bool) (tbl : Nat → Bool) : List Ope → Bool
  | [] => false
  | e :: es => mayEmpty z tbl e || mayEmptyAny z tbl es
end

theorem mayEmptyAny_of {z : Ope → Bool} {tbl : Nat → Bool} {es : List Ope} {e : Ope} (he : e ∈ es)
    (h : mayEmpty z tbl e = true) : mayEmptyAny z tbl es = true := by
  induction es with
  | nil => cases he
  | cons a es ih =>
    simp only [mayEmptyAny, Bool.or_eq_true]
    rcases List.mem_cons.mp he with rfl | he
    · exact .inl h
    · exact .inr (ih he)

/-- What an empty derivation of a task says. -/
def EmptyTask (z : Ope → Bool) (tbl : Nat → Bool) : DTask V → Prop
  | .ope e => mayEmpty z tbl e = true
  | .seqL es => mayEmptyAll z tbl es = true
  | .reps e n => n = 0 ∨ mayEmpty z tbl e = true
  | .skip => True
  | .body d => mayEmpty z tbl d.ope = true
  | .rule r _ => tbl r = true
  | .prec a _ _ _ _ => mayEmpty z tbl a = true
  | .precLoop .. => True

theorem single_mayEmpty {e : Ope} {g : List Byte → Option Nat} {z : Ope → Bool} {tbl : Nat → Bool}
    (h : e.single = some g) (hz : z e = true) : mayEmpty z tbl e = true := by
  cases e <;> simp only [Ope.single, reduceCtorEq] at h <;> exact hz

/-- **An operator that derives the empty string may be empty.** -/
theorem Der.empty {cfg : Cfg V} {L : Lg} (H : DHyp cfg L) {z : Ope → Bool} {tbl : Nat → Bool}
    (hz : ∀ i e g, L.al i → e.single = some g → g (cfg.rest i) = some 0 → z e = true)
    (ht : ∀ (r : Nat) (d : Def), cfg.rules[r]? = some d → mayEmpty z tbl d.ope = true → tbl r = true)
    {E : DEnv} {t : DTask V} {i : Nat} {f : Frame V} {j : Nat} {f' : Frame V}
    (h : Der cfg L.K E t i f j f') (hE : DEnv.Ok L E) (hok : t.Ok L) (hi : L.al i) (hj : j = i) :
    EmptyTask z tbl t := by
  induction h with
  | noSkip | skip | nil | precEnd | precMore => first | trivial | rfl
  | wsIn | ws | cut | and | not | bref | usr | param => rfl
  | one h1 h2 =>
    rename_i k i f
    have hk : k = 0 := by omega
    subst hk
    exact single_mayEmpty h1 (hz _ _ _ hi h1 h2)
  | lit h1 h2 ih =>
    rename_i t ic i f j f'
    have := h2.le
    have : t.length = 0 := by omega
    simp only [EmptyTask, mayEmpty]
    cases t with
    | nil => rfl
    | cons => simp at this
  | dict h1 h2 h3 ih => have := h3.le; omega
  | seq _ ih =>
    have hk := Ope.Ok.not_prec hok (by intro _ _ _ _ e; cases e)
    simp only [Ope.Ok] at hk
    exact ih hE hk.2 hi hj
  | word h1 h2 ih =>
    have := h2.le
    have := (kwScan_bounds h1).1
    omega
  | cons h1 h2 ih1 ih2 =>
    simp only [DTask.Ok, Ope.OkL] at hok
    have := h1.le
    have := h2.le
    have ha := H.closed _ _ _ _ _ _ hE (show DTask.Ok L (.ope _) from .inl hok.1) hi h1
    have e1 := ih1 hE (.inl hok.1) hi (by omega)
    have e2 := ih2 hE hok.2 ha (by omega)
    simp only [EmptyTask] at e1 e2
    simp only [EmptyTask, mayEmptyAll, e1, e2, Bool.and_self]
  | cho h1 _ ih =>
    have hk := Ope.Ok.not_prec hok (by intro _ _ _ _ e; cases e)
    simp only [Ope.Ok] at hk
    exact mayEmptyAny_of (List.mem_of_getElem? h1) (ih hE (.inl (okL_iff.mp hk _ (List.mem_of_getElem? h1))) hi hj)
  | rep h1 _ _ ih =>
    have hk := Ope.Ok.not_prec hok (by intro _ _ _ _ e; cases e)
    simp only [Ope.Ok] at hk
    simp only [EmptyTask, mayEmpty, Bool.or_eq_true, beq_iff_eq]
    rcases ih hE hk.2 hi hj with h | h
    · left; omega
    · exact .inr h
  | span h1 _ _ _ =>
    simp only [EmptyTask, mayEmpty, Bool.or_eq_true, beq_iff_eq]
    left; omega
  | zero => exact .inl rfl
  | succ h1 h2 ih1 _ =>
    have := h1.le
    have := h2.le
    exact .inr (ih1 hE (.inl hok) hi (by omega))
  | capScope _ ih =>
    have hk := Ope.Ok.not_prec hok (by intro _ _ _ _ e; cases e)
    simp only [Ope.Ok] at hk
    exact ih hE (.inl hk) hi hj
  | cap _ ih =>
    have hk := Ope.Ok.not_prec hok (by intro _ _ _ _ e; cases e)
    simp only [Ope.Ok] at hk
    exact ih hE (.inl hk) hi hj
  | tok h1 h2 ih1 _ =>
    have hk := Ope.Ok.not_prec hok (by intro _ _ _ _ e; cases e)
    simp only [Ope.Ok] at hk
    have := h1.le
    have := h2.le
    exact ih1 hE (.inl hk) hi (by omega)
  | ign _ ih =>
    have hk := Ope.Ok.not_prec hok (by intro _ _ _ _ e; cases e)
    simp only [Ope.Ok] at hk
    exact ih hE (.inl hk) hi hj
  | ref _ _ _ ih => exact ih hE trivial hi hj
  | call h1 h2 h3 h4 h5 ih =>
    have hk := Ope.Ok.not_prec hok (by intro _ _ _ _ e; cases e)
    simp only [Ope.Ok] at hk
    exact ht _ _ h1 (ih (okL_iff.mp (resolveList_ok hE _ hk)) (.inl (H.lr _ _ h1 h2).2) hi hj)
  | body _ _ ih => exact ih hE hok hi hj
  | bodyWs _ h1 h2 ih1 _ =>
    have := h1.le
    have := h2.le
    exact ih1 hE hok hi (by omega)
  | rule h1 h2 h3 h4 h5 h6 ih => exact ht _ _ h1 (ih (by intro e he; cases he) (H.body _ _ h1) hi hj)
  | precOpe _ ih =>
    rcases hok with hok | ⟨a, b, info, q, e, ha, hb⟩
    · simp only [Ope.Ok] at hok
    · cases e
      exact ih hE ⟨ha, hb⟩ hi hj
  | prec h1 h2 ih1 _ =>
    have := h1.le
    have := h2.le
    exact ih1 hE (.inl hok.1) hi (by omega)
  | recov h1 h2 ih =>
    have hk := Ope.Ok.not_prec hok (by intro _ _ _ _ e; cases e)
    simp only [Ope.Ok] at hk
    exact ih hE (.inl (by simp only [Ope.Ok]; exact hk.2)) hi hj
  | anyFrame _ _ ih => exact ih hE hok hi hj
  | ruleReco h1 h2 h3 h4 ih => exact ht _ _ h2 (ih (by intro e he; cases he) (H.body _ _ h2) hi hj)

end Verif

/-! ## When the analysis itself is conservative -/

namespace Verif

variable {V : Type}

mutual
/-- No node of the expression is one that `ComputeCanBeEmpty` calls non-empty although it may be empty: no cut, back
reference, macro parameter or user-defined parser, no one-character operator that can match zero bytes, and no `x{n}`
(`x+`, `x{n,m}`) whose `x` is itself called possibly empty. -/
def holeFree (z : Ope → Bool) (tbl : Nat → Bool) : Ope → Bool
  | .seq es _ => holeFreeL z tbl es
  | .cho es _ _ => holeFreeL z tbl es
  | .rep e mn _ _ => mn == 0 || (!cbe tbl e && holeFree z tbl e)
  | .cls c => !z (.cls c)
  | .chr c => !z (.chr c)
  | .dot => !z .dot
  | .capScope e => holeFree z tbl e
  | .cap _ e => holeFree z tbl e
  | .tok e => holeFree z tbl e
  | .ign e => holeFree z tbl e
  | .usr _ => false
  | .weak _ => false
  | .param _ _ => false
  | .ws _ => false
  | .bref _ => false
  | .prec a _ _ _ => holeFree z tbl a
  | .cut => false
  | .null => false
  | _ => true

def holeFreeL (z : Ope → Bool) (tbl : Nat → Bool) : List Ope → Bool
  | [] => true
  | e :: es => holeFree z tbl e && holeFreeL z tbl es
end

mutual
theorem mayEmpty_cbe {z : Ope → Bool} {tbl : Nat → Bool} : ∀ (e : Ope), holeFree z tbl e = true →
    mayEmpty z tbl e = true → cbe tbl e = true
  | .seq es _, h, hh => by simp only [holeFree] at h; simp only [mayEmpty] at hh; simp only [cbe]; exact mayEmptyAll_cbe es h hh
  | .cho es _ _, h, hh => by simp only [holeFree] at h; simp only [mayEmpty] at hh; simp only [cbe]; exact mayEmptyAny_cbe es h hh
  | .rep e mn _ _, h, hh => by
    simp only [holeFree, Bool.or_eq_true, Bool.and_eq_true, Bool.not_eq_true', beq_iff_eq] at h
    simp only [mayEmpty, Bool.or_eq_true, beq_iff_eq] at hh
    simp only [cbe, beq_iff_eq]
    rcases h with h | ⟨h1, h2⟩
    · exact h
    · rcases hh with hh | hh
      · exact hh
      · rw [mayEmpty_cbe e h2 hh] at h1; cases h1
  | .and_ _, _, _ => rfl
  | .not_ _, _, _ => rfl
  | .dict .., _, hh => by simp [mayEmpty] at hh
  | .lit .., _, hh => by simpa only [mayEmpty, cbe] using hh
  | .cls c, h, hh => by simp only [holeFree, Bool.not_eq_true'] at h; simp only [mayEmpty] at hh; rw [h] at hh; cases hh
  | .chr c, h, hh => by simp only [holeFree, Bool.not_eq_true'] at h; simp only [mayEmpty] at hh; rw [h] at hh; cases hh
  | .dot, h, hh => by simp only [holeFree, Bool.not_eq_true'] at h; simp only [mayEmpty] at hh; rw [h] at hh; cases hh
  | .capScope e, h, hh => by simp only [holeFree] at h; simp only [mayEmpty] at hh; simp only [cbe]; exact mayEmpty_cbe e h hh
  | .cap _ e, h, hh => by simp only [holeFree] at h; simp only [mayEmpty] at hh; simp only [cbe]; exact mayEmpty_cbe e h hh
  | .tok e, h, hh => by simp only [holeFree] at h; simp only [mayEmpty] at hh; simp only [cbe]; exact mayEmpty_cbe e h hh
  | .ign e, h, hh => by simp only [holeFree] at h; simp only [mayEmpty] at hh; simp only [cbe]; exact mayEmpty_cbe e h hh
  | .usr _, h, _ => by simp [holeFree] at h
  | .weak r, h, _ => by simp [holeFree] at h
  | .ref r _ _, _, hh => by simpa only [mayEmpty, cbe] using hh
  | .param .., h, _ => by simp [holeFree] at h
  | .ws e, h, _ => by simp [holeFree] at h
  | .bref _, h, _ => by simp [holeFree] at h
  | .prec a _ _ _, h, hh => by simp only [holeFree] at h; simp only [mayEmpty] at hh; simp only [cbe]; exact mayEmpty_cbe a h hh
  | .recov r _ _, _, hh => by simpa only [mayEmpty, cbe] using hh
  | .cut, h, _ => by simp [holeFree] at h
  | .null, h, _ => by simp [holeFree] at h

theorem mayEmptyAll_cbe {z : Ope → Bool} {tbl : Nat → Bool} : ∀ (es : List Ope), holeFreeL z tbl es = true →
    mayEmptyAll z tbl es = true → cbeAll tbl es = true
  | [], _, _ => rfl
  | e :: es, h, hh => by
    simp only [holeFreeL, mayEmptyAll, cbeAll, Bool.and_eq_true] at h hh ⊢
    exact ⟨mayEmpty_cbe e h.1 hh.1, mayEmptyAll_cbe es h.2 hh.2⟩

theorem mayEmptyAny_cbe {z : Ope → Bool} {tbl : Nat → Bool} : ∀ (es : List Ope), holeFreeL z tbl es = true →
    mayEmptyAny z tbl es = true → cbeAny tbl es = true
  | [], _, hh => by simp [mayEmptyAny] at hh
  | e :: es, h, hh => by
    simp only [holeFreeL, mayEmptyAny, cbeAny, Bool.and_eq_true, Bool.or_eq_true] at h hh ⊢
    exact hh.imp (mayEmpty_cbe e h.1) (mayEmptyAny_cbe es h.2)
end

/-- A one-character operator that accepts code point 0 matches zero bytes of malformed UTF-8 (peglib.h 1886-1898, 1938-1947:
the decoder reports length 0 and code point 0). -/
def zeroByte : Ope → Bool
  | .cls c => c.ranges.any (CharClass.inRange c.ignoreCase · 0) != c.negated
  | .chr c => c == 0
  | _ => false

open CharClass Utf8 in
theorem zeroByte_of {e : Ope} {g : List Byte → Option Nat} {s : List Byte} (h : e.single = some g) (hk : g s = some 0) :
    zeroByte e = true := by
  have hl := single_len h hk
  have hcp : s ≠ [] → (decodeLenCp s).2 = 0 := by
    intro hs
    unfold decodeLenCp at hl ⊢
    cases hd : decodeCodepoint? s with
    | none => rfl
    | some p =>
      rw [hd] at hl
      exfalso
      have : 0 < p.1 := by
        unfold decodeCodepoint? at hd
        cases s with
        | nil => exact absurd rfl hs
        | cons b t =>
          simp only at hd
          repeat' split at hd
          all_goals first | (cases hd; show 0 < _; omega) | (cases hd)
      have hl : 0 = p.1 := hl
      omega
  cases e <;> simp only [Ope.single, Option.some.injEq, reduceCtorEq] at h
  · subst h
    rename_i c
    cases s with
    | nil => simp [Cls.matchLen] at hk
    | cons b t =>
      simp only [Cls.matchLen] at hk
      have := hcp (by simp)
      rw [this] at hk
      simp only [zeroByte]
      by_cases hr : c.ranges.any (inRange c.ignoreCase · 0) = true
      · rw [if_pos hr] at hk
        cases hn : c.negated with
        | true => simp [hn] at hk
        | false => simp [hr]
      · rw [if_neg hr] at hk
        cases hn : c.negated with
        | true => simp [hr]
        | false => simp [hn] at hk
  · subst h
    rename_i c
    cases s with
    | nil => simp [matchChar] at hk
    | cons b t =>
      simp only [matchChar] at hk
      have := hcp (by simp)
      rw [this] at hk
      by_cases hc : 0 ≠ c
      · rw [if_pos hc] at hk; cases hk
      · simp only [zeroByte, beq_iff_eq]; omega
  · subst h
    exfalso
    unfold matchAny at hk
    simp only at hk
    split at hk
    · cases hk
    · simp only [Option.some.injEq] at hk; omega

end Verif
