import Verif.Engine
/-!
# More fuel never changes an answer

`run n ≤ run (n+1)` in the information order (`oof` below everything).
-/

namespace Verif
open Out

variable {V : Type}

/-- Pointwise order on engines. -/
def RecLe (f g : Rec V) : Prop := ∀ cfg t i st, Le (f cfg t i st) (g cfg t i st)

theorem andThen_le {x y : Out (Res V)} {f g : Nat → St V → Out (Res V)} (h : Le x y)
    (hf : ∀ j st, Le (f j st) (g j st)) : Le (andThen x f) (andThen y g) := by
  refine Le.bind h fun r => ?_
  rcases r with ⟨_ | j, st⟩
  · exact Le.refl _
  · exact hf j st

theorem after_le {x y : Out (Res V)} (f : St V → St V) (h : Le x y) : Le (after x f) (after y f) :=
  Le.bind h fun _ => Le.refl _

section
variable {f g : Rec V} (h : RecLe f g)
include h

theorem skipWs_le (cfg : Cfg V) (i : Nat) (st : St V) : Le (skipWs f cfg i st) (skipWs g cfg i st) := by
  unfold skipWs
  split
  · exact Le.refl _
  · split
    · exact Le.refl _
    · exact h _ _ _ _

theorem wordCheck_le (cfg : Cfg V) (w : Ope) (i : Nat) : Le (wordCheck f cfg w i) (wordCheck g cfg w i) :=
  Le.bind (h _ _ _ _) fun _ => Le.refl _

theorem isWord_le (cfg : Cfg V) (w : Ope) (l : List Byte) : Le (isWord f cfg w l) (isWord g cfg w l) :=
  Le.bind (h _ _ _ _) fun _ => Le.refl _

theorem parseLiteral_le (cfg : Cfg V) (l : List Byte) (ic : Bool) (el : ErrLit) (i : Nat) (st : St V) :
    Le (parseLiteral f cfg l ic el i st) (parseLiteral g cfg l ic el i st) := by
  unfold parseLiteral
  split
  · split
    · exact skipWs_le h _ _ _
    · refine Le.bind (isWord_le h _ _ _) fun b => ?_
      cases b
      · exact skipWs_le h _ _ _
      · refine Le.bind (wordCheck_le h _ _ _) fun b => ?_
        cases b
        · exact Le.refl _
        · exact skipWs_le h _ _ _
  · exact Le.refl _

theorem parseDict_le (cfg : Cfg V) (ws : List (List Byte)) (ic : Bool) (i : Nat) (st : St V) :
    Le (parseDict f cfg ws ic i st) (parseDict g cfg ws ic i st) := by
  unfold parseDict
  by_cases hm : ((Trie.build ws ic).matchText (cfg.rest i)).1 = 0
  · simp only [hm, if_true]; exact Le.refl _
  · simp only [hm, if_false]
    split
    · exact skipWs_le h _ _ _
    · refine Le.bind (wordCheck_le h _ _ _) fun b => ?_
      cases b
      · exact Le.refl _
      · exact skipWs_le h _ _ _

theorem parseBref_le (cfg : Cfg V) (nm : List Byte) (i : Nat) (st : St V) :
    Le (parseBref f cfg nm i st) (parseBref g cfg nm i st) := by
  unfold parseBref
  split
  · exact parseLiteral_le h _ _ _ _ _ _
  · exact Le.refl _

theorem tokenBody_le (cfg : Cfg V) (e : Ope) (i : Nat) (st : St V) :
    Le (tokenBody f cfg e i st) (tokenBody g cfg e i st) :=
  andThen_le (after_le _ (h _ _ _ _)) fun _ _ => skipWs_le h _ _ _

theorem seqLoop_le (cfg : Cfg V) (es : List Ope) (i : Nat) (st : St V) :
    Le (seqLoop f cfg es i st) (seqLoop g cfg es i st) := by
  induction es generalizing i st with
  | nil => exact Le.refl _
  | cons e es ih => exact andThen_le (h _ _ _ _) fun j st => ih j st

theorem parseSeq_le (cfg : Cfg V) (es : List Ope) (kw : Option KwGuard) (i : Nat) (st : St V) :
    Le (parseSeq f cfg es kw i st) (parseSeq g cfg es kw i st) := by
  unfold parseSeq
  cases kw with
  | none => exact seqLoop_le h _ _ _ _
  | some k =>
    simp only [Option.bind_some, kwGuarded]
    cases kwScan k (cfg.rest i) with
    | none => exact Le.refl _
    | some n =>
      dsimp only
      by_cases h1 : (k.minLen ≤ n ∧ n ≤ k.maxLen) ∧ Trie.toLower ((cfg.rest i).take n) ∈ k.exact
      · simp only [h1, and_self, if_true]; exact Le.refl _
      · simp only [if_neg h1]
        by_cases h2 : (k.minLen ≤ n ∧ n ≤ k.maxLen) ∧ Trie.toLower ((cfg.rest i).take n) ∈ k.pref
        · simp only [if_pos h2]; exact seqLoop_le h _ _ _ _
        · simp only [if_neg h2]; exact skipWs_le h _ _ _

theorem choLoop_le (cfg : Cfg V) (total : Nat) (fs : List FirstSet) (es : List Ope) (id i : Nat) (st : St V) :
    Le (choLoop f cfg total fs es id i st) (choLoop g cfg total fs es id i st) := by
  induction es generalizing id st with
  | nil => exact Le.refl _
  | cons e es ih =>
    unfold choLoop
    by_cases hs : fsSkip fs[id]? (cfg.rest i) = true
    · simp only [hs, if_true]; exact ih _ _
    · simp only [hs]
      refine Le.bind (h _ _ _ _) fun r => ?_
      rcases r with ⟨_ | j, st'⟩
      · dsimp only
        split
        · exact Le.refl _
        · exact ih _ _
      · exact Le.refl _

theorem repMin_le (cfg : Cfg V) (e : Ope) (k i : Nat) (st : St V) :
    Le (repMin f cfg e k i st) (repMin g cfg e k i st) := by
  induction k generalizing i st with
  | zero => exact Le.refl _
  | succ k ih => exact andThen_le (h _ _ _ _) fun j st => ih j st

theorem opeBody_le (cfg : Cfg V) (r : Nat) (d : Def) (i : Nat) (st : St V) :
    Le (opeBody f cfg r d i st) (opeBody g cfg r d i st) := by
  unfold opeBody
  refine after_le _ ?_
  split
  · exact andThen_le (after_le _ (h _ _ _ _)) fun _ _ => skipWs_le h _ _ _
  · exact h _ _ _ _

theorem doParse_le (cfg : Cfg V) (r : Nat) (d : Def) (i : Nat) (st : St V) :
    Le (doParse f cfg r d i st) (doParse g cfg r d i st) :=
  Le.bind (opeBody_le h _ _ _ _ _) fun _ => Le.refl _

theorem guarded_le (cfg : Cfg V) (r i : Nat) (st : St V) {p q : St V → Out (VRes V)} (hp : ∀ st, Le (p st) (q st)) :
    Le (guarded cfg r i st p) (guarded cfg r i st q) := by
  unfold guarded
  split
  · split
    · split
      · exact Le.refl _
      · split
        · exact Le.refl _
        · exact Le.bind (hp _) fun _ => Le.refl _
    · split
      · exact Le.refl _
      · split
        · exact Le.refl _
        · exact Le.refl _
        · exact Le.bind (hp _) fun _ => Le.refl _
  · split
    · exact Le.refl _
    · split
      · exact Le.refl _
      · exact Le.bind (hp _) fun _ => Le.refl _

theorem growRound_le (cfg : Cfg V) (r inst : Nat) (cyc : List (Nat × Nat)) (j : Nat) (v : Option V) (i : Nat)
    (st : St V) : Le (growRound f cfg r inst cyc j v i st) (growRound g cfg r inst cyc j v i st) := by
  unfold growRound
  split
  · exact Le.refl _
  · refine Le.bind (doParse_le h _ _ _ _ _) fun x => ?_
    rcases x with ⟨_ | j', v', st'⟩
    · exact Le.refl _
    · dsimp only
      split
      · exact Le.refl _
      · exact h _ _ _ _

theorem lrHold_le (cfg : Cfg V) (r : Nat) (d : Def) (i : Nat) (st : St V) :
    Le (lrHold f cfg r d i st) (lrHold g cfg r d i st) := by
  unfold lrHold
  split
  · exact Le.refl _
  · split
    · exact Le.refl _
    · refine Le.bind (doParse_le h _ _ _ _ _) fun x => ?_
      rcases x with ⟨_ | j', v', st'⟩
      · exact Le.refl _
      · exact h _ _ _ _

theorem holder_le (cfg : Cfg V) (r i : Nat) (st : St V) : Le (holder f cfg r i st) (holder g cfg r i st) := by
  unfold holder
  split
  · exact Le.refl _
  · split
    · exact after_le _ (h _ _ _ _)
    · split
      · exact lrHold_le h _ _ _ _ _
      · split
        · refine Le.bind (guarded_le h _ _ _ _ fun st => ?_) fun _ => Le.refl _
          exact Le.bind (opeBody_le h _ _ _ _ _) fun _ => Le.refl _
        · exact Le.bind (guarded_le h _ _ _ _ fun st => doParse_le h _ _ _ _ _) fun _ => Le.refl _

theorem refer_le (cfg : Cfg V) (r : Nat) (as : List Ope) (i : Nat) (st : St V) :
    Le (refer f cfg r as i st) (refer g cfg r as i st) := by
  unfold refer
  split
  · exact Le.refl _
  · split
    · split
      · exact Le.refl _
      · exact Le.refl _
      · split
        · exact Le.refl _
        · split
          · exact Le.refl _
          · split <;> exact after_le _ (h _ _ _ _)
    · split
      · exact h _ _ _ _
      · exact after_le _ (h _ _ _ _)

theorem parsePrec_le (cfg : Cfg V) (a b : Ope) (info : List (List Byte × Nat × Byte)) (r mp i : Nat) (st : St V) :
    Le (parsePrec f cfg a b info r mp i st) (parsePrec g cfg a b info r mp i st) := by
  refine andThen_le (h _ _ _ _) fun j st => ?_
  exact Le.bind (Le.refl _) fun b => after_le _ (h _ _ _ _)

theorem precRound_le (cfg : Cfg V) (a b : Ope) (info : List (List Byte × Nat × Byte)) (r mp bin s i : Nat)
    (st : St V) : Le (precRound f cfg a b info r mp bin s i st) (precRound g cfg a b info r mp bin s i st) := by
  unfold precRound
  split
  · refine Le.bind (h _ _ _ _) fun x => ?_
    dsimp only
    split
    · exact Le.refl _
    · split
      · exact Le.refl _
      · split
        · exact Le.refl _
        · split
          · exact Le.refl _
          · refine Le.bind (h _ _ _ _) fun y => ?_
            rcases y with ⟨_ | k, sty⟩
            · exact Le.refl _
            · dsimp only
              split
              · exact Le.refl _
              · exact h _ _ _ _
  · exact Le.refl _

theorem parseRecov_le (cfg : Cfg V) (r : Nat) (nm : List Byte) (as : List Ope) (i : Nat) (st : St V) :
    Le (parseRecov f cfg r nm as i st) (parseRecov g cfg r nm as i st) :=
  Le.bind (Le.refl _) fun _ => Le.bind (h _ _ _ _) fun _ => Le.refl _

theorem parseOpe_le (cfg : Cfg V) (e : Ope) (i : Nat) (st : St V) :
    Le (parseOpe f cfg e i st) (parseOpe g cfg e i st) := by
  unfold parseOpe
  split
  · exact Le.refl _
  · cases e with
    | seq es kw => exact parseSeq_le h _ _ _ _ _
    | cho es l fs => exact after_le (choExit (cfg.hasCut && !l)) (choLoop_le h _ _ _ _ _ _ _)
    | rep e mn mx sp =>
      show Le (parseRep f cfg e mn mx sp i st) (parseRep g cfg e mn mx sp i st)
      unfold parseRep
      split
      · exact Le.refl _
      · exact andThen_le (repMin_le h _ _ _ _ _) fun _ _ => h _ _ _ _
    | and_ e => exact Le.bind (h _ _ _ _) fun _ => Le.refl _
    | not_ e => exact Le.bind (h _ _ _ _) fun _ => Le.refl _
    | dict w ic => exact parseDict_le h _ _ _ _ _
    | lit s ic => exact parseLiteral_le h _ _ _ _ _ _
    | cls c => exact Le.refl _
    | chr c => exact Le.refl _
    | dot => exact Le.refl _
    | capScope e => exact after_le _ (h _ _ _ _)
    | cap nm e => exact andThen_le (h _ _ _ _) fun _ _ => Le.refl _
    | tok e => exact tokenBody_le h _ _ _ _
    | ign e =>
      show Le (parseIgn f cfg e i st) (parseIgn g cfg e i st)
      unfold parseIgn inScope
      exact after_le _ (h _ _ _ _)
    | usr id => exact Le.refl _
    | weak r => exact h _ _ _ _
    | ref r nm as => exact refer_le h _ _ _ _ _
    | param k nm =>
      show Le (parseParam f cfg k i st) (parseParam g cfg k i st)
      unfold parseParam
      split
      · exact Le.refl _
      · split
        · exact Le.refl _
        · exact h _ _ _ _
    | ws e =>
      show Le (parseWs f cfg e i st) (parseWs g cfg e i st)
      unfold parseWs
      split
      · exact Le.refl _
      · exact after_le _ (h _ _ _ _)
    | bref nm => exact parseBref_le h _ _ _ _
    | prec a b info r => exact h _ _ _ _
    | recov r nm as => exact parseRecov_le h _ _ _ _ _ _
    | cut => exact Le.refl _
    | null => exact Le.refl _

theorem step_le : RecLe (step f) (step g) := by
  intro cfg t i st
  cases t with
  | ope e => exact parseOpe_le h _ _ _ _
  | rep e mx c =>
    show Le (repRound f cfg e mx c i st) (repRound g cfg e mx c i st)
    unfold repRound
    split
    · refine Le.bind (h _ _ _ _) fun r => ?_
      rcases r with ⟨_ | j, st'⟩
      · exact Le.refl _
      · exact h _ _ _ _
    · exact Le.refl _
  | hold r => exact holder_le h _ _ _ _
  | grow r inst cyc j v => exact growRound_le h _ _ _ _ _ _ _ _
  | prec a b info r mp => exact parsePrec_le h _ _ _ _ _ _ _ _
  | precLoop a b info r mp bin s => exact precRound_le h _ _ _ _ _ _ _ _ _ _

end

theorem run_succ_le (n : Nat) : RecLe (run (V := V) n) (run (n + 1)) := by
  induction n with
  | zero => intro _ _ _ _; exact Le.oof _
  | succ n ih => exact step_le ih

theorem run_le {n m : Nat} (h : n ≤ m) : RecLe (run (V := V) n) (run m) := by
  induction h with
  | refl => intro _ _ _ _; exact Le.refl _
  | step _ ih => intro cfg t i st; exact Le.trans (ih cfg t i st) (run_succ_le _ cfg t i st)

/-- Two runs that both finish agree, whatever their fuel. -/
theorem run_unique {n m : Nat} {cfg : Cfg V} {t : Task V} {i : Nat} {st : St V}
    (h1 : run n cfg t i st ≠ .oof) (h2 : run m cfg t i st ≠ .oof) : run n cfg t i st = run m cfg t i st := by
  rcases Nat.le_total n m with h | h
  · rcases run_le h cfg t i st with e | e
    · exact absurd e h1
    · exact e
  · rcases run_le h cfg t i st with e | e
    · exact absurd e h2
    · exact e.symm

theorem parseCore_le {n m : Nat} (h : n ≤ m) (cfg : Cfg V) (r : Nat) (eoi : Bool) (st : St V) :
    Le (parseCore n cfg r eoi st) (parseCore m cfg r eoi st) := by
  unfold parseCore
  refine Le.bind ?_ fun x => ?_
  · cases cfg.ws with
    | none => exact Le.refl _
    | some w => exact run_le h _ _ _ _
  · rcases x with ⟨_ | j, st'⟩
    · exact Le.refl _
    · exact Le.bind (run_le h _ _ _ _) fun _ => Le.refl _

end Verif
