import Verif.Load
/-!
# The stages of loading

`load_inv`: what a grammar that loads went through.
-/

namespace Verif
open Out

/-- The rules when the loop check is made: linked, with the left-recursion marks. -/
def Source.marked (mark : List Def → Nat → Bool) (S : Source) : List Def :=
  if S.leftRec then (linkAll S.all).mapIdx fun r d => { d with isLR := mark (linkAll S.all) r } else linkAll S.all

/-- With literal tokens made token boundaries if there is a white-space rule. -/
def Source.tokened (mark : List Def → Nat → Bool) (S : Source) : List Def :=
  if (ruleNamed S.all whitespaceName).isSome then (S.marked mark).map tokLit else S.marked mark

theorem load_inv {mark loops : List Def → Nat → Bool} {order : List Nat} {S : Source} {G : Parser} {a : Nat}
    (h : load mark loops order S = .ok (some (G, a))) :
    (S.leftRec = false → ∀ r : Nat, r < S.all.length → mark (linkAll S.all) r = false) ∧
    loops (S.marked mark) a = false ∧
    (∀ w, ruleNamed S.all whitespaceName = some w → loops (S.tokened mark) w = false) ∧
    (∀ w, ruleNamed S.all wordName = some w → loops (S.tokened mark) w = false) ∧
    ∃ rs, precAll S.prec 0 (S.tokened mark) = some rs ∧ G.rules = setupAll rs order ∧
      G.ws = (fun r => if r = a then ((ruleNamed S.all whitespaceName).bind fun r => (setupAll rs order)[r]?).map fun d => Ope.ws (.ign d.ope) else none) ∧
      G.word = (fun r => if r = a then ((ruleNamed S.all wordName).bind fun r => (setupAll rs order)[r]?).map Def.ope else none) ∧
      G.packrat = (fun r => decide (r = a) && S.packrat) := by
  unfold load at h
  by_cases h0 : ¬ (S.all.map (·.head.name)).Nodup
  · rw [if_pos h0] at h; cases h
  rw [if_neg h0] at h
  cases hst : S.startRule with
  | none => rw [hst] at h; cases h
  | some o =>
    rw [hst] at h
    cases o with
    | none => cases h
    | some a' =>
      dsimp only at h
      split at h
      · cases h
      split at h
      · cases h
      split at h
      · cases h
      rename_i hlr
      have e1 : (if S.leftRec = true then (linkAll S.all).mapIdx fun r d => { d with isLR := mark (linkAll S.all) r } else linkAll S.all) =
          S.marked mark := rfl
      rw [e1] at h
      split at h
      · cases h
      rename_i hloop
      have e2 : (if (ruleNamed S.all whitespaceName).isSome = true then (S.marked mark).map tokLit else S.marked mark) = S.tokened mark := rfl
      rw [e2] at h
      split at h
      · cases h
      rename_i hw
      split at h
      · cases h
      rename_i hwd
      cases hp : precAll S.prec 0 (S.tokened mark) with
      | none => rw [hp] at h; cases h
      | some rs3 =>
        rw [hp] at h
        have := Option.some.inj (Out.ok.inj h)
        have hG := congrArg Prod.fst this
        have ha : a' = a := congrArg Prod.snd this
        subst ha
        dsimp only at hG
        subst hG
        refine ⟨?_, by simpa using hloop, ?_, ?_, rs3, rfl, rfl, rfl, rfl, rfl⟩
        · intro hl r hr
          rw [hl] at hlr
          simp only [Bool.not_false, Bool.true_and, List.any_eq_true, List.mem_range, not_exists, not_and, Bool.not_eq_true] at hlr
          exact hlr r (by unfold linkAll; rw [List.length_map]; exact hr)
        · intro w e; rw [e] at hw; simpa using hw
        · intro w e; rw [e] at hwd; simpa using hwd

/-- A rule with a precedence instruction that was accepted. -/
theorem applyPrec_inv {r : Nat} {info : List (List Byte × Nat × Byte)} {d d' : Def} (h : applyPrec r info d = some d') :
    ∃ a b a' t1 t2 k1 k2 sp x y, d.ope = .seq (a :: .rep (.seq (b :: a' :: t1) k1) 0 none sp :: t2) k2 ∧ a.refName = some x ∧ b.refName = some y ∧
      a'.refName = some x ∧ x ≠ y ∧ d' = { d with ope := .prec a b info r, disableAction := true, isToken := a.tokScan.1 || !a.tokScan.2, errLit := none } := by
  unfold applyPrec at h
  split at h
  · rename_i a b a' t1 k1 t2 t3 k2 hd
    split at h
    · rename_i x y z hx hy hz
      split at h
      · rename_i hc
        cases h
        exact ⟨a, b, a', _, _, _, _, _, x, y, hd, hx, hy, by rw [hz, hc.1], hc.2, rfl⟩
      · cases h
    · cases h
  · cases h

end Verif
