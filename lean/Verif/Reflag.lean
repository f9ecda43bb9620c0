import Verif.Session
import Verif.FirstSet
/-!
# The first-set pass does not look at the macro flags

`reflag m rs`: the rules with `has_macro_ref` given by `m`, as in `Shared.rules`.
-/

namespace Verif

def reflag (m : Nat → Bool) (rs : List Def) : List Def := rs.mapIdx fun r d => { d with hasMacroRef := m r }

theorem Shared.rules_eq (sh : Shared) (rs : List Def) : sh.rules rs = reflag sh.mem.macroRef rs := rfl

theorem reflag_get (m : Nat → Bool) (rs : List Def) (r : Nat) :
    (reflag m rs)[r]? = (rs[r]?).map fun d => { d with hasMacroRef := m r } := by
  unfold reflag
  rw [List.getElem?_mapIdx]

theorem reflag_length (m : Nat → Bool) (rs : List Def) : (reflag m rs).length = rs.length := by
  unfold reflag; rw [List.length_mapIdx]

theorem fsRule_reflag (m : Nat → Bool) (rs : List Def) (n : Nat) : fsRule (reflag m rs) n = fsRule rs n := by
  induction n with
  | zero => rfl
  | succ n ih =>
    funext r s
    unfold fsRule
    rw [reflag_get, ih]
    cases rs[r]? with
    | none => rfl
    | some d => rfl

theorem fsAlt_reflag (m : Nat → Bool) (rs : List Def) (e : Ope) (c : List (Nat × FirstSet)) : fsAlt (reflag m rs) e c = fsAlt rs e c := by
  unfold fsAlt
  rw [fsRule_reflag, reflag_length]

theorem fsAlts_reflag (m : Nat → Bool) (rs : List Def) (es : List Ope) (c : List (Nat × FirstSet)) : fsAlts (reflag m rs) es c = fsAlts rs es c := by
  induction es generalizing c with
  | nil => rfl
  | cons e es ih => simp only [fsAlts, fsAlt_reflag, ih]

theorem ope_reflag (m : Nat → Bool) (rs : List Def) (r : Nat) : ((reflag m rs)[r]?).map Def.ope = (rs[r]?).map Def.ope := by
  rw [reflag_get, Option.map_map]; rfl

theorem kwSetup_reflag (m : Nat → Bool) (rs : List Def) (es : List Ope) : kwSetup (reflag m rs) es = kwSetup rs es := by
  unfold kwSetup
  simp only [ope_reflag]

/-- The state with other flags. -/
def SetupSt.reflag (m : Nat → Bool) (s : SetupSt) : SetupSt := { s with rules := Verif.reflag m s.rules }

mutual
theorem setupOpe_reflag (m : Nat → Bool) (rs : List Def) {ref ref' : Nat → SetupSt → SetupSt} (h : ∀ r s, ref' r (s.reflag m) = (ref r s).reflag m) (e : Ope)
    (s : SetupSt) : setupOpe (reflag m rs) ref' e (s.reflag m) = ((setupOpe rs ref e s).1, (setupOpe rs ref e s).2.reflag m) := by
  cases e with
  | seq es kw => simp only [setupOpe]; rw [setupList_reflag m rs h es s, kwSetup_reflag]
  | cho es l fs =>
    simp only [setupOpe, fsAlts_reflag]
    exact congrArg (fun x : List Ope × SetupSt => (Ope.cho x.1 l (fsAlts rs es s.cache).1, x.2))
      (setupList_reflag m rs h es { s with cache := (fsAlts rs es s.cache).2 })
  | rep e a b c => simp only [setupOpe]; rw [setupOpe_reflag m rs h e s]
  | and_ e => simp only [setupOpe]; rw [setupOpe_reflag m rs h e s]
  | not_ e => simp only [setupOpe]; rw [setupOpe_reflag m rs h e s]
  | capScope e => simp only [setupOpe]; rw [setupOpe_reflag m rs h e s]
  | cap n e => simp only [setupOpe]; rw [setupOpe_reflag m rs h e s]
  | tok e => simp only [setupOpe]; rw [setupOpe_reflag m rs h e s]
  | ign e => simp only [setupOpe]; rw [setupOpe_reflag m rs h e s]
  | ws e => simp only [setupOpe]; rw [setupOpe_reflag m rs h e s]
  | prec a b info r => simp only [setupOpe]; rw [setupOpe_reflag m rs h a s]
  | ref r nm as => simp only [setupOpe]; rw [h]
  | recov r nm as => simp only [setupOpe]; rw [h]
  | weak r => simp only [setupOpe]; rw [h]
  | _ => simp only [setupOpe]

theorem setupList_reflag (m : Nat → Bool) (rs : List Def) {ref ref' : Nat → SetupSt → SetupSt} (h : ∀ r s, ref' r (s.reflag m) = (ref r s).reflag m)
    (es : List Ope) (s : SetupSt) :
    setupList (reflag m rs) ref' es (s.reflag m) = ((setupList rs ref es s).1, (setupList rs ref es s).2.reflag m) := by
  cases es with
  | nil => rfl
  | cons e es => simp only [setupList]; rw [setupOpe_reflag m rs h e s, setupList_reflag m rs h es _]
end

theorem reflag_set (m : Nat → Bool) (rs : List Def) (r : Nat) (d : Def) :
    (reflag m rs).set r { d with hasMacroRef := m r } = reflag m (rs.set r d) := by
  apply List.ext_getElem?
  intro q
  rw [List.getElem?_set, reflag_get, reflag_get, List.getElem?_set, reflag_length]
  by_cases h : r = q
  · subst h
    rw [if_pos rfl, if_pos rfl]
    split <;> rfl
  · rw [if_neg h, if_neg h]

theorem setupRule_reflag (m : Nat → Bool) (rs : List Def) (n r : Nat) (s : SetupSt) :
    setupRule (reflag m rs) n r (s.reflag m) = (setupRule rs n r s).reflag m := by
  induction n generalizing r s with
  | zero => rfl
  | succ n ih =>
    unfold setupRule
    rw [reflag_get]
    cases rs[r]? with
    | none => rfl
    | some d =>
      simp only [Option.map_some]
      have hv' : (s.reflag m).visited = s.visited := rfl
      by_cases hv : r ∈ s.visited
      · rw [hv', if_pos hv, if_pos hv]
      · rw [hv', if_neg hv, if_neg hv]
        have h1 := setupOpe_reflag m rs (fun r s => ih r s) d.ope { s with visited := r :: s.visited }
        have h2 : ({ s with visited := r :: s.visited } : SetupSt).reflag m = { s.reflag m with visited := r :: (s.reflag m).visited } := rfl
        rw [h2, hv'] at h1
        rw [h1]
        simp only [SetupSt.reflag]
        rw [← reflag_set]

/-- The annotations do not depend on the flags. -/
theorem setupAll_reflag (m : Nat → Bool) (rs : List Def) (order : List Nat) :
    setupAll (reflag m rs) order = reflag m (setupAll rs order) := by
  unfold setupAll
  rw [reflag_length]
  have key : ∀ (l : List Nat) (s : SetupSt) (k : Nat), l.foldl (fun s r => setupRule (reflag m rs) k r s) (s.reflag m) =
      (l.foldl (fun s r => setupRule rs k r s) s).reflag m := by
    intro l
    induction l with
    | nil => intro s k; rfl
    | cons r l ih => intro s k; simp only [List.foldl_cons]; rw [setupRule_reflag, ih]
  have := key order { rules := rs } (rs.length + 1)
  exact congrArg SetupSt.rules this

end Verif
