import Verif.Spec
/-!
# The reference semantics is deterministic
-/

namespace Verif
open CharClass

variable {V : Type}

set_option maxHeartbeats 4000000 in
/-- A task has at most one result. -/
theorem Peg.det {G : Gram V} {v : Env} {m : Mode} {t : PTask} {i : Nat} {s : PSt V} {x y : PRes V}
    (h : Peg G v m t i s x) (h' : Peg G v m t i s y) : x = y := by
  induction h generalizing y
  all_goals cases h'
  all_goals try rfl
  all_goals try contradiction
  all_goals first | (simp_all [Ope.single]; done) | grind

theorem add_push (d : Def) (w : Option V) (f : Frame V) : f.add (pushValue d w {}) = pushValue d w f := by
  unfold Frame.add pushValue
  cases d.ignoreSV <;> simp

/-- While a left-recursive rule grows, the scope has the value of what has been read. -/
theorem grow_vals {G : Gram V} {v : Env} {m : Mode} {q i0 : Nat} {d : Def} (hd : G.rules[q]? = some d) {i : Nat} {s : PSt V}
    {x : PRes V} (h : Peg G v m (.grow q i0) i s x) (hs : ∃ w, s.vs = pushValue d w {}) :
    ∃ j s', x = .ok j false s' ∧ i ≤ j ∧ ∃ w, s'.vs = pushValue d w {} := by
  generalize ht : PTask.grow q i0 = t at h
  induction h with
  | grow_stop h1 h2 _ => cases ht; exact ⟨_, _, rfl, Nat.le_refl _, hs⟩
  | grow_idle h1 h2 _ => cases ht; exact ⟨_, _, rfl, Nat.le_refl _, hs⟩
  | grow_more h1 h2 _ h3 _ _ ih =>
    cases ht
    rw [hd] at h1; cases h1
    obtain ⟨j, s', e1, e2, e3⟩ := ih hd ⟨_, rfl⟩ rfl
    exact ⟨j, s', e1, by omega, e3⟩
  | _ => cases ht

/-- A left-recursive rule adds its value to the scope. -/
theorem lr_vals {G : Gram V} {v : Env} {m : Mode} {q : Nat} {d : Def} (hd : G.rules[q]? = some d) (hlr : d.isLR = true) {i : Nat}
    {s s' : PSt V} {j : Nat} {c : Bool} (h : Peg G v m (.hold q) i s (.ok j c s')) : ∃ w, s'.vs = pushValue d w s.vs := by
  cases h with
  | rule_ok hd' h' => rw [hd] at hd'; cases hd'; rw [hlr] at h'; cases h'
  | rule_pred hd' h' => rw [hd] at hd'; cases hd'; rw [hlr] at h'; cases h'
  | lr_ok hd' _ _ _ _ _ hg =>
    rw [hd] at hd'; cases hd'
    obtain ⟨j', s2, e1, -, w, hw⟩ := grow_vals hd hg ⟨_, rfl⟩
    cases e1
    exact ⟨w, by rw [hw]; exact add_push d w _⟩

end Verif
