import Verif.LoopProofs
/-!
# The grammar checks raise no false alarms

`Sane`: a grammar in which no repetition without upper bound has a body that may match nothing and no rule calls itself at the position where it
starts, except the rules `lr`, which may do so themselves.  `markedLR_sane`, `infiniteLoop_sane`: neither check reports anything in such a grammar, apart
from the rules `lr`.
-/

namespace Verif

mutual
/-- May the expression match nothing (`ν`: the rules that may)?  Answered with true where nothing is known. -/
def nulO (ν : Nat → Bool) : Ope → Bool
  | .seq es _ => nulOAll ν es
  | .cho es _ _ => es.isEmpty || nulOAny ν es
  | .rep e mn _ _ => mn == 0 || nulO ν e
  | .dict _ _ => false
  | .lit s _ => s.isEmpty
  | .cls _ => false
  | .chr _ => false
  | .dot => false
  | .capScope e => nulO ν e
  | .cap _ e => nulO ν e
  | .tok e => nulO ν e
  | .ign e => nulO ν e
  | .ws e => nulO ν e
  | .ref r _ _ => ν r
  | .prec a _ _ _ => nulO ν a
  | _ => true

def nulOAll (ν : Nat → Bool) : List Ope → Bool
  | [] => true
  | e :: es => nulO ν e && nulOAll ν es

def nulOAny (ν : Nat → Bool) : List Ope → Bool
  | [] => false
  | e :: es => nulO ν e || nulOAny ν es
end

mutual
/-- The rules the expression may call at the position where it starts. -/
def leftO (ν : Nat → Bool) : Ope → List Nat
  | .seq es _ => leftOSeq ν es
  | .cho es _ _ => leftOAlts ν es
  | .rep e _ _ _ => leftO ν e
  | .and_ e => leftO ν e
  | .not_ e => leftO ν e
  | .capScope e => leftO ν e
  | .cap _ e => leftO ν e
  | .tok e => leftO ν e
  | .ign e => leftO ν e
  | .ws e => leftO ν e
  | .ref r _ _ => [r]
  | .recov r _ _ => [r]
  | .prec a b _ _ => leftO ν a ++ if nulO ν a then leftO ν b else []
  | _ => []

def leftOSeq (ν : Nat → Bool) : List Ope → List Nat
  | [] => []
  | e :: es => leftO ν e ++ if nulO ν e then leftOSeq ν es else []

def leftOAlts (ν : Nat → Bool) : List Ope → List Nat
  | [] => []
  | e :: es => leftO ν e ++ leftOAlts ν es
end

mutual
/-- Repetitions without upper bound consume something in each round; references carry the name of the rule they refer to; no macro parameters. -/
def tidyO (rules : List Def) (ν : Nat → Bool) : Ope → Bool
  | .seq es _ => tidyOL rules ν es
  | .cho es _ _ => tidyOL rules ν es
  | .rep e _ mx _ => (mx.isSome || !nulO ν e) && tidyO rules ν e
  | .and_ e => tidyO rules ν e
  | .not_ e => tidyO rules ν e
  | .capScope e => tidyO rules ν e
  | .cap _ e => tidyO rules ν e
  | .tok e => tidyO rules ν e
  | .ign e => tidyO rules ν e
  | .ws e => tidyO rules ν e
  | .ref r nm as => decide ((rules[r]?).map Def.name = some nm) && tidyOL rules ν as
  | .recov r nm as => decide ((rules[r]?).map Def.name = some nm) && tidyOL rules ν as
  | .prec a b _ _ => tidyO rules ν a && tidyO rules ν b
  | .param _ _ => false
  | .weak _ => false
  | _ => true

def tidyOL (rules : List Def) (ν : Nat → Bool) : List Ope → Bool
  | [] => true
  | e :: es => tidyO rules ν e && tidyOL rules ν es
end

/-- The rules of which `U` holds refer only to each other, and are well-formed with the certificate `ν`, `rank`. -/
structure Sane (rules : List Def) (U : Nat → Prop) (ν : Nat → Bool) (rank : Nat → Nat) (lr : Nat → Bool) : Prop where
  names : ∀ (r r' : Nat) (d d' : Def), rules[r]? = some d → rules[r']? = some d' → d.name = d'.name → r = r'
  calls : ∀ (r : Nat) (d : Def), U r → rules[r]? = some d → ∀ q ∈ d.ope.refs, U q
  null : ∀ (r : Nat) (d : Def), rules[r]? = some d → nulO ν d.ope = true → ν r = true
  left : ∀ (r : Nat) (d : Def), U r → rules[r]? = some d → ∀ q ∈ leftO ν d.ope, rank q < rank r ∨ (q = r ∧ lr r = true)
  tidy : ∀ (r : Nat) (d : Def), U r → rules[r]? = some d → tidyO rules ν d.ope = true

mutual
theorem nul_of_cbe {ν : Nat → Bool} : ∀ (e : Ope), cbe ν e = true → nulO ν e = true
  | .seq es _, h => by simp only [cbe] at h; simp only [nulO]; exact nul_of_cbeAll es h
  | .cho es _ _, h => by
    simp only [cbe] at h; simp only [nulO, Bool.or_eq_true]; exact .inr (nul_of_cbeAny es h)
  | .rep _ _ _ _, h => by simp only [cbe] at h; simp only [nulO, Bool.or_eq_true]; exact .inl h
  | .and_ _, _ => rfl
  | .not_ _, _ => rfl
  | .dict _ _, h => by simp [cbe] at h
  | .lit _ _, h => h
  | .cls _, h => by simp [cbe] at h
  | .chr _, h => by simp [cbe] at h
  | .dot, h => by simp [cbe] at h
  | .capScope e, h => by simp only [cbe] at h; simp only [nulO]; exact nul_of_cbe e h
  | .cap _ e, h => by simp only [cbe] at h; simp only [nulO]; exact nul_of_cbe e h
  | .tok e, h => by simp only [cbe] at h; simp only [nulO]; exact nul_of_cbe e h
  | .ign e, h => by simp only [cbe] at h; simp only [nulO]; exact nul_of_cbe e h
  | .usr _, _ => rfl
  | .weak _, _ => rfl
  | .ref _ _ _, h => h
  | .param _ _, _ => rfl
  | .ws e, h => by simp only [cbe] at h; simp only [nulO]; exact nul_of_cbe e h
  | .bref _, _ => rfl
  | .prec a _ _ _, h => by simp only [cbe] at h; simp only [nulO]; exact nul_of_cbe a h
  | .recov _ _ _, _ => rfl
  | .cut, _ => rfl
  | .null, _ => rfl
theorem nul_of_cbeAll {ν : Nat → Bool} : ∀ (es : List Ope), cbeAll ν es = true → nulOAll ν es = true
  | [], _ => rfl
  | e :: es, h => by
    simp only [cbeAll, Bool.and_eq_true] at h
    simp only [nulOAll, Bool.and_eq_true]
    exact ⟨nul_of_cbe e h.1, nul_of_cbeAll es h.2⟩
theorem nul_of_cbeAny {ν : Nat → Bool} : ∀ (es : List Ope), cbeAny ν es = true → nulOAny ν es = true
  | [], h => by simp [cbeAny] at h
  | e :: es, h => by
    simp only [cbeAny, Bool.or_eq_true] at h
    simp only [nulOAny, Bool.or_eq_true]
    exact h.imp (nul_of_cbe e) (nul_of_cbeAny es)
end

/-! ## Left recursion -/

section
variable {rules : List Def} {U : Nat → Prop} {ν : Nat → Bool} {rank : Nat → Nat} {lr t : Nat → Bool} {X : Nat → Prop}

structure VisInv (rules : List Def) (s : LrSt) : Prop where
  err : s.err = false
  nodup : s.vis.Nodup
  lt : ∀ r ∈ s.vis, r < rules.length

/-- What a visit of an expression (which may match nothing or not: `nl`) does. -/
structure VisStep (rules : List Def) (s s' : LrSt) (nl : Bool) : Prop where
  ok : VisInv rules s'
  len : s.vis.length ≤ s'.vis.length
  sub : ∀ q ∈ s.vis, q ∈ s'.vis
  done : s'.done = false → nl = true

theorem VisStep.setDone {s s' : LrSt} {nl nl' b : Bool} (h : VisStep rules s s' nl) (hb : b = false → nl' = true) :
    VisStep rules s { s' with done := b } nl' :=
  ⟨⟨h.ok.err, h.ok.nodup, h.ok.lt⟩, h.len, h.sub, hb⟩

theorem VisInv.setDone {s : LrSt} {nl b : Bool} (h : VisInv rules s) (hb : b = false → nl = true) : VisStep rules s { s with done := b } nl :=
  ⟨⟨h.err, h.nodup, h.lt⟩, Nat.le_refl _, fun _ h => h, hb⟩

/-- Visiting rules below `b`. -/
def VisOk (rules : List Def) (U : Nat → Prop) (ν : Nat → Bool) (rank : Nat → Nat) (n b : Nat) (visit : Nat → LrSt → LrSt) : Prop :=
  ∀ (q : Nat) (d : Def) (s : LrSt), rules[q]? = some d → U q → rank q < b → q ∈ s.vis → VisInv rules s → rules.length + 1 ≤ n + s.vis.length →
    VisStep rules s (visit q s) (nulO ν d.ope)

theorem lrRef_sane (H : Sane rules U ν rank lr) (ht : ∀ r, t r = true → ν r = true) {n b r0 : Nat} {d0 : Def} (h0 : rules[r0]? = some d0) (hb : b ≤ rank r0)
    {visit : Nat → LrSt → LrSt} (hv : VisOk rules U ν rank n b visit) {r : Nat} {nm : List Byte} {s : LrSt} {nl : Bool} (hs : VisInv rules s)
    (hn : (rules[r]?).map Def.name = some nm) (hU : U r) (hr : rank r < b ∨ X r) (hX : ∀ q, X q → q ≠ r0 ∧ q ∈ s.vis) (hl : rules.length ≤ n + s.vis.length) (hnl : ν r = true → nl = true) :
    VisStep rules s (lrRef visit t d0.name r nm s) nl := by
  obtain ⟨d, hd, rfl⟩ := Option.map_eq_some_iff.mp hn
  unfold lrRef
  by_cases e : d.name = d0.name
  · have := H.names r r0 d d0 hd h0 e
    subst this
    rcases hr with hr | hr
    · omega
    · exact absurd rfl (hX r hr).1
  · rw [if_neg e]
    have htr : ∀ x : Bool, (!t r) = false → nl = true := fun _ h => hnl (ht r (by simpa using h))
    by_cases hm : r ∈ s.vis
    · rw [if_pos hm]
      exact hs.setDone (htr true)
    · rw [if_neg hm]
      have hlt : r < rules.length := (List.getElem?_eq_some_iff.mp hd).1
      have hr : rank r < b := hr.resolve_right fun h => hm (hX r h).2
      have h1 := hv r d { s with vis := r :: s.vis } hd hU hr List.mem_cons_self ⟨hs.err, List.nodup_cons.2 ⟨hm, hs.nodup⟩, fun q hq => by
        rcases List.mem_cons.1 hq with rfl | hq
        · exact hlt
        · exact hs.lt q hq⟩ (by simp only [List.length_cons]; omega)
      have hlen : s.vis.length ≤ (visit r { s with vis := r :: s.vis }).vis.length := by
        have := h1.len
        simp only [List.length_cons] at this; omega
      have h2 : VisStep rules s (visit r { s with vis := r :: s.vis }) nl := ⟨h1.ok, hlen, fun q hq => h1.sub q (List.mem_cons_of_mem _ hq), fun e => hnl (H.null r d hd (h1.done e))⟩
      dsimp only
      by_cases hdn : (visit r { s with vis := r :: s.vis }).done = true
      · rw [if_pos hdn]; exact h2.setDone (htr true)
      · rw [if_neg hdn]; exact h2

mutual
theorem dlr_sane (H : Sane rules U ν rank lr) (ht : ∀ r, t r = true → ν r = true) {n b r0 : Nat} {d0 : Def} (h0 : rules[r0]? = some d0) (hb : b ≤ rank r0)
    {visit : Nat → LrSt → LrSt} (hv : VisOk rules U ν rank n b visit) : ∀ (e : Ope) (s : LrSt), tidyO rules ν e = true → (∀ q ∈ e.refs, U q) →
    (∀ q ∈ leftO ν e, rank q < b ∨ X q) → (∀ q, X q → q ≠ r0 ∧ q ∈ s.vis) → VisInv rules s → rules.length ≤ n + s.vis.length → VisStep rules s (dlr visit t d0.name e s) (nulO ν e)
  | .seq es _, s, hy, hu, hl, hX, hs, hn => by
    simp only [tidyO] at hy; simp only [leftO] at hl; simp only [dlr, nulO]
    exact dlrSeq_sane H ht h0 hb hv es s hy hu hl hX hs hn
  | .cho es _ _, s, hy, hu, hl, hX, hs, hn => by
    simp only [tidyO] at hy; simp only [leftO] at hl; simp only [dlr, nulO]
    obtain ⟨h1, h2, h2', h3⟩ := dlrCho_sane H ht h0 hb hv es s hy hu hl hX hs hn
    refine ⟨h1, h2, h2', fun e => ?_⟩
    rcases h3 e with ⟨-, rfl⟩ | h
    · rfl
    · rw [h, Bool.or_true]
  | .rep e mn _ _, s, hy, hu, hl, hX, hs, hn => by
    simp only [tidyO, Bool.and_eq_true] at hy; simp only [leftO] at hl; simp only [dlr, nulO]
    refine (dlr_sane H ht h0 hb hv e s hy.2 hu hl hX hs hn).setDone fun h => ?_
    have : mn = 0 := by rw [decide_eq_false_iff_not] at h; omega
    subst this; rfl
  | .and_ e, s, hy, hu, hl, hX, hs, hn => by
    simp only [tidyO] at hy; simp only [leftO] at hl; simp only [dlr]
    exact (dlr_sane H ht h0 hb hv e s hy hu hl hX hs hn).setDone fun _ => rfl
  | .not_ e, s, hy, hu, hl, hX, hs, hn => by
    simp only [tidyO] at hy; simp only [leftO] at hl; simp only [dlr]
    exact (dlr_sane H ht h0 hb hv e s hy hu hl hX hs hn).setDone fun _ => rfl
  | .dict _ _, s, hy, hu, hl, hX, hs, hn => by simp only [dlr]; exact hs.setDone fun h => by cases h
  | .lit x _, s, hy, hu, hl, hX, hs, hn => by
    simp only [dlr, nulO]; exact hs.setDone fun h => by simpa using h
  | .cls _, s, hy, hu, hl, hX, hs, hn => by simp only [dlr]; exact hs.setDone fun h => by cases h
  | .chr _, s, hy, hu, hl, hX, hs, hn => by simp only [dlr]; exact hs.setDone fun h => by cases h
  | .dot, s, hy, hu, hl, hX, hs, hn => by simp only [dlr]; exact hs.setDone fun h => by cases h
  | .capScope e, s, hy, hu, hl, hX, hs, hn => by
    simp only [tidyO] at hy; simp only [leftO] at hl; simp only [dlr, nulO]
    exact dlr_sane H ht h0 hb hv e s hy hu hl hX hs hn
  | .cap _ e, s, hy, hu, hl, hX, hs, hn => by
    simp only [tidyO] at hy; simp only [leftO] at hl; simp only [dlr, nulO]
    exact dlr_sane H ht h0 hb hv e s hy hu hl hX hs hn
  | .tok e, s, hy, hu, hl, hX, hs, hn => by
    simp only [tidyO] at hy; simp only [leftO] at hl; simp only [dlr, nulO]
    exact dlr_sane H ht h0 hb hv e s hy hu hl hX hs hn
  | .ign e, s, hy, hu, hl, hX, hs, hn => by
    simp only [tidyO] at hy; simp only [leftO] at hl; simp only [dlr, nulO]
    exact dlr_sane H ht h0 hb hv e s hy hu hl hX hs hn
  | .usr _, s, hy, hu, hl, hX, hs, hn => by simp only [dlr]; exact hs.setDone fun h => by cases h
  | .weak _, s, hy, hu, hl, hX, hs, hn => by simp [tidyO] at hy
  | .ref r nm as, s, hy, hu, hl, hX, hs, hn => by
    simp only [tidyO, Bool.and_eq_true, decide_eq_true_eq] at hy
    simp only [dlr, nulO]
    exact lrRef_sane H ht h0 hb hv hs hy.1 (hu r List.mem_cons_self) (hl r (by simp [leftO])) hX hn id
  | .param _ _, s, hy, hu, hl, hX, hs, hn => by simp [tidyO] at hy
  | .ws e, s, hy, hu, hl, hX, hs, hn => by
    simp only [tidyO] at hy; simp only [leftO] at hl; simp only [dlr, nulO]
    exact dlr_sane H ht h0 hb hv e s hy hu hl hX hs hn
  | .bref _, s, hy, hu, hl, hX, hs, hn => by simp only [dlr]; exact hs.setDone fun h => by cases h
  | .prec a c _ _, s, hy, hu, hl, hX, hs, hn => by
    simp only [tidyO, Bool.and_eq_true] at hy; simp only [leftO] at hl; simp only [dlr, nulO]
    exact dlr_sane H ht h0 hb hv a s hy.1 (fun q hq => hu q (List.mem_append_left _ hq)) (fun q hq => hl q (List.mem_append_left _ hq)) hX hs hn
  | .recov r nm as, s, hy, hu, hl, hX, hs, hn => by
    simp only [tidyO, Bool.and_eq_true, decide_eq_true_eq] at hy
    simp only [dlr, nulO]
    exact lrRef_sane H ht h0 hb hv hs hy.1 (hu r List.mem_cons_self) (hl r (by simp [leftO])) hX hn fun _ => rfl
  | .cut, s, hy, hu, hl, hX, hs, hn => by simp only [dlr]; exact hs.setDone fun h => by cases h
  | .null, s, hy, hu, hl, hX, hs, hn => by simp only [dlr]; exact ⟨hs, Nat.le_refl _, fun _ h => h, fun _ => rfl⟩
theorem dlrSeq_sane (H : Sane rules U ν rank lr) (ht : ∀ r, t r = true → ν r = true) {n b r0 : Nat} {d0 : Def} (h0 : rules[r0]? = some d0) (hb : b ≤ rank r0)
    {visit : Nat → LrSt → LrSt} (hv : VisOk rules U ν rank n b visit) : ∀ (es : List Ope) (s : LrSt), tidyOL rules ν es = true → (∀ q ∈ Ope.refsL es, U q) →
    (∀ q ∈ leftOSeq ν es, rank q < b ∨ X q) → (∀ q, X q → q ≠ r0 ∧ q ∈ s.vis) → VisInv rules s → rules.length ≤ n + s.vis.length → VisStep rules s (dlrSeq visit t d0.name es s) (nulOAll ν es)
  | [], s, hy, hu, hl, hX, hs, hn => by simp only [dlrSeq]; exact ⟨hs, Nat.le_refl _, fun _ h => h, fun _ => rfl⟩
  | e :: es, s, hy, hu, hl, hX, hs, hn => by
    simp only [tidyOL, Bool.and_eq_true] at hy
    simp only [leftOSeq] at hl
    have h1 := dlr_sane H ht h0 hb hv e s hy.1 (fun q hq => hu q (List.mem_append_left _ hq)) (fun q hq => hl q (List.mem_append_left _ hq)) hX hs hn
    simp only [dlrSeq, h1.ok.err, nulOAll]
    by_cases hd : (dlr visit t d0.name e s).done = true
    · rw [if_pos hd]
      exact ⟨h1.ok, h1.len, h1.sub, fun h => by rw [hd] at h; cases h⟩
    · rw [if_neg hd]
      rw [Bool.not_eq_true] at hd
      have hne := h1.done hd
      rw [if_pos hne] at hl
      have h2 := dlrSeq_sane H ht h0 hb hv es _ hy.2 (fun q hq => hu q (List.mem_append_right _ hq)) (fun q hq => hl q (List.mem_append_right _ hq)) (fun q hq => ⟨(hX q hq).1, h1.sub q (hX q hq).2⟩) h1.ok
        (by have := h1.len; omega)
      simp only [Bool.false_eq_true, if_false]
      exact ⟨h2.ok, Nat.le_trans h1.len h2.len, fun q hq => h2.sub q (h1.sub q hq), fun h => by rw [hne, h2.done h]; rfl⟩
theorem dlrCho_sane (H : Sane rules U ν rank lr) (ht : ∀ r, t r = true → ν r = true) {n b r0 : Nat} {d0 : Def} (h0 : rules[r0]? = some d0) (hb : b ≤ rank r0)
    {visit : Nat → LrSt → LrSt} (hv : VisOk rules U ν rank n b visit) : ∀ (es : List Ope) (s : LrSt), tidyOL rules ν es = true → (∀ q ∈ Ope.refsL es, U q) →
    (∀ q ∈ leftOAlts ν es, rank q < b ∨ X q) → (∀ q, X q → q ≠ r0 ∧ q ∈ s.vis) → VisInv rules s → rules.length ≤ n + s.vis.length →
    VisInv rules (dlrCho visit t d0.name es s) ∧ s.vis.length ≤ (dlrCho visit t d0.name es s).vis.length ∧ (∀ q ∈ s.vis, q ∈ (dlrCho visit t d0.name es s).vis) ∧
      ((dlrCho visit t d0.name es s).done = false → (s.done = false ∧ es = []) ∨ nulOAny ν es = true)
  | [], s, hy, hu, hl, hX, hs, hn => by simp only [dlrCho]; exact ⟨hs, Nat.le_refl _, fun _ h => h, fun h => .inl ⟨h, trivial⟩⟩
  | e :: es, s, hy, hu, hl, hX, hs, hn => by
    simp only [tidyOL, Bool.and_eq_true] at hy
    simp only [leftOAlts] at hl
    have h1 := dlr_sane H ht h0 hb hv e s hy.1 (fun q hq => hu q (List.mem_append_left _ hq)) (fun q hq => hl q (List.mem_append_left _ hq)) hX hs hn
    obtain ⟨h2, h3, h3', h4⟩ := dlrCho_sane H ht h0 hb hv es _ hy.2 (fun q hq => hu q (List.mem_append_right _ hq)) (fun q hq => hl q (List.mem_append_right _ hq)) (fun q hq => ⟨(hX q hq).1, h1.sub q (hX q hq).2⟩) h1.ok
        (by have := h1.len; omega)
    simp only [dlrCho, h1.ok.err, Bool.false_eq_true, if_false, nulOAny]
    refine ⟨h2, Nat.le_trans h1.len h3, fun q hq => h3' q (h1.sub q hq), fun h => .inr ?_⟩
    rcases h4 h with ⟨h5, rfl⟩ | h5
    · rw [h1.done h5]; rfl
    · rw [h5, Bool.or_true]
end

theorem lrVisit_sane (H : Sane rules U ν rank lr) (ht : ∀ r, t r = true → ν r = true) {r0 : Nat} {d0 : Def} (h0 : rules[r0]? = some d0) :
    ∀ (n : Nat), VisOk rules U ν rank n (rank r0) (lrVisit rules t d0.name n)
  | 0, q, d, s, hq, hU, hr, hv, hs, hn => by
    have := nodup_sub_length (m := List.range rules.length) hs.nodup (fun x hx => List.mem_range.2 (hs.lt x hx))
    rw [List.length_range] at this
    omega
  | n + 1, q, d, s, hq, hU, hr, hin, hs, hn => by
    have hv := lrVisit_sane H ht h0 n
    unfold lrVisit
    rw [hq]
    refine dlr_sane (X := (· = q)) H ht h0 (Nat.le_refl _) hv d.ope s (H.tidy q d hU hq) (H.calls q d hU hq) (fun p hp => ?_) (fun p hp => ?_) hs (by omega)
    · rcases H.left q d hU hq p hp with h | h
      · exact .inl (Nat.lt_trans h hr)
      · exact .inr h.1
    · subst hp
      exact ⟨fun e => by subst e; omega, hin⟩

/-- No rule of a well-formed grammar is taken for left-recursive.  `t`: flags that are not set for rules that always consume something. -/
theorem markedLR_sane (H : Sane rules U ν rank lr) (ht : ∀ r, t r = true → ν r = true) {r : Nat} (hU : U r) (hr : r < rules.length)
    (hl : lr r = false) : markedLR rules t rules.length r = false := by
  have hd := List.getElem?_eq_getElem hr
  unfold markedLR
  rw [hd]
  refine (dlr_sane (X := fun _ => False) H ht hd (Nat.le_refl _) (lrVisit_sane H ht hd rules.length) _ {} (H.tidy r _ hU hd) (H.calls r _ hU hd)
    (fun q hq => ?_) (fun q h => h.elim) ⟨rfl, List.nodup_nil, fun _ h => by cases h⟩ (by simp)).ok.err
  refine .inl ((H.left r _ hU hd q hq).resolve_right fun h => ?_)
  rw [hl] at h
  cases h.2

/-- A rule one alternative of which begins with the rule itself, after alternatives that do so too, is taken for left-recursive. -/
theorem markedLR_own {r q : Nat} {d : Def} (h : rules[r]? = some d) {es rest : List Ope} {as : List Ope} {b : Option KwGuard} {b' : Bool} {fs : List FirstSet}
    (ho : d.ope = .cho (.seq (.ref q d.name as :: rest) b :: es) b' fs ∨ d.ope = .tok (.cho (.seq (.ref q d.name as :: rest) b :: es) b' fs)) (n : Nat) :
    markedLR rules t n r = true := by
  unfold markedLR
  rw [h]
  have key : ∀ v, (dlr v t d.name (.cho (.seq (.ref q d.name as :: rest) b :: es) b' fs) {}).err = true := by
    intro v
    simp only [dlr, dlrCho, dlrSeq, lrRef, if_true]
    cases (!t q) <;> rfl
  rcases ho with ho | ho
  · simp only [ho]; exact key _
  · simp only [ho]; exact key _

/-! ## Infinite loops -/

def CacheOk (c : LoopCache) : Prop := ∀ x ∈ c, x.2 = false

theorem lookup_in {c : LoopCache} {nm : List Byte} {b : Bool} (h : c.lookup nm = some b) : (nm, b) ∈ c := by
  induction c with
  | nil => cases h
  | cons x c ih =>
    obtain ⟨k, v⟩ := x
    rw [List.lookup_cons] at h
    by_cases e : nm = k
    · subst e
      simp only [beq_self_eq_true, Option.some.injEq] at h
      subst h; exact List.mem_cons_self
    · have : (nm == k) = false := by rw [beq_eq_false_iff_ne]; exact e
      rw [this] at h
      exact List.mem_cons_of_mem _ (ih h)

structure PathIn (rules : List Def) (n : Nat) (path : List (List Byte)) : Prop where
  nodup : path.Nodup
  sub : ∀ x ∈ path, x ∈ rules.map Def.name
  len : rules.length + 1 ≤ n + path.length

theorem PathIn.extend {n : Nat} {path : List (List Byte)} (h : PathIn rules n path) {r : Nat} {nm : List Byte} (hn : (rules[r]?).map Def.name = some nm)
    (hm : nm ∉ path) : (path ++ [nm]).Nodup ∧ (∀ x ∈ path ++ [nm], x ∈ rules.map Def.name) ∧ rules.length + 2 ≤ n + (path ++ [nm]).length := by
  obtain ⟨d, hd, rfl⟩ := Option.map_eq_some_iff.mp hn
  refine ⟨?_, fun x hx => ?_, ?_⟩
  · rw [List.nodup_append]
    exact ⟨h.nodup, by simp, fun a ha b hb => by
      rw [List.mem_singleton] at hb; subst hb; exact fun e => hm (e ▸ ha)⟩
  · rcases List.mem_append.1 hx with h1 | h1
    · exact h.sub x h1
    · rw [List.mem_singleton] at h1; subst h1
      exact List.mem_map_of_mem (List.mem_of_getElem? hd)
  · have := h.len
    rw [List.length_append, List.length_singleton]; omega

/-- What visiting a rule does. -/
structure QuietRec (rules : List Def) (U : Nat → Prop) (ν : Nat → Bool) (n : Nat) (R : LoopRec) : Prop where
  he : ∀ (path : List (List Byte)) (q : Nat) (d : Def) (c : LoopCache), rules[q]? = some d → U q → path.Nodup → (∀ x ∈ path, x ∈ rules.map Def.name) →
    rules.length + 2 ≤ n + path.length → CacheOk c → ((R.he path q c).1 = true → nulO ν d.ope = true) ∧ CacheOk (R.he path q c).2
  dil : ∀ (path : List (List Byte)) (q : Nat) (d : Def) (c : LoopCache), rules[q]? = some d → U q → path.Nodup → (∀ x ∈ path, x ∈ rules.map Def.name) →
    rules.length + 2 ≤ n + path.length → CacheOk c → (R.dil path q false c).1 = false ∧ CacheOk (R.dil path q false c).2

theorem heRef_sane (H : Sane rules U ν rank lr) {n : Nat} {R : LoopRec} (hR : QuietRec rules U ν n R) {path : List (List Byte)} (hp : PathIn rules n path)
    {r : Nat} {nm : List Byte} (hn : (rules[r]?).map Def.name = some nm) (hU : U r) {c : LoopCache} (hc : CacheOk c) :
    ((heRef R path r nm c).1 = true → ν r = true) ∧ CacheOk (heRef R path r nm c).2 := by
  unfold heRef
  by_cases hm : nm ∈ path
  · rw [if_pos hm]; exact ⟨(fun h => by cases h), hc⟩
  · rw [if_neg hm]
    obtain ⟨h1, h2, h3⟩ := hp.extend hn hm
    obtain ⟨d, hd, rfl⟩ := Option.map_eq_some_iff.mp hn
    obtain ⟨k1, k2⟩ := hR.he _ r d c hd hU h1 h2 h3 hc
    exact ⟨fun h => H.null r d hd (k1 h), k2⟩

theorem dilRef_sane {n : Nat} {R : LoopRec} (hR : QuietRec rules U ν n R) {path : List (List Byte)} (hp : PathIn rules n path)
    {r : Nat} {nm : List Byte} (hn : (rules[r]?).map Def.name = some nm) (hm : nm ∉ path) (hU : U r) {c : LoopCache} (hc : CacheOk c) :
    (dilRef R path r nm false c).1 = false ∧ CacheOk (dilRef R path r nm false c).2 := by
  unfold dilRef
  cases hl : c.lookup nm with
  | some b => exact ⟨hc _ (lookup_in hl), hc⟩
  | none =>
    obtain ⟨h1, h2, h3⟩ := hp.extend hn hm
    obtain ⟨d, hd, rfl⟩ := Option.map_eq_some_iff.mp hn
    obtain ⟨k1, k2⟩ := hR.dil _ r d c hd hU h1 h2 h3 hc
    refine ⟨k1, fun x hx => ?_⟩
    rcases List.mem_cons.1 hx with rfl | hx
    · exact k1
    · exact k2 x hx

mutual
theorem he_sane (H : Sane rules U ν rank lr) {n : Nat} {R : LoopRec} (hR : QuietRec rules U ν n R) {path : List (List Byte)} (hp : PathIn rules n path) :
    ∀ (e : Ope) (c : LoopCache), tidyO rules ν e = true → (∀ q ∈ e.refs, U q) → CacheOk c →
      ((he R path e c).1 = true → nulO ν e = true) ∧ CacheOk (he R path e c).2
  | .seq es _, c, hy, hu, hc => by
    simp only [tidyO] at hy; simp only [he, nulO]
    exact heSeq_sane H hR hp es false c hy hu hc
  | .cho es _ _, c, hy, hu, hc => by
    simp only [tidyO] at hy; simp only [he, nulO]
    obtain ⟨h1, h2⟩ := heCho_sane H hR hp es c hy hu hc
    exact ⟨fun h => by rw [h1 h, Bool.or_true], h2⟩
  | .rep e mn _ _, c, hy, hu, hc => by
    simp only [tidyO, Bool.and_eq_true] at hy; simp only [he, nulO]
    by_cases h0 : mn = 0
    · rw [if_pos h0]; subst h0; exact ⟨fun _ => rfl, hc⟩
    · rw [if_neg h0]
      obtain ⟨h1, h2⟩ := he_sane H hR hp e c hy.2 hu hc
      exact ⟨fun h => by rw [h1 h, Bool.or_true], h2⟩
  | .and_ e, c, hy, hu, hc => by simp only [he]; exact ⟨fun _ => rfl, hc⟩
  | .not_ e, c, hy, hu, hc => by simp only [he]; exact ⟨fun _ => rfl, hc⟩
  | .dict _ _, c, hy, hu, hc => by simp only [he]; exact ⟨(fun h => by cases h), hc⟩
  | .lit s _, c, hy, hu, hc => by simp only [he]; exact ⟨fun h => h, hc⟩
  | .cls _, c, hy, hu, hc => by simp only [he]; exact ⟨(fun h => by cases h), hc⟩
  | .chr _, c, hy, hu, hc => by simp only [he]; exact ⟨(fun h => by cases h), hc⟩
  | .dot, c, hy, hu, hc => by simp only [he]; exact ⟨(fun h => by cases h), hc⟩
  | .capScope e, c, hy, hu, hc => by simp only [tidyO] at hy; simp only [he, nulO]; exact he_sane H hR hp e c hy hu hc
  | .cap _ e, c, hy, hu, hc => by simp only [tidyO] at hy; simp only [he, nulO]; exact he_sane H hR hp e c hy hu hc
  | .tok e, c, hy, hu, hc => by simp only [tidyO] at hy; simp only [he, nulO]; exact he_sane H hR hp e c hy hu hc
  | .ign e, c, hy, hu, hc => by simp only [tidyO] at hy; simp only [he, nulO]; exact he_sane H hR hp e c hy hu hc
  | .ws e, c, hy, hu, hc => by simp only [tidyO] at hy; simp only [he, nulO]; exact he_sane H hR hp e c hy hu hc
  | .usr _, c, hy, hu, hc => by simp only [he]; exact ⟨(fun h => by cases h), hc⟩
  | .weak _, c, hy, hu, hc => by simp [tidyO] at hy
  | .ref r nm as, c, hy, hu, hc => by
    simp only [tidyO, Bool.and_eq_true, decide_eq_true_eq] at hy
    simp only [he, nulO]
    exact heRef_sane H hR hp hy.1 (hu r List.mem_cons_self) hc
  | .param _ _, c, hy, hu, hc => by simp [tidyO] at hy
  | .bref _, c, hy, hu, hc => by simp only [he]; exact ⟨(fun h => by cases h), hc⟩
  | .prec a b _ _, c, hy, hu, hc => by
    simp only [tidyO, Bool.and_eq_true] at hy; simp only [he, nulO]
    exact he_sane H hR hp a c hy.1 (fun q hq => hu q (List.mem_append_left _ hq)) hc
  | .recov r nm as, c, hy, hu, hc => by
    simp only [tidyO, Bool.and_eq_true, decide_eq_true_eq] at hy
    simp only [he, nulO]
    exact ⟨fun _ => trivial, (heRef_sane H hR hp hy.1 (hu r List.mem_cons_self) hc).2⟩
  | .cut, c, hy, hu, hc => by simp only [he]; exact ⟨(fun h => by cases h), hc⟩
  | .null, c, hy, hu, hc => by simp only [he]; exact ⟨(fun h => by cases h), hc⟩
theorem heSeq_sane (H : Sane rules U ν rank lr) {n : Nat} {R : LoopRec} (hR : QuietRec rules U ν n R) {path : List (List Byte)} (hp : PathIn rules n path) :
    ∀ (es : List Ope) (save : Bool) (c : LoopCache), tidyOL rules ν es = true → (∀ q ∈ Ope.refsL es, U q) → CacheOk c →
      ((heSeq R path save es c).1 = true → nulOAll ν es = true) ∧ CacheOk (heSeq R path save es c).2
  | [], save, c, hy, hu, hc => by simp only [heSeq]; exact ⟨fun _ => rfl, hc⟩
  | e :: es, save, c, hy, hu, hc => by
    simp only [tidyOL, Bool.and_eq_true] at hy
    obtain ⟨h1, h2⟩ := he_sane H hR hp e c hy.1 (fun q hq => hu q (List.mem_append_left _ hq)) hc
    simp only [heSeq, nulOAll]
    by_cases hx : (he R path e c).1 = true
    · rw [if_pos hx, h1 hx, Bool.true_and]
      exact heSeq_sane H hR hp es true _ hy.2 (fun q hq => hu q (List.mem_append_right _ hq)) h2
    · rw [if_neg hx]
      obtain ⟨h3, h4⟩ := dilRest_sane H hR hp es _ hy.2 (fun q hq => hu q (List.mem_append_right _ hq)) h2
      exact ⟨(fun h => by rw [h3] at h; cases h), h4⟩
theorem heCho_sane (H : Sane rules U ν rank lr) {n : Nat} {R : LoopRec} (hR : QuietRec rules U ν n R) {path : List (List Byte)} (hp : PathIn rules n path) :
    ∀ (es : List Ope) (c : LoopCache), tidyOL rules ν es = true → (∀ q ∈ Ope.refsL es, U q) → CacheOk c →
      ((heCho R path es c).1 = true → nulOAny ν es = true) ∧ CacheOk (heCho R path es c).2
  | [], c, hy, hu, hc => by simp only [heCho]; exact ⟨(fun h => by cases h), hc⟩
  | e :: es, c, hy, hu, hc => by
    simp only [tidyOL, Bool.and_eq_true] at hy
    obtain ⟨h1, h2⟩ := he_sane H hR hp e c hy.1 (fun q hq => hu q (List.mem_append_left _ hq)) hc
    simp only [heCho, nulOAny]
    by_cases hx : (he R path e c).1 = true
    · rw [if_pos hx]
      exact ⟨fun h => by rw [h1 hx]; rfl, h2⟩
    · rw [if_neg hx]
      obtain ⟨h3, h4⟩ := heCho_sane H hR hp es _ hy.2 (fun q hq => hu q (List.mem_append_right _ hq)) h2
      exact ⟨fun h => by rw [h3 h, Bool.or_true], h4⟩
theorem dilRest_sane (H : Sane rules U ν rank lr) {n : Nat} {R : LoopRec} (hR : QuietRec rules U ν n R) {path : List (List Byte)} (hp : PathIn rules n path) :
    ∀ (es : List Ope) (c : LoopCache), tidyOL rules ν es = true → (∀ q ∈ Ope.refsL es, U q) → CacheOk c →
      (dilRest R path es c).1 = false ∧ CacheOk (dilRest R path es c).2
  | [], c, hy, hu, hc => by simp only [dilRest]; exact ⟨trivial, hc⟩
  | e :: es, c, hy, hu, hc => by
    simp only [tidyOL, Bool.and_eq_true] at hy
    obtain ⟨h1, h2⟩ := dil_sane H hR hp e c hy.1 (fun q hq => hu q (List.mem_append_left _ hq)) hc
    obtain ⟨h3, h4⟩ := dilRest_sane H hR hp es _ hy.2 (fun q hq => hu q (List.mem_append_right _ hq)) h2
    simp only [dilRest]
    exact ⟨by rw [h1, h3]; rfl, h4⟩
theorem dil_sane (H : Sane rules U ν rank lr) {n : Nat} {R : LoopRec} (hR : QuietRec rules U ν n R) {path : List (List Byte)} (hp : PathIn rules n path) :
    ∀ (e : Ope) (c : LoopCache), tidyO rules ν e = true → (∀ q ∈ e.refs, U q) → CacheOk c →
      (dil R path false e c).1 = false ∧ CacheOk (dil R path false e c).2
  | .seq es _, c, hy, hu, hc => by simp only [tidyO] at hy; simp only [dil]; exact dilAll_sane H hR hp es c hy hu hc
  | .cho es _ _, c, hy, hu, hc => by simp only [tidyO] at hy; simp only [dil]; exact dilAll_sane H hR hp es c hy hu hc
  | .rep e mn none _, c, hy, hu, hc => by
    simp only [tidyO, Bool.and_eq_true, Option.isSome_none, Bool.false_or, Bool.not_eq_true'] at hy
    obtain ⟨h1, h2⟩ := he_sane H hR hp e c hy.2 hu hc
    simp only [dil, Bool.false_or]
    refine ⟨?_, h2⟩
    cases hx : (he R path e c).1 with
    | false => rfl
    | true => rw [h1 hx] at hy; cases hy.1
  | .rep e mn (some _) _, c, hy, hu, hc => by
    simp only [tidyO, Bool.and_eq_true] at hy; simp only [dil]; exact dil_sane H hR hp e c hy.2 hu hc
  | .and_ e, c, hy, hu, hc => by simp only [tidyO] at hy; simp only [dil]; exact dil_sane H hR hp e c hy hu hc
  | .not_ e, c, hy, hu, hc => by simp only [tidyO] at hy; simp only [dil]; exact dil_sane H hR hp e c hy hu hc
  | .dict _ _, c, hy, hu, hc => by simp only [dil]; exact ⟨trivial, hc⟩
  | .lit s _, c, hy, hu, hc => by simp only [dil]; exact ⟨trivial, hc⟩
  | .cls _, c, hy, hu, hc => by simp only [dil]; exact ⟨trivial, hc⟩
  | .chr _, c, hy, hu, hc => by simp only [dil]; exact ⟨trivial, hc⟩
  | .dot, c, hy, hu, hc => by simp only [dil]; exact ⟨trivial, hc⟩
  | .capScope e, c, hy, hu, hc => by simp only [tidyO] at hy; simp only [dil]; exact dil_sane H hR hp e c hy hu hc
  | .cap _ e, c, hy, hu, hc => by simp only [tidyO] at hy; simp only [dil]; exact dil_sane H hR hp e c hy hu hc
  | .tok e, c, hy, hu, hc => by simp only [tidyO] at hy; simp only [dil]; exact dil_sane H hR hp e c hy hu hc
  | .ign e, c, hy, hu, hc => by simp only [tidyO] at hy; simp only [dil]; exact dil_sane H hR hp e c hy hu hc
  | .ws e, c, hy, hu, hc => by simp only [tidyO] at hy; simp only [dil]; exact dil_sane H hR hp e c hy hu hc
  | .usr _, c, hy, hu, hc => by simp only [dil]; exact ⟨trivial, hc⟩
  | .weak _, c, hy, hu, hc => by simp [tidyO] at hy
  | .ref r nm as, c, hy, hu, hc => by
    simp only [tidyO, Bool.and_eq_true, decide_eq_true_eq] at hy
    simp only [dil]
    by_cases hm : nm ∈ path
    · rw [if_pos hm]; exact ⟨rfl, hc⟩
    · rw [if_neg hm]
      obtain ⟨h1, h2⟩ := dilRef_sane hR hp hy.1 hm (hu r List.mem_cons_self) hc
      rw [h1]
      exact dilArgs_sane H hR hp as _ hy.2 (fun q hq => hu q (List.mem_cons_of_mem _ hq)) h2
  | .param _ _, c, hy, hu, hc => by simp [tidyO] at hy
  | .bref _, c, hy, hu, hc => by simp only [dil]; exact ⟨trivial, hc⟩
  | .prec a b _ _, c, hy, hu, hc => by
    simp only [tidyO, Bool.and_eq_true] at hy; simp only [dil]
    exact dil_sane H hR hp a c hy.1 (fun q hq => hu q (List.mem_append_left _ hq)) hc
  | .recov r nm as, c, hy, hu, hc => by
    simp only [tidyO, Bool.and_eq_true, decide_eq_true_eq] at hy
    simp only [dil]
    by_cases hm : nm ∈ path
    · rw [if_pos hm]; exact ⟨rfl, hc⟩
    · rw [if_neg hm]
      obtain ⟨h1, h2⟩ := dilRef_sane hR hp hy.1 hm (hu r List.mem_cons_self) hc
      rw [h1]
      exact dilArgs_sane H hR hp as _ hy.2 (fun q hq => hu q (List.mem_cons_of_mem _ hq)) h2
  | .cut, c, hy, hu, hc => by simp only [dil]; exact ⟨trivial, hc⟩
  | .null, c, hy, hu, hc => by simp only [dil]; exact ⟨trivial, hc⟩
theorem dilAll_sane (H : Sane rules U ν rank lr) {n : Nat} {R : LoopRec} (hR : QuietRec rules U ν n R) {path : List (List Byte)} (hp : PathIn rules n path) :
    ∀ (es : List Ope) (c : LoopCache), tidyOL rules ν es = true → (∀ q ∈ Ope.refsL es, U q) → CacheOk c →
      (dilAll R path false es c).1 = false ∧ CacheOk (dilAll R path false es c).2
  | [], c, hy, hu, hc => by simp only [dilAll]; exact ⟨trivial, hc⟩
  | e :: es, c, hy, hu, hc => by
    simp only [tidyOL, Bool.and_eq_true] at hy
    obtain ⟨h1, h2⟩ := dil_sane H hR hp e c hy.1 (fun q hq => hu q (List.mem_append_left _ hq)) hc
    simp only [dilAll, h1, Bool.false_eq_true, if_false]
    exact dilAll_sane H hR hp es _ hy.2 (fun q hq => hu q (List.mem_append_right _ hq)) h2
theorem dilArgs_sane (H : Sane rules U ν rank lr) {n : Nat} {R : LoopRec} (hR : QuietRec rules U ν n R) {path : List (List Byte)} (hp : PathIn rules n path) :
    ∀ (es : List Ope) (c : LoopCache), tidyOL rules ν es = true → (∀ q ∈ Ope.refsL es, U q) → CacheOk c →
      (dilArgs R path false es c).1 = false ∧ CacheOk (dilArgs R path false es c).2
  | [], c, hy, hu, hc => by simp only [dilArgs]; exact ⟨trivial, hc⟩
  | e :: es, c, hy, hu, hc => by
    simp only [tidyOL, Bool.and_eq_true] at hy
    obtain ⟨h1, h2⟩ := dil_sane H hR hp e c hy.1 (fun q hq => hu q (List.mem_append_left _ hq)) hc
    simp only [dilArgs, h1]
    exact dilArgs_sane H hR hp es _ hy.2 (fun q hq => hu q (List.mem_append_right _ hq)) h2
end

theorem loopRec_sane (H : Sane rules U ν rank lr) : ∀ n : Nat, QuietRec rules U ν n (loopRec rules n)
  | 0 => by
    have habs : ∀ path : List (List Byte), path.Nodup → (∀ x ∈ path, x ∈ rules.map Def.name) → rules.length + 2 ≤ 0 + path.length → False := by
      intro path h1 h2 h3
      have := nodup_sub_length h1 h2
      rw [List.length_map] at this
      omega
    exact ⟨fun path q d c _ _ h1 h2 h3 _ => (habs path h1 h2 h3).elim, fun path q d c _ _ h1 h2 h3 _ => (habs path h1 h2 h3).elim⟩
  | n + 1 => by
    have hR := loopRec_sane H n
    refine ⟨fun path q d c hq hU h1 h2 h3 hc => ?_, fun path q d c hq hU h1 h2 h3 hc => ?_⟩
    · unfold loopRec
      simp only [hq]
      exact he_sane H hR ⟨h1, h2, by omega⟩ d.ope c (H.tidy q d hU hq) (H.calls q d hU hq) hc
    · unfold loopRec
      simp only [hq]
      exact dil_sane H hR ⟨h1, h2, by omega⟩ d.ope c (H.tidy q d hU hq) (H.calls q d hU hq) hc

/-- No loop is reported in a well-formed grammar. -/
theorem infiniteLoop_sane (H : Sane rules U ν rank lr) {r : Nat} (hU : U r) (hr : r < rules.length) : infiniteLoop rules rules.length r = false := by
  have hd := List.getElem?_eq_getElem hr
  unfold infiniteLoop
  rw [hd]
  refine (dil_sane H (loopRec_sane H rules.length) ⟨by simp, fun x hx => ?_, by simp⟩ _ [] (H.tidy r _ hU hd) (H.calls r _ hU hd) fun _ h => by cases h).1
  rw [List.mem_singleton] at hx
  subst hx
  exact List.mem_map_of_mem (List.mem_of_getElem? hd)

end
end Verif
