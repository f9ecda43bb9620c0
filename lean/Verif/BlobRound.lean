import Verif.BlobProofs
/-!
# Round trip and safety of grammar blobs
-/

namespace Verif
namespace Blob
open Trie

/-! ## What can be written without loss -/

mutual
/-- The sizes and numbers of an operator fit the fields of the blob (`uint32_t` sizes and code points, `uint64_t`
repetition bounds and levels; code points are `char32_t` and the others `size_t`, so only the sizes are real
restrictions), the keys of an operator table are distinct (it is a map), and dictionaries are built from faithful
words. -/
def Fits : BOpe → Prop
  | .seq es => es.length < 2 ^ 32 ∧ FitsAll es
  | .cho _ es => es.length < 2 ^ 32 ∧ FitsAll es
  | .rep mn mx e => mn < 2 ^ 64 ∧ mx < 2 ^ 64 ∧ Fits e
  | .and_ e => Fits e
  | .not_ e => Fits e
  | .dict t => ∃ words ic, t = build words ic ∧ Faithful (stored words ic) ∧ words.length < 2 ^ 32 ∧
      ∀ w ∈ words, w.length < 2 ^ 32
  | .lit s _ => s.length < 2 ^ 32
  | .cls c => c.ranges.length < 2 ^ 32 ∧ ∀ r ∈ c.ranges, r.1 < 2 ^ 32 ∧ r.2 < 2 ^ 32
  | .chr c => c < 2 ^ 32
  | .capScope e => Fits e
  | .cap _ e => Fits e
  | .tok e => Fits e
  | .ign e => Fits e
  | .bref n => n.length < 2 ^ 32
  | .ref _ n args => n.length < 2 ^ 32 ∧ args.length < 2 ^ 32 ∧ FitsAll args
  | .wsp e => Fits e
  | .recov e => Fits e
  | .prec a b info => Fits a ∧ Fits b ∧ info.length < 2 ^ 32 ∧ (info.map (·.1)).Nodup ∧
      ∀ i ∈ info, i.1.length < 2 ^ 32 ∧ i.2.1 < 2 ^ 64
  | _ => True

def FitsAll : List BOpe → Prop
  | [] => True
  | e :: es => Fits e ∧ FitsAll es
end

/-- The same for a definition. -/
def FitsDef (d : BDef) : Prop :=
  d.name.length < 2 ^ 32 ∧ d.params.length < 2 ^ 32 ∧ (∀ p ∈ d.params, p.length < 2 ^ 32) ∧
  d.astName.length < 2 ^ 32 ∧ d.errorMessage.length < 2 ^ 32 ∧ Fits d.ope

/-! ## Primitive fields -/

theorem bind_ok {x : Rd α} {f : α → Rd β} {bs r : List Byte} {a : α} (h : x bs = .ok a r) :
    (x.bind f) bs = f a r := by
  unfold Rd.bind; rw [h]

theorem bind_u8 (f : Byte → Rd α) (b : Byte) (bs : List Byte) : (ru8.bind f) (b :: bs) = f b bs := rfl

theorem rle_le (k n : Nat) (h : n < 256 ^ k) (r : List Byte) : rle k (le k n ++ r) = .ok n r := by
  induction k generalizing n with
  | zero =>
    simp only [Nat.pow_zero, Nat.lt_one_iff] at h
    subst h; rfl
  | succ k ih =>
    simp only [le, List.cons_append, rle]
    rw [bind_u8]
    rw [bind_ok (ih (n / 256) (by rw [Nat.pow_succ] at h; omega))]
    simp only [Rd.pure, R.ok.injEq, and_true]
    simp only [UInt8.toNat_ofNat']
    omega

theorem ru32_u32 (n : Nat) (h : n < 2 ^ 32) (r : List Byte) : ru32 (u32 n ++ r) = .ok n r := rle_le 4 n (by omega) r

theorem ru64_u64 (n : Nat) (h : n < 2 ^ 64) (r : List Byte) : ru64 (u64 n ++ r) = .ok n r := rle_le 8 n (by omega) r

theorem rbool_u8b (b : Bool) (r : List Byte) : rbool (u8b b ++ r) = .ok b r := by
  cases b <;> rfl

theorem rstr_wstr (s : List Byte) (h : s.length < 2 ^ 32) (r : List Byte) : rstr (wstr s ++ r) = .ok s r := by
  unfold rstr wstr
  rw [List.append_assoc, bind_ok (ru32_u32 _ h _)]
  rw [if_pos (by simp)]
  simp

theorem rmany_flatMap (x : Rd α) (w : α → List Byte) (l : List α) (h : ∀ a ∈ l, ∀ r, x (w a ++ r) = .ok a r)
    (r : List Byte) : rmany l.length x (l.flatMap w ++ r) = .ok l r := by
  induction l with
  | nil => rfl
  | cons a l ih =>
    simp only [List.length_cons, rmany, List.flatMap_cons, List.append_assoc]
    rw [bind_ok (h a (by simp) _), bind_ok (ih fun b hb => h b (by simp [hb]))]
    rfl

theorem put_fresh (m : List (List Byte × Nat × Byte)) (k : List Byte) (v : Nat × Byte) (h : k ∉ m.map (·.1)) :
    put m k v = m ++ [(k, v)] := by
  unfold put
  rw [if_neg]
  simp only [List.any_eq_true, beq_iff_eq]
  rintro ⟨e, he, rfl⟩
  exact h (List.mem_map.mpr ⟨e, he, rfl⟩)

theorem put_all (l m : List (List Byte × Nat × Byte)) (h : ((m ++ l).map (·.1)).Nodup) :
    l.foldl (fun m e => put m e.1 e.2) m = m ++ l := by
  induction l generalizing m with
  | nil => simp
  | cons e l ih =>
    rw [List.foldl_cons, put_fresh, ih]
    · simp
    · simpa using h
    · intro hc
      rw [List.map_append, List.nodup_append] at h
      exact h.2.2 _ hc _ (by simp) rfl

theorem putDef_fresh (g : List BDef) (d : BDef) (h : d.name ∉ g.map (·.name)) : putDef g d = g ++ [d] := by
  unfold putDef
  rw [if_neg]
  simp only [List.any_eq_true, beq_iff_eq]
  rintro ⟨e, he, hh⟩
  exact h (List.mem_map.mpr ⟨e, he, hh⟩)

theorem putDef_all (l m : List BDef) (h : ((m ++ l).map (·.name)).Nodup) : l.foldl putDef m = m ++ l := by
  induction l generalizing m with
  | nil => simp
  | cons e l ih =>
    rw [List.foldl_cons, putDef_fresh, ih]
    · simp
    · simpa using h
    · intro hc
      rw [List.map_append, List.nodup_append] at h
      exact h.2.2 _ hc _ (by simp) rfl

/-- Words recovered from a trie are never longer than those it was built from, and as many. -/
theorem trieWords_fits (words : List (List Byte)) (ic : Bool) (hf : Faithful (stored words ic))
    (h : ∀ w ∈ words, w.length < 2 ^ 32) :
    (trieWords (build words ic)).length = words.length ∧ ∀ w ∈ trieWords (build words ic), w.length < 2 ^ 32 := by
  rw [build_eq, trieWords_faithful _ _ _ hf]
  refine ⟨by simp [stored], ?_⟩
  intro w hw
  rw [List.mem_mapIdx] at hw
  obtain ⟨i, hi, rfl⟩ := hw
  unfold slotWord
  split
  · have : (stored words ic)[i] ∈ stored words ic := List.getElem_mem hi
    unfold stored at this
    rw [List.mem_map] at this
    obtain ⟨s, hs, he⟩ := this
    have hl := h s hs
    unfold stored
    rw [← he]
    cases ic <;> simpa [toLower] using hl
  · simp

/-! ## Round trip of operators -/

mutual
theorem readOpe_write (e : BOpe) (b : List Byte) (hw : writeOpe e = some b) (hf : Fits e) (f : Nat)
    (hl : b.length ≤ f) (r : List Byte) : readOpe f (b ++ r) = .ok e r := by
  have hpos : 0 < b.length := by
    cases b with
    | cons x b => simp
    | nil =>
      exfalso
      cases e <;> simp [writeOpe, Option.bind_eq_some_iff] at hw
  obtain ⟨f, rfl⟩ : ∃ f', f = f' + 1 := ⟨f - 1, by omega⟩
  cases e with
  | null => cases hw; rfl
  | dot => cases hw; rfl
  | cut => cases hw; rfl
  | usr => cases hw
  | seq es =>
    simp only [writeOpe, Option.map_eq_some_iff] at hw
    obtain ⟨c, hc, rfl⟩ := hw
    simp only [Fits] at hf
    simp only [List.length_cons, List.length_append] at hl
    simp only [readOpe, List.cons_append, List.append_assoc]
    rw [bind_u8]
    show (ru32.bind _) _ = _
    rw [bind_ok (ru32_u32 _ hf.1 _), bind_ok (readOpes_write es c hc hf.2 f (by omega) r)]
    rfl
  | cho fl es =>
    simp only [writeOpe, Option.map_eq_some_iff] at hw
    obtain ⟨c, hc, rfl⟩ := hw
    simp only [Fits] at hf
    simp only [List.length_cons, List.length_append] at hl
    simp only [readOpe, List.cons_append, List.append_assoc]
    rw [bind_u8]
    show (rbool.bind _) _ = _
    rw [bind_ok (rbool_u8b _ _), bind_ok (ru32_u32 _ hf.1 _), bind_ok (readOpes_write es c hc hf.2 f (by omega) r)]
    rfl
  | rep mn mx e =>
    simp only [writeOpe, Option.map_eq_some_iff] at hw
    obtain ⟨c, hc, rfl⟩ := hw
    simp only [Fits] at hf
    simp only [List.length_cons, List.length_append] at hl
    simp only [readOpe, List.cons_append, List.append_assoc]
    rw [bind_u8]
    show (ru64.bind _) _ = _
    rw [bind_ok (ru64_u64 _ hf.1 _), bind_ok (ru64_u64 _ hf.2.1 _),
      bind_ok (readOpe_write e c hc hf.2.2 f (by omega) r)]
    rfl
  | and_ e =>
    simp only [writeOpe, Option.map_eq_some_iff] at hw
    obtain ⟨c, hc, rfl⟩ := hw
    simp only [List.length_cons] at hl
    simp only [readOpe, List.cons_append]
    rw [bind_u8]
    show ((readOpe f).bind _) _ = _
    rw [bind_ok (readOpe_write e c hc hf f (by omega) r)]
    rfl
  | not_ e =>
    simp only [writeOpe, Option.map_eq_some_iff] at hw
    obtain ⟨c, hc, rfl⟩ := hw
    simp only [List.length_cons] at hl
    simp only [readOpe, List.cons_append]
    rw [bind_u8]
    show ((readOpe f).bind _) _ = _
    rw [bind_ok (readOpe_write e c hc hf f (by omega) r)]
    rfl
  | dict t =>
    simp only [Fits] at hf
    obtain ⟨words, ic, rfl, hff, hn, hlen⟩ := hf
    obtain ⟨h1, h2⟩ := trieWords_fits words ic hff hlen
    cases hw
    simp only [readOpe, List.cons_append, List.append_assoc]
    rw [bind_u8]
    show (rbool.bind _) _ = _
    rw [bind_ok (rbool_u8b _ _), bind_ok (ru32_u32 _ (by omega) _),
      bind_ok (rmany_flatMap rstr wstr _ (fun w hw r => rstr_wstr w (h2 w hw) r) r)]
    show R.ok _ _ = _
    rw [show (build words ic).ignoreCase = ic from rfl, rebuild_faithful words ic hff]
  | lit s ic =>
    cases hw
    simp only [Fits] at hf
    simp only [readOpe, List.cons_append, List.append_assoc]
    rw [bind_u8]
    show (rbool.bind _) _ = _
    rw [bind_ok (rbool_u8b _ _), bind_ok (rstr_wstr s hf r)]
    rfl
  | cls c =>
    cases hw
    simp only [Fits] at hf
    simp only [readOpe, List.cons_append, List.append_assoc]
    rw [bind_u8]
    show (rbool.bind _) _ = _
    rw [bind_ok (rbool_u8b _ _), bind_ok (rbool_u8b _ _), bind_ok (ru32_u32 _ hf.1 _),
      bind_ok (rmany_flatMap _ (fun r : Nat × Nat => u32 r.1 ++ u32 r.2) _ (fun p hp r => by
        rw [List.append_assoc, bind_ok (ru32_u32 _ (hf.2 p hp).1 _), bind_ok (ru32_u32 _ (hf.2 p hp).2 _)]
        rfl) r)]
    rfl
  | chr c =>
    cases hw
    simp only [Fits] at hf
    simp only [readOpe, List.cons_append]
    rw [bind_u8]
    show (ru32.bind _) _ = _
    rw [bind_ok (ru32_u32 _ hf _)]
    rfl
  | capScope e =>
    simp only [writeOpe, Option.map_eq_some_iff] at hw
    obtain ⟨c, hc, rfl⟩ := hw
    simp only [List.length_cons] at hl
    simp only [readOpe, List.cons_append]
    rw [bind_u8]
    show ((readOpe f).bind _) _ = _
    rw [bind_ok (readOpe_write e c hc hf f (by omega) r)]
    rfl
  | cap action e =>
    cases action with
    | true => simp [writeOpe] at hw
    | false =>
      simp only [writeOpe, Bool.false_eq_true, if_false, Option.map_eq_some_iff] at hw
      obtain ⟨c, hc, rfl⟩ := hw
      simp only [List.length_cons] at hl
      simp only [readOpe, List.cons_append]
      rw [bind_u8]
      show ((readOpe f).bind _) _ = _
      rw [bind_ok (readOpe_write e c hc hf f (by omega) r)]
      rfl
  | tok e =>
    simp only [writeOpe, Option.map_eq_some_iff] at hw
    obtain ⟨c, hc, rfl⟩ := hw
    simp only [List.length_cons] at hl
    simp only [readOpe, List.cons_append]
    rw [bind_u8]
    show ((readOpe f).bind _) _ = _
    rw [bind_ok (readOpe_write e c hc hf f (by omega) r)]
    rfl
  | ign e =>
    simp only [writeOpe, Option.map_eq_some_iff] at hw
    obtain ⟨c, hc, rfl⟩ := hw
    simp only [List.length_cons] at hl
    simp only [readOpe, List.cons_append]
    rw [bind_u8]
    show ((readOpe f).bind _) _ = _
    rw [bind_ok (readOpe_write e c hc hf f (by omega) r)]
    rfl
  | bref n =>
    cases hw
    simp only [Fits] at hf
    simp only [readOpe, List.cons_append]
    rw [bind_u8]
    show (rstr.bind _) _ = _
    rw [bind_ok (rstr_wstr n hf r)]
    rfl
  | ref im n args =>
    simp only [writeOpe, Option.map_eq_some_iff] at hw
    obtain ⟨c, hc, rfl⟩ := hw
    simp only [Fits] at hf
    simp only [List.length_cons, List.length_append] at hl
    simp only [readOpe, List.cons_append, List.append_assoc]
    rw [bind_u8]
    show (rbool.bind _) _ = _
    rw [bind_ok (rbool_u8b _ _), bind_ok (rstr_wstr n hf.1 _), bind_ok (ru32_u32 _ hf.2.1 _),
      bind_ok (readOpes_write args c hc hf.2.2 f (by omega) r)]
    rfl
  | wsp e =>
    simp only [writeOpe, Option.map_eq_some_iff] at hw
    obtain ⟨c, hc, rfl⟩ := hw
    simp only [List.length_cons] at hl
    simp only [readOpe, List.cons_append]
    rw [bind_u8]
    show ((readOpe f).bind _) _ = _
    rw [bind_ok (readOpe_write e c hc hf f (by omega) r)]
    rfl
  | recov e =>
    simp only [writeOpe, Option.map_eq_some_iff] at hw
    obtain ⟨c, hc, rfl⟩ := hw
    simp only [List.length_cons] at hl
    simp only [readOpe, List.cons_append]
    rw [bind_u8]
    show ((readOpe f).bind _) _ = _
    rw [bind_ok (readOpe_write e c hc hf f (by omega) r)]
    rfl
  | prec a o info =>
    simp only [writeOpe, Option.bind_eq_some_iff, Option.map_eq_some_iff] at hw
    obtain ⟨ca, hca, cb, hcb, rfl⟩ := hw
    simp only [Fits] at hf
    simp only [List.length_cons, List.length_append] at hl
    simp only [readOpe, List.cons_append, List.append_assoc]
    rw [bind_u8]
    show ((readOpe f).bind _) _ = _
    rw [bind_ok (readOpe_write a ca hca hf.1 f (by omega) _), bind_ok (readOpe_write o cb hcb hf.2.1 f (by omega) _),
      bind_ok (ru32_u32 _ hf.2.2.1 _),
      bind_ok (rmany_flatMap _ (fun i : List Byte × Nat × Byte => wstr i.1 ++ (u64 i.2.1 ++ [i.2.2])) _ (fun p hp r => by
        rw [List.append_assoc, List.append_assoc, bind_ok (rstr_wstr _ (hf.2.2.2.2 p hp).1 _),
          bind_ok (ru64_u64 _ (hf.2.2.2.2 p hp).2 _)]
        rfl) r)]
    have := put_all info [] (by simpa using hf.2.2.2.1)
    rw [List.nil_append] at this
    rw [this]
    rfl

theorem readOpes_write (es : List BOpe) (b : List Byte) (hw : writeOpes es = some b) (hf : FitsAll es) (f : Nat)
    (hl : b.length ≤ f) (r : List Byte) : rmany es.length (readOpe f) (b ++ r) = .ok es r := by
  cases es with
  | nil => cases hw; rfl
  | cons e es =>
    simp only [writeOpes, Option.bind_eq_some_iff, Option.map_eq_some_iff] at hw
    obtain ⟨ca, hca, cb, hcb, rfl⟩ := hw
    simp only [FitsAll] at hf
    simp only [List.length_append] at hl
    simp only [List.length_cons, rmany, List.append_assoc]
    rw [bind_ok (readOpe_write e ca hca hf.1 f (by omega) _), bind_ok (readOpes_write es cb hcb hf.2 f (by omega) _)]
    rfl
end

/-! ## Round trip of definitions and grammars -/

theorem flag_bits (d : BDef) : bit (flagByte d) 1 = d.ignoreSV ∧ bit (flagByte d) 2 = d.isMacro ∧
    bit (flagByte d) 4 = d.noAstOpt ∧ bit (flagByte d) 8 = d.eoi ∧ bit (flagByte d) 16 = d.packrat ∧
    bit (flagByte d) 32 = d.isLR ∧ bit (flagByte d) 64 = d.canBeEmpty ∧
    bit (flagByte d) 128 = d.disableAction := by
  obtain ⟨n, a1, a2, a3, a4, a5, a6, a7, a8, a9, ps, an, em, o⟩ := d
  have key : ∀ a1 a2 a3 a4 a5 a6 a7 a8 : Bool,
      let v : Byte := (if a1 then 1 else 0) ||| (if a2 then 2 else 0) ||| (if a3 then 4 else 0) |||
        (if a4 then 8 else 0) ||| (if a5 then 16 else 0) ||| (if a6 then 32 else 0) |||
        (if a7 then 64 else 0) ||| (if a8 then 128 else 0)
      bit v 1 = a1 ∧ bit v 2 = a2 ∧ bit v 4 = a3 ∧ bit v 8 = a4 ∧ bit v 16 = a5 ∧ bit v 32 = a6 ∧
        bit v 64 = a7 ∧ bit v 128 = a8 := by decide +kernel
  exact key a1 a2 a3 a4 a5 a6 a7 a8

theorem readDef_write (d : BDef) (b : List Byte) (hw : writeDef d = some b) (hf : FitsDef d) (f : Nat)
    (hl : b.length ≤ f) (r : List Byte) : readDef f (b ++ r) = .ok d r := by
  unfold writeDef at hw
  rw [Option.map_eq_some_iff] at hw
  obtain ⟨c, hc, rfl⟩ := hw
  obtain ⟨h1, h2, h3, h4, h5, h6⟩ := hf
  simp only [List.length_cons, List.length_append] at hl
  unfold readDef
  simp only [List.cons_append, List.append_assoc]
  rw [bind_ok (rstr_wstr _ h1 _), bind_u8,
    bind_u8, bind_ok (ru32_u32 _ h2 _),
    bind_ok (rmany_flatMap rstr wstr _ (fun w hw r => rstr_wstr w (h3 w hw) r) _), bind_ok (rstr_wstr _ h4 _),
    bind_ok (rstr_wstr _ h5 _), bind_ok (readOpe_write _ c hc h6 f (by omega) r)]
  obtain ⟨e1, e2, e3, e4, e5, e6, e7, e8⟩ := flag_bits d
  have e9 : bit (if d.noWs then (1 : Byte) else 0) 1 = d.noWs := by cases d.noWs <;> rfl
  rw [e1, e2, e3, e4, e5, e6, e7, e8, e9]
  rfl

theorem readDefs_write (ds : List BDef) (b : List Byte) (hw : writeDefs ds = some b) (hf : ∀ d ∈ ds, FitsDef d)
    (f : Nat) (hl : b.length ≤ f) (r : List Byte) : rmany ds.length (readDef f) (b ++ r) = .ok ds r := by
  induction ds generalizing b with
  | nil => cases hw; rfl
  | cons d ds ih =>
    simp only [writeDefs, Option.bind_eq_some_iff, Option.map_eq_some_iff] at hw
    obtain ⟨ca, hca, cb, hcb, rfl⟩ := hw
    simp only [List.length_append] at hl
    simp only [List.length_cons, rmany, List.append_assoc]
    rw [bind_ok (readDef_write d ca hca (hf d (by simp)) f (by omega) _),
      bind_ok (ih cb hcb (fun d hd => hf d (by simp [hd])) (by omega))]
    rfl

theorem deserialize_serialize (g : List BDef) (start blob : List Byte) (hs : start.length < 2 ^ 32)
    (hg : g.length < 2 ^ 32) (hn : (g.map (·.name)).Nodup) (hf : ∀ d ∈ g, FitsDef d)
    (hnull : ∀ d ∈ g, linkHitsNull d = false) (hw : serialize g start = some blob) :
    deserialize blob = .ok (start, sortBy (·.name) g) [] := by
  unfold serialize at hw
  rw [Option.map_eq_some_iff] at hw
  obtain ⟨c, hc, rfl⟩ := hw
  have hperm := sortBy_perm (·.name) g
  unfold deserialize
  generalize hN : (u32 magic ++ wstr start ++ u32 g.length ++ c).length + 1 = N
  have hcN : c.length ≤ N := by
    rw [← hN]; simp only [List.length_append]; omega
  have hread : readGrammar N (u32 magic ++ wstr start ++ u32 g.length ++ c) = .ok (start, sortBy (·.name) g) [] := by
    unfold readGrammar
    simp only [List.append_assoc]
    rw [bind_ok (ru32_u32 magic (by decide) _)]
    rw [if_neg (by simp)]
    rw [bind_ok (rstr_wstr start hs _), bind_ok (ru32_u32 _ hg _)]
    have hrd := readDefs_write (sortBy (·.name) g) c hc (fun d hd => hf d (hperm.mem_iff.mp hd)) N hcN []
    rw [List.append_nil, hperm.length_eq] at hrd
    rw [bind_ok hrd]
    rfl
  rw [bind_ok hread]
  have hput := putDef_all (sortBy (·.name) g) [] (by
    rw [List.nil_append]
    exact (hperm.map _).nodup_iff.mpr hn)
  rw [List.nil_append] at hput
  simp only [hput]
  rw [if_neg]
  · rfl
  · simp only [List.any_eq_true]
    rintro ⟨d, hd, hh⟩
    rw [hnull d (hperm.mem_iff.mp hd)] at hh
    cases hh

/-- Two lists of definitions with distinct names that are permutations of each other sort to the same list. -/
theorem sortBy_canonical {g g' : List BDef} (hp : g.Perm g') (hn : (g.map (·.name)).Nodup) :
    sortBy (·.name) g = sortBy (·.name) g' := by
  have h1 := sortBy_perm (·.name) g
  have h2 := sortBy_perm (·.name) g'
  refine List.Perm.eq_of_pairwise (le := fun a b => lexLe a.name b.name = true) ?_ (sortBy_sorted _ _)
    (sortBy_sorted _ _) (h1.trans (hp.trans h2.symm))
  intro a b ha hb hab hba
  have antis : ∀ x y : List Byte, lexLe x y = true → lexLe y x = true → x = y := by
    intro x
    induction x with
    | nil => intro y _ h; cases y with
      | nil => rfl
      | cons => simp [lexLe] at h
    | cons c x ih =>
      intro y h h'
      cases y with
      | nil => simp [lexLe] at h
      | cons c' y =>
        simp only [lexLe] at h h'
        by_cases hc : c = c'
        · subst hc
          rw [if_pos rfl] at h h'
          rw [ih y h h']
        · rw [if_neg hc] at h
          rw [if_neg (fun e => hc e.symm)] at h'
          simp only [decide_eq_true_eq] at h h'
          exact absurd h' (UInt8.not_lt.mpr (UInt8.le_of_lt h))
  have hname := antis _ _ hab hba
  have ha' := h1.mem_iff.mp ha
  have hb' := hp.mem_iff.mpr (h2.mem_iff.mp hb)
  clear h1 h2 hp ha hb
  induction g with
  | nil => cases ha'
  | cons d g ih =>
    rw [List.map_cons, List.nodup_cons] at hn
    rcases List.mem_cons.mp ha' with h1 | h1 <;> rcases List.mem_cons.mp hb' with h2 | h2
    · rw [h1, h2]
    · exact absurd (List.mem_map.mpr ⟨b, h2, by rw [← hname, h1]⟩) hn.1
    · exact absurd (List.mem_map.mpr ⟨a, h1, by rw [hname, h2]⟩) hn.1
    · exact ih hn.2 h1 h2

/-! ## What is rejected when writing -/

mutual
/-- No `User` operator (or other unsupported class) and no capture with an action. -/
def Serial : BOpe → Bool
  | .usr => false
  | .cap action e => !action && Serial e
  | .seq es => SerialAll es
  | .cho _ es => SerialAll es
  | .rep _ _ e => Serial e
  | .and_ e => Serial e
  | .not_ e => Serial e
  | .capScope e => Serial e
  | .tok e => Serial e
  | .ign e => Serial e
  | .ref _ _ args => SerialAll args
  | .wsp e => Serial e
  | .recov e => Serial e
  | .prec a b _ => Serial a && Serial b
  | _ => true

def SerialAll : List BOpe → Bool
  | [] => true
  | e :: es => Serial e && SerialAll es
end

mutual
theorem writeOpe_isSome (e : BOpe) : (writeOpe e).isSome = Serial e := by
  cases e with
  | seq es => simp [writeOpe, Serial, writeOpes_isSome es]
  | cho l es => simp [writeOpe, Serial, writeOpes_isSome es]
  | rep a b e => simp [writeOpe, Serial, writeOpe_isSome e]
  | and_ e => simp [writeOpe, Serial, writeOpe_isSome e]
  | not_ e => simp [writeOpe, Serial, writeOpe_isSome e]
  | capScope e => simp [writeOpe, Serial, writeOpe_isSome e]
  | cap a e => cases a <;> simp [writeOpe, Serial, writeOpe_isSome e]
  | tok e => simp [writeOpe, Serial, writeOpe_isSome e]
  | ign e => simp [writeOpe, Serial, writeOpe_isSome e]
  | ref a b args => simp [writeOpe, Serial, writeOpes_isSome args]
  | wsp e => simp [writeOpe, Serial, writeOpe_isSome e]
  | recov e => simp [writeOpe, Serial, writeOpe_isSome e]
  | prec a b i =>
    rw [Serial, ← writeOpe_isSome a, ← writeOpe_isSome b, writeOpe]
    cases writeOpe a <;> cases writeOpe b <;> rfl
  | _ => rfl

theorem writeOpes_isSome (es : List BOpe) : (writeOpes es).isSome = SerialAll es := by
  cases es with
  | nil => rfl
  | cons e es =>
    rw [SerialAll, ← writeOpe_isSome e, ← writeOpes_isSome es, writeOpes]
    cases writeOpe e <;> cases writeOpes es <;> rfl
end

theorem writeDefs_isSome (ds : List BDef) : (writeDefs ds).isSome = true ↔ ∀ d ∈ ds, Serial d.ope = true := by
  induction ds with
  | nil => simp [writeDefs]
  | cons d ds ih =>
    have h1 : (writeDef d).isSome = Serial d.ope := by
      unfold writeDef; rw [Option.isSome_map, writeOpe_isSome]
    simp only [List.mem_cons, forall_eq_or_imp]
    rw [← ih, ← h1, writeDefs]
    cases writeDef d <;> cases writeDefs ds <;> simp

/-! ## Safety of reading -/

/-- What every reader guarantees on at most `n` bytes: it ends, dereferences no null pointer, consumes a prefix, and
the only access outside the buffer is a string copy whose length (the four bytes just read) exceeds what is left. -/
def Good (n : Nat) (x : Rd α) : Prop :=
  ∀ bs : List Byte, bs.length ≤ n → match x bs with
    | .ok _ r => ∃ p, bs = p ++ r
    | .fail => True
    | .over k r => r.length < k ∧ ∃ p, bs = p ++ u32 k ++ r
    | .nullDeref => False
    | .oof => False

theorem Good.bind {n : Nat} {x : Rd α} {f : α → Rd β} (hx : Good n x) (hf : ∀ a, Good n (f a)) :
    Good n (x.bind f) := by
  intro bs hbs
  have h := hx bs hbs
  unfold Rd.bind
  cases he : x bs with
  | ok a r =>
    rw [he] at h
    obtain ⟨p, rfl⟩ := h
    have h2 := hf a r (by simp at hbs; omega)
    simp only
    cases hr : f a r with
    | ok b r' =>
      rw [hr] at h2
      obtain ⟨q, rfl⟩ := h2
      exact ⟨p ++ q, by simp⟩
    | fail => trivial
    | over k r' =>
      rw [hr] at h2
      obtain ⟨h2, q, rfl⟩ := h2
      exact ⟨h2, p ++ q, by simp⟩
    | nullDeref => rw [hr] at h2; exact h2
    | oof => rw [hr] at h2; exact h2
  | fail => trivial
  | over k r => rw [he] at h; exact h
  | nullDeref => rw [he] at h; exact h
  | oof => rw [he] at h; exact h

theorem Good.pure (n : Nat) (a : α) : Good n (Rd.pure a) := fun bs _ => ⟨[], rfl⟩
theorem Good.throw (n : Nat) : Good n (Rd.throw : Rd α) := fun _ _ => trivial

theorem good_ru8 (n : Nat) : Good n ru8 := by
  intro bs _
  cases bs with
  | nil => trivial
  | cons b bs => exact ⟨[b], rfl⟩

theorem good_rle (n k : Nat) : Good n (rle k) := by
  induction k with
  | zero => exact Good.pure n 0
  | succ k ih => exact (good_ru8 n).bind fun _ => ih.bind fun _ => Good.pure n _

theorem good_rbool (n : Nat) : Good n rbool := (good_ru8 n).bind fun _ => Good.pure n _

theorem rle_ok {k : Nat} {bs r : List Byte} {v : Nat} (h : rle k bs = .ok v r) : bs = le k v ++ r ∧ v < 256 ^ k := by
  induction k generalizing bs v r with
  | zero => cases h; exact ⟨rfl, by decide⟩
  | succ k ih =>
    cases bs with
    | nil => cases h
    | cons b bs =>
      simp only [rle] at h
      rw [bind_u8] at h
      unfold Rd.bind at h
      cases hr : rle k bs with
      | ok w r' =>
        rw [hr] at h
        obtain ⟨h1, h2⟩ := ih hr
        simp only [Rd.pure, R.ok.injEq] at h
        obtain ⟨rfl, rfl⟩ := h
        have hb := b.toNat_lt
        refine ⟨?_, by rw [Nat.pow_succ]; omega⟩
        simp only [le, List.cons_append, List.cons.injEq]
        refine ⟨?_, ?_⟩
        · apply UInt8.toNat_inj.mp
          simp only [UInt8.toNat_ofNat']
          omega
        · rw [show (b.toNat + 256 * w) / 256 = w by omega]; exact h1
      | fail => rw [hr] at h; cases h
      | over => rw [hr] at h; cases h
      | nullDeref => rw [hr] at h; cases h
      | oof => rw [hr] at h; cases h

theorem good_rstr (n : Nat) : Good n rstr := by
  intro bs hbs
  unfold rstr
  have h := good_rle n 4 bs hbs
  unfold Rd.bind
  cases he : ru32 bs with
  | ok v r =>
    obtain ⟨h1, -⟩ := rle_ok he
    simp only
    by_cases hv : v ≤ r.length
    · rw [if_pos hv]
      exact ⟨le 4 v ++ r.take v, by rw [h1]; simp⟩
    · rw [if_neg hv]
      exact ⟨by omega, [], by rw [h1]; rfl⟩
  | fail => trivial
  | over k r => rw [show rle 4 bs = _ from he] at h; exact h
  | nullDeref => rw [show rle 4 bs = _ from he] at h; exact h
  | oof => rw [show rle 4 bs = _ from he] at h; exact h

theorem good_rmany (n k : Nat) {x : Rd α} (hx : Good n x) : Good n (rmany k x) := by
  induction k with
  | zero => exact Good.pure n _
  | succ k ih => exact hx.bind fun _ => ih.bind fun _ => Good.pure n _

/-- A tag byte leaves one byte fewer for what follows. -/
theorem good_tag {n : Nat} {f : Byte → Rd α} (hf : ∀ t, Good n (f t)) : Good (n + 1) (ru8.bind f) := by
  intro bs hbs
  cases bs with
  | nil => exact trivial
  | cons b bs =>
    have h := hf b bs (by simpa using hbs)
    have e : (ru8.bind f) (b :: bs) = f b bs := bind_ok rfl
    rw [e]
    cases hr : f b bs with
    | ok a r => rw [hr] at h; obtain ⟨p, rfl⟩ := h; exact ⟨b :: p, rfl⟩
    | fail => trivial
    | over k r => rw [hr] at h; obtain ⟨h1, p, rfl⟩ := h; exact ⟨h1, b :: p, rfl⟩
    | nullDeref => rw [hr] at h; exact h
    | oof => rw [hr] at h; exact h

theorem good_readOpe (n : Nat) : Good n (readOpe (n + 1)) := by
  induction n with
  | zero =>
    intro bs hbs
    cases bs with
    | nil => exact trivial
    | cons => simp at hbs
  | succ n ih =>
    unfold readOpe
    refine good_tag fun t => ?_
    have gb := good_rbool n
    have g32 := good_rle n 4
    have g64 := good_rle n 8
    have gs := good_rstr n
    have g8 := good_ru8 n
    split
    case h_22 => exact Good.throw n
    all_goals first
      | exact Good.pure n _
      | exact ih.bind fun _ => Good.pure n _
      | exact g32.bind fun _ => (good_rmany n _ ih).bind fun _ => Good.pure n _
      | exact gb.bind fun _ => g32.bind fun _ => (good_rmany n _ ih).bind fun _ => Good.pure n _
      | exact g64.bind fun _ => g64.bind fun _ => ih.bind fun _ => Good.pure n _
      | exact gb.bind fun _ => g32.bind fun _ => (good_rmany n _ gs).bind fun _ => Good.pure n _
      | exact gb.bind fun _ => gs.bind fun _ => Good.pure n _
      | exact gb.bind fun _ => gb.bind fun _ => g32.bind fun _ =>
          (good_rmany n _ (g32.bind fun _ => g32.bind fun _ => Good.pure n _)).bind fun _ => Good.pure n _
      | exact g32.bind fun _ => Good.pure n _
      | exact gs.bind fun _ => Good.pure n _
      | exact gb.bind fun _ => gs.bind fun _ => g32.bind fun _ => (good_rmany n _ ih).bind fun _ => Good.pure n _
      | exact ih.bind fun _ => ih.bind fun _ => g32.bind fun _ =>
          (good_rmany n _ (gs.bind fun _ => g64.bind fun _ => g8.bind fun _ => Good.pure n _)).bind fun _ =>
            Good.pure n _

theorem good_readDef (n : Nat) : Good n (readDef (n + 1)) := by
  unfold readDef
  exact (good_rstr n).bind fun _ => (good_ru8 n).bind fun _ => (good_ru8 n).bind fun _ => (good_rle n 4).bind fun _ =>
    (good_rmany n _ (good_rstr n)).bind fun _ => (good_rstr n).bind fun _ => (good_rstr n).bind fun _ =>
    (good_readOpe n).bind fun _ => Good.pure n _

/-! ## Truncated blobs -/

/-- `y` (with more fuel) reads on every extension of a readable input the same value, leaving the extension. -/
def Ext (x y : Rd α) : Prop := ∀ bs a r t, x bs = .ok a r → y (bs ++ t) = .ok a (r ++ t)

theorem Ext.bind {x x' : Rd α} {f f' : α → Rd β} (hx : Ext x x') (hf : ∀ a, Ext (f a) (f' a)) :
    Ext (x.bind f) (x'.bind f') := by
  intro bs b r t h
  unfold Rd.bind at h
  cases he : x bs with
  | ok a r' =>
    rw [he] at h
    rw [bind_ok (hx bs a r' t he)]
    exact hf a r' b r t h
  | fail => rw [he] at h; cases h
  | over => rw [he] at h; cases h
  | nullDeref => rw [he] at h; cases h
  | oof => rw [he] at h; cases h

theorem Ext.pure (a : α) : Ext (Rd.pure a) (Rd.pure a) := by
  intro bs b r t h; cases h; rfl
theorem Ext.throw : Ext (Rd.throw : Rd α) Rd.throw := by
  intro bs b r t h; cases h
theorem ext_ru8 : Ext ru8 ru8 := by
  intro bs b r t h
  cases bs with
  | nil => cases h
  | cons c bs => cases h; rfl
theorem ext_rle (k : Nat) : Ext (rle k) (rle k) := by
  induction k with
  | zero => exact Ext.pure 0
  | succ k ih => exact ext_ru8.bind fun _ => ih.bind fun _ => Ext.pure _
theorem ext_rbool : Ext rbool rbool := ext_ru8.bind fun _ => Ext.pure _
theorem ext_rstr : Ext rstr rstr := by
  refine (ext_rle 4).bind fun n => ?_
  intro bs a r t h
  simp only at h ⊢
  by_cases hn : n ≤ bs.length
  · rw [if_pos hn] at h
    rw [if_pos (by simp; omega)]
    cases h
    rw [List.take_append_of_le_length hn, List.drop_append_of_le_length hn]
  · rw [if_neg hn] at h; cases h
theorem ext_rmany (k : Nat) {x y : Rd α} (h : Ext x y) : Ext (rmany k x) (rmany k y) := by
  induction k with
  | zero => exact Ext.pure _
  | succ k ih => exact h.bind fun _ => ih.bind fun _ => Ext.pure _

theorem ext_readOpe (f f' : Nat) (hf : f ≤ f') : Ext (readOpe f) (readOpe f') := by
  induction f generalizing f' with
  | zero => intro bs a r t h; cases h
  | succ f ih =>
    obtain ⟨f', rfl⟩ : ∃ k, f' = k + 1 := ⟨f' - 1, by omega⟩
    have ih := ih f' (by omega)
    unfold readOpe
    refine ext_ru8.bind fun t => ?_
    have gb := ext_rbool
    have g32 := ext_rle 4
    have g64 := ext_rle 8
    have gs := ext_rstr
    have g8 := ext_ru8
    generalize t.toNat = t
    split
    case h_22 => exact Ext.throw
    all_goals first
      | exact Ext.pure _
      | exact ih.bind fun _ => Ext.pure _
      | exact g32.bind fun _ => (ext_rmany _ ih).bind fun _ => Ext.pure _
      | exact gb.bind fun _ => g32.bind fun _ => (ext_rmany _ ih).bind fun _ => Ext.pure _
      | exact g64.bind fun _ => g64.bind fun _ => ih.bind fun _ => Ext.pure _
      | exact gb.bind fun _ => g32.bind fun _ => (ext_rmany _ gs).bind fun _ => Ext.pure _
      | exact gb.bind fun _ => gs.bind fun _ => Ext.pure _
      | exact gb.bind fun _ => gb.bind fun _ => g32.bind fun _ =>
          (ext_rmany _ (g32.bind fun _ => g32.bind fun _ => Ext.pure _)).bind fun _ => Ext.pure _
      | exact g32.bind fun _ => Ext.pure _
      | exact gs.bind fun _ => Ext.pure _
      | exact gb.bind fun _ => gs.bind fun _ => g32.bind fun _ => (ext_rmany _ ih).bind fun _ => Ext.pure _
      | exact ih.bind fun _ => ih.bind fun _ => g32.bind fun _ =>
          (ext_rmany _ (gs.bind fun _ => g64.bind fun _ => g8.bind fun _ => Ext.pure _)).bind fun _ => Ext.pure _

theorem ext_readDef (f f' : Nat) (hf : f ≤ f') : Ext (readDef f) (readDef f') := by
  unfold readDef
  exact ext_rstr.bind fun _ => ext_ru8.bind fun _ => ext_ru8.bind fun _ => (ext_rle 4).bind fun _ =>
    (ext_rmany _ ext_rstr).bind fun _ => ext_rstr.bind fun _ => ext_rstr.bind fun _ =>
    (ext_readOpe f f' hf).bind fun _ => Ext.pure _

theorem good_readGrammar (n : Nat) : Good n (readGrammar (n + 1)) := by
  unfold readGrammar
  refine Good.bind (good_rle n 4) fun m => ?_
  split
  · exact Good.throw _
  · exact (good_rstr _).bind fun _ => (good_rle _ 4).bind fun _ =>
      (good_rmany _ _ (good_readDef _)).bind fun _ => Good.pure _ _

theorem ext_readGrammar (f f' : Nat) (h : f ≤ f') : Ext (readGrammar f) (readGrammar f') := by
  unfold readGrammar
  refine Ext.bind (ext_rle 4) fun m => ?_
  split
  · exact Ext.throw
  · exact ext_rstr.bind fun start => (ext_rle 4).bind fun n =>
      (ext_rmany _ (ext_readDef _ _ h)).bind fun ds => Ext.pure _

theorem deserialize_ext (bs t r : List Byte) (a : List Byte × List BDef) (h : deserialize bs = .ok a r) :
    deserialize (bs ++ t) = .ok a (r ++ t) := by
  unfold deserialize at h ⊢
  revert h
  refine (Ext.bind (ext_readGrammar _ _ (by simp)) fun a => ?_) bs a r t
  split
  · intro bs a r t h; cases h
  · exact Ext.pure _

end Blob
end Verif
