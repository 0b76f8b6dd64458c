import Verif.JoinText
import Verif.Props.Again
/-
Texts put together from lines (C73).
-/
namespace Verif

/-- The text is read as a mapping with these entries. -/
def TextMap (x : Bytes) (l : List (Bytes × Content)) : Prop := ∃ doc es, fromSlice x = .ok doc ∧ Reads doc.data doc.root (.map es) ∧ es.list = l

/-- The text is read as a sequence with these items. -/
def TextSeq (x : Bytes) (l : List Content) : Prop := ∃ doc es, fromSlice x = .ok doc ∧ Reads doc.data doc.root (.seq es) ∧ es.list = l

def Entries.ofList : List (Bytes × Content) → Entries
  | [] => .nil
  | (k, v) :: l => .cons k v (Entries.ofList l)

def Elems.ofList : List Content → Elems
  | [] => .nil
  | v :: l => .cons v (Elems.ofList l)

theorem Entries.list_ofList : ∀ l, (Entries.ofList l).list = l
  | [] => rfl
  | (k, v) :: l => by rw [Entries.ofList, Entries.list, Entries.list_ofList l]

theorem Elems.list_ofList : ∀ l, (Elems.ofList l).list = l
  | [] => rfl
  | v :: l => by rw [Elems.ofList, Elems.list, Elems.list_ofList l]

theorem entries_ext : ∀ {a b : Entries}, a.list = b.list → a = b
  | .nil, .nil, _ => rfl
  | .nil, .cons _ _ _, h => by simp [Entries.list] at h
  | .cons _ _ _, .nil, h => by simp [Entries.list] at h
  | .cons k v a, .cons k' v' b, h => by
    simp only [Entries.list, List.cons.injEq, Prod.mk.injEq] at h
    rw [h.1.1, h.1.2, entries_ext h.2]

theorem elems_ext : ∀ {a b : Elems}, a.list = b.list → a = b
  | .nil, .nil, _ => rfl
  | .nil, .cons _ _, h => by simp [Elems.list] at h
  | .cons _ _, .nil, h => by simp [Elems.list] at h
  | .cons v a, .cons v' b, h => by
    simp only [Elems.list, List.cons.injEq] at h
    rw [h.1, elems_ext h.2]

theorem textMap_iff {x : Bytes} {l : List (Bytes × Content)} : TextMap x l ↔ Accepts x (.map (.ofList l)) := by
  constructor
  · rintro ⟨doc, es, h1, h2, rfl⟩
    rw [entries_ext (Entries.list_ofList es.list)]
    exact C57_accepts.1 ⟨doc, h1, h2⟩
  · intro h
    obtain ⟨doc, h1, h2⟩ := C57_accepts.2 h
    exact ⟨doc, _, h1, h2, Entries.list_ofList l⟩

theorem textSeq_iff {x : Bytes} {l : List Content} : TextSeq x l ↔ Accepts x (.seq (.ofList l)) := by
  constructor
  · rintro ⟨doc, es, h1, h2, rfl⟩
    rw [elems_ext (Elems.list_ofList es.list)]
    exact C57_accepts.1 ⟨doc, h1, h2⟩
  · intro h
    obtain ⟨doc, h1, h2⟩ := C57_accepts.2 h
    exact ⟨doc, _, h1, h2, Elems.list_ofList l⟩

theorem map_rows {x : Bytes} (hs : startsItem true x = true) {l : List (Bytes × Content)} :
    TextMap x l ↔ ∃ hi, Rows x contentView 0 true (l.map fun e => (some e.1, e.2)) 0 hi ∧ FullGap x hi x.length := by
  rw [textMap_iff]
  exact rows_of hs ⟨_, rfl, by rw [Entries.list_ofList]⟩

theorem seq_rows {x : Bytes} (hs : startsItem false x = true) {l : List Content} :
    TextSeq x l ↔ ∃ hi, Rows x contentView 0 true (l.map fun v => (none, v)) 0 hi ∧ FullGap x hi x.length := by
  rw [textSeq_iff]
  exact rows_of hs ⟨_, rfl, by rw [Elems.list_ofList]⟩

/-- The lines `x` start with a key in the first column, and are read as the entries `l`, not only at the end of a text: with the line `z: 0` after them there is one more entry. -/
structure StandsMap (x : Bytes) (l : List (Bytes × Content)) : Prop where
  start : startsItem true x = true
  last : x.getLast? = some NL
  reads : TextMap (x ++ b! "z: 0\n") (l ++ [(b! "z", .scalar (.number (b! "0")))])

/-- The same for a sequence: with the line `- 0` after them there is one more item. -/
structure StandsSeq (x : Bytes) (l : List Content) : Prop where
  start : startsItem false x = true
  last : x.getLast? = some NL
  reads : TextSeq (x ++ b! "- 0\n") (l ++ [.scalar (.number (b! "0"))])

theorem StandsMap.before {x y : Bytes} {l L : List (Bytes × Content)} (h : StandsMap x l) (hy : startsItem true y = true) (hL : TextMap y L) :
    TextMap (x ++ y) (l ++ L) := by
  have h1 := (map_rows (starts_append h.start _)).1 h.reads
  rw [map_rows hy] at hL
  rw [map_rows (starts_append h.start _)]
  rw [List.map_append] at h1 ⊢
  exact rows_cat h.start h.last hy (by
    intro e he
    obtain ⟨e', -, rfl⟩ := List.mem_map.1 he
    rfl) (by
    intro e he
    obtain ⟨e', -, rfl⟩ := List.mem_map.1 he
    rfl) h1 hL

theorem StandsSeq.before {x y : Bytes} {l L : List Content} (h : StandsSeq x l) (hy : startsItem false y = true) (hL : TextSeq y L) :
    TextSeq (x ++ y) (l ++ L) := by
  have h1 := (seq_rows (starts_append h.start _)).1 h.reads
  rw [seq_rows hy] at hL
  rw [seq_rows (starts_append h.start _)]
  rw [List.map_append] at h1 ⊢
  exact rows_cat h.start h.last hy (by
    intro e he
    obtain ⟨e', -, rfl⟩ := List.mem_map.1 he
    rfl) (by
    intro e he
    obtain ⟨e', -, rfl⟩ := List.mem_map.1 he
    rfl) h1 hL

theorem starts_all {m : Bool} {ms : List Bytes} (hm : ∀ x ∈ ms, startsItem m x = true) {y : Bytes} (hy : startsItem m y = true) : startsItem m (ms.flatten ++ y) = true := by
  cases ms with
  | nil => exact hy
  | cons x ms =>
    rw [List.flatten_cons, List.append_assoc]
    exact starts_append (hm _ (List.mem_cons_self ..)) _

/-- C73: lines that stand on their own, one after the other, and the text of a mapping after them. -/
theorem C73_mapping {ms : List (Bytes × List (Bytes × Content))} (hm : ∀ e ∈ ms, StandsMap e.1 e.2) {y : Bytes} {L : List (Bytes × Content)}
    (hy : startsItem true y = true) (hL : TextMap y L) : TextMap (ms.flatMap (·.1) ++ y) (ms.flatMap (·.2) ++ L) := by
  induction ms with
  | nil => exact hL
  | cons e ms ih =>
    have := ih fun e' he => hm e' (List.mem_cons_of_mem _ he)
    rw [List.flatMap_cons, List.flatMap_cons, List.append_assoc, List.append_assoc]
    refine (hm e (List.mem_cons_self ..)).before ?_ this
    rw [List.flatMap_def]
    refine starts_all (fun x hx => ?_) hy
    obtain ⟨e', h, rfl⟩ := List.mem_map.1 hx
    exact (hm e' (List.mem_cons_of_mem _ h)).start

/-- C73 for sequences. -/
theorem C73_sequence {ms : List (Bytes × List Content)} (hm : ∀ e ∈ ms, StandsSeq e.1 e.2) {y : Bytes} {L : List Content}
    (hy : startsItem false y = true) (hL : TextSeq y L) : TextSeq (ms.flatMap (·.1) ++ y) (ms.flatMap (·.2) ++ L) := by
  induction ms with
  | nil => exact hL
  | cons e ms ih =>
    have := ih fun e' he => hm e' (List.mem_cons_of_mem _ he)
    rw [List.flatMap_cons, List.flatMap_cons, List.append_assoc, List.append_assoc]
    refine (hm e (List.mem_cons_self ..)).before ?_ this
    rw [List.flatMap_def]
    refine starts_all (fun x hx => ?_) hy
    obtain ⟨e', h, rfl⟩ := List.mem_map.1 hx
    exact (hm e' (List.mem_cons_of_mem _ h)).start

/-- C73: in another order, they are read as the same entries in that order. -/
theorem C73_order {ms ms' : List (Bytes × List (Bytes × Content))} (hm : ∀ e ∈ ms, StandsMap e.1 e.2) (hp : ms'.Perm ms) {y : Bytes} {L : List (Bytes × Content)}
    (hy : startsItem true y = true) (hL : TextMap y L) :
    ∃ l l', TextMap (ms.flatMap (·.1) ++ y) (l ++ L) ∧ TextMap (ms'.flatMap (·.1) ++ y) (l' ++ L) ∧ l'.Perm l :=
  ⟨_, _, C73_mapping hm hy hL, C73_mapping (fun e he => hm e (hp.mem_iff.1 he)) hy hL, hp.flatMap_right _⟩

/-- C73: lines that stand on their own, put together, stand on their own again. -/
theorem C73_together {x y : Bytes} {l L : List (Bytes × Content)} (hx : StandsMap x l) (hy : StandsMap y L) : StandsMap (x ++ y) (l ++ L) where
  start := starts_append hx.start _
  last := by rw [List.getLast?_append, hy.last]; rfl
  reads := by
    rw [List.append_assoc, List.append_assoc]
    exact hx.before (starts_append hy.start _) hy.reads

/-! ### Cases -/

theorem textMap_says {x : Bytes} {l : List (Bytes × Content)} : TextMap x l ↔ says x = some (.map (.ofList l)) := by
  rw [textMap_iff, says_iff]

theorem textSeq_says {x : Bytes} {l : List Content} : TextSeq x l ↔ says x = some (.seq (.ofList l)) := by
  rw [textSeq_iff, says_iff]

theorem stands_block : StandsMap (b! "a: |\n  x # y\n") [(b! "a", .scalar (.string (b! "x # y\n")))] :=
  ⟨by decide +kernel, by decide +kernel, by rw [textMap_says]; decide +kernel⟩
theorem stands_null : StandsMap (b! "b:\n# c\n") [(b! "b", .scalar .null)] :=
  ⟨by decide +kernel, by decide +kernel, by rw [textMap_says]; decide +kernel⟩
theorem stands_items : StandsMap (b! "c:\n- 1\n- {d: 'e'}\n\n") [(b! "c", .seq (.cons (.scalar (.number (b! "1"))) (.cons (.map (.cons (b! "d") (.scalar (.string (b! "e"))) .nil)) .nil)))] :=
  ⟨by decide +kernel, by decide +kernel, by rw [textMap_says]; decide +kernel⟩

/-- Three such parts, with a text after them in which the value is missing. -/
example : TextMap (b! "c:\n- 1\n- {d: 'e'}\n\na: |\n  x # y\nb:\n# c\nf: g\nh:")
    [(b! "c", .seq (.cons (.scalar (.number (b! "1"))) (.cons (.map (.cons (b! "d") (.scalar (.string (b! "e"))) .nil)) .nil))), (b! "a", .scalar (.string (b! "x # y\n"))),
      (b! "b", .scalar .null), (b! "f", .scalar (.string (b! "g"))), (b! "h", .scalar (.string []))] :=
  C73_mapping (ms := [(b! "c:\n- 1\n- {d: 'e'}\n\n", [(b! "c", .seq (.cons (.scalar (.number (b! "1"))) (.cons (.map (.cons (b! "d") (.scalar (.string (b! "e"))) .nil)) .nil)))]),
      (b! "a: |\n  x # y\n", [(b! "a", .scalar (.string (b! "x # y\n")))]), (b! "b:\n# c\n", [(b! "b", .scalar .null)])]) (y := b! "f: g\nh:")
    (L := [(b! "f", .scalar (.string (b! "g"))), (b! "h", .scalar (.string []))])
    (by
      intro e he
      simp only [List.mem_cons, List.not_mem_nil, or_false] at he
      rcases he with rfl | rfl | rfl
      · exact stands_items
      · exact stands_block
      · exact stands_null)
    (by decide +kernel) (textMap_says.2 (by decide +kernel))

example : StandsSeq (b! "- a: 1\n  b: |\n    c\n") [.map (.ofList [(b! "a", .scalar (.number (b! "1"))), (b! "b", .scalar (.string (b! "c\n")))])] :=
  ⟨by decide +kernel, by decide +kernel, by rw [textSeq_says]; decide +kernel⟩

-- Lines that do not stand on their own, though they are texts: the value is missing, or takes what follows.
example : TextMap (b! "a:\n") [(b! "a", .scalar (.string []))] ∧ TextMap (b! "a:\n" ++ b! "z: 0\n") [(b! "a", .scalar .null), (b! "z", .scalar (.number (b! "0")))] := by
  rw [textMap_says, textMap_says]; decide +kernel
example : TextMap (b! "a: |-\n") [(b! "a", .scalar (.string []))] ∧ TextMap (b! "a: |-\n" ++ b! "z: 0\n") [(b! "a", .scalar (.string (b! "z: 0\n")))] := by
  rw [textMap_says, textMap_says]; decide +kernel
-- A key in quotes is read as another key if it is not the first.
example : startsItem true (b! "'b': 1\n") = false ∧ TextMap (b! "'b': 1\n") [(b! "b", .scalar (.number (b! "1")))] ∧
    TextMap (b! "a: 1\n" ++ b! "'b': 1\n") [(b! "a", .scalar (.number (b! "1"))), (b! "'b'", .scalar (.number (b! "1")))] := by
  rw [textMap_says, textMap_says]; decide +kernel

end Verif
