import Verif.Props.Grow
import Verif.Props.Before
/-
Reading what is written after entries of the block collection that a text is were removed and added (C86).
-/
namespace Verif

/-! ### Where it is false -/

/-- C86 is false: without its only entry, a mapping is written as nothing. -/
theorem C86_empty_false : ¬ ∀ (x : Bytes) (doc doc' : Document) (key : Bytes), Parsed x doc → startsItem true x = true → doc.edit doc.root (.remove key) = .ok doc' → Stable doc' := by
  intro h
  have hp : Parsed (b! "a: 1\n") (docOfText (b! "a: 1\n")) := ⟨30, by decide +kernel⟩
  obtain ⟨out, doc2, c, h1, h2, h3, h4⟩ := h _ _ ((docOfText (b! "a: 1\n")).after 0 (.remove (b! "a"))) (b! "a") hp (by decide) (by decide +kernel)
  obtain rfl : b! "\n" = out := Except.ok.inj ((show ((docOfText (b! "a: 1\n")).after 0 (.remove (b! "a"))).write = .ok (b! "\n") by decide +kernel).symm.trans h1)
  obtain ⟨doc3, g1, g2⟩ := C57_accepts.2 ((says_iff (x := b! "\n") (c := .scalar (.string []))).1 (by decide +kernel))
  obtain rfl := Except.ok.inj (h2.symm.trans g1)
  obtain rfl := Reads.unique h4 g2
  have := h3.1
  exact absurd this (by decide +kernel)

/-- C86 is false: the comment after the removed value becomes part of the value before it. -/
theorem C86_comment_false : ¬ ∀ (x : Bytes) (doc doc' : Document) (key key' : Bytes) (v : Nat), Parsed x doc → startsItem true x = true → doc.edit doc.root (.remove key) = .ok doc' →
    mapGet doc'.data doc'.root key' = .ok (some v) → Stable doc' := by
  intro h
  have hp : Parsed (b! "a: x\nb: [2] # c\nd: 3\n") (docOfText (b! "a: x\nb: [2] # c\nd: 3\n")) := ⟨40, by decide +kernel⟩
  refine unstable_entry (doc := (docOfText (b! "a: x\nb: [2] # c\nd: 3\n")).after 0 (.remove (b! "b"))) (out := b! "a: x # c\nd: 3\n") (by decide +kernel)
    (textMap_says (l := [(b! "a", .scalar (.string (b! "x # c"))), (b! "d", .scalar (.number (b! "3")))]).2 (by decide +kernel))
    (L := [(b! "a", 2), (b! "d", 8)]) (by decide +kernel) (n := 0) rfl rfl (by decide +kernel) (a' := .string (b! "x")) (by decide) ?_
  exact h _ _ _ (b! "b") (b! "a") 2 hp (by decide) (by decide +kernel) (by decide +kernel)

/-- C86 is false: an entry without a value that becomes the last one is no longer null. -/
theorem C86_null_false : ¬ ∀ (x : Bytes) (doc doc' : Document) (key key' : Bytes) (v : Nat), Parsed x doc → startsItem true x = true → HASH ∉ x → doc.edit doc.root (.remove key) = .ok doc' →
    mapGet doc'.data doc'.root key' = .ok (some v) → Stable doc' := by
  intro h
  have hp : Parsed (b! "a:\nb: 1\n") (docOfText (b! "a:\nb: 1\n")) := ⟨40, by decide +kernel⟩
  refine unstable_entry (doc := (docOfText (b! "a:\nb: 1\n")).after 0 (.remove (b! "b"))) (out := b! "a:\n") (by decide +kernel)
    (textMap_says (l := [(b! "a", .scalar (.string []))]).2 (by decide +kernel))
    (L := [(b! "a", 2)]) (by decide +kernel) (n := 0) rfl rfl (by decide +kernel) (a' := .null) (by decide) ?_
  exact h _ _ _ (b! "b") (b! "a") 2 hp (by decide) (by decide) (by decide +kernel) (by decide +kernel)

/-! ### Mappings -/

/-- An entry: white space and comments before it, its text, its key and its value. -/
structure MapLine where
  gap : Bytes
  text : Bytes
  key : Bytes
  value : Content

def MapLine.entry (a : MapLine) : Bytes × Content := (a.key, a.value)

/-- What is done with the mapping that a document is. -/
inductive MapOp
  | insert (key : Bytes) (val : Val) | remove (key : Bytes)

def MapOp.op : MapOp → Op
  | .insert k v => .insert k v
  | .remove k => .remove k

/-- What should become of the entries: a new one is added on a line after them, the first one with the key is removed.  `none`: the key is not new, or no entry would be left. -/
def MapOp.next (rows : List MapLine) : MapOp → Option (List MapLine)
  | .insert k v => if k ∈ rows.map (·.key) then none else some (rows ++ [⟨b! "\n", newEntry (k, v), k, .scalar v.reads⟩])
  | .remove k => if (rows.eraseP (·.key == k)).isEmpty then none else some (rows.eraseP (·.key == k))

def MapOp.all (rows : List MapLine) : List MapOp → Option (List MapLine)
  | [] => some rows
  | o :: os => (o.next rows).bind fun r => MapOp.all r os

/-- The edits of the mapping that the document is. -/
def Document.mapEdits (doc : Document) : List MapOp → Except Stop Document
  | [] => .ok doc
  | o :: os => do (← doc.edit doc.root o.op).mapEdits os

/-- The mapping that the document is has these entries, each with the text that is written for it (see C18). -/
def MapRows (doc : Document) (rows : List MapLine) : Prop := ∃ C l, doc.data.mapping doc.root = .ok C ∧ Reads doc.data doc.root (.map l) ∧ l.list = rows.map MapLine.entry ∧
  ∀ (n : Nat) (a : MapLine), rows[n]? = some a → ∃ i, C.items[n]? = some i ∧ mapEntryText doc.data i = .ok (a.gap ++ a.text)

/-- Every entry together with what is before the next one stands on its own, as in C73; the last one is read as itself with `R` after it. -/
def FitsMap (R : Bytes) : List MapLine → Prop
  | [] => False
  | [a] => startsItem true (a.text ++ R) = true ∧ TextMap (a.text ++ R) [a.entry]
  | a :: b :: r => StandsMap (a.text ++ b.gap) [a.entry] ∧ FitsMap R (b :: r)

theorem FitsMap.text {R : Bytes} : ∀ {a : MapLine} {r : List MapLine}, FitsMap R (a :: r) →
    startsItem true (a.text ++ r.flatMap (fun b => b.gap ++ b.text) ++ R) = true ∧ TextMap (a.text ++ r.flatMap (fun b => b.gap ++ b.text) ++ R) ((a :: r).map MapLine.entry)
  | a, [], h => by
    rw [List.flatMap_nil, List.append_nil]; exact h
  | a, b :: r, ⟨h1, h2⟩ => by
    obtain ⟨g1, g2⟩ := FitsMap.text h2
    have e : a.text ++ (b :: r).flatMap (fun b => b.gap ++ b.text) ++ R = (a.text ++ b.gap) ++ (b.text ++ r.flatMap (fun b => b.gap ++ b.text) ++ R) := by simp
    rw [e]
    exact ⟨starts_append h1.start _, h1.before g1 g2⟩

/-- As `MapRows`, of the tree. -/
def TopRows (doc : Document) (rows : List MapLine) : Prop := ∃ items, TopColl true doc items ∧ items.texts true .block = rows.map (fun a => a.gap ++ a.text) ∧
  items.entriesC.list = rows.map MapLine.entry

theorem Items.indexOf_entries (key : Bytes) : ∀ items : Items Nat, items.indexOf key = items.entriesC.list.findIdx? (·.1 == key)
  | .nil => rfl
  | .cons _ _ k v rest => by
    rw [Items.indexOf, Items.entriesC, Entries.list, List.findIdx?_cons, Items.indexOf_entries key rest]

theorem Items.entriesC_eraseIdx {α : Type} : ∀ (items : Items α) (n : Nat), (items.eraseIdx n).entriesC.list = items.entriesC.list.eraseIdx n
  | .nil, _ => rfl
  | .cons _ _ _ _ _, 0 => rfl
  | .cons _ _ _ _ rest, n + 1 => by simp only [Items.eraseIdx, Items.entriesC, Entries.list, List.eraseIdx_cons_succ, Items.entriesC_eraseIdx rest n]

theorem Items.elemsC_eraseIdx {α : Type} : ∀ (items : Items α) (n : Nat), (items.eraseIdx n).elemsC.list = items.elemsC.list.eraseIdx n
  | .nil, _ => rfl
  | .cons _ _ _ _ _, 0 => rfl
  | .cons _ _ _ _ rest, n + 1 => by simp only [Items.eraseIdx, Items.elemsC, Elems.list, List.eraseIdx_cons_succ, Items.elemsC_eraseIdx rest n]

theorem TopRows.step {doc : Document} {rows rows' : List MapLine} (h : TopRows doc rows) {o : MapOp} (ho : o.next rows = some rows') :
    ∃ doc', doc.edit doc.root o.op = .ok doc' ∧ doc'.suffix = doc.suffix ∧ TopRows doc' rows' := by
  obtain ⟨items, h1, h2, h3⟩ := h
  cases o with
  | insert k v =>
    rw [MapOp.next] at ho
    split at ho
    · cases ho
    · rename_i hk
      cases ho
      obtain ⟨doc', items', g1, g2, g3, g4, g5⟩ := h1.insertT (e := (k, v)) (by rw [h3, List.map_map]; exact hk)
      refine ⟨doc', g1, g2, items', g3, ?_, ?_⟩
      · rw [g4, h2, List.map_append]; rfl
      · rw [g5, h3, List.map_append]; rfl
  | remove k =>
    rw [MapOp.next] at ho
    split at ho
    · cases ho
    · rename_i hne
      cases ho
      obtain ⟨ht, hn⟩ := h1
      have hf : (Tree.node doc.root [] true 0 .block items).find doc.root = some (.node doc.root [] true 0 .block items) := by rw [Tree.find, if_pos rfl]
      obtain ⟨b, d', items', g1, g2, g3⟩ := ht.removeKey hf k
      rw [Tree.upd_self (x := doc.root) rfl] at g3
      have key : items'.texts true .block = (rows.eraseP (·.key == k)).map (fun a => a.gap ++ a.text) ∧ items'.entriesC.list = (rows.eraseP (·.key == k)).map MapLine.entry := by
        have hi : items.indexOf k = rows.findIdx? (·.key == k) := by
          rw [Items.indexOf_entries, h3, List.findIdx?_map]; rfl
        rw [hi] at g2
        rw [List.eraseP_eq_eraseIdx]
        cases hr : rows.findIdx? (·.key == k) with
        | none => rw [hr] at g2; cases g2; exact ⟨h2, h3⟩
        | some n =>
          rw [hr] at g2; cases g2
          rw [Items.texts_eraseIdx, Items.entriesC_eraseIdx, h2, h3]
          exact ⟨(map_eraseIdx _ _ _).symm, (map_eraseIdx _ _ _).symm⟩
      refine ⟨_, edit_remove (asMapping_of ht.rep) g1, rfl, items', ⟨g3, ?_⟩, key.1, key.2⟩
      cases items' with
      | nil =>
        have := key.2
        rw [Items.entriesC, Entries.list] at this
        exact absurd (by simpa using this.symm) hne
      | cons => rfl

theorem TopRows.steps : ∀ {os : List MapOp} {doc : Document} {rows rows' : List MapLine}, TopRows doc rows → MapOp.all rows os = some rows' →
    ∃ doc', doc.mapEdits os = .ok doc' ∧ doc'.suffix = doc.suffix ∧ TopRows doc' rows'
  | [], doc, rows, rows', h, ho => by cases ho; exact ⟨doc, rfl, rfl, h⟩
  | o :: os, doc, rows, rows', h, ho => by
    rw [MapOp.all] at ho
    cases hn : o.next rows with
    | none => rw [hn] at ho; cases ho
    | some r =>
      rw [hn] at ho
      obtain ⟨doc1, g1, g2, g3⟩ := h.step hn
      obtain ⟨doc2, k1, k2, k3⟩ := g3.steps ho
      exact ⟨doc2, by rw [Document.mapEdits, g1]; exact k1, by rw [k2, g2], k3⟩

theorem TopColl.entryText {doc : Document} {items : Items Nat} (h : TopColl true doc items) {n i : Nat} (hi : items.ids[n]? = some i) :
    ∃ t, (items.texts true .block)[n]? = some t ∧ mapEntryText doc.data i = .ok t := by
  have hf : (Tree.node doc.root [] true 0 .block items).find doc.root = some (.node doc.root [] true 0 .block items) := by rw [Tree.find, if_pos rfl]
  obtain ⟨p, ha⟩ := h.1.at hf
  obtain ⟨ip, ikey, v, e1, e2, e3, e4⟩ := ha.rep.node.2.item .block hi
  have hnodup : v.allIds.Nodup := by
    obtain ⟨_, hv⟩ := h.1.at (Tree.find_trans h.1.nodup hf (Tree.find_pair ha.nodup e1))
    exact hv.nodup
  exact ⟨_, e2, by simp [mapEntryText, mappingItem_of e3, pre_of e3, pre_of e4.head, e4.text hnodup, bind, Except.bind, pure, Except.pure, itemText, COLON]⟩

theorem MapRows.top {x : Bytes} {doc : Document} (h : Parsed x doc) (hs : startsItem true x = true) {rows : List MapLine} (hr : MapRows doc rows) : TopRows doc rows := by
  obtain ⟨C, l, hC, hl, hlr, hn⟩ := hr
  obtain ⟨items, ht⟩ := parsed_top h hs ⟨_, hl, rfl⟩
  obtain rfl : l = items.entriesC := by
    have := Reads.unique hl ht.reads
    cases this; rfl
  have hf : (Tree.node doc.root [] true 0 .block items).find doc.root = some (.node doc.root [] true 0 .block items) := by rw [Tree.find, if_pos rfl]
  obtain ⟨p, ha⟩ := ht.1.at hf
  rw [mapping_of ha.get] at hC
  cases hC
  have hlen : rows.length = items.ids.length := by
    have := congrArg List.length hlr
    rw [List.length_map] at this
    rw [← this]
    clear hlr hl hn this ht hf ha
    induction items using Items.rec (motive_1 := fun _ => True) with
    | leaf => trivial
    | node => trivial
    | nil => rfl
    | cons => rename_i ih; simp [Items.entriesC, Entries.list, Items.ids, ih]
  refine ⟨items, ht, ?_, hlr⟩
  refine List.ext_getElem? fun n => ?_
  rw [List.getElem?_map]
  cases hr : rows[n]? with
  | none =>
    rw [List.getElem?_eq_none_iff] at hr
    rw [List.getElem?_eq_none (by rw [Items.texts_length]; omega)]; rfl
  | some a =>
    obtain ⟨i, i1, i2⟩ := hn n a hr
    obtain ⟨t, t1, t2⟩ := ht.entryText i1
    rw [t1, ← Except.ok.inj (i2.symm.trans t2)]; rfl

/-- C86, what holds: entries are removed from, and new ones added to, the mapping that a text is, in any order; `rows` are its entries at first, and `rows'` what should become of them.  If each of
those, with what is before the next one, stands on its own (as in C73), and the last one is read as itself with `R` after it, which is what is written after the mapping, then what is written is
read as the document. -/
theorem C86_map_partial {x : Bytes} {doc : Document} (h : Parsed x doc) (hs : startsItem true x = true) {P R : Bytes} (hP : valueText doc.data doc.root = .ok P) (hR : doc.write = .ok (P ++ R))
    {rows : List MapLine} (hr : MapRows doc rows) {os : List MapOp} {a : MapLine} {r : List MapLine} (ho : MapOp.all rows os = some (a :: r))
    (hb : blank a.gap = true) (hg : a.gap = [] ∨ a.gap.getLast? = some NL) (hf : FitsMap R (a :: r)) :
    ∃ doc' l', doc.mapEdits os = .ok doc' ∧ doc'.write = .ok ((a :: r).flatMap (fun b => b.gap ++ b.text) ++ R) ∧ Reads doc'.data doc'.root (.map l') ∧
      l'.list = (a :: r).map MapLine.entry ∧ Stable doc' := by
  have htop := hr.top h hs
  obtain ⟨items0, ht0, -, -⟩ := htop
  have htop := hr.top h hs
  obtain rfl := Except.ok.inj (hP.symm.trans ht0.text)
  obtain rfl := List.append_cancel_left (Except.ok.inj (hR.symm.trans ht0.write))
  obtain ⟨doc', h1, h2, items, ht, h3, h4⟩ := htop.steps ho
  have hw : doc'.write = .ok ((a :: r).flatMap (fun b => b.gap ++ b.text) ++ doc.suffix) := by
    rw [ht.write, block_render, h3, h2, List.flatMap_def]
  refine ⟨doc', _, h1, hw, ht.reads, h4, ?_⟩
  have ht2 : TextMap ((a :: r).flatMap (fun b => b.gap ++ b.text) ++ doc.suffix) ((a :: r).map MapLine.entry) := by
    have e : (a :: r).flatMap (fun b => b.gap ++ b.text) ++ doc.suffix = a.gap ++ (a.text ++ r.flatMap (fun b => b.gap ++ b.text) ++ doc.suffix) := by simp
    rw [e, textMap_iff, C66_content hb hg, ← textMap_iff]
    exact hf.text.2
  obtain ⟨doc2, es2, e1, e2, e3⟩ := ht2
  exact ⟨_, doc2, _, hw, e1, ht.reads, by rw [entries_ext (h4.trans e3.symm)]; exact e2⟩

/-- An entry that can be anywhere: on a line of its own, or at the start of the text. -/
structure MapLine.Free (R : Bytes) (a : MapLine) : Prop where
  gap : a.gap = [] ∨ a.gap = b! "\n"
  stands : StandsMap (a.text ++ b! "\n") [a.entry]
  start : startsItem true (a.text ++ R) = true
  last : TextMap (a.text ++ R) [a.entry]

theorem fits_free {R : Bytes} : ∀ {a : MapLine} {r : List MapLine}, (∀ b ∈ a :: r, b.Free R) → (∀ b ∈ r, b.gap = b! "\n") → FitsMap R (a :: r)
  | a, [], h, _ => ⟨(h a (by simp)).start, (h a (by simp)).last⟩
  | a, b :: r, h, hg => ⟨by rw [hg b (by simp)]; exact (h a (by simp)).stands, fits_free (fun c hc => h c (by simp only [List.mem_cons] at hc ⊢; exact .inr hc)) (fun c hc => hg c (by simp [hc]))⟩

theorem mem_tail_eraseP {α : Type} {p : α → Bool} : ∀ {l : List α} {c : α}, c ∈ (l.eraseP p).tail → c ∈ l.tail
  | [], _, h => h
  | a :: l, c, h => by
    rw [List.eraseP_cons] at h
    cases hp : p a with
    | true => rw [hp] at h; exact List.mem_of_mem_tail h
    | false => rw [hp] at h; exact List.mem_of_mem_eraseP h

theorem free_step {R : Bytes} (hb : blank R = true) (hn : R.headD NL = NL) {rows rows' : List MapLine} {o : MapOp} (h : ∀ a ∈ rows, a.Free R) (hg : ∀ a ∈ rows.tail, a.gap = b! "\n") (hne : rows ≠ [])
    (ho : o.next rows = some rows') (hi : ∀ k v, o = .insert k v → keyBlock k = true ∧ k.headD 0 ≠ PCT ∧ v.kept = true) :
    (∀ a ∈ rows', a.Free R) ∧ (∀ a ∈ rows'.tail, a.gap = b! "\n") ∧ rows' ≠ [] := by
  cases o with
  | insert k v =>
    rw [MapOp.next] at ho
    split at ho
    · cases ho
    · cases ho
      obtain ⟨k1, k2, k3⟩ := hi k v rfl
      obtain ⟨r1, r2⟩ := kept_map k1 k2 k3 hb hn
      refine ⟨fun a ha => ?_, fun a ha => ?_, by simp⟩
      · rcases List.mem_append.1 ha with ha | ha
        · exact h a ha
        · rw [List.mem_singleton] at ha
          subst ha
          exact ⟨.inr rfl, kept_entry k1 k2 k3, r1, r2⟩
      · rw [List.tail_append_of_ne_nil hne] at ha
        rcases List.mem_append.1 ha with ha | ha
        · exact hg a ha
        · rw [List.mem_singleton] at ha
          subst ha; rfl
  | remove k =>
    rw [MapOp.next] at ho
    split at ho
    · cases ho
    · rename_i hne'
      cases ho
      exact ⟨fun a ha => h a (List.mem_of_mem_eraseP ha), fun a ha => hg a (mem_tail_eraseP ha), by simpa using hne'⟩

theorem free_steps {R : Bytes} (hb : blank R = true) (hn : R.headD NL = NL) : ∀ {os : List MapOp} {rows rows' : List MapLine}, (∀ a ∈ rows, a.Free R) → (∀ a ∈ rows.tail, a.gap = b! "\n") → rows ≠ [] →
    MapOp.all rows os = some rows' → (∀ k v, .insert k v ∈ os → keyBlock k = true ∧ k.headD 0 ≠ PCT ∧ v.kept = true) →
    (∀ a ∈ rows', a.Free R) ∧ (∀ a ∈ rows'.tail, a.gap = b! "\n") ∧ rows' ≠ []
  | [], rows, rows', h, hg, hne, ho, _ => by cases ho; exact ⟨h, hg, hne⟩
  | o :: os, rows, rows', h, hg, hne, ho, hi => by
    rw [MapOp.all] at ho
    cases hx : o.next rows with
    | none => rw [hx] at ho; cases ho
    | some r =>
      rw [hx] at ho
      obtain ⟨g1, g2, g3⟩ := free_step hb hn h hg hne hx (fun k v he => hi k v (by simp [he]))
      exact free_steps hb hn g1 g2 g3 ho (fun k v he => hi k v (List.mem_cons_of_mem _ he))

/-- C86, the same without a condition on what becomes of the entries: there is nothing but a line break between two of the entries at first, each of them stands on its own and is read as itself also
at the end of the text, and the new ones are as in C85. -/
theorem C86_lines_partial {x : Bytes} {doc : Document} (h : Parsed x doc) (hs : startsItem true x = true) {P R : Bytes} (hP : valueText doc.data doc.root = .ok P) (hR : doc.write = .ok (P ++ R))
    (hb : blank R = true) (hn : R.headD NL = NL) {rows : List MapLine} (hr : MapRows doc rows) (hne : rows ≠ []) (hf : ∀ a ∈ rows, a.Free R) (hg : ∀ a ∈ rows.tail, a.gap = b! "\n")
    {os : List MapOp} (hi : ∀ k v, .insert k v ∈ os → keyBlock k = true ∧ k.headD 0 ≠ PCT ∧ v.kept = true) {rows' : List MapLine} (ho : MapOp.all rows os = some rows') :
    ∃ doc' l', doc.mapEdits os = .ok doc' ∧ doc'.write = .ok (rows'.flatMap (fun b => b.gap ++ b.text) ++ R) ∧ Reads doc'.data doc'.root (.map l') ∧
      l'.list = rows'.map MapLine.entry ∧ Stable doc' := by
  obtain ⟨g1, g2, g3⟩ := free_steps hb hn hf hg hne ho hi
  cases rows' with
  | nil => exact absurd rfl g3
  | cons a r =>
    have hgap := (g1 a (by simp)).gap
    exact C86_map_partial h hs hP hR hr ho (by rcases hgap with h | h <;> rw [h] <;> rfl) (hgap.imp id fun h => by rw [h]; rfl) (fits_free g1 g2)

/-! ### Sequences -/

/-- An item: white space and comments before it, its text, the white space after the dash, its value. -/
structure SeqLine where
  gap : Bytes
  text : Bytes
  sep : Bytes
  value : Content

/-- What is done with the sequence that a document is. -/
inductive SeqOp
  | push (val : Val) | removeAt (n : Nat)

def SeqOp.op : SeqOp → Op
  | .push v => .push v
  | .removeAt n => .removeAt n

/-- The white space that is put before the next value: that of the last one. -/
def autoSep (rows : List SeqLine) : Bytes := ((rows.getLast?).map (·.sep)).getD (b! " ")

/-- What should become of the items.  `none`: no item would be left. -/
def SeqOp.next (rows : List SeqLine) : SeqOp → Option (List SeqLine)
  | .push v => some (rows ++ [⟨b! "\n", newItem (autoSep rows) v, v.sepText (autoSep rows), .scalar v.reads⟩])
  | .removeAt n => if (rows.eraseIdx n).isEmpty then none else some (rows.eraseIdx n)

def SeqOp.all (rows : List SeqLine) : List SeqOp → Option (List SeqLine)
  | [] => some rows
  | o :: os => (o.next rows).bind fun r => SeqOp.all r os

/-- The edits of the sequence that the document is. -/
def Document.seqEdits (doc : Document) : List SeqOp → Except Stop Document
  | [] => .ok doc
  | o :: os => do (← doc.edit doc.root o.op).seqEdits os

/-- The sequence that the document is has these items, each with the text that is written for it (see C18) and the white space before its value. -/
def SeqRows (doc : Document) (rows : List SeqLine) : Prop := ∃ C l L, doc.data.sequence doc.root = .ok C ∧ Reads doc.data doc.root (.seq l) ∧ l.list = rows.map (·.value) ∧
  seqValues doc.data doc.root = .ok L ∧
  ∀ (n : Nat) (a : SeqLine), rows[n]? = some a → ∃ i v, C.items[n]? = some i ∧ seqEntryText doc.data true i = .ok (a.gap ++ a.text) ∧ L[n]? = some v ∧ doc.data.pre v = .ok a.sep

/-- As `FitsMap`. -/
def FitsSeq (R : Bytes) : List SeqLine → Prop
  | [] => False
  | [a] => startsItem false (a.text ++ R) = true ∧ TextSeq (a.text ++ R) [a.value]
  | a :: b :: r => StandsSeq (a.text ++ b.gap) [a.value] ∧ FitsSeq R (b :: r)

theorem FitsSeq.text {R : Bytes} : ∀ {a : SeqLine} {r : List SeqLine}, FitsSeq R (a :: r) →
    startsItem false (a.text ++ r.flatMap (fun b => b.gap ++ b.text) ++ R) = true ∧ TextSeq (a.text ++ r.flatMap (fun b => b.gap ++ b.text) ++ R) ((a :: r).map (·.value))
  | a, [], h => by
    rw [List.flatMap_nil, List.append_nil]; exact h
  | a, b :: r, ⟨h1, h2⟩ => by
    obtain ⟨g1, g2⟩ := FitsSeq.text h2
    have e : a.text ++ (b :: r).flatMap (fun b => b.gap ++ b.text) ++ R = (a.text ++ b.gap) ++ (b.text ++ r.flatMap (fun b => b.gap ++ b.text) ++ R) := by simp
    rw [e]
    exact ⟨starts_append h1.start _, h1.before g1 g2⟩

/-- As `SeqRows`, of the tree. -/
def TopItems (doc : Document) (rows : List SeqLine) : Prop := ∃ items, TopColl false doc items ∧ items.texts false .block = rows.map (fun a => a.gap ++ a.text) ∧
  items.elemsC.list = rows.map (·.value) ∧ items.pairs.map (·.2.pre) = rows.map (·.sep)

theorem TopItems.step {doc : Document} {rows rows' : List SeqLine} (h : TopItems doc rows) {o : SeqOp} (ho : o.next rows = some rows') :
    ∃ doc', doc.edit doc.root o.op = .ok doc' ∧ doc'.suffix = doc.suffix ∧ TopItems doc' rows' := by
  obtain ⟨items, h1, h2, h3, h4⟩ := h
  cases o with
  | push v =>
    cases ho
    obtain ⟨doc', items', g1, g2, g3, g4, g5, g6⟩ := h1.pushT v
    have ha : pushPre .auto items = autoSep rows := by
      rw [pushPre_auto, h4, List.getLast?_map]; rfl
    rw [ha] at g4 g5
    refine ⟨doc', g1, g2, items', g3, ?_, ?_, ?_⟩
    · rw [g5, h2, List.map_append]; rfl
    · rw [g6, h3, List.map_append]; rfl
    · rw [g4, h4, List.map_append]; rfl
  | removeAt n =>
    rw [SeqOp.next] at ho
    split at ho
    · cases ho
    · rename_i hne
      cases ho
      obtain ⟨ht, hn⟩ := h1
      have hf : (Tree.node doc.root [] false 0 .block items).find doc.root = some (.node doc.root [] false 0 .block items) := by rw [Tree.find, if_pos rfl]
      obtain ⟨d', g1, g3⟩ := ht.removeAt hf n
      rw [Tree.upd_self (x := doc.root) rfl] at g3
      refine ⟨_, edit_removeAt (asSequence_of ht.rep) g1, rfl, items.eraseIdx n, ⟨g3, ?_⟩, ?_, ?_, ?_⟩
      · cases he : items.eraseIdx n with
        | nil =>
          have := Items.elemsC_eraseIdx items n
          rw [he, h3, ← map_eraseIdx] at this
          exact absurd (by simpa [Items.elemsC, Elems.list] using this.symm) hne
        | cons => rfl
      · rw [Items.texts_eraseIdx, h2, map_eraseIdx]
      · rw [Items.elemsC_eraseIdx, h3, map_eraseIdx]
      · rw [Items.pairs_eraseIdx, map_eraseIdx, h4, map_eraseIdx]

theorem TopItems.steps : ∀ {os : List SeqOp} {doc : Document} {rows rows' : List SeqLine}, TopItems doc rows → SeqOp.all rows os = some rows' →
    ∃ doc', doc.seqEdits os = .ok doc' ∧ doc'.suffix = doc.suffix ∧ TopItems doc' rows'
  | [], doc, rows, rows', h, ho => by cases ho; exact ⟨doc, rfl, rfl, h⟩
  | o :: os, doc, rows, rows', h, ho => by
    rw [SeqOp.all] at ho
    cases hn : o.next rows with
    | none => rw [hn] at ho; cases ho
    | some r =>
      rw [hn] at ho
      obtain ⟨doc1, g1, g2, g3⟩ := h.step hn
      obtain ⟨doc2, k1, k2, k3⟩ := g3.steps ho
      exact ⟨doc2, by rw [Document.seqEdits, g1]; exact k1, by rw [k2, g2], k3⟩

theorem Items.elemsC_ids {α : Type} : ∀ items : Items α, items.elemsC.list.length = items.ids.length
  | .nil => rfl
  | .cons _ _ _ _ rest => by rw [Items.elemsC, Elems.list, Items.ids, List.length_cons, List.length_cons, Items.elemsC_ids rest]

theorem SeqRows.top {x : Bytes} {doc : Document} (h : Parsed x doc) (hs : startsItem false x = true) {rows : List SeqLine} (hr : SeqRows doc rows) : TopItems doc rows := by
  obtain ⟨C, l, L, hC, hl, hlr, hL, hn⟩ := hr
  obtain ⟨items, ht⟩ := parsed_top h hs ⟨_, hl, rfl⟩
  obtain rfl : l = items.elemsC := by
    have := Reads.unique hl ht.readsSeq
    cases this; rfl
  have hf : (Tree.node doc.root [] false 0 .block items).find doc.root = some (.node doc.root [] false 0 .block items) := by rw [Tree.find, if_pos rfl]
  obtain ⟨p, ha⟩ := ht.1.at hf
  rw [sequence_of ha.get] at hC
  cases hC
  obtain rfl := Except.ok.inj (hL.symm.trans (seqValues_node ha.rep))
  have hlen : rows.length = items.ids.length := by
    have := congrArg List.length hlr
    rw [List.length_map, Items.elemsC_ids] at this
    exact this.symm
  have key : ∀ (n : Nat) (a : SeqLine), rows[n]? = some a → (items.texts false .block)[n]? = some (a.gap ++ a.text) ∧ (items.pairs.map (·.2.pre))[n]? = some a.sep := by
    intro n a hr
    obtain ⟨i, v, i1, i2, i3, i4⟩ := hn n a hr
    obtain ⟨ip, ikey, w, e1, e2, e3, e4⟩ := ha.rep.node.2.item .block i1
    have hnodup : w.allIds.Nodup := by
      obtain ⟨_, hv⟩ := ht.1.at (Tree.find_trans ht.1.nodup hf (Tree.find_pair ha.nodup e1))
      exact hv.nodup
    have e5 : seqEntryText doc.data true i = .ok (itemText false .block ip ikey w) := by
      simp [seqEntryText, sequenceItem_of e3, pre_of e3, pre_of e4.head, e4.text hnodup, bind, Except.bind, pure, Except.pure, itemText, DASH]
    rw [e2, ← Except.ok.inj (i2.symm.trans e5)]
    refine ⟨rfl, ?_⟩
    rw [List.getElem?_map, e1] at i3 ⊢
    cases i3
    rw [pre_of e4.head] at i4
    exact congrArg some (Except.ok.inj i4)
  refine ⟨items, ht, ?_, hlr, ?_⟩
  · refine List.ext_getElem? fun n => ?_
    rw [List.getElem?_map]
    cases hr : rows[n]? with
    | none =>
      rw [List.getElem?_eq_none_iff] at hr
      rw [List.getElem?_eq_none (by rw [Items.texts_length]; omega)]; rfl
    | some a => rw [(key n a hr).1]; rfl
  · refine List.ext_getElem? fun n => ?_
    rw [List.getElem?_map (f := SeqLine.sep)]
    cases hr : rows[n]? with
    | none =>
      rw [List.getElem?_eq_none_iff] at hr
      rw [List.getElem?_eq_none (by rw [List.length_map, Items.length_pairs]; omega)]; rfl
    | some a => rw [(key n a hr).2]; rfl

/-- C86 for sequences, what holds: items are removed from, and values pushed to, the sequence that a text is, in any order. -/
theorem C86_seq_partial {x : Bytes} {doc : Document} (h : Parsed x doc) (hs : startsItem false x = true) {P R : Bytes} (hP : valueText doc.data doc.root = .ok P) (hR : doc.write = .ok (P ++ R))
    {rows : List SeqLine} (hr : SeqRows doc rows) {os : List SeqOp} {a : SeqLine} {r : List SeqLine} (ho : SeqOp.all rows os = some (a :: r))
    (hb : blank a.gap = true) (hg : a.gap = [] ∨ a.gap.getLast? = some NL) (hf : FitsSeq R (a :: r)) :
    ∃ doc' l', doc.seqEdits os = .ok doc' ∧ doc'.write = .ok ((a :: r).flatMap (fun b => b.gap ++ b.text) ++ R) ∧ Reads doc'.data doc'.root (.seq l') ∧
      l'.list = (a :: r).map (·.value) ∧ Stable doc' := by
  have htop := hr.top h hs
  obtain ⟨items0, ht0, -, -⟩ := htop
  have htop := hr.top h hs
  obtain rfl := Except.ok.inj (hP.symm.trans ht0.text)
  obtain rfl := List.append_cancel_left (Except.ok.inj (hR.symm.trans ht0.write))
  obtain ⟨doc', h1, h2, items, ht, h3, h4, -⟩ := htop.steps ho
  have hw : doc'.write = .ok ((a :: r).flatMap (fun b => b.gap ++ b.text) ++ doc.suffix) := by
    rw [ht.write, block_render, h3, h2, List.flatMap_def]
  refine ⟨doc', _, h1, hw, ht.readsSeq, h4, ?_⟩
  have ht2 : TextSeq ((a :: r).flatMap (fun b => b.gap ++ b.text) ++ doc.suffix) ((a :: r).map (·.value)) := by
    have e : (a :: r).flatMap (fun b => b.gap ++ b.text) ++ doc.suffix = a.gap ++ (a.text ++ r.flatMap (fun b => b.gap ++ b.text) ++ doc.suffix) := by simp
    rw [e, textSeq_iff, C66_content hb hg, ← textSeq_iff]
    exact hf.text.2
  obtain ⟨doc2, es2, e1, e2, e3⟩ := ht2
  exact ⟨_, doc2, _, hw, e1, ht.readsSeq, by rw [elems_ext (h4.trans e3.symm)]; exact e2⟩

/-! Examples. -/

/-- The first entry is removed, one is added, and then another is removed. -/
example : ∃ doc doc', Parsed (b! "a: [1]\nb:\n  c: x\nd: 'e'\n# end\n") doc ∧ doc.mapEdits [.remove (b! "a"), .insert (b! "f") (.bool true), .remove (b! "d")] = .ok doc' ∧
    doc'.write = .ok (b! "\nb:\n  c: x\nf: true\n# end\n") ∧ Stable doc' := by
  have hp : Parsed (b! "a: [1]\nb:\n  c: x\nd: 'e'\n# end\n") (docOfText (b! "a: [1]\nb:\n  c: x\nd: 'e'\n# end\n")) := ⟨40, by decide +kernel⟩
  obtain ⟨doc2, h1, h2⟩ := C57_accepts.2 ((says_iff (x := b! "a: [1]\nb:\n  c: x\nd: 'e'\n# end\n")
    (c := .map (.cons (b! "a") (.seq (.cons (.scalar (.number (b! "1"))) .nil)) (.cons (b! "b") (.map (.cons (b! "c") (.scalar (.string (b! "x"))) .nil))
      (.cons (b! "d") (.scalar (.string (b! "e"))) .nil))))).1 (by decide +kernel))
  obtain rfl : doc2 = docOfText (b! "a: [1]\nb:\n  c: x\nd: 'e'\n# end\n") := by
    have : fromSlice (b! "a: [1]\nb:\n  c: x\nd: 'e'\n# end\n") = .ok (docOfText (b! "a: [1]\nb:\n  c: x\nd: 'e'\n# end\n")) := by decide +kernel
    exact Except.ok.inj (h1.symm.trans this)
  let rows : List MapLine := [⟨[], b! "a: [1]", b! "a", .seq (.cons (.scalar (.number (b! "1"))) .nil)⟩, ⟨b! "\n", b! "b:\n  c: x", b! "b", .map (.cons (b! "c") (.scalar (.string (b! "x"))) .nil)⟩,
    ⟨b! "\n", b! "d: 'e'", b! "d", .scalar (.string (b! "e"))⟩]
  have hr : MapRows (docOfText (b! "a: [1]\nb:\n  c: x\nd: 'e'\n# end\n")) rows := by
    refine ⟨⟨0, .block, [1, 5, 9]⟩, _, by decide +kernel, h2, rfl, fun n a ha => ?_⟩
    match n, ha with
    | 0, ha => cases ha; exact ⟨1, rfl, by decide +kernel⟩
    | 1, ha => cases ha; exact ⟨5, rfl, by decide +kernel⟩
    | 2, ha => cases ha; exact ⟨9, rfl, by decide +kernel⟩
  obtain ⟨doc', l', g1, g2, -, -, g3⟩ := C86_lines_partial hp (by decide) (P := b! "a: [1]\nb:\n  c: x\nd: 'e'") (R := b! "\n# end\n") (by decide +kernel) (by decide +kernel) (by decide) (by decide) hr
    (by simp [rows]) (by
      intro a ha
      simp only [rows, List.mem_cons, List.not_mem_nil, or_false] at ha
      rcases ha with rfl | rfl | rfl
      · exact ⟨.inl rfl, ⟨by decide, by decide, textMap_says.2 (by decide +kernel)⟩, by decide, textMap_says.2 (by decide +kernel)⟩
      · exact ⟨.inr rfl, ⟨by decide, by decide, textMap_says.2 (by decide +kernel)⟩, by decide, textMap_says.2 (by decide +kernel)⟩
      · exact ⟨.inr rfl, ⟨by decide, by decide, textMap_says.2 (by decide +kernel)⟩, by decide, textMap_says.2 (by decide +kernel)⟩)
    (by
      intro a ha
      simp only [rows, List.tail_cons, List.mem_cons, List.not_mem_nil, or_false] at ha
      rcases ha with rfl | rfl <;> rfl)
    (os := [.remove (b! "a"), .insert (b! "f") (.bool true), .remove (b! "d")]) (by
      intro k v hk
      simp only [List.mem_cons, MapOp.insert.injEq, List.not_mem_nil, or_false] at hk
      rcases hk with hk | hk | hk
      · cases hk
      · obtain ⟨rfl, rfl⟩ := hk; decide
      · cases hk) (rows' := [⟨b! "\n", b! "b:\n  c: x", b! "b", .map (.cons (b! "c") (.scalar (.string (b! "x"))) .nil)⟩, ⟨b! "\n", b! "f: true", b! "f", .scalar (.bool true)⟩]) (by
      rfl)
  exact ⟨_, doc', hp, g1, g2, g3⟩

/-- A value is pushed to a sequence, and the item before it, with the comment before that, is removed. -/
example : ∃ doc doc', Parsed (b! "-  1\n# c\n- x\n") doc ∧ doc.seqEdits [.push (.bool true), .removeAt 1] = .ok doc' ∧ doc'.write = .ok (b! "-  1\n- true\n") ∧ Stable doc' := by
  have hp : Parsed (b! "-  1\n# c\n- x\n") (docOfText (b! "-  1\n# c\n- x\n")) := ⟨40, by decide +kernel⟩
  obtain ⟨doc2, h1, h2⟩ := C57_accepts.2 ((says_iff (x := b! "-  1\n# c\n- x\n") (c := .seq (.cons (.scalar (.number (b! "1"))) (.cons (.scalar (.string (b! "x"))) .nil)))).1 (by decide +kernel))
  obtain rfl : doc2 = docOfText (b! "-  1\n# c\n- x\n") := by
    have : fromSlice (b! "-  1\n# c\n- x\n") = .ok (docOfText (b! "-  1\n# c\n- x\n")) := by decide +kernel
    exact Except.ok.inj (h1.symm.trans this)
  have hr : SeqRows (docOfText (b! "-  1\n# c\n- x\n")) [⟨[], b! "-  1", b! "  ", .scalar (.number (b! "1"))⟩, ⟨b! "\n# c\n", b! "- x", b! " ", .scalar (.string (b! "x"))⟩] := by
    refine ⟨⟨0, .block, [1, 3]⟩, _, [2, 4], by decide +kernel, h2, rfl, by decide +kernel, fun n a ha => ?_⟩
    match n, ha with
    | 0, ha => cases ha; exact ⟨1, 2, rfl, by decide +kernel, rfl, by decide +kernel⟩
    | 1, ha => cases ha; exact ⟨3, 4, rfl, by decide +kernel, rfl, by decide +kernel⟩
  obtain ⟨doc', l', g1, g2, -, -, g3⟩ := C86_seq_partial hp (by decide) (P := b! "-  1\n# c\n- x") (R := b! "\n") (by decide +kernel) (by decide +kernel) hr
    (os := [.push (.bool true), .removeAt 1]) (a := ⟨[], b! "-  1", b! "  ", .scalar (.number (b! "1"))⟩) (r := [⟨b! "\n", b! "- true", b! " ", .scalar (.bool true)⟩]) rfl rfl (.inl rfl)
    ⟨⟨by decide, by decide, textSeq_says.2 (by decide +kernel)⟩, by decide, textSeq_says.2 (by decide +kernel)⟩
  exact ⟨_, doc', hp, g1, g2, g3⟩

end Verif
