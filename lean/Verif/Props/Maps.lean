import Verif.JoinLemmas
import Verif.Props.Make
import Verif.Props.Ids
/-
C14 to C18: mappings as ordered maps, and what inserting and removing does to the text.
-/
namespace Verif

/-! ### Lemmas -/

/-- A mapping, given by what iterating over it visits. -/
theorem Holds.asMapping_entries {doc : Document} {t : Tree Nat} {x : Nat} {L : List (Bytes × Nat)} (h : Holds doc t)
    (hx : Live doc x) (hL : mapEntries doc.data x = .ok L) : asMapping doc.data x = .ok (some x) := by
  obtain ⟨pre, ind, k, items, p, _, ha, _⟩ := h.mapNode hx hL
  exact asMapping_of ha.rep

theorem edit_insert {doc : Document} {x : Nat} {key : Bytes} {v : Val} {id : Nat} {d' : Data}
    (hm : asMapping doc.data x = .ok (some x)) (h : mapInsertV doc.data x key v = .ok (id, d')) :
    doc.edit x (.insert key v) = .ok { doc with data := d' } := by
  simp [Document.edit, Op.run, withMapping, hm, h, bind, Except.bind, pure, Except.pure]

theorem edit_remove {doc : Document} {x : Nat} {key : Bytes} {b : Bool} {d' : Data}
    (hm : asMapping doc.data x = .ok (some x)) (h : mapRemove doc.data x key = .ok (b, d')) :
    doc.edit x (.remove key) = .ok { doc with data := d' } := by
  simp [Document.edit, Op.run, withMapping, hm, h, bind, Except.bind, pure, Except.pure]

theorem lookup_find (key : Bytes) : ∀ is : Items Nat, (is.lookup key).map Tree.id =
    ((is.pairs.map fun q => (q.1.id, q.2.id)).find? (·.1 == key)).map (·.2)
  | .nil => rfl
  | .cons _ _ k v rest => by
    simp only [Items.lookup, Items.pairs, List.map_cons, List.find?_cons]
    split
    · next h => simp [h]
    · next h =>
      have h' : (k.id == key) = false := by simpa using h
      simp only [h']
      exact lookup_find key rest

theorem indexOf_none_iff (key : Bytes) : ∀ is : Items Nat, is.indexOf key = none ↔
    key ∉ (is.pairs.map fun q => (q.1.id, q.2.id)).map (·.1)
  | .nil => by simp [Items.indexOf, Items.pairs]
  | .cons _ _ k v rest => by
    simp only [Items.indexOf, Items.pairs, List.map_cons, List.mem_cons, not_or]
    split
    · next h => simp [(eq_of_beq h).symm]
    · next h =>
      rw [Option.map_eq_none_iff, indexOf_none_iff key rest]
      simp only [beq_iff_eq] at h
      exact ⟨fun h' => ⟨fun e => h e.symm, h'⟩, fun h' => h'.2⟩

theorem indexOf_eraseP (key : Bytes) : ∀ (is : Items Nat) (n : Nat), is.indexOf key = some n →
    (is.pairs.map fun q => (q.1.id, q.2.id)).eraseIdx n = (is.pairs.map fun q => (q.1.id, q.2.id)).eraseP (·.1 == key)
  | .nil, _, h => by cases h
  | .cons _ _ k v rest, n, h => by
    simp only [Items.indexOf] at h
    simp only [Items.pairs, List.map_cons]
    split at h
    · next hk =>
      cases h
      rw [List.eraseP_cons_of_pos (by simpa using hk)]; rfl
    · next hk =>
      rw [List.eraseP_cons_of_neg (by simpa using hk)]
      cases hi : rest.indexOf key with
      | none => rw [hi] at h; cases h
      | some n' =>
        rw [hi] at h; cases h
        rw [List.eraseIdx_cons_succ, indexOf_eraseP key rest n' hi]

theorem indexOf_findIdx (key : Bytes) : ∀ (is : Items Nat), is.indexOf key =
    (is.pairs.map fun q => (q.1.id, q.2.id)).findIdx? (·.1 == key)
  | .nil => rfl
  | .cons _ _ k v rest => by
    simp only [Items.indexOf, Items.pairs, List.map_cons, List.findIdx?_cons]
    split
    · rfl
    · rw [indexOf_findIdx key rest]

theorem lookup_indexOf (key : Bytes) : ∀ is : Items Nat, is.lookup key = none ↔ is.indexOf key = none
  | .nil => by simp [Items.lookup, Items.indexOf]
  | .cons _ _ k v rest => by
    simp only [Items.lookup, Items.indexOf]
    split
    · simp
    · rw [Option.map_eq_none_iff]; exact lookup_indexOf key rest

theorem map_eraseIdx {α β} (f : α → β) : ∀ (l : List α) (n : Nat), (l.eraseIdx n).map f = (l.map f).eraseIdx n
  | [], _ => rfl
  | _ :: _, 0 => rfl
  | a :: l, n + 1 => by simp [List.eraseIdx_cons_succ, map_eraseIdx f l n]

/-! ### C14 -/

/-- C14: inserting into a mapping.  The returned id reads as the value; the key now leads to it; the
other keys lead where they did; nothing else in the mapping changes, and a new entry is the last. -/
theorem C14_insert {doc : Document} (h : Reachable doc) {x : Nat} (hx : Live doc x) {L : List (Bytes × Nat)}
    (hL : mapEntries doc.data x = .ok L) (key : Bytes) (val : Val) :
    ∃ id d', mapInsertV doc.data x key val = .ok (id, d') ∧ asAny d' id = .ok val.reads ∧
      mapGet d' x key = .ok (some id) ∧ (∀ key', key' ≠ key → mapGet d' x key' = mapGet doc.data x key') ∧
      mapEntries d' x = .ok (if key ∈ L.map (·.1) then L else L ++ [(key, id)]) ∧
      (∀ e ∈ L, e.2 ≠ id → SameAt doc.data d' e.2) := by
  obtain ⟨t, ht⟩ := h.holds
  have hm := ht.asMapping_entries hx hL
  obtain ⟨pre, ind, k, items, p, hf, ha, hLi⟩ := ht.mapNode hx hL
  have heq := mapInsertV_eq ha.rep key val
  simp only [Tree.id_node] at heq
  have mem : key ∈ L.map (·.1) ↔ items.lookup key ≠ none := by
    rw [Ne, lookup_indexOf, indexOf_none_iff, hLi]; simp
  -- the frame
  have frame : ∀ id d', mapInsertV doc.data x key val = .ok (id, d') →
      (∀ e ∈ L, ∃ l, mapEntries d' x = .ok l ∧ e ∈ l) → asMapping d' x = .ok (some x) → Live ⟨doc.suffix, doc.root, d'⟩ x →
      (∀ z, mapGet doc.data x key = .ok (some z) → z = id) → ∀ e ∈ L, e.2 ≠ id → SameAt doc.data d' e.2 := by
    intro id d' hi hmem hm' hx' hz e he hne
    have hch : Child doc.data x e.2 := .inr ⟨L, e.1, hm, hL, he⟩
    obtain ⟨l, hl, hel⟩ := hmem e he
    refine C21_same h hx (edit_insert hm hi) (hx.step hch) (Below.step hx' (.inr ⟨l, e.1, hm', hl, hel⟩)) ?_
    rintro (ho | ⟨ho, _⟩)
    · exact hne (hz _ ho)
    · exact ht.wellFormed.acyclic x e.2 hx hch (by rw [ho]; exact .self)
  have hget := ha.mapGet key
  cases hl : items.lookup key with
  | none =>
    obtain ⟨i, v, d', h1, _, _, _, h2⟩ := ht.insertNew hf key val.sep (val.scalar (.node x pre true ind k items)) hl
    rw [← heq] at h1
    have hf' := Tree.find_upd (x := x) (u' := .node x pre true ind k (items.append (.cons i (addPre ind items)
      ⟨.bare, key, key⟩ (.leaf v (insertPre val.sep) (val.scalar (.node x pre true ind k items))) .nil))) hf rfl
    obtain ⟨q, hq⟩ := h2.at hf'
    have hents : mapEntries d' x = .ok (L ++ [(key, v)]) := by
      rw [mapEntries_node hq.rep, Items.pairs_append, List.map_append, hLi]; rfl
    have hnm : key ∉ L.map (·.1) := by rw [mem, hl]; simp
    have hx' : Live ⟨doc.suffix, doc.root, d'⟩ x := (h2.live_iff x).2 ⟨_, hf'⟩
    have hg := hq.mapGet
    simp only [lookup_find, Items.pairs_append, List.map_append, ← hLi] at hg
    have hvg : d'.slab.get v = some ⟨(val.scalar (.node x pre true ind k items)).toRaw, insertPre val.sep, some i⟩ := by
      have := hq.rep.node.2
      refine this v _ ?_
      rw [Items.entries_append]
      simp [Items.entries, Tree.entries]
    refine ⟨v, d', h1, Val.scalar_reads hvg, ?_, ?_, ?_, ?_⟩
    · rw [hg key, List.find?_append]
      have : L.find? (·.1 == key) = none := by
        rw [List.find?_eq_none]
        intro e he hc
        exact hnm (List.mem_map.2 ⟨e, he, eq_of_beq hc⟩)
      rw [this]
      simp [Items.pairs]
    · intro key' hne
      rw [hg key', ha.mapGet key', lookup_find, ← hLi, List.find?_append]
      have : ([(key, v)] : List (Bytes × Nat)).find? (·.1 == key') = none := by simp [Ne.symm hne]
      simp only [Items.pairs, List.map_cons, List.map_nil, this, Option.or_none, Tree.id_leaf]
    · rw [if_neg hnm]; exact hents
    · refine frame v d' h1 (fun e he => ⟨_, hents, by simp [he]⟩) (asMapping_of hq.rep) hx' ?_
      intro z hz; rw [hget, hl] at hz; cases hz
  | some w =>
    obtain ⟨hw, d', h1, h2⟩ := ht.insertOld hf key val.sep (val.scalar (.node x pre true ind k items)) hl
    obtain ⟨n, key', hp, _⟩ := Items.lookup_mem hl
    rw [← heq] at h1
    have hxl := C21_survivors h hx (edit_insert hm h1) hx
    have hwx : Child doc.data x w.id := (child_iff ha.rep w.id).2 ⟨x, pre, true, ind, k, items, rfl, n, key', w, hp, rfl⟩
    have hx' : Live ⟨doc.suffix, doc.root, d'⟩ x := by
      refine hxl.2 ?_
      rintro ⟨r, ⟨z, hz, hzr⟩, hrx⟩
      rw [hget, hl] at hz
      cases hz
      exact ht.wellFormed.acyclic _ r (hx.step hwx) hzr (hrx.step hwx)
    have hsame : SameAt doc.data d' x := by
      refine C21_same h hx (edit_insert hm h1) hx hx' ?_
      rintro (ho | ⟨_, ho⟩)
      · rw [hget, hl] at ho
        have heq' : w.id = x := by simpa using ho
        rw [heq'] at hwx
        exact ht.wellFormed.acyclic x x hx hwx .self
      · exact ho w.id (by rw [hget, hl]; rfl)
    have hents : mapEntries d' x = .ok L := by rw [hsame.entries, hL]
    have hma : asMapping d' x = .ok (some x) := h2.asMapping_entries hx' hents
    have hme : key ∈ L.map (·.1) := by rw [mem, hl]; simp
    have hgets : ∀ key', mapGet d' x key' = mapGet doc.data x key' := by
      intro key'
      obtain ⟨pre', ind', k', items', p', _, ha', hLi'⟩ := h2.mapNode hx' hents
      have g1 := ha'.mapGet key'
      have g2 := ha.mapGet key'
      rw [lookup_find, ← hLi'] at g1
      rw [lookup_find, ← hLi] at g2
      rw [g2]; exact g1
    have hf' := Tree.find_upd (x := w.id) (u' := .leaf w.id w.pre (val.scalar (.node x pre true ind k items))) hw rfl
    obtain ⟨q, hq⟩ := h2.at hf'
    refine ⟨w.id, d', h1, Val.scalar_reads hq.get, ?_, fun key' _ => hgets key', ?_, ?_⟩
    · rw [hgets, hget, hl]; rfl
    · rw [if_pos hme]; exact hents
    · refine frame w.id d' h1 (fun e he => ⟨_, hents, he⟩) hma hx' ?_
      intro z hz; rw [hget, hl] at hz; cases hz; rfl

example : ∃ id d', mapInsertV sample.data 8 (b! "k") (.bool true) = .ok (id, d') ∧ asAny d' id = .ok (.bool true) ∧
    mapEntries d' 8 = .ok [(b! "k", 10), (b! "n", 12)] := by
  obtain ⟨id, d', h1, h2, _, _, h3, _⟩ := C14_insert sample_reachable sample_live_inner
    (L := [(b! "k", 10), (b! "n", 12)]) (by decide) (b! "k") (.bool true)
  exact ⟨id, d', h1, h2, by simpa using h3⟩
example : ∃ id d', mapInsertV sample.data 0 (b! "z") (.str (b! "x")) = .ok (id, d') ∧ asAny d' id = .ok (.string (b! "x")) ∧
    mapEntries d' 0 = .ok [(b! "a", 2), (b! "list", 4), (b! "b", 14), (b! "z", id)] := by
  obtain ⟨id, d', h1, h2, _, _, h3, _⟩ := C14_insert sample_reachable sample_live_root sample_entries (b! "z") (.str (b! "x"))
  exact ⟨id, d', h1, h2, by simpa using h3⟩

/-! ### C15 -/

/-- C15: removing from a mapping. -/
theorem C15_remove {doc : Document} (h : Reachable doc) {x : Nat} (hx : Live doc x) {L : List (Bytes × Nat)}
    (hL : mapEntries doc.data x = .ok L) (key : Bytes) :
    ∃ d', mapRemove doc.data x key = .ok (decide (key ∈ L.map (·.1)), d') ∧ Live { doc with data := d' } x ∧
      mapEntries d' x = .ok (L.eraseP (·.1 == key)) ∧
      ∀ e ∈ L.eraseP (·.1 == key), SameAt doc.data d' e.2 := by
  obtain ⟨t, ht⟩ := h.holds
  have hm := ht.asMapping_entries hx hL
  obtain ⟨pre, ind, k, items, p, hf, ha, hLi⟩ := ht.mapNode hx hL
  obtain ⟨b, d', items', h1, hb, h3⟩ := ht.removeKey hf key
  have hf' := Tree.find_upd (x := x) (u' := .node x pre true ind k items') hf rfl
  obtain ⟨q, hq⟩ := h3.at hf'
  have hx' : Live ⟨doc.suffix, doc.root, d'⟩ x := (h3.live_iff x).2 ⟨_, hf'⟩
  have hents := mapEntries_node hq.rep
  have key1 : b = decide (key ∈ L.map (·.1)) ∧ (items'.pairs.map fun q => (q.1.id, q.2.id)) = L.eraseP (·.1 == key) := by
    cases hi : items.indexOf key with
    | none =>
      rw [hi] at hb; cases hb
      have := (indexOf_none_iff key items).1 hi
      rw [← hLi] at this
      refine ⟨by simp [this], ?_⟩
      rw [← hLi, List.eraseP_of_forall_not]
      intro e he hc
      exact this (List.mem_map.2 ⟨e, he, eq_of_beq hc⟩)
    | some n =>
      rw [hi] at hb; cases hb
      have : key ∈ L.map (·.1) := by
        refine Classical.byContradiction fun hc => ?_
        rw [hLi, ← indexOf_none_iff, hi] at hc; cases hc
      refine ⟨by simp [this], ?_⟩
      rw [Items.pairs_eraseIdx, map_eraseIdx, indexOf_eraseP key items n hi, hLi]
  rw [key1.2] at hents
  refine ⟨d', by rw [h1, key1.1], hx', hents, fun e he => ?_⟩
  have hch : Child doc.data x e.2 := .inr ⟨L, e.1, hm, hL, List.mem_of_mem_eraseP he⟩
  refine C21_same h hx (edit_remove hm h1) (hx.step hch)
    (Below.step hx' (.inr ⟨_, e.1, asMapping_of hq.rep, hents, he⟩)) ?_
  intro ho
  exact ht.wellFormed.acyclic x e.2 hx hch (by rw [ho]; exact .self)

example : ∃ d', mapRemove sample.data 0 (b! "list") = .ok (true, d') ∧ mapEntries d' 0 = .ok [(b! "a", 2), (b! "b", 14)] := by
  obtain ⟨d', h1, _, h2, _⟩ := C15_remove sample_reachable sample_live_root sample_entries (b! "list")
  exact ⟨d', h1, h2⟩
example : ∃ d', mapRemove sample.data 0 (b! "none") = .ok (false, d') ∧
    mapEntries d' 0 = .ok [(b! "a", 2), (b! "list", 4), (b! "b", 14)] := by
  obtain ⟨d', h1, _, h2, _⟩ := C15_remove sample_reachable sample_live_root sample_entries (b! "none")
  exact ⟨d', h1, h2⟩

/-! ### C16 -/

/-- C16: all operations find the first entry with the key. -/
theorem C16_first_wins {doc : Document} (h : Reachable doc) {x : Nat} (hx : Live doc x) {before after : List (Bytes × Nat)}
    {key : Bytes} {v : Nat} (hL : mapEntries doc.data x = .ok (before ++ (key, v) :: after))
    (hb : key ∉ before.map (·.1)) :
    mapGet doc.data x key = .ok (some v) ∧ mapGetMut doc.data x key = .ok (some v) ∧
    (∀ val, ∃ d', mapInsertV doc.data x key val = .ok (v, d') ∧ mapEntries d' x = .ok (before ++ (key, v) :: after)) ∧
    (∃ d', mapRemove doc.data x key = .ok (true, d') ∧ mapEntries d' x = .ok (before ++ after)) := by
  obtain ⟨t, ht⟩ := h.holds
  obtain ⟨pre, ind, k, items, p, hf, ha, hLi⟩ := ht.mapNode hx hL
  have hg : mapGet doc.data x key = .ok (some v) := by
    rw [ha.mapGet key, lookup_find, ← hLi, List.find?_append]
    have : before.find? (·.1 == key) = none := by
      rw [List.find?_eq_none]
      intro e he hc
      exact hb (List.mem_map.2 ⟨e, he, eq_of_beq hc⟩)
    rw [this]; simp
  have hmem : key ∈ (before ++ (key, v) :: after).map (·.1) := by simp
  refine ⟨hg, hg, fun val => ?_, ?_⟩
  · obtain ⟨id, d', h1, _, h2, h3, h4, _⟩ := C14_insert h hx hL key val
    have heq := mapInsertV_eq ha.rep key val
    simp only [Tree.id_node] at heq
    cases hl : items.lookup key with
    | none => rw [ha.mapGet key, hl] at hg; cases hg
    | some w =>
      obtain ⟨_, d2, e1, _⟩ := ht.insertOld hf key val.sep (val.scalar (.node x pre true ind k items)) hl
      rw [ha.mapGet key, hl] at hg
      have hw : w.id = v := by simpa using hg
      rw [← heq, h1, hw] at e1
      cases e1
      exact ⟨d', h1, by rw [h4, if_pos hmem]⟩
  · obtain ⟨d', h1, _, h2, _⟩ := C15_remove h hx hL key
    rw [decide_eq_true hmem] at h1
    refine ⟨d', h1, ?_⟩
    rw [h2, List.eraseP_append_right _ (fun e he hc => hb (List.mem_map.2 ⟨e, he, eq_of_beq hc⟩)),
      List.eraseP_cons_of_pos (by simp)]

def sampleDup : Document := docOfText (b! "k: 1\nj: 2\nk: 3\nk: 4")
theorem sampleDup_reachable : Reachable sampleDup := .parsed (inp := b! "k: 1\nj: 2\nk: 3\nk: 4") ⟨30, by decide⟩
example : ∃ d', mapRemove sampleDup.data 0 (b! "k") = .ok (true, d') ∧
    mapEntries d' 0 = .ok [(b! "j", 4), (b! "k", 6), (b! "k", 8)] :=
  (C16_first_wins sampleDup_reachable .self (before := []) (v := 2) (after := [(b! "j", 4), (b! "k", 6), (b! "k", 8)])
    (by decide) (by simp)).2.2.2

/-! ### C17 -/

/-- The separator between colon or dash and the value. -/
def Val.sepText (auto : Bytes) : Val → Bytes
  | .null (.custom s) => s
  | _ => auto

/-- C17: inserting an absent key adds the new entry after the last one, on a line of its own unless
the mapping was empty, and changes no other byte. -/
theorem C17_insert_text {doc : Document} (h : Reachable doc) {x : Nat} (hx : Live doc x) {C : Coll}
    (hC : doc.data.mapping x = .ok C) :
    ∃ a entries b opening closing, Brackets C (b! "{") (b! "}") opening closing ∧
      valueText doc.data x = .ok (opening ++ entries ++ closing) ∧
      doc.write = .ok (a ++ opening ++ entries ++ closing ++ b) ∧
      ∀ key val id d', mapGet doc.data x key = .ok none → mapInsertV doc.data x key val = .ok (id, d') →
        valueText d' id = .ok (val.newText C.indent) ∧
        Document.write { doc with data := d' } = .ok (a ++ opening ++ entries ++
          ((if C.items = [] then [] else (if C.kind = .block then [] else b! ",") ++ [NL] ++ List.replicate C.indent SP) ++
            key ++ b! ":" ++ val.sepText (b! " ") ++ val.newText C.indent) ++ closing ++ b) := by
  obtain ⟨t, ht⟩ := h.holds
  obtain ⟨u, hu⟩ := (ht.live_iff x).1 hx
  obtain ⟨p, ha⟩ := ht.at hu
  obtain ⟨a, b, hw, hw'⟩ := ht.context hu
  have hg := ha.get
  rcases ht.kindOf hu with ⟨pre, s, rfl, _⟩ | ⟨pre, n, k, items, rfl, _⟩ | ⟨pre, n, k, items, rfl, _⟩
  · cases s <;> simp [Data.mapping, hg, Tree.raw, Scalar.toRaw] at hC
  · rw [mapping_of hg] at hC
    cases hC
    refine ⟨a ++ pre, items.render true k, b, openOf k LCB, closeOf k RCB, ?_, ?_, ?_, ?_⟩
    · cases k <;> exact ⟨rfl, rfl⟩
    · rw [ha.text]; simp [Tree.render]
    · rw [hw]; simp [Tree.text, Tree.render]
    · intro key val id d' hn hi
      have hl : items.lookup key = none := by
        rw [ha.mapGet key] at hn; simpa using hn
      have heq := mapInsertV_eq ha.rep key val
      simp only [Tree.id_node] at heq
      obtain ⟨i, v, d2, h1, _, _, _, h2⟩ := ht.insertNew hu key val.sep (val.scalar (.node x pre true n k items)) hl
      rw [← heq, hi] at h1
      cases h1
      have hf' := Tree.find_upd (x := x) (u' := .node x pre true n k (items.append (.cons i (addPre n items)
        ⟨.bare, key, key⟩ (.leaf id (insertPre val.sep) (val.scalar (.node x pre true n k items))) .nil))) hu rfl
      obtain ⟨q, hq⟩ := h2.at hf'
      constructor
      · have hrep : Rep d' (some i) (.leaf id (insertPre val.sep) (val.scalar (.node x pre true n k items))) := by
          intro j e hj
          refine hq.rep.node.2 j e ?_
          rw [Items.entries_append]
          simp only [Items.entries, List.append_nil, List.mem_append, List.mem_cons]
          exact .inr (.inr hj)
        have hr := hrep.text (by simp [Tree.allIds, Tree.entries])
        rw [Tree.id_leaf] at hr
        rw [hr]
        simp [Tree.render, Val.scalar_write]
      · rw [hw' ⟨doc.suffix, doc.root, d'⟩ _ rfl rfl h2]
        simp only [Tree.text, Tree.render, Tree.pre_node, Items.render_texts, Items.texts_append, Items.texts,
          joinSep_snoc, Items.texts_isEmpty, itemText, Tree.pre_leaf, Val.scalar_write]
        have e1 : insertPre val.sep = val.sepText (b! " ") := by
          cases val with
          | null sep => cases sep <;> rfl
          | _ => rfl
        have e2 : (if items.isNil = true then [] else sepOf k false) ++ addPre n items =
            if items.ids = [] then [] else (if k = .block then [] else b! ",") ++ [NL] ++ List.replicate n SP := by
          cases items with
          | nil => rfl
          | cons => cases k <;> simp [Items.isNil, Items.ids, addPre, makePrefix, sepOf, COMMA]
        rw [← e2, e1]
        simp [RStr.write, COLON]
  · simp [Data.mapping, hg, Tree.raw, collRaw] at hC

example {id : Nat} {d' : Data} (hi : mapInsertV sample.data 8 (b! "z") (.bool true) = .ok (id, d')) :
    ∃ a b, sample.write = .ok (a ++ b! "{k: 'v', n: ~}" ++ b) ∧
      Document.write ⟨sample.suffix, sample.root, d'⟩ = .ok (a ++ b! "{k: 'v', n: ~,\nz: true}" ++ b) := by
  obtain ⟨a, e, b, o, c, ⟨rfl, rfl⟩, h2, h3, h4⟩ := C17_insert_text sample_reachable sample_live_inner
    (C := ⟨0, .inline false [], [9, 11]⟩) (by decide)
  have h5 := (h4 _ _ _ _ (by decide) hi).2
  have he : e = b! "k: 'v', n: ~" := by
    have : valueText sample.data 8 = .ok (b! "{k: 'v', n: ~}") := by decide
    rw [this] at h2
    simp at h2
    have : b! "k: 'v', n: ~" ++ [125] = e ++ [125] := h2
    exact (List.append_cancel_right this).symm
  subst he
  exact ⟨a, b, by simpa using h3, by simpa [Val.sepText, Val.newText, NL, SP] using h5⟩

/-! ### C18 -/

/-- What `write_to` writes for an entry of a mapping. -/
def mapEntryText (d : Data) (i : Nat) : Except Stop Bytes := do
  let (key, v) ← d.mappingItem i
  return (← d.pre i) ++ key.write ++ b! ":" ++ (← d.pre v) ++ (← valueText d v)

/-- What goes away with an entry: for inline collections also the comma after it, or the one before
it if it is the last of several. -/
def Gone (C : Coll) (n : Nat) (entry gone : Bytes) : Prop :=
  if C.kind = .block ∨ C.items.length = 1 then gone = entry
  else if n + 1 < C.items.length then gone = entry ++ b! ","
  else gone = b! "," ++ entry

/-- C18 for mappings. -/
theorem C18_remove_text {doc : Document} (h : Reachable doc) {x : Nat} (hx : Live doc x) {C : Coll}
    (hC : doc.data.mapping x = .ok C) {L : List (Bytes × Nat)} (hL : mapEntries doc.data x = .ok L) {key : Bytes} {n : Nat}
    (hk : L.findIdx? (·.1 == key) = some n) {d' : Data} {b : Bool} (hr : mapRemove doc.data x key = .ok (b, d')) :
    ∃ i entry gone before after, C.items[n]? = some i ∧ mapEntryText doc.data i = .ok entry ∧ Gone C n entry gone ∧
      doc.write = .ok (before ++ gone ++ after) ∧ Document.write { doc with data := d' } = .ok (before ++ after) := by
  obtain ⟨t, ht⟩ := h.holds
  obtain ⟨pre, ind, k, items, p, hf, ha, hLi⟩ := ht.mapNode hx hL
  rw [mapping_of ha.get] at hC
  cases hC
  obtain ⟨a, b', hw, hw'⟩ := ht.context hf
  obtain ⟨b2, d2, items', h1, hb, h3⟩ := ht.removeKey hf key
  rw [hr] at h1
  cases h1
  have hi : items.indexOf key = some n := by rw [indexOf_findIdx, ← hLi, hk]
  rw [hi] at hb
  cases hb
  have hlt := Items.indexOf_lt hi
  obtain ⟨ip, ikey, v, e1, e2, e3, e4⟩ := ha.rep.node.2.item k (List.getElem?_eq_getElem hlt)
  have hlen := Items.texts_length true k items
  have hnodup : v.allIds.Nodup := by
    obtain ⟨_, hv⟩ := ht.at (Tree.find_trans ht.nodup hf (Tree.find_pair ha.nodup e1))
    exact hv.nodup
  have hent : mapEntryText doc.data items.ids[n] = .ok (itemText true k ip ikey v) := by
    simp [mapEntryText, mappingItem_of e3, pre_of e3, pre_of e4.head, e4.text hnodup, bind, Except.bind, pure,
      Except.pure, itemText, COLON]
  have hw2 := hw' ⟨doc.suffix, doc.root, d'⟩ _ rfl rfl h3
  simp only [Tree.text, Tree.pre_node, Tree.render, if_true, Items.render_texts, Items.texts_eraseIdx] at hw hw2
  rcases joinSep_erase (sepOf k false) _ n _ e2 with ⟨l1, l2, l3⟩ | ⟨l1, c1, c2, l2, l3⟩ | ⟨l1, l1', c1, l2, l3⟩
  · refine ⟨_, _, itemText true k ip ikey v, a ++ (pre ++ openOf k LCB), closeOf k RCB ++ b', List.getElem?_eq_getElem hlt, hent, ?_, ?_, ?_⟩
    · simp only [Gone]; rw [if_pos (.inr (by omega))]; trivial
    · rw [hw, l2]; simp
    · rw [hw2, l3]; simp
  · refine ⟨_, _, itemText true k ip ikey v ++ sepOf k false, a ++ (pre ++ openOf k LCB) ++ c1, c2 ++ closeOf k RCB ++ b',
      List.getElem?_eq_getElem hlt, hent, ?_, ?_, ?_⟩
    · simp only [Gone]
      cases k with
      | block => simp [sepOf]
      | inline tr suf =>
        rw [if_neg (by simp; omega), if_pos (by omega)]; rfl
    · rw [hw, l2]; simp
    · rw [hw2, l3]; simp
  · refine ⟨_, _, sepOf k false ++ itemText true k ip ikey v, a ++ (pre ++ openOf k LCB) ++ c1, closeOf k RCB ++ b',
      List.getElem?_eq_getElem hlt, hent, ?_, ?_, ?_⟩
    · simp only [Gone]
      cases k with
      | block => simp [sepOf]
      | inline tr suf =>
        rw [if_neg (by simp; omega), if_neg (by omega)]; rfl
    · rw [hw, l2]; simp
    · rw [hw2, l3]; simp

example {b : Bool} {d' : Data} (hr : mapRemove sample.data 0 (b! "a") = .ok (b, d')) :
    ∃ before after, sample.write = .ok (before ++ b! "a: 1" ++ after) ∧
      Document.write ⟨sample.suffix, sample.root, d'⟩ = .ok (before ++ after) := by
  obtain ⟨i, e, g, before, after, h1, h2, h3, h4, h5⟩ := C18_remove_text sample_reachable sample_live_root
    (C := ⟨0, .block, [1, 3, 13]⟩) (by decide) sample_entries (n := 0) (by decide) hr
  cases h1
  cases h2
  simp only [Gone] at h3
  rw [if_pos (by simp)] at h3
  subst h3
  exact ⟨before, after, h4, h5⟩

end Verif
