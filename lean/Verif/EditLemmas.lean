import Verif.ItemsLemmas
/-
What each editing operation does to the tree a document holds.
-/
namespace Verif
set_option linter.unusedSimpArgs false

/-- Prefix of an added item. -/
def addPre (ind : Nat) (items : Items Nat) : Bytes := if items.isNil then [] else makePrefix ind

/-- Prefix of a pushed value. -/
def pushPre (sep : Separator) (items : Items Nat) : Bytes :=
  match sep with
  | .custom s => s
  | .auto => match items.pairs.getLast? with
    | some (_, v) => v.pre
    | none => [SP]

/-- Prefix of an inserted scalar. -/
def insertPre (sep : Separator) : Bytes :=
  match sep with
  | .custom s => s
  | .auto => [SP]

theorem Scalar.not_tabular (s : Scalar) : s.toRaw.isTabular = false := by cases s <;> rfl

theorem isEmpty_ids (is : Items Nat) : is.ids.isEmpty = is.isNil := by cases is <;> rfl

theorem getLast_pairs {α} : ∀ is : Items α, is.ids.getLast? = none ↔ is.pairs.getLast? = none
  | .nil => by simp [Items.ids, Items.pairs]
  | .cons _ _ _ _ _ => by simp [Items.ids, Items.pairs]

theorem getLast?_get {α} (l : List α) : l.getLast? = l[l.length - 1]? := List.getLast?_eq_getElem? ..

theorem Tree.allIds_node (x : Nat) (pre : Bytes) (m : Bool) (ind : Nat) (k : CollKind) (items : Items Nat) :
    (Tree.node x pre m ind k items).allIds = x :: (items.entries x m).map (·.1) := rfl

/-- `sequence_mut.push*`. -/
theorem Holds.push {doc : Document} {t : Tree Nat} {x : Nat} {pre : Bytes} {ind : Nat} {k : CollKind}
    {items : Items Nat} (h : Holds doc t) (hf : t.find x = some (.node x pre false ind k items)) (sep : Separator)
    (s : Scalar) :
    ∃ i v d', innerPush doc.data x sep s.toRaw = .ok (v, d') ∧ doc.data.slab.get i = none ∧
      doc.data.slab.get v = none ∧ i ≠ v ∧
      Holds ⟨doc.suffix, doc.root, d'⟩ (Tree.upd x (.node x pre false ind k
        (items.append (.cons i (addPre ind items) noKey (.leaf v (pushPre sep items) s) .nil))) t) := by
  obtain ⟨p, ha⟩ := h.at hf
  have hx : doc.data.slab.get x = some ⟨collRaw false ⟨ind, k, items.ids⟩, pre, p⟩ := ha.get
  obtain ⟨k1, d1, e1, hk1, g1, hrest⟩ := addItem_data h.slab hx (addPre ind items) noKey s
  obtain ⟨k2, d2, d3, d4, e2, e3, g3, e4, hok, hk2, hk12, hget⟩ := hrest (pushPre sep items)
  have hxk1 : x ≠ k1 := by rintro rfl; rw [hx] at hk1; cases hk1
  have hx1 : d1.slab.get x = some ⟨collRaw false ⟨ind, k, items.ids⟩, pre, p⟩ := by rw [g1 x hxk1, hx]
  refine ⟨k1, k2, d4, ?_, hk1, hk2, hk12, h.addItem hf _ _ _ _ ha hok hk1 hk2 hk12 hget⟩
  have e4' : Data.setSequenceItems d3 x (items.ids ++ [k1]) = .ok d4 := e4
  have e3' : d2.replace k1 (.sequenceItem k2) = .ok d3 := e3
  simp only [addPre] at e1
  cases sep with
  | custom sp =>
    simp only [pushPre] at e2
    simp [innerPush, sequence_of hx, bind, Except.bind, isEmpty_ids, e1, pure, Except.pure, e2, e3',
      sequence_of g3, e4']
  | auto =>
    simp only [pushPre] at e2
    cases hl : items.ids.getLast? with
    | none =>
      have hpl : items.pairs.getLast? = none := (getLast_pairs items).1 hl
      rw [hpl] at e2
      simp only at e2
      simp [innerPush, sequence_of hx, bind, Except.bind, isEmpty_ids, e1, pure, Except.pure, e2, e3',
        sequence_of g3, e4', sequence_of hx1, hl]
    | some last =>
      have hl' := hl
      rw [getLast?_get] at hl
      obtain ⟨ip, key, v, hp, hg, hr⟩ := ha.rep.node.2.get hl
      have hpl : items.pairs.getLast? = some (key, v) := by
        rw [getLast?_get, Items.length_pairs]; exact hp
      have hlk : last ≠ k1 := by rintro rfl; rw [hg] at hk1; cases hk1
      have hvk : v.id ≠ k1 := by intro hc; have := hr.head; rw [hc, hk1] at this; cases this
      have hg1 : d1.slab.get last = _ := (g1 last hlk).trans hg
      have hg2 : d1.slab.get v.id = _ := (g1 v.id hvk).trans hr.head
      rw [hpl] at e2
      simp only at e2
      simp [innerPush, sequence_of hx, bind, Except.bind, isEmpty_ids, e1, pure, Except.pure, e2, e3',
        sequence_of g3, e4', sequence_of hx1, hl', sequenceItem_of hg1, pre_of hg2]

/-- `mapping_mut.insert*` with a key that is not there yet. -/
theorem Holds.insertNew {doc : Document} {t : Tree Nat} {x : Nat} {pre : Bytes} {ind : Nat} {k : CollKind}
    {items : Items Nat} (h : Holds doc t) (hf : t.find x = some (.node x pre true ind k items)) (key : Bytes)
    (sep : Separator) (s : Scalar) (hl : items.lookup key = none) :
    ∃ i v d', innerInsert doc.data x key sep s.toRaw = .ok (v, d') ∧ doc.data.slab.get i = none ∧
      doc.data.slab.get v = none ∧ i ≠ v ∧
      Holds ⟨doc.suffix, doc.root, d'⟩ (Tree.upd x (.node x pre true ind k
        (items.append (.cons i (addPre ind items) ⟨.bare, key, key⟩ (.leaf v (insertPre sep) s) .nil))) t) := by
  obtain ⟨p, ha⟩ := h.at hf
  have hx : doc.data.slab.get x = some ⟨collRaw true ⟨ind, k, items.ids⟩, pre, p⟩ := ha.get
  obtain ⟨k1, d1, e1, hk1, g1, hrest⟩ := addItem_data h.slab hx (addPre ind items) ⟨.bare, key, key⟩ s
  obtain ⟨k2, d2, d3, d4, e2, e3, g3, e4, hok, hk2, hk12, hget⟩ := hrest (insertPre sep)
  refine ⟨k1, k2, d4, ?_, hk1, hk2, hk12, h.addItem hf _ _ _ _ ha hok hk1 hk2 hk12 hget⟩
  have e4' : Data.setMappingItems d3 x (items.ids ++ [k1]) = .ok d4 := e4
  have e3' : d2.replace k1 (.mappingItem ⟨.bare, key, key⟩ k2) = .ok d3 := e3
  have hk : findKey doc.data key items.ids = .ok none := by rw [findKey_items key ha.rep.node.2, hl]; rfl
  simp only [addPre] at e1
  cases sep with
  | custom sp =>
    simp only [insertPre] at e2
    simp [innerInsert, mapping_of hx, bind, Except.bind, hk, isEmpty_ids, e1, pure, Except.pure, e2, e3',
      mapping_of g3, e4']
  | auto =>
    simp only [insertPre] at e2
    simp [innerInsert, mapping_of hx, bind, Except.bind, hk, isEmpty_ids, e1, pure, Except.pure, e2, e3',
      mapping_of g3, e4', Scalar.not_tabular]

/-- `mapping_mut.insert*` with a key that is there. -/
theorem Holds.insertOld {doc : Document} {t v : Tree Nat} {x : Nat} {pre : Bytes} {ind : Nat} {k : CollKind}
    {items : Items Nat} (h : Holds doc t) (hf : t.find x = some (.node x pre true ind k items)) (key : Bytes)
    (sep : Separator) (s : Scalar) (hl : items.lookup key = some v) :
    t.find v.id = some v ∧ ∃ d', innerInsert doc.data x key sep s.toRaw = .ok (v.id, d') ∧
      Holds ⟨doc.suffix, doc.root, d'⟩ (Tree.upd v.id (.leaf v.id v.pre s) t) := by
  obtain ⟨p, ha⟩ := h.at hf
  have hx : doc.data.slab.get x = some ⟨collRaw true ⟨ind, k, items.ids⟩, pre, p⟩ := ha.get
  obtain ⟨n, key', hp, _⟩ := Items.lookup_mem hl
  have hv : t.find v.id = some v := Tree.find_trans h.nodup hf (Tree.find_pair ha.nodup hp)
  obtain ⟨d', e, hh⟩ := h.setScalar hv s
  refine ⟨hv, d', ?_, hh⟩
  have hk : findKey doc.data key items.ids = .ok (some v.id) := by rw [findKey_items key ha.rep.node.2, hl]; rfl
  simp [innerInsert, mapping_of hx, bind, Except.bind, hk, e, pure, Except.pure]

/-! ### Removing items -/

theorem dropItem {d : Data} {c : Nat} {m : Bool} {i : Nat} {p : Bytes} {key : RStr} {v : Tree Nat} {f : Nat}
    (hs : d.slab.OK) (hi : d.slab.get i = some ⟨itemRaw m key v.id, p, some c⟩) (hv : Rep d (some i) v)
    (hn : (i :: v.allIds).Nodup) (hf : v.depth + 1 ≤ f) :
    ∃ d', Data.dropWith (Data.dropKindF f) d i = .ok d' ∧ Dropped d d' (i :: v.allIds) := by
  have he : (Items.entries c m (.cons i p key v .nil)).map (·.1) = i :: v.allIds := by
    simp [Items.entries, Tree.allIds_eq]
  obtain ⟨d', h1, h2⟩ := dropItems (is := .cons i p key v .nil) (c := c) (m := m) (d := d) (f := f) hs
    (fun j e hj => by
      simp only [Items.entries, List.append_nil, List.mem_cons, Prod.mk.injEq] at hj
      rcases hj with ⟨rfl, rfl⟩ | hj
      · exact hi
      · exact hv j e hj) (by rw [he]; exact hn) (by simp only [Items.depth]; omega)
  rw [he] at h2
  refine ⟨d', ?_, h2⟩
  simp only [Items.ids, List.foldlM_cons, List.foldlM_nil, bind, Except.bind] at h1
  split at h1
  · cases h1
  · next heq => rw [heq]; simpa [pure, Except.pure] using h1

theorem dropAll : ∀ {is : Items Nat} {c : Nat} {m : Bool} {d : Data}, d.slab.OK → RepItems d c m is →
    ((is.entries c m).map (·.1)).Nodup → is.depth ≤ d.fuel →
    ∃ d', is.ids.foldlM Data.drop d = .ok d' ∧ Dropped d d' ((is.entries c m).map (·.1))
  | .nil, _, _, d, hs, _, _, _ => ⟨d, rfl, Dropped.nil hs⟩
  | .cons i p key v rest, c, m, d, hs, hr, hn, hf => by
    simp only [Items.depth] at hf
    simp only [Items.entries, List.map_cons, List.map_append, List.nodup_cons,
      List.mem_append, List.nodup_append, not_or, Tree.allIds_eq] at hn
    obtain ⟨⟨hi1, hi2⟩, hv1, hr1, hvr⟩ := hn
    obtain ⟨h1, h2, h3⟩ := hr.cons
    obtain ⟨d1, e1, D1⟩ := dropItem (f := d.fuel) hs h1 h2 (List.nodup_cons.2 ⟨hi1, hv1⟩) (by omega)
    obtain ⟨d2, e2, D2⟩ := dropAll (is := rest) (c := c) (m := m) (d := d1) D1.ok (fun j e hj => by
      have hjm : j ∈ (rest.entries c m).map (·.1) := List.mem_map.2 ⟨_, hj, rfl⟩
      rw [D1.get, if_neg]
      · exact h3 j e hj
      · simp only [List.mem_cons, not_or]
        exact ⟨fun h => hi2 (h ▸ hjm), fun h => hvr j h j hjm rfl⟩) hr1
      (by rw [Data.fuel, D1.len]; rw [Data.fuel] at hf; omega)
    refine ⟨d2, ?_, ?_⟩
    · simp [Items.ids, Data.drop, e1, bind, Except.bind, e2]
    · have := D1.trans D2
      simpa [Items.entries, Tree.allIds_eq] using this

theorem Data.setFuel (d : Data) (x : Nat) (e : Entry) : Data.fuel ⟨d.slab.set x e⟩ = d.fuel := by
  simp [Data.fuel, Slab.set]

theorem Holds.removeIdx {doc : Document} {t : Tree Nat} {x : Nat} {pre : Bytes} {m : Bool} {ind : Nat} {k : CollKind}
    {items : Items Nat} (h : Holds doc t) (hf : t.find x = some (.node x pre m ind k items)) {n i : Nat}
    (hi : items.ids[n]? = some i) :
    ∃ d1 d', setItems m doc.data x (items.ids.eraseIdx n) = .ok d1 ∧ d1.drop i = .ok d' ∧
      (∀ key v, items.pairs[n]? = some (key, v) → ∀ j, j = i ∨ j ∈ v.allIds → d'.slab.get j = none) ∧
      Holds ⟨doc.suffix, doc.root, d'⟩ (Tree.upd x (.node x pre m ind k (items.eraseIdx n)) t) := by
  obtain ⟨p, ha⟩ := h.at hf
  have hx : doc.data.slab.get x = some ⟨collRaw m ⟨ind, k, items.ids⟩, pre, p⟩ := ha.get
  obtain ⟨ip, key, v, A, B, s1, s2, s3, s4⟩ := Items.split x m items n i hi
  have hnd := ha.nodup
  simp only [Tree.allIds_node, s1, List.map_cons, List.map_append, List.nodup_cons, List.mem_append,
    List.nodup_append, not_or, Tree.allIds_eq, List.mem_cons] at hnd
  obtain ⟨⟨⟨hxA, hxi, hxv⟩, hxB⟩, ⟨hA, ⟨hiv, hv⟩, hAiv⟩, hB, hABiv⟩ := hnd
  have hset := Slab.get_set hx (b := (⟨collRaw m ⟨ind, k, items.ids.eraseIdx n⟩, pre, p⟩ : Entry))
  have hitem : doc.data.slab.get i = some ⟨itemRaw m key v.id, ip, some x⟩ :=
    ha.rep.node.2 i _ (by rw [s1]; simp)
  have hrv : Rep doc.data (some i) v := fun j e hj => ha.rep.node.2 j e (by rw [s1]; simp [hj])
  obtain ⟨d', e1, D⟩ := dropItem (m := m) (key := key) (p := ip) (c := x)
    (d := ⟨doc.data.slab.set x ⟨collRaw m ⟨ind, k, items.ids.eraseIdx n⟩, pre, p⟩⟩)
    (f := Data.fuel ⟨doc.data.slab.set x ⟨collRaw m ⟨ind, k, items.ids.eraseIdx n⟩, pre, p⟩⟩)
    (h.slab.set hx) (i := i) (v := v) (by rw [hset, if_neg (fun hc => hxi hc.symm)]; exact hitem)
    (fun j e hj => by
      rw [hset, if_neg (fun hc : j = x => hxv (hc ▸ Tree.mem_allIds_of hj))]; exact hrv j e hj)
    (List.nodup_cons.2 ⟨hiv, hv⟩)
    (by rw [Data.setFuel]; have := ha.fuel; simp only [Tree.depth] at this; omega)
  have hget : ∀ j, d'.slab.get j = if j = i ∨ j ∈ v.allIds then none else if j = x then
      some ⟨collRaw m ⟨ind, k, items.ids.eraseIdx n⟩, pre, p⟩ else doc.data.slab.get j := by
    intro j; rw [D.get, hset]; simp [List.mem_cons]
  have hids : (Tree.node x pre m ind k items).allIds = x :: (A.map (·.1) ++ (i :: v.allIds) ++ B.map (·.1)) := by
    simp [Tree.allIds_node, s1, Tree.allIds_eq]
  have hids' : (Tree.node x pre m ind k (items.eraseIdx n)).allIds = x :: (A.map (·.1) ++ B.map (·.1)) := by
    simp [Tree.allIds_node, s2, Tree.allIds_eq]
  refine ⟨_, d', setItems_of hx _, e1, ?_, h.patch hf ha rfl D.ok ?_ ?_ ?_ ?_ ?_⟩
  · intro key' v' hp j hj
    rw [s3] at hp
    simp only [Option.some.injEq, Prod.mk.injEq] at hp
    obtain ⟨_, rfl⟩ := hp
    rw [hget, if_pos hj]
  · intro j e hj
    simp only [Tree.entries, s2, Items.ids_eraseIdx, List.mem_cons, Prod.mk.injEq, List.mem_append] at hj
    rcases hj with ⟨rfl, rfl⟩ | hj | hj
    · rw [hget, if_neg (fun hc => hc.elim hxi hxv), if_pos rfl]
    · have hjm : j ∈ A.map (·.1) := List.mem_map.2 ⟨_, hj, rfl⟩
      rw [hget, if_neg (fun hc => hAiv j hjm j hc rfl), if_neg (fun hc : j = x => hxA (hc ▸ hjm))]
      exact ha.rep.node.2 j e (by rw [s1]; simp [hj])
    · have hjm : j ∈ B.map (·.1) := List.mem_map.2 ⟨_, hj, rfl⟩
      rw [hget, if_neg (fun hc => hABiv j (.inr hc) j hjm rfl), if_neg (fun hc : j = x => hxB (hc ▸ hjm))]
      exact ha.rep.node.2 j e (by rw [s1]; simp [hj])
  · rw [hids', List.nodup_cons, List.nodup_append]
    exact ⟨by simp only [List.mem_append, not_or]; exact ⟨hxA, hxB⟩, hA, hB, fun a ha b hb => hABiv a (.inl ha) b hb⟩
  · intro j h1 h2
    rw [hids] at h1
    simp only [List.mem_cons, List.mem_append, not_or] at h1
    rw [hget, if_neg (fun hc => hc.elim h1.2.1.2.1 h1.2.1.2.2), if_neg h1.1]
  · intro j h1 h2
    rw [hids] at h1
    rw [hids'] at h2
    simp only [List.mem_cons, List.mem_append, not_or] at h1 h2
    rcases h1 with h1 | (h1 | h1) | h1
    · exact absurd h1 h2.1
    · exact absurd h1 h2.2.1
    · rw [hget, if_pos h1]
    · exact absurd h1 h2.2.2
  · intro j h1 h2
    rw [hids] at h2
    rw [hids'] at h1
    simp only [List.mem_cons, List.mem_append, not_or] at h1 h2
    rcases h1 with h1 | h1 | h1
    · exact absurd h1 h2.1
    · exact absurd h1 h2.2.1.1
    · exact absurd h1 h2.2.2

theorem Holds.clearItems {doc : Document} {t : Tree Nat} {x : Nat} {pre : Bytes} {m : Bool} {ind : Nat} {k : CollKind}
    {items : Items Nat} (h : Holds doc t) (hf : t.find x = some (.node x pre m ind k items)) :
    ∃ d1 d2, setItems m doc.data x [] = .ok d1 ∧ items.ids.foldlM Data.drop d1 = .ok d2 ∧
      setItems m d2 x [] = .ok d2 ∧
      Holds ⟨doc.suffix, doc.root, d2⟩ (Tree.upd x (.node x pre m ind k .nil) t) := by
  obtain ⟨p, ha⟩ := h.at hf
  have hx : doc.data.slab.get x = some ⟨collRaw m ⟨ind, k, items.ids⟩, pre, p⟩ := ha.get
  have hnd := ha.nodup
  simp only [Tree.allIds, Tree.entries, List.map_cons, List.nodup_cons] at hnd
  have hset := Slab.get_set hx (b := (⟨collRaw m ⟨ind, k, []⟩, pre, p⟩ : Entry))
  obtain ⟨d2, e2, D⟩ := dropAll (is := items) (c := x) (m := m)
    (d := ⟨doc.data.slab.set x ⟨collRaw m ⟨ind, k, []⟩, pre, p⟩⟩) (h.slab.set hx)
    (fun j e hj => by
      rw [hset, if_neg]
      · exact ha.rep.node.2 j e hj
      · rintro rfl; exact hnd.1 (List.mem_map.2 ⟨_, hj, rfl⟩)) hnd.2
    (by rw [Data.setFuel]; have := ha.fuel; simp only [Tree.depth] at this; omega)
  have hget : ∀ j, d2.slab.get j = if j ∈ (items.entries x m).map (·.1) then none else if j = x then
      some ⟨collRaw m ⟨ind, k, []⟩, pre, p⟩ else doc.data.slab.get j := by
    intro j; rw [D.get, hset]
  have hx2 : d2.slab.get x = some ⟨collRaw m ⟨ind, k, []⟩, pre, p⟩ := by rw [hget, if_neg hnd.1, if_pos rfl]
  have hids : (Tree.node x pre m ind k items).allIds = x :: (items.entries x m).map (·.1) := rfl
  have hids' : (Tree.node x pre m ind k .nil).allIds = [x] := rfl
  refine ⟨_, d2, setItems_of hx _, e2, ?_, h.patch hf ha rfl D.ok ?_ (by simp [hids']) ?_ ?_ ?_⟩
  · rw [setItems_of hx2]
    congr 1
    have : d2.slab.slots.set x (.occupied ⟨collRaw m ⟨ind, k, []⟩, pre, p⟩) = d2.slab.slots := by
      have h1 := Slab.get_eq.1 hx2
      obtain ⟨hlt, h2⟩ := List.getElem?_eq_some_iff.1 h1
      rw [← h2, List.set_getElem_self]
    simp [Slab.set, this]
  · intro j e hj
    simp only [Tree.entries, Items.entries, Items.ids, List.mem_singleton, Prod.mk.injEq] at hj
    obtain ⟨rfl, rfl⟩ := hj
    exact hx2
  · intro j h1 h2
    rw [hids] at h1
    simp only [List.mem_cons, not_or] at h1
    rw [hget, if_neg h1.2, if_neg h1.1]
  · intro j h1 h2
    rw [hids] at h1
    rw [hids'] at h2
    simp only [List.mem_cons, List.not_mem_nil, or_false] at h1 h2
    rw [hget, if_pos (h1.resolve_left h2)]
  · intro j h1 h2
    rw [hids] at h2
    rw [hids'] at h1
    simp only [List.mem_cons, List.not_mem_nil, or_false, not_or] at h1 h2
    exact absurd h1 h2.1

end Verif
