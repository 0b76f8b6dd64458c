import Verif.FrameLemmas
/-
Which values are in the document after an edit.
-/
namespace Verif

/-- The tree of the document after an edit. -/
theorem Holds.editDoc {doc doc' : Document} {t u : Tree Nat} {x : Nat} (h : Holds doc t) (hf : t.find x = some u) {op : Op}
    (he : doc.edit x op = .ok doc') : ∃ i v mk, FreshIds doc.data i v ∧ Verif.makeIndent doc.data x 0 = .ok mk ∧
      doc'.suffix = doc.suffix ∧ doc'.root = doc.root ∧ Holds doc' (Tree.upd x (op.tree i v mk u) t) := by
  obtain ⟨d', i, v, mk, h1, h2, h3, h4⟩ := h.editTree hf op
  have : doc' = ⟨doc.suffix, doc.root, d'⟩ := by
    simp [Document.edit, h1, bind, Except.bind, pure, Except.pure] at he; exact he.symm
  subst this
  exact ⟨i, v, mk, h2, h3, rfl, rfl, h4⟩

/-- A live value whose entries can be listed is a mapping. -/
theorem Holds.mapNode {doc : Document} {t : Tree Nat} {x : Nat} {L : List (Bytes × Nat)} (h : Holds doc t) (hx : Live doc x)
    (hL : mapEntries doc.data x = .ok L) : ∃ (pre : Bytes) (ind : Nat) (k : CollKind) (items : Items Nat) (p : Option Nat),
      t.find x = some (.node x pre true ind k items) ∧
      At doc x (.node x pre true ind k items) p ∧ L = items.pairs.map fun q => (q.1.id, q.2.id) := by
  obtain ⟨u, hu⟩ := (h.live_iff x).1 hx
  obtain ⟨p, ha⟩ := h.at hu
  have hid := ha.id
  cases u with
  | leaf i pre s =>
    have hg := ha.get
    cases s <;> simp [mapEntries, mapIter, Data.mapping, hg, Tree.raw, Scalar.toRaw, bind, Except.bind] at hL
  | node i pre m ind k items =>
    simp only [Tree.id_node] at hid
    subst hid
    cases m with
    | false =>
      have hg := ha.get
      simp [mapEntries, mapIter, Data.mapping, hg, Tree.raw, collRaw, bind, Except.bind] at hL
    | true =>
      have := mapEntries_node ha.rep
      rw [this] at hL
      cases hL
      exact ⟨pre, ind, k, items, p, hu, ha, rfl⟩

/-- A live value whose values can be listed is a sequence. -/
theorem Holds.seqNode {doc : Document} {t : Tree Nat} {x : Nat} {L : List Nat} (h : Holds doc t) (hx : Live doc x)
    (hL : seqValues doc.data x = .ok L) : ∃ (pre : Bytes) (ind : Nat) (k : CollKind) (items : Items Nat) (p : Option Nat),
      t.find x = some (.node x pre false ind k items) ∧
      At doc x (.node x pre false ind k items) p ∧ L = items.pairs.map (·.2.id) := by
  obtain ⟨u, hu⟩ := (h.live_iff x).1 hx
  obtain ⟨p, ha⟩ := h.at hu
  have hid := ha.id
  cases u with
  | leaf i pre s =>
    have hg := ha.get
    cases s <;> simp [seqValues, seqIter, Data.sequence, hg, Tree.raw, Scalar.toRaw, bind, Except.bind] at hL
  | node i pre m ind k items =>
    simp only [Tree.id_node] at hid
    subst hid
    cases m with
    | true =>
      have hg := ha.get
      simp [seqValues, seqIter, Data.sequence, hg, Tree.raw, collRaw, bind, Except.bind] at hL
    | false =>
      have := seqValues_node ha.rep
      rw [this] at hL
      cases hL
      exact ⟨pre, ind, k, items, p, hu, ha, rfl⟩

/-- Looking up a key. -/
theorem At.mapGet {doc : Document} {x : Nat} {pre : Bytes} {ind : Nat} {k : CollKind} {items : Items Nat} {p : Option Nat}
    (ha : At doc x (.node x pre true ind k items) p) (key : Bytes) :
    Verif.mapGet doc.data x key = .ok ((items.lookup key).map Tree.id) := by
  have hx : doc.data.slab.get x = some ⟨collRaw true ⟨ind, k, items.ids⟩, pre, p⟩ := ha.get
  simp only [Verif.mapGet, mapping_of hx, bind, Except.bind]
  exact findKey_items key ha.rep.node.2

theorem At.seqGet {doc : Document} {x : Nat} {pre : Bytes} {ind : Nat} {k : CollKind} {items : Items Nat} {p : Option Nat}
    (ha : At doc x (.node x pre false ind k items) p) (n : Nat) :
    Verif.seqGet doc.data x n = .ok ((items.pairs[n]?).map (·.2.id)) := by
  have hx : doc.data.slab.get x = some ⟨collRaw false ⟨ind, k, items.ids⟩, pre, p⟩ := ha.get
  simp only [Verif.seqGet, sequence_of hx, bind, Except.bind]
  cases hi : items.ids[n]? with
  | none =>
    have : items.pairs[n]? = none := by
      rw [List.getElem?_eq_none_iff] at hi ⊢; rw [Items.length_pairs]; exact hi
    simp [this, pure, Except.pure]
  | some i =>
    obtain ⟨ip, key, v, h1, h2, _⟩ := ha.rep.node.2.get hi
    simp [h1, sequenceItem_of h2, pure, Except.pure]

/-- A value below `x` that is in the new subtree or not. -/
theorem Holds.survives {doc doc' : Document} {t u u' w : Tree Nat} {x y : Nat} (h : Holds doc t)
    (hf : t.find x = some u) (hid : u'.id = x) (h' : Holds doc' (Tree.upd x u' t)) (hy : u.find y = some w) :
    Live doc' y ↔ ∃ w', u'.find y = some w' := by
  have hfu := Tree.find_upd hf hid
  rw [h'.live_iff]
  constructor
  · rintro ⟨w', hw'⟩
    cases hc : u'.find y with
    | some z => exact ⟨z, rfl⟩
    | none =>
      exfalso
      have hn := h'.not_mem_of_not_below hfu hw' hc
      obtain ⟨p, A, B, ra, rb, h0, h1⟩ := Tree.focus none hf
      have he := (h1 u (Tree.find_id hf)).2.1
      have he' := (h1 u' hid).2.1
      rw [h0] at he
      have hm := Tree.find_mem hw'
      have hnd := h.nodup
      rw [Tree.allIds, he] at hnd
      rw [Tree.allIds, he'] at hm
      simp only [List.map_append, List.nodup_append, List.mem_append, Tree.allIds_eq] at hnd hm
      have hyu := Tree.find_mem hy
      rcases hm with (hm | hm) | hm
      · exact hnd.1.2.2 y hm y hyu rfl
      · exact hn hm
      · exact hnd.2.2 y (.inr hyu) y hm rfl
  · rintro ⟨w', hw'⟩
    exact ⟨w', Tree.find_trans h'.nodup hfu hw'⟩

/-- A value not below `x` is still there. -/
theorem Holds.survives_frame {doc doc' : Document} {t u u' : Tree Nat} {x y : Nat} (h : Holds doc t)
    (hf : t.find x = some u) (hid : u'.id = x) (h' : Holds doc' (Tree.upd x u' t)) (hy : Live doc y)
    (hb : ¬ Below doc.data x y) : Live doc' y := by
  obtain ⟨w, hw⟩ := (h.live_iff y).1 hy
  have hn : u.find y = none := by
    cases hc : u.find y with
    | none => rfl
    | some z => exact absurd ((h.below_iff hf y).2 ⟨z, hc⟩) hb
  have := (h.frame hf hid h' (Tree.find_mem hw) (h.not_mem_of_not_below hf hw hn)).2 ⟨w, hw⟩
  exact (h'.live_iff y).2 this

/-! ### Items -/

theorem Items.find_split {y : Nat} (c : Nat) (m : Bool) : ∀ {is : Items Nat} {n : Nat} {key : RStr} {v : Tree Nat},
    ((is.entries c m).map (·.1)).Nodup → is.pairs[n]? = some (key, v) →
    (is.find y ≠ none → ((is.eraseIdx n).find y ≠ none ↔ v.find y = none))
  | .nil, n, key, v, _, h => by simp [Items.pairs] at h
  | .cons i p k v' rest, 0, key, v, hn, h => by
    simp only [Items.pairs, List.getElem?_cons_zero, Option.some.injEq, Prod.mk.injEq] at h
    obtain ⟨rfl, rfl⟩ := h
    simp only [Items.entries, List.map_cons, List.map_append, List.nodup_cons, List.nodup_append, Tree.allIds_eq] at hn
    intro hy
    simp only [Items.eraseIdx]
    simp only [Items.find] at hy
    cases hv : v'.find y with
    | none => simp [hv] at hy ⊢; exact hy
    | some z =>
      simp only [reduceCtorEq, iff_false, ne_eq, Decidable.not_not]
      cases hr : rest.find y with
      | none => rfl
      | some z' => exact absurd rfl (hn.2.2.2 y (Tree.find_mem hv) y (Items.find_mem c m hr))
  | .cons i p k v' rest, n + 1, key, v, hn, h => by
    simp only [Items.pairs, List.getElem?_cons_succ] at h
    simp only [Items.entries, List.map_cons, List.map_append, List.nodup_cons, List.nodup_append, Tree.allIds_eq] at hn
    intro hy
    simp only [Items.eraseIdx, Items.find]
    simp only [Items.find] at hy
    cases hv : v'.find y with
    | none =>
      simp only [hv, Option.none_or] at hy ⊢
      exact Items.find_split c m hn.2.2.1 h hy
    | some z =>
      simp only [Option.some_or, ne_eq, reduceCtorEq, not_false_eq_true, true_iff]
      cases hw : v.find y with
      | none => rfl
      | some z' =>
        exfalso
        have := Items.find_pair c m hn.2.2.1 h
        have := Items.find_trans c m hn.2.2.1 this hw
        exact hn.2.2.2 y (Tree.find_mem hv) y (Items.find_mem c m this) rfl

theorem Items.find_append {y : Nat} : ∀ {a b : Items Nat}, (a.append b).find y = (a.find y).or (b.find y)
  | .nil, b => by simp [Items.append, Items.find]
  | .cons i p k v rest, b => by simp only [Items.append, Items.find, Items.find_append, Option.or_assoc]

/-! ### Arena entries -/

mutual
/-- The collection an item belongs to. -/
theorem Tree.coll_of_item {i : Nat} {e : Entry} (hi : e.raw.isItem = true) : ∀ {t : Tree Nat} {q : Option Nat},
    t.allIds.Nodup → (i, e) ∈ t.entries q →
    ∃ (c : Nat) (cp : Bytes) (m : Bool) (ind : Nat) (k : CollKind) (items : Items Nat) (n : Nat),
      t.find c = some (.node c cp m ind k items) ∧ items.ids[n]? = some i
  | .leaf j p s, q, _, h => by
    simp only [Tree.entries, List.mem_singleton, Prod.mk.injEq] at h
    rw [h.2] at hi; cases s <;> cases hi
  | .node j p m ind k items, q, hn, h => by
    simp only [Tree.entries, List.mem_cons, Prod.mk.injEq] at h
    simp only [Tree.allIds_node, List.nodup_cons] at hn
    rcases h with h | h
    · rw [h.2] at hi; cases m <;> cases hi
    · rcases Items.coll_of_item hi hn.2 h with ⟨n, hn'⟩ | ⟨c, cp, m', ind', k', items', n, h1, h2⟩
      · exact ⟨j, p, m, ind, k, items, n, by simp [Tree.find], hn'⟩
      · refine ⟨c, cp, m', ind', k', items', n, ?_, h2⟩
        have hc := Items.find_mem j m h1
        have : j ≠ c := fun hjc => hn.1 (hjc ▸ hc)
        simp [Tree.find, this, h1]
theorem Items.coll_of_item {i : Nat} {e : Entry} (hi : e.raw.isItem = true) {c : Nat} {m : Bool} : ∀ {is : Items Nat},
    ((is.entries c m).map (·.1)).Nodup → (i, e) ∈ is.entries c m →
    (∃ n : Nat, is.ids[n]? = some i) ∨
    ∃ (c : Nat) (cp : Bytes) (m : Bool) (ind : Nat) (k : CollKind) (items : Items Nat) (n : Nat),
      is.find c = some (.node c cp m ind k items) ∧ items.ids[n]? = some i
  | .nil, _, h => by simp [Items.entries] at h
  | .cons j p key v rest, hn, h => by
    simp only [Items.entries, List.map_cons, List.map_append, List.nodup_cons, List.nodup_append, Tree.allIds_eq] at hn
    simp only [Items.entries, List.mem_cons, List.mem_append, Prod.mk.injEq] at h
    rcases h with h | h | h
    · exact .inl ⟨0, by simp [Items.ids, h.1]⟩
    · obtain ⟨c', cp, m', ind', k', items', n, h1, h2⟩ := Tree.coll_of_item hi hn.2.1 h
      exact .inr ⟨c', cp, m', ind', k', items', n, by simp [Items.find, h1], h2⟩
    · rcases Items.coll_of_item hi hn.2.2.1 h with ⟨n, hn'⟩ | ⟨c', cp, m', ind', k', items', n, h1, h2⟩
      · exact .inl ⟨n + 1, by simpa [Items.ids] using hn'⟩
      · refine .inr ⟨c', cp, m', ind', k', items', n, ?_, h2⟩
        have hc := Items.find_mem c m h1
        have : v.find c' = none := by
          cases hv : v.find c' with
          | none => rfl
          | some z => exact absurd rfl (hn.2.2.2 c' (Tree.find_mem hv) c' hc)
        simp [Items.find, this, h1]
end

theorem Holds.entry_mem {doc : Document} {t : Tree Nat} (h : Holds doc t) {i : Nat} {e : Entry}
    (hg : doc.data.slab.get i = some e) : (i, e) ∈ t.entries none := by
  have hm := h.full i e hg
  rw [Tree.allIds] at hm
  obtain ⟨⟨j, e'⟩, hj, rfl⟩ := List.mem_map.1 hm
  have := h.rep j e' hj
  simp only at hg
  rw [hg] at this
  cases this
  exact hj

/-- What an entry of the arena refers to is in the arena. -/
structure Closed (d : Data) : Prop where
  items : ∀ c m coll p par, d.slab.get c = some ⟨collRaw m coll, p, par⟩ → ∀ i ∈ coll.items, d.slab.get i ≠ none
  value : ∀ i m key v p par, d.slab.get i = some ⟨itemRaw m key v, p, par⟩ → d.slab.get v ≠ none

theorem Holds.closed {doc : Document} {t : Tree Nat} (h : Holds doc t) : Closed doc.data where
  items c m coll p par hg i hi := by
    have he := h.entry_mem hg
    obtain ⟨w, hw⟩ := Tree.find_of_entry (by cases m <;> rfl) he
    obtain ⟨q, ha⟩ := h.at hw
    have := ha.get
    rw [hg] at this
    simp only [Option.some.injEq, Entry.mk.injEq] at this
    have hr := this.1
    cases w with
    | leaf j p' s => cases m <;> cases s <;> simp [collRaw, Tree.raw, Scalar.toRaw] at hr
    | node j p' m' ind k items =>
      have : coll.items = items.ids := by
        cases m <;> cases m' <;> simp [collRaw, Tree.raw] at hr
        all_goals rw [hr]
      rw [this] at hi
      obtain ⟨n, hn⟩ := List.getElem?_of_mem hi
      obtain ⟨ip, key, v, _, h2, _⟩ := ha.rep.node.2.get hn
      rw [h2]; simp
  value i m key v p par hg := by
    have he := h.entry_mem hg
    obtain ⟨c, cp, m', ind, k, items, n, h1, h2⟩ := Tree.coll_of_item (by cases m <;> rfl) h.nodup he
    obtain ⟨q, ha⟩ := h.at h1
    obtain ⟨ip, key', v', _, h3, h4⟩ := ha.rep.node.2.get h2
    rw [hg] at h3
    have : v = v'.id := by
      simp only [Option.some.injEq, Entry.mk.injEq] at h3
      have := h3.1
      cases m <;> cases m' <;> simp [itemRaw] at this
      · exact this
      · exact this.2
    rw [this, h4.head]; simp

mutual
/-- A value whose parts are unchanged or gone, and which is still there, is unchanged. -/
theorem Rep.transfer {d d' : Data} (hc : Closed d') : ∀ {w : Tree Nat} {p : Option Nat}, Rep d p w →
    (∀ j e, (j, e) ∈ w.entries p → d'.slab.get j = some e ∨ d'.slab.get j = none) → d'.slab.get w.id ≠ none → Rep d' p w
  | .leaf i q s, p, h, hk, hn => by
    intro j e hj
    rcases hk j e hj with h1 | h1
    · exact h1
    · simp only [Tree.entries, List.mem_singleton, Prod.mk.injEq] at hj
      rw [hj.1] at h1; exact absurd h1 hn
  | .node i q m ind k items, p, h, hk, hn => by
    have h0 : d'.slab.get i = some ⟨collRaw m ⟨ind, k, items.ids⟩, q, p⟩ := by
      rcases hk i _ (by simp [Tree.entries]; exact .inl rfl) with h1 | h1
      · exact h1
      · exact absurd h1 hn
    have := RepItems.transfer hc h.node.2 (fun j e hj => hk j e (by simp [Tree.entries, hj]))
      (hc.items _ _ _ _ _ h0)
    intro j e hj
    simp only [Tree.entries, List.mem_cons, Prod.mk.injEq] at hj
    rcases hj with ⟨rfl, rfl⟩ | hj
    · exact h0
    · exact this j e hj
theorem RepItems.transfer {d d' : Data} (hc : Closed d') {c : Nat} {m : Bool} : ∀ {is : Items Nat}, RepItems d c m is →
    (∀ j e, (j, e) ∈ is.entries c m → d'.slab.get j = some e ∨ d'.slab.get j = none) →
    (∀ i ∈ is.ids, d'.slab.get i ≠ none) → RepItems d' c m is
  | .nil, _, _, _ => by intro j e hj; simp [Items.entries] at hj
  | .cons i q key v rest, h, hk, hn => by
    have h0 : d'.slab.get i = some ⟨itemRaw m key v.id, q, some c⟩ := by
      rcases hk i _ (by simp [Items.entries]; exact .inl rfl) with h1 | h1
      · exact h1
      · exact absurd h1 (hn i (by simp [Items.ids]))
    obtain ⟨_, h2, h3⟩ := h.cons
    have hv := Rep.transfer hc h2 (fun j e hj => hk j e (by simp [Items.entries, hj])) (hc.value _ _ _ _ _ _ h0)
    have hr := RepItems.transfer hc h3 (fun j e hj => hk j e (by simp [Items.entries, hj]))
      (fun i hi => hn i (by simp [Items.ids, hi]))
    intro j e hj
    simp only [Items.entries, List.mem_cons, List.mem_append, Prod.mk.injEq] at hj
    rcases hj with ⟨rfl, rfl⟩ | hj | hj
    · exact h0
    · exact hv j e hj
    · exact hr j e hj
end

end Verif
