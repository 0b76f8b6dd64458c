import Verif.Patch
/-
Items: appending, removing and looking up, on trees and on the arena.
-/
namespace Verif
set_option linter.unusedSimpArgs false

/-! ### Lists of items -/

theorem Items.ids_append {α} : ∀ a b : Items α, (a.append b).ids = a.ids ++ b.ids
  | .nil, _ => rfl
  | .cons _ _ _ _ rest, b => by simp [Items.append, Items.ids, Items.ids_append rest b]

theorem Items.entries_append (c : Nat) (m : Bool) : ∀ a b : Items Nat,
    (a.append b).entries c m = a.entries c m ++ b.entries c m
  | .nil, _ => rfl
  | .cons _ _ _ _ rest, b => by simp [Items.append, Items.entries, Items.entries_append c m rest b]

theorem Items.pairs_append {α} : ∀ a b : Items α, (a.append b).pairs = a.pairs ++ b.pairs
  | .nil, _ => rfl
  | .cons _ _ _ _ rest, b => by simp [Items.append, Items.pairs, Items.pairs_append rest b]

theorem Items.ids_eraseIdx {α} : ∀ (a : Items α) (n : Nat), (a.eraseIdx n).ids = a.ids.eraseIdx n
  | .nil, _ => rfl
  | .cons _ _ _ _ _, 0 => rfl
  | .cons _ _ _ _ rest, n + 1 => by simp [Items.eraseIdx, Items.ids, Items.ids_eraseIdx rest n]

theorem Items.pairs_eraseIdx {α} : ∀ (a : Items α) (n : Nat), (a.eraseIdx n).pairs = a.pairs.eraseIdx n
  | .nil, _ => rfl
  | .cons _ _ _ _ _, 0 => rfl
  | .cons _ _ _ _ rest, n + 1 => by simp [Items.eraseIdx, Items.pairs, Items.pairs_eraseIdx rest n]

theorem Items.length_pairs {α} : ∀ (a : Items α), a.pairs.length = a.ids.length
  | .nil => rfl
  | .cons _ _ _ _ rest => by simp [Items.pairs, Items.ids, Items.length_pairs rest]

/-- Split at index `n`. -/
theorem Items.split (c : Nat) (m : Bool) : ∀ (a : Items Nat) (n : Nat) (i : Nat), a.ids[n]? = some i →
    ∃ p key v A B, a.entries c m = A ++ ((i, ⟨itemRaw m key v.id, p, some c⟩) :: v.entries (some i)) ++ B ∧
      (a.eraseIdx n).entries c m = A ++ B ∧ a.pairs[n]? = some (key, v) ∧ v.depth + 1 ≤ a.depth
  | .nil, _, _, h => by simp [Items.ids] at h
  | .cons j p key v rest, 0, i, h => by
    simp only [Items.ids, List.getElem?_cons_zero, Option.some.injEq] at h
    subst h
    exact ⟨p, key, v, [], rest.entries c m, by simp [Items.entries], by simp [Items.eraseIdx],
      by simp [Items.pairs], by simp only [Items.depth]; omega⟩
  | .cons j p key v rest, n + 1, i, h => by
    simp only [Items.ids, List.getElem?_cons_succ] at h
    obtain ⟨p', key', v', A, B, h1, h2, h3, h4⟩ := Items.split c m rest n i h
    refine ⟨p', key', v', (j, ⟨itemRaw m key v.id, p, some c⟩) :: (v.entries (some j) ++ A), B, ?_, ?_, ?_, ?_⟩
    · simp [Items.entries, h1]
    · simp [Items.eraseIdx, Items.entries, h2]
    · simpa [Items.pairs] using h3
    · simp only [Items.depth]; omega

/-! ### Finding subtrees -/

mutual
theorem Tree.find_mem {x : Nat} {u : Tree Nat} : ∀ {t : Tree Nat}, t.find x = some u → x ∈ t.allIds
  | .leaf i p s, h => by
    simp only [Tree.find] at h
    split at h
    · next hi => simp [Tree.allIds, Tree.entries, hi]
    · cases h
  | .node i p m ind k items, h => by
    simp only [Tree.find] at h
    split at h
    · next hi => simp [Tree.allIds, Tree.entries, hi]
    · have := Items.find_mem i m h
      simp only [Tree.allIds, Tree.entries, List.map_cons, List.mem_cons]
      exact .inr this
theorem Items.find_mem {x : Nat} {u : Tree Nat} (c : Nat) (m : Bool) : ∀ {is : Items Nat}, is.find x = some u →
    x ∈ (is.entries c m).map (·.1)
  | .nil, h => by simp [Items.find] at h
  | .cons i p key v rest, h => by
    simp only [Items.find, Option.or_eq_some_iff] at h
    simp only [Items.entries, List.map_cons, List.map_append, List.mem_cons, List.mem_append, Tree.allIds_eq]
    rcases h with h | ⟨_, h⟩
    · exact .inr (.inl (Tree.find_mem h))
    · exact .inr (.inr (Items.find_mem c m h))
end

mutual
theorem Tree.find_trans {x y : Nat} {u w : Tree Nat} : ∀ {t : Tree Nat}, t.allIds.Nodup → t.find x = some u →
    u.find y = some w → t.find y = some w
  | .leaf i p s, _, h, hw => by
    simp only [Tree.find] at h
    split at h
    · cases h; exact hw
    · cases h
  | .node i p m ind k items, hn, h, hw => by
    simp only [Tree.find] at h
    split at h
    · cases h; exact hw
    · simp only [Tree.allIds, Tree.entries, List.map_cons, List.nodup_cons] at hn
      have := Items.find_trans i m hn.2 h hw
      have hy := Items.find_mem i m this
      simp only [Tree.find]
      rw [if_neg (fun hc => hn.1 (by rw [← hc] at hy; exact hy))]
      exact this
theorem Items.find_trans {x y : Nat} {u w : Tree Nat} (c : Nat) (m : Bool) : ∀ {is : Items Nat},
    ((is.entries c m).map (·.1)).Nodup → is.find x = some u → u.find y = some w → is.find y = some w
  | .nil, _, h, _ => by simp [Items.find] at h
  | .cons i p key v rest, hn, h, hw => by
    simp only [Items.entries, List.map_cons, List.map_append, List.nodup_cons, List.nodup_append, Tree.allIds_eq] at hn
    obtain ⟨_, hv, hr, hvr⟩ := hn
    simp only [Items.find, Option.or_eq_some_iff] at h ⊢
    rcases h with h | ⟨_, h⟩
    · exact .inl (Tree.find_trans hv h hw)
    · have := Items.find_trans c m hr h hw
      refine .inr ⟨?_, this⟩
      cases hc : v.find y with
      | none => rfl
      | some z => exact absurd rfl (hvr y (Tree.find_mem hc) y (Items.find_mem c m this))
end

/-- The values of the items of a node are found. -/
theorem Items.find_pair (c : Nat) (m : Bool) {n : Nat} {key : RStr} {v : Tree Nat} : ∀ {is : Items Nat},
    ((is.entries c m).map (·.1)).Nodup → is.pairs[n]? = some (key, v) → is.find v.id = some v
  | .nil, _, h => by simp [Items.pairs] at h
  | .cons i p k v' rest, hn, h => by
    simp only [Items.entries, List.map_cons, List.map_append, List.nodup_cons, List.nodup_append, Tree.allIds_eq] at hn
    obtain ⟨_, hv, hr, hvr⟩ := hn
    simp only [Items.find, Option.or_eq_some_iff]
    cases n with
    | zero =>
      simp only [Items.pairs, List.getElem?_cons_zero, Option.some.injEq, Prod.mk.injEq] at h
      obtain ⟨_, rfl⟩ := h
      exact .inl v'.find_self
    | succ n =>
      simp only [Items.pairs, List.getElem?_cons_succ] at h
      have := Items.find_pair c m hr h
      refine .inr ⟨?_, this⟩
      cases hc : v'.find v.id with
      | none => rfl
      | some z => exact absurd rfl (hvr _ (Tree.find_mem hc) _ (Items.find_mem c m this))

theorem Tree.find_pair {i p m ind k} {items : Items Nat} {n : Nat} {key : RStr} {v : Tree Nat}
    (hn : (Tree.node i p m ind k items).allIds.Nodup) (h : items.pairs[n]? = some (key, v)) :
    (Tree.node i p m ind k items).find v.id = some v := by
  simp only [Tree.allIds, Tree.entries, List.map_cons, List.nodup_cons] at hn
  have := Items.find_pair i m hn.2 h
  simp only [Tree.find]
  have hy := Items.find_mem i m this
  rw [if_neg (fun hc => hn.1 (by rw [← hc] at hy; exact hy))]
  exact this

theorem Items.lookup_mem {α} {key : Bytes} {v : Tree α} : ∀ {is : Items α}, is.lookup key = some v →
    ∃ (n : Nat) (k : RStr), is.pairs[n]? = some (k, v) ∧ k.id = key
  | .nil, h => by simp [Items.lookup] at h
  | .cons i p k v' rest, h => by
    simp only [Items.lookup] at h
    split at h
    · next hk => cases h; exact ⟨0, k, rfl, by simpa using hk⟩
    · obtain ⟨n, k', h1, h2⟩ := Items.lookup_mem h
      exact ⟨n + 1, k', h1, h2⟩

/-! ### Reading on the arena -/

theorem findKey_items {d : Data} (key : Bytes) : ∀ {is : Items Nat} {c : Nat}, RepItems d c true is →
    findKey d key is.ids = .ok ((is.lookup key).map Tree.id)
  | .nil, _, _ => rfl
  | .cons i p k v rest, c, h => by
    obtain ⟨h1, h2, h3⟩ := h.cons
    simp only [Items.ids, findKey, mappingItem_of h1, bind, Except.bind, Items.lookup]
    split
    · rfl
    · exact findKey_items key h3

theorem findIndex_items {d : Data} (key : Bytes) : ∀ {is : Items Nat} {c : Nat}, RepItems d c true is →
    findIndex d key is.ids = .ok (is.indexOf key)
  | .nil, _, _ => rfl
  | .cons i p k v rest, c, h => by
    obtain ⟨h1, h2, h3⟩ := h.cons
    simp only [Items.ids, findIndex, mappingItem_of h1, bind, Except.bind, Items.indexOf]
    split
    · rfl
    · simp [findIndex_items key h3, pure, Except.pure]

theorem RepItems.get {d : Data} {c : Nat} {m : Bool} {is : Items Nat} (h : RepItems d c m is) {n i : Nat}
    (hi : is.ids[n]? = some i) : ∃ p key v, is.pairs[n]? = some (key, v) ∧
      d.slab.get i = some ⟨itemRaw m key v.id, p, some c⟩ ∧ Rep d (some i) v := by
  obtain ⟨p, key, v, A, B, h1, _, h3, _⟩ := Items.split c m is n i hi
  exact ⟨p, key, v, h3, h i _ (by rw [h1]; simp), fun j e hj => h j e (by rw [h1]; simp [hj])⟩

/-! ### Setting the items of a collection -/

/-- `setMappingItems` or `setSequenceItems`. -/
def setItems (m : Bool) (d : Data) (x : Nat) (l : List Nat) : Except Stop Data :=
  if m then d.setMappingItems x l else d.setSequenceItems x l

theorem setItems_of {m : Bool} {d : Data} {x : Nat} {c : Coll} {pre p} (h : d.slab.get x = some ⟨collRaw m c, pre, p⟩)
    (l : List Nat) :
    setItems m d x l = .ok ⟨d.slab.set x ⟨collRaw m { c with items := l }, pre, p⟩⟩ := by
  cases m <;> simp [setItems, Data.setMappingItems, Data.setSequenceItems, h, collRaw]

/-- The arena after adding an item with a scalar value at the end of collection `x`. -/
theorem addItem_data {d : Data} {m : Bool} {x : Nat} {c : Coll} {pre : Bytes} {p : Option Nat} (hs : d.slab.OK)
    (hx : d.slab.get x = some ⟨collRaw m c, pre, p⟩) (ipre : Bytes) (key : RStr) (s : Scalar) :
    ∃ k1 d1, d.insert (.null .empty) ipre (some x) = .ok (k1, d1) ∧ d.slab.get k1 = none ∧
      (∀ i, i ≠ k1 → d1.slab.get i = d.slab.get i) ∧
      ∀ vpre, ∃ k2 d2 d3 d4, d1.insert s.toRaw vpre (some k1) = .ok (k2, d2) ∧
        d2.replace k1 (itemRaw m key k2) = .ok d3 ∧ d3.slab.get x = some ⟨collRaw m c, pre, p⟩ ∧
        setItems m d3 x (c.items ++ [k1]) = .ok d4 ∧ d4.slab.OK ∧ d.slab.get k2 = none ∧ k1 ≠ k2 ∧
        ∀ i, d4.slab.get i =
          if i = x then some ⟨collRaw m { c with items := c.items ++ [k1] }, pre, p⟩
          else if i = k1 then some ⟨itemRaw m key k2, ipre, some x⟩
          else if i = k2 then some ⟨s.toRaw, vpre, some k1⟩
          else d.slab.get i := by
  obtain ⟨k1, s1, a1, a2, a3, _, a5⟩ := Slab.insert_ok hs (⟨.null .empty, ipre, some x⟩ : Entry)
  refine ⟨k1, ⟨s1⟩, ?_, a3, fun i hi => by simp [a5, hi], fun vpre => ?_⟩
  · simp [Data.insert, a1, bind, Except.bind, pure, Except.pure]
  obtain ⟨k2, s2, b1, b2, b3, _, b5⟩ := Slab.insert_ok a2 (⟨s.toRaw, vpre, some k1⟩ : Entry)
  have hxk1 : x ≠ k1 := by rintro rfl; rw [hx] at a3; cases a3
  have hk12 : k1 ≠ k2 := by
    rintro rfl
    rw [a5] at b3; simp at b3
  have hk2 : d.slab.get k2 = none := by rw [a5, if_neg hk12.symm] at b3; exact b3
  have hxk2 : x ≠ k2 := by rintro rfl; rw [hx] at hk2; cases hk2
  have g1 : s2.get k1 = some ⟨.null .empty, ipre, some x⟩ := by rw [b5, if_neg hk12, a5, if_pos rfl]
  have g3 := Slab.get_set g1 (b := (⟨itemRaw m key k2, ipre, some x⟩ : Entry))
  have gx : (s2.set k1 ⟨itemRaw m key k2, ipre, some x⟩).get x = some ⟨collRaw m c, pre, p⟩ := by
    rw [g3, if_neg hxk1, b5, if_neg hxk2, a5, if_neg hxk1, hx]
  refine ⟨k2, ⟨s2⟩, ⟨s2.set k1 ⟨itemRaw m key k2, ipre, some x⟩⟩, _, ?_, ?_, gx, setItems_of gx _, ?_, hk2, hk12, ?_⟩
  · simp [Data.insert, b1, bind, Except.bind, pure, Except.pure]
  · simp [Data.replace, g1, Data.dropKind, Data.fuel, Data.dropKindF]
  · exact (b2.set g1).set gx
  · intro i
    refine (Slab.get_set gx i).trans ?_
    rw [g3, b5, a5]
    by_cases h1 : i = x
    · simp [h1]
    · by_cases h2 : i = k1
      · simp [h1, h2]
      · simp [h1, h2]

/-- The updated tree is held after adding an item. -/
theorem Holds.addItem {doc : Document} {t : Tree Nat} {x : Nat} {m : Bool} {pre : Bytes} {ind : Nat} {k : CollKind}
    {items : Items Nat} (h : Holds doc t) (hf : t.find x = some (.node x pre m ind k items)) (ipre vpre : Bytes)
    (key : RStr) (s : Scalar) {k1 k2 : Nat} {d4 : Data} {p : Option Nat}
    (ha : At doc x (.node x pre m ind k items) p) (hok : d4.slab.OK) (hk1 : doc.data.slab.get k1 = none)
    (hk2 : doc.data.slab.get k2 = none) (hk : k1 ≠ k2)
    (hget : ∀ i, d4.slab.get i =
          if i = x then some ⟨collRaw m { indent := ind, kind := k, items := items.ids ++ [k1] }, pre, p⟩
          else if i = k1 then some ⟨itemRaw m key k2, ipre, some x⟩
          else if i = k2 then some ⟨s.toRaw, vpre, some k1⟩
          else doc.data.slab.get i) :
    Holds ⟨doc.suffix, doc.root, d4⟩
      (Tree.upd x (.node x pre m ind k (items.append (.cons k1 ipre key (.leaf k2 vpre s) .nil))) t) := by
  have hids : (Tree.node x pre m ind k (items.append (.cons k1 ipre key (.leaf k2 vpre s) .nil))).allIds =
      (Tree.node x pre m ind k items).allIds ++ [k1, k2] := by
    simp [Tree.allIds, Tree.entries, Items.entries_append, Items.entries]
  have hne : ∀ i, i ∈ (Tree.node x pre m ind k items).allIds → i ≠ k1 ∧ i ≠ k2 := by
    intro i hi
    rw [← Tree.allIds_eq p] at hi
    obtain ⟨⟨j, e⟩, hj, rfl⟩ := List.mem_map.1 hi
    have := ha.rep j e hj
    constructor
    · intro hc; simp only at hc; rw [hc, hk1] at this; cases this
    · intro hc; simp only at hc; rw [hc, hk2] at this; cases this
  have hx1 : x ∈ (Tree.node x pre m ind k items).allIds := by simp [Tree.allIds, Tree.entries]
  refine h.patch hf ha rfl hok ?_ ?_ ?_ ?_ ?_
  · intro i e hi
    simp only [Tree.entries, Items.entries_append, Items.entries, Items.ids_append, Items.ids, List.mem_cons,
      List.mem_append, List.nil_append, Tree.id_leaf, List.append_nil, List.not_mem_nil, or_false,
      Prod.mk.injEq] at hi
    rw [hget]
    rcases hi with ⟨rfl, rfl⟩ | hi | ⟨rfl, rfl⟩ | ⟨rfl, rfl⟩
    · simp
    · have hm : (i, e) ∈ (Tree.node x pre m ind k items).entries p := by simp [Tree.entries, hi]
      have hm' := Tree.mem_allIds_of hm
      have hix : i ≠ x := by
        rintro rfl
        have := ha.nodup
        rw [Tree.allIds_eq_cons, List.nodup_cons] at this
        exact this.1 (List.mem_map.2 ⟨(i, e), hi, rfl⟩)
      rw [if_neg hix, if_neg (hne i hm').1, if_neg (hne i hm').2]
      exact ha.rep i e hm
    · rw [if_neg (fun hc => (hne x hx1).1 hc.symm), if_pos rfl]
    · rw [if_neg (fun hc => (hne x hx1).2 hc.symm), if_neg (fun hc => hk hc.symm), if_pos rfl]
  · rw [hids, List.nodup_append]
    refine ⟨ha.nodup, by simp [hk], fun a ha' b hb hab => ?_⟩
    simp only [List.mem_cons, List.not_mem_nil, or_false] at hb
    rcases hb with rfl | rfl
    · exact (hne a ha').1 hab
    · exact (hne a ha').2 hab
  · intro i h1 h2
    rw [hids] at h2
    simp only [List.mem_append, List.mem_cons, List.not_mem_nil, or_false, not_or] at h2
    rw [hget, if_neg (fun hc => h1 (by rw [hc]; exact hx1)), if_neg h2.2.1, if_neg h2.2.2]
  · intro i h1 h2
    rw [hids] at h2
    exact absurd (by simp [h1]) h2
  · intro i h1 h2
    rw [hids] at h1
    simp only [List.mem_append, List.mem_cons, List.not_mem_nil, or_false] at h1
    rcases h1 with h1 | rfl | rfl
    · exact absurd h1 h2
    · exact hk1
    · exact hk2

theorem Items.indexOf_lt {α} {key : Bytes} : ∀ {is : Items α} {n : Nat}, is.indexOf key = some n → n < is.ids.length
  | .nil, _, h => by simp [Items.indexOf] at h
  | .cons i p k v rest, n, h => by
    simp only [Items.indexOf] at h
    split at h
    · cases h; simp [Items.ids]
    · cases hr : rest.indexOf key with
      | none => rw [hr] at h; cases h
      | some m =>
        rw [hr] at h
        have := Items.indexOf_lt hr
        cases h
        simp [Items.ids]; omega

theorem Items.eraseIdx_of_le {α} : ∀ (is : Items α) (n : Nat), is.ids.length ≤ n → is.eraseIdx n = is
  | .nil, _, _ => rfl
  | .cons _ _ _ _ _, 0, h => by simp [Items.ids] at h
  | .cons _ _ _ _ rest, n + 1, h => by
    simp only [Items.ids, List.length_cons] at h
    simp only [Items.eraseIdx]
    rw [Items.eraseIdx_of_le rest n (by omega)]

end Verif
