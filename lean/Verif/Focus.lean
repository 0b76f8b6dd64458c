import Verif.Rep
import Verif.Refine
/-
Documents that hold a tree; contexts of a subtree; dropping a subtree.
-/
namespace Verif
set_option linter.unusedSimpArgs false

/-- The document's arena holds exactly the tree `t`, rooted at the root id, and a sound free
list. -/
structure Holds (doc : Document) (t : Tree Nat) : Prop where
  root : doc.root = t.id
  rep : Rep doc.data none t
  nodup : t.allIds.Nodup
  full : ∀ i e, doc.data.slab.get i = some e → i ∈ t.allIds
  slab : doc.data.slab.OK

theorem length_le_of_nodup_lt : ∀ (n : Nat) (l : List Nat), l.Nodup → (∀ x ∈ l, x < n) → l.length ≤ n
  | 0, l, _, h => by
    cases l with
    | nil => simp
    | cons a l => exact absurd (h a (by simp)) (by omega)
  | n + 1, l, hn, h => by
    have := length_le_of_nodup_lt n (l.erase n) (hn.erase n) (fun x hx => by
      have h1 := (hn.mem_erase_iff).1 hx
      have h2 := h x h1.2
      omega)
    rw [List.length_erase] at this
    split at this <;> omega

mutual
theorem Tree.depth_le {α} : ∀ t : Tree α, t.depth ≤ 2 * t.size
  | .leaf _ _ _ => by simp [Tree.depth, Tree.size]
  | .node _ _ _ _ _ items => by have := Items.depth_le items; simp only [Tree.depth, Tree.size]; omega
theorem Items.depth_le {α} : ∀ is : Items α, is.depth ≤ 2 * is.size
  | .nil => by simp [Items.depth]
  | .cons _ _ _ v rest => by
    have := Tree.depth_le v; have := Items.depth_le rest; simp only [Items.depth, Items.size]; omega
end

mutual
theorem Tree.entries_fst (p q : Option Nat) : ∀ t : Tree Nat, (t.entries p).map (·.1) = (t.entries q).map (·.1)
  | .leaf _ _ _ => rfl
  | .node _ _ _ _ _ items => by simp [Tree.entries]
end

theorem Tree.allIds_eq (p : Option Nat) (t : Tree Nat) : (t.entries p).map (·.1) = t.allIds := t.entries_fst p none

theorem Tree.mem_allIds_of {p : Option Nat} {t : Tree Nat} {i : Nat} {e : Entry} (h : (i, e) ∈ t.entries p) :
    i ∈ t.allIds := by
  rw [← t.allIds_eq p]; exact List.mem_map.2 ⟨_, h, rfl⟩

theorem Rep.size_le {d : Data} {par : Option Nat} {t : Tree Nat} (h : Rep d par t) (hn : t.allIds.Nodup) :
    t.size ≤ d.slab.slots.length := by
  have : t.allIds.length = t.size := by simp [Tree.allIds, Tree.entries_length]
  rw [← this]
  apply length_le_of_nodup_lt _ _ hn
  intro x hx
  rw [← t.allIds_eq par] at hx
  obtain ⟨⟨i, e⟩, he, rfl⟩ := List.mem_map.1 hx
  exact Slab.get_lt (h i e he)

/-- The text of a document is prefix, text and suffix of its tree. -/
theorem Holds.write {doc : Document} {t : Tree Nat} (h : Holds doc t) : doc.write = .ok (t.text ++ doc.suffix) := by
  have hh := h.rep.head
  have hs := h.rep.size_le h.nodup
  have hd := t.depth_le
  have hw := writeRawF_tree h.rep (f := doc.data.fuel) (by unfold Data.fuel; omega)
  simp [Document.write, h.root, pre_of hh, raw_of hh, writeRaw, hw, bind, Except.bind, pure, Except.pure, Tree.text]

theorem Holds.display {doc : Document} {t : Tree Nat} (h : Holds doc t) :
    doc.display = .ok (lossy t.pre ++ t.disp ++ lossy doc.suffix) := by
  have hh := h.rep.head
  have hs := h.rep.size_le h.nodup
  have hd := t.depth_le
  have hw := dispRawF_tree none h.rep (f := doc.data.fuel) (by unfold Data.fuel; omega)
  simp [Document.display, h.root, pre_of hh, raw_of hh, hw, bind, Except.bind, pure, Except.pure, dispPre]

/-! ### Parsed documents -/

mutual
theorem Tree.label_ids (k : Nat) (p : Option Nat) : ∀ t : Tree Unit,
    ((t.label k).entries p).map (·.1) = List.range' k t.size
  | .leaf _ _ _ => by simp [Tree.label, Tree.entries, Tree.size]
  | .node _ _ m _ _ items => by
    simp [Tree.label, Tree.entries, Tree.size, Items.label_ids (k + 1) k m items, List.range'_succ]
theorem Items.label_ids (k c : Nat) (m : Bool) : ∀ is : Items Unit,
    ((is.label k).entries c m).map (·.1) = List.range' k is.size
  | .nil => by simp [Items.label, Items.entries, Items.size]
  | .cons _ _ _ v rest => by
    simp [Items.label, Items.entries, Items.size, Tree.label_ids (k + 1) (some k) v,
      Items.label_ids (k + 1 + v.size) c m rest]
    rw [show 1 + v.size + rest.size = (v.size + rest.size) + 1 by omega, List.range'_succ,
      ← List.range'_append_1]
end

theorem arenaOf_get (L : List Entry) (i : Nat) : (arenaOf L).slab.get i = L[i]? := by
  simp only [arenaOf, Slab.get, List.getElem?_map]
  cases L[i]? <;> rfl

theorem docOf_holds (t : Tree Unit) (suffix : Bytes) : Holds (docOf t suffix) (t.label 0) := by
  have hids : ((t.label 0).entries none).map (·.1) = List.range' 0 t.size := Tree.label_ids 0 none t
  refine ⟨by simp [docOf, label_id], ?_, ?_, ?_, ?_⟩
  · intro i e h
    obtain ⟨j, hj, hje⟩ := List.getElem_of_mem h
    have h1 : (((t.label 0).entries none).map (·.1))[j]? = some i := by simp [hj, hje]
    rw [hids] at h1
    have hij : j = i := by
      have := List.getElem?_eq_some_iff.1 h1
      obtain ⟨_, h2⟩ := this
      simpa using h2
    subst hij
    simp [docOf, arenaOf_get, hj, hje]
  · simp [Tree.allIds, hids, List.nodup_range']
  · intro i e h
    simp only [docOf, arenaOf_get, List.getElem?_map] at h
    simp only [Tree.allIds, hids, List.mem_range'_1]
    have hlt : i < ((t.label 0).entries none).length := by
      refine Nat.lt_of_not_le fun hc => ?_
      rw [List.getElem?_eq_none (by omega)] at h
      simp at h
    simp [Tree.entries_length, Tree.size_label] at hlt
    omega
  · exact ⟨[], by simp, by simp [docOf, arenaOf, Slab.Chain]⟩

/-! ### Contexts -/

/-- Entries strictly below a value. -/
def Tree.kids : Tree Nat → List (Nat × Entry)
  | .leaf _ _ _ => []
  | .node i _ m _ _ items => items.entries i m

theorem Tree.entries_eq (p : Option Nat) (t : Tree Nat) :
    t.entries p = (t.id, ⟨t.raw, t.pre, p⟩) :: t.kids := by
  cases t <;> rfl

mutual
theorem Tree.find_id {x : Nat} {u : Tree Nat} : ∀ {t : Tree Nat}, t.find x = some u → u.id = x
  | .leaf i p s, h => by
    simp only [Tree.find] at h
    split at h
    · next hi => cases h; exact hi
    · cases h
  | .node i p m ind k items, h => by
    simp only [Tree.find] at h
    split at h
    · next hi => cases h; exact hi
    · exact Items.find_id h
theorem Items.find_id {x : Nat} {u : Tree Nat} : ∀ {is : Items Nat}, is.find x = some u → u.id = x
  | .nil, h => by simp [Items.find] at h
  | .cons i p key v rest, h => by
    simp only [Items.find, Option.or_eq_some_iff] at h
    rcases h with h | ⟨_, h⟩
    · exact Tree.find_id h
    · exact Items.find_id h
end

mutual
/-- Replacing the subtree `u` at `x` changes entries and text only there. -/
theorem Tree.focus {x : Nat} {u : Tree Nat} : ∀ {t : Tree Nat} (par : Option Nat), t.find x = some u →
    ∃ p A B ra rb, Tree.upd x u t = t ∧ ∀ u' : Tree Nat, u'.id = x →
      (Tree.upd x u' t).id = t.id ∧ (Tree.upd x u' t).entries par = A ++ u'.entries p ++ B ∧
      (Tree.upd x u' t).text = ra ++ u'.text ++ rb
  | .leaf i pr s, par, h => by
    simp only [Tree.find] at h
    split at h
    · next hi =>
      cases h
      exact ⟨par, [], [], [], [], by simp [Tree.upd], fun u' hu => by simp [Tree.upd, hi, hu]⟩
    · cases h
  | .node i pr m ind k items, par, h => by
    simp only [Tree.find] at h
    split at h
    · next hi =>
      cases h
      exact ⟨par, [], [], [], [], by simp [Tree.upd, hi], fun u' hu => by simp [Tree.upd, hi, hu]⟩
    · next hi =>
      obtain ⟨p, A, B, ra, rb, h0, h1⟩ := Items.focus i m k h
      refine ⟨p, (i, ⟨collRaw m ⟨ind, k, items.ids⟩, pr, par⟩) :: A, B,
        pr ++ openOf k (if m then LCB else LBR) ++ ra, rb ++ closeOf k (if m then RCB else RBR), ?_, fun u' hu => ?_⟩
      · simp [Tree.upd, hi, h0]
      · obtain ⟨h2, _, h3, h4⟩ := h1 u' hu
        simp [Tree.upd, hi, Tree.entries, h2, h3, Tree.text, Tree.render]
        rw [h4]; simp [Tree.text]
theorem Items.focus {x : Nat} {u : Tree Nat} : ∀ {is : Items Nat} (c : Nat) (m : Bool) (k : CollKind), is.find x = some u →
    ∃ p A B ra rb, Items.upd x u is = is ∧ ∀ u' : Tree Nat, u'.id = x →
      (Items.upd x u' is).ids = is.ids ∧ (Items.upd x u' is).isNil = is.isNil ∧
      (Items.upd x u' is).entries c m = A ++ u'.entries p ++ B ∧
      (Items.upd x u' is).render m k = ra ++ u'.text ++ rb
  | .nil, _, _, _, h => by simp [Items.find] at h
  | .cons i pr key v rest, c, m, k, h => by
    simp only [Items.find, Option.or_eq_some_iff] at h
    rcases h with h | ⟨hn, h⟩
    · obtain ⟨p, A, B, ra, rb, h0, h1⟩ := Tree.focus (some i) h
      refine ⟨p, (i, ⟨itemRaw m key v.id, pr, some c⟩) :: A, B ++ rest.entries c m,
        (if m then pr ++ key.write ++ [COLON] else lossy pr ++ (if k = .block then [DASH] else [])) ++ ra,
        rb ++ sepOf k rest.isNil ++ rest.render m k, by simp [Items.upd, h, h0], fun u' hu => ?_⟩
      obtain ⟨h2, h3, h4⟩ := h1 u' hu
      refine ⟨by simp [Items.upd, h, Items.ids], by simp [Items.upd, h, Items.isNil],
        by simp [Items.upd, h, Items.entries, h2, h3], ?_⟩
      have : (Tree.upd x u' v).pre ++ ((Tree.upd x u' v).render) = ra ++ u'.text ++ rb := h4
      simp only [Items.upd, h, Option.isSome_some, if_true, Items.render, List.append_assoc]
      rw [← List.append_assoc (Tree.upd x u' v).pre, this]
      simp
    · obtain ⟨p, A, B, ra, rb, h0, h1⟩ := Items.focus c m k h
      refine ⟨p, (i, ⟨itemRaw m key v.id, pr, some c⟩) :: (v.entries (some i) ++ A), B,
        (if m then pr ++ key.write ++ [COLON] else lossy pr ++ (if k = .block then [DASH] else [])) ++
          v.pre ++ v.render ++ sepOf k rest.isNil ++ ra, rb, by simp [Items.upd, hn, h0], fun u' hu => ?_⟩
      obtain ⟨h2, h3, h4, h5⟩ := h1 u' hu
      exact ⟨by simp [Items.upd, hn, Items.ids, h2], by simp [Items.upd, hn, Items.isNil],
        by simp [Items.upd, hn, Items.entries, h4], by simp [Items.upd, hn, Items.render, h3, h5]⟩
end

/-! ### Dropping -/

/-- `d'` is `d` without the entries `ids`. -/
structure Dropped (d d' : Data) (ids : List Nat) : Prop where
  ok : d'.slab.OK
  len : d'.slab.slots.length = d.slab.slots.length
  get : ∀ i, d'.slab.get i = if i ∈ ids then none else d.slab.get i

theorem Dropped.nil {d : Data} (h : d.slab.OK) : Dropped d d [] := ⟨h, rfl, by simp⟩

theorem Dropped.trans {d d' d'' : Data} {l l' : List Nat} (h : Dropped d d' l) (h' : Dropped d' d'' l') :
    Dropped d d'' (l ++ l') := by
  refine ⟨h'.ok, h'.len.trans h.len, fun i => ?_⟩
  rw [h'.get, h.get]
  by_cases h1 : i ∈ l <;> by_cases h2 : i ∈ l' <;> simp [h1, h2]

theorem tryRemove_dropped {d : Data} {k : Nat} {e : Entry} (hs : d.slab.OK) (h : d.slab.get k = some e) :
    ∃ s, d.slab.tryRemove k = some (e, s) ∧ Dropped d ⟨s⟩ [k] := by
  obtain ⟨s, h1, h2, h3, h4⟩ := Slab.tryRemove_ok hs h
  exact ⟨s, h1, h2, h3, by simpa using h4⟩

mutual
theorem dropKindF_tree : ∀ {t : Tree Nat} {d : Data} {f : Nat}, d.slab.OK →
    (∀ i e, (i, e) ∈ t.kids → d.slab.get i = some e) → (t.kids.map (·.1)).Nodup → t.depth ≤ f →
    ∃ d', Data.dropKindF f d t.raw = .ok d' ∧ Dropped d d' (t.kids.map (·.1))
  | .leaf i p s, d, f, hs, _, _, hf => by
    obtain ⟨f, rfl⟩ : ∃ g, f = g + 1 := ⟨f - 1, by simp [Tree.depth] at hf; omega⟩
    refine ⟨d, ?_, Dropped.nil hs⟩
    cases s <;> rfl
  | .node i p m ind k items, d, f, hs, hr, hn, hf => by
    obtain ⟨f, rfl⟩ : ∃ g, f = g + 1 := ⟨f - 1, by simp [Tree.depth] at hf; omega⟩
    simp only [Tree.depth] at hf
    obtain ⟨d', h1, h2⟩ := dropItems (m := m) hs (show RepItems d i m items from hr) hn (f := f) (by omega)
    exact ⟨d', by cases m <;> simpa [Tree.raw, collRaw, Data.dropKindF] using h1, h2⟩
theorem dropItems : ∀ {is : Items Nat} {c : Nat} {m : Bool} {d : Data} {f : Nat}, d.slab.OK →
    RepItems d c m is → ((is.entries c m).map (·.1)).Nodup → is.depth ≤ f →
    ∃ d', is.ids.foldlM (Data.dropWith (Data.dropKindF f)) d = .ok d' ∧ Dropped d d' ((is.entries c m).map (·.1))
  | .nil, _, _, d, _, hs, _, _, _ => ⟨d, rfl, Dropped.nil hs⟩
  | .cons i p key v rest, c, m, d, f, hs, hr, hn, hf => by
    obtain ⟨f, rfl⟩ : ∃ g, f = g + 1 := ⟨f - 1, by simp [Items.depth] at hf; omega⟩
    simp only [Items.depth] at hf
    simp only [Items.entries, Tree.entries_eq, List.map_cons, List.map_append, List.cons_append, List.nodup_cons,
      List.mem_cons, List.mem_append, List.nodup_append, not_or] at hn
    obtain ⟨⟨hi1, hi2, hi3⟩, ⟨hv1, hv2⟩, hb, hrn, hbr⟩ := hn
    obtain ⟨h1, h2, h3⟩ := hr.cons
    -- the item
    obtain ⟨s1, e1, D1⟩ := tryRemove_dropped hs h1
    -- its value
    have hv : (⟨s1⟩ : Data).slab.get v.id = some ⟨v.raw, v.pre, some i⟩ := by
      rw [D1.get]; simp only [List.mem_singleton]; rw [if_neg (fun h => hi1 h.symm)]; exact h2.head
    obtain ⟨s2, e2, D2⟩ := tryRemove_dropped D1.ok hv
    have D12 := D1.trans D2
    obtain ⟨d3, e3, D3⟩ := dropKindF_tree (t := v) (d := ⟨s2⟩) (f := f) D2.ok (fun j e hj => by
      rw [D12.get]
      have hjm : j ∈ v.kids.map (·.1) := List.mem_map.2 ⟨_, hj, rfl⟩
      rw [if_neg]
      · exact h2 j e (by rw [Tree.entries_eq]; exact List.mem_cons_of_mem _ hj)
      · simp only [List.mem_append, List.mem_singleton, not_or]
        exact ⟨fun h => hi2 (h ▸ hjm), fun h => hv1 (h ▸ hjm)⟩) hb (by omega)
    have D123 := D12.trans D3
    obtain ⟨d4, e4, D4⟩ := dropItems (m := m) (is := rest) (c := c) (d := d3) (f := f + 1) D3.ok (fun j e hj => by
      rw [D123.get]
      have hjm : j ∈ (rest.entries c m).map (·.1) := List.mem_map.2 ⟨_, hj, rfl⟩
      rw [if_neg]
      · exact h3 j e hj
      · simp only [List.mem_append, List.mem_singleton, not_or]
        exact ⟨⟨fun h => hi3 (h ▸ hjm), fun h => hv2 (h ▸ hjm)⟩, fun h => hbr j h j hjm rfl⟩) hrn (by omega)
    refine ⟨d4, ?_, ?_⟩
    · have : Data.dropWith (Data.dropKindF (f + 1)) d i = .ok d3 := by
        cases m <;> simp [Data.dropWith, e1, itemRaw, Data.dropKindF, Data.removeWith, e2, e3]
      simp [Items.ids, this, bind, Except.bind, e4]
    · have := D123.trans D4
      simpa [Items.entries, Tree.entries_eq] using this
end

end Verif
