import Verif.OpLemmas
/-
What an edit leaves alone, and the shape of live values.
-/
namespace Verif
set_option linter.unusedSimpArgs false

/-- Is this the entry of an item rather than of a value? -/
def Raw.isItem : Raw → Bool
  | .mappingItem _ _ => true
  | .sequenceItem _ => true
  | _ => false

theorem Tree.raw_isItem (t : Tree Nat) : t.raw.isItem = false := by
  cases t with
  | leaf i p s => cases s <;> rfl
  | node i p m ind k items => cases m <;> rfl

theorem itemRaw_isItem (m : Bool) (key : RStr) (v : Nat) : (itemRaw m key v).isItem = true := by cases m <;> rfl

mutual
theorem Tree.find_of_entry {y : Nat} {e : Entry} (hi : e.raw.isItem = false) : ∀ {t : Tree Nat} {p : Option Nat},
    (y, e) ∈ t.entries p → ∃ w, t.find y = some w
  | .leaf i p s, _, h => by
    simp only [Tree.entries, List.mem_singleton, Prod.mk.injEq] at h
    exact ⟨_, by rw [Tree.find, if_pos h.1.symm]⟩
  | .node i p m ind k items, _, h => by
    simp only [Tree.entries, List.mem_cons, Prod.mk.injEq] at h
    by_cases hy : i = y
    · exact ⟨_, by rw [Tree.find, if_pos hy]⟩
    · rcases h with h | h
      · exact absurd h.1.symm hy
      · rw [Tree.find, if_neg hy]; exact Items.find_of_entry hi h
theorem Items.find_of_entry {y : Nat} {e : Entry} (hi : e.raw.isItem = false) : ∀ {is : Items Nat} {c : Nat} {m : Bool},
    (y, e) ∈ is.entries c m → ∃ w, is.find y = some w
  | .nil, _, _, h => by simp [Items.entries] at h
  | .cons i p key v rest, c, m, h => by
    simp only [Items.entries, List.mem_cons, Prod.mk.injEq, List.mem_append] at h
    simp only [Items.find]
    cases hv : v.find y with
    | some w => exact ⟨w, by simp⟩
    | none =>
      simp only [Option.none_or]
      rcases h with ⟨_, rfl⟩ | h | h
      · rw [itemRaw_isItem] at hi; cases hi
      · obtain ⟨w, hw⟩ := Tree.find_of_entry hi h
        rw [hw] at hv; cases hv
      · exact Items.find_of_entry hi h
end

theorem Tree.find_subset {x : Nat} {u t : Tree Nat} (h : t.find x = some u) : ∀ z ∈ u.allIds, z ∈ t.allIds := by
  obtain ⟨p, A, B, ra, rb, h0, h1⟩ := Tree.focus none h
  have h2 := (h1 u (Tree.find_id h)).2.1
  rw [h0] at h2
  intro z hz
  rw [Tree.allIds, h2]
  rw [← u.allIds_eq p] at hz
  simp [hz]

theorem Items.find_subset {x : Nat} {u : Tree Nat} {is : Items Nat} (c : Nat) (m : Bool) (h : is.find x = some u) :
    ∀ z ∈ u.allIds, z ∈ (is.entries c m).map (·.1) := by
  obtain ⟨p, A, B, ra, rb, h0, h1⟩ := Items.focus c m .block h
  have h2 := (h1 u (Items.find_id h)).2.2.1
  rw [h0] at h2
  intro z hz
  rw [h2]
  rw [← u.allIds_eq p] at hz
  simp [hz]

mutual
theorem Tree.find_upd {x : Nat} {u u' : Tree Nat} : ∀ {t : Tree Nat}, t.find x = some u → u'.id = x →
    (Tree.upd x u' t).find x = some u'
  | .leaf i p s, h, hid => by
    simp only [Tree.find] at h
    split at h
    · next hi => rw [Tree.upd, if_pos hi, ← hid]; exact u'.find_self
    · cases h
  | .node i p m ind k items, h, hid => by
    simp only [Tree.find] at h
    split at h
    · next hi => rw [Tree.upd, if_pos hi, ← hid]; exact u'.find_self
    · next hi => rw [Tree.upd, if_neg hi, Tree.find, if_neg hi]; exact Items.find_upd h hid
theorem Items.find_upd {x : Nat} {u u' : Tree Nat} : ∀ {is : Items Nat}, is.find x = some u → u'.id = x →
    (Items.upd x u' is).find x = some u'
  | .nil, h, _ => by simp [Items.find] at h
  | .cons i p key v rest, h, hid => by
    simp only [Items.find, Option.or_eq_some_iff] at h
    rcases h with h | ⟨h0, h⟩
    · simp [Items.upd, h, Items.find, Tree.find_upd h hid]
    · simp [Items.upd, h0, Items.find, Items.find_upd h hid]
end

mutual
/-- Subtrees are nested or disjoint. -/
theorem Tree.laminar {x y : Nat} {u w : Tree Nat} : ∀ {t : Tree Nat}, t.allIds.Nodup → t.find x = some u →
    t.find y = some w → x ∉ w.allIds → y ∉ u.allIds → ∀ z ∈ w.allIds, z ∉ u.allIds
  | .leaf i p s, _, hx, hy, h1, h2 => by
    have e1 := Tree.find_mem hx; have e2 := Tree.find_mem hy
    simp [Tree.allIds, Tree.entries] at e1 e2
    subst e1 e2
    rw [hx] at hy; cases hy
    have := (Tree.find_self u)
    exact absurd (by have := Tree.find_id hx; rw [Tree.allIds_eq_cons, this]; simp) h1
  | .node i p m ind k items, hn, hx, hy, h1, h2 => by
    have e1 := Tree.find_mem hx; have e2 := Tree.find_mem hy
    simp only [Tree.find] at hx hy
    split at hx
    · cases hx; exact absurd e2 h2
    split at hy
    · cases hy; exact absurd e1 h1
    simp only [Tree.allIds_node, List.nodup_cons] at hn
    exact Items.laminar i m hn.2 hx hy h1 h2
theorem Items.laminar {x y : Nat} {u w : Tree Nat} (c : Nat) (m : Bool) : ∀ {is : Items Nat},
    ((is.entries c m).map (·.1)).Nodup → is.find x = some u → is.find y = some w → x ∉ w.allIds → y ∉ u.allIds →
    ∀ z ∈ w.allIds, z ∉ u.allIds
  | .nil, _, hx, _, _, _ => by simp [Items.find] at hx
  | .cons i p key v rest, hn, hx, hy, h1, h2 => by
    simp only [Items.entries, List.map_cons, List.map_append, List.nodup_cons, List.nodup_append, Tree.allIds_eq] at hn
    obtain ⟨_, hv, hr, hvr⟩ := hn
    simp only [Items.find, Option.or_eq_some_iff] at hx hy
    rcases hx with hx | ⟨_, hx⟩ <;> rcases hy with hy | ⟨_, hy⟩
    · exact Tree.laminar hv hx hy h1 h2
    · intro z hz hz'
      exact hvr z (Tree.find_subset hx z hz') z (Items.find_subset c m hy z hz) rfl
    · intro z hz hz'
      exact hvr z (Tree.find_subset hy z hz) z (Items.find_subset c m hx z hz') rfl
    · exact Items.laminar c m hr hx hy h1 h2
end

mutual
theorem Tree.find_size {x : Nat} {u : Tree Nat} : ∀ {t : Tree Nat}, t.find x = some u → u = t ∨ u.size < t.size
  | .leaf i p s, h => by
    simp only [Tree.find] at h
    split at h
    · cases h; exact .inl rfl
    · cases h
  | .node i p m ind k items, h => by
    simp only [Tree.find] at h
    split at h
    · cases h; exact .inl rfl
    · have := Items.find_size h; exact .inr (by simp only [Tree.size]; omega)
theorem Items.find_size {x : Nat} {u : Tree Nat} : ∀ {is : Items Nat}, is.find x = some u → u.size < is.size
  | .nil, h => by simp [Items.find] at h
  | .cons i p key v rest, h => by
    simp only [Items.find, Option.or_eq_some_iff] at h
    simp only [Items.size]
    rcases h with h | ⟨_, h⟩
    · rcases Tree.find_size h with rfl | h <;> omega
    · have := Items.find_size h; omega
end

/-- A live id outside a subtree is not among the subtree's entries at all. -/
theorem Holds.not_mem_of_not_below {doc : Document} {t u w : Tree Nat} {x y : Nat} (h : Holds doc t)
    (hf : t.find x = some u) (hy : t.find y = some w) (hb : u.find y = none) : y ∉ u.allIds := by
  obtain ⟨p, ha⟩ := h.at hf
  obtain ⟨q, hq⟩ := h.at hy
  intro hc
  rw [← u.allIds_eq p] at hc
  obtain ⟨⟨j, e⟩, he, rfl⟩ := List.mem_map.1 hc
  have h1 := ha.rep j e he
  simp only at hq hb
  rw [hq.get] at h1
  obtain ⟨z, hz⟩ := Tree.find_of_entry (y := j) (e := e) (by cases h1; exact w.raw_isItem) he
  rw [hb] at hz; cases hz

/-- Entries outside the edited subtree are the same, and live values stay live. -/
theorem Holds.frame {doc doc' : Document} {t u u' : Tree Nat} {x : Nat} (h : Holds doc t)
    (hf : t.find x = some u) (hid : u'.id = x) (h' : Holds doc' (Tree.upd x u' t)) {y : Nat}
    (hy : y ∈ t.allIds) (hn : y ∉ u.allIds) :
    doc'.data.slab.get y = doc.data.slab.get y ∧
      ((∃ w, t.find y = some w) → ∃ w, (Tree.upd x u' t).find y = some w) := by
  obtain ⟨p, A, B, ra, rb, h0, h1⟩ := Tree.focus none hf
  have he := (h1 u (Tree.find_id hf)).2.1
  have he' := (h1 u' hid).2.1
  rw [h0] at he
  rw [Tree.allIds] at hy
  obtain ⟨⟨j, e⟩, hj, rfl⟩ := List.mem_map.1 hy
  have hj' : (j, e) ∈ (Tree.upd x u' t).entries none := by
    rw [he] at hj; rw [he']
    simp only [List.mem_append] at hj ⊢
    rcases hj with (hj | hj) | hj
    · exact .inl (.inl hj)
    · exact absurd (Tree.mem_allIds_of hj) hn
    · exact .inr hj
  refine ⟨by rw [h.rep j e hj, h'.rep j e hj'], fun ⟨w, hw⟩ => ?_⟩
  obtain ⟨q, hq⟩ := h.at hw
  have := h.rep j e hj
  simp only at hq
  rw [hq.get] at this
  exact Tree.find_of_entry (by cases this; exact w.raw_isItem) hj'

/-- A subtree disjoint from the edited one is still represented. -/
theorem Holds.frameRep {doc doc' : Document} {t u u' w : Tree Nat} {x y : Nat} (h : Holds doc t)
    (hf : t.find x = some u) (hid : u'.id = x) (h' : Holds doc' (Tree.upd x u' t))
    (hy : t.find y = some w) (hxy : u.find y = none) (hyx : w.find x = none) :
    ∃ p, Rep doc.data p w ∧ Rep doc'.data p w ∧ w.allIds.Nodup := by
  obtain ⟨q, hq⟩ := h.at hy
  have hl := Tree.laminar h.nodup hf hy (h.not_mem_of_not_below hy hf hyx) (h.not_mem_of_not_below hf hy hxy)
  refine ⟨q, hq.rep, fun j e hj => ?_, hq.nodup⟩
  have hj' := Tree.mem_allIds_of hj
  rw [(h.frame hf hid h' (Tree.find_subset hy j hj') (hl j hj')).1]
  exact hq.rep j e hj

/-- An entry other than the changed one is unchanged or gone. -/
theorem Holds.keeps {doc doc' : Document} {t w w' : Tree Nat} {z : Nat} (h : Holds doc t)
    (hf : t.find z = some w) (hid : w'.id = z) (hk : Keeps w w') (h' : Holds doc' (Tree.upd z w' t)) {y : Nat} {e : Entry}
    (hy : y ≠ z) (hg : doc.data.slab.get y = some e) :
    doc'.data.slab.get y = some e ∨ doc'.data.slab.get y = none := by
  obtain ⟨p, A, B, ra, rb, h0, h1⟩ := Tree.focus none hf
  have he := (h1 w (Tree.find_id hf)).2.1
  have he' := (h1 w' hid).2.1
  rw [h0] at he
  have hy' := h.full y e hg
  rw [Tree.allIds] at hy'
  obtain ⟨⟨j, e'⟩, hj, rfl⟩ := List.mem_map.1 hy'
  have hee : e = e' := by
    have := h.rep j e' hj
    simp only at hg
    rw [hg] at this; exact Option.some.inj this
  subst hee
  have key : (j, e) ∈ (Tree.upd z w' t).entries none → doc'.data.slab.get j = some e := fun hm => h'.rep j e hm
  have hjt := hj
  rw [he] at hj
  simp only [List.mem_append] at hj
  rcases hj with (hj | hj) | hj
  · exact .inl (key (by rw [he']; simp [hj]))
  · rw [Tree.entries_eq] at hj
    simp only [List.mem_cons, Prod.mk.injEq] at hj
    rcases hj with hj | hj
    · exact absurd (hj.1.trans (Tree.find_id hf)) hy
    · rcases hk j e hj with hk | hk
      · exact .inl (key (by rw [he', Tree.entries_eq]; simp [hk]))
      · right
        cases hg' : doc'.data.slab.get j with
        | none => rfl
        | some e' =>
          exfalso
          have hm := h'.full j e' hg'
          have hn := h.nodup
          rw [Tree.allIds, he] at hn
          rw [Tree.allIds, he'] at hm
          simp only [List.map_append, List.nodup_append, List.mem_append, Tree.allIds_eq] at hn hm
          have hjw : j ∈ w.allIds := by
            rw [Tree.allIds_eq_cons]; exact List.mem_cons_of_mem _ (List.mem_map.2 ⟨_, hj, rfl⟩)
          rcases hm with (hm | hm) | hm
          · exact hn.1.2.2 j hm j hjw rfl
          · exact hk hm
          · exact hn.2.2 j (.inr hjw) j hm rfl
  · exact .inl (key (by rw [he']; simp [hj]))

/-- The changed value is still there, in the same place. -/
theorem Holds.keeps_self {doc doc' : Document} {t w w' : Tree Nat} {z : Nat} (h : Holds doc t)
    (hf : t.find z = some w) (hid : w'.id = z) (h' : Holds doc' (Tree.upd z w' t)) :
    (Tree.upd z w' t).find z = some w' ∧
      ∃ p, doc.data.slab.get z = some ⟨w.raw, w.pre, p⟩ ∧ doc'.data.slab.get z = some ⟨w'.raw, w'.pre, p⟩ := by
  obtain ⟨p, A, B, ra, rb, h0, h1⟩ := Tree.focus none hf
  have he := (h1 w (Tree.find_id hf)).2.1
  have he' := (h1 w' hid).2.1
  rw [h0] at he
  have hg := h.rep z ⟨w.raw, w.pre, p⟩ (by rw [he, Tree.entries_eq, Tree.find_id hf]; simp)
  have hg' := h'.rep z ⟨w'.raw, w'.pre, p⟩ (by rw [he', Tree.entries_eq, hid]; simp)
  exact ⟨Tree.find_upd hf hid, p, hg, hg'⟩

/-! ### Text -/

theorem Rep.text {d : Data} {par} {t : Tree Nat} (h : Rep d par t) (hn : t.allIds.Nodup) :
    valueText d t.id = .ok t.render := by
  have hs := h.size_le hn
  have hd := t.depth_le
  have hw := writeRawF_tree h (f := d.fuel) (by unfold Data.fuel; omega)
  simp [valueText, raw_of h.head, writeRaw, hw, bind, Except.bind]

theorem Rep.shown {d : Data} {par} {t : Tree Nat} (h : Rep d par t) (hn : t.allIds.Nodup) :
    valueDisplay d t.id = .ok t.disp := by
  have hs := h.size_le hn
  have hd := t.depth_le
  have hw := dispRawF_tree none h (f := d.fuel) (by unfold Data.fuel; omega)
  simp [valueDisplay, raw_of h.head, hw, bind, Except.bind, dispPre]

theorem At.text {doc : Document} {x : Nat} {u : Tree Nat} {p} (h : At doc x u p) : valueText doc.data x = .ok u.render := by
  have := h.rep.text h.nodup; rwa [h.id] at this

/-- The text of a document around a value. -/
theorem Holds.context {doc : Document} {t u : Tree Nat} {x : Nat} (h : Holds doc t) (hf : t.find x = some u) :
    ∃ a b, doc.write = .ok (a ++ u.text ++ b) ∧ ∀ doc' u', u'.id = x → doc'.suffix = doc.suffix →
      Holds doc' (Tree.upd x u' t) → doc'.write = .ok (a ++ u'.text ++ b) := by
  obtain ⟨p, A, B, ra, rb, h0, h1⟩ := Tree.focus none hf
  refine ⟨ra, rb ++ doc.suffix, ?_, fun doc' u' hid hs h' => ?_⟩
  · have := (h1 u (Tree.find_id hf)).2.2
    rw [h0] at this
    rw [h.write, this]; simp
  · rw [h'.write, (h1 u' hid).2.2, hs]; simp

end Verif
