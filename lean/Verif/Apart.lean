import Verif.SnapLemmas
import Verif.Props.Commute
/-
Edits of values of which neither contains the other, addressed by their paths, in either order.
-/
namespace Verif

/-! Ids of what an edit makes. -/

theorem Items.allIds_append : ∀ {a b : Items Nat}, (a.append b).allIds = a.allIds ++ b.allIds
  | .nil, b => rfl
  | .cons i p key v rest, b => by rw [Items.append, Items.cons_ids, Items.cons_ids, Items.allIds_append, List.cons_append, List.append_assoc]

theorem Items.allIds_eraseIdx {z : Nat} : ∀ {a : Items Nat} {n : Nat}, z ∈ (a.eraseIdx n).allIds → z ∈ a.allIds
  | .nil, _, h => h
  | .cons i p key v rest, 0, h => by rw [Items.cons_ids]; simp only [Items.eraseIdx] at h; simp [h]
  | .cons i p key v rest, n + 1, h => by
    rw [Items.eraseIdx, Items.cons_ids] at h
    rw [Items.cons_ids]
    simp only [List.mem_cons, List.mem_append] at h ⊢
    rcases h with h | h | h
    · exact .inl h
    · exact .inr (.inl h)
    · exact .inr (.inr (Items.allIds_eraseIdx h))

theorem Tree.upd_ids {t u u' : Tree Nat} {x z : Nat} (hf : t.find x = some u) (hid : u'.id = x) (h : z ∈ (Tree.upd x u' t).allIds) : z ∈ t.allIds ∨ z ∈ u'.allIds := by
  obtain ⟨p, A, B, ra, rb, h0, h1⟩ := Tree.focus none hf
  have h2 := (h1 u' hid).2.1
  have h3 := (h1 u (Tree.find_id hf)).2.1
  rw [h0] at h3
  rw [Tree.allIds, h2, List.map_append, List.map_append, List.mem_append, List.mem_append, Tree.allIds_eq] at h
  rw [Tree.allIds, h3, List.map_append, List.map_append, List.mem_append, List.mem_append]
  rcases h with (h | h) | h
  · exact .inl (.inl (.inl h))
  · exact .inr h
  · exact .inl (.inr h)

/-- What is not in the value that was there is not in what was put in its place. -/
theorem Tree.ids_upd {t u u' : Tree Nat} {x z : Nat} (hf : t.find x = some u) (hid : u'.id = x) (h : z ∈ t.allIds) (hn : z ∉ u.allIds) : z ∈ (Tree.upd x u' t).allIds := by
  obtain ⟨p, A, B, ra, rb, h0, h1⟩ := Tree.focus none hf
  have h2 := (h1 u' hid).2.1
  have h3 := (h1 u (Tree.find_id hf)).2.1
  rw [h0] at h3
  rw [Tree.allIds, h2, List.map_append, List.map_append, List.mem_append, List.mem_append]
  rw [Tree.allIds, h3, List.map_append, List.map_append, List.mem_append, List.mem_append, Tree.allIds_eq] at h
  rcases h with (h | h) | h
  · exact .inl (.inl h)
  · exact absurd h hn
  · exact .inr h

theorem Op.tree_ids {i v : Nat} {mk : Nat × Bytes} {op : Op} {u : Tree Nat} (hn : u.allIds.Nodup) {z : Nat} (h : z ∈ (op.tree i v mk u).allIds) :
    z ∈ u.allIds ∨ z = i ∨ z = v := by
  have hself : u.id ∈ u.allIds := Tree.find_mem u.find_self
  have hleaf : ∀ {p s}, z ∈ (Tree.leaf u.id p s).allIds → z ∈ u.allIds := by
    intro p s h
    rw [Tree.allIds_leaf, List.mem_singleton] at h
    rw [h]; exact hself
  unfold Op.tree at h
  cases hs : op.scalar u with
  | some s => rw [hs] at h; exact .inl (hleaf h)
  | none =>
    rw [hs] at h
    have hempty : ∀ {p m ind k}, z ∈ (Tree.node u.id p m ind k .nil).allIds → z ∈ u.allIds := by
      intro p m ind k h
      rw [Tree.node_ids] at h
      have : z = u.id := by simpa [Items.allIds, Items.entries] using h
      rw [this]; exact hself
    cases u with
    | leaf x p s =>
      cases op <;> first
        | exact .inl h
        | exact .inl (hempty h)
    | node x p m n k items =>
      have happ : ∀ {q key q' s}, z ∈ (Tree.node x p m n k (items.append (.cons i q key (.leaf v q' s) .nil))).allIds →
          z ∈ (Tree.node x p m n k items).allIds ∨ z = i ∨ z = v := by
        intro q key q' s h
        rw [Tree.node_ids, Items.allIds_append, Items.cons_ids, Tree.allIds_leaf] at h
        rw [Tree.node_ids]
        simp only [Items.allIds, Items.entries, List.map_nil, List.append_nil, List.mem_cons, List.mem_append, List.not_mem_nil, or_false] at h ⊢
        rcases h with h | h | h | h
        · exact .inl (.inl h)
        · exact .inl (.inr h)
        · exact .inr (.inl h)
        · exact .inr (.inr h)
      have hera : ∀ {j}, z ∈ (Tree.node x p m n k (items.eraseIdx j)).allIds → z ∈ (Tree.node x p m n k items).allIds := by
        intro j h
        rw [Tree.node_ids] at h ⊢
        simp only [List.mem_cons] at h ⊢
        exact h.imp id Items.allIds_eraseIdx
      cases m
      · cases op <;> first
          | exact .inl h
          | exact .inl (hempty h)
          | exact happ h
          | exact .inl (hera h)
      · cases op
        case insert key val =>
          simp only at h
          cases hl : items.lookup key with
          | none => rw [hl] at h; exact happ h
          | some w =>
            simp only [hl] at h
            obtain ⟨n, key', hp, _⟩ := Items.lookup_mem hl
            have hfw := Tree.find_pair hn hp
            rcases Tree.upd_ids hfw (u' := .leaf w.id w.pre _) rfl h with h | h
            · exact .inl h
            · rw [Tree.allIds_leaf, List.mem_singleton] at h
              rw [h]; exact .inl (Tree.find_mem hfw)
        case remove key =>
          simp only at h
          cases hl : items.indexOf key with
          | none => rw [hl] at h; exact .inl h
          | some w => rw [hl] at h; exact .inl (hera h)
        all_goals first
          | exact .inl h
          | exact .inl (hempty h)

/-! Paths of which neither leads through the other. -/

/-- Neither is a part of the way to the other. -/
def ApartPaths (p q : List Nat) : Prop := ¬ p <+: q ∧ ¬ q <+: p

theorem ApartPaths.symm {p q : List Nat} (h : ApartPaths p q) : ApartPaths q p := ⟨h.2, h.1⟩

theorem ApartPaths.cons {n m : Nat} {p q : List Nat} (h : ApartPaths (n :: p) (m :: q)) : n ≠ m ∨ (n = m ∧ ApartPaths p q) := by
  by_cases hn : n = m
  · subst hn
    exact .inr ⟨rfl, fun hc => h.1 (List.cons_prefix_cons.2 ⟨rfl, hc⟩), fun hc => h.2 (List.cons_prefix_cons.2 ⟨rfl, hc⟩)⟩
  · exact .inl hn

theorem Items.pair_ids {z n : Nat} {key : RStr} {v : Tree Nat} : ∀ {is : Items Nat}, is.pairs[n]? = some (key, v) → z ∈ v.allIds → z ∈ is.allIds
  | .nil, h, _ => by simp [Items.pairs] at h
  | .cons i p k w rest, h, hz => by
    rw [Items.cons_ids]
    cases n with
    | zero => simp only [Items.pairs, List.getElem?_cons_zero, Option.some.injEq, Prod.mk.injEq] at h; simp [h.2, hz]
    | succ n => simp only [Items.pairs, List.getElem?_cons_succ] at h; simp [Items.pair_ids h hz]

theorem Items.pairs_disjoint {z n m : Nat} {key key' : RStr} {v w : Tree Nat} : ∀ {is : Items Nat}, is.allIds.Nodup → is.pairs[n]? = some (key, v) → is.pairs[m]? = some (key', w) →
    n ≠ m → z ∈ v.allIds → z ∉ w.allIds
  | .nil, _, h, _, _, _ => by simp [Items.pairs] at h
  | .cons i p k u rest, hn, h, h', hne, hz => by
    rw [Items.cons_ids, List.nodup_cons, List.nodup_append] at hn
    intro hz'
    cases n with
    | zero =>
      cases m with
      | zero => exact hne rfl
      | succ m =>
        simp only [Items.pairs, List.getElem?_cons_zero, Option.some.injEq, Prod.mk.injEq, List.getElem?_cons_succ] at h h'
        exact hn.2.2.2 z (by rw [h.2]; exact hz) z (Items.pair_ids h' hz') rfl
    | succ n =>
      cases m with
      | zero =>
        simp only [Items.pairs, List.getElem?_cons_zero, Option.some.injEq, Prod.mk.injEq, List.getElem?_cons_succ] at h h'
        exact hn.2.2.2 z (by rw [h'.2]; exact hz') z (Items.pair_ids h hz) rfl
      | succ m =>
        simp only [Items.pairs, List.getElem?_cons_succ] at h h'
        exact Items.pairs_disjoint hn.2.2.1 h h' (by omega) hz hz'

theorem Items.pair_nodup {n : Nat} {key : RStr} {v : Tree Nat} : ∀ {is : Items Nat}, is.allIds.Nodup → is.pairs[n]? = some (key, v) → v.allIds.Nodup
  | .nil, _, h => by simp [Items.pairs] at h
  | .cons i p k u rest, hn, h => by
    rw [Items.cons_ids, List.nodup_cons, List.nodup_append] at hn
    cases n with
    | zero => simp only [Items.pairs, List.getElem?_cons_zero, Option.some.injEq, Prod.mk.injEq] at h; rw [← h.2]; exact hn.2.1
    | succ n => simp only [Items.pairs, List.getElem?_cons_succ] at h; exact Items.pair_nodup hn.2.2.1 h

theorem Tree.walk_ids {z : Nat} : ∀ {p : List Nat} {t u : Tree Nat}, t.walk p = some u → z ∈ u.allIds → z ∈ t.allIds
  | [], t, u, h, hz => by cases h; exact hz
  | n :: p, t, u, h, hz => by
    cases t with
    | leaf i q s => simp [Tree.walk, Tree.childAt] at h
    | node i q m ind k items =>
      simp only [Tree.walk, Tree.childAt, Option.bind_eq_some_iff, Option.map_eq_some_iff] at h
      obtain ⟨v, ⟨⟨key, v'⟩, hp, rfl⟩, hw⟩ := h
      rw [Tree.node_ids]
      exact List.mem_cons_of_mem _ (Items.pair_ids hp (Tree.walk_ids hw hz))

theorem Tree.walk_apart {z : Nat} : ∀ {p q : List Nat} {t u w : Tree Nat}, t.allIds.Nodup → ApartPaths p q → t.walk p = some u → t.walk q = some w →
    z ∈ u.allIds → z ∉ w.allIds
  | [], q, _, _, _, _, ha, _, _, _ => absurd List.nil_prefix ha.1
  | _ :: _, [], _, _, _, _, ha, _, _, _ => absurd List.nil_prefix ha.2
  | n :: p, m :: q, t, u, w, hn, ha, hu, hw, hz => by
    cases t with
    | leaf i q s => simp [Tree.walk, Tree.childAt] at hu
    | node i _ mp ind k items =>
      simp only [Tree.walk, Tree.childAt, Option.bind_eq_some_iff, Option.map_eq_some_iff] at hu hw
      obtain ⟨_, ⟨⟨key, v⟩, hp, rfl⟩, hu⟩ := hu
      obtain ⟨_, ⟨⟨key', v'⟩, hp', rfl⟩, hw⟩ := hw
      rw [Tree.node_ids, List.nodup_cons] at hn
      rcases ha.cons with hne | ⟨rfl, ha'⟩
      · intro hz'
        exact Items.pairs_disjoint hn.2 hp hp' hne (Tree.walk_ids hu hz) (Tree.walk_ids hw hz')
      · rw [hp] at hp'
        cases hp'
        exact Tree.walk_apart (Items.pair_nodup hn.2 hp) ha' hu hw hz

theorem Items.pairs_upd {x n : Nat} {key : RStr} {v u : Tree Nat} : ∀ {is : Items Nat}, is.allIds.Nodup → is.pairs[n]? = some (key, v) → (v.find x).isSome →
    (Items.upd x u is).pairs = is.pairs.set n (key, Tree.upd x u v)
  | .nil, _, h, _ => by simp [Items.pairs] at h
  | .cons i p k w rest, hn, h, hx => by
    rw [Items.cons_ids, List.nodup_cons, List.nodup_append] at hn
    cases n with
    | zero =>
      simp only [Items.pairs, List.getElem?_cons_zero, Option.some.injEq, Prod.mk.injEq] at h
      obtain ⟨rfl, rfl⟩ := h
      simp only [Items.upd, hx, if_true, Items.pairs, List.set_cons_zero]
    | succ n =>
      simp only [Items.pairs, List.getElem?_cons_succ] at h
      have hw : ¬ (w.find x).isSome = true := by
        intro hc
        obtain ⟨a, ha⟩ := Option.isSome_iff_exists.1 hc
        obtain ⟨b, hb⟩ := Option.isSome_iff_exists.1 hx
        exact hn.2.2.2 x (Tree.find_mem ha) x (Items.pair_ids h (Tree.find_mem hb)) rfl
      simp only [Items.upd, if_neg hw, Items.pairs, List.set_cons_succ, Items.pairs_upd hn.2.2.1 h hx]

theorem Tree.walk_find : ∀ {p : List Nat} {t u : Tree Nat}, t.allIds.Nodup → t.walk p = some u → t.find u.id = some u
  | [], t, u, _, h => by cases h; exact t.find_self
  | n :: p, t, u, hn, h => by
    cases t with
    | leaf i q s => simp [Tree.walk, Tree.childAt] at h
    | node i q m ind k items =>
      simp only [Tree.walk, Tree.childAt, Option.bind_eq_some_iff, Option.map_eq_some_iff] at h
      obtain ⟨_, ⟨⟨key, v⟩, hp, rfl⟩, hw⟩ := h
      have hv : v.allIds.Nodup := by
        rw [Tree.node_ids, List.nodup_cons] at hn
        exact Items.pair_nodup hn.2 hp
      exact Tree.find_trans hn (Tree.find_pair hn hp) (Tree.walk_find hv hw)

/-- What is found at a path after another value was changed. -/
theorem Tree.walk_upd {u' : Tree Nat} : ∀ {p q : List Nat} {t u : Tree Nat}, t.allIds.Nodup → ApartPaths p q → t.walk p = some u →
    (Tree.upd u.id u' t).walk q = t.walk q
  | [], q, _, _, _, ha, _ => absurd List.nil_prefix ha.1
  | _ :: _, [], _, _, _, ha, _ => absurd List.nil_prefix ha.2
  | n :: p, m :: q, t, u, hn, ha, hu => by
    cases t with
    | leaf i q s => simp [Tree.walk, Tree.childAt] at hu
    | node i _ mp ind k items =>
      simp only [Tree.walk, Tree.childAt, Option.bind_eq_some_iff, Option.map_eq_some_iff] at hu
      obtain ⟨_, ⟨⟨key, v⟩, hp, rfl⟩, hu⟩ := hu
      rw [Tree.node_ids, List.nodup_cons] at hn
      have hv := Items.pair_nodup hn.2 hp
      have hf := Tree.walk_find hv hu
      have hi : i ≠ u.id := by
        rintro rfl
        exact hn.1 (Items.pair_ids hp (Tree.find_mem hf))
      rw [Tree.upd, if_neg hi]
      simp only [Tree.walk, Tree.childAt]
      rw [Items.pairs_upd hn.2 hp (by rw [hf]; rfl), List.getElem?_set]
      rcases ha.cons with hne | ⟨rfl, ha'⟩
      · rw [if_neg hne]
      · have hl : n < items.pairs.length := by
          obtain ⟨h, _⟩ := List.getElem?_eq_some_iff.1 hp
          exact h
        simp only [if_true, if_pos hl, hp, Option.map_some, Option.bind_some]
        exact Tree.walk_upd hv ha' hu

/-! The indentation of a new collection. -/

mutual
/-- The value of an item is with the item. -/
theorem Tree.item_value {j y : Nat} {m : Bool} {key : RStr} {pre : Bytes} {q : Option Nat} : ∀ {t : Tree Nat} {p : Option Nat}, (j, ⟨itemRaw m key y, pre, q⟩) ∈ t.entries p → y ∈ t.allIds
  | .leaf i p s, _, h => by
    simp only [Tree.entries, List.mem_singleton, Prod.mk.injEq, Entry.mk.injEq] at h
    have := itemRaw_isItem m key y
    rw [h.2.1] at this
    cases s <;> cases this
  | .node i p m' ind k items, _, h => by
    simp only [Tree.entries, List.mem_cons, Prod.mk.injEq, Entry.mk.injEq] at h
    rw [Tree.node_ids]
    rcases h with ⟨_, h, _⟩ | h
    · have := itemRaw_isItem m key y
      rw [h] at this
      cases m' <;> cases this
    · exact List.mem_cons_of_mem _ (Items.item_value h)
theorem Items.item_value {j y : Nat} {m : Bool} {key : RStr} {pre : Bytes} {q : Option Nat} : ∀ {is : Items Nat} {c : Nat} {m' : Bool},
    (j, ⟨itemRaw m key y, pre, q⟩) ∈ is.entries c m' → y ∈ is.allIds
  | .nil, _, _, h => by simp [Items.entries] at h
  | .cons i p k v rest, c, m', h => by
    simp only [Items.entries, List.mem_cons, Prod.mk.injEq, Entry.mk.injEq, List.mem_append] at h
    rw [Items.cons_ids]
    rcases h with ⟨_, h, _⟩ | h | h
    · have : y = v.id := by
        cases m <;> cases m' <;> simp [itemRaw] at h
        · exact h
        · exact h.2
      subst this
      simp [Tree.find_mem v.find_self]
    · simp [Tree.item_value h]
    · simp [Items.item_value h]
end

/-- An edit elsewhere does not change the indentation that a new collection gets. -/
theorem Holds.makeIndent_other {doc doc' : Document} {t u u' w : Tree Nat} {x y : Nat} (h : Holds doc t) (hx : t.find x = some u) (hid : u'.id = x)
    (h' : Holds doc' (Tree.upd x u' t)) (hy : t.find y = some w) (hxy : y ∉ u.allIds) :
    Verif.makeIndent doc'.data y 0 = Verif.makeIndent doc.data y 0 := by
  have hfr : ∀ {z : Nat} {e : Entry}, doc.data.slab.get z = some e → z ∉ u.allIds → doc'.data.slab.get z = some e := by
    intro z e he hz
    rw [(h.frame hx hid h' (h.full z e he) hz).1, he]
  rcases h.parent hy with ⟨_, hg⟩ | ⟨c, cpre, m, ind, k, items, i, ip, key, n, q, hcf, hids, hpr, hc, hi, hg⟩
  · have hg' := hfr hg hxy
    simp only [Verif.makeIndent, entry_of hg, entry_of hg', bind, Except.bind, pure, Except.pure]
  · have hg' := hfr hg hxy
    have hyw := Tree.find_id hy
    have hnode : (Tree.node c cpre m ind k items).find y = some w := by
      obtain ⟨_, ha⟩ := h.at hcf
      rw [← hyw]
      exact Tree.find_pair ha.nodup hpr
    have hc' := hfr hc fun hcu => by
      cases hfc : u.find c with
      | none => exact h.not_mem_of_not_below hx hcf hfc hcu
      | some z =>
        have := Tree.find_trans h.nodup hx hfc
        rw [hcf] at this
        cases this
        obtain ⟨_, ha⟩ := h.at hx
        exact hxy (Tree.find_mem (Tree.find_trans ha.nodup hfc hnode))
    have hi' := hfr hi fun hiu => by
      obtain ⟨p, ha⟩ := h.at hx
      rw [← u.allIds_eq p, List.mem_map] at hiu
      obtain ⟨⟨j, e⟩, hm, rfl⟩ := hiu
      have := ha.rep _ _ hm
      rw [hi] at this
      cases this
      exact hxy (Tree.item_value hm)
    simp only [Verif.makeIndent, entry_of hg, entry_of hi, entry_of hc, entry_of hg', entry_of hi', entry_of hc', bind, Except.bind, pure, Except.pure]

/-! Two edits in either order. -/

theorem Holds.not_fresh {doc : Document} {t : Tree Nat} (h : Holds doc t) {i v : Nat} (hf : FreshIds doc.data i v) {z : Nat} (hz : z ∈ t.allIds) : z ≠ i ∧ z ≠ v := by
  rw [Tree.allIds, List.mem_map] at hz
  obtain ⟨⟨z, e⟩, hz, rfl⟩ := hz
  have := h.rep _ _ hz
  constructor
  · rintro rfl; rw [hf.item] at this; cases this
  · rintro rfl; rw [hf.value] at this; cases this

/-- `i` and `v` become `i'` and `v'`. -/
def swapIds (i v i' v' : Nat) (z : Nat) : Nat := if z = i then i' else if z = v then v' else z

theorem swapIds_other {i v i' v' z : Nat} (h : z ≠ i ∧ z ≠ v) : swapIds i v i' v' z = z := by
  rw [swapIds, if_neg h.1, if_neg h.2]

/-- What an edit makes, with other new ids. -/
theorem Op.tree_swap {i v i' v' : Nat} {mk : Nat × Bytes} {op : Op} {u : Tree Nat} (hn : u.allIds.Nodup) (hne : i ≠ v) (hf : ∀ z ∈ u.allIds, z ≠ i ∧ z ≠ v) :
    (op.tree i v mk u).map (swapIds i v i' v') = op.tree i' v' mk u := by
  have hk : ∀ x ∈ u.allIds, KeepsApart (swapIds i v i' v') x u.allIds := by
    intro x hx y hy he
    rwa [swapIds_other (hf y hy), swapIds_other (hf x hx)] at he
  have hu : u.map (swapIds i v i' v') = u := by
    rw [Tree.map_congr (r' := fun i => i) fun y hy => swapIds_other (hf y hy), Tree.map_self]
  have := Op.tree_map (i := i) (v := v) (mk := mk) (op := op) hn hk
  rw [hu] at this
  rw [← this]
  simp only [swapIds, if_true, if_neg (Ne.symm hne)]

/-- Edits of values of which neither contains the other give the same in either order, up to the ids of new values. -/
theorem Holds.swap {doc : Document} {t u w : Tree Nat} {x y : Nat} (h : Holds doc t) (hx : t.find x = some u) (hy : t.find y = some w)
    (hdis : ∀ z ∈ u.allIds, z ∉ w.allIds) (op op' : Op) :
    ∃ a b a' b' u' w', doc.edit x op = .ok a ∧ a.edit y op' = .ok b ∧ doc.edit y op' = .ok a' ∧ a'.edit x op = .ok b' ∧ Alike b b' ∧
      u'.id = x ∧ w'.id = y ∧ Holds a (Tree.upd x u' t) ∧ Holds a' (Tree.upd y w' t) := by
  have hyw := Tree.find_id hy
  have hxu := Tree.find_id hx
  have hmx : x ∈ u.allIds := by rw [← hxu]; exact Tree.find_mem u.find_self
  have hmy : y ∈ w.allIds := by rw [← hyw]; exact Tree.find_mem w.find_self
  have hxw : x ∉ w.allIds := hdis x hmx
  have hyu : y ∉ u.allIds := fun hc => hdis y hc hmy
  have hun : u.allIds.Nodup := (h.at hx).choose_spec.nodup
  have hwn : w.allIds.Nodup := (h.at hy).choose_spec.nodup
  have nofind : ∀ {a : Tree Nat} {z : Nat}, z ∉ a.allIds → a.find z = none := by
    intro a z hz
    cases hc : a.find z with
    | none => rfl
    | some b => exact absurd (Tree.find_mem hc) hz
  obtain ⟨d1, i1, v1, mk1, e1, f1, m1, g1⟩ := h.editTree hx op
  obtain ⟨d2, i2, v2, mk2, e2, f2, m2, g2⟩ := h.editTree hy op'
  have hid1 : (op.tree i1 v1 mk1 u).id = x := Op.tree_id.trans hxu
  have hid2 : (op'.tree i2 v2 mk2 w).id = y := Op.tree_id.trans hyw
  have hyt := Tree.find_mem hy
  have hxt := Tree.find_mem hx
  have hut := Tree.find_ids hx
  have hwt := Tree.find_ids hy
  have hyu1 : y ∉ (op.tree i1 v1 mk1 u).allIds := fun hc => by
    rcases Op.tree_ids hun hc with hc | hc | hc
    · exact hyu hc
    · exact (h.not_fresh f1 hyt).1 hc
    · exact (h.not_fresh f1 hyt).2 hc
  have hxw2 : x ∉ (op'.tree i2 v2 mk2 w).allIds := fun hc => by
    rcases Op.tree_ids hwn hc with hc | hc | hc
    · exact hxw hc
    · exact (h.not_fresh f2 hxt).1 hc
    · exact (h.not_fresh f2 hxt).2 hc
  have hy1 := Tree.find_upd_other (nofind hyu) (nofind hxw) (nofind hyu1) hx hy
  have hx2 := Tree.find_upd_other (nofind hxw) (nofind hyu) (nofind hxw2) hy hx
  obtain ⟨d3, i3, v3, mk3, e3, f3, m3, g3⟩ := g1.editTree hy1 op'
  obtain ⟨d4, i4, v4, mk4, e4, f4, m4, g4⟩ := g2.editTree hx2 op
  rw [h.makeIndent_other hx hid1 g1 hy hyu, m2] at m3
  cases m3
  rw [h.makeIndent_other hy hid2 g2 hx hxw, m1] at m4
  cases m4
  refine ⟨⟨doc.suffix, doc.root, d1⟩, ⟨doc.suffix, doc.root, d3⟩, ⟨doc.suffix, doc.root, d2⟩, ⟨doc.suffix, doc.root, d4⟩, _, _, ?_, ?_, ?_, ?_, ⟨rfl, _,
    fun z => if z ∈ (op'.tree i3 v3 mk2 w).allIds then swapIds i3 v3 i2 v2 z else swapIds i1 v1 i4 v4 z, g3, ?_⟩, hid1, hid2, g1, g2⟩
  · simp only [Document.edit, e1, bind, Except.bind, pure, Except.pure]
  · simp only [Document.edit, e3, bind, Except.bind, pure, Except.pure]
  · simp only [Document.edit, e2, bind, Except.bind, pure, Except.pure]
  · simp only [Document.edit, e4, bind, Except.bind, pure, Except.pure]
  · generalize hr : (fun z => if z ∈ (op'.tree i3 v3 mk2 w).allIds then swapIds i3 v3 i2 v2 z else swapIds i1 v1 i4 v4 z) = r
    have hfw3 : ∀ z ∈ w.allIds, z ≠ i3 ∧ z ≠ v3 := fun z hz => g1.not_fresh f3 (Tree.find_ids hy1 z hz)
    have hft : ∀ z ∈ t.allIds, z ≠ i1 ∧ z ≠ v1 := fun z hz => h.not_fresh f1 hz
    have hrw : ∀ z ∈ (op'.tree i3 v3 mk2 w).allIds, r z = swapIds i3 v3 i2 v2 z := fun z hz => by rw [← hr]; simp only [if_pos hz]
    have hr1 : ∀ z ∈ (Tree.upd x (op.tree i1 v1 mk1 u) t).allIds, r z = swapIds i1 v1 i4 v4 z := by
      intro z hz
      by_cases hc : z ∈ (op'.tree i3 v3 mk2 w).allIds
      · have hz3 := g1.not_fresh f3 hz
        have hzw : z ∈ w.allIds := by
          rcases Op.tree_ids hwn hc with hc | hc | hc
          · exact hc
          · exact absurd hc hz3.1
          · exact absurd hc hz3.2
        rw [hrw z hc, swapIds_other hz3, swapIds_other (hft z (hwt z hzw))]
      · rw [← hr]; simp only [if_neg hc]
    have hw3 : (op'.tree i3 v3 mk2 w).map r = op'.tree i2 v2 mk2 w := by
      rw [Tree.map_congr hrw, Op.tree_swap hwn f3.ne hfw3]
    have hu3 : (Tree.upd x (op.tree i1 v1 mk1 u) t).map r = Tree.upd x (op.tree i4 v4 mk1 u) t := by
      have hk : KeepsApart (swapIds i1 v1 i4 v4) x t.allIds := fun z hz he => by
        rwa [swapIds_other (hft z hz), swapIds_other (hft x hxt)] at he
      rw [Tree.map_congr hr1, ← Tree.map_upd hk, swapIds_other (hft x hxt), Op.tree_swap hun f1.ne fun z hz => hft z (hut z hz),
        Tree.map_congr (r' := fun i => i) fun y hy => swapIds_other (hft y hy), Tree.map_self]
    have hk : KeepsApart r y (Tree.upd x (op.tree i1 v1 mk1 u) t).allIds := by
      intro z hz he
      rw [hr1 z hz, hr1 y (Tree.find_mem hy1), swapIds_other (hft y hyt)] at he
      have hy4 := g2.not_fresh f4 (Tree.find_mem (Tree.find_upd hy hid2))
      unfold swapIds at he
      split at he
      · exact absurd he.symm hy4.1
      · split at he
        · exact absurd he.symm hy4.2
        · exact he
    have hry : r y = y := by rw [hr1 y (Tree.find_mem hy1), swapIds_other (hft y hyt)]
    rw [← Tree.map_upd hk, hry, hw3, hu3]
    have hyu4 : y ∉ (op.tree i4 v4 mk1 u).allIds := fun hc => by
      have hy4 := g2.not_fresh f4 (Tree.find_mem (Tree.find_upd hy hid2))
      rcases Op.tree_ids hun hc with hc | hc | hc
      · exact hyu hc
      · exact hy4.1 hc
      · exact hy4.2 hc
    rw [Tree.upd_comm (nofind hyu) (nofind hxw) (nofind hyu4) (nofind hxw2) hx hy]
    exact g4

/-- The same, addressed by paths. -/
theorem Alike.swap {doc : Document} {t : Tree Nat} (h : Holds doc t) {p q : List Nat} (ha : ApartPaths p q) (op op' : Op) :
    ∃ d d', doc.play [(p, op), (q, op')] = .ok d ∧ doc.play [(q, op'), (p, op)] = .ok d' ∧ Alike d d' := by
  have hw : ∀ {doc : Document} {t : Tree Nat} (p : List Nat), Holds doc t → Verif.walk doc.data doc.root p = .ok ((t.walk p).map Tree.id) := by
    intro doc t p h
    rw [h.root]; exact (h.walk t.find_self).1
  have self : ∀ {doc : Document} {t : Tree Nat}, Holds doc t → Alike doc doc := fun {doc t} h => ⟨rfl, t, fun i => i, h, by rw [Tree.map_self]; exact h⟩
  cases hp : t.walk p with
  | none =>
    cases hq : t.walk q with
    | none => exact ⟨doc, doc, by simp [Document.play, hw _ h, hp, hq, bind, Except.bind, pure, Except.pure],
        by simp [Document.play, hw _ h, hp, hq, bind, Except.bind, pure, Except.pure], self h⟩
    | some w =>
      obtain ⟨a, w', e1, _, _, hid, h2⟩ := h.edit (Tree.walk_find h.nodup hq) op'
      have hp' : (Tree.upd w.id w' t).walk p = none := by rw [Tree.walk_upd h.nodup ha.symm hq]; exact hp
      exact ⟨a, a, by simp [Document.play, hw _ h, hp, hq, e1, bind, Except.bind, pure, Except.pure],
        by simp [Document.play, hw _ h, hw _ h2, hp', hq, e1, bind, Except.bind, pure, Except.pure], self h2⟩
  | some u =>
    cases hq : t.walk q with
    | none =>
      obtain ⟨a, u', e1, _, _, hid, h2⟩ := h.edit (Tree.walk_find h.nodup hp) op
      have hq' : (Tree.upd u.id u' t).walk q = none := by rw [Tree.walk_upd h.nodup ha hp]; exact hq
      exact ⟨a, a, by simp [Document.play, hw _ h, hw _ h2, hq', hp, e1, bind, Except.bind, pure, Except.pure],
        by simp [Document.play, hw _ h, hp, hq, e1, bind, Except.bind, pure, Except.pure], self h2⟩
    | some w =>
      obtain ⟨a, b, a', b', u', w', e1, e2, e3, e4, hal, hid, hid', h1, h2⟩ := h.swap (Tree.walk_find h.nodup hp) (Tree.walk_find h.nodup hq)
        (fun z => Tree.walk_apart h.nodup ha hp hq) op op'
      have hq' : (Tree.upd u.id u' t).walk q = some w := by rw [Tree.walk_upd h.nodup ha hp]; exact hq
      have hp' : (Tree.upd w.id w' t).walk p = some u := by rw [Tree.walk_upd h.nodup ha.symm hq]; exact hp
      exact ⟨b, b', by simp [Document.play, hw _ h, hw _ h1, hp, hq', e1, e2, bind, Except.bind, pure, Except.pure],
        by simp [Document.play, hw _ h, hw _ h2, hq, hp', e3, e4, bind, Except.bind, pure, Except.pure], hal⟩

end Verif
