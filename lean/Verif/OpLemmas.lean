import Verif.HistLemmas
/-
Every edit of the API on a document that holds a tree.
-/
namespace Verif
set_option linter.unusedSimpArgs false

/-! ### Nested replacement -/

mutual
theorem Tree.upd_upd {x y : Nat} {u w w' : Tree Nat} : ∀ {t : Tree Nat}, t.allIds.Nodup → t.find x = some u →
    u.find y = some w → Tree.upd y w' t = Tree.upd x (Tree.upd y w' u) t
  | .leaf i p s, _, h, _ => by
    simp only [Tree.find] at h
    split at h
    · next hi => cases h; simp [Tree.upd, hi]
    · cases h
  | .node i p m ind k items, hn, h, hw => by
    simp only [Tree.find] at h
    split at h
    · next hi => cases h; conv => rhs; rw [Tree.upd, if_pos hi]
    · next hi =>
      simp only [Tree.allIds_node, List.nodup_cons] at hn
      have hy := Items.find_mem i m (Items.find_trans i m hn.2 h hw)
      have hiy : i ≠ y := fun hc => hn.1 (hc ▸ hy)
      simp only [Tree.upd, if_neg hi, if_neg hiy]
      rw [Items.upd_upd i m hn.2 h hw]
theorem Items.upd_upd {x y : Nat} {u w w' : Tree Nat} (c : Nat) (m : Bool) : ∀ {is : Items Nat},
    ((is.entries c m).map (·.1)).Nodup → is.find x = some u → u.find y = some w →
    Items.upd y w' is = Items.upd x (Tree.upd y w' u) is
  | .nil, _, h, _ => by simp [Items.find] at h
  | .cons i p key v rest, hn, h, hw => by
    simp only [Items.entries, List.map_cons, List.map_append, List.nodup_cons, List.nodup_append, Tree.allIds_eq] at hn
    obtain ⟨_, hv, hr, hvr⟩ := hn
    simp only [Items.find, Option.or_eq_some_iff] at h
    rcases h with h | ⟨h0, h⟩
    · have hy := Tree.find_trans hv h hw
      simp [Items.upd, h, hy, Tree.upd_upd hv h hw]
    · have hy := Items.find_trans c m hr h hw
      have hvy : v.find y = none := by
        cases hc : v.find y with
        | none => rfl
        | some z => exact absurd rfl (hvr y (Tree.find_mem hc) y (Items.find_mem c m hy))
      simp [Items.upd, h0, hvy, Items.upd_upd c m hr h hw]
end

theorem Tree.upd_id {x : Nat} {u' : Tree Nat} {t : Tree Nat} (h : u'.id = x) : (Tree.upd x u' t).id = t.id := by
  cases t with
  | leaf i p s => simp only [Tree.upd]; split <;> simp_all
  | node i p m ind k items => simp only [Tree.upd]; split <;> simp_all

/-! ### The scalars the setters store -/

def nullScalar (k : NullKind) : Scalar :=
  .null (match k with | .keyword => .keyword (b! "null") | .tilde => .tilde | .empty => .empty)
def strScalar (s : Bytes) : Scalar := .string ⟨detect s, s, s⟩
def strWithScalar (s : Bytes) (k : StringKind) : Scalar :=
  .string ⟨match k with | .bare => .bare | .single => .single | .double => .double, s, s⟩
def boolScalar (v : Bool) : Scalar := .bool v (if v then b! "true" else b! "false")
def Block.chomp : Block → Chomp
  | .literal c => c
  | .folded c => c
def Block.join : Block → UInt8
  | .literal _ => NL
  | .folded _ => SP
def Block.mark : Block → UInt8
  | .literal _ => PIPE
  | .folded _ => GT
def blockScalar (pre : Bytes) (indent : Nat) (lines : List Bytes) (b : Block) : Scalar :=
  .string ⟨.original, blockContent b.join b.chomp lines, blockText b.mark b.chomp pre indent lines⟩

/-- Prefix and indentation of the lines of a block stored at this value. -/
def blockIndent : Tree Nat → Nat × Bytes
  | .leaf _ p _ => (2, lastLine p)
  | .node _ _ _ ind _ _ => (ind + 2, [])

theorem newBlock_of {d : Data} {par} {u : Tree Nat} (h : Rep d par u) (lines : List Bytes) (b : Block) :
    newBlock d u.id lines b = .ok (blockScalar (blockIndent u).2 (blockIndent u).1 lines b).toRaw := by
  have hh := entry_of h.head
  cases u with
  | leaf i p s =>
    simp only [newBlock, hh, bind, Except.bind]
    cases s <;> cases b <;> rfl
  | node i p m ind k items =>
    simp only [newBlock, hh, bind, Except.bind]
    cases m <;> cases b <;> rfl

/-! ### `make_indent` -/

theorem Holds.makeIndent {doc : Document} {t w : Tree Nat} {x : Nat} (h : Holds doc t) (hf : t.find x = some w) :
    ∃ ind pre, Verif.makeIndent doc.data x 0 = .ok (ind, pre) := by
  rcases h.parent hf with ⟨_, hx⟩ | ⟨c, cpre, m, ind, k, items, i, ip, key, n, q, _, _, _, hc, hi, hx⟩
  · exact ⟨_, _, by simp only [Verif.makeIndent, entry_of hx, bind, Except.bind, pure, Except.pure]; rfl⟩
  · simp only [Verif.makeIndent, entry_of hx, entry_of hi, entry_of hc, bind, Except.bind, pure, Except.pure]
    cases m
    · simp only [collRaw, itemRaw]
      cases k <;> exact ⟨_, _, rfl⟩
    · exact ⟨_, _, rfl⟩

/-- `make_mapping`/`make_sequence` on something else. -/
theorem Holds.make {doc : Document} {t w : Tree Nat} {x : Nat} (h : Holds doc t) (hf : t.find x = some w) (m : Bool) :
    ∃ ind pre, Verif.makeIndent doc.data x 0 = .ok (ind, pre) ∧
      ∃ d', doc.data.replaceWith x pre (collRaw m ⟨ind, .block, []⟩) = .ok d' ∧
        Holds ⟨doc.suffix, doc.root, d'⟩ (Tree.upd x (.node x pre m ind .block .nil) t) := by
  obtain ⟨ind, pre, h1⟩ := h.makeIndent hf
  obtain ⟨d', h2, h3⟩ := h.replaceWith hf (u' := .node x pre m ind .block .nil) rfl rfl
  exact ⟨ind, pre, h1, d', h2, h3⟩

/-! ### All edits -/

/-- Everything below `w` is below `w'` unchanged, or gone. -/
def Keeps (w w' : Tree Nat) : Prop := ∀ y e, (y, e) ∈ w.kids → (y, e) ∈ w'.kids ∨ y ∉ w'.allIds

theorem Keeps.refl (w : Tree Nat) : Keeps w w := fun _ _ h => .inl h

theorem Keeps.empty {w w' : Tree Nat} (hn : w.allIds.Nodup) (hid : w'.id = w.id) (hk : w'.kids = []) : Keeps w w' := by
  intro y e h
  right
  rw [Tree.allIds_eq_cons, List.nodup_cons] at hn
  rw [Tree.allIds_eq_cons, hk, hid]
  simp only [List.map_nil, List.mem_singleton]
  rintro rfl
  exact hn.1 (List.mem_map.2 ⟨_, h, rfl⟩)

theorem Keeps.append {x p m ind k p' ind' k'} {items new : Items Nat} :
    Keeps (.node x p m ind k items) (.node x p' m ind' k' (items.append new)) := by
  intro y e h
  left
  simp only [Tree.kids, Items.entries_append, List.mem_append] at h ⊢
  exact .inl h

theorem Keeps.erase {x p m ind k p' ind' k'} {items : Items Nat} (n : Nat)
    (hn : (Tree.node x p m ind k items).allIds.Nodup) :
    Keeps (.node x p m ind k items) (.node x p' m ind' k' (items.eraseIdx n)) := by
  intro y e h
  by_cases hl : n < items.ids.length
  · obtain ⟨ip, key, v, A, B, h1, h2, _, _⟩ := Items.split x m items n _ (List.getElem?_eq_getElem hl)
    simp only [Tree.kids, Tree.allIds_node, h1, h2] at h hn ⊢
    simp only [List.map_cons, List.map_append, List.nodup_cons, List.nodup_append, List.mem_append, not_or,
      List.mem_cons] at h hn ⊢
    rcases h with (h | h) | h
    · exact .inl (.inl h)
    · right
      have hy : y = items.ids[n] ∨ y ∈ (v.entries (some items.ids[n])).map (·.1) := by
        rcases h with h | h
        · exact .inl (by cases h; rfl)
        · exact .inr (List.mem_map.2 ⟨_, h, rfl⟩)
      refine ⟨?_, ?_, ?_⟩
      · rintro rfl
        rcases hy with hy | hy
        · exact hn.1.1.2.1 hy
        · exact hn.1.1.2.2 hy
      · intro hA; exact hn.2.1.2.2 y hA y hy rfl
      · intro hB; exact hn.2.2.2 y (.inr hy) y hB rfl
    · exact .inl (.inr h)
  · left
    simp only [Tree.kids] at h ⊢
    rwa [Items.eraseIdx_of_le _ _ (by omega)]

theorem Holds.removeKey {doc : Document} {t : Tree Nat} {x : Nat} {pre : Bytes} {ind : Nat} {k : CollKind}
    {items : Items Nat} (h : Holds doc t) (hf : t.find x = some (.node x pre true ind k items)) (key : Bytes) :
    ∃ b d' items', mapRemove doc.data x key = .ok (b, d') ∧
      (b, items') = (match items.indexOf key with | none => (false, items) | some n => (true, items.eraseIdx n)) ∧
      Holds ⟨doc.suffix, doc.root, d'⟩ (Tree.upd x (.node x pre true ind k items') t) := by
  obtain ⟨p, ha⟩ := h.at hf
  have hx : doc.data.slab.get x = some ⟨collRaw true ⟨ind, k, items.ids⟩, pre, p⟩ := ha.get
  have hfi := findIndex_items key ha.rep.node.2
  cases hl : items.indexOf key with
  | none =>
    refine ⟨false, doc.data, items, ?_, rfl, ?_⟩
    · simp [mapRemove, mapping_of hx, bind, Except.bind, hfi, hl, pure, Except.pure]
    · obtain ⟨_, _, _, _, _, h0, _⟩ := Tree.focus none hf
      rw [h0]; exact h
  | some n =>
    have hn := Items.indexOf_lt hl
    have hi : items.ids[n]? = some items.ids[n] := List.getElem?_eq_getElem hn
    obtain ⟨d1, d', h1, h2, _, h3⟩ := h.removeIdx hf hi
    have h1' : doc.data.setMappingItems x (items.ids.eraseIdx n) = .ok d1 := h1
    refine ⟨true, d', items.eraseIdx n, ?_, rfl, h3⟩
    simp only [mapRemove, mapping_of hx, bind, Except.bind, hfi, hl, pure, Except.pure, hi, h1', h2]

theorem Holds.removeAt {doc : Document} {t : Tree Nat} {x : Nat} {pre : Bytes} {ind : Nat} {k : CollKind}
    {items : Items Nat} (h : Holds doc t) (hf : t.find x = some (.node x pre false ind k items)) (n : Nat) :
    ∃ d', seqRemove doc.data x n = .ok (decide (n < items.ids.length), d') ∧
      Holds ⟨doc.suffix, doc.root, d'⟩ (Tree.upd x (.node x pre false ind k (items.eraseIdx n)) t) := by
  obtain ⟨p, ha⟩ := h.at hf
  have hx : doc.data.slab.get x = some ⟨collRaw false ⟨ind, k, items.ids⟩, pre, p⟩ := ha.get
  by_cases hn : n < items.ids.length
  · have hi : items.ids[n]? = some items.ids[n] := List.getElem?_eq_getElem hn
    obtain ⟨d1, d', h1, h2, _, h3⟩ := h.removeIdx hf hi
    have h1' : doc.data.setSequenceItems x (items.ids.eraseIdx n) = .ok d1 := h1
    refine ⟨d', ?_, h3⟩
    simp only [seqRemove, sequence_of hx, bind, Except.bind, pure, Except.pure, hi, h1', h2, hn, decide_true]
  · have hi : items.ids[n]? = none := List.getElem?_eq_none (by omega)
    refine ⟨doc.data, ?_, ?_⟩
    · simp only [seqRemove, sequence_of hx, bind, Except.bind, pure, Except.pure, hi, hn, decide_false]
    · rw [Items.eraseIdx_of_le _ _ (by omega)]
      obtain ⟨_, _, _, _, _, h0, _⟩ := Tree.focus none hf
      rw [h0]; exact h

theorem Holds.clearMap {doc : Document} {t : Tree Nat} {x : Nat} {pre : Bytes} {ind : Nat} {k : CollKind}
    {items : Items Nat} (h : Holds doc t) (hf : t.find x = some (.node x pre true ind k items)) :
    ∃ d', mapClear doc.data x = .ok d' ∧
      Holds ⟨doc.suffix, doc.root, d'⟩ (Tree.upd x (.node x pre true ind k .nil) t) := by
  obtain ⟨p, ha⟩ := h.at hf
  have hx : doc.data.slab.get x = some ⟨collRaw true ⟨ind, k, items.ids⟩, pre, p⟩ := ha.get
  obtain ⟨d1, d2, h1, h2, h3, h4⟩ := h.clearItems hf
  have h1' : doc.data.setMappingItems x [] = .ok d1 := h1
  have h3' : d2.setMappingItems x [] = .ok d2 := h3
  exact ⟨d2, by simp only [mapClear, mapping_of hx, bind, Except.bind, h1', h2, h3'], h4⟩

theorem Holds.clearSeq {doc : Document} {t : Tree Nat} {x : Nat} {pre : Bytes} {ind : Nat} {k : CollKind}
    {items : Items Nat} (h : Holds doc t) (hf : t.find x = some (.node x pre false ind k items)) :
    ∃ d', seqClear doc.data x = .ok d' ∧
      Holds ⟨doc.suffix, doc.root, d'⟩ (Tree.upd x (.node x pre false ind k .nil) t) := by
  obtain ⟨p, ha⟩ := h.at hf
  have hx : doc.data.slab.get x = some ⟨collRaw false ⟨ind, k, items.ids⟩, pre, p⟩ := ha.get
  obtain ⟨d1, d2, h1, h2, h3, h4⟩ := h.clearItems hf
  have h1' : doc.data.setSequenceItems x [] = .ok d1 := h1
  have h3' : d2.setSequenceItems x [] = .ok d2 := h3
  exact ⟨d2, by simp only [seqClear, sequence_of hx, bind, Except.bind, h1', h2, h3'], h4⟩

/-- The scalar a set operation stores. -/
def Op.scalar (u : Tree Nat) : Op → Option Scalar
  | .setNull k => some (nullScalar k)
  | .setString s => some (strScalar s)
  | .setStringWith s k => some (strWithScalar s k)
  | .setBlock l b => some (blockScalar (blockIndent u).2 (blockIndent u).1 l b)
  | .setBool v => some (boolScalar v)
  | .setNumber s h => some (.number s h)
  | _ => none

/-- Separator of an inserted or pushed value. -/
def Val.sep : Val → Separator
  | .null sep => sep
  | _ => .auto

/-- The scalar stored for a value inserted into or pushed to the collection `u`. -/
def Val.scalar (u : Tree Nat) : Val → Scalar
  | .null _ => .null .empty
  | .str s => strScalar s
  | .block l b => blockScalar (blockIndent u).2 (blockIndent u).1 l b
  | .bool v => boolScalar v
  | .number s h => .number s h

theorem mapInsertV_eq {d : Data} {par} {u : Tree Nat} (h : Rep d par u) (key : Bytes) (v : Val) :
    mapInsertV d u.id key v = innerInsert d u.id key v.sep (v.scalar u).toRaw := by
  cases v
  case block l b => simp only [mapInsertV, mapInsertBlock, newBlock_of h, bind, Except.bind]; rfl
  all_goals rfl

theorem seqPushV_eq {d : Data} {par} {u : Tree Nat} (h : Rep d par u) (v : Val) :
    seqPushV d u.id v = innerPush d u.id v.sep (v.scalar u).toRaw := by
  cases v
  case block l b => simp only [seqPushV, seqPushBlock, newBlock_of h, bind, Except.bind]; rfl
  all_goals rfl

theorem Op.run_scalar {d : Data} {par} {u : Tree Nat} (h : Rep d par u) {op : Op} {s : Scalar}
    (hs : op.scalar u = some s) : op.run d u.id = d.replace u.id s.toRaw := by
  cases op <;> simp only [Op.scalar, Option.some.injEq, reduceCtorEq] at hs <;> subst hs
  case setNull k => cases k <;> rfl
  case setBlock l b =>
    simp only [Op.run, Verif.setBlock, newBlock_of h, bind, Except.bind]
  all_goals rfl

theorem withMapping_map {α} {d : Data} {par x p ind k items} (h : Rep d par (.node x p true ind k items))
    (f : Nat → Except Stop (α × Data)) : withMapping d x f = (f x).map (·.2) := by
  have := asMapping_of h
  simp only [Tree.id_node] at this
  simp only [withMapping, this, bind, Except.bind, pure, Except.pure]
  cases f x <;> rfl

theorem withSequence_seq {α} {d : Data} {par x p ind k items} (h : Rep d par (.node x p false ind k items))
    (f : Nat → Except Stop (α × Data)) : withSequence d x f = (f x).map (·.2) := by
  have := asSequence_of h
  simp only [Tree.id_node] at this
  simp only [withSequence, this, bind, Except.bind, pure, Except.pure]
  cases f x <;> rfl

theorem withMapping_other {α} {d : Data} {par} {u : Tree Nat} (h : Rep d par u)
    (hn : ∀ x p ind k items, u ≠ .node x p true ind k items)
    (f : Nat → Except Stop (α × Data)) : withMapping d u.id f = .ok d := by
  have := asMapping_of h
  simp only [withMapping, this, bind, Except.bind, pure, Except.pure]
  cases u with
  | leaf => rfl
  | node i p m ind k items => cases m with
    | false => rfl
    | true => exact absurd rfl (hn i p ind k items)

theorem withSequence_other {α} {d : Data} {par} {u : Tree Nat} (h : Rep d par u)
    (hn : ∀ x p ind k items, u ≠ .node x p false ind k items)
    (f : Nat → Except Stop (α × Data)) : withSequence d u.id f = .ok d := by
  have := asSequence_of h
  simp only [withSequence, this, bind, Except.bind, pure, Except.pure]
  cases u with
  | leaf => rfl
  | node i p m ind k items => cases m with
    | true => rfl
    | false => exact absurd rfl (hn i p ind k items)

/-- The tree after an edit of the value `u`: `i` and `v` are the ids of an added item and its value,
`mk` indentation and prefix of a collection that is made. -/
def Op.tree (i v : Nat) (mk : Nat × Bytes) (op : Op) (u : Tree Nat) : Tree Nat :=
  match op.scalar u with
  | some s => .leaf u.id u.pre s
  | none =>
    match op, u with
    | .insert key val, .node x p true n k items =>
      match items.lookup key with
      | none => .node x p true n k (items.append (.cons i (addPre n items) ⟨.bare, key, key⟩
          (.leaf v (insertPre val.sep) (val.scalar (.node x p true n k items))) .nil))
      | some w => Tree.upd w.id (.leaf w.id w.pre (val.scalar (.node x p true n k items))) (.node x p true n k items)
    | .remove key, .node x p true n k items =>
      match items.indexOf key with
      | none => .node x p true n k items
      | some ix => .node x p true n k (items.eraseIdx ix)
    | .clearMapping, .node x p true n k _ => .node x p true n k .nil
    | .push val, .node x p false n k items => .node x p false n k (items.append (.cons i (addPre n items) noKey
        (.leaf v (pushPre val.sep items) (val.scalar (.node x p false n k items))) .nil))
    | .removeAt ix, .node x p false n k items => .node x p false n k (items.eraseIdx ix)
    | .clearSequence, .node x p false n k _ => .node x p false n k .nil
    | .makeMapping, .leaf x _ _ => .node x mk.2 true mk.1 .block .nil
    | .makeMapping, .node x _ false _ _ _ => .node x mk.2 true mk.1 .block .nil
    | .makeSequence, .leaf x _ _ => .node x mk.2 false mk.1 .block .nil
    | .makeSequence, .node x _ true _ _ _ => .node x mk.2 false mk.1 .block .nil
    | _, u => u

/-- A value a program could add: two ids that are free. -/
structure FreshIds (d : Data) (i v : Nat) : Prop where
  item : d.slab.get i = none
  value : d.slab.get v = none
  ne : i ≠ v

theorem exists_fresh (s : Slab Entry) : ∃ i v, FreshIds ⟨s⟩ i v :=
  ⟨s.slots.length, s.slots.length + 1, by simp [Slab.get], by simp [Slab.get], by omega⟩

/-- Every edit of a live value succeeds, and changes the tree only there. -/
theorem Holds.editTree {doc : Document} {t u : Tree Nat} {x : Nat} (h : Holds doc t) (hf : t.find x = some u) (op : Op) :
    ∃ d' i v mk, op.run doc.data x = .ok d' ∧ FreshIds doc.data i v ∧ Verif.makeIndent doc.data x 0 = .ok mk ∧
      Holds ⟨doc.suffix, doc.root, d'⟩ (Tree.upd x (op.tree i v mk u) t) := by
  obtain ⟨p, ha⟩ := h.at hf
  have hid := ha.id
  obtain ⟨_, _, _, _, _, hself, _⟩ := Tree.focus none hf
  obtain ⟨i0, v0, hfr⟩ := exists_fresh doc.data.slab
  obtain ⟨ind0, pre0, hmk⟩ := h.makeIndent hf
  suffices hs : ∃ d' i v, op.run doc.data x = .ok d' ∧ FreshIds doc.data i v ∧
      Holds ⟨doc.suffix, doc.root, d'⟩ (Tree.upd x (op.tree i v (ind0, pre0) u) t) by
    obtain ⟨d', i, v, h1, h2, h3⟩ := hs
    exact ⟨d', i, v, _, h1, h2, hmk, h3⟩
  have same : op.run doc.data x = .ok doc.data → (op.tree i0 v0 (ind0, pre0) u = u) → _ := fun he hu =>
    (⟨doc.data, i0, v0, he, hfr, by rw [hu, hself]; exact h⟩ : ∃ d' i v, op.run doc.data x = .ok d' ∧
      FreshIds doc.data i v ∧ Holds ⟨doc.suffix, doc.root, d'⟩ (Tree.upd x (op.tree i v (ind0, pre0) u) t))
  cases hsc : op.scalar u with
  | some s =>
    obtain ⟨d', h1, h2⟩ := h.setScalar hf s
    refine ⟨d', i0, v0, ?_, hfr, ?_⟩
    · rw [← hid, Op.run_scalar ha.rep hsc, hid]; exact h1
    · simp only [Op.tree, hsc, hid]; exact h2
  | none =>
  have make : ∀ m : Bool, ∃ d', doc.data.replaceWith x pre0 (collRaw m ⟨ind0, .block, []⟩) = .ok d' ∧
      Holds ⟨doc.suffix, doc.root, d'⟩ (Tree.upd x (.node x pre0 m ind0 .block .nil) t) := by
    intro m
    obtain ⟨ind', pre', h1, d', h2, h3⟩ := h.make hf m
    rw [hmk] at h1
    cases h1
    exact ⟨d', h2, h3⟩
  -- the kind of the value
  by_cases hm : ∃ pre ind k items, u = .node x pre true ind k items
  · obtain ⟨pre, ind, k, items, rfl⟩ := hm
    have hns := fun (α : Type) (f : Nat → Except Stop (α × Data)) => withSequence_other ha.rep (by intros; simp) f
    simp only [Tree.id_node] at hns
    cases op <;> simp only [Op.scalar, reduceCtorEq] at hsc
    case insert key v =>
      have heq := mapInsertV_eq ha.rep key v
      simp only [Tree.id_node] at heq
      cases hl : items.lookup key with
      | none =>
        obtain ⟨i', v', d', h1, f1, f2, f3, h2⟩ := h.insertNew hf key v.sep (v.scalar (.node x pre true ind k items)) hl
        refine ⟨d', i', v', ?_, ⟨f1, f2, f3⟩, ?_⟩
        · simp only [Op.run]; rw [withMapping_map ha.rep, heq, h1]; rfl
        · simp only [Op.tree, Op.scalar, hl]; exact h2
      | some w =>
        obtain ⟨hw, d', h1, h2⟩ := h.insertOld hf key v.sep (v.scalar (.node x pre true ind k items)) hl
        obtain ⟨n, key', hp, _⟩ := Items.lookup_mem hl
        refine ⟨d', i0, v0, ?_, hfr, ?_⟩
        · simp only [Op.run]; rw [withMapping_map ha.rep, heq, h1]; rfl
        · rw [Tree.upd_upd h.nodup hf (Tree.find_pair ha.nodup hp)] at h2
          simp only [Op.tree, Op.scalar, hl]; exact h2
    case makeMapping =>
      refine same ?_ (by simp [Op.tree, Op.scalar])
      simp [Op.run, Verif.makeMapping, raw_of ha.get, Tree.raw, collRaw, bind, Except.bind, pure, Except.pure]
    case makeSequence =>
      obtain ⟨d', h2, h3⟩ := make false
      refine ⟨d', i0, v0, ?_, hfr, by simpa only [Op.tree, Op.scalar] using h3⟩
      simp only [collRaw, Bool.false_eq_true, if_false] at h2
      simp [Op.run, Verif.makeSequence, raw_of ha.get, Tree.raw, collRaw, bind, Except.bind, hmk, h2]
    case remove key =>
      obtain ⟨b, d', items', h1, hb, h3⟩ := h.removeKey hf key
      refine ⟨d', i0, v0, ?_, hfr, ?_⟩
      · simp only [Op.run]; rw [withMapping_map ha.rep, h1]; rfl
      · simp only [Op.tree, Op.scalar]
        cases hi : items.indexOf key with
        | none => rw [hi] at hb; cases hb; exact h3
        | some n => rw [hi] at hb; cases hb; exact h3
    case clearMapping =>
      obtain ⟨d', h1, h3⟩ := h.clearMap hf
      refine ⟨d', i0, v0, ?_, hfr, by simpa only [Op.tree, Op.scalar] using h3⟩
      simp only [Op.run]; rw [withMapping_map ha.rep, h1]; rfl
    all_goals exact same (by simp only [Op.run]; exact hns _ _) (by simp [Op.tree, Op.scalar])
  · by_cases hq : ∃ pre ind k items, u = .node x pre false ind k items
    · obtain ⟨pre, ind, k, items, rfl⟩ := hq
      have hns := fun (α : Type) (f : Nat → Except Stop (α × Data)) => withMapping_other ha.rep (by intros; simp) f
      simp only [Tree.id_node] at hns
      cases op <;> simp only [Op.scalar, reduceCtorEq] at hsc
      case push v =>
        obtain ⟨i, v', d', h1, f1, f2, f3, h3⟩ := h.push hf v.sep (v.scalar (.node x pre false ind k items))
        refine ⟨d', i, v', ?_, ⟨f1, f2, f3⟩, by simpa only [Op.tree, Op.scalar] using h3⟩
        have := seqPushV_eq ha.rep v
        simp only [Tree.id_node] at this
        simp only [Op.run]; rw [withSequence_seq ha.rep, this, h1]; rfl
      case makeSequence =>
        refine same ?_ (by simp [Op.tree, Op.scalar])
        simp [Op.run, Verif.makeSequence, raw_of ha.get, Tree.raw, collRaw, bind, Except.bind, pure, Except.pure]
      case makeMapping =>
        obtain ⟨d', h2, h3⟩ := make true
        refine ⟨d', i0, v0, ?_, hfr, by simpa only [Op.tree, Op.scalar] using h3⟩
        simp only [collRaw, if_true] at h2
        simp [Op.run, Verif.makeMapping, raw_of ha.get, Tree.raw, collRaw, bind, Except.bind, hmk, h2]
      case removeAt n =>
        obtain ⟨d', h1, h3⟩ := h.removeAt hf n
        refine ⟨d', i0, v0, ?_, hfr, by simpa only [Op.tree, Op.scalar] using h3⟩
        simp only [Op.run]; rw [withSequence_seq ha.rep, h1]; rfl
      case clearSequence =>
        obtain ⟨d', h1, h3⟩ := h.clearSeq hf
        refine ⟨d', i0, v0, ?_, hfr, by simpa only [Op.tree, Op.scalar] using h3⟩
        simp only [Op.run]; rw [withSequence_seq ha.rep, h1]; rfl
      all_goals exact same (by simp only [Op.run]; exact hns _ _) (by simp [Op.tree, Op.scalar])
    · have hnm := fun (α : Type) (f : Nat → Except Stop (α × Data)) => withMapping_other ha.rep (by
        rintro y pre ind k items rfl
        simp only [Tree.id_node] at hid
        exact hm ⟨pre, ind, k, items, by rw [hid]⟩) f
      have hns := fun (α : Type) (f : Nat → Except Stop (α × Data)) => withSequence_other ha.rep (by
        rintro y pre ind k items rfl
        simp only [Tree.id_node] at hid
        exact hq ⟨pre, ind, k, items, by rw [hid]⟩) f
      rw [hid] at hnm hns
      have hleaf : ∃ pre s, u = .leaf x pre s := by
        cases u with
        | leaf i pre s => simp only [Tree.id_leaf] at hid; exact ⟨pre, s, by rw [hid]⟩
        | node i pre m ind k items =>
          simp only [Tree.id_node] at hid
          cases m
          · exact absurd ⟨pre, ind, k, items, by rw [hid]⟩ hq
          · exact absurd ⟨pre, ind, k, items, by rw [hid]⟩ hm
      obtain ⟨pre, s, rfl⟩ := hleaf
      cases op <;> simp only [Op.scalar, reduceCtorEq] at hsc
      case makeMapping =>
        obtain ⟨d', h2, h3⟩ := make true
        refine ⟨d', i0, v0, ?_, hfr, by simpa only [Op.tree, Op.scalar] using h3⟩
        simp only [collRaw, if_true] at h2
        simp only [Op.run, Verif.makeMapping, raw_of ha.get, Tree.raw, bind, Except.bind]
        cases s <;> simp only [Scalar.toRaw, hmk, h2]
      case makeSequence =>
        obtain ⟨d', h2, h3⟩ := make false
        refine ⟨d', i0, v0, ?_, hfr, by simpa only [Op.tree, Op.scalar] using h3⟩
        simp only [collRaw, Bool.false_eq_true, if_false] at h2
        simp only [Op.run, Verif.makeSequence, raw_of ha.get, Tree.raw, bind, Except.bind]
        cases s <;> simp only [Scalar.toRaw, hmk, h2]
      all_goals first
        | exact same (by simp only [Op.run]; exact hns _ _) (by simp [Op.tree, Op.scalar])
        | exact same (by simp only [Op.run]; exact hnm _ _) (by simp [Op.tree, Op.scalar])

theorem Op.tree_id {i v : Nat} {mk : Nat × Bytes} {op : Op} {u : Tree Nat} : (op.tree i v mk u).id = u.id := by
  simp only [Op.tree]
  split
  · rfl
  · split <;> try rfl
    · split
      · rfl
      · exact Tree.upd_id rfl
    · split <;> rfl

/-- The tree that an edit replaces: the value, or for an insert with a key that is there the value
of that key. -/
theorem Op.tree_keeps {i v : Nat} {mk : Nat × Bytes} (op : Op) {u : Tree Nat} (hn : u.allIds.Nodup) :
    ∃ z w w', u.find z = some w ∧ w'.id = z ∧ Keeps w w' ∧ op.tree i v mk u = Tree.upd z w' u ∧
      ((z = u.id ∧ ∀ key val x p n k items, op = .insert key val → u = .node x p true n k items → ¬ (items.lookup key).isSome) ∨ ∃ key val x p n k items, op = .insert key val ∧ u = .node x p true n k items ∧
        items.lookup key = some w) := by
  have triv : (op.tree i v mk u).id = u.id → Keeps u (op.tree i v mk u) →
      (∀ key val x p n k items, op = .insert key val → u = .node x p true n k items → ¬ (items.lookup key).isSome) →
      ∃ z w w', u.find z = some w ∧ w'.id = z ∧ Keeps w w' ∧ op.tree i v mk u = Tree.upd z w' u ∧
      ((z = u.id ∧ ∀ key val x p n k items, op = .insert key val → u = .node x p true n k items → ¬ (items.lookup key).isSome) ∨ ∃ key val x p n k items, op = .insert key val ∧ u = .node x p true n k items ∧
        items.lookup key = some w) := fun h1 h2 h3 =>
    ⟨u.id, u, _, u.find_self, h1, h2, by cases u <;> simp [Tree.upd], .inl ⟨rfl, h3⟩⟩
  generalize hr : op.tree i v mk u = r at triv ⊢
  have hr' := hr
  simp only [Op.tree] at hr
  split at hr
  · subst hr; exact triv rfl (.empty hn rfl rfl) (by rintro _ _ _ _ _ _ _ rfl _; simp [Op.scalar] at *)
  · split at hr
    · split at hr
      · subst hr; exact triv rfl .append (by rintro _ _ _ _ _ _ _ hi hu; cases hi; cases hu; next hl => simp [hl])
      · next hl =>
        subst hr
        obtain ⟨n, key', hp, _⟩ := Items.lookup_mem hl
        have hfw := Tree.find_pair hn hp
        refine ⟨_, _, (.leaf _ _ _), hfw, rfl, .empty ?_ rfl rfl, rfl, .inr ⟨_, _, _, _, _, _, _, rfl, rfl, hl⟩⟩
        obtain ⟨p', A, B, _, _, h0, h1⟩ := Tree.focus none hfw
        have he := (h1 _ rfl).2.1
        rw [h0] at he
        rw [Tree.allIds, he] at hn
        simp only [List.map_append, List.nodup_append, Tree.allIds_eq] at hn
        exact hn.1.2.1
    · split at hr
      · subst hr; exact triv rfl (.refl _) (by simp_all)
      · subst hr; exact triv rfl (.erase _ hn) (by simp_all)
    · subst hr; exact triv rfl (.empty hn rfl rfl) (by simp_all [Op.scalar])
    · subst hr; exact triv rfl .append (by simp_all)
    · subst hr; exact triv rfl (.erase _ hn) (by simp_all)
    · subst hr; exact triv rfl (.empty hn rfl rfl) (by simp_all [Op.scalar])
    · subst hr; exact triv rfl (.empty hn rfl rfl) (by simp_all [Op.scalar])
    · subst hr; exact triv rfl (.empty hn rfl rfl) (by simp_all [Op.scalar])
    · subst hr; exact triv rfl (.empty hn rfl rfl) (by simp_all [Op.scalar])
    · subst hr; exact triv rfl (.empty hn rfl rfl) (by simp_all [Op.scalar])
    · subst hr; exact triv rfl (.refl _) (by rintro a b c d e f g hi hu; next hx _ _ _ _ _ _ _ _ _ => exact absurd hu (hx _ _ _ _ _ _ _ hi))

/-- Every edit of a live value succeeds; seen from the value it is addressed at. -/
theorem Holds.edit {doc : Document} {t u : Tree Nat} {x : Nat} (h : Holds doc t) (hf : t.find x = some u) (op : Op) :
    ∃ doc' u', doc.edit x op = .ok doc' ∧ doc'.root = doc.root ∧ doc'.suffix = doc.suffix ∧ u'.id = x ∧
      Holds doc' (Tree.upd x u' t) := by
  obtain ⟨d', i, v, mk, h1, _, _, h2⟩ := h.editTree hf op
  exact ⟨⟨doc.suffix, doc.root, d'⟩, _, by simp [Document.edit, h1, bind, Except.bind, pure, Except.pure], rfl, rfl,
    Op.tree_id.trans (Tree.find_id hf), h2⟩

theorem Reachable.holds {doc : Document} (h : Reachable doc) : ∃ t, Holds doc t := by
  induction h with
  | parsed h => exact h.holds
  | @edited doc doc' x op _ hl he ih =>
    obtain ⟨t, ht⟩ := ih
    obtain ⟨u, hu⟩ := (ht.live_iff x).1 hl
    obtain ⟨doc'', u', h1, _, _, _, h2⟩ := ht.edit hu op
    rw [he] at h1
    cases h1
    exact ⟨_, h2⟩

end Verif
