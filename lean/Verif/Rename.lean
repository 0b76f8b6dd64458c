import Verif.LiveLemmas
import Verif.ExactDocs
/-
Ids do not matter: documents with the same tree up to ids stay so under the same edits.
-/
namespace Verif

mutual
/-- Other ids. -/
def Tree.map (r : Nat → Nat) : Tree Nat → Tree Nat
  | .leaf i p s => .leaf (r i) p s
  | .node i p m ind k items => .node (r i) p m ind k (items.map r)
def Items.map (r : Nat → Nat) : Items Nat → Items Nat
  | .nil => .nil
  | .cons i p key v rest => .cons (r i) p key (v.map r) (rest.map r)
end

def Raw.map (r : Nat → Nat) : Raw → Raw
  | .mapping c => .mapping { c with items := c.items.map r }
  | .sequence c => .sequence { c with items := c.items.map r }
  | .mappingItem key v => .mappingItem key (r v)
  | .sequenceItem v => .sequenceItem (r v)
  | s => s

def Entry.map (r : Nat → Nat) (e : Entry) : Entry := ⟨e.raw.map r, e.pre, e.parent.map r⟩

variable {r : Nat → Nat}

theorem Tree.map_id (t : Tree Nat) : (t.map r).id = r t.id := by cases t <;> rfl
theorem Tree.map_pre (t : Tree Nat) : (t.map r).pre = t.pre := by cases t <;> rfl
theorem Items.map_isNil (is : Items Nat) : (is.map r).isNil = is.isNil := by cases is <;> rfl
theorem Items.map_ids : ∀ is : Items Nat, (is.map r).ids = is.ids.map r
  | .nil => rfl
  | .cons _ _ _ _ rest => by simp only [Items.map, Items.ids, List.map_cons, Items.map_ids rest]

mutual
theorem Tree.map_render : ∀ t : Tree Nat, (t.map r).render = t.render
  | .leaf _ _ _ => rfl
  | .node _ _ _ _ _ items => by simp only [Tree.map, Tree.render, Items.map_render items]
theorem Items.map_render {m : Bool} {k : CollKind} : ∀ is : Items Nat, (is.map r).render m k = is.render m k
  | .nil => rfl
  | .cons _ _ _ v rest => by simp only [Items.map, Items.render, Tree.map_render v, Tree.map_pre, Items.map_render rest, Items.map_isNil]
end

theorem Tree.map_showsPre (t : Tree Nat) : (t.map r).showsPre = t.showsPre := by
  cases t <;> simp only [Tree.map, Tree.showsPre, Items.map_isNil]

mutual
theorem Tree.map_disp : ∀ t : Tree Nat, (t.map r).disp = t.disp
  | .leaf _ _ _ => rfl
  | .node _ _ _ _ _ items => by simp only [Tree.map, Tree.disp, Items.map_disp items]
theorem Items.map_disp {m : Bool} {k : CollKind} : ∀ is : Items Nat, (is.map r).disp m k = is.disp m k
  | .nil => rfl
  | .cons _ _ _ v rest => by simp only [Items.map, Items.disp, Tree.map_disp v, Tree.map_pre, Tree.map_showsPre, Items.map_disp rest, Items.map_isNil]
end

mutual
theorem Tree.map_content : ∀ t : Tree Nat, (t.map r).content = t.content
  | .leaf _ _ _ => rfl
  | .node _ _ true _ _ items => by simp only [Tree.map, Tree.content, Items.map_entriesC items]
  | .node _ _ false _ _ items => by simp only [Tree.map, Tree.content, Items.map_elemsC items]
theorem Items.map_entriesC : ∀ is : Items Nat, (is.map r).entriesC = is.entriesC
  | .nil => rfl
  | .cons _ _ _ v rest => by simp only [Items.map, Items.entriesC, Tree.map_content v, Items.map_entriesC rest]
theorem Items.map_elemsC : ∀ is : Items Nat, (is.map r).elemsC = is.elemsC
  | .nil => rfl
  | .cons _ _ _ v rest => by simp only [Items.map, Items.elemsC, Tree.map_content v, Items.map_elemsC rest]
end

theorem Scalar.map_raw (s : Scalar) : s.toRaw.map r = s.toRaw := by cases s <;> rfl

mutual
theorem Tree.map_entries : ∀ (t : Tree Nat) (p : Option Nat), (t.map r).entries (p.map r) = (t.entries p).map fun e => (r e.1, e.2.map r)
  | .leaf _ _ s, p => by simp [Tree.map, Tree.entries, Entry.map, Scalar.map_raw]
  | .node i _ m ind k items, p => by
    simp only [Tree.map, Tree.entries, List.map_cons, Items.map_entries items, Items.map_ids]
    cases m <;> rfl
theorem Items.map_entries {m : Bool} : ∀ (is : Items Nat) {c : Nat}, (is.map r).entries (r c) m = (is.entries c m).map fun e => (r e.1, e.2.map r)
  | .nil, _ => rfl
  | .cons i _ key v rest, c => by
    simp only [Items.map, Items.entries, List.map_cons, List.map_append, Items.map_entries rest, ← Tree.map_entries v, Tree.map_id]
    cases m <;> rfl
end

theorem Tree.map_allIds (t : Tree Nat) : (t.map r).allIds = t.allIds.map r := by
  simp only [Tree.allIds]
  rw [show (none : Option Nat) = Option.map r none from rfl, Tree.map_entries, List.map_map, List.map_map]
  rfl

theorem Tree.allIds_leaf {i : Nat} {p : Bytes} {s : Scalar} : (Tree.leaf i p s).allIds = [i] := rfl
def Items.allIds (is : Items Nat) : List Nat := (is.entries 0 false).map (·.1)
theorem Items.entries_ids : ∀ {is : Items Nat} {c : Nat} {m : Bool}, (is.entries c m).map (·.1) = is.allIds
  | .nil, _, _ => rfl
  | .cons i p key v rest, c, m => by
    rw [Items.entries, Items.allIds, Items.entries, List.map_cons, List.map_cons, List.map_append, List.map_append, Items.entries_ids (is := rest) (c := c),
      Items.entries_ids (is := rest) (c := 0)]
theorem Tree.node_ids {i : Nat} {p : Bytes} {m : Bool} {ind : Nat} {k : CollKind} {items : Items Nat} :
    (Tree.node i p m ind k items).allIds = i :: items.allIds := by
  rw [Tree.allIds_node, Items.entries_ids]
theorem Items.cons_ids {i : Nat} {p : Bytes} {key : RStr} {v : Tree Nat} {rest : Items Nat} :
    (Items.cons i p key v rest).allIds = i :: (v.allIds ++ rest.allIds) := by
  simp only [Items.allIds, Items.entries, List.map_cons, List.map_append, Tree.allIds_eq]

mutual
theorem Tree.map_congr {r' : Nat → Nat} : ∀ {t : Tree Nat}, (∀ y ∈ t.allIds, r y = r' y) → t.map r = t.map r'
  | .leaf i _ _, h => by simp only [Tree.map, h i (by simp [Tree.allIds_leaf])]
  | .node i _ _ _ _ items, h => by
    rw [Tree.node_ids] at h
    simp only [Tree.map, h i (by simp), Items.map_congr (is := items) fun y hy => h y (by simp [hy])]
theorem Items.map_congr {r' : Nat → Nat} : ∀ {is : Items Nat}, (∀ y ∈ is.allIds, r y = r' y) → is.map r = is.map r'
  | .nil, _ => rfl
  | .cons i _ _ v rest, h => by
    rw [Items.cons_ids] at h
    simp only [Items.map, h i (by simp), Tree.map_congr (t := v) fun y hy => h y (by simp [hy]), Items.map_congr (is := rest) fun y hy => h y (by simp [hy])]
end

/-- No other of these ids becomes the same as `x`. -/
def KeepsApart (r : Nat → Nat) (x : Nat) (l : List Nat) : Prop := ∀ y ∈ l, r y = r x → y = x

mutual
theorem Tree.map_find {x : Nat} : ∀ {t : Tree Nat}, KeepsApart r x t.allIds → (t.map r).find (r x) = (t.find x).map (Tree.map r)
  | .leaf i p s, h => by
    have := h i (by simp [Tree.allIds_leaf])
    by_cases hi : i = x
    · simp [Tree.map, Tree.find, hi]
    · simp [Tree.map, Tree.find, hi, show ¬ r i = r x from fun h => hi (this h)]
  | .node i p m ind k items, h => by
    rw [Tree.node_ids] at h
    have := h i (by simp)
    by_cases hi : i = x
    · simp [Tree.map, Tree.find, hi]
    · simp [Tree.map, Tree.find, hi, show ¬ r i = r x from fun h => hi (this h), Items.map_find (is := items) fun y hy => h y (by simp [hy])]
theorem Items.map_find {x : Nat} : ∀ {is : Items Nat}, KeepsApart r x is.allIds → (is.map r).find (r x) = (is.find x).map (Tree.map r)
  | .nil, _ => rfl
  | .cons i p key v rest, h => by
    rw [Items.cons_ids] at h
    simp only [Items.map, Items.find, Tree.map_find (t := v) fun y hy => h y (by simp [hy]), Items.map_find (is := rest) fun y hy => h y (by simp [hy])]
    cases v.find x <;> rfl
end

mutual
theorem Tree.map_upd {x : Nat} {u : Tree Nat} : ∀ {t : Tree Nat}, KeepsApart r x t.allIds → Tree.upd (r x) (u.map r) (t.map r) = (Tree.upd x u t).map r
  | .leaf i p s, h => by
    have := h i (by simp [Tree.allIds_leaf])
    by_cases hi : i = x
    · simp [Tree.map, Tree.upd, hi]
    · simp [Tree.map, Tree.upd, hi, show ¬ r i = r x from fun h => hi (this h)]
  | .node i p m ind k items, h => by
    rw [Tree.node_ids] at h
    have := h i (by simp)
    by_cases hi : i = x
    · simp [Tree.map, Tree.upd, hi]
    · simp [Tree.map, Tree.upd, hi, show ¬ r i = r x from fun h => hi (this h), Items.map_upd (is := items) fun y hy => h y (by simp [hy])]
theorem Items.map_upd {x : Nat} {u : Tree Nat} : ∀ {is : Items Nat}, KeepsApart r x is.allIds → Items.upd (r x) (u.map r) (is.map r) = (Items.upd x u is).map r
  | .nil, _ => rfl
  | .cons i p key v rest, h => by
    rw [Items.cons_ids] at h
    have h1 : KeepsApart r x v.allIds := fun y hy => h y (by simp [hy])
    simp only [Items.map, Items.upd, Tree.map_find h1, Option.isSome_map]
    split
    · simp only [Items.map, Tree.map_upd h1]
    · simp only [Items.map, Items.map_upd (is := rest) fun y hy => h y (by simp [hy])]
end

theorem Items.map_append : ∀ {a b : Items Nat}, (a.append b).map r = (a.map r).append (b.map r)
  | .nil, _ => rfl
  | .cons _ _ _ _ rest, b => by simp only [Items.append, Items.map, Items.map_append (a := rest)]
theorem Items.map_eraseIdx : ∀ {is : Items Nat} {n : Nat}, (is.eraseIdx n).map r = (is.map r).eraseIdx n
  | .nil, _ => rfl
  | .cons _ _ _ _ _, 0 => rfl
  | .cons _ _ _ _ rest, n + 1 => by simp only [Items.eraseIdx, Items.map, Items.map_eraseIdx (is := rest)]
theorem Items.map_lookup {key : Bytes} : ∀ {is : Items Nat}, (is.map r).lookup key = (is.lookup key).map (Tree.map r)
  | .nil => rfl
  | .cons _ _ k _ rest => by
    simp only [Items.lookup, Items.map, Items.map_lookup (is := rest)]
    split <;> rfl
theorem Items.map_indexOf {key : Bytes} : ∀ {is : Items Nat}, (is.map r).indexOf key = is.indexOf key
  | .nil => rfl
  | .cons _ _ k _ rest => by simp only [Items.indexOf, Items.map, Items.map_indexOf (is := rest)]
theorem Items.map_pairs : ∀ {is : Items Nat}, (is.map r).pairs = is.pairs.map fun q => (q.1, q.2.map r)
  | .nil => rfl
  | .cons _ _ _ _ rest => by simp only [Items.pairs, Items.map, Items.map_pairs (is := rest), List.map_cons]

theorem blockIndent_map (u : Tree Nat) : blockIndent (u.map r) = blockIndent u := by cases u <;> rfl
theorem Op.map_scalar (u : Tree Nat) (op : Op) : op.scalar (u.map r) = op.scalar u := by cases op <;> simp only [Op.scalar, blockIndent_map]
theorem Val.map_scalar (u : Tree Nat) (v : Val) : v.scalar (u.map r) = v.scalar u := by cases v <;> simp only [Val.scalar, blockIndent_map]
theorem addPre_map (ind : Nat) (is : Items Nat) : addPre ind (is.map r) = addPre ind is := by simp only [addPre, Items.map_isNil]
theorem pushPre_map (sep : Separator) (is : Items Nat) : pushPre sep (is.map r) = pushPre sep is := by
  cases sep with
  | custom s => rfl
  | auto =>
    simp only [pushPre, Items.map_pairs, List.getLast?_map]
    cases is.pairs.getLast? with
    | none => rfl
    | some q => simp only [Option.map_some, Tree.map_pre]

/-- Edits do the same whatever the ids. -/
theorem Op.tree_map {i v : Nat} {mk : Nat × Bytes} {op : Op} {u : Tree Nat} (hn : u.allIds.Nodup) (h : ∀ x ∈ u.allIds, KeepsApart r x u.allIds) :
    op.tree (r i) (r v) mk (u.map r) = (op.tree i v mk u).map r := by
  unfold Op.tree
  rw [Op.map_scalar]
  cases op.scalar u with
  | some s => simp only [Tree.map_id, Tree.map_pre, Tree.map]
  | none =>
    cases u with
    | leaf x p s => cases op <;> rfl
    | node x p m n k items =>
      have hv : ∀ (val : Val) {m}, val.scalar (.node (r x) p m n k (items.map r)) = val.scalar (.node x p m n k items) := fun val m =>
        Val.map_scalar (.node x p m n k items) val
      cases m
      · cases op <;> simp only [Tree.map, Items.map_append, Items.map, addPre_map, pushPre_map, Items.map_eraseIdx, hv]
      · cases op
        case insert key val =>
          simp only [Tree.map, Items.map_lookup]
          cases hl : items.lookup key with
          | none => simp only [Option.map_none, Tree.map, Items.map_append, Items.map, addPre_map, hv]
          | some w =>
            simp only [Option.map_some, hv]
            have hw : w.id ∈ (Tree.node x p true n k items).allIds := by
              obtain ⟨j, key', hp, _⟩ := Items.lookup_mem hl
              exact Tree.find_mem (Tree.find_pair hn hp)
            rw [← Tree.map_upd (h _ hw)]
            simp only [Tree.map, Tree.map_id, Tree.map_pre]
        case remove key =>
          simp only [Tree.map, Items.map_indexOf]
          cases items.indexOf key <;> simp only [Tree.map, Items.map_eraseIdx]
        all_goals rfl

mutual
theorem Tree.map_self : ∀ t : Tree Nat, t.map (fun i => i) = t
  | .leaf _ _ _ => rfl
  | .node _ _ _ _ _ items => by rw [Tree.map, Items.map_self items]
theorem Items.map_self : ∀ is : Items Nat, is.map (fun i => i) = is
  | .nil => rfl
  | .cons _ _ _ v rest => by rw [Items.map, Tree.map_self v, Items.map_self rest]
end

theorem keepsApart_of {l : List Nat} (h : (l.map r).Nodup) : ∀ x ∈ l, KeepsApart r x l := by
  intro x hx y hy he
  obtain ⟨i, hi, rfl⟩ := List.getElem_of_mem hx
  obtain ⟨j, hj, rfl⟩ := List.getElem_of_mem hy
  have := (List.getElem_inj (h₀ := by simpa using hj) (h₁ := by simpa using hi) h).1 (by simpa using he)
  simp only [this]

/-- The documents differ in their ids only. -/
def Alike (doc doc' : Document) : Prop := doc.suffix = doc'.suffix ∧ ∃ t r, Holds doc t ∧ Holds doc' (t.map r)

theorem Holds.mem {doc : Document} {t : Tree Nat} (h : Holds doc t) {j : Nat} {e : Entry} (he : doc.data.slab.get j = some e) : (j, e) ∈ t.entries none := by
  have hj := h.full j e he
  rw [Tree.allIds, List.mem_map] at hj
  obtain ⟨⟨j', e'⟩, h1, rfl⟩ := hj
  have := h.rep _ _ h1
  rw [he] at this
  cases this
  exact h1

theorem Holds.get_map {doc doc' : Document} {t : Tree Nat} (h : Holds doc t) (h' : Holds doc' (t.map r)) {j : Nat} {e : Entry} (he : doc.data.slab.get j = some e) :
    doc'.data.slab.get (r j) = some (e.map r) := by
  refine h'.rep _ _ ?_
  rw [show (none : Option Nat) = Option.map r none from rfl, Tree.map_entries]
  exact List.mem_map.2 ⟨_, h.mem he, rfl⟩

theorem Holds.makeIndent_map {doc doc' : Document} {t w : Tree Nat} {x : Nat} (h : Holds doc t) (h' : Holds doc' (t.map r)) (hf : t.find x = some w) :
    Verif.makeIndent doc'.data (r x) 0 = Verif.makeIndent doc.data x 0 := by
  rcases h.parent hf with ⟨_, hx⟩ | ⟨c, cpre, m, ind, k, items, i, ip, key, n, q, _, _, _, hc, hi, hx⟩
  · have hx' := h.get_map h' hx
    simp only [Verif.makeIndent, entry_of hx, entry_of hx', Entry.map, bind, Except.bind, pure, Except.pure, Option.map_none]
  · have hx' := h.get_map h' hx
    have hi' := h.get_map h' hi
    have hc' := h.get_map h' hc
    simp only [Entry.map, Option.map_some] at hx' hi' hc'
    simp only [Verif.makeIndent, entry_of hx, entry_of hi, entry_of hc, entry_of hx', entry_of hi', entry_of hc', bind, Except.bind, pure, Except.pure]
    cases m <;> rfl

theorem Tree.find_ids {t u : Tree Nat} {x : Nat} (h : t.find x = some u) : ∀ y ∈ u.allIds, y ∈ t.allIds := by
  obtain ⟨p, A, B, ra, rb, h0, h1⟩ := Tree.focus none h
  have := (h1 u (Tree.find_id h)).2.1
  rw [h0] at this
  intro y hy
  rw [Tree.allIds, this]
  rw [← u.allIds_eq p] at hy
  simp [hy]

/-- The same edit at the same place. -/
theorem Alike.edit {doc doc' : Document} {t u : Tree Nat} {x : Nat} (hs : doc.suffix = doc'.suffix) (h : Holds doc t) (h' : Holds doc' (t.map r)) (hf : t.find x = some u)
    (op : Op) : ∃ d d', doc.edit x op = .ok d ∧ doc'.edit (r x) op = .ok d' ∧ Alike d d' := by
  have hap := keepsApart_of (by rw [← Tree.map_allIds]; exact h'.nodup)
  have hx := Tree.find_mem hf
  have hf' : (t.map r).find (r x) = some (u.map r) := by rw [Tree.map_find (hap x hx), hf]; rfl
  obtain ⟨d, i, v, mk, h1, h2, h3, h4⟩ := h.editTree hf op
  obtain ⟨d', i', v', mk', h1', h2', h3', h4'⟩ := h'.editTree hf' op
  rw [h.makeIndent_map h' hf, h3] at h3'
  cases h3'
  refine ⟨{ doc with data := d }, { doc' with data := d' }, by simp only [Document.edit, h1, bind, Except.bind, pure, Except.pure], by simp only [Document.edit, h1', bind, Except.bind, pure, Except.pure], hs, _,
    fun y => if y = i then i' else if y = v then v' else r y, h4, ?_⟩
  have hnot : ∀ y ∈ t.allIds, y ≠ i ∧ y ≠ v := by
    intro y hy
    rw [Tree.allIds, List.mem_map] at hy
    obtain ⟨⟨y, e⟩, hy, rfl⟩ := hy
    have := h.rep _ _ hy
    constructor
    · rintro rfl; rw [h2.item] at this; cases this
    · rintro rfl; rw [h2.value] at this; cases this
  generalize hr : (fun y => if y = i then i' else if y = v then v' else r y) = r'
  have hr' : ∀ y ∈ t.allIds, r y = r' y := by
    intro y hy
    rw [← hr]; simp only [if_neg (hnot y hy).1, if_neg (hnot y hy).2]
  have hi : r' i = i' := by rw [← hr]; simp
  have hv : r' v = v' := by rw [← hr]; simp only [if_neg (Ne.symm h2.ne), if_true]
  have hap' : ∀ x ∈ t.allIds, KeepsApart r' x t.allIds := by
    intro x hx y hy he
    rw [← hr' _ hx, ← hr' _ hy] at he
    exact hap x hx y hy he
  have hu : ∀ x ∈ u.allIds, KeepsApart r' x u.allIds := fun x hx y hy => hap' x (Tree.find_ids hf x hx) y (Tree.find_ids hf y hy)
  obtain ⟨p, ha⟩ := h.at hf
  rw [← Tree.map_upd (hap' x hx), ← Op.tree_map ha.nodup hu, hi, hv, ← Tree.map_congr hr', ← hr' x hx, ← Tree.map_congr fun y hy => hr' y (Tree.find_ids hf y hy)]
  exact h4'

end Verif
