import Verif.Props.Commute
import Verif.Props.Maps
import Verif.Props.Seqs
/-
An entry or item that is added and removed again leaves no trace (C64).
-/
namespace Verif

/-- Edits of values that are `v` or below it. -/
inductive EditsBelow (v : Nat) : Document → Document → Prop
  | none {doc : Document} : EditsBelow v doc doc
  | edit {doc doc₁ doc₂ : Document} {y : Nat} {op : Op} : EditsBelow v doc doc₁ → Below doc₁.data v y → doc₁.edit y op = .ok doc₂ → EditsBelow v doc doc₂

theorem Items.upd_append {x : Nat} {u : Tree Nat} : ∀ {a b : Items Nat}, a.find x = none → Items.upd x u (a.append b) = a.append (Items.upd x u b)
  | .nil, b, _ => rfl
  | .cons i p key v rest, b, h => by
    simp only [Items.find, Option.or_eq_none_iff] at h
    simp [Items.append, Items.upd, h.1, Items.upd_append h.2]

theorem Items.indexOf_append (key : Bytes) : ∀ {a b : Items Nat}, a.indexOf key = none → (a.append b).indexOf key = (b.indexOf key).map (· + a.ids.length)
  | .nil, b, _ => by simp [Items.append, Items.ids]
  | .cons i p k v rest, b, h => by
    simp only [Items.indexOf] at h
    split at h
    · cases h
    · next hk =>
      simp only [Option.map_eq_none_iff] at h
      simp only [Items.append, Items.indexOf, hk, Items.indexOf_append key h, Items.ids, List.length_cons, Option.map_map]
      cases b.indexOf key <;> simp; omega

theorem Items.eraseIdx_append {α : Type} : ∀ (a : Items α) {i : α} {p : Bytes} {key : RStr} {v : Tree α}, (a.append (.cons i p key v .nil)).eraseIdx a.ids.length = a
  | .nil, _, _, _, _ => rfl
  | .cons _ _ _ _ rest, _, _, _, _ => by simp [Items.append, Items.ids, Items.eraseIdx, Items.eraseIdx_append rest]

/-- Edits below the last item of a collection. -/
theorem EditsBelow.holds {t u : Tree Nat} {x i v : Nat} {pre p : Bytes} {m : Bool} {ind : Nat} {k : CollKind} {items : Items Nat} {key : RStr}
    (hu : t.find x = some u) {doc doc' : Document} (he : EditsBelow v doc doc') {w : Tree Nat} (hw : w.id = v)
    (h : Holds doc (Tree.upd x (.node x pre m ind k (items.append (.cons i p key w .nil))) t)) :
    ∃ w', w'.id = v ∧ doc'.suffix = doc.suffix ∧ Holds doc' (Tree.upd x (.node x pre m ind k (items.append (.cons i p key w' .nil))) t) := by
  induction he with
  | none => exact ⟨w, hw, rfl, h⟩
  | @edit doc₁ doc₂ y op _ hb ho ih =>
    obtain ⟨w, hw, hs, h⟩ := ih
    have hx := Tree.find_upd hu (u' := .node x pre m ind k (items.append (.cons i p key w .nil))) rfl
    obtain ⟨q, ha⟩ := h.at hx
    have hpair : (items.append (.cons i p key w .nil)).pairs[items.ids.length]? = some (key, w) := by
      rw [Items.pairs_append, ← Items.length_pairs]
      simp [Items.pairs]
    have hv : (Tree.node x pre m ind k (items.append (.cons i p key w .nil))).find v = some w := by
      rw [← hw]; exact Tree.find_pair ha.nodup hpair
    have htv := Tree.find_trans h.nodup hx hv
    obtain ⟨z, hz⟩ := (h.below_iff htv y).1 hb
    obtain ⟨d', a, b, mk, h1, _, _, h2⟩ := h.editTree (Tree.find_trans h.nodup htv hz) op
    have : doc₂ = ⟨doc₁.suffix, doc₁.root, d'⟩ := by
      simp [Document.edit, h1, bind, Except.bind, pure, Except.pure] at ho; exact ho.symm
    subst this
    have hz' : (op.tree a b mk z).id = y := Op.tree_id.trans (Tree.find_id hz)
    generalize op.tree a b mk z = z' at h2 hz'
    obtain ⟨_, _, _, _, _, _, hfoc⟩ := Tree.focus Option.none hz
    refine ⟨Tree.upd y z' w, (hfoc z' hz').1.trans hw, hs, ?_⟩
    rw [Tree.upd_upd h.nodup htv hz, Tree.upd_upd h.nodup hx hv, Tree.upd_same (x := x) (w := .node x pre m ind k (items.append (.cons i p key w .nil))) rfl hu] at h2
    have hN : Tree.upd v (Tree.upd y z' w) (.node x pre m ind k (items.append (.cons i p key w .nil))) =
        .node x pre m ind k (items.append (.cons i p key (Tree.upd y z' w) .nil)) := by
      have hn := ha.nodup
      rw [Tree.allIds_node, List.nodup_cons, Items.entries_append] at hn
      have hwv : w.find v = some w := by rw [← hw]; exact w.find_self
      have hm : v ∈ ((Items.cons i p key w .nil).entries x m).map (·.1) := Items.find_mem (u := w) x m (by simp [Items.find, hwv])
      have hxv : x ≠ v := by
        rintro rfl
        rw [List.map_append, List.mem_append] at hn
        exact hn.1 (.inr hm)
      have hi : items.find v = Option.none := by
        cases hc : items.find v with
        | none => rfl
        | some z =>
          exfalso
          have h1 := Items.find_mem x m hc
          have h2 := hn.2
          rw [List.map_append, List.nodup_append] at h2
          exact h2.2.2 _ h1 v hm rfl
      rw [Tree.upd, if_neg hxv, Items.upd_append hi]
      have hup : ∀ w', Tree.upd v w' w = w' := by
        intro w'
        rw [← hw]
        cases w <;> simp [Tree.upd, Tree.id]
      simp [Items.upd, hwv, hup]
    rw [hN] at h2
    exact h2

theorem Items.lookup_append {key : Bytes} {js : Items Nat} : ∀ {is : Items Nat}, is.lookup key = none → (is.append js).lookup key = js.lookup key
  | .nil, _ => rfl
  | .cons _ _ k v rest, h => by
    simp only [Items.lookup, Items.append] at h ⊢
    split at h
    · cases h
    · rename_i hc
      rw [if_neg hc, Items.lookup_append h]

/-- The last item is removed again. -/
theorem Holds.undo {t : Tree Nat} {x i v : Nat} {pre p : Bytes} {m : Bool} {ind : Nat} {k : CollKind} {items : Items Nat} {key : RStr} {w : Tree Nat} {op : Op}
    {doc doc₁ doc₂ : Document} (h : Holds doc t) (hu : t.find x = some (.node x pre m ind k items)) (hs : doc₁.suffix = doc.suffix) (hw : w.id = v)
    (h1 : Holds doc₁ (Tree.upd x (.node x pre m ind k (items.append (.cons i p key w .nil))) t)) (h2 : EditsBelow v doc₁ doc₂)
    (ho : ∀ w' a b mk, op.tree a b mk (.node x pre m ind k (items.append (.cons i p key w' .nil))) = .node x pre m ind k items) :
    ∃ doc₃, doc₂.edit x op = .ok doc₃ ∧ SameDoc doc₃ doc := by
  obtain ⟨w', -, hs2, h4⟩ := h2.holds hu hw h1
  obtain ⟨d', a, b, mk, h5, -, -, h6⟩ := h4.editTree (Tree.find_upd hu rfl) op
  obtain ⟨_, _, _, _, _, h0, _⟩ := Tree.focus Option.none hu
  rw [ho, Tree.upd_same (x := x) rfl hu, h0] at h6
  exact ⟨_, by simp [Document.edit, h5, bind, Except.bind, pure, Except.pure], h6.same h (hs2.trans hs)⟩

/-- C64: a new entry of a mapping that is removed again, after any edits of its value and what is below it, leaves the document as it was. -/
theorem C64_insert {doc doc₁ doc₂ : Document} (h : Reachable doc) {x v : Nat} (hx : Live doc x) {key : Bytes} {val : Val}
    (hk : mapGet doc.data x key = .ok none) (h1 : doc.edit x (.insert key val) = .ok doc₁) (hv : mapGet doc₁.data x key = .ok (some v))
    (h2 : EditsBelow v doc₁ doc₂) :
    ∃ doc₃, doc₂.edit x (.remove key) = .ok doc₃ ∧ SameDoc doc₃ doc := by
  obtain ⟨t, ht⟩ := h.holds
  obtain ⟨u, hu⟩ := (ht.live_iff x).1 hx
  obtain ⟨q, ha⟩ := ht.at hu
  have hg := ha.get
  rcases ht.kindOf hu with ⟨pre, s, rfl, _⟩ | ⟨pre, ind, k, items, rfl, _⟩ | ⟨pre, ind, k, items, rfl, _⟩
  · cases s <;> simp [mapGet, Data.mapping, hg, Tree.raw, Scalar.toRaw, bind, Except.bind] at hk
  · rw [ha.mapGet key] at hk
    have hl : items.lookup key = none := by simpa using hk
    obtain ⟨d', i, w, mk, h5, -, -, h6⟩ := ht.editTree hu (.insert key val)
    have : doc₁ = ⟨doc.suffix, doc.root, d'⟩ := by
      simp [Document.edit, h5, bind, Except.bind, pure, Except.pure] at h1; exact h1.symm
    subst this
    simp only [Op.tree, Op.scalar, hl] at h6
    have hix := (lookup_indexOf key items).1 hl
    obtain ⟨q', ha'⟩ := h6.at (Tree.find_upd hu rfl)
    have hwv : w = v := by
      have h7 := ha'.mapGet key
      rw [Items.lookup_append hl] at h7
      simpa [Items.lookup, Tree.id] using h7.symm.trans hv
    subst hwv
    refine ht.undo (doc₁ := ⟨doc.suffix, doc.root, d'⟩) hu rfl rfl h6 h2 fun w' a b mk => ?_
    simp only [Op.tree, Op.scalar, Items.indexOf_append key hix, Items.indexOf, BEq.rfl, if_true, Option.map_some, Nat.zero_add, Items.eraseIdx_append]
  · simp [mapGet, Data.mapping, hg, Tree.raw, collRaw, bind, Except.bind] at hk

/-- The same for an item that is pushed to a sequence. -/
theorem C64_push {doc doc₁ doc₂ : Document} (h : Reachable doc) {x v : Nat} (hx : Live doc x) {L : List Nat} {val : Val}
    (hL : seqValues doc.data x = .ok L) (h1 : doc.edit x (.push val) = .ok doc₁) (hv : seqGet doc₁.data x L.length = .ok (some v))
    (h2 : EditsBelow v doc₁ doc₂) :
    ∃ doc₃, doc₂.edit x (.removeAt L.length) = .ok doc₃ ∧ SameDoc doc₃ doc := by
  obtain ⟨t, ht⟩ := h.holds
  obtain ⟨pre, ind, k, items, p, hu, ha, rfl⟩ := ht.seqNode hx hL
  obtain ⟨d', i, w, mk, h5, -, -, h6⟩ := ht.editTree hu (.push val)
  have : doc₁ = ⟨doc.suffix, doc.root, d'⟩ := by
    simp [Document.edit, h5, bind, Except.bind, pure, Except.pure] at h1; exact h1.symm
  subst this
  simp only [Op.tree, Op.scalar] at h6
  obtain ⟨q', ha'⟩ := h6.at (Tree.find_upd hu rfl)
  have hwv : w = v := by
    have h7 := ha'.seqGet items.pairs.length
    rw [List.length_map] at hv
    simpa [Items.pairs_append, Items.pairs, Tree.id] using h7.symm.trans hv
  subst hwv
  refine ht.undo (doc₁ := ⟨doc.suffix, doc.root, d'⟩) hu rfl rfl h6 h2 fun w' a b mk => ?_
  simp only [Op.tree, Op.scalar, List.length_map, Items.length_pairs, Items.eraseIdx_append]

/-- A nested mapping is made at a new key, with an entry in it. -/
example : ∃ doc₃, (((sample.after 8 (.insert (b! "new") (.null .auto))).after 20 .makeMapping).after 20 (.insert (b! "z") (.bool true))).edit 8 (.remove (b! "new")) = .ok doc₃ ∧
    SameDoc doc₃ sample :=
  C64_insert (doc₁ := sample.after 8 (.insert (b! "new") (.null .auto))) (v := 20) sample_reachable sample_live_inner (val := .null .auto) (by decide) (by decide) (by decide)
    (.edit (op := .insert (b! "z") (.bool true)) (.edit (op := .makeMapping) (doc₂ := (sample.after 8 (.insert (b! "new") (.null .auto))).after 20 .makeMapping) .none .self (by decide))
      .self (by decide))

/-- What is written in between: the text with the new entry. -/
example : (((sample.after 8 (.insert (b! "new") (.null .auto))).after 20 .makeMapping).after 20 (.insert (b! "z") (.bool true))).write ≠ sample.write := by decide

/-- An item that is pushed and set. -/
example : ∃ doc₃, ((sample.after 4 (.push (.null .auto))).after 20 (.setString (b! "x"))).edit 4 (.removeAt 2) = .ok doc₃ ∧ SameDoc doc₃ sample :=
  C64_push (doc₁ := sample.after 4 (.push (.null .auto))) (v := 20) (L := [6, 8]) sample_reachable sample_live_list (val := .null .auto) (by decide) (by decide) (by decide)
    (.edit (op := .setString (b! "x")) .none .self (by decide))

end Verif
