import Verif.Focus
/-
Changing the arena below one value: the master lemma for edits, and its instances.
-/
namespace Verif
set_option linter.unusedSimpArgs false

theorem Tree.allIds_eq_cons (t : Tree Nat) : t.allIds = t.id :: t.kids.map (·.1) := by
  simp [Tree.allIds, Tree.entries_eq]

mutual
theorem Tree.find_self : ∀ t : Tree Nat, t.find t.id = some t
  | .leaf _ _ _ => by simp [Tree.find]
  | .node _ _ _ _ _ _ => by simp [Tree.find]
end

/-- What is known of the value with id `x` in a document. -/
structure At (doc : Document) (x : Nat) (u : Tree Nat) (p : Option Nat) : Prop where
  id : u.id = x
  get : doc.data.slab.get x = some ⟨u.raw, u.pre, p⟩
  rep : Rep doc.data p u
  nodup : u.allIds.Nodup
  fuel : u.depth ≤ doc.data.fuel

theorem Holds.at {doc : Document} {t u : Tree Nat} {x : Nat} (h : Holds doc t) (hf : t.find x = some u) :
    ∃ p, At doc x u p := by
  obtain ⟨p, A, B, ra, rb, h0, h1⟩ := Tree.focus none hf
  have hid := Tree.find_id hf
  have he := (h1 u hid).2.1
  rw [h0] at he
  have hrep : Rep doc.data p u := fun i e hi => h.rep i e (by rw [he]; simp [hi])
  have hnd : u.allIds.Nodup := by
    have := h.nodup
    rw [Tree.allIds, he] at this
    simp only [List.map_append, List.nodup_append] at this
    rw [← u.allIds_eq p]
    exact this.1.2.1
  refine ⟨p, hid, ?_, hrep, hnd, ?_⟩
  · have := hrep.head; rwa [hid] at this
  · have := hrep.size_le hnd
    have := u.depth_le
    unfold Data.fuel; omega

/-- Master lemma: an arena that differs from the document's only below `x`, where it now holds
`u'`, holds the updated tree. -/
theorem Holds.patch {doc : Document} {t u u' : Tree Nat} {x : Nat} {p : Option Nat} {d' : Data} (h : Holds doc t)
    (hf : t.find x = some u) (ha : At doc x u p) (hid : u'.id = x) (hs : d'.slab.OK)
    (hrep : Rep d' p u') (hnd : u'.allIds.Nodup)
    (hsame : ∀ i, i ∉ u.allIds → i ∉ u'.allIds → d'.slab.get i = doc.data.slab.get i)
    (hgone : ∀ i, i ∈ u.allIds → i ∉ u'.allIds → d'.slab.get i = none)
    (hnew : ∀ i, i ∈ u'.allIds → i ∉ u.allIds → doc.data.slab.get i = none) :
    Holds ⟨doc.suffix, doc.root, d'⟩ (Tree.upd x u' t) := by
  obtain ⟨q, A, B, ra, rb, h0, h1⟩ := Tree.focus none hf
  have he := (h1 u ha.id).2.1
  rw [h0] at he
  have he' := (h1 u' hid).2.1
  have hq : q = p := by
    have := h.rep x ⟨u.raw, u.pre, q⟩ (by rw [he, Tree.entries_eq, ha.id]; simp)
    rw [ha.get] at this
    simpa using this.symm
  subst hq
  have hnt := h.nodup
  rw [Tree.allIds, he] at hnt
  simp only [List.map_append, List.nodup_append, List.mem_append, Tree.allIds_eq] at hnt
  obtain ⟨⟨hA, hu, hAu⟩, hB, hAB⟩ := hnt
  -- ids outside `u` that carry an entry of the old tree are outside `u'`
  have out : ∀ i e, (i, e) ∈ t.entries none → i ∉ u.allIds → i ∉ u'.allIds := fun i e hi hn hn' => by
    have := hnew i hn' hn
    rw [h.rep i e hi] at this; cases this
  have memA : ∀ i e, (i, e) ∈ A → (i, e) ∈ t.entries none ∧ i ∉ u.allIds := fun i e hi =>
    ⟨by rw [he]; simp [hi], fun hc => hAu i (List.mem_map.2 ⟨_, hi, rfl⟩) i hc rfl⟩
  have memB : ∀ i e, (i, e) ∈ B → (i, e) ∈ t.entries none ∧ i ∉ u.allIds := fun i e hi =>
    ⟨by rw [he]; simp [hi], fun hc => hAB i (.inr hc) i (List.mem_map.2 ⟨_, hi, rfl⟩) rfl⟩
  have idA : ∀ i, i ∈ A.map (·.1) → i ∉ u'.allIds := fun i hi => by
    obtain ⟨⟨j, e⟩, hj, rfl⟩ := List.mem_map.1 hi
    exact out j e (memA j e hj).1 (memA j e hj).2
  have idB : ∀ i, i ∈ B.map (·.1) → i ∉ u'.allIds := fun i hi => by
    obtain ⟨⟨j, e⟩, hj, rfl⟩ := List.mem_map.1 hi
    exact out j e (memB j e hj).1 (memB j e hj).2
  refine ⟨?_, ?_, ?_, ?_, hs⟩
  · rw [(h1 u' hid).1]; exact h.root
  · intro i e hi
    rw [he'] at hi
    simp only [List.mem_append] at hi
    rcases hi with (hi | hi) | hi
    · obtain ⟨ht, hn⟩ := memA i e hi
      simp only
      rw [hsame i hn (out i e ht hn)]; exact h.rep i e ht
    · exact hrep i e hi
    · obtain ⟨ht, hn⟩ := memB i e hi
      simp only
      rw [hsame i hn (out i e ht hn)]; exact h.rep i e ht
  · rw [Tree.allIds, he']
    simp only [List.map_append, List.nodup_append, List.mem_append, Tree.allIds_eq]
    refine ⟨⟨hA, hnd, fun a ha b hb hab => idA a ha (hab ▸ hb)⟩, hB, fun a ha b hb hab => ?_⟩
    rcases ha with ha | ha
    · exact hAB a (.inl ha) b hb hab
    · exact idB b hb (hab ▸ ha)
  · intro i e hi
    rw [Tree.allIds, he']
    simp only [List.map_append, List.mem_append, Tree.allIds_eq]
    by_cases hu' : i ∈ u'.allIds
    · exact .inl (.inr hu')
    · by_cases hiu : i ∈ u.allIds
      · simp only at hi
        rw [hgone i hiu hu'] at hi; cases hi
      · simp only at hi
        rw [hsame i hiu hu'] at hi
        have := h.full i e hi
        rw [Tree.allIds, he] at this
        simp only [List.map_append, List.mem_append, Tree.allIds_eq] at this
        rcases this with (h | h) | h
        · exact .inl (.inl h)
        · exact absurd h hiu
        · exact .inr h

/-! ### Replacing a value by one without children -/

theorem Data.replace_eq {d : Data} {x : Nat} {e : Entry} (h : d.slab.get x = some e) (raw : Raw) :
    d.replace x raw = d.replaceWith x e.pre raw := by
  simp [Data.replace, Data.replaceWith, h]

theorem Holds.replaceWith {doc : Document} {t u u' : Tree Nat} {x : Nat} (h : Holds doc t)
    (hf : t.find x = some u) (hid : u'.id = x) (hk : u'.kids = []) :
    ∃ d', doc.data.replaceWith x u'.pre u'.raw = .ok d' ∧ Holds ⟨doc.suffix, doc.root, d'⟩ (Tree.upd x u' t) := by
  obtain ⟨p, ha⟩ := h.at hf
  have hnd := ha.nodup
  rw [Tree.allIds_eq_cons, List.nodup_cons, ha.id] at hnd
  have hset := Slab.get_set ha.get (b := ⟨u'.raw, u'.pre, p⟩)
  obtain ⟨d', e1, D⟩ := dropKindF_tree (t := u) (d := ⟨doc.data.slab.set x ⟨u'.raw, u'.pre, p⟩⟩)
    (f := Data.fuel ⟨doc.data.slab.set x ⟨u'.raw, u'.pre, p⟩⟩) (h.slab.set ha.get)
    (fun i e hi => by
      rw [hset, if_neg]
      · exact ha.rep i e (by rw [Tree.entries_eq]; simp [hi])
      · rintro rfl; exact hnd.1 (List.mem_map.2 ⟨_, hi, rfl⟩)) hnd.2
    (by have := ha.fuel; simpa [Data.fuel, Slab.set] using this)
  have hids : u'.allIds = [x] := by rw [Tree.allIds_eq_cons, hk, hid]; rfl
  have huids : u.allIds = x :: u.kids.map (·.1) := by rw [Tree.allIds_eq_cons, ha.id]
  have hget : ∀ i, d'.slab.get i = if i ∈ u.kids.map (·.1) then none else if i = x then some ⟨u'.raw, u'.pre, p⟩
      else doc.data.slab.get i := fun i => by rw [D.get, hset]
  refine ⟨d', ?_, h.patch hf ha hid D.ok ?_ (by simp [hids]) ?_ ?_ ?_⟩
  · simp only [Data.replaceWith, ha.get, Data.dropKind]; exact e1
  · intro i e hi
    rw [Tree.entries_eq, hk, hid] at hi
    simp only [List.mem_singleton, Prod.mk.injEq] at hi
    obtain ⟨rfl, rfl⟩ := hi
    rw [hget, if_neg hnd.1, if_pos rfl]
  · intro i h1 h2
    rw [huids] at h1; rw [hids] at h2
    simp only [List.mem_cons, not_or] at h1
    rw [hget, if_neg h1.2, if_neg h1.1]
  · intro i h1 h2
    rw [huids] at h1; rw [hids] at h2
    simp only [List.mem_cons, List.mem_singleton, not_or] at h1 h2
    rw [hget, if_pos (h1.resolve_left h2.1)]
  · intro i h1 h2
    rw [hids] at h1; rw [huids] at h2
    simp only [List.mem_cons, List.mem_singleton, not_or] at h1 h2
    rcases h1 with h1 | h1
    · exact absurd h1 h2.1
    · cases h1

/-- `replace` with a scalar. -/
theorem Holds.setScalar {doc : Document} {t u : Tree Nat} {x : Nat} (h : Holds doc t) (hf : t.find x = some u)
    (s : Scalar) :
    ∃ d', doc.data.replace x s.toRaw = .ok d' ∧
      Holds ⟨doc.suffix, doc.root, d'⟩ (Tree.upd x (.leaf x u.pre s) t) := by
  obtain ⟨p, ha⟩ := h.at hf
  rw [Data.replace_eq ha.get]
  exact h.replaceWith hf (u' := .leaf x u.pre s) rfl rfl

end Verif
