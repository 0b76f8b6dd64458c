import Verif.Focus
/-
Which arenas hold a tree: a condition on the entries alone.
-/
namespace Verif

/-- A value, not the item of a collection that holds it. -/
def Raw.isVal : Raw → Bool
  | .mappingItem _ _ | .sequenceItem _ => false
  | _ => true

/-- The entry `i` refers to the entry `j`: as one of its items, or as its value. -/
inductive Leads (d : Data) (i j : Nat) : Prop
  | mapping {c p par} : d.slab.get i = some ⟨.mapping c, p, par⟩ → j ∈ c.items → Leads d i j
  | sequence {c p par} : d.slab.get i = some ⟨.sequence c, p, par⟩ → j ∈ c.items → Leads d i j
  | mappingItem {k p par} : d.slab.get i = some ⟨.mappingItem k j, p, par⟩ → Leads d i j
  | sequenceItem {p par} : d.slab.get i = some ⟨.sequenceItem j, p, par⟩ → Leads d i j

/-- The entry `j` is `i` or is referred to from it, in any number of steps. -/
inductive Desc (d : Data) (i : Nat) : Nat → Prop
  | self : Desc d i i
  | step {j k} : Desc d i j → Leads d j k → Desc d i k

/-- The entries fit together: the root is a value without a parent; what a mapping lists are items of mappings, what a sequence lists are items of sequences, each listed once; what is
in an item is a value; what is referred to names what refers to it as its parent; and nothing is left over. -/
structure Sane (doc : Document) : Prop where
  root : ∃ e, doc.data.slab.get doc.root = some e ∧ e.raw.isVal = true ∧ e.parent = none
  mapping : ∀ i c p par, doc.data.slab.get i = some ⟨.mapping c, p, par⟩ → c.items.Nodup ∧ ∀ j ∈ c.items, ∃ k v q par, doc.data.slab.get j = some ⟨.mappingItem k v, q, par⟩
  sequence : ∀ i c p par, doc.data.slab.get i = some ⟨.sequence c, p, par⟩ → c.items.Nodup ∧ ∀ j ∈ c.items, ∃ v q par, doc.data.slab.get j = some ⟨.sequenceItem v, q, par⟩
  item : ∀ i e v, doc.data.slab.get i = some e → e.raw.isVal = false → Leads doc.data i v → ∃ e', doc.data.slab.get v = some e' ∧ e'.raw.isVal = true
  parent : ∀ i j e, Leads doc.data i j → doc.data.slab.get j = some e → e.parent = some i
  reached : ∀ i e, doc.data.slab.get i = some e → Desc doc.data doc.root i

theorem Desc.trans {d : Data} {i j k : Nat} (h : Desc d i j) (h' : Desc d j k) : Desc d i k := by
  induction h' with
  | self => exact h
  | step _ hl ih => exact .step ih hl

theorem Desc.head {d : Data} {i j k : Nat} (h : Leads d i j) (h' : Desc d j k) : Desc d i k := Desc.trans (.step .self h) h'

theorem Desc.cases_head {d : Data} {i k : Nat} (h : Desc d i k) : i = k ∨ ∃ j, Leads d i j ∧ Desc d j k := by
  induction h with
  | self => exact .inl rfl
  | @step j k _ hl ih =>
    rcases ih with rfl | ⟨m, h1, h2⟩
    · exact .inr ⟨k, hl, .self⟩
    · exact .inr ⟨m, h1, .step h2 hl⟩

/-- The number of steps from the root. -/
inductive Rank (doc : Document) : Nat → Nat → Prop
  | root {i} : i = doc.root → Rank doc 0 i
  | step {n i j} : Rank doc n i → Leads doc.data i j → Rank doc (n + 1) j

namespace Sane
variable {doc : Document} (h : Sane doc)
include h

theorem get {i j : Nat} (hl : Leads doc.data i j) : ∃ e, doc.data.slab.get j = some e := by
  cases hl with
  | mapping h1 h2 => obtain ⟨k, v, q, par, h3⟩ := (h.mapping _ _ _ _ h1).2 _ h2; exact ⟨_, h3⟩
  | sequence h1 h2 => obtain ⟨v, q, par, h3⟩ := (h.sequence _ _ _ _ h1).2 _ h2; exact ⟨_, h3⟩
  | mappingItem h1 => obtain ⟨e, h2, -⟩ := h.item _ _ _ h1 rfl (.mappingItem h1); exact ⟨e, h2⟩
  | sequenceItem h1 => obtain ⟨e, h2, -⟩ := h.item _ _ _ h1 rfl (.sequenceItem h1); exact ⟨e, h2⟩

theorem leads_unique {i i' j : Nat} (h1 : Leads doc.data i j) (h2 : Leads doc.data i' j) : i = i' := by
  obtain ⟨e, he⟩ := h.get h1
  exact Option.some.inj ((h.parent _ _ _ h1 he).symm.trans (h.parent _ _ _ h2 he))

theorem not_root {i : Nat} (h1 : Leads doc.data i doc.root) : False := by
  obtain ⟨e, he, -, hn⟩ := h.root
  have := h.parent _ _ _ h1 he
  rw [hn] at this; cases this

theorem rank_unique {m n i : Nat} (h1 : Rank doc m i) (h2 : Rank doc n i) : m = n := by
  induction h1 generalizing n with
  | root hi =>
    cases h2 with
    | root => rfl
    | step _ hl => exact (h.not_root (hi ▸ hl)).elim
  | step _ hl ih =>
    cases h2 with
    | root hi => exact (h.not_root (hi ▸ hl)).elim
    | step h3 hl' =>
      obtain rfl := h.leads_unique hl hl'
      rw [ih h3]

theorem rank_get {n i : Nat} (hr : Rank doc n i) : ∃ e, doc.data.slab.get i = some e := by
  cases hr with
  | root hi => subst hi; obtain ⟨e, he, -⟩ := h.root; exact ⟨e, he⟩
  | step _ hl => exact h.get hl

theorem rank_lt {n i : Nat} (hr : Rank doc n i) : n < doc.data.slab.slots.length := by
  suffices ∃ l : List Nat, l.length = n + 1 ∧ l.Nodup ∧ ∀ x ∈ l, x < doc.data.slab.slots.length ∧ ∃ m, m ≤ n ∧ Rank doc m x by
    obtain ⟨l, h1, h2, h3⟩ := this
    have := length_le_of_nodup_lt _ l h2 fun x hx => (h3 x hx).1
    omega
  induction hr with
  | root hi =>
    obtain ⟨e, he⟩ := h.rank_get (.root hi)
    exact ⟨[_], rfl, by simp, fun x hx => by obtain rfl := List.mem_singleton.1 hx; exact ⟨Slab.get_lt he, 0, Nat.le_refl _, .root hi⟩⟩
  | @step n i j hr hl ih =>
    obtain ⟨l, h1, h2, h3⟩ := ih
    have hj : Rank doc (n + 1) j := .step hr hl
    obtain ⟨e, he⟩ := h.rank_get hj
    refine ⟨j :: l, by simp [h1], List.nodup_cons.2 ⟨fun hm => ?_, h2⟩, fun x hx => ?_⟩
    · obtain ⟨-, m, hm1, hm2⟩ := h3 j hm
      have := h.rank_unique hj hm2
      omega
    · rcases List.mem_cons.1 hx with rfl | hx
      · exact ⟨Slab.get_lt he, n + 1, Nat.le_refl _, hj⟩
      · obtain ⟨g1, m, g2, g3⟩ := h3 x hx
        exact ⟨g1, m, by omega, g3⟩

omit h in
theorem desc_rank {m i j : Nat} (hd : Desc doc.data i j) (hr : Rank doc m i) : ∃ k, Rank doc (m + k) j ∧ (k = 0 → i = j) := by
  induction hd with
  | self => exact ⟨0, hr, fun _ => rfl⟩
  | step _ hl ih =>
    obtain ⟨k, h1, -⟩ := ih
    exact ⟨k + 1, .step h1 hl, fun h => by omega⟩

theorem desc_same {m i j : Nat} (hd : Desc doc.data i j) (hi : Rank doc m i) (hj : Rank doc m j) : i = j := by
  obtain ⟨k, h1, h2⟩ := desc_rank hd hi
  have := h.rank_unique h1 hj
  exact h2 (by omega)

theorem desc_not {m n i j : Nat} (hd : Desc doc.data i j) (hi : Rank doc m i) (hj : Rank doc n j) : m ≤ n := by
  obtain ⟨k, h1, -⟩ := desc_rank hd hi
  have := h.rank_unique h1 hj
  omega

theorem desc_unique {m i i' j : Nat} (h1 : Desc doc.data i j) (h2 : Desc doc.data i' j) (hi : Rank doc m i) (hi' : Rank doc m i') : i = i' := by
  induction h1 with
  | self => exact (h.desc_same h2 hi' hi).symm
  | @step j k h1 hl ih =>
    cases h2 with
    | self => exact h.desc_same (.step h1 hl) hi hi'
    | step h2 hl' =>
      obtain rfl := h.leads_unique hl hl'
      exact ih h2

/-- The items of a collection. -/
theorem growItems {n i : Nat} {m : Bool} {c : Coll} {p : Bytes} {par : Option Nat} (hi : Rank doc n i) (hg : doc.data.slab.get i = some ⟨collRaw m c, p, par⟩)
    (ih : ∀ j e, Rank doc (n + 2) j → doc.data.slab.get j = some e → e.raw.isVal = true →
      ∃ t : Tree Nat, t.id = j ∧ Rep doc.data e.parent t ∧ t.allIds.Nodup ∧ ∀ k, k ∈ t.allIds ↔ Desc doc.data j k) :
    ∀ L : List Nat, L.Nodup → (∀ x ∈ L, x ∈ c.items) → ∃ is : Items Nat, is.ids = L ∧ RepItems doc.data i m is ∧ ((is.entries i m).map (·.1)).Nodup ∧
      ∀ k, k ∈ (is.entries i m).map (·.1) ↔ ∃ x ∈ L, Desc doc.data x k
  | [], _, _ => ⟨.nil, rfl, (fun j e hj => by cases hj), by simp [Items.entries], by simp [Items.entries]⟩
  | x :: L, hn, hL => by
    have hn' := List.nodup_cons.1 hn
    obtain ⟨is, h1, h2, h3, h4⟩ := growItems hi hg ih L hn'.2 fun y hy => hL y (List.mem_cons_of_mem _ hy)
    have hlx : ∀ y ∈ x :: L, Leads doc.data i y := by
      intro y hy
      cases m with
      | true => exact .mapping hg (hL y hy)
      | false => exact .sequence hg (hL y hy)
    have hrank : ∀ y ∈ x :: L, Rank doc (n + 1) y := fun y hy => .step hi (hlx y hy)
    have hx := hlx x (by simp)
    have hex : ∃ key v q, doc.data.slab.get x = some ⟨itemRaw m key v, q, some i⟩ ∧ Leads doc.data x v ∧ ∀ k, Leads doc.data x k → k = v := by
      cases m with
      | true =>
        obtain ⟨key, v, q, par, hk⟩ := (h.mapping _ _ _ _ hg).2 x (hL x (by simp))
        obtain rfl : par = some i := h.parent _ _ _ hx hk
        refine ⟨key, v, q, hk, .mappingItem hk, fun k hl => ?_⟩
        cases hl <;> simp_all
      | false =>
        obtain ⟨v, q, par, hk⟩ := (h.sequence _ _ _ _ hg).2 x (hL x (by simp))
        obtain rfl : par = some i := h.parent _ _ _ hx hk
        refine ⟨noKey, v, q, hk, .sequenceItem hk, fun k hl => ?_⟩
        cases hl <;> simp_all
    obtain ⟨key, v, q, hk, hl, hu⟩ := hex
    have hrv : Rank doc (n + 2) v := .step (hrank x (by simp)) hl
    obtain ⟨e, he, hv⟩ := h.item _ _ _ hk (by cases m <;> rfl) hl
    obtain ⟨t, t1, t2, t3, t4⟩ := ih v e hrv he hv
    rw [h.parent _ _ _ hl he] at t2
    subst t1
    have hids : ((Items.cons x q key t is).entries i m).map (·.1) = x :: (t.allIds ++ (is.entries i m).map (·.1)) := by
      simp [Items.entries, Tree.allIds_eq]
    refine ⟨.cons x q key t is, by simp [Items.ids, h1], fun j e' hj => ?_, ?_, fun k => ?_⟩
    · simp only [Items.entries, List.mem_cons, List.mem_append] at hj
      rcases hj with hj | hj | hj
      · cases hj; exact hk
      · exact t2 j e' hj
      · exact h2 j e' hj
    · rw [hids, List.nodup_cons, List.nodup_append]
      refine ⟨fun hm => ?_, t3, h3, fun a ha b hb hab => ?_⟩
      · rcases List.mem_append.1 hm with hm | hm
        · have := h.desc_not ((t4 x).1 hm) hrv (hrank x (by simp))
          omega
        · obtain ⟨y, hy, hd⟩ := (h4 x).1 hm
          obtain rfl := h.desc_same hd (hrank y (List.mem_cons_of_mem _ hy)) (hrank x (by simp))
          exact hn'.1 hy
      · subst hab
        obtain ⟨y, hy, hd⟩ := (h4 a).1 hb
        obtain rfl := h.desc_unique (Desc.head hl ((t4 a).1 ha)) hd (hrank x (by simp)) (hrank y (List.mem_cons_of_mem _ hy))
        exact hn'.1 hy
    · rw [hids, List.mem_cons, List.mem_append, t4, h4]
      constructor
      · rintro (rfl | hd | ⟨y, hy, hd⟩)
        · exact ⟨k, by simp, .self⟩
        · exact ⟨x, by simp, Desc.head hl hd⟩
        · exact ⟨y, List.mem_cons_of_mem _ hy, hd⟩
      · rintro ⟨y, hy, hd⟩
        rcases List.mem_cons.1 hy with rfl | hy
        · rcases hd.cases_head with rfl | ⟨j, hj, hd⟩
          · exact .inl rfl
          · obtain rfl := hu j hj
            exact .inr (.inl hd)
        · exact .inr (.inr ⟨y, hy, hd⟩)

/-- The tree below a value. -/
theorem grow : ∀ (f n i : Nat) (e : Entry), doc.data.slab.slots.length ≤ n + f → Rank doc n i → doc.data.slab.get i = some e → e.raw.isVal = true →
    ∃ t : Tree Nat, t.id = i ∧ Rep doc.data e.parent t ∧ t.allIds.Nodup ∧ ∀ k, k ∈ t.allIds ↔ Desc doc.data i k
  | 0, n, i, e, hf, hr, _, _ => by have := h.rank_lt hr; omega
  | f + 1, n, i, ⟨raw, p, par⟩, hf, hr, hg, hv => by
    have ih := fun j e => grow f (n + 2) j e (by omega)
    have hleaf : ∀ s : Scalar, raw = s.toRaw → ∃ t : Tree Nat, t.id = i ∧ Rep doc.data par t ∧ t.allIds.Nodup ∧ ∀ k, k ∈ t.allIds ↔ Desc doc.data i k := by
      rintro s rfl
      refine ⟨.leaf i p s, rfl, fun j e' hj => ?_, by simp [Tree.allIds, Tree.entries], fun k => ?_⟩
      · simp only [Tree.entries, List.mem_singleton] at hj
        cases hj; exact hg
      · simp only [Tree.allIds, Tree.entries, List.map_cons, List.map_nil, List.mem_singleton]
        constructor
        · rintro rfl; exact .self
        · intro hd
          rcases hd.cases_head with rfl | ⟨j, hj, -⟩
          · rfl
          · cases s <;> cases hj <;> simp_all [Scalar.toRaw]
    have hnode : ∀ m c, raw = collRaw m c → ∃ t : Tree Nat, t.id = i ∧ Rep doc.data par t ∧ t.allIds.Nodup ∧ ∀ k, k ∈ t.allIds ↔ Desc doc.data i k := by
      rintro m c rfl
      have hnd : c.items.Nodup := by
        cases m with
        | true => exact (h.mapping _ _ _ _ hg).1
        | false => exact (h.sequence _ _ _ _ hg).1
      obtain ⟨is, h1, h2, h3, h4⟩ := h.growItems hr hg ih c.items hnd fun _ hx => hx
      have hids : (Tree.node i p m c.indent c.kind is).allIds = i :: (is.entries i m).map (·.1) := by simp [Tree.allIds, Tree.entries]
      have hlx : ∀ y, Leads doc.data i y ↔ y ∈ c.items := by
        intro y
        constructor
        · intro hl; cases m <;> cases hl <;> simp_all [collRaw]
        · intro hy
          cases m with
          | true => exact .mapping hg hy
          | false => exact .sequence hg hy
      refine ⟨.node i p m c.indent c.kind is, rfl, fun j e' hj => ?_, ?_, fun k => ?_⟩
      · simp only [Tree.entries, List.mem_cons] at hj
        rcases hj with hj | hj
        · cases hj; rw [h1]; exact hg
        · exact h2 j e' hj
      · rw [hids, List.nodup_cons]
        refine ⟨fun hm => ?_, h3⟩
        obtain ⟨x, hx, hd⟩ := (h4 i).1 hm
        have := h.desc_not hd (.step hr ((hlx x).2 hx)) hr
        omega
      · rw [hids, List.mem_cons, h4]
        constructor
        · rintro (rfl | ⟨x, hx, hd⟩)
          · exact .self
          · exact Desc.head ((hlx x).2 hx) hd
        · intro hd
          rcases hd.cases_head with rfl | ⟨j, hj, hd⟩
          · exact .inl rfl
          · exact .inr ⟨j, (hlx j).1 hj, hd⟩
    cases raw with
    | null s => exact hleaf (.null s) rfl
    | bool v s => exact hleaf (.bool v s) rfl
    | number s t => exact hleaf (.number s t) rfl
    | string s => exact hleaf (.string s) rfl
    | mapping c => exact hnode true c rfl
    | sequence c => exact hnode false c rfl
    | mappingItem => cases hv
    | sequenceItem => cases hv

theorem holds (hs : doc.data.slab.OK) : ∃ t, Holds doc t := by
  obtain ⟨e, h1, h2, h3⟩ := h.root
  obtain ⟨t, t1, t2, t3, t4⟩ := h.grow doc.data.slab.slots.length 0 doc.root e (by omega) (.root rfl) h1 h2
  rw [h3] at t2
  exact ⟨t, t1.symm, t2, t3, fun i e hi => (t4 i).2 (h.reached i e hi), hs⟩

end Sane

/-! Conversely -/

theorem collRaw_inj {m m' : Bool} {c c' : Coll} (h : collRaw m c = collRaw m' c') : m = m' ∧ c = c' := by
  cases m <;> cases m' <;> simp_all [collRaw]

mutual
/-- What the entries of a tree refer to is in the tree. -/
theorem Tree.entries_leads {d : Data} : ∀ {t : Tree Nat} {par : Option Nat} {i j : Nat} {e : Entry}, Rep d par t → (i, e) ∈ t.entries par → Leads d i j →
    ∃ e', (j, e') ∈ t.entries par ∧ e'.parent = some i ∧ (∀ c, e.raw = .mapping c → ∃ k v, e'.raw = .mappingItem k v) ∧ (∀ c, e.raw = .sequence c → ∃ v, e'.raw = .sequenceItem v) ∧
      (e.raw.isVal = false → e'.raw.isVal = true)
  | .leaf i0 p s, par, i, j, e, hr, hm, hl => by
    simp only [Tree.entries, List.mem_singleton, Prod.mk.injEq] at hm
    obtain ⟨rfl, rfl⟩ := hm
    have hg := hr i ⟨s.toRaw, p, par⟩ (by simp [Tree.entries])
    cases s <;> cases hl <;> simp_all [Scalar.toRaw]
  | .node i0 p m ind k items, par, i, j, e, hr, hm, hl => by
    simp only [Tree.entries, List.mem_cons, Prod.mk.injEq] at hm
    obtain ⟨hg, hi⟩ := hr.node
    rcases hm with ⟨rfl, rfl⟩ | hm
    · have hj : j ∈ items.ids := by cases m <;> cases hl <;> simp_all [collRaw]
      obtain ⟨q, key, v, h1⟩ := Items.entries_item (c := i) (m := m) hj
      refine ⟨_, List.mem_cons_of_mem _ h1, rfl, fun c hc => ?_, fun c hc => ?_, fun hc => ?_⟩
      · cases m <;> simp_all [collRaw, itemRaw]
      · cases m <;> simp_all [collRaw, itemRaw]
      · cases m <;> cases hc
    · obtain ⟨e', h1, h2⟩ := Items.entries_leads hi hm hl
      exact ⟨e', List.mem_cons_of_mem _ h1, h2⟩
theorem Items.entries_leads {d : Data} : ∀ {is : Items Nat} {c : Nat} {m : Bool} {i j : Nat} {e : Entry}, RepItems d c m is → (i, e) ∈ is.entries c m → Leads d i j →
    ∃ e', (j, e') ∈ is.entries c m ∧ e'.parent = some i ∧ (∀ c, e.raw = .mapping c → ∃ k v, e'.raw = .mappingItem k v) ∧ (∀ c, e.raw = .sequence c → ∃ v, e'.raw = .sequenceItem v) ∧
      (e.raw.isVal = false → e'.raw.isVal = true)
  | .nil, _, _, _, _, _, _, hm, _ => by cases hm
  | .cons i0 p key v rest, c, m, i, j, e, hr, hm, hl => by
    obtain ⟨hg, hv, hrest⟩ := hr.cons
    simp only [Items.entries, List.mem_cons, List.mem_append, Prod.mk.injEq] at hm ⊢
    rcases hm with ⟨rfl, rfl⟩ | hm | hm
    · obtain rfl : j = v.id := by cases m <;> cases hl <;> simp_all [itemRaw]
      obtain ⟨r, hr⟩ := v.entries_head (some i)
      refine ⟨⟨v.raw, v.pre, some i⟩, .inr (.inl (by rw [hr]; simp)), rfl, fun c hc => ?_, fun c hc => ?_, fun _ => ?_⟩
      · cases m <;> cases hc
      · cases m <;> cases hc
      · cases v with
        | leaf _ _ s => cases s <;> rfl
        | node _ _ m _ _ _ => cases m <;> rfl
    · obtain ⟨e', h1, h2⟩ := Tree.entries_leads hv hm hl
      exact ⟨e', .inr (.inl h1), h2⟩
    · obtain ⟨e', h1, h2⟩ := Items.entries_leads hrest hm hl
      exact ⟨e', .inr (.inr h1), h2⟩
theorem Items.entries_item {c : Nat} {m : Bool} : ∀ {is : Items Nat} {j : Nat}, j ∈ is.ids → ∃ q key v, (j, (⟨itemRaw m key v, q, some c⟩ : Entry)) ∈ is.entries c m
  | .nil, _, h => by cases h
  | .cons i p key v rest, j, h => by
    rcases List.mem_cons.1 h with rfl | h
    · exact ⟨p, key, v.id, by simp [Items.entries]⟩
    · obtain ⟨q, key', v', h'⟩ := Items.entries_item (c := c) (m := m) h
      exact ⟨q, key', v', by simp [Items.entries, h']⟩
end

mutual
/-- All entries of a tree are reached from its root. -/
theorem Tree.entries_desc {d : Data} : ∀ {t : Tree Nat} {par : Option Nat} {i : Nat} {e : Entry}, Rep d par t → (i, e) ∈ t.entries par → Desc d t.id i
  | .leaf i0 p s, par, i, e, hr, hm => by
    simp only [Tree.entries, List.mem_singleton, Prod.mk.injEq] at hm
    obtain ⟨rfl, rfl⟩ := hm
    exact .self
  | .node i0 p m ind k items, par, i, e, hr, hm => by
    simp only [Tree.entries, List.mem_cons, Prod.mk.injEq] at hm
    obtain ⟨hg, hi⟩ := hr.node
    rcases hm with ⟨rfl, rfl⟩ | hm
    · exact .self
    · refine Items.entries_desc hi (fun j hj => ?_) hm
      cases m with
      | true => exact .mapping hg hj
      | false => exact .sequence hg hj
theorem Items.entries_desc {d : Data} : ∀ {is : Items Nat} {c : Nat} {m : Bool} {i : Nat} {e : Entry}, RepItems d c m is → (∀ j ∈ is.ids, Leads d c j) → (i, e) ∈ is.entries c m →
    Desc d c i
  | .nil, _, _, _, _, _, _, hm => by cases hm
  | .cons i0 p key v rest, c, m, i, e, hr, hc, hm => by
    obtain ⟨hg, hv, hrest⟩ := hr.cons
    have h0 : Leads d c i0 := hc i0 (by simp [Items.ids])
    simp only [Items.entries, List.mem_cons, List.mem_append, Prod.mk.injEq] at hm
    rcases hm with ⟨rfl, rfl⟩ | hm | hm
    · exact .head h0 .self
    · have h1 : Leads d i0 v.id := by
        cases m with
        | true => exact .mappingItem hg
        | false => exact .sequenceItem hg
      exact .head h0 (.head h1 (Tree.entries_desc hv hm))
    · exact Items.entries_desc hrest (fun j hj => hc j (by simp [Items.ids, hj])) hm
end

mutual
theorem Tree.entries_nodup {par : Option Nat} : ∀ {t : Tree Nat} {i : Nat} {e : Entry}, t.allIds.Nodup → (i, e) ∈ t.entries par → ∀ m c, e.raw = collRaw m c → c.items.Nodup
  | .leaf i0 p s, i, e, _, hm, m, c, hc => by
    simp only [Tree.entries, List.mem_singleton, Prod.mk.injEq] at hm
    obtain ⟨rfl, rfl⟩ := hm
    cases s <;> cases m <;> cases hc
  | .node i0 p m' ind k items, i, e, hn, hm, m, c, hc => by
    simp only [Tree.entries, List.mem_cons, Prod.mk.injEq] at hm
    rw [Tree.allIds, Tree.entries, List.map_cons, List.nodup_cons] at hn
    rcases hm with ⟨rfl, rfl⟩ | hm
    · obtain ⟨rfl, rfl⟩ := collRaw_inj hc
      exact (Items.entries_nodup hn.2).1
    · exact (Items.entries_nodup hn.2).2 hm m c hc
theorem Items.entries_nodup {c0 : Nat} {m0 : Bool} : ∀ {is : Items Nat}, ((is.entries c0 m0).map (·.1)).Nodup → is.ids.Nodup ∧ ∀ {i : Nat} {e : Entry}, (i, e) ∈ is.entries c0 m0 →
    ∀ m c, e.raw = collRaw m c → c.items.Nodup
  | .nil, _ => ⟨by simp [Items.ids], fun hm => by cases hm⟩
  | .cons i0 p key v rest, hn => by
    simp only [Items.entries, List.map_cons, List.map_append, Tree.allIds_eq, List.nodup_cons, List.nodup_append, List.mem_append, not_or] at hn
    obtain ⟨h1, h2⟩ := Items.entries_nodup hn.2.2.1
    refine ⟨List.nodup_cons.2 ⟨fun hm => ?_, h1⟩, fun {i e} hm m c hc => ?_⟩
    · obtain ⟨q, key', v', hi⟩ := Items.entries_item (c := c0) (m := m0) hm
      exact hn.1.2 (List.mem_map.2 ⟨_, hi, rfl⟩)
    · simp only [Items.entries, List.mem_cons, List.mem_append, Prod.mk.injEq] at hm
      rcases hm with ⟨rfl, rfl⟩ | hm | hm
      · cases m0 <;> cases m <;> cases hc
      · exact Tree.entries_nodup hn.2.1 hm m c hc
      · exact h2 hm m c hc
end

/-- The entries of a document that holds a tree fit together. -/
theorem Holds.sane {doc : Document} {t : Tree Nat} (h : Holds doc t) : Sane doc := by
  have hmem : ∀ {i e}, doc.data.slab.get i = some e → (i, e) ∈ t.entries none := by
    intro i e he
    have := h.full i e he
    rw [Tree.allIds] at this
    obtain ⟨⟨j, e'⟩, h1, rfl⟩ := List.mem_map.1 this
    rw [h.rep _ _ h1] at he
    cases he; exact h1
  have hl := fun {i j e} (hg : doc.data.slab.get i = some e) => Tree.entries_leads (j := j) h.rep (hmem hg)
  refine ⟨⟨_, h.root ▸ h.rep.head, ?_, rfl⟩, fun i c p par hg => ⟨Tree.entries_nodup h.nodup (hmem hg) true c rfl, fun j hj => ?_⟩,
    fun i c p par hg => ⟨Tree.entries_nodup h.nodup (hmem hg) false c rfl, fun j hj => ?_⟩, fun i e v hg hv hlead => ?_, fun i j e hlead hg => ?_,
    fun i e hg => h.root ▸ Tree.entries_desc h.rep (hmem hg)⟩
  · cases t with
    | leaf _ _ s => cases s <;> rfl
    | node _ _ m _ _ _ => cases m <;> rfl
  · obtain ⟨⟨r, q, pr⟩, h1, h2, h3, -⟩ := hl hg (.mapping hg hj)
    obtain ⟨k, v, rfl⟩ := h3 c rfl
    exact ⟨k, v, q, pr, h.rep _ _ h1⟩
  · obtain ⟨⟨r, q, pr⟩, h1, h2, -, h3, -⟩ := hl hg (.sequence hg hj)
    obtain ⟨v, rfl⟩ := h3 c rfl
    exact ⟨v, q, pr, h.rep _ _ h1⟩
  · obtain ⟨e', h1, -, -, -, h2⟩ := hl hg hlead
    exact ⟨e', h.rep _ _ h1, h2 hv⟩
  · have hi : ∃ e', doc.data.slab.get i = some e' := by cases hlead <;> exact ⟨_, ‹_›⟩
    obtain ⟨e', hi⟩ := hi
    obtain ⟨e'', h1, h2, -⟩ := hl hi hlead
    rw [h.rep _ _ h1] at hg
    cases hg; exact h2

end Verif
