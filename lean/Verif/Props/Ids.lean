import Verif.LiveLemmas
import Verif.Props.Shape
/-
C21, C22, C23, C24: the life of ids.
-/
namespace Verif

/-- The values a call removes, with everything below them: all children of a value that is
replaced or cleared, the entry that `remove` deletes, and the children of the value that an
insert with a key already present replaces. -/
def Op.removes (d : Data) (x : Nat) (r : Nat) : Op → Prop
  | .insert key _ => ∃ z, mapGet d x key = .ok (some z) ∧ Child d z r
  | .remove key => mapGet d x key = .ok (some r)
  | .clearMapping => asMapping d x = .ok (some x) ∧ Child d x r
  | .push _ => False
  | .removeAt ix => seqGet d x ix = .ok (some r)
  | .clearSequence => asSequence d x = .ok (some x) ∧ Child d x r
  | .makeMapping => asMapping d x = .ok none ∧ Child d x r
  | .makeSequence => asSequence d x = .ok none ∧ Child d x r
  | _ => Child d x r

/-- The value a call overwrites: the one it is addressed at, or for an insert with a key already
present that key's value. -/
def Op.overwrites (d : Data) (x : Nat) (z : Nat) : Op → Prop
  | .insert key _ => mapGet d x key = .ok (some z) ∨ (z = x ∧ ∀ r, mapGet d x key ≠ .ok (some r))
  | _ => z = x

/-- What the API shows of a value by itself: the value is stored unchanged (so its kind, content,
representation and whitespace are), and iterating visits the same. -/
structure SameAt (d d' : Data) (y : Nat) : Prop where
  stored : d'.entry y = d.entry y
  kind : asAny d' y = asAny d y
  entries : mapEntries d' y = mapEntries d y
  values : seqValues d' y = seqValues d y

/-! ### Lemmas -/

theorem Below.head {d : Data} {x y : Nat} (h : Below d x y) : y = x ∨ ∃ r, Child d x r ∧ Below d r y := by
  induction h with
  | self => exact .inl rfl
  | step _ hc ih =>
    rcases ih with rfl | ⟨r, h1, h2⟩
    · exact .inr ⟨_, hc, .self⟩
    · exact .inr ⟨r, h1, .step h2 hc⟩

theorem Below.live {doc : Document} {x y : Nat} (hx : Live doc x) (h : Below doc.data x y) : Live doc y := Below.trans hx h

theorem WellFormed.top_iff {doc : Document} (h : WellFormed doc) {x y : Nat} (hx : Live doc x)
    (hb : Below doc.data x y) : y = x ↔ ¬ ∃ r, Child doc.data x r ∧ Below doc.data r y := by
  constructor
  · rintro rfl ⟨r, h1, h2⟩; exact h.acyclic _ _ hx h1 h2
  · intro hn
    rcases hb.head with h1 | h1
    · exact h1
    · exact absurd h1 hn

theorem findLeaf (x y : Nat) (p : Bytes) (s : Scalar) : (∃ w, (Tree.leaf x p s).find y = some w) ↔ y = x := by
  simp only [Tree.find]; split <;> simp_all [eq_comm]

theorem findEmpty (x y : Nat) (p m n k) : (∃ w, (Tree.node x p m n k .nil).find y = some w) ↔ y = x := by
  simp only [Tree.find, Items.find]; split <;> simp_all [eq_comm]

theorem At.ne_pair {doc : Document} {x : Nat} {p m n k items q} (ha : At doc x (.node x p m n k items) q) {ix : Nat}
    {key : RStr} {v : Tree Nat} (h : items.pairs[ix]? = some (key, v)) : v.find x = none := by
  cases hc : v.find x with
  | none => rfl
  | some z =>
    have hnd := ha.nodup
    simp only [Tree.allIds_node, List.nodup_cons] at hnd
    have h1 := Items.find_trans x m hnd.2 (Items.find_pair x m hnd.2 h) hc
    exact absurd (Items.find_mem x m h1) hnd.1

/-- Removing item `ix`. -/
theorem At.find_erase {doc : Document} {x y : Nat} {p m n k items q} (ha : At doc x (.node x p m n k items) q) {ix : Nat}
    {key : RStr} {v w : Tree Nat} (h : items.pairs[ix]? = some (key, v))
    (hy : (Tree.node x p m n k items).find y = some w) :
    (∃ w, (Tree.node x p m n k (items.eraseIdx ix)).find y = some w) ↔ v.find y = none := by
  have hnd := ha.nodup
  simp only [Tree.allIds_node, List.nodup_cons] at hnd
  by_cases hxy : x = y
  · subst hxy
    simp [Tree.find, ha.ne_pair h]
  · simp only [Tree.find, if_neg hxy] at hy ⊢
    have := Items.find_split (y := y) x m hnd.2 h (by rw [hy]; simp)
    rw [← this]
    cases (items.eraseIdx ix).find y <;> simp

theorem Holds.below_pair {doc : Document} {t : Tree Nat} {x y : Nat} {p m n k items q} (h : Holds doc t)
    (hf : t.find x = some (.node x p m n k items))
    (ha : At doc x (.node x p m n k items) q) {ix : Nat} {key : RStr} {v : Tree Nat} (hp : items.pairs[ix]? = some (key, v)) :
    Below doc.data v.id y ↔ v.find y ≠ none := by
  rw [h.below_iff (Tree.find_trans h.nodup hf (Tree.find_pair ha.nodup hp)) y]
  cases v.find y <;> simp

theorem Items.pairs_indexOf {key : Bytes} : ∀ {is : Items Nat}, is.lookup key = (is.indexOf key).bind
    fun n => (is.pairs[n]?).map (·.2)
  | .nil => rfl
  | .cons i p k v rest => by
    simp only [Items.lookup, Items.indexOf, Items.pairs]
    split
    · rfl
    · rw [Items.pairs_indexOf]; cases rest.indexOf key <;> rfl

theorem At.mapGet_some {doc : Document} {x r : Nat} {u : Tree Nat} {p : Option Nat} {key : Bytes} (ha : At doc x u p)
    (h : Verif.mapGet doc.data x key = .ok (some r)) : ∃ (w : Tree Nat) (x' : Nat) (p' : Bytes) (n : Nat) (k : CollKind)
      (items : Items Nat), u = .node x' p' true n k items ∧ items.lookup key = some w := by
  have hg := ha.get
  have hid := ha.id
  cases u with
  | leaf j q s => cases s <;> simp [Verif.mapGet, Data.mapping, hg, Tree.raw, Scalar.toRaw, bind, Except.bind] at h
  | node j q m n k items =>
    simp only [Tree.id_node] at hid
    subst hid
    cases m with
    | false => simp [Verif.mapGet, Data.mapping, hg, Tree.raw, collRaw, bind, Except.bind] at h
    | true =>
      rw [ha.mapGet] at h
      cases hl : items.lookup key with
      | none => rw [hl] at h; cases h
      | some w => exact ⟨w, j, q, n, k, items, rfl, hl⟩

/-- What an edit does to other values. -/
theorem Holds.edit_keeps {doc doc' : Document} {t : Tree Nat} {x : Nat} {op : Op} (h : Holds doc t) (hx : Live doc x)
    (he : doc.edit x op = .ok doc') : ∃ t' z, Holds doc' t' ∧ op.overwrites doc.data x z ∧ Live doc z ∧ Below doc.data x z ∧
      ∀ y e, y ≠ z → doc.data.slab.get y = some e → doc'.data.slab.get y = some e ∨ doc'.data.slab.get y = none := by
  obtain ⟨u, hu⟩ := (h.live_iff x).1 hx
  obtain ⟨p, ha⟩ := h.at hu
  obtain ⟨d', i, v, mk, h1, _, _, h2⟩ := h.editTree hu op
  have : doc' = ⟨doc.suffix, doc.root, d'⟩ := by
    simp [Document.edit, h1, bind, Except.bind, pure, Except.pure] at he; exact he.symm
  subst this
  obtain ⟨z, w, w', k1, k2, k3, k4, k5⟩ := Op.tree_keeps (i := i) (v := v) (mk := mk) op ha.nodup
  have hz := Tree.find_trans h.nodup hu k1
  have hb := (h.below_iff hu z).2 ⟨w, k1⟩
  rw [k4, ← Tree.upd_upd h.nodup hu k1] at h2
  refine ⟨_, z, h2, ?_, hb.live hx, hb, fun y e hy hg => h.keeps hz k2 k3 h2 hy hg⟩
  rcases k5 with ⟨k5, k6⟩ | ⟨key, val, x', p', n, k, items, rfl, rfl, k5⟩
  · rw [ha.id] at k5
    subst k5
    cases op <;> simp only [Op.overwrites]
    case insert key val =>
      refine .inr ⟨trivial, fun r hr => ?_⟩
      obtain ⟨w, x', p', n, k, items, rfl, hl⟩ := At.mapGet_some ha hr
      exact k6 key val x' p' n k items rfl rfl (by rw [hl]; simp)
  · have hid := ha.id
    simp only [Tree.id_node] at hid
    subst hid
    left
    rw [ha.mapGet, k5]
    rw [← Tree.find_id k1]; rfl

theorem mapM_congr' {α β} {f g : α → Except Stop β} : ∀ {l : List α}, (∀ a ∈ l, f a = g a) → l.mapM f = l.mapM g
  | [], _ => rfl
  | a :: l, h => by
    simp only [List.mapM_cons, h a (by simp), mapM_congr' (l := l) fun b hb => h b (by simp [hb])]

/-- Equal entries show the same. -/
theorem sameAt_of {d d' : Data} {y : Nat} {e : Entry} (h : d.slab.get y = some e) (h' : d'.slab.get y = some e)
    (hi : ∀ m c, e.raw = collRaw m c → ∀ i ∈ c.items, d'.slab.get i = d.slab.get i) : SameAt d d' y where
  stored := by rw [entry_of h, entry_of h']
  kind := by simp only [asAny, raw_of h, raw_of h']
  entries := by
    simp only [mapEntries, mapIter, Data.mapping, h, h']
    obtain ⟨raw, p, q⟩ := e
    cases raw with
    | mapping c =>
      simp only [bind, Except.bind, pure, Except.pure]
      refine mapM_congr' fun i hc => ?_
      simp only [mapItemOf, Data.mappingItem, hi true c rfl i hc]
    | _ => rfl
  values := by
    simp only [seqValues, seqIter, Data.sequence, h, h']
    obtain ⟨raw, p, q⟩ := e
    cases raw with
    | sequence c =>
      simp only [bind, Except.bind, pure, Except.pure]
      refine mapM_congr' fun i hc => ?_
      simp only [Data.sequenceItem, hi false c rfl i hc]
    | _ => rfl

/-! ### C21 -/

/-- C21, part 1: a value is in the document after an edit exactly if it was not below a value that
the edit removes.  In particular no edit removes a value that is not below its target. -/
theorem C21_survivors {doc doc' : Document} (h : Reachable doc) {x y : Nat} (hx : Live doc x) {op : Op}
    (he : doc.edit x op = .ok doc') (hy : Live doc y) :
    Live doc' y ↔ ¬ ∃ r, op.removes doc.data x r ∧ Below doc.data r y := by
  obtain ⟨t, ht⟩ := h.holds
  have hwf := ht.wellFormed
  obtain ⟨u, hu⟩ := (ht.live_iff x).1 hx
  obtain ⟨p, ha⟩ := ht.at hu
  obtain ⟨d', i, v, mk, h1, hfr, _, h2⟩ := ht.editTree hu op
  have hdoc : doc' = ⟨doc.suffix, doc.root, d'⟩ := by
    simp [Document.edit, h1, bind, Except.bind, pure, Except.pure] at he; exact he.symm
  have hxu := ha.id
  -- everything that is removed is below `x`
  have hrem : ∀ r, op.removes doc.data x r → Below doc.data x r := by
    intro r hr
    have hmap : ∀ key z, mapGet doc.data x key = .ok (some z) → Below doc.data x z := by
      intro key z hz
      cases u with
      | leaf j q s =>
        have hg := ha.get
        cases s <;> simp [mapGet, Data.mapping, hg, Tree.raw, Scalar.toRaw, bind, Except.bind] at hz
      | node j q m n k items =>
        simp only [Tree.id_node] at hxu
        subst hxu
        cases m with
        | false =>
          have hg := ha.get
          simp [mapGet, Data.mapping, hg, Tree.raw, collRaw, bind, Except.bind] at hz
        | true =>
          rw [ha.mapGet] at hz
          cases hl : items.lookup key with
          | none => rw [hl] at hz; cases hz
          | some w =>
            rw [hl] at hz
            simp only [Option.map_some, Except.ok.injEq, Option.some.injEq] at hz
            obtain ⟨ix, key', hp, _⟩ := Items.lookup_mem hl
            rw [ht.below_iff hu]
            exact ⟨w, by rw [← hz]; exact Tree.find_pair ha.nodup hp⟩
    cases op <;> simp only [Op.removes] at hr
    case insert key val => obtain ⟨z, hz, hc⟩ := hr; exact .step (hmap _ _ hz) hc
    case remove key => exact hmap _ _ hr
    case clearMapping => exact .step .self hr.2
    case clearSequence => exact .step .self hr.2
    case makeMapping => exact .step .self hr.2
    case makeSequence => exact .step .self hr.2
    case removeAt ix =>
      cases u with
      | leaf j q s =>
        have hg := ha.get
        cases s <;> simp [seqGet, Data.sequence, hg, Tree.raw, Scalar.toRaw, bind, Except.bind] at hr
      | node j q m n k items =>
        simp only [Tree.id_node] at hxu
        subst hxu
        cases m with
        | true =>
          have hg := ha.get
          simp [seqGet, Data.sequence, hg, Tree.raw, collRaw, bind, Except.bind] at hr
        | false =>
          rw [ha.seqGet] at hr
          cases hl : items.pairs[ix]? with
          | none => rw [hl] at hr; cases hr
          | some w =>
            rw [hl] at hr
            simp only [Option.map_some, Except.ok.injEq, Option.some.injEq] at hr
            rw [ht.below_iff hu]
            exact ⟨w.2, by rw [← hr]; exact Tree.find_pair ha.nodup (key := w.1) hl⟩
    all_goals exact .step .self hr
  by_cases hb : Below doc.data x y
  case neg =>
    refine iff_of_true ?_ ?_
    · subst hdoc; exact ht.survives_frame hu (Op.tree_id.trans hxu) h2 hy hb
    · rintro ⟨r, hr, hry⟩; exact hb ((hrem r hr).trans hry)
  obtain ⟨w, hw⟩ := (ht.below_iff hu y).1 hb
  have key := ht.survives hu (Op.tree_id.trans hxu) h2 hw
  rw [← hdoc] at key
  rw [key]
  have htop := hwf.top_iff hx hb
  -- the value was left alone
  have same : (op.tree i v mk u = u) → (∀ r, ¬ op.removes doc.data x r) →
      ((∃ w', (op.tree i v mk u).find y = some w') ↔ ¬ ∃ r, op.removes doc.data x r ∧ Below doc.data r y) := by
    intro e1 e2
    rw [e1]
    exact iff_of_true ⟨w, hw⟩ (by rintro ⟨r, hr, _⟩; exact e2 r hr)
  cases hsc : op.scalar u with
  | some s =>
    have e1 : op.tree i v mk u = .leaf u.id u.pre s := by simp only [Op.tree, hsc]
    rw [e1, hxu, findLeaf, htop]
    cases op <;> simp only [Op.scalar, reduceCtorEq] at hsc <;> rfl
  | none =>
  by_cases hm : ∃ pre ind k items, u = .node x pre true ind k items
  · obtain ⟨pre, ind, k, items, rfl⟩ := hm
    have hg := ha.get
    have hseq : ∀ ix r, seqGet doc.data x ix ≠ .ok (some r) := by
      intro ix r; simp [seqGet, Data.sequence, hg, Tree.raw, collRaw, bind, Except.bind]
    have has : asSequence doc.data x = .ok none := by
      simp [asSequence, raw_of hg, Tree.raw, collRaw, bind, Except.bind, pure, Except.pure]
    have ham : asMapping doc.data x = .ok (some x) := by
      simp [asMapping, raw_of hg, Tree.raw, collRaw, bind, Except.bind, pure, Except.pure]
    cases op <;> simp only [Op.scalar, reduceCtorEq] at hsc
    case makeMapping => exact same (by simp [Op.tree, Op.scalar]) (by simp [Op.removes, ham])
    case makeSequence => simp only [Op.tree, Op.scalar, findEmpty, htop, Op.removes, has, true_and]
    case clearMapping => simp only [Op.tree, Op.scalar, findEmpty, htop, Op.removes, ham, true_and]
    case push => exact same (by simp [Op.tree, Op.scalar]) (by simp [Op.removes])
    case removeAt ix => exact same (by simp [Op.tree, Op.scalar]) (by simp [Op.removes, hseq])
    case clearSequence => exact same (by simp [Op.tree, Op.scalar]) (by simp [Op.removes, has])
    case remove k' =>
      simp only [Op.removes, ha.mapGet, Items.pairs_indexOf]
      cases hix : items.indexOf k' with
      | none => simp [Op.tree, Op.scalar, hix, hw]
      | some ix =>
        have hlt := Items.indexOf_lt hix
        rw [← Items.length_pairs] at hlt
        have hp : items.pairs[ix]? = some (items.pairs[ix].1, items.pairs[ix].2) := List.getElem?_eq_getElem hlt
        simp only [Op.tree, Op.scalar, hix, ha.find_erase hp hw, Option.bind_some, hp, Option.map_some,
          Except.ok.injEq, Option.some.injEq, exists_eq_left', ht.below_pair hu ha hp, ne_eq, Decidable.not_not]
    case insert k' val =>
      simp only [Op.removes, ha.mapGet]
      cases hl : items.lookup k' with
      | none =>
        refine iff_of_true ?_ (by simp)
        simp only [Op.tree, Op.scalar, hl, Tree.find, Items.find_append] at hw ⊢
        split
        · exact ⟨_, rfl⟩
        · next hxy => rw [if_neg hxy] at hw; rw [hw]; exact ⟨w, rfl⟩
      | some z =>
        obtain ⟨n, key', hp, _⟩ := Items.lookup_mem hl
        have hfz := Tree.find_pair ha.nodup hp
        have hz := Tree.find_trans ht.nodup hu hfz
        have hlz : Live doc z.id := (ht.live_iff _).2 ⟨z, hz⟩
        rw [← key]
        simp only [Op.tree, Op.scalar, hl] at h2
        rw [← Tree.upd_upd ht.nodup hu hfz] at h2
        simp only [Option.map_some, Except.ok.injEq, Option.some.injEq, exists_eq_left']
        by_cases hbz : Below doc.data z.id y
        · obtain ⟨w2, hw2⟩ := (ht.below_iff hz y).1 hbz
          have := ht.survives hz (u' := .leaf z.id _ _) rfl h2 hw2
          rw [← hdoc] at this
          rw [this, findLeaf, hwf.top_iff hlz hbz]
        · refine iff_of_true ?_ ?_
          · rw [hdoc]; exact ht.survives_frame hz (u' := .leaf z.id _ _) rfl h2 hy hbz
          · rintro ⟨r, hr, hry⟩; exact hbz ((Below.step .self hr).trans hry)
  · by_cases hq : ∃ pre ind k items, u = .node x pre false ind k items
    · obtain ⟨pre, ind, k, items, rfl⟩ := hq
      have hg := ha.get
      have hmap : ∀ ix r, mapGet doc.data x ix ≠ .ok (some r) := by
        intro ix r; simp [mapGet, Data.mapping, hg, Tree.raw, collRaw, bind, Except.bind]
      have has : asSequence doc.data x = .ok (some x) := by
        simp [asSequence, raw_of hg, Tree.raw, collRaw, bind, Except.bind, pure, Except.pure]
      have ham : asMapping doc.data x = .ok none := by
        simp [asMapping, raw_of hg, Tree.raw, collRaw, bind, Except.bind, pure, Except.pure]
      cases op <;> simp only [Op.scalar, reduceCtorEq] at hsc
      case makeSequence => exact same (by simp [Op.tree, Op.scalar]) (by simp [Op.removes, has])
      case makeMapping => simp only [Op.tree, Op.scalar, findEmpty, htop, Op.removes, ham, true_and]
      case clearSequence => simp only [Op.tree, Op.scalar, findEmpty, htop, Op.removes, has, true_and]
      case insert => exact same (by simp [Op.tree, Op.scalar]) (by simp [Op.removes, hmap])
      case remove ix => exact same (by simp [Op.tree, Op.scalar]) (by simp [Op.removes, hmap])
      case clearMapping => exact same (by simp [Op.tree, Op.scalar]) (by simp [Op.removes, ham])
      case push val =>
        refine iff_of_true ?_ (by simp [Op.removes])
        simp only [Op.tree, Op.scalar, Tree.find, Items.find_append] at hw ⊢
        split
        · exact ⟨_, rfl⟩
        · next hxy => rw [if_neg hxy] at hw; rw [hw]; exact ⟨w, rfl⟩
      case removeAt ix =>
        simp only [Op.removes, ha.seqGet]
        cases hp : items.pairs[ix]? with
        | none =>
          have : items.ids.length ≤ ix := by
            rw [← Items.length_pairs]; exact List.getElem?_eq_none_iff.1 hp
          simp [Op.tree, Op.scalar, Items.eraseIdx_of_le _ _ this, hw]
        | some q =>
          obtain ⟨key', q⟩ := q
          simp only [Op.tree, Op.scalar, ha.find_erase hp hw, Option.map_some,
            Except.ok.injEq, Option.some.injEq, exists_eq_left', ht.below_pair hu ha hp, ne_eq, Decidable.not_not]
    · have hleaf : ∃ pre s, u = .leaf x pre s := by
        cases u with
        | leaf i pre s => simp only [Tree.id_leaf] at hxu; exact ⟨pre, s, by rw [hxu]⟩
        | node i pre m ind k items =>
          simp only [Tree.id_node] at hxu
          cases m
          · exact absurd ⟨pre, ind, k, items, by rw [hxu]⟩ hq
          · exact absurd ⟨pre, ind, k, items, by rw [hxu]⟩ hm
      obtain ⟨pre, s, rfl⟩ := hleaf
      have hyx : y = x := (findLeaf x y pre s).1 ⟨w, hw⟩
      have hno : ∀ r, Child doc.data x r → False := fun r hr => by
        have := (htop.1 hyx)
        exact this ⟨r, hr, by
          obtain ⟨w', hw'⟩ := (ht.below_iff hu r).1 (.step .self hr)
          have : r = x := (findLeaf x r pre s).1 ⟨w', hw'⟩
          rw [hyx, this]; exact .self⟩
      have hg := ha.get
      have hmap : ∀ k r, mapGet doc.data x k ≠ .ok (some r) := by
        intro ix r; cases s <;> simp [mapGet, Data.mapping, hg, Tree.raw, Scalar.toRaw, bind, Except.bind]
      have hseq : ∀ ix r, seqGet doc.data x ix ≠ .ok (some r) := by
        intro ix r; cases s <;> simp [seqGet, Data.sequence, hg, Tree.raw, Scalar.toRaw, bind, Except.bind]
      refine iff_of_true ?_ ?_
      · have := Tree.find_self (op.tree i v mk (.leaf x pre s))
        rw [Op.tree_id] at this
        rw [hyx]; exact ⟨_, this⟩
      · rintro ⟨r, hr, _⟩
        cases op <;> simp only [Op.scalar, reduceCtorEq] at hsc
        case insert => obtain ⟨z, hz, _⟩ := hr; exact hmap _ _ hz
        case remove => exact hmap _ _ hr
        case removeAt => exact hseq _ _ hr
        case push => exact hr
        all_goals exact hno r hr.2

/-- C21, part 2: any value other than the one overwritten that is still in the document shows
the same as before. -/
theorem C21_same {doc doc' : Document} (h : Reachable doc) {x y : Nat} (hx : Live doc x) {op : Op}
    (he : doc.edit x op = .ok doc') (hy : Live doc y) (hy' : Live doc' y) (hn : ¬ op.overwrites doc.data x y) :
    SameAt doc.data doc'.data y := by
  obtain ⟨t, ht⟩ := h.holds
  obtain ⟨t', z, ht', hz, hzl, _, hk⟩ := ht.edit_keeps hx he
  obtain ⟨u, hu⟩ := (ht.live_iff y).1 hy
  obtain ⟨p, ha⟩ := ht.at hu
  obtain ⟨u', hu'⟩ := (ht'.live_iff y).1 hy'
  obtain ⟨p', ha'⟩ := ht'.at hu'
  have hyz : y ≠ z := by
    rintro rfl
    exact hn hz
  have hg : doc'.data.slab.get y = some ⟨u.raw, u.pre, p⟩ := by
    rcases hk y _ hyz ha.get with h1 | h1
    · exact h1
    · rw [ha'.get] at h1; cases h1
  refine sameAt_of ha.get hg fun m c hc i hi => ?_
  have h1 : doc.data.slab.get i ≠ none := ht.closed.items y m c u.pre p (by rw [ha.get, ← hc]) i hi
  have h2 : doc'.data.slab.get i ≠ none := ht'.closed.items y m c u.pre p (by rw [hg, ← hc]) i hi
  cases hgi : doc.data.slab.get i with
  | none => exact absurd hgi h1
  | some e =>
    have hiz : i ≠ z := by
      rintro rfl
      have hne : u.raw = collRaw m c := hc
      cases u with
      | leaf j q s => cases m <;> cases s <;> simp [collRaw, Tree.raw, Scalar.toRaw] at hne
      | node j q m' ind k items =>
        have : c.items = items.ids := by
          cases m <;> cases m' <;> simp [collRaw, Tree.raw] at hne
          all_goals rw [← hne]
        rw [this] at hi
        obtain ⟨n, hn⟩ := List.getElem?_of_mem hi
        obtain ⟨ip, key, v, _, h3, _⟩ := ha.rep.node.2.get hn
        obtain ⟨w, hw⟩ := (ht.live_iff i).1 hzl
        obtain ⟨q', haw⟩ := ht.at hw
        have := haw.get
        rw [h3] at this
        simp only [Option.some.injEq, Entry.mk.injEq] at this
        have h4 := w.raw_isItem
        rw [← this.1, itemRaw_isItem] at h4
        cases h4
    rcases hk i e hiz hgi with h3 | h3
    · exact h3
    · exact absurd h3 h2

/-- C21, part 3: a value that is still in the document, and neither contains nor is the value
overwritten, is written and displayed as before. -/
theorem C21_text {doc doc' : Document} (h : Reachable doc) {x y : Nat} (hx : Live doc x) {op : Op}
    (he : doc.edit x op = .ok doc') (hy : Live doc y) (hy' : Live doc' y)
    (hn : ∀ z, op.overwrites doc.data x z → ¬ Below doc.data y z) :
    (∃ out, valueText doc.data y = .ok out ∧ valueText doc'.data y = .ok out) ∧
    (∃ out, valueDisplay doc.data y = .ok out ∧ valueDisplay doc'.data y = .ok out) := by
  obtain ⟨t, ht⟩ := h.holds
  obtain ⟨t', z, ht', hz, hzl, _, hk⟩ := ht.edit_keeps hx he
  obtain ⟨u, hu⟩ := (ht.live_iff y).1 hy
  obtain ⟨p, ha⟩ := ht.at hu
  obtain ⟨u', hu'⟩ := (ht'.live_iff y).1 hy'
  obtain ⟨p', ha'⟩ := ht'.at hu'
  obtain ⟨w, hw⟩ := (ht.live_iff z).1 hzl
  have hzu : z ∉ u.allIds := by
    refine ht.not_mem_of_not_below hu hw ?_
    cases hc : u.find z with
    | none => rfl
    | some c => exact absurd ((ht.below_iff hu z).2 ⟨c, hc⟩) (hn z hz)
  have hr : Rep doc'.data p u := by
    refine Rep.transfer ht'.closed ha.rep (fun j e hj => hk j e ?_ (ha.rep j e hj)) ?_
    · rintro rfl; exact hzu (Tree.mem_allIds_of hj)
    · rw [ha.id, ha'.get]; simp
  have h1 := ha.rep.text ha.nodup
  have h2 := hr.text ha.nodup
  have h3 := ha.rep.shown ha.nodup
  have h4 := hr.shown ha.nodup
  rw [ha.id] at h1 h2 h3 h4
  exact ⟨⟨_, h1, h2⟩, ⟨_, h3, h4⟩⟩

-- removing `list` from the sample: the mapping two levels below goes, `b` stays as it is
example : ¬ Live sampleCut 8 ∧ SameAt sample.data sampleCut.data 14 ∧ valueText sampleCut.data 14 = .ok (b! "[p, q]") := by
  refine ⟨?_, ?_, ?_⟩
  · rw [C21_survivors sample_reachable sample_live_root sampleCut_edit sample_live_inner]
    exact not_not_intro ⟨4, by unfold Op.removes; decide, .step .self (.inl ⟨[6, 8], by decide, by decide, by decide⟩)⟩
  · exact C21_same sample_reachable sample_live_root sampleCut_edit sample_live_b sampleCut_live_b (by simp [Op.overwrites])
  · have hn : ∀ z, (Op.remove (b! "list")).overwrites sample.data 0 z → ¬ Below sample.data 14 z := by
      rintro z rfl hb
      rcases hb.head with h | ⟨r, hr, hb⟩
      · cases h
      · exact (C08_parsed_wellFormed sample_parsed).acyclic 14 r sample_live_b hr
          (hb.trans (.step .self (.inr ⟨_, b! "b", by decide, sample_entries, by decide⟩)))
    obtain ⟨⟨out, h1, h2⟩, _⟩ := C21_text sample_reachable sample_live_root sampleCut_edit sample_live_b sampleCut_live_b hn
    rw [h2, ← h1]; decide

/-! ### C22 -/

/-- C22: the id of a new entry of a mapping is not the id of anything in the document (nor of
anything stored in the arena). -/
theorem C22_insert_fresh {doc : Document} (h : Reachable doc) {x : Nat} (hx : Live doc x) {key : Bytes} {v : Val}
    {id : Nat} {d' : Data} (hnew : mapGet doc.data x key = .ok none) (hi : mapInsertV doc.data x key v = .ok (id, d')) :
    ¬ Live doc id ∧ doc.data.entry id = .error .panic ∧ Live ⟨doc.suffix, doc.root, d'⟩ id := by
  obtain ⟨t, ht⟩ := h.holds
  obtain ⟨u, hu⟩ := (ht.live_iff x).1 hx
  obtain ⟨p, ha⟩ := ht.at hu
  have hid := ha.id
  have hg := ha.get
  cases u with
  | leaf j q s => cases s <;> simp [mapGet, Data.mapping, hg, Tree.raw, Scalar.toRaw, bind, Except.bind] at hnew
  | node j q m n k items =>
    simp only [Tree.id_node] at hid
    subst hid
    cases m with
    | false => simp [mapGet, Data.mapping, hg, Tree.raw, collRaw, bind, Except.bind] at hnew
    | true =>
      have hl : items.lookup key = none := by
        rw [ha.mapGet] at hnew
        cases hl : items.lookup key with
        | none => rfl
        | some w => rw [hl] at hnew; cases hnew
      obtain ⟨i', v', d2, h1, _, f2, _, h2⟩ := ht.insertNew hu key v.sep (v.scalar (.node j q true n k items)) hl
      have heq := mapInsertV_eq ha.rep key v
      simp only [Tree.id_node] at heq
      rw [heq, h1] at hi
      cases hi
      have hne : doc.data.entry id = .error .panic := by simp [Data.entry, f2]
      refine ⟨fun hc => ?_, hne, (h2.live_iff _).2 ⟨_, Tree.find_trans h2.nodup (Tree.find_upd hu rfl)
        (Tree.find_pair (n := items.pairs.length) (key := ⟨.bare, key, key⟩)
          (v := .leaf id (insertPre v.sep) (v.scalar (.node j q true n k items))) ?_ ?_)⟩⟩
      · obtain ⟨w, hw⟩ := (ht.live_iff _).1 hc
        obtain ⟨_, hw'⟩ := ht.at hw
        rw [hw'.get] at f2; cases f2
      · obtain ⟨_, ha2⟩ := h2.at (Tree.find_upd hu rfl); exact ha2.nodup
      · simp [Items.pairs_append, Items.pairs]

/-- C22: the same for a value pushed to a sequence. -/
theorem C22_push_fresh {doc : Document} (h : Reachable doc) {x : Nat} (hx : Live doc x) {v : Val}
    {id : Nat} {d' : Data} (hs : asSequence doc.data x = .ok (some x)) (hi : seqPushV doc.data x v = .ok (id, d')) :
    ¬ Live doc id ∧ doc.data.entry id = .error .panic ∧ Live ⟨doc.suffix, doc.root, d'⟩ id := by
  obtain ⟨t, ht⟩ := h.holds
  obtain ⟨L, hL, _⟩ := ht.wellFormed.sequences x hx hs
  obtain ⟨q, n, k, items, p, hu, ha, _⟩ := ht.seqNode hx hL
  obtain ⟨i', v', d2, h1, _, f2, _, h2⟩ := ht.push hu v.sep (v.scalar (.node x q false n k items))
  have heq := seqPushV_eq ha.rep v
  simp only [Tree.id_node] at heq
  rw [heq, h1] at hi
  cases hi
  have hne : doc.data.entry id = .error .panic := by simp [Data.entry, f2]
  refine ⟨fun hc => ?_, hne, (h2.live_iff _).2 ⟨_, Tree.find_trans h2.nodup (Tree.find_upd hu rfl)
    (Tree.find_pair (n := items.pairs.length) (key := noKey)
      (v := .leaf id (pushPre v.sep items) (v.scalar (.node x q false n k items))) ?_ ?_)⟩⟩
  · obtain ⟨w, hw⟩ := (ht.live_iff _).1 hc
    obtain ⟨_, hw'⟩ := ht.at hw
    rw [hw'.get] at f2; cases f2
  · obtain ⟨_, ha2⟩ := h2.at (Tree.find_upd hu rfl); exact ha2.nodup
  · simp [Items.pairs_append, Items.pairs]

-- after a removal the freed slots are used again, by ids that are not live
example : (seqPushV sampleShort.data 4 (.bool true)).map (·.1) = .ok 5 := by decide
example {id : Nat} {d' : Data} (h : seqPushV sampleShort.data 4 (.bool true) = .ok (id, d')) : ¬ Live sampleShort id :=
  (C22_push_fresh (.edited sample_reachable sample_live_list sampleShort_edit) sampleShort_live_list (by decide) h).1

-- and a new key in a mapping
example : (mapInsertV sample.data 8 (b! "new") (.str (b! "x"))).map (·.1) = .ok 20 := by decide
example {id : Nat} {d' : Data} (h : mapInsertV sample.data 8 (b! "new") (.str (b! "x")) = .ok (id, d')) : ¬ Live sample id :=
  (C22_insert_fresh sample_reachable sample_live_inner (by decide) h).1

/-! ### C23 -/

/-- C23: the arena holds exactly the values of the document and the entries that link
collections to their values. -/
theorem C23_no_leaks {doc : Document} (h : Reachable doc) (i : Nat) :
    (∃ e, doc.data.entry i = .ok e) ↔ Live doc i ∨ ∃ x c, Live doc x ∧
      (doc.data.mapping x = .ok c ∨ doc.data.sequence x = .ok c) ∧ i ∈ c.items := by
  obtain ⟨t, ht⟩ := h.holds
  constructor
  · rintro ⟨e, he⟩
    have hg : doc.data.slab.get i = some e := by
      unfold Data.entry at he
      cases hg : doc.data.slab.get i with
      | none => rw [hg] at he; cases he
      | some e' => rw [hg] at he; cases he; rfl
    have hm := ht.entry_mem hg
    cases hi : e.raw.isItem with
    | false => exact .inl ((ht.live_iff i).2 (Tree.find_of_entry hi hm))
    | true =>
      obtain ⟨c, cp, m, ind, k, items, n, h1, h2⟩ := Tree.coll_of_item hi ht.nodup hm
      obtain ⟨q, ha⟩ := ht.at h1
      have hgc := ha.get
      refine .inr ⟨c, ⟨ind, k, items.ids⟩, (ht.live_iff c).2 ⟨_, h1⟩, ?_, List.mem_of_getElem? h2⟩
      cases m
      · exact .inr (sequence_of hgc)
      · exact .inl (mapping_of hgc)
  · have fin : doc.data.slab.get i ≠ none → ∃ e, doc.data.entry i = .ok e := by
      intro hn
      cases hg : doc.data.slab.get i with
      | none => exact absurd hg hn
      | some e => exact ⟨e, entry_of hg⟩
    rintro (hl | ⟨x, c, hx, hc, hi⟩)
    · obtain ⟨w, hw⟩ := (ht.live_iff i).1 hl
      obtain ⟨_, ha⟩ := ht.at hw
      exact ⟨_, entry_of ha.get⟩
    · apply fin
      rcases hc with hc | hc
      · unfold Data.mapping at hc
        split at hc
        · next hg => cases hc; exact ht.closed.items x true c _ _ hg i hi
        · cases hc
      · unfold Data.sequence at hc
        split at hc
        · next hg => cases hc; exact ht.closed.items x false c _ _ hg i hi
        · cases hc

-- replacing the whole sample by a scalar leaves one entry
example : ∃ doc', sample.edit 0 (.setBool true) = .ok doc' ∧
    (List.range 30).filter (fun i => (doc'.data.slab.get i).isSome) = [0] := ⟨_, rfl, by decide⟩

/-! ### C24 -/

/-- C24: right after an edit that took a value out of the document, reading through its id
panics, and setting through it changes nothing. -/
theorem C24_removed_id {doc doc' : Document} (h : Reachable doc) {x y : Nat} (hx : Live doc x) {op : Op}
    (he : doc.edit x op = .ok doc') (hy : Live doc y) (hy' : ¬ Live doc' y) :
    asAny doc'.data y = .error .panic ∧ asBool doc'.data y = .error .panic ∧ asNumber doc'.data y = .error .panic ∧
    asBstr doc'.data y = .error .panic ∧ asStr doc'.data y = .error .panic ∧ asMapping doc'.data y = .error .panic ∧
    asSequence doc'.data y = .error .panic ∧ valueText doc'.data y = .error .panic ∧
    valueDisplay doc'.data y = .error .panic ∧ mapEntries doc'.data y = .error .panic ∧
    seqValues doc'.data y = .error .panic ∧
    ∀ op2, op2.isSet = true → doc'.edit y op2 = .ok doc' ∨ doc'.edit y op2 = .error .panic := by
  obtain ⟨t, ht⟩ := h.holds
  obtain ⟨t', z, ht', hz, hzl, _, hk⟩ := ht.edit_keeps hx he
  obtain ⟨w, hw⟩ := (ht.live_iff y).1 hy
  obtain ⟨_, ha⟩ := ht.at hw
  have hx' : Live doc' x := by
    rw [C21_survivors h hx he hx]
    rintro ⟨r, hr, hb⟩
    have hcx : ∀ r, Child doc.data x r → Below doc.data r x → False := fun r h1 h2 => ht.wellFormed.acyclic x r hx h1 h2
    have hmap : ∀ key z, mapGet doc.data x key = .ok (some z) → Child doc.data x z := by
      intro key z hz
      obtain ⟨u, hu⟩ := (ht.live_iff x).1 hx
      obtain ⟨p, hau⟩ := ht.at hu
      obtain ⟨w', x', p', n, k, items, rfl, hl⟩ := At.mapGet_some hau hz
      have hid := hau.id
      simp only [Tree.id_node] at hid
      subst hid
      obtain ⟨n', key', hp, _⟩ := Items.lookup_mem hl
      rw [hau.mapGet, hl] at hz
      simp only [Option.map_some, Except.ok.injEq, Option.some.injEq] at hz
      exact (child_iff hau.rep z).2 ⟨_, _, _, _, _, _, rfl, n', key', w', hp, hz⟩
    cases op <;> simp only [Op.removes] at hr
    case insert key val =>
      obtain ⟨z, hz, hc⟩ := hr
      exact hcx z (hmap _ _ hz) (Below.trans (.step .self hc) hb)
    case remove key => exact hcx r (hmap _ _ hr) hb
    case clearMapping => exact hcx r hr.2 hb
    case clearSequence => exact hcx r hr.2 hb
    case makeMapping => exact hcx r hr.2 hb
    case makeSequence => exact hcx r hr.2 hb
    case removeAt ix =>
      obtain ⟨u, hu⟩ := (ht.live_iff x).1 hx
      obtain ⟨p, hau⟩ := ht.at hu
      have hid := hau.id
      have hg := hau.get
      cases u with
      | leaf j q s => cases s <;> simp [seqGet, Data.sequence, hg, Tree.raw, Scalar.toRaw, bind, Except.bind] at hr
      | node j q m n k items =>
        simp only [Tree.id_node] at hid
        subst hid
        cases m with
        | true => simp [seqGet, Data.sequence, hg, Tree.raw, collRaw, bind, Except.bind] at hr
        | false =>
          rw [hau.seqGet] at hr
          cases hp : items.pairs[ix]? with
          | none => rw [hp] at hr; cases hr
          | some q' =>
            rw [hp] at hr
            simp only [Option.map_some, Except.ok.injEq, Option.some.injEq] at hr
            exact hcx r ((child_iff hau.rep r).2 ⟨_, _, _, _, _, _, rfl, ix, q'.1, q'.2, hp, hr⟩) hb
    all_goals exact hcx r hr hb
  have hn : doc'.data.slab.get y = none := by
    by_cases hyz : y = z
    · -- the overwritten value is still there
      exfalso
      subst hyz
      apply hy'
      rw [C21_survivors h hx he hy]
      by_cases hyx : y = x
      · subst hyx; exact (C21_survivors h hx he hx).1 hx'
      · rintro ⟨r, hr, hb⟩
        cases op <;> simp only [Op.overwrites] at hz
        case insert key val =>
          rcases hz with hz | hz
          · obtain ⟨z', hz', hc⟩ := hr
            rw [hz] at hz'
            cases hz'
            exact ht.wellFormed.acyclic y r hy hc hb
          · exact hyx hz.1
        all_goals exact hyx hz
    · rcases hk y _ hyz ha.get with h1 | h1
      · exact absurd ((ht'.live_iff y).2 (Tree.find_of_entry w.raw_isItem (ht'.entry_mem h1))) hy'
      · exact h1
  have hr : doc'.data.raw y = .error .panic := by simp [Data.raw, Data.entry, hn, bind, Except.bind]
  refine ⟨?_, ?_, ?_, ?_, ?_, ?_, ?_, ?_, ?_, ?_, ?_, ?_⟩
  · simp only [asAny, hr, bind, Except.bind]
  · simp only [asBool, hr, bind, Except.bind]
  · simp only [asNumber, hr, bind, Except.bind]
  · simp only [asBstr, hr, bind, Except.bind]
  · simp only [asStr, hr, bind, Except.bind]
  · simp only [asMapping, hr, bind, Except.bind]
  · simp only [asSequence, hr, bind, Except.bind]
  · simp only [valueText, hr, bind, Except.bind]
  · simp only [valueDisplay, hr, bind, Except.bind]
  · simp only [mapEntries, mapIter, Data.mapping, hn, bind, Except.bind]
  · simp only [seqValues, seqIter, Data.sequence, hn, bind, Except.bind]
  · intro op2 h2
    cases op2 <;> simp only [Op.isSet, Bool.false_eq_true] at h2
    case setBlock l b =>
      right
      simp [Document.edit, Op.run, setBlock, newBlock, Data.entry, hn, bind, Except.bind]
    all_goals
      left
      simp [Document.edit, Op.run, setNull, setString, setStringWith, setBool, setNumber, Data.replace, hn, bind,
        Except.bind, pure, Except.pure]

example : asAny sampleCut.data 8 = .error .panic := by
  refine (C24_removed_id sample_reachable sample_live_root sampleCut_edit sample_live_inner ?_).1
  rw [C21_survivors sample_reachable sample_live_root sampleCut_edit sample_live_inner]
  exact not_not_intro ⟨4, by unfold Op.removes; decide, .step .self (.inl ⟨[6, 8], by decide, by decide, by decide⟩)⟩

end Verif
