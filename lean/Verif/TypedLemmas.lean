import Verif.AlikeLemmas
import Verif.Typed
/-
Types get the data they fit.
-/
namespace Verif

/-- From some number of steps on, these are the calls. -/
def Given (F : Nat → Except SErr (List Visit)) (r : List Visit) : Prop := ∃ N, ∀ f, N ≤ f → plainly (F f) = .ok r

theorem Given.step {F G : Nat → Except SErr (List Visit)} {r : List Visit} (h : Given G r) (N : Nat) (he : ∀ f, N ≤ f → F (f + 1) = G f) : Given F r := by
  obtain ⟨M, h⟩ := h
  refine ⟨max N M + 1, fun f hf => ?_⟩
  obtain ⟨f, rfl⟩ : ∃ g, f = g + 1 := ⟨f - 1, by omega⟩
  rw [he f (by omega), h f (by omega)]

theorem Given.const {r : List Visit} : Given (fun _ => .ok r) (r.map Visit.plain) := ⟨0, fun _ _ => rfl⟩

theorem Given.cons {F : Nat → Except SErr (List Visit)} {r : List Visit} (v : Visit) (h : Given F r) : Given (fun f => do return v :: (← F f)) (v.plain :: r) := by
  obtain ⟨N, h⟩ := h
  refine ⟨N, fun f hf => ?_⟩
  have := h f hf
  cases hF : F f with
  | error e => rw [hF] at this; cases this
  | ok a =>
    rw [hF] at this
    cases this
    simp [plainly, Except.map, bind, Except.bind, pure, Except.pure, hF]

theorem Given.append {F G : Nat → Except SErr (List Visit)} {r q : List Visit} (p : List Visit) (h : Given F r) (h2 : Given G q) :
    Given (fun f => do let a ← F f; return p ++ a ++ (← G f)) (p.map Visit.plain ++ r ++ q) := by
  obtain ⟨N, h⟩ := h
  obtain ⟨M, h2⟩ := h2
  refine ⟨max N M, fun f hf => ?_⟩
  have h := h f (by omega)
  have h2 := h2 f (by omega)
  cases hF : F f with
  | error e => rw [hF] at h; cases h
  | ok a =>
    cases hG : G f with
    | error e => rw [hG] at h2; cases h2
    | ok b =>
      rw [hF] at h
      rw [hG] at h2
      cases h; cases h2
      simp [plainly, Except.map, bind, Except.bind, pure, Except.pure, hF, hG]

/-- The type gets the content, wherever it is. -/
def Fed (d : Data) (L : Scalar → Prop) (τ : Ty) (Q : Content → List Visit → Prop) : Prop :=
  ∀ (u : Tree Nat) (par : Option Nat) (r : List Visit), Rep d par u → u.all L → Q u.content r → Given (fun f => types.run d f τ u.id) r

theorem Given.elems {d : Data} {L : Scalar → Prop} {τ : Ty} {P : Nat → Option (Content → List Visit → Prop)} (hP : ∀ n, (P n = none ∧ types.elem τ n = none) ∨ ∃ Q τ', P n = some Q ∧ types.elem τ n = some τ' ∧ Fed d L τ' Q) :
    ∀ {is : Items Nat} {c : Nat} {n : Nat} {r : List Visit}, RepItems d c false is → is.all L → eachElem P n is.elemsC r → Given (fun f => types.runSeq d f τ n ⟨is.ids⟩) r
  | .nil, c, n, r, h, hl, he => by
    cases he
    refine ⟨1, fun f hf => ?_⟩
    obtain ⟨f, rfl⟩ : ∃ g, f = g + 1 := ⟨f - 1, by omega⟩
    simp only [Wanted.runSeq]
    cases types.elem τ n <;> rfl
  | .cons i p key v rest, c, n, r, h, hl, he => by
    obtain ⟨h1, h2, h3⟩ := h.cons
    rcases hP n with ⟨h4, h5⟩ | ⟨Q, τ', h4, h5, h6⟩
    · simp only [Items.elemsC, eachElem, h4] at he
      subst he
      exact Given.step Given.const 0 fun f _ => by simp only [Wanted.runSeq, h5]; rfl
    · simp only [Items.elemsC, eachElem, h4] at he
      obtain ⟨a, b, rfl, g1, g2⟩ := he
      refine Given.step (Given.append [] (h6 v _ a h2 hl.1 g1) (Given.elems hP h3 hl.2 g2)) 0 fun f _ => ?_
      simp only [Wanted.runSeq, h5, Items.ids, seqAccessNext, Iter.next, sequenceItem_of h1, lift]
      rfl

theorem Given.entries {d : Data} {L : Scalar → Prop} {τ : Ty} {P : Bytes → Option (Content → List Visit → Prop)}
    (hP : ∀ k, (P k = none ∧ ∀ n, types.value τ n k = none) ∨ ∃ Q τ', P k = some Q ∧ (∀ n, types.value τ n k = some τ') ∧ Fed d L τ' Q) :
    ∀ {is : Items Nat} {c : Nat} {n : Nat} {val : Option Nat} {r : List Visit}, RepItems d c true is → is.all L → eachEntry P is.entriesC r → Given (fun f => types.runMap d f τ n ⟨⟨is.ids⟩, val⟩) r
  | .nil, c, n, val, r, h, hl, he => by
    cases he
    refine ⟨1, fun f hf => ?_⟩
    obtain ⟨f, rfl⟩ : ∃ g, f = g + 1 := ⟨f - 1, by omega⟩
    simp only [Wanted.runMap]
    split <;> rfl
  | .cons i p key v rest, c, n, val, r, h, hl, he => by
    obtain ⟨h1, h2, h3⟩ := h.cons
    rcases hP key.id with ⟨h4, h5⟩ | ⟨Q, τ', h4, h5, h6⟩
    · simp only [Items.entriesC, eachEntry, h4] at he
      obtain ⟨b, rfl, g2⟩ := he
      refine Given.step (Given.cons (.bytes key.id) (Given.entries hP (n := n + 1) (val := some v.id) h3 hl.2 g2)) 0 fun f _ => ?_
      rw [Wanted.runMap, if_pos (show types.more τ n = true from rfl)]
      simp only [Items.ids, MapAccess.nextKey, Iter.next, mapItemOf, mappingItem_of h1, lift, bind, Except.bind, pure, Except.pure, h5]
    · simp only [Items.entriesC, eachEntry, h4] at he
      obtain ⟨a, b, rfl, g1, g2⟩ := he
      refine Given.step (Given.append [.bytes key.id] (h6 v _ a h2 hl.1 g1) (Given.entries hP (n := n + 1) (val := none) h3 hl.2 g2)) 0 fun f _ => ?_
      rw [Wanted.runMap, if_pos (show types.more τ n = true from rfl)]
      simp only [Items.ids, MapAccess.nextKey, MapAccess.nextValue, Iter.next, mapItemOf, mappingItem_of h1, lift, bind, Except.bind, pure, Except.pure, h5]
      rfl

/-- One call, after a few steps. -/
theorem Given.one {d : Data} {τ : Ty} {x : Nat} {v : Visit} (h : ∀ f, deserialize (f + 3) d x (types.ask τ) = .ok v) (h1 : ∀ y, v ≠ .some y) (h2 : ∀ y, v ≠ .seq y) (h3 : ∀ y, v ≠ .map y) :
    Given (fun f => types.run d f τ x) [v] := by
  have hp : [v] = [v].map Visit.plain := by
    cases v <;> first | rfl | exact absurd rfl (h1 _) | exact absurd rfl (h2 _) | exact absurd rfl (h3 _)
  rw [hp]
  refine Given.step Given.const 3 fun f hf => ?_
  obtain ⟨f, rfl⟩ : ∃ g, f = g + 3 := ⟨f - 3, by omega⟩
  simp only [Wanted.run, h f]
  cases v <;> first | rfl | exact absurd rfl (h1 _) | exact absurd rfl (h2 _) | exact absurd rfl (h3 _)

theorem Tree.content_leaf {u : Tree Nat} {a : AnyV} (h : u.content = .scalar a) : ∃ i p s, u = .leaf i p s ∧ s.value = a := by
  cases u with
  | leaf i p s => exact ⟨i, p, s, rfl, by simpa [Tree.content] using h⟩
  | node i p m ind k items => cases m <;> cases h

theorem Tree.content_seq {u : Tree Nat} {es : Elems} (h : u.content = .seq es) : ∃ i p ind k items, u = .node i p false ind k items ∧ items.elemsC = es := by
  cases u with
  | leaf i p s => cases h
  | node i p m ind k items =>
    cases m
    · exact ⟨i, p, ind, k, items, rfl, by simpa [Tree.content] using h⟩
    · cases h

theorem Tree.content_map {u : Tree Nat} {es : Entries} (h : u.content = .map es) : ∃ i p ind k items, u = .node i p true ind k items ∧ items.entriesC = es := by
  cases u with
  | leaf i p s => cases h
  | node i p m ind k items =>
    cases m
    · cases h
    · exact ⟨i, p, ind, k, items, rfl, by simpa [Tree.content] using h⟩

theorem Items.elemsC_zeros : ∀ {is : Items Nat}, is.ids.map (fun _ => 0) = List.replicate is.elemsC.length 0
  | .nil => rfl
  | .cons i p key v rest => by simp [Items.ids, Items.elemsC, Elems.length, List.replicate_succ, ← Items.elemsC_zeros (is := rest)]

theorem Items.entriesC_zeros : ∀ {is : Items Nat}, is.ids.map (fun _ => 0) = List.replicate is.entriesC.length 0
  | .nil => rfl
  | .cons i p key v rest => by simp [Items.ids, Items.entriesC, Entries.length, List.replicate_succ, ← Items.entriesC_zeros (is := rest)]

/-- The call for a number of a parsed document. -/
theorem deserialize_numberCall {d : Data} {x : Nat} {s : Bytes} {h : Hint} {v : Visit} (hr : d.raw x = .ok (.number s h)) (hl : NumLike s h) (hv : numberCall s = some v) (f : Nat) :
    deserialize (f + 3) d x .ignoredAny = .ok v := by
  have hh := hl.hint
  subst hh
  have ha : deserialize (f + 3) d x .ignoredAny = deserialize (f + 1) d x (hintOf s).method := by
    rw [deserialize, deserialize, hr]
    rfl
  rw [ha]
  rw [numberCall] at hv
  cases hd : decimal s with
  | none =>
    simp only [hd] at hv
    split at hv
    · next hf =>
      cases hv
      have : hintOf s = .f64 := by rw [hintOf, if_pos hd]
      rw [this]
      simp only [Hint.method, deserialize, asFloat, hr, lift, bind, Except.bind, pure, Except.pure, (floatText_iff _).2 hf, if_true]
    · cases hv
  | some y =>
    simp only [hd] at hv
    split at hv
    · next hh =>
      split at hv
      · next hi =>
        cases hv
        have : hintOf s = .i64 := by rw [hintOf, if_neg (by rw [hd]; simp), if_pos hh]
        rw [this]
        simp only [Hint.method]
        rw [deserialize, if_neg (by decide)]
        simp only [asInt, hr, lift, bind, Except.bind, pure, Except.pure, lexParse_of_decimal hd hi (.inl rfl)]
      · cases hv
    · next hh =>
      split at hv
      · next hi =>
        cases hv
        have : hintOf s = .u64 := by rw [hintOf, if_neg (by rw [hd]; simp), if_neg hh]
        rw [this]
        simp only [Hint.method]
        rw [deserialize, if_neg (by decide)]
        simp only [asInt, hr, lift, bind, Except.bind, pure, Except.pure, lexParse_of_decimal hd hi (.inr hh)]
      · cases hv

theorem numberCall_scalar {s : Bytes} {v : Visit} (h : numberCall s = some v) : (∀ y, v ≠ .some y) ∧ (∀ y, v ≠ .seq y) ∧ (∀ y, v ≠ .map y) := by
  rw [numberCall] at h
  split at h
  · split at h <;> split at h <;> cases h <;> simp
  · split at h <;> cases h <;> simp

mutual
theorem Given.ignored {d : Data} : ∀ (u : Tree Nat) {par : Option Nat} {r : List Visit}, Rep d par u → u.all Like → passing u.content = some r → Given (fun f => types.run d f .ignored u.id) r
  | .leaf i p s, par, r, h, hl, hp => by
    have hr := raw_of h.head
    cases s with
    | null n =>
      cases hp
      exact Given.one (fun f => by simp only [types, deserialize, hr, lift]; rfl) (fun y h => by cases h) (fun y h => by cases h) (fun y h => by cases h)
    | bool b t =>
      cases hp
      exact Given.one (fun f => by simp only [types, deserialize, hr, lift]; rfl) (fun y h => by cases h) (fun y h => by cases h) (fun y h => by cases h)
    | string t =>
      cases hp
      refine Given.one (fun f => by simp only [types, deserialize, hr, lift]; rfl) (fun y => ?_) (fun y => ?_) (fun y => ?_) <;> split <;> simp
    | number s hint =>
      simp only [Tree.content, Scalar.value, passing, Option.map_eq_some_iff] at hp
      obtain ⟨v, hv, rfl⟩ := hp
      obtain ⟨h1, h2, h3⟩ := numberCall_scalar hv
      exact Given.one (fun f => deserialize_numberCall hr (hl s hint rfl) hv f) h1 h2 h3
  | .node i p false ind k items, par, r, h, hl, hp => by
    have hr := raw_of h.head
    simp only [Tree.content, passing, Option.map_eq_some_iff] at hp
    obtain ⟨a, hp, rfl⟩ := hp
    rw [← Items.elemsC_zeros]
    refine Given.step (Given.cons (.seq ⟨items.ids⟩) (Given.ignoredElems items (n := 0) h.node.2 hl hp)) 2 fun f hf => ?_
    obtain ⟨f, rfl⟩ : ∃ g, f = g + 2 := ⟨f - 2, by omega⟩
    have : deserialize (f + 2) d (Tree.node i p false ind k items).id (types.ask .ignored) = .ok (.seq ⟨items.ids⟩) := by
      have hs : seqIter d (Tree.node i p false ind k items).id = .ok ⟨items.ids⟩ := by
        rw [seqIter, Data.sequence, h.head]
        rfl
      simp only [types, deserialize, hr, lift, hs, bind, Except.bind, pure, Except.pure, Tree.raw]
      rfl
    simp only [Wanted.run, this]
    rfl
  | .node i p true ind k items, par, r, h, hl, hp => by
    have hr := raw_of h.head
    simp only [Tree.content, passing, Option.map_eq_some_iff] at hp
    obtain ⟨a, hp, rfl⟩ := hp
    rw [← Items.entriesC_zeros]
    refine Given.step (Given.cons (.map ⟨items.ids⟩) (Given.ignoredEntries items (n := 0) (val := none) h.node.2 hl hp)) 2 fun f hf => ?_
    obtain ⟨f, rfl⟩ : ∃ g, f = g + 2 := ⟨f - 2, by omega⟩
    have : deserialize (f + 2) d (Tree.node i p true ind k items).id (types.ask .ignored) = .ok (.map ⟨items.ids⟩) := by
      have hs : mapIter d (Tree.node i p true ind k items).id = .ok ⟨items.ids⟩ := by
        rw [mapIter, Data.mapping, h.head]
        rfl
      simp only [types, deserialize, hr, lift, hs, bind, Except.bind, pure, Except.pure, Tree.raw]
      rfl
    simp only [Wanted.run, this]
    rfl
theorem Given.ignoredElems {d : Data} : ∀ (is : Items Nat) {c n : Nat} {r : List Visit}, RepItems d c false is → is.all Like → passingElems is.elemsC = some r →
    Given (fun f => types.runSeq d f .ignored n ⟨is.ids⟩) r
  | .nil, c, n, r, h, hl, hp => by
    cases hp
    exact Given.step Given.const 0 fun f _ => by simp only [Wanted.runSeq]; rfl
  | .cons i p key v rest, c, n, r, h, hl, hp => by
    obtain ⟨h1, h2, h3⟩ := h.cons
    simp only [Items.elemsC, passingElems, bind, Option.bind_eq_some_iff, pure, Option.some.injEq] at hp
    obtain ⟨a, ha, b, hb, rfl⟩ := hp
    refine Given.step (Given.append [] (Given.ignored v h2 hl.1 ha) (Given.ignoredElems rest (n := n + 1) h3 hl.2 hb)) 0 fun f _ => ?_
    simp only [Wanted.runSeq, types, Items.ids, seqAccessNext, Iter.next, sequenceItem_of h1, lift]
    rfl
theorem Given.ignoredEntries {d : Data} : ∀ (is : Items Nat) {c n : Nat} {val : Option Nat} {r : List Visit}, RepItems d c true is → is.all Like → passingEntries is.entriesC = some r →
    Given (fun f => types.runMap d f .ignored n ⟨⟨is.ids⟩, val⟩) r
  | .nil, c, n, val, r, h, hl, hp => by
    cases hp
    exact Given.step Given.const 0 fun f _ => by simp only [Wanted.runMap]; rfl
  | .cons i p key v rest, c, n, val, r, h, hl, hp => by
    obtain ⟨h1, h2, h3⟩ := h.cons
    simp only [Items.entriesC, passingEntries, bind, Option.bind_eq_some_iff, pure, Option.some.injEq] at hp
    obtain ⟨a, ha, b, hb, rfl⟩ := hp
    refine Given.step (Given.append [.bytes key.id] (Given.ignored v h2 hl.1 ha) (Given.ignoredEntries rest (n := n + 1) (val := none) h3 hl.2 hb)) 0 fun f _ => ?_
    rw [Wanted.runMap, if_pos (show types.more .ignored n = true from rfl)]
    simp only [types, Items.ids, MapAccess.nextKey, MapAccess.nextValue, Iter.next, mapItemOf, mappingItem_of h1, lift, bind, Except.bind, pure, Except.pure]
    rfl
end

theorem Fed.all {d : Data} {P : Prop} : ∀ τ : Ty, Fed d (fun s => P → Like s) τ (Gets P τ)
  | .ignored, u, par, r, h, hl, ⟨hP, hp⟩ => Given.ignored u h (Tree.all_mono (fun _ hs => hs hP) hl) hp
  | .bool, u, par, r, h, hl, ⟨b, hc, hr⟩ => by
    obtain ⟨i, p, s, rfl, hs⟩ := Tree.content_leaf hc
    subst hr
    have hr := raw_of h.head
    cases s <;> cases hs
    exact Given.one (fun f => by simp only [types, deserialize, asBool, hr, lift]; rfl) (fun y h => by cases h) (fun y h => by cases h) (fun y h => by cases h)
  | .int t, u, par, r, h, hl, ⟨s, x, hc, h1, h2, h3, h4, hr⟩ => by
    obtain ⟨i, p, s, rfl, hs⟩ := Tree.content_leaf hc
    subst hr
    have hr := raw_of h.head
    cases s <;> cases hs
    have ht : ¬ (t = .u128 ∨ t = .i128) := by rintro (rfl | rfl) <;> exact h4 rfl
    refine Given.one (fun f => ?_) (fun y h => by cases h) (fun y h => by cases h) (fun y h => by cases h)
    simp only [types]
    rw [deserialize, if_neg ht]
    simp only [asInt, hr, Tree.raw, Scalar.toRaw, lift, bind, Except.bind, pure, Except.pure, lexParse_of_decimal h1 h2 h3]
  | .f32, u, par, r, h, hl, ⟨s, hc, h1, hr⟩ => by
    obtain ⟨i, p, s, rfl, hs⟩ := Tree.content_leaf hc
    subst hr
    have hr := raw_of h.head
    cases s <;> cases hs
    refine Given.one (fun f => ?_) (fun y h => by cases h) (fun y h => by cases h) (fun y h => by cases h)
    simp only [types, deserialize, asFloat, hr, Tree.raw, Scalar.toRaw, lift, bind, Except.bind, pure, Except.pure, (floatText_iff _).2 h1, if_true]
  | .f64, u, par, r, h, hl, ⟨s, hc, h1, hr⟩ => by
    obtain ⟨i, p, s, rfl, hs⟩ := Tree.content_leaf hc
    subst hr
    have hr := raw_of h.head
    cases s <;> cases hs
    refine Given.one (fun f => ?_) (fun y h => by cases h) (fun y h => by cases h) (fun y h => by cases h)
    simp only [types, deserialize, asFloat, hr, Tree.raw, Scalar.toRaw, lift, bind, Except.bind, pure, Except.pure, (floatText_iff _).2 h1, if_true]
  | .str, u, par, r, h, hl, ⟨s, hc, h1, hr⟩ => by
    obtain ⟨i, p, s, rfl, hs⟩ := Tree.content_leaf hc
    subst hr
    have hr := raw_of h.head
    cases s <;> cases hs
    refine Given.one (fun f => ?_) (fun y h => by cases h) (fun y h => by cases h) (fun y h => by cases h)
    simp only [types, deserialize, asStr, hr, Tree.raw, Scalar.toRaw, lift, bind, Except.bind, pure, Except.pure, h1, if_true]
  | .bytes, u, par, r, h, hl, ⟨s, hc, hr⟩ => by
    obtain ⟨i, p, s, rfl, hs⟩ := Tree.content_leaf hc
    subst hr
    have hr := raw_of h.head
    cases s <;> cases hs
    refine Given.one (fun f => ?_) (fun y h => by cases h) (fun y h => by cases h) (fun y h => by cases h)
    simp only [types, deserialize, asBstr, hr, Tree.raw, Scalar.toRaw, lift, bind, Except.bind, pure, Except.pure]
  | .opt τ, u, par, r, h, hl, hg => by
    have hr := raw_of h.head
    rcases hg with ⟨hc, rfl⟩ | ⟨hc, a, rfl, hg⟩
    · obtain ⟨i, p, s, rfl, hs⟩ := Tree.content_leaf hc
      cases s <;> cases hs
      exact Given.one (fun f => by simp only [types, deserialize, hr, lift]; rfl) (fun y h => by cases h) (fun y h => by cases h) (fun y h => by cases h)
    · refine Given.step (Given.cons (.some u.id) (Fed.all τ u par a h hl hg)) 1 fun f hf => ?_
      obtain ⟨f, rfl⟩ : ∃ g, f = g + 1 := ⟨f - 1, by omega⟩
      have : deserialize (f + 1) d u.id (types.ask (.opt τ)) = .ok (.some u.id) := by
        simp only [types, deserialize, hr, lift]
        cases u with
        | leaf i p s => cases s <;> first | rfl | exact absurd rfl hc
        | node i p m ind k items => cases m <;> rfl
      simp only [Wanted.run, this]
      rfl
  | .vec τ, u, par, r, h, hl, ⟨es, a, hc, hr, hg⟩ => by
    obtain ⟨i, p, ind, k, items, rfl, rfl⟩ := Tree.content_seq hc
    subst hr
    have hr := raw_of h.head
    rw [← Items.elemsC_zeros]
    refine Given.step (Given.cons (.seq ⟨items.ids⟩) (Given.elems (τ := .vec τ) (fun n => .inr ⟨_, τ, rfl, rfl, Fed.all τ⟩) h.node.2 hl hg)) 1 fun f hf => ?_
    obtain ⟨f, rfl⟩ : ∃ g, f = g + 1 := ⟨f - 1, by omega⟩
    have : deserialize (f + 1) d (Tree.node i p false ind k items).id (types.ask (.vec τ)) = .ok (.seq ⟨items.ids⟩) := by
      have hs : seqIter d (Tree.node i p false ind k items).id = .ok ⟨items.ids⟩ := by
        rw [seqIter, Data.sequence, h.head]
        rfl
      have ha : asSequence d (Tree.node i p false ind k items).id = .ok (some (Tree.node i p false ind k items).id) := by
        rw [asSequence, hr]
        rfl
      simp only [types, deserialize, ha, lift, hs, bind, Except.bind, pure, Except.pure]
    simp only [Wanted.run, this]
    rfl
  | .tuple m elem, u, par, r, h, hl, ⟨es, a, hc, _, hr, hg⟩ => by
    obtain ⟨i, p, ind, k, items, rfl, rfl⟩ := Tree.content_seq hc
    subst hr
    have hr := raw_of h.head
    rw [← Items.elemsC_zeros]
    refine Given.step (Given.cons (.seq ⟨items.ids⟩) (Given.elems (τ := .tuple m elem) (fun n => ?_) h.node.2 hl hg)) 1 fun f hf => ?_
    · by_cases hn : n < m
      · exact .inr ⟨_, elem n, if_pos hn, if_pos hn, Fed.all (elem n)⟩
      · exact .inl ⟨if_neg hn, if_neg hn⟩
    obtain ⟨f, rfl⟩ : ∃ g, f = g + 1 := ⟨f - 1, by omega⟩
    have : deserialize (f + 1) d (Tree.node i p false ind k items).id (types.ask (.tuple m elem)) = .ok (.seq ⟨items.ids⟩) := by
      have hs : seqIter d (Tree.node i p false ind k items).id = .ok ⟨items.ids⟩ := by
        rw [seqIter, Data.sequence, h.head]
        rfl
      have ha : asSequence d (Tree.node i p false ind k items).id = .ok (some (Tree.node i p false ind k items).id) := by
        rw [asSequence, hr]
        rfl
      simp only [types, deserialize, ha, lift, hs, bind, Except.bind, pure, Except.pure]
    simp only [Wanted.run, this]
    rfl
  | .map τ, u, par, r, h, hl, ⟨es, a, hc, hr, hg⟩ => by
    obtain ⟨i, p, ind, k, items, rfl, rfl⟩ := Tree.content_map hc
    subst hr
    have hr := raw_of h.head
    rw [← Items.entriesC_zeros]
    refine Given.step (Given.cons (.map ⟨items.ids⟩) (Given.entries (τ := .map τ) (n := 0) (val := none) (fun n => .inr ⟨_, τ, rfl, fun _ => rfl, Fed.all τ⟩) h.node.2 hl hg)) 1 fun f hf => ?_
    obtain ⟨f, rfl⟩ : ∃ g, f = g + 1 := ⟨f - 1, by omega⟩
    have : deserialize (f + 1) d (Tree.node i p true ind k items).id (types.ask (.map τ)) = .ok (.map ⟨items.ids⟩) := by
      have hs : mapIter d (Tree.node i p true ind k items).id = .ok ⟨items.ids⟩ := by
        rw [mapIter, Data.mapping, h.head]
        rfl
      have ha : asMapping d (Tree.node i p true ind k items).id = .ok (some (Tree.node i p true ind k items).id) := by
        rw [asMapping, hr]
        rfl
      simp only [types, deserialize, ha, lift, hs, bind, Except.bind, pure, Except.pure]
    simp only [Wanted.run, this]
    rfl
  | .record known field, u, par, r, h, hl, ⟨es, a, hc, hr, hg⟩ => by
    obtain ⟨i, p, ind, k, items, rfl, rfl⟩ := Tree.content_map hc
    subst hr
    have hr := raw_of h.head
    rw [← Items.entriesC_zeros]
    refine Given.step (Given.cons (.map ⟨items.ids⟩) (Given.entries (τ := .record known field) (n := 0) (val := none) (fun n => ?_) h.node.2 hl hg)) 2 fun f hf => ?_
    · by_cases hn : known n = true
      · exact .inr ⟨_, field n, if_pos hn, fun _ => if_pos hn, Fed.all (field n)⟩
      · exact .inl ⟨if_neg hn, fun _ => if_neg hn⟩
    obtain ⟨f, rfl⟩ : ∃ g, f = g + 2 := ⟨f - 2, by omega⟩
    have : deserialize (f + 2) d (Tree.node i p true ind k items).id (types.ask (.record known field)) = .ok (.map ⟨items.ids⟩) := by
      have hs : mapIter d (Tree.node i p true ind k items).id = .ok ⟨items.ids⟩ := by
        rw [mapIter, Data.mapping, h.head]
        rfl
      simp only [types, deserialize, hr, lift, hs, bind, Except.bind, pure, Except.pure, Tree.raw]
      rfl
    simp only [Wanted.run, this]
    rfl

end Verif
