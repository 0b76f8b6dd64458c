import Verif.WantedLemmas
/-
Values that read the same are serialized and deserialized the same.
-/
namespace Verif

/-- The hint that the parser gives a number. -/
def hintOf (s : Bytes) : Hint := if decimal s = none then .f64 else if s.headD 0 = DASH then .i64 else .u64

theorem NumLike.hint {s : Bytes} {h : Hint} (hn : NumLike s h) : h = hintOf s := by
  rcases hn with ⟨rfl, h1, h2⟩ | ⟨rfl, r, rfl, h1, h2⟩ | ⟨rfl, h⟩
  · cases s with
    | nil => exact absurd rfl h1
    | cons b r =>
      have hb : isDigit b = true := by simpa using (List.all_eq_true.1 h2 b (by simp))
      have hne := digit_ne hb
      have : decimal (b :: r) ≠ Option.none := by
        simp only [decimal, beq_eq_false_iff_ne.2 hne.2.1, beq_eq_false_iff_ne.2 hne.1, Bool.false_eq_true, if_false, natOf, h2, List.isEmpty_cons]
        simp
      rw [hintOf, if_neg this, if_neg (by exact hne.2.1)]
  · have : decimal (DASH :: r) ≠ Option.none := by
      simp [decimal, natOf, h2, h1]
    simp [hintOf, this]
  · simp [hintOf, h]

/-- Scalars with the numbers as the parser makes them. -/
def Like (sc : Scalar) : Prop := ∀ s h, sc = .number s h → NumLike s h

theorem Like.eq {s : Bytes} {h h' : Hint} (h1 : Like (.number s h)) (h2 : Like (.number s h')) : h = h' :=
  (h1 _ _ rfl).hint.trans (h2 _ _ rfl).hint.symm

/-! ### Serialization -/

mutual
theorem Says.unique {num : Bytes → Ev} {key : Bytes → Ev} {len : Nat → Option Nat} : ∀ {c : Content} {e e' : List Ev}, Says (fun s n => n = num s) key len c e → Says (fun s n => n = num s) key len c e' → e = e'
  | .scalar a, e, e', h, h' => by
    cases a with
    | null => exact h.trans h'.symm
    | bool b => exact h.trans h'.symm
    | string s => exact h.trans h'.symm
    | number s =>
      obtain ⟨n, rfl, rfl⟩ := h
      obtain ⟨n', rfl, rfl⟩ := h'
      rfl
    | _ => exact h.elim
  | .map es, e, e', ⟨r, h1, h2⟩, ⟨r', h1', h2'⟩ => by rw [h1, h1', SaysMap.unique h2 h2']
  | .seq es, e, e', ⟨r, h1, h2⟩, ⟨r', h1', h2'⟩ => by rw [h1, h1', SaysSeq.unique h2 h2']
theorem SaysMap.unique {num : Bytes → Ev} {key : Bytes → Ev} {len : Nat → Option Nat} : ∀ {c : Entries} {e e' : List Ev}, SaysMap (fun s n => n = num s) key len c e → SaysMap (fun s n => n = num s) key len c e' → e = e'
  | .nil, e, e', h, h' => h.trans h'.symm
  | .cons k v rest, e, e', ⟨a, b, h1, h2, h3⟩, ⟨a', b', h1', h2', h3'⟩ => by rw [h1, h1', Says.unique h2 h2', SaysMap.unique h3 h3']
theorem SaysSeq.unique {num : Bytes → Ev} {key : Bytes → Ev} {len : Nat → Option Nat} : ∀ {c : Elems} {e e' : List Ev}, SaysSeq (fun s n => n = num s) key len c e → SaysSeq (fun s n => n = num s) key len c e' → e = e'
  | .nil, e, e', h, h' => h.trans h'.symm
  | .cons v rest, e, e', ⟨a, b, h1, h2, h3⟩, ⟨a', b', h1', h2', h3'⟩ => by rw [h1, h1', Says.unique h2 h2', SaysSeq.unique h3 h3']
end

theorem Like.num {sc : Scalar} (h : Like sc) : NumP (fun s n => n = numEv s (hintOf s)) sc := by
  cases sc with
  | number s hh => simp only [NumP]; rw [(h _ _ rfl).hint]
  | _ => trivial

/-! ### Deserialization -/

/-- What deserialization looks at in a value. -/
inductive RawLike : Raw → Raw → Prop
  | null {k k'} : RawLike (.null k) (.null k')
  | bool {b s s'} : RawLike (.bool b s) (.bool b s')
  | number {s h} : RawLike (.number s h) (.number s h)
  | string {s s' : RStr} : s.id = s'.id → RawLike (.string s) (.string s')
  | mapping {c c' : Coll} : c.items.length = c'.items.length → RawLike (.mapping c) (.mapping c')
  | sequence {c c' : Coll} : c.items.length = c'.items.length → RawLike (.sequence c) (.sequence c')

theorem Items.ids_entries {α β} : ∀ {is : Items α} {is' : Items β}, is.entriesC = is'.entriesC → is.ids.length = is'.ids.length
  | .nil, .nil, _ => rfl
  | .nil, .cons .., h => by cases h
  | .cons .., .nil, h => by cases h
  | .cons i p k v r, .cons i' p' k' v' r', h => by
    simp only [Items.entriesC, Entries.cons.injEq] at h
    simp [Items.ids, Items.ids_entries h.2.2]

theorem Items.ids_elems {α β} : ∀ {is : Items α} {is' : Items β}, is.elemsC = is'.elemsC → is.ids.length = is'.ids.length
  | .nil, .nil, _ => rfl
  | .nil, .cons .., h => by cases h
  | .cons .., .nil, h => by cases h
  | .cons i p k v r, .cons i' p' k' v' r', h => by
    simp only [Items.elemsC, Elems.cons.injEq] at h
    simp [Items.ids, Items.ids_elems h.2]

theorem Tree.rawLike {t t' : Tree Nat} (hc : t.content = t'.content) (h : t.all Like) (h' : t'.all Like) : RawLike t.raw t'.raw := by
  cases t with
  | leaf i p s =>
    cases t' with
    | node i' p' m' ind' k' items' => cases m' <;> cases hc
    | leaf i' p' s' =>
      simp only [Tree.content, Content.scalar.injEq] at hc
      cases s <;> cases s' <;> simp only [Scalar.value, reduceCtorEq, AnyV.bool.injEq, AnyV.number.injEq, AnyV.string.injEq] at hc
      · exact .null
      · subst hc; exact .bool
      · subst hc; cases Like.eq h h'; exact .number
      · exact .string hc
  | node i p m ind k items =>
    cases t' with
    | leaf i' p' s' => cases m <;> cases hc
    | node i' p' m' ind' k' items' =>
      cases m <;> cases m' <;> simp only [Tree.content, reduceCtorEq, Content.map.injEq, Content.seq.injEq] at hc
      · exact .sequence (Items.ids_elems hc)
      · exact .mapping (Items.ids_entries hc)

/-- The call, up to ids. -/
theorem deserialize_like {d d' : Data} {x x' : Nat} {e e' : Entry} (hx : d.slab.get x = some e) (hx' : d'.slab.get x' = some e') (h : RawLike e.raw e'.raw) :
    ∀ (f : Nat) (m : Method), (deserialize f d x m).map Visit.plain = (deserialize f d' x' m).map Visit.plain
  | 0, m => by cases m <;> rfl
  | f + 1, m => by
    have hr := raw_of hx
    have hr' := raw_of hx'
    obtain ⟨r, p, par⟩ := e
    obtain ⟨r', p', par'⟩ := e'
    have any := deserialize_like hx hx' h f .any
    have hseq : (lift (seqIter d x) >>= fun it => (pure (Visit.seq it) : Except SErr Visit)).map Visit.plain = (lift (seqIter d' x') >>= fun it => (pure (Visit.seq it) : Except SErr Visit)).map Visit.plain := by
      cases h with
      | sequence hl =>
        simp [seqIter, Data.sequence, hx, hx', lift, bind, Except.bind, pure, Except.pure, Except.map, Visit.plain]
        exact List.ext_getElem (by simpa using hl) (by simp)
      | _ => simp [seqIter, Data.sequence, hx, hx', lift, bind, Except.bind, pure, Except.pure, Except.map, Visit.plain]
    have hmap : (lift (mapIter d x) >>= fun it => (pure (Visit.map it) : Except SErr Visit)).map Visit.plain = (lift (mapIter d' x') >>= fun it => (pure (Visit.map it) : Except SErr Visit)).map Visit.plain := by
      cases h with
      | mapping hl =>
        simp [mapIter, Data.mapping, hx, hx', lift, bind, Except.bind, pure, Except.pure, Except.map, Visit.plain]
        exact List.ext_getElem (by simpa using hl) (by simp)
      | _ => simp [mapIter, Data.mapping, hx, hx', lift, bind, Except.bind, pure, Except.pure, Except.map, Visit.plain]
    have eInt : ∀ t, asInt t d x = asInt t d' x' := fun t => by cases h <;> simp [asInt, asNumber, hr, hr', bind, Except.bind, pure, Except.pure]
    have eFloat : asFloat d x = asFloat d' x' := by cases h <;> simp [asFloat, hr, hr', bind, Except.bind]
    have eBool : asBool d x = asBool d' x' := by cases h <;> simp [asBool, hr, hr', bind, Except.bind]
    have eStr : asStr d x = asStr d' x' := by cases h <;> simp [asStr, hr, hr', bind, Except.bind, *]
    have eBstr : asBstr d x = asBstr d' x' := by cases h <;> simp [asBstr, hr, hr', bind, Except.bind, *]
    have eSeq : (asSequence d x = .ok (some x) ∧ asSequence d' x' = .ok (some x')) ∨ (asSequence d x = .ok none ∧ asSequence d' x' = .ok none) := by
      cases h <;> simp [asSequence, hr, hr', bind, Except.bind, pure, Except.pure]
    have eMap : (asMapping d x = .ok (some x) ∧ asMapping d' x' = .ok (some x')) ∨ (asMapping d x = .ok none ∧ asMapping d' x' = .ok none) := by
      cases h <;> simp [asMapping, hr, hr', bind, Except.bind, pure, Except.pure]
    cases m
    case any =>
      rw [deserialize, deserialize]
      cases h with
      | null => simp only [hr, hr']; rfl
      | bool => simp only [hr, hr']; rfl
      | number =>
        rename_i s hh
        have := deserialize_like hx hx' (.number (s := s) (h := hh)) f hh.method
        simp only [hr, hr', lift, bind, Except.bind]; exact this
      | string hs => simp only [hr, hr', lift, bind, Except.bind, hs]
      | mapping _ => simp only [hr, hr']; exact hmap
      | sequence _ => simp only [hr, hr']; exact hseq
    case option =>
      rw [deserialize, deserialize]
      cases h <;> simp only [hr, hr'] <;> rfl
    case int t =>
      rw [deserialize, deserialize]
      split
      · rfl
      · rw [eInt t]
        cases asInt t d' x' with
        | error st => rfl
        | ok o => cases o with
          | none => exact any
          | some v => rfl
    case seq | tuple =>
      all_goals
        rw [deserialize, deserialize]
        rcases eSeq with ⟨h1, h2⟩ | ⟨h1, h2⟩
        · simp only [h1, h2]; exact hseq
        · simp only [h1, h2]; exact any
    case map =>
      rw [deserialize, deserialize]
      rcases eMap with ⟨h1, h2⟩ | ⟨h1, h2⟩
      · simp only [h1, h2]; exact hmap
      · simp only [h1, h2]; exact any
    case bool =>
      rw [deserialize, deserialize]
      rw [eBool]
      cases asBool d' x' with
      | error st => rfl
      | ok o => cases o with
        | none => exact any
        | some v => rfl
    case f32 =>
      rw [deserialize, deserialize]
      rw [eFloat]
      cases asFloat d' x' with
      | error st => rfl
      | ok o => cases o with
        | none => exact any
        | some v => rfl
    case f64 =>
      rw [deserialize, deserialize]
      rw [eFloat]
      cases asFloat d' x' with
      | error st => rfl
      | ok o => cases o with
        | none => exact any
        | some v => rfl
    case char =>
      rw [deserialize, deserialize]
      rw [eStr]
      cases asStr d' x' with
      | error st => rfl
      | ok o => cases o with
        | none => exact any
        | some v => rfl
    case str =>
      rw [deserialize, deserialize]
      rw [eStr]
      cases asStr d' x' with
      | error st => rfl
      | ok o => cases o with
        | none => exact any
        | some v => rfl
    case string =>
      rw [deserialize, deserialize]
      rw [eStr]
      cases asStr d' x' with
      | error st => rfl
      | ok o => cases o with
        | none => exact any
        | some v => rfl
    case bytes =>
      rw [deserialize, deserialize]
      rw [eBstr]
      cases asBstr d' x' with
      | error st => rfl
      | ok o => cases o with
        | none => exact any
        | some v => rfl
    case byteBuf =>
      rw [deserialize, deserialize]
      rw [eBstr]
      cases asBstr d' x' with
      | error st => rfl
      | ok o => cases o with
        | none => exact any
        | some v => rfl
    all_goals
      rw [deserialize, deserialize]
      exact any

theorem plainly_cons {v v' : Visit} {r r' : Except SErr (List Visit)} (hv : v.plain = v'.plain) (h : plainly r = plainly r') :
    plainly (do return v :: (← r)) = plainly (do return v' :: (← r')) := by
  cases r <;> cases r' <;> simp [plainly, Except.map, bind, Except.bind, pure, Except.pure, hv] at h ⊢
  · exact h
  · exact h

theorem plainly_append {p : List Visit} {r r' q q' : Except SErr (List Visit)} (h : plainly r = plainly r') (h2 : plainly q = plainly q') :
    plainly (do let a ← r; return p ++ a ++ (← q)) = plainly (do let a ← r'; return p ++ a ++ (← q')) := by
  cases r <;> cases r' <;> simp [plainly, Except.map, bind, Except.bind, pure, Except.pure] at h ⊢
  · exact h
  · cases q <;> cases q' <;> simp [plainly, Except.map, bind, Except.bind, pure, Except.pure] at h2 ⊢
    · exact h2
    · rw [h, h2]

/-- What is deserialized from values that read the same. -/
theorem Wanted.alike {σ : Type} (T : Wanted σ) {d d' : Data} : ∀ f : Nat,
    (∀ (s : σ) (t t' : Tree Nat) (par par' : Option Nat), Rep d par t → Rep d' par' t' → t.content = t'.content → t.all Like → t'.all Like → plainly (T.run d f s t.id) = plainly (T.run d' f s t'.id)) ∧
    (∀ (s : σ) (n : Nat) (is is' : Items Nat) (c c' : Nat), RepItems d c false is → RepItems d' c' false is' → is.elemsC = is'.elemsC → is.all Like → is'.all Like →
      plainly (T.runSeq d f s n ⟨is.ids⟩) = plainly (T.runSeq d' f s n ⟨is'.ids⟩)) ∧
    (∀ (s : σ) (n : Nat) (val val' : Option Nat) (is is' : Items Nat) (c c' : Nat), RepItems d c true is → RepItems d' c' true is' → is.entriesC = is'.entriesC → is.all Like → is'.all Like →
      plainly (T.runMap d f s n ⟨⟨is.ids⟩, val⟩) = plainly (T.runMap d' f s n ⟨⟨is'.ids⟩, val'⟩))
  | 0 => ⟨fun _ _ _ _ _ _ _ _ _ _ => rfl, fun _ _ _ _ _ _ _ _ _ _ _ => rfl, fun _ _ _ _ _ _ _ _ _ _ _ _ _ => rfl⟩
  | f + 1 => by
    obtain ⟨ih1, ih2, ih3⟩ := Wanted.alike T (d := d) (d' := d') f
    refine ⟨?_, ?_, ?_⟩
    · intro s t t' par par' h h' hc ha ha'
      have hl := Tree.rawLike hc ha ha'
      have hd := deserialize_like h.head h'.head hl f (T.ask s)
      rw [Wanted.run, Wanted.run]
      cases hv : deserialize f d t.id (T.ask s) with
      | error e =>
        cases hv' : deserialize f d' t'.id (T.ask s) with
        | error e' => rw [hv, hv'] at hd; cases hd; rfl
        | ok v' => rw [hv, hv'] at hd; cases hd
      | ok v =>
        cases hv' : deserialize f d' t'.id (T.ask s) with
        | error e' => rw [hv, hv'] at hd; cases hd
        | ok v' =>
          rw [hv, hv'] at hd
          have hd : v.plain = v'.plain := Except.ok.inj hd
          obtain ⟨o1, o2, o3⟩ := deserialize_own hv
          obtain ⟨o1', o2', o3'⟩ := deserialize_own hv'
          cases v <;> cases v' <;> simp only [Visit.plain, reduceCtorEq] at hd
          case some.some y y' =>
            obtain ⟨rfl, -⟩ := o1 _ rfl
            obtain ⟨rfl, -⟩ := o1' _ rfl
            exact plainly_cons rfl (ih1 (T.inner s) t t' par par' h h' hc ha ha')
          case seq.seq it it' =>
            have e1 := o2 _ rfl
            have e2 := o2' _ rfl
            cases t with
            | leaf i p sc => cases sc <;> (rw [seqIter, Data.sequence, h.head] at e1; cases e1)
            | node i p m ind k items =>
              cases t' with
              | leaf i' p' sc' => cases sc' <;> (rw [seqIter, Data.sequence, h'.head] at e2; cases e2)
              | node i' p' m' ind' k' items' =>
                rw [seqIter, Data.sequence, h.head] at e1
                rw [seqIter, Data.sequence, h'.head] at e2
                cases m with
                | true => cases e1
                | false =>
                  cases m' with
                  | true => cases e2
                  | false =>
                    cases e1; cases e2
                    exact plainly_cons (by rw [Visit.plain, Visit.plain]; exact hd) (ih2 s 0 items items' i i' h.node.2 h'.node.2 (by simpa [Tree.content] using hc) ha ha')
          case map.map it it' =>
            have e1 := o3 _ rfl
            have e2 := o3' _ rfl
            cases t with
            | leaf i p sc => cases sc <;> (rw [mapIter, Data.mapping, h.head] at e1; cases e1)
            | node i p m ind k items =>
              cases t' with
              | leaf i' p' sc' => cases sc' <;> (rw [mapIter, Data.mapping, h'.head] at e2; cases e2)
              | node i' p' m' ind' k' items' =>
                rw [mapIter, Data.mapping, h.head] at e1
                rw [mapIter, Data.mapping, h'.head] at e2
                cases m with
                | false => cases e1
                | true =>
                  cases m' with
                  | false => cases e2
                  | true =>
                    cases e1; cases e2
                    exact plainly_cons (by rw [Visit.plain, Visit.plain]; exact hd) (ih3 s 0 none none items items' i i' h.node.2 h'.node.2 (by simpa [Tree.content] using hc) ha ha')
          all_goals first | rfl | (cases hd; rfl)
    · intro s n is is' c c' h h' hc ha ha'
      rw [Wanted.runSeq, Wanted.runSeq]
      cases T.elem s n with
      | none => rfl
      | some s' =>
        cases is with
        | nil =>
          cases is' with
          | nil => rfl
          | cons => cases hc
        | cons i p key v rest =>
          cases is' with
          | nil => cases hc
          | cons i' p' key' v' rest' =>
            obtain ⟨h1, h2, h3⟩ := h.cons
            obtain ⟨h1', h2', h3'⟩ := h'.cons
            simp only [Items.elemsC, Elems.cons.injEq] at hc
            simp only [Items.ids, seqAccessNext, Iter.next, sequenceItem_of h1, sequenceItem_of h1', lift]
            exact plainly_append (p := []) (ih1 s' v v' _ _ h2 h2' hc.1 ha.1 ha'.1) (ih2 s (n + 1) rest rest' c c' h3 h3' hc.2 ha.2 ha'.2)
    · intro s n val val' is is' c c' h h' hc ha ha'
      rw [Wanted.runMap, Wanted.runMap]
      by_cases hm : T.more s n = true
      · rw [if_pos hm, if_pos hm]
        cases is with
        | nil =>
          cases is' with
          | nil => rfl
          | cons => cases hc
        | cons i p key v rest =>
          cases is' with
          | nil => cases hc
          | cons i' p' key' v' rest' =>
            obtain ⟨h1, h2, h3⟩ := h.cons
            obtain ⟨h1', h2', h3'⟩ := h'.cons
            simp only [Items.entriesC, Entries.cons.injEq] at hc
            obtain ⟨hk, hc1, hc2⟩ := hc
            simp only [Items.ids, MapAccess.nextKey, Iter.next, mapItemOf, mappingItem_of h1, mappingItem_of h1', lift, hk, bind, Except.bind, pure, Except.pure]
            cases T.value s n key'.id with
            | none => exact plainly_cons rfl (ih3 s (n + 1) _ _ rest rest' c c' h3 h3' hc2 ha.2 ha'.2)
            | some s' =>
              exact plainly_append (p := [Visit.bytes key'.id]) (ih1 s' v v' _ _ h2 h2' hc1 ha.1 ha'.1) (ih3 s (n + 1) none none rest rest' c c' h3 h3' hc2 ha.2 ha'.2)
      · rw [if_neg hm, if_neg hm]

end Verif
