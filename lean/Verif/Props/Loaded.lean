import Verif.Loaded
/-
C94: what is loaded from saved data is in that data.
-/
namespace Verif
variable {H : Type} [DecidableEq H] {hash : Bytes → H}

/-- The entries of one of the two maps, the string table and the slab. -/
def Sd.mapAt (n : Tok) (v : Sd H) : Option (List (Sd H × Sd H)) := do (← (← v.field .data).field n).entries

/-- C94: everything in the document (and string table) loaded from data, wherever it is from, is in the data, in the same place: what the document is saved as is covered by what it was loaded from. -/
theorem C94_nothing_made_up {v : Sd H} {t : Table H} {doc : Document} (h : loadDoc v = some (t, doc)) (ht : ∀ e ∈ t.entries, e.1 = hash e.2) :
    Covers v (saveDoc hash doc t.entries (Slab.pairs doc.data.slab.slots 0)) := by
  simp only [loadDoc, bind, Option.bind_eq_some_iff, pure] at h
  obtain ⟨d, hd, m, hm, e, he, l, hl, m', hm', e', he', l', hl', s, hs, suffix, h1, root, h2, r, h3, a, h4, h⟩ := h
  cases h
  refine .fields fun g hg => ?_
  simp only [List.mem_cons, List.not_mem_nil, or_false] at hg
  rcases hg with rfl | rfl | rfl
  · exact ⟨_, h1, loadStr_eq ht h2⟩
  · exact ⟨_, h3, loadId_eq h4⟩
  · refine ⟨d, hd, .pair hm ?_ hm' ?_⟩
    · rw [Sd.entries_eq he]
      refine .map (.of fun p hp => ?_)
      obtain ⟨q, hq, rfl⟩ := List.mem_map.1 hp
      obtain ⟨x, hx, e⟩ := (mapM_mem hl).1 q (((Table.foldl_mem l []).1 q hq).resolve_left (by simp))
      have := loadString_eq e
      subst this
      exact ⟨_, hx, .same _⟩
    · rw [Sd.entries_eq he']
      refine .map (.of fun p hp => ?_)
      obtain ⟨⟨i, w⟩, hq, rfl⟩ := List.mem_map.1 hp
      have hg := (Slab.mem_pairs _ _ _ _).1 hq
      obtain ⟨x, hx, e⟩ := (mapM_mem hl').1 (i, w) ((Slab.ofPairs_mem hs).1 i w (Slab.get_eq.2 hg.2))
      obtain ⟨e1, e2⟩ := loadSlot_covers ht e
      exact ⟨x.2, by rw [← e1]; exact hx, e2⟩

/-- C94: and nothing is lost.  There is a string, or a value, under each id listed in the data, and if an id is listed more than once, it is the last one. -/
theorem C94_nothing_lost {v : Sd H} {t : Table H} {doc : Document} (h : loadDoc v = some (t, doc)) (ht : ∀ e ∈ t.entries, e.1 = hash e.2) :
    (∀ l, v.mapAt .strings = some l → ∀ p ∈ l, ∃ i s, p.1 = .hash i ∧ t.find i = some s) ∧
    ∀ l, v.mapAt .slab = some l → (∀ p ∈ l, ∃ i e, p.1 = .num i ∧ doc.data.slab.get i = some e) ∧
      ∀ l1 p l2, l = l1 ++ p :: l2 → (∀ q ∈ l2, q.1 ≠ p.1) → ∃ i e, p.1 = .num i ∧ doc.data.slab.get i = some e ∧ Covers p.2 (saveEntry hash e) := by
  simp only [loadDoc, bind, Option.bind_eq_some_iff, pure] at h
  obtain ⟨d, hd, m, hm, e, he, l, hl, m', hm', e', he', l', hl', s, hs, suffix, h1, root, h2, r, h3, a, h4, h⟩ := h
  cases h
  constructor
  · intro k hk p hp
    simp only [Sd.mapAt, bind, Option.bind, hd, hm, he, Option.some.injEq] at hk
    subst hk
    obtain ⟨q, hq, e1⟩ := (mapM_mem hl).2 p hp
    obtain ⟨x, hx⟩ := (Table.foldl_mem l []).2 q (.inr hq)
    have e2 := loadString_eq e1
    subst e2
    refine ⟨q.1, ?_⟩
    cases hf : (Table.ofEntries l).find q.1 with
    | some y => exact ⟨y, rfl, rfl⟩
    | none =>
      simp only [Table.find, Option.map_eq_none_iff, List.find?_eq_none] at hf
      exact absurd (hf _ hx) (by simp)
  · intro k hk
    simp only [Sd.mapAt, bind, Option.bind, hd, hm', he', Option.some.injEq] at hk
    subst hk
    refine ⟨fun p hp => ?_, fun l1 p l2 hk hn => ?_⟩
    · obtain ⟨q, hq, e1⟩ := (mapM_mem hl').2 p hp
      obtain ⟨w, hw⟩ := (Slab.ofPairs_mem hs).2 q hq
      exact ⟨q.1, w, (loadSlot_covers ht e1).1, hw⟩
    · subst hk
      obtain ⟨r1, b, r2, rfl, f1, f2⟩ := mapM_split hl'
      obtain ⟨g1, g2⟩ := loadSlot_covers ht f1
      refine ⟨b.1, b.2, g1, Slab.ofPairs_last hs fun q hq e => ?_, g2⟩
      obtain ⟨x, hx, ex⟩ := (mapM_mem f2).1 q hq
      exact hn x hx (by rw [(loadSlot_covers ht ex).1, g1, e])

/-! Examples. -/

/-- Data with an unknown field, and with an id listed twice. -/
def extraData : Sd Bytes :=
  .map [(.name .suffix, .hash []), (.name .keyword, .bool true), (.name .root, .num 1),
    (.name .data, .struct [(.strings, .map [(.hash [], .bytes [])]),
      (.slab, .map [(.num 0, saveEntry id ⟨.null .empty, [], none⟩), (.num 0, saveEntry id ⟨.null .tilde, [], none⟩)])])]

theorem extraData_loaded : loadDoc extraData = some (⟨[([], [])]⟩, ⟨[], 0, ⟨[.occupied ⟨.null .tilde, [], none⟩], 1⟩⟩) := rfl

example : Covers extraData (saveDoc id ⟨[], 0, ⟨[.occupied ⟨.null .tilde, [], none⟩], 1⟩⟩ [([], [])] [(0, ⟨.null .tilde, [], none⟩)]) :=
  C94_nothing_made_up extraData_loaded (by simp)

example : Covers oddData (saveDoc id oddDoc [(b! "a", b! "a"), ([], [])] (Slab.pairs oddDoc.data.slab.slots 0)) :=
  C94_nothing_made_up oddDoc_loaded (by simp)

/-- Data that says something else does not cover it. -/
example : ¬ Covers (.struct [(.kind, .name .block)] : Sd Bytes) (.struct [(.kind, .name .inline)]) := by
  intro h
  cases h with
  | map h =>
    cases h with
    | cons h1 h2 _ =>
      simp only [List.map_cons, List.map_nil, List.mem_singleton, Prod.mk.injEq] at h1
      rw [h1.2] at h2
      cases h2

/-- A field twice, a field missing, or a value of the wrong shape: refused. -/
example : loadDoc (.map [(.name .suffix, .hash []), (.name .suffix, .hash []), (.name .root, .num 1),
      (.name .data, .struct [(.strings, .map [(.hash [], .bytes [])]), (.slab, .map [])])] : Sd Bytes) = none ∧
    loadDoc (.map [(.name .root, .num 1), (.name .data, .struct [(.strings, .map [(.hash [], .bytes [])]), (.slab, .map [])])] : Sd Bytes) = none ∧
    loadDoc (.map [(.name .suffix, .hash []), (.name .root, .num 0), (.name .data, .struct [(.strings, .map [(.hash [], .bytes [])]), (.slab, .map [])])] : Sd Bytes) = none ∧
    loadDoc (.map [(.name .suffix, .hash []), (.name .root, .num 1), (.name .data, .struct [(.strings, .seq []), (.slab, .map [])])] : Sd Bytes) = none := ⟨rfl, rfl, rfl, rfl⟩

end Verif
