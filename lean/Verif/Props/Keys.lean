import Verif.Keys
import Verif.Props.Parser
import Verif.Props.Maps
/-
Quoted keys (C38).
-/
namespace Verif

/-- C38 is false: quoted keys other than the first are looked up with their quotes, and so are all those of inline mappings. -/
theorem C38_quoted_keys_false :
    (∃ doc, Parsed (b! "'a': 1\n'b': 2\n") doc ∧ Live doc 0 ∧ mapEntries doc.data 0 = .ok [(b! "a", 2), (b! "'b'", 4)] ∧
      mapGet doc.data 0 (b! "a") = .ok (some 2) ∧ mapGet doc.data 0 (b! "b") = .ok none) ∧
    (∃ doc, Parsed (b! "{\"a\": 1}") doc ∧ mapGet doc.data doc.root (b! "a") = .ok none) :=
  ⟨⟨docOfText (b! "'a': 1\n'b': 2\n"), ⟨30, by decide⟩, .self, by decide, by decide, by decide⟩,
    ⟨docOfText (b! "{\"a\": 1}"), ⟨30, by decide⟩, by decide⟩⟩

/-- C38, the part that holds: if a block mapping, anywhere in a document, starts with a quoted key, this is its first key without the quotes, and it is looked up by
that. -/
theorem C38_first_key_partial {inp : Bytes} {doc : Document} (h : Parsed inp doc) {x : Nat} (hx : Live doc x)
    (hm : asMapping doc.data x = .ok (some x)) {k rest : Bytes}
    (ht : valueText doc.data x = .ok (quoteSingle k ++ COLON :: rest) ∨
      (DQ ∉ k ∧ BSL ∉ k ∧ valueText doc.data x = .ok (quoteDouble k ++ COLON :: rest))) :
    ∃ v l, mapEntries doc.data x = .ok ((k, v) :: l) ∧ mapGet doc.data x k = .ok (some v) := by
  obtain ⟨t, hh, hk⟩ := parsed_keyed h
  obtain ⟨u, hu⟩ := (hh.live_iff x).1 hx
  have hku := Tree.keyed_find hk hu
  obtain ⟨p, hat⟩ := hh.at hu
  have htext := hat.text
  cases u with
  | leaf i pre s =>
    exfalso
    have hr := hat.rep
    have hid : i = x := hat.id
    subst hid
    have := raw_of hr.head
    simp only [Tree.id_leaf] at this
    cases s <;> simp [asMapping, this, Tree.raw, Scalar.toRaw, bind, Except.bind, pure, Except.pure] at hm
  | node i pre m ind kd items =>
    have hid : i = x := hat.id
    subst hid
    cases m with
    | false =>
      exfalso
      have := raw_of hat.rep.head
      simp only [Tree.id_node] at this
      simp [asMapping, this, Tree.raw, collRaw, bind, Except.bind, pure, Except.pure] at hm
    | true =>
      have hl : ∀ out, valueText doc.data i = .ok out → (Tree.node i pre true ind kd items).render = out := by
        intro out ho; rw [htext] at ho; cases ho; rfl
      cases kd with
      | inline tr suf =>
        exfalso
        rcases ht with ht | ⟨_, _, ht⟩
        · have := congrArg hd (hl _ ht)
          exact absurd (show LCB = SQ from this) (by decide)
        · have := congrArg hd (hl _ ht)
          exact absurd (show LCB = DQ from this) (by decide)
      | block =>
        have hf := hku.1 rfl rfl
        have hmap := (isMap_node hat.rep).2
        cases items with
        | nil =>
          exfalso
          rcases ht with ht | ⟨_, _, ht⟩
          · have := congrArg hd (hl _ ht)
            exact absurd (show 0 = SQ from this) (by decide)
          · have := congrArg hd (hl _ ht)
            exact absurd (show 0 = DQ from this) (by decide)
        | cons j ip key v r =>
          obtain ⟨h1, h2, h3⟩ := hf
          subst h1
          have hr : ∃ z, (Tree.node i pre true ind .block (.cons j [] key v r)).render = key.write ++ COLON :: z :=
            ⟨v.pre ++ v.render ++ sepOf .block r.isNil ++ r.render true .block, by simp [Tree.render, Items.render, openOf, closeOf]⟩
          obtain ⟨z, hz⟩ := hr
          have hkey : key.id = k := by
            rcases ht with ht | ⟨k1, k2, ht⟩
            · exact h2 k z (COLON :: rest) (hz.symm.trans (hl _ ht)) (show COLON ≠ SQ by decide)
            · exact h3 k z (COLON :: rest) k1 k2 (hz.symm.trans (hl _ ht))
          simp only [Items.pairs, List.map_cons, hkey] at hmap
          exact ⟨_, _, hmap, (C16_first_wins (.parsed h) hx (before := []) hmap (by simp)).1⟩

example : ∃ doc, Parsed (b! "x:\n- 'it''s': 1\n  k: 2\n") doc ∧ Live doc 4 ∧ asMapping doc.data 4 = .ok (some 4) ∧
    valueText doc.data 4 = .ok (quoteSingle (b! "it's") ++ COLON :: b! " 1\n  k: 2") :=
  ⟨docOfText (b! "x:\n- 'it''s': 1\n  k: 2\n"), ⟨50, by decide⟩,
    .viaSeq (x := 2) [4] (.viaMap [(b! "x", 2)] (b! "x") .self (by decide) (by decide) (by decide)) (by decide) (by decide) (by decide), by decide, by decide⟩

end Verif
