import Verif.AlikeLemmas
import Verif.Props.Serde
/-
C97: what is serialized and deserialized only depends on what a value reads as.
-/
namespace Verif

/-- A value of a parsed document, as a tree. -/
theorem Parsed.value {inp : Bytes} {doc : Document} (h : Parsed inp doc) {x : Nat} (hl : Live doc x) {c : Content} (hr : Reads doc.data x c) :
    ∃ u par, Rep doc.data par u ∧ u.id = x ∧ u.content = c ∧ u.all Like ∧ u.depth ≤ doc.data.fuel := by
  obtain ⟨t, ht, ha⟩ := parsed_like h
  obtain ⟨u, hu⟩ := (ht.live_iff x).1 hl
  obtain ⟨p, hat⟩ := ht.at hu
  have hid := Tree.find_id hu
  subst hid
  exact ⟨u, p, hat.rep, rfl, Reads.unique (Tree.content_reads hat.rep) hr, Tree.all_find ha hu, hat.fuel⟩

/-- C97, deserialization: whatever type is asked for, the calls of visitors are the same, up to the ids in them, and after as many steps. -/
theorem C97_deserialize {inp inp' : Bytes} {doc doc' : Document} (h : Parsed inp doc) (h' : Parsed inp' doc') {x x' : Nat} (hl : Live doc x) (hl' : Live doc' x') {c : Content} (hr : Reads doc.data x c)
    (hr' : Reads doc'.data x' c) {σ : Type} (T : Wanted σ) (s : σ) (f : Nat) : plainly (T.run doc.data f s x) = plainly (T.run doc'.data f s x') := by
  obtain ⟨u, p, h1, rfl, h2, h3, -⟩ := h.value hl hr
  obtain ⟨u', p', h1', rfl, h2', h3', -⟩ := h'.value hl' hr'
  exact (Wanted.alike T f).1 s u u' p p' h1 h1' (h2.trans h2'.symm) h3 h3'

/-- C97, serialization: the calls are the same. -/
theorem C97_serialize {inp inp' : Bytes} {doc doc' : Document} (h : Parsed inp doc) (h' : Parsed inp' doc') {x x' : Nat} (hl : Live doc x) (hl' : Live doc' x') {c : Content} (hr : Reads doc.data x c)
    (hr' : Reads doc'.data x' c) : serialize doc.data x = serialize doc'.data x' := by
  obtain ⟨u, p, h1, rfl, h2, h3, h4⟩ := h.value hl hr
  obtain ⟨u', p', h1', rfl, h2', h3', h4'⟩ := h'.value hl' hr'
  obtain ⟨e, g1, g2⟩ := serializeF_tree h1 h4 (num := fun s n => n = numEv s (hintOf s)) (Tree.all_mono (fun _ => Like.num) h3)
  obtain ⟨e', g1', g2'⟩ := serializeF_tree h1' h4' (num := fun s n => n = numEv s (hintOf s)) (Tree.all_mono (fun _ => Like.num) h3')
  rw [h2] at g2
  rw [h2'] at g2'
  rw [serialize, serialize, g1, g1', Says.unique g2 g2']

/-- A mapping with two entries, in two layouts. -/
def alikeFlow : Bytes := b! "{b: 'x' , c: -7}"
def alikeBlock : Bytes := b! "# first\n\"b\": \"x\"\n\nc:   -7\n"
def alikeContent : Content := .map (.cons (b! "b") (.scalar (.string (b! "x"))) (.cons (b! "c") (.scalar (.number (b! "-7"))) .nil))

theorem alikeFlow_parsed : Parsed alikeFlow (docOfText alikeFlow) := ⟨60, by decide +kernel⟩
theorem alikeBlock_parsed : Parsed alikeBlock (docOfText alikeBlock) := ⟨60, by decide +kernel⟩
theorem alikeFlow_reads : Reads (docOfText alikeFlow).data 0 alikeContent :=
  ⟨[(b! "b", 2), (b! "c", 4)], ⟨by decide +kernel, by decide +kernel⟩, _, _, rfl, ⟨by decide +kernel, rfl⟩, _, _, rfl, ⟨by decide +kernel, rfl⟩, rfl⟩
theorem alikeBlock_reads : Reads (docOfText alikeBlock).data 0 alikeContent :=
  ⟨[(b! "b", 2), (b! "c", 4)], ⟨by decide +kernel, by decide +kernel⟩, _, _, rfl, ⟨by decide +kernel, rfl⟩, _, _, rfl, ⟨by decide +kernel, rfl⟩, rfl⟩

example {σ : Type} (T : Wanted σ) (s : σ) (f : Nat) : plainly (T.run (docOfText alikeFlow).data f s 0) = plainly (T.run (docOfText alikeBlock).data f s 0) :=
  C97_deserialize alikeFlow_parsed alikeBlock_parsed .self .self alikeFlow_reads alikeBlock_reads T s f

example : serialize (docOfText alikeFlow).data 0 = serialize (docOfText alikeBlock).data 0 :=
  C97_serialize alikeFlow_parsed alikeBlock_parsed .self .self alikeFlow_reads alikeBlock_reads

/-- For edited documents it is false: a number that is set keeps its type, and is handed over as a value of that type until it is written and read again. -/
theorem C97_edited_false : ¬ ∀ doc doc' c, Reachable doc → Reachable doc' → Reads doc.data doc.root c → Reads doc'.data doc'.root c → serialize doc.data doc.root = serialize doc'.data doc'.root := by
  intro h
  have hp : Parsed (b! "1") (docOfText (b! "1")) := ⟨40, by decide⟩
  have := h (docOfText (b! "1")) ((docOfText (b! "1")).after 0 (.setNumber (b! "1") .u8)) (.scalar (.number (b! "1"))) (.parsed hp)
    (.edited (x := 0) (op := .setNumber (b! "1") .u8) (.parsed hp) .self (by decide)) ⟨by decide, rfl⟩ ⟨by decide, rfl⟩
  revert this
  decide

end Verif
