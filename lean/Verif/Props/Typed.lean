import Verif.TypedLemmas
import Verif.Props.Alike
/-
C98: types that fit a value get its data.
-/
namespace Verif

/-- A value of any document, as a tree. -/
theorem Reachable.value {doc : Document} (h : Reachable doc) {x : Nat} (hl : Live doc x) {c : Content} (hr : Reads doc.data x c) :
    ∃ u par, Rep doc.data par u ∧ u.id = x ∧ u.content = c := by
  obtain ⟨t, ht⟩ := h.holds
  obtain ⟨u, hu⟩ := (ht.live_iff x).1 hl
  obtain ⟨p, hat⟩ := ht.at hu
  have hid := Tree.find_id hu
  subst hid
  exact ⟨u, p, hat.rep, rfl, Reads.unique (Tree.content_reads hat.rep) hr⟩

/-- C98: in any document, parsed or edited, a type that fits what a value reads as gets it, to the last element and entry, in order and without an error. -/
theorem C98_typed {doc : Document} (h : Reachable doc) {x : Nat} (hl : Live doc x) {c : Content} (hr : Reads doc.data x c) {τ : Ty} {r : List Visit} (hg : Gets False τ c r) :
    ∃ N, ∀ f, N ≤ f → plainly (types.run doc.data f τ x) = .ok r := by
  obtain ⟨u, p, h1, rfl, rfl⟩ := h.value hl hr
  exact Fed.all τ u p r h1 (Tree.all_true fun _ hf => hf.elim) hg

/-- C98 for types that pass over values, as derived implementations do with keys that are no fields: in a parsed document, if all numbers that are passed over fit. -/
theorem C98_ignoring {inp : Bytes} {doc : Document} (h : Parsed inp doc) {x : Nat} (hl : Live doc x) {c : Content} (hr : Reads doc.data x c) {τ : Ty} {r : List Visit} (hg : Gets True τ c r) :
    ∃ N, ∀ f, N ≤ f → plainly (types.run doc.data f τ x) = .ok r := by
  obtain ⟨u, p, h1, rfl, rfl, h3, -⟩ := h.value hl hr
  exact Fed.all τ u p r h1 (Tree.all_mono (fun _ hs _ => hs) h3) hg

/-- Only one list of calls hands over a value as a type. -/
theorem C98_one {inp : Bytes} {doc : Document} (h : Parsed inp doc) {x : Nat} (hl : Live doc x) {c : Content} (hr : Reads doc.data x c) {τ : Ty} {r r' : List Visit} (hg : Gets True τ c r) (hg' : Gets True τ c r') :
    r = r' := by
  obtain ⟨N, hN⟩ := C98_ignoring h hl hr hg
  obtain ⟨M, hM⟩ := C98_ignoring h hl hr hg'
  have := (hN (N + M) (by omega)).symm.trans (hM (N + M) (by omega))
  exact Except.ok.inj this

/-- Null is never handed over as `()`: a type that asks for a unit has `visit_none` called, and not `visit_unit`, which `()` and unit structs accept only. -/
theorem C98_unit_none {doc : Document} (h : Reachable doc) {x : Nat} (hl : Live doc x) (hr : Reads doc.data x (.scalar .null)) (m : Method) (hm : m = .unit ∨ m = .unitStruct) (f : Nat) :
    deserialize (f + 2) doc.data x m = .ok .none := by
  obtain ⟨u, p, h1, rfl, hc⟩ := h.value hl hr
  obtain ⟨i, q, s, rfl, hs⟩ := Tree.content_leaf hc
  have hr := raw_of h1.head
  cases s <;> cases hs
  rcases hm with rfl | rfl <;> (simp only [deserialize, hr, lift]; rfl)

example : deserialize 2 (docOfText (b! "~")).data 0 .unit = .ok .none :=
  C98_unit_none (.parsed (inp := b! "~") ⟨40, by decide⟩) .self ⟨by decide, rfl⟩ .unit (.inl rfl) 0

/-- `struct { b: String, c: Option<i8> }`. -/
def typedRecord : Ty := .record (fun k => k == b! "b" || k == b! "c") (fun k => if k == b! "b" then .str else .opt (.int .i8))

example : ∃ N, ∀ f, N ≤ f → plainly (types.run (docOfText alikeBlock).data f typedRecord 0)
    = .ok [.map ⟨[0, 0]⟩, .bytes (b! "b"), .str (b! "x"), .bytes (b! "c"), .some 0, .int .i8 (-7)] := by
  refine C98_typed (.parsed alikeBlock_parsed) .self alikeBlock_reads ⟨_, _, rfl, rfl, ?_⟩
  refine ⟨[.str (b! "x")], _, rfl, ⟨_, rfl, by decide, rfl⟩, ?_⟩
  refine ⟨[.some 0, .int .i8 (-7)], [], rfl, Or.inr ⟨(fun h => by cases h), [.int .i8 (-7)], rfl, b! "-7", -7, rfl, by decide, by decide, .inl rfl, by decide, rfl⟩, rfl⟩

/-- `struct { c: i8 }`: the entry `b` is passed over. -/
example : ∃ N, ∀ f, N ≤ f → plainly (types.run (docOfText alikeBlock).data f (.record (fun _ => true) fun k => if k == b! "c" then .int .i8 else .ignored) 0)
    = .ok [.map ⟨[0, 0]⟩, .bytes (b! "b"), .str (b! "x"), .bytes (b! "c"), .int .i8 (-7)] := by
  refine C98_ignoring alikeBlock_parsed .self alikeBlock_reads ⟨_, _, rfl, rfl, ?_⟩
  refine ⟨[.str (b! "x")], _, rfl, ⟨trivial, by decide⟩, ?_⟩
  exact ⟨[.int .i8 (-7)], [], rfl, ⟨b! "-7", -7, rfl, by decide, by decide, .inl rfl, by decide, rfl⟩, rfl⟩

/-- A struct with one field, and a document with this field and another one that does not fit 64 bits. -/
def ignoredText : Bytes := b! "a: 1\nb: 18446744073709551616\n"
def ignoredRecord : Ty := .record (fun _ => true) fun k => if k == b! "a" then .int .i8 else .ignored

def ignoredContent : Content := .map (.cons (b! "a") (.scalar (.number (b! "1"))) (.cons (b! "b") (.scalar (.number (b! "18446744073709551616"))) .nil))

/-- That all the fields of a struct fit is not enough: if another value holds a number beyond 64 bits, passing over it calls `deserialize_any` and `deserialize_u64` in turns without end. -/
theorem C98_ignored_false : Parsed ignoredText (docOfText ignoredText) ∧ Reads (docOfText ignoredText).data 0 ignoredContent ∧
    ∀ f, types.run (docOfText ignoredText).data f ignoredRecord 0 = .error (.other .fuel) := by
  refine ⟨⟨60, by decide +kernel⟩, ⟨[(b! "a", 2), (b! "b", 4)], ⟨by decide +kernel, by decide +kernel⟩, _, _, rfl, ⟨by decide +kernel, rfl⟩, _, _, rfl, ⟨by decide +kernel, rfl⟩, rfl⟩, ?_⟩
  generalize hd : (docOfText ignoredText).data = d
  have hb : d.raw 4 = .ok (.number (b! "18446744073709551616") .u64) := by subst hd; decide +kernel
  have ha : asInt .i8 d 2 = .ok (some 1) := by subst hd; decide +kernel
  have hr : ∃ c, d.raw 0 = .ok (.mapping c) := by
    subst hd
    exact ⟨⟨0, .block, [1, 3]⟩, by decide +kernel⟩
  have hi : mapIter d 0 = .ok ⟨[1, 3]⟩ := by subst hd; decide +kernel
  have h1 : mapItemOf d 1 = .ok (b! "a", 2) := by subst hd; decide +kernel
  have h3 : mapItemOf d 3 = .ok (b! "b", 4) := by subst hd; decide +kernel
  obtain ⟨c, hr⟩ := hr
  have h4 : ∀ f, types.run d f .ignored 4 = .error (.other .fuel)
    | 0 => rfl
    | 1 => rfl
    | f + 2 => by
      simp only [Wanted.run, types, deserialize, (deserialize_never hb (by decide) (by decide) f).1]
      rfl
  have hm : ∀ f v, types.runMap d f ignoredRecord 1 ⟨⟨[3]⟩, v⟩ = .error (.other .fuel)
    | 0, v => rfl
    | f + 1, v => by
      rw [Wanted.runMap, if_pos (show types.more ignoredRecord 1 = true from rfl)]
      simp only [MapAccess.nextKey, MapAccess.nextValue, Iter.next, h3, lift, bind, Except.bind, pure, Except.pure, show types.value ignoredRecord 1 (b! "b") = some .ignored from rfl, h4 f]
  have hm0 : ∀ f, types.runMap d f ignoredRecord 0 ⟨⟨[1, 3]⟩, none⟩ = .error (.other .fuel)
    | 0 => rfl
    | 1 => by
      rw [Wanted.runMap, if_pos (show types.more ignoredRecord 0 = true from rfl)]
      simp only [MapAccess.nextKey, MapAccess.nextValue, Iter.next, h1, lift, bind, Except.bind, pure, Except.pure, show types.value ignoredRecord 0 (b! "a") = some (.int .i8) from rfl, Wanted.run]
    | 2 => by
      rw [Wanted.runMap, if_pos (show types.more ignoredRecord 0 = true from rfl)]
      simp only [MapAccess.nextKey, MapAccess.nextValue, Iter.next, h1, lift, bind, Except.bind, pure, Except.pure, show types.value ignoredRecord 0 (b! "a") = some (.int .i8) from rfl, Wanted.run, deserialize]
    | f + 3 => by
      have hx : types.run d (f + 2) (.int .i8) 2 = .ok [.int .i8 1] := by
        simp only [Wanted.run, types]
        rw [deserialize, if_neg (by decide), ha]
        rfl
      rw [Wanted.runMap, if_pos (show types.more ignoredRecord 0 = true from rfl)]
      simp only [MapAccess.nextKey, MapAccess.nextValue, Iter.next, h1, lift, bind, Except.bind, pure, Except.pure, show types.value ignoredRecord 0 (b! "a") = some (.int .i8) from rfl, hx, hm]
  have hs : ∀ f, deserialize (f + 2) d 0 (types.ask ignoredRecord) = .ok (.map ⟨[1, 3]⟩) := by
    intro f
    simp only [types, ignoredRecord, deserialize, hr, lift, hi, bind, Except.bind, pure, Except.pure]
  intro f
  match f with
  | 0 => rfl
  | 1 => rfl
  | 2 => rfl
  | f + 3 =>
    simp only [Wanted.run, hs f, hm0, bind, Except.bind]

/-- A number that was set as a `u8` is had as an `i64`. -/
example : ∃ N, ∀ f, N ≤ f → plainly (types.run ((docOfText (b! "a")).after 0 (.setNumber (b! "1") .u8)).data f (.int .i64) 0) = .ok [.int .i64 1] := by
  have hp : Parsed (b! "a") (docOfText (b! "a")) := ⟨40, by decide⟩
  exact C98_typed (.edited (x := 0) (op := .setNumber (b! "1") .u8) (.parsed hp) .self (by decide)) .self (c := .scalar (.number (b! "1"))) ⟨by decide, rfl⟩
    ⟨b! "1", 1, rfl, by decide, by decide, .inl rfl, by decide, rfl⟩

end Verif
