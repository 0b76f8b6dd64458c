import Verif.SnapLemmas
import Verif.Props.Intern
import Verif.Props.Grammar
/-
C62: snapshots.
-/
namespace Verif
variable {H : Type} [DecidableEq H] {hash : Bytes → H}

/-- The documents a program can have that also uses snapshots: parsed, edited, or restored. -/
inductive Carried (hash : Bytes → H) : Document → Prop
  | parsed {inp doc} : Parsed inp doc → Carried hash doc
  | edited {doc doc' x op} : Carried hash doc → Live doc x → doc.edit x op = .ok doc' → Carried hash doc'
  | restored {doc doc' t t' sd} : Carried hash doc → t.Fits hash doc → Saves hash t doc sd → loadDoc sd = some (t', doc') → Carried hash doc'

theorem Carried.holds {doc : Document} (h : Carried hash doc) : ∃ t, Holds doc t := by
  induction h with
  | parsed h => exact h.holds
  | @edited doc doc' x op _ hl he ih =>
    obtain ⟨t, ht⟩ := ih
    obtain ⟨w, hw⟩ := (ht.live_iff x).1 hl
    obtain ⟨i, v, mk, _, _, _, _, h'⟩ := ht.editDoc hw he
    exact ⟨_, h'⟩
  | restored _ hf hs hr ih =>
    obtain ⟨t, ht⟩ := ih
    obtain ⟨t', s, g1, _, _, g4, g5⟩ := loadDoc_save hf hs
    rw [hr] at g1
    cases g1
    exact ⟨t, ht.sameSlab rfl g4 g5⟩

/-- A table of strings fits a document, if all strings the document refers to went through it and no two strings that did have the same hash. -/
theorem C62_fits {doc : Document} {es : List Event} (hd : ∀ s, doc.Mentions s → s ∈ internedBy es)
    (hc : ∀ s ∈ internedBy es, ∀ s' ∈ internedBy es, hash s = hash s' → s = s') : ((Interned.empty H).run hash es).strings.Fits hash doc := by
  constructor
  · have : ∀ (es : List Event) (d : Interned H), (d.strings.entries.map (·.1)).Nodup → ((d.run hash es).strings.entries.map (·.1)).Nodup := by
      intro es
      induction es with
      | nil => exact fun d h => h
      | cons e es ih =>
        intro d h
        rw [Interned.run, List.foldl_cons]
        refine ih _ ?_
        cases e with
        | slab f => exact h
        | intern s =>
          simp only [Interned.step, Table.insertStr]
          split
          · next hf =>
            simp only [List.map_append, List.map_cons, List.map_nil]
            rw [List.nodup_append]
            refine ⟨h, by simp, fun a ha b hb e => ?_⟩
            simp only [List.mem_singleton] at hb
            subst hb e
            obtain ⟨⟨a, s'⟩, h1, rfl⟩ := List.mem_map.1 ha
            have := (Table.find_iff h _ s').2 h1
            rw [show (Table.mk d.strings.entries) = d.strings from rfl, hf] at this
            cases this
          · exact h
    exact this es _ (by simp [Interned.empty])
  · intro s hs
    rw [Interned.find_run]
    simp only [Interned.empty, Table.find, List.find?_nil, Option.map_none, Option.none_or]
    cases hf : (internedBy es).find? fun s' => hash s' = hash s with
    | none => exact absurd (List.find?_eq_none.1 hf s (hd s hs)) (by simp)
    | some s' => rw [hc s' (List.mem_of_find?_eq_some hf) s (hd s hs) (by simpa using List.find?_some hf)]

/-- C62: a snapshot of a document can be restored, and what is restored is the same document: it is written and displayed the same way, it has the same values under the same ids,
and each of them has the same text, says the same, and serializes and deserializes (with the feature `serde`) in the same way.  The restored table finds the same strings. -/
theorem C62_restores {doc : Document} {t : Table H} {sd : Sd H} (h : Carried hash doc) (hf : t.Fits hash doc) (hs : Saves hash t doc sd) :
    ∃ t' doc', loadDoc sd = some (t', doc') ∧ (∀ id, t'.str id = t.str id) ∧ t'.Fits hash doc' ∧
      doc'.write = doc.write ∧ doc'.display = doc.display ∧ doc'.root = doc.root ∧
      ∀ x, (Live doc' x ↔ Live doc x) ∧ (Live doc x → valueText doc'.data x = valueText doc.data x ∧ valueDisplay doc'.data x = valueDisplay doc.data x ∧
        serialize doc'.data x = serialize doc.data x ∧ (∀ f m, deserialize f doc'.data x m = deserialize f doc.data x m) ∧
        ∀ c, Reads doc'.data x c ↔ Reads doc.data x c) := by
  obtain ⟨u, hu⟩ := h.holds
  obtain ⟨t', s, g1, g2, g3, g4, g5⟩ := loadDoc_save hf hs
  have hu' : Holds ⟨doc.suffix, doc.root, ⟨s⟩⟩ u := hu.sameSlab rfl g4 g5
  refine ⟨t', _, g1, fun id => by simp only [Table.str, g3], ⟨(g2.map _).nodup_iff.2 hf.keys, fun x hx => ?_⟩, ?_, ?_, rfl, fun x => ⟨?_, fun hx => ?_⟩⟩
  · rw [g3]
    refine hf.find x ?_
    rcases hx with hx | ⟨i, e, h1, h2⟩
    · exact .inl hx
    · exact .inr ⟨i, e, by rw [← g5]; exact h1, h2⟩
  · rw [hu.write, hu'.write]
  · rw [hu.display, hu'.display]
  · rw [hu.live_iff, hu'.live_iff]
  · obtain ⟨w, hw⟩ := (hu.live_iff x).1 hx
    obtain ⟨q, ha⟩ := hu.at hw
    obtain ⟨q', ha'⟩ := hu'.at hw
    have hsame : Data.Same ⟨s⟩ doc.data := ⟨funext g5⟩
    refine ⟨by rw [ha.text, ha'.text], ?_, ?_, fun f m => hsame.deserialize f x m, fun c => ?_⟩
    · have d1 := ha.rep.shown ha.nodup
      have d2 := ha'.rep.shown ha'.nodup
      rw [ha.id] at d1 d2
      rw [d1, d2]
    · obtain ⟨e, h1, _⟩ := serializeF_tree (num := fun _ n => n = .none ∨ True) ha.rep ha.fuel (Tree.all_true fun s => by cases s <;> simp [NumP])
      obtain ⟨e', h2, _⟩ := serializeF_tree (num := fun _ n => n = .none ∨ True) ha'.rep ha'.fuel (Tree.all_true fun s => by cases s <;> simp [NumP])
      rw [ha.id] at h1 h2
      have h3 := h2
      rw [hsame.serializeF] at h3
      have h4 := serializeF_mono (Nat.le_max_left _ (Data.fuel ⟨s⟩)) h1
      rw [serializeF_mono (Nat.le_max_right _ (Data.fuel ⟨s⟩)) h3] at h4
      cases h4
      simp only [serialize, h1, h2]
    · have r1 := Tree.content_reads ha.rep
      have r2 := Tree.content_reads ha'.rep
      rw [ha.id] at r1
      rw [ha'.id] at r2
      constructor
      · intro hr; rw [Reads.unique hr r2]; exact r1
      · intro hr; rw [Reads.unique hr r1]; exact r2

/-- C62: and it stays the same.  Any edits, each of the value at some path, can be done to both and leave both with the same text and content. -/
theorem C62_edits {doc doc' : Document} {t t' : Table H} {sd : Sd H} (h : Carried hash doc) (hf : t.Fits hash doc) (hs : Saves hash t doc sd)
    (hr : loadDoc sd = some (t', doc')) (edits : List (List Nat × Op)) :
    ∃ d d', doc.play edits = .ok d ∧ doc'.play edits = .ok d' ∧ d'.write = d.write ∧ d'.display = d.display ∧
      ∀ c, Reads d'.data d'.root c ↔ Reads d.data d.root c := by
  obtain ⟨u, hu⟩ := h.holds
  obtain ⟨t'', s, g1, _, _, g4, g5⟩ := loadDoc_save hf hs
  rw [hr] at g1
  cases g1
  have hm : u.map (fun i => i) = u := Tree.map_self u
  obtain ⟨d, d', e1, e2, e3, v, r, h1, h2⟩ := Alike.play (s := edits) (doc := doc) (doc' := ⟨doc.suffix, doc.root, ⟨s⟩⟩)
    ⟨rfl, u, fun i => i, hu, by rw [hm]; exact hu.sameSlab rfl g4 g5⟩
  refine ⟨d, d', e1, e2, ?_, ?_, fun c => ?_⟩
  · rw [h1.write, h2.write, e3, Tree.text, Tree.text, Tree.map_render, Tree.map_pre]
  · rw [h1.display, h2.display, e3, Tree.map_disp, Tree.map_pre]
  · have r1 := Tree.content_reads h1.rep
    have r2 := Tree.content_reads h2.rep
    rw [Tree.map_content, ← h2.root] at r2
    rw [← h1.root] at r1
    constructor
    · intro hr; rw [Reads.unique hr r2]; exact r1
    · intro hr; rw [Reads.unique hr r1]; exact r2

/-- `[a, 2, c, d]` without `2` and then without `a`. -/
def holed : Document :=
  match (do let d ← fromSlice (b! "[a, 2, c, d]"); d.play [([], .removeAt 1), ([], .removeAt 0)] : Except Stop Document) with
  | .ok d => d
  | .error _ => ⟨[], 0, Data.empty⟩
/-- Its strings, in some order, under themselves. -/
def holedStrings : List (Bytes × Bytes) := [b! "d", b! "]", b! "", b! " ", b! "c", b! "a", b! "2"].map fun s => (s, s)
def holedSnapshot : Sd Bytes := saveDoc id holed holedStrings (Slab.pairs holed.data.slab.slots 0).reverse
def holedAgain : Document :=
  match loadDoc holedSnapshot with
  | some r => r.2
  | none => ⟨[], 0, Data.empty⟩

private theorem holed_mentions {s : Bytes} (h : holed.Mentions s) : s ∈ holedStrings.map (·.1) := by
  rcases h with rfl | ⟨i, e, h1, h2⟩
  · decide +kernel
  · have hlt := Slab.get_lt h1
    have : ((List.range holed.data.slab.slots.length).all fun i => match holed.data.slab.get i with
        | some e => e.strings.all fun s => (holedStrings.map (·.1)).contains s
        | none => true) = true := by decide +kernel
    have := List.all_eq_true.1 this i (List.mem_range.2 hlt)
    rw [h1] at this
    simpa using List.all_eq_true.1 this s h2

private theorem holed_kept : Carried (id : Bytes → Bytes) holed :=
  .edited (x := 0) (op := .removeAt 0) (doc := match (do let d ← fromSlice (b! "[a, 2, c, d]"); d.play [([], .removeAt 1)] : Except Stop Document) with
      | .ok d => d | .error _ => ⟨[], 0, Data.empty⟩)
    (.edited (x := 0) (op := .removeAt 1) (.parsed (inp := b! "[a, 2, c, d]") (doc := docOfText (b! "[a, 2, c, d]")) ⟨30, by decide +kernel⟩) .self (by decide +kernel)) .self
    (by decide +kernel)

private theorem holed_fits : (Table.mk holedStrings).Fits id holed :=
  ⟨by decide +kernel, fun s hs => (Table.find_iff (by decide +kernel) _ _).2 (by
    have := holed_mentions hs
    simp only [holedStrings, List.map_map, List.mem_map] at this ⊢
    obtain ⟨a, h1, rfl⟩ := this
    exact ⟨a, h1, rfl⟩)⟩

private theorem holed_saves : Saves id (Table.mk holedStrings) holed holedSnapshot :=
  ⟨_, _, .refl _, List.reverse_perm _, rfl⟩

/-- Reading it again. -/
example : ∃ t' doc', loadDoc holedSnapshot = some (t', doc') ∧ doc'.write = .ok (b! "[ c, d]") ∧ (Live doc' 6 ↔ Live holed 6) := by
  obtain ⟨t', doc', h1, _, _, h2, _, _, h3⟩ := C62_restores holed_kept holed_fits holed_saves
  exact ⟨t', doc', h1, h2.trans (by decide +kernel), (h3 6).1⟩

/-- Push a value, make it a mapping, and insert into that. -/
def holedEdits : List (List Nat × Op) := [([], .push (.str (b! "new"))), ([2], .makeMapping), ([2], .insert (b! "k") (.bool true))]

/-- Editing it. -/
example : ∃ d d', holed.play holedEdits = .ok d ∧ holedAgain.play holedEdits = .ok d' ∧ d'.write = d.write := by
  obtain ⟨d, d', h1, h2, h3, _⟩ := C62_edits holed_kept holed_fits holed_saves (t' := Table.mk holedStrings) (doc' := holedAgain) (by decide +kernel) holedEdits
  exact ⟨d, d', h1, h2, h3⟩

/-- Inside, things differ: the restored slab has another free list, and what is pushed gets another id. -/
example : holedAgain ≠ holed ∧ holed.play holedEdits ≠ holedAgain.play holedEdits ∧
    (do walk (← holed.play holedEdits).data 0 [2]) = .ok (some 1) ∧ (do walk (← holedAgain.play holedEdits).data 0 [2]) = .ok (some 2) ∧
    (do (← holed.play holedEdits).write) = .ok (b! "[ c, d,\n\n  k: true]") ∧ (do (← holedAgain.play holedEdits).write) = .ok (b! "[ c, d,\n\n  k: true]") := by
  decide +kernel

/-- A string that has the hash of another one is restored as that one: with the length as hash, `b` becomes `a`. -/
theorem C62_collision_false : (do
      let r ← loadDoc (saveDoc List.length (docOfText (b! "[a,b]")) ((Interned.empty Nat).run List.length [.intern [], .intern (b! "a"), .intern (b! "b")]).strings.entries
        (Slab.pairs (docOfText (b! "[a,b]")).data.slab.slots 0))
      r.2.write.toOption) = some (b! "[a,a]") := by decide +kernel

end Verif
