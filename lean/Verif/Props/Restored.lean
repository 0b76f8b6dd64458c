import Verif.Sane
import Verif.Props.Snapshot
/-
C82: documents loaded from any data.
-/
namespace Verif

/-! Loading a slab -/

namespace Slab
variable {α : Type}

theorem Reach.keep {slots : List (Slot α)} {f next k : Nat} {l : List Nat} {a a' : α} (hk : slots[k]? = some (.occupied a')) (h : Reach slots f next l) :
    Reach (slots.set k (.occupied a)) f next l := by
  have hv : ∀ {i nx : Nat}, slots[i]? = some (.vacant nx) → (slots.set k (.occupied a))[i]? = some (.vacant nx) := by
    intro i nx hi
    rw [List.getElem?_set_ne]
    · exact hi
    · rintro rfl; rw [hk] at hi; cases hi
  induction h with
  | last h => exact .last (hv h)
  | step h hn _ ih => exact .step (hv h) hn ih

theorem Built.again {b : Builder α} {l : List (Nat × α)} (h : Built b l) {k : Nat} {a a' : α} (hk : (k, a') ∈ l) :
    Built (b.pair (k, a)) (l.filter (fun p => p.1 ≠ k) ++ [(k, a)]) := by
  have hg := Slab.get_eq.1 ((h.get k a').2 hk)
  have hlt := (List.getElem?_eq_some_iff.1 hg).1
  have hset : ∀ (l : List (Slot α)) (k : Nat), l[k]? = some (.occupied a') → (l.set k (.occupied a)).countP Slot.isOcc = l.countP Slot.isOcc := by
    intro l
    induction l with
    | nil => intro k h; simp at h
    | cons x l ih =>
      intro k h
      cases k with
      | zero => simp only [List.getElem?_cons_zero, Option.some.injEq] at h; subst h; simp [List.countP_cons, Slot.isOcc]
      | succ k => simp only [List.getElem?_cons_succ] at h; simp only [List.set_cons_succ, List.countP_cons, ih k h]
  unfold Builder.pair
  simp only [hg]
  refine ⟨fun i x => ?_, by simp only [hset _ _ hg, h.len], fun hb => ?_⟩
  · rw [Slab.get_eq]
    by_cases hi : i = k
    · subst hi
      simp only [List.getElem?_set, hlt, if_true, List.mem_append, List.mem_singleton, Prod.mk.injEq, true_and, List.mem_filter, ne_eq, not_true_eq_false, decide_false, Bool.false_eq_true,
        and_false, false_or, Option.some.injEq, Slot.occupied.injEq, eq_comm]
    · rw [List.getElem?_set_ne (fun h => hi h.symm), ← Slab.get_eq, h.get]
      simp [hi]
  · have hl := h.linked hb
    cases hf : b.first with
    | none =>
      rw [hf] at hl
      intro i nx he
      by_cases hi : k = i
      · subst hi; rw [List.getElem?_set_self hlt] at he; cases he
      · rw [List.getElem?_set_ne hi] at he; exact hl i nx he
    | some f =>
      rw [hf] at hl
      obtain ⟨l', hl⟩ := hl
      exact ⟨l', hl.keep hg⟩

theorem Built.any : ∀ (r l : List (Nat × α)) (b : Builder α), Built b l → ∃ l', Built (r.foldl Builder.pair b) l'
  | [], l, _, h => ⟨l, h⟩
  | (k, a) :: r, l, b, h => by
    by_cases hk : ∃ a', (k, a') ∈ l
    · obtain ⟨a', hk⟩ := hk
      exact Built.any r _ _ (h.again hk)
    · exact Built.any r _ _ (h.pair fun a' hm => hk ⟨a', hm⟩)

/-- Whatever the entries are, with ids more than once and in any order, `slab` makes an arena of them. -/
theorem ofPairs_any (l : List (Nat × α)) : ∃ s, Slab.ofPairs l = some s ∧ s.OK := by
  have h0 : Built (⟨Slab.empty, 0, false, none⟩ : Builder α) [] := ⟨by simp [Slab.get, Slab.empty], rfl, fun _ i nx => by simp [Slab.empty]⟩
  obtain ⟨l', h⟩ := Built.any l [] _ h0
  obtain ⟨s, h1, h2, -⟩ := h.build
  exact ⟨s, h1, h2⟩

end Slab

theorem loadDoc_slab {H : Type} [DecidableEq H] {sd : Sd H} {t : Table H} {doc : Document} (h : loadDoc sd = some (t, doc)) : doc.data.slab.OK := by
  simp only [loadDoc, bind, Option.bind_eq_some_iff, pure] at h
  obtain ⟨d, -, m, -, e, -, l, -, m', -, e', -, l', -, s, hs, suffix, -, root, -, r, -, a, -, h⟩ := h
  cases h
  obtain ⟨s', h1, h2⟩ := Slab.ofPairs_any l'
  rw [hs] at h1
  cases h1; exact h2

/-! ### C82 -/

/-- A sequence that is the value of its own item. -/
def loopData : Sd Bytes :=
  saveDoc id ⟨[], 0, ⟨Slab.empty⟩⟩ [([], [])] [(0, ⟨.sequence ⟨0, .block, [1]⟩, [], none⟩), (1, ⟨.sequenceItem 0, [], some 0⟩)]

/-- No entry for the root. -/
def rootlessData : Sd Bytes := saveDoc id ⟨[], 0, ⟨Slab.empty⟩⟩ [([], [])] []

/-- An item that is a value. -/
def mixedData : Sd Bytes :=
  saveDoc id ⟨[], 0, ⟨Slab.empty⟩⟩ [([], [])] [(0, ⟨.sequence ⟨0, .block, [1]⟩, [], none⟩), (1, ⟨.null .tilde, [], some 0⟩)]

/-- C82 is false: what is not the snapshot of a document may be loaded without an error, and then panics when it is written or displayed, or when items are iterated over, or writing it never ends. -/
theorem C82_false :
    (∃ t doc, loadDoc rootlessData = some (t, doc) ∧ doc.write = .error .panic ∧ doc.display = .error .panic) ∧
    (∃ t doc, loadDoc mixedData = some (t, doc) ∧ doc.write = .error .panic ∧ seqValues doc.data doc.root = .error .panic) ∧
    (∃ t doc r, loadDoc loopData = some (t, doc) ∧ doc.data.raw doc.root = .ok r ∧ ∀ f, writeRawF f doc.data r = .error .fuel) := by
  refine ⟨⟨⟨[([], [])]⟩, ⟨[], 0, ⟨Slab.empty⟩⟩, rfl, rfl, rfl⟩, ⟨⟨[([], [])]⟩, ⟨[], 0, ⟨[.occupied ⟨.sequence ⟨0, .block, [1]⟩, [], none⟩, .occupied ⟨.null .tilde, [], some 0⟩], 2⟩⟩, rfl, rfl, rfl⟩,
    ⟨[([], [])]⟩, ⟨[], 0, ⟨[.occupied ⟨.sequence ⟨0, .block, [1]⟩, [], none⟩, .occupied ⟨.sequenceItem 0, [], some 0⟩], 2⟩⟩, .sequence ⟨0, .block, [1]⟩, rfl, rfl, fun f => ?_⟩
  induction f with
  | zero => rfl
  | succ f ih =>
    have h1 : ∀ (w : Data → Raw → Except Stop Bytes) (d : Data) (r : Raw), d.pre 1 = .ok [] → d.sequenceItem 1 = .ok 0 → d.pre 0 = .ok [] → d.raw 0 = .ok r → w d r = .error .fuel →
        writeSeqItems w d .block [1] = .error .fuel := by
      intro w d r h1 h2 h3 h4 h5
      simp only [writeSeqItems, h1, h2, h3, h4, h5, bind, Except.bind]
    simp only [writeRawF, h1 (writeRawF f) _ _ rfl rfl rfl rfl ih, bind, Except.bind]

/-- Loading never panics: `slab` makes an arena of any entries, with ids more than once and in any order. -/
theorem C82_loads (l : List (Nat × Entry)) : Slab.ofPairs l ≠ none := by
  obtain ⟨s, h, -⟩ := Slab.ofPairs_any l
  rw [h]; exact Option.some_ne_none s

/-- The documents a program can have that loads data whose entries fit together, from anywhere, and edits what it has loaded. -/
inductive Loaded (H : Type) [DecidableEq H] : Document → Prop
  | loaded {sd : Sd H} {t doc} : loadDoc sd = some (t, doc) → Sane doc → Loaded H doc
  | edited {doc doc' x op} : Loaded H doc → Live doc x → doc.edit x op = .ok doc' → Loaded H doc'

theorem Loaded.holds {H : Type} [DecidableEq H] {doc : Document} (h : Loaded H doc) : ∃ t, Holds doc t := by
  induction h with
  | loaded h1 h2 => exact h2.holds (loadDoc_slab h1)
  | @edited doc doc' x op _ hl he ih =>
    obtain ⟨t, ht⟩ := ih
    obtain ⟨w, hw⟩ := (ht.live_iff x).1 hl
    obtain ⟨i, v, mk, _, _, _, _, h'⟩ := ht.editDoc hw he
    exact ⟨_, h'⟩

/-- C82 for data whose entries fit together (`Sane`): whatever edits follow, the document is a well-formed tree, it can be written and displayed, every edit of a live value succeeds, and its
entries still fit together. -/
theorem C82_sane_partial {H : Type} [DecidableEq H] {doc : Document} (h : Loaded H doc) :
    Sane doc ∧ WellFormed doc ∧ (∃ out, doc.write = .ok out) ∧ (∃ s, doc.display = .ok s) ∧ ∀ x op, Live doc x → ∃ doc', doc.edit x op = .ok doc' ∧ Loaded H doc' := by
  obtain ⟨t, ht⟩ := h.holds
  refine ⟨ht.sane, ht.wellFormed, ⟨_, ht.write⟩, ⟨_, ht.display⟩, fun x op hx => ?_⟩
  obtain ⟨u, hu⟩ := (ht.live_iff x).1 hx
  obtain ⟨doc', u', h1, -⟩ := ht.edit hu op
  exact ⟨doc', h1, .edited h hx h1⟩

/-- The entries of documents that were parsed, edited and restored from snapshots fit together, so that C82_sane_partial is about more than what C62 is about. -/
theorem C82_carried {H : Type} [DecidableEq H] {hash : Bytes → H} {doc : Document} (h : Carried hash doc) : Sane doc := by
  obtain ⟨t, ht⟩ := h.holds
  exact ht.sane

/-! Examples. -/

/-- Data with holes between the ids, which come in another order; no document that was parsed has such a snapshot. -/
def oddData : Sd Bytes :=
  saveDoc id ⟨[], 5, ⟨Slab.empty⟩⟩ [(b! "a", b! "a"), ([], [])]
    [(7, ⟨.mappingItem ⟨.bare, b! "a", b! "a"⟩ 1, [], some 5⟩), (5, ⟨.mapping ⟨3, .block, [7]⟩, [], none⟩), (1, ⟨.null .tilde, [], some 7⟩)]

def oddDoc : Document :=
  ⟨[], 5, ⟨[.vacant 2, .occupied ⟨.null .tilde, [], some 7⟩, .vacant 3, .vacant 4, .vacant 6, .occupied ⟨.mapping ⟨3, .block, [7]⟩, [], none⟩, .vacant 8,
    .occupied ⟨.mappingItem ⟨.bare, b! "a", b! "a"⟩ 1, [], some 5⟩], 0⟩⟩

theorem oddDoc_loaded : loadDoc oddData = some (⟨[(b! "a", b! "a"), ([], [])]⟩, oddDoc) := rfl

theorem oddDoc_sane : Sane oddDoc := by
  refine Holds.sane (t := .node 5 [] true 3 .block (.cons 7 [] ⟨.bare, b! "a", b! "a"⟩ (.leaf 1 [] (.null .tilde)) .nil)) ⟨rfl, fun i e h => ?_, by decide, fun i e h => ?_, loadDoc_slab oddDoc_loaded⟩
  · simp only [Tree.entries, Items.entries, List.append_nil, List.mem_cons, List.not_mem_nil, or_false] at h
    rcases h with h | h | h <;> cases h <;> rfl
  · have hi : i < 8 := Slab.get_lt h
    rcases i with _ | _ | _ | _ | _ | _ | _ | _ | i
    all_goals first | omega | decide | cases h

example : Loaded Bytes oddDoc ∧ oddDoc.write = .ok (b! "a:~") ∧ Live oddDoc 1 := ⟨.loaded oddDoc_loaded oddDoc_sane, by decide, .viaMap [(b! "a", 1)] (b! "a") .self (by decide) (by decide) (by decide)⟩

/-- After edits of what was loaded. -/
example : ∃ doc', oddDoc.edit 5 (.insert (b! "b") (.bool true)) = .ok doc' ∧ Loaded Bytes doc' ∧ doc'.write = .ok (b! "a:~\n   b: true") := by
  have h : oddDoc.edit 5 (.insert (b! "b") (.bool true)) = .ok (oddDoc.after 5 (.insert (b! "b") (.bool true))) := by decide
  exact ⟨_, h, .edited (.loaded oddDoc_loaded oddDoc_sane) .self h, by decide⟩

/-- The entries of the data in `C82_false` do not fit together. -/
example : ¬ ∃ t doc, loadDoc loopData = some (t, doc) ∧ Sane doc := by
  rintro ⟨t, doc, h1, h2⟩
  cases h1
  exact h2.not_root (.sequenceItem (i := 1) rfl)

end Verif
