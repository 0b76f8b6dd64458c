import Verif.Apart
import Verif.Props.Grammar
import Verif.Props.Samples
/-
The order of edits of different values does not matter (C65).
-/
namespace Verif

/-- The same edits in another order: two that follow each other may change places if neither is on the way to the other. -/
inductive Reordered : List (List Nat × Op) → List (List Nat × Op) → Prop
  | same {l : List (List Nat × Op)} : Reordered l l
  | swap {before after : List (List Nat × Op)} {p q : List Nat} {op op' : Op} : ¬ p <+: q → ¬ q <+: p →
      Reordered (before ++ (p, op) :: (q, op') :: after) (before ++ (q, op') :: (p, op) :: after)
  | trans {l₁ l₂ l₃ : List (List Nat × Op)} : Reordered l₁ l₂ → Reordered l₂ l₃ → Reordered l₁ l₃

/-- The documents are written and displayed the same way and say the same. -/
structure SaysSame (doc doc' : Document) : Prop where
  write : doc.write = doc'.write
  display : doc.display = doc'.display
  reads : ∀ c, Reads doc.data doc.root c ↔ Reads doc'.data doc'.root c

theorem Alike.says {doc doc' : Document} (h : Alike doc doc') : SaysSame doc doc' := by
  obtain ⟨e3, v, r, h1, h2⟩ := h
  refine ⟨?_, ?_, fun c => ?_⟩
  · rw [h1.write, h2.write, e3, Tree.text, Tree.text, Tree.map_render, Tree.map_pre]
  · rw [h1.display, h2.display, e3, Tree.map_disp, Tree.map_pre]
  · have r1 := Tree.content_reads h1.rep
    have r2 := Tree.content_reads h2.rep
    rw [Tree.map_content, ← h2.root] at r2
    rw [← h1.root] at r1
    constructor
    · intro hr; rw [Reads.unique hr r1]; exact r2
    · intro hr; rw [Reads.unique hr r2]; exact r1

theorem SaysSame.trans {a b c : Document} (h : SaysSame a b) (h' : SaysSame b c) : SaysSame a c :=
  ⟨h.write.trans h'.write, h.display.trans h'.display, fun x => (h.reads x).trans (h'.reads x)⟩

theorem Document.play_append : ∀ {l r : List (List Nat × Op)} {doc d : Document}, doc.play l = .ok d → doc.play (l ++ r) = d.play r
  | [], _, doc, d, h => by cases h; rfl
  | (p, op) :: l, r, doc, d, h => by
    simp only [Document.play, List.cons_append, bind, Except.bind] at h ⊢
    cases hw : walk doc.data doc.root p with
    | error e => rw [hw] at h; cases h
    | ok o =>
      rw [hw] at h
      cases o with
      | none => exact Document.play_append h
      | some x =>
        simp only at h ⊢
        cases he : doc.edit x op with
        | error e => rw [he] at h; cases h
        | ok d' => rw [he] at h; exact Document.play_append h

/-- C65: edits of values of which neither contains the other may be done in either order. -/
theorem C65_handles {doc : Document} (h : Reachable doc) {x y : Nat} (hx : Live doc x) (hy : Live doc y) (hxy : ¬ Below doc.data x y) (hyx : ¬ Below doc.data y x) (op op' : Op) :
    ∃ a b a' b', doc.edit x op = .ok a ∧ a.edit y op' = .ok b ∧ doc.edit y op' = .ok a' ∧ a'.edit x op = .ok b' ∧ SaysSame b b' := by
  obtain ⟨t, ht⟩ := h.holds
  obtain ⟨u, hu⟩ := (ht.live_iff x).1 hx
  obtain ⟨w, hw⟩ := (ht.live_iff y).1 hy
  rw [ht.below_iff hu] at hxy
  rw [ht.below_iff hw] at hyx
  have none_of : ∀ {a : Tree Nat} {z : Nat}, ¬ (∃ b, a.find z = some b) → a.find z = none := by
    intro a z hz
    cases hc : a.find z with
    | none => rfl
    | some b => exact absurd ⟨b, hc⟩ hz
  have hl := Tree.laminar ht.nodup hw hu (ht.not_mem_of_not_below hu hw (none_of hxy)) (ht.not_mem_of_not_below hw hu (none_of hyx))
  obtain ⟨a, b, a', b', u', w', e1, e2, e3, e4, hal, _⟩ := ht.swap hu hw hl op op'
  exact ⟨a, b, a', b', e1, e2, e3, e4, hal.says⟩

/-- C65: a series of edits, each of the value at some path, those of new values as well, gives the same in any order in which no two change places of which one is on the way to
the other. -/
theorem C65_series {doc : Document} (h : Reachable doc) {edits edits' : List (List Nat × Op)} (hr : Reordered edits edits') :
    ∃ d d', doc.play edits = .ok d ∧ doc.play edits' = .ok d' ∧ SaysSame d d' := by
  obtain ⟨t, ht⟩ := h.holds
  have self : Alike doc doc := ⟨rfl, t, fun i => i, ht, by rw [Tree.map_self]; exact ht⟩
  induction hr with
  | @same l =>
    obtain ⟨d, d', h1, h2, h3⟩ := Alike.play (s := l) self
    exact ⟨d, d', h1, h2, h3.says⟩
  | @swap l r p q op op' hp hq =>
    obtain ⟨d, _, h1, _, _, t', _, h3, _⟩ := Alike.play (s := l) self
    obtain ⟨e, e', h4, h5, h6⟩ := Alike.swap h3 ⟨hp, hq⟩ op op'
    obtain ⟨f, f', h7, h8, h9⟩ := Alike.play (s := r) h6
    refine ⟨f, f', ?_, ?_, h9.says⟩
    · rw [Document.play_append h1]; exact (Document.play_append h4).trans h7
    · rw [Document.play_append h1]; exact (Document.play_append h5).trans h8
  | trans _ _ ih ih' =>
    obtain ⟨a, b, h1, h2, h3⟩ := ih
    obtain ⟨b', c, h4, h5, h6⟩ := ih'
    rw [h2] at h4
    cases h4
    exact ⟨a, c, h1, h5, h3.trans h6⟩

example : ∃ a b a' b', sample.edit 2 .makeSequence = .ok a ∧ a.edit 10 .makeMapping = .ok b ∧ sample.edit 10 .makeMapping = .ok a' ∧ a'.edit 2 .makeSequence = .ok b' ∧
    SaysSame b b' :=
  C65_handles sample_reachable sample_live_a sample_live_k (fun h => absurd (h.scalar (by decide) (by decide)) (by decide))
    (fun h => absurd (h.scalar (by decide) (by decide)) (by decide)) _ _

/-- A mapping is made in a sequence and filled, and an entry removed elsewhere: the new values have other ids. -/
def sampleEdits : List (List Nat × Op) :=
  [([2], .push (.null .auto)), ([2, 2], .makeMapping), ([2, 2], .insert (b! "z") (.bool true)), ([1], .removeAt 0)]
def sampleEdits' : List (List Nat × Op) :=
  [([1], .removeAt 0), ([2], .push (.null .auto)), ([2, 2], .makeMapping), ([2, 2], .insert (b! "z") (.bool true))]

example : ∃ d d', sample.play sampleEdits = .ok d ∧ sample.play sampleEdits' = .ok d' ∧ SaysSame d d' :=
  C65_series sample_reachable
    (.trans (.swap (before := [_, _]) (after := []) (by decide) (by decide))
      (.trans (.swap (before := [_]) (by decide) (by decide)) (.swap (before := []) (by decide) (by decide))))

example : sample.play sampleEdits ≠ sample.play sampleEdits' := by decide +kernel

/-- The order does matter if one is on the way to the other. -/
example : (do (← sample.play [([1], .removeAt 0), ([1, 0], .setBool true)]).write) ≠ (do (← sample.play [([1, 0], .setBool true), ([1], .removeAt 0)]).write) := by decide +kernel

end Verif
