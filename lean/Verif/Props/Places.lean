import Verif.PlaceRules
import Verif.Props.Samples
/-
Where the values of a parsed document are in its text (C54).
-/
namespace Verif

/-- C54: every value of a parsed document has a place in the text.  The text is nothing but these places, punctuation, white space and comments: see `Sits`. -/
theorem C54_places {inp : Bytes} {doc : Document} (h : Parsed inp doc) : ∃ lo hi, lo ≤ inp.length ∧ inp.drop lo = skipBlank false (body inp) ∧
    Sits inp doc.data.view .block doc.root lo hi ∧ FullGap inp hi inp.length := parsed_sits h

/-- The place of an item in a list of two, both scalars. -/
example : ∃ doc, Parsed (b! "k: [1, 'x']") doc ∧ Sits (b! "k: [1, 'x']") doc.data.view .block doc.root 0 11 := by
  refine ⟨docOfText (b! "k: [1, 'x']"), ⟨20, by decide⟩, .keys (l := [(b! "k", 2)]) ⟨by decide, by decide⟩ ⟨by decide, fun c h => by cases h⟩ (.last (a := 2) (b := 3)
    (q := 11) rfl ?_ ⟨⟨by decide, by decide, by decide⟩, by decide, by decide⟩ ?_ ⟨⟨by decide, by decide, by decide⟩, by decide, by decide⟩ (fun h => absurd h.2.2 (by decide)))⟩
  · exact ⟨1, by decide, by decide, by decide, .inr ⟨by decide, by decide, by decide, by decide, ⟨by decide, by decide⟩, fun p h1 h2 => by
      have : p = 0 := by omega
      subst this
      rintro ⟨h, _⟩
      exact absurd h (by decide)⟩⟩
  · refine .brackets (l := [4, 6]) (n := 4) (hi := 10) ⟨by decide, by decide⟩ (by decide) ⟨⟨by decide, by decide, by decide⟩, by decide, by decide⟩ ?_
    refine .cell (k := none) (b := 4) (e := 5) (last := false) (start := 6) (n' := 7) ⟨by decide, by decide⟩ rfl ⟨⟨by decide, by decide, by decide⟩, by decide, by decide⟩
      (.scalar (a := .number (b! "1")) (by decide +kernel : asAny _ _ = _) (by decide) (by decide) (.number (by decide) (by decide)))
      ⟨5, rfl, .inl ⟨rfl, by decide, rfl, ⟨by decide, by decide, by decide⟩, by decide, by decide⟩⟩ ?_
    refine .cell (k := none) (b := 7) (e := 10) (last := true) (start := 10) (n' := 10) ⟨by decide, by decide⟩ rfl ⟨⟨by decide, by decide, by decide⟩, by decide, by decide⟩
      (.scalar (a := .string (b! "x")) (by decide +kernel : asAny _ _ = _) (by decide) (by decide) (.quoted (t := quoteSingle (b! "x")) (.single _) (by decide) (by decide)))
      ⟨10, rfl, .inr ⟨rfl, by decide, rfl, ⟨by decide, by decide, by decide⟩, by decide, by decide⟩⟩ (.none (by decide))

/-- The place of a block scalar with text on the line of its header.  The line after the blank line is further to the right; that is not kept. -/
example : BlockAt (b! "a: |- x \n  bar\n\n   baz # no\nb: 1\n") 3 (b! "x\nbar\n\nbaz # no") 27 :=
  ⟨false, .strip, 5, 1, b! "x\nbar\n\nbaz # no", by decide, by decide, by decide, fun h => (by cases h),
    .both (q := 6) (e := 8) (p := 11) (t := b! "x") (v := b! "bar\n\nbaz # no") ⟨⟨by decide, by decide, by decide⟩, by decide, by decide⟩ (by decide)
      ⟨by decide, by decide, .inr (by decide)⟩ ⟨[32], [32], by decide, by decide, by decide⟩ ⟨⟨by decide, by decide, by decide⟩, by decide, by decide⟩
      (.more (e := 14) (q := 19) (t := b! "bar") (v := b! "baz # no") (by decide) ⟨by decide, by decide, .inr (by decide)⟩ ⟨[], [], by decide, by decide, by decide⟩
        ⟨⟨by decide, by decide, by decide⟩, by decide, by decide⟩ (by decide)
        (.last (e := 27) (q := 28) (by decide) ⟨by decide, by decide, .inr (by decide)⟩ ⟨[], [], by decide, by decide, by decide⟩
          ⟨⟨by decide, by decide, by decide⟩, by decide, by decide⟩ (by decide))), by decide⟩

/-- The items of a block sequence are in one column: there is no place in this text for a sequence of two values. -/
example {α : Type} (V : View α) {s : Spot} {x : α} {hi : Nat} {y z : α} {r : List α} (hV : ∀ l, V.seq x l ↔ l = y :: z :: r) (hs : ∀ a, ¬ V.scalar x a)
    (hm : ∀ l, ¬ V.map x l) : ¬ Sits (b! "- a\n  - b\n") V s x 0 hi := by
  intro h
  cases h with
  | scalar h => exact hs _ h
  | lines h => exact hs _ h
  | «open» h => exact hs _ h
  | empty h => exact hs _ h
  | keys h => exact hm _ h
  | brackets _ h => exact absurd h (by decide)
  | braces h => exact hm _ h
  | dashes h1 _ h2 =>
    rw [(hV _).1 h1] at h2
    cases h2 with
    | more g1 g2 g3 g4 g5 g6 =>
      have key : ∀ lo, columnAt (b! "- a\n  - b\n") lo = columnAt (b! "- a\n  - b\n") 0 → (b! "- a\n  - b\n")[lo]? = some DASH → lo = 0 := by
        intro lo h1 h2
        have h3 := (List.getElem?_eq_some_iff.1 h2).1
        have : ∀ lo : Fin 10, columnAt (b! "- a\n  - b\n") lo = columnAt (b! "- a\n  - b\n") 0 → (b! "- a\n  - b\n")[lo.val]? = some DASH → lo.val = 0 := by decide
        exact this ⟨lo, h3⟩ h1 h2
      have h0 := fun lo' => key lo'
      simp only [List.map_cons] at g6
      generalize r.map (fun v => ((none : Option Bytes), v)) = q at g6
      cases g6 with
      | last q1 q2 =>
        have hlo := h0 _ q1 q2.1
        have e1 := g5.1.1
        have e2 := g3.1.1
        have e3 := g2.2.2
        have e4 := g4.le
        omega
      | more q1 q2 =>
        have hlo := h0 _ q1 q2.1
        have e1 := g5.1.1
        have e2 := g3.1.1
        have e3 := g2.2.2
        have e4 := g4.le
        omega

end Verif
