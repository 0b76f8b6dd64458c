import Verif.Alone
import Verif.Props.Series
/-
C91: the text of a value, put on its own with its indentation, is read as that value.
-/
namespace Verif

/-- The text on its own, indented by `c` columns. -/
def alone (c : Nat) (t : Bytes) : Bytes := List.replicate c SP ++ t ++ [NL]

theorem gapGo_spaces : ∀ n, gapGo false (List.replicate n SP) = true
  | 0 => rfl
  | n + 1 => by
    rw [List.replicate_succ]
    have := gapGo_spaces n
    simp only [gapGo]
    exact this

theorem alone_reads {k e : Nat} {t : Bytes} {v : Tree Unit} (h : Lies (alone k t) .block k v e) (he : e = k + t.length) (h0 : t ≠ []) (hw : isWs (t.headD 0) = false) (hH : t.headD 0 ≠ HASH)
    (hh : hasHeader (alone k t) = false) : ∃ doc', fromSlice (alone k t) = .ok doc' ∧ Reads doc'.data doc'.root v.content := by
  have hl : (List.replicate k SP).length = k := List.length_replicate
  have hdrop : ∀ z : Bytes, FullGap z 0 k → z.drop k = skipBlank false z := fun z hg => by rw [skipBlank_eq, ← hg.eq, wsEnd]; simp
  have hget : (alone k t).getD k 0 = t.headD 0 := by
    unfold alone
    rw [List.append_assoc]
    have := sh_getD (List.replicate k SP) (t ++ [NL]) 0 0
    rw [hl, Nat.add_zero] at this
    rw [this]
    cases t with
    | nil => exact absurd rfl h0
    | cons => rfl
  have hlen : (alone k t).length = k + t.length + 1 := by unfold alone; simp; omega
  have hg : FullGap (alone k t) 0 k := by
    refine ⟨⟨by omega, by omega, .inl ?_⟩, by rw [hget]; exact hw, by rw [hget]; exact hH⟩
    have : slice (alone k t) 0 k = List.replicate k SP := by
      unfold alone slice
      rw [List.append_assoc, List.drop_zero, Nat.sub_zero, List.take_left' hl]
    rw [this]
    exact gapGo_spaces k
  have hge : FullGap (alone k t) e (alone k t).length := by
    have := @sh_full (List.replicate k SP ++ t) [NL] 0 1
    rw [Nat.add_zero, List.length_append, hl] at this
    rw [he, hlen]
    exact this.2 ⟨⟨by omega, by simp, .inl rfl⟩, by decide, by decide⟩
  obtain ⟨lo, hi, g1, g2, -, g3⟩ := h.sits
  obtain rfl := hg.here.unique g1
  refine accepted ⟨k, hi, by omega, by rw [body_eq hh]; exact hdrop _ hg, g2.content, ?_⟩
  rcases g3 with rfl | g3
  · exact hge
  · exact g3.1.twice hge

/-- C91, what holds: a value of a text that is written as it was read, which ends neither with a missing value nor with a block scalar that keeps line breaks (`Final`), and which is not a scalar in an inline collection.  What is in its place,
indented as much as its first line is, and with a line break after it, is read as that value; unless it looks like a header. -/
theorem C91_alone_partial {inp : Bytes} {doc : Document} (h : Parsed inp doc) (hw : doc.write = .ok inp) (hh : hasHeader inp = false) (hf : followed inp = true)
    (hc : noWsComma inp = true ∨ LBR ∉ inp) (hu : validUtf8 inp = true ∨ HASH ∉ inp) {x : Nat} (hx : Live doc x) {old : Bytes} (ho : valueText doc.data x = .ok old) (hn : old.headD 0 ≠ 0)
    (hcont : isCont (old.headD 0) = false)
    (hend : ∀ w, w = x ∨ EndsWith doc.data x w → Final doc.data 0 w) :
    ∃ r s b d, inp.drop r = skipBlank false inp ∧ Within inp doc.data.view .block doc.root r s x b ∧ Stands inp doc x b d ∧
      ((s = .flow → ∃ m C, collAt m doc.data x = .ok C) → d < inp.length → KeysEnd inp d → hasHeader (alone (columnAt inp b) old) = false →
        ∃ doc' v, fromSlice (alone (columnAt inp b) old) = .ok doc' ∧ Reads doc'.data doc'.root v ∧ Reads doc.data x v) := by
  obtain ⟨t, e0, hl⟩ := h.laid hw hh
  obtain ⟨u, r, s, b0, b, d, E, hu', k1, k2, k3, k4, k5, k6, k7, k8, k9, rfl, -, k10, k11, -, -⟩ := hl.swap hh hf hc hu hx ho hn
  obtain ⟨par, ha⟩ := hl.laid.holds.at hu'
  have hid := Tree.find_id hu'
  refine ⟨r, s, b, d, k4, k11, ⟨k5, k6, ho, k10⟩, fun hs hd hk hhh => ?_⟩
  obtain ⟨N, hN⟩ := Tree.high hl.laid.holds u (by rw [hid]; exact hu') (by rw [hid]; exact hend)
  rw [slice_headD k5] at hcont
  obtain ⟨t', j1, j2⟩ := k1.single hf k2 k5 hd (fun hs' pre sc he => by
    obtain ⟨m, C, hC⟩ := hs hs'
    obtain ⟨pre', items, rfl⟩ := collAt_node hl.laid.holds hu' hC
    rw [Tree.erase] at he
    cases he) hcont hk (hN N 0 (Nat.le_refl _))
  have hlen : (slice inp b d).length = d - b := slice_length k6
  obtain ⟨doc', g1, g2⟩ := alone_reads (t := slice inp b d) j2 (by rw [hlen]) (by
    intro h0
    rw [h0] at hlen
    simp at hlen
    omega) (by rw [slice_headD k5]; exact k7) (by rw [slice_headD k5]; exact k8) hhh
  refine ⟨doc', _, g1, g2, ?_⟩
  rw [j1, Tree.content_erase, ← hid]
  exact Tree.content_reads ha.rep

/-- Without brackets no value is inline. -/
theorem RowAt.notFlow {α : Type} {inp : Bytes} {V : View α} {c : Nat} {f : Bool} {l : List (Option Bytes × α)} {lo : Nat} {s : Spot} {y : α} {p : Nat} (h : RowAt inp V c f l lo s y p) : s ≠ .flow := by
  induction h with
  | head => exact Spot.item_ne _ _
  | tail _ _ _ _ _ ih => exact ih

theorem Within.notFlow {α : Type} {inp : Bytes} {V : View α} (h1 : LBR ∉ inp) (h2 : LCB ∉ inp) {s : Spot} {x : α} {lo : Nat} {s' : Spot} {y : α} {p : Nat}
    (h : Within inp V s x lo s' y p) (hs : s ≠ .flow) : s' ≠ .flow := by
  induction h with
  | here => exact hs
  | item h _ ih =>
    refine ih ?_
    cases h with
    | dashes _ h => exact h.notFlow
    | keys _ h => exact h.notFlow
    | brackets _ h _ _ => exact absurd (List.mem_of_getElem? h) h1
    | braces _ h _ _ => exact absurd (List.mem_of_getElem? h) h2

/-- The same for texts without brackets and quotes, for values at the end of a line. -/
theorem C91_lines_partial {inp : Bytes} {doc : Document} (h : Parsed inp doc) (hh : hasHeader inp = false) (hf : followed inp = true) (hu : validUtf8 inp = true ∨ HASH ∉ inp)
    (h1 : LBR ∉ inp) (h2 : LCB ∉ inp) (h3 : DQ ∉ inp) (h4 : SQ ∉ inp) {x : Nat} (hx : Live doc x) {old : Bytes} (ho : valueText doc.data x = .ok old) (hn : old.headD 0 ≠ 0)
    (hcont : isCont (old.headD 0) = false)
    (hend : ∀ w, w = x ∨ EndsWith doc.data x w → Final doc.data 0 w) :
    ∃ b d, Stands inp doc x b d ∧ (inp[d]? = some NL → hasHeader (alone (columnAt inp b) old) = false →
      ∃ doc' v, fromSlice (alone (columnAt inp b) old) = .ok doc' ∧ Reads doc'.data doc'.root v ∧ Reads doc.data x v) := by
  have hw := C01_block_partial inp doc h hh hf hu h1 h2
  obtain ⟨r, s, b, d, k1, k2, k3, k4⟩ := C91_alone_partial h hw hh hf (.inr h1) hu hx ho hn hcont hend
  refine ⟨b, d, k3, fun hd hhh => k4 (fun hs => ?_) (List.getElem?_eq_some_iff.1 hd).1 (.plain hd (fun hm => h3 (List.mem_of_mem_take hm)) fun hm => h4 (List.mem_of_mem_take hm)) hhh⟩
  exact absurd hs (k2.notFlow h1 h2 (by simp))

/-- The value of `a`, a mapping of two entries over three lines, with its indentation. -/
example : ∃ b d, Stands (b! "a:\n  b: 1\n  c:\n  - x y\nd: 2\n") (docOfText (b! "a:\n  b: 1\n  c:\n  - x y\nd: 2\n")) 2 b d ∧
    ∃ doc' v, fromSlice (b! "  b: 1\n  c:\n  - x y\n") = .ok doc' ∧ Reads doc'.data doc'.root v ∧ Reads (docOfText (b! "a:\n  b: 1\n  c:\n  - x y\nd: 2\n")).data 2 v := by
  obtain ⟨b, d, h1, h2⟩ := C91_lines_partial (inp := b! "a:\n  b: 1\n  c:\n  - x y\nd: 2\n") (doc := docOfText (b! "a:\n  b: 1\n  c:\n  - x y\nd: 2\n")) (x := 2) (old := b! "b: 1\n  c:\n  - x y")
    ⟨40, by decide +kernel⟩ (by decide) (by decide) (.inl (by decide)) (by decide) (by decide) (by decide) (by decide)
    (.viaMap [(b! "a", 2), (b! "d", 10)] (b! "a") .self (by decide +kernel) (by decide +kernel) (by decide)) (by decide +kernel) (by decide) (by decide) (fun w hw t ht => by
      rcases hw with rfl | hw
      · rw [show valueText (docOfText (b! "a:\n  b: 1\n  c:\n  - x y\nd: 2\n")).data 2 = .ok (b! "b: 1\n  c:\n  - x y") by decide +kernel] at ht
        obtain rfl := Except.ok.inj ht
        exact ⟨by decide, .inl (by decide)⟩
      · obtain ⟨h1, h2⟩ := endsB_plain (c := 0) (m := false) (f := false) (n := 5) (by decide +kernel) w hw t ht
        exact ⟨fun h => Bool.noConfusion (h1 h), .inl h2⟩)
  obtain ⟨rfl, rfl⟩ : b = 5 ∧ d = 22 := (by decide +kernel : ∀ d ≤ 28, ∀ b < d, (b! "b: 1\n  c:\n  - x y") = slice (b! "a:\n  b: 1\n  c:\n  - x y\nd: 2\n") b d → b = 5 ∧ d = 22) d h1.le b h1.lt
    (Except.ok.inj ((show valueText (docOfText (b! "a:\n  b: 1\n  c:\n  - x y\nd: 2\n")).data 2 = .ok (b! "b: 1\n  c:\n  - x y") by decide +kernel).symm.trans h1.text))
  exact ⟨5, 22, h1, h2 (by decide +kernel) (by decide +kernel)⟩

/-- … and of one that ends with a block scalar, which keeps no line breaks. -/
example : ∃ b d, Stands (b! "a:\n  b: |-\n    x\nc: 1\n") (docOfText (b! "a:\n  b: |-\n    x\nc: 1\n")) 2 b d ∧
    ∃ doc' v, fromSlice (b! "  b: |-\n    x\n") = .ok doc' ∧ Reads doc'.data doc'.root v ∧ Reads (docOfText (b! "a:\n  b: |-\n    x\nc: 1\n")).data 2 v := by
  have hl2 : lastIn (docOfText (b! "a:\n  b: |-\n    x\nc: 1\n")).data 2 = some 4 := by decide +kernel
  have hl4 : lastIn (docOfText (b! "a:\n  b: |-\n    x\nc: 1\n")).data 4 = none := by decide +kernel
  obtain ⟨b, d, h1, h2⟩ := C91_lines_partial (inp := b! "a:\n  b: |-\n    x\nc: 1\n") (doc := docOfText (b! "a:\n  b: |-\n    x\nc: 1\n")) (x := 2) (old := b! "b: |-\n    x")
    ⟨40, by decide +kernel⟩ (by decide) (by decide) (.inl (by decide)) (by decide) (by decide) (by decide) (by decide)
    (.viaMap [(b! "a", 2), (b! "c", 6)] (b! "a") .self (by decide +kernel) (by decide +kernel) (by decide)) (by decide +kernel) (by decide) (by decide) (fun w hw t ht => by
      rcases hw with rfl | hw
      · rw [show valueText (docOfText (b! "a:\n  b: |-\n    x\nc: 1\n")).data 2 = .ok (b! "b: |-\n    x") by decide +kernel] at ht
        obtain rfl := Except.ok.inj ht
        exact ⟨by decide, .inl (by decide)⟩
      · obtain rfl : w = 4 := by
          cases hw with
          | last hl => exact (Option.some.inj (hl2.symm.trans hl)).symm
          | inner hl hi =>
            obtain rfl := Option.some.inj (hl2.symm.trans hl)
            cases hi with
            | last hl => rw [hl4] at hl; cases hl
            | inner hl => rw [hl4] at hl; cases hl
        rw [show valueText (docOfText (b! "a:\n  b: |-\n    x\nc: 1\n")).data 4 = .ok (b! "|-\n    x") by decide +kernel] at ht
        obtain rfl := Except.ok.inj ht
        exact ⟨by decide, .inr ⟨.string (b! "x"), by decide +kernel, by decide, by decide, by decide +kernel, fun v hv => by cases hv; decide⟩⟩)
  obtain ⟨rfl, rfl⟩ : b = 5 ∧ d = 16 := (by decide +kernel : ∀ d ≤ 22, ∀ b < d, (b! "b: |-\n    x") = slice (b! "a:\n  b: |-\n    x\nc: 1\n") b d → b = 5 ∧ d = 16) d h1.le b h1.lt
    (Except.ok.inj ((show valueText (docOfText (b! "a:\n  b: |-\n    x\nc: 1\n")).data 2 = .ok (b! "b: |-\n    x") by decide +kernel).symm.trans h1.text))
  exact ⟨5, 16, h1, h2 (by decide +kernel) (by decide +kernel)⟩

/-- C91 is false for scalars in inline collections: `- a` is a text in `[- a]`, and a sequence on its own. -/
theorem C91_flow_false : ¬ ∀ (inp : Bytes) (doc : Document) (x : Nat) (old : Bytes), Parsed inp doc → doc.write = .ok inp → Live doc x → valueText doc.data x = .ok old → ∃ b d, Stands inp doc x b d ∧
    ∃ doc' v, fromSlice (alone (columnAt inp b) old) = .ok doc' ∧ Reads doc'.data doc'.root v ∧ Reads doc.data x v := by
  intro h
  obtain ⟨b, d, h1, doc', v, h2, h3, h4⟩ := h (b! "[- a]\n") (docOfText (b! "[- a]\n")) 2 (b! "- a") ⟨40, by decide +kernel⟩ (by decide +kernel)
    (.viaSeq [2] .self (by decide +kernel) (by decide +kernel) (by decide)) (by decide +kernel)
  obtain ⟨rfl, rfl⟩ : b = 1 ∧ d = 4 := (by decide +kernel : ∀ d ≤ 6, ∀ b < d, (b! "- a") = slice (b! "[- a]\n") b d → b = 1 ∧ d = 4) d h1.le b h1.lt
    (Except.ok.inj ((show valueText (docOfText (b! "[- a]\n")).data 2 = .ok (b! "- a") by decide +kernel).symm.trans h1.text))
  obtain ⟨doc3, g1, g2⟩ := C57_accepts.2 ((says_iff (x := alone (columnAt (b! "[- a]\n") 1) (b! "- a")) (c := .seq (.cons (.scalar (.string (b! "a"))) .nil))).1 (by decide +kernel))
  obtain rfl := Except.ok.inj (h2.symm.trans g1)
  obtain rfl := Reads.unique h3 g2
  obtain ⟨l, ⟨hl, -⟩, -⟩ := h4
  exact absurd hl (by decide +kernel)

/-- C91 is false for values that end with a missing one: in `a:`, `b:`, `c: 1`, with `b` in `a`, the value of `b` is null, but on its own it is the empty string. -/
theorem C91_missing_false : ¬ ∀ (inp : Bytes) (doc : Document) (x : Nat) (old : Bytes), Parsed inp doc → doc.write = .ok inp → LBR ∉ inp → Live doc x → valueText doc.data x = .ok old → ∃ b d, Stands inp doc x b d ∧
    ∃ doc' v, fromSlice (alone (columnAt inp b) old) = .ok doc' ∧ Reads doc'.data doc'.root v ∧ Reads doc.data x v := by
  intro h
  obtain ⟨b, d, h1, doc', v, h2, h3, h4⟩ := h (b! "a:\n  b:\nc: 1\n") (docOfText (b! "a:\n  b:\nc: 1\n")) 2 (b! "b:") ⟨40, by decide +kernel⟩ (by decide +kernel) (by decide)
    (.viaMap [(b! "a", 2), (b! "c", 6)] (b! "a") .self (by decide +kernel) (by decide +kernel) (by decide)) (by decide +kernel)
  obtain ⟨rfl, rfl⟩ : b = 5 ∧ d = 7 := (by decide +kernel : ∀ d ≤ 13, ∀ b < d, (b! "b:") = slice (b! "a:\n  b:\nc: 1\n") b d → b = 5 ∧ d = 7) d h1.le b h1.lt
    (Except.ok.inj ((show valueText (docOfText (b! "a:\n  b:\nc: 1\n")).data 2 = .ok (b! "b:") by decide +kernel).symm.trans h1.text))
  obtain ⟨doc3, g1, g2⟩ := C57_accepts.2 ((says_iff (x := alone (columnAt (b! "a:\n  b:\nc: 1\n") 5) (b! "b:")) (c := .map (.cons (b! "b") (.scalar (.string [])) .nil))).1 (by decide +kernel))
  obtain rfl := Except.ok.inj (h2.symm.trans g1)
  obtain rfl := Reads.unique h3 g2
  obtain ⟨l, ⟨-, hl⟩, y, l', rfl, ⟨hy, -⟩, -⟩ := h4
  have hl2 : mapEntries (docOfText (b! "a:\n  b:\nc: 1\n")).data 2 = .ok [(b! "b", 4)] := by decide +kernel
  obtain ⟨rfl, -⟩ : y = 4 ∧ l' = [] := by simpa using Except.ok.inj (hl.symm.trans hl2)
  exact absurd hy (by decide +kernel)

end Verif
