import Verif.AloneLines
import Verif.Props.AloneScalar
/-
C91 for block scalars: the text of a block scalar, put on its own, is read as that scalar.
-/
namespace Verif

/-- C91 is false for block scalars: the line breaks after a block scalar belong to it, but on its own there is only one. -/
theorem C91_breaks_false : ¬ ∀ (inp : Bytes) (doc : Document) (x : Nat) (old : Bytes), Parsed inp doc → doc.write = .ok inp → LBR ∉ inp → Live doc x → valueText doc.data x = .ok old → old ≠ [] → ∃ b d, Stands inp doc x b d ∧
    ∃ doc' v, fromSlice (alone (columnAt inp b) old) = .ok doc' ∧ Reads doc'.data doc'.root v ∧ Reads doc.data x v := by
  intro h
  obtain ⟨b, d, h1, doc', v, h2, h3, h4⟩ := h (b! "a: |\n  x\n\nb: 1\n") (docOfText (b! "a: |\n  x\n\nb: 1\n")) 2 (b! "|\n  x") ⟨40, by decide +kernel⟩ (by decide +kernel) (by decide)
    (.viaMap [(b! "a", 2), (b! "b", 4)] (b! "a") .self (by decide +kernel) (by decide +kernel) (by decide)) (by decide +kernel) (by decide)
  obtain ⟨rfl, rfl⟩ : b = 3 ∧ d = 8 := (by decide +kernel : ∀ d ≤ 15, ∀ b < d, (b! "|\n  x") = slice (b! "a: |\n  x\n\nb: 1\n") b d → b = 3 ∧ d = 8) d h1.le b h1.lt
    (Except.ok.inj ((show valueText (docOfText (b! "a: |\n  x\n\nb: 1\n")).data 2 = .ok (b! "|\n  x") by decide +kernel).symm.trans h1.text))
  obtain ⟨doc3, g1, g2⟩ := C57_accepts.2 ((says_iff (x := alone (columnAt (b! "a: |\n  x\n\nb: 1\n") 3) (b! "|\n  x")) (c := .scalar (.string (b! "x\n")))).1 (by decide +kernel))
  obtain rfl := Except.ok.inj (h2.symm.trans g1)
  obtain rfl := Reads.unique h3 g2
  exact absurd h4.1 (by decide +kernel)

/-- C91, what holds for block scalars: the text of a block scalar anywhere in a document that was read, and after which something follows.  On its own, however far to the right its header is, it is read as that scalar, if it does not
keep the line breaks after it or there was one, as there is on its own; unless it looks like a header. -/
theorem C91_block_partial {inp : Bytes} {doc : Document} (h : Parsed inp doc) (hf : followed inp = true) {x : Nat} (hx : Live doc x) {a : AnyV} (ha : Reads doc.data x (.scalar a)) {old : Bytes}
    (ho : valueText doc.data x = .ok old) (hb : old.headD 0 ∈ [PIPE, GT]) :
    ∃ b d, Stands inp doc x b d ∧ ∀ g k, FullGap inp d g → g < inp.length → old.take 2 ∈ [b! "|-", b! ">-"] ∨ breaksIn inp d g = 1 → hasHeader (alone k old) = false →
      ∃ doc', fromSlice (alone k old) = .ok doc' ∧ Reads doc'.data doc'.root (.scalar a) := by
  obtain ⟨t, k0, e0, hk0, hbody, hl⟩ := parsed_laid h
  have A : Allows inp (fun _ _ => True) := by constructor <;> intros <;> trivial
  obtain ⟨u, s, b, d, r, lo, p, q, hu, h1, h3, h4, w1, w2, w3, -⟩ := laid_part A hl hx
  obtain ⟨par, hat⟩ := hl.holds.at hu
  have hid := Tree.find_id hu
  have hread := Tree.content_reads hat.rep
  rw [hid] at hread
  have hcon := Reads.unique ha hread
  cases u with
  | node i p m ind K items => cases m <;> cases hcon
  | leaf i p sc =>
  obtain rfl : a = sc.value := by cases hcon; rfl
  have hw : sc.write = old := by
    have := hat.text
    rw [ho] at this
    exact (Except.ok.inj this).symm
  obtain ⟨lo1, hi, v1, v2, v3⟩ := h4.sits
  obtain rfl : lo1 = lo := by rw [← v1.eq, w2.eq]
  have v2' := v2.ids hat.rep
  rw [hat.id] at v2'
  rw [Tree.erase] at h4 v3
  have h0 : old ≠ [] := by
    rintro rfl
    exact absurd hb (by decide)
  have hsl : ∀ {y z : Nat}, old = slice inp y z → y < z := by
    intro y z he
    rcases Nat.lt_or_ge y z with h | h
    · exact h
    · rw [he, slice_none h] at h0; exact absurd rfl h0
  have hr : inp.drop r = skipBlank false (body inp) := by
    rw [← hbody, skipBlank_eq, ← w1.eq, wsEnd, List.drop_drop]
  generalize hU : Tree.leaf () p sc = U at h4
  cases h4 with
  | scalar g1 g2 g3 g4 g5 =>
    cases hU
    exfalso
    have e1 : old = slice inp _ _ := hw.symm.trans g5
    have hst := g4.starts (by rw [← e1]; intro h; rw [h] at hb; exact absurd hb (by decide))
    rw [← e1] at hst
    simp only [List.mem_cons, List.not_mem_nil, or_false] at hb
    rcases hb with hb | hb
    · exact hst.2.2.1 hb
    · exact hst.2.2.2.1 hb
  | @«open» _ _ _ _ lo' g1 g2 g3 g4 g5 =>
    cases hU
    exfalso
    have e1 : old = slice inp lo' inp.length := hw.symm.trans g5
    rw [slice_drop, g3] at e1
    rw [e1] at hb
    exact absurd hb (by simp; decide)
  | empty => cases hU; exact absurd hw.symm h0
  | @lines _ _ v _ lo' hi' g1 g2 g3 g4 g5 =>
    cases hU
    have e1 : old = slice inp lo' d := by
      rcases g5 with g5 | ⟨g5, -⟩
      · exact hw.symm.trans g5
      · rw [hf] at g5; cases g5
    have hlt := hsl e1
    obtain rfl : lo1 = lo' := v1.unique g1
    have hhi : hi = d ∨ FullGap inp d hi := by
      rcases v3.2 with g4 | g4
      · exact .inl g4
      · exact .inr g4.1
    refine ⟨lo1, d, ⟨hlt, h3, by rw [ho, e1], ⟨r, s, lo1, hi, hr, w3, v2', .inl ⟨rfl, Nat.le_of_lt hlt, hhi⟩⟩⟩, ?_⟩
    intro g k k1 k2 k3 hh
    have hl' : (inp.take lo1).length = lo1 := by rw [List.length_take]; omega
    have hlk : (List.replicate k SP).length = k := List.length_replicate
    have hlen : old.length = d - lo1 := by rw [e1, slice_length h3]
    have hbr : slice inp lo1 (lo1 + 2) ∈ [b! "|-", b! ">-"] ∨ breaksIn inp d g = 1 := by
      rcases k3 with k3 | k3
      · refine .inl ?_
        have h2 : 2 ≤ old.length := by
          simp only [List.mem_cons, List.not_mem_nil, or_false] at k3
          rcases k3 with k3 | k3 <;> · have := congrArg List.length k3; simp at this; omega
        have : slice inp lo1 (lo1 + 2) = old.take 2 := by
          rw [e1]
          unfold slice
          rw [List.take_take, show min 2 (d - lo1) = 2 by omega, Nat.add_sub_cancel_left]
        rw [this]; exact k3
      · exact .inr k3
    -- another line before it
    have kg := k1.le
    obtain ⟨j, rfl⟩ := Nat.exists_eq_add_of_le (show lo1 ≤ d by omega)
    obtain ⟨g, rfl⟩ := Nat.exists_eq_add_of_le (show lo1 ≤ g by omega)
    have hcut := List.take_append_drop lo1 inp
    have m1 := mv_block (u := inp.take lo1) (u' := List.replicate k SP) (y := inp.drop lo1) (lo := 0) (hi := j) (v := v) (by rw [hl', hcut]; exact g2)
    have m2 := mv_full (u := inp.take lo1) (u' := List.replicate k SP) (y := inp.drop lo1) (a := j) (b := g) (by rw [hl', hcut]; exact k1)
    have m3 : slice (List.replicate k SP ++ inp.drop lo1) ((List.replicate k SP).length + 0) ((List.replicate k SP).length + 2) = slice inp lo1 (lo1 + 2) := by
      have := sh_slice (inp.take lo1) (inp.drop lo1) 0 2
      rw [hcut, hl'] at this
      rw [sh_slice, ← this]; rfl
    have m4 : breaksIn (List.replicate k SP ++ inp.drop lo1) ((List.replicate k SP).length + j) ((List.replicate k SP).length + g) = breaksIn inp (lo1 + j) (lo1 + g) := by
      have := sh_breaks (inp.take lo1) (y := inp.drop lo1) (a := j) (b := g)
      rw [hcut, hl'] at this
      rw [sh_breaks, ← this]
    have hsplit : List.replicate k SP ++ inp.drop lo1 = (List.replicate k SP ++ old) ++ inp.drop (lo1 + j) := by
      rw [List.append_assoc]
      congr 1
      rw [e1, ← slice_drop, ← slice_append (b := lo1 + j) (by omega) (by omega), slice_drop]
    rw [hsplit] at m1 m2 m3 m4
    have m5 := LastLine.block m1 m2 (by rw [hlk, List.length_append, List.length_append, hlk, List.length_drop]; omega) (by rw [List.length_append]; omega) (by rw [m4]; rw [Nat.add_zero] at m3 ⊢; rw [m3]; exact hbr)
    have hh2 : old.headD 0 = inp.getD lo1 0 := by rw [e1]; exact slice_headD hlt
    have n1 : isWs (old.headD 0) = false := by rw [hh2]; exact v1.2.1
    have n2 : old.headD 0 ≠ HASH := by rw [hh2]; exact v1.2.2
    have hget : (List.replicate k SP ++ old ++ [NL]).getD k 0 = old.headD 0 := by
      have := sh_getD (List.replicate k SP) (old ++ [NL]) 0 0
      rw [hlk, Nat.add_zero] at this
      rw [List.append_assoc, this]
      cases old with
      | nil => exact absurd rfl h0
      | cons => rfl
    have hg : FullGap (alone k old) k k :=
      ⟨⟨Nat.le_refl _, by simp [alone], .inl (by rw [slice_none (Nat.le_refl _)]; rfl)⟩, by rw [alone, hget]; exact n1, by rw [alone, hget]; exact n2⟩
    rw [hlk, Nat.add_zero] at m5
    have hL : Lies (alone k old) .block k (.leaf () (slice (alone k old) k k) sc) (k + j) := by
      refine .lines hg m5 g3 (by simp [alone]; omega) (.inl ?_)
      rw [hw, alone, append_slice (by simp; omega)]
      have := sh_slice (List.replicate k SP) old 0 j
      rw [hlk, Nat.add_zero] at this
      rw [this, slice, List.drop_zero, List.take_of_length_le (by omega)]
    exact alone_reads (t := old) hL (by omega) h0 n1 n2 hh
  | _ => cases hU

/-- A folded block scalar in a sequence, and one that keeps no line breaks. -/
example : ∃ doc, Parsed (b! "a:\n  - >\n    x\n    y\n  - |-\n    z\n\nb: 1\n") doc ∧
    (∃ doc', fromSlice (b! ">\n    x\n    y\n") = .ok doc' ∧ Reads doc'.data doc'.root (.scalar (.string (b! "x y\n")))) ∧
    ∃ doc', fromSlice (b! "  |-\n    z\n") = .ok doc' ∧ Reads doc'.data doc'.root (.scalar (.string (b! "z"))) := by
  have hp : Parsed (b! "a:\n  - >\n    x\n    y\n  - |-\n    z\n\nb: 1\n") (docOfText (b! "a:\n  - >\n    x\n    y\n  - |-\n    z\n\nb: 1\n")) := ⟨120, by decide +kernel⟩
  have hl : Live (docOfText (b! "a:\n  - >\n    x\n    y\n  - |-\n    z\n\nb: 1\n")) 2 := .viaMap [(b! "a", 2), (b! "b", 8)] (b! "a") .self (by decide +kernel) (by decide +kernel) (by decide)
  refine ⟨_, hp, ?_, ?_⟩
  · obtain ⟨b, d, h1, h2⟩ := C91_block_partial hp (by decide +kernel) (x := 4) (.viaSeq [4, 6] hl (by decide +kernel) (by decide +kernel) (by decide)) (a := .string (b! "x y\n")) ⟨by decide +kernel, rfl⟩
      (old := b! ">\n    x\n    y") (by decide +kernel) (by decide)
    obtain ⟨rfl, rfl⟩ : b = 7 ∧ d = 20 := (by decide +kernel : ∀ d ≤ 42, ∀ b < d, (b! ">\n    x\n    y") = slice (b! "a:\n  - >\n    x\n    y\n  - |-\n    z\n\nb: 1\n") b d → b = 7 ∧ d = 20) d (by have := h1.le; simp at this; omega) b h1.lt
      (Except.ok.inj ((show valueText _ 4 = .ok (b! ">\n    x\n    y") by decide +kernel).symm.trans h1.text))
    exact h2 23 0 ⟨⟨by decide, by decide, by decide⟩, by decide, by decide⟩ (by decide) (.inr (by decide)) (by decide +kernel)
  · obtain ⟨b, d, h1, h2⟩ := C91_block_partial hp (by decide +kernel) (x := 6) (.viaSeq [4, 6] hl (by decide +kernel) (by decide +kernel) (by decide)) (a := .string (b! "z")) ⟨by decide +kernel, rfl⟩
      (old := b! "|-\n    z") (by decide +kernel) (by decide)
    obtain ⟨rfl, rfl⟩ : b = 25 ∧ d = 33 := (by decide +kernel : ∀ d ≤ 42, ∀ b < d, (b! "|-\n    z") = slice (b! "a:\n  - >\n    x\n    y\n  - |-\n    z\n\nb: 1\n") b d → b = 25 ∧ d = 33) d (by have := h1.le; simp at this; omega) b h1.lt
      (Except.ok.inj ((show valueText _ 6 = .ok (b! "|-\n    z") by decide +kernel).symm.trans h1.text))
    exact h2 35 2 ⟨⟨by decide, by decide, by decide⟩, by decide, by decide⟩ (by decide) (.inl (by decide)) (by decide +kernel)

end Verif
