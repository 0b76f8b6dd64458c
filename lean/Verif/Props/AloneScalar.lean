import Verif.Props.Alone
/-
C91 for scalars, wherever they are: the text of a scalar, put on its own, is read as that scalar.
-/
namespace Verif

/-- What is read as a scalar somewhere is read as the same scalar at the end of a line, if it is in quotes, or on one line and without a dash. -/
theorem Token.lone {f : Bool} {rest t : Bytes} {a : AnyV} (h : Token f rest t a) (hq : t.headD 0 ∈ [DQ, SQ] ∨ NL ∉ t ∧ dashes (t ++ [NL]) = false) : Token false [NL] t a := by
  cases h with
  | number h1 h2 => exact .number h1 (by rw [if_neg (by decide)]; decide)
  | quoted h1 h2 h3 => exact .quoted h1 (fun _ => by decide) (fun _ => by decide)
  | plain h1 h2 =>
    refine .plain ?_ ?_
    · intro k hk
      exact ⟨rfl, (h1 k hk).2⟩
    · unfold plainText at h2 ⊢
      simp only [Bool.and_eq_true, Bool.not_eq_true'] at h2
      obtain ⟨h3, h4⟩ := h2
      obtain ⟨n1, n2⟩ : NL ∉ t ∧ dashes (t ++ [NL]) = false := by
        rcases hq with hq | hq
        · exfalso
          simp only [List.mem_cons, List.not_mem_nil, or_false] at hq
          rcases hq with hq | hq <;> · rw [hq] at h3; exact absurd h3 (by decide)
        · exact hq
      have n3 : noKeySep t = true := by
        cases f with
        | true =>
          simp only [if_true, Bool.and_eq_true, Bool.not_eq_true'] at h4
          refine noKeySep_none fun b hb => ?_
          rintro rfl
          have := List.any_eq_false.1 h4.1 _ hb
          exact absurd this (by decide)
        | false =>
          simp at h4
          exact h4.1.1.2
      have n4 : t.contains NL = false := by simpa using n1
      rw [h3, if_neg (by decide), n4, n3, n2]; decide

/-- C91, what holds for scalars: the text of a scalar anywhere in a document that was read, also in an inline collection.  On its own, however far to the right, it is read as that scalar, if it is in quotes, or on one line
and does not start with a dash and white space; unless it looks like a header.  Missing values and block scalars are left out, and double quotes that are not closed. -/
theorem C91_scalar_partial {inp : Bytes} {doc : Document} (h : Parsed inp doc) {x : Nat} (hx : Live doc x) {a : AnyV} (ha : Reads doc.data x (.scalar a)) {old : Bytes} (ho : valueText doc.data x = .ok old)
    (h0 : old ≠ []) (hb : old.headD 0 ∉ [PIPE, GT]) (hd : old.headD 0 = DQ → ¬ old <:+ inp) (hq : old.headD 0 ∈ [DQ, SQ] ∨ NL ∉ old ∧ dashes (old ++ [NL]) = false) (k : Nat)
    (hh : hasHeader (alone k old) = false) : ∃ doc', fromSlice (alone k old) = .ok doc' ∧ Reads doc'.data doc'.root (.scalar a) := by
  obtain ⟨t, k0, e0, -, -, hl⟩ := parsed_laid h
  have A : Allows inp (fun _ _ => True) := by constructor <;> intros <;> trivial
  obtain ⟨u, s, b, d, r, lo, p, q, hu, h1, h3, h4, -⟩ := laid_part A hl hx
  obtain ⟨par, hat⟩ := hl.holds.at hu
  have hid := Tree.find_id hu
  have hread := Tree.content_reads hat.rep
  rw [hid] at hread
  have hcon := Reads.unique ha hread
  cases u with
  | node i p m ind K items => cases m <;> cases hcon
  | leaf i p sc =>
  obtain rfl : a = sc.value := by cases hcon; rfl
  have hw : sc.write = old := by
    have := hat.text
    rw [ho] at this
    exact (Except.ok.inj this).symm
  rw [Tree.erase] at h4
  generalize hU : Tree.leaf () p sc = U at h4
  have fin : ∀ {f : Bool} {rest : Bytes}, isWs (old.headD 0) = false → old.headD 0 ≠ HASH → Token f rest old sc.value → ∃ doc', fromSlice (alone k old) = .ok doc' ∧ Reads doc'.data doc'.root (.scalar sc.value) := by
    intro f rest n1 n2 ht
    have hl : (List.replicate k SP).length = k := List.length_replicate
    have hget : (List.replicate k SP ++ [] ++ old ++ [NL]).getD k 0 = old.headD 0 := by
      have := sh_getD (List.replicate k SP) (old ++ [NL]) 0 0
      rw [hl, Nat.add_zero] at this
      rw [List.append_nil, List.append_assoc, this]
      cases old with
      | nil => exact absurd rfl h0
      | cons => rfl
    have hL := lies_mid (H := List.replicate k SP) (A := []) (T := old) (R := [NL]) (s := .block) (sc := sc)
      (by rw [List.append_nil, hl]; rw [List.append_nil] at hget
          exact ⟨⟨Nat.le_refl _, by simp, .inl (by rw [slice_none (Nat.le_refl _)]; rfl)⟩, by rw [hget]; exact n1, by rw [hget]; exact n2⟩) rfl hw (ht.lone hq)
    rw [List.append_nil, hl] at hL
    exact alone_reads (t := old) hL (by simp) h0 n1 n2 hh
  have hsl : ∀ {y z : Nat}, old = slice inp y z → y < z := by
    intro y z he
    rcases Nat.lt_or_ge y z with h | h
    · exact h
    · rw [he, slice_none h] at h0; exact absurd rfl h0
  cases h4 with
  | scalar g1 g2 g3 g4 g5 =>
    cases hU
    have e1 : old = slice inp _ _ := hw.symm.trans g5
    have e2 := slice_headD (inp := inp) (hsl e1)
    rw [← e1] at e2 g4
    exact fin (by rw [e2]; exact g1.2.1) (by rw [e2]; exact g1.2.2) g4
  | @«open» _ _ _ _ lo' g1 g2 g3 g4 g5 =>
    cases hU
    have e1 : old = slice inp lo' inp.length := hw.symm.trans g5
    rw [slice_drop] at e1
    refine absurd (List.drop_suffix lo' inp) ?_
    rw [← e1]
    refine hd ?_
    rw [e1, g3]; rfl
  | @lines _ _ v _ lo' hi' g1 g2 g3 g4 g5 =>
    cases hU
    exfalso
    obtain ⟨z, e1⟩ : ∃ z, old = slice inp lo' z := by
      rcases g5 with g5 | ⟨-, -, g5⟩
      · exact ⟨_, hw.symm.trans g5⟩
      · exact ⟨_, hw.symm.trans g5⟩
    have e2 := slice_headD (inp := inp) (hsl e1)
    obtain ⟨folded, chomp, hh', n, w, k1, k2, k3, -⟩ := g2
    have e3 := slice_headD (inp := inp) k1
    rw [k3] at e3
    rw [← e1, ← e3] at e2
    refine hb ?_
    rw [e2]
    cases folded <;> simp
  | empty => cases hU; exact absurd hw.symm h0
  | _ => cases hU

/-- Scalars in brackets. -/
example : ∃ doc, Parsed (b! "a: [x y, {k: 'p, q'}, -5]\n") doc ∧
    (∃ doc', fromSlice (b! "  x y\n") = .ok doc' ∧ Reads doc'.data doc'.root (.scalar (.string (b! "x y")))) ∧
    (∃ doc', fromSlice (b! "'p, q'\n") = .ok doc' ∧ Reads doc'.data doc'.root (.scalar (.string (b! "p, q")))) ∧
    ∃ doc', fromSlice (b! "-5\n") = .ok doc' ∧ Reads doc'.data doc'.root (.scalar (.number (b! "-5"))) := by
  have hp : Parsed (b! "a: [x y, {k: 'p, q'}, -5]\n") (docOfText (b! "a: [x y, {k: 'p, q'}, -5]\n")) := ⟨90, by decide +kernel⟩
  have hl : Live (docOfText (b! "a: [x y, {k: 'p, q'}, -5]\n")) 2 := .viaMap [(b! "a", 2)] (b! "a") .self (by decide +kernel) (by decide +kernel) (by decide)
  refine ⟨_, hp, ?_, ?_, ?_⟩
  · exact C91_scalar_partial hp (x := 4) (.viaSeq [4, 6, 10] hl (by decide +kernel) (by decide +kernel) (by decide)) (by exact ⟨by decide +kernel, rfl⟩) (old := b! "x y") (by decide +kernel) (by decide) (by decide)
      (by decide) (.inr (by decide)) 2 (by decide +kernel)
  · exact C91_scalar_partial hp (x := 8) (.viaMap [(b! "k", 8)] (b! "k") (.viaSeq (v := 6) [4, 6, 10] hl (by decide +kernel) (by decide +kernel) (by decide)) (by decide +kernel) (by decide +kernel) (by decide))
      (by exact ⟨by decide +kernel, rfl⟩) (old := b! "'p, q'") (by decide +kernel) (by decide) (by decide) (by decide) (.inl (by decide)) 0 (by decide +kernel)
  · exact C91_scalar_partial hp (x := 10) (.viaSeq [4, 6, 10] hl (by decide +kernel) (by decide +kernel) (by decide)) (by exact ⟨by decide +kernel, rfl⟩) (old := b! "-5") (by decide +kernel) (by decide) (by decide)
      (by decide) (.inr (by decide)) 0 (by decide +kernel)

end Verif
