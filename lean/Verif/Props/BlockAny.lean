import Verif.Props.Where
import Verif.Props.Blocks
import Verif.PutDocs
import Verif.AmountLemmas
/-
Block scalars anywhere in a text (C33, C53).
-/
namespace Verif

variable {inp : Bytes}

theorem InQuotes.quote {t s : Bytes} (h : InQuotes t s) : t.headD 0 = SQ ∨ t.headD 0 = DQ := by
  cases h with
  | single s => exact .inl rfl
  | double _ _ => exact .inr rfl

/-- What starts with the mark of a block scalar is one. -/
theorem Sits.atBlock {α : Type} {V : View α} {s : Spot} {x : α} {lo hi : Nat} (h : Sits inp V s x lo hi) (hb : Verif.atBlock inp lo = true) :
    ∃ v, V.scalar x (.string v) ∧ BlockAt inp lo v hi := by
  have hb' : inp.getD lo 0 = GT ∨ inp.getD lo 0 = PIPE := by simpa [Verif.atBlock] using hb
  have hlt : lo < inp.length := by
    refine Nat.lt_of_not_le fun hle => ?_
    rw [getD_peek, peekAt_ge hle] at hb'
    revert hb'; decide
  have hget : ∀ {c : UInt8}, inp[lo]? = some c → c = GT ∨ c = PIPE := by
    intro c hc
    rwa [List.getD_eq_getElem?_getD, hc] at hb'
  have hkey : ∀ {k q}, ¬ FirstKey inp k lo q := by
    rintro k q ⟨h1, h2, h3 | ⟨-, h3, -⟩⟩
    · have h4 := h3.quote
      by_cases hq : lo < q
      · rw [slice_headD hq] at h4
        rcases hb' with hb' | hb' <;> rw [hb'] at h4 <;> revert h4 <;> decide
      · rw [slice_none (by omega)] at h4
        revert h4; decide
    · rcases hb' with hb' | hb' <;> rw [hb'] at h3 <;> revert h3 <;> decide
  cases h with
  | scalar h1 h2 h3 h4 =>
    exfalso
    by_cases hq : lo < hi
    · have h5 := slice_headD (inp := inp) hq
      have := (h4.starts (by rw [h5]; rcases hb' with hb' | hb' <;> rw [hb'] <;> decide)).2.2
      rw [h5] at this
      exact hb'.elim this.2.1 this.1
    · obtain rfl : hi = lo := by omega
      have hr : (inp.drop hi).headD 0 = GT ∨ (inp.drop hi).headD 0 = PIPE := by
        rw [List.headD_eq_head?_getD, List.head?_drop, ← List.getD_eq_getElem?_getD]; exact hb'
      rw [slice_none (Nat.le_refl _)] at h4
      generalize hs : ([] : Bytes) = s0 at h4
      cases h4 with
      | number h => subst hs; exact absurd h (by decide)
      | plain _ h =>
        subst hs
        cases hd : inp.drop hi with
        | nil => rw [hd] at hr; revert hr; decide
        | cons c r =>
          rw [hd] at hr h
          have hr' : c = GT ∨ c = PIPE := hr
          unfold plainText at h
          rcases hr' with rfl | rfl <;> cases s <;> simp [Spot.inline, isCtl, GT, PIPE, NL, COMMA, COLON, RBR, RCB] at h
      | quoted h => have := h.quote; subst hs; revert this; decide
  | lines h1 h2 => exact ⟨_, h1, h2⟩
  | «open» h1 h2 h3 h4 =>
    exfalso
    have := congrArg List.head? h4
    rw [List.head?_drop] at this
    have := hget (by simpa using this)
    revert this; decide
  | empty h1 h2 h3 => exact absurd h2 hkey
  | dashes h1 h2 h3 =>
    exfalso
    have key : ∀ {l : List α} {c first lo hi}, Rows inp V c first (l.map fun v => (none, v)) lo hi → inp[lo]? = some DASH := by
      intro l c first lo hi h
      generalize hl : (l.map fun v => ((none : Option Bytes), v)) = l' at h
      cases h with
      | last _ hh =>
        cases l with
        | nil => cases hl
        | cons v l => obtain ⟨rfl⟩ : none = _ := by injection hl with h _; injection h
                      exact hh.1
      | more _ hh =>
        cases l with
        | nil => cases hl
        | cons v l => obtain ⟨rfl⟩ : none = _ := by injection hl with h _; injection h
                      exact hh.1
    have := hget (key h3)
    revert this; decide
  | keys h1 h2 h3 =>
    exfalso
    have key : ∀ {l : List (Bytes × α)} {c lo hi}, Rows inp V c true (l.map fun e => (some e.1, e.2)) lo hi → ∃ k q, FirstKey inp k lo q := by
      intro l c lo hi h
      generalize hl : (l.map fun e => (some e.1, e.2)) = l' at h
      cases h with
      | last _ hh =>
        cases l with
        | nil => cases hl
        | cons v l => obtain ⟨rfl⟩ : some v.1 = _ := by injection hl with h _; injection h
                      obtain ⟨q, _, hq⟩ := hh; exact ⟨_, q, hq⟩
      | more _ hh =>
        cases l with
        | nil => cases hl
        | cons v l => obtain ⟨rfl⟩ : some v.1 = _ := by injection hl with h _; injection h
                      obtain ⟨q, _, hq⟩ := hh; exact ⟨_, q, hq⟩
    obtain ⟨k, q, hq⟩ := key h3
    exact hkey hq
  | brackets h1 h2 => exact absurd (hget h2) (by decide)
  | braces h1 h2 => exact absurd (hget h2) (by decide)

theorem last_append {a b : Bytes} (h : b ≠ []) : (a ++ b).getLast? = b.getLast? := by
  rw [List.getLast?_append]
  cases hb : b.getLast? with
  | none => exact absurd (List.getLast?_eq_none_iff.1 hb) h
  | some c => rfl

theorem Trimmed.noBreak {s core : Bytes} (h : Trimmed s core) : core.getLast? ≠ some NL := by
  obtain ⟨l, r, -, -, h⟩ := h
  intro hl
  obtain ⟨ys, rfl⟩ := List.getLast?_eq_some_iff.1 hl
  exact (h 10 (by decide)).2 ⟨ys, rfl⟩

/-- The line that ends at `e` has only white space (any of Unicode) on it, or from its first other character on. -/
def BlankTo (inp : Bytes) (e : Nat) : Prop := ∃ p, LineAt inp p e ∧ Trimmed (slice inp p e) []

theorem BlockRows.blank {folded : Bool} {c p : Nat} {v : Bytes} {hi n : Nat} (h : BlockRows inp folded c p v hi n) (h0 : v = []) : BlankTo inp hi := by
  induction h with
  | last h1 h2 h3 _ _ => subst h0; exact ⟨_, h2, h3⟩
  | @final p e t h1 h2 h3 _ _ =>
    obtain ⟨rfl, -⟩ := List.append_eq_nil_iff.1 h0
    exact ⟨_, h2, h3⟩
  | more _ _ _ _ _ _ ih => exact ih (List.append_eq_nil_iff.1 h0).2

/-- The line breaks at the end of what is read of lines. -/
theorem BlockRows.tailBreaks {folded : Bool} {c p : Nat} {v : Bytes} {hi n : Nat} (h : BlockRows inp folded c p v hi n) : ∃ q, FullGap inp hi q ∧ n = breaksIn inp hi q ∧
    (BlankTo inp hi ∨ v.getLast? ≠ some NL ∨ q = inp.length ∧ folded = false ∧ c ≤ columnAt inp inp.length ∧ ∃ w, v = w ++ List.replicate n NL ∧ w ≠ [] ∧ w.getLast? ≠ some NL) := by
  induction h with
  | last h1 h2 h3 h4 h5 => exact ⟨_, h4, rfl, .inr (.inl h3.noBreak)⟩
  | @final p e t h1 h2 h3 h4 h5 =>
    refine ⟨_, h4, rfl, ?_⟩
    by_cases ht : t = []
    · subst ht; exact .inl ⟨p, h2, h3⟩
    · refine .inr ?_
      cases folded with
      | true => refine .inl ?_; simp [between, SP, NL]
      | false => exact .inr ⟨rfl, rfl, h5, t, rfl, ht, h3.noBreak⟩
  | @more p e q hi n t v h1 h2 h3 h4 h5 h6 ih =>
    obtain ⟨q', g1, g2, g3⟩ := ih
    refine ⟨q', g1, g2, ?_⟩
    rcases g3 with g3 | g3 | ⟨g3, g4, g5, w, rfl, g6, g7⟩
    · exact .inl g3
    · by_cases hv : v = []
      · subst hv
        left
        exact h6.blank rfl
      · refine .inr (.inl ?_)
        rw [last_append hv]; exact g3
    · refine .inr (.inr ⟨g3, g4, g5, t ++ between folded (breaksIn inp e q) ++ w, by simp, by simp [g6], ?_⟩)
      rw [last_append g6]; exact g7

theorem BlockBody.tailBreaks {folded : Bool} {h : Nat} {v : Bytes} {hi n : Nat} (hb : BlockBody inp folded h v hi n) : ∃ q, FullGap inp hi q ∧ n = breaksIn inp hi q ∧
    (BlankTo inp hi ∨ v.getLast? ≠ some NL ∨ q = inp.length ∧ folded = false ∧ (∃ p, h < p ∧ p ≤ hi ∧ 0 < breaksIn inp h p ∧ columnAt inp p ≤ columnAt inp inp.length) ∧
      ∃ w, v = w ++ List.replicate n NL ∧ w ≠ [] ∧ w.getLast? ≠ some NL) := by
  have hpos : ∀ {p}, 0 < breaksIn inp h p → h < p := fun {p} hp => by have := breaksIn_le inp h p; omega
  cases hb with
  | @below p hi n v h1 h2 h3 =>
    obtain ⟨q, g1, g2, g3⟩ := h3.tailBreaks
    refine ⟨q, g1, g2, ?_⟩
    rcases g3 with g3 | g3 | ⟨g3, g4, g5, g6⟩
    · exact .inl g3
    · exact .inr (.inl g3)
    · exact .inr (.inr ⟨g3, g4, ⟨p, hpos h2, h3.le, h2, g5⟩, g6⟩)
  | nothing h1 h2 => exact ⟨_, h1, rfl, .inr (.inl (by simp))⟩
  | beside h1 h2 h3 h4 h5 => exact ⟨_, h5, rfl, .inr (.inl h4.noBreak)⟩
  | @both q0 e p hi n t v h1 h2 h3 h4 h5 h6 =>
    obtain ⟨q, g1, g2, g3⟩ := h6.tailBreaks
    refine ⟨q, g1, g2, ?_⟩
    rcases g3 with g3 | g3 | ⟨g3, g4, g5, w, rfl, g6, g7⟩
    · exact .inl g3
    · by_cases hv : v = []
      · subst hv; exact .inl (h6.blank rfl)
      · refine .inr (.inl ?_); rw [last_append hv]; exact g3
    · have hbr : 0 < breaksIn inp h p := by
        have h7 := h3.more h5 h6.start_lt
        have h8 : inp.getD e 0 = NL := by
          rcases h3.2.2 with h | h
          · have := h6.start_lt; omega
          · rw [List.getD_eq_getElem?_getD, h]; rfl
        rw [breaksIn, ← slice_append h3.1 (Nat.le_of_lt h7), List.count_append]
        have h9 := slice_headD (inp := inp) h7
        cases hs : slice inp e p with
        | nil => rw [hs, h8] at h9; exact absurd h9 (by decide)
        | cons c r => rw [hs, h8] at h9; obtain rfl : c = NL := h9; rw [List.count_cons_self]; omega
      refine .inr (.inr ⟨g3, g4, ⟨p, hpos hbr, h6.le, hbr, g5⟩, t ++ between folded 1 ++ w, by simp, by simp [g6], ?_⟩)
      rw [last_append g6]; exact g7

/-- Where the block scalar that a value was read from ends. -/
theorem ReadFrom.block {doc : Document} {x b d : Nat} (h : ReadFrom inp doc x b d) (hb : atBlock inp b = true) :
    ∃ v e, doc.data.view.scalar x (.string v) ∧ (e = d ∨ FullGap inp d e) ∧ BlockAt inp b v e := by
  obtain ⟨r, s, lo, hi, -, -, h1, ⟨rfl, -, h2⟩ | ⟨rfl, rfl, h2⟩⟩ := h
  · obtain ⟨v, h3, h4⟩ := h1.atBlock hb
    exact ⟨v, hi, h3, h2, h4⟩
  · exfalso
    obtain rfl : d = hi := by
      have hb' : inp.getD d 0 = GT ∨ inp.getD d 0 = PIPE := by simpa [Verif.atBlock] using hb
      have : FullGap inp d d := by
        refine ⟨⟨Nat.le_refl _, Nat.le_trans h2.le.1 h2.1.2.1, .inl ?_⟩, ?_, ?_⟩
        · rw [slice_none (Nat.le_refl _)]; rfl
        · rcases hb' with hb' | hb' <;> rw [hb'] <;> decide
        · rcases hb' with hb' | hb' <;> rw [hb'] <;> decide
      rw [← this.eq, h2.eq]
    obtain ⟨v, h3, h4⟩ := h1.atBlock hb
    have := h4.bounds
    omega

/-- The value `x` was read from a block scalar from `b` to `d`.  It has a header with `|` or `>` and the indicator `chomp` (`h` is
the end of it).  Its last line ends at `e`, and there are `n` line breaks in the white space and comments that follow, up to `q`.  Then the value is `w` with, except for `-`,
all of the `n` line breaks at its end.  `w` has no line break at its end, except in two cases: the last line has nothing but white space (of Unicode) on it; or the text ends after the block
scalar, to the right of the start of its lines or directly below, and `w` has the `n` line breaks, which are then twice in the value unless the indicator is `-`. -/
theorem ReadFrom.chomped {doc : Document} {x b d : Nat} (hr : ReadFrom inp doc x b d) (hb : atBlock inp b = true) :
    ∃ (w : Bytes) (folded : Bool) (chomp : Chomp) (h e q n : Nat), b < h ∧ h ≤ e ∧ (e = d ∨ FullGap inp d e) ∧
      slice inp b h = [if folded then GT else PIPE] ++ chomp.text ∧ (chomp = .clip → inp.getD h 0 ≠ DASH ∧ inp.getD h 0 ≠ 43) ∧
      FullGap inp e q ∧ n = breaksIn inp e q ∧
      asAny doc.data x = .ok (.string (w ++ if chomp = .strip then [] else List.replicate n NL)) ∧
      (w.getLast? ≠ some NL ∨ BlankTo inp e ∨
        q = inp.length ∧ folded = false ∧ (∃ p, h < p ∧ p ≤ e ∧ 0 < breaksIn inp h p ∧ columnAt inp p ≤ columnAt inp inp.length) ∧
          ∃ w', w = w' ++ List.replicate n NL ∧ w' ≠ [] ∧ w'.getLast? ≠ some NL) := by
  obtain ⟨v, e, h1, h2, folded, chomp, h, n, w, g1, -, g2, g3, g4, rfl⟩ := hr.block hb
  obtain ⟨q, k1, k2, k3⟩ := g4.tailBreaks
  refine ⟨w, folded, chomp, h, e, q, n, g1, g4.le, h2, g2, g3, k1, k2, h1, ?_⟩
  rcases k3 with k3 | k3 | k3
  · exact .inr (.inl k3)
  · exact .inl k3
  · exact .inr (.inr k3)

/-- A value that was read from a text with `|` or `>` at its start is the string that `BlockAt` describes, and no other is described by
it.  What is missing is the white space around the lines (see `Trimmed` in `BlockRows`) and the blank lines of folded block scalars (see `between`). -/
theorem ReadFrom.byLines {doc : Document} {x b d : Nat} (hr : ReadFrom inp doc x b d) (hb : atBlock inp b = true) :
    ∃ v e, asAny doc.data x = .ok (.string v) ∧ (e = d ∨ FullGap inp d e) ∧ BlockAt inp b v e ∧ ∀ v' e', BlockAt inp b v' e' → v' = v ∧ e' = e := by
  obtain ⟨v, e, h1, h2, h3⟩ := hr.block hb
  exact ⟨v, e, h1, h2, h3, fun _ _ h => h.unique h3⟩

/-- Every value was read from somewhere. -/
theorem parsed_readFrom {doc : Document} (h : Parsed inp doc) {x : Nat} (hx : Live doc x) : ∃ b d, b ≤ d ∧ d ≤ inp.length ∧ ReadFrom inp doc x b d := by
  obtain ⟨_, b, d, _, _, _, _, h1, h2, _, h3, _⟩ := C77_kept h hx
  exact ⟨b, d, h1, h2, h3⟩

/-- C33, for every block scalar in every accepted text: each value `x` of the document was read from the text, from `b` to `d`, and if there is `|` or `>` at `b` it is a block scalar.  It
has a header with `|` or `>` and the indicator `chomp` (`h` is the end of it).  Its last line ends at `e`, and there are `n` line breaks in the white space and comments that follow, up to `q`.
Then the value is `w` with, except for `-`, all of the `n` line breaks at its end.  `w` has no line break at its end, except in two cases: the last line has nothing but white space (of
Unicode) on it; or the text ends after the block scalar, to the right of the start of its lines or directly below, and `w` has the `n` line breaks, which are then twice in the value unless
the indicator is `-`. -/
theorem C33_anywhere_partial {doc : Document} (hp : Parsed inp doc) {x : Nat} (hx : Live doc x) : ∃ b d, b ≤ d ∧ d ≤ inp.length ∧ ReadFrom inp doc x b d ∧ (atBlock inp b = true →
    ∃ (w : Bytes) (folded : Bool) (chomp : Chomp) (h e q n : Nat), b < h ∧ h ≤ e ∧ (e = d ∨ FullGap inp d e) ∧
      slice inp b h = [if folded then GT else PIPE] ++ chomp.text ∧ (chomp = .clip → inp.getD h 0 ≠ DASH ∧ inp.getD h 0 ≠ 43) ∧
      FullGap inp e q ∧ n = breaksIn inp e q ∧
      asAny doc.data x = .ok (.string (w ++ if chomp = .strip then [] else List.replicate n NL)) ∧
      (w.getLast? ≠ some NL ∨ BlankTo inp e ∨
        q = inp.length ∧ folded = false ∧ (∃ p, h < p ∧ p ≤ e ∧ 0 < breaksIn inp h p ∧ columnAt inp p ≤ columnAt inp inp.length) ∧
          ∃ w', w = w' ++ List.replicate n NL ∧ w' ≠ [] ∧ w'.getLast? ≠ some NL)) := by
  obtain ⟨b, d, h1, h2, h3⟩ := parsed_readFrom hp hx
  exact ⟨b, d, h1, h2, h3, h3.chomped⟩

/-- C53, for every block scalar in every accepted text: each value `x` of the document was read from the text, from `b` to `d`, and if there is `|` or `>` at `b` it is the string that
`BlockAt` describes, and no other is described by it.  What is missing is the white space around the lines (see `Trimmed` in `BlockRows`) and the blank lines of folded block scalars (see
`between`). -/
theorem C53_anywhere_partial {doc : Document} (hp : Parsed inp doc) {x : Nat} (hx : Live doc x) : ∃ b d, b ≤ d ∧ d ≤ inp.length ∧ ReadFrom inp doc x b d ∧ (atBlock inp b = true →
    ∃ v e, asAny doc.data x = .ok (.string v) ∧ (e = d ∨ FullGap inp d e) ∧ BlockAt inp b v e ∧ ∀ v' e', BlockAt inp b v' e' → v' = v ∧ e' = e) := by
  obtain ⟨b, d, h1, h2, h3⟩ := parsed_readFrom hp hx
  exact ⟨b, d, h1, h2, h3, h3.byLines⟩

/-! Examples. -/

/-- The hypotheses. -/
example : Parsed (b! "a: |-\n  x\n\nb: 1\n") (docOfText (b! "a: |-\n  x\n\nb: 1\n")) ∧ Live (docOfText (b! "a: |-\n  x\n\nb: 1\n")) 2 := by
  refine ⟨⟨40, by decide +kernel⟩, .viaMap [(b! "a", 2), (b! "b", 4)] (b! "a") .self (by decide +kernel) (by decide +kernel) (by decide +kernel)⟩

/-- The value of `a`, which was read from the characters 3 to 9; and what is read. -/
example : ReadFrom (b! "a: |-\n  x\n\nb: 1\n") (docOfText (b! "a: |-\n  x\n\nb: 1\n")) 2 3 9 ∧ atBlock (b! "a: |-\n  x\n\nb: 1\n") 3 = true ∧
    asAny (docOfText (b! "a: |-\n  x\n\nb: 1\n")).data 2 = .ok (.string (b! "x")) := by
  refine ⟨⟨0, .item 0 (some (b! "a")), 3, 9, by decide, .item (y := 2) (p := 3) (.keys (l := [(b! "a", 2), (b! "b", 4)]) ⟨by decide, by decide⟩ ?_) .here, ?_,
    .inl ⟨rfl, by decide, .inl rfl⟩⟩, by decide, by decide +kernel⟩
  · refine .head (a := 2) ?_ ⟨⟨by decide, by decide, by decide⟩, by decide, by decide⟩
    exact ⟨1, by decide, by decide, by decide, .inr ⟨by decide, by decide, by decide, by decide, ⟨by decide, by decide⟩, fun p h1 h2 => by
      have : p = 0 := by omega
      subst this
      rintro ⟨h, _⟩
      exact absurd h (by decide)⟩⟩
  · refine .lines (v := b! "x") (by decide +kernel : asAny _ _ = _) ⟨false, .strip, 5, 2, b! "x", by decide, by decide, by decide, by decide, ?_, rfl⟩
    exact .below (p := 8) ⟨⟨by decide, by decide, by decide⟩, by decide, by decide⟩ (by decide)
      (.last (q := 11) (by decide) ⟨by decide, by decide, by decide⟩ ⟨[], [], by decide, by decide, by decide⟩ ⟨⟨by decide, by decide, by decide⟩, by decide, by decide⟩ (by decide))

/-- The exceptions: the value ends with a line break although the indicator is `-`. -/
example : (∃ doc, fromSlice (b! "|-\nfoo\n") = .ok doc ∧ asAny doc.data doc.root = .ok (.string (b! "foo\n"))) ∧
    (∃ doc, fromSlice (b! "|\nfoo\n") = .ok doc ∧ asAny doc.data doc.root = .ok (.string (b! "foo\n\n"))) ∧
    ∃ doc, fromSlice (b! "a: |-\n  foo\n  \u2003\nb: 1\n") = .ok doc ∧ asAny doc.data 2 = .ok (.string (b! "foo\n")) :=
  ⟨⟨docOfText (b! "|-\nfoo\n"), by decide, by decide⟩, ⟨docOfText (b! "|\nfoo\n"), by decide, by decide⟩,
    docOfText (b! "a: |-\n  foo\n  \u2003\nb: 1\n"), by decide +kernel, by decide +kernel⟩

end Verif
