import Verif.Props.Missing
/-
Keys that go over lines (C83), and texts with more than one document (C84).
-/
namespace Verif

/-! ### Specification -/

/-- Lines without a key, and a key and its value after them.  (`d`: the first one starts with a dash.) -/
def longProbe (d : Bool) : Bytes := if d then b! "-w\nz: 0\n" else b! "w\nz: 0\n"

/-- The key that is read. -/
def longKey (d : Bool) : Bytes := if d then b! "-w\nz" else b! "w\nz"

/-- The lines `x` are read as the entries `l`, also if a line without a key comes after them (for example because their last value is not missing, which then would be the value). -/
structure StandsOver (d : Bool) (x : Bytes) (l : List (Bytes × Content)) : Prop where
  start : startsItem true x = true
  last : x.getLast? = some NL
  reads : TextMap (x ++ longProbe d) (l ++ [(longKey d, .scalar (.number (b! "0")))])

/-- Lines without a colon.  The first starts with a dash just if `d`. -/
def keyless (d : Bool) (w : Bytes) : Bool :=
  !isIndicator (w.headD 0) && w.headD 0 != 0 && (w.headD 0 == DASH) == d && !w.contains COLON && !w.contains 0 && w.getLast? == some NL

theorem keyless_iff {d : Bool} {w : Bytes} (h : keyless d w = true) : isIndicator (w.headD 0) = false ∧ w.headD 0 ≠ 0 ∧ (w.headD 0 = DASH ↔ d = true) ∧ COLON ∉ w ∧ (0 : UInt8) ∉ w ∧
    w.getLast? = some NL := by
  simp only [keyless, Bool.and_eq_true, Bool.not_eq_true', bne_iff_ne, ne_eq, beq_iff_eq, List.contains_eq_mem, decide_eq_false_iff_not] at h
  obtain ⟨⟨⟨⟨⟨h1, h2⟩, h3⟩, h4⟩, h5⟩, h6⟩ := h
  refine ⟨h1, h2, ?_, h4, h5, h6⟩
  rw [← h3]; simp

theorem joint_long {d : Bool} {x w y : Bytes} (hx : x.getLast? = some NL) (hw : keyless d w = true) : Joint x (longProbe d) (w ++ y) := by
  obtain ⟨h1, h2, h3, h4, h5, h6⟩ := keyless_iff hw
  have hh : (w ++ y).headD 0 = w.headD 0 := by
    cases w with
    | nil => exact absurd rfl h2
    | cons b w => rfl
  refine ⟨hx, by cases d <;> decide, ⟨by rw [hh]; exact h1, ?_, by rw [hh]; exact h2⟩, ?_, ?_, ?_⟩
  · rw [hh]
    intro e
    cases w with
    | nil => exact absurd rfl h2
    | cons b w => exact h4 (by rw [← e]; exact List.mem_cons_self ..)
  · rw [hh, h3]; cases d <;> decide
  · intro n hn
    have hlt := (List.getElem?_eq_some_iff.1 hn).1
    revert hn
    have : ∀ d : Bool, ∀ n, n < (longProbe d).length → (longProbe d)[n]? = some COLON → 0 < n ∧ (longProbe d).getD (n - 1) 0 ≠ DQ ∧ (longProbe d).getD (n - 1) 0 ≠ SQ ∧ (longProbe d).getD (n - 1) 0 ≠ 0 := by
      decide
    exact this d n hlt
  · intro k q ⟨_, hq, hk⟩
    exfalso
    have hlt := (List.getElem?_eq_some_iff.1 hq).1
    have hc : ∀ d : Bool, ∀ q, q < (longProbe d).length → (longProbe d)[q]? = some COLON → NL ∈ slice (longProbe d) 0 q ∧ isIndicator ((slice (longProbe d) 0 q).headD 0) = false := by decide
    obtain ⟨c1, c2⟩ := hc d q hlt hq
    rcases hk with hk | ⟨rfl, -, -, hk, -⟩
    · exact quote_head hk c2
    · exact hk c1

/-- The last lines are the last entry. -/
theorem long_at {d : Bool} {x : Bytes} (hx : x.getLast? = some NL) {c lo hi : Nat} (h : Rows (x ++ longProbe d) contentView c false [(some (longKey d), .scalar (.number (b! "0")))] lo hi)
    (hg : FullGap (x ++ longProbe d) hi (x ++ longProbe d).length) : lo = x.length := by
  have H : Joint x (longProbe d) (longProbe d) := by
    have := joint_long (x := x) (d := d) (w := if d then b! "-w\n" else b! "w\n") (y := b! "z: 0\n") hx (by cases d <;> decide)
    have e : (if d then b! "-w\n" else b! "w\n") ++ b! "z: 0\n" = longProbe d := by cases d <;> rfl
    rwa [e] at this
  have hlen := H.lt_length (Nat.le_refl x.length)
  have h0 : (x ++ longProbe d)[x.length]? = (longProbe d)[0]? := by
    have := sh_get x (longProbe d) 0
    rwa [Nat.add_zero] at this
  cases h with
  | @last _ _ _ _ _ a b _ q h1 h2 h3 h4 h5 h6 =>
    obtain ⟨g1, g2, g3⟩ := sits_number h4
    obtain ⟨q, rfl, e1, e2, e3, -⟩ := h2
    have hl := (List.getElem?_eq_some_iff.1 e2).1
    have hsl := slice_length (inp := x ++ longProbe d) (a := lo) (b := q) (by omega)
    rw [e3] at hsl
    rcases Nat.lt_or_ge q x.length with hq | hq
    · exfalso
      have hb := H.stops h3 (by omega)
      have hbn : b ≠ x.length := by
        rintro rfl
        have hl := slice_length (inp := x ++ longProbe d) (a := x.length) g2
        have hh : (slice (x ++ longProbe d) x.length hi)[0]? = some 48 := by rw [g3]; rfl
        unfold slice at hh
        rw [List.getElem?_take, if_pos (by rw [g3] at hl; have h' : (b! "0").length = 1 := rfl; omega), List.getElem?_drop, Nat.add_zero, h0] at hh
        revert hh
        cases d <;> decide
      have hl := slice_length (inp := x ++ longProbe d) (a := b) g2
      rw [g3] at hl
      have h' : (b! "0").length = 1 := rfl
      have := H.stops hg (by omega)
      omega
    · obtain ⟨j, rfl⟩ := Nat.exists_eq_add_of_le hq
      rw [sh_get] at e2
      have hjl := (List.getElem?_eq_some_iff.1 e2).1
      have key : ∀ d : Bool, ∀ j, j < (longProbe d).length → (longProbe d)[j]? = some COLON → j = (longKey d).length := by decide
      have := key d j hjl e2
      omega
  | more _ _ _ _ _ h => cases h

/-! ### C83 -/

/-- C83 is false: the second key here goes over two lines. -/
theorem C83_line_false : ¬ ∀ (x : Bytes) (l : List (Bytes × Content)), startsItem true x = true → TextMap x l → ∀ e ∈ l, NL ∉ e.1 := by
  intro h
  exact h (b! "a: 1\nb\nc: 2\n") [(b! "a", .scalar (.number (b! "1"))), (b! "b\nc", .scalar (.number (b! "2")))] (by decide) (textMap_says.2 (by decide +kernel))
    (b! "b\nc", .scalar (.number (b! "2"))) (by simp) (by decide)

/-- C83, what happens instead: lines without a colon after the entries of a mapping, in its column, are part of the next key. -/
theorem C83_joined {d : Bool} {x w y k : Bytes} {v : Content} {l L : List (Bytes × Content)} (hx : StandsOver d x l) (hw : keyless d w = true) (hy : startsItem true y = true)
    (hL : TextMap y ((k, v) :: L)) : TextMap (x ++ (w ++ y)) (l ++ (w ++ k, v) :: L) := by
  obtain ⟨w1, w2, w3, w4, w5, w6⟩ := keyless_iff hw
  obtain ⟨hi, r1, g1⟩ := (map_rows (starts_append hx.start _)).1 hx.reads
  obtain ⟨hi', r2, g2⟩ := (map_rows hy).1 hL
  rw [map_rows (starts_append hx.start _)]
  rw [List.map_append] at r1 ⊢
  have hxw : (x ++ w).getLast? = some NL := by rw [List.getLast?_append, w6]; rfl
  have r3 := r2.shove (p := x ++ w) (.inr hxw)
  have g3 : FullGap (x ++ w ++ y) ((x ++ w).length + hi') (x ++ w ++ y).length := by rw [sh_len (x ++ w)]; exact sh_full.2 g2
  rw [List.append_assoc] at g3
  have hc : columnAt (x ++ (w ++ y)) x.length = 0 := by
    have := sh_col (p := x) (y := w ++ y) (n := 0) (.inr hx.last)
    rw [Nat.add_zero] at this
    rw [this]; rfl
  have hwp : 0 < w.length := by
    cases w with
    | nil => exact absurd rfl w2
    | cons b w => simp
  have hH : ∀ {a : Nat}, Head (x ++ w ++ y) true (some k) ((x ++ w).length + 0) a → Head (x ++ (w ++ y)) false (some (w ++ k)) x.length a := by
    intro a ha
    obtain ⟨k0, b, r, rfl, hb, hk0, -⟩ := starts_key hy
    obtain ⟨q, rfl, hq⟩ := ha
    have hq : FirstKey (x ++ w ++ (k0 ++ COLON :: b :: r)) k ((x ++ w).length + 0) q := hq
    obtain ⟨j, rfl⟩ := Nat.exists_eq_add_of_le (show (x ++ w).length ≤ q from hq.1)
    obtain ⟨rfl, rfl⟩ := key_only hk0 hb ((sh_firstKey (p := x ++ w) (lo := 0)).1 hq)
    obtain ⟨k1, -, -, -, k5, k6⟩ := keyBlock_mem hk0
    refine ⟨_, rfl, by rw [List.length_append]; omega, by rw [← List.append_assoc]; exact hq.2.1, ?_, by simp [w4, k5], by simp [w5, k6]⟩
    have := sh_slice x (w ++ (k ++ COLON :: b :: r)) 0 (w.length + k.length)
    rw [Nat.add_zero, ← Nat.add_assoc, ← List.length_append] at this
    rw [this]
    simp only [slice, List.drop_zero, Nat.sub_zero]
    rw [← List.length_append, ← List.append_assoc, List.take_left]
  have r4 : Rows (x ++ (w ++ y)) contentView 0 false (((w ++ k, v) :: L).map fun e => (some e.1, e.2)) x.length ((x ++ w).length + hi') := by
    rw [List.map_cons] at r3 ⊢
    generalize hE : L.map (fun e : Bytes × Content => (some e.1, e.2)) = E at r3
    have e : x ++ w ++ y = x ++ (w ++ y) := List.append_assoc ..
    cases r3 with
    | last h1 h2 h3 h4 h5 h6 => rw [e] at h3 h4 h5 h6; exact .last hc (hH h2) h3 h4 h5 h6
    | more h1 h2 h3 h4 h5 h6 => rw [e] at h3 h4 h5 h6; exact .more hc (hH h2) h3 h4 h5 h6
  have H := joint_long (y := y) hx.last hw
  have hz : ∀ lo, Rows (x ++ longProbe d) contentView 0 false [(some (longKey d), .scalar (.number (b! "0")))] lo hi → lo = x.length := fun lo h => long_at hx.last h g1
  have hne : l.map (fun e : Bytes × Content => (some e.1, e.2)) ≠ [] := by
    intro he
    rw [he, List.nil_append] at r1
    cases r1 with
    | last h1 h2 =>
      obtain ⟨k0, b, r, he, hb, hk0, -⟩ := starts_key (starts_append hx.start (longProbe d))
      obtain ⟨q, -, h2⟩ := h2
      rw [he] at h2
      obtain ⟨rfl, -⟩ := key_only hk0 hb h2
      exact absurd (keyBlock_mem hk0).2.2.2.1 (by cases d <;> decide)
    | more h1 h2 h3 h4 h5 h6 => cases h6
  exact ⟨_, (Rows.join H hz r4 hne r1).2, g3⟩

/-- A line that starts in the first column, from `a` to `b`. -/
def WholeLine (x : Bytes) (a b : Nat) : Prop := (a = 0 ∨ x[a - 1]? = some NL) ∧ LineAt x a b

theorem least_from {P : Nat → Prop} {lo q : Nat} (h : lo ≤ q) (hq : P q) : ∃ b, lo ≤ b ∧ b ≤ q ∧ P b ∧ ∀ j, lo ≤ j → j < b → ¬ P j := by
  generalize hn : q - lo = n
  induction n generalizing lo with
  | zero => exact ⟨q, h, Nat.le_refl q, hq, fun j _ _ => by omega⟩
  | succ n ih =>
    rcases Classical.em (P lo) with hl | hl
    · exact ⟨lo, Nat.le_refl lo, h, hl, fun j _ _ => by omega⟩
    · obtain ⟨b, b1, b2, b3, b4⟩ := ih (lo := lo + 1) (by omega) (by omega)
      refine ⟨b, by omega, b2, b3, fun j j1 j2 => ?_⟩
      rcases Nat.lt_or_ge lo j with h | h
      · exact b4 j h j2
      · obtain rfl : j = lo := by omega
        exact hl

theorem column_zero {x : Bytes} {a : Nat} (ha : a ≤ x.length) (h : columnAt x a = 0) : a = 0 ∨ x[a - 1]? = some NL := by
  cases a with
  | zero => exact .inl rfl
  | succ a =>
    refine .inr ?_
    rw [Nat.add_sub_cancel]
    have hl : a < x.length := by omega
    rw [List.getElem?_eq_getElem hl]
    unfold columnAt at h
    rw [List.take_succ_eq_append_getElem hl, List.reverse_append] at h
    simp only [List.reverse_cons, List.reverse_nil, List.nil_append, List.cons_append, List.takeWhile_cons] at h
    by_cases hn : x[a] = NL
    · rw [hn]
    · exfalso
      rw [if_pos (by simpa using hn), List.reverse_cons] at h
      cases hr : ((x.take a).reverse.takeWhile (· != NL)).reverse with
      | nil => rw [hr] at h; rw [List.nil_append, chars_cons] at h; simp at h
      | cons b r => rw [hr, List.cons_append, chars_cons] at h; simp at h

/-- C83, what holds: if every line that has neither white space nor a comment at its start has a colon, then no key of the mapping in the first column goes over lines. -/
theorem C83_lines_partial {x : Bytes} {l : List (Bytes × Content)} (hx : startsItem true x = true) (h : TextMap x l)
    (hc : ∀ a b, WholeLine x a b → a < b → isWs (x.getD a 0) = false → x.getD a 0 ≠ HASH → COLON ∈ slice x a b) : ∀ e ∈ l, NL ∉ e.1 := by
  obtain ⟨hi, r, -⟩ := (map_rows hx).1 h
  clear h
  have first : ∀ k a, Head x true (some k) 0 a → NL ∉ k := by
    rintro k a ⟨q, -, h2⟩
    obtain ⟨k0, b, r, rfl, hb, hk0, -⟩ := starts_key hx
    obtain ⟨rfl, -⟩ := key_only hk0 hb h2
    exact (keyBlock_mem hk0).2.2.2.1
  have later : ∀ k lo a, columnAt x lo = 0 → isWs (x.getD lo 0) = false → x.getD lo 0 ≠ HASH → Head x false (some k) lo a → NL ∉ k := by
    rintro k lo a h0 h1 h2 ⟨q, -, h3, h4, h5, h6, h7⟩ hn
    have hq := (List.getElem?_eq_some_iff.1 h4).1
    subst h5
    obtain ⟨p, hp1, hp2⟩ := List.getElem_of_mem hn
    have hpl : p < q - lo := by rw [slice_length (by omega)] at hp1; exact hp1
    obtain ⟨b, b1, b2, b3, b4⟩   := least_from (P := fun j => x[j]? = some NL) (lo := lo) (q := lo + p) (by omega) (by
      simp only [slice, List.getElem_take, List.getElem_drop] at hp2
      rw [List.getElem?_eq_getElem (by omega), hp2])
    have hne : lo < b := by
      rcases Nat.lt_or_ge lo b with h | h
      · exact h
      · exfalso
        obtain rfl : b = lo := by omega
        rw [List.getD_eq_getElem?_getD, b3] at h1
        exact absurd h1 (by decide)
    have := hc lo b ⟨column_zero (by omega) h0, by omega, ?_, .inr b3⟩ hne h1 h2
    · exact h6 (by
        rw [← slice_append (b := b) (by omega) (by omega)]
        exact List.mem_append_left _ this)
    · intro hm
      obtain ⟨j, j1, j2⟩ := List.getElem_of_mem hm
      rw [slice_length (by omega)] at j1
      refine b4 (lo + j) (by omega) (by omega) ?_
      simp only [slice, List.getElem_take, List.getElem_drop] at j2
      rw [List.getElem?_eq_getElem (by omega), j2]
  have rest : ∀ (E : List (Bytes × Content)) lo, isWs (x.getD lo 0) = false → x.getD lo 0 ≠ HASH → Rows x contentView 0 false (E.map fun e => (some e.1, e.2)) lo hi → ∀ e ∈ E, NL ∉ e.1 := by
    intro E
    induction E with
    | nil => intro lo _ _ h e he; cases he
    | cons e E ih =>
      intro lo g1 g2 h e' he'
      rw [List.map_cons] at h
      generalize hE : E.map (fun e : Bytes × Content => (some e.1, e.2)) = E' at h
      cases h with
      | last h1 h2 h3 h4 h5 h6 =>
        rcases List.mem_cons.1 he' with rfl | he'
        · exact later _ _ _ h1 g1 g2 h2
        · rw [List.map_eq_nil_iff] at hE; subst hE; cases he'
      | more h1 h2 h3 h4 h5 h6 =>
        rcases List.mem_cons.1 he' with rfl | he'
        · exact later _ _ _ h1 g1 g2 h2
        · subst hE; exact ih _ h5.2.1 h5.2.2 h6 e' he'
  cases l with
  | nil => intro e he; cases he
  | cons e l =>
    intro e' he'
    rw [List.map_cons] at r
    generalize hE : l.map (fun e : Bytes × Content => (some e.1, e.2)) = E' at r
    cases r with
    | last h1 h2 h3 h4 h5 h6 =>
      rcases List.mem_cons.1 he' with rfl | he'
      · exact first _ _ h2
      · rw [List.map_eq_nil_iff] at hE; subst hE; cases he'
    | more h1 h2 h3 h4 h5 h6 =>
      rcases List.mem_cons.1 he' with rfl | he'
      · exact first _ _ h2
      · subst hE; exact rest l _ h5.2.1 h5.2.2 h6 e' he'

/-! Examples. -/

/-- Two lines without a key, after an entry whose value is a sequence. -/
example : TextMap (b! "a: [1]\nb\nc d\ne: 2\nf: 3\n") [(b! "a", .seq (.cons (.scalar (.number (b! "1"))) .nil)), (b! "b\nc d\ne", .scalar (.number (b! "2"))), (b! "f", .scalar (.number (b! "3")))] :=
  C83_joined (d := false) (x := b! "a: [1]\n") (w := b! "b\nc d\n") (y := b! "e: 2\nf: 3\n") (l := [(b! "a", .seq (.cons (.scalar (.number (b! "1"))) .nil))])
    ⟨by decide, by decide, textMap_says.2 (by decide +kernel)⟩ (by decide) (by decide) (textMap_says.2 (by decide +kernel))

/-- If the value before them is missing, the lines are not part of a key, but the value. -/
example : TextMap (b! "a:\nb\nc: 2\n") [(b! "a", .scalar (.string (b! "b"))), (b! "c", .scalar (.number (b! "2")))] := textMap_says.2 (by decide +kernel)

/-- The same as a check, for the example below. -/
def keyedLines (x : Bytes) : Bool := (List.range (x.length + 1)).all fun b => (List.range b).all fun a =>
  !((a == 0 || x[a - 1]? == some NL) && !(slice x a b).contains NL && (b == x.length || x[b]? == some NL) && !isWs (x.getD a 0) && x.getD a 0 != HASH) || (slice x a b).contains COLON

theorem keyedLines_all {x : Bytes} (h : keyedLines x = true) (a b : Nat) (hl : WholeLine x a b) (hab : a < b) (hw : isWs (x.getD a 0) = false) (hh : x.getD a 0 ≠ HASH) :
    COLON ∈ slice x a b := by
  obtain ⟨h1, h2, h3, h4⟩ := hl
  have hb : b < x.length + 1 := by
    rcases h4 with rfl | h4
    · omega
    · exact Nat.lt_succ_of_lt (List.getElem?_eq_some_iff.1 h4).1
  have := List.all_eq_true.1 (List.all_eq_true.1 h b (List.mem_range.2 hb)) a (List.mem_range.2 hab)
  simp only [Bool.or_eq_true, Bool.not_eq_true', List.contains_eq_mem, decide_eq_true_eq] at this
  refine this.resolve_left fun hf => ?_
  rw [← Bool.not_eq_true] at hf
  refine hf ?_
  simp only [Bool.and_eq_true, Bool.or_eq_true, beq_iff_eq, Bool.not_eq_true', bne_iff_ne, decide_eq_false_iff_not]
  exact ⟨⟨⟨⟨h1, h3⟩, h4⟩, hw⟩, hh⟩

/-- Every line in the first column has a colon, so the keys are on one line. -/
example : ∀ e ∈ [(b! "a", Content.scalar (.number (b! "1"))), (b! "b c", .map (.cons (b! "w") (.scalar (.number (b! "1"))) .nil)), (b! "d", .scalar (.number (b! "3")))], NL ∉ e.1 :=
  C83_lines_partial (x := b! "a: 1\n# -\nb c:\n  w: 1\n\nd: 3\n") (by decide) (textMap_says.2 (by decide +kernel)) (keyedLines_all (by decide +kernel))

/-! ### C84 -/

/-- C84 is false: `---` and what follows it is read as part of the mapping or sequence before it. -/
theorem C84_documents_false : (¬ ∀ (x y : Bytes) (l L : List (Bytes × Content)), startsItem true x = true → x.getLast? = some NL → TextMap x l → TextMap y L → ∀ doc, fromSlice (x ++ b! "---\n" ++ y) ≠ .ok doc) ∧
    ¬ ∀ (x y : Bytes) (l L : List Content), startsItem false x = true → x.getLast? = some NL → TextSeq x l → TextSeq y L → ∀ doc, fromSlice (x ++ b! "---\n" ++ y) ≠ .ok doc := by
  constructor
  · intro h
    have hd : TextMap (b! "a: 1\n---\nb: 2\n") [(b! "a", .scalar (.number (b! "1"))), (b! "---\nb", .scalar (.number (b! "2")))] := textMap_says.2 (by decide +kernel)
    obtain ⟨doc, _, h1, -⟩ := hd
    exact h (b! "a: 1\n") (b! "b: 2\n") [(b! "a", .scalar (.number (b! "1")))] [(b! "b", .scalar (.number (b! "2")))] (by decide) (by decide) (textMap_says.2 (by decide +kernel)) (textMap_says.2 (by decide +kernel)) doc h1
  · intro h
    have hd : TextSeq (b! "- 1\n---\n- 2\n") [.scalar (.number (b! "1")), .scalar (.string (b! "--")), .scalar (.number (b! "2"))] := textSeq_says.2 (by decide +kernel)
    obtain ⟨doc, _, h1, -⟩ := hd
    exact h (b! "- 1\n") (b! "- 2\n") [.scalar (.number (b! "1"))] [.scalar (.number (b! "2"))] (by decide) (by decide) (textSeq_says.2 (by decide +kernel)) (textSeq_says.2 (by decide +kernel)) doc h1

/-- C84, what happens instead: after a mapping `---` is part of the first key of the next. -/
theorem C84_mappings {x y k : Bytes} {v : Content} {l L : List (Bytes × Content)} (hx : StandsOver true x l) (hy : startsItem true y = true) (hL : TextMap y ((k, v) :: L)) :
    TextMap (x ++ (b! "---\n" ++ y)) (l ++ (b! "---\n" ++ k, v) :: L) := C83_joined hx (by decide) hy hL

theorem joint_marker {x y : Bytes} (hx : x.getLast? = some NL) : Joint x (probe false) (b! "---\n" ++ y) :=
  ⟨hx, by decide, ⟨by simp [isIndicator]; decide, by simp; decide, by simp⟩, by simp; decide, fun n hn => absurd (List.mem_of_getElem? hn) (by decide),
    fun k q hq => absurd (List.mem_of_getElem? hq.2.1) (by decide)⟩

/-- After a sequence `---` is an item, the string `--`, and the items after it are in the same sequence. -/
theorem C84_sequences {x y : Bytes} {l L : List Content} (hx : StandsSeq x l) (hy : startsItem false y = true) (hL : TextSeq y L) :
    TextSeq (x ++ (b! "---\n" ++ y)) (l ++ .scalar (.string (b! "--")) :: L) := by
  obtain ⟨hi, r1, g1⟩ := (seq_rows (starts_append hx.start _)).1 hx.reads
  obtain ⟨hi', r2, g2⟩ := (seq_rows hy).1 hL
  rw [seq_rows (starts_append hx.start _)]
  rw [List.map_append] at r1 ⊢
  have hxw : (x ++ b! "---\n").getLast? = some NL := by rw [List.getLast?_append]; rfl
  have r3 := (r2.shove (p := x ++ b! "---\n") (.inr hxw)).later (m := false) hy (by
    intro e he
    obtain ⟨e', -, rfl⟩ := List.mem_map.1 he
    rfl)
  have g3 : FullGap (x ++ b! "---\n" ++ y) ((x ++ b! "---\n").length + hi') (x ++ b! "---\n" ++ y).length := by rw [sh_len (x ++ b! "---\n")]; exact sh_full.2 g2
  rw [List.append_assoc] at g3 r3
  have hlen : (x ++ b! "---\n").length = x.length + 4 := by simp
  have hc : columnAt (x ++ (b! "---\n" ++ y)) x.length = 0 := by
    have := sh_col (p := x) (y := b! "---\n" ++ y) (n := 0) (.inr hx.last)
    rw [Nat.add_zero] at this
    rw [this]; rfl
  have hget : ∀ j, (x ++ (b! "---\n" ++ y))[x.length + j]? = (b! "---\n" ++ y)[j]? := sh_get x _
  have hgetD : ∀ j, (x ++ (b! "---\n" ++ y)).getD (x.length + j) 0 = (b! "---\n" ++ y).getD j 0 := fun j => sh_getD x _ j 0
  have r4 : Rows (x ++ (b! "---\n" ++ y)) contentView 0 false ((.scalar (.string (b! "--")) :: L).map fun v => (none, v)) x.length ((x ++ b! "---\n").length + hi') := by
    rw [List.map_cons]
    refine .more (a := x.length + 1) (b := x.length + 1) (e := x.length + 3) hc ⟨by have := hget 0; rw [Nat.add_zero] at this; rw [this]; rfl, (fun h => by cases h), rfl⟩
      ⟨Gap.refl (by simp), by rw [hgetD]; rfl, by rw [hgetD]; exact (by decide : DASH ≠ HASH)⟩ (.scalar rfl (by omega) (by simp) ?_) ?_ r3
    · have e1 : (x ++ (b! "---\n" ++ y)).drop (x.length + 3) = NL :: y := by rw [← List.drop_drop, List.drop_left]; rfl
      have e2 : slice (x ++ (b! "---\n" ++ y)) (x.length + 1) (x.length + 3) = b! "--" := by rw [sh_slice]; rfl
      rw [e1, e2]
      refine .plain (s := b! "--") (fun k hk => ?_) ?_
      · exfalso
        match k, hk with
        | 0, hk => exact absurd hk (by decide)
        | 1, hk => exact absurd hk (by decide)
        | k + 2, hk =>
          rw [List.take_of_length_le (by simp)] at hk
          exact absurd hk (by decide)
      · rfl
    · have := FullGap.ws (inp := x ++ (b! "---\n" ++ y)) (n := x.length + 3) (by simp)
      rw [wsEnd] at this
      have e1 : (x ++ (b! "---\n" ++ y)).drop (x.length + 3) = NL :: y := by rw [← List.drop_drop, List.drop_left]; rfl
      obtain ⟨b, r, rfl, hb⟩ := starts_dash hy
      rw [e1] at this
      rw [hlen]
      exact this
  have H := joint_marker (y := y) hx.last
  have hz : ∀ lo, Rows (x ++ probe false) contentView 0 false [probeItem false] lo hi → lo = x.length := fun lo h => probe_at hx.last h g1
  have hne : l.map (fun v : Content => ((none : Option Bytes), v)) ≠ [] := by
    intro he
    rw [he, List.nil_append] at r1
    have := Rows.later (p := []) (y := x ++ probe false) (starts_append hx.start _) (fun e he => by
      rw [List.map_cons, List.map_nil, List.mem_singleton] at he
      subst he
      rfl) r1
    have := hz _ this
    have := H.tail.pos
    simp at *
    omega
  exact ⟨_, (Rows.join H hz r4 hne r1).2, g3⟩

/-- A scalar keeps being one if more lines follow it. -/
theorem Token.lines {s t : Bytes} {a : AnyV} (hs : s ≠ []) (h : Token false [NL] s a) : Token false (NL :: t) s a := by
  cases h with
  | number h1 h2 => exact .number h1 rfl
  | plain h1 h2 =>
    refine .plain h1 ?_
    obtain ⟨b, s, rfl⟩ := List.exists_cons_of_ne_nil hs
    cases s <;> exact h2
  | quoted h1 h2 h3 => exact .quoted h1 (fun _ => (by decide : NL ≠ COLON)) (fun _ => (by decide : NL ≠ SQ))

/-- C84, what holds: after a scalar on lines of its own (not a block scalar) another document is refused, with an error that points at `---`. -/
theorem C84_scalar_partial {s y : Bytes} {a : AnyV} (hs : s ≠ []) (hw : isWs (s.headD 0) = false) (hh : s.headD 0 ≠ HASH) (hp : s.headD 0 ≠ PCT) (hm : ¬ b! "---" <+: s)
    (h : Token false [NL] s a) : fromSlice (s ++ b! "\n---\n" ++ y) = .error (.err (s.length + 1) (s.length + 5 + y.length) .expectedEof) := by
  rw [C57_refuses]
  have e0 : s ++ b! "\n---\n" ++ y = s ++ (NL :: (b! "---\n" ++ y)) := by rw [List.append_assoc]; rfl
  rw [e0]
  have hsk : skipBlank false (s ++ (NL :: (b! "---\n" ++ y))) = s ++ (NL :: (b! "---\n" ++ y)) := by
    obtain ⟨b, s, rfl⟩ := List.exists_cons_of_ne_nil hs
    have hw : isWs b = false := hw
    have hh : b ≠ HASH := hh
    rw [List.cons_append]
    simp [skipBlank, hw, hh]
  have hhd : hasHeader (s ++ (NL :: (b! "---\n" ++ y))) = false := by
    simp only [hasHeader, hsk, Bool.or_eq_false_iff]
    obtain ⟨b, s, rfl⟩ := List.exists_cons_of_ne_nil hs
    refine ⟨by simpa using hp, ?_⟩
    rw [Bool.eq_false_iff]
    intro ht
    rw [beq_iff_eq] at ht
    match s, ht with
    | [], ht => simp at ht; exact absurd ht.2 (by decide)
    | [c], ht => simp at ht; exact absurd ht.2.2 (by decide)
    | c :: d :: s, ht =>
      simp at ht
      obtain ⟨rfl, rfl, rfl⟩ := ht
      exact hm ⟨s, rfl⟩
  refine ⟨0, Nat.zero_le _, ?_, .inr ⟨.scalar a, s.length, .scalar rfl (Nat.zero_le _) (by simp) ?_, ?_, by simp, by simp; omega, rfl⟩⟩
  · rw [List.drop_zero, body_eq hhd, hsk]
  · rw [List.drop_left, show slice (s ++ (NL :: (b! "---\n" ++ y))) 0 s.length = s by simp [slice]]
    exact h.lines hs
  · have := FullGap.ws (inp := s ++ (NL :: (b! "---\n" ++ y))) (n := s.length) (by simp)
    rw [wsEnd, List.drop_left] at this
    exact this

/-! Examples. -/

example : TextMap (b! "a: x\nb: [1]\n---\nc: 2\nd: 3\n") [(b! "a", .scalar (.string (b! "x"))), (b! "b", .seq (.cons (.scalar (.number (b! "1"))) .nil)), (b! "---\nc", .scalar (.number (b! "2"))),
    (b! "d", .scalar (.number (b! "3")))] :=
  C84_mappings (x := b! "a: x\nb: [1]\n") (y := b! "c: 2\nd: 3\n") (l := [(b! "a", .scalar (.string (b! "x"))), (b! "b", .seq (.cons (.scalar (.number (b! "1"))) .nil))])
    ⟨by decide, by decide, textMap_says.2 (by decide +kernel)⟩ (by decide) (textMap_says.2 (by decide +kernel))

example : TextSeq (b! "- x\n- [1]\n---\n- 2\n") [.scalar (.string (b! "x")), .seq (.cons (.scalar (.number (b! "1"))) .nil), .scalar (.string (b! "--")), .scalar (.number (b! "2"))] :=
  C84_sequences (x := b! "- x\n- [1]\n") (y := b! "- 2\n") (l := [.scalar (.string (b! "x")), .seq (.cons (.scalar (.number (b! "1"))) .nil)])
    ⟨by decide, by decide, textSeq_says.2 (by decide +kernel)⟩ (by decide) (textSeq_says.2 (by decide +kernel))

example : fromSlice (b! "12\n---\na: b\n") = .error (.err 3 12 .expectedEof) :=
  C84_scalar_partial (s := b! "12") (y := b! "a: b\n") (by decide) (by decide) (by decide) (by decide) (by decide) (.number (by decide) (by decide))

example : fromSlice (b! "'it''s'\n---\n'\n") = .error (.err 8 14 .expectedEof) :=
  C84_scalar_partial (s := b! "'it''s'") (y := b! "'\n") (by decide) (by decide) (by decide) (by decide) (by decide)
    (.quoted (.single (b! "it's")) (by decide) (by decide))

end Verif
