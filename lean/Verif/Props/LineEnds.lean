import Verif.LineEnd
import Verif.Props.Between
/-
What is at the end of a line: comments (C71) and white space (C72).
-/
namespace Verif

/-- What is read from lines with a key and a text each: the whole text up to the end of the line, except that there may be white space after a number. -/
theorem C71_lines {l : List (Bytes × Bytes)} (hl : ∀ e ∈ l, keyBlock e.1 = true ∧ restOk e.2 = true) (hne : l ≠ []) (hp : (l.flatMap lineOf).headD 0 ≠ PCT) :
    ∃ doc, fromSlice (l.flatMap lineOf) = .ok doc ∧ Reads doc.data doc.root (.map (lineEntries l)) :=
  C57_accepts.2 (lines_accepts hl hne hp)

theorem entries_read {l : List (Bytes × Bytes)} (hl : ∀ e ∈ l, keyBlock e.1 = true ∧ restOk e.2 = true) (hne : l ≠ []) (hp : (l.headD default).1.headD 0 ≠ PCT) :
    ∃ doc, fromSlice (l.flatMap lineOf) = .ok doc ∧ Reads doc.data doc.root (.map (lineEntries l)) := by
  refine C71_lines hl hne ?_
  obtain ⟨⟨k, v⟩, l, rfl⟩ := List.exists_cons_of_ne_nil hne
  have hk := (keyBlock_mem (hl _ (List.mem_cons_self ..)).1).1
  obtain ⟨b, k, rfl⟩ := List.exists_cons_of_ne_nil hk
  exact hp

/-- A text with a byte that no number and no word for null, true or false has is read as a string. -/
theorem plainValue_byte {v : Bytes} {b : UInt8} (hb : b ∈ v) (h1 : numChar b = false) (h2 : b ≠ DASH) (h3 : b ∉ b! "~") (h4 : lower b ∉ b! "nulltrefas") :
    isNumber v = false ∧ plainValue v = .string v := by
  have hn : isNumber v = false := by
    cases h : isNumber v with
    | false => rfl
    | true => rcases isNumber_chars h b hb with h | h
              · rw [h1] at h; cases h
              · exact absurd h h2
  have hm : ∀ w : Bytes, (∀ c ∈ w, c ∈ b! "nulltrefas") → v.map lower ≠ w := by
    rintro w hw rfl
    exact h4 (hw _ (List.mem_map_of_mem hb))
  refine ⟨hn, ?_⟩
  rw [plainValue, hn, if_neg (by decide), if_neg, if_neg (hm _ (by decide)), if_neg (hm _ (by decide))]
  rintro (rfl | h)
  · exact h3 hb
  · exact hm _ (by decide) h

theorem blank_comment : ∀ {t : Bytes}, NL ∉ t → blankGo true t = true
  | [], _ => rfl
  | b :: t, h => by
    simp only [List.mem_cons, not_or] at h
    rw [blankGo, show (b != NL) = true by simpa using fun hb : b = NL => h.1 hb.symm]
    exact blank_comment h.2

theorem blank_spaces : ∀ {t : Bytes}, (∀ b ∈ t, isOtherWs b = true) → blankGo false t = true
  | [], _ => rfl
  | b :: t, h => by
    have hb := h b (List.mem_cons_self ..)
    rw [blankGo, if_neg (by
      simp only [beq_iff_eq]
      rintro rfl
      exact absurd hb (by decide)), isWs, hb]
    exact blank_spaces fun c hc => h c (List.mem_cons_of_mem _ hc)

/-! ### Comments -/

/-- C71 is false: the comment after a number is part of the value, which is a string. -/
theorem C71_comment_false : ¬ ∀ (p t q : Bytes) (c : Content), NL ∉ t → Accepts (p ++ NL :: q) c → Accepts (p ++ (b! " #" ++ t ++ NL :: q)) c := by
  intro h
  have h1 : says (b! "a: 1" ++ NL :: []) = some (.map (.cons (b! "a") (.scalar (.number (b! "1"))) .nil)) := by decide +kernel
  have h2 := h (b! "a: 1") (b! " one") [] _ (by decide) (says_iff.1 h1)
  have h3 : says (b! "a: 1" ++ (b! " #" ++ b! " one" ++ NL :: [])) = some (.map (.cons (b! "a") (.scalar (.string (b! "1 # one"))) .nil)) := by decide +kernel
  rw [says_iff.2 h2] at h3
  exact absurd h3 (by decide)

theorem lineValue_comment (u t : Bytes) : lineValue (u ++ (b! " #" ++ t)) = .string (u ++ (b! " #" ++ t)) := by
  have hh : HASH ∈ trimEnd (u ++ (b! " #" ++ t)) := by
    obtain ⟨w, e, hw⟩ := trimEnd_split (u ++ (b! " #" ++ t))
    have : HASH ∈ u ++ (b! " #" ++ t) := by simp [HASH]
    rw [e] at this
    rcases List.mem_append.1 this with h | h
    · exact h
    · exact absurd (hw _ h) (by decide)
  have h1 := (plainValue_byte hh (by decide) (by decide) (by decide) (by decide)).1
  have h2 := (plainValue_byte (v := u ++ (b! " #" ++ t)) (b := HASH) (by simp [HASH]) (by decide) (by decide) (by decide) (by decide)).2
  rw [lineValue, h1, if_neg (by decide), h2]

/-- C71, what happens instead: every text without quotes is read as a string with the comment in it. -/
theorem C71_comment_kept {l : List (Bytes × Bytes × Bytes)} (hl : ∀ e ∈ l, keyBlock e.1 = true ∧ restOk (e.2.1 ++ (b! " #" ++ e.2.2)) = true) (hne : l ≠ [])
    (hp : (l.headD default).1.headD 0 ≠ PCT) :
    ∃ doc es, fromSlice (l.flatMap fun e => e.1 ++ (b! ": " ++ (e.2.1 ++ (b! " #" ++ e.2.2) ++ [NL]))) = .ok doc ∧ Reads doc.data doc.root (.map es) ∧
      es.list = l.map fun e => (e.1, .scalar (.string (e.2.1 ++ (b! " #" ++ e.2.2)))) := by
  obtain ⟨doc, h1, h2⟩ := entries_read (l := l.map fun e => (e.1, e.2.1 ++ (b! " #" ++ e.2.2)))
    (fun e he => by
      obtain ⟨e, hm, rfl⟩ := List.mem_map.1 he
      exact hl e hm) (by simpa using hne)
    (by cases l with | nil => exact absurd rfl hne | cons e l => exact hp)
  refine ⟨doc, _, ?_, h2, ?_⟩
  · rw [← h1, List.flatMap_map]
    rfl
  · rw [lineEntries_list, List.map_map]
    refine List.map_congr_left fun e _ => ?_
    simp only [Function.comp, lineValue_comment]

/-- C71, what holds: a comment after a value in quotes or brackets, after a number in an inline collection, or after a key, is not part of anything.  Wherever it is not
in a scalar or a key it may be put there. -/
theorem C71_comment_partial {p t q : Bytes} {c : Content} (ht : NL ∉ t) (hh : hasHeader (p ++ NL :: q) = false) (hc : ClearText (p ++ NL :: q) p.length p.length c) :
    Accepts (p ++ (b! " #" ++ t ++ NL :: q)) c := by
  refine (C68_swap (line := false) (t := []) ⟨rfl, ?_, fun h => absurd h (by decide), fun _ => ⟨rfl, by simp, ?_, .inl rfl, .inr rfl⟩⟩ hh hc).1
  · rw [blank, show b! " #" ++ t = SP :: HASH :: t from rfl, blankGo, if_neg (by decide), blankGo, if_pos (by decide)]
    exact blank_comment ht
  · intro h
    rcases List.mem_append.1 h with h | h
    · exact absurd h (by decide)
    · exact ht h

/-! ### White space -/

/-- C72 is false: with line breaks of two bytes, CR and LF, the CR is part of the value. -/
theorem C72_crlf_false : ¬ ∀ (p q : Bytes) (c : Content), Accepts (p ++ NL :: q) c → Accepts (p ++ 13 :: NL :: q) c := by
  intro h
  have h1 : says (b! "a: true" ++ NL :: []) = some (.map (.cons (b! "a") (.scalar (.bool true)) .nil)) := by decide +kernel
  have h2 := h (b! "a: true") [] _ (says_iff.1 h1)
  have h3 : says (b! "a: true" ++ 13 :: NL :: []) = some (.map (.cons (b! "a") (.scalar (.string (b! "true\r"))) .nil)) := by decide +kernel
  rw [says_iff.2 h2] at h3
  exact absurd h3 (by decide)

/-- C72, what happens: after a number the white space is dropped, and else it is part of a string. -/
theorem lineValue_space {u w : Bytes} (hu : u ≠ []) (hl : isOtherWs (u.getLastD 0) = false) (hw : ∀ b ∈ w, isOtherWs b = true) (hne : w ≠ []) :
    lineValue (u ++ w) = if isNumber u then .number u else .string (u ++ w) := by
  have ht : trimEnd (u ++ w) = u := by
    have h1 : ∀ l : Bytes, (∀ b ∈ l, isOtherWs b = true) → ∀ r, (l ++ r).dropWhile isOtherWs = r.dropWhile isOtherWs := by
      intro l
      induction l with
      | nil => intros; rfl
      | cons b l ih =>
        intro h r
        rw [List.cons_append, List.dropWhile_cons, if_pos (h b (List.mem_cons_self ..))]
        exact ih (fun c hc => h c (List.mem_cons_of_mem _ hc)) r
    rw [trimEnd, List.reverse_append, h1 _ fun b hb => hw b (List.mem_reverse.1 hb)]
    cases hr : u.reverse with
    | nil => exact absurd (List.reverse_eq_nil_iff.1 hr) hu
    | cons b r =>
      have hb : u.getLastD 0 = b := by
        rw [List.getLastD_eq_getLast?, ← List.head?_reverse, hr]; rfl
      rw [List.dropWhile_cons, if_neg (by rw [← hb, hl]; decide), ← hr, List.reverse_reverse]
  rw [lineValue, ht]
  split
  · rfl
  · obtain ⟨b, w, rfl⟩ := List.exists_cons_of_ne_nil hne
    have hb := hw b (List.mem_cons_self ..)
    simp only [isOtherWs, Bool.or_eq_true, beq_iff_eq] at hb
    refine (plainValue_byte (b := b) (by simp) ?_ ?_ ?_ ?_).2 <;> rcases hb with ((rfl | rfl) | rfl) | rfl <;> decide

theorem C72_space_kept {l : List (Bytes × Bytes × Bytes)} (hl : ∀ e ∈ l, keyBlock e.1 = true ∧ restOk (e.2.1 ++ e.2.2) = true ∧ e.2.1 ≠ [] ∧
      isOtherWs (e.2.1.getLastD 0) = false ∧ e.2.2 ≠ [] ∧ ∀ b ∈ e.2.2, isOtherWs b = true) (hne : l ≠ [])
    (hp : (l.headD default).1.headD 0 ≠ PCT) :
    ∃ doc es, fromSlice (l.flatMap fun e => e.1 ++ (b! ": " ++ (e.2.1 ++ e.2.2 ++ [NL]))) = .ok doc ∧ Reads doc.data doc.root (.map es) ∧
      es.list = l.map fun e => (e.1, .scalar (if isNumber e.2.1 then .number e.2.1 else .string (e.2.1 ++ e.2.2))) := by
  obtain ⟨doc, h1, h2⟩ := entries_read (l := l.map fun e => (e.1, e.2.1 ++ e.2.2))
    (fun e he => by
      obtain ⟨e, hm, rfl⟩ := List.mem_map.1 he
      exact ⟨(hl e hm).1, (hl e hm).2.1⟩) (by simpa using hne)
    (by cases l with | nil => exact absurd rfl hne | cons e l => exact hp)
  refine ⟨doc, _, ?_, h2, ?_⟩
  · rw [← h1, List.flatMap_map]
    rfl
  · rw [lineEntries_list, List.map_map]
    refine List.map_congr_left fun e he => ?_
    obtain ⟨-, -, g1, g2, g3, g4⟩ := hl e he
    simp only [Function.comp, lineValue_space g1 g2 g4 g3]

/-- C72, what holds: wherever it is not in a scalar or a key, white space may be at the end of a line. -/
theorem C72_space_partial {p t q : Bytes} {c : Content} (ht : ∀ b ∈ t, isOtherWs b = true) (hh : hasHeader (p ++ NL :: q) = false)
    (hc : ClearText (p ++ NL :: q) p.length p.length c) : Accepts (p ++ (t ++ NL :: q)) c := by
  refine (C68_swap (line := false) (t := []) ⟨rfl, blank_spaces ht, fun h => absurd h (by decide), fun _ => ⟨rfl, by simp, ?_, .inl rfl, ?_⟩⟩ hh hc).1
  · intro h
    exact absurd (ht _ h) (by decide)
  · cases t with
    | nil => exact .inl rfl
    | cons b t => exact .inr (by rw [List.headD_cons, isWs, ht b (List.mem_cons_self ..)]; rfl)

/-! ### Cases -/

/-- Comments after a number, a word and text. -/
example : ∃ doc es, fromSlice (b! "a: 1 # c\nb: true # d\nkey: x y # 'e'\n") = .ok doc ∧ Reads doc.data doc.root (.map es) ∧
    es.list = [(b! "a", .scalar (.string (b! "1 # c"))), (b! "b", .scalar (.string (b! "true # d"))), (b! "key", .scalar (.string (b! "x y # 'e'")))] :=
  C71_comment_kept (l := [(b! "a", b! "1", b! " c"), (b! "b", b! "true", b! " d"), (b! "key", b! "x y", b! " 'e'")]) (by decide +kernel) (by decide) (by decide)

/-- Line breaks of two bytes after the same. -/
example : ∃ doc es, fromSlice (b! "a: 1\r\nb: true\r\nkey: x y\r\n") = .ok doc ∧ Reads doc.data doc.root (.map es) ∧
    es.list = [(b! "a", .scalar (.number (b! "1"))), (b! "b", .scalar (.string (b! "true\r"))), (b! "key", .scalar (.string (b! "x y\r")))] :=
  C72_space_kept (l := [(b! "a", b! "1", [13]), (b! "b", b! "true", [13]), (b! "key", b! "x y", [13])]) (by decide +kernel) (by decide) (by decide)

/-- A comment or white space after quotes and brackets. -/
example : says (b! "a: 'b' # c\nd: [1, x] \t\r\n") = says (b! "a: 'b'\nd: [1, x]\n") := by decide +kernel

/-- There is such a place: after the quotes in this text. -/
example : ∃ c, Accepts (b! "a: 'b'" ++ (b! " #" ++ b! " one" ++ NL :: b! "d: [1, x]\n")) c :=
  ⟨endSays, C71_comment_partial (by decide) (by decide +kernel)
    (C68_swap (p := b! "a: 'b'") (t := b! " # c") (t' := []) (q := NL :: b! "d: [1, x]\n") (line := false)
      ⟨by decide, rfl, fun h => absurd h (by decide), fun _ => ⟨rfl, by decide, by simp, .inr rfl, .inl rfl⟩⟩ (by decide +kernel) endText_clear).2.2⟩

end Verif
