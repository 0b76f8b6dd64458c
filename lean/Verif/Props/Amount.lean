import Verif.AmountLemmas
import Verif.After
import Verif.Props.Exact
import Verif.Props.Again
import Verif.Props.Ids
/-
How much a text can hold (C69), and how deep values can be in one another (C70).
-/
namespace Verif

/-- C69: a text of `n` bytes has at most `n + 1` values, and keys, numbers and strings of at most `2 n` bytes together. -/
theorem C69_amount {inp : Bytes} {doc : Document} {c : Content} (h : fromSlice inp = .ok doc) (hr : Reads doc.data doc.root c) :
    c.values ≤ inp.length + 1 ∧ c.bytes ≤ 2 * inp.length :=
  (C57_accepts.1 ⟨doc, h, hr⟩).amount

mutual
theorem content_values {α : Type} : ∀ t : Tree α, t.size + 1 = 2 * t.content.values
  | .leaf .. => rfl
  | .node _ _ true _ _ items => by
    have := entriesC_values items
    simp only [Tree.size, Tree.content, Content.values]
    omega
  | .node _ _ false _ _ items => by
    have := elemsC_values items
    simp only [Tree.size, Tree.content, Content.values]
    omega
theorem entriesC_values {α : Type} : ∀ is : Items α, is.size = 2 * is.entriesC.values
  | .nil => rfl
  | .cons _ _ _ v rest => by
    have := entriesC_values rest
    have := content_values v
    simp only [Items.size, Items.entriesC, Entries.values]
    omega
theorem elemsC_values {α : Type} : ∀ is : Items α, is.size = 2 * is.elemsC.values
  | .nil => rfl
  | .cons _ _ _ v rest => by
    have := elemsC_values rest
    have := content_values v
    simp only [Items.size, Items.elemsC, Elems.values]
    omega
end

/-- C69 for the arena: two entries for each value, the root excepted, are all there is in it. -/
theorem C69_arena {inp : Bytes} {doc : Document} {c : Content} (h : fromSlice inp = .ok doc) (hr : Reads doc.data doc.root c) :
    doc.data.slab.slots.length + 1 = 2 * c.values ∧ doc.data.slab.slots.length ≤ 2 * inp.length + 1 := by
  have hv := (C69_amount h hr).1
  have : doc.data.slab.slots.length + 1 = 2 * c.values := by
    unfold fromSlice at h
    generalize inp.length + 6 = f at h
    rw [parseF_refine] at h
    cases hp : pparseF f inp with
    | error e => rw [hp] at h; cases h
    | ok r =>
      obtain ⟨t, suffix⟩ := r
      rw [hp] at h
      cases h
      rw [Reads.unique hr (docOf_reads t suffix), ← content_values t]
      simp [docOf, arenaOf, Tree.entries_length, Tree.size_label]
  omega

/-- C69 for ids: those of a text of `n` bytes are at most `2 n`. -/
theorem C69_ids {inp : Bytes} {doc : Document} {x : Nat} (h : fromSlice inp = .ok doc) (hx : Live doc x) : x ≤ 2 * inp.length := by
  obtain ⟨c, -, hr⟩ := accepts_of h
  have hl := (C69_arena h hr).2
  obtain ⟨a, ha, -⟩ := (C08_parsed_wellFormed ⟨_, h⟩).kinds x hx
  rcases Nat.lt_or_ge x doc.data.slab.slots.length with hlt | hge
  · omega
  · simp [asAny, Data.raw, Data.entry, Slab.get, List.getElem?_eq_none hge, bind, Except.bind] at ha

theorem blank_ws {s : Bytes} (h : ∀ b ∈ s, isWs b = true) : blank s = true := by
  unfold blank
  induction s with
  | nil => rfl
  | cons b s ih =>
    have hb := h b (List.mem_cons_self ..)
    have hh : (b == HASH) = false := by
      rw [beq_eq_false_iff_ne]
      rintro rfl
      exact absurd hb (by decide)
    rw [blankGo, hh, hb]
    exact ih fun c hc => h c (List.mem_cons_of_mem _ hc)

/-- The text of a block scalar with `k + 1` empty lines, the last of which has a space. -/
def longText (k : Nat) : Bytes := b! "|\n a" ++ (List.replicate (k + 1) NL ++ [SP])

/-- C69: the factor 2 is needed. -/
theorem C69_factor (k : Nat) : ∃ doc c, fromSlice (longText k) = .ok doc ∧ Reads doc.data doc.root c ∧ (longText k).length = k + 6 ∧ c.bytes = 2 * k + 3 := by
  have hlen : (longText k).length = k + 6 := by simp [longText]
  have hs : slice (longText k) 4 (longText k).length = List.replicate (k + 1) NL ++ [SP] := by
    unfold slice
    rw [List.take_of_length_le (by simp)]
    rfl
  have hn : breaksIn (longText k) 4 (longText k).length = k + 1 := by
    unfold breaksIn
    rw [hs]
    simp
    decide
  have hg : FullGap (longText k) 4 (longText k).length := by
    refine ⟨⟨by omega, Nat.le_refl _, .inr ⟨rfl, ?_⟩⟩, by simp; decide, by simp; decide⟩
    rw [hs]
    exact blank_ws fun b hb => by
      simp only [List.mem_append, List.mem_replicate, List.mem_singleton] at hb
      rcases hb with ⟨-, rfl⟩ | rfl <;> decide
  have hb : BlockAt (longText k) 0 (b! "a" ++ List.replicate (k + 1) NL ++ List.replicate (k + 1) NL) 4 := by
    have hc : columnAt (longText k) (longText k).length = 1 := by
      unfold columnAt longText
      rw [List.take_length, List.reverse_append, List.reverse_append, List.reverse_replicate]
      rfl
    have hd : ∀ n i, i < 4 → (longText k).getD i n = (b! "|\n a").getD i n := by
      intro n i hi
      rw [List.getD_eq_getElem?_getD, List.getD_eq_getElem?_getD, longText, List.getElem?_append_left hi]
    have ht : ∀ a b, b ≤ 4 → slice (longText k) a b = slice (b! "|\n a") a b := fun a b hb => append_slice hb
    refine ⟨false, .clip, 1, breaksIn (longText k) 4 (longText k).length, _, by omega, by omega, rfl,
      (fun _ => by rw [hd _ _ (by decide)]; decide),
      .below (p := 3) ?_ ?_ (.final (e := 4) (t := b! "a") (by omega) ?_ ?_ hg ?_), ?_⟩
    · exact ⟨⟨by omega, by omega, .inl (by rw [ht _ _ (by decide)]; decide)⟩, by rw [hd _ _ (by decide)]; decide, by rw [hd _ _ (by decide)]; decide⟩
    · rw [breaksIn, ht _ _ (by decide)]; decide
    · refine ⟨by omega, by rw [ht _ _ (by decide)]; decide, .inr ?_⟩
      rw [longText, List.getElem?_append_right (by decide)]
      rfl
    · refine ⟨[], [], by simp, by rw [ht _ _ (by decide)]; decide, by decide⟩
    · rw [hc, columnAt, show (longText k).take 3 = (b! "|\n ") from rfl]; decide
    · rw [hn]; rfl
  obtain ⟨doc, h1, h2⟩ := accepted (c := .scalar (.string _)) ⟨0, 4, Nat.zero_le _, rfl, .lines rfl hb, hg⟩
  exact ⟨doc, _, h1, h2, hlen, by simp [Content.bytes, AnyV.size]; omega⟩

/-- `n + 1` sequences in one another. -/
def nest : Nat → Content
  | 0 => .seq .nil
  | n + 1 => .seq (.cons (nest n) .nil)

theorem nest_depth : ∀ n, (nest n).depth = n + 1
  | 0 => rfl
  | n + 1 => by simp [nest, Content.depth, Elems.depth, nest_depth n]

/-- `n` opening brackets and `n` closing ones. -/
def brackets (n : Nat) : Bytes := List.replicate n LBR ++ List.replicate n RBR

theorem brackets_open {n i : Nat} (h : i < n) : (brackets n)[i]? = some LBR := by
  unfold brackets
  rw [List.getElem?_append_left (by simpa using h), List.getElem?_replicate, if_pos h]

theorem brackets_close {n i : Nat} (h : i < n) : (brackets n)[n + i]? = some RBR := by
  unfold brackets
  rw [List.getElem?_append_right (by simp), List.length_replicate, Nat.add_sub_cancel_left, List.getElem?_replicate, if_pos h]

theorem full_at {inp : Bytes} {i : Nat} {b : UInt8} (h : inp[i]? = some b) (h1 : isWs b = false) (h2 : b ≠ HASH) : FullGap inp i i := by
  have hi := (List.getElem?_eq_some_iff.1 h).1
  have hb : inp.getD i 0 = b := by rw [List.getD_eq_getElem?_getD, h]; rfl
  exact ⟨Gap.refl (Nat.le_of_lt hi), by rw [hb]; exact h1, by rw [hb]; exact h2⟩

theorem brackets_sits (n : Nat) : ∀ k s, k < n → Sits (brackets n) contentView s (nest k) (n - (k + 1)) (n + (k + 1))
  | 0, s, h => by
    refine .brackets (l := []) (n := n) (hi := n) ⟨.nil, rfl, rfl⟩ (brackets_open (by omega)) ?_ (.none (brackets_close (i := 0) h))
    rw [show n - (0 + 1) + 1 = n by omega]
    exact full_at (brackets_close (i := 0) h) (by decide) (by decide)
  | k + 1, s, h => by
    have ih := brackets_sits n k .flow (by omega)
    have h1 := brackets_open (n := n) (i := n - (k + 1)) (by omega)
    have h2 := brackets_close (n := n) (i := k + 1) h
    have hb : (brackets n).getD (n - (k + 1)) 0 = LBR := by rw [List.getD_eq_getElem?_getD, h1]; rfl
    refine .brackets (l := [nest k]) (n := n - (k + 1)) (hi := n + (k + 1)) ⟨.cons (nest k) .nil, rfl, rfl⟩ (brackets_open (by omega)) ?_ ?_
    · rw [show n - (k + 1 + 1) + 1 = n - (k + 1) by omega]
      exact full_at h1 (by decide) (by decide)
    · refine .cell (k := none) (last := true) (start := n + (k + 1)) (n' := n + (k + 1)) ?_ rfl (full_at h1 (by decide) (by decide)) ih ?_ (.none h2)
      · rw [Opens, hb]
        exact ⟨by decide, by decide⟩
      · refine ⟨n + (k + 1), ?_, .inr ⟨rfl, ?_, rfl, full_at h2 (by decide) (by decide)⟩⟩
        · rw [atBlock, hb]; rfl
        · rw [h2]; decide

/-- `n + 1` pairs of brackets are read as `n + 1` sequences in one another. -/
theorem brackets_says (n : Nat) : ∃ doc, fromSlice (brackets (n + 1)) = .ok doc ∧ Reads doc.data doc.root (nest n) := by
  have h := brackets_sits (n + 1) n .block (by omega)
  rw [Nat.sub_self] at h
  have hl : (brackets (n + 1)).length = n + 1 + (n + 1) := by simp [brackets]
  refine accepted ⟨0, _, Nat.zero_le _, ?_, h, ?_⟩
  · rfl
  · rw [hl]
    exact ⟨Gap.refl (by omega), by rw [List.getD_eq_getElem?_getD, List.getElem?_eq_none (by omega)]; decide,
      by rw [List.getD_eq_getElem?_getD, List.getElem?_eq_none (by omega)]; decide⟩

/-- C70 is false: no depth is the greatest one. -/
theorem C70_depth_false : ¬ ∃ d, ∀ inp doc c, fromSlice inp = .ok doc → Reads doc.data doc.root c → c.depth ≤ d := by
  rintro ⟨d, h⟩
  obtain ⟨doc, h1, h2⟩ := brackets_says d
  have := h _ _ _ h1 h2
  rw [nest_depth] at this
  omega

mutual
theorem depth_le : ∀ c : Content, c.depth ≤ c.values
  | .scalar _ => Nat.zero_le _
  | .map es => by have := entries_depth es; simp only [Content.depth, Content.values]; omega
  | .seq es => by have := elems_depth es; simp only [Content.depth, Content.values]; omega
theorem entries_depth : ∀ es : Entries, es.depth ≤ es.values
  | .nil => Nat.le_refl _
  | .cons _ v rest => by have := depth_le v; have := entries_depth rest; simp only [Entries.depth, Entries.values]; omega
theorem elems_depth : ∀ es : Elems, es.depth ≤ es.values
  | .nil => Nat.le_refl _
  | .cons v rest => by have := depth_le v; have := elems_depth rest; simp only [Elems.depth, Elems.values]; omega
end

/-- C70, what holds: the depth is limited by the number of bytes. -/
theorem C70_depth_partial {inp : Bytes} {doc : Document} {c : Content} (h : fromSlice inp = .ok doc) (hr : Reads doc.data doc.root c) :
    c.depth ≤ inp.length + 1 := by
  have := (C69_amount h hr).1
  have := depth_le c
  omega

/-! ### Cases -/

/-- A text with seven values. -/
example : (says (b! "a: [1, x]\nb:\n  - c: 'd'\n")).map (fun c => (c.values, c.bytes, c.depth)) = some (7, 6, 3) := by decide +kernel

/-- Nothing has one value. -/
example : (says []).map (fun c => (c.values, c.bytes, c.depth)) = some (1, 0, 0) := by decide +kernel

example : (says (brackets 5)).map Content.depth = some 5 := by decide +kernel

example : (says (longText 7)).map Content.bytes = some 17 := by decide +kernel

end Verif
