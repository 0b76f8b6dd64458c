import Verif.Props.Join
/-
Keys and dashes with nothing after them (C74), and values that are not further to the right than their key (C75).
-/
namespace Verif

theorem getD_length (x : Bytes) : x.getD x.length 0 = 0 := by
  rw [List.getD_eq_getElem?_getD, List.getElem?_eq_none (Nat.le_refl _)]; rfl

theorem no_more (x : Bytes) (m : Bool) (c : Nat) : ¬ Goes x m c x.length := by
  rintro ⟨-, h⟩
  cases m with
  | true => exact h.2 (getD_length x)
  | false =>
    rw [if_neg (by decide), List.getElem?_eq_none (Nat.le_refl _)] at h
    cases h

theorem full_end (x : Bytes) : FullGap x x.length x.length :=
  ⟨Gap.refl (Nat.le_refl _), by rw [getD_length]; decide, by rw [getD_length]; decide⟩

/-- White space and comments up to the end of the text. -/
theorem full_blank {p g : Bytes} (hg : blank g = true) : FullGap (p ++ g) p.length (p ++ g).length :=
  ⟨⟨by rw [sh_len]; omega, Nat.le_refl _, .inr ⟨rfl, by
    have := sh_slice p g 0 g.length
    rw [Nat.add_zero, ← sh_len, slice_all] at this
    rw [this]
    exact hg⟩⟩, by rw [getD_length]; decide, by rw [getD_length]; decide⟩

/-- White space and comments up to the value of the text that follows. -/
theorem full_before {p g x : Bytes} (hg : blank g = true) (hl : g.getLast? = some NL) {lo : Nat} (hlo : lo ≤ x.length) (h : x.drop lo = skipBlank false x) :
    FullGap (p ++ g ++ x) p.length ((p ++ g).length + lo) := by
  have h1 : lo = (wsGo false x).1 := by
    rw [skipBlank_eq] at h
    have h' := congrArg List.length h
    rw [List.length_drop, List.length_drop] at h'
    have := (wsGo_spec false x).1
    omega
  have := FullGap.ws (inp := p ++ g ++ x) (n := p.length) (by simp)
  rw [wsEnd, List.append_assoc, List.drop_left, wsGo_before hg (.inr hl), ← h1] at this
  rw [List.append_assoc, List.length_append, Nat.add_assoc]
  exact this

/-- The missing value at the end of the text. -/
theorem sits_nothing (x : Bytes) {s : Spot} (hs : s.inline = false) : Sits x contentView s (.scalar (.string [])) x.length x.length := by
  refine .scalar rfl (Nat.le_refl _) (Nat.le_refl _) ?_
  rw [hs, List.drop_length, slice_self]
  exact .plain (by intro k hk; rw [List.take_nil] at hk; exact absurd hk (by decide)) (by decide)

theorem ws_blank {g : Bytes} (hb : g = [] ∨ isWs (g.headD 0) = true) : isWs (g.headD 0) = true ∨ g.headD 0 = 0 := by
  rcases hb with rfl | hb
  · exact .inr rfl
  · exact .inl hb

/-- A key of one line without quotes, with a colon after it. -/
theorem key_at {k g : Bytes} (hk : keyBlock k = true) (hg : g = [] ∨ isWs (g.headD 0) = true) : Head (k ++ [COLON] ++ g) true (some k) 0 (k ++ [COLON]).length := by
  obtain ⟨k1, k2, k3, k4, k5, k6⟩ := keyBlock_mem hk
  have hs : slice (k ++ [COLON] ++ g) 0 k.length = k := by simp [slice]
  have hc : (k ++ [COLON] ++ g)[k.length]? = some COLON := by rw [List.append_assoc, List.getElem?_append_right (Nat.le_refl _)]; simp
  refine ⟨k.length, by simp, Nat.zero_le _, hc, .inr ⟨hs, ?_, ?_, k4, ⟨hc, ?_⟩, ?_⟩⟩
  · cases k with
    | nil => exact absurd rfl k1
    | cons c k => exact k2
  · cases k with
    | nil => exact absurd rfl k1
    | cons c k =>
      have : (c == DASH) = false := by simpa using k3
      simp [dashes, this]
  · have : (k ++ [COLON] ++ g).getD (k.length + 1) 0 = g.headD 0 := by
      rw [List.getD_eq_getElem?_getD, List.getElem?_append_right (by simp)]
      cases g <;> simp
    rw [this]
    exact ws_blank hg
  · intro p _ hp h
    have := h.1
    rw [List.append_assoc, List.getElem?_append_left hp] at this
    exact k5 (List.mem_of_getElem? this)

theorem key_starts {k g : Bytes} (hk : keyBlock k = true) (hp : k.headD 0 ≠ PCT) : skipBlank false (body (k ++ [COLON] ++ g)) = k ++ [COLON] ++ g := by
  obtain ⟨k1, k2, k3, -⟩ := keyBlock_mem hk
  cases k with
  | nil => exact absurd rfl k1
  | cons b k =>
    have hsk : skipBlank false (b :: k ++ [COLON] ++ g) = b :: k ++ [COLON] ++ g := by
      have := stop_of (k := [b]) (r := k) (by simp) k2
      rw [List.cons_append, List.cons_append, skipBlank, if_neg (by simpa using this.2), if_neg (by rw [show isWs b = false from this.1]; decide)]
    rw [body_eq, hsk]
    rw [hasHeader, hsk]
    simp only [Bool.or_eq_false_iff, beq_eq_false_iff_ne]
    refine ⟨hp, fun h => k3 ?_⟩
    rw [List.cons_append, List.cons_append, List.take_succ_cons] at h
    exact (List.cons.inj h).1

/-! ### Missing values -/

/-- C74 is false: at the end of the text a missing value is the empty string. -/
theorem C74_missing_false : ¬ ∀ k : Bytes, keyBlock k = true → TextMap (k ++ b! ":\n") [(k, .scalar .null)] := by
  intro h
  have := h (b! "a") (by decide)
  rw [textMap_says] at this
  exact absurd this (by decide +kernel)

/-- C74 is false: after a dash the next item, or what else follows, is taken for the value. -/
theorem C74_item_false : ¬ ∀ (x : Bytes) (l : List Content), startsItem false x = true → TextSeq x l → TextSeq (b! "-\n" ++ x) (.scalar .null :: l) := by
  intro h
  have := h (b! "- a\n") [.scalar (.string (b! "a"))] (by decide) (textSeq_says.2 (by decide +kernel))
  rw [textSeq_says] at this
  exact absurd this (by decide +kernel)

theorem key_item {k g : Bytes} (hk : keyBlock k = true) (hp : k.headD 0 ≠ PCT) (hw : isWs (g.headD 0) = true) : startsItem true (k ++ [COLON] ++ g) = true := by
  obtain ⟨k1, k2, k3, k4, k5, k6⟩ := keyBlock_mem hk
  have ht : ∀ (k s : Bytes), COLON ∉ k → (k ++ [COLON] ++ s).takeWhile (· != COLON) = k ∧ (k ++ [COLON] ++ s).dropWhile (· != COLON) = COLON :: s := by
    intro k s
    induction k with
    | nil => intro _; exact ⟨rfl, rfl⟩
    | cons c k ih =>
      intro h
      simp only [List.mem_cons, not_or] at h
      have hc : (c != COLON) = true := by simpa using fun h' : c = COLON => h.1 h'.symm
      rw [List.cons_append, List.cons_append, List.takeWhile_cons, List.dropWhile_cons, if_pos hc, if_pos hc, (ih h.2).1, (ih h.2).2]
      exact ⟨rfl, rfl⟩
  obtain ⟨t1, t2⟩ := ht k g k5
  have hh : (k ++ [COLON] ++ g).headD 0 = k.headD 0 := by
    cases k with
    | nil => exact absurd rfl k1
    | cons c k => rfl
  unfold startsItem
  rw [if_pos rfl, t1, t2, hk, hh, List.tail_cons, hw]
  have : (k.headD 0 != PCT) = true := by simpa [bne_iff_ne] using hp
  rw [this]
  rfl

/-- C74, what holds: the value of a key is null if another key without quotes follows in the same column.  Here the keys are in the first column. -/
theorem key_stands {k g : Bytes} (hk : keyBlock k = true) (hp : k.headD 0 ≠ PCT) (hb : blank g = true) (hl : g.getLast? = some NL) (hw : isWs (g.headD 0) = true) :
    StandsMap (k ++ [COLON] ++ g) [(k, .scalar .null)] := by
  have hst := key_item (g := g) hk hp hw
  have hlast : (k ++ [COLON] ++ g).getLast? = some NL := by rw [List.getLast?_append, hl]; rfl
  refine ⟨hst, hlast, ?_⟩
  rw [map_rows (starts_append hst _)]
  have hz : TextMap (b! "z: 0\n") [(b! "z", .scalar (.number (b! "0")))] := textMap_says.2 (by decide +kernel)
  obtain ⟨hi, r1, g1⟩ := (map_rows (by decide +kernel)).1 hz
  have r2 := (r1.shove (p := k ++ [COLON] ++ g) (.inr hlast)).later (m := true) (by decide +kernel) (by simp)
  have g2 := full_before (p := k ++ [COLON]) (x := b! "z: 0\n") hb hl (Nat.zero_le _) (by decide)
  have hh : Head (k ++ [COLON] ++ g ++ b! "z: 0\n") true (some k) 0 (k ++ [COLON]).length := by
    have := key_at hk (g := g ++ b! "z: 0\n") (.inr (by
      cases g with
      | nil => cases hl
      | cons b g => exact hw))
    rwa [← List.append_assoc] at this
  have hf : FirstKey (k ++ [COLON] ++ g ++ b! "z: 0\n") (b! "z") ((k ++ [COLON] ++ g).length + 0) ((k ++ [COLON] ++ g).length + 1) :=
    sh_firstKey.2 (key_start (k := b! "z") (b := SP) (r := b! "0\n") (by decide) (by decide))
  refine ⟨_, .more rfl hh g2 (.empty rfl hf ?_) ?_ r2, ?_⟩
  · rw [sh_col (.inr hlast)]; exact Nat.le_refl _
  · have := FullGap.ws (inp := k ++ [COLON] ++ g ++ b! "z: 0\n") (n := (k ++ [COLON] ++ g).length) (by simp)
    rw [wsEnd, List.drop_left] at this
    exact this
  · rw [List.length_append (bs := b! "z: 0\n")]; exact sh_full.2 g1

theorem C74_keys_partial {ks : List (Bytes × Bytes)} (hk : ∀ e ∈ ks, keyBlock e.1 = true ∧ e.1.headD 0 ≠ PCT ∧ blank e.2 = true ∧ e.2.getLast? = some NL ∧ isWs (e.2.headD 0) = true)
    {y : Bytes} {L : List (Bytes × Content)} (hy : startsItem true y = true) (hL : TextMap y L) :
    TextMap (ks.flatMap (fun e => e.1 ++ [COLON] ++ e.2) ++ y) (ks.map (fun e => (e.1, .scalar .null)) ++ L) := by
  have := C73_mapping (ms := ks.map fun e => (e.1 ++ [COLON] ++ e.2, [(e.1, .scalar .null)])) (by
    intro e he
    obtain ⟨e', h, rfl⟩ := List.mem_map.1 he
    obtain ⟨h1, h2, h3, h4, h5⟩ := hk e' h
    exact key_stands h1 h2 h3 h4 h5) hy hL
  rw [List.flatMap_map, List.flatMap_map] at this
  rw [List.map_eq_flatMap]
  exact this

/-- `a:`, `b:   # later`, `c: 1`. -/
example : TextMap (b! "a:\nb: # later\n\nc: 1") [(b! "a", .scalar .null), (b! "b", .scalar .null), (b! "c", .scalar (.number (b! "1")))] :=
  C74_keys_partial (ks := [(b! "a", b! "\n"), (b! "b", b! " # later\n\n")]) (by decide +kernel) (y := b! "c: 1") (by decide) (textMap_says.2 (by decide +kernel))

/-- C74, what happens instead: a missing value at the end of the text is the empty string. -/
theorem C74_key_end {k g : Bytes} (hk : keyBlock k = true) (hp : k.headD 0 ≠ PCT) (hb : blank g = true) (hw : g = [] ∨ isWs (g.headD 0) = true) :
    TextMap (k ++ [COLON] ++ g) [(k, .scalar (.string []))] := by
  rw [textMap_iff]
  refine ⟨0, (k ++ [COLON] ++ g).length, Nat.zero_le _, by rw [key_starts hk hp, List.drop_zero], .keys ⟨_, rfl, rfl⟩ ⟨by decide, fun _ h => by cases h⟩ ?_, full_end _⟩
  exact .last rfl (key_at hk hw) (full_blank hb) (sits_nothing _ rfl) (full_end _) (no_more _ _ _)

/-- The same, with entries before it. -/
theorem C74_keys_end {y k g : Bytes} {l : List (Bytes × Content)} (hy : StandsMap y l) (hk : keyBlock k = true) (hp : k.headD 0 ≠ PCT) (hb : blank g = true) (hw : isWs (g.headD 0) = true) :
    TextMap (y ++ (k ++ [COLON] ++ g)) (l ++ [(k, .scalar (.string []))]) :=
  hy.before (key_item hk hp hw) (C74_key_end hk hp hb (.inr hw))

example : TextMap (b! "a:") [(b! "a", .scalar (.string []))] := C74_key_end (k := b! "a") (g := []) (by decide) (by decide) rfl (.inl rfl)

example : TextMap (b! "a:\nb: # at the end") [(b! "a", .scalar .null), (b! "b", .scalar (.string []))] :=
  C74_keys_end (y := b! "a:\n") (k := b! "b") (g := b! " # at the end") (key_stands (k := b! "a") (g := b! "\n") (by decide +kernel) (by decide) rfl rfl rfl) (by decide) (by decide) rfl rfl

theorem dash_starts {g : Bytes} (hw : isWs (g.headD 0) = true) : startsItem false (DASH :: g) = true := by
  simp only [startsItem, Bool.false_eq_true, if_false, List.headD_cons, List.tail_cons, hw, beq_self_eq_true, Bool.and_self]

theorem dash_head {g : Bytes} (hw : isWs (g.headD 0) = true) : Head ([DASH] ++ g) true none 0 [DASH].length := by
  refine ⟨rfl, fun _ => ?_, rfl⟩
  cases g with
  | nil => exact absurd hw (by decide)
  | cons b g => exact hw

theorem C74_item_end {g : Bytes} (hb : blank g = true) (hw : isWs (g.headD 0) = true) : TextSeq (DASH :: g) [.scalar (.string [])] := by
  rw [seq_rows (dash_starts hw)]
  exact ⟨_, .last rfl (dash_head hw) (full_blank (p := [DASH]) hb) (sits_nothing _ rfl) (full_end _) (no_more _ _ _), full_end _⟩

/-- After a dash any text is taken for the value, and so are the items that were meant to follow. -/
theorem C74_item_takes {g x : Bytes} {doc : Document} {c : Content} (hb : blank g = true) (hl : g.getLast? = some NL) (hw : isWs (g.headD 0) = true) (hh : hasHeader x = false)
    (h : fromSlice x = .ok doc) (hr : Reads doc.data doc.root c) : TextSeq (DASH :: g ++ x) [c] := by
  obtain ⟨lo, hi, h1, h2, h3, h4⟩ := C57_accepts.1 ⟨doc, h, hr⟩
  rw [body_eq hh] at h2
  have hws : isWs ((g ++ x).headD 0) = true := by
    cases g with
    | nil => exact absurd hw (by decide)
    | cons b g => exact hw
  rw [List.cons_append, seq_rows (dash_starts hws)]
  have hlast : ([DASH] ++ g).getLast? = some NL := by rw [List.getLast?_append, hl]; rfl
  have hs := h3.shove (p := [DASH] ++ g) (.inr hlast)
  have he : FullGap ([DASH] ++ g ++ x) (([DASH] ++ g).length + hi) ([DASH] ++ g ++ x).length := by rw [List.length_append (bs := x)]; exact sh_full.2 h4
  exact ⟨_, .last rfl (dash_head hws) (full_before (p := [DASH]) hb hl h1 h2) hs he (no_more _ _ _), he⟩

/-- The same, with items before it. -/
theorem C74_items_take {y g x : Bytes} {l : List Content} {doc : Document} {c : Content} (hy : StandsSeq y l) (hb : blank g = true) (hl : g.getLast? = some NL)
    (hw : isWs (g.headD 0) = true) (hh : hasHeader x = false) (h : fromSlice x = .ok doc) (hr : Reads doc.data doc.root c) :
    TextSeq (y ++ (DASH :: g ++ x)) (l ++ [c]) :=
  hy.before (starts_append (dash_starts hw) x) (C74_item_takes hb hl hw hh h hr)

example : TextSeq (b! "-\n# none\n") [.scalar (.string [])] := C74_item_end (g := b! "\n# none\n") rfl rfl

/-- `-`, `- a`, `- b` is a sequence in a sequence. -/
example : TextSeq (b! "-\n- a\n- b\n") [.seq (.cons (.scalar (.string (b! "a"))) (.cons (.scalar (.string (b! "b"))) .nil))] := by
  obtain ⟨doc, h, hr⟩ := C57_accepts.2 ((says_iff (x := b! "- a\n- b\n") (c := .seq (.cons (.scalar (.string (b! "a"))) (.cons (.scalar (.string (b! "b"))) .nil)))).1 (by decide +kernel))
  exact C74_item_takes (g := b! "\n") rfl rfl rfl (by decide) h hr

/-! ### Values to the left -/

/-- C75 is false: a text in the column of the key is its value. -/
theorem C75_left_false : ¬ ∀ (k x : Bytes) (c : Content), keyBlock k = true → blank x = false → isWs (x.headD 0) = false → startsItem true x = false → startsItem false x = false →
    ¬ TextMap (k ++ b! ":\n" ++ x) [(k, c)] := by
  intro h
  exact h (b! "a") (b! "b") (.scalar (.string (b! "b"))) (by decide) (by decide) (by decide) (by decide) (by decide) (textMap_says.2 (by decide +kernel))

/-- C75, what happens instead: any text that is not a block mapping is the value of a key that is put before it. -/
theorem C75_takes {k g x : Bytes} {doc : Document} {c : Content} (hk : keyBlock k = true) (hp : k.headD 0 ≠ PCT) (hb : blank g = true) (hl : g.getLast? = some NL)
    (hw : isWs (g.headD 0) = true) (hh : hasHeader x = false) (h : fromSlice x = .ok doc) (hr : Reads doc.data doc.root c)
    (hm : (∀ es, c ≠ .map es) ∨ (skipBlank false x).headD 0 = LCB) : TextMap (k ++ [COLON] ++ g ++ x) [(k, c)] := by
  obtain ⟨lo, hi, h1, h2, h3, h4⟩ := C57_accepts.1 ⟨doc, h, hr⟩
  rw [body_eq hh] at h2
  have hws : isWs ((g ++ x).headD 0) = true := by
    cases g with
    | nil => exact absurd hw (by decide)
    | cons b g => exact hw
  have hst : startsItem true (k ++ [COLON] ++ g ++ x) = true := starts_append (key_item hk hp hw) x
  rw [map_rows hst]
  have hlast : (k ++ [COLON] ++ g).getLast? = some NL := by rw [List.getLast?_append, hl]; rfl
  have h3' : Sits x contentView (.under 0) c lo hi := by
    cases h3 with
    | scalar g1 g2 g3 g4 => exact .scalar g1 g2 g3 g4
    | lines g1 g2 => exact .lines g1 g2
    | «open» g1 g2 g3 g4 => exact .open g1 g2 g3 g4
    | dashes g1 g2 g3 => exact .dashes g1 (by decide) g3
    | keys g1 g2 g3 =>
      exfalso
      rcases hm with hm | hm
      · obtain ⟨es, rfl, -⟩ := g1
        exact hm es rfl
      · obtain ⟨k', a, hk'⟩ := g3.start
        have hlo : x[lo]? = some LCB := by
          rw [← h2] at hm
          rw [← List.head?_drop]
          cases hd : x.drop lo with
          | nil => rw [hd] at hm; exact absurd hm (by decide)
          | cons b r => rw [hd, List.headD_cons] at hm; rw [hm]; rfl
        cases k' with
        | none =>
          have hd : x[lo]? = some DASH := hk'.1
          rw [hlo] at hd
          exact absurd hd (by decide)
        | some k' =>
          obtain ⟨q, rfl, hq⟩ := hk'
          obtain ⟨q1, q2, q3⟩ := hq
          have hg : x.getD lo 0 = LCB := by rw [List.getD_eq_getElem?_getD, hlo]; rfl
          rcases q3 with q3 | ⟨-, q3, -⟩
          · have hq : lo ≠ q := by rintro rfl; rw [hlo] at q2; exact absurd q2 (by decide)
            have := Swap.slice_head (x := x) (a := lo) (b := q) (by omega) (by have := lt_get q2; omega)
            rw [hg] at this
            generalize slice x lo q = s at q3 this
            cases q3 with
            | single s => simp only [quoteSingle, List.cons_append, List.headD_cons] at this; exact absurd this (by decide)
            | double _ _ => simp only [List.cons_append, List.headD_cons] at this; exact absurd this (by decide)
          · rw [hg] at q3
            exact absurd q3 (by decide)
    | brackets g1 g2 g3 g4 => exact .brackets g1 g2 g3 g4
    | braces g1 g2 g3 g4 => exact .braces g1 g2 g3 g4
  have hs := h3'.shove (p := k ++ [COLON] ++ g) (.inr hlast)
  have he : FullGap (k ++ [COLON] ++ g ++ x) ((k ++ [COLON] ++ g).length + hi) (k ++ [COLON] ++ g ++ x).length := by rw [List.length_append (bs := x)]; exact sh_full.2 h4
  have hhd : Head (k ++ [COLON] ++ g ++ x) true (some k) 0 (k ++ [COLON]).length := by
    have := key_at hk (g := g ++ x) (.inr hws)
    rwa [← List.append_assoc] at this
  exact ⟨_, .last rfl hhd (full_before hb hl h1 h2) hs he (no_more _ _ _), he⟩

/-- A block sequence may be in the column of its key; so may a scalar and an inline mapping. -/
example : TextMap (b! "a:\n{b: 1}") [(b! "a", .map (.cons (b! "b") (.scalar (.number (b! "1"))) .nil))] := by
  obtain ⟨doc, h, hr⟩ := C57_accepts.2 ((says_iff (x := b! "{b: 1}") (c := .map (.cons (b! "b") (.scalar (.number (b! "1"))) .nil))).1 (by decide +kernel))
  exact C75_takes (k := b! "a") (g := b! "\n") (by decide) (by decide) rfl rfl rfl (by decide) h hr (.inr rfl)

end Verif
