import Verif.NestDocs
/-
An item of a block collection anywhere in a text taken out: helper lemmas for C88.
-/
namespace Verif

section
variable {x y y' : Bytes} {n c0 : Nat} {m0 f : Bool}

/-- The last item before what is taken out. -/
theorem row_rest (U : Under x y y' n c0 f) (hm : (x ++ y')[n]? = some DASH → m0 = false) (hf : followed (x ++ y) = true) {m : Bool} {c : Nat} {first : Bool} {ip : Bytes} {key : RStr} {lo a e : Nat}
    {v : Tree Unit} (h1 : columnAt (x ++ y) lo = c) (h2 : Head (x ++ y) first (keyOf m key) lo a) (h3 : rowHead m key = slice (x ++ y) lo a) (h4 : Lies (x ++ y) (.item c (keyOf m key)) a v e)
    (he : e = x.length) (ht : v.tailOk c0 m0 f c) : (¬ Goes (x ++ y') m c n → LiesRows (x ++ y') m c first ip lo (.cons () ip key v .nil) x.length) ∧
      ∀ l E, LiesRows (x ++ y') m c false (slice (x ++ y') x.length n) n l E → LiesRows (x ++ y') m c first ip lo (.cons () ip key v l) E := by
  obtain ⟨k1, k4⟩ := h4.rest U hm hf he (Spot.item_ne _ _) ht (by
    intro c0 hc0
    unfold Spot.item at hc0
    split at hc0
    · exact (Spot.under.inj hc0).symm
    · cases hc0)
  have h8 := h2.lt
  have hw : isWs (y'.headD 0) = true := by rw [U.head']; decide
  refine ⟨fun hg => ?_, fun l E hl => ?_⟩
  · exact .last (by rw [Joint.column (by omega)]; exact h1) (Inner.head' h2 k1 hw) (by rw [h3]; exact (Joint.slice (by omega)).symm) k4 U.gap hg
  · exact .more (by rw [Joint.column (by omega)]; exact h1) (Inner.head' h2 k1 hw) (by rw [h3]; exact (Joint.slice (by omega)).symm) k4 U.gap hl

/-- An item before it. -/
theorem row_keep (U : Under x y y' n c0 f) (hf : followed (x ++ y) = true) {m : Bool} {c : Nat} {first : Bool} {ip : Bytes} {key : RStr} {lo a e lo' : Nat} {v : Tree Unit}
    (h1 : columnAt (x ++ y) lo = c) (h2 : Head (x ++ y) first (keyOf m key) lo a) (h3 : rowHead m key = slice (x ++ y) lo a) (h4 : Lies (x ++ y) (.item c (keyOf m key)) a v e)
    (h5 : FullGap (x ++ y) e lo') (hlt : lo' < x.length) {l : Items Unit} {E : Nat} (hl : LiesRows (x ++ y') m c false (slice (x ++ y) e lo') lo' l E) :
    LiesRows (x ++ y') m c first ip lo (.cons () ip key v l) E := by
  have h7 := h4.le
  have h8 := h2.lt
  have h9 := h5.le
  have hs := h4.inner U.keys hf h5 hlt (.item h2)
  rw [← Joint.slice (t' := y') (by omega)] at hl
  exact .more (by rw [Joint.column (by omega)]; exact h1) (Inner.head h2 (by omega)) (by rw [h3]; exact (Joint.slice (by omega)).symm) hs (Inner.full h5 (by omega)) hl
end

/-- What is written for the items of a block collection. -/
def Items.rowTexts {α : Type} (m : Bool) : Items α → List Bytes
  | .nil => []
  | .cons _ p key v rest => (itemSpace m p ++ (rowHead m key ++ v.text)) :: rest.rowTexts m

theorem Items.erase_rowTexts {α : Type} {m : Bool} : ∀ items : Items α, items.erase.rowTexts m = items.rowTexts m
  | .nil => rfl
  | .cons _ p key v rest => by simp only [Items.erase, Items.rowTexts, Items.erase_rowTexts rest, Tree.erase_text]

theorem Items.rowTexts_texts {m : Bool} : ∀ items : Items Nat, items.rowTexts m = items.texts m .block
  | .nil => rfl
  | .cons _ p key v rest => by
    rw [Items.rowTexts, Items.texts, Items.rowTexts_texts rest]
    cases m <;> simp [itemSpace, rowHead, itemText, Tree.text]

/-- The items before the one with number `n + 1`, this one, and the ones after it. -/
theorem LiesRows.cut {inp : Bytes} {R : Bytes → Bytes → Prop} (A : Allows inp R) (hfo : followed inp = true) {m : Bool} {c : Nat} : ∀ (n : Nat) {first : Bool} {ip : Bytes} {lo : Nat} {items : Items Unit} {hi : Nat},
    LiesRows inp m c first ip lo items hi → n + 1 < items.pairs.length →
    ∃ e e' o1 o2 o3 key v ini, lo < e ∧ e < e' ∧ e' ≤ hi ∧ hi ≤ inp.length ∧ items.pairs[n]? = some (key, v) ∧ (items.rowTexts m)[n + 1]? = some o2 ∧ LiesTo inp v e ∧
      (∃ kv, items.pairs[n + 1]? = some kv ∧ LiesTo inp kv.2 e') ∧
      items.render m .block = itemSpace m ip ++ (o1 ++ (o2 ++ o3)) ∧ (items.eraseIdx (n + 1)).render m .block = itemSpace m ip ++ (o1 ++ o3) ∧
      R (slice inp lo e) o1 ∧ R (slice inp e e') o2 ∧ R (slice inp e' hi) o3 ∧
      (e' = hi ∧ items.eraseIdx (n + 1) = ini ∨ ∃ q rest, FullGap inp e' q ∧ LiesRows inp m c false (slice inp e' q) q rest hi ∧ items.eraseIdx (n + 1) = ini.append rest) ∧
      ∀ y' q c0 m0 f, Under (inp.take e) (inp.drop e) y' q c0 f → ((inp.take e ++ y')[q]? = some DASH → m0 = false) → v.tailOk c0 m0 f c →
        (¬ Goes (inp.take e ++ y') m c q → LiesRows (inp.take e ++ y') m c first ip lo ini e) ∧
          ∀ l E, LiesRows (inp.take e ++ y') m c false (slice (inp.take e ++ y') e q) q l E → LiesRows (inp.take e ++ y') m c first ip lo (ini.append l) E
  | _, _, _, _, _, _, .last _ _ _ _ _ _, hn => by simp [Items.pairs] at hn
  | 0, first, ip, lo, _, hi, .more (key := key) (e := e) (lo' := lo') (v := v) h1 h2 h3 h4 h5 h6, hn => by
    obtain ⟨k1, k2, k3⟩ := h4.keeps A
    have hlt := h2.lt
    have h5' := h5.le
    have hlen : (inp.take e).length = e := by rw [List.length_take]; omega
    have hfin : ∀ y' q c0 m0 f, Under (inp.take e) (inp.drop e) y' q c0 f → ((inp.take e ++ y')[q]? = some DASH → m0 = false) → v.tailOk c0 m0 f c →
        (¬ Goes (inp.take e ++ y') m c q → LiesRows (inp.take e ++ y') m c first ip lo (.cons () ip key v .nil) e) ∧
          ∀ l E, LiesRows (inp.take e ++ y') m c false (slice (inp.take e ++ y') e q) q l E → LiesRows (inp.take e ++ y') m c first ip lo ((Items.cons () ip key v .nil).append l) E := by
      intro y' q c0 m0 f U hm ht
      have := row_rest U hm (by rw [List.take_append_drop]; exact hfo) (ip := ip) (m := m) (c := c) (first := first) (key := key) (lo := lo) (a := _) (e := e) (v := v)
        (by rw [List.take_append_drop]; exact h1) (by rw [List.take_append_drop]; exact h2) (by rw [List.take_append_drop]; exact h3) (by rw [List.take_append_drop]; exact h4) hlen.symm ht
      rw [hlen] at this
      exact this
    cases h6 with
    | last g1 g2 g3 g4 g5 g6 =>
      rename_i key' a' q' v'
      obtain ⟨j1, j2, j3⟩ := g4.keeps A
      have hlt' := g2.lt
      refine ⟨e, hi, rowHead m key ++ v.text, itemSpace m (slice inp e lo') ++ (rowHead m key' ++ v'.text), [], key, v, .cons () ip key v .nil, by omega, by omega, Nat.le_refl _, j2, rfl, rfl,
        ⟨_, _, Spot.item_ne _ _, h4⟩, ⟨(key', v'), rfl, _, _, Spot.item_ne _ _, g4⟩, ?_, ?_, ?_, ?_, ?_, .inl ⟨rfl, rfl⟩, hfin⟩
      · rw [render_cons, headText_block, render_cons, headText_block]; simp [Items.render, sepOf]
      · simp only [Items.eraseIdx]
        rw [render_cons, headText_block]; simp [Items.render, sepOf]
      · rw [h3, ← slice_append (by omega) k1]
        exact A.append (A.refl _) k3
      · rw [g3, ← slice_append (c := hi) h5.le.1 (by omega), ← slice_append (c := hi) (Nat.le_of_lt g2.lt) j1]
        exact A.append (A.gapItem h5) (A.append (A.refl _) j3)
      · rw [slice_none (Nat.le_refl _)]; exact A.refl _
    | more g1 g2 g3 g4 g5 g6 =>
      rename_i key' a' e' lo2 v' items'
      obtain ⟨j1, j2, j3⟩ := g4.keeps A
      obtain ⟨l1, l2, o, l3, l4⟩ := g6.keeps A
      have hlt' := g2.lt
      have hle := g5.le
      refine ⟨e, e', rowHead m key ++ v.text, itemSpace m (slice inp e lo') ++ (rowHead m key' ++ v'.text), itemSpace m (slice inp e' lo2) ++ o, key, v, .cons () ip key v .nil, by omega, by omega, by omega, l2, rfl, rfl,
        ⟨_, _, Spot.item_ne _ _, h4⟩, ⟨(key', v'), rfl, _, _, Spot.item_ne _ _, g4⟩, ?_, ?_, ?_, ?_, ?_, .inr ⟨lo2, items', g5, g6, rfl⟩, hfin⟩
      · rw [render_cons, headText_block, render_cons, headText_block, l3]; simp [sepOf]
      · simp only [Items.eraseIdx]
        rw [render_cons, headText_block, l3]; simp [sepOf]
      · rw [h3, ← slice_append (by omega) k1]
        exact A.append (A.refl _) k3
      · rw [g3, ← slice_append (c := e') h5.le.1 (by omega), ← slice_append (c := e') (Nat.le_of_lt g2.lt) j1]
        exact A.append (A.gapItem h5) (A.append (A.refl _) j3)
      · rw [← slice_append (c := hi) hle.1 l1]
        exact A.append (A.gapItem g5) l4
  | n + 1, first, ip, lo, _, hi, .more (key := key) (e := e0) (lo' := lo') (v := v) (items := items) h1 h2 h3 h4 h5 h6, hn => by
    simp only [Items.pairs, List.length_cons] at hn
    obtain ⟨e, e', o1, o2, o3, key', v', ini, k1, k2, k3, k4, k5, kt, kv, kv', k6, k7, k8, k9, k10, k11, k12⟩ := LiesRows.cut A hfo n h6 (by omega)
    obtain ⟨j1, j2, j3⟩ := h4.keeps A
    have hlt := h2.lt
    have h5' := h5.le
    have hlen : (inp.take e).length = e := by rw [List.length_take]; omega
    refine ⟨e, e', rowHead m key ++ (v.text ++ (itemSpace m (slice inp e0 lo') ++ o1)), o2, o3, key', v', .cons () ip key v ini, by omega, k2, k3, k4, ?_, (by simpa [Items.rowTexts] using kt), kv,
      by simpa [Items.pairs] using kv', ?_, ?_, ?_, k9, k10, ?_, ?_⟩
    · simpa [Items.pairs] using k5
    · rw [render_cons, headText_block, k6]; simp [sepOf]
    · rw [Items.eraseIdx, render_cons, headText_block, k7]; simp [sepOf]
    · rw [h3, ← slice_append (a := lo) (c := e) (Nat.le_of_lt h2.lt) (by omega), ← slice_append (c := e) j1 (by omega), ← slice_append (c := e) h5.le.1 (Nat.le_of_lt k1)]
      exact A.append (A.refl _) (A.append j3 (A.append (A.gapItem h5) k8))
    · rcases k11 with ⟨k11, k13⟩ | ⟨q, rest, k11, k13, k14⟩
      · exact .inl ⟨k11, by rw [Items.eraseIdx, k13]⟩
      · exact .inr ⟨q, rest, k11, k13, by rw [Items.eraseIdx, k14]; rfl⟩
    · intro y' q c0 m0 f U hm ht
      obtain ⟨g3, g4⟩ := k12 y' q c0 m0 f U hm ht
      have hkeep : ∀ {l E}, LiesRows (inp.take e ++ y') m c false (slice inp e0 lo') lo' l E → LiesRows (inp.take e ++ y') m c first ip lo (.cons () ip key v l) E := fun hl =>
        row_keep U (by rw [List.take_append_drop]; exact hfo) (m := m) (c := c) (first := first) (key := key) (lo := lo) (e := e0) (lo' := lo') (v := v) (by rw [List.take_append_drop]; exact h1)
          (by rw [List.take_append_drop]; exact h2) (by rw [List.take_append_drop]; exact h3) (by rw [List.take_append_drop]; exact h4) (by rw [List.take_append_drop]; exact h5) (by omega)
          (by rw [List.take_append_drop]; exact hl)
      exact ⟨fun hg => hkeep (g3 hg), fun l E hl => hkeep (g4 l E hl)⟩

theorem Under.cut {inp : Bytes} {e e' q : Nat} {f : Bool} (he : e < e') (he' : e' ≤ inp.length) (hq : FullGap inp e' q) (hnl : inp[e']? = some NL) (hkeys : KeysEnd inp e)
    (hf : f = true → ∃ k r, FirstKey inp k q r) : ∃ j, q = e' + j ∧ NL ∈ (inp.drop e').take j ∧ Under (inp.take e) (inp.drop e) (inp.drop e') (e + j) (columnAt inp q) f := by
  have hl : (inp.take e).length = e := by rw [List.length_take]; omega
  have hl' : (inp.take e').length = e' := by rw [List.length_take]; omega
  have hle := hq.le
  obtain ⟨j, rfl⟩ : ∃ j, q = e' + j := ⟨q - e', by omega⟩
  have hh : (inp.drop e').head? = some NL := by rw [List.head?_drop]; exact hnl
  have hj : 0 < j := by
    rcases Nat.eq_zero_or_pos j with rfl | h
    · have := hq.2.1
      rw [Nat.add_zero, List.getD_eq_getElem?_getD, hnl] at this
      exact absurd this (by decide)
    · exact h
  have hn : NL ∈ (inp.drop e').take j := by
    cases hd : inp.drop e' with
    | nil => rw [hd] at hh; cases hh
    | cons b r =>
      rw [hd] at hh
      obtain rfl := Option.some.inj hh
      obtain ⟨j, rfl⟩ : ∃ i, j = i + 1 := ⟨j - 1, by omega⟩
      exact List.mem_cons_self ..
  refine ⟨j, rfl, hn, ⟨fun h => ?_, hh, ?_, ?_, hkeys.stay (by omega) (by rw [List.headD_eq_head?_getD, hh]; decide), fun h => ?_⟩⟩
  · have := congrArg List.length h
    rw [List.length_drop] at this
    simp at this
    omega
  · have := mv_full (u := inp.take e') (u' := inp.take e) (y := inp.drop e') (a := 0) (b := j) (by rw [List.take_append_drop, hl']; exact hq)
    rw [Nat.add_zero, hl] at this
    rw [hl]; exact this
  · have := mv_col (u := inp.take e') (u' := inp.take e) hn
    rw [List.take_append_drop, hl, hl'] at this
    exact this
  · obtain ⟨k, r, hk⟩ := hf h
    have := hk.1
    obtain ⟨i, rfl⟩ : ∃ i, r = e' + i := ⟨r - e', by omega⟩
    refine ⟨k, e + i, ?_⟩
    have hk' : FirstKey (inp.take e' ++ inp.drop e') k ((inp.take e').length + j) ((inp.take e').length + i) := by rw [List.take_append_drop, hl']; exact hk
    have := (sh_firstKey (p := inp.take e)).2 (sh_firstKey.1 hk')
    rw [hl] at this
    exact this

/-- Without the item with number `n + 1`, the block collection is in the text. -/
theorem cut_lies {inp : Bytes} {R : Bytes → Bytes → Prop} (A : Allows inp R) (hfo : followed inp = true) {s : Spot} {b0 b d : Nat} {pre : Bytes} {m : Bool} {ind : Nat} {items : Items Unit}
    (hL : Lies inp s b0 (.node () pre m ind .block items) d) (hb : FullGap inp b0 b) {n : Nat} (hn : n + 1 < items.pairs.length) :
    ∃ e e' o1 o2 o3 key v, b < e ∧ e < e' ∧ e' ≤ d ∧ d ≤ inp.length ∧ items.pairs[n]? = some (key, v) ∧ (items.rowTexts m)[n + 1]? = some o2 ∧ LiesTo inp v e ∧
      (∃ kv, items.pairs[n + 1]? = some kv ∧ LiesTo inp kv.2 e') ∧ s ≠ .flow ∧ ind = columnAt inp b ∧
      items.render m .block = o1 ++ (o2 ++ o3) ∧ (items.eraseIdx (n + 1)).render m .block = o1 ++ o3 ∧ R (slice inp b e) o1 ∧ R (slice inp e e') o2 ∧ R (slice inp e' d) o3 ∧
      ∀ q m0 f, FullGap inp e' q → inp[e']? = some NL → KeysEnd inp e → (inp[q]? = some DASH → m0 = false) → v.tailOk (columnAt inp q) m0 f ind → (f = true → ∃ k r, FirstKey inp k q r) →
        Lies (inp.take e ++ inp.drop e') s b0 (.node () pre m ind .block (items.eraseIdx (n + 1))) (e + (d - e')) := by
  obtain ⟨hs, hind, hrows⟩ : s ≠ .flow ∧ ind = columnAt inp b ∧ LiesRows inp m ind true [] b items d := by
    cases hL with
    | dashes h1 h2 h3 => obtain rfl := h1.unique hb; exact ⟨h2, rfl, h3⟩
    | keys h1 h2 h3 => obtain rfl := h1.unique hb; exact ⟨h2.1, rfl, h3⟩
  obtain ⟨e, e', o1, o2, o3, key, v, ini, k1, k2, k3, k4, k5, kt, kv, kv', k6, k7, k8, k9, k10, k11, k12⟩ := hrows.cut A hfo n hn
  have hi0 : itemSpace m [] = [] := by cases m <;> rfl
  rw [hi0, List.nil_append] at k6 k7
  refine ⟨e, e', o1, o2, o3, key, v, k1, k2, k3, k4, k5, kt, kv, kv', hs, hind, k6, k7, k8, k9, k10, ?_⟩
  intro q m0 f hq hnl hkeys hm0 ht hf
  obtain ⟨j, rfl, hj, U⟩ := Under.cut k2 (by omega) hq hnl hkeys hf
  have hl : (inp.take e).length = e := by rw [List.length_take]; omega
  have hl' : (inp.take e').length = e' := by rw [List.length_take]; omega
  have hget : (inp.take e ++ inp.drop e')[e + j]? = inp[e' + j]? := by
    have := sh_get (inp.take e) (inp.drop e') j
    rw [hl] at this
    rw [this, List.getElem?_drop]
  obtain ⟨g3, g4⟩ := k12 _ _ _ m0 f U (by rw [hget]; exact hm0) ht
  have hcol : columnAt (inp.take e ++ inp.drop e') b = ind := by
    rw [hind]
    have := Joint.column (x := inp.take e) (t := inp.drop e) (t' := inp.drop e') (n := b) (by omega)
    rw [List.take_append_drop] at this
    exact this
  have hg : FullGap (inp.take e ++ inp.drop e') b0 b := Inner.full (y := inp.drop e) (by rw [List.take_append_drop]; exact hb) (by omega)
  have hsl : slice (inp.take e ++ inp.drop e') b0 b = slice inp b0 b := by
    have := Joint.slice (x := inp.take e) (t := inp.drop e) (t' := inp.drop e') (a := b0) (b := b) (by omega)
    rw [List.take_append_drop] at this
    exact this
  refine .rows hg ((hL.pre hb (by omega)).trans hsl.symm) hcol hs ?_ ?_
  · rintro rfl
    cases hL with
    | keys h1 h2 h3 => exact h2
  rcases k11 with ⟨rfl, k11⟩ | ⟨q', rest, k11, k13, k14⟩
  · rw [k11, Nat.sub_self, Nat.add_zero]
    refine g3 ?_
    obtain ⟨q2, s1, s2⟩ := hrows.stops
    obtain rfl := s1.unique hq
    have := mv_goes (u := inp.take e') (u' := inp.take e) (m := m) (c := ind) hj
    rw [List.take_append_drop, hl, hl'] at this
    rw [this]; exact s2
  · obtain rfl := k11.unique hq
    rw [k14]
    refine g4 _ _ ?_
    have s4 := k13.le
    have s5 := LiesRows.moved (u := inp.take e') (u' := inp.take e) (y := inp.drop e') (lo := j) (hi := d - e') (by rw [List.take_append_drop]; exact hfo)
      (by rw [List.take_append_drop]; exact k13) (by rw [hl']) (by rw [hl']; omega) (.line hj)
    rw [hl] at s5
    have s6 := mv_slice (u := inp.take e') (u' := inp.take e) (y := inp.drop e') (a := 0) (b := j)
    rw [List.take_append_drop, hl, hl', Nat.add_zero, Nat.add_zero] at s6
    rw [s6]; exact s5

end Verif
