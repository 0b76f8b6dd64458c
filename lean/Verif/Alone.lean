import Verif.NestDocs
import Verif.Lossy
/-
The text of a value without what is around it: helper lemmas for C91.
-/
namespace Verif

theorem lineOf_append {u w : Bytes} (h : NL ∉ w) : ((u ++ w).reverse.takeWhile (· != NL)).reverse = (u.reverse.takeWhile (· != NL)).reverse ++ w := by
  rw [List.reverse_append, List.takeWhile_append_of_pos (by
    intro b hb
    rw [List.mem_reverse] at hb
    exact bne_iff_ne.2 fun e => h (e ▸ hb)), List.reverse_append, List.reverse_reverse]

theorem columnAt_append {u y : Bytes} (hc : ∀ c r, y = c :: r → isCont c = false) {n : Nat} (h : NL ∉ y.take n) : columnAt (u ++ y) (u.length + n) = columnAt (u ++ y) u.length + (chars (y.take n)).length := by
  unfold columnAt
  rw [List.take_append, List.take_of_length_le (by omega), Nat.add_sub_cancel_left, lineOf_append h, chars_split (by
    intro c r he
    cases y with
    | nil => simp at he
    | cons c' r' =>
      cases n with
      | zero => simp at he
      | succ n =>
        rw [List.take_succ_cons] at he
        exact (List.cons.inj he).1 ▸ hc c' r' rfl), List.length_append, List.take_left' rfl]

/-- Another text of the same width. -/
theorem Cols.width {u u' y : Bytes} (hc : ∀ c r, y = c :: r → isCont c = false) (h : columnAt (u' ++ y) u'.length = columnAt (u ++ y) u.length) : Cols u u' y 0 := by
  intro n _
  by_cases hn : NL ∈ y.take n
  · exact mv_col hn
  · rw [columnAt_append hc hn, columnAt_append hc hn, h]

theorem columnAt_spaces (c : Nat) (y : Bytes) : columnAt (List.replicate c SP ++ y) (List.replicate c SP).length = c := by
  unfold columnAt
  have := lineOf_append (u := []) (w := List.replicate c SP) (fun h => by cases (List.mem_replicate.1 h).2)
  rw [List.nil_append] at this
  rw [List.take_left' rfl, this, List.reverse_nil, List.takeWhile_nil, List.reverse_nil, List.nil_append, chars_ascii_length]
  · simp
  · intro b hb
    rw [(List.mem_replicate.1 hb).2]
    decide

theorem followed_spaces {y : Bytes} (h : followed y = true) : ∀ c, followed (List.replicate c SP ++ y) = true
  | 0 => h
  | c + 1 => by
    rw [List.replicate_succ, List.cons_append, followed, followed_spaces h c]
    rfl

/-- Without the white space before it, and at the top. -/
theorem Lies.alone {inp : Bytes} {s : Spot} {a b : Nat} {t : Tree Unit} {e : Nat} (hg : FullGap inp a b) (hb : b < e) : Lies inp s a t e → (s = .flow → ∀ pre sc, t ≠ .leaf () pre sc) →
    ∃ t', t'.content = t.content ∧ (∀ c m f p k, t.tailOk c m f p k → t'.tailOk c m f p k) ∧ Lies inp .block b t' e
  | .scalar (sc := sc) (lo := lo) (hi := hi) h1 h2 h3 h4 h5, hs => by
    obtain rfl := h1.unique hg
    have hfl : Spot.inline s = false := by cases s <;> first | rfl | exact absurd rfl (hs rfl _ _)
    rw [hfl] at h4
    have hL : Lies inp .block _ _ _ := .scalar h1.here h2 h3 h4 h5
    exact ⟨_, by simp only [Tree.content], fun _ _ _ _ _ h => by simp only [Tree.tailOk] at h ⊢; exact h, hL⟩
  | .open h1 h2 h3 h4 h5, hs => by
    obtain rfl := h1.unique hg
    have hL : Lies inp .block _ _ _ := .open h1.here h2 h3 h4 h5
    exact ⟨_, by simp only [Tree.content], fun _ _ _ _ _ h => by simp only [Tree.tailOk] at h ⊢; exact h, hL⟩
  | .lines h1 h2 h3 h4 h5, hs => by
    obtain rfl := h1.unique hg
    have hL : Lies inp .block _ _ _ := .lines h1.here h2 h3 h4 h5
    exact ⟨_, by simp only [Tree.content], fun _ _ _ _ _ h => by simp only [Tree.tailOk] at h ⊢; exact h, hL⟩
  | .empty h1 h2 h3, hs => by
    have := hg.le
    omega
  | .dashes h1 h2 h3, hs => by
    obtain rfl := h1.unique hg
    have hL : Lies inp .block _ _ _ := .dashes h1.here (by simp) h3
    exact ⟨_, by simp only [Tree.content], fun _ _ _ _ _ h => by simp only [Tree.tailOk] at h ⊢; exact h, hL⟩
  | .keys h1 h2 h3, hs => by
    obtain rfl := h1.unique hg
    have hL : Lies inp .block _ _ _ := .keys h1.here ⟨by simp, fun _ h => by cases h⟩ h3
    exact ⟨_, by simp only [Tree.content], fun _ _ _ _ _ h => by simp only [Tree.tailOk] at h ⊢; exact h, hL⟩
  | .brackets h1 h2 h3 h4 h5, hs => by
    obtain rfl := h1.unique hg
    have hL : Lies inp .block _ _ _ := .brackets h1.here h2 h3 h4 h5
    exact ⟨_, by simp only [Tree.content], fun _ _ _ _ _ _ => by rw [Tree.tailOk]; trivial, hL⟩
  | .braces h1 h2 h3 h4 h5, hs => by
    obtain rfl := h1.unique hg
    have hL : Lies inp .block _ _ _ := .braces h1.here h2 h3 h4 h5
    exact ⟨_, by simp only [Tree.content], fun _ _ _ _ _ _ => by rw [Tree.tailOk]; trivial, hL⟩

/-- No key goes on after the value in its new place. -/
theorem KeysEnd.shift {inp : Bytes} {b d c : Nat} (hb : b ≤ d) (hd : d ≤ inp.length) (h : KeysEnd inp d) : KeysEnd (List.replicate c SP ++ inp.drop b) (c + (d - b)) := by
  intro p k lo q h1 h2 h3 h4
  have hl : (List.replicate c SP).length = c := List.length_replicate
  have hl' : (inp.take b).length = b := by rw [List.length_take]; omega
  have hp : c ≤ p := by
    rcases Nat.lt_or_ge p c with hlt | hge
    · rw [List.getElem?_append_left (by omega)] at h1
      have := List.mem_replicate.1 (List.mem_of_getElem? h1)
      exact absurd this.2 (by decide)
    · exact hge
  have := h2.le
  have := h4.1
  obtain ⟨p, rfl⟩ := Nat.exists_eq_add_of_le hp
  obtain ⟨lo, rfl⟩ := Nat.exists_eq_add_of_le (show c ≤ lo by omega)
  obtain ⟨q, rfl⟩ := Nat.exists_eq_add_of_le (show c ≤ q by omega)
  have g1 := sh_get (List.replicate c SP) (inp.drop b) p
  have g2 := @sh_full (List.replicate c SP) (inp.drop b) (p + 1) lo
  have g3 := @sh_firstKey (List.replicate c SP) (inp.drop b) k lo q
  have g1' := sh_get (inp.take b) (inp.drop b) p
  have g2' := @sh_full (inp.take b) (inp.drop b) (p + 1) lo
  have g3' := @sh_firstKey (inp.take b) (inp.drop b) k lo q
  rw [hl] at g1 g2 g3
  rw [hl', List.take_append_drop] at g1' g2' g3'
  have := h (b + p) k (b + lo) (b + q) (by rw [g1', ← g1]; exact h1) (g2'.2 (g2.1 h2)) (by omega) (g3'.2 (g3.1 h4))
  omega

theorem columnAt_nl (x : Bytes) : columnAt (x ++ [NL]) (x.length + 1) = 0 := by
  unfold columnAt
  rw [List.take_of_length_le (by simp), List.reverse_append]
  rfl

/-- A value of a text on its own. -/
theorem Lies.single {inp : Bytes} {s : Spot} {a b : Nat} {t : Tree Unit} {e : Nat} (h : Lies inp s a t e) (hf : followed inp = true) (hg : FullGap inp a b) (hb : b < e) (he : e < inp.length)
    (hs : s = .flow → ∀ pre sc, t ≠ .leaf () pre sc) (hc : isCont (inp.getD b 0) = false) (hk : KeysEnd inp e) {c p : Nat} (ht : t.tailOk c true false p 0) :
    ∃ t', t'.content = t.content ∧ Lies (List.replicate (columnAt inp b) SP ++ slice inp b e ++ [NL]) .block (columnAt inp b) t' (columnAt inp b + (e - b)) := by
  obtain ⟨t', h1, h2, h3⟩ := h.alone hg hb hs
  have hl' : (inp.take b).length = b := by rw [List.length_take]; omega
  have hl : (List.replicate (columnAt inp b) SP).length = columnAt inp b := List.length_replicate
  have hw : ∀ c r, inp.drop b = c :: r → isCont c = false := fun c r hd => by
    have : inp.getD b 0 = c := by rw [List.getD_eq_getElem?_getD, ← List.head?_drop, hd]; rfl
    rw [← this]; exact hc
  have hcols : Cols (inp.take b) (List.replicate (columnAt inp b) SP) (inp.drop b) 0 := .width hw (by rw [columnAt_spaces, hl', List.take_append_drop])
  have h4 := Lies.moved (u := inp.take b) (u' := List.replicate (columnAt inp b) SP) (y := inp.drop b) (a := 0) (e := e - b) (by rw [List.take_append_drop]; exact hf)
    (by rw [List.take_append_drop]; exact h3) (by rw [hl']; rfl) (by rw [hl']; omega) (.inr hcols)
  rw [hl, Nat.add_zero] at h4
  have hsplit : List.replicate (columnAt inp b) SP ++ inp.drop b = (List.replicate (columnAt inp b) SP ++ slice inp b e) ++ inp.drop e := by
    rw [List.append_assoc]
    congr 1
    rw [← slice_drop, ← slice_append (b := e) (by omega) (by omega), slice_drop]
  have hx : (List.replicate (columnAt inp b) SP ++ slice inp b e).length = columnAt inp b + (e - b) := by
    rw [List.length_append, hl, slice_length (by omega)]
  have hk' := hk.shift (b := b) (c := columnAt inp b) (by omega) (by omega)
  refine ⟨t', h1, ?_⟩
  have hfo := followed_spaces (followed_drop hf b) (columnAt inp b)
  generalize columnAt inp b = k at *
  rw [hsplit] at h4 hk' hfo
  generalize hX : List.replicate k SP ++ slice inp b e = x at *
  have U : Under x (inp.drop e) [NL] (x.length + 1) (columnAt (x ++ [NL]) (x.length + 1)) false := by
    refine ⟨fun h => ?_, rfl, ?_, rfl, ?_, fun h => by cases h⟩
    · have := congrArg List.length h
      rw [List.length_drop] at this
      simp at this
      omega
    · have := @sh_full x [NL] 0 1
      rw [Nat.add_zero] at this
      rw [this]
      exact ⟨⟨by omega, by simp, .inl rfl⟩, by decide, by decide⟩
    · have := hk'.stay (W := [NL]) (by rw [← hx, List.length_append]; omega) (by decide)
      rw [← hx, List.take_left' rfl, List.drop_left' rfl] at this
      exact this
  have := (h4.restG U (c := c) (m := true) (p := p) (fun m' ind _ hG => by
    have h0 : (x ++ [NL]).getD (x.length + 1) 0 = 0 := by rw [List.getD_eq_getElem?_getD, List.getElem?_eq_none (by simp)]; rfl
    have h1 : (x ++ [NL])[x.length + 1]? = none := List.getElem?_eq_none (by simp)
    cases m' with
    | true => exact hG.2.2 h0
    | false => rw [Goes, h1] at hG; cases hG.2) (fun h => by cases h) (k := 0) (by rw [columnAt_nl]; omega) hfo hx.symm (by simp) (h2 _ _ _ _ _ ht) (fun _ h => by cases h)).2
  rwa [hx] at this

/-- Nothing need follow the value: it is neither missing nor a block scalar, or one that keeps no line breaks, with its lines further to the right than column `k`. -/
def Final (d : Data) (k : Nat) (w : Nat) : Prop := ∀ t, valueText d w = .ok t → t ≠ [] ∧ (t.headD 0 ≠ PIPE ∧ t.headD 0 ≠ GT ∨ ∃ a, asAny d w = .ok a ∧ Strips k t a)

mutual
/-- A value that ends neither with a missing value nor with a block scalar (or with one that keeps no line breaks). -/
theorem Tree.high {doc : Document} {t : Tree Nat} (ht : Holds doc t) {j : Nat} : ∀ (w : Tree Nat), t.find w.id = some w →
    (∀ w', w' = w.id ∨ EndsWith doc.data w.id w' → Final doc.data j w') → ∃ N, ∀ c p, N ≤ c → w.erase.tailOk c true false p j
  | .leaf x pre sc, hf, h => by
    obtain ⟨_, ha⟩ := ht.at hf
    obtain ⟨h1, h2⟩ := h x (.inl rfl) _ ha.text
    refine ⟨0, fun c p _ => ?_⟩
    rw [Tree.erase, Tree.tailOk]
    refine ⟨fun h => absurd h h1, h2.imp id ?_⟩
    rintro ⟨a, h5, h6⟩
    obtain rfl := Except.ok.inj ((asAny_leaf ha.rep).symm.trans h5)
    exact h6
  | .node x pre m' ind (.inline tr w) items, hf, h => ⟨0, fun c p _ => by rw [Tree.erase, Tree.tailOk]; trivial⟩
  | .node x pre m' ind .block items, hf, h => by
    rw [Tree.id_node] at hf h
    obtain ⟨p, ha⟩ := ht.at hf
    obtain ⟨N, hN⟩ := Items.high ht items fun k v hl => by
      have hl' := lastIn_node ha hl
      rw [getLast?_get] at hl
      refine ⟨Tree.find_trans ht.nodup hf (Tree.find_pair ha.nodup hl), fun w' hw' => h w' (.inr ?_)⟩
      rcases hw' with rfl | hw'
      · exact .last hl'
      · exact .inner hl' hw'
    refine ⟨max N (ind + 1), fun c p hc => ?_⟩
    rw [Tree.erase, Tree.tailOk]
    exact ⟨fun he => by omega, hN c _ (by omega)⟩
theorem Items.high {doc : Document} {t : Tree Nat} (ht : Holds doc t) {j : Nat} : ∀ (items : Items Nat),
    (∀ (k : RStr) (v : Tree Nat), items.pairs.getLast? = some (k, v) → t.find v.id = some v ∧
      (∀ w', w' = v.id ∨ EndsWith doc.data v.id w' → Final doc.data j w')) → ∃ N, ∀ c p, N ≤ c → items.erase.tailOk c true false p j
  | .nil, _ => ⟨0, fun c p _ => by rw [Items.erase, Items.tailOk]; trivial⟩
  | .cons i _ key v .nil, h => by
    obtain ⟨h1, h2⟩ := h key v rfl
    obtain ⟨N, hN⟩ := Tree.high ht v h1 h2
    exact ⟨N, fun c p hc => by rw [Items.erase, Items.erase, Items.tailOk]; exact hN c p hc⟩
  | .cons i _ key v (.cons i' p' key' v' rest), h => by
    obtain ⟨N, hN⟩ := Items.high ht (.cons i' p' key' v' rest) fun k v hl => h k v (by
      simp only [Items.pairs] at hl ⊢
      rw [List.getLast?_cons_cons]
      exact hl)
    refine ⟨N, fun c p hc => ?_⟩
    have := hN c p hc
    rw [Items.erase] at this ⊢
    rw [Items.erase, Items.tailOk]
    exact this
    simp
end

end Verif
