import Verif.InsideBlock
import Verif.Props.Inside
import Verif.Props.Alone
/-
C95: edits inside a value outside of brackets are judged by the text of that value and what follows it.
-/
namespace Verif

/-- The text, indented by `k` columns and with a line break after it, is read as the document `own`, which is written as it was read; all of the text is its root, which says `c`.  In it no line with a
`|` or `>` has only blank lines after it. -/
structure OwnBlock (k : Nat) (text : Bytes) (own : Document) (c : Content) : Prop where
  starts : isWs (text.headD 0) = false ∧ text.headD 0 ≠ HASH ∧ text.headD 0 ≠ 0 ∧ isCont (text.headD 0) = false
  blocks : followed (alone k text) = true
  header : hasHeader (alone k text) = false
  parsed : Parsed (alone k text) own
  write : own.write = .ok (alone k text)
  root : valueText own.data own.root = .ok text
  reads : Reads own.data own.root c

/-- What follows the place `d` of the text can follow a value that ends like the root of `own`: nothing (see `Final`), or something in a column to the left of everything the value ends with (`Closes`, see C87). -/
def CanFollow (inp : Bytes) (d : Nat) (own : Document) : Prop := ∃ n, FullGap inp d n ∧
  (n = inp.length ∧ (∀ w, w = own.root ∨ EndsWith own.data own.root w → Final own.data (columnAt inp n) w) ∨
    ∃ m f, (m = true → inp[n]? ≠ some DASH) ∧ (f = true → ∃ k q, FirstKey inp k n q) ∧ ∀ w, w = own.root ∨ EndsWith own.data own.root w → Closes own.data (columnAt inp n) m f w)

/-- On its own, the value is all of the text. -/
theorem OwnBlock.lies {k : Nat} {T : Bytes} {own : Document} {c : Content} (h : OwnBlock k T own c) : ∃ v : Tree Unit, v.content = c ∧ Lies (alone k T) .block k v (k + T.length) ∧
    (∀ j, (∀ w, w = own.root ∨ EndsWith own.data own.root w → Final own.data j w) → ∃ N, v.tailOk N true false 0 j) ∧
    ∀ c m f, (∀ w, w = own.root ∨ EndsWith own.data own.root w → Closes own.data c m f w) → v.tailOk c m f c := by
  obtain ⟨⟨s1, s2, s3, -⟩, -, hh, h1, h2, h3, h6⟩ := h
  obtain ⟨t, e0, hl⟩ := h1.laid h2 hh
  have hroot : t.id = own.root := hl.laid.holds.root.symm
  have hself := t.find_self
  rw [hroot] at hself
  obtain ⟨p, ha⟩ := hl.laid.holds.at hself
  have hren : t.render = T := Except.ok.inj (ha.text.symm.trans h3)
  have hlk : (List.replicate k SP).length = k := List.length_replicate
  have hne : T ≠ [] := by rintro rfl; exact s3 rfl
  have hget : (alone k T).getD k 0 = T.headD 0 := by
    unfold alone
    rw [List.append_assoc]
    have := sh_getD (List.replicate k SP) (T ++ [NL]) 0 0
    rw [hlk, Nat.add_zero] at this
    rw [this]
    cases T with
    | nil => exact absurd rfl hne
    | cons => rfl
  have hlen : (alone k T).length = k + T.length + 1 := by unfold alone; simp; omega
  have hpos : 0 < T.length := List.length_pos_iff.2 hne
  have hslice : slice (alone k T) 0 k = List.replicate k SP := by
    unfold alone slice
    rw [List.append_assoc, List.drop_zero, Nat.sub_zero, List.take_left' hlk]
  have hg : FullGap (alone k T) 0 k := by
    refine ⟨⟨by omega, by omega, .inl ?_⟩, by rw [hget]; exact s1, by rw [hget]; exact s2⟩
    rw [hslice]
    exact gapGo_spaces k
  have hlies := hl.laid.lies
  have hpre := hlies.preAt hg
  rw [hslice] at hpre
  have hp2 : t.pre = List.replicate k SP := by rw [← hpre]; cases t <;> simp [Tree.erase, Tree.pre]
  have he : e0 = k + T.length := by
    have hw := hl.laid.holds.write
    rw [h2, hl.laid.suffix, Tree.text, hren, hp2] at hw
    have := congrArg List.length (Except.ok.inj hw)
    have hle := hl.laid.gap.le
    rw [List.length_append, List.length_append, slice_length (Nat.le_refl _), hlk, hlen] at this
    omega
  subst he
  obtain ⟨v, j1, j2, j3⟩ := hlies.alone hg (by omega) (fun h => by cases h)
  refine ⟨v, ?_, j3, fun j hend => ?_, fun c m f hcl => ?_⟩
  · rw [j1, Tree.content_erase]
    exact (Tree.content_reads hl.laid.holds.rep).unique (by rw [hroot]; exact h6)
  · obtain ⟨N, hN⟩ := Tree.high hl.laid.holds t (by rw [hroot]; exact hself) (by rw [hroot]; exact hend)
    exact ⟨N, j2 _ _ _ _ _ (hN N 0 (Nat.le_refl _))⟩
  · exact j2 _ _ _ _ _ (Tree.closed hl.laid.holds t c (fun _ => Nat.le_refl _) (by rw [hroot]; exact hself) (hcl _ (.inl hroot)) (fun w hw => hcl w (.inr (by rw [← hroot]; exact hw))))

/-- C95, what holds: a value outside of brackets of a text that is written as it was read, which has a line break after it, and any series of edits of it and of what is in it; it may not itself be made a
new collection.  What is written is the text with the new text of the value in place of the old.  If that text on its own, indented as it is in the document and with a line break after it, is written as it was read
and says what the value says in the edited document, and what follows in the document can follow it, then all of the document is read back; provided that no key before it goes on in it, that a mapping
may be in this place, and that nothing looks like a header. -/
theorem C95_inside_partial {inp : Bytes} {doc : Document} (h : Parsed inp doc) (hw : doc.write = .ok inp) (hh : hasHeader inp = false) (hf : followed inp = true)
    (hc : noWsComma inp = true ∨ LBR ∉ inp) (hu : validUtf8 inp = true ∨ HASH ∉ inp) {x : Nat} (hx : Live doc x) {old : Bytes} (ho : valueText doc.data x = .ok old) (hn : old.headD 0 ≠ 0) :
    ∃ r s b d, Stands inp doc x b d ∧ inp.drop r = skipBlank false inp ∧ Within inp doc.data.view .block doc.root r s x b ∧
      (∀ m C, collAt m doc.data x = .ok C → C.kind = .block → s ≠ .flow ∧ (m = true → s.allows (columnAt inp b))) ∧
      ∀ doc', Inside x doc doc' → ∃ new, valueText doc'.data x = .ok new ∧ doc'.write = .ok (inp.take b ++ new ++ inp.drop d) ∧
        ∀ own c, OwnBlock (columnAt inp b) new own c → Reads doc'.data x c → s ≠ .flow → (∀ l, c = .map l → s.allows (columnAt inp b)) → inp[d]? = some NL → CanFollow inp d own → KeysEnd inp b →
          hasHeader (inp.take b ++ new ++ inp.drop d) = false → Stable doc' := by
  obtain ⟨t, e0, hl⟩ := h.laid hw hh
  have ht := hl.laid.holds
  obtain ⟨u, r, s, b0, b, d, E, hu', hL, hg, hg0, hr, hbd, hd, w1, w2, w3, rfl, hctl, hrf, hwi, hE, hall⟩ := hl.reads hf hc hu hh hx ho hn
  refine ⟨r, s, b, d, ⟨hbd, hd, ho, hrf⟩, hr, hwi, fun m C hC hk => ?_, fun doc' hin => ?_⟩
  · obtain ⟨pre, items, rfl⟩ := collAt_node ht hu' hC
    rw [hk, Tree.erase] at hL
    generalize C.indent = i at hL
    cases hL with
    | dashes h1 h2 h3 => exact ⟨h2, fun h => by cases h⟩
    | keys h1 h2 h3 => rw [← h1.unique hg]; exact ⟨h2.1, fun _ => h2⟩
  obtain ⟨u', hid, hpre, hsuf, hh2⟩ := hin.tree ht hu'
  obtain ⟨p, ha⟩ := hh2.at (Tree.find_upd hu' hid)
  obtain ⟨hwr, hfin⟩ := hall doc' u' hid hpre hsuf hh2
  have htext := ha.text
  have hreads := Tree.content_reads ha.rep
  rw [hid] at hreads
  refine ⟨_, htext, hwr, fun own c hown hc' hs hal hnl hcan hkeys hhead => ?_⟩
  generalize u'.render = new at *
  obtain ⟨v, hcont, hlies, hhigh, hclosed⟩ := hown.lies
  obtain ⟨⟨s1, s2, s3, s4⟩, hblk, -⟩ := hown
  have hlb : (inp.take b).length = b := by rw [List.length_take]; omega
  have hcut := cut3 (inp := inp) (Nat.le_of_lt hbd)
  have hld : (inp.take b ++ slice inp b d).length = d := by rw [List.length_append, slice_length hd, hlb]; omega
  have hne : (slice inp b d).headD 0 ≠ 0 := by rw [slice_headD hbd]; exact w3
  have hfl : s.inline = false := by cases s <;> first | rfl | exact absurd rfl hs
  have hQ : (inp.drop d).head? = some NL := by rw [List.head?_drop]; exact hnl
  have H : Hole (inp.take b) (slice inp b d) new (inp.drop d) E s.inline := by
    refine ⟨⟨⟨?_, ?_, ?_⟩, ⟨?_, ?_, ?_⟩, ?_⟩, ?_, ?_, ?_, ?_, ?_⟩
    · rw [headD_first hne, slice_headD hbd]; exact w1
    · rw [headD_first hne, slice_headD hbd]; exact w2
    · rw [headD_first hne, slice_headD hbd]; exact w3
    · rw [headD_first s3]; exact s1
    · rw [headD_first s3]; exact s2
    · rw [headD_first s3]; exact s3
    · intro a k lo q h1 h2 h3 h4
      rw [← List.append_assoc, hcut] at h1 h2 h4
      rw [hlb] at h3
      have h5 := hkeys a k lo q h1 h2 h3 h4
      refine ⟨k, q, ?_⟩
      rw [← List.take_append_drop b inp] at h4
      rcases Nat.lt_or_ge (q + 1) b with hq | hq
      · exact Inner.firstKey h4 (by omega) (.inl (by omega))
      · obtain ⟨f1, f2, f3⟩ := h4
        refine ⟨f1, by rw [Joint.get (by omega)]; exact f2, ?_⟩
        rw [Joint.slice (by omega)]
        rcases f3 with f3 | ⟨-, -, -, -, ⟨-, f3⟩, -⟩
        · exact .inl f3
        · rw [List.take_append_drop, show q + 1 = b by omega] at f3
          rcases f3 with f3 | f3
          · rw [w1] at f3; cases f3
          · exact absurd f3 w3
    · exact s3
    · rw [hfl]; exact fun h => by cases h
    · rw [hcut, hld]
      rcases hE with ⟨-, rfl⟩ | ⟨hs', -⟩
      · exact line_after (.inl hnl)
      · exact absurd hs' hs
    · rw [hfl]; exact fun h => by cases h
    · rw [hfl]; exact fun h => by cases h
  have hg' : FullGap (inp.take b ++ new ++ inp.drop d) b0 (inp.take b).length := H.full (by rw [hcut, hlb]; exact hg) (Nat.le_refl _)
  have hcolb : ∀ z : Bytes, columnAt (inp.take b ++ z) b = columnAt inp b := fun z => by
    unfold columnAt
    rw [List.take_left' hlb]
  have hcc : ∀ c r, new ++ inp.drop d = c :: r → isCont c = false := by
    intro c r he
    have := congrArg (fun l : Bytes => l.headD 0) he
    simp only [headD_first s3, List.headD_cons] at this
    rw [← this]; exact s4
  have hrej : Lies (inp.take b ++ new ++ inp.drop d) .block (inp.take b).length v (inp.take b ++ new).length := by
    obtain ⟨n, hgn, hcan⟩ := hcan
    have hdn := hgn.le
    obtain ⟨n, rfl⟩ := Nat.exists_eq_add_of_le hdn.1
    have hld' : (inp.take d).length = d := by rw [List.length_take]; omega
    have hgn' : FullGap (inp.drop d) 0 n := by
      have := @sh_full (inp.take d) (inp.drop d) 0 n
      rw [List.take_append_drop, hld', Nat.add_zero] at this
      exact this.1 hgn
    have hn0 : NL ∈ (inp.drop d).take n := by
      generalize inp.drop d = Q at *
      cases Q with
      | nil => cases hQ
      | cons b Q =>
        cases hQ
        cases n with
        | zero => exact absurd hgn'.2.1 (by simp only [List.getD_cons_zero]; decide)
        | succ n => rw [List.take_succ_cons]; exact List.mem_cons_self ..
    have hcol : columnAt (inp.take b ++ new ++ inp.drop d) ((inp.take b ++ new).length + n) = columnAt inp (d + n) := by
      have := mv_col (u := inp.take d) (u' := inp.take b ++ new) hn0
      rw [List.take_append_drop, hld'] at this
      exact this
    rcases hcan with ⟨hend, hcl⟩ | ⟨m, f, hm, hff, hcl⟩
    · obtain ⟨N, hN⟩ := hhigh _ hcl
      refine Lies.rejoin (f := false) hblk (followed_drop hf d) hlies hcc (by rw [hlb, hcolb]) hQ hgn' (fun m' ind _ hG => ?_) (fun h => by cases h) (Nat.le_of_eq hcol) hN
      have h0 : (inp.drop d)[n]? = none := by rw [List.getElem?_eq_none]; rw [List.length_drop]; omega
      unfold Goes at hG
      rw [sh_getD, sh_get, List.getD_eq_getElem?_getD, h0] at hG
      cases m' with
      | true => exact hG.2.2 rfl
      | false => cases hG.2
    · refine Lies.rejoin (f := f) hblk (followed_drop hf d) hlies hcc (by rw [hlb, hcolb]) hQ hgn' (fun m' ind hi hG => ?_) (fun h => ⟨hcol, ?_⟩) (Nat.le_of_eq hcol) (hclosed _ m f hcl)
      · unfold Goes at hG
        rw [hcol] at hG
        obtain ⟨rfl, hm'⟩ := hi hG.1.symm
        have := hG.2
        simp only [Bool.false_eq_true, if_false] at this
        rw [sh_get, List.getElem?_drop] at this
        exact hm hm' this
      · obtain ⟨k, q, hk⟩ := hff h
        have := hk.1
        obtain ⟨q, rfl⟩ := Nat.exists_eq_add_of_le (show d ≤ q by omega)
        refine ⟨k, q, ?_⟩
        have h2 := @sh_firstKey (inp.take d) (inp.drop d) k n q
        rw [List.take_append_drop, hld'] at h2
        exact h2.1 hk
  obtain ⟨z, hz, hlz⟩ := hrej.onto hg' hs (fun pre ind items he => by
    rw [hlb, List.append_assoc, hcolb]
    subst he
    rw [Tree.content] at hcont
    exact hal _ hcont.symm)
  obtain ⟨V, e', k1, k2, k3⟩ := hfin z (by rw [hz, hcont]; exact hc'.unique hreads) H hlz
  obtain ⟨lo, hi, j1, j2, -, j3⟩ := k2.sits
  obtain ⟨doc2, p1, p2⟩ := accepted (inp := inp.take b ++ new ++ inp.drop d) ⟨lo, hi, j1.le.2, by rw [body_eq hhead, skipBlank_eq, ← j1.eq, wsEnd]; simp, j2.content, by
    rcases j3 with rfl | j3
    · exact k3
    · exact j3.1.twice k3⟩
  refine ⟨_, doc2, _, hwr, p1, ?_, p2⟩
  rw [k1, hh2.root]
  exact Tree.content_reads hh2.rep

/-- C95 for block collections, which stay what they are. -/
theorem C95_block_partial {inp : Bytes} {doc : Document} (h : Parsed inp doc) (hw : doc.write = .ok inp) (hh : hasHeader inp = false) (hf : followed inp = true)
    (hc : noWsComma inp = true ∨ LBR ∉ inp) (hu : validUtf8 inp = true ∨ HASH ∉ inp) {x : Nat} (hx : Live doc x) {m : Bool} {C : Coll} (hC : collAt m doc.data x = .ok C) (hk : C.kind = .block)
    {old : Bytes} (ho : valueText doc.data x = .ok old) (hn : old.headD 0 ≠ 0) :
    ∃ b d, Stands inp doc x b d ∧ (inp[d]? = some NL → KeysEnd inp b →
      ∀ doc', Inside x doc doc' → ∃ new, valueText doc'.data x = .ok new ∧ doc'.write = .ok (inp.take b ++ new ++ inp.drop d) ∧
        ∀ own c, OwnBlock (columnAt inp b) new own c → Reads doc'.data x c → (∀ l, c = .map l → m = true) → CanFollow inp d own → hasHeader (inp.take b ++ new ++ inp.drop d) = false → Stable doc') := by
  obtain ⟨r, s, b, d, h1, h2, h3, h4, h5⟩ := C95_inside_partial h hw hh hf hc hu hx ho hn
  obtain ⟨h6, h7⟩ := h4 m C hC hk
  refine ⟨b, d, h1, fun k1 k2 doc' hin => ?_⟩
  obtain ⟨new, g1, g2, g3⟩ := h5 doc' hin
  exact ⟨new, g1, g2, fun own c a1 a2 a3 a4 a5 => g3 own c a1 a2 h6 (fun l hl => h7 (a3 l hl)) k1 a4 k2 a5⟩

/-- Three edits in a mapping that is the value of a key: an entry is removed that was the first of its mapping, the value of the other one is made a new mapping, and an entry is added to it. -/
example : ∃ doc doc', Parsed (b! "l:\n  a:\n    b: 1\n    c: 2\nd: 3\n") doc ∧ Inside 2 doc doc' ∧ doc'.write = .ok (b! "l:\n  a:\n    \n    c:\n      e: true\nd: 3\n") ∧ Stable doc' := by
  have hp : Parsed (b! "l:\n  a:\n    b: 1\n    c: 2\nd: 3\n") (docOfText (b! "l:\n  a:\n    b: 1\n    c: 2\nd: 3\n")) := ⟨60, by decide +kernel⟩
  obtain ⟨b, d, h1, h2⟩ := C95_block_partial hp (by decide +kernel) (by decide +kernel) (by decide +kernel) (.inl (by decide)) (.inr (by decide)) (x := 2)
    (.viaMap [(b! "l", 2), (b! "d", 10)] (b! "l") .self (by decide +kernel) (by decide +kernel) (by decide)) (m := true)
    (C := ⟨2, .block, [3]⟩) (by decide +kernel) rfl (old := b! "a:\n    b: 1\n    c: 2") (by decide +kernel) (by decide)
  obtain ⟨rfl, rfl⟩ : b = 5 ∧ d = 25 :=
    (by decide +kernel : ∀ d ≤ 31, ∀ b < d, (b! "a:\n    b: 1\n    c: 2") = slice (b! "l:\n  a:\n    b: 1\n    c: 2\nd: 3\n") b d → b = 5 ∧ d = 25) d h1.le b h1.lt
      (Except.ok.inj ((show valueText _ _ = .ok (b! "a:\n    b: 1\n    c: 2") by decide +kernel).symm.trans h1.text))
  have hin : Inside 2 (docOfText (b! "l:\n  a:\n    b: 1\n    c: 2\nd: 3\n"))
      ((((docOfText (b! "l:\n  a:\n    b: 1\n    c: 2\nd: 3\n")).after 4 (.remove (b! "b"))).after 8 .makeMapping).after 8 (.insert (b! "e") (.bool true))) := by
    refine .edit (mid := (docOfText (b! "l:\n  a:\n    b: 1\n    c: 2\nd: 3\n")).after 4 (.remove (b! "b"))) (y := 4) (op := .remove (b! "b"))
      (.step .self (.inr ⟨[(b! "a", 4)], b! "a", by decide +kernel, by decide +kernel, by decide⟩)) (by decide) (by decide +kernel) ?_
    refine .edit (mid := ((docOfText (b! "l:\n  a:\n    b: 1\n    c: 2\nd: 3\n")).after 4 (.remove (b! "b"))).after 8 .makeMapping) (y := 8) (op := .makeMapping)
      (.step (v := 4) (.step .self (.inr ⟨[(b! "a", 4)], b! "a", by decide +kernel, by decide +kernel, by decide⟩)) (.inr ⟨[(b! "c", 8)], b! "c", by decide +kernel, by decide +kernel, by decide⟩)) (by decide) (by decide +kernel) ?_
    exact .edit (y := 8) (op := .insert (b! "e") (.bool true))
      (.step (v := 4) (.step .self (.inr ⟨[(b! "a", 4)], b! "a", by decide +kernel, by decide +kernel, by decide⟩)) (.inr ⟨[(b! "c", 8)], b! "c", by decide +kernel, by decide +kernel, by decide⟩)) (by decide) (by decide +kernel) .done
  obtain ⟨new, g1, g2, g3⟩ := h2 (by decide)
    (.opened (by decide) (by decide) (by decide) (p := 2) (by decide) (.inl (by decide))
      (fun i h1 h2 => (by decide : ∀ i < 5, 2 < i → isIndicator ((b! "l:\n  a:\n    b: 1\n    c: 2\nd: 3\n").getD i 0) = true ∨ dashes ((b! "l:\n  a:\n    b: 1\n    c: 2\nd: 3\n").drop i) = true) i h2 h1)) _ hin
  obtain rfl : b! "a:\n    \n    c:\n      e: true" = new := Except.ok.inj ((show _ = Except.ok (b! "a:\n    \n    c:\n      e: true") by decide +kernel).symm.trans g1)
  refine ⟨_, _, hp, hin, g2, g3 (docOfText (b! "  a:\n    \n    c:\n      e: true\n")) (.map (.cons (b! "a") (.map (.cons (b! "c") (.map (.cons (b! "e") (.scalar (.bool true)) .nil)) .nil)) .nil))
    ⟨by decide, by decide +kernel, by decide +kernel, ⟨60, by decide +kernel⟩, by decide +kernel, by decide +kernel, ?_⟩ ?_ (fun _ _ => rfl) ?_ (by decide +kernel)⟩
  · refine ⟨[(b! "a", 2)], ⟨by decide +kernel, by decide +kernel⟩, 2, [], rfl, ⟨[(b! "c", 4)], ⟨by decide +kernel, by decide +kernel⟩, 4, [], rfl, ?_, rfl⟩, rfl⟩
    exact ⟨[(b! "e", 6)], ⟨by decide +kernel, by decide +kernel⟩, 6, [], rfl, ⟨by decide +kernel, rfl⟩, rfl⟩
  · refine ⟨[(b! "a", 4)], ⟨by decide +kernel, by decide +kernel⟩, 4, [], rfl, ⟨[(b! "c", 8)], ⟨by decide +kernel, by decide +kernel⟩, 8, [], rfl, ?_, rfl⟩, rfl⟩
    exact ⟨[(b! "e", 5)], ⟨by decide +kernel, by decide +kernel⟩, 5, [], rfl, ⟨by decide +kernel, rfl⟩, rfl⟩
  · have hg := FullGap.ws (inp := b! "l:\n  a:\n    b: 1\n    c: 2\nd: 3\n") (n := 25) (by decide)
    rw [show wsEnd (b! "l:\n  a:\n    b: 1\n    c: 2\nd: 3\n") 25 = 26 by decide +kernel] at hg
    refine ⟨26, hg, .inr ⟨true, false, fun _ => by decide, nofun, fun w hw => ?_⟩⟩
    rcases hw with rfl | hw
    · exact closesB_closes (by decide +kernel)
    · exact endsB_ends (n := 5) (by decide +kernel) w hw

/-- Without a look at what follows, C95 is false: a block scalar at the end of the value takes the blank lines after it. -/
theorem C95_follow_false : ¬ ∀ (inp : Bytes) (doc doc' own : Document) (x b d : Nat) (C : Coll) (new : Bytes) (c : Content), Parsed inp doc → doc.write = .ok inp → Live doc x →
    doc.data.mapping x = .ok C → C.kind = .block → Stands inp doc x b d → inp[d]? = some NL → Inside x doc doc' → valueText doc'.data x = .ok new → OwnBlock (columnAt inp b) new own c →
    Reads doc'.data x c → Stable doc' := by
  intro h
  have hp : Parsed (b! "l:\n  a: 1\n\nd: 3\n") (docOfText (b! "l:\n  a: 1\n\nd: 3\n")) := ⟨60, by decide +kernel⟩
  have hx : Live (docOfText (b! "l:\n  a: 1\n\nd: 3\n")) 2 := .viaMap [(b! "l", 2), (b! "d", 6)] (b! "l") .self (by decide +kernel) (by decide +kernel) (by decide)
  obtain ⟨b, d, h1, -⟩ := C95_block_partial hp (by decide +kernel) (by decide +kernel) (by decide +kernel) (.inl (by decide)) (.inr (by decide)) hx (m := true)
    (C := ⟨2, .block, [3]⟩) (by decide +kernel) rfl (old := b! "a: 1") (by decide +kernel) (by decide)
  obtain ⟨rfl, rfl⟩ : b = 5 ∧ d = 9 :=
    (by decide +kernel : ∀ d ≤ 16, ∀ b < d, (b! "a: 1") = slice (b! "l:\n  a: 1\n\nd: 3\n") b d → b = 5 ∧ d = 9) d h1.le b h1.lt
      (Except.ok.inj ((show valueText _ _ = .ok (b! "a: 1") by decide +kernel).symm.trans h1.text))
  obtain ⟨out', doc2, c, g1, g2, g3, g4⟩ := h (b! "l:\n  a: 1\n\nd: 3\n") (docOfText (b! "l:\n  a: 1\n\nd: 3\n")) ((docOfText (b! "l:\n  a: 1\n\nd: 3\n")).after 4 (.setBlock [b! "x"] (.literal .keep)))
    (docOfText (b! "  a: |+\n   x\n")) 2 5 9 ⟨2, .block, [3]⟩ (b! "a: |+\n   x") (.map (.cons (b! "a") (.scalar (.string (b! "x\n"))) .nil)) hp (by decide +kernel) hx (by decide +kernel) rfl h1 (by decide)
    (.edit (y := 4) (op := .setBlock [b! "x"] (.literal .keep)) (.step .self (.inr ⟨[(b! "a", 4)], b! "a", by decide +kernel, by decide +kernel, by decide⟩)) (by decide) (by decide +kernel) .done)
    (by decide +kernel) ⟨by decide, by decide +kernel, by decide +kernel, ⟨60, by decide +kernel⟩, by decide +kernel, by decide +kernel,
      ⟨[(b! "a", 2)], ⟨by decide +kernel, by decide +kernel⟩, 2, [], rfl, ⟨by decide +kernel, rfl⟩, rfl⟩⟩
    ⟨[(b! "a", 4)], ⟨by decide +kernel, by decide +kernel⟩, 4, [], rfl, ⟨by decide +kernel, rfl⟩, rfl⟩
  obtain rfl : b! "l:\n  a: |+\n   x\n\nd: 3\n" = out' := Except.ok.inj ((show _ = Except.ok (b! "l:\n  a: |+\n   x\n\nd: 3\n") by decide +kernel).symm.trans g1)
  obtain rfl : docOfText (b! "l:\n  a: |+\n   x\n\nd: 3\n") = doc2 := Except.ok.inj ((show _ = Except.ok (docOfText (b! "l:\n  a: |+\n   x\n\nd: 3\n")) by decide +kernel).symm.trans g2)
  have r1 : Reads ((docOfText (b! "l:\n  a: 1\n\nd: 3\n")).after 4 (.setBlock [b! "x"] (.literal .keep))).data 0
      (.map (.cons (b! "l") (.map (.cons (b! "a") (.scalar (.string (b! "x\n"))) .nil)) (.cons (b! "d") (.scalar (.number (b! "3"))) .nil))) :=
    ⟨[(b! "l", 2), (b! "d", 6)], ⟨by decide +kernel, by decide +kernel⟩, 2, [(b! "d", 6)], rfl, ⟨[(b! "a", 4)], ⟨by decide +kernel, by decide +kernel⟩, 4, [], rfl, ⟨by decide +kernel, rfl⟩, rfl⟩,
      6, [], rfl, ⟨by decide +kernel, rfl⟩, rfl⟩
  have r2 : Reads (docOfText (b! "l:\n  a: |+\n   x\n\nd: 3\n")).data 0
      (.map (.cons (b! "l") (.map (.cons (b! "a") (.scalar (.string (b! "x\n\n"))) .nil)) (.cons (b! "d") (.scalar (.number (b! "3"))) .nil))) :=
    ⟨[(b! "l", 2), (b! "d", 6)], ⟨by decide +kernel, by decide +kernel⟩, 2, [(b! "d", 6)], rfl, ⟨[(b! "a", 4)], ⟨by decide +kernel, by decide +kernel⟩, 4, [], rfl, ⟨by decide +kernel, rfl⟩, rfl⟩,
      6, [], rfl, ⟨by decide +kernel, rfl⟩, rfl⟩
  have e1 := g3.unique r1
  have e2 := g4.unique r2
  rw [e1] at e2
  cases e2

end Verif
