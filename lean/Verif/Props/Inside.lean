import Verif.Inside
import Verif.Props.Series
/-
C93: edits inside an inline collection are judged by the text of that collection alone.
-/
namespace Verif

/-- With a line break after it, the text is read as one collection in brackets, which says `c`; it is written as it was read.  In it no line with a `|` or `>` has only blank lines after it. -/
structure OnItsOwn (text : Bytes) (c : Content) : Prop where
  blocks : followed (text ++ [NL]) = true
  reads : ∃ doc m C tr w, Parsed (text ++ [NL]) doc ∧ doc.write = .ok (text ++ [NL]) ∧ valueText doc.data doc.root = .ok text ∧ collAt m doc.data doc.root = .ok C ∧ C.kind = .inline tr w ∧
    Reads doc.data doc.root c

/-- What a collection in brackets is written as starts with its bracket. -/
theorem inline_head {doc : Document} {t : Tree Nat} (ht : Holds doc t) {x : Nat} (hx : Live doc x) {m : Bool} {C : Coll} {tr : Bool} {w text : Bytes} (hC : collAt m doc.data x = .ok C)
    (hk : C.kind = .inline tr w) (ho : valueText doc.data x = .ok text) : (∃ pre ind items, t.find x = some (.node x pre m ind (.inline tr w) items)) ∧ text.headD 0 = if m then LCB else LBR := by
  obtain ⟨u0, hu0⟩ := (ht.live_iff x).1 hx
  obtain ⟨pre, items, rfl⟩ := collAt_node ht hu0 hC
  obtain ⟨p, ha⟩ := ht.at hu0
  rw [hk] at ha hu0
  refine ⟨⟨pre, C.indent, items, hu0⟩, ?_⟩
  have := ha.text.symm.trans ho
  rw [← Except.ok.inj this, Tree.render]
  cases m <;> simp [openOf]

theorem Live.root (doc : Document) : Live doc doc.root := .self

/-- On its own, the collection is all of the text. -/
theorem OnItsOwn.lies {T : Bytes} {c : Content} (h : OnItsOwn T c) : (T.headD 0 = LBR ∨ T.headD 0 = LCB) ∧ FullGap (T ++ [NL]) 0 0 ∧
    ∃ pre m ind tr w, ∃ items : Items Unit, Lies (T ++ [NL]) .block 0 (.node () pre m ind (.inline tr w) items) T.length ∧ (Tree.node () pre m ind (.inline tr w) items).content = c := by
  obtain ⟨hf, doc, m, C, tr, w, h1, h2, h3, h4, h5, h6⟩ := h
  obtain ⟨t0, ht0⟩ := h1.holds
  obtain ⟨-, g2⟩ := inline_head ht0 (Live.root doc) h4 h5 h3
  have hbr : T.headD 0 = LBR ∨ T.headD 0 = LCB := by rw [g2]; cases m; exact .inl rfl; exact .inr rfl
  have hne : T.headD 0 ≠ 0 := by rcases hbr with h | h <;> rw [h] <;> decide
  have hhd : (T ++ [NL]).getD 0 0 = T.headD 0 := by cases T with | nil => exact absurd rfl hne | cons => rfl
  have hg0 : FullGap (T ++ [NL]) 0 0 := by
    refine ⟨⟨by omega, by omega, .inl (by rw [slice_none (Nat.le_refl _)]; rfl)⟩, ?_, ?_⟩ <;> rw [hhd] <;> rcases hbr with h | h <;> rw [h] <;> decide
  have hh : hasHeader (T ++ [NL]) = false := by
    rw [hasHeader_drop hg0]
    cases T with
    | nil => exact absurd rfl hne
    | cons b T => rcases hbr with h | h <;> (obtain rfl : b = _ := h; rfl)
  obtain ⟨t, e0, hl⟩ := h1.laid h2 hh
  obtain ⟨⟨pre, ind, items, g1⟩, -⟩ := inline_head hl.laid.holds (Live.root doc) h4 h5 h3
  refine ⟨hbr, hg0, ?_⟩
  have hroot : t.id = doc.root := hl.laid.holds.root.symm
  have hself := t.find_self
  rw [hroot, g1] at hself
  obtain rfl := Option.some.inj hself
  have hlies := hl.laid.lies
  rw [Tree.erase] at hlies
  obtain ⟨p, ha⟩ := hl.laid.holds.at g1
  have hcont := (Tree.content_reads hl.laid.holds.rep).unique (by rw [hroot]; exact h6)
  refine ⟨pre, m, ind, tr, w, items.erase, ?_, ?_⟩
  · suffices he : e0 = T.length by rw [← he]; exact hlies
    have hpre : pre = [] := by
      have := Tree.erase_pre (t := .node doc.root pre m ind (.inline tr w) items)
      cases hlies with
      | brackets k1 => rw [k1.unique hg0, slice_none (Nat.le_refl _)]
      | braces k1 => rw [k1.unique hg0, slice_none (Nat.le_refl _)]
    have hw := hl.laid.holds.write
    rw [h2, hl.laid.suffix, Tree.text, Except.ok.inj (ha.text.symm.trans h3), show (Tree.node doc.root pre m ind (.inline tr w) items).pre = [] from hpre, List.nil_append] at hw
    have := congrArg List.length (List.append_cancel_left (Except.ok.inj hw))
    have hle := hl.laid.gap.le
    rw [slice_length (Nat.le_refl _)] at this
    simp at this hle
    omega
  · rw [← hcont, ← Tree.content_erase]
    rfl

/-- C93, what holds: an inline collection of a text that is written as it was read, and any series of edits of it and of what is in it; it may not itself be made a new collection.  What is
written is the text with the new text of the collection in place of the old.  If that text on its own, with a line break after it, is written as it was read, and says what the collection says in the edited
document, then all of the document is read back; provided that after the outermost inline collection around it there is nothing else on the line, that no key before it goes on in it, and that in an inline
collection it does not touch what is before it. -/
theorem C93_inside_partial {inp : Bytes} {doc : Document} (h : Parsed inp doc) (hw : doc.write = .ok inp) (hh : hasHeader inp = false) (hf : followed inp = true)
    (hc : noWsComma inp = true ∨ LBR ∉ inp) (hu : validUtf8 inp = true ∨ HASH ∉ inp) {x : Nat} (hx : Live doc x) {m : Bool} {C : Coll} {tr : Bool} {w : Bytes} (hC : collAt m doc.data x = .ok C)
    (hk : C.kind = .inline tr w) {old : Bytes} (ho : valueText doc.data x = .ok old) :
    ∃ r s b d E, Stands inp doc x b d ∧ inp.drop r = skipBlank false inp ∧ Within inp doc.data.view .block doc.root r s x b ∧ Outer inp doc.data.view .block doc.root r s x b d E ∧
      ∀ doc', Inside x doc doc' → ∃ new, valueText doc'.data x = .ok new ∧ doc'.write = .ok (inp.take b ++ new ++ inp.drop d) ∧
        ∀ c, OnItsOwn new c → Reads doc'.data x c →
          (∀ g, FullGap inp E g → NL ∈ slice inp d g ∨ g = inp.length) → KeysEnd inp b → (s = .flow → Apart inp b) → Stable doc' := by
  obtain ⟨t, e0, hl⟩ := h.laid hw hh
  have ht := hl.laid.holds
  obtain ⟨⟨pre, ind, items, g1⟩, hbr⟩ := inline_head ht hx hC hk ho
  have hn : old.headD 0 ≠ 0 := by rw [hbr]; cases m <;> decide
  obtain ⟨u, r, s, b0, b, d, E, hu', hL, hg, hg0, hr, hbd, hd, w1, w2, w3, rfl, hctl, hrf, hwi, hE, hall⟩ := hl.reads hf hc hu hh hx ho hn
  rw [slice_headD hbd] at hbr
  refine ⟨r, s, b, d, E, ⟨hbd, hd, ho, hrf⟩, hr, hwi, hE, fun doc' hin => ?_⟩
  obtain ⟨u', hid, hpre, hsuf, hh2⟩ := hin.tree ht hu'
  obtain ⟨p, ha⟩ := hh2.at (Tree.find_upd hu' hid)
  obtain ⟨hwr, hfin⟩ := hall doc' u' hid hpre hsuf hh2
  have htext := ha.text
  have hreads := Tree.content_reads ha.rep
  rw [hid] at hreads
  refine ⟨_, htext, hwr, fun c hown hc' hline hkeys hap => ?_⟩
  generalize u'.render = new at *
  obtain ⟨hb', hgn, pre', m', ind', tr', w', items', hlies, hcont⟩ := hown.lies
  have hlb : (inp.take b).length = b := by rw [List.length_take]; omega
  have hcut := cut3 (inp := inp) (Nat.le_of_lt hbd)
  have hld : (inp.take b ++ slice inp b d).length = d := by rw [List.length_append, slice_length hd, hlb]; omega
  have hne : (slice inp b d).headD 0 ≠ 0 := by rw [slice_headD hbd]; exact w3
  have hne1 : new.headD 0 ≠ 0 := by rcases hb' with h | h <;> rw [h] <;> decide
  have H : Hole (inp.take b) (slice inp b d) new (inp.drop d) E s.inline := by
    refine ⟨⟨⟨?_, ?_, ?_⟩, ⟨?_, ?_, ?_⟩, ?_⟩, ?_, ?_, ?_, ?_, ?_⟩
    · rw [headD_first hne, slice_headD hbd]; exact w1
    · rw [headD_first hne, slice_headD hbd]; exact w2
    · rw [headD_first hne, slice_headD hbd]; exact w3
    · rw [headD_first hne1]; rcases hb' with h | h <;> rw [h] <;> decide
    · rw [headD_first hne1]; rcases hb' with h | h <;> rw [h] <;> decide
    · rw [headD_first hne1]; exact hne1
    · intro a k lo q h1 h2 h3 h4
      rw [← List.append_assoc, hcut] at h1 h2 h4
      rw [hlb] at h3
      have h5 := hkeys a k lo q h1 h2 h3 h4
      refine ⟨k, q, ?_⟩
      rw [← List.take_append_drop b inp] at h4
      rcases Nat.lt_or_ge (q + 1) b with hq | hq
      · exact Inner.firstKey h4 (by omega) (.inl (by omega))
      · obtain ⟨f1, f2, f3⟩ := h4
        refine ⟨f1, by rw [Joint.get (by omega)]; exact f2, ?_⟩
        rw [Joint.slice (by omega)]
        rcases f3 with f3 | ⟨-, -, -, -, ⟨-, f3⟩, -⟩
        · exact .inl f3
        · rw [List.take_append_drop, show q + 1 = b by omega] at f3
          rcases f3 with f3 | f3
          · rw [w1] at f3; cases f3
          · exact absurd f3 w3
    · exact hne1
    · intro h
      rcases hb' with h | h <;> rw [h] <;> decide
    · rw [hcut, hld]; exact hline
    · intro h
      rw [hcut, hlb]
      unfold atBlock
      rw [hbr]
      cases m <;> decide
    · intro h α V v lo hi hs
      rw [hcut] at hs
      rw [hlb]
      rintro rfl
      exact hs.notNext (hap (by cases s <;> first | rfl | cases h)) (by omega) w1 w2 (hctl h)
  have hg' : FullGap (inp.take b ++ new ++ inp.drop d) b0 (inp.take b).length := H.full (by rw [hcut, hlb]; exact hg) (Nat.le_refl _)
  have hcar := Lies.carry hown.blocks (followed_drop hf d) hlies hgn hg' s
  obtain ⟨V, e', k1, k2, k3⟩ := hfin _ (show _ = u'.content from ((show Tree.content (.node () _ m' 0 (.inline tr' w') items') = c by rw [← hcont]; cases m' <;> rfl).trans (hc'.unique hreads))) H hcar
  have hrb := hwi.le
  have hgr : FullGap (inp.take b ++ new ++ inp.drop d) 0 r := H.full (by rw [hcut]; exact hg0) (by omega)
  have hhead : hasHeader (inp.take b ++ new ++ inp.drop d) = false := by
    have key : ∀ {i : Nat}, i < b → (inp.take b ++ new ++ inp.drop d).getD i 0 = inp.getD i 0 := by
      intro i hi
      rw [List.append_assoc, Joint.getD (t := inp.drop b) (by omega), List.take_append_drop]
    have keyb : (inp.take b ++ new ++ inp.drop d).getD b 0 = new.headD 0 := by
      have := Joint.at0 (inp.take b) (new ++ inp.drop d)
      rw [hlb, headD_first hne1, ← List.append_assoc] at this
      exact this
    rw [hasHeader_drop hgr]
    rw [hasHeader_drop hg0] at hh
    have hhd : ∀ z : Bytes, (z.drop r).headD 0 = z.getD r 0 := fun z => by rw [List.headD_eq_head?_getD, List.head?_drop, List.getD_eq_getElem?_getD]
    have h3 : ∀ z : Bytes, (z.drop r).take 3 = [DASH, DASH, DASH] → z.getD r 0 = DASH ∧ z.getD (r + 1) 0 = DASH ∧ z.getD (r + 2) 0 = DASH := by
      intro z hz
      have : ∀ i, i < 3 → z[r + i]? = some DASH := fun i hi => by
        have h1 := congrArg (fun l : Bytes => l[i]?) hz
        rw [List.getElem?_take, if_pos hi, List.getElem?_drop] at h1
        rw [h1]
        rcases i with _ | _ | _ | i
        · rfl
        · rfl
        · rfl
        · omega
      exact ⟨by rw [List.getD_eq_getElem?_getD, show r = r + 0 from rfl, this 0 (by omega)]; rfl, by rw [List.getD_eq_getElem?_getD, this 1 (by omega)]; rfl,
        by rw [List.getD_eq_getElem?_getD, this 2 (by omega)]; rfl⟩
    rw [Bool.or_eq_false_iff, beq_eq_false_iff_ne, beq_eq_false_iff_ne] at hh ⊢
    have hnd : new.headD 0 ≠ DASH ∧ new.headD 0 ≠ PCT := by rcases hb' with h | h <;> rw [h] <;> decide
    rcases Nat.lt_or_ge r b with hlt | hge
    · refine ⟨by rw [hhd, key hlt, ← hhd]; exact hh.1, fun h => ?_⟩
      obtain ⟨q0, q1, q2⟩ := h3 _ h
      rcases Nat.lt_or_ge (r + 2) b with hlt2 | hge2
      · refine hh.2 ?_
        rw [key hlt] at q0
        rw [key (by omega)] at q1
        rw [key hlt2] at q2
        have : ∀ {i : Nat}, i < b → inp.getD i 0 = DASH → inp[i]? = some DASH := fun {i} hi h => by
          rw [List.getD_eq_getElem?_getD, List.getElem?_eq_getElem (by omega)] at h
          rw [List.getElem?_eq_getElem (by omega)]
          exact congrArg some h
        rw [List.drop_eq_getElem_cons (by omega), List.drop_eq_getElem_cons (by omega), List.drop_eq_getElem_cons (by omega), List.take_succ_cons, List.take_succ_cons, List.take_succ_cons, List.take_zero]
        have a0 := this hlt q0
        have a1 := this (by omega) q1
        have a2 := this hlt2 q2
        rw [List.getElem?_eq_getElem (by omega)] at a0 a1 a2
        rw [Option.some.inj a0, Option.some.inj a1, Option.some.inj a2]
      · rcases (show r + 1 = b ∨ r + 2 = b by omega) with rfl | rfl
        · rw [keyb] at q1; exact hnd.1 q1
        · rw [keyb] at q2; exact hnd.1 q2
    · obtain rfl : r = b := by omega
      refine ⟨by rw [hhd, keyb]; exact hnd.2, fun h => ?_⟩
      have := (h3 _ h).1
      rw [keyb] at this
      exact hnd.1 this
  obtain ⟨lo, hi, j1, j2, -, j3⟩ := k2.sits
  obtain ⟨doc2, p1, p2⟩ := accepted (inp := inp.take b ++ new ++ inp.drop d) ⟨lo, hi, j1.le.2, by rw [body_eq hhead, skipBlank_eq, ← j1.eq, wsEnd]; simp, j2.content, by
    rcases j3 with rfl | j3
    · exact k3
    · exact j3.1.twice k3⟩
  refine ⟨_, doc2, _, hwr, p1, ?_, p2⟩
  rw [k1, hh2.root]
  exact Tree.content_reads hh2.rep

/-- C93 where there is no bracket before the collection and a line break after it. -/
theorem C93_line_partial {inp : Bytes} {doc : Document} (h : Parsed inp doc) (hw : doc.write = .ok inp) (hh : hasHeader inp = false) (hf : followed inp = true)
    (hc : noWsComma inp = true ∨ LBR ∉ inp) (hu : validUtf8 inp = true ∨ HASH ∉ inp) {x : Nat} (hx : Live doc x) {m : Bool} {C : Coll} {tr : Bool} {w : Bytes} (hC : collAt m doc.data x = .ok C)
    (hk : C.kind = .inline tr w) {old : Bytes} (ho : valueText doc.data x = .ok old) :
    ∃ b d, Stands inp doc x b d ∧ (LBR ∉ inp.take b → LCB ∉ inp.take b → inp[d]? = some NL ∨ d = inp.length → KeysEnd inp b →
      ∀ doc', Inside x doc doc' → ∃ new, valueText doc'.data x = .ok new ∧ doc'.write = .ok (inp.take b ++ new ++ inp.drop d) ∧ ∀ c, OnItsOwn new c → Reads doc'.data x c → Stable doc') := by
  obtain ⟨r, s, b, d, E, h1, h2, h3, h4, h5⟩ := C93_inside_partial h hw hh hf hc hu hx hC hk ho
  refine ⟨b, d, h1, fun k1 k2 k3 k4 doc' hin => ?_⟩
  obtain ⟨n1, rfl⟩ := outer_top h4 k1 k2
  obtain ⟨new, g1, g2, g3⟩ := h5 doc' hin
  exact ⟨new, g1, g2, fun c hc hr => g3 c hc hr (line_after k3) k4 (fun h => absurd h n1)⟩

/-- Three edits in a list in brackets: an entry is removed from a mapping in it, then an item of the list, and another item is replaced. -/
example : ∃ doc doc', Parsed (b! "a: [1, {b: 2, c: 3}, x]\nd: 4\n") doc ∧ Inside 2 doc doc' ∧ doc'.write = .ok (b! "a: [ { c: 3}, true]\nd: 4\n") ∧ Stable doc' := by
  have hp : Parsed (b! "a: [1, {b: 2, c: 3}, x]\nd: 4\n") (docOfText (b! "a: [1, {b: 2, c: 3}, x]\nd: 4\n")) := ⟨60, by decide +kernel⟩
  obtain ⟨b, d, h1, h2⟩ := C93_line_partial hp (by decide +kernel) (by decide +kernel) (by decide +kernel) (.inl (by decide)) (.inr (by decide)) (x := 2)
    (.viaMap [(b! "a", 2), (b! "d", 14)] (b! "a") .self (by decide +kernel) (by decide +kernel) (by decide)) (m := false)
    (C := ⟨0, .inline false [], [3, 5, 11]⟩) (by decide +kernel) rfl (old := b! "[1, {b: 2, c: 3}, x]") (by decide +kernel)
  obtain ⟨rfl, rfl⟩ : b = 3 ∧ d = 23 :=
    (by decide +kernel : ∀ d ≤ 29, ∀ b < d, (b! "[1, {b: 2, c: 3}, x]") = slice (b! "a: [1, {b: 2, c: 3}, x]\nd: 4\n") b d → b = 3 ∧ d = 23) d h1.le b h1.lt
      (Except.ok.inj ((show valueText _ _ = .ok (b! "[1, {b: 2, c: 3}, x]") by decide +kernel).symm.trans h1.text))
  have hin : Inside 2 (docOfText (b! "a: [1, {b: 2, c: 3}, x]\nd: 4\n"))
      ((((docOfText (b! "a: [1, {b: 2, c: 3}, x]\nd: 4\n")).after 6 (.remove (b! "b"))).after 2 (.removeAt 0)).after 12 (.setBool true)) := by
    refine .edit (mid := (docOfText (b! "a: [1, {b: 2, c: 3}, x]\nd: 4\n")).after 6 (.remove (b! "b"))) (y := 6) (op := .remove (b! "b")) (.step .self (.inl ⟨[4, 6, 12], by decide +kernel, by decide +kernel, by decide⟩)) (by decide) (by decide +kernel) ?_
    refine .edit (mid := ((docOfText (b! "a: [1, {b: 2, c: 3}, x]\nd: 4\n")).after 6 (.remove (b! "b"))).after 2 (.removeAt 0)) (y := 2) (op := .removeAt 0) .self (fun _ => by decide) (by decide +kernel) ?_
    exact .edit (y := 12) (op := .setBool true) (.step .self (.inl ⟨[6, 12], by decide +kernel, by decide +kernel, by decide⟩)) (by decide) (by decide +kernel) .done
  obtain ⟨new, g1, g2, g3⟩ := h2 (by decide) (by decide) (.inl (by decide))
    (.opened (by decide) (by decide) (by decide) (p := 1) (by decide) (.inr (by decide))
      (fun i h1 h2 => (by decide : ∀ i < 3, 1 < i → isIndicator ((b! "a: [1, {b: 2, c: 3}, x]\nd: 4\n").getD i 0) = true ∨ dashes ((b! "a: [1, {b: 2, c: 3}, x]\nd: 4\n").drop i) = true) i h2 h1)) _ hin
  obtain rfl : b! "[ { c: 3}, true]" = new := Except.ok.inj ((show _ = Except.ok (b! "[ { c: 3}, true]") by decide +kernel).symm.trans g1)
  refine ⟨_, _, hp, hin, g2, g3 (.seq (.cons (.map (.cons (b! "c") (.scalar (.number (b! "3"))) .nil)) (.cons (.scalar (.bool true)) .nil))) ⟨by decide +kernel, ?_⟩ ?_⟩
  · refine ⟨docOfText (b! "[ { c: 3}, true]\n"), false, ⟨0, .inline false [], [1, 5]⟩, _, _, ⟨60, by decide +kernel⟩, by decide +kernel, by decide +kernel, by decide +kernel, rfl, ?_⟩
    refine ⟨[2, 6], ⟨by decide +kernel, by decide +kernel⟩, 2, [6], rfl, ?_, 6, [], rfl, ⟨by decide +kernel, rfl⟩, rfl⟩
    exact ⟨[(b! "c", 4)], ⟨by decide +kernel, by decide +kernel⟩, 4, [], rfl, ⟨by decide +kernel, rfl⟩, rfl⟩
  · refine ⟨[6, 12], ⟨by decide +kernel, by decide +kernel⟩, 6, [12], rfl, ?_, 12, [], rfl, ⟨by decide +kernel, rfl⟩, rfl⟩
    exact ⟨[(b! "c", 10)], ⟨by decide +kernel, by decide +kernel⟩, 10, [], rfl, ⟨by decide +kernel, rfl⟩, rfl⟩

/-- Without a look at the text of the collection, C93 is false: when the only entry of `{a: 1, }` is removed, what is written is not accepted. -/
theorem C93_remove_false : ¬ ∀ (inp : Bytes) (doc doc' : Document) (x : Nat) (m : Bool) (C : Coll) (tr : Bool) (w : Bytes), Parsed inp doc → doc.write = .ok inp → Live doc x → collAt m doc.data x = .ok C →
    C.kind = .inline tr w → Inside x doc doc' → Stable doc' := by
  intro h
  have := h (b! "{a: 1, }\n") (docOfText (b! "{a: 1, }\n")) ((docOfText (b! "{a: 1, }\n")).after 0 (.remove (b! "a"))) 0 true ⟨0, .inline true (b! " "), [1]⟩ _ _ ⟨60, by decide +kernel⟩ (by decide +kernel) .self
    (by decide +kernel) rfl (.edit (y := 0) (op := .remove (b! "a")) .self (fun _ => by decide) (by decide +kernel) .done)
  exact unstable_none (out := b! "{, }\n") (by decide +kernel) (by decide +kernel) this

end Verif
