import Verif.GrammarLemmas
import Verif.HistLemmas
import Verif.LiveLemmas

/-! Documents of the grammar: what they read as, what they are written as, and that they are accepted. -/

namespace Verif

theorem Atom.value_scalar (a : Atom) : a.value.isScalar = true := by
  cases a with
  | plain s => simp only [Atom.value, plainValue]; repeat' split
               all_goals rfl
  | single s => rfl
  | double s => rfl
  | pieces ps => rfl

theorem asAny_leaf {d : Data} {par : Option Nat} {i : Nat} {p : Bytes} {s : Scalar} (h : Rep d par (.leaf i p s)) : asAny d i = .ok s.value := by
  have := raw_of h.head
  simp only [Tree.id_leaf] at this
  cases s <;> simp [asAny, this, Tree.raw, Scalar.toRaw, Scalar.value, bind, Except.bind, pure, Except.pure]

theorem isMap_node {d : Data} {par : Option Nat} {i : Nat} {p : Bytes} {ind : Nat} {k : CollKind} {items : Items Nat}
    (h : Rep d par (.node i p true ind k items)) : IsMap d i (items.pairs.map fun q => (q.1.id, q.2.id)) := by
  refine ⟨?_, mapEntries_node h⟩
  have := raw_of h.head
  simp only [Tree.id_node] at this
  simp [asMapping, this, Tree.raw, collRaw, bind, Except.bind, pure, Except.pure]

theorem isSeq_node {d : Data} {par : Option Nat} {i : Nat} {p : Bytes} {ind : Nat} {k : CollKind} {items : Items Nat}
    (h : Rep d par (.node i p false ind k items)) : IsSeq d i (items.pairs.map (·.2.id)) := by
  refine ⟨?_, seqValues_node h⟩
  have := raw_of h.head
  simp only [Tree.id_node] at this
  simp [asSequence, this, Tree.raw, collRaw, bind, Except.bind, pure, Except.pure]

mutual
theorem F.Fits.reads {d : Data} : ∀ {x : F} {pre : Bytes} {t : Tree Nat} {par : Option Nat}, x.Fits pre t → Rep d par t → Reads d t.id x.val
  | .atom a, _, .leaf i _ sc, par, .atom h, hr => ⟨by rw [Tree.id_leaf, asAny_leaf hr, h.2], a.value_scalar⟩
  | .coll true items, _, .node i _ _ _ _ its, par, .coll h, hr => ⟨_, isMap_node hr, h.readsMap hr.node.2⟩
  | .coll false items, _, .node i _ _ _ _ its, par, .coll h, hr => ⟨_, isSeq_node hr, h.readsSeq hr.node.2⟩
theorem Fs.Fits.readsMap {d : Data} : ∀ {xs : Fs} {its : Items Nat} {c : Nat}, Fs.Fits true xs its → RepItems d c true its →
    ReadsMap d (its.pairs.map fun q => (q.1.id, q.2.id)) xs.entries
  | .nil, .nil, c, .nil, _ => rfl
  | .cons _ key _ v rest, .cons i _ k v' r, c, .cons h1 h2 h3, hr =>
    ⟨v'.id, r.pairs.map (fun q => (q.1.id, q.2.id)), by simp only [if_true] at h1; simp [Items.pairs, h1.2.1], h2.reads hr.cons.2.1, h3.readsMap hr.cons.2.2⟩
theorem Fs.Fits.readsSeq {d : Data} : ∀ {xs : Fs} {its : Items Nat} {c : Nat}, Fs.Fits false xs its → RepItems d c false its →
    ReadsSeq d (its.pairs.map (·.2.id)) xs.elems
  | .nil, .nil, c, .nil, _ => rfl
  | .cons _ key _ v rest, .cons i _ k v' r, c, .cons h1 h2 h3, hr =>
    ⟨v'.id, r.pairs.map (·.2.id), rfl, h2.reads hr.cons.2.1, h3.readsSeq hr.cons.2.2⟩
end

mutual
theorem Y.Fits.reads {d : Data} : ∀ {c : Nat} {y : Y} {pre : Bytes} {t : Tree Nat} {par : Option Nat}, y.Fits c pre t → Rep d par t → Reads d t.id y.val
  | _, .flow f, _, _, par, .flow h, hr => by rw [Y.val]; exact h.reads hr
  | _, .block b, _, .leaf i _ _, par, .block _ h, hr => ⟨by rw [Tree.id_leaf, asAny_leaf hr, ← h]; rfl, rfl⟩
  | _, .hole, _, .leaf i _ _, par, .hole, hr => ⟨by rw [Tree.id_leaf, asAny_leaf hr]; rfl, rfl⟩
  | _, .coll true items, _, .node i _ _ _ _ its, par, .coll h _ _, hr => ⟨_, isMap_node hr, h.readsMap hr.node.2⟩
  | _, .coll false items, _, .node i _ _ _ _ its, par, .coll h _ _, hr => ⟨_, isSeq_node hr, h.readsSeq hr.node.2⟩
theorem Ys.Fits.readsMap {d : Data} : ∀ {c0 : Nat} {first : Bool} {xs : Ys} {its : Items Nat} {c : Nat}, Ys.Fits true c0 first xs its → RepItems d c true its →
    ReadsMap d (its.pairs.map fun q => (q.1.id, q.2.id)) xs.entries
  | _, _, .nil, .nil, c, .nil, _ => rfl
  | _, _, .cons _ _ key v rest, .cons i _ k v' r, c, .cons _ h1 _ h2 h3, hr =>
    ⟨v'.id, r.pairs.map (fun q => (q.1.id, q.2.id)), by simp only [if_true] at h1; simp [Items.pairs, h1.2], h2.reads hr.cons.2.1, h3.readsMap hr.cons.2.2⟩
theorem Ys.Fits.readsSeq {d : Data} : ∀ {c0 : Nat} {first : Bool} {xs : Ys} {its : Items Nat} {c : Nat}, Ys.Fits false c0 first xs its → RepItems d c false its →
    ReadsSeq d (its.pairs.map (·.2.id)) xs.elems
  | _, _, .nil, .nil, c, .nil, _ => rfl
  | _, _, .cons _ _ key v rest, .cons i _ k v' r, c, .cons _ h1 _ h2 h3, hr =>
    ⟨v'.id, r.pairs.map (·.2.id), rfl, h2.reads hr.cons.2.1, h3.readsSeq hr.cons.2.2⟩
end

/-! ### Documents -/

/-- The document is laid out and reads as the page. -/
def FitsDoc (doc : Document) (p : Page) : Prop :=
  ∃ t, Holds doc t ∧ p.body.Fits p.col (p.lead ++ List.replicate p.col SP) t ∧
    (∃ l0 c0, leadOk l0 = true ∧ t.pre = l0 ++ List.replicate c0 SP ∧ (p.body.isFlow = false → c0 = p.col)) ∧ doc.suffix = p.tail

theorem FitsDoc.write {doc : Document} {p : Page} (h : FitsDoc doc p) : doc.write = .ok p.text := by
  obtain ⟨t, h1, h2, _, h3⟩ := h
  rw [h1.write, h2.text, h3]; simp [Page.text]

theorem FitsDoc.reads {doc : Document} {p : Page} (h : FitsDoc doc p) : Reads doc.data doc.root p.body.val := by
  obtain ⟨t, h1, h2, _⟩ := h
  rw [h1.root]; exact h2.reads h1.rep

theorem blank_hd {s : Bytes} (h : blank s = true) : hd s ≠ DASH ∧ hd s ≠ PCT := by
  cases s with
  | nil => decide
  | cons b r =>
    rw [blank, blankGo] at h
    show b ≠ DASH ∧ b ≠ PCT
    constructor
    · rintro rfl; rw [if_neg (by decide), show isWs DASH = false by decide] at h; cases h
    · rintro rfl; rw [if_neg (by decide), show isWs PCT = false by decide] at h; cases h

theorem tail_ws {inp : Bytes} {n : Nat} {tail : Bytes} (h : inp.drop n = tail) (ht : blank tail = true) (hn : n ≤ inp.length) :
    wsEnd inp n = inp.length ∧ wsStr inp n = tail := by
  have h' : inp.drop n = tail ++ [] := by simpa using h
  obtain ⟨w1, w2⟩ := ws_of h' (by simpa using wsGo_blank ht)
  refine ⟨?_, w2⟩
  have := congrArg List.length h
  simp at this
  omega

theorem wsGo_blankCount : ∀ {c : Bool} {w : Bytes}, blankGo c w = true → (wsGo c w).2 = w.count NL
  | c, [], _ => by cases c <;> rfl
  | true, b :: w, h => by
    rw [blankGo] at h
    rw [wsGo, List.count_cons]
    cases h1 : b == NL with
    | true => simp [bne, h1] at h; simp [wsGo_blankCount h]
    | false => simp [bne, h1] at h; simp [wsGo_blankCount h]
  | false, b :: w, h => by
    rw [blankGo] at h
    rw [wsGo, List.count_cons]
    split at h
    · next h2 =>
      have : (b == NL) = false := by rw [beq_iff_eq] at h2; subst h2; rfl
      simp [h2, this, wsGo_blankCount h]
    · next h2 =>
      simp only [Bool.and_eq_true, isWs, Bool.or_eq_true] at h
      simp only [h2]
      cases h1 : b == NL with
      | true => simp [wsGo_blankCount h.2]
      | false => simp [h.1.resolve_right (by simp [h1]), wsGo_blankCount h.2]

theorem noMarker {inp s tail : Bytes} {n : Nat} (h0 : inp.drop n = s ++ tail) (h : (b! "---").isPrefixOf s = false) (ht : blank tail = true) :
    (peekAt inp n == DASH && peekAt inp (n + 1) == DASH && peekAt inp (n + 2) == DASH) = false := by
  have htl' : (hd tail == DASH) = false := by simpa using (blank_hd ht).1
  have hp : ∀ k, peekAt inp (n + k) = peekAt (s ++ tail) k := by
    intro k; simp only [peekAt]; rw [← List.drop_drop, h0]
  rw [hp 1, hp 2, ← Nat.add_zero n, hp 0]
  match s with
  | [] => simp only [List.nil_append, peekAt, List.drop_zero, htl', Bool.false_and]
  | [a] => simp only [peekAt, List.cons_append, List.nil_append, List.drop_succ_cons, List.drop_zero, htl', Bool.and_false, Bool.false_and]
  | [a, b] => simp only [peekAt, List.cons_append, List.nil_append, List.drop_succ_cons, List.drop_zero, htl', Bool.and_false]
  | a :: b :: c :: r =>
    simp only [List.isPrefixOf, Bool.and_true] at h
    simp only [peekAt, List.cons_append, List.drop_succ_cons, List.drop_zero, List.headD_cons]
    rw [Bool.and_assoc, ← h]
    simp only [Bool.beq_comm]

theorem eq_concat_of_getLastD {s : Bytes} (h : s.isEmpty = false) (h2 : s.getLastD 0 = NL) : ∃ r, s = r ++ [NL] := by
  cases s with
  | nil => cases h
  | cons b r =>
    have := List.dropLast_concat_getLast (l := b :: r) (by simp)
    refine ⟨(b :: r).dropLast, ?_⟩
    rw [List.getLastD_eq_getLast?, List.getLast?_eq_some_getLast (l := b :: r) (by simp)] at h2
    simp only [Option.getD_some] at h2
    rw [h2] at this
    exact this.symm

theorem blankGo_append : ∀ {c : Bool} {a b : Bytes}, blankGo c (a ++ b) = true → blankGo c a = true
  | c, [], b, _ => by cases c <;> rfl
  | true, x :: a, b, h => by rw [List.cons_append, blankGo] at h; rw [blankGo]; exact blankGo_append h
  | false, x :: a, b, h => by
    rw [List.cons_append, blankGo] at h; rw [blankGo]
    split
    · next h2 => rw [if_pos h2] at h; exact blankGo_append h
    · next h2 => rw [if_neg h2, Bool.and_eq_true] at h; rw [h.1, blankGo_append h.2]; rfl

/-- The end of a page. -/
theorem blk_last {inp : Bytes} {n c : Nat} {tail : Bytes} {y : Y} (h : inp.drop n = tail) (ht : blank tail = true) (hn : n ≤ inp.length)
    (hy : y.blkAfter tail = true) : ∀ b, y.endBlk = some b → BlkEnd inp b c n := by
  intro b he
  rw [Y.blkAfter, he] at hy
  simp only [Blk.after, Bool.and_eq_true, Bool.or_eq_true, beq_iff_eq] at hy
  refine ⟨hy.2.imp id (fun hq => by rw [← hq.1, wsNl, h]; exact wsGo_blankCount ht), ?_⟩
  cases hemp : tail.isEmpty with
  | true =>
    have h1 := hy.1
    rw [hemp] at h1
    exact .inr ⟨by rw [h]; exact List.isEmpty_iff.1 hemp, by simpa using h1⟩
  | false =>
    have h1 := hy.1
    rw [hemp] at h1
    obtain ⟨r, rfl⟩ := eq_concat_of_getLastD hemp (by simpa using h1)
    left
    have h2 : inp.drop (n + r.length) = NL :: List.replicate 0 SP ++ [] := by rw [drop_add h]; rfl
    have h3 := (Col.line h2).indentFrom
    have h4 : inp.length = n + r.length + (0 + 1) := by
      have := congrArg List.length h
      simp at this; omega
    rw [(tail_ws h ht hn).1, h4, h3]; exact Nat.zero_le _

/-- The start of a page. -/
theorem lead_start {inp l s : Bytes} {c : Nat} (h : inp = l ++ List.replicate c SP ++ s) (hl : leadOk l = true) (hs : stopWs s) :
    wsEnd inp 0 = (l ++ List.replicate c SP).length ∧ wsStr inp 0 = l ++ List.replicate c SP ∧ Col inp (l ++ List.replicate c SP).length c := by
  have h0 : inp.drop 0 = (l ++ List.replicate c SP) ++ s := by rw [h]; rfl
  simp only [leadOk, Bool.and_eq_true, Bool.or_eq_true] at hl
  cases he : l.isEmpty with
  | true =>
    have : l = [] := by simpa using he
    subst this
    simp only [List.nil_append] at *
    obtain ⟨w1, w2⟩ := ws_gap h0 (gap_spaces c) hs
    refine ⟨by omega, w2, ?_⟩
    have := (Col.zero inp).next (x := List.replicate c SP) (s := s) h0 (by intro x hx; rw [List.eq_of_mem_replicate hx]; decide)
    simpa using this
  | false =>
    obtain ⟨r, rfl⟩ := eq_concat_of_getLastD he (by simpa [he] using hl.2)
    have e : r ++ [NL] ++ List.replicate c SP = newLine c r := by simp [newLine]
    rw [e] at h0 ⊢
    obtain ⟨w1, w2, _, w4⟩ := ws_line h0 (blankGo_append hl.1) hs
    rw [Nat.zero_add] at w1 w4
    exact ⟨w1, w2, w4⟩

/-- Texts of the grammar are accepted. -/
theorem parse_page {p : Page} {strict : Bool} (hp : p.ok strict = true) : ∃ doc, Parsed p.text doc ∧ FitsDoc doc p := by
  simp only [Page.ok, Bool.and_eq_true, bne_iff_ne, ne_eq, Bool.not_eq_true'] at hp
  obtain ⟨⟨⟨⟨hlead, hok⟩, htail, hblk⟩, hpct⟩, hmark⟩ := hp
  generalize hinp : p.text = inp
  have hbl : blank p.tail = true := by simp only [afterOk, Bool.and_eq_true] at htail; exact htail.1
  have hi : inp = p.lead ++ List.replicate p.col SP ++ (p.body.text p.col ++ p.tail) := by rw [← hinp]; simp [Page.text]
  have hst := Y.start hok p.col p.tail
  obtain ⟨w1, w2, hcol⟩ := lead_start hi hlead hst
  generalize hpre : p.lead ++ List.replicate p.col SP = pre at *
  have h0 : inp.drop pre.length = p.body.text p.col ++ p.tail := by rw [hi]; simp
  have hlen : inp.length = pre.length + (p.body.text p.col).length + p.tail.length := by rw [hi]; simp; omega
  have hstart : ∀ f, startOfDocument (f + 1) inp = .ok (pre, pre.length) := by
    intro f
    have hp : (peekAt inp pre.length == PCT) = false := by
      rw [beq_eq_false_iff_ne, peek_of h0]
      intro hq
      cases hy : p.body.text p.col with
      | nil => rw [hy] at hq; exact (blank_hd hbl).2 hq
      | cons b r => rw [hy] at hq hpct; exact hpct hq
    have hm := noMarker h0 hmark hbl
    simp only [startOfDocument, w1, w2, startLoop, hp, hm, Bool.false_eq_true, if_false]
  have h1 := drop_add h0
  obtain ⟨u1, u2⟩ := tail_ws h1 hbl (by omega)
  have hf : follows false p.body.plainEnd p.tail := by
    have := follows_after htail (r := []) (.inr (.inl rfl))
    simpa using this
  obtain ⟨t, ws, m, hfit, htp, ⟨f0, hv⟩, hw⟩ := parse_Y p.body (c := p.col) (n := pre.length) (s := ⟨pre, false, true, none⟩) hok h0 hf
    (fun _ => ⟨hcol, .inl u1⟩) (blk_last h1 hbl (by omega) hblk) rfl rfl (by simp)
  rw [u1, u2] at hw
  refine ⟨docOf t p.tail, ⟨f0 + 1, ?_⟩, t.label 0, docOf_holds t p.tail, by rw [hpre]; exact hfit.label 0,
    ⟨p.lead, p.col, hlead, by rw [Tree.label_pre, htp, hpre], fun _ => rfl⟩, rfl⟩
  rw [parseF_refine]
  have : pparseF (f0 + 1) inp = .ok (t, p.tail) := by
    simp only [pparseF, hstart, bind, Except.bind, hv (f0 + 1) (by omega), hw, if_true]; rfl
  rw [this]

end Verif
