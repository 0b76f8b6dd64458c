import Verif.GoodEdit
import Verif.Props.Samples
/-
Edited documents are read back (C13, C25, C26, C27, C49, C51).
-/
namespace Verif

/-! ### Paths -/

theorem Path.append {d : Data} {x y z : Nat} {p q : List (Nat × Option Bytes)} (h : Path d x p y) (h2 : Path d y q z) : Path d x (p ++ q) z := by
  induction h with
  | here => exact h2
  | step h _ ih => exact .step h (ih h2)

theorem Child.nth {d : Data} {x y : Nat} (h : Child d x y) : ∃ n k, Nth d x n k y := by
  rcases h with ⟨l, h1, h2, h3⟩ | ⟨l, k, h1, h2, h3⟩
  · obtain ⟨n, hn⟩ := List.mem_iff_getElem?.1 h3
    exact ⟨n, none, l, ⟨h1, h2⟩, hn⟩
  · obtain ⟨n, hn⟩ := List.mem_iff_getElem?.1 h3
    exact ⟨n, some k, l, ⟨h1, h2⟩, hn⟩

/-- Every value of a document has a path. -/
theorem Live.path {doc : Document} {x : Nat} (h : Live doc x) : ∃ p, Path doc.data doc.root p x := by
  unfold Live at h
  generalize doc.root = r at h
  induction h with
  | self => exact ⟨[], .here⟩
  | step _ hc ih =>
    obtain ⟨p, hp⟩ := ih
    obtain ⟨n, k, hn⟩ := hc.nth
    exact ⟨p ++ [(n, k)], hp.append (.step hn .here)⟩

theorem ReadsSeq.nth {d d' : Data} {y : Nat} : ∀ {es : Elems} {l l' : List Nat} {n : Nat}, ReadsSeq d l es → ReadsSeq d' l' es → l[n]? = some y →
    ∃ y', l'[n]? = some y' ∧ ∃ w, Reads d y w ∧ Reads d' y' w
  | .nil, _, _, _, h, _, hn => by rw [show _ = [] from h] at hn; simp at hn
  | .cons v r, l, l', n, ⟨x1, l1, h1, h2, h3⟩, ⟨x2, l2, g1, g2, g3⟩, hn => by
    subst h1; subst g1
    cases n with
    | zero => simp at hn; subst hn; exact ⟨x2, rfl, v, h2, g2⟩
    | succ n => simp only [List.getElem?_cons_succ] at hn ⊢; exact ReadsSeq.nth h3 g3 hn

theorem ReadsMap.nth {d d' : Data} {k : Bytes} {y : Nat} : ∀ {es : Entries} {l l' : List (Bytes × Nat)} {n : Nat}, ReadsMap d l es → ReadsMap d' l' es →
    l[n]? = some (k, y) → ∃ y', l'[n]? = some (k, y') ∧ ∃ w, Reads d y w ∧ Reads d' y' w
  | .nil, _, _, _, h, _, hn => by rw [show _ = [] from h] at hn; simp at hn
  | .cons key v r, l, l', n, ⟨x1, l1, h1, h2, h3⟩, ⟨x2, l2, g1, g2, g3⟩, hn => by
    subst h1; subst g1
    cases n with
    | zero => simp at hn; obtain ⟨rfl, rfl⟩ := hn; exact ⟨x2, rfl, v, h2, g2⟩
    | succ n => simp only [List.getElem?_cons_succ] at hn ⊢; exact ReadsMap.nth h3 g3 hn

/-- Values that say the same have values that say the same. -/
theorem Reads.path {d d' : Data} {x z : Nat} {p : List (Nat × Option Bytes)} (hp : Path d x p z) : ∀ {x' : Nat} {v : Content}, Reads d x v → Reads d' x' v →
    ∃ z', Path d' x' p z' ∧ ∃ w, Reads d z w ∧ Reads d' z' w := by
  induction hp with
  | here => exact fun h1 h2 => ⟨_, .here, _, h1, h2⟩
  | @step x y z n k p hn _ ih =>
    intro x' v h1 h2
    have : ∃ y', Nth d' x' n k y' ∧ ∃ w, Reads d y w ∧ Reads d' y' w := by
      cases k with
      | none =>
        obtain ⟨l, hl, hy⟩ := hn
        cases v with
        | scalar a => have := (asAny_scalar h1.1 h1.2).2.symm.trans hl.1; cases this
        | map es => obtain ⟨_, h, _⟩ := h1; have := (map_not_seq h.1).symm.trans hl.1; cases this
        | seq es =>
          obtain ⟨l1, e1, e2⟩ := h1
          obtain ⟨l2, f1, f2⟩ := h2
          have := e1.2.symm.trans hl.2
          cases this
          obtain ⟨y', k1, k2⟩ := ReadsSeq.nth e2 f2 hy
          exact ⟨y', ⟨l2, f1, k1⟩, k2⟩
      | some key =>
        obtain ⟨l, hl, hy⟩ := hn
        cases v with
        | scalar a => have := (asAny_scalar h1.1 h1.2).1.symm.trans hl.1; cases this
        | seq es => obtain ⟨_, h, _⟩ := h1; have := (map_not_seq hl.1).symm.trans h.1; cases this
        | map es =>
          obtain ⟨l1, e1, e2⟩ := h1
          obtain ⟨l2, f1, f2⟩ := h2
          have := e1.2.symm.trans hl.2
          cases this
          obtain ⟨y', k1, k2⟩ := ReadsMap.nth e2 f2 hy
          exact ⟨y', ⟨l2, f1, k1⟩, k2⟩
    obtain ⟨y', k1, w, k2, k3⟩ := this
    obtain ⟨z', k4, k5⟩ := ih k2 k3
    exact ⟨z', .step k1 k4, k5⟩

/-! ### C49 -/

/-- C49: a document of the grammar (without comments after values on their line), edited any number of times — with scalars that can be written where they are,
keys that can be written as keys, collections made where they can be, block scalars (if any, with `-`, or in documents without blank lines) where they can be — so
that no value is written as nothing, is written as a text that is accepted, says the same as the edited document, value by value, is written back unchanged and can
be edited further in the same way. -/
theorem C49_edits {q : Mode} {doc : Document} (h : Tidy q doc) (hn : NoHoles doc) : ∃ out doc2, doc.write = .ok out ∧ fromSlice out = .ok doc2 ∧ doc2.write = .ok out ∧
    Tidy q doc2 ∧ (∃ v, Reads doc.data doc.root v ∧ Reads doc2.data doc2.root v) ∧
    ∀ p x, Path doc.data doc.root p x → ∃ y, Path doc2.data doc2.root p y ∧ ∃ w, Reads doc.data x w ∧ Reads doc2.data y w := by
  obtain ⟨p, hp, hc, hf⟩ := h.page hn
  obtain ⟨doc2, h1, h2⟩ := parse_page hp
  refine ⟨p.text, doc2, hf.write, parsed_iff.1 h1, h2.write, .parsed hp hc h1, ⟨_, hf.reads, h2.reads⟩, fun q x hq => ?_⟩
  exact Reads.path hq hf.reads h2.reads

/-! A sample: `a: 1⏎b: x⏎c: [p, q]⏎`, four edits. -/

theorem noHoles_of {doc : Document} (h : ∀ x, x < doc.data.slab.slots.length → valueText doc.data x ≠ .ok []) : NoHoles doc := by
  intro x _ e
  by_cases hx : x < doc.data.slab.slots.length
  · exact h x hx e
  · have : doc.data.slab.get x = none := by simp [Slab.get, Nat.not_lt.1 hx]
    simp [valueText, Data.raw, Data.entry, this, bind, Except.bind] at e

/-- The values in a collection. -/
def kids (d : Data) (c : Nat) : List Nat :=
  match asSequence d c, seqValues d c with
  | .ok (some _), .ok l => l
  | _, _ => match asMapping d c, mapEntries d c with
    | .ok (some _), .ok l => l.map (·.2)
    | _, _ => []

theorem Child.kids {d : Data} {c x : Nat} (h : Child d c x) : c < d.slab.slots.length ∧ x ∈ Verif.kids d c := by
  constructor
  · apply Classical.byContradiction
    intro hx
    have : d.slab.get c = none := by simp [Slab.get, Nat.not_lt.1 hx]
    rcases h with ⟨l, h1, _⟩ | ⟨l, k, h1, _⟩
    · simp [asSequence, Data.raw, Data.entry, this, bind, Except.bind] at h1
    · simp [asMapping, Data.raw, Data.entry, this, bind, Except.bind] at h1
  · rcases h with ⟨l, h1, h2, h3⟩ | ⟨l, k, h1, h2, h3⟩
    · simp only [Verif.kids, h1, h2]; exact h3
    · simp only [Verif.kids, map_not_seq h1, h1, h2]; exact List.mem_map.2 ⟨_, h3, rfl⟩

/-- `NotInline`, computed. -/
def notInline (d : Data) (c : Nat) : Bool := match valueText d c with | .ok (b :: _) => b != LBR && b != LCB | _ => true

theorem notInline_of {d : Data} {c : Nat} (h : notInline d c = true) : NotInline d c := by
  intro out ho
  rw [notInline, ho] at h
  cases out with
  | nil => decide
  | cons b r => simpa using h

/-- `CanMake`, computed. -/
def canMake (d : Data) (x : Nat) : Bool := (List.range d.slab.slots.length).all fun c => !(kids d c).contains x ||
  (notInline d c && (match asSequence d c with | .ok (some _) => (kids d c).head? != some x || column d c == 0 | _ => true))

theorem canMake_of {d : Data} {x : Nat} (h : canMake d x = true) : CanMake d x := by
  intro c hc
  obtain ⟨hlt, hk⟩ := hc.kids
  simp only [canMake, List.all_eq_true, List.mem_range] at h
  have h := h c hlt
  rw [List.contains_iff_mem.2 hk, Bool.not_true, Bool.false_or, Bool.and_eq_true] at h
  refine ⟨notInline_of h.1, fun l hl e => ?_⟩
  have h2 := h.2
  rw [hl.1] at h2
  simp only [kids, hl.1, hl.2] at h2
  simpa [e] using h2

/-- `CanBlock`, computed. -/
def canBlock (d : Data) (x : Nat) : Bool := notInline d x && (List.range d.slab.slots.length).all fun c => !(kids d c).contains x ||
  (notInline d c && (match asAny d x with | .ok a => !a.isScalar || decide (column d c < (lastLine (prefixOf d x)).length + 2) | _ => true))

theorem canBlock_of {d : Data} {x : Nat} (h : canBlock d x = true) : CanBlock d x := by
  simp only [canBlock, Bool.and_eq_true] at h
  refine ⟨notInline_of h.1, fun c hc => ?_⟩
  obtain ⟨hlt, hk⟩ := hc.kids
  have h := h.2
  simp only [List.all_eq_true, List.mem_range] at h
  have h := h c hlt
  rw [List.contains_iff_mem.2 hk, Bool.not_true, Bool.false_or, Bool.and_eq_true] at h
  refine ⟨notInline_of h.1, fun a ha hs => ?_⟩
  have h2 := h.2
  rw [ha] at h2
  simpa [hs] using h2

def editPage : Page where
  lead := []
  col := 0
  body := .coll true (.cons [] (.here 0) (b! "a") (.flow (.atom (.plain (b! "1")))) (.cons [] (.here 0) (b! "b") (.flow (.atom (.plain (b! "x"))))
    (.cons [] (.here 0) (b! "c") (.flow (.coll false (.cons [] [] [] (.atom (.plain (b! "p"))) (.cons (b! " ") [] [] (.atom (.plain (b! "q"))) .nil)))) .nil)))
  tail := b! "\n"
def edit0 : Document := docOfText editPage.text
def edit1 : Document := edit0.after 2 (.setString (b! "x: y"))
def edit2 : Document := edit1.after 4 .makeMapping
def edit3 : Document := edit2.after 4 (.insert (b! "k") (.str (b! "it's")))
def edit4 : Document := edit3.after 6 (.push (.number (b! "-1") .i64))

theorem edit0_tidy : Tidy .none edit0 := .parsed (p := editPage) (by decide) (by decide) ⟨editPage.text.length + 6, by decide⟩
theorem edit4_tidy : Tidy .none edit4 := by
  refine .edited (doc := edit3) (x := 6) (op := .push (.number (b! "-1") .i64)) (.edited (doc := edit2) (x := 4) (op := .insert (b! "k") (.str (b! "it's")))
    (.edited (doc := edit1) (x := 4) (op := .makeMapping) (.edited (x := 2) (op := .setString (b! "x: y")) edit0_tidy ?_ ?_ (by decide)) ?_ ?_ (by decide))
      ?_ ?_ (by decide)) ?_ ?_ (by decide)
  · exact .viaMap [(b! "a", 2), (b! "b", 4), (b! "c", 6)] (b! "a") .self (by decide) (by decide) (by decide)
  · show safeStr _ _ = true; decide
  · exact .viaMap [(b! "a", 2), (b! "b", 4), (b! "c", 6)] (b! "b") .self (by decide) (by decide) (by decide)
  · exact canMake_of (by decide)
  · exact .viaMap [(b! "a", 2), (b! "b", 4), (b! "c", 6)] (b! "b") .self (by decide) (by decide) (by decide)
  · exact ⟨by decide, show safeStr _ _ = true by decide⟩
  · exact .viaMap [(b! "a", 2), (b! "b", 4), (b! "c", 6)] (b! "c") .self (by decide) (by decide) (by decide)
  · show isNumber _ = true; decide

example : Tidy .none edit4 ∧ NoHoles edit4 ∧ edit4.write = .ok (b! "a: 'x: y'\nb:\n  k: \"it's\"\nc: [p, q,\n-1]\n") :=
  ⟨edit4_tidy, noHoles_of (by decide), by decide⟩

/-! A sample with block scalars: `a: 1⏎b:⏎  - x⏎`, three edits. -/

def blockPage : Page where
  lead := []
  col := 0
  body := .coll true (.cons [] (.here 0) (b! "a") (.flow (.atom (.plain (b! "1")))) (.cons [] (.below [] 2) (b! "b")
    (.coll false (.cons [] (.here 0) [] (.flow (.atom (.plain (b! "x")))) .nil)) .nil))
  tail := b! "\n"
def block0 : Document := docOfText blockPage.text
def block1 : Document := block0.after 2 (.setBlock [b! "foo", b! "bar"] (.literal .clip))
def block2 : Document := block1.after 4 (.push (.block [b! "p", b! "q"] (.folded .keep)))
def block3 : Document := block2.after 0 (.insert (b! "c") (.block [b! "z: z", b! "z"] (.literal .strip)))

theorem block1_tidy : Tidy .tight block1 := by
  refine .edited (doc := block0) (x := 2) (op := .setBlock [b! "foo", b! "bar"] (.literal .clip))
    (.parsed (p := blockPage) (by decide) (by decide) ⟨blockPage.text.length + 6, by decide⟩) ?_ ⟨by decide, canBlock_of (by decide)⟩ (by decide)
  exact .viaMap [(b! "a", 2), (b! "b", 4)] (b! "a") .self (by decide) (by decide) (by decide)

theorem block2_tidy : Tidy .tight block2 := by
  refine .edited (doc := block1) (x := 4) (op := .push (.block [b! "p", b! "q"] (.folded .keep))) block1_tidy ?_ ⟨by decide, notInline_of (by decide)⟩ (by decide)
  exact .viaMap [(b! "a", 2), (b! "b", 4)] (b! "b") .self (by decide) (by decide) (by decide)

theorem block3_tidy : Tidy .tight block3 :=
  .edited (doc := block2) (x := 0) (op := .insert (b! "c") (.block [b! "z: z", b! "z"] (.literal .strip))) block2_tidy .self
    ⟨by decide, by decide, notInline_of (by decide)⟩ (by decide)

example : Tidy .tight block3 ∧ NoHoles block3 ∧
    block3.write = .ok (b! "a: |\n   foo\n   bar\nb:\n  - x\n  - >+\n    p\n    q\nc: |-\n  z: z\n  z\n") :=
  ⟨block3_tidy, noHoles_of (by decide), by decide⟩

theorem Tidy.reachable {q : Mode} {doc : Document} (h : Tidy q doc) : Reachable doc := by
  induction h with
  | parsed _ _ h => exact .parsed h
  | edited _ hl _ he ih => exact .edited ih hl he

/-- A value that can be read from the edited document is read back. -/
theorem Tidy.back {q : Mode} {doc : Document} {x : Nat} {a : AnyV} (h : Tidy q doc) (hn : NoHoles doc) (hx : Live doc x) (ha : asAny doc.data x = .ok a)
    (hs : a.isScalar = true) : ∃ out doc2 p y, doc.write = .ok out ∧ fromSlice out = .ok doc2 ∧ Path doc.data doc.root p x ∧ Path doc2.data doc2.root p y ∧
      asAny doc2.data y = .ok a := by
  obtain ⟨out, doc2, h1, h2, _, _, _, h3⟩ := C49_edits h hn
  obtain ⟨p, h4⟩ := hx.path
  obtain ⟨y, h5, w, h6, h7⟩ := h3 p x h4
  have hw : w = .scalar a := h6.unique ⟨ha, hs⟩
  subst hw
  exact ⟨out, doc2, p, y, h1, h2, h4, h5, h7.1⟩

/-- A scalar that was set is read back. -/
theorem Tidy.set {q : Mode} {doc doc' : Document} {x : Nat} {op : Op} {a : AnyV} (h : Tidy q doc) (hx : Live doc x) (hop : op.safe q doc.data x) (hr : op.reads = some a)
    (hs : a.isScalar = true) (he : doc.edit x op = .ok doc') (hn : NoHoles doc') : ∃ out doc2 p y, doc'.write = .ok out ∧ fromSlice out = .ok doc2 ∧
      Path doc'.data doc'.root p x ∧ Path doc2.data doc2.root p y ∧ asAny doc2.data y = .ok a := by
  obtain ⟨hl, ha, _⟩ := C11_set_reads h.reachable hx hr he
  exact Tidy.back (.edited h hx hop he) hn hl ha hs

/-- C13: an integer that was set is read back, wherever it is. -/
theorem C13_anywhere {q : Mode} {doc doc' : Document} {x : Nat} {d' : Data} (h : Tidy q doc) (hx : Live doc x) (n : IntTy) (v : Int) (hv : n.min ≤ v ∧ v ≤ n.max)
    (he : setInt n doc.data x v = .ok d') (hd : doc' = { doc with data := d' }) (hn : NoHoles doc') :
    ∃ out doc2 p y, doc'.write = .ok out ∧ fromSlice out = .ok doc2 ∧ Path doc'.data doc'.root p x ∧ Path doc2.data doc2.root p y ∧
      asAny doc2.data y = .ok (.number (intText v)) ∧ asInt n doc2.data y = .ok (some v) := by
  have he' : doc.edit x (.setNumber (intText v) n.hint) = .ok doc' := by
    show (do let d ← setInt n doc.data x v; pure { doc with data := d }) = _
    rw [he, hd]; rfl
  obtain ⟨out, doc2, p, y, h1, h2, h3, h4, h5⟩ := h.set (op := .setNumber (intText v) n.hint) hx (isNumber_intText v) rfl rfl he' hn
  exact ⟨out, doc2, p, y, h1, h2, h3, h4, h5, by rw [asInt_of_any h5, lexParse_intText, if_pos hv]⟩

example : ∃ doc' d', setInt .u64 edit4.data 4 12345678901 = .ok d' ∧ doc' = { edit4 with data := d' } ∧ NoHoles doc' ∧ IntTy.u64.max = 18446744073709551615 :=
  ⟨_, (edit4.after 4 (.setNumber (b! "12345678901") .u64)).data, by decide, rfl, noHoles_of (by decide), by decide⟩

/-! ### C51 -/

/-- C51 is false: the lines of a block that is set are put two columns to the right of the white space before the value it replaces, not of the collection it is in, so
that in a nested collection they can end up to the left of it: here `c` becomes a part of the block.  And lines that start with `#` are skipped when they are read. -/
theorem C51_block_false :
    (∃ doc doc' doc2, Tidy .tight doc ∧ Live doc 4 ∧ doc.edit 4 (.setBlock [b! "foo", b! "bar"] (.literal .clip)) = .ok doc' ∧
      asAny doc'.data 4 = .ok (.string (b! "foo\nbar\n")) ∧ doc'.write = .ok (b! "a:\n    b: |\n   foo\n   bar\n    c: y\n") ∧
      fromSlice (b! "a:\n    b: |\n   foo\n   bar\n    c: y\n") = .ok doc2 ∧ asAny doc2.data 4 = .ok (.string (b! "foo\nbar\nc: y\n"))) ∧
    ∃ doc doc' doc2, Tidy .tight doc ∧ Live doc 0 ∧ doc.edit 0 (.setBlock [b! "p", b! "# q", b! "r"] (.literal .clip)) = .ok doc' ∧
      asAny doc'.data 0 = .ok (.string (b! "p\n# q\nr\n")) ∧ doc'.write = .ok (b! "|\n  p\n  # q\n  r\n") ∧
      fromSlice (b! "|\n  p\n  # q\n  r\n") = .ok doc2 ∧ asAny doc2.data 0 = .ok (.string (b! "p\n\nr\n")) := by
  refine ⟨⟨docOfText (b! "a:\n    b: x\n    c: y\n"), (docOfText (b! "a:\n    b: x\n    c: y\n")).after 4 (.setBlock [b! "foo", b! "bar"] (.literal .clip)),
      docOfText (b! "a:\n    b: |\n   foo\n   bar\n    c: y\n"), ?_, ?_, by decide, by decide, by decide, by decide, by decide⟩,
    ⟨docOfText (b! "x\n"), (docOfText (b! "x\n")).after 0 (.setBlock [b! "p", b! "# q", b! "r"] (.literal .clip)),
      docOfText (b! "|\n  p\n  # q\n  r\n"), ?_, .self, by decide, by decide, by decide, by decide, by decide⟩⟩
  · exact .parsed (p := ⟨[], 0, .coll true (.cons [] (.below [] 4) (b! "a") (.coll true (.cons [] (.here 0) (b! "b") (.flow (.atom (.plain (b! "x"))))
      (.cons [] (.here 0) (b! "c") (.flow (.atom (.plain (b! "y")))) .nil))) .nil), b! "\n"⟩) (by decide) (by decide) ⟨40, by decide⟩
  · exact .viaMap [(b! "b", 4), (b! "c", 6)] (b! "b") (.viaMap (x := 0) (v := 2) [(b! "a", 2)] (b! "a") .self (by decide) (by decide) (by decide)) (by decide) (by decide) (by decide)
  · exact .parsed (p := ⟨[], 0, .flow (.atom (.plain (b! "x"))), b! "\n"⟩) (by decide) (by decide) ⟨8, by decide⟩

/-- C51: a block that was set is read back, in documents without blank lines and comments between items (with `-`, in all documents) if the value it replaces is not
an inline collection nor in one, and there are enough spaces before it. -/
theorem C51_block_partial {q : Mode} {doc doc' : Document} {x : Nat} {lines : List Bytes} {b : Block} (h : Tidy q doc) (hx : Live doc x) (hl : q.lines lines b = true)
    (hc : CanBlock doc.data x) (he : doc.edit x (.setBlock lines b) = .ok doc') (hn : NoHoles doc') : ∃ out doc2 p y, doc'.write = .ok out ∧
      fromSlice out = .ok doc2 ∧ Path doc'.data doc'.root p x ∧ Path doc2.data doc2.root p y ∧ asAny doc2.data y = .ok (.string (joinLines b lines)) :=
  h.set (op := .setBlock lines b) hx ⟨hl, hc⟩ rfl rfl he hn

example : Tidy .tight block0 ∧ Live block0 2 ∧ Mode.lines .tight [b! "foo", b! "bar"] (.literal .clip) = true ∧ CanBlock block0.data 2 ∧
    block0.edit 2 (.setBlock [b! "foo", b! "bar"] (.literal .clip)) = .ok block1 ∧ NoHoles block1 :=
  ⟨.parsed (p := blockPage) (by decide) (by decide) ⟨blockPage.text.length + 6, by decide⟩,
    .viaMap [(b! "a", 2), (b! "b", 4)] (b! "a") .self (by decide) (by decide) (by decide), by decide, canBlock_of (by decide), by decide, noHoles_of (by decide)⟩

/-- The value that was edited is still there. -/
theorem Live.edited {doc doc' : Document} {x : Nat} {op : Op} (h : Reachable doc) (hx : Live doc x) (he : doc.edit x op = .ok doc') : Live doc' x := by
  obtain ⟨t, ht⟩ := h.holds
  obtain ⟨u, hf⟩ := (ht.live_iff x).1 hx
  obtain ⟨d', i, v, mk, h1, _, _, h4⟩ := ht.editTree hf op
  simp only [Document.edit, h1, bind, Except.bind, pure, Except.pure, Except.ok.injEq] at he
  subst he
  exact (h4.live_iff x).2 ⟨_, Tree.find_upd hf (Op.tree_id.trans (Tree.find_id hf))⟩

/-- The value a key leads to is in the mapping. -/
theorem mapGet_child {doc : Document} {x id : Nat} {key : Bytes} {l : List (Bytes × Nat)} (h : Reachable doc) (hx : Live doc x) (hl : mapEntries doc.data x = .ok l)
    (hg : mapGet doc.data x key = .ok (some id)) : Child doc.data x id := by
  obtain ⟨t, ht⟩ := h.holds
  have hm := ht.asMapping_entries hx hl
  obtain ⟨pre, ind, k, items, p, hf, ha, hLi⟩ := ht.mapNode hx hl
  rw [ha.mapGet key] at hg
  cases hk : items.lookup key with
  | none => rw [hk] at hg; cases hg
  | some w =>
    rw [hk] at hg; cases hg
    obtain ⟨n, k', hp, _⟩ := Items.lookup_mem hk
    exact .inr ⟨l, k'.id, hm, hl, by rw [hLi]; exact List.mem_map.2 ⟨_, List.mem_of_getElem? hp, rfl⟩⟩

/-- C51: so is a block (or another value) inserted into a mapping that is not inline; the value is found where the key leads to. -/
theorem C51_insert_partial {q : Mode} {doc doc' : Document} {x : Nat} {key : Bytes} {val : Val} {L : List (Bytes × Nat)} (h : Tidy q doc) (hx : Live doc x)
    (hL : IsMap doc.data x L) (hk : safeKey key = true) (hv : val.safe q doc.data x) (he : doc.edit x (.insert key val) = .ok doc') (hn : NoHoles doc') :
    ∃ id out doc2 p y, mapGet doc'.data x key = .ok (some id) ∧ doc'.write = .ok out ∧ fromSlice out = .ok doc2 ∧ Path doc'.data doc'.root p id ∧
      Path doc2.data doc2.root p y ∧ asAny doc2.data y = .ok val.reads := by
  obtain ⟨id, d', h1, h2, h3, _, h4, _⟩ := C14_insert h.reachable hx hL.2 key val
  have ht : Tidy q doc' := .edited (op := .insert key val) h hx ⟨hk, hv⟩ he
  have hx' := Live.edited h.reachable hx he
  have := he.symm.trans (edit_insert hL.1 h1)
  cases this
  obtain ⟨out, doc2, p, y, h5⟩ := ht.back hn (Below.step hx' (mapGet_child ht.reachable hx' h4 h3)) h2 (by cases val <;> rfl)
  exact ⟨id, out, doc2, p, y, h3, h5⟩

example : Tidy .tight block2 ∧ IsMap block2.data 0 [(b! "a", 2), (b! "b", 4)] ∧ safeKey (b! "c") = true ∧
    Val.safe .tight block2.data 0 (.block [b! "z: z", b! "z"] (.literal .strip)) ∧
    block2.edit 0 (.insert (b! "c") (.block [b! "z: z", b! "z"] (.literal .strip))) = .ok block3 ∧ NoHoles block3 :=
  ⟨block2_tidy, ⟨by decide, by decide⟩, by decide, ⟨by decide, notInline_of (by decide)⟩, by decide, noHoles_of (by decide)⟩

/-- C51: and one pushed to a sequence that is not inline, as the last of its values. -/
theorem C51_push_partial {q : Mode} {doc doc' : Document} {x : Nat} {val : Val} {L : List Nat} (h : Tidy q doc) (hx : Live doc x)
    (hL : IsSeq doc.data x L) (hv : val.safe q doc.data x) (he : doc.edit x (.push val) = .ok doc') (hn : NoHoles doc') :
    ∃ id out doc2 p y, IsSeq doc'.data x (L ++ [id]) ∧ doc'.write = .ok out ∧ fromSlice out = .ok doc2 ∧ Path doc'.data doc'.root p id ∧
      Path doc2.data doc2.root p y ∧ asAny doc2.data y = .ok val.reads := by
  obtain ⟨id, d', h1, h2, hx', h4, _⟩ := C19_push h.reachable hx hL.2 val
  have ht : Tidy q doc' := .edited (op := .push val) h hx hv he
  have := he.symm.trans (edit_push hL.1 h1)
  cases this
  obtain ⟨t, hh⟩ := ht.reachable.holds
  have hs := hh.asSequence_values hx' h4
  obtain ⟨out, doc2, p, y, h5⟩ := ht.back hn (Below.step hx' (.inl ⟨_, hs, h4, by simp⟩)) h2 (by cases val <;> rfl)
  exact ⟨id, out, doc2, p, y, ⟨hs, h4⟩, h5⟩

example : Tidy .tight block1 ∧ IsSeq block1.data 4 [6] ∧ Val.safe .tight block1.data 4 (.block [b! "p", b! "q"] (.folded .keep)) ∧
    block1.edit 4 (.push (.block [b! "p", b! "q"] (.folded .keep))) = .ok block2 ∧ NoHoles block2 :=
  ⟨block1_tidy, ⟨by decide, by decide⟩, ⟨by decide, notInline_of (by decide)⟩, by decide, noHoles_of (by decide)⟩

/-! ### C25, C26, C27 -/

/-- C25: a string set in single quotes is read back, whatever it is and wherever it is in the document. -/
theorem C25_single {q : Mode} {doc doc' : Document} {x : Nat} {s : Bytes} (h : Tidy q doc) (hx : Live doc x) (he : doc.edit x (.setStringWith s .single) = .ok doc')
    (hn : NoHoles doc') : ∃ out doc2 p y, doc'.write = .ok out ∧ fromSlice out = .ok doc2 ∧ Path doc'.data doc'.root p x ∧ Path doc2.data doc2.root p y ∧
      asAny doc2.data y = .ok (.string s) :=
  h.set (op := .setStringWith s .single) hx rfl rfl rfl he hn

example : ∃ doc', edit4.edit 4 (.setStringWith (b! "it's \\ \"\n # '") .single) = .ok doc' ∧ Live edit4 4 ∧ NoHoles doc' :=
  ⟨edit4.after 4 (.setStringWith (b! "it's \\ \"\n # '") .single), by decide,
    .viaMap [(b! "a", 2), (b! "b", 4), (b! "c", 6)] (b! "b") .self (by decide) (by decide) (by decide), noHoles_of (by decide)⟩

/-- C25, whatever the text before and after it: the scanner for strings in single quotes reads the string and stops at its end. -/
theorem C25_scan (before s after : Bytes) (h : after.headD 0 ≠ SQ) : ∃ raw, singleQuoted (s.length + 1) (before ++ quoteSingle s ++ after) before.length =
    .ok (⟨.original, s, raw⟩, (before ++ quoteSingle s).length) := by
  have := singleQuoted_text (inp := before ++ quoteSingle s ++ after) (n := before.length) (f := s.length + 1) (s := s) (rest := after)
    (by rw [List.append_assoc, List.drop_left, quoteSingle, escapeSingle, escapeSingleBody_eq]) h (Nat.lt_succ_self _)
  refine ⟨escapeSingle s, this.trans ?_⟩
  rw [List.length_append, quoteSingle, escapeSingle, escapeSingleBody_eq]

/-- C26 is false: a double quote is written as `\"`, which is rejected; a backslash is not escaped, so that `\n` is read as a line break. -/
theorem C26_double_false :
    (∃ doc doc', Tidy .none doc ∧ Live doc doc.root ∧ doc.edit doc.root (.setStringWith (b! "\"") .double) = .ok doc' ∧ doc'.write = .ok (b! "\"\\\"\"") ∧
      fromSlice (b! "\"\\\"\"") = .error (.err 1 3 .badEscape)) ∧
    ∃ doc doc' doc2, Tidy .none doc ∧ Live doc doc.root ∧ doc.edit doc.root (.setStringWith (b! "\\n") .double) = .ok doc' ∧ doc'.write = .ok (b! "\"\\n\"") ∧
      fromSlice (b! "\"\\n\"") = .ok doc2 ∧ asAny doc2.data doc2.root = .ok (.string (b! "\n")) := by
  have ht : Tidy .none (docOfText (b! "x")) := .parsed (p := ⟨[], 0, .flow (.atom (.plain (b! "x"))), []⟩) (by decide) (by decide) ⟨7, by decide⟩
  exact ⟨⟨_, (docOfText (b! "x")).after 0 (.setStringWith (b! "\"") .double), ht, .self, by decide, by decide, by decide⟩,
    ⟨_, (docOfText (b! "x")).after 0 (.setStringWith (b! "\\n") .double), docOfText (b! "\"\\n\""), ht, .self, by decide, by decide, by decide, by decide⟩⟩

/-- C26: a string without double quotes and backslashes set in double quotes is read back. -/
theorem C26_double_partial {q : Mode} {doc doc' : Document} {x : Nat} {s : Bytes} (h : Tidy q doc) (hx : Live doc x) (hs : DQ ∉ s ∧ BSL ∉ s)
    (he : doc.edit x (.setStringWith s .double) = .ok doc') (hn : NoHoles doc') : ∃ out doc2 p y, doc'.write = .ok out ∧ fromSlice out = .ok doc2 ∧
      Path doc'.data doc'.root p x ∧ Path doc2.data doc2.root p y ∧ asAny doc2.data y = .ok (.string s) :=
  h.set (op := .setStringWith s .double) hx (by
    have h1 : s.contains DQ = false := by simpa using hs.1
    have h2 : s.contains BSL = false := by simpa using hs.2
    show (!s.contains DQ && !s.contains BSL) = true
    rw [h1, h2]; rfl) rfl rfl he hn

example : ∃ doc', edit4.edit 4 (.setStringWith (b! "it's\n\t\r # '") .double) = .ok doc' ∧ Live edit4 4 ∧ NoHoles doc' :=
  ⟨edit4.after 4 (.setStringWith (b! "it's\n\t\r # '") .double), by decide,
    .viaMap [(b! "a", 2), (b! "b", 4), (b! "c", 6)] (b! "b") .self (by decide) (by decide) (by decide), noHoles_of (by decide)⟩

/-- What a string set at the root of `x` reads as when it has been written, if it is accepted. -/
def backAs (s : Bytes) : Option AnyV :=
  match (docOfText (b! "x")).edit 0 (.setString s) with
  | .error _ => none
  | .ok doc => match doc.write with
    | .error _ => none
    | .ok out => match fromSlice out with
      | .error _ => none
      | .ok doc2 => match asAny doc2.data doc2.root with
        | .ok a => some a
        | .error _ => none

/-- C27 is false: strings that need quotes are written plain. -/
theorem C27_detect_false : Tidy .none (docOfText (b! "x")) ∧ backAs (b! "~") = some .null ∧ backAs (b! "-1") = some (.number (b! "-1")) ∧
    backAs (b! ".5") = some (.number (b! ".5")) ∧ backAs (b! " a") = some (.string (b! "a")) ∧ backAs (b! "- a") = some (.sequence 0) ∧ backAs (b! "[a") = none ∧
    backAs (b! "%a") = some (.string []) ∧ backAs (b! "it's \"so\"") = none :=
  ⟨.parsed (p := ⟨[], 0, .flow (.atom (.plain (b! "x"))), []⟩) (by decide) (by decide) ⟨7, by decide⟩, by decide, by decide, by decide, by decide, by decide, by decide,
    by decide, by decide⟩

/-- C27: a string set by `set_string` is read back, if it is one that needs no quotes, or is quoted and has no double quotes and backslashes if it contains single
quotes or control characters. -/
theorem C27_detect_partial {q : Mode} {doc doc' : Document} {x : Nat} {s : Bytes} (h : Tidy q doc) (hx : Live doc x) (hs : safeStr s (preferred s) = true)
    (he : doc.edit x (.setString s) = .ok doc') (hn : NoHoles doc') : ∃ out doc2 p y, doc'.write = .ok out ∧ fromSlice out = .ok doc2 ∧
      Path doc'.data doc'.root p x ∧ Path doc2.data doc2.root p y ∧ asAny doc2.data y = .ok (.string s) :=
  h.set (op := .setString s) hx hs rfl rfl he hn

example : ∃ doc', safeStr (b! "plain text (really)") .bare = true ∧ edit4.edit 4 (.setString (b! "plain text (really)")) = .ok doc' ∧ Live edit4 4 ∧ NoHoles doc' :=
  ⟨edit4.after 4 (.setString (b! "plain text (really)")), by decide, by decide,
    .viaMap [(b! "a", 2), (b! "b", 4), (b! "c", 6)] (b! "b") .self (by decide) (by decide) (by decide), noHoles_of (by decide)⟩

end Verif
