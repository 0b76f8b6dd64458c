import Verif.Build
/-
C96: any nested value can be stored with the methods of the library, and is read back.
-/
namespace Verif

theorem Tree.full_render : ∀ {u : Tree Nat}, u.full → u.render ≠ []
  | .leaf i p s, h => by rw [Tree.render]; exact h
  | .node i p m n (.inline tr w) items, _ => by cases m <;> simp [Tree.render, openOf]
  | .node i p true n .block .nil, h => absurd (h.1 rfl) (by decide)
  | .node i p false n .block .nil, h => absurd (h.1 rfl) (by decide)
  | .node i p true n .block (.cons j q k v rest), _ => by simp [Tree.render, Items.render]
  | .node i p false n .block (.cons j q k v rest), _ => by simp [Tree.render, Items.render]

mutual
theorem Tree.full_find {x : Nat} {u : Tree Nat} : ∀ {t : Tree Nat}, t.full → t.find x = some u → u.full
  | .leaf i p s, h, hf => by
    simp only [Tree.find] at hf
    split at hf
    · cases hf; exact h
    · cases hf
  | .node i p m n k items, h, hf => by
    simp only [Tree.find] at hf
    split at hf
    · cases hf; exact h
    · exact Items.full_find h.2 hf
theorem Items.full_find {x : Nat} {u : Tree Nat} : ∀ {is : Items Nat}, is.full → is.find x = some u → u.full
  | .nil, _, hf => by simp [Items.find] at hf
  | .cons i p key v rest, h, hf => by
    simp only [Items.find] at hf
    cases hv : v.find x with
    | some w => rw [hv] at hf; cases hf; exact Tree.full_find h.1 hv
    | none => rw [hv] at hf; exact Items.full_find h.2 hf
end

theorem Holds.noHoles {doc : Document} {t : Tree Nat} (h : Holds doc t) (hf : t.full) : NoHoles doc := by
  intro x hx e
  obtain ⟨u, hu⟩ := (h.live_iff x).1 hx
  obtain ⟨p, ha⟩ := h.at hu
  rw [ha.text] at e
  cases e' : u.render with
  | nil => exact Tree.full_render (Tree.full_find hf hu) e'
  | cons => rw [e'] at e; cases e

/-- What is left to show: the new value has some text, and so has everything around it. -/
theorem Tidy.placed {q : Mode} {doc : Document} {t u u' : Tree Nat} {x : Nat} {d' : Data} {c : Content} (ht : Holds doc t) (hf : t.find x = some u)
    (h2 : Tidy q ⟨doc.suffix, doc.root, d'⟩) (h3 : Holds ⟨doc.suffix, doc.root, d'⟩ (Tree.upd x u' t)) (h4 : u'.id = x) (h5 : u'.content = c) (h6 : u'.full)
    (hn : ∀ y, Live doc y → ¬ Below doc.data x y → valueText doc.data y ≠ .ok []) :
    ∃ out doc2 p C, Reads d' x c ∧ Tidy q ⟨doc.suffix, doc.root, d'⟩ ∧
      Document.write ⟨doc.suffix, doc.root, d'⟩ = .ok out ∧ fromSlice out = .ok doc2 ∧ doc2.write = .ok out ∧
      Path doc.data doc.root p x ∧ Reads doc.data doc.root C ∧
      Reads d' doc.root (Content.put c (p.map (·.1)) C) ∧ Reads doc2.data doc2.root (Content.put c (p.map (·.1)) C) := by
  have hfull : (Tree.upd x u' t).full := Tree.full_upd (u := u) h6 ht.nodup (fun y w hy hw e => by
    obtain ⟨_, hat'⟩ := ht.at hw
    refine hn y ((ht.live_iff y).2 ⟨w, hw⟩) (fun hb => ?_) (by rw [hat'.text, e])
    obtain ⟨z, hz⟩ := (ht.below_iff hf y).1 hb
    rw [hy] at hz
    cases hz) hf
  obtain ⟨out, doc2, e1, e2, e3, _, ⟨v, e4, e5⟩, _⟩ := C49_edits h2 (h3.noHoles hfull)
  obtain ⟨P, p1, p2⟩ := Tree.put_content ht.rep hf
  have hr := Tree.content_reads h3.rep
  rw [← h3.root] at hr
  have hv := Reads.unique e4 hr
  rw [hv] at e4 e5
  rw [p2, h5] at e4 e5
  obtain ⟨_, hat'⟩ := h3.at (Tree.find_upd hf (u' := u') h4)
  have hrx := Tree.content_reads hat'.rep
  rw [h4, h5] at hrx
  rw [← ht.root] at p1
  have hr0 := Tree.content_reads ht.rep
  rw [← ht.root] at hr0
  exact ⟨out, doc2, P, t.content, hrx, h2, e1, e2, e3, p1, hr0, e4, e5⟩

/-- C96.  Any nested value that `canBuild` accepts (collections that are not empty, keys that are written as they are and differ, sequences that begin with a scalar) can be stored
in place of any scalar with `set_*`, `make_mapping`, `make_sequence`, `insert` and `push`: no call fails, the value read there is then the one stored, and the document is written,
read back, and its content is the old content with this value in this place.  The document may be any that `Tidy` allows; the other values have some text; if a collection is stored,
the place is not inside an inline collection and not the first of a sequence, other than one in the first column (`CanMake`). -/
theorem C96_build_partial {q : Mode} {doc : Document} (h : Tidy q doc) {x : Nat} (hx : Live doc x) {a : AnyV} (ha : asAny doc.data x = .ok a) (hs : a.isScalar = true)
    {c : Content} (hc : c.canBuild = true) (hm : c.isLeaf = true ∨ CanMake doc.data x) (hn : ∀ y, Live doc y → ¬ Below doc.data x y → valueText doc.data y ≠ .ok []) :
    ∃ d', build doc.data x c = .ok d' ∧ ∃ out doc2 p C, Reads d' x c ∧ Tidy q ⟨doc.suffix, doc.root, d'⟩ ∧
      Document.write ⟨doc.suffix, doc.root, d'⟩ = .ok out ∧ fromSlice out = .ok doc2 ∧ doc2.write = .ok out ∧
      Path doc.data doc.root p x ∧ Reads doc.data doc.root C ∧
      Reads d' doc.root (Content.put c (p.map (·.1)) C) ∧ Reads doc2.data doc2.root (Content.put c (p.map (·.1)) C) := by
  obtain ⟨t, ht⟩ := h.reachable.holds
  obtain ⟨u, hf⟩ := (ht.live_iff x).1 hx
  obtain ⟨pp, hat⟩ := ht.at hf
  have hleaf : ∃ p s, u = .leaf x p s := by
    have hid := hat.id
    cases u with
    | leaf i p s => cases hid; exact ⟨p, s, rfl⟩
    | node i p m n k items =>
      have h1 := Tree.content_reads hat.rep
      rw [hid] at h1
      have := Reads.unique h1 (show Reads doc.data x (.scalar a) from ⟨ha, hs⟩)
      cases m <;> simp [Tree.content] at this
  obtain ⟨p, s, rfl⟩ := hleaf
  obtain ⟨d', u', h1, h2, h3, h4, h5, h6⟩ := build_holds c h ht hf hc hm
  exact ⟨d', h1, Tidy.placed ht hf h2 h3 h4 h5 h6 hn⟩

/-- C96, in place of any value: it is set to null first. -/
theorem C96_replace_partial {q : Mode} {doc : Document} (h : Tidy q doc) {x : Nat} (hx : Live doc x)
    {c : Content} (hc : c.canBuild = true) (hm : c.isLeaf = true ∨ CanMake doc.data x) (hn : ∀ y, Live doc y → ¬ Below doc.data x y → valueText doc.data y ≠ .ok []) :
    ∃ d', replaceWith doc.data x c = .ok d' ∧ ∃ out doc2 p C, Reads d' x c ∧ Tidy q ⟨doc.suffix, doc.root, d'⟩ ∧
      Document.write ⟨doc.suffix, doc.root, d'⟩ = .ok out ∧ fromSlice out = .ok doc2 ∧ doc2.write = .ok out ∧
      Path doc.data doc.root p x ∧ Reads doc.data doc.root C ∧
      Reads d' doc.root (Content.put c (p.map (·.1)) C) ∧ Reads doc2.data doc2.root (Content.put c (p.map (·.1)) C) := by
  obtain ⟨t, ht⟩ := h.reachable.holds
  obtain ⟨u, hf⟩ := (ht.live_iff x).1 hx
  obtain ⟨d1, i, v, mk, g1, g2, g3⟩ := h.step ht hf (.setNull .tilde) trivial
  replace g3 : Holds ⟨doc.suffix, doc.root, d1⟩ (Tree.upd x (.leaf u.id u.pre (.null .tilde)) t) := g3
  rw [Tree.find_id hf] at g3
  have hf1 := Tree.find_upd hf (u' := .leaf x u.pre (.null .tilde)) rfl
  obtain ⟨d', u', h1, h2, h3, h4, h5, h6⟩ := build_holds c g2 g3 hf1 hc (hm.imp_right (CanMake.after ht hf rfl g3))
  rw [Tree.upd_same (x := x) (w := .leaf x u.pre (.null .tilde)) rfl hf] at h3
  exact ⟨d', by rw [replaceWith, g1]; exact h1, Tidy.placed ht hf h2 h3 h4 h5 h6 hn⟩

/-- C96, for the whole document: it can be made to say anything that `canBuild` accepts, and, if it begins at the start of its line, any sequence of such values, which may then
begin with a collection. -/
theorem C96_all_partial {q : Mode} {doc : Document} (h : Tidy q doc) {c : Content}
    (hc : c.canBuild = true ∨ c.canBuildTop = true ∧ lastLine (prefixOf doc.data doc.root) = []) :
    ∃ d' out doc2, replaceWith doc.data doc.root c = .ok d' ∧ Document.write ⟨doc.suffix, doc.root, d'⟩ = .ok out ∧ fromSlice out = .ok doc2 ∧ doc2.write = .ok out ∧
      Reads d' doc.root c ∧ Reads doc2.data doc2.root c := by
  obtain ⟨t, ht⟩ := h.reachable.holds
  have hm : CanMake doc.data doc.root := by
    intro c hc
    exfalso
    obtain ⟨_, _, _, _, _, _, _, _, _, _, _, e, h3, h4⟩ := ht.childNode hc
    have hr := ht.rep.head
    rw [← ht.root, h3] at hr
    cases hr
    cases h4
  have hput : ∃ d', replaceWith doc.data doc.root c = .ok d' ∧ ∃ out doc2 p C, Reads d' doc.root c ∧ Tidy q ⟨doc.suffix, doc.root, d'⟩ ∧
      Document.write ⟨doc.suffix, doc.root, d'⟩ = .ok out ∧ fromSlice out = .ok doc2 ∧ doc2.write = .ok out ∧
      Path doc.data doc.root p doc.root ∧ Reads doc.data doc.root C ∧
      Reads d' doc.root (Content.put c (p.map (·.1)) C) ∧ Reads doc2.data doc2.root (Content.put c (p.map (·.1)) C) := by
    rcases hc with hc | ⟨hc, hp⟩
    · exact C96_replace_partial h .self hc (.inr hm) fun y hy hb => absurd hy hb
    · have hf : t.find doc.root = some t := by rw [ht.root]; exact t.find_self
      obtain ⟨d1, i, v, mk, g1, g2, g3⟩ := h.step ht hf (.setNull .tilde) trivial
      replace g3 : Holds ⟨doc.suffix, doc.root, d1⟩ (Tree.upd doc.root (.leaf t.id t.pre (.null .tilde)) t) := g3
      rw [← ht.root] at g3
      have hf1 := Tree.find_upd hf (u' := .leaf doc.root t.pre (.null .tilde)) rfl
      have hr := ht.rep.head
      rw [← ht.root] at hr
      rw [prefixOf, entry_of hr] at hp
      obtain ⟨d', u', h1, h2, h3, h4, h5, h6⟩ := build_top g2 g3 hf1 hp hc (CanMake.after ht hf rfl g3 hm)
      replace h3 : Holds ⟨doc.suffix, doc.root, d'⟩ (Tree.upd doc.root u' (Tree.upd doc.root (.leaf doc.root t.pre (.null .tilde)) t)) := h3
      rw [Tree.upd_same (x := doc.root) (w := .leaf doc.root t.pre (.null .tilde)) rfl hf] at h3
      exact ⟨d', by rw [replaceWith, g1]; exact h1, Tidy.placed ht hf h2 h3 h4 h5 h6 fun y hy hb => absurd hy hb⟩
  obtain ⟨d', h1, out, doc2, p, C, h2, _, h3, h4, h5, _, _, h6, h7⟩ := hput
  rw [← Reads.unique h2 h6] at h7
  exact ⟨d', out, doc2, h1, h3, h4, h5, h2, h7⟩

/-! Samples: `a: 1⏎b: x⏎c: [p, q]⏎`, with another value for `b`. -/

def built (doc : Document) (x : Nat) (c : Content) : Document :=
  match build doc.data x c with
  | .ok d => ⟨doc.suffix, doc.root, d⟩
  | .error _ => doc

/-- `{k: 1, l: [true, {m: "it's", n: [~, 'x: y']}]}` -/
def nestedSample : Content :=
  .map (.cons (b! "k") (.scalar (.number (b! "1"))) (.cons (b! "l") (.seq (.cons (.scalar (.bool true)) (.cons (.map (.cons (b! "m") (.scalar (.string (b! "it's")))
    (.cons (b! "n") (.seq (.cons (.scalar .null) (.cons (.scalar (.string (b! "x: y"))) .nil))) .nil))) .nil))) .nil))

theorem edit0_live : Live edit0 4 := .viaMap [(b! "a", 2), (b! "b", 4), (b! "c", 6)] (b! "b") .self (by decide) (by decide) (by decide)

example : Tidy .none edit0 ∧ Live edit0 4 ∧ asAny edit0.data 4 = .ok (.string (b! "x")) ∧ AnyV.isScalar (.string (b! "x")) = true ∧ nestedSample.canBuild = true ∧ CanMake edit0.data 4 ∧
    (∀ y, Live edit0 y → ¬ Below edit0.data 4 y → valueText edit0.data y ≠ .ok []) ∧
    (built edit0 4 nestedSample).write = .ok (b! "a: 1\nb:\n  k: 1\n  l:\n    - true\n    - m: \"it's\"\n      n:\n        - ~\n        - 'x: y'\nc: [p, q]\n") :=
  ⟨edit0_tidy, edit0_live, by decide, rfl, by decide +kernel, canMake_of (by decide), fun y hy _ => noHoles_of (by decide) y hy, by decide +kernel⟩

/-- The inline sequence `c`, and the whole document. -/
example : Live edit0 6 ∧ CanMake edit0.data 6 ∧ (∃ d', replaceWith edit0.data 6 nestedSample = .ok d' ∧ Document.write ⟨edit0.suffix, edit0.root, d'⟩ =
      .ok (b! "a: 1\nb: x\nc:\n  k: 1\n  l:\n    - true\n    - m: \"it's\"\n      n:\n        - ~\n        - 'x: y'\n")) ∧
    ∃ d', replaceWith edit0.data 0 nestedSample = .ok d' ∧ Document.write ⟨edit0.suffix, edit0.root, d'⟩ =
      .ok (b! "k: 1\nl:\n  - true\n  - m: \"it's\"\n    n:\n      - ~\n      - 'x: y'\n") :=
  ⟨.viaMap [(b! "a", 2), (b! "b", 4), (b! "c", 6)] (b! "c") .self (by decide) (by decide) (by decide), canMake_of (by decide),
    ⟨(match replaceWith edit0.data 6 nestedSample with | .ok d => d | .error _ => edit0.data), by decide +kernel, by decide +kernel⟩,
    ⟨(match replaceWith edit0.data 0 nestedSample with | .ok d => d | .error _ => edit0.data), by decide +kernel, by decide +kernel⟩⟩

/-- `[{m: 1, n: 2}]` -/
def firstSample : Content :=
  .seq (.cons (.map (.cons (b! "m") (.scalar (.number (b! "1"))) (.cons (b! "n") (.scalar (.number (b! "2"))) .nil))) .nil)

/-- A list of mappings, for the whole document; the first one of them has a list in it. -/
def topSample : Content :=
  .seq (.cons (.map (.cons (b! "m") (.scalar (.number (b! "1"))) (.cons (b! "n") (.seq (.cons (.scalar (.bool true)) .nil)) .nil)))
    (.cons (.map (.cons (b! "m") (.scalar (.number (b! "2"))) (.cons (b! "o") (.scalar (.number (b! "3"))) .nil))) .nil))

example : topSample.canBuildTop = true ∧ topSample.canBuild = false ∧ lastLine (prefixOf edit0.data edit0.root) = [] ∧
    ∃ d', replaceWith edit0.data 0 topSample = .ok d' ∧ Document.write ⟨edit0.suffix, edit0.root, d'⟩ = .ok (b! "- m: 1\n  n:\n    - true\n- m: 2\n  o: 3\n") :=
  ⟨by decide +kernel, by decide +kernel, by decide +kernel,
    ⟨(match replaceWith edit0.data 0 topSample with | .ok d => d | .error _ => edit0.data), by decide +kernel, by decide +kernel⟩⟩

/-- Without the conditions it is false.  A mapping stored as the first value of a new sequence has its second key two columns to the right of the start of the line, whatever
the column of the sequence: what is written can be text that is not read at all, or text in which the second key belongs to a mapping further out.  An empty mapping is written as
nothing, and read back as `null`. -/
theorem C96_first_false :
    (∃ doc d' out, Tidy .none doc ∧ NoHoles doc ∧ Live doc 4 ∧ CanMake doc.data 4 ∧ build doc.data 4 firstSample = .ok d' ∧
      Document.write ⟨doc.suffix, doc.root, d'⟩ = .ok out ∧ out = b! "a: 1\nb:\n  - m: 1\n  n: 2\nc: [p, q]\n" ∧ ∀ doc2, fromSlice out ≠ .ok doc2) ∧
    (∃ doc d' out doc2, Tidy .none doc ∧ NoHoles doc ∧ Live doc 4 ∧ CanMake doc.data 4 ∧ build doc.data 4 (.map (.cons (b! "k") firstSample .nil)) = .ok d' ∧
      Document.write ⟨doc.suffix, doc.root, d'⟩ = .ok out ∧ out = b! "a: 1\nb:\n  k:\n    - m: 1\n  n: 2\nc: [p, q]\n" ∧ fromSlice out = .ok doc2 ∧
      Path doc.data doc.root [(1, some (b! "b"))] 4 ∧ Path doc2.data doc2.root [(1, some (b! "b"))] 4 ∧ mapEntries doc2.data 4 = .ok [(b! "k", 6), (b! "n", 12)]) ∧
    ∃ doc d' out doc2, Tidy .none doc ∧ NoHoles doc ∧ Live doc 4 ∧ CanMake doc.data 4 ∧ build doc.data 4 (.map .nil) = .ok d' ∧
      Document.write ⟨doc.suffix, doc.root, d'⟩ = .ok out ∧ fromSlice out = .ok doc2 ∧
      Path doc.data doc.root [(1, some (b! "b"))] 4 ∧ Path doc2.data doc2.root [(1, some (b! "b"))] 4 ∧ asAny doc2.data 4 = .ok .null := by
  have hn : NoHoles edit0 := noHoles_of (by decide)
  have hm : CanMake edit0.data 4 := canMake_of (by decide)
  refine ⟨⟨edit0, (built edit0 4 firstSample).data, b! "a: 1\nb:\n  - m: 1\n  n: 2\nc: [p, q]\n", edit0_tidy, hn, edit0_live, hm, by decide +kernel, by decide +kernel, rfl, ?_⟩,
    ⟨edit0, (built edit0 4 (.map (.cons (b! "k") firstSample .nil))).data, b! "a: 1\nb:\n  k:\n    - m: 1\n  n: 2\nc: [p, q]\n",
      docOfText (b! "a: 1\nb:\n  k:\n    - m: 1\n  n: 2\nc: [p, q]\n"), edit0_tidy, hn, edit0_live, hm, by decide +kernel, by decide +kernel, rfl, by decide +kernel, ?_, ?_, by decide +kernel⟩,
    ⟨edit0, (built edit0 4 (.map .nil)).data, b! "a: 1\nb:\n  \nc: [p, q]\n",
      docOfText (b! "a: 1\nb:\n  \nc: [p, q]\n"), edit0_tidy, hn, edit0_live, hm, by decide +kernel, by decide +kernel, by decide +kernel, ?_, ?_, by decide +kernel⟩⟩
  · intro doc2 h
    have : (match fromSlice (b! "a: 1\nb:\n  - m: 1\n  n: 2\nc: [p, q]\n") with | .ok _ => false | .error _ => true) = true := by decide +kernel
    rw [h] at this
    exact absurd this (by simp)
  · exact .step (y := 4) ⟨[(b! "a", 2), (b! "b", 4), (b! "c", 6)], ⟨by decide +kernel, by decide +kernel⟩, rfl⟩ .here
  · exact .step (y := 4) ⟨[(b! "a", 2), (b! "b", 4), (b! "c", 14)], ⟨by decide +kernel, by decide +kernel⟩, rfl⟩ .here
  · exact .step (y := 4) ⟨[(b! "a", 2), (b! "b", 4), (b! "c", 6)], ⟨by decide +kernel, by decide +kernel⟩, rfl⟩ .here
  · exact .step (y := 4) ⟨[(b! "a", 2), (b! "b", 4), (b! "c", 6)], ⟨by decide +kernel, by decide +kernel⟩, rfl⟩ .here

end Verif
