import Verif.Show
import Verif.LeavesAt
import Verif.Props.Display
import Verif.Props.Echo
import Verif.Props.Make
/-
What is displayed for a value (C63).
-/
namespace Verif

/-! ### Specification -/

/-- The texts are in `out`, one after the other. -/
def InOrder : List Bytes → Bytes → Prop
  | [], _ => True
  | t :: ts, out => ∃ a b, out = a ++ t ++ b ∧ InOrder ts b

/-- `inp` from `lo` to `hi` is the text of the scalar `a`. -/
inductive ScalarText (inp : Bytes) : AnyV → Nat → Nat → Prop
  | token {a : AnyV} {flow : Bool} {lo hi : Nat} : Token flow (inp.drop hi) (slice inp lo hi) a → ScalarText inp a lo hi
  /-- Double quotes that are not closed. -/
  | open {ps : List Piece} {lo : Nat} : ps.all Piece.known = true → inp.drop lo = DQ :: ps.flatMap Piece.text →
    ScalarText inp (.string (ps.flatMap Piece.reads)) lo inp.length
  | block {v : Bytes} {lo hi : Nat} : BlockAt inp lo v hi → ¬ OneLine inp lo → ScalarText inp (.string v) lo hi
  /-- A block scalar without lines after its header takes all that follows. -/
  | header {v : Bytes} {lo hi : Nat} : BlockAt inp lo v hi → OneLine inp lo → ScalarText inp (.string v) lo inp.length

/-! ### Lemmas -/

theorem InOrder.before (p : Bytes) : ∀ {ts : List Bytes} {out : Bytes}, InOrder ts out → InOrder ts (p ++ out)
  | [], _, _ => trivial
  | _ :: _, _, ⟨a, b, h, hb⟩ => ⟨p ++ a, b, by simp [h], hb⟩

theorem InOrder.after (p : Bytes) : ∀ {ts : List Bytes} {out : Bytes}, InOrder ts out → InOrder ts (out ++ p)
  | [], _, _ => trivial
  | _ :: _, _, ⟨a, b, h, hb⟩ => ⟨a, b ++ p, by simp [h], hb.after p⟩

mutual
/-- What is displayed of a value is part of what is displayed of the values around it. -/
theorem Tree.disp_find {x : Nat} {u : Tree Nat} : ∀ {t : Tree Nat}, t.find x = some u → ∃ a b, t.disp = a ++ u.disp ++ b
  | .leaf i p s, h => by
    simp only [Tree.find] at h
    split at h
    · cases h; exact ⟨[], [], by simp⟩
    · cases h
  | .node i p m n k items, h => by
    simp only [Tree.find] at h
    split at h
    · cases h; exact ⟨[], [], by simp⟩
    · obtain ⟨a, b, h1⟩ := Items.disp_find m k h
      exact ⟨openOf k (if m then LCB else LBR) ++ a, b ++ closeOfDisplay k (if m then RCB else RBR), by rw [Tree.disp, h1]; simp⟩
theorem Items.disp_find {x : Nat} {u : Tree Nat} (m : Bool) (k : CollKind) : ∀ {is : Items Nat}, is.find x = some u → ∃ a b, is.disp m k = a ++ u.disp ++ b
  | .nil, h => by simp [Items.find] at h
  | .cons i p key v rest, h => by
    simp only [Items.find] at h
    rw [Items.disp]
    generalize lossy p ++ _ ++ _ = l
    generalize sepOf _ _ = r
    cases hv : v.find x with
    | some w =>
      rw [hv] at h
      cases h
      obtain ⟨a, b, h1⟩ := Tree.disp_find hv
      exact ⟨l ++ a, b ++ r ++ rest.disp m k, by rw [h1]; simp⟩
    | none =>
      rw [hv] at h
      obtain ⟨a, b, h1⟩ := Items.disp_find m k (is := rest) h
      exact ⟨l ++ v.disp ++ r ++ a, b, by rw [h1]; simp⟩
end

theorem Items.disp_order (m : Bool) (k : CollKind) : ∀ is : Items Nat, InOrder (is.pairs.map (·.2.disp)) (is.disp m k)
  | .nil => trivial
  | .cons i p key v rest => by
    rw [Items.disp]
    exact ⟨_, _, List.append_assoc .., (Items.disp_order m k rest).before _⟩

theorem At.shown {doc : Document} {x : Nat} {u : Tree Nat} {p} (h : At doc x u p) : valueDisplay doc.data x = .ok u.disp := by
  have := h.rep.shown h.nodup; rwa [h.id] at this

theorem RepItems.shown {d : Data} {c : Nat} {m : Bool} : ∀ {is : Items Nat}, RepItems d c m is → ((is.entries c m).map (·.1)).Nodup →
    (is.pairs.map (·.2.id)).mapM (valueDisplay d) = .ok (is.pairs.map (·.2.disp))
  | .nil, _, _ => rfl
  | .cons i p key v rest, h, hn => by
    obtain ⟨_, h2, h3⟩ := h.cons
    simp only [Items.entries, List.map_cons, List.map_append, Tree.allIds_eq, List.nodup_cons, List.nodup_append] at hn
    simp only [Items.pairs, List.map_cons, List.mapM_cons, h2.shown hn.2.1, RepItems.shown h3 hn.2.2.1, bind, Except.bind, pure, Except.pure]

mutual
theorem Tree.exact_find {x : Nat} {u : Tree Nat} : ∀ {t : Tree Nat}, t.exact → t.find x = some u → u.exact
  | .leaf i p s, h, hf => by
    simp only [Tree.find] at hf
    split at hf
    · cases hf; exact h
    · cases hf
  | .node i p m n k items, h, hf => by
    simp only [Tree.find] at hf
    split at hf
    · cases hf; exact h
    · exact Items.exact_find h.2.1 hf
theorem Items.exact_find {x : Nat} {u : Tree Nat} {m : Bool} : ∀ {is : Items Nat}, is.exact m → is.find x = some u → u.exact
  | .nil, _, hf => by simp [Items.find] at hf
  | .cons i p key v rest, h, hf => by
    simp only [Items.find] at hf
    cases hv : v.find x with
    | some w => rw [hv] at hf; cases hf; exact Tree.exact_find h.2.2.1 hv
    | none => rw [hv] at hf; exact Items.exact_find h.2.2.2 hf
end

theorem parsed_exact {inp : Bytes} {doc : Document} (hv : validUtf8 inp = true) (h : Parsed inp doc) : ∃ t, Holds doc t ∧ t.exact := by
  obtain ⟨f, hf⟩ := h
  rw [parseF_refine] at hf
  cases hp : pparseF f inp with
  | error e => rw [hp] at hf; cases hf
  | ok r =>
    obtain ⟨t, suffix⟩ := r
    rw [hp] at hf
    cases hf
    exact ⟨_, docOf_holds t suffix, (Tree.label_exact 0 t).2 (parse_exact hv hp).1⟩

/-! ### C63 -/

/-- C63: what is displayed of a value is a part of what is displayed of the document. -/
theorem C63_document {doc : Document} (h : Reachable doc) {x : Nat} (hx : Live doc x) :
    ∃ a t b, valueDisplay doc.data x = .ok t ∧ doc.display = .ok (a ++ t ++ b) := by
  obtain ⟨t, ht⟩ := h.holds
  obtain ⟨u, hu⟩ := (ht.live_iff x).1 hx
  obtain ⟨p, ha⟩ := ht.at hu
  obtain ⟨a, b, h1⟩ := Tree.disp_find hu
  exact ⟨lossy t.pre ++ a, u.disp, b ++ lossy doc.suffix, ha.shown, by rw [ht.display, h1]; simp⟩

/-- The values of a collection are displayed in it, one after the other. -/
theorem C63_items {doc : Document} (h : Reachable doc) {x : Nat} (hx : Live doc x) {L : List Nat}
    (hL : seqValues doc.data x = .ok L ∨ ∃ M, mapEntries doc.data x = .ok M ∧ L = M.map (·.2)) :
    ∃ out ts, valueDisplay doc.data x = .ok out ∧ L.mapM (valueDisplay doc.data) = .ok ts ∧ InOrder ts out := by
  obtain ⟨t, ht⟩ := h.holds
  have key : ∀ {pre : Bytes} {m : Bool} {ind : Nat} {k : CollKind} {items : Items Nat} {p : Option Nat}, At doc x (.node x pre m ind k items) p →
      ∃ out ts, valueDisplay doc.data x = .ok out ∧ (items.pairs.map (·.2.id)).mapM (valueDisplay doc.data) = .ok ts ∧ InOrder ts out := by
    intro pre m ind k items p ha
    refine ⟨_, _, ha.shown, ha.rep.node.2.shown ?_, ?_⟩
    · have := ha.nodup
      rw [Tree.allIds_node, List.nodup_cons] at this
      exact this.2
    · rw [Tree.disp]
      exact ((Items.disp_order m k items).before _).after _
  rcases hL with hL | ⟨M, hM, rfl⟩
  · obtain ⟨pre, ind, k, items, p, -, ha, rfl⟩ := ht.seqNode hx hL
    exact key ha
  · obtain ⟨pre, ind, k, items, p, -, ha, rfl⟩ := ht.mapNode hx hM
    have := key ha
    rwa [List.map_map]

/-- The handle of a mapping or a sequence displays what the handle of the value does. -/
theorem C63_handles {doc : Document} (h : Reachable doc) {x : Nat} (hx : Live doc x) :
    (∀ m, asMapping doc.data x = .ok (some m) → mappingDisplay doc.data m = valueDisplay doc.data x) ∧
    ∀ s, asSequence doc.data x = .ok (some s) → sequenceDisplay doc.data s = valueDisplay doc.data x := by
  obtain ⟨t, ht⟩ := h.holds
  obtain ⟨u, hu⟩ := (ht.live_iff x).1 hx
  obtain ⟨q, ha⟩ := ht.at hu
  have hg := ha.get
  rcases ht.kindOf hu with ⟨p, s, rfl, h1, h2⟩ | ⟨p, n, k, is, rfl, h1, h2⟩ | ⟨p, n, k, is, rfl, h1, h2⟩
  · exact ⟨fun m h => (by rw [h1] at h; cases h), fun m h => (by rw [h2] at h; cases h)⟩
  · refine ⟨fun m h => ?_, fun m h => by rw [h2] at h; cases h⟩
    rw [h1] at h
    cases h
    simp [mappingDisplay, valueDisplay, mapping_of hg, raw_of hg, Tree.raw, collRaw, bind, Except.bind]
  · refine ⟨fun m h => (by rw [h1] at h; cases h), fun m h => ?_⟩
    rw [h2] at h
    cases h
    simp [sequenceDisplay, valueDisplay, sequence_of hg, raw_of hg, Tree.raw, collRaw, bind, Except.bind]

/-- A value of a UTF-8 text that was parsed is displayed as it is written. -/
theorem C63_written {inp : Bytes} {doc : Document} (hu : validUtf8 inp = true) (h : Parsed inp doc) {x : Nat} (hx : Live doc x) :
    valueDisplay doc.data x = valueText doc.data x := by
  obtain ⟨t, ht, he⟩ := parsed_exact hu h
  obtain ⟨u, hf⟩ := (ht.live_iff x).1 hx
  obtain ⟨q, ha⟩ := ht.at hf
  rw [ha.shown, ha.text, Tree.exact_disp (Tree.exact_find he hf)]

/-- If the text is written as it was read, that is a part of the text. -/
theorem C63_part {inp : Bytes} {doc : Document} (hu : validUtf8 inp = true) (h : Parsed inp doc) (hw : doc.write = .ok inp) {x : Nat} (hx : Live doc x) :
    ∃ a t b, inp = a ++ t ++ b ∧ valueDisplay doc.data x = .ok t := by
  obtain ⟨a, t, b, h1, h2⟩ := C63_document (.parsed h) hx
  obtain ⟨out, h3, h4⟩ := C02_display inp doc hu h
  rw [hw] at h3
  cases h3
  rw [h2] at h4
  cases h4
  exact ⟨a, t, b, rfl, h1⟩

/-- A scalar of a text that was parsed is displayed as it is in the text; only a missing value is displayed as nothing. -/
theorem C63_scalars {inp : Bytes} {doc : Document} (hu : validUtf8 inp = true) (h : Parsed inp doc) {x : Nat} (hx : Live doc x) {a : AnyV}
    (ha : asAny doc.data x = .ok a) (hs : asMapping doc.data x = .ok none ∧ asSequence doc.data x = .ok none) :
    (∃ lo hi, lo ≤ hi ∧ hi ≤ inp.length ∧ ScalarText inp a lo hi ∧ valueDisplay doc.data x = .ok (slice inp lo hi)) ∨
    a = .null ∧ valueDisplay doc.data x = .ok [] := by
  obtain ⟨t, ht, hP⟩ := parsed_leaves (P := fun s => (∃ lo hi, lo ≤ hi ∧ hi ≤ inp.length ∧ ScalarText inp s.value lo hi ∧ s.write = slice inp lo hi) ∨ s = .null .empty) h
    (.inr rfl) (fun {f i n s ws m} hn hw hl => by
      refine .inl ?_
      cases (lead_back hn hw rfl hl).1 _ _ _ rfl with
      | text h1 h2 h3 =>
        cases (lead_spec hn).ok hl with
        | scalar _ _ _ h4 _ => exact ⟨n, m, h1, h2, .token h3, h4⟩
      | «open» h1 h2 h3 =>
        cases (lead_spec hn).ok hl with
        | scalar _ _ _ h4 _ => exact ⟨n, _, hn, Nat.le_refl _, by rw [h1]; exact .open h2 h3, h4⟩
      | @block v e h1 h2 h3 =>
        obtain ⟨k1, k2⟩ := block_write hn hl h3 rfl rfl
        rw [h1]
        by_cases ho : OneLine inp n
        · exact ⟨n, _, hn, Nat.le_refl _, .header h2 ho, k1 ho⟩
        · exact ⟨n, e, h2.le, h3, .block h2 ho, k2 ho⟩)
  obtain ⟨u, hf⟩ := (ht.live_iff x).1 hx
  obtain ⟨q, hat⟩ := ht.at hf
  rcases ht.kindOf hf with ⟨p, s, rfl, h1, h2⟩ | ⟨p, n, k, is, rfl, h1, h2⟩ | ⟨p, n, k, is, rfl, h1, h2⟩
  · rw [asAny_leaf hat.rep] at ha
    cases ha
    rw [C63_written hu h hx, hat.text, Tree.render]
    rcases Tree.all_find hP hf with ⟨lo, hi, g1, g2, g3, g4⟩ | rfl
    · exact .inl ⟨lo, hi, g1, g2, g3, by rw [g4]⟩
    · exact .inr ⟨rfl, rfl⟩
  · rw [h1] at hs; cases hs.1
  · rw [h2] at hs; cases hs.2

/-! ### Examples -/

/-- The sequence of the sample and its values. -/
example : valueDisplay sample.data 4 = .ok (b! "- x # c\n  - {k: 'v', n: ~}") ∧ seqValues sample.data 4 = .ok [6, 8] ∧ valueDisplay sample.data 6 = .ok (b! "x # c") ∧
    valueDisplay sample.data 8 = .ok (b! "{k: 'v', n: ~}") ∧ sequenceDisplay sample.data 4 = valueDisplay sample.data 4 ∧
    mappingDisplay sample.data 8 = valueDisplay sample.data 8 := by decide

example : InOrder [b! "x # c", b! "{k: 'v', n: ~}"] (b! "- x # c\n  - {k: 'v', n: ~}") :=
  ⟨b! "- ", b! "\n  - {k: 'v', n: ~}", by decide, b! "\n  - ", [], by decide, trivial⟩

/-- The order matters. -/
example : ¬ InOrder [b! "b", b! "a"] (b! "ab") := by
  rintro ⟨a, b, h1, a', b', h2, -⟩
  match a with
  | [] => cases h1
  | [_] =>
    simp only [List.cons_append, List.nil_append, List.cons.injEq] at h1
    obtain ⟨-, -, rfl⟩ := h1
    cases a' <;> cases h2
  | _ :: _ :: l => simp at h1

/-- A scalar and its text. -/
example : ∃ doc, Parsed (b! "k: [1, 'it''s']") doc ∧ asAny doc.data 6 = .ok (.string (b! "it's")) ∧ valueDisplay doc.data 6 = .ok (b! "'it''s'") ∧
    ScalarText (b! "k: [1, 'it''s']") (.string (b! "it's")) 7 14 :=
  ⟨docOfText (b! "k: [1, 'it''s']"), ⟨20, by decide⟩, by decide, by decide,
    .token (flow := true) (.quoted (t := quoteSingle (b! "it's")) (.single _) (by decide) (by decide))⟩

end Verif
