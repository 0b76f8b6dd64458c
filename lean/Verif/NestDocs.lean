import Verif.NestText
import Verif.Nested
import Verif.Grow
/-
A new item at the end of a block collection anywhere in a document that was read: what is written is read back.
-/
namespace Verif

/-- The last value of a block collection. -/
def lastIn (d : Data) (x : Nat) : Option Nat :=
  match d.mapping x with
  | .ok C => if C.kind = .block then match mapEntries d x with | .ok L => L.getLast?.map (·.2) | .error _ => none else none
  | .error _ => match d.sequence x with
    | .ok C => if C.kind = .block then match seqValues d x with | .ok L => L.getLast? | .error _ => none else none
    | .error _ => none

/-- The block collection `x` ends with the value `w`: its last value, or one that this ends with. -/
inductive EndsWith (d : Data) : Nat → Nat → Prop
  | last {x w : Nat} : lastIn d x = some w → EndsWith d x w
  | inner {x w w' : Nat} : lastIn d x = some w → EndsWith d w w' → EndsWith d x w'

/-- After the value `w` there can be an item in column `c` of a collection (`m`: a mapping) that `w` is in: it is not a block scalar
(or one that keeps no line breaks, with its lines further to the right, see `Strips`), its text is not empty (or `f`: it may be), and its
items are further to the right.  (Items of a sequence may also be in the column of the keys of a mapping.) -/
def Closes (d : Data) (c : Nat) (m f : Bool) (w : Nat) : Prop :=
  (∀ t, valueText d w = .ok t → (t = [] → f = true) ∧ (t.headD 0 ≠ PIPE ∧ t.headD 0 ≠ GT ∨ ∃ a, asAny d w = .ok a ∧ Strips c t a)) ∧ (∀ C, d.mapping w = .ok C → C.kind = .block → c < C.indent) ∧
    (∀ C, d.sequence w = .ok C → C.kind = .block → if m then c ≤ C.indent else c < C.indent)

theorem lastIn_node {doc : Document} {x : Nat} {pre : Bytes} {m : Bool} {ind : Nat} {items : Items Nat} {p : Option Nat} (ha : At doc x (.node x pre m ind .block items) p) {k : RStr} {v : Tree Nat}
    (h : items.pairs.getLast? = some (k, v)) : lastIn doc.data x = some v.id := by
  have hg := ha.get
  unfold lastIn
  cases m with
  | true =>
    rw [mapping_of hg, mapEntries_node ha.rep]
    simp [List.getLast?_map, h]
  | false =>
    have : doc.data.mapping x = .error .panic := by simp [Data.mapping, hg, Tree.raw, collRaw]
    rw [this, sequence_of hg, seqValues_node ha.rep]
    simp [List.getLast?_map, h]

mutual
theorem Tree.closed {doc : Document} {t : Tree Nat} (ht : Holds doc t) {c : Nat} {m f : Bool} : ∀ (w : Tree Nat) (p : Nat), (f = true → c ≤ p) → t.find w.id = some w → Closes doc.data c m f w.id →
    (∀ w', EndsWith doc.data w.id w' → Closes doc.data c m f w') → w.erase.tailOk c m f p
  | .leaf x pre sc, p, hp, hf, h1, h2 => by
    obtain ⟨_, ha⟩ := ht.at hf
    rw [Tree.erase, Tree.tailOk]
    obtain ⟨h3, h4⟩ := h1.1 _ ha.text
    refine ⟨fun h => ⟨h3 h, hp (h3 h)⟩, h4.imp id ?_⟩
    rintro ⟨a, h5, h6⟩
    obtain rfl := Except.ok.inj ((asAny_leaf ha.rep).symm.trans h5)
    exact h6
  | .node x pre m' ind (.inline tr w) items, _, _, hf, h1, h2 => by
    rw [Tree.erase, Tree.tailOk]
    trivial
  | .node x pre m' ind .block items, _, _, hf, h1, h2 => by
    rw [Tree.id_node] at hf h1 h2
    obtain ⟨p, ha⟩ := ht.at hf
    rw [Tree.erase, Tree.tailOk]
    have hg := ha.get
    have hle : c ≤ ind := by
      cases m' with
      | true => exact Nat.le_of_lt (h1.2.1 _ (mapping_of hg) rfl)
      | false =>
        have := h1.2.2 _ (sequence_of hg) rfl
        split at this
        · exact this
        · exact Nat.le_of_lt this
    refine ⟨fun hi => ?_, Items.closed ht items ind (fun _ => hle) fun k v hl => ?_⟩
    · cases m' with
      | true => exact absurd hi (Nat.ne_of_gt (h1.2.1 _ (mapping_of hg) rfl))
      | false =>
        refine ⟨rfl, ?_⟩
        cases m with
        | true => rfl
        | false => exact absurd hi (Nat.ne_of_gt (h1.2.2 _ (sequence_of hg) rfl))
    · have hl' := lastIn_node ha hl
      rw [getLast?_get] at hl
      exact ⟨Tree.find_trans ht.nodup hf (Tree.find_pair ha.nodup hl), h2 _ (.last hl'), fun w' hw' => h2 _ (.inner hl' hw')⟩
theorem Items.closed {doc : Document} {t : Tree Nat} (ht : Holds doc t) {c : Nat} {m f : Bool} : ∀ (items : Items Nat) (p : Nat), (f = true → c ≤ p) →
    (∀ (k : RStr) (v : Tree Nat), items.pairs.getLast? = some (k, v) → t.find v.id = some v ∧ Closes doc.data c m f v.id ∧ ∀ w', EndsWith doc.data v.id w' → Closes doc.data c m f w') →
    items.erase.tailOk c m f p
  | .nil, _, _, _ => by rw [Items.erase, Items.tailOk]; trivial
  | .cons i _ key v .nil, p, hp, h => by
    obtain ⟨h1, h2, h3⟩ := h key v rfl
    rw [Items.erase, Items.erase, Items.tailOk]
    exact Tree.closed ht v p hp h1 h2 h3
  | .cons i _ key v (.cons i' p' key' v' rest), p, hp, h => by
    have := Items.closed ht (.cons i' p' key' v' rest) p hp fun k v hl => h k v (by
      simp only [Items.pairs] at hl ⊢
      rw [List.getLast?_cons_cons]
      exact hl)
    rw [Items.erase] at this ⊢
    rw [Items.erase, Items.tailOk]
    exact this
    simp
end

theorem Items.erase_add {i : Nat} {p : Bytes} {key : RStr} {v : Tree Nat} : ∀ items : Items Nat, (items.append (.cons i p key v .nil)).erase = items.erase.append (.cons () p key v.erase .nil)
  | .nil => rfl
  | .cons _ _ _ _ rest => by simp only [Items.append, Items.erase, Items.erase_add rest]

/-- The mapping or sequence at `x`. -/
def collAt (m : Bool) (d : Data) (x : Nat) : Except Stop Coll := if m then d.mapping x else d.sequence x

theorem collAt_node {doc : Document} {t u : Tree Nat} (ht : Holds doc t) {x : Nat} (hu : t.find x = some u) {m : Bool} {C : Coll} (hC : collAt m doc.data x = .ok C) :
    ∃ pre items, u = .node x pre m C.indent C.kind items := by
  obtain ⟨p, ha⟩ := ht.at hu
  have hg := ha.get
  rcases ht.kindOf hu with ⟨pre, s, rfl, _⟩ | ⟨pre, n, k, items, rfl, _⟩ | ⟨pre, n, k, items, rfl, _⟩
  · cases m <;> cases s <;> simp [collAt, Data.mapping, Data.sequence, hg, Tree.raw, Scalar.toRaw] at hC
  · cases m with
    | true =>
      have hC : doc.data.mapping x = .ok C := hC
      rw [mapping_of hg] at hC
      cases hC
      exact ⟨_, _, rfl⟩
    | false => simp [collAt, Data.sequence, hg, Tree.raw, collRaw] at hC
  · cases m with
    | false =>
      have hC : doc.data.sequence x = .ok C := hC
      rw [sequence_of hg] at hC
      cases hC
      exact ⟨_, _, rfl⟩
    | true => simp [collAt, Data.mapping, hg, Tree.raw, collRaw] at hC

theorem addRow_render {m : Bool} {ind : Nat} {items : Items Nat} (hn : items.isNil = false) (i v : Nat) (key : RStr) (sep : Bytes) (sc : Scalar) :
    (items.append (.cons i (addPre ind items) key (.leaf v sep sc) .nil)).render m .block = items.render m .block ++ newRow m ind key sep sc.write := by
  have e0 : lossy (NL :: List.replicate ind SP) = NL :: List.replicate ind SP := by
    have := lossy_valid (addPre_gap ind items).2
    rw [addPre, hn] at this
    exact this
  rw [block_render, block_render, Items.texts_append]
  simp only [Items.texts, itemText, Tree.pre_leaf, Tree.render, addPre, hn, makePrefix, newRow, rowHead]
  cases m <;> simp [e0]

/-- How a block collection ends. -/
theorem Holds.tail {doc : Document} {t : Tree Nat} (ht : Holds doc t) {x : Nat} {m f : Bool} {c : Nat} (hends : ∀ w, EndsWith doc.data x w → Closes doc.data c m f w) :
    ∀ pre items, t.find x = some (.node x pre m c .block items) → items.erase.tailOk c m f c := by
  intro pre items hu
  obtain ⟨p, ha⟩ := ht.at hu
  exact Items.closed ht items c (fun _ => Nat.le_refl _) fun k v hl => by
    have hl' := lastIn_node ha hl
    rw [getLast?_get] at hl
    exact ⟨Tree.find_trans ht.nodup hu (Tree.find_pair ha.nodup hl), hends _ (.last hl'), fun w' hw' => hends _ (.inner hl' hw')⟩

/-- A new item at the end of a block collection. -/
theorem Laid.nest {inp : Bytes} {doc : Document} {t : Tree Nat} {e0 : Nat} (h : Laid inp doc t e0) (hh : hasHeader inp = false) (hf : followed inp = true)
    (hc : noWsComma inp = true ∨ LBR ∉ inp) (hu : validUtf8 inp = true ∨ HASH ∉ inp) {x : Nat} (hx : Live doc x) {old : Bytes} (ho : valueText doc.data x = .ok old) (hn : old.headD 0 ≠ 0)
    {m f : Bool} {C : Coll} (hC : collAt m doc.data x = .ok C) (hk : C.kind = .block)
    (hends : ∀ pre items, t.find x = some (.node x pre m C.indent .block items) → items.erase.tailOk C.indent m f C.indent) :
    ∃ pre items b d, t.find x = some (.node x pre m C.indent .block items) ∧ LiesTo inp (.node () pre m C.indent .block items.erase) d ∧ b < d ∧ d ≤ inp.length ∧ old = slice inp b d ∧ ReadFrom inp doc x b d ∧ C.indent = columnAt inp b ∧
      ∀ doc' i key v sep sc, doc'.suffix = doc.suffix →
        Holds doc' (Tree.upd x (.node x pre m C.indent .block (items.append (.cons i (addPre C.indent items) key (.leaf v sep sc) .nil))) t) →
        d < inp.length → endsLine (inp.drop d) = true → KeysEnd inp d → RowOk m f key sep sc.write (inp.drop d) sc.value →
        ∃ e', Laid (inp.take d ++ newRow m C.indent key sep sc.write ++ inp.drop d) doc'
          (Tree.upd x (.node x pre m C.indent .block (items.append (.cons i (addPre C.indent items) key (.leaf v sep sc) .nil))) t) e' := by
  have ht := h.laid.holds
  obtain ⟨u, r, s, b0, b, d, E, hu, hL, hg, -, -, hbd, hd, w1, w2, w3, hold, -, hrf, -, hE, hall⟩ := h.swap hh hf hc hu hx ho hn
  obtain ⟨pre, items, rfl⟩ := collAt_node ht hu hC
  rw [hk] at hu hL hall
  obtain ⟨p, ha⟩ := ht.at hu
  have htail := hends pre items hu
  have hrender : items.render m .block = slice inp b d := by
    have := ha.text.symm.trans ho
    rw [← hold, ← Except.ok.inj this]
    simp [Tree.render, openOf, closeOf]
  rw [Tree.erase] at hL
  obtain ⟨hs, hind, hnil⟩ : s ≠ .flow ∧ C.indent = columnAt inp b ∧ items.isNil = false := by
    rw [← Items.erase_nil]
    generalize items.erase = its at hL
    generalize C.indent = ind at hL
    cases hL with
    | dashes h1 h2 h3 => obtain rfl := h1.unique hg; exact ⟨h2, rfl, h3.notNil⟩
    | keys h1 h2 h3 => obtain rfl := h1.unique hg; exact ⟨h2.1, rfl, h3.notNil⟩
  refine ⟨pre, items, b, d, hu, ⟨s, b0, hs, hL⟩, hbd, hd, hold, hrf, hind, ?_⟩
  intro doc' i key v sep sc hsuf hh2 hdl hline hkeys R
  have e1 : (Tree.node x pre m C.indent .block (items.append (.cons i (addPre C.indent items) key (.leaf v sep sc) .nil))).render = slice inp b d ++ newRow m C.indent key sep sc.write := by
    rw [← hrender, ← addRow_render hnil i v]
    simp [Tree.render, openOf, closeOf]
  have e2 : inp.take b ++ (slice inp b d ++ newRow m C.indent key sep sc.write) = inp.take d ++ newRow m C.indent key sep sc.write := by
    rw [← List.append_assoc]
    congr 1
    have h1 : inp.take b = slice inp 0 b := by simp [slice]
    rw [h1, slice_append (Nat.zero_le _) (Nat.le_of_lt hbd)]
    simp [slice]
  have hE' : E = d := by
    rcases hE with h | h
    · exact h.2
    · exact absurd h.1 hs
  have hfl : s.inline = false := by cases s <;> first | rfl | exact absurd rfl hs
  have hlb : (inp.take b).length = b := by rw [List.length_take]; omega
  have hcut := cut3 (inp := inp) (Nat.le_of_lt hbd)
  have hld : (inp.take b ++ slice inp b d).length = d := by rw [List.length_append, slice_length hd, hlb]; omega
  have hsl0 : (slice inp b d).headD 0 = inp.getD b 0 := slice_headD hbd
  have hne : (slice inp b d).headD 0 ≠ 0 := by rw [hsl0]; exact w3
  have hl2 := fun g => endsLine_full (g := g) hd hline
  have hlies := nest_lies hf hL hg hdl hl2 hkeys htail R rfl
  have hfin := hall doc' (.node x pre m C.indent .block (items.append (.cons i (addPre C.indent items) key (.leaf v sep sc) .nil))) rfl rfl hsuf hh2
  rw [e1, e2] at hfin
  refine hfin ?_ ?_
  · refine ⟨⟨⟨?_, ?_, ?_⟩, ⟨?_, ?_, ?_⟩, ?_⟩, ?_, ?_, ?_, ?_, ?_⟩
    · rw [headD_first hne, hsl0]; exact w1
    · rw [headD_first hne, hsl0]; exact w2
    · rw [headD_first hne, hsl0]; exact w3
    · rw [List.append_assoc, headD_first hne, hsl0]; exact w1
    · rw [List.append_assoc, headD_first hne, hsl0]; exact w2
    · rw [List.append_assoc, headD_first hne, hsl0]; exact w3
    · intro a k lo q h1 h2 h3 h4
      rw [← List.append_assoc, hcut] at h1 h2 h4
      rw [hlb] at h3
      obtain ⟨k', q', h5⟩ := hkeys.stay hd (W := newRow m C.indent key sep sc.write ++ inp.drop d) rfl a k lo q (by rw [List.take_append_drop]; exact h1)
        (by rw [List.take_append_drop]; exact h2) (by rw [List.length_take]; omega) (by rw [List.take_append_drop]; exact h4)
      exact ⟨k', q', by rw [← List.append_assoc, e2, List.append_assoc]; exact h5⟩
    · rw [headD_first hne]; exact hne
    · intro h; rw [hfl] at h; cases h
    · rw [hcut, hld, hE']; exact hl2
    · intro h; rw [hfl] at h; cases h
    · intro h; rw [hfl] at h; cases h
  · rw [Tree.erase]
    have : (items.append (.cons i (addPre C.indent items) key (.leaf v sep sc) .nil)).erase = items.erase.append (.cons () (addPre C.indent items) key (.leaf () sep sc) .nil) := Items.erase_add items
    have hap : addPre C.indent items = NL :: List.replicate C.indent SP := by rw [addPre, hnil]; rfl
    rw [this, hap]
    exact hlies

end Verif
