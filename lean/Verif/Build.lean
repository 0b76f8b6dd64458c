import Verif.Props.Undo
import Verif.Props.Edits
import Verif.SerdeLemmas
import Verif.Nested
import Verif.Props.Commute
/-
A program that stores any nested value with the methods of the library, and what it leaves behind.  Nothing here is part of the Rust code.
-/
namespace Verif

/-! ### The program -/

/-- The method that stores a scalar.  (Numbers by their text; the type of the number, which is kept for serialization only, does not matter here.) -/
def AnyV.setter : AnyV → Op
  | .bool b => .setBool b
  | .number s => .setNumber s .f64
  | .string s => .setString s
  | _ => .setNull .tilde

mutual
/-- Store a nested value at `x`: `set_*` for scalars, `make_mapping` and `make_sequence` for collections, then `insert` or `push` for every entry, and the same for the
new value. -/
def build (d : Data) (x : Nat) : Content → Except Stop Data
  | .scalar a => a.setter.run d x
  | .map es => do buildEntries (← makeMapping d x) x es
  | .seq es => do buildElems (← makeSequence d x) x es
def buildEntries (d : Data) (x : Nat) : Entries → Except Stop Data
  | .nil => .ok d
  | .cons k v rest => do
    let (y, d) ← mapInsert d x k .auto
    let d ← build d y v
    buildEntries d x rest
def buildElems (d : Data) (x : Nat) : Elems → Except Stop Data
  | .nil => .ok d
  | .cons v rest => do
    let (y, d) ← seqPush d x .auto
    let d ← build d y v
    buildElems d x rest
end

/-- The same in place of any value, which is removed first with `set_null`. -/
def replaceWith (d : Data) (x : Nat) (c : Content) : Except Stop Data := do
  build (← (Op.setNull .tilde).run d x) x c

/-! ### What it can store -/

/-- Scalars that are read back wherever they are. -/
def AnyV.canSet : AnyV → Bool
  | .null | .bool _ => true
  | .number s => isNumber s
  | .string s => safeStr s (preferred s)
  | _ => false

def Content.isLeaf : Content → Bool
  | .scalar _ => true
  | _ => false

def Entries.isNil : Entries → Bool
  | .nil => true
  | .cons _ _ _ => false

/-- The first one is a scalar. -/
def Elems.leafFirst : Elems → Bool
  | .nil => false
  | .cons v _ => v.isLeaf

mutual
/-- Collections are not empty, keys can be written as keys and differ, and the first value of a sequence is a scalar. -/
def Content.canBuild : Content → Bool
  | .scalar a => a.canSet
  | .map es => !es.isNil && es.canBuild []
  | .seq es => es.leafFirst && es.canBuild
def Entries.canBuild (seen : List Bytes) : Entries → Bool
  | .nil => true
  | .cons k v rest => safeKey k && !seen.contains k && v.canBuild && rest.canBuild (k :: seen)
def Elems.canBuild : Elems → Bool
  | .nil => true
  | .cons v rest => v.canBuild && rest.canBuild
end

/-- At the start of the line, the first value of a sequence may be a collection. -/
def Content.canBuildTop : Content → Bool
  | .seq (.cons v rest) => (Elems.cons v rest).canBuild
  | c => c.canBuild

mutual
/-- The value at these positions is another one. -/
def Content.put (new : Content) : List Nat → Content → Content
  | [], _ => new
  | _ :: _, .scalar a => .scalar a
  | n :: p, .map es => .map (Entries.put new n p es)
  | n :: p, .seq es => .seq (Elems.put new n p es)
def Entries.put (new : Content) : Nat → List Nat → Entries → Entries
  | _, _, .nil => .nil
  | 0, p, .cons k v rest => .cons k (Content.put new p v) rest
  | n + 1, p, .cons k v rest => .cons k v (Entries.put new n p rest)
def Elems.put (new : Content) : Nat → List Nat → Elems → Elems
  | _, _, .nil => .nil
  | 0, p, .cons v rest => .cons (Content.put new p v) rest
  | n + 1, p, .cons v rest => .cons v (Elems.put new n p rest)
end

/-! ### Trees -/

theorem Items.append_append {α : Type} : ∀ a b c : Items α, (a.append b).append c = a.append (b.append c)
  | .nil, _, _ => rfl
  | .cons i p key v rest, b, c => by simp only [Items.append, Items.append_append rest b c]

theorem Items.full_append : ∀ {a b : Items Nat}, a.full → b.full → (a.append b).full
  | .nil, _, _, h => h
  | .cons _ _ _ _ _, _, ⟨h1, h2⟩, h => ⟨h1, Items.full_append h2 h⟩

mutual
theorem Tree.full_upd {x : Nat} {u u' : Tree Nat} (hu : u'.full) : ∀ {t : Tree Nat}, t.allIds.Nodup → (∀ y w, u.find y = none → t.find y = some w → w.render ≠ []) → t.find x = some u →
    (Tree.upd x u' t).full
  | .leaf i p s, _, h, hs => by
    rw [Tree.upd]
    split
    · exact hu
    · next hi => rw [Tree.find, if_neg hi] at hs; cases hs
  | .node i p m n k items, hn, h, hs => by
    rw [Tree.allIds_node, List.nodup_cons] at hn
    rw [Tree.upd]
    split
    · exact hu
    · next hi =>
      rw [Tree.find, if_neg hi] at hs
      refine ⟨?_, Items.full_upd hu i m hn.2 (fun y w hy hf => h y w hy ?_) hs⟩
      · rintro -
        rw [Items.upd_isNil]
        cases items with
        | nil => cases hs
        | cons => rfl
      · rw [Tree.find, if_neg]
        · exact hf
        · rintro rfl
          exact hn.1 (Items.find_mem i m hf)
theorem Items.full_upd {x : Nat} {u u' : Tree Nat} (hu : u'.full) (c : Nat) (m : Bool) : ∀ {is : Items Nat}, ((is.entries c m).map (·.1)).Nodup →
    (∀ y w, u.find y = none → is.find y = some w → w.render ≠ []) → is.find x = some u → (Items.upd x u' is).full
  | .nil, _, _, hs => by cases hs
  | .cons i p key v rest, hn, ht, hs => by
    simp only [Items.entries, List.map_cons, List.map_append, List.nodup_cons, List.nodup_append, Tree.allIds_eq] at hn
    obtain ⟨_, hv, hr, hvr⟩ := hn
    have hrest : ∀ {y w}, rest.find y = some w → v.find y = none := fun {y w} hf => by
      cases hc : v.find y with
      | none => rfl
      | some z => exact absurd rfl (hvr y (Tree.find_mem hc) y (Items.find_mem c m hf))
    cases hx : v.find x with
    | some w =>
      obtain rfl : w = u := by simpa [Items.find, hx] using hs
      rw [Items.upd, hx]
      refine ⟨Tree.full_upd hu hv (fun y w hy hf => ht y w hy (by simp [Items.find, hf])) hx, Items.full_of hr fun y z hf => ht y z ?_ (by simp [Items.find, hrest hf, hf])⟩
      cases hc : w.find y with
      | none => rfl
      | some z' => have := Tree.find_trans hv hx hc; rw [hrest hf] at this; cases this
    | none =>
      have hs' : rest.find x = some u := by simpa [Items.find, hx] using hs
      rw [Items.upd, hx]
      refine ⟨Tree.full_of hv fun y w hf => ht y w ?_ (by simp [Items.find, hf]), Items.full_upd hu c m hr (fun y w hy hf => ht y w hy (by simp [Items.find, hrest hf, hf])) hs'⟩
      cases hc : u.find y with
      | none => rfl
      | some z' => have := hrest (Items.find_trans c m hr hs' hc); rw [hf] at this; cases this
end

/-! ### Paths -/

mutual
theorem Tree.put_content {d : Data} {x : Nat} {u : Tree Nat} : ∀ {t : Tree Nat} {par : Option Nat}, Rep d par t → t.find x = some u →
    ∃ p, Path d t.id p x ∧ ∀ u', (Tree.upd x u' t).content = Content.put u'.content (p.map (·.1)) t.content
  | .leaf i p s, par, _, h => by
    simp only [Tree.find] at h
    split at h
    · next hi => subst hi; exact ⟨[], .here, fun u' => by simp [Tree.upd, Content.put]⟩
    · cases h
  | .node i p m ind k items, par, hr, h => by
    simp only [Tree.find] at h
    split at h
    · next hi => subst hi; exact ⟨[], .here, fun u' => by simp [Tree.upd, Content.put]⟩
    · next hi =>
      obtain ⟨n, key, v, q, h1, h2, h3, h4⟩ := Items.put_content hr.node.2 h
      cases m with
      | true =>
        refine ⟨(n, some key.id) :: q, .step ⟨_, isMap_node hr, ?_⟩ h2, fun u' => ?_⟩
        · simp [h1]
        · simp [Tree.upd, if_neg hi, Tree.content, Content.put, h3]
      | false =>
        refine ⟨(n, none) :: q, .step ⟨_, isSeq_node hr, ?_⟩ h2, fun u' => ?_⟩
        · simp [h1]
        · simp [Tree.upd, if_neg hi, Tree.content, Content.put, h4]
theorem Items.put_content {d : Data} {x : Nat} {u : Tree Nat} : ∀ {is : Items Nat} {c : Nat} {m : Bool}, RepItems d c m is → is.find x = some u →
    ∃ n key v q, is.pairs[n]? = some (key, v) ∧ Path d v.id q x ∧ (∀ u', (Items.upd x u' is).entriesC = Entries.put u'.content n (q.map (·.1)) is.entriesC) ∧
      ∀ u', (Items.upd x u' is).elemsC = Elems.put u'.content n (q.map (·.1)) is.elemsC
  | .nil, _, _, _, h => by simp [Items.find] at h
  | .cons i p key v rest, c, m, hr, h => by
    simp only [Items.find, Option.or_eq_some_iff] at h
    rcases h with h | ⟨h0, h⟩
    · obtain ⟨q, h1, h2⟩ := Tree.put_content hr.cons.2.1 h
      refine ⟨0, key, v, q, by simp [Items.pairs], h1, fun u' => ?_, fun u' => ?_⟩
      · simp [Items.upd, h, Items.entriesC, Entries.put, h2]
      · simp [Items.upd, h, Items.elemsC, Elems.put, h2]
    · obtain ⟨n, key', v', q, h1, h2, h3, h4⟩ := Items.put_content hr.cons.2.2 h
      refine ⟨n + 1, key', v', q, by simpa [Items.pairs] using h1, h2, fun u' => ?_, fun u' => ?_⟩
      · simp [Items.upd, h0, Items.entriesC, Entries.put, h3]
      · simp [Items.upd, h0, Items.elemsC, Elems.put, h4]
end

/-! ### Parents -/

/-- A value with values in it is a collection of the document. -/
theorem Holds.childNode {doc : Document} {t : Tree Nat} (h : Holds doc t) {c y : Nat} (hc : Child doc.data c y) :
    ∃ pre m ind k items i q, t.find c = some (.node c pre m ind k items) ∧ i ∈ items.ids ∧ doc.data.slab.get i = some q ∧ q.parent = some c ∧
      ∃ e, doc.data.slab.get y = some e ∧ e.parent = some i := by
  have hg : ∃ e, doc.data.slab.get c = some e ∧ e.raw.isItem = false := by
    have key : ∀ {e}, doc.data.slab.get c = some e → doc.data.raw c = .ok e.raw := fun he => raw_of he
    cases hs : doc.data.slab.get c with
    | none =>
      exfalso
      have hr : ∃ s, doc.data.raw c = .error s := by simp only [Data.raw, Data.entry, hs]; exact ⟨_, rfl⟩
      obtain ⟨s, hr⟩ := hr
      rcases hc with ⟨_, h1, _⟩ | ⟨_, _, h1, _⟩
      · simp [asSequence, hr, bind, Except.bind] at h1
      · simp [asMapping, hr, bind, Except.bind] at h1
    | some e =>
      refine ⟨e, rfl, ?_⟩
      have hr := key hs
      rcases hc with ⟨_, h1, _⟩ | ⟨_, _, h1, _⟩
      · simp only [asSequence, hr, bind, Except.bind] at h1
        cases he : e.raw <;> rw [he] at h1 <;> first | rfl | cases h1
      · simp only [asMapping, hr, bind, Except.bind] at h1
        cases he : e.raw <;> rw [he] at h1 <;> first | rfl | cases h1
  obtain ⟨e, hg, hi⟩ := hg
  obtain ⟨w, hw⟩ := Tree.find_of_entry hi (h.entry_mem hg)
  obtain ⟨p, ha⟩ := h.at hw
  obtain ⟨c', cp, m, ind, k, items, rfl, n, key, v, h1, rfl⟩ := (child_iff ha.rep y).1 (by rw [ha.id]; exact hc)
  have hv : c' = c := ha.id
  subst hv
  have hn : n < items.ids.length := by
    rw [← Items.length_pairs]; exact (List.getElem?_eq_some_iff.1 h1).1
  obtain ⟨ip, key', w'', h2, h3, h4⟩ := ha.rep.node.2.get (List.getElem?_eq_getElem hn)
  rw [h1] at h2
  cases h2
  exact ⟨cp, m, ind, k, items, _, _, hw, List.getElem_mem _, h3, rfl, _, h4.head, rfl⟩

/-- A value is in one collection only. -/
theorem Holds.oneParent {doc : Document} {t : Tree Nat} (h : Holds doc t) {a b y : Nat} (ha : Child doc.data a y) (hb : Child doc.data b y) : a = b := by
  obtain ⟨_, _, _, _, _, i, q, _, _, h1, h2, e, h3, h4⟩ := h.childNode ha
  obtain ⟨_, _, _, _, _, i', q', _, _, g1, g2, e', g3, g4⟩ := h.childNode hb
  rw [h3] at g3; cases g3
  rw [h4] at g4; cases g4
  rw [h1] at g1; cases g1
  rw [h2] at g2; cases g2
  rfl

/-! ### The steps -/

theorem Tidy.step {q : Mode} {doc : Document} {t u : Tree Nat} {x : Nat} (h : Tidy q doc) (ht : Holds doc t) (hf : t.find x = some u) (op : Op) (hs : op.safe q doc.data x) :
    ∃ d' i v mk, op.run doc.data x = .ok d' ∧ Tidy q ⟨doc.suffix, doc.root, d'⟩ ∧ Holds ⟨doc.suffix, doc.root, d'⟩ (Tree.upd x (op.tree i v mk u) t) := by
  obtain ⟨d', i, v, mk, h1, _, _, h2⟩ := ht.editTree hf op
  refine ⟨d', i, v, mk, h1, .edited (x := x) (op := op) h ((ht.live_iff x).2 ⟨u, hf⟩) hs ?_, h2⟩
  simp [Document.edit, h1, bind, Except.bind, pure, Except.pure]

/-- The text of the items does not start with a bracket. -/
def Items.begins (m : Bool) : Items Nat → Prop
  | .nil => True
  | .cons _ p key _ _ => p = [] ∧ (m = true → key.write ≠ [] ∧ key.write.headD 0 ≠ LBR ∧ key.write.headD 0 ≠ LCB)

theorem Items.begins_append {m : Bool} {a b : Items Nat} (h : a.begins m) (h2 : a.isNil = true → b.begins m) : (a.append b).begins m := by
  cases a with
  | nil => exact h2 rfl
  | cons => exact h

theorem notInline_begins {doc : Document} {t : Tree Nat} {x : Nat} {p : Bytes} {m : Bool} {n : Nat} {items : Items Nat} (ht : Holds doc t)
    (hf : t.find x = some (.node x p m n .block items)) (hb : items.begins m) : NotInline doc.data x := by
  intro out ho
  obtain ⟨q, ha⟩ := ht.at hf
  rw [ha.text] at ho
  cases ho
  cases items with
  | nil => simp [Tree.render, Items.render, openOf, closeOf]; decide
  | cons i ip key v rest =>
    obtain ⟨rfl, hk⟩ := hb
    cases m with
    | false => simp [Tree.render, Items.render, openOf, show lossy [] = [] from rfl]; decide
    | true =>
      obtain ⟨h1, h2, h3⟩ := hk rfl
      cases hw : key.write with
      | nil => exact absurd hw h1
      | cons b r =>
        rw [hw] at h2 h3
        simpa [Tree.render, Items.render, openOf, hw] using ⟨h2, h3⟩

theorem safeKey_head {k : Bytes} (h : safeKey k = true) : k ≠ [] ∧ k.headD 0 ≠ LBR ∧ k.headD 0 ≠ LCB := by
  simp only [safeKey, keyBlock, Bool.and_eq_true, Bool.not_eq_true', bne_iff_ne, ne_eq] at h
  obtain ⟨⟨⟨⟨⟨⟨⟨h1, h2⟩, _⟩, _⟩, _⟩, _⟩, _⟩, _⟩ := h
  refine ⟨fun e => (by rw [e] at h1; cases h1), fun e => ?_, fun e => ?_⟩ <;> rw [e] at h2 <;> exact absurd h2 (by decide)

theorem AnyV.setter_full {a : AnyV} (h : a.canSet = true) {u : Tree Nat} : ∃ s, a.setter.scalar u = some s ∧ s.value = a ∧ s.write ≠ [] := by
  cases a with
  | null => exact ⟨_, rfl, rfl, by decide⟩
  | bool b => exact ⟨_, rfl, rfl, by cases b <;> decide⟩
  | number s =>
    refine ⟨_, rfl, rfl, fun e => ?_⟩
    have e : s = [] := e
    subst e
    exact absurd h (by decide)
  | string s =>
    refine ⟨_, rfl, rfl, fun e => ?_⟩
    rw [strScalar_eq] at e
    simp only [AnyV.canSet] at h
    cases hk : preferred s <;> rw [hk] at h e
    · simp only [safeStr, safePlain, plainBlock, Bool.and_eq_true] at h
      have e : s = [] := e
      subst e
      exact absurd h.1.1.1.1.1.1.1.1.1 (by decide)
    · cases e
    · cases e
  | mapping | sequence | raw => cases h

theorem AnyV.setter_safe {a : AnyV} (h : a.canSet = true) (q : Mode) (d : Data) (x : Nat) : a.setter.safe q d x := by
  cases a <;> first | exact h | trivial

/-- A new entry without a value, in which a collection can be made. -/
theorem Tidy.insertNull {q : Mode} {doc : Document} {t : Tree Nat} {x : Nat} {p : Bytes} {n : Nat} {items : Items Nat} {k : Bytes} (h : Tidy q doc) (ht : Holds doc t)
    (hf : t.find x = some (.node x p true n .block items)) (hb : items.begins true) (hk : safeKey k = true) (hl : items.lookup k = none) :
    ∃ d' i y pre s, mapInsert doc.data x k .auto = .ok (y, d') ∧ Tidy q ⟨doc.suffix, doc.root, d'⟩ ∧ (items.append (.cons i pre ⟨.bare, k, k⟩ (.leaf y [SP] s) .nil)).begins true ∧
      Holds ⟨doc.suffix, doc.root, d'⟩ (Tree.upd x (.node x p true n .block (items.append (.cons i pre ⟨.bare, k, k⟩ (.leaf y [SP] s) .nil))) t) ∧ CanMake d' y := by
  obtain ⟨d', i, v, mk, h1, h2, h3⟩ := h.step ht hf (.insert k (.null .auto)) ⟨hk, rfl⟩
  have hx := (ht.live_iff x).2 ⟨_, hf⟩
  obtain ⟨par, ha⟩ := ht.at hf
  obtain ⟨y, d2, g1, _, g3, _, g4, _⟩ := C14_insert h.reachable hx (mapEntries_node ha.rep) k (.null .auto)
  have he : d2 = d' := by
    have := withMapping_map ha.rep fun m => mapInsertV doc.data m k (.null .auto)
    rw [show withMapping doc.data x (fun m => mapInsertV doc.data m k (.null .auto)) = .ok d' from h1, g1] at this
    cases this; rfl
  subst he
  have htree : Op.tree i v mk (.insert k (.null .auto)) (.node x p true n .block items) =
      .node x p true n .block (items.append (.cons i (addPre n items) ⟨.bare, k, k⟩ (.leaf v [SP] (.null .empty)) .nil)) := by
    simp [Op.tree, Op.scalar, hl, Val.sep, Val.scalar, insertPre]
  rw [htree] at h3
  have hf' := Tree.find_upd hf (u' := .node x p true n .block (items.append (.cons i (addPre n items) ⟨.bare, k, k⟩ (.leaf v [SP] (.null .empty)) .nil))) rfl
  obtain ⟨par', ha'⟩ := h3.at hf'
  have hy : y = v := by
    have := ha'.mapGet k
    rw [Items.lookup_append hl] at this
    rw [show mapGet _ x k = _ from g3] at this
    simpa [Items.lookup] using this
  subst hy
  have hbeg : (items.append (.cons i (addPre n items) ⟨.bare, k, k⟩ (.leaf y [SP] (.null .empty)) .nil)).begins true :=
    Items.begins_append hb fun hn => ⟨by simp [addPre, hn], fun _ => safeKey_head hk⟩
  refine ⟨d2, i, y, addPre n items, .null .empty, g1, h2, hbeg, h3, fun c hc => ?_⟩
  obtain rfl : c = x := h3.oneParent hc (.inr ⟨_, k, (isMap_node ha'.rep).1, (isMap_node ha'.rep).2, by simp [Items.pairs_append, Items.pairs]⟩)
  refine ⟨notInline_begins h3 hf' hbeg, fun l hl _ => ?_⟩
  have := (map_not_seq (isMap_node ha'.rep).1).symm.trans hl.1
  cases this

/-- A new item without a value, in which, if it is not the first one or at the start of the line, a collection can be made. -/
theorem Tidy.pushNull {q : Mode} {doc : Document} {t : Tree Nat} {x : Nat} {p : Bytes} {n : Nat} {items : Items Nat} (h : Tidy q doc) (ht : Holds doc t)
    (hf : t.find x = some (.node x p false n .block items)) (hb : items.begins false) :
    ∃ d' i y pre vpre s, seqPush doc.data x .auto = .ok (y, d') ∧ Tidy q ⟨doc.suffix, doc.root, d'⟩ ∧ (items.append (.cons i pre noKey (.leaf y vpre s) .nil)).begins false ∧
      Holds ⟨doc.suffix, doc.root, d'⟩ (Tree.upd x (.node x p false n .block (items.append (.cons i pre noKey (.leaf y vpre s) .nil))) t) ∧ (items.isNil = false ∨ n = 0 → CanMake d' y) := by
  obtain ⟨d', i, v, mk, h1, h2, h3⟩ := h.step ht hf (.push (.null .auto)) rfl
  have hx := (ht.live_iff x).2 ⟨_, hf⟩
  obtain ⟨par, ha⟩ := ht.at hf
  obtain ⟨y, d2, g1, _, _, g3, _⟩ := C19_push h.reachable hx (seqValues_node ha.rep) (.null .auto)
  have he : d2 = d' := by
    have := withSequence_seq ha.rep fun m => seqPushV doc.data m (.null .auto)
    rw [show withSequence doc.data x (fun m => seqPushV doc.data m (.null .auto)) = .ok d' from h1, g1] at this
    cases this; rfl
  subst he
  have htree : Op.tree i v mk (.push (.null .auto)) (.node x p false n .block items) =
      .node x p false n .block (items.append (.cons i (addPre n items) noKey (.leaf v (pushPre .auto items) (.null .empty)) .nil)) := by
    simp [Op.tree, Op.scalar, Val.sep, Val.scalar]
  rw [htree] at h3
  have hf' := Tree.find_upd hf (u' := .node x p false n .block (items.append (.cons i (addPre n items) noKey (.leaf v (pushPre .auto items) (.null .empty)) .nil))) rfl
  obtain ⟨par', ha'⟩ := h3.at hf'
  have hy : y = v := by
    have := seqValues_node ha'.rep
    rw [show seqValues _ x = _ from g3] at this
    simpa [Items.pairs_append, Items.pairs] using this
  subst hy
  have hbeg : (items.append (.cons i (addPre n items) noKey (.leaf y (pushPre .auto items) (.null .empty)) .nil)).begins false :=
    Items.begins_append hb fun hn => ⟨by simp [addPre, hn], fun h => by cases h⟩
  refine ⟨d2, i, y, addPre n items, _, .null .empty, g1, h2, hbeg, h3, fun hn c hc => ?_⟩
  obtain rfl : c = x := h3.oneParent hc (.inl ⟨_, (isSeq_node ha'.rep).1, (isSeq_node ha'.rep).2, by simp [Items.pairs_append, Items.pairs]⟩)
  refine ⟨notInline_begins h3 hf' hbeg, fun l hl e => ?_⟩
  have hcol : column d2 c = n := by
    have hq := ha'.rep.head
    rw [Tree.id_node] at hq
    simp [column, Data.raw, entry_of hq, bind, Except.bind, pure, Except.pure, Tree.raw, collRaw]
  rw [hcol]
  refine hn.resolve_left fun hn => ?_
  have := (isSeq_node ha'.rep).2.symm.trans hl.2
  cases this
  cases items with
  | nil => cases hn
  | cons i0 p0 k0 v0 rest =>
    simp only [Items.append, Items.pairs, List.map_cons, List.head?_cons, Option.some.injEq] at e
    have hnd := ha'.nodup
    rw [Tree.allIds_node] at hnd
    simp only [Items.append, Items.entries, List.map_cons, List.map_append, List.nodup_cons, List.nodup_append, Tree.allIds_eq] at hnd
    refine hnd.2.2.2.2 y ?_ y ?_ rfl
    · rw [← e]; exact Tree.find_mem v0.find_self
    · exact Items.find_mem c false (u := .leaf y (pushPre .auto (.cons i0 p0 k0 v0 rest)) (.null .empty)) (by
        rw [Items.find_append]
        have : rest.find y = none := by
          cases hc : rest.find y with
          | none => rfl
          | some w =>
            refine absurd rfl (hnd.2.2.2.2 y ?_ y (Items.find_mem c false (u := w) (by rw [Items.find_append, hc]; rfl)))
            rw [← e]; exact Tree.find_mem v0.find_self
        simp [this, Items.find, Tree.find])

theorem Items.append_nil {α : Type} : ∀ a : Items α, a.append .nil = a
  | .nil => rfl
  | .cons i p key v rest => by simp only [Items.append, Items.append_nil rest]

theorem Tree.upd_same_node {x : Nat} {t u w : Tree Nat} {p : Bytes} {m : Bool} {n : Nat} {k : CollKind} {items : Items Nat} (h : t.find x = some u) :
    Tree.upd x w (Tree.upd x (.node x p m n k items) t) = Tree.upd x w t := Tree.upd_same (w := .node x p m n k items) rfl h

/-- The new item with another value. -/
theorem Tree.upd_added {t : Tree Nat} {x : Nat} {p : Bytes} {m : Bool} {n : Nat} {items : Items Nat} {i y : Nat} {pre : Bytes} {key : RStr} {vp : Bytes} {s : Scalar} {w u : Tree Nat}
    {doc : Document}
    (hf : t.find x = some u) (hh : Holds doc (Tree.upd x (.node x p m n .block (items.append (.cons i pre key (.leaf y vp s) .nil))) t)) :
    (Tree.upd x (.node x p m n .block (items.append (.cons i pre key (.leaf y vp s) .nil))) t).find y = some (.leaf y vp s) ∧
      Tree.upd y w (Tree.upd x (.node x p m n .block (items.append (.cons i pre key (.leaf y vp s) .nil))) t) =
        Tree.upd x (.node x p m n .block (items.append (.cons i pre key w .nil))) t := by
  have hf' := Tree.find_upd hf (u' := .node x p m n .block (items.append (.cons i pre key (.leaf y vp s) .nil))) rfl
  have hn := hh.nodup
  have hnx : (Tree.node x p m n .block (items.append (.cons i pre key (.leaf y vp s) .nil))).allIds.Nodup := (hh.at hf').choose_spec.nodup
  rw [Tree.allIds_node, List.nodup_cons] at hnx
  have hi : items.find y = none := by
    cases hc : items.find y with
    | none => rfl
    | some z =>
      have h1 := Items.find_mem x m hc
      have h2 := hnx.2
      rw [Items.entries_append, List.map_append, List.nodup_append] at h2
      exact absurd rfl (h2.2.2 y h1 y (by simp [Items.entries, Tree.entries]))
  have hfy : (items.append (.cons i pre key (.leaf y vp s) .nil)).find y = some (.leaf y vp s) := by rw [Items.find_append, hi]; simp [Items.find, Tree.find]
  have hxy : x ≠ y := fun e => by have := Items.find_mem x m hfy; rw [← e] at this hnx; exact hnx.1 this
  have hfu : (Tree.node x p m n .block (items.append (.cons i pre key (.leaf y vp s) .nil))).find y = some (.leaf y vp s) := by rw [Tree.find, if_neg hxy]; exact hfy
  refine ⟨Tree.find_trans hn hf' hfu, ?_⟩
  rw [Tree.upd_upd hn hf' hfu, Tree.upd_same_node hf, Tree.upd, if_neg hxy, Items.upd_append hi]
  simp [Items.upd, Tree.find, Tree.upd]

mutual
theorem build_holds {q : Mode} : ∀ (c : Content) {doc : Document} {t : Tree Nat} {x : Nat} {p : Bytes} {s : Scalar}, Tidy q doc → Holds doc t → t.find x = some (.leaf x p s) →
    c.canBuild = true → (c.isLeaf = true ∨ CanMake doc.data x) → ∃ d' u', build doc.data x c = .ok d' ∧ Tidy q ⟨doc.suffix, doc.root, d'⟩ ∧
      Holds ⟨doc.suffix, doc.root, d'⟩ (Tree.upd x u' t) ∧ u'.id = x ∧ u'.content = c ∧ u'.full
  | .scalar a, doc, t, x, p, s, h, ht, hf, hc, _ => by
    rw [Content.canBuild] at hc
    obtain ⟨d', i, v, mk, h1, h2, h3⟩ := h.step ht hf a.setter (a.setter_safe hc ..)
    obtain ⟨s', g1, g2, g3⟩ := AnyV.setter_full hc (u := .leaf x p s)
    unfold Op.tree at h3
    rw [g1] at h3
    exact ⟨d', _, h1, h2, h3, rfl, by rw [Tree.content, g2], g3⟩
  | .map es, doc, t, x, p, s, h, ht, hf, hc, hm => by
    rw [Content.canBuild, Bool.and_eq_true] at hc
    have hm : CanMake doc.data x := hm.resolve_left (by simp [Content.isLeaf])
    obtain ⟨d', i, v, mk, h1, h2, h3⟩ := h.step ht hf .makeMapping hm
    have hf' := Tree.find_upd hf (u' := .node x mk.2 true mk.1 .block .nil) rfl
    obtain ⟨d2, its, g1, g2, g3, g4, g5⟩ := buildEntries_holds es [] h2 h3 hf' trivial (fun _ _ => rfl) hc.2
    replace g3 : Holds _ (Tree.upd x _ (Tree.upd x (.node x _ _ _ _ _) t)) := g3
    rw [Tree.upd_same_node hf] at g3
    refine ⟨d2, _, ?_, g2, g3, rfl, ?_, ?_, g5⟩
    · rw [build, show makeMapping doc.data x = .ok d' from h1]; exact g1
    · rw [Tree.content]; exact congrArg _ g4
    · rintro -
      cases its with
      | nil => rw [← g4] at hc; exact absurd hc.1 (by decide)
      | cons => rfl
  | .seq es, doc, t, x, p, s, h, ht, hf, hc, hm => by
    rw [Content.canBuild, Bool.and_eq_true] at hc
    have hm : CanMake doc.data x := hm.resolve_left (by simp [Content.isLeaf])
    obtain ⟨d', i, v, mk, h1, h2, h3⟩ := h.step ht hf .makeSequence hm
    have hf' := Tree.find_upd hf (u' := .node x mk.2 false mk.1 .block .nil) rfl
    obtain ⟨d2, its, g1, g2, g3, g4, g5⟩ := buildElems_holds es h2 h3 hf' trivial (.inr (.inl hc.1)) hc.2
    replace g3 : Holds _ (Tree.upd x _ (Tree.upd x (.node x _ _ _ _ _) t)) := g3
    rw [Tree.upd_same_node hf] at g3
    refine ⟨d2, _, ?_, g2, g3, rfl, ?_, ?_, g5⟩
    · rw [build, show makeSequence doc.data x = .ok d' from h1]; exact g1
    · rw [Tree.content]; exact congrArg _ g4
    · rintro -
      cases its with
      | nil => rw [← g4] at hc; exact absurd hc.1 (by decide)
      | cons => rfl
theorem buildEntries_holds {q : Mode} : ∀ (es : Entries) (seen : List Bytes) {doc : Document} {t : Tree Nat} {x : Nat} {p : Bytes} {n : Nat} {items : Items Nat}, Tidy q doc → Holds doc t →
    t.find x = some (.node x p true n .block items) → items.begins true → (∀ k, k ∉ seen → items.lookup k = none) → es.canBuild seen = true →
    ∃ d' its, buildEntries doc.data x es = .ok d' ∧ Tidy q ⟨doc.suffix, doc.root, d'⟩ ∧
      Holds ⟨doc.suffix, doc.root, d'⟩ (Tree.upd x (.node x p true n .block (items.append its)) t) ∧ its.entriesC = es ∧ its.full
  | .nil, seen, doc, t, x, p, n, items, h, ht, hf, hb, hl, hc => by
    refine ⟨doc.data, .nil, rfl, h, ?_, rfl, trivial⟩
    obtain ⟨_, _, _, _, _, hu, _⟩ := Tree.focus none hf
    rw [Items.append_nil, hu]
    exact ht
  | .cons k v rest, seen, doc, t, x, p, n, items, h, ht, hf, hb, hl, hc => by
    simp only [Entries.canBuild, Bool.and_eq_true, Bool.not_eq_true', List.contains_eq_mem, decide_eq_false_iff_not] at hc
    obtain ⟨⟨⟨hk, hs⟩, hv⟩, hr⟩ := hc
    obtain ⟨d1, i, y, pre, s, h1, h2, h3, h4, h5⟩ := h.insertNull ht hf hb hk (hl k hs)
    obtain ⟨hy, _⟩ := Tree.upd_added (w := .leaf y [SP] s) hf h4
    obtain ⟨d2, w, g1, g2, g3, g4, g5, g6⟩ := build_holds v h2 h4 hy hv (.inr h5)
    rw [(Tree.upd_added hf h4).2] at g3
    have hf' := Tree.find_upd hf (u' := .node x p true n .block (items.append (.cons i pre ⟨.bare, k, k⟩ w .nil))) rfl
    have hb' : (items.append (.cons i pre ⟨.bare, k, k⟩ w .nil)).begins true := by
      cases items with
      | nil => exact h3
      | cons => exact hb
    have hl' : ∀ k', k' ∉ k :: seen → (items.append (.cons i pre ⟨.bare, k, k⟩ w .nil)).lookup k' = none := fun k' hk' => by
      rw [List.mem_cons, not_or] at hk'
      rw [Items.lookup_append (hl k' hk'.2)]
      simp [Items.lookup, Ne.symm hk'.1]
    obtain ⟨d3, its, e1, e2, e3, e4, e5⟩ := buildEntries_holds rest (k :: seen) g2 g3 hf' hb' hl' hr
    rw [Tree.upd_same_node hf, Items.append_append] at e3
    refine ⟨d3, .cons i pre ⟨.bare, k, k⟩ w its, ?_, e2, e3, ?_, g6, e5⟩
    · rw [buildEntries, h1]
      show (build d1 y v >>= fun d => buildEntries d x rest) = _
      rw [show build d1 y v = .ok d2 from g1]
      exact e1
    · rw [Items.entriesC, g5, e4]
theorem buildElems_holds {q : Mode} : ∀ (es : Elems) {doc : Document} {t : Tree Nat} {x : Nat} {p : Bytes} {n : Nat} {items : Items Nat}, Tidy q doc → Holds doc t →
    t.find x = some (.node x p false n .block items) → items.begins false → (items.isNil = false ∨ es.leafFirst = true ∨ n = 0) → es.canBuild = true →
    ∃ d' its, buildElems doc.data x es = .ok d' ∧ Tidy q ⟨doc.suffix, doc.root, d'⟩ ∧
      Holds ⟨doc.suffix, doc.root, d'⟩ (Tree.upd x (.node x p false n .block (items.append its)) t) ∧ its.elemsC = es ∧ its.full
  | .nil, doc, t, x, p, n, items, h, ht, hf, hb, hl, hc => by
    refine ⟨doc.data, .nil, rfl, h, ?_, rfl, trivial⟩
    obtain ⟨_, _, _, _, _, hu, _⟩ := Tree.focus none hf
    rw [Items.append_nil, hu]
    exact ht
  | .cons v rest, doc, t, x, p, n, items, h, ht, hf, hb, hl, hc => by
    simp only [Elems.canBuild, Bool.and_eq_true] at hc
    obtain ⟨hv, hr⟩ := hc
    obtain ⟨d1, i, y, pre, vp, s, h1, h2, h3, h4, h5⟩ := h.pushNull ht hf hb
    obtain ⟨hy, _⟩ := Tree.upd_added (w := .leaf y vp s) hf h4
    obtain ⟨d2, w, g1, g2, g3, g4, g5, g6⟩ := build_holds v h2 h4 hy hv (hl.elim (fun e => .inr (h5 (.inl e))) (·.elim .inl fun e => .inr (h5 (.inr e))))
    rw [(Tree.upd_added hf h4).2] at g3
    have hf' := Tree.find_upd hf (u' := .node x p false n .block (items.append (.cons i pre noKey w .nil))) rfl
    have hb' : (items.append (.cons i pre noKey w .nil)).begins false := by
      cases items with
      | nil => exact h3
      | cons => exact hb
    obtain ⟨d3, its, e1, e2, e3, e4, e5⟩ := buildElems_holds rest g2 g3 hf' hb' (.inl (by cases items <;> rfl)) hr
    rw [Tree.upd_same_node hf, Items.append_append] at e3
    refine ⟨d3, .cons i pre noKey w its, ?_, e2, e3, ?_, g6, e5⟩
    · rw [buildElems, h1]
      show (build d1 y v >>= fun d => buildElems d x rest) = _
      rw [show build d1 y v = .ok d2 from g1]
      exact e1
    · rw [Items.elemsC, g5, e4]
end

/-- The same at the top, if the text starts at the start of its line. -/
theorem build_top {q : Mode} {c : Content} {doc : Document} {t : Tree Nat} {p : Bytes} {s : Scalar} (h : Tidy q doc) (ht : Holds doc t) (hf : t.find doc.root = some (.leaf doc.root p s))
    (hp : lastLine p = []) (hc : c.canBuildTop = true) (hm : CanMake doc.data doc.root) : ∃ d' u', build doc.data doc.root c = .ok d' ∧ Tidy q ⟨doc.suffix, doc.root, d'⟩ ∧
      Holds ⟨doc.suffix, doc.root, d'⟩ (Tree.upd doc.root u' t) ∧ u'.id = doc.root ∧ u'.content = c ∧ u'.full := by
  unfold Content.canBuildTop at hc
  split at hc
  case h_2 => exact build_holds c h ht hf hc (.inr hm)
  case h_1 v rest =>
    obtain ⟨d', i, w, mk, h1, _, hmk, h3⟩ := ht.editTree hf .makeSequence
    have h2 : Tidy q ⟨doc.suffix, doc.root, d'⟩ := .edited (x := doc.root) (op := .makeSequence) h ((ht.live_iff _).2 ⟨_, hf⟩) hm (by
      simp [Document.edit, h1, bind, Except.bind, pure, Except.pure])
    have h0 : mk.1 = 0 := by
      have hid : t.id = doc.root := ht.root.symm
      have hx := ht.rep.head
      have htu : t = .leaf doc.root p s := by rw [← hid, t.find_self, Option.some.injEq] at hf; rw [← hid]; exact hf
      rw [htu] at hx
      simp only [Tree.id_leaf] at hx
      simp only [makeIndent, entry_of hx, bind, Except.bind, pure, Except.pure, if_true, Nat.add_zero, Except.ok.injEq] at hmk
      rw [← hmk]
      simp only [countIndent, Tree.pre, hp]; rfl
    have hf' := Tree.find_upd hf (u' := .node doc.root mk.2 false mk.1 .block .nil) rfl
    obtain ⟨d2, its, g1, g2, g3, g4, g5⟩ := buildElems_holds (.cons v rest) h2 h3 hf' trivial (.inr (.inr h0)) hc
    replace g3 : Holds _ (Tree.upd doc.root _ (Tree.upd doc.root (.node doc.root _ _ _ _ _) t)) := g3
    rw [Tree.upd_same_node hf] at g3
    refine ⟨d2, _, ?_, g2, g3, rfl, ?_, ?_, g5⟩
    · rw [build, show makeSequence doc.data doc.root = .ok d' from h1]; exact g1
    · rw [Tree.content]; exact congrArg _ g4
    · rintro -
      cases its with
      | nil => cases g4
      | cons => rfl

/-! ### In place of any value -/

theorem Items.upd_pairs {x : Nat} {u : Tree Nat} (hu : u.id = x) : ∀ is : Items Nat, (Items.upd x u is).pairs.map (·.2.id) = is.pairs.map (·.2.id)
  | .nil => rfl
  | .cons i p key v rest => by
    simp only [Items.upd]
    split
    · simp [Items.pairs, Tree.upd_id hu]
    · simp [Items.pairs, Items.upd_pairs hu rest]

theorem Tree.upd_head {x y : Nat} {u : Tree Nat} {p : Bytes} {m : Bool} {n : Nat} {k : CollKind} (items : Items Nat) :
    (Tree.node y p m n k (Items.upd x u items)).render.headD 0 = (Tree.node y p m n k items).render.headD 0 := by
  have key : ∀ (a b c : Bytes), a ≠ [] → (a ++ b).headD 0 = (a ++ c).headD 0 := by
    intro a b c h
    cases a with
    | nil => exact absurd rfl h
    | cons => rfl
  cases k with
  | inline tr w => simp only [Tree.render, List.append_assoc]; exact key _ _ _ (by simp [openOf])
  | block =>
    cases items with
    | nil => rfl
    | cons i ip ky v rest =>
      simp only [Items.upd]
      split <;> simp only [Tree.render, Items.render, openOf, List.nil_append, List.append_assoc] <;>
        exact key _ _ _ (by cases m <;> simp)

/-- Whether a collection can be made in place of a value does not depend on the value. -/
theorem CanMake.after {doc doc' : Document} {t u u' : Tree Nat} {x : Nat} (ht : Holds doc t) (hf : t.find x = some u) (hu : u'.id = x) (ht' : Holds doc' (Tree.upd x u' t))
    (h : CanMake doc.data x) : CanMake doc'.data x := by
  have hx := (ht.live_iff x).2 ⟨u, hf⟩
  unfold Live at hx
  cases hx with
  | self =>
    intro c hc
    exfalso
    obtain ⟨_, _, _, _, _, _, _, _, _, _, _, e, h3, h4⟩ := ht'.childNode hc
    have hr := ht'.rep.head
    rw [Tree.upd_id hu, ← ht.root] at hr
    rw [hr] at h3
    cases h3
    cases h4
  | step hb hc0 =>
    rename_i c
    obtain ⟨h1, h2⟩ := h c hc0
    obtain ⟨pre, m, ind, k, items, _, _, hw, _⟩ := ht.childNode hc0
    obtain ⟨par, ha⟩ := ht.at hw
    obtain ⟨_, _, _, _, _, _, e, n, key, v, g1, rfl⟩ := (child_iff ha.rep x).1 (by exact hc0)
    cases e
    have hfx := Tree.find_pair ha.nodup g1
    have hne : c ≠ v.id := by
      intro e
      have hn := ha.nodup
      rw [Tree.allIds_node, List.nodup_cons] at hn
      exact hn.1 (e ▸ Items.find_mem c m (Items.find_pair c m hn.2 g1))
    have hup : Tree.upd v.id u' t = Tree.upd c (.node c pre m ind k (Items.upd v.id u' items)) t := by
      rw [Tree.upd_upd ht.nodup hw hfx, Tree.upd, if_neg hne]
    rw [hup] at ht'
    have hw' := Tree.find_upd hw (u' := .node c pre m ind k (Items.upd v.id u' items)) rfl
    obtain ⟨par', ha'⟩ := ht'.at hw'
    have hids := Items.upd_pairs hu items
    have hc1 : Child doc'.data c v.id := by
      refine (child_iff ha'.rep v.id).2 ⟨c, pre, m, ind, k, _, rfl, n, ?_⟩
      have : ((Items.upd v.id u' items).pairs.map (·.2.id))[n]? = some v.id := by rw [hids, List.getElem?_map, g1]; rfl
      rw [List.getElem?_map] at this
      cases hp : (Items.upd v.id u' items).pairs[n]? with
      | none => rw [hp] at this; cases this
      | some q => rw [hp] at this; exact ⟨q.1, q.2, rfl, by simpa using this⟩
    intro c' hc'
    obtain rfl := ht'.oneParent hc' hc1
    constructor
    · intro out ho
      rw [ha'.text] at ho
      cases ho
      rw [Tree.upd_head]
      exact h1 _ ha.text
    · intro l hl
      cases m with
      | true => exact absurd (map_not_seq (isMap_node ha'.rep).1) (by rw [hl.1]; exact fun e => by cases e)
      | false =>
        have := (isSeq_node ha'.rep).2.symm.trans hl.2
        rw [hids] at this
        cases this
        have hcol : column doc'.data c' = column doc.data c' := by
          have hq := ha.rep.head
          have hq' := ha'.rep.head
          rw [Tree.id_node] at hq hq'
          simp [column, Data.raw, entry_of hq, entry_of hq', bind, Except.bind, pure, Except.pure, Tree.raw, collRaw]
        rw [hcol]
        exact h2 _ (isSeq_node ha.rep)

end Verif
