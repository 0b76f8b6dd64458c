import Verif.LiesDocs
import Verif.JoinText
import Verif.Props.Maps
import Verif.Props.Seqs
import Verif.Props.Join
import Verif.GoodEdit
/-
Adding entries to the block collection that a document is: helper lemmas for C85.
-/
namespace Verif

theorem Items.entriesC_append {α : Type} (b : Items α) : ∀ a : Items α, (a.append b).entriesC.list = a.entriesC.list ++ b.entriesC.list
  | .nil => rfl
  | .cons _ _ _ _ rest => by rw [Items.append, Items.entriesC, Items.entriesC, Entries.list, Entries.list, Items.entriesC_append b rest]; rfl

theorem Items.elemsC_append {α : Type} (b : Items α) : ∀ a : Items α, (a.append b).elemsC.list = a.elemsC.list ++ b.elemsC.list
  | .nil => rfl
  | .cons _ _ _ _ rest => by rw [Items.append, Items.elemsC, Items.elemsC, Elems.list, Elems.list, Items.elemsC_append b rest]; rfl

theorem Items.lookup_absent {key : Bytes} : ∀ {is : Items Nat}, key ∉ is.entriesC.list.map (·.1) → is.lookup key = none
  | .nil, _ => rfl
  | .cons _ _ k v rest, h => by
    rw [Items.entriesC, Entries.list, List.map_cons, List.mem_cons, not_or] at h
    rw [Items.lookup, if_neg (by simpa using Ne.symm h.1)]
    exact Items.lookup_absent h.2

/-- The document is a block collection in the first column (`m`: a mapping), with nothing before it; `P` is its text. -/
def TopColl (m : Bool) (doc : Document) (items : Items Nat) : Prop := Holds doc (.node doc.root [] m 0 .block items) ∧ items.isNil = false

theorem body_zero {m : Bool} {x : Bytes} (hs : startsItem m x = true) {k lo : Nat} (hk : k ≤ x.length) (h : x.drop k = body x) (hg : FullGap x k lo) : k = 0 ∧ lo = 0 := by
  have h1 := starts_body hs
  rw [← h, skipBlank_eq, List.drop_drop] at h1
  have hl := congrArg List.length h1
  have hne := List.length_pos_iff.2 (starts_ne hs)
  rw [List.length_drop] at hl
  obtain rfl : k = 0 := by omega
  rw [← hg.eq, wsEnd]
  omega

/-- A text that starts with an entry of a block collection in the first column. -/
theorem parsed_top {m : Bool} {x : Bytes} {doc : Document} (h : Parsed x doc) (hs : startsItem m x = true) (hc : ∃ v, Reads doc.data doc.root v ∧ match v with | .map _ => m = true | .seq _ => m = false | _ => False) :
    ∃ items, TopColl m doc items := by
  obtain ⟨t, k, e, h1, h2, h3, h4, rfl⟩ := parsed_lies h
  obtain ⟨v, hv, hm⟩ := hc
  rw [Reads.unique hv (docOf_reads t _)] at hm
  have hd := docOf_holds t (slice x e x.length)
  have hi := starts_head hs
  cases h3 with
  | scalar => exact hm.elim
  | «open» => exact hm.elim
  | lines => exact hm.elim
  | dashes g1 g2 g3 =>
    obtain rfl : m = false := hm
    obtain ⟨rfl, rfl⟩ := body_zero hs h1 h2 g1
    refine ⟨_, hd, ?_⟩
    cases g3 <;> rfl
  | keys g1 g2 g3 =>
    obtain rfl : m = true := hm
    obtain ⟨rfl, rfl⟩ := body_zero hs h1 h2 g1
    refine ⟨_, hd, ?_⟩
    cases g3 <;> rfl
  | brackets g1 g2 g3 =>
    obtain ⟨rfl, rfl⟩ := body_zero hs h1 h2 g1
    have := hi.1
    rw [List.headD_eq_head?_getD, List.head?_eq_getElem?, g2] at this
    exact absurd this (by decide)
  | braces g1 g2 g3 =>
    obtain ⟨rfl, rfl⟩ := body_zero hs h1 h2 g1
    have := hi.1
    rw [List.headD_eq_head?_getD, List.head?_eq_getElem?, g2] at this
    exact absurd this (by decide)

/-- The text of a new entry of a mapping in the first column, as in C17. -/
def newEntry (e : Bytes × Val) : Bytes := e.1 ++ b! ":" ++ e.2.sepText (b! " ") ++ e.2.newText 0

/-- The text of a new item of a sequence in the first column, as in C20; `auto` is the white space before the last value. -/
def newItem (auto : Bytes) (v : Val) : Bytes := b! "-" ++ v.sepText auto ++ v.newText 0

theorem TopColl.text {m : Bool} {doc : Document} {items : Items Nat} (h : TopColl m doc items) : valueText doc.data doc.root = .ok (items.render m .block) := by
  have := h.1.rep.text h.1.nodup
  simpa [Tree.render, openOf, closeOf] using this

theorem TopColl.write {m : Bool} {doc : Document} {items : Items Nat} (h : TopColl m doc items) : doc.write = .ok (items.render m .block ++ doc.suffix) := by
  rw [h.1.write]
  simp [Tree.text, Tree.render, openOf, closeOf]

theorem TopColl.reads {doc : Document} {items : Items Nat} (h : TopColl true doc items) : Reads doc.data doc.root (.map items.entriesC) := Tree.content_reads h.1.rep

theorem TopColl.readsSeq {doc : Document} {items : Items Nat} (h : TopColl false doc items) : Reads doc.data doc.root (.seq items.elemsC) := Tree.content_reads h.1.rep

theorem Val.scalar_value {v : Val} {u : Tree Nat} : (v.scalar u).value = v.reads := by
  cases v with
  | block lines b =>
    have : blockContent b.join b.chomp lines = joinLines b lines := by
      rw [blockContent_eq]; cases b <;> rfl
    simp [Val.scalar, Scalar.value, blockScalar, Val.reads, this]
  | _ => rfl

theorem block_render (m : Bool) : ∀ items : Items Nat, items.render m .block = (items.texts m .block).flatten
  | .nil => rfl
  | .cons i pre key v rest => by
    have := Items.render_texts m .block (.cons i pre key v rest)
    rw [this, Items.texts, joinSep_cons, ← Items.render_texts, block_render m rest]
    simp [sepOf]

theorem TopColl.insertT {doc : Document} {items : Items Nat} (h : TopColl true doc items) {e : Bytes × Val} (hk : e.1 ∉ items.entriesC.list.map (·.1)) :
    ∃ doc' items', doc.edit doc.root (.insert e.1 e.2) = .ok doc' ∧ doc'.suffix = doc.suffix ∧ TopColl true doc' items' ∧
      items'.texts true .block = items.texts true .block ++ [[NL] ++ newEntry e] ∧ items'.entriesC.list = items.entriesC.list ++ [(e.1, .scalar e.2.reads)] := by
  obtain ⟨key, val⟩ := e
  obtain ⟨ht, hn⟩ := h
  have hf : (Tree.node doc.root [] true 0 .block items).find doc.root = some (.node doc.root [] true 0 .block items) := by rw [Tree.find, if_pos rfl]
  have heq := mapInsertV_eq ht.rep key val
  simp only [Tree.id_node] at heq
  obtain ⟨i, v, d2, h1, _, _, _, h2⟩ := ht.insertNew hf key val.sep (val.scalar (.node doc.root [] true 0 .block items)) (Items.lookup_absent hk)
  rw [← heq] at h1
  rw [Tree.upd_self (x := doc.root) rfl] at h2
  refine ⟨_, _, edit_insert (asMapping_of ht.rep) h1, rfl, ⟨h2, ?_⟩, ?_, ?_⟩
  · cases items with
    | nil => cases hn
    | cons => rfl
  · simp only [Items.texts_append, Items.texts, itemText, Tree.pre_leaf, Tree.render, Val.scalar_write]
    have e1 : insertPre val.sep = val.sepText (b! " ") := by
      cases val with
      | null sep => cases sep <;> rfl
      | _ => rfl
    rw [e1]
    cases items with
    | nil => cases hn
    | cons => simp [newEntry, addPre, makePrefix, RStr.write, COLON, Items.isNil]
  · rw [Items.entriesC_append]
    simp only [Items.entriesC, Entries.list, Tree.content, Val.scalar_value]

theorem TopColl.insert {doc : Document} {items : Items Nat} (h : TopColl true doc items) {e : Bytes × Val} (hk : e.1 ∉ items.entriesC.list.map (·.1)) :
    ∃ doc' items', doc.edit doc.root (.insert e.1 e.2) = .ok doc' ∧ doc'.suffix = doc.suffix ∧ TopColl true doc' items' ∧
      items'.render true .block = items.render true .block ++ [NL] ++ newEntry e ∧ items'.entriesC.list = items.entriesC.list ++ [(e.1, .scalar e.2.reads)] := by
  obtain ⟨doc', items', h1, h2, h3, h4, h5⟩ := h.insertT hk
  refine ⟨doc', items', h1, h2, h3, ?_, h5⟩
  rw [block_render, block_render, h4]
  simp

theorem TopColl.pushT {doc : Document} {items : Items Nat} (h : TopColl false doc items) (val : Val) :
    ∃ doc' items', doc.edit doc.root (.push val) = .ok doc' ∧ doc'.suffix = doc.suffix ∧ TopColl false doc' items' ∧ items'.pairs.map (·.2.pre) = items.pairs.map (·.2.pre) ++ [val.sepText (pushPre .auto items)] ∧
      items'.texts false .block = items.texts false .block ++ [[NL] ++ newItem (pushPre .auto items) val] ∧ items'.elemsC.list = items.elemsC.list ++ [.scalar val.reads] := by
  obtain ⟨ht, hn⟩ := h
  have hf : (Tree.node doc.root [] false 0 .block items).find doc.root = some (.node doc.root [] false 0 .block items) := by rw [Tree.find, if_pos rfl]
  have heq := seqPushV_eq ht.rep val
  simp only [Tree.id_node] at heq
  obtain ⟨i, v, d2, h1, _, _, _, h2⟩ := ht.push hf val.sep (val.scalar (.node doc.root [] false 0 .block items))
  rw [← heq] at h1
  rw [Tree.upd_self (x := doc.root) rfl] at h2
  have e1 : pushPre val.sep items = val.sepText (pushPre .auto items) := by
    cases val with
    | null sep => cases sep <;> rfl
    | _ => rfl
  refine ⟨_, _, edit_push (asSequence_of ht.rep) h1, rfl, ⟨h2, ?_⟩, ?_, ?_, ?_⟩
  · cases items with
    | nil => cases hn
    | cons => rfl
  · rw [← e1]
    simp [Items.pairs_append, Items.pairs]
  · simp only [Items.texts_append, Items.texts, itemText, Tree.pre_leaf, Tree.render, Val.scalar_write]
    have e0 : lossy [NL] = [NL] := lossy_valid (by decide)
    rw [e1]
    cases items with
    | nil => cases hn
    | cons => simp [newItem, addPre, makePrefix, DASH, Items.isNil, e0]
  · rw [Items.elemsC_append]
    simp only [Items.elemsC, Elems.list, Tree.content, Val.scalar_value]

theorem pushPre_auto (items : Items Nat) : pushPre .auto items = ((items.pairs.map (·.2.pre)).getLast?).getD [SP] := by
  rw [pushPre, List.getLast?_map]
  cases items.pairs.getLast? <;> rfl

theorem TopColl.push {doc : Document} {items : Items Nat} (h : TopColl false doc items) (val : Val) :
    ∃ doc' items', doc.edit doc.root (.push val) = .ok doc' ∧ doc'.suffix = doc.suffix ∧ TopColl false doc' items' ∧ pushPre .auto items' = val.sepText (pushPre .auto items) ∧
      items'.render false .block = items.render false .block ++ [NL] ++ newItem (pushPre .auto items) val ∧ items'.elemsC.list = items.elemsC.list ++ [.scalar val.reads] := by
  obtain ⟨doc', items', h1, h2, h3, h4, h5, h6⟩ := h.pushT val
  refine ⟨doc', items', h1, h2, h3, ?_, ?_, h6⟩
  · rw [pushPre_auto items', h4]; simp
  · rw [block_render, block_render, h5]
    simp

end Verif
