import Verif.SafeLemmas
import Verif.Props.Make
import Verif.Sound
/-
Edits that keep documents laid out as in the grammar.
-/
namespace Verif

set_option linter.unusedVariables false

/-! ### Replacing a value inside an inline collection -/

mutual
theorem Tree.goodF_upd {x : Nat} {u : Tree Nat} : ∀ {t : Tree Nat}, t.goodF → t.find x = some u →
    u.goodF ∧ ∀ u' : Tree Nat, u'.goodF → u'.pre = u.pre → (Tree.upd x u' t).goodF ∧ (Tree.upd x u' t).pre = t.pre
  | .leaf i p s, h, hf => by
    simp only [Tree.find] at hf
    split at hf
    · next hi => cases hf; exact ⟨h, fun u' h1 h2 => by rw [Tree.upd, if_pos hi]; exact ⟨h1, h2⟩⟩
    · cases hf
  | .node i p m ind k items, h, hf => by
    simp only [Tree.find] at hf
    split at hf
    · next hi => cases hf; exact ⟨h, fun u' h1 h2 => by rw [Tree.upd, if_pos hi]; exact ⟨h1, h2⟩⟩
    · next hi =>
      obtain ⟨h1, h3⟩ := Items.goodF_upd h.2 hf
      exact ⟨h1, fun u' g1 g2 => by rw [Tree.upd, if_neg hi]; exact ⟨⟨h.1, h3 u' g1 g2⟩, rfl⟩⟩
theorem Items.goodF_upd {x : Nat} {u : Tree Nat} : ∀ {m : Bool} {its : Items Nat}, its.goodF m → its.find x = some u →
    u.goodF ∧ ∀ u' : Tree Nat, u'.goodF → u'.pre = u.pre → (Items.upd x u' its).goodF m
  | m, .nil, _, hf => by cases hf
  | m, .cons i ip k v rest, ⟨h1, h2, h3⟩, hf => by
    simp only [Items.find] at hf
    cases hv : v.find x with
    | some w =>
      rw [hv] at hf; cases hf
      obtain ⟨g1, g2⟩ := Tree.goodF_upd h2 hv
      refine ⟨g1, fun u' e1 e2 => ?_⟩
      rw [Items.upd, hv, Option.isSome_some, if_pos rfl]
      obtain ⟨g3, g4⟩ := g2 u' e1 e2
      exact ⟨by rw [g4]; exact h1, g3, h3⟩
    | none =>
      rw [hv] at hf
      obtain ⟨g0, g2⟩ := Items.goodF_upd h3 hf
      exact ⟨g0, fun u' e1 e2 => by
        rw [Items.upd, hv, Option.isSome_none, if_neg (by decide)]
        exact ⟨h1, h2, g2 u' e1 e2⟩⟩
end

/-! ### Where a value is -/

/-- The layout seen from outside. -/
structure SameLayout (a b : Tree Nat) : Prop where
  pre : a.pre = b.pre
  block : a.isBlock = b.isBlock
  seq : a.isBlockSeq = b.isBlockSeq

/-- An element of an inline collection. -/
def InInline (d : Data) (u : Tree Nat) : Prop := ∃ (q : Nat) (p : Bytes) (par : Option Nat) (m m' : Bool) (ind : Nat) (its : Items Nat) (i : Nat) (ip : Bytes)
  (key : RStr), Rep d par (.node q p m ind (.inline false []) its) ∧ d.slab.get i = some ⟨itemRaw m' key u.id, ip, some q⟩ ∧
    d.slab.get u.id = some ⟨u.raw, u.pre, some i⟩

/-- An element of a block collection in column `c`. -/
structure InBlock (d : Data) (u : Tree Nat) (m : Bool) (c : Nat) (q : Nat) (p : Bytes) (par : Option Nat) (its : Items Nat) (i : Nat) (ip : Bytes) (key : RStr) (n : Nat) : Prop where
  rep : Rep d par (.node q p m c .block its)
  pair : its.pairs[n]? = some (key, u)
  item : d.slab.get i = some ⟨itemRaw m key u.id, ip, some q⟩
  value : d.slab.get u.id = some ⟨u.raw, u.pre, some i⟩
  spaces : ∃ k, lastLine p = List.replicate k SP
  ipre : (∃ b, ip = newLine c b) ∨ (n = 0 ∧ ip = [])

theorem Tree.upd_self {x : Nat} {t u : Tree Nat} (h : t.id = x) : Tree.upd x u t = u := by
  cases t with
  | leaf i p s => rw [Tree.upd, if_pos (show i = x from h)]
  | node i p m ind k items => rw [Tree.upd, if_pos (show i = x from h)]

theorem lastLine_spaces (k : Nat) : lastLine (List.replicate k SP) = List.replicate k SP :=
  lastLine_line fun b hb => by rw [List.eq_of_mem_replicate hb]; decide

theorem lastLine_newLine (b : Bytes) (k : Nat) : lastLine (b ++ NL :: List.replicate k SP) = List.replicate k SP :=
  lastLine_nl fun b hb => by rw [List.eq_of_mem_replicate hb]; decide

theorem Place.lastLine (place : Place) (c : Nat) : ∃ k, Verif.lastLine (place.sep c) = List.replicate k SP := by
  cases place with
  | here n => exact ⟨_, lastLine_spaces _⟩
  | below g n => exact ⟨_, lastLine_newLine _ _⟩
  | none => exact ⟨0, lastLine_spaces 0⟩

mutual
theorem Tree.goodF_in {d : Data} {x : Nat} {u : Tree Nat} : ∀ {t : Tree Nat} {par : Option Nat}, Rep d par t → t.goodF → t.find x = some u → t = u ∨ InInline d u
  | .leaf i p s, _, _, _, hf => by
    simp only [Tree.find] at hf
    split at hf
    · cases hf; exact .inl rfl
    · cases hf
  | .node i p m ind k items, par, hr, ⟨h1, h2⟩, hf => by
    simp only [Tree.find] at hf
    split at hf
    · cases hf; exact .inl rfl
    · subst h1
      right
      rcases Items.goodF_in hr.node.2 h2 hf with ⟨i', ip, key, h⟩ | h
      · exact ⟨i, p, par, m, m, ind, items, i', ip, key, hr, h⟩
      · exact h
theorem Items.goodF_in {d : Data} {x : Nat} {u : Tree Nat} : ∀ {its : Items Nat} {q : Nat} {m : Bool}, RepItems d q m its → its.goodF m → its.find x = some u →
    (∃ (i : Nat) (ip : Bytes) (key : RStr), d.slab.get i = some ⟨itemRaw m key u.id, ip, some q⟩ ∧ d.slab.get u.id = some ⟨u.raw, u.pre, some i⟩) ∨
      InInline d u
  | .nil, _, _, _, _, hf => by cases hf
  | .cons i ip k v rest, q, m, hr, ⟨_, h2, h3⟩, hf => by
    obtain ⟨r1, r2, r3⟩ := hr.cons
    simp only [Items.find] at hf
    cases hv : v.find x with
    | some w =>
      rw [hv] at hf; cases hf
      rcases Tree.goodF_in r2 h2 hv with rfl | h
      · exact .inl ⟨i, ip, k, r1, r2.head⟩
      · exact .inr h
    | none =>
      rw [hv] at hf
      exact Items.goodF_in r3 h3 hf
end

mutual
theorem Tree.goodY_focus {Q : Mode} {d : Data} {x : Nat} {u : Tree Nat} : ∀ {t : Tree Nat} {par : Option Nat} {o c : Nat}, Rep d par t → t.goodY Q o c → t.find x = some u →
    (∃ k, lastLine t.pre = List.replicate k SP) →
    t = u ∨
    (u.goodF ∧ InInline d u ∧ ∀ u' : Tree Nat, u'.goodF → u'.pre = u.pre → (Tree.upd x u' t).goodY Q o c ∧ SameLayout (Tree.upd x u' t) t) ∨
    (∃ (m : Bool) (cc : Nat), u.slot Q m cc ∧ (∃ q p par its i ip key n, InBlock d u m cc q p par its i ip key n) ∧
      ∀ u' : Tree Nat, u'.slot Q m cc → (Tree.upd x u' t).goodY Q o c ∧ SameLayout (Tree.upd x u' t) t)
  | .leaf i p s, _, _, _, _, _, hf, _ => by
    simp only [Tree.find] at hf
    split at hf
    · cases hf; exact .inl rfl
    · cases hf
  | .node i p m ind k items, par, o, c, hr, .inl ⟨h1, h2⟩, hf, hl => by
    simp only [Tree.find] at hf
    split at hf
    · cases hf; exact .inl rfl
    · next hi =>
      subst h1
      right; left
      obtain ⟨g1, g2⟩ := Items.goodF_upd h2 hf
      refine ⟨g1, ?_, fun u' e1 e2 => ?_⟩
      · rcases Items.goodF_in hr.node.2 h2 hf with ⟨i', ip, key, h⟩ | h
        · exact ⟨i, p, par, m, m, ind, items, i', ip, key, hr, h⟩
        · exact h
      · rw [Tree.upd, if_neg hi]
        exact ⟨.inl ⟨rfl, g2 u' e1 e2⟩, rfl, rfl, by cases m <;> rfl⟩
  | .node i p m ind k items, par, o, c, hr, .inr ⟨h1, h2, h3⟩, hf, hl => by
    simp only [Tree.find] at hf
    split at hf
    · cases hf; exact .inl rfl
    · next hi =>
      subst h1; subst h2
      right
      rcases Items.goodY_focus hr.node.2 h3 hf with ⟨g1, g2, g3⟩ | ⟨m', cc, g1, g2, g3⟩ | ⟨g1, ⟨i', ip, key, n, q1, q2, q3, q4⟩, g3⟩
      · left
        exact ⟨g1, g2, fun u' e1 e2 => by rw [Tree.upd, if_neg hi]; exact ⟨.inr ⟨rfl, rfl, g3 u' e1 e2⟩, rfl, rfl, by cases m <;> rfl⟩⟩
      · right
        exact ⟨m', cc, g1, g2, fun u' e1 => by rw [Tree.upd, if_neg hi]; exact ⟨.inr ⟨rfl, rfl, g3 u' e1⟩, rfl, rfl, by cases m <;> rfl⟩⟩
      · right
        refine ⟨m, _, g1, ⟨i, p, par, items, i', ip, key, n, hr, q1, q2, q3, hl, ?_⟩, fun u' e1 => by
          rw [Tree.upd, if_neg hi]; exact ⟨.inr ⟨rfl, rfl, g3 u' e1⟩, rfl, rfl, by cases m <;> rfl⟩⟩
        rcases q4 with h | ⟨_, h⟩
        · exact .inl h
        · exact .inr h
theorem Items.goodY_focus {Q : Mode} {d : Data} {x : Nat} {u : Tree Nat} : ∀ {its : Items Nat} {q : Nat} {m : Bool} {c : Nat} {first : Bool}, RepItems d q m its →
    its.goodY Q m c first → its.find x = some u →
    (u.goodF ∧ InInline d u ∧ ∀ u' : Tree Nat, u'.goodF → u'.pre = u.pre → (Items.upd x u' its).goodY Q m c first) ∨
    (∃ (m' : Bool) (cc : Nat), u.slot Q m' cc ∧ (∃ q p par its i ip key n, InBlock d u m' cc q p par its i ip key n) ∧
      ∀ u' : Tree Nat, u'.slot Q m' cc → (Items.upd x u' its).goodY Q m c first) ∨
    (u.slot Q m c ∧ (∃ (i : Nat) (ip : Bytes) (key : RStr) (n : Nat), its.pairs[n]? = some (key, u) ∧ d.slab.get i = some ⟨itemRaw m key u.id, ip, some q⟩ ∧
        d.slab.get u.id = some ⟨u.raw, u.pre, some i⟩ ∧ ((∃ b, ip = newLine c b) ∨ (first = true ∧ n = 0 ∧ ip = []))) ∧
      ∀ u' : Tree Nat, u'.slot Q m c → (Items.upd x u' its).goodY Q m c first)
  | .nil, _, _, _, _, _, _, hf => by cases hf
  | .cons i ip k v rest, q, m, c, first, hr, ⟨h1, h2, h3⟩, hf => by
    obtain ⟨r1, r2, r3⟩ := hr.cons
    simp only [Items.find] at hf
    cases hv : v.find x with
    | some w =>
      rw [hv] at hf; cases hf
      have hup : ∀ u' : Tree Nat, Items.upd x u' (.cons i ip k v rest) = .cons i ip k (Tree.upd x u' v) rest := fun u' => by
        rw [Items.upd, hv, Option.isSome_some, if_pos rfl]
      obtain ⟨place, ⟨p1, p2⟩, p3⟩ := h2
      rcases Tree.goodY_focus r2 p3 hv (by rw [p1]; exact place.lastLine c) with rfl | ⟨g1, g2, g3⟩ | ⟨m', cc, g1, g2, g3⟩
      · right; right
        refine ⟨⟨place, ⟨p1, p2⟩, p3⟩, ⟨i, ip, k, 0, rfl, r1, r2.head, ?_⟩, fun u' e1 => ?_⟩
        · cases first with
          | true =>
            rcases h1.1 with h | ⟨b, _, _, h⟩
            · exact .inr ⟨rfl, rfl, h⟩
            · exact .inl ⟨b, h⟩
          | false => obtain ⟨b, _, h⟩ := h1.1; exact .inl ⟨b, h⟩
        · rw [hup]
          rw [Tree.upd_self (Tree.find_id hv)]
          exact ⟨h1, e1, h3⟩
      · left
        refine ⟨g1, g2, fun u' e1 e2 => ?_⟩
        obtain ⟨g4, g5⟩ := g3 u' e1 e2
        rw [hup]
        exact ⟨h1, ⟨place, ⟨by rw [g5.pre, p1], by rw [g5.block, g5.seq]; exact p2⟩, g4⟩, h3⟩
      · right; left
        refine ⟨m', cc, g1, g2, fun u' e1 => ?_⟩
        obtain ⟨g4, g5⟩ := g3 u' e1
        rw [hup]
        exact ⟨h1, ⟨place, ⟨by rw [g5.pre, p1], by rw [g5.block, g5.seq]; exact p2⟩, g4⟩, h3⟩
    | none =>
      rw [hv] at hf
      have hup : ∀ u' : Tree Nat, Items.upd x u' (.cons i ip k v rest) = .cons i ip k v (Items.upd x u' rest) := fun u' => by
        rw [Items.upd, hv, Option.isSome_none, if_neg (by decide)]
      rcases Items.goodY_focus r3 h3 hf with ⟨g1, g2, g3⟩ | ⟨m', cc, g1, g2, g3⟩ | ⟨g1, ⟨i', ip', key, n, q1, q2, q3, q4⟩, g3⟩
      · exact .inl ⟨g1, g2, fun u' e1 e2 => by rw [hup]; exact ⟨h1, h2, g3 u' e1 e2⟩⟩
      · exact .inr (.inl ⟨m', cc, g1, g2, fun u' e1 => by rw [hup]; exact ⟨h1, h2, g3 u' e1⟩⟩)
      · refine .inr (.inr ⟨g1, ⟨i', ip', key, n + 1, q1, q2, q3, ?_⟩, fun u' e1 => by rw [hup]; exact ⟨h1, h2, g3 u' e1⟩⟩)
        rcases q4 with h | ⟨h, _⟩
        · exact .inl h
        · cases h
end

/-! ### Items -/

theorem Items.goodF_append : ∀ {m : Bool} {a b : Items Nat}, a.goodF m → b.goodF m → (a.append b).goodF m
  | m, .nil, b, _, hb => hb
  | m, .cons _ _ _ _ r, b, ⟨h1, h2, h3⟩, hb => ⟨h1, h2, Items.goodF_append h3 hb⟩

theorem Items.goodF_erase : ∀ {m : Bool} {a : Items Nat} (n : Nat), a.goodF m → (a.eraseIdx n).goodF m
  | m, .nil, n, _ => trivial
  | m, .cons _ _ _ _ r, 0, ⟨_, _, h⟩ => h
  | m, .cons _ _ _ _ r, n + 1, ⟨h1, h2, h3⟩ => ⟨h1, h2, Items.goodF_erase n h3⟩

theorem itemPre.first {Q : Mode} {c : Nat} {ip : Bytes} (h : itemPre Q c false ip) (first : Bool) : itemPre Q c first ip := by
  cases first with
  | false => exact h
  | true =>
    obtain ⟨b, h1, h2⟩ := h
    exact .inr ⟨b, h1.1, h1.2.2.1, h2⟩

theorem Items.goodY_first {Q : Mode} {m : Bool} {c : Nat} {a : Items Nat} (h : a.goodY Q m c false) (first : Bool) : a.goodY Q m c first := by
  cases a with
  | nil => trivial
  | cons => exact ⟨⟨h.1.1.first first, h.1.2⟩, h.2⟩

theorem Items.goodY_append {Q : Mode} : ∀ {m first : Bool} {c : Nat} {a b : Items Nat}, a.goodY Q m c first → b.goodY Q m c (first && a.isNil) → (a.append b).goodY Q m c first
  | m, first, c, .nil, b, _, hb => by rw [Items.isNil, Bool.and_true] at hb; exact hb
  | m, first, c, .cons _ _ _ _ r, b, ⟨h1, h2, h3⟩, hb => ⟨h1, h2, Items.goodY_append h3 (by simpa [Items.isNil] using hb)⟩

theorem Items.goodY_erase {Q : Mode} : ∀ {m first : Bool} {c : Nat} {a : Items Nat} (n : Nat), a.goodY Q m c first → (a.eraseIdx n).goodY Q m c first
  | m, first, c, .nil, n, _ => trivial
  | m, first, c, .cons _ _ _ _ r, 0, ⟨_, _, h⟩ => Items.goodY_first h first
  | m, first, c, .cons _ _ _ _ r, n + 1, ⟨h1, h2, h3⟩ => ⟨h1, h2, Items.goodY_erase n h3⟩

theorem Items.goodF_last : ∀ {a : Items Nat} {k : RStr} {v : Tree Nat}, a.goodF false → a.pairs.getLast? = some (k, v) → gap v.pre = true ∧ validUtf8 v.pre = true
  | .nil, _, _, _, h => by simp [Items.pairs] at h
  | .cons _ _ k v r, k', v', ⟨h1, h2, h3⟩, h => by
    rw [Items.pairs] at h
    cases hr : r.pairs.getLast? with
    | none =>
      rw [List.getLast?_cons, hr] at h; cases h
      exact ⟨h1.2.2.1, h1.2.2.2.1 rfl⟩
    | some w =>
      rw [List.getLast?_cons, hr] at h; cases h
      exact Items.goodF_last h3 hr

theorem placeOk.leaf {m b s : Bool} {place : Place} (h : placeOk m b s place) (m' : Bool) : placeOk m' false false place := by
  refine ⟨?_, fun _ h => by cases h⟩
  have := h.1
  cases place with
  | here => rfl
  | below g n => simp only [Place.ok, Bool.and_eq_true] at this ⊢; exact ⟨this.1, by simp⟩
  | none => cases this

theorem Items.goodY_last {Q : Mode} : ∀ {a : Items Nat} {m first : Bool} {c : Nat} {k : RStr} {v : Tree Nat}, a.goodY Q m c first → a.pairs.getLast? = some (k, v) →
    ∃ place : Place, v.pre = place.sep c ∧ placeOk m false false place
  | .nil, _, _, _, _, _, _, h => by simp [Items.pairs] at h
  | .cons _ _ k v r, m, first, c, k', v', ⟨h1, h2, h3⟩, h => by
    rw [Items.pairs] at h
    cases hr : r.pairs.getLast? with
    | none =>
      rw [List.getLast?_cons, hr] at h; cases h
      obtain ⟨place, h2, _⟩ := h2
      exact ⟨place, h2.1, h2.2.leaf m⟩
    | some w =>
      rw [List.getLast?_cons, hr] at h; cases h
      exact Items.goodY_last h3 hr

theorem addPre_item (Q : Mode) (c : Nat) (items : Items Nat) : itemPre Q c (true && items.isNil) (addPre c items) := by
  unfold itemPre addPre
  cases items with
  | nil => exact .inl rfl
  | cons => exact ⟨[], ⟨rfl, .inl rfl, rfl, by cases Q <;> rfl⟩, rfl⟩

theorem addPre_gap (c : Nat) (items : Items Nat) : gap (addPre c items) = true ∧ validUtf8 (addPre c items) = true := by
  unfold addPre
  split
  · exact ⟨rfl, rfl⟩
  · refine ⟨gap_newLine (b := []) c rfl, ?_⟩
    show validUtf8 (NL :: List.replicate c SP) = true
    rw [valid_ascii (by decide)]; exact valid_spaces c

theorem sep_spaces {sep : Separator} (h : sep.safe = true) : ∃ n, insertPre sep = List.replicate (n + 1) SP := by
  cases sep with
  | auto => exact ⟨0, rfl⟩
  | custom s =>
    simp only [Separator.safe, Bool.and_eq_true, Bool.not_eq_true', List.all_eq_true, beq_iff_eq] at h
    refine ⟨s.length - 1, ?_⟩
    have h1 : s.length - 1 + 1 = s.length := by
      have : s.length ≠ 0 := by intro h0; rw [List.length_eq_zero_iff] at h0; rw [h0] at h; exact absurd h.1 (by decide)
      omega
    rw [h1]
    exact List.eq_replicate_iff.2 ⟨rfl, h.2⟩

theorem val_sep {Q : Mode} {d : Data} {x : Nat} {v : Val} (h : v.safe Q d x) : v.sep.safe = true := by cases v <;> first | exact h | rfl

theorem push_pre {sep : Separator} (h : sep.safe = true) (items : Items Nat) : (∃ n, pushPre sep items = List.replicate (n + 1) SP) ∨
    ∃ k v, items.pairs.getLast? = some (k, v) ∧ pushPre sep items = v.pre := by
  cases sep with
  | custom s => exact .inl (sep_spaces (sep := .custom s) h)
  | auto =>
    unfold pushPre
    cases items.pairs.getLast? with
    | none => exact .inl ⟨0, rfl⟩
    | some w => exact .inr ⟨w.1, w.2, rfl, rfl⟩

/-! ### Edits of a value -/

/-- Nothing is put into an inline collection as a block scalar. -/
theorem val_notBlock {Q : Mode} {d : Data} {x : Nat} {v : Val} {j : Nat} {p : Bytes} {m : Bool} {n : Nat} {its : Items Nat}
    (ht : valueText d x = .ok (Tree.node j p m n (.inline false []) its).render) : NotInline d x → ∀ l b, v ≠ .block l b := by
  intro h
  have := h _ ht
  cases m with
  | true => exact absurd rfl this.2
  | false => exact absurd rfl this.1

theorem Op.tree_goodF {Q : Mode} {d : Data} {x i v : Nat} {mk : Nat × Bytes} {op : Op} {u : Tree Nat} (hop : op.safe Q d x) (h0 : ∀ l b, op ≠ .setBlock l b)
    (h1 : op ≠ .makeMapping) (h2 : op ≠ .makeSequence) (ht : valueText d x = .ok u.render) (hn : u.allIds.Nodup) (hg : u.goodF) : (op.tree i v mk u).goodF ∧ (op.tree i v mk u).pre = u.pre := by
  cases hs : op.scalar u with
  | some s => simp only [Op.tree, hs]; exact ⟨(op_safe hop h0 hs).flow, rfl⟩
  | none =>
    cases u with
    | leaf j p s => 
      cases op <;> simp only [Op.scalar, reduceCtorEq] at hs <;> first | exact absurd rfl h1 | exact absurd rfl h2 | exact ⟨hg, rfl⟩
    | node j p m n k items =>
      obtain ⟨rfl, hg⟩ := hg
      have hnb := fun v : Val => val_notBlock (Q := Q) (v := v) ht
      have hg : (Tree.node j p m n (.inline false []) items).goodF := ⟨rfl, hg⟩
      cases m with
      | true =>
        cases op <;> simp only [Op.scalar, reduceCtorEq] at hs <;> try first | exact absurd rfl h1 | exact absurd rfl h2 | exact ⟨hg, rfl⟩
        case insert key val =>
          simp only [Op.tree, Op.scalar]
          obtain ⟨s1, s2⟩ := hop
          cases hl : items.lookup key with
          | none =>
            obtain ⟨ns, hns⟩ := sep_spaces (val_sep s2)
            refine ⟨⟨hg.1, Items.goodF_append hg.2 ⟨⟨(addPre_gap n items).1, (addPre_gap n items).2, ?_, (fun h => by cases h), fun _ => ⟨rfl, ?_⟩⟩, (val_safe s2 (hnb _) _).flow, trivial⟩⟩, rfl⟩
            · show gap (insertPre val.sep) = true
              rw [hns]; exact gap_spaces _
            · simp only [safeKey, Bool.and_eq_true] at s1; exact s1.1.2
          | some w =>
            obtain ⟨n', k', hp, _⟩ := Items.lookup_mem hl
            exact (Tree.goodF_upd hg (Tree.find_pair hn hp)).2 _ (val_safe s2 (hnb _) _).flow rfl
        case remove key =>
          simp only [Op.tree, Op.scalar]
          cases items.indexOf key with
          | none => exact ⟨hg, rfl⟩
          | some ix => exact ⟨⟨hg.1, Items.goodF_erase ix hg.2⟩, rfl⟩
        case clearMapping => exact ⟨⟨hg.1, trivial⟩, rfl⟩
      | false =>
        cases op <;> simp only [Op.scalar, reduceCtorEq] at hs <;> try first | exact absurd rfl h1 | exact absurd rfl h2 | exact ⟨hg, rfl⟩
        case push val =>
          have hpre : gap (pushPre val.sep items) = true ∧ validUtf8 (pushPre val.sep items) = true := by
            rcases push_pre (val_sep hop) items with ⟨n, h⟩ | ⟨k, w, h3, h4⟩
            · rw [h]; exact ⟨gap_spaces _, valid_spaces _⟩
            · rw [h4]; exact Items.goodF_last hg.2 h3
          exact ⟨⟨hg.1, Items.goodF_append hg.2 ⟨⟨(addPre_gap n items).1, (addPre_gap n items).2, hpre.1, fun _ => hpre.2, (fun h => by cases h)⟩,
            (val_safe hop (hnb _) _).flow, trivial⟩⟩, rfl⟩
        case removeAt ix => exact ⟨⟨hg.1, Items.goodF_erase ix hg.2⟩, rfl⟩
        case clearSequence => exact ⟨⟨hg.1, trivial⟩, rfl⟩

/-- The layout seen from outside is the same, or that of a scalar. -/
structure Simpler (a b : Tree Nat) : Prop where
  pre : a.pre = b.pre
  kind : (a.isBlock = b.isBlock ∧ a.isBlockSeq = b.isBlockSeq) ∨ (a.isBlock = false ∧ a.isBlockSeq = false)

theorem SameLayout.simpler {a b : Tree Nat} (h : SameLayout a b) : Simpler a b := ⟨h.pre, .inl ⟨h.block, h.seq⟩⟩

theorem Simpler.slot {Q : Mode} {a b : Tree Nat} (h : Simpler a b) {m : Bool} {c : Nat} {place : Place} (h1 : b.pre = place.sep c ∧ placeOk m b.isBlock b.isBlockSeq place)
    (h2 : a.goodY Q c (place.col c)) : a.slot Q m c := by
  refine ⟨place, ⟨by rw [h.pre, h1.1], ?_⟩, h2⟩
  rcases h.kind with ⟨e1, e2⟩ | ⟨e1, e2⟩
  · rw [e1, e2]; exact h1.2
  · rw [e1, e2]; exact h1.2.leaf m

/-- Replacing a value by a scalar. -/
theorem Tree.goodY_set {Q : Mode} {d : Data} {par : Option Nat} {t w : Tree Nat} {o c y j : Nat} {s : Scalar} (hr : Rep d par t) (hg : t.goodY Q o c) (hf : t.find y = some w)
    (hl : ∃ k, lastLine t.pre = List.replicate k SP) (hs : s.safe) :
    (Tree.upd y (.leaf j w.pre s) t).goodY Q o c ∧ Simpler (Tree.upd y (.leaf j w.pre s) t) t := by
  rcases Tree.goodY_focus hr hg hf hl with rfl | ⟨g1, g2, g3⟩ | ⟨m, cc, ⟨place, g1, _⟩, g2, g3⟩
  · rw [Tree.upd_self (Tree.find_id hf)]
    exact ⟨.inl hs.block, rfl, .inr ⟨rfl, rfl⟩⟩
  · obtain ⟨h1, h2⟩ := g3 (.leaf j w.pre s) hs.flow rfl
    exact ⟨h1, h2.simpler⟩
  · obtain ⟨h1, h2⟩ := g3 (.leaf j w.pre s) (Simpler.slot (a := .leaf j w.pre s) (b := w) ⟨rfl, .inr ⟨rfl, rfl⟩⟩ g1 (.inl hs.block))
    exact ⟨h1, h2.simpler⟩

/-- Replacing an item of a block collection by a scalar. -/
theorem Items.goodY_pair {Q : Mode} {m : Bool} {c cc j : Nat} {s : Scalar} {k : RStr} {w : Tree Nat} (hs : s.fine Q c) : ∀ {its : Items Nat} {n : Nat} {first : Bool},
    its.goodY Q m c first → ((its.entries cc m).map (·.1)).Nodup → its.pairs[n]? = some (k, w) → (Items.upd w.id (.leaf j w.pre s) its).goodY Q m c first
  | .nil, _, _, _, _, h => by simp [Items.pairs] at h
  | .cons i ip key v rest, n, first, ⟨h1, h2, h3⟩, hn, h => by
    simp only [Items.entries, List.map_cons, List.map_append, List.nodup_cons, List.nodup_append, Tree.allIds_eq] at hn
    obtain ⟨_, hv, hr, hvr⟩ := hn
    cases n with
    | zero =>
      simp only [Items.pairs, List.getElem?_cons_zero, Option.some.injEq, Prod.mk.injEq] at h
      obtain ⟨_, rfl⟩ := h
      rw [Items.upd, Tree.find_self, Option.isSome_some, if_pos rfl, Tree.upd_self rfl]
      obtain ⟨place, h4, _⟩ := h2
      exact ⟨h1, Simpler.slot (a := .leaf j v.pre s) (b := v) ⟨rfl, .inr ⟨rfl, rfl⟩⟩ h4 hs.block, h3⟩
    | succ n =>
      simp only [Items.pairs, List.getElem?_cons_succ] at h
      have hf := Items.find_pair cc m hr h
      have : v.find w.id = none := by
        cases hc : v.find w.id with
        | none => rfl
        | some z => exact absurd rfl (hvr _ (Tree.find_mem hc) _ (Items.find_mem cc m hf))
      rw [Items.upd, this, Option.isSome_none, if_neg (by decide)]
      exact ⟨h1, h2, Items.goodY_pair hs h3 hr h⟩

theorem Op.tree_goodY {Q : Mode} {d : Data} {par : Option Nat} {o c x i v : Nat} {mk : Nat × Bytes} {op : Op} {u : Tree Nat} (hop : op.safe Q d x)
    (h0 : ∀ s l b, op = .setBlock l b → op.scalar u = some s → s.fine Q o) (h1 : op ≠ .makeMapping)
    (h2 : op ≠ .makeSequence) (ht : valueText d x = .ok u.render) (hn : u.allIds.Nodup) (hr : Rep d par u) (hl : ∃ k, lastLine u.pre = List.replicate k SP) (hg : u.goodY Q o c) :
    (op.tree i v mk u).goodY Q o c ∧ Simpler (op.tree i v mk u) u := by
  cases hs : op.scalar u with
  | some s =>
    refine ⟨?_, by simp only [Op.tree, hs]; rfl, .inr (by simp only [Op.tree, hs]; exact ⟨rfl, rfl⟩)⟩
    simp only [Op.tree, hs]
    by_cases hb : ∃ l b, op = .setBlock l b
    · obtain ⟨l, b, hb⟩ := hb; exact (h0 s l b hb hs).block
    · exact .inl (op_safe hop (fun l b e => hb ⟨l, b, e⟩) hs).block
  | none =>
    have hself : ∀ {t : Tree Nat}, Simpler t t := ⟨rfl, .inl ⟨rfl, rfl⟩⟩
    cases u with
    | leaf j p s =>
      cases op <;> simp only [Op.scalar, reduceCtorEq] at hs <;> first | exact absurd rfl h1 | exact absurd rfl h2 | exact ⟨hg, hself⟩
    | node j p m n k items =>
      cases m with
      | true =>
        cases op <;> simp only [Op.scalar, reduceCtorEq] at hs <;> try first | exact absurd rfl h1 | exact absurd rfl h2 | exact ⟨hg, hself⟩
        case insert key val =>
          have hop' := hop
          obtain ⟨s1, s2⟩ := hop
          cases hl2 : items.lookup key with
          | none =>
            rcases hg with hg | ⟨rfl, rfl, hg⟩
            · obtain ⟨g1, g2⟩ := Op.tree_goodF (i := i) (v := v) (mk := mk) hop' (fun _ _ h => by cases h) h1 h2 ht hn hg
              simp only [Op.tree, Op.scalar, hl2] at g1 g2 ⊢
              exact ⟨.inl g1, rfl, .inl ⟨by rw [hg.1]; rfl, by rw [hg.1]; rfl⟩⟩
            · simp only [Op.tree, Op.scalar, hl2]
              obtain ⟨ns, hns⟩ := sep_spaces (val_sep s2)
              refine ⟨.inr ⟨rfl, rfl, Items.goodY_append hg ⟨⟨addPre_item Q _ items, fun _ => ⟨rfl, ?_⟩⟩, ⟨.here ns, ⟨hns, rfl, fun _ h => by cases h⟩, (val_fine s2 _ _ _ _ _ _).block⟩,
                trivial⟩⟩, rfl, .inl ⟨rfl, rfl⟩⟩
              simp only [safeKey, Bool.and_eq_true, bne_iff_ne] at s1; exact ⟨s1.1.1, s1.2⟩
          | some w =>
            obtain ⟨n', k', hp, _⟩ := Items.lookup_mem hl2
            simp only [Op.tree, Op.scalar, hl2]
            have hpair := Tree.find_pair hn hp
            rcases hg with ⟨rfl, hg⟩ | ⟨rfl, rfl, hg⟩
            · exact Tree.goodY_set hr (.inl ⟨rfl, hg⟩) hpair hl (val_safe s2 (val_notBlock (Q := Q) ht) _)
            · rw [Tree.allIds_node, List.nodup_cons] at hn
              have hj : j ≠ w.id := by
                rintro rfl
                exact hn.1 (Items.find_mem _ true (Items.find_pair _ true hn.2 hp))
              rw [Tree.upd, if_neg hj]
              exact ⟨.inr ⟨rfl, rfl, Items.goodY_pair (val_fine s2 _ _ _ _ _ _) hg hn.2 hp⟩, rfl, .inl ⟨rfl, rfl⟩⟩
        case remove key =>
          simp only [Op.tree, Op.scalar]
          cases items.indexOf key with
          | none => exact ⟨hg, hself⟩
          | some ix =>
            rcases hg with hg | ⟨rfl, rfl, hg⟩
            · exact ⟨.inl ⟨hg.1, Items.goodF_erase ix hg.2⟩, rfl, .inl ⟨by rw [hg.1]; rfl, by rw [hg.1]; rfl⟩⟩
            · exact ⟨.inr ⟨rfl, rfl, Items.goodY_erase ix hg⟩, rfl, .inl ⟨rfl, rfl⟩⟩
        case clearMapping =>
          rcases hg with hg | ⟨rfl, rfl, hg⟩
          · exact ⟨.inl ⟨hg.1, trivial⟩, rfl, .inl ⟨by rw [hg.1]; rfl, by rw [hg.1]; rfl⟩⟩
          · exact ⟨.inr ⟨rfl, rfl, trivial⟩, rfl, .inl ⟨rfl, rfl⟩⟩
      | false =>
        cases op <;> simp only [Op.scalar, reduceCtorEq] at hs <;> try first | exact absurd rfl h1 | exact absurd rfl h2 | exact ⟨hg, hself⟩
        case push val =>
          rcases hg with hg | ⟨rfl, rfl, hg⟩
          · obtain ⟨g1, g2⟩ := Op.tree_goodF (i := i) (v := v) (mk := mk) hop (fun _ _ h => by cases h) h1 h2 ht hn hg
            simp only [Op.tree, Op.scalar] at g1 g2 ⊢
            exact ⟨.inl g1, rfl, .inl ⟨by rw [hg.1]; rfl, by rw [hg.1]; rfl⟩⟩
          · simp only [Op.tree, Op.scalar]
            have hpl : ∃ place : Place, pushPre val.sep items = place.sep n ∧ placeOk false false false place := by
              rcases push_pre (val_sep hop) items with ⟨ns, h⟩ | ⟨k, w, h3, h4⟩
              · exact ⟨.here ns, h, rfl, fun _ h => by cases h⟩
              · rw [h4]; exact Items.goodY_last hg h3
            obtain ⟨place, p1, p2⟩ := hpl
            exact ⟨.inr ⟨rfl, rfl, Items.goodY_append hg ⟨⟨addPre_item Q _ items, (fun h => by cases h)⟩, ⟨place, ⟨p1, p2⟩, (val_fine hop _ _ _ _ _ _).block⟩, trivial⟩⟩,
              rfl, .inl ⟨rfl, rfl⟩⟩
        case removeAt ix =>
          rcases hg with hg | ⟨rfl, rfl, hg⟩
          · exact ⟨.inl ⟨hg.1, Items.goodF_erase ix hg.2⟩, rfl, .inl ⟨by rw [hg.1]; rfl, by rw [hg.1]; rfl⟩⟩
          · exact ⟨.inr ⟨rfl, rfl, Items.goodY_erase ix hg⟩, rfl, .inl ⟨rfl, rfl⟩⟩
        case clearSequence =>
          rcases hg with hg | ⟨rfl, rfl, hg⟩
          · exact ⟨.inl ⟨hg.1, trivial⟩, rfl, .inl ⟨by rw [hg.1]; rfl, by rw [hg.1]; rfl⟩⟩
          · exact ⟨.inr ⟨rfl, rfl, trivial⟩, rfl, .inl ⟨rfl, rfl⟩⟩

theorem Tree.upd_leaf {x : Nat} {u t : Tree Nat} {i : Nat} {p : Bytes} {s : Scalar} (h : Tree.upd x u t = .leaf i p s) (hf : (t.find x).isSome = true) :
    t.id = x ∧ u = .leaf i p s := by
  cases t with
  | leaf j q r =>
    simp only [Tree.find] at hf
    split at hf
    · next hi => rw [Tree.upd, if_pos hi] at h; exact ⟨hi, h⟩
    · cases hf
  | node j q m ind k items =>
    rw [Tree.upd] at h
    split at h
    · next hi => exact ⟨hi, h⟩
    · cases h

theorem Op.tree_leaf {Q : Mode} {d : Data} {x i v : Nat} {mk : Nat × Bytes} {op : Op} {u : Tree Nat} (hop : op.safe Q d x) (hn : u.allIds.Nodup) {j : Nat} {p : Bytes} {s : Scalar}
    (h : op.tree i v mk u = .leaf j p s) : (hd s.write ≠ PCT ∧ (b! "---").isPrefixOf s.write = false) ∨ u = .leaf j p s := by
  cases hs : op.scalar u with
  | some s' =>
    simp only [Op.tree, hs] at h
    cases h
    exact .inl (op_start hop hs)
  | none =>
    cases u with
    | leaf j p s =>
      cases op <;> simp only [Op.scalar, reduceCtorEq] at hs <;> simp only [Op.tree, Op.scalar, reduceCtorEq] at h <;> exact .inr h
    | node j' p' m n k items =>
      cases m with
      | true =>
        cases op <;> simp only [Op.scalar, reduceCtorEq] at hs <;> simp only [Op.tree, Op.scalar, reduceCtorEq] at h
        case insert key val =>
          cases hl : items.lookup key with
          | none => rw [hl] at h; cases h
          | some w =>
            rw [hl] at h
            obtain ⟨n', k', hp, _⟩ := Items.lookup_mem hl
            obtain ⟨_, h⟩ := Tree.upd_leaf h (by rw [Tree.find_pair hn hp]; rfl)
            cases h
            exact .inl (val_start hop.2 _)
        case remove key => split at h <;> cases h
      | false =>
        cases op <;> simp only [Op.scalar, reduceCtorEq] at hs <;> simp only [Op.tree, Op.scalar, reduceCtorEq] at h

/-! ### Making a collection -/

theorem flatten_spaces : ∀ k, (List.replicate k [SP]).flatten = List.replicate k SP
  | 0 => rfl
  | k + 1 => by rw [List.replicate_succ, List.flatten_cons, flatten_spaces k, List.replicate_succ]; rfl

theorem indentText_spaces (k n : Nat) : indentText (chars (List.replicate k SP)) n = NL :: List.replicate n SP := by
  rw [indentText, chars_spaces, List.take_replicate, flatten_spaces, List.length_replicate, List.replicate_append_replicate]
  congr 2
  omega

theorem countIndent_newLine (b : Bytes) (c : Nat) : countIndent (newLine c b) = c := by
  rw [countIndent, newLine, lastLine_newLine, chars_spaces, List.length_replicate]

theorem GoodDoc.lastLine {Q : Mode} {doc : Document} {t : Tree Nat} {l : Bytes} {c : Nat} (h : GoodDoc Q doc t l c) : Verif.lastLine t.pre = List.replicate c SP := by
  rw [h.pre]
  have hl := h.lead
  simp only [leadOk, Bool.and_eq_true, Bool.or_eq_true, beq_iff_eq] at hl
  cases he : l.isEmpty with
  | true => rw [List.isEmpty_iff.1 he]; exact lastLine_spaces c
  | false =>
    rw [he] at hl
    obtain ⟨r, rfl⟩ := eq_concat_of_getLastD he (by simpa using hl.2)
    rw [List.append_assoc]; exact lastLine_newLine r c

/-- The collection a value is in. -/
theorem Holds.container {doc : Document} {t u : Tree Nat} {x i q : Nat} (h : Holds doc t) (hf : t.find x = some u) {e ei : Entry}
    (h1 : doc.data.slab.get x = some e) (h2 : e.parent = some i) (h3 : doc.data.slab.get i = some ei) (h4 : ei.parent = some q) :
    ∃ (p : Bytes) (m : Bool) (ind : Nat) (k : CollKind) (items : Items Nat) (par : Option Nat), t.find q = some (.node q p m ind k items) ∧ Child doc.data q x ∧
      doc.data.slab.get q = some ⟨collRaw m ⟨ind, k, items.ids⟩, p, par⟩ := by
  rcases h.parent hf with ⟨_, hx⟩ | ⟨c, cpre, m, ind, k, items, i', ip, key, n, par, g1, g2, g3, g4, g5, g6⟩
  · rw [h1] at hx; cases hx; cases h2
  · rw [h1] at g6; cases g6; cases h2
    rw [h3] at g5; cases g5; cases h4
    refine ⟨cpre, m, ind, k, items, par, g1, ?_, g4⟩
    obtain ⟨par, ha⟩ := h.at g1
    have hid := Tree.find_id hf
    have hmem := List.mem_of_getElem? g3
    cases m with
    | true =>
      obtain ⟨m1, m2⟩ := isMap_node ha.rep
      exact .inr ⟨_, key.id, m1, m2, List.mem_map.2 ⟨_, hmem, by rw [← hid]⟩⟩
    | false =>
      obtain ⟨m1, m2⟩ := isSeq_node ha.rep
      exact .inl ⟨_, m1, m2, List.mem_map.2 ⟨_, hmem, hid⟩⟩

theorem collRaw_kind {m m' : Bool} {a b : Coll} (h : collRaw m a = collRaw m' b) : a = b := by
  cases m <;> cases m' <;> simp [collRaw] at h <;> exact h

theorem not_inline {doc : Document} {t u : Tree Nat} {x : Nat} (h : Holds doc t) (hf : t.find x = some u) (hi : InInline doc.data u) (hc : ∀ c, Child doc.data c x → NotInline doc.data c) : False := by
  obtain ⟨q, p, par, m, m', ind, its, i, ip, key, r1, r2, r3⟩ := hi
  rw [Tree.find_id hf] at r3
  obtain ⟨p', m2, ind', k, items, par', g1, g2, g3⟩ := h.container hf r3 rfl r2 rfl
  obtain ⟨hq, ha⟩ := h.at g1
  have := r1.head
  rw [Tree.id_node, g3] at this
  have hk : k = .inline false [] := by
    simp only [Tree.raw, Option.some.injEq, Entry.mk.injEq] at this
    have := collRaw_kind this.1
    simp only [Coll.mk.injEq] at this
    exact this.2.1
  subst hk
  have := hc q g2 _ ha.text
  cases m2 with
  | true => exact this.2 rfl
  | false => exact this.1 rfl

theorem make_slot {Q : Mode} {doc : Document} {t u : Tree Nat} {x : Nat} {m mm : Bool} {cc q : Nat} {p : Bytes} {par : Option Nat} {its : Items Nat} {i : Nat} {ip : Bytes} {key : RStr} {n : Nat}
    {mk : Nat × Bytes} (h : Holds doc t) (hf : t.find x = some u) (hb : InBlock doc.data u m cc q p par its i ip key n) (hc : CanMake doc.data x)
    (hmk : Verif.makeIndent doc.data x 0 = .ok mk) : (Tree.node x mk.2 mm mk.1 .block .nil).slot Q m cc := by
  have hid := Tree.find_id hf
  have r3 := hb.value
  rw [hid] at r3
  have hq := hb.rep.head
  rw [Tree.id_node] at hq
  simp only [Verif.makeIndent, entry_of r3, entry_of hb.item, entry_of hq, bind, Except.bind, pure, Except.pure] at hmk
  obtain ⟨k, hk⟩ := hb.spaces
  cases m with
  | true =>
    simp only [Tree.raw, collRaw, if_true, makeIndent.deeper, Tree.pre_node, hk, indentText_spaces, Except.ok.injEq] at hmk
    subst hmk
    exact ⟨.below [] 2, ⟨rfl, by cases mm <;> rfl, fun _ _ => rfl⟩, .inr ⟨rfl, rfl, trivial⟩⟩
  | false =>
    obtain ⟨p', m2, ind', k, items, par', g1, g2, g3⟩ := h.container hf r3 rfl hb.item rfl
    simp only [Tree.raw, collRaw, Bool.false_eq_true, if_false, if_true, itemRaw, Except.ok.injEq] at hmk
    subst hmk
    rcases hb.ipre with ⟨b, rfl⟩ | ⟨rfl, rfl⟩
    · rw [countIndent_newLine]
      exact ⟨.here 0, ⟨rfl, by cases mm <;> rfl, (fun h => by cases h)⟩, .inr ⟨rfl, rfl, trivial⟩⟩
    · have h0 := (hc q g2).2 _ (isSeq_node hb.rep) (by
        have := hb.pair
        rw [← List.head?_eq_getElem?] at this
        rw [List.head?_map, this, ← hid]; rfl)
      simp only [column, Data.raw, entry_of hq, bind, Except.bind, pure, Except.pure, Tree.raw, collRaw, Bool.false_eq_true, if_false] at h0
      subst h0
      exact ⟨.here 0, ⟨rfl, by cases mm <;> rfl, (fun h => by cases h)⟩, .inr ⟨rfl, rfl, trivial⟩⟩

/-! ### Storing a block scalar -/

theorem block_at {Q : Mode} {d : Data} {x o c : Nat} {u : Tree Nat} {lines : List Bytes} {b : Block} (hq : Q.lines lines b = true) (ho : o ≤ c) (hg : u.goodY Q o c)
    (ht : valueText d x = .ok u.render) (hni : NotInline d x) (hleaf : ∀ i p s, u = .leaf i p s → ∃ k, lastLine p = List.replicate k SP ∧ o < k + 2) :
    (blockScalar (blockIndent u).2 (blockIndent u).1 lines b).fine Q o := by
  cases u with
  | leaf i p s =>
    obtain ⟨k, h1, h2⟩ := hleaf i p s rfl
    exact block_fine hq (pre := lastLine p) (n := 2) (w := k + 2) (by rw [h1, List.replicate_append_replicate]) h2
  | node i p m ind k items =>
    rcases hg with ⟨rfl, _⟩ | ⟨rfl, rfl, _⟩
    · have := hni _ ht
      cases m with
      | true => exact absurd rfl this.2
      | false => exact absurd rfl this.1
    · exact block_fine hq (pre := []) (n := ind + 2) (w := ind + 2) (List.nil_append _) (by omega)

/-! ### Edits of a document -/

theorem GoodDoc.edit {Q : Mode} {doc doc' : Document} {t u : Tree Nat} {l : Bytes} {c x : Nat} {op : Op} (h : GoodDoc Q doc t l c) (hf : t.find x = some u)
    (hop : op.safe Q doc.data x) (he : doc.edit x op = .ok doc') : ∃ t', GoodDoc Q doc' t' l c := by
  obtain ⟨d', i, v, mk, h1, h2, h3, h4⟩ := h.holds.editTree hf op
  simp only [Document.edit, h1, bind, Except.bind, pure, Except.pure, Except.ok.injEq] at he
  obtain ⟨par, ha⟩ := h.holds.at hf
  have hl := h.lastLine
  subst he
  have hfoc := Tree.goodY_focus h.holds.rep h.good hf ⟨c, hl⟩
  have hst : ∀ {t' : Tree Nat} {i p s}, Tree.upd x t' t = .leaf i p s → (∀ s, t' = .leaf i p s → (hd s.write ≠ PCT ∧ (b! "---").isPrefixOf s.write = false) ∨ u = .leaf i p s) →
      hd s.write ≠ PCT ∧ (b! "---").isPrefixOf s.write = false := by
    intro t' i p s e hs
    obtain ⟨e1, e2⟩ := Tree.upd_leaf e (by rw [hf]; rfl)
    rcases hs s e2 with hs | hs
    · exact hs
    · have : t = u := by rw [← e1, t.find_self] at hf; cases hf; rfl
      exact h.start i p s (this.trans hs)
  -- making a collection
  have hmake : ∀ mm : Bool, op.tree i v mk u = .node x mk.2 mm mk.1 .block .nil → CanMake doc.data x →
      ∃ t', GoodDoc Q ⟨doc.suffix, doc.root, d'⟩ t' l c := by
    intro mm e hc
    rw [e] at h4
    rcases hfoc with rfl | ⟨_, g2, _⟩ | ⟨m, cc, _, ⟨q, p, par, its, i, ip, key, n, g2⟩, g3⟩
    · have hid := Tree.find_id hf
      rw [Tree.upd_self hid] at h4
      have hx := h.holds.rep.head
      rw [hid] at hx
      simp only [Verif.makeIndent, entry_of hx, bind, Except.bind, pure, Except.pure, if_true, Nat.add_zero, Except.ok.injEq] at h3
      subst h3
      refine ⟨_, h4, h.lead, h.pre, .inr ⟨rfl, ?_, trivial⟩, (fun _ _ _ e => by cases e), h.tail, h.last⟩
      simp only [countIndent, hl, chars_spaces, List.length_replicate]
    · exact (not_inline h.holds hf g2 fun c h => (hc c h).1).elim
    · obtain ⟨g4, g5⟩ := g3 _ (make_slot (Q := Q) (mm := mm) h.holds hf g2 hc h3)
      refine ⟨_, h4, h.lead, by rw [g5.pre, h.pre], g4, fun i p s e => hst e (fun s e => by cases e), h.tail, h.last⟩
  have hsame : op.tree i v mk u = u → ∃ t', GoodDoc Q ⟨doc.suffix, doc.root, d'⟩ t' l c := by
    intro e
    obtain ⟨_, _, _, _, _, hself, _⟩ := Tree.focus none hf
    rw [e, hself] at h4
    exact ⟨t, h4, h.lead, h.pre, h.good, h.start, h.tail, h.last⟩
  by_cases hm1 : op = .makeMapping
  · subst hm1
    have hid := Tree.find_id hf
    cases u with
    | leaf j p s => exact hmake true (by simp only [Op.tree, Op.scalar]; rw [← hid]; rfl) hop
    | node j p m ind k items => cases m with
      | true => exact hsame rfl
      | false => exact hmake true (by simp only [Op.tree, Op.scalar]; rw [← hid]; rfl) hop
  by_cases hm2 : op = .makeSequence
  · subst hm2
    have hid := Tree.find_id hf
    cases u with
    | leaf j p s => exact hmake false (by simp only [Op.tree, Op.scalar]; rw [← hid]; rfl) hop
    | node j p m ind k items => cases m with
      | false => exact hsame rfl
      | true => exact hmake false (by simp only [Op.tree, Op.scalar]; rw [← hid]; rfl) hop
  refine ⟨Tree.upd x (op.tree i v mk u) t, ?_⟩
  have hleaf : ∀ i' p s, Tree.upd x (op.tree i v mk u) t = .leaf i' p s → hd s.write ≠ PCT ∧ (b! "---").isPrefixOf s.write = false :=
    fun i' p s e => hst e fun s e => Op.tree_leaf hop ha.nodup e
  have htext := ha.text
  have hblk : ∀ l b, op = .setBlock l b → Q.lines l b = true ∧ CanBlock doc.data x := by
    rintro l b rfl; exact hop
  rcases hfoc with rfl | ⟨g1, gi, g3⟩ | ⟨m, cc, ⟨place, g1, g2⟩, ⟨q, p, par', its, i', ip, key, n, gb⟩, g3⟩
  · have h0 : ∀ s l b, op = .setBlock l b → op.scalar t = some s → s.fine Q c := by
      intro s ls b hb hs
      obtain ⟨q1, q2, _⟩ := hblk ls b hb
      subst hb
      simp only [Op.scalar, Option.some.injEq] at hs
      subst hs
      exact block_at (o := c) (c := c) q1 (Nat.le_refl c) h.good htext q2 (fun i p s e => by subst e; exact ⟨c, hl, by omega⟩)
    obtain ⟨k1, k2⟩ := Op.tree_goodY (i := i) (v := v) (mk := mk) hop h0 hm1 hm2 htext ha.nodup ha.rep ⟨c, hl⟩ h.good
    have hid := Tree.find_id hf
    refine ⟨h4, h.lead, ?_, ?_, hleaf, h.tail, h.last⟩
    · rw [Tree.upd_self hid, k2.pre, h.pre]
    · rw [Tree.upd_self hid]; exact k1
  · have h0 : ∀ l b, op ≠ .setBlock l b := fun l b hb => not_inline h.holds hf gi fun c hc => ((hblk l b hb).2.2 c hc).1
    obtain ⟨k1, k2⟩ := Op.tree_goodF (i := i) (v := v) (mk := mk) hop h0 hm1 hm2 htext ha.nodup g1
    obtain ⟨k3, k4⟩ := g3 _ k1 k2
    exact ⟨h4, h.lead, by rw [k4.pre, h.pre], k3, hleaf, h.tail, h.last⟩
  · have h0 : ∀ s l b, op = .setBlock l b → op.scalar u = some s → s.fine Q cc := by
      intro s ls b hb hs
      obtain ⟨q1, q2, q3⟩ := hblk ls b hb
      subst hb
      simp only [Op.scalar, Option.some.injEq] at hs
      subst hs
      refine block_at (o := cc) (c := place.col cc) q1 (by cases place <;> simp only [Place.col] <;> omega) g2 htext q2 fun i p s e => ?_
      subst e
      obtain ⟨k, hk⟩ := place.lastLine cc
      have hp : p = place.sep cc := g1.1
      refine ⟨k, by rw [hp, hk], ?_⟩
      have r3 := gb.value
      rw [Tree.find_id hf] at r3
      obtain ⟨p', m2, ind', k', items, par2, c1, c2, c3⟩ := h.holds.container hf r3 rfl gb.item rfl
      have hq := gb.rep.head
      rw [Tree.id_node] at hq
      have hcol : column doc.data q = cc := by
        simp only [column, Data.raw, entry_of hq, bind, Except.bind, pure, Except.pure, Tree.raw]
        cases m <;> rfl
      have hpre : prefixOf doc.data x = p := by
        simp only [prefixOf, entry_of r3]; rfl
      have hix : i = x := Tree.find_id hf
      have := (q3 q c2).2 s.value (by rw [← hix]; exact asAny_leaf ha.rep) (by cases s <;> rfl)
      rw [hcol, hpre, hp, hk, List.length_replicate] at this
      exact this
    obtain ⟨k1, k2⟩ := Op.tree_goodY (i := i) (v := v) (mk := mk) hop h0 hm1 hm2 htext ha.nodup ha.rep (by rw [g1.1]; exact place.lastLine cc) g2
    obtain ⟨k3, k4⟩ := g3 _ (k2.slot g1 k1)
    exact ⟨h4, h.lead, by rw [k4.pre, h.pre], k3, hleaf, h.tail, h.last⟩

/-- Tidy documents are laid out as in the grammar. -/
theorem Tidy.good {Q : Mode} {doc : Document} (h : Tidy Q doc) : ∃ t l c, GoodDoc Q doc t l c := by
  induction h with
  | parsed hp hq h =>
    obtain ⟨doc', h1, h2⟩ := parse_page hp
    rw [parsed_iff] at h h1
    rw [h1] at h; cases h
    exact h2.good hp hq
  | edited _ hl ho he ih =>
    obtain ⟨t, l, c, h⟩ := ih
    obtain ⟨u, hf⟩ := (h.holds.live_iff _).1 hl
    obtain ⟨t', h'⟩ := h.edit hf ho he
    exact ⟨t', l, c, h'⟩

mutual
theorem Tree.full_of : ∀ {t : Tree Nat}, t.allIds.Nodup → (∀ x w, t.find x = some w → w.render ≠ []) → t.full
  | .leaf i p s, _, h => by
    have := h i (.leaf i p s) (by simp [Tree.find])
    rwa [Tree.render] at this
  | .node i p m n k items, hn, ht => by
    rw [Tree.allIds_node, List.nodup_cons] at hn
    refine ⟨?_, Items.full_of hn.2 fun x w hf => ht x w ?_⟩
    · rintro rfl
      have := ht i (.node i p m n .block items) (by simp [Tree.find])
      cases items with
      | nil => exact absurd rfl this
      | cons => rfl
    · rw [Tree.find, if_neg]
      · exact hf
      · rintro rfl
        exact hn.1 (Items.find_mem i m hf)
theorem Items.full_of {c : Nat} {m : Bool} : ∀ {is : Items Nat}, ((is.entries c m).map (·.1)).Nodup → (∀ x w, is.find x = some w → w.render ≠ []) → is.full
  | .nil, _, _ => trivial
  | .cons i p key v rest, hn, ht => by
    simp only [Items.entries, List.map_cons, List.map_append, List.nodup_cons, List.nodup_append, Tree.allIds_eq] at hn
    obtain ⟨_, hv, hr, hvr⟩ := hn
    refine ⟨Tree.full_of hv fun x w hf => ht x w (by simp [Items.find, hf]), Items.full_of hr fun x w hf => ht x w ?_⟩
    have : v.find x = none := by
      cases hc : v.find x with
      | none => rfl
      | some z => exact absurd rfl (hvr x (Tree.find_mem hc) x (Items.find_mem c m hf))
    simp [Items.find, this, hf]
end

/-- No value is written as nothing. -/
theorem Holds.full_of {doc : Document} {t : Tree Nat} (h : Holds doc t) (hn : NoHoles doc) : t.full := by
  refine Tree.full_of h.nodup fun x u hf e => ?_
  obtain ⟨p, ha⟩ := h.at hf
  have := ha.text
  rw [e] at this
  exact hn x ((h.live_iff x).2 ⟨u, hf⟩) this

/-- Tidy documents without holes are documents of the grammar. -/
theorem Tidy.page {Q : Mode} {doc : Document} (h : Tidy Q doc) (hn : NoHoles doc) : ∃ p : Page, p.ok true = true ∧ p.calm Q = true ∧ FitsDoc doc p := by
  obtain ⟨t, l, c, h⟩ := h.good
  exact h.page (h.holds.full_of hn)

end Verif
