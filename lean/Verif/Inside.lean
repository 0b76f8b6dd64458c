import Verif.FlowDocs
import Verif.Lines
import Verif.Rename
import Verif.Apart
import Verif.Props.Commute
/-
Edits inside an inline collection: the text of the collection on its own says whether the whole document is read back.  Used in proofs only; nothing here is part of the Rust code.
-/
namespace Verif

theorem blankGo_join {Q : Bytes} : ∀ {c : Bool} {a : Bytes}, blankGo c (a ++ [NL]) = false → blankGo c (a ++ Q) = false
  | true, [], h => by cases h
  | false, [], h => by cases h
  | true, b :: a, h => by
    rw [List.cons_append, blankGo] at h ⊢
    exact blankGo_join h
  | false, b :: a, h => by
    rw [List.cons_append, blankGo] at h ⊢
    split at h
    · next hb => rw [if_pos hb]; exact blankGo_join h
    · next hb =>
      rw [if_neg hb]
      rw [Bool.and_eq_false_iff] at h ⊢
      rcases h with h | h
      · exact .inl h
      · exact .inr (blankGo_join h)

theorem dropWhile_join {a : Bytes} : (NL ∈ a ∧ ∃ c, ∀ z, (a ++ z).dropWhile (· != NL) = NL :: (c ++ z)) ∨ (NL ∉ a ∧ ∀ z, (a ++ z).dropWhile (· != NL) = z.dropWhile (· != NL)) := by
  induction a with
  | nil => exact .inr ⟨by simp, fun z => rfl⟩
  | cons b a ih =>
    by_cases hb : b = NL
    · subst hb
      exact .inl ⟨List.mem_cons_self .., a, fun z => by simp⟩
    · have hb' : (b != NL) = true := by simpa using hb
      rcases ih with ⟨h1, c, h2⟩ | ⟨h1, h2⟩
      · exact .inl ⟨List.mem_cons_of_mem _ h1, c, fun z => by rw [List.cons_append, List.dropWhile_cons, if_pos hb']; exact h2 z⟩
      · refine .inr ⟨?_, fun z => by rw [List.cons_append, List.dropWhile_cons, if_pos hb']; exact h2 z⟩
        rintro (_ | ⟨_, h⟩)
        · exact hb rfl
        · exact h1 h

/-- Another text in the place of the line break at the end. -/
theorem followed_join {Q : Bytes} (hQ : followed Q = true) : ∀ {T : Bytes}, followed (T ++ [NL]) = true → followed (T ++ Q) = true
  | [], _ => hQ
  | b :: T, h => by
    rw [List.cons_append, followed, Bool.and_eq_true] at h ⊢
    refine ⟨?_, followed_join hQ h.2⟩
    have h1 := h.1
    split
    · next hb =>
      rw [if_pos hb] at h1
      rcases dropWhile_join (a := T) with ⟨-, c, h2⟩ | ⟨-, h2⟩
      · rw [h2] at h1 ⊢
        simp only [blank] at h1 ⊢
        rw [Bool.not_eq_true'] at h1 ⊢
        exact blankGo_join h1
      · rw [h2] at h1
        exact absurd h1 (by decide)
    · rfl

/-- A collection in brackets that is on its own, in another place. -/
theorem Lies.carry {T P Q : Bytes} (hf : followed (T ++ [NL]) = true) (hQ : followed Q = true) {m : Bool} {ind : Nat} {tr : Bool} {w pre : Bytes} {items : Items Unit}
    (h : Lies (T ++ [NL]) .block 0 (.node () pre m ind (.inline tr w) items) T.length) (hg0 : FullGap (T ++ [NL]) 0 0) {a : Nat} (hg : FullGap (P ++ T ++ Q) a P.length) (s : Spot) :
    Lies (P ++ T ++ Q) s a (.node () (slice (P ++ T ++ Q) a P.length) m 0 (.inline tr w) items) (P ++ T).length := by
  have move : ∀ {m : Bool} {n hi : Nat}, FullGap (T ++ [NL]) 1 n → LiesCells (T ++ [NL]) m false (slice (T ++ [NL]) 1 n) n items tr w hi → n ≤ hi → hi < T.length →
      FullGap (P ++ T ++ Q) (P.length + 1) (P.length + n) ∧
      LiesCells (P ++ T ++ Q) m false (slice (P ++ T ++ Q) (P.length + 1) (P.length + n)) (P.length + n) items tr w (P.length + hi) := by
    intro m n hi g1 g2 h1 h2
    have h3 := Inner.full (y' := Q) g1 (by omega)
    have h4 := g2.innerF (y' := Q) hf h2
    rw [← Joint.slice (t' := Q) (by omega)] at h4
    have h5 := LiesCells.moved (u := []) (u' := P) (y := T ++ Q) (followed_join hQ hf) (lo := n) (hi := hi) (by simpa using h4) (by simp) (by simp)
    rw [List.append_assoc]
    rw [sh_slice P (T ++ Q) 1 n]
    exact ⟨sh_full.2 h3, h5⟩
  have hlen : (P ++ T).length = P.length + T.length := List.length_append
  have hget : ∀ {c : UInt8}, (T ++ [NL])[0]? = some c → 0 < T.length → (P ++ T ++ Q)[P.length]? = some c := by
    intro c h1 h2
    rw [List.append_assoc]
    have := sh_get P (T ++ Q) 0
    rw [Nat.add_zero] at this
    rw [this, Joint.get (t := [NL]) (t' := Q) h2]
    exact h1
  generalize he : T.length = e at h
  cases h with
  | brackets h1 h2 h3 h4 h5 =>
    rename_i lo n hi
    obtain rfl := h1.unique hg0
    have := h3.le
    have := h4.le
    obtain ⟨k1, k2⟩ := move h3 h4 (by omega) (by omega)
    rw [hlen, he, ← Nat.add_assoc]
    exact .brackets hg (hget h2 (by omega)) k1 k2 h5
  | braces h1 h2 h3 h4 h5 =>
    rename_i lo n hi
    obtain rfl := h1.unique hg0
    have := h3.le
    have := h4.le
    obtain ⟨k1, k2⟩ := move h3 h4 (by omega) (by omega)
    rw [hlen, he, ← Nat.add_assoc]
    exact .braces hg (hget h2 (by omega)) k1 k2 h5

mutual
/-- Every id is `x`. -/
def Tree.allAs (x : Nat) : Tree Unit → Tree Nat
  | .leaf _ p s => .leaf x p s
  | .node _ p m ind k items => .node x p m ind k (items.allAs x)
def Items.allAs (x : Nat) : Items Unit → Items Nat
  | .nil => .nil
  | .cons _ p key v rest => .cons x p key (v.allAs x) (rest.allAs x)
end

mutual
theorem Tree.allAs_erase (x : Nat) : ∀ t : Tree Unit, (t.allAs x).erase = t
  | .leaf _ _ _ => rfl
  | .node _ _ _ _ _ items => by rw [Tree.allAs, Tree.erase, Items.allAs_erase x items]
theorem Items.allAs_erase (x : Nat) : ∀ t : Items Unit, (t.allAs x).erase = t
  | .nil => rfl
  | .cons _ _ _ v rest => by rw [Items.allAs, Items.erase, Tree.allAs_erase x v, Items.allAs_erase x rest]
end

theorem Tree.allAs_id (x : Nat) (t : Tree Unit) : (t.allAs x).id = x := by cases t <;> rfl

mutual
theorem Tree.upd_content {x : Nat} {u u' : Tree Nat} (h : u.content = u'.content) : ∀ t : Tree Nat, (Tree.upd x u t).content = (Tree.upd x u' t).content
  | .leaf i p s => by simp only [Tree.upd]; split <;> simp [h]
  | .node i p true ind k items => by
    simp only [Tree.upd]
    split
    · exact h
    · rw [Tree.content, Tree.content, (Items.upd_content h items).1]
  | .node i p false ind k items => by
    simp only [Tree.upd]
    split
    · exact h
    · rw [Tree.content, Tree.content, (Items.upd_content h items).2]
theorem Items.upd_content {x : Nat} {u u' : Tree Nat} (h : u.content = u'.content) : ∀ t : Items Nat,
    (Items.upd x u t).entriesC = (Items.upd x u' t).entriesC ∧ (Items.upd x u t).elemsC = (Items.upd x u' t).elemsC
  | .nil => ⟨rfl, rfl⟩
  | .cons i p key v rest => by
    simp only [Items.upd]
    split
    · simp only [Items.entriesC, Items.elemsC, Tree.upd_content h v, and_self]
    · simp only [Items.entriesC, Items.elemsC, (Items.upd_content h rest).1, (Items.upd_content h rest).2, and_self]
end

/-- Another value in the place of a value, which is read as the same content, and how any value can be put there. -/
theorem Laid.readsL {inp : Bytes} {doc : Document} {t : Tree Nat} {e0 : Nat} (h : Laid inp doc t e0) (hf : followed inp = true) (hc : noWsComma inp = true ∨ LBR ∉ inp)
    (hu : validUtf8 inp = true ∨ HASH ∉ inp) (hh : hasHeader inp = false) {x : Nat} (hx : Live doc x) {old : Bytes} (ho : valueText doc.data x = .ok old) (hn : old.headD 0 ≠ 0) :
    ∃ u r s b0 b d E, t.find x = some u ∧ Lies inp s b0 u.erase d ∧ FullGap inp b0 b ∧ FullGap inp 0 r ∧ inp.drop r = skipBlank false inp ∧ b < d ∧ d ≤ inp.length ∧
      isWs (inp.getD b 0) = false ∧ inp.getD b 0 ≠ HASH ∧ inp.getD b 0 ≠ 0 ∧ old = slice inp b d ∧
      (s.inline = true → isCtl (inp.getD b 0) = false) ∧ ReadFrom inp doc x b d ∧ Within inp doc.data.view .block doc.root r s x b ∧
      Outer inp doc.data.view .block doc.root r s x b d E ∧ (∀ (z : Tree Unit) (K : Spot → Tree Unit → Prop), K s z → LPut inp b0 d E s.inline K .block 0 (Tree.upd x (z.allAs x) t).erase e0) ∧
      ∀ doc' u', u'.id = x → u'.pre = u.pre → doc'.suffix = doc.suffix → Holds doc' (Tree.upd x u' t) →
        doc'.write = .ok (inp.take b ++ u'.render ++ inp.drop d) ∧
        ∀ z : Tree Unit, z.content = u'.content → Hole (inp.take b) (slice inp b d) u'.render (inp.drop d) E s.inline →
          Lies (inp.take b ++ u'.render ++ inp.drop d) s b0 z (inp.take b ++ u'.render).length →
          ∃ V e', V.content = (Tree.upd x u' t).content ∧ Lies (inp.take b ++ u'.render ++ inp.drop d) .block 0 V e' ∧
            FullGap (inp.take b ++ u'.render ++ inp.drop d) e' (inp.take b ++ u'.render ++ inp.drop d).length := by
  have A := allows_tidied hf hc hu
  obtain ⟨h, hw⟩ := h
  obtain ⟨u, s, b, d, r, lo, p, q, hu, h1, h3, h4, w1, g1, w2, h5, h6, h7, h8, h9, E, h10, -, h11⟩ := laid_part A h hx
  have ht := h.holds
  obtain ⟨par, ha⟩ := ht.at hu
  obtain ⟨lo1, hi, w3, g2, g3, g4⟩ := h4.sits
  obtain rfl : lo1 = lo := by rw [← w3.eq, g1.eq]
  have hr : inp.drop r = skipBlank false inp := by rw [skipBlank_eq, ← w1.eq, wsEnd]; simp
  obtain rfl : u.render = old := by rw [ha.text] at ho; exact Except.ok.inj ho
  have g2' := g2.ids ha.rep
  rw [ha.id] at g2'
  have hW : doc.write = .ok (p ++ u.pre ++ u.render ++ q) := by rw [h8, Tree.text]; simp
  rcases h4.own A with ⟨lo', k1, k2, k3, k4⟩ | ⟨k1, k2⟩
  case inr =>
    rw [Tree.erase_text, Tree.text, List.append_eq_nil_iff] at k1
    rw [k1.2] at hn
    exact absurd rfl hn
  obtain rfl : lo' = lo1 := by rw [← k1.eq, g1.eq]
  rw [Tree.erase_pre] at k2
  rw [Tree.erase_render] at k4
  have hblo := g1.le
  have k5 : Tidied (slice inp 0 lo') (p ++ u.pre) := by
    rw [k2, ← slice_append h1 hblo.1]
    exact A.append h5 (A.refl _)
  rw [hw] at hW
  have e : (p ++ u.pre) ++ (u.render ++ q) = slice inp 0 lo' ++ (slice inp lo' d ++ inp.drop d) := by
    rw [← List.append_assoc, ← Except.ok.inj hW, ← slice_drop, slice_append k3 h3, slice_append (Nat.zero_le _) hblo.2]
    simp [slice]
  obtain ⟨e0', e1⟩ := k5.cut (k4.append h7) e
  obtain ⟨e2, rfl⟩ := k4.cut h7 e1
  have hbd : lo' < d := by
    rcases Nat.lt_or_ge lo' d with h | h
    · exact h
    · rw [e2, slice_none h] at hn; exact absurd rfl hn
  have htake : inp.take lo' = slice inp 0 lo' := by simp [slice]
  have hhi : hi = d ∨ FullGap inp d hi := by
    rcases g4 with g4 | g4
    · exact .inl g4
    · exact .inr g4.1
  have hsolid : isWs (inp.getD lo' 0) = false ∧ inp.getD lo' 0 ≠ HASH := k1.2
  have hzero : inp.getD lo' 0 ≠ 0 := by rw [← slice_headD hbd, ← e2]; exact hn
  refine ⟨u, r, s, b, lo', d, E, hu, h4, g1, w1, hr, hbd, h3, hsolid.1, hsolid.2, hzero, e2, fun hfl => ?_, ⟨r, s, lo', hi, by rw [body_eq hh]; exact hr, w2, g2', .inl ⟨rfl, k3, hhi⟩⟩, w2, h10, fun z K hz => h11 _ K (Tree.allAs_id x z) (by rw [Tree.allAs_erase]; exact hz), ?_⟩
  · cases s with
    | flow => 
      refine g2'.flowStart ?_
      rcases hhi with h | h
      · omega
      · have := h.le; omega
    | _ => cases hfl
  intro doc' u' hid hpre hsuf hh2
  have hwr : doc'.write = .ok (inp.take lo' ++ u'.render ++ inp.drop d) := by
    have := h9 doc' _ hid hsuf hh2
    rw [this, htake, ← e0']
    simp [Tree.text, hpre]
  refine ⟨hwr, fun z hz H hlies => ?_⟩
  generalize hnw : u'.render = new at *
  have hcut := cut3 (inp := inp) (Nat.le_of_lt hbd)
  have hlb : (inp.take lo').length = lo' := by rw [List.length_take]; omega
  have hld : (inp.take lo' ++ slice inp lo' d).length = d := by rw [List.length_append, slice_length h3, hlb]; omega
  have hput := h11 (z.allAs x) (fun s1 y => s1 = s ∧ y = z) (Tree.allAs_id x z) ⟨rfl, Tree.allAs_erase x z⟩
  have hle := hput.le
  have hgap := h.gap
  have hel := hgap.le
  obtain ⟨j, rfl⟩ : ∃ j, e0 = d + j := ⟨e0 - d, by omega⟩
  have hl := LPut.lies (p := inp.take lo') (t := slice inp lo' d) (t' := new) (q := inp.drop d) (B := b) (hi' := d + j) (hi := j) H (by rw [hcut]; exact hf)
    (by rw [hcut, hlb]; exact g1) (K := fun s1 y => s1 = s ∧ y = z) (fun s1 y _ (hy : s1 = s ∧ y = z) => by rw [hy.1, hy.2]; exact hlies)
    (by rw [hcut, hld]; exact hput) (by rw [hld])
  have hlen : (inp.take lo' ++ new ++ inp.drop d).length = (inp.take lo' ++ new).length + (inp.length - d) := by rw [List.length_append (bs := inp.drop d), List.length_drop]
  refine ⟨_, _, ?_, hl, ?_⟩
  · rw [Tree.content_erase]
    exact Tree.upd_content (by rw [← hz, ← Tree.content_erase, Tree.allAs_erase]) t
  · rw [hlen]
    exact mv_full (u := inp.take lo' ++ slice inp lo' d) (u' := inp.take lo' ++ new) (y := inp.drop d) (a := j) (b := inp.length - d)
      (by rw [hcut, hld, show d + (inp.length - d) = inp.length by omega]; exact hgap)

/-- Another value in the place of a value, which is read as the same content. -/
theorem Laid.reads {inp : Bytes} {doc : Document} {t : Tree Nat} {e0 : Nat} (h : Laid inp doc t e0) (hf : followed inp = true) (hc : noWsComma inp = true ∨ LBR ∉ inp)
    (hu : validUtf8 inp = true ∨ HASH ∉ inp) (hh : hasHeader inp = false) {x : Nat} (hx : Live doc x) {old : Bytes} (ho : valueText doc.data x = .ok old) (hn : old.headD 0 ≠ 0) :
    ∃ u r s b0 b d E, t.find x = some u ∧ Lies inp s b0 u.erase d ∧ FullGap inp b0 b ∧ FullGap inp 0 r ∧ inp.drop r = skipBlank false inp ∧ b < d ∧ d ≤ inp.length ∧
      isWs (inp.getD b 0) = false ∧ inp.getD b 0 ≠ HASH ∧ inp.getD b 0 ≠ 0 ∧ old = slice inp b d ∧
      (s.inline = true → isCtl (inp.getD b 0) = false) ∧ ReadFrom inp doc x b d ∧ Within inp doc.data.view .block doc.root r s x b ∧
      Outer inp doc.data.view .block doc.root r s x b d E ∧
      ∀ doc' u', u'.id = x → u'.pre = u.pre → doc'.suffix = doc.suffix → Holds doc' (Tree.upd x u' t) →
        doc'.write = .ok (inp.take b ++ u'.render ++ inp.drop d) ∧
        ∀ z : Tree Unit, z.content = u'.content → Hole (inp.take b) (slice inp b d) u'.render (inp.drop d) E s.inline →
          Lies (inp.take b ++ u'.render ++ inp.drop d) s b0 z (inp.take b ++ u'.render).length →
          ∃ V e', V.content = (Tree.upd x u' t).content ∧ Lies (inp.take b ++ u'.render ++ inp.drop d) .block 0 V e' ∧
            FullGap (inp.take b ++ u'.render ++ inp.drop d) e' (inp.take b ++ u'.render ++ inp.drop d).length := by
  obtain ⟨u, r, s, b0, b, d, E, k1, k2, k3, k4, k5, k6, k7, k8, k9, k10, k11, k12, k13, k14, k15, -, k16⟩ := h.readsL hf hc hu hh hx ho hn
  exact ⟨u, r, s, b0, b, d, E, k1, k2, k3, k4, k5, k6, k7, k8, k9, k10, k11, k12, k13, k14, k15, k16⟩

/-! ### Edits of a value and of what is in it -/

theorem Tree.upd_pre {x : Nat} {u' t : Tree Nat} (h : t.id ≠ x) : (Tree.upd x u' t).pre = t.pre := by
  cases t with
  | leaf i p s => rw [Tree.upd, if_neg (show ¬ i = x from h)]
  | node i p m ind k items => rw [Tree.upd, if_neg (show ¬ i = x from h)]; rfl

theorem Op.tree_pre {i v : Nat} {mk : Nat × Bytes} {op : Op} {u : Tree Nat} (hn : u.allIds.Nodup) (h1 : op ≠ .makeMapping) (h2 : op ≠ .makeSequence) : (op.tree i v mk u).pre = u.pre := by
  simp only [Op.tree]
  split
  · rfl
  · split <;> try rfl
    · split
      · rfl
      · next w hw =>
        refine Tree.upd_pre ?_
        intro he
        obtain ⟨n, key', hp, -⟩ := Items.lookup_mem hw
        have := Items.pair_ids hp (Tree.find_mem w.find_self)
        rw [Tree.node_ids, List.nodup_cons] at hn
        exact hn.1 (by rw [← show _ = w.id from he] at this; exact this)
    · split <;> rfl
    all_goals first | exact absurd rfl h1 | exact absurd rfl h2

/-- Edits of `x` and of values in it; `x` itself is not made a new collection. -/
inductive Inside (x : Nat) : Document → Document → Prop
  | done {doc : Document} : Inside x doc doc
  | edit {doc mid doc' : Document} {y : Nat} {op : Op} : Below doc.data x y → (y = x → op ≠ .makeMapping ∧ op ≠ .makeSequence) → doc.edit y op = .ok mid → Inside x mid doc' → Inside x doc doc'

theorem Inside.tree {x : Nat} {doc doc' : Document} (h : Inside x doc doc') : ∀ {t u : Tree Nat}, Holds doc t → t.find x = some u →
    ∃ w, w.id = x ∧ w.pre = u.pre ∧ doc'.suffix = doc.suffix ∧ Holds doc' (Tree.upd x w t) := by
  induction h with
  | done =>
    intro t u ht hu
    exact ⟨u, Tree.find_id hu, rfl, rfl, by obtain ⟨_, _, _, _, _, e, -⟩ := Tree.focus none hu; rw [e]; exact ht⟩
  | @edit doc mid doc' y op hb hn he _ ih =>
    intro t u ht hu
    obtain ⟨z, hz⟩ := (ht.below_iff hu y).1 hb
    obtain ⟨p, ha⟩ := ht.at hu
    have hty := Tree.find_trans ht.nodup hu hz
    obtain ⟨q, hq⟩ := ht.at hty
    obtain ⟨i, v, mk, -, -, h1, h2, h3⟩ := ht.editDoc hty he
    have hid : (op.tree i v mk z).id = y := Op.tree_id.trans (Tree.find_id hz)
    rw [Tree.upd_upd ht.nodup hu hz] at h3
    have hwid : (Tree.upd y (op.tree i v mk z) u).id = x := (Tree.upd_id hid).trans (Tree.find_id hu)
    obtain ⟨w, k1, k2, k3, k4⟩ := ih h3 (Tree.find_upd hu hwid)
    rw [Tree.upd_same hwid hu] at k4
    refine ⟨w, k1, k2.trans ?_, k3.trans h1, k4⟩
    by_cases hy : y = x
    · subst hy
      have : z = u := by
        have := u.find_self
        rw [Tree.find_id hu, hz] at this
        exact Option.some.inj this
      subst this
      rw [Tree.upd_self (Tree.find_id hz)]
      exact Op.tree_pre ha.nodup (hn rfl).1 (hn rfl).2
    · exact Tree.upd_pre (by rw [Tree.find_id hu]; exact fun h => hy h.symm)

end Verif
