import Verif.LiesPlace
import Verif.Props.Sets
/-
The values of a document that was read, and the parts of the text they come from.
-/
namespace Verif

mutual
theorem Tree.find_part {x : Nat} {u : Tree Nat} : ∀ {t : Tree Nat}, t.find x = some u →
    ∃ A B F, Part t A u B F ∧ ∀ u' : Tree Nat, u'.id = x → F u' = Tree.upd x u' t ∧ (Tree.upd x u' t).text = A ++ u'.text ++ B
  | .leaf i pr s, h => by
    simp only [Tree.find] at h
    split at h
    · next hi => cases h; exact ⟨[], [], _, .here, fun u' hu => by simp [Tree.upd, hi]⟩
    · cases h
  | .node i pr m ind k items, h => by
    simp only [Tree.find] at h
    split at h
    · next hi => cases h; exact ⟨[], [], _, .here, fun u' hu => by simp [Tree.upd, hi]⟩
    · next hi =>
      obtain ⟨A, B, G, h1, h2⟩ := Items.find_part m k h
      refine ⟨_, _, _, .inside h1, fun u' hu => ⟨by rw [Tree.upd, if_neg hi, (h2 u' hu).1], ?_⟩⟩
      have := (h2 u' hu).2.2
      simp [Tree.upd, hi, Tree.text, Tree.render, Tree.pre] at this ⊢
      rw [this]; simp
theorem Items.find_part {x : Nat} {u : Tree Nat} : ∀ {is : Items Nat} (m : Bool) (k : CollKind), is.find x = some u →
    ∃ A B G, PartItems m k is A u B G ∧
      ∀ u' : Tree Nat, u'.id = x → G u' = Items.upd x u' is ∧ (Items.upd x u' is).isNil = is.isNil ∧ (Items.upd x u' is).render m k = A ++ u'.text ++ B
  | .nil, _, _, h => by simp [Items.find] at h
  | .cons i pr key v rest, m, k, h => by
    simp only [Items.find, Option.or_eq_some_iff] at h
    rcases h with h | ⟨hn, h⟩
    · obtain ⟨A, B, F, h1, h2⟩ := Tree.find_part h
      refine ⟨_, _, _, .head h1, fun u' hu => ?_⟩
      have := h2 u' hu
      simp only [Items.upd, h, Option.isSome_some, if_true]
      exact ⟨by rw [this.1], rfl, by rw [render_cons, this.2]; simp⟩
    · obtain ⟨A, B, G, h1, h2⟩ := Items.find_part m k h
      refine ⟨_, _, _, .tail h1, fun u' hu => ?_⟩
      have := h2 u' hu
      simp only [Items.upd, hn, Option.isSome_none, Bool.false_eq_true, if_false]
      exact ⟨by rw [this.1], rfl, by rw [render_cons, this.2.1, this.2.2]; simp⟩
end

/-- What the parser built, together with the text. -/
theorem pparsed_lies {f : Nat} {inp : Bytes} {t : Tree Unit} {suffix : Bytes} (hp : pparseF f inp = .ok (t, suffix)) : ∃ (k e : Nat), k ≤ inp.length ∧ inp.drop k = body inp ∧
    Lies inp .block k t e ∧ FullGap inp e inp.length ∧ suffix = slice inp e inp.length := by
  unfold pparseF startOfDocument at hp
  cases hs : startLoop inp f (wsEnd inp 0) (wsStr inp 0) with
  | error e => simp only [hs, bind, Except.bind] at hp; cases hp
  | ok r =>
    obtain ⟨pre, n⟩ := r
    obtain ⟨k, k1, k2, rfl, rfl, k5⟩ := startLoop_body f 0 (Nat.zero_le _) (cut_zero _) hs (inp.length + 1) (by simp)
    simp only [hs, bind, Except.bind] at hp
    cases hv : pvalue inp f ⟨wsStr inp k, false, true, none⟩ (wsEnd inp k) with
    | error e => rw [hv] at hp; cases hp
    | ok r =>
      obtain ⟨t', ws, m⟩ := r
      rw [hv] at hp
      simp only at hp
      split at hp
      · next he =>
        cases hp
        obtain ⟨e, h2, h3⟩ := lies_rules.value f _ _ _ _ _ hv k k1 rfl rfl rfl
        refine ⟨k, e, k1, ?_, h2, ?_, ?_⟩
        · rw [body]
          rw [List.drop_zero] at k5
          rw [k5]
        · have := h3.2.2.1
          rw [he] at this
          exact this
        · rw [h3.2.2.2.1, he]
      · cases hp

/-- A document that was read, as a tree together with the text. -/
theorem parsed_lies {inp : Bytes} {doc : Document} (h : Parsed inp doc) : ∃ (t : Tree Unit) (k e : Nat), k ≤ inp.length ∧ inp.drop k = body inp ∧ Lies inp .block k t e ∧
    FullGap inp e inp.length ∧ doc = docOf t (slice inp e inp.length) := by
  obtain ⟨f, h⟩ := h
  rw [parseF_refine] at h
  cases hp : pparseF f inp with
  | error e => rw [hp] at h; cases h
  | ok r =>
    obtain ⟨t, suffix⟩ := r
    rw [hp] at h
    cases h
    obtain ⟨k, e, h1, h2, h3, h4, rfl⟩ := pparsed_lies hp
    exact ⟨t, k, e, h1, h2, h3, h4, rfl⟩

/-- The values of the document are where the tree `t` says in the text from `k`, which ends with the tree at `e` and white space and comments. -/
structure LaidOut (inp : Bytes) (k : Nat) (doc : Document) (t : Tree Nat) (e : Nat) : Prop where
  holds : Holds doc t
  lies : Lies inp .block k t.erase e
  gap : FullGap inp e inp.length
  suffix : doc.suffix = slice inp e inp.length

theorem parsed_laid {inp : Bytes} {doc : Document} (h : Parsed inp doc) : ∃ t k e, k ≤ inp.length ∧ inp.drop k = body inp ∧ LaidOut inp k doc t e := by
  obtain ⟨t, k, e, h1, h2, h3, h4, rfl⟩ := parsed_lies h
  rw [← erase_label 0 t] at h3
  exact ⟨_, k, e, h1, h2, docOf_holds t (slice inp e inp.length), h3, h4, rfl⟩

/-- Any relation that contains everything the parser may do to the text: what is written before, for and after a value. -/
theorem laid_part {inp : Bytes} {R : Bytes → Bytes → Prop} (A : Allows inp R) {k : Nat} {doc : Document} {t : Tree Nat} {e : Nat} (h : LaidOut inp k doc t e) {x : Nat} (hx : Live doc x) :
    ∃ (u : Tree Nat) (s : Spot) (b d r lo : Nat) (p q : Bytes), t.find x = some u ∧ k ≤ b ∧ d ≤ inp.length ∧ Lies inp s b u.erase d ∧
      FullGap inp k r ∧ FullGap inp b lo ∧ Within inp doc.data.view .block doc.root r s x lo ∧
      R (slice inp k b) p ∧ R (slice inp b d) u.text ∧ R (inp.drop d) q ∧ doc.write = .ok (p ++ u.text ++ q) ∧
      (∀ doc' u', u'.id = x → doc'.suffix = doc.suffix → Holds doc' (Tree.upd x u' t) → doc'.write = .ok (p ++ u'.text ++ q)) ∧
      ∃ E, Outer inp doc.data.view .block doc.root r s x lo d E ∧ (∀ u' (K : Spot → Tree Unit → Prop), u'.id = x → K s u'.erase → lo < d →
        ∃ hi, Put inp treeView lo d E s.inline K .block (Tree.upd x u' t).erase r hi ∧ FullGap inp hi inp.length) ∧
        ∀ u' (K : Spot → Tree Unit → Prop), u'.id = x → K s u'.erase → LPut inp b d E s.inline K .block k (Tree.upd x u' t).erase e := by
  obtain ⟨hd, h3, h4, hs0⟩ := h
  obtain ⟨u, hu⟩ := (hd.live_iff x).1 hx
  obtain ⟨p, q, F, g1, g2⟩ := Tree.find_part hu
  obtain ⟨s, b, d, r, lo, k1, k2, k3, k4, k5, k6, k7, k8, -, E, k9, k10⟩ := h3.part A hd.rep g1
  obtain ⟨f1, f2, f3⟩ := k3.keeps A
  rw [Tree.find_id hu, ← hd.root] at k8 k9
  refine ⟨u, s, b, d, r, lo, p, q ++ slice inp e inp.length, hu, k1, f2, k3, k6, k7, k8, k4, ?_, ?_, ?_, ?_, E, k9 (by simp), ?_, ?_⟩
  · rw [← Tree.erase_text]; exact f3
  · have : inp.drop d = slice inp d e ++ slice inp e inp.length := by
      rw [slice_append k2 h4.le.1, slice, List.take_of_length_le (by simp)]
    rw [this]
    exact A.append k5 (A.refl _)
  · have := (g2 u (Tree.find_id hu)).2
    obtain ⟨_, _, _, _, _, h0, -⟩ := Tree.focus none hu
    rw [h0] at this
    rw [hd.write, this, hs0]
    simp
  · intro doc' u' hid hs h'
    rw [h'.write, (g2 u' hid).2, hs, hs0]
    simp
  · intro u' K hid hw hlt
    obtain ⟨hi, j1, j2⟩ := (k10 E (fun _ => rfl)).1 u' K hw hlt
    rw [(g2 u' hid).1] at j1
    refine ⟨hi, j1, ?_⟩
    rcases j2 with rfl | j2
    · exact h4
    · exact j2.1.twice h4
  · intro u' K hid hw
    have := (k10 E (fun _ => rfl)).2 u' K hw
    rwa [(g2 u' hid).1] at this

theorem parsed_part {inp : Bytes} {R : Bytes → Bytes → Prop} (A : Allows inp R) {doc : Document} (h : Parsed inp doc) {x : Nat} (hx : Live doc x) :
    ∃ (t u : Tree Nat) (s : Spot) (k b d r lo : Nat) (p q : Bytes), Holds doc t ∧ t.find x = some u ∧ k ≤ b ∧ inp.drop k = body inp ∧ d ≤ inp.length ∧ Lies inp s b u.erase d ∧
      FullGap inp k r ∧ FullGap inp b lo ∧ Within inp doc.data.view .block doc.root r s x lo ∧
      R (slice inp k b) p ∧ R (slice inp b d) u.text ∧ R (inp.drop d) q ∧ doc.write = .ok (p ++ u.text ++ q) ∧
      (∀ doc' u', u'.id = x → doc'.suffix = doc.suffix → Holds doc' (Tree.upd x u' t) → doc'.write = .ok (p ++ u'.text ++ q)) ∧
      ∃ E, Outer inp doc.data.view .block doc.root r s x lo d E ∧ ∀ u' (K : Spot → Tree Unit → Prop), u'.id = x → K s u'.erase → lo < d →
        ∃ hi, Put inp treeView lo d E s.inline K .block (Tree.upd x u' t).erase r hi ∧ FullGap inp hi inp.length := by
  obtain ⟨t, k, e, -, h2, h3⟩ := parsed_laid h
  obtain ⟨u, s, b, d, r, lo, p, q, k1, k2, k3, k4, k5, k6, k7, k8, k9, k10, k11, k12, E, k13, k14, -⟩ := laid_part A h3 hx
  exact ⟨t, u, s, k, b, d, r, lo, p, q, h3.holds, k1, k2, h2, k3, k4, k5, k6, k7, k8, k9, k10, k11, k12, E, k13, k14⟩

end Verif
