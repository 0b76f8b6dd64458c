import Verif.Props.Sets
/-
C41 and C42: repeated and independent `set_*` calls.
-/
namespace Verif

mutual
theorem Tree.upd_same {x : Nat} {u w w' : Tree Nat} (hid : w.id = x) : ∀ {t : Tree Nat}, t.find x = some u →
    Tree.upd x w' (Tree.upd x w t) = Tree.upd x w' t
  | .leaf i p s, h => by
    simp only [Tree.find] at h
    split at h
    · next hi =>
      simp only [Tree.upd, if_pos hi]
      cases w <;> simp only [Tree.id_leaf, Tree.id_node] at hid <;> simp [Tree.upd, hid]
    · cases h
  | .node i p m ind k items, h => by
    simp only [Tree.find] at h
    split at h
    · next hi =>
      simp only [Tree.upd, if_pos hi]
      cases w <;> simp only [Tree.id_leaf, Tree.id_node] at hid <;> simp [Tree.upd, hid]
    · next hi => simp only [Tree.upd, if_neg hi, Items.upd_same hid h]
theorem Items.upd_same {x : Nat} {u w w' : Tree Nat} (hid : w.id = x) : ∀ {is : Items Nat}, is.find x = some u →
    Items.upd x w' (Items.upd x w is) = Items.upd x w' is
  | .nil, h => by simp [Items.find] at h
  | .cons i p key v rest, h => by
    simp only [Items.find, Option.or_eq_some_iff] at h
    rcases h with h | ⟨h0, h⟩
    · simp [Items.upd, h, Tree.find_upd h hid, Tree.upd_same hid h]
    · simp [Items.upd, h0, Items.upd_same hid h]
end

mutual
theorem Tree.find_upd_none {x y : Nat} {u' : Tree Nat} (hu : u'.find y = none) : ∀ {t : Tree Nat}, t.find y = none →
    (Tree.upd x u' t).find y = none
  | .leaf i p s, h => by
    simp only [Tree.upd]; split
    · exact hu
    · exact h
  | .node i p m ind k items, h => by
    simp only [Tree.find] at h
    split at h
    · cases h
    · next hi =>
      simp only [Tree.upd]; split
      · exact hu
      · rw [Tree.find, if_neg hi, Items.find_upd_none hu h]
theorem Items.find_upd_none {x y : Nat} {u' : Tree Nat} (hu : u'.find y = none) : ∀ {is : Items Nat}, is.find y = none →
    (Items.upd x u' is).find y = none
  | .nil, _ => rfl
  | .cons i p key v rest, h => by
    simp only [Items.find, Option.or_eq_none_iff] at h
    simp only [Items.upd]
    split
    · simp [Items.find, Tree.find_upd_none hu h.1, h.2]
    · simp [Items.find, h.1, Items.find_upd_none hu h.2]
end

mutual
theorem Tree.find_upd_other {x y : Nat} {u w u' : Tree Nat} (h1 : u.find y = none) (h2 : w.find x = none)
    (hu : u'.find y = none) : ∀ {t : Tree Nat}, t.find x = some u → t.find y = some w →
    (Tree.upd x u' t).find y = some w
  | .leaf i p s, hx, hy => by
    have e := hx
    simp only [Tree.find] at hx
    split at hx
    · cases hx; rw [hy] at h1; cases h1
    · cases hx
  | .node i p m ind k items, hx, hy => by
    have ex := hx; have ey := hy
    simp only [Tree.find] at hx hy
    split at hx
    · cases hx; rw [ey] at h1; cases h1
    · next hi =>
      split at hy
      · cases hy; rw [ex] at h2; cases h2
      · next hj =>
        rw [Tree.upd, if_neg hi, Tree.find, if_neg hj]
        exact Items.find_upd_other h1 h2 hu hx hy
theorem Items.find_upd_other {x y : Nat} {u w u' : Tree Nat} (h1 : u.find y = none) (h2 : w.find x = none)
    (hu : u'.find y = none) : ∀ {is : Items Nat}, is.find x = some u → is.find y = some w →
    (Items.upd x u' is).find y = some w
  | .nil, hx, _ => by simp [Items.find] at hx
  | .cons i p key v rest, hx, hy => by
    simp only [Items.find, Option.or_eq_some_iff] at hx hy
    rcases hx with hx | ⟨nx, hx⟩ <;> rcases hy with hy | ⟨ny, hy⟩
    · simp [Items.upd, hx, Items.find, Tree.find_upd_other h1 h2 hu hx hy]
    · simp [Items.upd, hx, Items.find, Tree.find_upd_none hu ny, hy]
    · simp [Items.upd, nx, Items.find, hy]
    · simp [Items.upd, nx, Items.find, ny, Items.find_upd_other h1 h2 hu hx hy]
end

mutual
theorem Tree.upd_comm {x y : Nat} {u w u' w' : Tree Nat} (h1 : u.find y = none) (h2 : w.find x = none)
    (hu : u'.find y = none) (hw : w'.find x = none) : ∀ {t : Tree Nat}, t.find x = some u → t.find y = some w →
    Tree.upd y w' (Tree.upd x u' t) = Tree.upd x u' (Tree.upd y w' t)
  | .leaf i p s, hx, hy => by
    simp only [Tree.find] at hx
    split at hx
    · cases hx; rw [hy] at h1; cases h1
    · cases hx
  | .node i p m ind k items, hx, hy => by
    have ex := hx; have ey := hy
    simp only [Tree.find] at hx hy
    split at hx
    · cases hx; rw [ey] at h1; cases h1
    · next hi =>
      split at hy
      · cases hy; rw [ex] at h2; cases h2
      · next hj =>
        simp only [Tree.upd, if_neg hi, if_neg hj]
        rw [Items.upd_comm h1 h2 hu hw hx hy]
theorem Items.upd_comm {x y : Nat} {u w u' w' : Tree Nat} (h1 : u.find y = none) (h2 : w.find x = none)
    (hu : u'.find y = none) (hw : w'.find x = none) : ∀ {is : Items Nat}, is.find x = some u → is.find y = some w →
    Items.upd y w' (Items.upd x u' is) = Items.upd x u' (Items.upd y w' is)
  | .nil, hx, _ => by simp [Items.find] at hx
  | .cons i p key v rest, hx, hy => by
    simp only [Items.find, Option.or_eq_some_iff] at hx hy
    rcases hx with hx | ⟨nx, hx⟩ <;> rcases hy with hy | ⟨ny, hy⟩
    · simp [Items.upd, hx, hy, Tree.find_upd_other h1 h2 hu hx hy, Tree.find_upd_other h2 h1 hw hy hx,
        Tree.upd_comm h1 h2 hu hw hx hy]
    · simp [Items.upd, hx, ny, Tree.find_upd_none hu ny]
    · simp [Items.upd, hy, nx, Tree.find_upd_none hw nx]
    · simp [Items.upd, nx, ny, Items.upd_comm h1 h2 hu hw hx hy]
end

/-! ### C41 -/

/-- C41: the second of two `set_*` calls decides, unless it is `set_block` on a collection. -/
theorem C41_last_wins_partial {doc doc₁ doc₂ doc' : Document} (h : Reachable doc) {x : Nat} (hx : Live doc x) {op op' : Op}
    (hs : op.isSet = true) (hs' : op'.isSet = true)
    (hb : (∀ lines b, op' ≠ .setBlock lines b) ∨ (asMapping doc.data x = .ok none ∧ asSequence doc.data x = .ok none))
    (h1 : doc.edit x op = .ok doc₁) (h2 : doc₁.edit x op' = .ok doc₂) (h' : doc.edit x op' = .ok doc') :
    SameDoc doc₂ doc' := by
  obtain ⟨t, ht⟩ := h.holds
  obtain ⟨u, hu⟩ := (ht.live_iff x).1 hx
  obtain ⟨p, ha⟩ := ht.at hu
  obtain ⟨s1, _, q1, _, k1⟩ := ht.editSet hu hs h1
  obtain ⟨s2, e2, q2, _, k2⟩ := k1.editSet (Tree.find_upd hu rfl) hs' h2
  obtain ⟨s3, e3, q3, _, k3⟩ := ht.editSet hu hs' h'
  rw [Tree.upd_same (x := x) (w := .leaf x u.pre s1) rfl hu] at k2
  have : s2 = s3 := by
    have : op'.scalar (.leaf x u.pre s1) = op'.scalar u := by
      cases op' <;> simp only [Op.scalar]
      rename_i lines b
      rcases hb with hb | ⟨hm, hq⟩
      · exact absurd rfl (hb lines b)
      · cases u with
        | leaf i q s => rfl
        | node i q m ind k items =>
          cases m <;> simp [asMapping, asSequence, raw_of ha.get, Tree.raw, collRaw, bind, Except.bind, pure, Except.pure] at hm hq
    rw [this, e3] at e2
    exact (Option.some.inj e2).symm
  subst this
  exact k2.same k3 (by rw [q2, q1, q3])

example {doc₁ doc₂ doc'} (h1 : sample.edit 4 (.setBlock [b! "x"] (.literal .clip)) = .ok doc₁)
    (h2 : doc₁.edit 4 (.setBool true) = .ok doc₂) (h' : sample.edit 4 (.setBool true) = .ok doc') : SameDoc doc₂ doc' :=
  C41_last_wins_partial sample_reachable sample_live_list rfl rfl (.inl (by simp)) h1 h2 h'

/-- The exception: `set_block` takes its indentation from what is there before, so that on a
collection an earlier `set_*` shows in the output. -/
theorem C41_last_wins_false : ¬ ∀ doc x op op' doc₁ doc₂ doc', Reachable doc → Live doc x → op.isSet = true →
    op'.isSet = true → doc.edit x op = .ok doc₁ → doc₁.edit x op' = .ok doc₂ → doc.edit x op' = .ok doc' →
    SameDoc doc₂ doc' := by
  intro h
  have := h sample 14 (.setBool true) (.setBlock [b! "l"] (.literal .clip)) (sample.after 14 (.setBool true))
    ((sample.after 14 (.setBool true)).after 14 (.setBlock [b! "l"] (.literal .clip)))
    (sample.after 14 (.setBlock [b! "l"] (.literal .clip)))
    sample_reachable sample_live_b rfl rfl (by decide) (by decide) (by decide)
  have := this.write
  revert this
  decide

/-! ### C42 -/

/-- Run `set_*` calls addressed by id, one after the other. -/
def Document.edits (doc : Document) : List (Nat × Op) → Except Stop Document
  | [] => .ok doc
  | (x, op) :: rest => match doc.edit x op with
    | .ok doc' => doc'.edits rest
    | .error e => .error e

/-- One `set_*` on the tree. -/
def Tree.step (t : Tree Nat) (e : Nat × Op) : Tree Nat :=
  match t.find e.1 with
  | some u => match e.2.scalar u with
    | some s => Tree.upd e.1 (.leaf e.1 u.pre s) t
    | none => t
  | none => t

/-- Both are there and neither contains the other. -/
def Tree.Apart (t : Tree Nat) (x y : Nat) : Prop :=
  ∃ u w, t.find x = some u ∧ t.find y = some w ∧ u.find y = none ∧ w.find x = none

theorem Tree.Apart.ne {t : Tree Nat} {x y : Nat} (h : t.Apart x y) : x ≠ y := by
  obtain ⟨u, w, hx, hy, h1, _⟩ := h
  rintro rfl
  have := u.find_self
  rw [Tree.find_id hx] at this
  rw [this] at h1; cases h1

theorem Tree.Apart.symm {t : Tree Nat} {x y : Nat} : t.Apart x y → t.Apart y x :=
  fun ⟨u, w, hx, hy, h1, h2⟩ => ⟨w, u, hy, hx, h2, h1⟩

theorem Tree.leaf_find {x y : Nat} {p : Bytes} {s : Scalar} (h : x ≠ y) : (Tree.leaf x p s).find y = none := by
  simp [Tree.find, h]

theorem Tree.step_find {t : Tree Nat} {e : Nat × Op} {y : Nat} (h : t.Apart e.1 y) : (t.step e).find y = t.find y := by
  have hne := h.ne
  obtain ⟨u, w, hx, hy, h1, h2⟩ := h
  simp only [Tree.step, hx]
  split
  · rw [Tree.find_upd_other h1 h2 (Tree.leaf_find hne) hx hy, hy]
  · rfl

theorem Tree.step_comm {t : Tree Nat} {e e' : Nat × Op} (h : t.Apart e.1 e'.1) :
    (t.step e).step e' = (t.step e').step e := by
  have f1 := Tree.step_find h
  have f2 := Tree.step_find h.symm
  have hne := h.ne
  obtain ⟨u, w, hx, hy, h1, h2⟩ := h
  rw [Tree.step, f1, hy, Tree.step.eq_1 (t.step e'), f2, hx]
  simp only [Tree.step, hx, hy]
  cases hs : e.2.scalar u <;> cases hs' : e'.2.scalar w <;> simp only
  exact Tree.upd_comm h1 h2 (Tree.leaf_find hne) (Tree.leaf_find hne.symm) hx hy

theorem Tree.step_apart {t : Tree Nat} {e : Nat × Op} {y z : Nat} (hy : t.Apart e.1 y) (hz : t.Apart e.1 z)
    (h : t.Apart y z) : (t.step e).Apart y z := by
  obtain ⟨u, w, h1, h2, h3, h4⟩ := h
  exact ⟨u, w, by rw [Tree.step_find hy, h1], by rw [Tree.step_find hz, h2], h3, h4⟩

theorem Tree.step_perm {l l' : List (Nat × Op)} (hp : l.Perm l') : ∀ t : Tree Nat,
    l.Pairwise (fun a b => t.Apart a.1 b.1) → l.foldl Tree.step t = l'.foldl Tree.step t := by
  induction hp with
  | nil => intros; rfl
  | cons a _ ih =>
    intro t h
    rw [List.pairwise_cons] at h
    simp only [List.foldl_cons]
    refine ih _ (List.Pairwise.imp_of_mem (fun hb hc hbc => Tree.step_apart (h.1 _ hb) (h.1 _ hc) hbc) h.2)
  | swap a b l =>
    intro t h
    simp only [List.pairwise_cons] at h
    simp only [List.foldl_cons]
    rw [Tree.step_comm (h.1 a (by simp))]
  | trans hp' _ ih ih' =>
    intro t h
    rw [ih t h, ih' t (h.perm hp' (fun h => h.symm))]

theorem Holds.edits : ∀ {l : List (Nat × Op)} {doc : Document} {t : Tree Nat}, Holds doc t →
    (∀ e ∈ l, ∃ u, t.find e.1 = some u) → (∀ e ∈ l, e.2.isSet = true) → l.Pairwise (fun a b => t.Apart a.1 b.1) →
    ∃ doc', doc.edits l = .ok doc' ∧ doc'.suffix = doc.suffix ∧ Holds doc' (l.foldl Tree.step t)
  | [], doc, t, h, _, _, _ => ⟨doc, rfl, rfl, h⟩
  | (x, op) :: rest, doc, t, h, hl, hs, hp => by
    obtain ⟨u, hu⟩ := hl (x, op) (by simp)
    rw [List.pairwise_cons] at hp
    obtain ⟨d', _, _, _, h1, _⟩ := h.editTree hu op
    have he : doc.edit x op = .ok ⟨doc.suffix, doc.root, d'⟩ := by
      simp [Document.edit, h1, bind, Except.bind, pure, Except.pure]
    obtain ⟨s, h2, h3, _, h4⟩ := h.editSet hu (hs (x, op) (by simp)) he
    have hst : t.step (x, op) = Tree.upd x (.leaf x u.pre s) t := by simp only [Tree.step, hu, h2]
    rw [← hst] at h4
    obtain ⟨doc', h5, h6, h7⟩ := Holds.edits (l := rest) h4
      (fun e he => by rw [Tree.step_find (hp.1 e he)]; exact hl e (by simp [he]))
      (fun e he => hs e (by simp [he]))
      (List.Pairwise.imp_of_mem (fun hb hc hbc => Tree.step_apart (hp.1 _ hb) (hp.1 _ hc) hbc) hp.2)
    exact ⟨doc', by rw [Document.edits, he]; exact h5, by rw [h6, h3], h7⟩

/-- C42: `set_*` calls on values of which none contains another give the same document in every
order. -/
theorem C42_sets_commute {doc : Document} (h : Reachable doc) {l l' : List (Nat × Op)} (hl : ∀ e ∈ l, Live doc e.1)
    (hs : ∀ e ∈ l, e.2.isSet = true)
    (ha : l.Pairwise fun a b => ¬ Below doc.data a.1 b.1 ∧ ¬ Below doc.data b.1 a.1) (hp : l.Perm l') :
    ∃ doc₁ doc₂, doc.edits l = .ok doc₁ ∧ doc.edits l' = .ok doc₂ ∧ SameDoc doc₁ doc₂ := by
  obtain ⟨t, ht⟩ := h.holds
  have hl' : ∀ e ∈ l, ∃ u, t.find e.1 = some u := fun e he => (ht.live_iff _).1 (hl e he)
  have ha' : l.Pairwise (fun a b => t.Apart a.1 b.1) := by
    refine List.Pairwise.imp_of_mem (fun {a b} hb hc hbc => ?_) ha
    obtain ⟨u, hu⟩ := hl' a hb
    obtain ⟨w, hw⟩ := hl' b hc
    rw [ht.below_iff hu, ht.below_iff hw] at hbc
    refine ⟨u, w, hu, hw, ?_, ?_⟩
    · cases hq : u.find b.1 with
      | none => rfl
      | some z => exact absurd ⟨z, hq⟩ hbc.1
    · cases hq : w.find a.1 with
      | none => rfl
      | some z => exact absurd ⟨z, hq⟩ hbc.2
  obtain ⟨d1, e1, q1, k1⟩ := ht.edits hl' hs ha'
  obtain ⟨d2, e2, q2, k2⟩ := ht.edits (l := l') (fun e he => hl' e (hp.mem_iff.2 he)) (fun e he => hs e (hp.mem_iff.2 he))
    (ha'.perm hp (fun h => h.symm))
  rw [Tree.step_perm hp t ha'] at k1
  exact ⟨d1, d2, e1, e2, k1.same k2 (by rw [q1, q2])⟩

/-- Nothing is below a scalar. -/
theorem Below.scalar {d : Data} {x v : Nat} (hm : asMapping d x = .ok none) (hs : asSequence d x = .ok none)
    (h : Below d x v) : v = x := by
  induction h with
  | self => rfl
  | step _ hc ih =>
    subst ih
    rcases hc with ⟨_, h, _⟩ | ⟨_, _, h, _⟩
    · rw [hs] at h; cases h
    · rw [hm] at h; cases h

example : ∃ doc₁ doc₂, sample.edits [(2, .setBool true), (10, .setString (b! "it's"))] = .ok doc₁ ∧
    sample.edits [(10, .setString (b! "it's")), (2, .setBool true)] = .ok doc₂ ∧ SameDoc doc₁ doc₂ :=
  C42_sets_commute sample_reachable
    (by simp [sample_live_a, sample_live_k]) (by simp [Op.isSet])
    (by
      simp only [List.pairwise_cons, List.mem_singleton, forall_eq, List.not_mem_nil, false_implies, implies_true,
        List.Pairwise.nil, and_true]
      exact ⟨fun h => absurd (h.scalar (by decide) (by decide)) (by decide),
        fun h => absurd (h.scalar (by decide) (by decide)) (by decide)⟩)
    (List.Perm.swap ..)

end Verif
