import Verif.Lines
import Verif.Props.Unnest
/-
Documents of plain lines: helper lemmas for C90.
-/
namespace Verif

theorem gap_start {inp : Bytes} (hh : hasHeader inp = false) {r : Nat} (hr : r ≤ inp.length) (h : inp.drop r = skipBlank false (body inp)) : FullGap inp 0 r := by
  rw [body_eq hh, skipBlank_eq] at h
  have hw := FullGap.ws (inp := inp) (n := 0) (Nat.zero_le _)
  have e : wsEnd inp 0 = (wsGo false inp).1 := by rw [wsEnd]; simp
  have hl := congrArg List.length h
  rw [List.length_drop, List.length_drop, ← e] at hl
  have := hw.le
  obtain rfl : r = wsEnd inp 0 := by omega
  exact hw

/-- A value starts after the first line started. -/
theorem ReadFrom.start {inp : Bytes} (hh : hasHeader inp = false) {doc : Document} {x b d : Nat} (h : ReadFrom inp doc x b d) (hbd : b < d) (hd : d ≤ inp.length) : ∃ r, FullGap inp 0 r ∧ r ≤ b := by
  obtain ⟨r, s, lo, hi, h1, h2, -, ⟨rfl, -⟩ | ⟨h, -⟩⟩ := h
  · have := h2.le
    exact ⟨r, gap_start hh (by omega) h1, this⟩
  · omega

mutual
theorem Tree.nested_render : ∀ {t : Tree Nat}, t.nested → t.render ≠ []
  | .leaf _ _ sc, h => by
    rw [Tree.nested] at h
    rw [Tree.render]
    intro he
    rw [he] at h
    exact h.1 rfl
  | .node _ _ _ _ (.inline _ _) _, h => by rw [Tree.nested] at h; exact h.elim
  | .node _ _ m _ .block .nil, h => by rw [Tree.nested] at h; exact absurd h.1 (by simp [Items.isNil])
  | .node _ _ m _ .block (.cons _ _ _ _ _), h => by
    rw [Tree.render, Items.render]
    cases m <;> simp
end

section
variable {ascii : Bool} {inp : Bytes} {doc : Document} {t : Tree Nat} {e0 : Nat}

theorem Laid.within (h : Laid inp doc t e0) {x : Nat} {u : Tree Nat} (hu : t.find x = some u) {b : UInt8} (hb : b ∈ u.render) : b ∈ inp := by
  obtain ⟨p, q, hc, -⟩ := h.laid.holds.context hu
  obtain rfl := Except.ok.inj (h.write.symm.trans hc)
  simp [Tree.text, hb]

theorem Laid.textHead (h : Laid inp doc t e0) (H : Lines ascii inp) (hn : t.nested) {x : Nat} {u : Tree Nat} (hu : t.find x = some u) : u.render.headD 0 ≠ 0 := by
  have h1 := Tree.nested_render (Tree.nested_find hn hu)
  cases hr : u.render with
  | nil => exact absurd hr h1
  | cons b r =>
    show b ≠ 0
    rintro rfl
    exact H.nul (h.within hu (by rw [hr]; exact List.mem_cons_self ..))

end

/-- No value is missing, and every collection starts further to the right than the one it is in (a sequence in a mapping: not further to the left). -/
structure Nested (doc : Document) : Prop where
  written : ∀ x, Live doc x → valueText doc.data x ≠ .ok []
  inside : ∀ x y m C m' C', Live doc x → Child doc.data x y → collAt m doc.data x = .ok C → collAt m' doc.data y = .ok C' → if m' || !m then C.indent < C'.indent else C.indent ≤ C'.indent

section
variable {ascii : Bool} {inp : Bytes} {doc : Document} {t : Tree Nat} {e0 : Nat}

theorem collAt_of {x : Nat} {pre : Bytes} {m : Bool} {ind : Nat} {k : CollKind} {items : Items Nat} {p : Option Nat} (ha : At doc x (.node x pre m ind k items) p) :
    collAt m doc.data x = .ok ⟨ind, k, items.ids⟩ := by
  have hg := ha.get
  cases m
  · exact sequence_of hg
  · exact mapping_of hg

mutual
theorem Laid.nestedTree (h : Laid inp doc t e0) (H : Lines ascii inp) (hn : Nested doc) : ∀ (u : Tree Nat), t.find u.id = some u → u.nested
  | .leaf i pre sc, hu => by
    obtain ⟨p, ha⟩ := h.laid.holds.at hu
    have h1 := hn.written _ ((h.laid.holds.live_iff _).2 ⟨_, hu⟩)
    rw [ha.text] at h1
    have hin : ∀ b ∈ sc.write, b ∈ inp := fun b hb => h.within hu (by rw [Tree.render]; exact hb)
    rw [Tree.render] at h1
    rw [Tree.nested]
    cases hw : sc.write with
    | nil => rw [hw] at h1; exact absurd rfl h1
    | cons b r =>
      have hb := hin b (by rw [hw]; exact List.mem_cons_self ..)
      show b ≠ 0 ∧ b ≠ PIPE ∧ b ≠ GT
      exact ⟨fun h => H.nul (h ▸ hb), fun h => H.pipe (h ▸ hb), fun h => H.gt (h ▸ hb)⟩
  | .node i pre m ind (.inline tr w) items, hu => by
    exfalso
    have hb : (if m then LCB else LBR) ∈ inp := h.within hu (by rw [Tree.render, openOf]; simp)
    cases m
    · exact H.lbr hb
    · exact H.lcb hb
  | .node i pre m ind .block items, hu => by
    obtain ⟨p, ha⟩ := h.laid.holds.at hu
    have hl := (h.laid.holds.live_iff _).2 ⟨_, hu⟩
    have h1 := hn.written _ hl
    rw [ha.text] at h1
    rw [Tree.nested]
    constructor
    · cases items with
      | cons => rfl
      | nil => exact absurd rfl h1
    · refine Laid.nestedItems h H hn items fun kv hkv => ?_
      obtain ⟨n, hkv⟩ := List.getElem?_of_mem hkv
      have hv := Tree.find_trans h.laid.holds.nodup hu (Tree.find_pair ha.nodup hkv)
      refine ⟨hv, ?_⟩
      have hc : Child doc.data i kv.2.id := (child_iff ha.rep _).2 ⟨i, pre, m, ind, .block, items, rfl, n, kv.1, kv.2, hkv, rfl⟩
      obtain ⟨k, v⟩ := kv
      cases v with
      | leaf => trivial
      | node i' pre' m' ind' k' items' =>
        obtain ⟨p', ha'⟩ := h.laid.holds.at hv
        exact hn.inside _ _ _ _ _ _ hl hc (collAt_of ha) (collAt_of ha')
theorem Laid.nestedItems (h : Laid inp doc t e0) (H : Lines ascii inp) (hn : Nested doc) {m : Bool} {c : Nat} : ∀ (items : Items Nat),
    (∀ kv ∈ items.pairs, t.find kv.2.id = some kv.2 ∧ kv.2.inside m c) → items.nested m c
  | .nil, _ => by rw [Items.nested]; trivial
  | .cons i p k v rest, hi => by
    rw [Items.nested]
    have h1 := hi (k, v) (by rw [Items.pairs]; exact List.mem_cons_self ..)
    exact ⟨h1.2, Laid.nestedTree h H hn v h1.1, Laid.nestedItems h H hn rest fun kv hkv => hi kv (by rw [Items.pairs]; exact List.mem_cons_of_mem _ hkv)⟩
end

theorem Laid.nested (h : Laid inp doc t e0) (H : Lines ascii inp) (hn : Nested doc) : t.nested := h.nestedTree H hn t t.find_self

end

end Verif
