import Verif.PParse
/-
The arena parser computes the numbering of the tree parser's result.
-/
namespace Verif
set_option linter.unusedSimpArgs false

/-- Entries of the numbering of `t` from `k`. -/
def flat (k : Nat) (parent : Option Nat) (t : Tree Unit) : List Entry := ((t.label k).entries parent).map (·.2)
def flatItems (k c : Nat) (m : Bool) (is : Items Unit) : List Entry := ((is.label k).entries c m).map (·.2)

theorem label_id (k : Nat) (t : Tree Unit) : (t.label k).id = k := by cases t <;> rfl

mutual
theorem Tree.entries_length (par : Option Nat) : ∀ t : Tree Nat, (t.entries par).length = t.size
  | .leaf _ _ _ => rfl
  | .node i _ m _ _ items => by simp [Tree.entries, Tree.size, Items.entries_length i m items]
theorem Items.entries_length (c : Nat) (m : Bool) : ∀ is : Items Nat, (is.entries c m).length = is.size
  | .nil => rfl
  | .cons i _ _ v rest => by
    simp [Items.entries, Items.size, Tree.entries_length (some i) v, Items.entries_length c m rest]; omega
end

mutual
theorem Tree.size_label : ∀ (k : Nat) (t : Tree Unit), (t.label k).size = t.size
  | _, .leaf _ _ _ => rfl
  | k, .node _ _ _ _ _ items => by simp [Tree.label, Tree.size, Items.size_label (k + 1) items]
theorem Items.size_label : ∀ (k : Nat) (is : Items Unit), (is.label k).size = is.size
  | _, .nil => rfl
  | k, .cons _ _ _ v rest => by
    simp [Items.label, Items.size, Tree.size_label (k + 1) v, Items.size_label (k + 1 + v.size) rest]
end

theorem flat_length (k : Nat) (par : Option Nat) (t : Tree Unit) : (flat k par t).length = t.size := by
  simp [flat, Tree.entries_length, Tree.size_label]

theorem flatItems_length (k c : Nat) (m : Bool) (is : Items Unit) : (flatItems k c m is).length = is.size := by
  simp [flatItems, Items.entries_length, Items.size_label]

theorem flat_leaf (k : Nat) (par : Option Nat) (p : Bytes) (s : Scalar) :
    flat k par (.leaf () p s) = [⟨s.toRaw, p, par⟩] := rfl

theorem flat_node (k : Nat) (par : Option Nat) (p : Bytes) (m : Bool) (ind : Nat) (kd : CollKind) (is : Items Unit) :
    flat k par (.node () p m ind kd is) =
      ⟨collRaw m ⟨ind, kd, (is.label (k + 1)).ids⟩, p, par⟩ :: flatItems (k + 1) k m is := rfl

theorem flatItems_nil (k c : Nat) (m : Bool) : flatItems k c m .nil = [] := rfl

theorem flatItems_cons (k c : Nat) (m : Bool) (p : Bytes) (key : RStr) (v : Tree Unit) (rest : Items Unit) :
    flatItems k c m (.cons () p key v rest) =
      ⟨itemRaw m key (k + 1), p, some c⟩ :: (flat (k + 1) (some k) v ++ flatItems (k + 1 + v.size) c m rest) := by
  simp [flatItems, flat, Items.label, Items.entries, label_id]

theorem arena_insert (L : List Entry) (raw : Raw) (p : Bytes) (par : Option Nat) :
    (arenaOf L).insert raw p par = .ok (L.length, arenaOf (L ++ [⟨raw, p, par⟩])) := by
  simp [arenaOf, Data.insert, Slab.insert, bind, Except.bind, pure, Except.pure]

theorem arena_get (A B : List Entry) (e : Entry) : (arenaOf (A ++ e :: B)).slab.get A.length = some e := by
  simp [arenaOf, Slab.get]

theorem arena_set (A B : List Entry) (e e' : Entry) :
    (⟨(arenaOf (A ++ e :: B)).slab.set A.length e'⟩ : Data) = arenaOf (A ++ e' :: B) := by
  simp [arenaOf, Slab.set]

theorem arena_replace (A B : List Entry) (e : Entry) (raw : Raw) (h : e.raw = .null .empty) :
    (arenaOf (A ++ e :: B)).replace A.length raw = .ok (arenaOf (A ++ { e with raw := raw } :: B)) := by
  simp only [Data.replace, arena_get, arena_set, h, Data.dropKind, Data.fuel, Data.dropKindF]

theorem arena_replaceWith (A B : List Entry) (e : Entry) (p : Bytes) (raw : Raw) (h : e.raw = .null .empty) :
    (arenaOf (A ++ e :: B)).replaceWith A.length p raw =
      .ok (arenaOf (A ++ { e with raw := raw, pre := p } :: B)) := by
  simp only [Data.replaceWith, arena_get, arena_set, h, Data.dropKind, Data.fuel, Data.dropKindF]

/-- `rec` on the arena does what `prec` does on trees. -/
def RecOK (rec : St → PS → Res) (prec : PSt → Nat → PRes) : Prop :=
  ∀ (s : St) (n : Nat) (L : List Entry), rec s ⟨n, arenaOf L⟩ =
    match prec ⟨s.pre, s.inline, s.tabular, s.parentIndent⟩ n with
    | .error e => .error e
    | .ok (t, ws, n') => .ok (L.length, ws, ⟨n', arenaOf (L ++ flat L.length s.parent t)⟩)

/-- Shape used after the recursive call for an item at index `L.length`. -/
theorem item_replace (L F : List Entry) (p : Bytes) (par : Option Nat) (raw : Raw) :
    (arenaOf (L ++ [⟨.null .empty, p, par⟩] ++ F)).replace L.length raw =
      .ok (arenaOf (L ++ ⟨raw, p, par⟩ :: F)) := by
  have := arena_replace L F ⟨.null .empty, p, par⟩ raw rfl
  simpa using this

theorem flowSeqLoop_refine {rec prec} (h : RecOK rec prec) (inp : Bytes) (id : Nat) :
    ∀ (f : Nat) (last tr : Bool) (ip : Bytes) (n : Nat) (L : List Entry),
      flowSeqLoop rec inp id f last tr ip ⟨n, arenaOf L⟩ =
        match pflowSeqLoop prec inp f last tr ip n with
        | .error e => .error e
        | .ok (is, tr', w, n') =>
          .ok ((is.label L.length).ids, tr', w, ⟨n', arenaOf (L ++ flatItems L.length id false is)⟩)
  | 0, _, _, _, _, _ => rfl
  | f + 1, last, tr, ip, n, L => by
    have h' := h; unfold RecOK at h'
    unfold flowSeqLoop pflowSeqLoop
    split
    · simp [flatItems, Items.label, Items.ids, Items.entries]
    · simp only [placeholder, arena_insert, bind, Except.bind, h']
      generalize prec _ (wsEnd inp n) = r
      cases r with
      | error e => rfl
      | ok r =>
        obtain ⟨t, ws, n'⟩ := r
        simp only [item_replace]
        split
        · simp [pure, Except.pure, flatItems_cons, Items.label, Items.ids, itemRaw, flatItems_nil]
        · simp only [flowSeqLoop_refine h inp id f]
          generalize pflowSeqLoop prec inp f _ _ _ _ = r
          cases r with
          | error e => rfl
          | ok r =>
            obtain ⟨is, tr', w', n''⟩ := r
            simp [pure, Except.pure, flatItems_cons, Items.label, Items.ids, itemRaw, flat_length,
              Nat.add_assoc, Nat.add_comm]

theorem flowMapLoop_refine {rec prec} (h : RecOK rec prec) (inp : Bytes) (id : Nat) :
    ∀ (f : Nat) (last tr : Bool) (ip : Bytes) (st n : Nat) (L : List Entry),
      flowMapLoop rec inp id f last tr ip st ⟨n, arenaOf L⟩ =
        match pflowMapLoop prec inp f last tr ip st n with
        | .error e => .error e
        | .ok (is, tr', w, st', n') =>
          .ok ((is.label L.length).ids, tr', w, st', ⟨n', arenaOf (L ++ flatItems L.length id true is)⟩)
  | 0, _, _, _, _, _, _ => rfl
  | f + 1, last, tr, ip, st, n, L => by
    have h' := h; unfold RecOK at h'
    unfold flowMapLoop pflowMapLoop
    split
    · simp [flatItems, Items.label, Items.ids, Items.entries]
    · simp only []
      generalize untilColon inp n = uc
      obtain ⟨m, _ | key⟩ := uc
      · rfl
      simp only [placeholder, arena_insert, bind, Except.bind, h']
      generalize prec _ (wsEnd inp _) = r
      cases r with
      | error e => rfl
      | ok r =>
        obtain ⟨t, ws, n'⟩ := r
        simp only [item_replace]
        split
        · simp [pure, Except.pure, flatItems_cons, Items.label, Items.ids, itemRaw, flatItems_nil]
        · simp only [flowMapLoop_refine h inp id f]
          generalize pflowMapLoop prec inp f _ _ _ _ _ = r
          cases r with
          | error e => rfl
          | ok r =>
            obtain ⟨is, tr', w', st', n''⟩ := r
            simp [pure, Except.pure, flatItems_cons, Items.label, Items.ids, itemRaw, flat_length,
              Nat.add_assoc, Nat.add_comm]

theorem seqLoop_refine {rec prec} (h : RecOK rec prec) (inp : Bytes) (id indent : Nat) :
    ∀ (f : Nat) (ip : Bytes) (n : Nat) (L : List Entry),
      seqLoop rec inp id indent f ip ⟨n, arenaOf L⟩ =
        match pseqLoop prec inp indent f ip n with
        | .error e => .error e
        | .ok (is, w, n') =>
          .ok ((is.label L.length).ids, w, ⟨n', arenaOf (L ++ flatItems L.length id false is)⟩)
  | 0, _, _, _ => rfl
  | f + 1, ip, n, L => by
    have h' := h; unfold RecOK at h'
    unfold seqLoop pseqLoop
    simp only [placeholder, arena_insert, bind, Except.bind, h']
    generalize prec _ (wsEnd inp _) = r
    cases r with
    | error e => rfl
    | ok r =>
      obtain ⟨t, ws, n'⟩ := r
      simp only [item_replace]
      split
      · simp [pure, Except.pure, flatItems_cons, Items.label, Items.ids, itemRaw, flatItems_nil]
      · simp only [seqLoop_refine h inp id indent f]
        generalize pseqLoop prec inp _ f _ _ = r
        cases r with
        | error e => rfl
        | ok r =>
          obtain ⟨is, w', n''⟩ := r
          simp [pure, Except.pure, flatItems_cons, Items.label, Items.ids, itemRaw, flat_length,
            Nat.add_assoc, Nat.add_comm]

theorem mapLoop_refine {rec prec} (h : RecOK rec prec) (inp : Bytes) (id indent : Nat) :
    ∀ (f st : Nat) (key : RStr) (ip : Bytes) (n : Nat) (L : List Entry),
      mapLoop rec inp id indent f st key ip ⟨n, arenaOf L⟩ =
        match pmapLoop prec inp indent f st key ip n with
        | .error e => .error e
        | .ok (is, w, n') =>
          .ok ((is.label L.length).ids, w, ⟨n', arenaOf (L ++ flatItems L.length id true is)⟩)
  | 0, _, _, _, _, _ => rfl
  | f + 1, st, key, ip, n, L => by
    have h' := h; unfold RecOK at h'
    unfold mapLoop pmapLoop
    split
    · rfl
    simp only [placeholder, arena_insert, bind, Except.bind, h']
    generalize prec _ (wsEnd inp _) = r
    cases r with
    | error e => rfl
    | ok r =>
      obtain ⟨t, ws, n'⟩ := r
      simp only [item_replace]
      split
      · simp [pure, Except.pure, flatItems_cons, Items.label, Items.ids, itemRaw, flatItems_nil]
      · generalize nextMappingKey inp _ = nk
        obtain ⟨m, _ | key'⟩ := nk
        · simp [pure, Except.pure, flatItems_cons, Items.label, Items.ids, itemRaw, flatItems_nil]
        · simp only [mapLoop_refine h inp id indent f]
          generalize pmapLoop prec inp _ f _ _ _ _ = r
          cases r with
          | error e => rfl
          | ok r =>
            obtain ⟨is, w', n''⟩ := r
            simp [pure, Except.pure, flatItems_cons, Items.label, Items.ids, itemRaw, flat_length,
              Nat.add_assoc, Nat.add_comm]

theorem sequence_refine {rec prec} (h : RecOK rec prec) (inp : Bytes) (f : Nat) :
    RecOK (fun s p => sequence rec inp f s p) (fun s n => psequence prec inp f s n) := by
  intro s n L
  simp only [sequence, psequence, placeholder, arena_insert, bind, Except.bind, seqLoop_refine h]
  generalize pseqLoop prec inp _ f _ _ = r
  cases r with
  | error e => rfl
  | ok r =>
    obtain ⟨is, w, n'⟩ := r
    simp only [item_replace, pure, Except.pure]
    simp [flat_node, collRaw]

theorem flowSeq_refine {rec prec} (h : RecOK rec prec) (inp : Bytes) (f : Nat) :
    RecOK (fun s p => flowSeq rec inp f s p) (fun s n => pflowSeq prec inp f s n) := by
  intro s n L
  simp only [flowSeq, pflowSeq, placeholder, arena_insert, bind, Except.bind, flowSeqLoop_refine h]
  generalize pflowSeqLoop prec inp f _ _ _ _ = r
  cases r with
  | error e => rfl
  | ok r =>
    obtain ⟨is, tr, w, n'⟩ := r
    simp only [item_replace, pure, Except.pure]
    split <;> simp [flat_node, collRaw]

theorem flowMap_refine {rec prec} (h : RecOK rec prec) (inp : Bytes) (f : Nat) :
    RecOK (fun s p => flowMap rec inp f s p) (fun s n => pflowMap prec inp f s n) := by
  intro s n L
  simp only [flowMap, pflowMap, placeholder, arena_insert, bind, Except.bind, flowMapLoop_refine h]
  generalize pflowMapLoop prec inp f _ _ _ _ _ = r
  cases r with
  | error e => rfl
  | ok r =>
    obtain ⟨is, tr, w, st, n'⟩ := r
    simp only [item_replace, pure, Except.pure]
    split <;> simp [flat_node, collRaw]

theorem mappingOrNul_go_refine {rec prec} (h : RecOK rec prec) (inp : Bytes) (f : Nat) (s : St) (start : Nat) (key : RStr)
    (n : Nat) (d0 : Data) (L : List Entry) (indent : Nat) :
    mappingOrNul.go rec inp f start key ⟨n, d0⟩ L.length (arenaOf (L ++ [⟨.null .empty, s.pre, s.parent⟩])) indent =
      match pmappingOrNul.go prec inp f ⟨s.pre, s.inline, s.tabular, s.parentIndent⟩ start key n indent with
      | .error e => .error e
      | .ok (t, ws, n') => .ok (L.length, ws, ⟨n', arenaOf (L ++ flat L.length s.parent t)⟩) := by
  simp only [mappingOrNul.go, pmappingOrNul.go, bind, Except.bind, mapLoop_refine h]
  generalize pmapLoop prec inp _ f _ _ _ _ = r
  cases r with
  | error e => rfl
  | ok r =>
    obtain ⟨is, w, n'⟩ := r
    simp only [item_replace, pure, Except.pure]
    simp [flat_node, collRaw]

theorem mappingOrNul_refine {rec prec} (h : RecOK rec prec) (inp : Bytes) (f : Nat) (start : Nat) (key : RStr) :
    RecOK (fun s p => mappingOrNul rec inp f s start key p)
      (fun s n => pmappingOrNul prec inp f s start key n) := by
  intro s n L
  simp only [mappingOrNul, pmappingOrNul, placeholder, arena_insert, bind, Except.bind, mappingOrNul_go_refine h]
  cases s.parentIndent with
  | none => rfl
  | some i =>
    simp only
    split
    · have := arena_replaceWith L [] ⟨.null .empty, s.pre, s.parent⟩ [] (.null .empty) rfl
      simp [this, pure, Except.pure, flat_leaf, Scalar.toRaw]
    · rfl

/-- `value` computes the numbering of `pvalue`. -/
theorem value_refine (inp : Bytes) : ∀ f, RecOK (value inp f) (pvalue inp f)
  | 0 => fun _ _ _ => rfl
  | f + 1 => by
    intro s n L
    have ih := value_refine inp f
    unfold value pvalue
    simp only [bind, Except.bind]
    generalize lead f inp _ _ n = r
    cases r with
    | error e => rfl
    | ok l =>
      cases l with
      | seq => exact sequence_refine ih inp f s n L
      | flowSeq => exact flowSeq_refine ih inp f s n L
      | flowMap => exact flowMap_refine ih inp f s n L
      | key key m => exact mappingOrNul_refine ih inp f n key s m L
      | scalar sc ws m => simp [arena_insert, pure, Except.pure, flat_leaf]

/-- Main refinement: `parseF` yields the numbering of the tree `pparseF` finds, or the same
error. -/
theorem parseF_refine (fuel : Nat) (inp : Bytes) :
    parseF fuel inp =
      match pparseF fuel inp with
      | .error e => .error e
      | .ok (t, suffix) => .ok (docOf t suffix) := by
  unfold parseF pparseF
  simp only [bind, Except.bind]
  generalize startOfDocument fuel inp = r
  cases r with
  | error e => rfl
  | ok r =>
    obtain ⟨pre, n⟩ := r
    have := value_refine inp fuel ⟨pre, none, false, true, none⟩ n []
    simp only [show Data.empty = arenaOf [] from rfl, this]
    generalize pvalue inp fuel _ n = r
    cases r with
    | error e => rfl
    | ok r =>
      obtain ⟨t, ws, n'⟩ := r
      simp only [pure, Except.pure]
      split
      · simp [docOf, flat]
      · rfl

end Verif
