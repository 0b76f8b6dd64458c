import Verif.LiesKeep
import Verif.LiesPut
/-
The places of the values inside other values.
-/
namespace Verif

section
variable {α : Type} (inp : Bytes) (V : View α)

/-- Among the items of a block collection, from `lo`, there is the value `y` at `b` to `e`. -/
inductive RowAt (c : Nat) : (first : Bool) → List (Option Bytes × α) → Nat → Spot → α → Nat → Prop
  | head {first : Bool} {k : Option Bytes} {v : α} {rest : List (Option Bytes × α)} {lo a b : Nat} : Head inp first k lo a → FullGap inp a b →
    RowAt c first ((k, v) :: rest) lo (.item c k) v b
  | tail {first : Bool} {k : Option Bytes} {v : α} {rest : List (Option Bytes × α)} {lo a b e lo' : Nat} {s : Spot} {y : α} {p : Nat} : Head inp first k lo a →
    FullGap inp a b → Sits inp V (.item c k) v b e → FullGap inp e lo' → RowAt c false rest lo' s y p → RowAt c first ((k, v) :: rest) lo s y p

/-- Among the items of an inline collection, from `n`, there is the value `y` at `p`. -/
inductive CellAt : List (Option Bytes × α) → Nat → α → Nat → Prop
  | head {k : Option Bytes} {v : α} {rest : List (Option Bytes × α)} {n a b : Nat} : CellHead inp k n a → FullGap inp a b → CellAt ((k, v) :: rest) n v b
  | tail {k : Option Bytes} {v : α} {rest : List (Option Bytes × α)} {n a b e start n' : Nat} {last : Bool} {y : α} {p : Nat} : CellHead inp k n a → FullGap inp a b →
    Sits inp V .flow v b e → NextCell inp k.isSome (atBlock inp b) e last start n' → CellAt rest n' y p → CellAt ((k, v) :: rest) n y p

/-- The value `y` at `p` is an item of the value `x` at `lo`. -/
inductive ItemAt : α → Nat → Spot → α → Nat → Prop
  | dashes {x : α} {l : List α} {lo : Nat} {s : Spot} {y : α} {p : Nat} : V.seq x l → RowAt inp V (columnAt inp lo) true (l.map fun v => (none, v)) lo s y p →
    ItemAt x lo s y p
  | keys {x : α} {l : List (Bytes × α)} {lo : Nat} {s : Spot} {y : α} {p : Nat} : V.map x l →
    RowAt inp V (columnAt inp lo) true (l.map fun e => (some e.1, e.2)) lo s y p → ItemAt x lo s y p
  | brackets {x : α} {l : List α} {lo n : Nat} {y : α} {p : Nat} : V.seq x l → inp[lo]? = some LBR → FullGap inp (lo + 1) n →
    CellAt inp V (l.map fun v => (none, v)) n y p → ItemAt x lo .flow y p
  | braces {x : α} {l : List (Bytes × α)} {lo n : Nat} {y : α} {p : Nat} : V.map x l → inp[lo]? = some LCB → FullGap inp (lo + 1) n →
    CellAt inp V (l.map fun e => (some e.1, e.2)) n y p → ItemAt x lo .flow y p

/-- The value `y` at `p` is the value `x` at `lo`, or an item of it, or an item of an item, and so on. -/
inductive Within : Spot → α → Nat → Spot → α → Nat → Prop
  | here {s : Spot} {x : α} {lo : Nat} : Within s x lo s x lo
  | item {s s' s'' : Spot} {x y z : α} {lo p q : Nat} : ItemAt inp V x lo s' y p → Within s' y p s'' z q → Within s x lo s'' z q
end

mutual
theorem Tree.erase_render {α : Type} : ∀ t : Tree α, t.erase.render = t.render
  | .leaf _ _ _ => rfl
  | .node _ _ m _ k items => by rw [Tree.erase, Tree.render, Tree.render, Items.erase_render]
theorem Items.erase_render {α : Type} {m : Bool} {k : CollKind} : ∀ items : Items α, items.erase.render m k = items.render m k
  | .nil => rfl
  | .cons _ p key v rest => by
    rw [Items.erase, Items.render, Items.render, Tree.erase_render, Items.erase_render, Tree.erase_pre, Items.erase_nil]
theorem Tree.erase_pre {α : Type} : ∀ t : Tree α, t.erase.pre = t.pre
  | .leaf _ _ _ => rfl
  | .node _ _ _ _ _ _ => rfl
theorem Items.erase_nil {α : Type} : ∀ items : Items α, items.erase.isNil = items.isNil
  | .nil => rfl
  | .cons _ _ _ _ _ => rfl
end

theorem Tree.erase_text {α : Type} (t : Tree α) : t.erase.text = t.text := by rw [Tree.text, Tree.text, Tree.erase_render, Tree.erase_pre]

theorem Lies.gap {inp : Bytes} {s : Spot} {a : Nat} {t : Tree Unit} {e : Nat} (h : Lies inp s a t e) : ∃ lo, FullGap inp a lo := by
  obtain ⟨lo, _, h, _⟩ := h.sits
  exact ⟨lo, h⟩

theorem Items.rows_cons (m : Bool) (i : Nat) (p : Bytes) (key : RStr) (v : Tree Nat) (rest : Items Nat) :
    Items.rows m (.cons i p key v rest) = (keyOf m key, v.id) :: rest.rows m := by
  simp [Items.rows, Items.pairs, keyOf]

/-- The outermost inline collection that the value `y` at `lo'`, which is inside the value `x` at `lo`, is in ends at `E`.  If there is none, then `E` is where `y` ends. -/
def Outer {α : Type} (inp : Bytes) (V : View α) (s : Spot) (x : α) (lo : Nat) (s' : Spot) (y : α) (lo' d E : Nat) : Prop :=
  s' ≠ .flow ∧ E = d ∨ s' = .flow ∧ ∃ s1 z l1, s1 ≠ .flow ∧ (inp[l1]? = some LBR ∨ inp[l1]? = some LCB) ∧ Within inp V s x lo s1 z l1 ∧ Sits inp V s1 z l1 E ∧
    Within inp V s1 z l1 s' y lo'

theorem Outer.item {α : Type} {inp : Bytes} {V : View α} {s : Spot} {x : α} {lo : Nat} {s0 : Spot} {x0 : α} {lo0 : Nat} {s' : Spot} {y : α} {lo' d E : Nat}
    (h : Outer inp V s x lo s' y lo' d E) (hi : ItemAt inp V x0 lo0 s x lo) : Outer inp V s0 x0 lo0 s' y lo' d E := by
  rcases h with h | ⟨h0, s1, z, l1, h1, h2, h3, h4, h5⟩
  · exact .inl h
  · exact .inr ⟨h0, s1, z, l1, h1, h2, .item hi h3, h4, h5⟩

/-- With a value as `K` says in the place from `lo'` to `d`, the value that was at `lo` up to `e` is as `F` says. -/
def PutTo (inp : Bytes) (s' : Spot) (lo' d E : Nat) (s : Spot) (F : Tree Nat → Tree Nat) (lo e : Nat) : Prop :=
  ∀ w (K : Spot → Tree Unit → Prop), K s' w.erase → lo' < d → ∃ hi, Put inp treeView lo' d E s'.inline K s (F w).erase lo hi ∧ (hi = e ∨ FullGap inp e hi ∧ s ≠ .flow)

def PutRowsTo (inp : Bytes) (s' : Spot) (lo' d E : Nat) (m : Bool) (c : Nat) (first : Bool) (G : Tree Nat → Items Nat) (lo e : Nat) : Prop :=
  ∀ w (K : Spot → Tree Unit → Prop), K s' w.erase → lo' < d →
    ∃ hi, PutRows inp treeView lo' d E s'.inline K c first ((G w).erase.cells m) lo hi ∧ (hi = e ∨ FullGap inp e hi)

def PutCellsTo (inp : Bytes) (s' : Spot) (lo' d E : Nat) (m last : Bool) (G : Tree Nat → Items Nat) (n hi : Nat) : Prop :=
  ∀ w (K : Spot → Tree Unit → Prop), K s' w.erase → lo' < d → PutCells inp treeView lo' d E s'.inline K m last ((G w).erase.cells m) n hi

/-- As `PutTo`, `PutRowsTo` and `PutCellsTo`, with the tree (see `LPut`). -/
def LPutTo (inp : Bytes) (s' : Spot) (b d E : Nat) (s : Spot) (F : Tree Nat → Tree Nat) (a e : Nat) : Prop :=
  ∀ w (K : Spot → Tree Unit → Prop), K s' w.erase → LPut inp b d E s'.inline K s a (F w).erase e

def LPutRowsTo (inp : Bytes) (s' : Spot) (b d E : Nat) (m : Bool) (c : Nat) (first : Bool) (ip : Bytes) (G : Tree Nat → Items Nat) (lo e : Nat) : Prop :=
  ∀ w (K : Spot → Tree Unit → Prop), K s' w.erase → LPutRows inp b d E s'.inline K m c first ip lo (G w).erase e

def LPutCellsTo (inp : Bytes) (s' : Spot) (b d E : Nat) (m last : Bool) (w : Bytes) (G : Tree Nat → Items Nat) (n : Nat) (tr : Bool) (w' : Bytes) (hi : Nat) : Prop :=
  ∀ x (K : Spot → Tree Unit → Prop), K s' x.erase → LPutCells inp b d E s'.inline K m last w n (G x).erase tr w' hi

theorem Tree.erase_node (i : Nat) (p : Bytes) (m : Bool) (ind : Nat) (k : CollKind) (items : Items Nat) :
    (Tree.node i p m ind k items).erase = .node () p m ind k items.erase := rfl

theorem Items.erase_cells (m : Bool) (i : Nat) (p : Bytes) (key : RStr) (v : Tree Nat) (rest : Items Nat) :
    (Items.cons i p key v rest).erase.cells m = (keyOf m key, v.erase) :: rest.erase.cells m := rfl

section
variable {inp : Bytes} {R : Bytes → Bytes → Prop}

theorem putTo_here {s : Spot} {lo e E : Nat} (hE : s ≠ .flow → E = e) :
    PutTo inp s lo e E s (fun w => w) lo e := fun _ _ hw _ => ⟨e, .here rfl (fun hs => (hE hs).symm) hw, .inl rfl⟩

mutual
theorem Lies.part (A : Allows inp R) {D : Data} {u : Tree Nat} {s : Spot} {a : Nat} {t : Tree Nat} {e : Nat} {p q : Bytes} {par : Option Nat} (hr : Rep D par t)
    (h : Lies inp s a t.erase e) {F : Tree Nat → Tree Nat} (hp : Part t p u q F) :
    ∃ s' b d lo lo', a ≤ b ∧ d ≤ e ∧ Lies inp s' b u.erase d ∧ R (slice inp a b) p ∧ R (slice inp d e) q ∧ FullGap inp a lo ∧ FullGap inp b lo' ∧
      Within inp D.view s t.id lo s' u.id lo' ∧ (s = .flow → s' = .flow) ∧
      ∃ E0, (s ≠ .flow → Outer inp D.view s t.id lo s' u.id lo' d E0) ∧ ∀ E, (s ≠ .flow → E = E0) → PutTo inp s' lo' d E s F lo e ∧ LPutTo inp s' b d E s F a e := by
  match hp with
  | .here =>
    obtain ⟨lo, hlo⟩ := h.gap
    exact ⟨s, a, e, lo, lo, Nat.le_refl _, Nat.le_refl _, h, by rw [slice_none (Nat.le_refl _)]; exact A.refl _, by rw [slice_none (Nat.le_refl _)]; exact A.refl _, hlo, hlo, .here, fun h => h, e,
      fun h => .inl ⟨h, rfl⟩, fun _ hE => ⟨putTo_here hE, fun _ _ hw => .here rfl (fun hs => (hE hs).symm) hw⟩⟩
  | .inside (items := items) hp =>
    simp only [Tree.erase] at h
    rw [Tree.id_node]
    cases h with
    | dashes h1 h2 h3 =>
      rename_i lo
      obtain ⟨s', b, d, o, s1, y, pos, lo', k1, k2, k3, k4, k5, k6, k7, k8, k9, E0, k10, k11, k12⟩ := LiesRows.part A hr.node.2 h3 hp
      refine ⟨s', b, d, lo, lo', by have := h1.le; omega, k2, k3, ?_, by simpa [closeOf] using k6, h1, k7, .item (.dashes (isSeq_node hr) (by rw [rows_false]; exact k8)) k9, fun h => absurd h h2, E0,
        fun _ => k10.item (.dashes (isSeq_node hr) (by rw [rows_false]; exact k8)), fun E hE => ⟨fun w K hw hlt => ?_, fun w K hw => ?_⟩⟩
      · rw [← slice_append h1.le.1 k1, k4]
        have := A.append (A.refl (slice inp a lo)) k5
        simpa [openOf, itemSpace, show lossy [] = [] from rfl] using this
      · rw [hE h2]
        obtain ⟨hi, j1, j2⟩ := k11 w K hw hlt
        exact ⟨hi, .dashes ⟨_, _, _, _, rfl, rfl⟩ h2 (by rw [cells_false]; exact j1), j2.imp id (⟨·, h2⟩)⟩
      · rw [hE h2]
        exact .dashes h1 h2 (k12 w K hw)
    | keys h1 h2 h3 =>
      rename_i lo
      obtain ⟨s', b, d, o, s1, y, pos, lo', k1, k2, k3, k4, k5, k6, k7, k8, k9, E0, k10, k11, k12⟩ := LiesRows.part A hr.node.2 h3 hp
      refine ⟨s', b, d, lo, lo', by have := h1.le; omega, k2, k3, ?_, by simpa [closeOf] using k6, h1, k7, .item (.keys (isMap_node hr) (by rw [rows_true]; exact k8)) k9, fun h => absurd h h2.1, E0,
        fun _ => k10.item (.keys (isMap_node hr) (by rw [rows_true]; exact k8)), fun E hE => ⟨fun w K hw hlt => ?_, fun w K hw => ?_⟩⟩
      · rw [← slice_append h1.le.1 k1, k4]
        have := A.append (A.refl (slice inp a lo)) k5
        simpa [openOf, itemSpace] using this
      · rw [hE h2.1]
        obtain ⟨hi, j1, j2⟩ := k11 w K hw hlt
        exact ⟨hi, .keys ⟨_, _, _, _, rfl, rfl⟩ h2 (by rw [cells_true]; exact j1), j2.imp id (⟨·, h2.1⟩)⟩
      · rw [hE h2.1]
        exact .keys h1 h2 (k12 w K hw)
    | brackets h1 h2 h3 h4 h5 =>
      rename_i lo n hi tr w
      obtain ⟨s', b, d, o, y, pos, lo', k1, k2, k3, k4, k5, k6, k7, k8, k9, k10, k11⟩ := LiesCells.part A (m := false) (List.mem_of_getElem? h2) hr.node.2 h4 hp
      obtain ⟨g1, g2, -⟩ := LiesCells.keeps A (m := false) (List.mem_of_getElem? h2) h4
      have hcells := h4.sits.ids hr.node.2
      obtain ⟨f1, f2⟩ := coll_part A (m := false) (tr := tr) (w := w) h1 h2 h3 h5 g2 k1 k2 k4 k5 k6
      exact ⟨s', b, d, lo, lo', by have := h1.le; have := h3.le; omega, by omega, k3, f1, f2, h1, k7,
        .item (.brackets (isSeq_node hr) h2 h3 (by rw [rows_false]; exact k8)) k9, fun _ => k10, hi + 1, fun hs => .inr ⟨k10, s, _, lo, hs, .inl h2, .here,
          .brackets (isSeq_node hr) h2 h3 (by rw [rows_false]; exact hcells), .item (.brackets (isSeq_node hr) h2 h3 (by rw [rows_false]; exact k8)) k9⟩, fun E hE =>
          ⟨fun w K hw hlt => ⟨hi + 1, .brackets ⟨_, _, _, _, rfl, rfl⟩ h2 h3 (fun hs => (hE hs).symm) (by rw [cells_false]; exact (k11 E).1 w K hw hlt), .inl rfl⟩,
            fun w K hw => .brackets h1 h2 h3 (fun hs => (hE hs).symm) ((k11 E).2 w K hw)⟩⟩
    | braces h1 h2 h3 h4 h5 =>
      rename_i lo n hi tr w
      obtain ⟨s', b, d, o, y, pos, lo', k1, k2, k3, k4, k5, k6, k7, k8, k9, k10, k11⟩ := LiesCells.part A (m := true) (List.mem_of_getElem? h2) hr.node.2 h4 hp
      obtain ⟨g1, g2, -⟩ := LiesCells.keeps A (m := true) (List.mem_of_getElem? h2) h4
      have hcells := h4.sits.ids hr.node.2
      obtain ⟨f1, f2⟩ := coll_part A (m := true) (tr := tr) (w := w) h1 h2 h3 h5 g2 k1 k2 k4 k5 k6
      exact ⟨s', b, d, lo, lo', by have := h1.le; have := h3.le; omega, by omega, k3, f1, f2, h1, k7,
        .item (.braces (isMap_node hr) h2 h3 (by rw [rows_true]; exact k8)) k9, fun _ => k10, hi + 1, fun hs => .inr ⟨k10, s, _, lo, hs, .inr h2, .here,
          .braces (isMap_node hr) h2 h3 (by rw [rows_true]; exact hcells), .item (.braces (isMap_node hr) h2 h3 (by rw [rows_true]; exact k8)) k9⟩, fun E hE =>
          ⟨fun w K hw hlt => ⟨hi + 1, .braces ⟨_, _, _, _, rfl, rfl⟩ h2 h3 (fun hs => (hE hs).symm) (by rw [cells_true]; exact (k11 E).1 w K hw hlt), .inl rfl⟩,
            fun w K hw => .braces h1 h2 h3 (fun hs => (hE hs).symm) ((k11 E).2 w K hw)⟩⟩
theorem LiesRows.part (A : Allows inp R) {D : Data} {u : Tree Nat} {m : Bool} {c : Nat} {first : Bool} {ip : Bytes} {lo : Nat} {items : Items Nat} {e : Nat} {p q : Bytes} {i0 : Nat}
    (hr : RepItems D i0 m items) (h : LiesRows inp m c first ip lo items.erase e) {G : Tree Nat → Items Nat} (hp : PartItems m .block items p u q G) :
    ∃ s' b d o s1 y pos lo', lo ≤ b ∧ d ≤ e ∧ Lies inp s' b u.erase d ∧ p = itemSpace m ip ++ o ∧ R (slice inp lo b) o ∧ R (slice inp d e) q ∧ FullGap inp b lo' ∧
      RowAt inp D.view c first (items.rows m) lo s1 y pos ∧ Within inp D.view s1 y pos s' u.id lo' ∧
      ∃ E, Outer inp D.view s1 y pos s' u.id lo' d E ∧ PutRowsTo inp s' lo' d E m c first G lo e ∧ LPutRowsTo inp s' b d E m c first ip G lo e := by
  match hp with
  | .head (A := A') (key := key) (v := v) (rest := rest) hq =>
    simp only [Items.erase] at h
    rw [Items.rows_cons, ← Items.erase_nil rest, ← Items.erase_render rest]
    generalize hre : rest.erase = r at h ⊢
    cases h with
    | last h1 h2 h3 h4 h5 h6 =>
      rename_i a _ _
      obtain ⟨s', b, d, l1, l2, k1, k2, k3, k4, k5, k6, k7, k8, -, E0, k9, k10⟩ := Lies.part A hr.cons.2.1 h4 hq
      have := h2.lt
      refine ⟨s', b, d, rowHead m key ++ A', _, _, _, l2, by omega, k2, k3, by rw [headText_block, List.append_assoc], ?_, by simpa [sepOf, Items.render] using k5, k7, .head h2 k6, k8,
        E0, k9 (Spot.item_ne _ _), fun w K hw hlt => ?_, fun w K hw => ?_⟩
      · rw [h3, ← slice_append (by omega) k1]
        exact A.append (A.refl _) k4
      · obtain ⟨hi, j1, j2⟩ := (k10 E0 (fun _ => rfl)).1 w K hw hlt
        simp only [Items.erase_cells, hre]
        refine ⟨hi, .last (k := keyOf m key) h1 h2 k6 j1 ?_ (by rw [keyOf_isSome]; exact h6), j2.imp id (·.1)⟩
        rcases j2 with rfl | j2
        · exact h5
        · exact j2.1.twice h5
      · simp only [Items.erase, hre]
        exact .last h1 h2 h3 ((k10 E0 (fun _ => rfl)).2 w K hw) h5 h6
    | more h1 h2 h3 h4 h5 h6 =>
      rename_i a e' lo'
      obtain ⟨s', b, d, l1, l2, k1, k2, k3, k4, k5, k6, k7, k8, -, E0, k9, k10⟩ := Lies.part A hr.cons.2.1 h4 hq
      obtain ⟨g1, g2, o, g3, g4⟩ := LiesRows.keeps A h6
      have := h2.lt
      have := h5.le
      refine ⟨s', b, d, rowHead m key ++ A', _, _, _, l2, by omega, by omega, k3, by rw [headText_block, List.append_assoc], ?_, ?_, k7, .head h2 k6, k8, E0, k9 (Spot.item_ne _ _),
        fun w K hw hlt => ?_, fun w K hw => ?_⟩
      · rw [h3, ← slice_append (by omega) k1]
        exact A.append (A.refl _) k4
      · rw [← slice_append (c := e) k2 (by omega), ← slice_append (c := e) h5.le.1 g1, g3]
        have := A.append k5 (A.append (A.gapItem (m := m) h5) g4)
        simpa [sepOf] using this
      · obtain ⟨hi, j1, j2⟩ := (k10 E0 (fun _ => rfl)).1 w K hw hlt
        obtain ⟨hi', j3, -, j4⟩ := h6.sits
        simp only [Items.erase_cells, hre]
        refine ⟨hi', .head (k := keyOf m key) h1 h2 k6 j1 ?_ j3, j4⟩
        rcases j2 with rfl | j2
        · exact h5
        · exact j2.1.twice h5
      · simp only [Items.erase, hre]
        exact .head h1 h2 h3 ((k10 E0 (fun _ => rfl)).2 w K hw) h5 h6
  | .tail (A := A') (key := key) (v := v) (rest := rest) hq =>
    simp only [Items.erase] at h
    rw [Items.rows_cons]
    generalize hre : rest.erase = r at h
    cases h with
    | last h1 h2 h3 h4 h5 h6 =>
      exfalso
      cases hq <;> simp [Items.erase] at hre
    | more h1 h2 h3 h4 h5 h6 =>
      rename_i a e' lo'
      subst hre
      obtain ⟨g1, g2, g3⟩ := Lies.keeps A h4
      obtain ⟨ls, hs, q1, q2, q3⟩ := h4.sits
      obtain ⟨s', b, d, o, s1, y, pos, l2, k1, k2, k3, rfl, k5, k6, k7, k8, k9, E0, k10, k11, k12⟩ := LiesRows.part A hr.cons.2.2 h6 hq
      have := h2.lt
      have := h5.le
      refine ⟨s', b, d, rowHead m key ++ (v.text ++ (itemSpace m (slice inp e' lo') ++ o)), s1, y, pos, l2, by omega, k2, k3, by rw [headText_block]; simp [sepOf], ?_, k6, k7,
        .tail h2 q1 (q2.ids hr.cons.2.1) (q3.full h5) k8, k9, E0, k10, fun w K hw hlt => ?_, fun w K hw => ?_⟩
      · rw [Tree.erase_text] at g3
        rw [h3, ← slice_append (a := lo) (b := a) (c := b) (by omega) (by omega), ← slice_append (c := b) g1 (by omega), ← slice_append (c := b) h5.le.1 k1]
        exact A.append (A.refl _) (A.append g3 (A.append (A.gapItem h5) k5))
      · obtain ⟨hi, j1, j2⟩ := k11 w K hw hlt
        simp only [Items.erase_cells]
        exact ⟨hi, .tail (k := keyOf m key) h1 h2 q1 q2 (q3.full h5) j1, j2⟩
      · exact .tail h1 h2 h3 h4 h5 (k12 w K hw)
theorem LiesCells.part (A : Allows inp R) {D : Data} {u : Tree Nat} {m last : Bool} (hm : (if m then LCB else LBR) ∈ inp) {w : Bytes} {n : Nat} {items : Items Nat} {tr : Bool} {w' : Bytes}
    {hi : Nat} {p q : Bytes} {i0 : Nat} (hr : RepItems D i0 m items) (h : LiesCells inp m last w n items.erase tr w' hi) {G : Tree Nat → Items Nat}
    (hp : PartItems m (.inline tr w') items p u q G) :
    ∃ s' b d o y pos lo', n ≤ b ∧ d ≤ hi ∧ Lies inp s' b u.erase d ∧ p = itemSpace m w ++ o ∧ R (slice inp n b) o ∧ R (slice inp d hi) (q ++ tailText items.erase tr w') ∧
      FullGap inp b lo' ∧ CellAt inp D.view (items.rows m) n y pos ∧ Within inp D.view .flow y pos s' u.id lo' ∧ s' = .flow ∧
      ∀ E, PutCellsTo inp s' lo' d E m last G n hi ∧ LPutCellsTo inp s' b d E m last w G n tr w' hi := by
  match hp with
  | .head (A := A') (key := key) (v := v) (rest := rest) hq =>
    simp only [Items.erase] at h ⊢
    rw [Items.rows_cons, ← Items.erase_nil rest, ← Items.erase_render rest]
    generalize hre : rest.erase = r at h ⊢
    cases h with
    | final h1 h2 h3 h4 h5 h6 =>
      rename_i a e
      obtain ⟨g1, g2⟩ := A.cellHead (fun h => by rw [if_pos h] at hm; exact hm) h2 h3
      obtain ⟨s', b, d, l1, l2, k1, k2, k3, k4, k5, k6, k7, k8, k9, E1, -, k10⟩ := Lies.part A hr.cons.2.1 h4 hq
      have := h5.le
      refine ⟨s', b, d, cellHead m key ++ A', _, _, l2, by omega, by omega, k3, by rw [headText_inline, List.append_assoc], ?_, ?_, k7, .head h2 k6, k8, k9 rfl, fun E => ⟨fun w' K hw hlt => ?_, fun x K hw => ?_⟩⟩
      · rw [← slice_append (by omega) k1]
        exact A.append g2 k4
      · rw [← slice_append (c := hi) k2 h5.le.1]
        have := A.append k5 (A.refl (slice inp e hi))
        simpa [sepOf, Items.render, tailText, Items.isNil] using this
      · obtain ⟨hi', j1, j2⟩ := (k10 E (fun h => absurd rfl h)).1 w' K hw hlt
        obtain rfl : hi' = e := j2.elim id fun h => absurd rfl h.2
        have := PutCells.final (V := treeView) (by rw [keyOf_isSome]; exact h1) h2 k6 j1 h5 (by rw [keyOf_isSome]; exact h6)
        rw [keyOf_isSome] at this
        simp only [Items.erase_cells, hre]
        exact this
      · simp only [Items.erase, hre]
        exact .final h1 h2 h3 ((k10 E (fun h => absurd rfl h)).2 x K hw) h5 h6
    | cell h1 h2 h3 h4 h5 h6 h7 h8 =>
      rename_i last a b0 e start n'
      obtain ⟨g1, g2⟩ := A.cellHead (fun h => by rw [if_pos h] at hm; exact hm) h2 h3
      obtain ⟨s', b, d, l1, l2, k1, k2, k3, k4, k5, k6, k7, k8, k9, E1, -, k10⟩ := Lies.part A hr.cons.2.1 h5 hq
      obtain ⟨f1, f2, o1, o2, f3, f4, f5⟩ := LiesCells.keeps A hm h7
      have hn := h6.le
      refine ⟨s', b, d, cellHead m key ++ A', _, _, l2, by omega, by omega, k3, by rw [headText_inline, List.append_assoc], ?_, ?_, k7, .head h2 k6, k8, k9 rfl, fun E => ⟨fun w' K hw hlt => ?_, fun x K hw => ?_⟩⟩
      · rw [← slice_append (by omega) k1]
        exact A.append g2 k4
      · rw [← slice_append (c := hi) k2 (by omega), ← slice_append (c := hi) hn f1]
        have := A.append k5 (A.append (A.next h6 hm f4 (sep := if (last && r.isNil) = true then [] else [COMMA]) (sep_or _ _)) f5)
        rw [List.append_assoc _ o1, ← f3, inlineText_eq, sep_tail _ h8 w key v.erase] at this
        simpa using this
      · obtain ⟨hi', j1, j2⟩ := (k10 E (fun h => absurd rfl h)).1 w' K hw hlt
        obtain rfl : hi' = e := j2.elim id fun h => absurd rfl h.2
        obtain rfl : b0 = l1 := by rw [← h4.eq, k6.eq]
        have := PutCells.head (V := treeView) (by rw [keyOf_isSome]; exact h1) h2 h4 j1 (by rw [keyOf_isSome]; exact h6) (by rw [keyOf_isSome]; exact h7.sits)
        rw [keyOf_isSome] at this
        simp only [Items.erase_cells, hre]
        exact this
      · simp only [Items.erase, hre]
        exact .head h1 h2 h3 h4 ((k10 E (fun h => absurd rfl h)).2 x K hw) h6 h7 h8
  | .tail (A := A') (key := key) (v := v) (rest := rest) hq =>
    simp only [Items.erase] at h ⊢
    rw [Items.rows_cons]
    generalize hre : rest.erase = r at h ⊢
    cases h with
    | final h1 h2 h3 h4 h5 h6 =>
      exfalso
      cases hq <;> simp [Items.erase] at hre
    | cell h1 h2 h3 h4 h5 h6 h7 h8 =>
      rename_i last a b0 e start n'
      subst hre
      obtain ⟨g1, g2⟩ := A.cellHead (fun h => by rw [if_pos h] at hm; exact hm) h2 h3
      obtain ⟨f1, f2, f3⟩ := Lies.keeps A h5
      have hnil : rest.isNil = false := by cases hq <;> rfl
      obtain ⟨ls, hs, q1, q2, q3⟩ := h5.sits
      have e1 := q3.flow
      subst e1
      have e0 := q1.eq
      rw [h4.eq] at e0
      subst e0
      obtain ⟨s', b, d, o, y, pos, l2, k1, k2, k3, rfl, k5, k6, k7, k8, k9, k10, k11⟩ := LiesCells.part A hm hr.cons.2.2 h7 hq
      have hn := h6.le
      refine ⟨s', b, d, cellHead m key ++ (v.text ++ ([COMMA] ++ (itemSpace m (cellSpace inp m (atBlock inp b0) last hs start n') ++ o))), y, pos, l2, by omega, k2, k3, ?_, ?_, ?_, k7,
        .tail h2 q1 (q2.ids hr.cons.2.1) (by rw [keyOf_isSome]; exact h6) k8, k9, k10, fun E => ⟨fun w' K hw hlt => ?_, fun x K hw => ?_⟩⟩
      · rw [headText_inline, hnil]
        simp [sepOf]
      · rw [Tree.erase_text] at f3
        rw [← slice_append (a := n) (c := b) g1 (by omega), ← slice_append (c := b) f1 (by omega), ← slice_append (c := b) hn k1, ← List.append_assoc [COMMA]]
        exact A.append g2 (A.append f3 (A.append (A.next h6 hm (.inr rfl) (.inl rfl)) k5))
      · unfold tailText at k6 ⊢
        rw [Items.erase_nil, hnil] at k6
        exact k6
      · have := PutCells.tail (V := treeView) (by rw [keyOf_isSome]; exact h1) h2 h4 q2 (by rw [keyOf_isSome]; exact h6) (by rw [keyOf_isSome]; exact (k11 E).1 w' K hw hlt)
        rw [keyOf_isSome] at this
        simp only [Items.erase_cells]
        exact this
      · exact .tail h1 h2 h3 h4 h5 h6 ((k11 E).2 x K hw)
end
end

end Verif
