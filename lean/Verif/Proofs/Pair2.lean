import Verif.Proofs.Pair
/-
The functions that add and remove children, run side by side (see `Proofs/Pair.lean`).
-/
set_option autoImplicit false
set_option linter.unusedVariables false
set_option linter.unusedSimpArgs false
set_option linter.unusedSectionVars false
namespace Art
variable {V : Type} {σ : Addr → Addr}
variable [Lim]

/-! ### Pure functions of nodes -/

section
variable (n : Inner) (k : Option ChanId)

theorem ren_getChild (i : Int) : Par (fun c c' => c' = c.map σ) (n.getChild i) ((n.ren σ k).getChild i) := by
  unfold Inner.getChild
  rw [show (n.ren σ k).kind = n.kind from rfl, show (n.ren σ k).children = n.children.map (Option.map σ) from rfl]
  cases n.kind <;> simp only [List.getElem?_map]
  all_goals first
    | (split
       · exact .error _
       · cases n.children[i.toNat]? with
         | none => exact .error _
         | some c => exact .ok rfl)
    | (split
       · exact .ok rfl
       · cases n.children[i.toNat]? with
         | none => exact .ok rfl
         | some c => exact .ok rfl)

theorem ren_setKey (i : Nat) (b : Byte) : Par (fun m m' => m' = m.ren σ k ∧ m.ch = n.ch) (n.setKeyAtIdx i b) ((n.ren σ k).setKeyAtIdx i b) := by
  unfold Inner.setKeyAtIdx
  rw [show (n.ren σ k).kind = n.kind from rfl, show (n.ren σ k).keys = n.keys from rfl]
  cases n.kind
  all_goals first
    | exact .ok ⟨rfl, rfl⟩
    | (simp only
       split
       · exact .ok ⟨rfl, rfl⟩
       · exact .error _)

theorem ren_findChild (b : Byte) : Par (fun p p' => p' = (p.1.map σ, p.2)) (n.findChild b) ((n.ren σ k).findChild b) := by
  unfold Inner.findChild
  rw [show (n.ren σ k).kind = n.kind from rfl, show (n.ren σ k).keys = n.keys from rfl, show (n.ren σ k).numChildren = n.numChildren from rfl]
  cases n.kind
  case n4 | n16 =>
    simp only
    split
    · exact .bind (ren_getChild n k _) fun c c' h => h ▸ .pure rfl
    · exact .pure rfl
  case n48 =>
    refine .bind (.same _) fun i i' h => ?_
    subst h
    split
    · exact .bind (ren_getChild n k _) fun c c' h => h ▸ .pure rfl
    · exact .pure rfl
  case n256 =>
    refine .bind (ren_getChild n k _) fun c c' h => ?_
    subst h
    rw [Option.isSome_map]
    split
    · exact .pure rfl
    · exact .pure rfl
end

theorem CRel.findChild {c c' : Cell V} (h : CRel σ c c') (b : Byte) : Par (fun p p' => p' = (p.1.map σ, p.2)) (c.findChild b) (c'.findChild b) := by
  cases h with
  | leaf l k => exact .ok rfl
  | inner n k => exact ren_findChild n k b

theorem goCopy_map {α β : Type} (f : α → β) (dst : List α) (off : Nat) (src : List α) :
    goCopy (dst.map f) off (src.map f) = (goCopy dst off src).map f := by
  simp only [goCopy, List.map_append, List.map_take, List.map_drop, List.length_map]

theorem ren_insertSorted (n : Inner) (k : Option ChanId) (c : Byte) (child : Addr) :
    Par (fun m m' => m' = m.ren σ k ∧ m.ch = n.ch) (n.insertSorted c child) ((n.ren σ k).insertSorted c (σ child)) := by
  unfold Inner.insertSorted
  have e : ∀ i l, ({ n.ren σ k with
      keys := goCopy (n.ren σ k).keys (i + 1) (((n.ren σ k).keys.drop i).take l),
      children := goCopy (n.ren σ k).children (i + 1) (((n.ren σ k).children.drop i).take l) } : Inner) =
      Inner.ren σ k { n with
        keys := goCopy n.keys (i + 1) ((n.keys.drop i).take l),
        children := goCopy n.children (i + 1) ((n.children.drop i).take l) } := fun i l => by
    simp only [Inner.ren, ← goCopy_map, List.map_take, List.map_drop]
  simp only [e]
  refine .bind (ren_setKey _ k _ _) fun m m' h => ?_
  obtain ⟨rfl, h1⟩ := h
  refine .bind (ren_setChild m k _ (some child)) fun m m' h => ?_
  obtain ⟨rfl, h2⟩ := h
  exact .pure ⟨rfl, h2.trans h1⟩

theorem ren_48to256 (n : Inner) (k : Option ChanId) : children48to256 (n.ren σ k) = (children48to256 n).map (Option.map σ) := by
  simp only [children48to256, List.map_map]
  refine List.map_congr_left fun i _ => ?_
  simp only [Function.comp_apply]
  rw [show (n.ren σ k).keys = n.keys from rfl]
  cases n.keys[i]? with
  | none => rfl
  | some b =>
    simp only
    split
    · show (((n.children.map (Option.map σ))[(b - 1).toNat]?).getD none) = _
      rw [List.getElem?_map]
      cases n.children[(b - 1).toNat]? <;> rfl
    · rfl

theorem shiftChildren_map (ch : List (Option Addr)) (pos num : Nat) :
    shiftChildren (ch.map (Option.map σ)) pos num = (shiftChildren ch pos num).map (Option.map σ) := by
  unfold shiftChildren
  have h : ∀ (l : List Nat) (acc : List (Option Addr) × Nat),
      l.foldl (fun (acc : List (Option Addr) × Nat) itr => if itr = pos then acc else (acc.1.set acc.2 ((acc.1[itr]?).getD none), acc.2 + 1))
        (acc.1.map (Option.map σ), acc.2) =
      ((l.foldl (fun (acc : List (Option Addr) × Nat) itr => if itr = pos then acc else (acc.1.set acc.2 ((acc.1[itr]?).getD none), acc.2 + 1)) acc).1.map (Option.map σ),
       (l.foldl (fun (acc : List (Option Addr) × Nat) itr => if itr = pos then acc else (acc.1.set acc.2 ((acc.1[itr]?).getD none), acc.2 + 1)) acc).2) := by
    intro l
    induction l with
    | nil => intro acc; rfl
    | cons x l ih =>
      intro acc
      simp only [List.foldl_cons]
      rw [← ih]
      congr 1
      split
      · rfl
      · rw [List.map_set, List.getElem?_map]
        cases acc.1[x]? <;> rfl
  exact congrArg Prod.fst (h (List.range num) (ch, 0))

theorem filterMap_same {α β : Type} {f g : α → Option β} (l : List α) (h : ∀ x, f x = g x) : l.filterMap f = l.filterMap g :=
  congrArg (fun f => l.filterMap f) (funext h)

theorem ren_compact48 (n : Inner) (k : Option ChanId) : compact48 (n.ren σ k) = (compact48 n).map fun p => (p.1, p.2.map σ) := by
  unfold compact48
  rw [List.map_filterMap]
  refine filterMap_same _ fun i => ?_
  rw [show (n.ren σ k).keys = n.keys from rfl]
  cases n.keys[i]? with
  | none => rfl
  | some b =>
    simp only
    split
    · show some (UInt8.ofNat i, ((n.children.map (Option.map σ))[(b - 1).toNat]?).getD none) = _
      rw [List.getElem?_map]
      cases n.children[(b - 1).toNat]? <;> rfl
    · rfl

theorem ren_compact256 (n : Inner) (k : Option ChanId) : compact256 (n.ren σ k) = (compact256 n).map fun p => (p.1, σ p.2) := by
  unfold compact256
  rw [List.map_filterMap]
  refine filterMap_same _ fun i => ?_
  rw [show (n.ren σ k).children = n.children.map (Option.map σ) from rfl, List.getElem?_map]
  cases n.children[i]? with
  | none => rfl
  | some c => cases c <;> rfl

theorem index48_map (cs : List (Byte × Addr)) : index48 (cs.map fun p => (p.1, σ p.2)) = index48 cs := by
  unfold index48
  rw [List.zipIdx_map, List.foldl_map]
  rfl

theorem ren_joinPrefix (n m : Inner) (k k' : Option ChanId) :
    Par (fun x x' => x' = x) (joinPrefix n m) (joinPrefix (n.ren σ k) (m.ren σ k')) := by
  unfold joinPrefix
  rw [show (n.ren σ k).partialLen = n.partialLen from rfl, show (n.ren σ k).part = n.part from rfl,
    show (m.ren σ k').partialLen = m.partialLen from rfl, show (m.ren σ k').part = m.part from rfl]
  refine .bind (.same (n.getKeyAtIdx 0)) fun a b h => ?_
  subst h
  simp only [bind, Except.bind]
  repeat' split
  all_goals first
    | exact .error _
    | exact .pure rfl

theorem ren_takePrefix (n m : Inner) (k k' : Option ChanId) (p : Nat) :
    Par (fun x x' => x' = x.ren σ k' ∧ x.ch = m.ch) (takePrefix n m p) (takePrefix (n.ren σ k) (m.ren σ k') p) := by
  unfold takePrefix
  rw [show (n.ren σ k).partialLen = n.partialLen from rfl, show (n.ren σ k).part = n.part from rfl,
    show (m.ren σ k').partialLen = m.partialLen from rfl, show (m.ren σ k').part = m.part from rfl]
  dsimp only
  split
  · exact .error _
  · exact .pure ⟨rfl, rfl⟩

/-! ### addChild -/

section
variable (a child : Addr) (c : Byte)

theorem Peer.addChild256 : Peer σ (fun a a' => a' = σ a) (addChild256 a c child : M V Addr) (addChild256 (σ a) c (σ child)) := by
  unfold Art.addChild256
  refine .bindInner fun n k => ?_
  exact .bindLift (ren_setChild { n with numChildren := n.numChildren + 1 } k _ (some child)) fun m m' h => h.1 ▸ .bindWr (.inner m (k.on h.2)) (.pure rfl)

theorem Peer.addChild48 : Peer σ (fun a a' => a' = σ a) (addChild48 a c child : M V Addr) (addChild48 (σ a) c (σ child)) := by
  unfold Art.addChild48
  refine .bindInner fun n k => .ite (fun _ => ?_) fun _ => ?_
  · have e : (n.ren σ k).children.findIdx (·.isNone) = n.children.findIdx (·.isNone) := by
      rw [show (n.ren σ k).children = n.children.map (Option.map σ) from rfl, List.findIdx_map]
      congr 1
      funext x
      cases x <;> rfl
    simp only [e]
    refine .bindLift (ren_setChild n k _ (some child)) fun m m' h => h.1 ▸ ?_
    refine .bindLift (ren_setKey m k _ _) fun m1 m1' h1 => h1.1 ▸ ?_
    exact .bindWr (.inner { m1 with numChildren := m1.numChildren + 1 } (k.on (h1.2.trans h.2))) (.pure rfl)
  · refine .bind (.allocInner .n256) fun x x' h => h ▸ .bind (.moveLeaf x a) fun _ _ _ => .bindInner fun n k => .bindInner fun m k' => ?_
    refine .bindWr ?_ (.bind (.copyHeader x a) fun _ _ _ => .addChild256 x child c)
    rw [ren_48to256]
    exact .inner { m with children := children48to256 n } k'

theorem Peer.addChild16 : Peer σ (fun a a' => a' = σ a) (addChild16 a c child : M V Addr) (addChild16 (σ a) c (σ child)) := by
  unfold Art.addChild16
  refine .bindInner fun n k => .ite (fun _ => ?_) fun _ => ?_
  · exact .bindLift (ren_insertSorted n k c child) fun m m' h => h.1 ▸ .bindWr (.inner m (k.on h.2)) (.pure rfl)
  · refine .bind (.allocInner .n48) fun x x' h => h ▸ .bind (.moveLeaf x a) fun _ _ _ => .bindInner fun n k => .bindInner fun m k' => ?_
    refine .bindWr ?_ (.bind (.copyHeader x a) fun _ _ _ => .addChild48 x child c)
    have := CRel.inner (V := V) (σ := σ) { m with children := goCopy m.children 0 (n.children.take n.numChildren.toNat), keys := keys16to48 n } k'
    simp only [Inner.ren, ← goCopy_map, List.map_take] at this
    exact this

theorem Peer.addChild4 : Peer σ (fun a a' => a' = σ a) (addChild4 a c child : M V Addr) (addChild4 (σ a) c (σ child)) := by
  unfold Art.addChild4
  refine .bindInner fun n k => .ite (fun _ => ?_) fun _ => ?_
  · exact .bindLift (ren_insertSorted n k c child) fun m m' h => h.1 ▸ .bindWr (.inner m (k.on h.2)) (.pure rfl)
  · refine .bind (.allocInner .n16) fun x x' h => h ▸ .bind (.moveLeaf x a) fun _ _ _ => .bindInner fun n k => .bindInner fun m k' => ?_
    refine .bindWr ?_ (.bind (.copyHeader x a) fun _ _ _ => .addChild16 x child c)
    have := CRel.inner (V := V) (σ := σ) { m with children := goCopy m.children 0 (n.children.take n.numChildren.toNat), keys := goCopy m.keys 0 (n.keys.take n.numChildren.toNat) } k'
    simp only [Inner.ren, ← goCopy_map, List.map_take] at this
    exact this

theorem Peer.addChild : Peer σ (fun a a' => a' = σ a) (addChild a c child : M V Addr) (addChild (σ a) c (σ child)) := by
  unfold Art.addChild
  refine .bindCell fun d d' h => ?_
  cases h with
  | leaf l k => exact .throw _
  | inner n k =>
    simp only
    rw [show (n.ren σ k).kind = n.kind from rfl]
    cases n.kind with
    | n4 => exact .addChild4 a child c
    | n16 => exact .addChild16 a child c
    | n48 => exact .addChild48 a child c
    | n256 => exact .addChild256 a child c
end

/-! ### removeChild -/

theorem Peer.clearTail (a : Addr) (f i : Nat) : Peer σ (fun _ _ => True) (clearTail a f i : M V Unit) (clearTail (σ a) f i) := by
  induction f generalizing i with
  | zero => exact .pure trivial
  | succ f ih =>
    unfold Art.clearTail
    refine .bindInner fun n k => ?_
    rw [show (n.ren σ k).children.length = n.children.length from List.length_map ..]
    refine .ite (fun _ => ?_) fun _ => .pure trivial
    have e : ((n.ren σ k).children[i]?).getD none = ((n.children[i]?).getD none).map σ := by
      show ((n.children.map (Option.map σ))[i]?).getD none = _
      rw [List.getElem?_map]
      cases n.children[i]? <;> rfl
    rw [e]
    exact .bind (.trackChannel _) fun _ _ _ => .bind (.setChildAt a i none) fun _ _ _ => ih _

section
variable (a : Addr) (c : Byte)

theorem Peer.removeSorted : Peer σ (fun _ _ => True) (removeSorted a c : M V Unit) (removeSorted (σ a) c) := by
  unfold Art.removeSorted
  refine .bindInner fun n k => ?_
  simp only [show (n.ren σ k).children.length = n.children.length from List.length_map .., show (n.ren σ k).keys = n.keys from rfl,
    show (n.ren σ k).numChildren = n.numChildren from rfl, show removePos (n.ren σ k) c = removePos n c from rfl]
  refine .bindAssert (.bindAssert (.bindWr ?_ (.bind (.clearTail a _ _) fun _ _ _ => .bindInner fun m j => .wr (.inner { m with numChildren := m.numChildren - 1 } j))))
  have := CRel.inner (V := V) (σ := σ) { n with keys := goCopy n.keys (removePos n c) (n.keys.drop (removePos n c + 1)), children := shiftChildren n.children (removePos n c) n.numChildren.toNat } k
  simp only [Inner.ren, ← shiftChildren_map] at this
  exact this

theorem Peer.removeChild4 : Peer σ (fun a a' => a' = σ a) (removeChild4 a c : M V Addr) (removeChild4 (σ a) c) := by
  unfold Art.removeChild4
  refine .bind (.removeSorted a c) fun _ _ _ => .bindInner fun n k => ?_
  have e : ((n.ren σ k).numChildren = 1 ∧ (n.ren σ k).leaf = none) = (n.numChildren = 1 ∧ n.leaf = none) := by
    show (n.numChildren = 1 ∧ n.leaf.map σ = none) = _
    rw [Option.map_eq_none_iff]
  simp only [e]
  refine .ite (fun _ => ?_) fun _ => .pure rfl
  refine .bindLift (ren_getChild n k 0) fun o o' h => h ▸ ?_
  cases o with
  | none => exact .throw _
  | some ch =>
    refine .bind (.writeNode ch false) fun x x' h => h ▸ .bindInner fun n k => .bindInner fun m k' => ?_
    refine .bindLift (ren_joinPrefix n m k k') fun j j' h => ?_
    subst h
    refine .bindWr (.inner { n with part := j'.1 } (k.on rfl)) ?_
    refine .bindInner fun n k => .bindInner fun m k' => ?_
    refine .bindLift (ren_takePrefix n m k k' j'.2) fun m m' h => h.1 ▸ .bindWr (.inner m (k'.on h.2)) ?_
    exact .bind (.trackChannel (some a)) fun _ _ _ => .pure rfl

theorem Peer.removeChild16 : Peer σ (fun a a' => a' = σ a) (removeChild16 a c : M V Addr) (removeChild16 (σ a) c) := by
  unfold Art.removeChild16
  refine .bind (.removeSorted a c) fun _ _ _ => .bindInner fun n k => .ite (fun _ => ?_) fun _ => .pure rfl
  refine .bind (.trackChannel (some a)) fun _ _ _ => .bind (.allocInner .n4) fun x x' h => h ▸ .bind (.copyHeader x a) fun _ _ _ => ?_
  refine .bindInner fun n k => .bindInner fun m k' => .bindWr ?_ (.bind (.moveLeaf x a) fun _ _ _ => .bind (.setNodeLeaf x n.leaf) fun _ _ _ => .pure rfl)
  have := CRel.inner (V := V) (σ := σ) { m with keys := goCopy m.keys 0 (n.keys.take 4), children := goCopy m.children 0 (n.children.take 4) } k'
  simp only [Inner.ren, ← goCopy_map, List.map_take] at this
  exact this

theorem Peer.removeChild48 : Peer σ (fun a a' => a' = σ a) (removeChild48 a c : M V Addr) (removeChild48 (σ a) c) := by
  unfold Art.removeChild48
  refine .bindInner fun n k => ?_
  rw [show (n.ren σ k).getKeyAtIdx c.toNat = n.getKeyAtIdx c.toNat from rfl]
  refine .bindSame fun pos => .bindLift (ren_setKey n k _ _) fun m m' h => h.1 ▸ .bindWr (.inner m (k.on h.2)) ?_
  refine .bindLift (ren_getChild m k _) fun o o' h => h ▸ .bind (.trackChannel o) fun _ _ _ => .bind (.setChildAt a _ none) fun _ _ _ => ?_
  refine .bindInner fun n k => .bindWr (.inner { n with numChildren := n.numChildren - 1 } k) ?_
  refine .bindInner fun n k => .ite (fun _ => ?_) fun _ => .pure rfl
  refine .bind (.allocInner .n16) fun x x' h => h ▸ .bind (.trackChannel (some a)) fun _ _ _ => .bind (.copyHeader x a) fun _ _ _ => ?_
  refine .bind (.moveLeaf x a) fun _ _ _ => .bindInner fun n k => .bindInner fun m k' => ?_
  simp only [ren_compact48, List.length_map, List.map_map]
  refine .bindAssert (.bindWr ?_ (.pure rfl))
  have := CRel.inner (V := V) (σ := σ) { m with keys := goCopy m.keys 0 ((compact48 n).map (·.1)), children := goCopy m.children 0 ((compact48 n).map (·.2)) } k'
  simp only [Inner.ren, ← goCopy_map, List.map_map] at this
  exact this

theorem Peer.removeChild256 : Peer σ (fun a a' => a' = σ a) (removeChild256 a c : M V Addr) (removeChild256 (σ a) c) := by
  unfold Art.removeChild256
  refine .bind (.setChildAt a _ none) fun _ _ _ => .bindInner fun n k => .bindWr (.inner { n with numChildren := n.numChildren - 1 } k) ?_
  refine .bindInner fun n k => .ite (fun _ => ?_) fun _ => .pure rfl
  refine .bind (.allocInner .n48) fun x x' h => h ▸ .bind (.copyHeader x a) fun _ _ _ => .bind (.trackChannel (some a)) fun _ _ _ => ?_
  refine .bind (.moveLeaf x a) fun _ _ _ => .bindInner fun n k => .bindInner fun m k' => ?_
  simp only [ren_compact256, List.length_map, List.map_map, index48_map]
  refine .bindAssert (.bindWr ?_ (.pure rfl))
  have := CRel.inner (V := V) (σ := σ) { m with keys := index48 (compact256 n), children := goCopy m.children 0 ((compact256 n).map fun p => some p.2) } k'
  simp only [Inner.ren, ← goCopy_map, List.map_map] at this
  exact this

theorem Peer.removeChild : Peer σ (fun a a' => a' = σ a) (removeChild a c : M V Addr) (removeChild (σ a) c) := by
  unfold Art.removeChild
  refine .bindCell fun d d' h => ?_
  cases h with
  | leaf l k => exact .throw _
  | inner n k =>
    simp only
    rw [show (n.ren σ k).kind = n.kind from rfl]
    cases n.kind with
    | n4 => exact .removeChild4 a c
    | n16 => exact .removeChild16 a c
    | n48 => exact .removeChild48 a c
    | n256 => exact .removeChild256 a c
end

end Art
