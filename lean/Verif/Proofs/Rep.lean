import Verif.Proofs.Layout2
import Verif.Proofs.Congr
/-
Well-formed subtrees: `Rep h p a E N` says that the node `a`, reached along the path `p`, holds exactly the
entries `E` (in iteration order), and that `N` are its inner nodes with the paths along which they are reached.
-/
set_option autoImplicit false
set_option linter.unusedVariables false
set_option linter.unusedSimpArgs false
set_option linter.unusedSectionVars false
namespace Art
variable {V : Type}

/-! ### Nodes up to channel and id -/

/-- The node without its channel and its id. -/
def Cell.strip : Cell V → Cell V
  | .leaf l => .leaf { l with id := 0, ch := none }
  | .inner n => .inner { n with id := 0, ch := none }

/-- The node `x` is the same in both heaps, apart from its channel and its id. -/
def Eqv (h h' : Heap V) (x : Addr) : Prop := (h'[x]?).map Cell.strip = (h[x]?).map Cell.strip

theorem Eqv.refl (h : Heap V) (x : Addr) : Eqv h h x := rfl
theorem Eqv.trans {h h' h'' : Heap V} {x : Addr} (h1 : Eqv h h' x) (h2 : Eqv h' h'' x) : Eqv h h'' x := Eq.trans h2 h1

theorem Cell.strip_inner {n : Inner} {c : Cell V} (h : c.strip = (Cell.inner n : Cell V).strip) : ∃ i k, c = .inner { n with id := i, ch := k } := by
  cases c with
  | leaf l => simp [Cell.strip] at h
  | inner m =>
    refine ⟨m.id, m.ch, ?_⟩
    simp only [Cell.strip, Cell.inner.injEq] at h
    cases m; cases n
    simp only [Inner.mk.injEq] at h
    obtain ⟨rfl, -, rfl, rfl, rfl, rfl, rfl, rfl, -⟩ := h
    rfl

theorem Cell.strip_leaf {l : LeafC V} {c : Cell V} (h : c.strip = (Cell.leaf l).strip) : ∃ i k, c = .leaf { l with id := i, ch := k } := by
  cases c with
  | inner l => simp [Cell.strip] at h
  | leaf m =>
    refine ⟨m.id, m.ch, ?_⟩
    simp only [Cell.strip, Cell.leaf.injEq] at h
    cases m; cases l
    simp only [LeafC.mk.injEq] at h
    obtain ⟨-, rfl, rfl, -⟩ := h
    rfl

theorem Eqv.inner {h h' : Heap V} {x : Addr} {n : Inner} (he : Eqv h h' x) (hx : h[x]? = some (.inner n)) :
    ∃ i k, h'[x]? = some (.inner { n with id := i, ch := k }) := by
  unfold Eqv at he
  rw [hx, Option.map_some] at he
  obtain ⟨c, h1, h2⟩ := Option.map_eq_some_iff.1 he
  obtain ⟨i, k, rfl⟩ := Cell.strip_inner h2
  exact ⟨i, k, h1⟩

theorem Eqv.leaf {h h' : Heap V} {x : Addr} {l : LeafC V} (he : Eqv h h' x) (hx : h[x]? = some (.leaf l)) :
    ∃ i k, h'[x]? = some (.leaf { l with id := i, ch := k }) := by
  unfold Eqv at he
  rw [hx, Option.map_some] at he
  obtain ⟨c, h1, h2⟩ := Option.map_eq_some_iff.1 he
  obtain ⟨i, k, rfl⟩ := Cell.strip_leaf h2
  exact ⟨i, k, h1⟩

theorem Eqv.of_setCh {h h' : Heap V} {x : Addr} (he : (h'[x]?).map (·.setCh none) = (h[x]?).map (·.setCh none)) : Eqv h h' x := by
  have hst : ∀ c : Cell V, (c.setCh none).strip = c.strip := fun c => by cases c <;> rfl
  have := congrArg (Option.map Cell.strip) he
  simp only [Option.map_map] at this
  have hf : (Cell.strip ∘ fun c : Cell V => c.setCh none) = Cell.strip := funext fun c => hst c
  rw [hf] at this
  exact this

/-! ### Subtrees -/

/-- An entry: tree key (with its `'$'`), value, and the leaf that holds them. -/
abbrev Ent (V : Type) := Key × V × Nat

/-- The entry as a pair. -/
def Ent.kv (e : Ent V) : Key × V := (e.1, e.2.1)

/-- `a` is an inner node whose own leaf, if any, has a key with the property `Q`. -/
def SOK (h : Heap V) (Q : Key → Prop) (a : Addr) : Prop :=
  ∃ m, h[a]? = some (.inner m) ∧ ∀ l, m.leaf = some l → ∃ lc : LeafC V, h[l]? = some (.leaf lc) ∧ Q lc.key

/-- A stale child: if its own leaf has a key at all, the key belongs below one of the live edges. -/
def StaleOK (h : Heap V) (P : Key) (es : Edges) (st : Option Addr) : Prop :=
  ∀ c, st = some c → SOK h (fun k => ∃ b, b ∈ es.map (·.1) ∧ P ++ [b] <+: k) c

/-- The own leaf of an inner node with path `P`. -/
inductive OwnLeaf (h : Heap V) (P : Key) : Option Addr → List (Ent V) → Prop
  | none : OwnLeaf h P none []
  | some {l : Addr} {lc : LeafC V} (hl : h[l]? = some (.leaf lc)) (hk : lc.key = P ++ [dollar]) :
      OwnLeaf h P (some l) [(lc.key, lc.value, l)]

theorem OwnLeaf.inv {h : Heap V} {P : Key} {o : Option Addr} {vals : List (Ent V)} (ho : OwnLeaf h P o vals) :
    (o = Option.none ∧ vals = []) ∨ ∃ (l : Addr) (lc : LeafC V), o = Option.some l ∧ vals = [(lc.key, lc.value, l)] ∧
      h[l]? = Option.some (.leaf lc) ∧ lc.key = P ++ [Art.dollar] := by
  cases ho with
  | none => exact Or.inl ⟨rfl, rfl⟩
  | some hl hk => exact Or.inr ⟨_, _, rfl, rfl, hl, hk⟩

/-- The compressed prefix of a node: its length, and as many of its bytes as are stored. -/
structure Header (n : Inner) (pfx : Key) : Prop where
  len : n.partialLen = pfx.length
  part : n.part.length = 10
  bytes : n.part.take (min 10 pfx.length) = pfx.take 10

/-- Whether entries may have been removed. Without removals more is known about the shape of the nodes: the header
of a node that only holds a leaf, and that every other node has a leaf of its own or at least two edges, and no
pointers behind its live children. -/
class Removals where
  allowed : Prop

/-- By default they may. -/
instance (priority := low) anyRemovals : Removals := ⟨True⟩

/-- Removals are allowed. -/
class CanRemove [Removals] : Prop where
  ok : Removals.allowed

instance : @CanRemove anyRemovals := ⟨trivial⟩

variable [Removals]

/-- The header of a node that only holds a leaf. -/
def Inner.Wrap (n : Inner) : Prop := Removals.allowed ∨ n.kind = .n4 ∧ (n.partialLen = 0 ∨ n.partialLen = 10)

/-- A node with edges is there for a reason, and it has no pointers behind its live children. -/
def Inner.Fork (n : Inner) (es : Edges) : Prop := Removals.allowed ∨ n.Tidy ∧ (n.leaf ≠ none ∨ 2 ≤ es.length)

/-- The node `a`, reached along `p`, holds exactly the entries `E`; the inner nodes from `a` down, with their
paths, are `N`. -/
inductive Rep (h : Heap V) : Key → Addr → List (Ent V) → List (Key × Addr) → Prop
  | leaf {p : Key} {a : Addr} {n : Inner} {l : Addr} {lc : LeafC V}
      (ha : h[a]? = some (.inner n)) (hL : Layout n [] none) (hpart : n.part.length = 10)
      (hw : n.Wrap)
      (hleaf : n.leaf = some l) (hl : h[l]? = some (.leaf lc)) (hp : p <+: lc.key) (hd : ∃ k, lc.key = k ++ [dollar]) :
      Rep h p a [(lc.key, lc.value, l)] [(p, a)]
  | node {p : Key} {a : Addr} {n : Inner} {pfx : Key} {es : Edges} {st : Option Addr} {vals : List (Ent V)}
      {f : Byte → List (Ent V)} {g : Byte → List (Key × Addr)}
      (ha : h[a]? = some (.inner n)) (hL : Layout n es st) (hne : Filled n es) (hh : Header n pfx)
      (hst : StaleOK h (p ++ pfx) es st) (hown : OwnLeaf h (p ++ pfx) n.leaf vals)
      (hnd : n.leaf ≠ none → dollar ∉ es.map (·.1)) (htw : n.Fork es)
      (hch : ∀ b c, (b, c) ∈ es → Rep h (p ++ pfx ++ [b]) c (f b) (g b)) :
      Rep h p a (vals ++ es.flatMap fun e => f e.1) ((p, a) :: es.flatMap fun e => g e.1)

/-- The cell `x` belongs to the subtree with these entries and nodes. -/
def Occ (E : List (Ent V)) (N : List (Key × Addr)) (x : Addr) : Prop := x ∈ N.map (·.2) ∨ x ∈ E.map (·.2.2)

variable {h h' : Heap V} {p : Key} {a : Addr} {E : List (Ent V)} {N : List (Key × Addr)}

theorem Occ.head {q : Key} : Occ E ((q, a) :: N) a := Or.inl (by simp)
theorem Occ.val {vals E' : List (Ent V)} {e : Ent V} (he : e ∈ vals) : Occ (vals ++ E') N e.2.2 :=
  Or.inr (List.mem_map.2 ⟨e, List.mem_append_left _ he, rfl⟩)
theorem Occ.kid {q : Key} {vals : List (Ent V)} {es : Edges} {f : Byte → List (Ent V)} {g : Byte → List (Key × Addr)} {b : Byte} {c x : Addr}
    (hb : (b, c) ∈ es) (ho : Occ (f b) (g b) x) : Occ (vals ++ es.flatMap fun e => f e.1) ((q, a) :: es.flatMap fun e => g e.1) x := by
  rcases ho with ho | ho
  · obtain ⟨e, he, rfl⟩ := List.mem_map.1 ho
    exact Or.inl (List.mem_map.2 ⟨e, List.mem_cons_of_mem _ (List.mem_flatMap.2 ⟨_, hb, he⟩), rfl⟩)
  · obtain ⟨e, he, rfl⟩ := List.mem_map.1 ho
    exact Or.inr (List.mem_map.2 ⟨e, List.mem_append_right _ (List.mem_flatMap.2 ⟨_, hb, he⟩), rfl⟩)

theorem Occ.inv {q : Key} {vals : List (Ent V)} {es : Edges} {f : Byte → List (Ent V)} {g : Byte → List (Key × Addr)} {x : Addr}
    (ho : Occ (vals ++ es.flatMap fun e => f e.1) ((q, a) :: es.flatMap fun e => g e.1) x) :
    x = a ∨ x ∈ vals.map (·.2.2) ∨ ∃ b c, (b, c) ∈ es ∧ Occ (f b) (g b) x := by
  rcases ho with ho | ho
  · obtain ⟨e, he, rfl⟩ := List.mem_map.1 ho
    rcases List.mem_cons.1 he with rfl | he
    · exact Or.inl rfl
    · obtain ⟨⟨b, c⟩, hb, he⟩ := List.mem_flatMap.1 he
      exact Or.inr (Or.inr ⟨b, c, hb, Or.inl (List.mem_map.2 ⟨e, he, rfl⟩)⟩)
  · obtain ⟨e, he, rfl⟩ := List.mem_map.1 ho
    rcases List.mem_append.1 he with he | he
    · exact Or.inr (Or.inl (List.mem_map.2 ⟨e, he, rfl⟩))
    · obtain ⟨⟨b, c⟩, hb, he⟩ := List.mem_flatMap.1 he
      exact Or.inr (Or.inr ⟨b, c, hb, Or.inr (List.mem_map.2 ⟨e, he, rfl⟩)⟩)

theorem Rep.prefix (hr : Rep h p a E N) : ∀ e ∈ E, p <+: e.1 := by
  induction hr with
  | leaf ha hL hpart hw hleaf hl hp hd =>
    intro e he
    rw [List.mem_singleton.1 he]; exact hp
  | node ha hL hne hh hst hown hnd htw hch ih =>
    intro e he
    rcases List.mem_append.1 he with he | he
    · rcases hown.inv with ⟨-, rfl⟩ | ⟨l, lc, -, rfl, hl, hk⟩
      · cases he
      · rw [List.mem_singleton.1 he, hk, List.append_assoc]
        exact List.prefix_append _ _
    · obtain ⟨⟨b, c⟩, hb, he⟩ := List.mem_flatMap.1 he
      have := ih b c hb e he
      rw [List.append_assoc] at this
      exact (List.prefix_append _ _).trans this

theorem Rep.paths (hr : Rep h p a E N) : ∀ e ∈ N, p <+: e.1 := by
  induction hr with
  | leaf ha hL hpart hw hleaf hl hp hd =>
    intro e he
    rw [List.mem_singleton.1 he]; exact List.prefix_refl _
  | node ha hL hne hh hst hown hnd htw hch ih =>
    intro e he
    rcases List.mem_cons.1 he with rfl | he
    · exact List.prefix_refl _
    · obtain ⟨⟨b, c⟩, hb, he⟩ := List.mem_flatMap.1 he
      have := ih b c hb e he
      rw [List.append_assoc] at this
      exact (List.prefix_append _ _).trans this

theorem Rep.dollar (hr : Rep h p a E N) : ∀ e ∈ E, ∃ k, e.1 = k ++ [dollar] := by
  induction hr with
  | leaf ha hL hpart hw hleaf hl hp hd =>
    intro e he
    rw [List.mem_singleton.1 he]; exact hd
  | node ha hL hne hh hst hown hnd htw hch ih =>
    intro e he
    rcases List.mem_append.1 he with he | he
    · rcases hown.inv with ⟨-, rfl⟩ | ⟨l, lc, -, rfl, hl, hk⟩
      · cases he
      · rw [List.mem_singleton.1 he]; exact ⟨_, hk⟩
    · obtain ⟨⟨b, c⟩, hb, he⟩ := List.mem_flatMap.1 he
      exact ih b c hb e he

theorem Rep.ne_nil (hr : Rep h p a E N) : E ≠ [] := by
  induction hr with
  | leaf ha hL hpart hw hleaf hl hp hd => simp
  | @node p a n pfx es st vals f g ha hL hne hh hst hown hnd htw hch ih =>
    obtain ⟨⟨b, c⟩, es', rfl⟩ := List.exists_cons_of_ne_nil hne.ne
    have := ih b c (by simp)
    simp [this]

theorem Rep.mem (hr : Rep h p a E N) : (p, a) ∈ N := by
  cases hr <;> simp

theorem Rep.occ (hr : Rep h p a E N) : Occ E N a := Or.inl (List.mem_map.2 ⟨_, hr.mem, rfl⟩)

/-- The leaf of an entry. -/
theorem Rep.leaf_of (hr : Rep h p a E N) : ∀ e ∈ E, ∃ lc : LeafC V, h[e.2.2]? = some (.leaf lc) ∧ lc.key = e.1 ∧ lc.value = e.2.1 := by
  induction hr with
  | leaf ha hL hpart hw hleaf hl hp hd =>
    intro e he
    rw [List.mem_singleton.1 he]; exact ⟨_, hl, rfl, rfl⟩
  | node ha hL hne hh hst hown hnd htw hch ih =>
    intro e he
    rcases List.mem_append.1 he with he | he
    · rcases hown.inv with ⟨-, rfl⟩ | ⟨l, lc, -, rfl, hl, hk⟩
      · cases he
      · rw [List.mem_singleton.1 he]; exact ⟨_, hl, rfl, rfl⟩
    · obtain ⟨⟨b, c⟩, hb, he⟩ := List.mem_flatMap.1 he
      exact ih b c hb e he

/-- The inner nodes are inner nodes, and each is the top of a well-formed subtree. -/
theorem Rep.sub (hr : Rep h p a E N) : ∀ q x, (q, x) ∈ N → ∃ E' N', Rep h q x E' N' ∧ N'.length ≤ N.length ∧
    (∀ e ∈ E', e ∈ E) ∧ ∀ e ∈ N', e ∈ N := by
  induction hr with
  | leaf ha hL hpart hw hleaf hl hp hd =>
    intro q x he
    cases List.mem_singleton.1 he
    exact ⟨_, _, Rep.leaf ha hL hpart hw hleaf hl hp hd, Nat.le_refl _, fun _ h => h, fun _ h => h⟩
  | @node p a n pfx es st vals f g ha hL hne hh hst hown hnd htw hch ih =>
    intro q x he
    rcases List.mem_cons.1 he with he | he
    · cases he
      exact ⟨_, _, Rep.node ha hL hne hh hst hown hnd htw hch, Nat.le_refl _, fun _ h => h, fun _ h => h⟩
    · obtain ⟨⟨b, c⟩, hb, he⟩ := List.mem_flatMap.1 he
      obtain ⟨E', N', h1, h2, h3, h4⟩ := ih b c hb q x he
      have hsub : (g b).length ≤ (es.flatMap fun e => g e.1).length := by
        obtain ⟨l, r, rfl⟩ := List.append_of_mem hb
        simp only [List.flatMap_append, List.flatMap_cons, List.length_append]
        omega
      refine ⟨E', N', h1, ?_, fun e he => ?_, fun e he => ?_⟩
      · simp only [List.length_cons]; omega
      · exact List.mem_append_right _ (List.mem_flatMap.2 ⟨_, hb, h3 e he⟩)
      · exact List.mem_cons_of_mem _ (List.mem_flatMap.2 ⟨_, hb, h4 e he⟩)

theorem Rep.inner (hr : Rep h p a E N) : ∃ n, h[a]? = some (.inner n) := by
  cases hr with
  | leaf ha => exact ⟨_, ha⟩
  | node ha => exact ⟨_, ha⟩

theorem Rep.inner_of (hr : Rep h p a E N) : ∀ q x, (q, x) ∈ N → ∃ n, h[x]? = some (.inner n) := fun q x hx => by
  obtain ⟨E', N', h1, -⟩ := hr.sub q x hx
  exact h1.inner

theorem Rep.bound (hr : Rep h p a E N) {x : Addr} (hx : Occ E N x) : x < h.length := by
  rcases hx with hx | hx
  · obtain ⟨⟨q, y⟩, he, rfl⟩ := List.mem_map.1 hx
    obtain ⟨n, hn⟩ := hr.inner_of q y he
    exact (List.getElem?_eq_some_iff.1 hn).1
  · obtain ⟨e, he, rfl⟩ := List.mem_map.1 hx
    obtain ⟨lc, hlc, -⟩ := hr.leaf_of e he
    exact (List.getElem?_eq_some_iff.1 hlc).1

/-- Own leaves, in another heap with the same leaf. -/
theorem OwnLeaf.frame {P : Key} {o : Option Addr} {vals : List (Ent V)} (ho : OwnLeaf h P o vals)
    (hX : ∀ x ∈ vals.map (·.2.2), Eqv h h' x) : OwnLeaf h' P o vals := by
  cases ho with
  | none => exact .none
  | @some l lc hl hk =>
    obtain ⟨i, k, hl'⟩ := (hX l (by simp)).leaf hl
    exact OwnLeaf.some (lc := { lc with id := i, ch := k }) hl' hk

theorem Header.congr {n m : Inner} {pfx : Key} (hh : Header n pfx) (h1 : m.partialLen = n.partialLen) (h2 : m.part = n.part) : Header m pfx :=
  ⟨by rw [h1]; exact hh.len, by rw [h2]; exact hh.part, by rw [h2]; exact hh.bytes⟩

/-- A subtree stays well-formed when its nodes keep their contents and stale children stay harmless. -/
theorem Rep.frame (hr : Rep h p a E N) (hX : ∀ x, Occ E N x → Eqv h h' x) (hS : ∀ Q x, SOK h Q x → SOK h' Q x) : Rep h' p a E N := by
  induction hr with
  | @leaf p a n l lc ha hL hpart hw hleaf hl hp hd =>
    obtain ⟨i, k, ha'⟩ := (hX _ Occ.head).inner ha
    obtain ⟨j, q, hl'⟩ := (hX l (Or.inr (by simp))).leaf hl
    exact Rep.leaf (lc := { lc with id := j, ch := q }) ha' (hL.congr rfl rfl rfl rfl) hpart hw hleaf hl' hp hd
  | @node p a n pfx es st vals f g ha hL hne hh hst hown hnd htw hch ih =>
    obtain ⟨i, k, ha'⟩ := (hX _ Occ.head).inner ha
    refine Rep.node (pfx := pfx) ha' (hL.congr rfl rfl rfl rfl) (hne.congr rfl) (hh.congr rfl rfl) (fun c hc => hS _ _ (hst c hc))
      (hown.frame fun x hx => hX x ?_) hnd htw fun b c hb => ih b c hb fun x hx => hX x (Occ.kid hb hx)
    obtain ⟨e, he, rfl⟩ := List.mem_map.1 hx
    exact Occ.val he

/-- A subtree inside a region on which two heaps agree. -/
theorem Rep.same {S : Addr → Prop} (hs : Same h h' S) (hr : Rep h p a E N) (ha : S a) : Rep h' p a E N ∧ ∀ x, Occ E N x → S x := by
  induction hr with
  | @leaf p a n l lc ha' hL hpart hw hleaf hl hp hd =>
    obtain ⟨c, k, h1, h2, h3⟩ := hs.cell ha
    rw [ha'] at h1; cases h1
    have hSl : S l := h3 l (Or.inl hleaf)
    obtain ⟨i, k, ha''⟩ := (Eqv.of_setCh (hs.agree _ ha)).inner ha'
    obtain ⟨j, q, hl'⟩ := (Eqv.of_setCh (hs.agree _ hSl)).leaf hl
    refine ⟨Rep.leaf (lc := { lc with id := j, ch := q }) ha'' (hL.congr rfl rfl rfl rfl) hpart hw hleaf hl' hp hd, fun x hx => ?_⟩
    simp only [Occ, List.map_cons, List.map_nil, List.mem_singleton] at hx
    rcases hx with rfl | rfl <;> assumption
  | @node p a n pfx es st vals f g ha' hL hne hh hst hown hnd htw hch ih =>
    obtain ⟨c, k, h1, h2, h3⟩ := hs.cell ha
    rw [ha'] at h1; cases h1
    obtain ⟨i, k, ha''⟩ := (Eqv.of_setCh (hs.agree _ ha)).inner ha'
    have hlcs : ∀ x ∈ vals.map (·.2.2), S x := by
      intro x hx
      rcases hown.inv with ⟨-, rfl⟩ | ⟨l, lc, ho, rfl, hl, hk⟩
      · cases hx
      · rw [List.mem_singleton.1 hx]; exact h3 _ (Or.inl ho)
    have hkid : ∀ b c, (b, c) ∈ es → S c := fun b c hb => h3 c (Or.inr (hL.live_slot hb))
    refine ⟨Rep.node (pfx := pfx) ha'' (hL.congr rfl rfl rfl rfl) (hne.congr rfl) (hh.congr rfl rfl) (fun c hc => ?_)
      (hown.frame fun x hx => Eqv.of_setCh (hs.agree _ (hlcs x hx))) hnd htw fun b c hb => (ih b c hb (hkid b c hb)).1, fun x hx => ?_⟩
    · have hSc : S c := h3 c (Or.inr (hL.stale_slot hc))
      obtain ⟨m, hm, hml⟩ := hst c hc
      obtain ⟨c', k', g1, g2, g3⟩ := hs.cell hSc
      rw [hm] at g1; cases g1
      refine ⟨_, g2, fun l hl => ?_⟩
      obtain ⟨lc, hlc, hq⟩ := hml l hl
      obtain ⟨j, q, hl'⟩ := (Eqv.of_setCh (hs.agree _ (g3 l (Or.inl hl)))).leaf hlc
      exact ⟨_, hl', hq⟩
    · rcases hx.inv with rfl | hx | ⟨b, c, hb, hx⟩
      · exact ha
      · exact hlcs x hx
      · exact (ih b c hb (hkid b c hb)).2 x hx

/-! ### Distinct keys -/

/-- Two different edges lead to incomparable paths. -/
theorem prefix_edge {P k : Key} {b b' : Byte} (h1 : P ++ [b] <+: k) (h2 : P ++ [b'] <+: k) : b = b' := by
  have h3 := List.prefix_of_prefix_length_le h1 h2 (by simp)
  have h4 := h3.eq_of_length (by simp)
  simpa using h4

theorem Rep.nodup (hr : Rep h p a E N) : (E.map (·.1)).Nodup := by
  induction hr with
  | leaf ha hL hpart hw hleaf hl hp hd => simp
  | @node p a n pfx es st vals f g ha hL hne hh hst hown hnd htw hch ih =>
    rw [List.map_append, List.nodup_append]
    have hb : ∀ b c e, (b, c) ∈ es → e ∈ f b → p ++ pfx ++ [b] <+: e.1 := fun b c e hb he => (hch b c hb).prefix e he
    refine ⟨?_, ?_, ?_⟩
    · rcases hown.inv with ⟨-, rfl⟩ | ⟨l, lc, -, rfl, hl, hk⟩ <;> simp
    · clear hne hst hnd htw hh ha
      have hs := hL.sorted
      clear hL hown
      induction es with
      | nil => simp
      | cons e es ih' =>
        obtain ⟨b, c⟩ := e
        have hp := List.pairwise_cons.1 hs
        rw [List.flatMap_cons, List.map_append, List.nodup_append]
        refine ⟨ih b c (by simp), ih' (fun b c hb => hch b c (by simp [hb])) (fun b c hb => ih b c (by simp [hb]))
          (fun b c e h1 h2 => hb b c e (by simp [h1]) h2) hp.2, ?_⟩
        intro k1 hk1 k2 hk2 heq
        subst heq
        obtain ⟨e1, he1, rfl⟩ := List.mem_map.1 hk1
        obtain ⟨e2, he2, heq⟩ := List.mem_map.1 hk2
        obtain ⟨⟨b', c'⟩, hb', he2⟩ := List.mem_flatMap.1 he2
        have h1 := hb b c e1 (by simp) he1
        have h2 := hb b' c' e2 (by simp [hb']) he2
        rw [heq] at h2
        have h5 : b = b' := prefix_edge h1 h2
        subst h5
        exact Byte.lt_irrefl (hp.1 (b, c') hb')
    · intro k1 hk1 k2 hk2 heq
      subst heq
      obtain ⟨e2, he2, heq⟩ := List.mem_map.1 hk2
      obtain ⟨⟨b', c'⟩, hb', he2⟩ := List.mem_flatMap.1 he2
      have h2 := hb b' c' e2 hb' he2
      rcases hown.inv with ⟨-, rfl⟩ | ⟨l, lc, ho, rfl, hl, hk⟩
      · simp at hk1
      · simp only [List.map_cons, List.map_nil, List.mem_singleton] at hk1
        rw [heq, hk1, hk] at h2
        have h4 := h2.eq_of_length (by simp)
        have h5 : b' = Art.dollar := by simpa using h4
        exact hnd (by rw [ho]; simp) (List.mem_map.2 ⟨_, hb', h5⟩)

/-! ### Distinct nodes -/

theorem flatMap_congr' {α β : Type} {f g : α → List β} {xs : List α} (h : ∀ x ∈ xs, f x = g x) : xs.flatMap f = xs.flatMap g := by
  induction xs with
  | nil => rfl
  | cons x xs ih =>
    rw [List.flatMap_cons, List.flatMap_cons, h x (by simp), ih fun y hy => h y (by simp [hy])]

theorem Layout.mem_of {n : Inner} {es es' : Edges} {st st' : Option Addr} (h1 : Layout n es st) (h2 : Layout n es' st') {e : Byte × Addr}
    (he : e ∈ es) : e ∈ es' := by
  obtain ⟨b, c⟩ := e
  obtain ⟨l, r, rfl⟩ := List.append_of_mem he
  obtain ⟨i, hf, -⟩ := h1.find
  rcases h2.findChild_iff b with ⟨-, h⟩ | ⟨l', c', r', i', rfl, h, -⟩
  · rw [hf] at h; cases h
  · rw [hf] at h; cases h; simp

/-- The edges of a node are determined by the node. -/
theorem Layout.unique {n : Inner} {es es' : Edges} {st st' : Option Addr} (h1 : Layout n es st) (h2 : Layout n es' st') : es = es' :=
  h1.sorted.ext h2.sorted fun _ => ⟨h1.mem_of h2, h2.mem_of h1⟩

/-- The entries and nodes of a subtree are determined by its top. -/
theorem Rep.unique (hr : Rep h p a E N) : ∀ {p' : Key} {E' : List (Ent V)} {N' : List (Key × Addr)}, Rep h p' a E' N' →
    E = E' ∧ N.map (·.2) = N'.map (·.2) := by
  induction hr with
  | @leaf p a n l lc ha hL hpart hw hleaf hl hp hd =>
    intro p' E' N' hr'
    cases hr' with
    | leaf ha' hL' hpart' hw' hleaf' hl' hp' hd' =>
      rw [ha] at ha'; cases ha'
      rw [hleaf] at hleaf'; cases hleaf'
      rw [hl] at hl'; cases hl'
      exact ⟨rfl, rfl⟩
    | node ha' hL' hne' =>
      rw [ha] at ha'; cases ha'
      exact absurd (hL'.unique hL) hne'.ne
  | @node p a n pfx es st vals f g ha hL hne hh hst hown hnd htw hch ih =>
    intro p' E' N' hr'
    cases hr' with
    | leaf ha' hL' hpart' hw' hleaf' hl' hp' hd' =>
      rw [ha] at ha'; cases ha'
      exact absurd (hL.unique hL') hne.ne
    | @node _ _ n' pfx' es' st' vals' f' g' ha' hL' hne' hh' hst' hown' hnd' htw' hch' =>
      rw [ha] at ha'; cases ha'
      have := hL.unique hL'
      subst this
      have hv : vals = vals' := by
        rcases hown.inv with ⟨ho, rfl⟩ | ⟨l, lc, ho, rfl, hl, hk⟩
        · rcases hown'.inv with ⟨ho', rfl⟩ | ⟨l', lc', ho', rfl, hl', hk'⟩
          · rfl
          · rw [ho] at ho'; cases ho'
        · rcases hown'.inv with ⟨ho', rfl⟩ | ⟨l', lc', ho', rfl, hl', hk'⟩
          · rw [ho] at ho'; cases ho'
          · rw [ho] at ho'; cases ho'
            rw [hl] at hl'; cases hl'
            rfl
      subst hv
      have hk : ∀ e ∈ es, f e.1 = f' e.1 ∧ (g e.1).map (·.2) = (g' e.1).map (·.2) := fun e he => ih e.1 e.2 he (hch' e.1 e.2 he)
      constructor
      · rw [flatMap_congr' fun e he => (hk e he).1]
      · simp only [List.map_cons, List.map_flatMap]
        rw [flatMap_congr' fun e he => (hk e he).2]

/-- A node does not occur in the subtree of one of its children. -/
theorem Rep.notin {n : Inner} {pfx : Key} {es : Edges} {st : Option Addr} {vals : List (Ent V)}
    {f : Byte → List (Ent V)} {g : Byte → List (Key × Addr)}
    (ha : h[a]? = some (.inner n)) (hL : Layout n es st) (hne : Filled n es) (hh : Header n pfx)
    (hst : StaleOK h (p ++ pfx) es st) (hown : OwnLeaf h (p ++ pfx) n.leaf vals)
    (hnd : n.leaf ≠ none → Art.dollar ∉ es.map (·.1)) (htw : n.Fork es)
    (hch : ∀ b c, (b, c) ∈ es → Rep h (p ++ pfx ++ [b]) c (f b) (g b)) {b : Byte} {c : Addr} (hb : (b, c) ∈ es) : ¬ Occ (f b) (g b) a := by
  intro ho
  rcases ho with ho | ho
  · obtain ⟨⟨q, x⟩, hx, rfl⟩ := List.mem_map.1 ho
    obtain ⟨E', N', h1, h2, -⟩ := (hch b c hb).sub q x hx
    have hu := (Rep.node ha hL hne hh hst hown hnd htw hch).unique h1
    have hl := congrArg List.length hu.2
    rw [List.length_map, List.length_map, List.length_cons] at hl
    obtain ⟨l, r, rfl⟩ := List.append_of_mem hb
    simp only [List.flatMap_append, List.flatMap_cons, List.length_append] at hl
    omega
  · obtain ⟨e, he, rfl⟩ := List.mem_map.1 ho
    obtain ⟨lc, hlc, -⟩ := (hch b c hb).leaf_of e he
    rw [ha] at hlc; cases hlc

/-- Subtrees below different edges have no node in common. -/
theorem Rep.disjoint {P : Key} {b b' : Byte} {c c' : Addr} {E' : List (Ent V)} {N' : List (Key × Addr)} (h1 : Rep h (P ++ [b]) c E N)
    (h2 : Rep h (P ++ [b']) c' E' N') (hb : b ≠ b') {x : Addr} (o1 : Occ E N x) (o2 : Occ E' N' x) : False := by
  rcases o1 with o1 | o1
  · obtain ⟨⟨q, x⟩, hx, rfl⟩ := List.mem_map.1 o1
    rcases o2 with o2 | o2
    · obtain ⟨⟨q', x'⟩, hx', heq⟩ := List.mem_map.1 o2
      simp only at heq
      subst heq
      obtain ⟨E1, N1, r1, -, s1, -⟩ := h1.sub q x' hx
      obtain ⟨E2, N2, r2, -, s2, -⟩ := h2.sub q' x' hx'
      obtain ⟨hu, -⟩ := r1.unique r2
      subst hu
      obtain ⟨e, es, rfl⟩ := List.exists_cons_of_ne_nil r1.ne_nil
      exact hb (prefix_edge (h1.prefix e (s1 e (by simp))) (h2.prefix e (s2 e (by simp))))
    · obtain ⟨e, he, heq⟩ := List.mem_map.1 o2
      obtain ⟨lc, hlc, -⟩ := h2.leaf_of e he
      obtain ⟨n, hn⟩ := h1.inner_of q x hx
      rw [heq, hn] at hlc; cases hlc
  · obtain ⟨e, he, rfl⟩ := List.mem_map.1 o1
    obtain ⟨lc, hlc, hk, -⟩ := h1.leaf_of e he
    rcases o2 with o2 | o2
    · obtain ⟨⟨q', x'⟩, hx', heq⟩ := List.mem_map.1 o2
      simp only at heq
      subst heq
      obtain ⟨n, hn⟩ := h2.inner_of q' _ hx'
      rw [hlc] at hn; cases hn
    · obtain ⟨e', he', heq⟩ := List.mem_map.1 o2
      obtain ⟨lc', hlc', hk', -⟩ := h2.leaf_of e' he'
      rw [heq, hlc] at hlc'; cases hlc'
      have h3 := h1.prefix e he
      have h4 := h2.prefix e' he'
      rw [← hk'] at h4
      rw [← hk] at h3
      exact hb (prefix_edge h3 h4)

/-- The own leaf of a node is not below one of its edges. -/
theorem Rep.own_notin {P : Key} {o : Option Addr} {vals : List (Ent V)} {b : Byte} {c : Addr} (hown : OwnLeaf h P o vals) (h1 : Rep h (P ++ [b]) c E N)
    (hb : o ≠ none → b ≠ Art.dollar) {x : Addr} (hx : x ∈ vals.map (·.2.2)) : ¬ Occ E N x := by
  intro ho
  rcases hown.inv with ⟨-, rfl⟩ | ⟨l, lc, ho', rfl, hl, hk⟩
  · cases hx
  · simp only [List.map_cons, List.map_nil, List.mem_singleton] at hx
    subst hx
    rcases ho with ho | ho
    · obtain ⟨⟨q, y⟩, hy, rfl⟩ := List.mem_map.1 ho
      obtain ⟨n, hn⟩ := h1.inner_of q y hy
      rw [hl] at hn; cases hn
    · obtain ⟨e, he, rfl⟩ := List.mem_map.1 ho
      obtain ⟨lc', hlc', hk', -⟩ := h1.leaf_of e he
      rw [hl] at hlc'; cases hlc'
      have h3 := h1.prefix e he
      rw [← hk', hk] at h3
      have h4 := h3.eq_of_length (by simp)
      exact hb (by rw [ho']; simp) (by simpa using h4)

/-- The inner nodes of a subtree are distinct. -/
theorem Rep.nodupN (hr : Rep h p a E N) : (N.map (·.2)).Nodup := by
  induction hr with
  | leaf ha hL hpart hw hleaf hl hp hd => simp
  | @node p a n pfx es st vals f g ha hL hne hh hst hown hnd htw hch ih =>
    rw [List.map_cons, List.nodup_cons]
    constructor
    · intro hm
      obtain ⟨⟨q, x⟩, hx, rfl⟩ := List.mem_map.1 hm
      obtain ⟨⟨b, c⟩, hb, hx⟩ := List.mem_flatMap.1 hx
      exact Rep.notin ha hL hne hh hst hown hnd htw hch hb (Or.inl (List.mem_map.2 ⟨_, hx, rfl⟩))
    · have hs := hL.sorted
      clear hne hst hnd htw hh ha hL hown
      induction es with
      | nil => simp
      | cons e es ih' =>
        obtain ⟨b, c⟩ := e
        have hp := List.pairwise_cons.1 hs
        rw [List.flatMap_cons, List.map_append, List.nodup_append]
        refine ⟨ih b c (by simp), ih' (fun b c hb => hch b c (by simp [hb])) (fun b c hb => ih b c (by simp [hb])) hp.2, ?_⟩
        intro x hx y hy heq
        subst heq
        obtain ⟨⟨q, z⟩, hz, rfl⟩ := List.mem_map.1 hy
        obtain ⟨⟨b', c'⟩, hb', hz⟩ := List.mem_flatMap.1 hz
        refine Rep.disjoint (hch b c (by simp)) (hch b' c' (by simp [hb'])) (fun hbb => ?_) (Or.inl hx) (Or.inl (List.mem_map.2 ⟨_, hz, rfl⟩))
        subst hbb
        exact Byte.lt_irrefl (hp.1 (b, c') hb')

theorem Rep.lengthN (hr : Rep h p a E N) : N.length ≤ h.length := by
  have h1 := hr.nodupN.length_le_of_subset (l₂ := List.range h.length) fun x hx => List.mem_range.2 (hr.bound (Or.inl hx))
  simpa using h1

/-- The own leaf of the top of a subtree has a key below the path. -/
theorem Rep.sok (hr : Rep h p a E N) : SOK h (fun k => p <+: k) a := by
  cases hr with
  | leaf ha hL hpart hw hleaf hl hp hd =>
    refine ⟨_, ha, fun l' hl' => ?_⟩
    rw [hleaf] at hl'; cases hl'
    exact ⟨_, hl, hp⟩
  | node ha hL hne hh hst hown hnd htw hch =>
    refine ⟨_, ha, fun l' hl' => ?_⟩
    rcases hown.inv with ⟨ho, rfl⟩ | ⟨l, lc, ho, rfl, hl, hk⟩
    · rw [ho] at hl'; cases hl'
    · rw [ho] at hl'; cases hl'
      exact ⟨_, hl, by rw [hk, List.append_assoc]; exact List.prefix_append _ _⟩

theorem SOK.mono {Q Q' : Key → Prop} (hq : ∀ k, Q k → Q' k) (hs : SOK h Q a) : SOK h Q' a := by
  obtain ⟨m, hm, hl⟩ := hs
  refine ⟨m, hm, fun l h1 => ?_⟩
  obtain ⟨lc, h2, h3⟩ := hl l h1
  exact ⟨lc, h2, hq _ h3⟩

theorem SOK.bound {Q : Key → Prop} (hs : SOK h Q a) : a < h.length := by
  obtain ⟨m, hm, -⟩ := hs
  exact (List.getElem?_eq_some_iff.1 hm).1

end Art
