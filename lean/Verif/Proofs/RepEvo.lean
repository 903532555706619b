import Verif.Proofs.RepSearch
/-
How a subtree evolves when one key is inserted or deleted: entries, nodes and channels.
-/
set_option autoImplicit false
set_option linter.unusedVariables false
set_option linter.unusedSimpArgs false
set_option linter.unusedSectionVars false
namespace Art
variable {V : Type} [Removals] {s s' s'' : St V} {E E' A A' B B' : List (Ent V)} {N N' N1 N1' N2 N2' : List (Key × Addr)} {K p P : Key} {o : Option V}
  {b : Byte} {a a' c c' : Addr} {l r es : Edges} {M : Nat} {X : Addr → Prop}

/-- In a tracking transaction the channel of the node `x` is now the channel of `y`, or about to be closed. -/
def Keep (s s' : St V) (x y : Addr) : Prop :=
  s.txn.trackMutate = true → ∀ c, chAt s.heap x = some c → c ∈ s'.txn.trackChnSlice ∨ chAt s'.heap y = some c

theorem Stp.keep (h : Stp M X s s') (x : Addr) : Keep s s' x x := fun _ c hc => (h.chs x c hc).symm
theorem Trk.keep {x : Addr} (h : Trk s s' x) (y : Addr) : Keep s s' x y := fun ht c hc => Or.inl (h ht c hc)
theorem Keep.then {x y : Addr} (h : Keep s s' x y) (h2 : Stp M X s' s'') : Keep s s'' x y := fun ht c hc => by
  rcases h ht c hc with h | h
  · exact Or.inl (h2.slice c h)
  · exact (h2.chs y c h).symm
theorem Keep.trans {x y z : Addr} (h : Keep s s' x y) (h1 : Stp M X s s') (h2 : Stp M X s' s'') (h3 : Keep s' s'' y z) : Keep s s'' x z := fun ht c hc => by
  rcases h ht c hc with h | h
  · exact Or.inl (h2.slice c h)
  · exact h3 (h1.track.trans ht) c h

/-- The entries `E` in the nodes `N` become the entries `E'` in the nodes `N'`: the key `K` gets the value `o`
(or disappears), all other entries stay.  The channels of the old leaf of `K` and of all nodes on the path of `K`
are about to be closed; other channels stay with their key, or move to a node further up. -/
structure Evo (K : Key) (o : Option V) (s s' : St V) (E E' : List (Ent V)) (N N' : List (Key × Addr)) : Prop where
  occ : ∀ x, Occ E' N' x → Occ E N x ∨ s.heap.length ≤ x
  back : ∀ e' ∈ E', (e'.1 = K ∧ o = some e'.2.1) ∨ (e'.1 ≠ K ∧ ∃ e ∈ E, e.kv = e'.kv)
  fwd : ∀ e ∈ E, e.1 ≠ K → ∃ e' ∈ E', e'.kv = e.kv ∧ Keep s s' e.2.2 e'.2.2
  new : ∀ v, o = some v → ∃ e' ∈ E', e'.kv = (K, v)
  wK : ∀ e ∈ E, e.1 = K → Trk s s' e.2.2
  wN : ∀ q x, (q, x) ∈ N → q <+: K → Trk s s' x
  keep : ∀ q x, (q, x) ∈ N → Trk s s' x ∨ ∃ q' x', (q', x') ∈ N' ∧ q' <+: q ∧ Keep s s' x x'

theorem Evo.then (h : Evo K o s s' E E' N N') (h2 : Stp M X s' s'') : Evo K o s s'' E E' N N' where
  occ := h.occ
  back := h.back
  fwd := fun e he hk => by
    obtain ⟨e', h3, h4, h5⟩ := h.fwd e he hk
    exact ⟨e', h3, h4, h5.then h2⟩
  new := h.new
  wK := fun e he hk => (h.wK e he hk).then h2
  wN := fun q x hx hq => (h.wN q x hx hq).then h2
  keep := fun q x hx => by
    rcases h.keep q x hx with h3 | ⟨q', x', h3, h4, h5⟩
    · exact Or.inl (h3.then h2)
    · exact Or.inr ⟨q', x', h3, h4, h5.then h2⟩

theorem Evo.of_stp (h1 : Stp M X s s') (h : Evo K o s' s'' E E' N N') (h2 : Stp M X s' s'') : Evo K o s s'' E E' N N' where
  occ := fun x hx => (h.occ x hx).imp_right fun h => Nat.le_trans h1.len h
  back := h.back
  fwd := fun e he hk => by
    obtain ⟨e', h3, h4, h5⟩ := h.fwd e he hk
    exact ⟨e', h3, h4, (h1.keep _).trans h1 h2 h5⟩
  new := h.new
  wK := fun e he hk => (h.wK e he hk).of_stp h1 h2
  wN := fun q x hx hq => (h.wN q x hx hq).of_stp h1 h2
  keep := fun q x hx => by
    rcases h.keep q x hx with h3 | ⟨q', x', h3, h4, h5⟩
    · exact Or.inl (h3.of_stp h1 h2)
    · exact Or.inr ⟨q', x', h3, h4, (h1.keep _).trans h1 h2 h5⟩

theorem Occ.mono {x : Addr} (hE : ∀ e ∈ E, e ∈ E') (hN : ∀ e ∈ N, e ∈ N') (h : Occ E N x) : Occ E' N' x := by
  rcases h with h | h
  · obtain ⟨e, he, rfl⟩ := List.mem_map.1 h
    exact Or.inl (List.mem_map.2 ⟨e, hN e he, rfl⟩)
  · obtain ⟨e, he, rfl⟩ := List.mem_map.1 h
    exact Or.inr (List.mem_map.2 ⟨e, hE e he, rfl⟩)

theorem Occ.or {x : Addr} (hE : ∀ e ∈ E, e ∈ A ∨ e ∈ B) (hN : ∀ e ∈ N, e ∈ N1 ∨ e ∈ N2) (h : Occ E N x) : Occ A N1 x ∨ Occ B N2 x := by
  rcases h with h | h
  · obtain ⟨e, he, rfl⟩ := List.mem_map.1 h
    exact (hN e he).imp (fun h => Or.inl (List.mem_map.2 ⟨e, h, rfl⟩)) (fun h => Or.inl (List.mem_map.2 ⟨e, h, rfl⟩))
  · obtain ⟨e, he, rfl⟩ := List.mem_map.1 h
    exact (hE e he).imp (fun h => Or.inr (List.mem_map.2 ⟨e, h, rfl⟩)) (fun h => Or.inr (List.mem_map.2 ⟨e, h, rfl⟩))

/-- Two parts evolve side by side. -/
theorem Evo.union (h1 : Evo K o s s' A A' N1 N1') (h2 : Evo K none s s' B B' N2 N2') (hE : ∀ e, e ∈ E ↔ e ∈ A ∨ e ∈ B)
    (hE' : ∀ e, e ∈ E' ↔ e ∈ A' ∨ e ∈ B') (hN : ∀ e, e ∈ N ↔ e ∈ N1 ∨ e ∈ N2) (hN' : ∀ e, e ∈ N' ↔ e ∈ N1' ∨ e ∈ N2') :
    Evo K o s s' E E' N N' where
  occ := fun x hx => by
    rcases Occ.or (fun e he => (hE' e).1 he) (fun e he => (hN' e).1 he) hx with h | h
    · exact (h1.occ x h).imp_left fun h => h.mono (fun e he => (hE e).2 (Or.inl he)) fun e he => (hN e).2 (Or.inl he)
    · exact (h2.occ x h).imp_left fun h => h.mono (fun e he => (hE e).2 (Or.inr he)) fun e he => (hN e).2 (Or.inr he)
  back := fun e' he' => by
    rcases (hE' e').1 he' with he' | he'
    · rcases h1.back e' he' with h | ⟨h, e, he, hk⟩
      · exact Or.inl h
      · exact Or.inr ⟨h, e, (hE e).2 (Or.inl he), hk⟩
    · rcases h2.back e' he' with ⟨-, h⟩ | ⟨h, e, he, hk⟩
      · cases h
      · exact Or.inr ⟨h, e, (hE e).2 (Or.inr he), hk⟩
  fwd := fun e he hk => by
    rcases (hE e).1 he with he | he
    · obtain ⟨e', h3, h4⟩ := h1.fwd e he hk
      exact ⟨e', (hE' e').2 (Or.inl h3), h4⟩
    · obtain ⟨e', h3, h4⟩ := h2.fwd e he hk
      exact ⟨e', (hE' e').2 (Or.inr h3), h4⟩
  new := fun v hv => by
    obtain ⟨e', h3, h4⟩ := h1.new v hv
    exact ⟨e', (hE' e').2 (Or.inl h3), h4⟩
  wK := fun e he hk => by
    rcases (hE e).1 he with he | he
    · exact h1.wK e he hk
    · exact h2.wK e he hk
  wN := fun q x hx hq => by
    rcases (hN _).1 hx with hx | hx
    · exact h1.wN q x hx hq
    · exact h2.wN q x hx hq
  keep := fun q x hx => by
    rcases (hN _).1 hx with hx | hx
    · rcases h1.keep q x hx with h | ⟨q', x', h3, h4⟩
      · exact Or.inl h
      · exact Or.inr ⟨q', x', (hN' _).2 (Or.inl h3), h4⟩
    · rcases h2.keep q x hx with h | ⟨q', x', h3, h4⟩
      · exact Or.inl h
      · exact Or.inr ⟨q', x', (hN' _).2 (Or.inr h3), h4⟩

/-- A part that has nothing to do with the key. -/
theorem Evo.frame (h : Stp M X s s') (hE : ∀ e ∈ E, e.1 ≠ K) (hN : ∀ q x, (q, x) ∈ N → ¬ q <+: K) : Evo K none s s' E E N N where
  occ := fun x hx => Or.inl hx
  back := fun e' he' => Or.inr ⟨hE e' he', e', he', rfl⟩
  fwd := fun e he _ => ⟨e, he, rfl, h.keep _⟩
  new := fun v hv => nomatch hv
  wK := fun e he hk => absurd hk (hE e he)
  wN := fun q x hx hq => absurd hq (hN q x hx)
  keep := fun q x hx => Or.inr ⟨q, x, hx, List.prefix_refl _, h.keep _⟩

/-- The top of a subtree, when its channel is tracked. -/
theorem Evo.top (h : Trk s s' a) (ha : a' = a ∨ s.heap.length ≤ a') : Evo K none s s' ([] : List (Ent V)) [] [(p, a)] [(p, a')] where
  occ := fun x hx => by
    rcases hx with hx | hx
    · simp only [List.map_cons, List.map_nil, List.mem_singleton] at hx
      subst hx
      exact ha.imp_left fun h => Or.inl (by simp [h])
    · cases hx
  back := fun e' he' => nomatch he'
  fwd := fun e he _ => nomatch he
  new := fun v hv => nomatch hv
  wK := fun e he hk => nomatch he
  wN := fun q x hx hq => by cases List.mem_singleton.1 hx; exact h
  keep := fun q x hx => by cases List.mem_singleton.1 hx; exact Or.inl h

/-- New nodes. -/
theorem Evo.fresh {x : Addr} {v : V} (hx : s.heap.length ≤ x) (hN : ∀ q y, (q, y) ∈ N → s.heap.length ≤ y) :
    Evo K (some v) s s' ([] : List (Ent V)) [(K, v, x)] [] N where
  occ := fun y hy => by
    rcases hy with hy | hy
    · obtain ⟨e, he, rfl⟩ := List.mem_map.1 hy
      exact Or.inr (hN e.1 e.2 he)
    · simp only [List.map_cons, List.map_nil, List.mem_singleton] at hy
      subst hy
      exact Or.inr hx
  back := fun e' he' => by rw [List.mem_singleton.1 he']; exact Or.inl ⟨rfl, rfl⟩
  fwd := fun e he _ => nomatch he
  new := fun w hw => ⟨(K, v, x), by simp, by cases hw; rfl⟩
  wK := fun e he hk => nomatch he
  wN := fun q x hx hq => nomatch hx
  keep := fun q x hx => nomatch hx

/-- New inner nodes without entries of their own. -/
theorem Evo.freshN (hN : ∀ q y, (q, y) ∈ N → s.heap.length ≤ y) : Evo K none s s' ([] : List (Ent V)) [] [] N where
  occ := fun y hy => by
    rcases hy with hy | hy
    · obtain ⟨e, he, rfl⟩ := List.mem_map.1 hy
      exact Or.inr (hN e.1 e.2 he)
    · cases hy
  back := fun e' he' => nomatch he'
  fwd := fun e he _ => nomatch he
  new := fun w hw => nomatch hw
  wK := fun e he hk => nomatch he
  wN := fun q x hx hq => nomatch hx
  keep := fun q x hx => nomatch hx

/-- The own leaf of a node that was moved. -/
theorem Evo.own {x x' : Option Addr} {vals : List (Ent V)} (ho : OwnLeaf s.heap P x vals) (hm : LeafMv s s' x x') (hs : Stp M X s s') (hK : ∀ e ∈ vals, e.1 ≠ K) :
    ∃ vals', OwnLeaf s'.heap P x' vals' ∧ Evo K none s s' vals vals' [] [] := by
  rcases hm with ⟨rfl, rfl⟩ | ⟨y, y', lc, lc', rfl, rfl, h1, h2, h3, h4, h5⟩
  · rcases ho.inv with ⟨-, rfl⟩ | ⟨y, lc, h, -⟩
    · exact ⟨[], .none, Evo.frame hs (fun e he => nomatch he) fun q x hx => nomatch hx⟩
    · cases h
  · rcases ho.inv with ⟨h, -⟩ | ⟨y, lc, h, rfl, hl, hk⟩
    · cases h
    · cases h
      rw [h1] at hl; cases hl
      have hkeep : Keep s s' y y' := by
        rcases h5 with rfl | ⟨-, h5⟩
        · exact hs.keep _
        · exact h5.keep _
      refine ⟨_, .some h2 (h3.trans hk), ?_⟩
      have hKe := hK _ (List.mem_singleton.2 rfl)
      refine ⟨fun z hz => ?_, fun e' he' => ?_, fun e he _ => ?_, (fun v hv => nomatch hv), fun e he hk => absurd hk (hK e he), (fun q x hx => nomatch hx), (fun q x hx => nomatch hx)⟩
      · rcases hz with hz | hz
        · cases hz
        · simp only [List.map_cons, List.map_nil, List.mem_singleton] at hz
          subst hz
          rcases h5 with rfl | ⟨h5, -⟩
          · exact Or.inl (Or.inr (by simp))
          · exact Or.inr h5
      · rw [List.mem_singleton.1 he']
        refine Or.inr ⟨by simp only [h3]; exact hKe, _, List.mem_singleton.2 rfl, ?_⟩
        simp [Ent.kv, h3, h4]
      · rw [List.mem_singleton.1 he]
        exact ⟨_, List.mem_singleton.2 rfl, by simp [Ent.kv, h3, h4], hkeep⟩

/-! ### Replacing the subtree below one edge -/

/-- Replace the value at one byte. -/
def setF {α : Type} (f : Byte → List α) (b : Byte) (x : List α) : Byte → List α := fun b' => if b' = b then x else f b'

theorem setF_self {α : Type} {f : Byte → List α} {x : List α} : setF f b x b = x := by simp [setF]
theorem setF_ne {α : Type} {f : Byte → List α} {x : List α} {b' : Byte} (h : b' ≠ b) : setF f b x b' = f b' := by simp [setF, h]

/-- Things below the other edges. -/
theorem mem_kids {α : Type} {f : Byte → List α} {e : α} : e ∈ (l ++ r).flatMap (fun x => f x.1) ↔ ∃ b1 c1, (b1, c1) ∈ l ++ r ∧ e ∈ f b1 := by
  rw [List.mem_flatMap]
  exact ⟨fun ⟨x, h1, h2⟩ => ⟨x.1, x.2, h1, h2⟩, fun ⟨b1, c1, h1, h2⟩ => ⟨(b1, c1), h1, h2⟩⟩

theorem mem_split {α : Type} {f : Byte → List α} {e : α} : e ∈ (l ++ (b, c) :: r).flatMap (fun x => f x.1) ↔ e ∈ f b ∨ e ∈ (l ++ r).flatMap (fun x => f x.1) := by
  simp only [List.flatMap_append, List.flatMap_cons, List.mem_append]
  constructor
  · rintro (h | h | h)
    · exact Or.inr (Or.inl h)
    · exact Or.inl h
    · exact Or.inr (Or.inr h)
  · rintro (h | h | h)
    · exact Or.inr (Or.inl h)
    · exact Or.inl h
    · exact Or.inr (Or.inr h)

theorem mem_setF {α : Type} {f : Byte → List α} {x : List α} {e : α} (hs : Edges.Sorted (l ++ (b, c) :: r)) :
    e ∈ (l ++ (b, c) :: r).flatMap (fun y => setF f b x y.1) ↔ e ∈ x ∨ e ∈ (l ++ r).flatMap (fun y => f y.1) := by
  rw [mem_split (f := setF f b x), setF_self, mem_kids, mem_kids]
  refine or_congr Iff.rfl ⟨?_, ?_⟩
  · rintro ⟨b1, c1, h1, h2⟩
    exact ⟨b1, c1, h1, by rwa [setF_ne ((hs.mem_remove (b1, c1)).1 h1).1] at h2⟩
  · rintro ⟨b1, c1, h1, h2⟩
    exact ⟨b1, c1, h1, by rwa [setF_ne ((hs.mem_remove (b1, c1)).1 h1).1]⟩

/-- Keys and paths below other edges have nothing to do with the key. -/
theorem rest_keys {h : Heap V} {f : Byte → List (Ent V)} {g : Byte → List (Key × Addr)} (hs : Edges.Sorted (l ++ (b, c) :: r))
    (hch : ∀ b1 c1, (b1, c1) ∈ l ++ r → Rep h (P ++ [b1]) c1 (f b1) (g b1)) (hK : P ++ [b] <+: K) :
    (∀ e ∈ (l ++ r).flatMap (fun x => f x.1), e.1 ≠ K) ∧ ∀ q x, (q, x) ∈ (l ++ r).flatMap (fun x => g x.1) → ¬ q <+: K := by
  constructor
  · intro e he hk
    obtain ⟨b1, c1, h1, h2⟩ := mem_kids.1 he
    have h3 := (hch b1 c1 h1).prefix e h2
    rw [hk] at h3
    exact ((hs.mem_remove (b1, c1)).1 h1).1 (prefix_edge h3 hK)
  · intro q x hx hq
    obtain ⟨b1, c1, h1, h2⟩ := mem_kids.1 hx
    have h3 := (hch b1 c1 h1).paths _ h2
    exact ((hs.mem_remove (b1, c1)).1 h1).1 (prefix_edge (h3.trans hq) hK)

/-- A node evolves with the subtree below one edge. -/
theorem Evo.node {h : Heap V} {f : Byte → List (Ent V)} {g : Byte → List (Key × Addr)} {vals vals' : List (Ent V)} (hs : Edges.Sorted (l ++ (b, c) :: r))
    (hch : ∀ b1 c1, (b1, c1) ∈ l ++ r → Rep h (P ++ [b1]) c1 (f b1) (g b1)) (hK : P ++ [b] <+: K)
    (hst : Stp M X s s') (hv : Evo K none s s' vals vals' [] []) (ha : Trk s s' a) (haa : a' = a ∨ s.heap.length ≤ a')
    (hkid : Evo K o s s' A A' N1 N1')
    (hE : ∀ e, e ∈ E ↔ e ∈ vals ∨ e ∈ A ∨ e ∈ (l ++ r).flatMap (fun x => f x.1))
    (hN : ∀ e, e ∈ N ↔ e = (p, a) ∨ e ∈ N1 ∨ e ∈ (l ++ r).flatMap (fun x => g x.1))
    (hE' : ∀ e, e ∈ E' ↔ e ∈ vals' ∨ e ∈ A' ∨ e ∈ (l ++ r).flatMap (fun x => f x.1))
    (hN' : ∀ e, e ∈ N' ↔ e = (p, a') ∨ e ∈ N1' ∨ e ∈ (l ++ r).flatMap (fun x => g x.1)) : Evo K o s s' E E' N N' := by
  obtain ⟨hr1, hr2⟩ := rest_keys hs hch hK
  have h1 : Evo K none s s' (vals ++ []) (vals' ++ []) ([] ++ [(p, a)]) ([] ++ [(p, a')]) :=
    hv.union (Evo.top ha haa) (fun e => List.mem_append) (fun e => List.mem_append) (fun e => List.mem_append) (fun e => List.mem_append)
  have h2 := hkid.union (E := A ++ (vals ++ [])) (E' := A' ++ (vals' ++ [])) (N := N1 ++ ([] ++ [(p, a)])) (N' := N1' ++ ([] ++ [(p, a')])) h1 (fun e => List.mem_append) (fun e => List.mem_append) (fun e => List.mem_append) (fun e => List.mem_append)
  refine h2.union (Evo.frame hst hr1 hr2) (fun e => ?_) (fun e => ?_) (fun e => ?_) (fun e => ?_)
  · rw [hE]; simp only [List.mem_append, List.not_mem_nil, or_false, or_assoc]; exact or_left_comm
  · rw [hE']; simp only [List.mem_append, List.not_mem_nil, or_false, or_assoc]; exact or_left_comm
  · rw [hN]; simp only [List.mem_append, List.not_mem_nil, false_or, List.mem_singleton, or_assoc]; exact or_left_comm
  · rw [hN']; simp only [List.mem_append, List.not_mem_nil, false_or, List.mem_singleton, or_assoc]; exact or_left_comm

end Art
