import Verif.Proofs.CleanSets
import Verif.Props.Clean
/-
Iteration, smallest and largest keys, and sets of keys, on broad histories.  `Ordered m` says that no key of the
map is continued by another one with a byte below `'$'`.
-/
set_option autoImplicit false
namespace Art
variable {V : Type} [Inhabited V]

/-- The map of tree 8 of the example history. -/
def demoMap : Map Nat := [(kB, 8), ([], 7), (List.replicate 11 97 ++ [98], 5), (List.replicate 12 97, 4), (kA, 3), (kFoo, 1)]

theorem demo_map : mapAfter demo 8 = some demoMap := by decide +kernel

theorem demo_tree : treeAfter demo 8 = some (treeOf demo 8) := by decide +kernel

theorem demo_ordered : demoMap.Ordered := by
  intro k k' b ⟨v, hk⟩ ⟨v', hk'⟩ hp
  have h1 : ∀ e ∈ demoMap, ∀ e' ∈ demoMap, e.1.isPrefixOf e'.1 = true → ((e'.1.drop e.1.length).head?).all (fun b => 36 ≤ b) = true := by decide +kernel
  obtain ⟨t, ht⟩ := hp
  have h2 := h1 _ hk _ hk' (List.isPrefixOf_iff_prefix.2 ⟨[b] ++ t, by rw [← List.append_assoc]; exact ht⟩)
  simp only at h2
  rw [← ht, List.append_assoc, List.drop_left] at h2
  simpa using h2

/-- C15 on broad histories, for trees with at least one key.  (An empty tree yields a phantom pair, see
`C15_false`.) -/
theorem C15_partial (ops : List (Op V)) (hc : Broad ops) (i : Nat) (t : Tree) (m : Map V) (ht : treeAfter ops i = some t) (hm : mapAfter ops i = some m)
    (hne : m ≠ []) : ∃ l, Ends (iterPrefix (heapAfter ops) t []) l ∧ l.Perm m := by
  obtain ⟨l, h1, h2, -⟩ := (hc.view ht hm).iter [] (Or.inl hne) (by simp)
  refine ⟨l, h1, h2.trans ?_⟩
  rw [List.filter_eq_self.2 (fun e he => by simp)]

example : ∃ l, Ends (iterPrefix (heapAfter demo) (treeOf demo 8) []) l ∧ l.Perm demoMap :=
  C15_partial demo demo_clean.broad 8 _ _ demo_tree demo_map (by decide)

/-- C16 on broad histories, for trees without keys that are continued by a byte below `'$'`. -/
theorem C16_partial (ops : List (Op V)) (hc : Broad ops) (i : Nat) (t : Tree) (m : Map V) (p : Key) (l : List (Key × V)) (ht : treeAfter ops i = some t)
    (hm : mapAfter ops i = some m) (hne : m ≠ []) (hp : ∀ k, m.has k → p ≠ k ++ [36]) (ho : m.Ordered) (hl : Ends (iterPrefix (heapAfter ops) t p) l) :
    l.Pairwise fun a b => Key.lt a.1 b.1 := by
  obtain ⟨l', h1, -, h3⟩ := (hc.view ht hm).iter p (Or.inl hne) hp
  obtain ⟨n, hn⟩ := hl
  obtain ⟨n', hn'⟩ := h1
  have h4 := hn (n + n') (by omega)
  rw [hn' (n + n') (by omega)] at h4
  cases h4
  exact h3 ho

example : ([([], 7), (kA, 3), (List.replicate 12 97, 4), (List.replicate 11 97 ++ [98], 5), (kB, 8), (kFoo, 1)] : List (Key × Nat)).Pairwise
    fun a b => Key.lt a.1 b.1 :=
  C16_partial demo demo_clean.broad 8 _ _ [] _ demo_tree demo_map (by decide) (by simp) demo_ordered ⟨40, fun m hm => by
    rw [fuel_le (fun n => iterPrefix_succ _ _ _ n) hm] <;> decide +kernel⟩

/-- C17 on broad histories.  The exceptions: the empty prefix on the empty tree, and prefixes that consist of a
stored key and `'$'`. -/
theorem C17_partial (ops : List (Op V)) (hc : Broad ops) (i : Nat) (t : Tree) (m : Map V) (p : Key) (ht : treeAfter ops i = some t) (hm : mapAfter ops i = some m)
    (hne : m ≠ [] ∨ p ≠ []) (hp : ∀ k, m.has k → p ≠ k ++ [36]) :
    ∃ l, Ends (iterPrefix (heapAfter ops) t p) l ∧ l.Perm (m.filter fun e => p <+: e.1) := by
  obtain ⟨l, h1, h2, -⟩ := (hc.view ht hm).iter p hne hp
  exact ⟨l, h1, h2⟩

example : ∃ l, Ends (iterPrefix (heapAfter demo) (treeOf demo 8) (List.replicate 11 97)) l ∧
    l.Perm [(List.replicate 11 97 ++ [98], 5), (List.replicate 12 97, 4)] := by
  obtain ⟨l, h1, h2⟩ := C17_partial demo demo_clean.broad 8 _ _ (List.replicate 11 97) demo_tree demo_map (Or.inr (by decide)) (by
    rintro k - h
    have h36 : (36 : Byte) ∈ List.replicate 11 97 := by rw [h]; simp
    exact absurd (List.eq_of_mem_replicate h36) (by decide))
  have h3 : demoMap.filter (fun e => decide (List.replicate 11 97 <+: e.1)) = [(List.replicate 11 97 ++ [98], 5), (List.replicate 12 97, 4)] := by
    decide +kernel
  rw [h3] at h2
  exact ⟨l, h1, h2⟩

/-- C18 on broad histories, for trees with a key, under the same condition as C16. -/
theorem C18_partial (ops : List (Op V)) (hc : Broad ops) (i : Nat) (t : Tree) (m : Map V) (ht : treeAfter ops i = some t) (hm : mapAfter ops i = some m)
    (ho : m.Ordered) (k : Key) (v : V) (hk : m.IsMin k v) : treeMinimum (heapAfter ops) t = .ok (some (k ++ [36], v)) :=
  (hc.view ht hm).minimum ho hk

theorem demo_isMin : demoMap.IsMin [] 7 := ⟨by decide, fun k' v' _ hne => by cases k' with | nil => exact absurd rfl hne | cons => trivial⟩

example : treeMinimum (heapAfter demo) (treeOf demo 8) = .ok (some ([36], 7)) :=
  C18_partial demo demo_clean.broad 8 _ _ demo_tree demo_map demo_ordered [] 7 demo_isMin

/-- C19 on broad histories, for trees with a key, under the same condition as C16. -/
theorem C19_partial (ops : List (Op V)) (hc : Broad ops) (i : Nat) (t : Tree) (m : Map V) (ht : treeAfter ops i = some t) (hm : mapAfter ops i = some m)
    (ho : m.Ordered) (k : Key) (v : V) (hk : m.IsMax k v) : treeMaximum (heapAfter ops) t = .ok (some (k ++ [36], v)) :=
  (hc.view ht hm).maximum ho hk

theorem demo_isMax : demoMap.IsMax kFoo 1 := ⟨by decide +kernel, fun k' v' hv hne => by
  have h1 : ∀ e ∈ demoMap, e.1 ≠ kFoo → Key.lt e.1 kFoo := by decide +kernel
  exact h1 _ (Map.mem_of_get hv) hne⟩

example : treeMaximum (heapAfter demo) (treeOf demo 8) = .ok (some (kFoo ++ [36], 1)) :=
  C19_partial demo demo_clean.broad 8 _ _ demo_tree demo_map demo_ordered kFoo 1 demo_isMax

/-! ### Sets of keys -/

/-- C40 for compatible keys; the iteration sequence also needs the condition of C16, and at least one key. -/
theorem C40_partial (l l' : List (Key × V)) (hp : l.Perm l') (hn : (l.map (·.1)).Nodup) (hc : Map.Compatible l) :
    let w := (execAll World.init (inserts l)).2
    let w' := (execAll World.init (inserts l')).2
    (∀ k, (exec w (.get l.length k)).1 = (exec w' (.get l.length k)).1) ∧
    (exec w (.len l.length)).1 = (exec w' (.len l.length)).1 ∧
    (Map.Ordered l → l ≠ [] → ∀ t t', w.trees[l.length]? = some t → w'.trees[l.length]? = some t' → ∀ r,
      Ends (iterPrefix w.heap t []) r ↔ Ends (iterPrefix w'.heap t' []) r) := by
  obtain ⟨h1, h2⟩ := inserts_spec' l hn
  obtain ⟨h1', h2'⟩ := inserts_spec' l' ((hp.map _).nodup_iff.1 hn)
  have hcl := h2 hc
  have hcl' := h2' (hc.perm hp)
  rw [← hp.length_eq] at h1'
  have hperm : l.reverse.Perm l'.reverse := (List.reverse_perm l).trans (hp.trans (List.reverse_perm l').symm)
  have hn' : (l.reverse.map (·.1)).Nodup := by rw [List.map_reverse]; exact (List.reverse_perm _).nodup_iff.2 hn
  refine ⟨fun k => ?_, ?_, fun ho hne t t' ht ht' r => ?_⟩
  · rw [hcl.out (op := .get _ _) ⟨rfl, trivial⟩ rfl, hcl'.out (op := .get _ _) ⟨rfl, trivial⟩ rfl]
    simp only [sexec, show (specAfter (inserts l)).trees[l.length]? = some l.reverse from h1, show (specAfter (inserts l')).trees[l.length]? = some l'.reverse from h1']
    rw [Map.get_perm hperm hn']
  · rw [hcl.out (op := .len _) ⟨rfl, trivial⟩ rfl, hcl'.out (op := .len _) ⟨rfl, trivial⟩ rfl]
    simp only [sexec, show (specAfter (inserts l)).trees[l.length]? = some l.reverse from h1, show (specAfter (inserts l')).trees[l.length]? = some l'.reverse from h1']
    rw [hperm.length_eq]
  · exact (hcl.view ht h1).iter_same (hcl'.view ht' h1') hperm (by simpa using hne) (ho.perm (List.reverse_perm l).symm) r

example (k : Key) : (exec (execAll World.init (inserts [(kFoo, 1), (kFoobar, 2), (kA, 3)])).2 (.get 3 k)).1 =
    (exec (execAll World.init (inserts [(kA, 3), (kFoobar, 2), (kFoo, 1)])).2 (.get 3 k)).1 :=
  (C40_partial _ _ (List.reverse_perm [(kA, 3), (kFoobar, 2), (kFoo, 1)]) (by decide +kernel) (.of_plain (by decide +kernel) (by decide))).1 k

/-- C41 on clean histories; the iteration sequence needs the condition of C16, and at least one key. -/
theorem C41_partial (ops : List (Op V)) (hc : Clean ops) (i : Nat) (k : Key) (v : V) (m : Map V) (hm : mapAfter ops i = some m) (hk : m.get k = none) (hs : m.CanSet k) :
    let w := (execAll World.init ops).2
    let n := w.trees.length
    let w' := (execAll w [.insert i k v, .delete n k]).2
    (∀ k', (exec w' (.get (n + 1) k')).1 = (exec w (.get i k')).1) ∧
    (exec w' (.len (n + 1))).1 = (exec w (.len i)).1 ∧
    (m.Ordered → m ≠ [] → ∀ t t', w.trees[i]? = some t → w'.trees[n + 1]? = some t' → ∀ r,
      Ends (iterPrefix w.heap t []) r ↔ Ends (iterPrefix w'.heap t' []) r) := by
  have hm' : (specAfter ops).trees[i]? = some m := hm
  have habs : ¬ m.has k := fun ⟨v', hv'⟩ => by
    have := List.find?_eq_none.1 (Option.map_eq_none_iff.1 hk) _ hv'
    simp at this
  have hlen := hc.good.1.ntrees
  have hop1 : (Op.insert i k v).Clean (specAfter ops) := ⟨rfl, fun m' h => by rw [hm'] at h; cases h; exact hs⟩
  have hs1 : (sexec (specAfter ops) (.insert i k v)).2 = { specAfter ops with trees := (specAfter ops).trees ++ [m.set k v] } := by simp only [sexec, hm']
  have hc1 := hc.snoc hop1
  have hsp1 : (specAfter (ops ++ [.insert i k v])).trees = (specAfter ops).trees ++ [m.set k v] := by rw [specAfter, sexecAll_snoc, hs1]
  have ht1 : (specAfter (ops ++ [.insert i k v])).trees[(worldAfter ops).trees.length]? = some (m.set k v) := by rw [hsp1, hlen]; simp
  have hop2 : (Op.delete (worldAfter ops).trees.length k : Op V).Clean (specAfter (ops ++ [.insert i k v])) :=
    ⟨rfl, fun m' h => by rw [ht1] at h; cases h; exact Or.inl ⟨v, by simp [Map.set]⟩⟩
  have hc2 := hc1.snoc hop2
  have hdel : (m.set k v).del k = m := by
    have : (m.set k v).del k = (m.del k).del k := by simp [Map.set, Map.del]
    rw [this, Map.del_absent habs, Map.del_absent habs]
  have ht2 : (specAfter ((ops ++ [.insert i k v]) ++ [.delete (worldAfter ops).trees.length k])).trees[(worldAfter ops).trees.length + 1]? = some m := by
    rw [specAfter, sexecAll_snoc]
    simp only [sexec, ht1, hdel]
    rw [hsp1, hlen]
    simp
  have hw : (execAll (execAll World.init ops).2 [.insert i k v, .delete (execAll World.init ops).2.trees.length k]).2 =
      worldAfter ((ops ++ [.insert i k v]) ++ [.delete (worldAfter ops).trees.length k]) := by
    rw [List.append_assoc, worldAfter, execAll_append]; rfl
  intro w n w'
  rw [show w' = _ from hw]
  refine ⟨fun k' => ?_, ?_, fun ho hne t t' ht ht' r => ?_⟩
  · rw [hc2.out (op := .get _ _) ⟨rfl, trivial⟩ rfl, hc.out (op := .get _ _) ⟨rfl, trivial⟩ rfl]
    simp only [sexec, hm']
    rw [ht2]
  · rw [hc2.out (op := .len _) ⟨rfl, trivial⟩ rfl, hc.out (op := .len _) ⟨rfl, trivial⟩ rfl]
    simp only [sexec, hm']
    rw [ht2]
  · exact (hc.view ht hm).iter_same (hc2.view ht' ht2) (.refl _) hne ho r

example (k : Key) : (exec (execAll (execAll World.init demo).2 [.insert 8 kFoobar 9, .delete (execAll World.init demo).2.trees.length kFoobar]).2
    (.get ((execAll World.init demo).2.trees.length + 1) k)).1 =
    (exec (execAll World.init demo).2 (.get 8 k)).1 :=
  (C41_partial demo demo_clean 8 kFoobar 9 demoMap demo_map (by decide +kernel) (.of_ok (by decide +kernel))).1 k

end Art
