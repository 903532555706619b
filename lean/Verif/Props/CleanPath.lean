import Verif.Proofs.CleanPath
import Verif.Props.CleanIter
/-
Path iterators and reverse iterators on broad histories.
-/
set_option autoImplicit false
namespace Art
variable {V : Type} [Inhabited V]

/-- C21 on broad histories: the path iterator returns exactly the stored prefixes of the path, in ascending length
if no key is continued by a byte below `'$'`.  (Missing for the full statement: histories that are not broad, and the
order for other sets of keys, see `C21_false`.) -/
theorem C21_partial (ops : List (Op V)) (hc : Broad ops) (i : Nat) (t : Tree) (m : Map V) (q : Key) (ht : treeAfter ops i = some t) (hm : mapAfter ops i = some m) :
    ∃ l, Ends (fun fuel => pathCollect (heapAfter ops) fuel (getPathIterator t q)) l ∧
      l.Perm (m.filter fun e => e.1 <+: q) ∧ (m.Ordered → l.Pairwise fun a b => a.1.length < b.1.length) :=
  (hc.view ht hm).path q

example : ∃ l, Ends (fun fuel => pathCollect (heapAfter demo) fuel (getPathIterator (treeOf demo 8) (List.replicate 13 97))) l ∧
    l.Perm [([], 7), (List.replicate 12 97, 4), (kA, 3)] ∧ l.Pairwise fun a b => a.1.length < b.1.length := by
  obtain ⟨l, h1, h2, h3⟩ := C21_partial demo demo_clean.broad 8 _ _ (List.replicate 13 97) demo_tree demo_map
  have h4 : demoMap.filter (fun e => decide (e.1 <+: List.replicate 13 97)) = [([], 7), (List.replicate 12 97, 4), (kA, 3)] := by decide +kernel
  rw [h4] at h2
  exact ⟨l, h1, h2, h3 demo_ordered⟩

/-- C23 on broad histories for the empty bound, for trees with at least one key: every pair is returned exactly once, in
ascending order if no key is continued by a byte below `'$'`.  (Missing for the full statement: all other bounds, for
which the code may return smaller keys or stop early, see `C23_false`.) -/
theorem C23_partial (ops : List (Op V)) (hc : Broad ops) (i : Nat) (t : Tree) (m : Map V) (ht : treeAfter ops i = some t) (hm : mapAfter ops i = some m)
    (hne : m ≠ []) :
    ∃ l, Ends (iterLowerBound (heapAfter ops) t []) l ∧
      l.Perm (m.filter fun e => cmpBytes e.1 [] ≠ .lt) ∧ (m.Ordered → l.Pairwise fun a b => Key.lt a.1 b.1) := by
  obtain ⟨l, h1, h2, h3⟩ := (hc.view ht hm).lbAll hne
  refine ⟨l, h1, ?_, h3⟩
  rw [List.filter_eq_self.2]
  · exact h2
  · rintro ⟨k, v⟩ -
    cases k <;> simp [cmpBytes]

example : ∃ l, Ends (iterLowerBound (heapAfter demo) (treeOf demo 8) []) l ∧
    l.Perm (demoMap.filter fun e => cmpBytes e.1 [] ≠ .lt) ∧ l.Pairwise fun a b => Key.lt a.1 b.1 := by
  obtain ⟨l, h1, h2, h3⟩ := C23_partial demo demo_clean.broad 8 _ _ demo_tree demo_map (by decide)
  exact ⟨l, h1, h2, h3 demo_ordered⟩

/-- C24 on broad histories, for trees with at least one key that do not contain the empty key: a fresh reverse
iterator returns every pair exactly once, descending if no key is a prefix of another one.  (Missing for the full
statement: a key is returned before its continuations, the empty key is returned twice, and empty trees yield a
phantom pair.) -/
theorem C24_partial (ops : List (Op V)) (hc : Broad ops) (i : Nat) (t : Tree) (m : Map V) (ht : treeAfter ops i = some t) (hm : mapAfter ops i = some m)
    (hne : m ≠ []) (h0 : m.get [] = none) :
    ∃ l, Ends (fun fuel => revCollect (heapAfter ops) fuel (mkRevIter t.root)) l ∧
      l.Perm m ∧ (m.PrefixFree → l.Pairwise fun a b => Key.lt b.1 a.1) := by
  refine (hc.view ht hm).rev hne fun ⟨v, hv⟩ => ?_
  have := List.find?_eq_none.1 (Option.map_eq_none_iff.1 h0) _ hv
  simp at this

/-- Tree 3 of this history has the keys foo, b and a1. -/
def demo3 : List (Op Nat) := [.newTree, .insert 0 kFoo 1, .insert 1 kB 2, .insert 2 (ascii ['a', '1']) 3]

example : ∃ l, Ends (fun fuel => revCollect (heapAfter demo3) fuel (mkRevIter (treeOf demo3 3).root)) l ∧
    l.Perm [(ascii ['a', '1'], 3), (kB, 2), (kFoo, 1)] ∧ l.Pairwise fun a b => Key.lt b.1 a.1 := by
  obtain ⟨l, h1, h2, h3⟩ := C24_partial demo3 (.of_loose (by decide +kernel)) 3 (treeOf demo3 3) [(ascii ['a', '1'], 3), (kB, 2), (kFoo, 1)]
    (by decide +kernel) (by decide +kernel) (by decide) (by decide +kernel)
  refine ⟨l, h1, h2, h3 ?_⟩
  rintro k k' ⟨v, hk⟩ ⟨v', hk'⟩ hp
  have h4 : ∀ e ∈ [(ascii ['a', '1'], 3), (kB, 2), (kFoo, 1)], ∀ e' ∈ [(ascii ['a', '1'], 3), (kB, 2), (kFoo, 1)], e.1.isPrefixOf e'.1 = true → e'.1 = e.1 := by
    decide +kernel
  exact h4 _ hk _ hk' (List.isPrefixOf_iff_prefix.2 hp)

end Art
