import Verif.Proofs.Longest
import Verif.Proofs.Lineage
import Verif.Props.CleanPath
/-
`LongestPrefix` and `Walk` on trees of broad histories that never lost a key.
-/
set_option autoImplicit false
namespace Art
variable {V : Type} [Inhabited V]

/-- C20 on broad histories, for trees that never lost a key since they were last empty, with at least one key: `LongestPrefix(q)` is the longest key that
is a prefix of `q`, if

* no key is a prefix of another one, or no key is continued by a byte below `'$'` and no node needs more than 12
  children, and
* a key that is a prefix of all keys (which the code returns without a comparison) is a prefix of `q`.

(Missing for the full statement: other trees and queries, see `C20_false`; after deletions stale child slots are read.) -/
theorem C20_partial (ops : List (Op V)) (hc : Broad ops) (i : Nat) (hu : Uncut ops i) (t : Tree) (m : Map V) (q : Key)
    (ht : treeAfter ops i = some t) (hm : mapAfter ops i = some m) (hne : m ≠ []) (hk : m.PrefixFree ∨ (m.Ordered ∧ m.Narrow 12))
    (hq : ∀ k, m.has k → (∀ k', m.has k' → k <+: k') → k <+: q) :
    ((∀ e ∈ m, ¬ e.1 <+: q) → longestPrefix (heapAfter ops) t q = .ok none) ∧
    (∀ k v, m.IsLongest q k v → longestPrefix (heapAfter ops) t q = .ok (some (k, v))) := by
  have hn := (hc.view ht hm).nodup
  letI : Removals := ⟨False⟩
  obtain ⟨h1, h2⟩ := ViewOf.longest (hc.uncut hu ht hm) (fun h => h) hne q hk hq
  refine ⟨fun hno => h1 fun k ⟨v, hv⟩ => hno _ hv, fun k v ⟨h3, h4, h5⟩ => h2 k v h3 h4 fun k' ⟨v', hv'⟩ hp => h5 k' v' ?_ hp⟩
  exact (Map.get_iff hn).2 hv'

/-- Tree 5 of this history has five keys, some of them prefixes of others. -/
def demo5 : List (Op Nat) := build [kA, ascii ['b', 'c'], kAB, ascii ['a', 'b', 'c'], List.replicate 14 97]
def demo5Map : Map Nat := [(List.replicate 14 97, 5), (ascii ['a', 'b', 'c'], 4), (kAB, 3), (ascii ['b', 'c'], 2), (kA, 1)]

theorem demo5_ordered : demo5Map.Ordered := by
  rintro k k' b ⟨v, hk⟩ ⟨v', hk'⟩ hp
  have h4 : ∀ e ∈ demo5Map, ∀ e' ∈ demo5Map, e.1.isPrefixOf e'.1 = true → e'.1.drop e.1.length = [] ∨ 36 ≤ ((e'.1.drop e.1.length).headD 255) := by decide +kernel
  obtain ⟨w, rfl⟩ := hp
  have := h4 _ hk _ hk' (List.isPrefixOf_iff_prefix.2 ⟨b :: w, by simp⟩)
  simpa using this

example : longestPrefix (heapAfter demo5) (treeOf demo5 5) (ascii ['a', 'b', 'd']) = .ok (some (kAB, 3)) := by
  refine (C20_partial demo5 (.of_loose (by decide +kernel)) 5 (by decide +kernel) _ demo5Map _ (by decide +kernel) (by decide +kernel) (by decide)
    (Or.inr ⟨demo5_ordered, .of_length (by decide)⟩) fun k ⟨v, hk⟩ hall => ?_).2 kAB 3 ⟨by decide +kernel, by decide, fun k' v' hg hp => ?_⟩
  · exfalso
    have h1 : ∀ e ∈ demo5Map, ∃ e' ∈ demo5Map, e.1.isPrefixOf e'.1 = false := by decide +kernel
    obtain ⟨e', he', hp⟩ := h1 _ hk
    rw [List.isPrefixOf_iff_prefix.2 (hall e'.1 ⟨_, he'⟩)] at hp
    cases hp
  · have h1 : ∀ e ∈ demo5Map, e.1.isPrefixOf (ascii ['a', 'b', 'd']) = true → e.1.length ≤ 2 := by decide +kernel
    exact h1 (k', v') (Map.mem_of_get hg) (List.isPrefixOf_iff_prefix.2 hp)

/-- C26 on broad histories, for trees that never lost a key since they were last empty, with at least one key: `Walk` calls the function for different
keys of the tree until it returns true; the keys are the same for all functions, and every key that is not a prefix of
another one is among them.  They are in ascending order if no key is continued by a byte below `'$'` and no node needs
more than 12 children.  (Missing for the full statement: the value passed is always the zero value, most keys that are
prefixes of others are skipped, see `C26_false`; after deletions stale child slots are visited.) -/
theorem C26_partial (ops : List (Op V)) (hc : Broad ops) (i : Nat) (hu : Uncut ops i) (t : Tree) (m : Map V)
    (ht : treeAfter ops i = some t) (hm : mapAfter ops i = some m) (hne : m ≠ []) :
    ∃ L : List Key, (∀ fn, treeWalk (heapAfter ops) t fn = .ok (callsUntil fn (L.map fun k => (k, default)))) ∧ L.Nodup ∧ (∀ k ∈ L, m.has k) ∧
      (∀ k, m.has k → (∀ k', m.has k' → k <+: k' → k' = k) → k ∈ L) ∧ (m.Ordered → m.Narrow 12 → L.Pairwise Key.lt) := by
  letI : Removals := ⟨False⟩
  exact ViewOf.walk (hc.uncut hu ht hm) (fun h => h) hne

example : ∃ L : List Key, (∀ fn, treeWalk (heapAfter demo5) (treeOf demo5 5) fn = .ok (callsUntil fn (L.map fun k => (k, 0)))) ∧
    L.Pairwise Key.lt ∧ ascii ['a', 'b', 'c'] ∈ L ∧ List.replicate 14 97 ∈ L := by
  obtain ⟨L, h1, h2, h3, h4, h5⟩ := C26_partial demo5 (.of_loose (by decide +kernel)) 5 (by decide +kernel) (treeOf demo5 5) demo5Map
    (by decide +kernel) (by decide +kernel) (by decide)
  have h6 : ∀ e' ∈ demo5Map, ((ascii ['a', 'b', 'c']).isPrefixOf e'.1 = true → e'.1 = ascii ['a', 'b', 'c']) ∧
      ((List.replicate 14 (97 : Byte)).isPrefixOf e'.1 = true → e'.1 = List.replicate 14 97) := by decide +kernel
  refine ⟨L, h1, h5 demo5_ordered (.of_length (by decide)), h4 _ ⟨4, by decide⟩ ?_, h4 _ ⟨5, by decide⟩ ?_⟩
  · rintro k' ⟨v', hk'⟩ hp; exact (h6 _ hk').1 (List.isPrefixOf_iff_prefix.2 hp)
  · rintro k' ⟨v', hk'⟩ hp; exact (h6 _ hk').2 (List.isPrefixOf_iff_prefix.2 hp)

/-! ### Histories with deletions -/

/-- A key was deleted on the way to tree 6 and tree 3, but not to tree 5. -/
def demo5Cut : List (Op Nat) := demo5 ++ [.delete 5 kAB, .delete 2 kA]

example : Uncut demo5Cut 5 ∧ ¬ Uncut demo5Cut 6 := by decide +kernel

example : ∃ L : List Key, (∀ fn, treeWalk (heapAfter demo5Cut) (treeOf demo5Cut 5) fn = .ok (callsUntil fn (L.map fun k => (k, 0)))) ∧ L.Nodup ∧
    List.replicate 14 97 ∈ L := by
  obtain ⟨L, h1, h2, h3, h4, h5⟩ := C26_partial demo5Cut (.of_loose (by decide +kernel)) 5 (by decide +kernel) (treeOf demo5Cut 5) demo5Map
    (by decide +kernel) (by decide +kernel) (by decide)
  have h6 : ∀ e' ∈ demo5Map, ((List.replicate 14 (97 : Byte)).isPrefixOf e'.1 = true → e'.1 = List.replicate 14 97) := by decide +kernel
  refine ⟨L, h1, h2, h4 _ ⟨5, by decide⟩ ?_⟩
  rintro k' ⟨v', hk'⟩ hp; exact h6 _ hk' (List.isPrefixOf_iff_prefix.2 hp)

/-- A tree that was emptied in between counts as new. -/
def refilled : List (Op Nat) := [.newTree, .insert 0 kC 7, .delete 1 kC, .insert 2 kAB 1, .insert 3 kB 2]

example : longestPrefix (heapAfter refilled) (treeOf refilled 4) (ascii ['a', 'b', 'd']) = .ok (some (kAB, 1)) := by
  refine (C20_partial refilled (.of_loose (by decide +kernel)) 4 (by decide +kernel) _ [(kB, 2), (kAB, 1)] _ (by decide +kernel) (by decide +kernel) (by decide)
    (Or.inl ?_) fun k ⟨v, hk⟩ hall => ?_).2 kAB 1 ⟨by decide +kernel, by decide, fun k' v' hg hp => ?_⟩
  · rintro k k' ⟨v, hk⟩ ⟨v', hk'⟩ hp
    have h1 : ∀ e ∈ [(kB, 2), (kAB, 1)], ∀ e' ∈ [(kB, 2), (kAB, 1)], e.1.isPrefixOf e'.1 = true → e'.1 = e.1 := by decide +kernel
    exact h1 _ hk _ hk' (List.isPrefixOf_iff_prefix.2 hp)
  · exfalso
    have h1 : ∀ e ∈ [(kB, 2), (kAB, 1)], ∃ e' ∈ [(kB, 2), (kAB, 1)], e.1.isPrefixOf e'.1 = false := by decide +kernel
    obtain ⟨e', he', hp⟩ := h1 _ hk
    rw [List.isPrefixOf_iff_prefix.2 (hall e'.1 ⟨_, he'⟩)] at hp
    cases hp
  · have h1 : ∀ e ∈ [(kB, 2), (kAB, 1)], e.1.isPrefixOf (ascii ['a', 'b', 'd']) = true → e.1.length ≤ 2 := by decide +kernel
    exact h1 (k', v') (Map.mem_of_get hg) (List.isPrefixOf_iff_prefix.2 hp)

def cutOps : List (Op Nat) := build [kA, kB, kC] ++ [.delete 3 kB]

/-- {a, b, c}: after `Delete(b)` a walk visits c twice, since the child slot behind the live ones still holds it.  So the tree
must not have lost a key. -/
theorem C26_cut : Broad cutOps ∧ treeWalk (heapAfter cutOps) (treeOf cutOps 4) (fun _ _ => false) = .ok [(kA, 0), (kC, 0), (kC, 0)] :=
  ⟨.of_loose (by decide +kernel), by decide +kernel⟩

end Art
