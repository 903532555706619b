import Verif.Proofs.RevPrefix
import Verif.Props.Bounds
import Verif.Props.Negations
/-
`SeekPrefix` of a reverse iterator.
-/
set_option autoImplicit false
namespace Art
variable {V : Type} [Inhabited V]

/-- C49: a reverse iterator positioned with `SeekPrefix(p)` returns exactly the pairs whose key has the prefix `p`,
descending. -/
def C49_Full (V : Type) [Inhabited V] : Prop := ∀ ops : List (Op V), Ordinary ops → ∀ i t m p,
  treeAfter ops i = some t → mapAfter ops i = some m →
  ∃ l, Ends (iterReversePrefix (heapAfter ops) t p) l ∧ l.Perm (m.filter fun e => p <+: e.1) ∧ l.Pairwise fun a b => Key.lt b.1 a.1

theorem iterReversePrefix_succ {V : Type} (h : Heap V) (t : Tree) (p : Key) (n : Nat)
    (hne : iterReversePrefix h t p n ≠ .error .fuel) : iterReversePrefix h t p (n + 1) = iterReversePrefix h t p n := by
  unfold iterReversePrefix at hne ⊢
  cases hs : revSeekPrefix h (mkRevIter t.root) p with
  | error e => rfl
  | ok q => simp only [hs, Except.bind_ok] at hne ⊢; exact revCollect_succ h n _ hne

/-- {a, c}: the reverse iterator over the prefix `bb` returns a. -/
theorem C49_false : ¬ C49_Full Nat := fun h => by
  obtain ⟨l, hl, hp, -⟩ := h (build [kA, kC]) ⟨by decide +kernel, by decide +kernel⟩ 2 (treeOf (build [kA, kC]) 2)
    [(kC, 2), (kA, 1)] (ascii ['b', 'b']) (by decide +kernel) (by decide +kernel)
  have := hl.eq_of_run (fun n => iterReversePrefix_succ _ _ _ n) 50 (b := [(kA, 1)]) (by decide +kernel)
  subst this
  have h4 : ([(kC, 2), (kA, 1)] : Map Nat).filter (fun e => decide (ascii ['b', 'b'] <+: e.1)) = [] := by decide +kernel
  rw [h4] at hp
  exact absurd hp.length_eq (by decide)

/-- C49 on broad histories, for trees with at least one key and non-empty prefixes that are not a stored key and `'$'`:
the iterator returns exactly the pairs with the prefix if there are such pairs, or if all keys are larger than the
prefix without its last byte; descending if no key is a prefix of another one.  (Missing for the full statement: a prefix
that no key has may be answered with other pairs, see `C49_false`; a key comes before the keys that continue it.) -/
theorem C49_partial (ops : List (Op V)) (hc : Broad ops) (i : Nat) (t : Tree) (m : Map V) (p : Key)
    (ht : treeAfter ops i = some t) (hm : mapAfter ops i = some m) (hne : m ≠ []) (hp : p ≠ []) (hpd : ∀ k, m.has k → p ≠ k ++ [36])
    (hor : (∃ k, m.has k ∧ p <+: k) ∨ ∀ k, m.has k → cmpBytes k p.dropLast = .gt) :
    ∃ l, Ends (iterReversePrefix (heapAfter ops) t p) l ∧ l.Perm (m.filter fun e => p <+: e.1) ∧
      (m.PrefixFree → l.Pairwise fun a b => Key.lt b.1 a.1) :=
  (hc.view ht hm).revPrefix hne hp hpd hor

/-- The keys with the prefix `ca` are cat and cab, those with the prefix `b` are b, ba and bad. -/
example : (∃ l, Ends (iterReversePrefix (heapAfter demoRev) (treeOf demoRev 6) (ascii ['c', 'a'])) l ∧
      l.Perm [(ascii ['c', 'a', 'b'], 6), (ascii ['c', 'a', 't'], 1)]) ∧
    ∃ l, Ends (iterReversePrefix (heapAfter demoRev) (treeOf demoRev 6) kB) l ∧
      l.Perm [(ascii ['b', 'a'], 5), (ascii ['b', 'a', 'd'], 3), (kB, 2)] := by
  have h : ∀ p v k, (k, v) ∈ demoRevMap → p <+: k → p ≠ [] → (∀ e ∈ demoRevMap, p ≠ e.1 ++ [36]) → ∃ l,
      Ends (iterReversePrefix (heapAfter demoRev) (treeOf demoRev 6) p) l ∧ l.Perm (demoRevMap.filter fun e => p <+: e.1) := by
    intro p v k hk hp hp0 hpd
    obtain ⟨l, h1, h2, -⟩ := C49_partial demoRev (.of_loose (by decide +kernel)) 6 (treeOf demoRev 6) demoRevMap p
      (by decide +kernel) (by decide +kernel) (by decide) hp0 (fun k ⟨v, hk⟩ => hpd _ hk) (Or.inl ⟨k, ⟨v, hk⟩, hp⟩)
    exact ⟨l, h1, h2⟩
  refine ⟨?_, ?_⟩
  · have := h (ascii ['c', 'a']) 1 (ascii ['c', 'a', 't']) (by decide) (by decide) (by decide) (by decide)
    have h4 : demoRevMap.filter (fun e => decide (ascii ['c', 'a'] <+: e.1)) = [(ascii ['c', 'a', 'b'], 6), (ascii ['c', 'a', 't'], 1)] := by decide +kernel
    rwa [h4] at this
  · have := h kB 2 kB (by decide) (by decide) (by decide) (by decide)
    have h4 : demoRevMap.filter (fun e => decide (kB <+: e.1)) = [(ascii ['b', 'a'], 5), (ascii ['b', 'a', 'd'], 3), (kB, 2)] := by decide +kernel
    rwa [h4] at this

/-- In a tree of keys none of which is a prefix of another one the order is descending. -/
def demoRevFree : List (Op Nat) := build [ascii ['c', 'a', 't'], ascii ['c', 'o', 'w'], ascii ['d', 'o', 'g'], ascii ['c', 'a', 'b']]

def demoRevFreeMap : Map Nat := [(ascii ['c', 'a', 'b'], 4), (ascii ['d', 'o', 'g'], 3), (ascii ['c', 'o', 'w'], 2), (ascii ['c', 'a', 't'], 1)]

example : ∃ l, Ends (iterReversePrefix (heapAfter demoRevFree) (treeOf demoRevFree 4) kC) l ∧
    l.Perm [(ascii ['c', 'a', 'b'], 4), (ascii ['c', 'o', 'w'], 2), (ascii ['c', 'a', 't'], 1)] ∧ l.Pairwise fun a b => Key.lt b.1 a.1 := by
  obtain ⟨l, h1, h2, h3⟩ := C49_partial demoRevFree (.of_loose (by decide +kernel)) 4 (treeOf demoRevFree 4) demoRevFreeMap kC
      (by decide +kernel) (by decide +kernel) (by decide) (by decide) (by
        rintro k ⟨v, hk⟩
        have h : ∀ e ∈ demoRevFreeMap, kC ≠ e.1 ++ [36] := by decide
        exact h _ hk) (Or.inl ⟨ascii ['c', 'a', 't'], ⟨1, by decide⟩, by decide⟩)
  have h4 : demoRevFreeMap.filter (fun e => decide (kC <+: e.1)) = [(ascii ['c', 'a', 'b'], 4), (ascii ['c', 'o', 'w'], 2), (ascii ['c', 'a', 't'], 1)] := by decide +kernel
  rw [h4] at h2
  refine ⟨l, h1, h2, h3 ?_⟩
  rintro k k' ⟨v, hk⟩ ⟨v', hk'⟩ hp
  have h : ∀ e ∈ demoRevFreeMap, ∀ e' ∈ demoRevFreeMap, e.1.isPrefixOf e'.1 = true → e.1 = e'.1 := by decide +kernel
  exact (h _ hk _ hk' (List.isPrefixOf_iff_prefix.2 hp)).symm

end Art
