import Verif.Proofs.LowBound
import Verif.Proofs.Lineage
import Verif.Props.CleanPath
/-
Iterators positioned at a bound, on trees of broad histories that never lost a key.
-/
set_option autoImplicit false
namespace Art
variable {V : Type} [Inhabited V]

/-- C25 on broad histories, for trees that never lost a key since they were last empty, with at least one key, no more than 12 ways to continue a
prefix, and bounds that suit the keys (`Map.Bounded`): `SeekReverseLowerBound(q)` selects exactly the keys not above
`q`, descending if no key is continued by a byte below `'$'`.  (Missing for the full statement: all other trees and
bounds, for which the code may panic, stop early or return larger keys, see `C25_false`.) -/
theorem C25_partial (ops : List (Op V)) (hc : Broad ops) (i : Nat) (hu : Uncut ops i) (t : Tree) (m : Map V) (q extra : Key)
    (ht : treeAfter ops i = some t) (hm : mapAfter ops i = some m) (hne : m ≠ []) (hb : m.Bounded q) (hw : m.Narrow 12) :
    ∃ l, Ends (iterReverseLowerBound (heapAfter ops) t q extra) l ∧
      l.Perm (m.filter fun e => cmpBytes e.1 q ≠ .gt) ∧ (m.Ordered → l.Pairwise fun a b => Key.lt b.1 a.1) := by
  letI : Removals := ⟨False⟩
  exact ViewOf.revBound (fun h => h) (hc.uncut hu ht hm) hne hb hw

/-- Tree 6 of this history has the keys b, ba, bad, cab, cat and the empty key. -/
def demoRev : List (Op Nat) := [.newTree, .insert 0 (ascii ['c', 'a', 't']) 1, .insert 1 kB 2, .insert 2 (ascii ['b', 'a', 'd']) 3,
  .insert 3 [] 4, .insert 4 (ascii ['b', 'a']) 5, .insert 5 (ascii ['c', 'a', 'b']) 6]

def demoRevMap : Map Nat := [(ascii ['c', 'a', 'b'], 6), (ascii ['b', 'a'], 5), ([], 4), (ascii ['b', 'a', 'd'], 3), (kB, 2), (ascii ['c', 'a', 't'], 1)]

omit [Inhabited V] in
/-- A bound of at least two bytes suits short keys without bytes below `'$'`. -/
theorem Map.Bounded.of_short {m : Map V} {q : Key} (h1 : 2 ≤ q.length ∧ q.length ≤ 9) (h2 : ∀ e ∈ m, e.1.length ≤ 3) (h3 : ∀ b ∈ q, 36 ≤ b) (h4 : ∀ e ∈ m, e.1 ≠ q ++ [36]) :
    m.Bounded q where
  short := h1.2
  shallow := fun k k' P ⟨v, hk⟩ _ _ hP _ => by have := h2 _ hk; have := hP.length_le; simp only at *; omega
  up := fun k b _ hb => h3 b (hb.subset (by simp))
  off := fun k ⟨v, hk⟩ hp => h4 _ hk (hp.eq_of_length_le (by have := h2 _ hk; simp only [List.length_append, List.length_singleton] at *; omega)).symm

/-- From `bb` down the keys are bad, ba, b and the empty key. -/
example (extra : Key) : ∃ l, Ends (iterReverseLowerBound (heapAfter demoRev) (treeOf demoRev 6) (ascii ['b', 'b']) extra) l ∧
    l.Perm [(ascii ['b', 'a'], 5), ([], 4), (ascii ['b', 'a', 'd'], 3), (kB, 2)] ∧ l.Pairwise fun a b => Key.lt b.1 a.1 := by
  obtain ⟨l, h1, h2, h3⟩ := C25_partial demoRev (.of_loose (by decide +kernel)) 6 (by decide +kernel) (treeOf demoRev 6) demoRevMap (ascii ['b', 'b']) extra
    (by decide +kernel) (by decide +kernel) (by decide) (.of_short (by decide) (by decide) (by decide) (by decide)) (.of_length (by decide))
  have h4 : demoRevMap.filter (fun e => decide (cmpBytes e.1 (ascii ['b', 'b']) ≠ .gt)) = [(ascii ['b', 'a'], 5), ([], 4), (ascii ['b', 'a', 'd'], 3), (kB, 2)] := by
    decide +kernel
  rw [h4] at h2
  refine ⟨l, h1, h2, h3 fun k k' b ⟨v, hk⟩ ⟨v', hk'⟩ hp => ?_⟩
  have h5 : ∀ e ∈ demoRevMap, ∀ b ∈ e.1, 36 ≤ b := by decide
  exact h5 _ hk' b (hp.subset (by simp))

/-- C23 on broad histories, for trees that never lost a key since they were last empty, with no more than 12 ways to continue a prefix, and bounds at which
the keys branch (`Map.Branching`): `SeekLowerBound(q)` selects exactly the keys not below `q`, ascending if no key is
continued by a byte below `'$'`.  (Missing for the full statement: all other trees and bounds, for which the code may
panic, return smaller keys or stop early, see `C23_false`.) -/
theorem C23_bound_partial (ops : List (Op V)) (hc : Broad ops) (i : Nat) (hu : Uncut ops i) (t : Tree) (m : Map V) (q : Key)
    (ht : treeAfter ops i = some t) (hm : mapAfter ops i = some m) (hne : m ≠ []) (h2 : 2 ≤ m.length ∨ q.length ≤ 9) (hb : m.Branching q) (hw : m.Narrow 12) :
    ∃ l, Ends (iterLowerBound (heapAfter ops) t q) l ∧
      l.Perm (m.filter fun e => cmpBytes e.1 q ≠ .lt) ∧ (m.Ordered → l.Pairwise fun a b => Key.lt a.1 b.1) := by
  letI : Removals := ⟨False⟩
  exact ViewOf.lowBound (fun h => h) (hc.uncut hu ht hm) hne h2 hb hw

omit [Inhabited V] in
/-- Short keys without bytes below `'$'` branch if they do so after every prefix of the bound. -/
theorem Map.Branching.of_short {m : Map V} {q : Key} (h2 : ∀ e ∈ m, e.1.length ≤ 10) (h3 : ∀ b ∈ q, 36 ≤ b) (h4 : ∀ e ∈ m, ∀ b ∈ e.1, 36 ≤ b)
    (h5 : ∀ j ∈ List.range (q.length + 1), (∃ e1 ∈ m, ∃ e2 ∈ m, e1.1 ≠ e2.1 ∧ q.take j <+: e1.1 ∧ q.take j <+: e2.1) →
      ∃ e1 ∈ m, ∃ e2 ∈ m, q.take j <+: e1.1 ∧ q.take j <+: e2.1 ∧ (e1.1 ++ [36])[j]? ≠ (e2.1 ++ [36])[j]?) : m.Branching q where
  close := fun k k' P ⟨v, hk⟩ _ _ hP _ => Nat.le_trans hP.length_le (h2 _ hk)
  fork := fun k k' P hP ⟨v, hk⟩ ⟨v', hk'⟩ hne h6 h7 => by
    obtain ⟨e1, m1, e2, m2, g1, g2, g3⟩ := h5 P.length (by rw [List.mem_range]; have := hP.length_le; omega) (by
      rw [← List.prefix_iff_eq_take.1 hP]
      exact ⟨_, hk, _, hk', hne, h6, h7⟩)
    rw [← List.prefix_iff_eq_take.1 hP] at g1 g2
    have hget : ∀ {K : Key}, P <+: K → ∃ b, (K ++ [36])[P.length]? = some b ∧ P ++ [b] <+: K ++ [36] := fun {K} ⟨t, ht⟩ => by
      subst ht
      cases t with
      | nil => exact ⟨36, by simp, by simp⟩
      | cons b t => exact ⟨b, by simp, by simp⟩
    obtain ⟨b, i1, i2⟩ := hget g1
    obtain ⟨b', i3, i4⟩ := hget g2
    exact ⟨e1.1, e2.1, b, b', ⟨_, m1⟩, ⟨_, m2⟩, fun h => g3 (by rw [i1, i3, h]), i2, i4⟩
  up := fun k b _ hb => h3 b (hb.subset (by simp))
  low := fun k b ⟨v, hk⟩ hb => h4 _ hk b (hb.subset (by simp))

/-- From `bb` up the keys are cab and cat. -/
example : ∃ l, Ends (iterLowerBound (heapAfter demoRev) (treeOf demoRev 6) (ascii ['b', 'b'])) l ∧
    l.Perm [(ascii ['c', 'a', 'b'], 6), (ascii ['c', 'a', 't'], 1)] ∧ l.Pairwise fun a b => Key.lt a.1 b.1 := by
  obtain ⟨l, h1, h2, h3⟩ := C23_bound_partial demoRev (.of_loose (by decide +kernel)) 6 (by decide +kernel) (treeOf demoRev 6) demoRevMap (ascii ['b', 'b'])
    (by decide +kernel) (by decide +kernel) (by decide) (by decide) (.of_short (by decide) (by decide) (by decide) (by decide)) (.of_length (by decide))
  have h4 : demoRevMap.filter (fun e => decide (cmpBytes e.1 (ascii ['b', 'b']) ≠ .lt)) = [(ascii ['c', 'a', 'b'], 6), (ascii ['c', 'a', 't'], 1)] := by
    decide +kernel
  rw [h4] at h2
  refine ⟨l, h1, h2, h3 fun k k' b ⟨v, hk⟩ ⟨v', hk'⟩ hp => ?_⟩
  have h5 : ∀ e ∈ demoRevMap, ∀ b ∈ e.1, 36 ≤ b := by decide
  exact h5 _ hk' b (hp.subset (by simp))

end Art
