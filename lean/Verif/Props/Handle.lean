import Verif.Proofs.Handle2
import Verif.Props.CleanIter
import Verif.Props.Negations
/-
Iterators as objects: any calls in any order, and positioning one a second time.
-/
set_option autoImplicit false
namespace Art
variable {V : Type} [Inhabited V]

/-! ### C78: only pairs of the tree -/

/-- C78: whatever calls are made on an iterator, and in whatever order, each pair it returns is a pair of its tree. -/
def C78_Full (V : Type) [Inhabited V] : Prop := ∀ (ops : List (Op V)), Ordinary ops → ∀ i t m,
  treeAfter ops i = some t → mapAfter ops i = some m → ∀ fuel,
  (∀ cs l it, fwdCalls (heapAfter ops) fuel (mkIter t.root) cs = .ok (l, it) → ∀ kv, some kv ∈ l → kv ∈ m) ∧
  (∀ cs l it, lowCalls (heapAfter ops) fuel (mkLowIter t.root) cs = .ok (l, it) → ∀ kv, some kv ∈ l → kv ∈ m) ∧
  (∀ cs l it, revCalls (heapAfter ops) fuel (mkRevIter t.root) cs = .ok (l, it) → ∀ kv, some kv ∈ l → kv ∈ m)

/-- An iterator over an empty tree returns the key "" with the zero value. -/
theorem C78_false : ¬ C78_Full Nat := fun h => by
  have h1 := (h (build []) ⟨by decide +kernel, by decide +kernel⟩ 0 (treeOf (build []) 0) [] (by decide +kernel) (by decide +kernel) 9).1
    [.seek [], .next] [some ([], 0)] { path := [], node := some (treeOf (build []) 0).root, stack := [], seenMismatch := false } (by decide +kernel)
  exact absurd (h1 _ (List.mem_singleton.2 rfl)) (by simp)

/-- C78 on broad histories: the only pair that is not one of the tree is the phantom pair of an empty tree. -/
theorem C78_partial (ops : List (Op V)) (hc : Broad ops) (i : Nat) (t : Tree) (m : Map V) (ht : treeAfter ops i = some t) (hm : mapAfter ops i = some m)
    (fuel : Nat) :
    (∀ cs l it, fwdCalls (heapAfter ops) fuel (mkIter t.root) cs = .ok (l, it) → ∀ kv, some kv ∈ l → kv ∈ m ∨ (m = [] ∧ kv.1 = [])) ∧
    (∀ cs l it, lowCalls (heapAfter ops) fuel (mkLowIter t.root) cs = .ok (l, it) → ∀ kv, some kv ∈ l → kv ∈ m ∨ (m = [] ∧ kv.1 = [])) ∧
    (∀ cs l it, revCalls (heapAfter ops) fuel (mkRevIter t.root) cs = .ok (l, it) → ∀ kv, some kv ∈ l → kv ∈ m ∨ (m = [] ∧ kv.1 = [])) := by
  obtain ⟨S, hr, hS, hp⟩ := (hc.view ht hm).pairs
  refine ⟨fun cs l it e kv hkv => hp kv ?_, fun cs l it e kv hkv => hp kv ?_, fun cs l it e kv hkv => hp kv ?_⟩
  · exact hS.fwdCalls fuel cs _ it l (fun a ha => by cases ha; exact hr) .nil e kv hkv
  · exact hS.lowCalls fuel cs _ it l (fun a ha => by cases ha; exact hr) .nil e kv hkv
  · exact hS.revCalls fuel cs _ it l ⟨fun a ha => by cases ha; exact hr, fun _ h => by cases h⟩ e kv hkv

/-- Calls for the examples: an iterator that is positioned three times. -/
def demoCalls : List FwdCall := [.next, .seek kA, .next, .next, .seek kB, .next, .seek [], .next, .next]

theorem demo_calls : (fwdCalls (heapAfter demo) 40 (mkIter (treeOf demo 8).root) demoCalls).map Prod.fst =
    .ok [none, some (kA, 3), some (List.replicate 12 97, 4), none, some (kA, 3), some (List.replicate 12 97, 4)] := by decide +kernel

example (l : List (Option (Key × Nat))) (it : Iter) (e : fwdCalls (heapAfter demo) 40 (mkIter (treeOf demo 8).root) demoCalls = .ok (l, it)) :
    ∀ kv, some kv ∈ l → kv ∈ demoMap := fun kv hkv =>
  ((C78_partial demo demo_clean.broad 8 _ _ demo_tree demo_map 40).1 demoCalls l it e kv hkv).resolve_right fun h => by cases h.1

example : ∃ l it, lowCalls (heapAfter demo) 40 (mkLowIter (treeOf demo 8).root) [.seek kA, .next, .seek kB, .next, .next, .next] = .ok (l, it) ∧
    l = [some (kA, 3), some (kB, 8), some (kFoo, 1), none] ∧ ∀ kv, some kv ∈ l → kv ∈ demoMap := by
  have e : lowCalls (heapAfter demo) 40 (mkLowIter (treeOf demo 8).root) [.seek kA, .next, .seek kB, .next, .next, .next] =
      .ok ([some (kA, 3), some (kB, 8), some (kFoo, 1), none], ⟨some (treeOf demo 8).root, []⟩) := by decide +kernel
  exact ⟨_, _, e, rfl, fun kv hkv =>
    ((C78_partial demo demo_clean.broad 8 _ _ demo_tree demo_map 40).2.1 _ _ _ e kv hkv).resolve_right fun h => by cases h.1⟩

example (l : List (Option (Key × Nat))) (it : RevIter) (e : revCalls (heapAfter demo) 40 (mkRevIter (treeOf demo 8).root)
      [.previous, .seekPrefix kA, .previous, .seekLower kB [], .previous, .previous] = .ok (l, it)) :
    ∀ kv, some kv ∈ l → kv ∈ demoMap := fun kv hkv =>
  ((C78_partial demo demo_clean.broad 8 _ _ demo_tree demo_map 40).2.2 _ l it e kv hkv).resolve_right fun h => by cases h.1

example : (revCalls (heapAfter demo) 40 (mkRevIter (treeOf demo 8).root)
      [.previous, .seekPrefix kA, .previous, .seekLower kB [], .previous, .previous]).map Prod.fst =
    .ok [some (kFoo, 1), some (kA, 3), some (List.replicate 11 97 ++ [98], 5), some (List.replicate 12 97, 4)] := by decide +kernel

/-- C78, prefixes: what `Next` returns after a `SeekPrefix` starts with the prefix (counting the `'$'` that the package appends
to the key), whatever was done with the iterator before. -/
theorem C78_prefix_partial (ops : List (Op V)) (hc : Broad ops) (i : Nat) (t : Tree) (m : Map V) (ht : treeAfter ops i = some t) (hm : mapAfter ops i = some m)
    (fuel n : Nat) (before : List FwdCall) (p : Key) (l : List (Option (Key × V))) (it : Iter)
    (e : fwdCalls (heapAfter ops) fuel (mkIter t.root) (before ++ .seek p :: List.replicate n .next) = .ok (l, it)) :
    ∀ kv, some kv ∈ l.drop (l.length - n) → p <+: kv.1 ++ [36] := by
  obtain ⟨S, hr, hS, hp, hk⟩ := (hc.view ht hm).pairs'
  intro kv hkv
  obtain ⟨x, lc, hx, hl, rfl, hpre⟩ := hS.seekNexts fuel n before p _ it l (fun a ha => by cases ha; exact hr) e kv hkv
  rcases hk x lc hx hl with h0 | ⟨k, h0⟩
  · rw [h0] at hpre
    rw [List.prefix_nil.1 hpre]
    exact List.nil_prefix
  · rw [h0] at hpre
    show p <+: getKey lc.key ++ [36]
    rw [h0, show getKey (k ++ [dollar]) = k from getKey_snoc _ _]
    exact hpre

/-- The iterator has moved to the keys with `a`; the seek to `b` then finds nothing, but also nothing else. -/
example (l : List (Option (Key × Nat))) (it : Iter)
    (e : fwdCalls (heapAfter demo) 40 (mkIter (treeOf demo 8).root) ([.seek kA, .next] ++ .seek (kA ++ kA) :: List.replicate 3 .next) = .ok (l, it)) :
    ∀ kv, some kv ∈ l.drop (l.length - 3) → kA ++ kA <+: kv.1 ++ [36] :=
  C78_prefix_partial demo demo_clean.broad 8 _ _ demo_tree demo_map 40 3 [.seek kA, .next] (kA ++ kA) l it e

example : (fwdCalls (heapAfter demo) 40 (mkIter (treeOf demo 8).root) ([.seek kA, .next] ++ .seek (kA ++ kA) :: List.replicate 3 .next)).map Prod.fst =
    .ok [some (kA, 3), some (List.replicate 12 97, 4), some (List.replicate 11 97 ++ [98], 5), none] := by decide +kernel

/-! ### C79: positioning an iterator again -/

/-- Forward iterators: after any calls, a `SeekPrefix` and what follows it go as on a new iterator. -/
def C79_Forward (V : Type) [Inhabited V] : Prop := ∀ (ops : List (Op V)), Ordinary ops → ∀ i t, treeAfter ops i = some t →
  ∀ fuel before l it p after, fwdCalls (heapAfter ops) fuel (mkIter t.root) before = .ok (l, it) →
    (fwdCalls (heapAfter ops) fuel it (.seek p :: after)).map Prod.fst = (fwdCalls (heapAfter ops) fuel (mkIter t.root) (.seek p :: after)).map Prod.fst

/-- The same of lower bound iterators. -/
def C79_Lower (V : Type) [Inhabited V] : Prop := ∀ (ops : List (Op V)), Ordinary ops → ∀ i t, treeAfter ops i = some t →
  ∀ fuel before l it q after, lowCalls (heapAfter ops) fuel (mkLowIter t.root) before = .ok (l, it) →
    (lowCalls (heapAfter ops) fuel it (.seek q :: after)).map Prod.fst = (lowCalls (heapAfter ops) fuel (mkLowIter t.root) (.seek q :: after)).map Prod.fst

/-- The same of reverse iterators, for both ways of positioning them. -/
def C79_Reverse (V : Type) [Inhabited V] : Prop := ∀ (ops : List (Op V)), Ordinary ops → ∀ i t, treeAfter ops i = some t →
  ∀ fuel before l it after, revCalls (heapAfter ops) fuel (mkRevIter t.root) before = .ok (l, it) →
    (∀ p, (revCalls (heapAfter ops) fuel it (.seekPrefix p :: after)).map Prod.fst =
      (revCalls (heapAfter ops) fuel (mkRevIter t.root) (.seekPrefix p :: after)).map Prod.fst) ∧
    ∀ q x, (revCalls (heapAfter ops) fuel it (.seekLower q x :: after)).map Prod.fst =
      (revCalls (heapAfter ops) fuel (mkRevIter t.root) (.seekLower q x :: after)).map Prod.fst

/-- C79: an iterator can be positioned again. -/
def C79_Full (V : Type) [Inhabited V] : Prop := C79_Forward V ∧ C79_Lower V ∧ C79_Reverse V

/-- A tree with the keys aa, ab and b. -/
def threeKeys : List (Op Nat) := build [kA ++ kA, kA ++ kB, kB]

theorem three_tree : treeAfter threeKeys 3 = some (treeOf threeKeys 3) := by decide +kernel

/-- After `SeekPrefix("a")`, `SeekPrefix("b")` does not find the key b. -/
theorem C79_forward_false : ¬ C79_Forward Nat := fun h => by
  have := h threeKeys ⟨by decide +kernel, by decide +kernel⟩ 3 _ three_tree 20 [.seek kA] [] ⟨kA, some 12, [some 12], false⟩ kB [.next] (by decide +kernel)
  rw [show (fwdCalls (heapAfter threeKeys) 20 ⟨kA, some 12, [some 12], false⟩ [.seek kB, .next]).map Prod.fst = .ok [none] by decide +kernel,
    show (fwdCalls (heapAfter threeKeys) 20 (mkIter (treeOf threeKeys 3).root) [.seek kB, .next]).map Prod.fst = .ok [some (kB, 3)] by decide +kernel] at this
  cases this

/-- A tree with the keys foo and foobar. -/
def twoKeys : List (Op Nat) := build [kFoo, kFoobar]

/-- After `SeekLowerBound("z")`, `SeekLowerBound("a")` does not find the key foo. -/
theorem C79_lower_false : ¬ C79_Lower Nat := fun h => by
  have := h twoKeys ⟨by decide +kernel, by decide +kernel⟩ 2 (treeOf twoKeys 2) (by decide +kernel) 20 [.seek (ascii ['z'])] [] ⟨none, []⟩ kA [.next] (by decide +kernel)
  rw [show (lowCalls (heapAfter twoKeys) 20 ⟨none, []⟩ [.seek kA, .next]).map Prod.fst = .ok [none] by decide +kernel,
    show (lowCalls (heapAfter twoKeys) 20 (mkLowIter (treeOf twoKeys 2).root) [.seek kA, .next]).map Prod.fst = .ok [some (kFoo, 1)] by decide +kernel] at this
  cases this

/-- After `SeekReverseLowerBound("b")`, the same call finds nothing. -/
theorem C79_reverse_false : ¬ C79_Reverse Nat := fun h => by
  have := (h threeKeys ⟨by decide +kernel, by decide +kernel⟩ 3 _ three_tree 20 [.seekLower kB []] [] ⟨kB ++ [36], none, some [some 14, some 12], [11]⟩
    [.previous] (by decide +kernel)).2 kB []
  rw [show (revCalls (heapAfter threeKeys) 20 ⟨kB ++ [36], none, some [some 14, some 12], [11]⟩ [.seekLower kB [], .previous]).map Prod.fst = .ok [none] by decide +kernel,
    show (revCalls (heapAfter threeKeys) 20 (mkRevIter (treeOf threeKeys 3).root) [.seekLower kB [], .previous]).map Prod.fst = .ok [some (kB, 3)] by decide +kernel] at this
  cases this

theorem C79_false : ¬ C79_Full Nat := fun h => C79_forward_false h.1

omit [Inhabited V] in
/-- C79, what holds, on any heap whatsoever:
- a forward iterator can be positioned again after calls of `Next` and `SeekPrefix("")`;
- a lower bound iterator can be positioned again as long as no seek has set its node to nil;
- a reverse iterator can be positioned again after calls of `Previous` and `SeekPrefix("")`. -/
theorem C79_partial (h : Heap V) (fuel : Nat) (a : Addr) :
    (∀ before l it p after, (∀ c ∈ before, c = .next ∨ c = .seek []) → fwdCalls h fuel (mkIter a) before = .ok (l, it) →
      fwdCalls h fuel it (.seek p :: after) = fwdCalls h fuel (mkIter a) (.seek p :: after)) ∧
    (∀ before l it q after, it.node ≠ none → lowCalls h fuel (mkLowIter a) before = .ok (l, it) →
      lowCalls h fuel it (.seek q :: after) = lowCalls h fuel (mkLowIter a) (.seek q :: after)) ∧
    (∀ before l it after, (∀ c ∈ before, c = .previous ∨ c = .seekPrefix []) → revCalls h fuel (mkRevIter a) before = .ok (l, it) →
      (∀ p, revCalls h fuel it (.seekPrefix p :: after) = revCalls h fuel (mkRevIter a) (.seekPrefix p :: after)) ∧
      ∀ q x, revCalls h fuel it (.seekLower q x :: after) = revCalls h fuel (mkRevIter a) (.seekLower q x :: after)) := by
  refine ⟨fun before l it p after hb e => ?_, fun before l it q after hn e => ?_, fun before l it after hb e => ?_⟩
  · exact fwdCalls_again fuel before after p _ it l (fun c hc => by rcases hb c hc with rfl | rfl <;> trivial) e
  · exact lowCalls_again fuel after q _ it ((lowCalls_node fuel before _ it l e).resolve_right hn)
  · exact revCalls_again fuel before after _ it l (fun c hc => by rcases hb c hc with rfl | rfl <;> trivial) e

example (l : List (Option (Key × Nat))) (it : Iter)
    (e : fwdCalls (heapAfter threeKeys) 20 (mkIter (treeOf threeKeys 3).root) [.seek [], .next, .next] = .ok (l, it)) :
    (fwdCalls (heapAfter threeKeys) 20 it [.seek kB, .next]).map Prod.fst = .ok [some (kB, 3)] := by
  rw [(C79_partial (heapAfter threeKeys) 20 _).1 _ l it kB [.next] (by simp) e]
  decide +kernel

example : (fwdCalls (heapAfter threeKeys) 20 (mkIter (treeOf threeKeys 3).root) [.seek [], .next, .next]).map Prod.fst =
    .ok [some (kA ++ kA, 1), some (kA ++ kB, 2)] := by decide +kernel

/-- In this tree the seek to "z" leaves the node alone: only a node with a compressed prefix below the bound loses it. -/
example : ∃ it, lowCalls (heapAfter threeKeys) 20 (mkLowIter (treeOf threeKeys 3).root) [.seek (ascii ['z']), .next] = .ok ([none], it) ∧
    (lowCalls (heapAfter threeKeys) 20 it [.seek kB, .next]).map Prod.fst = .ok [some (kB, 3)] := by
  have e : lowCalls (heapAfter threeKeys) 20 (mkLowIter (treeOf threeKeys 3).root) [.seek (ascii ['z']), .next] =
    .ok ([none], ⟨some (treeOf threeKeys 3).root, []⟩) := by decide +kernel
  refine ⟨_, e, ?_⟩
  rw [(C79_partial (heapAfter threeKeys) 20 _).2.1 _ _ _ kB [.next] (by simp) e]
  decide +kernel

example (l : List (Option (Key × Nat))) (it : RevIter)
    (e : revCalls (heapAfter threeKeys) 20 (mkRevIter (treeOf threeKeys 3).root) [.seekPrefix [], .previous, .previous] = .ok (l, it)) :
    (revCalls (heapAfter threeKeys) 20 it [.seekLower kB [], .previous]).map Prod.fst = .ok [some (kB, 3)] := by
  rw [((C79_partial (heapAfter threeKeys) 20 _).2.2 _ l it [.previous] (by simp) e).2 kB []]
  decide +kernel

omit [Inhabited V] in
/-- C79, what never works, on any heap: once a seek has set the node of a lower bound iterator to nil, later seeks find nothing;
and after one `SeekReverseLowerBound`, another one finds nothing and `SeekPrefix` panics. -/
theorem C79_lost (h : Heap V) (fuel : Nat) :
    (∀ (it : LowIter) q after l it', it.node = none → lowCalls h fuel it (.seek q :: after) = .ok (l, it') → ∀ r ∈ l, r = none) ∧
    (∀ (it it' : RevIter) q x, seekReverseLowerBound h it q x = .ok it' →
      (∀ q' x' after l it'', revCalls h fuel it' (.seekLower q' x' :: after) = .ok (l, it'') → ∀ r ∈ l, r = none) ∧
      ∀ p, revSeekPrefix h it' p = .error .nilDeref) := by
  refine ⟨fun it q after l it' hn e => ?_, fun it it' q x e => ?_⟩
  · obtain ⟨r, hr, e⟩ := R.bind_ok e
    by_cases hq : q = []
    · subst hq
      rw [lowSeek_lost_nil it hn] at hr
      cases hr
      exact LowIter.Lost.calls fuel after ⟨none, [none]⟩ it' l ⟨rfl, .inr rfl⟩ e
    · rw [lowSeek_lost it hn q hq] at hr
      cases hr
      exact LowIter.Lost.calls fuel after ⟨none, []⟩ it' l ⟨rfl, .inl rfl⟩ e
  · have hn := seekReverseLowerBound_node it it' q x e
    refine ⟨fun q' x' after l it'' e2 => ?_, fun p => revSeekPrefix_lost it' hn p⟩
    obtain ⟨r, hr, e2⟩ := R.bind_ok e2
    rw [seekReverseLowerBound_lost it' hn] at hr
    cases hr
    exact RevIter.Lost.calls fuel after _ it'' l ⟨rfl, rfl⟩ e2

example : (revCalls (heapAfter threeKeys) 20 (mkRevIter (treeOf threeKeys 3).root) [.seekLower kB [], .previous, .seekLower kB [], .previous]).map Prod.fst =
    .ok [some (kB, 3), none] := by decide +kernel

example : (revCalls (heapAfter threeKeys) 20 (mkRevIter (treeOf threeKeys 3).root) [.seekLower kB [], .seekPrefix kA]).map Prod.fst = .error .nilDeref := by
  decide +kernel

omit [Inhabited V] in
/-- The first seek of a lower bound iterator is the `SeekLowerBound` of C23 and the other properties of single seeks. -/
theorem lowSeek_new (h : Heap V) (a : Addr) (q : Key) : (lowSeek h (mkLowIter a) q).map LowIter.stack = seekLowerBound h a q := by
  rw [← lowSeek_stack a (mkLowIter a) rfl q]
  cases lowSeek h (mkLowIter a) q <;> rfl

end Art
