import Verif.Props.Isolation
import Verif.Props.Handle
import Verif.Proofs.Buffer
/-
C84: iterators keep a window into the array of the caller.
-/
set_option autoImplicit false
set_option linter.unusedVariables false
namespace Art
variable {V : Type} [Inhabited V]

/-- Forward iterators: what the caller writes to its array after `SeekPrefix` does not change what `Next` returns. -/
def C84_Forward (V : Type) [Inhabited V] : Prop := ∀ ops : List (Op V), Ordinary ops → ∀ i t, treeAfter ops i = some t →
  ∀ (fuel : Nat) (m : Mem) (s : Slice) (acts : List BufAct), s.Lies m →
    fwdBuf (heapAfter ops) fuel t.root m s acts =
      (seekPrefix (heapAfter ops) (mkIter t.root) (s.read m)).bind fun r => nextN (iterNext (heapAfter ops) fuel) r.1 (stepsOf acts)

/-- The same of reverse iterators and `SeekPrefix`. -/
def C84_Reverse (V : Type) [Inhabited V] : Prop := ∀ ops : List (Op V), Ordinary ops → ∀ i t, treeAfter ops i = some t →
  ∀ (fuel : Nat) (m : Mem) (s : Slice) (acts : List BufAct), s.Lies m →
    revBuf (heapAfter ops) fuel t.root m s acts =
      (revSeekPrefix (heapAfter ops) (mkRevIter t.root) (s.read m)).bind fun r => nextN (revPrevious (heapAfter ops) fuel) r (stepsOf acts)

/-- The same of reverse iterators and `SeekReverseLowerBound`. -/
def C84_Bound (V : Type) [Inhabited V] : Prop := ∀ ops : List (Op V), Ordinary ops → ∀ i t, treeAfter ops i = some t →
  ∀ (extra : Nat → Nat) (fuel : Nat) (x : Key) (m : Mem) (s : Slice) (acts : List BufAct), s.Lies m →
    revLowBuf extra (heapAfter ops) fuel t.root x m s acts =
      (seekReverseLowerBound (heapAfter ops) (mkRevIter t.root) (s.read m) x).bind fun r =>
        nextN (revPrevious (heapAfter ops) fuel) r (stepsOf acts)

/-- The same of path iterators. -/
def C84_Path (V : Type) [Inhabited V] : Prop := ∀ ops : List (Op V), Ordinary ops → ∀ i t, treeAfter ops i = some t →
  ∀ (extra : Nat → Nat) (fuel : Nat) (m : Mem) (s : Slice) (acts : List BufAct), s.Lies m →
    pathBuf extra (heapAfter ops) fuel t m s acts = nextN (pathNext (heapAfter ops) fuel) (getPathIterator t (s.read m)) (stepsOf acts)

/-- C84: a caller may use its array for something else once the iterator is positioned. -/
def C84_Full (V : Type) [Inhabited V] : Prop := C84_Forward V ∧ C84_Reverse V ∧ C84_Bound V ∧ C84_Path V

/-- An array of the caller. -/
def bufMem : Mem := [ascii ['f', 'o', 'o', 'b', 'a', 'r', 'x', 'y']]

theorem busy_three : treeAfter busy 3 = some (treeOf busy 3) := by decide +kernel

/-- `SeekPrefix(buf)` with "foo" in `buf`; after the first `Next` the caller overwrites `buf[0]`, and foobar is not returned. -/
theorem C84_forward_false : ¬ C84_Forward Nat := fun h => by
  have h1 := h busy ⟨by decide +kernel, by decide +kernel⟩ 3 (treeOf busy 3) busy_three 30 bufMem ⟨0, 0, 3, 3⟩ [.next, .write 0 0 120, .next] (by decide +kernel)
  have h2 : fwdBuf (heapAfter busy) 30 (treeOf busy 3).root bufMem ⟨0, 0, 3, 3⟩ [.next, .write 0 0 120, .next] = .ok [some (kFoo, 1), none] := by
    decide +kernel
  have h3 : ((seekPrefix (heapAfter busy) (mkIter (treeOf busy 3).root) (Slice.read bufMem ⟨0, 0, 3, 3⟩)).bind fun r =>
      nextN (iterNext (heapAfter busy) 30) r.1 (stepsOf [.next, .write 0 0 120, .next])) = .ok [some (kFoo, 1), some (kFoobar, 2)] := by decide +kernel
  rw [h2, h3] at h1
  injection h1 with h1
  exact absurd h1 (by decide)

/-- The same with `Previous`. -/
theorem C84_reverse_false : ¬ C84_Reverse Nat := fun h => by
  have h1 := h busy ⟨by decide +kernel, by decide +kernel⟩ 3 (treeOf busy 3) busy_three 30 bufMem ⟨0, 0, 3, 3⟩ [.next, .write 0 0 97, .next] (by decide +kernel)
  have h2 : revBuf (heapAfter busy) 30 (treeOf busy 3).root bufMem ⟨0, 0, 3, 3⟩ [.next, .write 0 0 97, .next] = .ok [some (kFoo, 1), none] := by
    decide +kernel
  have h3 : ((revSeekPrefix (heapAfter busy) (mkRevIter (treeOf busy 3).root) (Slice.read bufMem ⟨0, 0, 3, 3⟩)).bind fun r =>
      nextN (revPrevious (heapAfter busy) 30) r (stepsOf [.next, .write 0 0 97, .next])) = .ok [some (kFoo, 1), some (kFoobar, 2)] := by decide +kernel
  rw [h2, h3] at h1
  injection h1 with h1
  exact absurd h1 (by decide)

/-- `SeekReverseLowerBound(buf[:3])`: there is room for the `'$'`, so the bound lies in `buf`, and overwriting it hides the key a. -/
theorem C84_bound_false : ¬ C84_Bound Nat := fun h => by
  have h1 := h busy ⟨by decide +kernel, by decide +kernel⟩ 3 (treeOf busy 3) busy_three (fun _ => 0) 30 [] bufMem ⟨0, 0, 3, 8⟩
    [.next, .write 0 0 65, .next] (by decide +kernel)
  have h2 : revLowBuf (fun _ => 0) (heapAfter busy) 30 (treeOf busy 3).root [] bufMem ⟨0, 0, 3, 8⟩ [.next, .write 0 0 65, .next] =
      .ok [some (kFoo, 1), none] := by decide +kernel
  have h3 : ((seekReverseLowerBound (heapAfter busy) (mkRevIter (treeOf busy 3).root) (Slice.read bufMem ⟨0, 0, 3, 8⟩) []).bind fun r =>
      nextN (revPrevious (heapAfter busy) 30) r (stepsOf [.next, .write 0 0 65, .next])) = .ok [some (kFoo, 1), some (kA, 3)] := by decide +kernel
  rw [h2, h3] at h1
  injection h1 with h1
  exact absurd h1 (by decide)

/-- `PathIterator(buf[:6])` likewise. -/
theorem C84_path_false : ¬ C84_Path Nat := fun h => by
  have h1 := h busy ⟨by decide +kernel, by decide +kernel⟩ 3 (treeOf busy 3) busy_three (fun _ => 0) 30 bufMem ⟨0, 0, 6, 8⟩
    [.next, .write 0 0 65, .next] (by decide +kernel)
  have h2 : pathBuf (fun _ => 0) (heapAfter busy) 30 (treeOf busy 3) bufMem ⟨0, 0, 6, 8⟩ [.next, .write 0 0 65, .next] =
      .ok [some (kFoo, 1), none] := by decide +kernel
  have h3 : nextN (pathNext (heapAfter busy) 30) (getPathIterator (treeOf busy 3) (Slice.read bufMem ⟨0, 0, 6, 8⟩))
      (stepsOf [.next, .write 0 0 65, .next]) = .ok [some (kFoo, 1), some (kFoobar, 2)] := by decide +kernel
  rw [h2, h3] at h1
  injection h1 with h1
  exact absurd h1 (by decide)

theorem C84_false : ¬ C84_Full Nat := fun h => C84_forward_false h.1

/-- C84 for a caller that leaves the bytes alone that the iterator holds: what it writes elsewhere is not noticed, in any memory.  What is
missing is a caller that writes to them. -/
theorem C84_partial (h : Heap V) (fuel : Nat) (t : Tree) (m : Mem) (s : Slice) (acts : List BufAct) :
    ((∀ x ∈ acts, x.misses s) →
      fwdBuf h fuel t.root m s acts =
        ((seekPrefix h (mkIter t.root) (s.read m)).bind fun r => nextN (iterNext h fuel) r.1 (stepsOf acts)) ∧
      revBuf h fuel t.root m s acts =
        (revSeekPrefix h (mkRevIter t.root) (s.read m)).bind fun r => nextN (revPrevious h fuel) r (stepsOf acts)) ∧
    (∀ extra : Nat → Nat, s.Lies m → (∀ x ∈ acts, x.misses (goAppend extra m s 36).2) →
      pathBuf extra h fuel t m s acts = nextN (pathNext h fuel) (getPathIterator t (s.read m)) (stepsOf acts) ∧
      ∀ x, revLowBuf extra h fuel t.root x m s acts =
        (seekReverseLowerBound h (mkRevIter t.root) (s.read m) x).bind fun r => nextN (revPrevious h fuel) r (stepsOf acts)) := by
  refine ⟨fun hm => ⟨?_, ?_⟩, fun extra hl hm => ⟨?_, fun x => ?_⟩⟩
  · unfold fwdBuf
    cases e : seekPrefix h (mkIter t.root) (s.read m) with
    | error e => rfl
    | ok r => exact holdActs_miss s (s.read m) (fun it r => fwd_keeps _ it r) acts m r.1 hm rfl (by rw [← seekPrefix_path h _ r.1 _ r.2 e])
  · unfold revBuf
    cases e : revSeekPrefix h (mkRevIter t.root) (s.read m) with
    | error e => rfl
    | ok r =>
      refine holdActs_miss s (s.read m) (fun it r => rev_keeps _ it r) acts m r hm rfl ?_
      unfold revSeekPrefix at e
      obtain ⟨n, -, e⟩ := R.bind_ok e
      cases e; rfl
  · exact holdActs_miss _ (getTreeKey (s.read m)) (fun it r => path_keeps _ it r) acts _ _ hm (goAppend_read extra 36 hl.1 hl.2) rfl
  · unfold revLowBuf
    cases e : seekReverseLowerBound h (mkRevIter t.root) (s.read m) x with
    | error e => rfl
    | ok r =>
      refine holdActs_miss _ (getTreeKey (s.read m)) (fun it r => rev_keeps _ it r) acts _ r hm (goAppend_read extra 36 hl.1 hl.2) ?_
      obtain ⟨n, -, e⟩ := R.bind_ok e
      cases e; rfl

/-- The caller writes behind the prefix. -/
example : fwdBuf (heapAfter busy) 30 (treeOf busy 3).root bufMem ⟨0, 0, 3, 3⟩ [.next, .write 0 3 120, .next] =
    ((seekPrefix (heapAfter busy) (mkIter (treeOf busy 3).root) kFoo).bind fun r => nextN (iterNext (heapAfter busy) 30) r.1 2) :=
  ((C84_partial (heapAfter busy) 30 (treeOf busy 3) bufMem ⟨0, 0, 3, 3⟩ [.next, .write 0 3 120, .next]).1 (by simp [BufAct.misses])).1

/-- C84 for slices without room behind them: path iterators, and reverse iterators with a bound, hold a copy, and the caller may write
what it likes to the arrays it has. -/
theorem C84_exact (extra : Nat → Nat) (h : Heap V) (fuel : Nat) (t : Tree) (m : Mem) (s : Slice) (acts : List BufAct)
    (hl : s.Lies m) (hc : s.len = s.cap) (hk : ∀ x ∈ acts, x.known m) :
    pathBuf extra h fuel t m s acts = nextN (pathNext h fuel) (getPathIterator t (s.read m)) (stepsOf acts) ∧
    ∀ x, revLowBuf extra h fuel t.root x m s acts =
      (seekReverseLowerBound h (mkRevIter t.root) (s.read m) x).bind fun r => nextN (revPrevious h fuel) r (stepsOf acts) :=
  (C84_partial h fuel t m s acts).2 extra hl fun x hx => (goAppend_apart extra 36 hc hl.2).2 x (hk x hx)

/-- The caller overwrites its key, and both keys are returned. -/
example : pathBuf (fun _ => 0) (heapAfter busy) 30 (treeOf busy 3) bufMem ⟨0, 0, 6, 6⟩ [.write 0 1 65, .next, .write 0 0 65, .next] =
    .ok [some (kFoo, 1), some (kFoobar, 2)] := by
  rw [(C84_exact (fun _ => 0) (heapAfter busy) 30 (treeOf busy 3) bufMem ⟨0, 0, 6, 6⟩ [.write 0 1 65, .next, .write 0 0 65, .next]
    (by decide +kernel) rfl (by simp [BufAct.known, bufMem])).1]
  decide +kernel

/-- C84, whatever the caller writes: an iterator over a tree of a broad history returns pairs of that tree and no others, but for the
phantom pair of an empty tree. -/
theorem C84_sound (ops : List (Op V)) (hc : Broad ops) (i : Nat) (t : Tree) (mp : Map V) (ht : treeAfter ops i = some t) (hm : mapAfter ops i = some mp)
    (extra : Nat → Nat) (fuel : Nat) (m : Mem) (s : Slice) (acts : List BufAct) (x : Key) (l : List (Option (Key × V)))
    (e : fwdBuf (heapAfter ops) fuel t.root m s acts = .ok l ∨ revBuf (heapAfter ops) fuel t.root m s acts = .ok l ∨
      revLowBuf extra (heapAfter ops) fuel t.root x m s acts = .ok l ∨ pathBuf extra (heapAfter ops) fuel t m s acts = .ok l) :
    ∀ kv, some kv ∈ l → kv ∈ mp ∨ (mp = [] ∧ kv.1 = []) := by
  obtain ⟨S, hr, hS, hp⟩ := (hc.view ht hm).pairs
  have h0 : (mkRevIter t.root).Held S := ⟨fun a ha => by cases ha; exact hr, fun _ h => by cases h⟩
  intro kv hkv
  refine hp kv ?_
  rcases e with e | e | e | e
  · obtain ⟨r, h1, e⟩ := R.bind_ok e
    have h2 := hS.seekPrefix (mkIter t.root) _ r (fun a ha => by cases ha; exact hr) h1
    exact holdActs_inv s (fun it : Iter => Held S it.stack) (PairIn (heapAfter ops) S) (aim := fun (it : Iter) k => { it with path := k }) (fun it k h => h)
      (fun it r hi h => (hS.iterNext fuel it r.1 r.2 hi h).2) acts m r.1 l h2.2 e kv hkv
  · obtain ⟨r, h1, e⟩ := R.bind_ok e
    exact holdActs_inv s (fun it : RevIter => it.Held S) (PairIn (heapAfter ops) S) (aim := fun (it : RevIter) k => { it with path := k }) (fun it k h => h)
      (fun it r hi h => hS.revPrevious fuel it r.2 r.1 hi h) acts m r l (hS.revSeekPrefix _ r _ h0 h1) e kv hkv
  · obtain ⟨r, h1, e⟩ := R.bind_ok e
    exact holdActs_inv _ (fun it : RevIter => it.Held S) (PairIn (heapAfter ops) S) (aim := fun (it : RevIter) k => { it with path := k }) (fun it k h => h)
      (fun it r hi h => hS.revPrevious fuel it r.2 r.1 hi h) acts _ r l (hS.seekReverseLowerBound _ r _ _ h0 h1) e kv hkv
  · exact holdActs_inv _ (fun it : PathIter => ∀ a ∈ it.stack, S a) (PairIn (heapAfter ops) S) (aim := fun (it : PathIter) k => { it with path := k }) (fun it k h => h)
      (fun it r hi h => hS.pathNext fuel it r hi h) acts _ (getPathIterator t (s.read m)) l (fun a ha => by rw [List.mem_singleton.1 ha]; exact hr) e kv hkv

/-- The prefix becomes "b" while the iterator is on its way: what is returned are still pairs of the tree. -/
example : ∃ l, fwdBuf (heapAfter demo) 40 (treeOf demo 8).root [kA] ⟨0, 0, 1, 1⟩ [.next, .next, .write 0 0 98, .next] = .ok l ∧
    l = [some (kA, 3), some (List.replicate 12 97, 4), none] ∧ ∀ kv, some kv ∈ l → kv ∈ demoMap := by
  have e : fwdBuf (heapAfter demo) 40 (treeOf demo 8).root [kA] ⟨0, 0, 1, 1⟩ [.next, .next, .write 0 0 98, .next] =
      .ok [some (kA, 3), some (List.replicate 12 97, 4), none] := by decide +kernel
  exact ⟨_, e, rfl, fun kv hkv => (C84_sound demo demo_clean.broad 8 _ _ demo_tree demo_map (fun _ => 0) 40 [kA] ⟨0, 0, 1, 1⟩
    [.next, .next, .write 0 0 98, .next] [] _ (.inl e) kv hkv).resolve_right fun h => by cases h.1⟩

end Art
