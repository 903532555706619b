import Verif.Props.Buffer
import Verif.Proofs.Share
/-
C85: goroutines that read with slices of one array.
-/
set_option autoImplicit false
set_option linter.unusedVariables false
set_option linter.unusedSectionVars false
namespace Art
variable {V : Type} [Inhabited V]

/-- C85: goroutines may call `Get` at the same time, also with slices of the same array: each gets what it would get if it made its call
alone, under every schedule. -/
def C85_Full (V : Type) [Inhabited V] : Prop := ∀ ops : List (Op V), Ordinary ops →
  ∀ (extra : Nat → Nat) (m : Mem) (cs : List (Tree × Slice)), (∀ c ∈ cs, (∃ i, treeAfter ops i = some c.1) ∧ c.2.Real m) →
  ∀ (js : List Nat) (i : Nat) (p : Asker V) (r : R (Option V)),
    (askRun extra (heapAfter ops) m (askAll cs) js).2[i]? = some p → p.st = .done r → r = treeGet (heapAfter ops) p.t (p.s.read m)

/-- What a call has returned. -/
def AskState.result : AskState V → Option (R (Option V))
  | .done r => some r
  | _ => none

/-- The results of `Get(buf[:6])` and `Get(buf[:3])` by two goroutines, with "foobarxy" in `buf`. -/
def bufGets (cap cap' : Nat) (js : List Nat) : List (Option (R (Option Nat))) :=
  (askRun (fun _ => 0) (heapAfter busy) bufMem (askAll [(treeOf busy 3, ⟨0, 0, 6, cap⟩), (treeOf busy 3, ⟨0, 0, 3, cap'⟩)]) js).2.map fun p => p.st.result

/-- The second goroutine begins while the first is searching for "foobar", and writes `'$'` over the fourth byte of its key: the first
goroutine does not find foobar. -/
theorem C85_false : ¬ C85_Full Nat := fun h => by
  have h1 : bufGets 8 8 [0, 0, 1, 0, 0, 0, 0] = [some (.ok none), none] := by decide +kernel
  have h2 := h busy ⟨by decide +kernel, by decide +kernel⟩ (fun _ => 0) bufMem [(treeOf busy 3, ⟨0, 0, 6, 8⟩), (treeOf busy 3, ⟨0, 0, 3, 8⟩)]
    (fun c hc => ⟨⟨3, by
      have : c.1 = treeOf busy 3 := by
        rcases List.mem_cons.1 hc with e | hc
        · rw [e]
        · rw [List.mem_singleton.1 hc]
      rw [this]; exact busy_three⟩, by
        rcases List.mem_cons.1 hc with e | hc
        · rw [e]; decide +kernel
        · rw [List.mem_singleton.1 hc]; decide +kernel⟩) [0, 0, 1, 0, 0, 0, 0] 0
  have h4 : treeGet (heapAfter busy) (treeOf busy 3) kFoobar = .ok (some 2) := by decide +kernel
  unfold bufGets at h1
  have ht : ((askRun (fun _ => 0) (heapAfter busy) bufMem (askAll [(treeOf busy 3, ⟨0, 0, 6, 8⟩), (treeOf busy 3, ⟨0, 0, 3, 8⟩)])
      [0, 0, 1, 0, 0, 0, 0]).2.map fun p => (p.t, p.s)) = [(treeOf busy 3, ⟨0, 0, 6, 8⟩), (treeOf busy 3, ⟨0, 0, 3, 8⟩)] := by decide +kernel
  generalize (askRun (fun _ => 0) (heapAfter busy) bufMem (askAll [(treeOf busy 3, ⟨0, 0, 6, 8⟩), (treeOf busy 3, ⟨0, 0, 3, 8⟩)])
      [0, 0, 1, 0, 0, 0, 0]).2 = ps at h1 h2 ht
  cases ps with
  | nil => cases h1
  | cons p ps =>
    rw [List.map_cons] at h1 ht
    injection h1 with h1 _
    injection ht with ht _
    have h5 : p.st = .done (.ok none) := by
      cases e : p.st with
      | waiting => rw [e] at h1; cases h1
      | running => rw [e] at h1; cases h1
      | done r => rw [e] at h1; injection h1 with h1; rw [h1]
    have h6 := h2 p (.ok none) rfl h5
    injection ht with e1 e2
    rw [e1, e2, show Slice.read bufMem ⟨0, 0, 6, 8⟩ = kFoobar from by decide +kernel, h4] at h6
    injection h6 with h6
    cases h6

/-- One after the other they find both keys, in the right order; in the other order the first key is gone before its search begins. -/
example : bufGets 8 8 [0, 0, 0, 0, 0, 0, 1, 1, 1, 1] = [some (.ok (some 2)), some (.ok (some 1))] := by decide +kernel
example : bufGets 8 8 [1, 1, 1, 1, 0, 0, 0, 0, 0, 0] = [some (.ok none), some (.ok (some 1))] := by decide +kernel

/-- C85 for slices such that no `append` to one of them overwrites a byte of another, in any memory.  (Missing for the full statement:
other slices.) -/
theorem C85_partial (extra : Nat → Nat) (h : Heap V) (m : Mem) (cs : List (Tree × Slice)) (hr : ∀ c ∈ cs, c.2.Real m)
    (hn : ∀ c ∈ cs, ∀ c' ∈ cs, ¬ c.2.spoils c'.2) (js : List Nat) (i : Nat) (p : Asker V) (r : R (Option V))
    (hp : (askRun extra h m (askAll cs) js).2[i]? = some p) (hd : p.st = .done r) : r = treeGet h p.t (p.s.read m) := by
  have := ((ShareOK.start h m cs).run extra hr hn js).states p (List.mem_of_getElem? hp)
  rw [hd] at this
  exact this

/-- The first slice has room behind it, the second has not: both keys are found, also with the schedule of the witness. -/
example (js : List Nat) (i : Nat) (p : Asker Nat) (r : R (Option Nat)) (hp : (askRun (fun _ => 0) (heapAfter busy) bufMem
      (askAll [(treeOf busy 3, ⟨0, 0, 6, 8⟩), (treeOf busy 3, ⟨0, 0, 3, 3⟩)]) js).2[i]? = some p) (hd : p.st = .done r) :
    r = treeGet (heapAfter busy) p.t (p.s.read bufMem) :=
  C85_partial (fun _ => 0) (heapAfter busy) bufMem _ (by simp only [List.forall_mem_cons]; decide +kernel)
    (by simp only [List.forall_mem_cons]; decide +kernel) js i p r hp hd
example : bufGets 8 3 [0, 0, 1, 0, 0, 0, 0, 1, 1, 1, 1] = [some (.ok (some 2)), some (.ok (some 1))] := by decide +kernel

/-- The key that a goroutine is searching for stays what it is, at every moment (also within a round). -/
theorem C85_key (extra : Nat → Nat) (h : Heap V) (m : Mem) (cs : List (Tree × Slice)) (hr : ∀ c ∈ cs, c.2.Real m)
    (hn : ∀ c ∈ cs, ∀ c' ∈ cs, ¬ c.2.spoils c'.2) (js : List Nat) (i : Nat) (p : Asker V) (win : Slice) (fuel : Nat) (a : Addr) (d : Nat)
    (hp : (askRun extra h m (askAll cs) js).2[i]? = some p) (hd : p.st = .running win fuel a d) :
    win.read (askRun extra h m (askAll cs) js).1 = p.s.read m ++ [36] := by
  have := ((ShareOK.start h m cs).run extra hr hn js).states p (List.mem_of_getElem? hp)
  rw [hd] at this
  exact this.1.1

example : ((askRun (fun _ => 0) (heapAfter busy) bufMem (askAll [(treeOf busy 3, ⟨0, 0, 6, 8⟩), (treeOf busy 3, ⟨0, 0, 3, 3⟩)]) [0, 0, 1]).2[0]?.map
    fun p => match p.st with | .running win .. => some win | _ => none) = some (some ⟨0, 0, 7, 8⟩) := by decide +kernel

/-- C85 for slices without room: no condition on how they overlap. -/
theorem C85_exact (extra : Nat → Nat) (h : Heap V) (m : Mem) (cs : List (Tree × Slice)) (hr : ∀ c ∈ cs, c.2.Real m)
    (hc : ∀ c ∈ cs, c.2.len = c.2.cap) (js : List Nat) (i : Nat) (p : Asker V) (r : R (Option V))
    (hp : (askRun extra h m (askAll cs) js).2[i]? = some p) (hd : p.st = .done r) : r = treeGet h p.t (p.s.read m) :=
  C85_partial extra h m cs hr (fun c hc' c' _ hs => Nat.lt_irrefl _ (hc c hc' ▸ hs.1)) js i p r hp hd

/-- The slices of the witness, cut to their length. -/
example (js : List Nat) (i : Nat) (p : Asker Nat) (r : R (Option Nat)) (hp : (askRun (fun _ => 0) (heapAfter busy) bufMem
      (askAll [(treeOf busy 3, ⟨0, 0, 6, 6⟩), (treeOf busy 3, ⟨0, 0, 3, 3⟩)]) js).2[i]? = some p) (hd : p.st = .done r) :
    r = treeGet (heapAfter busy) p.t (p.s.read bufMem) :=
  C85_exact (fun _ => 0) (heapAfter busy) bufMem _ (by simp only [List.forall_mem_cons]; decide +kernel) (by simp) js i p r hp hd
example : bufGets 6 3 [0, 0, 1, 0, 0, 0, 0, 1, 1, 1, 1] = [some (.ok (some 2)), some (.ok (some 1))] := by decide +kernel

/-- C85 for goroutines that all pass the same slice: they write the same byte to the same place (a data race, but a harmless one). -/
theorem C85_same (extra : Nat → Nat) (h : Heap V) (m : Mem) (ts : List Tree) (s : Slice) (hr : s.Real m) (js : List Nat) (i : Nat) (p : Asker V)
    (r : R (Option V)) (hp : (askRun extra h m (askAll (ts.map fun t => (t, s))) js).2[i]? = some p) (hd : p.st = .done r) :
    r = treeGet h p.t (p.s.read m) := by
  refine C85_partial extra h m _ (fun c hc => ?_) (fun c hc c' hc' hs => ?_) js i p r hp hd
  · obtain ⟨t, -, rfl⟩ := List.mem_map.1 hc
    exact hr
  · obtain ⟨t, -, rfl⟩ := List.mem_map.1 hc
    obtain ⟨t', -, rfl⟩ := List.mem_map.1 hc'
    exact Nat.lt_irrefl _ hs.2.2.2

example (js : List Nat) (i : Nat) (p : Asker Nat) (r : R (Option Nat)) (hp : (askRun (fun _ => 0) (heapAfter busy) bufMem
      (askAll ([treeOf busy 3, treeOf busy 2].map fun t => (t, ⟨0, 0, 6, 8⟩))) js).2[i]? = some p) (hd : p.st = .done r) :
    r = treeGet (heapAfter busy) p.t (p.s.read bufMem) :=
  C85_same (fun _ => 0) (heapAfter busy) bufMem _ ⟨0, 0, 6, 8⟩ (by decide +kernel) js i p r hp hd

/-- The condition of `C85_partial` is needed: if appending to one slice overwrites a byte of the other that is not `'$'`, there is a
schedule in which the second goroutine searches for a key that it was not given. -/
theorem C85_needed (extra : Nat → Nat) (h : Heap V) (m : Mem) (t t' : Tree) (s s' : Slice) (hr' : s'.Real m)
    (hs : s.spoils s') (hb : (m.bytes s.arr)[s.off + s.len]? ≠ some 36) :
    ∃ (js : List Nat) (p : Asker V) (win : Slice) (fuel : Nat) (a : Addr) (d : Nat),
      (askRun extra h m (askAll [(t, s), (t', s')]) js).2[1]? = some p ∧ p.s = s' ∧ p.st = .running win fuel a d ∧
      win.read (askRun extra h m (askAll [(t, s), (t', s')]) js).1 ≠ s'.read m ++ [36] := by
  have e0 : (goAppend extra m s 36).1 = m.write s.arr (s.off + s.len) 36 := by unfold goAppend; rw [if_pos hs.1]
  have hz := append_size extra (s := s) (Nat.le_refl m.length) (fun _ _ => rfl)
  rw [e0] at hz
  have h1 := goAppend_read extra 36 hr'.2.1 (show s'.off + s'.cap ≤ ((m.write s.arr (s.off + s.len) 36).bytes s'.arr).length by
    rw [hz.2 _ hr'.1]; exact hr'.2.2)
  refine ⟨[0, 1], _, (goAppend extra (goAppend extra m s 36).1 s' 36).2, _, _, _, rfl, rfl, rfl, ?_⟩
  show (goAppend extra (goAppend extra m s 36).1 s' 36).2.read (goAppend extra (goAppend extra m s 36).1 s' 36).1 ≠ _
  rw [e0, h1]
  exact fun e => read_spoiled hr' hs hb (List.append_cancel_right e)

example : ∃ (js : List Nat) (p : Asker Nat) (win : Slice) (fuel : Nat) (a : Addr) (d : Nat),
    (askRun (fun _ => 0) (heapAfter busy) bufMem (askAll [(treeOf busy 3, ⟨0, 0, 3, 8⟩), (treeOf busy 3, ⟨0, 0, 6, 8⟩)]) js).2[1]? = some p ∧
    p.s = ⟨0, 0, 6, 8⟩ ∧ p.st = .running win fuel a d ∧
    win.read (askRun (fun _ => 0) (heapAfter busy) bufMem (askAll [(treeOf busy 3, ⟨0, 0, 3, 8⟩), (treeOf busy 3, ⟨0, 0, 6, 8⟩)]) js).1 ≠
      Slice.read bufMem ⟨0, 0, 6, 8⟩ ++ [36] :=
  C85_needed (fun _ => 0) (heapAfter busy) bufMem _ _ _ _ (by decide +kernel) (by decide +kernel) (by decide +kernel)

/-- Every call returns: after `len(key) + 4` steps of its own it has, whatever the others do in between and whatever they overwrite. -/
theorem C85_ends (extra : Nat → Nat) (h : Heap V) (m : Mem) (cs : List (Tree × Slice)) (js : List Nat) (i : Nat) (c : Tree × Slice)
    (hi : cs[i]? = some c) (hj : c.2.len + 4 ≤ js.count i) :
    ∃ p r, (askRun extra h m (askAll cs) js).2[i]? = some p ∧ p.st = .done r := by
  obtain ⟨p, h1, h2⟩ := askRun_left extra h js m (askAll cs) i ⟨c.1, c.2, .waiting⟩ (by unfold askAll; rw [List.getElem?_map, hi]; rfl)
  have h3 : p.left = 0 := by
    have : (⟨c.1, c.2, .waiting⟩ : Asker V).left = c.2.len + 4 := rfl
    omega
  cases e : p.st with
  | waiting => unfold Asker.left at h3; rw [e] at h3; cases h3
  | running => unfold Asker.left at h3; rw [e] at h3; cases h3
  | done r => exact ⟨p, r, h1, e⟩

example : bufGets 8 8 [0, 0, 1, 0, 0, 0, 0, 0, 0, 0, 0, 0, 1, 1, 1, 1, 1, 1, 1] = [some (.ok none), some (.ok (some 1))] := by decide +kernel

end Art
