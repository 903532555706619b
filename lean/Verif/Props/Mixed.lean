import Verif.Props.Buffer
import Verif.Proofs.Mixed
/-
C86: goroutines that make reading calls of several kinds with slices of one array.
-/
set_option autoImplicit false
set_option linter.unusedVariables false
set_option linter.unusedSectionVars false
set_option synthInstance.maxSize 1000
namespace Art
variable {V : Type} [Inhabited V]


/-- C86: goroutines may call `Get`, `LongestPrefix` and `SeekPrefix` at the same time, also with slices of the same array: each gets
what it would get if it made its call alone, under every schedule. -/
def C86_Full (V : Type) [Inhabited V] : Prop := ∀ ops : List (Op V), Ordinary ops →
  ∀ (extra : Nat → Nat) (m : Mem) (cs : List (AskKind × Tree × Slice)),
  (∀ c ∈ cs, (∃ i, treeAfter ops i = some c.2.1) ∧ c.2.2.Real m) →
  ∀ (js : List Nat) (i : Nat) (p : Mixer V) (r : R (Answer V)),
    (mixRun extra (heapAfter ops) m (mixAll cs) js).2[i]? = some p → p.st = .done r →
    r = mixCall (heapAfter ops) p.kind p.t (p.s.read m)

/-- What a call has returned. -/
def MixState.result : MixState V → Option (R (Answer V))
  | .done r => some r
  | _ => none

/-- A call with `buf[:6]` and a call with `buf[:3]`, with "foobarxy" in `buf`. -/
def mixTwo (k k' : AskKind) (cap cap' : Nat) : List (AskKind × Tree × Slice) :=
  [(k, treeOf busy 3, ⟨0, 0, 6, cap⟩), (k', treeOf busy 3, ⟨0, 0, 3, cap'⟩)]

/-- The goroutines after the schedule: which call, and what it has returned. -/
def bufMix (k k' : AskKind) (cap cap' : Nat) (js : List Nat) : List (AskKind × Tree × Slice × Option (R (Answer Nat))) :=
  (mixRun (fun _ => 0) (heapAfter busy) bufMem (mixAll (mixTwo k k' cap cap')) js).2.map fun p => (p.kind, p.t, p.s, p.st.result)

/-- Two calls of which the first returns something else than alone. -/
theorem mixTwo_false {k k' : AskKind} {js : List Nat} {r : R (Answer Nat)}
    (h1 : (bufMix k k' 8 8 js)[0]? = some (k, treeOf busy 3, ⟨0, 0, 6, 8⟩, some r))
    (h2 : r ≠ mixCall (heapAfter busy) k (treeOf busy 3) kFoobar) : ¬ C86_Full Nat := fun h => by
  have h3 := h busy ⟨by decide +kernel, by decide +kernel⟩ (fun _ => 0) bufMem (mixTwo k k' 8 8)
    (fun c hc => by
      unfold mixTwo at hc
      rcases List.mem_cons.1 hc with e | hc
      · rw [e]; exact ⟨⟨3, busy_three⟩, show Slice.Real ⟨0, 0, 6, 8⟩ bufMem from by decide +kernel⟩
      · rw [List.mem_singleton.1 hc]; exact ⟨⟨3, busy_three⟩, show Slice.Real ⟨0, 0, 3, 8⟩ bufMem from by decide +kernel⟩) js 0
  unfold bufMix at h1
  rw [List.getElem?_map] at h1
  cases hp : (mixRun (fun _ => 0) (heapAfter busy) bufMem (mixAll (mixTwo k k' 8 8)) js).2[0]? with
  | none => rw [hp] at h1; cases h1
  | some p =>
    rw [hp] at h1
    injection h1 with h1
    injection h1 with a1 h1
    injection h1 with a2 h1
    injection h1 with a3 a4
    have h5 : p.st = .done r := by
      cases e : p.st with
      | waiting => rw [e] at a4; cases a4
      | running => rw [e] at a4; cases a4
      | done r' => rw [e] at a4; injection a4 with a4; rw [a4]
    have h6 := h3 p r hp h5
    rw [a1, a2, a3, show Slice.read bufMem ⟨0, 0, 6, 8⟩ = kFoobar from by decide +kernel] at h6
    exact h2 h6

/-- `LongestPrefix("foobar")` returns foo, though foobar is in the tree: `Get("foo")` has written to its key. -/
theorem C86_longest_false : ¬ C86_Full Nat :=
  mixTwo_false (k := .longest) (k' := .get) (js := [0, 0, 1, 0, 0, 0, 0, 0]) (r := .ok (.pair (some (kFoo, 1))))
    (by decide +kernel) (by decide +kernel)

/-- `SeekPrefix("foobar")` stops at the node of foo: `Get("foo")` has written to the prefix. -/
theorem C86_seek_false : ¬ C86_Full Nat :=
  mixTwo_false (k := .seek) (k' := .get) (js := [0, 0, 1, 0, 0, 0, 0, 0]) (r := .ok (.node 12))
    (by decide +kernel) (by decide +kernel)

/-- `Get("foobar")` finds nothing: `LongestPrefix("foo")` has written to its key. -/
theorem C86_get_false : ¬ C86_Full Nat :=
  mixTwo_false (k := .get) (k' := .longest) (js := [0, 0, 1, 0, 0, 0, 0, 0]) (r := .ok (.value none))
    (by decide +kernel) (by decide +kernel)

theorem C86_false : ¬ C86_Full Nat := C86_longest_false

/-- What the three calls return alone. -/
example : mixCall (heapAfter busy) .longest (treeOf busy 3) kFoobar = .ok (.pair (some (kFoobar, 2))) := by decide +kernel
example : mixCall (heapAfter busy) .seek (treeOf busy 3) kFoobar = .ok (.node 7) := by decide +kernel
example : mixCall (heapAfter busy) .get (treeOf busy 3) kFoobar = .ok (.value (some 2)) := by decide +kernel

/-- C86 for slices such that no `append` to one of them overwrites a byte of another, in any memory; the slices of `SeekPrefix` may
have room behind them, as nothing is appended to them.  (Missing for the full statement: other slices.) -/
theorem C86_partial (extra : Nat → Nat) (h : Heap V) (m : Mem) (cs : List (AskKind × Tree × Slice)) (hr : ∀ c ∈ cs, c.2.2.Real m)
    (hn : ∀ c ∈ cs, c.1.appends = true → ∀ c' ∈ cs, ¬ c.2.2.spoils c'.2.2) (js : List Nat) (i : Nat) (p : Mixer V) (r : R (Answer V))
    (hp : (mixRun extra h m (mixAll cs) js).2[i]? = some p) (hd : p.st = .done r) : r = mixCall h p.kind p.t (p.s.read m) := by
  have := ((MixedOK.start h m cs).run extra hr hn js).states p (List.mem_of_getElem? hp)
  rw [hd] at this
  exact this

/-- `LongestPrefix("foobar")` has room behind its slice and `SeekPrefix("foo")` too: under every schedule both return what they should. -/
example (js : List Nat) (i : Nat) (p : Mixer Nat) (r : R (Answer Nat)) (hp : (mixRun (fun _ => 0) (heapAfter busy) bufMem
      (mixAll (mixTwo .longest .seek 8 8)) js).2[i]? = some p) (hd : p.st = .done r) :
    r = mixCall (heapAfter busy) p.kind p.t (p.s.read bufMem) :=
  C86_partial (fun _ => 0) (heapAfter busy) bufMem _ (by simp only [mixTwo, List.forall_mem_cons]; decide +kernel)
    (by simp only [mixTwo, List.forall_mem_cons]; decide +kernel) js i p r hp hd
example : (bufMix .longest .seek 8 8 [0, 0, 1, 0, 1, 0, 0, 0, 1, 1, 1]).map (fun x => x.2.2.2) =
    [some (.ok (.pair (some (kFoobar, 2)))), some (.ok (.node 12))] := by decide +kernel

/-- C86 for calls of `SeekPrefix` only: no condition on how the slices overlap. -/
theorem C86_seek (extra : Nat → Nat) (h : Heap V) (m : Mem) (cs : List (AskKind × Tree × Slice)) (hr : ∀ c ∈ cs, c.2.2.Real m)
    (hk : ∀ c ∈ cs, c.1 = .seek) (js : List Nat) (i : Nat) (p : Mixer V) (r : R (Answer V))
    (hp : (mixRun extra h m (mixAll cs) js).2[i]? = some p) (hd : p.st = .done r) : r = mixCall h p.kind p.t (p.s.read m) :=
  C86_partial extra h m cs hr (fun c hc ha => by rw [hk c hc] at ha; cases ha) js i p r hp hd

example (js : List Nat) (i : Nat) (p : Mixer Nat) (r : R (Answer Nat)) (hp : (mixRun (fun _ => 0) (heapAfter busy) bufMem
      (mixAll (mixTwo .seek .seek 8 8)) js).2[i]? = some p) (hd : p.st = .done r) :
    r = mixCall (heapAfter busy) p.kind p.t (p.s.read bufMem) :=
  C86_seek (fun _ => 0) (heapAfter busy) bufMem _ (by simp only [mixTwo, List.forall_mem_cons]; decide +kernel)
    (by simp [mixTwo]) js i p r hp hd
example : (bufMix .seek .seek 8 8 [0, 0, 1, 0, 1, 0, 0, 0, 1, 1, 1]).map (fun x => x.2.2.2) =
    [some (.ok (.node 7)), some (.ok (.node 12))] := by decide +kernel

/-- C86 for slices without room, whatever the calls: no condition on how they overlap. -/
theorem C86_exact (extra : Nat → Nat) (h : Heap V) (m : Mem) (cs : List (AskKind × Tree × Slice)) (hr : ∀ c ∈ cs, c.2.2.Real m)
    (hc : ∀ c ∈ cs, c.1.appends = true → c.2.2.len = c.2.2.cap) (js : List Nat) (i : Nat) (p : Mixer V) (r : R (Answer V))
    (hp : (mixRun extra h m (mixAll cs) js).2[i]? = some p) (hd : p.st = .done r) : r = mixCall h p.kind p.t (p.s.read m) :=
  C86_partial extra h m cs hr (fun c hc' ha c' _ hs => Nat.lt_irrefl _ (hc c hc' ha ▸ hs.1)) js i p r hp hd

/-- The witness of `C86_seek_false` with the slice of `Get` cut to its length. -/
example (js : List Nat) (i : Nat) (p : Mixer Nat) (r : R (Answer Nat)) (hp : (mixRun (fun _ => 0) (heapAfter busy) bufMem
      (mixAll (mixTwo .seek .get 8 3)) js).2[i]? = some p) (hd : p.st = .done r) :
    r = mixCall (heapAfter busy) p.kind p.t (p.s.read bufMem) :=
  C86_exact (fun _ => 0) (heapAfter busy) bufMem _ (by simp only [mixTwo, List.forall_mem_cons]; decide +kernel)
    (by simp [mixTwo, AskKind.appends]) js i p r hp hd
example : (bufMix .seek .get 8 3 [0, 0, 1, 0, 1, 0, 0, 0, 1, 1, 1]).map (fun x => x.2.2.2) =
    [some (.ok (.node 7)), some (.ok (.value (some 1)))] := by decide +kernel

/-- The condition of `C86_partial` is needed: if a call that appends overwrites a byte of the other slice that is not `'$'`, there is a
schedule in which the second goroutine reads a key that it was not given. -/
theorem C86_needed (extra : Nat → Nat) (h : Heap V) (m : Mem) (k k' : AskKind) (t t' : Tree) (s s' : Slice) (last : Option Addr)
    (hr' : s'.Real m) (ha : k.appends = true) (hk : mixStart h k' t' = .ok last) (hs : s.spoils s')
    (hb : (m.bytes s.arr)[s.off + s.len]? ≠ some 36) :
    ∃ (js : List Nat) (p : Mixer V) (win : Slice) (fuel : Nat) (a : Addr) (d : Nat) (last : Option Addr),
      (mixRun extra h m (mixAll [(k, t, s), (k', t', s')]) js).2[1]? = some p ∧ p.s = s' ∧ p.st = .running win fuel a d last ∧
      win.read (mixRun extra h m (mixAll [(k, t, s), (k', t', s')]) js).1 ≠ k'.seen (s'.read m) := by
  have ew : (mixWindow extra m k s).1 = m.write s.arr (s.off + s.len) 36 := by
    unfold mixWindow goAppend; rw [if_pos ha, if_pos hs.1]
  have hz := append_size extra (s := s) (Nat.le_refl m.length) (fun _ _ => rfl)
  rw [show (goAppend extra m s 36).1 = m.write s.arr (s.off + s.len) 36 by unfold goAppend; rw [if_pos hs.1]] at hz
  have h1 := goAppend_read extra 36 hr'.2.1 (show s'.off + s'.cap ≤ ((m.write s.arr (s.off + s.len) 36).bytes s'.arr).length by
    rw [hz.2 _ hr'.1]; exact hr'.2.2)
  refine ⟨[0, 1], _, (mixWindow extra (mixWindow extra m k s).1 k' s').2, (mixWindow extra (mixWindow extra m k s).1 k' s').2.len + 1,
    t'.root, 0, last, rfl, rfl, ?_, ?_⟩
  · show mixBegin (mixStart h k' t') _ _ = _
    rw [hk]
    rfl
  · show (mixWindow extra (mixWindow extra m k s).1 k' s').2.read (mixWindow extra (mixWindow extra m k s).1 k' s').1 ≠ _
    rw [ew]
    unfold mixWindow AskKind.seen
    split
    · rw [h1]
      exact fun e => read_spoiled hr' hs hb (List.append_cancel_right e)
    · exact read_spoiled hr' hs hb

/-- `LongestPrefix("foo")` before `SeekPrefix("foobar")`. -/
example : ∃ (js : List Nat) (p : Mixer Nat) (win : Slice) (fuel : Nat) (a : Addr) (d : Nat) (last : Option Addr),
    (mixRun (fun _ => 0) (heapAfter busy) bufMem (mixAll [(.longest, treeOf busy 3, ⟨0, 0, 3, 8⟩), (.seek, treeOf busy 3, ⟨0, 0, 6, 8⟩)])
      js).2[1]? = some p ∧ p.s = ⟨0, 0, 6, 8⟩ ∧ p.st = .running win fuel a d last ∧
    win.read (mixRun (fun _ => 0) (heapAfter busy) bufMem (mixAll [(.longest, treeOf busy 3, ⟨0, 0, 3, 8⟩),
      (.seek, treeOf busy 3, ⟨0, 0, 6, 8⟩)]) js).1 ≠ AskKind.seen .seek (Slice.read bufMem ⟨0, 0, 6, 8⟩) :=
  C86_needed (fun _ => 0) (heapAfter busy) bufMem .longest .seek _ _ _ _ none (by decide +kernel) rfl rfl (by decide +kernel) (by decide +kernel)

/-- Every call returns: after `len(key) + 4` steps of its own it has, whatever the others do in between and whatever they overwrite. -/
theorem C86_ends (extra : Nat → Nat) (h : Heap V) (m : Mem) (cs : List (AskKind × Tree × Slice)) (js : List Nat) (i : Nat)
    (c : AskKind × Tree × Slice) (hi : cs[i]? = some c) (hj : c.2.2.len + 4 ≤ js.count i) :
    ∃ p r, (mixRun extra h m (mixAll cs) js).2[i]? = some p ∧ p.st = .done r := by
  obtain ⟨p, h1, h2⟩ := mixRun_left extra h js m (mixAll cs) i ⟨c.1, c.2.1, c.2.2, .waiting⟩
    (by unfold mixAll; rw [List.getElem?_map, hi]; rfl)
  have h3 : p.left = 0 := by
    have : (⟨c.1, c.2.1, c.2.2, .waiting⟩ : Mixer V).left = c.2.2.len + 4 := rfl
    omega
  cases e : p.st with
  | waiting => unfold Mixer.left at h3; rw [e] at h3; cases h3
  | running => unfold Mixer.left at h3; rw [e] at h3; cases h3
  | done r => exact ⟨p, r, h1, e⟩

example : (bufMix .longest .get 8 8 [0, 0, 1, 0, 0, 0, 0, 0, 0, 0, 0, 0, 1, 1, 1, 1, 1, 1, 1]).map (fun x => x.2.2.2) =
    [some (.ok (.pair (some (kFoo, 1)))), some (.ok (.value (some 1)))] := by decide +kernel

end Art
