import Verif.Props.Mixed
import Verif.Proofs.Rounds
/-
C87: `SeekLowerBound` joins the calls of C86.
-/
set_option autoImplicit false
set_option linter.unusedVariables false
set_option linter.unusedSectionVars false
set_option synthInstance.maxSize 1000
namespace Art
variable {V : Type} [Inhabited V]

/-- The goroutines before they begin, each with its call and its slice. -/
def readCalls (h : Heap V) (cs : List (ReadCall × Slice)) : List (Reader (Reply V)) := readAll (cs.map fun c => (c.1.steps h c.2, c.2))

/-- C87: goroutines may call `Get`, `LongestPrefix`, `SeekPrefix` and `SeekLowerBound` at the same time, also with slices of the same
array: each gets what it would get if it made its call alone, under every schedule. -/
def C87_Full (V : Type) [Inhabited V] : Prop := ∀ ops : List (Op V), Ordinary ops →
  ∀ (extra : Nat → Nat) (m : Mem) (cs : List (ReadCall × Slice)),
  (∀ c ∈ cs, (∃ i, treeAfter ops i = some c.1.tree) ∧ c.2.Real m) →
  ∀ (js : List Nat) (i : Nat) (c : ReadCall × Slice) (p : Reader (Reply V)) (r : R (Reply V)), cs[i]? = some c →
    (readRun extra m (readCalls (heapAfter ops) cs) js).2[i]? = some p → p.st = .done r →
    r = c.1.alone (heapAfter ops) (c.2.read m)

/-- What a call has returned. -/
def ReadState.result {σ ρ : Type} : ReadState σ ρ → Option (R ρ)
  | .done r => some r
  | _ => none

/-- A call with `buf[:6]` and a call with `buf[:n]`, with "foobarxy" in `buf`. -/
def readTwo (c c' : ReadCall) (n cap cap' : Nat) : List (ReadCall × Slice) := [(c, ⟨0, 0, 6, cap⟩), (c', ⟨0, 0, n, cap'⟩)]

/-- What the goroutines have returned after the schedule. -/
def bufRead (c c' : ReadCall) (n cap cap' : Nat) (js : List Nat) : List (Option (R (Reply Nat))) :=
  (readRun (fun _ => 0) bufMem (readCalls (heapAfter busy) (readTwo c c' n cap cap')) js).2.map fun p => p.st.result

/-- Calls on the tree of foo, foobar and a. -/
def lowBusy : ReadCall := .lower (treeOf busy 3)
def mixBusy (k : AskKind) : ReadCall := .mixed k (treeOf busy 3)

/-- Two calls of which the first returns something else than alone. -/
theorem readTwo_false {c c' : ReadCall} {n : Nat} {js : List Nat} {r : R (Reply Nat)} (hc : c.tree = treeOf busy 3)
    (hc' : c'.tree = treeOf busy 3) (hn : n ≤ 8) (h1 : (bufRead c c' n 8 8 js)[0]? = some (some r))
    (h2 : r ≠ c.alone (heapAfter busy) kFoobar) : ¬ C87_Full Nat := fun h => by
  have hb : (bufMem.bytes 0).length = 8 := by decide +kernel
  have hl : 0 < bufMem.length := by decide +kernel
  have h3 := h busy ⟨by decide +kernel, by decide +kernel⟩ (fun _ => 0) bufMem (readTwo c c' n 8 8)
    (fun x hx => by
      unfold readTwo at hx
      rcases List.mem_cons.1 hx with e | hx
      · rw [e]; exact ⟨⟨3, hc ▸ busy_three⟩, show Slice.Real ⟨0, 0, 6, 8⟩ bufMem from by decide +kernel⟩
      · rw [List.mem_singleton.1 hx]
        exact ⟨⟨3, hc' ▸ busy_three⟩, hl, hn, by show 0 + 8 ≤ (bufMem.bytes 0).length; omega⟩) js 0 (c, ⟨0, 0, 6, 8⟩)
  unfold bufRead at h1
  rw [List.getElem?_map] at h1
  cases hp : (readRun (fun _ => 0) bufMem (readCalls (heapAfter busy) (readTwo c c' n 8 8)) js).2[0]? with
  | none => rw [hp] at h1; cases h1
  | some p =>
    rw [hp] at h1
    injection h1 with h1
    change p.st.result = some r at h1
    have h5 : p.st = .done r := by
      cases e : p.st with
      | waiting => rw [e] at h1; cases h1
      | running => rw [e] at h1; cases h1
      | done r' => rw [e] at h1; injection h1 with h1; rw [h1]
    have h6 := h3 p r rfl hp h5
    change r = c.alone (heapAfter busy) (Slice.read bufMem ⟨0, 0, 6, 8⟩) at h6
    rw [show Slice.read bufMem ⟨0, 0, 6, 8⟩ = kFoobar from by decide +kernel] at h6
    exact h2 h6

/-- `SeekLowerBound("foobar")` is left at the node of foo, which comes before foobar: `Get("f")` has written to its key. -/
theorem C87_lower_false : ¬ C87_Full Nat :=
  readTwo_false (c := lowBusy) (c' := mixBusy .get) (n := 1) (js := [0, 0, 1, 0, 0, 0, 0, 0]) (r := .ok (.stack [some 12])) rfl rfl
    (by omega) (by decide +kernel) (by decide +kernel)

/-- The same if the other goroutine calls `SeekLowerBound("fo")`. -/
theorem C87_both_false : ¬ C87_Full Nat :=
  readTwo_false (c := lowBusy) (c' := lowBusy) (n := 2) (js := [0, 1, 0, 0, 0, 0, 0, 0]) (r := .ok (.stack [some 12])) rfl rfl
    (by omega) (by decide +kernel) (by decide +kernel)

/-- `Get("foobar")` finds nothing: `SeekLowerBound("foo")` has written to its key. -/
theorem C87_get_false : ¬ C87_Full Nat :=
  readTwo_false (c := mixBusy .get) (c' := lowBusy) (n := 3) (js := [0, 0, 1, 0, 0, 0, 0, 0]) (r := .ok (.answer (.value none))) rfl rfl
    (by omega) (by decide +kernel) (by decide +kernel)

/-- `SeekPrefix("foobar")` stops at the node of foo: `SeekLowerBound("foo")` has written to the prefix. -/
theorem C87_seek_false : ¬ C87_Full Nat :=
  readTwo_false (c := mixBusy .seek) (c' := lowBusy) (n := 3) (js := [0, 0, 1, 0, 0, 0, 0, 0]) (r := .ok (.answer (.node 12))) rfl rfl
    (by omega) (by decide +kernel) (by decide +kernel)

theorem C87_false : ¬ C87_Full Nat := C87_lower_false

/-- What the calls return alone. -/
example : lowBusy.alone (heapAfter busy) kFoobar = .ok (.stack [some 7]) := by decide +kernel
example : (mixBusy .get).alone (heapAfter busy) kFoobar = .ok (.answer (.value (some 2))) := by decide +kernel
example : (mixBusy .seek).alone (heapAfter busy) kFoobar = .ok (.answer (.node 7)) := by decide +kernel

/-- C87 for slices such that no `append` to one of them overwrites a byte of another, in any memory.  Nothing is appended to the slices
of `SeekPrefix` and to empty slices of `SeekLowerBound`.  (Missing for the full statement: other slices.) -/
theorem C87_partial (extra : Nat → Nat) (h : Heap V) (m : Mem) (cs : List (ReadCall × Slice)) (hr : ∀ c ∈ cs, c.2.Real m)
    (hn : ∀ c ∈ cs, c.1.appends c.2.len = true → ∀ c' ∈ cs, ¬ c.2.spoils c'.2) (js : List Nat) (i : Nat) (c : ReadCall × Slice)
    (p : Reader (Reply V)) (r : R (Reply V)) (hc : cs[i]? = some c) (hp : (readRun extra m (readCalls h cs) js).2[i]? = some p)
    (hd : p.st = .done r) : r = c.1.alone h (c.2.read m) := by
  have hok := (ReadersOK.start m (cs.map fun c => (c.1.steps h c.2, c.2))).run extra
    (fun x hx => by obtain ⟨c, hc, rfl⟩ := List.mem_map.1 hx; exact hr c hc)
    (fun x hx ha y hy => by
      obtain ⟨c, hc, rfl⟩ := List.mem_map.1 hx
      obtain ⟨c', hc', rfl⟩ := List.mem_map.1 hy
      exact hn c hc (by rw [← c.1.steps_appends h]; exact ha) c' hc') js
  have h1 := hok.states p (List.mem_of_getElem? hp)
  rw [hd] at h1
  have h2 := congrArg (fun l => l[i]?) hok.calls
  unfold readCalls at hp
  rw [List.getElem?_map, hp, List.getElem?_map, hc] at h2
  injection h2 with h2
  injection h2 with e1 e2
  have h3 : r = p.call.whole (p.s.read m) := h1
  rw [h3, e1, e2]
  exact ReadCall.whole h c.1 c.2 _ (read_len (hr c (List.mem_of_getElem? hc)).2)

/-- `SeekLowerBound("foobar")` has room behind its slice, `Get("f")` has none: under every schedule both return what they should. -/
example (js : List Nat) (i : Nat) (c : ReadCall × Slice) (p : Reader (Reply Nat)) (r : R (Reply Nat))
    (hc : (readTwo lowBusy (mixBusy .get) 1 8 1)[i]? = some c)
    (hp : (readRun (fun _ => 0) bufMem (readCalls (heapAfter busy) (readTwo lowBusy (mixBusy .get) 1 8 1)) js).2[i]? = some p)
    (hd : p.st = .done r) : r = c.1.alone (heapAfter busy) (c.2.read bufMem) :=
  C87_partial (fun _ => 0) (heapAfter busy) bufMem _ (by simp only [readTwo, List.forall_mem_cons]; decide +kernel)
    (by simp only [readTwo, List.forall_mem_cons]; decide +kernel) js i c p r hc hp hd
example : bufRead lowBusy (mixBusy .get) 1 8 1 [0, 0, 1, 0, 0, 0, 0, 1, 1, 1, 1] =
    [some (.ok (.stack [some 7])), some (.ok (.answer (.value none)))] := by decide +kernel

/-- An empty slice with room behind it is no danger if it is given to `SeekLowerBound`. -/
example (js : List Nat) (i : Nat) (c : ReadCall × Slice) (p : Reader (Reply Nat)) (r : R (Reply Nat))
    (hc : (readTwo lowBusy lowBusy 0 8 8)[i]? = some c)
    (hp : (readRun (fun _ => 0) bufMem (readCalls (heapAfter busy) (readTwo lowBusy lowBusy 0 8 8)) js).2[i]? = some p)
    (hd : p.st = .done r) : r = c.1.alone (heapAfter busy) (c.2.read bufMem) :=
  C87_partial (fun _ => 0) (heapAfter busy) bufMem _ (by simp only [readTwo, List.forall_mem_cons]; decide +kernel)
    (by simp only [readTwo, List.forall_mem_cons]; decide +kernel) js i c p r hc hp hd
example : bufRead lowBusy lowBusy 0 8 8 [0, 1, 1, 0, 0, 0, 0] = [some (.ok (.stack [some 7])), some (.ok (.stack [some 11]))] := by
  decide +kernel

/-- C87 for slices without room, whatever the calls: no condition on how they overlap. -/
theorem C87_exact (extra : Nat → Nat) (h : Heap V) (m : Mem) (cs : List (ReadCall × Slice)) (hr : ∀ c ∈ cs, c.2.Real m)
    (hx : ∀ c ∈ cs, c.1.appends c.2.len = true → c.2.len = c.2.cap) (js : List Nat) (i : Nat) (c : ReadCall × Slice)
    (p : Reader (Reply V)) (r : R (Reply V)) (hc : cs[i]? = some c) (hp : (readRun extra m (readCalls h cs) js).2[i]? = some p)
    (hd : p.st = .done r) : r = c.1.alone h (c.2.read m) :=
  C87_partial extra h m cs hr (fun c hc' ha c' _ hs => Nat.lt_irrefl _ (hx c hc' ha ▸ hs.1)) js i c p r hc hp hd

/-- The witness of `C87_both_false` with slices cut to their lengths. -/
example (js : List Nat) (i : Nat) (c : ReadCall × Slice) (p : Reader (Reply Nat)) (r : R (Reply Nat))
    (hc : (readTwo lowBusy lowBusy 2 6 2)[i]? = some c)
    (hp : (readRun (fun _ => 0) bufMem (readCalls (heapAfter busy) (readTwo lowBusy lowBusy 2 6 2)) js).2[i]? = some p)
    (hd : p.st = .done r) : r = c.1.alone (heapAfter busy) (c.2.read bufMem) :=
  C87_exact (fun _ => 0) (heapAfter busy) bufMem _ (by simp only [readTwo, List.forall_mem_cons]; decide +kernel)
    (by simp only [readTwo, List.forall_mem_cons]; decide +kernel) js i c p r hc hp hd
example : bufRead lowBusy lowBusy 2 6 2 [0, 1, 0, 0, 0, 0, 1, 1, 1] = [some (.ok (.stack [some 7])), some (.ok (.stack [some 12]))] := by
  decide +kernel

/-- Every call returns: after `len(key) + 4` steps of its own it has, whatever the others do in between and whatever they overwrite. -/
theorem C87_ends (extra : Nat → Nat) (h : Heap V) (m : Mem) (cs : List (ReadCall × Slice)) (js : List Nat) (i : Nat)
    (c : ReadCall × Slice) (hi : cs[i]? = some c) (hj : c.2.len + 4 ≤ js.count i) :
    ∃ p r, (readRun extra m (readCalls h cs) js).2[i]? = some p ∧ p.st = .done r := by
  obtain ⟨p, h1, h2⟩ := readRun_left extra js m (readCalls h cs) i ⟨c.1.steps h c.2, c.2, .waiting⟩
    (by unfold readCalls readAll; rw [List.getElem?_map, List.getElem?_map, hi]; rfl)
  have h3 : p.left = 0 := by
    have : (⟨c.1.steps h c.2, c.2, .waiting⟩ : Reader (Reply V)).left = c.2.len + 4 := rfl
    omega
  cases e : p.st with
  | waiting => unfold Reader.left at h3; rw [e] at h3; cases h3
  | running => unfold Reader.left at h3; rw [e] at h3; cases h3
  | done r => exact ⟨p, r, h1, e⟩

example : bufRead lowBusy (mixBusy .get) 1 8 8 [0, 0, 1, 0, 0, 0, 0, 0, 0, 0, 0, 0, 1, 1, 1, 1, 1] =
    [some (.ok (.stack [some 12])), some (.ok (.answer (.value none)))] := by decide +kernel

end Art
