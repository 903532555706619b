import Verif.Proofs.Buffer
import Verif.ShareSpec
/-
Goroutines that call `Get` at the same time with slices of the same array.
-/
set_option autoImplicit false
set_option linter.unusedVariables false
set_option linter.unusedSimpArgs false
set_option linter.unusedSectionVars false
namespace Art
variable {V : Type} {h : Heap V} {fuel : Nat}

/-- The rounds make up the loop. -/
theorem searchLoopAt_round (h : Heap V) (key : Key) (fuel : Nat) (a : Addr) (d : Nat) :
    searchLoopAt h key (fuel + 1) a d = (searchRound h key a d).bind fun
      | .inl hit => .ok hit
      | .inr (a', d') => searchLoopAt h key fuel a' d' := by
  rw [searchLoopAt]
  unfold searchRound
  cases rd h a with
  | error e => rfl
  | ok c =>
    simp only [bind, Except.bind]
    cases searchLeaf h a c key with
    | error e => rfl
    | ok o =>
      cases o with
      | some hit => rfl
      | none =>
        dsimp only
        cases prefixBails c key d with
        | error e => rfl
        | ok bail =>
          cases bail with
          | true =>
            dsimp only
            simp only [if_true]
            cases searchStop h a c key <;> rfl
          | false =>
            dsimp only
            simp only [if_neg (show ¬ (false = true) by decide)]
            split
            · cases searchStop h a c key <;> rfl
            · cases byteAt key (d + c.partialLen) with
              | error e => rfl
              | ok b =>
                dsimp only
                cases c.findChild b with
                | error e => rfl
                | ok q =>
                  obtain ⟨o, i⟩ := q
                  cases o with
                  | none => dsimp only; cases searchStop h a c key <;> rfl
                  | some ch => rfl

/-- What the slice of a call that has begun shows; the window is in an array of its own, or in that of the caller. -/
def WinOK (m0 m : Mem) (s win : Slice) : Prop :=
  win.read m = s.read m0 ++ [36] ∧ win.len = s.len + 1 ∧
    (m0.length ≤ win.arr ∧ win.arr < m.length ∨ win = { s with len := s.len + 1 } ∧ s.len < s.cap)

/-- The state of a call. -/
def AskOK (h : Heap V) (m0 m : Mem) (t : Tree) (s : Slice) : AskState V → Prop
  | .waiting => True
  | .running win fuel a d => WinOK m0 m s win ∧
      searchLoopAt h (s.read m0 ++ [36]) fuel a d = searchLoopAt h (s.read m0 ++ [36]) ((s.read m0 ++ [36]).length + 1) t.root 0
  | .done r => r = treeGet h t (s.read m0)

/-- The memory and the calls, given the slices and what was there at the beginning. -/
structure ShareOK (h : Heap V) (m0 : Mem) (cs : List (Tree × Slice)) (m : Mem) (ps : List (Asker V)) : Prop where
  grown : m0.length ≤ m.length
  size : ∀ i, i < m0.length → (m.bytes i).length = (m0.bytes i).length
  keys : ∀ c ∈ cs, c.2.read m = c.2.read m0
  calls : ps.map (fun p => (p.t, p.s)) = cs
  states : ∀ p ∈ ps, AskOK h m0 m p.t p.s p.st

theorem length_write (m : Mem) (i j : Nat) (b : Byte) : (m.write i j b).length = m.length := by
  unfold Mem.write; simp

theorem bytes_write_self (m : Mem) (i j : Nat) (b : Byte) : (m.write i j b).bytes i = (m.bytes i).set j b := by
  unfold Mem.bytes Mem.write
  rw [List.getElem?_modify]
  cases m[i]? <;> simp

theorem read_append {m : Mem} {s : Slice} (x : List Byte) (hs : s.arr < m.length) : s.read (m ++ [x]) = s.read m := by
  unfold Slice.read; rw [bytes_append x hs]

/-- Reading a longer window. -/
theorem read_snoc {m : Mem} {s : Slice} (hl : s.off + s.len < (m.bytes s.arr).length) {k : Key} {b : Byte} (hk : k.length = s.len)
    (e : Slice.read m { s with len := s.len + 1 } = k ++ [b]) : (m.bytes s.arr)[s.off + s.len]? = some b := by
  unfold Slice.read at e
  dsimp only at e
  have h1 := congrArg (fun l => l[s.len]?) e
  simp only [List.getElem?_take, List.getElem?_drop] at h1
  rw [if_pos (by omega)] at h1
  rw [h1, List.getElem?_append_right (by omega)]
  simp [hk]

theorem read_len {m : Mem} {s : Slice} (hl : s.Lies m) : (s.read m).length = s.len := by
  obtain ⟨h1, h2⟩ := hl
  unfold Slice.read; rw [List.length_take, List.length_drop]; omega

/-- Overwriting a byte of a slice changes what it shows. -/
theorem read_spoiled {m : Mem} {s s' : Slice} (hr : s'.Real m) (hs : s.spoils s') (hb : (m.bytes s.arr)[s.off + s.len]? ≠ some 36) :
    s'.read (m.write s.arr (s.off + s.len) 36) ≠ s'.read m := fun e => by
  obtain ⟨-, h1, h2, h3⟩ := hs
  obtain ⟨-, l1, l2⟩ := hr
  have e1 := congrArg (fun l : List Byte => l[s.off + s.len - s'.off]?) e
  unfold Slice.read at e1
  simp only [List.getElem?_take, List.getElem?_drop] at e1
  rw [if_pos (by omega), if_pos (by omega), ← h1, bytes_write_self, show s'.off + (s.off + s.len - s'.off) = s.off + s.len by omega,
    List.getElem?_set_self (by rw [h1]; omega)] at e1
  exact hb e1.symm

/-- The `append` of one call leaves the other calls alone. -/
theorem append_others (extra : Nat → Nat) {m0 m : Mem} {s s' : Slice} (hg : m0.length ≤ m.length)
    (hsz : ∀ i, i < m0.length → (m.bytes i).length = (m0.bytes i).length) (hs : s.Real m0) (hs' : s'.Real m0) (hn : ¬ s.spoils s') :
    (s'.read m = s'.read m0 → s'.read (goAppend extra m s 36).1 = s'.read m0) ∧
    ∀ win, WinOK m0 m s' win → WinOK m0 (goAppend extra m s 36).1 s' win := by
  obtain ⟨a1, l1, l2⟩ := hs
  obtain ⟨a1', l1', l2'⟩ := hs'
  unfold goAppend
  split
  · next hlt =>
    dsimp only
    have key : s'.read (m.write s.arr (s.off + s.len) 36) = s'.read m := by
      refine read_write_miss ?_
      by_cases he : s.arr = s'.arr
      · right
        by_cases h1 : s'.off ≤ s.off + s.len
        · right
          exact Nat.le_of_not_lt fun h2 => hn ⟨hlt, he, h1, h2⟩
        · left; omega
      · exact .inl he
    refine ⟨fun e => key.trans e, fun win ⟨w1, w2, w3⟩ => ?_⟩
    rcases w3 with ⟨w3, w4⟩ | ⟨w3, w4⟩
    · refine ⟨(read_write_miss (.inl (by omega))).trans w1, w2, .inl ⟨w3, by rw [length_write]; exact w4⟩⟩
    · refine ⟨?_, w2, .inr ⟨w3, w4⟩⟩
      subst w3
      by_cases he : s.arr = s'.arr ∧ s.off + s.len = s'.off + s'.len
      · rw [he.1, he.2, write_same]
        · exact w1
        · refine read_snoc ?_ (k := s'.read m0) ?_ w1
          · rw [hsz _ a1']; omega
          · exact read_len ⟨l1', l2'⟩
      · rw [← w1]
        refine read_write_miss ?_
        dsimp only
        by_cases h0 : s.arr = s'.arr
        · right
          by_cases h1 : s'.off ≤ s.off + s.len
          · right
            have h2 : ¬ s.off + s.len < s'.off + s'.len := fun h2 => hn ⟨hlt, h0, h1, h2⟩
            have h3 : s.off + s.len ≠ s'.off + s'.len := fun h3 => he ⟨h0, h3⟩
            omega
          · left; omega
        · exact .inl h0
  · dsimp only
    refine ⟨fun e => (read_append _ (by omega)).trans e, fun win ⟨w1, w2, w3⟩ => ?_⟩
    have hw : win.arr < m.length := by
      rcases w3 with w3 | w3
      · exact w3.2
      · rw [w3.1]; dsimp only; omega
    refine ⟨(read_append _ hw).trans w1, w2, ?_⟩
    rcases w3 with w3 | w3
    · exact .inl ⟨w3.1, by rw [List.length_append]; omega⟩
    · exact .inr w3

/-- The window of the call itself. -/
theorem append_own (extra : Nat → Nat) {m0 m : Mem} {s : Slice} (hg : m0.length ≤ m.length)
    (hsz : ∀ i, i < m0.length → (m.bytes i).length = (m0.bytes i).length) (hs : s.Real m0) (hk : s.read m = s.read m0) :
    WinOK m0 (goAppend extra m s 36).1 s (goAppend extra m s 36).2 := by
  obtain ⟨a1, l1, l2⟩ := hs
  have h1 := goAppend_read extra 36 l1 (show s.off + s.cap ≤ (m.bytes s.arr).length by rw [hsz _ a1]; exact l2)
  rw [hk] at h1
  refine ⟨h1, ?_, ?_⟩
  · unfold goAppend; split <;> rfl
  · unfold goAppend
    split
    · next hlt => exact .inr ⟨rfl, hlt⟩
    · left
      dsimp only
      exact ⟨hg, by simp⟩

theorem append_size (extra : Nat → Nat) {m0 m : Mem} {s : Slice} (hg : m0.length ≤ m.length)
    (hsz : ∀ i, i < m0.length → (m.bytes i).length = (m0.bytes i).length) :
    m0.length ≤ (goAppend extra m s 36).1.length ∧
      ∀ i, i < m0.length → ((goAppend extra m s 36).1.bytes i).length = (m0.bytes i).length := by
  unfold goAppend
  split
  · dsimp only
    rw [length_write]
    refine ⟨hg, fun i hi => ?_⟩
    by_cases he : i = s.arr
    · subst he
      rw [bytes_write_self, List.length_set, hsz _ hi]
    · rw [bytes_write _ he, hsz _ hi]
  · dsimp only
    refine ⟨by rw [List.length_append]; omega, fun i hi => ?_⟩
    rw [bytes_append _ (by omega), hsz _ hi]

theorem ShareOK.start (h : Heap V) (m : Mem) (cs : List (Tree × Slice)) : ShareOK h m cs m (askAll cs) where
  grown := Nat.le_refl _
  size := fun _ _ => rfl
  keys := fun _ _ => rfl
  calls := by unfold askAll; rw [List.map_map]; exact List.map_id _
  states := fun p hp => by
    unfold askAll at hp
    obtain ⟨c, -, rfl⟩ := List.mem_map.1 hp
    trivial

theorem map_set_same {α β : Type} (f : α → β) (l : List α) (j : Nat) (x y : α) (hj : l[j]? = some x) (hxy : f y = f x) : (l.set j y).map f = l.map f := by
  apply List.ext_getElem?
  intro k
  rw [List.getElem?_map, List.getElem?_map, List.getElem?_set]
  split
  · next hk =>
    subst hk
    rw [if_pos (List.getElem?_eq_some_iff.1 hj).1, hj]
    exact congrArg some hxy
  · rfl

theorem askStep_call (extra : Nat → Nat) (h : Heap V) (m : Mem) (p : Asker V) : (askStep extra h m p).2.t = p.t ∧ (askStep extra h m p).2.s = p.s := by
  unfold askStep
  split
  · exact ⟨rfl, rfl⟩
  · split
    · exact ⟨rfl, rfl⟩
    · split <;> exact ⟨rfl, rfl⟩
  · exact ⟨rfl, rfl⟩

theorem ShareOK.step (extra : Nat → Nat) {m0 m : Mem} {cs : List (Tree × Slice)} {ps : List (Asker V)} (hok : ShareOK h m0 cs m ps)
    (hr : ∀ c ∈ cs, c.2.Real m0) (hn : ∀ c ∈ cs, ∀ c' ∈ cs, ¬ c.2.spoils c'.2) {j : Nat} {p : Asker V} (hj : ps[j]? = some p) :
    ShareOK h m0 cs (askStep extra h m p).1 (ps.set j (askStep extra h m p).2) := by
  have hp : p ∈ ps := List.mem_of_getElem? hj
  have hcs : ∀ q ∈ ps, (q.t, q.s) ∈ cs := fun q hq => by rw [← hok.calls]; exact List.mem_map.2 ⟨q, hq, rfl⟩
  have hst := hok.states p hp
  have hpc := hcs p hp
  have calls : (ps.set j (askStep extra h m p).2).map (fun p => (p.t, p.s)) = cs := by
    rw [map_set_same _ _ _ _ _ hj (by rw [(askStep_call extra h m p).1, (askStep_call extra h m p).2])]
    exact hok.calls
  have still : (askStep extra h m p).1 = m → AskOK h m0 m p.t p.s (askStep extra h m p).2.st →
      ShareOK h m0 cs (askStep extra h m p).1 (ps.set j (askStep extra h m p).2) := fun e1 e2 => by
    refine ⟨by rw [e1]; exact hok.grown, by rw [e1]; exact hok.size, by rw [e1]; exact hok.keys, calls, fun q hq => ?_⟩
    rw [e1]
    rcases List.mem_or_eq_of_mem_set hq with hq | hq
    · exact hok.states q hq
    · rw [hq, (askStep_call extra h m p).1, (askStep_call extra h m p).2]; exact e2
  cases hs : p.st with
  | waiting =>
    have e : askStep extra h m p = ((goAppend extra m p.s 36).1,
        { p with st := .running (goAppend extra m p.s 36).2 ((goAppend extra m p.s 36).2.len + 1) p.t.root 0 }) := by
      unfold askStep; rw [hs]
    rw [e] at calls ⊢
    have hz := append_size extra (s := p.s) hok.grown hok.size
    refine ⟨hz.1, hz.2, fun c hc => ?_, calls, fun q hq => ?_⟩
    · exact (append_others extra hok.grown hok.size (hr _ hpc) (hr c hc) (hn _ hpc c hc)).1 (hok.keys c hc)
    · rcases List.mem_or_eq_of_mem_set hq with hq | hq
      · have ho := (append_others extra hok.grown hok.size (hr _ hpc) (hr _ (hcs q hq)) (hn _ hpc _ (hcs q hq))).2
        have hq1 := hok.states q hq
        cases hqs : q.st with
        | waiting => trivial
        | running win fuel a d =>
          rw [hqs] at hq1
          exact ⟨ho win hq1.1, hq1.2⟩
        | done r => rw [hqs] at hq1; exact hq1
      · subst hq
        have hw := append_own extra hok.grown hok.size (hr _ hpc) (hok.keys _ hpc)
        refine ⟨hw, ?_⟩
        dsimp only
        rw [hw.2.1, List.length_append, read_len (hr _ hpc).2]
        rfl
  | running win fuel a d =>
    rw [hs] at hst
    obtain ⟨hw, hl⟩ := hst
    have hrd : win.read m = p.s.read m0 ++ [36] := hw.1
    have htg : treeGet h p.t (p.s.read m0) =
        (searchLoopAt h (p.s.read m0 ++ [36]) ((p.s.read m0 ++ [36]).length + 1) p.t.root 0).bind fun hit => .ok hit.val := rfl
    cases fuel with
    | zero =>
      have e : askStep extra h m p = (m, { p with st := .done (.error .fuel) }) := by unfold askStep; rw [hs]
      refine still (by rw [e]) ?_
      rw [e]
      show _ = _
      rw [htg, ← hl]
      rfl
    | succ fuel =>
      rw [searchLoopAt_round] at hl
      cases hrn : searchRound h (p.s.read m0 ++ [36]) a d with
      | error x =>
        have e : askStep extra h m p = (m, { p with st := .done (.error x) }) := by unfold askStep; rw [hs]; dsimp only; rw [hrd, hrn]
        refine still (by rw [e]) ?_
        rw [e]
        show _ = _
        rw [htg, ← hl, hrn]
        rfl
      | ok r =>
        cases r with
        | inl hit =>
          have e : askStep extra h m p = (m, { p with st := .done (.ok hit.val) }) := by unfold askStep; rw [hs]; dsimp only; rw [hrd, hrn]
          refine still (by rw [e]) ?_
          rw [e]
          show _ = _
          rw [htg, ← hl, hrn]
          rfl
        | inr q =>
          obtain ⟨a', d'⟩ := q
          have e : askStep extra h m p = (m, { p with st := .running win fuel a' d' }) := by unfold askStep; rw [hs]; dsimp only; rw [hrd, hrn]
          refine still (by rw [e]) ?_
          rw [e]
          refine ⟨hw, ?_⟩
          rw [← hl, hrn]
          rfl
  | done r =>
    have e : askStep extra h m p = (m, p) := by unfold askStep; rw [hs]
    refine still (by rw [e]) ?_
    rw [e]
    exact hst

theorem ShareOK.run (extra : Nat → Nat) {m0 : Mem} {cs : List (Tree × Slice)} (hr : ∀ c ∈ cs, c.2.Real m0)
    (hn : ∀ c ∈ cs, ∀ c' ∈ cs, ¬ c.2.spoils c'.2) (js : List Nat) : ∀ (m : Mem) (ps : List (Asker V)), ShareOK h m0 cs m ps →
    ShareOK h m0 cs (askRun extra h m ps js).1 (askRun extra h m ps js).2 := by
  induction js with
  | nil => intro m ps hok; exact hok
  | cons j js ih =>
    intro m ps hok
    unfold askRun
    cases hj : ps[j]? with
    | none => exact ih m ps hok
    | some p => exact ih _ _ (hok.step extra hr hn hj)

/-! ### Calls return -/

/-- How many steps a call has before it, at most. -/
def Asker.left (p : Asker V) : Nat :=
  match p.st with
  | .waiting => p.s.len + 4
  | .running _ fuel _ _ => fuel + 1
  | .done _ => 0

theorem askStep_left (extra : Nat → Nat) (h : Heap V) (m : Mem) (p : Asker V) : (askStep extra h m p).2.left ≤ p.left - 1 := by
  unfold askStep
  split
  · next hs =>
    have e : (goAppend extra m p.s 36).2.len = p.s.len + 1 := by unfold goAppend; split <;> rfl
    unfold Asker.left
    rw [hs]
    dsimp only
    omega
  · next hs =>
    split
    · unfold Asker.left; exact Nat.zero_le _
    · rename_i f
      have hl : p.left = f + 1 + 1 := by unfold Asker.left; rw [hs]
      rw [hl]
      split
      · exact Nat.zero_le _
      · exact Nat.zero_le _
      · exact Nat.le_refl _
  · next hs => unfold Asker.left; rw [hs]; exact Nat.zero_le _

theorem askRun_left (extra : Nat → Nat) (h : Heap V) (js : List Nat) : ∀ (m : Mem) (ps : List (Asker V)) (i : Nat) (p : Asker V), ps[i]? = some p →
    ∃ p', (askRun extra h m ps js).2[i]? = some p' ∧ p'.left ≤ p.left - js.count i := by
  induction js with
  | nil => intro m ps i p hi; exact ⟨p, hi, by simp⟩
  | cons j js ih =>
    intro m ps i p hi
    unfold askRun
    cases hj : ps[j]? with
    | none =>
      have hne : j ≠ i := fun e => by rw [e, hi] at hj; cases hj
      obtain ⟨p', h1, h2⟩ := ih m ps i p hi
      exact ⟨p', h1, by rw [List.count_cons_of_ne hne]; exact h2⟩
    | some q =>
      dsimp only
      by_cases he : j = i
      · subst he
        rw [hi] at hj
        cases hj
        obtain ⟨p', h1, h2⟩ := ih (askStep extra h m p).1 (ps.set j (askStep extra h m p).2) j (askStep extra h m p).2
          (by rw [List.getElem?_set_self (List.getElem?_eq_some_iff.1 hi).1])
        have h3 := askStep_left extra h m p
        exact ⟨p', h1, by rw [List.count_cons_self]; omega⟩
      · obtain ⟨p', h1, h2⟩ := ih (askStep extra h m q).1 (ps.set j (askStep extra h m q).2) i p (by rw [List.getElem?_set_ne he]; exact hi)
        exact ⟨p', h1, by rw [List.count_cons_of_ne he]; exact h2⟩

end Art
