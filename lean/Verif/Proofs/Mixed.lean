import Verif.Proofs.Share
import Verif.MixedSpec
/-
Goroutines that make reading calls of several kinds with slices of the same array.
-/
set_option autoImplicit false
set_option linter.unusedVariables false
set_option linter.unusedSimpArgs false
set_option linter.unusedSectionVars false
namespace Art
variable {V : Type} {h : Heap V} {fuel : Nat}

theorem lpLoop_round (h : Heap V) (key : Key) (fuel : Nat) (a : Addr) (d : Nat) (last : Option Addr) :
    lpLoop h key (fuel + 1) a d last = (lpRound h key a d last).bind fun
      | .inl l => .ok l
      | .inr q => lpLoop h key fuel q.1 q.2.1 q.2.2 := by
  rw [lpLoop]
  unfold lpRound
  cases rd h a with
  | error e => rfl
  | ok c =>
    simp only [bind, Except.bind]
    cases prefixBails c key d with
    | error e => rfl
    | ok bail =>
      cases bail with
      | true => rfl
      | false =>
        dsimp only
        simp only [if_neg (show ¬ (false = true) by decide)]
        split
        · rfl
        · cases lpOwn h key c last with
          | error e => rfl
          | ok l1 =>
            dsimp only
            cases lpChildren h key c.children l1 with
            | error e => rfl
            | ok l2 =>
              dsimp only
              cases byteAt key (d + c.partialLen) with
              | error e => rfl
              | ok b =>
                dsimp only
                cases c.findChild b with
                | error e => rfl
                | ok q =>
                  obtain ⟨o, i⟩ := q
                  cases o <;> rfl

theorem seekLoop_round (h : Heap V) (pre : Key) (fuel : Nat) (a : Addr) (d : Nat) :
    seekLoop h pre (fuel + 1) a d = (seekRound h pre a d).bind fun
      | .inl n => .ok n
      | .inr q => seekLoop h pre fuel q.1 q.2 := by
  rw [seekLoop]
  unfold seekRound
  cases rd h a with
  | error e => rfl
  | ok c =>
    simp only [bind, Except.bind]
    cases seekStep h a c pre d with
    | error e => rfl
    | ok q =>
      obtain ⟨stop, d'⟩ := q
      cases stop with
      | true => rfl
      | false =>
        dsimp only
        simp only [if_neg (show ¬ (false = true) by decide)]
        split
        · rfl
        · cases byteAt pre d' with
          | error e => rfl
          | ok b =>
            dsimp only
            cases c.findChild b with
            | error e => rfl
            | ok q =>
              obtain ⟨o, i⟩ := q
              cases o <;> rfl

/-- The rounds of a call, with a key that does not change. -/
def mixLoop (h : Heap V) (k : AskKind) (key : Key) : Nat → Addr → Nat → Option Addr → R (Answer V)
  | 0, _, _, _ => .error .fuel
  | fuel + 1, a, d, last =>
    (mixRound h k key a d last).bind fun
      | .inl r => .ok r
      | .inr q => mixLoop h k key fuel q.1 q.2.1 q.2.2

theorem mixLoop_get (h : Heap V) (key : Key) (fuel : Nat) : ∀ (a : Addr) (d : Nat) (last : Option Addr),
    mixLoop h .get key fuel a d last = (searchLoopAt h key fuel a d).bind fun hit => .ok (.value hit.val) := by
  induction fuel with
  | zero => intro a d last; rfl
  | succ fuel ih =>
    intro a d last
    rw [searchLoopAt_round, mixLoop]
    unfold mixRound
    dsimp only
    cases searchRound h key a d with
    | error e => rfl
    | ok r =>
      cases r with
      | inl hit => rfl
      | inr q => exact ih q.1 q.2 last

theorem mixLoop_longest (h : Heap V) (key : Key) (fuel : Nat) : ∀ (a : Addr) (d : Nat) (last : Option Addr),
    mixLoop h .longest key fuel a d last = (lpLoop h key fuel a d last).bind fun l => (lpAnswer h l).bind fun r => .ok (.pair r) := by
  induction fuel with
  | zero => intro a d last; rfl
  | succ fuel ih =>
    intro a d last
    rw [lpLoop_round, mixLoop]
    unfold mixRound
    dsimp only
    cases lpRound h key a d last with
    | error e => rfl
    | ok r =>
      cases r with
      | inl l =>
        simp only [bind, Except.bind]
        cases lpAnswer h l <;> rfl
      | inr q => exact ih q.1 q.2.1 q.2.2

theorem mixLoop_seek (h : Heap V) (key : Key) (fuel : Nat) : ∀ (a : Addr) (d : Nat) (last : Option Addr),
    mixLoop h .seek key fuel a d last = (seekLoop h key fuel a d).bind fun n => .ok (.node n) := by
  induction fuel with
  | zero => intro a d last; rfl
  | succ fuel ih =>
    intro a d last
    rw [seekLoop_round, mixLoop]
    unfold mixRound
    dsimp only
    cases seekRound h key a d with
    | error e => rfl
    | ok r =>
      cases r with
      | inl n => rfl
      | inr q => exact ih q.1 q.2 last

/-- The beginning of a call and its rounds make up the call. -/
theorem mixCall_ok {k : AskKind} {t : Tree} {key : Key} {last : Option Addr} (hs : mixStart h k t = .ok last) :
    mixLoop h k (k.seen key) ((k.seen key).length + 1) t.root 0 last = mixCall h k t key := by
  cases k with
  | get =>
    have e : treeGet h t key = (searchLoopAt h (key ++ [36]) ((key ++ [36]).length + 1) t.root 0).bind fun hit => .ok hit.val := rfl
    have e' : AskKind.seen .get key = key ++ [36] := rfl
    have e'' : mixCall h .get t key = (treeGet h t key).map .value := rfl
    rw [e'', e, e', mixLoop_get]
    generalize searchLoopAt h (key ++ [36]) ((key ++ [36]).length + 1) t.root 0 = x
    cases x <;> rfl
  | longest =>
    have e' : AskKind.seen .longest key = key ++ [36] := rfl
    have e'' : mixCall h .longest t key = (longestPrefix h t key).map .pair := rfl
    have e : longestPrefix h t key = (rd h t.root).bind fun c =>
        (lpLoop h (key ++ [36]) ((key ++ [36]).length + 1) t.root 0 c.nodeLeaf).bind fun l => lpAnswer h l := by
      unfold longestPrefix
      have eg : getTreeKey key = key ++ [36] := rfl
      rw [eg]
      rfl
    have es : mixStart h .longest t = (rd h t.root).bind fun c => .ok c.nodeLeaf := rfl
    rw [e'', e, e', mixLoop_longest]
    rw [es] at hs
    cases hc : rd h t.root with
    | error e => rw [hc] at hs; cases hs
    | ok c =>
      rw [hc] at hs
      injection hs with hs
      subst hs
      simp only [Except.bind]
      generalize lpLoop h (key ++ [36]) ((key ++ [36]).length + 1) t.root 0 c.nodeLeaf = x
      cases x with
      | error e => rfl
      | ok l =>
        dsimp only
        generalize lpAnswer h l = y
        cases y <;> rfl
  | seek =>
    have e : seekPrefix h (mkIter t.root) key = (seekLoop h key (key.length + 1) t.root 0).bind fun n =>
      .ok ({ mkIter t.root with path := key, node := some n, stack := [some n] }, n) := rfl
    have e' : AskKind.seen .seek key = key := rfl
    have e'' : mixCall h .seek t key = (seekPrefix h (mkIter t.root) key).map fun r => .node r.2 := rfl
    rw [e'', e, e', mixLoop_seek]
    generalize seekLoop h key (key.length + 1) t.root 0 = x
    cases x <;> rfl

theorem mixCall_error {k : AskKind} {t : Tree} {key : Key} {e : Err} (hs : mixStart h k t = .error e) : mixCall h k t key = .error e := by
  cases k with
  | get => cases hs
  | longest =>
    unfold mixStart at hs
    unfold mixCall longestPrefix
    dsimp only at hs ⊢
    cases hc : rd h t.root with
    | error x => rw [hc] at hs; injection hs with hs; subst hs; rfl
    | ok c => rw [hc] at hs; cases hs
  | seek => cases hs

/-- The window of a call. -/
def MixWin (m0 m : Mem) (k : AskKind) (s win : Slice) : Prop := if k.appends then WinOK m0 m s win else win = s

/-- The state of a call. -/
def MixOK (h : Heap V) (m0 m : Mem) (k : AskKind) (t : Tree) (s : Slice) : MixState V → Prop
  | .waiting => True
  | .running win fuel a d last => MixWin m0 m k s win ∧ mixLoop h k (k.seen (s.read m0)) fuel a d last = mixCall h k t (s.read m0)
  | .done r => r = mixCall h k t (s.read m0)

/-- The memory and the calls, given the slices and what was there at the beginning. -/
structure MixedOK (h : Heap V) (m0 : Mem) (cs : List (AskKind × Tree × Slice)) (m : Mem) (ps : List (Mixer V)) : Prop where
  grown : m0.length ≤ m.length
  size : ∀ i, i < m0.length → (m.bytes i).length = (m0.bytes i).length
  keys : ∀ c ∈ cs, c.2.2.read m = c.2.2.read m0
  calls : ps.map (fun p => (p.kind, p.t, p.s)) = cs
  states : ∀ p ∈ ps, MixOK h m0 m p.kind p.t p.s p.st

theorem MixedOK.start (h : Heap V) (m : Mem) (cs : List (AskKind × Tree × Slice)) : MixedOK h m cs m (mixAll cs) where
  grown := Nat.le_refl _
  size := fun _ _ => rfl
  keys := fun _ _ => rfl
  calls := by unfold mixAll; rw [List.map_map]; exact List.map_id _
  states := fun p hp => by
    unfold mixAll at hp
    obtain ⟨c, -, rfl⟩ := List.mem_map.1 hp
    trivial

theorem mixStep_call (extra : Nat → Nat) (h : Heap V) (m : Mem) (p : Mixer V) :
    (mixStep extra h m p).2.kind = p.kind ∧ (mixStep extra h m p).2.t = p.t ∧ (mixStep extra h m p).2.s = p.s := by
  unfold mixStep
  split
  · exact ⟨rfl, rfl, rfl⟩
  · split
    · exact ⟨rfl, rfl, rfl⟩
    · split <;> exact ⟨rfl, rfl, rfl⟩
  · exact ⟨rfl, rfl, rfl⟩

/-- What the loop of a call reads, while no other call disturbs it. -/
theorem MixWin.read {m0 m : Mem} {k : AskKind} {s win : Slice} (hw : MixWin m0 m k s win) (hk : s.read m = s.read m0) :
    win.read m = k.seen (s.read m0) := by
  unfold MixWin at hw
  unfold AskKind.seen
  split at hw
  · next e => rw [if_pos e]; exact hw.1
  · next e => rw [if_neg e, hw]; exact hk

theorem MixedOK.step (extra : Nat → Nat) {m0 m : Mem} {cs : List (AskKind × Tree × Slice)} {ps : List (Mixer V)} (hok : MixedOK h m0 cs m ps)
    (hr : ∀ c ∈ cs, c.2.2.Real m0) (hn : ∀ c ∈ cs, c.1.appends = true → ∀ c' ∈ cs, ¬ c.2.2.spoils c'.2.2) {j : Nat} {p : Mixer V}
    (hj : ps[j]? = some p) : MixedOK h m0 cs (mixStep extra h m p).1 (ps.set j (mixStep extra h m p).2) := by
  have hp : p ∈ ps := List.mem_of_getElem? hj
  have hcs : ∀ q ∈ ps, (q.kind, q.t, q.s) ∈ cs := fun q hq => by rw [← hok.calls]; exact List.mem_map.2 ⟨q, hq, rfl⟩
  have hst := hok.states p hp
  have hpc := hcs p hp
  obtain ⟨c1, c2, c3⟩ := mixStep_call extra h m p
  have calls : (ps.set j (mixStep extra h m p).2).map (fun p => (p.kind, p.t, p.s)) = cs := by
    rw [map_set_same _ _ _ _ _ hj (by rw [c1, c2, c3])]
    exact hok.calls
  have still : (mixStep extra h m p).1 = m → MixOK h m0 m p.kind p.t p.s (mixStep extra h m p).2.st →
      MixedOK h m0 cs (mixStep extra h m p).1 (ps.set j (mixStep extra h m p).2) := fun e1 e2 => by
    refine ⟨by rw [e1]; exact hok.grown, by rw [e1]; exact hok.size, by rw [e1]; exact hok.keys, calls, fun q hq => ?_⟩
    rw [e1]
    rcases List.mem_or_eq_of_mem_set hq with hq | hq
    · exact hok.states q hq
    · rw [hq, c1, c2, c3]; exact e2
  cases hs : p.st with
  | waiting =>
    have e1 : (mixStep extra h m p).1 = (mixWindow extra m p.kind p.s).1 := by unfold mixStep; rw [hs]
    have e2 : (mixStep extra h m p).2.st = mixBegin (mixStart h p.kind p.t) (mixWindow extra m p.kind p.s).2 p.t.root := by
      unfold mixStep; rw [hs]
    have hlen := read_len (hr _ hpc).2
    have own : MixWin m0 (mixWindow extra m p.kind p.s).1 p.kind p.s (mixWindow extra m p.kind p.s).2 →
        (mixWindow extra m p.kind p.s).2.len + 1 = (p.kind.seen (p.s.read m0)).length + 1 →
        MixOK h m0 (mixStep extra h m p).1 p.kind p.t p.s (mixStep extra h m p).2.st := fun w l => by
      rw [e1, e2]
      cases hm : mixStart h p.kind p.t with
      | error e => exact (mixCall_error hm).symm
      | ok last =>
        refine ⟨w, ?_⟩
        rw [l]
        exact mixCall_ok hm
    by_cases ha : p.kind.appends = true
    · have ew : mixWindow extra m p.kind p.s = goAppend extra m p.s 36 := by unfold mixWindow; rw [if_pos ha]
      have hw := append_own extra hok.grown hok.size (hr _ hpc) (hok.keys _ hpc)
      have own' := own (by rw [ew]; unfold MixWin; rw [if_pos ha]; exact hw)
        (by rw [ew, hw.2.1]; unfold AskKind.seen; rw [if_pos ha, List.length_append]; dsimp only at hlen; rw [hlen]; rfl)
      have hz := append_size extra (s := p.s) hok.grown hok.size
      refine ⟨by rw [e1, ew]; exact hz.1, by rw [e1, ew]; exact hz.2, fun c hc => ?_, calls, fun q hq => ?_⟩
      · rw [e1, ew]
        exact (append_others extra hok.grown hok.size (hr _ hpc) (hr c hc) (hn _ hpc ha c hc)).1 (hok.keys c hc)
      · rcases List.mem_or_eq_of_mem_set hq with hq | hq
        · have ho := (append_others extra hok.grown hok.size (hr _ hpc) (hr _ (hcs q hq)) (hn _ hpc ha _ (hcs q hq))).2
          have hq1 := hok.states q hq
          rw [e1, ew]
          cases hqs : q.st with
          | waiting => trivial
          | running win fuel a d last =>
            rw [hqs] at hq1
            refine ⟨?_, hq1.2⟩
            have h1 := hq1.1
            unfold MixWin at h1 ⊢
            split at h1
            · next e => rw [if_pos e]; exact ho win h1
            · next e => rw [if_neg e]; exact h1
          | done r => rw [hqs] at hq1; exact hq1
        · rw [hq, c1, c2, c3]; exact own'
    · have ew : mixWindow extra m p.kind p.s = (m, p.s) := by unfold mixWindow; rw [if_neg ha]
      have own' := own (by rw [ew]; unfold MixWin; rw [if_neg ha])
        (by rw [ew]; unfold AskKind.seen; rw [if_neg ha]; dsimp only at hlen ⊢; rw [hlen])
      have e3 : (mixStep extra h m p).1 = m := by rw [e1, ew]
      exact still e3 (by rw [e3] at own'; exact own')
  | running win fuel a d last =>
    rw [hs] at hst
    obtain ⟨hw, hl⟩ := hst
    have hrd : win.read m = p.kind.seen (p.s.read m0) := hw.read (hok.keys _ hpc)
    cases fuel with
    | zero =>
      have e : mixStep extra h m p = (m, { p with st := .done (.error .fuel) }) := by unfold mixStep; rw [hs]
      exact still (by rw [e]) (by rw [e]; exact hl)
    | succ fuel =>
      rw [mixLoop] at hl
      cases hrn : mixRound h p.kind (p.kind.seen (p.s.read m0)) a d last with
      | error x =>
        have e : mixStep extra h m p = (m, { p with st := .done (.error x) }) := by unfold mixStep; rw [hs]; dsimp only; rw [hrd, hrn]
        rw [hrn] at hl
        exact still (by rw [e]) (by rw [e]; exact hl)
      | ok r =>
        rw [hrn] at hl
        cases r with
        | inl r =>
          have e : mixStep extra h m p = (m, { p with st := .done (.ok r) }) := by unfold mixStep; rw [hs]; dsimp only; rw [hrd, hrn]
          exact still (by rw [e]) (by rw [e]; exact hl)
        | inr q =>
          have e : mixStep extra h m p = (m, { p with st := .running win fuel q.1 q.2.1 q.2.2 }) := by
            unfold mixStep; rw [hs]; dsimp only; rw [hrd, hrn]
          exact still (by rw [e]) (by rw [e]; exact ⟨hw, hl⟩)
  | done r =>
    have e : mixStep extra h m p = (m, p) := by unfold mixStep; rw [hs]
    exact still (by rw [e]) (by rw [e]; exact hst)

theorem MixedOK.run (extra : Nat → Nat) {m0 : Mem} {cs : List (AskKind × Tree × Slice)} (hr : ∀ c ∈ cs, c.2.2.Real m0)
    (hn : ∀ c ∈ cs, c.1.appends = true → ∀ c' ∈ cs, ¬ c.2.2.spoils c'.2.2) (js : List Nat) :
    ∀ (m : Mem) (ps : List (Mixer V)), MixedOK h m0 cs m ps →
    MixedOK h m0 cs (mixRun extra h m ps js).1 (mixRun extra h m ps js).2 := by
  induction js with
  | nil => intro m ps hok; exact hok
  | cons j js ih =>
    intro m ps hok
    unfold mixRun
    cases hj : ps[j]? with
    | none => exact ih m ps hok
    | some p => exact ih _ _ (hok.step extra hr hn hj)

/-! ### Calls return -/

/-- How many steps a call has before it, at most. -/
def Mixer.left (p : Mixer V) : Nat :=
  match p.st with
  | .waiting => p.s.len + 4
  | .running _ fuel _ _ _ => fuel + 1
  | .done _ => 0

theorem mixWindow_len (extra : Nat → Nat) (m : Mem) (k : AskKind) (s : Slice) : (mixWindow extra m k s).2.len ≤ s.len + 1 := by
  unfold mixWindow goAppend
  split
  · split <;> exact Nat.le_refl _
  · exact Nat.le_succ _

theorem mixStep_left (extra : Nat → Nat) (h : Heap V) (m : Mem) (p : Mixer V) : (mixStep extra h m p).2.left ≤ p.left - 1 := by
  unfold mixStep
  split
  · next hs =>
    have e := mixWindow_len extra m p.kind p.s
    have hl : p.left = p.s.len + 4 := by unfold Mixer.left; rw [hs]
    rw [hl]
    cases mixStart h p.kind p.t with
    | error x => exact Nat.zero_le _
    | ok last =>
      show (mixWindow extra m p.kind p.s).2.len + 1 + 1 ≤ _
      omega
  · next hs =>
    split
    · exact Nat.zero_le _
    · rename_i f
      have hl : p.left = f + 1 + 1 := by unfold Mixer.left; rw [hs]
      rw [hl]
      split
      · exact Nat.zero_le _
      · exact Nat.zero_le _
      · exact Nat.le_refl _
  · next hs => unfold Mixer.left; rw [hs]; exact Nat.zero_le _

theorem mixRun_left (extra : Nat → Nat) (h : Heap V) (js : List Nat) : ∀ (m : Mem) (ps : List (Mixer V)) (i : Nat) (p : Mixer V), ps[i]? = some p →
    ∃ p', (mixRun extra h m ps js).2[i]? = some p' ∧ p'.left ≤ p.left - js.count i := by
  induction js with
  | nil => intro m ps i p hi; exact ⟨p, hi, by simp⟩
  | cons j js ih =>
    intro m ps i p hi
    unfold mixRun
    cases hj : ps[j]? with
    | none =>
      have hne : j ≠ i := fun e => by rw [e, hi] at hj; cases hj
      obtain ⟨p', h1, h2⟩ := ih m ps i p hi
      exact ⟨p', h1, by rw [List.count_cons_of_ne hne]; exact h2⟩
    | some q =>
      dsimp only
      by_cases he : j = i
      · subst he
        rw [hi] at hj
        cases hj
        obtain ⟨p', h1, h2⟩ := ih (mixStep extra h m p).1 (ps.set j (mixStep extra h m p).2) j (mixStep extra h m p).2
          (by rw [List.getElem?_set_self (List.getElem?_eq_some_iff.1 hi).1])
        have h3 := mixStep_left extra h m p
        exact ⟨p', h1, by rw [List.count_cons_self]; omega⟩
      · obtain ⟨p', h1, h2⟩ := ih (mixStep extra h m q).1 (ps.set j (mixStep extra h m q).2) i p (by rw [List.getElem?_set_ne he]; exact hi)
        exact ⟨p', h1, by rw [List.count_cons_of_ne he]; exact h2⟩

end Art
