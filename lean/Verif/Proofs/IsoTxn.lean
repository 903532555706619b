import Verif.Proofs.Iso
/-
Isolation of whole API calls.
-/
set_option autoImplicit false
set_option linter.unusedVariables false
set_option linter.unusedSimpArgs false
namespace Art
variable {V : Type}

/-- What a whole call of a transaction (other than `Notify`) does to the store. -/
structure StepT (s s' : St V) : Prop where
  len : s.heap.length ≤ s'.heap.length
  maxId : s.txn.maxNodeId ≤ s'.txn.maxNodeId
  chans : ∃ m, s'.chans = s.chans ++ List.replicate m false
  track : s'.txn.trackMutate = s.txn.trackMutate
  old : s'.txn.oldMaxNodeId = s.txn.oldMaxNodeId
  quiet : s.txn.trackMutate = false → s'.txn.trackChnSlice = s.txn.trackChnSlice ∧
    ∀ (a : Addr) (c : Cell V) k, s.heap[a]? = some c → c.ch = some k → ∃ c' : Cell V, s'.heap[a]? = some c' ∧ c'.ch = some k
  chs : ∀ P : ChanId → Prop, (∀ k, s.chans.length ≤ k → k < s'.chans.length → P k) → ChAll P s → ChAll P s'
  lab : LabTo s.heap s.chans.length s'.heap s'.chans.length

theorem Step.toT {s s' : St V} (h : Step s s') : StepT s s' :=
  ⟨h.len, h.maxId, h.chans, h.track, h.old, h.quiet, h.chs, h.lab⟩

theorem StepT.refl (s : St V) : StepT s s := (Step.refl s).toT

theorem StepT.trans {s s' s'' : St V} (h1 : StepT s s') (h2 : StepT s' s'') : StepT s s'' where
  len := Nat.le_trans h1.len h2.len
  maxId := Nat.le_trans h1.maxId h2.maxId
  chans := by
    obtain ⟨m, hm⟩ := h1.chans
    obtain ⟨m', hm'⟩ := h2.chans
    exact ⟨m + m', by rw [hm', hm, List.append_assoc, List.replicate_append_replicate]⟩
  track := h2.track.trans h1.track
  old := h2.old.trans h1.old
  quiet := fun ht => by
    obtain ⟨q1, q2⟩ := h1.quiet ht
    obtain ⟨q3, q4⟩ := h2.quiet (h1.track.trans ht)
    refine ⟨q3.trans q1, fun a c k hc hk => ?_⟩
    obtain ⟨c', hc', hk'⟩ := q2 a c k hc hk
    exact q4 a c' k hc' hk'
  chs := fun P hP h => h2.chs P (fun k hk hk' => hP k (Nat.le_trans (chans_le h1.chans) hk) hk')
    (h1.chs P (fun k hk hk' => hP k hk (Nat.lt_of_lt_of_le hk' (chans_le h2.chans))) h)
  lab := h1.lab.trans (chans_le h1.chans) h2.lab

/-- A change of the transaction's fields that keeps tracking. -/
theorem StepT.modTxn {s : St V} {t : TxnSt} (h1 : s.txn.maxNodeId ≤ t.maxNodeId)
    (h2 : t.oldMaxNodeId = s.txn.oldMaxNodeId) (h3 : t.trackMutate = s.txn.trackMutate)
    (h4 : t.trackChnSlice = s.txn.trackChnSlice) : StepT s { s with txn := t } :=
  ⟨Nat.le_refl _, h1, ⟨0, by simp⟩, h3, h2, fun _ => ⟨h4, fun _ c _ h hk => ⟨c, h, hk⟩⟩,
    fun P _ h => ⟨h.1, fun k hk => h.2 k (h4 ▸ hk)⟩, .refl⟩

/-- The call keeps the invariant and the root stays accessible, whether or not it panics. -/
structure TrT (C : Cx V) {α : Type} (m : M V α) (s : St V) : Prop where
  j : J C (m s).2
  step : StepT s (m s).2
  root : C.Good (m s).2 (m s).2.txn.root
  seen : ∀ e ∈ m.seen s, C.Wr e

variable {C : Cx V} {s : St V} {α β : Type}

theorem TrT.ofTr {m : M V α} {Q : α → St V → Prop} (h : Tr C m Q s) (g : C.Good s s.txn.root) : TrT C m s :=
  ⟨h.1, h.2.1.toT, by rw [h.2.1.root]; exact g.mono h.2.1, h.2.2.2⟩

theorem Cx.Good.monoT {s s' : St V} (h : StepT s s') {a : Addr} (g : C.Good s a) : C.Good s' a :=
  ⟨g.1, Nat.lt_of_lt_of_le g.2 h.len⟩

theorem TrT.bindTr {m : M V α} {f : α → M V β} {Q : α → St V → Prop} (h : Tr C m Q s) (g : C.Good s s.txn.root)
    (hf : ∀ a s', J C s' → Step s s' → Q a s' → C.Good s' s'.txn.root → TrT C (f a) s') : TrT C (m >>= f) s := by
  have h' := TrT.ofTr h g
  obtain ⟨hj, hs, hq, hv⟩ := h
  match hm : m s with
  | (.ok a, s') =>
    rw [hm] at hj hs hq
    have h2 := hf a s' hj hs (hq a rfl) (by rw [hs.root]; exact g.mono hs)
    obtain ⟨hb, hc⟩ := bind_ok (f := f) hm
    exact ⟨by rw [hb]; exact h2.j, by rw [hb]; exact hs.toT.trans h2.step, by rw [hb]; exact h2.root,
      fun h hh => (List.mem_append.1 (hc ▸ hh)).elim (hv h) (h2.seen h)⟩
  | (.error e, s') =>
    obtain ⟨hb, hc⟩ := bind_error (f := f) hm
    rw [hm] at hj hs
    have h2 := h'.root
    rw [hm] at h2
    exact ⟨by rw [hb]; exact hj, by rw [hb]; exact hs.toT, by rw [hb]; exact h2, by rw [hc]; exact hv⟩

theorem TrT.bindT {m : M V α} {f : α → M V β} (h : TrT C m s)
    (hf : ∀ a s', J C s' → StepT s s' → C.Good s' s'.txn.root → TrT C (f a) s') : TrT C (m >>= f) s := by
  obtain ⟨hj, hs, hr, hv⟩ := h
  match hm : m s with
  | (.ok a, s') =>
    rw [hm] at hj hs hr
    have h2 := hf a s' hj hs hr
    obtain ⟨hb, hc⟩ := bind_ok (f := f) hm
    exact ⟨by rw [hb]; exact h2.j, by rw [hb]; exact hs.trans h2.step, by rw [hb]; exact h2.root,
      fun h hh => (List.mem_append.1 (hc ▸ hh)).elim (hv h) (h2.seen h)⟩
  | (.error e, s') =>
    obtain ⟨hb, hc⟩ := bind_error (f := f) hm
    rw [hm] at hr hj hs
    exact ⟨by rw [hb]; exact hj, by rw [hb]; exact hs, by rw [hb]; exact hr, by rw [hc]; exact hv⟩

theorem TrT.modTxn (hj : J C s) {f : TxnSt → TxnSt} (h1 : s.txn.maxNodeId ≤ (f s.txn).maxNodeId)
    (h2 : (f s.txn).oldMaxNodeId = s.txn.oldMaxNodeId) (h3 : (f s.txn).trackMutate = s.txn.trackMutate)
    (h4 : (f s.txn).trackChnSlice = s.txn.trackChnSlice) (h5 : C.Good s (f s.txn).root) :
    TrT C (Art.modTxn f : M V Unit) s :=
  ⟨hj.modTxn h1 h2, StepT.modTxn h1 h2 h3 h4, h5, C.unseen⟩

theorem TrT.txnInsert [Inhabited V] (hj : J C s) (g : C.Good s s.txn.root) {key : Key} {v : V}
    (hp : C.P (getTreeKey key) v) : TrT C (Art.txnInsert key v : M V (V × Bool)) s := by
  unfold Art.txnInsert
  refine TrT.bindTr (Tr.txnSt hj) g fun t s0 hj0 h0 ht g0 => ?_
  subst ht
  refine TrT.bindTr (Tr.recursiveInsert hj0 _ g0 hp 0) g0 fun r s1 hj1 h1 hr g1 => ?_
  refine TrT.bindT (TrT.modTxn hj1 ?_ ?_ ?_ ?_ ?_) fun _ s2 hj2 h2 g2 => TrT.ofTr (Tr.pure (Q := fun _ _ => True) hj2 trivial) g2
  all_goals split
  all_goals first
    | exact Nat.le_refl _
    | rfl
    | exact hr

/-- The leaf of the fresh root made when a deletion empties the tree. -/
def resetLeaf [Inhabited V] (m : Nat) : Cell V := .leaf { id := m + 1, value := default, key := [], ch := none }

/-- The fresh root made when a deletion empties the tree. -/
def resetNode (m : Nat) (l : Addr) : Inner where
  kind := .n4
  id := m
  partialLen := 0
  numChildren := 0
  part := []
  keys := List.replicate 4 0
  children := List.replicate 4 none
  leaf := some l
  ch := none

/-- Two new nodes without channels. -/
theorem chHeap_two {P : ChanId → Prop} {h : Heap V} {c d : Cell V} (hh : ChHeap P h) (hc : c.ch = none) (hd : d.ch = none) :
    ChHeap P (h ++ [c] ++ [d]) := fun a e k he hk => by
  have hm : e ∈ h ++ [c] ++ [d] := List.mem_of_getElem? he
  rcases List.mem_append.1 hm with hm | hm
  · rcases List.mem_append.1 hm with hm | hm
    · obtain ⟨i, hi⟩ := List.mem_iff_getElem?.1 hm
      exact hh i e k hi hk
    · rw [List.mem_singleton.1 hm, hc] at hk; cases hk
  · rw [List.mem_singleton.1 hm, hd] at hk; cases hk

theorem resetRoot_run [Inhabited V] (s : St V) : (Art.resetRoot : M V Unit) s = (.ok (), {
      heap := s.heap ++ [resetLeaf s.txn.maxNodeId] ++ [.inner (resetNode s.txn.maxNodeId s.heap.length)],
      chans := s.chans,
      txn := { s.txn with root := s.heap.length + 1, maxNodeId := s.txn.maxNodeId + 2 } }) := by
  simp [Art.resetRoot, bind_run, Art.txnSt, Art.newCell, Art.modTxn, resetLeaf, resetNode]

theorem TrT.resetRoot [Inhabited V] (hj : J C s) (hp : C.P [] (default : V)) : TrT C (Art.resetRoot : M V Unit) s := by
  have j1 : J C { s with txn := { s.txn with maxNodeId := s.txn.maxNodeId + 2 } } := hj.modTxn (by simp) rfl
  have j2 := j1.alloc (c := resetLeaf s.txn.maxNodeId)
    ⟨fun b hb => (by rcases hb with h | h <;> cases h), fun _ => (by simp [Cell.id, resetLeaf]),
     fun l hl => (by cases hl; exact hp)⟩
  have g2 : C.Good { s with
      heap := s.heap ++ [resetLeaf s.txn.maxNodeId],
      txn := { s.txn with maxNodeId := s.txn.maxNodeId + 2 } } s.heap.length := ⟨.inr hj.len, by simp⟩
  have j3 := j2.alloc (c := .inner (resetNode s.txn.maxNodeId s.heap.length))
    (.mkInner (fun b hb => by cases hb; exact g2) (fun b hb => by have := List.eq_of_mem_replicate hb; cases this)
      (fun _ => by simp [resetNode]))
  have j4 := j3.modTxn (t := { s.txn with root := s.heap.length + 1, maxNodeId := s.txn.maxNodeId + 2 }) (by simp) rfl
  refine ⟨by rw [resetRoot_run]; exact j4, ?_, ?_, fun h hh => ?_⟩
  · rw [resetRoot_run]
    refine ⟨by simp, by simp, ⟨0, by simp⟩, rfl, rfl, fun _ => ⟨rfl, fun a c k h hk => ⟨c, ?_, hk⟩⟩, fun P _ h => ⟨chHeap_two h.1 rfl rfl, h.2⟩,
      .trans (.alloc (c := resetLeaf _) fun k h => by cases h) (Nat.le_refl _) (.alloc (c := .inner (resetNode _ _)) fun k h => by cases h)⟩
    have := (List.getElem?_eq_some_iff.1 h).1
    simp only
    rw [List.append_assoc, List.getElem?_append_left this]
    exact h
  · rw [resetRoot_run]
    refine ⟨.inr ?_, ?_⟩
    · have := hj.len; simp only; omega
    · simp
  · have hh : h ∈ [(⟨s.heap.length, false, s.heap ++ [resetLeaf s.txn.maxNodeId]⟩ : Write V), ⟨(s.heap ++ [resetLeaf s.txn.maxNodeId]).length, false,
        s.heap ++ [resetLeaf s.txn.maxNodeId] ++ [.inner (resetNode s.txn.maxNodeId s.heap.length)]⟩] := hh
    rcases List.mem_cons.1 hh with rfl | hh
    · exact ⟨fun _ => .inr hj.len, j2.fr⟩
    · rw [List.mem_singleton.1 hh]; exact ⟨fun _ => .inr j2.len, j3.fr⟩

theorem TrT.setRoot [Inhabited V] (hj : J C s) (hp : C.P [] (default : V)) (g : C.Good s s.txn.root) {r : Option Addr}
    (hr : ∀ b, r = some b → C.Good s b) : TrT C (Art.setRoot r : M V Unit) s := by
  unfold Art.setRoot
  split
  · exact TrT.resetRoot hj hp
  · exact TrT.modTxn hj (Nat.le_refl _) rfl rfl rfl (hr _ rfl)

theorem TrT.txnDelete [Inhabited V] (hj : J C s) (g : C.Good s s.txn.root) (key : Key)
    (hp : C.P [] (default : V)) : TrT C (Art.txnDelete key : M V (V × Bool)) s := by
  unfold Art.txnDelete
  refine TrT.bindTr (Tr.txnSt hj) g fun t s0 hj0 h0 ht g0 => ?_
  subst ht
  refine TrT.bindTr (Tr.recursiveDelete hj0 _ g0 _ 0) g0 fun r s1 hj1 h1 hr g1 => ?_
  refine TrT.bindT (TrT.setRoot hj1 hp g1 hr) fun _ s2 hj2 h2 g2 => ?_
  split
  · exact TrT.ofTr (Tr.pure (Q := fun _ _ => True) hj2 trivial) g2
  · refine TrT.bindTr (Tr.txnSt hj2) g2 fun t s3 hj3 h3 ht g3 => ?_
    refine TrT.bindTr (Tr.trackChannel hj3 _) g3 fun _ s4 hj4 h4 _ g4 => ?_
    refine TrT.bindT (TrT.modTxn hj4 (Nat.le_refl _) rfl rfl rfl g4) fun _ s5 hj5 h5 g5 => ?_
    exact TrT.ofTr (Tr.bindCell' (Q := fun _ _ => True) hj5 fun c hc => Tr.pure hj5 trivial) g5

theorem TrT.txnDeletePrefix [Inhabited V] (hj : J C s) (g : C.Good s s.txn.root) (key : Key)
    (hp : C.P [] (default : V)) : TrT C (Art.txnDeletePrefix key : M V Bool) s := by
  unfold Art.txnDeletePrefix
  refine TrT.bindTr (Tr.get hj) g fun t s0 hj0 h0 ht g0 => ?_
  obtain ⟨rfl, _⟩ := ht
  refine TrT.bindTr (Tr.deletePrefix hj0 _ g0 _ 0) g0 fun r s1 hj1 h1 hr g1 => ?_
  obtain ⟨nr, nd⟩ := r
  refine TrT.bindT (TrT.setRoot hj1 hp g1 hr) fun _ s2 hj2 h2 g2 => ?_
  split
  · refine TrT.bindTr (Tr.txnSt hj2) g2 fun t s3 hj3 h3 ht g3 => ?_
    refine TrT.bindTr (Tr.trackChannel hj3 _) g3 fun _ s4 hj4 h4 _ g4 => ?_
    refine TrT.bindT (TrT.modTxn hj4 (Nat.le_refl _) rfl rfl rfl g4) fun _ s5 hj5 h5 g5 => ?_
    refine TrT.bindT (TrT.modTxn hj5 (Nat.le_refl _) rfl rfl rfl g5) fun _ s6 hj6 h6 g6 => ?_
    exact TrT.ofTr (Tr.pure (Q := fun _ _ => True) hj6 trivial) g6
  · exact TrT.ofTr (Tr.pure (Q := fun _ _ => True) hj2 trivial) g2

end Art
