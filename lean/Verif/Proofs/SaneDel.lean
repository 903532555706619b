import Verif.Proofs.SaneOps
import Verif.Proofs.RankWorld
/-
`Delete` and `DeletePrefix`, whole calls and whole histories keep the nodes well-shaped.
-/
set_option autoImplicit false
set_option linter.unusedVariables false
set_option linter.unusedSimpArgs false
set_option linter.unusedSectionVars false
namespace Art
variable {V : Type} {F f : Prop} {s s' : St V} {α β : Type} {rk : Rank} {w : World V}

/-! ### Delete -/

/-- What `recursiveDelete` guarantees about the node it returns. -/
def DelN (F : Prop) (r : DelRes) (s : St V) : Prop := ∀ b, r.node = some b → IsN F s.heap b

theorem Ts.and {m : M V α} {Q : α → St V → Prop} {R : St V → Prop} (h : Ts F m Q s) (hr : R (m s).2) :
    Ts F m (fun a s' => Q a s' ∧ R s') s := ⟨h.1, h.2.1, fun a ha => ⟨h.2.2 a ha, hr⟩⟩

theorem Ts.deleteHit (hj : Sane F s.heap) {a l : Addr} (ga : IsN F s.heap a) :
    Ts F (deleteHit a l : M V DelRes) (DelN F) s := by
  unfold Art.deleteHit
  refine Ts.bind (Ts.writeNode hj a true fun h => nomatch h) fun a' s1 hj1 h1 g1 => ?_
  refine Ts.bind (Ts.setNodeLeaf hj1 a' fun b hb => nomatch hb) fun _ s2 hj2 h2 _ => ?_
  refine Ts.bindInner hj2 fun n hn hok => ?_
  split
  · exact Ts.pure hj2 fun b hb => by cases hb; exact (g1.node F ga).mono h2
  · exact Ts.pure hj2 fun b hb => nomatch hb

theorem Ts.deleteReplace (hj : Sane F s.heap) {a ch : Addr} (ga : IsN F s.heap a) (hz : NZ s a) (i : Nat) (b : Byte) {r : DelRes}
    (gr : DelN F r s) : Ts F (deleteReplace a ch i b r : M V Addr) (fun a' s' => IsN F s'.heap a') s := by
  unfold Art.deleteReplace
  split
  · refine Ts.bind (Ts.trackChannel hj _) fun _ s1 hj1 h1 e1 => ?_
    refine Ts.bind (Ts.writeNode hj1 a false fun _ => (ga.mono h1).weak) fun a' s2 hj2 h2 g2 => ?_
    refine Ts.bind (Ts.setChildAt hj2 a' fun b hb => (gr b hb).mono (h1.trans h2)) fun _ s3 hj3 h3 e3 => ?_
    have g3 := (g2.node F (ga.mono h1)).mono h3
    split
    · exact Ts.removeChild hj3 (((hz.mono e1).copy g2).mono e3) g3 b
    · exact Ts.pure hj3 g3
  · exact Ts.pure hj ga

theorem Ts.deleteFinish (hj : Sane F s.heap) {a : Addr} (ga : IsN F s.heap a) (r : DelRes) :
    Ts F (deleteFinish a r : M V DelRes) (DelN F) s := by
  unfold Art.deleteFinish
  refine Ts.bindCell hj fun c hc => ?_
  split
  · exact Ts.pure hj fun b hb => nomatch hb
  · exact Ts.pure hj fun b hb => by cases hb; exact ga

/-- A node with a child found by its byte has a child. -/
theorem findChild_nz {n : Inner} {b : Byte} {ch : Addr} {idx : Nat} (h : n.findChild b = .ok (some ch, idx)) :
    n.kind = .n4 ∨ n.kind = .n16 → n.numChildren ≠ 0 := by
  intro hk h0
  have : (goSearch n.numChildren.toNat fun i => (n.keys[i]?).getD 0 > b) ≤ 0 := by
    rw [h0]; exact goSearch_le _ _
  unfold Inner.findChild at h
  rcases hk with hk | hk <;> rw [hk] at h <;> simp only at h <;> split at h
  · omega
  · cases h
  · omega
  · cases h

/-- The call does not touch nodes of a higher rank. -/
theorem recursiveDelete_frame (hj : Ranked rk s.heap) (fuel : Nat) {a ch : Addr} (hlt : rk ch < rk a) (hch : ch < s.heap.length)
    (key : Key) (d : Nat) {k : Kind} {x : UInt8} (hd : Hd s a k x) : Hd ((recursiveDelete fuel ch key d : M V DelRes) s).2 a k x := by
  obtain ⟨n, hn, hk, hx⟩ := hd
  have hal := (List.getElem?_eq_some_iff.1 hn).1
  have hJ : J (V := V) { h0 := s.heap, S := fun b => rk b ≤ rk ch, O := fun b => rk b ≤ rk ch, oldMax := s.txn.oldMaxNodeId, B := False, P := fun _ _ => True } s := by
    refine ⟨Nat.le_refl _, fun b c hb hacc => ⟨⟨fun p hp => ?_, fun hB => hB.elim, fun _ _ => trivial⟩, fun _ => hacc⟩, fun _ _ _ => rfl, rfl⟩
    have hbl := (List.getElem?_eq_some_iff.1 hb).1
    have h2 := hj b c p hb hp
    rcases hacc with hacc | hacc
    · exact ⟨.inl (by have : rk b ≤ rk ch := hacc; show rk p ≤ rk ch; omega), h2.1⟩
    · exact absurd hbl (Nat.not_lt.2 hacc)
  have := (Tr.recursiveDelete hJ fuel (a := ch) ⟨.inl (Nat.le_refl _), hch⟩ key d).1.frame a hal (by
    rintro (h | h)
    · have : rk a ≤ rk ch := h; omega
    · exact absurd hal (Nat.not_lt.2 h))
  rw [show (_ : Cx V).h0 = s.heap from rfl, hn] at this
  generalize hs' : ((recursiveDelete fuel ch key d : M V DelRes) s).2 = s' at this
  cases hc : s'.heap[a]? with
  | none => rw [hc] at this; cases this
  | some c =>
    rw [hc] at this
    simp only [Option.map_some, Option.some.injEq] at this
    cases c with
    | leaf l => cases this
    | inner m =>
      simp only [Cell.setCh, Cell.inner.injEq, Inner.mk.injEq] at this
      exact ⟨m, hc, this.1.trans hk, this.2.2.2.1.trans hx⟩

/-- Tracking changes channels only. -/
theorem trackChannel_children (o : Option Addr) {a : Addr} {n : Inner} (hn : s.heap[a]? = some (.inner n)) :
    ∃ n1 : Inner, ((trackChannel o : M V Unit) s).2.heap[a]? = some (.inner n1) ∧ n1.children = n.children := by
  rw [trackChannel_run]
  split
  · cases o with
    | none => exact ⟨n, hn, rfl⟩
    | some b =>
      simp only
      cases hb : s.heap[b]? with
      | none => exact ⟨n, hn, rfl⟩
      | some c =>
        by_cases hab : b = a
        · subst hab
          rw [hn] at hb
          cases hb
          exact ⟨_, List.getElem?_set_self (List.getElem?_eq_some_iff.1 hn).1, rfl⟩
        · exact ⟨n, (List.getElem?_set_ne hab).trans hn, rfl⟩
  · exact ⟨n, hn, rfl⟩

theorem Ts.recursiveDelete (hj : Sane F s.heap) (hr : Ranked rk s.heap) (fuel : Nat) {a : Addr} (ga : IsN F s.heap a) (key : Key) (d : Nat) :
    Ts F (recursiveDelete fuel a key d : M V DelRes) (DelN F) s := by
  induction fuel generalizing rk s a d with
  | zero => exact Ts.throw hj
  | succ fuel ih =>
    unfold Art.recursiveDelete
    refine Ts.bindCell hj fun c hc => ?_
    refine Ts.bind (((Ts.trackChannel hj _).and (R := fun s1 => ∃ rk, Ranked rk s1.heap) (Tk.trackChannel hr _).ends.2).and (R := fun s1 => ∀ n, s.heap[a]? = some (.inner n) →
      ∃ n1 : Inner, s1.heap[a]? = some (.inner n1) ∧ n1.children = n.children) fun n hn => trackChannel_children _ hn) fun _ s1 hj1 h1 ⟨⟨e1, rk1, hr1⟩, hsame⟩ => ?_
    have g1 := ga.mono h1
    split
    · exact Ts.pure hj1 fun b hb => nomatch hb
    · refine Ts.bindLeafHit hj1 (fun l hl => Ts.deleteHit hj1 g1) ?_
      simp only
      refine Ts.bindLift hj1 fun bail _ => ?_
      split
      · exact Ts.pure hj1 fun b hb => by cases hb; exact g1
      · refine Ts.bindLift hj1 fun b hb => Ts.bindLift hj1 fun r hrr => ?_
        obtain ⟨x, idx⟩ := r
        cases x with
        | none => exact Ts.pure hj1 fun b hb => nomatch hb
        | some child =>
          simp only
          obtain ⟨n, hn, _⟩ := ga
          rw [hn] at hc
          cases hc
          have hmem : some child ∈ n.children := Cell.mem_findChild (c := .inner n) hrr
          have gch := ((hj a _ hn).2.2 child hmem).mono h1
          have hd1 : Hd s1 a n.kind n.numChildren := e1 _ _ _ ⟨n, hn, rfl, rfl⟩
          -- the node has the same children after tracking
          have hlt : rk1 child < rk1 a := by
            obtain ⟨n1, hn1, hc1⟩ := hsame n hn
            exact (hr1 a _ child hn1 (.inr (by rw [show (Cell.inner n1 : Cell V).children = n1.children from rfl, hc1]; exact hmem))).2
          have hcl : child < s1.heap.length := by obtain ⟨m, hm, _⟩ := gch; exact (List.getElem?_eq_some_iff.1 hm).1
          refine Ts.bind ((ih hj1 hr1 gch _).and (R := fun s' => Hd s' a n.kind n.numChildren) (recursiveDelete_frame hr1 _ hlt hcl _ _ hd1))
            fun r s2 hj2 h2 ⟨hr2, hd2⟩ => ?_
          refine Ts.bind (Ts.deleteReplace hj2 (g1.mono h2) ⟨_, _, hd2, findChild_nz hrr⟩ idx b hr2) fun a' s3 hj3 h3 g3 => ?_
          exact Ts.deleteFinish hj3 g3 r

/-! ### DeletePrefix -/

theorem Ts.setChildAt' (hj : Sane F s.heap) {a : Addr} {k : Kind} (hk : IsK s a k) {i : Nat} {c : Option Addr} (gl : ∀ b, c = some b → IsN F s.heap b) :
    Ts F (Art.setChildAt a i c : M V Unit) (fun _ s' => KeepHd s s' ∧ i < k.childrenLen) s := by
  unfold Art.setChildAt
  refine Ts.bindInner hj fun n hn hok => ?_
  refine Ts.bindLift hj fun n' hn' => ?_
  obtain ⟨hi, rfl⟩ := Inner.setChild_ok hn'
  refine Ts.conseq (Ts.wrInner hj hn rfl rfl (hok.1.setChild i c) hok.2.1 fun b hb => ?_) fun _ _ _ _ h => ⟨h.1 rfl, by rw [hok.1.2, hk.eq hn] at hi; exact hi⟩
  rcases List.mem_or_eq_of_mem_set hb with h | h
  · exact hok.2.2 b h
  · exact gl b h.symm

theorem Ts.compactSlots (hj : Sane F s.heap) {a : Addr} {kd : Kind} (hk : IsK s a kd) {m : List (Nat × Option Addr)}
    (hm : ∀ i b, (i, some b) ∈ m → IsN F s.heap b) (k i slow : Nat) (hsl : slow ≤ kd.childrenLen) :
    Ts F (compactSlots a m k i slow : M V Nat) (fun r s' => KeepHd s s' ∧ r ≤ slow + k ∧ r ≤ kd.childrenLen) s := by
  induction k generalizing s i slow with
  | zero => exact Ts.pure hj ⟨.refl s, Nat.le_refl _, hsl⟩
  | succ k ih =>
    unfold Art.compactSlots
    split
    · exact (ih hj hk hm _ _ hsl).conseq fun r s' _ _ ⟨h1, h2, h3⟩ => ⟨h1, by omega, h3⟩
    · rename_i ch hl
      have hmem : (i, some ch) ∈ m := by
        rw [List.lookup_eq_some_iff] at hl
        obtain ⟨l1, l2, rfl, _⟩ := hl
        simp
      refine Ts.bind (Ts.setChildAt' hj hk fun b hb => by cases hb; exact hm _ _ hmem) fun _ s1 hj1 h1 ⟨e1, hlt⟩ => ?_
      exact (ih hj1 (hk.mono h1) (fun i b h => (hm i b h).mono h1) _ _ hlt).conseq fun r s' _ _ ⟨h1, h2, h3⟩ => ⟨e1.trans h1, by omega, h3⟩
    · refine Ts.bindInner hj fun n hn hok => ?_
      refine Ts.bindLift hj fun ch hch => ?_
      refine Ts.bind (Ts.setChildAt' hj hk fun b hb => by subst hb; exact hok.2.2 b (Inner.mem_getChild hch)) fun _ s1 hj1 h1 ⟨e1, hlt⟩ => ?_
      exact (ih hj1 (hk.mono h1) (fun i b h => (hm i b h).mono h1) _ _ hlt).conseq fun r s' _ _ ⟨h1, h2, h3⟩ => ⟨e1.trans h1, by omega, h3⟩

theorem Ts.clearFrom (hj : Sane F s.heap) {a : Addr} {kd : Kind} (hk : IsK s a kd) {i : Nat} (hi : i ≤ kd.childrenLen) :
    Ts F (clearFrom a i : M V Unit) (fun _ s' => KeepHd s s') s := by
  unfold Art.clearFrom
  refine Ts.bindInner hj fun n hn hok => ?_
  have h1 := hok.1.2
  have h2 := hk.eq hn
  rw [h2] at h1
  refine Ts.conseq (Ts.wrInner hj hn rfl rfl (hok.1.congr rfl rfl ?_ hok.1.3 hok.1.5) hok.2.1 ?_) fun _ _ _ _ h => h.1 rfl
  · simp only [List.length_append, List.length_take, List.length_replicate]; omega
  · intro b hb
    simp only [List.mem_append, List.mem_replicate] at hb
    rcases hb with h | h
    · exact hok.2.2 b (List.mem_of_mem_take h)
    · exact nomatch h.2

theorem Ts.deletePrefixRebuild (hj : Sane F s.heap) {a : Addr} (ga : IsN F s.heap a) {m : List (Nat × Option Addr)}
    (hm : ∀ i b, (i, some b) ∈ m → IsN F s.heap b) :
    Ts F (deletePrefixRebuild a m : M V Addr) (fun a' s' => IsN F s'.heap a') s := by
  unfold Art.deletePrefixRebuild
  refine Ts.bind (Ts.writeNode hj a true fun h => nomatch h) fun a' s1 hj1 h1 g1 => ?_
  refine Ts.bindInner hj1 fun n hn hok => ?_
  have hk : IsK s1 a' n.kind := ⟨n, hn, rfl⟩
  refine Ts.bind (Ts.compactSlots hj1 hk (fun i b h => (hm i b h).mono h1) _ _ _ (Nat.zero_le _)) fun slow s2 hj2 h2 ⟨e2, hs, hs'⟩ => ?_
  refine Ts.bind (Ts.clearFrom hj2 (hk.mono h2) hs') fun _ s3 hj3 h3 e3 => ?_
  have hk3 := hk.mono (h2.trans h3)
  have hcap := hok.1.3
  refine Ts.bindInner hj3 fun n3 hn3 hok3 => ?_
  refine Ts.bind (Ts.wrInner hj3 hn3 rfl rfl (hok3.1.congr rfl rfl rfl ?_ hok3.1.5) hok3.2.1 hok3.2.2) fun _ s4 hj4 h4 _ => ?_
  · have hle : slow ≤ n.kind.cap := by omega
    have : n.kind.cap ≤ 255 := by cases n.kind <;> decide
    rw [hk3.eq hn3, UInt8.toNat_ofNat_of_lt' (by simp [UInt8.size]; omega)]
    exact hle
  exact Ts.pure hj4 ((g1.node F ga).mono ((h2.trans h3).trans h4))

theorem Ts.deletePrefixOwn (hj : Sane F s.heap) (c : Cell V) (key : Key) :
    Ts F (deletePrefixOwn c key : M V Nat) (fun _ _ => True) s := by
  unfold Art.deletePrefixOwn
  split
  · exact Ts.pure hj trivial
  · refine Ts.bindLeaf hj fun lc hlc => ?_
    split
    · exact Ts.bind (Ts.trackChannel hj _) fun _ s1 hj1 h1 _ => Ts.pure hj1 trivial
    · exact Ts.pure hj trivial

/-- What `deletePrefix` guarantees about the node it returns. -/
def PreN (F : Prop) (r : Option Addr × Nat) (s : St V) : Prop := ∀ b, r.1 = some b → IsN F s.heap b

theorem Ts.deletePrefixLeaf (hj : Sane F s.heap) {a : Addr} (ga : IsN F s.heap a) (c : Cell V) (key : Key) :
    Ts F (deletePrefixLeaf a c key : M V (Option Addr × Nat)) (PreN F) s := by
  unfold Art.deletePrefixLeaf
  split
  · exact Ts.pure hj fun b hb => by cases hb; exact ga
  · refine Ts.bindLeaf hj fun lc hlc => ?_
    split
    · refine Ts.bind (Ts.trackChannel hj _) fun _ s1 hj1 h1 _ => ?_
      exact Ts.bind (Ts.trackChannel hj1 _) fun _ s1 hj1 h1 _ => Ts.pure hj1 fun b hb => nomatch hb
    · exact Ts.pure hj fun b hb => by cases hb; exact ga

theorem Ts.deletePrefixChildren {rec : Addr → M V (Option Addr × Nat)} (hj : Sane F s.heap)
    (hrec : ∀ s b, Sane F s.heap → IsN F s.heap b → Ts F (rec b) (PreN F) s)
    (l : List (Option Addr × Nat)) (hl : ∀ b i, (some b, i) ∈ l → IsN F s.heap b) :
    Ts F (deletePrefixChildren rec l) (fun r s' => ∀ i b, (i, some b) ∈ r.1 → IsN F s'.heap b) s := by
  induction l generalizing s with
  | nil => exact Ts.pure hj fun i b h => by cases h
  | cons p rest ih =>
    obtain ⟨x, i⟩ := p
    cases x with
    | none => exact ih hj fun b i h => hl b i (.tail _ h)
    | some ch =>
      unfold Art.deletePrefixChildren
      refine Ts.bind (hrec s ch hj (hl ch i (.head _))) fun r s1 hj1 h1 hr => ?_
      obtain ⟨newCh, del⟩ := r
      simp only
      refine Ts.bind (Ts.trackChannel hj1 _) fun _ s2 hj2 h2 _ => ?_
      refine Ts.bind (ih hj2 fun b i h => (hl b i (.tail _ h)).mono (h1.trans h2)) fun r s3 hj3 h3 hr3 => ?_
      obtain ⟨m, total⟩ := r
      refine Ts.pure hj3 fun i b h => ?_
      rcases List.mem_cons.1 h with h | h
      · cases h; exact (hr _ rfl).mono (h2.trans h3)
      · exact hr3 i b h

theorem Ts.deletePrefix (hj : Sane F s.heap) (fuel : Nat) {a : Addr} (ga : IsN F s.heap a) (key : Key) (d : Nat) :
    Ts F (deletePrefix fuel (some a) key d : M V (Option Addr × Nat)) (PreN F) s := by
  induction fuel generalizing s a d with
  | zero => exact Ts.throw hj
  | succ fuel ih =>
    unfold Art.deletePrefix
    refine Ts.bindCell hj fun c hc => ?_
    split
    · exact Ts.deletePrefixLeaf hj ga c key
    · refine Ts.bindLift hj fun d' _ => ?_
      refine Ts.bind (Ts.deletePrefixOwn hj c key) fun own s1 hj1 h1 _ => ?_
      refine Ts.bind (Ts.deletePrefixChildren hj1 (fun s b hj gb => ih hj gb _) _ ?_) fun r s2 hj2 h2 hr => ?_
      · intro b i h
        have : some b ∈ c.children := by
          rw [List.mem_zipIdx_iff_getElem?] at h
          exact List.mem_of_getElem? h
        exact (hj.childG hc this).mono h1
      · obtain ⟨m, del⟩ := r
        simp only
        refine Ts.bind (Ts.deletePrefixRebuild hj2 (ga.mono (h1.trans h2)) hr) fun a' s3 hj3 h3 g3 => ?_
        exact Ts.pure hj3 fun b hb => by cases hb; exact g3

/-! ### Whole calls -/

theorem KinH.refl (h : Heap V) : KinH h h := fun a c h => ⟨c, h, .refl c⟩
theorem KinH.trans {h h' h'' : Heap V} (h1 : KinH h h') (h2 : KinH h' h'') : KinH h h'' := fun a c h => by
  obtain ⟨c', h', l1⟩ := h1 a c h
  obtain ⟨c'', h'', l2⟩ := h2 a c' h'
  exact ⟨c'', h'', l1.trans l2⟩

/-- What a call on a transaction does: the root (new or old) is a node. -/
def Tw (F f : Prop) (m : M V α) (s : St V) : Prop :=
  Sane F (m s).2.heap ∧ (KinH s.heap (m s).2.heap ∧ Lones s (m s).2) ∧ IsN f (m s).2.heap (m s).2.txn.root

theorem Ts.tw {m : M V α} {Q : α → St V → Prop} (h : Ts F m Q s) (hr : IsN f s.heap s.txn.root) : Tw F f m s :=
  ⟨h.1, ⟨h.2.1.heap, h.2.1.lone⟩, by rw [h.2.1.root]; exact hr.mono h.2.1⟩

theorem Tw.bindTs {m : M V α} {k : α → M V β} {Q : α → St V → Prop} (h : Ts F m Q s) (hr : IsN f s.heap s.txn.root)
    (hk : ∀ a s', Sane F s'.heap → Kin s s' → IsN f s'.heap s'.txn.root → Q a s' → Tw F f (k a) s') : Tw F f (m >>= k) s := by
  have ht := h.tw hr
  obtain ⟨hj, hs, hq⟩ := h
  unfold Tw at ht ⊢
  rw [bind_run]
  match hm : m s with
  | (.ok a, s') =>
    rw [hm] at hj hs hq ht
    obtain ⟨h1, h2, h3⟩ := hk a s' hj hs ht.2.2 (hq a rfl)
    exact ⟨h1, ⟨hs.heap.trans h2.1, hs.lone.trans h2.2⟩, h3⟩
  | (.error e, s') => rw [hm] at ht; exact ht

theorem Tw.bind {m : M V α} {k : α → M V β} (h : Tw F f m s)
    (hk : ∀ a s', Sane F s'.heap → KinH s.heap s'.heap → IsN f s'.heap s'.txn.root → Tw F f (k a) s') : Tw F f (m >>= k) s := by
  unfold Tw at h ⊢
  rw [bind_run]
  match hm : m s with
  | (.ok a, s') =>
    rw [hm] at h
    obtain ⟨h1, h2, h3⟩ := hk a s' h.1 h.2.1.1 h.2.2
    exact ⟨h1, ⟨h.2.1.1.trans h2.1, h.2.1.2.trans h2.2⟩, h3⟩
  | (.error e, s') => rw [hm] at h; exact h

theorem Tw.bindTxn {k : TxnSt → M V β} (h : Tw F f (k s.txn) s) : Tw F f (txnSt >>= k) s := h

theorem Tw.bindGet {k : St V → M V β} (h : Tw F f (k s) s) : Tw F f (M.get >>= k) s := h

theorem Tw.pure {a : α} (hj : Sane F s.heap) (hr : IsN f s.heap s.txn.root) : Tw F f (Pure.pure a : M V α) s := ⟨hj, ⟨.refl _, .refl _⟩, hr⟩

theorem Tw.setRootTo (hj : Sane F s.heap) (g : TxnSt → TxnSt) (hr : IsN f s.heap (g s.txn).root)
    (hg : (g s.txn).trackChnSlice = s.txn.trackChnSlice) : Tw F f (modTxn g : M V Unit) s :=
  ⟨hj, ⟨.refl _, fun D h => by
    show Lone D s.heap s.chans.length (g s.txn).trackChnSlice
    rw [hg]; exact h⟩, hr⟩

theorem txnInsert_sane [Inhabited V] (hj : Sane F s.heap) (hr : IsN F s.heap s.txn.root) (key : Key) (v : V) :
    Tw F F (txnInsert key v : M V (V × Bool)) s := by
  unfold txnInsert
  refine Tw.bindTxn ?_
  refine Tw.bindTs (Ts.recursiveInsert hj _ hr _ _ 0) hr fun r s1 hj1 h1 hr1 g1 => ?_
  refine Tw.bind (Tw.setRootTo hj1 _ ?_ ?_) fun _ s2 hj2 h2 hr2 => Tw.pure hj2 hr2
  · split <;> exact g1
  · split <;> rfl

/-- A fresh empty root. -/
theorem emptyRoot_sane (hj : Sane F s.heap) (i j : Nat) (v : V) :
    Sane F (s.heap ++ [.leaf { id := i, value := v, key := [], ch := none }] ++ [.inner { kind := .n4, id := j, partialLen := 0, numChildren := 0, part := [], keys := List.replicate 4 0, children := List.replicate 4 none, leaf := some s.heap.length, ch := none }]) := by
  have h1 := (Ts.newCell hj (c := .leaf { id := i, value := v, key := [], ch := none }) (fun k hk => nomatch hk) trivial).1
  have hl : IsLf (s.heap ++ [.leaf { id := i, value := v, key := [], ch := none }]) s.heap.length := ⟨_, by simp; rfl⟩
  exact (Ts.newCell (s := ⟨s.heap ++ [.leaf { id := i, value := v, key := [], ch := none }], s.chans, s.txn⟩) h1
    (c := .inner { kind := .n4, id := j, partialLen := 0, numChildren := 0, part := [], keys := List.replicate 4 0, children := List.replicate 4 none, leaf := some s.heap.length, ch := none }) (fun k hk => nomatch hk)
    ⟨⟨rfl, rfl, Nat.zero_le 4, fun h => (nomatch h), fun _ => .inr rfl⟩, fun l hl' => by cases hl'; exact hl, fun b hb => by
      have := List.eq_of_mem_replicate hb; cases this⟩).1

theorem emptyRoot_lone {D : ChanId → Prop} {h : Heap V} {n : Nat} {sl : List ChanId} (hl : Lone D h n sl) (i j : Nat) (v : V) :
    Lone D (h ++ [.leaf { id := i, value := v, key := [], ch := none }] ++ [.inner { kind := .n4, id := j, partialLen := 0, numChildren := 0, part := [], keys := List.replicate 4 0, children := List.replicate 4 none, leaf := some h.length, ch := none }]) n sl :=
  (hl.append (c := .leaf { id := i, value := v, key := [], ch := none }) fun k hk => nomatch hk).append fun k hk => nomatch hk

theorem resetRoot_sane [Inhabited V] (hj : Sane F s.heap) : Tw F False (resetRoot : M V Unit) s := by
  refine ⟨emptyRoot_sane hj _ _ _, ⟨(KinH.append _ _).trans (KinH.append _ _), fun D h => emptyRoot_lone h _ _ _⟩, ?_⟩
  exact ⟨_, List.getElem?_concat_length, fun h => h.elim⟩

theorem setRoot_sane [Inhabited V] (hj : Sane F s.heap) (a : Option Addr) (ha : ∀ b, a = some b → IsN F s.heap b) : Tw F False (setRoot a : M V Unit) s := by
  unfold setRoot
  split
  · exact resetRoot_sane hj
  · exact Tw.setRootTo hj _ (ha _ rfl).weak rfl

theorem txnDelete_sane [Inhabited V] (hj : Sane F s.heap) (hk : Ranked rk s.heap) (hr : IsN F s.heap s.txn.root) (key : Key) :
    Tw F False (txnDelete key : M V (V × Bool)) s := by
  unfold txnDelete
  refine Tw.bindTxn ?_
  refine Tw.bindTs (Ts.recursiveDelete hj hk _ hr _ 0) hr.weak fun r s1 hj1 h1 hr1 g1 => ?_
  refine Tw.bind (setRoot_sane hj1 _ g1) fun _ s2 hj2 h2 hr2 => ?_
  split
  · exact Tw.pure hj2 hr2
  · refine Tw.bindTxn ?_
    refine Tw.bindTs (Ts.trackChannel hj2 _) hr2 fun _ s3 hj3 h3 hr3 _ => ?_
    refine Tw.bindTs (Ts.modTxn hj3 _ rfl rfl) hr3 fun _ s4 hj4 h4 hr4 _ => ?_
    exact (Ts.bindCell (Q := fun _ _ => True) hj4 fun c _ => Ts.pure hj4 trivial).tw hr4

theorem txnDeletePrefix_sane [Inhabited V] (hj : Sane F s.heap) (hr : IsN F s.heap s.txn.root) (key : Key) :
    Tw F False (txnDeletePrefix key : M V Bool) s := by
  unfold txnDeletePrefix
  refine Tw.bindGet ?_
  refine Tw.bindTs (Ts.deletePrefix hj _ hr _ 0) hr.weak fun r s1 hj1 h1 hr1 g1 => ?_
  obtain ⟨nr, nd⟩ := r
  simp only
  refine Tw.bind (setRoot_sane hj1 _ g1) fun _ s2 hj2 h2 hr2 => ?_
  split
  · refine Tw.bindTxn ?_
    refine Tw.bindTs (Ts.trackChannel hj2 _) hr2 fun _ s3 hj3 h3 hr3 _ => ?_
    refine Tw.bindTs (Ts.modTxn hj3 _ rfl rfl) hr3 fun _ s4 hj4 h4 hr4 _ => ?_
    refine Tw.bindTs (Ts.modTxn hj4 _ rfl rfl) hr4 fun _ s5 hj5 h5 hr5 _ => Tw.pure hj5 hr5
  · exact Tw.pure hj2 hr2

/-- A call on a tree keeps the channels of leaves apart. -/
def LonesT (s s' : St V) : Prop := ∀ D : ChanId → Prop, Lone D s.heap s.chans.length [] → Lone D s'.heap s'.chans.length []

theorem Lones.toT {s s' : St V} (h : Lones s s') (hs : s.txn.trackChnSlice = []) : LonesT s s' := fun D hl =>
  (h D (by rw [hs]; exact hl)).weaken (fun k hk => Or.inl hk) fun k hk => nomatch hk

theorem LonesT.trans {s s' s'' : St V} (h1 : LonesT s s') (h2 : LonesT s' s'') : LonesT s s'' := fun D h => h2 D (h1 D h)

/-- What a call that makes a new tree does. -/
def NewTree (F : Prop) (m : M V (Tree × α)) (s : St V) : Prop :=
  Sane F (m s).2.heap ∧ (KinH s.heap (m s).2.heap ∧ LonesT s (m s).2) ∧ ∀ r, (m s).1 = .ok r → IsN False (m s).2.heap r.1.root

theorem beginTxn_slice {t : Tree} {s : St V} {ts : TxnSt} (h : (beginTxn t s).1 = .ok ts) : ts.trackChnSlice = [] := by
  rw [beginTxn_run, cloneNode_run] at h
  cases hc : s.heap[t.root]? with
  | none => rw [hc] at h; cases h
  | some c => rw [hc] at h; cases h; rfl

theorem notify_lones (s : St V) : Lones s (txnNotify s).2 := fun D h => by
  rw [notify_run]
  simp only
  split
  · simp only [(close_all _ _).2.1]
    exact h.weaken (fun k hk => Or.inl hk) fun k hk => nomatch hk
  · exact h

theorem treeOp_sane (hj : Sane F s.heap) (hsl : s.txn.trackChnSlice = []) (hk : Ranked rk s.heap) (t : Tree) (ht : IsN False s.heap t.root) {m : M V α}
    (hm : ∀ rk (s : St V), Sane F s.heap → Ranked rk s.heap → IsN F s.heap s.txn.root → Tw F False m s) : NewTree F (treeOp t m) s := by
  unfold treeOp
  have hlt : t.root < s.heap.length := by obtain ⟨n, hn, _⟩ := ht; exact (List.getElem?_eq_some_iff.1 hn).1
  obtain ⟨h0, rk1, hk1, _, _⟩ := Tk.beginTxn hk t hlt
  have hb : Ts F (Art.beginTxn t : M V TxnSt) (fun ts s' => IsN F s'.heap ts.root) s := by
    unfold Art.beginTxn
    exact Ts.bind (Ts.cloneNode hj _ true fun _ => ht) fun r s1 hj1 h1 g1 => Ts.pure hj1 (g1.2.1 F ht)
  obtain ⟨b1, b2, b3⟩ := hb
  have bT : LonesT s (Art.beginTxn t s).2 := b2.lone.toT hsl
  have bS : ∀ ts, (Art.beginTxn t s).1 = .ok ts → ts.trackChnSlice = [] := fun ts h => beginTxn_slice h
  unfold NewTree
  rw [bind_run]
  match hs : (Art.beginTxn t : M V TxnSt) s with
  | (.error e, s1) => rw [hs] at b1 b2 bT; exact ⟨b1, ⟨b2.heap, bT⟩, fun r hr => nomatch hr⟩
  | (.ok ts, s1) =>
    rw [hs] at b1 b2 b3 hk1 bT bS
    simp only
    have hm1 := hm rk1 { s1 with txn := ts } b1 hk1 (b3 ts rfl)
    show Sane F ((m >>= fun a => txnCommit >>= fun nt => Pure.pure (nt, a)) { s1 with txn := ts }).2.heap ∧
      (KinH s.heap ((m >>= fun a => txnCommit >>= fun nt => Pure.pure (nt, a)) { s1 with txn := ts }).2.heap ∧
        LonesT s ((m >>= fun a => txnCommit >>= fun nt => Pure.pure (nt, a)) { s1 with txn := ts }).2) ∧
      ∀ r : Tree × α, ((m >>= fun a => txnCommit >>= fun nt => Pure.pure (nt, a)) { s1 with txn := ts }).1 = .ok r →
        IsN False ((m >>= fun a => txnCommit >>= fun nt => Pure.pure (nt, a)) { s1 with txn := ts }).2.heap r.1.root
    unfold Tw at hm1
    rw [bind_run]
    match hs2 : m { s1 with txn := ts } with
    | (.error e, s2) =>
      rw [hs2] at hm1
      exact ⟨hm1.1, ⟨b2.heap.trans hm1.2.1.1, fun D h => (hm1.2.1.2.toT (bS ts rfl)) D (bT D h)⟩, fun r hr => nomatch hr⟩
    | (.ok a, s2) =>
      rw [hs2] at hm1
      simp only [bind_run, commit_run, notify_run]
      refine ⟨hm1.1, ⟨b2.heap.trans hm1.2.1.1, fun D h => ?_⟩, fun r hr => by cases hr; exact hm1.2.2⟩
      have h2 := (hm1.2.1.2.toT (bS ts rfl)) D (bT D h)
      have h3 := fun b : Bool => (congrArg (Lone D s2.heap · []) (show (if b = true then s2.txn.trackChnSlice.foldl (fun cs k => cs.set k true) s2.chans else s2.chans).length = s2.chans.length by
        split
        · exact (close_all _ _).2.1
        · rfl)).mpr h2
      exact h3 _

/-! ### Whole histories -/

/-- Every node of the program is well-shaped, every tree and transaction has a root. -/
structure WSane (F : Prop) (w : World V) : Prop where
  heap : Sane F w.heap
  trees : ∀ t ∈ w.trees, IsN False w.heap t.root
  txns : ∀ r ∈ w.txns, IsN F w.heap r.st.root

/-- Calls other than the deletions of a transaction. -/
def Op.NoTxnDelete : Op V → Prop
  | .txnDelete _ _ => False
  | .txnDeletePrefix _ _ => False
  | _ => True

theorem WSane.grow (hw : WSane F w) {h : Heap V} (h1 : Sane F h) (h2 : KinH w.heap h) (cs : List Bool) : WSane F { w with heap := h, chans := cs } :=
  ⟨h1, fun t ht => (hw.trees t ht).monoH h2, fun r hr => (hw.txns r hr).monoH h2⟩

theorem WSane.onTree (hw : WSane F w) {t : Nat} {g : Tree → M V α} {out : α → Out V × List Tree}
    (hf : ∀ tr, w.trees[t]? = some tr → Sane F (g tr (w.st default)).2.heap ∧ KinH w.heap (g tr (w.st default)).2.heap ∧
      ∀ r, (g tr (w.st default)).1 = .ok r → ∀ nt ∈ (out r).2, IsN False (g tr (w.st default)).2.heap nt.root) : WSane F (w.onTree t g out).2 := by
  unfold World.onTree
  cases ht : w.trees[t]? with
  | none => exact hw
  | some tr =>
    simp only
    have := hf tr ht
    match hm : g tr (w.st default) with
    | (.ok a, s') =>
      rw [hm] at this
      obtain ⟨h1, h2, h3⟩ := this
      have hg := hw.grow h1 h2 s'.chans
      refine ⟨h1, fun t ht => ?_, hg.txns⟩
      rcases List.mem_append.1 ht with ht | ht
      · exact hg.trees t ht
      · exact h3 a rfl t ht
    | (.error e, s') => rw [hm] at this; exact hw.grow this.1 this.2.1 _

theorem WSane.onTxn (hw : WSane F w) {x : Nat} {g : M V α} {out : α → Out V × List Tree} {mark : TxnRec → TxnRec}
    (hmark : ∀ r, (mark r).st = r.st)
    (hf : ∀ r : TxnRec, w.txns[x]? = some r → Tw F F g (w.st r.st) ∧ ∀ a s', g (w.st r.st) = (.ok a, s') → ∀ nt ∈ (out a).2, nt.root = s'.txn.root) :
    WSane F (w.onTxn x g out mark).2 := by
  unfold World.onTxn
  cases ht : w.txns[x]? with
  | none => exact hw
  | some r =>
    simp only
    obtain ⟨h0, h3⟩ := hf r ht
    unfold Tw at h0
    match hm : g (w.st r.st) with
    | (.ok a, s') =>
      rw [hm] at h0
      obtain ⟨h1, h2, h4⟩ := h0
      have hg := hw.grow h1 h2.1 s'.chans
      refine ⟨h1, fun t ht => ?_, fun r' hr' => ?_⟩
      · rcases List.mem_append.1 ht with ht | ht
        · exact hg.trees t ht
        · rw [h3 a s' hm t ht]; exact h4.weak
      · rcases List.mem_or_eq_of_mem_set hr' with hr' | hr'
        · exact hg.txns r' hr'
        · subst hr'; rw [hmark]; exact h4
    | (.error e, s') =>
      rw [hm] at h0
      obtain ⟨h1, h2, h4⟩ := h0
      have hg := hw.grow h1 h2.1 s'.chans
      refine ⟨h1, hg.trees, fun r' hr' => ?_⟩
      rcases List.mem_or_eq_of_mem_set hr' with hr' | hr'
      · exact hg.txns r' hr'
      · subst hr'; rw [hmark]; exact h4

theorem WSane.addTxn (hw : WSane F w) {m : M V TxnSt} {ts0 : TxnSt} (hm : Ts F m (fun ts s' => IsN F s'.heap ts.root) (w.st ts0)) :
    WSane F (w.addTxn (m (w.st ts0))).2 := by
  obtain ⟨h1, h2, h3⟩ := hm
  unfold World.addTxn
  match hr : m (w.st ts0) with
  | (.ok a, s') =>
    rw [hr] at h1 h2 h3
    have hg := hw.grow h1 h2.heap s'.chans
    refine ⟨h1, hg.trees, fun r hr => ?_⟩
    rcases List.mem_append.1 hr with hr | hr
    · exact hg.txns r hr
    · rw [List.mem_singleton] at hr
      subst hr
      exact h3 a rfl
  | (.error e, s') => rw [hr] at h1 h2; exact hw.grow h1 h2.heap _

theorem WSane.reads (hw : WSane F w) {t : Nat} {g : Tree → M V α} {out : α → Out V}
    (hf : ∀ tr, ∃ Q, Ts F (g tr) Q (w.st default)) : WSane F (w.onTree t g fun a => (out a, [])).2 :=
  hw.onTree fun tr h => by
    obtain ⟨Q, h1, h2, _⟩ := hf tr
    exact ⟨h1, h2.heap, fun _ _ nt hnt => nomatch hnt⟩

theorem Ts.lift' (hj : Sane F s.heap) (r : R α) : Ts F (M.lift r : M V α) (fun _ _ => True) s := by
  unfold Ts
  rw [lift_run]
  exact ⟨hj, Kin.refl _, fun _ _ => trivial⟩

theorem Ts.treeGetWatch (hj : Sane F s.heap) (t : Tree) (k : Key) : Ts F (treeGetWatch t k : M V _) (fun _ _ => True) s := by
  unfold Art.treeGetWatch
  refine Ts.bindGet (Ts.bindLift hj fun hit _ => ?_)
  exact Ts.bind (Ts.getMutateCh hj _) fun _ s1 hj1 h1 _ => Ts.pure hj1 trivial

theorem Ts.seekPrefixWatch (hj : Sane F s.heap) (it : Iter) (k : Key) : Ts F (seekPrefixWatch it k : M V _) (fun _ _ => True) s := by
  unfold Art.seekPrefixWatch
  refine Ts.bindGet (Ts.bindLift hj fun p _ => ?_)
  obtain ⟨it', a⟩ := p
  exact Ts.bind (Ts.getMutateCh hj _) fun _ s1 hj1 h1 _ => Ts.pure hj1 trivial

theorem exec_sane [Inhabited V] (hw : WSane F w) (hk : Ranked rk w.heap) (op : Op V) (hop : F → op.NoTxnDelete) : WSane F (exec w op).2 := by
  have hs : ∀ {tr : Tree} {i : Nat}, w.trees[i]? = some tr → IsN False w.heap tr.root := fun h => hw.trees _ (List.mem_of_getElem? h)
  have hx : ∀ {r : TxnRec} {i : Nat}, w.txns[i]? = some r → IsN F w.heap r.st.root := fun h => hw.txns _ (List.mem_of_getElem? h)
  have hj := hw.heap
  cases op with
  | newTree =>
    have hg := hw.grow (emptyRoot_sane (s := w.st default) hj 1 0 default) ((KinH.append _ _).trans (KinH.append _ _)) w.chans
    refine ⟨hg.heap, fun t ht => ?_, hg.txns⟩
    rcases List.mem_append.1 ht with ht | ht
    · exact hg.trees t ht
    · rw [List.mem_singleton] at ht
      subst ht
      exact ⟨_, List.getElem?_concat_length, fun h => h.elim⟩
  | cloneTree t =>
    refine hw.onTree fun tr h => ?_
    have : Ts F (treeClone tr : M V Tree) (fun nt s' => IsN False s'.heap nt.root) (w.st default) := by
      unfold treeClone
      exact Ts.bind (Ts.cloneNode (s := w.st default) hj _ true fun _ => hs h) fun r s1 hj1 h1 g1 => Ts.pure hj1 (g1.2.1 False (hs h))
    exact ⟨this.1, this.2.1.heap, fun r hr nt hnt => by rw [List.mem_singleton] at hnt; subst hnt; exact this.2.2 _ hr⟩
  | insert t k v =>
    refine hw.onTree fun tr h => ?_
    rw [treeInsert_eq]
    have := treeOp_sane (s := w.st default) hj rfl hk tr (hs h) fun rk s hj hk hr => (fun h => ⟨h.1, h.2.1, h.2.2.weak⟩ : Tw F F _ s → Tw F False _ s) (txnInsert_sane hj hr k v)
    exact ⟨this.1, this.2.1.1, fun r hr nt hnt => by rw [List.mem_singleton] at hnt; subst hnt; exact this.2.2 _ hr⟩
  | delete t k =>
    refine hw.onTree fun tr h => ?_
    rw [treeDelete_eq]
    have := treeOp_sane (s := w.st default) hj rfl hk tr (hs h) fun rk s hj hk hr => txnDelete_sane hj hk hr k
    exact ⟨this.1, this.2.1.1, fun r hr nt hnt => by rw [List.mem_singleton] at hnt; subst hnt; exact this.2.2 _ hr⟩
  | deletePrefix t k =>
    refine hw.onTree fun tr h => ?_
    rw [treeDeletePrefix_eq]
    have := treeOp_sane (s := w.st default) hj rfl hk tr (hs h) fun rk s hj hk hr => txnDeletePrefix_sane hj hr k
    exact ⟨this.1, this.2.1.1, fun r hr nt hnt => by rw [List.mem_singleton] at hnt; subst hnt; exact this.2.2 _ hr⟩
  | get t k => exact hw.reads fun tr => ⟨_, Ts.bindGet (Ts.lift' hj _)⟩
  | getWatch t k => exact hw.onTree fun tr h => ⟨(Ts.treeGetWatch (s := w.st default) hj tr k).1, (Ts.treeGetWatch (s := w.st default) hj tr k).2.1.heap, fun _ _ nt hnt => nomatch hnt⟩
  | seekPrefixWatch t p =>
    exact hw.onTree fun tr h => ⟨(Ts.seekPrefixWatch (s := w.st default) hj _ p).1, (Ts.seekPrefixWatch (s := w.st default) hj _ p).2.1.heap, fun _ _ nt hnt => nomatch hnt⟩
  | len t => exact hw.reads fun tr => ⟨_, Ts.pure (Q := fun _ _ => True) hj trivial⟩
  | begin t =>
    simp only [exec]
    cases hr : w.trees[t]? with
    | none => exact hw
    | some tr =>
      refine hw.addTxn ?_
      unfold beginTxn
      exact Ts.bind (Ts.cloneNode (s := w.st default) hj _ true fun _ => hs hr) fun r s1 hj1 h1 g1 => Ts.pure hj1 (g1.2.1 F (hs hr))
  | txnClone x =>
    simp only [exec]
    cases hr : w.txns[x]? with
    | none => exact hw
    | some r =>
      have hw' : WSane F { w with txns := w.txns.set x r.cloned } := ⟨hj, hw.trees, fun r' hr' => by
        rcases List.mem_or_eq_of_mem_set hr' with hr' | hr'
        · exact hw.txns r' hr'
        · subst hr'; exact hx (r := r) hr⟩
      refine hw'.addTxn (ts0 := r.st) ?_
      unfold Art.txnClone
      refine Ts.bindTxn ?_
      exact Ts.bind (Ts.cloneNode (s := w.st r.st) hj _ true fun _ => (hx hr).weak) fun r s1 hj1 h1 g1 => Ts.pure hj1 (g1.2.1 F (hx hr).weak)
  | trackMutate x b => exact hw.onTxn (fun _ => rfl) fun r h => ⟨⟨hj, ⟨.refl _, fun D h => h⟩, hx h⟩, fun _ _ _ nt hnt => nomatch hnt⟩
  | txnInsert x k v => exact hw.onTxn (fun _ => rfl) fun r h => ⟨txnInsert_sane (s := w.st r.st) hj (hx h) k v, fun _ _ _ nt hnt => nomatch hnt⟩
  | txnDelete x k =>
    refine hw.onTxn (fun _ => rfl) fun r h => ⟨?_, fun _ _ _ nt hnt => nomatch hnt⟩
    have := txnDelete_sane (s := w.st r.st) hj hk (hx h) k
    exact ⟨this.1, this.2.1, let ⟨n, hn, _⟩ := this.2.2; ⟨n, hn, fun hf => (hop hf).elim⟩⟩
  | txnDeletePrefix x k =>
    refine hw.onTxn (fun _ => rfl) fun r h => ⟨?_, fun _ _ _ nt hnt => nomatch hnt⟩
    have := txnDeletePrefix_sane (s := w.st r.st) hj (hx h) k
    exact ⟨this.1, this.2.1, let ⟨n, hn, _⟩ := this.2.2; ⟨n, hn, fun hf => (hop hf).elim⟩⟩
  | txnGet x k =>
    refine hw.onTxn (fun _ => rfl) fun r h => ⟨?_, fun _ _ _ nt hnt => nomatch hnt⟩
    refine Ts.tw (Q := fun _ _ => True) ?_ (hx h)
    unfold txnGet
    exact Ts.bindGet (Ts.bindLift hj fun hit _ => Ts.pure hj trivial)
  | txnGetWatch x k =>
    exact hw.onTxn (fun _ => rfl) fun r h => ⟨(Ts.treeGetWatch (s := w.st r.st) hj _ k).tw (hx h), fun _ _ _ nt hnt => nomatch hnt⟩
  | commit x =>
    refine hw.onTxn (fun _ => rfl) fun r h => ?_
    refine ⟨?_, fun a s' ha nt hnt => ?_⟩
    · unfold Tw
      rw [commit_run, notify_run]
      refine ⟨hj, ⟨.refl _, by rw [← notify_run]; exact notify_lones _⟩, ?_⟩
      simp only
      split <;> exact hx h
    · rw [commit_run, notify_run] at ha
      cases ha
      rw [List.mem_singleton] at hnt
      subst hnt
      simp only
      split <;> rfl
  | commitOnly x =>
    refine hw.onTxn (fun _ => rfl) fun r h => ⟨⟨hj, ⟨.refl _, fun D h => h⟩, hx h⟩, fun a s' ha nt hnt => ?_⟩
    cases ha
    rw [List.mem_singleton] at hnt
    subst hnt
    rfl
  | notify x =>
    refine hw.onTxn (fun _ => rfl) fun r h => ⟨?_, fun _ _ _ nt hnt => nomatch hnt⟩
    unfold Tw
    rw [notify_run]
    refine ⟨hj, ⟨.refl _, by rw [← notify_run]; exact notify_lones _⟩, ?_⟩
    simp only
    split <;> exact hx h

theorem WSane.init : WSane F (World.init : World V) := ⟨fun a c h => (nomatch h), fun t h => (nomatch h), fun r h => (nomatch h)⟩

/-- Every reachable heap is well-shaped and acyclic. -/
theorem execAll_sane [Inhabited V] {w : World V} (hw : WSane F w) (ha : WAll (fun _ _ => True) w) (hk : Ranked rk w.heap) (ops : List (Op V))
    (hop : F → ∀ op ∈ ops, op.NoTxnDelete) : WSane F (execAll w ops).2 := by
  induction ops generalizing w rk with
  | nil => exact hw
  | cons op ops ih =>
    obtain ⟨_, rk1, hk1⟩ := exec_fine ha hk op
    exact ih (exec_sane hw hk op fun hf => hop hf op (.head _)) (exec_all ha op trivial fun _ _ _ => trivial).1 hk1 fun hf op' h => hop hf op' (.tail _ h)

end Art
