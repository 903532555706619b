import Verif.Proofs.IsoTxn
import Verif.Proofs.Congr
import Verif.Proofs.Sound
/-
The heap is acyclic, and the loop bounds of the mutating code are large enough, in all histories.

A rank is a number for every node, larger than the ranks of the nodes it points to.  A call keeps the ranks of the
existing nodes and gives ranks to the new ones: a copy, a grown or a shrunk node has the rank of the original, the
node put above a split one has its rank plus one.
-/
set_option autoImplicit false
set_option linter.unusedVariables false
set_option linter.unusedSimpArgs false
set_option linter.unusedSectionVars false
namespace Art
variable {V : Type}

abbrev Rank := Addr → Nat

/-- Pointers stay inside the heap and lead to nodes of smaller rank. -/
def Ranked (rk : Rank) (h : Heap V) : Prop :=
  ∀ (a : Addr) (c : Cell V) b, h[a]? = some c → c.Pts b → b < h.length ∧ rk b < rk a

/-- The heap grew, the ranks of the nodes in it are the same. -/
structure Keeps (rk : Rank) (s : St V) (rk' : Rank) (s' : St V) : Prop where
  len : s.heap.length ≤ s'.heap.length
  eq : ∀ a : Addr, a < s.heap.length → rk' a = rk a

theorem Keeps.refl (rk : Rank) (s : St V) : Keeps rk s rk s := ⟨Nat.le_refl _, fun _ _ => rfl⟩

theorem Keeps.trans {rk rk' rk'' : Rank} {s s' s'' : St V} (h1 : Keeps rk s rk' s') (h2 : Keeps rk' s' rk'' s'') : Keeps rk s rk'' s'' :=
  ⟨Nat.le_trans h1.len h2.len, fun a ha => (h2.eq a (Nat.lt_of_lt_of_le ha h1.len)).trans (h1.eq a ha)⟩

/-- A node of rank `k`. -/
structure At (rk : Rank) (s : St V) (a : Addr) (k : Nat) : Prop where
  lt : a < s.heap.length
  eq : rk a = k

/-- A node of rank below `k`. -/
structure Lt (rk : Rank) (s : St V) (a : Addr) (k : Nat) : Prop where
  lt : a < s.heap.length
  rk : rk a < k

/-- All pointers of the cell lead to nodes of rank below `k`. -/
def Below (rk : Rank) (s : St V) (c : Cell V) (k : Nat) : Prop := ∀ b, c.Pts b → Lt rk s b k

section
variable {rk rk' : Rank} {s s' : St V} {α β : Type}

theorem At.mono {a : Addr} {k : Nat} (h : At rk s a k) (hs : Keeps rk s rk' s') : At rk' s' a k :=
  ⟨Nat.lt_of_lt_of_le h.lt hs.len, (hs.eq a h.lt).trans h.eq⟩
theorem Lt.mono {a : Addr} {k : Nat} (h : Lt rk s a k) (hs : Keeps rk s rk' s') : Lt rk' s' a k :=
  ⟨Nat.lt_of_lt_of_le h.lt hs.len, by rw [hs.eq a h.lt]; exact h.rk⟩
theorem Below.mono {c : Cell V} {k : Nat} (h : Below rk s c k) (hs : Keeps rk s rk' s') : Below rk' s' c k := fun b hb => (h b hb).mono hs
theorem At.toLt {a : Addr} {k k' : Nat} (h : At rk s a k) (hk : k < k') : Lt rk s a k' := ⟨h.lt, by rw [h.eq]; exact hk⟩
theorem Lt.le {a : Addr} {k k' : Nat} (h : Lt rk s a k) (hk : k ≤ k') : Lt rk s a k' := ⟨h.lt, Nat.lt_of_lt_of_le h.rk hk⟩
theorem Lt.at {a : Addr} {k : Nat} (h : Lt rk s a k) : ∃ k', k' < k ∧ At rk s a k' := ⟨_, h.rk, h.lt, rfl⟩
theorem Below.leafG {n : Inner} {k : Nat} (h : Below rk s (.inner n) k) (b : Addr) (hb : n.leaf = some b) : Lt rk s b k := h b (.inl hb)
theorem Below.childG {n : Inner} {k : Nat} (h : Below rk s (.inner n) k) (b : Addr) (hb : some b ∈ n.children) : Lt rk s b k := h b (.inr hb)
theorem Below.mkInner {n : Inner} {k : Nat} (h1 : ∀ b, n.leaf = some b → Lt rk s b k) (h2 : ∀ b, some b ∈ n.children → Lt rk s b k) :
    Below rk s (.inner n) k := fun b hb => hb.elim (h1 b) (h2 b)

/-- Running `m` from `s` keeps the heap ranked and does not run out of a loop bound; if it returns, the result
satisfies `Q`. -/
def Tk (rk : Rank) (m : M V α) (Q : α → Rank → St V → Prop) (s : St V) : Prop :=
  (m s).1 ≠ .error .fuel ∧ ∃ rk', Ranked rk' (m s).2.heap ∧ Keeps rk s rk' (m s).2 ∧ ∀ a, (m s).1 = .ok a → Q a rk' (m s).2

theorem Tk.bind {m : M V α} {f : α → M V β} {Q : α → Rank → St V → Prop} {Q' : β → Rank → St V → Prop} (h : Tk rk m Q s)
    (hf : ∀ a rk' s', Ranked rk' s'.heap → Keeps rk s rk' s' → Q a rk' s' → Tk rk' (f a) Q' s') : Tk rk (m >>= f) Q' s := by
  unfold Tk
  rw [bind_run]
  obtain ⟨hne, rk1, hj, hs, hq⟩ := h
  match hm : m s with
  | (.ok a, s') =>
    rw [hm] at hj hs hq
    obtain ⟨h0, rk2, h1, h2, h3⟩ := hf a rk1 s' hj hs (hq a rfl)
    exact ⟨h0, rk2, h1, hs.trans h2, h3⟩
  | (.error e, s') =>
    rw [hm] at hj hs hne
    exact ⟨fun h => hne (by cases h; rfl), rk1, hj, hs, fun a ha => nomatch ha⟩

theorem Tk.pure {a : α} {Q : α → Rank → St V → Prop} (hj : Ranked rk s.heap) (hq : Q a rk s) : Tk rk (Pure.pure a : M V α) Q s :=
  ⟨nofun, rk, hj, Keeps.refl _ _, fun b hb => by cases hb; exact hq⟩

theorem Tk.conseq {m : M V α} {Q Q' : α → Rank → St V → Prop} (h : Tk rk m Q s)
    (hq : ∀ a rk' s', Ranked rk' s'.heap → Keeps rk s rk' s' → Q a rk' s' → Q' a rk' s') : Tk rk m Q' s := by
  obtain ⟨h0, rk', h1, h2, h3⟩ := h
  exact ⟨h0, rk', h1, h2, fun a ha => hq a _ _ h1 h2 (h3 a ha)⟩

theorem Tk.throw {e : Err} {Q : α → Rank → St V → Prop} (hj : Ranked rk s.heap) (he : e ≠ .fuel := by decide) : Tk rk (M.throw e : M V α) Q s :=
  ⟨fun h => he (by cases h; rfl), rk, hj, Keeps.refl _ _, fun b hb => nomatch hb⟩

theorem Tk.err {m : M V α} {e : Err} {Q : α → Rank → St V → Prop} (h : m s = (.error e, s)) (hj : Ranked rk s.heap) (he : e ≠ .fuel) : Tk rk m Q s := by
  unfold Tk
  rw [h]
  exact ⟨fun h => he (by cases h; rfl), rk, hj, Keeps.refl _ _, fun b hb => nomatch hb⟩

theorem Ranked.below (hj : Ranked rk s.heap) {a : Addr} {k : Nat} (g : At rk s a k) {c : Cell V} (h : s.heap[a]? = some c) : Below rk s c k := fun b hb =>
  ⟨(hj a c b h hb).1, by rw [← g.eq]; exact (hj a c b h hb).2⟩

theorem Tk.bindCell {a : Addr} {f : Cell V → M V β} {Q : β → Rank → St V → Prop} (hj : Ranked rk s.heap)
    (h : ∀ c, s.heap[a]? = some c → Tk rk (f c) Q s) : Tk rk (cell a >>= f) Q s := by
  cases hc : s.heap[a]? with
  | none => exact Tk.err (by rw [bind_run]; unfold cell rd; dsimp only; rw [hc]) hj (by decide)
  | some c =>
    have := h c hc
    unfold Tk at this ⊢
    rw [bind_run]
    unfold cell rd
    dsimp only
    rw [hc]
    exact this

theorem Tk.bindInner {a : Addr} {f : Inner → M V β} {Q : β → Rank → St V → Prop} (hj : Ranked rk s.heap) {k : Nat} (g : At rk s a k)
    (h : ∀ n, s.heap[a]? = some (.inner n) → Below rk s (.inner n) k → Tk rk (f n) Q s) : Tk rk (innerAt a >>= f) Q s := by
  cases hc : s.heap[a]? with
  | none => exact Tk.err (by rw [bind_run]; unfold innerAt rdInner; dsimp only; rw [hc]) hj (by decide)
  | some c =>
    cases c with
    | leaf l => exact Tk.err (by rw [bind_run]; unfold innerAt rdInner; dsimp only; rw [hc]) hj (by decide)
    | inner n =>
      have := h n hc (hj.below g hc)
      unfold Tk at this ⊢
      rw [bind_run]
      unfold innerAt rdInner
      dsimp only
      rw [hc]
      exact this

theorem Tk.bindLeaf {a : Addr} {f : LeafC V → M V β} {Q : β → Rank → St V → Prop} (hj : Ranked rk s.heap)
    (h : ∀ l, s.heap[a]? = some (.leaf l) → Tk rk (f l) Q s) : Tk rk (leafAt a >>= f) Q s := by
  cases hc : s.heap[a]? with
  | none => exact Tk.err (by rw [bind_run]; unfold leafAt rdLeaf; dsimp only; rw [hc]) hj (by decide)
  | some c =>
    cases c with
    | inner n => exact Tk.err (by rw [bind_run]; unfold leafAt rdLeaf; dsimp only; rw [hc]) hj (by decide)
    | leaf l =>
      have := h l hc
      unfold Tk at this ⊢
      rw [bind_run]
      unfold leafAt rdLeaf
      dsimp only
      rw [hc]
      exact this

theorem Tk.bindLift {r : R α} {f : α → M V β} {Q : β → Rank → St V → Prop} (hj : Ranked rk s.heap) (hne : r ≠ .error .fuel)
    (h : ∀ a, r = .ok a → Tk rk (f a) Q s) : Tk rk (M.lift r >>= f) Q s := by
  cases r with
  | error e => exact Tk.err (by rw [bind_run]; rfl) hj fun he => hne (he ▸ rfl)
  | ok a => exact h a rfl

theorem Tk.bindTxn {f : TxnSt → M V β} {Q : β → Rank → St V → Prop} (h : Tk rk (f s.txn) Q s) : Tk rk (txnSt >>= f) Q s := h
theorem Tk.bindGet {f : St V → M V β} {Q : β → Rank → St V → Prop} (h : Tk rk (f s) Q s) : Tk rk (M.get >>= f) Q s := h

theorem Tk.bindAssert {p : Prop} [Decidable p] {e : Err} {f : Unit → M V β} {Q : β → Rank → St V → Prop} (hj : Ranked rk s.heap)
    (h : p → Tk rk (f ()) Q s) (he : e ≠ .fuel := by decide) : Tk rk (M.assert p e >>= f) Q s := by
  by_cases hp : p
  · have := h hp
    unfold Tk at this ⊢
    rw [bind_run]
    unfold M.assert
    dsimp only
    rw [if_pos hp]
    exact this
  · exact Tk.err (by rw [bind_run]; unfold M.assert; dsimp only; rw [if_neg hp]) hj he

/-! ### Primitive writes -/

theorem Tk.wr (hj : Ranked rk s.heap) {a : Addr} {k : Nat} (g : At rk s a k) {c : Cell V} (hc : Below rk s c k) :
    Tk rk (wr a c : M V Unit) (fun _ _ _ => True) s := by
  refine ⟨nofun, rk, fun b d x hb hx => ?_, ⟨by simp [Art.wr], fun _ _ => rfl⟩, fun _ _ => trivial⟩
  have hb : (s.heap.set a c)[b]? = some d := hb
  show x < (s.heap.set a c).length ∧ _
  rw [List.length_set]
  by_cases hab : a = b
  · subst hab
    simp only [List.getElem?_set, if_true, g.lt] at hb
    cases hb
    exact ⟨(hc x hx).lt, by rw [g.eq]; exact (hc x hx).rk⟩
  · simp only [List.getElem?_set, if_neg hab] at hb
    exact hj b d x hb hx

/-- Allocation, with any rank above those of the pointers. -/
theorem Tk.newCell (hj : Ranked rk s.heap) {c : Cell V} (k : Nat) (hc : Below rk s c k) :
    Tk rk (newCell c : M V Addr) (fun a rk' s' => At rk' s' a k) s := by
  refine ⟨nofun, fun x => if x = s.heap.length then k else rk x, fun b d x hb hx => ?_, ⟨by simp [Art.newCell], fun a ha => ?_⟩, fun a ha => ?_⟩
  · have hb : (s.heap ++ [c])[b]? = some d := hb
    show x < (s.heap ++ [c]).length ∧ _
    rw [List.length_append]
    by_cases hlt : b < s.heap.length
    · rw [List.getElem?_append_left hlt] at hb
      obtain ⟨h1, h2⟩ := hj b d x hb hx
      simp only [if_neg (Nat.ne_of_lt h1), if_neg (Nat.ne_of_lt hlt)]
      exact ⟨by omega, h2⟩
    · have hl := (List.getElem?_eq_some_iff.1 hb).1
      simp only [List.length_append, List.length_singleton] at hl
      have : b = s.heap.length := by omega
      subst this
      simp at hb
      subst hb
      have h1 := hc x hx
      simp only [if_neg (Nat.ne_of_lt h1.lt), if_true]
      exact ⟨by have := h1.lt; omega, h1.rk⟩
  · simp only [if_neg (Nat.ne_of_lt ha)]
  · cases ha
    exact ⟨by simp [Art.newCell], by simp⟩

theorem Tk.newChan (hj : Ranked rk s.heap) : Tk rk (newChan : M V ChanId) (fun _ _ _ => True) s :=
  ⟨nofun, rk, hj, ⟨Nat.le_refl _, fun _ _ => rfl⟩, fun _ _ => trivial⟩

theorem Tk.modTxn (hj : Ranked rk s.heap) (f : TxnSt → TxnSt) : Tk rk (modTxn f : M V Unit) (fun _ _ _ => True) s :=
  ⟨nofun, rk, hj, ⟨Nat.le_refl _, fun _ _ => rfl⟩, fun _ _ => trivial⟩

theorem Tk.wrInner (hj : Ranked rk s.heap) {a : Addr} {k : Nat} (g : At rk s a k) {n : Inner}
    (h1 : ∀ b, n.leaf = some b → Lt rk s b k) (h2 : ∀ b, some b ∈ n.children → Lt rk s b k) :
    Tk rk (Art.wr a (.inner n) : M V Unit) (fun _ _ _ => True) s := Tk.wr hj g (.mkInner h1 h2)

/-- Rewriting a node with the same pointers. -/
theorem Tk.wrSame (hj : Ranked rk s.heap) {a : Addr} {c c' : Cell V} (hc : s.heap[a]? = some c) (hp : ∀ b, c'.Pts b → c.Pts b) :
    Tk rk (Art.wr a c' : M V Unit) (fun _ _ _ => True) s := by
  have g : At rk s a (rk a) := ⟨(List.getElem?_eq_some_iff.1 hc).1, rfl⟩
  exact Tk.wr hj g fun b hb => hj.below g hc b (hp b hb)

/-! ### Channels and copying -/

theorem Tk.wrCh (hj : Ranked rk s.heap) (a : Addr) (k : ChanId) : Tk rk (wrCh a k : M V Unit) (fun _ _ _ => True) s := by
  cases hc : s.heap[a]? with
  | none =>
    refine ⟨nofun, rk, ?_, ?_, fun _ _ => trivial⟩
    · show Ranked rk (setChan s.heap a k)
      rw [setChan, hc]
      exact hj
    · show Keeps rk s rk { s with heap := setChan s.heap a k }
      rw [setChan, hc]
      exact Keeps.refl _ _
  | some c =>
    have h := Tk.wrSame hj (c' := c.setCh (some k)) hc fun b hb => (Cell.pts_setCh _ _ _).1 hb
    unfold Tk at h ⊢
    rw [show Art.wrCh a k s = Art.wr a (c.setCh (some k)) s from by show (_, ({ s with heap := setChan s.heap a k } : St V)) = _; rw [setChan_some hc]; rfl]
    exact h

theorem Tk.getMutateCh (hj : Ranked rk s.heap) (a : Addr) : Tk rk (getMutateCh a : M V ChanId) (fun _ _ _ => True) s := by
  unfold Art.getMutateCh
  refine Tk.bindCell hj fun c hc => ?_
  split
  · exact Tk.pure hj trivial
  · next hn =>
    have hr : (Art.newChan >>= fun k => Art.claimCh a k : M V ChanId) s =
        (.ok s.chans.length, { s with heap := s.heap.set a (c.setCh (some s.chans.length)), chans := s.chans ++ [false] }) := by
      rw [bind_run]
      exact claimCh_run (s := { s with chans := s.chans ++ [false] }) hc hn _
    obtain ⟨h0, rk', h1, h2, h3⟩ := Tk.wrSame hj (c' := c.setCh (some s.chans.length)) hc fun b hb => (Cell.pts_setCh _ _ _).1 hb
    unfold Tk
    rw [hr]
    exact ⟨nofun, rk', h1, ⟨h2.len, h2.eq⟩, fun _ _ => trivial⟩

theorem Tk.trackChannel (hj : Ranked rk s.heap) (a : Option Addr) : Tk rk (trackChannel a : M V Unit) (fun _ _ _ => True) s := by
  unfold Art.trackChannel
  refine Tk.bindTxn ?_
  split
  · exact Tk.pure hj trivial
  · split
    · exact Tk.pure hj trivial
    · refine Tk.bind (Tk.getMutateCh hj _) fun _ rk1 s1 hj1 h1 _ => ?_
      refine Tk.bind (Tk.modTxn hj1 _) fun _ rk2 s2 hj2 h2 _ => ?_
      refine Tk.bind (Tk.newChan hj2) fun _ rk3 s3 hj3 h3 _ => ?_
      exact Tk.wrCh hj3 _ _

theorem Tk.keepCh (hj : Ranked rk s.heap) (a : Addr) (b : Bool) : Tk rk (keepCh a b : M V (Option ChanId)) (fun _ _ _ => True) s := by
  unfold Art.keepCh
  split
  · exact Tk.bind (Tk.getMutateCh hj a) fun k rk1 s1 hj1 h1 _ => Tk.pure hj1 trivial
  · exact Tk.pure hj trivial

theorem Tk.cloneNode (hj : Ranked rk s.heap) {a : Addr} {k : Nat} (g : At rk s a k) (b : Bool) : Tk rk (cloneNode a b : M V Addr)
    (fun a' rk' s' => At rk' s' a' k) s := by
  unfold Art.cloneNode
  refine Tk.bind (Tk.keepCh hj a b) fun ch rk1 s1 hj1 h1 _ => ?_
  refine Tk.bindCell hj1 fun c hc => ?_
  have hb := hj1.below (g.mono h1) hc
  cases c with
  | leaf l => exact Tk.newCell hj1 k fun b hp => hb b hp
  | inner n => exact Tk.newCell hj1 k fun b hp => hb b hp

theorem Tk.bumpId (hj : Ranked rk s.heap) (a : Addr) : Tk rk (bumpId a : M V Unit) (fun _ _ _ => True) s := by
  unfold Art.bumpId
  refine Tk.bind (Tk.modTxn hj _) fun _ rk1 s1 hj1 h1 _ => ?_
  refine Tk.bindTxn (Tk.bindCell hj1 fun c hc => ?_)
  exact Tk.wrSame hj1 hc fun b hb => (Cell.pts_setId _ _ _).1 hb

theorem Tk.trackNode (hj : Ranked rk s.heap) (a : Addr) (b : Bool) : Tk rk (trackNode a b : M V Unit) (fun _ _ _ => True) s := by
  unfold Art.trackNode
  split
  · refine Tk.bind (Tk.trackChannel hj _) fun _ rk1 s1 hj1 h1 _ => ?_
    exact Tk.bindCell hj1 fun c hc => Tk.trackChannel hj1 _
  · exact Tk.pure hj trivial

theorem Tk.writeNode (hj : Ranked rk s.heap) {a : Addr} {k : Nat} (g : At rk s a k) (b : Bool) : Tk rk (writeNode a b : M V Addr)
    (fun a' rk' s' => At rk' s' a' k) s := by
  unfold Art.writeNode
  refine Tk.bind (Tk.trackNode hj a b) fun _ rk1 s1 hj1 h1 _ => ?_
  refine Tk.bindCell hj1 fun c hc => Tk.bindTxn ?_
  split
  · exact Tk.pure hj1 (g.mono h1)
  · refine Tk.bind (Tk.cloneNode hj1 (g.mono h1) _) fun nc rk2 s2 hj2 h2 hnc => ?_
    refine Tk.bind (Tk.bumpId hj2 nc) fun _ rk3 s3 hj3 h3 _ => ?_
    exact Tk.pure hj3 (hnc.mono h3)

theorem Tk.allocInner (hj : Ranked rk s.heap) (kd : Kind) (k : Nat) : Tk rk (allocInner kd : M V Addr) (fun a' rk' s' => At rk' s' a' k) s := by
  unfold Art.allocInner
  refine Tk.bind (Tk.newCell hj k (.mkInner ?_ ?_)) fun a rk1 s1 hj1 h1 ha => ?_
  · intro b hb; cases hb
  · intro b hb; have := List.eq_of_mem_replicate hb; cases this
  exact Tk.bind (Tk.bumpId hj1 a) fun _ rk3 s3 hj3 h3 _ => Tk.pure hj3 (ha.mono h3)

theorem Tk.allocLeaf (hj : Ranked rk s.heap) (key : Key) (v : V) : Tk rk (allocLeaf key v : M V Addr) (fun a' rk' s' => At rk' s' a' 0) s := by
  unfold Art.allocLeaf
  refine Tk.bind (Tk.newCell hj 0 ?_) fun a rk1 s1 hj1 h1 ha => ?_
  · intro b hb
    rcases hb with hb | hb <;> cases hb
  exact Tk.bind (Tk.bumpId hj1 a) fun _ rk3 s3 hj3 h3 _ => Tk.pure hj3 (ha.mono h3)

theorem Tk.setNodeLeaf (hj : Ranked rk s.heap) {a : Addr} {k : Nat} (g : At rk s a k) {l : Option Addr}
    (gl : ∀ b, l = some b → Lt rk s b k) : Tk rk (setNodeLeaf a l : M V Unit) (fun _ _ _ => True) s := by
  unfold Art.setNodeLeaf
  exact Tk.bindInner hj g fun n hn hok => Tk.wrInner hj g gl hok.childG

theorem Inner.setChild_nofuel (n : Inner) (i : Nat) (c : Option Addr) : n.setChild i c ≠ .error .fuel := by
  unfold Inner.setChild; split <;> nofun
theorem Inner.setKeyAtIdx_nofuel (n : Inner) (i : Nat) (b : Byte) : n.setKeyAtIdx i b ≠ .error .fuel := by
  unfold Inner.setKeyAtIdx; split
  · nofun
  · split <;> nofun
theorem byteAt_nofuel (key : Key) (i : Nat) : byteAt key i ≠ .error .fuel := by unfold byteAt; split <;> nofun

theorem nofuel_bind {r : R α} {f : α → R β} (h1 : r ≠ .error .fuel) (h2 : ∀ a, r = .ok a → f a ≠ .error .fuel) : (r >>= f) ≠ .error .fuel := by
  cases r with
  | error e => intro h; cases h; exact h1 rfl
  | ok a => exact h2 a rfl

theorem Cell.findChild_nofuel (c : Cell V) (b : Byte) : c.findChild b ≠ .error .fuel := by
  cases c with
  | leaf l => nofun
  | inner n =>
    unfold Cell.findChild Inner.findChild
    simp only
    split
    · split
      · exact nofuel_bind (n.getChild_nofuel _) fun _ _ => nofun
      · nofun
    · split
      · exact nofuel_bind (n.getChild_nofuel _) fun _ _ => nofun
      · nofun
    · refine nofuel_bind (n.getKeyAtIdx_nofuel _) fun _ _ => ?_
      split
      · exact nofuel_bind (n.getChild_nofuel _) fun _ _ => nofun
      · nofun
    · refine nofuel_bind (n.getChild_nofuel _) fun _ _ => ?_
      split <;> nofun

theorem insertSorted_nofuel (n : Inner) (c : Byte) (ch : Addr) : n.insertSorted c ch ≠ .error .fuel := by
  unfold Inner.insertSorted
  refine nofuel_bind (Inner.setKeyAtIdx_nofuel _ _ _) fun _ _ => nofuel_bind (Inner.setChild_nofuel _ _ _) fun _ _ => nofun

theorem scanEq_nofuel (xs ys : Key) (k i : Nat) : scanEq xs ys k i ≠ .error .fuel := by
  induction k generalizing i with
  | zero => unfold scanEq; nofun
  | succ k ih =>
    unfold scanEq
    split
    · split
      · nofun
      · exact ih _
    · nofun

theorem joinPrefix_nofuel (n m : Inner) : joinPrefix n m ≠ .error .fuel := by
  unfold joinPrefix
  refine nofuel_bind (n.getKeyAtIdx_nofuel _) fun _ _ => ?_
  simp only [Bind.bind, Except.bind, Pure.pure, Except.pure]
  intro h
  repeat' split at h
  all_goals cases h

theorem takePrefix_nofuel (n m : Inner) (k : Nat) : takePrefix n m k ≠ .error .fuel := by
  unfold takePrefix
  dsimp only
  split
  · nofun
  · nofun

theorem prefixBails_nofuel (c : Cell V) (key : Key) (d : Nat) : prefixBails c key d ≠ .error .fuel := by
  unfold prefixBails checkPrefix
  split
  · exact nofuel_bind (nofuel_bind (scanEq_nofuel _ _ _ _) fun _ _ => nofun) fun _ _ => nofun
  · nofun

theorem Tk.setChildAt (hj : Ranked rk s.heap) {a : Addr} {k : Nat} (g : At rk s a k) {i : Nat} {c : Option Addr}
    (gl : ∀ b, c = some b → Lt rk s b k) : Tk rk (setChildAt a i c : M V Unit) (fun _ _ _ => True) s := by
  unfold Art.setChildAt
  refine Tk.bindInner hj g fun n hn hok => ?_
  refine Tk.bindLift hj (n.setChild_nofuel _ _) fun n' hn' => ?_
  obtain ⟨_, rfl⟩ := Inner.setChild_ok hn'
  refine Tk.wrInner hj g hok.leafG fun b hb => ?_
  rcases List.mem_or_eq_of_mem_set hb with h | h
  · exact hok.childG b h
  · exact gl b h.symm

theorem Tk.makeLeaf (hj : Ranked rk s.heap) (key : Key) (v : V) : Tk rk (makeLeaf key v : M V Addr) (fun a' rk' s' => At rk' s' a' 1) s := by
  unfold Art.makeLeaf
  refine Tk.bind (Tk.allocLeaf hj key v) fun l rk1 s1 hj1 h1 hl => ?_
  refine Tk.bind (Tk.bumpId hj1 l) fun _ rk2 s2 hj2 h2 _ => ?_
  refine Tk.bind (Tk.allocInner hj2 _ 1) fun a rk3 s3 hj3 h3 ha => ?_
  refine Tk.bind (Tk.setNodeLeaf hj3 ha ?_) fun _ rk4 s4 hj4 h4 _ => ?_
  · intro b hb; cases hb; exact (hl.mono (h2.trans h3)).toLt Nat.zero_lt_one
  exact Tk.bind (Tk.bumpId hj4 a) fun _ rk5 s5 hj5 h5 _ => Tk.pure hj5 (ha.mono (h4.trans h5))

theorem Tk.copyHeader (hj : Ranked rk s.heap) {d a : Addr} {k k' : Nat} (gd : At rk s d k) (ga : At rk s a k') :
    Tk rk (copyHeader d a : M V Unit) (fun _ _ _ => True) s := by
  unfold Art.copyHeader
  refine Tk.bindInner hj ga fun n hn hok => ?_
  refine Tk.bindInner hj gd fun m hm hokm => ?_
  simp only
  split
  · exact Tk.throw hj
  · exact Tk.wrInner hj gd hokm.leafG hokm.childG

theorem Tk.moveLeaf (hj : Ranked rk s.heap) {d a : Addr} {k : Nat} (gd : At rk s d k) (ga : At rk s a k) :
    Tk rk (moveLeaf d a : M V Unit) (fun _ _ _ => True) s := by
  unfold Art.moveLeaf
  refine Tk.bindInner hj ga fun n hn hok => ?_
  cases hl : n.leaf with
  | none => exact Tk.pure hj trivial
  | some l =>
    obtain ⟨k', hk', gl⟩ := (hok.leafG l hl).at
    refine Tk.bind (Tk.writeNode hj gl true) fun nL rk1 s1 hj1 h1 hnL => ?_
    exact Tk.setNodeLeaf hj1 (gd.mono h1) fun b hb => by cases hb; exact hnL.toLt hk'

/-! ### addChild -/

theorem Tk.addChild256 (hj : Ranked rk s.heap) {a ch : Addr} {k : Nat} (ga : At rk s a k) (gc : Lt rk s ch k) (c : Byte) :
    Tk rk (addChild256 a c ch : M V Addr) (fun a' rk' s' => At rk' s' a' k) s := by
  unfold Art.addChild256
  refine Tk.bindInner hj ga fun n hn hok => ?_
  refine Tk.bindLift hj (Inner.setChild_nofuel _ _ _) fun n' hn' => ?_
  obtain ⟨_, rfl⟩ := Inner.setChild_ok hn'
  refine Tk.bind (Tk.wrInner hj ga hok.leafG ?_) fun _ rk1 s1 hj1 h1 _ => Tk.pure hj1 (ga.mono h1)
  intro b hb
  rcases List.mem_or_eq_of_mem_set hb with h | h
  · exact hok.childG b h
  · cases h; exact gc

theorem Tk.addChild48 (hj : Ranked rk s.heap) {a ch : Addr} {k : Nat} (ga : At rk s a k) (gc : Lt rk s ch k) (c : Byte) :
    Tk rk (addChild48 a c ch : M V Addr) (fun a' rk' s' => At rk' s' a' k) s := by
  unfold Art.addChild48
  refine Tk.bindInner hj ga fun n hn hok => ?_
  split
  · refine Tk.bindLift hj (Inner.setChild_nofuel _ _ _) fun n1 hn1 => ?_
    obtain ⟨_, rfl⟩ := Inner.setChild_ok hn1
    refine Tk.bindLift hj (Inner.setKeyAtIdx_nofuel _ _ _) fun n2 hn2 => ?_
    obtain ⟨ks, rfl⟩ := Inner.setKeyAtIdx_ok hn2
    refine Tk.bind (Tk.wrInner hj ga hok.leafG ?_) fun _ rk1 s1 hj1 h1 _ => Tk.pure hj1 (ga.mono h1)
    intro b hb
    rcases List.mem_or_eq_of_mem_set hb with h | h
    · exact hok.childG b h
    · cases h; exact gc
  · refine Tk.bind (Tk.allocInner hj _ k) fun nn rk1 s1 hj1 h1 gn => ?_
    refine Tk.bind (Tk.moveLeaf hj1 gn (ga.mono h1)) fun _ rk2 s2 hj2 h2 _ => ?_
    have ga2 := (ga.mono h1).mono h2
    have gn2 := gn.mono h2
    refine Tk.bindInner hj2 ga2 fun n hn hok => ?_
    refine Tk.bindInner hj2 gn2 fun m hm hokm => ?_
    refine Tk.bind (Tk.wrInner hj2 gn2 hokm.leafG (fun b hb => hok.childG b (mem_children48to256 hb))) fun _ rk3 s3 hj3 h3 _ => ?_
    refine Tk.bind (Tk.copyHeader hj3 (gn2.mono h3) (ga2.mono h3)) fun _ rk4 s4 hj4 h4 _ => ?_
    exact Tk.addChild256 hj4 ((gn2.mono h3).mono h4) ((((gc.mono h1).mono h2).mono h3).mono h4) c

theorem Tk.addChild16 (hj : Ranked rk s.heap) {a ch : Addr} {k : Nat} (ga : At rk s a k) (gc : Lt rk s ch k) (c : Byte) :
    Tk rk (addChild16 a c ch : M V Addr) (fun a' rk' s' => At rk' s' a' k) s := by
  unfold Art.addChild16
  refine Tk.bindInner hj ga fun n hn hok => ?_
  split
  · refine Tk.bindLift hj (insertSorted_nofuel _ _ _) fun n1 hn1 => ?_
    obtain ⟨e1, e2, e3⟩ := insertSorted_rest hn1
    refine Tk.bind (Tk.wrInner hj ga (e1 ▸ hok.leafG) ?_) fun _ rk1 s1 hj1 h1 _ => Tk.pure hj1 (ga.mono h1)
    intro b hb
    rcases mem_insertSorted hn1 hb with h | h
    · exact hok.childG b h
    · subst h; exact gc
  · refine Tk.bind (Tk.allocInner hj _ k) fun nn rk1 s1 hj1 h1 gn => ?_
    refine Tk.bind (Tk.moveLeaf hj1 gn (ga.mono h1)) fun _ rk2 s2 hj2 h2 _ => ?_
    have ga2 := (ga.mono h1).mono h2
    have gn2 := gn.mono h2
    refine Tk.bindInner hj2 ga2 fun n hn hok => ?_
    refine Tk.bindInner hj2 gn2 fun m hm hokm => ?_
    refine Tk.bind (Tk.wrInner hj2 gn2 hokm.leafG ?_) fun _ rk3 s3 hj3 h3 _ => ?_
    · intro b hb
      rcases mem_goCopy hb with h | h
      · exact hokm.childG b h
      · exact hok.childG b (List.mem_of_mem_take h)
    refine Tk.bind (Tk.copyHeader hj3 (gn2.mono h3) (ga2.mono h3)) fun _ rk4 s4 hj4 h4 _ => ?_
    exact Tk.addChild48 hj4 ((gn2.mono h3).mono h4) ((((gc.mono h1).mono h2).mono h3).mono h4) c

theorem Tk.addChild4 (hj : Ranked rk s.heap) {a ch : Addr} {k : Nat} (ga : At rk s a k) (gc : Lt rk s ch k) (c : Byte) :
    Tk rk (addChild4 a c ch : M V Addr) (fun a' rk' s' => At rk' s' a' k) s := by
  unfold Art.addChild4
  refine Tk.bindInner hj ga fun n hn hok => ?_
  split
  · refine Tk.bindLift hj (insertSorted_nofuel _ _ _) fun n1 hn1 => ?_
    obtain ⟨e1, e2, e3⟩ := insertSorted_rest hn1
    refine Tk.bind (Tk.wrInner hj ga (e1 ▸ hok.leafG) ?_) fun _ rk1 s1 hj1 h1 _ => Tk.pure hj1 (ga.mono h1)
    intro b hb
    rcases mem_insertSorted hn1 hb with h | h
    · exact hok.childG b h
    · subst h; exact gc
  · refine Tk.bind (Tk.allocInner hj _ k) fun nn rk1 s1 hj1 h1 gn => ?_
    refine Tk.bind (Tk.moveLeaf hj1 gn (ga.mono h1)) fun _ rk2 s2 hj2 h2 _ => ?_
    have ga2 := (ga.mono h1).mono h2
    have gn2 := gn.mono h2
    refine Tk.bindInner hj2 ga2 fun n hn hok => ?_
    refine Tk.bindInner hj2 gn2 fun m hm hokm => ?_
    refine Tk.bind (Tk.wrInner hj2 gn2 hokm.leafG ?_) fun _ rk3 s3 hj3 h3 _ => ?_
    · intro b hb
      rcases mem_goCopy hb with h | h
      · exact hokm.childG b h
      · exact hok.childG b (List.mem_of_mem_take h)
    refine Tk.bind (Tk.copyHeader hj3 (gn2.mono h3) (ga2.mono h3)) fun _ rk4 s4 hj4 h4 _ => ?_
    exact Tk.addChild16 hj4 ((gn2.mono h3).mono h4) ((((gc.mono h1).mono h2).mono h3).mono h4) c

theorem Tk.addChild (hj : Ranked rk s.heap) {a ch : Addr} {k : Nat} (ga : At rk s a k) (gc : Lt rk s ch k) (c : Byte) :
    Tk rk (addChild a c ch : M V Addr) (fun a' rk' s' => At rk' s' a' k) s := by
  unfold Art.addChild
  refine Tk.bindCell hj fun d hd => ?_
  cases d with
  | leaf l => exact Tk.throw hj
  | inner n =>
    simp only
    cases n.kind
    · exact Tk.addChild4 hj ga gc c
    · exact Tk.addChild16 hj ga gc c
    · exact Tk.addChild48 hj ga gc c
    · exact Tk.addChild256 hj ga gc c

/-! ### removeChild -/

theorem Tk.clearTail (hj : Ranked rk s.heap) {a : Addr} {r : Nat} (ga : At rk s a r) (k i : Nat) :
    Tk rk (clearTail a k i : M V Unit) (fun _ _ _ => True) s := by
  induction k generalizing s rk i with
  | zero => exact Tk.pure hj trivial
  | succ k ih =>
    unfold Art.clearTail
    refine Tk.bindInner hj ga fun n hn hok => ?_
    split
    · refine Tk.bind (Tk.trackChannel hj _) fun _ rk1 s1 hj1 h1 _ => ?_
      refine Tk.bind (Tk.setChildAt hj1 (ga.mono h1) fun b hb => nomatch hb) fun _ rk2 s2 hj2 h2 _ => ?_
      exact ih hj2 ((ga.mono h1).mono h2) _
    · exact Tk.pure hj trivial

theorem Tk.removeSorted (hj : Ranked rk s.heap) {a : Addr} {r : Nat} (ga : At rk s a r) (c : Byte) :
    Tk rk (removeSorted a c : M V Unit) (fun _ _ _ => True) s := by
  unfold Art.removeSorted
  refine Tk.bindInner hj ga fun n hn hok => ?_
  refine Tk.bindAssert hj fun _ => ?_
  refine Tk.bindAssert hj fun _ => ?_
  refine Tk.bind (Tk.wrInner hj ga hok.leafG (fun b hb => hok.childG b (mem_shiftChildren hb))) fun _ rk1 s1 hj1 h1 _ => ?_
  refine Tk.bind (Tk.clearTail hj1 (ga.mono h1) _ _) fun _ rk2 s2 hj2 h2 _ => ?_
  have g2 := (ga.mono h1).mono h2
  refine Tk.bindInner hj2 g2 fun n hn hok => ?_
  exact Tk.wrInner hj2 g2 hok.leafG hok.childG

/-- The node returned has at most the given rank. -/
def AtMost (rk : Rank) (s : St V) (a : Addr) (k : Nat) : Prop := ∃ k', k' ≤ k ∧ At rk s a k'

theorem AtMost.mono {a : Addr} {k : Nat} (h : AtMost rk s a k) (hs : Keeps rk s rk' s') : AtMost rk' s' a k :=
  let ⟨k', h1, h2⟩ := h; ⟨k', h1, h2.mono hs⟩
theorem At.toMost {a : Addr} {k : Nat} (h : At rk s a k) : AtMost rk s a k := ⟨k, Nat.le_refl _, h⟩
theorem AtMost.toLt {a : Addr} {k k' : Nat} (h : AtMost rk s a k) (hk : k < k') : Lt rk s a k' := by
  obtain ⟨k1, h1, h2⟩ := h
  exact h2.toLt (by omega)

theorem Tk.removeChild4 (hj : Ranked rk s.heap) {a : Addr} {r : Nat} (ga : At rk s a r) (c : Byte) :
    Tk rk (removeChild4 a c : M V Addr) (fun a' rk' s' => AtMost rk' s' a' r) s := by
  unfold Art.removeChild4
  refine Tk.bind (Tk.removeSorted hj ga c) fun _ rk1 s1 hj1 h1 _ => ?_
  have g1 := ga.mono h1
  refine Tk.bindInner hj1 g1 fun n hn hok => ?_
  split
  · refine Tk.bindLift hj1 (n.getChild_nofuel _) fun r hr => ?_
    cases r with
    | none => exact Tk.throw hj1
    | some ch =>
      obtain ⟨k', hk', gch⟩ := (hok.childG ch (Inner.mem_getChild hr)).at
      refine Tk.bind (Tk.writeNode hj1 gch false) fun rt rk2 s2 hj2 h2 hrt => ?_
      have g2 := g1.mono h2
      refine Tk.bindInner hj2 g2 fun n hn hok => ?_
      refine Tk.bindInner hj2 hrt fun m hm hokm => ?_
      refine Tk.bindLift hj2 (joinPrefix_nofuel _ _) fun j _ => ?_
      refine Tk.bind (Tk.wrInner hj2 g2 hok.leafG hok.childG) fun _ rk2' s2' hj2' h2' _ => ?_
      have hrt := hrt.mono h2'
      refine Tk.bindInner hj2' (g2.mono h2') fun n _ _ => ?_
      refine Tk.bindInner hj2' hrt fun m hm hokm => ?_
      refine Tk.bindLift hj2' (takePrefix_nofuel _ _ _) fun m' hm' => ?_
      obtain ⟨p, l, rfl⟩ := takePrefix_ok hm'
      refine Tk.bind (Tk.wrInner hj2' hrt hokm.leafG hokm.childG) fun _ rk3 s3 hj3 h3 _ => ?_
      refine Tk.bind (Tk.trackChannel hj3 _) fun _ rk4 s4 hj4 h4 _ => ?_
      exact Tk.pure hj4 ⟨k', Nat.le_of_lt hk', (hrt.mono h3).mono h4⟩
  · exact Tk.pure hj1 g1.toMost

theorem Tk.removeChild16 (hj : Ranked rk s.heap) {a : Addr} {r : Nat} (ga : At rk s a r) (c : Byte) :
    Tk rk (removeChild16 a c : M V Addr) (fun a' rk' s' => AtMost rk' s' a' r) s := by
  unfold Art.removeChild16
  refine Tk.bind (Tk.removeSorted hj ga c) fun _ rk1 s1 hj1 h1 _ => ?_
  have g1 := ga.mono h1
  refine Tk.bindInner hj1 g1 fun n hn hok => ?_
  split
  · refine Tk.bind (Tk.trackChannel hj1 _) fun _ rk2 s2 hj2 h2 _ => ?_
    refine Tk.bind (Tk.allocInner hj2 _ r) fun nn rk3 s3 hj3 h3 gn => ?_
    have g3 := (g1.mono h2).mono h3
    refine Tk.bind (Tk.copyHeader hj3 gn g3) fun _ rk4 s4 hj4 h4 _ => ?_
    have g4 := g3.mono h4
    have gn4 := gn.mono h4
    refine Tk.bindInner hj4 g4 fun n hn hok => ?_
    refine Tk.bindInner hj4 gn4 fun m hm hokm => ?_
    refine Tk.bind (Tk.wrInner hj4 gn4 hokm.leafG ?_) fun _ rk5 s5 hj5 h5 _ => ?_
    · intro b hb
      rcases mem_goCopy hb with h | h
      · exact hokm.childG b h
      · exact hok.childG b (List.mem_of_mem_take h)
    refine Tk.bind (Tk.moveLeaf hj5 (gn4.mono h5) (g4.mono h5)) fun _ rk6 s6 hj6 h6 _ => ?_
    have gn6 := (gn4.mono h5).mono h6
    refine Tk.bind (Tk.setNodeLeaf hj6 gn6 fun b hb => ((hok.leafG b hb).mono h5).mono h6) fun _ rk7 s7 hj7 h7 _ => ?_
    exact Tk.pure hj7 (gn6.mono h7).toMost
  · exact Tk.pure hj1 g1.toMost

theorem Tk.removeChild48 (hj : Ranked rk s.heap) {a : Addr} {r : Nat} (ga : At rk s a r) (c : Byte) :
    Tk rk (removeChild48 a c : M V Addr) (fun a' rk' s' => AtMost rk' s' a' r) s := by
  unfold Art.removeChild48
  refine Tk.bindInner hj ga fun n hn hok => ?_
  refine Tk.bindLift hj (n.getKeyAtIdx_nofuel _) fun pos hpos => ?_
  refine Tk.bindLift hj (n.setKeyAtIdx_nofuel _ _) fun n1 hn1 => ?_
  obtain ⟨ks, rfl⟩ := Inner.setKeyAtIdx_ok hn1
  refine Tk.bind (Tk.wrInner hj ga hok.leafG hok.childG) fun _ rk1 s1 hj1 h1 _ => ?_
  have g1 := ga.mono h1
  refine Tk.bindLift hj1 (Inner.getChild_nofuel _ _) fun ch hch => ?_
  refine Tk.bind (Tk.trackChannel hj1 _) fun _ rk2 s2 hj2 h2 _ => ?_
  have g2 := g1.mono h2
  refine Tk.bind (Tk.setChildAt hj2 g2 fun b hb => nomatch hb) fun _ rk3 s3 hj3 h3 _ => ?_
  have g3 := g2.mono h3
  refine Tk.bindInner hj3 g3 fun n hn hok => ?_
  refine Tk.bind (Tk.wrInner hj3 g3 hok.leafG hok.childG) fun _ rk4 s4 hj4 h4 _ => ?_
  have g4 := g3.mono h4
  refine Tk.bindInner hj4 g4 fun n hn hok => ?_
  split
  · refine Tk.bind (Tk.allocInner hj4 _ r) fun nn rk5 s5 hj5 h5 gn => ?_
    refine Tk.bind (Tk.trackChannel hj5 _) fun _ rk6 s6 hj6 h6 _ => ?_
    have g6 := (g4.mono h5).mono h6
    have gn6 := gn.mono h6
    refine Tk.bind (Tk.copyHeader hj6 gn6 g6) fun _ rk7 s7 hj7 h7 _ => ?_
    have g7 := g6.mono h7
    have gn7 := gn6.mono h7
    refine Tk.bind (Tk.moveLeaf hj7 gn7 g7) fun _ rk8 s8 hj8 h8 _ => ?_
    have g8 := g7.mono h8
    have gn8 := gn7.mono h8
    refine Tk.bindInner hj8 g8 fun n hn hok => ?_
    refine Tk.bindInner hj8 gn8 fun m hm hokm => ?_
    refine Tk.bindAssert hj8 fun _ => ?_
    refine Tk.bind (Tk.wrInner hj8 gn8 hokm.leafG ?_) fun _ rk9 s9 hj9 h9 _ => ?_
    · intro b hb
      rcases mem_goCopy hb with h | h
      · exact hokm.childG b h
      · exact hok.childG b (mem_compact48 h)
    exact Tk.pure hj9 (gn8.mono h9).toMost
  · exact Tk.pure hj4 g4.toMost

theorem Tk.removeChild256 (hj : Ranked rk s.heap) {a : Addr} {r : Nat} (ga : At rk s a r) (c : Byte) :
    Tk rk (removeChild256 a c : M V Addr) (fun a' rk' s' => AtMost rk' s' a' r) s := by
  unfold Art.removeChild256
  refine Tk.bind (Tk.setChildAt hj ga fun b hb => nomatch hb) fun _ rk3 s3 hj3 h3 _ => ?_
  have g3 := ga.mono h3
  refine Tk.bindInner hj3 g3 fun n hn hok => ?_
  refine Tk.bind (Tk.wrInner hj3 g3 hok.leafG hok.childG) fun _ rk4 s4 hj4 h4 _ => ?_
  have g4 := g3.mono h4
  refine Tk.bindInner hj4 g4 fun n hn hok => ?_
  split
  · refine Tk.bind (Tk.allocInner hj4 _ r) fun nn rk5 s5 hj5 h5 gn => ?_
    have g5 := g4.mono h5
    refine Tk.bind (Tk.copyHeader hj5 gn g5) fun _ rk6 s6 hj6 h6 _ => ?_
    have g6 := g5.mono h6
    have gn6 := gn.mono h6
    refine Tk.bind (Tk.trackChannel hj6 _) fun _ rk7 s7 hj7 h7 _ => ?_
    have g7 := g6.mono h7
    have gn7 := gn6.mono h7
    refine Tk.bind (Tk.moveLeaf hj7 gn7 g7) fun _ rk8 s8 hj8 h8 _ => ?_
    have g8 := g7.mono h8
    have gn8 := gn7.mono h8
    refine Tk.bindInner hj8 g8 fun n hn hok => ?_
    refine Tk.bindInner hj8 gn8 fun m hm hokm => ?_
    refine Tk.bindAssert hj8 fun _ => ?_
    refine Tk.bind (Tk.wrInner hj8 gn8 hokm.leafG ?_) fun _ rk9 s9 hj9 h9 _ => ?_
    · intro b hb
      rcases mem_goCopy hb with h | h
      · exact hokm.childG b h
      · simp only [List.mem_map] at h
        obtain ⟨p, hp, hpb⟩ := h
        cases hpb
        exact hok.childG _ (mem_compact256 hp)
    exact Tk.pure hj9 (gn8.mono h9).toMost
  · exact Tk.pure hj4 g4.toMost

theorem Tk.removeChild (hj : Ranked rk s.heap) {a : Addr} {r : Nat} (ga : At rk s a r) (c : Byte) :
    Tk rk (removeChild a c : M V Addr) (fun a' rk' s' => AtMost rk' s' a' r) s := by
  unfold Art.removeChild
  refine Tk.bindCell hj fun d hd => ?_
  cases d with
  | leaf l => exact Tk.throw hj
  | inner n =>
    simp only
    cases n.kind
    · exact Tk.removeChild4 hj ga c
    · exact Tk.removeChild16 hj ga c
    · exact Tk.removeChild48 hj ga c
    · exact Tk.removeChild256 hj ga c

/-! ### minimum and maximum -/

theorem rd_nofuel (h : Heap V) (a : Addr) : rd h a ≠ .error .fuel := by unfold rd; split <;> nofun
theorem rdLeaf_nofuel (h : Heap V) (a : Addr) : rdLeaf h a ≠ .error .fuel := by unfold rdLeaf; split <;> nofun

theorem Ranked.child {h : Heap V} (hj : Ranked rk h) {a : Addr} {n : Inner} (ha : h[a]? = some (.inner n)) {b : Addr}
    (hb : some b ∈ n.children) : rk b < rk a := (hj a _ b ha (.inr hb)).2

theorem minimumAux_nofuel {h : Heap V} (hj : Ranked rk h) (fuel : Nat) (a : Option Addr) (ha : ∀ b, a = some b → rk b < fuel) :
    minimumAux h fuel a ≠ .error .fuel := by
  induction fuel generalizing a with
  | zero =>
    cases a with
    | none => nofun
    | some b => exact absurd (ha b rfl) (Nat.not_lt_zero _)
  | succ fuel ih =>
    cases a with
    | none => nofun
    | some b =>
      unfold minimumAux
      refine nofuel_bind (rd_nofuel _ _) fun c hc => ?_
      have hc := rd_ok hc
      cases c with
      | leaf l => nofun
      | inner n =>
        have key : ∀ i r, n.getChild i = .ok r → ∀ b', r = some b' → rk b' < fuel := fun i r hr b' hb' => by
          subst hb'
          have := hj.child hc (Inner.mem_getChild hr)
          have := ha b rfl
          omega
        simp only
        split
        · nofun
        · split
          · nofun
          · split
            · exact nofuel_bind (n.getChild_nofuel _) fun r hr => ih r (key _ r hr)
            · exact nofuel_bind (n.getChild_nofuel _) fun r hr => ih r (key _ r hr)
            · refine nofuel_bind (n.getKeyAtIdx_nofuel _) fun k _ => ?_
              split
              · exact nofuel_bind (n.getChild_nofuel _) fun r hr => ih r (key _ r hr)
              · nofun
            · split
              · exact nofuel_bind (n.getChild_nofuel _) fun r hr => ih r (key _ r hr)
              · nofun

theorem maximumAux_nofuel {h : Heap V} (hj : Ranked rk h) (fuel : Nat) (a : Option Addr) (ha : ∀ b, a = some b → rk b < fuel) :
    maximumAux h fuel a ≠ .error .fuel := by
  induction fuel generalizing a with
  | zero =>
    cases a with
    | none => nofun
    | some b => exact absurd (ha b rfl) (Nat.not_lt_zero _)
  | succ fuel ih =>
    cases a with
    | none => nofun
    | some b =>
      unfold maximumAux
      refine nofuel_bind (rd_nofuel _ _) fun c hc => ?_
      have hc := rd_ok hc
      cases c with
      | leaf l => nofun
      | inner n =>
        have key : ∀ i r, n.getChild i = .ok r → ∀ b', r = some b' → rk b' < fuel := fun i r hr b' hb' => by
          subst hb'
          have := hj.child hc (Inner.mem_getChild hr)
          have := ha b rfl
          omega
        simp only
        split
        · nofun
        · split
          · exact nofuel_bind (n.getChild_nofuel _) fun r hr => ih r (key _ r hr)
          · exact nofuel_bind (n.getChild_nofuel _) fun r hr => ih r (key _ r hr)
          · split
            · nofun
            · refine nofuel_bind (n.getKeyAtIdx_nofuel _) fun k _ => ?_
              split
              · exact nofuel_bind (n.getChild_nofuel _) fun r hr => ih r (key _ r hr)
              · nofun
          · split
            · nofun
            · exact nofuel_bind (n.getChild_nofuel _) fun r hr => ih r (key _ r hr)

/-- Ranks counted below the length of the heap. -/
def squeeze (rk : Rank) (n : Nat) : Rank := fun a => (List.range n).countP fun b => decide (rk b < rk a)

theorem countP_lt {α : Type} {p q : α → Bool} (l : List α) (h : ∀ x, p x = true → q x = true) (x : α) (hx : x ∈ l) (hq : q x = true)
    (hp : p x = false) : l.countP p < l.countP q := by
  induction l with
  | nil => cases hx
  | cons y l ih =>
    have hle : l.countP p ≤ l.countP q := List.countP_mono_left fun x _ hx => h x hx
    rw [List.countP_cons, List.countP_cons]
    rcases List.mem_cons.1 hx with rfl | hx
    · rw [hp, hq]; simp; omega
    · have := ih hx
      have := h y
      split <;> split <;> simp_all <;> omega

theorem squeeze_le (rk : Rank) (n a : Nat) : squeeze rk n a ≤ n := by
  have := List.countP_le_length (p := fun b => decide (rk b < rk a)) (l := List.range n)
  rw [List.length_range] at this
  exact this

theorem Ranked.squeeze {h : Heap V} (hj : Ranked rk h) : Ranked (squeeze rk h.length) h := fun a c b ha hb => by
  obtain ⟨h1, h2⟩ := hj a c b ha hb
  refine ⟨h1, countP_lt _ (fun x hx => ?_) b (by simpa using h1) (by simpa using h2) (by simp)⟩
  simp only [decide_eq_true_eq] at hx ⊢
  omega

theorem Ranked.minimum {h : Heap V} (hj : Ranked rk h) (a : Option Addr) : Art.minimum h a ≠ .error .fuel :=
  minimumAux_nofuel hj.squeeze _ _ fun b _ => Nat.lt_succ_of_le (squeeze_le _ _ _)
theorem Ranked.maximum {h : Heap V} (hj : Ranked rk h) (a : Option Addr) : Art.maximum h a ≠ .error .fuel :=
  maximumAux_nofuel hj.squeeze _ _ fun b _ => Nat.lt_succ_of_le (squeeze_le _ _ _)

theorem Ranked.prefixMismatch {h : Heap V} (hj : Ranked rk h) (a : Addr) (key : Key) (kl d : Nat) :
    Art.prefixMismatch h a key kl d ≠ .error .fuel := by
  unfold Art.prefixMismatch
  refine nofuel_bind (rd_nofuel _ _) fun c _ => ?_
  simp only
  refine nofuel_bind (scanEq_nofuel _ _ _ _) fun p _ => ?_
  obtain ⟨i, st⟩ := p
  simp only
  split
  · nofun
  · split
    · refine nofuel_bind (hj.minimum _) fun r _ => ?_
      split
      · nofun
      · exact nofuel_bind (rdLeaf_nofuel _ _) fun lc _ => nofuel_bind (scanEq_nofuel _ _ _ _) fun _ _ => nofun
    · nofun

theorem longestCommonPrefix_nofuel (k1 k2 : Key) (d : Nat) : longestCommonPrefix k1 k2 d ≠ .error .fuel := by
  unfold longestCommonPrefix
  exact nofuel_bind (scanEq_nofuel _ _ _ _) fun _ _ => nofun

theorem deletePrefixDepth_nofuel (c : Cell V) (key : Key) (d : Nat) : deletePrefixDepth c key d ≠ .error .fuel := by
  unfold deletePrefixDepth checkPrefix
  split
  · exact nofuel_bind (nofuel_bind (scanEq_nofuel _ _ _ _) fun _ _ => nofun) fun _ _ => nofun
  · nofun

/-! ### Insert -/

theorem Tk.addChildAt (hj : Ranked rk s.heap) {a ch : Addr} {k : Nat} (ga : At rk s a k) (gc : Lt rk s ch k) (key : Key) (i : Nat) :
    Tk rk (addChildAt a key i ch : M V Addr) (fun a' rk' s' => At rk' s' a' k) s := by
  unfold Art.addChildAt
  split
  · exact Tk.bindLift hj (byteAt_nofuel _ _) fun b _ => Tk.addChild hj ga gc b
  · exact Tk.pure hj ga

/-- What the insert functions guarantee about the node they return. -/
def InsLe (k : Nat) (r : InsRes V) (rk : Rank) (s : St V) : Prop := AtMost rk s r.node (k + 1)

theorem At.ins {r : InsRes V} {k k' : Nat} (h : At rk s r.node k') (hk : k' ≤ k + 1) : InsLe k r rk s := ⟨k', hk, h⟩

theorem Tk.insertUpdateLeaf (hj : Ranked rk s.heap) {a : Addr} {k : Nat} (ga : At rk s a k) (hk : 2 ≤ k) (o : V) (key : Key) (v : V) :
    Tk rk (insertUpdateLeaf a o key v : M V (InsRes V)) (InsLe k) s := by
  unfold Art.insertUpdateLeaf
  refine Tk.bind (Tk.writeNode hj ga true) fun a' rk1 s1 hj1 h1 g1 => ?_
  refine Tk.bind (Tk.allocLeaf hj1 key v) fun l rk2 s2 hj2 h2 gl => ?_
  refine Tk.bind (Tk.setNodeLeaf hj2 (g1.mono h2) fun b hb => by cases hb; exact gl.toLt (by omega)) fun _ rk3 s3 hj3 h3 _ => ?_
  exact Tk.pure hj3 (((g1.mono h2).mono h3).ins (by omega))

theorem Tk.insertPair (hj : Ranked rk s.heap) {nn a l a2 l2 : Addr} {k : Nat} (gn : At rk s nn k) (ga : Lt rk s a k) (gl : Lt rk s l k)
    (ga2 : Lt rk s a2 k) (gl2 : Lt rk s l2 k) (oldKey key : Key) (i : Nat) :
    Tk rk (insertPair nn a l a2 l2 oldKey key i : M V Addr) (fun a' rk' s' => At rk' s' a' k) s := by
  unfold Art.insertPair
  split
  · refine Tk.bind (Tk.trackChannel hj _) fun _ rk1 s1 hj1 h1 _ => ?_
    refine Tk.bind (Tk.setNodeLeaf hj1 (gn.mono h1) fun b hb => by cases hb; exact gl2.mono h1) fun _ rk2 s2 hj2 h2 _ => ?_
    exact Tk.bindLift hj2 (byteAt_nofuel _ _) fun b _ => Tk.addChild hj2 ((gn.mono h1).mono h2) ((ga.mono h1).mono h2) b
  · split
    · refine Tk.bind (Tk.setNodeLeaf hj gn fun b hb => by cases hb; exact gl) fun _ rk2 s2 hj2 h2 _ => ?_
      exact Tk.bindLift hj2 (byteAt_nofuel _ _) fun b _ => Tk.addChild hj2 (gn.mono h2) (ga2.mono h2) b
    · refine Tk.bind (Tk.addChildAt hj gn ga _ _) fun a' rk1 s1 hj1 h1 g1 => ?_
      exact Tk.addChildAt hj1 g1 (ga2.mono h1) _ _

theorem Tk.insertSplitLeaf [Inhabited V] (hj : Ranked rk s.heap) {a l : Addr} {k : Nat} (ga : At rk s a k) (hk : 2 ≤ k) (gl : Lt rk s l k)
    (oldKey key : Key) (v : V) (d : Nat) : Tk rk (insertSplitLeaf a l oldKey key v d : M V (InsRes V)) (InsLe k) s := by
  unfold Art.insertSplitLeaf
  refine Tk.bind (Tk.makeLeaf hj key v) fun a2 rk1 s1 hj1 h1 g2 => ?_
  refine Tk.bindInner hj1 g2 fun w hw hokw => ?_
  cases hwl : w.leaf with
  | none => exact Tk.throw hj1
  | some l2 =>
    have gl2 := hokw.leafG l2 hwl
    simp only
    refine Tk.bind (Tk.trackChannel hj1 _) fun _ rk2 s2 hj2 h2 _ => ?_
    refine Tk.bind (Tk.writeNode hj2 ((ga.mono h1).mono h2) false) fun a' rk3 s3 hj3 h3 ga3 => ?_
    refine Tk.bindLift hj3 (longestCommonPrefix_nofuel _ _ _) fun lp _ => ?_
    refine Tk.bind (Tk.allocInner hj3 _ (k + 1)) fun nn rk4 s4 hj4 h4 gn => ?_
    refine Tk.bindInner hj4 gn fun m hm hokm => ?_
    refine Tk.bind (Tk.wrInner hj4 gn hokm.leafG hokm.childG) fun _ rk5 s5 hj5 h5 _ => ?_
    have t : Keeps rk1 s1 rk5 s5 := ((h2.trans h3).trans h4).trans h5
    refine Tk.bind (Tk.insertPair hj5 (gn.mono h5) ((ga3.mono (h4.trans h5)).toLt (by omega)) ((gl.mono (h1.trans t)).le (by omega))
      ((g2.mono t).toLt (by omega)) ((gl2.mono t).le (by omega)) oldKey key _) fun a'' rk6 s6 hj6 h6 g6 => ?_
    exact Tk.pure hj6 (g6.ins (by omega))

theorem Tk.insertAtLeaf [Inhabited V] (hj : Ranked rk s.heap) {a l : Addr} {k : Nat} (ga : At rk s a k) (hk : 2 ≤ k) (gl : Lt rk s l k)
    (key : Key) (v : V) (d : Nat) : Tk rk (insertAtLeaf a l key v d : M V (InsRes V)) (InsLe k) s := by
  unfold Art.insertAtLeaf
  refine Tk.bindLeaf hj fun nl hnl => ?_
  split
  · exact Tk.insertUpdateLeaf hj ga hk _ _ _
  · exact Tk.insertSplitLeaf hj ga hk gl _ _ _ d

theorem Tk.leafClash (hj : Ranked rk s.heap) (n : Inner) (key : Key) : Tk rk (leafClash n key : M V Bool) (fun _ _ _ => True) s := by
  unfold Art.leafClash
  split
  · exact Tk.pure hj trivial
  · exact Tk.bindLeaf hj fun nl hnl => Tk.pure hj trivial

theorem Tk.insertNoChild [Inhabited V] (hj : Ranked rk s.heap) {a : Addr} {k : Nat} (ga : At rk s a k) (hk : 2 ≤ k)
    (key : Key) (v : V) (d : Nat) : Tk rk (insertNoChild a key v d : M V (InsRes V)) (InsLe k) s := by
  unfold Art.insertNoChild
  refine Tk.bind (Tk.makeLeaf hj key v) fun a2 rk1 s1 hj1 h1 g2 => ?_
  refine Tk.bindInner hj1 (ga.mono h1) fun n hn hok => ?_
  refine Tk.bind (Tk.leafClash hj1 n key) fun clash rk2 s2 hj2 h2 _ => ?_
  refine Tk.bind (Tk.trackChannel hj2 _) fun _ rk3 s3 hj3 h3 _ => ?_
  refine Tk.bind (Tk.writeNode hj3 (((ga.mono h1).mono h2).mono h3) false) fun a' rk4 s4 hj4 h4 ga4 => ?_
  split
  · refine Tk.bind (Tk.allocInner hj4 _ 0) fun nn rk5 s5 hj5 h5 gn => ?_
    exact Tk.throw hj5
  · refine Tk.bind (Tk.addChildAt hj4 ga4 ((g2.mono ((h2.trans h3).trans h4)).toLt (by omega)) _ _) fun a' rk5 s5 hj5 h5 g5 => ?_
    exact Tk.pure hj5 (g5.ins (by omega))

theorem Tk.splitShort (hj : Ranked rk s.heap) {nn a : Addr} {k k' : Nat} (gn : At rk s nn k) (ga : At rk s a k') (hk : k' < k) (pd : Nat) :
    Tk rk (splitShort nn a pd : M V Addr) (fun a' rk' s' => At rk' s' a' k) s := by
  unfold Art.splitShort
  refine Tk.bindInner hj ga fun n hn hok => ?_
  refine Tk.bindLift hj (byteAt_nofuel _ _) fun b _ => ?_
  refine Tk.bind (Tk.addChild hj gn (ga.toLt hk) b) fun nn rk1 s1 hj1 h1 gn1 => ?_
  have g1 := ga.mono h1
  refine Tk.bindInner hj1 g1 fun n hn hok => ?_
  refine Tk.bindAssert hj1 fun _ => ?_
  refine Tk.bind (Tk.wrInner hj1 g1 hok.leafG hok.childG) fun _ rk2 s2 hj2 h2 _ => ?_
  exact Tk.pure hj2 (gn1.mono h2)

theorem Tk.splitLong (hj : Ranked rk s.heap) {nn a : Addr} {k k' : Nat} (gn : At rk s nn k) (ga : At rk s a k') (hk : k' < k) (d pd : Nat) :
    Tk rk (splitLong nn a d pd : M V Addr) (fun a' rk' s' => At rk' s' a' k) s := by
  unfold Art.splitLong
  refine Tk.bindInner hj ga fun n hn hok => ?_
  refine Tk.bind (Tk.wrInner hj ga hok.leafG hok.childG) fun _ rk1 s1 hj1 h1 _ => ?_
  refine Tk.bindGet (Tk.bindLift hj1 (hj1.minimum _) fun r hr => ?_)
  cases r with
  | none => exact Tk.throw hj1
  | some l =>
    refine Tk.bindLeaf hj1 fun lc hlc => ?_
    refine Tk.bindLift hj1 (byteAt_nofuel _ _) fun b _ => ?_
    refine Tk.bind (Tk.addChild hj1 (gn.mono h1) ((ga.mono h1).toLt hk) b) fun nn rk2 s2 hj2 h2 gn2 => ?_
    have g2 := (ga.mono h1).mono h2
    refine Tk.bindInner hj2 g2 fun n hn hok => ?_
    refine Tk.bindAssert hj2 fun _ => ?_
    refine Tk.bind (Tk.wrInner hj2 g2 hok.leafG hok.childG) fun _ rk3 s3 hj3 h3 _ => ?_
    exact Tk.pure hj3 (gn2.mono h3)

theorem Tk.splitChild (hj : Ranked rk s.heap) {nn a : Addr} {k k' : Nat} (gn : At rk s nn k) (ga : At rk s a k') (hk : k' < k) (pl d pd : Nat) :
    Tk rk (splitChild nn a pl d pd : M V Addr) (fun a' rk' s' => At rk' s' a' k) s := by
  unfold Art.splitChild
  split
  · exact Tk.splitShort hj gn ga hk pd
  · exact Tk.splitLong hj gn ga hk d pd

theorem Tk.insertSplit [Inhabited V] (hj : Ranked rk s.heap) {a : Addr} {k : Nat} (ga : At rk s a k) (hk : 2 ≤ k)
    (key : Key) (v : V) (d pd : Nat) : Tk rk (insertSplit a key v d pd : M V (InsRes V)) (InsLe k) s := by
  unfold Art.insertSplit
  refine Tk.bind (Tk.allocInner hj _ (k + 1)) fun nn rk1 s1 hj1 h1 gn => ?_
  refine Tk.bindInner hj1 (ga.mono h1) fun n hn hok => ?_
  refine Tk.bindInner hj1 gn fun m hm hokm => ?_
  refine Tk.bindAssert hj1 fun _ => ?_
  refine Tk.bind (Tk.wrInner hj1 gn hokm.leafG hokm.childG) fun _ rk2 s2 hj2 h2 _ => ?_
  refine Tk.bind (Tk.trackChannel hj2 _) fun _ rk3 s3 hj3 h3 _ => ?_
  refine Tk.bind (Tk.writeNode hj3 (((ga.mono h1).mono h2).mono h3) false) fun a' rk4 s4 hj4 h4 ga4 => ?_
  refine Tk.bind (Tk.splitChild hj4 (((gn.mono h2).mono h3).mono h4) ga4 (by omega) _ _ _) fun nn rk5 s5 hj5 h5 gn5 => ?_
  refine Tk.bind (Tk.makeLeaf hj5 key v) fun a2 rk6 s6 hj6 h6 g2 => ?_
  refine Tk.bind (Tk.addChildAt hj6 (gn5.mono h6) (g2.toLt (by omega)) _ _) fun a' rk7 s7 hj7 h7 g7 => ?_
  exact Tk.pure hj7 (g7.ins (by omega))

theorem Tk.insertReplace (hj : Ranked rk s.heap) {a ch : Addr} {k : Nat} (ga : At rk s a k) (i : Nat) {r : InsRes V} (gr : Lt rk s r.node k) :
    Tk rk (insertReplace a ch i r : M V (InsRes V)) (InsLe k) s := by
  unfold Art.insertReplace
  split
  · refine Tk.bind (Tk.trackChannel hj _) fun _ rk1 s1 hj1 h1 _ => ?_
    refine Tk.bind (Tk.writeNode hj1 (ga.mono h1) false) fun a' rk2 s2 hj2 h2 g2 => ?_
    refine Tk.bind (Tk.setChildAt hj2 g2 fun b hb => by cases hb; exact gr.mono (h1.trans h2)) fun _ rk3 s3 hj3 h3 _ => ?_
    exact Tk.pure hj3 ((g2.mono h3).ins (by omega))
  · exact Tk.pure hj (ga.ins (by omega))

theorem Tk.bindLeafHit (hj : Ranked rk s.heap) {c : Cell V} {key : Key} {f : Option Addr → M V β} {Q : β → Rank → St V → Prop}
    (h1 : ∀ l, c.nodeLeaf = some l → Tk rk (f (some l)) Q s) (h2 : Tk rk (f none) Q s) : Tk rk (leafHit c key >>= f) Q s := by
  unfold leafHit
  cases hl : c.nodeLeaf with
  | none => exact h2
  | some l =>
    simp only
    have : (leafAt l >>= fun lc => Pure.pure (if leafMatches lc.key key then some l else none) : M V (Option Addr)) >>= f =
        (leafAt l >>= fun lc => f (if leafMatches lc.key key then some l else none)) := by
      exact M.assoc _ _ _
    rw [this]
    refine Tk.bindLeaf hj fun lc _ => ?_
    split
    · exact h1 l hl
    · exact h2

theorem Tk.insertHit [Inhabited V] (hj : Ranked rk s.heap) {a l : Addr} {k : Nat} (ga : At rk s a k) (gl : Lt rk s l k) (v : V) :
    Tk rk (insertHit a l v : M V (InsRes V)) (InsLe k) s := by
  unfold Art.insertHit
  obtain ⟨k', hk', gl⟩ := gl.at
  refine Tk.bind (Tk.writeNode hj gl true) fun nl rk1 s1 hj1 h1 g1 => ?_
  refine Tk.bindLeaf hj1 fun lc1 hlc1 => ?_
  refine Tk.bind (Tk.wr hj1 g1 (c := .leaf { lc1 with value := v }) (fun b hb => hj1.below g1 hlc1 b hb)) fun _ rk2 s2 hj2 h2 _ => ?_
  refine Tk.bind (Tk.writeNode hj2 ((ga.mono h1).mono h2) true) fun a' rk3 s3 hj3 h3 g3 => ?_
  refine Tk.bind (Tk.setNodeLeaf hj3 g3 fun b hb => by cases hb; exact (g1.mono (h2.trans h3)).toLt hk') fun _ rk4 s4 hj4 h4 _ => ?_
  exact Tk.pure hj4 ((g3.mono h4).ins (by omega))

theorem Tk.insertNew [Inhabited V] (hj : Ranked rk s.heap) {a : Addr} {k : Nat} (ga : At rk s a k) (hk : 2 ≤ k)
    (key : Key) (v : V) (d : Nat) : Tk rk (insertNew a key v d : M V (InsRes V)) (InsLe k) s := by
  unfold Art.insertNew
  refine Tk.bind (Tk.makeLeaf hj key v) fun a2 rk1 s1 hj1 h1 g2 => ?_
  split
  · refine Tk.bind (Tk.trackChannel hj1 _) fun _ rk2 s2 hj2 h2 _ => ?_
    refine Tk.bind (Tk.writeNode hj2 ((ga.mono h1).mono h2) false) fun a' rk3 s3 hj3 h3 ga3 => ?_
    refine Tk.bindLift hj3 (byteAt_nofuel _ _) fun b _ => ?_
    refine Tk.bind (Tk.addChild hj3 ga3 ((g2.mono (h2.trans h3)).toLt (by omega)) b) fun a' rk4 s4 hj4 h4 g4 => ?_
    exact Tk.pure hj4 (g4.ins (by omega))
  · exact Tk.pure hj1 ((ga.mono h1).ins (by omega))

theorem Tk.insertEmpty [Inhabited V] (hj : Ranked rk s.heap) {a : Addr} {k : Nat} (ga : At rk s a k) (hk : 2 ≤ k)
    (key : Key) (v : V) : Tk rk (insertEmpty a key v : M V (InsRes V)) (InsLe k) s := by
  unfold Art.insertEmpty
  refine Tk.bind (Tk.writeNode hj ga true) fun a' rk1 s1 hj1 h1 g1 => ?_
  refine Tk.bind (Tk.allocLeaf hj1 key v) fun l rk2 s2 hj2 h2 gl => ?_
  refine Tk.bind (Tk.setNodeLeaf hj2 (g1.mono h2) fun b hb => by cases hb; exact gl.toLt (by omega)) fun _ rk3 s3 hj3 h3 _ => ?_
  exact Tk.pure hj3 (((g1.mono h2).mono h3).ins (by omega))

theorem byteAt_ok {key : Key} {i : Nat} {b : Byte} (h : byteAt key i = .ok b) : i < key.length := by
  unfold byteAt at h
  split at h
  · rename_i hb; exact (List.getElem?_eq_some_iff.1 hb).1
  · cases h

/-- Ranks with room for one more between a node and the nodes it points to. -/
def Spaced (rk : Rank) (h : Heap V) : Prop :=
  (∀ (a : Addr) (c : Cell V) b, h[a]? = some c → c.Pts b → rk b + 2 ≤ rk a) ∧ ∀ a : Addr, 2 ≤ rk a

/-- Ranks made spaced. -/
def spread (rk : Rank) : Rank := fun a => 2 * rk a + 2

theorem Ranked.spread {h : Heap V} (hj : Ranked rk h) : Ranked (spread rk) h := fun a c b ha hb =>
  ⟨(hj a c b ha hb).1, by have := (hj a c b ha hb).2; unfold Art.spread; omega⟩
theorem Ranked.spaced {h : Heap V} (hj : Ranked rk h) : Spaced (Art.spread rk) h :=
  ⟨fun a c b ha hb => by have := (hj a c b ha hb).2; unfold Art.spread; omega, fun a => by unfold Art.spread; omega⟩

theorem Tk.recursiveInsert [Inhabited V] (hj : Ranked rk s.heap) (hsp : Spaced rk s.heap) (fuel : Nat) {a : Addr} {k : Nat} (ga : At rk s a k)
    (key : Key) (v : V) (d : Nat) (hf : key.length + 1 ≤ fuel + d) (hd : d ≤ key.length) :
    Tk rk (recursiveInsert fuel a key v d : M V (InsRes V)) (InsLe k) s := by
  induction fuel generalizing a k d with
  | zero => omega
  | succ fuel ih =>
    have hk : 2 ≤ k := by rw [← ga.eq]; exact hsp.2 a
    unfold Art.recursiveInsert
    refine Tk.bindTxn ?_
    split
    · exact Tk.insertEmpty hj ga hk _ _
    · refine Tk.bindCell hj fun c hc => ?_
      have hok := hj.below ga hc
      have hch : ∀ b ch idx, c.findChild b = .ok (some ch, idx) → ∃ k', k' + 2 ≤ k ∧ At rk s ch k' := fun b ch idx h => by
        have hp : c.Pts ch := .inr (Cell.mem_findChild h)
        exact ⟨rk ch, by rw [← ga.eq]; exact hsp.1 a c ch hc hp, (hj a c ch hc hp).1, rfl⟩
      have hrest : Tk rk (do
          match ← Art.leafHit c key with
          | some l => Art.insertHit a l v
          | none =>
            if c.partialLen > 0 then do
              let s ← M.get
              let prefixDiff ← M.lift (prefixMismatch s.heap a key key.length d)
              if prefixDiff ≥ c.partialLen then
                if d + c.partialLen < key.length then do
                  let b ← M.lift (byteAt key (d + c.partialLen))
                  match ← M.lift (c.findChild b) with
                  | (some child, idx) => do
                    let r ← Art.recursiveInsert fuel child key v (d + c.partialLen + 1)
                    Art.insertReplace a child idx r
                  | (none, _) => Art.insertNoChild a key v (d + c.partialLen)
                else Art.insertNoChild a key v (d + c.partialLen)
              else Art.insertSplit a key v d prefixDiff
            else do
              let b ← M.lift (byteAt key d)
              match ← M.lift (c.findChild b) with
              | (some child, idx) => do
                let r ← Art.recursiveInsert fuel child key v (d + 1)
                Art.insertReplace a child idx r
              | (none, _) => Art.insertNew a key v d) (InsLe k) s := by
        refine Tk.bindLeafHit hj (fun l hl => Tk.insertHit hj ga (hok l (.inl hl)) v) ?_
        simp only
        split
        · refine Tk.bindGet (Tk.bindLift hj (hj.prefixMismatch _ _ _ _) fun pd _ => ?_)
          split
          · split
            · refine Tk.bindLift hj (byteAt_nofuel _ _) fun b hb => Tk.bindLift hj (c.findChild_nofuel _) fun r hr => ?_
              obtain ⟨x, idx⟩ := r
              cases x with
              | none => exact Tk.insertNoChild hj ga hk _ _ _
              | some child =>
                simp only
                obtain ⟨k', hk', gch⟩ := hch b child idx hr
                refine Tk.bind (ih gch _ (by omega) (by omega)) fun r rk2 s2 hj2 h2 hr => ?_
                exact Tk.insertReplace hj2 (ga.mono h2) idx (AtMost.toLt hr (by omega))
            · exact Tk.insertNoChild hj ga hk _ _ _
          · exact Tk.insertSplit hj ga hk _ _ _ _
        · refine Tk.bindLift hj (byteAt_nofuel _ _) fun b hb => Tk.bindLift hj (c.findChild_nofuel _) fun r hr => ?_
          have := byteAt_ok hb
          obtain ⟨x, idx⟩ := r
          cases x with
          | none => exact Tk.insertNew hj ga hk _ _ _
          | some child =>
            simp only
            obtain ⟨k', hk', gch⟩ := hch b child idx hr
            refine Tk.bind (ih gch _ (by omega) (by omega)) fun r rk2 s2 hj2 h2 hr => ?_
            exact Tk.insertReplace hj2 (ga.mono h2) idx (AtMost.toLt hr (by omega))
      split
      · rename_i l _ hl
        exact Tk.insertAtLeaf hj ga hk (hok l (.inl hl)) _ _ d
      · exact hrest

/-! ### Delete -/

/-- What `recursiveDelete` guarantees about the node it returns. -/
def DelLe (k : Nat) (r : DelRes) (rk : Rank) (s : St V) : Prop := ∀ b, r.node = some b → AtMost rk s b k

theorem Tk.deleteHit (hj : Ranked rk s.heap) {a l : Addr} {k : Nat} (ga : At rk s a k) :
    Tk rk (deleteHit a l : M V DelRes) (DelLe k) s := by
  unfold Art.deleteHit
  refine Tk.bind (Tk.writeNode hj ga true) fun a' rk1 s1 hj1 h1 g1 => ?_
  refine Tk.bind (Tk.setNodeLeaf hj1 g1 fun b hb => nomatch hb) fun _ rk2 s2 hj2 h2 _ => ?_
  have g2 := g1.mono h2
  refine Tk.bindInner hj2 g2 fun n hn hok => ?_
  split
  · exact Tk.pure hj2 fun b hb => by cases hb; exact g2.toMost
  · exact Tk.pure hj2 fun b hb => nomatch hb

theorem Tk.deleteReplace (hj : Ranked rk s.heap) {a ch : Addr} {k k' : Nat} (ga : At rk s a k) (i : Nat) (b : Byte) {r : DelRes}
    (gr : DelLe k' r rk s) (hk : k' < k) : Tk rk (deleteReplace a ch i b r : M V Addr) (fun a' rk' s' => AtMost rk' s' a' k) s := by
  unfold Art.deleteReplace
  split
  · refine Tk.bind (Tk.trackChannel hj _) fun _ rk1 s1 hj1 h1 _ => ?_
    refine Tk.bind (Tk.writeNode hj1 (ga.mono h1) false) fun a' rk2 s2 hj2 h2 g2 => ?_
    refine Tk.bind (Tk.setChildAt hj2 g2 fun b hb => ((gr b hb).mono (h1.trans h2)).toLt hk) fun _ rk3 s3 hj3 h3 _ => ?_
    split
    · exact Tk.removeChild hj3 (g2.mono h3) b
    · exact Tk.pure hj3 (g2.mono h3).toMost
  · exact Tk.pure hj ga.toMost

theorem Tk.deleteFinish (hj : Ranked rk s.heap) {a : Addr} {k : Nat} (ga : AtMost rk s a k) (r : DelRes) :
    Tk rk (deleteFinish a r : M V DelRes) (DelLe k) s := by
  unfold Art.deleteFinish
  refine Tk.bindCell hj fun c hc => ?_
  split
  · exact Tk.pure hj fun b hb => nomatch hb
  · exact Tk.pure hj fun b hb => by cases hb; exact ga

theorem Tk.recursiveDelete (hj : Ranked rk s.heap) (fuel : Nat) {a : Addr} {k : Nat} (ga : At rk s a k) (key : Key) (d : Nat)
    (hf : key.length + 1 ≤ fuel + d) (hd : d ≤ key.length) :
    Tk rk (recursiveDelete fuel a key d : M V DelRes) (DelLe k) s := by
  induction fuel generalizing rk s a k d with
  | zero => omega
  | succ fuel ih =>
    unfold Art.recursiveDelete
    refine Tk.bindCell hj fun c hc => ?_
    have hok := hj.below ga hc
    refine Tk.bind (Tk.trackChannel hj _) fun _ rk1 s1 hj1 h1 _ => ?_
    replace hok := hok.mono h1
    replace ga := ga.mono h1
    split
    · exact Tk.pure hj1 fun b hb => nomatch hb
    · refine Tk.bindLeafHit hj1 (fun l hl => Tk.deleteHit hj1 ga) ?_
      simp only
      refine Tk.bindLift hj1 (prefixBails_nofuel _ _ _) fun bail _ => ?_
      split
      · exact Tk.pure hj1 fun b hb => by cases hb; exact ga.toMost
      · refine Tk.bindLift hj1 (byteAt_nofuel _ _) fun b hb => Tk.bindLift hj1 (c.findChild_nofuel _) fun r hr => ?_
        have := byteAt_ok hb
        obtain ⟨x, idx⟩ := r
        cases x with
        | none => exact Tk.pure hj1 fun b hb => nomatch hb
        | some child =>
          simp only
          obtain ⟨k', hk', gch⟩ := (hok child (.inr (Cell.mem_findChild hr))).at
          refine Tk.bind (ih hj1 gch _ (by omega) (by omega)) fun r rk2 s2 hj2 h2 hr => ?_
          refine Tk.bind (Tk.deleteReplace hj2 (ga.mono h2) idx b hr hk') fun a' rk3 s3 hj3 h3 g3 => ?_
          exact Tk.deleteFinish hj3 g3 r

/-! ### DeletePrefix -/

theorem Tk.compactSlots (hj : Ranked rk s.heap) {a : Addr} {r : Nat} (ga : At rk s a r) {m : List (Nat × Option Addr)}
    (hm : ∀ i b, (i, some b) ∈ m → Lt rk s b r) (k i slow : Nat) :
    Tk rk (compactSlots a m k i slow : M V Nat) (fun _ _ _ => True) s := by
  induction k generalizing rk s i slow with
  | zero => exact Tk.pure hj trivial
  | succ k ih =>
    unfold Art.compactSlots
    split
    · exact ih hj ga hm _ _
    · rename_i ch hl
      have hmem : (i, some ch) ∈ m := by
        rw [List.lookup_eq_some_iff] at hl
        obtain ⟨l1, l2, rfl, _⟩ := hl
        simp
      refine Tk.bind (Tk.setChildAt hj ga fun b hb => by cases hb; exact hm _ _ hmem) fun _ rk1 s1 hj1 h1 _ => ?_
      exact ih hj1 (ga.mono h1) (fun i b h => (hm i b h).mono h1) _ _
    · refine Tk.bindInner hj ga fun n hn hok => ?_
      refine Tk.bindLift hj (n.getChild_nofuel _) fun ch hch => ?_
      refine Tk.bind (Tk.setChildAt hj ga fun b hb => by subst hb; exact hok.childG b (Inner.mem_getChild hch))
        fun _ rk1 s1 hj1 h1 _ => ?_
      exact ih hj1 (ga.mono h1) (fun i b h => (hm i b h).mono h1) _ _

theorem Tk.clearFrom (hj : Ranked rk s.heap) {a : Addr} {k : Nat} (ga : At rk s a k) (i : Nat) :
    Tk rk (clearFrom a i : M V Unit) (fun _ _ _ => True) s := by
  unfold Art.clearFrom
  refine Tk.bindInner hj ga fun n hn hok => ?_
  refine Tk.wrInner hj ga hok.leafG ?_
  intro b hb
  simp only [List.mem_append, List.mem_replicate] at hb
  rcases hb with h | h
  · exact hok.childG b (List.mem_of_mem_take h)
  · exact nomatch h.2

theorem Tk.deletePrefixRebuild (hj : Ranked rk s.heap) {a : Addr} {k : Nat} (ga : At rk s a k) {m : List (Nat × Option Addr)}
    (hm : ∀ i b, (i, some b) ∈ m → Lt rk s b k) :
    Tk rk (deletePrefixRebuild a m : M V Addr) (fun a' rk' s' => At rk' s' a' k) s := by
  unfold Art.deletePrefixRebuild
  refine Tk.bind (Tk.writeNode hj ga true) fun a' rk1 s1 hj1 h1 g1 => ?_
  refine Tk.bindInner hj1 g1 fun n hn hok => ?_
  refine Tk.bind (Tk.compactSlots hj1 g1 (fun i b h => (hm i b h).mono h1) _ _ _) fun slow rk2 s2 hj2 h2 _ => ?_
  refine Tk.bind (Tk.clearFrom hj2 (g1.mono h2) _) fun _ rk3 s3 hj3 h3 _ => ?_
  have g3 := (g1.mono h2).mono h3
  refine Tk.bindInner hj3 g3 fun n hn hok => ?_
  refine Tk.bind (Tk.wrInner hj3 g3 hok.leafG hok.childG) fun _ rk4 s4 hj4 h4 _ => ?_
  exact Tk.pure hj4 (g3.mono h4)

theorem Tk.deletePrefixOwn (hj : Ranked rk s.heap) (c : Cell V) (key : Key) :
    Tk rk (deletePrefixOwn c key : M V Nat) (fun _ _ _ => True) s := by
  unfold Art.deletePrefixOwn
  split
  · exact Tk.pure hj trivial
  · refine Tk.bindLeaf hj fun lc hlc => ?_
    split
    · exact Tk.bind (Tk.trackChannel hj _) fun _ rk1 s1 hj1 h1 _ => Tk.pure hj1 trivial
    · exact Tk.pure hj trivial

/-- What `deletePrefix` guarantees about the node it returns. -/
def PreLe (k : Nat) (r : Option Addr × Nat) (rk : Rank) (s : St V) : Prop := ∀ b, r.1 = some b → At rk s b k

theorem Tk.deletePrefixLeaf (hj : Ranked rk s.heap) {a : Addr} {k : Nat} (ga : At rk s a k) (c : Cell V) (key : Key) :
    Tk rk (deletePrefixLeaf a c key : M V (Option Addr × Nat)) (PreLe k) s := by
  unfold Art.deletePrefixLeaf
  split
  · exact Tk.pure hj fun b hb => by cases hb; exact ga
  · refine Tk.bindLeaf hj fun lc hlc => ?_
    split
    · refine Tk.bind (Tk.trackChannel hj _) fun _ rk1 s1 hj1 h1 _ => ?_
      exact Tk.bind (Tk.trackChannel hj1 _) fun _ rk1 s1 hj1 h1 _ => Tk.pure hj1 fun b hb => nomatch hb
    · exact Tk.pure hj fun b hb => by cases hb; exact ga

theorem Tk.deletePrefixChildren {rec : Addr → M V (Option Addr × Nat)} {k : Nat} (hj : Ranked rk s.heap)
    (hrec : ∀ rk s b k', Ranked rk s.heap → k' < k → At rk s b k' → Tk rk (rec b) (PreLe k') s)
    (l : List (Option Addr × Nat)) (hl : ∀ b i, (some b, i) ∈ l → Lt rk s b k) :
    Tk rk (deletePrefixChildren rec l) (fun r rk' s' => ∀ i b, (i, some b) ∈ r.1 → Lt rk' s' b k) s := by
  induction l generalizing rk s with
  | nil => exact Tk.pure hj fun i b h => by cases h
  | cons p rest ih =>
    obtain ⟨x, i⟩ := p
    cases x with
    | none => exact ih hj fun b i h => hl b i (.tail _ h)
    | some ch =>
      unfold Art.deletePrefixChildren
      obtain ⟨k', hk', gch⟩ := (hl ch i (.head _)).at
      refine Tk.bind (hrec rk s ch k' hj hk' gch) fun r rk1 s1 hj1 h1 hr => ?_
      obtain ⟨newCh, del⟩ := r
      simp only
      refine Tk.bind (Tk.trackChannel hj1 _) fun _ rk2 s2 hj2 h2 _ => ?_
      refine Tk.bind (ih hj2 fun b i h => (hl b i (.tail _ h)).mono (h1.trans h2)) fun r rk3 s3 hj3 h3 hr3 => ?_
      obtain ⟨m, total⟩ := r
      refine Tk.pure hj3 fun i b h => ?_
      rcases List.mem_cons.1 h with h | h
      · cases h; exact ((hr _ rfl).mono (h2.trans h3)).toLt hk'
      · exact hr3 i b h

theorem Tk.deletePrefix (hj : Ranked rk s.heap) (fuel : Nat) {a : Addr} {k : Nat} (ga : At rk s a k) (hk : k < fuel) (key : Key) (d : Nat) :
    Tk rk (deletePrefix fuel (some a) key d : M V (Option Addr × Nat)) (PreLe k) s := by
  induction fuel generalizing rk s a k d with
  | zero => omega
  | succ fuel ih =>
    unfold Art.deletePrefix
    refine Tk.bindCell hj fun c hc => ?_
    have hok := hj.below ga hc
    split
    · exact Tk.deletePrefixLeaf hj ga c key
    · refine Tk.bindLift hj (deletePrefixDepth_nofuel _ _ _) fun d' _ => ?_
      refine Tk.bind (Tk.deletePrefixOwn hj c key) fun own rk1 s1 hj1 h1 _ => ?_
      refine Tk.bind (Tk.deletePrefixChildren (k := k) hj1 (fun rk s b k' hj hk' gb => ih hj gb (by omega) _) _ ?_) fun r rk2 s2 hj2 h2 hr => ?_
      · intro b i h
        have : some b ∈ c.children := by
          rw [List.mem_zipIdx_iff_getElem?] at h
          exact List.mem_of_getElem? h
        exact (hok b (.inr this)).mono h1
      · obtain ⟨m, del⟩ := r
        simp only
        refine Tk.bind (Tk.deletePrefixRebuild hj2 ((ga.mono h1).mono h2) hr) fun a' rk3 s3 hj3 h3 g3 => ?_
        exact Tk.pure hj3 fun b hb => by cases hb; exact g3

/-! ### Whole calls -/

theorem Tk.resetRoot [Inhabited V] (hj : Ranked rk s.heap) : Tk rk (resetRoot : M V Unit) (fun _ _ _ => True) s := by
  unfold Art.resetRoot
  refine Tk.bindTxn ?_
  refine Tk.bind (Tk.newCell hj 0 ?_) fun l rk1 s1 hj1 h1 gl => ?_
  · intro b hb; rcases hb with hb | hb <;> cases hb
  refine Tk.bind (Tk.newCell hj1 1 (.mkInner ?_ ?_)) fun r rk2 s2 hj2 h2 gr => Tk.modTxn hj2 _
  · intro b hb; cases hb; exact gl.toLt Nat.zero_lt_one
  · intro b hb; have := List.eq_of_mem_replicate hb; cases this

theorem Tk.setRoot [Inhabited V] (hj : Ranked rk s.heap) (a : Option Addr) : Tk rk (setRoot a : M V Unit) (fun _ _ _ => True) s := by
  unfold Art.setRoot
  split
  · exact Tk.resetRoot hj
  · exact Tk.modTxn hj _

/-- What a call does: no loop bound is reached and the heap stays acyclic. -/
def Completes (m : M V α) (s : St V) : Prop := (m s).1 ≠ .error .fuel ∧ ∃ rk, Ranked rk (m s).2.heap

theorem Tk.ends {m : M V α} {Q : α → Rank → St V → Prop} (h : Tk rk m Q s) : Completes m s :=
  let ⟨h0, rk', h1, _, _⟩ := h; ⟨h0, rk', h1⟩

theorem txnInsert_ends [Inhabited V] (hj : Ranked rk s.heap) (hr : s.txn.root < s.heap.length) (key : Key) (v : V) :
    Completes (txnInsert key v : M V (V × Bool)) s := by
  refine Tk.ends (rk := spread rk) (Q := fun _ _ _ => True) ?_
  unfold txnInsert
  refine Tk.bindTxn ?_
  refine Tk.bind (Tk.recursiveInsert hj.spread hj.spaced _ ⟨hr, rfl⟩ _ _ 0 (by omega) (by omega)) fun r rk1 s1 hj1 h1 _ => ?_
  exact Tk.bind (Tk.modTxn hj1 _) fun _ rk2 s2 hj2 h2 _ => Tk.pure hj2 trivial

theorem txnDelete_ends [Inhabited V] (hj : Ranked rk s.heap) (hr : s.txn.root < s.heap.length) (key : Key) :
    Completes (txnDelete key : M V (V × Bool)) s := by
  refine Tk.ends (rk := rk) (Q := fun _ _ _ => True) ?_
  unfold txnDelete
  refine Tk.bindTxn ?_
  refine Tk.bind (Tk.recursiveDelete hj _ ⟨hr, rfl⟩ _ 0 (by omega) (by omega)) fun r rk1 s1 hj1 h1 _ => ?_
  refine Tk.bind (Tk.setRoot hj1 _) fun _ rk2 s2 hj2 h2 _ => ?_
  split
  · exact Tk.pure hj2 trivial
  · refine Tk.bindTxn ?_
    refine Tk.bind (Tk.trackChannel hj2 _) fun _ rk3 s3 hj3 h3 _ => ?_
    refine Tk.bind (Tk.modTxn hj3 _) fun _ rk4 s4 hj4 h4 _ => ?_
    exact Tk.bindCell hj4 fun c _ => Tk.pure hj4 trivial

theorem txnDeletePrefix_ends [Inhabited V] (hj : Ranked rk s.heap) (hr : s.txn.root < s.heap.length) (key : Key) :
    Completes (txnDeletePrefix key : M V Bool) s := by
  refine Tk.ends (rk := squeeze rk s.heap.length) (Q := fun _ _ _ => True) ?_
  unfold txnDeletePrefix
  refine Tk.bindGet ?_
  refine Tk.bind (Tk.deletePrefix hj.squeeze _ ⟨hr, rfl⟩ (Nat.lt_succ_of_le (squeeze_le _ _ _)) _ 0) fun r rk1 s1 hj1 h1 _ => ?_
  obtain ⟨nr, nd⟩ := r
  simp only
  refine Tk.bind (Tk.setRoot hj1 _) fun _ rk2 s2 hj2 h2 _ => ?_
  split
  · refine Tk.bindTxn ?_
    refine Tk.bind (Tk.trackChannel hj2 _) fun _ rk3 s3 hj3 h3 _ => ?_
    refine Tk.bind (Tk.modTxn hj3 _) fun _ rk4 s4 hj4 h4 _ => ?_
    refine Tk.bind (Tk.modTxn hj4 _) fun _ rk5 s5 hj5 h5 _ => Tk.pure hj5 trivial
  · exact Tk.pure hj2 trivial

end
end Art
