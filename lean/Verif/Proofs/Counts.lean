import Verif.Proofs.Tracked
/-
What the calls do to the lengths that a transaction keeps.
-/
set_option autoImplicit false
set_option linter.unusedVariables false
set_option linter.unusedSimpArgs false
set_option linter.unusedSectionVars false
namespace Art
variable {V : Type} {α β : Type} {w : World V} {s : St V}

/-- The two lengths stay equal; if the call returns, the length changes as `g` says. -/
structure Counts (m : M V α) (s : St V) (g : α → UInt64 → UInt64 → Prop) : Prop where
  same : s.txn.size = s.txn.treeSize → (m s).2.txn.size = (m s).2.txn.treeSize
  by_ : ∀ a, (m s).1 = .ok a → g a s.txn.size (m s).2.txn.size

theorem Counts.bind {m : M V α} {f : α → M V β} {g : β → UInt64 → UInt64 → Prop} (h1 : (m s).2.txn.size = s.txn.size) (h2 : (m s).2.txn.treeSize = s.txn.treeSize)
    (hf : ∀ a s', m s = (.ok a, s') → Counts (f a) s' g) : Counts (m >>= f) s g := by
  have hb : (m >>= f) s = match m s with
    | (.ok a, s') => f a s'
    | (.error e, s') => (.error e, s') := rfl
  match hm : m s with
  | (.ok a, s') =>
    rw [hm] at hb h1 h2
    obtain ⟨h3, h4⟩ := hf a s' hm
    exact ⟨fun he => by rw [hb]; exact h3 (by rw [h1, h2]; exact he), fun b hb' => by rw [hb] at hb' ⊢; rw [← h1]; exact h4 b hb'⟩
  | (.error e, s') =>
    rw [hm] at hb h1 h2
    exact ⟨fun he => by rw [hb]; show s'.txn.size = s'.txn.treeSize; rw [h1, h2]; exact he, fun b hb' => by rw [hb] at hb'; cases hb'⟩

theorem Counts.bindTr {C : Cx V} {m : M V α} {f : α → M V β} {Q : α → St V → Prop} {g : β → UInt64 → UInt64 → Prop} (h : Tr C m Q s)
    (hf : ∀ a s', J C s' → Step s s' → Q a s' → Counts (f a) s' g) : Counts (m >>= f) s g :=
  .bind h.2.1.sizes.1 h.2.1.sizes.2 fun a s' hm => by
    obtain ⟨h1, h2, h3, _⟩ := h
    rw [hm] at h1 h2 h3
    exact hf a s' h1 h2 (h3 a rfl)

theorem Counts.pure {a : α} {g : α → UInt64 → UInt64 → Prop} (h : g a s.txn.size s.txn.size) : Counts (pure a : M V α) s g :=
  ⟨fun he => he, fun b hb => by cases hb; exact h⟩

theorem setRoot_sizes [Inhabited V] (r : Option Addr) (s : St V) : ((setRoot r : M V Unit) s).2.txn.size = s.txn.size ∧
    ((setRoot r : M V Unit) s).2.txn.treeSize = s.txn.treeSize := by
  unfold setRoot
  split
  · rw [resetRoot_run]; exact ⟨rfl, rfl⟩
  · exact ⟨rfl, rfl⟩

variable {P : Key → V → Prop} {C : Cx V}

theorem Counts.txnInsert [Inhabited V] (hj : J C s) (g : C.Good s s.txn.root) {key : Key} {v : V} (hp : C.P (getTreeKey key) v) :
    Counts (Art.txnInsert key v : M V (V × Bool)) s fun r n n' => n' = if r.2 then n else n + 1 := by
  unfold Art.txnInsert
  refine .bindTr (Tr.txnSt hj) fun t s0 hj0 h0 ht => ?_
  subst ht
  refine .bindTr (Tr.recursiveInsert hj0 _ (h0.root ▸ g.mono h0) hp 0) fun r s1 hj1 h1 hr => ?_
  cases ho : r.old with
  | true => exact ⟨fun he => he, fun a ha => by cases ha; rfl⟩
  | false => exact ⟨fun he => congrArg (· + 1) he, fun a ha => by cases ha; rfl⟩

theorem Counts.txnDelete [Inhabited V] (hj : J C s) (g : C.Good s s.txn.root) (key : Key) (hp : C.P [] (default : V)) :
    Counts (Art.txnDelete key : M V (V × Bool)) s fun r n n' => n' = if r.2 then n - 1 else n := by
  unfold Art.txnDelete
  refine .bindTr (Tr.txnSt hj) fun t s0 hj0 h0 ht => ?_
  subst ht
  refine .bindTr (Tr.recursiveDelete hj0 _ (h0.root ▸ g.mono h0) _ 0) fun r s1 hj1 h1 hr => ?_
  have g1 : C.Good s1 s1.txn.root := by rw [h1.root, h0.root]; exact (g.mono h0).mono h1
  have hset := TrT.setRoot hj1 hp g1 hr
  refine .bind (setRoot_sizes _ _).1 (setRoot_sizes _ _).2 fun _ s2 h2 => ?_
  have hj2 := hset.j
  rw [h2] at hj2
  split
  · exact .pure rfl
  next l _ =>
    refine .bindTr (Tr.txnSt hj2) fun t s3 hj3 h3 ht => ?_
    refine .bindTr (Tr.trackChannel hj3 _) fun _ s4 hj4 h4 _ => ?_
    constructor <;> simp only [bind_run, modTxn, cell, rd]
    · cases s4.heap[l]? <;> exact fun he => congrArg (· - 1) he
    · cases s4.heap[l]? <;> intro a ha <;> cases ha
      rfl

theorem Counts.txnDeletePrefix [Inhabited V] (hj : J C s) (g : C.Good s s.txn.root) (key : Key) (hp : C.P [] (default : V)) :
    Counts (Art.txnDeletePrefix key : M V Bool) s fun r n n' => r = false → n' = n := by
  unfold Art.txnDeletePrefix
  refine .bindTr (Tr.get hj) fun t s0 hj0 h0 ht => ?_
  obtain ⟨rfl, _⟩ := ht
  refine .bindTr (Tr.deletePrefix hj0 _ (h0.root ▸ g.mono h0) _ 0) fun r s1 hj1 h1 hr => ?_
  obtain ⟨nr, nd⟩ := r
  have g1 : C.Good s1 s1.txn.root := by rw [h1.root, h0.root]; exact (g.mono h0).mono h1
  have hset := TrT.setRoot hj1 hp g1 hr
  refine .bind (setRoot_sizes _ _).1 (setRoot_sizes _ _).2 fun _ s2 h2 => ?_
  have hj2 := hset.j
  rw [h2] at hj2
  split
  · refine .bindTr (Tr.txnSt hj2) fun t s3 hj3 h3 ht => ?_
    refine .bindTr (Tr.trackChannel hj3 _) fun _ s4 hj4 h4 _ => ?_
    exact ⟨fun he => rfl, fun a ha => by cases ha; exact fun h => by cases h⟩
  · exact .pure fun _ => rfl
/-- A call of a transaction, in the world. -/
theorem onTxn_counts {x : Nat} {f : M V α} {out : α → Out V × List Tree} {mark : TxnRec → TxnRec} {r : TxnRec} (hm : ∀ r, (mark r).st = r.st)
    (hr : w.txns[x]? = some r) {g : α → UInt64 → UInt64 → Prop} (h : Counts f (w.st r.st) g) :
    ∃ r', (w.onTxn x f out mark).2.txns[x]? = some r' ∧ (r.st.size = r.st.treeSize → r'.st.size = r'.st.treeSize) ∧
      ((∃ e, (w.onTxn x f out mark).1 = .panic e) ∨ ∃ a, (w.onTxn x f out mark).1 = (out a).1 ∧ g a r.st.size r'.st.size) := by
  have hlt := (List.getElem?_eq_some_iff.1 hr).1
  unfold World.onTxn
  simp only [hr]
  match hf : f (w.st r.st) with
  | (.ok a, s) =>
    refine ⟨_, List.getElem?_set_self hlt, ?_, .inr ⟨a, rfl, ?_⟩⟩
    · have := h.same; rw [hf] at this; rw [hm]; exact this
    · have := h.by_ a (by rw [hf]); rw [hf] at this; rw [hm]; exact this
  | (.error e, s) =>
    refine ⟨_, List.getElem?_set_self hlt, ?_, .inl ⟨e, rfl⟩⟩
    have := h.same; rw [hf] at this; rw [hm]; exact this

/-- A call of a tree, in the world. -/
theorem treeOp_counts {t : Nat} {m : M V α} {out : Tree × α → Out V} {tr : Tree} {g : α → UInt64 → UInt64 → Prop} (ht : w.trees[t]? = some tr)
    (hw : WAll P w) (hs : SafeT P m) (h : ∀ s : St V, HOK P s.heap → s.txn.root < s.heap.length → Counts m s g) :
    let p := w.onTree t (fun tr => treeOp tr m) fun a => (out a, [a.1])
    (∃ e, p.1 = .panic e) ∨ ∃ a nt, p.1 = out (nt, a) ∧ p.2.trees = w.trees ++ [nt] ∧ g a tr.size nt.size := by
  obtain ⟨⟨h1, h2⟩, h3⟩ := cloneNode_safe (s := w.st default) hw.hok (hw.trees tr (List.mem_of_getElem? ht))
  have hrun := treeOp_run tr m (w.st default) fun r s1 hc => by
    rw [hc] at h1 h3
    exact (hs.run { s1 with txn := startTxn tr r } h1 (h3 r rfl)).step.track
  intro p
  simp only [p, World.onTree, ht]
  match hc : cloneNode tr.root true (w.st default) with
  | (.error e, s1) => rw [hc] at hrun; simp only at hrun; rw [hrun]; exact .inl ⟨e, rfl⟩
  | (.ok r, s1) =>
    rw [hc] at hrun h1 h3
    simp only at hrun
    have hk := h { s1 with txn := startTxn tr r } h1 (h3 r rfl)
    match hm : m { s1 with txn := startTxn tr r } with
    | (.error e, s2) => rw [hm] at hrun; simp only at hrun; rw [hrun]; exact .inl ⟨e, rfl⟩
    | (.ok a, s2) =>
      rw [hm] at hrun; simp only at hrun; rw [hrun]
      refine .inr ⟨a, _, rfl, rfl, ?_⟩
      have := hk.by_ a (by rw [hm]); rw [hm] at this; exact this

theorem Counts.read {m : M V α} (h : (m s).2.txn = s.txn) : Counts m s fun _ n n' => n' = n :=
  ⟨fun he => by rw [h]; exact he, fun a ha => by rw [h]⟩

theorem notify_sizes (s : St V) : ((txnNotify : M V Unit) s).2.txn.size = s.txn.size ∧ ((txnNotify : M V Unit) s).2.txn.treeSize = s.txn.treeSize := by
  rw [notify_run]; simp only; split <;> exact ⟨rfl, rfl⟩

/-- In all histories the two lengths are equal. -/
def Evens (w : World V) : Prop := ∀ r ∈ w.txns, r.st.size = r.st.treeSize

theorem Evens.onTree {t : Nat} {f : Tree → M V α} {out : α → Out V × List Tree} (he : Evens w) : Evens (w.onTree t f out).2 := by
  unfold World.onTree
  cases w.trees[t]? with
  | none => exact he
  | some tr =>
    simp only
    match f tr (w.st default) with
    | (.ok a, s) => exact he
    | (.error e, s) => exact he

theorem Evens.onTxn {x : Nat} {f : M V α} {out : α → Out V × List Tree} {mark : TxnRec → TxnRec} (hm : ∀ r, (mark r).st = r.st) (he : Evens w)
    (h : ∀ r, w.txns[x]? = some r → (w.st r.st).txn.size = (w.st r.st).txn.treeSize → (f (w.st r.st)).2.txn.size = (f (w.st r.st)).2.txn.treeSize) :
    Evens (w.onTxn x f out mark).2 := by
  unfold World.onTxn
  cases hr : w.txns[x]? with
  | none => exact he
  | some r =>
    have := h r hr (he r (List.mem_of_getElem? hr))
    simp only
    match hf : f (w.st r.st) with
    | (.ok a, s) =>
      intro r' hr'
      rcases List.mem_or_eq_of_mem_set hr' with h' | h'
      · exact he r' h'
      · rw [h', hm]; rw [hf] at this; exact this
    | (.error e, s) =>
      intro r' hr'
      rcases List.mem_or_eq_of_mem_set hr' with h' | h'
      · exact he r' h'
      · rw [h', hm]; rw [hf] at this; exact this

theorem Evens.addTxn {p : R TxnSt × St V} (he : Evens w) (h : ∀ t, p.1 = .ok t → t.size = t.treeSize) : Evens (w.addTxn p).2 := by
  unfold World.addTxn
  match p with
  | (.ok t, s) =>
    intro r hr
    rcases List.mem_append.1 hr with h' | h'
    · exact he r h'
    · rw [List.mem_singleton.1 h']; exact h t rfl
  | (.error e, s) => exact he

theorem exec_evens [Inhabited V] (hw : WAll (fun _ _ => True) w) (he : Evens w) (op : Op V) : Evens (exec w op).2 := by
  have hr : ∀ {x : Nat} {r : TxnRec}, w.txns[x]? = some r → (allCx (fun _ _ => True) (w.st r.st)).Good (w.st r.st) (w.st r.st).txn.root :=
    fun h => good_all (hw.txns _ (List.mem_of_getElem? h))
  have hj : ∀ {r : TxnRec}, J (allCx (fun _ _ => True) (w.st r.st)) (w.st r.st) := fun {r} => HOK.toJ (s := w.st r.st) hw.hok
  cases op with
  | newTree => simp only [exec, newRadixTree_run]; exact he
  | cloneTree t => exact he.onTree
  | insert t k v => exact he.onTree
  | delete t k => exact he.onTree
  | deletePrefix t k => exact he.onTree
  | get t k => exact he.onTree
  | getWatch t k => exact he.onTree
  | seekPrefixWatch t k => exact he.onTree
  | len t => exact he.onTree
  | begin t =>
    simp only [exec]
    cases w.trees[t]? with
    | none => exact he
    | some tr =>
      refine he.addTxn fun t h => ?_
      rw [beginTxn_run] at h
      split at h <;> cases h
      rfl
  | txnClone x =>
    simp only [exec]
    cases ht : w.txns[x]? with
    | none => exact he
    | some r =>
      have : Evens { w with txns := w.txns.set x r.cloned } := fun r' hr' => by
        rcases List.mem_or_eq_of_mem_set hr' with h' | h'
        · exact he r' h'
        · rw [h']; exact he r (List.mem_of_getElem? ht)
      refine this.addTxn fun t h => ?_
      simp only [Art.txnClone, bind_run, txnSt] at h
      match hc : cloneNode (w.st r.st).txn.root true (w.st r.st) with
      | (.ok a, s1) => rw [hc] at h; cases h; rfl
      | (.error e, s1) => rw [hc] at h; cases h
  | trackMutate x b => exact he.onTxn (fun _ => rfl) fun r h he => he
  | txnInsert x k v => exact he.onTxn (fun _ => rfl) fun r h => (Counts.txnInsert hj (hr h) trivial).same
  | txnDelete x k => exact he.onTxn (fun _ => rfl) fun r h => (Counts.txnDelete hj (hr h) k trivial).same
  | txnDeletePrefix x k => exact he.onTxn (fun _ => rfl) fun r h => (Counts.txnDeletePrefix hj (hr h) k trivial).same
  | txnGet x k =>
    refine he.onTxn (fun _ => rfl) fun r h he => ?_
    simp only [txnGet, bind_run, M.get, lift_run]
    cases search _ _ _ <;> exact he
  | txnGetWatch x k =>
    refine he.onTxn (fun _ => rfl) fun r h he => ?_
    have := (watch_safe (r := (.ok () : R Unit)) (s := w.st r.st) hw.hok (treeGetWatch_cases
      { root := r.st.root, size := r.st.treeSize, maxNodeId := r.st.maxNodeId } k (w.st r.st))).2.2.2.2.1
    have h1 := congrArg TxnSt.size this
    have h2 := congrArg TxnSt.treeSize this
    exact h1.trans (he.trans h2.symm)
  | commit x =>
    refine he.onTxn (fun _ => rfl) fun r h he => ?_
    rw [commit_run]
    simp only [notify_sizes]; exact he
  | commitOnly x => exact he.onTxn (fun _ => rfl) fun r h he => he
  | notify x =>
    refine he.onTxn (fun _ => rfl) fun r h he => ?_
    simp only [notify_sizes]; exact he

theorem execAll_evens [Inhabited V] (hw : WAll (fun _ _ => True) w) (he : Evens w) (ops : List (Op V)) : Evens (execAll w ops).2 := by
  induction ops generalizing w with
  | nil => exact he
  | cons op ops ih => exact ih (exec_all hw op trivial fun _ _ _ => trivial).all (exec_evens hw he op)

theorem worldAfter_all [Inhabited V] (ops : List (Op V)) : WAll (fun _ _ => True) (execAll World.init ops).2 :=
  execAll_all .init ops trivial fun _ _ _ _ _ => trivial

theorem worldAfter_evens [Inhabited V] (ops : List (Op V)) : Evens (execAll World.init ops).2 :=
  execAll_evens .init (fun r hr => by simp [World.init] at hr) ops
end Art
