import Verif.Proofs.WorldAll
/-
The tracking flag of a transaction is set by its own `TrackMutate` only.
-/
set_option autoImplicit false
set_option linter.unusedVariables false
set_option linter.unusedSimpArgs false
set_option linter.unusedSectionVars false
namespace Art
variable {V : Type} {α : Type} {P : Key → V → Prop} {w : World V}

/-- What a call of `TrackMutate` on transaction `x` asks for. -/
def Op.asks (x : Nat) : Op V → Option Bool
  | .trackMutate y b => if y = x then some b else none
  | _ => none

/-- What a call does to the flags: a transaction that did not exist starts with tracking off. -/
def FlagsTo (w w' : World V) (op : Op V) : Prop := ∀ (x : Nat) (r' : TxnRec), w'.txns[x]? = some r' →
  match op.asks x with
  | some b => r'.st.trackMutate = b
  | none => r'.st.trackMutate = false ∨ ∃ r, w.txns[x]? = some r ∧ r'.st.trackMutate = r.st.trackMutate

theorem FlagsTo.same {w w' : World V} {op : Op V} (h : w'.txns = w.txns) (ho : ∀ x, op.asks x = none) : FlagsTo w w' op :=
  fun x r' hr => by rw [ho x]; exact .inr ⟨r', by rw [← h]; exact hr, rfl⟩

theorem FlagsTo.onTree {t : Nat} {f : Tree → M V α} {out : α → Out V × List Tree} {op : Op V}
    (ho : ∀ x, op.asks x = none) : FlagsTo w (w.onTree t f out).2 op := by
  refine .same ?_ ho
  unfold World.onTree
  cases w.trees[t]? with
  | none => rfl
  | some tr =>
    simp only
    match f tr (w.st default) with
    | (.ok a, s) => rfl
    | (.error e, s) => rfl

theorem FlagsTo.onTxn {x : Nat} {f : M V α} {out : α → Out V × List Tree} {mark : TxnRec → TxnRec} {op : Op V}
    (hm : ∀ r, (mark r).st = r.st)
    (hf : ∀ r, w.txns[x]? = some r → (f (w.st r.st)).2.txn.trackMutate = (op.asks x).getD r.st.trackMutate)
    (ho : ∀ y, y ≠ x → op.asks y = none) : FlagsTo w (w.onTxn x f out mark).2 op := by
  have other : ∀ (y : Nat) (r' : TxnRec), w.txns[y]? = some r' → y ≠ x →
      match op.asks y with
      | some b => r'.st.trackMutate = b
      | none => r'.st.trackMutate = false ∨ ∃ r, w.txns[y]? = some r ∧ r'.st.trackMutate = r.st.trackMutate := by
    intro y r' hr' hy
    rw [ho y hy]; exact .inr ⟨r', hr', rfl⟩
  unfold World.onTxn
  cases ht : w.txns[x]? with
  | none =>
    intro y r' hr'
    exact other y r' hr' fun h => by subst h; rw [show w.txns[y]? = some r' from hr'] at ht; cases ht
  | some r =>
    simp only
    have key : ∀ (w' : World V) (s : St V), s = (f (w.st r.st)).2 → w'.txns = w.txns.set x (mark { r with st := s.txn }) → FlagsTo w w' op := by
      intro w' s hs hw y r' hr'
      by_cases h : y = x
      · subst h
        rw [hw, List.getElem?_set] at hr'
        simp only [if_true, (List.getElem?_eq_some_iff.1 ht).1] at hr'
        cases hr'
        rw [hm, hs, hf r ht]
        cases op.asks y with
        | some b => rfl
        | none => exact .inr ⟨r, ht, rfl⟩
      · rw [hw, List.getElem?_set] at hr'
        rw [if_neg fun e => h e.symm] at hr'
        exact other y r' hr' h
    match hr : f (w.st r.st) with
    | (.ok a, s) => exact key _ s (by rw [hr]) rfl
    | (.error e, s) => exact key _ s (by rw [hr]) rfl

theorem FlagsTo.addTxn {p : R TxnSt × St V} {op : Op V} {ts : List TxnRec} (ho : ∀ x, op.asks x = none)
    (hts : ∀ (x : Nat) r', ts[x]? = some r' → ∃ r, w.txns[x]? = some r ∧ r'.st = r.st)
    (h : ∀ t, p.1 = .ok t → t.trackMutate = false) : FlagsTo w (({ w with txns := ts }).addTxn p).2 op := by
  intro x r' hr'
  rw [ho x]
  unfold World.addTxn at hr'
  match p with
  | (.ok t, s) =>
    have hr'' : (ts ++ [({ st := t, ended := false, copied := false } : TxnRec)])[x]? = some r' := hr'
    rw [List.getElem?_append] at hr''
    split at hr''
    · obtain ⟨r, h1, h2⟩ := hts x r' hr''
      exact .inr ⟨r, h1, by rw [h2]⟩
    · have := List.mem_of_getElem? hr''
      rw [List.mem_singleton.1 this]
      exact .inl (h t rfl)
  | (.error e, s) =>
    obtain ⟨r, h1, h2⟩ := hts x r' hr'
    exact .inr ⟨r, h1, by rw [h2]⟩

theorem beginTxn_flag (tr : Tree) (s : St V) : ∀ t, (beginTxn tr s).1 = .ok t → t.trackMutate = false := by
  intro t h
  simp only [beginTxn, bind_run] at h
  match hr : cloneNode tr.root true s with
  | (.ok r, s1) => rw [hr] at h; cases h; rfl
  | (.error e, s1) => rw [hr] at h; cases h

theorem txnClone_flag (s : St V) : ∀ t, (txnClone s).1 = .ok t → t.trackMutate = false := by
  intro t h
  simp only [txnClone, bind_run, txnSt] at h
  match hr : cloneNode s.txn.root true s with
  | (.ok r, s1) => rw [hr] at h; cases h; rfl
  | (.error e, s1) => rw [hr] at h; cases h

/-- The flag of a transaction is changed by its own `TrackMutate` only. -/
theorem exec_flags [Inhabited V] (hw : WAll (fun _ _ => True) w) (op : Op V) : FlagsTo w (exec w op).2 op := by
  have hr : ∀ {x : Nat} {r : TxnRec}, w.txns[x]? = some r → r.st.root < w.heap.length := fun h => hw.txns _ (List.mem_of_getElem? h)
  cases op with
  | newTree => exact .same (by simp only [exec, newRadixTree_run]; rfl) fun _ => rfl
  | cloneTree t => exact .onTree fun _ => rfl
  | insert t k v => exact .onTree fun _ => rfl
  | delete t k => exact .onTree fun _ => rfl
  | deletePrefix t k => exact .onTree fun _ => rfl
  | get t k => exact .onTree fun _ => rfl
  | getWatch t k => exact .onTree fun _ => rfl
  | seekPrefixWatch t k => exact .onTree fun _ => rfl
  | len t => exact .onTree fun _ => rfl
  | begin t =>
    simp only [exec]
    cases w.trees[t]? with
    | none => exact .same rfl fun _ => rfl
    | some tr => exact .addTxn (ts := w.txns) (fun _ => rfl) (fun x r h => ⟨r, h, rfl⟩) (beginTxn_flag tr _)
  | txnClone x =>
    simp only [exec]
    cases ht : w.txns[x]? with
    | none => exact .same rfl fun _ => rfl
    | some r =>
      refine .addTxn (fun _ => rfl) (fun y r' h => ?_) (txnClone_flag _)
      rw [List.getElem?_set] at h
      split at h
      · next hy =>
        subst hy
        simp only [(List.getElem?_eq_some_iff.1 ht).1, if_true] at h
        cases h; exact ⟨r, ht, rfl⟩
      · exact ⟨r', h, rfl⟩
  | trackMutate x b => exact .onTxn (fun _ => rfl) (fun r h => by simp only [Op.asks, if_true]; rfl) fun y hy => by simp [Op.asks, Ne.symm hy]
  | txnInsert x k v => exact .onTxn (fun _ => rfl) (fun r h => ((SafeT.insert (P := fun _ _ => True) trivial).run _ hw.hok (hr h)).step.track) fun _ _ => rfl
  | txnDelete x k => exact .onTxn (fun _ => rfl) (fun r h => ((SafeT.delete (P := fun _ _ => True) k trivial).run _ hw.hok (hr h)).step.track) fun _ _ => rfl
  | txnDeletePrefix x k => exact .onTxn (fun _ => rfl) (fun r h => ((SafeT.deletePrefix (P := fun _ _ => True) k trivial).run _ hw.hok (hr h)).step.track) fun _ _ => rfl
  | txnGet x k =>
    refine .onTxn (fun _ => rfl) (fun r h => ?_) fun _ _ => rfl
    simp only [txnGet, bind_run, M.get, lift_run]
    cases search _ _ _ <;> rfl
  | txnGetWatch x k =>
    refine .onTxn (fun _ => rfl) (fun r h => ?_) fun _ _ => rfl
    have := (watch_safe (r := (.ok () : R Unit)) (s := w.st r.st) hw.hok (treeGetWatch_cases
      { root := r.st.root, size := r.st.treeSize, maxNodeId := r.st.maxNodeId } k (w.st r.st))).2.2.2.2.1
    exact congrArg TxnSt.trackMutate this
  | commit x =>
    refine .onTxn (fun _ => rfl) (fun r h => ?_) fun _ _ => rfl
    rw [commit_run, notify_run]
    simp only [Op.asks, Option.getD]
    split <;> rfl
  | commitOnly x => exact .onTxn (fun _ => rfl) (fun r h => rfl) fun _ _ => rfl
  | notify x =>
    refine .onTxn (fun _ => rfl) (fun r h => ?_) fun _ _ => rfl
    rw [notify_run]
    simp only [Op.asks, Option.getD]
    split <;> rfl

/-- The flag of a transaction is what its last `TrackMutate` asked for, or off. -/
theorem flag_last [Inhabited V] (ops : List (Op V)) (x : Nat) (r : TxnRec) (h : (execAll World.init ops).2.txns[x]? = some r)
    (ht : r.st.trackMutate = true) : (ops.filterMap (Op.asks x)).getLast? = some true := by
  suffices H : ∀ (l : List (Op V)) (r : TxnRec), (execAll World.init l.reverse).2.txns[x]? = some r → r.st.trackMutate = true →
      (l.reverse.filterMap (Op.asks x)).getLast? = some true by
    have := H ops.reverse r (by rw [List.reverse_reverse]; exact h) ht
    rwa [List.reverse_reverse] at this
  intro l
  induction l with
  | nil => intro r h; simp [execAll, World.init] at h
  | cons op l ih =>
    intro r h ht
    rw [List.reverse_cons] at h ⊢
    rw [execAll_snoc] at h
    have hw : WAll (fun _ _ => True) (execAll (World.init : World V) l.reverse).2 := execAll_all .init _ trivial fun _ _ _ _ _ => trivial
    have := exec_flags hw op x r h
    rw [List.filterMap_append]
    cases ha : op.asks x with
    | some b =>
      rw [ha] at this
      simp only at this
      rw [ht] at this; subst this
      simp [ha]
    | none =>
      rw [ha] at this
      have he : List.filterMap (Op.asks x) [op] = [] := by simp [ha]
      rw [he, List.append_nil]
      rcases this with h' | ⟨r0, h1, h2⟩
      · rw [ht] at h'; cases h'
      · exact ih r0 h1 (by rw [← h2]; exact ht)

/-- Without tracking, nothing is closed. -/
theorem unflagged_chans [Inhabited V] {x : Nat} (h : ∀ r, w.txns[x]? = some r → r.st.trackMutate = false) (op : Op V)
    (ho : op = .commit x ∨ op = .commitOnly x ∨ op = .notify x) : (exec w op).2.chans = w.chans := by
  have key : ∀ {α} {f : M V α} {out : α → Out V × List Tree} {mark}, (∀ r, w.txns[x]? = some r → (f (w.st r.st)).2.chans = w.chans) →
      (w.onTxn x f out mark).2.chans = w.chans := by
    intro α f out mark hf
    unfold World.onTxn
    cases ht : w.txns[x]? with
    | none => rfl
    | some r =>
      simp only
      have := hf r ht
      match hr : f (w.st r.st) with
      | (.ok a, s) => rw [hr] at this; exact this
      | (.error e, s) => rw [hr] at this; exact this
  rcases ho with rfl | rfl | rfl
  · refine key fun r hr => ?_
    rw [commit_run, notify_run]
    simp only [show (w.st r.st).txn.trackMutate = false from h r hr]
    rfl
  · exact key fun r hr => rfl
  · refine key fun r hr => ?_
    rw [notify_run]
    simp only [show (w.st r.st).txn.trackMutate = false from h r hr]
    rfl
end Art
