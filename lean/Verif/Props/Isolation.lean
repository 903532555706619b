import Verif.Props.Negations
import Verif.Proofs.Twin
/-
Isolation: what may change what.  The histories are all lawful ones: any number of trees and transactions, any
interleaving of their calls, any keys, panics included; the only restriction is that a transaction is not
written to after it was committed, or after it was copied with `Txn.Clone` when it had already made nodes (those cases
are C07 and C09).
-/
set_option autoImplicit false
set_option linter.unusedVariables false
set_option linter.unusedSimpArgs false
namespace Art
variable {V : Type} [Inhabited V]

/-- C06: a tree that exists at some point answers every read in the same way for ever. -/
theorem C06 (ops more : List (Op V)) (hl : Lawful World.init (ops ++ more)) (i : Nat) (t : Tree)
    (ht : treeAfter ops i = some t) :
    treeAfter (ops ++ more) i = some t ∧
    SameReads (heapAfter ops) t (heapAfter (ops ++ more)) t ∧ SameSeeks (heapAfter ops) t (heapAfter (ops ++ more)) t := by
  have hv : (execAll World.init ops).2.view (.inl i) = some (t.root, t.maxNodeId) := by
    show ((execAll World.init ops).2.trees[i]?).map _ = _
    rw [show (execAll World.init ops).2.trees[i]? = some t from ht]; rfl
  obtain ⟨-, S, hr, hs, hlen⟩ := same_after hl hv (by intro op _ x _ h; cases h)
  refine ⟨?_, hs.reads hlen hr, hs.seeks hlen hr⟩
  unfold treeAfter
  rw [execAll_append]
  exact execAll_trees _ _ ht

/-- The calls of the example: a tree with three keys, two interleaved transactions on it, one of which
is abandoned after a delete; a delete that destroys a subtree; inserts that panic. -/
def busy : List (Op Nat) :=
  [.newTree, .insert 0 kFoo 1, .insert 1 kFoobar 2, .insert 2 kA 3]
def busyMore : List (Op Nat) :=
  [.begin 3, .begin 3, .txnInsert 0 kFoo 9, .txnDelete 1 kA, .txnInsert 1 kAB 5, .txnDeletePrefix 0 kFoo, .commit 0,
   .delete 3 kB, .insert 3 (ascii ['f', 'o', '$']) 4, .txnGetWatch 1 kA]

example : Lawful World.init (busy ++ busyMore) := by decide +kernel
example : (treeAfter busy 3).any (fun t =>
    treeGet (heapAfter busy) t kFoobar = .ok (some 2) ∧ treeGet (heapAfter (busy ++ busyMore)) t kFoobar = .ok (some 2)) =
    true := by decide +kernel

/-- C07 for histories in which committed transactions are not written to any more: whatever is done after the
commit, the tree stays as it is.  (Writes through the committed transaction itself are what breaks it, see
`C07_false`.) -/
theorem C07_partial (ops more : List (Op V)) (hl : Lawful World.init (ops ++ more)) (i : Nat) (t : Tree) (k : Key)
    (ht : treeAfter ops i = some t) : treeGet (heapAfter (ops ++ more)) t k = treeGet (heapAfter ops) t k :=
  (C06 ops more hl i t ht).2.1.get k

example : treeGet (heapAfter ((busy ++ [.begin 3, .txnInsert 0 kB 7, .commit 0]) ++ [.insert 4 kB 8, .begin 4, .txnDelete 1 kB, .commit 1]))
      (treeOf (busy ++ [.begin 3, .txnInsert 0 kB 7, .commit 0]) 4) kB = .ok (some 7) :=
  (C07_partial _ _ (by decide +kernel) 4 _ kB (by decide +kernel)).trans (by decide +kernel)

/-! ### Iterators that are running while calls are made -/

/-- A program that alternates calls of `Next` (`none`) and API calls (`some`): the results of the `Next`s. -/
def drive {σ : Type} (next : Heap V → σ → R (Option (Key × V) × σ)) :
    World V → σ → List (Option (Op V)) → List (R (Option (Key × V)))
  | _, _, [] => []
  | w, it, some op :: script => drive next (exec w op).2 it script
  | w, it, none :: script =>
    match next w.heap it with
    | .ok (r, it') => .ok r :: drive next w it' script
    | .error e => .error e :: drive next w it script

/-- The same without the API calls. -/
def driveAlone {σ : Type} (next : Heap V → σ → R (Option (Key × V) × σ)) (h : Heap V) :
    σ → List (Option (Op V)) → List (R (Option (Key × V)))
  | _, [] => []
  | it, some _ :: script => driveAlone next h it script
  | it, none :: script =>
    match next h it with
    | .ok (r, it') => .ok r :: driveAlone next h it' script
    | .error e => .error e :: driveAlone next h it script

theorem drive_eq {σ : Type} {next : Heap V → σ → R (Option (Key × V) × σ)} {In : (Addr → Prop) → σ → Prop}
    (hcongr : ∀ {h h' : Heap V} {S : Addr → Prop}, Same h h' S → ∀ it, In S it →
      next h' it = next h it ∧ ∀ p, next h it = .ok p → In S p.2)
    {w : World V} {S : ViewId → Addr → Prop} {O : Nat → Addr → Prop} (hi : INV w.heap w.view w.live S O)
    {v : ViewId} {p : Addr × Nat} (hv : w.view v = some p) {h0 : Heap V} (hs : Same h0 w.heap (S v)) (script : List (Option (Op V)))
    (hl : Lawful w (script.filterMap _root_.id)) (hw : ∀ op ∈ script.filterMap _root_.id, ∀ x, op.writes = some x → v ≠ .inr x)
    (it : σ) (hin : In (S v) it) : drive next w it script = driveAlone next h0 it script := by
  induction script generalizing w S O it with
  | nil => rfl
  | cons a script ih =>
    cases a with
    | some op =>
      obtain ⟨S1, O1, h1, h2, h3⟩ := exec_iso hi op hl.1
      obtain ⟨a1, a2, a3⟩ := h3 v p hv (hw op (by simp))
      refine ih h1 a1 ?_ hl.2 (fun o ho => hw o (by simp at ho ⊢; exact .inr ho)) it (by rw [a2]; exact hin)
      rw [a2]
      exact ⟨hs.closed, hs.agree.trans a3⟩
    | none =>
      obtain ⟨h1, h2⟩ := hcongr hs it hin
      show (match next w.heap it with | .ok (r, it') => _ | .error e => _) = (match next h0 it with | .ok (r, it') => _ | .error e => _)
      rw [h1]
      cases hn : next h0 it with
      | error e => simp only; rw [ih hi hv hs hl hw it hin]
      | ok q => simp only; rw [ih hi hv hs hl hw q.2 (h2 q hn)]

/-- C06 for iterators that are open while other calls are made: an iterator of tree `t`, positioned with
`SeekPrefix`, returns the same from then on as if no call had been made in between.  Likewise path iterators,
lower bound iterators and reverse iterators. -/
theorem C06_iterators (ops : List (Op V)) (script : List (Option (Op V)))
    (hl : Lawful World.init (ops ++ script.filterMap _root_.id)) (i : Nat) (t : Tree) (ht : treeAfter ops i = some t) (fuel : Nat) :
    (∀ p it a, seekPrefix (heapAfter ops) (mkIter t.root) p = .ok (it, a) →
      drive (fun h => iterNext h fuel) (execAll World.init ops).2 it script =
        driveAlone (fun h => iterNext h fuel) (heapAfter ops) it script) ∧
    (∀ q, drive (fun h => pathNext h fuel) (execAll World.init ops).2 (getPathIterator t q) script =
        driveAlone (fun h => pathNext h fuel) (heapAfter ops) (getPathIterator t q) script) ∧
    (∀ k st, seekLowerBound (heapAfter ops) t.root k = .ok st →
      drive (fun h => lbNext h fuel) (execAll World.init ops).2 st script =
        driveAlone (fun h => lbNext h fuel) (heapAfter ops) st script) ∧
    (∀ it, it = mkRevIter t.root ∨ (∃ p, revSeekPrefix (heapAfter ops) (mkRevIter t.root) p = .ok it) ∨
        (∃ k extra, seekReverseLowerBound (heapAfter ops) (mkRevIter t.root) k extra = .ok it) →
      drive (fun h => revPrevious h fuel) (execAll World.init ops).2 it script =
        driveAlone (fun h => revPrevious h fuel) (heapAfter ops) it script) := by
  obtain ⟨h1, h2⟩ := hl.append
  obtain ⟨S, O, hi, -, -⟩ := execAll_iso INV.init h1
  have hv : (execAll World.init ops).2.view (.inl i) = some (t.root, t.maxNodeId) := by
    show ((execAll World.init ops).2.trees[i]?).map _ = _
    rw [show (execAll World.init ops).2.trees[i]? = some t from ht]; rfl
  have hr := (hi.region _ _ hv).root
  have hs : Same (heapAfter ops) (heapAfter ops) (S (.inl i)) := ⟨(hi.region _ _ hv).closed, .refl _ _⟩
  have hw : ∀ op ∈ script.filterMap _root_.id, ∀ x, op.writes = some x → (.inl i : ViewId) ≠ .inr x := by intro op _ x _ h; cases h
  refine ⟨fun p it a hit => ?_, fun q => ?_, fun k st hst => ?_, fun it hit => ?_⟩
  · exact drive_eq (fun hs it hin => iterNext_congr hs fuel it hin) hi hv hs script h2 hw it
      ((seekPrefix_congr hs (Nat.le_refl _) _ (mkIter_in hr) p).2 _ hit).1
  · exact drive_eq (In := fun S (it : PathIter) => ∀ a ∈ it.stack, S a) (fun hs it hin => pathNext_congr hs fuel it hin)
      hi hv hs script h2 hw _ fun a ha => by rw [List.mem_singleton.1 ha]; exact hr
  · exact drive_eq (fun hs it hin => lbNext_congr hs fuel it hin) hi hv hs script h2 hw st
      ((seekLowerBound_congr hs (Nat.le_refl _) hr k).2 _ hst)
  · refine drive_eq (next := fun h => revPrevious h fuel) (In := RevIter.In) (fun hs it hin => revPrevious_congr hs fuel hin) hi hv hs script h2 hw it ?_
    rcases hit with rfl | ⟨p, hit⟩ | ⟨k, extra, hit⟩
    · exact mkRevIter_in hr
    · exact (revSeekPrefix_congr hs (Nat.le_refl _) (mkRevIter_in hr) p).2 _ hit
    · exact (seekReverseLowerBound_congr hs (Nat.le_refl _) (mkRevIter_in hr) k extra).2 _ hit

/-- An iterator over {a, foo, foobar} between whose steps the keys are deleted and updated. -/
example :
    (treeAfter busy 3).any (fun t => (seekPrefix (heapAfter busy) (mkIter t.root) []).toOption.any fun q =>
      drive (fun h => iterNext h 20) (execAll World.init busy).2 q.1
        [none, some (.delete 3 kFoo), none, some (.begin 3), some (.txnDelete 0 kFoobar), none, none] =
        [.ok (some (kA, 3)), .ok (some (kFoo, 1)), .ok (some (kFoobar, 2)), .ok none]) = true := by decide +kernel

/-! ### Transactions -/

/-- The private tree of a transaction. -/
def TxnSt.tree (ts : TxnSt) : Tree := { root := ts.root, size := ts.size, maxNodeId := ts.maxNodeId }

/-- C08: as long as transaction `x` itself does not write, no call of anyone else changes what is read through
it: its size, `Txn.Get`, and all reads of the tree it would commit. -/
theorem C08 (ops more : List (Op V)) (hl : Lawful World.init (ops ++ more)) (x : Nat) (r : TxnRec)
    (hx : (execAll World.init ops).2.txns[x]? = some r) (hw : ∀ op ∈ more, op.writes ≠ some x) :
    (∀ k, (exec (execAll World.init (ops ++ more)).2 (.txnGet x k)).1 = (exec (execAll World.init ops).2 (.txnGet x k)).1) ∧
    ∃ r', (execAll World.init (ops ++ more)).2.txns[x]? = some r' ∧ r'.st.size = r.st.size ∧
      SameReads (heapAfter ops) r.st.tree (heapAfter (ops ++ more)) r'.st.tree ∧
      SameSeeks (heapAfter ops) r.st.tree (heapAfter (ops ++ more)) r'.st.tree := by
  obtain ⟨hv, S, hr, hs, hlen⟩ := same_after hl (view_txn hx) fun op ho y hy he => by
    cases he; exact hw op ho hy
  have hsize : ∀ (ops : List (Op V)) (w : World V) (r : TxnRec), w.txns[x]? = some r → (∀ op ∈ ops, op.writes ≠ some x) →
      ∃ r', (execAll w ops).2.txns[x]? = some r' ∧ r'.st.size = r.st.size := by
    intro ops
    induction ops with
    | nil => exact fun w r hr _ => ⟨r, hr, rfl⟩
    | cons op ops ih =>
      intro w r hr hw
      obtain ⟨r1, h1, h2⟩ := exec_size w op hr (hw op (by simp))
      obtain ⟨r2, h3, h4⟩ := ih _ r1 h1 fun o ho => hw o (by simp [ho])
      exact ⟨r2, h3, h4.trans h2⟩
  obtain ⟨r', hx', hsz⟩ := hsize more _ r hx hw
  rw [← execAll_append] at hx'
  rw [view_txn hx'] at hv
  have hroot : r'.st.root = r.st.root := congrArg Prod.fst (Option.some.inj hv)
  have htree : r'.st.tree = r.st.tree := by
    unfold TxnSt.tree
    rw [hsz, hroot, show r'.st.maxNodeId = r.st.maxNodeId from congrArg Prod.snd (Option.some.inj hv)]
  refine ⟨fun k => ?_, r', hx', hsz, ?_⟩
  · simp only [exec, World.onTxn, hx, hx', txnGet, bind_run, M.get, lift_run]
    have hs1 : search ((execAll World.init (ops ++ more)).2.st r'.st).heap r'.st.root k =
        search ((execAll World.init ops).2.st r.st).heap r.st.root k := by
      rw [hroot]; exact (search_congr hs hr k)
    rw [show ((execAll World.init (ops ++ more)).2.st r'.st).txn.root = r'.st.root from rfl, hs1,
      show ((execAll World.init ops).2.st r.st).txn.root = r.st.root from rfl]
    cases search ((execAll World.init ops).2.st r.st).heap r.st.root k with
    | error e => rfl
    | ok hit => rfl
  · rw [htree]
    exact ⟨hs.reads hlen hr, hs.seeks hlen hr⟩

/-- Two transactions on the same tree that write the same keys. -/
example :
    let ops := busy ++ [.begin 3, .begin 3, .txnInsert 0 kA 7]
    let more : List (Op Nat) := [.txnDelete 1 kA, .txnInsert 1 kFoo 8, .insert 3 kA 9, .commit 1]
    Lawful World.init (ops ++ more) ∧ (∀ op ∈ more, op.writes ≠ some 0) ∧
    (exec (execAll World.init (ops ++ more)).2 (.txnGet 0 kA)).1 = .value (some 7) ∧
    (exec (execAll World.init (ops ++ more)).2 (.txnGet 1 kA)).1 = .value none := by decide +kernel

/-- The call belongs to transaction `x` (and does not end it). -/
def Op.inTxn (x : Nat) : Op V → Prop
  | .trackMutate y _ | .txnInsert y _ _ | .txnDelete y _ | .txnDeletePrefix y _ | .txnGet y _ | .txnGetWatch y _
  | .txnClone y => y = x
  | _ => False

instance (x : Nat) (op : Op V) : Decidable (op.inTxn x) := by
  cases op <;> unfold Op.inTxn <;> infer_instance

/-- C11: the calls of a transaction that is not committed make no new tree and change no read of any tree. -/
theorem C11 (ops body : List (Op V)) (x : Nat) (hl : Lawful World.init (ops ++ body)) (hb : ∀ op ∈ body, op.inTxn x) :
    (execAll World.init (ops ++ body)).2.trees = (execAll World.init ops).2.trees ∧
    ∀ i t, treeAfter ops i = some t →
      SameReads (heapAfter ops) t (heapAfter (ops ++ body)) t ∧ SameSeeks (heapAfter ops) t (heapAfter (ops ++ body)) t := by
  refine ⟨?_, fun i t ht => (C06 ops body hl i t ht).2⟩
  rw [execAll_append]
  have key : ∀ (body : List (Op V)) (w : World V), (∀ op ∈ body, op.inTxn x) → (execAll w body).2.trees = w.trees := by
    intro body
    induction body with
    | nil => exact fun w _ => rfl
    | cons op body ih =>
      intro w hb
      refine (ih _ fun o ho => hb o (by simp [ho])).trans ?_
      have h2 : ∀ {α : Type} (x : Nat) (f : M V α) (out : α → Out V × List Tree) (mark : TxnRec → TxnRec),
          (∀ a, (out a).2 = []) → (w.onTxn x f out mark).2.trees = w.trees := by
        intro α x f out mark ho
        unfold World.onTxn
        cases w.txns[x]? with
        | none => rfl
        | some r =>
          simp only
          match f (w.st r.st) with
          | (.ok a, s) => simp [ho]
          | (.error e, s) => rfl
      have hop := hb op (by simp)
      cases op with
      | txnClone y =>
        simp only [exec]
        cases w.txns[y]? with
        | none => rfl
        | some r =>
          simp only [World.addTxn]
          split <;> rfl
      | trackMutate y b => exact h2 _ _ _ _ fun _ => rfl
      | txnInsert y k v => exact h2 _ _ _ _ fun _ => rfl
      | txnDelete y k => exact h2 _ _ _ _ fun _ => rfl
      | txnDeletePrefix y k => exact h2 _ _ _ _ fun _ => rfl
      | txnGet y k => exact h2 _ _ _ _ fun _ => rfl
      | txnGetWatch y k => exact h2 _ _ _ _ fun _ => rfl
      | _ => exact hop.elim
  exact key body _ hb

example :
    let ops := busy ++ [.begin 3]
    let body : List (Op Nat) := [.trackMutate 0 true, .txnInsert 0 kA 7, .txnDelete 0 kFoo, .txnInsert 0 kFoo 6, .txnDeletePrefix 0 kFoo]
    Lawful World.init (ops ++ body) ∧ (∀ op ∈ body, op.inTxn 0) ∧
    (exec (execAll World.init (ops ++ body)).2 (.get 3 kA)).1 = .value (some 3) ∧
    (exec (execAll World.init (ops ++ body)).2 (.txnGet 0 kA)).1 = .value (some 7) := by
  decide +kernel

end Art
