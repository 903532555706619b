import Verif.Proofs.Counts
import Verif.Props.Extra
/-
C54: a transaction notifies only if it was asked to itself.  C55: the length follows the results of the writes.
-/
set_option autoImplicit false
set_option linter.unusedSectionVars false
namespace Art
variable {V : Type} [Inhabited V]

/-! ### C54 -/

/-- C54: in any history, a transaction whose last call of `TrackMutate` did not ask for notifications, or on which it was
never called, closes no channel, be it the copy of a transaction that notifies. -/
theorem C54 (ops : List (Op V)) (x : Nat) (h : (ops.filterMap (Op.asks x)).getLast? ≠ some true) (op : Op V)
    (hop : op = .commit x ∨ op = .commitOnly x ∨ op = .notify x) :
    (exec (execAll World.init ops).2 op).2.chans = (execAll World.init ops).2.chans :=
  unflagged_chans (fun r hr => by
    cases ht : r.st.trackMutate with
    | false => rfl
    | true => exact absurd (flag_last ops x r hr ht) h) op hop

/-- Transaction 0 notifies; transaction 1 is its copy. -/
def copyOps : List (Op Nat) := [.newTree, .insert 0 kA 1, .getWatch 1 kA, .begin 1, .trackMutate 0 true, .txnInsert 0 kA 2, .txnClone 0, .txnInsert 1 kA 3]

/-- The original closes channels, the copy does not. -/
example : (exec (execAll World.init copyOps).2 (.commit 1)).2.chans = (execAll World.init copyOps).2.chans ∧
    (exec (execAll World.init copyOps).2 (.commit 0)).2.chans ≠ (execAll World.init copyOps).2.chans :=
  ⟨C54 copyOps 1 (by decide) _ (.inl rfl), by decide +kernel⟩

/-! ### C55 -/

/-- The length before and after a write, given its result: an insertion that did not replace a value adds one, a deletion
that found its key takes one away, `DeletePrefix` that removed nothing leaves it. -/
def Op.tally {V : Type} : Op V → Out V → UInt64 → UInt64 → Prop
  | .insert .., .updated _ did, n, n' | .txnInsert .., .updated _ did, n, n' => n' = if did then n else n + 1
  | .delete .., .updated _ did, n, n' | .txnDelete .., .updated _ did, n, n' => n' = if did then n - 1 else n
  | .deletePrefix .., .flag did, n, n' | .txnDeletePrefix .., .flag did, n, n' => did = false → n' = n
  | _, _, _, _ => False

/-- A write to tree `t`. -/
def Op.writesTree {V : Type} (t : Nat) : Op V → Prop
  | .insert t' .. | .delete t' .. | .deletePrefix t' .. => t' = t
  | _ => False

/-- A write to transaction `x`. -/
def Op.writesTxn {V : Type} (x : Nat) : Op V → Prop
  | .txnInsert x' .. | .txnDelete x' .. | .txnDeletePrefix x' .. => x' = x
  | _ => False

/-- C55: in any history, a write that returns changes the length by what it reports, on trees and in transactions; a
commit publishes the length that the transaction showed (`GetTree`). -/
theorem C55 (ops : List (Op V)) :
    let w := (execAll World.init ops).2
    (∀ t op tr, op.writesTree t → w.trees[t]? = some tr → (∃ e, (exec w op).1 = .panic e) ∨
      ∃ nt, (exec w op).2.trees = w.trees ++ [nt] ∧ op.tally (exec w op).1 tr.size nt.size) ∧
    (∀ x op r, op.writesTxn x → w.txns[x]? = some r → ∃ r', (exec w op).2.txns[x]? = some r' ∧
      ((∃ e, (exec w op).1 = .panic e) ∨ op.tally (exec w op).1 r.st.getTree.size r'.st.getTree.size)) ∧
    ∀ x op r, op = .commit x ∨ op = .commitOnly x → w.txns[x]? = some r →
      (exec (exec w op).2 (.len w.trees.length)).1 = .number (treeLen r.st.getTree) := by
  intro w
  have hw : WAll (fun _ _ => True) w := worldAfter_all ops
  have he : Evens w := worldAfter_evens ops
  refine ⟨fun t op tr ho ht => ?_, fun x op r ho hr => ?_, fun x op r ho hr => ?_⟩
  · cases op <;> try exact ho.elim
    all_goals cases (show _ = t from ho)
    · exact (treeOp_counts ht hw (SafeT.insert trivial) fun s h hr => Counts.txnInsert h.toJ (good_all hr) trivial).imp_right
        fun ⟨a, nt, h1, h2, h3⟩ => ⟨nt, h2, by erw [h1]; exact h3⟩
    · exact (treeOp_counts ht hw (SafeT.delete _ trivial) fun s h hr => Counts.txnDelete h.toJ (good_all hr) _ trivial).imp_right
        fun ⟨a, nt, h1, h2, h3⟩ => ⟨nt, h2, by erw [h1]; exact h3⟩
    · exact (treeOp_counts ht hw (SafeT.deletePrefix _ trivial) fun s h hr => Counts.txnDeletePrefix h.toJ (good_all hr) _ trivial).imp_right
        fun ⟨a, nt, h1, h2, h3⟩ => ⟨nt, h2, by erw [h1]; exact h3⟩
  · have hg : (allCx (fun _ _ => True) (w.st r.st)).Good (w.st r.st) (w.st r.st).txn.root := good_all (hw.txns _ (List.mem_of_getElem? hr))
    have hj : J (allCx (fun _ _ => True) (w.st r.st)) (w.st r.st) := HOK.toJ (s := w.st r.st) hw.hok
    have h0 := he r (List.mem_of_getElem? hr)
    cases op <;> try exact ho.elim
    all_goals cases (show _ = x from ho)
    · obtain ⟨r', h1, h2, h3⟩ := onTxn_counts (out := fun (p : V × Bool) => ((.updated p.1 p.2 : Out V), [])) (fun _ => rfl) hr (Counts.txnInsert hj hg trivial)
      refine ⟨r', h1, h3.imp_right fun ⟨a, h4, h5⟩ => ?_⟩
      erw [h4]; rw [h0, h2 h0] at h5; exact h5
    · obtain ⟨r', h1, h2, h3⟩ := onTxn_counts (out := fun (p : V × Bool) => ((.updated p.1 p.2 : Out V), [])) (fun _ => rfl) hr (Counts.txnDelete hj hg _ trivial)
      refine ⟨r', h1, h3.imp_right fun ⟨a, h4, h5⟩ => ?_⟩
      erw [h4]; rw [h0, h2 h0] at h5; exact h5
    · obtain ⟨r', h1, h2, h3⟩ := onTxn_counts (out := fun (p : Bool) => ((.flag p : Out V), [])) (fun _ => rfl) hr (Counts.txnDeletePrefix hj hg _ trivial)
      refine ⟨r', h1, h3.imp_right fun ⟨a, h4, h5⟩ => ?_⟩
      erw [h4]; rw [h0, h2 h0] at h5; exact h5
  · have h0 := he r (List.mem_of_getElem? hr)
    rcases ho with rfl | rfl
    · simp only [exec, World.onTxn, hr, commit_run, notify_run, World.put, World.st, World.onTree, pure_run]
      rw [List.getElem?_append_right (Nat.le_refl _), Nat.sub_self]
      simp only [List.getElem?_cons_zero, treeLen, TxnSt.getTree, h0, List.append_nil]
    · simp only [exec, World.onTxn, hr, txnCommitOnly, bind_run, txnSt, World.put, World.st, World.onTree, pure_run]
      rw [List.getElem?_append_right (Nat.le_refl _), Nat.sub_self]
      simp only [List.getElem?_cons_zero, treeLen, TxnSt.getTree, h0, List.append_nil]
/-- `{a, ab, b}`: `a` is the key of an inner node. -/
def tallyOps : List (Op Nat) := [.newTree, .insert 0 kA 1, .insert 1 kAB 2, .insert 2 kB 3, .begin 3]

/-- The result of a call after `tallyOps`, and the lengths of all trees then. -/
def tallyRun (op : Op Nat) : Out Nat × List UInt64 :=
  let p := exec (execAll World.init tallyOps).2 op
  (p.1, p.2.trees.map (·.size))

/-- A new key and a repeated insertion of `a` (which is reported as new, see `C02_false`) add one, a deletion takes one
away, and one that finds nothing does not. -/
example : tallyRun (.insert 3 kC 4) = (.updated 0 false, [0, 1, 2, 3, 4]) := by decide +kernel
example : tallyRun (.insert 3 kA 4) = (.updated 0 false, [0, 1, 2, 3, 4]) := by decide +kernel
example : tallyRun (.delete 3 kB) = (.updated 3 true, [0, 1, 2, 3, 2]) := by decide +kernel
example : tallyRun (.delete 3 kC) = (.updated 0 false, [0, 1, 2, 3, 3]) := by decide +kernel
end Art
