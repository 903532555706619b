import Verif.Proofs.PoolWorld
/-
The calls of goroutines return no watch channels on their own.
-/
set_option autoImplicit false
set_option linter.unusedSectionVars false
namespace Art
variable {V : Type} [Inhabited V]

theorem onTree_plain {α : Type} (w : World V) (t : Nat) (f : Tree → M V α) (done : α → Out V × List Tree) (hd : ∀ a, (done a).1.plain = (done a).1.vis) :
    (w.onTree t f done).1.plain = (w.onTree t f done).1.vis := by
  unfold World.onTree
  split
  · rfl
  · split
    · exact hd _
    · rfl

theorem onTxn_plain {α : Type} (w : World V) (t : Nat) (f : M V α) (done : α → Out V × List Tree) (k : TxnRec → TxnRec) (hd : ∀ a, (done a).1.plain = (done a).1.vis) :
    (w.onTxn t f done k).1.plain = (w.onTxn t f done k).1.vis := by
  unfold World.onTxn
  split
  · rfl
  · split
    · exact hd _
    · rfl

theorem call_plain (w : World V) (x : Nat) (c : Call V) : (exec w (c.toOp x)).1.plain = (exec w (c.toOp x)).1.vis := by
  cases c <;> first | exact onTxn_plain _ _ _ _ _ (fun _ => rfl) | exact onTree_plain _ _ _ _ (fun _ => rfl)

theorem calls_plain (w : World V) (x : Nat) (cs : List (Call V)) (op : Op V) (hop : ∀ w, (exec w op).1.plain = (exec w op).1.vis) :
    (execAll w (cs.map (Call.toOp x) ++ [op])).1.map Out.plain = (execAll w (cs.map (Call.toOp x) ++ [op])).1.map Out.vis := by
  induction cs generalizing w with
  | nil => simp [execAll, hop]
  | cons c cs ih => simp [execAll, call_plain, ih]

theorem session_plain (w : World V) (x : Nat) (g : Session V) : (execAll w (g.ops x)).1.map Out.plain = (execAll w (g.ops x)).1.map Out.vis := by
  rw [Session.ops, execAll]
  simp only [List.map_cons]
  congr 1
  · rw [exec]
    split
    · rfl
    · unfold World.addTxn
      split <;> rfl
  · refine calls_plain _ _ _ _ fun w => ?_
    rw [Session.last]
    split <;> exact onTxn_plain _ _ _ _ _ (fun _ => rfl)

end Art
