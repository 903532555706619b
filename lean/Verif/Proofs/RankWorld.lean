import Verif.Proofs.RankRead
import Verif.Proofs.WorldAll
/-
Every call of every history ends, and keeps the heap acyclic.
-/
set_option autoImplicit false
set_option linter.unusedVariables false
set_option linter.unusedSimpArgs false
set_option linter.unusedSectionVars false
namespace Art
variable {V : Type} {α β : Type} {rk : Rank} {s : St V} {w : World V}

theorem Completes.bind {m : M V α} {f : α → M V β} (h : Completes m s) (hf : ∀ a s', m s = (.ok a, s') → Completes (f a) s') :
    Completes (m >>= f) s := by
  unfold Completes at h ⊢
  rw [bind_run]
  match hm : m s with
  | (.ok a, s') => exact hf a s' hm
  | (.error e, s') =>
    rw [hm] at h
    exact ⟨fun he => h.1 (by cases he; rfl), h.2⟩

theorem Completes.read {r : R α} {m : M V α} (hm : m s = (r, s)) (hr : r ≠ .error .fuel) (hj : Ranked rk s.heap) : Completes m s := by
  unfold Completes
  rw [hm]
  exact ⟨hr, rk, hj⟩

theorem commit_completes (hj : Ranked rk s.heap) : Completes (txnCommit : M V Tree) s := by
  unfold Completes
  rw [commit_run, notify_run]
  exact ⟨nofun, rk, hj⟩

theorem notify_completes (hj : Ranked rk s.heap) : Completes (txnNotify : M V Unit) s := by
  unfold Completes
  rw [notify_run]
  exact ⟨nofun, rk, hj⟩

theorem Tk.beginTxn (hj : Ranked rk s.heap) (t : Tree) (ht : t.root < s.heap.length) :
    Tk rk (beginTxn t : M V TxnSt) (fun ts rk' s' => ts.root < s'.heap.length) s := by
  unfold Art.beginTxn
  refine Tk.bind (Tk.cloneNode hj ⟨ht, rfl⟩ true) fun r rk1 s1 hj1 h1 g1 => ?_
  exact Tk.pure hj1 g1.lt

theorem treeOp_completes (hj : Ranked rk s.heap) (t : Tree) (ht : t.root < s.heap.length) {m : M V α}
    (hm : ∀ rk (s : St V), Ranked rk s.heap → s.txn.root < s.heap.length → Completes m s) : Completes (treeOp t m) s := by
  unfold treeOp
  obtain ⟨h0, rk1, h1, h2, h3⟩ := Tk.beginTxn hj t ht
  refine Completes.bind ⟨h0, rk1, h1⟩ fun ts s1 hs => ?_
  rw [hs] at h1 h3
  have : (withTxn ts (do
      let a ← m
      let nt ← txnCommit
      pure (nt, a)) : M V _) s1 = (do
      let a ← m
      let nt ← txnCommit
      pure (nt, a) : M V _) { s1 with txn := ts } := rfl
  unfold Completes
  rw [this]
  have hm1 := hm rk1 { s1 with txn := ts } h1 (h3 ts rfl)
  refine Completes.bind hm1 fun a s2 hs2 => ?_
  unfold Completes at hm1
  rw [hs2] at hm1
  obtain ⟨_, rk2, hj2⟩ := hm1
  have hc := commit_completes (s := s2) hj2
  refine Completes.bind hc fun nt s3 hs3 => ?_
  unfold Completes at hc
  rw [hs3] at hc
  obtain ⟨_, rk3, hj3⟩ := hc
  exact ⟨nofun, rk3, hj3⟩

theorem treeGetWatch_completes (hj : Ranked rk s.heap) (t : Tree) (k : Key) : Completes (treeGetWatch t k : M V _) s := by
  refine Tk.ends (rk := rk) (Q := fun _ _ _ => True) ?_
  unfold treeGetWatch
  refine Tk.bindGet (Tk.bindLift hj (search_nofuel _ _ _) fun hit _ => ?_)
  exact Tk.bind (Tk.getMutateCh hj _) fun _ rk1 s1 hj1 h1 _ => Tk.pure hj1 trivial

theorem seekPrefixWatch_completes (hj : Ranked rk s.heap) (it : Iter) (k : Key) : Completes (seekPrefixWatch it k : M V _) s := by
  refine Tk.ends (rk := rk) (Q := fun _ _ _ => True) ?_
  unfold seekPrefixWatch
  refine Tk.bindGet (Tk.bindLift hj (hj.seekPrefix _ _) fun p _ => ?_)
  obtain ⟨it', a⟩ := p
  exact Tk.bind (Tk.getMutateCh hj _) fun _ rk1 s1 hj1 h1 _ => Tk.pure hj1 trivial

theorem Tk.lift' (hj : Ranked rk s.heap) {r : R α} (hr : r ≠ .error .fuel) : Tk rk (M.lift r : M V α) (fun _ _ _ => True) s :=
  by
  unfold Tk
  rw [lift_run]
  exact ⟨hr, rk, hj, Keeps.refl .., fun _ _ => trivial⟩

/-- What one API call does. -/
def Fine (r : Out V × World V) : Prop := r.1 ≠ .panic .fuel ∧ ∃ rk, Ranked rk r.2.heap

theorem Fine.onTree (hj : Ranked rk w.heap) {t : Nat} {f : Tree → M V α} {out : α → Out V × List Tree}
    (hf : ∀ tr, w.trees[t]? = some tr → Completes (f tr) (w.st default)) (ho : ∀ a, (out a).1 ≠ .panic .fuel) : Fine (w.onTree t f out) := by
  unfold World.onTree
  cases ht : w.trees[t]? with
  | none => exact ⟨nofun, rk, hj⟩
  | some tr =>
    simp only
    have := hf tr ht
    unfold Completes at this
    match hm : f tr (w.st default) with
    | (.ok a, s') => rw [hm] at this; exact ⟨ho a, this.2⟩
    | (.error e, s') => rw [hm] at this; exact ⟨fun h => this.1 (by cases h; rfl), this.2⟩

theorem Fine.onTxn (hj : Ranked rk w.heap) {x : Nat} {f : M V α} {out : α → Out V × List Tree} {mark : TxnRec → TxnRec}
    (hf : ∀ r : TxnRec, w.txns[x]? = some r → Completes f (w.st r.st)) (ho : ∀ a, (out a).1 ≠ .panic .fuel) : Fine (w.onTxn x f out mark) := by
  unfold World.onTxn
  cases ht : w.txns[x]? with
  | none => exact ⟨nofun, rk, hj⟩
  | some r =>
    simp only
    have := hf r ht
    unfold Completes at this
    match hm : f (w.st r.st) with
    | (.ok a, s') => rw [hm] at this; exact ⟨ho a, this.2⟩
    | (.error e, s') => rw [hm] at this; exact ⟨fun h => this.1 (by cases h; rfl), this.2⟩

theorem Fine.addTxn {m : M V TxnSt} (hm : Completes m s) : Fine (w.addTxn (m s)) := by
  unfold Completes at hm
  unfold World.addTxn
  match hr : m s with
  | (.ok a, s') => rw [hr] at hm; exact ⟨nofun, hm.2⟩
  | (.error e, s') => rw [hr] at hm; exact ⟨fun h => hm.1 (by cases h; rfl), hm.2⟩

theorem exec_fine [Inhabited V] {P : Key → V → Prop} (hw : WAll P w) (hj : Ranked rk w.heap) (op : Op V) : Fine (exec w op) := by
  have hs : ∀ {tr : Tree} {i : Nat}, w.trees[i]? = some tr → tr.root < (w.st default).heap.length := fun h => hw.trees _ (List.mem_of_getElem? h)
  have hx : ∀ {r : TxnRec} {i : Nat}, w.txns[i]? = some r → (w.st r.st).txn.root < (w.st r.st).heap.length := fun h => hw.txns _ (List.mem_of_getElem? h)
  cases op with
  | newTree =>
    have : Completes (newRadixTree : M V Tree) (w.st default) := by
      refine Tk.ends (rk := rk) (Q := fun _ _ _ => True) ?_
      unfold newRadixTree
      refine Tk.bind (Tk.newCell hj 0 ?_) fun l rk1 s1 hj1 h1 gl => ?_
      · intro b hb; rcases hb with hb | hb <;> cases hb
      refine Tk.bind (Tk.newCell hj1 1 (.mkInner ?_ ?_)) fun r rk2 s2 hj2 h2 gr => Tk.pure hj2 trivial
      · intro b hb; cases hb; exact gl.toLt Nat.zero_lt_one
      · intro b hb; have := List.eq_of_mem_replicate hb; cases this
    simp only [exec]
    unfold Completes at this
    match hr : (newRadixTree : M V Tree) (w.st default) with
    | (.ok a, s') => rw [hr] at this; exact ⟨nofun, this.2⟩
    | (.error e, s') => rw [hr] at this; exact ⟨fun h => this.1 (by cases h; rfl), this.2⟩
  | cloneTree t =>
    refine Fine.onTree hj (fun tr h => ?_) fun _ => nofun
    refine Tk.ends (rk := rk) (Q := fun _ _ _ => True) ?_
    unfold treeClone
    exact Tk.bind (Tk.cloneNode hj ⟨hs h, rfl⟩ true) fun r rk1 s1 hj1 h1 g1 => Tk.pure hj1 trivial
  | insert t k v =>
    refine Fine.onTree hj (fun tr h => ?_) fun _ => nofun
    rw [treeInsert_eq]
    exact treeOp_completes hj tr (hs h) fun rk s hj hr => txnInsert_ends hj hr k v
  | delete t k =>
    refine Fine.onTree hj (fun tr h => ?_) fun _ => nofun
    rw [treeDelete_eq]
    exact treeOp_completes hj tr (hs h) fun rk s hj hr => txnDelete_ends hj hr k
  | deletePrefix t k =>
    refine Fine.onTree hj (fun tr h => ?_) fun _ => nofun
    rw [treeDeletePrefix_eq]
    exact treeOp_completes hj tr (hs h) fun rk s hj hr => txnDeletePrefix_ends hj hr k
  | get t k =>
    exact Fine.onTree hj (fun tr h => Tk.ends (rk := rk) (Q := fun _ _ _ => True) (Tk.bindGet (Tk.lift' hj (treeGet_nofuel _ _ _)))) fun _ => nofun
  | getWatch t k => exact Fine.onTree hj (fun tr h => treeGetWatch_completes hj _ _) fun _ => nofun
  | seekPrefixWatch t p => exact Fine.onTree hj (fun tr h => seekPrefixWatch_completes hj _ _) fun _ => nofun
  | len t => exact Fine.onTree hj (fun tr h => Completes.read (r := .ok (treeLen tr)) rfl nofun hj) fun _ => nofun
  | begin t =>
    simp only [exec]
    cases hr : w.trees[t]? with
    | none => exact ⟨nofun, rk, hj⟩
    | some tr => exact Fine.addTxn (Tk.beginTxn (s := w.st default) hj tr (hs hr)).ends
  | txnClone x =>
    simp only [exec]
    cases hr : w.txns[x]? with
    | none => exact ⟨nofun, rk, hj⟩
    | some r =>
      refine Fine.addTxn (Tk.ends (rk := rk) (Q := fun _ _ _ => True) ?_)
      unfold txnClone
      refine Tk.bindTxn ?_
      exact Tk.bind (Tk.cloneNode hj ⟨hx hr, rfl⟩ true) fun r rk1 s1 hj1 h1 g1 => Tk.pure hj1 trivial
  | trackMutate x b => exact Fine.onTxn hj (fun r h => ⟨nofun, rk, hj⟩) fun _ => nofun
  | txnInsert x k v => exact Fine.onTxn hj (fun r h => txnInsert_ends hj (hx h) k v) fun _ => nofun
  | txnDelete x k => exact Fine.onTxn hj (fun r h => txnDelete_ends hj (hx h) k) fun _ => nofun
  | txnDeletePrefix x k => exact Fine.onTxn hj (fun r h => txnDeletePrefix_ends hj (hx h) k) fun _ => nofun
  | txnGet x k =>
    refine Fine.onTxn hj (fun r h => ?_) fun _ => nofun
    refine Tk.ends (rk := rk) (Q := fun _ _ _ => True) ?_
    unfold txnGet
    exact Tk.bindGet (Tk.bindLift hj (search_nofuel _ _ _) fun hit _ => Tk.pure hj trivial)
  | txnGetWatch x k => exact Fine.onTxn hj (fun r h => treeGetWatch_completes (s := w.st r.st) hj _ _) fun _ => nofun
  | commit x => exact Fine.onTxn hj (fun r h => commit_completes hj) fun _ => nofun
  | commitOnly x => exact Fine.onTxn hj (fun r h => ⟨nofun, rk, hj⟩) fun _ => nofun
  | notify x => exact Fine.onTxn hj (fun r h => notify_completes hj) fun _ => nofun

/-- Every heap of a history is acyclic, and no call of it runs out of a loop bound. -/
theorem execAll_fine [Inhabited V] {w : World V} (hw : WAll (fun _ _ => True) w) (hj : Ranked rk w.heap) (ops : List (Op V)) :
    (∀ o ∈ (execAll w ops).1, o ≠ .panic .fuel) ∧ ∃ rk', Ranked rk' (execAll w ops).2.heap := by
  induction ops generalizing w rk with
  | nil => exact ⟨fun o ho => absurd ho List.not_mem_nil, rk, hj⟩
  | cons op ops ih =>
    obtain ⟨h1, rk1, hj1⟩ := exec_fine hw hj op
    obtain ⟨h2, h3⟩ := ih (exec_all hw op trivial fun _ _ _ => trivial).1 hj1
    refine ⟨fun o ho => ?_, h3⟩
    rcases List.mem_cons.1 ho with rfl | ho
    · exact h1
    · exact h2 o ho

end Art
