import Verif.Proofs.Counts
import Verif.Proofs.Snapshot
import Verif.LeakSpec
/-
Writing through the private tree of a transaction is copying the transaction with `Txn.Clone`.  So a program that does the
first can be replaced by one that does the second, in which only the numbers of the transactions differ.
-/
set_option autoImplicit false
set_option linter.unusedVariables false
set_option linter.unusedSimpArgs false
set_option linter.unusedSectionVars false
namespace Art
variable {V α : Type} {w w' : World V} {ix : List Nat}

/-- The call with other numbers for the transactions. -/
def Op.rename (f : Nat → Nat) : Op V → Op V
  | .newTree => .newTree
  | .cloneTree t => .cloneTree t
  | .insert t k v => .insert t k v
  | .delete t k => .delete t k
  | .deletePrefix t k => .deletePrefix t k
  | .get t k => .get t k
  | .getWatch t k => .getWatch t k
  | .seekPrefixWatch t p => .seekPrefixWatch t p
  | .len t => .len t
  | .begin t => .begin t
  | .txnClone x => .txnClone (f x)
  | .trackMutate x b => .trackMutate (f x) b
  | .txnInsert x k v => .txnInsert (f x) k v
  | .txnDelete x k => .txnDelete (f x) k
  | .txnDeletePrefix x k => .txnDeletePrefix (f x) k
  | .txnGet x k => .txnGet (f x) k
  | .txnGetWatch x k => .txnGetWatch (f x) k
  | .commit x => .commit (f x)
  | .commitOnly x => .commitOnly (f x)
  | .notify x => .notify (f x)

/-- The two programs have the same memory and the same trees, and transaction `x` of the first is number `ix[x]` of the
second. -/
structure Mimics (w w' : World V) (ix : List Nat) : Prop where
  heap : w'.heap = w.heap
  chans : w'.chans = w.chans
  trees : w'.trees = w.trees
  len : ix.length = w.txns.length
  txn : ∀ x j : Nat, ix[x]? = some j → ∃ r, w.txns[x]? = some r ∧ w'.txns[j]? = some r
  nodup : ix.Nodup

/-- Numbers are kept, and the calls `ops` do not write to the transactions known so far, except the named one. -/
def Spares (ix ix' : List Nat) (u : Option Nat) (ops : List (Op V)) : Prop :=
  ∀ x j : Nat, ix[x]? = some j → ix'[x]? = some j ∧ (u ≠ some x → ∀ op ∈ ops, op.writes ≠ some j)

/-- The number of a transaction in the second program (one that does not exist gets a number that does not exist). -/
def World.num (w' : World V) (ix : List Nat) (x : Nat) : Nat := ix.getD x w'.txns.length

theorem Mimics.st (m : Mimics w w' ix) (ts : TxnSt) : w'.st ts = w.st ts := by
  unfold World.st; rw [m.heap, m.chans]

theorem Mimics.look (m : Mimics w w' ix) (x : Nat) : w'.txns[w'.num ix x]? = w.txns[x]? := by
  unfold World.num
  rw [List.getD_eq_getElem?_getD]
  cases h : ix[x]? with
  | none =>
    rw [List.getElem?_eq_none_iff] at h
    rw [List.getElem?_eq_none_iff.2 (show w.txns.length ≤ x by rw [← m.len]; exact h)]
    simp
  | some j =>
    obtain ⟨r, h1, h2⟩ := m.txn x j h
    simp only [Option.getD_some]
    rw [h1, h2]

theorem Mimics.at (m : Mimics w w' ix) {x : Nat} {r : TxnRec} (h : w.txns[x]? = some r) : ix[x]? = some (w'.num ix x) := by
  have hl : x < ix.length := by
    rw [m.len]; exact (List.getElem?_eq_some_iff.1 h).1
  unfold World.num
  rw [List.getD_eq_getElem?_getD, List.getElem?_eq_getElem hl]; rfl

theorem Mimics.lt (m : Mimics w w' ix) {j : Nat} (h : j ∈ ix) : j < w'.txns.length := by
  obtain ⟨x, hx⟩ := List.getElem?_of_mem h
  obtain ⟨r, -, h2⟩ := m.txn x j hx
  exact (List.getElem?_eq_some_iff.1 h2).1

theorem Mimics.put (m : Mimics w w' ix) (s : St V) (ts : List Tree) :
    Mimics { w.put s with trees := w.trees ++ ts } { w'.put s with trees := w'.trees ++ ts } ix :=
  ⟨rfl, rfl, by show w'.trees ++ ts = w.trees ++ ts; rw [m.trees], m.len, m.txn, m.nodup⟩

theorem Mimics.set (m : Mimics w w' ix) {x : Nat} {r0 : TxnRec} (h : w.txns[x]? = some r0) (r : TxnRec) :
    Mimics { w with txns := w.txns.set x r } { w' with txns := w'.txns.set (w'.num ix x) r } ix := by
  refine ⟨m.heap, m.chans, m.trees, by simp [m.len], fun y j hy => ?_, m.nodup⟩
  obtain ⟨ry, h1, h2⟩ := m.txn y j hy
  have hj := m.at h
  by_cases he : y = x
  · cases he
    rw [hy] at hj
    cases hj
    refine ⟨r, ?_, ?_⟩
    · rw [List.getElem?_set_self (List.getElem?_eq_some_iff.1 h1).1]
    · rw [List.getElem?_set_self (List.getElem?_eq_some_iff.1 h2).1]
  · refine ⟨ry, ?_, ?_⟩
    · rw [List.getElem?_set_ne (fun e => he e.symm)]; exact h1
    · rw [List.getElem?_set_ne]
      · exact h2
      · intro e
        rw [e] at hj
        exact he ((List.getElem?_inj (List.getElem?_eq_some_iff.1 hy).1 m.nodup).1 (hy.trans hj.symm))

theorem Mimics.push (m : Mimics w w' ix) (r : TxnRec) :
    Mimics { w with txns := w.txns ++ [r] } { w' with txns := w'.txns ++ [r] } (ix ++ [w'.txns.length]) := by
  refine ⟨m.heap, m.chans, m.trees, by simp [m.len], fun x j hx => ?_, ?_⟩
  · by_cases hl : x < ix.length
    · rw [List.getElem?_append_left hl] at hx
      obtain ⟨r1, h1, h2⟩ := m.txn x j hx
      exact ⟨r1, by rw [List.getElem?_append_left (List.getElem?_eq_some_iff.1 h1).1]; exact h1,
        by rw [List.getElem?_append_left (List.getElem?_eq_some_iff.1 h2).1]; exact h2⟩
    · have hx' : x = ix.length := by
        have := (List.getElem?_eq_some_iff.1 hx).1
        simp only [List.length_append, List.length_cons, List.length_nil] at this
        omega
      subst hx'
      simp only [List.getElem?_concat_length, Option.some.injEq] at hx
      subst hx
      exact ⟨r, by rw [m.len]; simp, by simp⟩
  · rw [List.nodup_append]
    refine ⟨m.nodup, by simp, fun a ha b hb e => ?_⟩
    simp only [List.mem_singleton] at hb
    have := m.lt ha
    omega

/-- More transactions of the second program alone. -/
theorem Mimics.extra (m : Mimics w w' ix) (r : TxnRec) : Mimics w { w' with txns := w'.txns ++ [r] } ix :=
  ⟨m.heap, m.chans, m.trees, m.len, fun x j hx => by
    obtain ⟨r1, h1, h2⟩ := m.txn x j hx
    exact ⟨r1, h1, by rw [List.getElem?_append_left (List.getElem?_eq_some_iff.1 h2).1]; exact h2⟩, m.nodup⟩

/-- A transaction of the second program alone is changed. -/
theorem Mimics.other (m : Mimics w w' ix) {y : Nat} (hy : y ∉ ix) (r : TxnRec) :
    Mimics w { w' with txns := w'.txns.set y r } ix :=
  ⟨m.heap, m.chans, m.trees, m.len, fun x j hx => by
    obtain ⟨r1, h1, h2⟩ := m.txn x j hx
    refine ⟨r1, h1, ?_⟩
    rw [List.getElem?_set_ne]
    · exact h2
    · intro e
      exact hy (e ▸ List.mem_of_getElem? hx), m.nodup⟩

theorem Mimics.onTree (m : Mimics w w' ix) (t : Nat) (f : Tree → M V α) (out : α → Out V × List Tree) :
    (w'.onTree t f out).1 = (w.onTree t f out).1 ∧ Mimics (w.onTree t f out).2 (w'.onTree t f out).2 ix := by
  unfold World.onTree
  rw [m.trees]
  cases w.trees[t]? with
  | none => exact ⟨rfl, m⟩
  | some tr =>
    simp only [m.st]
    match f tr (w.st default) with
    | (.ok a, s) => have := m.put s (out a).2; rw [m.trees] at this; exact ⟨rfl, this⟩
    | (.error e, s) => exact ⟨rfl, rfl, rfl, m.trees, m.len, m.txn, m.nodup⟩

theorem Mimics.onTxn (m : Mimics w w' ix) (x : Nat) (f : M V α) (out : α → Out V × List Tree) (mark : TxnRec → TxnRec) :
    (w'.onTxn (w'.num ix x) f out mark).1 = (w.onTxn x f out mark).1 ∧
      Mimics (w.onTxn x f out mark).2 (w'.onTxn (w'.num ix x) f out mark).2 ix := by
  unfold World.onTxn
  rw [m.look]
  cases hx : w.txns[x]? with
  | none => exact ⟨rfl, m⟩
  | some r =>
    simp only [m.st]
    match f (w.st r.st) with
    | (.ok a, s) =>
      have h := (m.set hx (mark { r with st := s.txn })).put s (out a).2
      exact ⟨rfl, h⟩
    | (.error e, s) =>
      have h := (m.set hx (mark { r with st := s.txn })).put s []
      simp only [List.append_nil] at h
      exact ⟨rfl, h⟩

theorem Mimics.addTxn (m : Mimics w w' ix) (p : R TxnSt × St V) :
    (w'.addTxn p).1 = (w.addTxn p).1 ∧ ∃ ix', Mimics (w.addTxn p).2 (w'.addTxn p).2 ix' ∧ ∀ x j : Nat, ix[x]? = some j → ix'[x]? = some j := by
  match p with
  | (.ok ts, s) =>
    have h := (m.put s []).push { st := ts, ended := false, copied := false }
    simp only [List.append_nil] at h
    exact ⟨rfl, _, h, fun x j hx => by rw [List.getElem?_append_left (List.getElem?_eq_some_iff.1 hx).1]; exact hx⟩
  | (.error e, s) =>
    have h := m.put s []
    simp only [List.append_nil] at h
    exact ⟨rfl, _, h, fun _ _ hx => hx⟩

variable [Inhabited V]

theorem Mimics.api (m : Mimics w w' ix) (op : Op V) :
    (exec w' (op.rename (w'.num ix))).1 = (exec w op).1 ∧
      ∃ ix', Mimics (exec w op).2 (exec w' (op.rename (w'.num ix))).2 ix' ∧ ∀ x j : Nat, ix[x]? = some j → ix'[x]? = some j := by
  have tr : ∀ {α : Type} (t : Nat) (f : Tree → M V α) (out : α → Out V × List Tree),
      (w'.onTree t f out).1 = (w.onTree t f out).1 ∧ ∃ ix', Mimics (w.onTree t f out).2 (w'.onTree t f out).2 ix' ∧ ∀ x j : Nat, ix[x]? = some j → ix'[x]? = some j :=
    fun t f out => ⟨(m.onTree t f out).1, ix, (m.onTree t f out).2, fun _ _ h => h⟩
  have tx : ∀ {α : Type} (x : Nat) (f : M V α) (out : α → Out V × List Tree) (mark : TxnRec → TxnRec),
      (w'.onTxn (w'.num ix x) f out mark).1 = (w.onTxn x f out mark).1 ∧
        ∃ ix', Mimics (w.onTxn x f out mark).2 (w'.onTxn (w'.num ix x) f out mark).2 ix' ∧ ∀ x j : Nat, ix[x]? = some j → ix'[x]? = some j :=
    fun x f out mark => ⟨(m.onTxn x f out mark).1, ix, (m.onTxn x f out mark).2, fun _ _ h => h⟩
  cases op with
  | newTree =>
    simp only [Op.rename, exec, m.st]
    match (newRadixTree : M V Tree) (w.st default) with
    | (.ok t, s) => exact ⟨rfl, ix, m.put s [t], fun _ _ h => h⟩
    | (.error e, s) => exact ⟨rfl, ix, ⟨rfl, rfl, m.trees, m.len, m.txn, m.nodup⟩, fun _ _ h => h⟩
  | cloneTree t => exact tr _ _ _
  | insert t k v => exact tr _ _ _
  | delete t k => exact tr _ _ _
  | deletePrefix t k => exact tr _ _ _
  | get t k => exact tr _ _ _
  | getWatch t k => exact tr _ _ _
  | seekPrefixWatch t p => exact tr _ _ _
  | len t => exact tr _ _ _
  | begin t =>
    simp only [Op.rename, exec, m.st]
    rw [m.trees]
    cases w.trees[t]? with
    | none => exact ⟨rfl, ix, m, fun _ _ h => h⟩
    | some t' => exact m.addTxn _
  | txnClone x =>
    simp only [Op.rename, exec, m.st]
    rw [m.look]
    cases hx : w.txns[x]? with
    | none => exact ⟨rfl, ix, m, fun _ _ h => h⟩
    | some r => exact (m.set hx r.cloned).addTxn _
  | trackMutate x b => exact tx _ _ _ _
  | txnInsert x k v => exact tx _ _ _ _
  | txnDelete x k => exact tx _ _ _ _
  | txnDeletePrefix x k => exact tx _ _ _ _
  | txnGet x k => exact tx _ _ _ _
  | txnGetWatch x k => exact tx _ _ _ _
  | commit x => exact tx _ _ _ _
  | commitOnly x => exact tx _ _ _ _
  | notify x => exact tx _ _ _ _

theorem Mimics.allows (m : Mimics w w' ix) (op : Op V) : w'.allows (op.rename (w'.num ix)) = w.allows op := by
  unfold World.allows
  cases op <;> simp only [Op.rename, Op.writes] <;> rw [m.look]

omit [Inhabited V] in
theorem Op.rename_writes (f : Nat → Nat) (op : Op V) : (op.rename f).writes = op.writes.map f := by
  cases op <;> rfl

omit [Inhabited V] in
/-- Renaming keeps different transactions apart. -/
theorem Mimics.spares (m : Mimics w w' ix) {ix' : List Nat} (hk : ∀ x j : Nat, ix[x]? = some j → ix'[x]? = some j) (op : Op V) :
    Spares ix ix' op.writes [op.rename (w'.num ix)] := fun x j hj => by
  refine ⟨hk x j hj, fun hne o ho he => ?_⟩
  rw [List.mem_singleton.1 ho, Op.rename_writes] at he
  match hw : op.writes with
  | none => rw [hw] at he; cases he
  | some y =>
    rw [hw] at he hne
    have he : w'.num ix y = j := Option.some.inj he
    unfold World.num at he
    rw [List.getD_eq_getElem?_getD] at he
    cases hy : ix[y]? with
    | none =>
      rw [hy] at he
      exact absurd (m.lt (List.mem_of_getElem? hj)) (by rw [← he]; exact Nat.lt_irrefl _)
    | some i =>
      rw [hy] at he
      have he : i = j := he
      rw [he] at hy
      exact hne (congrArg some ((List.getElem?_inj (List.getElem?_eq_some_iff.1 hy).1 m.nodup).1 (hy.trans hj.symm)))

omit [Inhabited V] in
/-- Calls that write to a new transaction only. -/
theorem Mimics.spared (m : Mimics w w' ix) {ix' : List Nat} (hk : ∀ x j : Nat, ix[x]? = some j → ix'[x]? = some j) {ops : List (Op V)}
    (h : ∀ op ∈ ops, op.writes = none ∨ op.writes = some w'.txns.length) : Spares ix ix' none ops := fun x j hj => by
  refine ⟨hk x j hj, fun _ op ho he => ?_⟩
  rcases h op ho with h1 | h1
  · rw [h1] at he; cases he
  · rw [h1] at he
    have he : w'.txns.length = j := Option.some.inj he
    exact absurd (m.lt (List.mem_of_getElem? hj)) (by rw [← he]; exact Nat.lt_irrefl _)

omit [Inhabited V] in
/-- Copying a node does not depend on the running transaction. -/
theorem cloneNode_any (a : Addr) (s : St V) (ts : TxnSt) :
    cloneNode a true { s with txn := ts } = ((cloneNode a true s).1, { (cloneNode a true s).2 with txn := ts }) := by
  rw [cloneNode_run, cloneNode_run]
  show (match s.heap[a]? with | none => _ | some c => _) = _
  cases s.heap[a]? <;> rfl

omit [Inhabited V] in
/-- `RadixTree.Txn` of the private tree is `Txn.Clone`. -/
theorem beginTxn_leak (w : World V) (ts : TxnSt) (he : ts.size = ts.treeSize) :
    txnClone (w.st ts) = ((beginTxn ts.getTree (w.st default)).1, { (beginTxn ts.getTree (w.st default)).2 with txn := ts }) := by
  have h := cloneNode_any ts.root (w.st default) ts
  rw [show ({ w.st default with txn := ts } : St V) = w.st ts from rfl] at h
  rw [beginTxn_run]
  unfold txnClone
  simp only [bind_run, txnSt, M.get, TxnSt.getTree]
  simp only [show (w.st ts).txn = ts from rfl, h]
  match cloneNode ts.root true (w.st default) with
  | (.ok a, s) => simp only [startTxn, he]; rfl
  | (.error e, s) => rfl

/-- A writing call on the private tree: copy the transaction, let the copy make the call, and commit it. -/
theorem Mimics.session {β : Type} (m : Mimics w w' ix) {x : Nat} {r : TxnRec} (hx : w.txns[x]? = some r)
    (he : r.st.size = r.st.treeSize) (g : M V α) (fin : Tree → α → β) (out : β → Out V × List Tree) (og : α → Out V)
    (op : Nat → Op V) (hw : ∀ y, (op y).writes = some y) (hop : ∀ (w : World V) y, exec w (op y) = w.onTxn y g (fun a => (og a, [])))
    (ho : ∀ nt a, out (fin nt a) = (og a, [nt])) (f : Tree → M V β)
    (hf : ∀ t, f t = (do let ts ← beginTxn t; withTxn ts (do let a ← g; let nt ← txnCommit; pure (fin nt a)))) :
    ∃ more, Lawful w' more ∧ Spares ix ix none more ∧ [(w.onLeak x f out).1].Sublist (execAll w' more).1 ∧
      Mimics (w.onLeak x f out).2 (execAll w' more).2 ix := by
  have hc := beginTxn_leak w r.st he
  have hm := m.set hx r.cloned
  have hx' : w'.txns[w'.num ix x]? = some r := (m.look x).trans hx
  unfold World.onLeak
  simp only [hx, hf, bind_run]
  match hb : beginTxn r.st.getTree (w.st default) with
  | (.error e, s) =>
    rw [hb] at hc
    refine ⟨[.txnClone (w'.num ix x)], ⟨rfl, trivial⟩, m.spared (fun _ _ h => h) (by simp [Op.writes]), ?_, ?_⟩
    · simp only [execAll, exec, hx', m.st, hc, World.addTxn]; exact List.Sublist.refl _
    · simp only [execAll, exec, hx', m.st, hc, World.addTxn]
      exact ⟨rfl, rfl, m.trees, hm.len, hm.txn, hm.nodup⟩
  | (.ok ts, s) =>
    rw [hb] at hc
    have h1 : (exec w' (.txnClone (w'.num ix x))) = (.done, { w'.put s with
        txns := w'.txns.set (w'.num ix x) r.cloned ++ [{ st := ts, ended := false, copied := false }] }) := by
      simp only [exec, hx', m.st, hc, World.addTxn]; rfl
    have hm1 : Mimics { w.put s with txns := w.txns.set x r.cloned } (exec w' (.txnClone (w'.num ix x))).2 ix := by
      rw [h1]
      exact (show Mimics { w.put s with txns := w.txns.set x r.cloned } { w'.put s with txns := w'.txns.set (w'.num ix x) r.cloned } ix from
        ⟨rfl, rfl, m.trees, hm.len, hm.txn, hm.nodup⟩).extra _
    have hy1 : (exec w' (.txnClone (w'.num ix x))).2.txns[w'.txns.length]? = some { st := ts, ended := false, copied := false } := by
      rw [h1]; simp
    have hst : (exec w' (.txnClone (w'.num ix x))).2.st ts = { s with txn := ts } := by rw [h1]; rfl
    have hni : w'.txns.length ∉ ix := fun h => Nat.lt_irrefl _ (m.lt h)
    have ho1 : (exec w' (.txnClone (w'.num ix x))).1 = .done := by rw [h1]
    clear h1
    generalize hp : exec w' (.txnClone (w'.num ix x)) = p1 at *
    have hal : p1.2.allows (op w'.txns.length) = true := by
      unfold World.allows; rw [hw]; simp only [hy1]; rfl
    simp only [withTxn, modTxn, bind_run]
    match hg : g { s with txn := ts } with
    | (.error e, s2) =>
      have h2 : exec p1.2 (op w'.txns.length) = (.panic e, { p1.2.put s2 with
          txns := p1.2.txns.set w'.txns.length { st := s2.txn, ended := false, copied := false } }) := by
        rw [hop]; simp only [World.onTxn, hy1, hst, hg]; rfl
      refine ⟨[.txnClone (w'.num ix x), op w'.txns.length], ⟨rfl, ?_⟩, m.spared (fun _ _ h => h) (by simp [hw]; simp [Op.writes]), ?_, ?_⟩
      · rw [hp]; exact ⟨hal, trivial⟩
      · simp only [execAll, hp, h2, ho1]
        exact (List.Sublist.refl _).cons _
      · simp only [execAll, hp, h2]
        exact (show Mimics { w.put s2 with txns := w.txns.set x r.cloned } (p1.2.put s2) ix from ⟨rfl, rfl, hm1.trees, hm1.len, hm1.txn, hm1.nodup⟩).other hni _
    | (.ok a, s2) =>
      have h2 : exec p1.2 (op w'.txns.length) = (og a, { p1.2.put s2 with
          txns := p1.2.txns.set w'.txns.length { st := s2.txn, ended := false, copied := false } }) := by
        rw [hop]; simp only [World.onTxn, hy1, hst, hg, List.append_nil]; rfl
      have hm2 : Mimics { w.put s2 with txns := w.txns.set x r.cloned } (exec p1.2 (op w'.txns.length)).2 ix := by
        rw [h2]
        exact (show Mimics { w.put s2 with txns := w.txns.set x r.cloned } (p1.2.put s2) ix from ⟨rfl, rfl, hm1.trees, hm1.len, hm1.txn, hm1.nodup⟩).other hni _
      have hy2 : (exec p1.2 (op w'.txns.length)).2.txns[w'.txns.length]? = some { st := s2.txn, ended := false, copied := false } := by
        rw [h2]; exact List.getElem?_set_self (List.getElem?_eq_some_iff.1 hy1).1
      have hst2 : (exec p1.2 (op w'.txns.length)).2.st s2.txn = s2 := by rw [h2]; rfl
      have ho2 : (exec p1.2 (op w'.txns.length)).1 = og a := by rw [h2]
      have hal3 : (exec p1.2 (op w'.txns.length)).2.allows (.commit w'.txns.length) = true := rfl
      clear h2
      generalize hp2 : exec p1.2 (op w'.txns.length) = p2 at *
      simp only
      match ht : (txnCommit : M V Tree) s2 with
      | (.error e, s3) =>
        have h3 : exec p2.2 (.commit w'.txns.length) = (.panic e, { p2.2.put s3 with
            txns := p2.2.txns.set w'.txns.length { st := s3.txn, ended := true, copied := false } }) := by
          simp only [exec, World.onTxn, hy2, hst2, ht]
        refine ⟨[.txnClone (w'.num ix x), op w'.txns.length, .commit w'.txns.length], ⟨rfl, ?_⟩, m.spared (fun _ _ h => h) (by simp [hw]; simp [Op.writes]), ?_, ?_⟩
        · rw [hp]; exact ⟨hal, by rw [hp2]; exact ⟨rfl, trivial⟩⟩
        · simp only [execAll, hp, hp2, h3, ho1, ho2]
          exact ((List.Sublist.refl _).cons _).cons _
        · simp only [execAll, hp, hp2, h3]
          exact (show Mimics { w.put s3 with txns := w.txns.set x r.cloned } (p2.2.put s3) ix from ⟨rfl, rfl, hm2.trees, hm2.len, hm2.txn, hm2.nodup⟩).other hni _
      | (.ok nt, s3) =>
        have h3 : exec p2.2 (.commit w'.txns.length) = (.done, { p2.2.put s3 with
            trees := p2.2.trees ++ [nt]
            txns := p2.2.txns.set w'.txns.length { st := s3.txn, ended := true, copied := false } }) := by
          simp only [exec, World.onTxn, hy2, hst2, ht]
        refine ⟨[.txnClone (w'.num ix x), op w'.txns.length, .commit w'.txns.length], ⟨rfl, ?_⟩, m.spared (fun _ _ h => h) (by simp [hw]; simp [Op.writes]), ?_, ?_⟩
        · rw [hp]; exact ⟨hal, by rw [hp2]; exact ⟨rfl, trivial⟩⟩
        · simp only [execAll, hp, hp2, h3, ho1, ho2, pure_run, ho]
          exact ((List.Sublist.cons_cons _ (List.nil_sublist _))).cons _
        · simp only [execAll, hp, hp2, h3, pure_run, ho]
          exact (show Mimics { w.put s3 with trees := w.trees ++ [nt], txns := w.txns.set x r.cloned } { p2.2.put s3 with trees := p2.2.trees ++ [nt] } ix from
            ⟨rfl, rfl, by show p2.2.trees ++ [nt] = w.trees ++ [nt]; rw [show p2.2.trees = w.trees from hm2.trees],
              hm2.len, hm2.txn, hm2.nodup⟩).other hni _

/-- A call on the private tree, step for step. -/
theorem Mimics.leak (m : Mimics w w' ix) (he : Evens w) (x : Nat) (c : TreeCall V) :
    ∃ more ix', Lawful w' more ∧ Spares ix ix' none more ∧ [(execCall w (.leak x c)).1].Sublist (execAll w' more).1 ∧
      Mimics (execCall w (.leak x c)).2 (execAll w' more).2 ix' := by
  cases hx : w.txns[x]? with
  | none =>
    have hx' : w'.txns[w'.num ix x]? = none := (m.look x).trans hx
    have h1 : execCall w (.leak x c) = (.noSuch, w) := by
      cases c <;> simp only [execCall, World.onLeak, hx]
    rw [h1]
    refine ⟨[.txnClone (w'.num ix x)], ix, ⟨rfl, trivial⟩, m.spared (fun _ _ h => h) (by simp [Op.writes]), ?_, ?_⟩
    · simp only [execAll, exec, hx']; exact List.Sublist.refl _
    · simp only [execAll, exec, hx']; exact m
  | some r =>
    have hr : r.st.size = r.st.treeSize := he r (List.mem_of_getElem? hx)
    have hx' : w'.txns[w'.num ix x]? = some r := (m.look x).trans hx
    have hc := beginTxn_leak w r.st hr
    have hm := m.set hx r.cloned
    cases c with
    | insert k v =>
      obtain ⟨more, h1, h0, h2, h3⟩ := m.session hx hr (txnInsert k v) (fun nt a => (nt, a.1, a.2)) (fun b => (.updated b.2.1 b.2.2, [b.1]))
        (fun a => .updated a.1 a.2) (fun y => .txnInsert y k v) (fun _ => rfl) (fun _ _ => rfl) (fun _ _ => rfl) (treeInsert · k v) fun _ => rfl
      exact ⟨more, ix, h1, h0, h2, h3⟩
    | delete k =>
      obtain ⟨more, h1, h0, h2, h3⟩ := m.session hx hr (txnDelete k) (fun nt a => (nt, a.1, a.2)) (fun b => (.updated b.2.1 b.2.2, [b.1]))
        (fun a => .updated a.1 a.2) (fun y => .txnDelete y k) (fun _ => rfl) (fun _ _ => rfl) (fun _ _ => rfl) (treeDelete · k) fun _ => rfl
      exact ⟨more, ix, h1, h0, h2, h3⟩
    | deletePrefix k =>
      obtain ⟨more, h1, h0, h2, h3⟩ := m.session hx hr (txnDeletePrefix k) (fun nt a => (nt, a)) (fun b => (.flag b.2, [b.1]))
        (fun a => .flag a) (fun y => .txnDeletePrefix y k) (fun _ => rfl) (fun _ _ => rfl) (fun _ _ => rfl) (treeDeletePrefix · k) fun _ => rfl
      exact ⟨more, ix, h1, h0, h2, h3⟩
    | txn =>
      have h := hm.addTxn (txnClone (w.st r.st))
      have e : ∀ w1 : World V, w1.addTxn (txnClone (w.st r.st)) = w1.addTxn (beginTxn r.st.getTree (w.st default)) := fun w1 => by
        rw [hc]
        match beginTxn r.st.getTree (w.st default) with
        | (.ok _, _) => rfl
        | (.error _, _) => rfl
      obtain ⟨h1, ix', h2, h0⟩ := h
      rw [e] at h2
      rw [e { w with txns := w.txns.set x r.cloned }] at h1
      refine ⟨[.txnClone (w'.num ix x)], ix', ⟨rfl, trivial⟩, m.spared h0 (by simp [Op.writes]), ?_, ?_⟩
      · simp only [execAll, exec, execCall, hx, hx', m.st, h1]; exact List.Sublist.refl _
      · simp only [execAll, exec, execCall, hx, hx', m.st]; exact h2
    | clone =>
      simp only [execCall, World.onLeak, hx, treeClone, bind_run]
      rw [beginTxn_run] at hc
      simp only [TxnSt.getTree] at hc ⊢
      match hb : cloneNode r.st.root true (w.st default) with
      | (.error e, s) =>
        simp only [hb] at hc
        refine ⟨[.txnClone (w'.num ix x)], ix, ⟨rfl, trivial⟩, m.spared (fun _ _ h => h) (by simp [Op.writes]), ?_, ?_⟩
        · simp only [execAll, exec, hx', m.st, hc, World.addTxn]; exact List.Sublist.refl _
        · simp only [execAll, exec, hx', m.st, hc, World.addTxn]
          exact ⟨rfl, rfl, m.trees, hm.len, hm.txn, hm.nodup⟩
      | (.ok a, s) =>
        simp only [hb] at hc
        have h1 : exec w' (.txnClone (w'.num ix x)) = (.done, { w'.put s with
            txns := w'.txns.set (w'.num ix x) r.cloned ++ [{ st := startTxn r.st.getTree a, ended := false, copied := false }] }) := by
          simp only [exec, hx', m.st, hc, World.addTxn]; rfl
        have hm1 : Mimics { w.put s with txns := w.txns.set x r.cloned } (exec w' (.txnClone (w'.num ix x))).2 ix := by
          rw [h1]
          exact (show Mimics { w.put s with txns := w.txns.set x r.cloned } { w'.put s with txns := w'.txns.set (w'.num ix x) r.cloned } ix from
            ⟨rfl, rfl, m.trees, hm.len, hm.txn, hm.nodup⟩).extra _
        have hy1 : (exec w' (.txnClone (w'.num ix x))).2.txns[w'.txns.length]? =
            some { st := startTxn r.st.getTree a, ended := false, copied := false } := by
          rw [h1]; simp
        have hni : w'.txns.length ∉ ix := fun h => Nat.lt_irrefl _ (m.lt h)
        have ho1 : (exec w' (.txnClone (w'.num ix x))).1 = .done := by rw [h1]
        clear h1
        generalize hp : exec w' (.txnClone (w'.num ix x)) = p1 at *
        have h3 : exec p1.2 (.commitOnly w'.txns.length) = (.done, { p1.2 with
            trees := p1.2.trees ++ [{ root := a, size := r.st.treeSize, maxNodeId := r.st.maxNodeId }]
            txns := p1.2.txns.set w'.txns.length { st := startTxn r.st.getTree a, ended := true, copied := false } }) := by
          simp only [exec, World.onTxn, hy1]; rfl
        refine ⟨[.txnClone (w'.num ix x), .commitOnly w'.txns.length], ix, ⟨rfl, ?_⟩, m.spared (fun _ _ h => h) (by simp [Op.writes]), ?_, ?_⟩
        · rw [hp]; exact ⟨rfl, trivial⟩
        · simp only [execAll, hp, h3, ho1, pure_run]
          exact (List.Sublist.refl _).cons _
        · simp only [execAll, hp, h3, pure_run]
          exact (show Mimics { w.put s with trees := w.trees ++ [{ root := a, size := r.st.treeSize, maxNodeId := r.st.maxNodeId }], txns := w.txns.set x r.cloned }
              { p1.2 with trees := p1.2.trees ++ [{ root := a, size := r.st.treeSize, maxNodeId := r.st.maxNodeId }] } ix from
            ⟨hm1.heap, hm1.chans, by
              show p1.2.trees ++ [_] = w.trees ++ [_]
              rw [show p1.2.trees = w.trees from hm1.trees], hm1.len, hm1.txn, hm1.nodup⟩).other hni _

omit [Inhabited V] in
/-- The two lengths of a transaction stay equal. -/
theorem Mimics.evens (m : Mimics w w' ix) (he : Evens w') : Evens w := fun r hr => by
  obtain ⟨x, hx⟩ := List.getElem?_of_mem hr
  exact he r (List.mem_of_getElem? ((m.look x).trans hx))

theorem execCalls_append (w : World V) (cs ds : List (LeakCall V)) :
    (execCalls w (cs ++ ds)).2 = (execCalls (execCalls w cs).2 ds).2 := by
  induction cs generalizing w with
  | nil => rfl
  | cons c cs ih => exact ih (execCall w c).2

theorem Polite.append {cs ds : List (LeakCall V)} (h : Polite w (cs ++ ds)) : Polite w cs ∧ Polite (execCalls w cs).2 ds := by
  induction cs generalizing w with
  | nil => exact ⟨trivial, h⟩
  | cons c cs ih =>
    obtain ⟨h1, h2⟩ := ih (w := (execCall w c).2) h.2
    exact ⟨⟨h.1, h1⟩, h2⟩

/-- Every program that writes through `GetTree` is mimicked by one that does not. -/
theorem Mimics.calls (m : Mimics w w' ix) (hw : ∃ ops : List (Op V), w' = (execAll World.init ops).2) (cs : List (LeakCall V)) (hp : Polite w cs) :
    ∃ ops ix', Lawful w' ops ∧ (∀ x j : Nat, ix[x]? = some j → ix'[x]? = some j ∧
        ((∀ c ∈ cs, c.writes ≠ some x) → ∀ op ∈ ops, op.writes ≠ some j)) ∧ (execCalls w cs).1.Sublist (execAll w' ops).1 ∧
      Mimics (execCalls w cs).2 (execAll w' ops).2 ix' := by
  induction cs generalizing w w' ix with
  | nil => exact ⟨[], ix, trivial, fun x j h => ⟨h, by simp⟩, List.Sublist.refl _, m⟩
  | cons c cs ih =>
    obtain ⟨ops0, hw⟩ := hw
    have hev : Evens w := m.evens (hw ▸ worldAfter_evens ops0)
    have hstep : ∃ more ix', Lawful w' more ∧ Spares ix ix' c.writes more ∧ [(execCall w c).1].Sublist (execAll w' more).1 ∧ Mimics (execCall w c).2 (execAll w' more).2 ix' := by
      cases c with
      | leak x c => exact m.leak hev x c
      | api op =>
        obtain ⟨h1, ix', h2, h0⟩ := m.api op
        exact ⟨[op.rename (w'.num ix)], ix', ⟨(m.allows op).trans hp.1, trivial⟩, m.spares h0 op, by
          show [(exec w op).1].Sublist [(exec w' (op.rename (w'.num ix))).1]
          rw [h1]; exact List.Sublist.refl _, h2⟩
    obtain ⟨more, ix1, h1, g1, h2, h3⟩ := hstep
    obtain ⟨ops, ix2, h4, g2, h5, h6⟩ := ih h3 ⟨ops0 ++ more, by rw [execAll_append, hw]⟩ hp.2
    refine ⟨more ++ ops, ix2, h1.extend h4, fun x j hx => ?_, ?_, ?_⟩
    · obtain ⟨a1, a2⟩ := g1 x j hx
      obtain ⟨b1, b2⟩ := g2 x j a1
      refine ⟨b1, fun hn op ho => ?_⟩
      rcases List.mem_append.1 ho with ho | ho
      · exact a2 (hn c (by simp)) op ho
      · exact b2 (fun d hd => hn d (by simp [hd])) op ho
    · have happ : (execAll w' (more ++ ops)).1 = (execAll w' more).1 ++ (execAll (execAll w' more).2 ops).1 := by
        clear h1 h2 h3 h4 h5 h6 g1 g2 m hw
        induction more generalizing w' with
        | nil => rfl
        | cons o os ih => show _ :: _ = _ :: _; exact congrArg _ (ih)
      rw [happ]
      exact h2.append h5
    · rw [execAll_append]; exact h6

omit [Inhabited V] in
theorem Mimics.init : Mimics (World.init : World V) World.init [] :=
  ⟨rfl, rfl, rfl, rfl, fun x j h => by simp at h, List.nodup_nil⟩

end Art
