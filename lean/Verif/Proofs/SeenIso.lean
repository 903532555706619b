import Verif.Proofs.Snapshot
/-
What can be seen while a call is running: the writes that the calls make one by one, and that none of them touches a node
of an existing tree, except for its channel.
-/
set_option autoImplicit false
set_option linter.unusedVariables false
set_option linter.unusedSimpArgs false
set_option linter.unusedSectionVars false
namespace Art
variable {V : Type} {α β : Type}

/-! ### The writes of a call are complete -/

section
variable [Inhabited V] (w : World V)

theorem onTree_trail (t : Nat) (f : Tree → M V α) (out : α → Out V × List Tree) :
    Trail w.heap (w.seenTree t f) (w.onTree t f out).2.heap := by
  unfold World.onTree World.seenTree
  cases w.trees[t]? with
  | none => rfl
  | some tr =>
    have h := (f tr).trail (w.st default)
    simp only
    match hr : f tr (w.st default) with
    | (.ok a, s) => rw [hr] at h; exact h
    | (.error e, s) => rw [hr] at h; exact h

theorem onTxn_trail (x : Nat) (f : M V α) (out : α → Out V × List Tree) (mark : TxnRec → TxnRec) :
    Trail w.heap (w.seenTxn x f) (w.onTxn x f out mark).2.heap := by
  unfold World.onTxn World.seenTxn
  cases w.txns[x]? with
  | none => rfl
  | some r =>
    have h := f.trail (w.st r.st)
    simp only
    match hr : f (w.st r.st) with
    | (.ok a, s) => rw [hr] at h; exact h
    | (.error e, s) => rw [hr] at h; exact h

theorem addTxn_heap (p : R TxnSt × St V) : (w.addTxn p).2.heap = p.2.heap := by
  unfold World.addTxn
  match p with
  | (.ok a, s) => rfl
  | (.error e, s) => rfl

/-- A call that writes nothing. -/
theorem trail_of_seen_nil {h h' : Heap V} {l : List (Write V)} (ht : Trail h l h') (hl : l = []) : Trail h [] h' := hl ▸ ht

theorem seenTree_nil {t : Nat} {f : Tree → M V α} (h : ∀ tr s, (f tr).seen s = []) : w.seenTree t f = [] := by
  unfold World.seenTree
  cases w.trees[t]? with
  | none => rfl
  | some tr => exact h tr _

theorem seenTxn_nil {x : Nat} {f : M V α} (h : ∀ s, f.seen s = []) : w.seenTxn x f = [] := by
  unfold World.seenTxn
  cases w.txns[x]? with
  | none => rfl
  | some tr => exact h _

theorem txnNotify_seen (s : St V) : (txnNotify : M V Unit).seen s = [] := by
  unfold txnNotify
  rw [(bind_ok (m := txnSt) rfl).2]
  split <;> rfl

theorem txnCommit_seen (s : St V) : (txnCommit : M V Tree).seen s = [] := by
  unfold txnCommit txnCommitOnly
  rw [M.assoc, (bind_ok (m := txnSt) rfl).2, M.pure_then]
  match h : (txnNotify : M V Unit) s with
  | (.ok a, s') => rw [(bind_ok h).2, txnNotify_seen]; rfl
  | (.error e, s') => rw [(bind_error h).2, txnNotify_seen]; rfl

/-- The writes recorded for a call lead from the heap before the call to the heap after it. -/
theorem exec_trail (op : Op V) : Trail w.heap (execSeen w op) (exec w op).2.heap := by
  cases op with
  | newTree =>
    have h := (newRadixTree : M V Tree).trail (w.st default)
    simp only [exec, execSeen]
    match hr : (newRadixTree : M V Tree) (w.st default) with
    | (.ok a, s) => rw [hr] at h; exact h
    | (.error e, s) => rw [hr] at h; exact h
  | cloneTree t => exact onTree_trail ..
  | insert t k v => exact onTree_trail ..
  | delete t k => exact onTree_trail ..
  | deletePrefix t k => exact onTree_trail ..
  | get t k => exact trail_of_seen_nil (onTree_trail w t _ _) (seenTree_nil w fun _ _ => rfl)
  | getWatch t k => exact onTree_trail ..
  | seekPrefixWatch t p => exact onTree_trail ..
  | len t => exact trail_of_seen_nil (onTree_trail w t _ _) (seenTree_nil w fun _ _ => rfl)
  | begin t =>
    simp only [exec, execSeen, World.seenTree]
    cases w.trees[t]? with
    | none => rfl
    | some tr =>
      simp only
      rw [addTxn_heap]
      exact (beginTxn tr : M V TxnSt).trail (w.st default)
  | txnClone x =>
    simp only [exec, execSeen, World.seenTxn]
    cases w.txns[x]? with
    | none => rfl
    | some r =>
      simp only
      rw [addTxn_heap]
      exact (txnClone : M V TxnSt).trail (w.st r.st)
  | trackMutate x b => exact trail_of_seen_nil (onTxn_trail w x _ _ _) (seenTxn_nil w fun _ => rfl)
  | txnInsert x k v => exact onTxn_trail ..
  | txnDelete x k => exact onTxn_trail ..
  | txnDeletePrefix x k => exact onTxn_trail ..
  | txnGet x k => exact trail_of_seen_nil (onTxn_trail w x _ _ _) (seenTxn_nil w fun s => by
      simp only [txnGet]
      rw [(bind_ok (m := M.get) rfl).2]
      show (M.lift _ >>= _ : M V _).seen s = []
      cases hs : search s.heap s.txn.root k with
      | ok a => rw [(bind_ok (s := s) (m := M.lift (.ok a)) rfl).2]; rfl
      | error e => rw [(bind_error (s := s) (m := M.lift (.error e)) rfl).2]; rfl)
  | txnGetWatch x k => exact onTxn_trail ..
  | commit x => exact trail_of_seen_nil (onTxn_trail w x _ _ _) (seenTxn_nil w txnCommit_seen)
  | commitOnly x => exact trail_of_seen_nil (onTxn_trail w x _ _ _) (seenTxn_nil w fun _ => rfl)
  | notify x => exact trail_of_seen_nil (onTxn_trail w x _ _ _) (seenTxn_nil w txnNotify_seen)

theorem execAll_trail (ops : List (Op V)) (w : World V) : Trail w.heap (seenAll w ops) (execAll w ops).2.heap := by
  induction ops generalizing w with
  | nil => rfl
  | cons op ops ih => exact (exec_trail w op).append (ih _)

end

/-! ### Calls that write nothing but channels and new nodes -/

/-- Running `m` changes no node that exists, apart from channels, at any time, and does not write to other fields. -/
def Soft (m : M V α) : Prop := ∀ s, AgreeAll s.heap (m s).2.heap ∧
  ∀ e ∈ m.seen s, AgreeAll s.heap e.heap ∧ (e.chan = false → s.heap.length ≤ e.addr)

theorem Soft.silent {m : M V α} (h : ∀ s, (m s).2.heap = s.heap) (h' : ∀ s, m.seen s = []) : Soft m := fun s =>
  ⟨by rw [h s]; exact .refl _, fun e he => by rw [h' s] at he; cases he⟩

theorem Soft.bind {m : M V α} {f : α → M V β} (h : Soft m) (hf : ∀ a, Soft (f a)) : Soft (m >>= f) := fun s => by
  obtain ⟨h1, h2⟩ := h s
  match hm : m s with
  | (.ok a, s') =>
    rw [hm] at h1
    obtain ⟨h3, h4⟩ := hf a s'
    rw [(bind_ok hm).1, (bind_ok hm).2]
    refine ⟨h1.trans h3, fun e he => (List.mem_append.1 he).elim (h2 e) fun he => ?_⟩
    exact ⟨h1.trans (h4 e he).1, fun hc => Nat.le_trans h1.len ((h4 e he).2 hc)⟩
  | (.error e, s') =>
    rw [hm] at h1
    rw [(bind_error hm).1, (bind_error hm).2]
    exact ⟨h1, h2⟩

theorem Soft.pure (a : α) : Soft (Pure.pure a : M V α) := .silent (fun _ => rfl) fun _ => rfl
theorem Soft.lift (r : R α) : Soft (M.lift r : M V α) := .silent (fun s => by rw [lift_run]) fun _ => rfl
theorem Soft.get : Soft (M.get : M V (St V)) := .silent (fun _ => rfl) fun _ => rfl
theorem Soft.txnSt : Soft (Art.txnSt : M V TxnSt) := .silent (fun _ => rfl) fun _ => rfl
theorem Soft.modTxn (f : TxnSt → TxnSt) : Soft (Art.modTxn f : M V Unit) := .silent (fun _ => rfl) fun _ => rfl
theorem Soft.cell (a : Addr) : Soft (Art.cell a : M V (Cell V)) := .silent (fun _ => rfl) fun _ => rfl
theorem Soft.newCell (c : Cell V) : Soft (Art.newCell c : M V Addr) := fun s =>
  ⟨.append _ _, fun e he => by rw [List.mem_singleton.1 he]; exact ⟨.append _ _, fun _ => Nat.le_refl _⟩⟩
theorem Soft.slowNotify : Soft (Art.slowNotify : M V Unit) := .silent (fun _ => rfl) fun _ => rfl

theorem Soft.getMutateCh (a : Addr) : Soft (Art.getMutateCh a : M V ChanId) := fun s => by
  have h : AgreeAll s.heap (Art.getMutateCh a s).2.heap := by
    rw [getMutateCh_run]
    cases hc : s.heap[a]? with
    | none => exact .refl _
    | some c =>
      simp only
      cases c.ch with
      | some k => exact .refl _
      | none => exact .setCh hc _
  refine ⟨h, fun e he => ?_⟩
  obtain ⟨h1, h2⟩ := getMutateCh_seen a s e he
  exact ⟨by rw [h2]; exact h, fun hc => by rw [h1] at hc; cases hc⟩

theorem Soft.cloneNode (a : Addr) (b : Bool) : Soft (Art.cloneNode a b : M V Addr) := by
  unfold Art.cloneNode Art.keepCh
  refine .bind ?_ fun ch => .bind (.cell a) fun c => ?_
  · split
    · exact .bind (.getMutateCh a) fun _ => .pure _
    · exact .pure _
  · cases c <;> exact .newCell _

theorem Soft.beginTxn (t : Tree) : Soft (Art.beginTxn t : M V TxnSt) := .bind (.cloneNode _ _) fun _ => .pure _
theorem Soft.treeClone (t : Tree) : Soft (Art.treeClone t : M V Tree) := .bind (.cloneNode _ _) fun _ => .pure _
theorem Soft.txnClone : Soft (Art.txnClone : M V TxnSt) := .bind .txnSt fun _ => .bind (.cloneNode _ _) fun _ => .pure _
theorem Soft.newRadixTree [Inhabited V] : Soft (Art.newRadixTree : M V Tree) := .bind (.newCell _) fun _ => .bind (.newCell _) fun _ => .pure _
theorem Soft.treeGetWatch (t : Tree) (k : Key) : Soft (Art.treeGetWatch t k : M V (ChanId × Option V)) :=
  .bind .get fun _ => .bind (.lift _) fun _ => .bind (.getMutateCh _) fun _ => .pure _
theorem Soft.seekPrefixWatch (it : Iter) (k : Key) : Soft (Art.seekPrefixWatch it k : M V (Iter × ChanId)) :=
  .bind .get fun _ => .bind (.lift _) fun _ => .bind (.getMutateCh _) fun _ => .pure _
theorem Soft.txnNotify : Soft (Art.txnNotify : M V Unit) := .bind .txnSt fun _ => by
  split
  · exact .pure _
  · exact .slowNotify
theorem Soft.txnCommit : Soft (Art.txnCommit : M V Tree) := by
  unfold Art.txnCommit
  refine .bind (.bind .txnSt fun _ => .pure _) fun _ => ?_
  exact .bind .txnNotify fun _ => .pure _

/-! ### No write touches what others read -/

/-- The write leaves the nodes of `S` alone, except for a channel. -/
def Untouched (S : Addr → Prop) (h : Heap V) (e : Write V) : Prop := Agree S h e.heap ∧ (e.chan = false → ¬ S e.addr)

section
variable [Inhabited V] {w : World V} {S : ViewId → Addr → Prop} {O : Nat → Addr → Prop}

theorem Soft.apart {m : M V α} (hm : Soft m) {s : St V} {S : Addr → Prop} {p : Addr × Nat} (hr : Region s.heap S p) :
    ∀ e ∈ m.seen s, Untouched S s.heap e := fun e he =>
  ⟨((hm s).2 e he).1.on hr, fun hc hs => absurd (hr.lt hs) (Nat.not_lt.2 (((hm s).2 e he).2 hc))⟩

theorem seenTree_soft {t : Nat} {f : Tree → M V α} (hf : ∀ tr, Soft (f tr)) {S : Addr → Prop} {p : Addr × Nat} (hr : Region w.heap S p) :
    ∀ e ∈ w.seenTree t f, Untouched S w.heap e := by
  unfold World.seenTree
  cases w.trees[t]? with
  | none => exact fun e he => nomatch he
  | some tr => exact (hf tr).apart (s := w.st default) hr

theorem seenTxn_soft {x : Nat} {f : M V α} (hf : Soft f) {S : Addr → Prop} {p : Addr × Nat} (hr : Region w.heap S p) :
    ∀ e ∈ w.seenTxn x f, Untouched S w.heap e := by
  unfold World.seenTxn
  cases w.txns[x]? with
  | none => exact fun e he => nomatch he
  | some r => exact hf.apart (s := w.st r.st) hr

theorem treeOp_seen {m : M V α} {t : Tree} {s : St V} {S : Addr → Prop} (hr : Region s.heap S (t.root, t.maxNodeId))
    (hf : ∀ (C : Cx V) (s : St V), (∀ k v, C.P k v) → J C s → C.Good s s.txn.root → TrT C m s) :
    ∀ e ∈ (treeOp t m).seen s, AgreeAll s.heap e.heap ∧ (e.chan = false → s.heap.length ≤ e.addr) := by
  obtain ⟨s1, h1, htx, hlen, hag, hreg⟩ := cloneNode_region hr
  have hj : J (isoCx s1.heap (fun a => S a ∨ a = s.heap.length) (fun _ => False) t.maxNodeId)
      { s1 with txn := startTxn t s.heap.length } := by
    refine ⟨Nat.le_refl _, fun a c hc hacc => ?_, fun a _ _ => rfl, rfl⟩
    have hlt : a < s1.heap.length := (List.getElem?_eq_some_iff.1 hc).1
    have hs := hacc.resolve_right (by show ¬ s1.heap.length ≤ a; omega)
    obtain ⟨c', h3, h4, h5⟩ := hreg.cell a hs
    rw [show s1.heap[a]? = some c from hc] at h3; cases h3
    exact ⟨⟨fun b hb => ⟨.inl (h5 b hb), hreg.lt (h5 b hb)⟩, fun _ => h4, fun _ _ => trivial⟩,
      fun hid => absurd h4 (Nat.not_le.2 hid)⟩
  have htr := hf _ { s1 with txn := startTxn t s.heap.length } (fun _ _ => trivial) hj
    ⟨.inl (.inr rfl), by show s.heap.length < s1.heap.length; omega⟩
  have hb : (beginTxn t : M V TxnSt) s = (.ok (startTxn t s.heap.length), s1) := by
    rw [beginTxn_run, show cloneNode t.root true s = _ from h1]
  intro e he
  have he : e ∈ (beginTxn t >>= fun ts => withTxn ts (m >>= fun a => txnCommit >>= fun nt => Pure.pure (nt, a)) : M V (Tree × α)).seen s := he
  rw [(bind_ok hb).2] at he
  rcases List.mem_append.1 he with he | he
  · exact (Soft.beginTxn t s).2 e he
  · have he : e ∈ (m >>= fun a => txnCommit >>= fun nt => Pure.pure (nt, a) : M V (Tree × α)).seen { s1 with txn := startTxn t s.heap.length } := he
    have he : e ∈ m.seen { s1 with txn := startTxn t s.heap.length } := by
      match hm : m { s1 with txn := startTxn t s.heap.length } with
      | (.error x, s2) => rw [(bind_error hm).2] at he; exact he
      | (.ok a, s2) =>
        rw [(bind_ok hm).2] at he
        refine (List.mem_append.1 he).elim (fun h => h) fun he => ?_
        match hc : (txnCommit : M V Tree) s2 with
        | (.error x, s3) => rw [(bind_error hc).2, txnCommit_seen] at he; cases he
        | (.ok a, s3) => rw [(bind_ok hc).2, txnCommit_seen] at he; cases he
    obtain ⟨h3, h4⟩ := htr.seen e he
    refine ⟨hag.trans fun a ha => h4.2 a ha fun ho => ho.elim (fun h => h.elim) fun h => absurd ha (Nat.not_lt.2 h), fun hc => ?_⟩
    rcases h3 hc with h5 | h5
    · exact h5.elim
    · have : s1.heap.length ≤ e.addr := h5
      omega

theorem seenTree_op {t : Nat} {f : Tree → M V α} (hi : INV w.heap w.view w.live S O)
    (hf : ∀ tr S, Region w.heap S (tr.root, tr.maxNodeId) → ∀ e ∈ (f tr).seen (w.st default),
      AgreeAll w.heap e.heap ∧ (e.chan = false → w.heap.length ≤ e.addr)) {v : ViewId} {p : Addr × Nat} (hv : w.view v = some p) :
    ∀ e ∈ w.seenTree t f, Untouched (S v) w.heap e := by
  have hr := hi.region v p hv
  unfold World.seenTree
  cases ht : w.trees[t]? with
  | none => exact fun e he => nomatch he
  | some tr =>
    intro e he
    obtain ⟨h1, h2⟩ := hf tr _ (hi.region (.inl t) _ (by show (w.trees[t]?).map _ = _; rw [ht]; rfl)) e he
    exact ⟨h1.on hr, fun hc hs => absurd (hr.lt hs) (Nat.not_lt.2 (h2 hc))⟩

theorem seenTxn_write (hi : INV w.heap w.view w.live S O) {x : Nat} {f : M V α} (hl : ∀ r, w.txns[x]? = some r → r.live ≠ none)
    (hf : ∀ (C : Cx V) (s : St V), (∀ k v, C.P k v) → J C s → C.Good s s.txn.root → TrT C f s) {v : ViewId} {p : Addr × Nat}
    (hv : w.view v = some p) (hne : v ≠ .inr x) : ∀ e ∈ w.seenTxn x f, Untouched (S v) w.heap e := by
  unfold World.seenTxn
  cases ht : w.txns[x]? with
  | none => exact fun e he => nomatch he
  | some r =>
    have hlv : r.ended = false ∧ r.copied = false := by
      have := hl r ht
      unfold TxnRec.live at this
      by_cases h : (r.ended || r.copied) = true
      · rw [if_pos h] at this; exact absurd rfl this
      · simpa using h
    have hlx : w.live x = some r.st.oldMaxNodeId := by rw [live_txn ht]; simp [TxnRec.live, hlv]
    obtain ⟨hj, hg⟩ := hi.toJ (x := x) (s := w.st r.st) rfl hlx (view_txn ht)
    have htr := hf _ (w.st r.st) (fun _ _ => trivial) hj hg
    intro e he
    obtain ⟨h1, h2⟩ := htr.seen e he
    have hown : ∀ a, S v a → ¬ (isoCx w.heap (S (.inr x)) (O x) r.st.oldMaxNodeId).Own a := fun a ha ho => by
      rcases ho with ho | ho
      · exact hi.disj x _ hlx v p hv hne a ho ha
      · exact absurd ((hi.region v p hv).lt ha) (Nat.not_lt.2 ho)
    exact ⟨fun a ha => h2.2 a ((hi.region v p hv).lt ha) (hown a ha), fun hc hs => hown _ hs (h1 hc)⟩

/-- No write of a call touches a node of a tree, or of a transaction other than the one that is written to. -/
theorem exec_apart (hi : INV w.heap w.view w.live S O) (op : Op V) (hok : w.allows op = true) {v : ViewId} {p : Addr × Nat}
    (hv : w.view v = some p) (hne : ∀ x, op.writes = some x → v ≠ .inr x) : ∀ e ∈ execSeen w op, Untouched (S v) w.heap e := by
  have hr := hi.region v p hv
  cases op with
  | newTree => exact Soft.newRadixTree.apart (s := w.st default) hr
  | cloneTree t => exact seenTree_soft .treeClone hr
  | insert t k v => exact seenTree_op hi (fun tr S hr => treeOp_seen (m := txnInsert k v) hr fun C s hp hj hg => TrT.txnInsert hj hg (hp _ _)) hv
  | delete t k => exact seenTree_op hi (fun tr S hr => treeOp_seen (m := txnDelete k) hr fun C s hp hj hg => TrT.txnDelete hj hg _ (hp _ _)) hv
  | deletePrefix t k => exact seenTree_op hi (fun tr S hr => treeOp_seen (m := txnDeletePrefix k) hr fun C s hp hj hg => TrT.txnDeletePrefix hj hg _ (hp _ _)) hv
  | get t k => exact fun e he => nomatch he
  | getWatch t k => exact seenTree_soft (fun tr => .treeGetWatch tr k) hr
  | seekPrefixWatch t q => exact seenTree_soft (fun tr => .seekPrefixWatch _ q) hr
  | len t => exact fun e he => nomatch he
  | begin t => exact seenTree_soft .beginTxn hr
  | txnClone x => exact seenTxn_soft .txnClone hr
  | trackMutate x b => exact fun e he => nomatch he
  | txnInsert x k v => exact seenTxn_write hi (allows_live w hok rfl) (fun C s hp hj hg => TrT.txnInsert hj hg (hp _ _)) hv (hne x rfl)
  | txnDelete x k => exact seenTxn_write hi (allows_live w hok rfl) (fun C s hp hj hg => TrT.txnDelete hj hg _ (hp _ _)) hv (hne x rfl)
  | txnDeletePrefix x k => exact seenTxn_write hi (allows_live w hok rfl) (fun C s hp hj hg => TrT.txnDeletePrefix hj hg _ (hp _ _)) hv (hne x rfl)
  | txnGet x k => exact fun e he => nomatch he
  | txnGetWatch x k => exact seenTxn_soft (.bind .txnSt fun _ => .treeGetWatch _ k) hr
  | commit x => exact fun e he => nomatch he
  | commitOnly x => exact fun e he => nomatch he
  | notify x => exact fun e he => nomatch he

theorem Untouched.congr {S : Addr → Prop} {h h' : Heap V} (ha : Agree S h h') {e : Write V} (he : Untouched S h' e) : Untouched S h e :=
  ⟨ha.trans he.1, he.2⟩

theorem seenAll_apart (hi : INV w.heap w.view w.live S O) {ops : List (Op V)} (hl : Lawful w ops) {v : ViewId} {p : Addr × Nat}
    (hv : w.view v = some p) (hne : ∀ op ∈ ops, ∀ x, op.writes = some x → v ≠ .inr x) : ∀ e ∈ seenAll w ops, Untouched (S v) w.heap e := by
  induction ops generalizing w S O with
  | nil => exact fun e he => nomatch he
  | cons op ops ih =>
    intro e he
    rcases List.mem_append.1 he with he | he
    · exact exec_apart hi op hl.1 hv (hne op (List.mem_cons_self ..)) e he
    · obtain ⟨S1, O1, h1, h2, h3⟩ := exec_iso hi op hl.1
      obtain ⟨a1, a2, a3⟩ := h3 v p hv (hne op (List.mem_cons_self ..))
      have := ih h1 hl.2 a1 (fun o ho => hne o (List.mem_cons_of_mem _ ho)) e he
      rw [a2] at this
      exact this.congr a3

end

end Art
