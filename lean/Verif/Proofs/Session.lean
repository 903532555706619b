import Verif.Proofs.PoolRun
import Verif.PoolSpec
import Verif.Proofs.SeenIso
import Verif.Proofs.RankWorld
/-
A goroutine's work when nobody else runs: it writes to nodes of its own only, it ends, and it is the same as making the
calls one after the other in a history.
-/
set_option autoImplicit false
set_option linter.unusedVariables false
set_option linter.unusedSimpArgs false
set_option linter.unusedSectionVars false
namespace Art
variable {V : Type} {α β : Type}

/-! ### Alone -/

/-- The code keeps the invariants, writes to owned nodes only, and does not run out of a loop bound. -/
structure Alone (C : Cx V) (m : M V α) (s : St V) : Prop where
  j : J C (m s).2
  root : C.Good (m s).2 (m s).2.txn.root
  seen : ∀ e ∈ m.seen s, C.Wr e
  ends : Completes m s

section
variable {C : Cx V} {s : St V}

theorem Alone.bind {m : M V α} {f : α → M V β} (h : Alone C m s)
    (hf : ∀ a s' rk, J C s' → C.Good s' s'.txn.root → Ranked rk s'.heap → Alone C (f a) s') : Alone C (m >>= f) s := by
  obtain ⟨hj, hg, hs, hc⟩ := h
  have hc' : Completes (m >>= f) s := hc.bind fun a s' e => by
    rw [e] at hj hg
    obtain ⟨-, rk, hr⟩ := hc
    rw [e] at hr
    exact (hf a s' rk hj hg hr).ends
  match hm : m s with
  | (.ok a, s') =>
    rw [hm] at hj hg
    obtain ⟨-, rk, hr⟩ := hc
    rw [hm] at hr
    obtain ⟨h1, h2, h3, h4⟩ := hf a s' rk hj hg hr
    refine ⟨?_, ?_, ?_, hc'⟩
    · rw [(bind_ok hm).1]; exact h1
    · rw [(bind_ok hm).1]; exact h2
    · rw [(bind_ok hm).2]
      exact fun e he => (List.mem_append.1 he).elim (hs e) (h3 e)
  | (.error x, s') =>
    rw [hm] at hj hg
    refine ⟨?_, ?_, ?_, hc'⟩
    · rw [(bind_error hm).1]; exact hj
    · rw [(bind_error hm).1]; exact hg
    · rw [(bind_error hm).2]; exact hs

theorem Alone.pure (hj : J C s) (hg : C.Good s s.txn.root) {rk : Rank} (hr : Ranked rk s.heap) (a : α) : Alone C (Pure.pure a : M V α) s :=
  ⟨hj, hg, C.unseen, nofun, rk, hr⟩

theorem Alone.ofTrT {m : M V α} (h : TrT C m s) (hc : Completes m s) : Alone C m s := ⟨h.j, h.root, h.seen, hc⟩

theorem Alone.txnNotify [Inhabited V] (hj : J C s) (hg : C.Good s s.txn.root) {rk : Rank} (hr : Ranked rk s.heap) : Alone C (txnNotify : M V Unit) s := by
  refine ⟨?_, ?_, by rw [txnNotify_seen]; exact C.unseen, notify_completes hr⟩
  all_goals
    unfold Art.txnNotify
    rw [(bind_ok (show (txnSt : M V TxnSt) s = (.ok s.txn, s) from rfl)).1]
    cases s.txn.trackMutate
  · exact hj
  · exact ⟨hj.len, fun a c hc ha => let ⟨h1, h2⟩ := hj.cells a c hc ha; ⟨⟨h1.pts, h1.id_le, h1.leafP⟩, h2⟩, hj.frame, hj.om⟩
  · exact hg
  · exact hg

theorem Alone.call [Inhabited V] (hp : ∀ k v, C.P k v) (hj : J C s) (hg : C.Good s s.txn.root) {rk : Rank} (hr : Ranked rk s.heap)
    (ts : List Tree) (c : Call V) : Alone C (c.code ts) s := by
  cases c with
  | insert k v => exact .bind (.ofTrT (.txnInsert hj hg (hp _ _)) (txnInsert_ends hr hg.2 k v)) fun a s' rk hj hg hr => .pure hj hg hr _
  | delete k => exact .bind (.ofTrT (.txnDelete hj hg _ (hp _ _)) (txnDelete_ends hr hg.2 k)) fun a s' rk hj hg hr => .pure hj hg hr _
  | deletePrefix k => exact .bind (.ofTrT (.txnDeletePrefix hj hg _ (hp _ _)) (txnDeletePrefix_ends hr hg.2 k)) fun a s' rk hj hg hr => .pure hj hg hr _
  | get k =>
    refine .bind (.ofTrT (.ofTr (Q := fun _ _ => True) ?_ hg) (Tk.ends (rk := rk) (Q := fun _ _ _ => True) ?_)) fun a s' rk hj hg hr => .pure hj hg hr _
    · exact Tr.bindGet (Tr.bindLift hj fun a _ => Tr.pure hj trivial)
    · exact Tk.bindGet (Tk.bindLift hr (search_nofuel _ _ _) fun hit _ => Tk.pure hr trivial)
  | getWatch k =>
    have h0 : Alone C (txnSt : M V TxnSt) s := ⟨hj, hg, C.unseen, nofun, rk, hr⟩
    refine h0.bind fun t s' rk hj hg hr => ?_
    refine .bind (.ofTrT (.ofTr (Q := fun _ _ => True) ?_ hg) (treeGetWatch_completes hr _ k)) fun a s' rk hj hg hr => .pure hj hg hr _
    exact Tr.bindGet (Tr.bindLift hj fun a _ => Tr.bind (Tr.getMutateCh hj _) fun _ s1 hj1 _ _ => Tr.pure hj1 trivial)
  | track b =>
    refine .bind ?_ fun a s' rk hj hg hr => .pure hj hg hr _
    exact ⟨hj.modTxn (t := { s.txn with trackMutate := b }) (Nat.le_refl _) rfl, hg, C.unseen, nofun, rk, hr⟩
  | notify =>
    refine .bind ?_ fun a s' rk hj hg hr => .pure hj hg hr _
    exact .txnNotify hj hg hr
  | peek i k =>
    show Alone C (match ts[i]? with | none => _ | some t => _) s
    cases ts[i]? with
    | none => exact .pure hj hg hr _
    | some t =>
      refine .ofTrT (.ofTr (Q := fun _ _ => True) ?_ hg) (Tk.ends (rk := rk) (Q := fun _ _ _ => True) ?_)
      · exact Tr.bindGet (Tr.bindLift hj fun a _ => Tr.pure hj trivial)
      · exact Tk.bindGet (Tk.bindLift hr (treeGet_nofuel _ _ _) fun hit _ => Tk.pure hr trivial)

theorem Alone.txnEnd [Inhabited V] (hj : J C s) (hg : C.Good s s.txn.root) {rk : Rank} (hr : Ranked rk s.heap) (nf : Bool) : Alone C (txnEnd nf) s := by
  unfold Art.txnEnd
  cases nf with
  | false => exact ⟨hj, hg, C.unseen, nofun, rk, hr⟩
  | true =>
    show Alone C (txnCommitOnly >>= fun nt => Art.txnNotify >>= fun _ => Pure.pure nt) s
    refine .bind (α := Tree) ⟨hj, hg, C.unseen, nofun, rk, hr⟩ fun nt s' rk hj hg hr => ?_
    exact .bind (.txnNotify hj hg hr) fun _ s' rk hj hg hr => .pure hj hg hr _

theorem Alone.callAll [Inhabited V] (hp : ∀ k v, C.P k v) (hj : J C s) (hg : C.Good s s.txn.root) {rk : Rank} (hr : Ranked rk s.heap)
    (ts : List Tree) (cs : List (Call V)) : Alone C (callAll ts cs) s := by
  induction cs generalizing s rk with
  | nil => exact .pure hj hg hr _
  | cons c cs ih =>
    exact .bind (.call hp hj hg hr ts c) fun a s' rk hj hg hr => .bind (ih hj hg hr) fun a s' rk hj hg hr => .pure hj hg hr _

end

/-- The work of a goroutine by itself: all writes go to new nodes, except those that only set a channel. -/
theorem session_alone [Inhabited V] {t : Tree} {s : St V} {S : Addr → Prop} (hr : Region s.heap S (t.root, t.maxNodeId)) {rk : Rank}
    (hk : Ranked rk s.heap) (ts : List Tree) (cs : List (Call V)) (nf : Bool) :
    (session ts t cs nf s).1 ≠ .error .fuel ∧ ∀ e ∈ (session ts t cs nf).seen s, e.chan = false → s.heap.length ≤ e.addr := by
  obtain ⟨s1, h1, htx, hlen, hag, hreg⟩ := cloneNode_region hr
  have hj : J (isoCx s1.heap (fun a => S a ∨ a = s.heap.length) (fun _ => False) t.maxNodeId)
      { s1 with txn := startTxn t s.heap.length } := by
    refine ⟨Nat.le_refl _, fun a c hc hacc => ?_, fun a _ _ => rfl, rfl⟩
    have hlt : a < s1.heap.length := (List.getElem?_eq_some_iff.1 hc).1
    have hs := hacc.resolve_right (by show ¬ s1.heap.length ≤ a; omega)
    obtain ⟨c', h3, h4, h5⟩ := hreg.cell a hs
    rw [show s1.heap[a]? = some c from hc] at h3; cases h3
    exact ⟨⟨fun b hb => ⟨.inl (h5 b hb), hreg.lt (h5 b hb)⟩, fun _ => h4, fun _ _ => trivial⟩,
      fun hid => absurd h4 (Nat.not_le.2 hid)⟩
  have hb : (beginTxn t : M V TxnSt) s = (.ok (startTxn t s.heap.length), s1) := by
    rw [beginTxn_run, show cloneNode t.root true s = _ from h1]
  obtain ⟨-, rk1, hk1, -, -⟩ := Tk.beginTxn hk t (hr.lt hr.root)
  rw [hb] at hk1
  have htr := Alone.callAll (fun _ _ => trivial) hj ⟨.inl (.inr rfl), by show s.heap.length < s1.heap.length; omega⟩ (rk := rk1) hk1 ts cs
  have htr := htr.bind (f := fun os => txnEnd nf >>= fun nt => Pure.pure (os, nt)) fun os s' rk hj hg hr =>
    .bind (α := Tree) (.txnEnd hj hg hr nf) fun nt s' rk hj hg hr => .pure hj hg hr _
  constructor
  · show ((beginTxn t >>= fun x => withTxn x (callAll ts cs >>= fun os => txnEnd nf >>= fun nt => Pure.pure (os, nt)) : M V _) s).1 ≠ _
    rw [(bind_ok hb).1]
    exact htr.ends.1
  · intro e he hc
    have he : e ∈ (beginTxn t >>= fun x => withTxn x (callAll ts cs >>= fun os => txnEnd nf >>= fun nt => Pure.pure (os, nt)) : M V _).seen s := he
    rw [(bind_ok hb).2] at he
    rcases List.mem_append.1 he with he | he
    · exact ((Soft.beginTxn t s).2 e he).2 hc
    · rcases (htr.seen e he).1 hc with h5 | h5
      · exact h5.elim
      · have : s1.heap.length ≤ e.addr := h5
        omega

/-! ### A renaming that only moves new nodes -/

theorem map_id_of {α : Type} {f : α → α} {l : List α} (h : ∀ x ∈ l, f x = x) : l.map f = l := by
  induction l with
  | nil => rfl
  | cons x l ih => rw [List.map_cons, h x (List.mem_cons_self ..), ih fun y hy => h y (List.mem_cons_of_mem _ hy)]

theorem Ranked.hrel {lim : Lim} {rk : Rank} {h : Heap V} (hr : Ranked rk h) {σ : Addr → Addr} (ho : ∀ a, a < h.length → σ a = a)
    (hn : ∀ a, h.length ≤ a → h.length ≤ σ a) : HRel σ h h := by
  intro a
  cases hc : h[a]? with
  | none =>
    have h1 := hn a (List.getElem?_eq_none_iff.1 hc)
    rw [List.getElem?_eq_none_iff.2 h1]
    exact .none
  | some c =>
    rw [ho a (List.getElem?_eq_some_iff.1 hc).1, hc]
    refine .some ?_
    have hp : ∀ b, c.Pts b → σ b = b := fun b hb => ho b (hr a c b hc hb).1
    cases c with
    | leaf l => exact .leaf l ⟨l.ch, .refl _⟩
    | inner n =>
      have := CRel.inner (V := V) (σ := σ) n ⟨n.ch, .refl _⟩
      have h1 : n.leaf.map σ = n.leaf := by
        cases hl : n.leaf with
        | none => rfl
        | some b => exact congrArg some (hp b (.inl hl))
      have h2 : n.children.map (Option.map σ) = n.children := map_id_of fun o ho => by
        cases o with
        | none => rfl
        | some b => exact congrArg some (hp b (.inr ho))
      unfold Inner.ren at this
      rw [h1, h2] at this
      exact this

/-! ### A history -/

/-- The world in the middle of a transaction. -/
def World.during (w : World V) (s : St V) : World V :=
  { heap := s.heap, chans := s.chans, trees := w.trees, txns := w.txns ++ [{ st := s.txn, ended := false, copied := false }] }

section
variable [Inhabited V] (w : World V) (s : St V)

theorem World.during_txn : (w.during s).txns[w.txns.length]? = some { st := s.txn, ended := false, copied := false } := by
  simp [World.during]

theorem World.during_set (s' : St V) : (w.during s).txns.set w.txns.length { st := s'.txn, ended := false, copied := false } = (w.during s').txns := by
  simp [World.during]

theorem onTxn_during {m : M V α} {out : α → Out V} :
    (w.during s).onTxn w.txns.length m (fun a => (out a, [])) =
      match m s with
      | (.ok a, s') => (out a, w.during s')
      | (.error e, s') => (.panic e, w.during s') := by
  unfold World.onTxn
  rw [World.during_txn]
  dsimp only
  have : (w.during s).st s.txn = s := rfl
  rw [this]
  match m s with
  | (.ok a, s') =>
    dsimp only [id]
    rw [World.during_set]
    simp [World.put, World.during]
  | (.error e, s') =>
    dsimp only [id]
    rw [World.during_set]
    simp [World.put, World.during]

/-- A call in a history is the call of the goroutine. -/
theorem exec_call (c : Call V) :
    match c.code w.trees s with
    | (.ok o, s') => (exec (w.during s) (c.toOp w.txns.length)).1.plain = o ∧ (exec (w.during s) (c.toOp w.txns.length)).2 = w.during s' ∧ ∀ e, o ≠ .panic e
    | (.error e, s') => exec (w.during s) (c.toOp w.txns.length) = (.panic e, w.during s') := by
  have key : ∀ {α : Type} (m : M V α) (out out' : α → Out V) (op : Op V),
      exec (w.during s) op = (w.during s).onTxn w.txns.length m (fun a => (out a, [])) → (∀ a, (out a).plain = out' a) → (∀ a e, out' a ≠ .panic e) →
      match (m >>= fun a => Pure.pure (out' a) : M V (Out V)) s with
      | (.ok o, s') => (exec (w.during s) op).1.plain = o ∧ (exec (w.during s) op).2 = w.during s' ∧ ∀ e, o ≠ .panic e
      | (.error e, s') => exec (w.during s) op = (.panic e, w.during s') := by
    intro α m out out' op he hp hn
    rw [he, onTxn_during]
    match hm : m s with
    | (.ok a, s') =>
      rw [(bind_ok hm).1]
      exact ⟨hp a, rfl, hn a⟩
    | (.error e, s') =>
      rw [(bind_error hm).1]
  cases c with
  | insert k v => exact key (txnInsert k v) (fun r => .updated r.1 r.2) (fun r => .updated r.1 r.2) _ rfl (fun _ => rfl) fun _ _ => nofun
  | delete k => exact key (txnDelete k) (fun r => .updated r.1 r.2) (fun r => .updated r.1 r.2) _ rfl (fun _ => rfl) fun _ _ => nofun
  | deletePrefix k => exact key (txnDeletePrefix k) (fun r => .flag r) (fun r => .flag r) _ rfl (fun _ => rfl) fun _ _ => nofun
  | get k => exact key (txnGet k) (fun r => .value r) (fun r => .value r) _ rfl (fun _ => rfl) fun _ _ => nofun
  | getWatch k =>
    exact key (txnSt >>= fun t => treeGetWatch { root := t.root, size := t.treeSize, maxNodeId := t.maxNodeId } k) (fun r => .chan r.1 r.2) (fun r => .value r.2) _ rfl (fun _ => rfl) fun _ _ => nofun
  | track b => exact key (txnTrackMutate b) (fun r => .done) (fun r => .done) _ rfl (fun _ => rfl) fun _ _ => nofun
  | notify => exact key txnNotify (fun r => .done) (fun r => .done) _ rfl (fun _ => rfl) fun _ _ => nofun
  | peek i k =>
    show match (match w.trees[i]? with | none => (Pure.pure .noSuch : M V (Out V)) | some t => M.get >>= fun s => M.lift (treeGet s.heap t k) >>= fun r => Pure.pure (.value r) : M V (Out V)) s with
      | (.ok o, s') => _
      | (.error e, s') => _
    simp only [Call.toOp, exec, World.onTree, show (w.during s).trees = w.trees from rfl]
    cases ht : w.trees[i]? with
    | none => exact ⟨rfl, rfl, fun _ => nofun⟩
    | some t =>
      have h1 : (M.get >>= fun s => M.lift (treeGet s.heap t k) : M V (Option V)) ((w.during s).st default) = (treeGet s.heap t k, (w.during s).st default) := by
        cases hg : treeGet s.heap t k with
        | ok a => exact congrArg (fun r : R (Option V) => ((M.lift r : M V (Option V)) ((w.during s).st default))) hg
        | error e => exact congrArg (fun r : R (Option V) => ((M.lift r : M V (Option V)) ((w.during s).st default))) hg
      have h2 : (M.get >>= fun s => M.lift (treeGet s.heap t k) >>= fun r => Pure.pure (.value r) : M V (Out V)) s = ((treeGet s.heap t k).map .value, s) := by
        show (M.lift (treeGet s.heap t k) >>= fun r => Pure.pure (.value r) : M V (Out V)) s = _
        cases hg : treeGet s.heap t k with
        | ok a => rfl
        | error e => rfl
      dsimp only
      rw [h1, h2]
      cases hg : treeGet s.heap t k with
      | ok a => exact ⟨rfl, by simp [World.put, World.during, World.st], fun _ => nofun⟩
      | error e => simp [World.put, World.during, World.st, Except.map]

/-- The calls in a history are the calls of the goroutine. -/
theorem exec_calls (cs : List (Call V)) (more : List (Op V)) :
    match callAll w.trees cs s with
    | (.ok os, s') => ∃ os', os'.map Out.plain = os ∧ (∀ o ∈ os', ∀ e, o ≠ .panic e) ∧
        execAll (w.during s) (cs.map (Call.toOp w.txns.length) ++ more) = (os' ++ (execAll (w.during s') more).1, (execAll (w.during s') more).2)
    | (.error e, s') => ∃ os' rest, (∀ o ∈ os', ∀ e, o ≠ .panic e) ∧ (execAll (w.during s) (cs.map (Call.toOp w.txns.length) ++ more)).1 = os' ++ .panic e :: rest := by
  have plain_panic : ∀ {o : Out V} {o' : Out V}, o.plain = o' → (∀ e, o' ≠ .panic e) → ∀ e, o ≠ .panic e := by
    intro o o' h1 h2 e he
    subst he
    exact h2 e h1.symm
  induction cs generalizing s with
  | nil => exact ⟨[], rfl, fun o ho => (nomatch ho), rfl⟩
  | cons c cs ih =>
    have h1 := exec_call w s c
    unfold callAll
    match hc : c.code w.trees s with
    | (.error e, s') =>
      rw [(bind_error hc).1]
      rw [hc] at h1
      refine ⟨[], (execAll (w.during s') (cs.map (Call.toOp w.txns.length) ++ more)).1, fun o ho => (nomatch ho), ?_⟩
      simp only [List.map_cons, List.cons_append, execAll, h1, List.nil_append]
    | (.ok o, s') =>
      rw [(bind_ok hc).1]
      rw [hc] at h1
      obtain ⟨h1, h2, h3⟩ := h1
      have h4 := ih s'
      match hr : callAll w.trees cs s' with
      | (.error e, s'') =>
        rw [(bind_error hr).1]
        rw [hr] at h4
        obtain ⟨os', rest, h5, h6⟩ := h4
        refine ⟨(exec (w.during s) (c.toOp w.txns.length)).1 :: os', rest, fun o ho => ?_, ?_⟩
        · rcases List.mem_cons.1 ho with rfl | ho
          · exact plain_panic h1 h3
          · exact h5 o ho
        · simp only [List.map_cons, List.cons_append, execAll, h2, h6]
      | (.ok os, s'') =>
        rw [(bind_ok hr).1]
        rw [hr] at h4
        obtain ⟨os', h5, h6, h7⟩ := h4
        refine ⟨(exec (w.during s) (c.toOp w.txns.length)).1 :: os', by rw [List.map_cons, h1, h5], fun o ho => ?_, ?_⟩
        · rcases List.mem_cons.1 ho with rfl | ho
          · exact plain_panic h1 h3
          · exact h6 o ho
        · simp only [List.map_cons, List.cons_append, execAll, h2, h7]

end

/-- The whole work. -/
theorem exec_session [Inhabited V] (w : World V) (g : Session V) (hg : g.tree < w.trees.length) :
    match g.code w.trees (w.st default) with
    | (.ok (os, nt), s') => ∃ os', os'.map Out.plain = os ∧ (∀ o ∈ os', ∀ e, o ≠ .panic e) ∧
        (execAll w (g.ops w.txns.length)).1 = .done :: os' ++ [.done] ∧ (execAll w (g.ops w.txns.length)).2.trees = w.trees ++ [nt] ∧
        (execAll w (g.ops w.txns.length)).2.heap = s'.heap ∧ (execAll w (g.ops w.txns.length)).2.chans = s'.chans
    | (.error e, s') => ∃ os' rest, (∀ o ∈ os', ∀ e, o ≠ .panic e) ∧ (execAll w (g.ops w.txns.length)).1 = os' ++ .panic e :: rest := by
  obtain ⟨t, ht⟩ : ∃ t, w.trees[g.tree]? = some t := ⟨_, List.getElem?_eq_getElem hg⟩
  unfold Session.code
  rw [ht]
  unfold session
  dsimp only
  match hb : (beginTxn t : M V TxnSt) (w.st default) with
  | (.error e, s1) =>
    rw [(bind_error hb).1]
    refine ⟨[], (execAll (w.put s1) (g.calls.map (Call.toOp w.txns.length) ++ [g.last w.txns.length])).1, fun o ho => (nomatch ho), ?_⟩
    simp only [Session.ops, execAll, exec, ht, hb, World.addTxn, List.nil_append]
  | (.ok x, s1) =>
    rw [(bind_ok hb).1]
    have hd : exec w (.begin g.tree) = (.done, w.during { s1 with txn := x }) := by
      simp only [exec, ht, hb, World.addTxn]
      rfl
    have h1 := exec_calls w { s1 with txn := x } g.calls [g.last w.txns.length]
    show match (callAll w.trees g.calls >>= fun os => txnEnd g.notify >>= fun nt => Pure.pure (os, nt) : M V _) { s1 with txn := x } with
      | (.ok (os, nt), s') => _
      | (.error e, s') => _
    match hr : callAll w.trees g.calls { s1 with txn := x } with
    | (.error e, s2) =>
      rw [(bind_error hr).1]
      rw [hr] at h1
      obtain ⟨os', rest, h2, h3⟩ := h1
      refine ⟨.done :: os', rest, fun o ho => ?_, ?_⟩
      · rcases List.mem_cons.1 ho with rfl | ho
        · exact fun _ => nofun
        · exact h2 o ho
      · simp only [Session.ops, execAll, hd, h3, List.cons_append]
    | (.ok os, s2) =>
      rw [(bind_ok hr).1]
      rw [hr] at h1
      obtain ⟨os', h2, h3, h4⟩ := h1
      have h5 : ∀ nt s3, (txnEnd g.notify : M V Tree) s2 = (.ok nt, s3) → exec (w.during s2) (g.last w.txns.length) =
          (.done, { (w.during s3) with trees := w.trees ++ [nt], txns := w.txns ++ [{ st := s3.txn, ended := true, copied := false }] }) := by
        intro nt s3 hn
        have h0 : (w.during s2).st s2.txn = s2 := rfl
        unfold txnEnd at hn
        unfold Session.last
        cases hb : g.notify with
        | false =>
          rw [hb] at hn
          have hn : (txnCommitOnly : M V Tree) s2 = (.ok nt, s3) := hn
          simp only [exec, World.onTxn, World.during_txn, h0, hn, Bool.false_eq_true, if_false]
          simp [World.put, World.during]
        | true =>
          rw [hb] at hn
          have hn : (txnCommit : M V Tree) s2 = (.ok nt, s3) := hn
          simp only [exec, World.onTxn, World.during_txn, h0, hn, if_true]
          simp [World.put, World.during]
      obtain ⟨nt, s3, hn⟩ : ∃ nt s3, (txnEnd g.notify : M V Tree) s2 = (.ok nt, s3) := by
        unfold txnEnd
        cases g.notify with
        | false => exact ⟨_, _, rfl⟩
        | true =>
          show ∃ nt s3, (txnCommitOnly >>= fun nt => txnNotify >>= fun _ => Pure.pure nt : M V Tree) s2 = _
          have hc : (txnCommitOnly : M V Tree) s2 = (.ok { root := s2.txn.root, size := s2.txn.size, maxNodeId := s2.txn.maxNodeId }, s2) := rfl
          rw [(bind_ok hc).1]
          obtain ⟨s3, hs3⟩ : ∃ s3, (txnNotify : M V Unit) s2 = (.ok (), s3) := by
            unfold txnNotify
            rw [(bind_ok (show (txnSt : M V TxnSt) s2 = (.ok s2.txn, s2) from rfl)).1]
            cases s2.txn.trackMutate <;> exact ⟨_, rfl⟩
          rw [(bind_ok hs3).1]
          exact ⟨_, _, rfl⟩
      rw [show (txnEnd g.notify >>= fun nt => Pure.pure (os, nt) : M V _) s2 = (.ok (os, nt), s3) from (bind_ok hn).1]
      refine ⟨os', h2, h3, ?_, ?_, ?_, ?_⟩ <;> simp only [Session.ops, execAll, hd, h4, h5 nt s3 hn, List.cons_append] <;> try rfl

/-! ### Sessions are lawful -/

theorem World.during_allows [Inhabited V] (w : World V) (s : St V) (op : Op V) (h : ∀ x, op.writes = some x → x = w.txns.length) : (w.during s).allows op = true := by
  unfold World.allows
  cases hw : op.writes with
  | none => rfl
  | some x =>
    cases h x hw
    dsimp only
    rw [World.during_txn]
    rfl

theorem Call.toOp_writes (c : Call V) (n : Nat) : ∀ x, (c.toOp n).writes = some x → x = n := by
  cases c <;> intro x h <;> simp_all [Call.toOp, Op.writes]

theorem Session.last_writes (g : Session V) (n : Nat) : ∀ x, (g.last n).writes = some x → x = n := by
  unfold Session.last
  cases g.notify <;> intro x h <;> simp_all [Op.writes]

theorem calls_lawful [Inhabited V] (w : World V) (s : St V) (cs : List (Call V)) (op : Op V) (h : ∀ x, op.writes = some x → x = w.txns.length) :
    Lawful (w.during s) (cs.map (Call.toOp w.txns.length) ++ [op]) := by
  induction cs generalizing s with
  | nil => exact ⟨w.during_allows s op h, trivial⟩
  | cons c cs ih =>
    refine ⟨w.during_allows s _ (c.toOp_writes _), ?_⟩
    have h1 := exec_call w s c
    match hc : c.code w.trees s with
    | (.ok o, s') =>
      rw [hc] at h1
      dsimp only at h1
      show Lawful (exec (w.during s) (c.toOp w.txns.length)).2 _
      rw [h1.2.1]
      exact ih s'
    | (.error e, s') =>
      rw [hc] at h1
      dsimp only at h1
      show Lawful (exec (w.during s) (c.toOp w.txns.length)).2 _
      rw [h1]
      exact ih s'

/-- The calls of a goroutine that returned are lawful. -/
theorem session_ops_lawful [Inhabited V] (w : World V) (g : Session V) {os : List (Out V)} {nt : Tree} {s' : St V}
    (h : g.code w.trees (w.st default) = (.ok (os, nt), s')) : Lawful w (g.ops w.txns.length) := by
  unfold Session.code at h
  cases ht : w.trees[g.tree]? with
  | none => rw [ht] at h; cases h
  | some t =>
    rw [ht] at h
    unfold session at h
    dsimp only at h
    match hb : (beginTxn t : M V TxnSt) (w.st default) with
    | (.error e, s1) => rw [(bind_error hb).1] at h; cases h
    | (.ok x, s1) =>
      have hd : exec w (.begin g.tree) = (.done, w.during { s1 with txn := x }) := by
        simp only [exec, ht, hb, World.addTxn]
        rfl
      refine ⟨rfl, ?_⟩
      rw [hd]
      exact calls_lawful w _ g.calls _ (g.last_writes _)

theorem lawful_append [Inhabited V] {w : World V} {ops ops' : List (Op V)} (h1 : Lawful w ops) (h2 : Lawful (execAll w ops).2 ops') : Lawful w (ops ++ ops') := by
  induction ops generalizing w with
  | nil => exact h2
  | cons op ops ih => exact ⟨h1.1, ih h1.2 h2⟩

end Art
