import Verif.Proofs.CleanBase
/-
Where the channel of a watch is while a tracked transaction runs.
-/
set_option autoImplicit false
set_option linter.unusedVariables false
set_option linter.unusedSimpArgs false
set_option linter.unusedSectionVars false
namespace Art
variable {V : Type} {w w' : World V} {s s' : St V} {E E' : List (Ent V)} {N N' : List (Key × Addr)} {h h' : Heap V} {c : ChanId} {a a' : Addr}

/-! ### Channels exist -/

/-- All channels of the program have been created. -/
def ChOK (w : World V) : Prop := WCh (· < w.chans.length) w

theorem WCh.imp {P Q : ChanId → Prop} (h : WCh P w) (hi : ∀ k, P k → Q k) : WCh Q w :=
  ⟨fun a c k hc hk => hi k (h.1 a c k hc hk), fun r hr k hk => hi k (h.2 r hr k hk)⟩

theorem ChOK.init : ChOK (World.init : World V) :=
  ⟨fun a c k hc => by simp [World.init] at hc, fun r hr => by simp [World.init] at hr⟩

theorem ChOK.exec [Inhabited V] {P : Key → V → Prop} (hw : WAll P w) (h : ChOK w) (op : Op V) (hp0 : P [] (default : V))
    (hp : ∀ k v, op.inserts k v → P (getTreeKey k) v) : ChOK (Art.exec w op).2 := by
  have hr := exec_all hw op hp0 hp
  exact hr.chs _ (fun k _ hk => hk) (WCh.imp h fun k hk => Nat.lt_of_lt_of_le hk hr.closed.1)

/-- The invariants of every history. -/
structure WOK (w : World V) : Prop where
  all : WAll (fun _ _ => True) w
  chs : ChOK w
  lab : Lab w.heap w.chans.length

theorem WOK.init : WOK (World.init : World V) := ⟨.init, .init, fun a c k hc => by simp [World.init] at hc, fun a b c d k hc => by simp [World.init] at hc⟩

theorem WOK.res [Inhabited V] (h : WOK w) (op : Op V) : Res (fun _ _ => True) (op.notifies w) (∀ x, op ≠ .trackMutate x true)
      (∀ x (r : TxnRec), op.writes = some x → w.txns[x]? = some r → r.st.trackMutate = false) w (exec w op).2 :=
  exec_all h.all op trivial fun _ _ _ => trivial

theorem WOK.exec [Inhabited V] (h : WOK w) (op : Op V) : WOK (Art.exec w op).2 :=
  ⟨(h.res op).all, ChOK.exec h.all h.chs op trivial fun _ _ _ => trivial, (h.res op).lab.lab h.lab⟩

theorem WOK.execAll [Inhabited V] (h : WOK w) (ops : List (Op V)) : WOK (Art.execAll w ops).2 := by
  induction ops generalizing w with
  | nil => exact h
  | cons op ops ih => exact ih (h.exec op)

theorem execAll_closed [Inhabited V] (h : WOK w) (ops : List (Op V)) : ClosedLe w.chans (Art.execAll w ops).2.chans := by
  induction ops generalizing w with
  | nil => exact .refl _
  | cons op ops ih => exact (h.res op).closed.trans (ih (h.exec op))

/-! ### What a watch looks at -/

/-- What is watched: one (internal) key, or the node on the path to (internal) keys that begin with `P`. -/
inductive Tgt where
  | key (K : Key)
  | path (P : Key)

/-- The writes that concern the watch. -/
def Tgt.hit : Tgt → Key → Prop
  | .key K, K' => K' = K
  | .path P, K' => P <+: K'

/-- The channel `c` is where the watch looks. -/
def Tgt.on : Tgt → Heap V → List (Ent V) → List (Key × Addr) → ChanId → Prop
  | .key K, h, E, N, c => ∃ e ∈ E, e.1 = K ∧ chAt h e.2.2 = some c
  | .path P, h, E, N, c => ∃ q x, (q, x) ∈ N ∧ q <+: P ∧ chAt h x = some c

theorem KeepCh.chAt (hk : KeepCh h h') {x : Addr} (hx : chAt h x = some c) : Art.chAt h' x = some c := by
  unfold Art.chAt at hx ⊢
  cases hc : h[x]? with
  | none => rw [hc] at hx; cases hx
  | some d =>
    rw [hc] at hx
    obtain ⟨d', h1, h2⟩ := hk x d c hc hx
    rw [h1]; exact h2

theorem Tgt.on.keep {T : Tgt} (hT : T.on h E N c) (hk : KeepCh h h') : T.on h' E N c := by
  cases T with
  | key K =>
    obtain ⟨e, h1, h2, h3⟩ := hT
    exact ⟨e, h1, h2, hk.chAt h3⟩
  | path P =>
    obtain ⟨q, x, h1, h2, h3⟩ := hT
    exact ⟨q, x, h1, h2, hk.chAt h3⟩

/-- One write of the transaction. -/
theorem Tgt.on.write {T : Tgt} {K : Key} {o : Option V} (hT : T.on s.heap E N c) (ht : s.txn.trackMutate = true) (he : Evo K o s s' E E' N N') :
    c ∈ s'.txn.trackChnSlice ∨ (¬ T.hit K ∧ T.on s'.heap E' N' c) := by
  cases T with
  | key K0 =>
    obtain ⟨e, h1, h2, h3⟩ := hT
    by_cases hK : e.1 = K
    · exact Or.inl (he.wK e h1 hK ht c h3)
    · obtain ⟨e', g1, g2, g3⟩ := he.fwd e h1 hK
      rcases g3 ht c h3 with g | g
      · exact Or.inl g
      · refine Or.inr ⟨fun hh => hK (h2.trans (show K0 = K from Eq.symm hh)), e', g1, ?_, g⟩
        have : e'.1 = e.1 := congrArg (α := Key × V) (fun p => p.1) g2
        exact this.trans h2
  | path P =>
    obtain ⟨q, x, h1, h2, h3⟩ := hT
    by_cases hK : P <+: K
    · exact Or.inl (he.wN q x h1 (h2.trans hK) ht c h3)
    · rcases he.keep q x h1 with g | ⟨q', x', g1, g2, g3⟩
      · exact Or.inl (g ht c h3)
      · rcases g3 ht c h3 with g | g
        · exact Or.inl g
        · exact Or.inr ⟨hK, q', x', g1, g2.trans h2, g⟩

/-- The copy of the root that a new transaction makes. -/
theorem Tgt.on.copied {T : Tgt} (hT : T.on s.heap E N c) (hk : KeepCh s.heap s'.heap) (hc : Copied s a E N a' s') :
    ∃ N', RootRep s'.heap a' true E N' ∧ T.on s'.heap E N' c := by
  obtain ⟨N0, rfl, hr⟩ := hc.rep
  refine ⟨_, hr, ?_⟩
  cases T with
  | key K => exact hT.keep hk
  | path P =>
    obtain ⟨q, x, h1, h2, h3⟩ := hT
    rcases List.mem_cons.1 h1 with h | h
    · cases h; exact ⟨[], a', by simp, List.nil_prefix, hc.ch c h3⟩
    · exact ⟨q, x, List.mem_cons_of_mem _ h, h2, hk.chAt h3⟩

/-! ### The writes of a transaction, with the channels -/

variable [Inhabited V] {k : Key} {v : V} {m : Map V} {T : Tgt}

/-- The transaction `ts` has collected `c`, or its tree has `c` at the right place. -/
def Sees (T : Tgt) (h : Heap V) (ts : TxnSt) (full : Bool) (m : Map V) (c : ChanId) : Prop :=
  c ∈ ts.trackChnSlice ∨ ∃ E N, RootRep h ts.root full E N ∧ Abs E m ∧ T.on h E N c

theorem Sees.insert {ex : Bool} (hv : ViewOf ex s.heap s.txn.root s.txn.size true m) (hts : s.txn.treeSize = s.txn.size) (hc : m.Takes s.txn.size k)
    (ht : s.txn.trackMutate = true) (hs : Sees T s.heap s.txn true m c) : Runs (txnInsert k v : M V (V × Bool)) s fun r s' =>
      Chg s s' ∧ (c ∈ s'.txn.trackChnSlice ∨ (¬ T.hit (k ++ [dollar]) ∧ Sees T s'.heap s'.txn true (m.set k v) c)) := by
  obtain ⟨-, hn, hsz, hsm⟩ := id hv
  rcases hs with hs | ⟨E, N, hr, ha, hT⟩
  · refine Runs.mono (hv.loose.insert hts hc (fun h => nomatch h)) ?_
    rintro r s' ⟨-, g, -, -⟩
    exact ⟨g, Or.inl (g.slice c hs)⟩
  · have h0 : s.txn.treeSize = 0 ↔ E = [] := by
      rw [hts]
      exact size_zero hr ha hsz.1 hc.empty
    refine Runs.mono (txnInsert_runs (v := v) hr hts h0 (InsOK.of_canPut hr ha hc.put)) ?_
    rintro r s' ⟨⟨h1, E', N', h2, h3, h4⟩, -, -⟩
    refine ⟨h1, ?_⟩
    rcases hT.write ht h4 with g | ⟨g1, g2⟩
    · exact Or.inl g
    · exact Or.inr ⟨g1, Or.inr ⟨E', N', h3 (fun h => nomatch h), ha.set h4, g2⟩⟩

theorem Sees.delete {ex full : Bool} (hv : ViewOf ex s.heap s.txn.root s.txn.size full m) (hts : s.txn.treeSize = s.txn.size) (hc : m.CanDel k)
    (ht : s.txn.trackMutate = true) (hs : Sees T s.heap s.txn full m c) : Runs (txnDelete k : M V (V × Bool)) s fun r s' =>
      Chg s s' ∧ (c ∈ s'.txn.trackChnSlice ∨ (¬ T.hit (k ++ [dollar]) ∧ Sees T s'.heap s'.txn (full && !(m.del k).isEmpty) (m.del k) c)) := by
  rcases hs with hs | ⟨E, N, hr, ha, hT⟩
  · refine Runs.mono (hv.delete hts hc) ?_
    rintro r s' ⟨-, g, -, -⟩
    exact ⟨g, Or.inl (g.slice c hs)⟩
  · rcases hc with hk | rfl
    · obtain ⟨e, he, hek⟩ := ha.has.1 hk
      refine Runs.mono (txnDelete_runs hr hts ⟨e, he, hek⟩) ?_
      rintro r s' ⟨⟨h1, E', N', h2, h3, h4⟩, -⟩
      refine ⟨h1, ?_⟩
      have habs := ha.del h4
      rcases hT.write ht h4 with g | ⟨g1, g2⟩
      · exact Or.inl g
      · refine Or.inr ⟨g1, Or.inr ⟨E', N', ?_, habs, g2⟩⟩
        cases full with
        | false => exact h2
        | true =>
          cases hd : m.del k with
          | nil => exact h2
          | cons x xs => exact h3 fun _ hE => by rw [h2.abs_nil habs |>.2 hE] at hd; cases hd
    · have hE := hr.abs_nil ha |>.1 rfl
      subst hE
      cases hr with
      | tree hr => exact absurd rfl hr.ne_nil
      | empty hp =>
        refine Runs.mono (txnDelete_empty (k := k) hp) ?_
        rintro r s' ⟨rfl, h1, h2, h3, h4, h5⟩
        refine ⟨h1, ?_⟩
        rcases hT.write ht h5 with g | ⟨g1, g2⟩
        · exact Or.inl g
        · refine Or.inr ⟨g1, Or.inr ⟨[], _, ?_, ?_, g2⟩⟩
          · simp only [Map.del, List.filter_nil, List.isEmpty_nil, Bool.not_true, Bool.and_false]
            exact .empty h2
          · exact fun k v => ⟨fun h => (nomatch h), fun ⟨x, hx⟩ => (nomatch hx)⟩

/-! ### Programs -/

/-- What a call does to a transaction that it does not write to. -/
structure Aside (w w' : World V) (r r' : TxnRec) : Prop where
  root : r'.st.root = r.st.root
  track : r'.st.trackMutate = r.st.trackMutate
  slice : ∀ c ∈ r.st.trackChnSlice, c ∈ r'.st.trackChnSlice ∨ (c < w.chans.length → w'.chans[c]? = some true)

theorem Aside.of_eq {r r' : TxnRec} (h : r'.st = r.st) : Aside w w' r r' :=
  ⟨by rw [h], by rw [h], fun c hc => Or.inl (by rw [h]; exact hc)⟩

theorem onTree_txns {α : Type} (w : World V) (t : Nat) (f : Tree → M V α) (out : α → Out V × List Tree) : (w.onTree t f out).2.txns = w.txns := by
  unfold World.onTree
  cases w.trees[t]? with
  | none => rfl
  | some tr =>
    simp only
    match f tr (w.st default) with
    | (.ok a, s) => rfl
    | (.error e, s) => rfl

theorem onTxn_self {α : Type} {x : Nat} {r : TxnRec} (hx : w.txns[x]? = some r) (f : M V α) (out : α → Out V × List Tree) (mark : TxnRec → TxnRec) :
    (w.onTxn x f out mark).2.txns[x]? = some (mark { r with st := (f (w.st r.st)).2.txn }) ∧ (w.onTxn x f out mark).2.chans = (f (w.st r.st)).2.chans ∧
    (w.onTxn x f out mark).2.heap = (f (w.st r.st)).2.heap := by
  unfold World.onTxn
  simp only [hx]
  match f (w.st r.st) with
  | (.ok a, s) => exact ⟨by simp [getElem?_set_some hx], rfl, rfl⟩
  | (.error e, s) => exact ⟨by simp [getElem?_set_some hx], rfl, rfl⟩

theorem onTxn_ne {α : Type} {x y : Nat} (hxy : x ≠ y) (f : M V α) (out : α → Out V × List Tree) (mark : TxnRec → TxnRec) :
    (w.onTxn x f out mark).2.txns[y]? = w.txns[y]? := by
  unfold World.onTxn
  cases hx : w.txns[x]? with
  | none => rfl
  | some r =>
    simp only
    match f (w.st r.st) with
    | (.ok a, s) => simp [getElem?_set_some hx, hxy.symm]
    | (.error e, s) => simp [getElem?_set_some hx, hxy.symm]

theorem addTxn_txns {y : Nat} {r : TxnRec} (hy : w.txns[y]? = some r) (p : R TxnSt × St V) : (w.addTxn p).2.txns[y]? = some r := by
  unfold World.addTxn
  match p with
  | (.ok ts, s) => simp only; rw [List.getElem?_append_left (List.getElem?_eq_some_iff.1 hy).1]; exact hy
  | (.error e, s) => exact hy

theorem apart_onTxn {α : Type} {x y : Nat} {r : TxnRec} (hx : w.txns[x]? = some r) {f : M V α} {out : α → Out V × List Tree} {mark : TxnRec → TxnRec}
    (hm : ∀ r, (mark r).st = r.st) (hf : y = x → Aside w (w.onTxn y f out mark).2 r { r with st := (f (w.st r.st)).2.txn }) :
    ∃ r', (w.onTxn y f out mark).2.txns[x]? = some r' ∧ Aside w (w.onTxn y f out mark).2 r r' := by
  by_cases hxy : y = x
  · replace hf := hf hxy
    subst hxy
    refine ⟨_, (onTxn_self hx f out mark).1, ?_⟩
    obtain ⟨h1, h2, h3⟩ := hf
    exact ⟨by rw [hm]; exact h1, by rw [hm]; exact h2, fun c hc => by rw [hm]; exact h3 c hc⟩
  · exact ⟨r, by rw [onTxn_ne hxy]; exact hx, .of_eq rfl⟩

theorem apart_notify {s : St V} {r : TxnRec} (hs : s = w.st r.st) (hw' : w'.chans = (txnNotify s).2.chans) :
    Aside w w' r { r with st := (txnNotify s).2.txn } := by
  subst hs
  rw [notify_run] at hw' ⊢
  simp only at hw' ⊢
  cases ht : (w.st r.st).txn.trackMutate with
  | false => exact .of_eq (by simp only [ht, Bool.false_eq_true, if_false]; rfl)
  | true =>
    simp only [ht, if_true] at hw' ⊢
    refine ⟨rfl, ht.symm, fun c hc => Or.inr fun hlt => ?_⟩
    rw [hw']
    exact (close_all _ _).2.2.1 c hc hlt

theorem exec_aside {x : Nat} {r : TxnRec} (hx : w.txns[x]? = some r) (op : Op V) (h1 : op.writes ≠ some x) (h2 : ∀ b, op ≠ .trackMutate x b) :
    ∃ r', (exec w op).2.txns[x]? = some r' ∧ Aside w (exec w op).2 r r' := by
  have keep : ∀ {w' : World V}, w'.txns[x]? = some r → ∃ r', w'.txns[x]? = some r' ∧ Aside w w' r r' := fun h => ⟨r, h, .of_eq rfl⟩
  have tree : ∀ {α : Type} {t : Nat} {f : Tree → M V α} {out : α → Out V × List Tree},
      ∃ r', (w.onTree t f out).2.txns[x]? = some r' ∧ Aside w (w.onTree t f out).2 r r' := fun {α t f out} =>
    keep (by rw [onTree_txns]; exact hx)
  cases op with
  | newTree => simp only [exec, newRadixTree_run]; exact ⟨r, hx, .of_eq rfl⟩
  | cloneTree t => exact tree
  | insert t k v => exact tree
  | delete t k => exact tree
  | deletePrefix t k => exact tree
  | get t k => exact tree
  | getWatch t k => exact tree
  | seekPrefixWatch t p => exact tree
  | len t => exact tree
  | begin t =>
    simp only [exec]
    cases w.trees[t]? with
    | none => exact keep hx
    | some tr => exact keep (addTxn_txns hx _)
  | txnClone y =>
    simp only [exec]
    cases hy : w.txns[y]? with
    | none => exact keep hx
    | some r0 =>
      simp only
      by_cases hxy : x = y
      · subst hxy
        rw [hx] at hy; cases hy
        exact ⟨r.cloned, addTxn_txns (w := { w with txns := w.txns.set x r.cloned }) (by simp [getElem?_set_some hx]) _, .of_eq rfl⟩
      · exact ⟨r, addTxn_txns (w := { w with txns := w.txns.set y r0.cloned }) (by simp [getElem?_set_some hy, hxy, hx]) _, .of_eq rfl⟩
  | trackMutate y b =>
    refine apart_onTxn hx (fun _ => rfl) fun h => ?_
    subst h; exact absurd rfl (h2 b)
  | txnInsert y k v => exact apart_onTxn hx (fun _ => rfl) fun h => absurd (by rw [← h]; rfl) h1
  | txnDelete y k => exact apart_onTxn hx (fun _ => rfl) fun h => absurd (by rw [← h]; rfl) h1
  | txnDeletePrefix y k => exact apart_onTxn hx (fun _ => rfl) fun h => absurd (by rw [← h]; rfl) h1
  | txnGet y k =>
    refine apart_onTxn hx (fun _ => rfl) fun h => .of_eq ?_
    simp only [txnGet, bind_run, M.get, lift_run]
    cases search _ _ _ <;> rfl
  | txnGetWatch y k =>
    refine apart_onTxn hx (fun _ => rfl) fun h => .of_eq ?_
    have hb : (do
      let t ← txnSt
      treeGetWatch { root := t.root, size := t.treeSize, maxNodeId := t.maxNodeId } k : M V _) (w.st r.st) =
      treeGetWatch { root := r.st.root, size := r.st.treeSize, maxNodeId := r.st.maxNodeId } k (w.st r.st) := rfl
    simp only [hb]
    exact (watch_agree (treeGetWatch_cases _ k (w.st r.st))).2
  | commit y =>
    refine apart_onTxn hx (fun _ => rfl) fun h => ?_
    subst h
    simp only [commit_run]
    refine apart_notify rfl ?_
    rw [(onTxn_self hx _ _ _).2.1, commit_run]
  | commitOnly y => exact apart_onTxn hx (fun _ => rfl) fun h => .of_eq rfl
  | notify y =>
    refine apart_onTxn hx (fun _ => rfl) fun h => ?_
    subst h
    refine apart_notify rfl ?_
    rw [(onTxn_self hx _ _ _).2.1]

/-- Transaction `x` has collected `c`, or `c` is closed. -/
def Fired (w : World V) (x : Nat) (c : ChanId) : Prop :=
  w.chans[c]? = some true ∨ ∃ r, w.txns[x]? = some r ∧ r.st.trackMutate = true ∧ c ∈ r.st.trackChnSlice

/-- The tracking transaction `x` has the watched channel `c` at its place. -/
def Waits (T : Tgt) (w : World V) (sw : SWorld V) (x : Nat) (c : ChanId) : Prop :=
  ∃ r q, w.txns[x]? = some r ∧ sw.txns[x]? = some q ∧ r.st.trackMutate = true ∧
    ∃ E N, RootRep w.heap r.st.root (!q.emptied) E N ∧ Abs E q.map ∧ T.on w.heap E N c

/-- The tree `i` has the watched channel `c` at its place. -/
def WaitsTree (T : Tgt) (w : World V) (sw : SWorld V) (i : Nat) (c : ChanId) : Prop :=
  ∃ t m, w.trees[i]? = some t ∧ sw.trees[i]? = some m ∧ ∃ E N, RootRep w.heap t.root false E N ∧ Abs E m ∧ T.on w.heap E N c

variable {x : Nat} {sw : SWorld V} {op : Op V}

/-- The writes of the transaction itself. -/
theorem write_self (hg : GoodOf false w sw) (hc : op.Broad w sw) (hx : op.writes = some x) {r : TxnRec} (hr : w.txns[x]? = some r) (ht : r.st.trackMutate = true) :
    (c ∈ r.st.trackChnSlice → Fired (exec w op).2 x c) ∧
    (Waits T w sw x c → Fired (exec w op).2 x c ∨ ((∀ k, op.touches x k → ¬ T.hit (k ++ [dollar])) ∧ Waits T (exec w op).2 (sexec sw op).2 x c)) := by
  obtain ⟨hR, -⟩ := hg
  obtain ⟨q, hq, hok⟩ := hR.txn hr
  have hc := hc.2
  cases op with
  | txnInsert y k v =>
    cases hx
    obtain ⟨g0, g1⟩ := hc q r hq hr
    have hv := hok.view
    rw [g0] at hv
    have hsw : (sexec sw (.txnInsert x k v)).2.txns[x]? = some { q with map := q.map.set k v } := by
      unfold sexec SWorld.modTxn
      simp [hq, modify_set hq, getElem?_set_some hq]
    obtain ⟨e1, e2, e3⟩ := onTxn_self hr (txnInsert k v) (fun a => (Out.updated a.1 a.2, [])) _root_.id
    have key : Sees T w.heap r.st true q.map c → Fired (exec w (.txnInsert x k v)).2 x c ∨
        (¬ T.hit (k ++ [dollar]) ∧ Waits T (exec w (.txnInsert x k v)).2 (sexec sw (.txnInsert x k v)).2 x c) := fun hs => by
      obtain ⟨a, s', h1, h2, h3⟩ := Sees.insert (s := w.st r.st) (v := v) hv hok.tsize g1 ht hs
      rw [h1] at e1 e2 e3
      have hf : c ∈ s'.txn.trackChnSlice → Fired (exec w (.txnInsert x k v)).2 x c := fun hm => Or.inr ⟨_, e1, h2.track.trans ht, hm⟩
      rcases h3 with h3 | ⟨h3, h4 | ⟨E, N, h4, h5, h6⟩⟩
      · exact Or.inl (hf h3)
      · exact Or.inl (hf h4)
      · refine Or.inr ⟨h3, _, _, e1, hsw, h2.track.trans ht, E, N, ?_, h5, ?_⟩
        · simp only [g0, Bool.not_false]
          rw [show (exec w (.txnInsert x k v)).2.heap = s'.heap from e3]; exact h4
        · rw [show (exec w (.txnInsert x k v)).2.heap = s'.heap from e3]; exact h6
    refine ⟨fun hm => ?_, fun hW => ?_⟩
    · obtain ⟨a, s', h1, h2, h3⟩ := Sees.insert (s := w.st r.st) (v := v) (T := .key (k ++ [dollar])) hv hok.tsize g1 ht (Or.inl hm)
      rw [h1] at e1
      exact Or.inr ⟨_, e1, h2.track.trans ht, h2.slice c hm⟩
    · obtain ⟨r', q', h1, h2, h3, E, N, h4, h5, h6⟩ := hW
      rw [hr] at h1; cases h1
      rw [hq] at h2; cases h2
      rw [g0] at h4
      rcases key (Or.inr ⟨E, N, h4, h5, h6⟩) with h | ⟨h, h'⟩
      · exact Or.inl h
      · refine Or.inr ⟨fun k' hk' => ?_, h'⟩
        obtain ⟨-, rfl⟩ := hk'
        exact h
  | txnDelete y k =>
    cases hx
    have g1 := hc q hq
    have hv := hok.view
    have hsw : (sexec sw (.txnDelete x k)).2.txns[x]? = some { q with map := q.map.del k, emptied := q.emptied || (q.map.del k).isEmpty } := by
      unfold sexec SWorld.modTxn
      simp [hq, modify_set hq, getElem?_set_some hq]
    obtain ⟨e1, e2, e3⟩ := onTxn_self hr (txnDelete k) (fun a => (Out.updated a.1 a.2, [])) _root_.id
    have key : Sees T w.heap r.st (!q.emptied) q.map c → Fired (exec w (.txnDelete x k)).2 x c ∨
        (¬ T.hit (k ++ [dollar]) ∧ Waits T (exec w (.txnDelete x k)).2 (sexec sw (.txnDelete x k)).2 x c) := fun hs => by
      obtain ⟨a, s', h1, h2, h3⟩ := Sees.delete (s := w.st r.st) hv hok.tsize g1 ht hs
      rw [h1] at e1 e2 e3
      have hf : c ∈ s'.txn.trackChnSlice → Fired (exec w (.txnDelete x k)).2 x c := fun hm => Or.inr ⟨_, e1, h2.track.trans ht, hm⟩
      rcases h3 with h3 | ⟨h3, h4 | ⟨E, N, h4, h5, h6⟩⟩
      · exact Or.inl (hf h3)
      · exact Or.inl (hf h4)
      · refine Or.inr ⟨h3, _, _, e1, hsw, h2.track.trans ht, E, N, ?_, h5, ?_⟩
        · simp only [Bool.not_or]
          rw [show (exec w (.txnDelete x k)).2.heap = s'.heap from e3]; exact h4
        · rw [show (exec w (.txnDelete x k)).2.heap = s'.heap from e3]; exact h6
    refine ⟨fun hm => ?_, fun hW => ?_⟩
    · obtain ⟨a, s', h1, h2, h3⟩ := Sees.delete (s := w.st r.st) (T := .key (k ++ [dollar])) hv hok.tsize g1 ht (Or.inl hm)
      rw [h1] at e1
      exact Or.inr ⟨_, e1, h2.track.trans ht, h2.slice c hm⟩
    · obtain ⟨r', q', h1, h2, h3, E, N, h4, h5, h6⟩ := hW
      rw [hr] at h1; cases h1
      rw [hq] at h2; cases h2
      rcases key (Or.inr ⟨E, N, h4, h5, h6⟩) with h | ⟨h, h'⟩
      · exact Or.inl h
      · refine Or.inr ⟨fun k' hk' => ?_, h'⟩
        obtain ⟨-, rfl⟩ := hk'
        exact h
  | txnDeletePrefix y k => exact hc.elim
  | _ => cases hx

theorem touches_writes {k : Key} (h : op.touches x k) : op.writes = some x := by
  cases op <;> first | exact h.elim | (obtain ⟨rfl, -⟩ := h; rfl)

theorem sexec_aside {q : STxn V} (hq : sw.txns[x]? = some q) (h1 : op.writes ≠ some x) :
    ∃ q', (sexec sw op).2.txns[x]? = some q' ∧ q'.map = q.map ∧ q'.emptied = q.emptied := by
  have hlt := (List.getElem?_eq_some_iff.1 hq).1
  have app : ∀ (l : List (STxn V)) (q' : STxn V), (sw.txns ++ [q'])[x]? = some q := fun l q' => by
    rw [List.getElem?_append_left hlt]; exact hq
  have ne : ∀ y : Nat, (op.writes = some y) → y ≠ x := fun y h e => h1 (e ▸ h)
  cases op with
  | newTree => exact ⟨q, hq, rfl, rfl⟩
  | begin t =>
    simp only [sexec]
    cases sw.trees[t]? with
    | none => exact ⟨q, hq, rfl, rfl⟩
    | some m => exact ⟨q, app [] _, rfl, rfl⟩
  | txnClone y =>
    simp only [sexec]
    cases hy : sw.txns[y]? with
    | none => exact ⟨q, hq, rfl, rfl⟩
    | some r =>
      rw [List.getElem?_append_left (by simpa using hlt), getElem?_set_some hy]
      by_cases hxy : x = y
      · subst hxy
        rw [hq] at hy; cases hy
        simp
      · simp [hxy, hq]
  | txnInsert y k v =>
    have := ne y rfl
    simp only [sexec, SWorld.modTxn]
    cases hy : sw.txns[y]? with
    | none => exact ⟨q, hq, rfl, rfl⟩
    | some r => simp [List.getElem?_modify, this, hq]
  | txnDelete y k =>
    have := ne y rfl
    simp only [sexec, SWorld.modTxn]
    cases hy : sw.txns[y]? with
    | none => exact ⟨q, hq, rfl, rfl⟩
    | some r => simp [List.getElem?_modify, this, hq]
  | txnDeletePrefix y k =>
    have := ne y rfl
    simp only [sexec, SWorld.modTxn]
    cases hy : sw.txns[y]? with
    | none => exact ⟨q, hq, rfl, rfl⟩
    | some r => simp [List.getElem?_modify, this, hq]
  | commit y | commitOnly y =>
    simp only [sexec]
    cases hy : sw.txns[y]? with
    | none => exact ⟨q, hq, rfl, rfl⟩
    | some r =>
      simp only [getElem?_set_some hy]
      by_cases hxy : x = y
      · subst hxy
        rw [hq] at hy; cases hy
        simp
      · simp [hxy, hq]
  | cloneTree t | insert t k v | delete t k | deletePrefix t k | get t k | getWatch t k | seekPrefixWatch t k | len t =>
    simp only [sexec]
    cases sw.trees[t]? <;> exact ⟨q, hq, rfl, rfl⟩
  | trackMutate y | notify y | txnGet y k | txnGetWatch y k =>
    simp only [sexec]
    cases sw.txns[y]? <;> exact ⟨q, hq, rfl, rfl⟩

/-- One call while the transaction runs. -/
theorem watch_step (hw : WOK w) (hg : GoodOf false w sw) (hc : op.Broad w sw) (hcalm : op.calm w x) (h2 : ∀ b, op ≠ .trackMutate x b) :
    (Fired w x c → Fired (exec w op).2 x c) ∧
    (Waits T w sw x c → Fired (exec w op).2 x c ∨ ((∀ k, op.touches x k → ¬ T.hit (k ++ [dollar])) ∧ Waits T (exec w op).2 (sexec sw op).2 x c)) := by
  refine ⟨fun hf => ?_, fun hW => ?_⟩
  · rcases hf with hf | ⟨r, h3, h4, h5⟩
    · exact Or.inl ((hw.res op).closed.2 c hf)
    · have hlt : c < w.chans.length := hw.chs.2 r (List.mem_of_getElem? h3) c h5
      by_cases hx : op.writes = some x
      · exact (write_self (T := .path []) hg hc hx h3 h4).1 h5
      · obtain ⟨r', g1, g2⟩ := exec_aside h3 op hx h2
        rcases g2.slice c h5 with g | g
        · exact Or.inr ⟨r', g1, g2.track.trans h4, g⟩
        · exact Or.inl (g hlt)
  · obtain ⟨r, q, h3, h4, h5, E, N, h6, h7, h8⟩ := id hW
    by_cases hx : op.writes = some x
    · exact (write_self hg hc hx h3 h5).2 hW
    · obtain ⟨r', g1, g2⟩ := exec_aside h3 op hx h2
      obtain ⟨hR, S, O, hi⟩ := id hg
      obtain ⟨S', O', -, hk⟩ := exec_iso hi op (by rw [legal_allows hR]; exact hc.1)
      obtain ⟨q', g3, g4, g5⟩ := sexec_aside h4 hx
      have hch : KeepCh w.heap (exec w op).2.heap := (hw.res op).keep fun y r0 hy hr0 => hcalm y r0 hy (fun h => hx (h ▸ hy)) hr0
      refine Or.inr ⟨fun k hk => absurd (touches_writes hk) hx, r', q', g1, g3, g2.track.trans h5, E, N, ?_, ?_, h8.keep hch⟩
      · have hv := view_txn h3
        have hreg := hi.region _ _ hv
        have := h6.same ⟨hreg.closed, (hk.keep _ _ hv (fun y hy h => by cases h; exact hx hy)).2.2⟩ hreg.root
        rw [g2.root, g5]
        exact this
      · rw [g4]; exact h7

/-- While the transaction runs. -/
theorem watch_body (body : List (Op V)) (hw : WOK w) (hg : GoodOf false w sw) (hc : Along Op.Broad w sw body) (hcalm : DuringW (fun w op => op.calm w x) w body)
    (h2 : ∀ b, .trackMutate x b ∉ body) : (Fired w x c → Fired (execAll w body).2 x c) ∧
    (Waits T w sw x c → (∃ op ∈ body, ∃ k, op.touches x k ∧ T.hit (k ++ [dollar])) → Fired (execAll w body).2 x c) := by
  induction body generalizing w sw with
  | nil => exact ⟨_root_.id, fun _ ⟨op, h, _⟩ => nomatch h⟩
  | cons op body ih =>
    obtain ⟨h3, h4⟩ := watch_step (T := T) (c := c) hw hg hc.1 hcalm.1 fun b h => h2 b (by simp [h])
    obtain ⟨h5, h6⟩ := ih (hw.exec op) (exec_goodOf hg op hc.1 (fun h => nomatch h)).2 hc.2 hcalm.2 fun b h => h2 b (by simp [h])
    refine ⟨fun h => h5 (h3 h), fun h ⟨o, ho, k, hk, hT⟩ => ?_⟩
    rcases h4 h with h7 | ⟨h7, h8⟩
    · exact h5 h7
    · rcases List.mem_cons.1 ho with rfl | ho
      · exact absurd hT (h7 k hk)
      · exact h6 h8 ⟨o, ho, k, hk, hT⟩

/-- The commit. -/
theorem Fired.commit (hw : WOK w) (hf : Fired w x c) : (exec w (.commit x)).2.chans[c]? = some true := by
  rcases hf with hf | ⟨r, h3, h4, h5⟩
  · exact (hw.res _).closed.2 c hf
  · have hlt : c < w.chans.length := hw.chs.2 r (List.mem_of_getElem? h3) c h5
    have h6 := (onTxn_self h3 txnCommit (fun nt => (Out.done, [nt])) fun r => { r with ended := true }).2.1
    rw [show (exec w (.commit x)).2.chans = _ from h6, commit_run, notify_run]
    simp only [show (w.st r.st).txn.trackMutate = true from h4, if_true]
    exact (close_all _ _).2.2.1 c h5 hlt

theorem sexec_trees (sw : SWorld V) (op : Op V) {i : Nat} {m : Map V} (hm : sw.trees[i]? = some m) : (sexec sw op).2.trees[i]? = some m := by
  have hlt := (List.getElem?_eq_some_iff.1 hm).1
  have app : ∀ l : List (Map V), (sw.trees ++ l)[i]? = some m := fun l => by
    rw [List.getElem?_append_left hlt]; exact hm
  cases op with
  | newTree => exact app _
  | begin t | cloneTree t | insert t k v | delete t k | deletePrefix t k | get t k | getWatch t k | seekPrefixWatch t k | len t =>
    simp only [sexec]
    cases sw.trees[t]? <;> first | exact hm | exact app _
  | txnClone y | txnInsert y k v | txnDelete y k | txnDeletePrefix y k | commit y | commitOnly y | trackMutate y | notify y | txnGet y k | txnGetWatch y k =>
    simp only [sexec, SWorld.modTxn]
    cases sw.txns[y]? <;> first | exact hm | exact app _

/-- Between the watch and the transaction. -/
theorem waitsTree_exec {i : Nat} (hw : WOK w) (hg : GoodOf false w sw) (hc : op.Broad w sw) (hcalm : op.calm w x) (hx : w.txns[x]? = none) (hW : WaitsTree T w sw i c) :
    WaitsTree T (Art.exec w op).2 (sexec sw op).2 i c := by
  obtain ⟨t, m, h1, h2, E, N, h3, h4, h5⟩ := hW
  obtain ⟨hR, S, O, hi⟩ := id hg
  obtain ⟨S', O', -, hk⟩ := exec_iso hi op (by rw [legal_allows hR]; exact hc.1)
  have hch : KeepCh w.heap (Art.exec w op).2.heap := (hw.res op).keep fun y r0 hy hr0 => hcalm y r0 hy (fun h => by rw [h, hx] at hr0; cases hr0) hr0
  have hv : w.view (.inl i) = some (t.root, t.maxNodeId) := by show (w.trees[i]?).map _ = _; rw [h1]; rfl
  have hreg := hi.region _ _ hv
  refine ⟨t, m, execAll_trees w [op] h1, sexec_trees sw op h2, E, N, ?_, h4, h5.keep hch⟩
  exact h3.same ⟨hreg.closed, (hk.keep _ _ hv (fun y hy h => nomatch h)).2.2⟩ hreg.root

/-- The transaction starts. -/
theorem waits_begin {i : Nat} (hW : WaitsTree T w sw i c) (hg : GoodOf false w sw) (hx : x = w.txns.length) :
    Waits T (execAll w [.begin i, .trackMutate x true]).2 (sexecAll sw [.begin i, .trackMutate x true]).2 x c := by
  obtain ⟨t, m, h1, h2, E, N, h3, h4, h5⟩ := hW
  obtain ⟨a', s', g1, g2⟩ := RootRep.clone (s := w.st default) h3
  have hk := cloneNode_keep t.root (w.st default)
  rw [g1] at hk
  obtain ⟨N', g3, g4⟩ := Tgt.on.copied (s := w.st default) h5 hk g2
  have hb : exec w (.begin i) = (.done, { w.put s' with txns := w.txns ++ [⟨startTxn t a', false, false⟩] }) := by
    simp only [exec, h1]
    rw [beginTxn_run, g1]
    rfl
  have hx1 : (exec w (.begin i)).2.txns[x]? = some ⟨startTxn t a', false, false⟩ := by
    rw [hb, hx]; simp
  obtain ⟨e1, e2, e3⟩ := onTxn_self hx1 (txnTrackMutate true) (fun _ => (Out.done, [])) _root_.id
  have hlen := hg.1.ntxns
  refine ⟨_, ⟨m, false, false, false⟩, e1, ?_, rfl, E, N', ?_, h4, ?_⟩
  · simp only [sexecAll, sexec, h2]
    rw [hx, hlen]; simp
  · show RootRep (exec (exec w (.begin i)).2 (.trackMutate x true)).2.heap _ _ _ _
    rw [show (exec (exec w (.begin i)).2 (.trackMutate x true)).2.heap = (exec w (.begin i)).2.heap from e3, hb]
    exact g3
  · show T.on (exec (exec w (.begin i)).2 (.trackMutate x true)).2.heap _ _ _
    rw [show (exec (exec w (.begin i)).2 (.trackMutate x true)).2.heap = (exec w (.begin i)).2.heap from e3, hb]
    exact g4

theorem watched_ch {s : St V} {a : Addr} {d : Cell V} (hd : s.heap[a]? = some d) : chAt (s.watched a d).heap a = some (watchCh s d).1 := by
  unfold chAt St.watched
  simp only [List.getElem?_set, (List.getElem?_eq_some_iff.1 hd).1, if_true, Option.bind_some]
  cases d <;> rfl

theorem onTree_run {α : Type} {i : Nat} {t : Tree} (ht : w.trees[i]? = some t) {f : Tree → M V α} {out : α → Out V × List Tree} {r : α} {s : St V}
    (hf : f t (w.st default) = (.ok r, s)) : w.onTree i f out = ((out r).1, { w.put s with trees := w.trees ++ (out r).2 }) := by
  unfold World.onTree
  simp only [ht, hf]

/-- The place where `Get` and `SeekPrefix` find a node, after its channel was created. -/
theorem waits_watched {i : Nat} {t : Tree} {m : Map V} (hg : GoodOf false w sw) (h1 : w.trees[i]? = some t) (h2 : sw.trees[i]? = some m) {E : List (Ent V)} {N : List (Key × Addr)}
    (hr : RootRep w.heap t.root false E N) (ha : Abs E m) {y : Addr} {d : Cell V} (hd : w.heap[y]? = some d) (hw' : w'.heap = ((w.st default).watched y d).heap)
    (ht : w'.trees = w.trees) (hT : T.on w'.heap E N c) : WaitsTree T w' sw i c := by
  obtain ⟨hR, S, O, hi⟩ := hg
  have hv : w.view (.inl i) = some (t.root, t.maxNodeId) := by show (w.trees[i]?).map _ = _; rw [h1]; rfl
  have hreg := hi.region _ _ hv
  refine ⟨t, m, by rw [ht]; exact h1, h2, E, N, ?_, ha, hT⟩
  rw [hw']
  exact hr.same ⟨hreg.closed, AgreeAll.on (AgreeAll.setCh hd _) hreg⟩ hreg.root

theorem sexec_getWatch (sw : SWorld V) (i : Nat) (k : Key) : (sexec sw (.getWatch i k)).2 = sw := by
  simp only [sexec]; cases sw.trees[i]? <;> rfl

theorem sexec_seekWatch (sw : SWorld V) (i : Nat) (k : Key) : (sexec sw (.seekPrefixWatch i k)).2 = sw := by
  simp only [sexec]; cases sw.trees[i]? <;> rfl

/-- `GetWatch`. -/
theorem getWatch_waits (hg : GoodOf false w sw) {i : Nat} {k : Key} {o : Option V} (hout : (exec w (.getWatch i k)).1 = .chan c o) :
    (∀ v, o = some v → WaitsTree (.key (k ++ [dollar])) (exec w (.getWatch i k)).2 (sexec sw (.getWatch i k)).2 i c) ∧
    (o = none → (∀ m, sw.trees[i]? = some m → ∀ k', m.has k' → k'.length ≤ 10) →
      WaitsTree (.path (k ++ [dollar])) (exec w (.getWatch i k)).2 (sexec sw (.getWatch i k)).2 i c) := by
  rw [sexec_getWatch]
  cases ht : w.trees[i]? with
  | none =>
    simp only [exec, World.onTree, ht] at hout
    cases hout
  | some t =>
    obtain ⟨m, hm, ⟨E, N, hr, ha⟩, -, -, -⟩ := hg.1.tree ht
    obtain ⟨hit, g1, g2⟩ := hr.search (k := k)
    have hlt : hit.watch < w.heap.length := by
      by_cases hE : ∃ e ∈ E, e.1 = k ++ [dollar]
      · obtain ⟨e, he, hek⟩ := hE
        rw [(g2.found e he hek).2]
        exact hr.occ_lt (Or.inr (List.mem_map.2 ⟨e, he, rfl⟩))
      · obtain ⟨-, q, hq, -⟩ := g2.miss fun e he hek => hE ⟨e, he, hek⟩
        exact hr.occ_lt (Or.inl (List.mem_map.2 ⟨_, hq, rfl⟩))
    have hd := List.getElem?_eq_getElem hlt
    have hrun := treeGetWatch_run t k (w.st default)
    rw [show search (w.st default).heap t.root k = .ok hit from g1] at hrun
    simp only [show (w.st default).heap[hit.watch]? = _ from hd] at hrun
    have hex : exec w (.getWatch i k) = _ := onTree_run ht hrun
    rw [hex] at hout ⊢
    simp only [Out.chan.injEq] at hout
    obtain ⟨hc, ho⟩ := hout
    refine ⟨fun v hv => ?_, fun hn hlen => ?_⟩
    · have hE : ∃ e ∈ E, e.1 = k ++ [dollar] := by
        refine Classical.byContradiction fun hE => ?_
        have := (g2.miss fun e he hek => hE ⟨e, he, hek⟩).1
        rw [ho, hv] at this; cases this
      obtain ⟨e, he, hek⟩ := hE
      refine waits_watched (w := w) hg ht hm hr ha hd rfl (by simp [World.put]) ⟨e, he, hek, ?_⟩
      rw [← (g2.found e he hek).2, ← hc]
      exact watched_ch (s := w.st default) hd
    · have hE : ∀ e ∈ E, e.1 ≠ k ++ [dollar] := fun e he hek => by
        have := (g2.found e he hek).1
        rw [ho, hn] at this; cases this
      obtain ⟨-, q, hq, hpre⟩ := g2.miss hE
      refine waits_watched (w := w) hg ht hm hr ha hd rfl (by simp [World.put]) ⟨q, hit.watch, hq, hpre List.nil_prefix fun e he => ?_, ?_⟩
      · obtain ⟨k', hk'⟩ := hr.dollar e he
        have := hlen m hm k' (ha.has.2 ⟨e, he, hk'⟩)
        rw [hk']; simpa using this
      · rw [← hc]
        exact watched_ch (s := w.st default) hd

/-- `SeekPrefixWatch`. -/
theorem seekWatch_waits (hg : GoodOf false w sw) {i : Nat} {p : Key} (hout : (exec w (.seekPrefixWatch i p)).1 = .watch c) :
    WaitsTree (.path p) (exec w (.seekPrefixWatch i p)).2 (sexec sw (.seekPrefixWatch i p)).2 i c := by
  rw [sexec_seekWatch]
  cases ht : w.trees[i]? with
  | none =>
    simp only [exec, World.onTree, ht] at hout
    cases hout
  | some t =>
    obtain ⟨m, hm, ⟨E, N, hr, ha⟩, -, -, -⟩ := hg.1.tree ht
    obtain ⟨it, y, q, g1, hq, hpre⟩ := hr.seek p
    have hlt : y < w.heap.length := hr.occ_lt (Or.inl (List.mem_map.2 ⟨_, hq, rfl⟩))
    have hd := List.getElem?_eq_getElem hlt
    have hrun := seekPrefixWatch_run (mkIter t.root) p (w.st default)
    rw [show seekPrefix (w.st default).heap (mkIter t.root) p = .ok (it, y) from g1] at hrun
    simp only [show (w.st default).heap[y]? = _ from hd] at hrun
    have hex : exec w (.seekPrefixWatch i p) = _ := onTree_run (f := fun tr => seekPrefixWatch (mkIter tr.root) p) ht hrun
    rw [hex] at hout ⊢
    simp only [Out.watch.injEq] at hout
    refine waits_watched (w := w) hg ht hm hr ha hd rfl (by simp [World.put]) ⟨q, y, hq, hpre, ?_⟩
    rw [← hout]
    exact watched_ch (s := w.st default) hd

theorem exec_txns_len (w : World V) (op : Op V) : w.txns.length ≤ (exec w op).2.txns.length := by
  have h2 : ∀ {α : Type} (x : Nat) (f : M V α) (out : α → Out V × List Tree) (mark : TxnRec → TxnRec),
      w.txns.length ≤ (w.onTxn x f out mark).2.txns.length := by
    intro α x f out mark
    unfold World.onTxn
    cases w.txns[x]? with
    | none => exact Nat.le_refl _
    | some r =>
      simp only
      match f (w.st r.st) with
      | (.ok a, s) => simp
      | (.error e, s) => simp
  have h3 : ∀ (w : World V) (p : R TxnSt × St V), w.txns.length ≤ (w.addTxn p).2.txns.length := by
    intro w p
    match p with
    | (.ok a, s) => simp [World.addTxn]
    | (.error e, s) => exact Nat.le_refl _
  cases op with
  | newTree => simp only [exec, newRadixTree_run]; exact Nat.le_refl _
  | begin t =>
    simp only [exec]
    cases w.trees[t]? with
    | none => exact Nat.le_refl _
    | some tr => exact h3 _ _
  | txnClone x =>
    simp only [exec]
    cases w.txns[x]? with
    | none => exact Nat.le_refl _
    | some r => 
      have := h3 { w with txns := w.txns.set x r.cloned }
      simp only [List.length_set] at this
      exact this _
  | _ => first | exact h2 _ _ _ _ | exact Nat.le_of_eq (congrArg List.length (onTree_txns _ _ _ _)).symm

theorem execAll_txns_len (w : World V) (ops : List (Op V)) : w.txns.length ≤ (execAll w ops).2.txns.length := by
  induction ops generalizing w with
  | nil => exact Nat.le_refl _
  | cons op ops ih => exact Nat.le_trans (exec_txns_len w op) (ih (exec w op).2)

theorem DuringW.append {P : World V → Op V → Prop} {l l' : List (Op V)} : DuringW P w (l ++ l') ↔ DuringW P w l ∧ DuringW P (execAll w l).2 l' := by
  induction l generalizing w with
  | nil => simp [DuringW, execAll]
  | cons op l ih =>
    show _ ∧ DuringW P (exec w op).2 (l ++ l') ↔ (_ ∧ DuringW P (exec w op).2 l) ∧ DuringW P (execAll (exec w op).2 l).2 l'
    rw [ih, and_assoc]

theorem waitsTree_execAll {i : Nat} (mid : List (Op V)) (hw : WOK w) (hg : GoodOf false w sw) (hc : Along Op.Broad w sw mid) (hcalm : DuringW (fun w op => op.calm w x) w mid)
    (hx : (execAll w mid).2.txns.length ≤ x) (hW : WaitsTree T w sw i c) : WaitsTree T (execAll w mid).2 (sexecAll sw mid).2 i c := by
  induction mid generalizing w sw with
  | nil => exact hW
  | cons op mid ih =>
    have hlt : w.txns.length ≤ x := Nat.le_trans (Nat.le_trans (exec_txns_len w op) (execAll_txns_len _ mid)) hx
    exact ih (hw.exec op) (exec_goodOf hg op hc.1 (fun h => nomatch h)).2 hc.2 hcalm.2 hx (waitsTree_exec hw hg hc.1 hcalm.1 (List.getElem?_eq_none hlt) hW)

/-- From the watch to the commit of the tracked transaction, and beyond. -/
theorem watch_fires {i : Nat} (mid body later : List (Op V)) (hw : WOK w) (hg : GoodOf false w sw) (hW : WaitsTree T w sw i c)
    (hx : x = (execAll w mid).2.txns.length) (hc : Along Op.Broad w sw (mid ++ trackedTxn i x body))
    (hcalm : DuringW (fun w op => op.calm w x) w (mid ++ trackedTxn i x body)) (h2 : ∀ b, .trackMutate x b ∉ body)
    (ht : ∃ op ∈ body, ∃ k, op.touches x k ∧ T.hit (k ++ [dollar])) :
    (execAll w (mid ++ trackedTxn i x body ++ later)).2.chans[c]? = some true := by
  unfold trackedTxn at hc hcalm ⊢
  rw [Along.append, Along.append, Along.append] at hc
  rw [DuringW.append, DuringW.append, DuringW.append] at hcalm
  obtain ⟨c1, ⟨c2, c3⟩, -⟩ := hc
  obtain ⟨d1, ⟨-, d3⟩, -⟩ := hcalm
  have g1 := execAll_broad hg mid c1
  have g2 := execAll_broad g1 _ c2
  have w1 := hw.execAll mid
  have w2 := w1.execAll [.begin i, .trackMutate x true]
  have W1 := waitsTree_execAll mid hw hg c1 d1 (Nat.le_of_eq hx.symm) hW
  have W2 := waits_begin W1 g1 hx
  have F := (watch_body (T := T) (c := c) body w2 g2 c3 d3 h2).2 W2 ht
  have w3 := w2.execAll body
  have hC := F.commit w3
  rw [execAll_append, execAll_append, execAll_append, execAll_append]
  exact (execAll_closed (w3.exec (.commit x)) later).2 c hC

theorem onTxn_len {α : Type} (w : World V) (x : Nat) (f : M V α) (out : α → Out V × List Tree) (mark : TxnRec → TxnRec) :
    (w.onTxn x f out mark).2.txns.length = w.txns.length := by
  unfold World.onTxn
  cases w.txns[x]? with
  | none => rfl
  | some r =>
    simp only
    match f (w.st r.st) with
    | (.ok a, s) => simp
    | (.error e, s) => simp

/-- Writes of a transaction without tracking. -/
theorem writeOf_quiet {y : Nat} {r : TxnRec} (hw : WOK w) (hop : op.writeOf y) (hr : w.txns[y]? = some r) (ht : r.st.trackMutate = false) :
    (exec w op).2.txns.length = w.txns.length ∧ ∃ r', (exec w op).2.txns[y]? = some r' ∧ r'.st.trackMutate = false := by
  have hroot := hw.all.txns r (List.mem_of_getElem? hr)
  cases op with
  | txnInsert z k v =>
    cases (show z = y from hop)
    refine ⟨onTxn_len _ _ _ _ _, _, (onTxn_self hr (txnInsert k v) _ _root_.id).1, ?_⟩
    exact ((SafeT.insert (P := fun _ _ => True) trivial).run (w.st r.st) hw.all.hok hroot).step.track.trans ht
  | txnDelete z k =>
    cases (show z = y from hop)
    refine ⟨onTxn_len _ _ _ _ _, _, (onTxn_self hr (txnDelete k) _ _root_.id).1, ?_⟩
    exact ((SafeT.delete (P := fun _ _ => True) k trivial).run (w.st r.st) hw.all.hok hroot).step.track.trans ht
  | _ => exact (show False from hop).elim

theorem writesOf_quiet {y : Nat} {r : TxnRec} (l : List (Op V)) (hw : WOK w) (hop : ∀ op ∈ l, op.writeOf y) (hr : w.txns[y]? = some r) (ht : r.st.trackMutate = false) :
    (execAll w l).2.txns.length = w.txns.length ∧ DuringW (fun w op => op.calm w x) w l := by
  induction l generalizing w r with
  | nil => exact ⟨rfl, trivial⟩
  | cons op l ih =>
    obtain ⟨h1, r', h2, h3⟩ := writeOf_quiet hw (hop op (by simp)) hr ht
    obtain ⟨h4, h5⟩ := ih (hw.exec op) (fun o ho => hop o (by simp [ho])) h2 h3
    refine ⟨h4.trans h1, fun z r0 hz _ hr0 => ?_, h5⟩
    have : op.writes = some y := by
      have := hop op (by simp)
      cases op <;> first | exact (show False from this).elim | exact congrArg some this
    rw [this] at hz; cases hz
    rw [hr] at hr0; cases hr0
    exact ht

theorem writesOf_calm (l : List (Op V)) (hop : ∀ op ∈ l, op.writes = none ∨ op.writes = some x) : DuringW (fun w op => op.calm w x) w l := by
  induction l generalizing w with
  | nil => trivial
  | cons op l ih =>
    refine ⟨fun z r0 hz hne hr0 => ?_, ih fun o ho => hop o (by simp [ho])⟩
    rcases hop op (by simp) with h | h <;> rw [h] at hz <;> cases hz
    exact absurd rfl hne

theorem begin_txns {i : Nat} {t : Tree} (ht : w.trees[i]? = some t) (hr : t.root < w.heap.length) :
    ∃ r, (exec w (.begin i)).2.txns = w.txns ++ [r] ∧ r.st.trackMutate = false := by
  simp only [exec, ht]
  rw [beginTxn_run, cloneNode_run]
  rw [show (w.st default).heap[t.root]? = _ from List.getElem?_eq_getElem hr]
  exact ⟨_, rfl, rfl⟩

theorem worldAfter_ok (ops : List (Op V)) : WOK (execAll World.init ops).2 := WOK.init.execAll ops

end Art
