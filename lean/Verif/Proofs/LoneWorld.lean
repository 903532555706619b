import Verif.Proofs.SaneDel
/-
In all histories, the channel of a leaf is neither closed nor about to be closed.
-/
set_option autoImplicit false
set_option linter.unusedVariables false
set_option linter.unusedSimpArgs false
set_option linter.unusedSectionVars false
namespace Art
variable {V : Type} {α : Type} {w : World V} {rk : Rank}

/-- The channels that are closed, or that a transaction is going to close. -/
def Doomed (w : World V) (k : ChanId) : Prop := w.chans[k]? = some true ∨ ∃ r ∈ w.txns, k ∈ r.st.trackChnSlice

/-- The channels of the leaves of a program. -/
def WLone (w : World V) : Prop := Lone (Doomed w) w.heap w.chans.length []

theorem WLone.init : WLone (World.init : World V) :=
  ⟨fun a c k h => (nomatch h), fun k h => by
      rcases h with h | ⟨r, h, -⟩
      · exact (nomatch h)
      · exact (nomatch h),
    fun k h => (nomatch h), fun a l k h => (nomatch h)⟩

/-- A call whose new list of channels to be closed is `sl`. -/
theorem WLone.step {w' : World V} {sl : List ChanId} (h : Lone (Doomed w) w'.heap w'.chans.length sl) (hd : ∀ k, Doomed w' k → Doomed w k ∨ k ∈ sl) : WLone w' :=
  h.weaken hd fun k hk => nomatch hk

theorem ChansExt.closed_of {cs cs' : List Bool} (h : ChansExt cs cs') {k : ChanId} (hk : cs'[k]? = some true) : cs[k]? = some true := by
  obtain ⟨m, rfl⟩ := h
  rw [List.getElem?_append] at hk
  split at hk
  · exact hk
  · have := List.mem_of_getElem? hk
    have := List.eq_of_mem_replicate this
    cases this

theorem WLone.onTree (hw : WLone w) {t : Nat} {g : Tree → M V α} {out : α → Out V × List Tree}
    (hf : ∀ tr, w.trees[t]? = some tr → LonesT (w.st default) (g tr (w.st default)).2) (hc : ChansExt w.chans (w.onTree t g out).2.chans) :
    WLone (w.onTree t g out).2 := by
  have hd : ∀ k, Doomed (w.onTree t g out).2 k → Doomed w k := by
    have htx : (w.onTree t g out).2.txns = w.txns := by
      unfold World.onTree
      split
      · rfl
      · split <;> rfl
    rintro k (hk | hk)
    · exact Or.inl (hc.closed_of hk)
    · rw [htx] at hk; exact Or.inr hk
  refine WLone.step (w := w) (sl := []) ?_ fun k hk => Or.inl (hd k hk)
  unfold World.onTree
  cases ht : w.trees[t]? with
  | none => exact hw
  | some tr =>
    simp only
    have h1 := hf tr ht (Doomed w) hw
    match hm : g tr (w.st default) with
    | (.ok a, s') => rw [hm] at h1; exact h1
    | (.error e, s') => rw [hm] at h1; exact h1

theorem WLone.onTxn (hw : WLone w) {x : Nat} {g : M V α} {out : α → Out V × List Tree} {mark : TxnRec → TxnRec}
    (hmark : ∀ r, (mark r).st = r.st) (hf : ∀ r : TxnRec, w.txns[x]? = some r → Lones (w.st r.st) (g (w.st r.st)).2)
    (hc : ChansExt w.chans (w.onTxn x g out mark).2.chans) : WLone (w.onTxn x g out mark).2 := by
  unfold World.onTxn at hc ⊢
  cases ht : w.txns[x]? with
  | none => exact hw
  | some r =>
    rw [ht] at hc
    simp only at hc ⊢
    have h0 := hf r ht (Doomed w) (hw.weaken (sl' := r.st.trackChnSlice) (fun k hk => Or.inl hk) fun k hk => Or.inl (Or.inr ⟨r, List.mem_of_getElem? ht, hk⟩))
    match hm : g (w.st r.st) with
    | (.ok a, s') =>
      rw [hm] at h0 hc
      refine WLone.step (w := w) (sl := s'.txn.trackChnSlice) h0 ?_
      rintro k (hk | ⟨r', hr', hk⟩)
      · exact Or.inl (Or.inl (hc.closed_of hk))
      · rcases List.mem_or_eq_of_mem_set hr' with hr' | hr'
        · exact Or.inl (Or.inr ⟨r', hr', hk⟩)
        · subst hr'; rw [hmark] at hk; exact Or.inr hk
    | (.error e, s') =>
      rw [hm] at h0 hc
      refine WLone.step (w := w) (sl := s'.txn.trackChnSlice) h0 ?_
      rintro k (hk | ⟨r', hr', hk⟩)
      · exact Or.inl (Or.inl (hc.closed_of hk))
      · rcases List.mem_or_eq_of_mem_set hr' with hr' | hr'
        · exact Or.inl (Or.inr ⟨r', hr', hk⟩)
        · subst hr'; rw [hmark] at hk; exact Or.inr hk

theorem addTxn_chans (p : R TxnSt × St V) : (w.addTxn p).2.chans = p.2.chans := by
  match p with
  | (.ok ts, s') => rfl
  | (.error e, s') => rfl

theorem WLone.addTxn (hw : WLone w) {p : R TxnSt × St V} (h1 : Lone (Doomed w) p.2.heap p.2.chans.length []) (hc : ChansExt w.chans p.2.chans)
    (h2 : ∀ ts, p.1 = .ok ts → ts.trackChnSlice = []) : WLone (w.addTxn p).2 := by
  unfold World.addTxn
  match p with
  | (.ok ts, s') =>
    refine WLone.step (w := w) (sl := []) h1 ?_
    rintro k (hk | ⟨r', hr', hk⟩)
    · exact Or.inl (Or.inl (hc.closed_of hk))
    · rcases List.mem_append.1 hr' with hr' | hr'
      · exact Or.inl (Or.inr ⟨r', hr', hk⟩)
      · rw [List.mem_singleton] at hr'
        subst hr'
        have := h2 ts rfl
        rw [show ({ st := ts, ended := false, copied := false } : TxnRec).st = ts from rfl, this] at hk
        exact (nomatch hk)
  | (.error e, s') =>
    refine WLone.step (w := w) (sl := []) h1 ?_
    rintro k (hk | ⟨r', hr', hk⟩)
    · exact Or.inl (Or.inl (hc.closed_of hk))
    · exact Or.inl (Or.inr ⟨r', hr', hk⟩)

/-- `Commit` and `Notify`: what was about to be closed is closed. -/
theorem WLone.notify (hw : WLone w) {x : Nat} {g : M V α} {out : α → Out V × List Tree} {mark : TxnRec → TxnRec} (hmark : ∀ r, (mark r).st = r.st)
    (hg : ∀ s, (g s).2 = (txnNotify s).2) : WLone (w.onTxn x g out mark).2 := by
  unfold World.onTxn
  cases ht : w.txns[x]? with
  | none => exact hw
  | some r =>
    simp only
    have hm : (g (w.st r.st)).2 = (txnNotify (w.st r.st)).2 := hg _
    rw [notify_run] at hm
    have key : ∀ w' : World V, w'.heap = (g (w.st r.st)).2.heap → w'.chans = (g (w.st r.st)).2.chans →
        (∀ r' ∈ w'.txns, r' ∈ w.txns ∨ r'.st = (g (w.st r.st)).2.txn) → WLone w' := fun w' e1 e2 e3 => by
      rw [hm] at e1 e2 e3
      simp only at e1 e2 e3
      have hlen : w'.chans.length = w.chans.length := by
        rw [e2]
        by_cases hb : (w.st r.st).txn.trackMutate = true
        · simp only [if_pos hb]; exact (close_all _ _).2.1
        · simp only [if_neg hb]; rfl
      refine WLone.step (w := w) (sl := []) (by rw [e1, hlen]; exact hw) ?_
      rintro k (hk | ⟨r', hr', hk⟩)
      · rw [e2] at hk
        by_cases hb : (w.st r.st).txn.trackMutate = true
        · simp only [if_pos hb] at hk
          by_cases hin : k ∈ r.st.trackChnSlice
          · exact Or.inl (Or.inr ⟨r, List.mem_of_getElem? ht, hin⟩)
          · rw [(close_all _ _).2.2.2 k (show k ∉ (w.st r.st).txn.trackChnSlice from hin)] at hk
            exact Or.inl (Or.inl hk)
        · simp only [if_neg hb] at hk; exact Or.inl (Or.inl hk)
      · rcases e3 r' hr' with h | h
        · exact Or.inl (Or.inr ⟨r', h, hk⟩)
        · rw [h] at hk
          by_cases hb : (w.st r.st).txn.trackMutate = true
          · simp only [if_pos hb] at hk; exact (nomatch hk)
          · simp only [if_neg hb] at hk; exact Or.inl (Or.inr ⟨r, List.mem_of_getElem? ht, hk⟩)
    match hgs : g (w.st r.st) with
    | (.ok a, s') =>
      refine key _ (by rw [hgs]; rfl) (by rw [hgs]; rfl) fun r' hr' => ?_
      rcases List.mem_or_eq_of_mem_set hr' with hr' | hr'
      · exact Or.inl hr'
      · subst hr'; rw [hmark, hgs]; exact Or.inr rfl
    | (.error e, s') =>
      refine key _ (by rw [hgs]; rfl) (by rw [hgs]; rfl) fun r' hr' => ?_
      rcases List.mem_or_eq_of_mem_set hr' with hr' | hr'
      · exact Or.inl hr'
      · subst hr'; rw [hmark, hgs]; exact Or.inr rfl

theorem exec_lone [Inhabited V] (hl : WLone w) (hw : WSane False w) (ha : WAll (fun _ _ => True) w) (hk : Ranked rk w.heap) (op : Op V) : WLone (exec w op).2 := by
  have hs : ∀ {tr : Tree} {i : Nat}, w.trees[i]? = some tr → IsN False w.heap tr.root := fun h => hw.trees _ (List.mem_of_getElem? h)
  have hx : ∀ {r : TxnRec} {i : Nat}, w.txns[i]? = some r → IsN False w.heap r.st.root := fun h => hw.txns _ (List.mem_of_getElem? h)
  have hj := hw.heap
  have hall := (exec_all ha op trivial fun _ _ _ => trivial).chans
  cases op with
  | newTree =>
    refine WLone.step (w := w) (sl := []) (emptyRoot_lone hl 1 0 default) ?_
    rintro k (hk | hk)
    · exact Or.inl (Or.inl hk)
    · exact Or.inl (Or.inr hk)
  | cloneTree t =>
    refine hl.onTree (fun tr h => ?_) (hall fun h => nomatch h)
    have : Ts False (treeClone tr : M V Tree) (fun nt s' => True) (w.st default) := by
      unfold treeClone
      exact Ts.bind (Ts.cloneNode (s := w.st default) hj _ true fun _ => hs h) fun r s1 hj1 h1 g1 => Ts.pure hj1 trivial
    exact this.2.1.lone.toT rfl
  | insert t k v =>
    refine hl.onTree (fun tr h => ?_) (hall fun h => nomatch h)
    rw [treeInsert_eq]
    exact (treeOp_sane (s := w.st default) hj rfl hk tr (hs h) fun rk s hj hk hr => txnInsert_sane hj hr k v).2.1.2
  | delete t k =>
    refine hl.onTree (fun tr h => ?_) (hall fun h => nomatch h)
    rw [treeDelete_eq]
    exact (treeOp_sane (s := w.st default) hj rfl hk tr (hs h) fun rk s hj hk hr => txnDelete_sane hj hk hr k).2.1.2
  | deletePrefix t k =>
    refine hl.onTree (fun tr h => ?_) (hall fun h => nomatch h)
    rw [treeDeletePrefix_eq]
    exact (treeOp_sane (s := w.st default) hj rfl hk tr (hs h) fun rk s hj hk hr => txnDeletePrefix_sane hj hr k).2.1.2
  | get t k =>
    refine hl.onTree (fun tr h => ?_) (hall fun h => nomatch h)
    exact (Ts.bindGet (Ts.lift' (s := w.st default) hj _)).2.1.lone.toT rfl
  | getWatch t k => exact hl.onTree (fun tr h => (Ts.treeGetWatch (s := w.st default) hj tr k).2.1.lone.toT rfl) (hall fun h => nomatch h)
  | seekPrefixWatch t p => exact hl.onTree (fun tr h => (Ts.seekPrefixWatch (s := w.st default) hj _ p).2.1.lone.toT rfl) (hall fun h => nomatch h)
  | len t => exact hl.onTree (fun tr h => fun D h => h) (hall fun h => nomatch h)
  | begin t =>
    have hc := hall fun h => nomatch h
    simp only [exec] at hc ⊢
    cases hr : w.trees[t]? with
    | none => exact hl
    | some tr =>
      rw [hr] at hc
      have h1 : Ts False (Art.cloneNode tr.root true : M V Addr) _ (w.st default) := Ts.cloneNode (s := w.st default) hj _ true fun _ => hs hr
      have h2 : Ts False (beginTxn tr : M V TxnSt) (fun _ _ => True) (w.st default) := by
        unfold beginTxn
        exact Ts.bind h1 fun r s1 hj1 h1 g1 => Ts.pure hj1 trivial
      refine hl.addTxn (h2.2.1.lone.toT rfl (Doomed w) hl) ?_ fun ts h => beginTxn_slice h
      simp only [addTxn_chans] at hc
      exact hc
  | txnClone x =>
    have hc := hall fun h => nomatch h
    simp only [exec] at hc ⊢
    cases hr : w.txns[x]? with
    | none => exact hl
    | some r =>
      rw [hr] at hc
      have hd : ∀ k, Doomed { w with txns := w.txns.set x r.cloned } k → Doomed w k := by
        rintro k (hk | ⟨r', hr', hk⟩)
        · exact Or.inl hk
        · rcases List.mem_or_eq_of_mem_set hr' with hr' | hr'
          · exact Or.inr ⟨r', hr', hk⟩
          · subst hr'; exact Or.inr ⟨r, List.mem_of_getElem? hr, hk⟩
      have hl' : WLone { w with txns := w.txns.set x r.cloned } := hl.weaken (fun k hk => Or.inl (hd k hk)) fun k hk => nomatch hk
      have h2 : Ts False (Art.txnClone : M V TxnSt) (fun _ _ => True) (w.st r.st) := by
        unfold Art.txnClone
        refine Ts.bindTxn ?_
        exact Ts.bind (Ts.cloneNode (s := w.st r.st) hj _ true fun _ => hx hr) fun r s1 hj1 h1 g1 => Ts.pure hj1 trivial
      refine hl'.addTxn (p := Art.txnClone (w.st r.st)) ?_ ?_ fun ts h => ?_
      · refine (h2.2.1.lone (Doomed w) (hl.weaken (sl' := r.st.trackChnSlice) (fun k hk => Or.inl hk) fun k hk => Or.inl (Or.inr ⟨r, List.mem_of_getElem? hr, hk⟩))).weaken
          (fun k hk => Or.inl (hd k hk)) fun k hk => nomatch hk
      · simp only [addTxn_chans] at hc
        exact hc
      · unfold Art.txnClone at h
        rw [bind_run] at h
        simp only [Art.txnSt, bind_run, cloneNode_run] at h
        cases hc : (w.st r.st).heap[(w.st r.st).txn.root]? with
        | none => rw [hc] at h; cases h
        | some c => rw [hc] at h; cases h; rfl
  | trackMutate x b => exact hl.onTxn (fun _ => rfl) (fun r h => fun D h => h) (hall fun h => nomatch h)
  | txnInsert x k v => exact hl.onTxn (fun _ => rfl) (fun r h => (txnInsert_sane (s := w.st r.st) hj (hx h) k v).2.1.2) (hall fun h => nomatch h)
  | txnDelete x k => exact hl.onTxn (fun _ => rfl) (fun r h => (txnDelete_sane (s := w.st r.st) hj hk (hx h) k).2.1.2) (hall fun h => nomatch h)
  | txnDeletePrefix x k => exact hl.onTxn (fun _ => rfl) (fun r h => (txnDeletePrefix_sane (s := w.st r.st) hj (hx h) k).2.1.2) (hall fun h => nomatch h)
  | txnGet x k =>
    refine hl.onTxn (fun _ => rfl) (fun r h => ?_) (hall fun h => nomatch h)
    have : Ts False (txnGet k : M V (Option V)) (fun _ _ => True) (w.st r.st) := by
      unfold txnGet
      exact Ts.bindGet (Ts.bindLift hj fun hit _ => Ts.pure hj trivial)
    exact this.2.1.lone
  | txnGetWatch x k => exact hl.onTxn (fun _ => rfl) (fun r h => (Ts.treeGetWatch (s := w.st r.st) hj _ k).2.1.lone) (hall fun h => nomatch h)
  | commit x => exact hl.notify (fun _ => rfl) fun s => by rw [commit_run]
  | commitOnly x => exact hl.onTxn (fun _ => rfl) (fun r h => fun D h => h) (hall fun h => nomatch h)
  | notify x => exact hl.notify (fun _ => rfl) fun s => rfl

theorem execAll_lone [Inhabited V] {w : World V} (hl : WLone w) (hw : WSane False w) (ha : WAll (fun _ _ => True) w) (hk : Ranked rk w.heap) (ops : List (Op V)) :
    WLone (execAll w ops).2 := by
  induction ops generalizing w rk with
  | nil => exact hl
  | cons op ops ih =>
    obtain ⟨_, rk1, hk1⟩ := exec_fine ha hk op
    exact ih (exec_lone hl hw ha hk op) (exec_sane hw hk op fun hf => hf.elim) (exec_all ha op trivial fun _ _ _ => trivial).1 hk1

theorem saneAll [Inhabited V] (ops : List (Op V)) : WSane False (execAll (World.init : World V) ops).2 :=
  execAll_sane (rk := fun _ => 0) .init .init (fun a c b h _ => by cases h) ops fun h => h.elim

theorem loneAfter [Inhabited V] (ops : List (Op V)) : WLone (execAll (World.init : World V) ops).2 :=
  execAll_lone (rk := fun _ => 0) .init .init .init (fun a c b h _ => by cases h) ops

end Art
