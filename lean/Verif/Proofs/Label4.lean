import Verif.Proofs.Label3
import Verif.Proofs.Watch
/-
Programs that do not close the channel of a key.
-/
set_option autoImplicit false
set_option linter.unusedVariables false
set_option linter.unusedSimpArgs false
set_option linter.unusedSectionVars false
namespace Art
variable {V : Type} [Inhabited V] {w w' : World V} {sw : SWorld V} {c0 : ChanId} {K k : Key} {n x : Nat} {op : Op V}

/-- Channel `c0` is open, belongs to the leaf of the tree key `K` only, and no transaction from number `n` on has
collected it. -/
structure Spared (c0 : ChanId) (K : Key) (n : Nat) (w : World V) : Prop where
  only : OnlyAt w.heap c0 (some K)
  opn : w.chans[c0]? = some false
  out : ∀ (y : Nat) (r : TxnRec), n ≤ y → w.txns[y]? = some r → c0 ∉ r.st.trackChnSlice

theorem Spared.lt (h : Spared c0 K n w) : c0 < w.chans.length := (List.getElem?_eq_some_iff.1 h.opn).1

/-- The slice of no old transaction grew, and new transactions have collected nothing. -/
def SliceLe (w w' : World V) : Prop :=
  ∀ (y : Nat) (r' : TxnRec), w'.txns[y]? = some r' → r'.st.trackChnSlice = [] ∨ ∃ r : TxnRec, w.txns[y]? = some r ∧ r'.st.trackChnSlice = r.st.trackChnSlice

theorem SliceLe.of_eq (h : w'.txns = w.txns) : SliceLe w w' := fun y r' hy => Or.inr ⟨r', by rw [← h]; exact hy, rfl⟩

theorem SliceLe.onTxn {α : Type} {f : M V α} {out : α → Out V × List Tree} {mark : TxnRec → TxnRec} (hm : ∀ r, (mark r).st = r.st)
    (hf : ∀ r : TxnRec, w.txns[x]? = some r → (f (w.st r.st)).2.txn.trackChnSlice = [] ∨ (f (w.st r.st)).2.txn.trackChnSlice = r.st.trackChnSlice) :
    SliceLe w (w.onTxn x f out mark).2 := fun y r' hy => by
  cases hx : w.txns[x]? with
  | none =>
    have : w.onTxn x f out mark = (.noSuch, w) := by unfold World.onTxn; rw [hx]
    rw [this] at hy
    exact Or.inr ⟨r', hy, rfl⟩
  | some r =>
    by_cases hxy : x = y
    · subst hxy
      rw [(onTxn_self hx f out mark).1] at hy
      cases hy
      rw [hm]
      exact (hf r hx).imp _root_.id fun h => ⟨r, hx, h⟩
    · rw [onTxn_ne hxy] at hy
      exact Or.inr ⟨r', hy, rfl⟩

theorem SliceLe.addTxn {p : R TxnSt × St V} (hp : ∀ ts, p.1 = .ok ts → ts.trackChnSlice = []) : SliceLe w (w.addTxn p).2 := fun y r' hy => by
  unfold World.addTxn at hy
  match p, hp with
  | (.error e, s), _ => exact Or.inr ⟨r', hy, rfl⟩
  | (.ok ts, s), hp =>
    simp only at hy
    rcases Nat.lt_or_ge y w.txns.length with hlt | hge
    · rw [List.getElem?_append_left hlt] at hy
      exact Or.inr ⟨r', hy, rfl⟩
    · rw [List.getElem?_append_right hge] at hy
      have : r' = { st := ts, ended := false, copied := false } := by
        cases hi : y - w.txns.length with
        | zero => rw [hi] at hy; cases hy; rfl
        | succ j => rw [hi] at hy; cases hy
      subst this
      exact Or.inl (hp ts rfl)

theorem SliceLe.trans {w'' : World V} (h1 : SliceLe w w') (h2 : SliceLe w' w'') : SliceLe w w'' := fun y r' hy => by
  rcases h2 y r' hy with h | ⟨r, h3, h4⟩
  · exact Or.inl h
  · rcases h1 y r h3 with h | ⟨r0, h5, h6⟩
    · exact Or.inl (h4.trans h)
    · exact Or.inr ⟨r0, h5, h4.trans h6⟩

theorem begin_slice (t : Tree) (s : St V) (ts : TxnSt) (h : (beginTxn t s).1 = .ok ts) : ts.trackChnSlice = [] := by
  rw [beginTxn_run] at h
  cases hc : cloneNode t.root true s with
  | mk r s1 =>
    rw [hc] at h
    cases r with
    | ok r => cases h; rfl
    | error e => cases h

theorem clone_slice (s : St V) (ts : TxnSt) (h : (txnClone s).1 = .ok ts) : ts.trackChnSlice = [] := by
  simp only [txnClone, bind_run, txnSt] at h
  cases hc : cloneNode s.txn.root true s with
  | mk r s1 =>
    rw [hc] at h
    cases r with
    | ok r => cases h; rfl
    | error e => cases h

theorem notify_slice (s : St V) : (txnNotify s).2.txn.trackChnSlice = [] ∨ (txnNotify s).2.txn.trackChnSlice = s.txn.trackChnSlice := by
  rw [notify_run]
  cases s.txn.trackMutate with
  | true => exact Or.inl rfl
  | false => exact Or.inr rfl

/-- Calls that are no writes of a transaction collect nothing. -/
theorem sliceLe_exec (hop : op.writes = none) : SliceLe w (exec w op).2 := by
  have tree : ∀ {α : Type} {t : Nat} {f : Tree → M V α} {out : α → Out V × List Tree}, SliceLe w (w.onTree t f out).2 := .of_eq (onTree_txns _ _ _ _)
  cases op with
  | newTree => simp only [exec, newRadixTree_run]; exact .of_eq rfl
  | cloneTree t => exact tree
  | insert t k v => exact tree
  | delete t k => exact tree
  | deletePrefix t k => exact tree
  | get t k => exact tree
  | getWatch t k => exact tree
  | seekPrefixWatch t p => exact tree
  | len t => exact tree
  | begin t =>
    simp only [exec]
    cases w.trees[t]? with
    | none => exact .of_eq rfl
    | some tr => exact .addTxn fun ts h => begin_slice _ _ ts h
  | txnClone y =>
    simp only [exec]
    cases hy : w.txns[y]? with
    | none => exact .of_eq rfl
    | some r0 =>
      refine SliceLe.trans (w' := { w with txns := w.txns.set y r0.cloned }) (fun z r' hz => ?_) (.addTxn fun ts h => clone_slice _ ts h)
      simp only [getElem?_set_some hy] at hz
      by_cases hzy : z = y
      · subst hzy
        simp at hz
        subst hz
        exact Or.inr ⟨r0, hy, rfl⟩
      · simp [hzy] at hz
        exact Or.inr ⟨r', hz, rfl⟩
  | trackMutate y b => exact .onTxn (fun _ => rfl) fun r hr => Or.inr rfl
  | txnInsert y k v => cases hop
  | txnDelete y k => cases hop
  | txnDeletePrefix y k => cases hop
  | txnGet y k =>
    refine .onTxn (fun _ => rfl) fun r hr => Or.inr ?_
    simp only [txnGet, bind_run, M.get, lift_run]
    cases search _ _ _ <;> rfl
  | txnGetWatch y k =>
    refine .onTxn (fun _ => rfl) fun r hr => Or.inr ?_
    have hb : (do
      let t ← txnSt
      treeGetWatch { root := t.root, size := t.treeSize, maxNodeId := t.maxNodeId } k : M V _) (w.st r.st) =
      treeGetWatch { root := r.st.root, size := r.st.treeSize, maxNodeId := r.st.maxNodeId } k (w.st r.st) := rfl
    simp only [hb]
    rw [(watch_agree (treeGetWatch_cases _ k (w.st r.st))).2]
    rfl
  | commit y =>
    refine .onTxn (fun _ => rfl) fun r hr => ?_
    rw [commit_run]
    exact notify_slice _
  | commitOnly y => exact .onTxn (fun _ => rfl) fun r hr => Or.inr rfl
  | notify y => exact .onTxn (fun _ => rfl) fun r hr => notify_slice _

/-- The list of a transaction that does not track does not change. -/
theorem quiet_slice {α : Type} {m : M V α} (hm : SafeT (fun _ _ => True) m) (hw : WOK w) {r : TxnRec} (hr : w.txns[x]? = some r)
    (ht : r.st.trackMutate = false) : (m (w.st r.st)).2.txn.trackChnSlice = r.st.trackChnSlice :=
  ((hm.run (w.st r.st) hw.all.hok (hw.all.txns r (List.mem_of_getElem? hr))).step.quiet ht).1

theorem apart_keys {k k' : Key} (h1 : ¬ k <+: k') (h2 : ¬ k' <+: k) : Incomp (k ++ [dollar]) (k' ++ [dollar]) :=
  ⟨⟨k, rfl⟩, ⟨k', rfl⟩, by simpa [getKey] using h1, by simpa [getKey] using h2⟩

theorem slice_write {α : Type} {m : M V α} {out : α → Out V × List Tree} (hs : Spared c0 K n w)
    (hm : ∀ r : TxnRec, w.txns[x]? = some r → c0 ∉ r.st.trackChnSlice → c0 ∉ (m (w.st r.st)).2.txn.trackChnSlice) :
    ∀ (y : Nat) (r : TxnRec), n ≤ y → (w.onTxn x m out).2.txns[y]? = some r → c0 ∉ r.st.trackChnSlice := fun y r hn hy => by
  by_cases hxy : x = y
  · subst hxy
    cases hx : w.txns[x]? with
    | none =>
      have : w.onTxn x m out = (.noSuch, w) := by unfold World.onTxn; rw [hx]
      rw [this] at hy
      exact hs.out x r hn hy
    | some r0 =>
      rw [(onTxn_self hx m out _root_.id).1] at hy
      cases hy
      exact hm r0 hx (hs.out x r0 hn hx)
  · rw [onTxn_ne hxy] at hy
    exact hs.out y r hn hy

/-- One call. -/
theorem Spared.exec (hs : Spared c0 (k ++ [dollar]) n w) (hw : WOK w) (hg : GoodOf false w sw) (hc : op.Broad w sw) (hsp : op.Spares n k w) :
    Spared c0 (k ++ [dollar]) n (Art.exec w op).2 := by
  have hres := hw.res op
  refine ⟨hres.lab.only _ _ hs.lt hs.only, ?_, ?_⟩
  · by_cases hn : op.notifies w
    · have close : ∀ (y : Nat) (r : TxnRec), n ≤ y → w.txns[y]? = some r → (txnNotify (w.st r.st)).2.chans[c0]? = some false := fun y r hny hr => by
        rw [notify_run]
        have : (w.st r.st).chans[c0]? = some false := hs.opn
        cases hb : (w.st r.st).txn.trackMutate with
        | false => exact this
        | true => exact ((close_all _ _).2.2.2 c0 (hs.out y r hny hr)).trans this
      cases op with
      | commit y =>
        obtain ⟨r, hr, ht⟩ := hn
        rw [show (Art.exec w (.commit y)).2.chans = _ from (onTxn_self hr _ _ _).2.1, commit_run]
        exact close y r (hsp r hr ht) hr
      | notify y =>
        obtain ⟨r, hr, ht⟩ := hn
        rw [show (Art.exec w (.notify y)).2.chans = _ from (onTxn_self hr _ _ _).2.1]
        exact close y r (hsp r hr ht) hr
      | _ => exact hn.elim
    · obtain ⟨m, hm⟩ := hres.chans hn
      rw [hm, List.getElem?_append_left hs.lt]
      exact hs.opn
  · cases hop : op.writes with
    | none =>
      intro y r' hn hy hmem
      rcases sliceLe_exec hop y r' hy with h | ⟨r, h1, h2⟩
      · rw [h] at hmem; cases hmem
      · rw [h2] at hmem; exact hs.out y r hn h1 hmem
    | some x =>
      obtain ⟨hR, -⟩ := hg
      by_cases hnx : n ≤ x
      · cases op with
        | txnInsert y k' v =>
          cases hop
          refine slice_write hs fun r hr hout => ?_
          cases ht : r.st.trackMutate with
          | false => rw [quiet_slice (.insert trivial) hw hr ht]; exact hout
          | true =>
            obtain ⟨q, hq, hok⟩ := hR.txn hr
            obtain ⟨g0, g1⟩ := hc.2 q r hq hr
            have hv := hok.view
            rw [g0] at hv
            obtain ⟨⟨E, N, hrr, ha⟩, -, hsz, -⟩ := id hv
            have h0 : r.st.treeSize = 0 ↔ E = [] := by
              rw [hok.tsize]
              exact size_zero hrr ha hsz.1 g1.empty
            have hio := InsOK.of_canPut hrr ha g1.put
            obtain ⟨a, s', h1, -⟩ := txnInsert_runs (s := w.st r.st) (v := v) hrr hok.tsize h0 hio
            have hnt : NT c0 (k ++ [dollar]) (w.st r.st) := ⟨hs.only, hs.lt, hout⟩
            have := txnInsert_ns (s := w.st r.st) (v := v) hrr h0 hio hnt (apart_keys (hsp hnx r hr ht).1 (hsp hnx r hr ht).2) a s' h1
            rw [h1]
            exact (this.ok hnt).out
        | txnDelete y k' =>
          cases hop
          refine slice_write hs fun r hr hout => ?_
          cases ht : r.st.trackMutate with
          | false => rw [quiet_slice (.delete _ trivial) hw hr ht]; exact hout
          | true =>
            obtain ⟨q, hq, hok⟩ := hR.txn hr
            obtain ⟨⟨E, N, hrr, ha⟩, -, hsz, -⟩ := id hok.view
            have hnt : NT c0 (k ++ [dollar]) (w.st r.st) := ⟨hs.only, hs.lt, hout⟩
            rcases hc.2 q hq with hk | hk
            · have he := ha.has.1 hk
              obtain ⟨a, s', h1, -⟩ := txnDelete_runs (s := w.st r.st) hrr hok.tsize he
              have := txnDelete_ns (s := w.st r.st) hrr he hnt (apart_keys (hsp hnx r hr ht).1 (hsp hnx r hr ht).2) a s' h1
              rw [h1]
              exact (this.ok hnt).out
            · have hE := hrr.abs_nil ha |>.1 hk
              subst hE
              cases hrr with
              | tree hr => exact absurd rfl hr.ne_nil
              | empty hp =>
                obtain ⟨a, s', h1, -⟩ := txnDelete_empty (s := w.st r.st) (k := k') hp
                have := txnDelete_empty_ns (s := w.st r.st) (k := k') hp hnt a s' h1
                rw [h1]
                exact (this.ok hnt).out
        | txnDeletePrefix y k' => exact hc.2.elim
        | _ => cases hop
      · intro y r hny hy
        obtain ⟨a, out, m, hm⟩ : ∃ (α : Type) (out : α → Out V × List Tree) (m : M V α), Art.exec w op = w.onTxn x m out := by
          cases op <;> cases hop <;> exact ⟨_, _, _, rfl⟩
        rw [hm, onTxn_ne (by rintro rfl; exact hnx hny)] at hy
        exact hs.out y r hny hy

/-- Any number of calls. -/
theorem Spared.execAll (ops : List (Op V)) (hs : Spared c0 (k ++ [dollar]) n w) (hw : WOK w) (hg : GoodOf false w sw) (hc : Along Op.Broad w sw ops)
    (hsp : DuringW (fun w op => op.Spares n k w) w ops) : Spared c0 (k ++ [dollar]) n (Art.execAll w ops).2 := by
  induction ops generalizing w sw with
  | nil => exact hs
  | cons op ops ih => exact ih (hs.exec hw hg hc.1 hsp.1) (hw.exec op) (exec_goodOf hg op hc.1 (fun h => nomatch h)).2 hc.2 hsp.2

end Art
