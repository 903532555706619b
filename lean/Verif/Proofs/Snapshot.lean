import Verif.Proofs.WorldIso
import Verif.Props.Statements
/-
What isolation means for reads, over whole histories.
-/
set_option autoImplicit false
set_option linter.unusedVariables false
set_option linter.unusedSimpArgs false
set_option linter.unusedSectionVars false
namespace Art
variable {V : Type} [Inhabited V]

theorem exec_trees (w : World V) (op : Op V) : ∃ l, (exec w op).2.trees = w.trees ++ l := by
  have h1 : ∀ {α : Type} (t : Nat) (f : Tree → M V α) (out : α → Out V × List Tree), ∃ l, (w.onTree t f out).2.trees = w.trees ++ l := by
    intro α t f out
    unfold World.onTree
    cases w.trees[t]? with
    | none => exact ⟨[], by simp⟩
    | some tr =>
      simp only
      match f tr (w.st default) with
      | (.ok a, s) => exact ⟨_, rfl⟩
      | (.error e, s) => exact ⟨[], by simp [World.put]⟩
  have h2 : ∀ {α : Type} (x : Nat) (f : M V α) (out : α → Out V × List Tree) (mark : TxnRec → TxnRec),
      ∃ l, (w.onTxn x f out mark).2.trees = w.trees ++ l := by
    intro α x f out mark
    unfold World.onTxn
    cases w.txns[x]? with
    | none => exact ⟨[], by simp⟩
    | some r =>
      simp only
      match f (w.st r.st) with
      | (.ok a, s) => exact ⟨_, rfl⟩
      | (.error e, s) => exact ⟨[], by simp [World.put]⟩
  have h3 : ∀ (w : World V) (p : R TxnSt × St V), (w.addTxn p).2.trees = w.trees := by
    intro w p
    match p with
    | (.ok a, s) => rfl
    | (.error e, s) => rfl
  cases op with
  | newTree => simp only [exec, newRadixTree_run]; exact ⟨_, rfl⟩
  | begin t =>
    simp only [exec]
    cases w.trees[t]? with
    | none => exact ⟨[], by simp⟩
    | some tr => exact ⟨[], by simp [h3]⟩
  | txnClone x =>
    simp only [exec]
    cases w.txns[x]? with
    | none => exact ⟨[], by simp⟩
    | some tr => exact ⟨[], by simp [h3]⟩
  | _ => first | exact h1 _ _ _ | exact h2 _ _ _ _

theorem execAll_trees (w : World V) (ops : List (Op V)) {i : Nat} {t : Tree} (h : w.trees[i]? = some t) :
    (execAll w ops).2.trees[i]? = some t := by
  induction ops generalizing w with
  | nil => exact h
  | cons op ops ih =>
    refine ih (exec w op).2 ?_
    obtain ⟨l, hl⟩ := exec_trees w op
    rw [hl, List.getElem?_append_left (List.getElem?_eq_some_iff.1 h).1]; exact h

/-- What only a write changes. -/
def TxnSt.frozen (t : TxnSt) : Addr × UInt64 × UInt64 × Nat × Nat := (t.root, t.size, t.treeSize, t.maxNodeId, t.oldMaxNodeId)

/-- A call that does not write to transaction `x` leaves its size alone. -/
theorem exec_frozen (w : World V) (op : Op V) {x : Nat} {r : TxnRec} (hx : w.txns[x]? = some r) (hne : op.writes ≠ some x) :
    ∃ r', (exec w op).2.txns[x]? = some r' ∧ r'.st.frozen = r.st.frozen := by
  have h1 : ∀ {α : Type} (t : Nat) (f : Tree → M V α) (out : α → Out V × List Tree),
      ∃ r', (w.onTree t f out).2.txns[x]? = some r' ∧ r'.st.frozen = r.st.frozen := by
    intro α t f out
    unfold World.onTree
    cases w.trees[t]? with
    | none => exact ⟨r, hx, rfl⟩
    | some tr =>
      simp only
      match f tr (w.st default) with
      | (.ok a, s) => exact ⟨r, hx, rfl⟩
      | (.error e, s) => exact ⟨r, hx, rfl⟩
  have h2 : ∀ {α : Type} (y : Nat) (f : M V α) (out : α → Out V × List Tree) (mark : TxnRec → TxnRec),
      (∀ r, (mark r).st = r.st) → (y = x → (f (w.st r.st)).2.txn.frozen = r.st.frozen) →
      ∃ r', (w.onTxn y f out mark).2.txns[x]? = some r' ∧ r'.st.frozen = r.st.frozen := by
    intro α y f out mark hm hf
    unfold World.onTxn
    cases hy : w.txns[y]? with
    | none => exact ⟨r, hx, rfl⟩
    | some r1 =>
      have key : ∀ s : St V, (y = x → s.txn.frozen = r.st.frozen) →
          ∃ r', (w.txns.set y (mark { r1 with st := s.txn }))[x]? = some r' ∧ r'.st.frozen = r.st.frozen := fun s hs => by
        rw [getElem?_set_some hy]
        by_cases he : x = y
        · rw [if_pos he]; exact ⟨_, rfl, by rw [hm]; exact hs he.symm⟩
        · rw [if_neg he]; exact ⟨r, hx, rfl⟩
      have hf' : y = x → (f (w.st r1.st)).2.txn.frozen = r.st.frozen := fun he => by
        subst he; rw [hx] at hy; cases hy; exact hf rfl
      simp only
      match hr : f (w.st r1.st) with
      | (.ok a, s) => rw [hr] at hf'; exact key s hf'
      | (.error e, s) => rw [hr] at hf'; exact key s hf'
  have h3 : ∀ (w : World V) (p : R TxnSt × St V) r', w.txns[x]? = some r' → (w.addTxn p).2.txns[x]? = some r' := by
    intro w p r' hr
    match p with
    | (.ok a, s) =>
      show (w.txns ++ [_])[x]? = _
      rw [List.getElem?_append_left (List.getElem?_eq_some_iff.1 hr).1]; exact hr
    | (.error e, s) => exact hr
  cases op with
  | newTree => simp only [exec, newRadixTree_run]; exact ⟨r, hx, rfl⟩
  | begin t =>
    simp only [exec]
    cases w.trees[t]? with
    | none => exact ⟨r, hx, rfl⟩
    | some tr => exact ⟨r, h3 _ _ _ hx, rfl⟩
  | txnClone y =>
    simp only [exec]
    cases hy : w.txns[y]? with
    | none => exact ⟨r, hx, rfl⟩
    | some r1 =>
      by_cases he : x = y
      · subst he
        rw [hx] at hy; cases hy
        exact ⟨_, h3 _ _ r.cloned (by show (w.txns.set x _)[x]? = _; rw [getElem?_set_some hx, if_pos rfl]), rfl⟩
      · exact ⟨r, h3 _ _ r (by show (w.txns.set y _)[x]? = _; rw [getElem?_set_some hy, if_neg he]; exact hx), rfl⟩
  | txnInsert y k v => exact h2 _ _ _ _root_.id (fun _ => rfl) fun he => by subst he; exact absurd rfl hne
  | txnDelete y k => exact h2 _ _ _ _root_.id (fun _ => rfl) fun he => by subst he; exact absurd rfl hne
  | txnDeletePrefix y k => exact h2 _ _ _ _root_.id (fun _ => rfl) fun he => by subst he; exact absurd rfl hne
  | trackMutate y b => exact h2 _ _ _ _root_.id (fun _ => rfl) fun _ => rfl
  | txnGet y k =>
    refine h2 _ _ _ _root_.id (fun _ => rfl) fun _ => ?_
    simp only [txnGet, bind_run, M.get, lift_run]
    cases search _ _ _ <;> rfl
  | txnGetWatch y k =>
    refine h2 _ _ _ _root_.id (fun _ => rfl) fun _ => ?_
    have := (watch_agree (treeGetWatch_cases
      { root := r.st.root, size := r.st.treeSize, maxNodeId := r.st.maxNodeId } k (w.st r.st))).2
    exact congrArg TxnSt.frozen this
  | commit y =>
    refine h2 _ _ _ _ (fun _ => rfl) fun _ => ?_
    rw [commit_run, notify_run]
    simp only
    split <;> rfl
  | commitOnly y => exact h2 _ _ _ _ (fun _ => rfl) fun _ => rfl
  | notify y =>
    refine h2 _ _ _ _root_.id (fun _ => rfl) fun _ => ?_
    rw [notify_run]
    simp only
    split <;> rfl
  | _ => exact h1 _ _ _

theorem exec_size (w : World V) (op : Op V) {x : Nat} {r : TxnRec} (hx : w.txns[x]? = some r) (hne : op.writes ≠ some x) :
    ∃ r', (exec w op).2.txns[x]? = some r' ∧ r'.st.size = r.st.size := by
  obtain ⟨r', h1, h2⟩ := exec_frozen w op hx hne
  exact ⟨r', h1, congrArg (fun p => p.2.1) h2⟩

/-- A transaction that was never written to still has the node ids it started with. -/
theorem untouched (ops : List (Op V)) {w : World V} {x : Nat} (hw : ∀ r, w.txns[x]? = some r → r.st.maxNodeId = r.st.oldMaxNodeId)
    (hne : ∀ op ∈ ops, op.writes ≠ some x) :
    ∀ r, (execAll w ops).2.txns[x]? = some r → r.st.maxNodeId = r.st.oldMaxNodeId := by
  induction ops generalizing w with
  | nil => exact hw
  | cons op ops ih =>
    refine ih (w := (exec w op).2) (fun r hr => ?_) fun o ho => hne o (by simp [ho])
    cases hx : w.txns[x]? with
    | some r0 =>
      obtain ⟨r1, h1, h2⟩ := exec_frozen w op hx (hne op (by simp))
      rw [hr] at h1; cases h1
      have h3 := congrArg (fun p => p.2.2.2.1) h2
      have h4 := congrArg (fun p => p.2.2.2.2) h2
      simp only [TxnSt.frozen] at h3 h4
      rw [h3, h4]; exact hw r0 hx
    | none =>
      have hnew : ∀ (w : World V) (p : R TxnSt × St V), (∀ t s, p = (.ok t, s) → t.maxNodeId = t.oldMaxNodeId) → w.txns[x]? = none →
          (w.addTxn p).2.txns[x]? = some r → r.st.maxNodeId = r.st.oldMaxNodeId := fun w p hp hx hr => by
        match p, hp with
        | (.error e, s), _ => exact absurd (hr.symm.trans hx) (by simp)
        | (.ok t, s), hp =>
          have hr : (w.txns ++ [_])[x]? = some r := hr
          rw [getElem?_snoc] at hr
          split at hr
          · cases hr; exact hp t s rfl
          · rw [hx] at hr; cases hr
      have hset : ∀ (y : Nat) (r : TxnRec), (w.txns.set y r)[x]? = none := fun y r => by
        rw [List.getElem?_eq_none_iff] at hx ⊢; simpa using hx
      have h1 : ∀ {α : Type} (t : Nat) (f : Tree → M V α) (out : α → Out V × List Tree), (w.onTree t f out).2.txns[x]? = none := by
        intro α t f out
        unfold World.onTree
        cases w.trees[t]? with
        | none => exact hx
        | some tr =>
          simp only
          match f tr (w.st default) with
          | (.ok a, s) => exact hx
          | (.error e, s) => exact hx
      have h2 : ∀ {α : Type} (y : Nat) (f : M V α) (out : α → Out V × List Tree) (mark : TxnRec → TxnRec), (w.onTxn y f out mark).2.txns[x]? = none := by
        intro α y f out mark
        unfold World.onTxn
        cases w.txns[y]? with
        | none => exact hx
        | some r =>
          simp only
          match f (w.st r.st) with
          | (.ok a, s) => exact hset _ _
          | (.error e, s) => exact hset _ _
      have no1 : ∀ {α : Type} (t : Nat) (f : Tree → M V α) (out : α → Out V × List Tree), (w.onTree t f out).2.txns[x]? = some r →
          r.st.maxNodeId = r.st.oldMaxNodeId := fun t f out h => by rw [h1] at h; cases h
      have no2 : ∀ {α : Type} (y : Nat) (f : M V α) (out : α → Out V × List Tree) (mark : TxnRec → TxnRec),
          (w.onTxn y f out mark).2.txns[x]? = some r → r.st.maxNodeId = r.st.oldMaxNodeId := fun y f out mark h => by rw [h2] at h; cases h
      have hclone : ∀ (tr : Tree) (s : St V) t s', beginTxn tr s = (.ok t, s') → t.maxNodeId = t.oldMaxNodeId := fun tr s t s' h => by
        rw [beginTxn_run] at h
        match hc : cloneNode tr.root true s with
        | (.ok a, s1) => rw [hc] at h; cases h; rfl
        | (.error e, s1) => rw [hc] at h; cases h
      cases op with
      | newTree =>
        have : w.txns[x]? = some r := hr
        rw [hx] at this; cases this
      | begin t =>
        simp only [exec] at hr
        cases ht : w.trees[t]? with
        | none => rw [ht] at hr; rw [show w.txns[x]? = some r from hr] at hx; cases hx
        | some tr => rw [ht] at hr; exact hnew w _ (hclone tr (w.st default)) hx hr
      | txnClone y =>
        simp only [exec] at hr
        cases ht : w.txns[y]? with
        | none => rw [ht] at hr; rw [show w.txns[x]? = some r from hr] at hx; cases hx
        | some r1 =>
          rw [ht] at hr
          exact hnew { w with txns := w.txns.set y r1.cloned } _ (hclone ⟨r1.st.root, r1.st.size, r1.st.maxNodeId⟩ (w.st r1.st)) (hset _ _) hr
      | trackMutate y b => exact no2 _ _ _ _ hr
      | txnInsert y k v => exact no2 _ _ _ _ hr
      | txnDelete y k => exact no2 _ _ _ _ hr
      | txnDeletePrefix y k => exact no2 _ _ _ _ hr
      | txnGet y k => exact no2 _ _ _ _ hr
      | txnGetWatch y k => exact no2 _ _ _ _ hr
      | commit y => exact no2 _ _ _ _ hr
      | commitOnly y => exact no2 _ _ _ _ hr
      | notify y => exact no2 _ _ _ _ hr
      | _ => exact no1 _ _ _ hr

theorem Lawful.append {w : World V} {ops more : List (Op V)} (h : Lawful w (ops ++ more)) :
    Lawful w ops ∧ Lawful (execAll w ops).2 more := by
  induction ops generalizing w with
  | nil => exact ⟨trivial, h⟩
  | cons op ops ih =>
    obtain ⟨h1, h2⟩ := ih (w := (exec w op).2) h.2
    exact ⟨⟨h.1, h1⟩, h2⟩

theorem Lawful.extend {w : World V} {ops more : List (Op V)} (h1 : Lawful w ops) (h2 : Lawful (execAll w ops).2 more) :
    Lawful w (ops ++ more) := by
  induction ops generalizing w with
  | nil => exact h2
  | cons op ops ih => exact ⟨h1.1, ih h1.2 h2⟩

theorem Lawful.snoc {w : World V} {ops : List (Op V)} {op : Op V} (h1 : Lawful w ops) (h2 : (execAll w ops).2.allows op = true) :
    Lawful w (ops ++ [op]) := h1.extend ⟨h2, trivial⟩

theorem INV.init : INV (World.init : World V).heap (World.init : World V).view (World.init : World V).live
    (fun _ _ => False) (fun _ _ => False) := by
  have hl : ∀ x, (World.init : World V).live x = none := fun x => by simp [World.live, World.init]
  refine ⟨fun v p hv => ?_, ?_, ?_, ?_, ?_⟩
  · cases v <;> simp [World.view, World.init] at hv
  all_goals intro x m hx; rw [hl] at hx; cases hx

/-- A lawful history keeps the invariant, and what no call of it writes to. -/
theorem execAll_iso {w : World V} {S : ViewId → Addr → Prop} {O : Nat → Addr → Prop}
    (hi : INV w.heap w.view w.live S O) {ops : List (Op V)} (hl : Lawful w ops) :
    ∃ S' O', INV (execAll w ops).2.heap (execAll w ops).2.view (execAll w ops).2.live S' O' ∧
      w.heap.length ≤ (execAll w ops).2.heap.length ∧
      ∀ v p, w.view v = some p → (∀ op ∈ ops, ∀ x, op.writes = some x → v ≠ .inr x) →
        (execAll w ops).2.view v = some p ∧ S' v = S v ∧ Agree (S v) w.heap (execAll w ops).2.heap := by
  induction ops generalizing w S O with
  | nil => exact ⟨S, O, hi, Nat.le_refl _, fun v p hp _ => ⟨hp, rfl, .refl _ _⟩⟩
  | cons op ops ih =>
    obtain ⟨S1, O1, h1, h2, h3⟩ := exec_iso hi op hl.1
    obtain ⟨S2, O2, h4, h5, h6⟩ := ih h1 hl.2
    refine ⟨S2, O2, h4, Nat.le_trans h2 h5, fun v p hp hv => ?_⟩
    obtain ⟨a1, a2, a3⟩ := h3 v p hp (hv op (by simp))
    obtain ⟨b1, b2, b3⟩ := h6 v p a1 fun o ho => hv o (by simp [ho])
    exact ⟨b1, b2.trans a2, a3.trans (a2 ▸ b3)⟩

/-- After a lawful history, a tree or transaction that the lawful continuation does not write to keeps its
nodes. -/
theorem same_after {ops more : List (Op V)} (hl : Lawful World.init (ops ++ more)) {v : ViewId} {p : Addr × Nat}
    (hv : (execAll World.init ops).2.view v = some p) (hw : ∀ op ∈ more, ∀ x, op.writes = some x → v ≠ .inr x) :
    (execAll World.init (ops ++ more)).2.view v = some p ∧
    ∃ S, S p.1 ∧ Same (heapAfter ops) (heapAfter (ops ++ more)) S ∧ (heapAfter ops).length ≤ (heapAfter (ops ++ more)).length := by
  obtain ⟨h1, h2⟩ := hl.append
  obtain ⟨S, O, hi, -, -⟩ := execAll_iso INV.init h1
  obtain ⟨S', O', hi', hlen, hk⟩ := execAll_iso hi h2
  obtain ⟨k1, k2, k3⟩ := hk v p hv hw
  unfold heapAfter
  rw [execAll_append]
  exact ⟨k1, S v, (hi.region v p hv).root, ⟨(hi.region v p hv).closed, k3⟩, hlen⟩

theorem mkIter_in {S : Addr → Prop} {a : Addr} (ha : S a) : (mkIter a).In S :=
  ⟨fun b hb => by cases hb; exact ha, fun b hb => by cases hb⟩

theorem mkRevIter_in {S : Addr → Prop} {a : Addr} (ha : S a) : (mkRevIter a).In S :=
  ⟨fun b hb => by cases hb; exact ha, fun b hb => by cases hb⟩

theorem Same.reads {h h' : Heap V} {S : Addr → Prop} (hs : Same h h' S) (hl : h.length ≤ h'.length) {t : Tree}
    (hr : S t.root) : SameReads h t h' t where
  get := treeGet_congr hs hr
  minimum := treeMinimum_congr hs hl hr
  maximum := treeMaximum_congr hs hl hr
  longest := longestPrefix_congr hs hr
  walk := treeWalk_congr hs hl hr
  iter := fun p fuel => by
    unfold iterPrefix
    refine (CR.bind (P := fun q : Iter × Addr => q.1.In S) (Q := fun _ => True) ?_ fun q hq => CR.of_eq (iterCollect_congr hs fuel _ hq)).1
    obtain ⟨h1, h2⟩ := seekPrefix_congr hs hl (mkIter t.root) (mkIter_in hr) p
    exact ⟨h1, fun q hq => (h2 q hq).1⟩
  path := fun q fuel => pathCollect_congr hs fuel _ fun a ha => by
    rw [List.mem_singleton.1 ha]; exact hr
  reverse := fun fuel => revCollect_congr hs fuel _ (mkRevIter_in hr)

theorem Same.seeks {h h' : Heap V} {S : Addr → Prop} (hs : Same h h' S) (hl : h.length ≤ h'.length) {t : Tree}
    (hr : S t.root) : SameSeeks h t h' t where
  lower := fun k fuel => by
    unfold iterLowerBound
    exact (CR.bind (Q := fun _ => True) (seekLowerBound_congr hs hl hr k) fun st hst => CR.of_eq (lbCollect_congr hs fuel _ hst)).1
  reversePrefix := fun p fuel => by
    unfold iterReversePrefix
    exact (CR.bind (Q := fun _ => True) (revSeekPrefix_congr hs hl (mkRevIter_in hr) p) fun it hit =>
      CR.of_eq (revCollect_congr hs fuel _ hit)).1
  reverseLower := fun k extra fuel => by
    unfold iterReverseLowerBound
    exact (CR.bind (Q := fun _ => True) (seekReverseLowerBound_congr hs hl (mkRevIter_in hr) k extra) fun it hit =>
      CR.of_eq (revCollect_congr hs fuel _ hit)).1

end Art
