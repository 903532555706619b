import Verif.Proofs.Refine2
import Verif.Proofs.Snapshot
/-
Programs: after any history that respects `Clean`, every tree and transaction is the map that the
specification says.
-/
set_option autoImplicit false
set_option linter.unusedVariables false
set_option linter.unusedSimpArgs false
set_option linter.unusedSectionVars false
namespace Art
variable {V : Type} [Removals]

/-- A transaction of the program is the one of the specification. -/
structure TxnOK (ex : Bool) (h : Heap V) (r : TxnRec) (q : STxn V) : Prop where
  view : ViewOf ex h r.st.root r.st.size (!q.emptied) q.map
  tsize : r.st.treeSize = r.st.size
  ended : r.ended = q.ended
  copied : r.copied = true → q.copied = true

/-- The program state `w` is what the specification says; `A` says which of the trees and transactions may have had
keys removed. -/
structure RefinesBy (ex : Bool) (A : ViewId → Prop) (w : World V) (s : SWorld V) : Prop where
  ntrees : w.trees.length = s.trees.length
  ntxns : w.txns.length = s.txns.length
  trees : ∀ (i : Nat) (t : Tree) (m : Map V), w.trees[i]? = some t → s.trees[i]? = some m → @ViewOf V ⟨A (.inl i)⟩ ex w.heap t.root t.size false m
  txns : ∀ (x : Nat) (r : TxnRec) (q : STxn V), w.txns[x]? = some r → s.txns[x]? = some q → @TxnOK V ⟨A (.inr x)⟩ ex w.heap r q

/-- The program state `w` is what the specification says. -/
abbrev Refines (ex : Bool) (w : World V) (s : SWorld V) : Prop := RefinesBy ex (fun _ => Removals.allowed) w s

omit [Removals] in
theorem RefinesBy.init {ex : Bool} {A : ViewId → Prop} : RefinesBy ex A (World.init : World V) SWorld.init :=
  ⟨rfl, rfl, fun i t m h => by simp [World.init] at h, fun i t m h => by simp [World.init] at h⟩

section
variable {w w' : World V} {s : SWorld V} {S S' : ViewId → Addr → Prop} {O : Nat → Addr → Prop} {α : Type} {skip : Option Nat} {ex : Bool}
  {A A' : ViewId → Prop}

omit [Removals] in
theorem RefinesBy.tree (hR : RefinesBy ex A w s) {t : Nat} {tr : Tree} (h : w.trees[t]? = some tr) :
    ∃ m, s.trees[t]? = some m ∧ @ViewOf V ⟨A (.inl t)⟩ ex w.heap tr.root tr.size false m := by
  have hlt := (List.getElem?_eq_some_iff.1 h).1
  rw [hR.ntrees] at hlt
  exact ⟨_, List.getElem?_eq_getElem hlt, hR.trees _ _ _ h (List.getElem?_eq_getElem hlt)⟩

omit [Removals] in
theorem RefinesBy.no_tree (hR : RefinesBy ex A w s) {t : Nat} (h : w.trees[t]? = none) : s.trees[t]? = none := by
  rw [List.getElem?_eq_none_iff] at h ⊢
  rw [← hR.ntrees]; exact h

omit [Removals] in
theorem RefinesBy.txn (hR : RefinesBy ex A w s) {x : Nat} {r : TxnRec} (h : w.txns[x]? = some r) :
    ∃ q, s.txns[x]? = some q ∧ @TxnOK V ⟨A (.inr x)⟩ ex w.heap r q := by
  have hlt := (List.getElem?_eq_some_iff.1 h).1
  rw [hR.ntxns] at hlt
  exact ⟨_, List.getElem?_eq_getElem hlt, hR.txns _ _ _ h (List.getElem?_eq_getElem hlt)⟩

omit [Removals] in
theorem RefinesBy.no_txn (hR : RefinesBy ex A w s) {x : Nat} (h : w.txns[x]? = none) : s.txns[x]? = none := by
  rw [List.getElem?_eq_none_iff] at h ⊢
  rw [← hR.ntxns]; exact h

theorem ViewOf.kept {h h' : Heap V} {S : Addr → Prop} {a : Addr} {i : Nat} {sz : UInt64} {full : Bool} {m : Map V}
    (hv : ViewOf ex h a sz full m) (hr : Region h S (a, i)) (ha : Agree S h h') : ViewOf ex h' a sz full m :=
  hv.same ⟨hr.closed, ha⟩ hr.root

omit [Removals] in
theorem TxnOK.mono {P Q : Prop} (hPQ : P → Q) {h : Heap V} {r : TxnRec} {q : STxn V} (ht : @TxnOK V ⟨P⟩ ex h r q) : @TxnOK V ⟨Q⟩ ex h r q :=
  letI : Removals := ⟨P⟩
  @TxnOK.mk V ⟨Q⟩ _ _ _ _ (ViewOf.mono hPQ ht.view) ht.tsize ht.ended ht.copied

omit [Removals] in
theorem RefinesBy.keepTree (hR : RefinesBy ex A w s) (hi : INV w.heap w.view w.live S O) (hk : Kept w w' S S' skip)
    {i : Nat} {t : Tree} {m : Map V} (h1 : w.trees[i]? = some t) (h2 : s.trees[i]? = some m) : @ViewOf V ⟨A (.inl i)⟩ ex w'.heap t.root t.size false m := by
  have hv : w.view (.inl i) = some (t.root, t.maxNodeId) := by show (w.trees[i]?).map _ = _; rw [h1]; rfl
  letI : Removals := ⟨A (.inl i)⟩
  exact (hR.trees i t m h1 h2).kept (hi.region _ _ hv) (hk.keep _ _ hv (fun x _ h => nomatch h)).2.2

omit [Removals] in
theorem RefinesBy.keepTxn (hR : RefinesBy ex A w s) (hi : INV w.heap w.view w.live S O) (hk : Kept w w' S S' skip)
    {x : Nat} {r : TxnRec} {q : STxn V} (h1 : w.txns[x]? = some r) (h2 : s.txns[x]? = some q) (hx : skip ≠ some x) : @TxnOK V ⟨A (.inr x)⟩ ex w'.heap r q := by
  have hv := view_txn h1
  letI : Removals := ⟨A (.inr x)⟩
  have h3 := hR.txns x r q h1 h2
  exact @TxnOK.mk V ⟨A (.inr x)⟩ _ _ _ _ (h3.view.kept (hi.region _ _ hv) (hk.keep _ _ hv (fun y hy h => by cases h; exact hx hy)).2.2) h3.tsize h3.ended h3.copied

/-- The list of trees, numbered from `n` on, is the list of maps. -/
def Views (ex : Bool) (A : ViewId → Prop) (n : Nat) (h : Heap V) (ts : List Tree) (ms : List (Map V)) : Prop :=
  ts.length = ms.length ∧ ∀ (i : Nat) (t : Tree) (m : Map V), ts[i]? = some t → ms[i]? = some m → @ViewOf V ⟨A (.inl (n + i))⟩ ex h t.root t.size false m

omit [Removals] in
theorem Views.nil {n : Nat} {h : Heap V} : Views ex A n h [] [] := ⟨rfl, fun i t m h => by simp at h⟩

omit [Removals] in
theorem Views.one {n : Nat} {h : Heap V} {t : Tree} {m : Map V} (hv : @ViewOf V ⟨A (.inl n)⟩ ex h t.root t.size false m) : Views ex A n h [t] [m] :=
  ⟨rfl, fun i t' m' h1 h2 => by
    cases i with
    | zero => simp at h1 h2; subst h1; subst h2; exact hv
    | succ i => simp at h1⟩

omit [Removals] in
/-- Trees are only ever added. -/
theorem RefinesBy.addTrees {h : Heap V} {ts : List Tree} {ms : List (Map V)} (hlen : w.trees.length = s.trees.length)
    (h1 : ∀ (i : Nat) (t : Tree) (m : Map V), w.trees[i]? = some t → s.trees[i]? = some m → @ViewOf V ⟨A (.inl i)⟩ ex h t.root t.size false m)
    (h2 : Views ex A w.trees.length h ts ms) :
    (w.trees ++ ts).length = (s.trees ++ ms).length ∧
    ∀ (i : Nat) (t : Tree) (m : Map V), (w.trees ++ ts)[i]? = some t → (s.trees ++ ms)[i]? = some m → @ViewOf V ⟨A (.inl i)⟩ ex h t.root t.size false m := by
  refine ⟨by simp [hlen, h2.1], fun i t m ht hm => ?_⟩
  rcases Nat.lt_or_ge i w.trees.length with hlt | hge
  · rw [List.getElem?_append_left hlt] at ht
    rw [List.getElem?_append_left (hlen ▸ hlt)] at hm
    exact h1 i t m ht hm
  · rw [List.getElem?_append_right hge] at ht
    rw [List.getElem?_append_right (hlen ▸ hge)] at hm
    rw [hlen] at ht
    have := h2.2 _ t m ht hm
    rwa [show w.trees.length + (i - s.trees.length) = i by omega] at this

/-- The counterpart of `World.onTree`. -/
def SWorld.onTree (s : SWorld V) (t : Nat) (so : Map V → Out V × List (Map V)) : Out V × SWorld V :=
  match s.trees[t]? with
  | none => (.noSuch, s)
  | some m => ((so m).1, { s with trees := s.trees ++ (so m).2 })

/-- The counterpart of `World.onTxn`. -/
def SWorld.onTxn (s : SWorld V) (x : Nat) (so : STxn V → Out V × List (Map V) × STxn V) : Out V × SWorld V :=
  match s.txns[x]? with
  | none => (.noSuch, s)
  | some q => ((so q).1, { trees := s.trees ++ (so q).2.1, txns := s.txns.set x (so q).2.2 })

/-- A call does what the specification says, and its result is right in the sense of `Ok`. -/
def Sim (ex : Bool) (A : ViewId → Prop) (Ok : Out V → Out V → Prop) (p : Out V × World V) (p' : Out V × SWorld V) : Prop := Ok p.1 p'.1 ∧ RefinesBy ex A p.2 p'.2

omit [Removals] in
theorem RefinesBy.mono (hR : RefinesBy ex A w s) (hT : ∀ i, A (.inl i) → A' (.inl i)) (hX : ∀ x, A (.inr x) → A' (.inr x)) : RefinesBy ex A' w s :=
  ⟨hR.ntrees, hR.ntxns, fun i t m h1 h2 => ViewOf.mono (hT i) (hR.trees i t m h1 h2), fun x r q h1 h2 => TxnOK.mono (hX x) (hR.txns x r q h1 h2)⟩

/-- The views that are there may keep their marks. -/
def Holds (w : World V) (A A' : ViewId → Prop) : Prop := (∀ i, i < w.trees.length → A (.inl i) → A' (.inl i)) ∧ ∀ x, x < w.txns.length → A (.inr x) → A' (.inr x)

omit [Removals] in
theorem RefinesBy.holds (hR : RefinesBy ex A w s) (hA : Holds w A A') : RefinesBy ex A' w s :=
  ⟨hR.ntrees, hR.ntxns, fun i t m h1 h2 => ViewOf.mono (hA.1 i (List.getElem?_eq_some_iff.1 h1).1) (hR.trees i t m h1 h2),
   fun x r q h1 h2 => TxnOK.mono (hA.2 x (List.getElem?_eq_some_iff.1 h1).1) (hR.txns x r q h1 h2)⟩

omit [Removals] in
theorem RefinesBy.quiet (hR : RefinesBy ex A w s) (hA : Holds w A A') {Ok : Out V → Out V → Prop} (hn : Ok .noSuch .noSuch) :
    Sim ex A' Ok ((.noSuch, w) : Out V × World V) (.noSuch, s) := ⟨hn, hR.holds hA⟩

omit [Removals] in
theorem RefinesBy.onTree (hR : RefinesBy ex A w s) (hA : Holds w A A') (hi : INV w.heap w.view w.live S O) {t : Nat} {f : Tree → M V α} {out : α → Out V × List Tree}
    {so : Map V → Out V × List (Map V)} (hk : ∃ S', Kept w (w.onTree t f out).2 S S' skip) (hskip : skip = none) {Ok : Out V → Out V → Prop} (hn : Ok .noSuch .noSuch)
    (hf : ∀ tr m, w.trees[t]? = some tr → s.trees[t]? = some m → @ViewOf V ⟨A (.inl t)⟩ ex w.heap tr.root tr.size false m →
      Runs (f tr) (w.st default) fun a s' => Ok (out a).1 (so m).1 ∧ Views ex A' w.trees.length s'.heap (out a).2 (so m).2) :
    Sim ex A' Ok (w.onTree t f out) (s.onTree t so) := by
  obtain ⟨S', hk⟩ := hk
  unfold World.onTree at hk ⊢
  unfold SWorld.onTree
  cases ht : w.trees[t]? with
  | none => rw [hR.no_tree ht]; exact hR.quiet hA hn
  | some tr =>
    obtain ⟨m, hm, hv⟩ := hR.tree ht
    obtain ⟨a, s', h1, h2, h3⟩ := hf tr m ht hm hv
    simp only [ht, hm, h1] at hk ⊢
    have hR' := hR.holds hA
    obtain ⟨h4, h5⟩ := RefinesBy.addTrees hR.ntrees (fun i t m ht hm => hR'.keepTree hi hk ht hm) h3
    exact ⟨h2, h4, hR.ntxns, h5, fun x r q hr hq => hR'.keepTxn hi hk hr hq (by rw [hskip]; simp)⟩

omit [Removals] in
/-- The transaction `x` itself may get another mark. -/
theorem RefinesBy.onTxn (hR : RefinesBy ex A w s) (hi : INV w.heap w.view w.live S O) {x : Nat} (hA1 : ∀ i, i < w.trees.length → A (.inl i) → A' (.inl i))
    (hA2 : ∀ y, y < w.txns.length → y ≠ x → A (.inr y) → A' (.inr y)) {f : M V α} {out : α → Out V × List Tree} {mark : TxnRec → TxnRec}
    {so : STxn V → Out V × List (Map V) × STxn V} (hk : ∃ S', Kept w (w.onTxn x f out mark).2 S S' skip) (hskip : ∀ y, skip = some y → y = x) {Ok : Out V → Out V → Prop} (hn : Ok .noSuch .noSuch)
    (hf : ∀ r q, w.txns[x]? = some r → s.txns[x]? = some q → @TxnOK V ⟨A (.inr x)⟩ ex w.heap r q →
      Runs f (w.st r.st) fun a s' => Ok (out a).1 (so q).1 ∧ Views ex A' w.trees.length s'.heap (out a).2 (so q).2.1 ∧
        @TxnOK V ⟨A' (.inr x)⟩ ex s'.heap (mark { r with st := s'.txn }) (so q).2.2) :
    Sim ex A' Ok (w.onTxn x f out mark) (s.onTxn x so) := by
  obtain ⟨S', hk⟩ := hk
  unfold World.onTxn at hk ⊢
  unfold SWorld.onTxn
  cases hx : w.txns[x]? with
  | none =>
    rw [hR.no_txn hx]
    refine hR.quiet ⟨hA1, fun y hy => hA2 y hy ?_⟩ hn
    rintro rfl
    rw [List.getElem?_eq_getElem hy] at hx; cases hx
  | some r =>
    obtain ⟨q, hq, hv⟩ := hR.txn hx
    obtain ⟨a, s', h1, h2, h3, h4⟩ := hf r q hx hq hv
    simp only [hx, hq, h1] at hk ⊢
    obtain ⟨h5, h6⟩ := RefinesBy.addTrees hR.ntrees (fun i t m ht hm => ViewOf.mono (hA1 i (List.getElem?_eq_some_iff.1 ht).1) (hR.keepTree hi hk ht hm)) h3
    refine ⟨h2, h5, by simp [hR.ntxns], h6, fun y r' q' hr' hq' => ?_⟩
    simp only [getElem?_set_some hx, getElem?_set_some hq] at hr' hq'
    by_cases hy : y = x
    · rw [if_pos hy] at hr' hq'
      cases hr'; cases hq'; subst hy; exact h4
    · rw [if_neg hy] at hr' hq'
      exact TxnOK.mono (hA2 y (List.getElem?_eq_some_iff.1 hr').1 hy) (hR.keepTxn hi hk hr' hq' fun h => hy (hskip y h))

omit [Removals] in
/-- Adding a transaction. -/
theorem RefinesBy.addTxn (hR : RefinesBy ex A w s) (hA : Holds w A A') {w0 : World V} (hi : INV w0.heap w0.view w0.live S O) {p : R TxnSt × St V} {q : STxn V}
    (h0 : w0.trees = w.trees ∧ ∀ (x : Nat) (r : TxnRec), w.txns[x]? = some r → ∃ r0, w0.txns[x]? = some r0 ∧ r0.st = r.st) (h0h : w0.heap = w.heap)
    (hk : ∃ S', Kept w0 (w.addTxn p).2 S S' none) {ts : TxnSt} {s' : St V} (hp : p = (.ok ts, s')) {Ok : Out V → Out V → Prop} (hd : Ok .done .done)
    (hq : @TxnOK V ⟨A' (.inr w.txns.length)⟩ ex s'.heap ⟨ts, false, false⟩ q) :
    Sim ex A' Ok (w.addTxn p) (.done, { s with txns := s.txns ++ [q] }) := by
  obtain ⟨S', hk⟩ := hk
  subst hp
  unfold World.addTxn at hk ⊢
  simp only at hk ⊢
  have hR' := hR.holds hA
  refine ⟨hd, hR.ntrees, by simp [hR.ntxns], fun i t m ht hm => ?_, fun y r' q' hr' hq' => ?_⟩
  · have hv : w0.view (.inl i) = some (t.root, t.maxNodeId) := by show (w0.trees[i]?).map _ = _; rw [h0.1, show w.trees[i]? = some t from ht]; rfl
    letI : Removals := ⟨A' (.inl i)⟩
    exact (hR'.trees i t m ht hm).kept (h0h ▸ hi.region _ _ hv) (h0h ▸ (hk.keep _ _ hv (fun x _ h => nomatch h)).2.2)
  · simp only [getElem?_snoc] at hr' hq'
    rw [← hR.ntxns] at hq'
    by_cases hy : y = w.txns.length
    · rw [if_pos hy] at hr' hq'
      cases hr'; cases hq'; subst hy; exact hq
    · rw [if_neg hy] at hr' hq'
      obtain ⟨r0, g1, g2⟩ := h0.2 y r' hr'
      have hv := view_txn g1
      rw [g2] at hv
      letI : Removals := ⟨A' (.inr y)⟩
      have h3 := hR'.txns y r' q' hr' hq'
      exact @TxnOK.mk V ⟨A' (.inr y)⟩ _ _ _ _ (h3.view.kept (h0h ▸ hi.region _ _ hv) (h0h ▸ (hk.keep _ _ hv (fun y hy h => nomatch hy)).2.2)) h3.tsize h3.ended h3.copied

theorem TxnOK.heap {h h' : Heap V} {r : TxnRec} {q : STxn V} (ht : TxnOK ex h r q) (hv : ViewOf ex h' r.st.root r.st.size (!q.emptied) q.map) : TxnOK ex h' r q :=
  ⟨hv, ht.tsize, ht.ended, ht.copied⟩

theorem runs_get {h : Heap V} {a : Addr} {sz : UInt64} {full : Bool} {m : Map V} {t : Tree} {k : Key} {s : St V} (hv : ViewOf ex s.heap t.root sz full m) :
    ∃ c s', treeGetWatch t k s = (.ok (c, m.get k), s') ∧ AgreeAll s.heap s'.heap ∧ s'.txn = s.txn := by
  obtain ⟨hit, h1, h2, h3⟩ := hv.search k
  have hag := watch_agree (treeGetWatch_cases t k s)
  rw [treeGetWatch_run, h1] at hag ⊢
  simp only [List.getElem?_eq_getElem h3] at hag ⊢
  exact ⟨_, _, by rw [← h2], hag⟩

theorem runs_seek {E : List (Ent V)} {N : List (Key × Addr)} {a : Addr} {full : Bool} {s : St V} {p : Key} (hr : RootRep s.heap a full E N) :
    ∃ r s', seekPrefixWatch (mkIter a) p s = (.ok r, s') ∧ AgreeAll s.heap s'.heap ∧ s'.txn = s.txn := by
  obtain ⟨it, x, q, g1, g2, -⟩ := hr.seek p
  have hlt := hr.occ_lt (x := x) (Or.inl (List.mem_map.2 ⟨_, g2, rfl⟩))
  have hag := watch_agree (seekPrefixWatch_cases (mkIter a) p s)
  rw [seekPrefixWatch_run, g1] at hag ⊢
  simp only [List.getElem?_eq_getElem hlt] at hag ⊢
  exact ⟨_, _, rfl, hag⟩

theorem Map.Shadowed.not_over {m : Map V} {k : Key} (hs : m.Shadowed k) (hc : m.CanSet k) : False := by
  obtain ⟨h1, k', h2, h3, h4⟩ := hs
  exact h3 (hc.over h1 k' h2 h4)

variable [Inhabited V]

omit [Removals] in
theorem legal_allows (hR : RefinesBy ex A w s) (op : Op V) (hl : op.legal s = true) : w.allows op = true := by
  unfold World.allows
  unfold Op.legal at hl
  cases hop : op.writes with
  | none => rfl
  | some x =>
    simp only [hop] at hl ⊢
    cases hx : w.txns[x]? with
    | none => rfl
    | some r =>
      obtain ⟨q, hq, h⟩ := hR.txn hx
      letI : Removals := ⟨A (.inr x)⟩
      simp only [hq] at hl ⊢
      rw [h.ended]
      have h1 : q.ended = false ∧ q.copied = false := by simpa using hl
      have h2 : r.copied = false := by
        cases hc : r.copied with
        | false => rfl
        | true => rw [h.copied hc] at h1; exact absurd h1.2 (by decide)
      rw [h1.1, h2]; rfl

theorem ViewOf.setRoot {h : Heap V} {t : TxnSt} {m : Map V} (hv : ViewOf ex h t.root t.size false m) :
    ViewOf ex h ({ root := t.root, size := t.size, maxNodeId := t.maxNodeId } : Tree).root t.size false m := hv

theorem set_same {α : Type} {l : List α} {x : Nat} {a : α} (h : l[x]? = some a) : l.set x a = l := by
  refine List.ext_getElem? fun i => ?_
  rw [getElem?_set_some h]
  by_cases hi : i = x
  · subst hi; simp [h]
  · simp [hi]

theorem modify_set {α : Type} {l : List α} {x : Nat} {a : α} (h : l[x]? = some a) (f : α → α) : l.modify x f = l.set x (f a) := by
  refine List.ext_getElem? fun i => ?_
  rw [List.getElem?_modify, getElem?_set_some h]
  by_cases hi : i = x
  · subst hi; simp [h]
  · simp [hi, Ne.symm hi]

/-- How the marks may change with a call: a tree or transaction that is made from another one has its mark; a deletion
sets it, unless nothing is left. -/
def Follows (w : World V) (s : SWorld V) (A A' : ViewId → Prop) (op : Op V) : Prop :=
  (∀ i, i < w.trees.length → A (.inl i) → A' (.inl i)) ∧
  match op with
  | .cloneTree t | .insert t _ _ => (∀ x, x < w.txns.length → A (.inr x) → A' (.inr x)) ∧ (A (.inl t) → A' (.inl w.trees.length))
  | .delete t k => (∀ x, x < w.txns.length → A (.inr x) → A' (.inr x)) ∧ ∀ m, s.trees[t]? = some m → m.del k ≠ [] → A' (.inl w.trees.length)
  | .begin t => (∀ x, x < w.txns.length → A (.inr x) → A' (.inr x)) ∧ (A (.inl t) → A' (.inr w.txns.length))
  | .txnClone x => (∀ y, y < w.txns.length → A (.inr y) → A' (.inr y)) ∧ (A (.inr x) → A' (.inr w.txns.length))
  | .commit x | .commitOnly x => (∀ y, y < w.txns.length → A (.inr y) → A' (.inr y)) ∧ (A (.inr x) → A' (.inl w.trees.length))
  | .txnDelete x k => (∀ y, y < w.txns.length → y ≠ x → A (.inr y) → A' (.inr y)) ∧ ∀ q, s.txns[x]? = some q → q.map.del k ≠ [] → A' (.inr x)
  | _ => ∀ x, x < w.txns.length → A (.inr x) → A' (.inr x)

omit [Removals] in
/-- One call. -/
theorem exec_simBy (hR : RefinesBy ex A w s) (hi : INV w.heap w.view w.live S O) (op : Op V) (hc : op.Broad w s)
    (hx : ex = true → op.Clean s) (hA : Follows w s A A' op) :
    Sim ex A' (fun o o' => o.vis = o' ∨ (ex = false ∧ op.Blur s o)) (exec w op) (sexec s op) := by
  have hn : (Out.noSuch : Out V).vis = .noSuch ∨ (ex = false ∧ op.Blur s .noSuch) := Or.inl rfl
  have hd : (Out.done : Out V).vis = .done ∨ (ex = false ∧ op.Blur s .done) := Or.inl rfl
  have hok : w.allows op = true := legal_allows hR op hc.1
  obtain ⟨S', O', -, hk⟩ := exec_iso hi op hok
  have hk : ∃ S', Kept w (exec w op).2 S S' op.writes := ⟨S', hk⟩
  have hc := hc.2
  have hx := fun h => (hx h).2
  obtain ⟨hA1, hA2⟩ := hA
  cases op with
  | newTree =>
    obtain ⟨S', hk⟩ := hk
    obtain ⟨t, s', h1, h2⟩ := @newRadixTree_runs V ⟨A' (.inl w.trees.length)⟩ (s := w.st default) (ex := ex) _
    unfold exec at hk ⊢
    simp only [h1] at hk ⊢
    obtain ⟨h4, h5⟩ := RefinesBy.addTrees hR.ntrees (fun i t m ht hm => ViewOf.mono (hA1 i (List.getElem?_eq_some_iff.1 ht).1) (hR.keepTree hi hk ht hm)) (Views.one h2)
    exact ⟨hd, h4, hR.ntxns, h5, fun x r q hr hq => TxnOK.mono (hA2 x (List.getElem?_eq_some_iff.1 hr).1) (hR.keepTxn hi hk hr hq (fun h => nomatch h))⟩
  | cloneTree t =>
    refine RefinesBy.onTree (so := fun m => (.done, [m])) hR ⟨hA1, hA2.1⟩ hi hk rfl hn fun tr m h1 h2 h3 => ?_
    letI : Removals := ⟨A (.inl t)⟩
    unfold treeClone
    refine Runs.bind (Runs.mono h3.clone ?_)
    rintro a' s' ⟨-, h4⟩
    exact Runs.pure ⟨hd, Views.one (h4.weaken.mono hA2.2)⟩
  | insert t k v =>
    refine RefinesBy.onTree (so := fun m => (oldValue m k, [m.set k v])) hR ⟨hA1, hA2.1⟩ hi hk rfl hn fun tr m h1 h2 h3 => ?_
    letI : Removals := ⟨A (.inl t)⟩
    rw [treeInsert_eq]
    refine Runs.mono (treeOp_runs (Q := fun r s' => InsOut ex m k (.updated r.1 r.2) ∧ ViewOf ex s'.heap s'.txn.root s'.txn.size true (m.set k v)) h3 fun s1 g1 g2 g3 g0 => ?_) ?_
    · refine Runs.mono (g1.insert g2 (g0 ▸ hc m tr h2 h1) fun h hs => hs.not_over (hx h m h2)) ?_
      rintro r s' ⟨g4, g5, -, g6⟩
      exact ⟨by rw [g5.track]; exact g3, g4, g6⟩
    · rintro ⟨nt, old, did⟩ s' ⟨g1, g2, g3, g4⟩
      simp only at g1 g2 g3 g4
      exact ⟨g3.imp_right fun ⟨x1, x2, x3⟩ => ⟨x1, m, h2, x2, x3⟩, Views.one (by rw [g1, g2]; exact g4.weaken.mono hA2.2)⟩
  | delete t k =>
    refine RefinesBy.onTree (so := fun m => (oldValue m k, [m.del k])) hR ⟨hA1, hA2.1⟩ hi hk rfl hn fun tr m h1 h2 h3 => ?_
    rw [treeDelete_eq]
    replace h3 := h3.mono (Q := True) fun _ => trivial
    letI : Removals := ⟨True⟩
    haveI : CanRemove := ⟨trivial⟩
    refine Runs.mono (treeOp_runs (Q := fun r s' => .updated r.1 r.2 = oldValue m k ∧ ViewOf ex s'.heap s'.txn.root s'.txn.size false (m.del k)) h3 fun s1 g1 g2 g3 _ => ?_) ?_
    · refine Runs.mono (g1.delete g2 (hc m h2)) ?_
      rintro r s' ⟨g4, g5, -, g6⟩
      exact ⟨by rw [g5.track]; exact g3, g4, g6.weaken⟩
    · rintro ⟨nt, old, did⟩ s' ⟨g1, g2, g3, g4⟩
      simp only at g1 g2 g3 g4
      exact ⟨Or.inl g3, Views.one (by rw [g1, g2]; exact g4.mono_nil (hA2.2 m h2))⟩
  | deletePrefix t k => exact hc.elim
  | txnDeletePrefix t k => exact hc.elim
  | get t k =>
    have hs : sexec s (.get t k) = s.onTree t fun m => (.value (m.get k), []) := by
      unfold sexec SWorld.onTree; cases h : s.trees[t]? <;> simp [h]
    rw [hs]
    refine RefinesBy.onTree hR ⟨hA1, hA2⟩ hi hk rfl hn fun tr m h1 h2 h3 => ?_
    letI : Removals := ⟨A (.inl t)⟩
    obtain ⟨hit, g1, g2, -⟩ := h3.search k
    refine ⟨hit.val, w.st default, ?_, Or.inl (by rw [g2]; rfl), Views.nil⟩
    simp only [bind_run, M.get, lift_run, treeGet, World.st, g1, Except.bind_ok]
    rfl
  | getWatch t k =>
    have hs : sexec s (.getWatch t k) = s.onTree t fun m => (.value (m.get k), []) := by
      unfold sexec SWorld.onTree; cases h : s.trees[t]? <;> simp [h]
    rw [hs]
    refine RefinesBy.onTree hR ⟨hA1, hA2⟩ hi hk rfl hn fun tr m h1 h2 h3 => ?_
    letI : Removals := ⟨A (.inl t)⟩
    obtain ⟨c, s', g1, -⟩ := runs_get (h := []) (a := 0) (s := w.st default) (k := k) h3
    exact ⟨_, _, g1, Or.inl rfl, Views.nil⟩
  | seekPrefixWatch t p =>
    have hs : sexec s (.seekPrefixWatch t p) = s.onTree t fun m => (.done, []) := by
      unfold sexec SWorld.onTree; cases h : s.trees[t]? <;> simp [h]
    rw [hs]
    refine RefinesBy.onTree hR ⟨hA1, hA2⟩ hi hk rfl hn fun tr m h1 h2 h3 => ?_
    letI : Removals := ⟨A (.inl t)⟩
    obtain ⟨⟨E, N, hr, ha⟩, -, -, -⟩ := h3
    obtain ⟨⟨it, c⟩, s', g1, -⟩ := runs_seek (s := w.st default) (p := p) hr
    exact ⟨_, _, g1, Or.inl rfl, Views.nil⟩
  | len t =>
    have hs : sexec s (.len t) = s.onTree t fun m => (.number m.length, []) := by
      unfold sexec SWorld.onTree; cases h : s.trees[t]? <;> simp [h]
    rw [hs]
    refine RefinesBy.onTree hR ⟨hA1, hA2⟩ hi hk rfl hn fun tr m h1 h2 h3 => ?_
    letI : Removals := ⟨A (.inl t)⟩
    refine ⟨_, _, rfl, ?_, Views.nil⟩
    cases ex with
    | true => exact Or.inl (by show Out.number _ = _; rw [treeLen, h3.len])
    | false => exact Or.inr ⟨rfl, m, _, h2, rfl, h3.len_le⟩
  | begin t =>
    unfold exec at hk ⊢
    unfold sexec
    simp only at hk ⊢
    cases ht : w.trees[t]? with
    | none => rw [hR.no_tree ht]; exact hR.quiet ⟨hA1, hA2.1⟩ hn
    | some tr =>
      obtain ⟨m, hm, hv⟩ := hR.tree ht
      simp only [ht, hm] at hk ⊢
      letI : Removals := ⟨A (.inl t)⟩
      obtain ⟨ts, s', h1, h2⟩ : Runs (beginTxn tr : M V TxnSt) (w.st default) fun ts s' => TxnOK ex s'.heap ⟨ts, false, false⟩ ⟨m, false, false, false⟩ := by
        unfold beginTxn
        refine Runs.bind (Runs.mono (ViewOf.clone (s := w.st default) hv) ?_)
        rintro a' s' ⟨-, h4⟩
        exact Runs.pure ⟨h4, rfl, rfl, fun h => h⟩
      exact RefinesBy.addTxn hR ⟨hA1, hA2.1⟩ hi ⟨rfl, fun x r h => ⟨r, h, rfl⟩⟩ rfl hk h1 hd (h2.mono hA2.2)
  | txnClone x =>
    unfold exec at hk ⊢
    unfold sexec
    simp only at hk ⊢
    cases hx : w.txns[x]? with
    | none => rw [hR.no_txn hx]; exact hR.quiet ⟨hA1, hA2.1⟩ hn
    | some r =>
      obtain ⟨q, hq, hv⟩ := hR.txn hx
      simp only [hx, hq] at hk ⊢
      letI : Removals := ⟨A (.inr x)⟩
      obtain ⟨ts, s', h1, h2⟩ : Runs (txnClone : M V TxnSt) (w.st r.st) fun ts s' => TxnOK ex s'.heap ⟨ts, false, false⟩ ⟨q.map, false, false, q.emptied⟩ := by
        unfold txnClone
        refine Runs.bind (Runs.txnSt (Runs.bind (Runs.mono (ViewOf.clone (s := w.st r.st) hv.view) ?_)))
        rintro a' s' ⟨-, h4⟩
        refine Runs.pure ⟨?_, rfl, rfl, fun h => h⟩
        cases hqe : q.emptied with
        | false => exact h4
        | true => exact h4.weaken
      have hR' : RefinesBy ex A { w with txns := w.txns.set x r.cloned } { s with txns := s.txns.set x { q with copied := true } } := by
        refine ⟨hR.ntrees, by simp [hR.ntxns], hR.trees, fun y r' q' hr' hq' => ?_⟩
        simp only [getElem?_set_some hx, getElem?_set_some hq] at hr' hq'
        by_cases hy : y = x
        · rw [if_pos hy] at hr' hq'
          cases hr'; cases hq'; subst hy; exact ⟨hv.view, hv.tsize, hv.ended, fun _ => rfl⟩
        · rw [if_neg hy] at hr' hq'
          exact hR.txns y r' q' hr' hq'
      refine RefinesBy.addTxn hR' ⟨hA1, fun y hy => hA2.1 y (by simpa using hy)⟩ hi ⟨rfl, fun y r' h => ?_⟩ rfl hk h1 hd (h2.mono (by simpa using hA2.2))
      simp only [getElem?_set_some hx] at h
      by_cases hy : y = x
      · rw [if_pos hy] at h
        cases h; exact ⟨r, hy ▸ hx, rfl⟩
      · rw [if_neg hy] at h
        exact ⟨r', h, rfl⟩
  | trackMutate x b =>
    have hs : sexec s (.trackMutate x b) = s.onTxn x fun q => (.done, [], q) := by
      unfold sexec SWorld.onTxn
      cases h : s.txns[x]? with
      | none => simp [h]
      | some q => simp [set_same h, h]
    rw [hs]
    refine RefinesBy.onTxn hR hi hA1 (fun y hy _ => hA2 y hy) hk (fun y h => nomatch h) hn fun r q h1 h2 h3 => ?_
    letI : Removals := ⟨A (.inr x)⟩
    exact ⟨_, _, rfl, hd, Views.nil, TxnOK.mono (hA2 x (List.getElem?_eq_some_iff.1 h1).1) ⟨h3.view, h3.tsize, h3.ended, h3.copied⟩⟩
  | txnInsert x k v =>
    have hs : sexec s (.txnInsert x k v) = s.onTxn x fun q => (oldValue q.map k, [], { q with map := q.map.set k v }) := by
      unfold sexec SWorld.onTxn SWorld.modTxn
      cases h : s.txns[x]? with
      | none => simp [h]
      | some q => simp [modify_set h, h]
    rw [hs]
    refine RefinesBy.onTxn hR hi hA1 (fun y hy _ => hA2 y hy) hk (fun y h => by cases h; rfl) hn fun r q h1 h2 h3 => ?_
    letI : Removals := ⟨A (.inr x)⟩
    obtain ⟨g0, g1⟩ := hc q r h2 h1
    have hv := h3.view
    rw [g0] at hv
    refine Runs.mono (ViewOf.insert (s := w.st r.st) hv h3.tsize g1 fun h hs => hs.not_over (hx h q h2).2) ?_
    rintro ⟨old, did⟩ s' ⟨g2, g3, g4, g5⟩
    exact ⟨g2.imp_right fun ⟨x1, x2, x3⟩ => ⟨x1, q, h2, x2, x3⟩, Views.nil, TxnOK.mono (hA2 x (List.getElem?_eq_some_iff.1 h1).1) ⟨by simp only [g0]; exact g5, g4, h3.ended, h3.copied⟩⟩
  | txnDelete x k =>
    have hs : sexec s (.txnDelete x k) = s.onTxn x fun q => (oldValue q.map k, [], { q with map := q.map.del k, emptied := q.emptied || (q.map.del k).isEmpty }) := by
      unfold sexec SWorld.onTxn SWorld.modTxn
      cases h : s.txns[x]? with
      | none => simp [h]
      | some q => simp [modify_set h, h]
    rw [hs]
    refine RefinesBy.onTxn hR hi hA1 hA2.1 hk (fun y h => by cases h; rfl) hn fun r q h1 h2 h3 => ?_
    replace h3 := h3.mono (Q := True) fun _ => trivial
    letI : Removals := ⟨True⟩
    haveI : CanRemove := ⟨trivial⟩
    refine Runs.mono (ViewOf.delete (s := w.st r.st) h3.view h3.tsize (hc q h2)) ?_
    rintro ⟨old, did⟩ s' ⟨g2, g3, g4, g5⟩
    refine ⟨Or.inl g2, Views.nil, @TxnOK.mk V ⟨A' (.inr x)⟩ _ _ _ _ (ViewOf.mono_nil (P := True) (hA2.2 q h2) ?_) g4 h3.ended h3.copied⟩
    simp only [Bool.not_or]; exact g5
  | txnGet x k =>
    have hs : sexec s (.txnGet x k) = s.onTxn x fun q => (.value (q.map.get k), [], q) := by
      unfold sexec SWorld.onTxn
      cases h : s.txns[x]? with
      | none => simp [h]
      | some q => simp [set_same h, h]
    rw [hs]
    refine RefinesBy.onTxn hR hi hA1 (fun y hy _ => hA2 y hy) hk (fun y h => nomatch h) hn fun r q h1 h2 h3 => ?_
    letI : Removals := ⟨A (.inr x)⟩
    obtain ⟨hit, g1, g2, -⟩ := h3.view.search k
    refine ⟨hit.val, w.st r.st, ?_, Or.inl (by rw [g2]; rfl), Views.nil, TxnOK.mono (hA2 x (List.getElem?_eq_some_iff.1 h1).1) h3⟩
    simp only [txnGet, bind_run, M.get, lift_run, World.st, g1]
    rfl
  | txnGetWatch x k =>
    have hs : sexec s (.txnGetWatch x k) = s.onTxn x fun q => (.value (q.map.get k), [], q) := by
      unfold sexec SWorld.onTxn
      cases h : s.txns[x]? with
      | none => simp [h]
      | some q => simp [set_same h, h]
    rw [hs]
    refine RefinesBy.onTxn hR hi hA1 (fun y hy _ => hA2 y hy) hk (fun y h => nomatch h) hn fun r q h1 h2 h3 => ?_
    letI : Removals := ⟨A (.inr x)⟩
    obtain ⟨c, s', g1, g2, g3⟩ := runs_get (h := []) (a := 0) (s := w.st r.st) (t := { root := r.st.root, size := r.st.treeSize, maxNodeId := r.st.maxNodeId }) (k := k) h3.view
    refine Runs.bind (Runs.txnSt ⟨_, _, g1, Or.inl rfl, Views.nil, ?_⟩)
    have hreg := hi.region _ _ (view_txn h1)
    rw [g3]
    exact TxnOK.mono (hA2 x (List.getElem?_eq_some_iff.1 h1).1) ⟨h3.view.kept hreg (AgreeAll.on g2 hreg), h3.tsize, h3.ended, h3.copied⟩
  | commit x =>
    have hs : sexec s (.commit x) = s.onTxn x fun q => (.done, [q.map], { q with ended := true }) := by
      unfold sexec SWorld.onTxn
      cases h : s.txns[x]? <;> simp [h]
    rw [hs]
    refine RefinesBy.onTxn hR hi hA1 (fun y hy _ => hA2.1 y hy) hk (fun y h => nomatch h) hn fun r q h1 h2 h3 => ?_
    letI : Removals := ⟨A (.inr x)⟩
    refine ⟨_, _, commit_run _, hd, ?_⟩
    rw [notify_run]
    refine ⟨Views.one (h3.view.weaken.mono hA2.2), ?_⟩
    simp only
    split
    · exact @TxnOK.mk V ⟨A' (.inr x)⟩ _ _ _ _ (h3.view.mono (hA2.1 x (List.getElem?_eq_some_iff.1 h1).1)) h3.tsize rfl h3.copied
    · exact @TxnOK.mk V ⟨A' (.inr x)⟩ _ _ _ _ (h3.view.mono (hA2.1 x (List.getElem?_eq_some_iff.1 h1).1)) h3.tsize rfl h3.copied
  | commitOnly x =>
    have hs : sexec s (.commitOnly x) = s.onTxn x fun q => (.done, [q.map], { q with ended := true }) := by
      unfold sexec SWorld.onTxn
      cases h : s.txns[x]? <;> simp [h]
    rw [hs]
    refine RefinesBy.onTxn hR hi hA1 (fun y hy _ => hA2.1 y hy) hk (fun y h => nomatch h) hn fun r q h1 h2 h3 => ?_
    letI : Removals := ⟨A (.inr x)⟩
    exact ⟨_, _, rfl, hd, Views.one (h3.view.weaken.mono hA2.2), @TxnOK.mk V ⟨A' (.inr x)⟩ _ _ _ _ (h3.view.mono (hA2.1 x (List.getElem?_eq_some_iff.1 h1).1)) h3.tsize rfl h3.copied⟩
  | notify x =>
    have hs : sexec s (.notify x) = s.onTxn x fun q => (.done, [], q) := by
      unfold sexec SWorld.onTxn
      cases h : s.txns[x]? with
      | none => simp [h]
      | some q => simp [set_same h, h]
    rw [hs]
    refine RefinesBy.onTxn hR hi hA1 (fun y hy _ => hA2 y hy) hk (fun y h => nomatch h) hn fun r q h1 h2 h3 => ?_
    letI : Removals := ⟨A (.inr x)⟩
    refine ⟨_, _, notify_run _, hd, Views.nil, ?_⟩
    simp only
    split
    · exact TxnOK.mono (hA2 x (List.getElem?_eq_some_iff.1 h1).1) ⟨h3.view, h3.tsize, h3.ended, h3.copied⟩
    · exact TxnOK.mono (hA2 x (List.getElem?_eq_some_iff.1 h1).1) ⟨h3.view, h3.tsize, h3.ended, h3.copied⟩

/-- The same with one mark for all. -/
theorem exec_sim (hR : Refines ex w s) (hi : INV w.heap w.view w.live S O) (op : Op V) (hc : op.Broad w s)
    (hx : ex = true → op.Clean s) (hD : op.deletes = true → CanRemove) :
    Sim ex (fun _ => Removals.allowed) (fun o o' => o.vis = o' ∨ (ex = false ∧ op.Blur s o)) (exec w op) (sexec s op) := by
  refine exec_simBy hR hi op hc hx ⟨fun _ _ h => h, ?_⟩
  cases op with
  | cloneTree => exact ⟨fun _ _ h => h, fun h => h⟩
  | insert => exact ⟨fun _ _ h => h, fun h => h⟩
  | delete => exact ⟨fun _ _ h => h, fun _ _ _ => (hD rfl).ok⟩
  | begin => exact ⟨fun _ _ h => h, fun h => h⟩
  | txnClone => exact ⟨fun _ _ h => h, fun h => h⟩
  | commit => exact ⟨fun _ _ h => h, fun h => h⟩
  | commitOnly => exact ⟨fun _ _ h => h, fun h => h⟩
  | txnDelete => exact ⟨fun _ _ _ h => h, fun _ _ _ => (hD rfl).ok⟩
  | _ => exact fun _ _ h => h

/-- The state of a program that has respected `Broad` so far, and `Clean` if `ex` holds. -/
def GoodOf (ex : Bool) (w : World V) (s : SWorld V) : Prop := Refines ex w s ∧ ∃ S O, INV w.heap w.view w.live S O

/-- The state of a program that has respected `Clean` so far. -/
abbrev Good (w : World V) (s : SWorld V) : Prop := GoodOf true w s

theorem GoodOf.init : GoodOf ex (World.init : World V) SWorld.init := ⟨RefinesBy.init, _, _, INV.init⟩

/-- In a program that has respected `Clean` so far, clean calls are broad. -/
theorem Op.Clean.broad {op : Op V} (hR : Refines true w s) (hc : op.Clean s) : op.Broad w s := by
  refine ⟨hc.1, ?_⟩
  have hc := hc.2
  have key : ∀ {a : Addr} {sz : UInt64} {full : Bool} {m : Map V} {k : Key}, ViewOf true w.heap a sz full m → m.CanSet k → m.Takes sz k := fun {a sz full m k} hv hm => by
    have h1 := hv.size.2 rfl
    have h2 := hm.size
    refine ⟨hm.put, by omega, ?_⟩
    rintro rfl
    exact UInt64.toNat_inj.1 (by rw [h1]; rfl)
  cases op with
  | insert t k v => exact fun m tr h1 h2 => key (hR.trees t tr m h2 h1) (hc m h1)
  | txnInsert x k v => exact fun q r h1 h2 => ⟨(hc q h1).1, key (hR.txns x r q h2 h1).view (hc q h1).2⟩
  | delete t k => exact hc
  | txnDelete x k => exact hc
  | deletePrefix t k => exact hc
  | txnDeletePrefix x k => exact hc
  | _ => trivial

theorem exec_goodOf (hg : GoodOf ex w s) (op : Op V) (hc : op.Broad w s) (hx : ex = true → op.Clean s)
    (hD : op.deletes = true → CanRemove := by exact fun _ => inferInstance) :
    ((exec w op).1.vis = (sexec s op).1 ∨ (ex = false ∧ op.Blur s (exec w op).1)) ∧ GoodOf ex (exec w op).2 (sexec s op).2 := by
  obtain ⟨hR, S, O, hi⟩ := hg
  obtain ⟨h1, h2⟩ := exec_sim hR hi op hc hx hD
  obtain ⟨S', O', h3, -⟩ := exec_iso hi op (legal_allows hR op hc.1)
  exact ⟨h1, h2, S', O', h3⟩

theorem exec_good [CanRemove] (hg : Good w s) (op : Op V) (hc : op.Clean s) :
    (exec w op).1.vis = (sexec s op).1 ∧ Good (exec w op).2 (sexec s op).2 := by
  obtain ⟨h1, h2⟩ := exec_goodOf hg op (hc.broad hg.1) fun _ => hc
  exact ⟨h1.resolve_right fun h => (nomatch h.1), h2⟩

theorem execAll_good [CanRemove] (hg : Good w s) (ops : List (Op V)) (hc : During Op.Clean s ops) :
    (execAll w ops).1.map Out.vis = (sexecAll s ops).1 ∧ Good (execAll w ops).2 (sexecAll s ops).2 := by
  induction ops generalizing w s with
  | nil => exact ⟨rfl, hg⟩
  | cons op ops ih =>
    obtain ⟨h1, h2⟩ := exec_good hg op hc.1
    obtain ⟨h3, h4⟩ := ih h2 hc.2
    refine ⟨?_, h4⟩
    show (exec w op).1.vis :: (execAll (exec w op).2 ops).1.map Out.vis = (sexec s op).1 :: (sexecAll (sexec s op).2 ops).1
    rw [h1, h3]

theorem execAll_broad [CanRemove] (hg : GoodOf false w s) (ops : List (Op V)) (hc : Along Op.Broad w s ops) : GoodOf false (execAll w ops).2 (sexecAll s ops).2 := by
  induction ops generalizing w s with
  | nil => exact hg
  | cons op ops ih => exact ih (exec_goodOf hg op hc.1 fun h => nomatch h).2 hc.2

/-- The same for histories without deletions, whether or not removals are allowed. -/
theorem execAll_grow (hg : GoodOf false w s) (ops : List (Op V)) (hc : Along Op.Broad w s ops) (hD : ∀ op ∈ ops, op.deletes = false) :
    GoodOf false (execAll w ops).2 (sexecAll s ops).2 := by
  induction ops generalizing w s with
  | nil => exact hg
  | cons op ops ih =>
    exact ih (exec_goodOf hg op hc.1 (fun h => nomatch h) fun h => by rw [hD op (by simp)] at h; cases h).2 hc.2 fun o ho => hD o (by simp [ho])

omit [Removals] in
theorem RefinesBy.loose (hR : RefinesBy ex A w s) : RefinesBy false A w s :=
  ⟨hR.ntrees, hR.ntxns, fun i t m h1 h2 =>
    letI : Removals := ⟨A (.inl i)⟩
    (hR.trees i t m h1 h2).loose, fun x r q h1 h2 =>
    letI : Removals := ⟨A (.inr x)⟩
    let h := hR.txns x r q h1 h2
    ⟨h.view.loose, h.tsize, h.ended, h.copied⟩⟩

/-- Clean histories are broad. -/
theorem Along.of_clean [CanRemove] (hg : Good w s) (ops : List (Op V)) (hc : During Op.Clean s ops) : Along Op.Broad w s ops := by
  induction ops generalizing w s with
  | nil => trivial
  | cons op ops ih => exact ⟨hc.1.broad hg.1, ih (exec_good hg op hc.1).2 hc.2⟩

omit [Removals] in
theorem Clean.broad {ops : List (Op V)} (hc : Clean ops) : Broad ops := Along.of_clean GoodOf.init ops hc
end
end Art
