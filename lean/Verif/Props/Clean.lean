import Verif.Proofs.CleanRead
import Verif.Props.Negations
/-
What holds on clean and on broad histories (`Spec.lean`): the positive parts of properties that are false in general.

`Clean ops` says: ordinary use, no `DeletePrefix`, no insertion into a transaction after its last key was deleted,
and every insertion `CanSet`, every deletion `CanDel` at its time.  `Broad ops` is weaker: keys may be overwritten
although they are proper prefixes of others.  That may be reported as the insertion of a new key, and counted by
`Len`, but the contents stay right.  `Plain ops` and `Loose ops` are computable conditions that imply them, used in
the examples.
-/
set_option autoImplicit false
namespace Art
variable {V : Type} [Inhabited V]

/-- A history for the examples: keys that are prefixes of each other, keys sharing more than ten bytes, updates,
deletions (merging nodes, emptying the tree), transactions, clones, reads with watches. -/
def demo : List (Op Nat) :=
  [.newTree, .insert 0 kFoo 1, .insert 1 kFoobar 2, .insert 2 kA 3, .insert 3 (List.replicate 12 97) 4,
   .insert 4 (List.replicate 11 97 ++ [98]) 5, .insert 5 kFoobar 6, .delete 6 kFoo,          -- trees 1 to 7
   .begin 6, .trackMutate 0 true, .txnInsert 0 [] 7, .txnInsert 0 kB 8, .txnDelete 0 kFoobar, .txnGet 0 kB,
   .txnClone 0, .commit 0, .txnInsert 1 kC 9, .commitOnly 1,                                   -- trees 8 and 9
   .delete 1 kFoo, .cloneTree 10, .getWatch 8 kB, .seekPrefixWatch 8 kA, .len 8, .notify 0,        -- trees 10, 11
   .insert 11 kC 1, .delete 11 kA]                                                              -- trees 12, 13

theorem demo_clean : Clean demo := .of_plain (by decide +kernel)

/-- Everything a clean history returns is what the specification says (channels aside). -/
theorem clean_results (ops : List (Op V)) (hc : Clean ops) : (execAll World.init ops).1.map Out.vis = (sexecAll SWorld.init ops).1 := hc.vis

example : (execAll World.init demo).1.map Out.vis = (sexecAll SWorld.init demo).1 := clean_results _ demo_clean
example : ∃ o ∈ (sexecAll SWorld.init demo).1, o = .updated 1 true := by decide +kernel

/-- Clean histories are broad. -/
theorem clean_broad (ops : List (Op V)) (hc : Clean ops) : Broad ops := hc.broad

/-- As `demo`, and keys that are prefixes of others are overwritten: the key "" in tree 8 (tree 14), then "a" (tree
15), again "a" in a transaction (tree 16); two keys are deleted (trees 17, 18). -/
def demoB : List (Op Nat) := demo ++ [.insert 8 [] 20, .insert 14 kA 21, .begin 15, .txnInsert 2 kA 22, .commit 2, .delete 16 kA, .delete 17 kB]

theorem demoB_broad : Broad demoB := .of_loose (by decide +kernel)
/-- It is not clean. -/
example : (exec (execAll World.init demo).2 (.insert 8 kA 21)).1 ≠ (sexec (sexecAll SWorld.init demo).2 (.insert 8 kA 21)).1 := by decide +kernel

/-- What broad histories return: what the specification says, channels aside, except that overwriting a key that is a
proper prefix of another one may return the zero value and `false`, and that `Len` may be too large. -/
theorem broad_results (ops : List (Op V)) (hc : Broad ops) (op : Op V) (hop : op.Broad (execAll World.init ops).2 (sexecAll SWorld.init ops).2) :
    (exec (execAll World.init ops).2 op).1.vis = (sexec (sexecAll SWorld.init ops).2 op).1 ∨
    op.Blur (sexecAll SWorld.init ops).2 (exec (execAll World.init ops).2 op).1 :=
  ((exec_goodOf hc.good op hop (fun h => nomatch h)).1).imp_right (·.2)

/-- C01 on broad histories. -/
theorem C01_partial (ops : List (Op V)) (hc : Broad ops) (i : Nat) (k : Key) :
    (exec (execAll World.init ops).2 (.get i k)).1 = (sexec (sexecAll SWorld.init ops).2 (.get i k)).1 :=
  hc.out ⟨rfl, trivial⟩ rfl rfl

example : (exec (execAll World.init demo).2 (.get 8 kB)).1 = .value (some 8) :=
  (C01_partial demo demo_clean.broad 8 kB).trans (by decide +kernel)

example : (exec (execAll World.init demoB).2 (.get 15 kA)).1 = .value (some 21) :=
  (C01_partial demoB demoB_broad 15 kA).trans (by decide +kernel)
example : (exec (execAll World.init demoB).2 (.get 17 kA)).1 = .value none :=
  (C01_partial demoB demoB_broad 17 kA).trans (by decide +kernel)

/-- C02 on clean histories, on trees and in transactions. -/
theorem C02_partial (ops : List (Op V)) (hc : Clean ops) (i : Nat) (k : Key) (v : V) :
    (∀ m, mapAfter ops i = some m → m.CanSet k → (exec (execAll World.init ops).2 (.insert i k v)).1 = oldValue m k) ∧
    (∀ q, (sexecAll SWorld.init ops).2.txns[i]? = some q → (Op.txnInsert i k v).Clean (sexecAll SWorld.init ops).2 →
      (exec (execAll World.init ops).2 (.txnInsert i k v)).1 = oldValue q.map k) := by
  refine ⟨fun m hm h => ?_, fun q hq h => ?_⟩
  · rw [hc.out (op := .insert i k v) ⟨rfl, fun m' hm' => ?_⟩ rfl]
    · show (match (specAfter ops).trees[i]? with | none => _ | some m => _ : Out V × SWorld V).1 = _
      rw [show (specAfter ops).trees[i]? = some m from hm]
    · rw [show (specAfter ops).trees[i]? = some m from hm] at hm'; cases hm'; exact h
  · rw [hc.out h rfl]
    show (match (specAfter ops).txns[i]? with | none => _ | some m => _ : Out V × SWorld V).1 = _
    rw [hq]

example : (exec (execAll World.init demo).2 (.insert 8 kB 0)).1 = .updated 8 true :=
  ((C02_partial demo demo_clean 8 kB 0).1 [(kB, 8), ([], 7), (List.replicate 11 97 ++ [98], 5), (List.replicate 12 97, 4), (kA, 3), (kFoo, 1)]
    (by decide +kernel) (.of_ok (by decide +kernel))).trans (by decide +kernel)

/-- C02 on broad histories, without the restriction to keys that are not proper prefixes of others: `Insert` returns
the old value and whether there was one, or, for a key that is present and a proper prefix of another one, possibly the
zero value and `false`. -/
theorem C02_partial_broad (ops : List (Op V)) (hc : Broad ops) (i : Nat) (k : Key) (v : V) :
    (∀ m t, mapAfter ops i = some m → treeAfter ops i = some t → m.Takes t.size k →
      (exec (execAll World.init ops).2 (.insert i k v)).1 = oldValue m k ∨
      (m.Shadowed k ∧ (exec (execAll World.init ops).2 (.insert i k v)).1 = .updated default false)) ∧
    (∀ q, (sexecAll SWorld.init ops).2.txns[i]? = some q → (Op.txnInsert i k v).Broad (execAll World.init ops).2 (sexecAll SWorld.init ops).2 →
      (exec (execAll World.init ops).2 (.txnInsert i k v)).1 = oldValue q.map k ∨
      (q.map.Shadowed k ∧ (exec (execAll World.init ops).2 (.txnInsert i k v)).1 = .updated default false)) := by
  refine ⟨fun m t hm ht h => ?_, fun q hq h => ?_⟩
  · have hm' : (specAfter ops).trees[i]? = some m := hm
    have ht' : (worldAfter ops).trees[i]? = some t := ht
    rcases hc.outs (op := .insert i k v) ⟨rfl, fun m' t' hm1 ht1 => by rw [hm'] at hm1; rw [ht'] at ht1; cases hm1; cases ht1; exact h⟩ rfl with g | ⟨m', g1, g2, g3⟩
    · refine Or.inl (g.trans ?_)
      simp only [sexec, hm']
    · rw [hm'] at g1; cases g1
      exact Or.inr ⟨g2, g3⟩
  · rcases hc.outs h rfl with g | ⟨q', g1, g2, g3⟩
    · refine Or.inl (g.trans ?_)
      simp only [sexec, show (specAfter ops).txns[i]? = some q from hq]
    · rw [show (specAfter ops).txns[i]? = some q from hq] at g1; cases g1
      exact Or.inr ⟨g2, g3⟩

example : (exec (execAll World.init demoB).2 (.insert 15 kB 0)).1 = .updated 8 true := by
  rcases (C02_partial_broad demoB demoB_broad 15 kB 0).1 ((mapAfter demoB 15).getD []) ((treeAfter demoB 15).getD default) (by decide +kernel) (by decide +kernel)
    (.of_ok (by decide +kernel)) with h | ⟨⟨-, k', ⟨v, h1⟩, h2, h3⟩, -⟩
  · exact h.trans (by decide +kernel)
  · exfalso
    have h4 : ∀ e ∈ (mapAfter demoB 15).getD [], e.1 ≠ kB → kB.isPrefixOf e.1 = false := by decide +kernel
    have := h4 _ h1 h2
    rw [List.isPrefixOf_iff_prefix.2 h3] at this
    cases this

/-- C03 on broad histories: deleting a present key. -/
theorem C03_partial (ops : List (Op V)) (hc : Broad ops) (i : Nat) (k : Key) (v : V) :
    (∀ m, mapAfter ops i = some m → m.get k = some v →
      (exec (execAll World.init ops).2 (.delete i k)).1 = .updated v true ∧
      ∃ t, (exec (execAll World.init ops).2 (.delete i k)).2.trees = (execAll World.init ops).2.trees ++ [t] ∧
        ∀ k', treeGet (exec (execAll World.init ops).2 (.delete i k)).2.heap t k' = .ok (if k' = k then none else m.get k')) ∧
    (∀ q, (sexecAll SWorld.init ops).2.txns[i]? = some q → q.ended = false → q.copied = false → q.map.get k = some v →
      (exec (execAll World.init ops).2 (.txnDelete i k)).1 = .updated v true ∧
      ∀ k', (exec (exec (execAll World.init ops).2 (.txnDelete i k)).2 (.txnGet i k')).1 =
        .value (if k' = k then none else q.map.get k')) := by
  refine ⟨fun m hm hv => ?_, fun q hq h1 h2 hv => ?_⟩
  · have hm' : (specAfter ops).trees[i]? = some m := hm
    have hop : (Op.delete i k : Op V).Broad (worldAfter ops) (specAfter ops) := ⟨rfl, fun m' h => by rw [hm'] at h; cases h; exact Or.inl (Map.has_of_get hv)⟩
    have hs : sexec (specAfter ops) (.delete i k) = (oldValue m k, { specAfter ops with trees := (specAfter ops).trees ++ [m.del k] }) := by
      simp only [sexec, hm']
    refine ⟨by rw [hc.out hop rfl rfl, hs]; exact oldValue_some hv, ?_⟩
    obtain ⟨t, g1, g2⟩ := hc.newTree hop (m := m.del k) (by rw [hs])
    exact ⟨t, g1, fun k' => by rw [g2.get, Map.get_del]⟩
  · have hop : (Op.txnDelete i k : Op V).Broad (worldAfter ops) (specAfter ops) :=
      ⟨by simp [Op.legal, Op.writes, show (specAfter ops).txns[i]? = some q from hq, h1, h2], fun r h => by
        rw [show (specAfter ops).txns[i]? = some q from hq] at h; cases h; exact Or.inl (Map.has_of_get hv)⟩
    have hs : (sexec (specAfter ops) (.txnDelete i k)).1 = oldValue q.map k ∧
        ∃ q', (sexec (specAfter ops) (.txnDelete i k)).2.txns[i]? = some q' ∧ q'.map = q.map.del k := by
      simp only [sexec, show (specAfter ops).txns[i]? = some q from hq, SWorld.modTxn, List.getElem?_modify]
      simp
    refine ⟨by rw [hc.out hop rfl rfl, hs.1]; exact oldValue_some hv, fun k' => ?_⟩
    obtain ⟨q', g1, g2⟩ := hs.2
    have := ((exec_goodOf (exec_goodOf hc.good _ hop (fun h => nomatch h)).2 (.txnGet i k') ⟨rfl, trivial⟩ (fun h => nomatch h)).1).resolve_right (fun h => h.2)
    rw [vis_mute rfl] at this
    rw [this]
    rw [sexec_txnGet g1, g2, Map.get_del]

example : (exec (execAll World.init demo).2 (.delete 8 kFoo)).1 = .updated 1 true :=
  ((C03_partial demo demo_clean.broad 8 kFoo 1).1 [(kB, 8), ([], 7), (List.replicate 11 97 ++ [98], 5), (List.replicate 12 97, 4), (kA, 3), (kFoo, 1)]
    (by decide +kernel) (by decide +kernel)).1

/-- C04 for the empty tree.  (Deleting an absent key from other trees is what destroys data, see `C04_false`.) -/
theorem C04_partial (ops : List (Op V)) (hc : Broad ops) (i : Nat) (k : Key) (hm : mapAfter ops i = some []) :
    (exec (execAll World.init ops).2 (.delete i k)).1 = .updated default false ∧
    ∃ t, (exec (execAll World.init ops).2 (.delete i k)).2.trees = (execAll World.init ops).2.trees ++ [t] ∧ (Clean ops → treeLen t = 0) ∧
      ∀ k', treeGet (exec (execAll World.init ops).2 (.delete i k)).2.heap t k' = .ok none := by
  have hm' : (specAfter ops).trees[i]? = some [] := hm
  have hop : (Op.delete i k : Op V).Broad (worldAfter ops) (specAfter ops) := ⟨rfl, fun m' h => by rw [hm'] at h; cases h; exact Or.inr rfl⟩
  have hs : sexec (specAfter ops) (.delete i k) = (oldValue [] k, { specAfter ops with trees := (specAfter ops).trees ++ [[]] }) := by
    simp only [sexec, hm']; rfl
  refine ⟨by rw [hc.out hop rfl rfl, hs]; rfl, ?_⟩
  obtain ⟨t, g1, g2⟩ := hc.newTree hop (m := []) (by rw [hs])
  refine ⟨t, g1, fun hcl => ?_, fun k' => g2.get k'⟩
  obtain ⟨t', g1', g2'⟩ := hcl.newTree (op := .delete i k) ⟨rfl, hop.2⟩ (m := []) (by rw [hs])
  rw [g1] at g1'
  cases List.append_cancel_left g1'
  exact g2'.len

example : (exec (execAll World.init demo).2 (.delete 10 kC)).1 = .updated 0 false :=
  (C04_partial demo demo_clean.broad 10 kC (by decide +kernel)).1

/-- C05 on clean histories. -/
theorem C05_partial (ops : List (Op V)) (hc : Clean ops) (i : Nat) :
    (exec (execAll World.init ops).2 (.len i)).1 = (sexec (sexecAll SWorld.init ops).2 (.len i)).1 :=
  hc.out ⟨rfl, trivial⟩ rfl

example : (exec (execAll World.init demo).2 (.len 8)).1 = .number 6 :=
  (C05_partial demo demo_clean 8).trans (by decide +kernel)

/-- On broad histories, `Len` is at least the number of keys (keys that were overwritten may have been counted again). -/
theorem C05_partial_broad (ops : List (Op V)) (hc : Broad ops) (i : Nat) (m : Map V) (hm : mapAfter ops i = some m) :
    ∃ n : Int, (exec (execAll World.init ops).2 (.len i)).1 = .number n ∧ (m.length : Int) ≤ n := by
  have hm' : (specAfter ops).trees[i]? = some m := hm
  rcases hc.outs (op := .len i) ⟨rfl, trivial⟩ rfl with g | ⟨m', n, g1, g2, g3⟩
  · refine ⟨m.length, g.trans ?_, Int.le_refl _⟩
    simp only [sexec, hm']
  · rw [hm'] at g1; cases g1
    exact ⟨n, g2, g3⟩

example : ∃ n : Int, (exec (execAll World.init demoB).2 (.len 16)).1 = .number n ∧ 6 ≤ n :=
  C05_partial_broad demoB demoB_broad 16 ((mapAfter demoB 16).getD []) (by decide +kernel)
/-- `Len` of a tree with six keys is 8 here. -/
example : (exec (execAll World.init demoB).2 (.len 16)).1 = .number 8 := by decide +kernel

/-- C12 on broad histories: no call panics. -/
theorem C12_partial (ops : List (Op V)) (hc : Broad ops) : ∀ o ∈ (execAll World.init ops).1, ∀ e, o ≠ .panic e := by
  intro o ho e he
  subst he
  exact hc.no_panic e ho

example : ∀ o ∈ (execAll World.init demoB).1, ∀ e, o ≠ .panic e := C12_partial demoB demoB_broad

/-- C14 on broad histories. -/
theorem C14_partial (ops : List (Op V)) (hc : Broad ops) (x : Nat) (q : STxn V) (hq : (sexecAll SWorld.init ops).2.txns[x]? = some q) (k : Key) (v : V) (k' : Key) :
    (exec (execAll World.init ops).2 (.txnGet x k')).1 = .value (q.map.get k') ∧
    ((Op.txnInsert x k v).Broad (execAll World.init ops).2 (sexecAll SWorld.init ops).2 →
      (exec (exec (execAll World.init ops).2 (.txnInsert x k v)).2 (.txnGet x k')).1 =
        if k' = k then .value (some v) else (exec (execAll World.init ops).2 (.txnGet x k')).1) ∧
    ((Op.txnDelete x k : Op V).Broad (execAll World.init ops).2 (sexecAll SWorld.init ops).2 →
      (exec (exec (execAll World.init ops).2 (.txnDelete x k)).2 (.txnGet x k')).1 =
        if k' = k then .value none else (exec (execAll World.init ops).2 (.txnGet x k')).1) := by
  have hq' : (specAfter ops).txns[x]? = some q := hq
  have h0 : (exec (execAll World.init ops).2 (.txnGet x k')).1 = .value (q.map.get k') := by
    rw [hc.out ⟨rfl, trivial⟩ rfl rfl]
    simp only [sexec, hq']
  have key : ∀ (op : Op V) m', op.Broad (worldAfter ops) (specAfter ops) → (∃ q', (sexec (specAfter ops) op).2.txns[x]? = some q' ∧ q'.map = m') →
      (exec (exec (worldAfter ops) op).2 (.txnGet x k')).1 = .value (m'.get k') := fun op m' hop ⟨q', g1, g2⟩ => by
    have := ((exec_goodOf (exec_goodOf hc.good op hop (fun h => nomatch h)).2 (.txnGet x k') ⟨rfl, trivial⟩ (fun h => nomatch h)).1).resolve_right (fun h => h.2)
    rw [vis_mute rfl] at this
    rw [this]
    rw [sexec_txnGet g1, g2]
  refine ⟨h0, fun hop => ?_, fun hop => ?_⟩
  · rw [key _ (q.map.set k v) hop, h0, Map.get_set]
    · split <;> rfl
    · simp only [sexec, hq', SWorld.modTxn, List.getElem?_modify]
      simp
  · rw [key _ (q.map.del k) hop, h0, Map.get_del]
    · split <;> rfl
    · simp only [sexec, hq', SWorld.modTxn, List.getElem?_modify]
      simp

/-- The same, and a transaction with number 2. -/
def demo2 : List (Op Nat) := demo ++ [.begin 8]

theorem demo2_clean : Clean demo2 := .of_plain (by decide +kernel)

theorem demo2_op : (Op.txnInsert 2 kC 4).Broad (execAll World.init demo2).2 (sexecAll SWorld.init demo2).2 := .of_loose (by decide +kernel)

example : (exec (exec (execAll World.init demo2).2 (.txnInsert 2 kC 4)).2 (.txnGet 2 kC)).1 = .value (some 4) :=
  ((C14_partial demo2 demo2_clean.broad 2
    ⟨[(kB, 8), ([], 7), (List.replicate 11 97 ++ [98], 5), (List.replicate 12 97, 4), (kA, 3), (kFoo, 1)], false, false, false⟩
    (by decide +kernel) kC 4 kC).2.1 demo2_op).trans (by decide +kernel)

end Art
