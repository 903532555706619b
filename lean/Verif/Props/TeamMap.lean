import Verif.Props.Team
import Verif.Props.CleanIter
import Verif.Proofs.TeamOut
/-
Goroutines and the map: what a goroutine of a team returns is what maps say, whatever the other goroutines do, if the
calls in its own past are `Clean` (or, for the contents only, `Broad`).
-/
set_option autoImplicit false
namespace Art
variable {V : Type} [Inhabited V]

/-- C70: the results of a goroutine and the contents of its tree are those that the specification gives to the history that it
continues.  (False already for one goroutine: `C70_false`.) -/
def C70_Full (V : Type) [Inhabited V] : Prop :=
  ∀ (ops : List (Op V)), Ordinary ops → (execAll World.init ops).2.trees ≠ [] → ∀ (turns : List (Turn V)) (i : Nat) (h : List (Op V)) (g : Session V),
    (lineage ops (teamAfter ops turns).jobs)[i]? = some (h, g) → g.tree < (execAll World.init h).2.trees.length → Ordinary (g.after h) →
    ∀ (x : R (List (Out V) × Tree)), (teamAfter ops turns).pool.result i = some x →
      ∃ os t m, x = .ok (os, t) ∧ (sexecAll (sexecAll SWorld.init h).2 (g.ops (execAll World.init h).2.txns.length)).1 = .done :: os ++ [.done] ∧
        mapAfter (g.after h) (execAll World.init h).2.trees.length = some m ∧ ∀ k, treeGet (teamAfter ops turns).pool.heap t k = .ok (m.get k)

/-- One goroutine: {a, b}, Delete(c) empties the tree (as in `C01_false`). -/
def loner : List (Turn Nat) := .start none ⟨0, [.insert kA 1, .insert kB 2, .delete kC], false⟩ :: List.replicate 100 (.act (.step 0))

theorem C70_false : ¬ C70_Full Nat := fun hf => by
  have hr : ((teamAfter [.newTree] loner).pool.result 0).any (fun x => x.toOption.any fun p => treeGet (teamAfter [.newTree] loner).pool.heap p.2 kA = .ok none) = true := by
    decide +kernel
  match hx : (teamAfter [.newTree] loner).pool.result 0 with
  | none => rw [hx] at hr; simp at hr
  | some x =>
    obtain ⟨os, t, m, rfl, -, hm, hg⟩ := hf [.newTree] ⟨by decide +kernel, by decide +kernel⟩ (by decide +kernel) loner 0 [.newTree]
      ⟨0, [.insert kA 1, .insert kB 2, .delete kC], false⟩ (by decide +kernel) (by decide +kernel) ⟨by decide +kernel, by decide +kernel⟩ x hx
    rw [hx] at hr
    simp [Except.toOption] at hr
    have h1 := hg kA
    rw [hr] at h1
    have h2 : mapAfter (Session.after [.newTree] ⟨0, [.insert kA 1, .insert kB 2, .delete kC], false⟩) (execAll World.init [Op.newTree (V := Nat)]).2.trees.length =
      some [(kB, 2), (kA, 1)] := by decide +kernel
    rw [h2] at hm
    cases hm
    exact absurd h1 (by decide +kernel)

/-- Where the goroutine's history is broad it does not panic, and the tree that it returns holds what the map holds. -/
theorem C70_broad_partial (ops : List (Op V)) (hl : Lawful World.init ops) (hne : (execAll World.init ops).2.trees ≠ []) (turns : List (Turn V)) (i : Nat)
    (h : List (Op V)) (g : Session V) (hi : (lineage ops (teamAfter ops turns).jobs)[i]? = some (h, g)) (ht : g.tree < (execAll World.init h).2.trees.length)
    (hb : Broad (g.after h)) (x : R (List (Out V) × Tree)) (hx : (teamAfter ops turns).pool.result i = some x) :
    ∃ os t m, x = .ok (os, t) ∧ (aloneAfter h g).1.map Out.plain = .done :: os ++ [.done] ∧
      mapAfter (g.after h) (execAll World.init h).2.trees.length = some m ∧ (m.length : Int) ≤ treeLen t ∧
      (∀ k, treeGet (teamAfter ops turns).pool.heap t k = .ok (m.get k)) ∧
      (m ≠ [] → ∃ l, Ends (iterPrefix (teamAfter ops turns).pool.heap t []) l ∧ l.Perm m) := by
  have hc := C68 ops hl hne turns i h g hi ht x hx
  have ew : (aloneAfter h g).2 = (execAll World.init (g.after h)).2 := (execAll_append World.init h _).symm
  match x, hc with
  | .ok (os, t), hc =>
    obtain ⟨h1, t', h2, hsz, -, hr, -⟩ := hc
    rw [ew] at h2 hr
    have ht' : treeAfter (g.after h) (execAll World.init h).2.trees.length = some t' := by
      rw [treeAfter, h2]; simp
    obtain ⟨m, hm⟩ : ∃ m, mapAfter (g.after h) (execAll World.init h).2.trees.length = some m := by
      have hn := hb.good.1.ntrees
      refine ⟨_, List.getElem?_eq_getElem (h := ?_)⟩
      have := (List.getElem?_eq_some_iff.1 ht').1
      exact Nat.lt_of_lt_of_eq this hn
    have hv := hb.view ht' hm
    refine ⟨os, t, m, rfl, h1, hm, ?_, fun k => (hr.get k).trans (hv.get k), fun hne => ?_⟩
    · have := hv.len_le
      rw [treeLen, hsz]; exact this
    · obtain ⟨l, hl1, hl2⟩ := C15_partial (g.after h) hb _ t' m ht' hm hne
      refine ⟨l, ?_, hl2⟩
      obtain ⟨n, hn⟩ := hl1
      exact ⟨n, fun fuel hf => (hr.iter [] fuel).trans (hn fuel hf)⟩
  | .error e, hc =>
    obtain ⟨os, rest, -, h2⟩ := hc
    have hb' := Along.append.1 hb
    exact absurd (h2 ▸ (by simp : Out.panic e ∈ os ++ .panic e :: rest)) (execAll_no_panic (Broad.good hb'.1) _ hb'.2 e)

/-- Where it is clean, the results and the size are right as well. -/
theorem C70_partial (ops : List (Op V)) (hl : Lawful World.init ops) (hne : (execAll World.init ops).2.trees ≠ []) (turns : List (Turn V)) (i : Nat)
    (h : List (Op V)) (g : Session V) (hi : (lineage ops (teamAfter ops turns).jobs)[i]? = some (h, g)) (ht : g.tree < (execAll World.init h).2.trees.length)
    (hb : Clean (g.after h)) (x : R (List (Out V) × Tree)) (hx : (teamAfter ops turns).pool.result i = some x) :
    ∃ os t m, x = .ok (os, t) ∧ (sexecAll (sexecAll SWorld.init h).2 (g.ops (execAll World.init h).2.txns.length)).1 = .done :: os ++ [.done] ∧
      mapAfter (g.after h) (execAll World.init h).2.trees.length = some m ∧ treeLen t = m.length ∧
      ∀ k, treeGet (teamAfter ops turns).pool.heap t k = .ok (m.get k) := by
  obtain ⟨os, t, m, rfl, h1, hm, -, hget, -⟩ := C70_broad_partial ops hl hne turns i h g hi ht hb.broad x hx
  refine ⟨os, t, m, rfl, ?_, hm, ?_, hget⟩
  · have hb' := During.append.1 hb
    rw [← h1, aloneAfter, session_plain]
    exact (execAll_good (Clean.good hb'.1) _ hb'.2).1.symm
  · obtain ⟨-, t', h2, hsz, -⟩ := C68 ops hl hne turns i h g hi ht _ hx
    have ew : (aloneAfter h g).2 = (execAll World.init (g.after h)).2 := (execAll_append World.init h _).symm
    rw [ew] at h2
    have ht' : treeAfter (g.after h) (execAll World.init h).2.trees.length = some t' := by
      rw [treeAfter, h2]; simp
    have := (hb.view ht' hm).len
    rw [treeLen, hsz]; exact this

/-- Goroutine 2 of `relay`, whose history is clean: it started on the tree that goroutine 0 returned while goroutine 1 was running. -/
example (x : R (List (Out Nat) × Tree)) (hx : (teamAfter busy relay).pool.result 2 = some x) :
    ∃ t, x = .ok ([.updated 1 true, .value none, .value (some 1)], t) ∧ treeLen t = 3 ∧
      treeGet (teamAfter busy relay).pool.heap t kB = .ok (some 7) ∧ treeGet (teamAfter busy relay).pool.heap t kFoo = .ok none := by
  have hs : (sexecAll (sexecAll SWorld.init (busy ++ [.begin 3, .txnInsert 0 kB 7, .commit 0])).2
      (Session.ops (execAll World.init (busy ++ [.begin 3, .txnInsert 0 kB 7, .commit 0])).2.txns.length ⟨4, [.delete kFoo, .get kFoo, .peek 4 kFoo], false⟩)).1 =
      [.done, .updated 1 true, .value none, .value (some 1), .done] := by decide +kernel
  have hm' : mapAfter (Session.after (busy ++ [.begin 3, .txnInsert 0 kB 7, .commit 0]) ⟨4, [.delete kFoo, .get kFoo, .peek 4 kFoo], false⟩)
      (execAll World.init (busy ++ [.begin 3, .txnInsert 0 kB 7, .commit 0])).2.trees.length = some [(kB, 7), (kA, 3), (kFoobar, 2)] := by decide +kernel
  obtain ⟨os, t, m, rfl, h1, hm, hlen, hg⟩ := C70_partial busy (by decide +kernel) (by decide +kernel) relay 2 (busy ++ [.begin 3, .txnInsert 0 kB 7, .commit 0])
    ⟨4, [.delete kFoo, .get kFoo, .peek 4 kFoo], false⟩ (by decide +kernel) (by decide +kernel) (.of_plain (by decide +kernel)) x hx
  rw [hs] at h1
  rw [hm'] at hm
  cases hm
  refine ⟨t, ?_, hlen, hg kB, hg kFoo⟩
  match os, h1 with
  | [], h1 => simp at h1
  | [_], h1 => simp at h1
  | [_, _], h1 => simp at h1
  | _ :: _ :: _ :: _ :: _, h1 => simp at h1
  | [o1, o2, o3], h1 => simp at h1; rw [← h1.1, ← h1.2.1, ← h1.2.2]

end Art
