import Verif.Proofs.PoolWorld
import Verif.Props.Readers
/-
Goroutines that work at the same time, each in a transaction of its own, and that may be started at any moment: from the
program that was there before, or on the tree that another goroutine has returned.  After a lawful history `ops`, any
schedule `turns` decides who takes the next single step and who starts when (`Model/Pool.lean`).  What they are compared
with is in `PoolSpec.lean`.
-/
set_option autoImplicit false
set_option linter.unusedVariables false
set_option linter.unusedSimpArgs false
set_option linter.unusedSectionVars false
namespace Art
variable {V : Type} [Inhabited V]

/-- C68: a goroutine continues the history of the goroutine on whose tree it was started, and nothing else.  When it has
returned, its results, its new tree and its panics are those of this history when all its calls are made one after the other;
all reads of the new tree give the same, now and at every later moment, whatever other goroutines do. -/
theorem C68 (ops : List (Op V)) (hl : Lawful World.init ops) (hne : (execAll World.init ops).2.trees ≠ []) (turns : List (Turn V)) (i : Nat)
    (h : List (Op V)) (g : Session V) (hi : (lineage ops (teamAfter ops turns).jobs)[i]? = some (h, g)) (ht : g.tree < (execAll World.init h).2.trees.length)
    (x : R (List (Out V) × Tree)) (hx : (teamAfter ops turns).pool.result i = some x) :
    match (generalizing := false) x with
    | .ok (os, t) => (aloneAfter h g).1.map Out.plain = .done :: os ++ [.done] ∧
        ∃ t', (aloneAfter h g).2.trees = (execAll World.init h).2.trees ++ [t'] ∧ t.size = t'.size ∧ t.maxNodeId = t'.maxNodeId ∧
          SameReads (aloneAfter h g).2.heap t' (teamAfter ops turns).pool.heap t ∧
          SameSeeks (aloneAfter h g).2.heap t' (teamAfter ops turns).pool.heap t
    | .error e => ∃ os rest, (∀ o ∈ os, ∀ e, o ≠ .panic e) ∧ (aloneAfter h g).1 = os ++ .panic e :: rest := by
  have h0 : 0 < (heapAfter ops).length := tree_heap (List.length_pos_iff.2 hne)
  obtain ⟨n, r, A, hT, hmade⟩ := team_inv hl h0 turns
  obtain ⟨j, hj⟩ : ∃ j, (teamAfter ops turns).jobs[i]? = some j := by
    have := (List.getElem?_eq_some_iff.1 hi).1
    rw [lineage_length] at this
    exact ⟨_, List.getElem?_eq_getElem this⟩
  obtain ⟨h', h1, h2, h3, h4⟩ := hT.job i j hj
  rw [hi] at h1
  cases h1
  obtain ⟨f1, hlen, f3, -⟩ := hT.inv.finished hx
  obtain ⟨σ, hσ⟩ := hT.inv.renames i
  obtain ⟨hr, hp⟩ := f3 σ hσ
  have he := hT.ends i
  have hs := exec_session (execAll World.init h).2 j.work ht
  have hrk : ∃ rk, Ranked rk (aloneAfter h j.work).2.heap := by
    obtain ⟨rk, hk⟩ := worldAfter_ranked h
    exact (execAll_fine (worldAfter_all h) hk _).2
  rw [← h3] at hs
  generalize r i = y at hs hr hp he hlen
  obtain ⟨y, s⟩ := y
  cases hp with
  | fuel _ => exact absurd rfl he
  | error e => exact hs
  | ok hq =>
    rename_i a b
    obtain ⟨os, t⟩ := a
    obtain ⟨os', h1, h2, h3, h4, h5, -⟩ := hs
    have hb : b = (os, t.ren σ) := hq
    subst hb
    obtain ⟨rk, hk⟩ := hrk
    have h5 : (aloneAfter h j.work).2.heap = s.heap := h5
    rw [h5] at hk
    refine ⟨?_, t, h4, rfl, rfl, ?_, ?_⟩
    · unfold aloneAfter
      rw [h3, ← h1]
      simp [Out.plain]
    · rw [h5]
      letI := lax
      exact hr.reads hk (fun a b h => hσ.inj a b h) hlen rfl
    · rw [h5]
      letI := lax
      exact hr.seeks hk (fun a b h => hσ.inj a b h) hlen rfl

/-- C68 for the trees that existed before: at every moment of the schedule they answer all reads as before. -/
theorem C68_old (ops : List (Op V)) (hl : Lawful World.init ops) (turns : List (Turn V)) (j : Nat) (t : Tree) (ht : treeAfter ops j = some t) :
    SameReads (heapAfter ops) t (teamAfter ops turns).pool.heap t ∧ SameSeeks (heapAfter ops) t (teamAfter ops turns).pool.heap t := by
  have hj : j < (execAll World.init ops).2.trees.length := (List.getElem?_eq_some_iff.1 ht).1
  obtain ⟨n, r, A, hT, hmade⟩ := team_inv hl (tree_heap hj) turns
  have hp := hT.inv
  obtain ⟨S, O, hi, -, -⟩ := execAll_iso INV.init hl
  have hv : (execAll World.init ops).2.view (.inl j) = some (t.root, t.maxNodeId) := by
    show ((execAll World.init ops).2.trees[j]?).map _ = _
    rw [show (execAll World.init ops).2.trees[j]? = some t from ht]; rfl
  have hr := hi.region _ _ hv
  have hs : Same (heapAfter ops) (teamAfter ops turns).pool.heap (S (.inl j)) := ⟨hr.closed, fun a ha => orel_agree (hp.old a (hr.lt ha))⟩
  exact ⟨hs.reads hp.base hr.root, hs.seeks hp.base hr.root⟩

/-- The histories of C68 are lawful, so that all that is known about lawful histories holds for the trees of the goroutines. -/
theorem C68_lawful (ops : List (Op V)) (hl : Lawful World.init ops) (hne : (execAll World.init ops).2.trees ≠ []) (turns : List (Turn V)) (i : Nat)
    (h : List (Op V)) (g : Session V) (hi : (lineage ops (teamAfter ops turns).jobs)[i]? = some (h, g)) : Lawful World.init h := by
  obtain ⟨n, r, A, hT, hmade⟩ := team_inv hl (tree_heap (List.length_pos_iff.2 hne)) turns
  obtain ⟨j, hj⟩ : ∃ j, (teamAfter ops turns).jobs[i]? = some j := by
    have := (List.getElem?_eq_some_iff.1 hi).1
    rw [lineage_length] at this
    exact ⟨_, List.getElem?_eq_getElem this⟩
  obtain ⟨h', h1, h2, -⟩ := hT.job i j hj
  rw [hi] at h1
  cases h1
  exact h2

/-- C69: no goroutine waits for another one, however the goroutines are scheduled and whoever is started: a goroutine that gets
to take steps again and again returns, or closes a channel that another goroutine has just closed, which is a panic in `Notify`
(C71 says when this cannot happen). -/
theorem C69 (ops : List (Op V)) (f : Nat → Turn V) (i n : Nat) (hi : i < (teamAfter ops ((List.range n).map f)).pool.procs.length)
    (hf : ∀ n, ∃ m, n ≤ m ∧ f m = .act (.step i)) : ∃ m,
      (∃ x, (teamAfter ops ((List.range m).map f)).pool.result i = some x) ∨ (teamAfter ops ((List.range m).map f)).pool.Crash i :=
  Team.ends _ f hf n (List.getElem?_eq_getElem hi)

/-- C69, races: no schedule leads to a data race on a node; every node that is written to was made by the goroutine that writes to
it, during the schedule. -/
theorem C69_race (ops : List (Op V)) (hl : Lawful World.init ops) (hne : (execAll World.init ops).2.trees ≠ []) (turns : List (Turn V)) :
    ¬ (teamAfter ops turns).pool.Race ∧
      ∀ (i : Nat) (p : Proc V (List (Out V) × Tree)) (a : Nat), (teamAfter ops turns).pool.procs[i]? = some p → p.writes = some a →
        a < (teamAfter ops turns).pool.heap.length → a ∈ (execAll World.init ops).2.team.made turns i ∧ (heapAfter ops).length ≤ a := by
  obtain ⟨n, r, A, hT, hmade⟩ := team_inv hl (tree_heap (List.length_pos_iff.2 hne)) turns
  have hp := hT.inv
  refine ⟨fun ⟨i, j, p, q, a, hij, h1, h2, hlt, hw, hrw⟩ => ?_, fun i p a h1 hw hlt => ?_⟩
  case refine_2 =>
    have k1 := hp.writes hT.ends h1 hw hlt
    exact ⟨hmade i ▸ k1, hp.keep i a k1⟩
  have k1 := hp.writes hT.ends h1 hw hlt
  have k2 : p.running := fun x hx => by unfold Proc.writes at hw; rw [hx] at hw; cases hw
  refine hp.disj i p h1 k2 j hij a k1 ?_
  rcases hrw with hrw | hrw
  · exact List.mem_of_mem_drop (hp.writes hT.ends h2 hrw hlt)
  · exact hp.reads hT.ends h2 hrw hlt

/-! ### Examples -/

/-- Goroutine 0 inserts b into the tree (a, foo, foobar) and notifies; goroutine 1 deletes foo from the same tree and
changes foobar.  When goroutine 0 has returned, goroutine 2 starts on its tree, deletes foo and looks at the tree of goroutine 0. -/
def relay : List (Turn Nat) :=
  [.start none ⟨3, [.insert kB 7], true⟩, .act (.step 0), .start none ⟨3, [.delete kFoo, .insert kFoobar 9], false⟩] ++
  ((List.range 52).flatMap fun n => if n % 4 = 0 then [.act (.step 0), .act (.step 1)] else [.act (.step 0)]) ++
  [.start (some 0) ⟨4, [.delete kFoo, .get kFoo, .peek 4 kFoo], false⟩] ++ (List.range 100).flatMap fun _ => [.act (.step 2), .act (.step 1)]

/-- Goroutine 1 is in the middle of its work when goroutine 2 starts. -/
example : ((teamAfter busy (relay.take 68)).pool.procs.length, (teamAfter busy (relay.take 68)).pool.result 1) = (2, none) ∧
    (teamAfter busy (relay.take 69)).pool.procs.length = 3 := by decide +kernel

/-- All return; each tree has its own contents. -/
example : ((teamAfter busy relay).pool.result 0).any (fun x => x.toOption.any fun p =>
      [kA, kB, kFoo, kFoobar].map (fun k => treeGet (teamAfter busy relay).pool.heap p.2 k) = [.ok (some 3), .ok (some 7), .ok (some 1), .ok (some 2)]) = true ∧
    ((teamAfter busy relay).pool.result 1).any (fun x => x.toOption.any fun p =>
      [kA, kB, kFoo, kFoobar].map (fun k => treeGet (teamAfter busy relay).pool.heap p.2 k) = [.ok (some 3), .ok none, .ok none, .ok (some 9)]) = true ∧
    ((teamAfter busy relay).pool.result 2).any (fun x => x.toOption.any fun p => p.1 = [.updated 1 true, .value none, .value (some 1)] ∧
      [kA, kB, kFoo, kFoobar].map (fun k => treeGet (teamAfter busy relay).pool.heap p.2 k) = [.ok (some 3), .ok (some 7), .ok none, .ok (some 2)]) = true := by
  decide +kernel

/-- The history that goroutine 2 continues. -/
example : ((lineage busy (teamAfter busy relay).jobs)[2]?).map (·.1) = some (busy ++ [.begin 3, .txnInsert 0 kB 7, .commit 0]) := by decide +kernel

/-- Goroutine 2 finds foo and deletes it, and sees it still in the tree where it began. -/
example (x : R (List (Out Nat) × Tree)) (hx : (teamAfter busy relay).pool.result 2 = some x) :
    ∃ t, x = .ok ([.updated 1 true, .value none, .value (some 1)], t) := by
  have h := C68 busy (by decide +kernel) (by decide +kernel) relay 2 (busy ++ [.begin 3, .txnInsert 0 kB 7, .commit 0])
    ⟨4, [.delete kFoo, .get kFoo, .peek 4 kFoo], false⟩ (by decide +kernel) (by decide +kernel) x hx
  have e : (aloneAfter (busy ++ [.begin 3, .txnInsert 0 kB 7, .commit 0]) ⟨4, [.delete kFoo, .get kFoo, .peek 4 kFoo], false⟩).1 =
      [.done, .updated 1 true, .value none, .value (some 1), .done] := by decide +kernel
  rw [e] at h
  match x, h with
  | .ok (os, t), h =>
    have h1 := h.1
    match os, h1 with
    | [], h1 => simp at h1
    | [_], h1 => simp at h1
    | [_, _], h1 => simp at h1
    | _ :: _ :: _ :: _ :: _, h1 => simp at h1
    | [o1, o2, o3], h1 => exact ⟨t, by simp [Out.plain] at h1; rw [← h1.1, ← h1.2.1, ← h1.2.2]⟩
  | .error e, h =>
    obtain ⟨os, rest, -, h2⟩ := h
    have : Out.panic e ∈ ([.done, .updated 1 true, .value none, .value (some 1), .done] : List (Out Nat)) := by rw [h2]; simp
    simp at this

end Art
