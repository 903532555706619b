import Verif.Props.Statements
import Verif.Proofs.Fuel
/-
Properties that are false of the code, each with a concrete history of API calls that violates it.  The
histories are evaluated by the kernel.
-/
namespace Art

/-- Insert the keys one after the other into a new tree, tree `n` being the one with the first `n` keys; the
value of the `n`-th key is `n`. -/
def build (ks : List Key) : List (Op Nat) :=
  .newTree :: ks.zipIdx.map fun p => .insert p.2 p.1 (p.2 + 1)

def kA : Key := ascii ['a']
def kB : Key := ascii ['b']
def kC : Key := ascii ['c']
def kAB : Key := ascii ['a', 'b']
def kFoo : Key := ascii ['f', 'o', 'o']
def kFoobar : Key := ascii ['f', 'o', 'o', 'b', 'a', 'r']

/-- A computation that ends has only one result. -/
theorem Ends.eq_of_ok {α : Type} {f : Nat → R α} {a b : α} (h : Ends f a) (n : Nat)
    (hb : ∀ fuel, n ≤ fuel → f fuel = .ok b) : a = b := by
  obtain ⟨n', h'⟩ := h
  have h1 := h' (max n n') (by omega)
  rw [hb (max n n') (by omega)] at h1
  exact (Except.ok.inj h1).symm

/-- A computation that gave a result with some bound can only end with this result. -/
theorem Ends.eq_of_run {α : Type} {f : Nat → R α} (hs : ∀ n, f n ≠ .error .fuel → f (n + 1) = f n) {a b : α}
    (h : Ends f a) (n : Nat) (hb : f n = .ok b) : a = b :=
  h.eq_of_ok n fun m hm => by rw [fuel_le hs hm (by rw [hb]; exact nofun), hb]

theorem iterPrefix_succ {V : Type} (h : Heap V) (t : Tree) (p : Key) (n : Nat)
    (hne : iterPrefix h t p n ≠ .error .fuel) : iterPrefix h t p (n + 1) = iterPrefix h t p n := by
  unfold iterPrefix at hne ⊢
  cases hs : seekPrefix h (mkIter t.root) p with
  | error e => rfl
  | ok q => simp only [hs, Except.bind_ok] at hne ⊢; exact iterCollect_succ h n _ hne

/-- To refute a statement about an optional object, compute the object. -/
theorem refute {α : Type} {o : Option α} {P : α → Prop} [DecidablePred P]
    (hb : o.any (fun t => !decide (P t)) = true) (h : ∀ t, o = some t → P t) : False := by
  cases o with
  | none => simp at hb
  | some t => simp at hb; exact hb (h t rfl)

/-- {a, b}: Delete(c) empties the tree. -/
theorem C01_false : ¬ C01_Full Nat := fun h =>
  absurd (h (build [kA, kB] ++ [.delete 2 kC]) ⟨by decide +kernel, by decide +kernel⟩ 3 kA) (by decide +kernel)

/-- {foo, foobar}: Insert(foo) claims that foo was not there. -/
theorem C02_false : ¬ C02_Full Nat := fun h =>
  absurd (h (build [kFoo, kFoobar]) ⟨by decide +kernel, by decide +kernel⟩ 2 kFoo 9) (by decide +kernel)

/-- In one transaction: Insert(a), Delete(a), Insert(ax), Insert(bx); now Delete(bx) makes Get(zz) panic. -/
theorem C03_false : ¬ C03_Full Nat := fun h =>
  absurd (((h [.newTree, .begin 0, .txnInsert 0 kA 1, .txnDelete 0 kA, .txnInsert 0 (ascii ['a', 'x']) 2,
      .txnInsert 0 (ascii ['b', 'x']) 3] ⟨by decide +kernel, by decide +kernel⟩ 0 (ascii ['b', 'x']) 3).2
    (by decide +kernel) (by decide +kernel)).2 (ascii ['z', 'z'])) (by decide +kernel)

/-- {a, b}: Delete(c) empties the tree. -/
theorem C04_false : ¬ C04_Full Nat := fun h =>
  refute (P := fun t => treeGet (exec (execAll World.init (build [kA, kB])).2 (.delete 2 kC)).2.heap t kA = .ok (some 1))
    (by decide +kernel)
    fun t ht => ((h (build [kA, kB]) ⟨by decide +kernel, by decide +kernel⟩ 2 kC [(kB, 2), (kA, 1)]
      (by decide +kernel) (by decide +kernel)).2 t ht).2 kA

/-- {foo, foobar}: after Insert(foo) the length is 3. -/
theorem C05_false : ¬ C05_Full Nat := fun h =>
  absurd (h (build [kFoo, kFoobar, kFoo]) ⟨by decide +kernel, by decide +kernel⟩ 3) (by decide +kernel)

/-- A transaction inserts a and b and commits; inserting c through the same transaction shows up in the
committed tree. -/
theorem C07_false : ¬ C07_Full Nat := fun h =>
  refute (by decide +kernel) fun t ht =>
    h [.newTree, .begin 0, .txnInsert 0 kA 1, .txnInsert 0 kB 2, .commit 0] [.txnInsert 0 kC 3] 1 t kC ht

/-- A transaction inserts a, ab, abc and is cloned; inserting abd into the original shows up in the clone. -/
theorem C09_false : ¬ C09_Full Nat := fun h =>
  absurd (h [.newTree, .begin 0, .txnInsert 0 kA 1, .txnInsert 0 kAB 2, .txnInsert 0 (ascii ['a', 'b', 'c']) 3] 0 1
    (ascii ['a', 'b', 'd']) (ascii ['a', 'b', 'd']) 3 (by decide +kernel) (by decide)).1 (by decide +kernel)

/-- {fo$, fo$bar}: Insert(fo) panics. -/
theorem C12_false : ¬ C12_Full Nat := fun h =>
  absurd (h (build [ascii ['f', 'o', '$'], ascii ['f', 'o', '$', 'b', 'a', 'r'], ascii ['f', 'o']])
    (by decide +kernel) (.panic .typeAssert) (by decide +kernel) .typeAssert) (by decide +kernel)

/-- In a transaction over {a, b}: Delete(c) empties it, also for a. -/
theorem C14_false : ¬ C14_Full Nat := fun h =>
  absurd ((h (build [kA, kB] ++ [.begin 2]) ⟨by decide +kernel, by decide +kernel⟩ 0 (by decide +kernel) kC 0 kA).2 (by decide +kernel))
    (by decide +kernel)

/-! ### Iterators and ordered reads -/

/-- Tree number `i` after a history (the default is never used: see the `decide`d equations). -/
def treeOf (ops : List (Op Nat)) (i : Nat) : Tree := (treeAfter ops i).getD default

/-- An iterator over an empty tree returns the key "" with the zero value. -/
theorem C15_false : ¬ C15_Full Nat := fun h => by
  obtain ⟨l, hl, hp⟩ := h (build []) ⟨by decide +kernel, by decide +kernel⟩ 0 (treeOf (build []) 0) []
    (by decide +kernel) (by decide +kernel)
  have := hl.eq_of_run (fun n => iterPrefix_succ _ _ _ n) 9 (b := [([], 0)]) (by decide +kernel)
  subst this
  exact absurd hp.length_eq (by decide)

/-- foo1, foo2, foo, foo!: iteration gives foo!, foo, foo1, foo2. -/
theorem C16_false : ¬ C16_Full Nat := fun h => by
  let ops := build [ascii ['f', '1'], ascii ['f', '2'], ascii ['f'], ascii ['f', '!']]
  have := h ops ⟨by decide +kernel, by decide +kernel⟩ 4 (treeOf ops 4) []
    [(ascii ['f', '!'], 4), (ascii ['f'], 3), (ascii ['f', '1'], 1), (ascii ['f', '2'], 2)]
    (by decide +kernel) ⟨20, fun m hm => by
      rw [fuel_le (fun n => iterPrefix_succ _ _ _ n) hm] <;> decide +kernel⟩
  exact absurd this (by decide +kernel)

/-- {foo}: SeekPrefix(foo$) selects foo. -/
theorem C17_false : ¬ C17_Full Nat := fun h => by
  let ops := build [kFoo]
  obtain ⟨l, hl, hp⟩ := h ops ⟨by decide +kernel, by decide +kernel⟩ 1 (treeOf ops 1) [(kFoo, 1)]
    (kFoo ++ [dollar]) (by decide +kernel) (by decide +kernel)
  have := hl.eq_of_run (fun n => iterPrefix_succ _ _ _ n) 9 (b := [(kFoo, 1)]) (by decide +kernel)
  subst this
  exact absurd hp.length_eq (by decide +kernel)

/-- The minimum of an empty tree is a leaf with an empty key, not nil. -/
theorem C18_false : ¬ C18_Full Nat := fun h =>
  absurd ((h (build []) ⟨by decide +kernel, by decide +kernel⟩ 0 (treeOf (build []) 0) []
    (by decide +kernel) (by decide +kernel)).1 rfl) (by decide +kernel)

/-- The maximum of an empty tree is a leaf with an empty key, not nil. -/
theorem C19_false : ¬ C19_Full Nat := fun h =>
  absurd ((h (build []) ⟨by decide +kernel, by decide +kernel⟩ 0 (treeOf (build []) 0) []
    (by decide +kernel) (by decide +kernel)).1 rfl) (by decide +kernel)

/-- {foo}: LongestPrefix(ab) is foo. -/
theorem C20_false : ¬ C20_Full Nat := fun h =>
  absurd ((h (build [kFoo]) ⟨by decide +kernel, by decide +kernel⟩ 1 (treeOf (build [kFoo]) 1) [(kFoo, 1)] kAB
    (by decide +kernel) (by decide +kernel)).1 (by decide +kernel)) (by decide +kernel)

/-- {f!, f", f}: the path iterator for f! returns f! before f. -/
theorem C21_false : ¬ C21_Full Nat := fun h => by
  let ops := build [ascii ['f', '!'], ascii ['f', '"'], ascii ['f']]
  obtain ⟨l, hl, _, hp⟩ := h ops ⟨by decide +kernel, by decide +kernel⟩ 3 (treeOf ops 3)
    [(ascii ['f'], 3), (ascii ['f', '"'], 2), (ascii ['f', '!'], 1)] (ascii ['f', '!'])
    (by decide +kernel) (by decide +kernel)
  have := hl.eq_of_run (fun n => pathCollect_succ _ n _) 20 (b := [(ascii ['f', '!'], 1), (ascii ['f'], 3)])
    (by decide +kernel)
  subst this
  exact absurd hp (by decide +kernel)

/-- {foo1, foo2}: SeekLowerBound(foo9) panics. -/
theorem C23_false : ¬ C23_Full Nat := fun h => by
  let ops := build [ascii ['f', 'o', 'o', '1'], ascii ['f', 'o', 'o', '2']]
  obtain ⟨l, ⟨n, hl⟩, _⟩ := h ops ⟨by decide +kernel, by decide +kernel⟩ 2 (treeOf ops 2)
    [(ascii ['f', 'o', 'o', '2'], 2), (ascii ['f', 'o', 'o', '1'], 1)] (ascii ['f', 'o', 'o', '9'])
    (by decide +kernel) (by decide +kernel)
  have h1 := hl n (Nat.le_refl n)
  have h2 : seekLowerBound (heapAfter ops) (treeOf ops 2).root (ascii ['f', 'o', 'o', '9']) = .error .nilDeref := by
    decide +kernel
  unfold iterLowerBound at h1
  rw [h2] at h1
  exact nomatch h1

/-- {a, ab}: a reverse iterator returns a before ab. -/
theorem C24_false : ¬ C24_Full Nat := fun h => by
  let ops := build [kA, kAB]
  obtain ⟨l, hl, _, hp⟩ := h ops ⟨by decide +kernel, by decide +kernel⟩ 2 (treeOf ops 2) [(kAB, 2), (kA, 1)]
    (by decide +kernel) (by decide +kernel)
  have := hl.eq_of_run (fun n => revCollect_succ _ n _) 20 (b := [(kA, 1), (kAB, 2)]) (by decide +kernel)
  subst this
  exact absurd hp (by decide +kernel)

/-- Two keys with a common prefix of eleven bytes: SeekReverseLowerBound panics. -/
theorem C25_false : ¬ C25_Full Nat := fun h => by
  let ops := build [List.replicate 11 97 ++ [49], List.replicate 11 97 ++ [50]]
  obtain ⟨l, ⟨n, hl⟩, _⟩ := h ops ⟨by decide +kernel, by decide +kernel⟩ 2 (treeOf ops 2)
    [(List.replicate 11 97 ++ [50], 2), (List.replicate 11 97 ++ [49], 1)] (List.replicate 11 97 ++ [49]) []
    (by decide +kernel) (by decide +kernel)
  have h1 := hl n (Nat.le_refl n)
  have h2 : seekReverseLowerBound (heapAfter ops) (mkRevIter (treeOf ops 2).root) (List.replicate 11 97 ++ [49]) [] =
      .error .index := by decide +kernel
  unfold iterReverseLowerBound at h1
  rw [h2] at h1
  exact nomatch h1

/-- {a ↦ 1}: Walk passes the value 0. -/
theorem C26_false : ¬ C26_Full Nat := fun h => by
  obtain ⟨l, hl, hp, _⟩ := h (build [kA]) ⟨by decide +kernel, by decide +kernel⟩ 1 (treeOf (build [kA]) 1)
    [(kA, 1)] (by decide +kernel) (by decide +kernel)
  have h2 : treeWalk (heapAfter (build [kA])) (treeOf (build [kA]) 1) (fun _ _ => false) = .ok [(kA, 0)] := by
    decide +kernel
  rw [h2] at hl
  cases hl
  exact absurd hp (by decide +kernel)

/-- {a, ab}: DeletePrefix(a) leaves a. -/
theorem C27_false : ¬ C27_Full Nat := fun h =>
  refute (P := fun t => treeGet (exec (execAll World.init (build [kA, kAB])).2 (.deletePrefix 2 kA)).2.heap t kA = .ok none)
    (by decide +kernel) fun t ht => h (build [kA, kAB]) ⟨by decide +kernel, by decide +kernel⟩ 2 kA [(kAB, 2), (kA, 1)]
      (by decide +kernel) t ht kA

/-- {a, ab}: the second DeletePrefix(a) reports success. -/
theorem C28_false : ¬ C28_Full Nat := fun h =>
  absurd (h (build [kA, kAB] ++ [.deletePrefix 2 kA]) (by decide +kernel) 3 kA [] (by decide +kernel)).1
    (by decide +kernel)

/-! ### Sets of keys -/

/-- Inserting a!, ab, a makes an iterator return a!, a, ab; in the order a, a!, ab it returns a, a!, ab. -/
theorem C40_false : ¬ C40_Full Nat := fun h => by
  have hp : List.Perm [(ascii ['a', '!'], 1), (kAB, 2), (kA, 3)] [(kA, 3), (ascii ['a', '!'], 1), (kAB, 2)] := by decide +kernel
  obtain ⟨-, -, h3⟩ := h _ _ hp (by decide +kernel)
  have h4 := (h3 (treeOf (inserts [(ascii ['a', '!'], 1), (kAB, 2), (kA, 3)]) 3) (treeOf (inserts [(kA, 3), (ascii ['a', '!'], 1), (kAB, 2)]) 3)
    (by decide +kernel) (by decide +kernel) [(ascii ['a', '!'], 1), (kA, 3), (kAB, 2)]).1 ⟨20, fun m hm => by
      rw [fuel_le (fun n => iterPrefix_succ _ _ _ n) hm] <;> decide +kernel⟩
  have := h4.eq_of_run (fun n => iterPrefix_succ _ _ _ n) 20 (b := [(kA, 3), (ascii ['a', '!'], 1), (kAB, 2)]) (by decide +kernel)
  exact absurd this (by decide +kernel)

/-- {fo$, fo$bar}: Insert(fo) panics, so there is nothing to undo. -/
theorem C41_false : ¬ C41_Full Nat := fun h =>
  absurd ((h (build [ascii ['f', 'o', '$'], ascii ['f', 'o', '$', 'b', 'a', 'r']]) ⟨by decide +kernel, by decide +kernel⟩ 2 (ascii ['f', 'o']) 3
    [(ascii ['f', 'o', '$', 'b', 'a', 'r'], 2), (ascii ['f', 'o', '$'], 1)] (by decide +kernel) (by decide +kernel)).1 kA) (by decide +kernel)

/-! ### Watches -/

instance {V : Type} (x : Nat) (k : Key) (op : Op V) : Decidable (op.touches x k) := by
  cases op <;> unfold Op.touches <;> infer_instance

instance {V : Type} (x : Nat) (op : Op V) : Decidable (op.writeOf x) := by
  cases op <;> unfold Op.writeOf <;> infer_instance

/-- {a, b}, a watched: a transaction that deletes c and inserts a does not fire the watch. -/
theorem C29_false : ¬ C29_Full Nat := fun h =>
  absurd (h (build [kA, kB]) [.txnDelete 0 kC, .txnInsert 0 kA 7] 2 kA
    (match (exec (execAll World.init (build [kA, kB])).2 (.getWatch 2 kA)).1 with | .chan c _ => c | _ => 0) 1 0
    ⟨by decide +kernel, by decide +kernel⟩ (by decide +kernel) (by decide +kernel) (by decide +kernel)
    (by decide +kernel)) (by decide +kernel)

/-- Two keys with a common prefix of twelve bytes; a key that leaves it after eleven bytes is watched, then
inserted: the watch does not fire. -/
theorem C30_false : ¬ C30_Full Nat := fun h =>
  absurd (h (build [List.replicate 12 97 ++ [49], List.replicate 12 97 ++ [50]]) 2
    (List.replicate 11 97 ++ [98, 49])
    (match (exec (execAll World.init (build [List.replicate 12 97 ++ [49], List.replicate 12 97 ++ [50]])).2
      (.getWatch 2 (List.replicate 11 97 ++ [98, 49]))).1 with | .chan c _ => c | _ => 0) 9 0
    ⟨by decide +kernel, by decide +kernel⟩ (by decide +kernel) (by decide +kernel)) (by decide +kernel)

/-- {a, b}, keys with prefix a watched: a transaction that deletes c and inserts a does not fire the watch. -/
theorem C31_false : ¬ C31_Full Nat := fun h =>
  absurd (h (build [kA, kB]) [.txnDelete 0 kC, .txnInsert 0 kA 7] 2 kA kA
    (match (exec (execAll World.init (build [kA, kB])).2 (.seekPrefixWatch 2 kA)).1 with | .watch c => c | _ => 0) 0
    ⟨by decide +kernel, by decide +kernel⟩ (by decide +kernel) (by decide +kernel) (by decide +kernel) (by decide +kernel)
    (.inl ⟨7, by decide +kernel⟩) (fun o ho e he => by
      have hall : (execAll (exec (execAll World.init (build [kA, kB])).2 (.seekPrefixWatch 2 kA)).2
        (trackedTxn 2 0 [.txnDelete 0 kC, .txnInsert 0 kA 7])).1.all (fun o => match o with | .panic _ => false | _ => true) = true := by
        decide +kernel
      have := List.all_eq_true.1 hall o ho
      rw [he] at this; cases this)) (by decide +kernel)

/-- {foobar}, watched: inserting foo fires the watch. -/
theorem C35_false : ¬ C35_Full Nat := fun h =>
  absurd (by decide +kernel) (h (build [kFoobar]) [.txnInsert 0 kFoo 7] 1 kFoobar
    (match (exec (execAll World.init (build [kFoobar])).2 (.getWatch 1 kFoobar)).1 with | .chan c _ => c | _ => 0) 1 0
    ⟨by decide +kernel, by decide +kernel⟩ (by decide +kernel) (by decide +kernel) (by decide +kernel)
    (by decide +kernel))

/-- {a}, watched: a tracked transaction updates a and is abandoned; the next one that updates a does not fire
the watch. -/
theorem C36_false : ¬ C36_Full Nat := fun h =>
  absurd (h (build [kA]) [.txnInsert 1 kA 8] [.txnInsert 0 kA 7] 1 kA
    (match (exec (execAll World.init (build [kA])).2 (.getWatch 1 kA)).1 with | .chan c _ => c | _ => 0) 1 0
    ⟨by decide +kernel, by decide +kernel⟩ (by decide +kernel) (by decide +kernel) (by decide +kernel)
    (by decide +kernel) (by decide +kernel)) (by decide +kernel)

end Art
