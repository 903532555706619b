import Verif.Model.World
/-
The specification: what the package promises, with no reference to nodes, heaps or channels.
A tree is a finite map, given as an association list; a program is a list of maps (the trees) and a list of
maps under construction (the transactions).  It shares with the model only the vocabulary of API calls (`Op`)
and results (`Out`).
-/
namespace Art
variable {V : Type}

/-- A finite map: a list of pairs, of which the first with a given key counts. -/
abbrev Map (V : Type) := List (Key × V)

namespace Map
/-- The value stored under a key. -/
def get (m : Map V) (k : Key) : Option V := (m.find? fun e => e.1 = k).map (·.2)
/-- Is the key present? -/
def has (m : Map V) (k : Key) : Prop := ∃ v, (k, v) ∈ m
/-- Remove a key. -/
def del (m : Map V) (k : Key) : Map V := m.filter fun e => e.1 ≠ k
/-- Store a value under a key. -/
def set (m : Map V) (k : Key) (v : V) : Map V := (k, v) :: m.del k
/-- Remove all keys with the given prefix. -/
def delPrefix (m : Map V) (p : Key) : Map V := m.filter fun e => ¬ p <+: e.1
end Map

/-- Bytewise lexicographic order, a proper prefix being smaller. -/
def Key.lt : Key → Key → Prop
  | [], [] => False
  | [], _ :: _ => True
  | _ :: _, [] => False
  | a :: as, b :: bs => a < b ∨ (a = b ∧ Key.lt as bs)

instance : (a b : Key) → Decidable (Key.lt a b)
  | [], [] => isFalse id
  | [], _ :: _ => isTrue trivial
  | _ :: _, [] => isFalse id
  | a :: as, b :: bs =>
    have := instDecidableLt as bs
    inferInstanceAs (Decidable (a < b ∨ (a = b ∧ Key.lt as bs)))

/-- A transaction: the map under construction.  `emptied` records that a deletion removed its last key. -/
structure STxn (V : Type) where
  map : Map V
  ended : Bool
  copied : Bool
  emptied : Bool
  deriving DecidableEq

/-- The program as its user should see it. -/
structure SWorld (V : Type) where
  trees : List (Map V)
  txns : List (STxn V)

/-- Before the first call. -/
def SWorld.init : SWorld V := { trees := [], txns := [] }

/-- Apply a function to transaction number `x`. -/
def SWorld.modTxn (s : SWorld V) (x : Nat) (f : STxn V → STxn V) : SWorld V :=
  { s with txns := s.txns.modify x f }

/-- The result of inserting into, or deleting from, a map: the old value if there was one. -/
def oldValue [Inhabited V] (m : Map V) (k : Key) : Out V :=
  match m.get k with
  | some v => .updated v true
  | none => .updated default false

/-- What each API call promises. -/
def sexec [Inhabited V] (s : SWorld V) : Op V → Out V × SWorld V
  | .newTree => (.done, { s with trees := s.trees ++ [[]] })
  | .cloneTree t =>
    match s.trees[t]? with
    | none => (.noSuch, s)
    | some m => (.done, { s with trees := s.trees ++ [m] })
  | .insert t k v =>
    match s.trees[t]? with
    | none => (.noSuch, s)
    | some m => (oldValue m k, { s with trees := s.trees ++ [m.set k v] })
  | .delete t k =>
    match s.trees[t]? with
    | none => (.noSuch, s)
    | some m => (oldValue m k, { s with trees := s.trees ++ [m.del k] })
  | .deletePrefix t p =>
    match s.trees[t]? with
    | none => (.noSuch, s)
    | some m => (.flag (m.any fun e => p.isPrefixOf e.1), { s with trees := s.trees ++ [m.delPrefix p] })
  | .get t k | .getWatch t k =>
    match s.trees[t]? with
    | none => (.noSuch, s)
    | some m => (.value (m.get k), s)
  | .seekPrefixWatch t _ =>
    match s.trees[t]? with
    | none => (.noSuch, s)
    | some _ => (.done, s)
  | .len t =>
    match s.trees[t]? with
    | none => (.noSuch, s)
    | some m => (.number m.length, s)
  | .begin t =>
    match s.trees[t]? with
    | none => (.noSuch, s)
    | some m => (.done, { s with txns := s.txns ++ [⟨m, false, false, false⟩] })
  | .txnClone x =>
    match s.txns[x]? with
    | none => (.noSuch, s)
    | some r =>
      (.done, { s with txns := s.txns.set x { r with copied := true } ++ [⟨r.map, false, false, r.emptied⟩] })
  | .trackMutate x _ | .notify x =>
    match s.txns[x]? with
    | none => (.noSuch, s)
    | some _ => (.done, s)
  | .txnInsert x k v =>
    match s.txns[x]? with
    | none => (.noSuch, s)
    | some r => (oldValue r.map k, s.modTxn x fun r => { r with map := r.map.set k v })
  | .txnDelete x k =>
    match s.txns[x]? with
    | none => (.noSuch, s)
    | some r =>
      (oldValue r.map k, s.modTxn x fun r =>
        { r with map := r.map.del k, emptied := r.emptied || (r.map.del k).isEmpty })
  | .txnDeletePrefix x p =>
    match s.txns[x]? with
    | none => (.noSuch, s)
    | some r =>
      (.flag (r.map.any fun e => p.isPrefixOf e.1), s.modTxn x fun r =>
        { r with map := r.map.delPrefix p, emptied := r.emptied || (r.map.delPrefix p).isEmpty })
  | .txnGet x k | .txnGetWatch x k =>
    match s.txns[x]? with
    | none => (.noSuch, s)
    | some r => (.value (r.map.get k), s)
  | .commit x | .commitOnly x =>
    match s.txns[x]? with
    | none => (.noSuch, s)
    | some r => (.done, { trees := s.trees ++ [r.map], txns := s.txns.set x { r with ended := true } })

/-- Results and final state of a sequence of calls. -/
def sexecAll [Inhabited V] (s : SWorld V) : List (Op V) → List (Out V) × SWorld V
  | [] => ([], s)
  | op :: ops =>
    let (o, s') := sexec s op
    let (os, s'') := sexecAll s' ops
    (o :: os, s'')

/-- A result without the identity of the channel that came with it. -/
def Out.vis : Out V → Out V
  | .chan _ r => .value r
  | .watch _ => .done
  | o => o

/-- Tree number `i` of the program after the calls `ops`. -/
def treeAfter [Inhabited V] (ops : List (Op V)) (i : Nat) : Option Tree :=
  (execAll World.init ops).2.trees[i]?

/-- The heap after the calls `ops`. -/
def heapAfter [Inhabited V] (ops : List (Op V)) : Heap V := (execAll World.init ops).2.heap

/-- The map that tree number `i` should be after the calls `ops`. -/
def mapAfter [Inhabited V] (ops : List (Op V)) (i : Nat) : Option (Map V) :=
  (sexecAll SWorld.init ops).2.trees[i]?

/-! ### Kinds of histories -/

/-- The condition `P` holds of every call of the history, at the moment it is made. -/
def During [Inhabited V] (P : SWorld V → Op V → Prop) : SWorld V → List (Op V) → Prop
  | _, [] => True
  | s, op :: ops => P s op ∧ During P (sexec s op).2 ops

/-- The transaction a call writes to. -/
def Op.writes : Op V → Option Nat
  | .txnInsert x _ _ | .txnDelete x _ | .txnDeletePrefix x _ => some x
  | _ => none

/-- Ordinary use: a transaction is not written to after it was committed or copied with `Txn.Clone`. -/
def Op.legal (s : SWorld V) (op : Op V) : Bool :=
  match op.writes with
  | none => true
  | some x =>
    match s.txns[x]? with
    | none => true
    | some r => !r.ended && !r.copied

instance [Inhabited V] (P : SWorld V → Op V → Prop) [∀ s op, Decidable (P s op)] :
    (s : SWorld V) → (ops : List (Op V)) → Decidable (During P s ops)
  | _, [] => isTrue trivial
  | s, op :: ops =>
    have := instDecidableDuring P (sexec s op).2 ops
    inferInstanceAs (Decidable (P s op ∧ During P (sexec s op).2 ops))

/-- A call other than `DeletePrefix`. -/
def Op.basic : Op V → Bool
  | .deletePrefix .. | .txnDeletePrefix .. => false
  | _ => true

/-- A call that removes keys. -/
def Op.deletes : Op V → Bool
  | .delete .. | .txnDelete .. | .deletePrefix .. | .txnDeletePrefix .. => true
  | _ => false

/-- Histories of ordinary use without `DeletePrefix`. -/
def Ordinary [Inhabited V] (ops : List (Op V)) : Prop :=
  During (fun s op => op.legal s = true) SWorld.init ops ∧ ∀ op ∈ ops, op.basic = true

/-! ### Histories on which the package keeps its promises

The counterexamples of `Props/Negations.lean` come from a small number of situations.  `Clean` histories avoid
them; every restriction is a condition on the maps that the user has in mind, not on nodes. -/

/-- The key `k` may be inserted into the map:
* no key contains another key followed by `'$'` (every key is stored with a final `'$'`);
* no node ends up with 256 children: after every string `P` some byte `b` remains unused;
* an overwritten key is not a proper prefix of another key;
* `Len` does not overflow. -/
structure Map.CanSet (m : Map V) (k : Key) : Prop where
  dollar : ∀ k', m.has k' → ¬ k' ++ [36] <+: k ∧ ¬ k ++ [36] <+: k'
  room : ∀ P : Key, ∃ b : Byte, ¬ P ++ [b] <+: k ++ [36] ∧ ∀ k', m.has k' → ¬ P ++ [b] <+: k' ++ [36]
  over : m.has k → ∀ k', m.has k' → k <+: k' → k' = k
  size : m.length < 2 ^ 63 - 1

/-- The key `k` may be deleted from the map: it is present, or nothing is. -/
def Map.CanDel (m : Map V) (k : Key) : Prop := m.has k ∨ m = []

/-- The call respects the restrictions: ordinary use, no `DeletePrefix`, no insertion into a transaction that was
emptied by a deletion. -/
def Op.Clean (s : SWorld V) (op : Op V) : Prop :=
  op.legal s = true ∧
  match op with
  | .insert t k _ => ∀ m, s.trees[t]? = some m → m.CanSet k
  | .delete t k => ∀ m, s.trees[t]? = some m → m.CanDel k
  | .txnInsert x k _ => ∀ r, s.txns[x]? = some r → r.emptied = false ∧ r.map.CanSet k
  | .txnDelete x k => ∀ r, s.txns[x]? = some r → r.map.CanDel k
  | .deletePrefix .. | .txnDeletePrefix .. => False
  | _ => True

/-- Every call of the history respects the restrictions at the moment it is made. -/
def Clean [Inhabited V] (ops : List (Op V)) : Prop := During Op.Clean SWorld.init ops

/-! ### Histories on which the contents are right, but not the counts

Overwriting a key that is a proper prefix of another key can be reported as the insertion of a new key; `Len` then
counts the key twice.  `Broad` histories may do that, as long as a tree that has become empty again but still
reports a size is not inserted into. -/

/-- The first two conditions of `Map.CanSet`. -/
structure Map.CanPut (m : Map V) (k : Key) : Prop where
  dollar : ∀ k', m.has k' → ¬ k' ++ [36] <+: k ∧ ¬ k ++ [36] <+: k'
  room : ∀ P : Key, ∃ b : Byte, ¬ P ++ [b] <+: k ++ [36] ∧ ∀ k', m.has k' → ¬ P ++ [b] <+: k' ++ [36]

/-- The key `k` may be inserted into the map `m` of a tree that reports the size `sz`. -/
structure Map.Takes (m : Map V) (sz : UInt64) (k : Key) : Prop where
  put : m.CanPut k
  size : sz.toNat + 1 < 2 ^ 63
  empty : m = [] → sz = 0

/-- As `Op.Clean`, except that keys may be overwritten that are proper prefixes of other keys.  The sizes are those
that the program `w` reports. -/
def Op.Broad (w : World V) (s : SWorld V) (op : Op V) : Prop :=
  op.legal s = true ∧
  match op with
  | .insert t k _ => ∀ m tr, s.trees[t]? = some m → w.trees[t]? = some tr → m.Takes tr.size k
  | .delete t k => ∀ m, s.trees[t]? = some m → m.CanDel k
  | .txnInsert x k _ => ∀ q r, s.txns[x]? = some q → w.txns[x]? = some r → q.emptied = false ∧ q.map.Takes r.st.size k
  | .txnDelete x k => ∀ r, s.txns[x]? = some r → r.map.CanDel k
  | .deletePrefix .. | .txnDeletePrefix .. => False
  | _ => True

/-- The condition `P` holds of every call of the history, at the moment it is made, in the program and in the
specification. -/
def Along [Inhabited V] (P : World V → SWorld V → Op V → Prop) : World V → SWorld V → List (Op V) → Prop
  | _, _, [] => True
  | w, s, op :: ops => P w s op ∧ Along P (exec w op).2 (sexec s op).2 ops

/-- Every call of the history respects the restrictions of `Op.Broad` at the moment it is made. -/
def Broad [Inhabited V] (ops : List (Op V)) : Prop := Along Op.Broad World.init SWorld.init ops

/-- The key is stored together with a longer one that starts with it. -/
def Map.Shadowed (m : Map V) (k : Key) : Prop := m.has k ∧ ∃ k', m.has k' ∧ k' ≠ k ∧ k <+: k'

/-- The results that may be wrong in a `Broad` history. -/
def Op.Blur [Inhabited V] (s : SWorld V) (op : Op V) (o : Out V) : Prop :=
  match op with
  | .insert t k _ => ∃ m, s.trees[t]? = some m ∧ m.Shadowed k ∧ o = .updated default false
  | .txnInsert x k _ => ∃ q, s.txns[x]? = some q ∧ q.map.Shadowed k ∧ o = .updated default false
  | .len t => ∃ m n, s.trees[t]? = some m ∧ o = .number n ∧ (m.length : Int) ≤ n
  | _ => False

/-- No key is continued by another one with a byte below `'$'`, as in `"a"`, `"a!"`.  (Then the order of the
stored keys, which end in `'$'`, is the order of the keys.) -/
def Map.Ordered (m : Map V) : Prop := ∀ (k k' : Key) (b : Byte), m.has k → m.has k' → k ++ [b] <+: k' → 36 ≤ b

/-- No key is a prefix of another one. -/
def Map.PrefixFree (m : Map V) : Prop := ∀ k k' : Key, m.has k → m.has k' → k <+: k' → k' = k

/-- After no string do the keys, each followed by `'$'`, continue with more than `c` different bytes. -/
def Map.Narrow (m : Map V) (c : Nat) : Prop := ∀ (P : Key) (bs : List Byte), bs.Nodup →
  (∀ b ∈ bs, ∃ k, m.has k ∧ P ++ [b] <+: k ++ [36]) → bs.length ≤ c

/-- A bound that suits the keys: it is not longer than 9 bytes, different keys share at most one byte more than the
bound has, no key continued by a byte below `'$'` leads to the bound, and no key continues the bound with `'$'`. -/
structure Map.Bounded (m : Map V) (q : Key) : Prop where
  short : q.length ≤ 9
  shallow : ∀ k k' P : Key, m.has k → m.has k' → k ≠ k' → P <+: k → P <+: k' → P.length ≤ q.length + 1
  up : ∀ (k : Key) (b : Byte), m.has k → k ++ [b] <+: q → 36 ≤ b
  off : ∀ k : Key, m.has k → ¬ q ++ [36] <+: k

/-- A bound at which the keys branch: different keys share at most ten bytes, keys that share a prefix of the bound do not
all continue it with the same byte (counting the final `'$'`), and there is no byte below `'$'` between a key and the
bound when one continues the other. -/
structure Map.Branching (m : Map V) (q : Key) : Prop where
  close : ∀ k k' P : Key, m.has k → m.has k' → k ≠ k' → P <+: k → P <+: k' → P.length ≤ 10
  fork : ∀ k k' P : Key, P <+: q → m.has k → m.has k' → k ≠ k' → P <+: k → P <+: k' →
    ∃ (k1 k2 : Key) (b b' : Byte), m.has k1 ∧ m.has k2 ∧ b ≠ b' ∧ P ++ [b] <+: k1 ++ [36] ∧ P ++ [b'] <+: k2 ++ [36]
  up : ∀ (k : Key) (b : Byte), m.has k → k ++ [b] <+: q → 36 ≤ b
  low : ∀ (k : Key) (b : Byte), m.has k → q ++ [b] <+: k → 36 ≤ b

/-- No key with the prefix is a proper prefix of another key. -/
def Map.FreeBelow (m : Map V) (pre : Key) : Prop := ∀ k, m.has k → pre <+: k → ∀ k', m.has k' → k <+: k' → k' = k

/-- All keys have the prefix, or no key is the only one with the prefix. -/
def Map.Several (m : Map V) (pre : Key) : Prop :=
  (∀ k, m.has k → pre <+: k) ∨ ∀ k, m.has k → pre <+: k → ∃ k', m.has k' ∧ pre <+: k' ∧ k' ≠ k

/-- The search for the absent key stops inside bytes that the stored keys share: of the stored keys (each followed by `'$'`),
at least two start with `P`, and all that do continue it with `b'`, while `k` continues it with `b`.  `P` is shorter than ten
bytes, or at most nine bytes longer than the last place `R c` in it where the stored keys branch. -/
def Map.Misses (m : Map V) (k : Key) : Prop := ∃ (P : Key) (b b' : Byte), b ≠ b' ∧ P ++ [b] <+: k ++ [36] ∧
  (∀ k', m.has k' → P <+: k' ++ [36] → P ++ [b'] <+: k' ++ [36]) ∧
  (∃ k1 k2, m.has k1 ∧ m.has k2 ∧ k1 ≠ k2 ∧ P <+: k1 ++ [36] ∧ P <+: k2 ++ [36]) ∧
  (P.length < 10 ∨ ∃ (R : Key) (c c' : Byte) (k' : Key), R ++ [c] <+: P ∧ P.length ≤ R.length + 10 ∧ c ≠ c' ∧ m.has k' ∧ R ++ [c'] <+: k' ++ [36])

/-- The call deletes an absent key in that situation. -/
def Op.Misses (s : SWorld V) (op : Op V) : Prop :=
  op.legal s = true ∧
  match op with
  | .delete t k => ∀ m, s.trees[t]? = some m → m.Misses k
  | .txnDelete x k => ∀ r, s.txns[x]? = some r → r.map.Misses k
  | _ => False

/-! ### Trees that never lost a key

Some of the reads are right only for trees and transactions from which no key was ever removed, whatever happened to
others.  The marks say which of them these are. -/

/-- For every tree and every transaction: no key was removed on the way to it, since it was last empty. -/
structure Marks where
  trees : List Bool
  txns : List Bool

/-- The marks after a call. -/
def Marks.step (s : SWorld V) (u : Marks) : Op V → Marks
  | .newTree => { u with trees := u.trees ++ [true] }
  | .cloneTree t | .insert t _ _ =>
    match u.trees[t]? with
    | none => u
    | some b => { u with trees := u.trees ++ [b] }
  | .delete t k =>
    match s.trees[t]?, u.trees[t]? with
    | some m, some b => { u with trees := u.trees ++ [(m.del k).isEmpty || (b && (m.get k).isNone)] }
    | _, _ => u
  | .deletePrefix t _ =>
    match s.trees[t]?, u.trees[t]? with
    | some _, some _ => { u with trees := u.trees ++ [false] }
    | _, _ => u
  | .begin t =>
    match u.trees[t]? with
    | none => u
    | some b => { u with txns := u.txns ++ [b] }
  | .txnClone x =>
    match u.txns[x]? with
    | none => u
    | some b => { u with txns := u.txns ++ [b] }
  | .txnDelete x k =>
    match s.txns[x]?, u.txns[x]? with
    | some q, some b => { u with txns := u.txns.set x ((q.map.del k).isEmpty || (b && (q.map.get k).isNone)) }
    | _, _ => u
  | .txnDeletePrefix x _ => { u with txns := u.txns.set x false }
  | .commit x | .commitOnly x =>
    match u.txns[x]? with
    | none => u
    | some b => { u with trees := u.trees ++ [b] }
  | _ => u

/-- The marks after a history. -/
def marksAll [Inhabited V] (s : SWorld V) (u : Marks) : List (Op V) → Marks
  | [] => u
  | op :: ops => marksAll (sexec s op).2 (u.step s op) ops

/-- No key was removed on the way to tree `i`, since it was last empty. -/
def Uncut [Inhabited V] (ops : List (Op V)) (i : Nat) : Prop := (marksAll SWorld.init ⟨[], []⟩ ops).trees[i]? = some true

/-- The same for transaction `x`. -/
def UncutTxn [Inhabited V] (ops : List (Op V)) (x : Nat) : Prop := (marksAll SWorld.init ⟨[], []⟩ ops).txns[x]? = some true

instance [Inhabited V] (ops : List (Op V)) (i : Nat) : Decidable (Uncut ops i) := inferInstanceAs (Decidable (_ = _))
instance [Inhabited V] (ops : List (Op V)) (x : Nat) : Decidable (UncutTxn ops x) := inferInstanceAs (Decidable (_ = _))

/-- The call deletes in a tree or transaction that never lost a key. -/
def Op.onUncut (u : Marks) : Op V → Prop
  | .delete t _ => u.trees[t]? = some true
  | .txnDelete x _ => u.txns[x]? = some true
  | _ => False

/-- Every call of the history is broad, or the deletion of an absent key that misses, in a tree that never lost a key. -/
def CarefulFrom [Inhabited V] : World V → SWorld V → Marks → List (Op V) → Prop
  | _, _, _, [] => True
  | w, s, u, op :: ops => (op.Broad w s ∨ (op.Misses s ∧ op.onUncut u)) ∧ CarefulFrom (exec w op).2 (sexec s op).2 (u.step s op) ops

def Careful [Inhabited V] (ops : List (Op V)) : Prop := CarefulFrom World.init SWorld.init ⟨[], []⟩ ops

/-- The calls of a function until it returns true. -/
def callsUntil (fn : Key → V → Bool) : List (Key × V) → List (Key × V)
  | [] => []
  | e :: l => e :: if fn e.1 e.2 then [] else callsUntil fn l

/-- Keys that can be inserted in any order: no key contains another one followed by `'$'`, no node gets 256
children, `Len` does not overflow. -/
structure Map.Compatible (m : Map V) : Prop where
  dollar : ∀ k k', m.has k → m.has k' → ¬ k' ++ [36] <+: k
  room : ∀ P : Key, ∃ b : Byte, ∀ k, m.has k → ¬ P ++ [b] <+: k ++ [36]
  size : m.length < 2 ^ 63

/-- A key without the bytes `'$'` and 255. -/
def Key.plain (k : Key) : Bool := k.all fun b => b != 36 && b != 255

/-- A condition that can be computed and implies `Map.CanSet`. -/
def Map.okSet (m : Map V) (k : Key) : Bool :=
  k.plain && m.all (fun e => e.1.plain) && (!(m.any fun e => e.1 == k) || m.all fun e => !(k.isPrefixOf e.1) || e.1 == k) && m.length < 1000000

/-- A condition that can be computed and implies `Map.CanDel`. -/
def Map.okDel (m : Map V) (k : Key) : Bool := m.any (fun e => e.1 == k) || m.isEmpty

/-- A condition that can be computed and implies `Op.Clean`. -/
def Op.plain (s : SWorld V) (op : Op V) : Bool :=
  op.legal s &&
  match op with
  | .insert t k _ => (s.trees[t]?).all fun m => m.okSet k
  | .delete t k => (s.trees[t]?).all fun m => m.okDel k
  | .txnInsert x k _ => (s.txns[x]?).all fun r => !r.emptied && r.map.okSet k
  | .txnDelete x k => (s.txns[x]?).all fun r => r.map.okDel k
  | .deletePrefix .. | .txnDeletePrefix .. => false
  | _ => true

/-- Histories with plain keys. -/
def Plain [Inhabited V] (ops : List (Op V)) : Prop := During (fun s op => op.plain s = true) SWorld.init ops

instance [Inhabited V] (ops : List (Op V)) : Decidable (Plain ops) := inferInstanceAs (Decidable (During _ _ _))

/-- A condition that can be computed and implies `Map.Takes`. -/
def Map.okPut (m : Map V) (sz : UInt64) (k : Key) : Bool :=
  k.plain && m.all (fun e => e.1.plain) && sz < 1000000 && (!m.isEmpty || sz == 0)

/-- A condition that can be computed and implies `Op.Broad`. -/
def Op.loose (w : World V) (s : SWorld V) (op : Op V) : Bool :=
  op.legal s &&
  match op with
  | .insert t k _ => (s.trees[t]?).all fun m => (w.trees[t]?).all fun tr => m.okPut tr.size k
  | .delete t k => (s.trees[t]?).all fun m => m.okDel k
  | .txnInsert x k _ => (s.txns[x]?).all fun q => (w.txns[x]?).all fun r => !q.emptied && q.map.okPut r.st.size k
  | .txnDelete x k => (s.txns[x]?).all fun r => r.map.okDel k
  | .deletePrefix .. | .txnDeletePrefix .. => false
  | _ => true

/-- `Broad` histories with plain keys. -/
def Loose [Inhabited V] (ops : List (Op V)) : Prop := Along (fun w s op => op.loose w s = true) World.init SWorld.init ops

instance [Inhabited V] (P : World V → SWorld V → Op V → Prop) [∀ w s op, Decidable (P w s op)] :
    (w : World V) → (s : SWorld V) → (ops : List (Op V)) → Decidable (Along P w s ops)
  | _, _, [] => isTrue trivial
  | w, s, op :: ops =>
    have := instDecidableAlong P (exec w op).2 (sexec s op).2 ops
    inferInstanceAs (Decidable (P w s op ∧ Along P (exec w op).2 (sexec s op).2 ops))

instance [Inhabited V] (ops : List (Op V)) : Decidable (Loose ops) := inferInstanceAs (Decidable (Along _ _ _ _))

/-- The call notifies watchers: a `Commit` or `Notify` of a transaction with tracking. -/
def Op.notifies (w : World V) : Op V → Prop
  | .commit x | .notify x => ∃ r, w.txns[x]? = some r ∧ r.st.trackMutate = true
  | _ => False

/-- The call is an insertion of this pair. -/
def Op.inserts (k : Key) (v : V) : Op V → Prop
  | .insert _ k' v' | .txnInsert _ k' v' => k' = k ∧ v' = v
  | _ => False

/-- The call is ordinary use in the state `w`: it does not write to a transaction that was already committed
or copied with `Txn.Clone`. -/
def World.allows (w : World V) (op : Op V) : Bool :=
  match op.writes with
  | none => true
  | some x =>
    match w.txns[x]? with
    | none => true
    | some r => !r.ended && !r.copied

/-- Every call of the history is ordinary use at the moment it is made; calls may panic. -/
def Lawful [Inhabited V] : World V → List (Op V) → Prop
  | _, [] => True
  | w, op :: ops => w.allows op = true ∧ Lawful (exec w op).2 ops

instance [Inhabited V] : (w : World V) → (ops : List (Op V)) → Decidable (Lawful w ops)
  | _, [] => isTrue trivial
  | w, op :: ops =>
    have := instDecidableLawful (exec w op).2 ops
    inferInstanceAs (Decidable (w.allows op = true ∧ Lawful (exec w op).2 ops))

/-- Bytes of an ASCII key. -/
def ascii (cs : List Char) : Key := cs.map fun c => UInt8.ofNat c.toNat

end Art
