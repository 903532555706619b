import Verif.Proofs.Miss
import Verif.Props.Clean
/-
C04 where it holds for trees with keys: the search for the absent key stops inside bytes that the stored keys share
(`Map.Misses`).  Everywhere else the code removes what lies below the place where the search stops (`C04_false`,
`C04_fork`, `C04_long`).
-/
set_option autoImplicit false
namespace Art
variable {V : Type} [Inhabited V]

/-- C04 for keys that miss, in trees that never lost a key since they were last empty: nothing is reported as deleted, the
length and all keys are as before.  In fact the call does to the program exactly what `Clone` does.  Such calls may also occur
in the history. -/
theorem C04_miss_partial (ops : List (Op V)) (hc : Careful ops) (i : Nat) (hu : Uncut ops i) (k : Key) (m : Map V) (hm : mapAfter ops i = some m) (hk : m.Misses k) :
    let w := (execAll World.init ops).2
    exec w (.delete i k) = (.updated default false, (exec w (.cloneTree i)).2) ∧
    ∃ t t', treeAfter ops i = some t ∧ (exec w (.delete i k)).2.trees = w.trees ++ [t'] ∧ treeLen t' = treeLen t ∧
      ∀ k', treeGet (exec w (.delete i k)).2.heap t' k' = .ok (m.get k') := by
  have hg := hc.marked
  have hop : (Op.delete i k : Op V).Misses (sexecAll SWorld.init ops).2 := ⟨rfl, fun m' h => by
    rw [show (sexecAll SWorld.init ops).2.trees[i]? = some m from hm] at h; cases h; exact hk⟩
  obtain ⟨h1, h2, h3, -⟩ := exec_miss hg hop hu
  have hold : (sexec (sexecAll SWorld.init ops).2 (.delete i k)).1 = .updated default false := by
    simp only [sexec, show (sexecAll SWorld.init ops).2.trees[i]? = some m from hm, oldValue, Map.get_none hk.absent]
  refine ⟨Prod.ext (h2.trans hold) h1, ?_⟩
  have hlt := (List.getElem?_eq_some_iff.1 hm).1
  rw [← hg.good.ntrees] at hlt
  have ht := List.getElem?_eq_getElem hlt
  generalize (execAll World.init ops).2.trees[i] = t at ht
  have hv := hg.view hu ht hm
  letI : Removals := ⟨False⟩
  obtain ⟨a', s1, g1, g2, g3⟩ := ViewOf.clone (s := (execAll World.init ops).2.st default) hv
  refine ⟨t, { t with root := a' }, ht, ?_, rfl, fun k' => ?_⟩
  · rw [h1]
    simp only [Op.undel, exec, World.onTree, ht, treeClone, bind_run, g1, pure_run]
  · rw [h1]
    simp only [Op.undel, exec, World.onTree, ht, treeClone, bind_run, g1, pure_run, World.put]
    obtain ⟨hit, q1, q2, -⟩ := g3.search k'
    unfold treeGet
    rw [q1, Except.bind_ok, q2]; rfl

/-- The same in a transaction: nothing changes at all. -/
theorem C04_miss_txn_partial (ops : List (Op V)) (hc : Careful ops) (x : Nat) (hu : UncutTxn ops x) (k : Key) (q : STxn V)
    (hq : (sexecAll SWorld.init ops).2.txns[x]? = some q) (hl : (Op.txnDelete x k : Op V).legal (sexecAll SWorld.init ops).2 = true) (hk : q.map.Misses k) :
    exec (execAll World.init ops).2 (.txnDelete x k) = (.updated default false, (execAll World.init ops).2) := by
  have hop : (Op.txnDelete x k : Op V).Misses (sexecAll SWorld.init ops).2 := ⟨hl, fun m' h => by rw [hq] at h; cases h; exact hk⟩
  obtain ⟨h1, h2, h3, -⟩ := exec_miss hc.marked hop hu
  have hold : (sexec (sexecAll SWorld.init ops).2 (.txnDelete x k)).1 = .updated default false := by
    simp only [sexec, hq, oldValue, Map.get_none hk.absent]
  refine Prod.ext (h2.trans hold) (h1.trans ?_)
  exact exec_txnGet_state _ _

/-- Careful histories are as good as broad ones: for each there is a broad one of the same length that leads to the same program,
the same maps and the same trees that never lost a key, whatever follows. -/
theorem C04_careful_partial (ops : List (Op V)) (hc : Careful ops) : ∃ ops' : List (Op V), ops'.length = ops.length ∧ Broad ops' ∧
    ∀ tail : List (Op V), (execAll World.init (ops ++ tail)).2 = (execAll World.init (ops' ++ tail)).2 ∧
      (sexecAll SWorld.init (ops ++ tail)).2 = (sexecAll SWorld.init (ops' ++ tail)).2 ∧
      (∀ i, Uncut (ops ++ tail) i ↔ Uncut (ops' ++ tail) i) ∧ (∀ x, UncutTxn (ops ++ tail) x ↔ UncutTxn (ops' ++ tail) x) := by
  obtain ⟨ops', h⟩ := hc.undone
  refine ⟨ops', h.length, h.broad, fun tail => ?_⟩
  unfold Uncut UncutTxn
  rw [execAll_append, execAll_append, sexecAll_append, sexecAll_append, marksAll_append, marksAll_append, h.world, h.spec, h.marks]
  exact ⟨rfl, rfl, fun _ => Iff.rfl, fun _ => Iff.rfl⟩

/-- For example C01 after them, and after any broad continuation. -/
theorem C01_careful_partial (ops tail : List (Op V)) (hc : Careful ops) (hb : Along Op.Broad (execAll World.init ops).2 (sexecAll SWorld.init ops).2 tail)
    (i : Nat) (k : Key) :
    (exec (execAll World.init (ops ++ tail)).2 (.get i k)).1 = (sexec (sexecAll SWorld.init (ops ++ tail)).2 (.get i k)).1 := by
  obtain ⟨ops', h⟩ := hc.undone
  have h1 : (execAll World.init (ops ++ tail)).2 = (execAll World.init (ops' ++ tail)).2 := by rw [execAll_append, execAll_append, h.world]
  have h2 : (sexecAll SWorld.init (ops ++ tail)).2 = (sexecAll SWorld.init (ops' ++ tail)).2 := by rw [sexecAll_append, sexecAll_append, h.spec]
  rw [h1, h2]
  refine C01_partial _ (Along.append.2 ⟨h.broad, ?_⟩) i k
  rw [← h.world, ← h.spec]
  exact hb

/-! ### Examples -/

/-- A condition that can be computed and implies `Map.Misses`. -/
def Map.missesAt (m : Map V) (k P R : Key) : Bool :=
  match (k ++ [36])[P.length]?, (m.find? fun e => P.isPrefixOf e.1).bind fun e => (e.1 ++ [36])[P.length]? with
  | some b, some b' => b != b' && (P ++ [b]).isPrefixOf (k ++ [36]) && m.all (fun e => !P.isPrefixOf (e.1 ++ [36]) || (P ++ [b']).isPrefixOf (e.1 ++ [36])) &&
      (m.any fun e => m.any fun e' => e.1 != e'.1 && P.isPrefixOf (e.1 ++ [36]) && P.isPrefixOf (e'.1 ++ [36])) &&
      (P.length < 10 || P.length ≤ R.length + 10 && (P[R.length]?).any fun c => (R ++ [c]).isPrefixOf P &&
        m.any fun e => R.isPrefixOf (e.1 ++ [36]) && ((e.1 ++ [36])[R.length]?).any fun c' => c != c')
  | _, _ => false

omit [Inhabited V] in
theorem Map.Misses.of_at {m : Map V} {k P R : Key} (h : m.missesAt k P R = true) : m.Misses k := by
  unfold Map.missesAt at h
  split at h
  · rename_i b b' h1 h2
    simp only [Bool.and_eq_true, bne_iff_ne, List.isPrefixOf_iff_prefix, List.all_eq_true, Bool.or_eq_true, Bool.not_eq_true', List.any_eq_true,
      decide_eq_true_eq] at h
    obtain ⟨⟨⟨⟨q1, q2⟩, q3⟩, e, he, e', he', ⟨q4, q5⟩, q6⟩, q7⟩ := h
    refine ⟨P, b, b', q1, q2, fun k' ⟨v, hk'⟩ hP => ?_, ⟨e.1, e'.1, ⟨e.2, he⟩, ⟨e'.2, he'⟩, q4, q5, q6⟩, ?_⟩
    · rcases q3 _ hk' with h | h
      · rw [← Bool.not_eq_true, List.isPrefixOf_iff_prefix] at h; exact absurd hP h
      · exact h
    · rcases q7 with q7 | ⟨q7, q8⟩
      · exact Or.inl q7
      · simp only [Option.any_eq_true, Bool.and_eq_true, List.isPrefixOf_iff_prefix, List.any_eq_true, bne_iff_ne] at q8
        obtain ⟨c, q8, q9, e, he, q10, c', q11, q12⟩ := q8
        refine Or.inr ⟨R, c, c', e.1, q9, q7, q12, ⟨e.2, he⟩, ?_⟩
        obtain ⟨tl, htl⟩ := q10
        rw [← htl] at q11 ⊢
        rw [List.getElem?_append_right (Nat.le_refl _), Nat.sub_self] at q11
        cases tl with
        | nil => cases q11
        | cons x tl => cases q11; exact ⟨tl, by simp⟩
  · cases h

/-- foobar, foobaz, and two keys that share twelve bytes. -/
def missMap : Map Nat := [(List.replicate 12 97 ++ [99], 4), (List.replicate 12 97 ++ [98], 3), (ascii ['f', 'o', 'o', 'b', 'a', 'z'], 2), (kFoobar, 1)]

def missOps : List (Op Nat) := [.newTree, .insert 0 kFoobar 1, .insert 1 (ascii ['f', 'o', 'o', 'b', 'a', 'z']) 2,
  .insert 2 (List.replicate 12 97 ++ [98]) 3, .insert 3 (List.replicate 12 97 ++ [99]) 4]

/-- Broad calls and one that misses. -/
theorem CarefulFrom.append {w : World V} {s : SWorld V} {u : Marks} {ops tail : List (Op V)} (h1 : CarefulFrom w s u ops)
    (h2 : CarefulFrom (execAll w ops).2 (sexecAll s ops).2 (marksAll s u ops) tail) : CarefulFrom w s u (ops ++ tail) := by
  induction ops generalizing w s u with
  | nil => exact h2
  | cons op ops ih => exact ⟨h1.1, ih h1.2 h2⟩

theorem CarefulFrom.of_broad {w : World V} {s : SWorld V} {u : Marks} {ops : List (Op V)} (h : Along Op.Broad w s ops) : CarefulFrom w s u ops := by
  induction ops generalizing w s u with
  | nil => trivial
  | cons op ops ih => exact ⟨Or.inl h.1, ih h.2⟩

theorem missOps_careful : Careful missOps := CarefulFrom.of_broad (Broad.of_loose (by decide +kernel))

/-- "fox" parts from foobar and foobaz after two of the five bytes they share; "aaaaaaaaaab" from the other two after ten of their
twelve, the first of which leads to them. -/
example : missMap.Misses (ascii ['f', 'o', 'x']) := .of_at (P := ascii ['f', 'o']) (R := []) (by decide +kernel)
theorem miss_deep : missMap.Misses (List.replicate 10 97 ++ [98]) := .of_at (P := List.replicate 10 97) (R := []) (by decide +kernel)

example : let w := (execAll World.init missOps).2
    exec w (.delete 4 (List.replicate 10 97 ++ [98])) = (.updated 0 false, (exec w (.cloneTree 4)).2) :=
  (C04_miss_partial missOps missOps_careful 4 (by decide +kernel) _ missMap (by decide +kernel) miss_deep).1

/-- A key is deleted in another tree, then "fox" here, and a transaction is started. -/
def missMore : List (Op Nat) := missOps ++ [.delete 2 kFoobar] ++ [.delete 4 (ascii ['f', 'o', 'x'])] ++ [.begin 6]

theorem missMore_careful : Careful missMore := by
  refine CarefulFrom.append (CarefulFrom.append (CarefulFrom.of_broad (Broad.of_loose (by decide +kernel))) ⟨Or.inr ⟨⟨rfl, fun m hm => ?_⟩, ?_⟩, trivial⟩) ⟨Or.inl ⟨rfl, trivial⟩, trivial⟩
  · rw [show (sexecAll SWorld.init (missOps ++ [.delete 2 kFoobar])).2.trees[4]? = some missMap by decide +kernel] at hm
    cases hm
    exact .of_at (P := ascii ['f', 'o']) (R := []) (by decide +kernel)
  · show (marksAll SWorld.init ⟨[], []⟩ (missOps ++ [.delete 2 kFoobar])).trees[4]? = some true
    decide +kernel

example : exec (execAll World.init missMore).2 (.txnDelete 0 (List.replicate 10 97 ++ [98])) = (.updated 0 false, (execAll World.init missMore).2) :=
  C04_miss_txn_partial _ missMore_careful 0 (by decide +kernel) _ ⟨missMap, false, false, false⟩ (by decide +kernel) (by decide +kernel) miss_deep

/-- Then foobar is deleted: foobaz is still there. -/
example : (exec (execAll World.init (missMore ++ [.delete 6 kFoobar])).2 (.get 7 (ascii ['f', 'o', 'o', 'b', 'a', 'z']))).1 = .value (some 2) :=
  (C01_careful_partial missMore [.delete 6 kFoobar] missMore_careful (by
    have : Along (fun w s (op : Op Nat) => op.loose w s = true) (execAll World.init missMore).2 (sexecAll SWorld.init missMore).2 [.delete 6 kFoobar] := by decide +kernel
    exact this.imp fun w s op h => .of_loose h) 7 _).trans (by decide +kernel)

/-- {foobar, foobaz}: "foobax" parts from them where they branch, and deleting it loses both. -/
theorem C04_fork : (exec (execAll World.init missOps).2 (.delete 4 (ascii ['f', 'o', 'o', 'b', 'a', 'x']))).1 = .updated 0 false ∧
    (exec (exec (execAll World.init missOps).2 (.delete 4 (ascii ['f', 'o', 'o', 'b', 'a', 'x']))).2 (.get 5 kFoobar)).1 = .value none := by decide +kernel

/-- One byte further the shared bytes are not stored in the node, and deleting the key loses both keys. -/
theorem C04_long : (exec (execAll World.init missOps).2 (.delete 4 (List.replicate 11 97 ++ [98, 100]))).1 = .updated 0 false ∧
    (exec (exec (execAll World.init missOps).2 (.delete 4 (List.replicate 11 97 ++ [98, 100]))).2 (.get 5 (List.replicate 12 97 ++ [98]))).1 = .value none := by
  decide +kernel

end Art
