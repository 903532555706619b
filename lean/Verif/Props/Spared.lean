import Verif.Proofs.FreshWatch
import Verif.Props.Watch
/-
Watches that do not fire, on broad histories.

The watch of a present key `k` is followed by any calls: reads, watches, other transactions, writes without tracking
even of `k` itself, and tracking transactions that write keys apart from `k` (neither is a prefix of the other).
`C35_false` shows that the insertion of a prefix of `k` may close the channel.
-/
set_option autoImplicit false
namespace Art
variable {V : Type} [Inhabited V]

/-- C35 on broad histories: the channel of a present key `k` stays open, whatever the calls `later` are, as long as
they have nothing to do with `k` (`Op.Spares`; with `n = 0` no tracking transaction writes a key related to `k`, with
`n` the number of transactions at the moment of the watch the older ones may, but must not notify). -/
theorem C35_partial (ops later : List (Op V)) (i n : Nat) (k : Key) (c : ChanId) (v : V) :
    let w := (execAll World.init ops).2
    let watch : Op V := .getWatch i k
    (exec w watch).1 = .chan c (some v) → Broad (ops ++ [watch] ++ later) →
    DuringW (fun w' op => op.Spares n k w') (exec w watch).2 later →
    (execAll (exec w watch).2 later).2.chans[c]? = some false := by
  intro w watch hout hc hsp
  obtain ⟨hc1, hc2⟩ := Along.append.1 hc
  obtain ⟨hc3, hc4⟩ := Along.append.1 hc1
  have hw : WOK w := worldAfter_ok ops
  have hg := execAll_broad GoodOf.init ops hc3
  have hg' := (exec_goodOf hg watch hc4.1 (fun h => nomatch h)).2
  rw [sexecAll_append, execAll_append] at hc2
  have hl : WLone (exec w watch).2 := by
    have := loneAfter (ops ++ [watch])
    rw [execAll_append] at this
    exact this
  exact ((spared_watch hw (saneAll ops) hl n hout).execAll later (hw.exec watch) hg' hc2 hsp).opn

/-- C35 on broad histories, for one tracked transaction as in `C35_Full`, which writes keys that are no prefixes of
`k`, and of which `k` is no prefix. -/
theorem C35_tracked_partial (ops body : List (Op V)) (i x : Nat) (k : Key) (c : ChanId) (v : V) :
    let w := (execAll World.init ops).2
    let watch : Op V := .getWatch i k
    (exec w watch).1 = .chan c (some v) → Broad (ops ++ [watch] ++ trackedTxn i x body) →
    (∀ op ∈ body, op.writeOf x ∧ ∀ k', op.touches x k' → ¬ k <+: k' ∧ ¬ k' <+: k) →
    (execAll (exec w watch).2 (trackedTxn i x body)).2.chans[c]? = some false := by
  intro w watch hout hc hb
  refine C35_partial ops (trackedTxn i x body) i 0 k c v hout hc ?_
  have all : ∀ (l : List (Op V)) (w' : World V), (∀ op ∈ l, ∀ w', op.Spares 0 k w') →
      DuringW (fun w' op => op.Spares 0 k w') w' l := fun l => by
    induction l with
    | nil => exact fun _ _ => trivial
    | cons op l ih => exact fun w' h => ⟨h op (by simp) w', ih _ fun o ho => h o (by simp [ho])⟩
  refine all _ _ fun op hop w' => ?_
  simp only [trackedTxn, List.mem_append, List.mem_cons, List.not_mem_nil, or_false] at hop
  rcases hop with ((rfl | rfl) | hop) | rfl
  · trivial
  · trivial
  · obtain ⟨h1, h2⟩ := hb op hop
    cases op <;> first
      | exact (show False from h1).elim
      | exact fun _ _ _ _ => h2 _ ⟨h1, rfl⟩
  · exact fun r _ _ => Nat.zero_le _

/-! ### Examples -/

instance (n : Nat) (k : Key) (w : World V) (op : Op V) : Decidable (op.Spares n k w) :=
  match op with
  | .commit x | .notify x =>
    match h : w.txns[x]? with
    | none => isTrue fun r hr => by rw [h] at hr; cases hr
    | some r =>
      if ht : r.st.trackMutate = true → n ≤ x then isTrue fun r' hr => by rw [h] at hr; cases hr; exact ht
      else isFalse fun hc => ht (hc r h)
  | .txnInsert x k' _ | .txnDelete x k' =>
    match h : w.txns[x]? with
    | none => isTrue fun _ r hr => by rw [h] at hr; cases hr
    | some r =>
      if ht : n ≤ x → r.st.trackMutate = true → ¬ k <+: k' ∧ ¬ k' <+: k then isTrue fun hn r' hr => by rw [h] at hr; cases hr; exact ht hn
      else isFalse fun hc => ht fun hn => hc hn r h
  | .newTree | .cloneTree _ | .insert .. | .delete .. | .deletePrefix .. | .get .. | .getWatch .. | .seekPrefixWatch .. | .len _ | .begin _ | .txnClone _
  | .trackMutate .. | .txnDeletePrefix .. | .txnGet .. | .txnGetWatch .. | .commitOnly _ => isTrue trivial

/-- After the watch of `foobar` in {a, b, foo, foobar}: an untracked insertion of the key, and tracked transactions that insert and delete others. -/
def sLater : List (Op Nat) :=
  [.insert 4 kFoobar 9, .begin 4, .trackMutate 0 true, .txnInsert 0 kC 1, .txnDelete 0 kA, .begin 4, .txnInsert 1 kFoobar 3, .txnInsert 0 (ascii ['f', 'o', 'x']) 6,
   .txnInsert 0 (ascii ['f', 'o', 'o', 'b', 'a', 'z']) 7, .txnDelete 0 kB, .commit 0, .commit 1, .getWatch 6 kFoobar] ++ trackedTxn 6 2 [.txnDelete 2 kC]

example : (execAll (exec (execAll World.init wOps).2 (.getWatch 4 kFoobar)).2 sLater).2.chans[4]? = some false :=
  C35_partial wOps sLater 4 0 kFoobar 4 3 (by decide +kernel) (.of_loose (by decide +kernel)) (by decide +kernel)

example : (execAll (exec (execAll World.init wOps).2 (.getWatch 4 kFoobar)).2 (trackedTxn 4 0 [.txnInsert 0 kC 1, .txnDelete 0 kA])).2.chans[4]? = some false :=
  C35_tracked_partial wOps [.txnInsert 0 kC 1, .txnDelete 0 kA] 4 0 kFoobar 4 3 (by decide +kernel)
    (.of_loose (by decide +kernel)) fun op hop => by
      simp only [List.mem_cons, List.not_mem_nil, or_false] at hop
      rcases hop with rfl | rfl
      · exact ⟨rfl, fun k' ⟨_, h⟩ => by subst h; decide⟩
      · exact ⟨rfl, fun k' ⟨_, h⟩ => by subst h; decide⟩

/-- A tracking transaction begun before the watch. -/
def sOlder : List (Op Nat) := wOps ++ [.begin 4, .trackMutate 0 true, .txnInsert 0 kC 1]
/-- ... ends after it. -/
def sEnd : List (Op Nat) := [.txnDelete 0 kA, .commit 0]

example : (execAll (exec (execAll World.init sOlder).2 (.getWatch 4 kFoobar)).2 sEnd).2.chans[5]? = some false :=
  C35_partial sOlder sEnd 4 0 kFoobar 5 3 (by decide +kernel) (.of_loose (by decide +kernel)) (by decide +kernel)

end Art
