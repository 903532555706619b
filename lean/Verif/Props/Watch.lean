import Verif.Proofs.Watch
import Verif.Props.Clean
/-
Watches that fire, on broad histories.

In C29 to C31 the watch on tree `i` is followed by any calls `mid`, a tracked transaction `x` on the same tree with
any calls `body` (its own, and others), its commit, and any calls `later`.  Up to the commit, all calls must be
broad, and no other tracking transaction writes (it could take the channel away and never close it: see
`C36_false`).
-/
set_option autoImplicit false
namespace Art
variable {V : Type} [Inhabited V]

/-- Transaction `x` does not change its tracking mode, and no other tracking transaction writes. -/
def Steady (x : Nat) (w : World V) (mid : List (Op V)) (i : Nat) (body : List (Op V)) : Prop :=
  x = (execAll w mid).2.txns.length ∧ (∀ b, .trackMutate x b ∉ body) ∧
  DuringW (fun w op => op.calm w x) w (mid ++ trackedTxn i x body)

instance (x : Nat) (w : World V) (op : Op V) : Decidable (op.calm w x) :=
  match h : op.writes with
  | none => isTrue fun y r hy => by rw [h] at hy; cases hy
  | some y =>
    if hy : y = x then isTrue fun z r hz hne => by rw [h] at hz; cases hz; exact absurd hy hne
    else match hr : w.txns[y]? with
      | none => isTrue fun z r hz _ hr' => by rw [h] at hz; cases hz; rw [hr] at hr'; cases hr'
      | some r =>
        if ht : r.st.trackMutate = false then isTrue fun z r' hz _ hr' => by
          rw [h] at hz; cases hz; rw [hr] at hr'; cases hr'; exact ht
        else isFalse fun hc => ht (hc y r h hy hr)

instance decDuringW (P : World V → Op V → Prop) [∀ w op, Decidable (P w op)] : ∀ (w : World V) (ops : List (Op V)), Decidable (DuringW P w ops)
  | _, [] => isTrue trivial
  | w, op :: ops =>
    match (inferInstance : Decidable (P w op)), decDuringW P (exec w op).2 ops with
    | isTrue h1, isTrue h2 => isTrue ⟨h1, h2⟩
    | isFalse h1, _ => isFalse fun h => h1 h.1
    | _, isFalse h2 => isFalse fun h => h2 h.2

section
variable (ops mid body later : List (Op V)) (i x : Nat)

/-- C29 on broad histories. -/
theorem C29_partial (k : Key) (c : ChanId) (v : V) :
    let w := (execAll World.init ops).2
    let watch : Op V := .getWatch i k
    (exec w watch).1 = .chan c (some v) → Broad (ops ++ [watch] ++ (mid ++ trackedTxn i x body)) → Steady x (exec w watch).2 mid i body →
    (∃ op ∈ body, op.touches x k) → (execAll (exec w watch).2 (mid ++ trackedTxn i x body ++ later)).2.chans[c]? = some true := by
  intro w watch hout hc hst ⟨op, hop, ht⟩
  obtain ⟨hc1, hc2⟩ := Along.append.1 hc
  obtain ⟨hc3, hc4⟩ := Along.append.1 hc1
  have hg := execAll_broad GoodOf.init ops hc3
  have hg' := (exec_goodOf hg watch hc4.1 (fun h => nomatch h)).2
  obtain ⟨h1, h2, h3⟩ := hst
  rw [sexecAll_append, execAll_append] at hc2
  exact watch_fires (T := .key (k ++ [dollar])) mid body later ((worldAfter_ok ops).exec watch) hg' ((getWatch_waits hg hout).1 v rfl) h1 hc2 h3 h2 ⟨op, hop, k, ht, rfl⟩

/-- C30 on broad histories, for trees with keys of at most ten bytes. -/
theorem C30_partial (k : Key) (c : ChanId) :
    let w := (execAll World.init ops).2
    let watch : Op V := .getWatch i k
    (∀ m, mapAfter ops i = some m → ∀ k', m.has k' → k'.length ≤ 10) →
    (exec w watch).1 = .chan c none → Broad (ops ++ [watch] ++ (mid ++ trackedTxn i x body)) → Steady x (exec w watch).2 mid i body →
    (∃ op ∈ body, op.touches x k) → (execAll (exec w watch).2 (mid ++ trackedTxn i x body ++ later)).2.chans[c]? = some true := by
  intro w watch hlen hout hc hst ⟨op, hop, ht⟩
  obtain ⟨hc1, hc2⟩ := Along.append.1 hc
  obtain ⟨hc3, hc4⟩ := Along.append.1 hc1
  have hg := execAll_broad GoodOf.init ops hc3
  have hg' := (exec_goodOf hg watch hc4.1 (fun h => nomatch h)).2
  obtain ⟨h1, h2, h3⟩ := hst
  rw [sexecAll_append, execAll_append] at hc2
  exact watch_fires (T := .path (k ++ [dollar])) mid body later ((worldAfter_ok ops).exec watch) hg' ((getWatch_waits hg hout).2 rfl hlen) h1 hc2 h3 h2
    ⟨op, hop, k, ht, List.prefix_rfl⟩

/-- C31 on broad histories: the watch fires for any key with the prefix, inserted or deleted. -/
theorem C31_partial (p : Key) (c : ChanId) :
    let w := (execAll World.init ops).2
    let watch : Op V := .seekPrefixWatch i p
    (exec w watch).1 = .watch c → Broad (ops ++ [watch] ++ (mid ++ trackedTxn i x body)) → Steady x (exec w watch).2 mid i body →
    (∃ op ∈ body, ∃ k, op.touches x k ∧ p <+: k) → (execAll (exec w watch).2 (mid ++ trackedTxn i x body ++ later)).2.chans[c]? = some true := by
  intro w watch hout hc hst ⟨op, hop, k, ht, hk⟩
  obtain ⟨hc1, hc2⟩ := Along.append.1 hc
  obtain ⟨hc3, hc4⟩ := Along.append.1 hc1
  have hg := execAll_broad GoodOf.init ops hc3
  have hg' := (exec_goodOf hg watch hc4.1 (fun h => nomatch h)).2
  obtain ⟨h1, h2, h3⟩ := hst
  rw [sexecAll_append, execAll_append] at hc2
  exact watch_fires (T := .path p) mid body later ((worldAfter_ok ops).exec watch) hg' (seekWatch_waits hg hout) h1 hc2 h3 h2
    ⟨op, hop, k, ht, hk.trans (List.prefix_append _ _)⟩

/-- C36 on broad histories, for abandoned transactions without tracking: the watch fires as in C29, also if another
transaction `y` on the same tree was begun, made any calls and was never committed. -/
theorem C36_partial (aborted : List (Op V)) (y : Nat) (k : Key) (c : ChanId) (v : V) :
    let w := (execAll World.init ops).2
    let watch : Op V := .getWatch i k
    (exec w watch).1 = .chan c (some v) → y = w.txns.length → (∀ op ∈ aborted, op.writeOf y) → x = y + 1 → (∀ op ∈ body, op.writeOf x) →
    Broad (ops ++ [watch] ++ ([.begin i] ++ aborted ++ trackedTxn i x body)) →
    (∃ op ∈ body, op.touches x k) → (execAll (exec w watch).2 ([.begin i] ++ aborted ++ trackedTxn i x body)).2.chans[c]? = some true := by
  intro w watch hout hy hab hx hbody hc hto
  have hw := worldAfter_ok ops
  have hw' := hw.exec watch
  have htx : (exec w watch).2.txns = w.txns := onTree_txns _ _ _ _
  obtain ⟨t, ht⟩ : ∃ t, w.trees[i]? = some t := by
    cases h : w.trees[i]? with
    | some t => exact ⟨t, rfl⟩
    | none => simp only [watch, exec, World.onTree, h] at hout; cases hout
  have ht' : (exec w watch).2.trees[i]? = some t := execAll_trees w [watch] ht
  obtain ⟨r, hr, hrt⟩ := begin_txns ht' (hw'.all.trees t (List.mem_of_getElem? ht'))
  rw [htx] at hr
  obtain ⟨h1, h2⟩ := writesOf_quiet (x := x) aborted (hw'.exec (.begin i)) hab (by rw [hr, hy]; simp) hrt
  have := C29_partial ops ([.begin i] ++ aborted) body [] i x k c v hout hc ⟨?_, fun b hb => ?_, ?_⟩ hto
  · rw [List.append_nil] at this; exact this
  · rw [execAll_append]
    show x = (execAll (exec (exec w watch).2 (.begin i)).2 aborted).2.txns.length
    rw [h1, hr, hx, hy]; simp
  · exact (show False from hbody _ hb).elim
  · rw [List.append_assoc, DuringW.append, DuringW.append]
    refine ⟨⟨(fun _ _ h => nomatch h), trivial⟩, h2, writesOf_calm _ fun op hop => ?_⟩
    simp only [trackedTxn, List.mem_append, List.mem_cons, List.not_mem_nil, or_false] at hop
    rcases hop with ((rfl | rfl) | hop) | rfl
    · exact Or.inl rfl
    · exact Or.inl rfl
    · right
      have := hbody op hop
      cases op <;> first | exact (show False from this).elim | exact congrArg some this
    · exact Or.inl rfl

/-- Channels are closed for good, in any history. -/
theorem closed_forever (ops later : List (Op V)) (c : ChanId) (h : (execAll World.init ops).2.chans[c]? = some true) :
    (execAll World.init (ops ++ later)).2.chans[c]? = some true := by
  rw [execAll_append]
  exact (execAll_closed (worldAfter_ok ops) later).2 c h
end

/-! ### Examples -/

/-- The tree 4 of this history is {a, b, foo, foobar}. -/
def wOps : List (Op Nat) := build [kA, kFoo, kFoobar, kB]
/-- Other calls: an untracked insertion, another transaction, which stays open. -/
def wMid : List (Op Nat) := [.insert 4 kC 9, .begin 4, .txnInsert 0 kFoobar 8]
/-- The tracked transaction, with another untracked write in between. -/
def wBody : List (Op Nat) := [.txnInsert 1 kC 1, .txnDelete 1 kA, .txnInsert 0 kB 5, .txnInsert 1 kFoobar 3, .txnDelete 1 kB]

def wFoob : Key := ascii ['f', 'o', 'o', 'b']

theorem wBroad (watch : Op Nat) (h : watch ∈ [.getWatch 4 kFoobar, .getWatch 4 kC, .seekPrefixWatch 4 wFoob]) :
    Broad (wOps ++ [watch] ++ (wMid ++ trackedTxn 4 1 wBody)) := by
  refine .of_loose ?_
  revert watch
  decide +kernel

theorem wSteady (watch : Op Nat) (h : watch ∈ [.getWatch 4 kFoobar, .getWatch 4 kC, .seekPrefixWatch 4 wFoob]) :
    Steady 1 (exec (execAll World.init wOps).2 watch).2 wMid 4 wBody := by
  revert watch
  unfold Steady
  simp only [Bool.forall_bool]
  decide +kernel

example : (exec (execAll World.init wOps).2 (.getWatch 4 kFoobar)).1 = .chan 4 (some 3) := by decide +kernel
example : (execAll (exec (execAll World.init wOps).2 (.getWatch 4 kFoobar)).2 (wMid ++ trackedTxn 4 1 wBody ++ [.get 0 kA])).2.chans[4]? = some true :=
  C29_partial wOps wMid wBody _ 4 1 kFoobar 4 3 (by decide +kernel) (wBroad _ (by simp)) (wSteady _ (by simp)) (by decide +kernel)

example : (execAll (exec (execAll World.init wOps).2 (.getWatch 4 kC)).2 (wMid ++ trackedTxn 4 1 wBody ++ [])).2.chans[2]? = some true :=
  C30_partial wOps wMid wBody _ 4 1 kC 2 (fun m hm k' hk' => by
    have h : mapAfter wOps 4 = some [(kB, 4), (kFoobar, 3), (kFoo, 2), (kA, 1)] := by decide +kernel
    rw [h] at hm; cases hm
    obtain ⟨v, hv⟩ := hk'
    revert hv
    simp only [List.mem_cons, Prod.mk.injEq, List.not_mem_nil, or_false]
    rintro (⟨rfl, -⟩ | ⟨rfl, -⟩ | ⟨rfl, -⟩ | ⟨rfl, -⟩) <;> decide) (by decide +kernel) (wBroad _ (by simp)) (wSteady _ (by simp)) (by decide +kernel)

example : (execAll (exec (execAll World.init wOps).2 (.seekPrefixWatch 4 wFoob)).2 (wMid ++ trackedTxn 4 1 wBody ++ [])).2.chans[4]? = some true :=
  C31_partial wOps wMid wBody _ 4 1 wFoob 4 (by decide +kernel) (wBroad _ (by simp)) (wSteady _ (by simp))
    ⟨.txnInsert 1 kFoobar 3, by simp [wBody], kFoobar, ⟨rfl, rfl⟩, by decide⟩

example : (execAll (exec (execAll World.init wOps).2 (.getWatch 4 kFoobar)).2
    ([.begin 4] ++ [.txnInsert 0 kFoobar 5, .txnDelete 0 kFoobar] ++ trackedTxn 4 1 [.txnDelete 1 kFoobar])).2.chans[4]? = some true :=
  C36_partial wOps [.txnDelete 1 kFoobar] 4 1 [.txnInsert 0 kFoobar 5, .txnDelete 0 kFoobar] 0 kFoobar 4 3 (by decide +kernel) (by decide +kernel)
    (by decide +kernel) rfl (by decide +kernel) (.of_loose (by decide +kernel)) (by decide +kernel)

/-- The channel is open until the commit. -/
example : (execAll (exec (execAll World.init wOps).2 (.getWatch 4 kFoobar)).2 (wMid ++ [.begin 4, .trackMutate 1 true] ++ wBody)).2.chans[4]? = some false := by decide +kernel

end Art
