import Verif.Proofs.PoolRun
import Verif.Proofs.Session
import Verif.Proofs.Pair6
import Verif.Proofs.CloneRead
import Verif.Proofs.Snapshot
import Verif.Proofs.Firm
/-
Pools that start after a lawful history.
-/
set_option autoImplicit false
set_option linter.unusedVariables false
set_option linter.unusedSimpArgs false
set_option linter.unusedSectionVars false
namespace Art
variable {V : Type} [Inhabited V]

section
variable {ops : List (Op V)} (hl : Lawful World.init ops)
include hl

theorem session_lawful (g : Session V) :
    (g.code (execAll World.init ops).2.trees ((execAll World.init ops).2.st default)).1 ≠ .error .fuel ∧
    ∀ e ∈ (g.code (execAll World.init ops).2.trees).seen ((execAll World.init ops).2.st default), e.chan = false →
      (execAll World.init ops).2.heap.length ≤ e.addr := by
  unfold Session.code
  cases ht : (execAll World.init ops).2.trees[g.tree]? with
  | none => exact ⟨nofun, fun e he => nomatch he⟩
  | some t =>
    obtain ⟨S, O, hi, -, -⟩ := execAll_iso INV.init hl
    have hv : (execAll World.init ops).2.view (.inl g.tree) = some (t.root, t.maxNodeId) := by
      show ((execAll World.init ops).2.trees[g.tree]?).map _ = _
      rw [ht]; rfl
    obtain ⟨rk, hk⟩ := worldAfter_ranked ops
    exact session_alone (hi.region _ _ hv) hk _ _ _
end

theorem tree_heap {ops : List (Op V)} {i : Nat} (h : i < (execAll World.init ops).2.trees.length) : 0 < (execAll World.init ops).2.heap.length :=
  Nat.lt_of_le_of_lt (Nat.zero_le _) ((worldAfter_all ops).trees _ (List.getElem_mem h))

theorem orel_agree {lim : Lim} {o o' : Option (Cell V)} (h : ORel _root_.id o o') : o'.map (·.setCh none) = o.map (·.setCh none) := by
  cases h with
  | none => rfl
  | some hc =>
    cases hc with
    | leaf l k => rfl
    | inner n k => rw [Inner.ren_id]; rfl

/-! ### Teams -/

/-- A renaming of more nodes is one of the first of them. -/
theorem Renames.front {σ : Addr → Addr} {A B : List Addr} {N N' : Nat} (h : Renames (A ++ B) N' σ) (hN : N ≤ N') (hB : ∀ x ∈ B, N ≤ x) : Renames A N σ where
  inj := h.inj
  mine := fun j x hx => h.mine j x (by rw [List.getElem?_append_left (List.getElem?_eq_some_iff.1 hx).1]; exact hx)
  rest := fun a ha => by
    rcases h.cases a with h1 | ⟨-, h1⟩
    · rw [List.getElem?_append_right ha] at h1
      exact hB _ (List.mem_of_getElem? h1)
    · exact Nat.le_trans hN h1

theorem Pool.added_ge {α : Type} (P : Pool V α) (x : Event) (i : Nat) : ∀ y ∈ P.added x i, P.heap.length ≤ y := by
  unfold Pool.added
  intro y hy
  cases x with
  | step j =>
    dsimp only at hy
    split at hy
    · exact (List.mem_range'_1.1 hy).1
    · cases hy
  | look j a => cases hy
  | chan a k => cases hy

/-- Memory that holds the old nodes, after a renaming that leaves them alone. -/
theorem Ranked.hrel_old {lim : Lim} {rk : Rank} {h H : Heap V} (hr : Ranked rk h) (ho : ∀ a, a < h.length → ORel _root_.id h[a]? H[a]?) {σ : Addr → Addr}
    (hσ : ∀ a, a < h.length → σ a = a) (hn : ∀ a, h.length ≤ a → H.length ≤ σ a) : HRel σ h H := by
  intro a
  by_cases hlt : a < h.length
  · rw [hσ a hlt]
    have h1 := ho a hlt
    cases hc : h[a]? with
    | none => have := List.getElem?_eq_none_iff.1 hc; omega
    | some c =>
      rw [hc] at h1
      generalize H[a]? = o at h1
      cases h1 with
      | some hcc =>
        refine .some ?_
        have hp : ∀ b, c.Pts b → σ b = b := fun b hb => hσ b (hr a c b hc hb).1
        cases hcc with
        | leaf l k => exact .leaf l k
        | inner n k =>
          rw [Inner.ren_id]
          have := CRel.inner (V := V) (σ := σ) n k
          have h1 : n.leaf.map σ = n.leaf := by
            cases hl : n.leaf with
            | none => rfl
            | some b => exact congrArg some (hp b (.inl hl))
          have h2 : n.children.map (Option.map σ) = n.children := map_id_of fun o ho => by
            cases o with
            | none => rfl
            | some b => exact congrArg some (hp b (.inr ho))
          unfold Inner.ren at this
          rw [h1, h2] at this
          exact this
  · rw [List.getElem?_eq_none_iff.2 (Nat.le_of_not_lt hlt), List.getElem?_eq_none_iff.2 (hn a (Nat.le_of_not_lt hlt))]
    exact .none

theorem lineage_concat (ops : List (Op V)) (jobs : List (Job V)) (j : Job V) : lineage ops (jobs ++ [j]) =
    lineage ops jobs ++ [(match j.src.bind ((lineage ops jobs)[·]?) with | none => ops | some (h, g) => g.after h, j.work)] := by
  unfold lineage
  rw [List.foldl_append]
  rfl

theorem lineage_length (ops : List (Op V)) (jobs : List (Job V)) : (lineage ops jobs).length = jobs.length := by
  have key : ∀ (jobs : List (Job V)) (l : List (List (Op V) × Session V)),
      (jobs.foldl (fun l j => l ++ [(match j.src.bind (l[·]?) with | none => ops | some (h, g) => g.after h, j.work)]) l).length = l.length + jobs.length := by
    intro jobs
    induction jobs with
    | nil => intro l; rfl
    | cons j jobs ih =>
      intro l
      rw [List.foldl_cons, ih]
      simp only [List.length_append, List.length_cons, List.length_nil]
      omega
  exact (key jobs []).trans (Nat.zero_add _)

/-- The nodes that the turn adds for goroutine `i`. -/
def Team.adds (T : Team V) (x : Turn V) (i : Nat) : List Addr :=
  match x with
  | .act x => T.pool.added x i
  | .start .. => []

/-- The nodes that a schedule adds for goroutine `i`. -/
def Team.made (T : Team V) : List (Turn V) → Nat → List Addr
  | [], _ => []
  | x :: turns, i => T.adds x i ++ (T.turn x).made turns i

/-- The invariant of a team. The channels below `L0` are compared for the base version, those below the limit of `L i` for goroutine `i`. -/
structure WInv (L0 : Nat) (L : Nat → Lim) (ops : List (Op V)) (T : Team V) (n : Nat → Nat) (r : Nat → R (List (Out V) × Tree) × St V) (A : Nat → List Addr) : Prop where
  inv : PInv L0 L (heapAfter ops) n r SessRel T.pool A
  ends : ∀ i, (r i).1 ≠ .error .fuel
  trees : T.trees = (execAll World.init ops).2.trees
  len : T.pool.procs.length = T.jobs.length
  pre : ∀ i j, T.jobs[i]? = some j → ∀ a, a < (heapAfter ops).length → (A i)[a]? = some a
  late : ∀ i, T.jobs.length ≤ i → A i = []
  job : ∀ i j, T.jobs[i]? = some j → ∃ h, (lineage ops T.jobs)[i]? = some (h, j.work) ∧ Lawful World.init h ∧
    r i = j.work.code (execAll World.init h).2.trees ((execAll World.init h).2.st default) ∧
    ∀ σ, Renames (A i) T.pool.heap.length σ → j.known = (execAll World.init h).2.trees.map (Tree.ren σ)

/-- Nothing is compared. -/
@[instance_reducible] def lax : Lim := ⟨0, fun _ => True⟩

/-- The invariant that every team has. -/
abbrev TInv (ops : List (Op V)) (T : Team V) (n : Nat → Nat) (r : Nat → R (List (Out V) × Tree) × St V) (A : Nat → List Addr) : Prop :=
  WInv 0 (fun _ => lax) ops T n r A

/-- What a turn must not do to the channels that are compared. -/
def Team.Fair (L0 : Nat) (L : Nat → Lim) (ops : List (Op V)) (T : Team V) : Turn V → Prop
  | .act x => (L0 = 0 ∨ T.pool.Gentle x) ∧ (∀ i, (L i).limit = 0 ∨ T.pool.Gentle x ∨ x = .step i) ∧
      ∀ i p, (T.pool.act x).procs[i]? = some p → ∀ d ∈ p.txn.trackChnSlice, d < (L i).limit → (L i).mark d
  | .start src g => ∀ ts, T.known src = some ts → (L T.pool.procs.length).limit = 0 ∨ (src = none ∧ (L T.pool.procs.length).limit ≤ L0 ∧
      (L T.pool.procs.length).limit ≤ (execAll World.init ops).2.chans.length ∧
      ∀ d : ChanId, d < (L T.pool.procs.length).limit → (execAll World.init ops).2.chans[d]? = some true → (L T.pool.procs.length).mark d)

section
variable {L0 : Nat} {L : Nat → Lim} {ops : List (Op V)} {T : Team V} {n : Nat → Nat} {r : Nat → R (List (Out V) × Tree) × St V} {A : Nat → List Addr}

theorem Pool.act_len {α : Type} (P : Pool V α) (x : Event) : (P.act x).procs.length = P.procs.length := by
  cases x with
  | step i => unfold Pool.act; dsimp only; cases P.procs[i]? <;> simp
  | look i a => unfold Pool.act; dsimp only; cases P.procs[i]? <;> simp
  | chan a k => rfl

theorem Pool.added_late {α : Type} (P : Pool V α) (x : Event) {i : Nat} (hi : P.procs.length ≤ i) : P.added x i = [] := by
  unfold Pool.added
  cases x with
  | step j =>
    dsimp only
    split
    · rename_i e
      subst e
      have : P.act (.step j) = P := by simp only [Pool.act, List.getElem?_eq_none_iff.2 hi]
      rw [this]
      simp
    · rfl
  | look j a => rfl
  | chan a k => rfl

theorem WInv.act (h : WInv L0 L ops T n r A) (x : Event) (hF : T.Fair L0 L ops (.act x)) : WInv L0 L ops (T.turn (.act x)) n r (fun i => A i ++ T.pool.added x i) where
  inv := h.inv.act h.ends x hF.1 hF.2.1 hF.2.2
  ends := h.ends
  trees := h.trees
  len := (Pool.act_len _ _).trans h.len
  pre := fun i j hj a ha => by
    have h1 := h.pre i j hj a ha
    show (A i ++ T.pool.added x i)[a]? = _
    rw [List.getElem?_append_left (List.getElem?_eq_some_iff.1 h1).1]
    exact h1
  late := fun i hi => by
    show A i ++ T.pool.added x i = []
    rw [h.late i hi, T.pool.added_late x (h.len ▸ hi)]
    rfl
  job := fun i j hj => by
    obtain ⟨h', h1, h2, h3, h4⟩ := h.job i j hj
    refine ⟨h', h1, h2, h3, fun σ hσ => h4 σ (hσ.front ?_ (T.pool.added_ge x i))⟩
    have h5 := h.inv.good
    cases x with
    | step k =>
      show T.pool.heap.length ≤ (T.pool.act (.step k)).heap.length
      unfold Pool.act
      dsimp only
      cases hp : T.pool.procs[k]? with
      | none => exact Nat.le_refl _
      | some p =>
        obtain ⟨c, s, hq, hf⟩ := h.inv.good k p hp
        obtain ⟨A', c', s', hm, -⟩ := hf.own hq (h.ends k) (h.inv.nodup k) (h.inv.rng k) T.pool.chans (hF.2.2 k _ (by
          simp only [Pool.act, hp]
          rw [List.getElem?_set_self (List.getElem?_eq_some_iff.1 hp).1]))
        exact hm.len
    | look k a =>
      show T.pool.heap.length ≤ (T.pool.act (.look k a)).heap.length
      unfold Pool.act
      dsimp only
      cases hp : T.pool.procs[k]? <;> exact Nat.le_refl _
    | chan a k =>
      show T.pool.heap.length ≤ (setChan T.pool.heap a k).length
      rw [setChan_length]
      exact Nat.le_refl _

/-- One more goroutine, which continues the history `h'`. -/
theorem WInv.join (h : WInv L0 L ops T n r A) {src : Option Nat} {g : Session V} {F : List Addr} {ts : List Tree} {h' : List (Op V)}
    (hk : T.known src = some ts) (hl' : Lawful World.init h') (hn : F.Nodup) (hr : ∀ x ∈ F, x < T.pool.heap.length)
    (hpre : ∀ a, a < (heapAfter ops).length → F[a]? = some a) (h0 : 0 < (heapAfter ops).length)
    (hd : ∀ i q, T.pool.procs[i]? = some q → q.running → ∀ x ∈ (A i).drop (n i), x ∉ F)
    (hlen : F.length = (heapAfter h').length) (hle : (heapAfter h').length ≤ T.pool.heap.length)
    (hh : ∀ σ, Renames F T.pool.heap.length σ → @HRel V (L T.pool.procs.length) σ (heapAfter h') T.pool.heap)
    (hL : (L T.pool.procs.length).limit ≤ (execAll World.init h').2.chans.length)
    (hM : ∀ d : ChanId, d < (L T.pool.procs.length).limit → (execAll World.init h').2.chans[d]? = some true → (L T.pool.procs.length).mark d)
    (hts : ∀ σ, Renames F T.pool.heap.length σ → ts = (execAll World.init h').2.trees.map (Tree.ren σ))
    (hlin : (match src.bind ((lineage ops T.jobs)[·]?) with | none => ops | some (h, g) => g.after h) = h') :
    ∃ n' r' A', WInv L0 L ops (T.turn (.start src g)) n' r' A' ∧ ∀ i, (A' i).drop (n' i) = (A i).drop (n i) := by
  have he : T.turn (.start src g) = { T with
        pool := { T.pool with procs := T.pool.procs ++ [{ code := (g.code ts).code, txn := default, view := none }] }
        jobs := T.jobs ++ [{ src := src, known := ts, work := g }] } := by
    simp only [Team.turn, hk]
  have hs := session_lawful hl' g
  have hlj : ∀ i (j : Job V), i ≠ T.jobs.length → (T.jobs ++ [({ src := src, known := ts, work := g } : Job V)])[i]? = some j → T.jobs[i]? = some j := fun i q hi hq => by
    have : i < T.jobs.length := by
      have := (List.getElem?_eq_some_iff.1 hq).1
      simp only [List.length_append, List.length_cons, List.length_nil] at this
      omega
    rwa [List.getElem?_append_left this] at hq
  rw [he]
  refine ⟨_, _, _, ⟨h.inv.join (F := F) (p := { code := (g.code ts).code, txn := default, view := none })
    (y := g.code (execAll World.init h').2.trees ((execAll World.init h').2.st default)) hn hr hd ?_, ?_, h.trees, ?_, ?_, ?_, ?_⟩, fun i => ?_⟩
  · refine ⟨(g.code (execAll World.init h').2.trees).code, (execAll World.init h').2.st default, (M.runs _ _), fun w hw => ?_, hlen.symm, hle, fun v e => (nomatch e),
      fun σ hσ => ?_, hh, fun σ hσ => ?_, fun σ hσ v e => (nomatch e), ?_, ?_⟩
    · rw [hlen]
      exact hs.2 w (M.sees _ _ ▸ hw)
    · dsimp only
      rw [hts σ hσ]
      exact @Peer.session V σ (L T.pool.procs.length) _ hσ.inj _ g
    · have : σ 0 = 0 := hσ.mine 0 0 (hpre 0 h0)
      exact ⟨⟨[], nofun⟩, by
        show (default : TxnSt) = { (default : TxnSt) with root := σ 0, trackChnSlice := [] }
        rw [this]; rfl⟩
    · exact (@Firms.session V (L T.pool.procs.length) _ _ g).firm _ hL
    · exact fun d hd hb => hb.elim (fun e => nomatch e) (hM d hd)
  · intro i
    by_cases e : i = T.pool.procs.length
    · subst e; rw [setAt_self]; exact hs.1
    · rw [setAt_ne _ _ e]; exact h.ends i
  · simp [h.len]
  · intro i j hj
    by_cases e : i = T.jobs.length
    · subst e; rw [h.len, setAt_self]; exact hpre
    · rw [h.len, setAt_ne _ _ e]; exact h.pre i j (hlj i j e hj)
  · intro i hi
    simp only [List.length_append, List.length_cons, List.length_nil] at hi
    rw [h.len, setAt_ne _ _ (by omega)]
    exact h.late i (by omega)
  · intro i j hj
    show ∃ h'', (lineage ops (T.jobs ++ [{ src := src, known := ts, work := g }]))[i]? = _ ∧ _
    rw [lineage_concat]
    by_cases e : i = T.jobs.length
    · subst e
      rw [List.getElem?_concat_length] at hj
      cases hj
      refine ⟨h', ?_, hl', ?_, ?_⟩
      · rw [← lineage_length ops T.jobs, List.getElem?_concat_length]
        dsimp only
        rw [hlin]
      · rw [h.len, setAt_self]
      · rw [h.len, setAt_self]; exact hts
    · have hj := hlj i j e hj
      obtain ⟨h'', h1, h2, h3, h4⟩ := h.job i j hj
      refine ⟨h'', ?_, h2, ?_, ?_⟩
      · rw [List.getElem?_append_left (List.getElem?_eq_some_iff.1 h1).1]; exact h1
      · rw [h.len, setAt_ne _ _ e]; exact h3
      · rw [h.len, setAt_ne _ _ e]; exact h4
  · by_cases e : i = T.jobs.length
    · subst e
      rw [h.len, setAt_self, setAt_self, h.late _ (Nat.le_refl _), List.drop_length, List.drop_nil]
    · rw [h.len, setAt_ne _ _ e, setAt_ne _ _ e]

theorem aloneAfter_eq (ops : List (Op V)) (g : Session V) : (aloneAfter ops g).2 = (execAll World.init (g.after ops)).2 := by
  unfold aloneAfter Session.after
  rw [execAll_append]

theorem WInv.start (h : WInv L0 L ops T n r A) (hl : Lawful World.init ops) (h0 : 0 < (heapAfter ops).length) (src : Option Nat) (g : Session V)
    (hF : T.Fair L0 L ops (.start src g)) :
    ∃ n' r' A', WInv L0 L ops (T.turn (.start src g)) n' r' A' ∧ ∀ i, (A' i).drop (n' i) = (A i).drop (n i) := by
  cases hk : T.known src with
  | none => exact ⟨n, r, A, by simp only [Team.turn, hk]; exact h, fun _ => rfl⟩
  | some ts =>
    cases src with
    | none =>
      cases hk
      obtain ⟨rk, hrk⟩ := worldAfter_ranked ops
      have hid : ∀ σ, Renames (List.range (heapAfter ops).length) T.pool.heap.length σ → ∀ a, a < (heapAfter ops).length → σ a = a := fun σ hσ a ha =>
        hσ.mine a a (by rw [List.getElem?_range ha])
      refine h.join (F := List.range (heapAfter ops).length) (h' := ops) rfl hl List.nodup_range (fun x hx => ?_) (fun a ha => List.getElem?_range ha) h0
        (fun i q hq hqr x hx hx' => ?_) List.length_range h.inv.base (fun σ hσ => ?_) ?_ ?_ (fun σ hσ => ?_) rfl
      · exact Nat.lt_of_lt_of_le (List.mem_range.1 hx) h.inv.base
      · have := h.inv.keep i x hx
        have := List.mem_range.1 hx'
        omega
      · have h1 := hrk.hrel_old h.inv.old (hid σ hσ) (fun a ha => hσ.rest a (by rw [List.length_range]; exact ha))
        exact h1.weaken (by
          rcases hF _ rfl with h2 | ⟨-, h2, -⟩
          · exact h2 ▸ Nat.zero_le _
          · exact h2)
      · rcases hF _ rfl with h2 | ⟨-, -, h2, -⟩
        · exact h2 ▸ Nat.zero_le _
        · exact h2
      · rcases hF _ rfl with h2 | ⟨-, -, -, h2⟩
        · exact fun d hd => by rw [h2] at hd; exact absurd hd (Nat.not_lt_zero _)
        · exact h2
      · rw [h.trees]
        refine (map_id_of fun t ht => ?_).symm
        unfold Tree.ren
        rw [hid σ hσ _ ((worldAfter_all ops).trees t ht)]
    | some i =>
      unfold Team.known at hk
      dsimp only at hk
      cases hj : T.jobs[i]? with
      | none => rw [hj] at hk; cases hk
      | some j =>
        rw [hj] at hk
        cases hx : T.pool.result i with
        | none => rw [hx] at hk; cases hk
        | some x =>
          rw [hx] at hk
          match x, hx, hk with
          | .error e, _, hk => cases hk
          | .ok (os, t), hx, hk =>
            cases hk
            obtain ⟨h', h1, h2, h3, h4⟩ := h.job i j hj
            obtain ⟨f1, f2, f3, -⟩ := h.inv.finished hx
            have hne := h.ends i
            obtain ⟨σ0, hσ0⟩ := h.inv.renames i
            -- how it ended alone
            obtain ⟨os', t', s', hy⟩ : ∃ os' t' s', r i = (.ok (os', t'), s') := by
              have h5 := (f3 σ0 hσ0).2
              generalize r i = y at h5 hne
              obtain ⟨y, s'⟩ := y
              cases h5 with
              | fuel _ => exact absurd rfl hne
              | ok _ => exact ⟨_, _, _, rfl⟩
            have hlw := session_ops_lawful (execAll World.init h').2 j.work (h3 ▸ hy)
            have htr : j.work.tree < (execAll World.init h').2.trees.length := by
              have e := h3 ▸ hy
              unfold Session.code at e
              cases ht : (execAll World.init h').2.trees[j.work.tree]? with
              | none => rw [ht] at e; cases e
              | some t => exact (List.getElem?_eq_some_iff.1 ht).1
            have hs := exec_session (execAll World.init h').2 j.work htr
            rw [← h3, hy] at hs
            obtain ⟨os2, -, -, -, g4, g5, -⟩ := hs
            have e4 : (execAll World.init (j.work.after h')).2.trees = (execAll World.init h').2.trees ++ [t'] := by
              rw [← aloneAfter_eq]; exact g4
            have e5 : heapAfter (j.work.after h') = (r i).2.heap := by
              show (execAll World.init (j.work.after h')).2.heap = _
              rw [← aloneAfter_eq, hy]; exact g5
            have hnr : ∀ q, T.pool.procs[i]? = some q → ¬ q.running := fun q hq hqr => by
              unfold Pool.result at hx
              rw [hq] at hx
              obtain ⟨code, txn, view⟩ := q
              cases code with
              | done y => exact hqr y rfl
              | _ => cases hx
            have hz : (L T.pool.procs.length).limit = 0 := by
              rcases hF (j.known ++ [t]) (by unfold Team.known; dsimp only; rw [hj, hx]) with h2 | ⟨h2, -⟩
              · exact h2
              · cases h2
            refine h.join (F := A i) (ts := j.known ++ [t]) (h' := j.work.after h') ?_ (lawful_append h2 hlw) (h.inv.nodup i) (h.inv.rng i) (h.pre i j hj) h0
              (fun k q hq hqr => ?_) (by rw [e5, f1]) (by rw [e5]; exact f2) (fun σ hσ => by rw [e5]; exact (f3 σ hσ).1.weaken (hz ▸ Nat.zero_le _)) (hz ▸ Nat.zero_le _)
              (fun d hd => by rw [hz] at hd; exact absurd hd (Nat.not_lt_zero _)) (fun σ hσ => ?_) ?_
            · unfold Team.known
              dsimp only
              rw [hj, hx]
            · have hki : k ≠ i := fun e => hnr q (e ▸ hq) hqr
              exact h.inv.disj k q hq hqr i hki
            · rw [e4, List.map_append, ← h4 σ hσ]
              have h5 := (f3 σ hσ).2
              rw [hy] at h5
              cases h5 with
              | ok h6 =>
                have : (os, t) = (os', t'.ren σ) := h6
                cases this
                rfl
            · show (match (lineage ops T.jobs)[i]? with | none => ops | some (h, g) => g.after h) = _
              rw [h1]

theorem WInv.turn (h : WInv L0 L ops T n r A) (hl : Lawful World.init ops) (h0 : 0 < (heapAfter ops).length) (x : Turn V) (hF : T.Fair L0 L ops x) :
    ∃ n' r' A', WInv L0 L ops (T.turn x) n' r' A' ∧ ∀ i, (A' i).drop (n' i) = (A i).drop (n i) ++ T.adds x i := by
  cases x with
  | act x => exact ⟨_, _, _, h.act x hF, fun i => List.drop_append_of_le_length (h.inv.nle i)⟩
  | start src g =>
    obtain ⟨n', r', A', h', e⟩ := h.start hl h0 src g hF
    exact ⟨n', r', A', h', fun i => by rw [e]; exact (List.append_nil _).symm⟩

theorem lax_fair (T : Team V) (x : Turn V) : T.Fair 0 (fun _ => lax) ops x := by
  cases x with
  | act x => exact ⟨.inl rfl, fun _ => .inl rfl, fun _ _ _ _ _ _ => trivial⟩
  | start src g => exact fun _ _ => .inl rfl

theorem TInv.run (h : TInv ops T n r A) (hl : Lawful World.init ops) (h0 : 0 < (heapAfter ops).length) (turns : List (Turn V)) :
    ∃ n' r' A', TInv ops (T.run turns) n' r' A' ∧ ∀ i, (A' i).drop (n' i) = (A i).drop (n i) ++ T.made turns i := by
  induction turns generalizing T n r A with
  | nil => exact ⟨n, r, A, h, fun i => (List.append_nil _).symm⟩
  | cons x turns ih =>
    obtain ⟨n', r', A', h', e⟩ := h.turn hl h0 x (lax_fair T x)
    obtain ⟨n2, r2, A2, h2, e2⟩ := ih h'
    exact ⟨n2, r2, A2, h2, fun i => by rw [e2, e, List.append_assoc]; rfl⟩

end

theorem WInv.init (L0 : Nat) (L : Nat → Lim) (ops : List (Op V)) : WInv L0 L ops (execAll World.init ops).2.team (fun _ => 0) (fun _ => (.error .nilDeref, (execAll World.init ops).2.st default)) (fun _ => []) where
  inv := PInv.init _ _ _ _ _ _
  ends := fun _ => nofun
  trees := rfl
  len := rfl
  pre := fun i j hj => nomatch hj
  late := fun _ _ => rfl
  job := fun i j hj => nomatch hj

theorem team_inv {ops : List (Op V)} (hl : Lawful World.init ops) (h0 : 0 < (heapAfter ops).length) (turns : List (Turn V)) :
    ∃ n r A, TInv ops (teamAfter ops turns) n r A ∧ ∀ i, (A i).drop (n i) = (execAll World.init ops).2.team.made turns i :=
  TInv.run (WInv.init 0 (fun _ => lax) ops) hl h0 turns

/-! ### Goroutines finish -/

section
variable {α : Type}

/-- What others do does not change what is left to do for goroutine `i`. -/
theorem Pool.act_other (P : Pool V α) {i : Nat} {p : Proc V α} (hp : P.procs[i]? = some p) (x : Event) (hx : x ≠ .step i) :
    ∃ q, (P.act x).procs[i]? = some q ∧ q.code = p.code ∧ q.view.isSome = p.view.isSome := by
  cases x with
  | step j =>
    have hj : j ≠ i := fun e => hx (by rw [e])
    unfold Pool.act
    dsimp only
    cases P.procs[j]? with
    | none => exact ⟨p, hp, rfl, rfl⟩
    | some q => exact ⟨p, by dsimp only; rw [List.getElem?_set_ne hj]; exact hp, rfl, rfl⟩
  | look j a =>
    unfold Pool.act
    dsimp only
    cases hq : P.procs[j]? with
    | none => exact ⟨p, hp, rfl, rfl⟩
    | some q =>
      by_cases hj : j = i
      · subst hj
        rw [hp] at hq
        cases hq
        refine ⟨_, List.getElem?_set_self (List.getElem?_eq_some_iff.1 hp).1, ?_, ?_⟩
        · unfold Proc.look; split <;> rfl
        · unfold Proc.look
          split
          · rename_i e _; rw [e]; rfl
          · rfl
      · exact ⟨p, by dsimp only; rw [List.getElem?_set_ne hj]; exact hp, rfl, rfl⟩
  | chan a k => exact ⟨p, hp, rfl, rfl⟩

/-- The goroutine `i` from one pool to the next: it takes a step, or nothing happens to it. -/
def Pool.Goes (P P' : Pool V α) (i : Nat) : Prop := ∀ p, P.procs[i]? = some p →
  P'.procs[i]? = some (p.step P.heap P.chans).2.2 ∨ ∃ q, P'.procs[i]? = some q ∧ q.code = p.code ∧ q.view.isSome = p.view.isSome

/-- It takes a step. -/
def Pool.Steps (P P' : Pool V α) (i : Nat) : Prop := ∀ p, P.procs[i]? = some p → P'.procs[i]? = some (p.step P.heap P.chans).2.2

theorem Pool.act_steps (P : Pool V α) (i : Nat) : P.Steps (P.act (.step i)) i := fun p hp => by
  unfold Pool.act
  dsimp only
  rw [hp]
  exact List.getElem?_set_self (List.getElem?_eq_some_iff.1 hp).1

theorem Pool.act_goes (P : Pool V α) (x : Event) (i : Nat) : P.Goes (P.act x) i := fun p hp => by
  by_cases e : x = .step i
  · subst e; exact .inl (P.act_steps i p hp)
  · exact .inr (P.act_other hp x e)

section
variable {Ps : Nat → Pool V α} {i : Nat} (hs : ∀ n, (Ps n).Goes (Ps (n + 1)) i) (hf : ∀ n, ∃ m, n ≤ m ∧ (Ps m).Steps (Ps (m + 1)) i)
include hs hf

theorem pools_step {n : Nat} {p : Proc V α} (hp : (Ps n).procs[i]? = some p) :
    ∃ m q, (Ps m).procs[i]? = some q ∧ q.code = p.code ∧ q.view.isSome = p.view.isSome ∧
      (Ps (m + 1)).procs[i]? = some (q.step (Ps m).heap (Ps m).chans).2.2 := by
  obtain ⟨m0, h1, h2⟩ := hf n
  obtain ⟨d, rfl⟩ : ∃ d, m0 = n + d := ⟨m0 - n, by omega⟩
  clear h1
  induction d generalizing n p with
  | zero => exact ⟨n, p, hp, rfl, rfl, h2 p hp⟩
  | succ d ih =>
    rcases hs n p hp with e | ⟨q, hq, h3, h4⟩
    · exact ⟨n, p, hp, rfl, rfl, e⟩
    · obtain ⟨m, q', h5, h6, h7, h8⟩ := ih hq (by rw [show n + 1 + d = n + (d + 1) by omega]; exact h2)
      exact ⟨m, q', h5, h6.trans h3, h7.trans h4, h8⟩

/-- A goroutine that gets to take steps again and again returns, or comes to close a closed channel. -/
theorem pools_end (c : Code V α) : ∀ (n : Nat) (p : Proc V α), (Ps n).procs[i]? = some p → p.code = c →
    ∃ m, (∃ r, (Ps m).result i = some r) ∨ (Ps m).Crash i := by
  induction c with
  | done r =>
    intro n p hp hc
    refine ⟨n, .inl ⟨r, ?_⟩⟩
    unfold Pool.result
    rw [hp]
    obtain ⟨c, t, v⟩ := p
    dsimp only at hc
    rw [hc]
  | look k ih =>
    have key : ∀ (n : Nat) (p : Proc V α), (Ps n).procs[i]? = some p → p.code = .look k → p.view.isSome →
        ∃ m, (∃ r, (Ps m).result i = some r) ∨ (Ps m).Crash i := by
      intro n p hp hc hv
      obtain ⟨m, ⟨c, t, v⟩, h1, h2, h3, h4⟩ := pools_step hs hf hp
      dsimp only at h2 h3
      rw [hc] at h2
      rw [hv] at h3
      subst h2
      cases v with
      | none => cases h3
      | some v => exact ih _ _ _ h4 rfl
    intro n p hp hc
    cases hv : p.view.isSome with
    | true => exact key n p hp hc hv
    | false =>
      obtain ⟨m, ⟨c, t, v⟩, h1, h2, h3, h4⟩ := pools_step hs hf hp
      dsimp only at h2 h3
      rw [hc] at h2
      rw [hv] at h3
      subst h2
      cases v with
      | some v => cases h3
      | none => exact key _ _ h4 rfl rfl
  | read a k ih =>
    intro n p hp hc
    obtain ⟨m, ⟨c, t, v⟩, h1, h2, h3, h4⟩ := pools_step hs hf hp
    dsimp only at h2
    rw [hc] at h2
    subst h2
    exact ih _ _ _ h4 rfl
  | write a c k ih =>
    intro n p hp hc
    obtain ⟨m, ⟨c, t, v⟩, h1, h2, h3, h4⟩ := pools_step hs hf hp
    dsimp only at h2
    rw [hc] at h2
    subst h2
    exact ih _ _ h4 rfl
  | store a c k ih =>
    intro n p hp hc
    obtain ⟨m, ⟨c, t, v⟩, h1, h2, h3, h4⟩ := pools_step hs hf hp
    dsimp only at h2
    rw [hc] at h2
    subst h2
    exact ih _ _ h4 rfl
  | alloc c k ih =>
    intro n p hp hc
    obtain ⟨m, ⟨c, t, v⟩, h1, h2, h3, h4⟩ := pools_step hs hf hp
    dsimp only at h2
    rw [hc] at h2
    subst h2
    exact ih _ _ _ h4 rfl
  | make k ih =>
    intro n p hp hc
    obtain ⟨m, ⟨c, t, v⟩, h1, h2, h3, h4⟩ := pools_step hs hf hp
    dsimp only at h2
    rw [hc] at h2
    subst h2
    exact ih _ _ _ h4 rfl
  | own g k ih =>
    intro n p hp hc
    obtain ⟨m, ⟨c, t, v⟩, h1, h2, h3, h4⟩ := pools_step hs hf hp
    dsimp only at h2
    rw [hc] at h2
    subst h2
    exact ih _ _ _ h4 rfl
  | load a ch k ih =>
    intro n p hp hc
    obtain ⟨m, ⟨c, t, v⟩, h1, h2, h3, h4⟩ := pools_step hs hf hp
    dsimp only at h2
    rw [hc] at h2
    subst h2
    exact ih _ _ _ h4 rfl
  | claim a ch k ih =>
    intro n p hp hc
    obtain ⟨m, ⟨c, t, v⟩, h1, h2, h3, h4⟩ := pools_step hs hf hp
    dsimp only at h2
    rw [hc] at h2
    subst h2
    dsimp only [Proc.step] at h4
    cases hx : chanOf (Ps m).heap a with
    | none => rw [hx] at h4; exact ih _ _ _ h4 rfl
    | some y =>
      rw [hx] at h4
      obtain ⟨m', ⟨c', t', v'⟩, k1, k2, k3, k4⟩ := pools_step hs hf h4
      dsimp only at k2
      subst k2
      exact ih _ _ _ k4 rfl
  | test c k ih =>
    intro n p hp hc
    obtain ⟨m, ⟨c, t, v⟩, h1, h2, h3, h4⟩ := pools_step hs hf hp
    dsimp only at h2
    rw [hc] at h2
    subst h2
    exact ih _ _ _ h4 rfl
  | shut c k ih =>
    intro n p hp hc
    obtain ⟨m, ⟨c, t, v⟩, h1, h2, h3, h4⟩ := pools_step hs hf hp
    dsimp only at h2
    rw [hc] at h2
    subst h2
    cases hb : (Ps m).chans[c]? == some true with
    | true => exact ⟨m, .inr ⟨_, h1, beq_iff_eq.1 hb⟩⟩
    | false =>
      dsimp only [Proc.step] at h4
      rw [hb] at h4
      exact ih _ _ h4 rfl

end

/-- The pool after the first `n` actions of an infinite schedule. -/
def Pool.upto (P : Pool V α) (f : Nat → Event) (n : Nat) : Pool V α := P.run ((List.range n).map f)

theorem Pool.upto_succ (P : Pool V α) (f : Nat → Event) (n : Nat) : P.upto f (n + 1) = (P.upto f n).act (f n) := by
  unfold Pool.upto Pool.run
  rw [List.range_succ, List.map_append, List.foldl_append]
  rfl

theorem Pool.ends (P : Pool V α) (f : Nat → Event) {i : Nat} (hf : ∀ n, ∃ m, n ≤ m ∧ f m = .step i) (n : Nat) {p : Proc V α}
    (hp : (P.upto f n).procs[i]? = some p) : ∃ m, (∃ r, (P.upto f m).result i = some r) ∨ (P.upto f m).Crash i :=
  pools_end (Ps := P.upto f) (fun n => by rw [P.upto_succ]; exact Pool.act_goes _ _ _)
    (fun n => by
      obtain ⟨m, h1, h2⟩ := hf n
      exact ⟨m, h1, by rw [P.upto_succ, h2]; exact Pool.act_steps _ _⟩) _ n p hp rfl
end

/-- The team after the first `n` turns of an infinite schedule. -/
def Team.upto (T : Team V) (f : Nat → Turn V) (n : Nat) : Team V := T.run ((List.range n).map f)

theorem Team.upto_succ (T : Team V) (f : Nat → Turn V) (n : Nat) : T.upto f (n + 1) = (T.upto f n).turn (f n) := by
  unfold Team.upto Team.run
  rw [List.range_succ, List.map_append, List.foldl_append]
  rfl

theorem Team.turn_goes (T : Team V) (x : Turn V) (i : Nat) : T.pool.Goes (T.turn x).pool i := by
  cases x with
  | act x => exact Pool.act_goes _ _ _
  | start src g =>
    intro p hp
    refine .inr ⟨p, ?_, rfl, rfl⟩
    unfold Team.turn
    dsimp only
    cases T.known src with
    | none => exact hp
    | some ts => exact (List.getElem?_append_left (List.getElem?_eq_some_iff.1 hp).1).trans hp

theorem Team.ends (T : Team V) (f : Nat → Turn V) {i : Nat} (hf : ∀ n, ∃ m, n ≤ m ∧ f m = .act (.step i)) (n : Nat) {p : Proc V (List (Out V) × Tree)}
    (hp : (T.upto f n).pool.procs[i]? = some p) : ∃ m, (∃ r, (T.upto f m).pool.result i = some r) ∨ (T.upto f m).pool.Crash i :=
  pools_end (Ps := fun n => (T.upto f n).pool) (fun n => by rw [T.upto_succ]; exact Team.turn_goes _ _ _)
    (fun n => by
      obtain ⟨m, h1, h2⟩ := hf n
      exact ⟨m, h1, by rw [T.upto_succ, h2]; exact Pool.act_steps _ _⟩) _ n p hp rfl

/-! ### A pool is a team in which everybody starts at the beginning -/

theorem team_starts (w : World V) (gs : List (Session V)) : w.team.run (gs.map (.start none)) =
    { pool := w.pool gs, trees := w.trees, jobs := gs.map fun g => { src := none, known := w.trees, work := g } } := by
  have key : ∀ (gs : List (Session V)) (T : Team V), T.run (gs.map (.start none)) =
      { T with
        pool := { T.pool with procs := T.pool.procs ++ gs.map fun g => { code := (g.code T.trees).code, txn := default, view := none } },
        jobs := T.jobs ++ gs.map fun g => { src := none, known := T.trees, work := g } } := by
    intro gs
    induction gs with
    | nil => intro T; simp [Team.run]
    | cons g gs ih =>
      intro T
      show (T.turn (.start none g)).run (gs.map (.start none)) = _
      rw [ih]
      simp [Team.turn, Team.known]
  rw [key]
  simp [World.team, World.pool]

theorem team_acts (T : Team V) (acts : List Event) : T.run (acts.map .act) = { T with pool := T.pool.run acts } := by
  induction acts generalizing T with
  | nil => rfl
  | cons x acts ih => exact ih (T.turn (.act x))

theorem poolAfter_team (ops : List (Op V)) (gs : List (Session V)) (acts : List Event) :
    teamAfter ops (gs.map (.start none) ++ acts.map .act) = {
      pool := poolAfter ops gs acts, trees := (execAll World.init ops).2.trees,
      jobs := gs.map fun g => { src := none, known := (execAll World.init ops).2.trees, work := g } } := by
  unfold teamAfter Team.run
  rw [List.foldl_append]
  show Team.run (Team.run _ _) _ = _
  rw [team_starts, team_acts]
  rfl

theorem team_made (w : World V) (gs : List (Session V)) (acts : List Event) (i : Nat) :
    w.team.made (gs.map (.start none) ++ acts.map .act) i = (w.pool gs).made acts i := by
  have k1 : ∀ (acts : List Event) (T : Team V), T.made (acts.map .act) i = T.pool.made acts i := by
    intro acts
    induction acts with
    | nil => intro T; rfl
    | cons x acts ih => intro T; exact congrArg (T.pool.added x i ++ ·) (ih _)
  have k2 : ∀ (gs : List (Session V)) (T : Team V), T.made (gs.map (.start none) ++ acts.map .act) i = (T.run (gs.map (.start none))).made (acts.map .act) i := by
    intro gs
    induction gs with
    | nil => intro T; rfl
    | cons g gs ih => intro T; exact ih _
  rw [k2, k1, team_starts]

theorem lineage_flat (ops : List (Op V)) (ts : List Tree) (gs : List (Session V)) :
    lineage ops (gs.map fun g => { src := none, known := ts, work := g }) = gs.map fun g => (ops, g) := by
  have key : ∀ (gs : List (Session V)) (l : List (List (Op V) × Session V)),
      (gs.map fun g => ({ src := none, known := ts, work := g } : Job V)).foldl (fun l j => l ++ [(match j.src.bind (l[·]?) with | none => ops | some (h, g) => g.after h, j.work)]) l =
        l ++ gs.map fun g => (ops, g) := by
    intro gs
    induction gs with
    | nil => intro l; simp
    | cons g gs ih =>
      intro l
      rw [List.map_cons, List.foldl_cons, ih]
      simp
  exact key gs []

end Art
