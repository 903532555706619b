import Verif.Proofs.RevBound
import Verif.Proofs.PruneTxn
/-
`recursiveDelete` of an absent key whose search stops inside a compressed prefix: nothing is written.
-/
set_option autoImplicit false
set_option linter.unusedVariables false
set_option linter.unusedSimpArgs false
set_option linter.unusedSectionVars false
namespace Art
variable {V : Type} [Removals] {s : St V} {h : Heap V} {E : List (Ent V)} {N : List (Key × Addr)} {K p P Q pfx : Key} {b b' : Byte} {a : Addr} {m : Map V} {k : Key}

/-- Where the search of `K` stops, on the level of entries: `P` are the bytes shared with the stored keys, `Q` ends with the
last byte before which the stored keys branch. -/
structure Halt (K P : Key) (b b' : Byte) (p : Key) (E : List (Ent V)) : Prop where
  ne : b ≠ b'
  key : P ++ [b] <+: K
  on : p <+: P
  all : ∀ e ∈ E, P <+: e.1 → P ++ [b'] <+: e.1
  two : ∃ e1 ∈ E, ∃ e2 ∈ E, e1.1 ≠ e2.1 ∧ P <+: e1.1 ∧ P <+: e2.1
  near : P.length < p.length + 10 ∨ ∃ R c c' e, p <+: R ∧ R ++ [c] <+: P ∧ P.length ≤ R.length + 10 ∧ e ∈ E ∧ c ≠ c' ∧ R ++ [c'] <+: e.1

theorem Rep.halt (hno : ¬ Removals.allowed) (hr : Rep s.heap p a E N) : ∀ fuel, Halt K P b b' p E → K.length < fuel + p.length →
    (recursiveDelete fuel a K p.length : M V DelRes) s = (.ok { node := some a, leaf := none, mutate := false }, s) := by
  induction hr with
  | @leaf p a n y lc ha hL hpart hw hleaf hl hp hd =>
    intro fuel hs hf
    obtain ⟨e1, h1, e2, h2, hne, -⟩ := hs.two
    rw [List.mem_singleton.1 h1, List.mem_singleton.1 h2] at hne
    exact absurd rfl hne
  | @node p a n pfx es st vals f g ha hL hne hh hst hown hnd htw hch ih =>
    intro fuel hs hf
    have hi : IsNode s.heap p a n pfx es st vals f g := ⟨ha, hL, hne, hh, hst, hown, hnd, htw, hch⟩
    obtain ⟨e1, he1, e2, he2, hne12, hP1, hP2⟩ := hs.two
    have hKl := hs.key.length_le
    have hpl := hs.on.length_le
    rw [List.length_append] at hKl
    obtain ⟨fuel, rfl⟩ : ∃ k, fuel = k + 1 := ⟨fuel - 1, by omega⟩
    have hPK : P <+: K := (List.prefix_append _ _).trans hs.key
    have hpre : ∀ e ∈ vals ++ es.flatMap (fun e => f e.1), p ++ pfx <+: e.1 := fun e he => by
      rcases node_keys hown hch he with ⟨hk, -⟩ | ⟨b, c, hb, -, hk⟩
      · rw [hk]; exact List.prefix_append _ _
      · exact (List.prefix_append _ _).trans hk
    have hvK : ∀ e ∈ vals, e.1 ≠ K := fun e he hk => by
      have h1 := hs.all e (List.mem_append_left _ he) (by rw [hk]; exact hPK)
      rw [hk] at h1
      exact hs.ne (prefix_edge hs.key h1)
    have goal : Runs (recursiveDelete (fuel + 1) a K p.length : M V DelRes) s fun r s' => r = { node := some a, leaf := none, mutate := false } ∧ s' = s := by
      unfold recursiveDelete
      refine Runs.bind (Runs.cell ha ?_)
      simp only [Cell.isLeaf, hL.not_leaf hne, Bool.false_eq_true, if_false, false_and]
      refine Runs.bind (trackNone_runs ?_)
      refine Runs.bind (Runs.mono (leafHit_none hi hvK) ?_)
      rintro x t ⟨rfl, ht'⟩
      rw [ht']; clear ht' t
      simp only
      obtain ⟨bail, hbail, hbi⟩ := prefixBails_eq (V := V) hh K p.length
      refine Runs.bind (Runs.lift hbail ?_)
      rcases Nat.lt_or_ge P.length (p ++ pfx).length with hlt | hge
      · -- the prefix differs from the key
        have hPp : P ++ [b'] <+: p ++ pfx := by
          have h1 := hs.all e1 he1 hP1
          exact List.prefix_of_prefix_length_le h1 (hpre e1 he1) (by rw [List.length_append]; exact hlt)
        have hb1 : bail = true := by
          cases bail with
          | true => rfl
          | false =>
            exfalso
            obtain ⟨T, rfl⟩ := hs.on
            have hT : T.length < 10 := by
              rcases hs.near with h10 | ⟨R, c, c', e, h1, h2, h3, h4, h5, h6⟩
              · rw [List.length_append] at h10; omega
              · have h7 : R ++ [c'] <+: e.1 := h6
                have h8 : R ++ [c] <+: e.1 := h2.trans ((List.prefix_append _ _).trans (hPp.trans (hpre e h4)))
                exact absurd (prefix_edge h8 h7) h5
            have hT2 : T ++ [b'] <+: pfx := by
              rw [List.append_assoc] at hPp
              exact (List.prefix_append_right_inj p).1 hPp
            have hT3 : T ++ [b] <+: K.drop p.length := by
              obtain ⟨tl, ht⟩ := hs.key
              rw [← ht, List.append_assoc, List.append_assoc, List.drop_left]
              exact ⟨tl, by simp⟩
            have h9 := hbi.1 rfl T.length (by have := hT2.length_le; rw [List.length_append] at this; simp at this; omega)
            rw [prefix_byte hT2, prefix_byte hT3] at h9
            exact hs.ne (by injection h9 with h9; exact h9.symm)
        rw [hb1, if_pos rfl]
        exact Runs.pure ⟨rfl, rfl⟩
      · have hpP : p ++ pfx <+: P := List.prefix_of_prefix_length_le (hpre e1 he1) hP1 hge
        have hb0 : bail = false := hbi.2 fun t ht => by
          obtain ⟨tl, rfl⟩ := hpP.trans hPK
          rw [List.append_assoc, List.drop_left, List.getElem?_append_left (by omega)]
        subst hb0
        simp only [Bool.false_eq_true, if_false, Cell.partialLen, hh.len]
        rcases Nat.lt_or_ge (p ++ pfx).length P.length with hlt | hge'
        · -- further down
          obtain ⟨T, rfl⟩ := hpP
          obtain ⟨d, T, rfl⟩ : ∃ d T', T = d :: T' := by
            cases T with
            | nil => simp at hlt
            | cons d T' => exact ⟨d, T', rfl⟩
          have hd : p ++ pfx ++ [d] <+: p ++ pfx ++ d :: T := ⟨T, by simp⟩
          have kid : ∀ e ∈ vals ++ es.flatMap (fun e => f e.1), p ++ pfx ++ d :: T <+: e.1 → ∃ c, (d, c) ∈ es ∧ e ∈ f d := fun e he hpe => by
            rcases node_keys hown hch he with ⟨hk, hv⟩ | ⟨b2, c, hb, hf', hk⟩
            · exfalso
              rw [hk] at hpe
              have h1 : T = [] := by
                have := hpe.length_le
                simp only [List.length_append, List.length_cons, List.length_nil] at this
                exact List.eq_nil_of_length_eq_zero (by omega)
              subst h1
              have h2 := hs.all e he (by rw [hk]; exact hpe)
              have := h2.length_le
              rw [hk] at this
              simp only [List.length_append, List.length_cons, List.length_nil] at this
              omega
            · have := prefix_edge hk (hd.trans hpe)
              subst this
              exact ⟨c, hb, hf'⟩
          obtain ⟨c, hb, hf1⟩ := kid e1 he1 hP1
          obtain ⟨c2, -, hf2⟩ := kid e2 he2 hP2
          have hdK : p ++ pfx ++ [d] <+: K := hd.trans hPK
          have hby := prefix_byte hdK
          rw [List.length_append] at hby
          refine Runs.bind (Runs.lift (byteAt_eq hby) ?_)
          obtain ⟨l, r, rfl⟩ := Edges.mem_split hb
          obtain ⟨i, hfc, hslot⟩ := hL.find
          refine Runs.bind (Runs.lift hfc ?_)
          simp only
          have hlen : (p ++ pfx ++ [d]).length = p.length + pfx.length + 1 := by simp only [List.length_append, List.length_cons, List.length_nil]
          have hsub : ∀ e ∈ f d, e ∈ vals ++ (l ++ (d, c) :: r).flatMap fun e => f e.1 := fun e he => List.mem_append_right _ (List.mem_flatMap.2 ⟨_, hb, he⟩)
          have hI := ih d c hb fuel ⟨hs.ne, hs.key, hd, fun e he => hs.all e (hsub e he), ⟨e1, hf1, e2, hf2, hne12, hP1, hP2⟩, ?_⟩ (by rw [hlen]; omega)
          · rw [hlen] at hI
            refine Runs.bind ⟨_, _, hI, ?_⟩
            dsimp only
            unfold deleteReplace
            rw [if_neg (by simp)]
            refine Runs.bind (Runs.pure ?_)
            exact deleteFinish_alive hi.rep ⟨rfl, rfl⟩
          · rcases hs.near with h10 | ⟨R, x, x', e, h1, h2, h3, h4, h5, h6⟩
            · left; rw [hlen]; omega
            · rcases Nat.lt_or_ge R.length (p ++ pfx ++ [d]).length with hl1 | hl1
              · left; omega
              · have hR : p ++ pfx ++ [d] <+: R := List.prefix_of_prefix_length_le hd ((List.prefix_append _ _).trans h2) hl1
                refine Or.inr ⟨R, x, x', e, hR, h2, h3, ?_, h5, h6⟩
                have hRe : p ++ pfx ++ [d] <+: e.1 := hR.trans ((List.prefix_append _ _).trans h6)
                rcases node_keys hown hch h4 with ⟨hk, hv⟩ | ⟨b2, c2, hb2, hf', hk⟩
                · exfalso
                  rw [hk] at h6
                  have := h6.length_le
                  simp only [List.length_append, List.length_cons, List.length_nil] at this hl1
                  omega
                · have := prefix_edge hk hRe
                  subst this
                  exact hf'
        · -- the keys branch here
          exfalso
          have hPe : p ++ pfx = P := hpP.eq_of_length (by omega)
          subst hPe
          have hone : ∀ b2 c2, (b2, c2) ∈ es → b2 = b' := fun b2 c2 hb2 => by
            obtain ⟨e, he⟩ := List.exists_mem_of_ne_nil _ (hch b2 c2 hb2).ne_nil
            have h1 := (hch b2 c2 hb2).prefix e he
            exact prefix_edge h1 (hs.all e (List.mem_append_right _ (List.mem_flatMap.2 ⟨_, hb2, he⟩)) ((List.prefix_append _ _).trans h1))
          rcases htw with h1 | ⟨-, h1 | h1⟩
          · exact hno h1
          · rcases hown.inv with ⟨h2, -⟩ | ⟨y, lc, hy, rfl, hl, hlk⟩
            · exact h1 h2
            · have h2 := hs.all _ (List.mem_append_left _ (List.mem_singleton.2 rfl)) (by rw [hlk]; exact List.prefix_append _ _)
              rw [hlk] at h2
              have h3 := prefix_edge h2 (List.prefix_refl _)
              obtain ⟨⟨b2, c2⟩, es', rfl⟩ := List.exists_cons_of_ne_nil hne.ne
              have h4 := hone b2 c2 (by simp)
              exact hnd h1 (by simp [h4, h3])
          · match es, h1, hone, hL.sorted with
            | (b2, c2) :: (b3, c3) :: es', _, hone, hso =>
              have h2 := hone b2 c2 (by simp)
              have h3 := hone b3 c3 (by simp)
              have h4 := (List.pairwise_cons.1 hso).1 (b3, c3) (by simp)
              rw [h2, h3] at h4
              exact Byte.lt_irrefl h4
    obtain ⟨r, s', h1, rfl, rfl⟩ := goal
    exact h1

theorem Map.Misses.halt {E : List (Ent V)} (hm : m.Misses k) (ha : Abs E m) (hd : ∀ e ∈ E, ∃ k, e.1 = k ++ [dollar]) :
    ∃ P b b', Halt (k ++ [dollar]) P b b' [] E := by
  obtain ⟨P, b, b', h1, h2, h3, ⟨k1, k2, h4, h5, h6, h7, h8⟩, h9⟩ := hm
  obtain ⟨e1, g1, g2⟩ := ha.has.1 h4
  obtain ⟨e2, g3, g4⟩ := ha.has.1 h5
  refine ⟨P, b, b', h1, h2, List.nil_prefix, fun e he hP => ?_, ⟨e1, g1, e2, g3, ?_, ?_, ?_⟩, ?_⟩
  · obtain ⟨k', hk'⟩ := hd e he
    rw [hk'] at hP ⊢
    exact h3 k' (ha.has.2 ⟨e, he, hk'⟩) hP
  · rw [g2, g4]; exact fun h => h6 (List.append_cancel_right h)
  · rw [g2]; exact h7
  · rw [g4]; exact h8
  · rcases h9 with h9 | ⟨R, c, c', k', q1, q2, q3, q4, q5⟩
    · left; simpa using h9
    · obtain ⟨e, he, hk⟩ := ha.has.1 q4
      exact Or.inr ⟨R, c, c', e, List.nil_prefix, q1, q2, he, q3, by rw [hk]; exact q5⟩

/-- `Txn.Delete` of such a key writes nothing. -/
theorem ViewOf.miss [Inhabited V] {ex full : Bool} (hno : ¬ Removals.allowed) (hv : ViewOf ex s.heap s.txn.root s.txn.size full m) (hm : m.Misses k) :
    (txnDelete k : M V (V × Bool)) s = (.ok (default, false), s) := by
  obtain ⟨⟨E, N, hr, ha⟩, -⟩ := hv
  cases hr with
  | empty hp =>
    obtain ⟨P, b, b', -, -, -, ⟨k1, k2, h4, -⟩, -⟩ := hm
    obtain ⟨e, he, -⟩ := ha.has.1 h4
    cases he
  | tree hr =>
    obtain ⟨P, b, b', hh⟩ := hm.halt ha hr.dollar
    have h1 := hr.halt hno ((getTreeKey k).length + 1) hh (by show (k ++ [dollar]).length < (k ++ [dollar]).length + 1 + 0; omega)
    unfold txnDelete
    simp only [bind_run, txnSt]
    rw [show (getTreeKey k) = k ++ [dollar] from rfl] at h1 ⊢
    simp only [List.length_nil] at h1
    simp only [h1, Art.setRoot, modTxn, pure_run]

/-- Trees: the call does what `Clone` does. -/
theorem treeDelete_miss [Inhabited V] {ex full : Bool} {t : Tree} (hno : ¬ Removals.allowed) (hv : ViewOf ex s.heap t.root t.size full m) (hm : m.Misses k) :
    ∃ r, treeClone t s = (.ok r, (cloneNode t.root true s).2) ∧
      ∃ s', treeDelete t k s = (.ok (r, default, false), s') ∧ s'.heap = (cloneNode t.root true s).2.heap ∧ s'.chans = (cloneNode t.root true s).2.chans := by
  obtain ⟨a', s1, h1, h2, h3⟩ := hv.clone
  refine ⟨{ t with root := a' }, ?_, ?_⟩
  · simp only [treeClone, bind_run, h1, pure_run]
  · rw [treeDelete_eq]
    unfold treeOp beginTxn withTxn
    have h4 := ViewOf.miss (s := { s1 with txn := { root := a', treeSize := t.size, maxNodeId := t.maxNodeId, size := t.size, oldMaxNodeId := t.maxNodeId, trackMutate := false, trackChnSlice := [] } })
      hno h3 hm
    simp only [bind_run, h1, pure_run, modTxn, h4, commit_run, notify_run]
    exact ⟨_, rfl, rfl, rfl⟩

theorem Map.Misses.absent (hm : m.Misses k) : ¬ m.has k := fun hk => by
  obtain ⟨P, b, b', h1, h2, h3, -⟩ := hm
  exact h1 (prefix_edge h2 (h3 k hk ((List.prefix_append _ _).trans h2)))

theorem Map.Misses.ne_nil (hm : m.Misses k) : m ≠ [] := fun h => by
  obtain ⟨P, b, b', -, -, -, ⟨k1, k2, ⟨v, h4⟩, -⟩, -⟩ := hm
  rw [h] at h4; cases h4

/-- `Clone` in place of each `Delete` on a tree, and a read in place of each `Delete` in a transaction. -/
def Op.undel : Op V → Op V
  | .delete t _ => .cloneTree t
  | .txnDelete x k => .txnGet x k
  | op => op

theorem exec_txnGet_state [Inhabited V] (w : World V) (x : Nat) : (exec w (.txnGet x k)).2 = w := by
  show (World.onTxn _ _ _ _).2 = w
  unfold World.onTxn
  cases hr : w.txns[x]? with
  | none => rfl
  | some r =>
    have hset : w.txns.set x r = w.txns := set_same hr
    have : (txnGet k (w.st r.st)).2 = w.st r.st := by
      simp only [txnGet, bind_run, M.get, lift_run]
      cases search (w.st r.st).heap (w.st r.st).txn.root k <;> rfl
    generalize hg : txnGet k (w.st r.st) = g at this
    obtain ⟨g1, g2⟩ := g
    simp only at this
    subst this
    cases g1 with
    | ok a => simp only [hg]; simp only [World.put, World.st, id, List.append_nil, hset]
    | error e => simp only [hg]; simp only [World.put, World.st, id, List.append_nil, hset]

omit [Removals] in
/-- A call that misses, on a tree or transaction that never lost a key. -/
theorem exec_miss [Inhabited V] {ex : Bool} {w : World V} {s : SWorld V} {u : Marks} (hg : Marked ex w s u) {op : Op V} (hm : op.Misses s) (hu : op.onUncut u) :
    (exec w op).2 = (exec w op.undel).2 ∧ (exec w op).1 = (sexec s op).1 ∧ (sexec s op).2 = (sexec s op.undel).2 ∧ u.step s op = u.step s op.undel := by
  obtain ⟨-, hm⟩ := hm
  cases op with
  | delete t k =>
    simp only [Op.undel]
    simp only [Op.onUncut] at hu
    have hlt := (List.getElem?_eq_some_iff.1 hu).1
    rw [hg.trees] at hlt
    have ht := List.getElem?_eq_getElem hlt
    generalize w.trees[t] = tr at ht
    rw [hg.good.ntrees] at hlt
    have hs := List.getElem?_eq_getElem hlt
    generalize s.trees[t] = m at hs
    have hmm := hm m hs
    have hv := hg.view hu ht hs
    letI : Removals := ⟨False⟩
    obtain ⟨r, h1, s', h2, h3, h4⟩ := treeDelete_miss (s := w.st default) (fun h => h) hv hmm
    have hgn : m.get k = none := Map.get_none hmm.absent
    refine ⟨?_, ?_, ?_, ?_⟩
    · simp only [exec, World.onTree, ht, h1, h2, World.put, h3, h4]
    · simp only [exec, World.onTree, ht, h2, sexec, hs, oldValue, hgn]
    · simp only [sexec, hs, Map.del_absent hmm.absent]
    · simp [Marks.step, hs, hu, hgn]
  | txnDelete x k =>
    simp only [Op.undel]
    simp only [Op.onUncut] at hu
    rw [exec_txnGet_state]
    have hlt := (List.getElem?_eq_some_iff.1 hu).1
    rw [hg.txns] at hlt
    have hr := List.getElem?_eq_getElem hlt
    generalize w.txns[x] = r at hr
    rw [hg.good.ntxns] at hlt
    have hs := List.getElem?_eq_getElem hlt
    generalize s.txns[x] = q at hs
    have hmm := hm q hs
    have ho := hg.txn hu hr hs
    letI : Removals := ⟨False⟩
    have hv := ho.view
    have h1 := ViewOf.miss (s := w.st r.st) (fun h => h) hv hmm
    have hset : w.txns.set x r = w.txns := set_same hr
    have hgn : q.map.get k = none := Map.get_none hmm.absent
    have hdel := Map.del_absent hmm.absent
    refine ⟨?_, ?_, ?_, ?_⟩
    · simp only [exec, World.onTxn, hr, h1]; simp only [World.put, World.st, List.append_nil, id, hset]
    · simp only [exec, World.onTxn, hr, h1, sexec, hs, oldValue, hgn]
    · simp only [sexec, hs, SWorld.modTxn]
      have : s.txns.modify x (fun r => { r with map := r.map.del k, emptied := r.emptied || (r.map.del k).isEmpty }) = s.txns := by
        refine List.ext_getElem? fun j => ?_
        rw [List.getElem?_modify]
        by_cases hj : x = j
        · subst hj
          rw [hs]
          have he : q.map.isEmpty = false := by
            cases hq : q.map with
            | nil => exact absurd hq hmm.ne_nil
            | cons _ _ => rfl
          simp [hdel, he]
        · simp [hj]
      rw [this]
    · have : u.txns.set x true = u.txns := set_same hu
      simp [Marks.step, hs, hu, hgn, this]
  | _ => exact hm.elim

omit [Removals] in
theorem Op.Misses.undel [Inhabited V] {w : World V} {s : SWorld V} {op : Op V} (hm : op.Misses s) : op.undel.Broad w s := by
  obtain ⟨-, hm⟩ := hm
  cases op with
  | delete t k => exact ⟨rfl, trivial⟩
  | txnDelete x k => exact ⟨rfl, trivial⟩
  | _ => exact hm.elim

/-- Two histories with the same outcome; the second is broad. -/
structure Undone [Inhabited V] (w : World V) (s : SWorld V) (u : Marks) (ops ops' : List (Op V)) : Prop where
  length : ops'.length = ops.length
  broad : Along Op.Broad w s ops'
  world : (execAll w ops).2 = (execAll w ops').2
  spec : (sexecAll s ops).2 = (sexecAll s ops').2
  marks : marksAll s u ops = marksAll s u ops'

omit [Removals] in
theorem CarefulFrom.undone [Inhabited V] {w : World V} {s : SWorld V} {u : Marks} (hg : Marked false w s u) (ops : List (Op V)) (hc : CarefulFrom w s u ops) :
    ∃ ops', Undone w s u ops ops' := by
  induction ops generalizing w s u with
  | nil => exact ⟨[], rfl, trivial, rfl, rfl, rfl⟩
  | cons op ops ih =>
    obtain ⟨h1, h2⟩ := hc
    rcases h1 with h1 | ⟨h1, h3⟩
    · obtain ⟨ops', g1, g2, g3, g4, g5⟩ := ih (hg.exec op h1 fun h => nomatch h) h2
      exact ⟨op :: ops', by simp [g1], ⟨h1, g2⟩, g3, g4, g5⟩
    · obtain ⟨e1, -, e3, e4⟩ := exec_miss hg h1 h3
      have hb := h1.undel (w := w)
      rw [e1, e3, e4] at h2
      obtain ⟨ops', g1, g2, g3, g4, g5⟩ := ih (hg.exec op.undel hb fun h => nomatch h) h2
      refine ⟨op.undel :: ops', by simp [g1], ⟨hb, g2⟩, ?_, ?_, ?_⟩
      · show (execAll (exec w op).2 ops).2 = _
        rw [e1]; exact g3
      · show (sexecAll (sexec s op).2 ops).2 = _
        rw [e3]; exact g4
      · show marksAll (sexec s op).2 (u.step s op) ops = _
        rw [e3, e4]; exact g5

omit [Removals] in
theorem marksAll_append [Inhabited V] {s : SWorld V} {u : Marks} (ops tail : List (Op V)) : marksAll s u (ops ++ tail) = marksAll (sexecAll s ops).2 (marksAll s u ops) tail := by
  induction ops generalizing s u with
  | nil => rfl
  | cons op ops ih => exact ih

omit [Removals] in
theorem Careful.undone [Inhabited V] {ops : List (Op V)} (hc : Careful ops) : ∃ ops', Undone World.init SWorld.init ⟨[], []⟩ ops ops' := CarefulFrom.undone Marked.init ops hc

omit [Removals] in
theorem Careful.marked [Inhabited V] {ops : List (Op V)} (hc : Careful ops) : Marked false (execAll World.init ops).2 (sexecAll SWorld.init ops).2 (marksAll SWorld.init ⟨[], []⟩ ops) := by
  obtain ⟨ops', h⟩ := hc.undone
  rw [h.world, h.spec, h.marks]
  exact Broad.marked h.broad

end Art
