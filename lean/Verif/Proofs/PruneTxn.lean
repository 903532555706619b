import Verif.Proofs.Prune
import Verif.Proofs.Lineage
/-
`Txn.DeletePrefix` and `RadixTree.DeletePrefix` on the tree of a map.
-/
set_option autoImplicit false
set_option linter.unusedVariables false
set_option linter.unusedSimpArgs false
set_option linter.unusedSectionVars false
namespace Art
variable {V : Type} {s s' s'' : St V} {h h' : Heap V} {E E' : List (Ent V)} {N : List (Key × Addr)} {p k pre : Key} {a c : Addr} {m : Map V} {full : Bool}

/-! ### The entries that stay -/

/-- The tree with this root holds the entries `E` and no others. -/
def Rest (h : Heap V) (root : Addr) (E : List (Ent V)) : Prop :=
  (E = [] ∧ Phantom h root false) ∨ (E = [] ∧ ∃ S, Dead h S root) ∨ ∃ S, Cut h S [] root E

theorem Phantom.step (hp : Phantom h a full) (hX : ∀ x, x < h.length → Eqv h h' x) : Phantom h' a full := by
  obtain ⟨n, y, lc, x1, x2, x3, x4, x5, x6, x7⟩ := hp
  obtain ⟨i, k, y1⟩ := (hX _ (lt_of_get x1)).inner x1
  obtain ⟨j, q, y2⟩ := (hX _ (lt_of_get x4)).leaf x4
  exact ⟨_, y, _, y1, x2.congr rfl rfl rfl rfl, x3, y2, x5, x6, x7⟩

theorem Rest.step (hr : Rest h a E) (hX : ∀ x, x < h.length → Eqv h h' x) : Rest h' a E := by
  rcases hr with ⟨h1, h2⟩ | ⟨h1, S, h2⟩ | ⟨S, h2⟩
  · exact Or.inl ⟨h1, h2.step hX⟩
  · exact Or.inr (Or.inl ⟨h1, S, h2.frame (fun x _ => hX x) fun _ h => h⟩)
  · exact Or.inr (Or.inr ⟨S, h2.frame (fun x _ => hX x) (fun x lc hx => hX x (lt_of_get hx)) fun _ h => h⟩)

theorem Rest.search (hr : Rest h a E) (k : Key) : ∃ hit, search h a k = .ok hit ∧ Answers (k ++ [dollar]) E hit := by
  unfold Art.search
  show ∃ hit, searchLoopAt h (k ++ [dollar]) ((k ++ [dollar]).length + 1) a 0 = .ok hit ∧ _
  rcases hr with ⟨rfl, h2⟩ | ⟨rfl, S, h2⟩ | ⟨S, h2⟩
  · exact ⟨_, h2.search (by simp) _, Answers.stop rfl fun e he => nomatch he⟩
  · obtain ⟨hit, h3, h4⟩ := h2.search (K := k ++ [dollar]) ((k ++ [dollar]).length + 1) 0 (by omega) (by omega)
    exact ⟨hit, h3, Answers.stop h4 fun e he => nomatch he⟩
  · exact h2.search ((k ++ [dollar]).length + 1) (by simp) (by simp)

theorem Abs.prune (ha : Abs E m) : Abs (E.filter fun e => !Ent.hit pre e) (m.delPrefix pre) := fun k v => by
  have hd : ∀ x : Addr, Ent.hit pre ((k ++ [dollar], v, x) : Ent V) = true ↔ pre <+: k := fun x => by
    rw [Ent.hit_iff]
    simp only [getKey_snoc]
  unfold Map.delPrefix
  rw [List.mem_filter, ha k v]
  simp only [decide_not, Bool.not_eq_true', decide_eq_false_iff_not]
  constructor
  · rintro ⟨⟨x, hx⟩, hn⟩
    refine ⟨x, List.mem_filter.2 ⟨hx, ?_⟩⟩
    rw [Bool.not_eq_true']
    exact Bool.eq_false_iff.2 fun h => hn ((hd x).1 h)
  · rintro ⟨x, hx⟩
    obtain ⟨h1, h2⟩ := List.mem_filter.1 hx
    refine ⟨⟨x, h1⟩, fun h => ?_⟩
    rw [(hd x).2 h] at h2
    cases h2

theorem Map.nodup_delPrefix (hn : (m.map (·.1)).Nodup) : ((m.delPrefix pre).map (·.1)).Nodup := hn.sublist (List.filter_sublist.map _)

theorem Answers.get {hit : Hit V} [Inhabited V] (hA : Answers (k ++ [dollar]) E hit) (ha : Abs E m) (hn : (m.map (·.1)).Nodup) : hit.val = m.get k := by
  cases hg : m.get k with
  | some v =>
    obtain ⟨x, hx⟩ := (ha k v).1 ((Map.get_iff hn).1 hg)
    exact hA.1 _ hx rfl
  | none =>
    refine hA.2 fun e he hk => ?_
    have := (Map.get_iff hn).2 (ha.mem he hk)
    rw [hg] at this; cases this

/-! ### Hypotheses about the map -/

theorem Map.FreeBelow.entries (hf : m.FreeBelow pre) (ha : Abs E m) (hd : ∀ e ∈ E, ∃ k, e.1 = k ++ [dollar]) : HFree pre E := by
  intro e he e' he' hh hp
  obtain ⟨k, hk⟩ := hd e he
  obtain ⟨k', hk'⟩ := hd e' he'
  have h1 := Ent.hit_iff.1 hh
  simp only [hk, hk', getKey_snoc] at hp h1
  rw [hk, hk', hf k ⟨_, ha.mem he hk⟩ h1 k' ⟨_, ha.mem he' hk'⟩ hp]

theorem Map.Several.entries (hf : m.Several pre) (ha : Abs E m) (hd : ∀ e ∈ E, ∃ k, e.1 = k ++ [dollar]) : AllHit pre E ∨ Two pre E := by
  rcases hf with hf | hf
  · refine Or.inl fun e he => Ent.hit_iff.2 ?_
    obtain ⟨k, hk⟩ := hd e he
    simp only [hk, getKey_snoc]
    exact hf k ⟨_, ha.mem he hk⟩
  · refine Or.inr fun e he hh => ?_
    obtain ⟨k, hk⟩ := hd e he
    have h1 := Ent.hit_iff.1 hh
    simp only [hk, getKey_snoc] at h1
    obtain ⟨k', ⟨v', h2⟩, h3, h4⟩ := hf k ⟨_, ha.mem he hk⟩ h1
    obtain ⟨x, hx⟩ := (ha k' v').1 h2
    refine ⟨_, hx, Ent.hit_iff.2 (by simp only [getKey_snoc]; exact h3), ?_⟩
    simp only [hk]
    exact fun h => h4 (by simpa using h)

/-! ### The call -/

/-- `Txn.DeletePrefix` of a tree with entries. -/
theorem txnDeletePrefix_runs [Inhabited V] (hr : Rep s.heap [] s.txn.root E N) (ht : TidyN s.heap N) (hts : s.txn.treeSize = s.txn.size) (pre : Key) :
    Runs (txnDeletePrefix pre : M V Bool) s fun r s' => s'.txn.trackMutate = s.txn.trackMutate ∧ r = E.any (Ent.hit pre) ∧
      s'.txn.size = s.txn.size - UInt64.ofNat (E.filter (Ent.hit pre)).length ∧
      (SmallN s.heap N → HFree pre E → AllHit pre E ∨ Two pre E → Rest s'.heap s'.txn.root (E.filter fun e => !Ent.hit pre e)) := by
  unfold txnDeletePrefix
  refine Runs.bind (Runs.get (Runs.bind (Runs.mono (hr.prune (getKey_snoc pre dollar) (s.heap.length + 1) ht (Nat.le_trans hr.lengthN (by omega)) 0) ?_)))
  rintro ⟨o, cnt⟩ s1 ⟨h1, h2, h3, h4⟩
  simp only at h2 h3 h4 ⊢
  suffices hmid : Runs (setRoot o : M V Unit) s1 fun _ s2 => s2.txn.root < s2.heap.length ∧ s2.txn.trackMutate = s.txn.trackMutate ∧ s2.txn.treeSize = s.txn.treeSize ∧ s2.txn.size = s.txn.size ∧
      (SmallN s.heap N → HFree pre E → AllHit pre E ∨ Two pre E → Rest s2.heap s2.txn.root (E.filter fun e => !Ent.hit pre e)) by
    refine Runs.bind (Runs.mono hmid ?_)
    rintro _ s2 ⟨g1, g2, g3, g4, g5⟩
    have hany : E.any (Ent.hit pre) = decide (cnt ≠ 0) := by
      rw [h2]
      cases hb : E.any (Ent.hit pre) with
      | true =>
        obtain ⟨e, he, hh⟩ := List.any_eq_true.1 hb
        have := List.length_pos_of_mem (List.mem_filter.2 ⟨he, hh⟩)
        exact (decide_eq_true (by omega)).symm
      | false =>
        have : E.filter (Ent.hit pre) = [] := List.filter_eq_nil_iff.2 fun e he => by rw [List.any_eq_false] at hb; exact hb e he
        rw [this]; rfl
    split
    · rename_i hc
      refine Runs.bind (Runs.txnSt (Runs.bind (Runs.mono (trackChannel_runs (N := s2.heap.length) (o := some s2.txn.root) fun x hx => by cases hx; exact g1) ?_)))
      rintro _ s3 ⟨k1, k2, -⟩
      refine Runs.bind (Runs.modTxn (Runs.bind (Runs.modTxn (Runs.pure ⟨?_, ?_, ?_, fun a1 a2 a3 => ?_⟩))))
      · exact k1.track.trans g2
      · rw [hany]; exact (decide_eq_true hc).symm
      · show s3.txn.treeSize - _ = _
        rw [k1.tsize, g3, hts, h2]
      · show Rest s3.heap s3.txn.root _
        rw [k1.root]
        exact (g5 a1 a2 a3).step fun x hx => k1.eqv hx
    · rename_i hc
      have h0 : cnt = 0 := by omega
      refine Runs.pure ⟨g2, ?_, ?_, g5⟩
      · rw [hany, h0]; rfl
      · rw [g4, ← h2, h0]; simp
  cases o with
  | none =>
    unfold setRoot
    refine Runs.mono (resetRoot_runs (s := s1)) ?_
    rintro _ s2 ⟨hch, hroot, hlen2, hold, hz1, hz2, hph⟩
    refine ⟨by rw [hroot, hlen2]; omega, by rw [hch.track, h1.track], by rw [hz2, h1.tsize], by rw [hz1, h1.size], fun a1 a2 a3 => ?_⟩
    rcases h4 a1 a2 a3 with ⟨-, x2, -⟩ | ⟨a', x1, -⟩ | ⟨a', x1, -⟩
    · exact Or.inl ⟨x2.filter, hph⟩
    · cases x1
    · cases x1
  | some a' =>
    unfold setRoot
    refine Runs.modTxn ⟨h3 _ rfl, h1.track, h1.tsize, h1.size, fun a1 a2 a3 => ?_⟩
    rcases h4 a1 a2 a3 with ⟨x1, -⟩ | ⟨a', x1, x2, x3⟩ | ⟨a', x1, -, x3⟩
    · cases x1
    · cases x1
      exact Or.inr (Or.inl ⟨x2.filter, _, x3⟩)
    · cases x1
      exact Or.inr (Or.inr ⟨_, x3⟩)

/-- `Txn.DeletePrefix` of the empty tree. -/
theorem txnDeletePrefix_empty [Inhabited V] (hp : Phantom s.heap s.txn.root full) (hne : pre ≠ []) :
    Runs (txnDeletePrefix pre : M V Bool) s fun r s' => s' = s ∧ r = false := by
  obtain ⟨n, l, lc, h1, hL, h3, h4, h5, h6, h7⟩ := hp
  have hil : n.isLeaf = true := hL.isLeaf_iff.2 ⟨rfl, by rw [h3]; simp⟩
  unfold txnDeletePrefix
  refine Runs.bind (Runs.get (Runs.bind ?_))
  unfold deletePrefix
  refine Runs.bind (Runs.cell h1 ?_)
  simp only [Cell.isLeaf, hil, if_true]
  unfold deletePrefixLeaf
  simp only [Cell.nodeLeaf, h3]
  refine Runs.bind (Runs.leafAt h4 ?_)
  have hno : hasPrefixB (getKey lc.key) (getKey (getTreeKey pre)) = false := by
    rw [h5]
    show hasPrefixB (getKey []) (getKey (pre ++ [dollar])) = false
    rw [getKey_snoc]
    refine Bool.eq_false_iff.2 fun h => hne ?_
    exact List.prefix_nil.1 ((hasPrefixB_iff _ _).1 h)
  simp only [hno, Bool.false_eq_true, if_false]
  refine Runs.pure (Runs.bind ?_)
  unfold setRoot
  refine Runs.modTxn ?_
  simp only [ne_eq, not_true, if_false]
  exact Runs.pure ⟨rfl, rfl⟩

/-- What `Txn.DeletePrefix` does to a map. -/
structure PrunePost (ex : Bool) (m : Map V) (pre : Key) (s : St V) (r : Bool) (s' : St V) : Prop where
  track : s'.txn.trackMutate = s.txn.trackMutate
  flag : r = m.any fun e => pre.isPrefixOf e.1
  size : (m.delPrefix pre).length ≤ s'.txn.size.toNat ∧ (ex = true → s'.txn.size.toNat = (m.delPrefix pre).length)
  small : s'.txn.size.toNat < 2 ^ 63
  get : m.Narrow 37 → m.FreeBelow pre → m.Several pre → ∀ k, ∃ hit, search s'.heap s'.txn.root k = .ok hit ∧ hit.val = (m.delPrefix pre).get k

theorem Map.length_delPrefix : (m.delPrefix pre).length + (m.filter fun e => pre.isPrefixOf e.1).length = m.length := by
  unfold Map.delPrefix
  induction m with
  | nil => rfl
  | cons e m ih =>
    by_cases hp : pre <+: e.1
    · have h2 : pre.isPrefixOf e.1 = true := List.isPrefixOf_iff_prefix.2 hp
      rw [List.filter_cons_of_neg (by simpa using hp), List.filter_cons_of_pos (by simpa using h2)]
      simp only [List.length_cons]
      omega
    · have h2 : ¬ pre.isPrefixOf e.1 = true := fun h => hp (List.isPrefixOf_iff_prefix.1 h)
      rw [List.filter_cons_of_pos (by simpa using hp), List.filter_cons_of_neg (by simpa using h2)]
      simp only [List.length_cons]
      omega

theorem Rep.tidyN (hr : @Rep V ⟨False⟩ h p a E N) : TidyN h N := by
  letI : Removals := ⟨False⟩
  induction hr with
  | @leaf p a n l lc ha hL hpart hw hleaf hl hp hd =>
    intro x hx n' hn
    cases List.mem_singleton.1 hx
    rw [ha] at hn; cases hn
    exact hL.tidy (by rw [(hw.resolve_left id).1]; nofun)
  | @node p a n pfx es st vals f g ha hL hne hh hst hown hnd htw hch ih =>
    intro x hx n' hn
    rw [List.map_cons] at hx
    rcases List.mem_cons.1 hx with rfl | hx
    · rw [ha] at hn; cases hn
      exact (htw.resolve_left id).1
    · obtain ⟨y, hy, rfl⟩ := List.mem_map.1 hx
      obtain ⟨⟨b, c⟩, hb, hy⟩ := List.mem_flatMap.1 hy
      exact ih b c hb y.2 (List.mem_map.2 ⟨y, hy, rfl⟩) n' hn

/-- `Txn.DeletePrefix` of a tree that never lost a key. -/
theorem ViewOf.deletePrefix {ex : Bool} [Inhabited V] (hv : @ViewOf V ⟨False⟩ ex s.heap s.txn.root s.txn.size full m) (hts : s.txn.treeSize = s.txn.size) (hne : m ≠ [] ∨ pre ≠ []) :
    Runs (txnDeletePrefix pre : M V Bool) s (PrunePost ex m pre s) := by
  obtain ⟨⟨E, N, hr, ha⟩, hn, hsz, hsm⟩ := hv
  cases hr with
  | empty hp =>
    have hm : m = [] := by
      cases m with
      | nil => rfl
      | cons e m =>
        obtain ⟨k, v⟩ := e
        obtain ⟨x, hx⟩ := (ha k v).1 (by simp)
        cases hx
    subst hm
    refine Runs.mono (txnDeletePrefix_empty hp (hne.resolve_left fun h => h rfl)) ?_
    rintro r s' ⟨rfl, rfl⟩
    exact ⟨rfl, rfl, hsz, hsm, fun _ _ _ k => ⟨_, hp.search (by unfold getTreeKey; simp) _, rfl⟩⟩
  | tree hr =>
    have ht := hr.tidyN
    replace hr := hr.mono (Q := True) False.elim
    letI : Removals := ⟨True⟩
    refine Runs.mono (txnDeletePrefix_runs hr ht hts pre) ?_
    rintro r s' ⟨h1, h2, h3, h4⟩
    have hperm := Abs.perm hr ha hn
    have hhit : ∀ e ∈ E, Ent.hit pre e = pre.isPrefixOf (Ent.out e).1 := fun e he => rfl
    have hsize : s'.txn.size.toNat + (m.filter fun e => pre.isPrefixOf e.1).length = s.txn.size.toNat := by
      have hcnt : (E.filter (Ent.hit pre)).length = (m.filter fun e => pre.isPrefixOf e.1).length := by
        rw [← (hperm.filter _).length_eq, List.filter_map, List.length_map]
        rfl
      have hl := Map.length_delPrefix (m := m) (pre := pre)
      have hof : (UInt64.ofNat (m.filter fun e => pre.isPrefixOf e.1).length).toNat = (m.filter fun e => pre.isPrefixOf e.1).length := by
        rw [UInt64.toNat_ofNat']
        exact Nat.mod_eq_of_lt (by omega)
      rw [h3, hcnt, UInt64.toNat_sub_of_le _ _ (by rw [UInt64.le_iff_toNat_le, hof]; omega), hof]
      omega
    have hl := Map.length_delPrefix (m := m) (pre := pre)
    refine ⟨h1, ?_, ⟨by omega, fun h => by have := hsz.2 h; omega⟩, by omega, fun hw hf hs k => ?_⟩
    · rw [h2, ← hperm.any_eq, List.any_map]
      rfl
    · have hsmall : SmallN s.heap N := fun x hx n hn hlf hk => by
        have := (hr.narrow (ha.narrow hr hw) x hx n hn hlf).2.2 hk
        omega
      have hR := h4 hsmall (hf.entries ha hr.dollar) (hs.entries ha hr.dollar)
      obtain ⟨hit, g1, g2⟩ := hR.search k
      exact ⟨hit, g1, g2.get ha.prune (Map.nodup_delPrefix hn)⟩

/-! ### Trees and transactions of a history -/

theorem toInt_of_size {sz : UInt64} {n : Nat} (h1 : sz.toNat = n) (h2 : n < 2 ^ 63) : sz.toInt64.toInt = (n : Int) := by
  rw [← h1] at h2 ⊢
  have : sz.toInt64.toInt = (sz.toNat : Int).bmod (2 ^ 64) := by
    rw [show sz.toInt64.toInt = sz.toBitVec.toInt from rfl, BitVec.toInt_eq_toNat_bmod]
    rfl
  rw [this, Int.bmod_eq_of_le] <;> omega

/-- `RadixTree.DeletePrefix` on a tree that never lost a key. -/
theorem tree_prune [Inhabited V] {ex : Bool} {ops : List (Op V)} (hg : Marked ex (execAll World.init ops).2 (sexecAll SWorld.init ops).2 (marksAll SWorld.init ⟨[], []⟩ ops)) {i : Nat} {pre : Key}
    (hu : Uncut ops i) (hm : mapAfter ops i = some m) (hne : m ≠ [] ∨ pre ≠ []) : ∃ t, (exec (execAll World.init ops).2 (.deletePrefix i pre)).1 = .flag (m.any fun e => pre.isPrefixOf e.1) ∧
      (exec (execAll World.init ops).2 (.deletePrefix i pre)).2.trees = (execAll World.init ops).2.trees ++ [t] ∧ ((m.delPrefix pre).length ≤ treeLen t ∧ (ex = true → treeLen t = (m.delPrefix pre).length)) ∧
      (m.Narrow 37 → m.FreeBelow pre → m.Several pre → ∀ k, treeGet (exec (execAll World.init ops).2 (.deletePrefix i pre)).2.heap t k = .ok ((m.delPrefix pre).get k)) := by
  have hlt := (List.getElem?_eq_some_iff.1 hm).1
  rw [← hg.good.ntrees] at hlt
  have ht := List.getElem?_eq_getElem hlt
  generalize (execAll World.init ops).2.trees[i] = t at ht
  have hv := hg.view hu ht hm
  have hrun : Runs (treeDeletePrefix t pre) ((execAll World.init ops).2.st default) fun r s' => r.1.root = s'.txn.root ∧ r.1.size = s'.txn.size ∧
      ∃ s1, PrunePost ex m pre s1 r.2 s' := by
    rw [treeDeletePrefix_eq]
    letI : Removals := ⟨False⟩
    refine treeOp_runs (Q := fun r s' => ∃ s1, PrunePost ex m pre s1 r s') hv fun s1 h2 h3 h4 _ => ?_
    refine Runs.mono (ViewOf.deletePrefix h2 h3 hne) fun r s' hp => ⟨by rw [hp.track]; exact h4, s1, hp⟩
  obtain ⟨⟨nt, did⟩, s', h0, h1, h2, s1, h3⟩ := hrun
  have hex : exec (execAll World.init ops).2 (.deletePrefix i pre) = (.flag did, { (execAll World.init ops).2.put s' with trees := (execAll World.init ops).2.trees ++ [nt] }) := by
    show World.onTree _ _ _ _ = _
    unfold World.onTree
    rw [show (execAll World.init ops).2.trees[i]? = some t from ht]
    simp only [h0]
  rw [hex]
  refine ⟨nt, congrArg Out.flag h3.flag, rfl, ?_, fun hw hf hs k => ?_⟩
  · have h5 : treeLen nt = (s'.txn.size.toNat : Int) := toInt_of_size (by rw [show nt.size = s'.txn.size from h2]) h3.small
    have h6 := h3.size
    exact ⟨by omega, fun h => by have := h6.2 h; omega⟩
  · obtain ⟨hit, g1, g2⟩ := h3.get hw hf hs k
    show treeGet s'.heap nt k = _
    unfold treeGet
    rw [show nt.root = s'.txn.root from h1, g1, Except.bind_ok, g2]
    rfl

/-- `Txn.DeletePrefix` on a transaction that never lost a key, and `Txn.Get` after it. -/
theorem txn_prune [Inhabited V] {ops : List (Op V)} (hc : Broad ops) {x : Nat} (hu : UncutTxn ops x) {pre : Key} {q : STxn V}
    (hq : (sexecAll SWorld.init ops).2.txns[x]? = some q) (hne : q.map ≠ [] ∨ pre ≠ []) :
    (exec (execAll World.init ops).2 (.txnDeletePrefix x pre)).1 = .flag (q.map.any fun e => pre.isPrefixOf e.1) ∧
      (q.map.Narrow 37 → q.map.FreeBelow pre → q.map.Several pre → ∀ k, (exec (exec (execAll World.init ops).2 (.txnDeletePrefix x pre)).2 (.txnGet x k)).1 = .value ((q.map.delPrefix pre).get k)) := by
  have hlt := (List.getElem?_eq_some_iff.1 hq).1
  rw [← hc.good.1.ntxns] at hlt
  have hr := List.getElem?_eq_getElem hlt
  generalize (execAll World.init ops).2.txns[x] = r at hr
  obtain ⟨hv, hts, -, -⟩ := hc.marked.txn hu hr hq
  obtain ⟨did, s', h0, h3⟩ := ViewOf.deletePrefix (s := (execAll World.init ops).2.st r.st) (pre := pre) hv hts hne
  have hex : exec (execAll World.init ops).2 (.txnDeletePrefix x pre) = (.flag did, { (execAll World.init ops).2.put s' with
      trees := (execAll World.init ops).2.trees ++ [], txns := (execAll World.init ops).2.txns.set x { r with st := s'.txn } }) := by
    show World.onTxn _ _ _ _ = _
    unfold World.onTxn
    rw [hr]
    simp only [h0]
    rfl
  rw [hex]
  refine ⟨by rw [h3.flag], fun hw hf hs k => ?_⟩
  obtain ⟨hit, g1, g2⟩ := h3.get hw hf hs k
  show (World.onTxn _ _ _ _).1 = _
  unfold World.onTxn
  have hset : ((execAll World.init ops).2.txns.set x { r with st := s'.txn })[x]? = some { r with st := s'.txn } := by
    rw [List.getElem?_set]; simp [hlt]
  simp only [hset]
  have hg : (txnGet k : M V (Option V)) s' = (.ok hit.val, s') := by
    simp only [txnGet, bind_run, M.get, lift_run, g1]
    rfl
  have hst : (World.st { (execAll World.init ops).2.put s' with
      trees := (execAll World.init ops).2.trees ++ [], txns := (execAll World.init ops).2.txns.set x { r with st := s'.txn } } s'.txn : St V) = s' := rfl
  rw [hst, hg]
  simp only [g2]

end Art
