import Verif.Proofs.Slots
/-
`SeekReverseLowerBound` and the reverse iteration from there, on a well-formed tree from which nothing was removed.
-/
set_option autoImplicit false
set_option linter.unusedVariables false
set_option linter.unusedSimpArgs false
set_option linter.unusedSectionVars false
namespace Art
variable {V : Type} [Removals] {h : Heap V} {E : List (Ent V)} {N : List (Key × Addr)} {p q extra : Key} {a : Addr} {n : Inner} {es : Edges} {st : Option Addr} {m : Map V}
  {X : List Addr}

/-! ### Comparing keys -/

theorem cmpBytes_lt : ∀ {a b : Key}, cmpBytes a b = .lt ↔ Key.lt a b
  | [], [] => by simp [cmpBytes, Key.lt]
  | [], _ :: _ => by simp [cmpBytes, Key.lt]
  | _ :: _, [] => by simp [cmpBytes, Key.lt]
  | x :: xs, y :: ys => by
    have ih := @cmpBytes_lt xs ys
    simp only [cmpBytes, Key.lt]
    rcases Byte.lt_or_eq_or_lt x y with h | h | h
    · simp [h]
    · subst h; simp [Byte.lt_irrefl, ih]
    · have h1 := Byte.lt_asymm h
      have h2 : x ≠ y := fun he => Byte.lt_irrefl (he ▸ h)
      simp [h, h1, h2]

theorem cmpBytes_gt : ∀ {a b : Key}, cmpBytes a b = .gt ↔ Key.lt b a
  | [], [] => by simp [cmpBytes, Key.lt]
  | [], _ :: _ => by simp [cmpBytes, Key.lt]
  | _ :: _, [] => by simp [cmpBytes, Key.lt]
  | x :: xs, y :: ys => by
    have ih := @cmpBytes_gt xs ys
    simp only [cmpBytes, Key.lt]
    rcases Byte.lt_or_eq_or_lt x y with h | h | h
    · have h1 := Byte.lt_asymm h
      have h2 : y ≠ x := fun he => Byte.lt_irrefl (he ▸ h)
      simp [h, h1, h2]
    · subst h; simp [Byte.lt_irrefl, ih]
    · have h1 := Byte.lt_asymm h
      simp [h, h1]

theorem leBytes_false {a b : Key} : leBytes a b = false ↔ Key.lt b a := by
  rw [← cmpBytes_gt, leBytes]; cases cmpBytes a b <;> simp
theorem geBytes_false {a b : Key} : geBytes a b = false ↔ Key.lt a b := by
  rw [← cmpBytes_lt, geBytes]; cases cmpBytes a b <;> simp

/-- The order of the tree keys follows that of the keys. -/
theorem leBytes_dollar : ∀ {k q : Key}, (∀ b : Byte, k ++ [b] <+: q → dollar ≤ b) → leBytes k q = true → leBytes (k ++ [dollar]) (q ++ [dollar]) = true
  | [], [], _, _ => by decide
  | [], c :: q, hb, _ => by
    have := hb c (by simp)
    simp only [leBytes, List.nil_append, List.cons_append, cmpBytes]
    rcases Byte.lt_or_eq_or_lt dollar c with h | h | h
    · simp [h]
    · subst h
      cases q <;> simp [cmpBytes, Byte.lt_irrefl]
    · rw [UInt8.lt_iff_toNat_lt] at h; rw [UInt8.le_iff_toNat_le] at this; omega
  | x :: k, [], _, h => by simp [leBytes, cmpBytes] at h
  | x :: k, y :: q, hb, h => by
    have ih := @leBytes_dollar k q
    simp only [leBytes, List.cons_append, cmpBytes] at h ih ⊢
    rcases Byte.lt_or_eq_or_lt x y with h1 | h1 | h1
    · simp [h1]
    · subst h1
      simp only [Byte.lt_irrefl, if_false] at h ⊢
      exact ih (fun b hb' => hb b (by simpa using hb')) h
    · simp [h1, Byte.lt_asymm h1] at h

/-! ### What the iterator returns -/

/-- The entries that are not above `q`. -/
def Ent.notAbove (q : Key) (F : List (Ent V)) : List (Key × V) := (F.filter fun e => leBytes (getKey e.1) q).map Ent.out

theorem notAbove_append (F G : List (Ent V)) : Ent.notAbove q (F ++ G) = Ent.notAbove q F ++ Ent.notAbove q G := by
  simp [Ent.notAbove]

/-- The bound fits the entries: no key continued by a byte below `'$'` leads to the bound, and no key starts with the
bound followed by `'$'`. -/
structure UpTo (q : Key) (E : List (Ent V)) : Prop where
  up : ∀ e ∈ E, ∀ b : Byte, getKey e.1 ++ [b] <+: q → dollar ≤ b
  off : ∀ e ∈ E, ¬ (q ++ [dollar]) <+: getKey e.1

theorem UpTo.sub {F : List (Ent V)} (hf : UpTo q E) (hs : ∀ e ∈ F, e ∈ E) : UpTo q F :=
  ⟨fun e he => hf.up e (hs e he), fun e he => hf.off e (hs e he)⟩

/-- Entries behind the bound are not selected. -/
theorem notAbove_nil {F : List (Ent V)} (hf : UpTo q F) (hd : ∀ e ∈ F, ∃ k, e.1 = k ++ [dollar]) (hb : ∀ e ∈ F, Before (q ++ [dollar]) e.1) :
    Ent.notAbove q F = [] := by
  unfold Ent.notAbove
  rw [List.map_eq_nil_iff, List.filter_eq_nil_iff]
  intro e he
  obtain ⟨k, hk⟩ := hd e he
  have h1 := hb e he
  rw [hk] at h1
  have h2 := hf.up e he
  rw [hk, getKey_snoc] at h2 ⊢
  have := leBytes_false.2 (key_lt_of_before h1 h2)
  simp [this]

/-- The state of a reverse iterator positioned at `q`. -/
def revTo (q : Key) (X : List Addr) (stk : List (Option Addr)) : RevIter := { path := q ++ [dollar], node := none, stack := some stk, expanded := X }

theorem revPrevious_to (stk : List (Option Addr)) (F : Nat) :
    revPrevious h F (revTo q X stk) = (revNext h (q ++ [dollar]) X F stk >>= fun r => .ok (r.1, revTo q X r.2)) := rfl

theorem revTo_nil : (revM h).Gives (revTo q X []) [] :=
  (revM h).gives_stop (s' := revTo q X []) fun F => by rw [revM_next, revPrevious_to, revNext]; rfl

theorem revTo_leaf {lc : LeafC V} {l : Addr} (hl : h[l]? = some (.leaf lc)) {rest : List (Option Addr)} {r : List (Key × V)}
    (hg : (revM h).Gives (revTo q X rest) r) : (revM h).Gives (revTo q X (some l :: rest)) (Ent.notAbove q [(lc.key, lc.value, l)] ++ r) := by
  have h0 : getKey (q ++ [dollar]) = q := getKey_snoc _ _
  cases hle : leBytes (getKey lc.key) q with
  | true =>
    have : Ent.notAbove q [(lc.key, lc.value, l)] = [Ent.out (lc.key, lc.value, l)] := by simp [Ent.notAbove, hle]
    rw [this]
    refine (revM h).gives_yield (s' := revTo q X rest) (fun F => ?_) hg
    rw [revM_next, revPrevious_to, revNext]
    simp only [rd_eq hl, Except.bind_ok, h0, hle, if_true, pure, Except.pure]
    rfl
  | false =>
    have : Ent.notAbove q [(lc.key, lc.value, l)] = [] := by simp [Ent.notAbove, hle]
    rw [this, List.nil_append]
    refine (revM h).gives_skip (fun F => ?_) hg
    rw [revM_next, revPrevious_to, revPrevious_to, revNext]
    simp only [rd_eq hl, Except.bind_ok, h0, hle, Bool.false_eq_true, if_false]

theorem revTo_push {lc : LeafC V} {l : Addr} (hl : h[l]? = some (.leaf lc)) (hd : ∃ k, lc.key = k ++ [dollar]) (hf : UpTo q [(lc.key, lc.value, l)])
    {rest : List (Option Addr)} {r : List (Key × V)} (hg : (revM h).Gives (revTo q X rest) r) :
    (revM h).Gives (revTo q X (revLeafPush (q ++ [dollar]) (some (l, lc)) rest)) (Ent.notAbove q [(lc.key, lc.value, l)] ++ r) := by
  unfold revLeafPush
  simp only
  split
  · exact revTo_leaf hl hg
  · rename_i hle
    obtain ⟨k, hk⟩ := hd
    have h2 := hf.up _ (List.mem_singleton.2 rfl)
    simp only [hk, getKey_snoc] at h2
    have : leBytes k q = false := by
      cases hc : leBytes k q with
      | false => rfl
      | true => exact absurd (Or.inl (hk ▸ leBytes_dollar h2 hc)) hle
    simp only [Ent.notAbove, hk, getKey_snoc, this, List.filter_cons, Bool.false_eq_true, if_false, List.filter_nil, List.map_nil, List.nil_append]
    exact hg

/-- An expanded node with a leaf. -/
theorem revTo_expanded {lc : LeafC V} {l : Addr} (ha : h[a]? = some (.inner n)) (ho : n.leaf = some l) (hl : h[l]? = some (.leaf lc)) (hx : a ∈ X)
    (hd : ∃ k, lc.key = k ++ [dollar]) (hf : UpTo q [(lc.key, lc.value, l)])
    {rest : List (Option Addr)} {r : List (Key × V)} (hg : (revM h).Gives (revTo q X rest) r) :
    (revM h).Gives (revTo q X (some a :: rest)) (Ent.notAbove q [(lc.key, lc.value, l)] ++ r) := by
  refine (revM h).gives_skip (fun F => ?_) (revTo_push hl hd hf hg)
  rw [revM_next, revPrevious_to, revPrevious_to, revNext]
  have : X.contains a = true := List.contains_iff_mem.2 hx
  simp only [rd_eq ha, Except.bind_ok, ho, leafOf, rdLeaf_eq hl, pure, Except.pure, this, if_true]

/-- A node that was not expanded and has no leaf. -/
theorem revTo_bare (ha : h[a]? = some (.inner n)) (ho : n.leaf = none) (hx : a ∉ X)
    {rest : List (Option Addr)} {r : List (Key × V)} (hg : (revM h).Gives (revTo q X (n.revChildren ++ rest)) r) :
    (revM h).Gives (revTo q X (some a :: rest)) r := by
  refine (revM h).gives_skip (fun F => ?_) hg
  rw [revM_next, revPrevious_to, revPrevious_to, revNext]
  have : X.contains a = false := by simpa using hx
  simp only [rd_eq ha, Except.bind_ok, ho, leafOf, pure, Except.pure, this, Bool.false_eq_true, if_false]
  rfl

/-- A node that was not expanded and has a leaf. -/
theorem revTo_own {lc : LeafC V} {l : Addr} (ha : h[a]? = some (.inner n)) (ho : n.leaf = some l) (hl : h[l]? = some (.leaf lc)) (hx : a ∉ X)
    (hf : UpTo q [(lc.key, lc.value, l)]) {rest : List (Option Addr)} {r : List (Key × V)}
    (hg : (revM h).Gives (revTo q X (n.revChildren ++ revLeafPush (q ++ [dollar]) (some (l, lc)) rest)) r) :
    (revM h).Gives (revTo q X (some a :: rest)) r := by
  refine (revM h).gives_skip (fun F => ?_) hg
  rw [revM_next, revPrevious_to, revPrevious_to, revNext]
  have h1 : X.contains a = false := by simpa using hx
  have h2 : hasPrefix (getKey lc.key) (q ++ [dollar]) = false := by
    have := hf.off _ (List.mem_singleton.2 rfl)
    rw [← hasPrefix_iff] at this
    simpa using this
  simp only [rd_eq ha, Except.bind_ok, ho, leafOf, rdLeaf_eq hl, pure, Except.pure, h1, h2, Bool.false_eq_true, if_false]

/-- A subtree of which no node was expanded. -/
theorem Rep.revTo (hr : Rep h p a E N) (hf : UpTo q E) (hx : ∀ x ∈ N.map (·.2), x ∉ X) : ∀ {rest : List (Option Addr)} {r : List (Key × V)},
    (revM h).Gives (revTo q X rest) r → (revM h).Gives (revTo q X (some a :: rest)) (Ent.notAbove q E.reverse ++ r) := by
  induction hr with
  | @leaf p a n l lc ha hL hpart hw hleaf hl hp hd =>
    intro rest r hg
    refine revTo_own ha hleaf hl (hx a (by simp)) hf ?_
    simp only [Inner.revChildren, hL.iterChildren, List.map_nil, List.reverse_nil, List.nil_append]
    exact revTo_push hl hd hf hg
  | @node p a n pfx es st vals f g ha hL hne hh hst hown hnd htw hch ih =>
    intro rest r hg
    have hkids : ∀ ds : Edges, (∀ b c, (b, c) ∈ ds → (b, c) ∈ es) → ∀ {rest} {r : List (Key × V)}, (revM h).Gives (Art.revTo q X rest) r →
        (revM h).Gives (Art.revTo q X (ds.map (fun e => some e.2) ++ rest)) (Ent.notAbove q (ds.flatMap fun e => (f e.1).reverse) ++ r) := by
      intro ds hds rest r hg
      induction ds with
      | nil => simpa [Ent.notAbove] using hg
      | cons d ds ihd =>
        obtain ⟨b, c⟩ := d
        have hb := hds b c (by simp)
        have h3 := ih b c hb (hf.sub fun e he => List.mem_append_right _ (List.mem_flatMap.2 ⟨_, hb, he⟩))
          (fun x hx' => hx x (by
            obtain ⟨y, hy, rfl⟩ := List.mem_map.1 hx'
            exact List.mem_map.2 ⟨y, List.mem_cons_of_mem _ (List.mem_flatMap.2 ⟨_, hb, hy⟩), rfl⟩))
          (ihd fun b c hb => hds b c (by simp [hb]))
        rw [List.flatMap_cons, notAbove_append, List.append_assoc]
        exact h3
    have hrc : n.revChildren = es.reverse.map fun e => some e.2 := by rw [Inner.revChildren, hL.iterChildren, List.map_reverse]
    have hrev : (vals ++ es.flatMap fun e => f e.1).reverse = (es.reverse.flatMap fun e => (f e.1).reverse) ++ vals.reverse := by
      rw [List.reverse_append, List.reverse_flatMap]; rfl
    have hax := hx a (by simp)
    rcases hown.inv with ⟨ho, rfl⟩ | ⟨l, lc, ho, rfl, hl, hkey⟩
    · rw [hrev, notAbove_append, List.reverse_nil]
      refine revTo_bare ha ho hax ?_
      rw [hrc, List.append_assoc]
      exact hkids es.reverse (fun b c hb => by simpa using hb) (by simpa [Ent.notAbove] using hg)
    · rw [hrev, notAbove_append, List.reverse_singleton]
      have hf1 : UpTo q [(lc.key, lc.value, l)] := hf.sub fun e he => by simp [List.mem_singleton.1 he]
      refine revTo_own ha ho hl hax hf1 ?_
      rw [hrc, List.append_assoc]
      exact hkids es.reverse (fun b c hb => by simpa using hb) (revTo_push hl ⟨_, hkey⟩ hf1 hg)

/-! ### Nodes with arrays -/

/-- The children by index. -/
theorem Layout.child_at (hL : Layout n es st) (hk : n.kind = .n4 ∨ n.kind = .n16) {i : Nat} (hi : i < es.length) :
    n.getChild (i : Nat) = .ok (some es[i].2) ∧ n.getKeyAtIdx i = .ok es[i].1 := by
  have key : ∀ {cap}, Arr cap n es st → n.getChild (i : Nat) = .ok (some es[i].2) ∧ n.getKeyAtIdx i = .ok es[i].1 := fun hA => by
    refine ⟨getChild_arr (by rcases hk with h | h <;> simp [h]) (hA.child hi), ?_⟩
    unfold Inner.getKeyAtIdx
    rcases hk with h | h <;> simp only [h, hA.key hi]
  rcases hL.kinds with ⟨-, h⟩ | ⟨-, h⟩ | ⟨h, -⟩ | ⟨h, -⟩
  · exact key h
  · exact key h
  · rcases hk with h' | h' <;> rw [h'] at h <;> cases h
  · rcases hk with h' | h' <;> rw [h'] at h <;> cases h

theorem mapM_childs (hL : Layout n es st) (hk : n.kind = .n4 ∨ n.kind = .n16) : ∀ {i : Nat}, i ≤ es.length →
    (List.range i).mapM (fun (j : Nat) => (Cell.inner n : Cell V).getChild j) = .ok ((es.take i).map fun e => some e.2)
  | 0, _ => rfl
  | i + 1, hi => by
    rw [List.range_succ, List.mapM_append, mapM_childs hL hk (by omega)]
    have h1 := (hL.child_at hk (i := i) (by omega)).1
    simp only [List.mapM_cons, List.mapM_nil, Except.bind_ok, Cell.getChild, h1, pure, Except.pure]
    rw [List.take_succ_eq_append_getElem (show i < es.length by omega), List.map_append]
    rfl

/-- `getLowerBoundCh`. -/
theorem Layout.lower (hL : Layout n es st) (hk : n.kind = .n4 ∨ n.kind = .n16) {l r : Edges} {b : Byte} (he : es = l ++ r)
    (hl : ∀ x ∈ l, x.1 < b) (hr : ∀ y ∈ r, ¬ y.1 < b) : n.getLowerBoundCh b = .ok (if r = [] then -1 else (l.length : Int)) := by
  have key : ∀ {cap}, Arr cap n es st → goSearch n.numChildren.toNat (fun i => (n.keys[i]?).getD 0 ≥ b) = l.length := fun hA => hA.searchGe hL.num he hl hr
  have h1 : goSearch n.numChildren.toNat (fun i => (n.keys[i]?).getD 0 ≥ b) = l.length := by
    rcases hL.kinds with ⟨-, h⟩ | ⟨-, h⟩ | ⟨h, -⟩ | ⟨h, -⟩
    · exact key h
    · exact key h
    · rcases hk with h' | h' <;> rw [h'] at h <;> cases h
    · rcases hk with h' | h' <;> rw [h'] at h <;> cases h
  have h2 : n.getLowerBoundCh b = .ok (if l.length < es.length then (l.length : Int) else -1) := by
    unfold Inner.getLowerBoundCh
    rcases hk with h | h <;> simp only [h] <;> rw [h1, hL.num]
  rw [h2, he]
  cases r <;> simp

theorem goSlice_ok {s : Key} {lo hi : Nat} (h1 : lo ≤ hi) (h2 : hi ≤ s.length) : goSlice s lo hi = .ok ((s.drop lo).take (hi - lo)) := by
  unfold goSlice; rw [if_pos ⟨h1, h2⟩, List.drop_take]

/-- The comparison of the prefix. -/
theorem revCmp_node {pfx Q : Key} (hh : Header n pfx) (h10 : pfx.length ≤ 10) (hle : p.length + pfx.length ≤ Q.length) :
    revCmp (.inner n : Cell V) Q extra p.length = .ok (cmpBytes pfx ((Q.drop p.length).take pfx.length)) := by
  unfold revCmp
  have hb : n.part.take pfx.length = pfx := by
    have := hh.bytes
    rwa [Nat.min_eq_right h10, List.take_of_length_le h10] at this
  simp only [Cell.part, Cell.partialLen, hh.len]
  rw [goSlice_ok (Nat.zero_le _) (by rw [hh.part]; exact h10)]
  simp only [Except.bind_ok, List.drop_zero, Nat.sub_zero, hb]
  by_cases hlt : pfx.length < Q.length
  · rw [if_pos hlt, goSlice_ok (by omega) (by rw [List.length_append]; omega), List.drop_append_of_le_length (by omega),
      List.take_append_of_le_length (by rw [List.length_drop]; omega)]
    simp only [Except.bind_ok, Nat.add_sub_cancel_left]; rfl
  · rw [if_neg hlt, goSlice_ok (by omega) (Nat.le_refl _)]
    have h1 : Q.length - p.length = pfx.length := by omega
    simp only [Except.bind_ok, h1]; rfl

theorem revCmp_wrap {Q : Key} {d : Nat} (hp : n.part.length = 10) (hw : n.partialLen = 0 ∨ n.partialLen = 10) (hd : d ≤ Q.length) (hQ : Q.length ≤ 10) :
    ∃ o, revCmp (.inner n : Cell V) Q extra d = .ok o := by
  unfold revCmp
  simp only [Cell.part, Cell.partialLen]
  rw [goSlice_ok (Nat.zero_le _) (by omega)]
  simp only [Except.bind_ok]
  by_cases hlt : n.partialLen < Q.length
  · simp only [if_pos hlt, goSlice_ok (show d ≤ d + n.partialLen by omega) (show d + n.partialLen ≤ (Q ++ extra).length by rw [List.length_append]; omega)]
    exact ⟨_, rfl⟩
  · simp only [if_neg hlt, goSlice_ok hd (Nat.le_refl _)]
    exact ⟨_, rfl⟩

/-- `prefixMismatch` when the whole prefix is stored. -/
theorem prefixMismatch_short {Q : Key} {d : Nat} (ha : h[a]? = some (.inner n)) (hp : n.part.length = 10) (hw : n.partialLen ≤ 10) :
    ∃ j, prefixMismatch h a Q Q.length d = .ok j ∧ ∀ pfx, Header n pfx → pfx <+: Q.drop d → pfx.length ≤ j := by
  unfold prefixMismatch
  simp only [rd_eq ha, Except.bind_ok, Cell.partialLen, Cell.part, maxPrefixLen]
  obtain ⟨j, stop, g1, -, g3, g4, g5, g6⟩ := scanEq_spec n.part (Q.drop d) (min (min 10 n.partialLen) (Q.length - d)) 0 (by omega) (by rw [List.length_drop]; omega)
  rw [g1]
  simp only [Except.bind_ok]
  refine ⟨j, ?_, fun pfx hh hpre => ?_⟩
  · cases stop
    · exact (if_neg (by simp)).trans (if_neg (by omega))
    · rfl
  · have hl := hpre.length_le
    rw [List.length_drop] at hl
    have hlen := hh.len
    cases stop with
    | false => have := g5 rfl; omega
    | true =>
      exfalso
      obtain ⟨g7, g8⟩ := g6 rfl
      refine g8 ?_
      rw [hh.byte (by omega) (by omega)]
      exact prefix_iff_get.1 hpre j (by omega)

/-- Different keys share no more bytes than the bound has, and its `'$'`. -/
def Shallow (q : Key) (E : List (Ent V)) : Prop := ∀ e ∈ E, ∀ e' ∈ E, e.1 ≠ e'.1 → ∀ P, P <+: getKey e.1 → P <+: getKey e'.1 → P.length ≤ q.length + 1

/-- The nodes with children are `Node4`s and `Node16`s. -/
def Slim (h : Heap V) (N : List (Key × Addr)) : Prop := ∀ x ∈ N.map (·.2), ∀ n, h[x]? = some (.inner n) → n.isLeaf = false → n.kind = .n4 ∨ n.kind = .n16

theorem prefix_of_edge {P k : Key} {b : Byte} (h1 : P ++ [b] <+: k ++ [dollar]) : P <+: k := by
  rcases prefix_dollar.1 h1 with h | h
  · exact (List.prefix_append _ _).trans h
  · rw [(snoc2 h).1]; exact List.prefix_refl _

/-- The path to the children of a node is not longer than the bound. -/
theorem shallow_node {P : Key} {vals : List (Ent V)} {f : Byte → List (Ent V)} {g : Byte → List (Key × Addr)} (hL : Layout n es st)
    (hown : OwnLeaf h P n.leaf vals) (hnd : n.leaf ≠ none → dollar ∉ es.map (·.1)) (hne : es ≠ []) (htw : n.leaf ≠ none ∨ 2 ≤ es.length)
    (hch : ∀ b c, (b, c) ∈ es → Rep h (P ++ [b]) c (f b) (g b)) (hs : Shallow q (vals ++ es.flatMap fun e => f e.1)) : P.length ≤ q.length + 1 := by
  have hkid : ∀ b c, (b, c) ∈ es → ∃ e, e ∈ es.flatMap (fun e => f e.1) ∧ P ++ [b] <+: e.1 ∧ P <+: getKey e.1 := fun b c hb => by
    obtain ⟨e, l, hl⟩ := List.exists_cons_of_ne_nil (hch b c hb).ne_nil
    have he : e ∈ f b := by rw [hl]; simp
    have hp := (hch b c hb).prefix e he
    obtain ⟨k, hk⟩ := (hch b c hb).dollar e he
    refine ⟨e, List.mem_flatMap.2 ⟨_, hb, he⟩, hp, ?_⟩
    rw [hk] at hp ⊢
    rw [getKey_snoc]
    exact prefix_of_edge hp
  have two : ∀ d1 ∈ es, ∀ d2 ∈ es, d1.1 ≠ d2.1 → P.length ≤ q.length + 1 := fun d1 h1 d2 h2 hd => by
    obtain ⟨e1, a1, b1, c1⟩ := hkid d1.1 d1.2 h1
    obtain ⟨e2, a2, b2, c2⟩ := hkid d2.1 d2.2 h2
    exact hs e1 (List.mem_append_right _ a1) e2 (List.mem_append_right _ a2) (fun he => hd (prefix_edge b1 (he ▸ b2))) P c1 c2
  rcases htw with h1 | h1
  · obtain ⟨⟨b, c⟩, es', rfl⟩ := List.exists_cons_of_ne_nil hne
    rcases hown.inv with ⟨ho, rfl⟩ | ⟨l, lc, ho, rfl, hl, hkey⟩
    · exact absurd ho h1
    · obtain ⟨e1, a1, b1, c1⟩ := hkid b c (by simp)
      refine hs e1 (List.mem_append_right _ a1) (lc.key, lc.value, l) (by simp) (fun he => ?_) P c1 (by simp only [hkey, getKey_snoc]; exact List.prefix_refl _)
      simp only [hkey] at he
      rw [he] at b1
      have := prefix_edge b1 (List.prefix_refl _)
      exact hnd h1 (by rw [← this]; simp)
  · match es, h1, hL.sorted, two with
    | d1 :: d2 :: es, _, hs', two =>
      refine two d1 (by simp) d2 (by simp) fun he => ?_
      have := (List.pairwise_cons.1 hs').1 d2 (by simp)
      rw [he] at this
      exact Byte.lt_irrefl this

theorem revPick_eq {Q : Key} {d : Nat} {seen : Bool} (hL : Layout n es st) (hk : n.kind = .n4 ∨ n.kind = .n16) (hne : es ≠ []) (hd : d < Q.length) :
    ∃ (i : Nat) (hi : i < es.length), revPick (.inner n : Cell V) Q d seen = .ok ((i : Int), seen || (es[i].1 != Q[d])) := by
  have hpos : 0 < es.length := List.length_pos_iff.2 hne
  obtain ⟨l, r, h1, h2, h3⟩ := hL.sorted.split Q[d]
  unfold revPick byteAt
  rw [List.getElem?_eq_getElem hd]
  simp only [Except.bind_ok, Cell.getLowerBoundCh, hL.lower hk h1 h2 h3, Cell.numChildren, hL.num]
  have hfin : ∀ (i : Nat) (hi : i < es.length), (if (i : Int) ≥ 0 then do
      let kb ← (Cell.inner n : Cell V).getKeyAtIdx (i : Int).toNat
      pure ((i : Int), seen || (kb != Q[d]))
    else pure ((i : Int), seen)) = (.ok ((i : Int), seen || (es[i].1 != Q[d])) : R (Int × Bool)) := fun i hi => by
    rw [if_pos (by omega), Int.toNat_natCast]
    simp only [Cell.getKeyAtIdx, (hL.child_at hk hi).2, Except.bind_ok]; rfl
  by_cases hc : (if r = [] then (-1 : Int) else (l.length : Int)) = -1 ∨ d = Q.length - 1
  · refine ⟨es.length - 1, by omega, ?_⟩
    rw [if_pos hc, ← hfin (es.length - 1) (by omega)]
    have : ((es.length - 1 : Nat) : Int) = (es.length : Int) - 1 := by omega
    rw [this]
  · have hr : r ≠ [] := fun hr => hc (Or.inl (if_pos hr))
    have hi : l.length < es.length := by rw [h1, List.length_append]; have := List.length_pos_iff.2 hr; omega
    refine ⟨l.length, hi, ?_⟩
    rw [if_neg hc, if_neg hr]
    exact hfin _ hi

/-- The loop ends in a stack from which the entries up to the bound are returned, then those of the old stack. -/
def SeekOK (h : Heap V) (q : Key) (E : List (Ent V)) (N : List (Key × Addr)) (stk : List (Option Addr)) (X : List Addr)
    (res : R (List (Option Addr) × List Addr)) : Prop :=
  ∃ stk' X', res = .ok (stk', X') ∧ (∀ x ∈ X, x ∈ X') ∧ (∀ x ∈ X', x ∈ X ∨ x ∈ N.map (·.2)) ∧
    ∀ r, (revM h).Gives (revTo q X' stk) r → (revM h).Gives (revTo q X' stk') (Ent.notAbove q E.reverse ++ r)

theorem SeekOK.push (hr : Rep h p a E N) (hf : UpTo q E) (hx : ∀ x ∈ N.map (·.2), x ∉ X) {stk : List (Option Addr)} :
    SeekOK h q E N stk X (.ok (some a :: stk, X)) :=
  ⟨_, _, rfl, fun _ h => h, fun _ h => Or.inl h, fun r hg => hr.revTo hf hx hg⟩

theorem Before.of_cmp {p pfx Q K : Key} (hp : p <+: Q) (hle : p.length + pfx.length ≤ Q.length) (hc : cmpBytes pfx ((Q.drop p.length).take pfx.length) = .gt)
    (hK : p ++ pfx <+: K) : Before Q K := by
  obtain ⟨Q', rfl⟩ := hp
  rw [List.drop_left] at hc
  rw [List.length_append] at hle
  obtain ⟨T, rfl⟩ := hK
  have key : ∀ (pfx Q' p : Key), pfx.length ≤ Q'.length → cmpBytes pfx (Q'.take pfx.length) = .gt → Before (p ++ Q') (p ++ pfx ++ T) := by
    intro pfx
    induction pfx with
    | nil => intro Q' p hl hc; simp [cmpBytes] at hc
    | cons x xs ih =>
      intro Q' p hl hc
      cases Q' with
      | nil => simp at hl
      | cons y ys =>
        simp only [List.length_cons, List.take_succ_cons, cmpBytes] at hc hl
        rcases Byte.lt_or_eq_or_lt x y with h | h | h
        · simp [h] at hc
        · subst h
          simp only [Byte.lt_irrefl, if_false] at hc
          have := ih ys (p ++ [x]) (by omega) hc
          simpa using this
        · exact ⟨p, y, x, h, by simp, by simp⟩
  exact key pfx Q' p (by omega) hc

theorem filterMap_kids : ∀ ds : Edges, (ds.map fun e => some e.2).filterMap (fun (o : Option Addr) => o.map some) = ds.map fun e => some e.2
  | [] => rfl
  | d :: ds => by rw [List.map_cons, List.filterMap_cons]; simp only [Option.map_some]; rw [filterMap_kids ds]

theorem Rep.revSeek (hno : ¬ Removals.allowed) (hq : q.length ≤ 9) (hr : Rep h p a E N) :
    UpTo q E → Shallow q E → Slim h N → ∀ (fuel : Nat) (seen : Bool) (stk : List (Option Addr)) (X : List Addr), p.length ≤ q.length + 1 → q.length + 2 ≤ fuel + p.length →
      (seen = false → p <+: q ++ [Art.dollar]) → (∀ x ∈ N.map (·.2), x ∉ X) →
      SeekOK h q E N stk X (revLoop h q (q ++ [Art.dollar]) extra fuel (some a) p.length seen stk X) := by
  have hQ : (q ++ [Art.dollar]).length = q.length + 1 := by simp
  induction hr with
  | @leaf p a n l lc ha hL hpart hw hleaf hl hp hd =>
    intro hf hs hsl fuel seen stk X hpl hfu hseen hx
    have hrep := Rep.leaf ha hL hpart hw hleaf hl hp hd
    obtain ⟨fuel, rfl⟩ : ∃ k, fuel = k + 1 := ⟨fuel - 1, by omega⟩
    rcases hw with hw | ⟨hkind, hw⟩
    · exact absurd hw hno
    have hpush := SeekOK.push (h := h) (stk := stk) hrep hf hx
    have hleafpush : SeekOK h q [(lc.key, lc.value, l)] [(p, a)] stk X (.ok (revPushLeaf (.inner n : Cell V) stk, X)) :=
      ⟨_, _, rfl, fun _ h => h, fun _ h => Or.inl h, fun r hg => by
        have : revPushLeaf (.inner n : Cell V) stk = some l :: stk := by simp [revPushLeaf, Cell.nodeLeaf, hleaf]
        rw [this, List.reverse_singleton]
        exact revTo_leaf hl hg⟩
    obtain ⟨o, ho⟩ := revCmp_wrap (V := V) (extra := extra) (Q := q ++ [Art.dollar]) (d := p.length) hpart hw (by omega) (by omega)
    have hlk : nodeLeafKey h a = .ok (some lc.key) := by
      unfold nodeLeafKey; simp only [rd_eq ha, Except.bind_ok, Cell.nodeLeaf, hleaf, rdLeaf_eq hl]; rfl
    have hil : n.isLeaf = true := hL.isLeaf_iff.2 ⟨rfl, by rw [hleaf]; nofun⟩
    rw [revLoop]
    simp only [rd_eq ha, Except.bind_ok, ho, hlk, revLeafDone, Cell.isLeaf, hil, if_true]
    split
    · exact hpush
    split
    · exact hleafpush
    split
    · exact hpush
    obtain ⟨j, hj, -⟩ := prefixMismatch_short (h := h) (Q := q ++ [Art.dollar]) (d := p.length) ha hpart (by omega)
    unfold revSkip
    by_cases hpl0 : n.partialLen = 0
    · have hc : ¬ (Cell.inner n : Cell V).partialLen > 0 := by simp only [Cell.partialLen]; omega
      rw [if_neg hc]
      simp only [Except.bind_ok, Bool.false_eq_true, if_false]
      split
      · exact hpush
      rename_i hge
      rw [ge_iff_le, Nat.not_le] at hge
      have hpk : revPick (.inner n : Cell V) (q ++ [Art.dollar]) p.length seen = .ok (-1, seen) := by
        unfold revPick byteAt
        rw [List.getElem?_eq_getElem hge]
        simp only [Except.bind_ok, Cell.getLowerBoundCh, hL.lower (l := []) (r := []) (Or.inl hkind) rfl (by simp) (by simp), if_true, Cell.numChildren, hL.num]
        rfl
      have hsome : (Cell.inner n : Cell V).nodeLeaf.isSome = true := by simp [Cell.nodeLeaf, hleaf]
      simp only [hpk, Except.bind_ok, hsome, if_true, Cell.numChildren, hL.num]
      have hidx : (if seen = true then ((([] : Edges).length : Nat) : Int) - 1 else -1) = -1 := by cases seen <;> rfl
      simp only [hidx]
      exact hpush
    · have hc : (Cell.inner n : Cell V).partialLen > 0 := by simp only [Cell.partialLen]; omega
      have h10 : n.partialLen = 10 := by omega
      rw [if_pos hc]
      simp only [hj, Except.bind_ok]
      split
      · simp only [pure, Except.pure, Except.bind_ok, if_true]
        exact hleafpush
      · simp only [pure, Except.pure, Except.bind_ok, Bool.false_eq_true, if_false, Cell.partialLen, h10]
        rw [if_pos (by omega)]
        exact hpush
  | @node p a n pfx es st vals f g ha hL hne hh hst hown hnd htw hch ih =>
    intro hf hs hsl fuel seen stk X hpl hfu hseen hx
    have hrep := Rep.node ha hL hne hh hst hown hnd htw hch
    obtain ⟨fuel, rfl⟩ : ∃ k, fuel = k + 1 := ⟨fuel - 1, by omega⟩
    have hPl := shallow_node hL hown hnd hne.ne (htw.resolve_left hno).2 hch hs
    rw [List.length_append] at hPl
    have hlf := hL.not_leaf hne.ne
    have hkind := hsl a (by simp) n ha hlf
    have hpush := SeekOK.push (h := h) (stk := stk) hrep hf hx
    have ho := revCmp_node (V := V) (extra := extra) (Q := q ++ [Art.dollar]) (p := p) hh (by omega) (by omega)
    obtain ⟨lk, hlk⟩ : ∃ lk, nodeLeafKey h a = .ok lk := by
      unfold nodeLeafKey
      simp only [rd_eq ha, Except.bind_ok, Cell.nodeLeaf]
      rcases hown.inv with ⟨ho, -⟩ | ⟨l, lc, ho, -, hl, -⟩
      · rw [ho]; exact ⟨_, rfl⟩
      · rw [ho]; simp only [rdLeaf_eq hl]; exact ⟨_, rfl⟩
    rw [revLoop]
    simp only [rd_eq ha, Except.bind_ok, ho, hlk, revLeafDone, Cell.isLeaf, hlf, Bool.false_eq_true, if_false]
    split
    · exact hpush
    rename_i hnlt
    split
    · rename_i hgt
      have hse : seen = false := by simpa using hgt.2
      have hbef : ∀ e ∈ vals ++ es.flatMap (fun e => f e.1), Before (q ++ [Art.dollar]) e.1 := fun e he =>
        Before.of_cmp (hseen hse) (by omega) hgt.1 (by
          rcases List.mem_append.1 he with he | he
          · rcases hown.inv with ⟨-, rfl⟩ | ⟨l, lc, -, rfl, hl, hk⟩
            · cases he
            · rw [List.mem_singleton.1 he, hk]; exact List.prefix_append _ _
          · obtain ⟨⟨b, c⟩, hb, he⟩ := List.mem_flatMap.1 he
            exact (List.prefix_append _ _).trans ((hch b c hb).prefix e he))
      refine ⟨_, _, rfl, fun _ h => h, fun _ h => Or.inl h, fun r hg => ?_⟩
      rw [notAbove_nil (hf.sub fun e he => List.mem_reverse.1 he) (fun e he => hrep.dollar e (List.mem_reverse.1 he)) (fun e he => hbef e (List.mem_reverse.1 he)), List.nil_append]
      rcases hown.inv with ⟨ho, rfl⟩ | ⟨l, lc, ho, rfl, hl, hk⟩
      · simpa [revPushLeaf, Cell.nodeLeaf, ho] using hg
      · have := revTo_leaf hl hg
        rw [notAbove_nil (hf.sub fun e he => by simp [List.mem_singleton.1 he]) (fun e he => by rw [List.mem_singleton.1 he]; exact ⟨_, hk⟩)
          (fun e he => hbef e (by simp [List.mem_singleton.1 he])), List.nil_append] at this
        simpa [revPushLeaf, Cell.nodeLeaf, ho] using this
    rename_i hngt
    -- skip the prefix
    have hskip : ∃ seen', revSkip h a (.inner n) (q ++ [Art.dollar]) seen p.length = .ok (false, seen', p.length + pfx.length) ∧ (seen' = false → seen = false ∧ pfx = []) := by
      unfold revSkip
      by_cases hpl0 : n.partialLen > 0
      · rw [if_pos (show (Cell.inner n : Cell V).partialLen > 0 from hpl0)]
        obtain ⟨j, hj, hj'⟩ := prefixMismatch_short (h := h) (Q := q ++ [Art.dollar]) (d := p.length) ha hh.part (by rw [hh.len]; omega)
        have hfull : seen = false → pfx.length ≤ j := fun hse => hj' pfx hh (by
          have heq : cmpBytes pfx (((q ++ [Art.dollar]).drop p.length).take pfx.length) = .eq := by
            cases hc : cmpBytes pfx (((q ++ [Art.dollar]).drop p.length).take pfx.length) with
            | eq => rfl
            | lt => exact absurd hc hnlt
            | gt => exact absurd ⟨hc, by simp [hse]⟩ hngt
          have := cmpBytes_eq.1 heq
          rw [this]; exact List.take_prefix _ _)
        simp only [hj, Except.bind_ok, Cell.partialLen, hh.len]
        have hlen := hh.len
        refine ⟨seen || decide (j > 0), ?_, fun h' => ?_⟩
        · rw [if_neg]
          · rfl
          · rintro ⟨h1, h2⟩
            have := hfull (by simpa using h2)
            omega
        · rw [Bool.or_eq_false_iff] at h'
          have := hfull h'.1
          have h2 := h'.2
          simp only [gt_iff_lt, decide_eq_false_iff_not] at h2
          omega
      · rw [if_neg (show ¬ (Cell.inner n : Cell V).partialLen > 0 from hpl0)]
        have h0 : pfx.length = 0 := by rw [← hh.len]; omega
        exact ⟨seen, by rw [h0]; rfl, fun h' => ⟨h', List.length_eq_zero_iff.1 h0⟩⟩
    obtain ⟨seen', hsk, hsk'⟩ := hskip
    rw [hsk]
    simp only [Except.bind_ok, Bool.false_eq_true, if_false]
    split
    · exact hpush
    rename_i hge
    rw [ge_iff_le, Nat.not_le] at hge
    obtain ⟨i, hi, hpk⟩ := revPick_eq (V := V) (Q := q ++ [Art.dollar]) (d := p.length + pfx.length) (seen := seen') hL hkind hne.ne hge
    simp only [hpk, Except.bind_ok, Cell.numChildren, hL.num]
    have hpos : 0 < es.length := List.length_pos_iff.2 hne.ne
    generalize hs2 : (seen' || es[i].1 != (q ++ [Art.dollar])[p.length + pfx.length]) = seen2
    obtain ⟨i2, hi2, hidx, hcase⟩ : ∃ (i2 : Nat) (hi2 : i2 < es.length), (if seen2 = true then (es.length : Int) - 1 else (i : Int)) = (i2 : Int) ∧
        ((seen2 = true ∧ i2 + 1 = es.length) ∨ (seen2 = false ∧ seen' = false ∧ es[i2].1 = (q ++ [Art.dollar])[p.length + pfx.length])) := by
      cases seen2 with
      | true => exact ⟨es.length - 1, by omega, by rw [if_pos rfl]; omega, Or.inl ⟨rfl, by omega⟩⟩
      | false =>
        rw [Bool.or_eq_false_iff] at hs2
        exact ⟨i, hi, by rw [if_neg (by simp)], Or.inr ⟨rfl, hs2.1, by simpa using hs2.2⟩⟩
    simp only [hidx, Int.toNat_natCast]
    rw [mapM_childs hL hkind (by omega)]
    have hm1 : ¬ ((i2 : Int) = -1) := by omega
    simp only [Except.bind_ok, hm1, if_false, Cell.getChild, (hL.child_at hkind hi2).1]
    obtain ⟨⟨b, c⟩, hbc⟩ : ∃ d, es[i2] = d := ⟨_, rfl⟩
    have hsplit : es = es.take i2 ++ (b, c) :: es.drop (i2 + 1) := by
      rw [← hbc, ← List.drop_eq_getElem_cons hi2, List.take_append_drop]
    have hmem : (b, c) ∈ es := by rw [← hbc]; exact List.getElem_mem _
    simp only [hbc]
    have hfm : ((es.take i2).map fun e => some e.2).filterMap (fun (o : Option Addr) => o.map some) = (es.take i2).map fun e => some e.2 := filterMap_kids _
    rw [hfm]
    have hsort := hL.sorted
    rw [hsplit] at hsort
    obtain ⟨hlt, hgt⟩ := hsort.lt_left
    have hrec := ih b c hmem (hf.sub fun e he => List.mem_append_right _ (List.mem_flatMap.2 ⟨_, hmem, he⟩))
      (fun e he e' he' => hs e (List.mem_append_right _ (List.mem_flatMap.2 ⟨_, hmem, he⟩)) e' (List.mem_append_right _ (List.mem_flatMap.2 ⟨_, hmem, he'⟩)))
      (fun x hx' => hsl x (by
        obtain ⟨y, hy, rfl⟩ := List.mem_map.1 hx'
        exact List.mem_map.2 ⟨y, List.mem_cons_of_mem _ (List.mem_flatMap.2 ⟨_, hmem, hy⟩), rfl⟩))
      fuel seen2 (((es.take i2).map fun e => some e.2).reverse ++ if (Cell.inner n : Cell V).nodeLeaf.isSome = true then some a :: stk else stk) (a :: X)
      (by simp only [List.length_append, List.length_singleton]; omega) (by simp only [List.length_append, List.length_singleton]; omega)
      (fun h' => by
        rcases hcase with ⟨h1, -⟩ | ⟨-, h1, h2⟩
        · rw [h1] at h'; cases h'
        · obtain ⟨h3, rfl⟩ := hsk' h1
          obtain ⟨t, ht⟩ := hseen h3
          rw [hbc] at h2
          simp only [List.append_nil, List.length_nil, Nat.add_zero] at h2 ⊢
          refine prefix_iff_get.2 fun j hj => ?_
          simp only [List.length_append, List.length_singleton] at hj
          by_cases hj' : j < p.length
          · rw [List.getElem?_append_left hj', ← ht, List.getElem?_append_left hj']
          · have : j = p.length := by omega
            subst this
            rw [List.getElem?_append_right (Nat.le_refl _), Nat.sub_self, List.getElem?_eq_getElem (l := q ++ [Art.dollar]) (by simp only [List.length_nil, Nat.add_zero] at hge; exact hge)]
            simp [h2])
      (fun x hx' hin => by
        rcases List.mem_cons.1 hin with rfl | hin
        · exact Rep.notin ha hL hne hh hst hown hnd htw hch hmem (Or.inl hx')
        · refine hx x ?_ hin
          obtain ⟨y, hy, rfl⟩ := List.mem_map.1 hx'
          exact List.mem_map.2 ⟨y, List.mem_cons_of_mem _ (List.mem_flatMap.2 ⟨_, hmem, hy⟩), rfl⟩)
    have hlen : (p ++ pfx ++ [b]).length = p.length + pfx.length + 1 := by simp only [List.length_append, List.length_singleton]
    rw [hlen] at hrec
    obtain ⟨stk', X', e1, e2, e3, e4⟩ := hrec
    refine ⟨stk', X', e1, fun x hx' => e2 x (List.mem_cons_of_mem _ hx'), fun x hx' => ?_, fun r hg => ?_⟩
    · rcases e3 x hx' with h1 | h1
      · rcases List.mem_cons.1 h1 with rfl | h1
        · exact Or.inr (by simp)
        · exact Or.inl h1
      · obtain ⟨y, hy, rfl⟩ := List.mem_map.1 h1
        exact Or.inr (List.mem_map.2 ⟨y, List.mem_cons_of_mem _ (List.mem_flatMap.2 ⟨_, hmem, hy⟩), rfl⟩)
    · -- the own leaf
      have g1 : (revM h).Gives (Art.revTo q X' (if (Cell.inner n : Cell V).nodeLeaf.isSome = true then some a :: stk else stk)) (Ent.notAbove q vals.reverse ++ r) := by
        rcases hown.inv with ⟨ho, rfl⟩ | ⟨l, lc, ho, rfl, hl, hk⟩
        · rw [if_neg (by simp [Cell.nodeLeaf, ho])]
          simpa [Ent.notAbove] using hg
        · rw [if_pos (by simp [Cell.nodeLeaf, ho]), List.reverse_singleton]
          exact revTo_expanded ha ho hl (e2 a (by simp)) ⟨_, hk⟩ (hf.sub fun e he => by simp [List.mem_singleton.1 he]) hg
      -- the children before
      have hsib : ∀ d ∈ es.take i2, ∀ x ∈ (g d.1).map (·.2), x ∉ X' := fun d hd x hx' hin => by
        have hd' := List.mem_of_mem_take hd
        rcases e3 x hin with h1 | h1
        · rcases List.mem_cons.1 h1 with rfl | h1
          · exact Rep.notin ha hL hne hh hst hown hnd htw hch (b := d.1) (c := d.2) hd' (Or.inl hx')
          · refine hx x ?_ h1
            obtain ⟨y, hy, rfl⟩ := List.mem_map.1 hx'
            exact List.mem_map.2 ⟨y, List.mem_cons_of_mem _ (List.mem_flatMap.2 ⟨_, hd', hy⟩), rfl⟩
        · exact Rep.disjoint (hch d.1 d.2 hd') (hch b c hmem) (fun he => Byte.lt_irrefl (he ▸ hlt d hd)) (Or.inl hx') (Or.inl h1)
      have g2 : ∀ ds : Edges, (∀ d ∈ ds, d ∈ es.take i2) → ∀ {rest} {r : List (Key × V)}, (revM h).Gives (Art.revTo q X' rest) r →
          (revM h).Gives (Art.revTo q X' (ds.map (fun e => some e.2) ++ rest)) (Ent.notAbove q (ds.flatMap fun e => (f e.1).reverse) ++ r) := by
        intro ds hds rest r hg
        induction ds with
        | nil => simpa [Ent.notAbove] using hg
        | cons d ds ihd =>
          have hd := hds d (by simp)
          have hd' := List.mem_of_mem_take hd
          have h3 := (hch d.1 d.2 hd').revTo (hf.sub fun e he => List.mem_append_right _ (List.mem_flatMap.2 ⟨_, hd', he⟩)) (hsib d hd)
            (ihd fun d' hd'' => hds d' (by simp [hd'']))
          rw [List.flatMap_cons, notAbove_append, List.append_assoc]
          exact h3
      have g3 := e4 _ (by
        rw [← List.map_reverse]
        exact g2 (es.take i2).reverse (fun d hd => List.mem_reverse.1 hd) g1)
      -- the children behind
      have hout : Ent.notAbove q ((es.drop (i2 + 1)).flatMap fun e => f e.1).reverse = [] := by
        rcases hcase with ⟨-, h1⟩ | ⟨-, h1, h2⟩
        · rw [h1, List.drop_length]; rfl
        · have hin : ∀ e ∈ ((es.drop (i2 + 1)).flatMap fun e => f e.1).reverse, ∃ d ∈ es.drop (i2 + 1), e ∈ f d.1 := fun e he => by
            rw [List.mem_reverse] at he
            exact List.mem_flatMap.1 he
          obtain ⟨h3, rfl⟩ := hsk' h1
          obtain ⟨t, ht⟩ := hseen h3
          rw [hbc] at h2
          refine notAbove_nil (hf.sub fun e he => ?_) (fun e he => ?_) fun e he => ?_
          · obtain ⟨d, hd, he⟩ := hin e he
            exact List.mem_append_right _ (List.mem_flatMap.2 ⟨d, List.mem_of_mem_drop hd, he⟩)
          · obtain ⟨d, hd, he⟩ := hin e he
            exact (hch d.1 d.2 (List.mem_of_mem_drop hd)).dollar e he
          · obtain ⟨d, hd, he⟩ := hin e he
            refine ⟨p, b, d.1, hgt d hd, ?_, ?_⟩
            · refine prefix_iff_get.2 fun j hj => ?_
              simp only [List.length_append, List.length_singleton] at hj
              by_cases hj' : j < p.length
              · rw [List.getElem?_append_left hj', ← ht, List.getElem?_append_left hj']
              · have : j = p.length := by omega
                subst this
                rw [List.getElem?_append_right (Nat.le_refl _), Nat.sub_self, List.getElem?_eq_getElem (l := q ++ [Art.dollar]) (by simp only [List.length_nil, Nat.add_zero] at hge; exact hge)]
                simp only [List.length_nil, Nat.add_zero] at h2
                simp [h2]
            · have := (hch d.1 d.2 (List.mem_of_mem_drop hd)).prefix e he
              rwa [List.append_nil] at this
      have hE : Ent.notAbove q (vals ++ es.flatMap fun e => f e.1).reverse =
          Ent.notAbove q (f b).reverse ++ (Ent.notAbove q ((es.take i2).reverse.flatMap fun e => (f e.1).reverse) ++ Ent.notAbove q vals.reverse) := by
        have h1 : (es.flatMap fun e => f e.1) = ((es.take i2).flatMap fun e => f e.1) ++ (f b ++ (es.drop (i2 + 1)).flatMap fun e => f e.1) := by
          conv => lhs; rw [hsplit, List.flatMap_append, List.flatMap_cons]
        have h2 : ((es.take i2).flatMap fun e => f e.1).reverse = (es.take i2).reverse.flatMap fun e => (f e.1).reverse := by rw [List.reverse_flatMap]; rfl
        rw [h1, List.reverse_append, List.reverse_append, List.reverse_append, notAbove_append, notAbove_append, notAbove_append, hout, h2, List.nil_append, List.append_assoc]
      rw [hE]
      simpa [List.append_assoc] using g3

theorem notAbove_eq (F : List (Ent V)) : Ent.notAbove q F = (F.map Ent.out).filter fun e => decide (cmpBytes e.1 q ≠ .gt) := by
  rw [Ent.notAbove, List.filter_map]
  congr 2
  funext e
  simp only [leBytes, Function.comp, Ent.out]
  by_cases hc : cmpBytes (getKey e.1) q = .gt <;> simp [hc]

theorem ViewOf.revBound [Inhabited V] {ex : Bool} {t : Tree} {full : Bool} (hno : ¬ Removals.allowed) (hv : ViewOf ex h t.root t.size full m) (hne : m ≠ [])
    (hb : m.Bounded q) (hw : m.Narrow 12) :
    ∃ l, Ends (iterReverseLowerBound h t q extra) l ∧ l.Perm (m.filter fun e => cmpBytes e.1 q ≠ .gt) ∧ (m.Ordered → l.Pairwise fun a b => Key.lt b.1 a.1) := by
  obtain ⟨E, N, hr, ha⟩ := hv.entries hne
  have hmem : ∀ e ∈ E, m.has (getKey e.1) := fun e he => by
    obtain ⟨k, hk⟩ := hr.dollar e he
    rw [hk, getKey_snoc]
    exact ⟨_, ha.mem he hk⟩
  have hf : UpTo q E := ⟨fun e he b h1 => hb.up _ b (hmem e he) h1, fun e he h1 => hb.off _ (hmem e he) h1⟩
  have hs : Shallow q E := fun e he e' he' hk P h1 h2 => by
    refine hb.shallow _ _ P (hmem e he) (hmem e' he') (fun heq => hk ?_) h1 h2
    obtain ⟨k, hk1⟩ := hr.dollar e he
    obtain ⟨k', hk2⟩ := hr.dollar e' he'
    rw [hk1, hk2, getKey_snoc, getKey_snoc] at heq
    rw [hk1, hk2, heq]
  have hsl : Slim h N := fun x hx n hn hlf => by
    obtain ⟨h1, h2, h3⟩ := hr.narrow (ha.narrow hr hw) x hx n hn hlf
    cases hk : n.kind with
    | n4 => exact Or.inl rfl
    | n16 => exact Or.inr rfl
    | n48 => have := h2 hk; omega
    | n256 => have := h3 hk; omega
  obtain ⟨stk, X, e1, -, -, e4⟩ := hr.revSeek (extra := extra) hno hb.short hf hs hsl (q.length + 2) false [] [] (by simp) (by simp) (fun _ => List.nil_prefix) (by simp)
  have hg := e4 [] revTo_nil
  rw [List.append_nil] at hg
  have hpos : seekReverseLowerBound h (mkRevIter t.root) q extra = .ok (revTo q X stk) := by
    unfold seekReverseLowerBound getTreeKey mkRevIter
    have : (q ++ [dollar]).length + 1 = q.length + 2 := by simp
    simp only [this]
    rw [show ([] : Key).length = 0 from rfl] at e1
    rw [e1]
    rfl
  refine ⟨Ent.notAbove q E.reverse, ?_, ?_, fun ho => ?_⟩
  · have := Machine.Gives.ends (revM h) hg
    unfold iterReverseLowerBound
    rw [hpos]
    exact this
  · rw [notAbove_eq, List.map_reverse]
    exact ((List.reverse_perm _).trans (ha.perm hr hv.nodup)).filter _
  · rw [notAbove_eq, List.map_reverse]
    refine (List.Pairwise.sublist List.filter_sublist ?_)
    rw [List.pairwise_reverse]
    exact ha.sorted hr ho

end Art
