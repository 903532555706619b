import Verif.Spec
import Verif.Proofs.RepIter
/-
The map that a well-formed tree stands for, and what each call does to it.
-/
set_option autoImplicit false
set_option linter.unusedVariables false
set_option linter.unusedSimpArgs false
set_option linter.unusedSectionVars false
namespace Art
variable {V : Type} [Removals] {s s' : St V} {h h' : Heap V} {E E' : List (Ent V)} {N N' : List (Key × Addr)} {k : Key} {v : V} {a : Addr} {full : Bool} {m : Map V} {sz : UInt64} {ex : Bool}

/-! ### Maps -/

theorem Map.has_iff : m.has k ↔ k ∈ m.map (·.1) := by
  unfold Map.has
  rw [List.mem_map]
  exact ⟨fun ⟨v, hv⟩ => ⟨_, hv, rfl⟩, fun ⟨e, he, hk⟩ => ⟨e.2, by rw [← hk]; exact he⟩⟩

theorem Map.get_none (hk : ¬ m.has k) : m.get k = none := by
  unfold Map.get
  rw [List.find?_eq_none.2 fun e he => ?_]
  · rfl
  · simp only [decide_eq_true_eq]
    rintro rfl
    exact hk ⟨e.2, he⟩

theorem Map.get_some (hn : (m.map (·.1)).Nodup) (hk : (k, v) ∈ m) : m.get k = some v := by
  unfold Map.get
  induction m with
  | nil => cases hk
  | cons e m ih =>
    rw [List.map_cons, List.nodup_cons] at hn
    rw [List.find?_cons]
    by_cases he : e.1 = k
    · simp only [he, decide_true, Option.map_some, Option.some.injEq]
      rcases List.mem_cons.1 hk with h | h
      · rw [← h]
      · exact absurd (List.mem_map.2 ⟨_, h, he.symm⟩) hn.1
    · simp only [he, decide_false]
      rcases List.mem_cons.1 hk with h | h
      · exact absurd (by rw [← h]) he
      · exact ih hn.2 h

theorem Map.mem_of_get (hk : m.get k = some v) : (k, v) ∈ m := by
  unfold Map.get at hk
  obtain ⟨e, h1, h2⟩ := Option.map_eq_some_iff.1 hk
  have h3 := List.find?_some h1
  simp only [decide_eq_true_eq] at h3
  have h4 := List.mem_of_find?_eq_some h1
  rw [← h2, ← h3]; exact h4

theorem Map.mem_del {k' : Key} {v' : V} : (k', v') ∈ m.del k ↔ k' ≠ k ∧ (k', v') ∈ m := by
  unfold Map.del
  rw [List.mem_filter]
  simp [and_comm]

theorem Map.mem_set {k' : Key} {v' : V} : (k', v') ∈ m.set k v ↔ (k' = k ∧ v' = v) ∨ (k' ≠ k ∧ (k', v') ∈ m) := by
  unfold Map.set
  rw [List.mem_cons, Map.mem_del, Prod.mk.injEq]

theorem Map.nodup_del (hn : (m.map (·.1)).Nodup) : ((m.del k).map (·.1)).Nodup :=
  hn.sublist (List.filter_sublist.map _)

theorem Map.nodup_set (hn : (m.map (·.1)).Nodup) : ((m.set k v).map (·.1)).Nodup := by
  unfold Map.set
  rw [List.map_cons, List.nodup_cons]
  refine ⟨fun h => ?_, Map.nodup_del hn⟩
  obtain ⟨e, he, hk⟩ := List.mem_map.1 h
  exact (Map.mem_del.1 (show (e.1, e.2) ∈ m.del k from he)).1 hk

theorem Map.length_del (hn : (m.map (·.1)).Nodup) (hk : m.has k) : (m.del k).length + 1 = m.length := by
  induction m with
  | nil => obtain ⟨v, hv⟩ := hk; cases hv
  | cons e m ih =>
    rw [List.map_cons, List.nodup_cons] at hn
    have hd : Map.del (e :: m) k = if e.1 ≠ k then e :: Map.del m k else Map.del m k := by
      unfold Map.del
      rw [List.filter_cons]
      by_cases he : e.1 = k <;> simp [he]
    rw [hd]
    by_cases he : e.1 = k
    · simp only [he, ne_eq, not_true_eq_false, if_false, List.length_cons]
      congr 1
      unfold Map.del
      rw [List.filter_eq_self.2 fun x hx => ?_]
      simp only [decide_eq_true_eq]
      intro h
      exact hn.1 (List.mem_map.2 ⟨x, hx, by rw [he]; exact h⟩)
    · rw [if_pos he, List.length_cons, List.length_cons]
      congr 1
      refine ih hn.2 ?_
      obtain ⟨v, hv⟩ := hk
      rcases List.mem_cons.1 hv with h | h
      · exact absurd (by rw [← h]) he
      · exact ⟨v, h⟩

theorem Map.del_absent (hk : ¬ m.has k) : m.del k = m := by
  unfold Map.del
  refine List.filter_eq_self.2 fun x hx => ?_
  simp only [decide_eq_true_eq]
  rintro rfl
  exact hk ⟨x.2, hx⟩

/-- The entries stand for the map. -/
def Abs (E : List (Ent V)) (m : Map V) : Prop := ∀ k v, (k, v) ∈ m ↔ ∃ x, (k ++ [dollar], v, x) ∈ E

theorem Abs.has (ha : Abs E m) : m.has k ↔ ∃ e ∈ E, e.1 = k ++ [dollar] := by
  constructor
  · rintro ⟨v, hv⟩
    obtain ⟨x, hx⟩ := (ha k v).1 hv
    exact ⟨_, hx, rfl⟩
  · rintro ⟨⟨K, v, x⟩, he, rfl⟩
    exact ⟨v, (ha k v).2 ⟨x, he⟩⟩

theorem Abs.mem (ha : Abs E m) {e : Ent V} (he : e ∈ E) (hk : e.1 = k ++ [dollar]) : (k, e.2.1) ∈ m := by
  obtain ⟨K, v, x⟩ := e
  simp only at hk
  subst hk
  exact (ha k v).2 ⟨x, he⟩

theorem snoc_inj {k k' : Key} : k ++ [dollar] = k' ++ [dollar] ↔ k = k' :=
  ⟨fun h => (List.append_inj' h rfl).1, fun h => by rw [h]⟩

theorem Abs.set (ha : Abs E m) (he : Evo (k ++ [dollar]) (some v) s s' E E' N N') : Abs E' (m.set k v) := fun k' v' => by
  rw [Map.mem_set]
  constructor
  · rintro (⟨rfl, rfl⟩ | ⟨hne, hm⟩)
    · obtain ⟨⟨K, w, x⟩, h1, h2⟩ := he.new v' rfl
      simp only [Ent.kv, Prod.mk.injEq] at h2
      obtain ⟨rfl, rfl⟩ := h2
      exact ⟨x, h1⟩
    · obtain ⟨x, hx⟩ := (ha k' v').1 hm
      obtain ⟨⟨K, w, y⟩, h1, h2, -⟩ := he.fwd _ hx (fun h => hne (snoc_inj.1 h))
      simp only [Ent.kv, Prod.mk.injEq] at h2
      obtain ⟨rfl, rfl⟩ := h2
      exact ⟨y, h1⟩
  · rintro ⟨x, hx⟩
    rcases he.back _ hx with ⟨h1, h2⟩ | ⟨h1, ⟨K, w, y⟩, h2, h3⟩
    · simp only [Option.some.injEq] at h2
      exact Or.inl ⟨snoc_inj.1 h1, h2.symm⟩
    · simp only [Ent.kv, Prod.mk.injEq] at h3
      obtain ⟨rfl, rfl⟩ := h3
      exact Or.inr ⟨fun h => h1 (snoc_inj.2 h), (ha _ _).2 ⟨y, h2⟩⟩

theorem Abs.del (ha : Abs E m) (he : Evo (k ++ [dollar]) none s s' E E' N N') : Abs E' (m.del k) := fun k' v' => by
  rw [Map.mem_del]
  constructor
  · rintro ⟨hne, hm⟩
    obtain ⟨x, hx⟩ := (ha k' v').1 hm
    obtain ⟨⟨K, w, y⟩, h1, h2, -⟩ := he.fwd _ hx (fun h => hne (snoc_inj.1 h))
    simp only [Ent.kv, Prod.mk.injEq] at h2
    obtain ⟨rfl, rfl⟩ := h2
    exact ⟨y, h1⟩
  · rintro ⟨x, hx⟩
    rcases he.back _ hx with ⟨h1, h2⟩ | ⟨h1, ⟨K, w, y⟩, h2, h3⟩
    · cases h2
    · simp only [Ent.kv, Prod.mk.injEq] at h3
      obtain ⟨rfl, rfl⟩ := h3
      exact ⟨fun h => h1 (snoc_inj.2 h), (ha _ _).2 ⟨y, h2⟩⟩

theorem RootRep.dollar (hr : RootRep h a full E N) : ∀ e ∈ E, ∃ k, e.1 = k ++ [dollar] := by
  cases hr with
  | empty => intro e he; cases he
  | tree hr => exact hr.dollar

theorem RootRep.abs_nil (hr : RootRep h a full E N) (ha : Abs E m) : m = [] ↔ E = [] := by
  constructor
  · rintro rfl
    cases E with
    | nil => rfl
    | cons e E =>
      obtain ⟨k, hk⟩ := hr.dollar e (by simp)
      have := ha.mem (List.mem_cons_self) hk
      cases this
  · rintro rfl
    cases m with
    | nil => rfl
    | cons e m =>
      obtain ⟨x, hx⟩ := (ha e.1 e.2).1 (by simp)
      cases hx

/-- Prefixes of a string that ends in `'$'`. -/
theorem prefix_dollar {p k : Key} : p <+: k ++ [dollar] ↔ p <+: k ∨ p = k ++ [dollar] := by
  constructor
  · rintro ⟨t, ht⟩
    rcases List.eq_nil_or_concat t with rfl | ⟨t', b, rfl⟩
    · exact Or.inr (by simpa using ht)
    · rw [List.concat_eq_append, ← List.append_assoc] at ht
      exact Or.inl ⟨t', (List.append_inj' ht rfl).1⟩
  · rintro (h | rfl)
    · exact h.trans (List.prefix_append _ _)
    · exact List.prefix_refl _

theorem InsOK.of_canPut (hr : RootRep h a full E N) (ha : Abs E m) (hc : m.CanPut k) : InsOK (k ++ [dollar]) E where
  hd := ⟨k, rfl⟩
  sep1 := fun e he hne hp => by
    obtain ⟨k', hk'⟩ := hr.dollar e he
    rcases prefix_dollar.1 hp with h | h
    · exact (hc.dollar k' (ha.has.2 ⟨e, he, hk'⟩)).1 (hk' ▸ h)
    · exact hne h
  sep2 := fun e he hne hp => by
    obtain ⟨k', hk'⟩ := hr.dollar e he
    rw [hk'] at hp
    rcases prefix_dollar.1 hp with h | h
    · exact (hc.dollar k' (ha.has.2 ⟨e, he, hk'⟩)).2 h
    · exact hne (hk'.trans h.symm)
  gap := fun P => by
    obtain ⟨b, h1, h2⟩ := hc.room P
    refine ⟨b, h1, fun e he hp => ?_⟩
    obtain ⟨k', hk'⟩ := hr.dollar e he
    exact h2 k' (ha.has.2 ⟨e, he, hk'⟩) (hk' ▸ hp)

theorem Map.CanSet.put (hc : m.CanSet k) : m.CanPut k := ⟨hc.dollar, hc.room⟩

/-- In the map: the key is a proper prefix of another one. -/
theorem Over.shadowed (hr : RootRep h a full E N) (ha : Abs E m) (ho : Over (k ++ [dollar]) E) (hd : ∀ k', m.has k' → ¬ k' ++ [dollar] <+: k) : m.Shadowed k := by
  obtain ⟨h1, k0, h2, e, he, hne, hp⟩ := ho
  have := snoc_inj.1 h2
  subst this
  obtain ⟨k', hk'⟩ := hr.dollar e he
  have hhas := ha.has.2 ⟨e, he, hk'⟩
  refine ⟨ha.has.2 h1, k', hhas, fun h => hne (by rw [hk', h]), ?_⟩
  rw [hk'] at hp
  rcases prefix_dollar.1 hp with h | h
  · exact h
  · exact absurd (h ▸ List.prefix_refl _) (hd k' hhas)

/-! ### Views -/

/-- The root `a`, with the size `sz`, is a tree for the map `m`.  `ex` says that the size is right; otherwise it may be
too large. -/
structure ViewOf (ex : Bool) (h : Heap V) (a : Addr) (sz : UInt64) (full : Bool) (m : Map V) : Prop where
  rep : ∃ E N, RootRep h a full E N ∧ Abs E m
  nodup : (m.map (·.1)).Nodup
  size : m.length ≤ sz.toNat ∧ (ex = true → sz.toNat = m.length)
  small : sz.toNat < 2 ^ 63

/-- The root `a`, with the right size `sz`, is a tree for the map `m`. -/
abbrev View (h : Heap V) (a : Addr) (sz : UInt64) (full : Bool) (m : Map V) : Prop := ViewOf true h a sz full m

theorem Phantom.same {S : Addr → Prop} (hs : Same h h' S) (hp : Phantom h a full) (ha : S a) : Phantom h' a full := by
  obtain ⟨n, l, lc, h1, h2, h3, h4, h5, h6, h7⟩ := hp
  obtain ⟨c, k, g1, g2, g3⟩ := hs.cell ha
  rw [h1] at g1; cases g1
  have hl : S l := g3 l (Or.inl h3)
  obtain ⟨c, k', g4, g5, -⟩ := hs.cell hl
  rw [h4] at g4; cases g4
  exact ⟨{ n with ch := k }, l, { lc with ch := k' }, g2, h2.congr rfl rfl rfl rfl, h3, g5, h5, h6, h7⟩

theorem RootRep.same {S : Addr → Prop} (hs : Same h h' S) (hr : RootRep h a full E N) (ha : S a) : RootRep h' a full E N := by
  cases hr with
  | empty hp => exact .empty (hp.same hs ha)
  | tree hr => exact .tree (hr.same hs ha).1

theorem ViewOf.same {S : Addr → Prop} (hs : Same h h' S) (hv : ViewOf ex h a sz full m) (ha : S a) : ViewOf ex h' a sz full m := by
  obtain ⟨⟨E, N, h1, h2⟩, h3, h4, h5⟩ := hv
  exact ⟨⟨E, N, h1.same hs ha, h2⟩, h3, h4, h5⟩

theorem ViewOf.weaken (hv : ViewOf ex h a sz full m) : ViewOf ex h a sz false m := by
  obtain ⟨⟨E, N, h1, h2⟩, h3, h4, h5⟩ := hv
  exact ⟨⟨E, N, h1.weaken, h2⟩, h3, h4, h5⟩

theorem ViewOf.loose (hv : ViewOf ex h a sz full m) : ViewOf false h a sz full m :=
  ⟨hv.rep, hv.nodup, ⟨hv.size.1, fun h => nomatch h⟩, hv.small⟩

omit [Removals] in
/-- What is known without removals holds with them. -/
theorem Rep.mono {P Q : Prop} {p : Key} (hPQ : P → Q) (hr : @Rep V ⟨P⟩ h p a E N) : @Rep V ⟨Q⟩ h p a E N := by
  induction hr with
  | leaf ha hL hpart hw hleaf hl hp hd => exact @Rep.leaf V ⟨Q⟩ _ _ _ _ _ _ ha hL hpart (hw.imp_left hPQ) hleaf hl hp hd
  | node ha hL hne hh hst hown hnd htw hch ih => exact @Rep.node V ⟨Q⟩ _ _ _ _ _ _ _ _ _ _ ha hL hne hh hst hown hnd (htw.imp_left hPQ) ih

omit [Removals] in
theorem RootRep.mono {P Q : Prop} (hPQ : P → Q) (hr : @RootRep V ⟨P⟩ h a full E N) : @RootRep V ⟨Q⟩ h a full E N := by
  cases hr with
  | empty hp => exact @RootRep.empty V ⟨Q⟩ _ _ _ hp
  | tree hr => exact @RootRep.tree V ⟨Q⟩ _ _ _ _ _ (hr.mono hPQ)

omit [Removals] in
theorem ViewOf.mono {P Q : Prop} (hPQ : P → Q) (hv : @ViewOf V ⟨P⟩ ex h a sz full m) : @ViewOf V ⟨Q⟩ ex h a sz full m := by
  obtain ⟨⟨E, N, h1, h2⟩, h3, h4, h5⟩ := hv
  exact @ViewOf.mk V ⟨Q⟩ _ _ _ _ _ _ ⟨E, N, h1.mono hPQ, h2⟩ h3 h4 h5

omit [Removals] in
/-- An empty tree is as good as new. -/
theorem ViewOf.mono_nil {P Q : Prop} (hPQ : m ≠ [] → Q) (hv : @ViewOf V ⟨P⟩ ex h a sz full m) : @ViewOf V ⟨Q⟩ ex h a sz full m := by
  by_cases hm : m = []
  · obtain ⟨⟨E, N, h1, h2⟩, h3, h4, h5⟩ := hv
    refine @ViewOf.mk V ⟨Q⟩ _ _ _ _ _ _ ⟨E, N, ?_, h2⟩ h3 h4 h5
    cases h1 with
    | empty hp => exact @RootRep.empty V ⟨Q⟩ _ _ _ hp
    | tree hr =>
      exfalso
      letI : Removals := ⟨P⟩
      obtain ⟨e, he⟩ := List.exists_mem_of_ne_nil _ hr.ne_nil
      obtain ⟨k, hk⟩ := hr.dollar e he
      have := (h2 k e.2.1).2 ⟨e.2.2, by rw [← hk]; exact he⟩
      rw [hm] at this; cases this
  · exact hv.mono fun _ => hPQ hm

theorem len_toNat (hs : sz.toNat < 2 ^ 63) : sz.toInt64.toInt = (sz.toNat : Int) := by
  have : sz.toInt64.toInt = (sz.toNat : Int).bmod (2 ^ 64) := by
    rw [show sz.toInt64.toInt = sz.toBitVec.toInt from rfl, BitVec.toInt_eq_toNat_bmod]
    rfl
  rw [this, Int.bmod_eq_of_le] <;> omega

theorem ViewOf.len_le (hv : ViewOf ex h a sz full m) : (m.length : Int) ≤ sz.toInt64.toInt := by
  have h1 := hv.size.1
  rw [len_toNat hv.small]; omega

theorem ViewOf.len (hv : View h a sz full m) : sz.toInt64.toInt = (m.length : Int) := by
  rw [len_toNat hv.small, hv.size.2 rfl]

theorem RootRep.inner (hr : RootRep h a full E N) : ∃ n, h[a]? = some (.inner n) := by
  cases hr with
  | empty hp => obtain ⟨n, l, lc, h1, -⟩ := hp; exact ⟨n, h1⟩
  | tree hr => exact hr.inner

/-! ### Reads -/

theorem Phantom.search (hp : Phantom h a full) {K : Key} (hK : K ≠ []) (fuel : Nat) :
    searchLoopAt h K (fuel + 1) a 0 = .ok { val := none, watch := a } := by
  obtain ⟨n, l, lc, h1, hL, h3, h4, h5, h6, h7⟩ := hp
  have hil : n.isLeaf = true := hL.isLeaf_iff.2 ⟨rfl, by rw [h3]; simp⟩
  have hlm : leafMatches lc.key K = false := Bool.eq_false_iff.2 fun h => hK (by rw [← leafMatches_iff.1 h, h5])
  unfold searchLoopAt searchLeaf
  simp only [rd_eq h1, Except.bind_ok, Cell.isLeaf, hil, if_true, h3, rdLeaf_eq h4, pure, Except.pure, hlm, Bool.false_eq_true, if_false]
  have hbail : prefixBails (Cell.inner n : Cell V) K 0 = .ok false := by
    unfold prefixBails
    rw [if_neg (show ¬ (Cell.inner n : Cell V).partialLen > 0 by show ¬ n.partialLen > 0; omega)]
    rfl
  have hstop : searchStop h a (.inner n) K = .ok { val := none, watch := a } := by
    have h1 : searchOwn h (Cell.inner n : Cell V) K = .ok none := by
      unfold searchOwn
      simp only [Cell.nodeLeaf, h3, rdLeaf_eq h4, Except.bind_ok, hlm]
      rfl
    unfold searchStop
    rw [h1, Except.bind_ok]
    simp only [Cell.children]
    rw [searchChildren_none fun c hc => ?_]
    · rfl
    · rcases hL.slots hc with ⟨b, hb⟩ | hb <;> cases hb
  have hlen : 0 < K.length := List.length_pos_iff.2 hK
  simp only [hbail, Except.bind_ok, Bool.false_eq_true, if_false, Cell.partialLen, h6, Nat.add_zero]
  rw [if_neg (by omega)]
  have hb : byteAt K 0 = .ok (K[0]'hlen) := by unfold byteAt; rw [List.getElem?_eq_getElem hlen]
  simp only [hb, Except.bind_ok, Cell.findChild, hL.find_none (b := K[0]'hlen) (by simp), hstop]

theorem RootRep.search (hr : RootRep h a full E N) : ∃ hit, Art.search h a k = .ok hit ∧ Found [] (k ++ [Art.dollar]) E N hit := by
  unfold Art.search getTreeKey
  cases hr with
  | empty hp => exact ⟨_, hp.search (by simp) _, Found.stop rfl rfl (fun e he => nomatch he) (by simp)⟩
  | tree hr => exact hr.search (K := k ++ [Art.dollar]) _ (by simp) (by simp)

theorem RootRep.occ_lt (hr : RootRep h a full E N) {x : Addr} (hx : Occ E N x) : x < h.length := by
  cases hr with
  | empty hp =>
    obtain ⟨n, l, lc, h1, -⟩ := hp
    rcases hx with hx | hx
    · simp only [List.map_cons, List.map_nil, List.mem_singleton] at hx
      subst hx; exact lt_of_get h1
    · cases hx
  | tree hr => exact hr.bound hx

/-- The result of a lookup. -/
theorem ViewOf.search (hv : ViewOf ex h a sz full m) (k : Key) : ∃ hit, Art.search h a k = .ok hit ∧ hit.val = m.get k ∧ hit.watch < h.length := by
  obtain ⟨⟨E, N, hr, ha⟩, hn, -, -⟩ := hv
  obtain ⟨hit, h1, h2⟩ := hr.search (k := k)
  refine ⟨hit, h1, ?_⟩
  by_cases hk : m.has k
  · obtain ⟨e, he, hek⟩ := ha.has.1 hk
    obtain ⟨h3, h4⟩ := h2.found e he hek
    refine ⟨by rw [h3, Map.get_some hn (ha.mem he hek)], ?_⟩
    rw [h4]
    exact hr.occ_lt (Or.inr (List.mem_map.2 ⟨e, he, rfl⟩))
  · obtain ⟨h3, q, h4, -⟩ := h2.miss fun e he hek => hk (ha.has.2 ⟨e, he, hek⟩)
    exact ⟨by rw [h3, Map.get_none hk], hr.occ_lt (Or.inl (List.mem_map.2 ⟨_, h4, rfl⟩))⟩

theorem Phantom.seek (hp : Phantom h a full) (pre : Key) (fuel : Nat) : seekLoop h pre (fuel + 1) a 0 = .ok a := by
  obtain ⟨n, l, lc, h1, hL, h3, h4, h5, h6, h7⟩ := hp
  have hil : n.isLeaf = true := hL.isLeaf_iff.2 ⟨rfl, by rw [h3]; simp⟩
  unfold seekLoop seekStep
  simp only [rd_eq h1, Except.bind_ok, Cell.isLeaf, hil, Bool.not_true, Bool.false_eq_true, false_and, if_false, pure, Except.pure]
  by_cases hge : 0 ≥ pre.length
  · rw [if_pos hge]
  · rw [if_neg hge]
    have hb : byteAt pre 0 = .ok (pre[0]'(by omega)) := by
      unfold byteAt; rw [List.getElem?_eq_getElem (by omega)]
    simp only [hb, Except.bind_ok, Cell.findChild, hL.find_none (b := pre[0]'(by omega)) (by simp)]

/-- `SeekPrefix` returns a node on the path of the prefix. -/
theorem RootRep.seek (hr : RootRep h a full E N) (pre : Key) : ∃ it x q, seekPrefix h (mkIter a) pre = .ok (it, x) ∧ (q, x) ∈ N ∧ q <+: pre := by
  unfold seekPrefix mkIter
  simp only
  cases hr with
  | empty hp => exact ⟨_, a, [], by rw [hp.seek pre]; rfl, by simp, List.nil_prefix⟩
  | tree hr =>
    obtain ⟨x, h1, ⟨q, A, E', B, N', h2, h3, h4, -⟩⟩ := hr.seek (pre := pre) (pre.length + 1) (List.nil_prefix) (by simp)
    simp only [List.length_nil] at h1
    exact ⟨_, x, q, by rw [h1]; rfl, h3, h4⟩

end Art
