import Verif.Proofs.CleanIter
/-
Trees built by inserting a set of keys.
-/
set_option autoImplicit false
set_option linter.unusedVariables false
set_option linter.unusedSimpArgs false
set_option linter.unusedSectionVars false
namespace Art
variable {V : Type} [Inhabited V] {m : Map V}

theorem inserts_snoc (l : List (Key × V)) (e : Key × V) : inserts (l ++ [e]) = inserts l ++ [.insert l.length e.1 e.2] := by
  unfold inserts
  rw [List.zipIdx_append]
  simp

theorem sexecAll_snoc (s : SWorld V) (ops : List (Op V)) (op : Op V) : (sexecAll s (ops ++ [op])).2 = (sexec (sexecAll s ops).2 op).2 := by
  rw [sexecAll_append]; rfl

theorem Map.has_perm {m m' : Map V} (hp : m.Perm m') (k : Key) : m.has k ↔ m'.has k := by
  unfold Map.has
  simp only [hp.mem_iff]

theorem Map.Compatible.perm {m m' : Map V} (hp : m.Perm m') (h : m.Compatible) : m'.Compatible := by
  refine ⟨fun k k' h1 h2 => h.dollar k k' ((Map.has_perm hp k).2 h1) ((Map.has_perm hp k').2 h2), fun P => ?_, by rw [← hp.length_eq]; exact h.size⟩
  obtain ⟨b, hb⟩ := h.room P
  exact ⟨b, fun k h1 => hb k ((Map.has_perm hp k).2 h1)⟩

/-- Keys without the bytes `'$'` and 255 are compatible. -/
theorem Map.Compatible.of_plain (h : m.all (fun e => e.1.plain) = true) (hl : m.length < 2 ^ 63) : m.Compatible := by
  have hm : ∀ k', m.has k' → ∀ b ∈ k', b ≠ 36 ∧ b ≠ 255 := fun k' ⟨v, hv⟩ => Key.plain_iff.1 (List.all_eq_true.1 h _ hv)
  refine ⟨fun k k' hk _ hp => (hm k hk 36 (hp.subset (by simp))).1 rfl, fun P => ⟨255, fun k' hk' hp => ?_⟩, hl⟩
  rcases List.mem_append.1 (hp.subset (show (255 : Byte) ∈ P ++ [255] by simp)) with h | h
  · exact (hm k' hk' 255 h).2 rfl
  · simp at h

theorem Map.has_append {m m' : Map V} {k : Key} : (m ++ m').has k ↔ m.has k ∨ m'.has k := by
  unfold Map.has
  simp only [List.mem_append, exists_or]

theorem Map.has_reverse {k : Key} : Map.has m.reverse k ↔ m.has k := by
  unfold Map.has; simp

/-- The specification after inserting pairs with different keys. -/
theorem inserts_spec (r : List (Key × V)) (hn : (r.map (·.1)).Nodup) : (specAfter (inserts r.reverse)).trees.length = r.length + 1 ∧
    mapAfter (inserts r.reverse) r.length = some r ∧ (Map.Compatible r → Clean (inserts r.reverse)) := by
  induction r with
  | nil => exact ⟨rfl, rfl, fun _ => ⟨⟨rfl, trivial⟩, trivial⟩⟩
  | cons e r ih =>
    rw [List.map_cons, List.nodup_cons] at hn
    obtain ⟨h1, h2, h3⟩ := ih hn.2
    have habs : ¬ Map.has r e.1 := fun h => hn.1 (Map.has_iff.1 h)
    have hs : (sexec (specAfter (inserts r.reverse)) (.insert r.length e.1 e.2)).2.trees = (specAfter (inserts r.reverse)).trees ++ [e :: r] := by
      simp only [sexec, show (specAfter (inserts r.reverse)).trees[r.length]? = some r from h2]
      rw [Map.set, Map.del_absent habs]
    rw [List.reverse_cons, inserts_snoc, List.length_reverse]
    refine ⟨?_, ?_, fun hc => ?_⟩
    · rw [specAfter, sexecAll_snoc, hs]; simp [h1]
    · rw [mapAfter, sexecAll_snoc, hs]
      simp [h1]
    · have hsub : ∀ k, Map.has r k → Map.has (e :: r) k := fun k ⟨v, hv⟩ => ⟨v, List.mem_cons_of_mem _ hv⟩
      have he : Map.has (e :: r) e.1 := ⟨e.2, by simp⟩
      have hcr : Map.Compatible r := ⟨fun k k' g1 g2 => hc.dollar k k' (hsub _ g1) (hsub _ g2), fun P => by
        obtain ⟨b, hb⟩ := hc.room P
        exact ⟨b, fun k hk => hb k (hsub k hk)⟩, by have := hc.size; simp at this ⊢; omega⟩
      refine (h3 hcr).snoc ⟨rfl, fun m hm => ?_⟩
      rw [show (specAfter (inserts r.reverse)).trees[r.length]? = some r from h2] at hm
      cases hm
      refine ⟨fun k' hk' => ⟨hc.dollar _ _ he (hsub _ hk'), hc.dollar _ _ (hsub _ hk') he⟩, fun P => ?_, fun h => absurd h habs, by have := hc.size; simp at this ⊢; omega⟩
      obtain ⟨b, hb⟩ := hc.room P
      exact ⟨b, hb _ he, fun k hk => hb k (hsub k hk)⟩

theorem inserts_spec' (l : List (Key × V)) (hn : (l.map (·.1)).Nodup) :
    mapAfter (inserts l) l.length = some l.reverse ∧ (Map.Compatible l → Clean (inserts l)) := by
  have h := inserts_spec l.reverse (by rw [List.map_reverse]; exact (List.reverse_perm _).nodup_iff.2 hn)
  rw [List.reverse_reverse, List.length_reverse] at h
  exact ⟨h.2.1, fun hc => h.2.2 (hc.perm (List.reverse_perm l).symm)⟩

theorem Map.get_perm {m m' : Map V} (hp : m.Perm m') (hn : (m.map (·.1)).Nodup) (k : Key) : m.get k = m'.get k := by
  have hn' : (m'.map (·.1)).Nodup := (hp.map _).nodup_iff.1 hn
  apply Option.ext
  intro v
  rw [Map.get_iff hn, Map.get_iff hn', hp.mem_iff]

theorem Map.Ordered.perm {m m' : Map V} (hp : m.Perm m') (h : m.Ordered) : m'.Ordered :=
  fun k k' b h1 h2 => h k k' b ((Map.has_perm hp k).2 h1) ((Map.has_perm hp k').2 h2)

/-- A sorted list is determined by its elements. -/
theorem sorted_unique {l l' : List (Key × V)} (hp : l.Perm l') (h : l.Pairwise fun a b => Key.lt a.1 b.1) (h' : l'.Pairwise fun a b => Key.lt a.1 b.1) : l = l' :=
  hp.eq_of_pairwise (fun a b _ _ h1 h2 => (key_lt_asymm h1 h2).elim) h h'

/-- Two trees for maps with the same pairs answer and iterate in the same way. -/
theorem ViewOf.iter_same {ex : Bool} {h h' : Heap V} {t t' : Tree} {m' : Map V} (hv : ViewOf ex h t.root t.size false m) (hv' : ViewOf ex h' t'.root t'.size false m')
    (hp : m.Perm m') (hne : m ≠ []) (ho : m.Ordered) (r : List (Key × V)) : Ends (iterPrefix h t []) r ↔ Ends (iterPrefix h' t' []) r := by
  have hne' : m' ≠ [] := fun h0 => hne (by rw [h0] at hp; exact hp.eq_nil)
  obtain ⟨l, h1, h2, h3⟩ := hv.iter [] (Or.inl hne) (by simp)
  obtain ⟨l', h1', h2', h3'⟩ := hv'.iter [] (Or.inl hne') (by simp)
  have hl : l = l' := sorted_unique (h2.trans ((hp.filter _).trans h2'.symm)) (h3 ho) (h3' (ho.perm hp))
  subst hl
  have huniq : ∀ {f : Nat → R (List (Key × V))} {a b}, Ends f a → Ends f b → a = b := fun ⟨n, hn⟩ ⟨n', hn'⟩ => by
    have g1 := hn (n + n') (by omega)
    rw [hn' (n + n') (by omega)] at g1
    cases g1; rfl
  exact ⟨fun h => by rw [huniq h h1]; exact h1', fun h => by rw [huniq h h1']; exact h1⟩

/-! ### Wide nodes -/

/-- Of fewer than 256 bytes one is missing. -/
theorem byte_missing (l : List Byte) (h : l.length < 256) : ∃ b, b ∉ l := by
  rcases Classical.em (∃ b, b ∉ l) with h0 | h0
  · exact h0
  · exfalso
    have h1 : ∀ b, b ∈ l := fun b => Classical.not_not.1 fun hb => h0 ⟨b, hb⟩
    have hinj : ((List.range 256).map UInt8.ofNat).Nodup := by
      rw [List.Nodup, List.pairwise_map]
      refine List.nodup_range.imp_of_mem fun {i j} hi hj hne h => hne ?_
      have h2 := congrArg UInt8.toNat h
      rwa [toNat_ofNat (List.mem_range.1 hi), toNat_ofNat (List.mem_range.1 hj)] at h2
    have := hinj.length_le_of_subset (l₂ := l) fun b _ => h1 b
    simp at this
    omega

theorem prefix_len {p q : Key} (h : p <+: q) : p.length ≤ q.length := List.IsPrefix.length_le h

theorem wide_compatible (P : Key) (l : List (Byte × V)) (hn : (l.map (·.1)).Nodup) (hlen : l.length < 256) : Map.Compatible (l.map fun e => (P ++ [e.1], e.2)) := by
  have hhas : ∀ k, Map.has (l.map fun e => (P ++ [e.1], e.2)) k → ∃ b, b ∈ l.map (·.1) ∧ k = P ++ [b] := fun k ⟨v, hv⟩ => by
    obtain ⟨e, he, heq⟩ := List.mem_map.1 hv
    simp only [Prod.mk.injEq] at heq
    exact ⟨e.1, List.mem_map.2 ⟨e, he, rfl⟩, heq.1.symm⟩
  refine ⟨fun k k' hk hk' hp => ?_, fun Q => ?_, by simp; omega⟩
  · obtain ⟨b, -, rfl⟩ := hhas k hk
    obtain ⟨b', -, rfl⟩ := hhas k' hk'
    have := hp.length_le
    simp at this
  · by_cases hQ : Q.length = P.length
    · obtain ⟨b, hb⟩ := byte_missing (l.map (·.1)) (by simpa using hlen)
      refine ⟨b, fun k hk hp => ?_⟩
      obtain ⟨b', hb', rfl⟩ := hhas k hk
      rw [List.append_assoc] at hp
      obtain ⟨t, ht⟩ := hp
      rw [List.append_assoc] at ht
      have := (List.append_inj ht hQ).2
      simp only [List.cons_append, List.nil_append, List.cons.injEq] at this
      exact hb (this.1 ▸ hb')
    · by_cases hlt : Q.length < P.length
      · have hx := List.getElem?_eq_getElem hlt
        refine ⟨P[Q.length] + 1, fun k hk hp => ?_⟩
        obtain ⟨b', hb', rfl⟩ := hhas k hk
        obtain ⟨t, ht⟩ := hp
        have := congrArg (fun x : Key => x[Q.length]?) ht
        rw [List.append_assoc, List.append_assoc, List.getElem?_append_right (l₁ := Q) (Nat.le_refl _), List.getElem?_append_left hlt, hx] at this
        simp only [Nat.sub_self, List.cons_append, List.getElem?_cons_zero, Option.some.injEq] at this
        have h2 := congrArg UInt8.toNat this
        rw [UInt8.toNat_add] at h2
        have h3 := UInt8.toNat_lt P[Q.length]
        simp at h2
        omega
      · refine ⟨37, fun k hk hp => ?_⟩
        obtain ⟨b', hb', rfl⟩ := hhas k hk
        have h1 := hp.length_le
        simp only [List.length_append, List.length_cons, List.length_nil] at h1
        obtain ⟨t, ht⟩ := hp
        have h2 := congrArg (fun x : Key => x[Q.length]?) ht
        have h3 : Q.length = P.length + 1 := by omega
        rw [List.append_assoc, List.getElem?_append_right (l₁ := Q) (Nat.le_refl _), List.getElem?_append_right (l₁ := P ++ [b']) (by simp; omega)] at h2
        simp [h3] at h2

end Art
