import Verif.Proofs.CleanBase
/-
The order of the entries of a tree.
-/
set_option autoImplicit false
set_option linter.unusedVariables false
set_option linter.unusedSimpArgs false
set_option linter.unusedSectionVars false
namespace Art
variable {V : Type} [Removals] {h : Heap V} {p : Key} {a : Addr} {E : List (Ent V)} {N : List (Key × Addr)} {m : Map V} {full : Bool}

/-- The keys differ, and at the first difference the first one has the smaller byte. -/
def Before (K K' : Key) : Prop := ∃ (q : Key) (b b' : Byte), b < b' ∧ q ++ [b] <+: K ∧ q ++ [b'] <+: K'

/-- Below every stored key, edges are not below `'$'`. -/
def NoLow (E : List (Ent V)) : Prop := ∀ e ∈ E, ∀ e' ∈ E, ∀ (q : Key) (b : Byte), e.1 = q ++ [dollar] → q ++ [b] <+: e'.1 → dollar ≤ b

theorem pairwise_flatMap {α β : Type} {R : β → β → Prop} {l : List α} {f : α → List β} (h1 : ∀ x ∈ l, (f x).Pairwise R)
    (h2 : l.Pairwise fun x y => ∀ u ∈ f x, ∀ v ∈ f y, R u v) : (l.flatMap f).Pairwise R := by
  induction l with
  | nil => exact .nil
  | cons x l ih =>
    rw [List.flatMap_cons, List.pairwise_append]
    rw [List.pairwise_cons] at h2
    refine ⟨h1 x (by simp), ih (fun y hy => h1 y (by simp [hy])) h2.2, fun u hu v hv => ?_⟩
    obtain ⟨y, hy, hv⟩ := List.mem_flatMap.1 hv
    exact h2.1 y hy u hu v hv

/-- The entries are sorted. -/
theorem Rep.sorted (hr : Rep h p a E N) (hl : NoLow E) : E.Pairwise fun e e' => Before e.1 e'.1 := by
  induction hr with
  | leaf => simp
  | @node p a n pfx es st vals f g ha hL hne hh hst hown hnd htw hch ih =>
    have hsub : ∀ b c, (b, c) ∈ es → ∀ e ∈ f b, e ∈ vals ++ es.flatMap fun e => f e.1 := fun b c hb e he =>
      List.mem_append_right _ (List.mem_flatMap.2 ⟨_, hb, he⟩)
    rw [List.pairwise_append]
    refine ⟨?_, pairwise_flatMap (fun x hx => ih x.1 x.2 hx fun e he e' he' => hl e (hsub _ _ hx e he) e' (hsub _ _ hx e' he')) ?_, ?_⟩
    · rcases hown.inv with ⟨-, rfl⟩ | ⟨l, lc, -, rfl, -⟩ <;> simp
    · refine List.Pairwise.imp_of_mem (R := fun (x y : Byte × Nat) => x.1 < y.1) ?_ hL.sorted
      intro x y hx hy hlt u hu v hv
      exact ⟨p ++ pfx, x.1, y.1, hlt, (hch x.1 x.2 hx).prefix u hu, (hch y.1 y.2 hy).prefix v hv⟩
    · intro e he e' he'
      have hem : e ∈ vals ++ es.flatMap fun e => f e.1 := List.mem_append_left _ he
      have hem' : e' ∈ vals ++ es.flatMap fun e => f e.1 := List.mem_append_right _ he'
      rcases hown.inv with ⟨-, rfl⟩ | ⟨l, lc, h1, rfl, h2, h3⟩
      · cases he
      · cases List.mem_singleton.1 he
        obtain ⟨⟨b, c⟩, hb, he'⟩ := List.mem_flatMap.1 he'
        have hp := (hch b c hb).prefix e' he'
        have hge := hl _ hem _ hem' (p ++ pfx) b h3 hp
        have hne : Art.dollar ≠ b := fun h => hnd (by rw [h1]; simp) (List.mem_map.2 ⟨_, hb, h.symm⟩)
        exact ⟨p ++ pfx, Art.dollar, b, UInt8.lt_of_le_of_ne hge hne, by show _ <+: lc.key; rw [h3]; exact List.prefix_refl _, hp⟩

theorem key_lt_of_prefix {q k k' : Key} {b b' : Byte} (hlt : b < b') (h1 : q ++ [b] <+: k) (h2 : q ++ [b'] <+: k') : Key.lt k k' := by
  obtain ⟨t, rfl⟩ := h1
  obtain ⟨t', rfl⟩ := h2
  induction q with
  | nil => exact Or.inl hlt
  | cons x q ih => exact Or.inr ⟨rfl, ih⟩

theorem key_lt_append {k : Key} {b : Byte} {t : Key} : Key.lt k (k ++ b :: t) := by
  induction k with
  | nil => trivial
  | cons x k ih => exact Or.inr ⟨rfl, ih⟩

theorem key_lt_irrefl : ∀ k : Key, ¬ Key.lt k k
  | [] => fun h => h
  | x :: k => fun h => by
    rcases h with h | ⟨-, h⟩
    · exact UInt8.lt_irrefl _ h
    · exact key_lt_irrefl k h

theorem key_lt_trans : ∀ {a b c : Key}, Key.lt a b → Key.lt b c → Key.lt a c
  | [], [], _, h, _ => h.elim
  | [], _ :: _, [], _, h => h.elim
  | [], _ :: _, _ :: _, _, _ => trivial
  | _ :: _, [], _, h, _ => h.elim
  | _ :: _, _ :: _, [], _, h => h.elim
  | x :: a, y :: b, z :: c, h1, h2 => by
    rcases h1 with h1 | ⟨rfl, h1⟩
    · rcases h2 with h2 | ⟨rfl, h2⟩
      · exact Or.inl (UInt8.lt_trans h1 h2)
      · exact Or.inl h1
    · rcases h2 with h2 | ⟨rfl, h2⟩
      · exact Or.inl h2
      · exact Or.inr ⟨rfl, key_lt_trans h1 h2⟩

theorem snoc2 {q k : Key} {b b' : Byte} (h : q ++ [b] = k ++ [b']) : q = k ∧ b = b' := by
  have := List.append_inj' h rfl
  exact ⟨this.1, by simpa using this.2⟩

/-- In a map no key of which is continued by a byte below `'$'`, ... -/
theorem key_lt_of_before {k k' : Key} (hb : Before (k ++ [dollar]) (k' ++ [dollar])) (h1 : ∀ b : Byte, k' ++ [b] <+: k → dollar ≤ b) : Key.lt k k' := by
  obtain ⟨q, b, b', hlt, h2, h3⟩ := hb
  rcases prefix_dollar.1 h2 with h4 | h4
  · rcases prefix_dollar.1 h3 with h5 | h5
    · exact key_lt_of_prefix hlt h4 h5
    · obtain ⟨rfl, hb⟩ := snoc2 h5
      have := h1 b h4
      rw [hb] at hlt
      exact absurd hlt (UInt8.not_lt.2 this)
  · obtain ⟨rfl, hb⟩ := snoc2 h4
    rcases prefix_dollar.1 h3 with h5 | h5
    · obtain ⟨t, rfl⟩ := h5
      rw [List.append_assoc]
      exact key_lt_append
    · obtain ⟨-, hb'⟩ := snoc2 h5
      rw [hb, hb'] at hlt
      exact absurd hlt (UInt8.lt_irrefl _)

/-! ### Maps -/

theorem Map.get_iff (hn : (m.map (·.1)).Nodup) {k : Key} {v : V} : m.get k = some v ↔ (k, v) ∈ m := by
  refine ⟨fun h => Map.mem_of_get h, fun h => Map.get_some hn h⟩

theorem nodup_of_keys {α β : Type} {l : List α} {f : α → β} (h : (l.map f).Nodup) : l.Nodup := by
  rw [List.Nodup, List.pairwise_map] at h
  exact h.imp fun h1 h2 => h1 (by rw [h2])

theorem Abs.perm (hr : Rep h p a E N) (ha : Abs E m) (hn : (m.map (·.1)).Nodup) : (E.map Ent.out).Perm m := by
  have hinj : ((E.map Ent.out).map (·.1)).Nodup := by
    rw [List.map_map, List.Nodup, List.pairwise_map]
    have h1 := hr.nodup
    rw [List.Nodup, List.pairwise_map] at h1
    refine h1.imp_of_mem fun {x y} hx hy hne h2 => hne ?_
    obtain ⟨k, hk⟩ := hr.dollar x hx
    obtain ⟨k', hk'⟩ := hr.dollar y hy
    simp only [Function.comp, Ent.out, hk, hk', getKey_snoc] at h2
    rw [hk, hk', h2]
  refine (List.perm_ext_iff_of_nodup (nodup_of_keys hinj) (nodup_of_keys hn)).2 fun ⟨k, v⟩ => ?_
  rw [ha k v]
  constructor
  · intro hx
    obtain ⟨e, he, heq⟩ := List.mem_map.1 hx
    obtain ⟨k', hk'⟩ := hr.dollar e he
    obtain ⟨e1, e2, e3⟩ := e
    simp only [Ent.out, Prod.mk.injEq] at heq hk'
    rw [hk', getKey_snoc] at heq
    exact ⟨e3, by rw [← heq.1, ← heq.2, ← hk']; exact he⟩
  · rintro ⟨x, hx⟩
    exact List.mem_map.2 ⟨_, hx, by simp [Ent.out, getKey_snoc]⟩

theorem Abs.noLow (hr : Rep h p a E N) (ha : Abs E m) (ho : m.Ordered) : NoLow E := by
  intro e he e' he' q b hq hb
  obtain ⟨k', hk'⟩ := hr.dollar e' he'
  rw [hk'] at hb
  rcases prefix_dollar.1 hb with hb | hb
  · exact ho q k' b ⟨_, ha.mem he hq⟩ ⟨_, ha.mem he' hk'⟩ hb
  · rw [(snoc2 hb).2]; exact UInt8.le_refl _

theorem Abs.sorted (hr : Rep h p a E N) (ha : Abs E m) (ho : m.Ordered) : (E.map Ent.out).Pairwise fun x y => Key.lt x.1 y.1 := by
  rw [List.pairwise_map]
  refine (hr.sorted (ha.noLow hr ho)).imp_of_mem fun {x y} hx hy hlt => ?_
  obtain ⟨k, hk⟩ := hr.dollar x hx
  obtain ⟨k', hk'⟩ := hr.dollar y hy
  simp only [Ent.out, hk, hk', getKey_snoc]
  rw [hk, hk'] at hlt
  exact key_lt_of_before hlt fun b hb => ho k' k b ⟨_, ha.mem hy hk'⟩ ⟨_, ha.mem hx hk⟩ hb

/-- The entries of a nonempty tree. -/
theorem ViewOf.entries {ex : Bool} {sz : UInt64} (hv : ViewOf ex h a sz full m) (hne : m ≠ []) : ∃ E N, Rep h [] a E N ∧ Abs E m := by
  obtain ⟨⟨E, N, hr, ha⟩, -, -, -⟩ := hv
  cases hr with
  | empty hp => exact absurd ((RootRep.empty hp).abs_nil ha |>.2 rfl) hne
  | tree hr => exact ⟨E, N, hr, ha⟩

/-! ### Iterators -/

theorem Ent.sel_out {e : Ent V} {k pre : Key} (hk : e.1 = k ++ [dollar]) (hpre : pre ≠ k ++ [dollar]) : (Ent.sel pre e = true ↔ pre <+: (Ent.out e).1) := by
  rw [Ent.sel_iff]
  simp only [Ent.out, hk, getKey_snoc]
  rw [prefix_dollar]
  exact ⟨fun h => h.resolve_right hpre, Or.inl⟩

theorem filter_map_sel (hr : Rep h p a E N) (ha : Abs E m) {pre : Key} (hpre : ∀ k, m.has k → pre ≠ k ++ [dollar]) :
    (E.filter (Ent.sel pre)).map Ent.out = (E.map Ent.out).filter fun e => decide (pre <+: e.1) := by
  rw [List.filter_map]
  congr 1
  refine List.filter_congr fun e he => ?_
  obtain ⟨k, hk⟩ := hr.dollar e he
  rw [Bool.eq_iff_iff, Ent.sel_out hk (hpre k ⟨_, ha.mem he hk⟩)]
  simp [Function.comp]

theorem Phantom.collect (hp : Phantom h a full) {pre : Key} (hpre : pre ≠ []) (fuel : Nat) :
    ∃ it, seekPrefix h (mkIter a) pre = .ok (it, a) ∧ iterCollect h (fuel + 2) it = .ok [] := by
  refine ⟨{ mkIter a with path := pre, node := some a, stack := [some a] }, ?_, ?_⟩
  · unfold seekPrefix mkIter
    simp only [hp.seek pre, Except.bind_ok]
    rfl
  · obtain ⟨n, l, lc, h1, hL, h3, h4, h5, h6, h7⟩ := hp
    unfold iterCollect
    have hpf : hasPrefix lc.key pre = false := by
      rw [h5]
      cases pre with
      | nil => exact absurd rfl hpre
      | cons b t => rfl
    have : iterNext h (fuel + 1 + 1) { mkIter a with path := pre, node := some a, stack := [some a] } =
        .ok (none, { mkIter a with path := pre, node := some a, stack := [] }) := by
      unfold iterNext
      simp only [rd_eq h1, Except.bind_ok, h3, rdLeaf_eq h4, hpf, Bool.false_eq_true, if_false, hL.iterChildren, List.map_nil, List.nil_append]
      unfold iterNext
      rfl
    rw [this]
    rfl

end Art
