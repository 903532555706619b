import Verif.Proofs.RunsRemove
/-
Reading a well-formed subtree: first and last entry, comparison of compressed prefixes, search.
-/
set_option autoImplicit false
set_option linter.unusedVariables false
set_option linter.unusedSimpArgs false
set_option linter.unusedSectionVars false
namespace Art
variable {V : Type} [Removals] {h : Heap V} {p : Key} {a : Addr} {E : List (Ent V)} {N : List (Key × Addr)} {n : Inner} {es l r : Edges} {st : Option Addr}
  {b : Byte} {c : Addr} {pfx P : Key} {vals : List (Ent V)} {f : Byte → List (Ent V)} {g : Byte → List (Key × Addr)}

theorem rd_eq {c : Cell V} (hc : h[a]? = some c) : rd h a = .ok c := by simp [rd, hc]
theorem rdLeaf_eq {lc : LeafC V} (hc : h[a]? = some (.leaf lc)) : rdLeaf h a = .ok lc := by simp [rdLeaf, hc]

theorem Layout.isLeaf_iff (hL : Layout n es st) : n.isLeaf = true ↔ es = [] ∧ n.leaf ≠ none := by
  unfold Inner.isLeaf
  rw [Bool.and_eq_true, beq_iff_eq]
  have h1 : n.numChildren = 0 ↔ es = [] := by
    rw [show (0 : UInt8) = UInt8.ofNat 0 from rfl, num_eq_one hL.num 0 (by omega)]
    exact List.length_eq_zero_iff
  rw [h1]
  cases n.leaf <;> simp

theorem Layout.not_leaf (hL : Layout n es st) (hne : es ≠ []) : n.isLeaf = false := by
  cases h : n.isLeaf with
  | false => rfl
  | true => exact absurd (hL.isLeaf_iff.1 h).1 hne

/-! ### First and last child -/

theorem sub_one_toNat {i : Nat} (hi : i < 255) : (UInt8.ofNat (i + 1) - 1).toNat = i := by
  rw [UInt8.toNat_sub_of_le _ _ (by rw [UInt8.le_iff_toNat_le, toNat_ofNat (by omega)]; simp), toNat_ofNat (by omega)]; simp

theorem Edges.Sorted.head_le (hs : Edges.Sorted ((b, c) :: r)) {b' : Byte} {c' : Addr} (h : (b', c') ∈ (b, c) :: r) : b.toNat ≤ b'.toNat := by
  rcases List.mem_cons.1 h with h | h
  · cases h; exact Nat.le_refl _
  · have := (List.pairwise_cons.1 hs).1 _ h
    exact Nat.le_of_lt (UInt8.lt_iff_toNat_lt.1 this)

theorem Edges.Sorted.le_last (hs : Edges.Sorted (l ++ [(b, c)])) {b' : Byte} {c' : Addr} (h : (b', c') ∈ l ++ [(b, c)]) : b'.toNat ≤ b.toNat := by
  rcases List.mem_append.1 h with h | h
  · have := (List.pairwise_append.1 hs).2.2 _ h (b, c) (by simp)
    exact Nat.le_of_lt (UInt8.lt_iff_toNat_lt.1 this)
  · cases List.mem_singleton.1 h; exact Nat.le_refl _

theorem byte_of_lt {i : Nat} (hi : i < 256) : ∃ b : Byte, b.toNat = i := ⟨UInt8.ofNat i, toNat_ofNat hi⟩

/-- `minimum` goes to the first child. -/
theorem minimum_first (fuel : Nat) (ha : h[a]? = some (.inner n)) (hL : Layout n ((b, c) :: r) st) (hl : n.leaf = none) :
    minimumAux h (fuel + 1) (some a) = minimumAux h fuel (some c) := by
  rw [minimumAux]
  simp only [rd_eq ha, Except.bind_ok, hL.not_leaf (by simp), hl, Option.isSome_none, Bool.false_eq_true, if_false]
  rcases hL.kinds with ⟨hk, hb⟩ | ⟨hk, hb⟩ | ⟨hk, hb, -⟩ | ⟨hk, hb, -⟩ <;> rw [hk] <;> simp only
  · rw [show n.getChild 0 = .ok (some c) from getChild_arr (i := 0) (Or.inl hk) (hb.child (i := 0) (by simp))]; rfl
  · rw [show n.getChild 0 = .ok (some c) from getChild_arr (i := 0) (Or.inr (Or.inl hk)) (hb.child (i := 0) (by simp))]; rfl
  · obtain ⟨i, h1, h2, h3⟩ := hb.live b c (by simp)
    have hlt : b.toNat < n.keys.length := by rw [hb.klen]; exact byte_lt_len b
    have hfk : firstKey48 n.keys = b.toNat := by
      unfold firstKey48
      rw [List.findIdx_eq hlt]
      constructor
      · rw [List.getElem?_eq_getElem hlt, Option.some.injEq] at h2
        rw [h2]
        simpa using ofNat_succ_ne_zero (i := i) (by omega)
      · intro j hj
        obtain ⟨b', rfl⟩ := byte_of_lt (i := j) (by have := byte_lt_len b; omega)
        have := hb.dead b' fun c' hc' => by have := hL.sorted.head_le hc'; omega
        rw [List.getElem?_eq_getElem (by omega), Option.some.injEq] at this
        rw [this]; rfl
    rw [hfk]
    have hget : n.getKeyAtIdx b.toNat = .ok (UInt8.ofNat (i + 1)) := by simp only [Inner.getKeyAtIdx, hk, h2]
    simp only [hget, Except.bind_ok, sub_one_toNat (show i < 255 by omega)]
    rw [if_pos h1, getChild_arr (i := i) (Or.inr (Or.inr hk)) h3]; rfl
  · have hlt : b.toNat < n.children.length := by rw [hb.1]; exact byte_lt_len b
    have h2 := (hb.2 b c).2 (by simp)
    have hfk : n.children.findIdx (·.isSome) = b.toNat := by
      rw [List.findIdx_eq hlt]
      constructor
      · rw [List.getElem?_eq_getElem hlt, Option.some.injEq] at h2
        rw [h2]; rfl
      · intro j hj
        obtain ⟨b', rfl⟩ := byte_of_lt (i := j) (by have := byte_lt_len b; omega)
        cases hc' : n.children[b'.toNat]'(by omega) with
        | none => rfl
        | some c' =>
          have := (hb.2 b' c').1 (by rw [List.getElem?_eq_getElem (by omega), hc'])
          have := hL.sorted.head_le this
          omega
    rw [hfk, if_pos (byte_lt_len b), getChild_256 hk (byte_lt_len b), h2]; rfl

theorem lastIdx_eq {α : Type} {xs : List α} {q : α → Bool} {i k : Nat} (hi : i < k) {x : α} (hx : xs[i]? = some x) (hp : q x = true)
    (hno : ∀ j, i < j → j < k → ∀ y, xs[j]? = some y → q y = false) : lastIdx xs q k = some i := by
  induction k with
  | zero => omega
  | succ k ih =>
    unfold lastIdx
    by_cases hik : i = k
    · subst hik
      simp only [hx, hp, if_true]
    · have := ih (by omega) fun j h1 h2 => hno j h1 (by omega)
      cases hk : xs[k]? with
      | none => exact this
      | some y =>
        simp only [hno k (by omega) (by omega) y hk]
        exact this

/-- `maximum` goes to the last child. -/
theorem maximum_last (fuel : Nat) (ha : h[a]? = some (.inner n)) (hL : Layout n (l ++ [(b, c)]) st) :
    maximumAux h (fuel + 1) (some a) = maximumAux h fuel (some c) := by
  rw [maximumAux]
  simp only [rd_eq ha, Except.bind_ok, hL.not_leaf (by simp), Bool.false_eq_true, if_false]
  have hnum := hL.num
  have hlen : (l ++ [(b, c)]).length = l.length + 1 := by simp
  have hsub : (n.numChildren - 1).toNat = l.length := by
    rw [UInt8.toNat_sub_of_le _ _ (by rw [UInt8.le_iff_toNat_le, hnum, hlen]; simp), hnum, hlen]; simp
  rcases hL.kinds with ⟨hk, hb⟩ | ⟨hk, hb⟩ | ⟨hk, hb, -⟩ | ⟨hk, hb, -⟩ <;> rw [hk] <;> simp only
  · rw [hsub, show n.getChild (l.length : Nat) = .ok (some c) from getChild_arr (i := l.length) (Or.inl hk) (by rw [hb.child (by simp)]; simp)]; rfl
  · rw [hsub, show n.getChild (l.length : Nat) = .ok (some c) from getChild_arr (i := l.length) (Or.inr (Or.inl hk)) (by rw [hb.child (by simp)]; simp)]; rfl
  · obtain ⟨i, h1, h2, h3⟩ := hb.live b c (by simp)
    have hfk : lastIdx n.keys (· != 0) 256 = some b.toNat := by
      refine lastIdx_eq (byte_lt_len b) h2 (by simpa using ofNat_succ_ne_zero (i := i) (by omega)) fun j hj hj' y hy => ?_
      obtain ⟨b', rfl⟩ := byte_of_lt hj'
      have := hb.dead b' fun c' hc' => by have := hL.sorted.le_last hc'; omega
      rw [hy] at this
      cases this; rfl
    rw [hfk]
    have hget : n.getKeyAtIdx b.toNat = .ok (UInt8.ofNat (i + 1)) := by simp only [Inner.getKeyAtIdx, hk, h2]
    simp only [hget, Except.bind_ok, sub_one_toNat (show i < 255 by omega)]
    rw [if_pos h1, getChild_arr (i := i) (Or.inr (Or.inr hk)) h3]; rfl
  · have h2 := (hb.2 b c).2 (by simp)
    have hfk : lastIdx n.children (·.isSome) 256 = some b.toNat := by
      refine lastIdx_eq (byte_lt_len b) h2 rfl fun j hj hj' y hy => ?_
      obtain ⟨b', rfl⟩ := byte_of_lt hj'
      cases y with
      | none => rfl
      | some c' =>
        have := (hb.2 b' c').1 hy
        have := hL.sorted.le_last this
        omega
    rw [hfk]
    simp only
    rw [getChild_256 hk (byte_lt_len b), h2]; rfl

/-- The first entry of a node, from that of its first child. -/
theorem minimum_at (ha : h[a]? = some (.inner n)) (hL : Layout n es st) (hne : es ≠ []) (hown : OwnLeaf h P n.leaf vals) {k : Nat}
    (hch : ∀ b c, (b, c) ∈ es → ∃ e E', f b = e :: E' ∧ minimumAux h k (some c) = .ok (some e.2.2)) :
    ∃ e E', vals ++ es.flatMap (fun e => f e.1) = e :: E' ∧ minimumAux h (k + 1) (some a) = .ok (some e.2.2) := by
  rcases hown.inv with ⟨ho, rfl⟩ | ⟨l, lc, ho, rfl, hl, hk⟩
  · obtain ⟨⟨b, c⟩, es', rfl⟩ := List.exists_cons_of_ne_nil hne
    obtain ⟨e, E', h1, h2⟩ := hch b c (by simp)
    refine ⟨e, E' ++ es'.flatMap (fun e => f e.1), ?_, ?_⟩
    · simp [h1]
    · rw [minimum_first k ha hL ho, h2]
  · refine ⟨_, _, rfl, ?_⟩
    rw [minimumAux]
    simp only [rd_eq ha, Except.bind_ok, hL.not_leaf hne, ho, Option.isSome_some, Bool.false_eq_true, if_false, if_true]
    rfl

theorem kid_length {b : Byte} {c : Addr} (hb : (b, c) ∈ es) (q : Key × Addr) : (g b).length + 1 ≤ (q :: es.flatMap fun e => g e.1).length := by
  obtain ⟨l, r, rfl⟩ := List.append_of_mem hb
  simp only [List.length_cons, List.flatMap_append, List.flatMap_cons, List.length_append]
  omega

theorem Rep.minimumAux (hr : Rep h p a E N) : ∀ fuel, N.length ≤ fuel → ∃ e E', E = e :: E' ∧ minimumAux h fuel (some a) = .ok (some e.2.2) := by
  induction hr with
  | @leaf p a n l lc ha hL hpart hw hleaf hl hp hd =>
    intro fuel hf
    obtain ⟨k, rfl⟩ : ∃ k, fuel = k + 1 := ⟨fuel - 1, by simp at hf; omega⟩
    refine ⟨_, _, rfl, ?_⟩
    rw [Art.minimumAux]
    have : n.isLeaf = true := hL.isLeaf_iff.2 ⟨rfl, by rw [hleaf]; simp⟩
    simp only [rd_eq ha, Except.bind_ok, this, hleaf, if_true]
    rfl
  | @node p a n pfx es st vals f g ha hL hne hh hst hown hnd htw hch ih =>
    intro fuel hf
    obtain ⟨k, rfl⟩ : ∃ k, fuel = k + 1 := ⟨fuel - 1, by simp at hf; omega⟩
    refine minimum_at ha hL hne hown fun b c hb => ih b c hb k ?_
    have := kid_length (g := g) hb (p, a)
    omega

theorem Rep.minimum (hr : Rep h p a E N) : ∃ e E', E = e :: E' ∧ minimum h (some a) = .ok (some e.2.2) :=
  hr.minimumAux _ (Nat.le_succ_of_le hr.lengthN)

theorem Rep.maximumAux (hr : Rep h p a E N) : ∀ fuel, N.length ≤ fuel → ∃ e E', E = E' ++ [e] ∧ maximumAux h fuel (some a) = .ok (some e.2.2) := by
  induction hr with
  | @leaf p a n l lc ha hL hpart hw hleaf hl hp hd =>
    intro fuel hf
    obtain ⟨k, rfl⟩ : ∃ k, fuel = k + 1 := ⟨fuel - 1, by simp at hf; omega⟩
    refine ⟨_, [], rfl, ?_⟩
    rw [Art.maximumAux]
    have : n.isLeaf = true := hL.isLeaf_iff.2 ⟨rfl, by rw [hleaf]; simp⟩
    simp only [rd_eq ha, Except.bind_ok, this, hleaf, if_true]
    rfl
  | @node p a n pfx es st vals f g ha hL hne hh hst hown hnd htw hch ih =>
    intro fuel hf
    obtain ⟨k, rfl⟩ : ∃ k, fuel = k + 1 := ⟨fuel - 1, by simp at hf; omega⟩
    obtain ⟨l, ⟨b, c⟩, rfl⟩ : ∃ l e, es = l ++ [e] := ⟨es.dropLast, es.getLast hne, (List.dropLast_concat_getLast hne).symm⟩
    have := kid_length (g := g) (show (b, c) ∈ l ++ [(b, c)] by simp) (p, a)
    obtain ⟨e, E', h1, h2⟩ := ih b c (by simp) k (by omega)
    refine ⟨e, vals ++ l.flatMap (fun e => f e.1) ++ E', ?_, ?_⟩
    · simp [h1]
    · rw [maximum_last k ha hL, h2]

theorem Rep.maximum (hr : Rep h p a E N) : ∃ e E', E = E' ++ [e] ∧ maximum h (some a) = .ok (some e.2.2) :=
  hr.maximumAux _ (Nat.le_succ_of_le hr.lengthN)

/-! ### Comparing -/

theorem scanEq_spec (xs ys : Key) : ∀ k i, i + k ≤ xs.length → i + k ≤ ys.length → ∃ j stop, scanEq xs ys k i = .ok (j, stop) ∧ i ≤ j ∧ j ≤ i + k ∧
    (∀ t, i ≤ t → t < j → xs[t]? = ys[t]?) ∧ (stop = false → j = i + k) ∧ (stop = true → j < i + k ∧ xs[j]? ≠ ys[j]?) := by
  intro k
  induction k with
  | zero => intro i _ _; exact ⟨i, false, rfl, Nat.le_refl _, Nat.le_refl _, fun t h1 h2 => by omega, fun _ => rfl, fun h => by cases h⟩
  | succ k ih =>
    intro i h1 h2
    unfold scanEq
    rw [List.getElem?_eq_getElem (show i < xs.length by omega), List.getElem?_eq_getElem (show i < ys.length by omega)]
    simp only
    by_cases hxy : xs[i] = ys[i]
    · simp only [hxy, ne_eq, not_true, if_false]
      obtain ⟨j, stop, g1, g2, g3, g4, g5, g6⟩ := ih (i + 1) (by omega) (by omega)
      refine ⟨j, stop, g1, by omega, by omega, fun t ht1 ht2 => ?_, fun h => by have := g5 h; omega, fun h => ?_⟩
      · by_cases ht : t = i
        · subst ht
          rw [List.getElem?_eq_getElem (by omega), List.getElem?_eq_getElem (by omega), hxy]
        · exact g4 t (by omega) ht2
      · obtain ⟨g7, g8⟩ := g6 h
        exact ⟨by omega, g8⟩
    · simp only [ne_eq, hxy, not_false_eq_true, if_true]
      refine ⟨i, true, rfl, Nat.le_refl _, by omega, fun t ht1 ht2 => (by omega), fun h => (by cases h), fun _ => ⟨by omega, ?_⟩⟩
      rw [List.getElem?_eq_getElem (by omega), List.getElem?_eq_getElem (by omega)]
      simpa using hxy

theorem prefix_iff_get {xs ys : Key} : xs <+: ys ↔ ∀ t, t < xs.length → xs[t]? = ys[t]? := by
  constructor
  · rintro ⟨zs, rfl⟩ t ht
    rw [List.getElem?_append_left ht]
  · intro h
    rw [List.prefix_iff_eq_take]
    refine List.ext_getElem? fun i => ?_
    by_cases hi : i < xs.length
    · rw [h i hi, List.getElem?_take_of_lt hi]
    · rw [List.getElem?_eq_none (by omega), List.getElem?_take, if_neg hi]

theorem Header.byte (hh : Header n pfx) {t : Nat} (h10 : t < 10) (ht : t < pfx.length) : n.part[t]? = pfx[t]? := by
  have := congrArg (fun x : Key => x[t]?) hh.bytes
  rwa [List.getElem?_take_of_lt (by omega), List.getElem?_take_of_lt h10] at this

/-- `prefixBails` of a node with the prefix `pfx` decides whether the stored bytes of the prefix match the key. -/
theorem prefixBails_eq (hh : Header n pfx) (K : Key) (d : Nat) : ∃ bail, prefixBails (Cell.inner n : Cell V) K d = .ok bail ∧
    (bail = false ↔ ∀ t, t < min 10 pfx.length → pfx[t]? = (K.drop d)[t]?) := by
  unfold prefixBails
  simp only [Cell.partialLen, Cell.part, hh.len]
  by_cases hp : pfx.length > 0
  · rw [if_pos hp]
    unfold checkPrefix maxPrefixLen
    have hkl : (K.drop d).length = K.length - d := List.length_drop
    obtain ⟨j, stop, g1, -, g3, g4, g5, g6⟩ := scanEq_spec n.part (K.drop d) (min (min pfx.length 10) (K.length - d)) 0 (by rw [hh.part]; omega) (by rw [hkl]; omega)
    simp only [g1, Except.bind_ok, pure, Except.pure]
    refine ⟨_, rfl, ?_⟩
    simp only [bne_eq_false_iff_eq]
    constructor
    · intro hj t ht
      rw [← g4 t (by omega) (by omega), hh.byte (by omega) (by omega)]
    · intro hall
      have hlen : ¬ (K.length - d < min 10 pfx.length) := fun hlt => by
        have := hall (K.length - d) hlt
        rw [List.getElem?_eq_none (l := K.drop d) (by rw [hkl]; omega), List.getElem?_eq_getElem (by omega)] at this
        cases this
      cases hs : stop with
      | false => have := g5 hs; omega
      | true =>
        obtain ⟨g7, g8⟩ := g6 hs
        refine absurd ?_ g8
        rw [hh.byte (by omega) (by omega), hall j (by omega)]
  · rw [if_neg hp]
    refine ⟨false, rfl, ?_⟩
    simp only [true_iff]
    intro t ht
    omega

/-- For any node the test does not panic. -/
theorem prefixBails_ok (hp : n.part.length = 10) (K : Key) (d : Nat) : ∃ bail, prefixBails (Cell.inner n : Cell V) K d = .ok bail := by
  unfold prefixBails
  by_cases h0 : (Cell.inner n : Cell V).partialLen > 0
  · rw [if_pos h0]
    simp only [Cell.partialLen, Cell.part]
    unfold checkPrefix maxPrefixLen
    obtain ⟨j, stop, g1, -⟩ := scanEq_spec n.part (K.drop d) (min (min n.partialLen 10) (K.length - d)) 0 (by rw [hp]; omega) (by rw [List.length_drop]; omega)
    simp only [g1, Except.bind_ok, pure, Except.pure]
    exact ⟨_, rfl⟩
  · rw [if_neg h0]
    exact ⟨_, rfl⟩

/-- What `prefixMismatch` finds. -/
def MisSpec (pfx K' : Key) (r : Nat) : Prop :=
  (pfx <+: K' ∧ pfx.length ≤ r) ∨ (r < pfx.length ∧ r < K'.length ∧ pfx.take r = K'.take r ∧ pfx[r]? ≠ K'[r]?)

theorem take_eq_of_get {xs ys : Key} {r : Nat} (h : ∀ t, t < r → xs[t]? = ys[t]?) : xs.take r = ys.take r := by
  refine List.ext_getElem? fun i => ?_
  rw [List.getElem?_take, List.getElem?_take]
  split
  · exact h i (by assumption)
  · rfl

theorem MisSpec.of_scan {xs : Key} {K' : Key} {j m : Nat} (hpre : ∀ t, t < m → xs[t]? = pfx[t]?) (hm : m ≤ pfx.length)
    (h1 : ∀ t, t < j → xs[t]? = K'[t]?) (h2 : j < m) (h3 : xs[j]? ≠ K'[j]?) (hj : j < K'.length) : MisSpec pfx K' j :=
  Or.inr ⟨by omega, hj, take_eq_of_get fun t ht => by rw [← hpre t (by omega), h1 t ht], by rw [← hpre j h2]; exact h3⟩

/-- `prefixMismatch` on a node with prefix `pfx` and children below; the key does not end inside the prefix. -/
theorem prefixMismatch_eq {K K' : Key} (ha : h[a]? = some (.inner n)) (hh : Header n pfx) (hK : K = p ++ K')
    (hmin : ∃ (e : Addr) (lc : LeafC V), minimum h (some a) = .ok (some e) ∧ h[e]? = some (.leaf lc) ∧ p ++ pfx <+: lc.key) (hno : ¬ K' <+: pfx) :
    ∃ r, prefixMismatch h a K K.length p.length = .ok r ∧ MisSpec pfx K' r := by
  unfold prefixMismatch
  have hdrop : K.drop p.length = K' := by rw [hK, List.drop_left]
  have hlen : K.length - p.length = K'.length := by rw [hK, List.length_append]; omega
  simp only [rd_eq ha, Except.bind_ok, Cell.partialLen, Cell.part, hh.len, hdrop, hlen, maxPrefixLen]
  obtain ⟨j, stop, g1, -, g3, g4, g5, g6⟩ := scanEq_spec n.part K' (min (min 10 pfx.length) K'.length) 0 (by rw [hh.part]; omega) (by omega)
  rw [g1]
  simp only [Except.bind_ok]
  have hpre : ∀ t, t < min 10 pfx.length → n.part[t]? = pfx[t]? := fun t ht => hh.byte (by omega) (by omega)
  -- the key does not end inside the prefix
  have hend : ∀ m, m ≤ pfx.length → (∀ t, t < m → pfx[t]? = K'[t]?) → ¬ K'.length ≤ m := fun m hm hall hle => by
    refine hno (prefix_iff_get.2 fun t ht => (hall t (by omega)).symm)
  cases hs : stop with
  | true =>
    obtain ⟨g7, g8⟩ := g6 hs
    exact ⟨j, rfl, MisSpec.of_scan hpre (by omega) (fun t ht => g4 t (by omega) ht) (by omega) g8 (by omega)⟩
  | false =>
    simp only [Bool.false_eq_true, if_false]
    have hj := g5 hs
    have hall : ∀ t, t < j → pfx[t]? = K'[t]? := fun t ht => by rw [← hpre t (by omega), g4 t (by omega) ht]
    have hjK : j < K'.length := Nat.lt_of_not_le (hend j (by omega) hall)
    have hj' : j = min 10 pfx.length := by omega
    by_cases hp : pfx.length > 10
    · rw [if_pos hp]
      obtain ⟨e, lc, hm1, hm2, hm3⟩ := hmin
      simp only [hm1, Except.bind_ok, rdLeaf_eq hm2, pure, Except.pure]
      obtain ⟨tl, htl⟩ := hm3
      have hld : lc.key.drop p.length = pfx ++ tl := by rw [← htl, List.append_assoc, List.drop_left]
      have hll : lc.key.length = p.length + pfx.length + tl.length := by rw [← htl]; simp only [List.length_append]
      have hKl : K.length = p.length + K'.length := by rw [hK, List.length_append]
      rw [hld]
      obtain ⟨j2, stop2, k1, k2, k3, k4, k5, k6⟩ := scanEq_spec (pfx ++ tl) K' (min lc.key.length K.length - p.length - j) j
        (by rw [List.length_append]; omega) (by omega)
      simp only [k1]
      refine ⟨j2, rfl, ?_⟩
      have hpt : ∀ t, t < pfx.length → (pfx ++ tl)[t]? = pfx[t]? := fun t ht => List.getElem?_append_left ht
      have hall2 : ∀ t, t < j2 → (pfx ++ tl)[t]? = K'[t]? := fun t ht => by
        by_cases htj : t < j
        · rw [hpt t (by omega), hall t htj]
        · exact k4 t (by omega) ht
      by_cases hj2 : j2 < pfx.length
      · cases hs2 : stop2 with
        | true =>
          obtain ⟨k7, k8⟩ := k6 hs2
          exact MisSpec.of_scan hpt (Nat.le_refl _) hall2 hj2 k8 (by omega)
        | false =>
          have := k5 hs2
          refine absurd ?_ (hend j2 (by omega) fun t ht => by rw [← hpt t (by omega), hall2 t ht])
          omega
      · exact Or.inl ⟨prefix_iff_get.2 fun t ht => by rw [← hpt t ht, hall2 t (by omega)], by omega⟩
    · rw [if_neg hp]
      exact ⟨j, rfl, Or.inl ⟨prefix_iff_get.2 fun t ht => hall t (by omega), by omega⟩⟩

end Art
