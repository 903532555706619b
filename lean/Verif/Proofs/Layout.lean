import Verif.Proofs.Iso
/-
The arrays of the four node kinds: which edges (byte, child) a node has, and how the array code finds,
replaces, adds and removes them.
-/
set_option autoImplicit false
set_option linter.unusedVariables false
set_option linter.unusedSimpArgs false
namespace Art

/-! ### Binary search -/

theorem searchLoop_le {f : Nat → Bool} (fuel i j : Nat) (h : i ≤ j) : searchLoop f fuel i j ≤ j := by
  induction fuel generalizing i j with
  | zero => exact h
  | succ fuel ih =>
    unfold searchLoop
    split
    · simp only
      split
      · exact Nat.le_trans (ih _ _ (by omega)) (by omega)
      · exact ih _ _ (by omega)
    · exact h

theorem goSearch_le (n : Nat) (f : Nat → Bool) : goSearch n f ≤ n := searchLoop_le _ _ _ (Nat.zero_le _)

theorem searchLoop_eq {f : Nat → Bool} {k n : Nat} (h1 : ∀ i, i < k → f i = false) (h2 : ∀ i, k ≤ i → i < n → f i = true) :
    ∀ fuel i j, i ≤ k → k ≤ j → j ≤ n → j - i < fuel → searchLoop f fuel i j = k := by
  intro fuel
  induction fuel with
  | zero => intro i j _ _ _ h; omega
  | succ fuel ih =>
    intro i j hi hj hn hf
    rw [searchLoop]
    by_cases hij : i < j
    · rw [if_pos hij]
      simp only
      by_cases hm : (i + j) / 2 < k
      · rw [h1 _ hm]
        simp only [Bool.false_eq_true, if_false]
        exact ih _ _ (by omega) hj hn (by omega)
      · rw [h2 _ (by omega) (by omega)]
        simp only [if_true]
        exact ih _ _ hi (by omega) (by omega) (by omega)
    · rw [if_neg hij]; omega

theorem goSearch_eq {f : Nat → Bool} {k n : Nat} (hk : k ≤ n) (h1 : ∀ i, i < k → f i = false)
    (h2 : ∀ i, k ≤ i → i < n → f i = true) : goSearch n f = k :=
  searchLoop_eq h1 h2 _ _ _ (Nat.zero_le _) hk (Nat.le_refl _) (by omega)

/-! ### Layouts -/

/-- Edges of a node: byte and child, in ascending order of the bytes. -/
abbrev Edges := List (Byte × Addr)

def Edges.Sorted (es : Edges) : Prop := es.Pairwise fun x y => x.1 < y.1

theorem Byte.lt_trans {a b c : Byte} (h1 : a < b) (h2 : b < c) : a < c := by
  rw [UInt8.lt_iff_toNat_lt] at *; omega
theorem Byte.lt_irrefl {a : Byte} : ¬ a < a := by rw [UInt8.lt_iff_toNat_lt]; omega
theorem Byte.lt_asymm {a b : Byte} (h1 : a < b) : ¬ b < a := by rw [UInt8.lt_iff_toNat_lt] at *; omega
theorem Byte.lt_or_eq_or_lt (a b : Byte) : a < b ∨ a = b ∨ b < a := by
  rw [UInt8.lt_iff_toNat_lt, UInt8.lt_iff_toNat_lt, ← UInt8.toNat_inj]; omega
theorem Byte.ofNat_toNat (b : Byte) : UInt8.ofNat b.toNat = b := by simp

/-- The arrays of a `Node4` or `Node16`: keys and children of the edges at the front; in `children` possibly one
stale pointer behind them, then nils. -/
def Arr (cap : Nat) (n : Inner) (es : Edges) (st : Option Addr) : Prop :=
  n.keys.length = cap ∧ (∃ kt, n.keys = es.map (·.1) ++ kt) ∧
  ((es.length = cap ∧ st = none ∧ n.children = es.map fun e => some e.2) ∨
   (es.length < cap ∧ n.children = (es.map fun e => some e.2) ++ st :: List.replicate (cap - es.length - 1) none))

/-- The arrays of a `Node48`: `keys[b]` is one more than the slot of the child for byte `b`, 0 if there is none. -/
structure Indexed (n : Inner) (es : Edges) : Prop where
  klen : n.keys.length = 256
  clen : n.children.length = 48
  le : es.length ≤ 48
  live : ∀ b c, (b, c) ∈ es → ∃ i, i < 48 ∧ n.keys[b.toNat]? = some (UInt8.ofNat (i + 1)) ∧ n.children[i]? = some (some c)
  dead : ∀ b, (∀ c, (b, c) ∉ es) → n.keys[b.toNat]? = some 0
  inj : ∀ b b', b ∈ es.map (·.1) → n.keys[b.toNat]? = n.keys[b'.toNat]? → b = b'
  slot : ∀ i c, n.children[i]? = some (some c) → ∃ b, (b, c) ∈ es ∧ n.keys[b.toNat]? = some (UInt8.ofNat (i + 1))

/-- The array of a `Node256`. -/
def Direct (n : Inner) (es : Edges) : Prop :=
  n.children.length = 256 ∧ ∀ (b : Byte) (c : Addr), n.children[b.toNat]? = some (some c) ↔ (b, c) ∈ es

/-- The arrays of a node of kind `k`. -/
def Body (k : Kind) (n : Inner) (es : Edges) (st : Option Addr) : Prop :=
  match k with
  | .n4 => Arr 4 n es st
  | .n16 => Arr 16 n es st
  | .n48 => Indexed n es ∧ st = none
  | .n256 => Direct n es ∧ st = none

theorem Body.of4 {k : Kind} {n : Inner} {es : Edges} {st : Option Addr} (hk : k = .n4) (h : Arr 4 n es st) : Body k n es st := by
  subst hk; exact h
theorem Body.of16 {k : Kind} {n : Inner} {es : Edges} {st : Option Addr} (hk : k = .n16) (h : Arr 16 n es st) : Body k n es st := by
  subst hk; exact h
theorem Body.of48 {k : Kind} {n : Inner} {es : Edges} {st : Option Addr} (hk : k = .n48) (h : Indexed n es) (hst : st = none) : Body k n es st := by
  subst hk; exact ⟨h, hst⟩
theorem Body.of256 {k : Kind} {n : Inner} {es : Edges} {st : Option Addr} (hk : k = .n256) (h : Direct n es) (hst : st = none) : Body k n es st := by
  subst hk; exact ⟨h, hst⟩

/-- The node has exactly the edges `es`; `st` is a stale pointer left behind in the array. -/
structure Layout (n : Inner) (es : Edges) (st : Option Addr) : Prop where
  sorted : es.Sorted
  num : n.numChildren.toNat = es.length
  body : Body n.kind n es st

theorem Layout.kinds {n : Inner} {es : Edges} {st : Option Addr} (h : Layout n es st) :
    (n.kind = .n4 ∧ Arr 4 n es st) ∨ (n.kind = .n16 ∧ Arr 16 n es st) ∨ (n.kind = .n48 ∧ Indexed n es ∧ st = none) ∨
    (n.kind = .n256 ∧ Direct n es ∧ st = none) := by
  have hb := h.body
  cases hk : n.kind <;> rw [hk] at hb <;> simp only [Body] at hb
  · exact Or.inl ⟨rfl, hb⟩
  · exact Or.inr (Or.inl ⟨rfl, hb⟩)
  · exact Or.inr (Or.inr (Or.inl ⟨rfl, hb⟩))
  · exact Or.inr (Or.inr (Or.inr ⟨rfl, hb⟩))

/-- Layouts do not depend on the other fields. -/
theorem Layout.congr {n n' : Inner} {es : Edges} {st : Option Addr} (h : Layout n es st) (hk : n'.kind = n.kind)
    (hn : n'.numChildren = n.numChildren) (hke : n'.keys = n.keys) (hc : n'.children = n.children) : Layout n' es st := by
  obtain ⟨h1, h2, h3⟩ := h
  refine ⟨h1, by rw [hn]; exact h2, ?_⟩
  obtain ⟨k, id, pl, nc, part, keys, ch, lf, c⟩ := n
  obtain ⟨k', id', pl', nc', part', keys', ch', lf', c'⟩ := n'
  simp only at hk hn hke hc
  subst hk hn hke hc
  cases k'
  · exact h3
  · exact h3
  · exact ⟨⟨h3.1.klen, h3.1.clen, h3.1.le, h3.1.live, h3.1.dead, h3.1.inj, h3.1.slot⟩, h3.2⟩
  · exact h3

/-- Nodes whose children are in the first slots. -/
def Inner.Small (n : Inner) : Prop := n.kind ≠ .n256

/-- The slots behind the live children are empty. -/
def Inner.Tidy (n : Inner) : Prop := n.Small → ∀ i, n.numChildren.toNat ≤ i → (n.children[i]?).getD none = none

theorem Inner.Small.of {n n' : Inner} (hs : n'.Small) (h : n'.kind = n.kind) : n.Small := by unfold Inner.Small at hs ⊢; rw [← h]; exact hs
theorem Inner.Tidy.of {n n' : Inner} (ht : n.Tidy) (h1 : n'.kind = n.kind) (h2 : n'.numChildren = n.numChildren) (h3 : n'.children = n.children) : n'.Tidy :=
  fun hs i hi => by rw [h3]; exact ht (hs.of h1) i (by rw [← h2]; exact hi)

/-- The first free slot is not behind the first slot that is not in use. -/
theorem Inner.Tidy.free {n : Inner} (ht : n.Tidy) (hs : n.Small) : n.children.findIdx (·.isNone) ≤ n.numChildren.toNat := by
  by_cases hlt : n.numChildren.toNat < n.children.length
  · have := ht hs _ (Nat.le_refl _)
    rw [List.getElem?_eq_getElem hlt] at this
    refine Nat.le_of_not_lt fun h => ?_
    have h2 := List.not_of_lt_findIdx h
    rw [Option.getD_some] at this
    rw [this] at h2
    cases h2
  · exact Nat.le_trans List.findIdx_le_length (by omega)

/-- A `Node4` or `Node16` without a stale pointer is tidy, and a `Node256` is. -/
theorem Layout.tidy {n : Inner} {es : Edges} (hL : Layout n es none) (hk : n.kind ≠ .n48) : n.Tidy := by
  intro hs i hi
  rw [hL.num] at hi
  have harr : ∀ cap, Arr cap n es none → (n.children[i]?).getD none = none := by
    rintro cap ⟨-, -, ⟨_, _, h⟩ | ⟨_, h⟩⟩
    · rw [h, List.getElem?_eq_none (by simpa using hi)]; rfl
    · rw [h, List.getElem?_append_right (by simpa using hi)]
      cases hx : (none :: List.replicate (cap - es.length - 1) (none : Option Addr))[i - (es.map fun e => some e.2).length]? with
      | none => rfl
      | some o =>
        have := List.mem_of_getElem? hx
        rcases List.mem_cons.1 this with rfl | this
        · rfl
        · rw [List.eq_of_mem_replicate this]; rfl
  rcases hL.kinds with ⟨_, h⟩ | ⟨_, h⟩ | ⟨h, _⟩ | ⟨h, _⟩
  · exact harr _ h
  · exact harr _ h
  · exact absurd h hk
  · exact absurd h hs

theorem Edges.Sorted.inj {es : Edges} (h : es.Sorted) {b : Byte} {c c' : Addr} (h1 : (b, c) ∈ es) (h2 : (b, c') ∈ es) : c = c' := by
  induction es with
  | nil => cases h1
  | cons e es ih =>
    have hp := List.pairwise_cons.1 h
    rcases List.mem_cons.1 h1 with g1 | g1 <;> rcases List.mem_cons.1 h2 with g2 | g2
    · rw [← g1] at g2; cases g2; rfl
    · rw [← g1] at hp; exact absurd (hp.1 _ g2) Byte.lt_irrefl
    · rw [← g2] at hp; exact absurd (hp.1 _ g1) Byte.lt_irrefl
    · exact ih hp.2 g1 g2

theorem Edges.Sorted.nodup {es : Edges} (h : es.Sorted) : (es.map (·.1)).Nodup := by
  unfold List.Nodup
  rw [List.pairwise_map]
  refine List.Pairwise.imp ?_ h
  intro x y hab heq
  rw [heq] at hab
  exact Byte.lt_irrefl hab

theorem Edges.Sorted.append {l r : Edges} : Edges.Sorted (l ++ r) ↔ l.Sorted ∧ r.Sorted ∧ ∀ x ∈ l, ∀ y ∈ r, x.1 < y.1 :=
  List.pairwise_append

/-- Splitting sorted edges at a byte. -/
theorem Edges.Sorted.split {es : Edges} (h : es.Sorted) (b : Byte) :
    ∃ l r, es = l ++ r ∧ (∀ x ∈ l, x.1 < b) ∧ ∀ y ∈ r, ¬ y.1 < b := by
  induction es with
  | nil => exact ⟨[], [], rfl, by simp, by simp⟩
  | cons e es ih =>
    have hp := List.pairwise_cons.1 h
    by_cases he : e.1 < b
    · obtain ⟨l, r, h1, h2, h3⟩ := ih hp.2
      refine ⟨e :: l, r, by rw [h1]; rfl, fun x hx => ?_, h3⟩
      rcases List.mem_cons.1 hx with rfl | hx
      · exact he
      · exact h2 x hx
    · refine ⟨[], e :: es, rfl, by simp, fun y hy => ?_⟩
      rcases List.mem_cons.1 hy with rfl | hy
      · exact he
      · exact fun hyb => he (Byte.lt_trans (hp.1 y hy) hyb)

theorem Edges.Sorted.split_new {es : Edges} (h : es.Sorted) (b : Byte) (hb : b ∉ es.map (·.1)) :
    ∃ l r, es = l ++ r ∧ ∀ c, Edges.Sorted (l ++ (b, c) :: r) := by
  obtain ⟨l, r, h1, h2, h3⟩ := h.split b
  refine ⟨l, r, h1, fun c => ?_⟩
  rw [h1] at h
  obtain ⟨s1, s2, s3⟩ := Edges.Sorted.append.1 h
  have hlt : ∀ y ∈ r, b < y.1 := fun y hy => by
    rcases Byte.lt_or_eq_or_lt y.1 b with h4 | h4 | h4
    · exact absurd h4 (h3 y hy)
    · exact absurd (by rw [h1, ← h4]; exact List.mem_map.2 ⟨y, by simp [hy], rfl⟩) hb
    · exact h4
  refine Edges.Sorted.append.2 ⟨s1, List.pairwise_cons.2 ⟨hlt, s2⟩, fun x hx y hy => ?_⟩
  rcases List.mem_cons.1 hy with rfl | hy
  · exact h2 x hx
  · exact s3 x hx y hy

theorem Edges.mem_split {es : Edges} {b : Byte} {c : Addr} (h : (b, c) ∈ es) : ∃ l r, es = l ++ (b, c) :: r :=
  List.append_of_mem h

theorem Edges.Sorted.repl {l r : Edges} {b : Byte} {c : Addr} (h : Edges.Sorted (l ++ (b, c) :: r)) (c' : Addr) :
    Edges.Sorted (l ++ (b, c') :: r) := by
  obtain ⟨h1, h2, h3⟩ := Edges.Sorted.append.1 h
  have h4 := List.pairwise_cons.1 h2
  refine Edges.Sorted.append.2 ⟨h1, List.pairwise_cons.2 ⟨h4.1, h4.2⟩, fun x hx y hy => ?_⟩
  rcases List.mem_cons.1 hy with rfl | hy
  · exact h3 x hx (b, c) (by simp)
  · exact h3 x hx y (by simp [hy])

theorem Edges.Sorted.remove {l r : Edges} {b : Byte} {c : Addr} (h : Edges.Sorted (l ++ (b, c) :: r)) : Edges.Sorted (l ++ r) := by
  obtain ⟨h1, h2, h3⟩ := Edges.Sorted.append.1 h
  exact Edges.Sorted.append.2 ⟨h1, (List.pairwise_cons.1 h2).2, fun x hx y hy => h3 x hx y (by simp [hy])⟩

theorem Edges.Sorted.lt_left {l r : Edges} {b : Byte} {c : Addr} (h : Edges.Sorted (l ++ (b, c) :: r)) :
    (∀ x ∈ l, x.1 < b) ∧ ∀ y ∈ r, b < y.1 := by
  obtain ⟨h1, h2, h3⟩ := Edges.Sorted.append.1 h
  exact ⟨fun x hx => h3 x hx (b, c) (by simp), (List.pairwise_cons.1 h2).1⟩

/-! ### Searching in a `Node4` or `Node16` -/

section arr
variable {cap : Nat} {n : Inner} {es l r : Edges} {st : Option Addr} {b : Byte} {c : Addr}

theorem Arr.clen (h : Arr cap n es st) : n.children.length = cap := by
  obtain ⟨-, -, ⟨h1, -, h2⟩ | ⟨h1, h2⟩⟩ := h
  · rw [h2]; simp [h1]
  · rw [h2]; simp; omega

theorem Arr.le (h : Arr cap n es st) : es.length ≤ cap := by
  obtain ⟨-, -, ⟨h1, -, h2⟩ | ⟨h1, h2⟩⟩ := h <;> omega

theorem Arr.key (h : Arr cap n es st) {i : Nat} (hi : i < es.length) : n.keys[i]? = some (es[i]).1 := by
  obtain ⟨-, ⟨kt, hk⟩, -⟩ := h
  rw [hk, List.getElem?_append_left (by simpa using hi)]
  simp [hi]

theorem Arr.child (h : Arr cap n es st) {i : Nat} (hi : i < es.length) : n.children[i]? = some (some (es[i]).2) := by
  obtain ⟨-, -, ⟨h1, -, h2⟩ | ⟨h1, h2⟩⟩ := h
  · rw [h2]; simp [hi]
  · rw [h2, List.getElem?_append_left (by simpa using hi)]; simp [hi]

/-- The first position with a byte above `b`. -/
theorem Arr.searchGt (h : Arr cap n es st) (hnum : n.numChildren.toNat = es.length) (he : es = l ++ r)
    (hl : ∀ x ∈ l, ¬ b < x.1) (hr : ∀ y ∈ r, b < y.1) :
    goSearch n.numChildren.toNat (fun i => (n.keys[i]?).getD 0 > b) = l.length := by
  subst he
  rw [hnum]
  refine goSearch_eq (by simp) (fun i hi => ?_) fun i hi hi' => ?_
  · rw [h.key (by simp; omega)]
    simp only [Option.getD_some, List.getElem_append_left hi]
    exact decide_eq_false (hl _ (List.getElem_mem hi))
  · rw [h.key hi']
    simp only [Option.getD_some, List.getElem_append_right hi]
    exact decide_eq_true (hr _ (List.getElem_mem _))

/-- The first position with a byte not below `b`. -/
theorem Arr.searchGe (h : Arr cap n es st) (hnum : n.numChildren.toNat = es.length) (he : es = l ++ r)
    (hl : ∀ x ∈ l, x.1 < b) (hr : ∀ y ∈ r, ¬ y.1 < b) :
    goSearch n.numChildren.toNat (fun i => (n.keys[i]?).getD 0 ≥ b) = l.length := by
  subst he
  rw [hnum]
  refine goSearch_eq (by simp) (fun i hi => ?_) fun i hi hi' => ?_
  · rw [h.key (by simp; omega)]
    simp only [Option.getD_some, List.getElem_append_left hi]
    refine decide_eq_false fun hge => ?_
    have := hl _ (List.getElem_mem hi)
    rw [UInt8.lt_iff_toNat_lt] at this
    rw [ge_iff_le, UInt8.le_iff_toNat_le] at hge
    omega
  · rw [h.key hi']
    simp only [Option.getD_some, List.getElem_append_right hi]
    refine decide_eq_true ?_
    have := hr _ (List.getElem_mem (l := r) (n := i - l.length) (by simp at hi'; omega))
    rw [UInt8.lt_iff_toNat_lt] at this
    rw [ge_iff_le, UInt8.le_iff_toNat_le]
    omega

end arr

/-! ### Finding a child -/

/-- The array index of the child for byte `b`, when `l` are the edges with smaller bytes. -/
def AtSlot (n : Inner) (l : Edges) (b : Byte) (i : Nat) : Prop :=
  match n.kind with
  | .n4 | .n16 => i = l.length
  | .n48 => i < 48 ∧ n.keys[b.toNat]? = some (UInt8.ofNat (i + 1))
  | .n256 => i = b.toNat

theorem ofNat_succ_ne_zero {i : Nat} (hi : i < 255) : UInt8.ofNat (i + 1) ≠ 0 := by
  intro h
  have := congrArg UInt8.toNat h
  simp [UInt8.toNat_ofNat'] at this
  omega

theorem ofNat_succ_sub_one {i : Nat} (hi : i < 255) : (UInt8.ofNat (i + 1) - 1).toNat = i := by
  rw [UInt8.toNat_sub]
  simp [UInt8.toNat_ofNat']
  omega

theorem ofNat_succ_inj {i j : Nat} (hi : i < 255) (hj : j < 255) (h : UInt8.ofNat (i + 1) = UInt8.ofNat (j + 1)) : i = j := by
  have := congrArg UInt8.toNat h
  simp [UInt8.toNat_ofNat'] at this
  omega

theorem byte_lt_len (b : Byte) : b.toNat < 256 := by
  have := b.toNat_lt; simpa using this

section find
variable {n : Inner} {es l r : Edges} {st : Option Addr} {b : Byte} {c : Addr}

theorem getChild_arr {i : Nat} {o : Option Addr} (hk : n.kind = .n4 ∨ n.kind = .n16 ∨ n.kind = .n48) (h : n.children[i]? = some o) :
    n.getChild ((i : Nat) : Int) = .ok o := by
  unfold Inner.getChild
  rcases hk with hk | hk | hk <;> rw [hk] <;> simp [h, Int.not_lt.2 (Int.natCast_nonneg i)]

theorem getChild_256 {i : Nat} (hk : n.kind = .n256) (hi : i < 256) :
    n.getChild ((i : Nat) : Int) = .ok ((n.children[i]?).getD none) := by
  unfold Inner.getChild
  rw [hk]
  have h1 : ¬ ((i : Nat) : Int) < 0 := Int.not_lt.2 (Int.natCast_nonneg i)
  have h2 : ¬ ((i : Nat) : Int) ≥ 256 := by omega
  simp [h1, h2]

theorem find_arr {cap : Nat} (hk : n.kind = .n4 ∨ n.kind = .n16) (hnum : n.numChildren.toNat = (l ++ (b, c) :: r).length)
    (hs : Edges.Sorted (l ++ (b, c) :: r)) (ha : Arr cap n (l ++ (b, c) :: r) st) :
    n.findChild b = .ok (some c, l.length) := by
  have hlt := hs.lt_left
  have hg : goSearch n.numChildren.toNat (fun i => (n.keys[i]?).getD 0 > b) = l.length + 1 := by
    have := ha.searchGt (l := l ++ [(b, c)]) (r := r) (b := b) hnum (by simp) (fun x hx => ?_) hlt.2
    · rw [this]; simp
    · rcases List.mem_append.1 hx with hx | hx
      · exact Byte.lt_asymm (hlt.1 x hx)
      · rw [List.mem_singleton.1 hx]; exact Byte.lt_irrefl
  have hkey := ha.key (i := l.length) (by simp)
  have hch := ha.child (i := l.length) (by simp)
  simp only [List.getElem_append_right (Nat.le_refl _), Nat.sub_self, List.getElem_cons_zero] at hkey hch
  unfold Inner.findChild
  rcases hk with hk | hk <;> rw [hk] <;> simp only <;> rw [hg] <;>
    simp only [Nat.add_sub_cancel, hkey, Nat.le_add_left, true_and, if_true, ge_iff_le, and_self]
  · rw [getChild_arr (Or.inl hk) hch]; rfl
  · rw [getChild_arr (Or.inr (Or.inl hk)) hch]; rfl

theorem find_none_arr {cap : Nat} (hk : n.kind = .n4 ∨ n.kind = .n16) (hnum : n.numChildren.toNat = es.length)
    (hs : es.Sorted) (ha : Arr cap n es st) (hb : b ∉ es.map (·.1)) : n.findChild b = .ok (none, 0) := by
  obtain ⟨l, r, rfl, hso⟩ := hs.split_new b hb
  have hlt := (hso 0).lt_left
  have hg := ha.searchGt (l := l) (r := r) (b := b) hnum rfl (fun x hx => Byte.lt_asymm (hlt.1 x hx)) hlt.2
  unfold Inner.findChild
  have hne : ¬ (l.length ≥ 1 ∧ n.keys[l.length - 1]? = some b) := by
    rintro ⟨h1, h2⟩
    rw [ha.key (by simp; omega)] at h2
    simp only [Option.some.injEq] at h2
    refine hb (List.mem_map.2 ⟨_, List.getElem_mem _, h2⟩)
  rcases hk with hk | hk <;> rw [hk] <;> simp only <;> rw [hg, if_neg hne] <;> rfl

/-- A live edge is found. -/
theorem Layout.find (hL : Layout n (l ++ (b, c) :: r) st) : ∃ i, n.findChild b = .ok (some c, i) ∧ AtSlot n l b i := by
  obtain ⟨hs, hnum, hb⟩ := hL
  unfold AtSlot
  cases hk : n.kind <;> rw [hk] at hb <;> simp only [Body] at hb ⊢
  · exact ⟨_, find_arr (Or.inl hk) hnum hs hb, rfl⟩
  · exact ⟨_, find_arr (Or.inr hk) hnum hs hb, rfl⟩
  · obtain ⟨i, hi, h1, h2⟩ := hb.1.live b c (by simp)
    refine ⟨i, ?_, hi, h1⟩
    unfold Inner.findChild
    rw [hk]
    simp only
    unfold Inner.getKeyAtIdx
    rw [hk]
    simp only [h1, Except.bind_ok, ne_eq, ofNat_succ_ne_zero (show i < 255 by omega), not_false_eq_true, if_true,
      ofNat_succ_sub_one (show i < 255 by omega)]
    rw [getChild_arr (Or.inr (Or.inr hk)) h2]; rfl
  · have h1 := (hb.1.2 b c).2 (by simp)
    refine ⟨b.toNat, ?_, rfl⟩
    unfold Inner.findChild
    rw [hk]
    simp only
    rw [getChild_256 hk (byte_lt_len b), h1]
    rfl

theorem Layout.find_none (hL : Layout n es st) (hbn : b ∉ es.map (·.1)) : n.findChild b = .ok (none, 0) := by
  obtain ⟨hs, hnum, hb⟩ := hL
  have hbn' : ∀ c, (b, c) ∉ es := fun c hc => hbn (List.mem_map.2 ⟨_, hc, rfl⟩)
  cases hk : n.kind <;> rw [hk] at hb <;> simp only [Body] at hb ⊢
  · exact find_none_arr (Or.inl hk) hnum hs hb hbn
  · exact find_none_arr (Or.inr hk) hnum hs hb hbn
  · have h1 := hb.1.dead b hbn'
    unfold Inner.findChild
    rw [hk]
    simp only
    unfold Inner.getKeyAtIdx
    rw [hk]
    simp only [h1, Except.bind_ok, ne_eq, not_true_eq_false, if_false]
    rfl
  · unfold Inner.findChild
    rw [hk]
    simp only
    rw [getChild_256 hk (byte_lt_len b)]
    cases hc : n.children[b.toNat]? with
    | none => rfl
    | some o =>
      cases o with
      | none => rfl
      | some c => exact absurd ((hb.1.2 b c).1 hc) (hbn' c)

theorem Layout.findChild_iff (hL : Layout n es st) (b : Byte) :
    (b ∉ es.map (·.1) ∧ n.findChild b = .ok (none, 0)) ∨
    ∃ l c r i, es = l ++ (b, c) :: r ∧ n.findChild b = .ok (some c, i) ∧ AtSlot n l b i := by
  by_cases h : b ∈ es.map (·.1)
  · obtain ⟨⟨b', c⟩, h1, h2⟩ := List.mem_map.1 h
    simp only at h2
    subst h2
    obtain ⟨l, r, rfl⟩ := List.append_of_mem h1
    obtain ⟨i, h3, h4⟩ := hL.find
    exact Or.inr ⟨l, c, r, i, rfl, h3, h4⟩
  · exact Or.inl ⟨h, hL.find_none h⟩

end find

/-! ### Replacing a child -/

section repl
variable {n : Inner} {es l r : Edges} {st : Option Addr} {b : Byte} {c : Addr}

theorem Edges.Sorted.mem_repl (hs : Edges.Sorted (l ++ (b, c) :: r)) (c' : Addr) (e : Byte × Addr) :
    e ∈ l ++ (b, c') :: r ↔ e = (b, c') ∨ (e.1 ≠ b ∧ e ∈ l ++ (b, c) :: r) := by
  have hlt := hs.lt_left
  constructor
  · intro h
    rcases List.mem_append.1 h with h | h
    · exact Or.inr ⟨fun he => Byte.lt_irrefl (he ▸ hlt.1 e h), by simp [h]⟩
    · rcases List.mem_cons.1 h with h | h
      · exact Or.inl h
      · exact Or.inr ⟨fun he => Byte.lt_irrefl (he ▸ hlt.2 e h), by simp [h]⟩
  · rintro (h | ⟨h1, h2⟩)
    · simp [h]
    · rcases List.mem_append.1 h2 with h | h
      · simp [h]
      · rcases List.mem_cons.1 h with h | h
        · exact absurd (by rw [h]) h1
        · simp [h]

theorem Edges.Sorted.mem_remove (hs : Edges.Sorted (l ++ (b, c) :: r)) (e : Byte × Addr) :
    e ∈ l ++ r ↔ e.1 ≠ b ∧ e ∈ l ++ (b, c) :: r := by
  have hlt := hs.lt_left
  constructor
  · intro h
    rcases List.mem_append.1 h with h | h
    · exact ⟨fun he => Byte.lt_irrefl (he ▸ hlt.1 e h), by simp [h]⟩
    · exact ⟨fun he => Byte.lt_irrefl (he ▸ hlt.2 e h), by simp [h]⟩
  · rintro ⟨h1, h2⟩
    rcases List.mem_append.1 h2 with h | h
    · simp [h]
    · rcases List.mem_cons.1 h with h | h
      · exact absurd (by rw [h]) h1
      · simp [h]

theorem Arr.setChild {cap : Nat} (ha : Arr cap n (l ++ (b, c) :: r) st) (c' : Addr) :
    Arr cap { n with children := n.children.set l.length (some c') } (l ++ (b, c') :: r) st := by
  obtain ⟨h1, ⟨kt, h2⟩, h3⟩ := ha
  refine ⟨h1, ⟨kt, by simpa using h2⟩, ?_⟩
  rcases h3 with ⟨h4, h5, h6⟩ | ⟨h4, h6⟩
  · refine Or.inl ⟨by simpa using h4, h5, ?_⟩
    simp only [h6, List.map_append, List.map_cons]
    rw [List.set_append_right _ _ (by simp)]
    simp
  · refine Or.inr ⟨by simpa using h4, ?_⟩
    simp only [h6, List.map_append, List.map_cons, List.length_append, List.length_cons]
    rw [List.append_assoc, List.set_append_right _ _ (by simp)]
    simp

theorem Indexed.setChild (hs : Edges.Sorted (l ++ (b, c) :: r)) (hi : Indexed n (l ++ (b, c) :: r)) {i : Nat} (hi48 : i < 48)
    (hk : n.keys[b.toNat]? = some (UInt8.ofNat (i + 1))) (c' : Addr) :
    Indexed { n with children := n.children.set i (some c') } (l ++ (b, c') :: r) := by
  obtain ⟨h1, h2, h3, h4, h5, h6, h7⟩ := hi
  have hmap : (l ++ (b, c') :: r).map (·.1) = (l ++ (b, c) :: r).map (·.1) := by simp
  refine ⟨h1, by simpa using h2, by simpa using h3, fun b' c0 hm => ?_, fun b' hb' => ?_, fun b' b'' hm hk' => ?_, fun j c0 hj => ?_⟩
  · rcases (hs.mem_repl c' _).1 hm with he | ⟨hne, hm⟩
    · cases he
      exact ⟨i, hi48, hk, by simp [h2, hi48]⟩
    · obtain ⟨j, hj1, hj2, hj3⟩ := h4 b' c0 hm
      refine ⟨j, hj1, hj2, ?_⟩
      simp only
      rw [List.getElem?_set_ne (fun hij => hne ?_)]
      · exact hj3
      · subst hij
        exact h6 b' b (List.mem_map.2 ⟨_, hm, rfl⟩) (by rw [hj2, hk])
  · refine h5 b' fun c0 hc0 => ?_
    by_cases hbb : b' = b
    · exact hb' c' (by rw [hbb]; simp)
    · exact hb' c0 ((hs.mem_repl c' _).2 (Or.inr ⟨hbb, hc0⟩))
  · rw [hmap] at hm; exact h6 b' b'' hm hk'
  · simp only at hj
    by_cases hij : i = j
    · subst hij
      rw [List.getElem?_set_self (by omega)] at hj
      cases hj
      exact ⟨b, by simp, hk⟩
    · rw [List.getElem?_set_ne hij] at hj
      obtain ⟨b', hb1, hb2⟩ := h7 j c0 hj
      refine ⟨b', (hs.mem_repl c' _).2 (Or.inr ⟨fun hbb => hij ?_, hb1⟩), hb2⟩
      simp only at hbb
      subst hbb
      rw [hk, Option.some.injEq] at hb2
      have : j < 48 := by
        by_cases hj48 : j < 48
        · exact hj48
        · rw [List.getElem?_eq_none (by omega)] at hj; cases hj
      exact ofNat_succ_inj (by omega) (by omega) hb2

theorem Direct.setChild (hs : Edges.Sorted (l ++ (b, c) :: r)) (hd : Direct n (l ++ (b, c) :: r)) (c' : Addr) :
    Direct { n with children := n.children.set b.toNat (some c') } (l ++ (b, c') :: r) := by
  obtain ⟨h1, h2⟩ := hd
  refine ⟨by simpa using h1, fun b' c0 => ?_⟩
  simp only
  rw [hs.mem_repl c']
  by_cases hbb : b = b'
  · subst hbb
    rw [List.getElem?_set_self (by rw [h1]; exact byte_lt_len b)]
    simp only [Option.some.injEq, Prod.mk.injEq, true_and, ne_eq, not_true_eq_false, false_and, or_false]
    exact eq_comm
  · rw [List.getElem?_set_ne (fun h => hbb (UInt8.toNat_inj.1 h)), h2]
    have h3 : b' ≠ b := fun h => hbb h.symm
    simp [h3]

theorem Layout.setChild (hL : Layout n (l ++ (b, c) :: r) st) {i : Nat} (hi : AtSlot n l b i) (c' : Addr) :
    i < n.children.length ∧ Layout { n with children := n.children.set i (some c') } (l ++ (b, c') :: r) st := by
  have hs := hL.sorted
  have hnum := hL.num
  unfold AtSlot at hi
  rcases hL.kinds with ⟨hk, hb⟩ | ⟨hk, hb⟩ | ⟨hk, hb⟩ | ⟨hk, hb⟩ <;> rw [hk] at hi <;> simp only at hi
  · subst hi
    refine ⟨by have := hb.clen; have := hb.le; simp at this; omega, hs.repl c', by simpa using hnum, ?_⟩
    exact Body.of4 hk (hb.setChild c')
  · subst hi
    refine ⟨by have := hb.clen; have := hb.le; simp at this; omega, hs.repl c', by simpa using hnum, ?_⟩
    exact Body.of16 hk (hb.setChild c')
  · refine ⟨by have := hb.1.clen; omega, hs.repl c', by simpa using hnum, ?_⟩
    exact Body.of48 hk (hb.1.setChild hs hi.1 hi.2 c') hb.2
  · subst hi
    refine ⟨by rw [hb.1.1]; exact byte_lt_len b, hs.repl c', by simpa using hnum, ?_⟩
    exact Body.of256 hk (hb.1.setChild hs c') hb.2

/-- Replacing a live child. -/
theorem Layout.setChild_tidy (hL : Layout n (l ++ (b, c) :: r) st) {i : Nat} (hi : AtSlot n l b i) (c' : Addr) (ht : n.Tidy) :
    ({ n with children := n.children.set i (some c') } : Inner).Tidy := by
  intro hs j hj
  have hs : n.Small := hs
  have hj : n.numChildren.toNat ≤ j := hj
  have hnum := hL.num
  have hne : i ≠ j := by
    have hlt : l.length < n.numChildren.toNat := by rw [hnum]; simp
    unfold AtSlot at hi
    rcases hL.kinds with ⟨hk, hb⟩ | ⟨hk, hb⟩ | ⟨hk, hb⟩ | ⟨hk, hb⟩ <;> rw [hk] at hi <;> simp only at hi
    · omega
    · omega
    · rintro rfl
      obtain ⟨i', h1, h2, h3⟩ := hb.1.live b c (by simp)
      have h4 := hi.2
      rw [h2] at h4
      have h5 : i' = i := by
        have := congrArg UInt8.toNat (Option.some.inj h4)
        have hi1 := hi.1
        simp only [UInt8.toNat_ofNat'] at this
        omega
      subst h5
      have := ht hs i' hj
      rw [h3] at this
      cases this
    · exact absurd hk hs
  show ((n.children.set i (some c'))[j]?).getD none = none
  rw [List.getElem?_set_ne hne]
  exact ht hs j hj

end repl

/-! ### Adding a child -/

theorem goCopy_insert {α : Type} (L R T : List α) (x : α) (hT : T ≠ []) :
    (goCopy (L ++ R ++ T) (L.length + 1) (((L ++ R ++ T).drop L.length).take R.length)).set L.length x = L ++ x :: (R ++ T.tail) := by
  obtain ⟨t, T, rfl⟩ := List.exists_cons_of_ne_nil hT
  have h1 : ((L ++ R ++ t :: T).drop L.length).take R.length = R := by
    rw [List.append_assoc, List.drop_left, List.take_left']; rfl
  rw [h1]
  unfold goCopy
  have h2 : (L ++ R ++ t :: T).length - (L.length + 1) = R.length + T.length := by simp; omega
  have h3 : (L ++ R ++ t :: T).drop (L.length + 1 + R.length) = T := by
    rw [show L.length + 1 + R.length = (L ++ R).length + 1 by simp; omega, ← List.drop_drop, List.drop_left]; rfl
  rw [h2, h3, List.take_of_length_le (l := R) (by omega)]
  have h4 : (L ++ R ++ t :: T).take (L.length + 1) = L ++ (R ++ t :: T).take 1 := by
    rw [List.append_assoc, List.take_append]; simp [List.take_of_length_le]
  rw [h4, List.append_assoc, List.append_assoc, List.set_append_right _ _ (Nat.le_refl _), Nat.sub_self]
  cases R with
  | nil => simp
  | cons y R => simp

section add
variable {n : Inner} {es l r : Edges} {st : Option Addr} {b : Byte} {c : Addr}

theorem num_succ {n : Inner} {k : Nat} (hn : n.numChildren.toNat = k) (hk : k < 255) : (n.numChildren + 1).toNat = k + 1 := by
  rw [UInt8.toNat_add, hn]
  have : (1 : UInt8).toNat = 1 := rfl
  rw [this]; omega

theorem num_pred {n : Inner} {k : Nat} (hn : n.numChildren.toNat = k + 1) : (n.numChildren - 1).toNat = k := by
  rw [UInt8.toNat_sub, hn]
  have : (1 : UInt8).toNat = 1 := rfl
  have := n.numChildren.toNat_lt
  rw [‹(1 : UInt8).toNat = 1›]; omega

theorem insertSorted_arr {cap : Nat} (hcap : cap < 255) (hk : n.kind = .n4 ∨ n.kind = .n16) (hnum : n.numChildren.toNat = (l ++ r).length)
    (ha : Arr cap n (l ++ r) st) (hs : Edges.Sorted (l ++ (b, c) :: r)) (hlt : (l ++ r).length < cap) :
    ∃ ks cs, n.insertSorted b c = .ok { n with keys := ks, children := cs, numChildren := n.numChildren + 1 } ∧
      Arr cap { n with keys := ks, children := cs, numChildren := n.numChildren + 1 } (l ++ (b, c) :: r) none := by
  have hlr := hs.lt_left
  have hpos : insertPos n b = l.length :=
    ha.searchGt hnum rfl (fun x hx => Byte.lt_asymm (hlr.1 x hx)) hlr.2
  obtain ⟨hkl, ⟨kt, hkeys⟩, hch⟩ := ha
  have hch : n.children = ((l ++ r).map fun e => some e.2) ++ st :: List.replicate (cap - (l ++ r).length - 1) none := by
    rcases hch with ⟨h1, -, -⟩ | ⟨-, h⟩
    · omega
    · exact h
  have hkt : kt ≠ [] := by
    rintro rfl
    rw [hkeys] at hkl; simp at hkl; simp at hlt; omega
  have hsub : n.numChildren.toNat - l.length = r.length := by rw [hnum]; simp
  refine ⟨l.map (·.1) ++ b :: (r.map (·.1) ++ kt.tail), (l.map fun e => some e.2) ++ some c :: ((r.map fun e => some e.2) ++ List.replicate (cap - (l ++ r).length - 1) none), ?_, ?_⟩
  · have g1 := goCopy_insert (l.map (·.1)) (r.map (·.1)) kt b hkt
    have g2 := goCopy_insert (l.map fun e => some e.2) (r.map fun e => some e.2) (st :: List.replicate (cap - (l ++ r).length - 1) none) (some c) (by simp)
    simp only [List.length_map] at g1 g2
    rw [← List.map_append, ← hkeys] at g1
    rw [← List.map_append, ← hch] at g2
    have e1 : l.length < (goCopy n.keys (l.length + 1) (List.take r.length (List.drop l.length n.keys))).length := by
      have := congrArg List.length g1
      simp at this; simp; omega
    have e2 : l.length < (goCopy n.children (l.length + 1) (List.take r.length (List.drop l.length n.children))).length := by
      have := congrArg List.length g2
      simp at this; simp; omega
    unfold Inner.insertSorted
    simp only [hpos, hsub]
    unfold Inner.setKeyAtIdx
    rcases hk with hk | hk <;> simp only [hk] <;> rw [if_pos e1] <;> simp only [Except.bind_ok] <;>
      unfold Inner.setChild <;> simp only <;> rw [if_pos e2] <;> simp only [Except.bind_ok, g1, g2, pure, Except.pure, List.tail_cons, hk]
  · refine ⟨?_, ⟨kt.tail, by simp⟩, ?_⟩
    · have := congrArg List.length hkeys
      simp at this
      simp
      have : kt.length ≠ 0 := fun h => hkt (List.length_eq_zero_iff.1 h)
      omega
    · simp only [List.length_append] at hlt
      by_cases hfull : (l ++ (b, c) :: r).length = cap
      · refine Or.inl ⟨hfull, rfl, ?_⟩
        simp only [List.length_append, List.length_cons] at hfull
        have : cap - (l ++ r).length - 1 = 0 := by simp; omega
        rw [this]; simp
      · refine Or.inr ⟨by simp at hfull ⊢; omega, ?_⟩
        simp only [List.length_append, List.length_cons] at hfull
        have : cap - (l ++ r).length - 1 = (cap - (l ++ (b, c) :: r).length - 1) + 1 := by simp; omega
        rw [this, List.replicate_succ]; simp

end add

end Art
