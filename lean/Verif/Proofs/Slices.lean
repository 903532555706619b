import Verif.Model.Slice
/-
Lemmas about key slices without spare capacity.
-/
set_option autoImplicit false
namespace Art
variable {V : Type}

/-- The invariant behind `C39_partial`: slices held by leaves show the keys of the leaves, and lie outside the
caller's arrays. -/
structure Apart (p : Prog V) : Prop where
  own : ∀ i ∈ p.own, i < p.mem.length
  held : ∀ a s, p.held a = some s → s.arr < p.mem.length ∧ s.arr ∉ p.own ∧
    ∀ l, p.w.heap[a]? = some (.leaf l) → l.key = s.read p.mem

theorem Apart.init : Apart (Prog.init : Prog V) := ⟨nofun, nofun⟩

theorem read_of_bytes {m m' : Mem} {s : Slice} (h : m'.bytes s.arr = m.bytes s.arr) : s.read m' = s.read m := by
  unfold Slice.read; rw [h]

theorem bytes_append {m : Mem} {i : Nat} (x : List Byte) (hi : i < m.length) : Mem.bytes (m ++ [x]) i = m.bytes i := by
  unfold Mem.bytes; rw [List.getElem?_append_left hi]

theorem bytes_write {m : Mem} {i j k : Nat} (b : Byte) (h : k ≠ i) : (m.write i j b).bytes k = m.bytes k := by
  unfold Mem.bytes Mem.write
  rw [List.getElem?_modify]; simp [Ne.symm h]

/-- Reading the keys again changes nothing if the arrays that the leaves hold are unchanged. -/
theorem Apart.look {p : Prog V} (h : Apart p) (m : Mem)
    (hm : ∀ i, i < p.mem.length → i ∉ p.own → m.bytes i = p.mem.bytes i) : p.look m = p.w := by
  unfold Prog.look
  have : (p.w.heap.mapIdx fun a c => c.refresh m (p.held a)) = p.w.heap := by
    apply List.ext_getElem?
    intro a
    rw [List.getElem?_mapIdx]
    cases hc : p.w.heap[a]? with
    | none => rfl
    | some c =>
      cases c with
      | leaf l =>
        cases hs : p.held a with
        | none => rfl
        | some s =>
          obtain ⟨h1, h2, h3⟩ := h.held a s hs
          show some (Cell.leaf { l with key := s.read m }) = _
          rw [read_of_bytes (hm s.arr h1 h2), ← h3 l hc]
      | _ => rfl
  rw [this]

/-- What a call does if its slice has no spare capacity. -/
theorem Apart.call [Inhabited V] {p : Prog V} (h : Apart p) (extra : Nat → Nat) (op : Op V) (s : Slice)
    (hs : p.owns s) (ht : s.len = s.cap) :
    (p.call extra op s).1 = (exec p.w (op.withKey (s.read p.mem))).1 ∧
    (p.call extra op s).2.w = (exec p.w (op.withKey (s.read p.mem))).2 ∧
    (p.call extra op s).2.own = p.own ∧
    (∀ i ∈ p.own, (p.call extra op s).2.mem.bytes i = p.mem.bytes i) ∧
    Apart (p.call extra op s).2 := by
  obtain ⟨ho, hl, hb⟩ := hs
  have hlen : (s.read p.mem).length = s.len := by
    unfold Slice.read; rw [List.length_take, List.length_drop]; omega
  generalize hr : (if op.appends then goAppend extra p.mem s dollar else (p.mem, s)) = r
  have hmem : p.mem.length ≤ r.1.length ∧ ∀ i, i < p.mem.length → r.1.bytes i = p.mem.bytes i := by
    subst hr
    split
    · unfold goAppend
      rw [if_neg (by omega)]
      exact ⟨by simp, fun i hi => bytes_append _ hi⟩
    · exact ⟨Nat.le_refl _, fun _ _ => rfl⟩
  have hlook : p.look r.1 = p.w := h.look _ fun i hi _ => hmem.2 i hi
  have hnew : op.stores = true → r.2.arr < r.1.length ∧ r.2.arr ∉ p.own ∧ r.2.read r.1 = getTreeKey (s.read p.mem) := by
    intro hst
    subst hr
    rw [if_pos (by cases op <;> first | rfl | exact absurd hst nofun)]
    unfold goAppend
    rw [if_neg (by omega)]
    refine ⟨by simp, fun hc => Nat.lt_irrefl _ (h.own _ hc), ?_⟩
    simp only [Slice.read, Mem.bytes, List.getElem?_append_right (Nat.le_refl p.mem.length), Nat.sub_self]
    simp only [List.getElem?_cons_zero, Option.getD_some, List.drop_zero]
    simp only [Slice.read, Mem.bytes] at hlen
    rw [List.take_append_of_le_length (by simp only [List.length_append, List.length_cons, List.length_nil]; omega),
      List.take_of_length_le (by simp only [List.length_append, List.length_cons, List.length_nil]; omega)]
    rfl
  unfold Prog.call
  rw [hr]
  simp only [hlook]
  refine ⟨trivial, trivial, trivial, fun i hi => hmem.2 i (h.own i hi),
    fun i hi => Nat.lt_of_lt_of_le (h.own i hi) hmem.1, ?_⟩
  intro a s' hs'
  simp only [heldAfter] at hs'
  have hts : (if op.stores = true then some r.2 else none) = some s' → s'.arr < r.1.length ∧ s'.arr ∉ p.own ∧
      s'.read r.1 = getTreeKey (s.read p.mem) := by
    intro he
    split at he
    · rename_i hst; cases he; exact hnew hst
    · exact absurd he nofun
  cases hc' : (exec p.w (op.withKey (s.read p.mem))).2.heap[a]? with
  | none => rw [hc'] at hs'; exact absurd hs' nofun
  | some c' =>
    cases c' with
    | leaf l' =>
      have new : (if l'.key = getTreeKey (s.read p.mem) then (if op.stores = true then some r.2 else none) else none)
          = some s' → s'.arr < r.1.length ∧ s'.arr ∉ p.own ∧
          ∀ l, some (Cell.leaf l') = some (.leaf l) → l.key = s'.read r.1 := by
        intro he
        split at he
        · rename_i hk
          obtain ⟨h1, h2, h3⟩ := hts he
          exact ⟨h1, h2, fun l hl => by cases hl; rw [h3]; exact hk⟩
        · exact absurd he nofun
      simp only [hc'] at hs'
      cases hc : p.w.heap[a]? with
      | none => simp only [hc] at hs'; exact new hs'
      | some c =>
        cases c with
        | leaf l =>
          simp only [hc] at hs'
          split at hs'
          · rename_i hk
            obtain ⟨h1, h2, h3⟩ := h.held a s' hs'
            refine ⟨Nat.lt_of_lt_of_le h1 hmem.1, h2, fun l0 hl0 => ?_⟩
            cases hl0
            rw [← hk, h3 l hc, read_of_bytes (hmem.2 _ h1)]
          · exact absurd hs' nofun
        | _ => simp only [hc] at hs'; exact new hs'
    | _ => simp only [hc'] at hs'; exact absurd hs' nofun

/-- An action that is not a call keeps the invariant. -/
theorem Apart.alloc {p : Prog V} (h : Apart p) (bytes : List Byte) :
    Apart { p with mem := p.mem ++ [bytes], own := p.own ++ [p.mem.length] } := by
  constructor
  · intro i hi
    simp only [List.mem_append, List.mem_singleton, List.length_append, List.length_singleton] at hi ⊢
    rcases hi with hi | hi
    · have := h.own i hi; omega
    · omega
  · intro a s hs
    obtain ⟨h1, h2, h3⟩ := h.held a s hs
    refine ⟨by simp only [List.length_append, List.length_singleton]; omega, ?_, fun l hl => ?_⟩
    · simp only [List.mem_append, List.mem_singleton]
      rintro (hc | hc)
      · exact h2 hc
      · omega
    · rw [h3 l hl]; exact (read_of_bytes (bytes_append _ h1)).symm

theorem Apart.poke {p : Prog V} (h : Apart p) (arr i : Nat) (b : Byte) (ha : arr ∈ p.own) :
    Apart { p with mem := p.mem.write arr i b } := by
  have hl : (p.mem.write arr i b).length = p.mem.length := by simp [Mem.write]
  constructor
  · intro j hj; rw [hl]; exact h.own j hj
  · intro a s hs
    obtain ⟨h1, h2, h3⟩ := h.held a s hs
    refine ⟨by rw [hl]; exact h1, h2, fun l hl => ?_⟩
    rw [h3 l hl]
    exact (read_of_bytes (bytes_write b (fun he => h2 (he ▸ ha)))).symm

/-- No slice that is passed has spare capacity. -/
def tight (acts : List (Act V)) : Prop := ∀ op s, .call op s ∈ acts → s.len = s.cap

/-- The invariant along a whole program. -/
theorem Apart.run [Inhabited V] (extra : Nat → Nat) : ∀ (acts : List (Act V)) (p : Prog V), Apart p → p.valid extra acts →
    tight acts → (p.run extra acts).1 = (execAll p.w (p.calls extra acts)).1 ∧ Apart (p.run extra acts).2 := by
  intro acts
  induction acts with
  | nil => intro p h _ _; exact ⟨rfl, h⟩
  | cons a as ih =>
    intro p h hv ht
    have ht' : tight as := fun op s hm => ht op s (List.mem_cons_of_mem _ hm)
    obtain ⟨hv1, hv2⟩ := hv
    cases a with
    | alloc bytes => exact ih _ (h.alloc bytes) hv2 ht'
    | poke arr i b =>
      have hp : Apart (p.act extra (.poke arr i b)).2 ∧ (p.act extra (.poke arr i b)).2.w = p.w := by
        simp only [Prog.act]
        split
        · rename_i ha; exact ⟨h.poke arr i b ha, rfl⟩
        · exact ⟨h, rfl⟩
      have := ih _ hp.1 hv2 ht'
      rw [hp.2] at this
      exact this
    | call op s =>
      obtain ⟨h1, h2, h3, h4, h5⟩ := h.call extra op s (hv1 op s rfl) (ht op s List.mem_cons_self)
      have := ih _ h5 hv2 ht'
      refine ⟨?_, this.2⟩
      show (p.call extra op s).1 :: _ = (execAll p.w (_ :: _)).1
      simp only [execAll]
      rw [h1]
      have h6 := this.1
      rw [h2] at h6
      exact congrArg (List.cons _) h6

end Art
