import Verif.Proofs.Handle2
import Verif.Proofs.Kept
import Verif.BufferSpec
/-
Iterators whose prefix lies in an array of the caller.
-/
set_option autoImplicit false
set_option linter.unusedVariables false
set_option linter.unusedSimpArgs false
set_option linter.unusedSectionVars false
namespace Art
variable {V : Type} {h : Heap V} {fuel : Nat} {σ : Type}

theorem read_write_miss {m : Mem} {s : Slice} {i j : Nat} {b : Byte} (hw : i ≠ s.arr ∨ j < s.off ∨ s.off + s.len ≤ j) :
    s.read (m.write i j b) = s.read m := by
  unfold Slice.read
  by_cases hi : s.arr = i
  · subst hi
    have hw : j < s.off ∨ s.off + s.len ≤ j := hw.resolve_left (fun h => h rfl)
    have hb : (m.write s.arr j b).bytes s.arr = (m.bytes s.arr).set j b := by
      unfold Mem.bytes Mem.write
      rw [List.getElem?_modify]
      cases m[s.arr]? <;> simp
    rw [hb]
    apply List.ext_getElem?
    intro k
    rw [List.getElem?_take, List.getElem?_take]
    split
    · rw [List.getElem?_drop, List.getElem?_drop, List.getElem?_set_ne (by omega)]
    · rfl
  · rw [bytes_write b hi]

/-- Writes outside the window are not noticed. -/
theorem holdActs_miss {next : σ → R (Option (Key × V) × σ)} {aim : σ → Key → σ} (win : Slice) (p : Key)
    (hk : ∀ it r, next it = .ok r → aim it p = it → aim r.2 p = r.2) (acts : List BufAct) (m : Mem) (it : σ)
    (hm : ∀ x ∈ acts, x.misses win) (hp : win.read m = p) (hit : aim it p = it) :
    holdActs next aim win m it acts = nextN next it (stepsOf acts) := by
  induction acts generalizing m it with
  | nil => rfl
  | cons x acts ih =>
    cases x with
    | next =>
      unfold holdActs
      simp only [stepsOf, nextN, hp, hit]
      cases hn : next it with
      | error e => rfl
      | ok r =>
        simp only [bind, Except.bind]
        rw [ih m r.2 (fun y hy => hm y (by simp [hy])) hp (hk it r hn hit)]
    | write i j b =>
      have hx : i ≠ win.arr ∨ j < win.off ∨ win.off + win.len ≤ j := hm (.write i j b) (by simp)
      exact ih _ it (fun y hy => hm y (by simp [hy])) ((read_write_miss hx).trans hp) hit

/-- Whatever is written, an invariant of `Next` that does not mention the window is kept. -/
theorem holdActs_inv {next : σ → R (Option (Key × V) × σ)} {aim : σ → Key → σ} (win : Slice) (I : σ → Prop) (P : Key × V → Prop)
    (ha : ∀ it k, I it → I (aim it k)) (hn : ∀ it r, I it → next it = .ok r → I r.2 ∧ ∀ kv, r.1 = some kv → P kv)
    (acts : List BufAct) (m : Mem) (it : σ) (l : List (Option (Key × V))) (hi : I it) (e : holdActs next aim win m it acts = .ok l) :
    ∀ kv, some kv ∈ l → P kv := by
  induction acts generalizing m it l with
  | nil => cases e; intro _ h; cases h
  | cons x acts ih =>
    cases x with
    | next =>
      unfold holdActs at e
      obtain ⟨r, h1, e⟩ := R.bind_ok e
      obtain ⟨rest, h2, e⟩ := R.bind_ok e
      cases e
      obtain ⟨g1, g2⟩ := hn _ r (ha it _ hi) h1
      intro kv hkv
      rcases List.mem_cons.1 hkv with hkv | hkv
      · exact g2 kv hkv.symm
      · exact ih m r.2 rest g1 h2 kv hkv
    | write i j b => exact ih _ it l hi e

theorem pathNext_path (fuel : Nat) (it : PathIter) (r : Option (Key × V) × PathIter) (e : pathNext h fuel it = .ok r) : r.2.path = it.path := by
  induction fuel generalizing it with
  | zero => cases e
  | succ n ih =>
    unfold pathNext at e
    split at e
    · cases e; rfl
    · obtain ⟨c, hc, e⟩ := R.bind_ok e
      split at e
      · dsimp only at e
        split at e
        · cases e; rfl
        · exact (ih _ e).trans rfl
      · exact (ih _ e).trans rfl

theorem revPrevious_path (fuel : Nat) (it : RevIter) (r : Option (Key × V) × RevIter) (e : revPrevious h fuel it = .ok r) : r.2.path = it.path := by
  unfold revPrevious at e
  obtain ⟨⟨r1, st⟩, h1, e⟩ := R.bind_ok e
  cases e; rfl

theorem fwd_keeps (p : Key) (it : Iter) (r : Option (Key × V) × Iter) (e : iterNext h fuel it = .ok r) (hp : { it with path := p } = it) :
    { r.2 with path := p } = r.2 := by
  have h1 := (iterNext_keeps fuel it r.1 r.2 e).1
  have h2 : p = it.path := congrArg Iter.path hp
  rw [h2, ← h1]

theorem rev_keeps (p : Key) (it : RevIter) (r : Option (Key × V) × RevIter) (e : revPrevious h fuel it = .ok r) (hp : { it with path := p } = it) :
    { r.2 with path := p } = r.2 := by
  have h1 := revPrevious_path fuel it r e
  have h2 : p = it.path := congrArg RevIter.path hp
  rw [h2, ← h1]

theorem path_keeps (p : Key) (it : PathIter) (r : Option (Key × V) × PathIter) (e : pathNext h fuel it = .ok r) (hp : { it with path := p } = it) :
    { r.2 with path := p } = r.2 := by
  have h1 := pathNext_path fuel it r e
  have h2 : p = it.path := congrArg PathIter.path hp
  rw [h2, ← h1]

theorem pathChildren_iter (n : Inner) : n.pathChildren = n.iterChildren.filterMap (fun c => c) := by
  unfold Inner.pathChildren Inner.iterChildren
  cases n.kind <;> simp only
  · rfl
  · rfl
  · rw [List.filterMap_filterMap]
    congr 1; funext q; cases q.2 <;> rfl
  · rw [List.filterMap_filterMap]
    congr 1; funext q; cases q <;> rfl

/-- A path iterator stays in its tree. -/
theorem Fold.pathNext {S : Addr → Prop} (hS : Fold h S) (fuel : Nat) (it : PathIter) (r : Option (Key × V) × PathIter)
    (hi : ∀ a ∈ it.stack, S a) (e : pathNext h fuel it = .ok r) :
    (∀ a ∈ r.2.stack, S a) ∧ ∀ kv, r.1 = some kv → PairIn h S kv := by
  induction fuel generalizing it with
  | zero => cases e
  | succ n ih =>
    unfold Art.pathNext at e
    split at e
    · cases e; exact ⟨hi, fun _ h => by cases h⟩
    · next a rest hst =>
      rw [hst] at hi
      have ha := hi a (List.mem_cons_self ..)
      have ht : ∀ b ∈ rest, S b := fun b hb => hi b (List.mem_cons_of_mem _ hb)
      obtain ⟨c, hc, e⟩ := R.bind_ok e
      have hc := rd_ok hc
      cases c with
      | leaf l =>
        dsimp only at e
        split at e
        · cases e
          exact ⟨ht, fun _ h => by cases h; exact ⟨a, l, ha, hc, rfl⟩⟩
        · exact ih { it with stack := rest } ht e
      | inner nd =>
        refine ih { it with stack := nd.leaf.toList ++ nd.pathChildren ++ rest } (fun b hb => ?_) e
        rcases List.mem_append.1 hb with hb | hb
        · rcases List.mem_append.1 hb with hb | hb
          · exact hS.leaf a nd b ha hc (Option.mem_toList.1 hb)
          · rw [pathChildren_iter] at hb
            obtain ⟨x, hx, hx'⟩ := List.mem_filterMap.1 hb
            cases hx'
            exact hS.iter ha hc b hx
        · exact ht b hb

/-- What `append` returns has the bytes one expects. -/
theorem goAppend_read (extra : Nat → Nat) {m : Mem} {s : Slice} (b : Byte) (h1 : s.len ≤ s.cap) (h2 : s.off + s.cap ≤ (m.bytes s.arr).length) :
    (goAppend extra m s b).2.read (goAppend extra m s b).1 = s.read m ++ [b] := by
  by_cases hl : s.len < s.cap
  · unfold goAppend
    rw [if_pos hl]
    unfold Slice.read
    dsimp only
    have hb : (m.write s.arr (s.off + s.len) b).bytes s.arr = (m.bytes s.arr).set (s.off + s.len) b := by
      unfold Mem.bytes Mem.write
      rw [List.getElem?_modify]
      cases m[s.arr]? <;> simp
    rw [hb, List.take_add_one, List.getElem?_drop, List.getElem?_set_self (by omega)]
    congr 1
    apply List.ext_getElem?
    intro k
    rw [List.getElem?_take, List.getElem?_take]
    split
    · rw [List.getElem?_drop, List.getElem?_drop, List.getElem?_set_ne (by omega)]
    · rfl
  · exact (goAppend_full extra b (own := []) (by simp) (by omega) h2).2.2

/-- A slice without room is copied into an array that nobody else knows. -/
theorem goAppend_apart (extra : Nat → Nat) {m : Mem} {s : Slice} (b : Byte) (h1 : s.len = s.cap) (h2 : s.off + s.cap ≤ (m.bytes s.arr).length) :
    (goAppend extra m s b).2.read (goAppend extra m s b).1 = s.read m ++ [b] ∧
      ∀ x : BufAct, x.known m → x.misses (goAppend extra m s b).2 := by
  refine ⟨(goAppend_full extra b (own := []) (by simp) h1 h2).2.2, fun x hx => ?_⟩
  cases x with
  | next => trivial
  | write i j c =>
    left
    unfold goAppend
    rw [if_neg (by omega)]
    exact Nat.ne_of_lt hx

end Art
