import Verif.Proofs.Refine3
/-
Trees and transactions that never lost a key.
-/
set_option autoImplicit false
set_option linter.unusedVariables false
set_option linter.unusedSimpArgs false
set_option linter.unusedSectionVars false
namespace Art
variable {V : Type} [Inhabited V] {w : World V} {s : SWorld V} {u : Marks} {ex : Bool} {ops : List (Op V)}

/-- Where keys may have been removed. -/
def Marks.cut (u : Marks) : ViewId → Prop
  | .inl i => u.trees[i]? ≠ some true
  | .inr x => u.txns[x]? ≠ some true

/-- The program is what the specification says, and the marks are right. -/
structure Marked (ex : Bool) (w : World V) (s : SWorld V) (u : Marks) : Prop where
  good : RefinesBy ex u.cut w s
  inv : ∃ S O, INV w.heap w.view w.live S O
  trees : u.trees.length = w.trees.length
  txns : u.txns.length = w.txns.length

theorem Marked.init : Marked ex (World.init : World V) SWorld.init ⟨[], []⟩ := ⟨RefinesBy.init, ⟨_, _, INV.init⟩, rfl, rfl⟩

theorem Map.get_some_of_has {m : Map V} {k : Key} (h : m.has k) : (m.get k).isNone = false := by
  obtain ⟨v, hv⟩ := h
  unfold Map.get
  cases hf : m.find? (fun e => decide (e.1 = k)) with
  | none => exact absurd (List.find?_eq_none.1 hf _ hv) (by simp)
  | some e => rfl

/-- A list that was made longer. -/
theorem getElem?_grow {α : Type} {l : List α} {y : α} {i : Nat} (h : i < l.length) : (l ++ [y])[i]? = l[i]? := List.getElem?_append_left h

theorem Marks.follows (h1 : u.trees.length = w.trees.length) (h2 : u.txns.length = w.txns.length) (op : Op V) (hc : op.Broad w s) : Follows w s u.cut (u.step s op).cut op := by
  have grow : ∀ b, ∀ i, i < w.trees.length → u.cut (.inl i) → (Marks.mk (u.trees ++ [b]) u.txns).cut (.inl i) := fun b i hi h => by
    show (u.trees ++ [b])[i]? ≠ _
    rw [getElem?_grow (h1 ▸ hi)]; exact h
  have growX : ∀ b, ∀ i, i < w.txns.length → u.cut (.inr i) → (Marks.mk u.trees (u.txns ++ [b])).cut (.inr i) := fun b i hi h => by
    show (u.txns ++ [b])[i]? ≠ _
    rw [getElem?_grow (h2 ▸ hi)]; exact h
  have last : ∀ b, b ≠ true → (Marks.mk (u.trees ++ [b]) u.txns).cut (.inl w.trees.length) := fun b hb => by
    show (u.trees ++ [b])[w.trees.length]? ≠ _
    rw [← h1, List.getElem?_append_right (Nat.le_refl _), Nat.sub_self]
    exact fun h => hb (Option.some.inj h)
  have lastX : ∀ b, b ≠ true → (Marks.mk u.trees (u.txns ++ [b])).cut (.inr w.txns.length) := fun b hb => by
    show (u.txns ++ [b])[w.txns.length]? ≠ _
    rw [← h2, List.getElem?_append_right (Nat.le_refl _), Nat.sub_self]
    exact fun h => hb (Option.some.inj h)
  have over : u.cut (.inl w.trees.length) := by
    show u.trees[_]? ≠ _
    rw [List.getElem?_eq_none (by omega)]; nofun
  have overX : u.cut (.inr w.txns.length) := by
    show u.txns[_]? ≠ _
    rw [List.getElem?_eq_none (by omega)]; nofun
  obtain ⟨-, hc⟩ := hc
  cases op with
  | newTree => exact ⟨grow _, fun x _ h => h⟩
  | cloneTree t =>
    unfold Marks.step
    simp only
    cases hb : u.trees[t]? with
    | none => exact ⟨fun _ _ h => h, fun _ _ h => h, fun _ => over⟩
    | some b => exact ⟨grow b, fun _ _ h => h, fun h => last b fun hh => h (by rw [hb, hh])⟩
  | insert t k v =>
    unfold Marks.step
    simp only
    cases hb : u.trees[t]? with
    | none => exact ⟨fun _ _ h => h, fun _ _ h => h, fun _ => over⟩
    | some b => exact ⟨grow b, fun _ _ h => h, fun h => last b fun hh => h (by rw [hb, hh])⟩
  | delete t k =>
    unfold Follows Marks.step
    simp only
    cases hm : s.trees[t]? with
    | none => exact ⟨fun _ _ h => h, fun _ _ h => h, fun m h => nomatch h⟩
    | some m =>
      cases hb : u.trees[t]? with
      | none => exact ⟨fun _ _ h => h, fun _ _ h => h, fun _ _ _ => over⟩
      | some b =>
        refine ⟨grow _, fun _ _ h => h, fun m' h hne => last _ ?_⟩
        cases h
        have he : (m.del k).isEmpty = false := by cases hq : m.del k with
          | nil => exact absurd hq hne
          | cons _ _ => rfl
        rcases hc m hm with h | h
        · rw [he, Map.get_some_of_has h]; simp
        · subst h; exact absurd rfl hne
  | deletePrefix t k => exact hc.elim
  | begin t =>
    unfold Marks.step
    simp only
    cases hb : u.trees[t]? with
    | none => exact ⟨fun _ _ h => h, fun _ _ h => h, fun _ => overX⟩
    | some b => exact ⟨fun _ _ h => h, growX b, fun h => lastX b fun hh => h (by rw [hb, hh])⟩
  | txnClone x =>
    unfold Marks.step
    simp only
    cases hb : u.txns[x]? with
    | none => exact ⟨fun _ _ h => h, fun _ _ h => h, fun _ => overX⟩
    | some b => exact ⟨fun _ _ h => h, growX b, fun h => lastX b fun hh => h (by rw [hb, hh])⟩
  | txnDelete x k =>
    unfold Follows Marks.step
    simp only
    cases hq : s.txns[x]? with
    | none => exact ⟨fun _ _ h => h, fun _ _ _ h => h, fun m h => nomatch h⟩
    | some q =>
      cases hb : u.txns[x]? with
      | none => exact ⟨fun _ _ h => h, fun _ _ _ h => h, fun _ _ _ => by show u.txns[x]? ≠ _; rw [hb]; nofun⟩
      | some b =>
        refine ⟨fun _ _ h => h, fun y _ hy h => ?_, fun q' h hne => ?_⟩
        · show (u.txns.set x _)[y]? ≠ _
          rw [List.getElem?_set_ne (fun h => hy h.symm)]; exact h
        · cases h
          show (u.txns.set x _)[x]? ≠ _
          rw [List.getElem?_set_self (List.getElem?_eq_some_iff.1 hb).1]
          have he : (q.map.del k).isEmpty = false := by cases hq : q.map.del k with
            | nil => exact absurd hq hne
            | cons _ _ => rfl
          rcases hc q hq with h | h
          · rw [he, Map.get_some_of_has h]; simp
          · rw [h] at hne; exact absurd rfl hne
  | txnDeletePrefix x k => exact hc.elim
  | commit x =>
    unfold Marks.step
    simp only
    cases hb : u.txns[x]? with
    | none => exact ⟨fun _ _ h => h, fun _ _ h => h, fun _ => over⟩
    | some b => exact ⟨grow b, fun _ _ h => h, fun h => last b fun hh => h (by rw [hb, hh])⟩
  | commitOnly x =>
    unfold Marks.step
    simp only
    cases hb : u.txns[x]? with
    | none => exact ⟨fun _ _ h => h, fun _ _ h => h, fun _ => over⟩
    | some b => exact ⟨grow b, fun _ _ h => h, fun h => last b fun hh => h (by rw [hb, hh])⟩
  | _ => exact ⟨fun _ _ h => h, fun _ _ h => h⟩

/-- Every call adds as many marks as trees and transactions. -/
theorem Marks.step_length (h1 : u.trees.length = s.trees.length) (h2 : u.txns.length = s.txns.length) (op : Op V) :
    (u.step s op).trees.length = (sexec s op).2.trees.length ∧ (u.step s op).txns.length = (sexec s op).2.txns.length := by
  have ht : ∀ t : Nat, s.trees[t]? = none ↔ u.trees[t]? = none := fun t => by rw [List.getElem?_eq_none_iff, List.getElem?_eq_none_iff, h1]
  have hx : ∀ t : Nat, s.txns[t]? = none ↔ u.txns[t]? = none := fun t => by rw [List.getElem?_eq_none_iff, List.getElem?_eq_none_iff, h2]
  unfold Marks.step sexec
  cases op with
  | newTree => simp [h1, h2]
  | cloneTree t | insert t _ _ | delete t _ | deletePrefix t _ | begin t | get t _ | getWatch t _ | seekPrefixWatch t _ | len t =>
    have := ht t
    cases hm : s.trees[t]? <;> cases hb : u.trees[t]? <;> simp_all
  | txnClone x | trackMutate x _ | notify x | txnInsert x _ _ | txnDelete x _ | txnDeletePrefix x _ | txnGet x _ | txnGetWatch x _ | commit x | commitOnly x =>
    have := hx x
    cases hm : s.txns[x]? <;> cases hb : u.txns[x]? <;> simp_all [SWorld.modTxn]

theorem Marked.exec (hg : Marked ex w s u) (op : Op V) (hc : op.Broad w s) (hx : ex = true → op.Clean s) : Marked ex (exec w op).2 (sexec s op).2 (u.step s op) := by
  obtain ⟨hR, ⟨S, O, hi⟩, h1, h2⟩ := hg
  obtain ⟨-, h4⟩ := exec_simBy hR hi op hc hx (Marks.follows h1 h2 op hc)
  obtain ⟨S', O', h5, -⟩ := exec_iso hi op (legal_allows hR op hc.1)
  obtain ⟨h6, h7⟩ := Marks.step_length (h1.trans hR.ntrees) (h2.trans hR.ntxns) op
  exact ⟨h4, ⟨S', O', h5⟩, h6.trans h4.ntrees.symm, h7.trans h4.ntxns.symm⟩

theorem Marked.broad (hg : Marked false w s u) (ops : List (Op V)) (hc : Along Op.Broad w s ops) : Marked false (execAll w ops).2 (sexecAll s ops).2 (marksAll s u ops) := by
  induction ops generalizing w s u with
  | nil => exact hg
  | cons op ops ih => exact ih (hg.exec op hc.1 fun h => nomatch h) hc.2

theorem Marked.refines (hg : Marked ex w s u) : Refines ex w s := hg.good.mono (fun _ _ => trivial) fun _ _ => trivial

theorem Marked.clean (hg : Marked true w s u) (ops : List (Op V)) (hc : During Op.Clean s ops) : Marked true (execAll w ops).2 (sexecAll s ops).2 (marksAll s u ops) := by
  induction ops generalizing w s u with
  | nil => exact hg
  | cons op ops ih => exact ih (hg.exec op (hc.1.broad hg.refines) fun _ => hc.1) hc.2

/-- The view of a tree that never lost a key. -/
theorem Marked.view (hg : Marked ex w s u) {i : Nat} {t : Tree} {m : Map V} (hu : u.trees[i]? = some true) (ht : w.trees[i]? = some t) (hm : s.trees[i]? = some m) :
    @ViewOf V ⟨False⟩ ex w.heap t.root t.size false m := (hg.good.trees i t m ht hm).mono fun h => h hu

theorem Marked.txn (hg : Marked ex w s u) {x : Nat} {r : TxnRec} {q : STxn V} (hu : u.txns[x]? = some true) (hr : w.txns[x]? = some r) (hq : s.txns[x]? = some q) :
    @TxnOK V ⟨False⟩ ex w.heap r q := (hg.good.txns x r q hr hq).mono fun h => h hu

theorem Broad.marked (hc : Broad ops) : Marked false (execAll World.init ops).2 (sexecAll SWorld.init ops).2 (marksAll SWorld.init ⟨[], []⟩ ops) := Marked.init.broad ops hc
theorem Clean.marked (hc : Clean ops) : Marked true (execAll World.init ops).2 (sexecAll SWorld.init ops).2 (marksAll SWorld.init ⟨[], []⟩ ops) := Marked.init.clean ops hc

theorem Broad.uncut (hc : Broad ops) {i : Nat} (hu : Uncut ops i) {t : Tree} {m : Map V} (ht : treeAfter ops i = some t) (hm : mapAfter ops i = some m) :
    @ViewOf V ⟨False⟩ false (heapAfter ops) t.root t.size false m := hc.marked.view hu ht hm

theorem Clean.uncut (hc : Clean ops) {i : Nat} (hu : Uncut ops i) {t : Tree} {m : Map V} (ht : treeAfter ops i = some t) (hm : mapAfter ops i = some m) :
    @ViewOf V ⟨False⟩ true (heapAfter ops) t.root t.size false m := hc.marked.view hu ht hm

/-! ### Histories without deletions -/

/-- All marks are set. -/
def Marks.Full (u : Marks) : Prop := (∀ b ∈ u.trees, b = true) ∧ ∀ b ∈ u.txns, b = true

theorem Marks.Full.step (h : u.Full) {op : Op V} (hd : op.deletes = false) : (u.step s op).Full := by
  obtain ⟨h1, h2⟩ := h
  have hg : ∀ {l : List Bool} {b : Bool}, (∀ b ∈ l, b = true) → b = true → ∀ c ∈ l ++ [b], c = true := fun hl hb c hc => by
    rcases List.mem_append.1 hc with hc | hc
    · exact hl c hc
    · rw [List.mem_singleton.1 hc]; exact hb
  unfold Marks.step
  cases op with
  | delete | txnDelete | deletePrefix | txnDeletePrefix => cases hd
  | newTree => exact ⟨hg h1 rfl, h2⟩
  | cloneTree t | insert t _ _ =>
    simp only
    cases hb : u.trees[t]? with
    | none => exact ⟨h1, h2⟩
    | some b => exact ⟨hg h1 (h1 b (List.mem_of_getElem? hb)), h2⟩
  | begin t =>
    simp only
    cases hb : u.trees[t]? with
    | none => exact ⟨h1, h2⟩
    | some b => exact ⟨h1, hg h2 (h1 b (List.mem_of_getElem? hb))⟩
  | txnClone x =>
    simp only
    cases hb : u.txns[x]? with
    | none => exact ⟨h1, h2⟩
    | some b => exact ⟨h1, hg h2 (h2 b (List.mem_of_getElem? hb))⟩
  | commit x | commitOnly x =>
    simp only
    cases hb : u.txns[x]? with
    | none => exact ⟨h1, h2⟩
    | some b => exact ⟨hg h1 (h2 b (List.mem_of_getElem? hb)), h2⟩
  | _ => exact ⟨h1, h2⟩

theorem marksAll_full (hd : ∀ op ∈ ops, op.deletes = false) (h : u.Full) : (marksAll s u ops).Full := by
  induction ops generalizing s u with
  | nil => exact h
  | cons op ops ih => exact ih (fun o ho => hd o (by simp [ho])) (h.step (hd op (by simp)))

/-- Without deletions no tree lost a key. -/
theorem Broad.uncut_of_grow (hc : Broad ops) (hd : ∀ op ∈ ops, op.deletes = false) {i : Nat} {t : Tree} (ht : treeAfter ops i = some t) : Uncut ops i := by
  have hlt := (List.getElem?_eq_some_iff.1 ht).1
  rw [← hc.marked.trees] at hlt
  unfold Uncut
  rw [List.getElem?_eq_getElem hlt, (marksAll_full hd ⟨by simp, by simp⟩).1 _ (List.getElem_mem hlt)]

theorem Broad.uncutTxn_of_grow (hc : Broad ops) (hd : ∀ op ∈ ops, op.deletes = false) {x : Nat} {r : TxnRec} (hr : (execAll World.init ops).2.txns[x]? = some r) : UncutTxn ops x := by
  have hlt := (List.getElem?_eq_some_iff.1 hr).1
  rw [← hc.marked.txns] at hlt
  unfold UncutTxn
  rw [List.getElem?_eq_getElem hlt, (marksAll_full hd ⟨by simp, by simp⟩).2 _ (List.getElem_mem hlt)]

end Art
