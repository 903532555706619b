import Verif.Proofs.Refine3
/-
Clean and broad histories: the link between the state of the program and of the specification, and computable
conditions that imply them.
-/
set_option autoImplicit false
set_option linter.unusedVariables false
set_option linter.unusedSimpArgs false
set_option linter.unusedSectionVars false
namespace Art
variable {V : Type} {m : Map V} {k : Key}

theorem Key.plain_iff {k : Key} : k.plain = true ↔ ∀ b ∈ k, b ≠ 36 ∧ b ≠ 255 := by
  unfold Key.plain
  simp only [List.all_eq_true, Bool.and_eq_true, bne_iff_ne]

theorem Map.CanSet.of_ok (h : m.okSet k = true) : m.CanSet k := by
  unfold Map.okSet at h
  simp only [Bool.and_eq_true, decide_eq_true_eq] at h
  obtain ⟨⟨⟨h1, h2⟩, h3⟩, h4⟩ := h
  have hk := Key.plain_iff.1 h1
  have hm : ∀ k', m.has k' → ∀ b ∈ k', b ≠ 36 ∧ b ≠ 255 := fun k' ⟨v, hv⟩ =>
    Key.plain_iff.1 (List.all_eq_true.1 h2 _ hv)
  refine ⟨fun k' hk' => ⟨fun hp => ?_, fun hp => ?_⟩, fun P => ⟨255, fun hp => ?_, fun k' hk' hp => ?_⟩, fun hh k' hk' hp => ?_, by omega⟩
  · exact (hk 36 (hp.subset (by simp))).1 rfl
  · exact (hm k' hk' 36 (hp.subset (by simp))).1 rfl
  · rcases List.mem_append.1 (hp.subset (show (255 : Byte) ∈ P ++ [255] by simp)) with h | h
    · exact (hk 255 h).2 rfl
    · simp at h
  · rcases List.mem_append.1 (hp.subset (show (255 : Byte) ∈ P ++ [255] by simp)) with h | h
    · exact (hm k' hk' 255 h).2 rfl
    · simp at h
  · obtain ⟨v, hv⟩ := hh
    obtain ⟨v', hv'⟩ := hk'
    rcases Bool.or_eq_true_iff.1 h3 with h3 | h3
    · have : (m.any fun e => e.1 == k) = true := List.any_eq_true.2 ⟨_, hv, by simp⟩
      rw [this] at h3; cases h3
    · have := List.all_eq_true.1 h3 _ hv'
      simp only [Bool.or_eq_true, Bool.not_eq_true', beq_iff_eq] at this
      rcases this with h | h
      · have := List.isPrefixOf_iff_prefix.2 hp
        rw [this] at h; cases h
      · exact h

theorem Map.Takes.of_ok {sz : UInt64} (h : m.okPut sz k = true) : m.Takes sz k := by
  unfold Map.okPut at h
  simp only [Bool.and_eq_true, decide_eq_true_eq] at h
  obtain ⟨⟨⟨h1, h2⟩, h3⟩, h4⟩ := h
  have hk := Key.plain_iff.1 h1
  have hm : ∀ k', m.has k' → ∀ b ∈ k', b ≠ 36 ∧ b ≠ 255 := fun k' ⟨v, hv⟩ =>
    Key.plain_iff.1 (List.all_eq_true.1 h2 _ hv)
  refine ⟨⟨fun k' hk' => ⟨fun hp => ?_, fun hp => ?_⟩, fun P => ⟨255, fun hp => ?_, fun k' hk' hp => ?_⟩⟩, ?_, fun he => ?_⟩
  · exact (hk 36 (hp.subset (by simp))).1 rfl
  · exact (hm k' hk' 36 (hp.subset (by simp))).1 rfl
  · rcases List.mem_append.1 (hp.subset (show (255 : Byte) ∈ P ++ [255] by simp)) with h | h
    · exact (hk 255 h).2 rfl
    · simp at h
  · rcases List.mem_append.1 (hp.subset (show (255 : Byte) ∈ P ++ [255] by simp)) with h | h
    · exact (hm k' hk' 255 h).2 rfl
    · simp at h
  · have := UInt64.lt_iff_toNat_lt.1 h3
    have e : (1000000 : UInt64).toNat = 1000000 := rfl
    omega
  · subst he
    simpa using h4

theorem Map.CanDel.of_ok (h : m.okDel k = true) : m.CanDel k := by
  unfold Map.okDel at h
  rcases Bool.or_eq_true_iff.1 h with h | h
  · obtain ⟨e, he, hk⟩ := List.any_eq_true.1 h
    exact Or.inl ⟨e.2, by rw [← eq_of_beq hk]; exact he⟩
  · exact Or.inr (List.isEmpty_iff.1 h)

theorem Op.Clean.of_plain {s : SWorld V} {op : Op V} (h : op.plain s = true) : op.Clean s := by
  unfold Op.plain at h
  obtain ⟨h1, h2⟩ := Bool.and_eq_true_iff.1 h
  refine ⟨h1, ?_⟩
  cases op with
  | insert t k v => intro m hm; simp only [hm, Option.all_some] at h2; exact .of_ok h2
  | delete t k => intro m hm; simp only [hm, Option.all_some] at h2; exact .of_ok h2
  | txnInsert x k v =>
    intro r hr
    simp only [hr, Option.all_some] at h2
    obtain ⟨h2, h3⟩ := Bool.and_eq_true_iff.1 h2
    exact ⟨by simpa using h2, .of_ok h3⟩
  | txnDelete x k => intro r hr; simp only [hr, Option.all_some] at h2; exact .of_ok h2
  | deletePrefix => cases h2
  | txnDeletePrefix => cases h2
  | _ => trivial

theorem Op.Broad.of_loose {w : World V} {s : SWorld V} {op : Op V} (h : op.loose w s = true) : op.Broad w s := by
  unfold Op.loose at h
  obtain ⟨h1, h2⟩ := Bool.and_eq_true_iff.1 h
  refine ⟨h1, ?_⟩
  cases op with
  | insert t k v => intro m tr hm ht; simp only [hm, ht, Option.all_some] at h2; exact .of_ok h2
  | delete t k => intro m hm; simp only [hm, Option.all_some] at h2; exact .of_ok h2
  | txnInsert x k v =>
    intro q r hq hr
    simp only [hr, hq, Option.all_some] at h2
    obtain ⟨h2, h3⟩ := Bool.and_eq_true_iff.1 h2
    exact ⟨by simpa using h2, .of_ok h3⟩
  | txnDelete x k => intro r hr; simp only [hr, Option.all_some] at h2; exact .of_ok h2
  | deletePrefix => cases h2
  | txnDeletePrefix => cases h2
  | _ => trivial

variable [Inhabited V]

theorem Along.imp {P Q : World V → SWorld V → Op V → Prop} (hpq : ∀ w s op, P w s op → Q w s op) {w : World V} {s : SWorld V} {ops : List (Op V)}
    (h : Along P w s ops) : Along Q w s ops := by
  induction ops generalizing w s with
  | nil => trivial
  | cons op ops ih => exact ⟨hpq _ _ _ h.1, ih h.2⟩

theorem Along.append {P : World V → SWorld V → Op V → Prop} {w : World V} {s : SWorld V} {ops more : List (Op V)} :
    Along P w s (ops ++ more) ↔ Along P w s ops ∧ Along P (execAll w ops).2 (sexecAll s ops).2 more := by
  induction ops generalizing w s with
  | nil => exact ⟨fun h => ⟨trivial, h⟩, fun h => h.2⟩
  | cons op ops ih => exact ⟨fun h => ⟨⟨h.1, (ih.1 h.2).1⟩, (ih.1 h.2).2⟩, fun h => ⟨h.1.1, ih.2 ⟨h.1.2, h.2⟩⟩⟩

theorem During.imp {P Q : SWorld V → Op V → Prop} (hpq : ∀ s op, P s op → Q s op) {s : SWorld V} {ops : List (Op V)}
    (h : During P s ops) : During Q s ops := by
  induction ops generalizing s with
  | nil => trivial
  | cons op ops ih => exact ⟨hpq _ _ h.1, ih h.2⟩

theorem During.append {P : SWorld V → Op V → Prop} {s : SWorld V} {ops more : List (Op V)} :
    During P s (ops ++ more) ↔ During P s ops ∧ During P (sexecAll s ops).2 more := by
  induction ops generalizing s with
  | nil => exact ⟨fun h => ⟨trivial, h⟩, fun h => h.2⟩
  | cons op ops ih => exact ⟨fun h => ⟨⟨h.1, (ih.1 h.2).1⟩, (ih.1 h.2).2⟩, fun h => ⟨h.1.1, ih.2 ⟨h.1.2, h.2⟩⟩⟩

theorem sexecAll_append (s : SWorld V) (ops more : List (Op V)) :
    (sexecAll s (ops ++ more)).2 = (sexecAll (sexecAll s ops).2 more).2 := by
  induction ops generalizing s with
  | nil => rfl
  | cons op ops ih => exact ih _

theorem Clean.of_plain {ops : List (Op V)} (h : Plain ops) : Clean ops := During.imp (fun _ _ => .of_plain) h

theorem Broad.of_loose {ops : List (Op V)} (h : Loose ops) : Broad ops := Along.imp (fun _ _ _ => .of_loose) h

/-- The specification's state after a history. -/
abbrev specAfter (ops : List (Op V)) : SWorld V := (sexecAll SWorld.init ops).2

/-- The program's state after a history. -/
abbrev worldAfter (ops : List (Op V)) : World V := (execAll World.init ops).2

theorem Clean.good {ops : List (Op V)} (h : Clean ops) : Good (worldAfter ops) (specAfter ops) := (execAll_good GoodOf.init ops h).2

theorem Clean.vis {ops : List (Op V)} (h : Clean ops) : (execAll World.init ops).1.map Out.vis = (sexecAll SWorld.init ops).1 :=
  (execAll_good GoodOf.init ops h).1

theorem Broad.good {ops : List (Op V)} (h : Broad ops) : GoodOf false (worldAfter ops) (specAfter ops) := execAll_broad GoodOf.init ops h

/-- The view of a tree of a broad history. -/
theorem Broad.view {ops : List (Op V)} (h : Broad ops) {i : Nat} {t : Tree} {m : Map V} (ht : treeAfter ops i = some t) (hm : mapAfter ops i = some m) :
    ViewOf false (heapAfter ops) t.root t.size false m := h.good.1.trees i t m ht hm

/-- The view of a tree of a clean history. -/
theorem Clean.view {ops : List (Op V)} (h : Clean ops) {i : Nat} {t : Tree} {m : Map V} (ht : treeAfter ops i = some t) (hm : mapAfter ops i = some m) :
    View (heapAfter ops) t.root t.size false m := h.good.1.trees i t m ht hm

/-- Calls that return no channel. -/
def Op.mute : Op V → Bool
  | .getWatch .. | .seekPrefixWatch .. | .txnGetWatch .. => false
  | _ => true

theorem vis_onTree {α : Type} {w : World V} {t : Nat} {f : Tree → M V α} {out : α → Out V × List Tree} (ho : ∀ a, (out a).1.vis = (out a).1) :
    (w.onTree t f out).1.vis = (w.onTree t f out).1 := by
  unfold World.onTree
  cases w.trees[t]? with
  | none => rfl
  | some tr =>
    simp only
    match f tr (w.st default) with
    | (.ok a, s) => exact ho a
    | (.error e, s) => rfl

theorem vis_onTxn {α : Type} {w : World V} {t : Nat} {f : M V α} {out : α → Out V × List Tree} {mark : TxnRec → TxnRec} (ho : ∀ a, (out a).1.vis = (out a).1) :
    (w.onTxn t f out mark).1.vis = (w.onTxn t f out mark).1 := by
  unfold World.onTxn
  cases w.txns[t]? with
  | none => rfl
  | some tr =>
    simp only
    match f (w.st tr.st) with
    | (.ok a, s) => exact ho a
    | (.error e, s) => rfl

theorem vis_addTxn {w : World V} {p : R TxnSt × St V} : (w.addTxn p).1.vis = (w.addTxn p).1 := by
  match p with
  | (.ok a, s) => rfl
  | (.error e, s) => rfl

theorem vis_mute {w : World V} {op : Op V} (h : op.mute = true) : (exec w op).1.vis = (exec w op).1 := by
  cases op with
  | newTree => unfold exec; rw [newRadixTree_run]; rfl
  | begin t => simp only [exec]; cases w.trees[t]? with | none => rfl | some tr => exact vis_addTxn
  | txnClone t => simp only [exec]; cases w.txns[t]? with | none => rfl | some tr => exact vis_addTxn
  | getWatch => cases h
  | seekPrefixWatch => cases h
  | txnGetWatch => cases h
  | _ => first | exact vis_onTree fun _ => rfl | exact vis_onTxn fun _ => rfl

/-- What a call returns after a clean history. -/
theorem Clean.out {ops : List (Op V)} (h : Clean ops) {op : Op V} (hc : op.Clean (specAfter ops)) (hm : op.mute = true) :
    (exec (worldAfter ops) op).1 = (sexec (specAfter ops) op).1 := by
  rw [← vis_mute hm]; exact (exec_good h.good op hc).1

/-- Calls whose results may be wrong after a broad history. -/
def Op.counts : Op V → Bool
  | .insert .. | .txnInsert .. | .len .. => true
  | _ => false

theorem not_blur {s : SWorld V} {op : Op V} {o : Out V} (h : op.counts = false) : ¬ op.Blur s o := by
  cases op <;> first | exact fun h => h | cases h

/-- What a call returns after a broad history. -/
theorem Broad.outs {ops : List (Op V)} (h : Broad ops) {op : Op V} (hc : op.Broad (worldAfter ops) (specAfter ops)) (hm : op.mute = true) :
    (exec (worldAfter ops) op).1 = (sexec (specAfter ops) op).1 ∨ op.Blur (specAfter ops) (exec (worldAfter ops) op).1 := by
  have := (exec_goodOf h.good op hc (fun h => nomatch h)).1
  rw [vis_mute hm] at this
  exact this.imp_right (·.2)

theorem Broad.out {ops : List (Op V)} (h : Broad ops) {op : Op V} (hc : op.Broad (worldAfter ops) (specAfter ops)) (hm : op.mute = true) (hb : op.counts = false) :
    (exec (worldAfter ops) op).1 = (sexec (specAfter ops) op).1 := (h.outs hc hm).resolve_right (not_blur hb)

theorem Broad.snoc {ops : List (Op V)} (h : Broad ops) {op : Op V} (hc : op.Broad (worldAfter ops) (specAfter ops)) : Broad (ops ++ [op]) :=
  Along.append.2 ⟨h, hc, trivial⟩

theorem Clean.snoc {ops : List (Op V)} (h : Clean ops) {op : Op V} (hc : op.Clean (specAfter ops)) : Clean (ops ++ [op]) :=
  During.append.2 ⟨h, hc, trivial⟩

end Art
