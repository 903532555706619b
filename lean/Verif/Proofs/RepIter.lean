import Verif.Proofs.RepSeek
/-
The forward iterator on a well-formed tree.
-/
set_option autoImplicit false
set_option linter.unusedVariables false
set_option linter.unusedSimpArgs false
set_option linter.unusedSectionVars false
namespace Art
variable {V : Type} [Removals] {h : Heap V} {E F : List (Ent V)} {N : List (Key × Addr)} {K p pfx pre : Key} {a : Addr} {n : Inner} {es : Edges} {st : Option Addr} {full : Bool}
  {stk : List (Option Addr)} {z : Nat}

theorem children256 (hk : n.kind = .n256) (hL : Layout n es st) : n.children.filterMap (fun c => c) = es.map (·.2) := by
  rcases hL.kinds with ⟨h0, hb⟩ | ⟨h0, hb⟩ | ⟨h0, hb, -⟩ | ⟨h0, hb, -⟩
  · rw [h0] at hk; cases hk
  · rw [h0] at hk; cases hk
  · rw [h0] at hk; cases hk
  · have h1 := compact256_eq hk hL
    have hlen : n.children.length = 256 := hb.1
    have h2 : n.children = (List.range 256).map fun (i : Nat) => (n.children[i]?).getD none := by
      refine List.ext_getElem? fun i => ?_
      rw [List.getElem?_map]
      by_cases hi : i < 256
      · rw [List.getElem?_range hi, Option.map_some, List.getElem?_eq_getElem (by omega), Option.getD_some]
      · rw [List.getElem?_eq_none (by omega), List.getElem?_eq_none (by simp; omega), Option.map_none]
    rw [← h1]
    unfold compact256
    rw [h2, List.filterMap_map, List.map_filterMap]
    rw [← h2]
    refine congrArg (fun f => List.filterMap f _) (funext fun i => ?_)
    simp only [Function.comp]
    cases n.children[i]? with
    | none => rfl
    | some o => cases o <;> rfl

/-- The children in the order of their bytes. -/
theorem Layout.iterChildren (hL : Layout n es st) : n.iterChildren = es.map fun e => some e.2 := by
  have hnum := hL.num
  unfold Inner.iterChildren
  rcases hL.kinds with ⟨hk, hb⟩ | ⟨hk, hb⟩ | ⟨hk, hb, -⟩ | ⟨hk, hb, -⟩ <;> rw [hk] <;> simp only
  · obtain ⟨-, -, ⟨-, -, h2⟩ | ⟨-, h2⟩⟩ := hb
    · rw [h2, hnum, List.take_of_length_le (by simp)]
    · rw [h2, hnum, List.take_left' (by simp)]
  · obtain ⟨-, -, ⟨-, -, h2⟩ | ⟨-, h2⟩⟩ := hb
    · rw [h2, hnum, List.take_of_length_le (by simp)]
    · rw [h2, hnum, List.take_left' (by simp)]
  · rw [compact48_eq hk hL, List.filterMap_map]
    induction es <;> simp_all [Function.comp_def]
  · have := congrArg (List.map some) (children256 hk hL)
    rw [List.map_map, List.map_filterMap] at this
    exact this

/-- A stack of well-formed subtrees with the entries `F`, of `z` nodes in all. -/
inductive Stack (h : Heap V) : List (Option Addr) → List (Ent V) → Nat → Prop
  | nil : Stack h [] [] 0
  | cons {q : Key} {x : Addr} {E : List (Ent V)} {N : List (Key × Addr)} {xs : List (Option Addr)} {F : List (Ent V)} {z : Nat}
      (hr : Rep h q x E N) (hs : Stack h xs F z) : Stack h (some x :: xs) (E ++ F) (N.length + z)

theorem Stack.append {stk' : List (Option Addr)} {F' : List (Ent V)} {z' : Nat} (h1 : Stack h stk F z) (h2 : Stack h stk' F' z') : Stack h (stk ++ stk') (F ++ F') (z + z') := by
  induction h1 with
  | nil => simpa using h2
  | @cons q x E N xs F z hr hs ih =>
    have := Stack.cons hr ih
    rw [List.append_assoc, Nat.add_assoc]
    exact this

theorem Stack.kids {P : Key} {f : Byte → List (Ent V)} {g : Byte → List (Key × Addr)} (hch : ∀ b c, (b, c) ∈ es → Rep h (P ++ [b]) c (f b) (g b)) :
    Stack h (es.map fun e => some e.2) (es.flatMap fun e => f e.1) (es.flatMap fun e => g e.1).length := by
  induction es with
  | nil => exact .nil
  | cons e es ih =>
    obtain ⟨b, c⟩ := e
    rw [List.map_cons, List.flatMap_cons, List.flatMap_cons, List.length_append]
    exact .cons (hch b c (by simp)) (ih fun b c hb => hch b c (by simp [hb]))

theorem hasPrefix_iff (k p : Key) : hasPrefix k p = true ↔ p <+: k := by
  unfold hasPrefix
  by_cases h0 : p.length = 0
  · rw [if_pos h0]
    have := List.length_eq_zero_iff.1 h0
    subst this
    simp
  · rw [if_neg h0]; exact hasPrefixB_iff k p

/-- The pair an iterator returns for an entry. -/
def Ent.out (e : Ent V) : Key × V := (getKey e.1, e.2.1)

/-- Does an iterator with the given prefix return the entry? -/
def Ent.sel (pre : Key) (e : Ent V) : Bool := pre.isPrefixOf e.1

theorem Ent.sel_iff (pre : Key) (e : Ent V) : Ent.sel pre e = true ↔ pre <+: e.1 := by simp [Ent.sel]

theorem iterNext_spec : ∀ (fuel : Nat) {it : Iter} {F : List (Ent V)} {z : Nat}, Stack h it.stack F z → z < fuel →
    (F.filter (Ent.sel it.path) = [] ∧ iterNext h fuel it = .ok (none, { it with stack := [] })) ∨
    ∃ e F' stk' z', Stack h stk' F' z' ∧ z' < z ∧ F.filter (Ent.sel it.path) = e :: F'.filter (Ent.sel it.path) ∧
      iterNext h fuel it = .ok (some e.out, { it with stack := stk' }) := by
  intro fuel
  induction fuel with
  | zero => intro it F z _ hz; omega
  | succ fuel ih =>
    intro it F z hs hz
    obtain ⟨path, node, stack, seen⟩ := it
    simp only at hs ⊢
    cases hs with
    | nil => exact Or.inl ⟨rfl, rfl⟩
    | @cons q x E N xs F z hr hs =>
      unfold iterNext
      simp only
      cases hr with
      | @leaf p a n l lc ha hL hpart hw hleaf hl hp hd =>
        simp only [rd_eq ha, Except.bind_ok, hleaf, rdLeaf_eq hl, hL.iterChildren, List.map_nil, List.nil_append, pure, Except.pure]
        simp only [List.length_cons, List.length_nil] at hz
        by_cases hpre : hasPrefix lc.key path = true
        · rw [if_pos hpre]
          refine Or.inr ⟨(lc.key, lc.value, l), F, xs, z, hs, by simp only [List.length_cons, List.length_nil]; omega, ?_, rfl⟩
          have : Ent.sel path (lc.key, lc.value, l) = true := (Ent.sel_iff _ _).2 ((hasPrefix_iff _ _).1 hpre)
          simp [List.filter_cons, this]
        · rw [if_neg hpre]
          have : Ent.sel path (lc.key, lc.value, l) = false := Bool.eq_false_iff.2 fun h => hpre ((hasPrefix_iff _ _).2 ((Ent.sel_iff _ _).1 h))
          rcases ih (it := ⟨path, node, xs, seen⟩) hs (by omega) with ⟨h1, h2⟩ | ⟨e, F', stk', z', h1, h2, h3, h4⟩
          · exact Or.inl ⟨by simpa [List.filter_cons, this] using h1, h2⟩
          · exact Or.inr ⟨e, F', stk', z', h1, by simp only [List.length_cons, List.length_nil]; omega, by simpa [List.filter_cons, this] using h3, h4⟩
      | @node p a n pfx es st vals f g ha hL hne hh hst hown hnd htw hch =>
        simp only [rd_eq ha, Except.bind_ok, hL.iterChildren]
        have hk := (Stack.kids hch).append hs
        simp only [List.length_cons] at hz
        rcases hown.inv with ⟨ho, rfl⟩ | ⟨l, lc, ho, rfl, hl, hkey⟩
        · simp only [ho, List.nil_append]
          rcases ih (it := ⟨path, node, (es.map fun e => some e.2) ++ xs, seen⟩) hk (by omega) with ⟨h1, h2⟩ | ⟨e, F', stk', z', h1, h2, h3, h4⟩
          · exact Or.inl ⟨h1, h2⟩
          · exact Or.inr ⟨e, F', stk', z', h1, by simp only [List.length_cons]; omega, h3, h4⟩
        · simp only [ho, rdLeaf_eq hl, Except.bind_ok, pure, Except.pure]
          by_cases hpre : hasPrefix lc.key path = true
          · rw [if_pos hpre]
            refine Or.inr ⟨(lc.key, lc.value, l), _, _, _, hk, by simp only [List.length_cons]; omega, ?_, rfl⟩
            have : Ent.sel path (lc.key, lc.value, l) = true := (Ent.sel_iff _ _).2 ((hasPrefix_iff _ _).1 hpre)
            simp [List.filter_cons, this]
          · rw [if_neg hpre]
            have : Ent.sel path (lc.key, lc.value, l) = false := Bool.eq_false_iff.2 fun h => hpre ((hasPrefix_iff _ _).2 ((Ent.sel_iff _ _).1 h))
            rcases ih (it := ⟨path, node, (es.map fun e => some e.2) ++ xs, seen⟩) hk (by omega) with ⟨h1, h2⟩ | ⟨e, F', stk', z', h1, h2, h3, h4⟩
            · exact Or.inl ⟨by simpa [List.filter_cons, this] using h1, h2⟩
            · exact Or.inr ⟨e, F', stk', z', h1, by simp only [List.length_cons]; omega, by simpa [List.filter_cons, this] using h3, h4⟩

theorem iterCollect_spec : ∀ (fuel : Nat) {it : Iter} {F : List (Ent V)} {z : Nat}, Stack h it.stack F z → z < fuel →
    iterCollect h fuel it = .ok ((F.filter (Ent.sel it.path)).map Ent.out) := by
  intro fuel
  induction fuel with
  | zero => intro it F z _ hz; omega
  | succ fuel ih =>
    intro it F z hs hz
    unfold iterCollect
    rcases iterNext_spec (fuel + 1) hs hz with ⟨h1, h2⟩ | ⟨e, F', stk', z', h1, h2, h3, h4⟩
    · simp only [h2, Except.bind_ok, h1]; rfl
    · simp only [h4, Except.bind_ok, h3]
      rw [ih (it := { it with stack := stk' }) h1 (by omega)]
      rfl

/-- Seeking a prefix and collecting gives the entries with that prefix, in order. -/
theorem Rep.collect (hr : Rep h [] a E N) : ∃ it x, seekPrefix h (mkIter a) pre = .ok (it, x) ∧ Sought h pre E N x ∧
    ∀ fuel, h.length < fuel → iterCollect h fuel it = .ok ((E.filter (Ent.sel pre)).map Ent.out) := by
  obtain ⟨x, h1, h2⟩ := hr.seek (pre := pre) (pre.length + 1) (List.nil_prefix) (by simp)
  refine ⟨{ mkIter a with path := pre, node := some x, stack := [some x] }, x, ?_, h2, fun fuel hf => ?_⟩
  · unfold seekPrefix mkIter
    simp only [List.length_nil] at h1
    simp only [h1, Except.bind_ok]
    rfl
  · obtain ⟨q, A, E', B, N', g1, g2, g3, g4, g5, g6⟩ := h2
    rw [iterCollect_spec (F := E' ++ []) (z := N'.length + 0) fuel (.cons g1 .nil) (by have := g1.lengthN; omega)]
    rw [g4, List.append_nil]
    have hA : A.filter (Ent.sel pre) = [] := List.filter_eq_nil_iff.2 fun e he h => g5 e he ((Ent.sel_iff _ _).1 h)
    have hB : B.filter (Ent.sel pre) = [] := List.filter_eq_nil_iff.2 fun e he h => g6 e he ((Ent.sel_iff _ _).1 h)
    simp [hA, hB, mkIter]

end Art
