import Verif.Proofs.Slices
import Verif.Proofs.Limits
/-
Lemmas about keys that the package has returned and that are passed to it again.
-/
set_option autoImplicit false
set_option linter.unusedVariables false
set_option linter.unusedSimpArgs false
namespace Art
variable {V : Type} [Inhabited V]

/-- A slice is a window into an array that the caller did not make; a slice of length zero has no room. -/
structure Slice.Sits (m : Mem) (own : List Nat) (s : Slice) : Prop where
  arr : s.arr < m.length
  out : s.arr ∉ own
  len : s.len ≤ s.cap
  cap : s.off + s.cap ≤ (m.bytes s.arr).length
  nil : s.len = 0 → s.cap = 0

/-- Slices held by leaves show the keys of the leaves, and lie outside the caller's arrays; the nodes are those that the calls `ops` have
made. -/
structure Shares (p : Prog V) (ops : List (Op V)) : Prop where
  hist : p.w = (execAll World.init ops).2
  own : ∀ i ∈ p.own, i < p.mem.length
  held : ∀ a s, p.held a = some s → s.Sits p.mem p.own ∧ ∀ l, p.w.heap[a]? = some (.leaf l) → l.key = s.read p.mem

theorem Shares.init : Shares (Prog.init : Prog V) [] := ⟨rfl, nofun, nofun⟩

theorem Shares.apart {p : Prog V} {ops : List (Op V)} (h : Shares p ops) : Apart p :=
  ⟨h.own, fun a s hs => ⟨(h.held a s hs).1.arr, (h.held a s hs).1.out, (h.held a s hs).2⟩⟩

theorem Slice.Sits.mono {m m' : Mem} {own own' : List Nat} {s : Slice} (h : s.Sits m own) (hl : m.length ≤ m'.length) (hb : m'.bytes s.arr = m.bytes s.arr)
    (ho : s.arr ∉ own') : s.Sits m' own' := ⟨Nat.lt_of_lt_of_le h.arr hl, ho, h.len, by rw [hb]; exact h.cap, h.nil⟩

theorem Slice.Sits.read_length {m : Mem} {own : List Nat} {s : Slice} (h : s.Sits m own) : (s.read m).length = s.len := by
  unfold Slice.read
  have := h.len
  have := h.cap
  rw [List.length_take, List.length_drop]
  omega

/-- A call that leaves all arrays as they are, and whose slice shows the key, keeps everything. -/
theorem Shares.call {p : Prog V} {ops : List (Op V)} (h : Shares p ops) (extra : Nat → Nat) (op : Op V) (s : Slice)
    (hm : ∀ r, r = (if op.appends then goAppend extra p.mem s dollar else (p.mem, s)) →
      (p.mem.length ≤ r.1.length ∧ ∀ i, i < p.mem.length → r.1.bytes i = p.mem.bytes i) ∧
      (op.appends = true → r.2.Sits r.1 p.own ∧ r.2.read r.1 = getTreeKey (s.read p.mem))) :
    (p.call extra op s).1 = (exec p.w (op.withKey (s.read p.mem))).1 ∧
    (∀ i, i < p.mem.length → (p.call extra op s).2.mem.bytes i = p.mem.bytes i) ∧
    Shares (p.call extra op s).2 (ops ++ [op.withKey (s.read p.mem)]) := by
  generalize hr : (if op.appends then goAppend extra p.mem s dollar else (p.mem, s)) = r
  obtain ⟨hmem, hnew⟩ := hm r hr.symm
  have hlook : p.look r.1 = p.w := h.apart.look _ fun i hi _ => hmem.2 i hi
  unfold Prog.call
  rw [hr]
  simp only [hlook]
  refine ⟨trivial, hmem.2, ?_, fun i hi => Nat.lt_of_lt_of_le (h.own i hi) hmem.1, ?_⟩
  · rw [execAll_snoc, ← h.hist]
  intro a s' hs'
  simp only [heldAfter] at hs'
  have hts : (if op.stores = true then some r.2 else none) = some s' → s'.Sits r.1 p.own ∧ s'.read r.1 = getTreeKey (s.read p.mem) := by
    intro he
    split at he
    · rename_i hst
      cases he
      exact hnew (by cases op <;> first | rfl | exact absurd hst nofun)
    · exact absurd he nofun
  cases hc' : (exec p.w (op.withKey (s.read p.mem))).2.heap[a]? with
  | none => rw [hc'] at hs'; exact absurd hs' nofun
  | some c' =>
    cases c' with
    | leaf l' =>
      have new : (if l'.key = getTreeKey (s.read p.mem) then (if op.stores = true then some r.2 else none) else none)
          = some s' → s'.Sits r.1 p.own ∧ ∀ l, some (Cell.leaf l') = some (.leaf l) → l.key = s'.read r.1 := by
        intro he
        split at he
        · rename_i hk
          obtain ⟨h1, h3⟩ := hts he
          exact ⟨h1, fun l hl => by cases hl; rw [h3]; exact hk⟩
        · exact absurd he nofun
      simp only [hc'] at hs'
      cases hc : p.w.heap[a]? with
      | none => simp only [hc] at hs'; exact new hs'
      | some c =>
        cases c with
        | leaf l =>
          simp only [hc] at hs'
          split at hs'
          · rename_i hk
            obtain ⟨h1, h3⟩ := h.held a s' hs'
            refine ⟨h1.mono hmem.1 (hmem.2 _ h1.arr) h1.out, fun l0 hl0 => ?_⟩
            cases hl0
            rw [← hk, h3 l hc, read_of_bytes (hmem.2 _ h1.arr)]
          · exact absurd hs' nofun
        | _ => simp only [hc] at hs'; exact new hs'
    | _ => simp only [hc'] at hs'; exact absurd hs' nofun

/-- `append` to a slice without room. -/
theorem goAppend_full (extra : Nat → Nat) {m : Mem} {own : List Nat} {s : Slice} (b : Byte) (ho : ∀ i ∈ own, i < m.length) (h1 : s.len = s.cap)
    (h2 : s.off + s.cap ≤ (m.bytes s.arr).length) :
    (m.length ≤ (goAppend extra m s b).1.length ∧ ∀ i, i < m.length → (goAppend extra m s b).1.bytes i = m.bytes i) ∧
    (goAppend extra m s b).2.Sits (goAppend extra m s b).1 own ∧ (goAppend extra m s b).2.read (goAppend extra m s b).1 = s.read m ++ [b] := by
  have hlen : (s.read m).length = s.len := by
    unfold Slice.read; rw [List.length_take, List.length_drop]; omega
  have hb : Mem.bytes (m ++ [s.read m ++ [b] ++ List.replicate (extra s.len) 0]) m.length = s.read m ++ [b] ++ List.replicate (extra s.len) 0 := by
    unfold Mem.bytes
    rw [List.getElem?_append_right (Nat.le_refl _), Nat.sub_self]
    rfl
  unfold goAppend
  rw [if_neg (by omega)]
  refine ⟨⟨by simp, fun i hi => bytes_append _ hi⟩, ⟨by simp, fun hc => Nat.lt_irrefl _ (ho _ hc), by simp, ?_, nofun⟩, ?_⟩
  · dsimp only
    rw [hb]
    simp only [List.length_append, hlen, List.length_cons, List.length_nil, List.length_replicate]
    omega
  · show (List.drop 0 (Mem.bytes _ m.length)).take _ = _
    rw [hb, List.drop_zero, List.take_append_of_le_length (by simp only [List.length_append, List.length_cons, List.length_nil]; omega),
      List.take_of_length_le (by simp only [List.length_append, List.length_cons, List.length_nil]; omega)]

/-- Writing a byte that is there. -/
theorem write_same {m : Mem} {i j : Nat} {b : Byte} (h : (m.bytes i)[j]? = some b) : m.write i j b = m := by
  unfold Mem.write
  apply List.ext_getElem?
  intro k
  rw [List.getElem?_modify]
  unfold Mem.bytes at h
  by_cases e : i = k
  · subst e
    cases hm : m[i]? with
    | none => rfl
    | some x =>
      rw [hm] at h
      simp only [Option.getD_some] at h
      simp only [if_true, Option.map_eq_map, Option.map_some]
      congr 1
      apply List.ext_getElem?
      intro n
      by_cases e2 : j = n
      · subst e2; rw [List.getElem?_set_self', h]; rfl
      · rw [List.getElem?_set_ne e2]
  · simp only [if_neg e, Option.map_eq_map, Option.map_id_fun', id_eq]

/-- `append` of `'$'` to a returned key: the `'$'` is there already. -/
theorem goAppend_again (extra : Nat → Nat) {m : Mem} {own : List Nat} {s : Slice} {k : Key} {b : Byte} (h : s.Sits m own) (hk : s.read m = k ++ [b]) :
    s.getKey.read m = k ∧ goAppend extra m s.getKey b = (m, s) := by
  have hl : s.len = k.length + 1 := by rw [← h.read_length, hk]; simp
  have h1 := h.len
  have h2 := h.cap
  unfold Slice.getKey
  rw [if_neg (by omega)]
  have hr : ((m.bytes s.arr).drop s.off).take (k.length + 1) = k ++ [b] := by rw [← hl]; exact hk
  refine ⟨?_, ?_⟩
  · show ((m.bytes s.arr).drop s.off).take (s.len - 1) = k
    have : s.len - 1 = k.length := by omega
    rw [this]
    have := congrArg (List.take k.length) hr
    rw [List.take_take, List.take_append_of_le_length (Nat.le_refl _), List.take_length, Nat.min_eq_left (Nat.le_succ _)] at this
    exact this
  · unfold goAppend
    dsimp only
    rw [if_pos (by omega)]
    have hx : (m.bytes s.arr)[s.off + (s.len - 1)]? = some b := by
      have := congrArg (fun l => l[k.length]?) hr
      simp only [List.getElem?_take, List.getElem?_drop, List.getElem?_concat_length] at this
      rw [if_pos (by omega)] at this
      rw [show s.len - 1 = k.length by omega]
      exact this
    rw [write_same hx]
    congr 1
    cases s
    simp only [Slice.mk.injEq, true_and, and_true]
    dsimp only at hl
    omega

/-- Giving a leaf a number for its array changes nothing. -/
theorem Shares.reveal {p : Prog V} {ops : List (Op V)} (h : Shares p ops) (a : Nat) :
    Shares (p.reveal a) ops ∧ (p.reveal a).w = p.w ∧ p.mem.length ≤ (p.reveal a).mem.length ∧ (p.reveal a).own = p.own ∧
    ∀ i, i < p.mem.length → (p.reveal a).mem.bytes i = p.mem.bytes i := by
  have same : Shares p ops ∧ p.w = p.w ∧ p.mem.length ≤ p.mem.length ∧ p.own = p.own ∧ ∀ i, i < p.mem.length → p.mem.bytes i = p.mem.bytes i :=
    ⟨h, rfl, Nat.le_refl _, rfl, fun _ _ => rfl⟩
  unfold Prog.reveal
  split
  · rename_i l hl hn
    refine ⟨⟨h.hist, fun i hi => ?_, fun x s hs => ?_⟩, rfl, by simp, rfl, fun i hi => bytes_append _ hi⟩
    · have := h.own i hi
      simp only [List.length_append, List.length_cons, List.length_nil]
      omega
    · have hb : Mem.bytes (p.mem ++ [l.key]) p.mem.length = l.key := by
        unfold Mem.bytes
        rw [List.getElem?_append_right (Nat.le_refl _), Nat.sub_self]
        rfl
      dsimp only at hs
      split at hs
      · rename_i e
        subst e
        cases hs
        refine ⟨⟨by simp, fun hc => Nat.lt_irrefl _ (h.own _ hc), Nat.le_refl _, by dsimp only; rw [hb]; omega, fun e => e⟩, fun l' hl' => ?_⟩
        rw [hl] at hl'
        cases hl'
        show _ = (List.drop 0 (Mem.bytes _ p.mem.length)).take _
        rw [hb, List.drop_zero, List.take_length]
      · obtain ⟨h1, h2⟩ := h.held x s hs
        refine ⟨h1.mono (by simp) (bytes_append _ h1.arr) h1.out, fun l' hl' => ?_⟩
        rw [h2 l' hl', read_of_bytes (bytes_append _ h1.arr)]
  · exact same

theorem Shares.alloc {p : Prog V} {ops : List (Op V)} (h : Shares p ops) (bytes : List Byte) :
    Shares { p with mem := p.mem ++ [bytes], own := p.own ++ [p.mem.length] } ops := by
  have ha := h.apart.alloc bytes
  refine ⟨h.hist, ha.own, fun a s hs => ⟨?_, (ha.held a s hs).2.2⟩⟩
  have h1 := (h.held a s hs).1
  exact h1.mono (by simp) (bytes_append _ h1.arr) (ha.held a s hs).2.1

theorem Shares.poke {p : Prog V} {ops : List (Op V)} (h : Shares p ops) (arr i : Nat) (b : Byte) (hm : arr ∈ p.own) :
    Shares { p with mem := p.mem.write arr i b } ops := by
  have ha := h.apart.poke arr i b hm
  refine ⟨h.hist, ha.own, fun a s hs => ⟨?_, (ha.held a s hs).2.2⟩⟩
  have h1 := (h.held a s hs).1
  exact h1.mono (by simp [Mem.write]) (bytes_write b fun e => h1.out (e ▸ hm)) h1.out

/-- The slice that a call gets for a returned key `k`: the whole of it, or one without room. -/
def Use.whole (p : Prog V) : Use V → Prop
  | .plain (.call _ s) => s.len = s.cap
  | .plain _ => True
  | .call _ a n c => ∀ k, (p.reveal a).kept a = some k → n = k.len ∧ c = k.cap ∨ n = c
  | .write .. => False
  | .append .. => False

/-- All of them. -/
def Prog.wholeAll (extra : Nat → Nat) (p : Prog V) : List (Use V) → Prop
  | [] => True
  | a :: as => a.whole p ∧ (p.use extra a).2.wholeAll extra as

/-- One action. -/
theorem Shares.use {p : Prog V} {ops : List (Op V)} (h : Shares p ops) (extra : Nat → Nat) (u : Use V) (hf : p.fine u) (hw : u.whole p) :
    (p.use extra u).1.toList = (execAll p.w (p.asks u)).1 ∧ Shares (p.use extra u).2 (ops ++ p.asks u) ∧
    ((∀ x, u ≠ .plain x) → ∀ i, i < p.mem.length → (p.use extra u).2.mem.bytes i = p.mem.bytes i) := by
  have one : ∀ {q : Prog V}, (p.use extra u) = (none, q) → p.asks u = [] → Shares q ops → (∀ i, i < p.mem.length → (∀ x, u ≠ .plain x) → q.mem.bytes i = p.mem.bytes i) →
      (p.use extra u).1.toList = (execAll p.w (p.asks u)).1 ∧ Shares (p.use extra u).2 (ops ++ p.asks u) ∧
        ((∀ x, u ≠ .plain x) → ∀ i, i < p.mem.length → (p.use extra u).2.mem.bytes i = p.mem.bytes i) := fun h1 h2 h3 h4 => by
    rw [h1, h2, List.append_nil]
    exact ⟨rfl, h3, fun hx i hi => h4 i hi hx⟩
  cases u with
  | plain x =>
    cases x with
    | alloc bytes => exact one rfl rfl (h.alloc bytes) fun _ _ hx => absurd rfl (hx _)
    | poke arr i b =>
      refine one rfl rfl ?_ fun _ _ hx => absurd rfl (hx _)
      split
      · rename_i ha; exact h.poke arr i b ha
      · exact h
    | call op s =>
      have hc := h.call extra op s fun r hr => by
        subst hr
        cases ha : op.appends with
        | true =>
          have := goAppend_full extra dollar h.own (show s.len = s.cap from hw) hf.2.2
          exact ⟨this.1, fun _ => this.2⟩
        | false => exact ⟨⟨Nat.le_refl _, fun _ _ => rfl⟩, fun e => nomatch e⟩
      exact ⟨congrArg (fun o => [o]) hc.1, hc.2.2, fun hx => absurd rfl (hx _)⟩
  | call op a n c =>
    obtain ⟨hR, hRw, hRl, hRo, hRb⟩ := h.reveal a
    have hf : ∀ k, (p.reveal a).kept a = some k → n ≤ c ∧ c ≤ k.cap ∧ n ≤ k.len := hf
    have hw : ∀ k, (p.reveal a).kept a = some k → n = k.len ∧ c = k.cap ∨ n = c := hw
    cases hk : (p.reveal a).kept a with
    | none => exact one (q := p) (by simp only [Prog.use, hk]) (by simp only [Prog.asks, hk]) h fun _ _ _ => rfl
    | some k =>
      have hc := hR.call extra op { k with len := n, cap := c } fun r hr => by
        subst hr
        obtain ⟨f1, f2, f3⟩ := hf k hk
        unfold Prog.kept at hk
        split at hk
        · rename_i l hl
          cases hs : (p.reveal a).held a with
          | none => rw [hs] at hk; cases hk
          | some s =>
            rw [hs] at hk
            cases hk
            obtain ⟨h1, h2⟩ := hR.held a s hs
            have hcap : s.off + s.cap ≤ ((p.reveal a).mem.bytes s.arr).length := h1.cap
            have e1 : s.getKey.arr = s.arr ∧ s.getKey.off = s.off ∧ s.getKey.cap = s.cap := by unfold Slice.getKey; split <;> exact ⟨rfl, rfl, rfl⟩
            cases ha : op.appends with
            | false => exact ⟨⟨Nat.le_refl _, fun _ _ => rfl⟩, fun e => nomatch e⟩
            | true =>
              have full : n = c → _ := fun e => goAppend_full extra (s := { s.getKey with len := n, cap := c }) dollar hR.own e
                (by dsimp only; rw [e1.1, e1.2.1]; rw [e1.2.2] at f2; omega)
              rcases hw s.getKey (by unfold Prog.kept; rw [hl, hs]; rfl) with ⟨g1, g2⟩ | g
              · rw [hR.hist] at hl
                rcases leafKey_form ops hl with e | e
                · rw [← hR.hist] at hl
                  have h0 : s.len = 0 := by rw [← h1.read_length, ← h2 l hl, e]; rfl
                  have e3 : s.getKey = s := by unfold Slice.getKey; rw [if_pos h0]
                  have := full (by rw [g1, g2, e3, h0, h1.nil h0])
                  exact ⟨this.1, fun _ => this.2⟩
                · rw [← hR.hist] at hl
                  rw [h2 l hl] at e
                  have hd := goAppend_again extra h1 e
                  have e4 : ({ s.getKey with len := n, cap := c } : Slice) = s.getKey := by rw [g1, g2]
                  rw [e4]
                  simp only [if_true]
                  rw [show (dollar : Byte) = 36 from rfl, hd.2, hd.1]
                  exact ⟨⟨Nat.le_refl _, fun _ _ => rfl⟩, fun _ => ⟨h1, e⟩⟩
              · have := full g
                exact ⟨this.1, fun _ => this.2⟩
        · cases hk
      have e1 : p.use extra (.call op a n c) = (some ((p.reveal a).call extra op { k with len := n, cap := c }).1, ((p.reveal a).call extra op { k with len := n, cap := c }).2) := by
        simp only [Prog.use, hk]
      have e2 : p.asks (.call op a n c) = [op.withKey (({ k with len := n, cap := c } : Slice).read (p.reveal a).mem)] := by simp only [Prog.asks, hk]
      rw [e1, e2]
      rw [hRw] at hc
      exact ⟨congrArg (fun o => [o]) hc.1, hc.2.2, fun _ i hi => (hc.2.1 i (Nat.lt_of_lt_of_le hi hRl)).trans (hRb i hi)⟩
  | write a i b => exact absurd hw id
  | append a b => exact absurd hw id

theorem execAll_app (w : World V) (ops ops' : List (Op V)) : (execAll w (ops ++ ops')).1 = (execAll w ops).1 ++ (execAll (execAll w ops).2 ops').1 := by
  induction ops generalizing w with
  | nil => rfl
  | cons op ops ih => exact congrArg (List.cons (exec w op).1) (ih (exec w op).2)

/-- A whole program. -/
theorem Shares.uses (extra : Nat → Nat) (us : List (Use V)) {p : Prog V} {ops : List (Op V)} (h : Shares p ops) (hf : p.fineAll extra us) (hw : p.wholeAll extra us) :
    (p.uses extra us).1 = (execAll p.w (p.asksAll extra us)).1 ∧ Shares (p.uses extra us).2 (ops ++ p.asksAll extra us) := by
  induction us generalizing p ops with
  | nil => exact ⟨rfl, by rw [Prog.asksAll, List.append_nil]; exact h⟩
  | cons u us ih =>
    obtain ⟨h1, h2, h3⟩ := h.use extra u hf.1 hw.1
    obtain ⟨h4, h5⟩ := ih h2 hf.2 hw.2
    refine ⟨?_, by rw [Prog.asksAll, ← List.append_assoc]; exact h5⟩
    show (p.use extra u).1.toList ++ ((p.use extra u).2.uses extra us).1 = (execAll p.w (p.asks u ++ _)).1
    rw [execAll_app, h1, h4]
    congr 3
    rw [h2.hist, execAll_append, ← h.hist]
end Art
