import Verif.Proofs.Sane
import Verif.Proofs.RunsRemove
/-
Adding and removing children, and `Insert`, keep the nodes well-shaped.
-/
set_option autoImplicit false
set_option linter.unusedVariables false
set_option linter.unusedSimpArgs false
set_option linter.unusedSectionVars false
namespace Art
variable {V : Type} {F : Prop} {s s' : St V} {α β : Type}

/-! ### The arrays of rewritten nodes -/

theorem Inner.Shape.congr {n m : Inner} (h : n.Shape F) (e1 : m.kind = n.kind) (e2 : m.keys = n.keys) (e3 : m.children.length = n.children.length)
    (e4 : m.numChildren.toNat ≤ n.kind.cap) (e5 : F → m.part.length = 10 ∨ m.partialLen = 0) : m.Shape F :=
  ⟨by rw [e2, e1]; exact h.1, by rw [e3, e1]; exact h.2, by rw [e1]; exact e4, by rw [e1, e2]; exact h.4, e5⟩

theorem Inner.Shape.keysSmall {n m : Inner} (h : n.Shape F) (e1 : m.kind = n.kind) (hk : n.kind ≠ .n48) (e2 : m.keys.length = n.keys.length)
    (e3 : m.children.length = n.children.length) (e4 : m.numChildren.toNat ≤ n.kind.cap) (e5 : m.part = n.part) (e6 : m.partialLen = n.partialLen) : m.Shape F :=
  ⟨by rw [e2, e1]; exact h.1, by rw [e3, e1]; exact h.2, by rw [e1]; exact e4, by rw [e1]; exact fun e => absurd e hk,
   by rw [e5, e6]; exact h.5⟩

theorem Inner.setKeyAtIdx_inv {n n' : Inner} {i : Nat} {b : Byte} (h : n.setKeyAtIdx i b = .ok n') :
    n' = { n with keys := n'.keys } ∧ (n'.keys = n.keys ∨ n'.keys = n.keys.set i b) := by
  unfold Inner.setKeyAtIdx at h
  split at h
  · cases h; exact ⟨rfl, .inl rfl⟩
  · split at h
    · cases h; exact ⟨rfl, .inr rfl⟩
    · cases h

theorem u8_succ {x : UInt8} {k : Nat} (h : x.toNat < k) (hk : k ≤ 255) : (x + 1).toNat ≤ k := by
  have := UInt8.toNat_add x 1
  rw [this]
  have : (1 : UInt8).toNat = 1 := rfl
  omega
theorem u8_pred {x : UInt8} {k : Nat} (h : x.toNat ≤ k) (hx : x ≠ 0) : (x - 1).toNat ≤ k := by
  have h0 : x.toNat ≠ 0 := fun e => hx (UInt8.toNat_inj.1 (e.trans rfl))
  have := UInt8.toNat_sub x 1
  have : (1 : UInt8).toNat = 1 := rfl
  have := x.toNat_lt
  omega

theorem insertSorted_shape {n n' : Inner} {c : Byte} {child : Addr} (h : n.insertSorted c child = .ok n') (hs : n.Shape F)
    (hk : n.kind ≠ .n48) (hc : n.numChildren.toNat < n.kind.cap) : n'.Shape F ∧ n'.kind = n.kind ∧ n'.part = n.part := by
  unfold Inner.insertSorted at h
  simp only at h
  cases h1 : Inner.setKeyAtIdx _ (insertPos n c) c with
  | error e => rw [h1] at h; cases h
  | ok n2 =>
    rw [h1] at h
    simp only [Except.bind_ok] at h
    obtain ⟨h2, h3⟩ := Inner.setKeyAtIdx_inv h1
    generalize n2.keys = ks at h2 h3
    subst h2
    cases h4 : Inner.setChild _ (insertPos n c) (some child) with
    | error e => rw [h4] at h; cases h
    | ok n3 =>
      rw [h4] at h
      simp only [Except.bind_ok] at h
      obtain ⟨_, rfl⟩ := Inner.setChild_ok h4
      cases h
      refine ⟨hs.keysSmall rfl hk ?_ ?_ (u8_succ hc ?_) rfl rfl, rfl, rfl⟩
      · rcases h3 with h3 | h3
        · simp only [h3]; exact goCopy_len _ _ _
        · simp only [h3, List.length_set]; exact goCopy_len _ _ _
      · simp only [List.length_set]; exact goCopy_len _ _ _
      · cases n.kind <;> simp [Kind.cap]

theorem keys16to48_length (n : Inner) : (keys16to48 n).length = 256 := by
  unfold keys16to48
  have key : ∀ (l : List Nat) (ks : List Byte), ks.length = 256 → (l.foldl (fun ks i => match n.keys[i]? with
      | some k => ks.set k.toNat (UInt8.ofNat (i + 1))
      | none => ks) ks).length = 256 := by
    intro l
    induction l with
    | nil => exact fun ks h => h
    | cons x l ih => exact fun ks h => ih _ (by simp only; split <;> simp only [List.length_set, h])
  exact key _ _ List.length_replicate

theorem keys16to48_le (n : Inner) (hn : n.numChildren.toNat ≤ 48) : ∀ k ∈ keys16to48 n, k.toNat ≤ 48 := by
  unfold keys16to48
  have key : ∀ (l : List Nat) (ks : List Byte), (∀ i ∈ l, i < 48) → (∀ k ∈ ks, k.toNat ≤ 48) → ∀ k ∈ (l.foldl (fun ks i => match n.keys[i]? with
      | some k => ks.set k.toNat (UInt8.ofNat (i + 1))
      | none => ks) ks), k.toNat ≤ 48 := by
    intro l
    induction l with
    | nil => exact fun ks _ h => h
    | cons x l ih =>
      intro ks hl h
      refine ih _ (fun i hi => hl i (.tail _ hi)) ?_
      simp only
      split
      · intro k hk
        rcases List.mem_or_eq_of_mem_set hk with hk | hk
        · exact h k hk
        · subst hk
          have := hl x (.head _)
          rw [UInt8.toNat_ofNat_of_lt' (by simp [UInt8.size]; omega)]
          omega
      · exact h
  refine key _ _ (fun i hi => ?_) fun k hk => ?_
  · have := List.mem_range.1 hi; omega
  · rw [List.eq_of_mem_replicate hk]; decide

theorem index48_length (cs : List (Byte × Addr)) : (index48 cs).length = 256 := by
  unfold index48
  have key : ∀ (l : List ((Byte × Addr) × Nat)) (ks : List Byte), ks.length = 256 →
      (l.foldl (fun ks p => ks.set p.1.1.toNat (UInt8.ofNat (p.2 + 1))) ks).length = 256 := by
    intro l
    induction l with
    | nil => exact fun ks h => h
    | cons x l ih => exact fun ks h => ih _ (by simp [h])
  exact key _ _ List.length_replicate

theorem index48_le (cs : List (Byte × Addr)) (hn : cs.length ≤ 48) : ∀ k ∈ index48 cs, k.toNat ≤ 48 := by
  unfold index48
  have key : ∀ (l : List ((Byte × Addr) × Nat)) (ks : List Byte), (∀ p ∈ l, p.2 < 48) → (∀ k ∈ ks, k.toNat ≤ 48) →
      ∀ k ∈ (l.foldl (fun ks p => ks.set p.1.1.toNat (UInt8.ofNat (p.2 + 1))) ks), k.toNat ≤ 48 := by
    intro l
    induction l with
    | nil => exact fun ks _ h => h
    | cons x l ih =>
      intro ks hl h
      refine ih _ (fun i hi => hl i (.tail _ hi)) ?_
      intro k hk
      rcases List.mem_or_eq_of_mem_set hk with hk | hk
      · exact h k hk
      · subst hk
        have := hl x (.head _)
        rw [UInt8.toNat_ofNat_of_lt' (by simp [UInt8.size]; omega)]
        omega
  refine key _ _ (fun p hp => ?_) fun k hk => ?_
  · obtain ⟨x, i⟩ := p
    have := (List.mem_zipIdx hp).2.1
    simp only
    omega
  · rw [List.eq_of_mem_replicate hk]; decide

theorem children48to256_length (n : Inner) : (children48to256 n).length = 256 := by
  unfold children48to256; simp

theorem takePrefix_part {n m m' : Inner} {k : Nat} (h : takePrefix n m k = .ok m') :
    ∃ p l, m' = { m with part := p, partialLen := l } ∧ p.length = m.part.length := by
  unfold takePrefix at h
  dsimp only at h
  split at h
  · cases h
  · cases h; exact ⟨_, _, rfl, goCopy_len _ _ _⟩

theorem joinPrefix_part {n m : Inner} {j : List Byte × Nat} (h : joinPrefix n m = .ok j) : j.1.length = n.part.length := by
  unfold joinPrefix at h
  simp only at h
  cases h1 : n.getKeyAtIdx 0 with
  | error e => rw [h1] at h; cases h
  | ok k =>
    rw [h1] at h
    simp only [Except.bind_ok] at h
    repeat' (split at h)
    all_goals first
      | (cases h; simp only [goCopy_len, List.length_set])
      | cases h

/-! ### addChild -/

theorem Sane.cap (hj : Sane F s.heap) {a : Addr} {n : Inner} (hn : s.heap[a]? = some (.inner n)) : n.numChildren.toNat ≤ n.kind.cap := (hj a _ hn).1.3

theorem IsK.eq {a : Addr} {k : Kind} (h : IsK s a k) {n : Inner} (hn : s.heap[a]? = some (.inner n)) : n.kind = k := by
  obtain ⟨m, hm, hk⟩ := h
  rw [hn] at hm
  cases hm
  exact hk
theorem IsN.eq {f : Prop} {h : Heap V} {a : Addr} (g : IsN f h a) {n : Inner} (hn : h[a]? = some (.inner n)) : f → n.part.length = 10 := by
  obtain ⟨m, hm, hk⟩ := g
  rw [hn] at hm
  cases hm
  exact hk

theorem Ts.addChild256 (hj : Sane F s.heap) {a ch : Addr} (ga : IsN F s.heap a) (hk : IsK s a .n256) (gc : IsN F s.heap ch) (c : Byte) :
    Ts F (addChild256 a c ch : M V Addr) (fun a' s' => IsN F s'.heap a') s := by
  unfold Art.addChild256
  refine Ts.bindInner hj fun n hn hok => ?_
  refine Ts.bindLift hj fun n1 hn1 => ?_
  obtain ⟨_, rfl⟩ := Inner.setChild_ok hn1
  refine Ts.bind (Ts.wrInner hj hn rfl rfl (hok.1.congr rfl rfl (by simp) ?_ hok.1.5) hok.2.1 ?_) fun _ s1 hj1 h1 _ => Ts.pure hj1 (ga.mono h1)
  · rw [hk.eq hn]; have := (n.numChildren + 1).toNat_lt; simp only [Kind.cap]; omega
  · intro b hb
    rcases List.mem_or_eq_of_mem_set hb with h | h
    · exact hok.2.2 b h
    · cases h; exact gc

theorem Ts.addChild48 (hj : Sane F s.heap) {a ch : Addr} (ga : IsN F s.heap a) (hk : IsK s a .n48) (gc : IsN F s.heap ch) (c : Byte) :
    Ts F (addChild48 a c ch : M V Addr) (fun a' s' => IsN F s'.heap a') s := by
  unfold Art.addChild48
  refine Ts.bindInner hj fun n hn hok => ?_
  split
  · refine Ts.bindLift hj fun n1 hn1 => ?_
    obtain ⟨hi, rfl⟩ := Inner.setChild_ok hn1
    refine Ts.bindLift hj fun n2 hn2 => ?_
    obtain ⟨h2, h3⟩ := Inner.setKeyAtIdx_inv hn2
    generalize n2.keys = ks at h2 h3
    subst h2
    have hcl : n.children.length = 48 := by rw [hok.1.2, hk.eq hn]; rfl
    refine Ts.bind (Ts.wrInner hj hn rfl rfl ⟨?_, ?_, ?_, ?_, hok.1.5⟩ hok.2.1 ?_) fun _ s1 hj1 h1 _ => Ts.pure hj1 (ga.mono h1)
    · rcases h3 with h3 | h3 <;> simp only [h3, List.length_set] <;> exact hok.1.1
    · simp only [List.length_set]; exact hok.1.2
    · simp only [hk.eq hn, Kind.cap]; have := (n.numChildren + 1).toNat_lt; omega
    · intro _ k hk'
      rcases h3 with h3 | h3
      · rw [h3] at hk'; exact hok.1.4 (hk.eq hn) k hk'
      · rw [h3] at hk'
        rcases List.mem_or_eq_of_mem_set hk' with h | h
        · exact hok.1.4 (hk.eq hn) k h
        · subst h
          rw [UInt8.toNat_ofNat_of_lt' (by simp [UInt8.size]; omega)]
          omega
    · intro b hb
      rcases List.mem_or_eq_of_mem_set hb with h | h
      · exact hok.2.2 b h
      · cases h; exact gc
  · refine Ts.bind (Ts.allocInner hj .n256) fun nn s1 hj1 h1 gn => ?_
    refine Ts.bind (Ts.moveLeaf hj1 nn a) fun _ s2 hj2 h2 _ => ?_
    have gk2 := gn.1.mono h2
    have gn2 := (gn.2.1 F).mono h2
    refine Ts.bindInner hj2 fun n hn hok => ?_
    refine Ts.bindInner hj2 fun m hm hokm => ?_
    refine Ts.bind (Ts.wrInner hj2 hm rfl rfl (hokm.1.congr rfl rfl ?_ hokm.1.3 hokm.1.5) hokm.2.1 (fun b hb => hok.2.2 b (mem_children48to256 hb)))
      fun _ s3 hj3 h3 _ => ?_
    · rw [hokm.1.2, gk2.eq hm]; exact children48to256_length _
    refine Ts.bind (Ts.copyHeader hj3 (gn2.mono h3) fun n m hn hm => ?_) fun _ s4 hj4 h4 _ => ?_
    · rw [(gk2.mono h3).eq hm]; simp only [Kind.cap]; have := n.numChildren.toNat_lt; omega
    exact Ts.addChild256 hj4 ((gn2.mono h3).mono h4) ((gk2.mono h3).mono h4) (gc.mono (((h1.trans h2).trans h3).trans h4)) c

theorem Ts.addChild16 (hj : Sane F s.heap) {a ch : Addr} (ga : IsN F s.heap a) (hk : IsK s a .n16) (gc : IsN F s.heap ch) (c : Byte) :
    Ts F (addChild16 a c ch : M V Addr) (fun a' s' => IsN F s'.heap a') s := by
  unfold Art.addChild16
  refine Ts.bindInner hj fun n hn hok => ?_
  split
  · rename_i hlt
    refine Ts.bindLift hj fun n1 hn1 => ?_
    obtain ⟨e1, e2, e3⟩ := insertSorted_rest hn1
    obtain ⟨s1, s2, s3⟩ := insertSorted_shape hn1 hok.1 (by rw [hk.eq hn]; decide) (by rw [hk.eq hn]; exact UInt8.lt_iff_toNat_lt.1 hlt)
    refine Ts.bind (Ts.wrInner hj hn s2 (by rw [s3]) s1 (e1 ▸ hok.2.1) ?_ e2) fun _ s1 hj1 h1 _ => Ts.pure hj1 (ga.mono h1)
    intro b hb
    rcases mem_insertSorted hn1 hb with h | h
    · exact hok.2.2 b h
    · subst h; exact gc
  · refine Ts.bind (Ts.allocInner hj .n48) fun nn s1 hj1 h1 gn => ?_
    refine Ts.bind (Ts.moveLeaf hj1 nn a) fun _ s2 hj2 h2 _ => ?_
    have gk2 := gn.1.mono h2
    have gn2 := (gn.2.1 F).mono h2
    have hk2 := hk.mono (h1.trans h2)
    refine Ts.bindInner hj2 fun n hn hok => ?_
    refine Ts.bindInner hj2 fun m hm hokm => ?_
    have hcap := hok.1.3
    rw [hk2.eq hn] at hcap
    simp only [Kind.cap] at hcap
    refine Ts.bind (Ts.wrInner hj2 hm rfl rfl ⟨?_, ?_, hokm.1.3, fun _ => keys16to48_le n (by omega), hokm.1.5⟩ hokm.2.1 ?_) fun _ s3 hj3 h3 _ => ?_
    · simp only [gk2.eq hm]; exact keys16to48_length _
    · simp only [goCopy_len]; exact hokm.1.2
    · intro b hb
      rcases mem_goCopy hb with h | h
      · exact hokm.2.2 b h
      · exact hok.2.2 b (List.mem_of_mem_take h)
    refine Ts.bind (Ts.copyHeader hj3 (gn2.mono h3) fun n m hn hm => ?_) fun _ s4 hj4 h4 _ => ?_
    · rw [(gk2.mono h3).eq hm]; simp only [Kind.cap]; have := n.numChildren.toNat_lt; omega
    exact Ts.addChild48 hj4 ((gn2.mono h3).mono h4) ((gk2.mono h3).mono h4) (gc.mono (((h1.trans h2).trans h3).trans h4)) c

theorem Ts.addChild4 (hj : Sane F s.heap) {a ch : Addr} (ga : IsN F s.heap a) (hk : IsK s a .n4) (gc : IsN F s.heap ch) (c : Byte) :
    Ts F (addChild4 a c ch : M V Addr) (fun a' s' => IsN F s'.heap a') s := by
  unfold Art.addChild4
  refine Ts.bindInner hj fun n hn hok => ?_
  split
  · rename_i hlt
    refine Ts.bindLift hj fun n1 hn1 => ?_
    obtain ⟨e1, e2, e3⟩ := insertSorted_rest hn1
    obtain ⟨s1, s2, s3⟩ := insertSorted_shape hn1 hok.1 (by rw [hk.eq hn]; decide) (by rw [hk.eq hn]; exact UInt8.lt_iff_toNat_lt.1 hlt)
    refine Ts.bind (Ts.wrInner hj hn s2 (by rw [s3]) s1 (e1 ▸ hok.2.1) ?_ e2) fun _ s1 hj1 h1 _ => Ts.pure hj1 (ga.mono h1)
    intro b hb
    rcases mem_insertSorted hn1 hb with h | h
    · exact hok.2.2 b h
    · subst h; exact gc
  · refine Ts.bind (Ts.allocInner hj .n16) fun nn s1 hj1 h1 gn => ?_
    refine Ts.bind (Ts.moveLeaf hj1 nn a) fun _ s2 hj2 h2 _ => ?_
    have gk2 := gn.1.mono h2
    have gn2 := (gn.2.1 F).mono h2
    have hk2 := hk.mono (h1.trans h2)
    refine Ts.bindInner hj2 fun n hn hok => ?_
    refine Ts.bindInner hj2 fun m hm hokm => ?_
    refine Ts.bind (Ts.wrInner hj2 hm rfl rfl (hokm.1.keysSmall rfl (by rw [gk2.eq hm]; decide) (goCopy_len _ _ _) (goCopy_len _ _ _) hokm.1.3 rfl rfl) hokm.2.1 ?_)
      fun _ s3 hj3 h3 _ => ?_
    · intro b hb
      rcases mem_goCopy hb with h | h
      · exact hokm.2.2 b h
      · exact hok.2.2 b (List.mem_of_mem_take h)
    refine Ts.bind (Ts.copyHeader hj3 (gn2.mono h3) fun n m hn hm => ?_) fun _ s4 hj4 h4 _ => ?_
    · rw [(gk2.mono h3).eq hm]
      have := hj3.cap hn
      rw [(hk2.mono h3).eq hn] at this
      simp only [Kind.cap] at this ⊢
      omega
    exact Ts.addChild16 hj4 ((gn2.mono h3).mono h4) ((gk2.mono h3).mono h4) (gc.mono (((h1.trans h2).trans h3).trans h4)) c

theorem Ts.addChild (hj : Sane F s.heap) {a ch : Addr} (ga : IsN F s.heap a) (gc : IsN F s.heap ch) (c : Byte) :
    Ts F (addChild a c ch : M V Addr) (fun a' s' => IsN F s'.heap a') s := by
  unfold Art.addChild
  refine Ts.bindCell hj fun d hd => ?_
  cases d with
  | leaf l => exact Ts.throw hj
  | inner n =>
    simp only
    cases hk : n.kind
    · exact Ts.addChild4 hj ga ⟨n, hd, hk⟩ gc c
    · exact Ts.addChild16 hj ga ⟨n, hd, hk⟩ gc c
    · exact Ts.addChild48 hj ga ⟨n, hd, hk⟩ gc c
    · exact Ts.addChild256 hj ga ⟨n, hd, hk⟩ gc c

/-! ### removeChild -/

/-- The node has a child to lose (if the count is limited). -/
def NZ (s : St V) (a : Addr) : Prop := ∃ k x, Hd s a k x ∧ (k = .n4 ∨ k = .n16 → x ≠ 0)

theorem NZ.mono {a : Addr} (h : NZ s a) (hk : KeepHd s s') : NZ s' a := let ⟨k, x, h1, h2⟩ := h; ⟨k, x, hk a k x h1, h2⟩
theorem NZ.copy {a a' : Addr} (h : NZ s a) (hk : ShapeCopy s a s' a') : NZ s' a' := let ⟨k, x, h1, h2⟩ := h; ⟨k, x, hk.hd k x h1, h2⟩
theorem Hd.eq {a : Addr} {k : Kind} {x : UInt8} (h : Hd s a k x) {n : Inner} (hn : s.heap[a]? = some (.inner n)) : n.kind = k ∧ n.numChildren = x := by
  obtain ⟨m, hm, hk⟩ := h
  rw [hn] at hm
  cases hm
  exact hk

theorem Ts.clearTail (hj : Sane F s.heap) (a : Addr) (k i : Nat) :
    Ts F (clearTail a k i : M V Unit) (fun _ s' => KeepHd s s') s := by
  induction k generalizing s i with
  | zero => exact Ts.pure hj (.refl s)
  | succ k ih =>
    unfold Art.clearTail
    refine Ts.bindInner hj fun n hn hok => ?_
    split
    · refine Ts.bind (Ts.trackChannel hj _) fun _ s1 hj1 h1 e1 => ?_
      refine Ts.bind (Ts.setChildAt hj1 a fun b hb => nomatch hb) fun _ s2 hj2 h2 e2 => ?_
      exact (ih hj2 _).conseq fun _ _ _ _ e3 => (e1.trans e2).trans e3
    · exact Ts.pure hj (.refl s)

theorem Ts.removeSorted (hj : Sane F s.heap) {a : Addr} (hz : NZ s a) (hk : IsK s a .n4 ∨ IsK s a .n16) (c : Byte) :
    Ts F (removeSorted a c : M V Unit) (fun _ _ => True) s := by
  unfold Art.removeSorted
  refine Ts.bindInner hj fun n hn hok => ?_
  refine Ts.bindAssert hj fun _ => ?_
  refine Ts.bindAssert hj fun _ => ?_
  have hk' : n.kind = .n4 ∨ n.kind = .n16 := hk.imp (fun h => h.eq hn) fun h => h.eq hn
  refine Ts.bind (Ts.wrInner hj hn rfl rfl (hok.1.keysSmall rfl (by rcases hk' with h | h <;> rw [h] <;> decide) (goCopy_len _ _ _) (shiftChildren_length _ _ _) hok.1.3 rfl rfl)
    hok.2.1 (fun b hb => hok.2.2 b (mem_shiftChildren hb))) fun _ s1 hj1 h1 e1 => ?_
  refine Ts.bind (Ts.clearTail hj1 a _ _) fun _ s2 hj2 h2 e2 => ?_
  refine Ts.bindInner hj2 fun n2 hn2 hok2 => ?_
  have hd2 := (e2 _ _ _ e1.2).eq hn2
  obtain ⟨k, x, hd, hx⟩ := hz
  obtain ⟨rfl, rfl⟩ := hd.eq hn
  refine Ts.conseq (Ts.wrInner hj2 hn2 rfl rfl (hok2.1.congr rfl rfl rfl ?_ hok2.1.5) hok2.2.1 hok2.2.2) fun _ _ _ _ _ => trivial
  refine u8_pred hok2.1.3 ?_
  rw [hd2.2]
  exact hx hk'

theorem Ts.removeChild4 (hj : Sane F s.heap) {a : Addr} (hz : NZ s a) (hk : IsK s a .n4) (ga : IsN F s.heap a) (c : Byte) :
    Ts F (removeChild4 a c : M V Addr) (fun a' s' => IsN F s'.heap a') s := by
  unfold Art.removeChild4
  refine Ts.bind (Ts.removeSorted hj hz (.inl hk) c) fun _ s1 hj1 h1 _ => ?_
  have g1 := ga.mono h1
  refine Ts.bindInner hj1 fun n hn hok => ?_
  split
  · refine Ts.bindLift hj1 fun r hr => ?_
    cases r with
    | none => exact Ts.throw hj1
    | some ch =>
      have gch := hok.2.2 ch (Inner.mem_getChild hr)
      refine Ts.bind (Ts.writeNode hj1 ch false fun _ => gch.weak) fun rt s2 hj2 h2 hrt => ?_
      have grt := hrt.node F gch
      refine Ts.bindInner hj2 fun n hn hok => ?_
      refine Ts.bindInner hj2 fun m hm hokm => ?_
      refine Ts.bindLift hj2 fun j hj => ?_
      have hp := joinPrefix_part hj
      refine Ts.bind (Ts.wrInner hj2 hn rfl hp (hok.1.congr rfl rfl rfl hok.1.3 fun hf => (hok.1.5 hf).imp (hp.trans ·) id) hok.2.1 hok.2.2) fun _ s2 hj2 h2' _ => ?_
      have grt := grt.mono h2'
      refine Ts.bindInner hj2 fun n hn hok => ?_
      refine Ts.bindInner hj2 fun m hm hokm => ?_
      refine Ts.bindLift hj2 fun m' hm' => ?_
      obtain ⟨p, l, rfl, hp⟩ := takePrefix_part hm'
      refine Ts.bind (Ts.wrInner hj2 hm rfl hp (hokm.1.congr rfl rfl rfl hokm.1.3 fun hf => .inl (hp.trans (grt.eq hm hf))) hokm.2.1 hokm.2.2) fun _ s3 hj3 h3 _ => ?_
      refine Ts.bind (Ts.trackChannel hj3 _) fun _ s4 hj4 h4 _ => ?_
      exact Ts.pure hj4 (grt.mono (h3.trans h4))
  · exact Ts.pure hj1 g1

theorem Ts.removeChild16 (hj : Sane F s.heap) {a : Addr} (hz : NZ s a) (hk : IsK s a .n16) (ga : IsN F s.heap a) (c : Byte) :
    Ts F (removeChild16 a c : M V Addr) (fun a' s' => IsN F s'.heap a') s := by
  unfold Art.removeChild16
  refine Ts.bind (Ts.removeSorted hj hz (.inr hk) c) fun _ s1 hj1 h1 _ => ?_
  have g1 := ga.mono h1
  refine Ts.bindInner hj1 fun n hn hok => ?_
  split
  · rename_i h3
    refine Ts.bind (Ts.trackChannel hj1 _) fun _ s2 hj2 h2 e2 => ?_
    refine Ts.bind (Ts.allocInner hj2 .n4) fun nn s3 hj3 h3' gn => ?_
    have hd : Hd s3 a n.kind n.numChildren := gn.2.2 _ _ _ (e2 _ _ _ ⟨n, hn, rfl, rfl⟩)
    refine Ts.bind (Ts.copyHeader hj3 (gn.2.1 F) fun n' m hn' hm => ?_) fun _ s4 hj4 h4 _ => ?_
    · rw [gn.1.eq hm, (hd.eq hn').2, h3]; decide
    have gk4 := gn.1.mono h4
    have gn4 := (gn.2.1 F).mono h4
    refine Ts.bindInner hj4 fun n hn hok => ?_
    refine Ts.bindInner hj4 fun m hm hokm => ?_
    refine Ts.bind (Ts.wrInner hj4 hm rfl rfl (hokm.1.keysSmall rfl (by rw [gk4.eq hm]; decide) (goCopy_len _ _ _) (goCopy_len _ _ _) hokm.1.3 rfl rfl) hokm.2.1 ?_)
      fun _ s5 hj5 h5 _ => ?_
    · intro b hb
      rcases mem_goCopy hb with h | h
      · exact hokm.2.2 b h
      · exact hok.2.2 b (List.mem_of_mem_take h)
    refine Ts.bind (Ts.moveLeaf hj5 nn a) fun _ s6 hj6 h6 _ => ?_
    refine Ts.bind (Ts.setNodeLeaf hj6 nn fun b hb => (hok.2.1 b hb).mono (h5.trans h6)) fun _ s7 hj7 h7 _ => ?_
    exact Ts.pure hj7 (gn4.mono ((h5.trans h6).trans h7))
  · exact Ts.pure hj1 g1

theorem Ts.removeChild48 (hj : Sane F s.heap) {a : Addr} (hk : IsK s a .n48) (ga : IsN F s.heap a) (c : Byte) :
    Ts F (removeChild48 a c : M V Addr) (fun a' s' => IsN F s'.heap a') s := by
  unfold Art.removeChild48
  refine Ts.bindInner hj fun n hn hok => ?_
  refine Ts.bindLift hj fun pos hpos => ?_
  refine Ts.bindLift hj fun n1 hn1 => ?_
  obtain ⟨e2, e3⟩ := Inner.setKeyAtIdx_inv hn1
  generalize n1.keys = ks at e2 e3
  subst e2
  refine Ts.bind (Ts.wrInner hj hn rfl rfl ⟨?_, hok.1.2, hok.1.3, fun _ k hk' => ?_, hok.1.5⟩ hok.2.1 hok.2.2) fun _ s1 hj1 h1 _ => ?_
  · rcases e3 with e3 | e3 <;> simp only [e3, List.length_set] <;> exact hok.1.1
  · rcases e3 with e3 | e3
    · rw [e3] at hk'; exact hok.1.4 (hk.eq hn) k hk'
    · rw [e3] at hk'
      rcases List.mem_or_eq_of_mem_set hk' with h | h
      · exact hok.1.4 (hk.eq hn) k h
      · subst h; decide
  refine Ts.bindLift hj1 fun ch hch => ?_
  refine Ts.bind (Ts.trackChannel hj1 _) fun _ s2 hj2 h2 _ => ?_
  refine Ts.bind (Ts.setChildAt hj2 a fun b hb => nomatch hb) fun _ s3 hj3 h3 _ => ?_
  have hk3 := hk.mono ((h1.trans h2).trans h3)
  refine Ts.bindInner hj3 fun n hn hok => ?_
  refine Ts.bind (Ts.wrInner hj3 hn rfl rfl (hok.1.congr rfl rfl rfl ?_ hok.1.5) hok.2.1 hok.2.2) fun _ s4 hj4 h4 _ => ?_
  · rw [hk3.eq hn]; simp only [Kind.cap]; have := (n.numChildren - 1).toNat_lt; omega
  have g4 := ga.mono (((h1.trans h2).trans h3).trans h4)
  refine Ts.bindInner hj4 fun n hn hok => ?_
  split
  · rename_i h12
    refine Ts.bind (Ts.allocInner hj4 .n16) fun nn s5 hj5 h5 gn => ?_
    refine Ts.bind (Ts.trackChannel hj5 _) fun _ s6 hj6 h6 e6 => ?_
    have gk6 := gn.1.mono h6
    have gn6 := (gn.2.1 F).mono h6
    have hd : Hd s6 a n.kind n.numChildren := e6 _ _ _ (gn.2.2 _ _ _ ⟨n, hn, rfl, rfl⟩)
    refine Ts.bind (Ts.copyHeader hj6 gn6 fun n' m hn' hm => ?_) fun _ s7 hj7 h7 _ => ?_
    · rw [gk6.eq hm, (hd.eq hn').2, h12]; decide
    refine Ts.bind (Ts.moveLeaf hj7 nn a) fun _ s8 hj8 h8 _ => ?_
    have gk8 := gk6.mono (h7.trans h8)
    have gn8 := gn6.mono (h7.trans h8)
    refine Ts.bindInner hj8 fun n hn hok => ?_
    refine Ts.bindInner hj8 fun m hm hokm => ?_
    refine Ts.bindAssert hj8 fun _ => ?_
    refine Ts.bind (Ts.wrInner hj8 hm rfl rfl (hokm.1.keysSmall rfl (by rw [gk8.eq hm]; decide) (goCopy_len _ _ _) (goCopy_len _ _ _) hokm.1.3 rfl rfl) hokm.2.1 ?_)
      fun _ s9 hj9 h9 _ => ?_
    · intro b hb
      rcases mem_goCopy hb with h | h
      · exact hokm.2.2 b h
      · exact hok.2.2 b (mem_compact48 h)
    exact Ts.pure hj9 (gn8.mono h9)
  · exact Ts.pure hj4 g4

theorem Ts.removeChild256 (hj : Sane F s.heap) {a : Addr} (hk : IsK s a .n256) (ga : IsN F s.heap a) (c : Byte) :
    Ts F (removeChild256 a c : M V Addr) (fun a' s' => IsN F s'.heap a') s := by
  unfold Art.removeChild256
  refine Ts.bind (Ts.setChildAt hj a fun b hb => nomatch hb) fun _ s3 hj3 h3 _ => ?_
  have hk3 := hk.mono h3
  refine Ts.bindInner hj3 fun n hn hok => ?_
  refine Ts.bind (Ts.wrInner hj3 hn rfl rfl (hok.1.congr rfl rfl rfl ?_ hok.1.5) hok.2.1 hok.2.2) fun _ s4 hj4 h4 _ => ?_
  · rw [hk3.eq hn]; simp only [Kind.cap]; have := (n.numChildren - 1).toNat_lt; omega
  have g4 := ga.mono (h3.trans h4)
  refine Ts.bindInner hj4 fun n hn hok => ?_
  split
  · refine Ts.bind (Ts.allocInner hj4 .n48) fun nn s5 hj5 h5 gn => ?_
    refine Ts.bind (Ts.copyHeader hj5 (gn.2.1 F) fun n' m hn' hm => ?_) fun _ s6 hj6 h6 _ => ?_
    · rw [gn.1.eq hm]; simp only [Kind.cap]; have := n'.numChildren.toNat_lt; omega
    refine Ts.bind (Ts.trackChannel hj6 _) fun _ s7 hj7 h7 _ => ?_
    refine Ts.bind (Ts.moveLeaf hj7 nn a) fun _ s8 hj8 h8 _ => ?_
    have gk8 := gn.1.mono ((h6.trans h7).trans h8)
    have gn8 := (gn.2.1 F).mono ((h6.trans h7).trans h8)
    refine Ts.bindInner hj8 fun n hn hok => ?_
    refine Ts.bindInner hj8 fun m hm hokm => ?_
    refine Ts.bindAssert hj8 fun hcs => ?_
    refine Ts.bind (Ts.wrInner hj8 hm rfl rfl ⟨?_, ?_, hokm.1.3, fun _ => index48_le _ hcs, hokm.1.5⟩ hokm.2.1 ?_) fun _ s9 hj9 h9 _ => ?_
    · simp only [gk8.eq hm]; exact index48_length _
    · simp only [goCopy_len]; exact hokm.1.2
    · intro b hb
      rcases mem_goCopy hb with h | h
      · exact hokm.2.2 b h
      · simp only [List.mem_map] at h
        obtain ⟨p, hp, hpb⟩ := h
        cases hpb
        exact hok.2.2 _ (mem_compact256 hp)
    exact Ts.pure hj9 (gn8.mono h9)
  · exact Ts.pure hj4 g4

theorem Ts.removeChild (hj : Sane F s.heap) {a : Addr} (hz : NZ s a) (ga : IsN F s.heap a) (c : Byte) :
    Ts F (removeChild a c : M V Addr) (fun a' s' => IsN F s'.heap a') s := by
  unfold Art.removeChild
  refine Ts.bindCell hj fun d hd => ?_
  cases d with
  | leaf l => exact Ts.throw hj
  | inner n =>
    simp only
    cases hk : n.kind
    · exact Ts.removeChild4 hj hz ⟨n, hd, hk⟩ ga c
    · exact Ts.removeChild16 hj hz ⟨n, hd, hk⟩ ga c
    · exact Ts.removeChild48 hj ⟨n, hd, hk⟩ ga c
    · exact Ts.removeChild256 hj ⟨n, hd, hk⟩ ga c

/-! ### Insert -/

theorem Ts.addChildAt (hj : Sane F s.heap) {a ch : Addr} (ga : IsN F s.heap a) (gc : IsN F s.heap ch) (key : Key) (i : Nat) :
    Ts F (addChildAt a key i ch : M V Addr) (fun a' s' => IsN F s'.heap a') s := by
  unfold Art.addChildAt
  split
  · exact Ts.bindLift hj fun b _ => Ts.addChild hj ga gc b
  · exact Ts.pure hj ga

/-- What the insert functions guarantee about the node they return. -/
def InsN (F : Prop) (r : InsRes V) (s : St V) : Prop := IsN F s.heap r.node

theorem Ts.insertUpdateLeaf (hj : Sane F s.heap) {a : Addr} (ga : IsN F s.heap a) (o : V) (key : Key) (v : V) :
    Ts F (insertUpdateLeaf a o key v : M V (InsRes V)) (InsN F) s := by
  unfold Art.insertUpdateLeaf
  refine Ts.bind (Ts.writeNode hj a true fun h => nomatch h) fun a' s1 hj1 h1 g1 => ?_
  refine Ts.bind (Ts.allocLeaf hj1 key v) fun l s2 hj2 h2 gl => ?_
  refine Ts.bind (Ts.setNodeLeaf hj2 a' fun b hb => by cases hb; exact gl) fun _ s3 hj3 h3 _ => ?_
  exact Ts.pure hj3 ((g1.node F ga).mono (h2.trans h3))

theorem Ts.insertPair (hj : Sane F s.heap) {nn a l a2 l2 : Addr} (gn : IsN F s.heap nn) (ga : IsN F s.heap a) (gl : IsLf s.heap l)
    (ga2 : IsN F s.heap a2) (gl2 : IsLf s.heap l2) (oldKey key : Key) (i : Nat) :
    Ts F (insertPair nn a l a2 l2 oldKey key i : M V Addr) (fun a' s' => IsN F s'.heap a') s := by
  unfold Art.insertPair
  split
  · refine Ts.bind (Ts.trackChannel hj _) fun _ s1 hj1 h1 _ => ?_
    refine Ts.bind (Ts.setNodeLeaf hj1 nn fun b hb => by cases hb; exact gl2.mono h1) fun _ s2 hj2 h2 _ => ?_
    exact Ts.bindLift hj2 fun b _ => Ts.addChild hj2 (gn.mono (h1.trans h2)) (ga.mono (h1.trans h2)) b
  · split
    · refine Ts.bind (Ts.setNodeLeaf hj nn fun b hb => by cases hb; exact gl) fun _ s2 hj2 h2 _ => ?_
      exact Ts.bindLift hj2 fun b _ => Ts.addChild hj2 (gn.mono h2) (ga2.mono h2) b
    · refine Ts.bind (Ts.addChildAt hj gn ga _ _) fun a' s1 hj1 h1 g1 => ?_
      exact Ts.addChildAt hj1 g1 (ga2.mono h1) _ _

theorem Ts.insertSplitLeaf [Inhabited V] (hj : Sane F s.heap) {a l : Addr} (ga : IsN F s.heap a) (gl : IsLf s.heap l)
    (oldKey key : Key) (v : V) (d : Nat) : Ts F (insertSplitLeaf a l oldKey key v d : M V (InsRes V)) (InsN F) s := by
  unfold Art.insertSplitLeaf
  refine Ts.bind (Ts.makeLeaf hj key v) fun a2 s1 hj1 h1 g2 => ?_
  refine Ts.bindInner hj1 fun w hw hokw => ?_
  cases hwl : w.leaf with
  | none => exact Ts.throw hj1
  | some l2 =>
    have gl2 := hokw.2.1 l2 hwl
    simp only
    refine Ts.bind (Ts.trackChannel hj1 _) fun _ s2 hj2 h2 _ => ?_
    refine Ts.bind (Ts.writeNode hj2 a false fun _ => (ga.mono (h1.trans h2)).weak) fun a' s3 hj3 h3 ga3 => ?_
    refine Ts.bindLift hj3 fun lp _ => ?_
    refine Ts.bind (Ts.allocInner hj3 _) fun nn s4 hj4 h4 gn => ?_
    refine Ts.bindInner hj4 fun m hm hokm => ?_
    refine Ts.bind (Ts.wrInner hj4 hm rfl (goCopy_len _ _ _) (hokm.1.congr rfl rfl rfl hokm.1.3 fun hf => .inl ((goCopy_len _ _ _).trans ((gn.2.1 F).eq hm hf)))
      hokm.2.1 hokm.2.2) fun _ s5 hj5 h5 _ => ?_
    have t := ((h2.trans h3).trans h4).trans h5
    refine Ts.bind (Ts.insertPair hj5 ((gn.2.1 F).mono h5) ((ga3.node F (ga.mono (h1.trans h2))).mono (h4.trans h5)) (gl.mono (h1.trans t))
      ((g2 F).mono t) (gl2.mono t) oldKey key _) fun a'' s6 hj6 h6 g6 => ?_
    exact Ts.pure hj6 g6

theorem Ts.insertAtLeaf [Inhabited V] (hj : Sane F s.heap) {a l : Addr} (ga : IsN F s.heap a) (gl : IsLf s.heap l)
    (key : Key) (v : V) (d : Nat) : Ts F (insertAtLeaf a l key v d : M V (InsRes V)) (InsN F) s := by
  unfold Art.insertAtLeaf
  refine Ts.bindLeaf hj fun nl hnl => ?_
  split
  · exact Ts.insertUpdateLeaf hj ga _ _ _
  · exact Ts.insertSplitLeaf hj ga gl _ _ _ d

theorem Ts.leafClash (hj : Sane F s.heap) (n : Inner) (key : Key) : Ts F (leafClash n key : M V Bool) (fun _ _ => True) s := by
  unfold Art.leafClash
  split
  · exact Ts.pure hj trivial
  · exact Ts.bindLeaf hj fun nl hnl => Ts.pure hj trivial

theorem Ts.insertNoChild [Inhabited V] (hj : Sane F s.heap) {a : Addr} (ga : IsN F s.heap a)
    (key : Key) (v : V) (d : Nat) : Ts F (insertNoChild a key v d : M V (InsRes V)) (InsN F) s := by
  unfold Art.insertNoChild
  refine Ts.bind (Ts.makeLeaf hj key v) fun a2 s1 hj1 h1 g2 => ?_
  refine Ts.bindInner hj1 fun n hn hok => ?_
  refine Ts.bind (Ts.leafClash hj1 n key) fun clash s2 hj2 h2 _ => ?_
  refine Ts.bind (Ts.trackChannel hj2 _) fun _ s3 hj3 h3 _ => ?_
  refine Ts.bind (Ts.writeNode hj3 a false fun _ => (ga.mono ((h1.trans h2).trans h3)).weak) fun a' s4 hj4 h4 ga4 => ?_
  split
  · refine Ts.bind (Ts.allocInner hj4 _) fun nn s5 hj5 h5 gn => ?_
    exact Ts.throw hj5
  · refine Ts.bind (Ts.addChildAt hj4 (ga4.node F (ga.mono ((h1.trans h2).trans h3))) ((g2 F).mono ((h2.trans h3).trans h4)) _ _) fun a' s5 hj5 h5 g5 => ?_
    exact Ts.pure hj5 g5

theorem Ts.splitShort (hj : Sane F s.heap) {nn a : Addr} (gn : IsN F s.heap nn) (ga : IsN F s.heap a) (pd : Nat) :
    Ts F (splitShort nn a pd : M V Addr) (fun a' s' => IsN F s'.heap a') s := by
  unfold Art.splitShort
  refine Ts.bindInner hj fun n hn hok => ?_
  refine Ts.bindLift hj fun b _ => ?_
  refine Ts.bind (Ts.addChild hj gn ga b) fun nn s1 hj1 h1 gn1 => ?_
  have g1 := ga.mono h1
  refine Ts.bindInner hj1 fun n hn hok => ?_
  refine Ts.bindAssert hj1 fun _ => ?_
  refine Ts.bind (Ts.wrInner hj1 hn rfl (goCopy_len _ _ _) (hok.1.congr rfl rfl rfl hok.1.3 fun hf => .inl ((goCopy_len _ _ _).trans (g1.eq hn hf)))
    hok.2.1 hok.2.2) fun _ s2 hj2 h2 _ => ?_
  exact Ts.pure hj2 (gn1.mono h2)

theorem Ts.splitLong (hj : Sane F s.heap) {nn a : Addr} (gn : IsN F s.heap nn) (ga : IsN F s.heap a) (d pd : Nat) :
    Ts F (splitLong nn a d pd : M V Addr) (fun a' s' => IsN F s'.heap a') s := by
  unfold Art.splitLong
  refine Ts.bindInner hj fun n hn hok => ?_
  have hp := ga.eq hn
  refine Ts.bind (Ts.wrInner hj hn rfl rfl (hok.1.congr rfl rfl rfl hok.1.3 fun hf => .inl (hp hf)) hok.2.1 hok.2.2) fun _ s1 hj1 h1 _ => ?_
  refine Ts.bindGet (Ts.bindLift hj1 fun r hr => ?_)
  cases r with
  | none => exact Ts.throw hj1
  | some l =>
    refine Ts.bindLeaf hj1 fun lc hlc => ?_
    refine Ts.bindLift hj1 fun b _ => ?_
    refine Ts.bind (Ts.addChild hj1 (gn.mono h1) (ga.mono h1) b) fun nn s2 hj2 h2 gn2 => ?_
    have g2 := ga.mono (h1.trans h2)
    refine Ts.bindInner hj2 fun n hn hok => ?_
    refine Ts.bindAssert hj2 fun _ => ?_
    refine Ts.bind (Ts.wrInner hj2 hn rfl (goCopy_len _ _ _) (hok.1.congr rfl rfl rfl hok.1.3 fun hf => .inl ((goCopy_len _ _ _).trans (g2.eq hn hf)))
      hok.2.1 hok.2.2) fun _ s3 hj3 h3 _ => ?_
    exact Ts.pure hj3 (gn2.mono h3)

theorem Ts.splitChild (hj : Sane F s.heap) {nn a : Addr} (gn : IsN F s.heap nn) (ga : IsN F s.heap a) (pl d pd : Nat) :
    Ts F (splitChild nn a pl d pd : M V Addr) (fun a' s' => IsN F s'.heap a') s := by
  unfold Art.splitChild
  split
  · exact Ts.splitShort hj gn ga pd
  · exact Ts.splitLong hj gn ga d pd

theorem Ts.insertSplit [Inhabited V] (hj : Sane F s.heap) {a : Addr} (ga : IsN F s.heap a)
    (key : Key) (v : V) (d pd : Nat) : Ts F (insertSplit a key v d pd : M V (InsRes V)) (InsN F) s := by
  unfold Art.insertSplit
  refine Ts.bind (Ts.allocInner hj _) fun nn s1 hj1 h1 gn => ?_
  refine Ts.bindInner hj1 fun n hn hok => ?_
  refine Ts.bindInner hj1 fun m hm hokm => ?_
  refine Ts.bindAssert hj1 fun _ => ?_
  refine Ts.bind (Ts.wrInner hj1 hm rfl (goCopy_len _ _ _) (hokm.1.congr rfl rfl rfl hokm.1.3 fun hf => .inl ((goCopy_len _ _ _).trans ((gn.2.1 F).eq hm hf)))
    hokm.2.1 hokm.2.2) fun _ s2 hj2 h2 _ => ?_
  refine Ts.bind (Ts.trackChannel hj2 _) fun _ s3 hj3 h3 _ => ?_
  refine Ts.bind (Ts.writeNode hj3 a false fun _ => (ga.mono ((h1.trans h2).trans h3)).weak) fun a' s4 hj4 h4 ga4 => ?_
  refine Ts.bind (Ts.splitChild hj4 ((gn.2.1 F).mono ((h2.trans h3).trans h4)) (ga4.node F (ga.mono ((h1.trans h2).trans h3))) _ _ _) fun nn s5 hj5 h5 gn5 => ?_
  refine Ts.bind (Ts.makeLeaf hj5 key v) fun a2 s6 hj6 h6 g2 => ?_
  refine Ts.bind (Ts.addChildAt hj6 (gn5.mono h6) (g2 F) _ _) fun a' s7 hj7 h7 g7 => ?_
  exact Ts.pure hj7 g7

theorem Ts.insertReplace (hj : Sane F s.heap) {a ch : Addr} (ga : IsN F s.heap a) (i : Nat) {r : InsRes V} (gr : InsN F r s) :
    Ts F (insertReplace a ch i r : M V (InsRes V)) (InsN F) s := by
  unfold Art.insertReplace
  split
  · refine Ts.bind (Ts.trackChannel hj _) fun _ s1 hj1 h1 _ => ?_
    refine Ts.bind (Ts.writeNode hj1 a false fun _ => (ga.mono h1).weak) fun a' s2 hj2 h2 g2 => ?_
    refine Ts.bind (Ts.setChildAt hj2 a' fun b hb => by cases hb; exact IsN.mono gr (h1.trans h2)) fun _ s3 hj3 h3 _ => ?_
    exact Ts.pure hj3 ((g2.node F (ga.mono h1)).mono h3)
  · exact Ts.pure hj ga

theorem Ts.bindLeafHit (hj : Sane F s.heap) {c : Cell V} {key : Key} {f : Option Addr → M V β} {Q : β → St V → Prop}
    (h1 : ∀ l, c.nodeLeaf = some l → Ts F (f (some l)) Q s) (h2 : Ts F (f none) Q s) : Ts F (leafHit c key >>= f) Q s := by
  unfold leafHit
  cases hl : c.nodeLeaf with
  | none => exact h2
  | some l =>
    simp only
    have : (leafAt l >>= fun lc => Pure.pure (if leafMatches lc.key key then some l else none) : M V (Option Addr)) >>= f =
        (leafAt l >>= fun lc => f (if leafMatches lc.key key then some l else none)) := by
      exact M.assoc _ _ _
    rw [this]
    refine Ts.bindLeaf hj fun lc _ => ?_
    split
    · exact h1 l hl
    · exact h2

theorem Ts.insertHit [Inhabited V] (hj : Sane F s.heap) {a l : Addr} (ga : IsN F s.heap a) (gl : IsLf s.heap l) (v : V) :
    Ts F (insertHit a l v : M V (InsRes V)) (InsN F) s := by
  unfold Art.insertHit
  refine Ts.bind (Ts.writeNode hj l true fun h => nomatch h) fun nl s1 hj1 h1 g1 => ?_
  refine Ts.bindLeaf hj1 fun lc1 hlc1 => ?_
  refine Ts.bind (Ts.wr hj1 (c := .leaf { lc1 with value := v }) hlc1 trivial rfl trivial) fun _ s2 hj2 h2 _ => ?_
  refine Ts.bind (Ts.writeNode hj2 a true fun h => nomatch h) fun a' s3 hj3 h3 g3 => ?_
  refine Ts.bind (Ts.setNodeLeaf hj3 a' fun b hb => by cases hb; exact (g1.leaf gl).mono (h2.trans h3)) fun _ s4 hj4 h4 _ => ?_
  exact Ts.pure hj4 ((g3.node F (ga.mono (h1.trans h2))).mono h4)

theorem Ts.insertNew [Inhabited V] (hj : Sane F s.heap) {a : Addr} (ga : IsN F s.heap a)
    (key : Key) (v : V) (d : Nat) : Ts F (insertNew a key v d : M V (InsRes V)) (InsN F) s := by
  unfold Art.insertNew
  refine Ts.bind (Ts.makeLeaf hj key v) fun a2 s1 hj1 h1 g2 => ?_
  split
  · refine Ts.bind (Ts.trackChannel hj1 _) fun _ s2 hj2 h2 _ => ?_
    refine Ts.bind (Ts.writeNode hj2 a false fun _ => (ga.mono (h1.trans h2)).weak) fun a' s3 hj3 h3 ga3 => ?_
    refine Ts.bindLift hj3 fun b _ => ?_
    refine Ts.bind (Ts.addChild hj3 (ga3.node F (ga.mono (h1.trans h2))) ((g2 F).mono (h2.trans h3)) b) fun a' s4 hj4 h4 g4 => ?_
    exact Ts.pure hj4 g4
  · exact Ts.pure hj1 (ga.mono h1)

theorem Ts.insertEmpty [Inhabited V] (hj : Sane F s.heap) {a : Addr} (ga : IsN F s.heap a)
    (key : Key) (v : V) : Ts F (insertEmpty a key v : M V (InsRes V)) (InsN F) s := by
  unfold Art.insertEmpty
  refine Ts.bind (Ts.writeNode hj a true fun h => nomatch h) fun a' s1 hj1 h1 g1 => ?_
  refine Ts.bind (Ts.allocLeaf hj1 key v) fun l s2 hj2 h2 gl => ?_
  refine Ts.bind (Ts.setNodeLeaf hj2 a' fun b hb => by cases hb; exact gl) fun _ s3 hj3 h3 _ => ?_
  exact Ts.pure hj3 ((g1.node F ga).mono (h2.trans h3))

theorem Sane.leafG (hj : Sane F s.heap) {a : Addr} {c : Cell V} (hc : s.heap[a]? = some c) {l : Addr} (hl : c.nodeLeaf = some l) : IsLf s.heap l := by
  cases c with
  | leaf x => cases hl
  | inner n => exact (hj a _ hc).2.1 l hl
theorem Sane.childG (hj : Sane F s.heap) {a : Addr} {c : Cell V} (hc : s.heap[a]? = some c) {b : Addr} (hb : some b ∈ c.children) : IsN F s.heap b := by
  cases c with
  | leaf x => cases hb
  | inner n => exact (hj a _ hc).2.2 b hb

theorem Ts.recursiveInsert [Inhabited V] (hj : Sane F s.heap) (fuel : Nat) {a : Addr} (ga : IsN F s.heap a)
    (key : Key) (v : V) (d : Nat) :
    Ts F (recursiveInsert fuel a key v d : M V (InsRes V)) (InsN F) s := by
  induction fuel generalizing a d with
  | zero => exact Ts.throw hj
  | succ fuel ih =>
    unfold Art.recursiveInsert
    refine Ts.bindTxn ?_
    split
    · exact Ts.insertEmpty hj ga _ _
    · refine Ts.bindCell hj fun c hc => ?_
      have hch : ∀ b ch idx, c.findChild b = .ok (some ch, idx) → IsN F s.heap ch := fun b ch idx h => hj.childG hc (Cell.mem_findChild h)
      have hrest : Ts F (do
          match ← Art.leafHit c key with
          | some l => Art.insertHit a l v
          | none =>
            if c.partialLen > 0 then do
              let s ← M.get
              let prefixDiff ← M.lift (prefixMismatch s.heap a key key.length d)
              if prefixDiff ≥ c.partialLen then
                if d + c.partialLen < key.length then do
                  let b ← M.lift (byteAt key (d + c.partialLen))
                  match ← M.lift (c.findChild b) with
                  | (some child, idx) => do
                    let r ← Art.recursiveInsert fuel child key v (d + c.partialLen + 1)
                    Art.insertReplace a child idx r
                  | (none, _) => Art.insertNoChild a key v (d + c.partialLen)
                else Art.insertNoChild a key v (d + c.partialLen)
              else Art.insertSplit a key v d prefixDiff
            else do
              let b ← M.lift (byteAt key d)
              match ← M.lift (c.findChild b) with
              | (some child, idx) => do
                let r ← Art.recursiveInsert fuel child key v (d + 1)
                Art.insertReplace a child idx r
              | (none, _) => Art.insertNew a key v d) (InsN F) s := by
        refine Ts.bindLeafHit hj (fun l hl => Ts.insertHit hj ga (hj.leafG hc hl) v) ?_
        simp only
        split
        · refine Ts.bindGet (Ts.bindLift hj fun pd _ => ?_)
          split
          · split
            · refine Ts.bindLift hj fun b hb => Ts.bindLift hj fun r hr => ?_
              obtain ⟨x, idx⟩ := r
              cases x with
              | none => exact Ts.insertNoChild hj ga _ _ _
              | some child =>
                simp only
                refine Ts.bind (ih (hch b child idx hr) _) fun r s2 hj2 h2 hr => ?_
                exact Ts.insertReplace hj2 (ga.mono h2) idx hr
            · exact Ts.insertNoChild hj ga _ _ _
          · exact Ts.insertSplit hj ga _ _ _ _
        · refine Ts.bindLift hj fun b hb => Ts.bindLift hj fun r hr => ?_
          obtain ⟨x, idx⟩ := r
          cases x with
          | none => exact Ts.insertNew hj ga _ _ _
          | some child =>
            simp only
            refine Ts.bind (ih (hch b child idx hr) _) fun r s2 hj2 h2 hr => ?_
            exact Ts.insertReplace hj2 (ga.mono h2) idx hr
      split
      · rename_i l _ hl
        exact Ts.insertAtLeaf hj ga (hj.leafG hc hl) _ _ d
      · exact hrest

end Art
