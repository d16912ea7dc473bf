import Verif.Model.Crcinit
import Verif.Proofs.Crc
set_option linter.unusedSimpArgs false
set_option linter.unusedVariables false
namespace Ulz.Crc

/-- The value of `T[j][i]`. -/
def val (poly : W32) (j i : Nat) : W32 := (entries poly 4 (reverse (BitVec.ofNat 32 i))).getD j 0

theorem flatMap_length4 {g : Nat → List Store} (h : ∀ i, (g i).length = 4) : ∀ n, ((List.range n).flatMap g).length = 4 * n
  | 0 => rfl
  | n + 1 => by
    rw [List.range_succ, List.flatMap_append, List.length_append, flatMap_length4 h n]
    simp [h]; omega

theorem flatMap_get {g : Nat → List Store} (h : ∀ i, (g i).length = 4) : ∀ n p, p < 4 * n →
    ((List.range n).flatMap g)[p]? = (g (p / 4))[p % 4]?
  | 0, p, hp => by omega
  | n + 1, p, hp => by
    rw [List.range_succ, List.flatMap_append]
    by_cases hlt : p < 4 * n
    · rw [List.getElem?_append_left (by rw [flatMap_length4 h]; exact hlt)]
      exact flatMap_get h n p hlt
    · rw [List.getElem?_append_right (by rw [flatMap_length4 h]; omega), flatMap_length4 h]
      have e1 : p / 4 = n := by omega
      have e2 : p - 4 * n = p % 4 := by omega
      rw [e1, e2]
      simp

theorem row_eq (poly : W32) (i : Nat) : rowStores i 0 (entries poly 4 (reverse (BitVec.ofNat 32 i))) =
    [.entry 0 i (val poly 0 i), .entry 1 i (val poly 1 i), .entry 2 i (val poly 2 i), .entry 3 i (val poly 3 i)] := rfl

theorem stores_length (poly : W32) : (stores poly).length = 1028 := by
  unfold stores
  rw [List.length_append, flatMap_length4 (fun i => by rw [row_eq]; rfl)]
  rfl

theorem stores_ptr (poly : W32) {p : Nat} (h : p < 4) : (stores poly)[p]? = some (.ptr p) := by
  unfold stores
  rw [List.getElem?_append_left (by simpa using h)]
  match p, h with
  | 0, _ | 1, _ | 2, _ | 3, _ => rfl

theorem stores_entry (poly : W32) {j i : Nat} (hj : j < 4) (hi : i < 256) :
    (stores poly)[4 + 4 * i + j]? = some (.entry j i (val poly j i)) := by
  unfold stores
  rw [List.getElem?_append_right (by simp; omega)]
  have e : 4 + 4 * i + j - [Store.ptr 0, .ptr 1, .ptr 2, .ptr 3].length = 4 * i + j := by
    simp only [List.length_cons, List.length_nil]; omega
  rw [e, flatMap_get (fun i => by rw [row_eq]; rfl) 256 _ (by omega)]
  have e1 : (4 * i + j) / 4 = i := by omega
  have e2 : (4 * i + j) % 4 = j := by omega
  rw [e1, e2, row_eq]
  match j, hj with
  | 0, _ | 1, _ | 2, _ | 3, _ => rfl

theorem stores_cases (poly : W32) {p : Nat} {st : Store} (h : (stores poly)[p]? = some st) :
    (p < 4 ∧ st = .ptr p) ∨ ∃ j i, j < 4 ∧ i < 256 ∧ p = 4 + 4 * i + j ∧ st = .entry j i (val poly j i) := by
  have hp : p < 1028 := by rw [← stores_length poly]; exact (List.getElem?_eq_some_iff.1 h).1
  by_cases h4 : p < 4
  · rw [stores_ptr poly h4] at h
    exact .inl ⟨h4, (Option.some.inj h).symm⟩
  · have e := stores_entry poly (j := (p - 4) % 4) (i := (p - 4) / 4) (by omega) (by omega)
    have : 4 + 4 * ((p - 4) / 4) + (p - 4) % 4 = p := by omega
    rw [this, h] at e
    exact .inr ⟨_, _, by omega, by omega, this.symm, Option.some.inj e⟩

/-- Store number `p` has been done by some thread. -/
def Stored (s : Threads) (p : Nat) : Prop := ∃ n, p < s.pc n

/-- What the memory is after any schedule, from the memory `m0`. -/
structure TInv (poly : W32) (m0 : Mem) (s : Threads) : Prop where
  ptr1 : ∀ j, j < 4 → Stored s j → s.mem.ptr j = true
  ptr0 : ∀ j, j < 4 → ¬ Stored s j → s.mem.ptr j = m0.ptr j
  tab1 : ∀ j i, j < 4 → i < 256 → Stored s (4 + 4 * i + j) → s.mem.tab j i = val poly j i
  tab0 : ∀ j i, j < 4 → i < 256 → ¬ Stored s (4 + 4 * i + j) → s.mem.tab j i = m0.tab j i

theorem tick_inv {poly : W32} {m0 : Mem} {s : Threads} (h : TInv poly m0 s) (n : Nat) : ∃ s', tick poly s n = .ok s' ∧ TInv poly m0 s' := by
  unfold tick
  cases hst : (stores poly)[s.pc n]? with
  | none => exact ⟨s, rfl, h⟩
  | some st =>
    simp only
    have hstored : ∀ m p, (Stored ⟨m, fun k => if k = n then s.pc n + 1 else s.pc k⟩ p ↔ (Stored s p ∨ p = s.pc n)) := by
      intro m p
      constructor
      · rintro ⟨k, hk⟩
        simp only at hk
        split at hk
        · by_cases hp : p = s.pc n
          · exact .inr hp
          · exact .inl ⟨n, by omega⟩
        · exact .inl ⟨k, hk⟩
      · rintro (⟨k, hk⟩ | rfl)
        · refine ⟨k, ?_⟩
          simp only
          split
          · subst_vars; omega
          · exact hk
        · exact ⟨n, by simp⟩
    rcases stores_cases poly hst with ⟨h4, rfl⟩ | ⟨j, i, hj, hi, hp, rfl⟩
    · simp only [apply, pure_eq_ok, ok_bind]
      refine ⟨_, rfl, ?_, ?_, ?_, ?_⟩
      · intro j hj hs
        simp only
        split
        · rfl
        · rcases (hstored _ _).1 hs with h1 | h1
          · exact h.ptr1 j hj h1
          · contradiction
      · intro j hj hs
        simp only
        rw [hstored] at hs
        rw [if_neg (fun e => hs (.inr e))]
        exact h.ptr0 j hj (fun h' => hs (.inl h'))
      · intro j i hj hi hs
        rcases (hstored _ _).1 hs with h1 | h1
        · exact h.tab1 j i hj hi h1
        · omega
      · intro j i hj hi hs
        rw [hstored] at hs
        exact h.tab0 j i hj hi (fun h' => hs (.inl h'))
    · have hptr : s.mem.ptr j = true := h.ptr1 j hj ⟨n, by omega⟩
      simp only [apply, hptr, Bool.not_true, Bool.false_eq_true, if_false, hi, if_true, pure_eq_ok, ok_bind]
      refine ⟨_, rfl, ?_, ?_, ?_, ?_⟩
      · intro j' hj' hs
        rcases (hstored _ _).1 hs with h1 | h1
        · exact h.ptr1 j' hj' h1
        · omega
      · intro j' hj' hs
        rw [hstored] at hs
        exact h.ptr0 j' hj' (fun h' => hs (.inl h'))
      · intro j' i' hj' hi' hs
        simp only
        split
        · rename_i he; obtain ⟨rfl, rfl⟩ := he; rfl
        · rename_i he
          rcases (hstored _ _).1 hs with h1 | h1
          · exact h.tab1 j' i' hj' hi' h1
          · exact absurd ⟨by omega, by omega⟩ he
      · intro j' i' hj' hi' hs
        rw [hstored] at hs
        simp only
        rw [if_neg]
        · exact h.tab0 j' i' hj' hi' (fun h' => hs (.inl h'))
        · rintro ⟨rfl, rfl⟩
          exact hs (.inr hp.symm)

theorem schedule_inv {poly : W32} {m0 : Mem} : ∀ (ns : List Nat) {s : Threads}, TInv poly m0 s → ∃ s', schedule poly s ns = .ok s' ∧ TInv poly m0 s'
  | [], s, h => ⟨s, rfl, h⟩
  | n :: ns, s, h => by
    obtain ⟨s1, e1, h1⟩ := tick_inv h n
    obtain ⟨s2, e2, h2⟩ := schedule_inv ns h1
    exact ⟨s2, by simp only [schedule]; rw [e1, ok_bind]; exact e2, h2⟩

theorem start_inv (poly : W32) (m0 : Mem) : TInv poly m0 ⟨m0, fun _ => 0⟩ :=
  ⟨fun j _ ⟨n, h⟩ => by simp at h, fun _ _ _ => rfl, fun _ _ _ _ ⟨n, h⟩ => by simp at h, fun _ _ _ _ _ => rfl⟩

/-- A single thread executes its stores in order. -/
theorem schedule_exec (poly : W32) : ∀ (k p : Nat) (m : Mem) (m' : Mem) (pc : Nat → Nat), pc 0 = p →
    exec m (((stores poly).drop p).take k) = .ok m' →
    ∃ s, schedule poly ⟨m, pc⟩ (List.replicate k 0) = .ok s ∧ s.mem = m' ∧ s.pc 0 = min (p + k) (max p 1028)
  | 0, p, m, m', pc, hpc, h => by
    simp only [List.take_zero, exec, pure_eq_ok] at h
    cases h
    exact ⟨⟨m, pc⟩, rfl, rfl, by simp [hpc]; omega⟩
  | k + 1, p, m, m', pc, hpc, h => by
    rw [List.replicate_succ, schedule]
    cases hst : (stores poly)[p]? with
    | none =>
      have hp : 1028 ≤ p := by rw [← stores_length poly]; exact List.getElem?_eq_none_iff.1 hst
      rw [List.drop_of_length_le (by rw [stores_length]; exact hp)] at h
      simp only [List.take_nil, exec, pure_eq_ok] at h
      cases h
      obtain ⟨s, e1, e2, e3⟩ := schedule_exec poly k p m m pc hpc (by
        rw [List.drop_of_length_le (by rw [stores_length]; exact hp)]; simp [exec])
      have : tick poly ⟨m, pc⟩ 0 = .ok ⟨m, pc⟩ := by
        unfold tick; simp only [hpc, hst]; rfl
      rw [this, ok_bind]
      exact ⟨s, e1, e2, by rw [e3]; omega⟩
    | some st =>
      obtain ⟨hp, he⟩ := List.getElem?_eq_some_iff.1 hst
      rw [stores_length] at hp
      rw [List.drop_eq_getElem_cons (by rw [stores_length]; exact hp), he, List.take_succ_cons, exec] at h
      cases ha : apply m st with
      | error u => rw [ha] at h; cases h
      | ok m1 =>
        rw [ha, ok_bind] at h
        have : tick poly ⟨m, pc⟩ 0 = .ok ⟨m1, fun x => if x = 0 then pc 0 + 1 else pc x⟩ := by
          unfold tick; simp only [hpc, hst, ha]; rfl
        rw [this, ok_bind]
        obtain ⟨s, e1, e2, e3⟩ := schedule_exec poly k (p + 1) m1 m' (fun x => if x = 0 then pc 0 + 1 else pc x) (by simp [hpc]) h
        exact ⟨s, e1, e2, by rw [e3]; omega⟩

/-- `exec` never fails: the pointers are set first. -/
theorem exec_ok (poly : W32) : ∀ (l : List Store) (m : Mem), (∀ j, j < 4 → m.ptr j = true) →
    (∀ st ∈ l, ∃ j i v, j < 4 ∧ i < 256 ∧ st = .entry j i v) → ∃ m', exec m l = .ok m'
  | [], m, _, _ => ⟨m, rfl⟩
  | st :: l, m, hm, hl => by
    obtain ⟨j, i, v, hj, hi, rfl⟩ := hl st (by simp)
    simp only [exec, apply, hm j hj, Bool.not_true, Bool.false_eq_true, if_false, hi, if_true, pure_eq_ok, ok_bind]
    exact exec_ok poly l _ (fun j hj => hm j hj) (fun st hst => hl st (by simp [hst]))

theorem exec_ptrs (poly : W32) (m : Mem) (l : List Store) (hl : ∀ st ∈ l, ∃ j i v, j < 4 ∧ i < 256 ∧ st = .entry j i v) :
    ∃ m', exec m ([.ptr 0, .ptr 1, .ptr 2, .ptr 3] ++ l) = .ok m' := by
  simp only [List.cons_append, List.nil_append, exec, apply, pure_eq_ok, ok_bind]
  refine exec_ok poly _ _ ?_ hl
  intro j hj
  match j, hj with
  | 0, _ | 1, _ | 2, _ | 3, _ => rfl

theorem exec_stores (poly : W32) (m : Mem) : ∃ m', exec m (stores poly) = .ok m' := by
  refine exec_ptrs poly m _ ?_
  intro st hst
  obtain ⟨i, hi, hst⟩ := List.mem_flatMap.1 hst
  rw [row_eq] at hst
  have hi := List.mem_range.1 hi
  simp only [List.mem_cons, List.not_mem_nil, or_false] at hst
  rcases hst with rfl | rfl | rfl | rfl
  · exact ⟨0, i, _, by omega, hi, rfl⟩
  · exact ⟨1, i, _, by omega, hi, rfl⟩
  · exact ⟨2, i, _, by omega, hi, rfl⟩
  · exact ⟨3, i, _, by omega, hi, rfl⟩

/-- A complete memory. -/
def Complete (poly : W32) (m : Mem) : Prop := (∀ j, j < 4 → m.ptr j = true) ∧ ∀ j i, j < 4 → i < 256 → m.tab j i = val poly j i

theorem complete_of_thread {poly : W32} {m0 : Mem} {s : Threads} (h : TInv poly m0 s) {n : Nat} (hn : 1028 ≤ s.pc n) : Complete poly s.mem :=
  ⟨fun j hj => h.ptr1 j hj ⟨n, by omega⟩, fun j i hj hi => h.tab1 j i hj hi ⟨n, by omega⟩⟩

theorem tables_get (poly : W32) {j i : Nat} (hj : j < 4) (hi : i < 256) : ((tables poly)[j]?.bind (·[i]?)) = some (val poly j i) := by
  unfold tables val
  rw [List.getElem?_map, List.getElem?_range hj]
  simp [hi]

theorem lookM_complete {poly : W32} {m : Mem} (h : Complete poly m) {j : Nat} (hj : j < 4) (i : W32) (hi : i.toNat < 256) :
    lookM m j i = look (some (tables poly)) j i := by
  unfold lookM look
  rw [h.1 j hj]
  have := tables_get poly hj hi
  simp only [Bool.not_true, Bool.false_eq_true, if_false, hi, if_true]
  cases ht : (tables poly)[j]? with
  | none => rw [ht] at this; cases this
  | some t =>
    rw [ht] at this
    simp only [Option.bind_some] at this
    simp only [this]
    rw [h.2 j i.toNat hj hi]

theorem idx_lt (s : W32) (b : Byte) : ((s &&& 0xff) ^^^ b.setWidth 32).toNat < 256 := by
  rw [BitVec.toNat_xor]
  apply Nat.xor_lt_two_pow (n := 8)
  · rw [BitVec.toNat_and]
    exact Nat.lt_of_le_of_lt Nat.and_le_right (by decide)
  · rw [BitVec.toNat_setWidth]
    exact Nat.lt_of_le_of_lt (Nat.mod_le _ _) b.isLt

theorem byteM_complete {poly : W32} {m : Mem} (h : Complete poly m) (s : W32) (b : Byte) : byteM m s b = byte (some (tables poly)) s b := by
  unfold byteM byte
  rw [lookM_complete h (by omega) _ (idx_lt s b)]

theorem blockM_complete {poly : W32} {m : Mem} (h : Complete poly m) (s : W32) (b0 b1 b2 b3 : Byte) :
    blockM m s b0 b1 b2 b3 = block (some (tables poly)) s b0 b1 b2 b3 := by
  unfold blockM block
  rw [lookM_complete h (by omega) _ (idx_lt _ b3), lookM_complete h (by omega) _ (idx_lt _ b2),
    lookM_complete h (by omega) _ (idx_lt _ b1), lookM_complete h (by omega) _ (idx_lt s b0)]

theorem updateM_complete {poly : W32} {m : Mem} (h : Complete poly m) (s : W32) (data : List Byte) :
    updateM m s data = update (some (tables poly)) s data := by
  fun_induction update (some (tables poly)) s data with
  | case1 s b0 b1 b2 b3 rest ih =>
    rw [updateM, blockM_complete h]
    cases block (some (tables poly)) s b0 b1 b2 b3 with
    | error u => rfl
    | ok v => simp only [ok_bind]; exact ih v
  | case2 s => rw [updateM]
  | case3 s b rest hno ih =>
    rw [updateM, byteM_complete h]
    · cases byte (some (tables poly)) s b with
      | error u => rfl
      | ok v => simp only [ok_bind]; exact ih v
    · exact hno

theorem val_eq {poly rev : W32} (h : ∀ j < 4, ∀ i < 256, ((tables poly)[j]?.bind (·[i]?)) = some (shn rev (8 * (j + 1)) (BitVec.ofNat 32 i)))
    {j i : Nat} (hj : j < 4) (hi : i < 256) : val poly j i = shn rev (8 * (j + 1)) (BitVec.ofNat 32 i) := by
  have := h j hj i hi
  rw [tables_get poly hj hi] at this
  exact Option.some.inj this

theorem val_zero_iff {poly : W32} (hp : poly = polyCrc32 ∨ poly = polyCrc32c) {j i : Nat} (hj : j < 4) (hi : i < 256) :
    val poly j i = 0 ↔ i = 0 := by
  have key : ∀ rev : W32, rev.getLsbD 31 = true → (shn rev (8 * (j + 1)) (BitVec.ofNat 32 i) = 0 ↔ i = 0) := by
    intro rev hr
    constructor
    · intro h
      have := congrArg BitVec.toNat (shn_inj_zero hr _ h)
      simp at this
      omega
    · rintro rfl
      exact shn_zero _ _
  rcases hp with rfl | rfl
  · rw [val_eq tables_crc32 hj hi]; exact key _ (by decide)
  · rw [val_eq tables_crc32c hj hi]; exact key _ (by decide)

end Ulz.Crc
