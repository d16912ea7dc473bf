import Verif.Proofs.Crcinit
/-! C166: initialising the CRC tables, by one thread or many. -/
namespace Ulz.Props
open Ulz.Crc

/-- C166: calling InitTables, whatever the tables held before (it may have been called already), has no undefined behaviour, and
    afterwards every update is that of the model with its tables computed (`Crc.tables`, the subject of C08 and later). -/
theorem crc_init_sequential (poly : W32) (m : Mem) :
    ∃ m', exec m (stores poly) = .ok m' ∧ ∀ s data, updateM m' s data = update (some (tables poly)) s data := by
  obtain ⟨m', e⟩ := exec_stores poly m
  refine ⟨m', e, ?_⟩
  obtain ⟨s, e1, e2, e3⟩ := schedule_exec poly 1028 0 m m' (fun _ => 0) rfl (by
    rw [List.drop_zero, List.take_of_length_le (by rw [stores_length]; omega)]; exact e)
  obtain ⟨s', e1', h⟩ := schedule_inv (poly := poly) (List.replicate 1028 0) (start_inv poly m)
  rw [e1] at e1'; cases e1'
  have := complete_of_thread h (n := 0) (by rw [e3]; omega)
  rw [e2] at this
  exact updateM_complete this

/-- C166: any number of threads call InitTables at once, in any interleaving, on tables that are all zero. Nothing undefined
    happens, and at every moment a look-up of entry `i` of table `j` meets a null pointer if no thread has yet done the `j`-th of
    its first four stores, the right value if some thread has done its store `4 + 4 i + j`, and zero otherwise. -/
theorem crc_init_race (poly : W32) (ns : List Nat) :
    ∃ s, schedule poly ⟨.zero, fun _ => 0⟩ ns = .ok s ∧
      ∀ (j : Nat) (i : W32), j < 4 → i.toNat < 256 →
        ((∀ n, s.pc n ≤ j) → lookM s.mem j i = .error .nullDeref) ∧
        ((∃ n, 4 + 4 * i.toNat + j < s.pc n) → lookM s.mem j i = look (some (tables poly)) j i) ∧
        ((∃ n, j < s.pc n) → (∀ n, s.pc n ≤ 4 + 4 * i.toNat + j) → lookM s.mem j i = .ok 0) := by
  obtain ⟨s, e, h⟩ := schedule_inv (poly := poly) ns (start_inv poly .zero)
  refine ⟨s, e, ?_⟩
  intro j i hj hi
  refine ⟨?_, ?_, ?_⟩
  · intro hn
    have : s.mem.ptr j = false := h.ptr0 j hj (fun ⟨n, hn'⟩ => by have := hn n; omega)
    simp [lookM, this]
  · rintro ⟨n, hn⟩
    have h1 : s.mem.ptr j = true := h.ptr1 j hj ⟨n, by omega⟩
    have h2 := h.tab1 j i.toNat hj hi ⟨n, hn⟩
    have := tables_get poly hj hi
    unfold lookM look
    rw [h1]
    simp only [Bool.not_true, Bool.false_eq_true, if_false, hi, if_true]
    cases ht : (tables poly)[j]? with
    | none => rw [ht] at this; cases this
    | some t =>
      rw [ht] at this
      simp only [Option.bind_some] at this
      simp only [this, h2]
  · rintro ⟨n, hn⟩ hno
    have h1 : s.mem.ptr j = true := h.ptr1 j hj ⟨n, hn⟩
    have h2 := h.tab0 j i.toNat hj hi (fun ⟨n, hn'⟩ => by have := hno n; omega)
    simp only [lookM, h1, Bool.not_true, Bool.false_eq_true, if_false, hi, if_true, h2]
    rfl

/-- C166: so, as soon as one thread has returned from InitTables, every update by any thread is right, although other threads may
    still be storing or begin to. -/
theorem crc_init_one_done (poly : W32) (ns : List Nat) {s : Threads} (h : schedule poly ⟨.zero, fun _ => 0⟩ ns = .ok s)
    {n : Nat} (hn : s.pc n = (stores poly).length) (more : List Nat) :
    ∃ s', schedule poly s more = .ok s' ∧ ∀ st data, updateM s'.mem st data = update (some (tables poly)) st data := by
  obtain ⟨s0, e, hi⟩ := schedule_inv (poly := poly) ns (start_inv poly .zero)
  rw [h] at e; cases e
  rw [stores_length] at hn
  have mono : ∀ (l : List Nat) (a b : Threads), schedule poly a l = .ok b → a.pc n ≤ b.pc n := by
    intro l
    induction l with
    | nil => intro a b hab; cases hab; exact Nat.le_refl _
    | cons x l ih =>
      intro a b hab
      rw [schedule] at hab
      cases ht : tick poly a x with
      | error u => rw [ht] at hab; cases hab
      | ok c =>
        rw [ht, ok_bind] at hab
        refine Nat.le_trans ?_ (ih c b hab)
        unfold tick at ht
        cases hst : (stores poly)[a.pc x]? with
        | none => rw [hst] at ht; cases ht; exact Nat.le_refl _
        | some st =>
          rw [hst] at ht
          simp only at ht
          cases hap : apply a.mem st with
          | error u => rw [hap] at ht; cases ht
          | ok m1 =>
            rw [hap] at ht; cases ht
            simp only
            split
            · rename_i e; subst e; omega
            · exact Nat.le_refl _
  obtain ⟨s', e', hi'⟩ := schedule_inv (poly := poly) more hi
  refine ⟨s', e', updateM_complete (complete_of_thread hi' (n := n) ?_)⟩
  have := mono more s s' e'
  omega

/-- C166, negative: a thread that uses the tables because another has begun to initialise them (not returned) is not safe. For the
    two polynomials of the library, a byte is processed wrongly exactly if no thread has stored its entry, unless the entry is
    number 0, which is zero anyway. -/
theorem crc_init_too_early {poly : W32} (hp : poly = polyCrc32 ∨ poly = polyCrc32c) (ns : List Nat) {s : Threads}
    (h : schedule poly ⟨.zero, fun _ => 0⟩ ns = .ok s) (st : W32) (b : Byte) (hbegun : ∃ n, 0 < s.pc n) :
    byteM s.mem st b = byte (some (tables poly)) st b ↔
      ((st &&& 0xff) ^^^ b.setWidth 32 = 0 ∨ ∃ n, 4 + 4 * ((st &&& 0xff) ^^^ b.setWidth 32).toNat < s.pc n) := by
  obtain ⟨s0, e, hi⟩ := schedule_inv (poly := poly) ns (start_inv poly .zero)
  rw [h] at e; cases e
  have hlt := idx_lt st b
  unfold byteM byte
  generalize (st &&& 0xff) ^^^ b.setWidth 32 = i at hlt ⊢
  have hptr : s.mem.ptr 0 = true := hi.ptr1 0 (by omega) hbegun
  have hl : look (some (tables poly)) 0 i = .ok (val poly 0 i.toNat) := by
    have := tables_get poly (j := 0) (by omega) hlt
    unfold look
    simp only
    cases ht : (tables poly)[0]? with
    | none => rw [ht] at this; cases this
    | some t =>
      rw [ht] at this
      simp only [Option.bind_some] at this
      simp only [this]
      rfl
  have hm : lookM s.mem 0 i = .ok (s.mem.tab 0 i.toNat) := by
    simp only [lookM, hptr, Bool.not_true, Bool.false_eq_true, if_false, hlt, if_true]; rfl
  rw [hl, hm, ok_bind, ok_bind]
  have h0 : i = 0 ↔ i.toNat = 0 := ⟨fun h => by rw [h]; rfl, fun h => BitVec.eq_of_toNat_eq (by simpa using h)⟩
  by_cases hs : Stored s (4 + 4 * i.toNat + 0)
  · rw [hi.tab1 0 i.toNat (by omega) hlt hs]
    exact ⟨fun _ => .inr hs, fun _ => rfl⟩
  · have hz := hi.tab0 0 i.toNat (by omega) hlt hs
    rw [hz]
    have hv := val_zero_iff hp (j := 0) (by omega) hlt
    constructor
    · intro heq
      left
      simp only [pure_eq_ok, Except.ok.injEq, Mem.zero] at heq
      have : val poly 0 i.toNat = 0 := by
        have := congrArg ((st >>> 8) ^^^ ·) heq
        simp only [← BitVec.xor_assoc, BitVec.xor_self, BitVec.zero_xor] at this
        exact this.symm
      exact h0.2 (hv.1 this)
    · rintro (h1 | h1)
      · rw [hv.2 (h0.1 h1)]; rfl
      · exact absurd h1 hs

/-- One store into the tables: a byte is processed wrongly, although the null pointer is gone. -/
example : ∃ s, schedule polyCrc32 ⟨.zero, fun _ => 0⟩ [0] = .ok s ∧ s.pc 0 = 1 ∧
    byteM s.mem init 0x61 ≠ byte (some (tables polyCrc32)) init 0x61 := by
  refine ⟨_, rfl, rfl, ?_⟩
  intro h
  have := (crc_init_too_early (.inl rfl) [0] rfl init 0x61 ⟨0, by decide⟩).1 h
  rcases this with h | ⟨n, hn⟩
  · exact absurd h (by decide)
  · simp only [init] at hn
    split at hn
    · exact absurd hn (by decide)
    · exact absurd hn (by decide)

/-- A schedule in which a thread has returned: the hypotheses of `crc_init_one_done` are met. -/
example (poly : W32) : ∃ s, schedule poly ⟨.zero, fun _ => 0⟩ (List.replicate 1028 0) = .ok s ∧ s.pc 0 = (stores poly).length := by
  obtain ⟨m', e⟩ := exec_stores poly .zero
  obtain ⟨s, e1, _, e3⟩ := schedule_exec poly 1028 0 .zero m' (fun _ => 0) rfl (by
    rw [List.drop_zero, List.take_of_length_le (by rw [stores_length]; omega)]; exact e)
  exact ⟨s, e1, by rw [e3, stores_length]; rfl⟩

end Ulz.Props
