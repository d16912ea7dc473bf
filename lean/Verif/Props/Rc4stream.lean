import Verif.Proofs.Rc4stream
/-! Theorems about what encryption with `rc4` does and does not hide. -/
namespace Ulz.Props
open Ulz.Rc4 Ulz.Rc4.Spec

/-- Two messages encrypted with the same key: their difference is the difference of the texts. -/
theorem rc4_same_key (key p q d e : List Byte) (hk : 0 < key.length) (hp : p.length ≤ d.length) (hq : q.length ≤ e.length) :
    ∃ c c', rc4 d p p.length key = .ok c ∧ rc4 e q q.length key = .ok c' ∧
      ∀ (i : Nat) (a b : Byte), p[i]? = some a → q[i]? = some b → ∃ x y, c[i]? = some x ∧ c'[i]? = some y ∧ x ^^^ y = a ^^^ b := by
  refine ⟨_, _, rc4_correct d p key hk hp, rc4_correct e q key hk hq, fun i a b ha hb => ?_⟩
  obtain ⟨hi, rfl⟩ := List.getElem?_eq_some_iff.1 ha
  obtain ⟨hj, rfl⟩ := List.getElem?_eq_some_iff.1 hb
  refine ⟨_, _, out_get hk d p hi, out_get hk e q hj, ?_⟩
  rw [BitVec.xor_assoc, BitVec.xor_comm q[i], ← BitVec.xor_assoc (ksKey key hk i), BitVec.xor_self, BitVec.zero_xor]

example : ∃ c c', rc4 [0, 0] [65, 66] 2 [1, 2, 3] = .ok c ∧ rc4 [0, 0] [67, 68] 2 [1, 2, 3] = .ok c' := by
  obtain ⟨c, c', h1, h2, _⟩ := rc4_same_key [1, 2, 3] [65, 66] [67, 68] [0, 0] [0, 0] (by decide) (by decide) (by decide)
  exact ⟨c, c', h1, h2⟩

/-- Whoever changes bits of an encrypted message changes the same bits of the text, and no others. -/
theorem rc4_flip (key p d e diff : List Byte) (hk : 0 < key.length) (hp : p.length = d.length) (he : p.length ≤ e.length) (hd : diff.length = p.length) :
    ∃ c, rc4 d p p.length key = .ok c ∧
      rc4 e (List.zipWith (· ^^^ ·) c diff) p.length key = .ok (put e 0 (List.zipWith (· ^^^ ·) p diff)) := by
  refine ⟨_, rc4_correct d p key hk (by omega), ?_⟩
  have hks := keystream_length hk p.length
  have hl : (List.zipWith (· ^^^ ·) p (keystream key hk p.length)).length = p.length := by simp [hks]
  have hput : put d 0 (List.zipWith (· ^^^ ·) p (keystream key hk p.length)) = List.zipWith (· ^^^ ·) p (keystream key hk p.length) := by
    rw [put_zero, hl, hp, List.drop_length, List.append_nil]
  have hl2 : (List.zipWith (· ^^^ ·) (List.zipWith (· ^^^ ·) p (keystream key hk p.length)) diff).length = p.length := by simp [hks, hd]
  rw [hput]
  have := rc4_correct e (List.zipWith (· ^^^ ·) (List.zipWith (· ^^^ ·) p (keystream key hk p.length)) diff) key hk (by omega)
  rw [hl2] at this
  rw [this]
  congr 2
  apply List.ext_getElem?
  intro i
  by_cases hi : i < p.length
  · have h1 := keystream_get hk hi
    simp only [List.getElem?_zipWith, h1, List.getElem?_eq_getElem hi, List.getElem?_eq_getElem (show i < diff.length by omega), Option.some.injEq]
    rw [BitVec.xor_assoc, BitVec.xor_comm diff[i], ← BitVec.xor_assoc, BitVec.xor_assoc p[i], BitVec.xor_self, BitVec.xor_zero]
  · rw [List.getElem?_eq_none (by simp [hks]; omega), List.getElem?_eq_none (by simp; omega)]

example : ∃ c, rc4 [0, 0] [65, 66] 2 [1, 2, 3] = .ok c ∧ rc4 [0, 0] (List.zipWith (· ^^^ ·) c [0, 1]) 2 [1, 2, 3] = .ok [65, 67] :=
  rc4_flip [1, 2, 3] [65, 66] [0, 0] [0, 0] [0, 1] (by decide) rfl (by decide) rfl

/-- A message encrypted in two calls is the message encrypted in one call exactly if the key stream repeats: every call starts it again.
    (The key stream is what zeros are encrypted to.) -/
theorem rc4_pieces_iff (key a b : List Byte) (hk : 0 < key.length) :
    ∃ c c1 c2 z, rc4 (a ++ b) (a ++ b) (a ++ b).length key = .ok c ∧ rc4 a a a.length key = .ok c1 ∧ rc4 b b b.length key = .ok c2 ∧
      rc4 (a ++ b) (List.replicate (a ++ b).length 0) (a ++ b).length key = .ok z ∧
      (c = c1 ++ c2 ↔ z.drop a.length = z.take b.length) := by
  have hz := rc4_correct (a ++ b) (List.replicate (a ++ b).length 0) key hk (by simp)
  rw [List.length_replicate] at hz
  refine ⟨_, _, _, _, rc4_correct (a ++ b) (a ++ b) key hk (Nat.le_refl _), rc4_correct a a key hk (Nat.le_refl _), rc4_correct b b key hk (Nat.le_refl _), hz, ?_⟩
  have hl := fun n => keystream_length hk n
  have hfull : ∀ d s : List Byte, d.length = s.length → put d 0 (List.zipWith (· ^^^ ·) s (keystream key hk s.length)) =
      List.zipWith (· ^^^ ·) s (keystream key hk s.length) := by
    intro d s h
    rw [put_zero, List.length_zipWith, hl, Nat.min_self, ← h, List.drop_length, List.append_nil]
  rw [hfull _ _ rfl, hfull _ _ rfl, hfull _ _ rfl]
  have hzf := hfull (a ++ b) (List.replicate (a ++ b).length 0) (by simp)
  rw [List.length_replicate] at hzf
  rw [hzf]
  have hzk : List.zipWith (· ^^^ ·) (List.replicate (a ++ b).length (0 : Byte)) (keystream key hk (a ++ b).length) = keystream key hk (a ++ b).length := by
    apply List.ext_getElem?
    intro i
    by_cases hi : i < (a ++ b).length
    · rw [List.getElem?_zipWith, keystream_get hk hi, List.getElem?_eq_getElem (by simpa using hi), List.getElem_replicate]
      simp
    · rw [List.getElem?_eq_none (by simp [hl] at hi ⊢; omega), List.getElem?_eq_none (by rw [hl]; omega)]
  rw [hzk]
  constructor
  · intro h
    apply List.ext_getElem?
    intro i
    by_cases hi : i < b.length
    · have := congrArg (fun l => l[a.length + i]?) h
      rw [List.getElem?_append_right (by simp [hl]), List.getElem?_zipWith, List.getElem?_zipWith, keystream_get hk (by simp; omega),
        List.getElem?_append_right (by omega), show (List.zipWith (· ^^^ ·) a (keystream key hk a.length)).length = a.length by simp [hl],
        Nat.add_sub_cancel_left, keystream_get hk hi, List.getElem?_eq_getElem hi] at this
      have h2 := Option.some.inj this
      have h3 := congrArg (fun x => b[i] ^^^ x) h2
      simp only [← BitVec.xor_assoc, BitVec.xor_self, BitVec.zero_xor] at h3
      rw [List.getElem?_drop, keystream_get hk (by simp; omega), List.getElem?_take_of_lt hi, keystream_get hk (by simp; omega), h3]
    · rw [List.getElem?_eq_none (by simp [hl]; omega), List.getElem?_eq_none (by simp [hl]; omega)]
  · intro h
    apply List.ext_getElem?
    intro i
    by_cases hi : i < a.length
    · rw [List.getElem?_append_left (by simp [hl]; omega), List.getElem?_zipWith, List.getElem?_zipWith, keystream_get hk hi, keystream_get hk (by simp; omega),
        List.getElem?_append_left hi]
    · by_cases hj : i < a.length + b.length
      · have := congrArg (fun l => l[i - a.length]?) h
        rw [List.getElem?_drop, show a.length + (i - a.length) = i by omega, keystream_get hk (by simp; omega), List.getElem?_take_of_lt (by omega),
          keystream_get hk (by simp; omega)] at this
        have h2 := Option.some.inj this
        rw [List.getElem?_append_right (by simp [hl]; omega), List.getElem?_zipWith, List.getElem?_zipWith, keystream_get hk (by simp; omega),
          show (List.zipWith (· ^^^ ·) a (keystream key hk a.length)).length = a.length by simp [hl], keystream_get hk (by omega),
          List.getElem?_append_right (by omega), h2]
      · rw [List.getElem?_eq_none (by simp [hl]; omega), List.getElem?_eq_none (by simp [hl]; omega)]

example : ∃ c c1 c2, rc4 [65, 66] [65, 66] 2 [1, 2, 3] = .ok c ∧ rc4 [65] [65] 1 [1, 2, 3] = .ok c1 ∧ rc4 [66] [66] 1 [1, 2, 3] = .ok c2 ∧ c ≠ c1 ++ c2 := by
  obtain ⟨c, c1, c2, z, h1, h2, h3, h4, h5⟩ := rc4_pieces_iff [1, 2, 3] [65] [66] (by decide)
  refine ⟨c, c1, c2, h1, h2, h3, fun h => ?_⟩
  have h6 := h5.1 h
  have h7 : rc4 [65, 66] [0, 0] 2 [1, 2, 3] = .ok [151, 54] := by decide +kernel
  have h8 : z = [151, 54] := Except.ok.inj (h4.symm.trans h7)
  rw [h8] at h6
  exact absurd h6 (by decide)

/-- For every key there is a number after which the key stream repeats itself from its start. -/
theorem rc4_period (key : List Byte) (hk : 0 < key.length) : ∃ P > 0, ∀ d src : List Byte, src.length ≤ d.length → ∃ c, rc4 d src src.length key = .ok c ∧
    ∀ (n : Nat) (a b : Byte), src[n]? = some a → src[n + P]? = some b → ∃ x y, c[n]? = some x ∧ c[n + P]? = some y ∧ a ^^^ x = b ^^^ y := by
  obtain ⟨P, hP, he⟩ := periodic ((ksa key hk 256).1, 0, 0)
  refine ⟨P, hP, fun d src h => ⟨_, rc4_correct d src key hk h, fun n a b ha hb => ?_⟩⟩
  obtain ⟨hi, rfl⟩ := List.getElem?_eq_some_iff.1 ha
  obtain ⟨hj, rfl⟩ := List.getElem?_eq_some_iff.1 hb
  refine ⟨_, _, out_get hk d src hi, out_get hk d src hj, ?_⟩
  have := ksAt_add P n ((ksa key hk 256).1, 0, 0)
  rw [he] at this
  unfold ksKey
  rw [← BitVec.xor_assoc, ← BitVec.xor_assoc, BitVec.xor_self, BitVec.xor_self, this]

example : ∃ P > 0, ∀ src : List Byte, ∃ c, rc4 src src src.length [1] = .ok c := by
  obtain ⟨P, h1, h2⟩ := rc4_period [1] (by decide)
  exact ⟨P, h1, fun src => ⟨_, (h2 src src (Nat.le_refl _)).choose_spec.1⟩⟩

/-- Some keys show the second byte of every message: if the key schedule leaves 0 at index 2 and not 2 at index 1, the second byte is not changed. -/
theorem rc4_second_byte (key box d src : List Byte) (hk : 0 < key.length) (hb : initBox key = .ok box) (h2 : box[2]? = some 0) (h1 : box[1]? ≠ some 2)
    (hd : src.length ≤ d.length) (hs : 2 ≤ src.length) : ∃ c, rc4 d src src.length key = .ok c ∧ c[1]? = src[1]? := by
  refine ⟨_, rc4_correct d src key hk hd, ?_⟩
  obtain ⟨box', hb', hrep⟩ := initBox_rep key hk
  rw [hb] at hb'
  cases hb'
  have r1 : box[1]? = some ((ksa key hk 256).1 1) := hrep.2 1
  have r2 : box[2]? = some ((ksa key hk 256).1 2) := hrep.2 2
  rw [r2] at h2
  rw [r1] at h1
  rw [out_get hk d src (by omega), List.getElem?_eq_getElem (by omega)]
  unfold ksKey
  rw [second_zero _ (Option.some.inj h2) (fun e => h1 (by rw [e]))]
  simp

example (src : List Byte) (hs : 2 ≤ src.length) : ∃ c, rc4 src src src.length [0, 253] = .ok c ∧ c[1]? = src[1]? := by
  have h : (initBox [0, 253]).map (fun b => (b[2]?, b[1]?)) = .ok (some 0, some 120) := by decide +kernel
  cases hb : initBox [0, 253] with
  | error e => rw [hb] at h; cases h
  | ok box =>
    rw [hb] at h
    have h' := Except.ok.inj h
    simp only [Prod.mk.injEq] at h'
    exact rc4_second_byte [0, 253] box src src (by decide) hb h'.1 (by rw [h'.2]; decide) (Nat.le_refl _) hs

end Ulz.Props
