import Verif.Proofs.Crc
/-! Properties of the CRC functions (C19–C21, C90, C91). -/
namespace Ulz.Props
open Ulz.Crc Ulz.Crc.Spec

/-- C19, CRC-32: after InitTables, every sequence of updates followed by Final stores the CRC of the
    concatenated data, low byte first. -/
theorem crc32_correct (chunks : List (List Byte)) :
    run (some (tables polyCrc32)) chunks = .ok (le32 (crc revCrc32 chunks.flatten)) :=
  run_spec tables_crc32 chunks

/-- C19, CRC-32C. -/
theorem crc32c_correct (chunks : List (List Byte)) :
    run (some (tables polyCrc32c)) chunks = .ok (le32 (crc revCrc32c chunks.flatten)) :=
  run_spec tables_crc32c chunks

/-- The published check values: "123456789" gives cbf43926 and e3069283. -/
example : run (some (tables polyCrc32)) [bytes! "1234", bytes! "", bytes! "56789"] = .ok [0x26, 0x39, 0xf4, 0xcb] := by
  decide +kernel
example : run (some (tables polyCrc32c)) [bytes! "12345", bytes! "6789"] = .ok [0x83, 0x92, 0x06, 0xe3] := by
  decide +kernel
example : crc revCrc32 (bytes! "123456789") = 0xcbf43926 := by decide +kernel

/-- C20: two messages that agree outside a window of at most 32 bits, and differ, are told apart (both
    polynomials, every way of cutting them into updates). -/
theorem crc_detects_bursts {poly p : W32} (hp : (poly, p) = (polyCrc32, revCrc32) ∨ (poly, p) = (polyCrc32c, revCrc32c))
    (m n : List (List Byte)) {A B u v : List Bool}
    (hm : bits m.flatten = A ++ u ++ B) (hn : bits n.flatten = A ++ v ++ B) (hl : u.length = v.length)
    (h32 : u.length ≤ 32) (hne : u ≠ v) :
    run (some (tables poly)) m ≠ run (some (tables poly)) n := by
  have key : ∀ p, p.getLsbD 31 = true → le32 (crc p m.flatten) ≠ le32 (crc p n.flatten) := by
    intro p hp h
    have h1 : crc p m.flatten = crc p n.flatten := by
      rw [← word_le32 (crc p m.flatten), ← word_le32 (crc p n.flatten), h]
    unfold crc at h1
    rw [hm, hn] at h1
    exact burst hp _ hl h32 hne (BitVec.not_inj.1 h1)
  intro h
  rcases hp with hp | hp
  · injection hp with h1 h2; subst h1; subst h2
    rw [crc32_correct, crc32_correct] at h
    exact key revCrc32 (by decide) (by injection h)
  · injection hp with h1 h2; subst h1; subst h2
    rw [crc32c_correct, crc32c_correct] at h
    exact key revCrc32c (by decide) (by injection h)

/-- Changing one byte, in particular. -/
theorem crc_detects_byte_errors {poly p : W32} (hp : (poly, p) = (polyCrc32, revCrc32) ∨ (poly, p) = (polyCrc32c, revCrc32c))
    (a b : List Byte) {x y : Byte} (h : x ≠ y) :
    run (some (tables poly)) [a ++ x :: b] ≠ run (some (tables poly)) [a ++ y :: b] := by
  have hb : ∀ c : Byte, bits [a ++ c :: b].flatten = bits a ++ bits [c] ++ bits b := by
    intro c
    rw [show [a ++ c :: b].flatten = (a ++ [c]) ++ b by simp, bits_append, bits_append]
  refine crc_detects_bursts hp _ _ (hb x) (hb y) ?_ ?_ ?_
  · simp [bits_length]
  · simp [bits_length]
  · intro hxy
    apply h
    have := congrArg word hxy
    simp only [bits, List.flatMap_cons, List.flatMap_nil, List.append_nil, bits8] at this
    have h2 := congrArg BitVec.toNat this
    simp only [BitVec.toNat_setWidth] at h2
    have := x.isLt
    have := y.isLt
    apply BitVec.eq_of_toNat_eq
    omega

example : run (some (tables polyCrc32)) [bytes! "ab"] ≠ run (some (tables polyCrc32)) [bytes! "ac"] :=
  crc_detects_byte_errors (p := revCrc32) (.inl rfl) (bytes! "a") [] (by decide)

/-- The bound of 32 bits is sharp: a burst of 33 bits, the polynomial itself, goes unnoticed. -/
theorem crc32_misses_33_bit_burst :
    run (some (tables polyCrc32)) [[0, 0, 0, 0, 0]] = run (some (tables polyCrc32)) [[0x41, 0x06, 0x71, 0xdb, 0x01]] := by
  decide +kernel

/-- C21: with its CRC appended, every message has the same CRC. -/
theorem crc32_residue (chunks : List (List Byte)) (c : List Byte)
    (h : run (some (tables polyCrc32)) chunks = .ok c) :
    run (some (tables polyCrc32)) (chunks ++ [c]) = .ok [0x1c, 0xdf, 0x44, 0x21] := by
  rw [crc32_correct] at h ⊢
  injection h with h
  rw [List.flatten_append, ← h, show [le32 (crc revCrc32 chunks.flatten)].flatten = le32 (crc revCrc32 chunks.flatten) by simp,
    residue]
  decide +kernel

theorem crc32c_residue (chunks : List (List Byte)) (c : List Byte)
    (h : run (some (tables polyCrc32c)) chunks = .ok c) :
    run (some (tables polyCrc32c)) (chunks ++ [c]) = .ok [0xc7, 0x4b, 0x67, 0x48] := by
  rw [crc32c_correct] at h ⊢
  injection h with h
  rw [List.flatten_append, ← h, show [le32 (crc revCrc32c chunks.flatten)].flatten = le32 (crc revCrc32c chunks.flatten) by simp,
    residue]
  decide +kernel

example : run (some (tables polyCrc32)) [bytes! "123456789", [0x26, 0x39, 0xf4, 0xcb]] = .ok [0x1c, 0xdf, 0x44, 0x21] :=
  crc32_residue [bytes! "123456789"] _ (by decide +kernel)

/-- C90: without InitTables the first byte dereferences a null pointer; no data is harmless. -/
theorem crc_needs_tables (s : W32) (data : List Byte) :
    update none s data = if data = [] then .ok s else .error .nullDeref := by
  match data with
  | [] => rfl
  | [_] => rfl
  | [_, _] => rfl
  | [_, _, _] => rfl
  | _ :: _ :: _ :: _ :: _ => rfl

/-- C91: Final changes the context. A second Final on it stores the complement of the CRC, and updating
    it goes on from the complemented state. -/
theorem crc_final_twice (s : W32) (c : List Byte) (s' : W32) (h : final s = (s', c)) :
    final s' = (s, c.map (~~~ ·)) ∧ s' ≠ s := by
  rw [final_spec] at h
  injection h with h1 h2
  subst h1; subst h2
  rw [final_spec, BitVec.not_not]
  refine ⟨?_, ?_⟩
  · congr 1
    have hx : ∀ k, k + 8 ≤ 32 → ~~~ ((~~~ s).extractLsb' k 8) = s.extractLsb' k 8 := by
      intro k hk
      apply BitVec.eq_of_getLsbD_eq
      intro i hi
      rw [BitVec.getLsbD_not, BitVec.getLsbD_extractLsb', BitVec.getLsbD_extractLsb', BitVec.getLsbD_not]
      simp [hi, show k + i < 32 by omega]
    simp only [le32, List.map_cons, List.map_nil, hx 0 (by omega), hx 8 (by omega), hx 16 (by omega), hx 24 (by omega)]
  · intro h
    have := congrArg (fun x => BitVec.getLsbD x 0) h
    simp at this

example : final 0 = (0xffffffff, [0xff, 0xff, 0xff, 0xff]) := by decide

end Ulz.Props
