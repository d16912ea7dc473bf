import Verif.Proofs.Sha512
/-! Properties of SHA-512 (C24, C92). -/
namespace Ulz.Props
open Ulz.Sha512 Ulz.Sha512.Spec

/-- C24: any number of updates with multiples of 128 bytes, one last update of any size and sha512_end
    give the FIPS 180-4 digest of the concatenated data. -/
theorem sha512_correct (chunks : List (List Byte)) (last : List Byte) (h : ∀ c ∈ chunks, c.length % 128 = 0)
    (hlen : (chunks.flatten ++ last).length < 2^64) :
    Sha512.run (chunks ++ [last]) = .ok (sha512 (chunks.flatten ++ last)) := by
  obtain ⟨c1, e1, r1⟩ := updates_spec chunks init_rep h
  obtain ⟨c2, e2, r2⟩ := update_spec r1 last
  have happ : chunks.flatten ++ last =
      [] ++ chunks.flatten ++ last.take (128 * (last.length / 128)) ++ last.drop (128 * (last.length / 128)) := by
    rw [List.nil_append, List.append_assoc, List.take_append_drop]
  rw [happ] at hlen ⊢
  obtain ⟨c3, e3, r3⟩ := end_spec r2 hlen
  unfold Sha512.run
  rw [updates_append, e1]
  simp only [ok_bindE, updates]
  rw [e2]
  simp only [ok_bindE, pure_eq_ok]
  rw [e3]
  simp only [ok_bindE]
  rw [r3]

/-- Without a last update. -/
theorem sha512_correct_no_last (chunks : List (List Byte)) (h : ∀ c ∈ chunks, c.length % 128 = 0)
    (hlen : chunks.flatten.length < 2^64) : Sha512.run chunks = .ok (sha512 chunks.flatten) := by
  obtain ⟨c1, e1, r1⟩ := updates_spec chunks init_rep h
  obtain ⟨c3, e3, r3⟩ := end_spec r1 (by simpa using hlen)
  unfold Sha512.run
  rw [e1]
  simp only [ok_bindE, pure_eq_ok]
  rw [e3]
  simp only [ok_bindE]
  rw [r3]
  simp

theorem sha512_digest_size (m : List Byte) : (sha512 m).length = 64 := digest_length _

/-- The published digest of "abc", computed from the definition and by the code. -/
example : sha512 (bytes! "abc") =
    [0xdd, 0xaf, 0x35, 0xa1, 0x93, 0x61, 0x7a, 0xba, 0xcc, 0x41, 0x73, 0x49, 0xae, 0x20, 0x41, 0x31,
     0x12, 0xe6, 0xfa, 0x4e, 0x89, 0xa9, 0x7e, 0xa2, 0x0a, 0x9e, 0xee, 0xe6, 0x4b, 0x55, 0xd3, 0x9a,
     0x21, 0x92, 0x99, 0x2a, 0x27, 0x4f, 0xc1, 0xa8, 0x36, 0xba, 0x3c, 0x23, 0xa3, 0xfe, 0xeb, 0xbd,
     0x45, 0x4d, 0x44, 0x23, 0x64, 0x3c, 0xe8, 0x0e, 0x2a, 0x9a, 0xc9, 0x4f, 0xa5, 0x4c, 0xa4, 0x9f] := by
  decide +kernel
example : (Sha512.run [bytes! "abc"]).map (·.take 4) = .ok [0xdd, 0xaf, 0x35, 0xa1] := by decide +kernel
example : Sha512.run [List.replicate 128 7, List.replicate 130 8] = .ok (sha512 (List.replicate 128 7 ++ List.replicate 130 8)) :=
  sha512_correct [List.replicate 128 7] (List.replicate 130 8) (by simp)
    (by rw [List.length_append, List.length_replicate, List.flatten_singleton, List.length_replicate]; omega)

/-- The round constants and initial values of the specification are what FIPS 180-4 says: the first 64
    bits of the fractional parts of cube and square roots of the first 80 primes. -/
theorem sha512_constants :
    primes.length = 80 ∧
    (∀ t < 80, ∃ n < 8, (n * 2^64 + (k t).toNat)^3 ≤ primes.getD t 0 * 2^192 ∧
      primes.getD t 0 * 2^192 < (n * 2^64 + (k t).toNat + 1)^3) ∧
    (∀ i < 8, ∃ n < 8, (n * 2^64 + (h0 i).toNat)^2 ≤ primes.getD i 0 * 2^128 ∧
      primes.getD i 0 * 2^128 < (n * 2^64 + (h0 i).toNat + 1)^2) := by
  refine ⟨by decide +kernel, by decide +kernel, by decide +kernel⟩

/-- C92: the documented restriction on the chunks is needed: one byte per update gives another result. -/
theorem sha512_bytewise_updates_wrong :
    Sha512.run [bytes! "a", bytes! "b"] ≠ .ok (sha512 (bytes! "ab")) := by
  rw [show bytes! "ab" = ([] : List (List Byte)).flatten ++ bytes! "ab" from rfl,
    ← sha512_correct [] (bytes! "ab") (by simp) (by decide)]
  decide +kernel

/-- C92: what is hashed for arbitrary chunks: the whole blocks of all of them and then `lastBlocks`, in which the rests of the chunks
    lie over each other, with the length of all the data. -/
theorem sha512_any_chunks (cs : List (List Byte)) (hlen : cs.flatten.length < 2^64) :
    Sha512.run cs = .ok (digest (process Spec.init ((cs.map whole).flatten ++ lastBlocks cs))) := by
  obtain ⟨c1, e1, r1⟩ := updates_any cs init_any
  obtain ⟨c2, e2, r2⟩ := end_any r1 hlen
  unfold Sha512.run
  rw [e1]
  simp only [ok_bindE, List.nil_append] at *
  rw [e2]
  simp only [ok_bindE]
  rw [r2]; rfl

/-- "abc" and "d": the block hashed begins with "dbc", then a zero and the padding. -/
example : (lastBlocks [bytes! "abc", bytes! "d"]).take 6 = bytes! "dbc" ++ [0, 0x80, 0] ∧
    (lastBlocks [bytes! "abc", bytes! "d"]).drop 118 = [0, 0, 0, 0, 0, 0, 0, 0, 0, 32] := by decide +kernel

/-- C92: and it is needed in general. What a chunk has behind its last whole block is lost if a later chunk has at least as much behind
    its own: the result is the same for all data there. -/
theorem sha512_tails_ignored (cs cs' : List (List Byte)) (last : List Byte) (hl : cs.map List.length = cs'.map List.length)
    (hw : cs.map whole = cs'.map whole) (ht : ∀ c ∈ cs, c.length % 128 ≤ last.length % 128) :
    Sha512.run (cs ++ [last]) = Sha512.run (cs' ++ [last]) := by
  have h0 : Alike (last.length % 128) sha512_init sha512_init :=
    ⟨⟨_, iv_eq⟩, rfl, rfl, List.length_replicate, List.length_replicate, rfl⟩
  obtain ⟨d, d', e, e', h⟩ := updates_alike cs cs' h0 hl hw ht
  unfold Sha512.run
  rw [updates_append, updates_append, e, e']
  simp only [ok_bindE, updates]
  rw [last_alike last h]

/-- C92: so two short chunks, the first not the longer, give a result in which the first counts only by its length. -/
theorem sha512_first_ignored (a a' b : List Byte) (h : a.length = a'.length) (hab : a.length ≤ b.length) (hb : b.length < 128) :
    Sha512.run [a, b] = Sha512.run [a', b] := by
  have hz : ∀ x : List Byte, x.length < 128 → whole x = [] := by
    intro x hx; unfold whole; rw [show x.length / 128 = 0 by omega]; rfl
  exact sha512_tails_ignored [a] [a'] b (by simp [h]) (by simp [hz a (by omega), hz a' (by omega)])
    (by simp only [List.mem_singleton, forall_eq]; omega)

example : Sha512.run [bytes! "pay Alice 100", bytes! " coins, signed Bob"] = Sha512.run [bytes! "pay Carol 999", bytes! " coins, signed Bob"] :=
  sha512_first_ignored _ _ _ (by decide) (by decide) (by decide)

end Ulz.Props
