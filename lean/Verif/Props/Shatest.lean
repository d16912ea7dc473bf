import Verif.Proofs.Shatest
/-! The SHA-512 test program: C172 and C173. -/
namespace Ulz.Props
open Ulz.Shatest Ulz.Shatest.Spec Ulz.Sha512.Spec Ulz.Hex.Spec Ulz.Wholefile.Spec
open Ulz.Sha512 (sha512_update sha512_end sha512_init)

/-- C172: `crypto_hash`, which computes the digest of a message in one call, writes the SHA-512 digest of every message below 2^64 bytes and
    nothing behind it. -/
theorem crypto_hash_correct (out m : List Byte) (hm : m.length < 2 ^ 64) (ho : 64 ≤ out.length) :
    crypto_hash out m = .ok (sha512 m ++ out.drop 64) := by
  rw [crypto_hash_spec out m hm ho, put_zero, sha512_digest_size]

example : ∃ d, crypto_hash (List.replicate 65 7) (bytes! "abc") = .ok (d ++ [7]) :=
  ⟨_, crypto_hash_correct _ _ (by decide) (by decide)⟩

/-- C172: `crypto_hash` needs room for the 64 bytes. -/
theorem crypto_hash_small (out m : List Byte) (hm : m.length < 2 ^ 64) (ho : out.length < 64) :
    crypto_hash out m = .error .oobWrite := by
  rw [crypto_hash_run, run_one m hm, ok_bindE]
  unfold wrN
  rw [if_neg (by rw [sha512_digest_size]; omega)]

/-- C172: the text of a digest: 128 lower-case hex digits and the NUL, for which 129 bytes must be there. -/
theorem sha512_to_str_correct (hash out : List Byte) (hh : hash.length = 64) (ho : 129 ≤ out.length) :
    sha512_to_str hash out = .ok (text hash ++ 0 :: out.drop 129) := by
  rw [to_str_spec hash out hh ho, put_zero]
  simp [Hex.text_length, hh]

example : ∃ o, sha512_to_str (List.replicate 64 0xA5) (List.replicate 129 0) = .ok o :=
  ⟨_, sha512_to_str_correct _ _ List.length_replicate (by rw [List.length_replicate]; decide)⟩

/-- C172: the self-test finds no difference: whatever bytes `rand` gives and whatever the arrays contain at first, nothing is
    printed, and the program without an argument exits with status 0. -/
theorem sha512_selftest_passes (dec : Nat → List Byte) (rand : Nat → Byte) (buf junk : List Byte) (hb : buf.length = 8192) (hj : junk.length = 64) :
    test rand buf junk = .ok [] ∧ main dec rand buf junk none = .ok ([], 0) := by
  have h : test rand buf junk = .ok [] := testLoop_nil rand junk hj 8192 0 buf (by omega) (by omega)
  refine ⟨h, ?_⟩
  unfold main
  rw [h]
  rfl

example : ∃ buf junk : List Byte, buf.length = 8192 ∧ junk.length = 64 :=
  ⟨List.replicate 8192 0, List.replicate 64 0, List.length_replicate, List.length_replicate⟩

/-- C173: a file whose bytes arrive in pieces that are all, except the last, multiples of 128 bytes is hashed correctly. -/
theorem sha512_hash_correct (data : List Byte) (ps : List (List Byte)) (h : Delivery ps data)
    (h128 : ∀ p ∈ ps.dropLast, p.length % 128 = 0) (hd : data.length < 2 ^ 64) (out : List Byte) (ho : 129 ≤ out.length) :
    sha512_hash true data (deliver ps) out = .ok (text (sha512 data) ++ 0 :: out.drop 129, true) := by
  obtain ⟨rfl, h2⟩ := h
  rw [hash_deliver ps out h2, run_pieces ps h128 hd, ok_bindE, sha512_to_str_correct _ _ (sha512_digest_size _) ho]
  rfl

/-- C173: in particular if every `read` delivers as much as fits in the buffer of 4096 bytes or is left. -/
theorem sha512_hash_full_reads (data : List Byte) (n : Nat) (hn : data.length / 4096 + 1 < n) (hd : data.length < 2 ^ 64) (out : List Byte)
    (ho : 129 ≤ out.length) :
    sha512_hash true data (List.replicate n (some 4096)) out = .ok (text (sha512 data) ++ 0 :: out.drop 129, true) := by
  obtain ⟨ps, h1, h2, h3, h4⟩ := hashLoop_full n data hn
  rw [← sha512_hash_correct data ps ⟨h2, h3⟩ (fun p hp => by rw [h4 p hp]) hd out ho]
  unfold sha512_hash
  rw [h1, h2]

example : sha512_hash true (List.replicate 5000 1) (List.replicate 3 (some 4096)) (List.replicate 129 0) =
    .ok (text (sha512 (List.replicate 5000 1)) ++ 0 :: (List.replicate 129 0).drop 129, true) :=
  sha512_hash_full_reads _ 3 (by rw [List.length_replicate]; decide) (by rw [List.length_replicate]; decide) _ (by rw [List.length_replicate]; decide)

/-- C173: but pieces of other sizes lose data: if a file of fewer than 256 bytes arrives as a first piece `a` and a second piece `b` of at
    least its size, below 128 bytes, then only the length of `a` matters: all files `a' ++ b` get the same digest. -/
theorem sha512_hash_short_reads (a a' b : List Byte) (ha : a ≠ []) (h : a.length = a'.length) (hab : a.length ≤ b.length) (hb : b.length < 128)
    (out : List Byte) :
    sha512_hash true (a ++ b) (deliver [a, b]) out = sha512_hash true (a' ++ b) (deliver [a, b]) out := by
  have hla : 0 < a.length := List.length_pos_iff.2 ha
  have hb0 : b ≠ [] := by intro hb0; rw [hb0, List.length_nil] at hab; omega
  have ha' : a' ≠ [] := by intro h0; subst h0; simp at h; exact ha h
  have e1 := hash_deliver [a, b] out (by simp; exact ⟨⟨ha, by omega⟩, hb0, by omega⟩)
  have e2 := hash_deliver [a', b] out (by simp; exact ⟨⟨ha', by omega⟩, hb0, by omega⟩)
  have ed : deliver [a', b] = deliver [a, b] := by simp [deliver, h]
  rw [ed] at e2
  have f1 : [a, b].flatten = a ++ b := by simp
  have f2 : [a', b].flatten = a' ++ b := by simp
  rw [f1] at e1
  rw [f2] at e2
  rw [e1, e2, sha512_first_ignored a a' b h hab hb]

/-- The hypotheses are met by two files that differ. -/
example : ∃ a a' b : List Byte, a ≠ [] ∧ a ++ b ≠ a' ++ b ∧ a.length = a'.length ∧ a.length ≤ b.length ∧ b.length < 128 :=
  ⟨bytes! "pay", bytes! "owe", bytes! " 100 pounds", by decide⟩

/-- C173: if the file cannot be opened, or a read fails after some pieces `ps` of it have been read, this is reported and the buffer is
    as it was. -/
theorem sha512_hash_fails (data : List Byte) (answers as : List (Option Nat)) (out : List Byte) (ps : List (List Byte)) (rest : List Byte)
    (h : Delivery ps (ps.flatten)) :
    sha512_hash false data answers out = .ok (out, false) ∧
    sha512_hash true (ps.flatten ++ rest) (ps.map (fun p => some p.length) ++ none :: as) out = .ok (out, false) := by
  refine ⟨rfl, ?_⟩
  obtain ⟨c, e⟩ := updates_ok ps
  unfold sha512_hash
  rw [hashLoop_none ps _ rest as h.2, e]
  rfl

example : Delivery [bytes! "ab", bytes! "c"] ([bytes! "ab", bytes! "c"].flatten) := ⟨rfl, by decide⟩

/-- C173: with a file argument the program prints the SHA-512 digest of the file and exits with status 0, if the file is not empty, does
    not change, the first reads are full ones, and the second ones do not fail. -/
theorem sha512_test_prints (dec : Nat → List Byte) (rand : Nat → Byte) (buf junk : List Byte) (hb : buf.length = 8192) (hj : junk.length = 64)
    (data : List Byte) (h0 : data ≠ []) (hd : data.length + 17 < 2 ^ 64) (n : Nat) (hn : data.length / 4096 + 1 < n)
    (answers : List (Option Nat)) (h1 : none ∉ answers) (h2 : data.length ≤ useful answers) (f : Nat → Byte) (hash1 hash2 h : List Byte)
    (hh1 : hash1.length = 129) (hh2 : hash2.length = 129) (hh : h.length = 64) :
    main dec rand buf junk (some (test_file (some data.length) true data (List.replicate n (some 4096)) answers (some f) hash1 hash2 h)) =
      .ok (text (sha512 data) ++ bytes! "\n", 0) := by
  obtain ⟨p, e, hp1, t, hp2⟩ := stringptr_fromfile_succeeds data h0 hd f answers h1 h2
  have hf : test_file (some data.length) true data (List.replicate n (some 4096)) answers (some f) hash1 hash2 h =
      .ok (text (sha512 data) ++ bytes! "\n", 0) := by
    unfold test_file
    have hr : rdN p.buf 0 p.size = .ok data := by
      rw [hp1, ← hp2]
      exact rdN_mid (A := []) (M := data) (B := t) (i := 0) rfl rfl
    have hl := sha512_digest_size data
    rw [sha512_hash_full_reads data n hn (by omega) hash1 (by omega), ok_bindE]
    simp only [e, ok_bindE, hr, crypto_hash_correct h data (by omega) (by omega)]
    rw [List.drop_eq_nil_of_le (by omega : h.length ≤ 64), List.append_nil, sha512_to_str_correct _ _ hl (by omega), ok_bindE,
      strcmpEq_correct _ _ _ _ (Hex.text_ne_zero _) (Hex.text_ne_zero _), ok_bindE, Hex.strlen_cstr _ _ (Hex.text_ne_zero _), ok_bindE]
    have hm := rdN_mid (A := []) (M := text (sha512 data)) (B := 0 :: hash1.drop 129) (i := 0) (n := (text (sha512 data)).length) rfl rfl
    rw [List.nil_append] at hm
    rw [hm]
    simp [pure_eq_ok, ok_bindE]
  have ht := (sha512_selftest_passes dec rand buf junk hb hj).1
  unfold main
  rw [ht, hf]
  rfl

/-- C173: for an empty file, one that cannot be opened or of which the size cannot be found, and if memory runs out, the program
    dereferences a null pointer. -/
theorem sha512_test_null (st : Option Nat) (opens : Bool) (data : List Byte) (answers1 answers2 : List (Option Nat)) (a : Alloc)
    (hash1 hash2 h : List Byte) (hs : st = none ∨ st = some 0 ∨ opens = false ∨ a = none) (r : List Byte × Bool)
    (hr : sha512_hash opens data answers1 hash1 = .ok r) :
    test_file st opens data answers1 answers2 a hash1 hash2 h = .error .nullDeref := by
  unfold test_file
  rw [hr, ok_bindE, stringptr_fromfile_refused st opens a data answers2 hs]
  rfl

/-- The empty file. -/
example (f : Nat → Byte) (hash1 hash2 h : List Byte) (hh1 : hash1.length = 129) :
    test_file (some 0) true [] [some 4096, some 4096] [some 4096] (some f) hash1 hash2 h = .error .nullDeref :=
  sha512_test_null _ _ _ _ _ _ _ _ _ (by simp) _ (sha512_hash_full_reads [] 2 (by decide) (by decide) hash1 (by omega))

end Ulz.Props
