import Verif.Model.Base64
import Verif.Model.Crc
import Verif.Model.Text
import Verif.Model.Md5
import Verif.Model.Sha512
import Verif.Model.Rc4
import Verif.Model.Filelib
import Verif.Model.Format
import Verif.Model.Hashlist
import Verif.Model.Inifile
import Verif.Model.Tglist
/-! The test vectors of /repo/tests run against the model. They prove nothing; they check that the definitions the theorems
speak about compute what the project's own tests expect of the C functions. Each group names the test it is taken from. -/
namespace Ulz.Tests
open Ulz.Stringptr (SP)

/-- A C string literal. -/
def s0 (s : List Byte) : List Byte := s ++ [0]
/-- What `strcmp` sees of a buffer. -/
def str (b : List Byte) : List Byte := b.takeWhile (· ≠ 0)
/-- SPLITERAL. -/
def spl (s : List Byte) : SP := ⟨s0 s, s.length⟩
/-- An allocator that succeeds; the new bytes hold 1. -/
def fresh : Alloc := some fun _ => 1
/-- An `int` in memory. -/
def int (n : Nat) : List Byte := Tglist.leBytes 4 n
/-- The bytes of a hexadecimal string, through hex2raw. -/
def unhex (h : List Byte) : C (List Byte) := do
  let (out, n) ← Hex.hex2raw (s0 h) (List.replicate (h.length / 2) 0)
  pure (out.take n)

/-! ### tests/base64_test.c -/
/-- tests/base64_test.c: encode into a large buffer. -/
def enc (s : List Byte) : C (List Byte) := do pure (str (← Base64.base64enc (List.replicate 65 1) s))
/-- tests/base64_test.c: decode. -/
def dec (t : List Byte) : C (Nat × List Byte) := do
  let (d, n) ← Base64.base64dec (List.replicate 49 1) (s0 t) 49
  pure (n, d.take n)

example : enc [0x61] = .ok (bytes! "YQ==") := by decide +kernel
example : dec (bytes! "YQ==") = .ok (1, [0x61]) := by decide +kernel
example : enc [0x61, 0x61] = .ok (bytes! "YWE=") := by decide +kernel
example : dec (bytes! "YWE=") = .ok (2, [0x61, 0x61]) := by decide +kernel
example : enc [0x61, 0x61, 0x61] = .ok (bytes! "YWFh") := by decide +kernel
example : dec (bytes! "YWFh") = .ok (3, [0x61, 0x61, 0x61]) := by decide +kernel
example : enc [0x01, 0x02, 0x03, 0x04, 0x05] = .ok (bytes! "AQIDBAU=") := by decide +kernel
example : dec (bytes! "AQIDBAU=") = .ok (5, [0x01, 0x02, 0x03, 0x04, 0x05]) := by decide +kernel
example : enc [0x26, 0xc7, 0x1b, 0x28, 0xfe, 0xb0, 0x90, 0x08, 0x5a, 0xde, 0xc6, 0xe0, 0xf0, 0xf4, 0x76, 0xdd] = .ok (bytes! "JscbKP6wkAha3sbg8PR23Q==") := by decide +kernel
example : dec (bytes! "JscbKP6wkAha3sbg8PR23Q==") = .ok (16, [0x26, 0xc7, 0x1b, 0x28, 0xfe, 0xb0, 0x90, 0x08, 0x5a, 0xde, 0xc6, 0xe0, 0xf0, 0xf4, 0x76, 0xdd]) := by decide +kernel
example : enc [0xf3, 0x9b, 0x70, 0xa5, 0x63, 0xfa, 0x54, 0x86, 0xd1] = .ok (bytes! "85twpWP6VIbR") := by decide +kernel
example : dec (bytes! "85twpWP6VIbR") = .ok (9, [0xf3, 0x9b, 0x70, 0xa5, 0x63, 0xfa, 0x54, 0x86, 0xd1]) := by decide +kernel
example : dec (bytes! "=QIDBAU=") = .ok (0, []) := by decide +kernel
example : dec (bytes! "AQ(DBAU=") = .ok (0, []) := by decide +kernel
example : dec (bytes! "AQIDB@U=") = .ok (0, []) := by decide +kernel
example : dec (bytes! "AQIDBAU==") = .ok (0, []) := by decide +kernel
example : dec (bytes! "AQIDB===") = .ok (0, []) := by decide +kernel

/-! ### tests/crc32_test.c -/
example : Crc.run (some (Crc.tables Crc.polyCrc32)) [(bytes! "abcdefghijklmnopqrstuvwxyzABCDEFGHIJKLMNOPQRSTUVWXYZ\n")] = .ok [0x6e, 0x6d, 0xd9, 0xdb] := by decide +kernel
example : Crc.run (some (Crc.tables Crc.polyCrc32c)) [(bytes! "abcdefghijklmnopqrstuvwxyzABCDEFGHIJKLMNOPQRSTUVWXYZ\n")] = .ok [0x6d, 0xd4, 0x29, 0x7d] := by decide +kernel

/-! ### tests/ipv4fromstring_test.c -/
example : (Text.ipv4fromstring (s0 (bytes! "010.000.000.001")) [0, 0, 0, 0]) = .ok ([10, 0, 0, 1], 1) := by decide +kernel
example : (Text.ipv4fromstring (s0 (bytes! "128.010.020.031")) [0, 0, 0, 0]) = .ok ([128, 10, 20, 31], 1) := by decide +kernel

/-! ### tests/md5_test.c, tests/md5str_test.c -/
/-- tests/md5str_test.c. -/
def md5 (s : List Byte) : C (List Byte) := do
  pure (str (← Md5.md5str (List.replicate 64 1) (List.replicate 64 1) (List.replicate 16 1) (List.replicate 33 1) s))

example : md5 (bytes! "") = .ok (bytes! "d41d8cd98f00b204e9800998ecf8427e") := by decide +kernel
example : md5 (bytes! "foo bar") = .ok (bytes! "327b6f07435811239bc47e1544353273") := by decide +kernel
example : md5 (bytes! "password") = .ok (bytes! "5f4dcc3b5aa765d61d8327deb882cf99") := by decide +kernel

/-! ### SHA-512 of "abc" and of 112 bytes (FIPS 180-2, C.1 and C.2; tests/sha512_test.c hashes files) -/
example : Sha512.run [(bytes! "abc")] = .ok [0xdd, 0xaf, 0x35, 0xa1, 0x93, 0x61, 0x7a, 0xba, 0xcc, 0x41, 0x73, 0x49, 0xae, 0x20, 0x41, 0x31, 0x12, 0xe6, 0xfa, 0x4e, 0x89, 0xa9, 0x7e, 0xa2, 0x0a, 0x9e, 0xee, 0xe6, 0x4b, 0x55, 0xd3, 0x9a, 0x21, 0x92, 0x99, 0x2a, 0x27, 0x4f, 0xc1, 0xa8, 0x36, 0xba, 0x3c, 0x23, 0xa3, 0xfe, 0xeb, 0xbd, 0x45, 0x4d, 0x44, 0x23, 0x64, 0x3c, 0xe8, 0x0e, 0x2a, 0x9a, 0xc9, 0x4f, 0xa5, 0x4c, 0xa4, 0x9f] := by decide +kernel
example : Sha512.run [(bytes! "abcdefghbcdefghicdefghijdefghijkefghijklfghijklmghijklmnhijklmnoijklmnopjklmnopqklmnopqrlmnopqrsmnopqrstnopqrstu")] = .ok [0x8e, 0x95, 0x9b, 0x75, 0xda, 0xe3, 0x13, 0xda, 0x8c, 0xf4, 0xf7, 0x28, 0x14, 0xfc, 0x14, 0x3f, 0x8f, 0x77, 0x79, 0xc6, 0xeb, 0x9f, 0x7f, 0xa1, 0x72, 0x99, 0xae, 0xad, 0xb6, 0x88, 0x90, 0x18, 0x50, 0x1d, 0x28, 0x9e, 0x49, 0x00, 0xf7, 0xe4, 0x33, 0x1b, 0x99, 0xde, 0xc4, 0xb5, 0x43, 0x3a, 0xc7, 0xd3, 0x29, 0xee, 0xb6, 0xdd, 0x26, 0x54, 0x5e, 0x96, 0xe5, 0x5b, 0x87, 0x4b, 0xe9, 0x09] := by decide +kernel

/-! ### tests/rc4_test.c -/
/-- tests/rc4_test.c:8-14. -/
def rc4hex (s key : List Byte) : C (List Byte) := do
  let out ← Rc4.rc4 (List.replicate s.length 1) s s.length key
  pure (str (← Hex.raw2hex (List.replicate (2 * s.length + 1) 1) out))
/-- tests/rc4_test.c:61-71 ciphersaber_1_dec. -/
def ciphersaber1 (cmsg key : List Byte) : C (List Byte) :=
  Rc4.rc4 (List.replicate (cmsg.length - 10) 1) (cmsg.drop 10) (cmsg.length - 10) (key ++ cmsg.take 10)

example : rc4hex (bytes! "just for testXXXXXXXXXXX") (bytes! "just for test") = .ok (bytes! "d3c39861ec64855bce92f121713c8ce706f233cdb581b029") := by decide +kernel
example : (do ciphersaber1 (← unhex (bytes! "6f6d0babf3aa6719031530edb677ca74e0089dd0e7b8854356bb1448e37cdbefe7f3a84f4f5fb3fd")) (bytes! "asdfg") : C (List Byte)) = .ok (bytes! "This is a test of CipherSaber.") := by decide +kernel

/-! ### tests/normalizepath_test.c; the test only prints the results, given here -/
/-- tests/normalizepath_test.c:6-11. -/
def norm (s : List Byte) : C (Option (List Byte)) := do
  let (p, r) ← Filelib.normalizepath (fun _ => 1) (spl s)
  pure (if r ≠ 0 then some (str p.buf) else none)

example : norm (bytes! "/usr/bin/../local/bin/./gcc/../..") = .ok (some (bytes! "/usr/local")) := by decide +kernel
example : norm (bytes! "/usr/bin/..//.././/./usr/../..") = .ok none := by decide +kernel
example : norm (bytes! "/usr/bin/..//.././/./usr/../") = .ok (some (bytes! "/")) := by decide +kernel
example : norm (bytes! "/usr/bin/..//.././/.//../..") = .ok none := by decide +kernel
example : norm (bytes! "/usr/local//bin") = .ok (some (bytes! "/usr/local/bin")) := by decide +kernel
example : norm (bytes! "////usr/local//bin") = .ok (some (bytes! "/usr/local/bin")) := by decide +kernel
example : norm (bytes! "/./././usr/local//bin") = .ok (some (bytes! "/usr/local/bin")) := by decide +kernel
example : norm (bytes! "/./././usr/local//bin/../../") = .ok (some (bytes! "/usr")) := by decide +kernel
example : norm (bytes! "/./././usr/local//bin/../../..") = .ok (some (bytes! "/")) := by decide +kernel
example : norm (bytes! "/usr/.local//bin../.../foo") = .ok (some (bytes! "/usr/.local/bin../.../foo")) := by decide +kernel
example : norm (bytes! "/...../usr/.local//bin../.../foo/.") = .ok (some (bytes! "/...../usr/.local/bin../.../foo")) := by decide +kernel
example : norm (bytes! "/./...../usr/.local//bin../.../foo/.") = .ok (some (bytes! "/...../usr/.local/bin../.../foo")) := by decide +kernel

/-! ### tests/spformat_test.c -/
/-- tests/spformat_test.c:8-15. -/
def fmt (n : Nat) (f : List Byte) (args : List Format.Arg) : C (List Byte × Int) := do
  let (d, r) ← Format.ulz_vsnprintf (some (List.replicate 128 1)) n (s0 f) args (List.replicate 32 1)
  pure (str (d.getD []), r)
/-- `ulz_snprintf(NULL, 0, …)`. -/
def fmtlen (f : List Byte) (args : List Format.Arg) : C Int := do
  pure (← Format.ulz_vsnprintf none 0 (s0 f) args (List.replicate 32 1)).2

example : fmt 128 (bytes! "[%.4d] foo bar %s\n") [.int 13, .str (some (s0 (bytes! "baz")))] = .ok ((bytes! "[0013] foo bar baz\n"), 19) := by decide +kernel
example : fmtlen (bytes! "[%.4d] foo bar %s\n") [.int 13, .str (some (s0 (bytes! "baz")))] = .ok 19 := by decide +kernel
example : fmt 128 (bytes! "[%d] foo bar %s%%%zu,%lld\n") [.int 13, .str (some (s0 (bytes! "baz"))), .long (-1), .long (-1)] = .ok ((bytes! "[13] foo bar baz%18446744073709551615,-1\n"), 41) := by decide +kernel
example : (do pure (← fmt 128 (bytes! "[%d] foo bar %s%%%zu,%lld\n%") [.int 13, .str (some (s0 (bytes! "baz"))), .long (-1), .long (-1)]).2 : C Int) = .ok (-1) := by decide +kernel
example : fmt 4 (bytes! "%d") [.int 1337] = .ok ((bytes! "133"), 3) := by decide +kernel
example : fmtlen (bytes! "%d") [.int 1337] = .ok 4 := by decide +kernel
example : fmtlen (bytes! "%x") [.int 10] = .ok 1 := by decide +kernel
example : fmt 10 (bytes! "%x") [.int 10] = .ok ((bytes! "a"), 1) := by decide +kernel
example : fmtlen (bytes! "%X") [.int 10] = .ok 1 := by decide +kernel
example : fmt 10 (bytes! "%X") [.int 10] = .ok ((bytes! "A"), 1) := by decide +kernel
example : fmtlen (bytes! "%.2x") [.int 10] = .ok 2 := by decide +kernel
example : fmt 10 (bytes! "%.2x") [.int 10] = .ok ((bytes! "0a"), 2) := by decide +kernel
example : fmtlen (bytes! "%.2X") [.int 10] = .ok 2 := by decide +kernel
example : fmt 10 (bytes! "%.2X") [.int 10] = .ok ((bytes! "0A"), 2) := by decide +kernel

/-! ### tests/stringptr_replace_test.c -/
/-- tests/stringptr_replace_test.c: content and size of the result. -/
def repl (s what whit : List Byte) : C (Option (List Byte × Nat)) := do
  let (_, r) ← Stringptr.replace fresh (spl s) (spl what) (spl whit) 100
  pure (r.map fun p => (str p.buf, p.size))

example : repl (bytes! "ABAB") (bytes! "B") (bytes! "") = .ok (some ((bytes! "AA"), 2)) := by decide +kernel
example : repl (bytes! "ABAB") (bytes! "A") (bytes! "") = .ok (some ((bytes! "BB"), 2)) := by decide +kernel
example : repl (bytes! "ABB") (bytes! "A") (bytes! "") = .ok (some ((bytes! "BB"), 2)) := by decide +kernel
example : repl (bytes! "ABBA") (bytes! "A") (bytes! "") = .ok (some ((bytes! "BB"), 2)) := by decide +kernel
example : repl (bytes! "ABBA") (bytes! "BB") (bytes! "") = .ok (some ((bytes! "AA"), 2)) := by decide +kernel
example : repl (bytes! "ABBA") (bytes! "BB") (bytes! "CCCC") = .ok (some ((bytes! "ACCCCA"), 6)) := by decide +kernel
example : repl (bytes! "ABBA") (bytes! "BBB") (bytes! "CCCC") = .ok (some ((bytes! "ABBA"), 4)) := by decide +kernel
example : repl (bytes! "ABBA") (bytes! "A") (bytes! "CCCC") = .ok (some ((bytes! "CCCCBBCCCC"), 10)) := by decide +kernel

/-! ### tests/raw2hex_test.c -/
example : (do pure (str (← Hex.raw2hex (List.replicate 33 1) [0x01, 0x05, 0x0a])) : C (List Byte)) = .ok (bytes! "01050a") := by decide +kernel
example : (do pure (str (← Hex.raw2hex (List.replicate 33 1) [0xff, 0xde, 0xad, 0xc0, 0xde, 0x00, 0x01])) : C (List Byte)) = .ok (bytes! "ffdeadc0de0001") := by decide +kernel
example : (do pure (str (← Hex.raw2hex (List.replicate 33 1) [0x00, 0x11, 0x22, 0x33, 0x44, 0x55, 0x66, 0x77, 0x88, 0x99, 0xaa, 0xbb, 0xcc, 0xdd, 0xee, 0xff])) : C (List Byte)) = .ok (bytes! "00112233445566778899aabbccddeeff") := by decide +kernel

/-! ### tests/hashlist_test.c -/
/-- tests/hashlist_test.c: `mystruct`. -/
def my (h v : Nat) : List Byte := int h ++ int v
/-- The adds. -/
def adds (l : List (Nat × Nat)) : List Hashlist.Add := l.map fun (h, v) => ⟨BitVec.ofNat 32 h, my h v, true, fresh⟩
/-- What `n` calls of hashlist_next give. -/
def iter (l : List (Nat × Nat)) (n : Nat) : C (List (Option (List Byte))) := do
  let (h, _) ← Hashlist.run (Hashlist.new 16 8) (adds l)
  Hashlist.nexts h n Hashlist.iterInit

example : iter [(1, 1), (1, 2)] 3 = .ok [some (my 1 1), some (my 1 2), none] := by decide +kernel
example : iter [(1, 1), (1, 2), (15, 1), (15, 2), (15, 3)] 6 = .ok [some (my 1 1), some (my 1 2), some (my 15 1), some (my 15 2), some (my 15 3), none] := by decide +kernel

/-! ### tests/iniparser_test_nextsection.c with tests/test.ini -/
/-- tests/iniparser_test_nextsection.c:12-17: at most `n` rounds. -/
def sections (lines : List SP) : (n : Nat) → Iniparser.Sect → C (List (Option (List Byte)))
  | 0, _ => pure []
  | n + 1, sec => do
    let sec ← Iniparser.get_next_section lines (spl (bytes! "section")) sec
    if sec.linecount = 0 then pure []
    else do
      let v ← Iniparser.getvalue lines sec (spl (bytes! "value"))
      pure ((v.map fun p => str p.buf) :: (← sections lines n sec))
/-- tests/iniparser_test_nextsection.c:7-11. -/
def nextsection (ini : List Byte) : C (List (Option (List Byte))) := do
  let (buf, ps) ← Stringptr.splitc (spl ini) 10 (fun _ => true)
  sections (Inifile.entries buf ps) 20 ⟨0, 0⟩

/-- tests/test.ini. -/
def testIni : List Byte :=
  (bytes! "[section]\nvalue=test1\nfdf=fdkjlkdf\ndfkusoi=bnmbv\n\n[section]\nvalue=test2\nfdf=fdkjlkdf\ndfkusoi=bnmbv\n\n[section]\nvalue=test3\nfdf=fdkjlkdf\ndfkusoi=bnmbv\n\n[section]\nvalue=test4\nfdf=fdkjlkdf\ndfkusoi=bnmbv\n\n[section]\nvalue=test5\nfdf=fdkjlkdf\ndfkusoi=bnmbv\n\n[section]\nfdds=ssseje\nvalue=test6\nfdf=fdkjlkdf\ndfkusoi=bnmbv\n\n\n")
example : nextsection testIni = .ok [some (bytes! "test1"), some (bytes! "test2"), some (bytes! "test3"), some (bytes! "test4"), some (bytes! "test5"), some (bytes! "test6")] := by decide +kernel

/-! ### tests/sblist_delete_test.c, tests/sblist_insert_test.c -/
/-- The results of a sequence of calls on a new list. -/
def sb (itemsize blockitems : Nat) (ops : List Sblist.Op) : C (Nat × List (Option (List Byte))) := do
  let (l, _) ← Sblist.run (← Sblist.init itemsize blockitems) ops
  let r ← (List.range (l.count + 1)).mapM fun i => Sblist.content l (Sblist.get l i)
  pure (l.count, r)
/-- tests/sblist_delete_test.c:11-23. -/
def sixteen : List Sblist.Op :=
  [.delete 5, .delete 0, .delete (2 ^ 64 - 1)] ++ (List.range 16).map fun c => .add [BitVec.ofNat 8 c] fresh
/-- The content of a list of one-byte items. -/
def items (l : List Byte) : C (Nat × List (Option (List Byte))) := .ok (l.length, l.map (fun x => some [x]) ++ [none])

example : sb 1 16 [.delete 5, .delete 0, .delete (2 ^ 64 - 1)] = items [] := by decide +kernel
example : sb 1 16 (sixteen ++ [.delete (2 ^ 64 - 1)]) = items [0, 1, 2, 3, 4, 5, 6, 7, 8, 9, 10, 11, 12, 13, 14, 15] := by decide +kernel
example : sb 1 16 (sixteen ++ [.delete 5, .delete 8]) = items [0, 1, 2, 3, 4, 6, 7, 8, 10, 11, 12, 13, 14, 15] := by decide +kernel
example : sb 1 16 (sixteen ++ [.delete 5, .delete 8, .delete 13, .delete 0, .delete 12]) = items [1, 2, 3, 4, 6, 7, 8, 10, 11, 12, 13, 14] := by decide +kernel
/-- The content of a list of `int`. -/
def ints (l : List Nat) : C (Nat × List (Option (List Byte))) := .ok (l.length, l.map (fun x => some (int x)) ++ [none])
example : sb 4 4 [.add (int 0) fresh, .add (int 1) fresh, .add (int 2) fresh, .insert (int 3) 2 fresh] = ints [0, 1, 3, 2] := by decide +kernel
example : sb 4 1 ((List.range 4).map fun i => .insert (int i) i fresh) = ints [0, 1, 2, 3] := by decide +kernel
example : sb 4 1 ((List.range 4).map fun i => .insert (int i) 0 fresh) = ints [3, 2, 1, 0] := by decide +kernel

/-! ### tests/tglist_delete_test.c, tests/tglist_insert_test.c, tests/tgilist_insert_test.c -/
/-- The items after a sequence of calls on a new list. -/
def tg (isz : Nat) (ops : List Tglist.Op) : C (List (List Byte)) := do
  let (l, _) ← Tglist.run isz Tglist.init ops
  (List.range l.count).mapM fun i => Tglist.get isz l i
/-- The items after a sequence of calls on a new tgilist(int, unsigned short). -/
def tgi (ops : List Tglist.IOp) : C (List (List Byte)) := do
  let (l, _) ← Tglist.irun 2 4 Tglist.iinit ops
  (List.range l.index.count).mapM fun i => Tglist.iget 2 4 l i
/-- tests/tglist_delete_test.c:11-13. -/
def tsixteen : List Tglist.Op := (List.range 16).map fun c => .add [BitVec.ofNat 8 c] fresh

example : tg 1 (tsixteen ++ [.delete 5, .delete 8]) = .ok ([0, 1, 2, 3, 4, 6, 7, 8, 10, 11, 12, 13, 14, 15].map fun c => [c]) := by decide +kernel
example : tg 1 (tsixteen ++ [.delete 5, .delete 8, .delete 13, .delete 0]) = .ok ([1, 2, 3, 4, 6, 7, 8, 10, 11, 12, 13, 14].map fun c => [c]) := by decide +kernel
example : tg 4 [.add (int 0) fresh, .add (int 1) fresh, .add (int 2) fresh, .insert (int 3) 2 fresh] = .ok ([0, 1, 3, 2].map int) := by decide +kernel
example : tg 4 ((List.range 4).map fun i => .insert (int i) 0 fresh) = .ok ([3, 2, 1, 0].map int) := by decide +kernel
example : tgi [.add (int 0) fresh fresh, .add (int 1) fresh fresh, .add (int 2) fresh fresh, .insert (int 3) 2 fresh fresh] = .ok ([0, 1, 3, 2].map int) := by decide +kernel
example : tgi ((List.range 4).map fun i => .insert (int i) 0 fresh fresh) = .ok ([3, 2, 1, 0].map int) := by decide +kernel

/-! ### tests/numberToString_test.c; the test only prints the results, given here -/
/-- The returned string. -/
def nts (n : BitVec 64) (base maxlen flags : Nat) : C (Option (List Byte)) := do
  let (b, r) ← Numbers.numberToString n base (List.replicate 66 1) maxlen flags
  pure (r.map fun o => str (b.drop o))

example : nts (-1) 10 16 2 = .ok (some (bytes! "-0000000000000001")) := by decide +kernel
example : nts (-1) 10 0 2 = .ok (some (bytes! "-1")) := by decide +kernel
example : nts 0xffffffff 10 16 0 = .ok (some (bytes! "4294967295")) := by decide +kernel
example : nts (-1) 10 0 0 = .ok (some (bytes! "18446744073709551615")) := by decide +kernel
example : nts 0xff 16 20 5 = .ok (some (bytes! "000000000000000000ff")) := by decide +kernel
example : nts 0 2 0 2 = .ok (some (bytes! "0")) := by decide +kernel

end Ulz.Tests
