import Verif.Proofs.Extend
import Verif.Props.Md5
import Verif.Props.Sha512
/-! Digests can be continued without the data (C199). -/
namespace Ulz.Props
open Ulz

/-- C199: whoever has the MD5 digest of some data and its length, but not the data, can go on hashing: a context with the words of the
    digest and the padded length gives, for any further data, the digest of the data, its padding and the further data. -/
theorem md5_length_extension (s junk junk2 dst : List Byte) (more : List (List Byte)) (h1 : junk.length = 64) (h2 : junk2.length = 64)
    (hd : 16 ≤ dst.length) :
    (do Md5.md5_end (← Md5.updates
          ⟨junk, BitVec.ofNat 64 (s.length + (Md5.Spec.suffix s.length).length), Md5.Spec.regs (Md5.Spec.md5 s)⟩ more) junk2 dst) =
      .ok (put dst 0 (Md5.Spec.md5 (s ++ Md5.Spec.suffix s.length ++ more.flatten))) := by
  obtain ⟨cc, e, r⟩ := Md5.updates_spec more (Md5.forged_rep s h1)
  rw [Md5.pad_suffix, List.length_append] at e
  rw [e]
  simp only [ok_bindE]
  rw [Md5.pad_suffix] at r
  exact Md5.end_spec r h2 hd

/-- C199: so a digest of a secret followed by a message is no proof that somebody knows the secret: from the digest that the code computes
    for the one message, the one for the longer message follows. Both are what the code stores, whatever the two contexts held. -/
theorem md5_secret_prefix (secret msg more j1 j2 j3 j4 d1 d2 : List Byte) (h1 : j1.length = 64) (h2 : j2.length = 64)
    (h3 : j3.length = 64) (h4 : j4.length = 64) (hd1 : d1.length = 16) (hd2 : d2.length = 16) :
    let pad := Md5.Spec.suffix (secret.length + msg.length)
    ∃ digest, (do Md5.md5_end (← Md5.updates (Md5.md5_init j1) [secret, msg]) j2 d1) = .ok digest ∧
      (do Md5.md5_end (← Md5.updates
          ⟨j3, BitVec.ofNat 64 (secret.length + msg.length + pad.length), Md5.Spec.regs digest⟩ [more]) j4 d2) =
        (do Md5.md5_end (← Md5.updates (Md5.md5_init j1) [secret, msg ++ pad ++ more]) j2 d1) := by
  intro pad
  have hp : ∀ (d x : List Byte), d.length = 16 → x.length = 16 → put d 0 x = x := by
    intro d x hd hx
    unfold put
    rw [hx, List.drop_eq_nil_of_le (by omega)]
    simp
  have e1 := md5_correct j1 j2 d1 [secret, msg] h1 h2 (by omega)
  have e2 := md5_correct j1 j2 d1 [secret, msg ++ pad ++ more] h1 h2 (by omega)
  have e3 := md5_length_extension (secret ++ msg) j3 j4 d2 [more] h3 h4 (by omega)
  rw [hp _ _ hd1 (md5_digest_size _)] at e1 e2
  rw [hp _ _ hd2 (md5_digest_size _), List.length_append] at e3
  have f1 : [secret, msg].flatten = secret ++ msg := by simp
  have f2 : [secret, msg ++ pad ++ more].flatten = secret ++ msg ++ pad ++ [more].flatten := by simp
  rw [f1] at e1
  refine ⟨_, e1, ?_⟩
  rw [e2, f2]
  exact e3

/-- C199: the same for SHA-512, for data shorter than 2^64 bytes altogether. -/
theorem sha512_length_extension (s : List Byte) (chunks : List (List Byte)) (last : List Byte) (h : ∀ c ∈ chunks, c.length % 128 = 0)
    (hlen : (s ++ Sha512.Spec.suffix s.length ++ chunks.flatten ++ last).length < 2^64) :
    (do let c ← Sha512.updates ⟨Sha512.Spec.sha512 s, List.replicate 256 0,
            BitVec.ofNat 64 (s.length + (Sha512.Spec.suffix s.length).length)⟩ (chunks ++ [last])
        let c ← Sha512.sha512_end c
        pure c.h) = .ok (Sha512.Spec.sha512 (s ++ Sha512.Spec.suffix s.length ++ chunks.flatten ++ last)) := by
  have r0 := Sha512.forged_rep s
  rw [Sha512.pad_suffix, List.length_append] at r0
  obtain ⟨c1, e1, r1⟩ := Sha512.updates_spec chunks r0 h
  obtain ⟨c2, e2, r2⟩ := Sha512.update_spec r1 last
  have happ : s ++ Sha512.Spec.suffix s.length ++ chunks.flatten ++ last =
      s ++ Sha512.Spec.suffix s.length ++ chunks.flatten ++ last.take (128 * (last.length / 128)) ++ last.drop (128 * (last.length / 128)) := by
    simp only [List.append_assoc, List.take_append_drop]
  rw [happ] at hlen ⊢
  obtain ⟨c3, e3, r3⟩ := Sha512.end_spec r2 hlen
  rw [Sha512.updates_append, e1]
  simp only [ok_bindE, Sha512.updates]
  rw [e2]
  simp only [ok_bindE, pure_eq_ok]
  rw [e3]
  simp only [ok_bindE]
  rw [r3]

/-- C199: for both, equal digests of two messages of one length stay equal when the same data is appended behind the padding: a collision,
    once found, gives as many as one likes. -/
theorem digest_collisions_extend (a b more : List Byte) (hl : a.length = b.length) :
    (Md5.Spec.md5 a = Md5.Spec.md5 b →
      Md5.Spec.md5 (a ++ Md5.Spec.suffix a.length ++ more) = Md5.Spec.md5 (b ++ Md5.Spec.suffix b.length ++ more)) ∧
    (Sha512.Spec.sha512 a = Sha512.Spec.sha512 b → (a ++ Sha512.Spec.suffix a.length ++ more).length < 2^64 →
      Sha512.Spec.sha512 (a ++ Sha512.Spec.suffix a.length ++ more) = Sha512.Spec.sha512 (b ++ Sha512.Spec.suffix b.length ++ more)) := by
  constructor
  · intro e
    have j : (List.replicate 64 (0 : Byte)).length = 64 := List.length_replicate
    have d : (List.replicate 16 (0 : Byte)).length = 16 := List.length_replicate
    have ea := md5_length_extension a (List.replicate 64 0) (List.replicate 64 0) (List.replicate 16 0) [more] j j (by omega)
    have eb := md5_length_extension b (List.replicate 64 0) (List.replicate 64 0) (List.replicate 16 0) [more] j j (by omega)
    rw [← hl, ← e, ea] at eb
    have eb := Except.ok.inj eb
    have hp : ∀ x : List Byte, x.length = 16 → put (List.replicate 16 (0 : Byte)) 0 x = x := by
      intro x hx
      unfold put
      rw [hx, List.drop_eq_nil_of_le (by omega)]
      simp
    rw [hp _ (md5_digest_size _), hp _ (md5_digest_size _)] at eb
    have f : [more].flatten = more := by simp
    rw [f] at eb
    rw [← hl]
    exact eb
  · intro e hlen
    have ea := sha512_length_extension a [] more (by simp) (by simpa using hlen)
    have eb := sha512_length_extension b [] more (by simp) (by rw [← hl]; simpa [hl] using hlen)
    rw [← hl, ← e, ea] at eb
    have eb := Except.ok.inj eb
    have f : ([] : List (List Byte)).flatten = [] := rfl
    rw [f, List.append_nil, List.append_nil] at eb
    rw [← hl]
    exact eb

/-- The digest of "key" and "msg", continued with "!" from the digest alone. -/
example : (do
      let d ← Md5.md5_end (← Md5.updates (Md5.md5_init (List.replicate 64 7)) [bytes! "key", bytes! "msg"]) (List.replicate 64 7) (List.replicate 16 7)
      Md5.md5_end (← Md5.updates ⟨List.replicate 64 1, 64, Md5.Spec.regs d⟩ [bytes! "!"]) (List.replicate 64 2) (List.replicate 16 3)) =
    Except.ok (Md5.Spec.md5 (bytes! "keymsg" ++ 0x80 :: List.replicate 49 0 ++ [48, 0, 0, 0, 0, 0, 0, 0] ++ bytes! "!")) := by
  decide +kernel
example : Md5.Spec.suffix 6 = 0x80 :: List.replicate 49 0 ++ [48, 0, 0, 0, 0, 0, 0, 0] := by decide +kernel
example := md5_secret_prefix (bytes! "key") (bytes! "msg") (bytes! "!") (List.replicate 64 7) (List.replicate 64 7) (List.replicate 64 7)
  (List.replicate 64 7) (List.replicate 16 7) (List.replicate 16 7) (by decide) (by decide) (by decide) (by decide) (by decide) (by decide)
example := sha512_length_extension (bytes! "key") [List.replicate 128 1] (bytes! "!") (by simp) (by decide +kernel)

end Ulz.Props
