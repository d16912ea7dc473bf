import Verif.Proofs.Md5
import Verif.Props.Hex
/-! Properties of MD5 (C22, C23). -/
namespace Ulz.Props
open Ulz.Md5 Ulz.Md5.Spec

/-- C22: whatever the uninitialised buffers hold, any sequence of updates followed by md5_end stores the
    RFC 1321 digest of the concatenated data in the first 16 bytes of the destination. -/
theorem md5_correct (junk junk2 dst : List Byte) (chunks : List (List Byte)) (h1 : junk.length = 64)
    (h2 : junk2.length = 64) (hd : 16 ≤ dst.length) :
    (do md5_end (← updates (md5_init junk) chunks) junk2 dst) = .ok (put dst 0 (md5 chunks.flatten)) := by
  obtain ⟨cc, e, r⟩ := updates_spec chunks (init_rep h1)
  rw [e]
  simp only [ok_bindE]
  simpa using end_spec r h2 hd

/-- C22: md5_end does not change the context (it is declared `const`), so one can take a digest after
    each update: the digest after the first `n` updates is that of the data fed so far. -/
theorem md5_running_digest (junk junk2 dst : List Byte) (chunks more : List (List Byte)) (h1 : junk.length = 64)
    (h2 : junk2.length = 64) (hd : 16 ≤ dst.length) :
    (do let cc ← updates (md5_init junk) chunks
        let d1 ← md5_end cc junk2 dst
        let d2 ← md5_end (← updates cc more) junk2 dst
        pure (d1, d2)) = .ok (put dst 0 (md5 chunks.flatten), put dst 0 (md5 (chunks.flatten ++ more.flatten))) := by
  obtain ⟨cc, e, r⟩ := updates_spec chunks (init_rep h1)
  obtain ⟨cc', e', r'⟩ := updates_spec more r
  rw [e]
  simp only [ok_bindE]
  rw [end_spec r h2 hd]
  simp only [ok_bindE]
  rw [e']
  simp only [ok_bindE]
  rw [end_spec r' h2 hd]
  simp only [ok_bindE, pure_eq_ok, List.nil_append]

/-- C22: a destination of less than 16 bytes is overrun. -/
theorem md5_needs_16 (junk junk2 dst : List Byte) (chunks : List (List Byte)) (h1 : junk.length = 64)
    (h2 : junk2.length = 64) (hd : dst.length < 16) :
    (do md5_end (← updates (md5_init junk) chunks) junk2 dst) = .error .oobWrite := by
  obtain ⟨cc, e, r⟩ := updates_spec chunks (init_rep h1)
  rw [e]
  simp only [ok_bindE]
  exact end_short r h2 hd

theorem md5_digest_size (m : List Byte) : (md5 m).length = 16 := rfl

/-- Two examples of RFC 1321, A.5. -/
example : md5 (bytes! "abc") = [0x90, 0x01, 0x50, 0x98, 0x3c, 0xd2, 0x4f, 0xb0, 0xd6, 0x96, 0x3f, 0x7d, 0x28, 0xe1, 0x7f, 0x72] := by
  decide +kernel
example : md5 [] = [0xd4, 0x1d, 0x8c, 0xd9, 0x8f, 0x00, 0xb2, 0x04, 0xe9, 0x80, 0x09, 0x98, 0xec, 0xf8, 0x42, 0x7e] := by
  decide +kernel
example : (do
      let cc ← updates (md5_init (List.replicate 64 7)) [bytes! "a", bytes! "bc"]
      md5_end cc (List.replicate 64 9) (List.replicate 17 1)) =
    .ok [0x90, 0x01, 0x50, 0x98, 0x3c, 0xd2, 0x4f, 0xb0, 0xd6, 0x96, 0x3f, 0x7d, 0x28, 0xe1, 0x7f, 0x72, 1] := by
  decide +kernel

/-- C23: md5str writes the 32 hexadecimal digits of the digest and a terminator. -/
theorem md5str_correct (j1 j2 j3 dst src : List Byte) (h1 : j1.length = 64) (h2 : j2.length = 64) (h3 : j3.length = 16)
    (hd : 33 ≤ dst.length) :
    md5str j1 j2 j3 dst src = .ok (put dst 0 (Hex.Spec.text (md5 src) ++ [0])) ∧ (Hex.Spec.text (md5 src)).length = 32 := by
  obtain ⟨cc, e, r⟩ := update_spec (init_rep h1) src
  have hx := raw2hex_correct dst (md5 src) (by rw [md5_digest_size]; omega)
  refine ⟨?_, by rw [hx.2, md5_digest_size]⟩
  unfold md5str
  rw [e]
  simp only [ok_bindE]
  rw [end_spec r h2 (by omega)]
  simp only [ok_bindE, List.nil_append]
  have : put j3 0 (md5 src) = md5 src := by
    unfold put
    rw [md5_digest_size, List.drop_eq_nil_of_le (by omega)]
    simp
  rw [this]
  exact hx.1

/-- A shorter destination is overrun. -/
theorem md5str_needs_33 (j1 j2 j3 dst src : List Byte) (h1 : j1.length = 64) (h2 : j2.length = 64) (h3 : j3.length = 16)
    (hd : dst.length < 33) : md5str j1 j2 j3 dst src = .error .oobWrite := by
  obtain ⟨cc, e, r⟩ := update_spec (init_rep h1) src
  unfold md5str
  rw [e]
  simp only [ok_bindE]
  rw [end_spec r h2 (by omega)]
  simp only [ok_bindE, List.nil_append]
  have : put j3 0 (md5 src) = md5 src := by
    unfold put
    rw [md5_digest_size, List.drop_eq_nil_of_le (by omega)]
    simp
  rw [this]
  exact raw2hex_needs_room dst _ (by rw [md5_digest_size]; omega)

example : md5str (List.replicate 64 7) (List.replicate 64 7) (List.replicate 16 7) (List.replicate 34 7) (bytes! "abc") =
    .ok (bytes! "900150983cd24fb0d6963f7d28e17f72" ++ [0, 7]) := by decide +kernel

end Ulz.Props
