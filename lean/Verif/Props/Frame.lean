import Verif.Proofs.Frame
import Verif.Proofs.Linecat
import Verif.Props.Base64
import Verif.Props.Fileparser
import Verif.Props.Filelib
import Verif.Props.Psp
/-! Functions that are given a buffer and the size they may use: the bytes behind that size. -/
namespace Ulz.Props
open Base64 Base64.Spec

/-- C187: `base64dec` with a size smaller than the object it writes to: the result, the returned value and the bytes up to the size
    are those of an object of exactly that size; the bytes behind it stay as they were. For every text, valid or not. -/
theorem base64dec_frame (s junk dst rest : List Byte) (h0 : 0 ∉ s) (hs : s.length < 2^31) :
    ∃ d n, base64dec dst (s ++ 0 :: junk) dst.length = .ok (d, n) ∧ d.length = dst.length ∧
      base64dec (dst ++ rest) (s ++ 0 :: junk) dst.length = .ok (d ++ rest, n) := by
  obtain ⟨d, n, h1, h2, _⟩ := base64dec_safe_and_exact s junk dst h0 hs
  exact ⟨d, n, h1, h2, Frame.base64dec_more rest h1⟩

example : base64dec ([7, 7, 7, 7] ++ [8, 9]) (bytes! "TWE=" ++ [0]) 4 = .ok (bytes! "Ma" ++ [0, 0, 8, 9], 2) := by decide

/-- C187: the counter of characters is an `int`. A destination of 3 * (2^29 - 1) bytes or more and a text that starts with 2^31 symbols
    of the alphabet are signed overflow. -/
theorem base64dec_too_long (v : List Nat) (hv : ∀ x ∈ v, x < 64) (hl : v.length = 2^31) (rest dst : List Byte)
    (hd : 3 * (2^29 - 1) ≤ dst.length) : base64dec dst (v.map sym ++ rest) dst.length = .error .overflow := by
  unfold base64dec
  rw [if_pos (by omega)]
  refine Frame.dec_long hd _ _ rfl (by simp) (by simp) (by simp) (by simp [hl]) ?_
  simp only
  rw [List.take_append_of_le_length (by simp [hl]), List.take_of_length_le (by simp [hl])]
  intro c hc
  obtain ⟨x, hx, rfl⟩ := List.mem_map.1 hc
  rw [chrpos_sym (hv x hx)]; rfl

example : ∃ v : List Nat, (∀ x ∈ v, x < 64) ∧ v.length = 2^31 := ⟨List.replicate (2^31) 5, fun x hx => by
  rw [(List.mem_replicate.1 hx).2]; decide, List.length_replicate ..⟩

/-- C187: with any smaller destination every text, however long, is safe; one of 2^31 characters or more is refused. -/
theorem base64dec_long_refused (s junk dst : List Byte) (h0 : 0 ∉ s) (hs : 2^31 ≤ s.length) (hd : dst.length < 3 * (2^29 - 1)) :
    ∃ d, base64dec dst (s ++ 0 :: junk) dst.length = .ok (d, 0) ∧ d.length = dst.length := by
  unfold base64dec
  by_cases hz : dst.length = 0
  · rw [if_neg (by simp [hz])]
    exact ⟨dst, rfl, rfl⟩
  · rw [if_pos hz]
    obtain ⟨d, n, e1, e2, e3⟩ := Frame.dec_small hd junk s { dst := dst, l := dst.length } h0 (by simp) (by simp)
    have : n = 0 := Decidable.byContradiction fun h => by
      have := e3 h
      simp only [Nat.zero_add] at this
      omega
    subst this
    exact ⟨d, e1, e2⟩

example : ∃ s : List Byte, 0 ∉ s ∧ 2^31 ≤ s.length := ⟨List.replicate (2^31) 65, fun h => by
  have := (List.mem_replicate.1 h).2; revert this; decide, by rw [List.length_replicate]; omega⟩

/-- C187: `base64enc_str` likewise. -/
theorem base64enc_str_frame (s junk dst rest : List Byte) (h0 : 0 ∉ s) :
    ∃ out r, base64enc_str dst (s ++ 0 :: junk) dst.length = .ok (out, r) ∧ out.length = dst.length ∧
      base64enc_str (dst ++ rest) (s ++ 0 :: junk) dst.length = .ok (out ++ rest, r) := by
  obtain ⟨out, r, h1, h2, _⟩ := base64enc_str_correct s junk dst h0
  exact ⟨out, r, h1, h2, Frame.encStr_more rest _ _ (Nat.le_refl _) _ _ _ _ h1⟩

example : base64enc_str (List.replicate 5 9 ++ [8, 7]) (bytes! "Ma" ++ [0]) 5 = .ok (bytes! "TWE=" ++ [0, 8, 7], 1) := by
  simp [base64enc_str, encStrLoop]; decide

open Fileparser in
/-- C187: `fileparser_readline_userbuf` likewise; a size of 0 is reported as the end of the file. -/
theorem readline_userbuf_frame (f : Fd) (p : FP) (buf rest : List Byte) (hsync : p.fpos = f.off) :
    ∃ f' p' buf' r, readline_userbuf f p buf buf.length = .ok (f', p', buf', r) ∧ buf'.length = buf.length ∧
      readline_userbuf f p (buf ++ rest) buf.length = .ok (f', p', buf' ++ rest, r) ∧
      (p.file ≠ 0 → buf.length = 0 → r = -2 ∧ f' = f) := by
  suffices h : ∃ f' p' buf' r, readline_userbuf f p buf buf.length = .ok (f', p', buf', r) ∧ buf'.length = buf.length ∧
      (p.file ≠ 0 → buf.length = 0 → r = -2 ∧ f' = f) by
    obtain ⟨f', p', buf', r, h1, h2, h3⟩ := h
    exact ⟨f', p', buf', r, h1, h2, Frame.readline_more rest h1, h3⟩
  by_cases hf : p.file = 0
  · exact ⟨_, _, _, _, readline_fd0 f p buf _ hf, rfl, fun h => absurd hf h⟩
  by_cases hz : buf.length = 0
  · obtain rfl := List.length_eq_zero_iff.1 hz
    refine ⟨f, p, [], -2, ?_, rfl, fun _ _ => ⟨rfl, rfl⟩⟩
    unfold readline_userbuf
    rw [if_neg hf]
    simp [Fileparser.read, wrN, put]
  obtain ⟨a1, a2, a3⟩ := readline_userbuf_correct f p buf hf hsync (by omega)
  by_cases hd : f.data.drop f.off = []
  · exact ⟨_, _, _, _, a1 hd, rfl, fun _ h => absurd h hz⟩
  by_cases hm : ch '\n' ∈ f.data.drop f.off
  · obtain ⟨l, m, e1, e2⟩ := Linecat.split_lf hm
    obtain ⟨f', p', buf', r, k1, _, _, k2, _⟩ := a2 l m e1 e2
    exact ⟨f', p', buf', r, k1, k2, fun _ h => absurd h hz⟩
  · obtain ⟨f', p', buf', r, k1, _, _, k2, _⟩ := a3 _ rfl hm hd
    exact ⟨f', p', buf', r, k1, k2, fun _ h => absurd h hz⟩

open Filelib.Spec in
/-- C187: `normalizepath_cstr` uses `strlen(path) + 1` bytes of the output, the bytes behind them stay as they were - whether it succeeds
    or not. -/
theorem normalizepath_cstr_frame (s junk out rest : List Byte) (h0 : (0 : Byte) ∉ s) (hs : out.length = s.length + 1) :
    ∃ out', Filelib.normalizepath_cstr (s ++ 0 :: junk) (out ++ rest) = .ok (out' ++ rest, (normalize s).isSome) ∧ out'.length = out.length ∧
      ∀ x, normalize s = some x → x ++ [0] <+: out' := by
  obtain ⟨out', h1, h2, h3⟩ := normalizepath_cstr_correct s junk out h0 (by omega)
  exact ⟨out', Frame.cstr_more rest h1, h2, h3⟩

example : Filelib.normalizepath_cstr (bytes! "/a/../..x" ++ [0]) (List.replicate 10 7 ++ [5]) =
    .ok (bytes! "/..x" ++ [0] ++ List.replicate 5 7 ++ [5], true) := by decide +kernel

/-- C187: a refused path leaves parts of it in the output. -/
theorem normalizepath_cstr_fail_writes : ∃ s out : List Byte, (0 : Byte) ∉ s ∧ out.length = s.length + 1 ∧
    Filelib.normalizepath_cstr (s ++ [0]) out = .ok (bytes! "/b/" ++ List.replicate 8 7, false) :=
  ⟨bytes! "/b/../../c", List.replicate 11 7, by decide, by decide, by decide +kernel⟩

open Filelib.Spec Psp.Spec in
/-- C187: so it is for the version with drives, for every text at all. -/
theorem psp_normalize_frame (s junk out rest : List Byte) (h0 : (0 : Byte) ∉ s) (hs : out.length = s.length + 1) :
    ∃ out' r, Psp.normalizepath_cstr (s ++ 0 :: junk) out = .ok (out', r) ∧ out'.length = out.length ∧
      Psp.normalizepath_cstr (s ++ 0 :: junk) (out ++ rest) = .ok (out' ++ rest, r) := by
  suffices h : ∃ out' r, Psp.normalizepath_cstr (s ++ 0 :: junk) out = .ok (out', r) ∧ out'.length = out.length by
    obtain ⟨out', r, h1, h2⟩ := h
    exact ⟨out', r, h1, h2, Frame.psp_more rest h1⟩
  by_cases hb : ∃ d r : List Byte, s = d ++ r ∧ Drive d ∧ r[0]? = some (ch '/')
  · obtain ⟨d, r, rfl, h1, h2⟩ := hb
    obtain ⟨o, k1, k2, _⟩ := psp_normalize_correct d r junk out h1 h0 h2 (by omega)
    exact ⟨o, _, k1, k2⟩
  · obtain ⟨o, k1, k2⟩ := psp_normalize_refuses s junk out h0 (by omega) hb
    exact ⟨o, _, k1, k2⟩

example : Psp.normalizepath_cstr (bytes! "ms0/a:/" ++ [0]) (List.replicate 8 7 ++ [5]) =
    .ok (bytes! "ms0/" ++ [7, 7, 7, 7, 5], false) := by decide +kernel

end Ulz.Props
