import Verif.Spec.Carry
import Verif.Props.Base64
import Verif.Props.Inifile
import Verif.Props.Logread
/-! C231: data of any bytes in a text file, as base64 text. -/
namespace Ulz.Props
open Ulz.Carry.Spec Ulz.Base64.Spec Ulz.Stringptr Ulz.Stringptr.Spec

theorem carry_gives (d junk : List Byte) (h : Small d) : Gives (encode d ++ 0 :: junk) d := by
  intro dst hd
  have hl := Base64.encode_length d
  have he : BASE64ENC_BYTES d.length = 4 * ((d.length + 2) / 3) := by
    rw [← hl]; exact ((base64enc_correct (List.replicate (BASE64ENC_BUFSIZE d.length) 0) d (by simp)).2).symm
  obtain ⟨e, out, h1, -, h3, -, h5⟩ := base64_roundtrip d ((encode d ++ [0]) ++ junk) dst (by
      have : BASE64ENC_BUFSIZE d.length = 1 + BASE64ENC_BYTES d.length := rfl
      rw [this, he]; simp; omega) (by
      rw [he]; simp only [BASE64DEC_BUFSIZE, BASE64DEC_BYTES]; omega) (by rw [he]; exact h)
  have h2 := (base64enc_correct ((encode d ++ [0]) ++ junk) d (by
      have : BASE64ENC_BUFSIZE d.length = 1 + BASE64ENC_BYTES d.length := rfl
      rw [this, he]; simp; omega)).1
  rw [h1] at h2
  have : e = encode d ++ 0 :: junk := by
    injection h2 with h2
    rw [h2]
    simp [put]
  rw [this] at h3
  exact ⟨out, h3, h5⟩

theorem encode_letters : ∀ d : List Byte, ∀ c ∈ encode d, c ∈ letters := by
  have key : ∀ i < 64, sym i ∈ letters := by decide +kernel
  have he : (61 : Byte) ∈ letters := by decide
  have b (x : Byte) := x.isLt
  intro d
  induction d using encode.induct with
  | case1 => intro c h; cases h
  | case2 a =>
    intro c h
    simp only [encode, List.mem_cons, List.not_mem_nil, or_false] at h
    rcases h with rfl | rfl | rfl | rfl
    · exact key _ (by have := b a; omega)
    · exact key _ (by omega)
    all_goals exact he
  | case3 a a' =>
    intro c h
    simp only [encode, List.mem_cons, List.not_mem_nil, or_false] at h
    rcases h with rfl | rfl | rfl | rfl
    · exact key _ (by have := b a; omega)
    · exact key _ (by have := b a'; omega)
    · exact key _ (by omega)
    · exact he
  | case4 a a' a'' r ih =>
    intro c h
    simp only [encode, List.mem_cons] at h
    rcases h with rfl | rfl | rfl | rfl | h
    · exact key _ (by have := b a; omega)
    · exact key _ (by have := b a'; omega)
    · exact key _ (by have := b a''; omega)
    · exact key _ (by omega)
    · exact ih c h

/-- C231: the characters that occur in the text of some data are exactly the letters of the alphabet and the padding. -/
theorem carry_letters (c : Byte) : (∃ d, Small d ∧ c ∈ encode d) ↔ c ∈ letters := by
  constructor
  · rintro ⟨d, -, h⟩
    exact encode_letters d c h
  · intro h
    have key : ∀ c ∈ letters, ∃ i : Fin 64, c ∈ encode [BitVec.ofNat 8 (i.val * 4)] := by decide +kernel
    obtain ⟨i, hi⟩ := key c h
    exact ⟨_, by simp [Small], hi⟩

example : Small (bytes! "x") ∧ ch '=' ∈ encode (bytes! "x") := ⟨by simp [Small], by decide⟩

theorem slices_gives {buf : List Byte} {res : List Piece} : ∀ {ds : List (List Byte)}, Slices buf res (ds.map encode) → (∀ d ∈ ds, Small d) →
    
      res.length = ds.length ∧ ∀ (i : Nat) p d, res[i]? = some p → ds[i]? = some d → Gives (buf.drop p.1) d := by
  intro ds
  induction ds generalizing res with
  | nil => intro h _; cases h; exact ⟨rfl, by simp⟩
  | cons d ds ih =>
    intro h hs
    cases h with
    | cons h1 h2 h3 =>
      rename_i p ps
      obtain ⟨i1, i2⟩ := ih h3 fun x hx => hs x (by simp [hx])
      refine ⟨by simp [i1], ?_⟩
      intro i q d' hq hd'
      cases i with
      | succ i => exact i2 i q d' (by simpa using hq) (by simpa using hd')
      | zero =>
      obtain rfl : p = q := by simpa using hq
      obtain rfl : d = d' := by simpa using hd'
      have : buf.drop p.1 = encode d ++ 0 :: (buf.drop p.1).drop (p.2 + 1) := by
        refine (List.take_append_drop (p.2 + 1) (buf.drop p.1)).symm.trans ?_
        rw [h2]
        simp
      rw [this]
      exact carry_gives d _ (hs d (by simp))

theorem count_join (sep : Byte) : ∀ cs : List (List Byte), cs ≠ [] → (join [sep] cs).count sep + 1 = cs.length + cs.flatten.count sep := by
  intro cs
  induction cs with
  | nil => intro h; exact absurd rfl h
  | cons c cs ih =>
    intro _
    cases cs with
    | nil => simp [join]; omega
    | cons c' cs =>
      have := ih (by simp)
      rw [show join [sep] (c :: c' :: cs) = c ++ [sep] ++ join [sep] (c' :: cs) from rfl, List.flatten_cons]
      simp only [List.count_append, List.count_singleton_self, List.length_cons] at *
      omega

/-- C231: data written as base64 text with a separator between them, and split again: every piece, as it is (the pointer in the list),
    decodes to its data, if the separator is none of the letters. -/
theorem carry_fields (sep : Byte) (hsep : sep ∉ letters) (ds : List (List Byte)) (hne : ds ≠ []) (hs : ∀ d ∈ ds, Small d) :
    ∃ buf res, Logread.split (join [sep] (ds.map encode)) sep = .ok (buf, res) ∧ 
      res.length = ds.length ∧ ∀ (i : Nat) p d, res[i]? = some p → ds[i]? = some d → Gives (buf.drop p.1) d := by
  obtain ⟨buf, res, h1, h2, -⟩ := logread_split (join [sep] (ds.map encode)) sep (ds.map encode) (by simpa using hne) rfl
  refine ⟨buf, res, h1, slices_gives (h2.2 ?_) hs⟩
  intro c hc
  obtain ⟨d, -, rfl⟩ := List.mem_map.1 hc
  exact fun h => hsep (encode_letters d _ h)

example : ch '\n' ∉ letters ∧ ch '\t' ∉ letters ∧ ch ',' ∉ letters ∧ ch ':' ∉ letters ∧ ch '/' ∈ letters ∧ ch '=' ∈ letters := by decide

/-- C231: with any separator, the number of pieces is that of the data exactly if the separator occurs in none of the texts; every
    occurrence makes one more piece. -/
theorem carry_fields_count (sep : Byte) (ds : List (List Byte)) (hne : ds ≠ []) :
    ∃ buf res, Logread.split (join [sep] (ds.map encode)) sep = .ok (buf, res) ∧ res.length = ds.length + (ds.map encode).flatten.count sep ∧
      (res.length = ds.length ↔ ∀ d ∈ ds, sep ∉ encode d) := by
  obtain ⟨buf, res, h1, -, h3⟩ := logread_split (join [sep] (ds.map encode)) sep (ds.map encode) (by simpa using hne) rfl
  have h4 : res.length = ds.length + (ds.map encode).flatten.count sep := by
    rw [h3, count_join sep _ (by simpa using hne), List.length_map]
  refine ⟨buf, res, h1, h4, ?_⟩
  have : (ds.map encode).flatten.count sep = 0 ↔ ∀ d ∈ ds, sep ∉ encode d := by
    rw [List.count_eq_zero]
    simp
  rw [← this, h4]
  omega

/-- The path separator: a list of data with `/` between them cannot be split again. -/
example : ∃ buf res, Logread.split (join [ch '/'] ([bytes! "???"].map encode)) (ch '/') = .ok (buf, res) ∧ res.length = 2 := by
  obtain ⟨buf, res, h1, h2, -⟩ := carry_fields_count (ch '/') [bytes! "???"] (by simp)
  exact ⟨buf, res, h1, by rw [h2]; decide⟩

open Ulz.Inifile Ulz.Inifile.Spec in
/-- C231: an INI file with base64 values gives back every data, decoded from the pointer that the lookup returned; only names and
    keys have to be free of special characters. -/
theorem carry_ini (ini : Ini) (hname : ∀ s ∈ ini, ch ']' ∉ s.1 ∧ ch '\n' ∉ s.1)
    (hkeys : ∀ s ∈ ini, ∀ e ∈ s.2, ch '=' ∉ e.1 ∧ ch '\n' ∉ e.1 ∧ e.1.head? ≠ some (ch '[')) (hsmall : ∀ s ∈ ini, ∀ e ∈ s.2, Small e.2)
    (junk : List Byte) (x : Byte) (ht : (text (encoded ini)).length + 1 < 2^64) (sec key : SP) (s k : List Byte) (hsec : Holds sec s)
    (hs : s.length + 2 < 2^64) (hkey : Holds key k) (hk : ch '=' ∉ k) :
    ∃ r, lookup ⟨text (encoded ini) ++ x :: junk, (text (encoded ini)).length⟩ (fun _ => true) sec key = .ok r ∧
      match value ini s k, r with
      | none, none => True
      | some d, some r => Gives r.buf d
      | _, _ => False := by
  have hc : Clean (encoded ini) := by
    refine ⟨?_, ?_, ?_⟩
    · intro a ha
      obtain ⟨b, hb, rfl⟩ := List.mem_map.1 ha
      exact hname b hb
    · intro a ha e he
      obtain ⟨b, hb, rfl⟩ := List.mem_map.1 ha
      obtain ⟨f, hf, rfl⟩ := List.mem_map.1 he
      exact hkeys b hb f hf
    · intro a ha e he
      obtain ⟨b, hb, rfl⟩ := List.mem_map.1 ha
      obtain ⟨f, hf, rfl⟩ := List.mem_map.1 he
      exact fun h => absurd (encode_letters _ _ h) (by decide)
  obtain ⟨r, h1, h2⟩ := ini_lookup (encoded ini) hc junk x ht sec key s k hsec hs hkey hk
  refine ⟨r, h1, ?_⟩
  have hv : value (encoded ini) s k = (value ini s k).map encode := by
    have e1 : (encoded ini).find? (fun a => a.1 = s) = (ini.find? fun a => a.1 = s).map fun a => (a.1, a.2.map fun e => (e.1, encode e.2)) := by
      unfold encoded
      rw [List.find?_map]
      rfl
    unfold value
    rw [e1]
    cases ini.find? fun a => a.1 = s with
    | none => rfl
    | some a =>
      simp only [Option.map_some]
      rw [List.find?_map]
      simp only [Option.map_map]
      rfl
  rw [hv] at h2
  cases hval : value ini s k with
  | none =>
    rw [hval] at h2
    cases r with
    | none => trivial
    | some r => exact h2
  | some d =>
    rw [hval] at h2
    cases r with
    | none => exact h2
    | some r =>
      obtain ⟨h3, t, h4⟩ := h2
      have hd : Small d := by
        unfold value at hval
        split at hval
        · cases hval
        · rename_i a ha
          have hm := List.mem_of_find?_eq_some ha
          cases hf : a.2.find? (fun e => e.1 = k) with
          | none => rw [hf] at hval; cases hval
          | some e =>
            rw [hf] at hval
            have := List.mem_of_find?_eq_some hf
            injection hval with hval
            rw [← hval]
            exact hsmall a hm e this
      show Gives r.buf d
      rw [← h4, List.append_assoc]
      exact carry_gives d t hd

/-- A file whose only value has a line feed, a bracket and a zero byte in it. -/
example : Inifile.Spec.text (encoded [(bytes! "s", [(bytes! "k", [10, 91, 0])])]) = bytes! "[s]\nk=ClsA\n" ∧
    Inifile.Spec.value [(bytes! "s", [(bytes! "k", [10, 91, 0])])] (bytes! "s") (bytes! "k") = some [10, 91, 0] := by decide

end Ulz.Props
