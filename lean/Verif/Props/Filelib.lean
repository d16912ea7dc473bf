import Verif.Proofs.Filelib
/-! Properties C57 to C61: filelib. -/
namespace Ulz.Props
open Ulz.Filelib Ulz.Filelib.Spec
open Ulz.Stringptr (SP)
open Ulz.Stringptr.Spec (join Holds)

/-- The specification's `components` is the only way to write a text as slash-free pieces joined by slashes. -/
theorem components_unique (s : List Byte) (cs : List (List Byte)) :
    components s = cs ↔ cs ≠ [] ∧ (∀ c ∈ cs, ch '/' ∉ c) ∧ join [ch '/'] cs = s := by
  constructor
  · rintro rfl
    exact ⟨components_ne_nil s, components_no_slash s, join_components s⟩
  · rintro ⟨h1, h2, rfl⟩
    exact components_join h2 h1

/-- C57: for every path shorter than PATH_MAX, `normalizepath` computes the normal form. On failure the path is
    unchanged; on success the text is replaced by its normal form and a terminator, and all bytes behind that are
    as before. -/
theorem normalizepath_correct (stack : Nat → Byte) (s junk : List Byte) (h0 : (0 : Byte) ∉ s) (hs : s.length < 4096) :
    normalizepath stack ⟨s ++ 0 :: junk, s.length⟩ = .ok
      (match normalize s with
       | none => (⟨s ++ 0 :: junk, s.length⟩, 0)
       | some x => (⟨x ++ 0 :: (s ++ 0 :: junk).drop (x.length + 1), x.length⟩, 1)) :=
  normalizepath_spec stack h0 hs

/-- C57: the normal form is never longer than the path, so only the original bytes are written. -/
theorem normalize_shorter (s x : List Byte) (h0 : (0 : Byte) ∉ s) (h : normalize s = some x) : x.length ≤ s.length := by
  obtain ⟨out', h1, h2, h3⟩ := cstr_spec (junk := []) (out := List.replicate (s.length + 1) 0) h0 (by simp)
  obtain ⟨J, rfl⟩ := h3 x h
  simp at h2
  omega

/-- C57: the bound is needed: an absolute path of PATH_MAX or more ordinary characters overruns the local buffer. -/
theorem normalizepath_too_long (stack : Nat → Byte) (name junk : List Byte) (hn : ch '/' ∉ name ∧ ch '.' ∉ name)
    (hl : 4096 ≤ name.length + 1) :
    normalizepath stack ⟨ch '/' :: name ++ 0 :: junk, name.length + 1⟩ = .error .oobWrite := by
  refine normalizepath_over (s := ch '/' :: name) stack rfl hl ?_
  intro i c hi hc
  match i, hi, hc with
  | i + 1, _, hc =>
    have := List.mem_of_getElem? (by simpa using hc : name[i]? = some c)
    exact ⟨fun h => hn.1 (h ▸ this), fun h => hn.2 (h ▸ this)⟩

/-- C57: relative paths fail, whatever their length. -/
theorem normalizepath_relative (stack : Nat → Byte) (p : SP) (s : List Byte) (hp : Holds p s) (h : s[0]? ≠ some (ch '/')) :
    normalizepath stack p = .ok (p, 0) := by
  obtain ⟨hsz, t, ht⟩ := hp
  unfold normalizepath
  by_cases hz : p.size = 0
  · rw [if_pos hz]; rfl
  · rw [if_neg hz, ← ht]
    match s, h, hsz with
    | [], _, hsz => exact absurd hsz hz
    | c :: s, h, _ =>
      rw [List.cons_append, rd_cons_zero, ok_bind, if_pos (by simpa using h)]
      rfl

example : normalize (bytes! "/usr//lib/./x/../libc/") = some (bytes! "/usr/lib/libc") ∧
    normalize (bytes! "/a/../..") = none ∧ normalize (bytes! "/..a/.b/...") = some (bytes! "/..a/.b/...") ∧
    normalize (bytes! "//./") = some (bytes! "/") ∧ normalize (bytes! "a/b") = none := by decide +kernel

example : normalizepath (fun _ => 7) ⟨bytes! "/a/./b/../c" ++ [0, 9], 11⟩ =
    .ok (⟨bytes! "/a/c" ++ 0 :: (bytes! "b/../c" ++ [0, 9]), 4⟩, 1) :=
  normalizepath_correct (fun _ => 7) (bytes! "/a/./b/../c") [9] (by decide) (by decide)

/-- C58: `normalizepath_cstr` computes the same function, in an output buffer of `strlen(path) + 1` bytes or more. -/
theorem normalizepath_cstr_correct (s junk out : List Byte) (h0 : (0 : Byte) ∉ s) (hs : s.length + 1 ≤ out.length) :
    ∃ out', normalizepath_cstr (s ++ 0 :: junk) out = .ok (out', (normalize s).isSome) ∧ out'.length = out.length ∧
      ∀ x, normalize s = some x → x ++ [0] <+: out' := by
  obtain ⟨out', h1, h2, h3⟩ := cstr_spec (junk := junk) h0 (show s.length < out.length from hs)
  refine ⟨out', h1, h2, fun x hx => ?_⟩
  obtain ⟨J, rfl⟩ := h3 x hx
  exact ⟨J, by simp⟩

/-- C58: normalizing a normalized path changes nothing. -/
theorem normalizepath_idempotent (stack stack' : Nat → Byte) (s junk : List Byte) (p : SP) (h0 : (0 : Byte) ∉ s)
    (hs : s.length < 4096) (h : normalizepath stack ⟨s ++ 0 :: junk, s.length⟩ = .ok (p, 1)) :
    normalizepath stack' p = .ok (p, 1) := by
  rw [normalizepath_spec stack h0 hs] at h
  cases hn : normalize s with
  | none => rw [hn] at h; simp at h
  | some x =>
    rw [hn] at h
    simp only [Except.ok.injEq, Prod.mk.injEq, and_true] at h
    have hx := normalize_shorter s x h0 hn
    rw [← h, normalizepath_spec stack' (normalize_zero h0 hn) (by show x.length < 4096; omega), normalize_idem hn]
    simp

example : ∃ p, normalizepath (fun _ => 0) ⟨bytes! "/x/../y" ++ [0], 7⟩ = .ok (p, 1) ∧ Holds p (bytes! "/y") := by
  have := normalizepath_correct (fun _ => 0) (bytes! "/x/../y") [] (by decide) (by decide)
  exact ⟨_, this, by decide, ⟨_, rfl⟩⟩

/-- C59: what `getpathdiff` does for every two paths. `A` and `B` are the normal forms, or the texts themselves where
    those do not exist; `A'` is `A`, except that a text of one character (the root) counts as empty. -/
theorem getpathdiff_correct (st1 st2 : Nat → Byte) (s1 s2 j1 j2 W : List Byte) (h1 : (0 : Byte) ∉ s1) (h2 : (0 : Byte) ∉ s2)
    (l1 : s1.length < 4096) (l2 : s2.length < 4096) (A B A' : List Byte) (hA : A = (normalize s1).getD s1)
    (hB : B = (normalize s2).getD s2) (hA' : A' = if A.length = 1 then [] else A) (hW : B.length - A'.length < W.length) :
    ∃ p1 p2 W' r, getpathdiff st1 st2 ⟨s1 ++ 0 :: j1, s1.length⟩ ⟨s2 ++ 0 :: j2, s2.length⟩ W = .ok (p1, p2, W', r) ∧
      Holds p1 A ∧ Holds p2 B ∧
      (B.length < A'.length → r = -1 ∧ W' = W) ∧
      (B.length = A'.length → r = 0 ∧ W' = 0 :: W.drop 1) ∧
      (B.length > A'.length → A' <+: B →
        r = ((B.length - A'.length : Nat) : Int) ∧ W' = B.drop A'.length ++ 0 :: W.drop (B.length - A'.length + 1)) ∧
      (B.length > A'.length → ¬ A' <+: B → r = -1 ∧ W' = W) := by
  subst hA; subst hB; subst hA'
  obtain ⟨k1, r1, e1, _⟩ := normalizepath_holds (junk := j1) st1 h1 l1
  obtain ⟨k2, r2, e2, _⟩ := normalizepath_holds (junk := j2) st2 h2 l2
  have e3 := diff_spec (j1 := k1) (j2 := k2) hW
  unfold getpathdiff
  rw [e1, ok_bind]
  simp only
  rw [e2, ok_bind]
  simp only
  rw [e3, ok_bind]
  refine ⟨_, _, _, _, rfl, ⟨rfl, ⟨_, rfl⟩⟩, ⟨rfl, ⟨_, rfl⟩⟩, fun h => ?_, fun h => ?_, fun h h' => ?_, fun h h' => ?_⟩
  · simp only; rw [if_pos h]; exact ⟨rfl, rfl⟩
  · simp only; rw [if_neg (by omega), if_pos h]; exact ⟨rfl, rfl⟩
  · simp only; rw [if_neg (by omega), if_neg (by omega), if_pos h']; exact ⟨rfl, rfl⟩
  · simp only; rw [if_neg (by omega), if_neg (by omega), if_neg h']; exact ⟨rfl, rfl⟩

/-- C59: the documented claim that the difference starts with '/' holds exactly when the second path lies below the
    first directory: `d1` and `d2` are the components of the normal forms. -/
theorem getpathdiff_starts_with_slash (d1 d2 : List (List Byte)) (h1 : ∀ c ∈ d1, c ≠ [] ∧ ch '/' ∉ c)
    (h2 : ∀ c ∈ d2, c ≠ [] ∧ ch '/' ∉ c) (hd : d2 ≠ []) (A B A' : List Byte) (hA : A = ch '/' :: join [ch '/'] d1)
    (hB : B = ch '/' :: join [ch '/'] d2) (hA' : A' = if A.length = 1 then [] else A) (hlt : A'.length < B.length)
    (hp : A' <+: B) : (B.drop A'.length)[0]? = some (ch '/') ↔ d1 <+: d2 := by
  have hlen : A.length = 1 ↔ d1 = [] := by
    rw [hA]
    constructor
    · intro h
      match d1, h, h1 with
      | [], _, _ => rfl
      | [c], h, h1 =>
        have := (h1 c (by simp)).1
        simp [join] at h
        exact absurd h this
      | c :: d :: ds, h, _ => simp [join] at h
    · rintro rfl; rfl
  by_cases hn : d1 = []
  · rw [if_pos (hlen.2 hn)] at hA'
    subst hA'; subst hn
    simp [hB]
  · rw [if_neg (fun h => hn (hlen.1 h))] at hA'
    subst hA'
    obtain ⟨C, hC⟩ := hp
    have hdrop : B.drop A'.length = C := by rw [← hC]; simp
    rw [hdrop]
    have hj : join [ch '/'] d2 = join [ch '/'] d1 ++ C := by
      rw [hA, hB, List.cons_append] at hC
      exact (List.cons.inj hC).2.symm
    constructor
    · intro h
      match C, h, hj with
      | c :: rest, h, hj =>
        have : c = ch '/' := by simpa using h
        subst this
        have e := components_join (fun c hc => (h2 c hc).2) hd
        have : components (join [ch '/'] d1 ++ ch '/' :: rest) = d1 ++ components rest := by
          clear e hC hdrop hA hlen hj; clear hj
          induction d1 with
          | nil => exact absurd rfl hn
          | cons a d1 ih =>
            cases d1 with
            | nil => rw [join]; exact components_text_slash (h1 a (by simp)).2
            | cons b ds =>
              rw [join]
              · rw [List.append_assoc, List.append_assoc, List.singleton_append, components_text_slash (h1 a (by simp)).2,
                  ih (fun c hc => h1 c (by simp [hc])) (by simp)]
                simp
              · simp
        rw [hj, this] at e
        exact ⟨_, e⟩
    · rintro ⟨e, rfl⟩
      have hne : e ≠ [] := by
        rintro rfl
        rw [List.append_nil] at hB
        rw [hA, hB] at hlt
        omega
      have : join [ch '/'] (d1 ++ e) = join [ch '/'] d1 ++ ch '/' :: join [ch '/'] e := by
        clear hj hlen hC hdrop hA hB hd h2 h1
        induction d1 with
        | nil => exact absurd rfl hn
        | cons a d1 ih =>
          cases d1 with
          | nil =>
            match e, hne with
            | x :: xs, _ => rw [List.singleton_append, join]; simp [join]
          | cons b ds =>
            rw [List.cons_append, join]
            · rw [ih (by simp)]; simp [join]
            · simp
      rw [this] at hj
      have hc := List.append_cancel_left hj
      rw [← hc]; rfl

example : ∃ p1 p2, getpathdiff (fun _ => 0) (fun _ => 0) ⟨bytes! "/usr/" ++ [0], 5⟩ ⟨bytes! "/usr/lib" ++ [0], 8⟩
    [7, 7, 7, 7, 7, 7] = .ok (p1, p2, bytes! "/lib" ++ [0, 7], 4) := by
  obtain ⟨p1, p2, W', r, h, -, -, -, -, h3, -⟩ := getpathdiff_correct (fun _ => 0) (fun _ => 0) (bytes! "/usr/") (bytes! "/usr/lib")
    [] [] [7, 7, 7, 7, 7, 7] (by decide) (by decide) (by decide) (by decide) (bytes! "/usr") (bytes! "/usr/lib") (bytes! "/usr")
    (by decide +kernel) (by decide +kernel) (by decide) (by decide)
  obtain ⟨rfl, rfl⟩ := h3 (by decide) ⟨bytes! "/lib", by decide⟩
  exact ⟨p1, p2, h⟩

/-- C59: two documented guarantees fail: "/ab" is no child of "/a", yet the result is "b"; "/a" and "/b" give 0. -/
example : ∃ p1 p2 p3 p4, getpathdiff (fun _ => 0) (fun _ => 0) ⟨bytes! "/a" ++ [0], 2⟩ ⟨bytes! "/ab" ++ [0], 3⟩
      [7, 7, 7, 7] = .ok (p1, p2, bytes! "b" ++ [0, 7, 7], 1) ∧
    getpathdiff (fun _ => 0) (fun _ => 0) ⟨bytes! "/a" ++ [0], 2⟩ ⟨bytes! "/b" ++ [0], 2⟩
      [7, 7, 7] = .ok (p3, p4, [0, 7, 7], 0) := by
  obtain ⟨p1, p2, W', r, h, -, -, -, -, h3, -⟩ := getpathdiff_correct (fun _ => 0) (fun _ => 0) (bytes! "/a") (bytes! "/ab")
    [] [] [7, 7, 7, 7] (by decide) (by decide) (by decide) (by decide) (bytes! "/a") (bytes! "/ab") (bytes! "/a")
    (by decide +kernel) (by decide +kernel) (by decide) (by decide)
  obtain ⟨rfl, rfl⟩ := h3 (by decide) ⟨bytes! "b", by decide⟩
  obtain ⟨p3, p4, W', r, h', -, -, -, h4, -⟩ := getpathdiff_correct (fun _ => 0) (fun _ => 0) (bytes! "/a") (bytes! "/b")
    [] [] [7, 7, 7] (by decide) (by decide) (by decide) (by decide) (bytes! "/a") (bytes! "/b") (bytes! "/a")
    (by decide +kernel) (by decide +kernel) (by decide) (by decide)
  obtain ⟨rfl, rfl⟩ := h4 (by decide)
  exact ⟨p1, p2, p3, p4, h, h'⟩

/-- C60: `getfilename` points behind the last slash; NULL if there is none. -/
theorem getfilename_correct (p : SP) (s : List Byte) (hp : Holds p s) :
    (∀ dir name, s = dir ++ ch '/' :: name → ch '/' ∉ name → getfilename (some p) = .ok (some (dir.length + 1))) ∧
    (ch '/' ∉ s → getfilename (some p) = .ok none) := by
  obtain ⟨j, rfl⟩ := Stringptr.holds_iff.1 hp
  constructor
  · rintro dir name rfl hn
    unfold getfilename Stringptr.rchr
    simp only
    rw [if_neg (by simp), rchrLoop_hit (m := dir.length)]
    · rfl
    · simp [rd]
    · simp
    · intro k h1 h2
      have hk : k - (dir.length + 1) < name.length := by simp at h2; omega
      refine ⟨name[k - (dir.length + 1)], ?_, fun h => hn (h ▸ List.getElem_mem hk)⟩
      rw [List.append_assoc, rd_append_right (by omega), show k - dir.length = (k - (dir.length + 1)) + 1 by omega,
        List.cons_append, rd_cons_succ, rd_append_left hk, rd_ok hk]
  · intro hs
    obtain ⟨r, h1, h2⟩ := Stringptr.rchrLoop_spec (s := s) (junk := j) (ch '/').toInt s.length (Nat.le_refl _)
    unfold getfilename Stringptr.rchr
    simp only
    split
    · rfl
    · rw [h1]
      match r, h2 with
      | none, _ => rfl
      | some k, ⟨hk, e, _⟩ => exact absurd (List.getElem_mem hk) (by rw [BitVec.toInt_inj.1 e]; exact hs)

example : getfilename (some ⟨bytes! "/usr/lib/libc.so" ++ [0], 16⟩) = .ok (some 9) ∧
    getfilename (some ⟨bytes! "libc.so" ++ [0], 7⟩) = .ok none := by decide +kernel

/-- C60: `getFileExt` points behind the last dot that is not the first character; a non-empty name without one gives
    the pointer behind the first character, an empty name gives NULL. Only the name itself is read. -/
theorem getFileExt_correct (name junk : List Byte) :
    (name = [] → getFileExt (name ++ junk) name.length = .ok none) ∧
    (∀ stem ext, name = stem ++ ch '.' :: ext → stem ≠ [] → ch '.' ∉ ext →
      getFileExt (name ++ junk) name.length = .ok (some (stem.length + 1))) ∧
    (∀ c rest, name = c :: rest → ch '.' ∉ rest → getFileExt (name ++ junk) name.length = .ok (some 1)) := by
  obtain ⟨k, h1, h2, h3, h4, h5⟩ := extLoop_spec (name := name ++ junk) name.length (by simp)
  unfold getFileExt
  rw [h1, ok_bind]
  refine ⟨?_, ?_, ?_⟩
  · rintro rfl
    have : k = 0 := by simpa using h2
    subst this; rfl
  · rintro stem ext rfl hs he
    have hk : k > 0 := h3 (by simp; omega)
    have hs' : 0 < stem.length := List.length_pos_iff.2 hs
    rw [if_pos hk]
    have : k = stem.length + 1 := by
      rcases Nat.lt_trichotomy k (stem.length + 1) with h | h | h
      · exact absurd (by simp) (h4 stem.length (by simp) (by omega) (by simp))
      · exact h
      · have := h5 (by omega)
        rw [List.append_assoc, List.getElem?_append_right (by omega), List.cons_append,
          show k - 1 - stem.length = (k - 1 - stem.length - 1) + 1 by omega, List.getElem?_cons_succ,
          List.getElem?_append_left (by simp at h2; omega)] at this
        exact absurd (List.mem_of_getElem? this) he
    rw [this]; rfl
  · rintro c rest rfl hr
    have hk : k > 0 := h3 (by simp)
    rw [if_pos hk]
    have : k = 1 := by
      rcases Nat.lt_or_ge 1 k with h | h
      · have := h5 h
        rw [List.cons_append, show k - 1 = (k - 2) + 1 by omega, List.getElem?_cons_succ,
          List.getElem?_append_left (by simp at h2; omega)] at this
        exact absurd (List.mem_of_getElem? this) hr
      · omega
    rw [this]; rfl

example : getFileExt (bytes! "a.tar.gz") 8 = .ok (some 6) ∧ getFileExt (bytes! ".rc") 3 = .ok (some 1) ∧
    getFileExt (bytes! "README") 6 = .ok (some 1) ∧ getFileExt [] 0 = .ok none := by decide +kernel

/-- C61: what `mktempdir` does, for every prefix, buffer, random sequence and behaviour of `mkdir`: it goes on for ever
    (only while every name exists), or returns 0 and has made no directory, or has made exactly one directory, whose
    name of the returned length is in the buffer, terminated. Bytes behind `16 + strlen(prefix)` are not touched. -/
theorem mktempdir_correct (fuel : Nat) (w : World) (p junk buffer : List Byte) (bufsize : Nat) (h0 : (0 : Byte) ∉ p)
    (hb : bufsize ≤ buffer.length) :
    mktempdir fuel w (p ++ 0 :: junk) buffer bufsize = .error .hang ∨
    ∃ w' b' n, mktempdir fuel w (p ++ 0 :: junk) buffer bufsize = .ok (w', b', n) ∧ b'.length = buffer.length ∧
      b'.drop (p.length + 16) = buffer.drop (p.length + 16) ∧
      (n = 0 ∧ w'.made = w.made ∨
       ∃ dir name, (dir = bytes! "/dev/shm/" ∨ dir = bytes! "/tmp/") ∧ name.length = 6 ∧
         (∀ c ∈ name, c ∈ bytes! "0123456789ABCDEFGHIJKLMNOPQRSTUVWXYZabcdefghijklmnopqrstuvwxyz") ∧
         dir ++ p ++ name ++ [0] <+: b' ∧ n = (dir ++ p ++ name).length ∧ n < bufsize ∧
         w'.made = (dir ++ p ++ name) :: w.made) := by
  unfold mktempdir
  rw [Hex.strlen_cstr _ _ h0, ok_bind]
  by_cases hsz : bufsize < 9 + p.length + 7
  · rw [if_pos hsz]
    exact .inr ⟨_, _, _, rfl, rfl, rfl, .inl ⟨rfl, rfl⟩⟩
  rw [if_neg hsz]
  have hX : (0 : Byte) ∉ bytes! "XXXXXX" := by decide
  rw [gen_fn_spec (T := bytes! "/dev/shm/") (P := p) (by simp; omega), ok_bind]
  simp only
  have hT1 : (0 : Byte) ∉ bytes! "/dev/shm/" ++ p := by
    simp only [List.mem_append, not_or]; exact ⟨by decide, h0⟩
  have hT2 : (0 : Byte) ∉ bytes! "/tmp/" ++ p := by
    simp only [List.mem_append, not_or]; exact ⟨by decide, h0⟩
  have l1 : (bytes! "/dev/shm/").length = 9 := rfl
  have l2 : (bytes! "/tmp/").length = 5 := rfl
  rw [l1]
  generalize hD1 : bytes! "/dev/shm/" = D1 at *
  generalize hD2 : bytes! "/tmp/" = D2 at *
  rcases (mkdtemp_spec (B := buffer.drop (9 + p.length + 7)) hT1 (by rfl) hX fuel w).1 with h | ⟨w1, R, r1, r2, r3, r4, h⟩
  · left; rw [h]; rfl
  rcases h with ⟨e, hm⟩ | ⟨e, hm⟩
  · rw [e, ok_bind]
    simp only [if_true]
    refine .inr ⟨_, _, _, rfl, by simp; omega, ?_, .inr ⟨D1, R, .inl rfl, r1, r2,
      ⟨buffer.drop (9 + p.length + 7), by simp⟩, by simp; omega, by omega, hm⟩⟩
    rw [List.append_cons, List.drop_append_of_le_length (by simp; omega), List.drop_eq_nil_of_le (by simp; omega)]
    rw [List.nil_append]; congr 1; omega
  · rw [e, ok_bind]
    simp only [Bool.false_eq_true, if_false]
    rw [gen_fn_spec (T := D2) (P := p) (by simp; omega), ok_bind]
    simp only
    rcases (mkdtemp_spec (B := (D1 ++ p ++ R ++ 0 :: buffer.drop (9 + p.length + 7)).drop (D2.length + p.length + 7))
      hT2 (by rfl) hX fuel w1).1 with h | ⟨w2, R', q1, q2, q3, q4, h⟩
    · left; rw [h]; rfl
    have hlen : ∀ Q : List Byte, Q.length = 6 → (D2 ++ p ++ Q ++ 0 :: (D1 ++ p ++ R ++ 0 :: buffer.drop (9 + p.length + 7)).drop
        (D2.length + p.length + 7)).length = buffer.length := by
      intro Q hQ; simp; omega
    have hdrop : ∀ Q : List Byte, Q.length = 6 → (D2 ++ p ++ Q ++ 0 :: (D1 ++ p ++ R ++ 0 :: buffer.drop (9 + p.length + 7)).drop
        (D2.length + p.length + 7)).drop (p.length + 16) = buffer.drop (p.length + 16) := by
      intro Q hQ
      have e1 : p.length + 16 = (D2 ++ p ++ Q ++ [0]).length + 4 := by simp; omega
      have e2 : D2.length + p.length + 7 + 4 = (D1 ++ p ++ R ++ [0]).length := by simp; omega
      rw [List.append_cons, e1, List.drop_length_add_append, List.drop_drop, e2,
        List.append_cons (D1 ++ p ++ R) 0 (buffer.drop (9 + p.length + 7)), List.drop_left]
      congr 1; simp; omega
    rcases h with ⟨e, hm'⟩ | ⟨e, hm'⟩
    · rw [e, ok_bind]
      simp only [if_true]
      exact .inr ⟨_, _, _, rfl, hlen R' q1, hdrop R' q1, .inr ⟨D2, R', .inr rfl, q1, q2,
        ⟨(D1 ++ p ++ R ++ 0 :: buffer.drop (9 + p.length + 7)).drop (D2.length + p.length + 7), by simp⟩, by simp; omega,
        by omega, by rw [hm', hm]⟩⟩
    · rw [e, ok_bind]
      simp only [Bool.false_eq_true, if_false]
      exact .inr ⟨_, _, _, rfl, hlen R' q1, hdrop R' q1, .inl ⟨rfl, by rw [hm', hm]⟩⟩

/-- C61: `mktempdir` comes to an end as soon as `mkdir` answers anything but EEXIST. -/
theorem mktempdir_terminates (fuel : Nat) (w : World) (p junk buffer : List Byte) (bufsize : Nat) (h0 : (0 : Byte) ∉ p)
    (hb : bufsize ≤ buffer.length) (he : ∀ n, ∃ k, k < fuel ∧ ∀ path, w.mkdir (n + k) path ≠ .eexist) :
    mktempdir fuel w (p ++ 0 :: junk) buffer bufsize ≠ .error .hang := by
  unfold mktempdir
  rw [Hex.strlen_cstr _ _ h0, ok_bind]
  by_cases hsz : bufsize < 9 + p.length + 7
  · rw [if_pos hsz]; simp
  rw [if_neg hsz]
  have hX : (0 : Byte) ∉ bytes! "XXXXXX" := by decide
  rw [gen_fn_spec (T := bytes! "/dev/shm/") (P := p) (by simp; omega), ok_bind]
  simp only
  have hT1 : (0 : Byte) ∉ bytes! "/dev/shm/" ++ p := by
    simp only [List.mem_append, not_or]; exact ⟨by decide, h0⟩
  have hT2 : (0 : Byte) ∉ bytes! "/tmp/" ++ p := by
    simp only [List.mem_append, not_or]; exact ⟨by decide, h0⟩
  have l1 : (bytes! "/dev/shm/").length = 9 := rfl
  have l2 : (bytes! "/tmp/").length = 5 := rfl
  rw [l1]
  generalize hD1 : bytes! "/dev/shm/" = D1 at *
  generalize hD2 : bytes! "/tmp/" = D2 at *
  obtain ⟨m1, m2⟩ := mkdtemp_spec (B := buffer.drop (9 + p.length + 7)) hT1 (by rfl) hX fuel w
  rcases m1 with h | ⟨w1, R, r1, r2, r3, r4, ⟨e, hm⟩ | ⟨e, hm⟩⟩
  · exact absurd h (m2 (he _))
  · rw [e, ok_bind]; simp
  · rw [e, ok_bind]
    simp only [Bool.false_eq_true, if_false]
    rw [gen_fn_spec (T := D2) (P := p) (by simp; omega), ok_bind]
    simp only
    obtain ⟨m1, m2⟩ := mkdtemp_spec (B := (D1 ++ p ++ R ++ 0 :: buffer.drop (9 + p.length + 7)).drop (D2.length + p.length + 7))
      hT2 (by rfl) hX fuel w1
    rcases m1 with h | ⟨w2, R', q1, q2, q3, q4, ⟨e, hm'⟩ | ⟨e, hm'⟩⟩
    · exact absurd h (m2 (by rw [r3]; exact he _))
    · rw [e, ok_bind]; simp
    · rw [e, ok_bind]; simp

/-- /dev/shm fails, in /tmp the first name exists already. -/
example : (mktempdir 5 ⟨fun n => n * n, fun n _ => if n = 0 then .error else if n = 1 then .eexist else .ok, 0, 0, []⟩
      (bytes! "t_" ++ [0]) (List.replicate 20 7) 18).toOption.map (fun r => (r.1.made, r.2.1, r.2.2)) =
    some ([bytes! "/tmp/t_KjAd8f"], bytes! "/tmp/t_KjAd8f" ++ 0 :: bytes! "9GP" ++ [0, 7, 7], 13) := by decide +kernel

end Ulz.Props
