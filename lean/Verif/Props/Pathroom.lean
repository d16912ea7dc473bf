import Verif.Proofs.Pathroom
/-! C193: the exact room `normalizepath` and `normalizepath_cstr` need. -/
namespace Ulz.Props
open Ulz.Filelib (normalizepath normalizepath_cstr getpathdiff PATH_MAX)
open Ulz.Stringptr.Spec (Holds)
open Ulz.Filelib.Spec (components resolve normalize)
open Ulz.Pathroom.Spec (width reach room)

/-- C193. `normalizepath` for a path of any length: right if the bytes written on the way and the result with its terminator fit into PATH_MAX bytes,
    and a write behind the local buffer otherwise. -/
theorem normalizepath_any_length (stack : Nat → Byte) (s junk : List Byte) (h0 : (0 : Byte) ∉ s) :
    normalizepath stack ⟨s ++ 0 :: junk, s.length⟩ =
      if room s ≤ 4096 then .ok
        (match normalize s with
         | none => (⟨s ++ 0 :: junk, s.length⟩, 0)
         | some x => (⟨x ++ 0 :: (s ++ 0 :: junk).drop (x.length + 1), x.length⟩, 1))
      else .error .oobWrite :=
  Pathroom.normalizepath_any stack h0

/-- C193. `normalizepath_cstr` with an output buffer of any size: right exactly if the buffer has that room. -/
theorem normalizepath_cstr_any_buffer (s junk out : List Byte) (h0 : (0 : Byte) ∉ s) :
    (room s ≤ out.length → ∃ out', normalizepath_cstr (s ++ 0 :: junk) out = .ok (out', (normalize s).isSome) ∧ out'.length = out.length ∧
        ∀ x, normalize s = some x → ∃ J, out' = x ++ 0 :: J) ∧
    (out.length < room s → normalizepath_cstr (s ++ 0 :: junk) out = .error .oobWrite) := by
  have h := Pathroom.cstr_any (junk := junk) (out := out) h0
  constructor
  · intro hr; rwa [if_pos hr] at h
  · intro hr; rwa [if_neg (by omega)] at h

/-- C193. The room is at most the size of the path with its terminator, and at least that of the result with its terminator. -/
theorem normalize_room (s : List Byte) : room s ≤ s.length + 1 ∧ ∀ x, normalize s = some x → x.length + 1 ≤ room s := by
  by_cases h1 : s[0]? = some (ch '/')
  rotate_left
  · rw [Pathroom.room_rel h1, Filelib.normalize_rel h1]
    exact ⟨Nat.zero_le _, fun x hx => nomatch hx⟩
  match s, h1 with
  | c :: t, h1 =>
    have hc : c = ch '/' := by simpa using h1
    subst hc
    have hr := Pathroom.reach_le (components t) [] (Filelib.components_ne_nil t)
    rw [Filelib.join_components, show width [] = 1 from rfl] at hr
    rw [room, if_pos rfl]
    cases hn : normalize (ch '/' :: t) with
    | none => exact ⟨by simp only [List.length_cons]; omega, fun x hx => nomatch hx⟩
    | some x =>
      have := Pathroom.normalize_len hn
      simp only [List.length_cons] at this ⊢
      refine ⟨Nat.max_le.2 ⟨by omega, by omega⟩, fun y hy => ?_⟩
      cases hy
      exact Nat.le_max_right ..

/-- C193. `/name/..` with a name of 4095 bytes or more: the result would be `/`, but the local buffer is too small for the way there. -/
theorem normalizepath_way_too_long (stack : Nat → Byte) (name junk : List Byte) (h0 : (0 : Byte) ∉ name) (hs : ch '/' ∉ name) (hl : 4095 ≤ name.length) :
    normalize (ch '/' :: name ++ bytes! "/..") = some [ch '/'] ∧
    normalizepath stack ⟨ch '/' :: name ++ bytes! "/.." ++ 0 :: junk, name.length + 4⟩ = .error .oobWrite := by
  have hc : components (name ++ bytes! "/..") = [name, bytes! ".."] := by
    have := Filelib.components_text_slash (c := name) (t := bytes! "..") hs
    exact this.trans (by rw [Filelib.components_text (c := bytes! "..") (by decide)])
  have hn0 : name ≠ [] := by rintro rfl; simp at hl
  have hn1 : name ≠ bytes! "." := by rintro rfl; simp at hl
  have hn2 : name ≠ bytes! ".." := by rintro rfl; simp at hl
  have hnorm : normalize (ch '/' :: name ++ bytes! "/..") = some [ch '/'] := by
    rw [List.cons_append, normalize, if_pos rfl, hc, Filelib.resolve_push hn0 hn1 hn2, List.nil_append]
    simp [resolve, Stringptr.Spec.join]
  refine ⟨hnorm, ?_⟩
  have := normalizepath_any_length stack (ch '/' :: name ++ bytes! "/..") junk (by simp; exact ⟨by decide, h0⟩)
  rw [show (ch '/' :: name ++ bytes! "/..").length = name.length + 4 by simp] at this
  rw [this, if_neg]
  have hr : room (ch '/' :: name ++ bytes! "/..") = max (reach [] (components (name ++ bytes! "/.."))) 2 := by
    rw [List.cons_append] at hnorm ⊢
    rw [room, if_pos rfl, hnorm]
    rfl
  rw [hr, hc, Pathroom.reach_name hn0 hn1 hn2, if_neg (by simp)]
  intro h
  have h1 := (Nat.max_le.1 h).1
  have h2 := Pathroom.reach_ge [bytes! ".."] ([] ++ [name])
  rw [Pathroom.width_snoc, show width [] = 1 from rfl] at h2
  omega

example : (0 : Byte) ∉ List.replicate 4095 (ch 'x') ∧ ch '/' ∉ List.replicate 4095 (ch 'x') ∧ 4095 ≤ (List.replicate 4095 (ch 'x')).length :=
  ⟨by intro h; exact absurd (List.eq_of_mem_replicate h) (by decide), by intro h; exact absurd (List.eq_of_mem_replicate h) (by decide),
    by rw [List.length_replicate]; decide⟩

/-- The room for some paths. -/
example : room (bytes! "/a/b/../c") = 5 ∧ room (bytes! "/abc/../d") = 5 ∧ room (bytes! "/..") = 1 ∧ room (bytes! "////") = 2 ∧ room (bytes! "a") = 0 ∧
    normalizepath_cstr (bytes! "/abc/../d" ++ [0]) [9, 9, 9, 9, 9] = .ok ([47, 100, 0, 99, 47], true) ∧
    normalizepath_cstr (bytes! "/abc/../d" ++ [0]) [9, 9, 9, 9] = .error .oobWrite := by decide +kernel

/-- A path of more than PATH_MAX bytes that is handled: slashes only. -/
example (n : Nat) : room (List.replicate (n + 1) (ch '/')) = 2 := by
  have hc : ∀ n, components (List.replicate n (ch '/')) = List.replicate (n + 1) [] := by
    intro n
    induction n with
    | zero => rfl
    | succ n ih => rw [List.replicate_succ, Filelib.components_slash, ih, List.replicate_succ (n := n + 1)]
  have hr : ∀ n, resolve [] (List.replicate n []) = some [] := by
    intro n
    induction n with
    | zero => rfl
    | succ n ih => rw [List.replicate_succ, Filelib.resolve_nil, ih]
  have hw : ∀ n, reach [] (List.replicate n []) = 1 := by
    intro n
    induction n with
    | zero => rfl
    | succ n ih => rw [List.replicate_succ, Pathroom.reach_nil, ih]
  have hn : normalize (ch '/' :: List.replicate n (ch '/')) = some [ch '/'] := by
    rw [normalize, if_pos rfl, hc, hr]; rfl
  rw [List.replicate_succ, room, if_pos rfl, hn, hc, hw]
  rfl

/-- C193. `getpathdiff` for every two paths and every buffer. If one of the paths needs more than PATH_MAX bytes to be normalized, it
    writes behind a local buffer. Otherwise, `A` and `B` being the normal forms (or the texts themselves where those do not exist) and
    `A'` being `A` with a text of one character (the root) counting as empty: if `B` is shorter than `A'`, or longer without having it as
    a prefix, the result is -1 and the buffer is left alone; if both have the same length, or `A'` is a prefix of `B`, the difference
    and a terminator are stored, and exactly those bytes are needed. -/
theorem getpathdiff_any_length (st1 st2 : Nat → Byte) (s1 s2 j1 j2 W : List Byte) (h1 : (0 : Byte) ∉ s1) (h2 : (0 : Byte) ∉ s2)
    (A B A' : List Byte) (hA : A = (normalize s1).getD s1) (hB : B = (normalize s2).getD s2) (hA' : A' = if A.length = 1 then [] else A) :
    (¬ (room s1 ≤ 4096 ∧ room s2 ≤ 4096) →
      getpathdiff st1 st2 ⟨s1 ++ 0 :: j1, s1.length⟩ ⟨s2 ++ 0 :: j2, s2.length⟩ W = .error .oobWrite) ∧
    (room s1 ≤ 4096 → room s2 ≤ 4096 → ∃ p1 p2, Holds p1 A ∧ Holds p2 B ∧
      getpathdiff st1 st2 ⟨s1 ++ 0 :: j1, s1.length⟩ ⟨s2 ++ 0 :: j2, s2.length⟩ W =
        if B.length < A'.length ∨ A'.length < B.length ∧ ¬ A' <+: B then .ok (p1, p2, W, -1)
        else if B.length - A'.length < W.length then
          .ok (p1, p2, B.drop A'.length ++ 0 :: W.drop (B.length - A'.length + 1), ((B.length - A'.length : Nat) : Int))
        else .error .oobWrite) := by
  subst hA hB hA'
  constructor
  · intro h
    unfold getpathdiff
    by_cases hr : room s1 ≤ 4096
    · obtain ⟨k1, r1, e1⟩ := Pathroom.normalizepath_any_holds (junk := j1) st1 h1 hr
      rw [e1, ok_bind]
      simp only
      rw [normalizepath_any_length st2 s2 j2 h2, if_neg (fun h' => h ⟨hr, h'⟩)]
      rfl
    · rw [normalizepath_any_length st1 s1 j1 h1, if_neg hr]
      rfl
  · intro hr1 hr2
    obtain ⟨k1, r1, e1⟩ := Pathroom.normalizepath_any_holds (junk := j1) st1 h1 hr1
    obtain ⟨k2, r2, e2⟩ := Pathroom.normalizepath_any_holds (junk := j2) st2 h2 hr2
    have e3 := @Pathroom.diff_any ((normalize s1).getD s1) ((normalize s2).getD s2) W k1 k2
    refine ⟨⟨(normalize s1).getD s1 ++ k1, ((normalize s1).getD s1).length⟩, ⟨(normalize s2).getD s2 ++ k2, ((normalize s2).getD s2).length⟩,
      ⟨rfl, ⟨_, rfl⟩⟩, ⟨rfl, ⟨_, rfl⟩⟩, ?_⟩
    unfold getpathdiff
    rw [e1, ok_bind]
    simp only
    rw [e2, ok_bind]
    simp only
    rw [e3]
    generalize (normalize s1).getD s1 = A
    generalize (normalize s2).getD s2 = B
    simp only
    generalize (if A.length = 1 then [] else A) = A'
    by_cases c1 : B.length < A'.length
    · rw [if_pos c1, if_pos (.inl c1)]; rfl
    · rw [if_neg c1]
      by_cases c2 : B.length = A'.length
      · have hn : ¬ (B.length < A'.length ∨ A'.length < B.length ∧ ¬ A' <+: B) := by rintro (h | ⟨h, _⟩) <;> omega
        rw [if_pos c2, if_neg hn, c2, Nat.sub_self]
        split
        · rw [List.drop_eq_nil_of_le (as := B) (by omega)]; rfl
        · rfl
      · rw [if_neg c2]
        by_cases c3 : A' <+: B
        · have hn : ¬ (B.length < A'.length ∨ A'.length < B.length ∧ ¬ A' <+: B) := by
            rintro (h | ⟨_, h⟩)
            · exact c1 h
            · exact h c3
          rw [if_pos c3, if_neg hn]
          split <;> rfl
        · rw [if_neg c3, if_pos (.inr ⟨by omega, c3⟩)]; rfl

/-- "/usr" and "/usr/lib" with a buffer of five bytes, which has room for "/lib" and the terminator; with four it has not. -/
example : ∃ p1 p2, getpathdiff (fun _ => 0) (fun _ => 0) ⟨bytes! "/usr/" ++ [0], 5⟩ ⟨bytes! "/usr/lib" ++ [0], 8⟩ [9, 9, 9, 9, 9] =
    .ok (p1, p2, bytes! "/lib" ++ [0], 4) ∧
    getpathdiff (fun _ => 0) (fun _ => 0) ⟨bytes! "/usr/" ++ [0], 5⟩ ⟨bytes! "/usr/lib" ++ [0], 8⟩ [9, 9, 9, 9] = .error .oobWrite := by
  obtain ⟨p1, p2, -, -, h⟩ := (getpathdiff_any_length (fun _ => 0) (fun _ => 0) (bytes! "/usr/") (bytes! "/usr/lib") [] [] [9, 9, 9, 9, 9]
    (by decide) (by decide) (bytes! "/usr") (bytes! "/usr/lib") (bytes! "/usr") (by decide +kernel) (by decide +kernel) (by decide)).2
    (by decide +kernel) (by decide +kernel)
  obtain ⟨q1, q2, -, -, h'⟩ := (getpathdiff_any_length (fun _ => 0) (fun _ => 0) (bytes! "/usr/") (bytes! "/usr/lib") [] [] [9, 9, 9, 9]
    (by decide) (by decide) (bytes! "/usr") (bytes! "/usr/lib") (bytes! "/usr") (by decide +kernel) (by decide +kernel) (by decide)).2
    (by decide +kernel) (by decide +kernel)
  exact ⟨p1, p2, h, h'⟩

end Ulz.Props
