import Verif.Proofs.Inplace
/-! # Property theorem C181: normalizing a path into the buffer it is in -/
namespace Ulz.Props
open Ulz.Filelib.Spec (normalize)
open Ulz.Inplace (normalizepath_cstr)

/-- C181. `normalizepath_cstr(m + p, m + o)` with the output at or before the path, `o ≤ p`: for every path `s` there the
    call returns `out` exactly if the path has a normal form, which is then the string at `out`, as with a separate buffer.
    Whether it succeeds or fails, nothing is written outside the bytes from `out` to the end of the path. -/
theorem normalizepath_cstr_overlap (pre s junk : List Byte) (h0 : (0 : Byte) ∉ s) (o : Nat) (ho : o ≤ pre.length) :
    ∃ m', normalizepath_cstr (pre ++ s ++ 0 :: junk) pre.length o = .ok (m', (normalize s).isSome) ∧
      m'.length = pre.length + s.length + 1 + junk.length ∧ m'.take o = pre.take o ∧
      m'.drop (pre.length + s.length) = 0 :: junk ∧
      ∀ x, normalize s = some x → x ++ [0] <+: m'.drop o := by
  obtain ⟨m', h1, h2, h3, h4, h5⟩ := Inplace.inplace_spec (p := pre.length) ho (m := pre ++ s ++ 0 :: junk)
    (junk := junk) (by simp) h0
  refine ⟨m', h1, by rw [h2]; simp; omega, ?_, ?_, h5⟩
  · rw [h3, List.append_assoc, List.take_append_of_le_length ho]
  · rw [h4, List.drop_left' (by simp)]

/-- C181, in place: `normalizepath_cstr(path, path)` leaves the normal form in `path`, and the bytes behind the path alone. -/
theorem normalizepath_cstr_inplace (s junk x : List Byte) (h0 : (0 : Byte) ∉ s) (hx : normalize s = some x) :
    ∃ m', normalizepath_cstr (s ++ 0 :: junk) 0 0 = .ok (m', true) ∧ x ++ [0] <+: m' ∧ m'.drop s.length = 0 :: junk := by
  obtain ⟨m', h1, _, _, h4, h5⟩ := normalizepath_cstr_overlap [] s junk h0 0 (Nat.le_refl _)
  rw [hx] at h1
  exact ⟨m', h1, by simpa using h5 x hx, by simpa using h4⟩

example : normalizepath_cstr (bytes! "/a//b/../c/." ++ [0, 7]) 0 0 =
    .ok (bytes! "/a/c" ++ 0 :: (bytes! "/../c/." ++ [0, 7]), true) := by decide +kernel
example : normalize (bytes! "/a//b/../c/.") = some (bytes! "/a/c") := by decide +kernel
example : normalizepath_cstr (bytes! "xy" ++ bytes! "/a/./b" ++ [0]) 2 1 =
    .ok (bytes! "x" ++ bytes! "/a/b" ++ 0 :: bytes! "/b" ++ [0], true) := by decide +kernel

/-- C181, what is lost: a call that fails in place may have changed the path already. -/
theorem normalizepath_cstr_inplace_fail : ∃ s m', (0 : Byte) ∉ s ∧ normalize s = none ∧
    normalizepath_cstr (s ++ [0]) 0 0 = .ok (m', false) ∧ m' ≠ s ++ [0] :=
  ⟨bytes! "/a/../b/../..", bytes! "/b/../b/../.." ++ [0], by decide +kernel, by decide +kernel, by decide +kernel,
    by decide +kernel⟩

/-- C181, the other direction: with the output inside the path, two or more bytes behind its start, a path that is a slash and
    a plain name is copied over its own terminator and then on to the end of the object, whatever its size: the call always
    writes out of bounds. -/
theorem normalizepath_cstr_behind (name junk : List Byte) (hn : ∀ c ∈ name, c ≠ 0 ∧ c ≠ ch '/' ∧ c ≠ ch '.') (o : Nat)
    (h1 : 2 ≤ o) (h2 : o ≤ name.length + 1) :
    normalizepath_cstr (ch '/' :: name ++ 0 :: junk) 0 o = .error .oobWrite := by
  unfold normalizepath_cstr
  have e : rd ((ch '/' :: name ++ 0 :: junk).drop 0) 0 = .ok (ch '/') := rfl
  rw [e, ok_bind, if_neg (by simp), Inplace.loop_per h1]
  · rfl
  · intro j hj
    by_cases h0 : j = 0
    · subst h0; exact ⟨_, rfl, by simp⟩
    · refine ⟨(ch '/' :: name)[j]'(by simp; omega), ?_, ?_⟩
      · rw [rd_append_left (by simp; omega), rd_ok]
      · rw [if_neg (by rw [Nat.mod_eq_of_lt (by omega)]; exact h0)]
        obtain ⟨k, rfl⟩ : ∃ k, j = k + 1 := ⟨j - 1, by omega⟩
        simp only [List.getElem_cons_succ]
        exact hn _ (List.getElem_mem _)
  · simp; omega

example : normalizepath_cstr (bytes! "/usr" ++ 0 :: List.replicate 20 0) 0 4 = .error .oobWrite :=
  normalizepath_cstr_behind (bytes! "usr") (List.replicate 20 0) (by decide) 4 (by decide) (by decide)

end Ulz.Props
