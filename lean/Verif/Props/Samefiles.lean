import Verif.Proofs.Samefiles
/-! Properties C128 and C129: the traversal of find_identical_files. -/
namespace Ulz.Props
open Ulz.Samefiles Ulz.Samefiles.Spec Ulz.Filelist.Spec

/-- C128: if all directories on both sides can be listed and the files read, and calls of process_path happen to return 0, then the
    program prints, each on a line of its own and once, exactly the paths in the first directory of the files that exist under the
    same relative path in the second and whose contents are equal (mode `i`) or different (any other mode). -/
theorem samefiles_correct (e : Env) (hb : e.buf.length = 4096) (hj : ∀ k, e.junk k = 0) (m d1 d2 : List Byte)
    (hp : d1.getLast? = some (ch '/') ↔ d2.getLast? = some (ch '/')) (hw : Walkable e d1 d2) :
    ∃ names : List (List Byte), Samefiles.main e [m, d1, d2] = .ok (names.flatMap (· ++ [ch '\n']), 0) ∧ names.Nodup ∧
      ∀ x, x ∈ names ↔ ∃ rel, Common e d1 d2 rel ∧ x = join d1 rel ∧
        (e.data (join d1 rel) = e.data (join d2 rel) ↔ m.head? = some (ch 'i')) := by
  have hmode : ∃ mode, (mode = 0 ∨ mode = 1) ∧ (mode = 0 ↔ m.head? = some (ch 'i')) ∧
      ∀ o r k, process_path e mode 4097 d1 d2 0 = .ok (o, r, k) → Samefiles.main e [m, d1, d2] = .ok (o.flatMap (· ++ [ch '\n']), r) := by
    cases m with
    | nil =>
      refine ⟨1, Or.inr rfl, by simp, ?_⟩
      intro o r k h
      have h0 : rd ([] ++ [(0 : Byte)]) 0 = .ok 0 := rfl
      simp only [Samefiles.main, h0, ok_bind]
      rw [if_neg (by decide), h]; rfl
    | cons c m =>
      have h0 : rd (c :: m ++ [(0 : Byte)]) 0 = .ok c := rfl
      by_cases hc : c = ch 'i'
      · refine ⟨0, Or.inl rfl, by simp [hc], ?_⟩
        intro o r k h
        simp only [Samefiles.main, h0, ok_bind]
        rw [if_pos hc, h]; rfl
      · refine ⟨1, Or.inr rfl, by simp [hc], ?_⟩
        intro o r k h
        simp only [Samefiles.main, h0, ok_bind]
        rw [if_neg hc, h]; rfl
  obtain ⟨mode, m1, m2, m3⟩ := hmode
  obtain ⟨o, k, r1, r2, r3⟩ := process_good hb hj m1 hw hp 4097 0 (by omega)
  refine ⟨o, m3 _ _ _ r1, r2, ?_⟩
  intro x
  rw [r3]
  constructor
  · rintro ⟨rel, h1, h2, h3⟩
    exact ⟨rel, h1, h2, h3.trans m2⟩
  · rintro ⟨rel, h1, h2, h3⟩
    exact ⟨rel, h1, h2, h3.trans m2.symm⟩

/-- C128: the program ends whatever the file system looks like, also if directories contain themselves through links: paths that
    are too long end the recursion. -/
theorem samefiles_terminates (e : Env) (he : Env.Ok e) (args : List (List Byte)) (hl : ∀ a ∈ args, a.length < 2^62) :
    Samefiles.main e args ≠ .error .hang := by
  unfold Samefiles.main
  split
  · rename_i m d1 d2
    obtain ⟨c, hc⟩ : ∃ c, rd (m ++ [(0 : Byte)]) 0 = .ok c := by
      cases m with
      | nil => exact ⟨_, rfl⟩
      | cons c m => exact ⟨c, rfl⟩
    rw [hc]
    simp only [ok_bind]
    have h1 := hl d1 (by simp)
    have h2 := hl d2 (by simp)
    have := process_total he (if c = ch 'i' then 0 else 1) 4097 d1 d2 0 (by omega) (by omega) (by omega) (by omega)
    cases h : process_path e (if c = ch 'i' then 0 else 1) 4097 d1 d2 0 with
    | error u => intro hh; rw [h] at this; exact this (by cases hh; rfl)
    | ok v => intro hh; cases hh
  · intro h; cases h

/-- C129: the traversal ends early: let `f` be a subdirectory of both directories. If one of the two cannot be listed (for instance
    because its path is too long), or if the calls of process_path, which has no return statement, happen to return other values
    than 0, then nothing that follows `f` in the list of the first directory is printed, and the exit status is not 0. -/
theorem samefiles_stops (e : Env) (he : Env.Ok e) (m d1 d2 : List Byte) (hl1 : d1.length < 2^61) (hl2 : d2.length < 2^61)
    (hp : d1.getLast? = some (ch '/') ↔ d2.getLast? = some (ch '/')) (xs ys ns2 : List (List Byte)) (f : List Byte)
    (h1 : Lists e d1 (xs ++ f :: ys)) (h2 : Lists e d2 ns2) (hf2 : f ∈ ns2) (hfd : IsDir f)
    (hbad : (∀ k, e.junk k ≠ 0) ∨ (¬ ∃ ns, Lists e (join d1 f) ns) ∨ ¬ ∃ ns, Lists e (join d2 f) ns)
    (out : List Byte) (status : Int) (h : Samefiles.main e [m, d1, d2] = .ok (out, status)) :
    status ≠ 0 ∧ ∃ names : List (List Byte), out = names.flatMap (· ++ [ch '\n']) ∧
      ∀ x ∈ names, (∃ g ∈ xs, ¬ IsDir g ∧ x = join d1 g) ∨ ∃ g ∈ xs ++ [f], IsDir g ∧ ∃ rel, x = join d1 (g ++ rel) := by
  obtain ⟨mode, o, k, hpr, ho⟩ : ∃ mode o k, process_path e mode 4097 d1 d2 0 = .ok (o, status, k) ∧ out = o.flatMap (· ++ [ch '\n']) := by
    unfold Samefiles.main at h
    simp only at h
    cases hc : rd (m ++ [(0 : Byte)]) 0 with
    | error u => rw [hc] at h; cases h
    | ok c =>
      rw [hc] at h
      simp only [ok_bind] at h
      cases h5 : process_path e (if c = ch 'i' then 0 else 1) 4097 d1 d2 0 with
      | error u => rw [h5] at h; cases h
      | ok v =>
        obtain ⟨o, r, k⟩ := v
        rw [h5] at h
        simp only [ok_bind, pure_eq_ok, Except.ok.injEq, Prod.mk.injEq] at h
        obtain ⟨h6, rfl⟩ := h
        exact ⟨_, o, k, h5, h6.symm⟩
  have hclean : 0 ∉ f ∧ f.length < 2^62 := by
    obtain ⟨_, _, _, ps, hps, hg, hE⟩ := h1
    obtain ⟨p, hp1, pre, core, tail, e1, e2, _⟩ := entries_base hE f (by simp)
    obtain ⟨ts, e3, e4⟩ := he.strings _ _ _ hg
    constructor
    · intro h0
      apply hps p hp1
      rw [e1]
      rw [e2] at h0
      simp only [List.mem_append, List.mem_cons] at h0 ⊢
      exact Or.inr (Or.inr h0)
    · have hm : p ++ [0] ∈ ps.map (· ++ [0]) := List.mem_map.2 ⟨p, hp1, rfl⟩
      rw [e3] at hm
      obtain ⟨t, t1, t2⟩ := List.mem_map.1 hm
      have := (e4 t t1).2
      have e5 := congrArg List.length t2
      rw [e1] at e5
      rw [e2]
      simp only [List.length_append, List.length_cons, List.length_nil] at e5 ⊢
      omega
  have hj : ∀ d, d ≠ [] → 0 ∉ d → join d f ≠ [] ∧ 0 ∉ join d f := by
    intro d h0 hz
    refine ⟨by simp [join, h0], ?_⟩
    unfold join
    simp only [List.mem_append, not_or]
    refine ⟨⟨hz, ?_⟩, hclean.1⟩
    split <;> decide
  have hlen : ∀ d : List Byte, d.length < 2^61 → (join d f).length < 2^63 := by
    intro d hd
    have := (join_length d f).2
    omega
  have hrec : ∀ k o r k', process_path e mode 4096 (join d1 f) (join d2 f) k = .ok (o, r, k') → r ≠ 0 := by
    intro k o r k' hh
    rcases process_inv hh with ⟨_, hr⟩ | ⟨n1, n2, v, k1, s1, s2, s3, s4⟩
    · exact hr
    · rcases s4 with rfl | ⟨_, rfl⟩
      · exact entries_value _ _ _ _ _ s3
      · rcases hbad with hb | hb | hb
        · exact hb k1
        · exfalso
          rcases search_total he (join d1 f) (hlen d1 hl1) with ⟨r, r0, r1⟩ | ⟨_, ns, r1, _, r2⟩
          · rw [r1] at s1; injection s1 with s1; injection s1 with s1; exact r0 s1
          · exact hb ⟨ns, r2 (hj d1 h1.1 h1.2.1).1 (hj d1 h1.1 h1.2.1).2⟩
        · exfalso
          rcases search_total he (join d2 f) (hlen d2 hl2) with ⟨r, r0, r1⟩ | ⟨_, ns, r1, _, r2⟩
          · rw [r1] at s2; injection s2 with s2; injection s2 with s2; exact r0 s2
          · exact hb ⟨ns, r2 (hj d2 h2.1 h2.2.1).1 (hj d2 h2.1 h2.2.1).2⟩
  rcases process_inv hpr with ⟨rfl, hr⟩ | ⟨n1, n2, v, k1, s1, s2, s3, s4⟩
  · exact ⟨hr, [], ho, by simp⟩
  · rw [search_lists he.buf h1] at s1
    rw [search_lists he.buf h2] at s2
    injection s1 with s1; injection s1 with _ s1; subst s1
    injection s2 with s2; injection s2 with _ s2; subst s2
    obtain ⟨⟨w, w1, w2⟩, q⟩ := entries_stop hp hf2 hfd
      (fun g hg k o r k' hh => process_under mode 4096 _ _ ⟨fun _ => isDir_join hg, fun _ => isDir_join hg⟩ k o r k' hh) hrec xs 0 o v k1 s3
    refine ⟨?_, o, ho, q⟩
    rcases s4 with rfl | ⟨rfl, _⟩
    · injection w1 with w1; exact w1 ▸ w2
    · cases w1

/-- Two directories `a` and `b`, each with a directory `s` with a file `y`, and a file `x`. -/
def sameEnv (junk : Nat → Int) (buf : List Byte) : Env where
  glob p _ :=
    if p = bytes! "a/*" then .ok [bytes! "a/./" ++ [0], bytes! "a/s/" ++ [0], bytes! "a/x" ++ [0]]
    else if p = bytes! "b/*" then .ok [bytes! "b/s/" ++ [0], bytes! "b/x" ++ [0]]
    else if p = bytes! "a/s/*" then .ok [bytes! "a/s/y" ++ [0]]
    else if p = bytes! "b/s/*" then .ok [bytes! "b/s/y" ++ [0]]
    else .error 3
  buf := buf
  data p := if p = bytes! "b/s/y" then some [1] else some []
  junk := junk

theorem same_a (junk : Nat → Int) (buf : List Byte) : Lists (sameEnv junk buf) (bytes! "a") [bytes! "s/", bytes! "x"] :=
  ⟨by decide, by decide, by decide, [bytes! "a/./", bytes! "a/s/", bytes! "a/x"], by decide, rfl,
    .drop (n := bytes! "./") (by decide) ⟨bytes! "a", bytes! ".", bytes! "/", by decide, by decide, by decide, Or.inr rfl⟩ (by decide)
      (.keep (by decide) ⟨bytes! "a", bytes! "s", bytes! "/", by decide, by decide, by decide, Or.inr rfl⟩ (by decide)
        (.keep (by decide) ⟨bytes! "a", bytes! "x", [], by decide, by decide, by decide, Or.inl ⟨rfl, by decide⟩⟩ (by decide) .nil))⟩

theorem same_b (junk : Nat → Int) (buf : List Byte) : Lists (sameEnv junk buf) (bytes! "b") [bytes! "s/", bytes! "x"] :=
  ⟨by decide, by decide, by decide, [bytes! "b/s/", bytes! "b/x"], by decide, rfl,
    .keep (by decide) ⟨bytes! "b", bytes! "s", bytes! "/", by decide, by decide, by decide, Or.inr rfl⟩ (by decide)
      (.keep (by decide) ⟨bytes! "b", bytes! "x", [], by decide, by decide, by decide, Or.inl ⟨rfl, by decide⟩⟩ (by decide) .nil)⟩

theorem same_as (junk : Nat → Int) (buf : List Byte) : Lists (sameEnv junk buf) (bytes! "a/s/") [bytes! "y"] :=
  ⟨by decide, by decide, by decide, [bytes! "a/s/y"], by decide, rfl,
    .keep (by decide) ⟨bytes! "a/s", bytes! "y", [], by decide, by decide, by decide, Or.inl ⟨rfl, by decide⟩⟩ (by decide) .nil⟩

theorem same_bs (junk : Nat → Int) (buf : List Byte) : Lists (sameEnv junk buf) (bytes! "b/s/") [bytes! "y"] :=
  ⟨by decide, by decide, by decide, [bytes! "b/s/y"], by decide, rfl,
    .keep (by decide) ⟨bytes! "b/s", bytes! "y", [], by decide, by decide, by decide, Or.inl ⟨rfl, by decide⟩⟩ (by decide) .nil⟩

theorem same_walk (junk : Nat → Int) (buf : List Byte) : Walkable (sameEnv junk buf) (bytes! "a") (bytes! "b") := by
  refine .mk (same_a junk buf) (same_b junk buf) (by decide) ?_ ?_
  · intro f hf _ hd
    obtain rfl : f = bytes! "s/" := by
      rcases List.mem_cons.1 hf with rfl | hf
      · rfl
      · rcases List.mem_cons.1 hf with rfl | hf
        · exact absurd hd (by decide)
        · simp at hf
    refine .mk (same_as junk buf) (same_bs junk buf) (by decide) ?_ ?_
    · intro f hf _ hd
      rw [List.mem_singleton.1 hf] at hd
      exact absurd hd (by decide)
    · intro f _ _ _
      simp only [sameEnv]
      constructor <;> split <;> rfl
  · intro f _ _ _
    simp only [sameEnv]
    constructor <;> split <;> rfl

/-- Mode `i` prints `a/x` only. -/
example : Samefiles.main (sameEnv (fun _ => 0) (List.replicate 4096 0)) [bytes! "i", bytes! "a", bytes! "b"] = .ok (bytes! "a/x\n", 0) := by
  decide +kernel
/-- Mode `n` prints `a/s/y`. -/
example : Samefiles.main (sameEnv (fun _ => 0) (List.replicate 4096 0)) [bytes! "n", bytes! "a", bytes! "b"] = .ok (bytes! "a/s/y\n", 0) := by
  decide +kernel
/-- With another return value `a/x` is not looked at. -/
example : Samefiles.main (sameEnv (fun _ => 7) (List.replicate 4096 0)) [bytes! "i", bytes! "a", bytes! "b"] = .ok ([], 7) := by
  decide +kernel

example : ∃ names : List (List Byte), Samefiles.main (sameEnv (fun _ => 0) (List.replicate 4096 0)) [bytes! "i", bytes! "a", bytes! "b"] =
    .ok (names.flatMap (· ++ [ch '\n']), 0) := by
  obtain ⟨names, h, _⟩ := samefiles_correct (sameEnv (fun _ => 0) (List.replicate 4096 0)) (List.length_replicate ..) (fun _ => rfl)
    (bytes! "i") (bytes! "a") (bytes! "b") (by decide) (same_walk _ _)
  exact ⟨names, h⟩

theorem sameEnv_ok (junk : Nat → Int) (buf : List Byte) (hb : buf.length = 4096) : Env.Ok (sameEnv junk buf) := by
  refine ⟨hb, ?_, ?_⟩
  · intro p b ps h
    simp only [sameEnv] at h
    split at h
    · injection h with h; subst h
      exact ⟨[bytes! "a/./", bytes! "a/s/", bytes! "a/x"], rfl, by decide⟩
    · split at h
      · injection h with h; subst h
        exact ⟨[bytes! "b/s/", bytes! "b/x"], rfl, by decide⟩
      · split at h
        · injection h with h; subst h
          exact ⟨[bytes! "a/s/y"], rfl, by decide⟩
        · split at h
          · injection h with h; subst h
            exact ⟨[bytes! "b/s/y"], rfl, by decide⟩
          · cases h
  · intro p b r h
    simp only [sameEnv] at h
    split at h
    · cases h
    · split at h
      · cases h
      · split at h
        · cases h
        · split at h
          · cases h
          · injection h with h; subst h; decide

example (out : List Byte) (status : Int)
    (h : Samefiles.main (sameEnv (fun _ => 7) (List.replicate 4096 0)) [bytes! "i", bytes! "a", bytes! "b"] = .ok (out, status)) : status ≠ 0 :=
  (samefiles_stops _ (sameEnv_ok _ _ (List.length_replicate ..)) (bytes! "i") (bytes! "a") (bytes! "b") (by decide) (by decide) (by decide)
    [] [bytes! "x"] [bytes! "s/", bytes! "x"] (bytes! "s/") (same_a _ _) (same_b _ _) (by decide) (by decide) (Or.inl (fun _ => show (7 : Int) ≠ 0 by decide)) out status h).1

end Ulz.Props
