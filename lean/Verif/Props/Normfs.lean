import Verif.Proofs.Normfs2
import Verif.Props.Filelib
/-! C227: what a normalized path names, in a file system with links. -/
namespace Ulz.Props
open Ulz.Normfs Ulz.Normfs.Spec Ulz.Filelib Ulz.Filelib.Spec
open Ulz.Stringptr (SP)
open Ulz.Stringptr.Spec (join Holds)

/-- C227: `normalizepath` and `normalizepath_cstr` succeed exactly when there is a normal form, and give it. -/
theorem normfs_code (stack : Nat → Byte) (s junk out : List Byte) (h0 : (0 : Byte) ∉ s) (hs : s.length < 4096) (ho : s.length + 1 ≤ out.length) (x : List Byte) :
    ((∃ p, normalizepath stack ⟨s ++ 0 :: junk, s.length⟩ = .ok (p, 1) ∧ Holds p x) ↔ normalize s = some x) ∧
    ((∃ out', normalizepath_cstr (s ++ 0 :: junk) out = .ok (out', true) ∧ x ++ [0] <+: out' ∧ (0 : Byte) ∉ x) ↔ normalize s = some x) := by
  constructor
  · rw [normalizepath_correct stack s junk h0 hs]
    cases h : normalize s with
    | none => simp
    | some y =>
      constructor
      · rintro ⟨p, hp, hx⟩
        simp only [Except.ok.injEq, Prod.mk.injEq, and_true] at hp
        subst hp
        obtain ⟨h1, h2⟩ := hx
        simp only at h1 h2
        have h3 : x <+: y := List.prefix_of_prefix_length_le h2 (List.prefix_append _ _) (by omega)
        rw [h3.eq_of_length h1.symm]
      · intro e
        cases e
        exact ⟨_, rfl, rfl, List.prefix_append _ _⟩
  · obtain ⟨out', h1, h2, h3⟩ := normalizepath_cstr_correct s junk out h0 ho
    rw [h1]
    cases h : normalize s with
    | none => simp
    | some y =>
      have hy := h3 y h
      have hy0 := normalize_zero h0 h
      constructor
      · rintro ⟨o, ho, hx, hx0⟩
        simp only [Except.ok.injEq, Prod.mk.injEq, Option.isSome_some, and_true] at ho
        subst ho
        have key : ∀ u v : List Byte, (0 : Byte) ∉ v → u ++ [0] <+: v ++ [0] → u = v := by
          intro u v hv ⟨r, hr⟩
          rcases List.eq_nil_or_concat r with rfl | ⟨r', c, rfl⟩
          · simpa using hr
          · exfalso
            rw [List.concat_eq_append, ← List.append_assoc] at hr
            have := (List.append_inj' hr rfl).1
            exact hv (by rw [← this]; simp)
        rcases Nat.le_total x.length y.length with hl | hl
        · rw [key x y hy0 (List.prefix_of_prefix_length_le hx hy (by simp [hl]))]
        · rw [key y x hx0 (List.prefix_of_prefix_length_le hy hx (by simp [hl]))]
      · intro e
        cases e
        exact ⟨_, rfl, hy, hy0⟩

theorem code_form {stack : Nat → Byte} {s junk x : List Byte} {p : SP} (h0 : (0 : Byte) ∉ s) (hlen : s.length < 4096)
    (h : normalizepath stack ⟨s ++ 0 :: junk, s.length⟩ = .ok (p, 1)) (hp : Holds p x) : normalize s = some x :=
  (normfs_code stack s junk (List.replicate 5000 0) h0 hlen (by simp only [List.length_replicate]; omega) x).1.1 ⟨p, h, hp⟩

/-- C227: a path names at most one thing. -/
theorem normfs_one (fs : Fs) (s : List Byte) (l l' : Place) (h : Names fs s l) (h' : Names fs s l') : l = l' := leads_det h.2 h'.2

/-- C227: without links, whatever a path names, the path that `normalizepath` makes of it names as well. -/
theorem normfs_tree (fs : Fs) (hs : Sound fs) (hl : Linkfree fs) (stack : Nat → Byte) (s junk x : List Byte) (p : SP) (h0 : (0 : Byte) ∉ s)
    (hlen : s.length < 4096) (h : normalizepath stack ⟨s ++ 0 :: junk, s.length⟩ = .ok (p, 1)) (hp : Holds p x) (l : Place) (hn : Names fs s l) : Names fs x l :=
  form_tree fs hs hl s x (code_form h0 hlen h hp) l hn

/-- C227: with links, so it is for every path without `..`; and then the new path names nothing more, except a file whose path ends
    in `/` or `/.`, which the path does not name. -/
theorem normfs_nodots (fs : Fs) (hs : Sound fs) (stack : Nat → Byte) (s junk x : List Byte) (p : SP) (h0 : (0 : Byte) ∉ s)
    (hlen : s.length < 4096) (h : normalizepath stack ⟨s ++ 0 :: junk, s.length⟩ = .ok (p, 1)) (hp : Holds p x) (hd : bytes! ".." ∉ components s) (l : Place) :
    Names fs s l ↔ Names fs x l ∧ (fs l = some .dir ∨ ¬ (bytes! "/" <:+ s ∨ bytes! "/." <:+ s)) :=
  form_nodots fs hs s x (code_form h0 hlen h hp) hd l

/-- C227: a path with a `..` is never safe: in some file system it names one thing, and what `normalizepath` makes of it another. -/
theorem normfs_dots (stack : Nat → Byte) (s junk x : List Byte) (p : SP) (h0 : (0 : Byte) ∉ s)
    (hlen : s.length < 4096) (h : normalizepath stack ⟨s ++ 0 :: junk, s.length⟩ = .ok (p, 1)) (hp : Holds p x) (hd : bytes! ".." ∈ components s) :
    ∃ fs l l', Sound fs ∧ Names fs s l ∧ Names fs x l' ∧ l ≠ l' :=
  form_dots s x h0 (code_form h0 hlen h hp) hd

/-- C227: without links the new path may still name something where the path does not: a name that does not exist can be left by `..`.
    Here `x` is any path that `normalizepath` leaves as it is. -/
theorem normfs_missing (fs : Fs) (hs : Sound fs) (n x s : List Byte) (hn : Name n) (hm : fs [n] = none) (hs' : s = ch '/' :: n ++ bytes! "/.." ++ x)
    (stack : Nat → Byte) (junk : List Byte) (h0 : (0 : Byte) ∉ x) (hlen : s.length < 4096)
    (hx : ∃ p, normalizepath stack ⟨x ++ 0 :: junk, x.length⟩ = .ok (p, 1) ∧ Holds p x) :
    (∃ p, normalizepath stack ⟨s ++ 0 :: junk, s.length⟩ = .ok (p, 1) ∧ Holds p x) ∧ ∀ l, ¬ Names fs s l := by
  obtain ⟨q, h1, h2⟩ := hx
  have hlx : x.length < 4096 := by rw [hs'] at hlen; simp at hlen; omega
  obtain ⟨h3, h4⟩ := form_missing fs hs n x hn (code_form h0 hlx h1 h2) hm
  subst hs'
  refine ⟨(normfs_code stack _ junk (List.replicate 5000 0) ?_ hlen (by simp only [List.length_replicate]; omega) x).1.2 h3, h4⟩
  intro hh
  rcases List.mem_append.1 hh with hh | hh
  · rcases List.mem_append.1 hh with hh | hh
    · rcases List.mem_cons.1 hh with hh | hh
      · exact absurd hh (by decide)
      · exact hn.2.2.2.2 hh
    · exact absurd hh (by decide)
  · exact h0 hh

/-- C227: an absolute path that is refused, because it climbs above the root, names something all the same (the root is its own parent). -/
theorem normfs_refused (stack : Nat → Byte) (s junk : List Byte) (p : SP) (h0 : (0 : Byte) ∉ s) (hlen : s.length < 4096) (ha : s.head? = some (ch '/'))
    (h : normalizepath stack ⟨s ++ 0 :: junk, s.length⟩ = .ok (p, 0)) : bytes! ".." ∈ components s ∧ ∃ fs l, Sound fs ∧ Linkfree fs ∧ Names fs s l := by
  rw [normalizepath_correct stack s junk h0 hlen] at h
  cases hn : normalize s with
  | some y => rw [hn] at h; simp at h
  | none =>
    refine ⟨?_, form_refused s h0 ha hn⟩
    refine Classical.byContradiction fun hd => ?_
    cases s with
    | nil => cases ha
    | cons b r =>
      simp at ha
      subst ha
      rw [components_slash] at hd
      unfold normalize at hn
      dsimp only at hn
      rw [if_pos rfl, resolve_plain fun hh => hd (List.mem_cons_of_mem _ hh)] at hn
      simp at hn

/- The theorems apply: a path without `..`, two with it, one that is refused. -/
example : normalize (bytes! "/usr//lib/./x/") = some (bytes! "/usr/lib/x") ∧ bytes! ".." ∉ components (bytes! "/usr//lib/./x/") := by decide
example : normalize (bytes! "/usr/tmp/../lib") = some (bytes! "/usr/lib") ∧ bytes! ".." ∈ components (bytes! "/usr/tmp/../lib") := by decide
example : normalize (bytes! "/a/../a") = some (bytes! "/a") ∧ bytes! ".." ∈ components (bytes! "/a/../a") := by decide
example : normalize (bytes! "/../etc") = none ∧ normalize (bytes! "/etc") = some (bytes! "/etc") := by decide

/-- A file system: a directory `/d` with a file in it, and a link `/k` to `d`. -/
def normfsDemo : Fs := fun l => if l = [] ∨ l = [bytes! "d"] then some .dir else if l = [bytes! "d", bytes! "f"] then some .file
  else if l = [bytes! "k"] then some (.link (bytes! "d")) else none

example : Names normfsDemo (bytes! "/k/./f") [bytes! "d", bytes! "f"] :=
  ⟨rfl, .stay (by decide) (.inl rfl) (.link (by decide) (by decide) (by decide) (by decide) (t := bytes! "d") (by decide) (by decide)
    (.down (by decide) (by decide) (by decide) (by decide) (by decide) .done)
    (.stay (by decide) (.inr rfl) (.down (by decide) (by decide) (by decide) (by decide) (by decide) .done)))⟩

example : Sound normfsDemo := by
  refine ⟨by decide, ?_⟩
  intro l n h
  unfold normfsDemo at h
  have e : ∀ m : List Byte, l ++ [n] = [m] → l = [] ∧ n = m := by
    intro m hm
    cases l with
    | nil => simpa using hm
    | cons a l => simp at hm
  split at h
  · rename_i h1
    rcases h1 with h1 | h1
    · simp at h1
    · obtain ⟨rfl, rfl⟩ := e _ h1
      exact ⟨by decide, by unfold Name; decide⟩
  · split at h
    · rename_i h1
      have : l = [bytes! "d"] ∧ n = bytes! "f" := by
        have := List.append_inj' (s₁ := l) (t₁ := [n]) (s₂ := [bytes! "d"]) (t₂ := [bytes! "f"]) h1 rfl
        exact ⟨this.1, by simpa using this.2⟩
      obtain ⟨rfl, rfl⟩ := this
      exact ⟨by decide, by unfold Name; decide⟩
    · split at h
      · rename_i h1
        obtain ⟨rfl, rfl⟩ := e _ h1
        exact ⟨by decide, by unfold Name; decide⟩
      · exact absurd rfl h

end Ulz.Props
