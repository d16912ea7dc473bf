import Verif.Proofs.Tempdirs
/-! C158, C159: processes calling `mktempdir` at the same time. -/
set_option linter.unusedVariables false
namespace Ulz.Props
open Ulz.Tempdirs Ulz.Tempdirs.Spec
open Ulz.Filelib (Mk)

/-- C158. Any number of processes call `mktempdir`, with any random numbers and prefixes, in any interleaving of their
    calls of `mkdir`, with any failures, while other programs make directories and processes remove the directories
    they have got. At every moment (after every schedule) no two processes own the same directory; every owned directory
    exists and was made by its owner: it is none of those that existed before or were made by others, which
    all still exist; and apart from these and the owned ones no directory has been left behind. -/
theorem mktempdir_concurrent (ps : List Proc) (D : List (List Byte)) (es : List Ev) (hs : Start ps) (hD : D.Nodup) :
    (allOwned (Tempdirs.run ⟨D, ps⟩ es).procs).Nodup ∧
    (∃ X, X.Sublist (others es) ∧
      (Tempdirs.run ⟨D, ps⟩ es).dirs.Perm (allOwned (Tempdirs.run ⟨D, ps⟩ es).procs ++ (X ++ D))) ∧
    (Tempdirs.run ⟨D, ps⟩ es).dirs.Nodup ∧
    (∀ p ∈ (Tempdirs.run ⟨D, ps⟩ es).procs, ∀ e, next p.call p.ans ≠ .bad e) := by
  obtain ⟨X, hX, O, h1, h2⟩ := run_inv es (start_inv hs hD)
  have hn := (h1.perm.nodup_iff).1 h1.nodup
  exact ⟨(List.nodup_append.1 hn).1, ⟨X, hX, h1.perm.trans (h2.append_left _)⟩, h1.nodup,
    fun p hp e => next_bad (h1.calls p hp) _ e⟩

/-- C159. Programs that have not called `srand` all get the same numbers from `rand`, hence try the same names in the
    same order: if `N` of them, with the same prefix, run one after the other and keep their directories, the k-th
    (from 0) finds k names taken and gets the k-th name. -/
theorem mktempdir_same_names (c : Call) (t junk : List Byte) (hp : c.pre = t ++ 0 :: junk) (h0 : (0 : Byte) ∉ t)
    (hb : c.bufsize ≤ c.buf.length) (hbig : 16 + t.length ≤ c.bufsize) (D : List (List Byte)) (N : Nat)
    (hinj : ∀ i j, i < N → j < N → name c.rand i = name c.rand j → i = j)
    (hnew : ∀ j, j < N → bytes! "/dev/shm/" ++ t ++ name c.rand j ∉ D) :
    Tempdirs.run ⟨D, List.replicate N ⟨c, [], false⟩⟩
        ((List.range N).flatMap fun i => List.replicate (i + 1) (.call i false)) =
      ⟨(List.range N).reverse.map (fun j => bytes! "/dev/shm/" ++ t ++ name c.rand j) ++ D,
        (List.range N).map (fun i => ⟨c, List.replicate i .eexist ++ [.ok], false⟩)⟩ := by
  have := queue hp h0 hb hbig D N hinj hnew N (Nat.le_refl _)
  simpa using this

/-- C159, continued. Whoever knows the random numbers can make the call go on for ever: while the names that come next
    exist, each call of `mkdir` answers EEXIST and another one follows. -/
theorem mktempdir_blocked (c : Call) (t junk : List Byte) (hp : c.pre = t ++ 0 :: junk) (h0 : (0 : Byte) ∉ t)
    (hb : c.bufsize ≤ c.buf.length) (hbig : 16 + t.length ≤ c.bufsize) (D : List (List Byte)) (m : Nat)
    (hD : ∀ k, k < m → bytes! "/dev/shm/" ++ t ++ name c.rand k ∈ D) (r : Bool) :
    Tempdirs.run ⟨D, [⟨c, [], false⟩]⟩ (List.replicate m (.call 0 r)) = ⟨D, [⟨c, List.replicate m .eexist, false⟩]⟩ ∧
    next c (List.replicate m .eexist) = .asks (bytes! "/dev/shm/" ++ t ++ name c.rand m) := by
  refine ⟨?_, by rw [next_eexist c t junk hp h0 hb hbig m, draw_name]⟩
  have := retry hp h0 hb hbig (i := 0) (r := r) false m 0 ⟨D, [⟨c, [], false⟩]⟩ rfl (by simpa using hD)
  rw [this]
  simp

/-- `rand() = 0, 1, 2, ...`, prefix "t", a buffer of 20 bytes. -/
def tmpCall : Call := ⟨fun n => n, bytes! "t" ++ [0], List.replicate 20 7, 20⟩

example : Start [⟨tmpCall, [], false⟩, ⟨tmpCall, [], false⟩] := by
  intro p hp
  have : p = ⟨tmpCall, [], false⟩ := by simpa using hp
  subst this
  exact ⟨rfl, rfl, by decide, bytes! "t", [], rfl, by decide⟩

/-- Two processes with the same random numbers: both try 012345, the second one then gets 6789AB. -/
example : allOwned (Tempdirs.run ⟨[], [⟨tmpCall, [], false⟩, ⟨tmpCall, [], false⟩]⟩
      [.call 1 false, .call 0 false, .call 0 false]).procs =
    [bytes! "/dev/shm/t6789AB", bytes! "/dev/shm/t012345"] := by decide +kernel

/-- The hypotheses of C159 for three processes. -/
example : (∀ i j, i < 3 → j < 3 → name tmpCall.rand i = name tmpCall.rand j → i = j) ∧
    ∀ j, j < 3 → bytes! "/dev/shm/" ++ bytes! "t" ++ name tmpCall.rand j ∉ ([] : List (List Byte)) :=
  ⟨by
    have : ∀ i : Fin 3, ∀ j : Fin 3, name tmpCall.rand i = name tmpCall.rand j → i = j := by decide +kernel
    intro i j hi hj h
    exact congrArg Fin.val (this ⟨i, hi⟩ ⟨j, hj⟩ h), by simp⟩

end Ulz.Props
