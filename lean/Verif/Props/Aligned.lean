import Verif.Proofs.Aligned
import Verif.Props.Tlist
import Verif.Props.Ssalloc
import Verif.Props.Spgrow
/-! Property C215: alignment of the memory that the containers hand out. An address is aligned for a type if it is a multiple of the
type's alignment, which is a power of two and divides the type's size. -/
namespace Ulz.Props
open Ulz.Held Ulz.Aligned

/-- C215. All items of an sblist, wherever its buffer is, are aligned to `a` exactly if there are none, or the buffer is and, if there is
    more than one, the item size is a multiple of `a`. So with items of a type, in a buffer from malloc, all are aligned. -/
theorem sblist_aligned (a : Nat) (ha : a ∣ 2 ^ 64) (base : Nat → Nat) (s : HSB) :
    (∀ i p, sblist_addr base s i = some p → a ∣ p) ↔ s.l.count = 0 ∨ (a ∣ base s.buf ∧ (s.l.count = 1 ∨ a ∣ s.l.itemsize)) := by
  have key : ∀ i, i < s.l.count → sblist_addr base s i = some (base s.buf + szt (i * s.l.itemsize)) := by
    intro i hi
    simp [sblist_addr, sbget, Sblist.get, hi]
  constructor
  · intro h
    by_cases h0 : s.l.count = 0
    · exact Or.inl h0
    · have e0 := h 0 _ (key 0 (by omega))
      have e1 : a ∣ base s.buf := by simpa [szt] using e0
      refine Or.inr ⟨e1, ?_⟩
      by_cases h1 : s.l.count = 1
      · exact Or.inl h1
      · have e2 := h 1 _ (key 1 (by omega))
        have e3 := (Nat.dvd_add_right e1).1 e2
        rw [Nat.one_mul] at e3
        exact Or.inr ((dvd_szt ha _).1 e3)
  · intro h i p hp
    by_cases hi : i < s.l.count
    · rw [key i hi] at hp
      cases hp
      rcases h with h | ⟨h1, h2⟩
      · omega
      · refine (Nat.dvd_add_right h1).2 ((dvd_szt ha _).2 ?_)
        rcases h2 with h2 | h2
        · have : i = 0 := by omega
          subst this
          simp
        · exact Nat.dvd_trans h2 (Nat.dvd_mul_left _ _)
    · simp [sblist_addr, sbget, Sblist.get, hi] at hp

/-- Items of 12 bytes: the second is not aligned to 8; items of 24 bytes are. -/
example : sblist_addr (fun _ => 4096) ⟨⟨12, 2, 2, 2, List.replicate 24 0⟩, 1⟩ 1 = some 4108 ∧
    sblist_addr (fun _ => 4096) ⟨⟨24, 2, 2, 2, List.replicate 48 0⟩, 1⟩ 1 = some 4120 := by decide

/-- C215. After any history of calls the items of a list made by sblist_new are aligned for their type, if malloc's blocks are. -/
theorem sblist_history_aligned (a isz b : Nat) (ha : a ∣ 2 ^ 64) (hs : a ∣ isz) (base : Nat → Nat) (hb : ∀ n, a ∣ base n)
    (l : Sblist.SB) (hl : Sblist.init isz b = .ok l) (ops : List Sblist.Op) (s : HSB) (rs : List Sblist.Res) (hr : sbrun ⟨l, 0⟩ ops = .ok (s, rs))
    (i p : Nat) (hp : sblist_addr base s i = some p) : a ∣ p := by
  have hl' : l.itemsize = isz := by
    unfold Sblist.init at hl
    split at hl
    · cases hl; rfl
    · split at hl
      · cases hl
      · cases hl; rfl
  exact (sblist_aligned a ha base s).2 (Or.inr ⟨hb _, Or.inr (by rw [run_isz ops _ _ _ hr]; exact hl' ▸ hs)⟩) i p hp

/-- C215. The same for tglist, and so for the keys and values of the maps made of it. -/
theorem tglist_aligned (a isz : Nat) (ha : a ∣ 2 ^ 64) (hs : a ∣ isz) (base : Nat → Nat) (s : HTG) (hb : a ∣ base s.buf) (i : Nat) :
    a ∣ tglist_addr isz base s i := by
  unfold tglist_addr tgptr
  exact (Nat.dvd_add_right hb).2 ((dvd_szt ha _).2 (Nat.dvd_trans hs (Nat.dvd_mul_left _ _)))

/-- C215. The items of a tlist are always 8 bytes off a multiple of 16, with the blocks of malloc at multiples of 16: after any history
    of calls, tlist_get gives addresses that are aligned for types with alignments up to 8, and never for a type like `long double`
    with alignment 16. -/
theorem tlist_aligned (itemsize : Nat) (ext : List Nat) (ops : List Tlist.Op) (hn : ops.length < 2^32)
    (hv : Tlist.Spec.Valid (Tlist.tlist_new itemsize ext) ops) (h16 : ∀ op ∈ ops, ∀ a, Held.Spec.mem op = some a → a % 16 = 0)
    (t : Tlist.TL) (rs : List Tlist.Res) (hr : Tlist.run (Tlist.tlist_new itemsize ext) ops = .ok (t, rs)) (idx : Nat) :
    ∃ p, Tlist.tlist_get t idx = .ok p ∧ p % 16 = 8 := by
  obtain ⟨t', rs', T, e1, -, hw, hsz⟩ := Tlist.run_spec ops _ .nil (Tlist.new_wf itemsize ext) (by simpa [Tlist.Spec.Tr.size] using hn) hv
  rw [hr] at e1
  cases e1
  have hT : T.size < 2 ^ 32 := by simp only [Tlist.Spec.Tr.size] at hsz; omega
  obtain ⟨g1, g2⟩ := tlist_get_out_of_range t T hw hT idx
  by_cases hi : idx % 2 ^ 32 < T.items.length
  · obtain ⟨a, ga, gl, -⟩ := g1 hi
    refine ⟨_, ga, ?_⟩
    have ham : a % 16 = 0 := by
      refine Decidable.byContradiction fun hne => ?_
      obtain ⟨t'', rs'', T'', f1, f2, -, f4⟩ := tl_gone a ops _ .nil (Tlist.new_wf itemsize ext) (by simpa [Tlist.Spec.Tr.size] using hn) hv
        (by simp [Tlist.Spec.Tr.addrs])
      rw [hr] at f1
      cases f1
      refine f4 (fun op ho hm => hne (h16 op ho a hm)) ((f2.live a).1 gl)
    omega
  · exact ⟨24, (g2 (by omega)).1, rfl⟩

example : (match Tlist.run (Tlist.tlist_new 16 []) [.append (List.replicate 16 7) (some 4096), .insert 0 (List.replicate 16 8) (some 4160)] with
    | .ok (t, _) => (Tlist.tlist_get t 0, Tlist.tlist_get t 1)
    | .error e => (.error e, .error e)) = (.ok 4184, .ok 4120) := by decide

/-- C215. The elements of a single size pool: every pointer that any history of allocations and frees can give is aligned to `a` exactly
    if the pool is and, unless it has one element only, the element size is a multiple of `a`. -/
theorem ssalloc_aligned (a M E base : Nat) (hM : 0 < M) (hM' : M < 2 ^ 64) (hE : 0 < E) :
    (∀ ops, (∀ o ∈ ops, Ssalloc.Spec.OpOk E o) → ∀ q rs, Ssalloc.run M E (Ssalloc.ssa_init M) ops = .ok (q, rs) →
      ∀ r ∈ rs, ∀ p, ssa_addr base r = some p → a ∣ p) ↔ a ∣ base ∧ (M = 1 ∨ a ∣ E) := by
  constructor
  · intro h
    obtain ⟨q, rs, e, hm⟩ := ssa_first hM hM' hE
    have h1 : a ∣ base := by
      have := h [.alloc 0] (by intro o ho; cases List.mem_singleton.1 ho; trivial) q rs e _ hm _ rfl
      simpa using this
    refine ⟨h1, ?_⟩
    by_cases h2 : M = 1
    · exact Or.inl h2
    · obtain ⟨q, rs, e, hm⟩ := ssa_second (M := M) (by omega) hM' hE
      have := h [.alloc 0, .alloc 0] (by
        intro o ho
        simp only [List.mem_cons, List.not_mem_nil, or_false, or_self] at ho
        subst ho; trivial) q rs e _ hm _ rfl
      exact Or.inr ((Nat.dvd_add_right h1).1 this)
  · rintro ⟨h1, h2⟩ ops ho q rs hr r hm p hp
    obtain ⟨-, hs⟩ := ssa_hist hM hM' hE ho hr
    cases r with
    | none => cases hp
    | some o =>
      cases hp
      obtain ⟨i, hi, rfl⟩ := hs _ hm _ rfl
      refine (Nat.dvd_add_right h1).2 ?_
      rcases h2 with h2 | h2
      · have : i = 0 := by omega
        subst this
        simp
      · exact Nat.dvd_trans h2 (Nat.dvd_mul_left _ _)

/-- C215. The pool is a structure with members of type size_t: C aligns it to 8, not to 16. If it is at an address that is not a multiple
    of 16, no element of a size that is a multiple of 16 is ever at one. -/
theorem ssalloc_not_16 (M E base : Nat) (hM : 0 < M) (hM' : M < 2 ^ 64) (hE : 0 < E) (h16 : 16 ∣ E) (hb : base % 16 = 8) (ops : List Ssalloc.Op)
    (ho : ∀ o ∈ ops, Ssalloc.Spec.OpOk E o) (q : Ssalloc.Pool) (rs : List (Option Nat)) (hr : Ssalloc.run M E (Ssalloc.ssa_init M) ops = .ok (q, rs))
    (r : Option Nat) (hm : r ∈ rs) (p : Nat) (hp : ssa_addr base r = some p) : p % 16 = 8 := by
  obtain ⟨-, hs⟩ := ssa_hist hM hM' hE ho hr
  cases r with
  | none => cases hp
  | some o =>
    cases hp
    obtain ⟨i, hi, rfl⟩ := hs _ hm _ rfl
    obtain ⟨k, rfl⟩ := h16
    rw [show i * (16 * k) = 16 * (i * k) by rw [Nat.mul_left_comm]]
    show (base + 16 * (i * k)) % 16 = 8
    omega

example : Ssalloc.run 8 32 (Ssalloc.ssa_init 8) [.alloc 16, .alloc 32] = .ok (⟨[3], 2, 6⟩, [some 0, some 32]) := by decide

/-- C215. The text of a stringptr made by stringptr_new is as aligned as the block, up to 16. -/
theorem stringptr_aligned (a : Nat) (ha : a ∣ 16) (base : Nat → Nat) (hb : ∀ n, a ∣ base n) (f : Nat → Byte) (h : Spgrow.Heap) (s : List Byte)
    (hs : s.length + 17 < 2 ^ 64) : ∃ h' p t, Spgrow.make f h s = .ok (h', p) ∧ text_addr base h' p = .ok t ∧ a ∣ t := by
  refine ⟨_, _, base h.next + 16, Spgrow.make_ok f h s hs, ?_, (Nat.dvd_add_right (hb _)).2 ha⟩
  unfold text_addr Spgrow.hdr Spgrow.Heap.put
  simp only [if_true]
  rfl

example : 16 ∣ 16 ∧ (bytes! "text").length + 17 < 2 ^ 64 := by decide

end Ulz.Props
