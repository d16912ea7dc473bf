import Verif.Proofs.Ssatest
/-! Property C164: the counters of the single size allocator, its debugging variant, and its test program. -/
namespace Ulz.Props
open Ulz.Ssalloc Ulz.Ssalloc.Spec

/-- C164: after every history `avail` is the number of elements that are not live, `top` is one more than the number of the
    highest live element (0 if there is none), and the bits of `used` are set exactly for the live elements. -/
theorem ssalloc_counters (M E : Nat) (hM : 0 < M) (hM' : M < 2 ^ 64) (hE : 0 < E) (ops : List Op) (h : ∀ o ∈ ops, OpOk E o) :
    ∃ p live rs, run M E (ssa_init M) ops = .ok (p, rs) ∧ Steps M E [] ops live rs ∧
      p.avail = M - live.length ∧ live.length ≤ M ∧
      (p.top = 0 ↔ live = []) ∧ (live ≠ [] → p.top - 1 ∈ live) ∧ (∀ i ∈ live, i < p.top) ∧
      ∀ i, i < M → Bitarray.BA_GET p.used i = .ok (decide (i ∈ live)) := by
  obtain ⟨p, live, rs, h1, h2, h3⟩ := run_spec hM hE ops (inv_init M hM') h
  have ha := h2.avail
  refine ⟨p, live, rs, h1, h3, by omega, by omega, ⟨?_, ?_⟩, ?_, h2.lt, ?_⟩
  · intro ht
    cases live with
    | nil => rfl
    | cons x l => have := h2.lt x (by simp); omega
  · intro hl
    subst hl
    rcases h2.last with hh | hh
    · exact hh
    · simp at hh
  · intro hl
    rcases h2.last with hh | hh
    · cases live with
      | nil => exact absurd rfl hl
      | cons x l => have := h2.lt x (by simp); omega
    · exact hh
  · intro i hi
    rw [Bitarray.get_spec (size_ok h2.len hi)]
    congr 1
    have := h2.bits i
    by_cases hm : i ∈ live
    · rw [this.2 hm]; simp [hm]
    · simp only [hm, decide_false]
      cases hb : Bitarray.bit p.used i with
      | false => rfl
      | true => exact absurd (this.1 hb) hm

/-- C164: compiled with DEBUG, `ssa_free` aborts the program exactly when the pointer is not that of a live element (after any
    history), where it does nothing otherwise; for live elements the two variants are the same. -/
theorem ssalloc_debug (M E : Nat) (hM : 0 < M) (hM' : M < 2 ^ 64) (hE : 0 < E) (ops : List Op) (h : ∀ o ∈ ops, OpOk E o)
    (d : Int) (hd : FreeOk E d) :
    ∃ p live rs, run M E (ssa_init M) ops = .ok (p, rs) ∧ Steps M E [] ops live rs ∧
      ((∃ i ∈ live, d = ((i * E : Nat) : Int)) →
        ∃ p', ssa_free_debug M E p d = .ok (some p') ∧ ssa_free M E p d = .ok p') ∧
      ((¬ ∃ i ∈ live, d = ((i * E : Nat) : Int)) →
        ssa_free_debug M E p d = .ok none ∧ ssa_free M E p d = .ok p) := by
  obtain ⟨p, live, rs, h1, h2, h3⟩ := run_spec hM hE ops (inv_init M hM') h
  refine ⟨p, live, rs, h1, h3, ?_, ?_⟩
  · rintro ⟨i, hi, hdi⟩
    rcases free_debug_spec hE h2 hd with ⟨p', j, _, _, e1, e2, _⟩ | ⟨hn, _⟩
    · exact ⟨p', e1, e2⟩
    · exact absurd hdi (hn i hi)
  · intro hn
    rcases free_debug_spec hE h2 hd with ⟨p', j, hj, hdj, _⟩ | ⟨_, e1, e2⟩
    · exact absurd ⟨j, hj, hdj⟩ hn
    · exact ⟨e1, e2⟩

/-- A double free. -/
example : (do
    let (p, _) ← run 8 16 (ssa_init 8) [.alloc 16, .alloc 3, .free 16]
    ssa_free_debug 8 16 p 16) = .ok none := by decide

/-- C164: the program tests/ssalloc_test.c never fails an assertion, never aborts and has no undefined behaviour, whatever
    numbers `rand` delivers. -/
theorem ssalloc_test_passes (r1 r2 r3 : Nat → Bool) : ∃ t, main 256 6 (bytes! "ABCDEF") 46 r1 r2 r3 = .ok (some t) :=
  main_spec (M := 256) (E := 6) (w := bytes! "ABCDEF") (probe := 46) (by omega) (by omega) (by omega) rfl (by omega) r1 r2 r3

/-- C164: the same holds for other numbers of elements that are multiples of 8, and other sizes and contents. -/
theorem ssalloc_test_general (M E : Nat) (w : List Byte) (probe : Nat) (h8 : M % 8 = 0) (hM : M < 2 ^ 64) (hE : 0 < E)
    (hw : w.length = E) (hp : probe < M) (r1 r2 r3 : Nat → Bool) : ∃ t, main M E w probe r1 r2 r3 = .ok (some t) :=
  main_spec h8 hM hE hw hp r1 r2 r3

/-- With 12 elements the test fails for some numbers, because the last four are not searched (C71). -/
example : main 12 1 [7] 3 (fun _ => true) (fun _ => true) (fun i => i == 9) = .ok none := by decide +kernel

end Ulz.Props
