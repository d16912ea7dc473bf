import Verif.Spec.Ssalloc
import Verif.Proofs.Bitarray
import Verif.Proofs.Mem
/-! Lemmas about the single size allocator. -/
namespace Ulz.Ssalloc
open Ulz.Bitarray Ulz.Ssalloc.Spec

/-- The pool describes the live elements. -/
structure Inv (M : Nat) (p : Pool) (live : List Nat) : Prop where
  len : p.used.length = BA_SIZE_REQUIRED M
  nodup : live.Nodup
  bits : ∀ i, bit p.used i = true ↔ i ∈ live
  lt : ∀ i ∈ live, i < p.top
  top : p.top ≤ M
  last : p.top = 0 ∨ p.top - 1 ∈ live
  avail : p.avail + live.length = M
  small : M < 2 ^ 64

theorem size_ok {M i : Nat} {u : List Byte} (h : u.length = BA_SIZE_REQUIRED M) (hi : i < M) : i < 8 * u.length := by
  rw [h]; unfold BA_SIZE_REQUIRED; split <;> omega

theorem set_true_spec {u : List Byte} {y : Nat} (h : y < 8 * u.length) : ∃ u', BA_SET_TRUE u y = .ok u' ∧ u'.length = u.length ∧
    ∀ z, bit u' z = if z = y then true else bit u z := by simpa [BA_SET] using set_spec h true

theorem set_false_spec {u : List Byte} {y : Nat} (h : y < 8 * u.length) : ∃ u', BA_SET_FALSE u y = .ok u' ∧ u'.length = u.length ∧
    ∀ z, bit u' z = if z = y then false else bit u z := by simpa [BA_SET] using set_spec h false

theorem pigeon {M : Nat} {live : List Nat} (hn : live.Nodup) (hl : ∀ i ∈ live, i < M) (hlen : live.length = M) : ∀ i, i < M → i ∈ live := by
  intro i hi
  apply Classical.byContradiction
  intro hni
  have h := (List.nodup_cons.2 ⟨hni, hn⟩).length_le_of_subset (l₂ := List.range M) (by
    intro x hx
    rw [List.mem_range]
    rcases List.mem_cons.1 hx with rfl | hx
    · exact hi
    · exact hl x hx)
  rw [List.length_cons, List.length_range] at h
  omega

theorem length_le {M : Nat} {live : List Nat} (hn : live.Nodup) (hl : ∀ i ∈ live, i < M) : live.length ≤ M := by
  have h := hn.length_le_of_subset (l₂ := List.range M) (fun x hx => List.mem_range.2 (hl x hx))
  rwa [List.length_range] at h

theorem findBit_spec {p : Pool} {n : Nat} (hn : n ≤ 8 * p.used.length) : ∀ fuel i, n < fuel + i → 0 < fuel → i ≤ n →
    (∃ k, findBit p fuel i n = .ok (some k) ∧ i ≤ k ∧ k < n ∧ bit p.used k = false ∧ ∀ j, i ≤ j → j < k → bit p.used j = true) ∨
    (findBit p fuel i n = .ok none ∧ ∀ j, i ≤ j → j < n → bit p.used j = true) := by
  intro fuel
  induction fuel with
  | zero => intro i _ h; omega
  | succ fuel ih =>
    intro i h1 _ h2
    rw [findBit]
    by_cases hi : i < n
    · rw [if_pos hi, get_spec (by omega), ok_bind]
      cases hb : bit p.used i with
      | false => exact Or.inl ⟨i, rfl, by omega, hi, hb, by intro j _ _; omega⟩
      | true =>
        simp only [if_true]
        rcases ih (i + 1) (by omega) (by omega) (by omega) with ⟨k, a, b, c, d, e⟩ | ⟨a, b⟩
        · refine Or.inl ⟨k, a, by omega, c, d, ?_⟩
          intro j hj1 hj2
          by_cases hj : j = i
          · subst hj; exact hb
          · exact e j (by omega) hj2
        · refine Or.inr ⟨a, ?_⟩
          intro j hj1 hj2
          by_cases hj : j = i
          · subst hj; exact hb
          · exact b j (by omega) hj2
    · rw [if_neg hi]
      exact Or.inr ⟨rfl, by intro j _ _; omega⟩

theorem all_ones {b : Byte} (h : b = 255) (k : Nat) (hk : k < 8) : b.getLsbD k = true := by
  subst h
  match k, hk with
  | 0, _ | 1, _ | 2, _ | 3, _ | 4, _ | 5, _ | 6, _ | 7, _ => rfl
  | k + 8, h => omega

theorem findByte_spec {M : Nat} {p : Pool} (hM : 8 * (M / 8) ≤ 8 * p.used.length) : ∀ fuel b, M / 8 < fuel + b → 0 < fuel → b ≤ M / 8 →
    (∀ j, j < 8 * b → bit p.used j = true) →
    (∃ k, findByte M p fuel b = .ok (some k) ∧ k < 8 * (M / 8) ∧ bit p.used k = false ∧ ∀ j, j < k → bit p.used j = true) ∨
    (findByte M p fuel b = .ok none ∧ ∀ j, j < 8 * (M / 8) → bit p.used j = true) := by
  intro fuel
  induction fuel with
  | zero => intro i _ h; omega
  | succ fuel ih =>
    intro b h1 _ h2 hbelow
    rw [findByte]
    by_cases hb : b < M / 8
    · have hbl : b < p.used.length := by omega
      rw [if_pos hb, rd_ok hbl, ok_bind]
      by_cases hff : p.used[b] ≠ 255
      · rw [if_pos hff]
        rcases findBit_spec (p := p) (n := 8 * (b + 1)) (by omega) 9 (8 * b) (by omega) (by omega) (by omega) with ⟨k, a, x, y, z, w⟩ | ⟨a, x⟩
        · rw [a, ok_bind]
          refine Or.inl ⟨k, rfl, by omega, z, ?_⟩
          intro j hj
          by_cases hjb : j < 8 * b
          · exact hbelow j hjb
          · exact w j (by omega) hj
        · rw [a, ok_bind]
          refine ih (b + 1) (by omega) (by omega) (by omega) ?_
          intro j hj
          by_cases hjb : j < 8 * b
          · exact hbelow j hjb
          · exact x j (by omega) hj
      · rw [if_neg hff]
        refine ih (b + 1) (by omega) (by omega) (by omega) ?_
        intro j hj
        by_cases hjb : j < 8 * b
        · exact hbelow j hjb
        · have hjd : j / 8 = b := by omega
          unfold bit
          rw [hjd, List.getElem?_eq_getElem hbl]
          exact all_ones (Decidable.not_not.1 hff) _ (Nat.mod_lt _ (by omega))
    · rw [if_neg hb]
      exact Or.inr ⟨rfl, fun j hj => hbelow j (by omega)⟩

theorem ssa_set_spec {M E : Nat} {p : Pool} {live : List Nat} (h : Inv M p live) {i : Nat} (hi : i < M) (hn : i ∉ live) {top : Nat}
    (htop : top ≤ M) (hlt : i < top) (hge : p.top ≤ top) (hlast : top - 1 ∈ i :: live) :
    ∃ p', ssa_set E { p with top := top } i = .ok (p', some (i * E)) ∧ Inv M p' (i :: live) := by
  obtain ⟨u, h1, h2, h3⟩ := set_true_spec (size_ok h.len hi)
  unfold ssa_set
  simp only
  rw [h1, ok_bind]
  have hav : 1 ≤ p.avail := by
    have := length_le (List.nodup_cons.2 ⟨hn, h.nodup⟩) (M := M) (by
      intro x hx
      rcases List.mem_cons.1 hx with rfl | hx
      · exact hi
      · have := h.lt x hx; have := h.top; omega)
    rw [List.length_cons] at this
    have := h.avail
    omega
  refine ⟨_, rfl, ?_⟩
  rw [sztSub_of_le hav (by have := h.avail; have := h.small; omega)]
  refine ⟨by rw [h2]; exact h.len, List.nodup_cons.2 ⟨hn, h.nodup⟩, ?_, ?_, htop, Or.inr hlast, ?_, ?_⟩
  · intro z
    rw [h3, List.mem_cons]
    by_cases hz : z = i
    · simp [hz]
    · simp [hz, h.bits z]
  · intro x hx
    rcases List.mem_cons.1 hx with rfl | hx
    · exact hlt
    · have := h.lt x hx; simp only; omega
  · have := h.avail
    rw [List.length_cons]; simp only; omega
  · exact h.small

theorem alloc_spec {M E : Nat} {p : Pool} {live : List Nat} (hM : 0 < M) (h : Inv M p live) (size : Nat) :
    ∃ p' live' r, ssa_alloc M E p size = .ok (p', r) ∧ Inv M p' live' ∧ Step M E live (.alloc size) live' r := by
  unfold ssa_alloc
  by_cases hs : size > E
  · rw [if_pos hs]
    exact ⟨p, live, none, rfl, h, .big hs⟩
  · rw [if_neg hs]
    have hmem : M - 1 ∈ live ↔ p.top = M := by
      constructor
      · intro hm
        have := h.lt _ hm; have := h.top; omega
      · intro ht
        rcases h.last with h0 | h0
        · omega
        · rwa [ht] at h0
    by_cases ht : p.top < M
    · rw [if_pos ht]
      have hn : p.top ∉ live := fun hh => absurd (h.lt _ hh) (by omega)
      obtain ⟨p', e1, e2⟩ := ssa_set_spec (E := E) h ht hn (top := p.top + 1) (by omega) (by omega) (by omega) (by simp)
      have hm1 : M - 1 ∉ live := fun hh => by have := hmem.1 hh; omega
      exact ⟨p', _, _, e1, e2, .alloc (by omega) (fun hf => hm1 hf.1) ht hn (Or.inl ⟨hm1, h.lt, h.last⟩)⟩
    · rw [if_neg ht]
      have htM : p.top = M := by have := h.top; omega
      have hm1 := hmem.2 htM
      have hltM : ∀ i ∈ live, i < M := fun i hi => htM ▸ h.lt i hi
      by_cases hav : p.avail ≠ 0
      · rw [if_pos hav]
        have h8 : 8 * (M / 8) ≤ 8 * p.used.length := by
          rw [h.len]; unfold BA_SIZE_REQUIRED; split <;> omega
        rcases findByte_spec h8 (M / 8 + 1) 0 (by omega) (by omega) (by omega) (by intro j hj; omega) with ⟨k, a, b, c, d⟩ | ⟨a, b⟩
        · rw [a, ok_bind]
          have hk : k ∉ live := fun hh => by rw [(h.bits k).2 hh] at c; exact absurd c (by simp)
          obtain ⟨p', e1, e2⟩ := ssa_set_spec (E := E) h (show k < M by omega) hk (top := p.top) (by omega) (by omega) (by omega)
            (List.mem_cons_of_mem _ (htM ▸ hm1))
          exact ⟨p', _, _, e1, e2, .alloc (by omega) (fun hf => hk (hf.2 k b)) (by omega) hk
            (Or.inr ⟨hm1, hk, fun j hj => (h.bits j).1 (d j hj)⟩)⟩
        · rw [a, ok_bind]
          exact ⟨p, live, none, rfl, h, .full (by omega) ⟨hm1, fun i hi => (h.bits i).1 (b i hi)⟩⟩
      · rw [if_neg hav]
        have hall := pigeon h.nodup hltM (by have := h.avail; omega)
        exact ⟨p, live, none, rfl, h, .full (by omega) ⟨hm1, fun i hi => hall i (by omega)⟩⟩

theorem shrink_spec {u : List Byte} : ∀ top, top ≤ 8 * u.length → ∃ t, shrink u top = .ok t ∧ t ≤ top ∧
    (∀ j, t ≤ j → j < top → bit u j = false) ∧ (t = 0 ∨ bit u (t - 1) = true) := by
  intro top
  induction top with
  | zero => intro _; exact ⟨0, rfl, by omega, by intro j _ _; omega, Or.inl rfl⟩
  | succ top ih =>
    intro hl
    rw [shrink, get_spec (by omega), ok_bind]
    cases hb : bit u top with
    | true => exact ⟨top + 1, rfl, by omega, by intro j _ _; omega, Or.inr hb⟩
    | false =>
      simp only [Bool.false_eq_true, if_false]
      obtain ⟨t, a, b, c, d⟩ := ih (by omega)
      refine ⟨t, a, by omega, ?_, d⟩
      intro j h1 h2
      by_cases hj : j = top
      · subst hj; exact hb
      · exact c j h1 (by omega)

theorem getidx_mul {E : Nat} (hE : 0 < E) (k : Int) : ssa_getidx E (k * E) = k := by
  unfold ssa_getidx
  rw [if_neg (by rw [Int.mul_tmod_left]; simp), Int.mul_tdiv_cancel _ (by omega)]

theorem getidx_not {E : Nat} {d : Int} (h : ¬((E : Int) ∣ d)) : ssa_getidx E d = -1 := by
  unfold ssa_getidx
  rw [if_pos (fun hh => h (Int.dvd_of_tmod_eq_zero hh))]

theorem free_spec {M E : Nat} {p : Pool} {live : List Nat} (hE : 0 < E) (h : Inv M p live) {d : Int} (hd : FreeOk E d) :
    ∃ p' live', ssa_free M E p d = .ok p' ∧ Inv M p' live' ∧ Step M E live (.free d) live' none := by
  have hlt : ∀ i ∈ live, i < M := fun i hi => by have := h.lt i hi; have := h.top; omega
  unfold ssa_free
  simp only
  by_cases hdiv : (E : Int) ∣ d
  · obtain ⟨k, rfl⟩ := hdiv
    rw [Int.mul_comm] at hd ⊢
    rw [getidx_mul hE]
    have hk : -1 ≤ k := by
      rcases hd with hd | hd | hd
      · have := Int.nonneg_of_mul_nonneg_left hd (by omega); omega
      · exact absurd (Int.dvd_mul_left _ _) hd
      · have : k = -1 := by
          apply Int.eq_of_mul_eq_mul_right (a := (E : Int)) (by omega)
          omega
        omega
    have hne : (∀ i ∈ live, k ≠ (i : Int)) → ∀ i ∈ live, k * (E : Int) ≠ ((i * E : Nat) : Int) := by
      intro hh i hi he
      rw [Int.natCast_mul] at he
      exact hh i hi (Int.eq_of_mul_eq_mul_right (by omega) he)
    by_cases hc : k = -1 ∨ k ≥ (M : Int)
    · rw [if_pos hc]
      refine ⟨p, live, rfl, h, .notLive (hne fun i hi => ?_)⟩
      have := hlt i hi
      omega
    · rw [if_neg hc]
      obtain ⟨n, rfl⟩ : ∃ n : Nat, k = n := ⟨k.toNat, by omega⟩
      have hn : n < M := by omega
      unfold getIdx
      rw [if_neg (by omega), Int.toNat_natCast, get_spec (size_ok h.len hn), ok_bind]
      cases hb : bit p.used n with
      | false =>
        refine ⟨p, live, rfl, h, .notLive (hne fun i hi he => ?_)⟩
        have : n = i := by omega
        subst this
        rw [(h.bits n).2 hi] at hb
        exact absurd hb (by simp)
      | true =>
        have hin := (h.bits n).1 hb
        simp only [if_true]
        obtain ⟨u, e1, e2, e3⟩ := set_false_spec (size_ok h.len hn)
        rw [e1, ok_bind]
        obtain ⟨t, s1, s2, s3, s4⟩ := shrink_spec (u := u) p.top (by
          have := h.top
          rw [e2, h.len]; unfold BA_SIZE_REQUIRED; split <;> omega)
        rw [s1, ok_bind]
        have hbits : ∀ z, bit u z = true ↔ z ∈ live.erase n := by
          intro z
          rw [e3, h.nodup.mem_erase_iff]
          by_cases hz : z = n
          · simp [hz]
          · simp [hz, h.bits z]
        refine ⟨_, live.erase n, rfl, ⟨by rw [e2]; exact h.len, h.nodup.erase n, hbits, ?_, ?_, ?_, ?_, h.small⟩, ?_⟩
        · intro z hz
          apply Classical.byContradiction
          intro hge
          have h1 := (h.nodup.mem_erase_iff.1 hz).2
          have := s3 z (by simpa using hge) (h.lt z h1)
          rw [(hbits z).2 hz] at this
          exact absurd this (by simp)
        · have := h.top; simp only; omega
        · rcases s4 with s4 | s4
          · exact Or.inl s4
          · exact Or.inr ((hbits _).1 s4)
        · have := h.avail
          have := List.length_pos_of_mem hin
          rw [List.length_erase_of_mem hin]; simp only; omega
        · rw [← Int.natCast_mul]
          exact .free hin
  · rw [getidx_not hdiv, if_pos (Or.inl rfl)]
    refine ⟨p, live, rfl, h, .notLive fun i hi he => hdiv ?_⟩
    rw [he, Int.natCast_mul]
    exact Int.dvd_mul_left _ _

theorem bit_replicate (n i : Nat) : bit (List.replicate n 0) i = false := by
  unfold bit
  rw [List.getElem?_replicate]
  split <;> simp

theorem inv_init (M : Nat) (hM : M < 2 ^ 64) : Inv M (ssa_init M) [] :=
  ⟨List.length_replicate, List.nodup_nil, fun i => by rw [show (ssa_init M).used = List.replicate _ 0 from rfl, bit_replicate]; simp,
   by simp, by simp [ssa_init], Or.inl rfl, rfl, hM⟩

theorem step_spec {M E : Nat} (hM : 0 < M) (hE : 0 < E) {p : Pool} {live : List Nat} (h : Inv M p live) {o : Op} (ho : OpOk E o) :
    ∃ p' live' r, step M E p o = .ok (p', r) ∧ Inv M p' live' ∧ Step M E live o live' r := by
  cases o with
  | alloc size => exact alloc_spec hM h size
  | free d =>
    obtain ⟨p', live', e1, e2, e3⟩ := free_spec hE h ho
    exact ⟨p', live', none, by unfold step; simp only; rw [e1]; rfl, e2, e3⟩

theorem run_spec {M E : Nat} (hM : 0 < M) (hE : 0 < E) : ∀ (os : List Op) {p : Pool} {live : List Nat}, Inv M p live →
    (∀ o ∈ os, OpOk E o) → ∃ p' live' rs, run M E p os = .ok (p', rs) ∧ Inv M p' live' ∧ Steps M E live os live' rs := by
  intro os
  induction os with
  | nil => intro p live h _; exact ⟨p, live, [], rfl, h, .nil⟩
  | cons o os ih =>
    intro p live h ho
    obtain ⟨p1, l1, r, e1, e2, e3⟩ := step_spec hM hE h (ho o (by simp))
    obtain ⟨p2, l2, rs, f1, f2, f3⟩ := ih e2 (fun x hx => ho x (by simp [hx]))
    exact ⟨p2, l2, r :: rs, by rw [run, e1, ok_bind]; simp only; rw [f1]; rfl, f2, .cons e3 f3⟩

end Ulz.Ssalloc
