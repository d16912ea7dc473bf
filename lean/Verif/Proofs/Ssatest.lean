import Verif.Model.Ssatest
import Verif.Proofs.Ssalloc
import Verif.Proofs.Stringptr
set_option linter.unusedSimpArgs false
set_option linter.unusedVariables false
namespace Ulz.Ssalloc
open Ulz.Bitarray Spec
open Ulz.Stringptr (rdN_ok)

/-- The debugging variant aborts where the other does nothing. -/
theorem free_debug_spec {M E : Nat} {p : Pool} {live : List Nat} (hE : 0 < E) (h : Inv M p live) {d : Int} (hd : FreeOk E d) :
    (∃ p' i, i ∈ live ∧ d = ((i * E : Nat) : Int) ∧ ssa_free_debug M E p d = .ok (some p') ∧ ssa_free M E p d = .ok p' ∧
      Inv M p' (live.erase i)) ∨
    ((∀ i ∈ live, d ≠ ((i * E : Nat) : Int)) ∧ ssa_free_debug M E p d = .ok none ∧ ssa_free M E p d = .ok p) := by
  obtain ⟨p', live', e1, e2, e3⟩ := free_spec hE h hd
  have hlt : ∀ i ∈ live, i < M := fun i hi => by have := h.lt i hi; have := h.top; omega
  cases e3 with
  | free hi =>
    rename_i i
    refine .inl ⟨p', i, hi, rfl, ?_, e1, e2⟩
    have hlm := hlt i hi
    have hg : ssa_getidx E ((i * E : Nat) : Int) = i := by rw [Int.natCast_mul]; exact getidx_mul hE i
    have hbit := (h.bits i).2 hi
    unfold ssa_free at e1
    unfold ssa_free_debug
    simp only [hg] at e1 ⊢
    rw [if_neg (by omega)] at e1 ⊢
    unfold getIdx at e1 ⊢
    rw [if_neg (by omega), Int.toNat_natCast, get_spec (size_ok h.len hlm), ok_bind, hbit] at e1 ⊢
    simp only [if_true] at e1 ⊢
    obtain ⟨u, s1, s2, s3⟩ := set_false_spec (size_ok h.len hlm)
    rw [s1, ok_bind] at e1 ⊢
    cases hs : shrink u p.top with
    | error x => rw [hs] at e1; exact absurd e1 (by intro h; cases h)
    | ok t => rw [hs, ok_bind] at e1; rw [ok_bind]; cases e1; rfl
  | notLive hn =>
    refine .inr ⟨hn, ?_, ?_⟩ <;>
    · first | unfold ssa_free_debug | unfold ssa_free
      simp only
      by_cases hdiv : (E : Int) ∣ d
      · obtain ⟨k, rfl⟩ := hdiv
        rw [Int.mul_comm] at hd hn ⊢
        rw [getidx_mul hE]
        have hk : -1 ≤ k := by
          rcases hd with hd | hd | hd
          · have := Int.nonneg_of_mul_nonneg_left hd (by omega); omega
          · exact absurd (Int.dvd_mul_left _ _) hd
          · have : k = -1 := by
              apply Int.eq_of_mul_eq_mul_right (a := (E : Int)) (by omega)
              omega
            omega
        by_cases hc : k = -1 ∨ k ≥ (M : Int)
        · rw [if_pos hc]; rfl
        · rw [if_neg hc]
          obtain ⟨n, rfl⟩ : ∃ n : Nat, k = n := ⟨k.toNat, by omega⟩
          have hnM : n < M := by omega
          unfold getIdx
          rw [if_neg (by omega), Int.toNat_natCast, get_spec (size_ok h.len hnM), ok_bind]
          have hb : bit p.used n = false := by
            cases hb : bit p.used n with
            | false => rfl
            | true => exact absurd (by rw [Int.natCast_mul]) (hn n ((h.bits n).1 hb))
          rw [hb]; rfl
      · rw [getidx_not hdiv, if_pos (Or.inl rfl)]; rfl

/-- Invariant of the test program. -/
structure TInv (M E : Nat) (w : List Byte) (t : T) (live : List Nat) : Prop where
  inv : Inv M t.pool live
  mlen : t.mem.length = M * E
  plen : t.ptrs.length = M
  held : (t.ptrs.filterMap id).Perm (live.map (· * E))
  data : ∀ e ∈ live, (t.mem.drop (e * E)).take E = w

theorem loop_inv {body : Nat → T → C (Option T)} (P : Nat → T → Prop) : ∀ (n i : Nat) (t : T), P i t →
    (∀ j t, i ≤ j → j < i + n → P j t → ∃ t', body j t = .ok (some t') ∧ P (j + 1) t') →
    ∃ t', loop body n i t = .ok (some t') ∧ P (i + n) t'
  | 0, i, t, h, _ => ⟨t, rfl, h⟩
  | n + 1, i, t, h, hb => by
    obtain ⟨t1, e1, h1⟩ := hb i t (by omega) (by omega) h
    obtain ⟨t2, e2, h2⟩ := loop_inv P n (i + 1) t1 h1 (fun j t hj1 hj2 => hb j t (by omega) (by omega))
    refine ⟨t2, ?_, by rw [show i + (n + 1) = i + 1 + n by omega]; exact h2⟩
    simp only [loop]
    rw [e1, ok_bind]
    exact e2

theorem filterMap_set_none {l : List (Option Nat)} {i a : Nat} (h : l[i]? = some none) :
    ((l.set i (some a)).filterMap id).Perm (a :: l.filterMap id) := by
  obtain ⟨hi, he⟩ := List.getElem?_eq_some_iff.1 h
  rw [List.set_eq_take_append_cons_drop, if_pos hi]
  have e : l = l.take i ++ none :: l.drop (i + 1) := by
    rw [← he, ← List.drop_eq_getElem_cons hi, List.take_append_drop]
  have e2 : l.filterMap id = (l.take i).filterMap id ++ (l.drop (i + 1)).filterMap id := by
    refine Eq.trans (congrArg (List.filterMap id) e) ?_
    simp
  rw [e2, List.filterMap_append]
  simp only [List.filterMap_cons, id]
  exact List.perm_middle

theorem filterMap_set_some {l : List (Option Nat)} {i a : Nat} (h : l[i]? = some (some a)) :
    (l.filterMap id).Perm (a :: (l.set i none).filterMap id) := by
  obtain ⟨hi, he⟩ := List.getElem?_eq_some_iff.1 h
  rw [List.set_eq_take_append_cons_drop, if_pos hi]
  have e : l = l.take i ++ some a :: l.drop (i + 1) := by
    rw [← he, ← List.drop_eq_getElem_cons hi, List.take_append_drop]
  have e2 : l.filterMap id = (l.take i).filterMap id ++ a :: (l.drop (i + 1)).filterMap id := by
    refine Eq.trans (congrArg (List.filterMap id) e) ?_
    simp
  rw [e2, List.filterMap_append]
  simp only [List.filterMap_cons, id]
  exact List.perm_middle

theorem filterMap_length_lt {l : List (Option Nat)} {i : Nat} (h : l[i]? = some none) : (l.filterMap id).length < l.length := by
  have h1 := (filterMap_set_none (a := 0) h).length_eq
  have h2 := List.length_filterMap_le id (l.set i (some 0))
  simp only [List.length_cons, List.length_set] at h1 h2
  omega

theorem read_after_write {m w : List Byte} {M E e e' : Nat} (hm : m.length = M * E) (hw : w.length = E) (he : e < M) (he' : e' < M) (hne : e' ≠ e) :
    ((put m (e * E) w).drop (e' * E)).take E = (m.drop (e' * E)).take E := by
  have h1 : e * E + E ≤ M * E := by rw [← Nat.succ_mul]; exact Nat.mul_le_mul_right _ he
  have h1' : e' * E + E ≤ M * E := by rw [← Nat.succ_mul]; exact Nat.mul_le_mul_right _ he'
  apply List.ext_getElem?
  intro i
  rw [List.getElem?_take, List.getElem?_take]
  split
  · rename_i hi
    rw [List.getElem?_drop, List.getElem?_drop]
    unfold put
    rcases Nat.lt_or_gt_of_ne hne with h | h
    · have h2 : e' * E + E ≤ e * E := by rw [← Nat.succ_mul]; exact Nat.mul_le_mul_right _ h
      rw [List.append_assoc, List.getElem?_append_left (by rw [List.length_take]; omega), List.getElem?_take, if_pos (by omega)]
    · have h2 : e * E + E ≤ e' * E := by rw [← Nat.succ_mul]; exact Nat.mul_le_mul_right _ h
      rw [List.getElem?_append_right (by rw [List.length_append, List.length_take]; omega), List.getElem?_drop, List.length_append, List.length_take]
      congr 1; omega
  · rfl

theorem read_written {m w : List Byte} {M E e : Nat} (hm : m.length = M * E) (hw : w.length = E) (he : e < M) :
    ((put m (e * E) w).drop (e * E)).take E = w := by
  have h1 : e * E + E ≤ M * E := by rw [← Nat.succ_mul]; exact Nat.mul_le_mul_right _ he
  unfold put
  rw [List.append_assoc, List.drop_append, List.length_take, List.drop_of_length_le (by rw [List.length_take]; omega)]
  rw [show e * E - min (e * E) m.length = 0 by omega, List.drop_zero, List.nil_append, List.take_append, List.take_of_length_le (by omega), hw]
  simp

theorem give_spec {M E : Nat} {w : List Byte} (hM : 0 < M) (h8 : M % 8 = 0) (hE : 0 < E) (hw : w.length = E) {t : T} {live : List Nat}
    (h : TInv M E w t live) {i : Nat} (hi : t.ptrs[i]? = some none) :
    ∃ t' e, give M E w i t = .ok (some t') ∧ TInv M E w t' (e :: live) ∧ t'.ptrs = t.ptrs.set i (some (e * E)) := by
  obtain ⟨p', live', r, e1, e2, e3⟩ := alloc_spec (E := E) hM h.inv E
  have hll : live.length < M := by
    have h1 := filterMap_length_lt hi
    have h2 := h.held.length_eq
    rw [List.length_map] at h2
    rw [h.plen] at h1
    omega
  have hlt : ∀ i ∈ live, i < M := fun i hi => by have := h.inv.lt i hi; have := h.inv.top; omega
  unfold give
  rw [e1, ok_bind]
  cases e3 with
  | alloc h1 h2 h3 h4 h5 =>
    rename_i e
    have hle : e * E + E ≤ M * E := by rw [← Nat.succ_mul]; exact Nat.mul_le_mul_right _ h3
    have hwr : wrN t.mem (e * E) w = .ok (put t.mem (e * E) w) := by
      unfold wrN
      rw [if_pos (by rw [hw, h.mlen]; exact hle)]
    simp only [hwr, ok_bind]
    refine ⟨_, e, rfl, ⟨e2, ?_, ?_, ?_, ?_⟩, rfl⟩
    · simp only
      rw [put_length (by rw [hw, h.mlen]; exact hle)]; exact h.mlen
    · simp only [List.length_set]; exact h.plen
    · simp only [List.map_cons]
      exact (filterMap_set_none hi).trans (List.Perm.cons _ h.held)
    · intro x hx
      rcases List.mem_cons.1 hx with rfl | hx'
      · exact read_written h.mlen hw h3
      · simp only
        have hne : x ≠ e := by intro hxe; rw [hxe] at hx'; exact h4 hx'
        rw [read_after_write h.mlen hw h3 (hlt x hx') hne]
        exact h.data x hx'
  | full h1 h2 =>
    exfalso
    have hall : ∀ i, i < M → i ∈ live := fun i hi => h2.2 i (by omega)
    have := List.nodup_range (n := M) |>.length_le_of_subset (l₂ := live) (fun x hx => hall x (List.mem_range.1 hx))
    rw [List.length_range] at this
    omega
  | big h1 => omega

theorem mem_held {M E : Nat} {w : List Byte} {t : T} {live : List Nat} (h : TInv M E w t live) {i a : Nat} (hi : t.ptrs[i]? = some (some a)) :
    ∃ e ∈ live, a = e * E := by
  have : a ∈ t.ptrs.filterMap id := List.mem_filterMap.2 ⟨some a, List.mem_of_getElem? hi, rfl⟩
  obtain ⟨e, he, rfl⟩ := List.mem_map.1 (h.held.mem_iff.1 this)
  exact ⟨e, he, rfl⟩

theorem ssnull_spec {M E : Nat} {w : List Byte} (hE : 0 < E) {t : T} {live : List Nat}
    (h : TInv M E w t live) {i a : Nat} (hi : t.ptrs[i]? = some (some a)) :
    ∃ t' e, e ∈ live ∧ a = e * E ∧ ssnull M E i a t = .ok (some t') ∧ TInv M E w t' (live.erase e) ∧ t'.ptrs = t.ptrs.set i none := by
  obtain ⟨e, he, rfl⟩ := mem_held h hi
  rcases free_debug_spec hE h.inv (d := ((e * E : Nat) : Int)) (Or.inl (by omega)) with ⟨p', x, hx, hxe, e1, _, e2⟩ | ⟨h1, _⟩
  · have hxe' : e * E = x * E := by exact_mod_cast hxe
    have : e = x := Nat.eq_of_mul_eq_mul_right hE hxe'
    subst this
    unfold ssnull
    rw [e1, ok_bind]
    refine ⟨_, e, he, rfl, rfl, ⟨e2, h.mlen, by simp only [List.length_set]; exact h.plen, ?_, fun x hx => h.data x (List.mem_of_mem_erase hx)⟩, rfl⟩
    have h1 := (filterMap_set_some hi).symm.trans h.held
    have h2 := (List.perm_cons_erase he).map (· * E)
    rw [List.map_cons] at h2
    exact List.Perm.cons_inv (h1.trans h2)
  · exact absurd rfl (h1 e he)

theorem ptrAt_ok {t : T} {i : Nat} (hi : i < t.ptrs.length) : ptrAt t i = .ok t.ptrs[i] := by
  unfold ptrAt
  rw [List.getElem?_eq_getElem hi]; rfl

theorem andThen_ok {x : C (Option T)} {t : T} (h : x = .ok (some t)) (f) : andThen x f = f t := by
  unfold andThen
  rw [h, ok_bind]

theorem check_ok {b : Bool} {t : T} (h : b = true) : check b t = .ok (some t) := by
  unfold check; rw [if_pos h]; rfl

theorem bits_ok {M : Nat} {t : T} {live : List Nat} (h : Inv M t.pool live) (v : Bool) (skip : Option Nat)
    (hv : ∀ i, i < M → skip ≠ some i → (v = true ↔ i ∈ live)) : loop (checkBit v skip) M 0 t = .ok (some t) := by
  obtain ⟨t', e, h'⟩ := loop_inv (body := checkBit v skip) (fun _ t' => t' = t) M 0 t rfl (by
    intro j t' _ hj h1
    rw [h1]
    refine ⟨t, ?_, rfl⟩
    unfold checkBit
    by_cases hs : skip = some j
    · rw [if_pos hs]; rfl
    · rw [if_neg hs, get_spec (size_ok h.len (by omega)), ok_bind, if_pos]
      · rfl
      · have h2 := hv j (by omega) hs
        rw [← h.bits j] at h2
        cases v <;> cases hb : bit t.pool.used j <;> simp_all)
  rw [e, h']

/-- The test program passes. -/
theorem main_spec {M E : Nat} {w : List Byte} {probe : Nat} (h8 : M % 8 = 0) (hM' : M < 2 ^ 64) (hE : 0 < E) (hw : w.length = E) (hp : probe < M)
    (r1 r2 r3 : Nat → Bool) : ∃ t, main M E w probe r1 r2 r3 = .ok (some t) := by
  have hM : 0 < M := by omega
  unfold main
  simp only
  have h0 : TInv M E w ⟨ssa_init M, List.replicate (M * E) 0, List.replicate M none⟩ [] :=
    ⟨inv_init M hM', by simp, by simp, by simp [List.filterMap_replicate], by simp⟩
  obtain ⟨t1, e1, ⟨l1, h1⟩, _⟩ := loop_inv (body := first M E w r1)
    (fun i t => (∃ live, TInv M E w t live) ∧ ∀ j, i ≤ j → j < M → t.ptrs[j]? = some none) M 0 _
    ⟨⟨[], h0⟩, by intro j _ hj; simp [hj]⟩ (by
      intro j t _ hj ⟨⟨live, h⟩, hn⟩
      unfold first
      split
      · obtain ⟨t', e, e1, e2, e3⟩ := give_spec hM h8 hE hw h (hn j (by omega) (by omega))
        refine ⟨t', e1, ⟨_, e2⟩, ?_⟩
        intro k hk hk'
        rw [e3, List.getElem?_set, if_neg (by omega)]
        exact hn k (by omega) hk'
      · exact ⟨t, rfl, ⟨live, h⟩, fun k hk hk' => hn k (by omega) hk'⟩)
  rw [andThen_ok e1]
  have hagain : ∀ r t live, TInv M E w t live → ∃ t', loop (again M E w r) M 0 t = .ok (some t') ∧ (∃ live, TInv M E w t' live) ∧
      ∀ j, j < M → r j = true → ∃ a, t'.ptrs[j]? = some (some a) := by
    intro r t live h
    obtain ⟨t', e, ⟨l', h'⟩, hh⟩ := loop_inv (body := again M E w r)
      (fun i t => (∃ live, TInv M E w t live) ∧ ∀ j, j < i → r j = true → ∃ a, t.ptrs[j]? = some (some a)) M 0 t
      ⟨⟨live, h⟩, by intro j hj; omega⟩ (by
        intro j t _ hj ⟨⟨live, h⟩, hn⟩
        have hjl : j < t.ptrs.length := by rw [h.plen]; omega
        unfold again
        rw [ptrAt_ok hjl, ok_bind]
        cases hv : t.ptrs[j] with
        | none =>
          simp only
          have hg : t.ptrs[j]? = some none := by rw [List.getElem?_eq_getElem hjl, hv]
          split
          · obtain ⟨t', e, e1, e2, e3⟩ := give_spec hM h8 hE hw h hg
            refine ⟨t', e1, ⟨_, e2⟩, ?_⟩
            intro k hk hr
            rw [e3, List.getElem?_set]
            by_cases hjk : j = k
            · rw [if_pos hjk, if_pos hjl]; exact ⟨_, rfl⟩
            · rw [if_neg hjk]; exact hn k (by omega) hr
          · rename_i hr'
            refine ⟨t, rfl, ⟨live, h⟩, fun k hk hr => ?_⟩
            by_cases hjk : k = j
            · subst hjk; exact absurd hr hr'
            · exact hn k (by omega) hr
        | some a =>
          simp only
          refine ⟨t, rfl, ⟨live, h⟩, fun k hk hr => ?_⟩
          by_cases hjk : k = j
          · subst hjk; exact ⟨a, by rw [List.getElem?_eq_getElem hjl, hv]⟩
          · exact hn k (by omega) hr)
    exact ⟨t', e, ⟨l', h'⟩, fun j hj => hh j (by omega)⟩
  have hdrop : ∀ r t live, TInv M E w t live → ∃ t', loop (drop M E r) M 0 t = .ok (some t') ∧ (∃ live, TInv M E w t' live) ∧
      ∀ j, j < M → r j = true → t'.ptrs[j]? = some none := by
    intro r t live h
    obtain ⟨t', e, ⟨l', h'⟩, hh⟩ := loop_inv (body := drop M E r)
      (fun i t => (∃ live, TInv M E w t live) ∧ ∀ j, j < i → r j = true → t.ptrs[j]? = some none) M 0 t
      ⟨⟨live, h⟩, by intro j hj; omega⟩ (by
        intro j t _ hj ⟨⟨live, h⟩, hn⟩
        have hjl : j < t.ptrs.length := by rw [h.plen]; omega
        unfold drop
        rw [ptrAt_ok hjl, ok_bind]
        cases hv : t.ptrs[j] with
        | some a =>
          simp only
          have hg : t.ptrs[j]? = some (some a) := by rw [List.getElem?_eq_getElem hjl, hv]
          split
          · obtain ⟨t', e, _, _, e1, e2, e3⟩ := ssnull_spec hE h hg
            refine ⟨t', e1, ⟨_, e2⟩, ?_⟩
            intro k hk hr
            rw [e3, List.getElem?_set]
            by_cases hjk : j = k
            · rw [if_pos hjk, if_pos hjl]
            · rw [if_neg hjk]; exact hn k (by omega) hr
          · rename_i hr'
            refine ⟨t, rfl, ⟨live, h⟩, fun k hk hr => ?_⟩
            by_cases hjk : k = j
            · subst hjk; exact absurd hr hr'
            · exact hn k (by omega) hr
        | none =>
          simp only
          refine ⟨t, rfl, ⟨live, h⟩, fun k hk hr => ?_⟩
          by_cases hjk : k = j
          · subst hjk; rw [List.getElem?_eq_getElem hjl, hv]
          · exact hn k (by omega) hr)
    exact ⟨t', e, ⟨l', h'⟩, fun j hj => hh j (by omega)⟩
  obtain ⟨t2, e2, ⟨l2, h2⟩, _⟩ := hagain r2 t1 l1 h1
  rw [andThen_ok e2]
  obtain ⟨t3, e3, ⟨l3, h3⟩, _⟩ := hdrop r3 t2 l2 h2
  rw [andThen_ok e3]
  obtain ⟨t4, e4, ⟨l4, h4⟩, hall⟩ := hagain (fun _ => true) t3 l3 h3
  rw [andThen_ok e4]
  have hlen4 : l4.length = M := by
    have hl := h4.held.length_eq
    rw [List.length_map] at hl
    have : (t4.ptrs.filterMap id).length = t4.ptrs.length := by
      rw [List.length_filterMap_eq_countP, List.countP_eq_length]
      intro x hx
      obtain ⟨j, hj, rfl⟩ := List.getElem_of_mem hx
      obtain ⟨a, ha⟩ := hall j (by rw [← h4.plen]; exact hj) rfl
      rw [List.getElem?_eq_getElem hj] at ha
      simp [Option.some.inj ha]
    rw [this, h4.plen] at hl
    omega
  have hlt4 : ∀ i ∈ l4, i < M := fun i hi => by have := h4.inv.lt i hi; have := h4.inv.top; omega
  have hmem4 := pigeon h4.inv.nodup hlt4 hlen4
  have ha4 : t4.pool.avail = 0 := by have := h4.inv.avail; omega
  have ht4 : t4.pool.top = M := by
    have h1 := h4.inv.lt (M - 1) (hmem4 (M - 1) (by omega))
    have h2 := h4.inv.top
    omega
  rw [andThen_ok (check_ok (by simp [ha4])), andThen_ok (check_ok (by simp [ht4]))]
  have hptr : loop (checkPtr E w) M 0 t4 = .ok (some t4) := by
    obtain ⟨t', e, h'⟩ := loop_inv (body := checkPtr E w) (fun _ t' => t' = t4) M 0 t4 rfl (by
      intro j t' _ hj h1
      rw [h1]
      refine ⟨t4, ?_, rfl⟩
      have hjl : j < t4.ptrs.length := by rw [h4.plen]; omega
      obtain ⟨a, ha⟩ := hall j (by omega) rfl
      obtain ⟨e, he, rfl⟩ := mem_held h4 ha
      have hv : t4.ptrs[j] = some (e * E) := by rw [List.getElem?_eq_getElem hjl] at ha; exact Option.some.inj ha
      unfold checkPtr
      rw [ptrAt_ok hjl, hv, ok_bind]
      have hle : e * E + E ≤ M * E := by rw [← Nat.succ_mul]; exact Nat.mul_le_mul_right _ (hlt4 e he)
      simp only
      rw [rdN_ok (by rw [h4.mlen]; exact hle), ok_bind, if_pos (h4.data e he)]
      rfl)
    rw [e, h']
  rw [andThen_ok hptr, andThen_ok (bits_ok h4.inv true none (fun i hi _ => by simp [hmem4 i hi]))]
  obtain ⟨a, ha⟩ := hall probe hp rfl
  have hpl : probe < t4.ptrs.length := by rw [h4.plen]; exact hp
  have hv : t4.ptrs[probe] = some a := by rw [List.getElem?_eq_getElem hpl] at ha; exact Option.some.inj ha
  rw [ptrAt_ok hpl, hv, ok_bind]
  obtain ⟨t5, e, he, rfl, e5, h5, hp5⟩ := ssnull_spec hE h4 ha
  simp only
  have hg : ssa_getidx E ((e * E : Nat) : Int) = e := by rw [Int.natCast_mul]; exact getidx_mul hE e
  have hem := hlt4 e he
  rw [hg, andThen_ok (check_ok (by simp)), andThen_ok (check_ok (by simp; omega)), andThen_ok e5]
  have ha5 : t5.pool.avail = 1 := by
    have := h5.inv.avail
    rw [List.length_erase_of_mem he] at this
    omega
  rw [andThen_ok (check_ok (by simp [ha5]))]
  rw [andThen_ok (bits_ok h5.inv true (some (e : Int).toNat) (fun i hi hne => by
    have : i ≠ e := by rintro rfl; exact hne (by simp)
    simp [h4.inv.nodup.mem_erase_iff, this, hmem4 i hi]))]
  obtain ⟨t6, e6, ⟨l6, h6⟩, hnone⟩ := hdrop (fun _ => true) t5 _ h5
  rw [andThen_ok e6]
  have hl6 : l6 = [] := by
    have hnil : t6.ptrs.filterMap id = [] := by
      rw [List.filterMap_eq_nil_iff]
      intro x hx
      obtain ⟨j, hj, rfl⟩ := List.getElem_of_mem hx
      have := hnone j (by rw [← h6.plen]; exact hj) rfl
      rw [List.getElem?_eq_getElem hj] at this
      exact Option.some.inj this
    have := h6.held.length_eq
    rw [hnil, List.length_map] at this
    exact List.length_eq_zero_iff.1 this.symm
  subst hl6
  have ha6 : t6.pool.avail = M := by have := h6.inv.avail; simpa using this
  have ht6 : t6.pool.top = 0 := by
    rcases h6.inv.last with h | h
    · exact h
    · simp at h
  rw [andThen_ok (check_ok (by simp [ha6])), andThen_ok (check_ok (by simp [ht6]))]
  exact ⟨t6, bits_ok h6.inv false none (by simp)⟩

end Ulz.Ssalloc
