import Verif.Spec.Savers
import Verif.Proofs.Wholefile
set_option linter.unusedSimpArgs false
set_option linter.unusedVariables false
namespace Ulz.Savers
open Ulz.Stringptr (SP)
open Ulz.Stringptr.Spec (Holds HoldsAll)

theorem pwrite_get {file x : List Byte} {off : Nat} (hx : x ≠ []) (i : Nat) :
    (pwrite file off x)[i]? =
      if i < off then (if i < file.length then file[i]? else some 0)
      else if i < off + x.length then x[i - off]? else file[i]? := by
  unfold pwrite
  rw [if_neg hx]
  have hl : (file.take off ++ List.replicate (off - file.length) (0 : Byte)).length = off := by simp; omega
  by_cases h1 : i < off
  · rw [if_pos h1, List.append_assoc, List.getElem?_append_left (by rw [hl]; exact h1)]
    by_cases h2 : i < file.length
    · rw [if_pos h2, List.getElem?_append_left (by simp; omega), List.getElem?_take, if_pos h1]
    · rw [if_neg h2, List.getElem?_append_right (by simp; omega), List.getElem?_replicate, if_pos (by simp; omega)]
  · rw [if_neg h1, List.append_assoc, List.getElem?_append_right (by rw [hl]; omega), hl]
    by_cases h2 : i < off + x.length
    · rw [if_pos h2, List.getElem?_append_left (by omega)]
    · rw [if_neg h2, List.getElem?_append_right (by omega), List.getElem?_drop]
      congr 1; omega

theorem pwrite_end {file x : List Byte} : pwrite file file.length x = file ++ x := by
  unfold pwrite
  split
  · rename_i h; simp [h]
  · simp

/-- One writer. -/
theorem run_one (old c : List Byte) : ∀ (es : List Ev) (s : Sys),
    (s = ⟨old, [⟨c, none⟩]⟩ ∨ ∃ n, n ≤ c.length ∧ s = ⟨c.take n, [⟨c, some n⟩]⟩) →
    (run s es = ⟨old, [⟨c, none⟩]⟩ ∨ ∃ n, n ≤ c.length ∧ run s es = ⟨c.take n, [⟨c, some n⟩]⟩)
  | [], s, h => h
  | e :: es, s, h => by
    refine run_one old c es (step s e) ?_
    rcases h with rfl | ⟨n, hn, rfl⟩
    · cases e with
      | opens i =>
        cases i with
        | zero => exact .inr ⟨0, by omega, rfl⟩
        | succ i => exact .inl rfl
      | writes i k =>
        cases i with
        | zero => exact .inl rfl
        | succ i => exact .inl rfl
    · cases e with
      | opens i => cases i <;> exact .inr ⟨n, hn, rfl⟩
      | writes i k =>
        cases i with
        | succ i => exact .inr ⟨n, hn, rfl⟩
        | zero =>
          refine .inr ⟨n + ((c.drop n).take k).length, by simp; omega, ?_⟩
          simp only [step, List.getElem?_cons_zero, List.set_cons_zero]
          have hl : (c.take n).length = n := by simp; omega
          have e1 : pwrite (c.take n) n ((c.drop n).take k) = c.take n ++ (c.drop n).take k := by
            have := pwrite_end (file := c.take n) (x := (c.drop n).take k)
            rwa [hl] at this
          rw [e1]
          have e2 : c.take n ++ (c.drop n).take k = c.take (n + ((c.drop n).take k).length) := by
            rw [List.take_add]
            congr 1
            rw [List.take_eq_take_iff]
            simp
          rw [e2]

/-- Invariant for several writers, once the file has been opened. -/
structure Inv (cs : List (List Byte)) (s : Sys) : Prop where
  contents : s.ws.map Writer.content = cs
  offs : ∀ w ∈ s.ws, ∀ o, w.off = some o → o ≤ w.content.length
  len : ∀ i, i < s.file.length → ∃ w ∈ s.ws, ∃ o, w.off = some o ∧ i < o
  bytes : ∀ (i : Nat) (c : Byte), s.file[i]? = some c → c = 0 ∨ ∃ t : List Byte, t ∈ cs ∧ t[i]? = some c
  solid : ∃ (L : Nat) (w : Writer) (o : Nat), s.ws[L]? = some w ∧ w.off = some o ∧
    ∀ (i : Nat), i < o → ∃ c : Byte, s.file[i]? = some c ∧ ∃ t : List Byte, t ∈ cs ∧ t[i]? = some c

theorem map_set_content {ws : List Writer} {i : Nat} {c : List Byte} {o o' : Option Nat} (h : ws[i]? = some ⟨c, o⟩) :
    (ws.set i ⟨c, o'⟩).map Writer.content = ws.map Writer.content := by
  apply List.ext_getElem?
  intro j
  simp only [List.getElem?_map, List.getElem?_set]
  by_cases hj : i = j
  · subst hj
    obtain ⟨hi, e⟩ := List.getElem?_eq_some_iff.1 h
    simp [hi, e]
  · simp [hj]

theorem step_inv {cs s} (h : Inv cs s) (e : Ev) : Inv cs (step s e) := by
  cases e with
  | opens i =>
    simp only [step]
    cases hw : s.ws[i]? with
    | none => exact h
    | some w =>
      obtain ⟨c, o⟩ := w
      cases o with
      | some o => exact h
      | none =>
        simp only
        refine ⟨by rw [map_set_content hw]; exact h.contents, ?_, ?_, ?_, ?_⟩
        · intro w hw' o ho
          rcases List.mem_or_eq_of_mem_set hw' with h1 | h1
          · exact h.offs w h1 o ho
          · subst h1; cases ho; omega
        · intro i hi; simp at hi
        · intro i c hc; simp at hc
        · obtain ⟨hi, _⟩ := List.getElem?_eq_some_iff.1 hw
          exact ⟨i, ⟨c, some 0⟩, 0, by simp [hi], rfl, fun j hj => absurd hj (by omega)⟩
  | writes i k =>
    simp only [step]
    cases hw : s.ws[i]? with
    | none => exact h
    | some w =>
      obtain ⟨c, o⟩ := w
      cases o with
      | none => exact h
      | some o =>
        simp only
        obtain ⟨hi, hwe⟩ := List.getElem?_eq_some_iff.1 hw
        have hmem : (⟨c, some o⟩ : Writer) ∈ s.ws := List.mem_of_getElem? hw
        have hcs : c ∈ cs := by rw [← h.contents]; exact List.mem_map.2 ⟨_, hmem, rfl⟩
        have ho : o ≤ c.length := h.offs _ hmem o rfl
        by_cases hx : (c.drop o).take k = []
        · rw [hx]
          simp only [pwrite, List.length_nil, Nat.add_zero, if_true]
          have : s.ws.set i ⟨c, some o⟩ = s.ws := by rw [← hwe, List.set_getElem_self]
          rw [this]
          exact h
        · have hxi : ∀ j, o ≤ j → j < o + ((c.drop o).take k).length → ((c.drop o).take k)[j - o]? = c[j]? := by
            intro j h1 h2
            rw [List.getElem?_take, if_pos (by simp at h2; omega), List.getElem?_drop]
            congr 1; omega
          have hxl : o + ((c.drop o).take k).length ≤ c.length := by simp; omega
          generalize (c.drop o).take k = x at *
          refine ⟨by rw [map_set_content hw]; exact h.contents, ?_, ?_, ?_, ?_⟩
          · intro w hw' o' ho'
            rcases List.mem_or_eq_of_mem_set hw' with h1 | h1
            · exact h.offs w h1 o' ho'
            · subst h1; cases ho'; exact hxl
          · intro j hj
            have hnew : (⟨c, some (o + x.length)⟩ : Writer) ∈ s.ws.set i ⟨c, some (o + x.length)⟩ := List.mem_set hi _
            by_cases hjx : j < o + x.length
            · exact ⟨_, hnew, _, rfl, hjx⟩
            · have hsome : (pwrite s.file o x)[j]? ≠ none := by
                rw [ne_eq, List.getElem?_eq_none_iff]; simp only at hj ⊢; omega
              rw [pwrite_get hx, if_neg (by omega), if_neg hjx] at hsome
              have hjf : j < s.file.length := by
                rw [ne_eq, List.getElem?_eq_none_iff] at hsome; omega
              obtain ⟨w, hw1, o1, hw2, hw3⟩ := h.len j hjf
              obtain ⟨m, hm, hme⟩ := List.getElem_of_mem hw1
              by_cases him : i = m
              · subst him
                rw [hwe] at hme
                subst hme
                cases hw2
                exact ⟨_, hnew, _, rfl, by omega⟩
              · refine ⟨w, ?_, o1, hw2, hw3⟩
                rw [← hme]
                exact List.mem_of_getElem? (i := m) (by rw [List.getElem?_set, if_neg him]; exact List.getElem?_eq_getElem hm)
          · intro j b hb
            simp only at hb
            rw [pwrite_get hx] at hb
            split at hb
            · split at hb
              · exact h.bytes j b hb
              · cases hb; exact .inl rfl
            · split at hb
              · rw [hxi j (by omega) (by assumption)] at hb
                exact .inr ⟨c, hcs, hb⟩
              · exact h.bytes j b hb
          · obtain ⟨L, w, oL, h1, h2, h3⟩ := h.solid
            have old : ∀ j, j < oL → ∃ b, (pwrite s.file o x)[j]? = some b ∧ ∃ t : List Byte, t ∈ cs ∧ t[j]? = some b := by
              intro j hj
              rw [pwrite_get hx]
              obtain ⟨b, e1, e2⟩ := h3 j hj
              have hjf : j < s.file.length := (List.getElem?_eq_some_iff.1 e1).1
              split
              · first | exact ⟨b, e1, e2⟩ | (rw [if_pos hjf]; exact ⟨b, e1, e2⟩)
              · split
                · rw [hxi j (by omega) (by assumption)]
                  exact ⟨c[j]'(by omega), List.getElem?_eq_getElem _, c, hcs, List.getElem?_eq_getElem _⟩
                · exact ⟨b, e1, e2⟩
            by_cases hL : i = L
            · subst hL
              rw [hw] at h1
              cases h1
              cases h2
              refine ⟨i, ⟨c, some (o + x.length)⟩, o + x.length, by simp [hi], rfl, ?_⟩
              intro j hj
              by_cases hjo : j < o
              · exact old j hjo
              · simp only
                rw [pwrite_get hx, if_neg hjo, if_pos hj, hxi j (by omega) hj]
                exact ⟨c[j]'(by omega), List.getElem?_eq_getElem _, c, hcs, List.getElem?_eq_getElem _⟩
            · exact ⟨L, w, oL, by rw [List.getElem?_set, if_neg hL]; exact h1, h2, old⟩

theorem run_inv {cs} : ∀ (es : List Ev) {s}, Inv cs s → Inv cs (run s es)
  | [], s, h => h
  | e :: es, s, h => run_inv es (step_inv h e)

/-- Before the first `open` nothing happens, then the invariant holds. -/
theorem run_start (old : List Byte) (cs : List (List Byte)) : ∀ (es : List Ev),
    (run ⟨old, cs.map (⟨·, none⟩)⟩ es = ⟨old, cs.map (⟨·, none⟩)⟩ ∨ Inv cs (run ⟨old, cs.map (⟨·, none⟩)⟩ es))
  | [] => .inl rfl
  | .writes i k :: es => by
    have : step ⟨old, cs.map (⟨·, none⟩)⟩ (.writes i k) = ⟨old, cs.map (⟨·, none⟩)⟩ := by
      simp only [step, List.getElem?_map]
      cases cs[i]? <;> rfl
    rw [run, this]
    exact run_start old cs es
  | .opens i :: es => by
    by_cases hi : i < cs.length
    · right
      refine run_inv es ?_
      have hget : (cs.map (fun c => (⟨c, none⟩ : Writer)))[i]? = some ⟨cs[i], none⟩ := by
        simp [hi]
      have hst : step ⟨old, cs.map (⟨·, none⟩)⟩ (.opens i) = ⟨[], (cs.map (⟨·, none⟩)).set i ⟨cs[i], some 0⟩⟩ := by
        simp only [step, hget]
      rw [hst]
      refine ⟨by rw [map_set_content hget, List.map_map]; exact List.map_id _, ?_, ?_, ?_, ?_⟩
      · intro w hw o ho
        rcases List.mem_or_eq_of_mem_set hw with h1 | h1
        · obtain ⟨c, _, rfl⟩ := List.mem_map.1 h1
          cases ho
        · subst h1; cases ho; omega
      · intro j hj; simp at hj
      · intro j c hc; simp at hc
      · exact ⟨i, ⟨cs[i], some 0⟩, 0, by simp [hi], rfl, fun j hj => absurd hj (by omega)⟩
    · have : step ⟨old, cs.map (⟨·, none⟩)⟩ (.opens i) = ⟨old, cs.map (⟨·, none⟩)⟩ := by
        simp only [step, List.getElem?_map]
        rw [List.getElem?_eq_none (by omega)]
        rfl
      rw [run, this]
      exact run_start old cs es

theorem run_append : ∀ (a b : List Ev) (s : Sys), run s (a ++ b) = run (run s a) b
  | [], b, s => rfl
  | e :: a, b, s => run_append a b (step s e)

/-- One step of a single writer. -/
theorem step_one {c : List Byte} {n : Nat} (hn : n ≤ c.length) (k : Nat) :
    step ⟨c.take n, [⟨c, some n⟩]⟩ (.writes 0 k) = ⟨c.take (n + min k (c.length - n)), [⟨c, some (n + min k (c.length - n))⟩]⟩ := by
  have hl : (c.take n).length = n := by simp; omega
  have hx : ((c.drop n).take k).length = min k (c.length - n) := by simp
  simp only [step, List.getElem?_cons_zero, List.set_cons_zero, hx]
  have e1 : pwrite (c.take n) n ((c.drop n).take k) = c.take n ++ (c.drop n).take k := by
    have := pwrite_end (file := c.take n) (x := (c.drop n).take k)
    rwa [hl] at this
  rw [e1, List.take_add]
  congr 2
  rw [List.take_eq_take_iff]
  simp

/-- The loop of stringptr_tofile is a writer. -/
theorem tofileLoop_run (p : SP) (c : List Byte) (h : Holds p c) : ∀ (answers : List (Option Nat)) (n : Nat) (r : List Byte × Nat),
    n ≤ c.length → Wholefile.tofileLoop p answers n (c.take n) = .ok r →
    ∃ ks : List Nat, (∀ k ∈ ks, k ≤ 65536) ∧
      run ⟨c.take n, [⟨c, some n⟩]⟩ (ks.map (.writes 0)) = ⟨r.1, [⟨c, some r.2⟩]⟩ := by
  obtain ⟨hs, tl, hp⟩ := h
  intro as
  induction as with
  | nil =>
    intro n r hn hr
    unfold Wholefile.tofileLoop at hr
    split at hr
    · exact absurd hr (by simp)
    · cases hr; exact ⟨[], by simp, rfl⟩
  | cons a as ih =>
    intro n r hn hr
    unfold Wholefile.tofileLoop at hr
    split at hr
    · rename_i hlt
      have hc := Wholefile.chunk_le (p.size - n)
      have hc' : Wholefile.chunk (p.size - n) ≤ 65536 := by unfold Wholefile.chunk; split <;> omega
      have e : rdN p.buf n (Wholefile.chunk (p.size - n)) = .ok ((c.drop n).take (Wholefile.chunk (p.size - n))) := by
        unfold rdN
        rw [← hp, if_pos (by simp; omega), List.drop_append_of_le_length (by omega), List.take_append_of_le_length (by simp; omega)]
      rw [e] at hr
      simp only [ok_bind] at hr
      cases a with
      | none => cases hr; exact ⟨[], by simp, rfl⟩
      | some k =>
        obtain ⟨e1, e2⟩ := Wholefile.take_step c n (Wholefile.chunk (p.size - n)) k (by omega)
        simp only at hr
        rw [e1, e2] at hr
        obtain ⟨ks, hks, hrun⟩ := ih (n + min k (Wholefile.chunk (p.size - n))) r (by omega) hr
        refine ⟨min k (Wholefile.chunk (p.size - n)) :: ks, ?_, ?_⟩
        · intro x hx
          rcases List.mem_cons.1 hx with rfl | hx
          · omega
          · exact hks x hx
        · rw [List.map_cons, run, step_one hn]
          have : min (min k (Wholefile.chunk (p.size - n))) (c.length - n) = min k (Wholefile.chunk (p.size - n)) := by omega
          rw [this]
          exact hrun
    · cases hr; exact ⟨[], by simp, rfl⟩

/-- So is the loop of stringptrlist_tofile. -/
theorem listLoop_run {l : List SP} {ss : List (List Byte)} (h : HoldsAll l ss) (answers : Nat → Option Nat)
    {file : List Byte} {r : Nat} (e : Wholefile.listLoop answers 0 l [] = .ok (file, r)) :
    ∃ k, run ⟨[], [⟨Wholefile.Spec.joined ss, some 0⟩]⟩ [.writes 0 k] = ⟨file, [⟨Wholefile.Spec.joined ss, some file.length⟩]⟩ := by
  have key : ∀ t, t <+: Wholefile.Spec.joined ss → 
      run ⟨[], [⟨Wholefile.Spec.joined ss, some 0⟩]⟩ [.writes 0 t.length] = ⟨t, [⟨Wholefile.Spec.joined ss, some t.length⟩]⟩ := by
    intro t ht
    have hl := ht.length_le
    have := step_one (c := Wholefile.Spec.joined ss) (n := 0) (by omega) t.length
    simp only [List.take_zero] at this
    rw [run, this, run]
    have h2 : 0 + min t.length ((Wholefile.Spec.joined ss).length - 0) = t.length := by omega
    rw [h2, ← List.prefix_iff_eq_take.1 ht]
  rcases Wholefile.listLoop_spec h answers 0 [] with ⟨h1, _⟩ | ⟨t, h1, h2, _⟩
  · rw [e] at h1; cases h1
    exact ⟨_, by simpa using key _ (List.prefix_refl _)⟩
  · rw [e] at h1; cases h1
    exact ⟨_, by simpa using key _ h2⟩

theorem pwrite_pwrite (f x y : List Byte) (n : Nat) : pwrite (pwrite f n x) (n + x.length) y = pwrite f n (x ++ y) := by
  by_cases hx : x = []
  · subst hx; simp [pwrite]
  · by_cases hy : y = []
    · subst hy; simp [pwrite]
    · apply List.ext_getElem?
      intro i
      have hx' := List.length_pos_iff.2 hx
      have hxy : x ++ y ≠ [] := by simp [hx]
      rw [pwrite_get hy, pwrite_get hx, pwrite_get hxy]
      have hlen : (pwrite f n x).length = max (n + x.length) f.length := by
        unfold pwrite
        rw [if_neg hx]
        simp; omega
      rw [hlen, List.length_append]
      by_cases h1 : i < n + x.length
      · rw [if_pos h1, if_pos (by omega)]
        by_cases h2 : i < n
        · rw [if_pos h2, if_pos h2]
        · rw [if_neg h2, if_neg h2, if_pos h1, if_pos (by omega), List.getElem?_append_left (by omega)]
      · have h1' : ¬ i < n := by omega
        simp only [h1, h1', if_false]
        by_cases h3 : i < n + x.length + y.length
        · have h3' : i < n + (x.length + y.length) := by omega
          simp only [h3, h3', if_true]
          rw [List.getElem?_append_right (by omega)]
          congr 1; omega
        · have h3' : ¬ i < n + (x.length + y.length) := by omega
          simp only [h3, h3', if_false]

/-- A writer transfers `j` portions of `m` bytes. -/
theorem run_portions (m : Nat) (c : List Byte) (i : Nat) : ∀ (j n : Nat) (f : List Byte) (ws : List Writer),
    n ≤ c.length → ws[i]? = some ⟨c, some n⟩ →
    run ⟨f, ws⟩ (List.replicate j (.writes i m)) =
      ⟨pwrite f n ((c.drop n).take (m * j)), ws.set i ⟨c, some (n + min (m * j) (c.length - n))⟩⟩
  | 0, n, f, ws, hn, h => by
    obtain ⟨hi, he⟩ := List.getElem?_eq_some_iff.1 h
    simp only [List.replicate_zero, run, Nat.mul_zero, List.take_zero, pwrite, if_true, Nat.zero_min, Nat.add_zero]
    rw [← he, List.set_getElem_self]
  | j + 1, n, f, ws, hn, h => by
    obtain ⟨hi, he⟩ := List.getElem?_eq_some_iff.1 h
    rw [List.replicate_succ, run]
    have hx : ((c.drop n).take m).length = min m (c.length - n) := by simp
    have e1 : step ⟨f, ws⟩ (.writes i m) = ⟨pwrite f n ((c.drop n).take m), ws.set i ⟨c, some (n + min m (c.length - n))⟩⟩ := by
      simp only [step, h, hx]
    rw [e1, run_portions m c i j (n + min m (c.length - n)) _ _ (by omega) (by simp [hi])]
    have e2 := pwrite_pwrite f ((c.drop n).take m) ((c.drop (n + min m (c.length - n))).take (m * j)) n
    rw [hx] at e2
    rw [e2, List.set_set]
    have e3 : (c.drop n).take m ++ (c.drop (n + min m (c.length - n))).take (m * j) = (c.drop n).take (m * (j + 1)) := by
      rw [Nat.mul_succ, Nat.add_comm (m * j) m, List.take_add, List.drop_drop]
      congr 1
      by_cases hm : m ≤ c.length - n
      · rw [Nat.min_eq_left hm]
      · rw [Nat.min_eq_right (by omega), List.drop_of_length_le (by omega), List.drop_of_length_le (by omega)]
    have e4 : n + min m (c.length - n) + min (m * j) (c.length - (n + min m (c.length - n))) = n + min (m * (j + 1)) (c.length - n) := by
      rw [Nat.mul_succ]; omega
    rw [e3, e4]

theorem pwrite_zero {f x : List Byte} (h : f.length ≤ x.length) : pwrite f 0 x = x := by
  unfold pwrite
  split
  · rename_i hx; subst hx; simp at h; exact h
  · simp [h]

theorem pwrite_tail {f x : List Byte} {n : Nat} (h : f.length = n + x.length) : pwrite f n x = f.take n ++ x := by
  unfold pwrite
  split
  · rename_i hx; subst hx; simp at h; simp [← h]
  · rw [List.drop_of_length_le (by omega), show n - f.length = 0 by omega]; simp

/-- Both open, the first transfers `j` portions, the second everything, the first the rest. -/
def mixing (j n : Nat) : List Ev :=
  [.opens 0, .opens 1] ++ List.replicate j (.writes 0 65536) ++ List.replicate n (.writes 1 65536) ++ List.replicate n (.writes 0 65536)

theorem run_mixing {old a b : List Byte} {j n : Nat} (hl : a.length = b.length) (hj : 65536 * j ≤ a.length) (hn : a.length ≤ 65536 * n) :
    run ⟨old, [⟨a, none⟩, ⟨b, none⟩]⟩ (mixing j n) =
      ⟨b.take (65536 * j) ++ a.drop (65536 * j), [⟨a, some a.length⟩, ⟨b, some b.length⟩]⟩ := by
  unfold mixing
  rw [run_append, run_append, run_append]
  have e0 : run ⟨old, [⟨a, none⟩, ⟨b, none⟩]⟩ [.opens 0, .opens 1] = ⟨[], [⟨a, some 0⟩, ⟨b, some 0⟩]⟩ := rfl
  rw [e0, run_portions 65536 a 0 j 0 _ _ (by omega) rfl]
  have m1 : 0 + min (65536 * j) (a.length - 0) = 65536 * j := by omega
  rw [m1, List.drop_zero, pwrite_zero (by simp)]
  simp only [List.set_cons_zero]
  rw [run_portions 65536 b 1 n 0 _ _ (by omega) rfl]
  have m2 : 0 + min (65536 * n) (b.length - 0) = b.length := by omega
  rw [m2, List.drop_zero, List.take_of_length_le (l := b) (by omega), pwrite_zero (by rw [List.length_take]; omega)]
  simp only [List.set_cons_succ, List.set_cons_zero]
  rw [run_portions 65536 a 0 n (65536 * j) _ _ hj rfl]
  have m3 : 65536 * j + min (65536 * n) (a.length - 65536 * j) = a.length := by omega
  rw [m3, List.take_of_length_le (l := a.drop _) (by rw [List.length_drop]; omega), pwrite_tail (by rw [List.length_drop]; omega)]
  rfl

/-- The first transfers `n` bytes, the second opens and transfers everything, the first the rest. -/
def holing (n la lb : Nat) : List Ev :=
  [.opens 0] ++ List.replicate n (.writes 0 1) ++ [.opens 1] ++ List.replicate lb (.writes 1 1) ++ List.replicate la (.writes 0 1)

theorem run_holing {old a b : List Byte} {n : Nat} (h1 : b.length ≤ n) (h2 : n < a.length) :
    run ⟨old, [⟨a, none⟩, ⟨b, none⟩]⟩ (holing n a.length b.length) =
      ⟨b ++ List.replicate (n - b.length) 0 ++ a.drop n, [⟨a, some a.length⟩, ⟨b, some b.length⟩]⟩ := by
  unfold holing
  rw [run_append, run_append, run_append, run_append]
  have e0 : run ⟨old, [⟨a, none⟩, ⟨b, none⟩]⟩ [.opens 0] = ⟨[], [⟨a, some 0⟩, ⟨b, none⟩]⟩ := rfl
  rw [e0, run_portions 1 a 0 n 0 _ _ (by omega) rfl]
  have m1 : 0 + min (1 * n) (a.length - 0) = n := by omega
  rw [m1]
  simp only [List.set_cons_zero]
  have e1 : ∀ f, run ⟨f, [⟨a, some n⟩, ⟨b, none⟩]⟩ [.opens 1] = ⟨[], [⟨a, some n⟩, ⟨b, some 0⟩]⟩ := fun _ => rfl
  rw [e1, run_portions 1 b 1 b.length 0 _ _ (by omega) rfl]
  have m2 : 0 + min (1 * b.length) (b.length - 0) = b.length := by omega
  rw [m2, List.drop_zero, List.take_of_length_le (l := b) (by omega), pwrite_zero (by simp)]
  simp only [List.set_cons_succ, List.set_cons_zero]
  rw [run_portions 1 a 0 a.length n _ _ (by omega) rfl]
  have m3 : n + min (1 * a.length) (a.length - n) = a.length := by omega
  rw [m3, List.take_of_length_le (l := a.drop _) (by rw [List.length_drop]; omega)]
  have hne : a.drop n ≠ [] := by simp; omega
  have e2 : pwrite b n (a.drop n) = b ++ List.replicate (n - b.length) 0 ++ a.drop n := by
    unfold pwrite
    rw [if_neg hne, List.take_of_length_le h1, List.drop_of_length_le (l := b) (by omega), List.append_nil]
  rw [e2]
  rfl

end Ulz.Savers
