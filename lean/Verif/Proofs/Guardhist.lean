import Verif.Spec.Guardhist
import Verif.Proofs.Guard
namespace Ulz.Guard
open Spec

/-- An allocation in its mapping from page `B` on. -/
def At (ps : Nat) (e : Nat × Nat) (B : Nat) : Prop :=
  e.1 = (B + 1) * ps - e.2 % ps ∧ e.2 + 2 * ps < 2 ^ 64 ∧ (B + e.2 / ps + 2) * ps ≤ 2 ^ 64

theorem at_addr {ps : Nat} (hps : 0 < ps) {e : Nat × Nat} {B : Nat} (h : At ps e B) :
    e.1 = (B + (e.2 / ps + 1)) * ps - (e.2 / ps * ps + e.2 % ps) := by
  have h1 : (B + (e.2 / ps + 1)) * ps = (B + 1) * ps + e.2 / ps * ps := by rw [← Nat.add_mul]; congr 1; omega
  rw [h.1, h1]
  have : e.2 % ps < ps := Nat.mod_lt _ hps
  have : (B + 1) * ps = B * ps + ps := Nat.succ_mul ..
  omega

theorem has_iff {ps : Nat} (hps : 0 < ps) {e : Nat × Nat} {B : Nat} (h : At ps e B) (i : Nat) :
    Has ps e i ↔ B ≤ i ∧ i < B + e.2 / ps + 2 := by
  obtain ⟨p, n⟩ := e
  have hr : n % ps < ps := Nat.mod_lt _ hps
  have h1 : p = (B + 1) * ps - n % ps := h.1
  have h2 : (B + 1) * ps = B * ps + ps := Nat.succ_mul ..
  have hdm : n / ps * ps + n % ps = n := by rw [Nat.mul_comm]; exact Nat.div_add_mod n ps
  have e1 : (p - 1) / ps = B := by
    rw [show p - 1 = (ps - n % ps - 1) + B * ps by omega, Nat.add_mul_div_right _ _ hps, Nat.div_eq_of_lt (by omega), Nat.zero_add]
  have h3 : (B + 1 + n / ps) * ps = (B + 1) * ps + n / ps * ps := Nat.add_mul ..
  have e2 : (p + n) / ps = B + 1 + n / ps := by
    rw [show p + n = (B + 1 + n / ps) * ps by omega, Nat.mul_div_cancel _ hps]
  unfold Has
  show (p - 1) / ps ≤ i ∧ i ≤ (p + n) / ps ↔ B ≤ i ∧ i < B + n / ps + 2
  rw [e1, e2]
  omega

theorem alloc_some {ps : Nat} (hps : 0 < ps) {n B : Nat} (hn : n + 2 * ps < 2 ^ 64) (hB : (B + n / ps + 2) * ps ≤ 2 ^ 64) (s : Space) :
    (guard_alloc ps s n (some B) false = (mapped s B (n / ps), some ((B + 1) * ps - n % ps))) ∧ At ps ((B + 1) * ps - n % ps, n) B ∧
    guard_alloc ps s n (some B) true = (setPages (setPages s B (n / ps + 2) .rw) B (n / ps + 2) .unmapped, none) := by
  have hr : n % ps < ps := Nat.mod_lt _ hps
  have hdm : n / ps * ps + n % ps = n := by rw [Nat.mul_comm]; exact Nat.div_add_mod n ps
  have hA : At ps ((B + 1) * ps - n % ps, n) B := ⟨rfl, hn, hB⟩
  have h1 : (n / ps + 2) * ps = n / ps * ps + 2 * ps := Nat.add_mul ..
  have h := alloc_ok (ps := ps) (q := n / ps) (r := n % ps) (B := B) hps hr (by omega) (by rw [← Nat.add_assoc]; exact hB) s
  rw [hdm] at h
  have ha := at_addr hps hA
  simp only at ha
  rw [hdm] at ha
  refine ⟨?_, hA, h.2⟩
  rw [h.1, ← ha]

theorem free_at {k : Nat} {p n B m : Nat} (h : At (2 ^ k) (p, n) B) (hm : m % 2 ^ k = n % 2 ^ k)
    (hm1 : m + 2 * 2 ^ k < 2 ^ 64) (hm2 : (B + m / 2 ^ k + 2) * 2 ^ k ≤ 2 ^ 64) (s : Space) :
    guard_free (2 ^ k) s p m =
      if n % 2 ^ k = 0 then setPages s (B + 1) (m / 2 ^ k + 1) .unmapped else setPages s B (m / 2 ^ k + 2) .unmapped := by
  have hps : 0 < 2 ^ k := Nat.two_pow_pos k
  have hA : At (2 ^ k) (p, m) B := ⟨by rw [h.1, hm], hm1, hm2⟩
  have ha := at_addr hps hA
  have hk : k < 64 := by
    apply Classical.byContradiction
    intro hk
    have := Nat.pow_le_pow_right (show 0 < 2 by omega) (show 64 ≤ k by omega)
    omega
  have hdm : m / 2 ^ k * 2 ^ k + m % 2 ^ k = m := by rw [Nat.mul_comm]; exact Nat.div_add_mod m _
  have h1 : (m / 2 ^ k + 2) * 2 ^ k = m / 2 ^ k * 2 ^ k + 2 * 2 ^ k := Nat.add_mul ..
  have hf := free_ok (k := k) (q := m / 2 ^ k) (r := m % 2 ^ k) (B := B) hk (Nat.mod_lt _ hps) (by omega)
    (by rw [← Nat.add_assoc]; exact hm2) s
  simp only at ha
  rw [← ha, hdm, hm] at hf
  exact hf

theorem in_last (B q : Nat) : B ≤ B + q + 1 ∧ B + q + 1 < B + q + 2 := by omega
theorem in_first (B q : Nat) : B ≤ B ∧ B < B + q + 2 := by omega
theorem in_first1 (B q : Nat) : B < B + q + 1 := by omega

/-- The invariant of a history. -/
structure Inv (ps : Nat) (s0 : Space) (st : St) (leaked : List Nat) : Prop where
  live : ∀ e ∈ st.live, ∃ B, At ps e B ∧ (∀ i, B ≤ i → i < B + e.2 / ps + 1 → st.space i = .rw) ∧ st.space (B + e.2 / ps + 1) = .none
  apart : st.live.Pairwise fun e f => ∀ i, ¬(Has ps e i ∧ Has ps f i)
  fresh : ∀ e ∈ st.live, ∀ i, Has ps e i → s0 i = .unmapped
  nodup : leaked.Nodup
  count : leaked.length = (st.freed.filter fun n => n % ps = 0).length
  leak : ∀ i ∈ leaked, s0 i = .unmapped ∧ st.space i = .rw ∧ ∀ e ∈ st.live, ¬Has ps e i
  rest : ∀ i, i ∉ leaked → (∀ e ∈ st.live, ¬Has ps e i) → st.space i = s0 i

theorem live_mapped {ps : Nat} (hps : 0 < ps) {s0 : Space} {st : St} {leaked : List Nat} (h : Inv ps s0 st leaked) {e : Nat × Nat} (he : e ∈ st.live)
    {i : Nat} (hi : Has ps e i) : st.space i ≠ .unmapped := by
  obtain ⟨B, hA, h1, h2⟩ := h.live e he
  rw [has_iff hps hA] at hi
  by_cases hl : i < B + e.2 / ps + 1
  · rw [h1 i hi.1 hl]; simp
  · rw [show i = B + e.2 / ps + 1 by omega, h2]; simp

theorem mapped_in {s : Space} {B q i : Nat} (h1 : B ≤ i) (h2 : i < B + q + 1) : mapped s B q i = .rw := by
  unfold mapped setPages
  rw [if_neg (by omega), if_pos (by omega)]

theorem mapped_guard {s : Space} {B q : Nat} : mapped s B q (B + q + 1) = .none := by
  unfold mapped setPages
  rw [if_pos (by omega)]

theorem mapped_out {s : Space} {B q i : Nat} (h : ¬(B ≤ i ∧ i < B + q + 2)) : mapped s B q i = s i := by
  unfold mapped setPages
  rw [if_neg (by omega), if_neg (by omega)]

theorem setPages_in {s : Space} {B n i : Nat} {v : Prot} (h : B ≤ i ∧ i < B + n) : setPages s B n v i = v := if_pos h
theorem setPages_out {s : Space} {B n i : Nat} {v : Prot} (h : ¬(B ≤ i ∧ i < B + n)) : setPages s B n v i = s i := if_neg h

theorem alloc_inv {ps : Nat} (hps : 0 < ps) {s0 : Space} {st : St} {leaked : List Nat} (h : Inv ps s0 st leaked) {n : Nat} {ans : Option Nat}
    {refuse : Bool} (hg : Granted ps st.space (.alloc n ans refuse)) : Inv ps s0 (step ps st (.alloc n ans refuse)) leaked := by
  cases ans with
  | none =>
    have : step ps st (.alloc n none refuse) = st := rfl
    rw [this]; exact h
  | some B =>
    obtain ⟨hn, hB, hu⟩ := hg
    obtain ⟨e1, hA, e2⟩ := alloc_some hps hn hB st.space
    cases refuse with
    | true =>
      have hs : setPages (setPages st.space B (n / ps + 2) .rw) B (n / ps + 2) .unmapped = st.space := by
        funext i
        by_cases hi : B ≤ i ∧ i < B + (n / ps + 2)
        · rw [setPages_in hi, hu i hi.1 (by omega)]
        · rw [setPages_out hi, setPages_out hi]
      have : step ps st (.alloc n (some B) true) = st := by
        unfold step
        simp only
        rw [e2, hs]
      rw [this]; exact h
    | false =>
      have hst : step ps st (.alloc n (some B) false) =
          ⟨mapped st.space B (n / ps), st.live ++ [((B + 1) * ps - n % ps, n)], st.freed⟩ := by
        unfold step
        simp only
        rw [e1]
      rw [hst]
      have hout : ∀ e ∈ st.live, ∀ i, Has ps e i → ¬(B ≤ i ∧ i < B + n / ps + 2) := by
        intro e he i hi hb
        exact live_mapped hps h he hi (hu i hb.1 hb.2)
      have hleak : ∀ i ∈ leaked, ¬(B ≤ i ∧ i < B + n / ps + 2) := by
        intro i hi hb
        have := (h.leak i hi).2.1
        rw [hu i hb.1 hb.2] at this
        cases this
      refine ⟨?_, ?_, ?_, h.nodup, h.count, ?_, ?_⟩
      · intro e he
        rcases List.mem_append.1 he with he | he
        · obtain ⟨B', hA', h1, h2⟩ := h.live e he
          refine ⟨B', hA', fun i hi hi' => ?_, ?_⟩
          · show mapped _ _ _ _ = _
            rw [mapped_out (hout e he i ((has_iff hps hA' i).2 (by omega)))]
            exact h1 i hi hi'
          · show mapped _ _ _ _ = _
            rw [mapped_out (hout e he _ ((has_iff hps hA' _).2 (in_last _ _)))]
            exact h2
        · rw [List.mem_singleton.1 he]
          exact ⟨B, hA, fun i hi hi' => mapped_in hi hi', mapped_guard⟩
      · refine List.pairwise_append.2 ⟨h.apart, List.pairwise_singleton _ _, ?_⟩
        intro e he f hf i hb
        rw [List.mem_singleton.1 hf, has_iff hps hA] at hb
        exact hout e he i hb.1 hb.2
      · intro e he i hi
        rcases List.mem_append.1 he with he | he
        · exact h.fresh e he i hi
        · rw [List.mem_singleton.1 he, has_iff hps hA] at hi
          rw [← h.rest i (fun hl => hleak i hl hi) (fun e he hh => hout e he i hh hi)]
          exact hu i hi.1 hi.2
      · intro i hi
        obtain ⟨h1, h2, h3⟩ := h.leak i hi
        refine ⟨h1, ?_, ?_⟩
        · show mapped _ _ _ _ = _
          rw [mapped_out (hleak i hi)]; exact h2
        · intro e he hh
          rcases List.mem_append.1 he with he | he
          · exact h3 e he hh
          · rw [List.mem_singleton.1 he, has_iff hps hA] at hh
            exact hleak i hi hh
      · intro i hi hl
        have hb : ¬(B ≤ i ∧ i < B + n / ps + 2) := by
          intro hb
          exact hl _ (List.mem_append_right _ (List.mem_singleton.2 rfl)) ((has_iff hps hA i).2 hb)
        show mapped _ _ _ _ = _
        rw [mapped_out hb]
        exact h.rest i hi fun e he => hl e (List.mem_append_left _ he)

theorem erase_apart {α : Type} {R : α → α → Prop} (hs : ∀ a b, R a b → R b a) : ∀ {l : List α}, l.Pairwise R → ∀ {i : Nat} {x : α}, l[i]? = some x →
    ∀ y ∈ l.eraseIdx i, R x y
  | [], _, i, x, h, y, hy => by simp at hy
  | a :: l, hp, 0, x, h, y, hy => by
    simp only [List.getElem?_cons_zero, Option.some.injEq] at h
    subst h
    exact (List.pairwise_cons.1 hp).1 y hy
  | a :: l, hp, i + 1, x, h, y, hy => by
    rw [List.getElem?_cons_succ] at h
    rw [List.eraseIdx_cons_succ] at hy
    have hc := List.pairwise_cons.1 hp
    rcases List.mem_cons.1 hy with rfl | hy
    · exact hs _ _ (hc.1 x (List.mem_of_getElem? h))
    · exact erase_apart hs hc.2 h y hy

theorem mem_erase_or {α : Type} : ∀ {l : List α} {i : Nat} {x : α}, l[i]? = some x → ∀ y ∈ l, y = x ∨ y ∈ l.eraseIdx i
  | [], i, x, h, y, hy => by simp at hy
  | a :: l, 0, x, h, y, hy => by
    simp only [List.getElem?_cons_zero, Option.some.injEq] at h
    subst h
    rcases List.mem_cons.1 hy with rfl | hy
    · exact .inl rfl
    · exact .inr hy
  | a :: l, i + 1, x, h, y, hy => by
    rw [List.getElem?_cons_succ] at h
    rw [List.eraseIdx_cons_succ]
    rcases List.mem_cons.1 hy with rfl | hy
    · exact .inr (by simp)
    · rcases mem_erase_or h y hy with r | r
      · exact .inl r
      · exact .inr (by simp [r])

theorem free_inv {k : Nat} {s0 : Space} {st : St} {leaked : List Nat} (h : Inv (2 ^ k) s0 st leaked) (i : Nat) :
    ∃ leaked', Inv (2 ^ k) s0 (step (2 ^ k) st (.free i)) leaked' := by
  have hps : 0 < 2 ^ k := Nat.two_pow_pos k
  cases hl : st.live[i]? with
  | none =>
    have : step (2 ^ k) st (.free i) = st := by unfold step; simp only; rw [hl]
    rw [this]; exact ⟨leaked, h⟩
  | some e =>
    obtain ⟨p, n⟩ := e
    have hmem := List.mem_of_getElem? hl
    obtain ⟨B, hA, h1, h2⟩ := h.live _ hmem
    simp only at h1 h2
    have hst : step (2 ^ k) st (.free i) = ⟨guard_free (2 ^ k) st.space p n, st.live.eraseIdx i, n :: st.freed⟩ := by
      unfold step; simp only; rw [hl]
    rw [hst, free_at hA rfl hA.2.1 hA.2.2]
    have hout : ∀ f ∈ st.live.eraseIdx i, ∀ j, Has (2 ^ k) f j → ¬(B ≤ j ∧ j < B + n / 2 ^ k + 2) := by
      intro f hf j hj hb
      exact erase_apart (R := fun e f => ∀ i, ¬(Has (2 ^ k) e i ∧ Has (2 ^ k) f i)) (fun a b hab i hi => hab i hi.symm) h.apart hl f hf j
        ⟨(has_iff hps hA j).2 hb, hj⟩
    have hleakout : ∀ j ∈ leaked, ¬(B ≤ j ∧ j < B + n / 2 ^ k + 2) := fun j hj hb => (h.leak j hj).2.2 _ hmem ((has_iff hps hA j).2 hb)
    have hsub : ∀ f ∈ st.live.eraseIdx i, f ∈ st.live := fun f hf => List.mem_of_mem_eraseIdx hf
    -- the space afterwards, outside and inside the mapping
    generalize hS : (if n % 2 ^ k = 0 then setPages st.space (B + 1) (n / 2 ^ k + 1) Prot.unmapped
      else setPages st.space B (n / 2 ^ k + 2) Prot.unmapped) = S
    have hSout : ∀ j, ¬(B ≤ j ∧ j < B + n / 2 ^ k + 2) → S j = st.space j := by
      intro j hj
      rw [← hS]
      split
      · exact setPages_out (by omega)
      · exact setPages_out (by omega)
    have hlive : ∀ f ∈ st.live.eraseIdx i, ∃ B', At (2 ^ k) f B' ∧ (∀ j, B' ≤ j → j < B' + f.2 / 2 ^ k + 1 → S j = .rw) ∧
        S (B' + f.2 / 2 ^ k + 1) = .none := by
      intro f hf
      obtain ⟨B', hA', g1, g2⟩ := h.live f (hsub f hf)
      refine ⟨B', hA', fun j hj hj' => ?_, ?_⟩
      · rw [hSout j (hout f hf j ((has_iff hps hA' j).2 (by omega)))]; exact g1 j hj hj'
      · rw [hSout _ (hout f hf _ ((has_iff hps hA' _).2 (in_last _ _)))]; exact g2
    have hap : (st.live.eraseIdx i).Pairwise fun e f => ∀ i, ¬(Has (2 ^ k) e i ∧ Has (2 ^ k) f i) := h.apart.sublist (List.eraseIdx_sublist _ _)
    have hrest : ∀ j, ¬(B ≤ j ∧ j < B + n / 2 ^ k + 2) → j ∉ leaked → (∀ f ∈ st.live.eraseIdx i, ¬Has (2 ^ k) f j) → S j = s0 j := by
      intro j hj hjl hjf
      rw [hSout j hj]
      refine h.rest j hjl fun f hf hh => ?_
      rcases mem_erase_or hl f hf with rfl | hf
      · exact hj ((has_iff hps hA j).1 hh)
      · exact hjf f hf hh
    have hfreshB : ∀ j, B ≤ j ∧ j < B + n / 2 ^ k + 2 → s0 j = .unmapped := fun j hj => h.fresh _ hmem j ((has_iff hps hA j).2 hj)
    by_cases hr : n % 2 ^ k = 0
    · rw [if_pos hr] at hS
      refine ⟨B :: leaked, hlive, hap, fun f hf => h.fresh f (hsub f hf), ?_, ?_, ?_, ?_⟩
      · exact List.nodup_cons.2 ⟨fun hB => hleakout B hB (in_first _ _), h.nodup⟩
      · show (leaked.length + 1) = _
        rw [List.filter_cons_of_pos (by simpa using hr), List.length_cons, h.count]
      · intro j hj
        rcases List.mem_cons.1 hj with rfl | hj
        · refine ⟨hfreshB j (in_first _ _), ?_, fun f hf hh => hout f hf j hh (in_first _ _)⟩
          show S j = _
          rw [← hS, setPages_out (by omega)]
          exact h1 j (Nat.le_refl _) (in_first1 _ _)
        · obtain ⟨g1, g2, g3⟩ := h.leak j hj
          refine ⟨g1, ?_, fun f hf => g3 f (hsub f hf)⟩
          show S j = _
          rw [hSout j (hleakout j hj)]; exact g2
      · intro j hj hjf
        simp only [List.mem_cons, not_or] at hj
        by_cases hb : B ≤ j ∧ j < B + n / 2 ^ k + 2
        · show S j = _
          rw [hfreshB j hb, ← hS, setPages_in (by omega)]
        · exact hrest j hb hj.2 hjf
    · rw [if_neg hr] at hS
      refine ⟨leaked, hlive, hap, fun f hf => h.fresh f (hsub f hf), h.nodup, ?_, ?_, ?_⟩
      · show _ = ((n :: st.freed).filter _).length
        rw [List.filter_cons_of_neg (by simpa using hr), h.count]
      · intro j hj
        obtain ⟨g1, g2, g3⟩ := h.leak j hj
        refine ⟨g1, ?_, fun f hf => g3 f (hsub f hf)⟩
        show S j = _
        rw [hSout j (hleakout j hj)]; exact g2
      · intro j hj hjf
        by_cases hb : B ≤ j ∧ j < B + n / 2 ^ k + 2
        · show S j = _
          rw [hfreshB j hb, ← hS, setPages_in (by omega)]
        · exact hrest j hb hj hjf

theorem run_inv {k : Nat} {s0 : Space} : ∀ (ops : List Op) {st : St} {leaked : List Nat}, Inv (2 ^ k) s0 st leaked → Valid (2 ^ k) st ops →
    ∃ leaked', Inv (2 ^ k) s0 (run (2 ^ k) st ops) leaked'
  | [], st, leaked, h, _ => ⟨leaked, h⟩
  | .alloc n ans refuse :: ops, st, leaked, h, hv =>
    run_inv ops (alloc_inv (Nat.two_pow_pos k) h hv.1) hv.2
  | .free i :: ops, st, leaked, h, hv => by
    obtain ⟨l', h'⟩ := free_inv h i
    exact run_inv ops h' hv.2

theorem inv_start (ps : Nat) (s0 : Space) : Inv ps s0 ⟨s0, [], []⟩ [] :=
  ⟨by simp, List.Pairwise.nil, by simp, List.nodup_nil, rfl, by simp, fun _ _ _ => rfl⟩

/-- The bytes of an allocation. -/
theorem at_bytes {ps : Nat} (hps : 0 < ps) {p n B : Nat} {s : Space} (h : At ps (p, n) B) (h1 : ∀ i, B ≤ i → i < B + n / ps + 1 → s i = .rw)
    (h2 : s (B + n / ps + 1) = .none) :
    (∀ a, p ≤ a → a < p + n → s (a / ps) = .rw) ∧ (∀ a, p + n ≤ a → a < p + n + ps → s (a / ps) = .none) := by
  have hr : n % ps < ps := Nat.mod_lt _ hps
  have hp : p = (B + 1) * ps - n % ps := h.1
  have e1 : (B + 1) * ps = B * ps + ps := Nat.succ_mul ..
  have hdm : n / ps * ps + n % ps = n := by rw [Nat.mul_comm]; exact Nat.div_add_mod n ps
  have e3 : (B + n / ps + 1) * ps = B * ps + n / ps * ps + ps := by rw [Nat.succ_mul, Nat.add_mul]
  constructor
  · intro a ha ha'
    have g1 : B ≤ a / ps := (Nat.le_div_iff_mul_le hps).2 (by omega)
    have g2 : a / ps < B + n / ps + 1 := (Nat.div_lt_iff_lt_mul hps).2 (by omega)
    exact h1 _ g1 g2
  · intro a ha ha'
    have : a / ps = B + n / ps + 1 := by
      rw [show a = (a - (B + n / ps + 1) * ps) + (B + n / ps + 1) * ps by omega, Nat.add_mul_div_right _ _ hps, Nat.div_eq_of_lt (by omega), Nat.zero_add]
    rw [this]; exact h2

end Ulz.Guard
