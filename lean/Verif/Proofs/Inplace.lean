import Verif.Model.Inplace
import Verif.Proofs.Filelib
namespace Ulz.Inplace
open Ulz.Filelib

theorem rd_eq_ok {l : List Byte} {i : Nat} {b : Byte} : rd l i = .ok b ↔ l[i]? = some b := by
  unfold rd; cases l[i]? <;> simp

theorem rd_lt {l : List Byte} {i : Nat} {b : Byte} (h : rd l i = .ok b) : i < l.length := by
  rw [rd_eq_ok, List.getElem?_eq_some_iff] at h; exact h.1

theorem skip_congr {P P' : List Byte} : ∀ fuel i, (∀ j, i ≤ j → rd P' j = rd P j) → skip P' fuel i = skip P fuel i := by
  intro fuel
  induction fuel with
  | zero => intro i _; rfl
  | succ f ih =>
    intro i h
    rw [skip, skip, h (i + 1) (by omega), ih (i + 1) fun j hj => h j (by omega)]

theorem skip_bound {P : List Byte} : ∀ fuel i r, skip P fuel i = .ok r →
    i ≤ r ∧ ∀ n, rd P n = .ok 0 → i < n → r < n := by
  intro fuel
  induction fuel with
  | zero => intro i r h; cases h
  | succ f ih =>
    intro i r h
    rw [skip] at h
    cases hc : rd P (i + 1) with
    | error e => rw [hc] at h; cases h
    | ok c =>
      rw [hc, ok_bind] at h
      by_cases e : c = ch '/'
      · rw [if_pos e] at h
        obtain ⟨a, b⟩ := ih _ _ h
        refine ⟨by omega, fun n h0 hn => b n h0 ?_⟩
        rcases Nat.lt_or_ge (i + 1) n with h | h
        · exact h
        · have : n = i + 1 := by omega
          rw [this, hc] at h0
          rw [e] at h0
          exact absurd (Except.ok.inj h0) (by decide)
      · rw [if_neg e] at h
        cases h
        exact ⟨Nat.le_refl _, fun _ _ h => h⟩

theorem back_congr {o o' : List Byte} {size : Nat} (h : ∀ k, k < size → rd o' k = rd o k) :
    ∀ k, k < size → back o' k = back o k ∧ ∀ r, back o k = .ok r → r ≤ k := by
  intro k
  induction k with
  | zero => intro _; exact ⟨rfl, fun r hr => by cases hr; exact Nat.le_refl _⟩
  | succ k ih =>
    intro hk
    obtain ⟨a, b⟩ := ih (by omega)
    rw [back, back, h _ hk, a]
    refine ⟨rfl, fun r hr => ?_⟩
    cases hc : rd o (k + 1) with
    | error e => rw [hc] at hr; cases hr
    | ok c =>
      rw [hc, ok_bind] at hr
      split at hr
      · have := b _ hr; omega
      · cases hr; omega

/-- How the results of one iteration in two memories compare. -/
def Rel (P : List Byte) (i size : Nat) (out out' : List Byte) (r r' : Option St) : Prop :=
  match r, r' with
  | none, none => True
  | some t, some t' => t'.i = t.i ∧ t'.size = t.size ∧ i ≤ t.i ∧ (∀ n, rd P n = .ok 0 → i < n → t.i ≤ n) ∧
      ((t.size ≤ size ∧ t.out = out ∧ t'.out = out') ∨
       (t.size = size + 1 ∧ (∀ n, rd P n = .ok 0 → i < n → t.i < n) ∧
        size < out.length ∧ ∃ b, rd P t.i = .ok b ∧ t.out = out.set size b ∧ t'.out = out'.set size b))
  | _, _ => False

theorem copy_sim {P P' out out' : List Byte} {i j size : Nat} (hij : i ≤ j) (hn : ∀ n, rd P n = .ok 0 → i < n → j < n)
    (hP : ∀ j, i ≤ j + 1 → rd P' j = rd P j) (hroom : ∀ k, k < P.length → i ≤ k → size < out'.length) {r}
    (h : copy P ⟨j, out, size⟩ = .ok r) : ∃ r', copy P' ⟨j, out', size⟩ = .ok r' ∧ Rel P i size out out' r r' := by
  unfold copy at h ⊢
  simp only at h ⊢
  rw [hP j (by omega)]
  cases hb : rd P j with
  | error e => rw [hb] at h; cases h
  | ok b =>
    rw [hb] at h
    rw [ok_bind] at h ⊢
    have hl : size < out'.length := hroom j (rd_lt hb) hij
    rw [wr_ok hl]
    unfold wr at h
    by_cases ho : size < out.length
    · rw [if_pos ho] at h
      cases h
      exact ⟨_, rfl, rfl, rfl, hij, fun n a b => Nat.le_of_lt (hn n a b), .inr ⟨rfl, hn, ho, b, hb, rfl, rfl⟩⟩
    · rw [if_neg ho] at h; cases h

theorem slash_sim {P P' out out' : List Byte} {i size : Nat} (hlen : P'.length = P.length)
    (hP : ∀ j, i ≤ j + 1 → rd P' j = rd P j) (ho : ∀ k, k < size → rd out' k = rd out k)
    (hroom : ∀ k, k < P.length → i ≤ k → size < out'.length) {r}
    (h : slash P ⟨i, out, size⟩ = .ok r) : ∃ r', slash P' ⟨i, out', size⟩ = .ok r' ∧ Rel P i size out out' r r' := by
  unfold slash at h ⊢
  simp only at h ⊢
  rw [hlen, skip_congr _ _ fun j hj => hP j (by omega)]
  cases hs : skip P (P.length + 1) i with
  | error e => rw [hs] at h; cases h
  | ok j =>
    rw [hs] at h
    rw [ok_bind] at h ⊢
    obtain ⟨b1, b2⟩ := skip_bound _ _ _ hs
    by_cases h0 : size = 0
    · rw [if_pos h0] at h ⊢
      exact copy_sim b1 b2 hP hroom h
    · rw [if_neg h0] at h ⊢
      rw [ho _ (by omega)]
      cases hc : rd out (size - 1) with
      | error e => rw [hc] at h; cases h
      | ok c =>
        rw [hc] at h
        rw [ok_bind] at h ⊢
        split
        · rename_i hx; rw [if_pos hx] at h; exact copy_sim b1 b2 hP hroom h
        · rename_i hx; rw [if_neg hx] at h
          cases h
          exact ⟨_, rfl, rfl, rfl, b1, fun n x y => Nat.le_of_lt (b2 n x y), .inl ⟨Nat.le_refl _, rfl, rfl⟩⟩

theorem dot_sim {P P' out out' : List Byte} {i size : Nat} (hz : 0 < size) (hi : ∀ n, rd P n = .ok 0 → i ≠ n)
    (hP : ∀ j, i ≤ j + 1 → rd P' j = rd P j) (ho : ∀ k, k < size → rd out' k = rd out k)
    (hroom : ∀ k, k < P.length → i ≤ k → size < out'.length) {r}
    (h : dotC P ⟨i, out, size - 1⟩ = .ok r) : ∃ r', dotC P' ⟨i, out', size - 1⟩ = .ok r' ∧ Rel P i size out out' r r' := by
  unfold dotC at h ⊢
  simp only [show size - 1 + 1 = size by omega] at h ⊢
  rw [hP (i + 1) (by omega)]
  cases hc : rd P (i + 1) with
  | error e => rw [hc] at h; cases h
  | ok c =>
    rw [hc] at h
    rw [ok_bind] at h ⊢
    have hn1 : c ≠ 0 → ∀ n, rd P n = .ok 0 → i < n → i + 1 < n := by
      intro hc0 n h0 hn
      rcases Nat.lt_or_ge (i + 1) n with h | h
      · exact h
      · have : n = i + 1 := by omega
        rw [this, hc] at h0
        exact absurd (Except.ok.inj h0) hc0
    by_cases c1 : c = ch '.'
    · rw [if_pos c1] at h ⊢
      rw [hP (i + 2) (by omega)]
      cases hd : rd P (i + 2) with
      | error e => rw [hd] at h; cases h
      | ok d =>
        rw [hd] at h
        rw [ok_bind] at h ⊢
        by_cases d1 : d = 0 ∨ d = ch '/'
        · rw [if_pos d1] at h ⊢
          unfold popC at h ⊢
          simp only at h ⊢
          by_cases s0 : size - 1 = 0
          · rw [if_pos s0] at h ⊢
            cases h
            exact ⟨_, rfl, trivial⟩
          · rw [if_neg s0] at h ⊢
            obtain ⟨e1, e2⟩ := back_congr ho (size - 1 - 1) (by omega)
            rw [e1]
            cases hb : back out (size - 1 - 1) with
            | error e => rw [hb] at h; cases h
            | ok k =>
              rw [hb] at h
              rw [ok_bind] at h ⊢
              have := e2 _ hb
              rw [ho k (by omega)]
              cases hk : rd out k with
              | error e => rw [hk] at h; cases h
              | ok x =>
                rw [hk] at h
                rw [ok_bind] at h ⊢
                split
                · rename_i hx; rw [if_pos hx] at h; cases h
                  refine ⟨_, rfl, rfl, rfl, by simp only; omega, ?_, .inl ⟨by simp only; omega, rfl, rfl⟩⟩
                  intro n h0 hn
                  have := hn1 (by rw [c1]; decide) n h0 hn
                  exact this
                · rename_i hx; rw [if_neg hx] at h; cases h
                  exact ⟨_, rfl, trivial⟩
        · rw [if_neg d1] at h ⊢
          exact copy_sim (Nat.le_refl _) (fun n _ h => h) hP hroom h
    · rw [if_neg c1] at h ⊢
      by_cases c2 : c = ch '/'
      · rw [if_pos c2] at h ⊢
        cases h
        refine ⟨_, rfl, rfl, rfl, by simp only; omega, ?_, .inl ⟨Nat.le_refl _, rfl, rfl⟩⟩
        intro n h0 hn
        exact hn
      · rw [if_neg c2] at h ⊢
        by_cases c3 : c = 0
        · rw [if_pos c3] at h ⊢
          cases h
          exact ⟨_, rfl, rfl, rfl, Nat.le_refl _, fun n _ h => Nat.le_of_lt h, .inl ⟨Nat.le_refl _, rfl, rfl⟩⟩
        · rw [if_neg c3] at h ⊢
          exact copy_sim (Nat.le_refl _) (fun n _ h => h) hP hroom h

theorem step_sim {P P' out out' : List Byte} {i size : Nat} (hlen : P'.length = P.length)
    (hi : ∀ n, rd P n = .ok 0 → i ≠ n)
    (hP : ∀ j, i ≤ j + 1 → rd P' j = rd P j) (ho : ∀ k, k < size → rd out' k = rd out k)
    (hroom : ∀ k, k < P.length → i ≤ k → size < out'.length) {r}
    (h : stepC P ⟨i, out, size⟩ = .ok r) : ∃ r', stepC P' ⟨i, out', size⟩ = .ok r' ∧ Rel P i size out out' r r' := by
  unfold stepC at h ⊢
  simp only at h ⊢
  rw [hP i (by omega)]
  cases hc : rd P i with
  | error e => rw [hc] at h; cases h
  | ok c =>
    rw [hc] at h
    rw [ok_bind] at h ⊢
    by_cases c1 : c = ch '/'
    · rw [if_pos c1] at h ⊢
      exact slash_sim hlen hP ho hroom h
    rw [if_neg c1] at h ⊢
    by_cases c2 : c = ch '.'
    · rw [if_pos c2] at h ⊢
      by_cases c3 : i = 0 ∨ size = 0
      · rw [if_pos c3] at h ⊢
        cases h
        exact ⟨_, rfl, trivial⟩
      rw [if_neg c3] at h ⊢
      rw [hP (i - 1) (by omega)]
      cases hq : rd P (i - 1) with
      | error e => rw [hq] at h; cases h
      | ok q =>
        rw [hq] at h
        rw [ok_bind] at h ⊢
        by_cases c4 : q = ch '/'
        · rw [if_pos c4] at h ⊢
          rw [ho _ (by omega)]
          cases hx : rd out (size - 1) with
          | error e => rw [hx] at h; cases h
          | ok x =>
            rw [hx] at h
            rw [ok_bind] at h ⊢
            split
            · rename_i e; rw [if_pos e] at h
              exact dot_sim (by omega) hi hP ho hroom h
            · rename_i e; rw [if_neg e] at h
              exact copy_sim (Nat.le_refl _) (fun n _ h => h) hP hroom h
        · rw [if_neg c4] at h ⊢
          exact copy_sim (Nat.le_refl _) (fun n _ h => h) hP hroom h
    · rw [if_neg c2] at h ⊢
      exact copy_sim (Nat.le_refl _) (fun n _ h => h) hP hroom h

theorem rd_drop {m : List Byte} {p i : Nat} : rd (m.drop p) i = rd m (p + i) := by
  unfold rd; rw [List.getElem?_drop]

theorem rd_set {m : List Byte} {k : Nat} {b : Byte} (hk : k < m.length) (j : Nat) :
    rd (m.set k b) j = if k = j then .ok b else rd m j := by
  unfold rd
  by_cases h : k = j
  · subst h; simp [hk]
  · rw [List.getElem?_set_ne h, if_neg h]

theorem take_set {m : List Byte} {o k : Nat} {b : Byte} : m.take o ++ (m.drop o).set k b = m.set (o + k) b := by
  rcases Nat.lt_or_ge m.length o with h | h
  · rw [List.take_of_length_le (by omega), List.drop_of_length_le (by omega), List.set_nil, List.append_nil,
      List.set_eq_of_length_le (by omega)]
  · have e : m.set (o + k) b = (m.take o ++ m.drop o).set (o + k) b := by rw [List.take_append_drop]
    rw [e, List.set_append_right _ _ (by simp; omega)]
    congr 2
    simp; omega

/-- The object `m` in the course of the loop, with a reference output `R` and the object `m0` before the call. -/
structure Sim (p o N : Nat) (m0 m R : List Byte) (i size : Nat) : Prop where
  len : m.length = m0.length
  ahead : ∀ j, p + i ≤ j + 1 → rd m j = rd m0 j
  out : ∀ k, k < size → rd m (o + k) = rd R k
  size : size ≤ i
  i : i ≤ N
  before : ∀ j, j < o → rd m j = rd m0 j
  after : ∀ j, p + N ≤ j → rd m j = rd m0 j

theorem loop_sim {p o N : Nat} (hop : o ≤ p) {m0 : List Byte} (hN : rd (m0.drop p) N = .ok 0)
    (hN' : ∀ j, j < N → rd (m0.drop p) j ≠ .ok 0) :
    ∀ fuel (m R : List Byte) (i size : Nat), Sim p o N m0 m R i size → ∀ r, loopV (m0.drop p) fuel ⟨i, R, size⟩ = .ok r →
    ∃ m' x, loopO p o fuel m i size = .ok (m', x) ∧
      match r, x with
      | none, none => ∃ i' size' R', Sim p o N m0 m' R' i' size'
      | some (R', sz), some sz' => sz' = sz ∧ Sim p o N m0 m' R' N sz
      | _, _ => False := by
  intro fuel
  induction fuel with
  | zero => intro m R i size _ r h; cases h
  | succ f ih =>
    intro m R i size S r h
    rw [loopV] at h
    rw [loopO]
    simp only at h
    have e0 : rd (m.drop p) i = rd (m0.drop p) i := by rw [rd_drop, rd_drop, S.ahead _ (by omega)]
    rw [e0]
    cases hb : rd (m0.drop p) i with
    | error e => rw [hb] at h; cases h
    | ok b =>
      rw [hb] at h
      rw [ok_bind] at h ⊢
      by_cases b0 : b = 0
      · subst b0
        rw [if_neg (by simp)] at h ⊢
        cases h
        have : i = N := by
          have := S.i
          rcases Nat.lt_or_ge i N with h | h
          · exact absurd hb (hN' i h)
          · omega
        subst this
        exact ⟨_, _, rfl, rfl, S⟩
      · rw [if_pos b0] at h ⊢
        have hiN : i < N := by
          have := S.i
          rcases Nat.lt_or_ge i N with h | h
          · exact h
          · have : i = N := by omega
            rw [this, hN] at hb
            exact absurd (Except.ok.inj hb).symm b0
        cases hs : stepC (m0.drop p) ⟨i, R, size⟩ with
        | error e => rw [hs] at h; cases h
        | ok t =>
          rw [hs] at h
          rw [ok_bind] at h
          have hsz := S.size
          obtain ⟨t', e1, e2⟩ := step_sim (P' := m.drop p) (out' := m.drop o) (by simp [S.len])
            (fun n hn e => by rw [← e, hb] at hn; exact b0 (Except.ok.inj hn))
            (fun j hj => by rw [rd_drop, rd_drop, S.ahead _ (by omega)])
            (fun k hk => by rw [rd_drop, S.out k hk])
            (fun k hk hik => by simp only [List.length_drop, S.len] at hk ⊢; omega) hs
          rw [e1, ok_bind]
          match t, t', e2 with
          | none, none, _ =>
            simp only at h ⊢
            cases h
            exact ⟨_, _, rfl, _, _, _, S⟩
          | some t, some t', e2 =>
            obtain ⟨x1, x2, x3, x4, x5⟩ := e2
            simp only at h ⊢
            have hiN' : t.i ≤ N := x4 N hN hiN
            -- the new object
            have S' : Sim p o N m0 (m.take o ++ t'.out) t.out (t.i + 1) t.size ∨
                (Sim p o N m0 (m.take o ++ t'.out) t.out t.i t.size ∧ t.i = N) := by
              rcases x5 with ⟨y1, y2, y3⟩ | ⟨y1, y2, hR, c, y3, y4, y5⟩
              · rw [y3, List.take_append_drop, y2]
                have base : ∀ q, i ≤ q → q ≤ N → Sim p o N m0 m R q t.size := fun q h1 h2 =>
                  ⟨S.len, fun j hj => S.ahead j (by omega), fun k hk => S.out k (by omega), by omega, h2, S.before, S.after⟩
                rcases Nat.lt_or_ge t.i N with h1 | h1
                · exact .inl (base _ (by omega) (by omega))
                · exact .inr ⟨base _ x3 hiN', by omega⟩
              · left
                have y2' := y2 N hN hiN
                have hlt : p + t.i < m0.length := by have := rd_lt y3; simp at this; omega
                rw [y5, take_set, y4]
                have hml : o + size < m.length := by rw [S.len]; omega
                rw [rd_drop] at y3
                refine ⟨by simp [S.len], ?_, ?_, by omega, by omega, ?_, ?_⟩
                · intro j hj
                  rw [rd_set hml]
                  split
                  · have : o + size = p + t.i := by omega
                    rw [← y3]; congr 1; omega
                  · exact S.ahead j (by omega)
                · intro k hk
                  rw [rd_set hml, rd_set hR]
                  by_cases hk' : size = k
                  · rw [if_pos (by omega), if_pos hk']
                  · rw [if_neg (by omega), if_neg hk']; exact S.out k (by omega)
                · intro j hj; rw [rd_set hml, if_neg (by omega)]; exact S.before j hj
                · intro j hj; rw [rd_set hml, if_neg (by omega)]; exact S.after j hj
            have e3 : rd ((m.take o ++ t'.out).drop p) t'.i = rd (m0.drop p) t.i := by
              rw [rd_drop, rd_drop, x1]
              rcases S' with S' | ⟨S', _⟩
              · exact S'.ahead _ (by omega)
              · exact S'.ahead _ (by omega)
            rw [e3, x1, x2]
            cases hc : rd (m0.drop p) t.i with
            | error e => rw [hc] at h; cases h
            | ok c =>
              rw [hc] at h
              rw [ok_bind] at h ⊢
              by_cases c0 : c = 0
              · rw [if_pos c0] at h ⊢
                have hiN : t.i = N := by
                  rcases Nat.lt_or_ge t.i N with h | h
                  · exact absurd (c0 ▸ hc) (hN' t.i h)
                  · omega
                rcases S' with S' | ⟨S', _⟩
                · have := S'.i; omega
                · cases h
                  exact ⟨_, _, rfl, rfl, hiN ▸ S'⟩
              · rw [if_neg c0] at h ⊢
                rcases S' with S' | ⟨_, hx⟩
                · exact ih _ _ _ _ S' _ h
                · rw [hx, hN] at hc
                  exact absurd (Except.ok.inj hc).symm c0
          | none, some _, e2 => exact e2.elim
          | some _, none, e2 => exact e2.elim

theorem finish_eq {out out' : List Byte} {size : Nat} (ho : ∀ k, k < size → rd out' k = rd out k) (hl : size < out'.length)
    {r} (h : finish out size = .ok r) :
    ∃ z, z ≤ size ∧ z < out.length ∧ r.1 = out.set z 0 ∧ finish out' size = .ok (out'.set z 0, z) := by
  unfold finish at h ⊢
  have fin : ∀ {z}, z ≤ size → ∀ {r : List Byte × Nat}, (do pure (← wr out z 0, z) : C (List Byte × Nat)) = .ok r →
      z < out.length ∧ r.1 = out.set z 0 ∧ (do pure (← wr out' z 0, z) : C (List Byte × Nat)) = .ok (out'.set z 0, z) := by
    intro z hz r h
    unfold wr at h
    by_cases hz' : z < out.length
    · rw [if_pos hz'] at h
      cases h
      exact ⟨hz', rfl, by rw [wr_ok (by omega)]; rfl⟩
    · rw [if_neg hz'] at h; cases h
  by_cases h1 : 1 < size
  · rw [if_pos h1] at h ⊢
    rw [ho _ (by omega)]
    cases hc : rd out (size - 1) with
    | error e => rw [hc] at h; cases h
    | ok c =>
      rw [hc] at h
      rw [ok_bind] at h ⊢
      split
      · rename_i hx; rw [if_pos hx] at h
        exact ⟨size - 1, by omega, fin (by omega) h⟩
      · rename_i hx; rw [if_neg hx] at h
        exact ⟨size, by omega, fin (by omega) h⟩
  · rw [if_neg h1] at h ⊢
    exact ⟨size, by omega, fin (by omega) h⟩

theorem getElem?_of_rd {l l' : List Byte} {i j : Nat} (h : rd l i = rd l' j) : l[i]? = l'[j]? := by
  unfold rd at h
  cases h1 : l[i]? <;> cases h2 : l'[j]? <;> rw [h1, h2] at h <;> simp_all

theorem inplace_spec {p o : Nat} (hop : o ≤ p) {m s junk : List Byte} (hm : m.drop p = s ++ 0 :: junk) (h0 : (0 : Byte) ∉ s) :
    ∃ m', normalizepath_cstr m p o = .ok (m', (Spec.normalize s).isSome) ∧ m'.length = m.length ∧
      m'.take o = m.take o ∧ m'.drop (p + s.length) = m.drop (p + s.length) ∧
      ∀ x, Spec.normalize s = some x → x ++ [0] <+: m'.drop o := by
  have hlen : m.length = p + (s.length + 1 + junk.length) := by
    have := congrArg List.length hm
    simp at this
    omega
  have ext : ∀ {m' : List Byte}, (∀ j, j < o → rd m' j = rd m j) → (∀ j, p + s.length ≤ j → rd m' j = rd m j) →
      m'.take o = m.take o ∧ m'.drop (p + s.length) = m.drop (p + s.length) := by
    intro m' h1 h2
    refine ⟨List.ext_getElem? fun j => ?_, List.ext_getElem? fun j => ?_⟩
    · rw [List.getElem?_take, List.getElem?_take]
      split
      · exact getElem?_of_rd (h1 j (by assumption))
      · rfl
    · rw [List.getElem?_drop, List.getElem?_drop]
      exact getElem?_of_rd (h2 _ (by omega))
  obtain ⟨R1, c1, c2, c3⟩ := cstrV_spec (junk := junk) (out := List.replicate (s.length + 1) 0) h0 (by simp)
  unfold cstrV at c1
  unfold normalizepath_cstr
  rw [hm]
  have hN : rd (m.drop p) s.length = .ok 0 := by rw [hm]; simp [rd]
  have hN' : ∀ j, j < s.length → rd (m.drop p) j ≠ .ok 0 := by
    intro j hj h
    rw [hm, rd_append_left hj, rd_ok hj] at h
    exact h0 (Except.ok.inj h ▸ List.getElem_mem hj)
  cases hb : rd (s ++ 0 :: junk) 0 with
  | error e => rw [hb] at c1; cases c1
  | ok b =>
    rw [hb] at c1
    rw [ok_bind] at c1 ⊢
    by_cases hbs : b = ch '/'
    · rw [if_neg (by simpa using hbs)] at c1 ⊢
      cases hr : loopV (s ++ 0 :: junk) ((s ++ 0 :: junk).length + 1) ⟨0, List.replicate (s.length + 1) 0, 0⟩ with
      | error e => rw [hr] at c1; cases c1
      | ok r =>
        rw [hr, ok_bind] at c1
        rw [← hm] at hr ⊢
        obtain ⟨m', x, e1, e2⟩ := loop_sim hop hN hN' _ m _ 0 0
          ⟨rfl, fun _ _ => rfl, fun k hk => absurd hk (by omega), Nat.le_refl _, Nat.zero_le _, fun _ _ => rfl, fun _ _ => rfl⟩
          _ hr
        rw [e1, ok_bind]
        match r, x, e2, c1 with
        | none, none, e2, c1 =>
          obtain ⟨i', size', R', S⟩ := e2
          simp only at c1 ⊢
          cases hn : Spec.normalize s with
          | some y => rw [hn] at c1; cases c1
          | none =>
            have := ext S.before S.after
            exact ⟨m', rfl, S.len, this.1, this.2, by simp⟩
        | some (R', sz), some sz', e2, c1 =>
          obtain ⟨rfl, S⟩ := e2
          simp only at c1 ⊢
          cases hf : finish R' sz' with
          | error e => rw [hf] at c1; cases c1
          | ok f =>
            rw [hf, ok_bind] at c1
            have hsz := S.size
            obtain ⟨z, z1, z2, z3, z4⟩ := finish_eq (out' := m'.drop o) (fun k hk => by rw [rd_drop, S.out k hk])
              (by simp [S.len, hlen]; omega) hf
            cases hn : Spec.normalize s with
            | none => rw [hn] at c1; cases c1
            | some y =>
              rw [hn] at c1
              have hR1 : R1 = R'.set z 0 := by rw [← z3]; injection c1 with c1; injection c1 with c1; exact c1.symm
              obtain ⟨J, hJ⟩ := c3 y hn
              rw [z4, ok_bind]
              simp only [take_set]
              have hz : o + z < m'.length := by rw [S.len, hlen]; omega
              have := ext (m' := m'.set (o + z) 0)
                (fun j hj => by rw [rd_set hz, if_neg (by omega)]; exact S.before j hj)
                (fun j hj => by
                  rw [rd_set hz]
                  split
                  · rename_i hx
                    have : j = p + s.length := by omega
                    rw [this, ← rd_drop, hN]
                  · exact S.after j hj)
              refine ⟨_, rfl, by simp [S.len], this.1, this.2, fun x hx => ?_⟩
              cases hx
              have hy : y.length ≤ z := by
                rcases Nat.lt_or_ge z y.length with h | h
                · exfalso
                  have : rd (R'.set z 0) z = .ok 0 := by rw [rd_set z2, if_pos rfl]
                  rw [← hR1, hJ, rd_append_left h, rd_ok h] at this
                  exact normalize_zero h0 hn (Except.ok.inj this ▸ List.getElem_mem h)
                · exact h
              rw [List.prefix_iff_getElem?]
              intro k hk
              have hk' : k ≤ y.length := by simpa using Nat.lt_succ_iff.1 (by simpa using hk)
              have e : rd (m'.set (o + z) 0) (o + k) = rd R1 k := by
                rw [hR1, rd_set hz, rd_set z2]
                by_cases hkz : z = k
                · rw [if_pos (by omega), if_pos hkz]
                · rw [if_neg (by omega), if_neg hkz]
                  exact S.out k (by omega)
              rw [List.getElem?_drop, getElem?_of_rd e, hJ, ← List.getElem?_eq_getElem hk,
                show y ++ 0 :: J = (y ++ [0]) ++ J by simp, List.getElem?_append_left hk]
        | none, some _, e2, _ => exact e2.elim
        | some _, none, e2, _ => exact e2.elim
    · rw [if_pos hbs] at c1 ⊢
      cases hn : Spec.normalize s with
      | some y => rw [hn] at c1; cases c1
      | none => exact ⟨m, rfl, rfl, rfl, rfl, by simp⟩

/-! ### The output inside the path -/

/-- A byte of a plain name. -/
def Plain (c : Byte) : Prop := c ≠ 0 ∧ c ≠ ch '/' ∧ c ≠ ch '.'

/-- Up to `n` the object holds plain bytes, with a slash at every multiple of `o`. -/
def Per (o n : Nat) (m : List Byte) : Prop := ∀ j, j < n → ∃ c, rd m j = .ok c ∧ (if j % o = 0 then c = ch '/' else Plain c)

theorem copy_err {P out : List Byte} {i size : Nat} {c : Byte} (hc : rd P i = .ok c) :
    copy P ⟨i, out, size⟩ = if size < out.length then .ok (some ⟨i, out.set size c, size + 1⟩) else .error .oobWrite := by
  unfold copy wr
  simp only [hc, ok_bind]
  split <;> rfl

theorem step_per {o i : Nat} (ho : 2 ≤ o) {m : List Byte} (h : Per o (o + i) m) : ∃ c, rd m i = .ok c ∧ c ≠ 0 ∧
    stepC m ⟨i, m.drop o, i⟩ = copy m ⟨i, m.drop o, i⟩ := by
  obtain ⟨c, c1, c2⟩ := h i (by omega)
  by_cases h0 : i % o = 0
  · rw [if_pos h0] at c2
    refine ⟨c, c1, by rw [c2]; decide, ?_⟩
    obtain ⟨d, d1, d2⟩ := h (i + 1) (by omega)
    have h1 : (i + 1) % o ≠ 0 := by
      rw [Nat.add_mod, h0, Nat.zero_add, Nat.mod_mod, Nat.mod_eq_of_lt (by omega)]; omega
    rw [if_neg h1] at d2
    unfold stepC
    simp only [c1, ok_bind, c2, if_true]
    unfold slash
    have hs : skip m (m.length + 1) i = .ok i := by rw [skip, d1, ok_bind, if_neg d2.2.1]; rfl
    simp only [hs, ok_bind]
    by_cases hi : i = 0
    · rw [if_pos hi]
    · rw [if_neg hi]
      obtain ⟨e, e1, e2⟩ := h (o + (i - 1)) (by omega)
      have h2 : (o + (i - 1)) % o ≠ 0 := by
        rw [Nat.add_mod_left]
        intro h2
        have hd1 := Nat.dvd_of_mod_eq_zero h2
        have hd2 := Nat.dvd_of_mod_eq_zero h0
        have := (Nat.dvd_sub hd2 hd1)
        rw [show i - (i - 1) = 1 by omega] at this
        have := Nat.le_of_dvd (by omega) this
        omega
      rw [if_neg h2] at e2
      rw [rd_drop, e1, ok_bind, if_pos e2.2.1]
  · rw [if_neg h0] at c2
    refine ⟨c, c1, c2.1, ?_⟩
    unfold stepC
    simp only [c1, ok_bind]
    rw [if_neg c2.2.1, if_neg c2.2.2]

theorem loop_per {o : Nat} (ho : 2 ≤ o) : ∀ fuel (m : List Byte) i, Per o (o + i) m → m.length < fuel + (o + i) →
    loopO 0 o fuel m i i = .error .oobWrite := by
  intro fuel
  induction fuel with
  | zero =>
    intro m i h hf
    obtain ⟨c, c1, _⟩ := h (o + i - 1) (by omega)
    have := rd_lt c1
    omega
  | succ f ih =>
    intro m i h hf
    obtain ⟨c, c1, c2, c3⟩ := step_per ho h
    rw [loopO]
    simp only [List.drop_zero, c1, ok_bind, c2, c3, copy_err c1]
    rw [if_pos (by simpa using c2)]
    by_cases hl : i < (m.drop o).length
    · rw [if_pos hl]
      simp only [ok_bind, take_set]
      simp only [List.length_drop] at hl
      have hl' : o + i < m.length := by omega
      have e : rd (m.set (o + i) c) i = .ok c := by rw [rd_set hl', if_neg (by omega), c1]
      simp only [e, ok_bind, c2, if_false]
      refine ih _ _ ?_ (by simp; omega)
      intro j hj
      rw [rd_set hl']
      by_cases hj' : o + i = j
      · refine ⟨c, by rw [if_pos hj'], ?_⟩
        obtain ⟨c', x1, x2⟩ := h i (by omega)
        rw [c1] at x1
        cases x1
        rw [← hj', Nat.add_mod_left]
        exact x2
      · rw [if_neg hj']
        exact h j (by omega)
    · rw [if_neg hl]
      rfl

end Ulz.Inplace
