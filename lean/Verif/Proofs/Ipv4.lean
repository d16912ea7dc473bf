import Verif.Proofs.Text
set_option linter.unusedSimpArgs false
set_option linter.unusedVariables false
namespace Ulz.Text
open Spec Numbers.Spec

theorem dec_byte (p : Byte) : dec p.toNat =
    if p.toNat ≥ 100 then [if p.toNat ≥ 200 then ch '2' else ch '1',
      BitVec.ofNat 8 (p.toNat % 100 / 10) + ch '0', BitVec.ofNat 8 (p.toNat % 100 % 10) + ch '0']
    else if p.toNat ≥ 10 then [BitVec.ofNat 8 (p.toNat / 10) + ch '0', BitVec.ofNat 8 (p.toNat % 10) + ch '0']
    else [BitVec.ofNat 8 p.toNat + ch '0'] := by
  revert p; decide +kernel

theorem ipByte_put (out xs : List Byte) (p : Byte) (h : xs.length + (dec p.toNat).length + 1 ≤ out.length)
    (o : Nat) (ho : o = xs.length) :
    ipByte (put out 0 xs) o p =
      .ok (put out 0 (xs ++ dec p.toNat ++ [46]), xs.length + (dec p.toNat).length + 1) := by
  have hdot : ch '.' = (46 : Byte) := by decide
  have hd := dec_byte p
  unfold ipByte
  subst ho
  by_cases h1 : p.toNat ≥ 100
  · have h2 : p.toNat ≥ 10 := by omega
    rw [if_pos h1] at hd
    rw [hd] at h ⊢
    simp only [List.length_cons, List.length_nil] at h
    simp only [if_pos h1, if_pos h2]
    rw [wr_put0 rfl (by omega)]
    simp only [ok_bind, pure_eq_ok]
    rw [wr_put0 (by simp) (by omega)]
    simp only [ok_bind, pure_eq_ok]
    rw [wr_put0 (by simp) (by omega)]
    simp only [ok_bind, pure_eq_ok]
    rw [wr_put0 (by simp) (by omega)]
    simp [hdot]
  · rw [if_neg h1] at hd
    simp only [if_neg h1, pure_eq_ok, ok_bind]
    by_cases h2 : p.toNat ≥ 10
    · rw [if_pos h2] at hd
      rw [hd] at h ⊢
      simp only [List.length_cons, List.length_nil] at h
      simp only [if_pos h2]
      rw [wr_put0 rfl (by omega)]
      simp only [ok_bind, pure_eq_ok]
      rw [wr_put0 (by simp) (by omega)]
      simp only [ok_bind, pure_eq_ok]
      rw [wr_put0 (by simp) (by omega)]
      simp [hdot]
    · rw [if_neg h2] at hd
      rw [hd] at h ⊢
      simp only [List.length_cons, List.length_nil] at h
      simp only [if_neg h2, ok_bind, pure_eq_ok]
      rw [wr_put0 rfl (by omega)]
      simp only [ok_bind, pure_eq_ok]
      rw [wr_put0 (by simp) (by omega)]
      simp [hdot]

theorem dec_byte_length (p : Byte) : (dec p.toNat).length ≤ 3 := by
  rw [dec_byte]; split
  · simp
  · split <;> simp

theorem parse32_prefix (g rest : List Byte) (lo : Nat) : ∀ (n : Nat) (mul r : Int), lo + n ≤ g.length →
    Numbers.parse32 (g ++ rest) lo n mul r = Numbers.parse32 g lo n mul r
  | 0, _, _, _ => rfl
  | n + 1, mul, r, h => by
    simp only [Numbers.parse32]
    rw [rd_append_left (by omega)]
    congr 1; funext c
    congr 1; funext x
    congr 1; funext y
    congr 1; funext z
    exact parse32_prefix g rest lo n _ _ (by omega)

theorem strtoint_prefix (g rest : List Byte) :
    Numbers.strtoint (g ++ rest) g.length = Numbers.strtoint g g.length := by
  unfold Numbers.strtoint
  by_cases h : g.length = 0
  · rw [if_pos h, if_pos h]
  · rw [if_neg h, if_neg h, rd_append_left (by omega), parse32_prefix g rest 1 _ _ _ (by omega),
      parse32_prefix g rest 0 _ _ _ (by omega)]

theorem pieces_ne_nil (s : List Byte) : pieces s ≠ [] := by
  cases s with
  | nil => simp [pieces]
  | cons c s =>
    unfold pieces
    split
    · simp
    · split <;> simp

theorem pieces_nodot : ∀ (g : List Byte), 46 ∉ g → pieces g = [g]
  | [], _ => rfl
  | c :: g, h => by
    have hc : c ≠ 46 := fun e => h (by rw [e]; exact List.mem_cons_self)
    simp only [pieces, if_neg hc, pieces_nodot g (fun e => h (List.mem_cons_of_mem _ e))]

theorem pieces_dot : ∀ (g s : List Byte), 46 ∉ g → pieces (g ++ 46 :: s) = g :: pieces s
  | [], s, _ => by simp [pieces]
  | c :: g, s, h => by
    have hc : c ≠ 46 := fun e => h (by rw [e]; exact List.mem_cons_self)
    simp only [List.cons_append, pieces, if_neg hc, pieces_dot g s (fun e => h (List.mem_cons_of_mem _ e))]

/-- What `ipv4fromstring` computes from the pieces. -/
def ipResult (out xs : List Byte) (k : Nat) (gs : List (List Byte)) : C (List Byte × Nat) := do
  let vs ← (gs.take k).mapM (fun g => Numbers.strtoint g g.length)
  pure (put out 0 (xs ++ vs.map (BitVec.ofInt 8)), if k ≤ gs.length then 1 else 0)

theorem ip4Loop_put (out junk : List Byte) (hout : 4 ≤ out.length) : ∀ (s g xs : List Byte) (k : Nat),
    0 ∉ s → 46 ∉ g → xs.length + k = 4 → 0 < k →
    ip4Loop (put out 0 xs) xs.length (g ++ s ++ 0 :: junk) g.length (s ++ 0 :: junk) =
      ipResult out xs k (pieces (g ++ s))
  | [], g, xs, k, h0, hg, hk, hk0 => by
    simp only [List.nil_append, List.append_nil, ip4Loop]
    rw [if_pos (by simp), strtoint_prefix, pieces_nodot g hg]
    unfold ipResult
    obtain ⟨k', rfl⟩ : ∃ k', k = k' + 1 := ⟨k - 1, by omega⟩
    simp only [List.take_succ_cons, List.take_nil, List.mapM_cons, List.mapM_nil]
    cases Numbers.strtoint g g.length with
    | error e => rfl
    | ok v =>
      simp only [ok_bind, pure_eq_ok]
      rw [wr_put0 rfl (by omega)]
      simp only [ok_bind]
      by_cases hk1 : k' = 0
      · subst hk1
        rw [if_neg (by omega), if_neg (by omega)]
        simp
      · rw [if_pos ⟨by simp, by omega⟩]
        simp [hk1]
  | c :: s, g, xs, k, h0, hg, hk, hk0 => by
    have hc0 : c ≠ 0 := fun e => h0 (by rw [e]; exact List.mem_cons_self)
    have h0' : 0 ∉ s := fun e => h0 (List.mem_cons_of_mem _ e)
    have hdot : ch '.' = (46 : Byte) := by decide
    simp only [List.cons_append, ip4Loop]
    by_cases hc : c = 46
    · subst hc
      rw [if_pos (.inl hdot.symm)]
      rw [List.append_assoc, strtoint_prefix, pieces_dot g s hg]
      obtain ⟨k', rfl⟩ : ∃ k', k = k' + 1 := ⟨k - 1, by omega⟩
      unfold ipResult
      simp only [List.take_succ_cons, List.mapM_cons]
      cases Numbers.strtoint g g.length with
      | error e => rfl
      | ok v =>
        simp only [ok_bind, pure_eq_ok]
        rw [wr_put0 rfl (by omega)]
        simp only [ok_bind]
        rw [if_neg (by intro h; exact hc0 h.1)]
        by_cases hk1 : k' = 0
        · subst hk1
          rw [if_neg (by omega)]
          simp
        · rw [if_pos (by omega)]
          have ih := ip4Loop_put out junk hout s [] (xs ++ [BitVec.ofInt 8 v]) k' h0' (by simp)
            (by simp; omega) (by omega)
          simp only [List.nil_append, List.length_append, List.length_nil, List.length_singleton] at ih
          rw [ih]
          unfold ipResult
          cases ((pieces s).take k').mapM (fun g => Numbers.strtoint g g.length) with
          | error e => rfl
          | ok vs => simp
    · rw [if_neg (by rw [hdot]; rintro (h | h); exact hc h; exact hc0 h)]
      have ih := ip4Loop_put out junk hout s (g ++ [c]) xs k h0'
        (by rw [List.mem_append, List.mem_singleton]; rintro (h | h); exact hg h; exact hc h.symm) hk hk0
      have e1 : g ++ [c] ++ s = g ++ c :: s := by simp
      have e2 : (g ++ [c]).length = g.length + 1 := by simp
      rw [e1, e2, List.append_assoc] at ih
      rw [List.append_assoc]
      exact ih

theorem infix_dots_cons (c : Byte) (s : List Byte) :
    [46, 46] <:+: c :: s ↔ (c = 46 ∧ s.head? = some 46) ∨ [46, 46] <:+: s := by
  rw [List.infix_cons_iff]
  have : [46, 46] <+: c :: s ↔ (c = 46 ∧ s.head? = some 46) := by
    rw [List.cons_prefix_cons]
    constructor
    · rintro ⟨rfl, h⟩
      cases s with
      | nil => simp at h
      | cons d s => rw [List.cons_prefix_cons] at h; simp [h.1]
    · rintro ⟨rfl, h⟩
      cases s with
      | nil => simp at h
      | cons d s => simp at h; subst h; simp
  rw [this]

theorem numbers_iff (c : Byte) : NUMBERS.contains c = true ↔ digit c := by revert c; decide +kernel

theorem numericLoop_spec (junk : List Byte) : ∀ (s : List Byte) (n d : Nat) (w : Bool), 0 ∉ s →
    ∃ r, numericLoop (s ++ 0 :: junk) n d w = .ok r ∧ (r = 0 ∨ r = 1) ∧
      (r = 1 ↔ ((∀ c ∈ s, digit c ∨ c = 46) ∧ (s.head? = some 46 → n ≠ 0 ∧ w = false) ∧ ¬ [46, 46] <:+: s ∧
        d + s.count 46 = 3 ∧ 4 ≤ n + s.countP (fun c => decide (digit c)) ∧
        n + s.countP (fun c => decide (digit c)) ≤ 12))
  | [], n, d, w, h0 => by
    simp only [List.nil_append, numericLoop]
    refine ⟨_, rfl, ?_, ?_⟩
    · split <;> simp
    · split
      · rename_i h; simp; omega
      · rename_i h; simp; omega
  | c :: s, n, d, w, h0 => by
    have hc0 : c ≠ 0 := fun e => h0 (by rw [e]; exact List.mem_cons_self)
    have h0' : 0 ∉ s := fun e => h0 (List.mem_cons_of_mem _ e)
    have hdot : ch '.' = (46 : Byte) := by decide
    simp only [List.cons_append, numericLoop, if_neg hc0, hdot]
    have hnd : ¬ digit 46 := by decide
    by_cases hc : c = 46
    · subst hc
      rw [if_pos rfl]
      by_cases hr : n = 0 ∨ w = true
      · rw [if_pos hr]
        refine ⟨0, rfl, .inl rfl, by simp, ?_⟩
        rintro ⟨_, h2, _⟩
        have := h2 (by simp)
        rcases hr with hr | hr
        · exact absurd hr this.1
        · rw [this.2] at hr; cases hr
      · rw [if_neg hr]
        obtain ⟨r, h1, h2, h3⟩ := numericLoop_spec junk s n (d + 1) true h0'
        refine ⟨r, h1, h2, h3.trans ?_⟩
        rw [infix_dots_cons]
        simp only [List.head?_cons, List.count_cons_self, List.countP_cons, hnd, decide_false]
        constructor
        · rintro ⟨a1, a2, a3, a4, a5, a6⟩
          refine ⟨?_, fun _ => ?_, ?_, by omega, by simpa using a5, by simpa using a6⟩
          · intro x hx
            rcases List.mem_cons.1 hx with rfl | hx
            · exact .inr rfl
            · exact a1 x hx
          · rw [not_or] at hr; exact ⟨hr.1, by simpa using hr.2⟩
          · rintro (⟨_, h⟩ | h)
            · exact absurd (a2 h).2 (by simp)
            · exact a3 h
        · rintro ⟨a1, a2, a3, a4, a5, a6⟩
          rw [not_or] at a3
          exact ⟨fun x hx => a1 x (List.mem_cons_of_mem _ hx), fun h => absurd ⟨by simp, h⟩ a3.1, a3.2, by omega,
            by simpa using a5, by simpa using a6⟩
    · rw [if_neg hc]
      by_cases hn : digit c
      · rw [if_pos ((numbers_iff c).2 hn)]
        obtain ⟨r, h1, h2, h3⟩ := numericLoop_spec junk s (n + 1) d false h0'
        refine ⟨r, h1, h2, h3.trans ?_⟩
        rw [infix_dots_cons]
        have hcnt : (c :: s).count 46 = s.count 46 := by
          rw [List.count_cons, if_neg (by rw [beq_iff_eq]; exact hc)]; rfl
        simp only [List.head?_cons, hcnt, List.countP_cons, hn, decide_true, if_true]
        constructor
        · rintro ⟨a1, a2, a3, a4, a5, a6⟩
          refine ⟨?_, fun h => absurd (by simpa using h) hc, ?_, a4, by omega, by omega⟩
          · intro x hx
            rcases List.mem_cons.1 hx with rfl | hx
            · exact .inl hn
            · exact a1 x hx
          · rintro (⟨h, _⟩ | h)
            · exact hc h
            · exact a3 h
        · rintro ⟨a1, a2, a3, a4, a5, a6⟩
          rw [not_or] at a3
          exact ⟨fun x hx => a1 x (List.mem_cons_of_mem _ hx), fun h => ⟨by omega, by simp⟩, a3.2, a4, by omega, by omega⟩
      · rw [if_neg (fun h => hn ((numbers_iff c).1 h))]
        refine ⟨0, rfl, .inl rfl, by simp, ?_⟩
        rintro ⟨a1, _⟩
        rcases a1 c List.mem_cons_self with h | h
        · exact absurd h hn
        · exact absurd h hc

end Ulz.Text
