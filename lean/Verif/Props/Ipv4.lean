import Verif.Proofs.Ipv4
/-! # C13, C14: IPv4 text -/
set_option linter.unusedSimpArgs false
set_option linter.unusedVariables false
namespace Ulz.Props
open Text Text.Spec Numbers.Spec

/-- **C13** `stringfromipv4` writes exactly the dotted-quad text and a terminator. -/
theorem stringfromipv4_correct (a b c d : Byte) (more out : List Byte)
    (h : (dotted a b c d).length + 1 ≤ out.length) :
    stringfromipv4 (a :: b :: c :: d :: more) out = .ok (put out 0 (dotted a b c d ++ [0])) := by
  have hl : (dotted a b c d).length = (dec a.toNat).length + (dec b.toNat).length + (dec c.toNat).length +
      (dec d.toNat).length + 3 := by simp [dotted]; omega
  rw [hl] at h
  unfold stringfromipv4
  have e0 : out = put out 0 [] := by simp
  rw [e0]
  simp only [ipLoop, rd_cons_zero, rd_cons_succ, ok_bind]
  rw [ipByte_put out [] a (by simp; omega) 0 rfl]
  simp only [ok_bind]
  rw [ipByte_put out _ b (by simp; omega) _ (by simp)]
  simp only [ok_bind]
  rw [ipByte_put out _ c (by simp; omega) _ (by simp; omega)]
  simp only [ok_bind]
  rw [ipByte_put out _ d (by simp; omega) _ (by simp; omega)]
  simp only [ok_bind, pure_eq_ok]
  rw [wr_put_mid' (by simp; omega) (by simp; omega)]
  simp [dotted]

/-- **C13** The text has at most 15 characters, so 16 bytes are enough. -/
theorem dotted_fits (a b c d : Byte) : (dotted a b c d).length + 1 ≤ 16 := by
  have := dec_byte_length a; have := dec_byte_length b
  have := dec_byte_length c; have := dec_byte_length d
  simp [dotted]; omega

example : stringfromipv4 [192, 168, 0, 10] (List.replicate 16 7) =
    .ok (bytes! "192.168.0.10" ++ [0, 7, 7, 7]) := by decide

theorem dec_nodot (n : Nat) : 46 ∉ dec n := by
  intro h
  simp only [dec, List.mem_map] at h
  obtain ⟨x, hx, he⟩ := h
  have := Numbers.digitsOf_lt (b := 10) (n := n) (by omega) x hx
  have h2 := congrArg BitVec.toNat he
  simp at h2; omega

theorem dec_nozero (n : Nat) : 0 ∉ dec n := by
  intro h
  simp only [dec, List.mem_map] at h
  obtain ⟨x, hx, he⟩ := h
  have := Numbers.digitsOf_lt (b := 10) (n := n) (by omega) x hx
  have h2 := congrArg BitVec.toNat he
  simp at h2; omega

theorem dotted_nozero (a b c d : Byte) : 0 ∉ dotted a b c d := by
  unfold dotted
  have h46 : ¬ ((0 : Byte) = 46) := by decide
  simp only [List.mem_append, List.mem_cons, not_or]
  exact ⟨dec_nozero _, h46, dec_nozero _, h46, dec_nozero _, h46, dec_nozero _⟩

/-- **C13** (any text) `ipv4fromstring` converts the first four dot-separated pieces, each with
    `strtoint` reduced to a byte, and returns 1 exactly if there are four pieces. It never leaves its
    arguments; the only undefined behaviour is that of `strtoint` on a piece. -/
theorem ipv4fromstring_pieces (s junk out : List Byte) (h0 : 0 ∉ s) (hout : 4 ≤ out.length) :
    ipv4fromstring (s ++ 0 :: junk) out = (do
      let vs ← ((pieces s).take 4).mapM (fun g => Numbers.strtoint g g.length)
      pure (put out 0 (vs.map (BitVec.ofInt 8)), if 4 ≤ (pieces s).length then 1 else 0)) := by
  have := ip4Loop_put out junk hout s [] [] 4 h0 (by simp) rfl (by omega)
  simpa [ipv4fromstring, ipResult] using this

/-- **C13** Round trip. -/
theorem ipv4_roundtrip (a b c d : Byte) (more buf out : List Byte) (hb : 16 ≤ buf.length)
    (hout : 4 ≤ out.length) :
    ∃ t, stringfromipv4 (a :: b :: c :: d :: more) buf = .ok t ∧
      ipv4fromstring t out = .ok (put out 0 [a, b, c, d], 1) := by
  refine ⟨_, stringfromipv4_correct a b c d more buf (by have := dotted_fits a b c d; omega), ?_⟩
  rw [put_zero, List.append_assoc, List.cons_append, List.nil_append,
    ipv4fromstring_pieces _ _ _ (dotted_nozero a b c d) hout]
  have hp : pieces (dotted a b c d) = [dec a.toNat, dec b.toNat, dec c.toNat, dec d.toNat] := by
    unfold dotted
    rw [pieces_dot _ _ (dec_nodot _), pieces_dot _ _ (dec_nodot _), pieces_dot _ _ (dec_nodot _),
      pieces_nodot _ (dec_nodot _)]
  have hs : ∀ x : Byte, Numbers.strtoint (dec x.toNat) (dec x.toNat).length = .ok (x.toNat : Int) := by
    intro x
    have := strtoint_dec x.toNat [] (by have := x.isLt; omega)
    simpa using this
  have hx : ∀ x : Byte, BitVec.ofInt 8 (x.toNat : Int) = x := by intro x; simp
  rw [hp]
  simp only [List.take_succ_cons, List.take_zero, List.mapM_cons, List.mapM_nil, hs, ok_bind, pure_eq_ok,
    List.map_cons, List.map_nil, hx, List.length_cons, List.length_nil]
  rfl

example : ipv4fromstring (bytes! "10.0.255.3" ++ [0]) [9, 9, 9, 9, 9] = .ok ([10, 0, 255, 3, 9], 1) := by decide
example : ipv4fromstring (bytes! "10.7" ++ [0]) [9, 9, 9, 9] = .ok ([10, 7, 9, 9], 0) := by decide

/-- **C14** The exact set of texts that `isnumericipv4` accepts. -/
theorem isnumericipv4_iff (s junk : List Byte) (h0 : 0 ∉ s) :
    ∃ r, isnumericipv4 (s ++ 0 :: junk) = .ok r ∧ (r = 0 ∨ r = 1) ∧
      (r = 1 ↔ (∀ c ∈ s, digit c ∨ c = 46) ∧ s.head? ≠ some 46 ∧ ¬ [46, 46] <:+: s ∧ s.count 46 = 3 ∧
        4 ≤ s.countP (fun c => decide (digit c)) ∧ s.countP (fun c => decide (digit c)) ≤ 12) := by
  obtain ⟨r, h1, h2, h3⟩ := numericLoop_spec junk s 0 0 false h0
  refine ⟨r, h1, h2, h3.trans ?_⟩
  simp

/-- **C13** `isnumericipv4` accepts every dotted quad. -/
theorem isnumericipv4_dotted (a b c d : Byte) (junk : List Byte) :
    isnumericipv4 (dotted a b c d ++ 0 :: junk) = .ok 1 := by
  have hdig : ∀ n, ∀ x ∈ dec n, digit x := by
    intro n x hx
    simp only [dec, List.mem_map] at hx
    obtain ⟨y, hy, rfl⟩ := hx
    have := Numbers.digitsOf_lt (b := 10) (n := n) (by omega) y hy
    unfold digit; simp; omega
  have hpos := dec_len_pos
  have hcount : ∀ n, (dec n).count 46 = 0 := fun n => List.count_eq_zero.2 (dec_nodot n)
  have hcp : ∀ n, (dec n).countP (fun c => decide (digit c)) = (dec n).length := by
    intro n; rw [List.countP_eq_length]; intro x hx; simpa using hdig n x hx
  have h46 : ¬ digit 46 := by decide
  have hhead : ∀ n (r : List Byte), (dec n ++ r).head? ≠ some 46 := by
    intro n r h
    cases hd : dec n with
    | nil => have := hpos n; rw [hd] at this; simp at this
    | cons x t =>
      rw [hd] at h
      simp only [List.cons_append, List.head?_cons, Option.some.injEq] at h
      exact dec_nodot n (by rw [hd, h]; exact List.mem_cons_self)
  have hinf : ∀ (g r : List Byte), 46 ∉ g → (r.head? ≠ some 46 ∧ ¬ [46, 46] <:+: r) → ¬ [46, 46] <:+: g ++ 46 :: r := by
    intro g r hg hr
    induction g with
    | nil =>
      rw [List.nil_append, infix_dots_cons]
      rintro (⟨_, h⟩ | h)
      · exact hr.1 h
      · exact hr.2 h
    | cons x g ih =>
      rw [List.cons_append, infix_dots_cons]
      rintro (⟨h, _⟩ | h)
      · exact hg (by rw [h]; exact List.mem_cons_self)
      · exact ih (fun h => hg (List.mem_cons_of_mem _ h)) h
  have hend : ∀ n, ¬ [46, 46] <:+: dec n := fun n h => dec_nodot n (h.subset (by simp))
  have hhead' : ∀ n, (dec n).head? ≠ some 46 := fun n => by simpa using hhead n []
  obtain ⟨r, h1, h2, h3⟩ := isnumericipv4_iff (dotted a b c d) junk (dotted_nozero a b c d)
  rw [h1]
  congr 1
  rw [h3]
  have la := dec_byte_length a; have lb := dec_byte_length b
  have lc := dec_byte_length c; have ld := dec_byte_length d
  have pa := hpos a.toNat; have pb := hpos b.toNat; have pc := hpos c.toNat; have pd := hpos d.toNat
  refine ⟨?_, hhead _ _, ?_, ?_, ?_, ?_⟩
  · intro x hx
    simp only [dotted, List.mem_append, List.mem_cons] at hx
    rcases hx with h | h | h | h | h | h | h
    · exact .inl (hdig _ x h)
    · exact .inr h
    · exact .inl (hdig _ x h)
    · exact .inr h
    · exact .inl (hdig _ x h)
    · exact .inr h
    · exact .inl (hdig _ x h)
  · exact hinf _ _ (dec_nodot _) ⟨hhead _ _, hinf _ _ (dec_nodot _) ⟨hhead _ _, hinf _ _ (dec_nodot _) ⟨hhead' _, hend _⟩⟩⟩
  · simp only [dotted, List.count_append, List.count_cons_self, hcount]
  · simp only [dotted, List.countP_append, List.countP_cons, hcp, h46, decide_false]
    simp; omega
  · simp only [dotted, List.countP_append, List.countP_cons, hcp, h46, decide_false]
    simp; omega

example : isnumericipv4 (bytes! "1.2.3.4" ++ [0]) = .ok 1 ∧ isnumericipv4 (bytes! "12.3.4." ++ [0]) = .ok 1 ∧
    isnumericipv4 (bytes! "1..2.3.4" ++ [0]) = .ok 0 := by decide

end Ulz.Props
