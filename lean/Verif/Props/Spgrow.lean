import Verif.Proofs.Spgrow
/-! C205: growing a stringptr, and the life of its block. -/
namespace Ulz.Props
open Ulz.Spgrow

/-- C205: a string that was made in a block of its own has its text. -/
theorem stringptr_made (f : Nat → Byte) (h : Heap) (s : List Byte) (hs : s.length + 17 < 2 ^ 64) :
    ∃ h1 p, make f h s = .ok (h1, p) ∧ text h1 p = .ok s := by
  refine ⟨_, _, make_ok f h s hs, ?_⟩
  exact Kept.text ⟨_, (make_facts hs (make_ok f h s hs)).1, List.prefix_append _ _⟩

/-- C205: after stringptr_grow has given a block of `b` bytes, the text can be read exactly if the block was not moved and has room for the text
    behind its 16 bytes of members. Otherwise reading it is an error. -/
theorem stringptr_grow_iff (f : Nat → Byte) (h : Heap) (s : List Byte) (hs : s.length + 17 < 2 ^ 64) (hne : s ≠ []) (h1 : Heap) (p : Nat)
    (hm : make f h s = .ok (h1, p)) (b : Nat) (r : Re) (h2 : Heap) (q : Nat) (hg : grow h1 p b r = .ok (h2, some q)) :
    ((∃ g, r = .same g) ∧ 16 + s.length ≤ b → text h2 q = .ok s) ∧ (¬ ((∃ g, r = .same g) ∧ 16 + s.length ≤ b) → text h2 q = .error .oobRead) := by
  obtain ⟨e1, I⟩ := make_facts hs hm
  have k : Kept h1 p s := ⟨_, e1, List.prefix_append _ _⟩
  have hn : s.length ≠ 0 := by simpa using hne
  cases r with
  | null =>
    rw [grow_null e1] at hg
    cases (Prod.mk.inj (Except.ok.inj hg)).2
  | same g =>
    by_cases hb : 16 + s.length ≤ b
    · obtain ⟨h', e, k', _⟩ := k.same g hb
      rw [e] at hg
      obtain ⟨rfl, e2⟩ := Prod.mk.inj (Except.ok.inj hg)
      obtain rfl := Option.some.inj e2
      exact ⟨fun _ => k'.text, fun n => absurd ⟨⟨g, rfl⟩, hb⟩ n⟩
    · refine ⟨fun h => absurd h.2 hb, fun _ => ?_⟩
      unfold grow at hg
      rw [e1] at hg
      obtain ⟨rfl, e2⟩ := Prod.mk.inj (Except.ok.inj hg)
      obtain rfl := Option.some.inj e2
      by_cases h16 : b < 16
      · exact text_cut (put_self _ _ _) (by simp only [resize, if_pos h16])
      · rw [text_own (k := 0) (n := s.length) (p := p) (by rw [put_self, resize, if_neg h16]), if_neg hn]
        unfold rdN
        rw [if_neg]
        simp
        omega
  | moved g =>
    obtain ⟨h', e, k', _⟩ := k.moved (b := b) I.hi hne g
    rw [e] at hg
    obtain ⟨rfl, e2⟩ := Prod.mk.inj (Except.ok.inj hg)
    obtain rfl := Option.some.inj e2
    refine ⟨?_, fun _ => k'.text⟩
    rintro ⟨⟨_, e⟩, _⟩
    cases e

/-- C205: any number of calls that fail, or leave the block where it is and give it room for the text, leave the text as it is. -/
theorem stringptr_grow_keeps (f : Nat → Byte) (h : Heap) (s : List Byte) (hs : s.length + 17 < 2 ^ 64) (h1 : Heap) (p : Nat)
    (hm : make f h s = .ok (h1, p)) (gs : List (Nat × Re)) (hg : ∀ g ∈ gs, g.2 = .null ∨ (∃ f, g.2 = .same f) ∧ 16 + s.length ≤ g.1) :
    ∃ h2, run h1 p (gs.map fun g => .grow g.1 g.2) = .ok (h2, p) ∧ text h2 p = .ok s := by
  obtain ⟨h', e, k⟩ := Kept.run gs h1 p ⟨_, (make_facts hs hm).1, List.prefix_append _ _⟩ hg
  exact ⟨h', e, k.text⟩

/-- C205: once a call has moved the block, no further calls help: reading the text and writing into it are errors. -/
theorem stringptr_grow_moved (f : Nat → Byte) (h : Heap) (s : List Byte) (hs : s.length + 17 < 2 ^ 64) (hne : s ≠ []) (h1 : Heap) (p : Nat)
    (hm : make f h s = .ok (h1, p)) (gs : List (Nat × Re)) (hg : ∀ g ∈ gs, g.2 = .null ∨ (∃ f, g.2 = .same f) ∧ 16 + s.length ≤ g.1)
    (b : Nat) (f' : Nat → Byte) (gs' : List (Nat × Re)) :
    ∃ h2 q, run h1 p ((gs ++ (b, .moved f') :: gs').map fun g => .grow g.1 g.2) = .ok (h2, q) ∧ text h2 q = .error .oobRead ∧
      ∀ (i : Nat) (c : Byte) (h3 : Heap), setc h2 q i c ≠ .ok h3 := by
  obtain ⟨e1, I⟩ := make_facts hs hm
  obtain ⟨h', e, k⟩ := Kept.run gs h1 p ⟨_, e1, List.prefix_append _ _⟩ hg
  have hp : p < h'.next := by
    have aux : ∀ (gs : List (Nat × Re)) (h1 h' : Heap), (∀ g ∈ gs, g.2 = .null ∨ (∃ f, g.2 = .same f) ∧ 16 + s.length ≤ g.1) → Kept h1 p s → p < h1.next →
        run h1 p (gs.map gop) = .ok (h', p) → p < h'.next := by
      intro gs
      induction gs with
      | nil =>
        intro h1 h' _ _ hp e
        obtain ⟨rfl, _⟩ := Prod.mk.inj (Except.ok.inj e)
        exact hp
      | cons g gs ih =>
        intro h1 h' hg k hp e
        rcases hg g (List.mem_cons_self ..) with hn | ⟨⟨f, hf⟩, hb⟩
        · obtain ⟨t, e2, ht⟩ := k
          rw [List.map_cons, run_cons h1 p g _ (by rw [hn]; exact grow_null e2)] at e
          exact ih _ _ (fun g h => hg g (List.mem_cons_of_mem _ h)) ⟨t, e2, ht⟩ hp e
        · obtain ⟨h2, e2, k2, _⟩ := k.same f hb
          rw [List.map_cons, run_cons h1 p g _ (by rw [hf]; exact e2)] at e
          refine ih _ _ (fun g h => hg g (List.mem_cons_of_mem _ h)) k2 ?_ e
          obtain ⟨t, e3, _⟩ := k
          unfold grow at e2
          rw [e3] at e2
          obtain ⟨rfl, _⟩ := Prod.mk.inj (Except.ok.inj e2)
          exact hp
    exact aux gs h1 h' hg ⟨_, e1, List.prefix_append _ _⟩ I.hi e
  obtain ⟨h2, e2, l2, _⟩ := k.moved (b := b) hp hne f'
  obtain ⟨h3, q, e3, l3⟩ := Lost.run gs' h2 h'.next l2
  refine ⟨h3, q, ?_, l3.text, l3.setc⟩
  show run h1 p ((gs ++ (b, .moved f') :: gs').map gop) = _
  rw [List.map_append, run_append, e, ok_bind, List.map_cons, run_cons h' p (b, .moved f') _ e2]
  exact e3

/-- C205: a program can repair a moved string by setting its text pointer. -/
theorem stringptr_grow_repair (f : Nat → Byte) (h : Heap) (s : List Byte) (hs : s.length + 17 < 2 ^ 64) (hne : s ≠ []) (h1 : Heap) (p : Nat)
    (hm : make f h s = .ok (h1, p)) (b : Nat) (hb : 16 + s.length ≤ b) (f' : Nat → Byte) :
    ∃ h2 q h3, grow h1 p b (.moved f') = .ok (h2, some q) ∧ rebase h2 q = .ok h3 ∧ text h3 q = .ok s := by
  obtain ⟨e1, I⟩ := make_facts hs hm
  obtain ⟨h2, e2, _, k⟩ := Kept.moved (b := b) (s := s) I.hi ⟨_, e1, List.prefix_append _ _⟩ hne f'
  obtain ⟨t', e3, ht⟩ := k hb
  refine ⟨h2, h1.next, h2.put h1.next (some ⟨some ⟨⟨h1.next, 16⟩, s.length⟩, t'⟩), e2, ?_, Kept.text ⟨t', put_self _ _ _, ht⟩⟩
  unfold rebase
  rw [hdr_some e3 rfl, ok_bind]
  unfold setHdr
  rw [e3]
  rfl

/-- C205: the size given to stringptr_grow counts the 16 bytes of members: the byte with number `i` can be written exactly if `16 + i < b`. In
    particular a block of as many bytes as a text and its terminator take has no room for either. -/
theorem stringptr_grow_room (f : Nat → Byte) (h : Heap) (s : List Byte) (hs : s.length + 17 < 2 ^ 64) (h1 : Heap) (p : Nat)
    (hm : make f h s = .ok (h1, p)) (b : Nat) (hb : 16 ≤ b) (f' : Nat → Byte) :
    ∃ h2, grow h1 p b (.same f') = .ok (h2, some p) ∧
      ∀ (i : Nat) (c : Byte), (∃ h3, setc h2 p i c = .ok h3) ↔ 16 + i < b := by
  obtain ⟨e1, I⟩ := make_facts hs hm
  refine ⟨h1.put p (some (resize ⟨some ⟨⟨p, 16⟩, s.length⟩, s ++ [0]⟩ b f')), ?_, ?_⟩
  · unfold grow
    rw [e1]
    rfl
  · intro i c
    rw [setc_own (k := 0) (n := s.length) (p := p) (by rw [put_self, resize, if_neg (by omega)])]
    simp only
    have hl : (List.take (b - 16) (s ++ [(0 : Byte)]) ++ List.map f' (List.range (b - 16 - (s ++ [(0 : Byte)]).length))).length = b - 16 := by
      simp
      omega
    rw [hl]
    by_cases hi : 0 + i < b - 16
    · rw [if_pos hi]
      exact ⟨fun _ => by omega, fun _ => ⟨_, rfl⟩⟩
    · rw [if_neg hi]
      exact ⟨fun ⟨_, e⟩ => (by cases e), fun _ => by omega⟩

/-- C205: a call that fails changes nothing; assigning its result to the only pointer leaves a block that nobody can free. -/
theorem stringptr_grow_fails (f : Nat → Byte) (h : Heap) (s : List Byte) (hs : s.length + 17 < 2 ^ 64) (h1 : Heap) (p : Nat)
    (hm : make f h s = .ok (h1, p)) (b : Nat) : grow h1 p b .null = .ok (h1, none) ∧ h1.objs p ≠ none ∧ text h1 p = .ok s := by
  obtain ⟨e1, I⟩ := make_facts hs hm
  exact ⟨grow_null e1, by rw [e1]; simp, Kept.text ⟨_, e1, List.prefix_append _ _⟩⟩

/-- C205: whatever is done with a string, its block can be freed afterwards, the blocks are then those there were before, and freeing through the same
    variable again does nothing; freeing through another copy of the pointer is an error. -/
theorem stringptr_free_history (f : Nat → Byte) (h : Heap) (hf : Fresh h) (s : List Byte) (hs : s.length + 17 < 2 ^ 64) (h1 : Heap) (p : Nat)
    (hm : make f h s = .ok (h1, p)) (ops : List Op) (h2 : Heap) (q : Nat) (hr : run h1 p ops = .ok (h2, q)) :
    ∃ h3, free h2 (some q) = .ok (h3, none) ∧ h3.objs = h.objs ∧ free h3 none = .ok (h3, none) ∧ free h3 (some q) = .error .badFree := by
  have I := Inv.run hf ops h1 h2 p q (make_facts hs hm).2 hr
  obtain ⟨o, e, _⟩ := I.own
  refine ⟨h2.put q none, ?_, ?_, rfl, ?_⟩
  · unfold free
    simp only [e]
    rfl
  · funext x
    by_cases hx : x = q
    · rw [hx, put_self, hf q I.lo]
    · rw [put_other _ _ hx, I.other x hx]
  · unfold free
    simp only [put_self]

/-- C205: cutting bytes off the beginning does not give memory back: after it, and growing in place, byte `i` can be written exactly if there is room
    behind the members and the bytes that were cut off. -/
theorem stringptr_shift_grow (f : Nat → Byte) (h : Heap) (s : List Byte) (hs : s.length + 17 < 2 ^ 64) (h1 : Heap) (p : Nat)
    (hm : make f h s = .ok (h1, p)) (k : Nat) (hk : k ≤ s.length) (b : Nat) (hb : 16 + s.length ≤ b) (f' : Nat → Byte) :
    ∃ h2, run h1 p [.shiftright k, .grow b (.same f')] = .ok (h2, p) ∧ text h2 p = .ok (s.drop k) ∧
      ∀ (i : Nat) (c : Byte), (∃ h3, setc h2 p i c = .ok h3) ↔ 16 + k + i < b := by
  obtain ⟨e1, I⟩ := make_facts hs hm
  obtain ⟨t', e', ht', hl⟩ := same_text f' (⟨⟨p, 16 + k⟩, s.length - k⟩ : Hdr) (List.prefix_append s [0]) hb
  refine ⟨h1.put p (some ⟨some ⟨⟨p, 16 + k⟩, s.length - k⟩, t'⟩), ?_, ?_, ?_⟩
  · rw [run, step, shiftright, hdr_some e1 rfl]
    simp only [ok_bind]
    rw [if_pos hk]
    unfold setHdr
    rw [e1]
    simp only [pure_eq_ok, ok_bind]
    rw [run, step, grow, put_self]
    simp only [pure_eq_ok, ok_bind, e', put_put]
    rfl
  · rw [text_own (k := k) (put_self _ _ _)]
    by_cases hn : s.length - k = 0
    · rw [if_pos hn, List.drop_eq_nil_of_le (by omega)]
    · rw [if_neg hn]
      obtain ⟨u, rfl⟩ := ht'
      conv => lhs; rw [← List.take_append_drop k s]
      exact rdN_mid (by simp; omega) (by simp)
  · intro i c
    rw [setc_own (put_self _ _ _), hl]
    by_cases hi : k + i < b - 16
    · rw [if_pos hi]
      exact ⟨fun _ => by omega, fun _ => ⟨_, rfl⟩⟩
    · rw [if_neg hi]
      exact ⟨fun ⟨_, e⟩ => (by cases e), fun _ => by omega⟩

/-! #### Examples -/

/-- An empty heap. -/
def noBlocks : Heap := ⟨fun _ => none, 0⟩

example : Fresh noBlocks := fun _ _ => rfl

-- "abc" is made, grown in place to 40 bytes, and moved
example : (do
    let (h, p) ← make (fun _ => 7) noBlocks (bytes! "abc")
    let (h, _) ← grow h p 40 (.same fun _ => 0)
    text h p) = .ok (bytes! "abc") := by decide
example : (do
    let (h, p) ← make (fun _ => 7) noBlocks (bytes! "abc")
    let (h, q) ← run h p [.grow 40 (.moved fun _ => 0)]
    text h q) = .error .oobRead := by decide
example : (do
    let (h, p) ← make (fun _ => 7) noBlocks (bytes! "abc")
    let (h, q) ← run h p [.grow 40 (.moved fun _ => 0)]
    let h ← rebase h q
    text h q) = .ok (bytes! "abc") := by decide
-- room for "abcd" and its terminator would be 21 bytes, not 5
example : (do
    let (h, p) ← make (fun _ => 7) noBlocks (bytes! "abc")
    let (h, q) ← run h p [.grow 5 (.same fun _ => 0)]
    let h ← setc h q 3 (ch 'd')
    text h q) = .error .oobRead := by decide
example : (do
    let (h, p) ← make (fun _ => 7) noBlocks (bytes! "abc")
    let (h, q) ← run h p [.grow 21 (.same fun _ => 0), .setc 3 (ch 'd'), .setc 4 0]
    let h ← setsize h q 4
    text h q) = .ok (bytes! "abcd") := by decide
example : (do
    let (h, p) ← make (fun _ => 7) noBlocks (bytes! "abc")
    let (h, q) ← run h p [.shiftright 1, .grow 40 (.moved fun _ => 0), .grow 9 .null]
    let (h, _) ← free h (some q)
    pure (h.objs 0, h.objs 1)) = .ok (none, none) := by decide

end Ulz.Props
