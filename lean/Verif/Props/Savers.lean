import Verif.Proofs.Savers
/-! Properties of saving to a file step by step. -/
namespace Ulz.Props
open Ulz.Savers Ulz.Savers.Spec
open Ulz.Stringptr (SP)
open Ulz.Stringptr.Spec (Holds HoldsAll)

/-- C162: stringptr_tofile and stringptrlist_tofile are processes of this kind: every call that ends leaves the file that
    one `open` and some transfers leave. -/
theorem save_steps {p : SP} {c : List Byte} (h : Holds p c) {l : List SP} {ss : List (List Byte)} (hl : HoldsAll l ss)
    (old : List Byte) :
    (∀ (answers : List (Option Nat)) (file : List Byte) (r : Nat),
      Wholefile.stringptr_tofile true true (some p) answers = .ok (some file, r) →
      ∃ ks : List Nat, (∀ k ∈ ks, k ≤ 65536) ∧
        run (start old [c]) (.opens 0 :: ks.map (.writes 0)) = ⟨file, [⟨c, some r⟩]⟩) ∧
    (∀ (answers : Nat → Option Nat) (file : List Byte) (r : Nat),
      Wholefile.stringptrlist_tofile true answers l = .ok (some file, r) →
      ∃ k : Nat, run (start old [Wholefile.Spec.joined ss]) [.opens 0, .writes 0 k] =
        ⟨file, [⟨Wholefile.Spec.joined ss, some file.length⟩]⟩) := by
  constructor
  · intro answers file r e
    simp only [Wholefile.stringptr_tofile, Bool.not_true, Bool.or_self, Bool.false_eq_true, if_false] at e
    cases h1 : Wholefile.tofileLoop p answers 0 [] with
    | error u => rw [h1] at e; exact absurd e (by intro h; cases h)
    | ok v =>
      rw [h1] at e
      obtain ⟨f, n⟩ := v
      simp only [ok_bind, pure_eq_ok] at e
      cases e
      exact tofileLoop_run p c h answers 0 (file, r) (by omega) h1
  · intro answers file r e
    simp only [Wholefile.stringptrlist_tofile, Bool.not_true, Bool.false_eq_true, if_false] at e
    cases h1 : Wholefile.listLoop answers 0 l [] with
    | error u => rw [h1] at e; exact absurd e (by intro h; cases h)
    | ok v =>
      rw [h1] at e
      obtain ⟨f, n⟩ := v
      simp only [ok_bind, pure_eq_ok] at e
      cases e
      exact listLoop_run hl answers h1

example : ∃ ks : List Nat, (∀ k ∈ ks, k ≤ 65536) ∧
    run (start (bytes! "old") [bytes! "new text"]) (.opens 0 :: ks.map (.writes 0)) = ⟨bytes! "new", [⟨bytes! "new text", some 3⟩]⟩ :=
  ⟨[2, 0, 1], by decide, rfl⟩

/-- C162: whenever the process dies (or somebody looks at the file), the file has its old content, as long as it has not
    been opened, or exactly the part of the new content that has been transferred so far. Every such part can be left
    behind, so unless one of the contents is empty there is a moment at which both are gone. -/
theorem save_crash_points (old c : List Byte) :
    (∀ es : List Ev, run (start old [c]) es = start old [c] ∨
      ∃ n, n ≤ c.length ∧ run (start old [c]) es = ⟨c.take n, [⟨c, some n⟩]⟩) ∧
    (∀ n, n ≤ c.length → ∃ es, Portions es ∧ (run (start old [c]) es).file = c.take n) ∧
    (old ≠ [] → c ≠ [] → ∃ es, (run (start old [c]) es).file ≠ old ∧ (run (start old [c]) es).file ≠ c) := by
  refine ⟨fun es => run_one old c es _ (.inl rfl), ?_, ?_⟩
  · intro n hn
    refine ⟨.opens 0 :: List.replicate n (.writes 0 1), ?_, ?_⟩
    · intro i k hk
      rcases List.mem_cons.1 hk with h | h
      · cases h
      · obtain ⟨_, h⟩ := List.mem_replicate.1 h
        cases h; omega
    · have e0 : run (start old [c]) (.opens 0 :: List.replicate n (.writes 0 1)) =
          run ⟨[], [⟨c, some 0⟩]⟩ (List.replicate n (.writes 0 1)) := rfl
      rw [e0, run_portions 1 c 0 n 0 _ _ (by omega) rfl]
      simp only [List.drop_zero, Nat.one_mul]
      exact pwrite_zero (by simp)
  · intro h1 h2
    exact ⟨[.opens 0], fun h => h1 h.symm, fun h => h2 h.symm⟩

example : (run (start (bytes! "old") [bytes! "new text"]) [.opens 0, .writes 0 65536]).file = bytes! "new text" := by decide

/-- C163: several processes save to the same file at the same time. At every moment after the first `open` every byte of
    the file is the byte one of the texts has at that place, or a zero byte, and the file is no longer than the
    longest text; when all have finished there is a text such that up to its length there are no such zero bytes. -/
theorem save_concurrent (old : List Byte) (cs : List (List Byte)) (es : List Ev) (h : Opened (run (start old cs) es)) :
    (∀ (i : Nat) (b : Byte), (run (start old cs) es).file[i]? = some b →
      (∃ t : List Byte, t ∈ cs ∧ i < t.length) ∧ (b = 0 ∨ ∃ t : List Byte, t ∈ cs ∧ t[i]? = some b)) ∧
    (AllDone (run (start old cs) es) → ∃ s : List Byte, s ∈ cs ∧ ∀ i : Nat, i < s.length →
      ∃ b : Byte, (run (start old cs) es).file[i]? = some b ∧ ∃ t : List Byte, t ∈ cs ∧ t[i]? = some b) := by
  have hinv : Inv cs (run (start old cs) es) := by
    rcases run_start old cs es with h1 | h1
    · exfalso
      obtain ⟨w, hw, hn⟩ := h
      unfold start at hw
      rw [h1] at hw
      obtain ⟨c, _, rfl⟩ := List.mem_map.1 hw
      exact hn rfl
    · exact h1
  have hcs : ∀ w ∈ (run (start old cs) es).ws, w.content ∈ cs := by
    intro w hw
    have h0 : w.content ∈ (run (start old cs) es).ws.map Writer.content := List.mem_map_of_mem hw
    rwa [hinv.contents] at h0
  constructor
  · intro i b hb
    refine ⟨?_, hinv.bytes i b hb⟩
    obtain ⟨w, hw, o, ho, hi⟩ := hinv.len i (List.getElem?_eq_some_iff.1 hb).1
    have := hinv.offs w hw o ho
    exact ⟨_, hcs w hw, by omega⟩
  · intro hd
    obtain ⟨L, w, o, h1, h2, h3⟩ := hinv.solid
    have hw := List.mem_of_getElem? h1
    have := hd w hw
    rw [h2] at this
    cases this
    exact ⟨_, hcs w hw, h3⟩

/-- C163: so processes that save the same text at the same time leave exactly that text, however their calls are
    interleaved and cut into portions. -/
theorem save_concurrent_same (old c : List Byte) (n : Nat) (hn : 0 < n) (es : List Ev)
    (hd : AllDone (run (start old (List.replicate n c)) es)) : (run (start old (List.replicate n c)) es).file = c := by
  have hop : Opened (run (start old (List.replicate n c)) es) := by
    rcases run_start old (List.replicate n c) es with h1 | h1
    · exfalso
      have hm : (⟨c, none⟩ : Writer) ∈ (run (start old (List.replicate n c)) es).ws := by
        unfold start
        rw [h1]
        exact List.mem_map_of_mem (f := fun x => (⟨x, none⟩ : Writer)) (List.mem_replicate.2 ⟨by omega, rfl⟩)
      exact absurd (hd _ hm) (by simp)
    · obtain ⟨L, w, o, h2, h3, _⟩ := h1.solid
      exact ⟨w, List.mem_of_getElem? h2, by rw [h3]; simp⟩
  obtain ⟨ha, hb⟩ := save_concurrent old _ es hop
  obtain ⟨s, hs, hsolid⟩ := hb hd
  cases (List.mem_replicate.1 hs).2
  apply List.ext_getElem?
  intro i
  by_cases hi : i < c.length
  · obtain ⟨b, e1, t, ht, e2⟩ := hsolid i hi
    cases (List.mem_replicate.1 ht).2
    rw [e1, e2]
  · rw [List.getElem?_eq_none (by omega : c.length ≤ i)]
    cases hf : (run (start old (List.replicate n c)) es).file[i]? with
    | none => rfl
    | some b =>
      obtain ⟨⟨t, ht, hlt⟩, _⟩ := ha i b hf
      cases (List.mem_replicate.1 ht).2
      omega

example : AllDone (run (start (bytes! "old") [bytes! "text", bytes! "text"])
    [.opens 0, .writes 0 3, .opens 1, .writes 0 9, .writes 1 1, .writes 1 9]) := by
  intro w hw
  have : w = ⟨bytes! "text", some 4⟩ := by
    have e : (run (start (bytes! "old") [bytes! "text", bytes! "text"])
      [.opens 0, .writes 0 3, .opens 1, .writes 0 9, .writes 1 1, .writes 1 9]).ws =
      [⟨bytes! "text", some 4⟩, ⟨bytes! "text", some 4⟩] := by decide
    rw [e] at hw
    simpa using hw
  subst this; rfl

/-- C163: with different texts the result can be a mixture that none of the processes wrote: for two texts of equal
    length and every `j`, both processes using whole portions of 64 KiB, the file can end up with the first `j` portions
    of one and the rest of the other. -/
theorem save_concurrent_mixed (old a b : List Byte) (hl : a.length = b.length) (j : Nat) (hj : 65536 * j ≤ a.length) :
    ∃ es, Portions es ∧ AllDone (run (start old [a, b]) es) ∧
      (run (start old [a, b]) es).file = b.take (65536 * j) ++ a.drop (65536 * j) := by
  have e := run_mixing (old := old) (n := a.length) hl hj (by omega)
  refine ⟨mixing j a.length, ?_, ?_, ?_⟩
  · intro i k hk
    simp only [mixing, List.mem_append, List.mem_cons, List.mem_replicate, List.not_mem_nil, or_false] at hk
    rcases hk with ((h | h) | h) | h
    · rcases h with h | h <;> cases h
    · cases h.2; omega
    · cases h.2; omega
    · cases h.2; omega
  · intro w hw
    have e' : run (start old [a, b]) (mixing j a.length) = _ := e
    rw [e'] at hw
    simp only [List.mem_cons, List.not_mem_nil, or_false] at hw
    rcases hw with rfl | rfl <;> rfl
  · exact congrArg Sys.file e

/-- The hypotheses are met, and the mixture is neither text. -/
example : 65536 * 1 ≤ (List.replicate 70000 (ch 'a')).length ∧
    (List.replicate 70000 (ch 'a')).length = (List.replicate 70000 (ch 'b')).length := by
  rw [List.length_replicate, List.length_replicate]; omega

/-- C163: and with a shorter text a hole of zero bytes can be left between the shorter text and the rest of the longer. -/
theorem save_concurrent_hole (old a b : List Byte) (n : Nat) (h1 : b.length ≤ n) (h2 : n < a.length) :
    ∃ es, Portions es ∧ AllDone (run (start old [a, b]) es) ∧
      (run (start old [a, b]) es).file = b ++ List.replicate (n - b.length) 0 ++ a.drop n := by
  have e := run_holing (old := old) h1 h2
  refine ⟨holing n a.length b.length, ?_, ?_, ?_⟩
  · intro i k hk
    simp only [holing, List.mem_append, List.mem_cons, List.mem_replicate, List.not_mem_nil, or_false] at hk
    rcases hk with (((h | h) | h) | h) | h
    · cases h
    · cases h.2; omega
    · cases h
    · cases h.2; omega
    · cases h.2; omega
  · intro w hw
    have e' : run (start old [a, b]) (holing n a.length b.length) = _ := e
    rw [e'] at hw
    simp only [List.mem_cons, List.not_mem_nil, or_false] at hw
    rcases hw with rfl | rfl <;> rfl
  · exact congrArg Sys.file e

example : (run (start [] [bytes! "abcd", bytes! "x"]) [.opens 0, .writes 0 3, .opens 1, .writes 0 1, .writes 1 1]).file =
    [ch 'x', 0, 0, ch 'd'] := by decide

end Ulz.Props
