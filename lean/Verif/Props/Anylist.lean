import Verif.Proofs.Anylist
/-! C154: the list types are interchangeable. -/
set_option linter.unusedVariables false
namespace Ulz.Props
open Ulz.Anylist Ulz.Anylist.Spec

/-- C154. A program makes any sequence of appends, insertions, deletions, reads and size queries on positions that exist.
    It sees the same answers, those of a mathematical list, whether it uses sblist (any block size), tlist (any addresses
    malloc may return), tglist or tgilist (any unsigned index type with enough values), whatever new memory holds. -/
theorem lists_interchangeable (isz bi w : Nat) (hi : 0 < isz) (hb : 0 < bi) (hw : 0 < w) (cs : List Call)
    (hr : InRange isz [] cs) (f : Nat → Byte) (mem : Nat → Nat) (ext : List Nat)
    (hmem : ∀ pre c post, cs = pre ++ c :: post → (∃ x, c = .append x) ∨ (∃ x i, c = .insert x i) →
      ∀ t r, tlRun mem 0 (Tlist.tlist_new isz ext) pre = .ok (t, r) → Tlist.Spec.Fresh t (mem pre.length))
    (h1 : (cs.length + bi) * isz < 2^64) (h2 : (2 * cs.length + 4) * isz < 2^64) (h3 : (2 * cs.length + 4) * w < 2^64)
    (h4 : cs.length < 2^32) (h5 : cs.length ≤ 256^w) :
    (∃ l l', Sblist.init isz bi = .ok l ∧ sbRun f l cs = .ok (l', answers [] cs)) ∧
    (∃ t, tlRun mem 0 (Tlist.tlist_new isz ext) cs = .ok (t, answers [] cs)) ∧
    (∃ l, tgRun isz f Tglist.init cs = .ok (l, answers [] cs)) ∧
    (∃ l, tgiRun w isz f Tglist.iinit cs = .ok (l, answers [] cs)) := by
  refine ⟨?_, ?_, ?_, ?_⟩
  · obtain ⟨l, e, hrep, e1, e2, e3⟩ := Sblist.init_rep hi hb
    obtain ⟨l', r⟩ := sbRun_spec f cs l [] hrep (by omega) (by rw [e1, e2, e3]; simpa using h1) (by rw [e2]; exact hr)
    exact ⟨l, l', e, r⟩
  · obtain ⟨t, r⟩ := tlRun_spec isz mem cs 0 _ _ (Tlist.new_wf isz ext) rfl (by simpa [Tlist.Spec.Tr.size] using h4) hr
      (fun pre c post he hh t' r hr' => by rw [Nat.zero_add]; exact hmem pre c post he hh t' r hr') tlCall_itemsize
    exact ⟨t, r⟩
  · exact tgRun_spec f cs _ [] (Tglist.init_rep hi) (by simpa [Tglist.init] using h2) hr
  · exact tgiRun_spec f cs _ [] [] (Tglist.iinit_rep hw hi) (by simp [Tglist.iinit, Tglist.init]) (by simpa using h3)
      (by simpa using h2) (by simpa using h5) hr

/-- A sequence of calls. -/
def anylistDemo : List Call := [.append [10], .insert [5] 0, .get 0, .delete 1, .size, .get 0]

example : InRange 1 [] anylistDemo := by
  simp [anylistDemo, InRange, CallOk, after]

example : answers [] anylistDemo = [.done, .done, .item (some [5]), .done, .size 1, .item (some [5])] := by decide

/-- malloc may return 100 and 200 in the two calls that allocate. -/
example : ∀ pre c post, anylistDemo = pre ++ c :: post → (∃ x, c = .append x) ∨ (∃ x i, c = .insert x i) →
    ∀ t r, tlRun (fun k => 100 * (k + 1)) 0 (Tlist.tlist_new 1 []) pre = .ok (t, r) →
      Tlist.Spec.Fresh t ((fun k => 100 * (k + 1)) pre.length) := by
  intro pre c post he hc t r hr
  match pre, he with
  | [], he => cases hr; simp [Tlist.Spec.Fresh, Tlist.tlist_new]
  | [_], he =>
    cases he
    obtain ⟨t1, T1, e1, wf, it, _⟩ := tlCall_spec (Tlist.new_wf 1 []) (by decide) 100 (.append [10]) rfl
      (fun _ => by simp [Tlist.Spec.Fresh, Tlist.tlist_new])
    have e2 : t = t1 := by
      simp only [tlRun, Nat.mul_one, Nat.zero_add, e1, ok_bind, pure_eq_ok, Except.ok.injEq, Prod.mk.injEq] at hr
      exact hr.1.symm
    subst e2
    have hlive : (tlRun (fun k => 100 * (k + 1)) 0 (Tlist.tlist_new 1 []) [.append [10]]).map
        (fun v => (v.1.heap.live 100, v.1.itemsize, v.1.heap.ext)) = .ok (true, 1, []) := by decide +kernel
    rw [hr] at hlive
    simp only [Except.map, Except.ok.injEq, Prod.mk.injEq] at hlive
    obtain ⟨h0, h1, h2⟩ := hlive
    have hs : T1.size = 1 := by rw [← Tlist.items_length, it]; rfl
    have hl : ∀ b, t.heap.live b = true → b = 100 := by
      intro b hb
      rw [wf.live] at hb h0
      cases T1 with
      | nil => cases hb
      | node a p d l r =>
        cases l with
        | node => simp [Tlist.Spec.Tr.size] at hs
        | nil =>
          cases r with
          | node => simp [Tlist.Spec.Tr.size] at hs
          | nil =>
            simp only [Tlist.Spec.Tr.addrs, List.nil_append, List.mem_singleton] at hb h0
            rw [hb, h0]
    refine ⟨by decide, ?_, by simp [h2]⟩
    intro b hb
    rw [hl b hb, h1]
    decide
  | [_, _], he => cases he; simp at hc
  | [_, _, _], he => cases he; simp at hc
  | [_, _, _, _], he => cases he; simp at hc
  | [_, _, _, _, _], he => cases he; simp at hc
  | _ :: _ :: _ :: _ :: _ :: _ :: _, he => have := congrArg List.length he; simp [anylistDemo] at this

end Ulz.Props
