import Verif.Spec.Family
import Verif.Props.Proc
set_option linter.unusedSimpArgs false
set_option linter.unusedVariables false
namespace Ulz.Proc
open Spec

theorem add_true (ans : Answers) : ∀ (new : List Action) (k : Nat) (fa fa' : List Action), add ans k new fa = (fa', true) →
    ∀ i, i < new.length → ans.action (k + i) = true
  | [], _, _, _, _ => by intro i hi; simp at hi
  | a :: new, k, fa, fa', h => by
    unfold add at h
    split at h
    · intro i hi
      cases i with
      | zero => assumption
      | succ i =>
        have := add_true ans new (k + 1) _ _ h i (by simpa using hi)
        rwa [show k + 1 + i = k + (i + 1) by omega] at this
    · cases h

theorem pipeLoop_true (ans : Answers) : ∀ (is : List Nat) (t : Table) (p : List (Nat × Nat)) (t' p'), pipeLoop ans is t p = (t', p', true) →
    p'.length = p.length ∧ ∀ i ∈ is, ∃ r w, ans.pipe i = some (r, w)
  | [], t, p, t', p', h => by
    unfold pipeLoop at h
    cases h
    exact ⟨rfl, by simp⟩
  | i :: is, t, p, t', p', h => by
    unfold pipeLoop at h
    split at h
    · cases h
    · rename_i r w hw
      obtain ⟨h1, h2⟩ := pipeLoop_true ans is _ _ _ _ h
      refine ⟨by simpa using h1, ?_⟩
      intro j hj
      rcases List.mem_cons.1 hj with rfl | hj
      · exact ⟨r, w, hw⟩
      · exact h2 j hj

theorem process_open_success {ans : Answers} {t : Table} {r : Result} {x} (h : process_open ans t = .ok r) (hs : r.success = some x) :
    Willing ans ∧ ∀ i, i < 3 → ∃ a b, ans.pipe i = some (a, b) := by
  unfold process_open at h
  simp only at h
  split at h
  · cases h
  · rename_i hi
    split at h
    · unfold fail at h; injection h with h; subst h; cases hs
    · rename_i fa hadd
      have g0 := add_true ans _ _ _ _ hadd
      split at h
      · unfold fail at h; injection h with h; subst h; cases hs
      · rename_i t1 pipes hpl
        obtain ⟨hl, hp⟩ := pipeLoop_true ans _ _ _ _ _ hpl
        split at h
        · unfold fail at h; injection h with h; subst h; cases hs
        · rename_i fa2 hadd2
          have g1 := add_true ans _ _ _ _ hadd2
          split at h
          · unfold fail at h; injection h with h; subst h; cases hs
          · rename_i fa3 hadd3
            have g2 := add_true ans _ _ _ _ hadd3
            split at h
            · unfold fail at h; injection h with h; subst h; cases hs
            · rename_i child hsp
              have hspawn : ans.spawn = true := by
                split at hsp
                · assumption
                · cases hsp
              have hlen : (pipes.flatMap fun p => [Action.close p.1, Action.close p.2]).length = 6 := by
                rw [List.length_flatMap]
                match pipes, hl with
                | [a, b, c], _ => rfl
              refine ⟨⟨by simpa using hi, ?_, hspawn⟩, ?_⟩
              · intro k hk
                by_cases h1 : k < 3
                · have := g0 k (by simpa using h1); simpa using this
                by_cases h2 : k < 6
                · have := g1 (k - 3) (by simp; omega)
                  rwa [show 3 + (k - 3) = k by omega] at this
                · have := g2 (k - 6) (by rw [hlen]; omega)
                  rwa [show 6 + (k - 6) = k by omega] at this
              · intro i hi'
                refine hp i ?_
                match i, hi' with
                | 0, _ | 1, _ | 2, _ => simp

end Ulz.Proc

namespace Ulz.Family
open Spec

theorem hide_none {t : Table} {f : Nat} : hide t f = none ↔ t f = none := by
  unfold hide; cases t f <;> simp

theorem reveal_hide {n : Nat} {t : Table} {T : Proc.Table} {f : Nat} (h : T f = hide t f) : reveal n t T f = t f := by
  unfold reveal
  rw [h]
  unfold hide
  cases hf : t f with
  | none => rfl
  | some o => exact hf

theorem reveal_fail (n : Nat) (t : Table) : reveal n t (hide t) = t := by
  funext f; exact reveal_hide rfl

/-- What open_ does. -/
theorem open_spec {ans : Proc.Answers} {s s' : Sys} {b : Bool} (hl : Proc.Spec.Legal ans (hide s.table)) (hi : ans.init = true)
    (hstd : s.table 0 ≠ none ∧ s.table 1 ≠ none ∧ s.table 2 ≠ none) (h : open_ ans s = .ok (s', b)) :
    (b = false ∧ s' = s) ∨
    (b = true ∧ ∃ w0 r1 r2 child, s.table w0 = none ∧ s.table r1 = none ∧ s.table r2 = none ∧ w0 ≠ r1 ∧ w0 ≠ r2 ∧ r1 ≠ r2 ∧
      s'.kids = s.kids ++ [⟨[w0, r1, r2], child, true, true⟩] ∧
      s'.table w0 = some (.pipe s.kids.length 0 true) ∧ s'.table r1 = some (.pipe s.kids.length 1 false) ∧
      s'.table r2 = some (.pipe s.kids.length 2 false) ∧ (∀ f, f ∉ [w0, r1, r2] → s'.table f = s.table f) ∧
      child 0 = some (.pipe s.kids.length 0 false) ∧ child 1 = some (.pipe s.kids.length 1 true) ∧
      child 2 = some (.pipe s.kids.length 2 true) ∧ ∀ f, f ∉ [0, 1, 2] → child f = s.table f) := by
  unfold open_ at h
  cases hr : Proc.process_open ans (hide s.table) with
  | error u => rw [hr] at h; cases h
  | ok r =>
    rw [hr, ok_bind] at h
    simp only at h
    have hstd' : hide s.table 0 ≠ none ∧ hide s.table 1 ≠ none ∧ hide s.table 2 ≠ none := by
      simp only [ne_eq, hide_none]; exact hstd
    cases hsu : r.success with
    | none =>
      rw [hsu] at h
      simp only [pure_eq_ok] at h
      cases h
      have := Props.process_open_no_leak ans _ hl hi r hr hsu hstd'.1
      rw [this, reveal_fail]
      exact .inl ⟨rfl, rfl⟩
    | some x =>
      obtain ⟨hw, hp⟩ := Proc.process_open_success hr hsu
      obtain ⟨r0, w0, h0⟩ := hp 0 (by omega)
      obtain ⟨r1, w1, h1⟩ := hp 1 (by omega)
      obtain ⟨r2, w2, h2⟩ := hp 2 (by omega)
      obtain ⟨r', p, child, e1, e2, e3, ⟨e4, e5, e6, e7⟩, ⟨e8, e9, e10, e11⟩, _⟩ :=
        Props.process_open_succeeds ans _ hl hw r0 w0 r1 w1 r2 w2 h0 h1 h2 hstd'
      rw [hr] at e1
      cases e1
      rw [e2] at h
      simp only [pure_eq_ok] at h
      cases h
      refine .inr ⟨rfl, w0, r1, r2, reveal s.kids.length s.table child, ?_, ?_, ?_, ?_, ?_, ?_, ?_, ?_, ?_, ?_, ?_, ?_, ?_, ?_, ?_⟩
      · exact hide_none.1 (hl.fresh 0 _ _ h0).2.1
      · exact hide_none.1 (hl.fresh 1 _ _ h1).1
      · exact hide_none.1 (hl.fresh 2 _ _ h2).1
      · exact (hl.apart 0 1 _ _ _ _ (by decide) h0 h1).2.2.1
      · exact (hl.apart 0 2 _ _ _ _ (by decide) h0 h2).2.2.1
      · exact (hl.apart 1 2 _ _ _ _ (by decide) h1 h2).1
      · rw [e3]
      · simp only [reveal, e4]
      · simp only [reveal, e5]
      · simp only [reveal, e6]
      · exact fun f hf => reveal_hide (e7 f hf)
      · simp only [reveal, e8]
      · simp only [reveal, e9]
      · simp only [reveal, e10]
      · exact fun f hf => reveal_hide (e11 f hf)

/-- The invariant. -/
structure Inv (t : Table) (s : Sys) : Prop where
  std : s.table 0 ≠ none ∧ s.table 1 ≠ none ∧ s.table 2 ≠ none
  /-- open processes have their ends in the caller -/
  mine : ∀ (k : Nat) (kid : Kid), s.kids[k]? = some kid → ∃ w r1 r2, kid.fds = [w, r1, r2] ∧ (kid.opened = true →
    s.table w = some (.pipe k 0 true) ∧ s.table r1 = some (.pipe k 1 false) ∧ s.table r2 = some (.pipe k 2 false) ∧
    t w = none ∧ t r1 = none ∧ t r2 = none)
  /-- and the caller nothing else -/
  rest : ∀ (f : Nat), s.table f = t f ∨ ∃ (k : Nat) (kid : Kid), s.kids[k]? = some kid ∧ kid.opened = true ∧ f ∈ kid.fds
  pipes : ∀ (f k i : Nat) (b : Bool), s.table f = some (.pipe k i b) → ∃ kid : Kid, s.kids[k]? = some kid ∧ kid.opened = true ∧ f ∈ kid.fds
  /-- children have pipes of earlier ones only -/
  earlier : ∀ (j : Nat) (kid : Kid) (f k i : Nat) (b : Bool), s.kids[j]? = some kid → kid.table f = some (.pipe k i b) →
    k < j ∨ (k = j ∧ ((i = 0 ∧ b = false) ∨ (i = 1 ∧ b = true) ∨ (i = 2 ∧ b = true)))
  /-- and the caller's ends of those still open -/
  inherits : ∀ (j k : Nat) (kid kid' : Kid) (w : Nat) (l : List Nat), k < j → s.kids[j]? = some kid → s.kids[k]? = some kid' → kid'.opened = true → kid'.fds = w :: l →
    kid.table w = some (.pipe k 0 true)
  alive : ∀ kid ∈ s.kids, kid.alive = kid.opened

theorem inv_start {t : Table} (h : Start t) : Inv t ⟨t, []⟩ :=
  ⟨h.1, by simp, fun f => .inl rfl, fun f k i b hf => absurd hf (h.2 f k i b), by simp, by simp, by simp⟩

theorem getElem?_snoc {α : Type} {l : List α} {x y : α} {j : Nat} (h : (l ++ [x])[j]? = some y) :
    (j < l.length ∧ l[j]? = some y) ∨ (j = l.length ∧ y = x) := by
  by_cases hj : j < l.length
  · rw [List.getElem?_append_left hj] at h; exact .inl ⟨hj, h⟩
  · rw [List.getElem?_append_right (by omega)] at h
    obtain ⟨hj', e⟩ := List.getElem?_eq_some_iff.1 h
    simp at hj' e
    exact .inr ⟨by omega, e.symm⟩

theorem inv_open {t : Table} {s s' : Sys} {ans : Proc.Answers} {b : Bool} (hstart : Start t) (hinv : Inv t s)
    (hl : Proc.Spec.Legal ans (hide s.table)) (hi : ans.init = true) (h : open_ ans s = .ok (s', b)) : Inv t s' := by
  rcases open_spec hl hi hinv.std h with ⟨_, rfl⟩ | ⟨_, w0, r1, r2, child, n0, n1, n2, d1, d2, d3, hk, t0, t1, t2, trest, c0, c1, c2, crest⟩
  · exact hinv
  · have new : s'.kids[s.kids.length]? = some ⟨[w0, r1, r2], child, true, true⟩ := by rw [hk]; simp
    have old : ∀ (k : Nat) (kid : Kid), s.kids[k]? = some kid → s'.kids[k]? = some kid := by
      intro k kid hkk
      rw [hk, List.getElem?_append_left (List.getElem?_eq_some_iff.1 hkk).1]; exact hkk
    have tnone : ∀ f, f ∈ [w0, r1, r2] → s.table f = none := by
      intro f hf
      simp only [List.mem_cons, List.not_mem_nil, or_false] at hf
      rcases hf with rfl | rfl | rfl <;> assumption
    have keep : ∀ f, s.table f ≠ none → s'.table f = s.table f := fun f hf => trest f (fun hm => hf (tnone f hm))
    have free : ∀ f, f ∈ [w0, r1, r2] → t f = none := by
      intro f hf
      rcases hinv.rest f with h1 | ⟨k, kid, h1, h2, h3⟩
      · rw [← h1]; exact tnone f hf
      · obtain ⟨w, a, b, e1, e2⟩ := hinv.mine k kid h1
        obtain ⟨e3, e4, e5, e6, e7, e8⟩ := e2 h2
        rw [e1] at h3
        simp only [List.mem_cons, List.not_mem_nil, or_false] at h3
        rcases h3 with rfl | rfl | rfl <;> assumption
    have nstd : ∀ f, s.table f = none → f ∉ [0, 1, 2] := by
      intro f hf hm
      simp only [List.mem_cons, List.not_mem_nil, or_false] at hm
      rcases hm with rfl | rfl | rfl
      · exact hinv.std.1 hf
      · exact hinv.std.2.1 hf
      · exact hinv.std.2.2 hf
    refine ⟨?_, ?_, ?_, ?_, ?_, ?_, ?_⟩
    · exact ⟨by rw [keep 0 hinv.std.1]; exact hinv.std.1, by rw [keep 1 hinv.std.2.1]; exact hinv.std.2.1, by rw [keep 2 hinv.std.2.2]; exact hinv.std.2.2⟩
    · intro k kid hkk
      rw [hk] at hkk
      rcases getElem?_snoc hkk with ⟨hlt, h1⟩ | ⟨rfl, rfl⟩
      · obtain ⟨w, a, b, e1, e2⟩ := hinv.mine k kid h1
        refine ⟨w, a, b, e1, fun ho => ?_⟩
        obtain ⟨e3, e4, e5, e6⟩ := e2 ho
        exact ⟨by rw [keep w (by simp [e3])]; exact e3, by rw [keep a (by simp [e4])]; exact e4, by rw [keep b (by simp [e5])]; exact e5, e6⟩
      · exact ⟨w0, r1, r2, rfl, fun _ => ⟨t0, t1, t2, free _ (by simp), free _ (by simp), free _ (by simp)⟩⟩
    · intro f
      by_cases hf : f ∈ [w0, r1, r2]
      · exact .inr ⟨_, _, new, rfl, hf⟩
      · rw [trest f hf]
        rcases hinv.rest f with h1 | ⟨k, kid, h1, h2, h3⟩
        · exact .inl h1
        · exact .inr ⟨k, kid, old _ _ h1, h2, h3⟩
    · intro f k i b hf
      by_cases hm : f ∈ [w0, r1, r2]
      · have hm' := hm
        simp only [List.mem_cons, List.not_mem_nil, or_false] at hm
        rcases hm with rfl | rfl | rfl
        · rw [t0] at hf; cases hf; exact ⟨_, new, rfl, hm'⟩
        · rw [t1] at hf; cases hf; exact ⟨_, new, rfl, hm'⟩
        · rw [t2] at hf; cases hf; exact ⟨_, new, rfl, hm'⟩
      · rw [trest f hm] at hf
        obtain ⟨kid, h1, h2, h3⟩ := hinv.pipes f k i b hf
        exact ⟨kid, old _ _ h1, h2, h3⟩
    · intro j kid f k i b hj hf
      rw [hk] at hj
      rcases getElem?_snoc hj with ⟨hlt, h1⟩ | ⟨rfl, rfl⟩
      · exact hinv.earlier j kid f k i b h1 hf
      · simp only at hf
        by_cases hm : f ∈ [0, 1, 2]
        · right
          simp only [List.mem_cons, List.not_mem_nil, or_false] at hm
          rcases hm with rfl | rfl | rfl
          · rw [c0] at hf; cases hf; simp
          · rw [c1] at hf; cases hf; simp
          · rw [c2] at hf; cases hf; simp
        · rw [crest f hm] at hf
          obtain ⟨kid, h1, _⟩ := hinv.pipes f k i b hf
          exact .inl (List.getElem?_eq_some_iff.1 h1).1
    · intro j k kid kid' w l hlt hj hkk ho hfds
      rw [hk] at hj hkk
      rcases getElem?_snoc hj with ⟨hjl, h1⟩ | ⟨rfl, rfl⟩
      · rcases getElem?_snoc hkk with ⟨_, h2⟩ | ⟨rfl, _⟩
        · exact hinv.inherits j k kid kid' w l hlt h1 h2 ho hfds
        · omega
      · rcases getElem?_snoc hkk with ⟨_, h2⟩ | ⟨rfl, _⟩
        · obtain ⟨w', a, b, e1, e2⟩ := hinv.mine k kid' h2
          rw [hfds] at e1
          cases e1
          have e3 := (e2 ho).1
          simp only
          have : w ∉ [0, 1, 2] := by
            intro hm
            have := (e2 ho).2.2.2.1
            rcases hinv.rest w with hr | hr
            · rw [hr, this] at e3; cases e3
            · simp only [List.mem_cons, List.not_mem_nil, or_false] at hm
              have hs := hstart.1
              rcases hm with rfl | rfl | rfl
              · exact hs.1 this
              · exact hs.2.1 this
              · exact hs.2.2 this
          rw [crest w this]; exact e3
        · omega
    · intro kid hm
      rw [hk] at hm
      rcases List.mem_append.1 hm with hm | hm
      · exact hinv.alive kid hm
      · simp at hm; subst hm; rfl

/-- After closing the descriptors of `k` nobody gets end of file but `k`, and `k` only if no later one is open. -/
theorem eof_iff {t : Table} {s : Sys} (hinv : Inv t s) {k : Nat} {kid : Kid} (hk : s.kids[k]? = some kid) (ho : kid.opened = true) :
    Eof (closeFds s kid.fds) k 0 ↔ ∀ j, k < j → ¬ Open s j := by
  obtain ⟨w, r1, r2, e1, e2⟩ := hinv.mine k kid hk
  constructor
  · intro h j hj ⟨kid', h1, h2⟩
    have hi := hinv.inherits j k kid' kid w _ hj h1 hk ho e1
    have hm := List.mem_of_getElem? h1
    exact h.2 kid' hm (by rw [hinv.alive kid' hm]; exact h2) w hi
  · intro h
    constructor
    · intro f hf
      unfold closeFds at hf
      simp only at hf
      split at hf
      · cases hf
      · rename_i hn
        obtain ⟨kid', h1, _, h3⟩ := hinv.pipes f k 0 true hf
        rw [hk] at h1
        cases h1
        exact hn h3
    · intro kid' hm ha f hf
      obtain ⟨j, hj, rfl⟩ := List.getElem_of_mem hm
      have hj' : s.kids[j]? = some s.kids[j] := List.getElem?_eq_getElem hj
      rcases hinv.earlier j _ f k 0 true hj' hf with h1 | ⟨_, h1 | h1 | h1⟩
      · exact h j h1 ⟨_, hj', (hinv.alive _ (List.mem_of_getElem? hj')).symm.trans ha⟩
      · cases h1.2
      · cases h1.1
      · cases h1.1

theorem not_eof_other {t : Table} {s : Sys} (hinv : Inv t s) {k : Nat} {kid : Kid} (hk : s.kids[k]? = some kid) (ho : kid.opened = true)
    {j : Nat} (hjk : j ≠ k) {kid' : Kid} (hj : s.kids[j]? = some kid') (ha : kid'.alive = true) : ¬ Eof (closeFds s kid.fds) j 0 := by
  intro h
  have ho' : kid'.opened = true := by rw [← hinv.alive _ (List.mem_of_getElem? hj)]; exact ha
  obtain ⟨w, r1, r2, e1, e2⟩ := hinv.mine j kid' hj
  obtain ⟨e3, _⟩ := e2 ho'
  refine h.1 w ?_
  unfold closeFds
  simp only
  rw [if_neg]
  · exact e3
  · intro hm
    obtain ⟨w', a, b, g1, g2⟩ := hinv.mine k kid hk
    obtain ⟨g3, g4, g5, _⟩ := g2 ho
    rw [g1] at hm
    simp only [List.mem_cons, List.not_mem_nil, or_false] at hm
    rcases hm with rfl | rfl | rfl
    · rw [g3] at e3; cases e3; exact hjk rfl
    · rw [g4] at e3; cases e3
    · rw [g5] at e3; cases e3

/-- While the caller waits for `k`, at most `k` exits. -/
theorem star_spec {t : Table} {s s' : Sys} (hinv : Inv t s) {k : Nat} {kid : Kid} (hk : s.kids[k]? = some kid) (ho : kid.opened = true)
    (h : Star (closeFds s kid.fds) s') :
    s' = closeFds s kid.fds ∨
    (Eof (closeFds s kid.fds) k 0 ∧ s' = ⟨(closeFds s kid.fds).table, s.kids.set k { kid with alive := false }⟩) := by
  obtain ⟨hkl, hke⟩ := List.getElem?_eq_some_iff.1 hk
  generalize hc : closeFds s kid.fds = c at h
  induction h with
  | refl => exact .inl rfl
  | tail hs he ih =>
    subst hc
    rcases ih with rfl | ⟨heof, rfl⟩
    · cases he with
      | mk hj ha heof =>
        rename_i j kid'
        by_cases hjk : j = k
        · subst hjk
          have : kid' = kid := by
            have : s.kids[j]? = some kid' := hj
            rw [hk] at this
            exact (Option.some.inj this).symm
          subst this
          exact .inr ⟨heof, rfl⟩
        · exact absurd heof (not_eof_other hinv hk ho hjk hj ha)
    · exfalso
      cases he with
      | mk hj ha heof' =>
        rename_i j kid'
        simp only at hj
        by_cases hjk : k = j
        · subst hjk
          rw [List.getElem?_set, if_pos rfl, if_pos hkl] at hj
          cases hj
          cases ha
        · rw [List.getElem?_set, if_neg hjk] at hj
          refine not_eof_other hinv hk ho (Ne.symm hjk) hj ha ⟨heof'.1, ?_⟩
          intro x hx hxa f
          obtain ⟨m, hm, rfl⟩ := List.getElem_of_mem hx
          by_cases hmk : k = m
          · subst hmk
            have hx' : (closeFds s kid.fds).kids[k]? = some kid := hk
            rw [List.getElem?_eq_getElem hm] at hx'
            rw [Option.some.inj hx']
            intro hf
            rcases hinv.earlier k kid f j 0 true hk hf with h1 | ⟨h1, _⟩
            · -- k has a write end of an earlier one: that is still open in the caller
              have ho' : kid'.opened = true := by rw [← hinv.alive _ (List.mem_of_getElem? hj)]; exact ha
              obtain ⟨w, r1, r2, e1, e2⟩ := hinv.mine j kid' hj
              obtain ⟨e3, _⟩ := e2 ho'
              refine heof'.1 w ?_
              simp only [closeFds]
              rw [if_neg]
              · exact e3
              · intro hmm
                obtain ⟨w', a, b, g1, g2⟩ := hinv.mine k kid hk
                obtain ⟨g3, g4, g5, _⟩ := g2 ho
                rw [g1] at hmm
                simp only [List.mem_cons, List.not_mem_nil, or_false] at hmm
                rcases hmm with rfl | rfl | rfl
                · rw [g3] at e3; cases e3; exact hjk rfl
                · rw [g4] at e3; cases e3
                · rw [g5] at e3; cases e3
            · exact hjk h1.symm
          · have hm' : m < s.kids.length := hm
            have hmem : s.kids[m] ∈ (s.kids.set k { kid with alive := false }) :=
              List.mem_of_getElem? (i := m) (by rw [List.getElem?_set, if_neg hmk]; exact List.getElem?_eq_getElem hm')
            exact heof'.2 _ hmem hxa f

/-- process_close returns iff no later process is open, and then this is what it does. -/
theorem closes_spec {t : Table} {s s' : Sys} (hinv : Inv t s) {k : Nat} (h : Closes s k s') :
    ∃ kid, s.kids[k]? = some kid ∧ kid.opened = true ∧ (∀ j, k < j → ¬ Open s j) ∧
      s' = ⟨(closeFds s kid.fds).table, s.kids.set k { kid with alive := false, opened := false }⟩ := by
  cases h with
  | mk h1 h2 h3 h4 h5 =>
    rename_i s1 kid kid'
    refine ⟨kid, h1, h2, ?_⟩
    obtain ⟨hkl, hke⟩ := List.getElem?_eq_some_iff.1 h1
    rcases star_spec hinv h1 h2 h3 with rfl | ⟨heof, rfl⟩
    · exfalso
      have : s.kids[k]? = some kid' := h4
      rw [h1] at this
      cases this
      rw [hinv.alive _ (List.mem_of_getElem? h1), h2] at h5
      cases h5
    · refine ⟨(eof_iff hinv h1 h2).1 heof, ?_⟩
      simp only at h4
      rw [List.getElem?_set, if_pos rfl, if_pos hkl] at h4
      cases h4
      simp only [List.set_set]

theorem inv_close {t : Table} {s s' : Sys} (hstart : Start t) (hinv : Inv t s) {k : Nat} (h : Closes s k s') : Inv t s' := by
  obtain ⟨kid, hk, ho, _, rfl⟩ := closes_spec hinv h
  obtain ⟨hkl, hke⟩ := List.getElem?_eq_some_iff.1 hk
  obtain ⟨w, r1, r2, g1, g2⟩ := hinv.mine k kid hk
  obtain ⟨g3, g4, g5, g6, g7, g8⟩ := g2 ho
  have tn : ∀ f, f ∈ kid.fds → t f = none := by
    intro f hf
    rw [g1] at hf
    simp only [List.mem_cons, List.not_mem_nil, or_false] at hf
    rcases hf with rfl | rfl | rfl <;> assumption
  have isk : ∀ f, f ∈ kid.fds → ∃ i b, s.table f = some (.pipe k i b) := by
    intro f hf
    rw [g1] at hf
    simp only [List.mem_cons, List.not_mem_nil, or_false] at hf
    rcases hf with rfl | rfl | rfl
    · exact ⟨_, _, g3⟩
    · exact ⟨_, _, g4⟩
    · exact ⟨_, _, g5⟩
  have get : ∀ j x, (s.kids.set k { kid with alive := false, opened := false })[j]? = some x →
      (j = k ∧ x = { kid with alive := false, opened := false }) ∨ (j ≠ k ∧ s.kids[j]? = some x) := by
    intro j x hx
    rw [List.getElem?_set] at hx
    by_cases hjk : k = j
    · rw [if_pos hjk, if_pos hkl] at hx
      exact .inl ⟨hjk.symm, (Option.some.inj hx).symm⟩
    · rw [if_neg hjk] at hx
      exact .inr ⟨Ne.symm hjk, hx⟩
  have put : ∀ j x, j ≠ k → s.kids[j]? = some x → (s.kids.set k { kid with alive := false, opened := false })[j]? = some x := by
    intro j x hjk hx
    rw [List.getElem?_set, if_neg (Ne.symm hjk)]; exact hx
  have keep : ∀ f, f ∉ kid.fds → (closeFds s kid.fds).table f = s.table f := fun f hf => by
    simp only [closeFds]; rw [if_neg hf]
  have other : ∀ f j i b, s.table f = some (.pipe j i b) → j ≠ k → f ∉ kid.fds := by
    intro f j i b hf hjk hm
    obtain ⟨i', b', h'⟩ := isk f hm
    rw [hf] at h'
    cases h'
    exact hjk rfl
  have std : ∀ f, t f ≠ none → f ∉ kid.fds := fun f hf hm => hf (tn f hm)
  refine ⟨?_, ?_, ?_, ?_, ?_, ?_, ?_⟩
  · simp only
    rw [keep 0 (std 0 hstart.1.1), keep 1 (std 1 hstart.1.2.1), keep 2 (std 2 hstart.1.2.2)]
    exact hinv.std
  · intro j x hx
    rcases get j x hx with ⟨rfl, rfl⟩ | ⟨hjk, hx'⟩
    · exact ⟨w, r1, r2, g1, fun h => by cases h⟩
    · obtain ⟨w', a, b, e1, e2⟩ := hinv.mine j x hx'
      refine ⟨w', a, b, e1, fun h => ?_⟩
      obtain ⟨e3, e4, e5, e6⟩ := e2 h
      exact ⟨by rw [← e3]; exact keep _ (other _ _ _ _ e3 hjk), by rw [← e4]; exact keep _ (other _ _ _ _ e4 hjk),
        by rw [← e5]; exact keep _ (other _ _ _ _ e5 hjk), e6⟩
  · intro f
    by_cases hf : f ∈ kid.fds
    · left
      simp only [closeFds]
      rw [if_pos hf, tn f hf]
    · simp only
      rw [keep f hf]
      rcases hinv.rest f with h1 | ⟨j, x, h1, h2, h3⟩
      · exact .inl h1
      · have hjk : j ≠ k := by
          rintro rfl
          rw [hk] at h1
          cases h1
          exact hf h3
        exact .inr ⟨j, x, put j x hjk h1, h2, h3⟩
  · intro f j i b hf
    simp only [closeFds] at hf
    split at hf
    · cases hf
    · rename_i hn
      obtain ⟨x, h1, h2, h3⟩ := hinv.pipes f j i b hf
      have hjk : j ≠ k := by
        rintro rfl
        rw [hk] at h1
        cases h1
        exact hn h3
      exact ⟨x, put j x hjk h1, h2, h3⟩
  · intro j x f k' i b hx hf
    rcases get j x hx with ⟨rfl, rfl⟩ | ⟨hjk, hx'⟩
    · exact hinv.earlier _ kid f k' i b hk hf
    · exact hinv.earlier j x f k' i b hx' hf
  · intro j k' x x' w' l hlt hx hx' ho' hfds
    rcases get k' x' hx' with ⟨rfl, rfl⟩ | ⟨hkk, hx''⟩
    · cases ho'
    · rcases get j x hx with ⟨rfl, rfl⟩ | ⟨hjk, hx3⟩
      · exact hinv.inherits _ k' kid x' w' l hlt hk hx'' ho' hfds
      · exact hinv.inherits j k' x x' w' l hlt hx3 hx'' ho' hfds
  · intro x hx
    obtain ⟨j, hj, rfl⟩ := List.getElem_of_mem hx
    rcases get j _ (List.getElem?_eq_getElem hj) with ⟨_, h1⟩ | ⟨_, h1⟩
    · simp only at h1 ⊢
      rw [h1]
    · exact hinv.alive _ (List.mem_of_getElem? h1)

theorem reach_inv {t : Table} (hstart : Start t) {s : Sys} (h : Reach t s) : Inv t s := by
  induction h with
  | start => exact inv_start hstart
  | opens _ hl hi ho ih => exact inv_open hstart ih hl hi ho
  | closes _ hc ih => exact inv_close hstart ih hc

end Ulz.Family
