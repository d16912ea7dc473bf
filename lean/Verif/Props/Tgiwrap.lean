import Verif.Proofs.Tgiwrap
/-! C237: a tgilist with an unsigned index type of `w` bytes, used for longer than the type has numbers (256^w). -/
namespace Ulz.Props
open Ulz.Tglist Ulz.Tglist.Spec Ulz.Tgiwrap
open Ulz.Tgiwrap.Spec (St Steps added)

/-- C237. A new tgilist under any sequence of allowed calls of any length, with any failures in its two arrays, touches no foreign memory.
    It acts as a list of references into an array of the values ever added, the value number `n` having the reference `n` modulo
    256^w. -/
theorem tgiwrap_machine (w isz : Nat) (hw : 0 < w) (hi : 0 < isz) (ops : List IOp) (h1 : (2 * ops.length + 4) * w < 2^64)
    (h2 : (2 * ops.length + 4) * isz < 2^64) (hv : IValid w isz iinit ops) :
    ∃ l rs s, irun w isz iinit ops = .ok (l, rs) ∧ Steps (256 ^ w) ⟨[], []⟩ ops s rs ∧ l.index.count = s.refs.length ∧
      ∀ i (h : i < s.refs.length), s.refs[i] < 256 ^ w ∧ ∃ hr : s.refs[i] < s.vals.length, iget w isz l i = .ok s.vals[s.refs[i]] := by
  obtain ⟨l, rs, s, r1, r2, r3, r4, r5, r6⟩ := irun_wrap ops iinit ⟨[], []⟩ (winit hw hi) (by simp [iinit, init])
    (by simpa using h1) (by simpa using h2) hv
  simp only [List.length_nil, Nat.zero_add] at r5
  have hcc : l.index.count = s.refs.length := by have := r3.index.count; simpa using this
  refine ⟨l, rs, s, r1, r2, hcc, fun i h => ⟨r3.small _ (List.getElem_mem h), r3.lt _ (List.getElem_mem h), ?_⟩⟩
  unfold iget
  rw [iidx_wrap r3 (Ulz.Sblist.mul_lt_of h1 (by omega)) h]
  simp only [ok_bind]
  rw [get_spec r3.items (Ulz.Sblist.mul_lt_of h2 (by rw [r3.items.count]; omega)) (r3.lt _ (List.getElem_mem h))]

/-- C237. Nothing is ever given back: the array holds as many values as were added with success, whatever was deleted. -/
theorem tgiwrap_memory (w isz : Nat) (hw : 0 < w) (hi : 0 < isz) (ops : List IOp) (h1 : (2 * ops.length + 4) * w < 2^64)
    (h2 : (2 * ops.length + 4) * isz < 2^64) (hv : IValid w isz iinit ops) (l : TGI) (rs : List Res)
    (h : irun w isz iinit ops = .ok (l, rs)) : l.items.count = added ops rs ∧ added ops rs * isz ≤ l.items.items.length := by
  obtain ⟨l', rs', s, r1, r2, r3, r4, r5, r6⟩ := irun_wrap ops iinit ⟨[], []⟩ (winit hw hi) (by simp [iinit, init])
    (by simpa using h1) (by simpa using h2) hv
  rw [h] at r1
  injection r1 with r1
  injection r1 with e1 e2
  subst e1 e2
  have hc := r3.items.count
  simp only [List.length_nil, Nat.zero_add] at r4
  refine ⟨by omega, ?_⟩
  obtain ⟨slack, b1, b2⟩ := r3.items.buf
  rw [b1, List.length_append, Ulz.flatten_length r3.items.item, ← r4]
  omega

/-- C237. The add that follows `added` others, if it succeeds: with less than 256^w before it the new item reads as what was added. From
    there on it reads as the value that the number `added` modulo 256^w refers to, whatever is added. -/
theorem tgiwrap_added (w isz : Nat) (hw : 0 < w) (hi : 0 < isz) (ops : List IOp) (h1 : (2 * ops.length + 6) * w < 2^64)
    (h2 : (2 * ops.length + 6) * isz < 2^64) (hv : IValid w isz iinit ops) :
    ∃ l rs s, irun w isz iinit ops = .ok (l, rs) ∧ Steps (256 ^ w) ⟨[], []⟩ ops s rs ∧ s.vals.length = added ops rs ∧
      ∀ x a1 a2 l', x.length = isz → iadd w isz a1 a2 l x = .ok (l', 1) →
        (added ops rs < 256 ^ w → iget w isz l' l.index.count = .ok x) ∧
        (256 ^ w ≤ added ops rs →
          ∃ hr : added ops rs % 256 ^ w < s.vals.length, iget w isz l' l.index.count = .ok s.vals[added ops rs % 256 ^ w]) := by
  obtain ⟨l, rs, s, r1, r2, r3, r4, r5, r6⟩ := irun_wrap ops iinit ⟨[], []⟩ (winit hw hi) (by simp [iinit, init])
    (Ulz.Sblist.mul_lt_of h1 (by simp)) (Ulz.Sblist.mul_lt_of h2 (by simp)) hv
  simp only [List.length_nil, Nat.zero_add] at r4 r5
  have hcc : l.index.count = s.refs.length := by have := r3.index.count; simpa using this
  refine ⟨l, rs, s, r1, r2, r4, ?_⟩
  intro x a1 a2 l' hx hadd
  have hN : 0 < 256 ^ w := Nat.pow_pos (by decide)
  rcases iadd_wrap r3 (Ulz.Sblist.mul_lt_of h1 (by omega)) r6 (Ulz.Sblist.mul_lt_of h2 (by omega)) a1 a2 x hx with
    ⟨l2, e1, e2⟩ | ⟨l2, -, e1, -⟩
  · rw [hadd] at e1
    injection e1 with e1
    injection e1 with e1 _
    subst e1
    have hcc' : l'.index.count = s.refs.length + 1 := by have := e2.index.count; simpa using this
    have hci : l'.items.count = s.vals.length + 1 := by have := e2.items.count; simpa using this
    have hlt : s.vals.length % 256 ^ w < s.vals.length + 1 := Nat.lt_succ_of_le (Nat.mod_le _ _)
    have hg : iget w isz l' l.index.count = .ok ((s.vals ++ [x])[s.vals.length % 256 ^ w]'(by simpa using hlt)) := by
      unfold iget
      rw [iidx_wrap e2 (Ulz.Sblist.mul_lt_of h1 (by omega)) (i := l.index.count) (by rw [hcc]; simp)]
      simp only [ok_bind]
      have : (s.refs ++ [s.vals.length % 256 ^ w])[l.index.count]'(by rw [hcc]; simp) = s.vals.length % 256 ^ w := by
        simp [hcc]
      rw [get_spec e2.items (Ulz.Sblist.mul_lt_of h2 (by omega)) (i := (s.refs ++ [s.vals.length % 256 ^ w])[l.index.count]'(by rw [hcc]; simp))
        (by rw [this]; simpa using hlt)]
      simp only [this]
    rw [← r4]
    constructor
    · intro hlt
      rw [hg]
      simp [Nat.mod_eq_of_lt hlt]
    · intro hge
      have : s.vals.length % 256 ^ w < s.vals.length := Nat.lt_of_lt_of_le (Nat.mod_lt _ hN) hge
      refine ⟨this, ?_⟩
      rw [hg, List.getElem_append_left this]
  · rw [hadd] at e1; cases e1

/-- C237. Positions with the same reference are one variable: setting one of them sets all, and no other. -/
theorem tgiwrap_alias (w isz : Nat) (hw : 0 < w) (hi : 0 < isz) (ops : List IOp) (h1 : (2 * ops.length + 4) * w < 2^64)
    (h2 : (2 * ops.length + 4) * isz < 2^64) (hv : IValid w isz iinit ops) :
    ∃ l rs s, irun w isz iinit ops = .ok (l, rs) ∧ Steps (256 ^ w) ⟨[], []⟩ ops s rs ∧
      ∀ i (hi : i < s.refs.length) x, x.length = isz → ∃ l', iset w isz l x i = .ok (l', 1) ∧
        ∀ j (hj : j < s.refs.length), iget w isz l' j = if s.refs[j] = s.refs[i] then .ok x else iget w isz l j := by
  obtain ⟨l, rs, s, r1, r2, r3, r4, r5, r6⟩ := irun_wrap ops iinit ⟨[], []⟩ (winit hw hi) (by simp [iinit, init])
    (by simpa using h1) (by simpa using h2) hv
  simp only [List.length_nil, Nat.zero_add] at r5
  have hcc : l.index.count = s.refs.length := by have := r3.index.count; simpa using this
  have hw0 : l.index.count * w < 2^64 := Ulz.Sblist.mul_lt_of h1 (by omega)
  have hs0 : l.items.count * isz < 2^64 := Ulz.Sblist.mul_lt_of h2 (by rw [r3.items.count]; omega)
  refine ⟨l, rs, s, r1, r2, fun i hi' x hx => ?_⟩
  obtain ⟨t, s1, s2, s3⟩ := set_spec r3.items hs0 x hx (pos := s.refs[i]) (r3.lt _ (List.getElem_mem _))
  have hW : WRep w isz { l with items := t } ⟨s.vals.set s.refs[i] x, s.refs⟩ := ⟨r3.index, s2, by simpa using r3.lt, r3.small⟩
  refine ⟨{ l with items := t }, by simp only [iset, iidx_wrap r3 hw0 hi', ok_bind, s1]; rfl, fun j hj => ?_⟩
  have hv1 := r3.lt _ (List.getElem_mem hj)
  have hci : t.count * isz < 2^64 := by
    have h3 := s2.count; have h4 := r3.items.count
    rw [List.length_set] at h3
    rw [h3, ← h4]; exact hs0
  unfold iget
  rw [iidx_wrap r3 hw0 hj, iidx_wrap hW hw0 (i := j) hj]
  simp only [ok_bind]
  rw [get_spec s2 hci (i := s.refs[j]) (by simpa using hv1), get_spec r3.items hs0 hv1, List.getElem_set]
  by_cases he : s.refs[j] = s.refs[i]
  · simp [he]
  · rw [if_neg he, if_neg (fun h => he h.symm)]

/-- A queue that never holds more than one item: after 256 rounds with a one-byte index the next item reads as the first, which was
    deleted long ago. -/
def tgiwrapDemo : List IOp :=
  ((List.range 257).map fun n => [IOp.add [BitVec.ofNat 8 (n / 256 + 7)] (some fun _ => 0) (some fun _ => 0), .get 0, .delete 0]).flatten

example : IValid 1 1 iinit tgiwrapDemo ∧ (2 * tgiwrapDemo.length + 6) * 1 < 2^64 := ⟨ivalidB_sound _ _ (by decide +kernel), by decide +kernel⟩

example : ∃ l rs, irun 1 1 iinit tgiwrapDemo = .ok (l, rs) ∧ l.index.count = 0 ∧ l.items.count = 257 ∧ rs[769]? = some (.item [7]) := by
  have h : (match irun 1 1 iinit tgiwrapDemo with
    | .ok (l, rs) => decide (l.index.count = 0 ∧ l.items.count = 257 ∧ rs[769]? = some (.item [7]))
    | .error _ => false) = true := by decide +kernel
  revert h
  cases hx : irun 1 1 iinit tgiwrapDemo with
  | error e => intro h; simp at h
  | ok v =>
    obtain ⟨l, rs⟩ := v
    intro h
    exact ⟨l, rs, rfl, by simpa using h⟩

end Ulz.Props
