import Verif.Model.Aligned
import Verif.Proofs.Cost
import Verif.Proofs.HeldTree
import Verif.Props.Ssalloc
import Verif.Props.Spgrow
/-! Lemmas about alignment. -/
namespace Ulz.Aligned
open Held
open Ulz.Sblist (SB)
open Ulz.Frame (bind_ok)

theorem dvd_szt {a : Nat} (ha : a ∣ 2 ^ 64) (n : Nat) : a ∣ szt n ↔ a ∣ n := by
  unfold szt
  exact Nat.dvd_mod_iff ha

theorem grow_isz (a : Alloc) (l : SB) : (Sblist.grow_if_needed a l).1.itemsize = l.itemsize := by
  unfold Sblist.grow_if_needed
  split
  · split <;> rfl
  · rfl

theorem set_isz {l l' : SB} {x : List Byte} {pos r : Nat} (e : Sblist.set l x pos = .ok (l', r)) : l'.itemsize = l.itemsize := by
  unfold Sblist.set at e
  split at e
  · cases e; rfl
  · obtain ⟨y, _, e⟩ := bind_ok.1 e
    obtain ⟨z, _, e⟩ := bind_ok.1 e
    cases e; rfl

theorem delete_isz {l l' : SB} {i : Nat} (e : Sblist.delete l i = .ok l') : l'.itemsize = l.itemsize := by
  unfold Sblist.delete at e
  split at e
  · obtain ⟨y, _, e⟩ := bind_ok.1 e
    cases e; rfl
  · cases e; rfl

theorem step_isz {l l' : SB} {op : Sblist.Op} {r : Sblist.Res} (e : Sblist.step l op = .ok (l', r)) : l'.itemsize = l.itemsize := by
  cases op with
  | add x a =>
    obtain ⟨⟨l1, r1⟩, e1, e⟩ := bind_ok.1 e
    cases e
    have hg := grow_isz a l
    unfold Sblist.add at e1
    revert hg e1
    cases Sblist.grow_if_needed a l with
    | mk l2 ok =>
      intro e1 hg
      simp only at e1 hg
      split at e1
      · cases e1; exact hg
      · have := set_isz e1; exact this.trans hg
  | addi x a =>
    obtain ⟨⟨l1, r1⟩, e1, e⟩ := bind_ok.1 e
    cases e
    have hg := grow_isz a l
    unfold Sblist.addi at e1
    revert hg e1
    cases Sblist.grow_if_needed a l with
    | mk l2 ok =>
      intro e1 hg
      simp only at e1 hg
      split at e1
      · cases e1; exact hg
      · obtain ⟨⟨l3, r3⟩, e2, e1⟩ := bind_ok.1 e1
        cases e1
        have := set_isz e2; exact this.trans hg
  | set x pos =>
    obtain ⟨⟨l1, r1⟩, e1, e⟩ := bind_ok.1 e
    cases e
    exact set_isz e1
  | get i =>
    obtain ⟨y, _, e⟩ := bind_ok.1 e
    cases e; rfl
  | insert x pos a =>
    obtain ⟨⟨l1, r1⟩, e1, e⟩ := bind_ok.1 e
    cases e
    have hg := grow_isz a l
    unfold Sblist.insert at e1
    revert hg e1
    cases Sblist.grow_if_needed a l with
    | mk l2 ok =>
      intro e1 hg
      simp only at e1 hg
      split at e1
      · cases e1; exact hg
      · obtain ⟨y, _, e1⟩ := bind_ok.1 e1
        have := set_isz e1; exact this.trans hg
  | delete i =>
    obtain ⟨y, e1, e⟩ := bind_ok.1 e
    cases e
    exact delete_isz e1
  | pop =>
    obtain ⟨⟨l1, r1⟩, e1, e⟩ := bind_ok.1 e
    obtain ⟨y, _, e⟩ := bind_ok.1 e
    cases e
    unfold Sblist.pop at e1
    split at e1
    · obtain ⟨y, e2, e1⟩ := bind_ok.1 e1
      cases e1
      exact delete_isz e2
    · cases e1; rfl

theorem run_isz : ∀ (ops : List Sblist.Op) (s s' : HSB) (rs : List Sblist.Res), sbrun s ops = .ok (s', rs) → s'.l.itemsize = s.l.itemsize
  | [], s, s', rs, e => by cases e; rfl
  | op :: ops, s, s', rs, e => by
    obtain ⟨⟨s1, r1⟩, e1, e⟩ := bind_ok.1 e
    obtain ⟨⟨s2, r2⟩, e2, e⟩ := bind_ok.1 e
    cases e
    rw [run_isz ops s1 _ _ e2]
    obtain ⟨⟨l1, r1'⟩, e3, e1⟩ := bind_ok.1 e1
    cases e1
    exact step_isz e3

/-- What a history of the allocator returns: multiples of the element size, of numbers of elements. -/
theorem ssa_steps {M E : Nat} {live : List Nat} {ops : List Ssalloc.Op} {live' : List Nat} {rs : List (Option Nat)}
    (h : Ssalloc.Spec.Steps M E live ops live' rs) : ∀ r ∈ rs, ∀ p, r = some p → ∃ i, i < M ∧ p = i * E := by
  induction h with
  | nil => intro r hr; cases hr
  | cons hs _ ih =>
    intro r hr p hp
    rcases List.mem_cons.1 hr with rfl | hr
    · cases hs with
      | alloc _ _ hi _ _ => cases hp; exact ⟨_, hi, rfl⟩
      | full => cases hp
      | big => cases hp
      | free => cases hp
      | notLive => cases hp
    · exact ih r hr p hp

theorem ssa_hist {M E : Nat} (hM : 0 < M) (hM' : M < 2 ^ 64) (hE : 0 < E) {ops : List Ssalloc.Op} (ho : ∀ o ∈ ops, Ssalloc.Spec.OpOk E o)
    {q : Ssalloc.Pool} {rs : List (Option Nat)} (hr : Ssalloc.run M E (Ssalloc.ssa_init M) ops = .ok (q, rs)) :
    (∃ live, Ssalloc.Spec.Steps M E [] ops live rs) ∧ ∀ r ∈ rs, ∀ p, r = some p → ∃ i, i < M ∧ p = i * E := by
  obtain ⟨p, live, rs', e, hs⟩ := Ulz.Props.ssalloc_history M E hM hM' hE ops ho
  rw [hr] at e
  cases e
  exact ⟨⟨live, hs⟩, ssa_steps hs⟩

theorem ssa_first {M E : Nat} (hM : 0 < M) (hM' : M < 2 ^ 64) (hE : 0 < E) :
    ∃ q rs, Ssalloc.run M E (Ssalloc.ssa_init M) [.alloc 0] = .ok (q, rs) ∧ some 0 ∈ rs := by
  obtain ⟨p, live, rs, e, hs⟩ := Ulz.Props.ssalloc_history M E hM hM' hE [.alloc 0] (by intro o ho; cases List.mem_singleton.1 ho; trivial)
  refine ⟨p, rs, e, ?_⟩
  cases hs with
  | cons h1 _ =>
    cases h1 with
    | alloc _ _ _ _ hn =>
      rcases hn with ⟨_, _, h | h⟩ | ⟨h, _⟩
      · subst h; simp
      · cases h
      · cases h
    | full _ hf => exact absurd hf.1 (by simp)
    | big hb => omega

theorem ssa_second {M E : Nat} (hM : 1 < M) (hM' : M < 2 ^ 64) (hE : 0 < E) :
    ∃ q rs, Ssalloc.run M E (Ssalloc.ssa_init M) [.alloc 0, .alloc 0] = .ok (q, rs) ∧ some E ∈ rs := by
  obtain ⟨p, live, rs, e, hs⟩ := Ulz.Props.ssalloc_history M E (by omega) hM' hE [.alloc 0, .alloc 0] (by
    intro o ho
    simp only [List.mem_cons, List.not_mem_nil, or_false, or_self] at ho
    subst ho; trivial)
  refine ⟨p, rs, e, ?_⟩
  cases hs with
  | cons h1 h2 =>
    cases h1 with
    | alloc _ _ _ _ hn =>
      have h0 : ∀ {i : Nat}, Ssalloc.Spec.Next M [] i → i = 0 := by
        intro i hn
        rcases hn with ⟨_, _, h | h⟩ | ⟨h, _⟩
        · exact h
        · cases h
        · cases h
      have := h0 hn
      subst this
      cases h2 with
      | cons h3 _ =>
        cases h3 with
        | alloc _ _ _ _ hn2 =>
          rcases hn2 with ⟨_, k1, k2⟩ | ⟨k, _⟩
          · have k3 := k1 0 (by simp)
            rcases k2 with k2 | k2
            · omega
            · have k4 := List.mem_singleton.1 k2
              refine List.mem_cons_of_mem _ (List.mem_cons.2 (Or.inl (congrArg some ?_)))
              have k6 : ∀ j : Nat, j - 1 = 0 → 0 < j → E = j * E := by
                intro j h1 h2
                rw [show j = 1 by omega, Nat.one_mul]
              exact k6 _ k4 k3
          · have := List.mem_singleton.1 k; omega
        | full _ hf => have := List.mem_singleton.1 hf.1; omega
        | big hb => omega
    | full _ hf => exact absurd hf.1 (by simp)
    | big hb => omega

end Ulz.Aligned
