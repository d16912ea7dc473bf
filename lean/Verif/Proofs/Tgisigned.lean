import Verif.Model.Tgisigned
import Verif.Proofs.Tglist
/-! Lemmas about tgilist with a signed index type. -/
namespace Ulz.Tgisigned
open Ulz.Tglist Ulz.Tglist.Spec
open Ulz.Sblist (mul_lt_of)

theorem sidx_eq {w isz l idxs vals} (h : IRep w isz l idxs vals) (hw : l.index.count * w < 2^64)
    {i} (hi : i < idxs.length) :
    sidx w l i = .ok (if 2 * idxs[i] < 256^w then (idxs[i] : Int) else (idxs[i] : Int) - ((256^w : Nat) : Int)) := by
  have h1 := iidx_spec h hw hi
  unfold iidx at h1
  unfold sidx
  cases hg : Tglist.get w l.index i with
  | error e => rw [hg] at h1; cases h1
  | ok b =>
    rw [hg] at h1
    simp only [ok_bind, pure_eq_ok, Except.ok.injEq] at h1
    simp only [ok_bind, pure_eq_ok, h1]

theorem sidx_low {w isz l idxs vals} (h : IRep w isz l idxs vals) (hw : l.index.count * w < 2^64)
    {i} (hi : i < idxs.length) (hl : 2 * idxs[i] < 256^w) : sidx w l i = .ok (idxs[i] : Int) := by
  rw [sidx_eq h hw hi, if_pos hl]

/-- Below the limit the sign does not matter. -/
theorem sstep_eq {w isz l idxs vals} (h : IRep w isz l idxs vals) (hw : (2 * vals.length + 4) * w < 2^64)
    (hic : l.index.count ≤ vals.length) (hlt : 2 * vals.length < 256^w + 2) (op : IOp)
    (hop : IOpOk isz l.index.count op) : sstep w isz l op = istep w isz l op := by
  have hcc : l.index.count = idxs.length := by have := h.index.count; simpa using this
  have hw0 : l.index.count * w < 2^64 := mul_lt_of hw (by omega)
  have key : ∀ i, i < idxs.length → ∃ j : Nat, sidx w l i = .ok (j : Int) ∧ iidx w l i = .ok j := by
    intro i hi
    have h1 := h.lt _ (List.getElem_mem hi)
    exact ⟨idxs[i], sidx_low h hw0 hi (by omega), iidx_spec h hw0 hi⟩
  cases op with
  | add x a1 a2 => rfl
  | insert x pos a1 a2 => rfl
  | delete i => rfl
  | getsize => rfl
  | set x pos =>
    obtain ⟨j, h1, h2⟩ := key pos (by rw [← hcc]; exact hop.2)
    have : sset w isz l x pos = iset w isz l x pos := by
      unfold sset iset
      rw [h1, h2]
      simp only [ok_bind]
      rw [if_neg (by omega), Int.toNat_natCast]
    simp only [sstep, istep, this]
  | get i =>
    obtain ⟨j, h1, h2⟩ := key i (by rw [← hcc]; exact hop)
    have : sget w isz l i = iget w isz l i := by
      unfold sget iget
      rw [h1, h2]
      simp only [ok_bind]
      rw [if_neg (by omega), Int.toNat_natCast]
    simp only [sstep, istep, this]

theorem srun_spec {w isz} : ∀ (ops : List IOp) (l : TGI) (idxs : List Nat) (vals : List (List Byte)),
    IRep w isz l idxs vals → l.index.count ≤ vals.length →
    (2 * (vals.length + ops.length) + 4) * w < 2^64 → (2 * (vals.length + ops.length) + 4) * isz < 2^64 →
    2 * (vals.length + ops.length) ≤ 256^w →
    (∀ pre op post, ops = pre ++ op :: post → ∀ l' rs, srun w isz l pre = .ok (l', rs) → IOpOk isz l'.index.count op) →
    ∃ l' rs idxs' vals', srun w isz l ops = .ok (l', rs) ∧ ISteps (look vals idxs) ops (look vals' idxs') rs ∧
      IRep w isz l' idxs' vals' ∧ vals'.length ≤ vals.length + ops.length ∧ l'.index.count ≤ vals'.length
  | [], l, idxs, vals, h, hic, _, _, _, hv => ⟨l, [], idxs, vals, rfl, .nil, h, by simp, hic⟩
  | op :: ops, l, idxs, vals, h, hic, hw, hs, hf, hv => by
    simp only [List.length_cons] at hw hs hf
    have hop := hv [] op ops rfl l [] rfl
    obtain ⟨l1, r, i1, v1, h1, h2, h3, h4, h5⟩ := istep_spec h (mul_lt_of hw (by omega)) hic (mul_lt_of hs (by omega))
      (by omega) op hop
    rw [← sstep_eq h (mul_lt_of hw (by omega)) hic (by omega) op hop] at h1
    obtain ⟨l2, rs, i2, v2, r1, r2, r3, r4, r5⟩ := srun_spec ops l1 i1 v1 h3 h5
      (mul_lt_of hw (by omega)) (mul_lt_of hs (by omega)) (by omega) (by
        intro pre op' post he l' rs hr
        exact hv (op :: pre) op' post (by rw [he]; rfl) l' (r :: rs) (by
          simp only [srun, h1, ok_bind, hr]; rfl))
    exact ⟨l2, r :: rs, i2, v2, by simp only [srun, h1, ok_bind, r1]; rfl, .cons h2 r2, r3, by simp; omega, r5⟩

/-- A history of adds does not read indexes. -/
theorem srun_adds {w isz} (f g : Nat → Byte) : ∀ (xs : List (List Byte)) (l : TGI),
    srun w isz l (xs.map fun x => .add x (some f) (some g)) = irun w isz l (xs.map fun x => .add x (some f) (some g))
  | [], _ => rfl
  | x :: xs, l => by
    simp only [List.map_cons, srun, irun]
    have : sstep w isz l (.add x (some f) (some g)) = istep w isz l (.add x (some f) (some g)) := rfl
    rw [this]
    cases istep w isz l (.add x (some f) (some g)) with
    | error e => rfl
    | ok v => simp only [ok_bind, srun_adds f g xs v.1]

theorem adds_all {w isz} (f g : Nat → Byte) : ∀ (xs : List (List Byte)),
    (∀ x ∈ xs, x.length = isz) → ∀ (l : TGI) (vals : List (List Byte)), IRep w isz l (List.range vals.length) vals →
    (2 * (vals.length + xs.length) + 4) * w < 2^64 → (2 * (vals.length + xs.length) + 4) * isz < 2^64 →
    vals.length + xs.length ≤ 256^w →
    ∃ l' rs, irun w isz l (xs.map fun x => .add x (some f) (some g)) = .ok (l', rs) ∧ (∀ r ∈ rs, r = .int 1) ∧
      IRep w isz l' (List.range (vals ++ xs).length) (vals ++ xs)
  | [], _, l, vals, h, _, _, _ => ⟨l, [], rfl, by simp, by simpa using h⟩
  | x :: xs, hx, l, vals, h, b1, b2, b3 => by
    simp only [List.length_cons] at b1 b2 b3
    have hcc : l.index.count = vals.length := by have := h.index.count; simpa using this
    rcases iadd_spec h (mul_lt_of b1 (by omega)) (by omega) (mul_lt_of b2 (by omega)) (by omega) (some f) (some g) x
      (hx x (by simp)) with ⟨l', r1, r2, _⟩ | ⟨l', r1, _⟩
    · obtain ⟨l2, rs, s1, s3, s2⟩ := adds_all f g xs (fun y hy => hx y (by simp [hy])) l' (vals ++ [x])
        (by rw [List.length_append]; simpa [List.range_succ] using r2)
        (mul_lt_of b1 (by simp; omega)) (mul_lt_of b2 (by simp; omega)) (by simp; omega)
      refine ⟨l2, .int 1 :: rs, ?_, ?_, by simpa using s2⟩
      · simp only [List.map_cons, irun, istep, r1, ok_bind, pure_eq_ok, s1]
      · intro r hr
        rcases List.mem_cons.1 hr with rfl | hr
        · rfl
        · exact s3 r hr
    · simp at r1

end Ulz.Tgisigned
