import Verif.Proofs.Tgisigned
/-! C153: tgilist with a signed index type. -/
set_option linter.unusedVariables false
namespace Ulz.Props
open Ulz.Tglist Ulz.Tglist.Spec Ulz.Tgisigned

/-- C153. A new tgilist whose index type is a signed type of `w` bytes, under any sequence of allowed calls with any
    pattern of failures in its two arrays, acts as a mathematical list that starts empty and touches no foreign memory,
    provided there are at most half as many calls as the index type has values. -/
theorem tgilist_signed_refines_list (w isz : Nat) (hw : 0 < w) (hi : 0 < isz) (ops : List IOp)
    (h1 : (2 * ops.length + 4) * w < 2^64) (h2 : (2 * ops.length + 4) * isz < 2^64)
    (hfit : 2 * ops.length ≤ 256^w)
    (hv : ∀ pre op post, ops = pre ++ op :: post → ∀ l rs, srun w isz iinit pre = .ok (l, rs) →
      IOpOk isz l.index.count op) :
    ∃ l rs xs, srun w isz iinit ops = .ok (l, rs) ∧ ISteps [] ops xs rs ∧ l.index.count = xs.length ∧
      ∀ i (h : i < xs.length), sget w isz l i = .ok xs[i] := by
  obtain ⟨l, rs, idxs, vals, r1, r2, r3, r4, r5⟩ := srun_spec ops iinit [] [] (iinit_rep hw hi)
    (by simp [iinit, init]) (by simpa using h1) (by simpa using h2) (by simpa using hfit) hv
  simp only [List.length_nil, Nat.zero_add] at r4
  have hcc : l.index.count = idxs.length := by have := r3.index.count; simpa using this
  refine ⟨l, rs, look vals idxs, r1, r2, by rw [hcc]; simp [look], ?_⟩
  intro i hi'
  have hp : i < idxs.length := by simpa [look] using hi'
  have hlt := r3.lt _ (List.getElem_mem hp)
  unfold sget
  rw [sidx_low r3 (Ulz.Sblist.mul_lt_of h1 (by omega)) hp (by omega)]
  simp only [ok_bind]
  rw [if_neg (by omega), Int.toNat_natCast,
    get_spec r3.items (Ulz.Sblist.mul_lt_of h2 (by rw [r3.items.count]; omega)) hlt]
  simp [look, List.getD_eq_getElem?_getD, hlt]

/-- Non-vacuity: calls on a `tgilist` of two-byte values with index type `signed char`. -/
def tgisignedDemo : List IOp :=
  [.add [1, 2] (some fun _ => 0) none, .add [1, 2] none (some fun _ => 9), .insert [7, 8] 0 none none, .set [5, 5] 1,
   .get 1, .delete 0, .getsize]

example : srun 1 2 iinit tgisignedDemo =
    .ok (⟨⟨1, 4, [0, 0, 0, 0]⟩, ⟨2, 4, [5, 5, 7, 8, 9, 9, 9, 9]⟩⟩,
      [.int 0, .int 1, .int 1, .int 1, .item [5, 5], .unit, .int 1]) := by decide +kernel

example : (2 * tgisignedDemo.length + 4) * 2 < 2^64 ∧ 2 * tgisignedDemo.length ≤ 256^1 := by decide

/-- C153, the limit is exact and half of what it is for an unsigned type: all of up to 256^w adds succeed, but only the
    first half of the positions can be read or set; from there on the access is outside the block of items. -/
theorem tgilist_signed_reach (w isz : Nat) (hw : 0 < w) (hi : 0 < isz) (xs : List (List Byte))
    (hxs : ∀ x ∈ xs, x.length = isz) (hlen : xs.length ≤ 256^w)
    (h1 : (2 * xs.length + 4) * w < 2^64) (h2 : (2 * xs.length + 4) * isz < 2^64) (f g : Nat → Byte) :
    ∃ l rs, srun w isz iinit (xs.map fun x => .add x (some f) (some g)) = .ok (l, rs) ∧
      (∀ r ∈ rs, r = .int 1) ∧ l.index.count = xs.length ∧
      ∀ i (h : i < xs.length),
        (2 * i < 256^w → sget w isz l i = .ok xs[i]) ∧
        (256^w ≤ 2 * i → sget w isz l i = .error .oobRead ∧ ∀ y, sset w isz l y i = .error .oobWrite) := by
  obtain ⟨l, rs, r1, r3, r2⟩ := adds_all f g xs hxs iinit [] (iinit_rep hw hi) (by simpa using h1) (by simpa using h2)
    (by simpa using hlen)
  rw [List.nil_append] at r2
  have hcc : l.index.count = xs.length := by have := r2.index.count; simpa using this
  refine ⟨l, rs, by rw [srun_adds]; exact r1, r3, hcc, ?_⟩
  intro i h
  have hs := sidx_eq r2 (Ulz.Sblist.mul_lt_of h1 (by omega)) (i := i) (by simpa using h)
  simp only [List.getElem_range] at hs
  constructor
  · intro hl
    unfold sget
    rw [hs, if_pos hl]
    simp only [ok_bind]
    rw [if_neg (by omega), Int.toNat_natCast,
      get_spec r2.items (Ulz.Sblist.mul_lt_of h2 (by rw [r2.items.count]; omega)) h]
  · intro hl
    rw [if_neg (by omega)] at hs
    have hneg : (i : Int) - ((256^w : Nat) : Int) < 0 := by omega
    constructor
    · unfold sget
      rw [hs]
      simp only [ok_bind]
      rw [if_pos hneg]
    · intro y
      unfold sset
      rw [hs]
      simp only [ok_bind]
      rw [if_pos hneg]

/-- 129 one-byte values under `signed char` indexes. -/
example : ∃ l rs, srun 1 1 iinit ((List.replicate 129 [7]).map fun x => .add x (some fun _ => 0) (some fun _ => 0)) = .ok (l, rs) ∧
    sget 1 1 l 128 = .error .oobRead := by
  obtain ⟨l, rs, a, _, _, d⟩ := tgilist_signed_reach 1 1 (by decide) (by decide) (List.replicate 129 [7])
    (fun x hx => by rw [List.eq_of_mem_replicate hx]; rfl) (by decide +kernel) (by decide +kernel) (by decide +kernel) (fun _ => 0) (fun _ => 0)
  exact ⟨l, rs, a, ((d 128 (by decide +kernel)).2 (by decide)).1⟩

/-- C153 for `short`, the type the header suggests for up to 64K values: the value after the first 32768 is added, counts
    and cannot be read. -/
theorem tgilist_short_limit (isz : Nat) (hi : 0 < isz) (xs : List (List Byte)) (hxs : ∀ x ∈ xs, x.length = isz)
    (hlen : xs.length = 32769) (h2 : (2 * xs.length + 4) * isz < 2^64) (f g : Nat → Byte) :
    ∃ l rs, srun 2 isz iinit (xs.map fun x => .add x (some f) (some g)) = .ok (l, rs) ∧
      (∀ r ∈ rs, r = .int 1) ∧ l.index.count = 32769 ∧ sget 2 isz l 32767 = .ok xs[32767] ∧
      sget 2 isz l 32768 = .error .oobRead := by
  obtain ⟨l, rs, a, b, c, d⟩ := tgilist_signed_reach 2 isz (by decide) hi xs hxs (by rw [hlen]; decide)
    (by rw [hlen]; decide) h2 f g
  exact ⟨l, rs, a, b, by rw [c, hlen], (d 32767 (by omega)).1 (by decide), ((d 32768 (by omega)).2 (by decide)).1⟩

example : (List.replicate 32769 ([1, 2, 3, 4] : List Byte)).length = 32769 ∧ (2 * 32769 + 4) * 4 < 2^64 :=
  ⟨List.length_replicate .., by decide⟩

end Ulz.Props
