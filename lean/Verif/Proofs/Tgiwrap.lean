import Verif.Spec.Tgiwrap
import Verif.Proofs.Tglist
namespace Ulz.Tgiwrap
open Ulz.Tglist Ulz.Tglist.Spec
open Ulz.Tgiwrap.Spec (St adds added)
open Ulz.Sblist (mul_lt_of)

theorem leBytes_mod : ∀ (w n : Nat), leBytes w (n % 256 ^ w) = leBytes w n
  | 0, n => rfl
  | w + 1, n => by
    simp only [leBytes]
    have h1 : n % 256 ^ (w + 1) / 256 = n / 256 % 256 ^ w := by
      rw [Nat.pow_succ, Nat.mul_comm, Nat.mod_mul_right_div_self]
    rw [h1, leBytes_mod w]
    congr 1
    apply BitVec.eq_of_toNat_eq
    simp only [BitVec.toNat_ofNat]
    have : n % 256 ^ (w + 1) % 256 = n % 256 := Nat.mod_mod_of_dvd n ⟨256 ^ w, by rw [Nat.pow_succ, Nat.mul_comm]⟩
    exact this

structure WRep (w isz : Nat) (l : TGI) (s : St) : Prop where
  index : Rep w l.index (s.refs.map (leBytes w))
  items : Rep isz l.items s.vals
  lt : ∀ i ∈ s.refs, i < s.vals.length
  small : ∀ i ∈ s.refs, i < 256 ^ w

theorem iidx_wrap {w isz l s} (h : WRep w isz l s) (hw : l.index.count * w < 2^64) {i} (hi : i < s.refs.length) :
    iidx w l i = .ok s.refs[i] := by
  unfold iidx
  rw [get_spec h.index hw (i := i) (by simpa using hi)]
  simp only [ok_bind, pure_eq_ok, List.getElem_map]
  rw [leVal_leBytes _ _ (h.small _ (List.getElem_mem _))]

theorem WRep.grow {w isz l s} (h : WRep w isz l s) {ix t} {pos : Nat} {x}
    (hix : Rep w ix ((s.refs.map (leBytes w)).take pos ++ leBytes w s.vals.length :: (s.refs.map (leBytes w)).drop pos))
    (ht : Rep isz t (s.vals ++ [x])) :
    WRep w isz ⟨ix, t⟩ ⟨s.vals ++ [x], s.refs.take pos ++ s.vals.length % 256 ^ w :: s.refs.drop pos⟩ := by
  have hmem : ∀ i ∈ s.refs.take pos ++ s.vals.length % 256 ^ w :: s.refs.drop pos, i = s.vals.length % 256 ^ w ∨ i ∈ s.refs := by
    intro i hi
    rcases List.mem_append.1 hi with hi | hi
    · exact .inr (List.mem_of_mem_take hi)
    · rcases List.mem_cons.1 hi with hi | hi
      · exact .inl hi
      · exact .inr (List.mem_of_mem_drop hi)
  refine ⟨?_, ht, ?_, ?_⟩
  · simp only [List.map_append, List.map_cons, leBytes_mod, List.map_take, List.map_drop]
    exact hix
  · intro i hi
    simp only [List.length_append, List.length_singleton]
    rcases hmem i hi with rfl | hi
    · exact Nat.lt_succ_of_le (Nat.mod_le _ _)
    · have := h.lt i hi; omega
  · intro i hi
    rcases hmem i hi with rfl | hi
    · exact Nat.mod_lt _ (Nat.pow_pos (by decide))
    · exact h.small i hi

theorem iadd_wrap {w isz l s} (h : WRep w isz l s) (hw : (2 * s.vals.length + 4) * w < 2^64)
    (hic : l.index.count ≤ s.vals.length) (hs : (2 * s.vals.length + 4) * isz < 2^64) (a1 a2 : Alloc) (x : List Byte)
    (hx : x.length = isz) :
    (∃ l' , iadd w isz a1 a2 l x = .ok (l', 1) ∧ WRep w isz l' ⟨s.vals ++ [x], s.refs ++ [s.vals.length % 256 ^ w]⟩) ∨
    (∃ l', (a1 = none ∨ a2 = none) ∧ iadd w isz a1 a2 l x = .ok (l', 0) ∧ WRep w isz l' s) := by
  unfold iadd
  rw [h.items.count]
  have hw' : (2 * l.index.count + 4) * w < 2^64 := mul_lt_of hw (by omega)
  rcases add_spec h.index hw' a1 (leBytes w s.vals.length) (leBytes_length _ _) with ⟨ix, r1, r2, _⟩ | ⟨r1, _, r2⟩
  · rw [r1]
    simp only [ok_bind, Nat.one_ne_zero, if_false]
    rcases add_spec h.items (by rw [h.items.count]; exact hs) a2 x hx with ⟨t, s1, s2, _⟩ | ⟨s1, _, s2⟩
    · left
      rw [s1]
      simp only [ok_bind, ne_eq, Nat.one_ne_zero, not_false_eq_true, if_true]
      have := h.grow (pos := s.refs.length) (x := x) (ix := ix) (t := t)
        (by rw [List.take_of_length_le (by simp), List.drop_eq_nil_of_le (by simp)]; exact r2) s2
      simp only [List.take_length, List.drop_length] at this
      exact ⟨_, rfl, this⟩
    · right
      rw [s2]
      simp only [ok_bind, ne_eq, not_true_eq_false, if_false]
      have hrc := r2.count
      simp only [List.length_append, List.length_map, List.length_singleton] at hrc
      have hcc := h.index.count
      simp only [List.length_map] at hcc
      obtain ⟨ix', d1, d2, _, _⟩ := delete_spec r2 (mul_lt_of hw (by rw [hrc]; omega)) (i := ix.count - 1)
        (by simp; omega)
      rw [d1]
      refine ⟨_, .inr s1, rfl, ⟨?_, h.items, h.lt, h.small⟩⟩
      rw [hrc, Nat.add_sub_cancel] at d2
      rw [List.eraseIdx_append_of_length_le (by simp)] at d2
      simpa using d2
  · right
    rw [r2]
    exact ⟨_, .inl r1, rfl, h⟩

theorem iinsert_wrap {w isz l s} (h : WRep w isz l s) (hw : (2 * s.vals.length + 4) * w < 2^64)
    (hic : l.index.count ≤ s.vals.length) (hs : (2 * s.vals.length + 4) * isz < 2^64) (a1 a2 : Alloc) (x : List Byte)
    (hx : x.length = isz) {pos} (hp : pos ≤ s.refs.length) :
    (∃ l' , iinsert w isz a1 a2 l x pos = .ok (l', 1) ∧
      WRep w isz l' ⟨s.vals ++ [x], s.refs.take pos ++ s.vals.length % 256 ^ w :: s.refs.drop pos⟩) ∨
    (∃ l', (a1 = none ∨ a2 = none) ∧ iinsert w isz a1 a2 l x pos = .ok (l', 0) ∧ WRep w isz l' s) := by
  unfold iinsert
  have hw' : (2 * l.index.count + 4) * w < 2^64 := mul_lt_of hw (by omega)
  rcases add_spec h.items (by rw [h.items.count]; exact hs) a2 x hx with ⟨t, s1, s2, _⟩ | ⟨s1, _, s2⟩
  · rw [s1]
    simp only [ok_bind, Nat.one_ne_zero, if_false]
    have htc : t.count - 1 = s.vals.length := by rw [s2.count]; simp
    rw [htc]
    rcases insert_spec h.index hw' a1 (leBytes w s.vals.length) (leBytes_length _ _) (pos := pos) (by simpa using hp)
      with ⟨ix, r1, r2, _⟩ | ⟨r1, _, r2⟩
    · left
      rw [r1]
      simp only [ok_bind, ne_eq, Nat.one_ne_zero, not_false_eq_true, if_true]
      exact ⟨_, rfl, h.grow r2 s2⟩
    · right
      rw [r2]
      simp only [ok_bind, ne_eq, not_true_eq_false, if_false]
      refine ⟨_, .inl r1, rfl, ⟨h.index, ?_, h.lt, h.small⟩⟩
      have := rep_append_drop s2
      rwa [htc] at this
  · right
    rw [s2]
    exact ⟨_, .inr s1, rfl, h⟩

theorem istep_wrap {w isz l s} (h : WRep w isz l s) (hw : (2 * s.vals.length + 4) * w < 2^64)
    (hic : l.index.count ≤ s.vals.length) (hs : (2 * s.vals.length + 4) * isz < 2^64) (op : IOp)
    (hop : IOpOk isz l.index.count op) :
    ∃ l' r s', istep w isz l op = .ok (l', r) ∧ Spec.Step (256 ^ w) s op s' r ∧ WRep w isz l' s' ∧
      s'.vals.length = s.vals.length + (if adds op = true ∧ r = .int 1 then 1 else 0) ∧ l'.index.count ≤ s'.vals.length := by
  have hcc : l.index.count = s.refs.length := by have := h.index.count; simpa using this
  have hw0 : l.index.count * w < 2^64 := mul_lt_of hw (by omega)
  have hs0 : l.items.count * isz < 2^64 := mul_lt_of hs (by rw [h.items.count]; omega)
  have hcnt : ∀ {l' s'}, WRep w isz l' s' → l'.index.count = s'.refs.length := by
    intro l' s' h'; have := h'.index.count; simpa using this
  cases op with
  | add x a1 a2 =>
    rcases iadd_wrap h hw hic hs a1 a2 x hop with ⟨l', h1, h2⟩ | ⟨l', h1, h2, h3⟩
    · refine ⟨l', _, _, by simp only [istep, h1]; rfl, .add, h2, by simp [adds], ?_⟩
      rw [hcnt h2]; simp; omega
    · exact ⟨l', _, _, by simp only [istep, h2]; rfl, .addFail h1, h3, by simp, by rw [hcnt h3]; omega⟩
  | set x pos =>
    have hp : pos < s.refs.length := by rw [← hcc]; exact hop.2
    obtain ⟨t, s1, s2, s3⟩ := set_spec h.items hs0 x hop.1 (pos := s.refs[pos]) (h.lt _ (List.getElem_mem _))
    refine ⟨{ l with items := t }, .int 1, ⟨s.vals.set s.refs[pos] x, s.refs⟩, ?_, .set hp,
      ⟨h.index, s2, by simpa using h.lt, h.small⟩, by simp [adds], by simpa using hic⟩
    simp only [istep, iset, iidx_wrap h hw0 hp, ok_bind, s1]; rfl
  | get i =>
    have hp : i < s.refs.length := by rw [← hcc]; exact hop
    have hv := h.lt _ (List.getElem_mem hp)
    refine ⟨l, _, s, ?_, .get hp hv, h, by simp [adds], hic⟩
    simp only [istep, iget, iidx_wrap h hw0 hp, ok_bind, get_spec h.items hs0 hv]
    rfl
  | insert x pos a1 a2 =>
    have hp : pos ≤ s.refs.length := by rw [← hcc]; exact hop.2
    rcases iinsert_wrap h hw hic hs a1 a2 x hop.1 hp with ⟨l', h1, h2⟩ | ⟨l', h1, h2, h3⟩
    · refine ⟨l', _, _, by simp only [istep, h1]; rfl, .insert hp, h2, by simp [adds], ?_⟩
      rw [hcnt h2]; simp; omega
    · exact ⟨l', _, _, by simp only [istep, h2]; rfl, .insertFail h1, h3, by simp, by rw [hcnt h3]; omega⟩
  | delete i =>
    have hp : i < s.refs.length := by rw [← hcc]; exact hop
    obtain ⟨ix, d1, d2, _, d4⟩ := delete_spec h.index hw0 (i := i) (by simpa using hp)
    refine ⟨{ l with index := ix }, .unit, ⟨s.vals, s.refs.eraseIdx i⟩, by simp only [istep, idelete, d1]; rfl, .delete hp,
      ⟨by rw [map_eraseIdx']; exact d2, h.items,
        fun j hj => h.lt j (List.mem_of_mem_eraseIdx hj), fun j hj => h.small j (List.mem_of_mem_eraseIdx hj)⟩, by simp [adds], ?_⟩
    show ix.count ≤ s.vals.length
    omega
  | getsize =>
    refine ⟨l, _, s, rfl, ?_, h, by simp [adds], hic⟩
    rw [hcc]; exact .getsize

theorem irun_wrap {w isz} : ∀ (ops : List IOp) (l : TGI) (s : St),
    WRep w isz l s → l.index.count ≤ s.vals.length →
    (2 * (s.vals.length + ops.length) + 4) * w < 2^64 → (2 * (s.vals.length + ops.length) + 4) * isz < 2^64 →
    IValid w isz l ops →
    ∃ l' rs s', irun w isz l ops = .ok (l', rs) ∧ Spec.Steps (256 ^ w) s ops s' rs ∧ WRep w isz l' s' ∧
      s'.vals.length = s.vals.length + added ops rs ∧ s'.vals.length ≤ s.vals.length + ops.length ∧ l'.index.count ≤ s'.vals.length
  | [], l, s, h, hic, _, _, hv => ⟨l, [], s, rfl, .nil, h, by simp [added], by simp, hic⟩
  | op :: ops, l, s, h, hic, hw, hs, hv => by
    simp only [List.length_cons] at hw hs
    obtain ⟨l1, r, s1, h1, h2, h3, h4, h5⟩ := istep_wrap h (mul_lt_of hw (by omega)) hic (mul_lt_of hs (by omega))
      op (hv [] op ops rfl l [] rfl)
    have h4' : s1.vals.length ≤ s.vals.length + 1 := by rw [h4]; split <;> omega
    obtain ⟨l2, rs, s2, r1, r2, r3, r4, r5, r6⟩ := irun_wrap ops l1 s1 h3 h5
      (mul_lt_of hw (by omega)) (mul_lt_of hs (by omega)) (by
        intro pre op' post he l' rs hr
        exact hv (op :: pre) op' post (by rw [he]; rfl) l' (r :: rs) (by
          simp only [irun, h1, ok_bind, hr]; rfl))
    refine ⟨l2, r :: rs, s2, by simp only [irun, h1, ok_bind, r1]; rfl, .cons h2 r2, r3, ?_, by simp; omega, r6⟩
    rw [r4, h4]
    simp only [added, List.zip_cons_cons, List.countP_cons, Bool.and_eq_true, decide_eq_true_eq]
    omega

theorem winit {w isz} (hw : 0 < w) (hi : 0 < isz) : WRep w isz iinit ⟨[], []⟩ :=
  ⟨init_rep hw, init_rep hi, by simp, by simp⟩

end Ulz.Tgiwrap
