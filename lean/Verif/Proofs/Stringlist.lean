import Verif.Spec.Stringlist
import Verif.Proofs.Sblist
import Verif.Proofs.Tglist
import Verif.Proofs.Hex
/-! Lemmas about the pointer lists. -/
namespace Ulz.Stringlist
open Ulz.Sblist (SB mul_lt_of)
open Ulz.Sblist.Spec (Rep TotalPreorder Sorted)
open Ulz.Tglist (leVal leBytes leVal_leBytes leBytes_length)
open Spec

theorem new_ptrs {bi : Nat} (hb : 0 < bi) : ∃ l, new bi = .ok l ∧ Ptrs l [] ∧ l.blockitems = bi ∧ l.count = 0 := by
  obtain ⟨l, h1, h2, h3, h4, h5⟩ := Sblist.init_rep (isz := 8) (by omega) hb
  exact ⟨l, h1, ⟨h4, h2, by simp⟩, h3, h5⟩

theorem Spec.Ptrs.count {l : SB} {ps} (h : Ptrs l ps) : l.count = ps.length := by
  rw [h.2.1.count, List.length_map]

theorem rd_ptr {l : SB} {ps} (h : Ptrs l ps) (hb : l.count * 8 < 2^64) {i : Nat} (hi : i < ps.length) :
    ∃ o, Sblist.get l i = some o ∧ rdN l.items o 8 = .ok (leBytes 8 ps[i]) := by
  have h1 := Sblist.deref_get h.2.1 (by rw [h.1]; exact hb) (i := i) (by simpa using hi)
  have hc := h.count
  have hg : Sblist.get l i = some (szt (i * l.itemsize)) := by simp [Sblist.get, hc, hi]
  rw [hg] at h1 ⊢
  refine ⟨_, rfl, ?_⟩
  simp only [Sblist.deref, h.1] at h1
  rw [h.1, h1]
  simp

theorem get_ptrs {l : SB} {ps} (h : Ptrs l ps) (hb : l.count * 8 < 2^64) (i : Nat) :
    get l i = .ok (ps[i]?.getD 0) := by
  unfold get
  by_cases hi : i < ps.length
  · obtain ⟨o, h1, h2⟩ := rd_ptr h hb hi
    rw [h1]
    simp only [h2, ok_bind, pure_eq_ok]
    rw [leVal_leBytes _ _ (h.2.2 _ (List.getElem_mem _))]
    simp [hi]
  · have : Sblist.get l i = none := by simp [Sblist.get, h.count, hi]
    rw [this]
    simp [pure_eq_ok, List.getElem?_eq_none (Nat.le_of_not_lt hi)]

theorem sptr_get_ptrs {l : SB} {ps} (h : Ptrs l ps) (hb : l.count * 8 < 2^64) (i : Nat) :
    sptr_get l i = match ps[i]? with | some p => .ok p | none => .error .nullDeref := by
  unfold sptr_get
  by_cases hi : i < ps.length
  · obtain ⟨o, h1, h2⟩ := rd_ptr h hb hi
    rw [h1]
    simp only [h2, ok_bind, pure_eq_ok]
    rw [leVal_leBytes _ _ (h.2.2 _ (List.getElem_mem _))]
    simp [hi]
  · have : Sblist.get l i = none := by simp [Sblist.get, h.count, hi]
    rw [this, List.getElem?_eq_none (Nat.le_of_not_lt hi)]

theorem add_ptrs {l : SB} {ps} (h : Ptrs l ps) (hbi : 0 < l.blockitems) (hb : (l.count + l.blockitems) * 8 < 2^64)
    (a : Alloc) (p : Nat) (hp : p < 2^64) :
    (∃ l', add a l p = .ok (l', 1) ∧ Ptrs l' (ps ++ [p]) ∧ l'.blockitems = l.blockitems) ∨
    (a = none ∧ l.count = l.capa ∧ add a l p = .ok (l, 0)) := by
  rcases Sblist.add_spec h.2.1 hbi (by rw [h.1]; exact hb) a (leBytes 8 p) (by rw [leBytes_length, h.1]) with
    ⟨l', h1, _, h2, h3, h4⟩ | ⟨h1, h2, _⟩
  · refine .inl ⟨l', h1, ⟨by rw [h3, h.1], by simpa using h2, ?_⟩, h4⟩
    intro q hq
    rcases List.mem_append.1 hq with hq | hq
    · exact h.2.2 q hq
    · rw [List.mem_singleton.1 hq]; exact hp
  · exact .inr ⟨h1, Sblist.add_fail h2, h2⟩

theorem set_ptrs {l : SB} {ps} (h : Ptrs l ps) (hb : l.count * 8 < 2^64) (p pos : Nat) (hp : p < 2^64) :
    (pos < ps.length → ∃ l', sptr_set l p pos = .ok (l', 1) ∧ Ptrs l' (ps.set pos p)) ∧
    (ps.length ≤ pos → sptr_set l p pos = .ok (l, 0)) := by
  obtain ⟨h1, h2⟩ := Sblist.set_spec h.2.1 (by rw [h.1]; exact hb) (leBytes 8 p) (by rw [leBytes_length, h.1]) pos
  rw [List.length_map] at h1 h2
  refine ⟨fun hp' => ?_, h2⟩
  obtain ⟨l', r1, r2, r3, _⟩ := h1 hp'
  refine ⟨l', r1, by rw [r3, h.1], by simpa [List.map_set] using r2, ?_⟩
  intro q hq
  rcases List.mem_or_eq_of_mem_set hq with hq | hq
  · exact h.2.2 q hq
  · rw [hq]; exact hp

theorem hfree_head {h : Heap} {x : Nat} {s : List Byte} (hx : x ∉ h.map Prod.fst) : hfree ((x, s) :: h) x = .ok h := by
  unfold hfree
  rw [if_pos (by simp)]
  simp only [pure_eq_ok]
  congr 1
  rw [List.filter_cons_of_neg (by simp)]
  refine List.filter_eq_self.2 fun e he => ?_
  have : e.1 ≠ x := fun h1 => hx (h1 ▸ List.mem_map_of_mem he)
  simpa using this

theorem cstr_of_mem : ∀ {s : List Byte}, 0 ∈ s → ∃ t junk, s = t ++ 0 :: junk ∧ 0 ∉ t
  | [], hs => by cases hs
  | c :: s, hs => by
    by_cases hc : c = 0
    · exact ⟨[], s, by rw [hc]; rfl, by simp⟩
    · have hs' : 0 ∈ s := by
        rcases List.mem_cons.1 hs with h | h
        · exact absurd h.symm hc
        · exact h
      obtain ⟨t, junk, e, ht⟩ := cstr_of_mem hs'
      exact ⟨c :: t, junk, by rw [e]; rfl, fun h => (List.mem_cons.1 h).elim (fun h => hc h.symm) ht⟩

theorem add_dup_spec {l : SB} {ps} (hl : Ptrs l ps) (hbi : 0 < l.blockitems)
    (hb : (l.count + l.blockitems) * 8 < 2^64) (h : Heap) (p : Option Nat) (a : Alloc) (s : List Byte) (hs : 0 ∈ s)
    (hp : ∀ x, p = some x → x < 2^64 ∧ x ∉ h.map Prod.fst) :
    (∃ l' x, p = some x ∧ add_dup h p a l s = .ok (l', (x, cstr s ++ [0]) :: h, 1) ∧ Ptrs l' (ps ++ [x]) ∧
      l'.blockitems = l.blockitems) ∨
    ((p = none ∨ a = none) ∧ add_dup h p a l s = .ok (l, h, 0)) := by
  obtain ⟨t, junk, rfl, ht⟩ : ∃ t junk, s = t ++ 0 :: junk ∧ 0 ∉ t := by
    exact cstr_of_mem hs
  have hcs : cstr (t ++ 0 :: junk) = t := by
    unfold cstr
    rw [List.takeWhile_append_of_pos (by intro x hx; simp; rintro rfl; exact ht hx)]
    simp
  unfold add_dup
  rw [Hex.strlen_cstr t junk ht, hcs]
  simp only [ok_bind]
  cases p with
  | none => exact .inr ⟨.inl rfl, rfl⟩
  | some x =>
    obtain ⟨hx1, hx2⟩ := hp x rfl
    have htk : (t ++ 0 :: junk).take (t.length + 1) = t ++ [0] := by
      rw [List.take_append, List.take_of_length_le (by omega)]; simp
    simp only [htk]
    rcases add_ptrs hl hbi hb a x hx1 with ⟨l', h1, h2, h3⟩ | ⟨h1, _, h2⟩
    · exact .inl ⟨l', x, rfl, by rw [h1]; simp [ok_bind, pure_eq_ok], h2, h3⟩
    · refine .inr ⟨.inr h1, ?_⟩
      rw [h2]
      simp only [ok_bind, if_true]
      rw [hfree_head hx2]
      rfl

theorem addDups_spec : ∀ (cs : List (List Byte × Option Nat × Alloc)) (l : SB) (ps : List Nat) (h : Heap),
    Ptrs l ps → 0 < l.blockitems → (l.count + cs.length + l.blockitems) * 8 < 2^64 → (∀ c ∈ cs, 0 ∈ c.1) →
    (cs.filterMap (fun c => c.2.1) ++ h.map Prod.fst).Nodup → (∀ x ∈ cs.filterMap (fun c => c.2.1), x < 2^64) →
    ∃ l' rs, addDups h l cs = .ok (l', ((added cs rs).map fun e => (e.1, e.2 ++ [0])).reverse ++ h, rs) ∧
      rs.length = cs.length ∧
      (∀ i (h1 : i < rs.length) (h2 : i < cs.length), rs[i] = 1 ∧ cs[i].2.1.isSome ∨
        rs[i] = 0 ∧ (cs[i].2.1 = none ∨ cs[i].2.2 = none)) ∧
      Ptrs l' (ps ++ (added cs rs).map Prod.fst)
  | [], l, ps, h, hl, hbi, hb, hs, hn, hx => ⟨l, [], by simp [addDups, added, pure_eq_ok], rfl, by simp, by simpa [added] using hl⟩
  | c :: cs, l, ps, h, hl, hbi, hb, hs, hn, hx => by
    simp only [List.length_cons] at hb
    have hfresh : ∀ x, c.2.1 = some x → x < 2^64 ∧ x ∉ h.map Prod.fst := by
      intro x hc
      refine ⟨hx x (by simp [hc]), fun hmem => ?_⟩
      exact (List.nodup_append.1 hn).2.2 x (by simp [hc]) x hmem rfl
    have htail : (cs.filterMap (fun c => c.2.1)).Sublist ((c :: cs).filterMap (fun c => c.2.1)) :=
      (List.sublist_cons_self c cs).filterMap _
    have hx' : ∀ x ∈ cs.filterMap (fun c => c.2.1), x < 2^64 := fun x hx1 => hx x (htail.subset hx1)
    rcases add_dup_spec hl hbi (by omega) h c.2.1 c.2.2 c.1 (hs c (by simp)) hfresh with
      ⟨l1, x, e1, e2, e3, e4⟩ | ⟨e1, e2⟩
    · have hc1 : l1.count = l.count + 1 := by rw [e3.count, hl.count]; simp
      obtain ⟨l', rs, r1, r2, r3, r4⟩ := addDups_spec cs l1 (ps ++ [x]) ((x, cstr c.1 ++ [0]) :: h) e3 (by omega)
        (by rw [hc1, e4]; omega) (fun c hc => hs c (by simp [hc]))
        (by
          rw [List.filterMap_cons_some (by exact e1)] at hn
          simp only [List.cons_append] at hn
          have := List.nodup_cons.1 hn
          rw [List.map_cons]
          exact (List.perm_middle.nodup_iff).2 (List.nodup_cons.2 this)) hx'
      refine ⟨l', 1 :: rs, ?_, by simp [r2], ?_, ?_⟩
      · unfold addDups
        rw [e2]
        simp only [ok_bind]
        rw [r1]
        simp only [ok_bind, pure_eq_ok]
        simp [added, e1]
      · intro i h1 h2
        cases i with
        | zero => left; simp [e1]
        | succ i => simpa using r3 i (by simpa using h1) (by simpa using h2)
      · have : added (c :: cs) (1 :: rs) = (x, cstr c.1) :: added cs rs := by simp [added, e1]
        rw [this]
        simpa using r4
    · obtain ⟨l', rs, r1, r2, r3, r4⟩ := addDups_spec cs l ps h hl hbi (by omega) (fun c hc => hs c (by simp [hc]))
        (hn.sublist (List.Sublist.append htail (List.Sublist.refl _))) hx'
      have hadd : added (c :: cs) (0 :: rs) = added cs rs := by simp [added]
      refine ⟨l', 0 :: rs, ?_, by simp [r2], ?_, ?_⟩
      · unfold addDups
        rw [e2]
        simp only [ok_bind]
        rw [r1]
        simp only [ok_bind, pure_eq_ok, hadd]
      · intro i h1 h2
        cases i with
        | zero => right; exact ⟨rfl, e1⟩
        | succ i => simpa using r3 i (by simpa using h1) (by simpa using h2)
      · rw [hadd]; exact r4

theorem foreachLoop_spec {l : SB} {ps} (h : Ptrs l ps) (hb : l.count * 8 < 2^64) : ∀ fuel i, i ≤ ps.length →
    ps.length - i < fuel → foreachLoop l fuel i (ps[i]?.getD 0) = .ok (ps.drop i, 0)
  | 0, i, _, hf => by omega
  | fuel + 1, i, hi, hf => by
    unfold foreachLoop
    rw [h.count]
    by_cases hlt : i < ps.length
    · rw [if_pos hlt]
      have : foreachGet l (i + 1) = .ok (ps[i + 1]?.getD 0) := by
        unfold foreachGet
        rw [if_pos (by rw [h.count]; omega), get_ptrs h hb]
      rw [this]
      simp only [ok_bind]
      rw [foreachLoop_spec h hb fuel (i + 1) (by omega) (by omega)]
      simp only [ok_bind, pure_eq_ok]
      rw [List.drop_eq_getElem_cons hlt]
      simp [hlt]
    · rw [if_neg hlt]
      have : i = ps.length := by omega
      subst this
      simp [pure_eq_ok]

theorem mapM_items {α β : Type} (f : Nat → C β) (g : Nat → β) : ∀ (xs : List Nat), (∀ i ∈ xs, f i = .ok (g i)) →
    xs.mapM f = .ok (xs.map g)
  | [], _ => rfl
  | x :: xs, h => by
    rw [List.mapM_cons, h x (by simp)]
    simp only [ok_bind]
    rw [mapM_items (α := α) f g xs (fun i hi => h i (by simp [hi]))]
    rfl

theorem sort_spec {l : SB} {xs} (h : Rep l xs) (hb : l.count * l.itemsize < 2^64)
    {qs : (List Byte → List Byte → Int) → List (List Byte) → List (List Byte)} (hq : QsortOk qs)
    (cmp : List Byte → List Byte → Int) (hc : TotalPreorder cmp) :
    ∃ l', sort qs l cmp = .ok l' ∧ Rep l' (qs cmp xs) ∧ l'.itemsize = l.itemsize ∧ l'.blockitems = l.blockitems ∧
      l'.capa = l.capa := by
  obtain ⟨slack, b1, b2⟩ := h.buf
  obtain ⟨q1, q2⟩ := hq cmp xs hc
  have hlen : (qs cmp xs).length = xs.length := q1.length_eq
  have hitem : ∀ x ∈ qs cmp xs, x.length = l.itemsize := fun x hx => h.item x (q1.mem_iff.1 hx)
  have hm : (List.range l.count).mapM (fun i => rdN l.items (i * l.itemsize) l.itemsize) = .ok xs := by
    rw [mapM_items (α := Unit) _ (fun i => xs[i]?.getD [])]
    · congr 1
      rw [h.count]
      apply List.ext_getElem
      · simp
      · intro i h1 h2
        simp [List.getElem?_eq_getElem h2]
    · intro i hi
      have hi : i < l.count := List.mem_range.1 hi
      have hi' : i < xs.length := by rw [← h.count]; exact hi
      have := Sblist.deref_get h hb hi'
      simp only [Sblist.get, hi, if_true, Sblist.deref] at this
      rw [szt_of_lt (mul_lt_of hb (by omega))] at this
      rw [this, List.getElem?_eq_getElem hi']
      rfl
  have hf1 : (qs cmp xs).flatten.length = xs.length * l.itemsize := by
    rw [flatten_length hitem, hlen]
  have hf2 : xs.flatten.length = xs.length * l.itemsize := flatten_length h.item
  unfold sort
  rw [hm]
  simp only [ok_bind]
  have hw : wrN l.items 0 (qs cmp xs).flatten = .ok ((qs cmp xs).flatten ++ slack) := by
    unfold wrN
    rw [if_pos (by rw [b1, List.length_append]; omega)]
    congr 1
    unfold put
    rw [b1]
    simp only [List.take_zero, List.nil_append, Nat.zero_add]
    rw [hf1, ← hf2, List.drop_left]
  rw [hw]
  exact ⟨_, rfl, ⟨h.isz, by rw [hlen]; exact h.count, hitem, h.capa, slack, rfl, b2⟩, rfl, rfl, rfl⟩

end Ulz.Stringlist
