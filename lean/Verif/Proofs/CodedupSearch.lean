import Verif.Proofs.Codedup
/-! The search of codedup, and what it prints. -/
namespace Ulz.Codedup
open Spec

/-- All of the duplicates of line `i` are found, apart from those that are skipped. -/
def Found (L : List (List Byte)) (bl i : Nat) (D : List Item) : Prop :=
  ∀ j', i + bl ≤ j' → j' + bl < L.length → (∃ x ∈ D, x.lineno = j') ∨ ¬ Same L i j' bl ∨
    ∃ j0 h0, i + bl ≤ j0 ∧ j0 < j' ∧ j' < j0 + h0 ∧ i + h0 ≤ j0 ∧ Same L i j0 h0 ∧
      (h0 < bl ∨ ∃ x ∈ D, x.lineno = j0 ∧ x.dupes = h0)

/-- What is true of an entry of the map. -/
def Entry (L : List (List Byte)) (bl : Nat) (e : Nat × List Item) : Prop :=
  e.2 ≠ [] ∧ e.2.Pairwise Before ∧
  (∀ x ∈ e.2, x.lineno + bl < L.length ∧ bl ≤ x.dupes ∧ Maximal L e.1 x.lineno x.dupes) ∧
  (∀ x ∈ e.2, ∀ y ∈ e.2, x.lineno < y.lineno → x.lineno + x.dupes ≤ y.lineno) ∧ Found L bl e.1 e.2

theorem texts_length (ls : Ls) : (texts ls).length = ls.length := by simp [texts]

theorem iLoop_spec {ls : Ls} (hh : Hashed ls) {bl : Nat} (hbl : 1 ≤ bl) : ∀ fuel i m, ls.length - i < fuel →
    (∀ e ∈ m, e.1 < i) → ∃ M : Map, iLoop ls bl fuel i m = .ok (m ++ M) ∧
      (∀ e ∈ M, i ≤ e.1 ∧ Entry (texts ls) bl e) ∧
      M.Pairwise (fun a b => a.1 + longestOf a.2 0 ≤ b.1) ∧
      ∀ i', i ≤ i' → i' < ls.length → (∃ e ∈ M, e.1 < i' ∧ i' < e.1 + longestOf e.2 0) ∨ (∃ e ∈ M, e.1 = i') ∨
        Found (texts ls) bl i' []
  | 0, i, m, hf, _ => by omega
  | fuel + 1, i, m, hf, hm => by
    unfold iLoop
    by_cases hc : i < ls.length
    · rw [if_pos hc]
      obtain ⟨E, q1, q2, q3, q4⟩ := jLoop_spec hh bl i (ls.length + 1) (i + bl) m 0 0 (Nat.le_refl _) (by omega)
      rw [q1]
      have hnew : ∀ e ∈ m, e.1 ≠ i := fun e he => by have := hm e he; omega
      rw [recordAll_new hnew]
      simp only [ok_bind, Nat.zero_add]
      by_cases hE : E = []
      · subst hE
        rw [if_pos rfl]
        simp only [List.length_nil, ne_eq, not_true, if_false]
        obtain ⟨M, r1, r2, r3, r4⟩ := iLoop_spec hh hbl fuel (i + 1) m (by omega) (fun e he => by have := hm e he; omega)
        refine ⟨M, r1, fun e he => ?_, r3, fun i' hi hn => ?_⟩
        · obtain ⟨a, b⟩ := r2 e he
          exact ⟨by omega, b⟩
        · by_cases hii : i' = i
          · subst hii
            refine .inr (.inr ?_)
            intro j' h1 h2
            exact q4 j' h1 (by rwa [texts_length] at h2)
          · exact r4 i' (by omega) hn
      · rw [if_neg hE, if_pos (by simpa using hE)]
        have hnd : (E.map Item.lineno).Nodup := by
          rw [List.Nodup, List.pairwise_map]
          exact q3.imp fun h => by omega
        obtain ⟨s1, s2⟩ := sortAll_spec E [] .nil hnd (by simp)
        rw [List.append_nil] at s1
        have hlong : longestOf E 0 = longestOf (sortAll E []) 0 := longestOf_perm s1.symm
        have hpos : bl ≤ longestOf E 0 := by
          obtain ⟨x, hx⟩ := List.exists_mem_of_ne_nil E hE
          have h1 := (longestOf_le E 0).2.1 x hx
          have h2 := (q2 x hx).2.2.1
          omega
        obtain ⟨M, r1, r2, r3, r4⟩ := iLoop_spec hh hbl fuel (i + longestOf E 0) (m ++ [(i, sortAll E [])])
          (by omega) (fun e he => by
            rcases List.mem_append.1 he with he | he
            · have := hm e he; omega
            · rw [List.mem_singleton.1 he]; simp only; omega)
        refine ⟨(i, sortAll E []) :: M, ?_, ?_, ?_, ?_⟩
        · rw [r1]; simp
        · intro e he
          rcases List.mem_cons.1 he with rfl | he
          · refine ⟨Nat.le_refl _, ?_, s2, ?_, ?_, ?_⟩
            · intro h
              simp only at h
              rw [h] at s1
              exact hE (s1.symm.eq_nil)
            · intro x hx
              obtain ⟨_, a⟩ := q2 x (s1.mem_iff.1 hx)
              rw [texts_length]
              exact a
            · intro x hx y hy hxy
              have hx := s1.mem_iff.1 hx
              have hy := s1.mem_iff.1 hy
              obtain ⟨a, ha, hax⟩ := List.getElem_of_mem hx
              obtain ⟨b, hb, hby⟩ := List.getElem_of_mem hy
              rcases Nat.lt_trichotomy a b with h | h | h
              · have := List.pairwise_iff_getElem.1 q3 a b ha hb h
                rw [hax, hby] at this; omega
              · subst h; rw [hax] at hby; subst hby; omega
              · have := List.pairwise_iff_getElem.1 q3 b a hb ha h
                rw [hax, hby] at this; omega
            · intro j' h1 h2
              rcases q4 j' h1 (by rwa [texts_length] at h2) with ⟨x, hx, h⟩ | h | ⟨j0, h0, z1, z2, z3, z4, z5, z6⟩
              · exact .inl ⟨x, s1.mem_iff.2 hx, h⟩
              · exact .inr (.inl h)
              · refine .inr (.inr ⟨j0, h0, z1, z2, z3, z4, z5, ?_⟩)
                rcases z6 with z6 | ⟨x, hx, z6⟩
                · exact .inl z6
                · exact .inr ⟨x, s1.mem_iff.2 hx, z6⟩
          · obtain ⟨a, b⟩ := r2 e he
            exact ⟨by omega, b⟩
        · refine List.pairwise_cons.2 ⟨fun e he => ?_, r3⟩
          have := (r2 e he).1
          rw [← hlong]; exact this
        · intro i' hi hn
          by_cases hii : i' = i
          · exact .inr (.inl ⟨_, List.mem_cons_self, hii.symm⟩)
          · rcases Nat.lt_or_ge i' (i + longestOf E 0) with hlt | hge
            · exact .inl ⟨_, List.mem_cons_self, by simp only; omega, by rw [← hlong]; exact hlt⟩
            · rcases r4 i' hge hn with ⟨e, he, h⟩ | ⟨e, he, h⟩ | h
              · exact .inl ⟨e, by simp [he], h⟩
              · exact .inr (.inl ⟨e, by simp [he], h⟩)
              · exact .inr (.inr h)
    · rw [if_neg hc]
      exact ⟨[], by simp, by simp, .nil, fun i' h1 h2 => by omega⟩

/-! ### Collecting and printing -/

/-- The entry of the sorted list. -/
def toItem (e : Nat × List Item) : Item := ⟨longestOf e.2 0, e.1⟩

theorem collect_spec : ∀ (m : Map) (si : List Item), (∀ e ∈ m, e.2 ≠ [] ∧ e.2.Pairwise Before) →
    collect m si = .ok (some (sortAll (m.map toItem) si))
  | [], si, _ => rfl
  | e :: m, si, h => by
    unfold collect
    obtain ⟨h1, h2⟩ := h e (by simp)
    cases hd : e.2 with
    | nil => exact absurd hd h1
    | cons x xs =>
      simp only
      rw [if_pos (by rw [hd] at h2; exact longestOf_sorted h2), collect_spec m _ (fun e he => h e (by simp [he]))]
      simp only [sortAll, List.map_cons, List.foldl_cons, toItem, hd]

theorem decimal_eq (n : Nat) : decimal n = Numbers.Spec.dec n := by
  induction n using Nat.strongRecOn with
  | ind n ih =>
    unfold Numbers.Spec.dec
    rw [decimal, Numbers.Spec.digitsOf]
    by_cases h : n < 10
    · rw [if_pos h, dif_pos h]; rfl
    · rw [if_neg h, dif_neg h, List.map_append, ih (n / 10) (by omega)]; rfl

theorem printNumbers_eq (start : Nat) : ∀ D : List Item, D ≠ [] →
    printNumbers start D = commas ((D.map Item.lineno).map (start + ·)) ++ bytes! ")\n"
  | [], h => absurd rfl h
  | [x], _ => by simp [printNumbers, commas, decimal_eq]
  | x :: y :: D, _ => by
    rw [printNumbers, printNumbers_eq start (y :: D) (by simp), if_neg (by simp), decimal_eq]
    simp only [List.map_cons, commas, List.append_assoc]

theorem printLines_eq {ls : Ls} (l : Nat) : ∀ n j, l + j + n ≤ ls.length →
    printLines ls l n j = .ok ((((texts ls).drop (l + j)).take n).flatMap (· ++ bytes! "\n"))
  | 0, j, _ => by simp [printLines]
  | n + 1, j, h => by
    unfold printLines
    rw [at_spec (by omega), printLines_eq l n (j + 1) (by omega)]
    simp only [ok_bind, pure_eq_ok]
    congr 1
    have hlt : l + j < (texts ls).length := by rw [texts_length]; omega
    rw [List.drop_eq_getElem_cons hlt, List.take_succ_cons, List.flatMap_cons]
    simp only [texts, List.getElem_map]
    rfl

theorem countFull_eq (d : Nat) : ∀ D : List Item, D.Pairwise Before → (∀ x ∈ D, x.dupes ≤ d) →
    D.take (countFull d D) = D.filter (fun x => x.dupes = d) ∧ countFull d D = (D.filter (fun x => x.dupes = d)).length
  | [], _, _ => by simp [countFull]
  | x :: D, hs, hd => by
    obtain ⟨h1, h2⟩ := List.pairwise_cons.1 hs
    have hx := hd x (by simp)
    unfold countFull
    by_cases hc : x.dupes < d
    · rw [if_pos hc]
      have : (x :: D).filter (fun x => x.dupes = d) = [] := by
        rw [List.filter_eq_nil_iff]
        intro y hy
        rcases List.mem_cons.1 hy with rfl | hy
        · simp; omega
        · have := h1 y hy
          unfold Before at this
          simp; omega
      rw [this]; simp
    · rw [if_neg hc]
      obtain ⟨i1, i2⟩ := countFull_eq d D h2 (fun y hy => hd y (by simp [hy]))
      have hxd : x.dupes = d := by omega
      rw [List.filter_cons_of_pos (by simpa using hxd), List.take_succ_cons, i1]
      refine ⟨rfl, ?_⟩
      rw [i2]; rfl

/-- The report of an entry of the map. -/
def toReport (e : Nat × List Item) : Report :=
  ⟨longestOf e.2 0, e.1, (e.2.filter (fun x => x.dupes = longestOf e.2 0)).map Item.lineno⟩

/-- The copies of full length are not empty. -/
theorem full_ne {D : List Item} (h : D ≠ []) (hs : D.Pairwise Before) :
    D.filter (fun x => x.dupes = longestOf D 0) ≠ [] := by
  cases D with
  | nil => exact absurd rfl h
  | cons x xs =>
    rw [longestOf_sorted hs, List.filter_cons_of_pos (by simp)]
    simp

theorem report_spec {ls : Ls} {bl : Nat} (start : Nat) {m : Map} (hn : (m.map Prod.fst).Nodup)
    (he : ∀ e ∈ m, Entry (texts ls) bl e) : ∀ es : List (Nat × List Item), (∀ e ∈ es, e ∈ m) →
    report ls start m (es.map toItem) = .ok ((es.map toReport).flatMap (render (texts ls) start))
  | [], _ => rfl
  | e :: es, hes => by
    have hm : e ∈ m := hes e (by simp)
    obtain ⟨h1, h2, h3, _⟩ := he e hm
    rw [List.map_cons, report]
    simp only [toItem]
    rw [find_mem hn hm]
    simp only
    have hr := report_spec start hn he es (fun e' h' => hes e' (by simp [h']))
    have hl := longestOf_sorted (x := e.2.head h1) (xs := e.2.tail) (by rw [List.cons_head_tail]; exact h2)
    rw [List.cons_head_tail] at hl
    obtain ⟨x1, x2, x3⟩ := h3 (e.2.head h1) (List.head_mem h1)
    have hd1 := x3.1.1
    have hd2 := x3.1.2.1
    rw [texts_length] at hd2
    rw [printLines_eq e.1 (longestOf e.2 0) 0 (by omega), hr]
    simp only [ok_bind, pure_eq_ok]
    obtain ⟨c1, c2⟩ := countFull_eq (longestOf e.2 0) e.2 h2 (longestOf_le e.2 0).2.1
    rw [c1, printNumbers_eq start _ (full_ne h1 h2), c2]
    simp only [decimal_eq, List.map_cons, List.flatMap_cons, render, toReport, List.append_assoc, List.length_map, Nat.add_zero]

theorem map_sortAll_toItem : ∀ (es : List (Nat × List Item)), ∃ es' : List (Nat × List Item),
    es'.Perm es ∧ sortAll (es.map toItem) [] = es'.map toItem := by
  intro es
  have ins : ∀ (e : Nat × List Item) (as : List (Nat × List Item)), ∃ as' : List (Nat × List Item), as'.Perm (e :: as) ∧
      insertSorted (toItem e) (as.map toItem) = as'.map toItem := by
    intro e as
    induction as with
    | nil => exact ⟨[e], .refl _, rfl⟩
    | cons a as ih =>
      rw [List.map_cons, insertSorted]
      split
      · obtain ⟨as', h1, h2⟩ := ih
        exact ⟨a :: as', (h1.cons a).trans (.swap ..), by rw [h2]; rfl⟩
      · exact ⟨e :: a :: as, .refl _, rfl⟩
  have gen : ∀ (es acc : List (Nat × List Item)), ∃ es' : List (Nat × List Item), es'.Perm (es ++ acc) ∧
      sortAll (es.map toItem) (acc.map toItem) = es'.map toItem := by
    intro es
    induction es with
    | nil => exact fun acc => ⟨acc, .refl _, rfl⟩
    | cons e es ih =>
      intro acc
      obtain ⟨acc', h1, h2⟩ := ins e acc
      obtain ⟨es', h3, h4⟩ := ih acc'
      refine ⟨es', h3.trans ((h1.append_left es).trans List.perm_middle), ?_⟩
      rw [← h4]
      simp only [sortAll, List.map_cons, List.foldl_cons]
      rw [h2]
  obtain ⟨es', h1, h2⟩ := gen es []
  exact ⟨es', by simpa using h1, h2⟩

/-- The search and the output together. -/
theorem search_spec {ls : Ls} (hh : Hashed ls) {bl : Nat} (hbl : 1 ≤ bl) (start : Nat) {ord : Map → Map} (ho : Visits ord)
    {fuel : Nat} (hf : ls.length < fuel) : ∃ (m es : Map) (si : List Item), iLoop ls bl fuel 0 [] = .ok m ∧ collect (ord m) [] = .ok (some si) ∧
      report ls start m si = .ok ((es.map toReport).flatMap (render (texts ls) start)) ∧ es.Perm m ∧
      (es.map toItem).Pairwise Before ∧
      (∀ e ∈ m, Entry (texts ls) bl e) ∧ m.Pairwise (fun a b => a.1 + longestOf a.2 0 ≤ b.1) ∧
      ∀ i, i < ls.length → (∃ e ∈ m, e.1 < i ∧ i < e.1 + longestOf e.2 0) ∨ (∃ e ∈ m, e.1 = i) ∨ Found (texts ls) bl i [] := by
  obtain ⟨m, r1, r2, r3, r4⟩ := iLoop_spec hh hbl fuel 0 [] (by omega) (by simp)
  rw [List.nil_append] at r1
  have hp := ho m
  obtain ⟨es, e1, e2⟩ := map_sortAll_toItem (ord m)
  have hlt : m.Pairwise (fun a b => a.1 < b.1) := by
    have : ∀ e ∈ m, 0 < longestOf e.2 0 := by
      intro e he
      obtain ⟨_, h1, _, h3, _⟩ := r2 e he
      obtain ⟨x, hx⟩ := List.exists_mem_of_ne_nil _ h1
      have := (longestOf_le e.2 0).2.1 x hx
      have := (h3 x hx).2.1
      omega
    refine List.pairwise_iff_forall_sublist.2 fun {a b} hs => ?_
    have h1 := List.pairwise_iff_forall_sublist.1 r3 hs
    have h2 := this a (hs.subset (by simp))
    omega
  have hnd : (m.map Prod.fst).Nodup := by
    rw [List.Nodup, List.pairwise_map]
    exact hlt.imp fun h => by omega
  have hnd' : (((ord m).map toItem).map Item.lineno).Nodup := by
    rw [List.map_map]
    exact ((hp.map Prod.fst).nodup_iff).2 hnd
  have hso := (sortAll_spec ((ord m).map toItem) [] .nil hnd' (by simp)).2
  rw [e2] at hso
  refine ⟨m, es, es.map toItem, r1, ?_, ?_, e1.trans hp, hso, fun e he => (r2 e he).2, r3, fun i hi => r4 i (by omega) hi⟩
  · rw [collect_spec (ord m) [] (fun e he => ?_), e2]
    obtain ⟨_, h1, h2, _⟩ := r2 e (hp.mem_iff.1 he)
    exact ⟨h1, h2⟩
  · exact report_spec start hnd (fun e he => (r2 e he).2) es (fun e he => (e1.trans hp).mem_iff.1 he)

/-! ### Reports -/

theorem toReport_spec {L : List (List Byte)} {bl : Nat} {e : Nat × List Item} (h : Entry L bl e) :
    bl ≤ (toReport e).len ∧ (toReport e).copies ≠ [] ∧
    (∀ j ∈ (toReport e).copies, Maximal L (toReport e).line j (toReport e).len ∧ j + bl < L.length) ∧
    (toReport e).copies.Pairwise (· + (toReport e).len ≤ ·) := by
  obtain ⟨h1, h2, h3, h4, _⟩ := h
  have hne := full_ne h1 h2
  refine ⟨?_, ?_, ?_, ?_⟩
  · obtain ⟨x, hx⟩ := List.exists_mem_of_ne_nil _ hne
    obtain ⟨hx1, hx2⟩ := List.mem_filter.1 hx
    have := (h3 x hx1).2.1
    simp only [decide_eq_true_eq] at hx2
    simp only [toReport]
    omega
  · simpa [toReport] using hne
  · intro j hj
    obtain ⟨x, hx, rfl⟩ := List.mem_map.1 hj
    obtain ⟨hx1, hx2⟩ := List.mem_filter.1 hx
    simp only [decide_eq_true_eq] at hx2
    obtain ⟨a, b, c⟩ := h3 x hx1
    exact ⟨by simp only [toReport]; rw [← hx2]; exact c, a⟩
  · simp only [toReport]
    rw [List.pairwise_map]
    have hp : (e.2.filter (fun x => x.dupes = longestOf e.2 0)).Pairwise Before := h2.filter _
    refine List.pairwise_iff_forall_sublist.2 fun {a b} hs => ?_
    have hb := List.pairwise_iff_forall_sublist.1 hp hs
    obtain ⟨a1, a2⟩ := List.mem_filter.1 (hs.subset (show a ∈ [a, b] by simp))
    obtain ⟨b1, b2⟩ := List.mem_filter.1 (hs.subset (show b ∈ [a, b] by simp))
    simp only [decide_eq_true_eq] at a2 b2
    unfold Before at hb
    have := h4 a a1 b b1 (by omega)
    omega

theorem Maximal.unique {L : List (List Byte)} {i j a b : Nat} (ha : Dup L i j a) (hb : Maximal L i j b) : a ≤ b := by
  apply Nat.le_of_not_lt
  intro h
  refine hb.2 ⟨?_, ?_, fun k hk => ha.2.2 k (by omega)⟩
  · have := ha.1; omega
  · have := ha.2.1; omega

theorem skip_again {L : List (List Byte)} {i j j0 h0 len : Nat} (hl : 1 ≤ len) (hd : Same L i j len)
    (z2 : j0 < j) (z3 : j < j0 + h0) (z4 : i + h0 ≤ j0) (z5 : Same L i j0 h0) :
    0 < j - j0 ∧ 2 * (j - j0) < j - i ∧ L[i + (j - j0)]? = L[i]? := by
  refine ⟨by omega, by omega, ?_⟩
  have h1 := z5 (j - j0) (by omega)
  have h2 := hd 0 (by omega)
  rw [show j0 + (j - j0) = j by omega] at h1
  rw [Nat.add_zero, Nat.add_zero] at h2
  rw [h1, h2]

end Ulz.Codedup
