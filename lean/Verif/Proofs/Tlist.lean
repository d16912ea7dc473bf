import Verif.Spec.Tlist
import Verif.Proofs.Mem
set_option linter.unusedSimpArgs false
set_option linter.unusedVariables false
namespace Ulz.Tlist
open Spec Spec.Tr

/-! ### Pure trees -/

def mergeT : Tr → Tr → Tr
  | .nil, r => r
  | .node a p d l r, .nil => .node a p d l r
  | .node a p d l r, .node a' p' d' l' r' =>
    if p > p' then .node a p d l (mergeT r (.node a' p' d' l' r'))
    else .node a' p' d' (mergeT (.node a p d l r) l') r'
  termination_by L R => L.size + R.size
  decreasing_by all_goals simp only [size]; omega

theorem rootA_node (a p d l r) : (Tr.node a p d l r).rootA = a := rfl

theorem mergeT_nil_left (R : Tr) : mergeT .nil R = R := by rw [mergeT.eq_def]
theorem mergeT_nil_right (L : Tr) : mergeT L .nil = L := by cases L <;> rw [mergeT.eq_def]
theorem mergeT_node (a p d l r a' p' d' l' r') :
    mergeT (.node a p d l r) (.node a' p' d' l' r') =
      if p > p' then .node a p d l (mergeT r (.node a' p' d' l' r'))
      else .node a' p' d' (mergeT (.node a p d l r) l') r' := by rw [mergeT.eq_def]

theorem addrs_length (T : Tr) : T.addrs.length = T.size := by
  induction T with
  | nil => rfl
  | node a p d l r ihl ihr => simp [addrs, size, ihl, ihr]; omega

theorem items_length (T : Tr) : T.items.length = T.size := by
  induction T with
  | nil => rfl
  | node a p d l r ihl ihr => simp [items, size, ihl, ihr]; omega

theorem mergeT_lists (L R : Tr) : (mergeT L R).addrs = L.addrs ++ R.addrs ∧ (mergeT L R).items = L.items ++ R.items := by
  fun_induction mergeT L R with
  | case1 => simp [addrs, items]
  | case2 => simp [addrs, items]
  | case3 a p d l r a' p' d' l' r' h ih => simp [addrs, items, ih]
  | case4 a p d l r a' p' d' l' r' h ih => simp [addrs, items, ih]

theorem mergeT_size (L R : Tr) : (mergeT L R).size = L.size + R.size := by
  rw [← addrs_length, (mergeT_lists L R).1]; simp [addrs_length]

theorem mergeT_rootLe (L R : Tr) (p : Nat) (h1 : L.rootLe p) (h2 : R.rootLe p) : (mergeT L R).rootLe p := by
  fun_cases mergeT L R with
  | case1 => exact h2
  | case2 => exact h1
  | case3 => exact h1
  | case4 => exact h2

theorem mergeT_ord (L R : Tr) (h1 : L.Prio) (h2 : R.Prio) : (mergeT L R).Prio := by
  fun_induction mergeT L R with
  | case1 => exact h2
  | case2 => exact h1
  | case3 a p d l r a' p' d' l' r' h ih =>
    simp only [Prio] at h1 ⊢
    exact ⟨h1.1, mergeT_rootLe _ _ _ h1.2.1 (by simp [rootLe]; omega), h1.2.2.1, ih h1.2.2.2 h2⟩
  | case4 a p d l r a' p' d' l' r' h ih =>
    simp only [Prio] at h2 ⊢
    exact ⟨mergeT_rootLe _ _ _ (by simp [rootLe]; omega) h2.1, h2.2.1, ih h1 h2.2.2.1, h2.2.2.2⟩

def splitT : Tr → Nat → Nat → Tr × Tr
  | .nil, _, _ => (.nil, .nil)
  | .node a p d l r, key, add =>
    if key ≤ add + l.size then
      ((splitT l key add).1, .node a p d (splitT l key add).2 r)
    else (.node a p d l (splitT r key (add + 1 + l.size)).1, (splitT r key (add + 1 + l.size)).2)

theorem splitT_append (T : Tr) : ∀ key add, (splitT T key add).1.addrs ++ (splitT T key add).2.addrs = T.addrs ∧
    (splitT T key add).1.items ++ (splitT T key add).2.items = T.items := by
  induction T with
  | nil => intros; simp [splitT, addrs, items]
  | node a p d l r ihl ihr =>
    intro key add
    simp only [splitT]
    split
    · have := ihl key add
      simp only [addrs, items]
      rw [← List.append_assoc, ← List.append_assoc, this.1, this.2]; simp
    · have := ihr key (add + 1 + l.size)
      simp only [addrs, items]
      rw [List.append_assoc, List.cons_append, this.1, List.append_assoc, List.cons_append, this.2]; simp

theorem splitT_size1 (T : Tr) : ∀ key add, add ≤ key → key ≤ add + T.size → (splitT T key add).1.size = key - add := by
  induction T with
  | nil => intro key add h1 h2; simp [size] at h2; simp [splitT, size]; omega
  | node a p d l r ihl ihr =>
    intro key add h1 h2
    simp only [splitT]
    simp only [size] at h2
    split
    · exact ihl key add h1 (by omega)
    · simp only [size]
      rw [ihr key _ (by omega) (by omega)]; omega

theorem splitT_size (T : Tr) (key add : Nat) : (splitT T key add).1.size + (splitT T key add).2.size = T.size := by
  rw [← addrs_length, ← addrs_length, ← List.length_append, (splitT_append T key add).1, addrs_length]

theorem splitT_rootLe (T : Tr) (q : Nat) : ∀ key add, T.Prio → T.rootLe q →
    (splitT T key add).1.rootLe q ∧ (splitT T key add).2.rootLe q := by
  induction T with
  | nil => intros; simp [splitT, rootLe]
  | node a p d l r ihl ihr =>
    intro key add ho hq
    simp only [Prio] at ho
    simp only [splitT]
    have trans : ∀ X : Tr, X.rootLe p → X.rootLe q := by
      intro X hX; cases X with
      | nil => trivial
      | node => exact Nat.le_trans hX hq
    split
    · exact ⟨(ihl key add ho.2.2.1 (trans _ ho.1)).1, hq⟩
    · exact ⟨hq, (ihr key _ ho.2.2.2 (trans _ ho.2.1)).2⟩

theorem splitT_ord (T : Tr) : ∀ key add, T.Prio → (splitT T key add).1.Prio ∧ (splitT T key add).2.Prio := by
  induction T with
  | nil => intros; simp [splitT, Prio]
  | node a p d l r ihl ihr =>
    intro key add ho
    have ho' := ho
    simp only [Prio] at ho
    simp only [splitT]
    split
    · have := ihl key add ho.2.2.1
      exact ⟨this.1, (splitT_rootLe l p key add ho.2.2.1 ho.1).2, ho.2.1, this.2, ho.2.2.2⟩
    · have := ihr key (add + 1 + l.size) ho.2.2.2
      exact ⟨⟨ho.1, (splitT_rootLe r p _ _ ho.2.2.2 ho.2.1).1, ho.2.2.1, this.1⟩, this.2⟩

def removeT : Tr → Nat → Nat → Tr
  | .nil, _, _ => .nil
  | .node a p d l r, idx, add =>
    if add + l.size = idx then mergeT l r
    else if add + l.size < idx then .node a p d l (removeT r idx (add + l.size + 1))
    else .node a p d (removeT l idx add) r

theorem removeT_lists (T : Tr) : ∀ idx add, add ≤ idx → idx < add + T.size →
    (removeT T idx add).addrs = T.addrs.eraseIdx (idx - add) ∧
    (removeT T idx add).items = T.items.eraseIdx (idx - add) := by
  induction T with
  | nil => intro idx add h1 h2; simp [size] at h2; omega
  | node a p d l r ihl ihr =>
    intro idx add h1 h2
    simp only [size] at h2
    simp only [removeT]
    split
    · rename_i he
      have e1 : idx - add = l.size := by omega
      rw [(mergeT_lists l r).1, (mergeT_lists l r).2, e1]
      simp only [addrs, items]
      constructor
      · rw [List.eraseIdx_append_of_length_le (by rw [addrs_length]; omega), addrs_length]; simp
      · rw [List.eraseIdx_append_of_length_le (by rw [items_length]; omega), items_length]; simp
    · split
      · have := ihr idx (add + l.size + 1) (by omega) (by omega)
        simp only [addrs, items, this.1, this.2]
        constructor
        · rw [List.eraseIdx_append_of_length_le (by rw [addrs_length]; omega), addrs_length,
            show idx - add - l.size = (idx - (add + l.size + 1)) + 1 by omega, List.eraseIdx_cons_succ]
        · rw [List.eraseIdx_append_of_length_le (by rw [items_length]; omega), items_length,
            show idx - add - l.size = (idx - (add + l.size + 1)) + 1 by omega, List.eraseIdx_cons_succ]
      · have := ihl idx add (by omega) (by omega)
        simp only [addrs, items, this.1, this.2]
        constructor
        · rw [List.eraseIdx_append_of_lt_length (by rw [addrs_length]; omega)]
        · rw [List.eraseIdx_append_of_lt_length (by rw [items_length]; omega)]

theorem removeT_size (T : Tr) (idx add : Nat) (h1 : add ≤ idx) (h2 : idx < add + T.size) :
    (removeT T idx add).size = T.size - 1 := by
  rw [← addrs_length, (removeT_lists T idx add h1 h2).1, List.length_eraseIdx, addrs_length, if_pos (by omega)]

theorem rootLe_trans {X : Tr} {p q : Nat} (h : X.rootLe p) (hpq : p ≤ q) : X.rootLe q := by
  cases X with
  | nil => trivial
  | node => exact Nat.le_trans h hpq

theorem removeT_rootLe (T : Tr) (q : Nat) (idx add : Nat) (ho : T.Prio) (hq : T.rootLe q) :
    (removeT T idx add).rootLe q := by
  cases T with
  | nil => trivial
  | node a p d l r =>
    simp only [Prio] at ho
    simp only [removeT]
    split
    · exact mergeT_rootLe _ _ _ (rootLe_trans ho.1 hq) (rootLe_trans ho.2.1 hq)
    · split <;> exact hq

theorem removeT_ord (T : Tr) : ∀ idx add, T.Prio → (removeT T idx add).Prio := by
  induction T with
  | nil => intros; trivial
  | node a p d l r ihl ihr =>
    intro idx add ho
    simp only [Prio] at ho
    simp only [removeT]
    split
    · exact mergeT_ord _ _ ho.2.2.1 ho.2.2.2
    · split
      · exact ⟨ho.1, removeT_rootLe _ _ _ _ ho.2.2.2 ho.2.1, ho.2.2.1, ihr _ _ ho.2.2.2⟩
      · exact ⟨removeT_rootLe _ _ _ _ ho.2.2.1 ho.1, ho.2.1, ihl _ _ ho.2.2.1, ho.2.2.2⟩

/-! ### Heap frames -/

/-- The cell belongs to the given cells or to a node of `A`. -/
def Cov (A : List Nat) (cs : List Cell) (c : Cell) : Prop := c ∈ cs ∨ ∃ a ∈ A, c = .left a ∨ c = .right a

/-- `h'` differs from `h` at most in counts of nodes of `A` and in covered cells. -/
structure Frame (h h' : Heap) (A : List Nat) (cs : List Cell) : Prop where
  prior : h'.prior = h.prior
  data : h'.data = h.data
  live : h'.live = h.live
  ext : h'.ext = h.ext
  cnt : ∀ a, a ∉ A → h'.cnt a = h.cnt a
  ptr : ∀ c, ¬ Cov A cs c → h'.ptr c = h.ptr c

theorem Frame.refl (h : Heap) (A cs) : Frame h h A cs := ⟨rfl, rfl, rfl, rfl, fun _ _ => rfl, fun _ _ => rfl⟩

theorem Frame.mono {h h' A cs B ds} (f : Frame h h' A cs) (h1 : ∀ a ∈ A, a ∈ B) (h2 : ∀ c ∈ cs, Cov B ds c) :
    Frame h h' B ds := by
  refine ⟨f.prior, f.data, f.live, f.ext, fun a ha => f.cnt a (fun hA => ha (h1 a hA)), fun c hc => f.ptr c ?_⟩
  rintro (hcs | ⟨a, ha, h⟩)
  · exact hc (h2 c hcs)
  · exact hc (Or.inr ⟨a, h1 a ha, h⟩)

theorem Frame.trans {h h' h'' A cs} (f : Frame h h' A cs) (g : Frame h' h'' A cs) : Frame h h'' A cs :=
  ⟨by rw [g.prior, f.prior], by rw [g.data, f.data], by rw [g.live, f.live], by rw [g.ext, f.ext],
   fun a ha => by rw [g.cnt a ha, f.cnt a ha], fun c hc => by rw [g.ptr c hc, f.ptr c hc]⟩

/-- A tree is not affected by changes outside of it. -/
theorem Has.frame {h h' A cs} (f : Frame h h' A cs) : ∀ {T : Tr}, Has h T → (∀ a ∈ T.addrs, a ∉ A) →
    (∀ a ∈ T.addrs, Cell.left a ∉ cs ∧ Cell.right a ∉ cs) → Has h' T
  | .nil, _, _, _ => trivial
  | .node a p d l r, ht, h1, h2 => by
    simp only [Has] at ht ⊢
    have ha : a ∈ (Tr.node a p d l r).addrs := by simp [addrs]
    have hl : ∀ x ∈ l.addrs, x ∈ (Tr.node a p d l r).addrs := by intro x hx; simp [addrs, hx]
    have hr : ∀ x ∈ r.addrs, x ∈ (Tr.node a p d l r).addrs := by intro x hx; simp [addrs, hx]
    obtain ⟨t1, t2, t3, t4, t5, t6, t7, t8, t9⟩ := ht
    refine ⟨t1, by rw [f.live]; exact t2, by rw [f.prior]; exact t3, by rw [f.data]; exact t4,
      by rw [f.cnt a (h1 a ha)]; exact t5, ?_, ?_, ?_, ?_⟩
    · rw [f.ptr]; exact t6
      rintro (hc | ⟨b, hb, hc⟩)
      · exact (h2 a ha).1 hc
      · rcases hc with hc | hc <;> cases hc; exact h1 a ha hb
    · rw [f.ptr]; exact t7
      rintro (hc | ⟨b, hb, hc⟩)
      · exact (h2 a ha).2 hc
      · rcases hc with hc | hc <;> cases hc; exact h1 a ha hb
    · exact Has.frame f t8 (fun x hx => h1 x (hl x hx)) (fun x hx => h2 x (hl x hx))
    · exact Has.frame f t9 (fun x hx => h1 x (hr x hx)) (fun x hx => h2 x (hr x hx))

/-- The cell is not inside one of the nodes. -/
def Free (c : Cell) (A : List Nat) : Prop := ∀ a ∈ A, c ≠ .left a ∧ c ≠ .right a

theorem cnt_has {h : Heap} {T : Tr} (ht : Has h T) : cnt h T.rootA = .ok T.size := by
  cases T with
  | nil => rfl
  | node a p d l r =>
    simp only [Has] at ht
    simp [cnt, rootA, ht.1, chk, ht.2.1, ht.2.2.2.2.1]

theorem chk_ok {h : Heap} {a : Nat} (h0 : a ≠ 0) (hl : h.live a = true) : chk h a = .ok () := by
  simp [chk, h0, hl]

theorem chkCell_frame {h h' A cs} (f : Frame h h' A cs) (c : Cell) : chkCell h' c = chkCell h c := by
  cases c <;> simp [chkCell, chk, f.live]

theorem load_ok {h : Heap} {c : Cell} (hc : chkCell h c = .ok ()) : load h c = .ok (h.ptr c) := by
  simp [load, hc]

theorem store_ok {h : Heap} {c : Cell} (v : Nat) (hc : chkCell h c = .ok ()) :
    ∃ h', store h c v = .ok h' ∧ h'.ptr c = v ∧ Frame h h' [] [c] := by
  refine ⟨{ h with ptr := upd h.ptr c v }, by simp [store, hc], by simp [upd], rfl, rfl, rfl, rfl, fun _ _ => rfl, ?_⟩
  intro c' hc'
  have : c' ≠ c := fun e => hc' (Or.inl (by simp [e]))
  simp [upd, this]

/-- `upd_cnt` on a node whose children are in place completes the tree. -/
theorem upd_cnt_ok {h : Heap} {a p : Nat} {d : List Byte} {l r : Tr} (h0 : a ≠ 0) (hl : h.live a = true)
    (hp : h.prior a = p) (hd : h.data a = d) (pl : h.ptr (.left a) = l.rootA) (pr : h.ptr (.right a) = r.rootA)
    (tl : Has h l) (tr : Has h r) (nl : a ∉ l.addrs) (nr : a ∉ r.addrs) (hs : l.size + r.size + 1 < 2^32) :
    ∃ h', upd_cnt h a = .ok h' ∧ Has h' (.node a p d l r) ∧ h'.ptr = h.ptr ∧ Frame h h' [a] [] := by
  have f : Frame h { h with cnt := upd h.cnt a (l.size + r.size + 1) } [a] [] := by
    refine ⟨rfl, rfl, rfl, rfl, ?_, fun _ _ => rfl⟩
    intro b hb
    have : b ≠ a := by simpa using hb
    simp [upd, this]
  refine ⟨{ h with cnt := upd h.cnt a (l.size + r.size + 1) }, ?_, ?_, rfl, f⟩
  · unfold upd_cnt
    rw [if_pos h0, load_ok (by simp [chkCell, chk, h0, hl]), load_ok (by simp [chkCell, chk, h0, hl]), pl, pr]
    simp only [ok_bind, cnt_has tl, cnt_has tr]
    rw [u32, Nat.mod_eq_of_lt hs]
    rfl
  · simp only [Has]
    exact ⟨h0, hl, hp, hd, by simp [upd, size], pl, pr,
      Has.frame f tl (by intro b hb; simp; intro e; subst e; exact nl hb) (by simp),
      Has.frame f tr (by intro b hb; simp; intro e; subst e; exact nr hb) (by simp)⟩

/-- `upd_cnt` on a complete tree changes nothing that matters. -/
theorem upd_cnt_has {h : Heap} {T : Tr} (ht : Has h T) (hn : T.addrs.Nodup) (hs : T.size < 2^32) :
    ∃ h', upd_cnt h T.rootA = .ok h' ∧ Has h' T ∧ h'.ptr = h.ptr ∧ Frame h h' T.addrs [] := by
  cases T with
  | nil => exact ⟨h, by simp [upd_cnt, rootA, pure_eq_ok], trivial, rfl, Frame.refl _ _ _⟩
  | node a p d l r =>
    simp only [Has] at ht
    obtain ⟨t1, t2, t3, t4, t5, t6, t7, t8, t9⟩ := ht
    simp only [addrs, List.nodup_append, List.nodup_cons] at hn
    obtain ⟨h', e1, e2, e3, e4⟩ := upd_cnt_ok t1 t2 t3 t4 t6 t7 t8 t9
      (fun hm => (hn.2.2 a hm a (by simp)) rfl) hn.2.1.1 hs
    exact ⟨h', e1, e2, e3, e4.mono (by simp [addrs]) (by simp)⟩

theorem merge_spec : ∀ fuel h t L R, Has h L → Has h R → (L.addrs ++ R.addrs).Nodup →
    Free t (L.addrs ++ R.addrs) → chkCell h t = .ok () → L.size + R.size < fuel → L.size + R.size < 2^32 →
    ∃ h', merge fuel h t L.rootA R.rootA = .ok h' ∧ h'.ptr t = (mergeT L R).rootA ∧ Has h' (mergeT L R) ∧
      Frame h h' (L.addrs ++ R.addrs) [t] := by
  intro fuel
  induction fuel with
  | zero => intro h t L R _ _ _ _ _ hf; omega
  | succ fuel ih =>
    intro h t L R hL hR hnd hfree hchk hf hsz
    -- the case where one side is empty
    have base : ∀ T : Tr, T.addrs = L.addrs ++ R.addrs → Has h T → T.size < 2^32 →
        (if L.rootA = 0 ∨ R.rootA = 0 then store h t (if L.rootA ≠ 0 then L.rootA else R.rootA) else
          (.error .hang : C Heap)) = store h t T.rootA →
        (L.rootA = 0 ∨ R.rootA = 0) →
        ∃ h', merge (fuel + 1) h t L.rootA R.rootA = .ok h' ∧ h'.ptr t = T.rootA ∧ Has h' T ∧
          Frame h h' (L.addrs ++ R.addrs) [t] := by
      intro T hTa hT hTs he h0
      obtain ⟨h1, s1, s2, s3⟩ := store_ok T.rootA hchk
      have hT1 : Has h1 T := Has.frame s3 hT (by simp) (by
        intro a ha
        rw [hTa] at ha
        have := hfree a ha
        exact ⟨by simp; exact fun e => this.1 e.symm, by simp; exact fun e => this.2 e.symm⟩)
      obtain ⟨h2, u1, u2, u3, u4⟩ := upd_cnt_has hT1 (by rw [hTa]; exact hnd) hTs
      refine ⟨h2, ?_, by rw [u3, s2], u2, ?_⟩
      · unfold merge
        rw [if_pos h0] at he ⊢
        rw [he, s1]
        simp only [ok_bind]
        rw [load_ok (by rw [chkCell_frame s3]; exact hchk), s2]
        simp only [ok_bind]
        exact u1
      · exact (s3.mono (by simp) (by intro c hc; exact Or.inl hc)).trans
          (u4.mono (by rw [hTa]; simp) (by simp))
    cases L with
    | nil =>
      rw [mergeT_nil_left]
      exact base R (by simp [addrs]) hR (by simp [size] at hsz; exact hsz) (by simp [rootA]) (by simp [rootA])
    | node a p d l r =>
      have ha0 : a ≠ 0 := by simp only [Has] at hL; exact hL.1
      cases R with
      | nil =>
        rw [mergeT_nil_right]
        exact base (.node a p d l r) (by simp [addrs]) hL (by simp [size] at hsz ⊢; omega) (by simp [rootA, ha0])
          (by simp [rootA])
      | node a' p' d' l' r' =>
        have hL0 := hL
        have hR0 := hR
        simp only [Has] at hL hR
        obtain ⟨l1, l2, l3, l4, l5, l6, l7, l8, l9⟩ := hL
        obtain ⟨r1, r2, r3, r4, r5, r6, r7, r8, r9⟩ := hR
        simp only [size] at hsz hf
        simp only [addrs, List.append_assoc, List.cons_append, List.nodup_append, List.nodup_cons,
          List.mem_append, List.mem_cons] at hnd
        simp only [rootA_node]
        rw [mergeT_node]
        unfold merge
        rw [if_neg (by omega), chk_ok l1 l2, chk_ok r1 r2]
        simp only [ok_bind, l3, r3]
        by_cases hp : p > p'
        · rw [if_pos hp, if_pos hp, l7]
          obtain ⟨h1, m1, m2, m3, m4⟩ := ih h (.right a) r (.node a' p' d' l' r') l9 hR0
            (by simp only [addrs, List.nodup_append, List.nodup_cons, List.mem_append, List.mem_cons]; grind)
            (by intro b hb
                refine ⟨by simp, ?_⟩
                intro e
                cases e
                simp only [addrs, List.mem_append, List.mem_cons] at hb
                grind)
            (by simp [chkCell, chk_ok l1 l2]) (by simp [size]; omega) (by simp [size]; omega)
          simp only [rootA_node] at m1
          rw [m1]
          simp only [ok_bind]
          obtain ⟨h2, s1, s2, s3⟩ := store_ok (h := h1) (c := t) a (by rw [chkCell_frame m4]; exact hchk)
          rw [s1]
          simp only [ok_bind]
          rw [load_ok (by rw [chkCell_frame s3, chkCell_frame m4]; exact hchk), s2]
          simp only [ok_bind]
          have hAm : (mergeT r (.node a' p' d' l' r')).addrs = r.addrs ++ (Tr.node a' p' d' l' r').addrs :=
            (mergeT_lists _ _).1
          have tneq : ∀ b ∈ (Tr.node a p d l r).addrs ++ (Tr.node a' p' d' l' r').addrs,
              Cell.left b ∉ [t] ∧ Cell.right b ∉ [t] := by
            intro b hb
            have := hfree b hb
            exact ⟨by simp; exact fun e => this.1 e.symm, by simp; exact fun e => this.2 e.symm⟩
          have hl2 : Has h2 l := by
            refine Has.frame s3 (Has.frame m4 l8 ?_ ?_) (by simp) ?_
            · intro b hb hm
              simp only [addrs, List.mem_append, List.mem_cons] at hm
              grind
            · intro b hb
              refine ⟨by simp, ?_⟩
              simp; intro e; subst e; grind
            · intro b hb; exact tneq b (by simp [addrs, hb])
          have hm2 : Has h2 (mergeT r (.node a' p' d' l' r')) := by
            refine Has.frame s3 m3 (by simp) ?_
            intro b hb
            rw [hAm] at hb
            refine tneq b ?_
            simp only [addrs, List.mem_append, List.mem_cons] at hb ⊢
            grind
          have fa := hfree a (by simp [addrs])
          have pl : h2.ptr (.left a) = l.rootA := by
            rw [s3.ptr _ (by rintro (hc | ⟨b, hb, _⟩)
                             · simp at hc; exact fa.1 hc.symm
                             · simp at hb)]
            rw [m4.ptr, l6]
            rintro (hc | ⟨b, hb, hc⟩)
            · simp at hc
            · rcases hc with hc | hc <;> cases hc
              simp only [addrs, List.mem_append, List.mem_cons] at hb; grind
          have pr : h2.ptr (.right a) = (mergeT r (.node a' p' d' l' r')).rootA := by
            rw [s3.ptr _ (by rintro (hc | ⟨b, hb, _⟩)
                             · simp at hc; exact fa.2 hc.symm
                             · simp at hb)]
            exact m2
          obtain ⟨h3, u1, u2, u3, u4⟩ := upd_cnt_ok (h := h2) (a := a) (p := p) (d := d) l1
            (by rw [s3.live, m4.live]; exact l2) (by rw [s3.prior, m4.prior]; exact l3)
            (by rw [s3.data, m4.data]; exact l4) pl pr hl2 hm2 (by grind)
            (by rw [hAm]; simp only [addrs, List.mem_append, List.mem_cons]; grind)
            (by rw [mergeT_size]; simp only [size]; omega)
          refine ⟨h3, u1, by rw [u3, s2, rootA_node], u2, ?_⟩
          refine ((m4.mono ?_ ?_).trans (s3.mono (by simp) (by intro c hc; exact Or.inl hc))).trans (u4.mono ?_ (by simp))
          · intro b hb; simp only [addrs, List.mem_append, List.mem_cons] at hb ⊢; grind
          · intro c hc; simp at hc; subst hc; exact Or.inr ⟨a, by simp [addrs], Or.inr rfl⟩
          · simp [addrs]
        · rw [if_neg hp, if_neg hp, r6]
          obtain ⟨h1, m1, m2, m3, m4⟩ := ih h (.left a') (.node a p d l r) l' hL0 r8
            (by simp only [addrs, List.nodup_append, List.nodup_cons, List.mem_append, List.mem_cons]; grind)
            (by intro b hb
                refine ⟨?_, by simp⟩
                intro e
                cases e
                simp only [addrs, List.mem_append, List.mem_cons] at hb
                grind)
            (by simp [chkCell, chk_ok r1 r2]) (by simp [size]; omega) (by simp [size]; omega)
          simp only [rootA_node] at m1
          rw [m1]
          simp only [ok_bind]
          obtain ⟨h2, s1, s2, s3⟩ := store_ok (h := h1) (c := t) a' (by rw [chkCell_frame m4]; exact hchk)
          rw [s1]
          simp only [ok_bind]
          rw [load_ok (by rw [chkCell_frame s3, chkCell_frame m4]; exact hchk), s2]
          simp only [ok_bind]
          have hAm : (mergeT (.node a p d l r) l').addrs = (Tr.node a p d l r).addrs ++ l'.addrs :=
            (mergeT_lists _ _).1
          have tneq : ∀ b ∈ (Tr.node a p d l r).addrs ++ (Tr.node a' p' d' l' r').addrs,
              Cell.left b ∉ [t] ∧ Cell.right b ∉ [t] := by
            intro b hb
            have := hfree b hb
            exact ⟨by simp; exact fun e => this.1 e.symm, by simp; exact fun e => this.2 e.symm⟩
          have hr2 : Has h2 r' := by
            refine Has.frame s3 (Has.frame m4 r9 ?_ ?_) (by simp) ?_
            · intro b hb hm
              simp only [addrs, List.mem_append, List.mem_cons] at hm
              grind
            · intro b hb
              refine ⟨?_, by simp⟩
              simp; intro e; subst e; grind
            · intro b hb; exact tneq b (by simp [addrs, hb])
          have hm2 : Has h2 (mergeT (.node a p d l r) l') := by
            refine Has.frame s3 m3 (by simp) ?_
            intro b hb
            rw [hAm] at hb
            refine tneq b ?_
            simp only [addrs, List.mem_append, List.mem_cons] at hb ⊢
            grind
          have fa := hfree a' (by simp [addrs])
          have pr : h2.ptr (.right a') = r'.rootA := by
            rw [s3.ptr _ (by rintro (hc | ⟨b, hb, _⟩)
                             · simp at hc; exact fa.2 hc.symm
                             · simp at hb)]
            rw [m4.ptr, r7]
            rintro (hc | ⟨b, hb, hc⟩)
            · simp at hc
            · rcases hc with hc | hc <;> cases hc
              simp only [addrs, List.mem_append, List.mem_cons] at hb; grind
          have pl : h2.ptr (.left a') = (mergeT (.node a p d l r) l').rootA := by
            rw [s3.ptr _ (by rintro (hc | ⟨b, hb, _⟩)
                             · simp at hc; exact fa.1 hc.symm
                             · simp at hb)]
            exact m2
          obtain ⟨h3, u1, u2, u3, u4⟩ := upd_cnt_ok (h := h2) (a := a') (p := p') (d := d') r1
            (by rw [s3.live, m4.live]; exact r2) (by rw [s3.prior, m4.prior]; exact r3)
            (by rw [s3.data, m4.data]; exact r4) pl pr hm2 hr2
            (by rw [hAm]; simp only [addrs, List.mem_append, List.mem_cons]; grind) (by grind)
            (by rw [mergeT_size]; simp only [size]; omega)
          refine ⟨h3, u1, by rw [u3, s2, rootA_node], u2, ?_⟩
          refine ((m4.mono ?_ ?_).trans (s3.mono (by simp) (by intro c hc; exact Or.inl hc))).trans (u4.mono ?_ (by simp))
          · intro b hb; simp only [addrs, List.mem_append, List.mem_cons] at hb ⊢; grind
          · intro c hc; simp at hc; subst hc; exact Or.inr ⟨a', by simp [addrs], Or.inl rfl⟩
          · simp [addrs]

theorem not_cov_of_free {c : Cell} {A : List Nat} {cs : List Cell} (h1 : Free c A) (h2 : c ∉ cs) : ¬ Cov A cs c := by
  rintro (h | ⟨a, ha, h | h⟩)
  · exact h2 h
  · exact (h1 a ha).1 h
  · exact (h1 a ha).2 h

theorem split_spec : ∀ fuel h T cl cr key add, Has h T → T.addrs.Nodup → Free cl T.addrs → Free cr T.addrs →
    cl ≠ cr → chkCell h cl = .ok () → chkCell h cr = .ok () → T.size < fuel → add + T.size < 2^32 →
    ∃ h', split fuel h T.rootA cl cr key add = .ok h' ∧ h'.ptr cl = (splitT T key add).1.rootA ∧
      h'.ptr cr = (splitT T key add).2.rootA ∧ Has h' (splitT T key add).1 ∧ Has h' (splitT T key add).2 ∧
      Frame h h' T.addrs [cl, cr] := by
  intro fuel
  induction fuel with
  | zero => intro h T _ _ _ _ _ _ _ _ _ _ _ hf; omega
  | succ fuel ih =>
    intro h T cl cr key add hT hnd hfl hfr hne hcl hcr hf hsz
    cases T with
    | nil =>
      unfold split
      simp only [rootA, if_true]
      obtain ⟨h1, s1, s2, s3⟩ := store_ok (h := h) (c := cr) 0 hcr
      obtain ⟨h2, t1, t2, t3⟩ := store_ok (h := h1) (c := cl) 0 (by rw [chkCell_frame s3]; exact hcl)
      rw [s1]
      simp only [ok_bind]
      refine ⟨h2, t1, t2, ?_, trivial, trivial, ?_⟩
      · rw [t3.ptr, s2]; rfl
        rintro (hc | ⟨b, hb, _⟩)
        · simp at hc; exact hne hc.symm
        · simp at hb
      · exact (s3.mono (by simp) (by intro c hc; simp at hc; exact Or.inl (by simp [hc]))).trans
          (t3.mono (by simp) (by intro c hc; simp at hc; exact Or.inl (by simp [hc])))
    | node a p d l r =>
      have hT0 := hT
      simp only [Has] at hT
      obtain ⟨l1, l2, l3, l4, l5, l6, l7, l8, l9⟩ := hT
      simp only [size] at hsz hf
      simp only [addrs, List.nodup_append, List.nodup_cons, List.mem_cons] at hnd
      have fal := hfl a (by simp [addrs])
      have far := hfr a (by simp [addrs])
      have fl : Free cl l.addrs := fun b hb => hfl b (by simp [addrs, hb])
      have fr : Free cr r.addrs := fun b hb => hfr b (by simp [addrs, hb])
      have flr : Free cl r.addrs := fun b hb => hfl b (by simp [addrs, hb])
      have frl : Free cr l.addrs := fun b hb => hfr b (by simp [addrs, hb])
      simp only [rootA_node]
      unfold split
      rw [if_neg l1]
      have ca1 : chkCell h (.left a) = .ok () := chk_ok l1 l2
      have ca2 : chkCell h (.right a) = .ok () := chk_ok l1 l2
      rw [load_ok ca1, load_ok ca2]
      simp only [ok_bind, l6, l7, cnt_has l8]
      rw [show u32 (add + l.size) = add + l.size from Nat.mod_eq_of_lt (by omega),
        show u32 (add + 1 + l.size) = add + 1 + l.size from Nat.mod_eq_of_lt (by omega)]
      have happ := splitT_append
      simp only [splitT]
      by_cases hk : key ≤ add + l.size
      · rw [if_pos hk, if_pos hk]
        obtain ⟨h1, m1, m2, m3, m4, m5, m6⟩ := ih h l cl (.left a) key add l8 hnd.1 fl
          (by intro b hb; refine ⟨?_, by simp⟩; intro e; cases e; grind) fal.1 hcl ca1 (by omega) (by omega)
        rw [m1]
        simp only [ok_bind]
        obtain ⟨h2, s1, s2, s3⟩ := store_ok (h := h1) (c := cr) a (by rw [chkCell_frame m6]; exact hcr)
        rw [s1]
        simp only [ok_bind]
        have hsub : ∀ b, b ∈ (splitT l key add).1.addrs ∨ b ∈ (splitT l key add).2.addrs → b ∈ l.addrs := by
          intro b hb; rw [← (happ l key add).1]; simpa using hb
        have crneq : ∀ b ∈ (Tr.node a p d l r).addrs, Cell.left b ∉ [cr] ∧ Cell.right b ∉ [cr] := by
          intro b hb
          have := hfr b hb
          exact ⟨by simp; exact fun e => this.1 e.symm, by simp; exact fun e => this.2 e.symm⟩
        have hX : Has h2 (splitT l key add).1 := Has.frame s3 m4 (by simp) (fun b hb => crneq b (by
          simp [addrs]; exact Or.inl (hsub b (Or.inl hb))))
        have hY : Has h2 (splitT l key add).2 := Has.frame s3 m5 (by simp) (fun b hb => crneq b (by
          simp [addrs]; exact Or.inl (hsub b (Or.inr hb))))
        have hr2 : Has h2 r := by
          refine Has.frame s3 (Has.frame m6 l9 ?_ ?_) (by simp) (fun b hb => crneq b (by simp [addrs, hb]))
          · intro b hb hm; grind
          · intro b hb
            have := flr b hb
            refine ⟨?_, ?_⟩
            · simp; refine ⟨fun e => this.1 e.symm, ?_⟩; intro e; subst e; grind
            · simp; exact fun e => this.2 e.symm
        have pl : h2.ptr (.left a) = (splitT l key add).2.rootA := by
          rw [s3.ptr _ (by rintro (hc | ⟨b, hb, _⟩)
                           · simp at hc; exact far.1 hc.symm
                           · simp at hb)]
          exact m3
        have pr : h2.ptr (.right a) = r.rootA := by
          rw [s3.ptr _ (by rintro (hc | ⟨b, hb, _⟩)
                           · simp at hc; exact far.2 hc.symm
                           · simp at hb)]
          rw [m6.ptr, l7]
          rintro (hc | ⟨b, hb, hc | hc⟩)
          · simp at hc; exact fal.2 hc.symm
          · cases hc
          · cases hc; grind
        obtain ⟨h3, u1, u2, u3, u4⟩ := upd_cnt_ok (h := h2) (a := a) (p := p) (d := d) l1
          (by rw [s3.live, m6.live]; exact l2) (by rw [s3.prior, m6.prior]; exact l3)
          (by rw [s3.data, m6.data]; exact l4) pl pr hY hr2
          (by intro hm; have := hsub a (Or.inr hm); grind) (by grind)
          (by have := splitT_size l key add; omega)
        refine ⟨h3, u1, ?_, ?_, ?_, u2, ?_⟩
        · rw [u3, s3.ptr _ (by rintro (hc | ⟨b, hb, _⟩)
                               · simp at hc; exact hne hc
                               · simp at hb), m2]
        · rw [u3, s2]; rfl
        · refine Has.frame u4 hX ?_ (by simp)
          intro b hb; simp; intro e; subst e; have := hsub b (Or.inl hb); grind
        · refine ((m6.mono ?_ ?_).trans (s3.mono (by simp) ?_)).trans (u4.mono (by simp [addrs]) (by simp))
          · intro b hb; simp [addrs, hb]
          · intro c hc
            simp at hc
            rcases hc with rfl | rfl
            · exact Or.inl (by simp)
            · exact Or.inr ⟨a, by simp [addrs], Or.inl rfl⟩
          · intro c hc; simp at hc; exact Or.inl (by simp [hc])
      · rw [if_neg hk, if_neg hk]
        obtain ⟨h1, m1, m2, m3, m4, m5, m6⟩ := ih h r (.right a) cr key (add + 1 + l.size) l9 hnd.2.1.2
          (by intro b hb; refine ⟨by simp, ?_⟩; intro e; cases e; grind) fr (fun e => far.2 e.symm) ca2 hcr
          (by omega) (by omega)
        rw [m1]
        simp only [ok_bind]
        obtain ⟨h2, s1, s2, s3⟩ := store_ok (h := h1) (c := cl) a (by rw [chkCell_frame m6]; exact hcl)
        rw [s1]
        simp only [ok_bind]
        have hsub : ∀ b, b ∈ (splitT r key (add + 1 + l.size)).1.addrs ∨ b ∈ (splitT r key (add + 1 + l.size)).2.addrs →
            b ∈ r.addrs := by
          intro b hb; rw [← (happ r key (add + 1 + l.size)).1]; simpa using hb
        have clneq : ∀ b ∈ (Tr.node a p d l r).addrs, Cell.left b ∉ [cl] ∧ Cell.right b ∉ [cl] := by
          intro b hb
          have := hfl b hb
          exact ⟨by simp; exact fun e => this.1 e.symm, by simp; exact fun e => this.2 e.symm⟩
        have hX : Has h2 (splitT r key (add + 1 + l.size)).1 := Has.frame s3 m4 (by simp) (fun b hb => clneq b (by
          simp [addrs]; exact Or.inr (Or.inr (hsub b (Or.inl hb)))))
        have hY : Has h2 (splitT r key (add + 1 + l.size)).2 := Has.frame s3 m5 (by simp) (fun b hb => clneq b (by
          simp [addrs]; exact Or.inr (Or.inr (hsub b (Or.inr hb)))))
        have hl2 : Has h2 l := by
          refine Has.frame s3 (Has.frame m6 l8 ?_ ?_) (by simp) (fun b hb => clneq b (by simp [addrs, hb]))
          · intro b hb hm; grind
          · intro b hb
            have := frl b hb
            refine ⟨?_, ?_⟩
            · simp; exact fun e => this.1 e.symm
            · simp; refine ⟨?_, fun e => this.2 e.symm⟩; intro e; subst e; grind
        have pr : h2.ptr (.right a) = (splitT r key (add + 1 + l.size)).1.rootA := by
          rw [s3.ptr _ (by rintro (hc | ⟨b, hb, _⟩)
                           · simp at hc; exact fal.2 hc.symm
                           · simp at hb)]
          exact m2
        have pl : h2.ptr (.left a) = l.rootA := by
          rw [s3.ptr _ (by rintro (hc | ⟨b, hb, _⟩)
                           · simp at hc; exact fal.1 hc.symm
                           · simp at hb)]
          rw [m6.ptr, l6]
          rintro (hc | ⟨b, hb, hc | hc⟩)
          · simp at hc; exact far.1 hc.symm
          · cases hc; grind
          · cases hc
        obtain ⟨h3, u1, u2, u3, u4⟩ := upd_cnt_ok (h := h2) (a := a) (p := p) (d := d) l1
          (by rw [s3.live, m6.live]; exact l2) (by rw [s3.prior, m6.prior]; exact l3)
          (by rw [s3.data, m6.data]; exact l4) pl pr hl2 hX (by grind)
          (by intro hm; have := hsub a (Or.inl hm); grind)
          (by have := splitT_size r key (add + 1 + l.size); omega)
        refine ⟨h3, u1, ?_, ?_, u2, ?_, ?_⟩
        · rw [u3, s2]; rfl
        · rw [u3, s3.ptr _ (by rintro (hc | ⟨b, hb, _⟩)
                               · simp at hc; exact hne hc.symm
                               · simp at hb), m3]
        · refine Has.frame u4 hY ?_ (by simp)
          intro b hb; simp; intro e; subst e; have := hsub b (Or.inr hb); grind
        · refine ((m6.mono ?_ ?_).trans (s3.mono (by simp) ?_)).trans (u4.mono (by simp [addrs]) (by simp))
          · intro b hb; simp [addrs, hb]
          · intro c hc
            simp at hc
            rcases hc with rfl | rfl
            · exact Or.inr ⟨a, by simp [addrs], Or.inr rfl⟩
            · exact Or.inl (by simp)
          · intro c hc; simp at hc; exact Or.inl (by simp [hc])

theorem getitem_spec : ∀ fuel h T idx add, Has h T → T.size < fuel → add + T.size < 2^32 → add ≤ idx →
    getitem fuel h T.rootA idx add = .ok ((T.addrs[idx - add]?).getD 0) := by
  intro fuel
  induction fuel with
  | zero => intro h T idx add _ hf; omega
  | succ fuel ih =>
    intro h T idx add hT hf hsz hle
    cases T with
    | nil => simp [getitem, rootA, addrs, pure_eq_ok]
    | node a p d l r =>
      simp only [Has] at hT
      obtain ⟨l1, l2, l3, l4, l5, l6, l7, l8, l9⟩ := hT
      simp only [size] at hsz hf
      simp only [rootA_node]
      unfold getitem
      have ca1 : chkCell h (.left a) = .ok () := chk_ok l1 l2
      have ca2 : chkCell h (.right a) = .ok () := chk_ok l1 l2
      rw [if_neg l1, load_ok ca1, load_ok ca2]
      simp only [ok_bind, l6, l7, cnt_has l8]
      rw [show u32 (add + l.size) = add + l.size from Nat.mod_eq_of_lt (by omega),
        show u32 (add + 1 + l.size) = add + 1 + l.size from Nat.mod_eq_of_lt (by omega)]
      have hlen := addrs_length l
      simp only [addrs]
      by_cases h1 : add + l.size = idx
      · rw [if_pos h1, show idx - add = l.addrs.length by omega]
        simp [pure_eq_ok]
      · rw [if_neg h1]
        by_cases h2 : add + l.size < idx
        · rw [if_pos h2, ih h r idx _ l9 (by omega) (by omega) (by omega)]
          rw [List.getElem?_append_right (by omega), show idx - add - l.addrs.length = (idx - (add + 1 + l.size)) + 1 by omega,
            List.getElem?_cons_succ]
        · rw [if_neg h2, ih h l idx add l8 (by omega) (by omega) hle]
          rw [List.getElem?_append_left (by omega)]

def keyT (base : Nat) : Tr → Nat
  | .nil => 2^32 - 1
  | .node _ _ _ l _ => l.size + base

theorem childKey_has {h : Heap} {T : Tr} (hT : Has h T) {base : Nat} (hs : base + T.size < 2^32) :
    childKey h T.rootA base = .ok (keyT base T) := by
  cases T with
  | nil => rfl
  | node a p d l r =>
    simp only [Has] at hT
    obtain ⟨l1, l2, l3, l4, l5, l6, l7, l8, l9⟩ := hT
    have ca1 : chkCell h (.left a) = .ok () := chk_ok l1 l2
    simp only [size] at hs
    unfold childKey
    rw [rootA_node, if_pos l1, load_ok ca1]
    simp only [ok_bind, l6, cnt_has l8]
    rw [show u32 (l.size + base) = l.size + base from Nat.mod_eq_of_lt (by omega)]
    rfl

/-- Replacing the left subtree `l` of a node by `M` (already placed by `h1`). -/
theorem removeAt_spec : ∀ fuel h T t idx add, Has h T → T.addrs.Nodup → Free t T.addrs → t ≠ .n →
    chkCell h t = .ok () → h.ptr t = T.rootA → T.size < fuel → add + T.size < 2^32 → add ≤ idx → idx < add + T.size →
    ∃ h', removeAt fuel h t idx add = .ok h' ∧ h'.ptr t = (removeT T idx add).rootA ∧ Has h' (removeT T idx add) ∧
      Frame h h' T.addrs [t, .n] := by
  intro fuel
  induction fuel with
  | zero => intro h T _ _ _ _ _ _ _ _ _ hf; omega
  | succ fuel ih =>
    intro h T t idx add hT hnd hft htn hck hpt hf hsz hle hlt
    cases T with
    | nil => simp [size] at hlt; omega
    | node a p d l r =>
      have hT0 := hT
      simp only [Has] at hT
      obtain ⟨l1, l2, l3, l4, l5, l6, l7, l8, l9⟩ := hT
      simp only [size] at hsz hf hlt
      simp only [addrs, List.nodup_append, List.nodup_cons, List.mem_cons] at hnd
      have fa := hft a (by simp [addrs])
      have fl : Free t l.addrs := fun b hb => hft b (by simp [addrs, hb])
      have fr : Free t r.addrs := fun b hb => hft b (by simp [addrs, hb])
      have nal : a ∉ l.addrs := by intro h; grind
      have nar : a ∉ r.addrs := by intro h; grind
      have ca1 : chkCell h (.left a) = .ok () := chk_ok l1 l2
      have ca2 : chkCell h (.right a) = .ok () := chk_ok l1 l2
      unfold removeAt
      rw [load_ok hck, hpt, rootA_node]
      simp only [ok_bind]
      rw [if_neg l1, load_ok ca1, load_ok ca2]
      simp only [ok_bind, l6, l7, cnt_has l8]
      rw [show u32 (add + l.size) = add + l.size from Nat.mod_eq_of_lt (by omega),
        show u32 (add + l.size + 1) = add + l.size + 1 from Nat.mod_eq_of_lt (by omega)]
      rw [childKey_has l8 (by omega), childKey_has l9 (by omega)]
      simp only [ok_bind]
      -- replacing the left or right subtree, given the heap after the inner work
      have replL : ∀ (M : Tr) (h1 : Heap), Has h1 M → h1.ptr (.left a) = M.rootA → Frame h h1 l.addrs [.left a, .n] →
          (∀ b ∈ M.addrs, b ∈ l.addrs) → M.size ≤ l.size →
          ∃ h', upd_cnt h1 a = .ok h' ∧ h'.ptr t = a ∧ Has h' (.node a p d M r) ∧
            Frame h h' (Tr.node a p d l r).addrs [t, .n] := by
        intro M h1 hM hp1 f1 hsub hsz1
        have pr : h1.ptr (.right a) = r.rootA := by
          rw [f1.ptr, l7]
          rintro (hc | ⟨b, hb, hc | hc⟩)
          · simp at hc
          · cases hc
          · cases hc; exact nal hb
        have hr1 : Has h1 r := Has.frame f1 l9 (by intro b hb hm; grind) (by
          intro b hb; refine ⟨?_, by simp⟩; simp; intro e; subst e; exact nar hb)
        obtain ⟨h3, u1, u2, u3, u4⟩ := upd_cnt_ok (h := h1) (a := a) (p := p) (d := d) l1
          (by rw [f1.live]; exact l2) (by rw [f1.prior]; exact l3) (by rw [f1.data]; exact l4) hp1 pr hM hr1
          (fun hm => nal (hsub a hm)) nar (by omega)
        refine ⟨h3, u1, ?_, u2, ?_⟩
        · rw [u3, f1.ptr _ (not_cov_of_free fl (by simp; exact ⟨fa.1, htn⟩)), hpt]; rfl
        · refine (f1.mono ?_ ?_).trans (u4.mono (by simp [addrs]) (by simp))
          · intro b hb; simp [addrs, hb]
          · intro c hc
            simp at hc
            rcases hc with rfl | rfl
            · exact Or.inr ⟨a, by simp [addrs], Or.inl rfl⟩
            · exact Or.inl (by simp)
      have replR : ∀ (M : Tr) (h1 : Heap), Has h1 M → h1.ptr (.right a) = M.rootA → Frame h h1 r.addrs [.right a, .n] →
          (∀ b ∈ M.addrs, b ∈ r.addrs) → M.size ≤ r.size →
          ∃ h', upd_cnt h1 a = .ok h' ∧ h'.ptr t = a ∧ Has h' (.node a p d l M) ∧
            Frame h h' (Tr.node a p d l r).addrs [t, .n] := by
        intro M h1 hM hp1 f1 hsub hsz1
        have pl : h1.ptr (.left a) = l.rootA := by
          rw [f1.ptr, l6]
          rintro (hc | ⟨b, hb, hc | hc⟩)
          · simp at hc
          · cases hc; exact nar hb
          · cases hc
        have hl1 : Has h1 l := Has.frame f1 l8 (by intro b hb hm; grind) (by
          intro b hb; refine ⟨by simp, ?_⟩; simp; intro e; subst e; exact nal hb)
        obtain ⟨h3, u1, u2, u3, u4⟩ := upd_cnt_ok (h := h1) (a := a) (p := p) (d := d) l1
          (by rw [f1.live]; exact l2) (by rw [f1.prior]; exact l3) (by rw [f1.data]; exact l4) pl hp1 hl1 hM
          nal (fun hm => nar (hsub a hm)) (by omega)
        refine ⟨h3, u1, ?_, u2, ?_⟩
        · rw [u3, f1.ptr _ (not_cov_of_free fr (by simp; exact ⟨fa.2, htn⟩)), hpt]; rfl
        · refine (f1.mono ?_ ?_).trans (u4.mono (by simp [addrs]) (by simp))
          · intro b hb; simp [addrs, hb]
          · intro c hc
            simp at hc
            rcases hc with rfl | rfl
            · exact Or.inr ⟨a, by simp [addrs], Or.inr rfl⟩
            · exact Or.inl (by simp)
      simp only [removeT]
      by_cases hk : add + l.size = idx
      · rw [if_pos hk, if_pos hk]
        obtain ⟨h1, m1, m2, m3, m4⟩ := merge_spec fuel h t l r l8 l9
          (by simp only [List.nodup_append]; grind)
          (by intro b hb; rcases List.mem_append.1 hb with hb | hb
              · exact fl b hb
              · exact fr b hb) hck (by omega) (by omega)
        refine ⟨h1, m1, m2, m3, m4.mono ?_ ?_⟩
        · intro b hb; simp only [addrs, List.mem_append, List.mem_cons] at hb ⊢; grind
        · intro c hc; simp at hc; exact Or.inl (by simp [hc])
      · rw [if_neg hk, if_neg hk]
        by_cases hlk : keyT add l = idx
        · -- the left child goes away
          rw [if_pos hlk]
          cases l with
          | nil => simp only [keyT] at hlk; simp only [size] at *; omega
          | node b q e ll lr =>
            simp only [keyT] at hlk
            simp only [size] at hk
            rw [if_neg (by simp only [size]; omega)]
            have hl0 := l8
            simp only [Has] at l8
            obtain ⟨k1, k2, k3, k4, k5, k6, k7, k8, k9⟩ := l8
            simp only [addrs, List.nodup_append, List.nodup_cons, List.mem_append, List.mem_cons] at hnd
            rw [rootA_node, load_ok (show chkCell h (.left b) = .ok () from chk_ok k1 k2),
              load_ok (show chkCell h (.right b) = .ok () from chk_ok k1 k2)]
            simp only [ok_bind, k6, k7]
            obtain ⟨h1, m1, m2, m3, m4⟩ := merge_spec fuel h .n ll lr k8 k9
              (by simp only [List.nodup_append]; grind) (by intro b hb; simp) rfl
              (by simp only [size] at hf; omega) (by simp only [size] at hsz; omega)
            rw [m1]
            simp only [ok_bind]
            rw [load_ok (h := h1) (c := .n) rfl, m2]
            simp only [ok_bind]
            obtain ⟨h2, s1, s2, s3⟩ := store_ok (h := h1) (c := .left a) (mergeT ll lr).rootA
              (by rw [chkCell_frame m4]; exact ca1)
            rw [s1]
            simp only [ok_bind]
            have hsub : ∀ x ∈ (mergeT ll lr).addrs, x ∈ (Tr.node b q e ll lr).addrs := by
              intro x hx; rw [(mergeT_lists ll lr).1] at hx
              simp only [addrs, List.mem_append, List.mem_cons] at hx ⊢; grind
            have rem : removeT (.node b q e ll lr) idx add = mergeT ll lr := by
              simp only [removeT]; rw [if_pos (by omega)]
            rw [rem]
            refine replL (mergeT ll lr) h2 ?_ s2 ?_ hsub (by rw [mergeT_size]; simp only [size]; omega)
            · refine Has.frame s3 m3 (by simp) ?_
              intro x hx
              refine ⟨?_, by simp⟩
              simp; intro e; subst e; exact nal (hsub _ hx)
            · refine (m4.mono ?_ ?_).trans (s3.mono (by simp) ?_)
              · intro x hx; simp only [addrs, List.mem_append, List.mem_cons] at hx ⊢; grind
              · intro c hc; simp at hc; exact Or.inl (by simp [hc])
              · intro c hc; simp at hc; exact Or.inl (by simp [hc])
        · rw [if_neg hlk]
          by_cases hrk : keyT (add + l.size + 1) r = idx
          · rw [if_pos hrk]
            cases r with
            | nil => simp only [keyT] at hrk; simp only [size] at *; omega
            | node b q e rl rr =>
              simp only [keyT] at hrk
              rw [if_pos (by omega)]
              have hl0 := l9
              simp only [Has] at l9
              obtain ⟨k1, k2, k3, k4, k5, k6, k7, k8, k9⟩ := l9
              simp only [addrs, List.nodup_append, List.nodup_cons, List.mem_append, List.mem_cons] at hnd
              rw [rootA_node, load_ok (show chkCell h (.left b) = .ok () from chk_ok k1 k2),
                load_ok (show chkCell h (.right b) = .ok () from chk_ok k1 k2)]
              simp only [ok_bind, k6, k7]
              obtain ⟨h1, m1, m2, m3, m4⟩ := merge_spec fuel h .n rl rr k8 k9
                (by simp only [List.nodup_append]; grind) (by intro b hb; simp) rfl
                (by simp only [size] at hf; omega) (by simp only [size] at hsz; omega)
              rw [m1]
              simp only [ok_bind]
              rw [load_ok (h := h1) (c := .n) rfl, m2]
              simp only [ok_bind]
              obtain ⟨h2, s1, s2, s3⟩ := store_ok (h := h1) (c := .right a) (mergeT rl rr).rootA
                (by rw [chkCell_frame m4]; exact ca2)
              rw [s1]
              simp only [ok_bind]
              have hsub : ∀ x ∈ (mergeT rl rr).addrs, x ∈ (Tr.node b q e rl rr).addrs := by
                intro x hx; rw [(mergeT_lists rl rr).1] at hx
                simp only [addrs, List.mem_append, List.mem_cons] at hx ⊢; grind
              have rem : removeT (.node b q e rl rr) idx (add + l.size + 1) = mergeT rl rr := by
                simp only [removeT]; rw [if_pos (by omega)]
              rw [rem]
              refine replR (mergeT rl rr) h2 ?_ s2 ?_ hsub (by rw [mergeT_size]; simp only [size]; omega)
              · refine Has.frame s3 m3 (by simp) ?_
                intro x hx
                refine ⟨by simp, ?_⟩
                simp; intro e; subst e; exact nar (hsub _ hx)
              · refine (m4.mono ?_ ?_).trans (s3.mono (by simp) ?_)
                · intro x hx; simp only [addrs, List.mem_append, List.mem_cons] at hx ⊢; grind
                · intro c hc; simp at hc; exact Or.inl (by simp [hc])
                · intro c hc; simp at hc; exact Or.inl (by simp [hc])
          · rw [if_neg hrk]
            by_cases hlt2 : add + l.size < idx
            · rw [if_pos hlt2, if_pos hlt2]
              obtain ⟨h1, m1, m2, m3, m4⟩ := ih h r (.right a) idx (add + l.size + 1) l9 hnd.2.1.2
                (by intro b hb; refine ⟨by simp, ?_⟩; intro e; cases e; exact nar hb) (by simp) ca2 l7 (by omega)
                (by omega) (by omega) (by omega)
              rw [m1]
              simp only [ok_bind]
              refine replR _ h1 m3 m2 m4 ?_ (by rw [removeT_size _ _ _ (by omega) (by omega)]; omega)
              intro x hx
              rw [(removeT_lists r idx (add + l.size + 1) (by omega) (by omega)).1] at hx
              exact List.mem_of_mem_eraseIdx hx
            · rw [if_neg hlt2, if_neg hlt2]
              obtain ⟨h1, m1, m2, m3, m4⟩ := ih h l (.left a) idx add l8 hnd.1
                (by intro b hb; refine ⟨?_, by simp⟩; intro e; cases e; exact nal hb) (by simp) ca1 l6 (by omega)
                (by omega) (by omega) (by omega)
              rw [m1]
              simp only [ok_bind]
              refine replL _ h1 m3 m2 m4 ?_ (by rw [removeT_size _ _ _ (by omega) (by omega)]; omega)
              intro x hx
              rw [(removeT_lists l idx add (by omega) (by omega)).1] at hx
              exact List.mem_of_mem_eraseIdx hx

/-! ### The API -/

theorem getsize_spec {t : TL} {T : Tr} (h : WF t T) : tlist_getsize t = .ok T.size := by
  unfold tlist_getsize
  rw [h.root, cnt_has h.has]

theorem get_spec {t : TL} {T : Tr} (h : WF t T) (hs : T.size < 2^32) (idx : Nat) :
    tlist_get t idx = .ok (dataPtr ((T.addrs[idx % 2^32]?).getD 0)) := by
  unfold tlist_get
  rw [getsize_spec h]
  simp only [ok_bind]
  rw [h.root, getitem_spec _ _ _ _ _ h.has (by simp [depth]) (by omega) (by omega)]
  rfl

theorem has_data {h : Heap} {T : Tr} : Has h T → T.addrs.map h.data = T.items := by
  induction T with
  | nil => intro _; rfl
  | node a p d l r ihl ihr =>
    intro hT
    simp only [Has] at hT
    obtain ⟨l1, l2, l3, l4, l5, l6, l7, l8, l9⟩ := hT
    simp only [addrs, items, List.map_append, List.map_cons, ihl l8, ihr l9, l4]

theorem has_ne_zero {h : Heap} {T : Tr} : Has h T → 0 ∉ T.addrs := by
  induction T with
  | nil => intro _; simp [addrs]
  | node a p d l r ihl ihr =>
    intro hT
    simp only [Has] at hT
    obtain ⟨l1, l2, l3, l4, l5, l6, l7, l8, l9⟩ := hT
    simp only [addrs, List.mem_append, List.mem_cons, not_or]
    exact ⟨ihl l8, fun e => l1 e.symm, ihr l9⟩

theorem content_spec {t : TL} {T : Tr} (h : WF t T) (i : Nat) :
    content t (dataPtr ((T.addrs[i]?).getD 0)) = T.items[i]? := by
  unfold content dataPtr
  rw [Nat.add_sub_cancel]
  rw [← has_data h.has, List.getElem?_map]
  by_cases hi : i < T.addrs.length
  · rw [List.getElem?_eq_getElem hi]
    simp only [Option.getD_some, Option.map_some]
    rw [if_pos ⟨by omega, (h.live _).2 (List.getElem_mem hi)⟩]
  · rw [List.getElem?_eq_none (by omega)]
    simp only [Option.getD_none, Option.map_none]
    rw [if_neg]
    rintro ⟨_, h0⟩
    exact has_ne_zero h.has ((h.live 0).1 h0)

/-- The new node as a tree of its own. -/
theorem new_item_spec {t : TL} {T : Tr} (h : WF t T) {n : Nat} (hf : Fresh t n) {x : List Byte}
    (hx : x.length = t.itemsize) :
    ∃ h1, new_item t.heap (some n) x t.itemsize t.seed = .ok (h1, n, (mrand t.seed).1) ∧ Has h1 T ∧
      Has h1 (.node n (mrand t.seed).2 x .nil .nil) ∧ h1.ptr .root = T.rootA ∧ (∀ a, h1.live a = true ↔ a = n ∨ a ∈ T.addrs) ∧
      n ∉ T.addrs ∧ h1.ext = t.heap.ext := by
  have hn : n ∉ T.addrs := by
    intro hm
    have := hf.2.1 n ((h.live n).2 hm)
    simp only [hdr] at this
    omega
  unfold new_item
  simp only [rdN_all hx, ok_bind]
  refine ⟨_, rfl, ?_, ?_, ?_, ?_, hn, rfl⟩
  · -- the old tree does not see the new node
    have : ∀ S : Tr, Has t.heap S → n ∉ S.addrs → Has
        { ptr := upd (upd t.heap.ptr (.left n) 0) (.right n) 0, prior := upd t.heap.prior n (mrand t.seed).2, cnt := upd t.heap.cnt n 1,
          data := upd t.heap.data n x, live := upd t.heap.live n true, ext := t.heap.ext } S := by
      intro S
      induction S with
      | nil => intros; trivial
      | node a p d l r ihl ihr =>
        intro hS hnS
        simp only [addrs, List.mem_append, List.mem_cons, not_or] at hnS
        simp only [Has] at hS ⊢
        obtain ⟨l1, l2, l3, l4, l5, l6, l7, l8, l9⟩ := hS
        have hna : a ≠ n := fun e => hnS.2.1 e.symm
        exact ⟨l1, by simp [upd, hna, l2], by simp [upd, hna, l3], by simp [upd, hna, l4], by simp [upd, hna, l5],
          by simp [upd, hna, l6], by simp [upd, hna, l7], ihl l8 hnS.1, ihr l9 hnS.2.2⟩
    exact this T h.has hn
  · simp only [Has]
    exact ⟨hf.1, by simp [upd], by simp [upd], by simp [upd], by simp [upd, size], by simp [upd, rootA],
      by simp [upd, rootA], trivial, trivial⟩
  · simp only [upd]
    simp [h.root]
  · intro a
    simp only [upd]
    by_cases ha : a = n
    · simp [ha]
    · simp [ha, h.live a]

theorem insert_spec_tree {t : TL} {T : Tr} (h : WF t T) (hs : T.size + 1 < 2^32) {idx : Nat} (hi : idx ≤ T.size) {n : Nat}
    (hf : Fresh t n) {x : List Byte} (hx : x.length = t.itemsize) :
    ∃ t' T', tlist_insert t idx x (some n) = .ok (t', 1) ∧ WF t' T' ∧ t'.itemsize = t.itemsize ∧
      T'.items = T.items.take idx ++ x :: T.items.drop idx ∧ t'.seed = (mrand t.seed).1 ∧
      t'.heap.ext = t.heap.ext ∧ T' = mergeT (mergeT (splitT T idx 0).1 (.node n (mrand t.seed).2 x .nil .nil)) (splitT T idx 0).2 := by
  unfold tlist_insert
  rw [getsize_spec h]
  simp only [ok_bind]
  rw [if_neg (by omega)]
  obtain ⟨h1, e1, e2, e3, e4, e5, e6, e8⟩ := new_item_spec h hf hx
  generalize (mrand t.seed).1 = seed at *
  generalize (mrand t.seed).2 = p at *
  rw [e1]
  simp only [ok_bind]
  rw [if_neg hf.1]
  unfold insert
  rw [load_ok (h := h1) (c := .root) rfl, e4]
  simp only [ok_bind]
  rw [show u32 idx = idx from Nat.mod_eq_of_lt (by omega)]
  obtain ⟨h2, s1, s2, s3, s4, s5, s6⟩ := split_spec (depth T.size) h1 T .t1 .t2 idx 0 e2 h.nodup (by intro b _; simp)
    (by intro b _; simp) (by simp) rfl rfl (by simp [depth]) (by omega)
  rw [s1]
  simp only [ok_bind]
  generalize hX : (splitT T idx 0).1 = X at s2 s4
  generalize hY : (splitT T idx 0).2 = Y at s3 s5
  have happ := splitT_append T idx 0
  have hsz := splitT_size T idx 0
  have hsz1 := splitT_size1 T idx 0 (by omega) (by omega)
  have hord := splitT_ord T idx 0 h.ord
  rw [hX, hY] at happ hsz hord
  rw [hX] at hsz1
  have hnd : (X.addrs ++ Y.addrs).Nodup := by rw [happ.1]; exact h.nodup
  have hmem : ∀ b, b ∈ X.addrs ∨ b ∈ Y.addrs ↔ b ∈ T.addrs := by
    intro b; rw [← happ.1]; simp
  rw [load_ok (h := h2) (c := .t1) rfl, s2]
  simp only [ok_bind]
  have hN2 : Has h2 (.node n p x .nil .nil) := Has.frame s6 e3 (by intro b hb; simp [addrs] at hb; subst hb; exact e6) (by simp)
  simp only [List.nodup_append] at hnd
  obtain ⟨h3, m1, m2, m3, m4⟩ := merge_spec (depth T.size) h2 .root X (.node n p x .nil .nil) s4 hN2
    (by simp only [addrs, List.nil_append, List.nodup_append, List.mem_singleton]
        refine ⟨hnd.1, by simp, ?_⟩
        intro a ha b hb e; subst hb; subst e; exact e6 ((hmem _).1 (Or.inl ha)))
    (by intro b _; simp) rfl (by simp [size, depth]; omega) (by simp [size]; omega)
  rw [rootA_node] at m1
  rw [m1]
  simp only [ok_bind]
  rw [load_ok (h := h3) (c := .root) rfl, load_ok (h := h3) (c := .t2) rfl, m2]
  simp only [ok_bind]
  have e7 : h3.ptr .t2 = Y.rootA := by
    rw [m4.ptr, s3]
    rintro (hc | ⟨b, _, hc | hc⟩)
    · simp at hc
    · cases hc
    · cases hc
  rw [e7]
  have hadM : (mergeT X (.node n p x .nil .nil)).addrs = X.addrs ++ [n] := by rw [(mergeT_lists _ _).1]; rfl
  have hY3 : Has h3 Y := Has.frame m4 s5 (by
    intro b hb hm
    simp only [addrs, List.nil_append, List.mem_append, List.mem_singleton] at hm
    rcases hm with hm | hm
    · exact hnd.2.2 b hm b hb rfl
    · subst hm; exact e6 ((hmem _).1 (Or.inr hb))) (by simp)
  have hndT : ((mergeT X (.node n p x .nil .nil)).addrs ++ Y.addrs).Nodup := by
    rw [hadM]
    simp only [List.nodup_append, List.mem_append, List.mem_singleton]
    refine ⟨⟨hnd.1, by simp, ?_⟩, hnd.2.1, ?_⟩
    · intro a ha b hb e; subst hb; subst e; exact e6 ((hmem _).1 (Or.inl ha))
    · intro a ha b hb e; subst e
      rcases ha with ha | ha
      · exact hnd.2.2 _ ha _ hb rfl
      · subst ha; exact e6 ((hmem _).1 (Or.inr hb))
  obtain ⟨h4, q1, q2, q3, q4⟩ := merge_spec (depth T.size) h3 .root (mergeT X (.node n p x .nil .nil)) Y m3 hY3 hndT
    (by intro b _; simp) rfl (by rw [mergeT_size]; simp [size, depth]; omega)
    (by rw [mergeT_size]; simp [size]; omega)
  rw [q1]
  simp only [ok_bind]
  have hitems : (mergeT (mergeT X (.node n p x .nil .nil)) Y).items = T.items.take idx ++ x :: T.items.drop idx := by
    rw [(mergeT_lists _ _).2, (mergeT_lists _ _).2]
    simp only [items, List.nil_append]
    have : X.items.length = idx := by rw [items_length]; omega
    rw [← happ.2, List.take_left' this, List.drop_left' this]; simp
  refine ⟨_, mergeT (mergeT X (.node n p x .nil .nil)) Y, rfl, ⟨q2, q3, ?_, ?_, ?_, ?_, ?_⟩, rfl, hitems, rfl,
    by simp only; rw [q4.ext, m4.ext, s6.ext, e8], rfl⟩
  · rw [(mergeT_lists _ _).1]; exact hndT
  · intro a
    simp only
    rw [q4.live, m4.live, s6.live, e5 a, (mergeT_lists _ _).1, hadM]
    simp only [List.mem_append, List.mem_singleton]
    rw [← hmem a]
    grind
  · exact mergeT_ord _ _ (mergeT_ord _ _ hord.1 (by simp [Tr.Prio, rootLe])) hord.2
  · rw [hitems]
    intro y hy
    simp only
    rcases List.mem_append.1 hy with hy | hy
    · exact h.item y (List.mem_of_mem_take hy)
    · rcases List.mem_cons.1 hy with rfl | hy
      · exact hx
      · exact h.item y (List.mem_of_mem_drop hy)
  · intro a b ha hb
    simp only at ha hb ⊢
    rw [q4.live, m4.live, s6.live, e5] at ha
    rw [q4.live, m4.live, s6.live, e5, q4.ext, m4.ext, s6.ext, e8] at hb
    rw [← h.live] at ha hb
    obtain ⟨f1, f2, f3⟩ := hf
    rcases ha with rfl | ha
    · rcases hb with (rfl | hb) | hb
      · exact Or.inl (Nat.le_refl _)
      · have := f2 b hb; omega
      · have := f3 b hb; omega
    · rcases hb with (rfl | hb) | hb
      · have := f2 a ha; omega
      · exact h.sep a b ha (Or.inl hb)
      · exact h.sep a b ha (Or.inr hb)

theorem insert_spec {t : TL} {T : Tr} (h : WF t T) (hs : T.size + 1 < 2^32) {idx : Nat} (hi : idx ≤ T.size) {n : Nat}
    (hf : Fresh t n) {x : List Byte} (hx : x.length = t.itemsize) :
    ∃ t' T', tlist_insert t idx x (some n) = .ok (t', 1) ∧ WF t' T' ∧ t'.itemsize = t.itemsize ∧
      T'.items = T.items.take idx ++ x :: T.items.drop idx := by
  obtain ⟨t', T', h1, h2, h3, h4, _⟩ := insert_spec_tree h hs hi hf hx
  exact ⟨t', T', h1, h2, h3, h4⟩

theorem delete_spec_tree {t : TL} {T : Tr} (h : WF t T) (hs : T.size < 2^32) {idx : Nat} (hi : idx < T.size) :
    ∃ t' T', tlist_delete_impl t idx false = .ok (t', 1) ∧ WF t' T' ∧ t'.itemsize = t.itemsize ∧
      t'.heap.ext = t.heap.ext ∧
      T'.items = T.items.eraseIdx idx ∧ T'.size = T.size - 1 ∧ t'.seed = t.seed ∧ T' = removeT T idx 0 := by
  unfold tlist_delete_impl
  rw [getsize_spec h]
  simp only [ok_bind]
  rw [if_neg (by omega), show u32 idx = idx from Nat.mod_eq_of_lt (by omega), h.root,
    getitem_spec _ _ _ _ _ h.has (by simp [depth]) (by omega) (by omega)]
  simp only [ok_bind, Bool.false_eq_true, if_false, Nat.sub_zero, pure_eq_ok]
  obtain ⟨h1, r1, r2, r3, r4⟩ := removeAt_spec (depth T.size) t.heap T .root idx 0 h.has h.nodup (by intro b _; simp)
    (by simp) rfl h.root (by simp [depth]) (by omega) (by omega) (by omega)
  rw [r1]
  simp only [ok_bind]
  have hlen : idx < T.addrs.length := by rw [addrs_length]; exact hi
  rw [List.getElem?_eq_getElem hlen]
  simp only [Option.getD_some]
  have hlists := removeT_lists T idx 0 (by omega) (by omega)
  simp only [Nat.sub_zero] at hlists
  have hmem := List.getElem_mem hlen
  have hnotin : T.addrs[idx] ∉ (removeT T idx 0).addrs := by
    rw [hlists.1]
    intro hm
    obtain ⟨j, hj, hje, hjj⟩ := List.mem_eraseIdx_iff_getElem.1 hm
    exact hje ((List.getElem_inj h.nodup).1 hjj)
  have hin : ∀ a, a ∈ (removeT T idx 0).addrs ↔ a ∈ T.addrs ∧ a ≠ T.addrs[idx] := by
    intro a
    rw [hlists.1, List.mem_eraseIdx_iff_getElem]
    constructor
    · rintro ⟨j, hj, hje, rfl⟩
      exact ⟨List.getElem_mem _, fun e => hje ((List.getElem_inj h.nodup).1 e)⟩
    · rintro ⟨hm, hne⟩
      obtain ⟨j, hj, rfl⟩ := List.mem_iff_getElem.1 hm
      exact ⟨j, hj, fun e => hne (by subst e; rfl), rfl⟩
  unfold hfree
  rw [if_pos (by rw [r4.live]; exact (h.live _).2 hmem)]
  simp only [ok_bind, pure_eq_ok]
  refine ⟨_, removeT T idx 0, rfl, ⟨r2, ?_, ?_, ?_, removeT_ord _ _ _ h.ord, ?_, ?_⟩, rfl, r4.ext, hlists.2,
    removeT_size _ _ _ (by omega) (by omega), rfl, rfl⟩
  · have : ∀ S : Tr, Has h1 S → T.addrs[idx] ∉ S.addrs → Has
        { h1 with live := upd h1.live T.addrs[idx] false } S := by
      intro S
      induction S with
      | nil => intros; trivial
      | node a p d l r ihl ihr =>
        intro hS hnS
        simp only [addrs, List.mem_append, List.mem_cons, not_or] at hnS
        simp only [Has] at hS ⊢
        obtain ⟨l1, l2, l3, l4, l5, l6, l7, l8, l9⟩ := hS
        have hna : a ≠ T.addrs[idx] := fun e => hnS.2.1 e.symm
        exact ⟨l1, by simp [upd, hna, l2], l3, l4, l5, l6, l7, ihl l8 hnS.1, ihr l9 hnS.2.2⟩
    exact this _ r3 hnotin
  · rw [hlists.1]; exact List.Pairwise.sublist (List.eraseIdx_sublist _ _) h.nodup
  · intro a
    simp only [upd]
    rw [hin a, ← h.live a, r4.live]
    by_cases ha : a = T.addrs[idx]
    · simp [ha]
    · simp [ha]
  · rw [hlists.2]
    intro y hy; exact h.item y (List.mem_of_mem_eraseIdx hy)
  · intro a b ha hb
    simp only [upd] at ha hb ⊢
    rw [r4.live] at ha hb
    rw [r4.ext] at hb
    have ha' : t.heap.live a = true := by by_cases e : a = T.addrs[idx] <;> simp [e] at ha <;> exact ha
    refine h.sep a b ha' ?_
    rcases hb with hb | hb
    · left; by_cases e : b = T.addrs[idx] <;> simp [e] at hb <;> exact hb
    · right; exact hb

theorem delete_spec {t : TL} {T : Tr} (h : WF t T) (hs : T.size < 2^32) {idx : Nat} (hi : idx < T.size) :
    ∃ t' T', tlist_delete_impl t idx false = .ok (t', 1) ∧ WF t' T' ∧ t'.itemsize = t.itemsize ∧
      t'.heap.ext = t.heap.ext ∧
      T'.items = T.items.eraseIdx idx ∧ T'.size = T.size - 1 := by
  obtain ⟨t', T', h1, h2, h3, h4, h5, h6, _⟩ := delete_spec_tree h hs hi
  exact ⟨t', T', h1, h2, h3, h4, h5, h6⟩

theorem new_wf (itemsize : Nat) (ext : List Nat) : WF (tlist_new itemsize ext) .nil :=
  ⟨rfl, trivial, by simp [addrs], by intro a; simp [tlist_new, addrs], trivial, by simp [items],
    by intro a b ha; simp [tlist_new] at ha⟩

theorem step_spec {t : TL} {T : Tr} (h : WF t T) (hs : T.size + 1 < 2^32) (op : Op) (hop : OpOk t op) :
    ∃ t' r T', step t op = .ok (t', r) ∧ Step T.items op T'.items r ∧ WF t' T' ∧ T'.size ≤ T.size + 1 := by
  have hl := items_length T
  have ins : ∀ idx x mem, x.length = t.itemsize → (∀ a, mem = some a → Fresh t a) → idx ≤ T.size →
      (∃ a t' T', mem = some a ∧ tlist_insert t idx x mem = .ok (t', 1) ∧ WF t' T' ∧
        T'.items = T.items.take idx ++ x :: T.items.drop idx) ∨
      (mem = none ∧ tlist_insert t idx x mem = .ok (t, 0)) := by
    intro idx x mem hx hm hi
    cases mem with
    | none =>
      right
      refine ⟨rfl, ?_⟩
      unfold tlist_insert
      rw [getsize_spec h]
      simp only [ok_bind]
      rw [if_neg (by omega)]
      simp [new_item, pure_eq_ok]
    | some a =>
      left
      obtain ⟨t', T', e1, e2, e3, e4⟩ := insert_spec h hs hi (hm a rfl) hx
      exact ⟨a, t', T', rfl, e1, e2, e4⟩
  have szof : ∀ {S : Tr} {k : Nat}, S.items.length = k → S.size = k := by
    intro S k e; rw [← items_length]; exact e
  cases op with
  | insert idx x mem =>
    by_cases hi : idx ≤ T.size
    · rcases ins idx x mem hop.1 hop.2 hi with ⟨a, t', T', rfl, e1, e2, e4⟩ | ⟨rfl, e1⟩
      · refine ⟨t', .int 1, T', by simp only [step, e1]; rfl, ?_, e2, ?_⟩
        · rw [e4]; exact .insert (by omega)
        · rw [szof (k := T.size + 1) (by rw [e4]; simp; omega)]; omega
      · exact ⟨t, .int 0, T, by simp only [step, e1]; rfl, .insertFail, h, by omega⟩
    · refine ⟨t, .int 0, T, ?_, .insertOut (by omega), h, by omega⟩
      simp only [step, tlist_insert]
      rw [getsize_spec h]
      simp only [ok_bind]
      rw [if_pos (by omega)]
      rfl
  | append x mem =>
    have ap : tlist_append t x mem = tlist_insert t T.size x mem := by
      unfold tlist_append; rw [getsize_spec h]; rfl
    rcases ins T.size x mem hop.1 hop.2 (by omega) with ⟨a, t', T', rfl, e1, e2, e4⟩ | ⟨rfl, e1⟩
    · rw [List.take_of_length_le (by omega), List.drop_eq_nil_of_le (by omega)] at e4
      refine ⟨t', .int 1, T', by simp only [step, ap, e1]; rfl, ?_, e2, ?_⟩
      · rw [e4]; exact .append
      · rw [szof (k := T.size + 1) (by rw [e4]; simp; omega)]; omega
    · exact ⟨t, .int 0, T, by simp only [step, ap, e1]; rfl, .appendFail, h, by omega⟩
  | delete idx =>
    by_cases hi : idx < T.size
    · obtain ⟨t', T', e1, e2, e3, e4, e5, e6⟩ := delete_spec h (by omega) hi
      refine ⟨t', .int 1, T', by simp only [step, e1]; rfl, ?_, e2, by omega⟩
      rw [e5]; exact .delete (by omega)
    · refine ⟨t, .int 0, T, ?_, .deleteOut (by omega), h, by omega⟩
      simp only [step, tlist_delete_impl]
      rw [getsize_spec h]
      simp only [ok_bind]
      rw [if_pos (by omega)]
      rfl
  | get idx =>
    refine ⟨t, _, T, ?_, .get, h, by omega⟩
    simp only [step]
    rw [get_spec h (by omega)]
    simp only [ok_bind]
    rw [content_spec h]
    rfl
  | getsize =>
    refine ⟨t, .int T.items.length, T, ?_, .getsize, h, by omega⟩
    simp only [step, getsize_spec h, hl]
    rfl

theorem run_spec : ∀ (ops : List Op) (t : TL) (T : Tr), WF t T → T.size + ops.length < 2^32 → Valid t ops →
    ∃ t' rs T', run t ops = .ok (t', rs) ∧ Steps T.items ops T'.items rs ∧ WF t' T' ∧ T'.size ≤ T.size + ops.length
  | [], t, T, h, hs, hv => ⟨t, [], T, rfl, .nil, h, by simp⟩
  | op :: ops, t, T, h, hs, hv => by
    simp only [List.length_cons] at hs
    obtain ⟨t1, r, T1, h1, h2, h3, h4⟩ := step_spec h (by omega) op (hv [] op ops rfl t [] rfl)
    obtain ⟨t2, rs, T2, r1, r2, r3, r4⟩ := run_spec ops t1 T1 h3 (by omega) (by
      intro pre op' post he t' rs hr
      exact hv (op :: pre) op' post (by rw [he]; rfl) t' (r :: rs) (by simp only [run, h1, ok_bind, hr]; rfl))
    exact ⟨t2, r :: rs, T2, by simp only [run, h1, ok_bind, r1]; rfl, .cons h2 r2, r3, by simp; omega⟩

theorem freeItemsLoop_spec : ∀ (fuel : Nat) (t : TL) (T : Tr), WF t T → T.size < 2^32 → T.size < fuel →
    ∃ t', freeItemsLoop fuel t false = .ok t' ∧ WF t' .nil ∧ t'.heap.ext = t.heap.ext
  | 0, _, _, _, _, hf => by omega
  | fuel + 1, t, T, h, hs, hf => by
    unfold freeItemsLoop
    rw [getsize_spec h]
    simp only [ok_bind]
    by_cases h0 : T.size = 0
    · rw [if_neg (by omega)]
      cases T with
      | nil => exact ⟨t, rfl, h, rfl⟩
      | node => simp [size] at h0
    · rw [if_pos h0]
      obtain ⟨t1, T1, e1, e2, e3, e4, e5, e6⟩ := delete_spec h hs (idx := 0) (by omega)
      rw [e1]
      simp only [ok_bind]
      obtain ⟨t2, q1, q2, q3⟩ := freeItemsLoop_spec fuel t1 T1 e2 (by omega) (by omega)
      exact ⟨t2, q1, q2, by rw [q3, e4]⟩

end Ulz.Tlist
