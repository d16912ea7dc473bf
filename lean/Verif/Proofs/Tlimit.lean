import Verif.Proofs.Tlist
import Verif.Spec.Tlimit
/-! tlist at the limit of its counters: the lemmas of Tlist with counts modulo 2^32. -/
namespace Ulz.Tlimit
open Ulz.Tlist Ulz.Tlist.Spec Ulz.Tlist.Spec.Tr Ulz.Tlimit.Spec

theorem hasM_of_has {h : Heap} : ∀ {T : Tr}, Has h T → T.size < 2^32 → HasM h T
  | .nil, _, _ => trivial
  | .node a p d l r, ht, hs => by
    simp only [Has] at ht
    simp only [HasM]
    obtain ⟨t1, t2, t3, t4, t5, t6, t7, t8, t9⟩ := ht
    have e : (Tr.node a p d l r).size = l.size + r.size + 1 := rfl
    exact ⟨t1, t2, t3, t4, by rw [t5, Nat.mod_eq_of_lt hs], t6, t7, hasM_of_has t8 (by omega), hasM_of_has t9 (by omega)⟩

theorem cnt_hasM {h : Heap} {T : Tr} (ht : HasM h T) : cnt h T.rootA = .ok (T.size % 2^32) := by
  cases T with
  | nil => rfl
  | node a p d l r =>
    simp only [HasM] at ht
    obtain ⟨t1, t2, t3, t4, t5, _⟩ := ht
    unfold cnt
    rw [show (Tr.node a p d l r).rootA = a from rfl, if_pos t1, chk_ok t1 t2, ok_bindE, t5]
    rfl

/-- A tree is not affected by changes outside of it. -/
theorem HasM.frame {h h' A cs} (f : Frame h h' A cs) : ∀ {T : Tr}, HasM h T → (∀ a ∈ T.addrs, a ∉ A) →
    (∀ a ∈ T.addrs, Cell.left a ∉ cs ∧ Cell.right a ∉ cs) → HasM h' T
  | .nil, _, _, _ => trivial
  | .node a p d l r, ht, h1, h2 => by
    simp only [HasM] at ht ⊢
    have ha : a ∈ (Tr.node a p d l r).addrs := by simp [addrs]
    have hl : ∀ x ∈ l.addrs, x ∈ (Tr.node a p d l r).addrs := by intro x hx; simp [addrs, hx]
    have hr : ∀ x ∈ r.addrs, x ∈ (Tr.node a p d l r).addrs := by intro x hx; simp [addrs, hx]
    obtain ⟨t1, t2, t3, t4, t5, t6, t7, t8, t9⟩ := ht
    refine ⟨t1, by rw [f.live]; exact t2, by rw [f.prior]; exact t3, by rw [f.data]; exact t4,
      by rw [f.cnt a (h1 a ha)]; exact t5, ?_, ?_, ?_, ?_⟩
    · rw [f.ptr]; exact t6
      rintro (hc | ⟨b, hb, hc⟩)
      · exact (h2 a ha).1 hc
      · rcases hc with hc | hc <;> cases hc; exact h1 a ha hb
    · rw [f.ptr]; exact t7
      rintro (hc | ⟨b, hb, hc⟩)
      · exact (h2 a ha).2 hc
      · rcases hc with hc | hc <;> cases hc; exact h1 a ha hb
    · exact HasM.frame f t8 (fun x hx => h1 x (hl x hx)) (fun x hx => h2 x (hl x hx))
    · exact HasM.frame f t9 (fun x hx => h1 x (hr x hx)) (fun x hx => h2 x (hr x hx))

/-- `upd_cnt` on a node whose children are in place completes the tree. -/
theorem upd_cnt_ok {h : Heap} {a p : Nat} {d : List Byte} {l r : Tr} (h0 : a ≠ 0) (hl : h.live a = true)
    (hp : h.prior a = p) (hd : h.data a = d) (pl : h.ptr (.left a) = l.rootA) (pr : h.ptr (.right a) = r.rootA)
    (tl : HasM h l) (tr : HasM h r) (nl : a ∉ l.addrs) (nr : a ∉ r.addrs) :
    ∃ h', upd_cnt h a = .ok h' ∧ HasM h' (.node a p d l r) ∧ h'.ptr = h.ptr ∧ Frame h h' [a] [] := by
  have f : Frame h { h with cnt := upd h.cnt a ((l.size + r.size + 1) % 2^32) } [a] [] := by
    refine ⟨rfl, rfl, rfl, rfl, ?_, fun _ _ => rfl⟩
    intro b hb
    have : b ≠ a := by simpa using hb
    simp [upd, this]
  refine ⟨{ h with cnt := upd h.cnt a ((l.size + r.size + 1) % 2^32) }, ?_, ?_, rfl, f⟩
  · unfold upd_cnt
    rw [if_pos h0, load_ok (by simp [chkCell, chk, h0, hl]), load_ok (by simp [chkCell, chk, h0, hl]), pl, pr]
    simp only [ok_bind, cnt_hasM tl, cnt_hasM tr]
    rw [u32, show (l.size % 2^32 + r.size % 2^32 + 1) % 2^32 = (l.size + r.size + 1) % 2^32 by omega]
    rfl
  · simp only [HasM]
    exact ⟨h0, hl, hp, hd, by simp [upd, size], pl, pr,
      HasM.frame f tl (by intro b hb; simp; intro e; subst e; exact nl hb) (by simp),
      HasM.frame f tr (by intro b hb; simp; intro e; subst e; exact nr hb) (by simp)⟩

/-- `upd_cnt` on a complete tree changes nothing that matters. -/
theorem upd_cnt_has {h : Heap} {T : Tr} (ht : HasM h T) (hn : T.addrs.Nodup) :
    ∃ h', upd_cnt h T.rootA = .ok h' ∧ HasM h' T ∧ h'.ptr = h.ptr ∧ Frame h h' T.addrs [] := by
  cases T with
  | nil => exact ⟨h, by simp [upd_cnt, rootA, pure_eq_ok], trivial, rfl, Frame.refl _ _ _⟩
  | node a p d l r =>
    simp only [HasM] at ht
    obtain ⟨t1, t2, t3, t4, t5, t6, t7, t8, t9⟩ := ht
    simp only [addrs, List.nodup_append, List.nodup_cons] at hn
    obtain ⟨h', e1, e2, e3, e4⟩ := upd_cnt_ok t1 t2 t3 t4 t6 t7 t8 t9
      (fun hm => (hn.2.2 a hm a (by simp)) rfl) hn.2.1.1
    exact ⟨h', e1, e2, e3, e4.mono (by simp [addrs]) (by simp)⟩

theorem merge_spec : ∀ fuel h t L R, HasM h L → HasM h R → (L.addrs ++ R.addrs).Nodup →
    Free t (L.addrs ++ R.addrs) → chkCell h t = .ok () → L.size + R.size < fuel →
    ∃ h', merge fuel h t L.rootA R.rootA = .ok h' ∧ h'.ptr t = (mergeT L R).rootA ∧ HasM h' (mergeT L R) ∧
      Frame h h' (L.addrs ++ R.addrs) [t] := by
  intro fuel
  induction fuel with
  | zero => intro h t L R _ _ _ _ _ hf; omega
  | succ fuel ih =>
    intro h t L R hL hR hnd hfree hchk hf
    -- the case where one side is empty
    have base : ∀ T : Tr, T.addrs = L.addrs ++ R.addrs → HasM h T →
        (if L.rootA = 0 ∨ R.rootA = 0 then store h t (if L.rootA ≠ 0 then L.rootA else R.rootA) else
          (.error .hang : C Heap)) = store h t T.rootA →
        (L.rootA = 0 ∨ R.rootA = 0) →
        ∃ h', merge (fuel + 1) h t L.rootA R.rootA = .ok h' ∧ h'.ptr t = T.rootA ∧ HasM h' T ∧
          Frame h h' (L.addrs ++ R.addrs) [t] := by
      intro T hTa hT he h0
      obtain ⟨h1, s1, s2, s3⟩ := store_ok T.rootA hchk
      have hT1 : HasM h1 T := HasM.frame s3 hT (by simp) (by
        intro a ha
        rw [hTa] at ha
        have := hfree a ha
        exact ⟨by simp; exact fun e => this.1 e.symm, by simp; exact fun e => this.2 e.symm⟩)
      obtain ⟨h2, u1, u2, u3, u4⟩ := upd_cnt_has hT1 (by rw [hTa]; exact hnd)
      refine ⟨h2, ?_, by rw [u3, s2], u2, ?_⟩
      · unfold merge
        rw [if_pos h0] at he ⊢
        rw [he, s1]
        simp only [ok_bind]
        rw [load_ok (by rw [chkCell_frame s3]; exact hchk), s2]
        simp only [ok_bind]
        exact u1
      · exact (s3.mono (by simp) (by intro c hc; exact Or.inl hc)).trans
          (u4.mono (by rw [hTa]; simp) (by simp))
    cases L with
    | nil =>
      rw [mergeT_nil_left]
      exact base R (by simp [addrs]) hR (by simp [rootA]) (by simp [rootA])
    | node a p d l r =>
      have ha0 : a ≠ 0 := by simp only [HasM] at hL; exact hL.1
      cases R with
      | nil =>
        rw [mergeT_nil_right]
        exact base (.node a p d l r) (by simp [addrs]) hL (by simp [rootA, ha0])
          (by simp [rootA])
      | node a' p' d' l' r' =>
        have hL0 := hL
        have hR0 := hR
        simp only [HasM] at hL hR
        obtain ⟨l1, l2, l3, l4, l5, l6, l7, l8, l9⟩ := hL
        obtain ⟨r1, r2, r3, r4, r5, r6, r7, r8, r9⟩ := hR
        simp only [size] at hf
        simp only [addrs, List.append_assoc, List.cons_append, List.nodup_append, List.nodup_cons,
          List.mem_append, List.mem_cons] at hnd
        simp only [rootA_node]
        rw [mergeT_node]
        unfold merge
        rw [if_neg (by omega), chk_ok l1 l2, chk_ok r1 r2]
        simp only [ok_bind, l3, r3]
        by_cases hp : p > p'
        · rw [if_pos hp, if_pos hp, l7]
          obtain ⟨h1, m1, m2, m3, m4⟩ := ih h (.right a) r (.node a' p' d' l' r') l9 hR0
            (by simp only [addrs, List.nodup_append, List.nodup_cons, List.mem_append, List.mem_cons]; grind)
            (by intro b hb
                refine ⟨by simp, ?_⟩
                intro e
                cases e
                simp only [addrs, List.mem_append, List.mem_cons] at hb
                grind)
            (by simp [chkCell, chk_ok l1 l2]) (by simp [size]; omega)
          simp only [rootA_node] at m1
          rw [m1]
          simp only [ok_bind]
          obtain ⟨h2, s1, s2, s3⟩ := store_ok (h := h1) (c := t) a (by rw [chkCell_frame m4]; exact hchk)
          rw [s1]
          simp only [ok_bind]
          rw [load_ok (by rw [chkCell_frame s3, chkCell_frame m4]; exact hchk), s2]
          simp only [ok_bind]
          have hAm : (mergeT r (.node a' p' d' l' r')).addrs = r.addrs ++ (Tr.node a' p' d' l' r').addrs :=
            (mergeT_lists _ _).1
          have tneq : ∀ b ∈ (Tr.node a p d l r).addrs ++ (Tr.node a' p' d' l' r').addrs,
              Cell.left b ∉ [t] ∧ Cell.right b ∉ [t] := by
            intro b hb
            have := hfree b hb
            exact ⟨by simp; exact fun e => this.1 e.symm, by simp; exact fun e => this.2 e.symm⟩
          have hl2 : HasM h2 l := by
            refine HasM.frame s3 (HasM.frame m4 l8 ?_ ?_) (by simp) ?_
            · intro b hb hm
              simp only [addrs, List.mem_append, List.mem_cons] at hm
              grind
            · intro b hb
              refine ⟨by simp, ?_⟩
              simp; intro e; subst e; grind
            · intro b hb; exact tneq b (by simp [addrs, hb])
          have hm2 : HasM h2 (mergeT r (.node a' p' d' l' r')) := by
            refine HasM.frame s3 m3 (by simp) ?_
            intro b hb
            rw [hAm] at hb
            refine tneq b ?_
            simp only [addrs, List.mem_append, List.mem_cons] at hb ⊢
            grind
          have fa := hfree a (by simp [addrs])
          have pl : h2.ptr (.left a) = l.rootA := by
            rw [s3.ptr _ (by rintro (hc | ⟨b, hb, _⟩)
                             · simp at hc; exact fa.1 hc.symm
                             · simp at hb)]
            rw [m4.ptr, l6]
            rintro (hc | ⟨b, hb, hc⟩)
            · simp at hc
            · rcases hc with hc | hc <;> cases hc
              simp only [addrs, List.mem_append, List.mem_cons] at hb; grind
          have pr : h2.ptr (.right a) = (mergeT r (.node a' p' d' l' r')).rootA := by
            rw [s3.ptr _ (by rintro (hc | ⟨b, hb, _⟩)
                             · simp at hc; exact fa.2 hc.symm
                             · simp at hb)]
            exact m2
          obtain ⟨h3, u1, u2, u3, u4⟩ := upd_cnt_ok (h := h2) (a := a) (p := p) (d := d) l1
            (by rw [s3.live, m4.live]; exact l2) (by rw [s3.prior, m4.prior]; exact l3)
            (by rw [s3.data, m4.data]; exact l4) pl pr hl2 hm2 (by grind)
            (by rw [hAm]; simp only [addrs, List.mem_append, List.mem_cons]; grind)
          refine ⟨h3, u1, by rw [u3, s2, rootA_node], u2, ?_⟩
          refine ((m4.mono ?_ ?_).trans (s3.mono (by simp) (by intro c hc; exact Or.inl hc))).trans (u4.mono ?_ (by simp))
          · intro b hb; simp only [addrs, List.mem_append, List.mem_cons] at hb ⊢; grind
          · intro c hc; simp at hc; subst hc; exact Or.inr ⟨a, by simp [addrs], Or.inr rfl⟩
          · simp [addrs]
        · rw [if_neg hp, if_neg hp, r6]
          obtain ⟨h1, m1, m2, m3, m4⟩ := ih h (.left a') (.node a p d l r) l' hL0 r8
            (by simp only [addrs, List.nodup_append, List.nodup_cons, List.mem_append, List.mem_cons]; grind)
            (by intro b hb
                refine ⟨?_, by simp⟩
                intro e
                cases e
                simp only [addrs, List.mem_append, List.mem_cons] at hb
                grind)
            (by simp [chkCell, chk_ok r1 r2]) (by simp [size]; omega)
          simp only [rootA_node] at m1
          rw [m1]
          simp only [ok_bind]
          obtain ⟨h2, s1, s2, s3⟩ := store_ok (h := h1) (c := t) a' (by rw [chkCell_frame m4]; exact hchk)
          rw [s1]
          simp only [ok_bind]
          rw [load_ok (by rw [chkCell_frame s3, chkCell_frame m4]; exact hchk), s2]
          simp only [ok_bind]
          have hAm : (mergeT (.node a p d l r) l').addrs = (Tr.node a p d l r).addrs ++ l'.addrs :=
            (mergeT_lists _ _).1
          have tneq : ∀ b ∈ (Tr.node a p d l r).addrs ++ (Tr.node a' p' d' l' r').addrs,
              Cell.left b ∉ [t] ∧ Cell.right b ∉ [t] := by
            intro b hb
            have := hfree b hb
            exact ⟨by simp; exact fun e => this.1 e.symm, by simp; exact fun e => this.2 e.symm⟩
          have hr2 : HasM h2 r' := by
            refine HasM.frame s3 (HasM.frame m4 r9 ?_ ?_) (by simp) ?_
            · intro b hb hm
              simp only [addrs, List.mem_append, List.mem_cons] at hm
              grind
            · intro b hb
              refine ⟨?_, by simp⟩
              simp; intro e; subst e; grind
            · intro b hb; exact tneq b (by simp [addrs, hb])
          have hm2 : HasM h2 (mergeT (.node a p d l r) l') := by
            refine HasM.frame s3 m3 (by simp) ?_
            intro b hb
            rw [hAm] at hb
            refine tneq b ?_
            simp only [addrs, List.mem_append, List.mem_cons] at hb ⊢
            grind
          have fa := hfree a' (by simp [addrs])
          have pr : h2.ptr (.right a') = r'.rootA := by
            rw [s3.ptr _ (by rintro (hc | ⟨b, hb, _⟩)
                             · simp at hc; exact fa.2 hc.symm
                             · simp at hb)]
            rw [m4.ptr, r7]
            rintro (hc | ⟨b, hb, hc⟩)
            · simp at hc
            · rcases hc with hc | hc <;> cases hc
              simp only [addrs, List.mem_append, List.mem_cons] at hb; grind
          have pl : h2.ptr (.left a') = (mergeT (.node a p d l r) l').rootA := by
            rw [s3.ptr _ (by rintro (hc | ⟨b, hb, _⟩)
                             · simp at hc; exact fa.1 hc.symm
                             · simp at hb)]
            exact m2
          obtain ⟨h3, u1, u2, u3, u4⟩ := upd_cnt_ok (h := h2) (a := a') (p := p') (d := d') r1
            (by rw [s3.live, m4.live]; exact r2) (by rw [s3.prior, m4.prior]; exact r3)
            (by rw [s3.data, m4.data]; exact r4) pl pr hm2 hr2
            (by rw [hAm]; simp only [addrs, List.mem_append, List.mem_cons]; grind) (by grind)
          refine ⟨h3, u1, by rw [u3, s2, rootA_node], u2, ?_⟩
          refine ((m4.mono ?_ ?_).trans (s3.mono (by simp) (by intro c hc; exact Or.inl hc))).trans (u4.mono ?_ (by simp))
          · intro b hb; simp only [addrs, List.mem_append, List.mem_cons] at hb ⊢; grind
          · intro c hc; simp at hc; subst hc; exact Or.inr ⟨a', by simp [addrs], Or.inl rfl⟩
          · simp [addrs]


theorem getsize_holds {t : TL} {T : Tr} (h : Holds t T) : tlist_getsize t = .ok (T.size % 2^32) := by
  unfold tlist_getsize
  rw [h.root, cnt_hasM h.has]

/-- Insertion into the largest list that the counters can hold. -/
theorem insert_limit {t : TL} {T : Tr} (h : WF t T) (hs : T.size + 1 = 2^32) {idx : Nat} (hi : idx ≤ T.size) {n : Nat}
    (hf : Fresh t n) {x : List Byte} (hx : x.length = t.itemsize) :
    ∃ t' T', tlist_insert t idx x (some n) = .ok (t', 1) ∧ Holds t' T' ∧ T'.items = T.items.take idx ++ x :: T.items.drop idx := by
  unfold tlist_insert
  rw [getsize_spec h]
  simp only [ok_bind]
  rw [if_neg (by omega)]
  obtain ⟨h1, e1, e2, e3, e4, e5, e6, e8⟩ := new_item_spec h hf hx
  generalize (mrand t.seed).1 = seed at *
  generalize (mrand t.seed).2 = p at *
  rw [e1]
  simp only [ok_bind]
  rw [if_neg hf.1]
  unfold Tlist.insert
  rw [load_ok (h := h1) (c := .root) rfl, e4]
  simp only [ok_bind]
  rw [show u32 idx = idx from Nat.mod_eq_of_lt (by omega)]
  obtain ⟨h2, s1, s2, s3, s4, s5, s6⟩ := split_spec (depth T.size) h1 T .t1 .t2 idx 0 e2 h.nodup (by intro b _; simp)
    (by intro b _; simp) (by simp) rfl rfl (by simp [depth]) (by omega)
  rw [s1]
  simp only [ok_bind]
  generalize hX : (splitT T idx 0).1 = X at s2 s4
  generalize hY : (splitT T idx 0).2 = Y at s3 s5
  have happ := splitT_append T idx 0
  have hsz := splitT_size T idx 0
  have hsz1 := splitT_size1 T idx 0 (by omega) (by omega)
  rw [hX, hY] at happ hsz
  rw [hX] at hsz1
  have hnd : (X.addrs ++ Y.addrs).Nodup := by rw [happ.1]; exact h.nodup
  have hmem : ∀ b, b ∈ X.addrs ∨ b ∈ Y.addrs ↔ b ∈ T.addrs := by
    intro b; rw [← happ.1]; simp
  have s4' : HasM h2 X := hasM_of_has s4 (by omega)
  have s5' : HasM h2 Y := hasM_of_has s5 (by omega)
  rw [load_ok (h := h2) (c := .t1) rfl, s2]
  simp only [ok_bind]
  have hN2 : HasM h2 (.node n p x .nil .nil) :=
    HasM.frame s6 (hasM_of_has e3 (show 0 + 0 + 1 < 2^32 by decide)) (by intro b hb; simp [addrs] at hb; subst hb; exact e6) (by simp)
  simp only [List.nodup_append] at hnd
  obtain ⟨h3, m1, m2, m3, m4⟩ := merge_spec (depth T.size) h2 .root X (.node n p x .nil .nil) s4' hN2
    (by simp only [addrs, List.nil_append, List.nodup_append, List.mem_singleton]
        refine ⟨hnd.1, by simp, ?_⟩
        intro a ha b hb e; subst hb; subst e; exact e6 ((hmem _).1 (Or.inl ha)))
    (by intro b _; simp) rfl (by simp [size, depth]; omega)
  rw [rootA_node] at m1
  rw [m1]
  simp only [ok_bind]
  rw [load_ok (h := h3) (c := .root) rfl, load_ok (h := h3) (c := .t2) rfl, m2]
  simp only [ok_bind]
  have e7 : h3.ptr .t2 = Y.rootA := by
    rw [m4.ptr, s3]
    rintro (hc | ⟨b, _, hc | hc⟩)
    · simp at hc
    · cases hc
    · cases hc
  rw [e7]
  have hadM : (mergeT X (.node n p x .nil .nil)).addrs = X.addrs ++ [n] := by rw [(mergeT_lists _ _).1]; rfl
  have hY3 : HasM h3 Y := HasM.frame m4 s5' (by
    intro b hb hm
    simp only [addrs, List.nil_append, List.mem_append, List.mem_singleton] at hm
    rcases hm with hm | hm
    · exact hnd.2.2 b hm b hb rfl
    · subst hm; exact e6 ((hmem _).1 (Or.inr hb))) (by simp)
  have hndT : ((mergeT X (.node n p x .nil .nil)).addrs ++ Y.addrs).Nodup := by
    rw [hadM]
    simp only [List.nodup_append, List.mem_append, List.mem_singleton]
    refine ⟨⟨hnd.1, by simp, ?_⟩, hnd.2.1, ?_⟩
    · intro a ha b hb e; subst hb; subst e; exact e6 ((hmem _).1 (Or.inl ha))
    · intro a ha b hb e; subst e
      rcases ha with ha | ha
      · exact hnd.2.2 _ ha _ hb rfl
      · subst ha; exact e6 ((hmem _).1 (Or.inr hb))
  obtain ⟨h4, q1, q2, q3, q4⟩ := merge_spec (depth T.size) h3 .root (mergeT X (.node n p x .nil .nil)) Y m3 hY3 hndT
    (by intro b _; simp) rfl (by rw [mergeT_size]; simp [size, depth]; omega)
  rw [q1]
  simp only [ok_bind]
  have hitems : (mergeT (mergeT X (.node n p x .nil .nil)) Y).items = T.items.take idx ++ x :: T.items.drop idx := by
    rw [(mergeT_lists _ _).2, (mergeT_lists _ _).2]
    simp only [items, List.nil_append]
    have : X.items.length = idx := by rw [items_length]; omega
    rw [← happ.2, List.take_left' this, List.drop_left' this]; simp
  refine ⟨_, mergeT (mergeT X (.node n p x .nil .nil)) Y, rfl, ⟨q2, q3, ?_, ?_⟩, hitems⟩
  · rw [(mergeT_lists _ _).1]; exact hndT
  · intro a
    simp only
    rw [q4.live, m4.live, s6.live, e5 a, (mergeT_lists _ _).1, hadM]
    simp only [List.mem_append, List.mem_singleton]
    rw [← hmem a]
    grind

/-- Lists of every size below the limit exist. -/
theorem exists_list (k : Nat) (hk : k < 2^32) : ∃ t T, WF t T ∧ T.size = k ∧ t.itemsize = 1 ∧ t.heap.ext = [] ∧
    ∀ a, t.heap.live a = true → a + 25 ≤ 25 * k + 1 := by
  induction k with
  | zero => exact ⟨tlist_new 1 [], .nil, new_wf 1 [], rfl, rfl, rfl, fun a h => by simp [tlist_new] at h⟩
  | succ k ih =>
    obtain ⟨t, T, h1, h2, h3, h4, h5⟩ := ih (by omega)
    have hf : Fresh t (25 * k + 1) := by
      refine ⟨by omega, fun b hb => Or.inr ?_, by rw [h4]; simp⟩
      have := h5 b hb
      rw [h3]
      simp only [hdr]
      omega
    obtain ⟨t', T', e1, e2, e3, e4, e5, e6, e7⟩ := insert_spec_tree h1 (by omega) (Nat.zero_le _) hf (x := [7]) (by rw [h3]; rfl)
    have hsz : T'.size = T.size + 1 := by
      rw [← items_length, ← items_length, e4]
      simp
    refine ⟨t', T', e2, by omega, by rw [e3, h3], by rw [e6, h4], fun a ha => ?_⟩
    rw [e2.live, e7, (mergeT_lists _ _).1, (mergeT_lists _ _).1] at ha
    have hap := (splitT_append T 0 0).1
    simp only [List.mem_append, addrs, List.nil_append, List.mem_singleton] at ha
    have : a = 25 * k + 1 ∨ a ∈ T.addrs := by
      rw [← hap]
      simp only [List.mem_append]
      grind
    rcases this with rfl | hm
    · omega
    · have := h5 a ((h1.live a).2 hm)
      omega

end Ulz.Tlimit
