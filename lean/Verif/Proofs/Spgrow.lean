import Verif.Spec.Spgrow
import Verif.Proofs.Stringptr
import Verif.Proofs.Frame
/-! Lemmas for stringptrs that are one block. -/
namespace Ulz.Spgrow

theorem put_self (h : Heap) (p : Nat) (o : Option Obj) : (h.put p o).objs p = o := by
  simp [Heap.put]

theorem put_other (h : Heap) {p q : Nat} (o : Option Obj) (e : q ≠ p) : (h.put p o).objs q = h.objs q := by
  simp [Heap.put, e]

theorem put_put (h : Heap) (p : Nat) (o o' : Option Obj) : (h.put p o).put p o' = h.put p o' := by
  simp only [Heap.put]
  congr 1
  funext q
  by_cases e : q = p <;> simp [e]

theorem hdr_some {h : Heap} {p : Nat} {o : Obj} {d : Hdr} (e : h.objs p = some o) (e' : o.hd = some d) : hdr h p = .ok d := by
  unfold hdr
  rw [e]
  simp only [e']
  rfl

theorem hdr_ok {h : Heap} {p : Nat} {d : Hdr} (e : hdr h p = .ok d) : ∃ o, h.objs p = some o ∧ o.hd = some d := by
  unfold hdr at e
  cases ho : h.objs p with
  | none => rw [ho] at e; cases e
  | some o =>
    rw [ho] at e
    simp only at e
    cases hd : o.hd with
    | none => rw [hd] at e; cases e
    | some d' =>
      rw [hd] at e
      obtain rfl := Except.ok.inj e
      exact ⟨o, rfl, hd⟩

/-- A block that nobody has disturbed: the text pointer points behind the members. -/
theorem setc_own {h : Heap} {p n k : Nat} {t : List Byte} (e : h.objs p = some ⟨some ⟨⟨p, 16 + k⟩, n⟩, t⟩) (i : Nat) (c : Byte) :
    setc h p i c = if k + i < t.length then .ok (h.put p (some ⟨some ⟨⟨p, 16 + k⟩, n⟩, t.set (k + i) c⟩)) else .error .oobWrite := by
  unfold setc
  rw [hdr_some e rfl, ok_bind]
  unfold store
  simp only [e]
  rw [if_neg (by omega), show 16 + k + i - 16 = k + i by omega]
  by_cases hl : k + i < t.length
  · rw [if_pos hl, wr_ok hl]
    rfl
  · rw [if_neg hl]
    unfold wr
    rw [if_neg hl]
    rfl

theorem fill_own (p n : Nat) : ∀ (s : List Byte) (i : Nat) (h : Heap) (t : List Byte),
    h.objs p = some ⟨some ⟨⟨p, 16⟩, n⟩, t⟩ → i + s.length ≤ t.length →
    fill h p i s = .ok (h.put p (some ⟨some ⟨⟨p, 16⟩, n⟩, t.take i ++ s ++ t.drop (i + s.length)⟩)) := by
  intro s
  induction s with
  | nil =>
    intro i h t e _
    simp only [fill, List.append_nil, List.length_nil, Nat.add_zero, List.take_append_drop]
    rw [show h.put p (some ⟨some ⟨⟨p, 16⟩, n⟩, t⟩) = h from ?_]
    · rfl
    · rw [← e]
      unfold Heap.put
      congr 1
      funext q
      by_cases hq : q = p <;> simp [hq]
  | cons c s ih =>
    intro i h t e hl
    simp only [List.length_cons] at hl
    rw [fill, setc_own (k := 0) (by simpa using e), if_pos (by omega), ok_bind, Nat.zero_add]
    rw [ih (i + 1) _ (t.set i c) (by rw [put_self]) (by rw [List.length_set]; omega), put_put]
    congr 4
    have hi : i < t.length := by omega
    rw [List.drop_set_of_lt (by omega)]
    have h1 : (t.set i c).take (i + 1) = t.take i ++ [c] := by
      rw [List.take_succ_eq_append_getElem (by rw [List.length_set]; exact hi)]
      rw [List.take_set_of_le (by omega)]
      simp
    rw [h1, List.length_cons, show i + 1 + s.length = i + (s.length + 1) by omega]
    simp

theorem make_ok (f : Nat → Byte) (h : Heap) (s : List Byte) (hs : s.length + 17 < 2 ^ 64) :
    make f h s = .ok ({ (h.put h.next (some ⟨some ⟨⟨h.next, 16⟩, s.length⟩, s ++ [0]⟩)) with next := h.next + 1 }, h.next) := by
  unfold make new
  simp only
  rw [szt_of_lt (by omega), if_neg (by omega), show 16 + s.length + 1 - 16 = s.length + 1 by omega]
  unfold store
  simp only [put_self]
  rw [if_neg (by omega), show 16 + s.length - 16 = s.length by omega, wr_ok (by simp)]
  simp only [ok_bind, pure_eq_ok]
  rw [fill_own h.next s.length s 0 _ (((List.range (s.length + 1)).map f).set s.length 0)]
  · simp only [ok_bind]
    congr 3
    · unfold Heap.put
      simp only
      congr 1
      funext q
      by_cases hq : q = h.next
      · simp only [hq, if_true, Nat.zero_add, List.take_zero, List.nil_append]
        congr 3
        rw [List.drop_set]
        simp
        rw [List.drop_eq_getElem_cons (by simp)]
        simp
      · simp [hq]
  · rw [put_self]
  · simp

theorem text_own {h : Heap} {p n k : Nat} {t : List Byte} (e : h.objs p = some ⟨some ⟨⟨p, 16 + k⟩, n⟩, t⟩) :
    text h p = if n = 0 then .ok [] else rdN t k n := by
  unfold text
  rw [hdr_some e rfl, ok_bind]
  unfold load
  simp only
  by_cases hn : n = 0
  · rw [if_pos hn, if_pos hn]; rfl
  · rw [if_neg hn, if_neg hn, e]
    simp only
    rw [if_neg (by omega), show 16 + k - 16 = k by omega]

/-- The text pointer points into a block that is gone. -/
theorem text_gone {h : Heap} {p : Nat} {o : Obj} {d : Hdr} (e : h.objs p = some o) (e' : o.hd = some d) (hn : d.size ≠ 0)
    (hg : h.objs d.ptr.blk = none) : text h p = .error .oobRead := by
  unfold text
  rw [hdr_some e e', ok_bind]
  unfold load
  rw [if_neg hn, hg]

theorem text_cut {h : Heap} {p : Nat} {o : Obj} (e : h.objs p = some o) (e' : o.hd = none) : text h p = .error .oobRead := by
  unfold text hdr
  rw [e]
  simp only [e']
  rfl

/-! ### What a history can touch -/

/-- Nothing but one block differs from the heap `h0`; the text pointer does not point into a block of `h0`. -/
structure Inv (h0 h : Heap) (p : Nat) : Prop where
  other : ∀ q, q ≠ p → h.objs q = h0.objs q
  own : ∃ o, h.objs p = some o ∧ ∀ d, o.hd = some d → h0.next ≤ d.ptr.blk ∧ d.ptr.blk < h.next
  lo : h0.next ≤ p
  hi : p < h.next

theorem Inv.next (h0 h : Heap) (p : Nat) (I : Inv h0 h p) : h0.next ≤ h.next := Nat.le_of_lt (Nat.lt_of_le_of_lt I.lo I.hi)

theorem Inv.put {h0 h : Heap} {p : Nat} (I : Inv h0 h p) (o : Obj) (ho : ∀ d, o.hd = some d → h0.next ≤ d.ptr.blk ∧ d.ptr.blk < h.next) :
    Inv h0 (h.put p (some o)) p :=
  ⟨fun q hq => by rw [put_other h _ hq, I.other q hq], ⟨o, put_self .., ho⟩, I.lo, I.hi⟩

theorem Inv.store {h0 h h' : Heap} {p : Nat} {d : Hdr} {q : Ptr} {c : Byte} (hf : Fresh h0) (I : Inv h0 h p) (hd : hdr h p = .ok d)
    (hq : q.blk = d.ptr.blk) (e : store h q c = .ok h') : Inv h0 h' p := by
  obtain ⟨o, ho, hdo⟩ := hdr_ok hd
  obtain ⟨o1, ho1, hP⟩ := I.own
  rw [ho] at ho1
  obtain rfl := Option.some.inj ho1
  have hp := hP d hdo
  unfold Spgrow.store at e
  by_cases hb : q.blk = p
  · rw [hb, ho] at e
    simp only at e
    split at e
    · cases e
    · obtain ⟨t, _, e2⟩ := Frame.bind_ok.1 e
      obtain rfl := Except.ok.inj e2
      exact I.put _ hP
  · rw [I.other _ hb, hf _ (by rw [hq]; exact hp.1)] at e
    cases e

theorem Inv.setHdr {h0 h h' : Heap} {p : Nat} {d d' : Hdr} (I : Inv h0 h p) (hd : hdr h p = .ok d) (hq : d'.ptr.blk = d.ptr.blk)
    (e : setHdr h p d' = .ok h') : Inv h0 h' p ∧ hdr h' p = .ok d' := by
  obtain ⟨o, ho, hdo⟩ := hdr_ok hd
  obtain ⟨o1, ho1, hP⟩ := I.own
  rw [ho] at ho1
  obtain rfl := Option.some.inj ho1
  unfold Spgrow.setHdr at e
  rw [ho] at e
  simp only [hdo] at e
  obtain rfl := Except.ok.inj e
  refine ⟨I.put _ ?_, hdr_some (put_self ..) rfl⟩
  intro d2 h2
  obtain rfl := Option.some.inj h2
  rw [hq]
  exact hP d hdo

theorem Inv.grow {h0 h h' : Heap} {p b : Nat} {r : Re} {q : Option Nat} (hf : Fresh h0) (I : Inv h0 h p) (e : grow h p b r = .ok (h', q)) :
    Inv h0 h' (q.getD p) := by
  obtain ⟨o, ho, hP⟩ := I.own
  have hR : ∀ f d, (resize o b f).hd = some d → h0.next ≤ d.ptr.blk ∧ d.ptr.blk < h.next := by
    intro f d hd
    unfold resize at hd
    simp only at hd
    split at hd
    · cases hd
    · exact hP d hd
  unfold Spgrow.grow at e
  rw [ho] at e
  cases r with
  | null =>
    obtain ⟨rfl, rfl⟩ := Prod.mk.inj (Except.ok.inj e)
    exact I
  | same f =>
    obtain ⟨rfl, rfl⟩ := Prod.mk.inj (Except.ok.inj e)
    exact I.put _ (hR f)
  | moved f =>
    obtain ⟨rfl, rfl⟩ := Prod.mk.inj (Except.ok.inj e)
    have := I.lo
    have := I.hi
    refine ⟨fun q hq => ?_, ⟨resize o b f, put_self _ _ _, fun d hd => ?_⟩, ?_, ?_⟩
    · simp only [Option.getD_some] at hq
      show (((h.put p none).put h.next (some (resize o b f))).objs q) = _
      rw [put_other _ _ hq]
      by_cases hqp : q = p
      · rw [hqp, put_self, hf _ I.lo]
      · rw [put_other _ _ hqp, I.other q hqp]
    · have := hR f d hd
      exact ⟨this.1, Nat.lt_succ_of_lt this.2⟩
    · simp only [Option.getD_some]; omega
    · simp

theorem Inv.step {h0 h h' : Heap} {p p' : Nat} (hf : Fresh h0) (I : Inv h0 h p) (op : Op) (e : step h p op = .ok (h', p')) : Inv h0 h' p' := by
  cases op with
  | grow b r =>
    unfold Spgrow.step at e
    obtain ⟨⟨h1, q⟩, e1, e2⟩ := Frame.bind_ok.1 e
    obtain ⟨rfl, rfl⟩ := Prod.mk.inj (Except.ok.inj e2)
    exact I.grow hf e1
  | shiftright n =>
    unfold Spgrow.step Spgrow.shiftright at e
    obtain ⟨⟨h1, q⟩, e1, e2⟩ := Frame.bind_ok.1 e
    obtain ⟨rfl, rfl⟩ := Prod.mk.inj (Except.ok.inj e2)
    obtain ⟨d, hd, e3⟩ := Frame.bind_ok.1 e1
    split at e3
    · obtain ⟨h2, e4, e5⟩ := Frame.bind_ok.1 e3
      obtain ⟨rfl, _⟩ := Prod.mk.inj (Except.ok.inj e5)
      exact (I.setHdr hd (by rfl) e4).1
    · obtain ⟨rfl, _⟩ := Prod.mk.inj (Except.ok.inj e3)
      exact I
  | shiftleft n =>
    unfold Spgrow.step Spgrow.shiftleft at e
    obtain ⟨⟨h1, q⟩, e1, e2⟩ := Frame.bind_ok.1 e
    obtain ⟨rfl, rfl⟩ := Prod.mk.inj (Except.ok.inj e2)
    obtain ⟨d, hd, e3⟩ := Frame.bind_ok.1 e1
    split at e3
    · obtain ⟨h2, e4, e5⟩ := Frame.bind_ok.1 e3
      obtain ⟨h3, e6, e7⟩ := Frame.bind_ok.1 e5
      obtain ⟨rfl, _⟩ := Prod.mk.inj (Except.ok.inj e7)
      obtain ⟨I2, hd2⟩ := I.setHdr hd (by rfl) e4
      exact I2.store hf hd2 (by rfl) e6
    · obtain ⟨rfl, _⟩ := Prod.mk.inj (Except.ok.inj e3)
      exact I
  | setc i c =>
    unfold Spgrow.step Spgrow.setc at e
    obtain ⟨h1, e1, e2⟩ := Frame.bind_ok.1 e
    obtain ⟨rfl, rfl⟩ := Prod.mk.inj (Except.ok.inj e2)
    obtain ⟨d, hd, e3⟩ := Frame.bind_ok.1 e1
    exact I.store hf hd (by rfl) e3

theorem Inv.run {h0 : Heap} (hf : Fresh h0) : ∀ (ops : List Op) (h h' : Heap) (p p' : Nat), Inv h0 h p → run h p ops = .ok (h', p') → Inv h0 h' p' := by
  intro ops
  induction ops with
  | nil =>
    intro h h' p p' I e
    obtain ⟨rfl, rfl⟩ := Prod.mk.inj (Except.ok.inj e)
    exact I
  | cons op ops ih =>
    intro h h' p p' I e
    unfold Spgrow.run at e
    obtain ⟨⟨h1, p1⟩, e1, e2⟩ := Frame.bind_ok.1 e
    exact ih _ _ _ _ (I.step hf op e1) e2

theorem inv_make (h : Heap) (s : List Byte) :
    Inv h { (h.put h.next (some ⟨some ⟨⟨h.next, 16⟩, s.length⟩, s ++ [0]⟩)) with next := h.next + 1 } h.next :=
  ⟨fun q hq => put_other h _ hq, ⟨_, put_self h _ _, fun d hd => by obtain rfl := Option.some.inj hd; exact ⟨Nat.le_refl _, Nat.lt_succ_self _⟩⟩,
    Nat.le_refl _, Nat.lt_succ_self _⟩

/-! ### Histories of growing -/

theorem make_facts {f : Nat → Byte} {h h1 : Heap} {p : Nat} {s : List Byte} (hs : s.length + 17 < 2 ^ 64) (hm : make f h s = .ok (h1, p)) :
    h1.objs p = some ⟨some ⟨⟨p, 16⟩, s.length⟩, s ++ [0]⟩ ∧ Inv h h1 p := by
  rw [make_ok f h s hs] at hm
  obtain ⟨rfl, rfl⟩ := Prod.mk.inj (Except.ok.inj hm)
  exact ⟨put_self h _ _, inv_make h s⟩

/-- A string in its own block, with its text. -/
def Kept (h : Heap) (p : Nat) (s : List Byte) : Prop := ∃ t, h.objs p = some ⟨some ⟨⟨p, 16⟩, s.length⟩, t⟩ ∧ s <+: t

/-- A string whose text is gone. -/
def Lost (h : Heap) (p : Nat) : Prop :=
  ∃ o, h.objs p = some o ∧ p < h.next ∧ ∀ d, o.hd = some d → d.size ≠ 0 ∧ h.objs d.ptr.blk = none ∧ d.ptr.blk < h.next

theorem Kept.text {h : Heap} {p : Nat} {s : List Byte} (k : Kept h p s) : text h p = .ok s := by
  obtain ⟨t, e, u, rfl⟩ := k
  rw [text_own (k := 0) (n := s.length) (t := s ++ u) e]
  by_cases hs : s.length = 0
  · rw [if_pos hs, List.length_eq_zero_iff.1 hs]
  · rw [if_neg hs]
    exact rdN_mid (A := []) rfl rfl

theorem Lost.text {h : Heap} {p : Nat} (k : Lost h p) : text h p = .error .oobRead := by
  obtain ⟨o, e, _, hd⟩ := k
  cases ho : o.hd with
  | none => exact text_cut e ho
  | some d => exact text_gone e ho (hd d ho).1 (hd d ho).2.1

theorem Lost.setc {h : Heap} {p : Nat} (k : Lost h p) (i : Nat) (c : Byte) (h' : Heap) : setc h p i c ≠ .ok h' := by
  obtain ⟨o, e, _, hd⟩ := k
  intro he
  obtain ⟨d, e1, e2⟩ := Frame.bind_ok.1 he
  obtain ⟨o', ho', hd'⟩ := hdr_ok e1
  rw [e] at ho'
  obtain rfl := Option.some.inj ho'
  unfold store at e2
  rw [(hd d hd').2.1] at e2
  cases e2

/-- A grown string still has its text. -/
theorem same_text {s t : List Byte} {b : Nat} (f : Nat → Byte) (d : Hdr) (ht : s <+: t) (hb : 16 + s.length ≤ b) :
    ∃ t', resize ⟨some d, t⟩ b f = ⟨some d, t'⟩ ∧ s <+: t' ∧ t'.length = b - 16 := by
  refine ⟨_, by unfold resize; rw [if_neg (by omega)], ?_, ?_⟩
  · obtain ⟨u, rfl⟩ := ht
    simp only
    rw [List.take_append, List.take_of_length_le (by omega), List.append_assoc]
    exact List.prefix_append _ _
  · simp
    omega

theorem Kept.same {h : Heap} {p b : Nat} {s : List Byte} (k : Kept h p s) (f : Nat → Byte) (hb : 16 + s.length ≤ b) :
    ∃ h', grow h p b (.same f) = .ok (h', some p) ∧ Kept h' p s ∧ (∃ o, h'.objs p = some o ∧ o.text.length = b - 16) := by
  obtain ⟨t, e, ht⟩ := k
  obtain ⟨t', e', ht', hl⟩ := same_text f (⟨⟨p, 16⟩, s.length⟩ : Hdr) ht hb
  refine ⟨h.put p (some (resize ⟨some ⟨⟨p, 16⟩, s.length⟩, t⟩ b f)), ?_, ⟨t', ?_, ht'⟩, ⟨_, put_self .., ?_⟩⟩
  · unfold grow
    rw [e]
    rfl
  · rw [put_self, e']
  · rw [e']
    exact hl

theorem grow_null {h : Heap} {p b : Nat} {o : Obj} (e : h.objs p = some o) : grow h p b .null = .ok (h, none) := by
  unfold grow
  rw [e]
  rfl

/-- Moving a string that has a text, or growing one whose text is gone. -/
theorem Kept.moved {h : Heap} {p b : Nat} {s : List Byte} (hp : p < h.next) (k : Kept h p s) (hs : s ≠ []) (f : Nat → Byte) :
    ∃ h', grow h p b (.moved f) = .ok (h', some h.next) ∧ Lost h' h.next ∧
      (16 + s.length ≤ b → ∃ t', h'.objs h.next = some ⟨some ⟨⟨p, 16⟩, s.length⟩, t'⟩ ∧ s <+: t') := by
  obtain ⟨t, e, ht⟩ := k
  refine ⟨{ ((h.put p none).put h.next (some (resize ⟨some ⟨⟨p, 16⟩, s.length⟩, t⟩ b f))) with next := h.next + 1 }, ?_,
    ⟨resize ⟨some ⟨⟨p, 16⟩, s.length⟩, t⟩ b f, put_self _ _ _, Nat.lt_succ_self _, ?_⟩, ?_⟩
  · unfold grow
    rw [e]
    rfl
  · intro d hd
    unfold resize at hd
    simp only at hd
    split at hd
    · cases hd
    · obtain rfl := Option.some.inj hd
      refine ⟨by simpa using hs, ?_, Nat.lt_succ_of_lt hp⟩
      show (Heap.put _ _ _).objs p = none
      rw [put_other _ _ (by omega), put_self]
  · intro hb
    obtain ⟨t', e', ht', _⟩ := same_text f (⟨⟨p, 16⟩, s.length⟩ : Hdr) ht hb
    refine ⟨t', ?_, ht'⟩
    show (Heap.put _ _ _).objs h.next = _
    rw [put_self, e']

theorem Lost.grow {h : Heap} {p b : Nat} (k : Lost h p) (r : Re) : ∃ h' q, grow h p b r = .ok (h', q) ∧ Lost h' (q.getD p) := by
  obtain ⟨o, e, hp, hd⟩ := k
  have hR : ∀ f d, (resize o b f).hd = some d → o.hd = some d := by
    intro f d hd
    unfold resize at hd
    simp only at hd
    split at hd
    · cases hd
    · exact hd
  have hne : ∀ d, o.hd = some d → d.ptr.blk ≠ p := by
    intro d ho hh
    have := (hd d ho).2.1
    rw [hh, e] at this
    cases this
  cases r with
  | null => exact ⟨h, none, grow_null e, o, e, hp, hd⟩
  | same f =>
    refine ⟨h.put p (some (resize o b f)), some p, ?_, resize o b f, put_self _ _ _, hp, ?_⟩
    · unfold Spgrow.grow
      rw [e]
      rfl
    · intro d h'
      have ho := hR f d h'
      refine ⟨(hd d ho).1, ?_, (hd d ho).2.2⟩
      rw [put_other _ _ (hne d ho)]
      exact (hd d ho).2.1
  | moved f =>
    refine ⟨{ ((h.put p none).put h.next (some (resize o b f))) with next := h.next + 1 }, some h.next, ?_,
      resize o b f, put_self _ _ _, Nat.lt_succ_self _, ?_⟩
    · unfold Spgrow.grow
      rw [e]
      rfl
    · intro d h'
      have ho := hR f d h'
      have := (hd d ho).2.2
      refine ⟨(hd d ho).1, ?_, Nat.lt_succ_of_lt this⟩
      show (Heap.put _ _ _).objs d.ptr.blk = none
      rw [put_other _ _ (by omega), put_other _ _ (hne d ho)]
      exact (hd d ho).2.1

/-- A call of stringptr_grow as an operation. -/
def gop (g : Nat × Re) : Op := .grow g.1 g.2

theorem run_cons (h : Heap) (p : Nat) (g : Nat × Re) (ops : List Op) {h1 : Heap} {q : Option Nat} (e : grow h p g.1 g.2 = .ok (h1, q)) :
    run h p (gop g :: ops) = run h1 (q.getD p) ops := by
  rw [run]
  have : step h p (gop g) = .ok (h1, q.getD p) := by
    unfold gop
    rw [step, e]
    rfl
  rw [this]
  rfl

theorem Lost.run : ∀ (gs : List (Nat × Re)) (h : Heap) (p : Nat), Lost h p → ∃ h' q, run h p (gs.map gop) = .ok (h', q) ∧ Lost h' q := by
  intro gs
  induction gs with
  | nil => exact fun h p k => ⟨h, p, rfl, k⟩
  | cons g gs ih =>
    intro h p k
    obtain ⟨h1, q, e, k1⟩ := k.grow (b := g.1) g.2
    rw [List.map_cons, run_cons h p g _ e]
    exact ih _ _ k1

theorem Kept.run {s : List Byte} : ∀ (gs : List (Nat × Re)) (h : Heap) (p : Nat), Kept h p s →
    (∀ g ∈ gs, g.2 = .null ∨ (∃ f, g.2 = .same f) ∧ 16 + s.length ≤ g.1) →
    ∃ h', run h p (gs.map gop) = .ok (h', p) ∧ Kept h' p s := by
  intro gs
  induction gs with
  | nil => exact fun h p k _ => ⟨h, rfl, k⟩
  | cons g gs ih =>
    intro h p k hg
    rcases hg g (List.mem_cons_self ..) with hn | ⟨⟨f, hf⟩, hb⟩
    · obtain ⟨t, e, ht⟩ := k
      rw [List.map_cons, run_cons h p g _ (by rw [hn]; exact grow_null e)]
      exact ih h p ⟨t, e, ht⟩ (fun g h => hg g (List.mem_cons_of_mem _ h))
    · obtain ⟨h1, e, k1, _⟩ := k.same f hb
      rw [List.map_cons, run_cons h p g _ (by rw [hf]; exact e)]
      exact ih h1 p k1 (fun g h => hg g (List.mem_cons_of_mem _ h))

theorem run_append (h : Heap) (p : Nat) (a b : List Op) : run h p (a ++ b) = (run h p a >>= fun x => run x.1 x.2 b) := by
  induction a generalizing h p with
  | nil => rfl
  | cons op a ih =>
    rw [List.cons_append, run, run]
    cases step h p op with
    | error e => rfl
    | ok x => simp only [ok_bind]; exact ih _ _

end Ulz.Spgrow
