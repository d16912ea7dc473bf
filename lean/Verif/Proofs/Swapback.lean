import Verif.Proofs.Joinsplit
set_option linter.unusedSimpArgs false
set_option linter.unusedVariables false
namespace Ulz.Swapback
open Ulz.Stringptr Ulz.Stringptr.Spec Ulz.Joinsplit.Spec Ulz.Joinsplit

theorem split_app {b p rest : List Byte} {qs rs : List (List Byte)} (hb : ¬Bordered b) (hb0 : b ≠ []) (h : Split b p qs) (hr : Split b rest rs) :
    Split b (p ++ b ++ rest) (qs ++ rs) := by
  induction h with
  | @last p h => exact .cons (fun k hk => straddle hb h hk) hr
  | @cons p' rest' ps h1 h2 ih =>
    have hf : ¬b <:+: p' := split_free hb0 (Split.cons h1 h2) p' (by simp)
    have e : p' ++ b ++ rest' ++ b ++ rest = p' ++ b ++ (rest' ++ b ++ rest) := by simp [List.append_assoc]
    rw [e]
    exact .cons (fun k hk => straddle hb hf hk) ih

/-- The pieces of the pieces. -/
inductive Fine (b : List Byte) : List (List Byte) → List (List (List Byte)) → Prop
  | nil : Fine b [] []
  | cons {p qs ps qss} : Split b p qs → Fine b ps qss → Fine b (p :: ps) (qs :: qss)

theorem fine_split {b : List Byte} (hb : ¬Bordered b) (hb0 : b ≠ []) {ps : List (List Byte)} {qss : List (List (List Byte))} (h : Fine b ps qss)
    (hp : ps ≠ []) : Split b (join b ps) qss.flatten := by
  induction h with
  | nil => exact absurd rfl hp
  | @cons p qs ps qss h1 h2 ih =>
    by_cases h0 : ps = []
    · subst h0
      cases h2
      simpa [join] using h1
    · rw [join_cons h0, List.flatten_cons]
      exact split_app hb hb0 h1 (ih h0)

theorem split_ne' {b p : List Byte} {qs : List (List Byte)} (h : Split b p qs) : qs ≠ [] := by
  cases h <;> simp

theorem fine_exists {b : List Byte} (hb0 : b ≠ []) : ∀ ps : List (List Byte), (∀ p ∈ ps, p.length < 2 ^ 64) → ∃ qss, Fine b ps qss
  | [], _ => ⟨[], .nil⟩
  | p :: ps, h => by
    obtain ⟨qss, h1⟩ := fine_exists hb0 ps (fun q hq => h q (by simp [hq]))
    obtain ⟨qs, _, h2, _⟩ := Props.stringptr_splits_correct p [] b [] 0 (fun _ => true) hb0 (h p (by simp))
    exact ⟨qs :: qss, .cons h2 h1⟩

theorem join_length' (d : List Byte) : ∀ ps : List (List Byte), ps ≠ [] → (join d ps).length + d.length = ps.flatten.length + ps.length * d.length
  | [], h => absurd rfl h
  | [p], _ => by simp [join]
  | p :: q :: ps, _ => by
    rw [join_cons (by simp)]
    have := join_length' d (q :: ps) (by simp)
    simp only [List.flatten_cons, List.length_append, List.length_cons, Nat.add_mul, Nat.one_mul] at this ⊢
    omega

theorem fine_count {b : List Byte} {ps : List (List Byte)} {qss : List (List (List Byte))} (h : Fine b ps qss) :
    ps.length ≤ qss.flatten.length ∧ (qss.flatten.length = ps.length → ∀ p ∈ ps, ¬b <:+: p) := by
  induction h with
  | nil => simp
  | @cons p qs ps qss h1 h2 ih =>
    have hq : 0 < qs.length := List.length_pos_iff.2 (split_ne' h1)
    simp only [List.flatten_cons, List.length_append, List.length_cons]
    refine ⟨by omega, fun he q hm => ?_⟩
    have h3 : qs.length = 1 := by omega
    rcases List.mem_cons.1 hm with rfl | hm
    · cases h1 with
      | last h => exact h
      | cons _ g =>
        have := List.length_pos_iff.2 (split_ne' g)
        simp at h3
        exact absurd h3 (split_ne' g)
    · exact ih.2 (by omega) q hm

theorem join_app (d : List Byte) : ∀ (a b : List (List Byte)), a ≠ [] → b ≠ [] → join d (a ++ b) = join d a ++ d ++ join d b
  | [], _, h, _ => absurd rfl h
  | [p], b, _, h => by rw [List.cons_append, List.nil_append, join_cons h]; simp [join]
  | p :: q :: a, b, _, h => by
    rw [List.cons_append, join_cons (x := p) (by simp), join_app d (q :: a) b (by simp) h, join_cons (x := p) (xs := q :: a) (by simp)]
    simp only [List.append_assoc]

theorem join_ne {a b : List Byte} (hne : a ≠ b) (hl : a.length = b.length) : ∀ qs : List (List Byte), join a qs = join b qs → qs.length ≤ 1
  | [], _ => by simp
  | [_], _ => by simp
  | p :: q :: qs, h => by
    rw [join_cons (sep := a) (x := p) (by simp), join_cons (sep := b) (x := p) (by simp), List.append_assoc, List.append_assoc] at h
    exact absurd (List.append_inj (List.append_cancel_left h) hl).1 hne

theorem join_len_eq {a b : List Byte} (hl : a.length = b.length) (qs : List (List Byte)) : (join a qs).length = (join b qs).length := by
  by_cases h : qs = []
  · subst h; simp [join]
  · have h1 := join_length' a qs h
    have h2 := join_length' b qs h
    rw [hl] at h1
    omega

theorem fine_same {a b : List Byte} (hne : a ≠ b) (hl : a.length = b.length) {ps : List (List Byte)} {qss : List (List (List Byte))} (h : Fine b ps qss)
    (he : join a qss.flatten = join a ps) : qss.flatten.length = ps.length := by
  induction h with
  | nil => simp
  | @cons p qs ps qss h1 h2 ih =>
    have hp : join b qs = p := split_join h1
    have h0 := split_ne' h1
    have hq : 0 < qs.length := List.length_pos_iff.2 h0
    by_cases hps : ps = []
    · subst hps
      cases h2
      have : join a qs = join b qs := by rw [hp]; simpa [join] using he
      have := join_ne hne hl qs this
      simp
      omega
    · have hf : qss.flatten ≠ [] := by
        intro h3
        have := (fine_count h2).1
        rw [h3] at this
        exact hps (List.length_eq_zero_iff.1 (by simpa using this))
      rw [List.flatten_cons, join_app a _ _ h0 hf, join_cons hps, List.append_assoc, List.append_assoc] at he
      obtain ⟨e1, e2⟩ := List.append_inj he (by rw [join_len_eq hl, hp])
      have e3 := List.append_cancel_left e2
      have := join_ne hne hl qs (by rw [e1, hp])
      have := ih e3
      simp only [List.flatten_cons, List.length_append, List.length_cons]
      omega

theorem back_iff {a b : List Byte} (hne : a ≠ b) (hb0 : b ≠ []) (hb : ¬Bordered b) {ps qs : List (List Byte)} (hp : ps ≠ []) (hl : ∀ p ∈ ps, p.length < 2 ^ 64)
    (h : Split b (join b ps) qs) : join a qs = join a ps ↔ ∀ p ∈ ps, ¬b <:+: p := by
  obtain ⟨qss, hf⟩ := fine_exists hb0 ps hl
  have hq := split_unique h (fine_split hb hb0 hf hp)
  constructor
  · intro he
    refine (fine_count hf).2 ?_
    by_cases hlen : a.length = b.length
    · exact fine_same hne hlen hf (hq ▸ he)
    · have hq0 : qs ≠ [] := split_ne' h
      have h1 := join_length' a qs hq0
      have h2 := join_length' a ps hp
      have h3 := join_length' b qs hq0
      have h4 := join_length' b ps hp
      rw [he] at h1
      rw [split_join h] at h3
      rw [← hq]
      have e1 : qs.flatten.length + qs.length * a.length = ps.flatten.length + ps.length * a.length := by omega
      have e2 : qs.flatten.length + qs.length * b.length = ps.flatten.length + ps.length * b.length := by omega
      have g := (fine_count hf).1
      rw [← hq] at g
      obtain ⟨k, hk⟩ := Nat.exists_eq_add_of_le g
      rw [hk, Nat.add_mul] at e1 e2
      have e3 : k * a.length = k * b.length := by omega
      rcases Nat.eq_zero_or_pos k with h0 | h0
      · omega
      · exact absurd (Nat.eq_of_mul_eq_mul_left h0 e3) hlen
  · intro hfree
    rw [split_unique h (split_of_free hb ps hp hfree)]

theorem piece_le {d s : List Byte} {ps : List (List Byte)} (h : Split d s ps) : ∀ p ∈ ps, p.length ≤ s.length := by
  induction h with
  | last => intro p hp; rw [List.mem_singleton] at hp; rw [hp]; exact Nat.le_refl _
  | @cons p rest ps _ _ ih =>
    intro q hq
    simp only [List.length_append]
    rcases List.mem_cons.1 hq with rfl | hq
    · omega
    · have := ih q hq
      omega

theorem piece_infix {d s : List Byte} {ps : List (List Byte)} (h : Split d s ps) : ∀ p ∈ ps, p <:+: s := by
  induction h with
  | last => intro p hp; rw [List.mem_singleton] at hp; rw [hp]; exact List.infix_rfl
  | @cons p rest ps _ _ ih =>
    intro q hq
    rcases List.mem_cons.1 hq with rfl | hq
    · exact ⟨[], d ++ rest, by simp [List.append_assoc]⟩
    · exact (ih q hq).trans (List.suffix_append _ _).isInfix

theorem split_char {c : Byte} {y : List Byte} (h : c ∉ y) : Split [c] (y ++ [c]) [y, []] := by
  have := Split.cons (d := [c]) (p := y) (rest := []) (ps := [[]]) ?_ (.last (by rintro ⟨u, v, e⟩; simp at e))
  · simpa using this
  · intro k hk hpre
    rw [List.append_nil, List.drop_append_of_le_length (by omega), List.drop_eq_getElem_cons hk] at hpre
    obtain ⟨z, hz⟩ := hpre
    injection hz with e _
    exact h (e ▸ List.getElem_mem hk)

end Ulz.Swapback
