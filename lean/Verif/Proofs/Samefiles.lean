import Verif.Spec.Samefiles
import Verif.Proofs.Filelist
import Verif.Props.Filelist
import Verif.Props.Programs
/-! Lemmas for the traversal of find_identical_files. -/
namespace Ulz.Samefiles
open Ulz.Filelist.Spec Ulz.Samefiles.Spec
open Ulz.Stringptr.Spec (Holds HoldsAll)
open Ulz.Programs (fullNames endsWithSlash printed)

theorem endsWithSlash_iff (f : List Byte) : endsWithSlash f = true ↔ IsDir f := by
  unfold endsWithSlash IsDir; simp

theorem fullNames_join {d1 d2 : List Byte} (h : IsDir d1 ↔ IsDir d2) (f : List Byte) : fullNames d1 d2 f = (join d1 f, join d2 f) := by
  have h1 := (Props.full_names d1 d2 f).1
  have h2 := (Props.full_names d1 d2 f).2.2 h
  exact Prod.ext h1 h2

theorem isDir_ne {f : List Byte} (h : IsDir f) : f ≠ [] := by
  rintro rfl; exact absurd h (by simp [IsDir])

theorem isDir_join {d f : List Byte} (h : IsDir f) : IsDir (join d f) := by
  unfold join IsDir at *
  rw [List.getLast?_append, h]; rfl

theorem join_join {d f : List Byte} (h : IsDir f) (rel : List Byte) : join (join d f) rel = join d (f ++ rel) := by
  have h2 := isDir_join (d := d) h
  unfold IsDir at h2
  rw [join, if_pos h2]
  simp only [join, List.append_nil, List.append_assoc]

theorem join_inj {d f g : List Byte} (h : join d f = join d g) : f = g := by
  unfold join at h
  exact List.append_cancel_left h

theorem join_length (d f : List Byte) : d.length + f.length ≤ (join d f).length ∧ (join d f).length ≤ d.length + f.length + 1 := by
  unfold join
  split <;> simp <;> omega

/-! ### The search -/

theorem texts {l : List Stringptr.SP} {ss : List (List Byte)} (h : HoldsAll l ss) : l.map (fun s => s.buf.take s.size) = ss := by
  induction h with
  | nil => rfl
  | cons hp _ ih =>
    obtain ⟨h1, t, h2⟩ := hp
    rw [List.map_cons, ih, h1, ← h2, List.take_left]

theorem dots12 : dots 12 = [] := by decide

theorem search_lists {e : Env} (hb : e.buf.length = 4096) {d : List Byte} {ns : List (List Byte)} (h : Lists e d ns) : search e d = .ok (0, ns) := by
  obtain ⟨h0, hz, hl, ps, h1, h2, h3⟩ := h
  obtain ⟨files, f1, f2⟩ := Props.filelist_search_correct (some ⟨d ++ [0], d.length⟩) d (Or.inl ⟨_, rfl, ⟨rfl, [0], rfl⟩, h0⟩)
    ⟨bytes! "*" ++ [0], 1⟩ (bytes! "*") ⟨rfl, [0], rfl⟩ (by decide) hz (by decide) 12 e.buf hb (by simpa using hl) e.glob ps ns h1 h2 h3
  rw [dots12, List.nil_append] at f2
  unfold search
  rw [f1]
  simp only [ok_bind, pure_eq_ok, texts f2]

theorem lists_unique {e : Env} (hb : e.buf.length = 4096) {d : List Byte} {ns ns' : List (List Byte)} (h : Lists e d ns) (h' : Lists e d ns') :
    ns = ns' := by
  have := (search_lists hb h).symm.trans (search_lists hb h')
  injection this with this
  injection this

theorem base_shape {p n : List Byte} (h : Base p n) : (∃ core, n = core ∧ ch '/' ∉ core ∧ core ≠ []) ∨ ∃ core, n = core ++ [ch '/'] ∧ ch '/' ∉ core := by
  obtain ⟨pre, core, tail, _, h2, h3, ⟨rfl, h4⟩ | rfl⟩ := h
  · exact Or.inl ⟨core, by simpa using h2, h3, h4⟩
  · exact Or.inr ⟨core, h2, h3⟩

theorem entries_base {ps ns : List (List Byte)} (h : Entries 12 ps ns) : ∀ n ∈ ns, ∃ p ∈ ps, Base p n := by
  induction h with
  | nil => simp
  | empty _ ih => intro n hn; obtain ⟨p, h1, h2⟩ := ih n hn; exact ⟨p, List.mem_cons_of_mem _ h1, h2⟩
  | keep _ h2 _ _ ih =>
    intro n hn
    rcases List.mem_cons.1 hn with rfl | hn
    · exact ⟨_, List.mem_cons_self, by simpa [Name] using h2⟩
    · obtain ⟨p, h1, h2⟩ := ih n hn; exact ⟨p, List.mem_cons_of_mem _ h1, h2⟩
  | drop _ _ _ _ ih => intro n hn; obtain ⟨p, h1, h2⟩ := ih n hn; exact ⟨p, List.mem_cons_of_mem _ h1, h2⟩

theorem dir_shape {p n : List Byte} (h : Base p n) (hd : IsDir n) : ∃ core, n = core ++ [ch '/'] ∧ ch '/' ∉ core := by
  rcases base_shape h with ⟨core, rfl, h1, h2⟩ | h
  · exfalso
    apply h1
    exact List.mem_of_getLast? hd
  · exact h

theorem file_shape {p n : List Byte} (h : Base p n) (hd : ¬ IsDir n) : ch '/' ∉ n := by
  rcases base_shape h with ⟨core, rfl, h1, h2⟩ | ⟨core, rfl, _⟩
  · exact h1
  · exact absurd (by simp [IsDir]) hd

/-- Directory names are determined by the paths that begin with them. -/
theorem dir_unique {f g r s : List Byte} : ∀ {c c' : List Byte}, f = c ++ [ch '/'] → ch '/' ∉ c → g = c' ++ [ch '/'] → ch '/' ∉ c' → f ++ r = g ++ s → f = g := by
  intro c
  induction c generalizing f g with
  | nil =>
    intro c' h1 _ h3 h4 h
    subst h1 h3
    cases c' with
    | nil => rfl
    | cons x c' =>
      simp only [List.nil_append, List.cons_append, List.cons.injEq] at h
      exact absurd (h.1 ▸ List.mem_cons_self) h4
  | cons x c ih =>
    intro c' h1 h2 h3 h4 h
    subst h1 h3
    cases c' with
    | nil =>
      simp only [List.nil_append, List.cons_append, List.cons.injEq] at h
      exact absurd (h.1 ▸ List.mem_cons_self) h2
    | cons y c' =>
      simp only [List.cons_append, List.cons.injEq] at h
      have := ih (c' := c') rfl (fun m => h2 (List.mem_cons_of_mem _ m)) rfl (fun m => h4 (List.mem_cons_of_mem _ m)) h.2
      simp only [List.cons_append]
      rw [h.1, this]

/-- Every search ends with a list or an error. -/
theorem search_total {e : Env} (he : Env.Ok e) (d : List Byte) (hd : d.length < 2^63) :
    (∃ r, r ≠ 0 ∧ search e d = .ok (r, [])) ∨
    (d.length < 4093 ∧ ∃ ns, search e d = .ok (0, ns) ∧ (∀ n ∈ ns, n.length < 2^62) ∧ (d ≠ [] → 0 ∉ d → Lists e d ns)) := by
  have hs : ∀ r, Filelist.filelist_search true (some ⟨d ++ [0], d.length⟩) (some ⟨bytes! "*" ++ [0], 1⟩) 12 e.buf e.glob true (fun _ => true) = .ok (r, []) →
      search e d = .ok (r, []) := by
    intro r h
    unfold search
    rw [h]; rfl
  generalize hdd : (if d = [] then bytes! "./" else d) = d'
  have hN : Props.Names (some ⟨d ++ [0], d.length⟩) d' := by
    by_cases h : d = []
    · rw [if_pos h] at hdd
      exact Or.inr ⟨hdd.symm, fun p hp => by injection hp with hp; rw [← hp]; simp [h]⟩
    · rw [if_neg h] at hdd
      exact Or.inl ⟨_, rfl, ⟨by simp [hdd], [0], by rw [hdd]⟩, hdd ▸ h⟩
  have hl' : d'.length ≤ d.length + 2 := by
    rw [← hdd]; split
    · simp
    · omega
  have hge : d.length ≤ d'.length := by
    rw [← hdd]; split
    · rename_i h; simp [h]
    · omega
  have key := Filelist.search_spec (some ⟨d ++ [0], d.length⟩) d' hN ⟨bytes! "*" ++ [0], 1⟩ (bytes! "*") ⟨rfl, [0], rfl⟩ (by decide)
    (by have : (bytes! "*").length = 1 := rfl
        omega) 12 e.buf he.buf e.glob true (fun _ => true)
  have hml : (bytes! "*").length = 1 := rfl
  rw [hml] at key
  by_cases hfit : (escape d').length + 1 + 2 < 4096
  · rw [if_pos hfit] at key
    cases hg : e.glob (cstr (pattern d' (bytes! "*") ++ [0])) ((12 : BitVec 32).getLsbD 3) with
    | error r =>
      rw [hg] at key
      exact Or.inl ⟨r, he.errors _ _ _ hg, hs _ key⟩
    | ok ps =>
      rw [hg] at key
      obtain ⟨ts, rfl, hts⟩ := he.strings _ _ _ hg
      simp only [Bool.not_true, Bool.false_eq_true, if_false] at key
      obtain ⟨fs, h1, _, h2, _⟩ := Filelist.literals_spec 12 (fun _ => true)
      rw [h2 (fun _ => rfl), dots12] at h1
      rcases Props.filelist_paths 12 ts with ⟨ns, hns⟩ | hbad
      · rcases Filelist.pathLoop_spec 12 (fun _ => true) hns (fun t ht => (hts t ht).1) (Filelist.literals 12 fun _ => true).1 _ _ h1 with
          ⟨files, h3, h4, _⟩ | ⟨_, i, _, h4⟩
        · rw [List.nil_append] at h4
          refine Or.inr ⟨?_, ns, ?_, ?_, ?_⟩
          · have := Filelist.escape_length_le d'
            omega
          · unfold search
            rw [key, h3]
            simp only [ok_bind, pure_eq_ok, texts h4]
          · intro n hn
            obtain ⟨p, hp, pre, core, tail, e1, e2, _⟩ := entries_base hns n hn
            have := (hts p hp).2
            rw [e1] at this
            rw [e2]
            simp only [List.length_append, List.length_cons] at this ⊢
            omega
          · intro n1 n2
            rw [if_neg n1] at hdd
            subst hdd
            rw [Filelist.pattern_clean d _ n2 (by decide)] at hg
            exact ⟨n1, n2, by omega, ts, fun t ht => (hts t ht).1, hg, hns⟩
        · exact absurd h4 (by simp)
      · rw [Filelist.pathLoop_err 12 _ ts (fun t ht => (hts t ht).1) hbad] at key
        exact Or.inl ⟨-1, by decide, hs _ key⟩
  · rw [if_neg hfit] at key
    exact Or.inl ⟨-1, by decide, hs _ key⟩

/-! ### The traversal -/

/-- What the loop has to print for the entries `fs`. -/
def Wanted (e : Env) (mode : Nat) (d1 d2 rel : List Byte) : Prop := e.data (join d1 rel) = e.data (join d2 rel) ↔ mode = 0

theorem entries_good {e : Env} {mode : Nat} (hm : mode = 0 ∨ mode = 1) {d1 d2 : List Byte} (hp : IsDir d1 ↔ IsDir d2)
    {rec : List Byte → List Byte → Nat → C (List (List Byte) × Int × Nat)} {ns2 : List (List Byte)}
    (P : List Byte → List Byte → Prop)
    (hP : ∀ f x, P f x → ∃ rel, x = join (join d1 f) rel) :
    ∀ (fs : List (List Byte)), fs.Nodup → (∀ f ∈ fs, ∃ p, Base p f) →
    (∀ f ∈ fs, f ∈ ns2 → IsDir f → ∀ k, ∃ o k', rec (join d1 f) (join d2 f) k = .ok (o, 0, k') ∧ o.Nodup ∧ ∀ x, x ∈ o ↔ P f x) →
    (∀ f ∈ fs, f ∈ ns2 → ¬ IsDir f → (e.data (join d1 f)).isSome ∧ (e.data (join d2 f)).isSome) → ∀ k,
    ∃ o k', entries e mode rec d1 d2 ns2 fs k = .ok (o, none, k') ∧ o.Nodup ∧
      ∀ x, x ∈ o ↔ (∃ f ∈ fs, f ∈ ns2 ∧ ¬ IsDir f ∧ x = join d1 f ∧ Wanted e mode d1 d2 f) ∨ ∃ f ∈ fs, f ∈ ns2 ∧ IsDir f ∧ P f x := by
  intro fs
  induction fs with
  | nil => intro _ _ _ _ k; exact ⟨[], k, rfl, List.nodup_nil, by simp⟩
  | cons f fs ih =>
    intro hnd hb hd hf k
    have hnd' := List.nodup_cons.1 hnd
    have ih := ih hnd'.2 (fun g hg => hb g (List.mem_cons_of_mem _ hg)) (fun g hg => hd g (List.mem_cons_of_mem _ hg)) (fun g hg => hf g (List.mem_cons_of_mem _ hg))
    unfold entries
    by_cases h2 : f ∈ ns2
    · rw [if_pos h2, fullNames_join hp]
      by_cases h3 : IsDir f
      · rw [if_pos ((endsWithSlash_iff f).2 h3)]
        obtain ⟨o, k1, r1, r2, r3⟩ := hd f List.mem_cons_self h2 h3 k
        obtain ⟨o', k2, q1, q2, q3⟩ := ih k1
        refine ⟨o ++ o', k2, ?_, ?_, ?_⟩
        · simp only [r1, ok_bind, ne_eq, not_true, if_false, q1, pure_eq_ok]
        · rw [List.nodup_append]
          refine ⟨r2, q2, ?_⟩
          intro x hx y hy hxy
          subst hxy
          obtain ⟨rel, e1⟩ := hP f x ((r3 x).1 hx)
          rw [join_join h3] at e1
          obtain ⟨p, hpb⟩ := hb f List.mem_cons_self
          obtain ⟨c, c1, c2⟩ := dir_shape hpb h3
          rcases (q3 x).1 hy with ⟨g, g1, g2, g3, g4, _⟩ | ⟨g, g1, g2, g3, g4⟩
          · obtain ⟨p', hpb'⟩ := hb g (List.mem_cons_of_mem _ g1)
            have := file_shape hpb' g3
            have e2 := join_inj (e1.symm.trans g4)
            apply this
            rw [← e2, c1]
            simp
          · obtain ⟨p', hpb'⟩ := hb g (List.mem_cons_of_mem _ g1)
            obtain ⟨c', c1', c2'⟩ := dir_shape hpb' g3
            obtain ⟨rel', e2⟩ := hP g x g4
            rw [join_join g3] at e2
            have e3 := join_inj (e1.symm.trans e2)
            have := dir_unique c1 c2 c1' c2' e3
            subst this
            exact hnd'.1 g1
        · intro x
          rw [List.mem_append, r3, q3]
          constructor
          · rintro (h | ⟨g, g1, g2⟩ | ⟨g, g1, g2⟩)
            · exact Or.inr ⟨f, List.mem_cons_self, h2, h3, h⟩
            · exact Or.inl ⟨g, List.mem_cons_of_mem _ g1, g2⟩
            · exact Or.inr ⟨g, List.mem_cons_of_mem _ g1, g2⟩
          · rintro (⟨g, g1, g2, g3, g4⟩ | ⟨g, g1, g2, g3, g4⟩)
            · rcases List.mem_cons.1 g1 with rfl | g1
              · exact absurd h3 g3
              · exact Or.inr (Or.inl ⟨g, g1, g2, g3, g4⟩)
            · rcases List.mem_cons.1 g1 with rfl | g1
              · exact Or.inl g4
              · exact Or.inr (Or.inr ⟨g, g1, g2, g3, g4⟩)
      · rw [if_neg (fun h => h3 ((endsWithSlash_iff f).1 h))]
        obtain ⟨x1, x2⟩ := hf f List.mem_cons_self h2 h3
        obtain ⟨a, ha⟩ := Option.isSome_iff_exists.1 x1
        obtain ⟨b, hb'⟩ := Option.isSome_iff_exists.1 x2
        obtain ⟨o', k2, q1, q2, q3⟩ := ih k
        have hW : Wanted e mode d1 d2 f ↔ (a = b ↔ mode = 0) := by
          unfold Wanted
          rw [ha, hb', Option.some.injEq]
        refine ⟨(if decide (a = b ↔ mode = 0) = true then [join d1 f] else []) ++ o', k2, ?_, ?_, ?_⟩
        · simp only [ha, hb', Option.map_some, Props.identical_files_printed a b mode hm, ok_bind, q1, pure_eq_ok]
        · rw [List.nodup_append]
          refine ⟨by split <;> simp, q2, ?_⟩
          intro x hx y hy hxy
          subst hxy
          obtain ⟨p, hpb⟩ := hb f List.mem_cons_self
          have hns := file_shape hpb h3
          have e1 : x = join d1 f := by
            split at hx
            · simpa using hx
            · simp at hx
          rcases (q3 x).1 hy with ⟨g, g1, g2, g3, g4, _⟩ | ⟨g, g1, g2, g3, g4⟩
          · have := join_inj (e1.symm.trans g4)
            subst this
            exact hnd'.1 g1
          · obtain ⟨p', hpb'⟩ := hb g (List.mem_cons_of_mem _ g1)
            obtain ⟨c', c1', c2'⟩ := dir_shape hpb' g3
            obtain ⟨rel', e2⟩ := hP g x g4
            rw [join_join g3] at e2
            have e3 := join_inj (e1.symm.trans e2)
            apply hns
            rw [e3, c1']
            simp
        · intro x
          rw [List.mem_append, q3]
          constructor
          · rintro (h | ⟨g, g1, g2⟩ | ⟨g, g1, g2⟩)
            · split at h
              · rename_i hw
                exact Or.inl ⟨f, List.mem_cons_self, h2, h3, by simpa using h, hW.2 (by simpa using hw)⟩
              · simp at h
            · exact Or.inl ⟨g, List.mem_cons_of_mem _ g1, g2⟩
            · exact Or.inr ⟨g, List.mem_cons_of_mem _ g1, g2⟩
          · rintro (⟨g, g1, g2, g3, g4, g5⟩ | ⟨g, g1, g2, g3, g4⟩)
            · rcases List.mem_cons.1 g1 with rfl | g1
              · left
                rw [if_pos (by simpa using hW.1 g5), g4]
                simp
              · exact Or.inr (Or.inl ⟨g, g1, g2, g3, g4, g5⟩)
            · rcases List.mem_cons.1 g1 with rfl | g1
              · exact absurd g3 h3
              · exact Or.inr (Or.inr ⟨g, g1, g2, g3, g4⟩)
    · rw [if_neg h2]
      obtain ⟨o', k2, q1, q2, q3⟩ := ih k
      refine ⟨o', k2, q1, q2, ?_⟩
      intro x
      rw [q3]
      constructor
      · rintro (⟨g, g1, g2⟩ | ⟨g, g1, g2⟩)
        · exact Or.inl ⟨g, List.mem_cons_of_mem _ g1, g2⟩
        · exact Or.inr ⟨g, List.mem_cons_of_mem _ g1, g2⟩
      · rintro (⟨g, g1, g2, g3⟩ | ⟨g, g1, g2, g3⟩)
        · rcases List.mem_cons.1 g1 with rfl | g1
          · exact absurd g2 h2
          · exact Or.inl ⟨g, g1, g2, g3⟩
        · rcases List.mem_cons.1 g1 with rfl | g1
          · exact absurd g2 h2
          · exact Or.inr ⟨g, g1, g2, g3⟩

theorem common_inv {e : Env} (hb : e.buf.length = 4096) {d1 d2 : List Byte} {ns1 ns2 : List (List Byte)} (h1 : Lists e d1 ns1) (h2 : Lists e d2 ns2)
    (rel : List Byte) : Common e d1 d2 rel ↔ (rel ∈ ns1 ∧ rel ∈ ns2 ∧ ¬ IsDir rel) ∨
      ∃ f ∈ ns1, f ∈ ns2 ∧ IsDir f ∧ ∃ r, rel = f ++ r ∧ Common e (join d1 f) (join d2 f) r := by
  constructor
  · intro h
    cases h with
    | file g1 g2 g3 g4 g5 =>
      obtain rfl := lists_unique hb h1 g1
      obtain rfl := lists_unique hb h2 g2
      exact Or.inl ⟨g3, g4, g5⟩
    | dir g1 g2 g3 g4 g5 g6 =>
      obtain rfl := lists_unique hb h1 g1
      obtain rfl := lists_unique hb h2 g2
      exact Or.inr ⟨_, g3, g4, g5, _, rfl, g6⟩
  · rintro (⟨g1, g2, g3⟩ | ⟨f, g1, g2, g3, r, rfl, g4⟩)
    · exact .file h1 h2 g1 g2 g3
    · exact .dir h1 h2 g1 g2 g3 g4

/-- The traversal of directories that can be walked. -/
theorem process_good {e : Env} (hb : e.buf.length = 4096) (hj : ∀ k, e.junk k = 0) {mode : Nat} (hm : mode = 0 ∨ mode = 1) {d1 d2 : List Byte}
    (hw : Walkable e d1 d2) : (IsDir d1 ↔ IsDir d2) → ∀ fuel k, 4093 < fuel + d1.length → ∃ o k', process_path e mode fuel d1 d2 k = .ok (o, 0, k') ∧ o.Nodup ∧
      ∀ x, x ∈ o ↔ ∃ rel, Common e d1 d2 rel ∧ x = join d1 rel ∧ Wanted e mode d1 d2 rel := by
  induction hw with
  | @mk d1 d2 ns1 ns2 h1 h2 hnd hwd hf ih =>
    intro hp fuel k hfu
    have hl : d1.length < 4093 := by
      have := Filelist.escape_length_le d1
      have := h1.2.2.1
      omega
    obtain ⟨fuel, rfl⟩ : ∃ n, fuel = n + 1 := ⟨fuel - 1, by omega⟩
    have hbase : ∀ f ∈ ns1, ∃ p, Base p f := by
      obtain ⟨_, _, _, ps, _, _, h⟩ := h1
      intro f hf
      obtain ⟨p, _, hp⟩ := entries_base h f hf
      exact ⟨p, hp⟩
    obtain ⟨o, k', r1, r2, r3⟩ := entries_good hm hp (rec := process_path e mode fuel) (ns2 := ns2)
      (fun f x => ∃ rel, Common e (join d1 f) (join d2 f) rel ∧ x = join (join d1 f) rel ∧ Wanted e mode (join d1 f) (join d2 f) rel)
      (by rintro f x ⟨rel, _, h, _⟩; exact ⟨rel, h⟩) ns1 hnd hbase
      (by
        intro f g1 g2 g3 k
        refine ih f g1 g2 g3 ⟨fun _ => isDir_join g3, fun _ => isDir_join g3⟩ fuel k ?_
        have := (join_length d1 f).1
        have : f.length ≠ 0 := fun h => isDir_ne g3 (List.eq_nil_of_length_eq_zero h)
        omega) hf k
    refine ⟨o, k' + 1, ?_, r2, ?_⟩
    · rw [process_path, search_lists hb h1]
      simp only [ok_bind, ne_eq, not_true, if_false]
      rw [search_lists hb h2]
      simp only [ok_bind, ne_eq, not_true, if_false]
      rw [r1]
      simp only [ok_bind, pure_eq_ok, hj]
    · intro x
      rw [r3]
      constructor
      · rintro (⟨f, f1, f2, f3, f4, f5⟩ | ⟨f, f1, f2, f3, rel, g1, g2, g3⟩)
        · exact ⟨f, .file h1 h2 f1 f2 f3, f4, f5⟩
        · refine ⟨f ++ rel, .dir h1 h2 f1 f2 f3 g1, ?_, ?_⟩
          · rw [g2, join_join f3]
          · unfold Wanted at *
            rw [join_join f3, join_join f3] at g3
            exact g3
      · rintro ⟨rel, g1, g2, g3⟩
        rcases (common_inv hb h1 h2 rel).1 g1 with ⟨f1, f2, f3⟩ | ⟨f, f1, f2, f3, r, rfl, f4⟩
        · exact Or.inl ⟨rel, f1, f2, f3, g2, g3⟩
        · refine Or.inr ⟨f, f1, f2, f3, r, f4, ?_, ?_⟩
          · rw [g2, join_join f3]
          · unfold Wanted at *
            rw [join_join f3, join_join f3]
            exact g3

/-! ### Termination -/

theorem entries_total {e : Env} {mode : Nat} {d1 d2 : List Byte}
    {rec : List Byte → List Byte → Nat → C (List (List Byte) × Int × Nat)} {ns2 : List (List Byte)} :
    ∀ (fs : List (List Byte)), (∀ f ∈ fs, IsDir f → ∀ k, rec (fullNames d1 d2 f).1 (fullNames d1 d2 f).2 k ≠ .error .hang) → ∀ k,
    entries e mode rec d1 d2 ns2 fs k ≠ .error .hang := by
  intro fs
  induction fs with
  | nil => intro _ k h; cases h
  | cons f fs ih =>
    intro hr k
    have ih := ih (fun g hg => hr g (List.mem_cons_of_mem _ hg))
    unfold entries
    split
    · split
      · rename_i hd
        have := hr f List.mem_cons_self ((endsWithSlash_iff f).1 hd) k
        cases h1 : rec (fullNames d1 d2 f).1 (fullNames d1 d2 f).2 k with
        | error u =>
          intro h
          rw [h1] at this
          exact this (by cases h; rfl)
        | ok v =>
          obtain ⟨o, r, k1⟩ := v
          simp only [ok_bind]
          split
          · intro h; cases h
          · have := ih k1
            cases h2 : entries e mode rec d1 d2 ns2 fs k1 with
            | error u => intro h; rw [h2] at this; exact this (by cases h; rfl)
            | ok v => intro h; cases h
      · simp only
        cases h1 : printed mode ((e.data (fullNames d1 d2 f).1).map List.length) ((e.data (fullNames d1 d2 f).2).map List.length)
            (e.data (fullNames d1 d2 f).1) (e.data (fullNames d1 d2 f).2) with
        | error u =>
          intro h
          have hu : u = .hang := by cases h; rfl
          subst hu
          unfold printed at h1
          split at h1
          · cases h1
          · unfold Programs.compare_files at h1
            split at h1
            · rename_i a b _ _
              obtain ⟨r, hr, _⟩ := Props.compare_files_exact a b
              unfold Programs.compare_files at hr
              simp only at hr
              rw [hr] at h1
              cases h1
            · cases h1
        | ok v =>
          simp only [ok_bind]
          have := ih k
          cases h2 : entries e mode rec d1 d2 ns2 fs k with
          | error u => intro h; rw [h2] at this; exact this (by cases h; rfl)
          | ok v => intro h; cases h
    · exact ih k

theorem fullNames_length (d1 d2 f : List Byte) : d1.length + f.length ≤ (fullNames d1 d2 f).1.length ∧ (fullNames d1 d2 f).1.length ≤ d1.length + f.length + 1 ∧
    (fullNames d1 d2 f).2.length ≤ d2.length + f.length + 1 := by
  unfold fullNames
  split <;> simp <;> omega

theorem process_total {e : Env} (he : Env.Ok e) (mode : Nat) : ∀ fuel d1 d2 k, 4093 < fuel + d1.length → 0 < fuel → d1.length < 2^63 → d2.length < 2^63 →
    process_path e mode fuel d1 d2 k ≠ .error .hang := by
  intro fuel
  induction fuel with
  | zero => intro _ _ _ _ h; omega
  | succ fuel ih =>
    intro d1 d2 k hf _ hl1 hl2
    rw [process_path]
    rcases search_total he d1 hl1 with ⟨r, h0, h1⟩ | ⟨h0, ns1, h1, h1', _⟩
    · rw [h1]
      simp only [ok_bind, if_pos h0]
      intro h; cases h
    · rw [h1]
      simp only [ok_bind, ne_eq, not_true, if_false]
      rcases search_total he d2 hl2 with ⟨r, h2, h3⟩ | ⟨h2, ns2, h3, h3', _⟩
      · rw [h3]
        simp only [ok_bind]
        rw [if_pos h2]
        intro h; cases h
      · rw [h3]
        simp only [ok_bind, ne_eq, not_true, if_false]
        have ht := entries_total (e := e) (mode := mode) (d1 := d1) (d2 := d2) (rec := process_path e mode fuel) (ns2 := ns2) ns1
          (by
            intro f hfm hfd k'
            have hn : f.length ≠ 0 := fun h => isDir_ne hfd (List.eq_nil_of_length_eq_zero h)
            have hs := h1' f hfm
            obtain ⟨l1, l2, l3⟩ := fullNames_length d1 d2 f
            exact ih _ _ k' (by omega) (by omega) (by omega) (by omega)) k
        cases h4 : entries e mode (process_path e mode fuel) d1 d2 ns2 ns1 k with
        | error u => intro h; rw [h4] at ht; exact ht (by cases h; rfl)
        | ok v =>
          obtain ⟨o, r, k1⟩ := v
          simp only [ok_bind]
          cases r <;> (intro h; cases h)

/-! ### Early end -/

theorem entries_stop {e : Env} {mode : Nat} {d1 d2 : List Byte} (hp : IsDir d1 ↔ IsDir d2)
    {rec : List Byte → List Byte → Nat → C (List (List Byte) × Int × Nat)} {ns2 : List (List Byte)} {f : List Byte} (hf2 : f ∈ ns2) (hfd : IsDir f)
    (hrel : ∀ h, IsDir h → ∀ k o r k', rec (join d1 h) (join d2 h) k = .ok (o, r, k') → ∀ x ∈ o, ∃ rel, x = join (join d1 h) rel)
    (hrec : ∀ k o r k', rec (join d1 f) (join d2 f) k = .ok (o, r, k') → r ≠ 0) {ys : List (List Byte)} :
    ∀ (xs : List (List Byte)) k o r k', entries e mode rec d1 d2 ns2 (xs ++ f :: ys) k = .ok (o, r, k') →
    (∃ v, r = some v ∧ v ≠ 0) ∧ ∀ x ∈ o, (∃ g ∈ xs, ¬ IsDir g ∧ x = join d1 g) ∨ ∃ h ∈ xs ++ [f], IsDir h ∧ ∃ rel, x = join d1 (h ++ rel) := by
  intro xs
  induction xs with
  | nil =>
    intro k o r k' h
    rw [List.nil_append, entries, if_pos hf2, fullNames_join hp, if_pos ((endsWithSlash_iff f).2 hfd)] at h
    cases h1 : rec (join d1 f) (join d2 f) k with
    | error u => rw [h1] at h; cases h
    | ok v =>
      obtain ⟨o1, r1, k1⟩ := v
      have hr := hrec _ _ _ _ h1
      simp only [h1, ok_bind, ne_eq, hr, not_false_eq_true, if_true, pure_eq_ok, Except.ok.injEq, Prod.mk.injEq] at h
      obtain ⟨rfl, rfl, rfl⟩ := h
      refine ⟨⟨_, rfl, hr⟩, ?_⟩
      intro x hx
      obtain ⟨rel, e1⟩ := hrel f hfd _ _ _ _ h1 x hx
      exact Or.inr ⟨f, by simp, hfd, rel, by rw [e1, join_join hfd]⟩
  | cons y xs ih =>
    intro k o r k' h
    have lift : ∀ x, ((∃ g ∈ xs, ¬ IsDir g ∧ x = join d1 g) ∨ ∃ h ∈ xs ++ [f], IsDir h ∧ ∃ rel, x = join d1 (h ++ rel)) →
        ((∃ g ∈ y :: xs, ¬ IsDir g ∧ x = join d1 g) ∨ ∃ h ∈ y :: xs ++ [f], IsDir h ∧ ∃ rel, x = join d1 (h ++ rel)) := by
      rintro x (⟨g, g1, g2⟩ | ⟨g, g1, g2⟩)
      · exact Or.inl ⟨g, List.mem_cons_of_mem _ g1, g2⟩
      · exact Or.inr ⟨g, List.mem_cons_of_mem _ g1, g2⟩
    rw [List.cons_append, entries] at h
    by_cases h2 : y ∈ ns2
    · rw [if_pos h2, fullNames_join hp] at h
      by_cases h3 : IsDir y
      · rw [if_pos ((endsWithSlash_iff y).2 h3)] at h
        cases h1 : rec (join d1 y) (join d2 y) k with
        | error u => rw [h1] at h; cases h
        | ok v =>
          obtain ⟨o1, r1, k1⟩ := v
          have here : ∀ x ∈ o1, ∃ h ∈ y :: xs ++ [f], IsDir h ∧ ∃ rel, x = join d1 (h ++ rel) := by
            intro x hx
            obtain ⟨rel, e1⟩ := hrel y h3 _ _ _ _ h1 x hx
            exact ⟨y, by simp, h3, rel, by rw [e1, join_join h3]⟩
          simp only [h1, ok_bind] at h
          by_cases hr : r1 = 0
          · rw [if_neg (by simpa using hr)] at h
            cases h4 : entries e mode rec d1 d2 ns2 (xs ++ f :: ys) k1 with
            | error u => rw [h4] at h; cases h
            | ok v =>
              obtain ⟨o2, r2, k2⟩ := v
              simp only [h4, ok_bind, pure_eq_ok, Except.ok.injEq, Prod.mk.injEq] at h
              obtain ⟨rfl, rfl, rfl⟩ := h
              obtain ⟨q1, q2⟩ := ih _ _ _ _ h4
              refine ⟨q1, ?_⟩
              intro x hx
              rcases List.mem_append.1 hx with hx | hx
              · exact Or.inr (here x hx)
              · exact lift x (q2 x hx)
          · simp only [ne_eq, hr, not_false_eq_true, if_true, pure_eq_ok, Except.ok.injEq, Prod.mk.injEq] at h
            obtain ⟨rfl, rfl, rfl⟩ := h
            exact ⟨⟨_, rfl, hr⟩, fun x hx => Or.inr (here x hx)⟩
      · rw [if_neg (fun h => h3 ((endsWithSlash_iff y).1 h))] at h
        simp only at h
        cases h1 : printed mode ((e.data (join d1 y)).map List.length) ((e.data (join d2 y)).map List.length) (e.data (join d1 y)) (e.data (join d2 y)) with
        | error u => rw [h1] at h; cases h
        | ok b =>
          simp only [h1, ok_bind] at h
          cases h4 : entries e mode rec d1 d2 ns2 (xs ++ f :: ys) k with
          | error u => rw [h4] at h; cases h
          | ok v =>
            obtain ⟨o2, r2, k2⟩ := v
            simp only [h4, ok_bind, pure_eq_ok, Except.ok.injEq, Prod.mk.injEq] at h
            obtain ⟨rfl, rfl, rfl⟩ := h
            obtain ⟨q1, q2⟩ := ih _ _ _ _ h4
            refine ⟨q1, ?_⟩
            intro x hx
            rcases List.mem_append.1 hx with hx | hx
            · left
              refine ⟨y, by simp, h3, ?_⟩
              split at hx
              · simpa using hx
              · simp at hx
            · exact lift x (q2 x hx)
    · rw [if_neg h2] at h
      obtain ⟨q1, q2⟩ := ih _ _ _ _ h
      exact ⟨q1, fun x hx => lift x (q2 x hx)⟩

theorem entries_under {e : Env} {mode : Nat} {d1 d2 : List Byte} (hp : IsDir d1 ↔ IsDir d2)
    {rec : List Byte → List Byte → Nat → C (List (List Byte) × Int × Nat)} {ns2 : List (List Byte)}
    (hrel : ∀ h, IsDir h → ∀ k o r k', rec (join d1 h) (join d2 h) k = .ok (o, r, k') → ∀ x ∈ o, ∃ rel, x = join (join d1 h) rel) :
    ∀ (xs : List (List Byte)) k o r k', entries e mode rec d1 d2 ns2 xs k = .ok (o, r, k') → ∀ x ∈ o, ∃ rel, x = join d1 rel := by
  intro xs
  induction xs with
  | nil => intro k o r k' h; cases h; simp
  | cons y xs ih =>
    intro k o r k' h
    rw [entries] at h
    by_cases h2 : y ∈ ns2
    · rw [if_pos h2, fullNames_join hp] at h
      by_cases h3 : IsDir y
      · rw [if_pos ((endsWithSlash_iff y).2 h3)] at h
        cases h1 : rec (join d1 y) (join d2 y) k with
        | error u => rw [h1] at h; cases h
        | ok v =>
          obtain ⟨o1, r1, k1⟩ := v
          have here : ∀ x ∈ o1, ∃ rel, x = join d1 rel := by
            intro x hx
            obtain ⟨rel, e1⟩ := hrel y h3 _ _ _ _ h1 x hx
            exact ⟨_, by rw [e1, join_join h3]⟩
          simp only [h1, ok_bind] at h
          by_cases hr : r1 = 0
          · rw [if_neg (by simpa using hr)] at h
            cases h4 : entries e mode rec d1 d2 ns2 xs k1 with
            | error u => rw [h4] at h; cases h
            | ok v =>
              obtain ⟨o2, r2, k2⟩ := v
              simp only [h4, ok_bind, pure_eq_ok, Except.ok.injEq, Prod.mk.injEq] at h
              obtain ⟨rfl, rfl, rfl⟩ := h
              intro x hx
              rcases List.mem_append.1 hx with hx | hx
              · exact here x hx
              · exact ih _ _ _ _ h4 x hx
          · simp only [ne_eq, hr, not_false_eq_true, if_true, pure_eq_ok, Except.ok.injEq, Prod.mk.injEq] at h
            obtain ⟨rfl, rfl, rfl⟩ := h
            exact here
      · rw [if_neg (fun h => h3 ((endsWithSlash_iff y).1 h))] at h
        simp only at h
        cases h1 : printed mode ((e.data (join d1 y)).map List.length) ((e.data (join d2 y)).map List.length) (e.data (join d1 y)) (e.data (join d2 y)) with
        | error u => rw [h1] at h; cases h
        | ok b =>
          simp only [h1, ok_bind] at h
          cases h4 : entries e mode rec d1 d2 ns2 xs k with
          | error u => rw [h4] at h; cases h
          | ok v =>
            obtain ⟨o2, r2, k2⟩ := v
            simp only [h4, ok_bind, pure_eq_ok, Except.ok.injEq, Prod.mk.injEq] at h
            obtain ⟨rfl, rfl, rfl⟩ := h
            intro x hx
            rcases List.mem_append.1 hx with hx | hx
            · refine ⟨y, ?_⟩
              split at hx
              · simpa using hx
              · simp at hx
            · exact ih _ _ _ _ h4 x hx
    · rw [if_neg h2] at h
      exact ih _ _ _ _ h

/-- The result of a completed run of process_path, taken apart. -/
theorem process_inv {e : Env} {mode fuel : Nat} {d1 d2 : List Byte} {k : Nat} {o : List (List Byte)} {r : Int} {k' : Nat}
    (h : process_path e mode (fuel + 1) d1 d2 k = .ok (o, r, k')) :
    (o = [] ∧ r ≠ 0) ∨ ∃ ns1 ns2 v k1, search e d1 = .ok (0, ns1) ∧ search e d2 = .ok (0, ns2) ∧
      entries e mode (process_path e mode fuel) d1 d2 ns2 ns1 k = .ok (o, v, k1) ∧ (v = some r ∨ v = none ∧ r = e.junk k1) := by
  rw [process_path] at h
  cases h1 : search e d1 with
  | error u => rw [h1] at h; cases h
  | ok v =>
    obtain ⟨r1, ns1⟩ := v
    simp only [h1, ok_bind] at h
    by_cases hr : r1 = 0
    · subst hr
      simp only [ne_eq, not_true, if_false] at h
      cases h2 : search e d2 with
      | error u => rw [h2] at h; cases h
      | ok v =>
        obtain ⟨r2, ns2⟩ := v
        simp only [h2, ok_bind] at h
        by_cases hr2 : r2 = 0
        · subst hr2
          simp only [ne_eq, not_true, if_false] at h
          cases h3 : entries e mode (process_path e mode fuel) d1 d2 ns2 ns1 k with
          | error u => rw [h3] at h; cases h
          | ok v =>
            obtain ⟨o3, r3, k3⟩ := v
            simp only [h3, ok_bind] at h
            right
            cases r3 with
            | none =>
              simp only [pure_eq_ok, Except.ok.injEq, Prod.mk.injEq] at h
              obtain ⟨rfl, rfl, rfl⟩ := h
              exact ⟨ns1, ns2, none, k3, rfl, rfl, h3, Or.inr ⟨rfl, rfl⟩⟩
            | some v =>
              simp only [pure_eq_ok, Except.ok.injEq, Prod.mk.injEq] at h
              obtain ⟨rfl, rfl, rfl⟩ := h
              exact ⟨ns1, ns2, _, k3, rfl, rfl, h3, Or.inl rfl⟩
        · rw [if_pos hr2] at h
          simp only [pure_eq_ok, Except.ok.injEq, Prod.mk.injEq] at h
          obtain ⟨rfl, rfl, rfl⟩ := h
          exact Or.inl ⟨rfl, hr2⟩
    · rw [if_pos hr] at h
      simp only [pure_eq_ok, Except.ok.injEq, Prod.mk.injEq] at h
      obtain ⟨rfl, rfl, rfl⟩ := h
      exact Or.inl ⟨rfl, hr⟩

theorem process_under {e : Env} (mode : Nat) : ∀ fuel d1 d2, (IsDir d1 ↔ IsDir d2) → ∀ k o r k', process_path e mode fuel d1 d2 k = .ok (o, r, k') →
    ∀ x ∈ o, ∃ rel, x = join d1 rel := by
  intro fuel
  induction fuel with
  | zero => intro _ _ _ _ _ _ _ h; cases h
  | succ fuel ih =>
    intro d1 d2 hp k o r k' h
    rcases process_inv h with ⟨rfl, _⟩ | ⟨ns1, ns2, v, k1, _, _, h3, _⟩
    · simp
    · exact entries_under hp (fun g hg k o r k' hh => ih _ _ ⟨fun _ => isDir_join hg, fun _ => isDir_join hg⟩ k o r k' hh) ns1 k o v k1 h3

/-- A loop left early is left with a value other than 0. -/
theorem entries_value {e : Env} {mode : Nat} {d1 d2 : List Byte} {rec : List Byte → List Byte → Nat → C (List (List Byte) × Int × Nat)} {ns2 : List (List Byte)} :
    ∀ (xs : List (List Byte)) k o r k', entries e mode rec d1 d2 ns2 xs k = .ok (o, some r, k') → r ≠ 0 := by
  intro xs
  induction xs with
  | nil => intro k o r k' h; cases h
  | cons y xs ih =>
    intro k o r k' h
    rw [entries] at h
    split at h
    · split at h
      · cases h1 : rec (fullNames d1 d2 y).1 (fullNames d1 d2 y).2 k with
        | error u => rw [h1] at h; cases h
        | ok v =>
          obtain ⟨o1, r1, k1⟩ := v
          simp only [h1, ok_bind] at h
          by_cases hr : r1 = 0
          · rw [if_neg (by simpa using hr)] at h
            cases h4 : entries e mode rec d1 d2 ns2 xs k1 with
            | error u => rw [h4] at h; cases h
            | ok v =>
              obtain ⟨o2, r2, k2⟩ := v
              simp only [h4, ok_bind, pure_eq_ok, Except.ok.injEq, Prod.mk.injEq] at h
              obtain ⟨rfl, rfl, rfl⟩ := h
              exact ih _ _ _ _ h4
          · simp only [ne_eq, hr, not_false_eq_true, if_true, pure_eq_ok, Except.ok.injEq, Prod.mk.injEq, Option.some.injEq] at h
            obtain ⟨rfl, rfl, rfl⟩ := h
            exact hr
      · simp only at h
        cases h1 : printed mode ((e.data (fullNames d1 d2 y).1).map List.length) ((e.data (fullNames d1 d2 y).2).map List.length) (e.data (fullNames d1 d2 y).1) (e.data (fullNames d1 d2 y).2) with
        | error u => rw [h1] at h; cases h
        | ok b =>
          simp only [h1, ok_bind] at h
          cases h4 : entries e mode rec d1 d2 ns2 xs k with
          | error u => rw [h4] at h; cases h
          | ok v =>
            obtain ⟨o2, r2, k2⟩ := v
            simp only [h4, ok_bind, pure_eq_ok, Except.ok.injEq, Prod.mk.injEq] at h
            obtain ⟨rfl, rfl, rfl⟩ := h
            exact ih _ _ _ _ h4
    · exact ih _ _ _ _ h

end Ulz.Samefiles
