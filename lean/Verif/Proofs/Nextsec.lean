import Verif.Model.Nextsec
import Verif.Spec.Nextsec
import Verif.Props.Inifile
import Verif.Props.Programs
/-! Proofs about the program that goes through the sections of one name. -/
namespace Ulz.Nextsec
open Ulz.Stringptr (SP splitc)
open Ulz.Stringptr.Spec (Holds HoldsAll)
open Ulz.Iniparser
open Ulz.Iniparser.Spec
open Ulz.Inifile
open Ulz.Inifile.Spec
open Ulz.Programs (Scratch printf)
open Ulz.Nextsec.Spec

theorem body_get (ls : List (List Byte)) (i j : Nat) :
    (body ls i)[j]? = if j < (body ls i).length then ls[i + j]? else none := by
  split
  · rename_i h
    have hp : body ls i <+: ls.drop i := List.takeWhile_prefix _
    rw [getElem?_prefix hp h, List.getElem?_drop]
  · rw [List.getElem?_eq_none (by omega)]

/-- The value of a key in the section below a header. -/
theorem getvalue_sect {l : List SP} {ls : List (List Byte)} (hl : HoldsAll l ls)
    (hz : ∀ (i : Nat) (p : SP) (c : List Byte), l[i]? = some p → ls[i]? = some c → c ++ [0] <+: p.buf) (hlen : ls.length < 2^64)
    {key : SP} {k : List Byte} (hkey : Holds key k) {h : Nat} (hh : h < ls.length) :
    ∃ r, getvalue l (sect ls h) key = .ok r ∧ Props.Found ((body ls (h + 1)).findSome? (given k)) r := by
  have hb := body_length ls (h + 1)
  unfold getvalue
  rcases Props.getvalue_at_correct l ls hl key k hkey (sect ls h) (by simp only [sect]; omega)
      (sect ls h).startline with ⟨i, v, r, e1, e2, e3, e4, e5, e6⟩ | ⟨e1, e2⟩
  · obtain ⟨ln, v1, v2⟩ := valLoop_line _ _ _ _ e1
    simp only [sect] at e3 e4 e6
    have : (body ls (h + 1)).findSome? (given k) = some v := by
      refine findSome_first (j := i - (h + 1)) ?_ ?_
      · rw [body_get, if_pos (by omega), show h + 1 + (i - (h + 1)) = i by omega]
        exact e5
      · intro j hj w
        rw [body_get]
        split
        · exact e6 _ (by omega) (by omega) w
        · simp
    refine ⟨some r, by rw [e1]; rfl, ?_⟩
    rw [this]
    refine ⟨e2.1, ?_⟩
    obtain ⟨t, ht⟩ := hz _ _ _ v1 e5
    refine ⟨t, ?_⟩
    rw [v2, ← ht, hkey.1]
    simp
  · refine ⟨none, by rw [e1]; rfl, ?_⟩
    have : (body ls (h + 1)).findSome? (given k) = none := by
      refine findSome_none ?_
      intro i w
      rw [body_get]
      split
      · exact e2 _ (by simp only [sect]; omega) (by simp only [sect]; omega) w
      · simp
    rw [this]
    trivial

theorem print_value {s : Scratch} (hs : s.Ok) (k : Nat) {v b : List Byte} (hb : v ++ [0] <+: b) :
    printf s k (bytes! "value of section: %s\n") [.str (some b)] = .ok (line v) := by
  obtain ⟨j, rfl⟩ := hb
  unfold printf
  have hc : Ulz.cstr (v ++ [0] ++ j) = v.takeWhile (· ≠ 0) := by
    unfold Ulz.cstr
    rw [List.append_assoc]
    induction v with
    | nil => simp
    | cons x v ih =>
      by_cases hx : x = 0
      · subst hx; simp
      · rw [List.cons_append, List.takeWhile_cons_of_pos (by simpa using hx), List.takeWhile_cons_of_pos (by simpa using hx), ih]
  rw [Props.fprintf_correct (bytes! "value of section: %s\n") []
    ((bytes! "value of section: ").map Format.Spec.Item.lit ++ (.conv [] .s :: ((bytes! "\n").map Format.Spec.Item.lit ++ []))) ?_ _
    (bytes! "value of section: " ++ v.takeWhile (· ≠ 0) ++ bytes! "\n") ?_ _ _ (hs k).1 (hs k).2]
  · rfl
  · refine ⟨?_, ?_⟩
    · intro i hi
      rcases List.mem_append.1 hi with h | h
      · exact Programs.plain_ok (by decide) i h
      rcases List.mem_cons.1 h with h | h
      · rw [h]; simp [Format.Spec.Item.Ok, Format.Spec.PrecsOk]
      rw [List.append_nil] at h
      exact Programs.plain_ok (by decide) i h
    · simp only [Bool.false_eq_true, if_false]
      decide
  · rw [Programs.render_lits]
    simp only [Format.Spec.render, Format.Spec.convText, Format.Spec.pend, List.getLast?_nil]
    rw [if_pos (by simp), hc]
    simp only
    rw [Programs.render_lits]
    simp [Format.Spec.render, Format.Spec.Outcome.prepend]

theorem report_cons_none {key : List Byte} {d : List (List Byte)} (h : d.findSome? (given key) = none) (ds : List (List (List Byte))) :
    report key (d :: ds) = report key ds := by
  unfold report
  rw [List.filterMap_cons_none h]

theorem report_cons_some {key : List Byte} {d : List (List Byte)} {v : List Byte} (h : d.findSome? (given key) = some v)
    (ds : List (List (List Byte))) : report key (d :: ds) = (if v ≠ [] then line v else []) ++ report key ds := by
  unfold report
  rw [List.filterMap_cons_some h]
  by_cases hv : v = []
  · subst hv; simp
  · rw [List.filter_cons_of_pos (by simpa using hv), List.flatMap_cons, if_pos hv]

theorem loop_spec {s : Scratch} (hs : s.Ok) {l : List SP} {ls : List (List Byte)} (hl : HoldsAll l ls)
    (hz : ∀ (i : Nat) (p : SP) (c : List Byte), l[i]? = some p → ls[i]? = some c → c ++ [0] <+: p.buf) (hlen : ls.length < 2^64) :
    ∀ fuel k i sec, szt (sec.startline + sec.linecount) = i → i ≤ ls.length → ls.length < fuel + i →
      loop s l fuel k sec = .ok (report (bytes! "value")
        (((headers ls (bytes! "section") i).map fun h => body ls (h + 1)).takeWhile (· ≠ []))) := by
  have hn : Holds nameSP (bytes! "section") := ⟨rfl, [0], by decide⟩
  have hk : Holds keySP (bytes! "value") := ⟨rfl, [0], by decide⟩
  intro fuel
  induction fuel with
  | zero => intro k i sec _ _ h; omega
  | succ fuel ih =>
    intro k i sec hi hle hf
    rw [loop, get_next_section, hi, get_section_at_spec hl hn (by decide), ok_bindE]
    cases hh : headers ls (bytes! "section") i with
    | nil => simp [report]
    | cons x xs =>
      have hx : i ≤ x ∧ x < ls.length := headers_lt (n := bytes! "section") (i := i) (by rw [hh]; simp)
      have hb := body_length ls (x + 1)
      simp only
      by_cases he : body ls (x + 1) = []
      · rw [if_neg (by simp [sect, he]), List.map_cons, List.takeWhile_cons_of_neg (by simpa using he)]
        rfl
      have hpos : 0 < (body ls (x + 1)).length := List.length_pos_iff.2 he
      rw [if_pos (by simp only [sect]; omega), List.map_cons, List.takeWhile_cons_of_pos (by simpa using he)]
      have hxs : xs = headers ls (bytes! "section") (x + 1 + (body ls (x + 1)).length) := by
        rw [headers_tail _ _ _ _ rfl hh, ← headers_body ls _ _ (x + 1) rfl]
      have hrec : ∀ k', loop s l fuel k' (sect ls x) = .ok (report (bytes! "value")
          ((xs.map fun h => body ls (h + 1)).takeWhile (· ≠ []))) := by
        intro k'
        rw [hxs]
        exact ih k' _ (sect ls x) (szt_of_lt (by simp only [sect]; omega)) (by omega) (by omega)
      obtain ⟨r, g1, g2⟩ := getvalue_sect hl hz hlen hk hx.2
      rw [g1, ok_bindE]
      cases hv : (body ls (x + 1)).findSome? (given (bytes! "value")) with
      | none =>
        rw [hv] at g2
        cases r with
        | some r => exact absurd g2 (by simp [Props.Found])
        | none => simp only; rw [hrec, report_cons_none hv]
      | some v =>
        rw [hv] at g2
        cases r with
        | none => exact absurd g2 (by simp [Props.Found])
        | some r =>
          simp only
          rw [report_cons_some hv]
          have hsz : (r.size ≠ 0) ↔ v ≠ [] := by
            rw [g2.1]; cases v <;> simp
          by_cases hve : v = []
          · rw [if_neg (fun h => hsz.1 h hve), hrec, if_neg (by simpa using hve)]
            rfl
          · rw [if_pos (hsz.2 hve), print_value hs k g2.2, ok_bindE, hrec, ok_bindE, if_pos hve]
            rfl

/-! ### The sections as texts -/

theorem sections_eq (name : List Byte) (ls : List (List Byte)) : ∀ k i, ls.length - i = k →
    (headers ls name i).map (fun h => body ls (h + 1)) = sections name (ls.drop i) := by
  intro k
  induction k with
  | zero =>
    intro i hk
    rw [headers_end (by omega), List.drop_eq_nil_of_le (by omega)]
    rfl
  | succ k ih =>
    intro i hk
    have hi : i < ls.length := by omega
    rw [headers_step hi, List.drop_eq_getElem_cons hi, sections]
    split
    · rw [List.map_cons, ih (i + 1) (by omega)]
      rfl
    · exact ih (i + 1) (by omega)

theorem sections_skip (name : List Byte) (a ls : List (List Byte)) (h : ∀ x ∈ a, ¬Bracket x) :
    sections name (a ++ ls) = sections name ls := by
  induction a with
  | nil => rfl
  | cons x a ih =>
    rw [List.cons_append, sections, if_neg (fun hh => h x (by simp) (header_bracket hh))]
    exact ih fun y hy => h y (by simp [hy])

/-- A section without entries at the end of the text has one empty line. -/
theorem sections_clean (name : List Byte) {k : List Byte} (hk : ch '=' ∉ k) : ∀ ini : Ini, Clean ini →
    report k ((sections name (lines ini ++ [[]])).takeWhile (· ≠ [])) =
      iniReport k ((ini.filter fun s => s.1 = name).takeWhile fun s => s.2 ≠ [])
  | [], _ => by
    have : ¬Header name [] := by rintro ⟨t, ht⟩; simp at ht
    simp [lines, sections, this, report, iniReport]
  | x :: ini, hc => by
    have hn := (hc.name x (by simp)).1
    have hke := fun e he => (hc.key x (by simp) e he).2.2
    have hkk := fun e he => (hc.key x (by simp) e he).1
    have hc' : Clean ini := ⟨fun y hy => hc.name y (by simp [hy]), fun y hy => hc.key y (by simp [hy]), fun y hy => hc.value y (by simp [hy])⟩
    have hlines : lines (x :: ini) ++ [[]] = (ch '[' :: x.1 ++ [ch ']']) :: (x.2.map entryLine ++ (lines ini ++ [[]])) := by
      unfold lines sectionLines; simp
    have hskip : sections name (x.2.map entryLine ++ (lines ini ++ [[]])) = sections name (lines ini ++ [[]]) :=
      sections_skip name _ _ (by
        intro y hy
        obtain ⟨e, he, rfl⟩ := List.mem_map.1 hy
        exact entryLine_bracket (hke e he))
    have hempty : ¬Header name [] := by rintro ⟨t, ht⟩; simp at ht
    have hrest : (ini = [] ∧ (lines ini ++ [[]]).takeWhile (fun l => decide ¬Bracket l) = [[]]) ∨
        (ini ≠ [] ∧ (lines ini ++ [[]]).takeWhile (fun l => decide ¬Bracket l) = []) := by
      cases ini with
      | nil =>
        left
        have : ¬Bracket [] := by rintro ⟨t, ht⟩; simp at ht
        simp [lines, this]
      | cons y ini =>
        right
        have : lines (y :: ini) ++ [[]] = (ch '[' :: y.1 ++ [ch ']']) :: (y.2.map entryLine ++ (lines ini ++ [[]])) := by
          unfold lines sectionLines; simp
        rw [this, List.takeWhile_cons_of_neg (by simpa using Inifile.header_bracket y.1)]
        simp
    have ih := sections_clean name hk ini hc'
    rw [hlines, sections, hskip, takeWhile_section hke]
    by_cases hx : x.1 = name
    · rw [if_pos ((header_name hn).2 hx), List.filter_cons_of_pos (by simpa using hx)]
      by_cases he : x.2 = []
      · have hr : (x :: ini.filter fun s => s.1 = name).takeWhile (fun s => decide (s.2 ≠ [])) = [] :=
          List.takeWhile_cons_of_neg (by simp [he])
        rw [hr, he]
        rcases hrest with ⟨h1, h2⟩ | ⟨_, h2⟩
        · rw [h2, h1]
          have hg := given_nil k
          simp [lines, sections, hempty, report, iniReport, hg]
        · rw [h2, List.map_nil, List.append_nil, List.takeWhile_cons_of_neg (by simp)]
          rfl
      · rw [List.takeWhile_cons_of_pos (by simp [he]), List.takeWhile_cons_of_pos (by simpa using he)]
        have hf : (x.2.map entryLine ++ (lines ini ++ [[]]).takeWhile fun l => decide ¬Bracket l).findSome? (given k) =
            (x.2.find? fun e => e.1 = k).map (·.2) := by
          rw [List.findSome?_append, find_entries hk _ hkk]
          have : ((lines ini ++ [[]]).takeWhile fun l => decide ¬Bracket l).findSome? (given k) = none := by
            rcases hrest with ⟨_, h2⟩ | ⟨_, h2⟩
            · rw [h2]; simp [given_nil k]
            · rw [h2]; rfl
          rw [this]
          simp
        unfold iniReport
        cases hv : (x.2.find? fun e => e.1 = k).map (·.2) with
        | none =>
          rw [report_cons_none (by rw [hf, hv]), List.filterMap_cons_none (f := fun s : List Byte × List (List Byte × List Byte) => (s.2.find? fun e => e.1 = k).map (·.2)) hv, ih]
          rfl
        | some v =>
          rw [report_cons_some (by rw [hf, hv]), List.filterMap_cons_some (f := fun s : List Byte × List (List Byte × List Byte) => (s.2.find? fun e => e.1 = k).map (·.2)) hv, ih]
          unfold iniReport
          by_cases hv0 : v = []
          · subst hv0; simp
          · rw [List.filter_cons_of_pos (by simpa using hv0), List.flatMap_cons, if_pos hv0]
    · rw [if_neg (fun h => hx ((header_name hn).1 h)), List.filter_cons_of_neg (by simpa using hx)]
      exact ih

end Ulz.Nextsec
