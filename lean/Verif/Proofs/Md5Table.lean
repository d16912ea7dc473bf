import Verif.Spec.Md5
import Mathlib.Analysis.Complex.Trigonometric
import Mathlib.Tactic.NormNum
import Mathlib.Tactic.Ring
import Mathlib.Tactic.Linarith
import Mathlib.Tactic.LinearCombination
import Mathlib.Tactic.FieldSimp
import Mathlib.Tactic.Positivity
import Mathlib.Analysis.Complex.Basic
/-! The table of MD5 in terms of the sine. -/
namespace Ulz.Md5.Table
open Complex

/-- Twenty terms of the exponential series at `i`, times 19!. -/
def P : Int := 65725128248453315
def Q : Int := 102360822438075317
/-- 19!. -/
def D : Int := 121645100408832000

/-- `2^80 cos k` and `2^80 sin k`, rounded. -/
def table : List (Int × Int) :=
  [(1208925819614629174706176, 0),
   (653185407961314873717101, 1017275999990815458880170),
   (-503090655452789229510262, 1099273136998710539992282),
   (-1196827490365026510664264, 170603621407798055274666),
   (-790206650088415958469857, -914918076926533711776962),
   (342926540054807762630384, -1159268314695498456205564),
   (1160774650758407177919460, -337792610173166399954514),
   (911411900741296183848715, 794248062331939583571082),
   (-175898747626034364581332, 1196060729191664240148761),
   (-1101488898624624851766020, 498220677549230014172446),
   (-1014375236004050431282301, -657681167369592468301132),
   (5350340567571115911432, -1208913980060911494023560),
   (1020156838695727481448387, -648676854676689054288408),
   (1097035844021335726310993, 507950779370696959772431),
   (165305153593729617561521, 1197570809399701579318919),
   (-918406332704177495442241, 786149760147369466803081),
   (-1157739272161667612828676, -348053753069084192974696),
   (-332652063981924080872468, -1162258250845942067209354),
   (798273917719208556453358, -907887872823582302729583),
   (1195270540898088118388813, 181190428533338271667149),
   (493340941047782663049257, 1103683085499180392047056),
   (-662164044843538211968280, 1011454603552402454272335),
   (-1208878461631658596362364, -10700576338564096305583),
   (-644155595824291000636608, -1023017695692090927667498),
   (512800954108198877203540, -1094777063514131086305596),
   (1198290671736374896177109, -160003447964380825000012),
   (782077471970691989805696, 921876599750115354427083),
   (-353174148789794316169498, 1156187553106115705764526),
   (-1163719085898978659595595, 327505002168437767137994),
   (-904346062198169533627508, -802284137396201657755514),
   (186478560482092458445224, -1194456940961636122813008),
   (1105855654645061355682659, -488451541527351191448945),
   (1008514159842003186439548, 666633952577485617625087),
   (-16050602518453445642031, 1208819265022566353684914),
   (-1025858514944589920446383, 639621719961559367774510),
   (-1092496839719601358632688, -517641084665414239606415),
   (-154698608363722210037773, -1198987063275175871836816),
   (925328810092578569018865, -777989865321879085882322),
   (1154613187922206521067510, 358287626924266394194499),
   (322351525547685251852520, 1165157127304288910025261),
   (-806278642815152738215943, 900786538238143432416747),
   (-1193619945318207704047861, -191763039894192697809438),
   (-483552574756108187145772, -1108006563508376195835195),
   (671090803019805179993266, -1005553962467025402051836),
   (1208736391393112745335641, 21400314316818908073192),
   (635075315893060912666654, 1028679240810385839801205),
   (-522471076239196645507313, 1090195217300258776287764),
   (-1199659970375954054720389, 149390738697109083361569),
   (-773887020264467673755196, -928762896113473239388252),
   (363394087315322749182930, -1153016207446871264452025),
   (1166572346895101640027816, -317191735060290507534748),
   (897209370663538843788290, 810257355736089227307692),
   (-197043763263076627702076, 1192759570361951652780643),
   (-1110135769959491123787281, 478644136689619009374105),
   (-1002574069408554900318326, -675534508874619240809448),
   (26749606949397986779394, -1208629842366535147463475),
   (1031479818040207193492885, -630516472668751088185642),
   (1087872241337748266507195, 527290834224990933770786),
   (144079942929246350239548, 1200309379858546299318228),
   (-932178790549704714337461, 769769017160467836085547),
   (-1151396642960004561448028, -368493429943241531904081),
   (-312025731770546572354991, -1167964716951654237405873),
   (814220198228364611647116, -893614629539974301997452),
   (1191875832944944989229494, 202320627155751123654520),
   (473726323468962316900289, 1112243232293855297806562)]

/-- Entry `k`. -/
def re (k : Nat) : Int := (table.getD k 0).1
def im (k : Nat) : Int := (table.getD k 0).2

/-- The approximation of `exp i`. -/
noncomputable def w : ℂ := ((P : ℂ) + (Q : ℂ) * I) / (D : ℂ)

theorem sum_eq : ∑ m ∈ Finset.range 20, I ^ m / (m.factorial : ℂ) = w := by
  have h4 : I ^ 4 = 1 := by rw [show 4 = 2 * 2 by norm_num, pow_mul, I_sq]; norm_num
  have h2 : I ^ 2 = -1 := I_sq
  have h3 : I ^ 3 = -I := by rw [pow_succ, h2]; ring
  have hp : ∀ k r, I ^ (4 * k + r) = I ^ r := fun k r => by rw [pow_add, pow_mul, h4, one_pow, one_mul]
  simp only [Finset.sum_range_succ, Finset.sum_range_zero]
  rw [show I ^ 4 = I ^ 0 from hp 1 0, show I ^ 5 = I ^ 1 from hp 1 1, show I ^ 6 = I ^ 2 from hp 1 2, show I ^ 7 = I ^ 3 from hp 1 3,
    show I ^ 8 = I ^ 0 from hp 2 0, show I ^ 9 = I ^ 1 from hp 2 1, show I ^ 10 = I ^ 2 from hp 2 2, show I ^ 11 = I ^ 3 from hp 2 3,
    show I ^ 12 = I ^ 0 from hp 3 0, show I ^ 13 = I ^ 1 from hp 3 1, show I ^ 14 = I ^ 2 from hp 3 2, show I ^ 15 = I ^ 3 from hp 3 3,
    show I ^ 16 = I ^ 0 from hp 4 0, show I ^ 17 = I ^ 1 from hp 4 1, show I ^ 18 = I ^ 2 from hp 4 2, show I ^ 19 = I ^ 3 from hp 4 3,
    h2, h3]
  simp only [Nat.factorial, w, P, Q, D]
  push_cast
  ring

/-- The error of one. -/
noncomputable def eps : ℝ := 1 / 2 ^ 60

theorem w_close : ‖exp I - w‖ ≤ eps := by
  have h := exp_bound (x := I) (by simp) (n := 20) (by norm_num)
  rw [sum_eq] at h
  refine h.trans ?_
  rw [norm_I, one_pow, one_mul]
  simp only [Nat.factorial, eps]
  norm_num

/-- The rounded value. -/
noncomputable def z (k : Nat) : ℂ := ((re k : ℂ) + (im k : ℂ) * I) / 2 ^ 80

theorem step_check : ∀ k < 64, (re 1 * re k - im 1 * im k - 2 ^ 80 * re (k + 1)).natAbs ≤ 2 ^ 80 ∧
    (re 1 * im k + im 1 * re k - 2 ^ 80 * im (k + 1)).natAbs ≤ 2 ^ 80 := by decide +kernel

theorem one_check : (P * 2 ^ 80 - re 1 * D).natAbs ≤ D.natAbs ∧ (Q * 2 ^ 80 - im 1 * D).natAbs ≤ D.natAbs := by decide +kernel

theorem norm_le_of_parts {a b : ℝ} {c : ℝ} (ha : |a| ≤ c) (hb : |b| ≤ c) : ‖(a : ℂ) + (b : ℂ) * I‖ ≤ 2 * c := by
  refine (norm_add_le _ _).trans ?_
  rw [norm_mul, norm_I, mul_one, norm_real, norm_real, Real.norm_eq_abs, Real.norm_eq_abs]
  linarith

theorem z_step {k : Nat} (hk : k < 64) : ‖z 1 * z k - z (k + 1)‖ ≤ 2 / 2 ^ 80 := by
  obtain ⟨h1, h2⟩ := step_check k hk
  have e : z 1 * z k - z (k + 1) =
      ((((re 1 * re k - im 1 * im k - 2 ^ 80 * re (k + 1) : Int) : ℝ) / 2 ^ 160 : ℝ) : ℂ) +
      ((((re 1 * im k + im 1 * re k - 2 ^ 80 * im (k + 1) : Int) : ℝ) / 2 ^ 160 : ℝ) : ℂ) * I := by
    simp only [z]
    push_cast
    have : I * I = -1 := I_mul_I
    linear_combination ((im 1 : ℂ) * (im k : ℂ) / 2 ^ 160) * this
  rw [e]
  have cv : ∀ n : Int, n.natAbs ≤ 2 ^ 80 → |(n : ℝ) / 2 ^ 160| ≤ 1 / 2 ^ 80 := by
    intro n hn
    rw [abs_div, abs_of_pos (by norm_num : (0 : ℝ) < 2 ^ 160), div_le_div_iff₀ (by norm_num) (by norm_num)]
    have h : ((n.natAbs : Int) : ℝ) = |(n : ℝ)| := by
      rw [Int.natCast_natAbs]; push_cast; rfl
    rw [← h]
    have : ((n.natAbs : Int) : ℝ) ≤ 2 ^ 80 := by exact_mod_cast hn
    nlinarith
  refine (norm_le_of_parts (cv _ h1) (cv _ h2)).trans (le_of_eq (by ring))

theorem z_one : ‖w - z 1‖ ≤ 2 / 2 ^ 80 := by
  obtain ⟨h1, h2⟩ := one_check
  have hD : (D : ℂ) ≠ 0 := by simp [D]
  have hDR : (0 : ℝ) < (D : ℝ) := by simp [D]
  have e : w - z 1 = ((((P * 2 ^ 80 - re 1 * D : Int) : ℝ) / (D * 2 ^ 80) : ℝ) : ℂ) +
      ((((Q * 2 ^ 80 - im 1 * D : Int) : ℝ) / (D * 2 ^ 80) : ℝ) : ℂ) * I := by
    simp only [z, w]
    push_cast
    field_simp
    ring
  rw [e]
  have cv : ∀ n : Int, n.natAbs ≤ D.natAbs → |(n : ℝ) / (D * 2 ^ 80)| ≤ 1 / 2 ^ 80 := by
    intro n hn
    have hp : (0 : ℝ) < D * 2 ^ 80 := by positivity
    rw [abs_div, abs_of_pos hp, div_le_div_iff₀ hp (by norm_num)]
    have h : ((n.natAbs : Int) : ℝ) = |(n : ℝ)| := by
      rw [Int.natCast_natAbs]; push_cast; rfl
    rw [← h]
    have h' : ((D.natAbs : Int) : ℝ) = (D : ℝ) := by simp [D]
    have : ((n.natAbs : Int) : ℝ) ≤ ((D.natAbs : Int) : ℝ) := by exact_mod_cast hn
    rw [h'] at this
    nlinarith
  refine (norm_le_of_parts (cv _ h1) (cv _ h2)).trans (le_of_eq (by ring))

theorem one_close : ‖exp I - z 1‖ ≤ 1 / 2 ^ 59 := by
  have h : exp I - z 1 = (exp I - w) + (w - z 1) := by ring
  rw [h]
  refine (norm_add_le _ _).trans ?_
  have := w_close
  have := z_one
  refine (add_le_add w_close z_one).trans ?_
  simp only [eps]; norm_num

theorem pow_close : ∀ k : Nat, k ≤ 64 → ‖exp I ^ k - z k‖ ≤ k / 2 ^ 57
  | 0, _ => by
    have : z 0 = 1 := by simp [z, re, im, table]; norm_num
    rw [this]; simp
  | k + 1, hk => by
    have ih := pow_close k (by omega)
    have hz : ‖exp I‖ = 1 := by
      have := norm_exp_ofReal_mul_I 1
      simpa using this
    have hkR : (k : ℝ) ≤ 64 := by exact_mod_cast (by omega : k ≤ 64)
    have hw : ‖z k‖ ≤ 2 := by
      have h1 : ‖z k‖ ≤ ‖exp I ^ k‖ + ‖exp I ^ k - z k‖ := by
        have := norm_sub_le (exp I ^ k) (exp I ^ k - z k)
        rwa [sub_sub_cancel] at this
      rw [norm_pow, hz, one_pow] at h1
      have : (k : ℝ) / 2 ^ 57 ≤ 1 := by
        rw [div_le_one (by norm_num)]
        refine hkR.trans (by norm_num)
      linarith
    have e : exp I ^ (k + 1) - z (k + 1) =
        exp I * (exp I ^ k - z k) + (z k * (exp I - z 1) + (z 1 * z k - z (k + 1))) := by ring
    rw [e]
    refine (norm_add_le _ _).trans ?_
    rw [norm_mul, hz, one_mul]
    have h2 : ‖z k * (exp I - z 1)‖ ≤ 2 * (1 / 2 ^ 59) := by
      rw [norm_mul]
      exact mul_le_mul hw one_close (norm_nonneg _) (by norm_num)
    have h3 := z_step (k := k) (by omega)
    have h4 := norm_add_le (z k * (exp I - z 1)) (z 1 * z k - z (k + 1))
    have h5 : (2 : ℝ) * (1 / 2 ^ 59) + 2 / 2 ^ 80 ≤ 1 / 2 ^ 57 := by norm_num
    have h6 : ((k + 1 : ℕ) : ℝ) / 2 ^ 57 = k / 2 ^ 57 + 1 / 2 ^ 57 := by push_cast; ring
    rw [h6]
    linarith

theorem sin_close {k : Nat} (hk : k ≤ 64) : |Real.sin k - (im k : ℝ) / 2 ^ 80| ≤ 1 / 2 ^ 50 := by
  have h := pow_close k hk
  have h1 := (abs_im_le_norm (exp I ^ k - z k)).trans h
  have hs : (exp I ^ k).im = Real.sin k := by
    rw [← exp_nat_mul]
    have := exp_ofReal_mul_I_im (k : ℝ)
    simpa using this
  have hz : (z k).im = (im k : ℝ) / 2 ^ 80 := by
    have : z k = (((re k : ℝ) / 2 ^ 80 : ℝ) : ℂ) + (((im k : ℝ) / 2 ^ 80 : ℝ) : ℂ) * I := by
      simp only [z]; push_cast; ring
    rw [this, add_im, im_ofReal_mul, I_im, mul_one, ofReal_im, zero_add]
  rw [sub_im, hs, hz] at h1
  refine h1.trans ?_
  have hkR : (k : ℝ) ≤ 64 := by exact_mod_cast hk
  rw [div_le_div_iff₀ (by norm_num) (by norm_num)]
  nlinarith

/-- What the kernel checks for each entry, in integers. -/
theorem table_check : ∀ i < 64,
    (2 ^ 18 * (Spec.T.getD i 0).toNat + 1) * 2 ^ 30 ≤ (im (i + 1)).natAbs ∧
    (im (i + 1)).natAbs < (2 ^ 18 * ((Spec.T.getD i 0).toNat + 1) - 1) * 2 ^ 30 := by
  decide +kernel

theorem table_sin {i : Nat} (hi : i < 64) :
    ((Spec.T.getD i 0).toNat : ℝ) ≤ 2 ^ 32 * |Real.sin (i + 1 : ℕ)| ∧
    2 ^ 32 * |Real.sin (i + 1 : ℕ)| < (Spec.T.getD i 0).toNat + 1 := by
  obtain ⟨h1, h2⟩ := table_check i hi
  have hc := sin_close (k := i + 1) (by omega)
  generalize (Spec.T.getD i 0).toNat = t at *
  generalize hq : im (i + 1) = q at *
  have hn : ((q.natAbs : Int) : ℝ) = |(q : ℝ)| := by
    rw [Int.natCast_natAbs]; push_cast; rfl
  have h1' : (2 ^ 18 * (t : ℝ) + 1) * 2 ^ 30 ≤ |(q : ℝ)| := by
    rw [← hn]
    exact_mod_cast h1
  have h2' : |(q : ℝ)| < (2 ^ 18 * ((t : ℝ) + 1) - 1) * 2 ^ 30 := by
    rw [← hn, Int.cast_natCast]
    have h3 : (q.natAbs + 2 ^ 30 : Nat) < (2 ^ 18 * (t + 1)) * 2 ^ 30 := by
      rw [Nat.sub_mul] at h2; omega
    have h4 : ((q.natAbs + 2 ^ 30 : Nat) : ℝ) < (((2 ^ 18 * (t + 1)) * 2 ^ 30 : Nat) : ℝ) := by exact_mod_cast h3
    rw [Nat.cast_add] at h4
    push_cast at h4 ⊢
    linarith
  have ha : |(q : ℝ) / 2 ^ 80| = |(q : ℝ)| / 2 ^ 80 := by rw [abs_div, abs_of_pos (by norm_num : (0 : ℝ) < 2 ^ 80)]
  have hb : abs (|Real.sin ((i + 1 : ℕ) : ℝ)| - |(q : ℝ)| / 2 ^ 80) ≤ 1 / 2 ^ 50 := by
    rw [← ha]
    exact (abs_abs_sub_abs_le _ _).trans hc
  obtain ⟨b1, b2⟩ := abs_le.1 hb
  constructor
  · linarith
  · linarith

end Ulz.Md5.Table
