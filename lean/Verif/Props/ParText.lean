import Verif.Proof.NumText
import Verif.Props.ParNames

/-!
# C91 with the conversions of the C library written out

`%.6f`, `%e` and `%lf` as functions on texts (`fmt6`, `sciText 6`, `scanLf`): the file of parameter names.
-/

namespace Mica

/-- **C91.** The file of names as the program prints it, loaded with `sscanf` into any table, restores all flags, all
ranges to six decimals and all fixed values to six digits behind the first; with the conversions `%10.6f`, `%15.6e`
and `%lf` themselves instead of assumptions on them. -/
theorem C91_text (m : NameMode) (c : LineCfg) (hng : c.ng < 2 ^ 32) (hnp : c.numParams < 2 ^ 32) (t t0 : ParTab)
    (ht : t.range.length = c.numParams ∧ t.fix.length = c.numParams ∧ t.val.length = c.numParams)
    (ht0 : t0.range.length = c.numParams ∧ t0.fix.length = c.numParams ∧ t0.val.length = c.numParams)
    (hr : ∀ r ∈ t.range, |r.1| < 10 ^ 50 ∧ |r.2| < 10 ^ 50) (hfix : ∀ z ∈ t.fix, z.natAbs < 2 ^ 32)
    (hv : ∀ x ∈ t.val, ThreeDigitExp x) :
    ∃ t' : ParTab, loadParNames (scanParLine scanLf) c.numParams
        (parNameFile fmt6 (sciText 6) m c.numVar c.numLine c.ng t) t0 = .ok t' ∧
      t'.fix = t.fix ∧
      List.Forall₂ (fun r' r => |r'.1 - r.1| ≤ 1 / 2 / 10 ^ 6 ∧ |r'.2 - r.2| ≤ 1 / 2 / 10 ^ 6) t'.range t.range ∧
      List.Forall₂ (fun v' v => |v' - v| ≤ 1 / 2 / 10 ^ 6 * |v|) t'.val t.val := by
  obtain ⟨t', h1, h2, h3, h4⟩ := C91_restored scanLf_fmt6 (scanLf_sci 6) m c hng hnp t t0
    (fun x hx => sciText_length3 (hv x hx)) ht ht0 hr hfix
  refine ⟨t', h1, h2, h4, ?_⟩
  rw [h3, List.forall₂_map_left_iff, List.forall₂_same]
  intro v _
  have := sciVal_near 6 v
  have e : (10 : ℝ) ^ (-((6 : ℕ) : ℤ)) = 1 / 10 ^ 6 := by norm_num
  rw [e] at this
  linarith

example (ty uni : ℕ) (nl : List ℕ) (pos : Bool) (h : (lineCfgEx ty uni nl pos).numParams < 2 ^ 32) :
    ∃ t', loadParNames (scanParLine scanLf) (lineCfgEx ty uni nl pos).numParams (parNameFile fmt6 (sciText 6) (.line false)
      (lineCfgEx ty uni nl pos).numVar (lineCfgEx ty uni nl pos).numLine (lineCfgEx ty uni nl pos).ng
      (parTabEx (lineCfgEx ty uni nl pos).numParams)) ⟨List.replicate (lineCfgEx ty uni nl pos).numParams (0, 0),
        List.replicate (lineCfgEx ty uni nl pos).numParams 0, List.replicate (lineCfgEx ty uni nl pos).numParams 0⟩ = .ok t' ∧
      t'.fix = List.replicate (lineCfgEx ty uni nl pos).numParams 1 := by
  obtain ⟨t', h1, h2, -, -⟩ := C91_text (.line false) (lineCfgEx ty uni nl pos) (by simp [lineCfgEx]) h
    (parTabEx (lineCfgEx ty uni nl pos).numParams) ⟨List.replicate (lineCfgEx ty uni nl pos).numParams (0, 0),
      List.replicate (lineCfgEx ty uni nl pos).numParams 0, List.replicate (lineCfgEx ty uni nl pos).numParams 0⟩
    (by simp [parTabEx]) (by simp)
    (by
      intro r hr
      rw [parTabEx] at hr
      rw [List.eq_of_mem_replicate hr]
      norm_num [abs_lt])
    (by
      intro z hz
      rw [parTabEx] at hz
      rw [List.eq_of_mem_replicate hz]
      decide)
    (by
      intro x hx
      rw [parTabEx] at hx
      rw [List.eq_of_mem_replicate hx]
      refine .inr ⟨?_, ?_⟩
      · rw [abs_of_pos (by norm_num)]
        exact le_trans (zpow_le_one_of_nonpos₀ (by norm_num) (by norm_num)) (by norm_num)
      · rw [abs_of_pos (by norm_num)]
        calc (2.5 : ℝ) < (10 : ℝ) ^ (1 : ℤ) := by norm_num
          _ ≤ (10 : ℝ) ^ (999 : ℤ) := zpow_le_zpow_right₀ (by norm_num) (by norm_num))
  exact ⟨t', h1, h2⟩

end Mica
