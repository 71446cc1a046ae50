import Verif.Proof.FlatLoop
import Verif.Proof.Line

/-! The arrays filled at the start of a pass of `prob_line_variability4`: sizes, trend, covariance. -/

namespace Mica

open Matrix

/-! ### Integers -/

theorem stInt_ok {E : IntCells} {sz : Arr → ℕ} {p : DPtr} {i v : ℕ} {M : Mem} (h : p.off + i / 2 < sz p.arr) :
    stInt E sz p i v M = .ok (upd M p (i / 2) (E.put (decide (i % 2 = 1)) v (M p.arr (p.off + i / 2)))) := by
  unfold stInt
  rw [std_ok _ h]

theorem ldInt_same {E : IntCells} {sz : Arr → ℕ} {p : DPtr} {i v : ℕ} {M : Mem} (h : p.off + i / 2 < sz p.arr) :
    ldInt E sz p i (upd M p (i / 2) (E.put (decide (i % 2 = 1)) v (M p.arr (p.off + i / 2)))) = .ok v := by
  unfold ldInt
  rw [ldd_ok _ h, Res.ok_bind, upd_same, E.get_put]

theorem ldInt_other {E : IntCells} {sz : Arr → ℕ} {p : DPtr} {i j v : ℕ} {M : Mem} (hij : j ≠ i) :
    ldInt E sz p j (upd M p (i / 2) (E.put (decide (i % 2 = 1)) v (M p.arr (p.off + i / 2)))) = ldInt E sz p j M := by
  unfold ldInt ldd
  split
  · rw [Res.ok_bind, Res.ok_bind]
    congr 1
    by_cases h : j / 2 = i / 2
    · have e : decide (j % 2 = 1) = !decide (i % 2 = 1) := by
        rcases Nat.mod_two_eq_zero_or_one i with h1 | h1 <;> rcases Nat.mod_two_eq_zero_or_one j with h2 | h2 <;>
          simp [h1, h2] <;> omega
      rw [h, upd_same, e, E.get_put_other]
    · rw [upd_ne (.inr (by omega))]
  · rfl

/-- The sizes of the light curves can be read back. -/
theorem fNarr_spec {E : IntCells} {sz : Arr → ℕ} {p : DPtr} {n0 : ℕ} {l : List LC} {M : Mem}
    (hi : inside sz p ((l.length + 2) / 2)) :
    ∃ M', (stInt E sz p 0 n0 M >>= forD l.length (fun i => stInt E sz p (i + 1) ((l[i]?.map LC.n).getD 0))) = .ok M' ∧
      Only (reg p ((l.length + 2) / 2)) M M' ∧ ∀ i nq, (n0 :: l.map LC.n)[i]? = some nq → ldInt E sz p i M' = .ok nq := by
  unfold inside at hi
  have h0 : p.off + 0 / 2 < sz p.arr := by omega
  rw [stInt_ok h0, Res.ok_bind]
  obtain ⟨M', e, o, v⟩ := forD_inv
    (fun i M' => Only (reg p ((l.length + 2) / 2)) M M' ∧
      ∀ j nq, j < i + 1 → (n0 :: l.map LC.n)[j]? = some nq → ldInt E sz p j M' = .ok nq)
    l.length (fun i => stInt E sz p (i + 1) ((l[i]?.map LC.n).getD 0)) _
    ⟨only_upd_reg M p (i := 0 / 2) (E.put (decide (0 % 2 = 1)) n0 (M p.arr (p.off + 0 / 2))) (by omega), by
      intro j nq hj hq
      obtain rfl : j = 0 := by omega
      have : n0 = nq := by simpa using hq
      subst this
      exact ldInt_same h0⟩ (by
      intro i hil M1 ⟨o1, v1⟩
      have h1 : p.off + (i + 1) / 2 < sz p.arr := by omega
      rw [stInt_ok h1]
      refine ⟨_, rfl, o1.trans (only_upd_reg _ _ _ (by omega)), ?_⟩
      intro j nq hj hq
      by_cases e : j = i + 1
      · subst e
        rw [ldInt_same h1]
        rw [List.getElem?_cons_succ, List.getElem?_map] at hq
        rw [hq]; rfl
      · rw [ldInt_other e]
        exact v1 j nq (by omega) hq)
  refine ⟨M', e, o, fun i nq hq => v i nq ?_ hq⟩
  have := (List.getElem?_eq_some_iff.1 hq).1
  simpa using this

/-! ### Trend -/

theorem std_plus (sz : Arr → ℕ) (p : DPtr) (a i : ℕ) (v : ℝ) : std sz p (a + i) v = std sz (p.plus a) i v := by
  funext M
  simp only [std, DPtr.plus, Nat.add_assoc]

theorem fTrendFirst_spec {sz : Arr → ℕ} {d : DSet} {nq nqall len : ℕ} {T : ℕ → ℝ} {L : DPtr} {M : Mem} (hq : 0 < nq)
    (hle : nq ≤ nqall) (hlen : d.con.n * nqall ≤ len) (hi : inside sz L len)
    (hT : ∀ i c, c < nqall → T (i * nqall + c) = trendRow nq d.series 0 i c) :
    ∃ M', fTrendFirst sz d.con.t d.con.n nq nqall L M = .ok M' ∧
      Step L len T (fun x => ∃ i < d.con.n, ∃ c < nqall, x = i * nqall + c) M M' := by
  unfold fTrendFirst
  refine forD_step (fun i x => ∃ c < nqall, x = i * nqall + c) d.con.n _ M fun i hin M1 _ => ?_
  have hlt : ∀ c < nqall, i * nqall + c < len := fun c hc => (idx_lt hin hc).trans_le hlen
  have tr : ∀ c < nqall, T (i * nqall + c) = if c < nq then (if c = 0 then 1 else d.con.t i ^ c) else 0 := by
    intro c hc
    rw [hT i c hc]
    simp [DSet.series, trendRow, hin]
  have h0 := hlt 0 (by omega)
  have t0 := tr 0 (by omega)
  rw [if_pos hq, if_pos rfl, Nat.add_zero] at t0
  rw [Nat.add_zero] at h0
  have s1 := Step.upd (p := L) M1 T h0
  rw [t0] at s1
  rw [std_ok _ (by unfold inside at hi; omega), Res.ok_bind]
  obtain ⟨M2, e2, s2⟩ := forD_const (sz := sz) (p := L) (len := len) (T := T) (fun j => i * nqall + (j + 1)) (nq - 1)
    (fun j => d.con.t i ^ (j + 1)) (upd M1 L (i * nqall) 1) hi (fun j hj => hlt _ (by omega)) (fun j hj => by
      rw [tr (j + 1) (by omega), if_pos (by omega), if_neg (by omega)])
  obtain ⟨M3, e3, s3⟩ := forD_const (sz := sz) (p := L) (len := len) (T := T) (fun j => i * nqall + (nq + j)) (nqall - nq)
    (fun _ => 0) M2 hi (fun j hj => hlt _ (by omega)) (fun j hj => by
      rw [tr (nq + j) (by omega), if_neg (by omega)])
  rw [e2, Res.ok_bind, e3]
  refine ⟨M3, rfl, ((s1.trans s2).trans s3).mono ?_⟩
  rintro x ⟨c, hc, rfl⟩
  by_cases c0 : c = 0
  · exact .inl (.inl (by omega))
  · by_cases c1 : c < nq
    · exact .inl (.inr ⟨c - 1, by omega, by omega⟩)
    · exact .inr ⟨c - nq, by omega, by omega⟩

theorem fTrendRow_spec {sz : Arr → ℕ} {nq nqall o : ℕ} {t : ℝ} {L : DPtr} {M : Mem} (hq : 0 < nq) (ho : o + nq ≤ nqall)
    (a : ℕ) (hi : inside sz (L.plus a) nqall) :
    ∃ M', (forD nqall (fun i => std sz L (a + i) 0) M >>= std sz L (a + o) 1 >>=
        forD (nq - 1) (fun i => std sz L (a + (o + (i + 1))) (t ^ (i + 1)))) = .ok M' ∧
      Only (reg (L.plus a) nqall) M M' ∧
      ∀ c < nqall, M' L.arr (L.off + (a + c)) = if o ≤ c ∧ c < o + nq then t ^ (c - o) else 0 := by
  simp only [std_plus sz L a]
  let T : ℕ → ℝ := fun c => if o ≤ c ∧ c < o + nq then t ^ (c - o) else 0
  obtain ⟨M1, e1, s1⟩ := forD_const (sz := sz) (p := L.plus a) (len := nqall) (T := fun _ => 0) (fun i => i) nqall
    (fun _ => 0) M hi (fun _ h => h) (fun _ _ => rfl)
  have t0 : T o = 1 := by simp [T, hq]
  have s2 := Step.upd (p := L.plus a) M1 T (show o < nqall by omega)
  rw [t0] at s2
  obtain ⟨M3, e3, s3⟩ := forD_const (sz := sz) (p := L.plus a) (len := nqall) (T := T) (fun i => o + (i + 1)) (nq - 1)
    (fun i => t ^ (i + 1)) (upd M1 (L.plus a) o 1) hi (fun i h => by omega) (fun i h => by
      simp only [T]
      rw [if_pos ⟨by omega, by omega⟩]
      congr 1
      omega)
  rw [e1, Res.ok_bind, std_ok _ (by unfold inside at hi; omega), Res.ok_bind, e3]
  have s23 := s2.trans s3
  refine ⟨M3, rfl, s1.1.trans s23.1, fun c hc => ?_⟩
  have key : M3 (L.plus a).arr ((L.plus a).off + c) = T c := by
    by_cases h : o ≤ c ∧ c < o + nq
    · refine s23.2.1 c ?_
      by_cases h0 : c = o
      · exact .inl h0
      · exact .inr ⟨c - o - 1, by omega, by omega⟩
    · refine s23.2.2 c ?_
      rw [s1.2.1 c ⟨c, hc, rfl⟩]
      simp only [T]
      rw [if_neg h]
  simpa only [DPtr.plus, Nat.add_assoc] using key

theorem fTrendLines_spec {sz : Arr → ℕ} {ser : List LC} {nq nqall len : ℕ} {T : ℕ → ℝ} {L : DPtr} (hq : 0 < nq)
    (hnq : nqall = nq * ser.length) (hlen : totalN ser * nqall ≤ len) (hi : inside sz L len)
    (hT : ∀ i c, c < nqall → T (i * nqall + c) = trendRow nq ser 0 i c) (l : List LC) :
    ∀ (pre : List LC) (j np : ℕ) (M : Mem), ser = pre ++ l → pre.length = j + 1 → totalN pre = np →
      ∃ M', fTrendLines sz nq nqall L l j np M = .ok M' ∧
        Step L len T (fun x => ∃ i, np ≤ i ∧ i < totalN ser ∧ ∃ c < nqall, x = i * nqall + c) M M' := by
  induction l with
  | nil =>
    intro pre j np M hs _ hnp
    refine ⟨M, rfl, (Step.refl L len T M).mono ?_⟩
    rintro x ⟨i, h1, h2, -⟩
    rw [hs, List.append_nil] at h2
    omega
  | cons a l ih =>
    intro pre j np M hs hj hnp
    rw [fTrendLines]
    have hlenser : ser.length = j + 1 + (l.length + 1) := by rw [hs, List.length_append, hj]; simp
    have ho : nq + j * nq + nq ≤ nqall := by
      rw [hnq, hlenser]
      calc nq + j * nq + nq = nq * (j + 1 + 1) := by ring
        _ ≤ _ := Nat.mul_le_mul_left _ (by omega)
    have htot : np + a.n ≤ totalN ser := by
      rw [hs, totalN_append, hnp]; simp only [totalN]; omega
    obtain ⟨M1, e1, s1⟩ := forD_step (p := L) (len := len) (T := T) (fun m x => ∃ c < nqall, x = (np + m) * nqall + c) a.n
      (fun m M => forD nqall (fun i => std sz L ((np + m) * nqall + i) 0) M >>=
        std sz L ((np + m) * nqall + nq + j * nq + 0) 1 >>=
        forD (nq - 1) (fun i => std sz L ((np + m) * nqall + nq + j * nq + (i + 1)) (a.t m ^ (i + 1)))) M (by
      intro m hm M1 _
      have hrow : (np + m) * nqall + nqall ≤ len := by
        calc (np + m) * nqall + nqall = (np + m + 1) * nqall := by ring
          _ ≤ totalN ser * nqall := Nat.mul_le_mul_right _ (by omega)
          _ ≤ len := hlen
      obtain ⟨M2, e2, o2, v2⟩ := fTrendRow_spec (sz := sz) (nq := nq) (nqall := nqall) (o := nq + j * nq) (t := a.t m) (L := L)
        (M := M1) hq ho ((np + m) * nqall) (by unfold inside at hi ⊢; simp only [DPtr.plus]; omega)
      refine ⟨M2, ?_, (Step.of_piece hrow o2 ?_).mono ?_⟩
      · rw [← e2]
        simp only [Nat.add_zero, Nat.add_assoc]
      · intro c hc
        rw [v2 c hc, hT _ _ hc, hs, ← hnp, trendRow_split nq 0 pre a l m c hm, hj]
        rw [show (0 + (j + 1)) * nq = nq + j * nq by ring]
      · rintro x ⟨c, hc, rfl⟩
        omega)
    rw [e1, Res.ok_bind]
    obtain ⟨M2, e2, s2⟩ := ih (pre ++ [a]) (j + 1) (np + a.n) M1 (by rw [hs]; simp) (by simp [hj])
      (by rw [totalN_append, hnp]; simp [totalN])
    refine ⟨M2, e2, (s1.trans s2).mono ?_⟩
    rintro x ⟨i, h1, h2, h3⟩
    by_cases h : i < np + a.n
    · obtain ⟨c, hc, rfl⟩ := h3
      exact .inl ⟨i - np, by omega, c, hc, by rw [Nat.add_sub_cancel' h1]⟩
    · exact .inr ⟨i, by omega, h2, h3⟩

/-- `Larr` holds the trend matrix. -/
theorem fTrend_spec {sz : Arr → ℕ} {d : DSet} {nq : ℕ} {L : DPtr} {M : Mem} (hq : 0 < nq)
    (hi : inside sz L (d.nall * (nq * (1 + d.line.length)))) :
    ∃ M', (fTrendFirst sz d.con.t d.con.n nq (nq * (1 + d.line.length)) L M >>=
        fTrendLines sz nq (nq * (1 + d.line.length)) L d.line 0 d.con.n) = .ok M' ∧
      Only (reg L (d.nall * (nq * (1 + d.line.length)))) M M' ∧
      matAt M' L d.nall (nq * (1 + d.line.length)) = d.trend nq := by
  set nqall := nq * (1 + d.line.length) with hnq
  let T : ℕ → ℝ := fun x => trendRow nq d.series 0 (x / nqall) (x % nqall)
  have hT : ∀ i c, c < nqall → T (i * nqall + c) = trendRow nq d.series 0 i c := by
    intro i c hc
    simp only [T, idx_div hc, idx_mod hc]
  have hcn : d.con.n ≤ d.nall := by simp only [DSet.nall, DSet.series, totalN]; omega
  have hle : nq ≤ nqall := Nat.le_mul_of_pos_right nq (by omega)
  obtain ⟨M1, e1, s1⟩ := fTrendFirst_spec (sz := sz) (d := d) (T := T) (L := L) (M := M) hq hle
    (Nat.mul_le_mul_right nqall hcn) hi hT
  obtain ⟨M2, e2, s2⟩ := fTrendLines_spec (sz := sz) (ser := d.series) (T := T) (L := L) hq
    (by rw [hnq]; simp [DSet.series, Nat.add_comm]) le_rfl hi hT d.line [d.con] 0 d.con.n M1 rfl rfl (by simp [totalN])
  rw [e1, Res.ok_bind, e2]
  have s := s1.trans s2
  refine ⟨M2, rfl, s.1, ?_⟩
  ext i c
  show M2 L.arr (L.off + _) = trendRow nq d.series 0 i c
  rw [s.2.1 (i * nqall + c) ?_, hT _ _ c.2]
  by_cases h : (i : ℕ) < d.con.n
  · exact .inl ⟨i, h, c, c.2, rfl⟩
  · exact .inr ⟨i, by omega, i.2, c, c.2, rfl⟩

/-! ### Covariance -/

theorem fCovar_run {sz : Arr → ℕ} {len : ℕ} (hl : len ≤ sz (.sh .pcmat)) (ws : List (ℕ × ℝ)) :
    ∀ M : Mem, (∀ w ∈ ws, w.1 < len) →
      ∃ M', fCovar sz ws M = .ok M' ∧ Only (reg ⟨.sh .pcmat, 0⟩ len) M M' ∧
        ∀ x, M' (.sh .pcmat) x = runWrites ws (M (.sh .pcmat)) x := by
  induction ws with
  | nil => intro M _; exact ⟨M, rfl, Only.refl _ _, fun _ => rfl⟩
  | cons w ws ih =>
    intro M hw
    have h0 := hw w (by simp)
    rw [fCovar, std_ok _ (by show 0 + w.1 < sz (.sh .pcmat); omega), Res.ok_bind]
    obtain ⟨M', e, o, v⟩ := ih (upd M ⟨.sh .pcmat, 0⟩ w.1 w.2) (fun w' h => hw w' (by simp [h]))
    refine ⟨M', e, (only_upd_reg _ _ _ h0).trans o, fun x => ?_⟩
    rw [v x]
    have hu : upd M ⟨.sh .pcmat, 0⟩ w.1 w.2 (.sh .pcmat) = Function.update (M (.sh .pcmat)) w.1 w.2 := by
      funext y
      simp [upd, Function.update_apply]
    rw [hu]
    rfl

/-- `PCmat` holds the covariance. -/
theorem fCovar_spec {sz : Arr → ℕ} (K : Kernels) (d : DSet) (pm : ℕ → ℝ) (idxc : ℕ) (idxl : ℕ → ℕ) (M : Mem)
    (hl : d.nall * d.nall ≤ sz (.sh .pcmat)) :
    ∃ M', fCovar sz (lineWritesArr K d pm idxc idxl) M = .ok M' ∧ Only (reg ⟨.sh .pcmat, 0⟩ (d.nall * d.nall)) M M' ∧
      ∀ i < d.nall, ∀ j < d.nall, M' (.sh .pcmat) (i * d.nall + j) = arrayOf (d.cov K pm idxc idxl) i j := by
  obtain ⟨M', e, o, v⟩ := fCovar_run hl (lineWritesArr K d pm idxc idxl) M (fun w hw =>
    (lineWrites_val K d pm idxc idxl w ((lineWrites_mem_iff K d pm idxc idxl w).1 hw)).2)
  refine ⟨M', e, o, fun i hi j hj => ?_⟩
  rw [v, runWrites_lineArr K d pm idxc idxl _ hi hj]
  simp [arrayOf, hi, hj, DSet.cov]

end Mica
