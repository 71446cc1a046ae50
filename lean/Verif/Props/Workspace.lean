import Verif.Proof.Workspace

/-!
# C79: the shared work arrays are large enough and their parts do not overlap

Every run allocates its work arrays once, from the largest numbers of points over the data sets; each
likelihood or reconstruction then cuts them into consecutive parts.  The theorems say, for all numbers of data
sets, lines and points, that every element touched lies inside its array and that no two parts meet.
-/

namespace Mica

private theorem ipiv_ge (nq : ℕ) (m : Maxima) :
    m.nall ≤ sharedSize nq m .ipiv ∧ m.nrec ≤ sharedSize nq m .ipiv := by
  simp only [sharedSize]; split <;> omega

local macro "areas" : tactic => `(tactic| (
  first | apply Acc.vec_within | apply Acc.mat_within | apply Acc.ints_within
  all_goals
    simp only [lay, Acc.vec, Acc.mat, Acc.ints, List.take_succ_cons, List.take_zero, List.sum_cons, List.sum_nil,
      reduceCtorEq, if_true, if_false, conRecSize, Nat.add_eq_zero_iff, one_ne_zero,
      and_false, Nat.zero_add]
    try omega))

/-- **C79.** Likelihood of the continuum. -/
theorem C79_con_likelihood (nq : ℕ) (ds : List DSize) (h1 : 1 ≤ nq) (hc : ∀ d ∈ ds, nq ≤ d.con) (d : DSize)
    (hd : d ∈ ds) :
    InBounds (sharedSize nq (maxima ds)) (conLikeAcc nq (maxima ds) d) ∧
      Separate (conLikeAcc nq (maxima ds) d) := by
  have hq := hc d hd
  obtain ⟨f1, -, f3, -, f5, -⟩ := maxima_fits hd
  have f0 := ncon_le_nall ds
  have e := ws_expand nq (maxima ds)
  obtain ⟨e1, e2⟩ := ipiv_ge nq (maxima ds)
  generalize maxima ds = m at *
  have hns : nq ≤ wsCols nq m := Nat.le_mul_of_pos_left _ (by omega)
  have f6 : d.con ≤ d.con * (1 + d.nl) := Nat.le_mul_of_pos_right _ (by omega)
  have g1 : d.con * nq ≤ m.ncon * nq := Nat.mul_le_mul_right _ f1
  have g2 : 1 * nq ≤ m.ncon * nq := Nat.mul_le_mul_right _ (by omega)
  have g3 : m.ncon * nq ≤ m.nall * wsCols nq m := Nat.mul_le_mul f0 hns
  have g4 : nq * nq ≤ wsCols nq m * wsCols nq m := Nat.mul_le_mul hns hns
  have g5 : d.con ≤ m.ncon * nq := le_trans f1 (Nat.le_mul_of_pos_right _ h1)
  refine safe_of (b0 := .workspace)
    (sizes := [m.ncon * nq, m.ncon * nq, m.ncon, nq, nq * nq, m.ncon, m.ncon, m.ncon]) ?_ ?_
  · rw [e]; simp only [List.sum_cons, List.sum_nil]; omega
  · simp only [conLikeAcc, List.forall_mem_cons, List.not_mem_nil, false_imp_iff, implies_true, and_true]
    refine ⟨?_, ?_, ?_, ?_, ?_, ?_, ?_, ?_, ?_, ?_, ?_⟩
    all_goals areas

/-- **C79.** Reconstruction of the continuum at three times as many times as there are data. -/
theorem C79_con_reconstruction (nq : ℕ) (ds : List DSize) (h1 : 1 ≤ nq) (hc : ∀ d ∈ ds, nq ≤ d.con) (d : DSize)
    (hd : d ∈ ds) :
    InBounds (conRecSize nq (maxima ds) d (d.con * 3)) (conRecAcc nq d (d.con * 3)) ∧
      Separate (conRecAcc nq d (d.con * 3)) := by
  have hq := hc d hd
  obtain ⟨f1, -, f3, -, f5, -⟩ := maxima_fits hd
  have f0 := ncon_le_nall ds
  have e := ws_expand nq (maxima ds)
  obtain ⟨e1, e2⟩ := ipiv_ge nq (maxima ds)
  generalize maxima ds = m at *
  have hns : nq ≤ wsCols nq m := Nat.le_mul_of_pos_left _ (by omega)
  have f6 : d.con ≤ d.con * (1 + d.nl) := Nat.le_mul_of_pos_right _ (by omega)
  have eu : sharedSize nq m .usmat = m.nall * m.nrec := rfl
  set n := d.con * 3 with hn
  have g1 : d.con * nq ≤ m.nall * wsCols nq m := Nat.mul_le_mul (by omega) hns
  have g2 : nq * nq ≤ wsCols nq m * wsCols nq m := Nat.mul_le_mul hns hns
  have g3 : n * nq ≤ m.nrec * wsCols nq m := Nat.mul_le_mul (by omega) hns
  have g4 : n ≤ n * nq := Nat.le_mul_of_pos_right _ h1
  have g5 : n * d.con ≤ m.nall * m.nrec := by
    rw [Nat.mul_comm]; exact Nat.mul_le_mul (by omega) (by omega)
  have g6 : n * nq ≤ n * d.con := Nat.mul_le_mul_left _ hq
  have g7 : d.con * n = n * d.con := Nat.mul_comm _ _
  refine safe_of (b0 := .workspace)
    (sizes := [d.con * nq, d.con * nq, d.con, nq * nq, nq, n, n * nq, d.con, d.con, d.con]) ?_ ?_
  · simp only [conRecSize]
    rw [e]; simp only [List.sum_cons, List.sum_nil]; omega
  · simp only [conRecAcc, List.forall_mem_cons, List.not_mem_nil, false_imp_iff, implies_true, and_true]
    refine ⟨?_, ?_, ?_, ?_, ?_, ?_, ?_, ?_, ?_, ?_, ?_, ?_, ?_, ?_, ?_, ?_, ?_, ?_⟩
    all_goals areas

/-- Block inversion, one pass after the other. -/
private theorem block_safe (size : Buf → ℕ) (nt : ℕ) (hv : 2 * (nt * nt) ≤ size .inv)
    (hp : nt * nt ≤ size .pcmat) (hi : nt ≤ size .ipiv) : ∀ (ls : List ℕ) (ni : ℕ), ni + ls.sum ≤ nt →
    ∀ l ∈ blockStepAcc nt ni ls, InBounds size l ∧ Separate l := by
  intro ls
  induction ls with
  | nil => intro ni _ l h; simp [blockStepAcc] at h
  | cons nq rest ih =>
    intro ni h l hl
    rw [List.sum_cons] at h
    rw [blockStepAcc] at hl
    rcases List.mem_cons.1 hl with rfl | hl
    swap
    · exact ih (ni + nq) (by omega) l hl
    have e1 : (ni + nq) * (ni + nq) ≤ nt * nt := Nat.mul_le_mul (by omega) (by omega)
    have e2 : (ni + nq) * (ni + nq) = ni * ni + ni * nq + nq * nq + ni * nq := by ring
    refine safe_touches (b0 := .inv) (sizes := [nt * nt, ni * ni, ni * nq, nq * nq, ni * nq]) ?_ ?_
    · simp only [List.sum_cons, List.sum_nil]; omega
    · simp only [List.cons_append, List.nil_append, List.forall_mem_cons, List.not_mem_nil, false_imp_iff,
        implies_true, and_true]
      refine ⟨?_, ?_, ?_, ?_, ?_, ?_, ?_, ?_, ?_⟩
      · intro x hx; refine Acc.within_touches ?_ hx; areas
      · intro x hx; refine Acc.within_touches ?_ hx; areas
      · intro x hx
        have := sub_touches (b := .pcmat) (k := 0) (r := 0) (c := ni) (rows := ni) (cols := nq) (nt := nt) (x := x) (by omega) (by omega)
          (by simpa only [Nat.zero_mul, Nat.zero_add] using hx)
        simp only [lay, reduceCtorEq, if_false, if_true, Nat.zero_add, one_ne_zero]
        omega
      · intro x hx; refine Acc.within_touches ?_ hx; areas
      · intro x hx
        have := sub_touches (r := ni) (c := ni) (rows := nq) (cols := nq) (by omega) (by omega) hx
        simp only [lay, reduceCtorEq, if_false, if_true, Nat.zero_add, one_ne_zero]
        omega
      · intro x hx; refine Acc.within_touches ?_ hx; areas
      · intro x hx; refine Acc.within_touches ?_ hx; areas
      · intro x hx; refine Acc.within_touches ?_ hx; areas
      · intro x hx; refine Acc.within_touches ?_ hx
        split
        · areas
        · areas

/-- **C79.** Likelihood of continuum and lines, including every pass of the block inversion. -/
theorem C79_line_likelihood (nq : ℕ) (ds : List DSize) (h1 : 1 ≤ nq) (hc : ∀ d ∈ ds, nq ≤ d.con) (d : DSize)
    (hd : d ∈ ds) :
    (InBounds (sharedSize nq (maxima ds)) (lineLikeAcc nq (maxima ds) d) ∧
      Separate (lineLikeAcc nq (maxima ds) d)) ∧
    ∀ l ∈ blockStepAcc d.all d.con d.lines, InBounds (sharedSize nq (maxima ds)) l ∧ Separate l := by
  have hq := hc d hd
  obtain ⟨f1, f2, f3, f4, f5, -⟩ := maxima_fits hd
  have f0 := ncon_le_nall ds
  have e := ws_expand nq (maxima ds)
  obtain ⟨e1, e2⟩ := ipiv_ge nq (maxima ds)
  generalize maxima ds = m at *
  have ep : sharedSize nq m .pcmat = m.nall * m.nall := rfl
  have es : sharedSize nq m .psmat = m.nall * m.nall := rfl
  have ev : sharedSize nq m .inv = 3 * (m.nall * m.nall) := by simp only [sharedSize]; ring
  have elc : sharedSize nq m .smatLC = m.ncon * m.nline := rfl
  have ell : sharedSize nq m .smatLL = m.nline * m.nline := rfl
  have hcon : d.con ≤ d.all := Nat.le_add_right _ _
  have hsq : d.all * d.all ≤ m.nall * m.nall := Nat.mul_le_mul f3 f3
  constructor
  swap
  · exact block_safe _ _ (by omega) (by omega) (by omega) _ _ (le_refl _)
  have hw : wsCols nq m = (1 + m.nlset) * nq := rfl
  rw [hw] at e
  set S := (1 + m.nlset) * nq with hS
  have hqS : nq * (1 + d.nl) ≤ S := by
    rw [hS, Nat.mul_comm]; exact Nat.mul_le_mul_right _ (by omega)
  have hS1 : 1 ≤ S := Nat.mul_pos (by omega) h1
  have hq3 : nq * (1 + d.nl) ≤ d.con * (1 + d.nl) := Nat.mul_le_mul_right _ hq
  have hl3 : 1 + d.nl ≤ d.con * (1 + d.nl) := Nat.le_mul_of_pos_left _ (by omega)
  set q := nq * (1 + d.nl) with hqdef
  have g1 : d.all * q ≤ m.nall * S := Nat.mul_le_mul f3 hqS
  have g2 : q * q ≤ S * S := Nat.mul_le_mul hqS hqS
  have g3 : m.nrec ≤ m.nrec * S := Nat.le_mul_of_pos_right _ hS1
  have g4 : S ≤ m.nall * S := Nat.le_mul_of_pos_left _ (by omega)
  have g5 : m.nall ≤ m.nall * S := Nat.le_mul_of_pos_right _ hS1
  have g6 : d.con * d.con ≤ m.nall * m.nall := Nat.mul_le_mul (by omega) (by omega)
  refine safe_of (b0 := .workspace)
    (sizes := [m.nall * S, m.nall * S, m.nall, S, S * S, m.nall, m.nall, m.nall, m.nall, (2 + d.nl) / 2]) ?_ ?_
  · rw [e]; simp only [List.sum_cons, List.sum_nil]; omega
  · simp only [lineLikeAcc, List.forall_mem_append, List.forall_mem_cons, List.not_mem_nil, false_imp_iff,
      implies_true, and_true, List.mem_map, List.mem_flatMap, forall_exists_index, and_imp, ← hS, ← hqdef]
    refine ⟨⟨⟨⟨?_, ?_, ?_, ?_⟩, ?_⟩, ?_⟩, ?_, ?_, ?_, ?_, ?_, ?_, ?_, ?_, ?_, ?_, ?_, ?_⟩
    case refine_5 =>
      rintro a n hn rfl
      have : d.con * n ≤ m.ncon * m.nline := Nat.mul_le_mul f1 (f2 n hn)
      areas
    case refine_6 =>
      rintro a n hn n2 hn2 rfl
      have : n * n2 ≤ m.nline * m.nline := Nat.mul_le_mul (f2 n hn) (f2 n2 hn2)
      areas
    all_goals areas

set_option maxHeartbeats 1000000 in
private theorem line_rec_core (nq n : ℕ) (d : DSize) (size : Buf → ℕ) (A q T M R S Y : ℕ)
    (hA : d.all = A) (hq : nq * (1 + d.nl) = q) (hT : n + d.nl * n = T)
    (e : size .workspace = 5 * M + 2 * (M * S) + 2 * (R * S) + S + S * S)
    (ev : size .inv = 3 * (M * M)) (ei : M ≤ size .ipiv ∧ R ≤ size .ipiv) (es : size .psmat = M * M)
    (ep : size .pcmat = M * M) (eu : size .usmat = M * R) (ea : size .asmat = R * R)
    (e1 : size .pe1 = T * A) (e2 : size .pe2 = T * T) (e3 : size .fall = T) (e4 : size .feall = T)
    (e5 : size .yqall = Y) (hc : d.con ≤ A) (hAM : A ≤ M) (hqS : q ≤ S) (hqY : q ≤ Y) (hqT : q ≤ T) (hqA : q ≤ A)
    (hTR : T ≤ R) (hS : 2 ≤ S) (hl : 1 + d.nl ≤ T) :
    InBounds size (lineRecAcc nq d n) ∧ Separate (lineRecAcc nq d n) := by
  obtain ⟨ei1, ei2⟩ := ei
  have g1 : A * q ≤ M * S := Nat.mul_le_mul hAM hqS
  have g2 : q * q ≤ S * S := Nat.mul_le_mul hqS hqS
  have g3 : T * q ≤ R * S := Nat.mul_le_mul hTR hqS
  have g4 : R * 2 ≤ R * S := Nat.mul_le_mul_left _ hS
  have g5 : T * A ≤ M * R := by rw [Nat.mul_comm]; exact Nat.mul_le_mul hAM hTR
  have g6 : T * T ≤ R * R := Nat.mul_le_mul hTR hTR
  have g7 : T * q ≤ T * A := Nat.mul_le_mul_left _ hqA
  have g8 : d.con * d.con ≤ M * M := Nat.mul_le_mul (by omega) (by omega)
  have g9 : A * A ≤ M * M := Nat.mul_le_mul hAM hAM
  refine safe_of (b0 := .workspace)
    (sizes := [A * q, A * q, A, q * q, q, T, T * q, A, A, A, d.con, (2 + d.nl) / 2]) ?_ ?_
  · rw [e]; simp only [List.sum_cons, List.sum_nil]; omega
  · simp only [lineRecAcc, List.forall_mem_cons, List.not_mem_nil, false_imp_iff, implies_true, and_true,
      hA, hq, hT]
    refine ⟨?_, ?_, ?_, ?_, ?_, ?_, ?_, ?_, ?_, ?_, ?_, ?_, ?_, ?_, ?_, ?_, ?_, ?_, ?_, ?_, ?_, ?_, ?_, ?_⟩
    all_goals areas

/-- **C79.** Reconstruction of continuum and lines, including every pass of the block inversion.  Missing: data
without any line and without a trend (`2 ≤ (1 + nlset_max) * nq` fails), see `C79_no_line`. -/
theorem C79_line_reconstruction_partial (nq ndRec : ℕ) (ds : List DSize) (h1 : 1 ≤ nq)
    (hc : ∀ d ∈ ds, nq ≤ d.con) (hdat : ∀ d ∈ ds, nq * (1 + d.nl) ≤ d.all) (hrec : nq ≤ ndRec)
    (hcols : 2 ≤ (1 + (maxima ds).nlset) * nq) (d : DSize) (hd : d ∈ ds) :
    (InBounds (lineRecSize nq (maxima ds) d (recNodes ndRec d)) (lineRecAcc nq d (recNodes ndRec d)) ∧
      Separate (lineRecAcc nq d (recNodes ndRec d))) ∧
    ∀ l ∈ blockStepAcc d.all d.con d.lines,
      InBounds (lineRecSize nq (maxima ds) d (recNodes ndRec d)) l ∧ Separate l := by
  have hq := hc d hd
  obtain ⟨f1, f2, f3, f4, f5, -⟩ := maxima_fits hd
  have e := ws_expand nq (maxima ds)
  have ei := ipiv_ge nq (maxima ds)
  generalize maxima ds = m at *
  have hn3 : recNodes ndRec d ≤ d.con * 3 := min_le_left _ _
  have hnq : nq ≤ recNodes ndRec d := le_min (by omega) hrec
  generalize recNodes ndRec d = n at *
  have hcon : d.con ≤ d.all := Nat.le_add_right _ _
  have hsq : d.all * d.all ≤ m.nall * m.nall := Nat.mul_le_mul f3 f3
  have ev : lineRecSize nq m d n .inv = 3 * (m.nall * m.nall) := by simp only [lineRecSize, sharedSize]; ring
  have ep : lineRecSize nq m d n .pcmat = m.nall * m.nall := rfl
  constructor
  swap
  · exact block_safe (lineRecSize nq m d n) d.all (by omega) (by omega) (le_trans f3 ei.1) _ _ (le_refl _)
  have hyq : nq * (1 + d.nl) ≤ nq * (1 + m.nlset) := Nat.mul_le_mul_left _ (by omega)
  have hT : n + d.nl * n = n * (1 + d.nl) := by ring
  have hq3 : nq * (1 + d.nl) ≤ n + d.nl * n := hT ▸ Nat.mul_le_mul_right _ hnq
  have hl3 : 1 + d.nl ≤ n + d.nl * n := hT ▸ Nat.le_mul_of_pos_left _ (by omega)
  have hT3 : n + d.nl * n ≤ m.nrec := by
    rw [hT]
    refine le_trans (Nat.mul_le_mul_right (1 + d.nl) hn3) ?_
    rw [Nat.mul_right_comm, Nat.mul_comm]; exact f5
  exact line_rec_core nq n d _ d.all _ _ m.nall m.nrec (wsCols nq m) _ rfl rfl rfl e ev ei rfl rfl rfl rfl
    rfl rfl rfl rfl rfl hcon f3 (by rw [wsCols, Nat.mul_comm (1 + m.nlset)]; exact hyq) hyq hq3 (hdat d hd)
    hT3 hcols hl3

/-- **C79, negation.** A single data set with a continuum only, no trend, and at least three reconstruction
times per datum allowed: the number of continuum points is stored just behind the end of the workspace. -/
theorem C79_no_line (con ndRec : ℕ) (h : 1 ≤ con) (hrec : 3 * con ≤ ndRec) :
    ¬ InBounds (lineRecSize 1 (maxima [⟨con, []⟩]) ⟨con, []⟩ (recNodes ndRec ⟨con, []⟩))
      (lineRecAcc 1 ⟨con, []⟩ (recNodes ndRec ⟨con, []⟩)) := by
  intro hb
  have hn : recNodes ndRec ⟨con, []⟩ = con * 3 := by
    change min (con * 3) ndRec = con * 3
    omega
  rw [hn] at hb
  have hm : maxima [⟨con, []⟩] = ⟨con, 0, con, 0, con * 3⟩ := by
    simp [maxima, Maxima.step, DSize.all, DSize.nl]
    omega
  rw [hm] at hb
  have := hb (.ints .workspace 11 (5 * con + (2 * con + 2 * (con * 3) + 1 + 1)) 1) (by
    simp only [lineRecAcc, DSize.nl, DSize.all, List.length_nil, List.sum_nil]
    refine List.mem_cons_of_mem _ (List.mem_cons_of_mem _ (List.mem_cons_of_mem _ (List.mem_cons_of_mem _
      (List.mem_cons_of_mem _ (List.mem_cons.2 (Or.inl ?_))))))
    congr 1
    omega) (5 * con + (2 * con + 2 * (con * 3) + 1 + 1)) ⟨0, Nat.one_pos, 0, Nat.one_pos, by simp [Acc.ints]⟩
  simp [lineRecSize, sharedSize, wsCols, Acc.ints] at this

private theorem decomp_core (nq n : ℕ) (d : DSize) (size : Buf → ℕ) (A q T M R S K Y : ℕ)
    (hA : d.all = A) (hq : nq * (1 + d.nl) = q) (hT : n + d.nl * n = T)
    (e : size .workspace = 5 * M + 2 * (M * S) + 2 * (R * S) + S + S * S)
    (ei : M ≤ size .ipiv ∧ R ≤ size .ipiv) (es : size .psmat = M * M)
    (ep : size .pcmat = M * M) (eu : size .usmat = M * R) (et : size .usmatT = M * R) (ea : size .asmat = R * R)
    (e1 : size .pe1 = K * K) (e2 : size .pe2 = K * K) (e3 : size .fall = T) (e4 : size .feall = T)
    (e5 : size .yqall = Y) (hAM : A ≤ M) (hqS : q ≤ S) (hqY : q ≤ Y) (hqT : q ≤ T)
    (hTR : T ≤ R) (hS : 1 ≤ S) (hTK : T ≤ K) (hMK : M ≤ K) :
    InBounds size (decompAcc nq d n) ∧ Separate (decompAcc nq d n) := by
  obtain ⟨ei1, ei2⟩ := ei
  have g1 : A * q ≤ M * S := Nat.mul_le_mul hAM hqS
  have g2 : q * q ≤ S * S := Nat.mul_le_mul hqS hqS
  have g3 : T * q ≤ R * S := Nat.mul_le_mul hTR hqS
  have g4 : R ≤ R * S := Nat.le_mul_of_pos_right _ hS
  have g5 : T * A ≤ M * R := by rw [Nat.mul_comm]; exact Nat.mul_le_mul hAM hTR
  have g6 : T * T ≤ R * R := Nat.mul_le_mul hTR hTR
  have g7 : A * T = T * A := Nat.mul_comm _ _
  have g9 : A * A ≤ M * M := Nat.mul_le_mul hAM hAM
  have p1 : A * A ≤ K * K := Nat.mul_le_mul (by omega) (by omega)
  have p2 : A * q ≤ K * K := Nat.mul_le_mul (by omega) (by omega)
  have p3 : q * q ≤ K * K := Nat.mul_le_mul (by omega) (by omega)
  have p4 : A * T ≤ K * K := Nat.mul_le_mul (by omega) (by omega)
  have p5 : T * T ≤ K * K := Nat.mul_le_mul (by omega) (by omega)
  have p6 : K ≤ K * K := by
    rcases Nat.eq_zero_or_pos K with h | h
    · omega
    · exact Nat.le_mul_of_pos_right _ h
  refine safe_of (b0 := .workspace) (sizes := [A * q, A * q, A, q * q, q, A, T, T * q]) ?_ ?_
  · rw [e]; simp only [List.sum_cons, List.sum_nil]; omega
  · simp only [decompAcc, List.forall_mem_cons, List.not_mem_nil, false_imp_iff, implies_true, and_true,
      hA, hq, hT]
    refine ⟨?_, ?_, ?_, ?_, ?_, ?_, ?_, ?_, ?_, ?_, ?_, ?_, ?_, ?_, ?_, ?_, ?_, ?_, ?_, ?_, ?_, ?_, ?_⟩
    all_goals areas

/-- **C79.** Decomposition of the lines into components. -/
theorem C79_decomposition (nq ndRec : ℕ) (ds : List DSize) (h1 : 1 ≤ nq)
    (hc : ∀ d ∈ ds, nq ≤ d.con) (hrec : nq ≤ ndRec) (d : DSize) (hd : d ∈ ds) :
    InBounds (decompSize nq (maxima ds) d (recNodes ndRec d)) (decompAcc nq d (recNodes ndRec d)) ∧
      Separate (decompAcc nq d (recNodes ndRec d)) := by
  have hq := hc d hd
  obtain ⟨f1, f2, f3, f4, f5, -⟩ := maxima_fits hd
  have e := ws_expand nq (maxima ds)
  have ei := ipiv_ge nq (maxima ds)
  generalize maxima ds = m at *
  have hn3 : recNodes ndRec d ≤ d.con * 3 := min_le_left _ _
  have hnq : nq ≤ recNodes ndRec d := le_min (by omega) hrec
  generalize recNodes ndRec d = n at *
  have hyq : nq * (1 + d.nl) ≤ nq * (1 + m.nlset) := Nat.mul_le_mul_left _ (by omega)
  have hT : n + d.nl * n = n * (1 + d.nl) := by ring
  have hq3 : nq * (1 + d.nl) ≤ n + d.nl * n := hT ▸ Nat.mul_le_mul_right _ hnq
  have hT3 : n + d.nl * n ≤ m.nrec := by
    rw [hT]
    refine le_trans (Nat.mul_le_mul_right (1 + d.nl) hn3) ?_
    rw [Nat.mul_right_comm, Nat.mul_comm]; exact f5
  exact decomp_core nq n d _ d.all _ _ m.nall m.nrec (wsCols nq m) _ _ rfl rfl rfl e ei rfl rfl rfl rfl rfl
    rfl rfl rfl rfl rfl f3 (by rw [wsCols, Nat.mul_comm (1 + m.nlset)]; exact hyq) hyq hq3
    hT3 (Nat.mul_pos (by omega) h1) (le_max_left _ _) (le_max_right _ _)

/-- **C79.** Likelihood of the virtual-continuum mode, including every pass of the block inversion. -/
theorem C79_vmap_likelihood (nq : ℕ) (ds : List DSize) (h1 : 1 ≤ nq)
    (hc : ∀ d ∈ ds, d.lines ≠ [] ∧ ∀ n ∈ d.lines, nq ≤ n) (d : DSize) (hd : d ∈ ds) :
    (InBounds (sharedSize nq (maxima ds)) (vmapLikeAcc nq (maxima ds) d) ∧
      Separate (vmapLikeAcc nq (maxima ds) d)) ∧
    ∀ l ∈ blockStepAcc d.all (d.lines.headD 0) d.lines.tail,
      InBounds (sharedSize nq (maxima ds)) l ∧ Separate l := by
  obtain ⟨hne, hq⟩ := hc d hd
  obtain ⟨f1, f2, f3, f4, -, f5⟩ := maxima_fits hd
  have e := ws_expand nq (maxima ds)
  obtain ⟨e1, e2⟩ := ipiv_ge nq (maxima ds)
  generalize maxima ds = m at *
  have ep : sharedSize nq m .pcmat = m.nall * m.nall := rfl
  have es : sharedSize nq m .psmat = m.nall * m.nall := rfl
  have ev : sharedSize nq m .inv = 3 * (m.nall * m.nall) := by simp only [sharedSize]; ring
  have ell : sharedSize nq m .smatLL = m.nline * m.nline := rfl
  obtain ⟨n0, rest, hl⟩ := List.exists_cons_of_ne_nil hne
  have hall : d.all = d.con + (n0 + rest.sum) := by rw [DSize.all, hl, List.sum_cons]
  have hsq : d.all * d.all ≤ m.nall * m.nall := Nat.mul_le_mul f3 f3
  have hh : d.lines.headD 0 = n0 := by rw [hl]; rfl
  have hq0 : nq ≤ n0 := hq n0 (by rw [hl]; exact List.mem_cons_self)
  have hr0 := f5 n0 (by rw [hl]; exact List.mem_cons_self)
  constructor
  swap
  · refine block_safe _ _ (by omega) (by omega) (by omega) _ _ ?_
    rw [hl]; simp only [List.headD_cons, List.tail_cons]; omega
  have hw : wsCols nq m = (1 + m.nlset) * nq := rfl
  rw [hw] at e
  have hqS : nq * d.nl ≤ (1 + m.nlset) * nq := by
    rw [Nat.mul_comm (1 + m.nlset)]; exact Nat.mul_le_mul_left _ (by omega)
  have hS1 : 1 ≤ (1 + m.nlset) * nq := Nat.mul_pos (by omega) h1
  have hq3 : nq * d.nl ≤ n0 * (1 + d.nl) := Nat.mul_le_mul hq0 (by omega)
  have hl3 : 1 + d.nl ≤ n0 * (1 + d.nl) := Nat.le_mul_of_pos_left _ (by omega)
  have hSS : (1 + m.nlset) * nq * (1 + m.nlset) * nq = (1 + m.nlset) * nq * ((1 + m.nlset) * nq) := by ring
  generalize hS : (1 + m.nlset) * nq = S at *
  generalize hqdef : nq * d.nl = q at *
  have g1 : d.all * q ≤ m.nall * S := Nat.mul_le_mul f3 hqS
  have g2 : q * q ≤ S * S := Nat.mul_le_mul hqS hqS
  have g3 : m.nrec ≤ m.nrec * S := Nat.le_mul_of_pos_right _ hS1
  have g4 : S ≤ m.nall * S := Nat.le_mul_of_pos_left _ (by omega)
  have g5 : m.nall ≤ m.nall * S := Nat.le_mul_of_pos_right _ hS1
  have g6 : n0 * n0 ≤ m.nall * m.nall := Nat.mul_le_mul (by omega) (by omega)
  refine safe_of (b0 := .workspace)
    (sizes := [m.nall * S, m.nall * S, m.nall, S, S * S, (1 + d.nl) / 2]) ?_ ?_
  · rw [e]; simp only [List.sum_cons, List.sum_nil]; omega
  · simp only [vmapLikeAcc, List.forall_mem_append, List.forall_mem_cons, List.not_mem_nil, false_imp_iff,
      implies_true, and_true, List.mem_map, List.mem_flatMap, forall_exists_index, and_imp, hS, hqdef, hh, hSS]
    refine ⟨⟨⟨?_, ?_, ?_, ?_⟩, ?_⟩, ?_, ?_, ?_, ?_, ?_, ?_, ?_, ?_, ?_⟩
    case refine_5 =>
      rintro a n hn n2 hn2 rfl
      have : n * n2 ≤ m.nline * m.nline := Nat.mul_le_mul (f2 n hn) (f2 n2 hn2)
      areas
    all_goals areas

set_option maxHeartbeats 1000000 in
private theorem vmap_rec_core (nq n : ℕ) (d : DSize) (size : Buf → ℕ) (A q T M R S K : ℕ)
    (hA : d.all = A) (hq : nq * d.nl = q) (hT : n + d.nl * n = T)
    (e : size .workspace = 5 * M + 2 * (M * S) + 2 * (R * S) + S + S * S)
    (ei : M ≤ size .ipiv ∧ R ≤ size .ipiv) (es : size .psmat = M * M)
    (ep : size .pcmat = M * M) (eu : size .usmat = M * R) (et : size .usmatT = M * R) (ea : size .asmat = R * R)
    (e1 : size .pe1 = K * K) (e2 : size .pe2 = K * K) (e6 : size .pe3 = K * K) (e7 : size .pe4 = K * K)
    (e3 : size .fall = T) (e4 : size .feall = T)
    (e5 : nq + q ≤ size .yqall) (hAM : A ≤ M) (hqS : q ≤ S) (hqT : q ≤ T)
    (hTR : T ≤ R) (hS : 1 ≤ S) (hTK : T ≤ K) (hMK : M ≤ K) :
    InBounds size (vmapRecAcc nq d n) ∧ Separate (vmapRecAcc nq d n) := by
  obtain ⟨ei1, ei2⟩ := ei
  have g1 : A * q ≤ M * S := Nat.mul_le_mul hAM hqS
  have g2 : q * q ≤ S * S := Nat.mul_le_mul hqS hqS
  have g3 : T * q ≤ R * S := Nat.mul_le_mul hTR hqS
  have g4 : R ≤ R * S := Nat.le_mul_of_pos_right _ hS
  have g5 : T * A ≤ M * R := by rw [Nat.mul_comm]; exact Nat.mul_le_mul hAM hTR
  have g6 : T * T ≤ R * R := Nat.mul_le_mul hTR hTR
  have g7 : A * T = T * A := Nat.mul_comm _ _
  have g9 : A * A ≤ M * M := Nat.mul_le_mul hAM hAM
  have p1 : A * A ≤ K * K := Nat.mul_le_mul (by omega) (by omega)
  have p2 : A * q ≤ K * K := Nat.mul_le_mul (by omega) (by omega)
  have p3 : q * q ≤ K * K := Nat.mul_le_mul (by omega) (by omega)
  have p4 : A * T ≤ K * K := Nat.mul_le_mul (by omega) (by omega)
  have p5 : T * T ≤ K * K := Nat.mul_le_mul (by omega) (by omega)
  have p7 : T * q ≤ K * K := Nat.mul_le_mul (by omega) (by omega)
  have p6 : K ≤ K * K := by
    rcases Nat.eq_zero_or_pos K with h | h
    · omega
    · exact Nat.le_mul_of_pos_right _ h
  refine safe_of (b0 := .workspace) (sizes := [A * q, A * q, A, q * q, q, A, T, T * q]) ?_ ?_
  · rw [e]; simp only [List.sum_cons, List.sum_nil]; omega
  · simp only [vmapRecAcc, List.forall_mem_cons, List.not_mem_nil, false_imp_iff, implies_true, and_true,
      hA, hq, hT]
    refine ⟨?_, ?_, ?_, ?_, ?_, ?_, ?_, ?_, ?_, ?_, ?_, ?_, ?_, ?_, ?_, ?_, ?_, ?_, ?_, ?_, ?_, ?_, ?_, ?_, ?_, ?_⟩
    all_goals areas

/-- **C79.** Reconstruction in the virtual-continuum mode. -/
theorem C79_vmap_reconstruction (nq ndRec : ℕ) (ds : List DSize) (h1 : 1 ≤ nq)
    (hc : ∀ d ∈ ds, d.lines ≠ [] ∧ ∀ n ∈ d.lines, nq ≤ n) (hrec : nq ≤ ndRec) (d : DSize) (hd : d ∈ ds) :
    InBounds (decompSize nq (maxima ds) d (vmapNodes ndRec d)) (vmapRecAcc nq d (vmapNodes ndRec d)) ∧
      Separate (vmapRecAcc nq d (vmapNodes ndRec d)) := by
  obtain ⟨hne, hq⟩ := hc d hd
  obtain ⟨f1, f2, f3, f4, -, f5⟩ := maxima_fits hd
  have e := ws_expand nq (maxima ds)
  have ei := ipiv_ge nq (maxima ds)
  generalize maxima ds = m at *
  obtain ⟨n0, rest, hl⟩ := List.exists_cons_of_ne_nil hne
  have hm0 : n0 ∈ d.lines := by rw [hl]; exact List.mem_cons_self
  have hnq : nq ≤ vmapNodes ndRec d := by
    refine le_trans (le_min ?_ hrec) ((le_foldl_maxf (fun n => min (n * 3) ndRec) d.lines 0).2 n0 hm0)
    have := hq n0 hm0
    omega
  have hT3 : vmapNodes ndRec d * (1 + d.nl) ≤ m.nrec := by
    rcases foldl_maxf_mem (fun n => min (n * 3) ndRec) d.lines 0 with h | ⟨n, hn, h⟩
    · rw [vmapNodes, h]; omega
    · rw [vmapNodes, h]
      refine le_trans (Nat.mul_le_mul_right (1 + d.nl) (min_le_left _ _)) ?_
      rw [Nat.mul_right_comm, Nat.mul_comm]; exact f5 n hn
  generalize vmapNodes ndRec d = n at *
  have hT : n + d.nl * n = n * (1 + d.nl) := by ring
  have hq3 : nq * d.nl ≤ n + d.nl * n := hT ▸ Nat.mul_le_mul hnq (by omega)
  have hyq : nq + nq * d.nl ≤ nq * (1 + m.nlset) := by
    have : nq + nq * d.nl = nq * (1 + d.nl) := by ring
    rw [this]; exact Nat.mul_le_mul_left _ (by omega)
  exact vmap_rec_core nq n d _ d.all _ _ m.nall m.nrec (wsCols nq m) _ rfl rfl rfl e ei rfl rfl rfl rfl rfl
    rfl rfl rfl rfl rfl rfl hyq f3 (by rw [wsCols, Nat.mul_comm (1 + m.nlset)]; omega) hq3
    (hT ▸ hT3) (Nat.mul_pos (by omega) h1) (le_max_left _ _) (le_max_right _ _)

/-! ## Concrete cases -/

/-- Two data sets, one and two lines, linear trend. -/
def sizesEx : List DSize := [⟨50, [40]⟩, ⟨30, [20, 10]⟩]

example : (InBounds (lineRecSize 2 (maxima sizesEx) ⟨30, [20, 10]⟩ (recNodes 200 ⟨30, [20, 10]⟩))
      (lineRecAcc 2 ⟨30, [20, 10]⟩ (recNodes 200 ⟨30, [20, 10]⟩))) ∧
    InBounds (sharedSize 2 (maxima sizesEx)) (lineLikeAcc 2 (maxima sizesEx) ⟨30, [20, 10]⟩) :=
  ⟨(C79_line_reconstruction_partial 2 200 sizesEx (by decide) (by decide) (by decide) (by decide) (by decide)
      ⟨30, [20, 10]⟩ (by simp [sizesEx])).1.1,
    (C79_line_likelihood 2 sizesEx (by decide) (by decide) ⟨30, [20, 10]⟩ (by simp [sizesEx])).1.1⟩

example : InBounds (decompSize 2 (maxima sizesEx) ⟨50, [40]⟩ (vmapNodes 200 ⟨50, [40]⟩))
    (vmapRecAcc 2 ⟨50, [40]⟩ (vmapNodes 200 ⟨50, [40]⟩)) :=
  (C79_vmap_reconstruction 2 200 sizesEx (by decide) (by decide) (by decide) ⟨50, [40]⟩ (by simp [sizesEx])).1

/-- Ten continuum points, no line: 132 doubles are allocated and the 133rd is written. -/
example : ¬ InBounds (lineRecSize 1 (maxima [⟨10, []⟩]) ⟨10, []⟩ (recNodes 200 ⟨10, []⟩))
    (lineRecAcc 1 ⟨10, []⟩ (recNodes 200 ⟨10, []⟩)) := C79_no_line 10 200 (by norm_num) (by norm_num)

end Mica
