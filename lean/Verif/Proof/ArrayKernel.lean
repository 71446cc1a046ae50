import Verif.Model.ArrayKernel
import Verif.Proof.Like
/-
Helper lemmas for the array covariance functions: one sweep, the component loops, and the assembly.
-/

namespace Mica

/-! ## Array formulas against scalar formulas -/

theorem fpSlcArray_eq (T : TF) (taud : ℝ) (a : Comp) (Dt : ℝ) :
    fpSlcArray T taud a Dt = fpSlc T taud a Dt := by
  cases T
  · have h : a.w / taud * (a.w / taud) / 2 = a.w * a.w / 2 / taud / taud := by ring
    simp only [fpSlcArray, fpSlc, aslcGau, slcGau, h]
  · rfl
  · rfl
  · rfl

theorem asllGauGau_eq (taud : ℝ) (a b : Comp) (Dt : ℝ) : asllGauGau taud a b Dt = sllGauGau taud a b Dt := by
  have h (A : ℝ) : A / taud * (A / taud) / 2 = A * A / 2 / taud / taud := by ring
  have h2 : a.f * b.f / 2 = 1 / 2 * a.f * b.f := by ring
  simp only [asllGauGau, sllGauGau, h, h2]

theorem asllGauExp_eq (taud : ℝ) (a b : Comp) (Dt : ℝ) : asllGauExp taud a b Dt = sllGauExp taud a b Dt := by
  by_cases h : |taud - b.w| > kEPS
  · simp only [asllGauExp, sllGauExp, if_pos h]
  · simp only [asllGauExp, sllGauExp, if_neg h]

theorem asllGauGam_eq (taud : ℝ) (a b : Comp) (Dt : ℝ) : asllGauGam taud a b Dt = sllGauGam taud a b Dt := by
  by_cases h : |taud - b.w| > kEPS
  · simp only [asllGauGam, sllGauGam, if_pos h]
  · simp only [asllGauGam, sllGauGam, if_neg h]

theorem asllExpGam_eq (two : Bool) (taud : ℝ) (a b : Comp) (Dt : ℝ) :
    asllExpGam two taud a b Dt = sllExpGam taud a b Dt := by
  cases two
  · have h (p D : ℝ) : 2 / (p * p * p) + D / (p * p) = 1 / (p * p * p) * (2 + D * p) := by
      rcases eq_or_ne p 0 with rfl | hp
      · simp
      · field_simp
    simp only [asllExpGam, sllExpGam, h, Bool.false_eq_true, if_false]
  · simp only [asllExpGam, sllExpGam, if_true]

theorem fpSllArray_eq (two : Bool) (taud : ℝ) (a b : Comp) (t1 t2 : ℝ) (T U : TF) :
    fpSllArray two taud a b t1 t2 T U = fpSll T U taud a b (t1 - t2) := by
  have hn : t2 - t1 = -(t1 - t2) := by ring
  cases T <;> cases U <;>
    simp only [fpSllArray, fpSll, asllGauGau_eq, asllGauExp_eq, asllGauGam_eq, asllExpGam_eq, hn] <;> rfl

/-! ## One sweep -/

theorem sweepRow_ok (size row : ℕ) (g : ℕ → ℝ → ℝ) (c : ℕ) (mem : ℕ → ℝ) (h : row + c ≤ size) :
    sweepRow size row g c mem =
      .ok (fun x => if row ≤ x ∧ x < row + c then g (x - row) (mem x) else mem x) := by
  induction c with
  | zero =>
    rw [sweepRow]; congr 1; funext x
    rw [if_neg (by omega)]
  | succ c ih =>
    rw [sweepRow, ih (by omega), Res.ok_bind, touch, if_pos (by omega)]
    congr 1; funext x
    by_cases hx : x = row + c
    · subst hx
      rw [Function.update_self, if_neg (by omega), if_pos (by omega)]
      congr 1; omega
    · rw [Function.update_of_ne hx]
      by_cases h1 : row ≤ x ∧ x < row + c
      · rw [if_pos h1, if_pos (by omega)]
      · rw [if_neg h1, if_neg (by omega)]

theorem sweep_ok (size stride : ℕ) (cols : ℕ → ℕ) (g : ℕ → ℕ → ℝ → ℝ) (n : ℕ) (mem : ℕ → ℝ)
    (hc : ∀ i < n, cols i ≤ stride) (hs : n * stride ≤ size) :
    ∃ m', sweep size stride cols g n mem = .ok m' ∧
      ∀ i < n, ∀ j < cols i, m' (i * stride + j) = g i j (mem (i * stride + j)) := by
  suffices H : ∃ m', sweep size stride cols g n mem = .ok m' ∧
      (∀ i < n, ∀ j < cols i, m' (i * stride + j) = g i j (mem (i * stride + j))) ∧
      ∀ x, n * stride ≤ x → m' x = mem x by
    obtain ⟨m', h1, h2, -⟩ := H; exact ⟨m', h1, h2⟩
  induction n with
  | zero => exact ⟨mem, rfl, fun i hi => absurd hi (by omega), fun _ _ => rfl⟩
  | succ n ih =>
    rw [Nat.succ_mul] at hs
    obtain ⟨m', h1, h2, h3⟩ := ih (fun i hi => hc i (by omega)) (by omega)
    have hcn := hc n (by omega)
    refine ⟨_, by rw [sweep, h1, Res.ok_bind, sweepRow_ok _ _ _ _ _ (by omega)], ?_, ?_⟩
    · intro i hi j hj
      by_cases hin : i = n
      · subst hin
        rw [if_pos (by omega), h3 _ (by omega)]
        congr 1; omega
      · have hin : i < n := by omega
        have hci := hc i hi
        have hle : (i + 1) * stride ≤ n * stride := Nat.mul_le_mul_right _ hin
        rw [Nat.succ_mul] at hle
        rw [if_neg (by omega), h2 i hin j hj]
    · intro x hx
      rw [Nat.succ_mul] at hx
      rw [if_neg (by omega), h3 _ (by omega)]

/-! ## Component loops -/

variable (e : KEnv) (sz : ScratchSize)

/-- Partial sum over the components of one line. -/
noncomputable def lcSum (j : ℕ) (Dt : ℝ) (k : ℕ) : ℝ :=
  (List.range k).foldl (fun s k => s + fpSlc (e.typ k) e.taud (e.comp j k) Dt) 0

/-- Partial sum over the second component index. -/
noncomputable def llSum2 (j l : ℕ) (Dt : ℝ) (k1 : ℕ) (s : ℝ) (k2 : ℕ) : ℝ :=
  (List.range k2).foldl (fun s k2 => s + fpSll (e.typ k1) (e.typ k2) e.taud (e.comp j k1) (e.comp l k2) Dt) s

/-- Partial sum over the first component index. -/
noncomputable def llSum (j l : ℕ) (Dt : ℝ) (k1 : ℕ) : ℝ :=
  (List.range k1).foldl (fun s k1 => llSum2 e j l Dt k1 s e.ng) 0

theorem lcSum_succ (j : ℕ) (Dt : ℝ) (k : ℕ) :
    lcSum e j Dt (k + 1) = lcSum e j Dt k + fpSlc (e.typ k) e.taud (e.comp j k) Dt := by
  rw [lcSum, List.range_succ, List.foldl_append]; rfl

theorem llSum2_succ (j l : ℕ) (Dt : ℝ) (k1 : ℕ) (s : ℝ) (k2 : ℕ) :
    llSum2 e j l Dt k1 s (k2 + 1) =
      llSum2 e j l Dt k1 s k2 + fpSll (e.typ k1) (e.typ k2) e.taud (e.comp j k1) (e.comp l k2) Dt := by
  rw [llSum2, List.range_succ, List.foldl_append]; rfl

theorem llSum_succ (j l : ℕ) (Dt : ℝ) (k1 : ℕ) :
    llSum e j l Dt (k1 + 1) = llSum2 e j l Dt k1 (llSum e j l Dt k1) e.ng := by
  rw [llSum, List.range_succ, List.foldl_append]; rfl

theorem slc_lcSum (tc tl : ℝ) (j : ℕ) : e.slc tc tl j = lcSum e j (tl - tc) e.ng := rfl
theorem sll2_llSum (t1 t2 : ℝ) (j l : ℕ) : e.sll2 t1 t2 j l = llSum e j l (t1 - t2) e.ng := rfl
theorem sll_llSum (t1 t2 : ℝ) (j : ℕ) : e.sll t1 t2 j = llSum e j j (t1 - t2) e.ng := rfl

theorem slcArray_ok (tc : ℕ → ℝ) (nc : ℕ) (tl : ℕ → ℝ) (nl j : ℕ) (w : Scratch) (hs : nc * nl ≤ sz.lc) :
    ∃ m, slcArray e sz tc nc tl nl j w = .ok { w with lc := m } ∧
      ∀ i < nc, ∀ x < nl, m (i * nl + x) = e.slc (tc i) (tl x) j := by
  obtain ⟨m0, h0, z0⟩ := sweep_ok sz.lc nl (fun _ => nl) (fun _ _ _ => 0) nc w.lc (fun _ _ => le_rfl) hs
  have H : ∀ k, ∃ m, slcComps e sz tc nc tl nl j k m0 = .ok m ∧
      ∀ i < nc, ∀ x < nl, m (i * nl + x) = lcSum e j (tl x - tc i) k := by
    intro k
    induction k with
    | zero => exact ⟨m0, rfl, fun i hi x hx => z0 i hi x hx⟩
    | succ k ih =>
      obtain ⟨m, h1, h2⟩ := ih
      obtain ⟨m', h3, h4⟩ := sweep_ok sz.lc nl (fun _ => nl)
        (fun i m old => old + fpSlcArray (e.typ k) e.taud (e.comp j k) (tl m - tc i)) nc m (fun _ _ => le_rfl) hs
      refine ⟨m', by rw [slcComps, h1, Res.ok_bind, h3], fun i hi x hx => ?_⟩
      rw [h4 i hi x hx, h2 i hi x hx, lcSum_succ, fpSlcArray_eq]
  obtain ⟨m, h1, h2⟩ := H e.ng
  refine ⟨m, by rw [slcArray, h0, Res.ok_bind, h1, Res.ok_bind], fun i hi x hx => ?_⟩
  rw [h2 i hi x hx, slc_lcSum]

theorem sllLoop_ok (two : Bool) (n stride : ℕ) (cols : ℕ → ℕ) (t1 t2 : ℕ → ℝ) (j l : ℕ) (mem : ℕ → ℝ)
    (hc : ∀ i < n, cols i ≤ stride) (hs : n * stride ≤ sz.ll) :
    ∃ m, (sweep sz.ll stride cols (fun _ _ _ => 0) n mem >>= fun m0 =>
        sllComps e sz two n stride cols t1 t2 j l e.ng m0) = .ok m ∧
      ∀ i < n, ∀ x < cols i, m (i * stride + x) = llSum e j l (t1 i - t2 x) e.ng := by
  obtain ⟨m0, h0, z0⟩ := sweep_ok sz.ll stride cols (fun _ _ _ => 0) n mem hc hs
  have H2 : ∀ (k1 : ℕ) (s : ℕ → ℕ → ℝ) (m : ℕ → ℝ), (∀ i < n, ∀ x < cols i, m (i * stride + x) = s i x) →
      ∀ k2, ∃ m', sllComps2 e sz two n stride cols t1 t2 j l k1 k2 m = .ok m' ∧
      ∀ i < n, ∀ x < cols i, m' (i * stride + x) = llSum2 e j l (t1 i - t2 x) k1 (s i x) k2 := by
    intro k1 s m hm k2
    induction k2 with
    | zero => exact ⟨m, rfl, hm⟩
    | succ k2 ih =>
      obtain ⟨m', h1, h2⟩ := ih
      obtain ⟨m'', h3, h4⟩ := sweep_ok sz.ll stride cols (fun i m old => old +
          fpSllArray two e.taud (e.comp j k1) (e.comp l k2) (t1 i) (t2 m) (e.typ k1) (e.typ k2)) n m' hc hs
      refine ⟨m'', by rw [sllComps2, h1, Res.ok_bind, h3], fun i hi x hx => ?_⟩
      rw [h4 i hi x hx, h2 i hi x hx, llSum2_succ, fpSllArray_eq]
  have H : ∀ k, ∃ m, sllComps e sz two n stride cols t1 t2 j l k m0 = .ok m ∧
      ∀ i < n, ∀ x < cols i, m (i * stride + x) = llSum e j l (t1 i - t2 x) k := by
    intro k
    induction k with
    | zero => exact ⟨m0, rfl, fun i hi x hx => z0 i hi x hx⟩
    | succ k ih =>
      obtain ⟨m, h1, h2⟩ := ih
      obtain ⟨m', h3, h4⟩ := H2 k _ m h2 e.ng
      refine ⟨m', by rw [sllComps, h1, Res.ok_bind, h3], fun i hi x hx => ?_⟩
      rw [h4 i hi x hx, llSum_succ]
  obtain ⟨m, h1, h2⟩ := H e.ng
  exact ⟨m, by rw [h0, Res.ok_bind, h1], h2⟩

theorem sllArray_ok (tl : ℕ → ℝ) (nl j : ℕ) (w : Scratch) (hs : nl * nl ≤ sz.ll) :
    ∃ m, sllArray e sz tl nl j w = .ok { w with ll := m } ∧
      ∀ i < nl, ∀ x ≤ i, m (i * nl + x) = e.sll (tl i) (tl x) j := by
  obtain ⟨m, h1, h2⟩ := sllLoop_ok e sz false nl nl upTo tl tl j j w.ll (fun i hi => hi) hs
  obtain ⟨m0, h3, h4⟩ := Res.bind_eq_ok.1 h1
  refine ⟨m, by rw [sllArray, h3, Res.ok_bind, h4, Res.ok_bind], fun i hi x hx => ?_⟩
  rw [h2 i hi x (Nat.lt_succ_of_le hx), sll_llSum]

theorem sll2Array_ok (t1 : ℕ → ℝ) (n1 : ℕ) (t2 : ℕ → ℝ) (n2 j l : ℕ) (w : Scratch) (hs : n1 * n2 ≤ sz.ll) :
    ∃ m, sll2Array e sz t1 n1 t2 n2 j l w = .ok { w with ll := m } ∧
      ∀ i < n1, ∀ x < n2, m (i * n2 + x) = e.sll2 (t1 i) (t2 x) j l := by
  obtain ⟨m, h1, h2⟩ := sllLoop_ok e sz true n1 n2 (fun _ => n2) t1 t2 j l w.ll (fun _ _ => le_rfl) hs
  obtain ⟨m0, h3, h4⟩ := Res.bind_eq_ok.1 h1
  refine ⟨m, by rw [sll2Array, h3, Res.ok_bind, h4, Res.ok_bind], fun i hi x hx => ?_⟩
  rw [h2 i hi x hx, sll2_llSum]

/-! ## The mixed-type versions, through the second array -/

theorem slcArrayMix_ok (tc : ℕ → ℝ) (nc : ℕ) (tl : ℕ → ℝ) (nl j : ℕ) (w : Scratch) (hs : nc * nl ≤ sz.lc) :
    ∃ m b, slcArrayMix e sz tc nc tl nl j w = .ok { w with lc := m, lcBuf := b } ∧
      ∀ i < nc, ∀ x < nl, m (i * nl + x) = e.slc (tc i) (tl x) j := by
  obtain ⟨m0, h0, z0⟩ := sweep_ok sz.lc nl (fun _ => nl) (fun _ _ _ => 0) nc w.lc (fun _ _ => le_rfl) hs
  have H : ∀ k, ∃ m b, slcMixComps e sz tc nc tl nl j k { w with lc := m0 } =
        .ok { w with lc := m, lcBuf := b } ∧
      ∀ i < nc, ∀ x < nl, m (i * nl + x) = lcSum e j (tl x - tc i) k := by
    intro k
    induction k with
    | zero => exact ⟨m0, w.lcBuf, rfl, fun i hi x hx => z0 i hi x hx⟩
    | succ k ih =>
      obtain ⟨m, b, h1, h2⟩ := ih
      obtain ⟨b', h3, h4⟩ := sweep_ok sz.lc nl (fun _ => nl)
        (fun i m _ => fpSlcArray (e.typ k) e.taud (e.comp j k) (tl m - tc i)) nc b (fun _ _ => le_rfl) hs
      obtain ⟨m', h5, h6⟩ := sweep_ok sz.lc 1 (fun _ => 1) (fun i _ old => old + b' i) (nc * nl) m
        (fun _ _ => le_rfl) (by omega)
      refine ⟨m', b', ?_, fun i hi x hx => ?_⟩
      · rw [slcMixComps, h1, Res.ok_bind]
        simp only []
        rw [h3, Res.ok_bind, h5, Res.ok_bind]
      · have hlt : i * nl + x < nc * nl := by
          have hle : (i + 1) * nl ≤ nc * nl := Nat.mul_le_mul_right _ hi
          rw [Nat.succ_mul] at hle
          omega
        have h7 := h6 (i * nl + x) hlt 0 (by omega)
        rw [Nat.mul_one, Nat.add_zero] at h7
        rw [h7, h4 i hi x hx, h2 i hi x hx, lcSum_succ, fpSlcArray_eq]
  obtain ⟨m, b, h1, h2⟩ := H e.ng
  refine ⟨m, b, by rw [slcArrayMix, h0, Res.ok_bind, h1], fun i hi x hx => ?_⟩
  rw [h2 i hi x hx, slc_lcSum]

theorem sllMixLoop_ok (two : Bool) (n stride : ℕ) (cols : ℕ → ℕ) (t1 t2 : ℕ → ℝ) (j l : ℕ) (w : Scratch)
    (hc : ∀ i < n, cols i ≤ stride) (hs : n * stride ≤ sz.ll) :
    ∃ m b, (sweep sz.ll stride cols (fun _ _ _ => 0) n w.ll >>= fun m0 =>
        sllMixComps e sz two n stride cols t1 t2 j l e.ng { w with ll := m0 }) =
          .ok { w with ll := m, llBuf := b } ∧
      ∀ i < n, ∀ x < cols i, m (i * stride + x) = llSum e j l (t1 i - t2 x) e.ng := by
  obtain ⟨m0, h0, z0⟩ := sweep_ok sz.ll stride cols (fun _ _ _ => 0) n w.ll hc hs
  have H2 : ∀ (k1 : ℕ) (s : ℕ → ℕ → ℝ) (m b : ℕ → ℝ), (∀ i < n, ∀ x < cols i, m (i * stride + x) = s i x) →
      ∀ k2, ∃ m' b', sllMixComps2 e sz two n stride cols t1 t2 j l k1 k2 { w with ll := m, llBuf := b } =
          .ok { w with ll := m', llBuf := b' } ∧
      ∀ i < n, ∀ x < cols i, m' (i * stride + x) = llSum2 e j l (t1 i - t2 x) k1 (s i x) k2 := by
    intro k1 s m b hm k2
    induction k2 with
    | zero => exact ⟨m, b, rfl, hm⟩
    | succ k2 ih =>
      obtain ⟨m', b', h1, h2⟩ := ih
      obtain ⟨b'', h3, h4⟩ := sweep_ok sz.ll stride cols (fun i m _ =>
          fpSllArray two e.taud (e.comp j k1) (e.comp l k2) (t1 i) (t2 m) (e.typ k1) (e.typ k2)) n b' hc hs
      obtain ⟨m'', h5, h6⟩ := sweep_ok sz.ll stride cols
        (fun i m old => old + b'' (i * stride + m)) n m' hc hs
      refine ⟨m'', b'', ?_, fun i hi x hx => ?_⟩
      · rw [sllMixComps2, h1, Res.ok_bind]
        simp only []
        rw [h3, Res.ok_bind, h5, Res.ok_bind]
      · rw [h6 i hi x hx, h4 i hi x hx, h2 i hi x hx, llSum2_succ, fpSllArray_eq]
  have H : ∀ k, ∃ m b, sllMixComps e sz two n stride cols t1 t2 j l k { w with ll := m0 } =
        .ok { w with ll := m, llBuf := b } ∧
      ∀ i < n, ∀ x < cols i, m (i * stride + x) = llSum e j l (t1 i - t2 x) k := by
    intro k
    induction k with
    | zero => exact ⟨m0, w.llBuf, rfl, fun i hi x hx => z0 i hi x hx⟩
    | succ k ih =>
      obtain ⟨m, b, h1, h2⟩ := ih
      obtain ⟨m', b', h3, h4⟩ := H2 k _ m b h2 e.ng
      refine ⟨m', b', by rw [sllMixComps, h1, Res.ok_bind, h3], fun i hi x hx => ?_⟩
      rw [h4 i hi x hx, llSum_succ]
  obtain ⟨m, b, h1, h2⟩ := H e.ng
  exact ⟨m, b, by rw [h0, Res.ok_bind, h1], h2⟩

theorem anySlc_ok (mix : Bool) (tc : ℕ → ℝ) (nc : ℕ) (tl : ℕ → ℝ) (nl j : ℕ) (w : Scratch)
    (hs : nc * nl ≤ sz.lc) :
    ∃ w', anySlc e sz mix tc nc tl nl j w = .ok w' ∧ w'.pc = w.pc ∧
      ∀ i < nc, ∀ x < nl, w'.lc (i * nl + x) = e.slc (tc i) (tl x) j := by
  cases mix
  · obtain ⟨m, h1, h2⟩ := slcArray_ok e sz tc nc tl nl j w hs
    exact ⟨_, h1, rfl, h2⟩
  · obtain ⟨m, b, h1, h2⟩ := slcArrayMix_ok e sz tc nc tl nl j w hs
    exact ⟨_, h1, rfl, h2⟩

theorem anySll_ok (mix : Bool) (tl : ℕ → ℝ) (nl j : ℕ) (w : Scratch) (hs : nl * nl ≤ sz.ll) :
    ∃ w', anySll e sz mix tl nl j w = .ok w' ∧ w'.pc = w.pc ∧
      ∀ i < nl, ∀ x ≤ i, w'.ll (i * nl + x) = e.sll (tl i) (tl x) j := by
  cases mix
  · obtain ⟨m, h1, h2⟩ := sllArray_ok e sz tl nl j w hs
    exact ⟨_, h1, rfl, h2⟩
  · obtain ⟨m, b, h1, h2⟩ := sllMixLoop_ok e sz false nl nl upTo tl tl j j w (fun i hi => hi) hs
    exact ⟨_, h1, rfl, fun i hi x hx => (h2 i hi x (Nat.lt_succ_of_le hx)).trans (sll_llSum e _ _ _).symm⟩

theorem anySll2_ok (mix : Bool) (t1 : ℕ → ℝ) (n1 : ℕ) (t2 : ℕ → ℝ) (n2 j l : ℕ) (w : Scratch)
    (hs : n1 * n2 ≤ sz.ll) :
    ∃ w', anySll2 e sz mix t1 n1 t2 n2 j l w = .ok w' ∧ w'.pc = w.pc ∧
      ∀ i < n1, ∀ x < n2, w'.ll (i * n2 + x) = e.sll2 (t1 i) (t2 x) j l := by
  cases mix
  · obtain ⟨m, h1, h2⟩ := sll2Array_ok e sz t1 n1 t2 n2 j l w hs
    exact ⟨_, h1, rfl, h2⟩
  · obtain ⟨m, b, h1, h2⟩ := sllMixLoop_ok e sz true n1 n2 (fun _ => n2) t1 t2 j l w (fun _ _ => le_rfl) hs
    exact ⟨_, h1, rfl, h2⟩

/-! ## Assembly -/

theorem div_row (n i m : ℕ) (hm : m < n) : (i * n + m) / n = i ∧ (i * n + m) % n = m := by
  have hn : 0 < n := by omega
  constructor
  · rw [Nat.mul_comm, Nat.mul_add_div hn, Nat.div_eq_of_lt hm, Nat.add_zero]
  · rw [Nat.mul_comm, Nat.mul_add_mod, Nat.mod_eq_of_lt hm]

theorem flatMap_congr_range {α : Type*} (n : ℕ) (f g : ℕ → List α) (h : ∀ i < n, f i = g i) :
    (List.range n).flatMap f = (List.range n).flatMap g :=
  List.flatMap_congr fun i hi => h i (List.mem_range.1 hi)

theorem fillLc_ok (mix : Bool) (nall : ℕ) (con : LC) (ls : List LC) :
    ∀ (j np : ℕ) (w : Scratch), (∀ a ∈ ls, con.n * a.n ≤ sz.lc) →
    ∃ w', fillLc e sz mix nall con ls j np w = .ok w' ∧
      w'.pc = runWrites (lcWritesArr e.slc nall con ls j np) w.pc := by
  induction ls with
  | nil => exact fun j np w _ => ⟨w, rfl, rfl⟩
  | cons a l ih =>
    intro j np w hs
    obtain ⟨w1, h1, h2, h3⟩ := anySlc_ok e sz mix con.t con.n a.t a.n j w (hs a (by simp))
    obtain ⟨w2, h4, h5⟩ := ih (j + 1) (np + a.n) (w1.write
      ((List.range con.n).flatMap fun i => (List.range a.n).flatMap fun m =>
        both nall i (np + m) (w1.lc (i * a.n + m)))) (fun b hb => hs b (by simp [hb]))
    refine ⟨w2, by rw [fillLc, h1, Res.ok_bind, h4], ?_⟩
    rw [h5, lcWritesArr, runWrites_append, Scratch.write]
    dsimp only
    rw [h2]
    congr 2
    refine flatMap_congr_range _ _ _ fun i hi => flatMap_congr_range _ _ _ fun m hm => ?_
    rw [h3 i hi m hm, (div_row a.n i m hm).1, (div_row a.n i m hm).2]

theorem fillRow_ok (mix : Bool) (nall np : ℕ) (a : LC) (j : ℕ) (ls : List LC) :
    ∀ (k npl : ℕ) (w : Scratch), (∀ b ∈ ls, a.n * b.n ≤ sz.ll) →
    ∃ w', fillRow e sz mix nall np a j ls k npl w = .ok w' ∧
      w'.pc = runWrites (llRowArr e.sll2 nall np a j ls k npl) w.pc := by
  induction ls with
  | nil => exact fun j np w _ => ⟨w, rfl, rfl⟩
  | cons b l ih =>
    intro k npl w hs
    obtain ⟨w1, h1, h2, h3⟩ := anySll2_ok e sz mix a.t a.n b.t b.n j k w (hs b (by simp))
    obtain ⟨w2, h4, h5⟩ := ih (k + 1) (npl + b.n) (w1.write
      ((List.range a.n).flatMap fun i => (List.range b.n).flatMap fun m =>
        both nall (np + i) (npl + m) (w1.ll (i * b.n + m)))) (fun b hb => hs b (by simp [hb]))
    refine ⟨w2, by rw [fillRow, h1, Res.ok_bind, h4], ?_⟩
    rw [h5, llRowArr, runWrites_append, Scratch.write]
    dsimp only
    rw [h2]
    congr 2
    refine flatMap_congr_range _ _ _ fun i hi => flatMap_congr_range _ _ _ fun m hm => ?_
    rw [h3 i hi m hm, (div_row b.n i m hm).1, (div_row b.n i m hm).2]

theorem fillLl_ok (mix : Bool) (sigma : ℝ) (nall : ℕ) (ls : List LC) :
    ∀ (j np : ℕ) (w : Scratch), (∀ a ∈ ls, ∀ b ∈ ls, a.n * b.n ≤ sz.ll) →
    ∃ w', fillLl e sz mix sigma nall ls j np w = .ok w' ∧
      w'.pc = runWrites (llWritesArr e.kernels sigma e.pm e.idxl nall ls j np) w.pc := by
  induction ls with
  | nil => exact fun j np w _ => ⟨w, rfl, rfl⟩
  | cons a l ih =>
    intro j np w hs
    obtain ⟨w1, h1, h2, h3⟩ := anySll_ok e sz mix a.t a.n j w (hs a (by simp) a (by simp))
    obtain ⟨w2, h4, h5⟩ := fillRow_ok e sz mix nall np a j l (j + 1) (np + a.n) (w1.write
      ((List.range a.n).flatMap fun i =>
        ((List.range i).flatMap fun m => both nall (np + i) (np + m) (w1.ll (i * a.n + m))) ++
        [((np + i) * nall + (np + i), w1.ll (i * a.n + i) +
          (a.fe i * a.fe i + pmSyserr e.pm (e.idxl j) a.em * pmSyserr e.pm (e.idxl j) a.em) / sigma / sigma)]))
      (fun b hb => hs a (by simp) b (by simp [hb]))
    obtain ⟨w3, h6, h7⟩ := ih (j + 1) (np + a.n) w2 (fun b hb c hc => hs b (by simp [hb]) c (by simp [hc]))
    refine ⟨w3, by rw [fillLl, h1, Res.ok_bind, h4, Res.ok_bind, h6], ?_⟩
    rw [h7, h5, llWritesArr, runWrites_append, runWrites_append, Scratch.write]
    dsimp only [KEnv.kernels]
    rw [h2]
    congr 3
    refine flatMap_congr_range _ _ _ fun i hi => ?_
    rw [h3 i hi i le_rfl, (div_row a.n i i hi).1, (div_row a.n i i hi).2]
    congr 1
    refine flatMap_congr_range _ _ _ fun m hm => ?_
    rw [h3 i hi m hm.le, (div_row a.n i m (hm.trans hi)).1, (div_row a.n i m (hm.trans hi)).2]

end Mica
