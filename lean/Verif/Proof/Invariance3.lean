import Verif.Proof.Invariance2

/-!
# Helper lemmas for C109: what the two moves do to a particle, and their composition
-/

open MeasureTheory Set
open scoped ENNReal

namespace Mica

variable {n : ℕ}

/-! ## What the moves do -/

/-- The task a particle move starts from: particle `w` has parameters `x`, their likelihood and
level `j`; thresholds and `log_X` are those of the table `ls`. -/
structure At (L : (Fin n → ℝ) → ℝ) (ls : List Level) (w : ℕ) (x : Fin n → ℝ) (j : ℕ)
    (t : TaskSt n) : Prop where
  part : ∃ tie, t.particles[w]? = some ⟨x, ⟨L x, tie⟩, j⟩
  steps : LvSteps ls t.levels

theorem LvSteps.length_eq {a b : List Level} (h : LvSteps a b) : b.length = a.length := by
  induction h with
  | nil => rfl
  | cons _ _ ih => simp [ih]

theorem LvSteps.thr {a b : List Level} (h : LvSteps a b) (j : ℕ) : thrOf b j = thrOf a j := by
  unfold thrOf
  rcases hj : a[j]? with _ | x
  · rw [List.getElem?_eq_none_iff] at hj
    rw [List.getElem?_eq_none (by rw [h.length_eq]; exact hj)]
  · obtain ⟨y, hy, hs⟩ := h.get hj
    rw [hy]; simp [hs.1]

theorem LvSteps.acc {a b : List Level} (h : LvSteps a b) (o : SOpts) (e : Bool)
    (he : e = false ∨ o.beta = 0) (j q : ℕ) : levelAcc o e b j q = levelAcc o e a j q := by
  have hx : ∀ i : ℕ, (a[i]? = none ∧ b[i]? = none) ∨ ∃ x y : Level, a[i]? = some x ∧ b[i]? = some y ∧
      y.logX = x.logX := by
    intro i
    rcases hj : a[i]? with _ | x
    · left
      rw [List.getElem?_eq_none_iff] at hj
      exact ⟨rfl, List.getElem?_eq_none (by rw [h.length_eq]; exact hj)⟩
    · obtain ⟨y, hy, hs⟩ := h.get hj
      exact .inr ⟨x, y, rfl, hy, hs.2.1⟩
  unfold levelAcc
  rcases hx j with ⟨h1, h2⟩ | ⟨x, y, h1, h2, h3⟩ <;> rcases hx q with ⟨g1, g2⟩ | ⟨x', y', g1, g2, g3⟩ <;>
    simp only [h1, h2, g1, g2]
  rcases he with rfl | h0
  · simp [h3, g3]
  · simp [h0, h3, g3]

theorem visitLoop_ok (v : ℝ) (k cur : ℕ) (ls : List Level) (h : k = ls.length - 1 - cur) :
    ∃ ls', visitLoop v k cur ls = .ok ls' := by
  induction k generalizing cur ls with
  | zero => exact ⟨ls, rfl⟩
  | succ k ih =>
    simp only [visitLoop]
    rw [Res.get_eq_ok.2 (List.getElem?_eq_getElem (show cur < ls.length by omega)), Res.ok_bind,
      Res.get_eq_ok.2 (List.getElem?_eq_getElem (show cur + 1 < ls.length by omega)), Res.ok_bind]
    split
    · exact ih _ _ (by simp; omega)
    · exact ⟨_, rfl⟩

open Classical in
/-- A particle move. -/
theorem At.particle {L : (Fin n → ℝ) → ℝ} {ls : List Level} {w j : ℕ} {x : Fin n → ℝ}
    {t : TaskSt n} (h : At L ls w x j t) (hj : j < ls.length) (P : Perturb n)
    (cands : List (Fin n)) (hh uTie uAcc : ℝ) (q : (Fin n → ℝ) × ℝ)
    (hq : P ⟨cands, hh, j, ls.length, limitAt t.limits⟩ x = .ok q) :
    ∃ t', perturbUpdate P L w cands hh uTie uAcc t = .ok t' ∧ t'.limits = t.limits ∧
      At L ls w (if uAcc ≤ Real.exp (min 0 q.2) ∧ thrOf ls j < L q.1 then q.1 else x) j t' := by
  obtain ⟨⟨tie, hp⟩, hs⟩ := h
  have hlen := hs.length_eq
  have hjl : j < t.levels.length := by omega
  have hw := (List.getElem?_eq_some_iff.1 hp).1
  obtain ⟨tie', htie, -⟩ := C01_wrap_range (tie + uTie) 0 1 (by norm_num)
  have hex : ∃ t', perturbUpdate P L w cands hh uTie uAcc t = .ok t' := by
    unfold perturbUpdate
    rw [Res.get_eq_ok.2 hp, Res.ok_bind]
    dsimp only
    rw [hlen, hq, Res.ok_bind]
    unfold updateParticle
    rw [Res.get_eq_ok.2 hp, Res.ok_bind, Res.get_eq_ok.2 (List.getElem?_eq_getElem hjl), Res.ok_bind]
    dsimp only
    rw [htie, Res.ok_bind]
    obtain ⟨ls', hls'⟩ := visitLoop_ok (if acceptUP t.levels[j] (⟨q.1, q.2, uTie, uAcc⟩ : UPIn n) (L q.1)
        then ({ params := q.1, logl := ⟨L q.1, tie'⟩, level := j } : Particle n)
        else { params := x, logl := ⟨L x, tie⟩, level := j }).logl.value
      (t.levels.length - 1 - j) j (t.levels.set j
        { t.levels[j] with
          accepts := if acceptUP t.levels[j] (⟨q.1, q.2, uTie, uAcc⟩ : UPIn n) (L q.1) then
            t.levels[j].accepts + 1 else t.levels[j].accepts
          tries := t.levels[j].tries + 1 }) (by simp)
    rw [List.length_set, hls', Res.ok_bind]
    exact ⟨_, rfl⟩
  obtain ⟨t', ht'⟩ := hex
  refine ⟨t', ht', ?_⟩
  unfold perturbUpdate at ht'
  rw [Res.get_eq_ok.2 hp, Res.ok_bind] at ht'
  dsimp only at ht'
  rw [hlen, hq, Res.ok_bind] at ht'
  refine ⟨(updateParticle_above ht').2, ?_⟩
  obtain ⟨p, lv, tie2, p', lvs, hp2, hlv, htie2, rfl, hvis, rfl⟩ := updateParticle_shape ht'
  rw [hp] at hp2
  obtain rfl := Option.some.inj hp2
  dsimp only at hlv hvis
  have hthr : thrOf ls j = lv.logl.value := by
    rw [← hs.thr j, thrOf, hlv]; rfl
  have hacc := acceptUP_iff lv (⟨q.1, q.2, uTie, uAcc⟩ : UPIn n) (L q.1)
  dsimp only at hacc
  have hmin : min 1 (Real.exp q.2) = Real.exp (min 0 q.2) := by
    rw [Real.exp_monotone.map_min, Real.exp_zero]
  rw [hmin, ← hthr] at hacc
  constructor
  · dsimp only
    by_cases ha : acceptUP lv (⟨q.1, q.2, uTie, uAcc⟩ : UPIn n) (L q.1)
    · exact ⟨tie2, by simp [hw, ha, hacc.1 ha]⟩
    · refine ⟨tie, ?_⟩
      rw [if_neg ha, if_neg (fun hc => ha (hacc.2 hc))]
      simp [hw]
  · refine hs.trans ((LvSteps.set hlv ?_).trans (visitLoop_steps _ _ _ _ _ hvis))
    exact ⟨rfl, rfl, 0, 0, (if acceptUP lv (⟨q.1, q.2, uTie, uAcc⟩ : UPIn n) (L q.1) then 1 else 0), 1,
      rfl, rfl, by dsimp only; split <;> rfl, rfl, le_rfl, by split <;> omega⟩

/-- A level move. -/
theorem At.level {L : (Fin n → ℝ) → ℝ} {ls : List Level} {w j : ℕ} {x : Fin n → ℝ}
    {t : TaskSt n} (h : At L ls w x j t) (hj : j < ls.length) (o : SOpts) (maxLv : ℕ) (e : Bool)
    (he : enoughLevels o maxLv ls = .ok e) (hlim : o.flagLimits = true → ls.length ≤ t.limits.length)
    (i : LAIn) : ∃ t', updateLevelAssignment o maxLv w i t = .ok t' ∧ t'.levels = t.levels ∧
      At L ls w x (newLevel o e t.levels (L x) j (disp i.step i.uDir) i.uAcc) t' ∧
      ∀ k, k < newLevel o e t.levels (L x) j (disp i.step i.uDir) i.uAcc →
        t'.limits[k]? = t.limits[k]? := by
  obtain ⟨⟨tie, hp⟩, hs⟩ := h
  have hlen := hs.length_eq
  have hjl : j < t.levels.length := by omega
  have hw := (List.getElem?_eq_some_iff.1 hp).1
  have he' : enoughLevels o maxLv t.levels = .ok e := by
    rw [← he]
    refine enoughLevels_congr ?_ o maxLv
    refine List.ext_getElem? fun k => ?_
    rw [List.getElem?_map, List.getElem?_map]
    rcases hk : ls[k]? with _ | y
    · rw [List.getElem?_eq_none_iff] at hk
      rw [List.getElem?_eq_none (by omega)]
    · obtain ⟨z, hz, hz2⟩ := hs.get hk
      rw [hz]; simp [hz2.1]
  have hql := displaced_lt (J := t.levels.length) (j := j) (by omega) (disp i.step i.uDir)
  have hex : ∃ t', updateLevelAssignment o maxLv w i t = .ok t' := by
    unfold updateLevelAssignment
    rw [Res.get_eq_ok.2 hp, Res.ok_bind]
    dsimp only
    rw [C02_modInt_eq_emod _ _ (by omega), Res.ok_bind, proposeLevel_disp]
    rw [show (((j : ℤ) + disp i.step i.uDir) % (t.levels.length : ℤ)).toNat =
      displaced t.levels.length j (disp i.step i.uDir) from rfl]
    rw [Res.get_eq_ok.2 (List.getElem?_eq_getElem hql), Res.ok_bind,
      Res.get_eq_ok.2 (List.getElem?_eq_getElem hjl), Res.ok_bind]
    have hpush : ∀ k, k ≤ t.levels.length → ∃ a, logPush o maxLv t.levels k = .ok a := by
      intro k hk
      unfold logPush
      rw [if_neg (by omega), he', Res.ok_bind]
      split <;> exact ⟨_, rfl⟩
    obtain ⟨a, ha⟩ := hpush _ hql.le
    obtain ⟨b, hb⟩ := hpush _ hjl.le
    rw [ha, Res.ok_bind, hb, Res.ok_bind, he', Res.ok_bind]
    split
    · split
      · rename_i hf
        have := hlim hf
        rw [Res.get_eq_ok.2 (List.getElem?_eq_getElem (by omega :
          displaced t.levels.length j (disp i.step i.uDir) < t.limits.length)), Res.ok_bind]
        exact ⟨_, rfl⟩
      · exact ⟨_, rfl⟩
    · exact ⟨_, rfl⟩
  obtain ⟨t', ht'⟩ := hex
  obtain ⟨p, p', lc, lp, e', q, h1, h2, h3, h4, h5, h6, h7, h8, h9, h10, h11, h12, h13, h14⟩ :=
    C58_level_move o maxLv w i t t' ht'
  rw [hp] at h1
  obtain rfl := Option.some.inj h1
  rw [he'] at h7
  obtain rfl := Res.ok.inj h7
  dsimp only at h3 h5 h6 h8 h9 h13 h14
  rw [proposeLevel_disp] at h5
  have hq : displaced t.levels.length j (disp i.step i.uDir) = q := by
    unfold displaced; rw [← h5]; simp
  have hthr : thrOf t.levels q = lp.logl.value := by simp [thrOf, h4]
  have hacc : levelAcc o e t.levels j q = min 1 (Real.exp (lc.logX - lp.logX +
      (if e then o.beta * (Real.log (lc.tries + 1) - Real.log (lp.tries + 1))
        else ((q : ℝ) - j) / o.lam))) := by simp [levelAcc, h3, h4]
  have hnew : p'.level = newLevel o e t.levels (L x) j (disp i.step i.uDir) i.uAcc := by
    unfold newLevel
    rw [hq, hthr, hacc]
    by_cases hc : i.uAcc ≤ min 1 (Real.exp (lc.logX - lp.logX +
      (if e then o.beta * (Real.log (lc.tries + 1) - Real.log (lp.tries + 1))
        else ((q : ℝ) - j) / o.lam))) ∧ lp.logl.value < L x
    · rw [if_pos hc]; exact h13 ⟨hc.2, hc.1⟩
    · rw [if_neg hc]; exact h14 fun hh => hc ⟨hh.2, hh.1⟩
  refine ⟨t', ht', h10, ⟨⟨tie, ?_⟩, by rw [h10]; exact hs⟩, ?_⟩
  · rw [h2, ← hnew]
    obtain ⟨a, b, c⟩ := p'
    simp only at h8 h9 ⊢
    rw [h8, h9]
  · intro k hk
    rw [← hnew] at hk
    rcases updateLevel_shape ht' with rfl | ⟨p2, prop, hp2, hpr, hpart, _, _, ⟨_, lim, hl, hlims⟩ | ⟨_, hlims⟩⟩
    · rfl
    · rw [hpart] at h2
      rw [hlims, List.getElem?_set_ne]
      simp only [List.getElem?_set_self hw, Option.some.injEq] at h2
      rw [← h2] at hk
      dsimp only at hk
      omega
    · rw [hlims]

end Mica
