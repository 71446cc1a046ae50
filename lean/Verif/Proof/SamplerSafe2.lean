import Verif.Proof.SamplerSafe

/-!
# More sampler invariants: collected likelihoods, limits, saves
-/

namespace Mica

variable {d : ℕ}

/-! ## Collected likelihoods -/

theorem updateParticle_above {L : (Fin d → ℝ) → ℝ} {w : ℕ} {i : UPIn d} {t t' : TaskSt d}
    (h : updateParticle L w i t = .ok t') : t'.above = t.above ∧ t'.limits = t.limits := by
  unfold updateParticle at h
  obtain ⟨p, _, h⟩ := Res.bind_eq_ok.1 h
  obtain ⟨lv, _, h⟩ := Res.bind_eq_ok.1 h
  obtain ⟨tie, _, h⟩ := Res.bind_eq_ok.1 h
  obtain ⟨lvs, _, h⟩ := Res.bind_eq_ok.1 h
  cases h; exact ⟨rfl, rfl⟩

/-- Shape of one level move. -/
theorem updateLevel_shape {o : SOpts} {m w : ℕ} {i : LAIn} {t t' : TaskSt d}
    (h : updateLevelAssignment o m w i t = .ok t') : t' = t ∨
      ∃ p prop, t.particles[w]? = some p ∧ prop < t.levels.length ∧
        t'.particles = t.particles.set w { p with level := prop } ∧ t'.above = t.above ∧
        t'.levels = t.levels ∧
        ((o.flagLimits = true ∧ ∃ lim, t.limits[prop]? = some lim ∧
            t'.limits = t.limits.set prop (extendLim lim p.params)) ∨
         (o.flagLimits = false ∧ t'.limits = t.limits)) := by
  unfold updateLevelAssignment at h
  obtain ⟨p, hp, h⟩ := Res.bind_eq_ok.1 h
  obtain ⟨r, hr, h⟩ := Res.bind_eq_ok.1 h
  obtain ⟨lp, hlp, h⟩ := Res.bind_eq_ok.1 h
  obtain ⟨lc, hlc, h⟩ := Res.bind_eq_ok.1 h
  obtain ⟨a, _, h⟩ := Res.bind_eq_ok.1 h
  obtain ⟨b, _, h⟩ := Res.bind_eq_ok.1 h
  obtain ⟨e, _, h⟩ := Res.bind_eq_ok.1 h
  have hp := Res.get_eq_ok.1 hp
  have hlp := (List.getElem?_eq_some_iff.1 (Res.get_eq_ok.1 hlp)).1
  split at h
  · split at h
    · rename_i hf
      obtain ⟨lim, hlim, h⟩ := Res.bind_eq_ok.1 h
      cases h
      exact .inr ⟨p, r.toNat, hp, hlp, rfl, rfl, rfl, .inl ⟨hf, lim, Res.get_eq_ok.1 hlim, rfl⟩⟩
    · rename_i hf
      cases h
      exact .inr ⟨p, r.toNat, hp, hlp, rfl, rfl, rfl, .inr ⟨by simpa using hf, rfl⟩⟩
  · cases h; exact .inl rfl

theorem updateLevel_above {o : SOpts} {m w : ℕ} {i : LAIn} {t t' : TaskSt d}
    (h : updateLevelAssignment o m w i t = .ok t') : t'.above = t.above := by
  rcases updateLevel_shape h with rfl | ⟨_, _, _, _, _, h, _⟩
  · rfl
  · exact h

theorem mcmcMove_above {o : SOpts} {L : (Fin d → ℝ) → ℝ} {m : ℕ} {i : StepIn d} {t t' : TaskSt d}
    (h : mcmcMove o L m i t = .ok t') : t'.above = t.above := by
  unfold mcmcMove at h
  split at h <;> obtain ⟨t1, h1, h2⟩ := Res.bind_eq_ok.1 h
  · rw [updateLevel_above h2, (updateParticle_above h1).1]
  · rw [(updateParticle_above h2).1, updateLevel_above h1]

theorem mcmcMove_inv {o : SOpts} {L : (Fin d → ℝ) → ℝ} {ls : List Level} {m : ℕ} {i : StepIn d}
    {t t' : TaskSt d} (hi : TInv L ls t) (h : mcmcMove o L m i t = .ok t') : TInv L ls t' := by
  unfold mcmcMove at h
  split at h <;> obtain ⟨t1, h1, h2⟩ := Res.bind_eq_ok.1 h
  · exact updateLevel_inv o m L ls _ _ _ _ (updateParticle_inv L ls _ _ _ _ hi h1) h2
  · exact updateParticle_inv L ls _ _ _ _ (updateLevel_inv o m L ls _ _ _ _ hi h1) h2

theorem mcmcStep_above {o : SOpts} {L : (Fin d → ℝ) → ℝ} {ls : List Level} {m : ℕ} {i : StepIn d}
    {t t' : TaskSt d} (hi : TInv L ls t) (h : mcmcStep o L m i t = .ok t') :
    t'.above.length ≤ t.above.length + 1 ∧
      (enoughLevels o m ls = .ok true → t'.above = t.above) := by
  unfold mcmcStep at h
  obtain ⟨t1, h1, h⟩ := Res.bind_eq_ok.1 h
  have ha := mcmcMove_above h1
  have hi1 := mcmcMove_inv hi h1
  obtain ⟨e, he, h⟩ := Res.bind_eq_ok.1 h
  rw [← enoughLevels_congr hi1.steps.map_logl] at he
  split at h
  · cases h; rw [ha]; exact ⟨by omega, fun _ => rfl⟩
  · rename_i hf
    have hef : e = false := by simpa using hf
    subst hef
    obtain ⟨last, _, h⟩ := Res.bind_eq_ok.1 h
    obtain ⟨p, _, h⟩ := Res.bind_eq_ok.1 h
    refine ⟨?_, fun hh => by rw [he] at hh; cases hh⟩
    split at h
    · split at h
      · cases h; simp [ha]
      · cases h
    · cases h; rw [ha]; omega

theorem mcmcRun_above {o : SOpts} {L : (Fin d → ℝ) → ℝ} {ls : List Level} (hls : ThresholdsOK ls)
    {m : ℕ} {is : List (StepIn d)} {t t' : TaskSt d} (hi : TInv L ls t)
    (h : mcmcRun o L m is t = .ok t') : t'.above.length ≤ t.above.length + is.length ∧
      (enoughLevels o m ls = .ok true → t'.above = t.above) := by
  induction is generalizing t with
  | nil => cases h; exact ⟨by simp, fun _ => rfl⟩
  | cons i is ih =>
    simp only [mcmcRun] at h
    obtain ⟨t1, h1, h⟩ := Res.bind_eq_ok.1 h
    have ha := mcmcStep_above hi h1
    have hb := ih (mcmcStep_inv o m L ls hls i t t1 hi h1) h
    refine ⟨by simp; omega, fun he => by rw [hb.2 he, ha.2 he]⟩

theorem runTasks_above {o : SOpts} {L : (Fin d → ℝ) → ℝ} {ls : List Level} (hls : ThresholdsOK ls)
    {lim : List (Lim d)} {m : ℕ} {pss : List (List (Particle d))} {iss : List (List (StepIn d))}
    {ts : List (TaskSt d)} (n : ℕ) (hn : ∀ l ∈ iss, l.length = n)
    (hp : ∀ ps ∈ pss, ∀ p ∈ ps, ParticleOK ls p ∧ LikelihoodCurrent L p)
    (h : runTasks o L ls lim m pss iss = .ok ts) :
    (ts.map (·.above)).flatten.length ≤ pss.length * n ∧
      (enoughLevels o m ls = .ok true → enoughLevels o o.maxNumLevels ls = .ok true →
        (ts.map (·.above)).flatten = []) := by
  induction pss generalizing m iss ts with
  | nil => simp only [runTasks] at h; cases h; simp
  | cons ps pss ih =>
    cases iss with
    | nil => simp [runTasks] at h
    | cons is iss =>
      simp only [runTasks] at h
      obtain ⟨t, ht, h⟩ := Res.bind_eq_ok.1 h
      obtain ⟨ts1, hts1, h⟩ := Res.bind_eq_ok.1 h
      cases h
      have hi0 : TInv L ls (⟨ps, ls, lim, []⟩ : TaskSt d) :=
        ⟨LvSteps.refl _, hp ps (by simp), by simp⟩
      have h1 := mcmcRun_above hls hi0 ht
      have h2 := ih (fun l hl => hn l (by simp [hl])) (fun q hq => hp q (by simp [hq])) hts1
      have hl := hn is (by simp)
      constructor
      · simp only [List.map_cons, List.flatten_cons, List.length_append, List.length_cons]
        have := h1.1
        have := h2.1
        simp only [List.length_nil] at *
        rw [Nat.succ_mul]
        omega
      · intro he1 he2
        simp only [List.map_cons, List.flatten_cons, List.append_eq_nil_iff]
        exact ⟨h1.2 he1, h2.2 he2 he2⟩

/-- Bound of the merged buffer between rounds. -/
noncomputable def poolBound (o : SOpts) : ℝ :=
  max ((o.newLevelInterval : ℝ) - 1) ((o.totalTask * o.threadSteps : ℕ) / (o.compression - 1))

theorem pool_step (T B : ℝ) (c : ℝ) (hc : 1 < c) (n : ℕ) (hn : (n : ℝ) ≤ B + T)
    (hB : T / (c - 1) ≤ B) : ((⌊(1 / c) * (n : ℝ)⌋₊ : ℕ) : ℝ) ≤ B := by
  have hc0 : 0 < c - 1 := by linarith
  have h1 : ((⌊(1 / c) * (n : ℝ)⌋₊ : ℕ) : ℝ) ≤ (1 / c) * n := Nat.floor_le (by positivity)
  have h2 : T ≤ B * (c - 1) := by rwa [div_le_iff₀ hc0] at hB
  have h3 : (1 / c) * (n : ℝ) ≤ B := by
    rw [one_div, inv_mul_le_iff₀ (by linarith)]; nlinarith
  linarith

theorem poolBound_nonneg {o : SOpts} (ho : GoodOpts o) : 0 ≤ poolBound o := by
  refine le_max_of_le_left ?_
  have : (1 : ℝ) ≤ o.newLevelInterval := by exact_mod_cast ho.nli
  linarith

/-- What one round does to the merged buffer. -/
theorem round_pool {o : SOpts} (ho : GoodOpts o) {L : (Fin d → ℝ) → ℝ} {i : RoundIn d}
    (hv : ValidRound o i) {s s' : Sampler d} (hi : SInv L s) (hs : SShape o s)
    (hp : (s.allAbove.length : ℝ) ≤ poolBound o) (h : round o L i s = .ok s') :
    (s'.allAbove.length : ℝ) ≤ poolBound o := by
  unfold round at h
  obtain ⟨ts, hts, h⟩ := Res.bind_eq_ok.1 h
  obtain ⟨s1, hs1, h⟩ := Res.bind_eq_ok.1 h
  rw [(saveStep_levels h).2.2.2.1]
  have ha := runTasks_above hi.thr o.threadSteps hv.nSteps hi.part hts
  rw [hs.nt] at ha
  have ht := runTasks_inv o L _ hi.thr _ _ _ _ _ hi.part hts
  have hcomb : LvSteps s.levels (mergeLevels s.levels (ts.map (·.levels)) s.levels) := by
    refine mergeLevels_steps _ _ _ ?_ rfl
    intro p hp
    obtain ⟨t, htm, rfl⟩ := List.mem_map.1 hp
    exact (ht t htm).steps
  obtain ⟨root, b, _, _, hb, rfl⟩ := gatherTasks_shape hs1
  dsimp only
  have hlen : ((s.allAbove ++ (ts.map (·.above)).flatten).length : ℝ) ≤
      poolBound o + (o.totalTask * o.threadSteps : ℕ) := by
    rw [List.length_append, Nat.cast_add]
    have : (((ts.map (·.above)).flatten.length : ℕ) : ℝ) ≤ (o.totalTask * o.threadSteps : ℕ) := by
      exact_mod_cast ha.1
    linarith
  rcases doBookkeeping_spec _ _ _ _ _ _ _ _ hb with
    ⟨_, hab, _, hmx, hl⟩ | ⟨v, ab, hc, _, _, _, hab, _⟩
  · -- no level created
    rw [hab]
    unfold doBookkeeping at hb
    obtain ⟨e, he, hb⟩ := Res.bind_eq_ok.1 hb
    rw [← enoughLevels_congr hcomb.map_logl] at he
    cases e with
    | true =>
      have h2 : enoughLevels o o.maxNumLevels s.levels = .ok true := by
        rcases hs.mx with hm | hm
        · rw [← hm]; exact he
        · exact hm.2
      rw [ha.2 he h2, List.append_nil]; exact hp
    | false =>
      by_cases hlt : (s.allAbove ++ (ts.map (·.above)).flatten).length ≥ o.newLevelInterval
      · exfalso
        rw [if_pos ⟨by simp, hlt⟩] at hb
        obtain ⟨⟨comb', above'⟩, hc, hb⟩ := Res.bind_eq_ok.1 hb
        obtain ⟨v, _, rfl, _⟩ := createLevel_spec _ _ _ _ _ hc
        have hlen : b.levels.length =
            (mergeLevels s.levels (ts.map (·.levels)) s.levels).length := by
          rw [hl, recalcLogX_length]
        obtain ⟨e', he', hb⟩ := Res.bind_eq_ok.1 hb
        split at hb
        · cases hb; simp [recalcLogX_length] at hlen
        · obtain ⟨r, _, hb⟩ := Res.bind_eq_ok.1 hb
          cases hb; simp [recalcLogX_length] at hlen
      · refine le_max_of_le_left ?_
        have h1 : (s.allAbove ++ (ts.map (·.above)).flatten).length + 1 ≤ o.newLevelInterval := by
          omega
        have h2 : (((s.allAbove ++ (ts.map (·.above)).flatten).length + 1 : ℕ) : ℝ) ≤
            o.newLevelInterval := by exact_mod_cast h1
        push_cast at h2 ⊢
        linarith
  · rw [hab]
    obtain ⟨_, _, _, habv, _⟩ := createLevel_spec _ _ _ _ _ hc
    rw [habv]
    refine le_trans ?_ (pool_step _ (poolBound o) o.compression ho.comp _ hlen (le_max_right _ _))
    exact_mod_cast (by simp : (List.take _ _).length ≤ _)

theorem reachable_pool {o : SOpts} (ho : GoodOpts o) {L : (Fin d → ℝ) → ℝ}
    (hL : ∀ x, -DBL_MAX ≤ L x) {s : Sampler d} (h : Reachable o L s) :
    SInv L s ∧ SShape o s ∧ (s.allAbove.length : ℝ) ≤ poolBound o := by
  obtain ⟨tie, draws, ins, hd, hv, h⟩ := h
  refine run_induct (P := fun s => SInv L s ∧ SShape o s ∧ (s.allAbove.length : ℝ) ≤ poolBound o)
    ins _ _ ⟨init_inv o L hL tie draws, init_shape L tie draws hd, ?_⟩ ?_ h
  · simpa [initSampler] using poolBound_nonneg ho
  · intro i hi a b ⟨h1, h2, h3⟩ _ hr
    exact ⟨round_inv o L i a b h1 hr, Res.safe_ok (round_safe ho L i (hv i hi) a h1 h2) hr,
      round_pool ho (hv i hi) h1 h2 h3 hr⟩

end Mica
