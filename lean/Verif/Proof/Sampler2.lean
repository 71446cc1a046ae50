import Verif.Proof.Sampler

/-!
# More helper lemmas about the sampler: merging, log_X, level creation, counters
-/

namespace Mica

variable {d : ℕ}

/-- The closed form of merging, for any tables of equal length whose counters did not fall. -/
theorem mergeLevels_closed (f : Level → ℕ)
    (hf : ∀ o c p, f (addCounts o c p) = f c + (f p - f o))
    (os : List Level) (pls : List (List Level)) (cs : List Level) (j : ℕ) (o c : Level)
    (ho : os[j]? = some o) (hc : cs[j]? = some c)
    (h : ∀ pl ∈ pls, pl.length = os.length) (hcl : cs.length = os.length) :
    ∃ m, (mergeLevels os pls cs)[j]? = some m ∧
      f m = f c + ((pls.filterMap (·[j]?)).map (fun p => f p - f o)).sum := by
  induction pls generalizing cs c with
  | nil => exact ⟨c, hc, by simp⟩
  | cons pl pls ih =>
    have hadd : ∀ (os cs pl : List Level) (j : ℕ) (o c : Level), os[j]? = some o →
        cs[j]? = some c → pl.length = os.length → cs.length = os.length →
        ∃ p, pl[j]? = some p ∧ (addTask os cs pl)[j]? = some (addCounts o c p) ∧
          (addTask os cs pl).length = os.length := by
      intro os
      induction os with
      | nil => intro cs pl j o c h; simp at h
      | cons o' os ih2 =>
        intro cs pl j o c ho hc hl1 hl2
        cases cs with
        | nil => simp at hl2
        | cons c' cs =>
          cases pl with
          | nil => simp at hl1
          | cons p' pl =>
            cases j with
            | zero =>
              simp at ho hc; subst ho; subst hc
              refine ⟨p', rfl, rfl, ?_⟩
              simp only [addTask, List.length_cons]
              have : ∀ (os cs pl : List Level), pl.length = os.length → cs.length = os.length →
                  (addTask os cs pl).length = os.length := by
                intro os
                induction os with
                | nil => intro cs pl h1 h2; cases cs <;> simp_all [addTask]
                | cons o os ih3 =>
                  intro cs pl h1 h2
                  cases cs <;> cases pl <;> simp_all [addTask]
              rw [this os cs pl (by simpa using hl1) (by simpa using hl2)]
            | succ j =>
              simp at ho hc
              obtain ⟨p, hp1, hp2, hp3⟩ := ih2 cs pl j o c ho hc (by simpa using hl1) (by simpa using hl2)
              exact ⟨p, by simpa using hp1, by simpa [addTask] using hp2, by simp [addTask, hp3]⟩
    obtain ⟨p, hp, hadd1, hlen⟩ := hadd os cs pl j o c ho hc (h pl (by simp)) hcl
    obtain ⟨m, hm, hfm⟩ := ih (addTask os cs pl) (addCounts o c p) hadd1
      (fun q hq => h q (by simp [hq])) hlen
    refine ⟨m, hm, ?_⟩
    rw [hfm, hf]
    simp [hp, add_assoc]


/-! ## Shape of a gather step -/

theorem gatherTasks_shape {o : SOpts} {s s' : Sampler d} {ts : List (TaskSt d)} {k : KillIn}
    (h : gatherTasks o s ts k = .ok s') : ∃ root b,
      (s.allAbove ++ (ts.map (·.above)).flatten).length ≤ o.sizeAllAboveMax ∧
      ts[0]? = some root ∧
      doBookkeeping o s.maxLvRoot (mergeLevels s.levels (ts.map (·.levels)) s.levels) root.levels
        (s.allAbove ++ (ts.map (·.above)).flatten) root.particles k = .ok b ∧
      s' = { s with
        tasks := b.root :: (ts.tail.map (·.particles))
        levels := b.levels
        limits := if o.flagLimits then
          mergeLimits s.levels.length (ts.map (·.limits)) root.limits else root.limits
        allAbove := b.allAbove
        maxLvRoot := b.maxLvRoot
        countMcmc := s.countMcmc + (o.threadSteps * o.totalTask) % 2 ^ 32 } := by
  unfold gatherTasks at h
  dsimp only at h
  split at h
  · cases h
  · rename_i hlen
    obtain ⟨root, hroot, h⟩ := Res.bind_eq_ok.1 h
    obtain ⟨b, hb, h⟩ := Res.bind_eq_ok.1 h
    refine ⟨root, b, by omega, Res.get_eq_ok.1 hroot, hb, ?_⟩
    simp only [Res.pure_eq] at h
    exact (Res.ok.inj h).symm

theorem saveStep_shape {o : SOpts} {i : RoundIn d} {s s' : Sampler d}
    (h : saveStep o i s = .ok s') :
    (s.countMcmc ≥ ((s.countSaves + 1) * o.saveInterval) % 2 ^ 32 ∧
      ∃ ps p, s.tasks[i.saveTask]? = some ps ∧ ps[i.saveParticle]? = some p ∧
        s' = { s with countSaves := s.countSaves + 1, saved := s.saved ++ [p] }) ∨
    (s.countMcmc < ((s.countSaves + 1) * o.saveInterval) % 2 ^ 32 ∧ s' = s) := by
  unfold saveStep at h
  split at h
  · rename_i hc
    obtain ⟨ps, hps, h⟩ := Res.bind_eq_ok.1 h
    obtain ⟨p, hp, h⟩ := Res.bind_eq_ok.1 h
    exact .inl ⟨hc, ps, p, Res.get_eq_ok.1 hps, Res.get_eq_ok.1 hp, (Res.ok.inj h).symm⟩
  · exact .inr ⟨by omega, (Res.ok.inj h).symm⟩

theorem saveStep_levels {o : SOpts} {i : RoundIn d} {s s' : Sampler d}
    (h : saveStep o i s = .ok s') : s'.levels = s.levels ∧ s'.limits = s.limits ∧
      s'.tasks = s.tasks ∧ s'.allAbove = s.allAbove ∧ s'.maxLvRoot = s.maxLvRoot ∧
      s'.countMcmc = s.countMcmc := by
  rcases saveStep_shape h with ⟨_, ps, p, _, _, rfl⟩ | ⟨_, rfl⟩ <;> simp

/-- Induction over the rounds of a run. -/
theorem run_induct {o : SOpts} {L : (Fin d → ℝ) → ℝ} (P : Sampler d → Prop)
    (ins : List (RoundIn d)) (s s' : Sampler d) (h0 : P s)
    (hstep : ∀ i ∈ ins, ∀ a b, P a → ¬ finished o a → round o L i a = .ok b → P b)
    (h : run o L ins s = .ok s') : P s' := by
  induction ins generalizing s with
  | nil => cases h; exact h0
  | cons i is ih =>
    simp only [run] at h
    split at h
    · cases h; exact h0
    · rename_i hf
      obtain ⟨s1, hs1, h⟩ := Res.bind_eq_ok.1 h
      exact ih s1 (hstep i (by simp) s s1 h0 hf hs1) (fun j hj => hstep j (by simp [hj])) h

/-! ## enough_levels depends on the thresholds only -/

theorem get_logl_congr {a b : List Level} (h : a.map (·.logl) = b.map (·.logl)) (i : ℕ) :
    (∃ x y, Res.get a i = .ok x ∧ Res.get b i = .ok y ∧ x.logl = y.logl) ∨
    (Res.get a i = .ub ∧ Res.get b i = .ub) := by
  have hl : a.length = b.length := by simpa using congrArg List.length h
  by_cases hi : i < a.length
  · left
    have hib : i < b.length := hl ▸ hi
    refine ⟨a[i], b[i], Res.get_of_lt hi, Res.get_of_lt hib, ?_⟩
    have : (a.map (·.logl))[i]? = (b.map (·.logl))[i]? := by rw [h]
    simpa [hi, hib] using this
  · right
    simp [Res.get, List.getElem?_eq_none (not_lt.1 hi), List.getElem?_eq_none (hl ▸ not_lt.1 hi)]

theorem enoughScan_congr {a b : List Level} (h : a.map (·.logl) = b.map (·.logl))
    (n k kc : ℕ) (tot mx : ℝ) : enoughScan a n k kc tot mx = enoughScan b n k kc tot mx := by
  induction n generalizing k kc tot mx with
  | zero => simp [enoughScan]
  | succ n ih =>
    cases k with
    | zero => simp [enoughScan]
    | succ k =>
      simp only [enoughScan]
      rcases get_logl_congr h (k + 1) with ⟨x, y, hx, hy, hxy⟩ | ⟨hx, hy⟩ <;>
      rcases get_logl_congr h k with ⟨x', y', hx', hy', hxy'⟩ | ⟨hx', hy'⟩ <;>
      simp_all

theorem enoughLevels_congr {a b : List Level} (h : a.map (·.logl) = b.map (·.logl)) (o : SOpts)
    (m : ℕ) : enoughLevels o m a = enoughLevels o m b := by
  have hl : a.length = b.length := by simpa using congrArg List.length h
  unfold enoughLevels
  rw [hl]
  simp only [enoughScan_congr h]

/-! ## log_X -/

/-- `log_X` of the levels follows from the counters. -/
def XRec (o : SOpts) (ls : List Level) : Prop :=
  (∀ l, ls[0]? = some l → l.logX = 0) ∧
  ∀ (i : ℕ) (a b : Level), ls[i]? = some a → ls[i + 1]? = some b →
    b.logX = a.logX + Real.log (((a.exceeds : ℝ) + 1 / o.compression * o.regularisation) /
      ((a.visits : ℝ) + o.regularisation))

theorem recalcFrom_rec (o : SOpts) (prev : Level) (ls : List Level) (i : ℕ) (a b : Level)
    (ha : (prev :: recalcFrom o prev ls)[i]? = some a)
    (hb : (prev :: recalcFrom o prev ls)[i + 1]? = some b) :
    b.logX = a.logX + Real.log (((a.exceeds : ℝ) + 1 / o.compression * o.regularisation) /
      ((a.visits : ℝ) + o.regularisation)) := by
  induction ls generalizing prev i with
  | nil => simp [recalcFrom] at hb
  | cons l ls ih =>
    cases i with
    | zero =>
      simp [recalcFrom] at ha hb
      subst ha; subst hb; simp
    | succ i =>
      simp only [recalcFrom, List.getElem?_cons_succ] at ha hb
      exact ih _ i ha hb

theorem recalcLogX_rec (o : SOpts) (ls : List Level) : XRec o (recalcLogX o ls) := by
  cases ls with
  | nil => exact ⟨by simp [recalcLogX], by simp [recalcLogX]⟩
  | cons l ls =>
    refine ⟨?_, fun i a b ha hb => recalcFrom_rec o _ ls i a b ha hb⟩
    intro x hx
    simp [recalcLogX] at hx
    subst hx; rfl

theorem doBookkeeping_rec {o : SOpts} {m : ℕ} {comb rl : List Level} {above : List LogL}
    {root : List (Particle d)} {k : KillIn} {b : Book d}
    (h : doBookkeeping o m comb rl above root k = .ok b) : XRec o b.levels := by
  rcases doBookkeeping_spec _ _ _ _ _ _ _ _ h with ⟨_, _, _, _, hl⟩ | ⟨v, ab, _, _, _, _, _, hc⟩
  · rw [hl]; exact recalcLogX_rec _ _
  · rcases hc with ⟨_, _, _, hl⟩ | ⟨_, _, _, hl⟩ <;> rw [hl] <;> exact recalcLogX_rec _ _

theorem reachable_rec {o : SOpts} {L : (Fin d → ℝ) → ℝ} {s : Sampler d} (h : Reachable o L s) :
    XRec o s.levels := by
  obtain ⟨tie, draws, ins, _, _, h⟩ := h
  refine run_induct (P := fun s => XRec o s.levels) ins _ _ ?_ ?_ h
  · constructor
    · intro l hl; simp [initSampler] at hl; subst hl; rfl
    · intro i a b ha hb; simp [initSampler] at hb
  · intro i _ a b _ _ hr
    unfold round at hr
    obtain ⟨ts, _, hr⟩ := Res.bind_eq_ok.1 hr
    obtain ⟨s1, hs1, hr⟩ := Res.bind_eq_ok.1 hr
    rw [(saveStep_levels hr).1]
    obtain ⟨root, bk, _, _, hb, rfl⟩ := gatherTasks_shape hs1
    exact doBookkeeping_rec hb

theorem ratio_pos (e v reg : ℕ) (c : ℝ) (hc : 1 ≤ c) (hr : 0 < reg) :
    0 < ((e : ℝ) + 1 / c * reg) / ((v : ℝ) + reg) := by
  have : (0 : ℝ) < reg := by exact_mod_cast hr
  have hc0 : 0 < c := by linarith
  positivity

theorem ratio_le (e v reg : ℕ) (c : ℝ) (hc : 1 ≤ c) (hr : 0 < reg) (hev : e ≤ v) :
    ((e : ℝ) + 1 / c * reg) / ((v : ℝ) + reg) ≤ 1 := by
  have h1 : (0 : ℝ) < reg := by exact_mod_cast hr
  have h2 : (e : ℝ) ≤ v := by exact_mod_cast hev
  have h3 : (0 : ℝ) ≤ v := by positivity
  have h4 : 1 / c ≤ 1 := by rw [div_le_one (by linarith)]; exact hc
  rw [div_le_one (by linarith)]
  nlinarith

theorem ratio_lt (e v reg : ℕ) (c : ℝ) (hc : 1 < c) (hr : 0 < reg) (hev : e ≤ v) :
    ((e : ℝ) + 1 / c * reg) / ((v : ℝ) + reg) < 1 := by
  have h1 : (0 : ℝ) < reg := by exact_mod_cast hr
  have h2 : (e : ℝ) ≤ v := by exact_mod_cast hev
  have h3 : (0 : ℝ) ≤ v := by positivity
  have h4 : 1 / c < 1 := by rw [div_lt_one (by linarith)]; exact hc
  rw [div_lt_one (by linarith)]
  nlinarith

/-! ## Counters of one particle move -/

theorem visitLoop_counts (v : ℝ) (n cur : ℕ) (ls ls' : List Level)
    (hn : n = ls.length - 1 - cur) (hmono : ∀ (i j : ℕ) (a b : Level), i ≤ j → ls[i]? = some a →
      ls[j]? = some b → a.logl.value ≤ b.logl.value)
    (h : visitLoop v n cur ls = .ok ls') (j : ℕ) (l : Level) (hl : ls[j]? = some l) :
    ∃ l', ls'[j]? = some l' ∧ l'.logl = l.logl ∧ l'.logX = l.logX ∧ l'.tries = l.tries ∧
      l'.accepts = l.accepts ∧
      l'.visits = l.visits +
        (if cur ≤ j ∧ j + 1 < ls.length ∧ (j = cur ∨ l.logl.value < v) then 1 else 0) ∧
      (∀ nx, ls[j + 1]? = some nx →
        l'.exceeds = l.exceeds + (if cur ≤ j ∧ nx.logl.value < v then 1 else 0)) ∧
      (ls[j + 1]? = none → l'.exceeds = l.exceeds) := by
  induction n generalizing cur ls l with
  | zero =>
    simp only [visitLoop] at h; cases h
    have hjl := (List.getElem?_eq_some_iff.1 hl).1
    refine ⟨l, hl, rfl, rfl, rfl, rfl, ?_, ?_, fun _ => rfl⟩
    · rw [if_neg (by omega)]; rfl
    · intro nx hnx
      have := (List.getElem?_eq_some_iff.1 hnx).1
      rw [if_neg (by omega)]; rfl
  | succ n ih =>
    simp only [visitLoop] at h
    obtain ⟨a, ha, h⟩ := Res.bind_eq_ok.1 h
    obtain ⟨b, hb, h⟩ := Res.bind_eq_ok.1 h
    have ha := Res.get_eq_ok.1 ha
    have hb := Res.get_eq_ok.1 hb
    have hcl := (List.getElem?_eq_some_iff.1 ha).1
    have hcl' := (List.getElem?_eq_some_iff.1 hb).1
    have hjl := (List.getElem?_eq_some_iff.1 hl).1
    split at h
    · rename_i hlt
      have hset : ∀ (x : Level), x.logl = a.logl → ∀ (i : ℕ) (y : Level),
          (ls.set cur x)[i]? = some y → ∃ z, ls[i]? = some z ∧ z.logl = y.logl := by
        intro x hx i y hy
        rw [List.getElem?_set] at hy
        split at hy
        · rename_i hci; subst hci
          cases hy
          exact ⟨a, ha, hx.symm⟩
        · exact ⟨y, hy, rfl⟩
      have hrec := ih (cur + 1) (ls.set cur { a with visits := a.visits + 1, exceeds := a.exceeds + 1 })
        (by simp; omega) (by
          intro i j x y hij hx hy
          obtain ⟨x', hx', ex⟩ := hset { a with visits := a.visits + 1, exceeds := a.exceeds + 1 } rfl i x hx
          obtain ⟨y', hy', ey⟩ := hset { a with visits := a.visits + 1, exceeds := a.exceeds + 1 } rfl j y hy
          rw [← ex, ← ey]; exact hmono i j x' y' hij hx' hy') h
      by_cases hjc : j = cur
      · subst hjc
        rw [ha] at hl; cases hl
        obtain ⟨l', h1, h2, h3, h4, h5, h6, h7, h8⟩ := hrec
          { l with visits := l.visits + 1, exceeds := l.exceeds + 1 } (by simp [hcl])
        refine ⟨l', h1, h2, h3, h4, h5, ?_, ?_, ?_⟩
        · rw [if_neg (by omega)] at h6
          rw [if_pos ⟨le_rfl, hcl', .inl rfl⟩]; exact h6
        · intro nx hnx
          rw [hb] at hnx; cases hnx
          have := h7 b (by simpa using hb)
          rw [if_neg (by omega)] at this
          rw [if_pos ⟨le_rfl, hlt⟩]; exact this
        · intro hnone; rw [hb] at hnone; cases hnone
      · have hl2 : (ls.set cur { a with visits := a.visits + 1, exceeds := a.exceeds + 1 })[j]? = some l := by
          rw [List.getElem?_set_ne (Ne.symm hjc)]; exact hl
        obtain ⟨l', h1, h2, h3, h4, h5, h6, h7, h8⟩ := hrec l hl2
        have hnext : cur ≤ j → (ls.set cur { a with visits := a.visits + 1, exceeds := a.exceeds + 1 })[j+1]? = ls[j+1]? := by
          intro hc; rw [List.getElem?_set_ne (by omega)]
        by_cases hcj : cur ≤ j
        · rw [hnext hcj] at h7 h8
          refine ⟨l', h1, h2, h3, h4, h5, ?_, ?_, h8⟩
          · rw [h6]; congr 1
            simp only [List.length_set]
            by_cases hj1 : j = cur + 1
            · subst hj1
              rw [hb] at hl; cases hl
              simp [hlt]
            · refine if_congr ?_ rfl rfl
              have e1 : (cur + 1 ≤ j) ↔ (cur ≤ j) := by omega
              have e2 : (j = cur + 1) ↔ (j = cur) := by omega
              rw [e1, e2]
          · intro nx hnx
            rw [h7 nx hnx]
            congr 1
            refine if_congr ?_ rfl rfl
            have e1 : (cur + 1 ≤ j) ↔ (cur ≤ j) := by omega
            rw [e1]
        · refine ⟨l', h1, h2, h3, h4, h5, ?_, ?_, ?_⟩
          · rw [h6, if_neg (by omega), if_neg (by omega)]
          · intro nx hnx
            rw [if_neg (by omega)]
            have : ∃ y, (ls.set cur { a with visits := a.visits + 1, exceeds := a.exceeds + 1 })[j+1]? = some y := by
              rw [List.getElem?_set]
              split
              · exact ⟨_, rfl⟩
              · exact ⟨nx, hnx⟩
            obtain ⟨y, hy⟩ := this
            have := h7 y hy
            rw [if_neg (by omega)] at this
            exact this
          · intro hnone
            have := (List.getElem?_eq_none_iff.1 hnone)
            omega
    · rename_i hlt
      cases h
      by_cases hjc : j = cur
      · subst hjc
        rw [ha] at hl; cases hl
        refine ⟨{ l with visits := l.visits + 1 }, by simp [hcl], rfl, rfl, rfl, rfl, ?_, ?_, ?_⟩
        · rw [if_pos ⟨le_rfl, hcl', .inl rfl⟩]
        · intro nx hnx
          rw [hb] at hnx; cases hnx
          rw [if_neg (fun hh => hlt hh.2)]; rfl
        · intro hnone; simp [hb] at hnone
      · refine ⟨l, by rw [List.getElem?_set_ne (Ne.symm hjc)]; exact hl, rfl, rfl, rfl, rfl, ?_, ?_,
          fun _ => rfl⟩
        · rw [if_neg]; · rfl
          rintro ⟨h1, h2, h3 | h3⟩
          · exact hjc h3
          · exact hlt (lt_of_le_of_lt (hmono (cur+1) j b l (by omega) hb hl) h3)
        · intro nx hnx
          rw [if_neg]; · rfl
          rintro ⟨h1, h3⟩
          exact hlt (lt_of_le_of_lt (hmono (cur+1) (j+1) b nx (by omega) hb hnx) h3)

end Mica
