import Verif.Proof.Sampler2
import Verif.Props.Wrap

/-!
# Absence of undefined behaviour in the sampler: helper lemmas
-/

namespace Mica

variable {d : ℕ}

/-- Not undefined behaviour, and a normal result satisfies `P`. -/
def Res.safe {α : Type u} (r : Res α) (P : α → Prop) : Prop :=
  match r with
  | .ok a => P a
  | .ub => False
  | _ => True

theorem Res.safe_bind {α β : Type u} {r : Res α} {f : α → Res β} {P : α → Prop} {Q : β → Prop}
    (h1 : r.safe P) (h2 : ∀ a, r = .ok a → P a → (f a).safe Q) : (r >>= f).safe Q := by
  cases r with
  | ok a => exact h2 a rfl h1
  | ub => exact h1
  | exit => trivial
  | hang => trivial

theorem Res.safe_mono {α : Type u} {r : Res α} {P Q : α → Prop} (h : r.safe P)
    (hpq : ∀ a, r = .ok a → P a → Q a) : r.safe Q := by
  cases r with
  | ok a => exact hpq a rfl h
  | ub => exact h
  | exit => trivial
  | hang => trivial

theorem Res.safe_ne_ub {α : Type u} {r : Res α} {P : α → Prop} (h : r.safe P) : r ≠ .ub := by
  cases r with
  | ub => exact absurd h id
  | _ => simp

theorem Res.safe_ok {α : Type u} {r : Res α} {P : α → Prop} (h : r.safe P) {a : α}
    (ha : r = .ok a) : P a := by subst ha; exact h

theorem Res.safe_get {α : Type u} {l : List α} {i : ℕ} (h : i < l.length) :
    (Res.get l i).safe (fun a => l[i]? = some a) := by
  rw [Res.get_of_lt h]; simp [Res.safe, h]

theorem enoughScan_safe (l : List Level) (n k kc : ℕ) (tot mx : ℝ) (hk : k < l.length)
    (hk1 : 1 ≤ k) : (enoughScan l n k kc tot mx).safe (fun _ => True) := by
  induction n generalizing k kc tot mx with
  | zero => simp [enoughScan, Res.safe]
  | succ n ih =>
    obtain ⟨k, rfl⟩ : ∃ m, k = m + 1 := ⟨k - 1, by omega⟩
    simp only [enoughScan]
    refine Res.safe_bind (Res.safe_get hk) fun a _ _ => ?_
    refine Res.safe_bind (Res.safe_get (by omega)) fun b _ _ => ?_
    by_cases hk1 : k < 1
    · rw [if_pos hk1]; trivial
    · rw [if_neg hk1]; exact ih _ _ _ _ (by omega) (by omega)

theorem enoughLevels_safe (o : SOpts) (m : ℕ) (l : List Level) :
    (enoughLevels o m l).safe (fun _ => True) := by
  unfold enoughLevels
  split
  · split
    · trivial
    · split
      · trivial
      · exact Res.safe_bind (enoughScan_safe _ _ _ _ _ _ (by omega) (by omega)) fun _ _ _ => trivial
  · trivial

theorem logPush_safe (o : SOpts) (m : ℕ) (l : List Level) (w : ℕ) :
    (logPush o m l w).safe (fun _ => True) := by
  unfold logPush
  split
  · trivial
  · refine Res.safe_bind (enoughLevels_safe _ _ _) fun e _ _ => ?_
    split <;> trivial

theorem visitLoop_safe (v : ℝ) (n cur : ℕ) (ls : List Level) (h : n = ls.length - 1 - cur) :
    (visitLoop v n cur ls).safe (fun ls' => ls'.length = ls.length) := by
  induction n generalizing cur ls with
  | zero => simp [visitLoop, Res.safe]
  | succ n ih =>
    simp only [visitLoop]
    refine Res.safe_bind (Res.safe_get (by omega)) fun a _ _ => ?_
    refine Res.safe_bind (Res.safe_get (by omega)) fun b _ _ => ?_
    split
    · refine Res.safe_mono (ih (cur + 1) _ (by simp; omega)) fun x _ hx => by simpa using hx
    · simp [Res.safe]

/-- Sizes of the arrays of one task during the MCMC phase. -/
structure TShape (o : SOpts) (nl na : ℕ) (t : TaskSt d) : Prop where
  np : t.particles.length = o.numParticles
  lv : t.levels.length = nl
  lev : ∀ p ∈ t.particles, p.level < nl
  lim : t.limits.length = o.levelCap
  cap : nl ≤ o.levelCap
  ab : t.above.length ≤ na

theorem updateParticle_safe {o : SOpts} {nl na : ℕ} (L : (Fin d → ℝ) → ℝ) (w : ℕ) (i : UPIn d)
    (t : TaskSt d) (hw : w < o.numParticles) (ht : TShape o nl na t) :
    (updateParticle L w i t).safe (TShape o nl na) := by
  unfold updateParticle
  refine Res.safe_bind (Res.safe_get (by rw [ht.np]; exact hw)) fun p _ hp => ?_
  have hpm := List.mem_of_getElem? hp
  have hpl := ht.lev p hpm
  refine Res.safe_bind (Res.safe_get (by rw [ht.lv]; exact hpl)) fun lv _ hlv => ?_
  obtain ⟨y, hy, _⟩ := C01_wrap_range (p.logl.tie + i.uTie) 0 1 (by norm_num)
  simp only [hy, Res.ok_bind]
  refine Res.safe_bind (visitLoop_safe _ _ _ _ (by simp)) fun ls _ hls => ?_
  refine ⟨by simp [ht.np], ?_, ?_, ht.lim, ht.cap, ht.ab⟩
  · dsimp only; rw [hls]; simp [ht.lv]
  · intro q hq
    rcases List.mem_or_eq_of_mem_set hq with hq | hq
    · exact ht.lev q hq
    · subst hq; split <;> exact hpl

theorem updateLevel_safe {o : SOpts} {nl na : ℕ} (m w : ℕ) (i : LAIn)
    (t : TaskSt d) (hw : w < o.numParticles) (ht : TShape o nl na t) :
    (updateLevelAssignment o m w i t).safe (TShape o nl na) := by
  unfold updateLevelAssignment
  refine Res.safe_bind (Res.safe_get (by rw [ht.np]; exact hw)) fun p _ hp => ?_
  have hpl := ht.lev p (List.mem_of_getElem? hp)
  have hnl : 0 < t.levels.length := by rw [ht.lv]; omega
  obtain ⟨r, hr, h0, h1, _⟩ := C02_modInt (proposeLevel p.level i) t.levels.length
    (by exact_mod_cast hnl)
  simp only [hr, Res.ok_bind]
  have hrl : r.toNat < t.levels.length := by omega
  refine Res.safe_bind (Res.safe_get hrl) fun lp _ hlp => ?_
  refine Res.safe_bind (Res.safe_get (by rw [ht.lv]; exact hpl)) fun lc _ hlc => ?_
  refine Res.safe_bind (logPush_safe _ _ _ _) fun a _ _ => ?_
  refine Res.safe_bind (logPush_safe _ _ _ _) fun b _ _ => ?_
  refine Res.safe_bind (enoughLevels_safe _ _ _) fun e _ _ => ?_
  have hlev : ∀ q ∈ t.particles.set w { p with level := r.toNat }, q.level < nl := by
    intro q hq
    rcases List.mem_or_eq_of_mem_set hq with hq | hq
    · exact ht.lev q hq
    · subst hq; rw [← ht.lv]; exact hrl
  split
  · split
    · refine Res.safe_bind (Res.safe_get (by have := ht.lim; have := ht.cap; have := ht.lv; omega))
        fun lim _ _ => ?_
      exact ⟨by simp [ht.np], ht.lv, hlev, by simp [ht.lim], ht.cap, ht.ab⟩
    · exact ⟨by simp [ht.np], ht.lv, hlev, ht.lim, ht.cap, ht.ab⟩
  · exact ht

theorem mcmcStep_safe {o : SOpts} {nl na : ℕ} (L : (Fin d → ℝ) → ℝ) (m : ℕ) (i : StepIn d)
    (t : TaskSt d) (hw : i.which < o.numParticles) (ht : TShape o nl na t) (hnl : 0 < nl)
    (hna : na < 2 * o.newLevelInterval) :
    (mcmcStep o L m i t).safe (TShape o nl (na + 1)) := by
  unfold mcmcStep
  have h1 : (mcmcMove o L m i t).safe (TShape o nl na) := by
    unfold mcmcMove
    split
    · exact Res.safe_bind (updateParticle_safe L _ _ _ hw ht) fun t1 _ h1 =>
        updateLevel_safe m _ _ _ hw h1
    · exact Res.safe_bind (updateLevel_safe m _ _ _ hw ht) fun t1 _ h1 =>
        updateParticle_safe L _ _ _ hw h1
  refine Res.safe_bind h1 fun t1 _ ht1 => ?_
  refine Res.safe_bind (enoughLevels_safe _ _ _) fun e _ _ => ?_
  have hup : TShape o nl (na + 1) t1 :=
    ⟨ht1.np, ht1.lv, ht1.lev, ht1.lim, ht1.cap, by have := ht1.ab; omega⟩
  split
  · exact hup
  · refine Res.safe_bind (Res.safe_get (by rw [ht1.lv]; omega)) fun last _ _ => ?_
    refine Res.safe_bind (Res.safe_get (by rw [ht1.np]; exact hw)) fun p _ _ => ?_
    split
    · rw [if_pos (by have := ht1.ab; omega)]
      exact ⟨ht1.np, ht1.lv, ht1.lev, ht1.lim, ht1.cap, by have := ht1.ab; simp; omega⟩
    · exact hup

theorem mcmcRun_safe {o : SOpts} {nl : ℕ} (L : (Fin d → ℝ) → ℝ) (m : ℕ) (is : List (StepIn d))
    (na : ℕ) (t : TaskSt d) (hw : ∀ i ∈ is, i.which < o.numParticles) (ht : TShape o nl na t)
    (hnl : 0 < nl) (hna : na + is.length ≤ 2 * o.newLevelInterval) :
    (mcmcRun o L m is t).safe (TShape o nl (na + is.length)) := by
  induction is generalizing na t with
  | nil => exact ht
  | cons i is ih =>
    simp only [mcmcRun]
    simp only [List.length_cons] at hna ⊢
    refine Res.safe_bind (mcmcStep_safe L m i t (hw i (by simp)) ht hnl (by omega)) fun t1 _ h1 => ?_
    refine Res.safe_mono (ih (na + 1) t1 (fun j hj => hw j (by simp [hj])) h1 (by omega)) ?_
    intro a _ ha
    rw [show na + (is.length + 1) = na + 1 + is.length by omega]; exact ha

theorem runTasks_safe {o : SOpts} (L : (Fin d → ℝ) → ℝ) (ls : List Level) (lim : List (Lim d))
    (m : ℕ) (pss : List (List (Particle d))) (iss : List (List (StepIn d)))
    (hl : 0 < ls.length) (hcap : ls.length ≤ o.levelCap) (hlim : lim.length = o.levelCap)
    (hp : ∀ ps ∈ pss, ps.length = o.numParticles ∧ ∀ p ∈ ps, p.level < ls.length)
    (hi : ∀ l ∈ iss, l.length = o.threadSteps ∧ ∀ st ∈ l, st.which < o.numParticles)
    (hts : o.threadSteps ≤ 2 * o.newLevelInterval) :
    (runTasks o L ls lim m pss iss).safe
      (fun ts => ts.length = pss.length ∧ ∀ t ∈ ts, TShape o ls.length o.threadSteps t) := by
  induction pss generalizing m iss with
  | nil => simp [runTasks, Res.safe]
  | cons ps pss ih =>
    cases iss with
    | nil => simp [runTasks, Res.safe]
    | cons is iss =>
      simp only [runTasks]
      obtain ⟨hps1, hps2⟩ := hp ps (by simp)
      obtain ⟨his1, his2⟩ := hi is (by simp)
      refine Res.safe_bind (mcmcRun_safe (o := o) (nl := ls.length) L m is 0 ⟨ps, ls, lim, []⟩ his2
        ⟨hps1, rfl, hps2, hlim, hcap, by simp⟩ hl (by omega)) fun t _ ht => ?_
      refine Res.safe_bind (ih _ iss (fun q hq => hp q (by simp [hq]))
        (fun q hq => hi q (by simp [hq]))) fun ts _ hts => ?_
      refine ⟨by simp [hts.1], ?_⟩
      intro x hx
      rcases List.mem_cons.1 hx with hx | hx
      · subst hx; rw [his1, Nat.zero_add] at ht; exact ht
      · exact hts.2 x hx

/-! ## Replacement of particles -/

theorem killMark_safe (o : SOpts) (m : ℕ) (ls : List Level) (ps : List (Particle d)) (us : List ℝ)
    (mx : ℝ) : (killMark o m ls ps us mx).safe (fun r => r.1.length = ps.length) := by
  induction ps generalizing us mx with
  | nil => simp [killMark, Res.safe]
  | cons p ps ih =>
    cases us with
    | nil => simp [killMark, Res.safe]
    | cons u us =>
      simp only [killMark]
      refine Res.safe_bind (logPush_safe _ _ _ _) fun a _ _ => ?_
      refine Res.safe_bind (ih us _) fun r _ hr => ?_
      obtain ⟨gs, m'⟩ := r
      simpa [Res.safe] using hr

theorem killPick_safe (o : SOpts) (m : ℕ) (ls : List Level) (good : List Bool) (mx : ℝ)
    (ps : List (Particle d)) (at_ : List (ℕ × ℝ)) (hg : good.length = ps.length)
    (ha : ∀ c ∈ at_, c.1 < ps.length) :
    (killPick o m ls good mx ps at_).safe (fun c => c < ps.length) := by
  induction at_ with
  | nil => simp [killPick, Res.safe]
  | cons cu rest ih =>
    obtain ⟨c, u⟩ := cu
    have hc := ha (c, u) (by simp)
    have ih := ih (fun q hq => ha q (by simp [hq]))
    simp only [killPick]
    refine Res.safe_bind (Res.safe_get (by rw [hg]; exact hc)) fun g _ _ => ?_
    split
    · exact ih
    · refine Res.safe_bind (Res.safe_get hc) fun p _ _ => ?_
      refine Res.safe_bind (logPush_safe _ _ _ _) fun a _ _ => ?_
      split
      · exact ih
      · exact hc

theorem killCopy_safe (o : SOpts) (m : ℕ) (ls : List Level) (good : List Bool) (mx : ℝ)
    (gs : List Bool) (i : ℕ) (at_ : List (List (ℕ × ℝ))) (ps : List (Particle d))
    (hg : good.length = ps.length) (hi : i + gs.length ≤ ps.length)
    (ha : ∀ a ∈ at_, ∀ c ∈ a, c.1 < ps.length) :
    (killCopy o m ls good mx gs i at_ ps).safe (fun ps' => ps'.length = ps.length) := by
  induction gs generalizing i at_ ps with
  | nil => simp [killCopy, Res.safe]
  | cons g gs ih =>
    simp only [List.length_cons] at hi
    cases g with
    | true => simp only [killCopy]; exact ih _ _ _ hg (by omega) ha
    | false =>
      cases at_ with
      | nil => simp [killCopy, Res.safe]
      | cons a at_ =>
        simp only [killCopy]
        refine Res.safe_bind (killPick_safe o m ls good mx ps a hg (ha a (by simp)))
          fun c _ hc => ?_
        refine Res.safe_bind (Res.safe_get hc) fun pc _ _ => ?_
        rw [Res.put_of_lt (by omega), Res.ok_bind]
        refine Res.safe_mono (ih (i + 1) at_ (ps.set i pc) (by simp [hg]) (by simp; omega) ?_) ?_
        · intro b hb c hc
          simpa using ha b (by simp [hb]) c hc
        · intro x _ hx; simpa using hx

theorem killLagging_safe (o : SOpts) (m : ℕ) (ls : List Level) (k : KillIn)
    (ps : List (Particle d)) (ha : ∀ a ∈ k.attempts, ∀ c ∈ a, c.1 < ps.length) :
    (killLagging o m ls k ps).safe (fun ps' => ps'.length = ps.length) := by
  unfold killLagging
  refine Res.safe_bind (killMark_safe o m ls ps k.u _) fun r _ hr => ?_
  obtain ⟨good, mx⟩ := r
  dsimp only at hr ⊢
  split
  · exact killCopy_safe o m ls good mx good 0 k.attempts ps hr (by omega) ha
  · rfl

/-! ## Level creation and bookkeeping -/

theorem floor_lt_of_compression (c : ℝ) (hc : 1 < c) (n : ℕ) (hn : 0 < n) :
    ⌊(1 / c) * (n : ℝ)⌋₊ < n := by
  have hn' : (0 : ℝ) < n := by exact_mod_cast hn
  rw [Nat.floor_lt (by positivity)]
  have : 1 / c < 1 := by rw [div_lt_one (by linarith)]; exact hc
  nlinarith

theorem createLevel_safe (o : SOpts) (comb : List Level) (above : List LogL)
    (hc : 1 < o.compression) (hn : 0 < above.length) (hcap : comb.length < o.levelCap) :
    (createLevel o comb above).safe (fun r => r.1.length = comb.length + 1) := by
  unfold createLevel
  dsimp only
  have hl : (msortC dnestCmp above).length = above.length := (msortC_perm _ _).length_eq
  refine Res.safe_bind (Res.safe_get (by rw [hl]; exact floor_lt_of_compression _ hc _ hn))
    fun v _ _ => ?_
  rw [if_pos hcap]; simp [Res.safe]

/-- Bound for the level table: whenever levels are not enough there is room for one more. -/
theorem room_of_not_enough {o : SOpts} {m : ℕ} {l : List Level}
    (hm : m = o.maxNumLevels) (h : enoughLevels o m l = .ok false) : l.length < o.levelCap := by
  subst hm
  unfold enoughLevels at h
  unfold SOpts.levelCap
  split at h
  · rename_i h0
    simp only [h0, ne_eq, not_true_eq_false, if_false]
    split at h
    · cases h
    · omega
  · rename_i h0
    simp only [ne_eq, h0, not_false_eq_true, if_true]
    simp at h; exact h

/-- Agreement between the root's copy of the level limit and the one of the other tasks. -/
def MaxLvOK (o : SOpts) (m : ℕ) (ls : List Level) : Prop :=
  m = o.maxNumLevels ∨ (enoughLevels o m ls = .ok true ∧ enoughLevels o o.maxNumLevels ls = .ok true)

theorem doBookkeeping_safe (o : SOpts) (m : ℕ) (comb rl : List Level) (above : List LogL)
    (root : List (Particle d)) (k : KillIn) (hc : 1 < o.compression) (hn : 0 < o.newLevelInterval)
    (hm : MaxLvOK o m comb) (ha : ∀ a ∈ k.attempts, ∀ c ∈ a, c.1 < root.length) :
    (doBookkeeping o m comb rl above root k).safe (fun b => b.root.length = root.length) := by
  unfold doBookkeeping
  refine Res.safe_bind (enoughLevels_safe o m comb) fun e he _ => ?_
  split
  · rename_i hcond
    have hef : e = false := by simpa using hcond.1
    subst hef
    have hm' : m = o.maxNumLevels := by
      rcases hm with hm | hm
      · exact hm
      · rw [he] at hm; cases hm.1
    refine Res.safe_bind (createLevel_safe o comb above hc (by omega) (room_of_not_enough hm' he))
      fun r _ _ => ?_
    obtain ⟨comb', above'⟩ := r
    dsimp only
    refine Res.safe_bind (enoughLevels_safe o m comb') fun e' _ _ => ?_
    split
    · rfl
    · exact Res.safe_bind (killLagging_safe o m rl k root ha) fun r _ hr => hr
  · rfl

theorem recalcLogX_length (o : SOpts) (ls : List Level) : (recalcLogX o ls).length = ls.length := by
  simpa using congrArg List.length (recalcLogX_map o ls)

theorem doBookkeeping_maxLv {o : SOpts} {m : ℕ} {comb rl : List Level} {above : List LogL}
    {root : List (Particle d)} {k : KillIn} {b : Book d} (hm : MaxLvOK o m comb)
    (hcap : comb.length ≤ o.levelCap)
    (h : doBookkeeping o m comb rl above root k = .ok b) :
    MaxLvOK o b.maxLvRoot b.levels ∧ b.levels.length ≤ o.levelCap ∧
      comb.length ≤ b.levels.length := by
  rcases doBookkeeping_spec _ _ _ _ _ _ _ _ h with
    ⟨hmap, _, _, hmx, _⟩ | ⟨v, ab, _, he, _, hmap, _, hcase⟩
  · rw [hmx]
    have hl : b.levels.length = comb.length := by simpa using congrArg List.length hmap
    refine ⟨?_, by omega, by omega⟩
    rcases hm with hm | hm
    · exact .inl hm
    · exact .inr ⟨by rw [enoughLevels_congr hmap]; exact hm.1,
        by rw [enoughLevels_congr hmap]; exact hm.2⟩
  · have hm' : m = o.maxNumLevels := by
      rcases hm with hm | hm
      · exact hm
      · rw [he] at hm; cases hm.1
    have hl : b.levels.length = comb.length + 1 := by simpa using congrArg List.length hmap
    have hroom := room_of_not_enough hm' he
    refine ⟨?_, by omega, by omega⟩
    rcases hcase with ⟨_, hmx, he', _⟩ | ⟨_, hmx, _, _⟩
    · right
      rw [hmx]
      constructor
      · unfold enoughLevels
        rw [if_neg (by omega)]
        simp [hl]
      · rw [enoughLevels_congr hmap, ← hm']; exact he'
    · left; rw [hmx]; exact hm'

/-! ## Limits: lengths -/

theorem mergeLimTask_length (n : ℕ) (a b : List (Lim d)) : (mergeLimTask n a b).length = a.length := by
  induction n generalizing a b with
  | zero => cases a <;> simp [mergeLimTask]
  | succ n ih => cases a <;> cases b <;> simp [mergeLimTask, ih]

theorem sweepLim_length (n : ℕ) (a : List (Lim d)) : (sweepLim n a).length = a.length := by
  induction n generalizing a with
  | zero => simp [sweepLim]
  | succ n ih =>
    cases n with
    | zero => simp [sweepLim]
    | succ n =>
      cases a with
      | nil => simp [sweepLim]
      | cons x a =>
        cases a with
        | nil => simp [sweepLim]
        | cons y a =>
          have := ih (y :: a)
          simp only [sweepLim]
          split
          · rename_i h; rw [h] at this; simp at this
          · rename_i y' r h; rw [h] at this; simpa using this

theorem mergeLimits_length (n : ℕ) (cs : List (List (Lim d))) (r : List (Lim d)) :
    (mergeLimits n cs r).length = r.length := by
  unfold mergeLimits
  rw [sweepLim_length]
  induction cs generalizing r with
  | nil => rfl
  | cons c cs ih => rw [List.foldl_cons, ih, mergeLimTask_length]

/-! ## The whole run -/

/-- Sizes of the sampler's arrays between rounds. -/
structure SShape (o : SOpts) (s : Sampler d) : Prop where
  nt : s.tasks.length = o.totalTask
  np : ∀ ps ∈ s.tasks, ps.length = o.numParticles ∧ ∀ p ∈ ps, p.level < s.levels.length
  lv : 0 < s.levels.length
  cap : s.levels.length ≤ o.levelCap
  lim : s.limits.length = o.levelCap
  mx : MaxLvOK o s.maxLvRoot s.levels

/-- Options that the sampler can work with: what the option reader checks
(cdnest/dnest.c:1466-1472) and, not checked by it, positive numbers and a compression above one. -/
structure GoodOpts (o : SOpts) : Prop where
  np : 0 < o.numParticles
  nt : 0 < o.totalTask
  nli : 0 < o.newLevelInterval
  chk : o.totalTask * o.threadSteps ≤ o.newLevelInterval
  comp : 1 < o.compression

theorem GoodOpts.ts {o : SOpts} (h : GoodOpts o) : o.threadSteps ≤ 2 * o.newLevelInterval := by
  have h1 := h.chk
  have h2 : 1 * o.threadSteps ≤ o.totalTask * o.threadSteps := Nat.mul_le_mul_right _ h.nt
  omega

theorem round_safe {o : SOpts} (ho : GoodOpts o) (L : (Fin d → ℝ) → ℝ) (i : RoundIn d)
    (hv : ValidRound o i) (s : Sampler d) (hi : SInv L s) (hs : SShape o s) :
    (round o L i s).safe (SShape o) := by
  unfold round
  refine Res.safe_bind (runTasks_safe (o := o) L s.levels s.limits s.maxLvRoot s.tasks i.steps hs.lv
    hs.cap hs.lim hs.np (fun l hl => ⟨hv.nSteps l hl, hv.which l hl⟩) ho.ts) fun ts hts hsh => ?_
  have ht := runTasks_inv o L _ hi.thr _ _ _ _ _ hi.part hts
  have hcomb : LvSteps s.levels (mergeLevels s.levels (ts.map (·.levels)) s.levels) := by
    refine mergeLevels_steps _ _ _ ?_ rfl
    intro p hp
    obtain ⟨t, htm, rfl⟩ := List.mem_map.1 hp
    exact (ht t htm).steps
  have hmx : MaxLvOK o s.maxLvRoot (mergeLevels s.levels (ts.map (·.levels)) s.levels) := by
    unfold MaxLvOK
    rw [← enoughLevels_congr hcomb.map_logl, ← enoughLevels_congr hcomb.map_logl]
    exact hs.mx
  have hlen0 : 0 < ts.length := by rw [hsh.1, hs.nt]; exact ho.nt
  have hg : (gatherTasks o s ts i.kill).safe (SShape o) := by
    unfold gatherTasks
    dsimp only
    split
    · trivial
    · refine Res.safe_bind (Res.safe_get hlen0) fun root _ hroot => ?_
      have hrm := List.mem_of_getElem? hroot
      have hrs := hsh.2 root hrm
      refine Res.safe_bind (doBookkeeping_safe o _ _ root.levels _ root.particles i.kill ho.comp
        ho.nli hmx (by rw [hrs.np]; exact hv.killC)) fun b hb hbl => ?_
      obtain ⟨hb1, hb2, hb3⟩ := doBookkeeping_maxLv hmx (by rw [hcomb.length]; exact hs.cap) hb
      rw [hcomb.length] at hb3
      refine ⟨?_, ?_, ?_, hb2, ?_, hb1⟩
      · have := hsh.1
        have := hs.nt
        simp; omega
      · intro ps hps
        dsimp only at hps ⊢
        rcases List.mem_cons.1 hps with hps | hps
        · subst hps
          refine ⟨by rw [hbl, hrs.np], ?_⟩
          intro p hp
          have hpr : p ∈ root.particles := by
            rcases doBookkeeping_spec _ _ _ _ _ _ _ _ hb with
              ⟨_, _, hr, _⟩ | ⟨_, _, _, _, _, _, _, ⟨hr, _⟩ | ⟨hr, _⟩⟩
            · rw [hr] at hp; exact hp
            · rw [hr] at hp; exact hp
            · exact killLagging_mem _ _ _ _ _ _ hr p hp
          have := hrs.lev p hpr
          omega
        · obtain ⟨t, htm, rfl⟩ := List.mem_map.1 hps
          have htm := hsh.2 t (List.mem_of_mem_tail htm)
          exact ⟨htm.np, fun p hp => by have := htm.lev p hp; omega⟩
      · have := hs.lv; dsimp only; omega
      · dsimp only
        split
        · rw [mergeLimits_length]; exact hrs.lim
        · exact hrs.lim
  refine Res.safe_bind hg fun s1 _ hs1 => ?_
  unfold saveStep
  split
  · refine Res.safe_bind (Res.safe_get (by rw [hs1.nt]; exact hv.saveTask)) fun ps _ hps => ?_
    refine Res.safe_bind (Res.safe_get (by
      rw [(hs1.np ps (List.mem_of_getElem? hps)).1]; exact hv.saveParticle)) fun p _ _ => ?_
    exact ⟨hs1.nt, hs1.np, hs1.lv, hs1.cap, hs1.lim, hs1.mx⟩
  · exact hs1

theorem init_shape {o : SOpts} (L : (Fin d → ℝ) → ℝ) (tie : ℝ)
    (draws : List (List ((Fin d → ℝ) × ℝ))) (hd : ValidDraws o draws) :
    SShape o (initSampler o L tie draws) := by
  refine ⟨by simp [initSampler, hd.nTasks], ?_, by simp [initSampler], ?_, by simp [initSampler],
    .inl rfl⟩
  · intro ps hps
    simp only [initSampler] at hps
    obtain ⟨l, hl, rfl⟩ := List.mem_map.1 hps
    refine ⟨by simp [hd.nPart l hl], ?_⟩
    intro p hp
    obtain ⟨x, _, rfl⟩ := List.mem_map.1 hp
    simp [initParticle, initSampler]
  · simp only [initSampler, SOpts.levelCap, List.length_singleton]; split <;> omega

theorem run_safe {o : SOpts} (ho : GoodOpts o) (L : (Fin d → ℝ) → ℝ) (is : List (RoundIn d))
    (hv : ∀ i ∈ is, ValidRound o i) (s : Sampler d) (hi : SInv L s) (hs : SShape o s) :
    (run o L is s).safe (SShape o) := by
  induction is generalizing s with
  | nil => exact hs
  | cons i is ih =>
    simp only [run]
    split
    · exact hs
    · refine Res.safe_bind (round_safe ho L i (hv i (by simp)) s hi hs) fun s1 h1 hs1 => ?_
      exact ih (fun j hj => hv j (by simp [hj])) s1 (round_inv o L i s s1 hi h1) hs1

theorem reachable_shape {o : SOpts} (ho : GoodOpts o) {L : (Fin d → ℝ) → ℝ}
    (hL : ∀ x, -DBL_MAX ≤ L x) {s : Sampler d} (h : Reachable o L s) : SShape o s := by
  obtain ⟨tie, draws, ins, hd, hv, h⟩ := h
  exact Res.safe_ok (run_safe ho L ins hv _ (init_inv o L hL tie draws) (init_shape L tie draws hd)) h

end Mica
