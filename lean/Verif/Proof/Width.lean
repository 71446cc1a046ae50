import Verif.Proof.Whole
import Verif.Proof.Limits
import Mathlib.Tactic.Linarith

/-!
# Limits that the model's own moves leave behind: helper lemmas for the step widths
-/

namespace Mica

variable {n : ℕ}

/-- The limits of a level are those of the start for parameter `k`. -/
def FreshAt (k : Fin n) (b : Lim n) : Prop := b k = (DBL_MAX, -DBL_MAX)

/-- The limits of a level are an interval inside `[lo, hi]` for parameter `k`. -/
def ProperAt (lo hi : ℝ) (k : Fin n) (b : Lim n) : Prop := lo ≤ (b k).1 ∧ (b k).1 ≤ (b k).2 ∧ (b k).2 ≤ hi

variable {lo hi : ℝ} {k : Fin n}

theorem ProperAt.widen (hh : hi < DBL_MAX) {x y : Lim n} (hx : ProperAt lo hi k x) (hxy : x.inside y)
    (hy : FreshAt k y ∨ ProperAt lo hi k y) : ProperAt lo hi k y := by
  rcases hy with hy | hy
  · have h1 := (hxy k).1
    rw [hy] at h1
    have h2 := hx.2.1
    have h3 := hx.2.2
    dsimp only at h1
    linarith
  · exact hy

theorem boxAt_union {x y : Lim n} (hl : -DBL_MAX ≤ lo) (hh : hi < DBL_MAX)
    (hx : FreshAt k x ∨ ProperAt lo hi k x) (hy : FreshAt k y ∨ ProperAt lo hi k y) :
    FreshAt k (unionLim x y) ∨ ProperAt lo hi k (unionLim x y) := by
  unfold FreshAt ProperAt unionLim at *
  dsimp only
  rcases hx with hx | ⟨h1, h2, h3⟩ <;> rcases hy with hy | ⟨g1, g2, g3⟩
  · left; rw [hx, hy]; simp
  · right
    rw [hx]
    dsimp only
    rw [min_eq_right (by linarith), max_eq_right (by linarith)]
    exact ⟨g1, g2, g3⟩
  · right
    rw [hy]
    dsimp only
    rw [min_eq_left (by linarith), max_eq_left (by linarith)]
    exact ⟨h1, h2, h3⟩
  · right
    exact ⟨le_min h1 g1, (min_le_left _ _).trans (h2.trans (le_max_left _ _)), max_le h3 g3⟩

theorem properAt_extend {x : Lim n} {v : Fin n → ℝ} (hl : -DBL_MAX ≤ lo) (hh : hi < DBL_MAX)
    (hx : FreshAt k x ∨ ProperAt lo hi k x) (hv : lo ≤ v k ∧ v k ≤ hi) : ProperAt lo hi k (extendLim x v) := by
  unfold FreshAt ProperAt at *
  have e : extendLim x v k = (min (x k).1 (v k), max (x k).2 (v k)) := rfl
  rw [e]
  dsimp only
  refine ⟨?_, (min_le_right _ _).trans (le_max_right _ _), ?_⟩
  · rcases hx with hx | ⟨h1, _, _⟩
    · rw [hx]; exact le_min (by dsimp only; linarith [hv.1, hv.2]) hv.1
    · exact le_min h1 hv.1
  · rcases hx with hx | ⟨_, _, h3⟩
    · rw [hx]; exact max_le (by dsimp only; linarith [hv.1, hv.2]) hv.2
    · exact max_le h3 hv.2

/-- All limits of a table. -/
def BoxesAt (lo hi : ℝ) (k : Fin n) (l : List (Lim n)) : Prop := ∀ b ∈ l, FreshAt k b ∨ ProperAt lo hi k b

theorem boxes_merge (hl : -DBL_MAX ≤ lo) (hh : hi < DBL_MAX) (m : ℕ) (a b : List (Lim n)) (ha : BoxesAt lo hi k a)
    (hb : BoxesAt lo hi k b) : BoxesAt lo hi k (mergeLimTask m a b) := by
  induction m generalizing a b with
  | zero => have : mergeLimTask 0 a b = a := by cases a <;> rfl
            rw [this]; exact ha
  | succ m ih =>
    cases a with
    | nil => exact ha
    | cons x a =>
      cases b with
      | nil => exact ha
      | cons y b =>
        intro z hz
        rcases List.mem_cons.1 hz with e | e
        · subst e; exact boxAt_union hl hh (ha x (by simp)) (hb y (by simp))
        · exact ih a b (fun w hw => ha w (by simp [hw])) (fun w hw => hb w (by simp [hw])) z e

theorem boxes_fold (hl : -DBL_MAX ≤ lo) (hh : hi < DBL_MAX) (m : ℕ) (cs : List (List (Lim n))) (a : List (Lim n))
    (ha : BoxesAt lo hi k a) (hc : ∀ c ∈ cs, BoxesAt lo hi k c) :
    BoxesAt lo hi k (cs.foldl (fun acc c => mergeLimTask m acc c) a) := by
  induction cs generalizing a with
  | nil => exact ha
  | cons c cs ih =>
    exact ih _ (boxes_merge hl hh m a c ha (hc c (by simp))) fun c' h' => hc c' (by simp [h'])

theorem boxes_sweep (hl : -DBL_MAX ≤ lo) (hh : hi < DBL_MAX) (m : ℕ) (a : List (Lim n)) (ha : BoxesAt lo hi k a) :
    BoxesAt lo hi k (sweepLim m a) := by
  induction m generalizing a with
  | zero => simpa [sweepLim] using ha
  | succ m ih =>
    cases m with
    | zero => simpa [sweepLim] using ha
    | succ m =>
      cases a with
      | nil => simpa [sweepLim] using ha
      | cons x a =>
        cases a with
        | nil => simpa [sweepLim] using ha
        | cons y a =>
          have h1 := ih (y :: a) fun w hw => ha w (by simp only [List.mem_cons] at hw ⊢; tauto)
          simp only [sweepLim]
          split
          · intro z hz
            rw [List.mem_singleton] at hz
            subst hz; exact ha z (by simp)
          · rename_i b' rest' hb
            rw [hb] at h1
            intro z hz
            rcases List.mem_cons.1 hz with e | e
            · subst e; exact boxAt_union hl hh (ha x (by simp)) (h1 b' (by simp))
            · exact h1 z e

/-- A task during a round that started with `N` levels: every particle is below `N`, and the limits of the level it has
entered are an interval. -/
structure TaskBox (lo hi : ℝ) (k : Fin n) (N : ℕ) (t : TaskSt n) : Prop where
  len : t.levels.length = N
  cap : N ≤ t.limits.length
  box : BoxesAt lo hi k t.limits
  own : ∀ p ∈ t.particles, p.level < N ∧
    (1 ≤ p.level → ∀ b, t.limits[p.level]? = some b → ProperAt lo hi k b)

theorem TaskBox.level {N : ℕ} {o : SOpts} (hf : o.flagLimits = true) (hl : -DBL_MAX ≤ lo) (hh : hi < DBL_MAX)
    {Q : (Fin n → ℝ) → Prop} (hQ : ∀ x, Q x → lo ≤ x k ∧ x k ≤ hi) {m w : ℕ} {i : LAIn} {t t' : TaskSt n}
    (ha : TaskAll Q t) (ht : TaskBox lo hi k N t) (h : updateLevelAssignment o m w i t = .ok t') :
    TaskBox lo hi k N t' := by
  rcases updateLevel_shape h with rfl | ⟨p, prop, hp, hpr, h1, _, h3, ⟨_, lim, hlim, h2⟩ | ⟨hf', _⟩⟩
  · exact ht
  · have hq := hQ _ (ha p (List.mem_of_getElem? hp))
    have hb := ht.box lim (List.mem_of_getElem? hlim)
    have hnew := properAt_extend hl hh hb hq
    have hlt := (List.getElem?_eq_some_iff.1 hlim).1
    refine ⟨by rw [h3]; exact ht.len, by rw [h2, List.length_set]; exact ht.cap, ?_, ?_⟩
    · rw [h2]
      intro b hb'
      rcases List.mem_or_eq_of_mem_set hb' with e | e
      · exact ht.box b e
      · subst e; exact .inr hnew
    · rw [h1, h2]
      intro q hq'
      rcases List.mem_or_eq_of_mem_set hq' with e | e
      · obtain ⟨g1, g2⟩ := ht.own q e
        refine ⟨g1, fun h1' b hb' => ?_⟩
        by_cases hj : prop = q.level
        · rw [hj, List.getElem?_set_self (by rw [← hj]; exact hlt)] at hb'
          cases hb'; exact hnew
        · rw [List.getElem?_set_ne hj] at hb'
          exact g2 h1' b hb'
      · subst e
        refine ⟨by rw [← ht.len]; exact hpr, fun _ b hb' => ?_⟩
        dsimp only at hb'
        rw [List.getElem?_set_self hlt] at hb'
        cases hb'; exact hnew
  · rw [hf] at hf'; cases hf'

theorem TaskBox.update {N : ℕ} {L : (Fin n → ℝ) → ℝ} {w : ℕ} {i : UPIn n} {t t' : TaskSt n}
    (ht : TaskBox lo hi k N t) (h : updateParticle L w i t = .ok t') : TaskBox lo hi k N t' := by
  have hlen := updateParticle_len h
  unfold updateParticle at h
  obtain ⟨p, hp, h⟩ := Res.bind_eq_ok.1 h
  obtain ⟨_, _, h⟩ := Res.bind_eq_ok.1 h
  obtain ⟨tie, _, h⟩ := Res.bind_eq_ok.1 h
  obtain ⟨_, _, h⟩ := Res.bind_eq_ok.1 h
  cases h
  refine ⟨by rw [hlen]; exact ht.len, ht.cap, ht.box, ?_⟩
  intro q hq
  rcases List.mem_or_eq_of_mem_set hq with e | e
  · exact ht.own q e
  · have hl : q.level = p.level := by
      subst e; split <;> rfl
    rw [hl]
    exact ht.own p (List.mem_of_getElem? (Res.get_eq_ok.1 hp))

theorem TaskBox.perturb {N : ℕ} {P : Perturb n} {L : (Fin n → ℝ) → ℝ} {w : ℕ} {cands : List (Fin n)} {h uTie uAcc : ℝ}
    {t t' : TaskSt n} (ht : TaskBox lo hi k N t) (hr : perturbUpdate P L w cands h uTie uAcc t = .ok t') :
    TaskBox lo hi k N t' := by
  unfold perturbUpdate at hr
  obtain ⟨p, _, hr⟩ := Res.bind_eq_ok.1 hr
  obtain ⟨q, _, hr⟩ := Res.bind_eq_ok.1 hr
  exact ht.update hr

theorem TaskBox.step {N : ℕ} {P : Perturb n} {o : SOpts} (hf : o.flagLimits = true) (hl : -DBL_MAX ≤ lo)
    (hh : hi < DBL_MAX) {Q : (Fin n → ℝ) → Prop} (hQ : ∀ x, Q x → lo ≤ x k ∧ x k ≤ hi) (hP : MoveKeeps P Q)
    {L : (Fin n → ℝ) → ℝ} {m : ℕ} {i : StepInP n} {t t' : TaskSt n} (ha : TaskAll Q t) (ht : TaskBox lo hi k N t)
    (h : mcmcStepP P o L m i t = .ok t') : TaskBox lo hi k N t' := by
  unfold mcmcStepP at h
  obtain ⟨t1, ht1, h⟩ := Res.bind_eq_ok.1 h
  have key : TaskBox lo hi k N t1 := by
    unfold samplerMove at ht1
    dsimp only at ht1
    split at ht1
    · obtain ⟨t2, ht2, ht1⟩ := Res.bind_eq_ok.1 ht1
      obtain ⟨_, _, h2⟩ := perturbUpdate_up hP L i.which i.cands i.h i.uTie i.uAcc ha
      exact (ht.perturb ht2).level hf hl hh hQ (h2 t2 ht2) ht1
    · obtain ⟨t2, ht2, ht1⟩ := Res.bind_eq_ok.1 ht1
      exact (ht.level hf hl hh hQ ha ht2).perturb ht1
  obtain ⟨e, _, h⟩ := Res.bind_eq_ok.1 h
  split at h
  · cases h; exact key
  · obtain ⟨_, _, h⟩ := Res.bind_eq_ok.1 h
    obtain ⟨p, _, h⟩ := Res.bind_eq_ok.1 h
    split at h
    · split at h
      · cases h; exact ⟨key.len, key.cap, key.box, key.own⟩
      · cases h
    · cases h; exact key

theorem TaskBox.run {N : ℕ} {P : Perturb n} {o : SOpts} (hf : o.flagLimits = true) (hl : -DBL_MAX ≤ lo)
    (hh : hi < DBL_MAX) {Q : (Fin n → ℝ) → Prop} (hQ : ∀ x, Q x → lo ≤ x k ∧ x k ≤ hi) (hP : MoveKeeps P Q)
    {L : (Fin n → ℝ) → ℝ} {m : ℕ} {is : List (StepInP n)} {t t' : TaskSt n} (ha : TaskAll Q t)
    (ht : TaskBox lo hi k N t) (h : mcmcRunP P o L m is t = .ok t') : TaskAll Q t' ∧ TaskBox lo hi k N t' := by
  induction is generalizing t with
  | nil => cases h; exact ⟨ha, ht⟩
  | cons i is ih =>
    simp only [mcmcRunP] at h
    obtain ⟨t1, h1, h⟩ := Res.bind_eq_ok.1 h
    obtain ⟨_, _, h2⟩ := mcmcStepP_up hP o L m i ha
    exact ih (h2 t1 h1) (ht.step hf hl hh hQ hP ha h1) h

theorem runTasksP_box {N : ℕ} {P : Perturb n} {o : SOpts} (hf : o.flagLimits = true) (hl : -DBL_MAX ≤ lo)
    (hh : hi < DBL_MAX) {Q : (Fin n → ℝ) → Prop} (hQ : ∀ x, Q x → lo ≤ x k ∧ x k ≤ hi) (hP : MoveKeeps P Q)
    {L : (Fin n → ℝ) → ℝ} {ls : List Level} {lim : List (Lim n)} {m : ℕ} {pss : List (List (Particle n))}
    {iss : List (List (StepInP n))} {ts : List (TaskSt n)}
    (ha : ∀ ps ∈ pss, ∀ p ∈ ps, Q p.params) (ht : ∀ ps ∈ pss, TaskBox lo hi k N ⟨ps, ls, lim, []⟩)
    (h : runTasksP P o L ls lim m pss iss = .ok ts) : ∀ t ∈ ts, TaskBox lo hi k N t := by
  induction pss generalizing m iss ts with
  | nil => simp only [runTasksP] at h; cases h; simp
  | cons ps pss ih =>
    cases iss with
    | nil => simp [runTasksP] at h
    | cons is iss =>
      simp only [runTasksP] at h
      obtain ⟨t, h1, h⟩ := Res.bind_eq_ok.1 h
      obtain ⟨ts1, hts1, h⟩ := Res.bind_eq_ok.1 h
      cases h
      intro x hx
      rcases List.mem_cons.1 hx with e | e
      · subst e
        exact (TaskBox.run (t := ⟨ps, ls, lim, []⟩) hf hl hh hQ hP (ha ps (by simp)) (ht ps (by simp)) h1).2
      · exact ih (fun ps' h' => ha ps' (by simp [h'])) (fun ps' h' => ht ps' (by simp [h'])) hts1 x e

/-- The state between two rounds: the limits of every level that some particle is at or above are intervals. -/
structure WidthInv (lo hi : ℝ) (k : Fin n) (s : Sampler n) : Prop where
  box : BoxesAt lo hi k s.limits
  own : ∀ ps ∈ s.tasks, ∀ p ∈ ps, 1 ≤ p.level → ∀ b, s.limits[p.level]? = some b → ProperAt lo hi k b

theorem sessions_limInv {L : (Fin n → ℝ) → ℝ} (hL : ∀ x, -DBL_MAX ≤ L x) {o : SOpts} {s : Sampler n}
    (ho : GoodOpts o) (h32 : o.maxNumLevels < 2 ^ 32) (hf : o.flagLimits = true) (h : Sessions L o s) : LimInv s := by
  induction h with
  | start o tie draws hd =>
    have hall : ∀ (j : ℕ) (x : Lim n), (initSampler o L tie draws).limits[j]? = some x → x = lim0 n := by
      intro j x hx
      have := List.mem_of_getElem? hx
      simp only [initSampler] at this
      exact List.eq_of_mem_replicate this
    refine ⟨fun j x _ hx => hall j x hx, fun j x hx => ?_, ?_⟩
    · rw [hall j x hx]; exact Lim.inside_refl _
    · intro i j x y _ hx hy
      rw [hall i x hx, hall j y hy]; exact Lim.inside_refl _
  | @round o a b i ha hv hr ih =>
    have hi := (sessions_inv hL ho h32 ha).inv
    have h1 := ih ho h32 hf
    have key := round_file o L i a a.saved
    change round o L i a = _ at key
    rw [key] at hr
    obtain ⟨s', hs', hr⟩ := Res.bind_eq_ok.1 hr
    cases hr
    have := round_limInv hf hi ⟨h1.hi, h1.lo, h1.nest⟩ hs'
    exact ⟨this.hi, this.lo, this.nest⟩
  | @resume o a b m file ha hr ih =>
    have ho' : GoodOpts o := ⟨ho.np, ho.nt, ho.nli, ho.chk, ho.comp⟩
    have h32' : o.maxNumLevels < 2 ^ 32 := h32
    have hf' : o.flagLimits = true := hf
    have h1 := ih ho' h32' hf'
    have hs := sessions_inv hL ho' h32' ha
    have key := hs.resume h32' m file (readRestart_saves hr)
    rw [hr, if_pos hf'] at key
    cases key
    have hsplit : ∀ (j : ℕ) (x : Lim n), (a.limits.take a.levels.length ++
        List.replicate (o.levelCap - a.levels.length) fun _ => (DBL_MAX, -DBL_MAX))[j]? = some x →
        (j < a.levels.length ∧ a.limits[j]? = some x) ∨ (a.levels.length ≤ j ∧ x = lim0 n) := by
      intro j x hx
      have hlt : (a.limits.take a.levels.length).length = a.levels.length := by
        rw [List.length_take, hs.shape.lim]
        have := hs.shape.cap
        omega
      by_cases hj : j < a.levels.length
      · left
        refine ⟨hj, ?_⟩
        rw [List.getElem?_append_left (by omega), List.getElem?_take_of_lt hj] at hx
        exact hx
      · right
        refine ⟨by omega, ?_⟩
        rw [List.getElem?_append_right (by omega)] at hx
        exact List.eq_of_mem_replicate (List.mem_of_getElem? hx)
    refine ⟨fun j x hj hx => ?_, fun j x hx => ?_, fun i j x y hij hx hy => ?_⟩
    · rcases hsplit j x hx with ⟨h, _⟩ | ⟨_, h⟩
      · dsimp only at hj; omega
      · exact h
    · rcases hsplit j x hx with ⟨_, h⟩ | ⟨_, h⟩
      · exact h1.lo j x h
      · rw [h]; exact Lim.inside_refl _
    · rcases hsplit i x hx with ⟨a1, a2⟩ | ⟨a1, a2⟩ <;> rcases hsplit j y hy with ⟨b1, b2⟩ | ⟨b1, b2⟩
      · exact h1.nest i j x y hij a2 b2
      · rw [b2]; exact h1.lo i x a2
      · omega
      · rw [a2, b2]; exact Lim.inside_refl _

theorem width_inv {P : Perturb n} {D Q : (Fin n → ℝ) → Prop} (hP : MoveKeeps P Q)
    (hl : -DBL_MAX ≤ lo) (hh : hi < DBL_MAX) (hQ : ∀ x, Q x → lo ≤ x k ∧ x k ≤ hi)
    {L : (Fin n → ℝ) → ℝ} (hL : ∀ x, -DBL_MAX ≤ L x) {o : SOpts} (ho : GoodOpts o) (h32 : o.maxNumLevels < 2 ^ 32)
    (hall : ∀ {o : SOpts} {s : Sampler n}, GoodOpts o → o.maxNumLevels < 2 ^ 32 → WholeRun P D L o s →
      Sessions L o s ∧ ∀ ps ∈ s.tasks, ∀ p ∈ ps, Q p.params)
    (hf : o.flagLimits = true) {s : Sampler n} (h : WholeRun P D L o s) : WidthInv lo hi k s := by
  induction h with
  | start o tie draws hd hx =>
    have hfr : ∀ b ∈ (initSampler o L tie draws).limits, FreshAt k b := by
      intro b hb
      simp only [initSampler] at hb
      rw [List.eq_of_mem_replicate hb]; rfl
    refine ⟨fun b hb => .inl (hfr b hb), ?_⟩
    intro ps hps p hp h1
    obtain ⟨l, _, rfl⟩ := List.mem_map.1 hps
    obtain ⟨x, _, rfl⟩ := List.mem_map.1 hp
    change 1 ≤ 0 at h1
    omega
  | @round o a b i ha hv hr ih =>
    have hi' := ih ho h32 hf
    obtain ⟨hS, hq⟩ := hall ho h32 ha
    have hsh := (sessions_inv hL ho h32 hS).shape
    unfold roundP at hr
    obtain ⟨ts, hts, hr⟩ := Res.bind_eq_ok.1 hr
    obtain ⟨s1, hs1, hr⟩ := Res.bind_eq_ok.1 hr
    have htb := runTasksP_box (N := a.levels.length) hf hl hh hQ hP hq
      (fun ps hps => ⟨rfl, by rw [hsh.lim]; exact hsh.cap, hi'.box, fun p hp => ⟨(hsh.np ps hps).2 p hp, hi'.own ps hps p hp⟩⟩) hts
    obtain ⟨root, bk, _, hroot, hb, rfl⟩ := gatherTasks_shape hs1
    obtain ⟨_, e2, e3, _⟩ := saveStep_levels hr
    dsimp only at e2 e3
    rw [if_pos hf] at e2
    have hrm := List.mem_of_getElem? hroot
    have hbox : BoxesAt lo hi k b.limits := by
      rw [e2]
      unfold mergeLimits
      refine boxes_sweep hl hh _ _ (boxes_fold hl hh _ _ _ (htb root hrm).box ?_)
      intro c hc
      obtain ⟨t, ht, rfl⟩ := List.mem_map.1 hc
      exact (htb t ht).box
    have hbr : ∀ p ∈ bk.root, p ∈ root.particles := by
      unfold doBookkeeping at hb
      obtain ⟨e, _, hb⟩ := Res.bind_eq_ok.1 hb
      split at hb
      · obtain ⟨c, _, hb⟩ := Res.bind_eq_ok.1 hb
        obtain ⟨e', _, hb⟩ := Res.bind_eq_ok.1 hb
        split at hb
        · cases hb; exact fun p hp => hp
        · obtain ⟨r', hr', hb⟩ := Res.bind_eq_ok.1 hb
          cases hb
          exact killLagging_mem _ _ _ _ _ _ hr'
      · cases hb; exact fun p hp => hp
    have hlen : b.limits.length = root.limits.length := by rw [e2, mergeLimits_length]
    have hin : ∀ t ∈ ts, ∀ p ∈ t.particles, 1 ≤ p.level → ∀ x, b.limits[p.level]? = some x → ProperAt lo hi k x := by
      intro t ht p hp h1 x hx
      obtain ⟨g1, g2⟩ := (htb t ht).own p hp
      have hjr : p.level < root.limits.length := by
        rw [← hlen]; exact (List.getElem?_eq_some_iff.1 hx).1
      have hjt : p.level < t.limits.length := lt_of_lt_of_le g1 (htb t ht).cap
      have hy : t.limits[p.level]? = some t.limits[p.level] := by simp [hjt]
      obtain ⟨z, hz, hyz⟩ := foldMerge_get a.levels.length (ts.map (·.limits)) root.limits t.limits
        (List.mem_map_of_mem ht) p.level g1 hjr _ hy
      obtain ⟨z', hz', hzz'⟩ := (sweepLim_spec a.levels.length
        ((ts.map (·.limits)).foldl (fun acc c => mergeLimTask a.levels.length acc c) root.limits)).1 _ z hz
      have : b.limits[p.level]? = some z' := by rw [e2]; exact hz'
      rw [this] at hx
      cases hx
      exact (g2 h1 _ hy).widen hh (Lim.inside_trans hyz hzz') (hbox _ (List.mem_of_getElem? this))
    refine ⟨hbox, ?_⟩
    rw [e3]
    intro ps hps p hp
    rcases List.mem_cons.1 hps with e | e
    · subst e; exact hin root hrm p (hbr p hp)
    · obtain ⟨t, htm, rfl⟩ := List.mem_map.1 e
      exact hin t (List.mem_of_mem_tail htm) p hp
  | @resume o a b c m m' file ha hc hfile hr iha ihc =>
    have ho' : GoodOpts o := ⟨ho.np, ho.nt, ho.nli, ho.chk, ho.comp⟩
    have h32' : o.maxNumLevels < 2 ^ 32 := h32
    have hf' : o.flagLimits = true := hf
    have hi' := iha ho' h32' hf'
    obtain ⟨hS, hq⟩ := hall ho' h32' ha
    have hs := sessions_inv hL ho' h32' hS
    have key := hs.resume h32' m file (readRestart_saves hr)
    rw [hr, if_pos hf'] at key
    cases key
    refine ⟨?_, ?_⟩
    · intro x hx
      rcases List.mem_append.1 hx with e | e
      · exact hi'.box x (List.mem_of_mem_take e)
      · rw [List.eq_of_mem_replicate e]; exact .inl rfl
    · intro ps hps p hp h1 x hx
      have hlv := (hs.shape.np ps hps).2 p hp
      have hlt : (a.limits.take a.levels.length).length = a.levels.length := by
        rw [List.length_take, hs.shape.lim]
        have := hs.shape.cap
        omega
      dsimp only at hx
      rw [List.getElem?_append_left (by omega), List.getElem?_take_of_lt hlv] at hx
      exact hi'.own ps hps p hp h1 x hx

/-- Between two rounds: the limits that a particle's step is taken from are an interval inside the prior. -/
theorem WidthInv.below (hh : hi < DBL_MAX) {o : SOpts} {s : Sampler n} (hw : WidthInv lo hi k s) (hn : LimInv s)
    (hs : SShape o s) {ps : List (Particle n)} (hps : ps ∈ s.tasks) {p : Particle n} (hp : p ∈ ps) {j : ℕ}
    (hj : j < p.level) : ∃ b, s.limits[j]? = some b ∧ ProperAt lo hi k b := by
  have hlv := (hs.np ps hps).2 p hp
  have hcap := hs.cap
  have hlim := hs.lim
  have h1 : j < s.limits.length := by omega
  have h2 : p.level < s.limits.length := by omega
  refine ⟨s.limits[j], by simp [h1], ?_⟩
  have hown := hw.own ps hps p hp (by omega) s.limits[p.level] (by simp [h2])
  exact hown.widen hh (hn.nest j p.level _ _ hj.le (by simp [h1]) (by simp [h2])) (hw.box _ (by simp))

end Mica
