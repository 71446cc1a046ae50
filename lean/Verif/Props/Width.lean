import Verif.Proof.Width
import Verif.Props.Whole

/-!
# C147: the sizes of the sampler's steps

The width of a step in the runs of Model/Whole.lean: the model's own draws and moves, any number of tasks, rounds, levels,
interruptions and resumptions.
-/

namespace Mica

variable {n : ℕ}

/-- A state of a task in which the model's move may be called: after some steps of the round, or after some steps and a
level move (cdnest/dnest.c:709-718). -/
def CallAt (P : Perturb n) (o : SOpts) (L : (Fin n → ℝ) → ℝ) (s : Sampler n) (ps : List (Particle n)) (t : TaskSt n) :
    Prop :=
  ∃ m is t0, mcmcRunP P o L m is ⟨ps, s.levels, s.limits, []⟩ = .ok t0 ∧
    (t = t0 ∨ ∃ w la, updateLevelAssignment o m w la t0 = .ok t)

theorem width_call {P : Perturb n} {Q : (Fin n → ℝ) → Prop} {lo hi : ℝ} {k : Fin n} (hP : MoveKeeps P Q)
    (hl : -DBL_MAX ≤ lo) (hh : hi < DBL_MAX) (hQ : ∀ x, Q x → lo ≤ x k ∧ x k ≤ hi) {L : (Fin n → ℝ) → ℝ} {o : SOpts}
    (hf : o.flagLimits = true) {s : Sampler n} (hw : WidthInv lo hi k s) (hs : SShape o s)
    (hq : ∀ ps ∈ s.tasks, ∀ p ∈ ps, Q p.params) {ps : List (Particle n)} (hps : ps ∈ s.tasks) {t : TaskSt n}
    (ht : CallAt P o L s ps t) : TaskBox lo hi k s.levels.length t := by
  obtain ⟨m, is, t0, h0, h1⟩ := ht
  have hb : TaskBox lo hi k s.levels.length ⟨ps, s.levels, s.limits, []⟩ :=
    ⟨rfl, by rw [hs.lim]; exact hs.cap, hw.box, fun p hp => ⟨(hs.np ps hps).2 p hp, hw.own ps hps p hp⟩⟩
  obtain ⟨ha, hb0⟩ := TaskBox.run (t := ⟨ps, s.levels, s.limits, []⟩) hf hl hh hQ hP (hq ps hps) hb h0
  rcases h1 with rfl | ⟨w, la, h1⟩
  · exact hb0
  · exact hb0.level hf hl hh hQ ha h1

theorem limitAt_get {l : List (Lim n)} {j : ℕ} {b : Lim n} (h : l[j]? = some b) (k : Fin n) : limitAt l j k = b k := by
  simp [limitAt, h]

/-- The level whose limits give the step, of a particle in level `l` of `N`: offsets `a` and `b` as in the moves. -/
theorem width_level (a b l N : ℕ) (h : a < l) (h' : b < N) :
    (if (l : ℤ) - a > (N : ℤ) - b then (N : ℤ) - b else (l : ℤ) - a) > 0 ∧
    (if (l : ℤ) - a > (N : ℤ) - b then (N : ℤ) - b else (l : ℤ) - a) - 1 = ((min (l - a) (N - b) - 1 : ℕ) : ℤ) := by
  constructor <;> split <;> omega

theorem width_prior (a b l N : ℕ) (h : l ≤ a ∨ N ≤ b) :
    ¬ (if (l : ℤ) - a > (N : ℤ) - b then (N : ℤ) - b else (l : ℤ) - a) > 0 := by
  split <;> omega

/-- What the run of the continuum model provides. -/
theorem con_width_inv (c : ConCfg n) (hr : ∀ i, c.lo i ≤ c.hi i) (hl : ∀ i, -DBL_MAX ≤ c.lo i)
    (hh : ∀ i, c.hi i < DBL_MAX) {L : (Fin n → ℝ) → ℝ} (hL : ∀ x, -DBL_MAX ≤ L x) {o : SOpts} (ho : GoodOpts o)
    (h32 : o.maxNumLevels < 2 ^ 32) (hf : o.flagLimits = true) {s : Sampler n}
    (h : WholeRun (conPerturb c) (ConDrawn c) L o s) (k : Fin n) (hk : c.fix k = none) :
    WidthInv (c.lo k) (c.hi k) k s ∧ LimInv s ∧ SShape o s ∧
      (∀ ps ∈ s.tasks, ∀ p ∈ ps, InPrior c p.params ∧ FixedHeld c p.params) ∧
      ∀ x, InPrior c x ∧ FixedHeld c x → c.lo k ≤ x k ∧ x k ≤ c.hi k := by
  have hQ : ∀ x, InPrior c x ∧ FixedHeld c x → c.lo k ≤ x k ∧ x k ≤ c.hi k := fun x hx => hx.1 k hk
  have hall : ∀ {o : SOpts} {s : Sampler n}, GoodOpts o → o.maxNumLevels < 2 ^ 32 →
      WholeRun (conPerturb c) (ConDrawn c) L o s →
      Sessions L o s ∧ ∀ ps ∈ s.tasks, ∀ p ∈ ps, InPrior c p.params ∧ FixedHeld c p.params := fun ho h32 h =>
    let a := whole_all (conPerturb_keeps c) (conDrawn_inside c hr) hL ho h32 h
    ⟨a.1, a.2.1⟩
  have hS := (hall ho h32 h).1
  exact ⟨width_inv (k := k) (conPerturb_keeps c) (hl k) (hh k) hQ hL ho h32 hall hf h, sessions_limInv hL ho h32 hf hS,
    (sessions_inv hL ho h32 hS).shape, (hall ho h32 h).2, hQ⟩

/-- What the run of a line model provides. -/
theorem line_width_inv (c : LineCfg) (hr : c.RangesOk) (hs : c.SharedOk) (hp : c.posivity = false)
    (hg : c.gap → ∀ i < c.nl.length, 0 < c.nl.getD i 0) (hl : ∀ i, -DBL_MAX ≤ (c.rng i).1)
    (hh : ∀ i, (c.rng i).2 < DBL_MAX) {L : (Fin c.numParams → ℝ) → ℝ} (hL : ∀ x, -DBL_MAX ≤ L x)
    {o : SOpts} (ho : GoodOpts o) (h32 : o.maxNumLevels < 2 ^ 32) (hf : o.flagLimits = true) {s : Sampler c.numParams}
    (h : WholeRun (linePerturb c) (LineDrawn c) L o s) (k : Fin c.numParams) (hk : c.fix k = none) :
    WidthInv (c.rng k).1 (c.rng k).2 k s ∧ LimInv s ∧ SShape o s ∧
      (∀ ps ∈ s.tasks, ∀ p ∈ ps, c.Inv (extendVec p.params)) ∧
      ∀ x : Fin c.numParams → ℝ, c.Inv (extendVec x) → (c.rng k).1 ≤ x k ∧ x k ≤ (c.rng k).2 := by
  have hQ : ∀ x : Fin c.numParams → ℝ, c.Inv (extendVec x) → (c.rng k).1 ≤ x k ∧ x k ≤ (c.rng k).2 := by
    intro x hx
    have e : extendVec x k.1 = x k := by simp [extendVec, k.2]
    rw [← e]; exact hx.range k k.2 hk
  have hall : ∀ {o : SOpts} {s : Sampler c.numParams}, GoodOpts o → o.maxNumLevels < 2 ^ 32 →
      WholeRun (linePerturb c) (LineDrawn c) L o s →
      Sessions L o s ∧ ∀ ps ∈ s.tasks, ∀ p ∈ ps, c.Inv (extendVec p.params) := fun ho h32 h =>
    let a := whole_all (linePerturb_keeps c hr hs hg) (lineDrawn_inside c hr hs hp) hL ho h32 h
    ⟨a.1, a.2.1⟩
  have hS := (hall ho h32 h).1
  exact ⟨width_inv (k := k) (linePerturb_keeps c hr hs hg) (hl k) (hh k) hQ hL ho h32 hall hf h,
    sessions_limInv hL ho h32 hf hS, (sessions_inv hL ho h32 hS).shape, (hall ho h32 h).2, hQ⟩

/-- **C147.** Continuum model, at the start of every round of every run: the width of the step of a free parameter is the
prior range for a particle in level 0 or while there are at most ten levels; otherwise it is the extent of the limits of
the level just below, at most the eleventh from the top, which is never negative and never more than the prior range. -/
theorem C147_con (c : ConCfg n) (hr : ∀ i, c.lo i ≤ c.hi i) (hl : ∀ i, -DBL_MAX ≤ c.lo i) (hh : ∀ i, c.hi i < DBL_MAX)
    {L : (Fin n → ℝ) → ℝ} (hL : ∀ x, -DBL_MAX ≤ L x) {o : SOpts} (ho : GoodOpts o) (h32 : o.maxNumLevels < 2 ^ 32)
    (hf : o.flagLimits = true) {s : Sampler n} (h : WholeRun (conPerturb c) (ConDrawn c) L o s)
    {ps : List (Particle n)} (hps : ps ∈ s.tasks) {p : Particle n} (hp : p ∈ ps) (k : Fin n) (hk : c.fix k = none)
    (cands : List (Fin n)) (r : ℝ) :
    let w := conWidth c ⟨cands, r, p.level, s.levels.length, limitAt s.limits⟩ k
    0 ≤ w ∧ w ≤ c.hi k - c.lo k ∧ (p.level = 0 ∨ s.levels.length ≤ 10 → w = c.hi k - c.lo k) ∧
      (0 < p.level → 10 < s.levels.length → ∃ b, s.limits[min p.level (s.levels.length - 10) - 1]? = some b ∧
        c.lo k ≤ (b k).1 ∧ (b k).2 ≤ c.hi k ∧ w = (b k).2 - (b k).1) := by
  intro w
  obtain ⟨hw, hn, hs, _, _⟩ := con_width_inv c hr hl hh hL ho h32 hf h k hk
  have hrk := hr k
  have hwd : w = conWidth c ⟨cands, r, p.level, s.levels.length, limitAt s.limits⟩ k := rfl
  simp only [conWidth] at hwd
  by_cases h1 : 0 < p.level ∧ 10 < s.levels.length
  · obtain ⟨h1, h2⟩ := h1
    obtain ⟨e1, e2⟩ := width_level 0 10 _ _ h1 h2
    simp only [Nat.cast_zero, sub_zero, Nat.sub_zero, Nat.cast_ofNat] at e1 e2
    obtain ⟨b, hb, hb1, hb2, hb3⟩ := hw.below (hh k) hn hs hps hp (j := min p.level (s.levels.length - 10) - 1) (by omega)
    rw [if_pos e1, e2, limitAt_get hb] at hwd
    refine ⟨by linarith, by linarith, fun h' => by omega, fun _ _ => ⟨b, hb, hb1, hb3, hwd⟩⟩
  · have e := width_prior 0 10 p.level s.levels.length (by omega)
    simp only [Nat.cast_zero, sub_zero, Nat.cast_ofNat] at e
    rw [if_neg e] at hwd
    exact ⟨by linarith, by linarith, fun _ => hwd, fun a b => absurd ⟨a, b⟩ h1⟩

/-- **C147.** The same at any moment inside a round, with one exception: a particle that has in this round jumped over
levels that no particle has entered before has the limits of the start, whose extent is `-2*DBL_MAX` (in the C code minus
infinity). -/
theorem C147_con_call (c : ConCfg n) (hr : ∀ i, c.lo i ≤ c.hi i) (hl : ∀ i, -DBL_MAX ≤ c.lo i)
    (hh : ∀ i, c.hi i < DBL_MAX) {L : (Fin n → ℝ) → ℝ} (hL : ∀ x, -DBL_MAX ≤ L x) {o : SOpts} (ho : GoodOpts o)
    (h32 : o.maxNumLevels < 2 ^ 32) (hf : o.flagLimits = true) {s : Sampler n}
    (h : WholeRun (conPerturb c) (ConDrawn c) L o s) {ps : List (Particle n)} (hps : ps ∈ s.tasks) {t : TaskSt n}
    (ht : CallAt (conPerturb c) o L s ps t) {p : Particle n} (hp : p ∈ t.particles) (k : Fin n) (hk : c.fix k = none)
    (cands : List (Fin n)) (r : ℝ) :
    let w := conWidth c ⟨cands, r, p.level, t.levels.length, limitAt t.limits⟩ k
    (0 ≤ w ∧ w ≤ c.hi k - c.lo k) ∨ (0 < p.level ∧ 10 < t.levels.length ∧ w = -2 * DBL_MAX ∧
      ∃ b, t.limits[min p.level (t.levels.length - 10) - 1]? = some b ∧ b k = (DBL_MAX, -DBL_MAX)) := by
  intro w
  obtain ⟨hw, hn, hs, hq, hQ⟩ := con_width_inv c hr hl hh hL ho h32 hf h k hk
  have hb := width_call (conPerturb_keeps c) (hl k) (hh k) hQ hf hw hs hq hps ht
  have hrk := hr k
  have hwd : w = conWidth c ⟨cands, r, p.level, t.levels.length, limitAt t.limits⟩ k := rfl
  simp only [conWidth] at hwd
  by_cases h1 : 0 < p.level ∧ 10 < t.levels.length
  · obtain ⟨h1, h2⟩ := h1
    obtain ⟨e1, e2⟩ := width_level 0 10 _ _ h1 h2
    simp only [Nat.cast_zero, sub_zero, Nat.sub_zero, Nat.cast_ofNat] at e1 e2
    have hj : min p.level (t.levels.length - 10) - 1 < t.limits.length := by
      have g1 := (hb.own p hp).1
      have g2 := hb.cap
      omega
    have hget : t.limits[min p.level (t.levels.length - 10) - 1]? = some t.limits[min p.level (t.levels.length - 10) - 1] := by
      simp [hj]
    rw [if_pos e1, e2, limitAt_get hget] at hwd
    rcases hb.box _ (List.mem_of_getElem? hget) with g | ⟨g1, g2, g3⟩
    · right
      refine ⟨h1, h2, ?_, _, hget, g⟩
      rw [g] at hwd
      dsimp only at hwd
      linarith
    · left; constructor <;> linarith
  · have e := width_prior 0 10 p.level t.levels.length (by omega)
    simp only [Nat.cast_zero, sub_zero, Nat.cast_ofNat] at e
    rw [if_neg e] at hwd
    left; constructor <;> linarith

/-- **C147.** At the start of every round a particle in a higher level, of whatever task, never has the wider step. -/
theorem C147_con_order (c : ConCfg n) (hr : ∀ i, c.lo i ≤ c.hi i) (hl : ∀ i, -DBL_MAX ≤ c.lo i)
    (hh : ∀ i, c.hi i < DBL_MAX) {L : (Fin n → ℝ) → ℝ} (hL : ∀ x, -DBL_MAX ≤ L x) {o : SOpts} (ho : GoodOpts o)
    (h32 : o.maxNumLevels < 2 ^ 32) (hf : o.flagLimits = true) {s : Sampler n}
    (h : WholeRun (conPerturb c) (ConDrawn c) L o s) {ps qs : List (Particle n)} (hps : ps ∈ s.tasks)
    (hqs : qs ∈ s.tasks) {p q : Particle n} (hp : p ∈ ps) (hq : q ∈ qs) (hpq : p.level ≤ q.level) (k : Fin n)
    (hk : c.fix k = none) (cands cands' : List (Fin n)) (r r' : ℝ) :
    conWidth c ⟨cands', r', q.level, s.levels.length, limitAt s.limits⟩ k ≤
      conWidth c ⟨cands, r, p.level, s.levels.length, limitAt s.limits⟩ k := by
  obtain ⟨a1, a2, a3, a4⟩ := C147_con c hr hl hh hL ho h32 hf h hps hp k hk cands r
  obtain ⟨b1, b2, b3, b4⟩ := C147_con c hr hl hh hL ho h32 hf h hqs hq k hk cands' r'
  by_cases h1 : 0 < p.level ∧ 10 < s.levels.length
  · obtain ⟨x, hx, _, _, ex⟩ := a4 h1.1 h1.2
    obtain ⟨y, hy, _, _, ey⟩ := b4 (by omega) h1.2
    have hn := (con_width_inv c hr hl hh hL ho h32 hf h k hk).2.1.nest _ _ x y (by omega) hx hy k
    rw [ex, ey]
    linarith [hn.1, hn.2]
  · rw [a3 (by omega)]; exact b2

/-- The width that the line models' move uses: `perturb_line_prior0` and `perturb_line_prior1`, src/dnest_line.c:584-597,
662-675. -/
noncomputable def lineWidth (c : LineCfg) (s : ConStep c.numParams) (k : Fin c.numParams) : ℝ :=
  if c.ordered then c.stepWidth 0 10 s k else c.stepWidth 5 15 s k

/-- **C147.** Line models, at the start of every round of every run.  With the ordered prior the width is chosen as in the
continuum model.  With the other prior the levels are shifted by five: the prior range for the first six levels or while
there are at most fifteen levels; otherwise the extent of the limits of the level six below, at most the sixteenth from the
top.  It is never negative and never more than the prior range. -/
theorem C147_line (c : LineCfg) (hr : c.RangesOk) (hs : c.SharedOk) (hp : c.posivity = false)
    (hg : c.gap → ∀ i < c.nl.length, 0 < c.nl.getD i 0) (hl : ∀ i, -DBL_MAX ≤ (c.rng i).1)
    (hh : ∀ i, (c.rng i).2 < DBL_MAX) {L : (Fin c.numParams → ℝ) → ℝ} (hL : ∀ x, -DBL_MAX ≤ L x)
    {o : SOpts} (ho : GoodOpts o) (h32 : o.maxNumLevels < 2 ^ 32) (hf : o.flagLimits = true) {s : Sampler c.numParams}
    (h : WholeRun (linePerturb c) (LineDrawn c) L o s) {ps : List (Particle c.numParams)} (hps : ps ∈ s.tasks)
    {p : Particle c.numParams} (hpp : p ∈ ps) (k : Fin c.numParams) (hk : c.fix k = none)
    (cands : List (Fin c.numParams)) (r : ℝ) :
    let w := lineWidth c ⟨cands, r, p.level, s.levels.length, limitAt s.limits⟩ k
    let a := if c.ordered then 0 else 5
    0 ≤ w ∧ w ≤ (c.rng k).2 - (c.rng k).1 ∧
      (p.level ≤ a ∨ s.levels.length ≤ 10 + a → w = (c.rng k).2 - (c.rng k).1) ∧
      (a < p.level → 10 + a < s.levels.length →
        ∃ b, s.limits[min (p.level - a) (s.levels.length - (10 + a)) - 1]? = some b ∧
          (c.rng k).1 ≤ (b k).1 ∧ (b k).2 ≤ (c.rng k).2 ∧ w = (b k).2 - (b k).1) := by
  intro w a
  obtain ⟨hw, hn, hsh, _, _⟩ := line_width_inv c hr hs hp hg hl hh hL ho h32 hf h k hk
  have hrk : (c.rng k).1 ≤ (c.rng k).2 := hr k k.2
  have hwd : w = c.stepWidth a (10 + a : ℕ) ⟨cands, r, p.level, s.levels.length, limitAt s.limits⟩ k := by
    simp only [w, a, lineWidth]
    split <;> rfl
  simp only [LineCfg.stepWidth] at hwd
  clear_value w a
  by_cases h1 : a < p.level ∧ 10 + a < s.levels.length
  · obtain ⟨h1, h2⟩ := h1
    obtain ⟨e1, e2⟩ := width_level a (10 + a) _ _ h1 h2
    obtain ⟨b, hb, hb1, hb2, hb3⟩ := hw.below (hh k) hn hsh hps hpp
      (j := min (p.level - a) (s.levels.length - (10 + a)) - 1) (by omega)
    rw [if_pos e1, e2, limitAt_get hb] at hwd
    refine ⟨by linarith, by linarith, fun h' => by omega, fun _ _ => ⟨b, hb, hb1, hb3, hwd⟩⟩
  · rw [if_neg (width_prior a (10 + a) p.level s.levels.length (by omega))] at hwd
    exact ⟨by linarith, by linarith, fun _ => hwd, fun a b => absurd ⟨a, b⟩ h1⟩

/-- **C147.** Line models inside a round, with the exception of a particle that has just jumped over levels nobody has
entered before. -/
theorem C147_line_call (c : LineCfg) (hr : c.RangesOk) (hs : c.SharedOk) (hp : c.posivity = false)
    (hg : c.gap → ∀ i < c.nl.length, 0 < c.nl.getD i 0) (hl : ∀ i, -DBL_MAX ≤ (c.rng i).1)
    (hh : ∀ i, (c.rng i).2 < DBL_MAX) {L : (Fin c.numParams → ℝ) → ℝ} (hL : ∀ x, -DBL_MAX ≤ L x)
    {o : SOpts} (ho : GoodOpts o) (h32 : o.maxNumLevels < 2 ^ 32) (hf : o.flagLimits = true) {s : Sampler c.numParams}
    (h : WholeRun (linePerturb c) (LineDrawn c) L o s) {ps : List (Particle c.numParams)} (hps : ps ∈ s.tasks)
    {t : TaskSt c.numParams} (ht : CallAt (linePerturb c) o L s ps t) {p : Particle c.numParams}
    (hpp : p ∈ t.particles) (k : Fin c.numParams) (hk : c.fix k = none) (cands : List (Fin c.numParams)) (r : ℝ) :
    let w := lineWidth c ⟨cands, r, p.level, t.levels.length, limitAt t.limits⟩ k
    let a := if c.ordered then 0 else 5
    (0 ≤ w ∧ w ≤ (c.rng k).2 - (c.rng k).1) ∨ (a < p.level ∧ 10 + a < t.levels.length ∧ w = -2 * DBL_MAX ∧
      ∃ b, t.limits[min (p.level - a) (t.levels.length - (10 + a)) - 1]? = some b ∧ b k = (DBL_MAX, -DBL_MAX)) := by
  intro w a
  obtain ⟨hw, hn, hsh, hq, hQ⟩ := line_width_inv c hr hs hp hg hl hh hL ho h32 hf h k hk
  have hb := width_call (linePerturb_keeps c hr hs hg) (hl k) (hh k) hQ hf hw hsh hq hps ht
  have hrk : (c.rng k).1 ≤ (c.rng k).2 := hr k k.2
  have hwd : w = c.stepWidth a (10 + a : ℕ) ⟨cands, r, p.level, t.levels.length, limitAt t.limits⟩ k := by
    simp only [w, a, lineWidth]
    split <;> rfl
  simp only [LineCfg.stepWidth] at hwd
  clear_value w a
  by_cases h1 : a < p.level ∧ 10 + a < t.levels.length
  · obtain ⟨h1, h2⟩ := h1
    obtain ⟨e1, e2⟩ := width_level a (10 + a) _ _ h1 h2
    have hj : min (p.level - a) (t.levels.length - (10 + a)) - 1 < t.limits.length := by
      have g1 := (hb.own p hpp).1
      have g2 := hb.cap
      omega
    have hget : t.limits[min (p.level - a) (t.levels.length - (10 + a)) - 1]? =
        some t.limits[min (p.level - a) (t.levels.length - (10 + a)) - 1] := by
      simp [hj]
    rw [if_pos e1, e2, limitAt_get hget] at hwd
    rcases hb.box _ (List.mem_of_getElem? hget) with g | ⟨g1, g2, g3⟩
    · right
      refine ⟨h1, h2, ?_, _, hget, g⟩
      rw [g] at hwd
      dsimp only at hwd
      linarith
    · left; constructor <;> linarith
  · rw [if_neg (width_prior a (10 + a) p.level t.levels.length (by omega))] at hwd
    left; constructor <;> linarith

/-- **C147.** The width is all that a move takes from the sampler: two moves of the same parameter with the same random
number times width give the same proposal and the same prior ratio. -/
theorem C147_used_line (c : LineCfg) (s s' : ConStep c.numParams) (k : Fin c.numParams) (hk : c.pick s.cands = .ok k)
    (hk' : c.pick s'.cands = .ok k) (hw : s.h * lineWidth c s k = s'.h * lineWidth c s' k) (x : Fin c.numParams → ℝ) :
    linePerturb c s x = linePerturb c s' x := by
  simp only [lineWidth] at hw
  unfold linePerturb LineCfg.perturb
  simp only [hk, hk', Res.ok_bind, hw]

/-- **C147.** Continuum model: the proposal is the old value plus random number times width, folded into the prior; the
other parameters are unchanged. -/
theorem C147_used_con (c : ConCfg n) (s : ConStep n) (k : Fin n) (hk : pickFree c s.cands = .ok k)
    (hlh : c.lo k < c.hi k) (x : Fin n → ℝ) :
    ∃ y : Fin n → ℝ, conPerturb c s x = .ok (y, 0) ∧ (∀ i, i ≠ k → y i = x i) ∧ c.lo k ≤ y k ∧ y k < c.hi k ∧
      ∃ z : ℤ, y k = x k + s.h * conWidth c s k - z * (c.hi k - c.lo k) := by
  obtain ⟨y, hy, h1, h2, z, hz⟩ := C01_wrap_range (x k + s.h * conWidth c s k) _ _ hlh
  refine ⟨Function.update x k y, ?_, fun i hi => by simp [hi], by simpa using h1, by simpa using h2, z, ?_⟩
  · simp only [conPerturb, perturbCon, hk, Res.ok_bind, hy, Res.pure_eq]
  · simp only [Function.update_self]; linarith

/-! ## The hypotheses are met -/

theorem whole_bounds : (∀ i, -DBL_MAX ≤ wholeCfg.lo i) ∧ ∀ i, wholeCfg.hi i < DBL_MAX := by
  have h : (10 : ℝ) < DBL_MAX := by
    unfold DBL_MAX
    calc (10 : ℝ) < (2 ^ 53 - 1) * 1 := by norm_num
      _ ≤ (2 ^ 53 - 1) * 2 ^ 971 := mul_le_mul_of_nonneg_left (one_le_pow₀ (by norm_num)) (by norm_num)
  exact ⟨fun _ => by simp only [wholeCfg]; linarith, fun _ => by simp only [wholeCfg]; exact h⟩

/-- The resumed run of Props/Whole.lean: its step width is the prior range. -/
example : ∃ s : Sampler 1, WholeRun (conPerturb wholeCfg) (ConDrawn wholeCfg) exL { exOpts with maxNumSaves := 5 } s ∧
    s.levels.length = 2 ∧ ∃ ps ∈ s.tasks, ∃ p ∈ ps,
      conWidth wholeCfg ⟨[0], 0.2, p.level, s.levels.length, limitAt s.limits⟩ 0 = 10 := by
  obtain ⟨s, h, _, h2⟩ := whole_run
  have hg : GoodOpts { exOpts with maxNumSaves := 5 } := by constructor <;> simp
  have hr : ∀ i, wholeCfg.lo i ≤ wholeCfg.hi i := fun _ => by norm_num [wholeCfg]
  have hs := (sessions_inv exL_bound hg (by simp) (C146_con_refines wholeCfg hr exL_bound hg (by simp) h)).shape
  obtain ⟨ps, hps⟩ := List.exists_mem_of_length_pos (l := s.tasks) (by rw [hs.nt]; exact hg.nt)
  obtain ⟨p, hp⟩ := List.exists_mem_of_length_pos (l := ps) (by rw [(hs.np ps hps).1]; exact hg.np)
  refine ⟨s, h, h2, ps, hps, p, hp, ?_⟩
  have := (C147_con wholeCfg hr whole_bounds.1 whole_bounds.2 exL_bound hg (by simp) rfl h hps hp 0 rfl [0] 0.2).2.2.1
    (.inr (by omega))
  rw [this]; norm_num [wholeCfg]

/-- A level whose limits are narrower than the prior gives the narrower step. -/
example : conWidth wholeCfg ⟨[0], 0.2, 3, 20, fun l _ => if l = 2 then (1, 4) else (0, 9)⟩ 0 = 3 := by
  norm_num [conWidth]

end Mica
